import Verif.Lemmas.X509
/-
  Identifiers, dates, names and keys in certificates.
-/
set_option autoImplicit false

namespace Verif.X509
open Der Cms CmsSpec BerSpec X509Spec ExtSpec

/-! ### Object identifiers -/

theorem arc_sound : ∀ (s : Bytes) (i ret v : Nat) (r : Bytes), arc i ret s = .ok (v, r) →
    ∃ init last, (∀ b ∈ init, 0x80 ≤ b) ∧ last < 0x80 ∧ (i = 0 → (init ++ [last]).headD 0 ≠ 0x80) ∧ s = init ++ [last] ++ r ∧
      v = (init ++ [last]).foldl (fun a b => a * 128 + b.toNat % 128) ret ∧ v < 2 ^ 31
  | [], i, ret, v, r, h => by simp [arc] at h
  | b :: s, i, ret, v, r, h => by
    simp only [arc] at h
    split at h
    · cases h
    · split at h
      · cases h
      · next h24 =>
        split at h
        · cases h
        · next h80 =>
          split at h
          · next hb =>
            cases h
            refine ⟨[], b, by simp, hb, fun h0 => ?_, rfl, rfl, ?_⟩
            · simp only [List.nil_append, List.headD_cons]
              exact fun e => h80 ⟨h0, e⟩
            · have := Nat.mod_lt b.toNat (show 0 < 128 by decide); omega
          · next hb =>
            obtain ⟨init, last, h1, h2, h3, h4, h5, h6⟩ := arc_sound s _ _ _ _ h
            refine ⟨b :: init, last, ?_, h2, fun h0 => ?_, by rw [h4]; rfl, h5, h6⟩
            · intro x hx
              rcases List.mem_cons.mp hx with rfl | hx
              · rw [UInt8.le_iff_toNat_le]; rw [UInt8.lt_iff_toNat_lt] at hb; omega
              · exact h1 x hx
            · simp only [List.cons_append, List.headD_cons]
              exact fun e => h80 ⟨h0, e⟩

theorem arc_foldl_ge (l : Bytes) : ∀ ret : Nat, ret ≤ l.foldl (fun a b => a * 128 + b.toNat % 128) ret := by
  induction l with
  | nil => intro ret; exact Nat.le_refl _
  | cons b l ih => intro ret; have := ih (ret * 128 + b.toNat % 128); simp only [List.foldl_cons]; omega

theorem arc_complete : ∀ (init : Bytes) (last : UInt8) (r : Bytes) (i ret : Nat), (∀ b ∈ init, 0x80 ≤ b) → last < 0x80 →
    (i = 0 → (init ++ [last]).headD 0 ≠ 0x80) → (1 ≤ i → 128 ^ (i - 1) ≤ ret) →
    (init ++ [last]).foldl (fun a b => a * 128 + b.toNat % 128) ret < 2 ^ 31 →
    arc i ret (init ++ [last] ++ r) = .ok ((init ++ [last]).foldl (fun a b => a * 128 + b.toNat % 128) ret, r)
  | [], last, r, i, ret, _, hl, hh, hi, hv => by
    simp only [List.nil_append, List.foldl_cons, List.foldl_nil] at hv ⊢
    have h24 : ¬ ret ≥ 2 ^ 24 := by omega
    have hi5 : ¬ i = 5 := by rintro rfl; have := hi (by decide); omega
    simp only [List.singleton_append, arc]
    rw [if_neg hi5, if_neg h24, if_neg (fun h => hh h.1 (by simp [h.2])), if_pos hl]
  | b :: init, last, r, i, ret, hb, hl, hh, hi, hv => by
    have hb1 := hb b (by simp)
    have hlt : ¬ b < 0x80 := by
      rw [UInt8.lt_iff_toNat_lt]; rw [UInt8.le_iff_toNat_le] at hb1; omega
    have h3 : ¬ (i = 0 ∧ b = 0x80) := fun h => hh h.1 (by simp [h.2])
    simp only [List.cons_append, List.foldl_cons] at hv ⊢
    have hge := arc_foldl_ge (init ++ [last]) (ret * 128 + b.toNat % 128)
    have h24 : ¬ ret ≥ 2 ^ 24 := by omega
    have hi5 : ¬ i = 5 := by rintro rfl; have := hi (by decide); omega
    simp only [arc]
    rw [if_neg hi5, if_neg h24, if_neg h3, if_neg hlt]
    refine arc_complete init last r (i + 1) _ (fun x hx => hb x (by simp [hx])) hl (by omega) (fun _ => ?_) hv
    rw [Nat.add_sub_cancel]
    rcases Nat.eq_zero_or_pos i with h0 | h0
    · subst h0
      have : b.toNat ≠ 128 := fun e => h3 ⟨rfl, UInt8.toNat_inj.mp (by simpa using e)⟩
      have h128 : 128 ≤ b.toNat := by simpa using UInt8.le_iff_toNat_le.mp hb1
      have := u8_lt b
      simp only [Nat.pow_zero]
      omega
    · have := hi h0
      have e : (128 : Nat) ^ i = 128 ^ (i - 1) * 128 := by rw [← Nat.pow_succ]; congr 1; omega
      rw [e]
      have := Nat.mul_le_mul_right 128 this
      omega

theorem arc_iff {s r : Bytes} {v : Nat} :
    arc 0 0 s = .ok (v, r) ↔ ∃ a, (ArcOctets a ∧ arcValue a = v ∧ v < 2 ^ 31) ∧ s = a ++ r := by
  constructor
  · intro h
    obtain ⟨init, last, h1, h2, h3, h4, h5, h6⟩ := arc_sound _ _ _ _ _ h
    exact ⟨init ++ [last], ⟨⟨init, last, rfl, h2, h1, h3 rfl⟩, h5.symm, h6⟩, h4⟩
  · rintro ⟨a, ⟨⟨init, last, rfl, h2, h1, h3⟩, rfl, h6⟩, rfl⟩
    exact arc_complete init last r 0 0 h1 h2 (fun _ => h3) (by omega) h6

theorem arcs_iff {c : Bytes} : (∃ l, parseAll (arc 0 0) c = .ok l) ↔
    ∃ arcs : List Bytes, (∀ a ∈ arcs, ArcOctets a ∧ arcValue a < 2 ^ 31) ∧ c = arcs.flatten := by
  have hp : ∀ (l : List Nat), parseAll (arc 0 0) c = .ok l ↔
      ∃ encs, List.Forall₂ (fun v a => ArcOctets a ∧ arcValue a = v ∧ v < 2 ^ 31) l encs ∧ c = encs.flatten := fun l =>
    parseAll_iff (fun s v r => arc_iff) (by rintro v a ⟨⟨init, last, rfl, -⟩, -⟩; simp)
  constructor
  · rintro ⟨l, hl⟩
    obtain ⟨encs, h1, rfl⟩ := (hp l).mp hl
    refine ⟨encs, ?_, rfl⟩
    clear hl hp
    induction h1 with
    | nil => simp
    | cons h _ ih =>
      intro a ha
      rcases List.mem_cons.mp ha with rfl | ha
      · exact ⟨h.1, h.2.1 ▸ h.2.2⟩
      · exact ih a ha
  · rintro ⟨arcs, h, rfl⟩
    refine ⟨arcs.map arcValue, (hp _).mpr ⟨arcs, ?_, rfl⟩⟩
    clear hp
    induction arcs with
    | nil => exact .nil
    | cons a arcs ih =>
      exact .cons ⟨(h a (by simp)).1, rfl, (h a (by simp)).2⟩ (ih fun x hx => h x (by simp [hx]))

theorem readOID_iff {s c r : Bytes} : readOID s = .ok (c, r) ↔ ∃ e, Oid c e ∧ s = e ++ r := by
  unfold readOID
  rw [Go.bind_eq_ok]
  constructor
  · rintro ⟨⟨c', r'⟩, h1, h2⟩
    split at h2
    · cases h2
    · next hn =>
      obtain ⟨l, h3, h4⟩ := Go.bind_eq_ok.mp h2
      cases h4
      obtain ⟨e, he, rfl⟩ := read_iff.mp h1
      exact ⟨e, ⟨⟨hn, arcs_iff.mp ⟨l, h3⟩⟩, he⟩, rfl⟩
  · rintro ⟨e, ⟨⟨hn, ha⟩, he⟩, rfl⟩
    obtain ⟨l, hl⟩ := arcs_iff.mpr ha
    refine ⟨(c, r), read_iff.mpr ⟨e, he, rfl⟩, ?_⟩
    rw [if_neg hn, Go.bind_eq_ok]
    exact ⟨l, hl, rfl⟩

/-! ### Bit strings as octets -/

theorem shift_octet (s : Nat) (h1 : 1 ≤ s) (h7 : s ≤ 7) (p b : UInt8) :
    ((p <<< (8 - s.toUInt8)) ||| (b >>> s.toUInt8)).toNat = (p.toNat * 256 + b.toNat) / 2 ^ s % 256 := by
  have hp := u8_lt p
  have hb := u8_lt b
  have key : ∀ (k : Nat) (x y : Nat), y < 2 ^ k → x * 2 ^ k ||| y = x * 2 ^ k + y := by
    intro k x y h
    have := Nat.shiftLeft_add_eq_or_of_lt h x
    rw [Nat.shiftLeft_eq] at this
    exact this.symm
  have red : ∀ (k j : Nat), k + j = 8 → p.toNat * 2 ^ k % 256 = (p.toNat % 2 ^ j) * 2 ^ k := by
    intro k j h
    rw [show (256 : Nat) = 2 ^ j * 2 ^ k by rw [← Nat.pow_add, Nat.add_comm, h], Nat.mul_mod_mul_right]
  obtain rfl | rfl | rfl | rfl | rfl | rfl | rfl : s = 1 ∨ s = 2 ∨ s = 3 ∨ s = 4 ∨ s = 5 ∨ s = 6 ∨ s = 7 := by omega
  all_goals
    rw [UInt8.toNat_or, UInt8.toNat_shiftLeft, UInt8.toNat_shiftRight]
  · show (p.toNat <<< 7) % 256 ||| b.toNat >>> 1 = _
    rw [Nat.shiftLeft_eq, Nat.shiftRight_eq_div_pow, red 7 1 rfl, key 7 _ _ (by omega)]; omega
  · show (p.toNat <<< 6) % 256 ||| b.toNat >>> 2 = _
    rw [Nat.shiftLeft_eq, Nat.shiftRight_eq_div_pow, red 6 2 rfl, key 6 _ _ (by omega)]; omega
  · show (p.toNat <<< 5) % 256 ||| b.toNat >>> 3 = _
    rw [Nat.shiftLeft_eq, Nat.shiftRight_eq_div_pow, red 5 3 rfl, key 5 _ _ (by omega)]; omega
  · show (p.toNat <<< 4) % 256 ||| b.toNat >>> 4 = _
    rw [Nat.shiftLeft_eq, Nat.shiftRight_eq_div_pow, red 4 4 rfl, key 4 _ _ (by omega)]; omega
  · show (p.toNat <<< 3) % 256 ||| b.toNat >>> 5 = _
    rw [Nat.shiftLeft_eq, Nat.shiftRight_eq_div_pow, red 3 5 rfl, key 3 _ _ (by omega)]; omega
  · show (p.toNat <<< 2) % 256 ||| b.toNat >>> 6 = _
    rw [Nat.shiftLeft_eq, Nat.shiftRight_eq_div_pow, red 2 6 rfl, key 2 _ _ (by omega)]; omega
  · show (p.toNat <<< 1) % 256 ||| b.toNat >>> 7 = _
    rw [Nat.shiftLeft_eq, Nat.shiftRight_eq_div_pow, red 1 7 rfl, key 1 _ _ (by omega)]; omega

theorem foldl_beVal (t : Bytes) : ∀ x : Nat, t.foldl (fun a d => a * 256 + d.toNat) x = x * 256 ^ t.length + beVal t := by
  induction t with
  | nil => intro x; simp [beVal]
  | cons b t ih =>
    intro x
    have h1 := ih (x * 256 + b.toNat)
    have h2 := ih (0 * 256 + b.toNat)
    simp only [List.foldl_cons] at *
    rw [h1]
    unfold beVal at *
    simp only [List.foldl_cons]
    rw [h2, List.length_cons, Nat.pow_succ]
    simp only [Nat.add_mul, Nat.mul_assoc, Nat.zero_mul, Nat.zero_add]
    rw [Nat.mul_comm 256 (256 ^ t.length)]
    omega

theorem beVal_cons (a : UInt8) (t : Bytes) : beVal (a :: t) = a.toNat * 256 ^ t.length + beVal t := by
  have := foldl_beVal t (0 * 256 + a.toNat)
  rw [Nat.zero_mul, Nat.zero_add] at this
  rw [← this]
  simp [beVal]

theorem beVal_inj_len {a b : Bytes} (hl : a.length = b.length) (h : beVal a = beVal b) : a = b := by
  induction a generalizing b with
  | nil =>
    cases b with
    | nil => rfl
    | cons y b => simp at hl
  | cons x a ih =>
    cases b with
    | nil => simp at hl
    | cons y b =>
      simp only [List.length_cons, Nat.add_right_cancel_iff] at hl
      rw [beVal_cons, beVal_cons, hl] at h
      have h1 := Ber.beVal_lt a
      have h2 := Ber.beVal_lt b
      rw [hl] at h1
      have hw : 0 < 256 ^ b.length := Nat.pow_pos (by decide)
      generalize (256 : Nat) ^ b.length = w at *
      have e1 : x.toNat = y.toNat := by
        have a1 : (x.toNat * w + beVal a) / w = x.toNat := by
          rw [Nat.mul_comm, Nat.mul_add_div hw, Nat.div_eq_of_lt h1, Nat.add_zero]
        have a2 : (y.toNat * w + beVal b) / w = y.toNat := by
          rw [Nat.mul_comm, Nat.mul_add_div hw, Nat.div_eq_of_lt h2, Nat.add_zero]
        rw [← a1, ← a2, h]
      rw [e1] at h
      have := ih hl (by omega)
      rw [this, UInt8.toNat_inj.mp e1]

theorem shiftRight_length (s : UInt8) : ∀ (p : UInt8) (bs : Bytes), (Crl.shiftRight s p bs).length = bs.length
  | _, [] => rfl
  | p, b :: bs => by simp [Crl.shiftRight, shiftRight_length s b bs]

theorem shiftRight_val (s : Nat) (h1 : 1 ≤ s) (h7 : s ≤ 7) : ∀ (bs : Bytes) (p : UInt8),
    beVal (Crl.shiftRight s.toUInt8 p bs) = (p.toNat * 256 ^ bs.length + beVal bs) / 2 ^ s % 256 ^ bs.length
  | [], p => by simp [Crl.shiftRight, beVal, Nat.mod_one]
  | b :: bs, p => by
    simp only [Crl.shiftRight]
    rw [beVal_cons, shiftRight_length, shiftRight_val s h1 h7 bs b, shift_octet s h1 h7, beVal_cons, List.length_cons, Nat.pow_succ]
    have hb := Ber.beVal_lt bs
    have hw : 0 < 256 ^ bs.length := Nat.pow_pos (by decide)
    generalize beVal bs = x at *
    generalize (256 : Nat) ^ bs.length = w at *
    generalize p.toNat = p at *
    generalize b.toNat = b at *
    have e : p * (w * 256) + (b * w + x) = (p * 256 + b) * w + x := by
      rw [Nat.add_mul, Nat.mul_assoc, Nat.mul_comm w 256, Nat.add_assoc]
    rw [e]
    generalize hq : p * 256 + b = q
    have hq2 : q % 256 = b % 256 := by omega
    -- (q*w + x)/2^s % (w*256)
    have hd : (2 ^ s : Nat) ∣ 256 := ⟨2 ^ (8 - s), by rw [← Nat.pow_add, show s + (8 - s) = 8 by omega]⟩
    obtain ⟨k, hk⟩ := hd
    have hs : 0 < 2 ^ s := Nat.pow_pos (by decide)
    have hbq : b * w + x = (q * w + x) - p * 256 * w := by
      rw [← hq, Nat.add_mul]; omega
    -- both sides have the same quotient and remainder by w
    generalize hy : (q * w + x) / 2 ^ s = y
    have m1 : y % (w * 256) = y / w % 256 * w + y % w := by
      rw [Nat.mod_mul]; rw [Nat.mul_comm]; omega
    have d1 : y / w = q / 2 ^ s := by
      rw [← hy, Nat.div_div_eq_div_mul, Nat.mul_comm (2 ^ s) w, ← Nat.div_div_eq_div_mul, Nat.mul_comm q w, Nat.mul_add_div hw,
        Nat.div_eq_of_lt hb, Nat.add_zero]
    have m2 : y % w = (b * w + x) / 2 ^ s % w := by
      have : q * w + x = (b * w + x) + 2 ^ s * (p * k * w) := by
        rw [← hq, hk, Nat.add_mul]
        have : p * (2 ^ s * k) * w = 2 ^ s * (p * k * w) := by
          simp only [Nat.mul_assoc, Nat.mul_left_comm]
        omega
      rw [← hy, this, Nat.add_mul_div_left _ _ hs, Nat.add_mul_mod_self_right]
    rw [m1, d1, m2]

theorem aligned_iff {b : Cert.BitString} {u : Nat} (hu : u ≤ 7) (h0 : b.bytes = [] → u = 0)
    (hl : b.bitLength = 8 * b.bytes.length - u) (o : Bytes) : Crl.rightAlign b = o ↔ Shifted b.bytes u o := by
  obtain ⟨bs, n⟩ := b
  simp only at h0 hl
  subst hl
  have key : Shifted bs u (Crl.rightAlign ⟨bs, 8 * bs.length - u⟩) := by
    unfold Crl.rightAlign
    simp only
    by_cases hz : u = 0
    · subst hz
      rw [if_pos (.inl (by omega))]
      exact ⟨rfl, by simp⟩
    · have hne : bs ≠ [] := fun e => hz (h0 e)
      have hpos : 0 < bs.length := List.length_pos_iff.mpr hne
      have hm : (8 * bs.length - u) % 8 = 8 - u := by omega
      rw [if_neg (by rintro (h | h); · omega
                     · exact hne h), hm, show 8 - (8 - u) = u by omega]
      refine ⟨shiftRight_length _ _ _, ?_⟩
      rw [shiftRight_val u (by omega) hu]
      have := Ber.beVal_lt bs
      simp only [UInt8.toNat_zero, Nat.zero_mul, Nat.zero_add]
      exact Nat.mod_eq_of_lt (Nat.lt_of_le_of_lt (Nat.div_le_self _ _) this)
  constructor
  · rintro rfl; exact key
  · intro h
    exact beVal_inj_len (key.1.trans h.1.symm) (key.2.trans h.2.symm)

theorem readAligned_iff {s r o : Bytes} :
    (∃ b, readBits s = .ok (b, r) ∧ Crl.rightAlign b = o) ↔ ∃ e, BitsAligned o e ∧ s = e ++ r := by
  constructor
  · rintro ⟨b, h, ha⟩
    obtain ⟨u, e, hb, hl, rfl⟩ := readBits_iff.mp h
    exact ⟨e, ⟨b.bytes, u, hb, (aligned_iff hb.1 hb.2.1 hl o).mp ha⟩, rfl⟩
  · rintro ⟨e, ⟨bytes, u, hb, hs⟩, rfl⟩
    refine ⟨⟨bytes, 8 * bytes.length - u⟩, readBits_iff.mpr ⟨u, e, hb, rfl, rfl⟩, ?_⟩
    exact (aligned_iff (b := ⟨bytes, 8 * bytes.length - u⟩) hb.1 hb.2.1 rfl o).mpr hs

end Verif.X509
