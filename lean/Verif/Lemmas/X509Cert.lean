import Verif.Lemmas.X509Name
/-
  What the extensions of a certificate say, and certificates as a whole.
-/
set_option autoImplicit false

namespace Verif.X509
open Der Cms CmsSpec BerSpec X509Spec

/-! ### Key usage -/

theorem pow256 (n : Nat) : (256 : Nat) ^ n = 2 ^ (8 * n) := by
  rw [show (256 : Nat) = 2 ^ 8 by decide, ← Nat.pow_mul]

theorem bit_val (bytes : Bytes) : ∀ i, i < 8 * bytes.length →
    (bytes.getD (i / 8) 0).toNat / 2 ^ (7 - i % 8) % 2 = beVal bytes / 2 ^ (8 * bytes.length - 1 - i) % 2 := by
  induction bytes with
  | nil => intro i h; simp at h
  | cons a t ih =>
    intro i h
    rw [beVal_cons, pow256, List.length_cons] at *
    by_cases h8 : i < 8
    · have e0 : i / 8 = 0 := Nat.div_eq_of_lt h8
      rw [e0, Nat.mod_eq_of_lt h8, show 8 * (t.length + 1) - 1 - i = 8 * t.length + (7 - i) by omega, Nat.pow_add,
        ← Nat.div_div_eq_div_mul]
      have hb := Ber.beVal_lt t
      rw [pow256] at hb
      have hp : 0 < 2 ^ (8 * t.length) := Nat.pow_pos (by decide)
      rw [Nat.mul_comm a.toNat, Nat.mul_add_div hp, Nat.div_eq_of_lt hb, Nat.add_zero]
      rfl
    · have e0 : i / 8 = (i - 8) / 8 + 1 := by omega
      have e1 : i % 8 = (i - 8) % 8 := by omega
      have := ih (i - 8) (by omega)
      rw [e0, e1, List.getD_cons_succ, this, show 8 * (t.length + 1) - 1 - i = 8 * t.length - 1 - (i - 8) by omega]
      generalize hk : 8 * t.length - 1 - (i - 8) = k
      have hp : 0 < 2 ^ k := Nat.pow_pos (by decide)
      have e2 : a.toNat * 2 ^ (8 * t.length) + beVal t = beVal t + 2 ^ k * (a.toNat * 2 ^ (8 * t.length - k)) := by
        rw [Nat.mul_left_comm, ← Nat.pow_add, show k + (8 * t.length - k) = 8 * t.length by omega, Nat.add_comm]
      rw [e2, Nat.add_mul_div_left _ _ hp, show 8 * t.length - k = 8 * t.length - k - 1 + 1 by omega, Nat.pow_succ,
        ← Nat.mul_assoc, Nat.add_mul_mod_self_right]

theorem bitAt_iff {b : Cert.BitString} {u : Nat} (hz : beVal b.bytes % 2 ^ u = 0) (hl : b.bitLength = 8 * b.bytes.length - u) (i : Nat) :
    bitAt b i = true ↔ i < 8 * b.bytes.length ∧ beVal b.bytes / 2 ^ (8 * b.bytes.length - 1 - i) % 2 = 1 := by
  unfold bitAt
  rw [Bool.and_eq_true, decide_eq_true_iff, decide_eq_true_iff, hl]
  by_cases h : i < 8 * b.bytes.length
  · rw [bit_val b.bytes i h]
    constructor
    · rintro ⟨-, h2⟩; exact ⟨h, h2⟩
    · rintro ⟨-, h2⟩
      refine ⟨?_, h2⟩
      apply Classical.byContradiction
      intro hn
      have hk : 8 * b.bytes.length - 1 - i < u := by omega
      generalize 8 * b.bytes.length - 1 - i = k at *
      obtain ⟨m, hm⟩ := Nat.dvd_of_mod_eq_zero hz
      have e : 2 ^ u * m = 2 ^ k * (2 * (2 ^ (u - k - 1) * m)) := by
        rw [← Nat.mul_assoc, ← Nat.mul_assoc, ← Nat.pow_succ, ← Nat.pow_add, show k.succ + (u - k - 1) = u by omega]
      rw [hm, e, Nat.mul_div_cancel_left _ (Nat.pow_pos (by decide)), Nat.mul_mod_right] at h2
      cases h2
  · constructor
    · rintro ⟨h1, -⟩; omega
    · rintro ⟨h1, -⟩; exact absurd h1 h

theorem sum_bits (f : Nat → Bool) (u : Nat) :
    ((List.range 9).map fun i => if f i then 2 ^ i else 0).sum = u ↔ u < 2 ^ 9 ∧ ∀ i < 9, (u / 2 ^ i % 2 = 1 ↔ f i = true) := by
  have key : ∀ i, ∃ x : Nat, x ≤ 1 ∧ (f i = true ↔ x = 1) ∧ (if f i then 2 ^ i else 0) = x * 2 ^ i := by
    intro i
    cases h : f i
    · exact ⟨0, by omega, by simp, by simp⟩
    · exact ⟨1, by omega, by simp, by simp⟩
  obtain ⟨x0, a0, b0, c0⟩ := key 0
  obtain ⟨x1, a1, b1, c1⟩ := key 1
  obtain ⟨x2, a2, b2, c2⟩ := key 2
  obtain ⟨x3, a3, b3, c3⟩ := key 3
  obtain ⟨x4, a4, b4, c4⟩ := key 4
  obtain ⟨x5, a5, b5, c5⟩ := key 5
  obtain ⟨x6, a6, b6, c6⟩ := key 6
  obtain ⟨x7, a7, b7, c7⟩ := key 7
  obtain ⟨x8, a8, b8, c8⟩ := key 8
  have e : ((List.range 9).map fun i => if f i then 2 ^ i else 0).sum =
      x0 + (x1 * 2 + (x2 * 4 + (x3 * 8 + (x4 * 16 + (x5 * 32 + (x6 * 64 + (x7 * 128 + x8 * 256))))))) := by
    have : List.range 9 = [0, 1, 2, 3, 4, 5, 6, 7, 8] := by decide
    rw [this]
    simp only [List.map_cons, List.map_nil, List.sum_cons, List.sum_nil, c0, c1, c2, c3, c4, c5, c6, c7, c8]
    omega
  rw [e]
  constructor
  · rintro rfl
    refine ⟨by omega, ?_⟩
    intro i hi
    obtain rfl | rfl | rfl | rfl | rfl | rfl | rfl | rfl | rfl :
      i = 0 ∨ i = 1 ∨ i = 2 ∨ i = 3 ∨ i = 4 ∨ i = 5 ∨ i = 6 ∨ i = 7 ∨ i = 8 := by omega
    · rw [b0]; omega
    · rw [b1]; omega
    · rw [b2]; omega
    · rw [b3]; omega
    · rw [b4]; omega
    · rw [b5]; omega
    · rw [b6]; omega
    · rw [b7]; omega
    · rw [b8]; omega
  · rintro ⟨hu, h⟩
    have h0 := (h 0 (by decide)).trans b0
    have h1 := (h 1 (by decide)).trans b1
    have h2 := (h 2 (by decide)).trans b2
    have h3 := (h 3 (by decide)).trans b3
    have h4 := (h 4 (by decide)).trans b4
    have h5 := (h 5 (by decide)).trans b5
    have h6 := (h 6 (by decide)).trans b6
    have h7 := (h 7 (by decide)).trans b7
    have h8 := (h 8 (by decide)).trans b8
    clear c0 c1 c2 c3 c4 c5 c6 c7 c8 b0 b1 b2 b3 b4 b5 b6 b7 b8 e h
    have m : ∀ {y x : Nat}, x ≤ 1 → (y % 2 = 1 ↔ x = 1) → y % 2 = x := by intro y x hx h; omega
    replace h0 := m a0 h0
    replace h1 := m a1 h1
    replace h2 := m a2 h2
    replace h3 := m a3 h3
    replace h4 := m a4 h4
    replace h5 := m a5 h5
    replace h6 := m a6 h6
    replace h7 := m a7 h7
    replace h8 := m a8 h8
    omega

theorem keyUsage_iff {v : Bytes} {u : Nat} : keyUsage v = .ok u ↔ KeyUsageDer u v := by
  unfold keyUsage KeyUsageDer
  constructor
  · intro h
    rw [Go.bind_eq_ok] at h
    obtain ⟨⟨b, q⟩, h1, h⟩ := h
    simp only [Go.pure_def, Go.ok.injEq] at h
    obtain ⟨w, e, hb, hl, rfl⟩ := readBits_iff.mp h1
    obtain ⟨hu, hi⟩ := (sum_bits _ u).mp h
    exact ⟨b.bytes, w, e, q, hb, rfl, hu, fun i h9 => (hi i h9).trans (bitAt_iff hb.2.2.1 hl i)⟩
  · rintro ⟨bytes, w, e, junk, hb, rfl, hu, hi⟩
    rw [readBits_iff (b := ⟨bytes, 8 * bytes.length - w⟩) |>.mpr ⟨w, e, hb, rfl, rfl⟩, Go.ok_bind]
    simp only [Go.pure_def, Go.ok.injEq]
    exact (sum_bits _ u).mpr ⟨hu, fun i h9 => (hi i h9).trans
      (bitAt_iff (b := ⟨bytes, 8 * bytes.length - w⟩) hb.2.2.1 rfl i).symm⟩

/-! ### Basic constraints -/

theorem basic_iff {v : Bytes} {ca : Bool} : basicConstraints v = .ok ca ↔ BasicDer ca v := by
  unfold basicConstraints BasicDer optBool optInt
  constructor
  · intro h
    rw [Go.bind_eq_ok] at h
    obtain ⟨⟨c, q⟩, h1, h⟩ := h
    rw [Go.bind_eq_ok] at h
    obtain ⟨⟨b, q1⟩, h2, h⟩ := h
    rw [Go.bind_eq_ok] at h
    obtain ⟨⟨i, q2⟩, h3, h⟩ := h
    cases h
    obtain ⟨e, he, rfl⟩ := read_iff.mp h1
    have hi : q1.head? ≠ some 0x02 ∨ ∃ i x more, Int64 i x ∧ q1 = x ++ more := by
      split at h3
      · obtain ⟨x, hx, hq⟩ := readInt_iff.mp h3
        exact .inr ⟨i, x, q2, hx, hq⟩
      · next hp => exact .inl (fun h => hp (peek_iff.mpr h))
    split at h2
    · obtain ⟨x, hx, hq⟩ := readBool_iff.mp h2
      exact ⟨c, e, q, x, q1, he, rfl, hq, .inr hx, hi⟩
    · next hp =>
      cases h2
      exact ⟨c, e, q, [], c, he, rfl, rfl, .inl ⟨rfl, rfl, fun h => hp (peek_iff.mpr h)⟩, hi⟩
  · rintro ⟨c, e, junk, a, r, he, rfl, rfl, ha, hr⟩
    rw [read_iff.mpr ⟨e, he, rfl⟩, Go.ok_bind]
    have h2 : (if peek 0x01 (a ++ r) then readBool (a ++ r) else .ok (false, a ++ r)) = .ok (ca, r) := by
      rcases ha with ⟨rfl, rfl, hh⟩ | ha
      · rw [List.nil_append, if_neg (fun h => hh (peek_iff.mp h))]
      · rw [if_pos (peek_iff.mpr (tlv_head ha r)), readBool_iff.mpr ⟨a, ha, rfl⟩]
    have h3 : ∃ z, (if peek 0x02 r then readInt r else .ok (-1, r)) = .ok z := by
      by_cases hp : peek 0x02 r = true
      · rcases hr with hr | ⟨i, x, more, hx, rfl⟩
        · exact absurd (peek_iff.mp hp) hr
        · rw [if_pos hp]
          exact ⟨_, readInt_iff.mpr ⟨x, hx, rfl⟩⟩
      · rw [if_neg hp]; exact ⟨_, rfl⟩
    obtain ⟨z, hz⟩ := h3
    simp only []
    rw [h2, Go.ok_bind]
    simp only []
    rw [hz]
    rfl

/-! ### Distribution points -/

theorem urisFuel_sound (n : Nat) : ∀ (s : Bytes) (l : List Bytes), urisFuel n s = .ok l → UriRun l s := by
  induction n with
  | zero =>
    intro s l h
    simp only [urisFuel] at h
    split at h
    · cases h
    · next hp =>
      cases h
      exact ⟨[], s, .nil, rfl, fun h => hp (peek_iff.mpr h)⟩
  | succ n ih =>
    intro s l h
    simp only [urisFuel] at h
    split at h
    · rw [Go.bind_eq_ok] at h
      obtain ⟨⟨u, q⟩, h1, h⟩ := h
      rw [Go.bind_eq_ok] at h
      obtain ⟨t, h2, h⟩ := h
      cases h
      obtain ⟨e, he, rfl⟩ := read_iff.mp h1
      obtain ⟨encs, rest, h3, h4, h5⟩ := ih _ _ h2
      simp only at h4
      exact ⟨e :: encs, rest, .cons he h3, by rw [h4, List.flatten_cons, List.append_assoc], h5⟩
    · next hp =>
      cases h
      exact ⟨[], s, .nil, rfl, fun h => hp (peek_iff.mpr h)⟩

theorem urisFuel_complete {l encs : List Bytes} (h : List.Forall₂ (Tlv 0x86) l encs) (rest : Bytes) (hr : rest.head? ≠ some 0x86) :
    ∀ n, encs.flatten.length ≤ n → urisFuel n (encs.flatten ++ rest) = .ok l := by
  have hz : peek 0x86 rest = false := by
    rw [Bool.eq_false_iff]; exact fun h => hr (peek_iff.mp h)
  induction h with
  | nil =>
    intro n _
    cases n <;> simp [urisFuel, hz]
  | @cons u e l encs he _ ih =>
    intro n hn
    have hpos : 0 < e.length := List.length_pos_iff.mpr (tlv_ne he)
    rw [List.flatten_cons, List.length_append] at hn
    cases n with
    | zero => omega
    | succ n =>
      simp only [urisFuel]
      rw [List.flatten_cons, List.append_assoc, if_pos (peek_iff.mpr (tlv_head he _)), read_iff.mpr ⟨e, he, rfl⟩, Go.ok_bind]
      simp only []
      rw [ih n (by omega)]
      rfl

theorem uris_iff {s : Bytes} {l : List Bytes} : uris s = .ok l ↔ UriRun l s := by
  constructor
  · exact urisFuel_sound _ _ _
  · rintro ⟨encs, rest, h1, rfl, h2⟩
    exact urisFuel_complete h1 rest h2 _ (by simp)

theorem readPoint_iff {s r : Bytes} {l : List Bytes} : readPoint s = .ok (l, r) ↔ ∃ e, PointDer l e ∧ s = e ++ r := by
  unfold readPoint PointDer
  constructor
  · intro h
    rw [Go.bind_eq_ok] at h
    obtain ⟨⟨c, q⟩, h1, h⟩ := h
    rw [Go.bind_eq_ok] at h
    obtain ⟨⟨n, q1⟩, h2, h⟩ := h
    obtain ⟨e, he, rfl⟩ := read_iff.mp h1
    have ho := readOpt_iff.mp h2
    cases n with
    | none =>
      cases h
      exact ⟨e, ⟨c, he, none, q1, ho, rfl⟩, rfl⟩
    | some n =>
      simp only at h
      rw [Go.bind_eq_ok] at h
      obtain ⟨⟨f, q2⟩, h3, h⟩ := h
      rw [Go.bind_eq_ok] at h
      obtain ⟨u, h4, h⟩ := h
      cases h
      obtain ⟨e1, he1, rfl⟩ := read_iff.mp h3
      exact ⟨e, ⟨c, he, some _, q1, ho, f, e1, q2, he1, rfl, uris_iff.mp h4⟩, rfl⟩
  · rintro ⟨e, ⟨c, he, n, rest, ho, hn⟩, rfl⟩
    rw [read_iff.mpr ⟨e, he, rfl⟩, Go.ok_bind]
    simp only []
    rw [readOpt_iff.mpr ho, Go.ok_bind]
    cases n with
    | none => simp only at hn; subst hn; rfl
    | some n =>
      obtain ⟨f, e1, junk, h1, rfl, h2⟩ := hn
      simp only []
      rw [read_iff.mpr ⟨e1, h1, rfl⟩, Go.ok_bind]
      simp only []
      rw [uris_iff.mpr h2]
      rfl

theorem points_iff {v : Bytes} {l : List Bytes} : distributionPoints v = .ok l ↔ PointsDer l v := by
  unfold distributionPoints PointsDer
  constructor
  · intro h
    rw [Go.bind_eq_ok] at h
    obtain ⟨⟨c, q⟩, h1, h⟩ := h
    rw [Go.bind_eq_ok] at h
    obtain ⟨ls, h2, h⟩ := h
    cases h
    obtain ⟨e, ⟨encs, h3, he⟩, rfl⟩ := (readList_iff (fun s a r => readPoint_iff)
      (fun a e h => by obtain ⟨_, h, _⟩ := h; exact tlv_ne h)).mp ⟨c, h1, h2⟩
    exact ⟨ls, encs, e, q, h3, he, rfl, rfl⟩
  · rintro ⟨ls, encs, e, junk, h3, he, rfl, rfl⟩
    obtain ⟨c, h1, h2⟩ := (readList_iff (fun s a r => readPoint_iff)
      (fun a e h => by obtain ⟨_, h, _⟩ := h; exact tlv_ne h)).mpr ⟨e, ⟨encs, h3, he⟩, rfl⟩
    rw [h1, Go.ok_bind]
    simp only []
    rw [h2]
    rfl

/-! ### The other extensions -/

/-- The key identifier of an authority key extension, if there is one. -/
def AkiOpt (k : Option Bytes) (v : Bytes) : Prop :=
  ∃ c e junk, Tlv 0x30 c e ∧ v = e ++ junk ∧ ∃ rest, Opt 0x80 k c rest

theorem authorityKey_iff {v : Bytes} {k : Option Bytes} : authorityKey v = .ok k ↔ AkiOpt k v := by
  unfold authorityKey AkiOpt
  constructor
  · intro h
    rw [Go.bind_eq_ok] at h
    obtain ⟨⟨c, q⟩, h1, h⟩ := h
    rw [Go.bind_eq_ok] at h
    obtain ⟨⟨n, q1⟩, h2, h⟩ := h
    cases h
    obtain ⟨e, he, rfl⟩ := read_iff.mp h1
    exact ⟨c, e, q, he, rfl, q1, readOpt_iff.mp h2⟩
  · rintro ⟨c, e, junk, he, rfl, rest, ho⟩
    rw [read_iff.mpr ⟨e, he, rfl⟩, Go.ok_bind]
    simp only []
    rw [readOpt_iff.mpr ho]
    rfl

theorem subjectKey_iff {v k : Bytes} : subjectKey v = .ok k ↔ SubjectKeyDer k v := by
  unfold subjectKey SubjectKeyDer
  constructor
  · intro h
    rw [Go.bind_eq_ok] at h
    obtain ⟨⟨c, q⟩, h1, h⟩ := h
    cases h
    obtain ⟨e, he, rfl⟩ := read_iff.mp h1
    exact ⟨e, q, he, rfl⟩
  · rintro ⟨e, junk, he, rfl⟩
    rw [read_iff.mpr ⟨e, he, rfl⟩]
    rfl

theorem readPolicy_iff {s r p : Bytes} : readPolicy s = .ok (p, r) ↔ ∃ e, PolicyOctets p e ∧ s = e ++ r := by
  unfold readPolicy PolicyOctets
  constructor
  · intro h
    rw [Go.bind_eq_ok] at h
    obtain ⟨⟨c, q⟩, h1, h⟩ := h
    rw [Go.bind_eq_ok] at h
    obtain ⟨⟨o, q1⟩, h2, h⟩ := h
    cases h
    obtain ⟨e, he, rfl⟩ := read_iff.mp h1
    obtain ⟨e1, he1, h3⟩ := readOID_iff.mp h2
    simp only at h3
    subst h3
    exact ⟨e, ⟨e1, q1, he1, he⟩, rfl⟩
  · rintro ⟨e, ⟨o, junk, ho, he⟩, rfl⟩
    rw [read_iff.mpr ⟨e, he, rfl⟩, Go.ok_bind]
    simp only []
    rw [readOID_iff.mpr ⟨o, ho, rfl⟩]
    rfl

theorem policies_iff {v : Bytes} : (∃ l, policies v = .ok l) ↔ PoliciesDer v := by
  unfold policies PoliciesDer
  constructor
  · rintro ⟨l, h⟩
    rw [Go.bind_eq_ok] at h
    obtain ⟨⟨c, q⟩, h1, h2⟩ := h
    obtain ⟨e, ⟨encs, h3, he⟩, rfl⟩ := (readList_iff (fun s a r => readPolicy_iff)
      (fun a e h => by obtain ⟨_, _, _, h⟩ := h; exact tlv_ne h)).mp ⟨c, h1, h2⟩
    exact ⟨l, encs, e, q, h3, he, rfl⟩
  · rintro ⟨l, encs, e, junk, h3, he, rfl⟩
    obtain ⟨c, h1, h2⟩ := (readList_iff (fun s a r => readPolicy_iff)
      (fun a e h => by obtain ⟨_, _, _, h⟩ := h; exact tlv_ne h)).mpr ⟨e, ⟨encs, h3, he⟩, rfl⟩
    refine ⟨l, ?_⟩
    rw [h1, Go.ok_bind]
    exact h2

theorem readAia_iff {s r : Bytes} {a : Bytes × Option Bytes} : readAia s = .ok (a, r) ↔ ∃ e, AiaDer a e ∧ s = e ++ r := by
  unfold readAia AiaDer
  constructor
  · intro h
    rw [Go.bind_eq_ok] at h
    obtain ⟨⟨c, q⟩, h1, h⟩ := h
    rw [Go.bind_eq_ok] at h
    obtain ⟨⟨o, q1⟩, h2, h⟩ := h
    rw [Go.bind_eq_ok] at h
    obtain ⟨⟨u, q2⟩, h3, h⟩ := h
    cases h
    obtain ⟨e, he, rfl⟩ := read_iff.mp h1
    obtain ⟨e1, he1, h4⟩ := readOID_iff.mp h2
    simp only at h4
    subst h4
    exact ⟨e, ⟨e1, q1, q2, he1, readOpt_iff.mp h3, he⟩, rfl⟩
  · rintro ⟨e, ⟨o, q, rest, ho, hq, he⟩, rfl⟩
    rw [read_iff.mpr ⟨e, he, rfl⟩, Go.ok_bind]
    simp only []
    rw [readOID_iff.mpr ⟨o, ho, rfl⟩, Go.ok_bind]
    simp only []
    rw [readOpt_iff.mpr hq]
    rfl

theorem aia_iff {v : Bytes} : (∃ l, authorityInfo v = .ok l) ↔ AuthorityInfoDer v := by
  unfold authorityInfo AuthorityInfoDer
  constructor
  · rintro ⟨l, h⟩
    rw [Go.bind_eq_ok] at h
    obtain ⟨⟨c, q⟩, h1, h2⟩ := h
    obtain ⟨e, ⟨encs, h3, he⟩, rfl⟩ := (readList_iff (fun s a r => readAia_iff)
      (fun a e h => by obtain ⟨_, _, _, _, _, h⟩ := h; exact tlv_ne h)).mp ⟨c, h1, h2⟩
    exact ⟨l, encs, e, q, h3, he, rfl⟩
  · rintro ⟨l, encs, e, junk, h3, he, rfl⟩
    obtain ⟨c, h1, h2⟩ := (readList_iff (fun s a r => readAia_iff)
      (fun a e h => by obtain ⟨_, _, _, _, _, h⟩ := h; exact tlv_ne h)).mpr ⟨e, ⟨encs, h3, he⟩, rfl⟩
    refine ⟨l, ?_⟩
    rw [h1, Go.ok_bind]
    exact h2

/-! ### All extensions -/

theorem says_skip {α : Type} {e : Ext.Extension} {l : List Ext.Extension} {id : Bytes} {P : α → Bytes → Prop} {d x : α} (h : e.id ≠ id) :
    Says (e :: l) id P d x ↔ Says l id P d x := by
  unfold Says
  constructor
  · rintro ⟨h1, h2⟩
    refine ⟨fun y hy => h1 y (by simp [hy]), fun hn => h2 fun y hy => ?_⟩
    rcases List.mem_cons.mp hy with rfl | hy
    · exact h
    · exact hn y hy
  · rintro ⟨h1, h2⟩
    refine ⟨fun y hy hi => ?_, fun hn => h2 fun y hy => hn y (by simp [hy])⟩
    rcases List.mem_cons.mp hy with rfl | hy
    · exact absurd hi h
    · exact h1 y hy hi

theorem says_hit {α : Type} {e : Ext.Extension} {l : List Ext.Extension} {id : Bytes} {P : α → Bytes → Prop} {d x : α} (h : e.id = id)
    (hn : ∀ y ∈ l, y.id ≠ id) : Says (e :: l) id P d x ↔ P x e.value := by
  unfold Says
  constructor
  · rintro ⟨h1, -⟩; exact h1 e (by simp) h
  · intro hp
    refine ⟨fun y hy hi => ?_, fun hc => absurd h (hc e (by simp))⟩
    rcases List.mem_cons.mp hy with rfl | hy
    · exact hp
    · exact absurd hi (hn y hy)

theorem says_none {α : Type} {l : List Ext.Extension} {id : Bytes} {P : α → Bytes → Prop} {d x : α}
    (hn : ∀ y ∈ l, y.id ≠ id) : Says l id P d x ↔ x = d := by
  unfold Says
  constructor
  · rintro ⟨-, h⟩; exact h hn
  · rintro rfl; exact ⟨fun y hy hi => absurd hi (hn y hy), fun _ => rfl⟩

/-- One extension that is checked and not used. -/
def SoundE (lib : Lib) (e : Ext.Extension) : Prop :=
  (e.id = ce 32 → PoliciesDer e.value) ∧ (e.id = aiaOID → AuthorityInfoDer e.value) ∧
    (e.id = ce 17 → lib.otherExt 17 e.value = .ok ()) ∧ (e.id = ce 30 → lib.otherExt 30 e.value = .ok ()) ∧
    (e.id = ce 37 → lib.otherExt 37 e.value = .ok ())

/-- What extensions say on top of fields that are already filled. -/
def Rel (lib : Lib) (l : List Ext.Extension) (y x : Extras) : Prop :=
  (∀ e ∈ l, SoundE lib e) ∧ Says l (ce 15) KeyUsageDer y.keyUsage x.keyUsage ∧ Says l (ce 19) BasicDer y.isCA x.isCA ∧
    (x.basic = true ↔ y.basic = true ∨ ∃ e ∈ l, e.id = ce 19) ∧
    Says l (ce 31) (fun z v => ∃ p, PointsDer p v ∧ z = y.crlDPs ++ p) y.crlDPs x.crlDPs ∧
    Says l (ce 35) (fun z v => ∃ k, AkiOpt k v ∧ z = k.getD y.aki) y.aki x.aki ∧ Says l (ce 14) SubjectKeyDer y.ski x.ski

theorem rel_nil {lib : Lib} {y x : Extras} : Rel lib [] y x ↔ x = y := by
  unfold Rel
  simp only [says_none (l := []) (by simp)]
  obtain ⟨a, b, c, d, e, f⟩ := y
  obtain ⟨a', b', c', d', e', f'⟩ := x
  simp only [List.not_mem_nil, false_and, exists_false, or_false, Extras.mk.injEq]
  constructor
  · rintro ⟨-, h1, h2, h3, h4, h5, h6⟩
    exact ⟨h1, Bool.eq_iff_iff.mpr h3, h2, h5, h6, h4⟩
  · rintro ⟨h1, rfl, h2, h5, h6, h4⟩
    exact ⟨fun e h => by simp at h, h1, h2, Iff.rfl, h4, h5, h6⟩

theorem step_iff {lib : Lib} {e : Ext.Extension} {l : List Ext.Extension} {y x : Extras} (hn : ∀ z ∈ l, z.id ≠ e.id) :
    (∃ w, process1 lib y e = .ok w ∧ Rel lib l w x) ↔ Rel lib (e :: l) y x := by
  have sc : (∀ z ∈ e :: l, SoundE lib z) ↔ SoundE lib e ∧ ∀ z ∈ l, SoundE lib z := by simp
  have bc : (∃ z ∈ e :: l, z.id = ce 19) ↔ e.id = ce 19 ∨ ∃ z ∈ l, z.id = ce 19 := by simp
  unfold process1
  by_cases h15 : e.id = ce 15
  · have n : ∀ id, id ≠ ce 15 → e.id ≠ id := fun id h => by rw [h15]; exact h.symm
    have se : SoundE lib e := ⟨fun h => absurd h (n _ (by decide)), fun h => absurd h (n _ (by decide)),
      fun h => absurd h (n _ (by decide)), fun h => absurd h (n _ (by decide)), fun h => absurd h (n _ (by decide))⟩
    have n19 : ¬ e.id = ce 19 := n _ (by decide)
    rw [h15] at hn
    unfold Rel
    rw [if_pos h15, sc, bc, says_hit h15 hn, says_skip (n (ce 19) (by decide)), says_skip (n (ce 31) (by decide)),
      says_skip (n (ce 35) (by decide)), says_skip (n (ce 14) (by decide))]
    simp only [Go.bind_eq_ok, Go.pure_def, Go.ok.injEq, keyUsage_iff, n19, false_or]
    constructor
    · rintro ⟨w, ⟨u, hu, rfl⟩, h1, h2, h3⟩
      rw [says_none hn] at h2
      exact ⟨⟨se, h1⟩, h2 ▸ hu, h3⟩
    · rintro ⟨⟨-, h1⟩, h2, h3⟩
      exact ⟨_, ⟨_, h2, rfl⟩, h1, (says_none hn).mpr rfl, h3⟩
  rw [if_neg h15]
  by_cases h19 : e.id = ce 19
  · have n : ∀ id, id ≠ ce 19 → e.id ≠ id := fun id h => by rw [h19]; exact h.symm
    have se : SoundE lib e := ⟨fun h => absurd h (n _ (by decide)), fun h => absurd h (n _ (by decide)),
      fun h => absurd h (n _ (by decide)), fun h => absurd h (n _ (by decide)), fun h => absurd h (n _ (by decide))⟩
    rw [h19] at hn
    unfold Rel
    rw [if_pos h19, sc, bc, says_hit h19 hn, says_skip h15, says_skip (n (ce 31) (by decide)),
      says_skip (n (ce 35) (by decide)), says_skip (n (ce 14) (by decide))]
    simp only [Go.bind_eq_ok, Go.pure_def, Go.ok.injEq, basic_iff, h19, true_or, or_true, iff_true]
    constructor
    · rintro ⟨w, ⟨u, hu, rfl⟩, h1, h2, h3, h4, h5⟩
      rw [says_none hn] at h3
      exact ⟨⟨se, h1⟩, h2, h3 ▸ hu, by simpa using h4, h5⟩
    · rintro ⟨⟨-, h1⟩, h2, h3, h4, h5⟩
      exact ⟨_, ⟨_, h3, rfl⟩, h1, h2, (says_none hn).mpr rfl, by simpa using h4, h5⟩
  rw [if_neg h19]
  by_cases h17 : e.id = ce 17
  · have n : ∀ id, id ≠ ce 17 → e.id ≠ id := fun id h => by rw [h17]; exact h.symm
    have se : SoundE lib e ↔ lib.otherExt 17 e.value = .ok () := ⟨fun h => h.2.2.1 h17, fun h =>
      ⟨fun h => absurd h (n _ (by decide)), fun h => absurd h (n _ (by decide)), fun _ => h, fun h => absurd h (n _ (by decide)),
        fun h => absurd h (n _ (by decide))⟩⟩
    unfold Rel
    rw [if_pos h17, sc, bc, se, says_skip h15, says_skip h19, says_skip (n (ce 31) (by decide)),
      says_skip (n (ce 35) (by decide)), says_skip (n (ce 14) (by decide))]
    simp only [Go.bind_eq_ok, Go.pure_def, Go.ok.injEq, h19, false_or]
    constructor
    · rintro ⟨w, ⟨u, hu, rfl⟩, h1, h2⟩
      exact ⟨⟨hu, h1⟩, h2⟩
    · rintro ⟨⟨hu, h1⟩, h2⟩
      exact ⟨_, ⟨(), hu, rfl⟩, h1, h2⟩
  rw [if_neg h17]
  by_cases h30 : e.id = ce 30
  · have n : ∀ id, id ≠ ce 30 → e.id ≠ id := fun id h => by rw [h30]; exact h.symm
    have se : SoundE lib e ↔ lib.otherExt 30 e.value = .ok () := ⟨fun h => h.2.2.2.1 h30, fun h =>
      ⟨fun h => absurd h (n _ (by decide)), fun h => absurd h (n _ (by decide)), fun h => absurd h (n _ (by decide)), fun _ => h,
        fun h => absurd h (n _ (by decide))⟩⟩
    unfold Rel
    rw [if_pos h30, sc, bc, se, says_skip h15, says_skip h19, says_skip (n (ce 31) (by decide)),
      says_skip (n (ce 35) (by decide)), says_skip (n (ce 14) (by decide))]
    simp only [Go.bind_eq_ok, Go.pure_def, Go.ok.injEq, h19, false_or]
    constructor
    · rintro ⟨w, ⟨u, hu, rfl⟩, h1, h2⟩
      exact ⟨⟨hu, h1⟩, h2⟩
    · rintro ⟨⟨hu, h1⟩, h2⟩
      exact ⟨_, ⟨(), hu, rfl⟩, h1, h2⟩
  rw [if_neg h30]
  by_cases h31 : e.id = ce 31
  · have n : ∀ id, id ≠ ce 31 → e.id ≠ id := fun id h => by rw [h31]; exact h.symm
    have se : SoundE lib e := ⟨fun h => absurd h (n _ (by decide)), fun h => absurd h (n _ (by decide)),
      fun h => absurd h (n _ (by decide)), fun h => absurd h (n _ (by decide)), fun h => absurd h (n _ (by decide))⟩
    rw [h31] at hn
    unfold Rel
    rw [if_pos h31, sc, bc, says_hit h31 hn, says_skip h15, says_skip h19,
      says_skip (n (ce 35) (by decide)), says_skip (n (ce 14) (by decide))]
    simp only [Go.bind_eq_ok, Go.pure_def, Go.ok.injEq, points_iff, h19, false_or]
    constructor
    · rintro ⟨w, ⟨u, hu, rfl⟩, h1, h2, h3, h4, h5, h6⟩
      rw [says_none hn] at h5
      exact ⟨⟨se, h1⟩, h2, h3, h4, ⟨u, hu, h5⟩, h6⟩
    · rintro ⟨⟨-, h1⟩, h2, h3, h4, ⟨u, hu, h5⟩, h6⟩
      exact ⟨_, ⟨u, hu, rfl⟩, h1, h2, h3, h4, (says_none hn).mpr h5, h6⟩
  rw [if_neg h31]
  by_cases h35 : e.id = ce 35
  · have n : ∀ id, id ≠ ce 35 → e.id ≠ id := fun id h => by rw [h35]; exact h.symm
    have se : SoundE lib e := ⟨fun h => absurd h (n _ (by decide)), fun h => absurd h (n _ (by decide)),
      fun h => absurd h (n _ (by decide)), fun h => absurd h (n _ (by decide)), fun h => absurd h (n _ (by decide))⟩
    rw [h35] at hn
    unfold Rel
    rw [if_pos h35, sc, bc, says_hit h35 hn, says_skip h15, says_skip h19, says_skip h31, says_skip (n (ce 14) (by decide))]
    simp only [Go.bind_eq_ok, Go.pure_def, Go.ok.injEq, authorityKey_iff, h19, false_or]
    constructor
    · rintro ⟨w, ⟨u, hu, rfl⟩, h1, h2, h3, h4, h5, h6, h7⟩
      rw [says_none hn] at h6
      exact ⟨⟨se, h1⟩, h2, h3, h4, h5, ⟨u, hu, h6⟩, h7⟩
    · rintro ⟨⟨-, h1⟩, h2, h3, h4, h5, ⟨u, hu, h6⟩, h7⟩
      exact ⟨_, ⟨u, hu, rfl⟩, h1, h2, h3, h4, h5, (says_none hn).mpr h6, h7⟩
  rw [if_neg h35]
  by_cases h37 : e.id = ce 37
  · have n : ∀ id, id ≠ ce 37 → e.id ≠ id := fun id h => by rw [h37]; exact h.symm
    have se : SoundE lib e ↔ lib.otherExt 37 e.value = .ok () := ⟨fun h => h.2.2.2.2 h37, fun h =>
      ⟨fun h => absurd h (n _ (by decide)), fun h => absurd h (n _ (by decide)), fun h => absurd h (n _ (by decide)),
        fun h => absurd h (n _ (by decide)), fun _ => h⟩⟩
    unfold Rel
    rw [if_pos h37, sc, bc, se, says_skip h15, says_skip h19, says_skip h31, says_skip h35, says_skip (n (ce 14) (by decide))]
    simp only [Go.bind_eq_ok, Go.pure_def, Go.ok.injEq, h19, false_or]
    constructor
    · rintro ⟨w, ⟨u, hu, rfl⟩, h1, h2⟩
      exact ⟨⟨hu, h1⟩, h2⟩
    · rintro ⟨⟨hu, h1⟩, h2⟩
      exact ⟨_, ⟨(), hu, rfl⟩, h1, h2⟩
  rw [if_neg h37]
  by_cases h14 : e.id = ce 14
  · have n : ∀ id, id ≠ ce 14 → e.id ≠ id := fun id h => by rw [h14]; exact h.symm
    have se : SoundE lib e := ⟨fun h => absurd h (n _ (by decide)), fun h => absurd h (n _ (by decide)),
      fun h => absurd h (n _ (by decide)), fun h => absurd h (n _ (by decide)), fun h => absurd h (n _ (by decide))⟩
    rw [h14] at hn
    unfold Rel
    rw [if_pos h14, sc, bc, says_hit h14 hn, says_skip h15, says_skip h19, says_skip h31, says_skip h35]
    simp only [Go.bind_eq_ok, Go.pure_def, Go.ok.injEq, subjectKey_iff, h19, false_or]
    constructor
    · rintro ⟨w, ⟨u, hu, rfl⟩, h1, h2, h3, h4, h5, h6, h7⟩
      rw [says_none hn] at h7
      exact ⟨⟨se, h1⟩, h2, h3, h4, h5, h6, h7 ▸ hu⟩
    · rintro ⟨⟨-, h1⟩, h2, h3, h4, h5, h6, h7⟩
      exact ⟨_, ⟨_, h7, rfl⟩, h1, h2, h3, h4, h5, h6, (says_none hn).mpr rfl⟩
  rw [if_neg h14]
  have rest : ∀ {w : Extras}, w = y → ((∀ z ∈ l, SoundE lib z) ∧ Says l (ce 15) KeyUsageDer y.keyUsage x.keyUsage ∧
      Says l (ce 19) BasicDer y.isCA x.isCA ∧ (x.basic = true ↔ y.basic = true ∨ ∃ z ∈ l, z.id = ce 19) ∧
      Says l (ce 31) (fun z v => ∃ p, PointsDer p v ∧ z = y.crlDPs ++ p) y.crlDPs x.crlDPs ∧
      Says l (ce 35) (fun z v => ∃ k, AkiOpt k v ∧ z = k.getD y.aki) y.aki x.aki ∧ Says l (ce 14) SubjectKeyDer y.ski x.ski) = Rel lib l w x := by
    rintro w rfl; rfl
  have hrel : Rel lib (e :: l) y x ↔ SoundE lib e ∧ Rel lib l y x := by
    rw [← rest rfl]
    conv => lhs; unfold Rel
    rw [sc, bc, says_skip h15, says_skip h19, says_skip h31, says_skip h35, says_skip h14]
    simp only [h19, false_or]
    exact and_assoc
  rw [hrel]
  by_cases h32 : e.id = ce 32
  · have n : ∀ id, id ≠ ce 32 → e.id ≠ id := fun id h => by rw [h32]; exact h.symm
    have se : SoundE lib e ↔ PoliciesDer e.value := ⟨fun h => h.1 h32, fun h =>
      ⟨fun _ => h, fun h => absurd h (n _ (by decide)), fun h => absurd h (n _ (by decide)),
        fun h => absurd h (n _ (by decide)), fun h => absurd h (n _ (by decide))⟩⟩
    rw [if_pos h32, se, ← policies_iff]
    simp only [Go.bind_eq_ok, Go.pure_def, Go.ok.injEq]
    constructor
    · rintro ⟨w, ⟨u, hu, rfl⟩, h1⟩
      exact ⟨⟨u, hu⟩, h1⟩
    · rintro ⟨⟨u, hu⟩, h1⟩
      exact ⟨_, ⟨u, hu, rfl⟩, h1⟩
  rw [if_neg h32]
  by_cases ha : e.id = aiaOID
  · have n : ∀ id, id ≠ aiaOID → e.id ≠ id := fun id h => by rw [ha]; exact h.symm
    have se : SoundE lib e ↔ AuthorityInfoDer e.value := ⟨fun h => h.2.1 ha, fun h =>
      ⟨fun h => absurd h (n _ (by decide)), fun _ => h, fun h => absurd h (n _ (by decide)),
        fun h => absurd h (n _ (by decide)), fun h => absurd h (n _ (by decide))⟩⟩
    rw [if_pos ha, se, ← aia_iff]
    simp only [Go.bind_eq_ok, Go.pure_def, Go.ok.injEq]
    constructor
    · rintro ⟨w, ⟨u, hu, rfl⟩, h1⟩
      exact ⟨⟨u, hu⟩, h1⟩
    · rintro ⟨⟨u, hu⟩, h1⟩
      exact ⟨_, ⟨u, hu, rfl⟩, h1⟩
  rw [if_neg ha]
  have se : SoundE lib e := ⟨fun h => absurd h h32, fun h => absurd h ha, fun h => absurd h h17, fun h => absurd h h30,
    fun h => absurd h h37⟩
  simp only [Go.pure_def, Go.ok.injEq]
  constructor
  · rintro ⟨w, rfl, h⟩; exact ⟨se, h⟩
  · rintro ⟨-, h⟩; exact ⟨y, rfl, h⟩

theorem process_iff {lib : Lib} : ∀ {l : List Ext.Extension} {y x : Extras}, (l.map (·.id)).Nodup →
    (process lib l y = .ok x ↔ Rel lib l y x)
  | [], y, x, _ => by
    rw [rel_nil]
    simp only [process, Go.ok.injEq]
    exact eq_comm
  | e :: l, y, x, hd => by
    rw [List.map_cons, List.nodup_cons] at hd
    rw [← step_iff (fun z hz he => hd.1 (List.mem_map.mpr ⟨z, hz, he⟩))]
    simp only [process]
    rw [Go.bind_eq_ok]
    constructor
    · rintro ⟨w, h1, h2⟩; exact ⟨w, h1, (process_iff hd.2).mp h2⟩
    · rintro ⟨w, h1, h2⟩; exact ⟨w, h1, (process_iff hd.2).mpr h2⟩

theorem meaning_iff {lib : Lib} {l : List Ext.Extension} {x : Extras} : Rel lib l Extras.zero x ↔ Meaning lib l x := by
  have ha : (fun (z v : Bytes) => ∃ k, AkiOpt k v ∧ z = k.getD Extras.zero.aki) = AuthorityKeyDer := by
    funext z v
    apply propext
    unfold AkiOpt AuthorityKeyDer Extras.zero
    constructor
    · rintro ⟨k, ⟨c, e, junk, h1, h2, rest, h3⟩, h4⟩; exact ⟨c, e, junk, h1, h2, k, rest, h3, h4⟩
    · rintro ⟨c, e, junk, h1, h2, k, rest, h3, h4⟩; exact ⟨k, ⟨c, e, junk, h1, h2, rest, h3⟩, h4⟩
  have hp : (fun (z : List Bytes) (v : Bytes) => ∃ p, PointsDer p v ∧ z = Extras.zero.crlDPs ++ p) = PointsDer := by
    funext z v
    apply propext
    simp [Extras.zero]
  unfold Rel Meaning
  rw [ha, hp]
  have hb : (Extras.zero.basic = true ∨ ∃ e ∈ l, e.id = ce 19) ↔ ∃ e ∈ l, e.id = idCe 19 := by
    simp [Extras.zero, ce, idCe]
  rw [hb]
  exact Iff.rfl

/-! ### Certificates -/

theorem readVersion_sound {s r : Bytes} {v : Int} (h : readVersion s = .ok (v, r)) (h0 : 0 ≤ v) (h2 : v ≤ 2) :
    ∃ e, VersionDer v e ∧ s = e ++ r := by
  unfold readVersion at h
  rw [Go.bind_eq_ok] at h
  obtain ⟨⟨c, q⟩, h1, h⟩ := h
  have ho := readOpt_iff.mp h1
  cases c with
  | none =>
    cases h
    exact ⟨[], ⟨h0, h2, .inl ⟨rfl, rfl⟩⟩, ho.2.symm⟩
  | some c =>
    simp only at h
    rw [Go.bind_eq_ok] at h
    obtain ⟨⟨w, t⟩, h3, h⟩ := h
    split at h
    · cases h
    · next ht =>
      cases h
      obtain ⟨e, he, rfl⟩ := ho
      obtain ⟨i, hi, hc⟩ := readInt_iff.mp h3
      have ht : t = [] := Classical.byContradiction ht
      rw [ht, List.append_nil] at hc
      subst hc
      exact ⟨e, ⟨h0, h2, .inr ⟨_, hi, he⟩⟩, rfl⟩

theorem readVersion_complete {e r : Bytes} {v : Int} (h : VersionDer v e) (hr : r.head? ≠ some 0xa0) : readVersion (e ++ r) = .ok (v, r) := by
  unfold readVersion
  obtain ⟨-, -, ⟨rfl, rfl⟩ | ⟨i, hi, he⟩⟩ := h
  · rw [List.nil_append, readOpt_iff (c := none) |>.mpr ⟨hr, rfl⟩]
    rfl
  · rw [readOpt_iff (c := some i) |>.mpr ⟨e, he, rfl⟩, Go.ok_bind]
    simp only []
    rw [readInt_iff.mpr ⟨i, hi, (List.append_nil i).symm⟩]
    rfl

theorem readTail_iff {lib : Lib} {v : Int} {s : Bytes} {l : List Ext.Extension} {x : Extras} (hv : 0 ≤ v) :
    readTail lib v s = .ok (l, x) ↔ TailDer lib v l x s := by
  unfold readTail TailDer
  by_cases h0 : v > 0
  · rw [if_pos h0]
    constructor
    · intro h
      rw [Go.bind_eq_ok] at h
      obtain ⟨⟨u, a⟩, h1, h⟩ := h
      rw [Go.bind_eq_ok] at h
      obtain ⟨⟨w, b⟩, h2, h⟩ := h
      refine .inr ⟨h0, u, w, a, b, readOpt_iff.mp h1, readOpt_iff.mp h2, ?_⟩
      by_cases h3 : v = 2
      · rw [if_pos h3, Go.bind_eq_ok] at h
        obtain ⟨⟨c, q⟩, h4, h⟩ := h
        refine .inr ⟨h3, c, q, readOpt_iff.mp h4, ?_⟩
        cases c with
        | none => cases h; exact ⟨rfl, rfl⟩
        | some c =>
          simp only at h
          rw [Go.bind_eq_ok] at h
          obtain ⟨l', h5, h⟩ := h
          rw [Go.bind_eq_ok] at h
          obtain ⟨x', h6, h⟩ := h
          cases h
          have h7 := readExts_iff.mp h5
          have hd := h7
          obtain ⟨_, _, _, _, _, _, hd⟩ := hd
          exact ⟨h7, meaning_iff.mp ((process_iff hd).mp h6)⟩
      · rw [if_neg h3] at h
        cases h
        exact .inl ⟨h3, rfl, rfl⟩
    · rintro (⟨h, -⟩ | ⟨-, u, w, a, b, h1, h2, h⟩)
      · omega
      · rw [readOpt_iff.mpr h1, Go.ok_bind]
        simp only []
        rw [readOpt_iff.mpr h2, Go.ok_bind]
        rcases h with ⟨h3, rfl, rfl⟩ | ⟨h3, c, q, h4, h⟩
        · rw [if_neg h3]; rfl
        · rw [if_pos h3]
          simp only []
          rw [readOpt_iff.mpr h4, Go.ok_bind]
          cases c with
          | none => obtain ⟨rfl, rfl⟩ := h; rfl
          | some c =>
            obtain ⟨h7, h8⟩ := h
            simp only []
            rw [readExts_iff.mpr h7, Go.ok_bind]
            obtain ⟨_, _, _, _, _, _, hd⟩ := h7
            rw [(process_iff hd).mpr (meaning_iff.mpr h8)]
            rfl
  · rw [if_neg h0]
    constructor
    · intro h; cases h; exact .inl ⟨by omega, rfl, rfl⟩
    · rintro (⟨-, rfl, rfl⟩ | ⟨h, -⟩)
      · rfl
      · exact absurd h h0

theorem parse_sound {lib : Lib} {data : Bytes} {c : XCert} (h : parseCertificate lib data = .ok c) : LaxCert lib c data := by
  unfold parseCertificate at h
  rw [Go.bind_eq_ok] at h
  obtain ⟨⟨t, oc, ow, orest⟩, h1, h⟩ := h
  simp only at h
  split at h
  · cases h
  next ht =>
  rw [Go.bind_eq_ok] at h
  obtain ⟨⟨t2, tc, tw, trest⟩, h2, h⟩ := h
  simp only at h
  split at h
  · cases h
  next ht2 =>
  rw [Go.bind_eq_ok] at h
  obtain ⟨⟨v, q1⟩, h3, h⟩ := h
  simp only at h
  split at h
  · cases h
  next hv0 =>
  split at h
  · cases h
  next hv2 =>
  rw [Go.bind_eq_ok] at h
  obtain ⟨⟨serial, q2⟩, h4, h⟩ := h
  rw [Go.bind_eq_ok] at h
  obtain ⟨⟨inner, q3⟩, h5, h⟩ := h
  rw [Go.bind_eq_ok] at h
  obtain ⟨⟨alg, q4⟩, h6, h⟩ := h
  simp only at h4 h5 h6 h
  split at h
  · cases h
  next ha =>
  rw [Go.bind_eq_ok] at h
  obtain ⟨⟨o, p⟩, h7, h⟩ := h
  rw [Go.bind_eq_ok] at h
  obtain ⟨⟨issuer, q5⟩, h8, h⟩ := h
  rw [Go.bind_eq_ok] at h
  obtain ⟨⟨⟨nb, na⟩, q6⟩, h9, h⟩ := h
  rw [Go.bind_eq_ok] at h
  obtain ⟨⟨subject, q7⟩, h10, h⟩ := h
  rw [Go.bind_eq_ok] at h
  obtain ⟨⟨key, q8⟩, h11, h⟩ := h
  rw [Go.bind_eq_ok] at h
  obtain ⟨⟨exts, extras⟩, h12, h⟩ := h
  rw [Go.bind_eq_ok] at h
  obtain ⟨⟨sig, q9⟩, h13, h⟩ := h
  simp only at h8 h9 h10 h11 h12 h13 h
  split at h
  · cases h
  next hr =>
  cases h
  have ha : alg = inner := Classical.byContradiction ha
  have hr : orest = [] := Classical.byContradiction hr
  have ht : t = 0x30 := Classical.byContradiction ht
  have ht2 : t2 = 0x30 := Classical.byContradiction ht2
  subst ha ht ht2
  obtain ⟨k1, e1⟩ := readPiece_iff.mp h1
  obtain ⟨k2, e2⟩ := readPiece_iff.mp h2
  simp only at k1 e1 k2 e2
  rw [hr, List.append_nil] at e1
  subst e1
  obtain ⟨ev, k3, e3⟩ := readVersion_sound h3 (by omega) (by omega)
  obtain ⟨es, k4, e4⟩ := readBig_iff.mp h4
  obtain ⟨ea, k5, e5⟩ := read_iff.mp h5
  obtain ⟨eb, k6, e6⟩ := read_iff.mp h6
  have k7 := parseAI_iff.mp h7
  obtain ⟨ei, k8, e8⟩ := readName_iff.mp h8
  obtain ⟨ed, k9, e9⟩ := readValidity_iff.mp h9
  obtain ⟨en, k10, e10⟩ := readName_iff.mp h10
  obtain ⟨ek, k11, e11⟩ := readSpki_iff.mp h11
  have k12 := (readTail_iff (by omega)).mp h12
  obtain ⟨eg, k13, e13⟩ := readAligned_iff.mp ⟨sig, h13, rfl⟩
  refine ⟨alg, eb, eg, q9, ⟨ev, es, ea, ei, ed, en, ek, q8, k3, k4, k7, k5, k8, k9, k10, k11, k12, ?_⟩, k6, k13, ?_, rfl⟩
  · have : tc = ev ++ es ++ ea ++ ei ++ ed ++ en ++ ek ++ q8 := by
      rw [e3, e4, e5, e8, e9, e10, e11]
      simp only [List.append_assoc]
    exact this ▸ k2
  · have : oc = tw ++ eb ++ eg ++ q9 := by
      rw [e2, e6, e13]
      simp only [List.append_assoc]
    exact this ▸ k1

theorem parse_complete {lib : Lib} {data : Bytes} {c : XCert} (h : LaxCert lib c data) : parseCertificate lib data = .ok c := by
  obtain ⟨alg, eb, eg, junk, ⟨ev, es, ea, ei, ed, en, ek, rest, k3, k4, k7, k5, k8, k9, k10, k11, k12, k2⟩, k6, k13, k1, hraw⟩ := h
  obtain ⟨raw, tbs, v, serial, ⟨o, p⟩, issuer, nb, na, subject, key, exts, extras, sig⟩ := c
  simp only at *
  subst hraw
  unfold parseCertificate
  rw [readPiece_iff (p := ⟨0x30, _, raw, []⟩) |>.mpr ⟨k1, (List.append_nil raw).symm⟩, Go.ok_bind]
  simp only [ne_eq, not_true_eq_false, if_false]
  rw [readPiece_iff (p := ⟨0x30, _, tbs, eb ++ (eg ++ junk)⟩) |>.mpr ⟨k2, by simp only [List.append_assoc]⟩, Go.ok_bind]
  simp only [ne_eq, not_true_eq_false, if_false]
  have hs : (es ++ (ea ++ (ei ++ (ed ++ (en ++ (ek ++ rest)))))).head? ≠ some 0xa0 := by
    obtain ⟨_, _, k4⟩ := k4
    rw [tlv_head k4]
    decide
  have h3 := readVersion_complete k3 hs
  rw [show ev ++ es ++ ea ++ ei ++ ed ++ en ++ ek ++ rest = ev ++ (es ++ (ea ++ (ei ++ (ed ++ (en ++ (ek ++ rest)))))) by
    simp only [List.append_assoc], h3, Go.ok_bind]
  have h0 := k3.1
  have h2 := k3.2.1
  simp only []
  rw [if_neg (show ¬ v < 0 by omega), if_neg (show ¬ v > 2 by omega), readBig_iff.mpr ⟨es, k4, rfl⟩, Go.ok_bind]
  simp only []
  rw [read_iff.mpr ⟨ea, k5, rfl⟩, Go.ok_bind, read_iff.mpr ⟨eb, k6, rfl⟩, Go.ok_bind]
  simp only [not_true_eq_false, if_false]
  rw [parseAI_iff.mpr k7, Go.ok_bind, readName_iff.mpr ⟨ei, k8, rfl⟩, Go.ok_bind]
  simp only []
  rw [readValidity_iff.mpr ⟨ed, k9, rfl⟩, Go.ok_bind]
  simp only []
  rw [readName_iff.mpr ⟨en, k10, rfl⟩, Go.ok_bind]
  simp only []
  rw [readSpki_iff.mpr ⟨ek, k11, rfl⟩, Go.ok_bind]
  simp only []
  rw [(readTail_iff h0).mpr k12, Go.ok_bind]
  obtain ⟨b, hb, rfl⟩ := readAligned_iff.mpr ⟨eg, k13, rfl⟩
  rw [hb, Go.ok_bind]
  rfl

end Verif.X509
