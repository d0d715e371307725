import Verif.Spec.X509
import Verif.Lemmas.ExtAs
import Verif.Lemmas.ExtAccess
import Verif.Lemmas.Spki
import Verif.Props.Time
/-
  What the reader of certificates takes, part by part.
-/
set_option autoImplicit false

namespace Verif.X509
open Der Cms CmsSpec BerSpec X509Spec ExtSpec

/-! ### Elements -/

theorem cut_iff {tag : UInt8} {h n : Nat} {s : Bytes} {p : Piece} :
    cut tag h n s = .ok p ↔ ∃ hd c r, hd.length = h ∧ c.length = n ∧ s = hd ++ c ++ r ∧ p = ⟨tag, c, hd ++ c, r⟩ := by
  unfold cut
  constructor
  · intro hc
    split at hc
    · cases hc
    · next hl =>
      cases hc
      refine ⟨s.take h, (s.take (h + n)).drop h, s.drop (h + n), by simp; omega, by simp; omega, ?_, ?_⟩
      · rw [show s.take h = (s.take (h + n)).take h by rw [List.take_take]; congr 1; omega, List.take_append_drop, List.take_append_drop]
      · congr 1
        rw [show s.take h = (s.take (h + n)).take h by rw [List.take_take]; congr 1; omega, List.take_append_drop]
  · rintro ⟨hd, c, r, rfl, rfl, rfl, rfl⟩
    rw [if_neg (by simp)]
    have e : (hd ++ c).length = hd.length + c.length := List.length_append
    rw [← e, List.take_left', List.drop_left', List.drop_left'] <;> rfl

theorem readPiece_iff {s : Bytes} {p : Piece} :
    readPiece s = .ok p ↔ Tlv p.tag p.content p.whole ∧ s = p.whole ++ p.rest := by
  constructor
  · intro h
    unfold readPiece at h
    split at h
    · next tag l r =>
      split at h
      · cases h
      · next ht =>
      split at h
      · next hl =>
        obtain ⟨hd, c, q, h1, h2, h3, rfl⟩ := cut_iff.mp h
        have hhd : hd = [tag, l] := by
          match hd, h1 with
          | [a, b], _ => simp only [List.cons_append, List.cons.injEq] at h3; rw [h3.1, h3.2.1]
        subst hhd
        have hl' := UInt8.lt_iff_toNat_lt.mp hl
        have hlen : c.length < 128 := by rw [h2]; simpa using hl'
        refine ⟨⟨ht, ?_, ?_⟩, h3⟩
        · show [tag, l] ++ c = elem tag c
          unfold elem derLength
          rw [if_pos hlen, h2]
          simp
        · show ([tag, l] ++ c).length < 2 ^ 32
          simp; omega
      · next hl =>
        simp only [] at h
        split at h
        · cases h
        · next hn =>
        split at h
        · cases h
        · next h128 =>
        split at h
        · cases h
        · next hz =>
        split at h
        · cases h
        · next ho =>
        obtain ⟨hd, c, q, h1, h2, h3, rfl⟩ := cut_iff.mp h
        have hhd : hd = tag :: l :: r.take (l.toNat % 128) := by
          match hd, h1 with
          | a :: b :: ds, h1 =>
            simp only [List.cons_append, List.cons.injEq] at h3
            obtain ⟨e1, e2, e3⟩ := h3
            have hl1 : ds.length = l.toNat % 128 := by simp only [List.length_cons] at h1; omega
            rw [e3, ← e1, ← e2, List.append_assoc, List.take_left' hl1]
          | [], h1 => simp only [List.length_nil] at h1; omega
          | [a], h1 => simp only [List.length_cons, List.length_nil] at h1; omega
        have hdl : (r.take (l.toNat % 128)).length = l.toNat % 128 := by simp; omega
        generalize hds : r.take (l.toNat % 128) = ds at *
        subst hhd
        have hv : unsigned ds = beVal ds := rfl
        rw [hv] at h128 hz ho h2
        have hdig : digits (beVal ds) = ds := by
          cases ds with
          | nil => simp at hdl; omega
          | cons d t =>
            apply digits_beVal_aux
            rintro rfl
            apply hz
            apply Nat.div_eq_of_lt
            have e : beVal (0 :: t) = beVal t := by simp [beVal]
            rw [e, ← hdl]
            simpa using Ber.beVal_lt t
        have hder : derLength c.length = l :: ds := by
          unfold derLength
          rw [h2, if_neg h128, hdig, hdl]
          rw [or80_inv l hl]
        refine ⟨⟨ht, ?_, ?_⟩, h3⟩
        · show tag :: l :: ds ++ c = elem tag c
          unfold elem
          rw [hder]
        · show (tag :: l :: ds ++ c).length < 2 ^ 32
          simp only [List.length_append, List.length_cons, hdl, h2]
          omega
    · cases h
  · rintro ⟨⟨ht, hw, hl⟩, hs⟩
    obtain ⟨tag, c, w, r⟩ := p
    simp only at ht hw hl hs
    subst hs
    have hlen := hl
    rw [hw, elem_length] at hlen
    by_cases h1 : c.length < 128
    · have hd : derLength c.length = [c.length.toUInt8] := by unfold derLength; rw [if_pos h1]
      have hw' : w = [tag, c.length.toUInt8] ++ c := by rw [hw]; unfold elem; rw [hd]
      have et := toUInt8_toNat_small (n := c.length) (by omega)
      rw [hw']
      show readPiece (tag :: c.length.toUInt8 :: (c ++ r)) = _
      unfold readPiece
      simp only []
      rw [if_neg ht, if_pos (by rw [UInt8.lt_iff_toNat_lt, et]; simpa using h1), et]
      exact cut_iff.mpr ⟨[tag, c.length.toUInt8], c, r, rfl, rfl, rfl, rfl⟩
    · have hd : derLength c.length = (0x80 ||| (digits c.length).length.toUInt8) :: digits c.length := by
        unfold derLength; rw [if_neg h1]
      have hn : (digits c.length).length ≤ 4 := by
        rw [Ber.digits_length _ (by omega)]
        exact Ber.lengthLength_le (n := c.length) (k := 4) (by omega) (by omega)
      have hp : 0 < (digits c.length).length := by
        rw [Ber.digits_length _ (by omega)]; exact Ber.lengthLength_pos _
      have hb : unsigned (digits c.length) = c.length := Ber.beVal_digits _
      obtain ⟨d, t, he, hd0, hle⟩ := Ber.digits_head c.length (by omega)
      obtain ⟨o1, o2⟩ := or80 _ hp (by omega)
      have hw' : w = tag :: (0x80 ||| (digits c.length).length.toUInt8) :: digits c.length ++ c := by
        rw [hw]; unfold elem; rw [hd]
      rw [hd, List.length_cons] at hlen
      have hlen' : ¬ 2 + (digits c.length).length + c.length ≥ 2 ^ 32 := by omega
      rw [hw']
      show readPiece (tag :: (0x80 ||| (digits c.length).length.toUInt8) :: (digits c.length ++ c ++ r)) = _
      unfold readPiece
      simp only []
      have htake : (digits c.length ++ c ++ r).take (digits c.length).length = digits c.length := by
        rw [List.append_assoc, List.take_left']; rfl
      have hq : ¬ c.length / 256 ^ ((digits c.length).length - 1) = 0 := by
        intro h0
        have := (Nat.div_eq_zero_iff).mp h0
        have hd1 : 1 ≤ d.toNat := by
          rcases Nat.eq_zero_or_pos d.toNat with h | h
          · exact absurd (UInt8.toNat_inj.mp (by simpa using h)) hd0
          · exact h
        have hl2 : (digits c.length).length - 1 = t.length := by rw [he]; simp
        rw [hl2] at this
        have h3 := Nat.mul_le_mul_right (256 ^ t.length) hd1
        have h4 : 0 < 256 ^ t.length := Nat.pow_pos (by decide)
        omega
      have hk : ¬ ((digits c.length).length = 0 ∨ (digits c.length).length > 4 ∨
          (digits c.length ++ c ++ r).length < (digits c.length).length) := by
        simp only [List.length_append]; omega
      rw [if_neg ht, if_neg o1, o2, if_neg hk, htake, hb, if_neg h1, if_neg hq,
        if_neg hlen']
      exact cut_iff.mpr ⟨tag :: (0x80 ||| (digits c.length).length.toUInt8) :: digits c.length, c, r, by simp; omega, rfl, rfl, rfl⟩

theorem read_iff {tag : UInt8} {s c r : Bytes} :
    read tag s = .ok (c, r) ↔ ∃ e, Tlv tag c e ∧ s = e ++ r := by
  unfold read
  rw [Go.bind_eq_ok]
  constructor
  · rintro ⟨p, hp, h⟩
    split at h
    · cases h
    · next ht =>
      cases h
      obtain ⟨h1, h2⟩ := readPiece_iff.mp hp
      have : p.tag = tag := by simpa using ht
      exact ⟨p.whole, this ▸ h1, h2⟩
  · rintro ⟨e, he, rfl⟩
    exact ⟨⟨tag, c, e, r⟩, readPiece_iff.mpr ⟨he, rfl⟩, by simp⟩

theorem tlv_head {tag : UInt8} {c e : Bytes} (h : Tlv tag c e) (r : Bytes) : (e ++ r).head? = some tag := by
  rw [h.2.1]; rfl

theorem tlv_ne {tag : UInt8} {c e : Bytes} (h : Tlv tag c e) : e ≠ [] := by
  rw [h.2.1]; simp [elem]

theorem tlv_inj {tag tag' : UInt8} {c c' e e' r r' : Bytes} (h : Tlv tag c e) (h' : Tlv tag' c' e') (he : e ++ r = e' ++ r') :
    tag = tag' ∧ c = c' ∧ e = e' ∧ r = r' := by
  have a := readPiece_iff (p := ⟨tag, c, e, r⟩) |>.mpr ⟨h, rfl⟩
  have b := readPiece_iff (p := ⟨tag', c', e', r'⟩) |>.mpr ⟨h', rfl⟩
  rw [he, b] at a
  cases a
  exact ⟨rfl, rfl, rfl, rfl⟩

theorem readOpt_iff {tag : UInt8} {s r : Bytes} {c : Option Bytes} : readOpt tag s = .ok (c, r) ↔ Opt tag c s r := by
  unfold readOpt peek
  cases c with
  | none =>
    show _ ↔ s.head? ≠ some tag ∧ r = s
    split
    · next h =>
      constructor
      · intro h
        obtain ⟨a, -, h⟩ := Go.bind_eq_ok.mp h
        cases h
      · rintro ⟨h1, -⟩
        exact absurd (by simpa using h) h1
    · next h =>
      constructor
      · intro e; cases e; exact ⟨by simpa using h, rfl⟩
      · rintro ⟨-, rfl⟩; rfl
  | some c =>
    show _ ↔ ∃ e, Tlv tag c e ∧ s = e ++ r
    split
    · rw [← read_iff, Go.bind_eq_ok]
      constructor
      · rintro ⟨a, h1, h2⟩; cases h2; exact h1
      · intro h; exact ⟨_, h, rfl⟩
    · next h =>
      constructor
      · intro e; cases e
      · rintro ⟨e, he, rfl⟩
        exact absurd (by simp [tlv_head he]) h

/-! ### Lists -/

/-- If `p` reads exactly the octets in `R`, then `parseAll p` reads exactly sequences of them. -/
theorem parseAll_iff {α : Type} {p : Bytes → Go (α × Bytes)} {R : α → Bytes → Prop}
    (hp : ∀ s a r, p s = .ok (a, r) ↔ ∃ e, R a e ∧ s = e ++ r) (hn : ∀ a e, R a e → e ≠ []) {s : Bytes} {l : List α} :
    parseAll p s = .ok l ↔ ∃ encs, List.Forall₂ R l encs ∧ s = encs.flatten := by
  constructor
  · exact Ext.parseAll_ok (fun s a r h => (hp s a r).mp h)
  · rintro ⟨encs, h, rfl⟩
    obtain ⟨bs, h1, h2⟩ := parseAll_forall₂ p R (fun a b => b = a) l encs h (fun a e _ _ hr =>
      ⟨hn a e hr, a, rfl, fun rest => (hp _ _ _).mpr ⟨e, hr, rfl⟩⟩)
    have : bs = l := by
      clear h1 h
      induction h2 with
      | nil => rfl
      | cons h _ ih => rw [h, ih]
    rw [h1, this]

/-! ### Numbers, bits, identifiers -/

theorem content_iff {i : Int} {c : Bytes} : (bigIntOk c = true ∧ intVal c = i) ↔ IntContent i c := by
  constructor
  · rintro ⟨h, rfl⟩; exact Tal.content_of_bigIntOk h
  · intro h; exact ⟨bigIntOk_of_content h, by rw [intVal_twos h.1]; exact h.2.1⟩

theorem readBig_iff {s r : Bytes} {i : Int} : readBig s = .ok (i, r) ↔ ∃ e, Integer i e ∧ s = e ++ r := by
  unfold readBig
  rw [Go.bind_eq_ok]
  constructor
  · rintro ⟨⟨c, q⟩, h1, h2⟩
    split at h2
    · next h =>
      cases h2
      obtain ⟨e, he, rfl⟩ := read_iff.mp h1
      exact ⟨e, ⟨c, content_iff.mp ⟨h, rfl⟩, he⟩, rfl⟩
    · cases h2
  · rintro ⟨e, ⟨c, hc, he⟩, rfl⟩
    obtain ⟨h1, h2⟩ := content_iff.mpr hc
    refine ⟨(c, r), read_iff.mpr ⟨e, he, rfl⟩, ?_⟩
    rw [if_pos h1, ← h2]; rfl

theorem twos_bounds (c : Bytes) (hc : c.length ≤ 8) : -2 ^ 63 ≤ twos c ∧ twos c < 2 ^ 63 := by
  unfold twos
  cases c with
  | nil => simp [beVal]
  | cons a t =>
    have e : beVal (a :: t) = a.toNat * 256 ^ t.length + beVal t := by
      have := Ber.beVal_append [a] t
      rw [List.singleton_append] at this
      have key : ∀ (t : Bytes) (x : Nat), t.foldl (fun a d => a * 256 + d.toNat) x = x * 256 ^ t.length + beVal t := by
        intro t
        induction t with
        | nil => intro x; simp [beVal]
        | cons b t ih =>
          intro x
          have h1 := ih (x * 256 + b.toNat)
          have h2 := ih (0 * 256 + b.toNat)
          simp only [List.foldl_cons] at *
          rw [h1]
          unfold beVal at *
          simp only [List.foldl_cons]
          rw [h2, List.length_cons, Nat.pow_succ]
          simp only [Nat.add_mul, Nat.mul_assoc, Nat.zero_mul, Nat.zero_add]
          rw [Nat.mul_comm 256 (256 ^ t.length)]
          omega
      rw [this, key]
      simp [beVal]
    have hb := Ber.beVal_lt t
    have hl : t.length ≤ 7 := by simpa using hc
    have hpow : (256 : Nat) ^ t.length ≤ 256 ^ 7 := Nat.pow_le_pow_right (by decide) hl
    have hpos : 0 < (256 : Nat) ^ t.length := Nat.pow_pos (by decide)
    have ha := u8_lt a
    rw [e]
    have e2 : (256 : Int) ^ (t.length + 1) = 256 * ((256 ^ t.length : Nat) : Int) := by
      rw [Int.pow_succ, Int.mul_comm]; norm_cast
    by_cases h : (0x80 : UInt8) ≤ (a :: t).headD 0
    · rw [if_pos h, List.length_cons, e2]
      rw [List.headD_cons] at h
      generalize (256 : Nat) ^ t.length = w at *
      have h' : 128 ≤ a.toNat := by simpa using UInt8.le_iff_toNat_le.mp h
      have h1 : a.toNat * w ≤ 255 * w := Nat.mul_le_mul_right _ (by omega)
      have h2 : 128 * w ≤ a.toNat * w := Nat.mul_le_mul_right _ h'
      push_cast
      constructor
      · have : ((a.toNat * w : Nat) : Int) = (a.toNat : Int) * w := by push_cast; rfl
        rw [← this]; omega
      · have : ((a.toNat * w : Nat) : Int) = (a.toNat : Int) * w := by push_cast; rfl
        rw [← this]; omega
    · rw [if_neg h]
      rw [List.headD_cons] at h
      generalize (256 : Nat) ^ t.length = w at *
      have h' : a.toNat ≤ 127 := by
        have : ¬ 128 ≤ a.toNat := fun hc => h (UInt8.le_iff_toNat_le.mpr (by simpa using hc))
        omega
      have h1 : a.toNat * w ≤ 127 * w := Nat.mul_le_mul_right _ h'
      omega

theorem readInt_iff {s r : Bytes} {i : Int} : readInt s = .ok (i, r) ↔ ∃ e, Int64 i e ∧ s = e ++ r := by
  unfold readInt
  rw [Go.bind_eq_ok]
  constructor
  · rintro ⟨⟨c, q⟩, h1, h2⟩
    split at h2
    · next h =>
      cases h2
      obtain ⟨e, he, rfl⟩ := read_iff.mp h1
      have hc := content_iff.mp ⟨h.1, rfl⟩
      have hb := twos_bounds c h.2
      rw [hc.2.1] at hb
      exact ⟨e, ⟨⟨c, hc, he⟩, hb.1, hb.2⟩, rfl⟩
    · cases h2
  · rintro ⟨e, ⟨⟨c, hc, he⟩, b1, b2⟩, rfl⟩
    obtain ⟨h1, h2⟩ := content_iff.mpr hc
    refine ⟨(c, r), read_iff.mpr ⟨e, he, rfl⟩, ?_⟩
    rw [if_pos ⟨h1, content_le8 hc b1 b2⟩, ← h2]; rfl

theorem readBool_iff {s r : Bytes} {b : Bool} : readBool s = .ok (b, r) ↔ ∃ e, Boolean b e ∧ s = e ++ r := by
  unfold readBool
  rw [Go.bind_eq_ok]
  constructor
  · rintro ⟨⟨c, q⟩, h1, h2⟩
    obtain ⟨e, he, rfl⟩ := read_iff.mp h1
    split at h2
    · next h => cases h2; simp only at h; subst h; exact ⟨e, he, rfl⟩
    · split at h2
      · next h => cases h2; simp only at h; subst h; exact ⟨e, he, rfl⟩
      · cases h2
  · rintro ⟨e, he, rfl⟩
    refine ⟨_, read_iff.mpr ⟨e, he, rfl⟩, ?_⟩
    cases b <;> rfl

/-- The last octet of a number decides what it is modulo a power of two up to 2^7. -/
theorem beVal_last (bs : Bytes) (p : Nat) (hp : p ≤ 7) : (bs.getLast?.getD 0).toNat % 2 ^ p = beVal bs % 2 ^ p := by
  induction bs using List.reverseRecOn with
  | nil => simp [beVal]
  | append_singleton ds x _ =>
    have e : beVal (ds ++ [x]) = beVal ds * 256 + x.toNat := by simp [beVal, List.foldl_append]
    rw [e]
    simp only [List.getLast?_append, List.getLast?_singleton, Option.some_or, Option.getD_some]
    have h : (256 : Nat) = 2 ^ (8 - p) * 2 ^ p := by rw [← Nat.pow_add, show 8 - p + p = 8 by omega]
    rw [Nat.add_mod, h, ← Nat.mul_assoc, Nat.mul_mod_left, Nat.zero_add, Nat.mod_mod]

theorem bitString_iff {c : Bytes} {b : Cert.BitString} :
    bitStringOf c = .ok b ↔ ∃ unused : Nat, unused ≤ 7 ∧ (b.bytes = [] → unused = 0) ∧ beVal b.bytes % 2 ^ unused = 0 ∧
      c = unused.toUInt8 :: b.bytes ∧ b.bitLength = b.bytes.length * 8 - unused := by
  constructor
  · intro h
    cases c with
    | nil => cases h
    | cons p bs =>
      simp only [bitStringOf] at h
      split at h
      · cases h
      · next hc =>
        cases h
        simp only [not_or, not_and, ne_eq, not_not, gt_iff_lt] at hc
        obtain ⟨h1, h2, h3⟩ := hc
        have h1' : p.toNat ≤ 7 := by
          have : ¬ 7 < p.toNat := fun hh => h1 (UInt8.lt_iff_toNat_lt.mpr (by simpa using hh))
          omega
        refine ⟨p.toNat, h1', ?_, ?_, by simp, rfl⟩
        · intro e
          have : ¬ 0 < p.toNat := fun hh => h2 e (UInt8.lt_iff_toNat_lt.mpr (by simpa using hh))
          omega
        · rw [← beVal_last bs _ h1']
          cases bs with
          | nil => simp
          | cons a t => rwa [List.getLast?_cons_cons] at h3
  · rintro ⟨u, h1, h2, h3, rfl, h5⟩
    obtain ⟨bs, n⟩ := b
    simp only at h2 h3 h5
    have et := toUInt8_toNat_small (n := u) (by omega)
    simp only [bitStringOf]
    rw [if_neg]
    · rw [et, h5]
    · rw [← beVal_last bs _ h1] at h3
      rintro (h | h | h)
      · have := UInt8.lt_iff_toNat_lt.mp h
        rw [et] at this
        simp at this; omega
      · have := UInt8.lt_iff_toNat_lt.mp h.2
        rw [et, h2 h.1] at this
        simp at this
      · rw [et] at h
        cases bs with
        | nil => simp at h2; subst h2; simp at h
        | cons a t => rw [List.getLast?_cons_cons] at h; exact h h3

theorem readBits_iff {s r : Bytes} {b : Cert.BitString} :
    readBits s = .ok (b, r) ↔ ∃ unused e, Bits b.bytes unused e ∧ b.bitLength = 8 * b.bytes.length - unused ∧ s = e ++ r := by
  unfold readBits
  rw [Go.bind_eq_ok]
  constructor
  · rintro ⟨⟨c, q⟩, h1, h2⟩
    obtain ⟨b', h3, h4⟩ := Go.bind_eq_ok.mp h2
    cases h4
    obtain ⟨e, he, rfl⟩ := read_iff.mp h1
    obtain ⟨u, a1, a2, a3, a4, a5⟩ := bitString_iff.mp h3
    simp only at a4
    subst a4
    exact ⟨u, e, ⟨a1, a2, a3, he⟩, by omega, rfl⟩
  · rintro ⟨u, e, ⟨a1, a2, a3, he⟩, hb, rfl⟩
    refine ⟨_, read_iff.mpr ⟨e, he, rfl⟩, ?_⟩
    rw [Go.bind_eq_ok]
    exact ⟨b, bitString_iff.mpr ⟨u, a1, a2, a3, rfl, by omega⟩, rfl⟩

end Verif.X509
