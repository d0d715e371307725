import Verif.Spec.Resources
import Verif.Lemmas.Basic
import Mathlib.Tactic.Linarith
import Mathlib.Tactic.Ring
/- Arithmetic of addresses and masks. -/
set_option autoImplicit false

namespace Verif
open BerSpec Net Cert ResSpec

theorem beVal_nil : beVal [] = 0 := rfl

theorem foldl_beVal (ds : Bytes) (x : Nat) :
    ds.foldl (fun a d => a * 256 + d.toNat) x = x * 256 ^ ds.length + beVal ds := by
  induction ds generalizing x with
  | nil => simp [beVal]
  | cons d ds ih =>
    simp only [beVal, List.foldl_cons, List.length_cons, Nat.pow_succ]
    rw [ih, ih]; ring

theorem beVal_cons (d : UInt8) (ds : Bytes) :
    beVal (d :: ds) = d.toNat * 256 ^ ds.length + beVal ds := by
  rw [beVal, List.foldl_cons, foldl_beVal]; simp

theorem beVal_append' (a b : Bytes) : beVal (a ++ b) = beVal a * 256 ^ b.length + beVal b := by
  rw [beVal, List.foldl_append, foldl_beVal]; rfl

theorem beVal_lt' (ds : Bytes) : beVal ds < 256 ^ ds.length := by
  induction ds with
  | nil => simp [beVal]
  | cons d ds ih =>
    rw [beVal_cons, List.length_cons, Nat.pow_succ]
    have := u8_lt d
    have : (d.toNat + 1) * 256 ^ ds.length ≤ 256 * 256 ^ ds.length := Nat.mul_le_mul_right _ this
    rw [Nat.add_mul] at this; omega

theorem pow256 (n : Nat) : (256 : Nat) ^ n = 2 ^ (8 * n) := by
  rw [Nat.pow_mul]

theorem beVal_inj {a b : Bytes} (hl : a.length = b.length) (h : beVal a = beVal b) : a = b := by
  induction a generalizing b with
  | nil => cases b <;> simp_all
  | cons x a ih =>
    cases b with
    | nil => simp at hl
    | cons y b =>
      simp only [List.length_cons, Nat.add_right_cancel_iff] at hl
      rw [beVal_cons, beVal_cons, hl] at h
      have h1 := beVal_lt' a
      have h2 := beVal_lt' b
      rw [hl] at h1
      have hx : x.toNat = y.toNat := by
        rcases Nat.lt_trichotomy x.toNat y.toNat with hc | hc | hc
        · exfalso
          have : (x.toNat + 1) * 256 ^ b.length ≤ y.toNat * 256 ^ b.length :=
            Nat.mul_le_mul_right _ hc
          rw [Nat.add_mul] at this; omega
        · exact hc
        · exfalso
          have : (y.toNat + 1) * 256 ^ b.length ≤ x.toNat * 256 ^ b.length :=
            Nat.mul_le_mul_right _ hc
          rw [Nat.add_mul] at this; omega
      have hxy : x = y := UInt8.toNat_inj.mp hx
      subst hxy
      rw [ih hl (by omega)]

theorem bytesLe_iff {a b : Bytes} (hl : a.length = b.length) :
    bytesLe a b = true ↔ beVal a ≤ beVal b := by
  induction a generalizing b with
  | nil => simp [bytesLe, beVal_nil]
  | cons x a ih =>
    cases b with
    | nil => simp at hl
    | cons y b =>
      simp only [List.length_cons, Nat.add_right_cancel_iff] at hl
      rw [beVal_cons, beVal_cons, hl]
      have h1 := beVal_lt' a
      have h2 := beVal_lt' b
      rw [hl] at h1
      unfold bytesLe
      split
      · rename_i hc
        rw [UInt8.lt_iff_toNat_lt] at hc
        have : (x.toNat + 1) * 256 ^ b.length ≤ y.toNat * 256 ^ b.length :=
            Nat.mul_le_mul_right _ hc
        rw [Nat.add_mul] at this
        simp; omega
      · split
        · rename_i _ hc
          rw [UInt8.lt_iff_toNat_lt] at hc
          have : (y.toNat + 1) * 256 ^ b.length ≤ x.toNat * 256 ^ b.length :=
            Nat.mul_le_mul_right _ hc
          rw [Nat.add_mul] at this
          simp; omega
        · rename_i ha hb
          rw [UInt8.lt_iff_toNat_lt] at ha hb
          have : x.toNat = y.toNat := by omega
          rw [this, ih hl]; omega

/-! ### Masks -/

theorem maskBytes_length (l n : Nat) : (maskBytes l n).length = l := by
  induction l generalizing n with
  | zero => rfl
  | succ l ih => unfold maskBytes; split <;> simp [ih]

theorem maskBytes_zero (l : Nat) : maskBytes l 0 = List.replicate l 0 := by
  induction l with
  | zero => rfl
  | succ l ih => unfold maskBytes; simp [ih, List.replicate_succ]; decide

theorem beVal_replicate_zero (l : Nat) : beVal (List.replicate l 0) = 0 := by
  induction l with
  | zero => rfl
  | succ l ih => rw [List.replicate_succ, beVal_cons, ih]; simp

theorem topMask_toNat : ∀ p : Fin 8, (~~~ ((0xff : UInt8) >>> p.val.toUInt8)).toNat + 2 ^ (8 - p.val) = 256 := by
  decide

theorem beVal_maskBytes (l n : Nat) (h : n ≤ 8 * l) :
    beVal (maskBytes l n) + 2 ^ (8 * l - n) = 2 ^ (8 * l) := by
  induction l generalizing n with
  | zero => have : n = 0 := by omega
            subst this; simp [maskBytes, beVal_nil]
  | succ l ih =>
    unfold maskBytes
    split
    · rename_i hn
      rw [beVal_cons, maskBytes_length, pow256]
      have := ih (n - 8) (by omega)
      have e1 : 8 * (l + 1) - n = 8 * l - (n - 8) := by omega
      have e2 : 8 * (l + 1) = 8 * l + 8 := by omega
      rw [e1, e2, Nat.pow_add]
      have e3 : (0xff : UInt8).toNat = 255 := rfl
      rw [e3]
      omega
    · rename_i hn
      have hn : n < 8 := by omega
      rw [beVal_cons, maskBytes_length, pow256, maskBytes_zero, beVal_replicate_zero]
      have := topMask_toNat ⟨n, hn⟩
      simp only at this
      have e1 : 8 * (l + 1) - n = (8 - n) + 8 * l := by omega
      have e2 : 8 * (l + 1) = 8 + 8 * l := by omega
      rw [e1, e2, Nat.pow_add, Nat.pow_add, Nat.add_zero, ← Nat.add_mul, this]

theorem isMask_maskBytes (l n : Nat) (h : n ≤ 8 * l) : IsMask n (maskBytes l n) := by
  refine ⟨by rw [maskBytes_length]; exact h, ?_⟩
  rw [maskBytes_length]; exact beVal_maskBytes l n h

theorem eq_maskBytes {p : Nat} {m : Bytes} (h : IsMask p m) : m = maskBytes m.length p := by
  apply beVal_inj (by rw [maskBytes_length])
  have := beVal_maskBytes m.length p h.1
  have := h.2
  omega

theorem isMask_inj {p q : Nat} {m : Bytes} (h : IsMask p m) (h' : IsMask q m) : p = q := by
  have h1 := h.2; have h2 := h'.2
  have : 2 ^ (8 * m.length - p) = 2 ^ (8 * m.length - q) := by omega
  have := Nat.pow_right_injective (Nat.le_refl 2) this
  have := h.1; have := h'.1; omega

theorem and_topMask (x : UInt8) : ∀ p : Fin 8,
    (x &&& ~~~ ((0xff : UInt8) >>> p.val.toUInt8)).toNat = x.toNat / 2 ^ (8 - p.val) * 2 ^ (8 - p.val) := by
  revert x
  apply u8_forall
  decide +kernel

theorem or_topMask (x : UInt8) : ∀ p : Fin 8,
    (x ||| ~~~ ~~~ ((0xff : UInt8) >>> p.val.toUInt8)).toNat
      = x.toNat / 2 ^ (8 - p.val) * 2 ^ (8 - p.val) + (2 ^ (8 - p.val) - 1) := by
  revert x
  apply u8_forall
  decide +kernel

theorem div_cons_high (x A k e : Nat) (hA : A < 2 ^ (k + e)) :
    (x * 2 ^ (k + e) + A) / 2 ^ k = x * 2 ^ e + A / 2 ^ k := by
  have : x * 2 ^ (k + e) + A = A + 2 ^ k * (x * 2 ^ e) := by rw [Nat.pow_add]; ring
  rw [this, Nat.add_mul_div_left _ _ (Nat.pow_pos (by omega))]; omega

theorem div_cons_low (x A k e : Nat) (hA : A < 2 ^ e) :
    (x * 2 ^ e + A) / 2 ^ (k + e) = x / 2 ^ k := by
  rw [Nat.add_comm k e, Nat.pow_add, ← Nat.div_div_eq_div_mul]
  have : x * 2 ^ e + A = A + 2 ^ e * x := by ring
  rw [this, Nat.add_mul_div_left _ _ (Nat.pow_pos (by omega)), Nat.div_eq_of_lt hA]; simp

theorem and_ff : ∀ x : UInt8, x &&& 0xff = x := by apply u8_forall; decide +kernel
theorem or_not_ff : ∀ x : UInt8, x ||| ~~~ 0xff = x := by apply u8_forall; decide +kernel

theorem maskedEq_zero (l : Nat) (a b : Bytes) : maskedEq a (List.replicate l 0) b = true := by
  induction l generalizing a b with
  | zero => cases a <;> simp [maskedEq]
  | succ l ih =>
    cases a <;> cases b <;> simp [maskedEq, List.replicate_succ, ih]

theorem maskedEq_iff (l p : Nat) (h : p ≤ 8 * l) (a b : Bytes) (ha : a.length = l) (hb : b.length = l) :
    maskedEq a (maskBytes l p) b = true ↔
      beVal b / 2 ^ (8 * l - p) = beVal a / 2 ^ (8 * l - p) := by
  induction l generalizing p a b with
  | zero =>
    simp at ha hb; subst ha; subst hb; simp [maskedEq]
  | succ l ih =>
    obtain ⟨x, a, rfl⟩ : ∃ x a', a = x :: a' := by cases a <;> simp_all
    obtain ⟨y, b, rfl⟩ : ∃ x a', b = x :: a' := by cases b <;> simp_all
    simp only [List.length_cons, Nat.add_right_cancel_iff] at ha hb
    have hA := beVal_lt' a
    have hB := beVal_lt' b
    rw [ha, pow256] at hA
    rw [hb, pow256] at hB
    rw [beVal_cons, beVal_cons, ha, hb, pow256]
    unfold maskBytes
    split
    · rename_i hn
      simp only [maskedEq, and_ff, Bool.and_eq_true, beq_iff_eq]
      rw [ih (p - 8) (by omega) a b ha hb]
      have e1 : 8 * (l + 1) - p = 8 * l - (p - 8) := by omega
      rw [e1]
      generalize hk : 8 * l - (p - 8) = k
      have e3 : 8 * l = k + (p - 8) := by omega
      rw [e3] at hA hB ⊢
      rw [div_cons_high _ _ _ _ hA, div_cons_high _ _ _ _ hB]
      have qA : beVal a / 2 ^ k < 2 ^ (p - 8) := by
        rw [Nat.div_lt_iff_lt_mul (Nat.pow_pos (by omega)), ← Nat.pow_add, Nat.add_comm]; exact hA
      have qB : beVal b / 2 ^ k < 2 ^ (p - 8) := by
        rw [Nat.div_lt_iff_lt_mul (Nat.pow_pos (by omega)), ← Nat.pow_add, Nat.add_comm]; exact hB
      generalize beVal a / 2 ^ k = qa at *
      generalize beVal b / 2 ^ k = qb at *
      constructor
      · rintro ⟨rfl, h⟩; rw [h]
      · intro h
        have : x.toNat = y.toNat := by
          rcases Nat.lt_trichotomy x.toNat y.toNat with hc | hc | hc
          · exfalso
            have : (x.toNat + 1) * 2 ^ (p - 8) ≤ y.toNat * 2 ^ (p - 8) := Nat.mul_le_mul_right _ hc
            rw [Nat.add_mul] at this; omega
          · exact hc
          · exfalso
            have : (y.toNat + 1) * 2 ^ (p - 8) ≤ x.toNat * 2 ^ (p - 8) := Nat.mul_le_mul_right _ hc
            rw [Nat.add_mul] at this; omega
        rw [this] at h
        exact ⟨UInt8.toNat_inj.mp this, by omega⟩
    · rename_i hn
      have hn : p < 8 := by omega
      rw [maskBytes_zero]
      simp only [maskedEq, maskedEq_zero, Bool.and_true, beq_iff_eq]
      have e1 : 8 * (l + 1) - p = (8 - p) + 8 * l := by omega
      rw [e1, div_cons_low _ _ _ _ hA, div_cons_low _ _ _ _ hB, ← UInt8.toNat_inj]
      have h1 := and_topMask x ⟨p, hn⟩
      have h2 := and_topMask y ⟨p, hn⟩
      simp only at h1 h2
      rw [h1, h2]
      constructor
      · intro h; exact (Nat.eq_of_mul_eq_mul_right (Nat.pow_pos (by omega)) h).symm
      · intro h; rw [h]

/-- The result of `GetRangeIP`: the first and last address of the prefix. -/
theorem rangeBytes_spec (l p : Nat) (h : p ≤ 8 * l) (a : Bytes) (ha : a.length = l) :
    ∃ b e, rangeBytes a (maskBytes l p) = some (b, e) ∧ b.length = l ∧ e.length = l ∧
      beVal b = beVal a / 2 ^ (8 * l - p) * 2 ^ (8 * l - p) ∧
      beVal e = beVal a / 2 ^ (8 * l - p) * 2 ^ (8 * l - p) + (2 ^ (8 * l - p) - 1) := by
  induction l generalizing p a with
  | zero =>
    simp at ha; subst ha
    exact ⟨[], [], by simp [rangeBytes], rfl, rfl, by simp [beVal_nil], by simp [beVal_nil]⟩
  | succ l ih =>
    obtain ⟨x, a, rfl⟩ : ∃ x a', a = x :: a' := by cases a <;> simp_all
    simp only [List.length_cons, Nat.add_right_cancel_iff] at ha
    have hA := beVal_lt' a
    rw [ha, pow256] at hA
    rw [beVal_cons, ha, pow256]
    unfold maskBytes
    split
    · rename_i hn
      obtain ⟨b, e, hr, hb, he, vb, ve⟩ := ih (p - 8) (by omega) a ha
      refine ⟨x :: b, x :: e, ?_, by simp [hb], by simp [he], ?_, ?_⟩
      · simp only [rangeBytes, hr, and_ff, or_not_ff]
      all_goals
        rw [beVal_cons]
        first | rw [hb, vb] | rw [he, ve]
        have e1 : 8 * (l + 1) - p = 8 * l - (p - 8) := by omega
        rw [e1, pow256]
        generalize hk : 8 * l - (p - 8) = k
        have e3 : 8 * l = k + (p - 8) := by omega
        rw [e3] at hA ⊢
        rw [div_cons_high _ _ _ _ hA, Nat.pow_add]
        ring
    · rename_i hn
      have hn : p < 8 := by omega
      obtain ⟨b, e, hr, hb, he, vb, ve⟩ := ih 0 (by omega) a ha
      refine ⟨(x &&& ~~~ ((0xff : UInt8) >>> p.toUInt8)) :: b,
        (x ||| ~~~ ~~~ ((0xff : UInt8) >>> p.toUInt8)) :: e, ?_, by simp [hb], by simp [he], ?_, ?_⟩
      · simp only [rangeBytes, hr]
      · have e1 : 8 * (l + 1) - p = (8 - p) + 8 * l := by omega
        have h1 := and_topMask x ⟨p, hn⟩
        simp only at h1
        rw [beVal_cons, hb, vb, e1, div_cons_low _ _ _ _ hA, h1, pow256, Nat.sub_zero,
          Nat.div_eq_of_lt hA, Nat.pow_add]
        ring
      · have e1 : 8 * (l + 1) - p = (8 - p) + 8 * l := by omega
        have h1 := or_topMask x ⟨p, hn⟩
        simp only at h1
        rw [beVal_cons, he, ve, e1, div_cons_low _ _ _ _ hA, h1, pow256, Nat.sub_zero,
          Nat.div_eq_of_lt hA, Nat.pow_add]
        have p1 : 0 < 2 ^ (8 - p) := Nat.pow_pos (by omega)
        have p2 : 0 < 2 ^ (8 * l) := Nat.pow_pos (by omega)
        generalize 2 ^ (8 - p) = u at *
        generalize 2 ^ (8 * l) = w at *
        obtain ⟨u, rfl⟩ : ∃ u', u = u' + 1 := ⟨u - 1, by omega⟩
        obtain ⟨w, rfl⟩ : ∃ w', w = w' + 1 := ⟨w - 1, by omega⟩
        have : (u + 1) * (w + 1) - 1 = u * (w + 1) + w := by
          rw [Nat.add_mul]; omega
        rw [this]
        simp only [Nat.add_sub_cancel]
        ring

/-! ### Mask size -/

theorem leadingOnes_topMask : ∀ p : Fin 8,
    leadingOnes 8 (~~~ ((0xff : UInt8) >>> p.val.toUInt8)) 0 = (p.val, 0) := by decide

theorem topMask_ne_ff : ∀ p : Fin 8, ~~~ ((0xff : UInt8) >>> p.val.toUInt8) ≠ 0xff := by decide

theorem simpleMaskLength_maskBytes (l p : Nat) (h : p ≤ 8 * l) :
    simpleMaskLength (maskBytes l p) = some p := by
  induction l generalizing p with
  | zero => have : p = 0 := by omega
            subst this; rfl
  | succ l ih =>
    unfold maskBytes
    split
    · unfold simpleMaskLength
      rw [if_pos rfl, ih (p - 8) (by omega)]
      simp; omega
    · rename_i hn
      have hn : p < 8 := by omega
      have h1 := leadingOnes_topMask ⟨p, hn⟩
      have h2 := topMask_ne_ff ⟨p, hn⟩
      simp only at h1 h2
      unfold simpleMaskLength
      rw [if_neg h2, maskBytes_zero]
      simp [h1]

theorem maskSize_of_isMask {p : Nat} {m : Bytes} (h : IsMask p m) : maskSize m = p := by
  rw [eq_maskBytes h, maskSize, simpleMaskLength_maskBytes _ _ h.1]; rfl

end Verif
