import Verif.Model.CmsEncode
import Verif.Spec.Content
import Verif.Lemmas.Cms
import Verif.Lemmas.CmsForge
/-
  Reading and writing ROA and manifest contents.
-/
set_option autoImplicit false

namespace Verif.Cms
open Der CmsSpec BerSpec ResSpec

/-! ### Integers -/

theorem intVal_twos {c : Bytes} (h : c ≠ []) : intVal c = twos c := by
  cases c with
  | nil => exact absurd rfl h
  | cons a t =>
    have hb : (a :: t).foldl (fun acc d => acc * 256 + d.toNat) 0 = beVal (a :: t) := rfl
    simp only [intVal, twos, hb, List.headD_cons]
    by_cases ha : a < 0x80
    · have : ¬ (0x80 : UInt8) ≤ a := by simpa using ha
      simp [ha, this]
    · have : (0x80 : UInt8) ≤ a := by simpa using ha
      simp [ha, this]

theorem beVal_cons' (a : UInt8) (t : Bytes) : beVal (a :: t) = a.toNat * 256 ^ t.length + beVal t := by
  have := beVal_app [a] t
  simpa [beVal] using this

theorem twos_cons_zero (b : UInt8) (t : Bytes) (hb : b < 0x80) : twos (0 :: b :: t) = twos (b :: t) := by
  have : ¬ (0x80 : UInt8) ≤ b := by simpa using hb
  unfold twos
  rw [beVal_cons' 0]
  simp [this]

theorem twos_cons_ff (b : UInt8) (t : Bytes) (hb : 0x80 ≤ b) : twos (0xff :: b :: t) = twos (b :: t) := by
  unfold twos
  rw [beVal_cons' 0xff]
  have : (0x80 : UInt8) ≤ 0xff := by decide
  simp only [List.headD_cons, this, if_true, hb, List.length_cons]
  have e : (0xff : UInt8).toNat = 255 := rfl
  rw [e]
  push_cast
  rw [pow_succ (256 : Int) (t.length + 1)]
  omega

theorem bigIntOk_of_content {i : Int} {c : Bytes} (h : IntContent i c) : bigIntOk c = true := by
  obtain ⟨h1, h2, h3⟩ := h
  cases c with
  | nil => exact absurd rfl h1
  | cons a t =>
    cases t with
    | nil => rfl
    | cons b t =>
      have key : ∀ (_ : twos (b :: t) = twos (a :: b :: t)), False := by
        intro e
        have := h3 (b :: t) (by simp) (e.trans h2)
        simp at this
      simp only [bigIntOk]
      by_cases hz : a = 0 ∧ b < 0x80
      · obtain ⟨rfl, hb⟩ := hz
        exact (key (twos_cons_zero b t hb).symm).elim
      · by_cases hf : a = 0xff ∧ 0x80 ≤ b
        · obtain ⟨rfl, hb⟩ := hf
          exact (key (twos_cons_ff b t hb).symm).elim
        · simp only [Bool.not_eq_true', Bool.or_eq_false_iff, Bool.and_eq_false_iff, beq_eq_false_iff_ne,
            decide_eq_false_iff_not, ne_eq]
          constructor
          · by_cases ha : a = 0
            · right; intro hb; exact hz ⟨ha, hb⟩
            · exact .inl ha
          · by_cases ha : a = 0xff
            · right; intro hb; exact hf ⟨ha, hb⟩
            · exact .inl ha

theorem intOk_of_content {i : Int} {c : Bytes} (h : IntContent i c) (hl : c.length ≤ 8) : intOk c = true := by
  have := bigIntOk_of_content h
  cases c with
  | nil => simp [bigIntOk] at this
  | cons a t =>
    cases t with
    | nil => rfl
    | cons b t =>
      simp only [bigIntOk] at this
      simp only [intOk, this, Bool.true_and, decide_eq_true_eq]
      exact hl

theorem twos_concat {c : Bytes} (h : c ≠ []) (b : UInt8) : twos (c ++ [b]) = twos c * 256 + b.toNat := by
  unfold twos
  have hd : (c ++ [b]).headD 0 = c.headD 0 := by
    cases c with
    | nil => exact absurd rfl h
    | cons a t => rfl
  rw [beVal_app, hd]
  have : beVal [b] = b.toNat := by simp [beVal]
  rw [this]
  simp only [List.length_append, List.length_cons, List.length_nil, Nat.zero_add]
  split
  · push_cast
    rw [pow_succ]; ring
  · push_cast; ring

/-- The values of `n` octets. -/
theorem twos_range {c : Bytes} (h : c ≠ []) :
    -(128 * 256 ^ (c.length - 1) : Int) ≤ twos c ∧ twos c < 128 * 256 ^ (c.length - 1) := by
  induction c using List.reverseRecOn with
  | nil => exact absurd rfl h
  | append_singleton c b ih =>
    by_cases hc : c = []
    · subst hc
      have : ∀ b : UInt8, -(128 * 256 ^ 0 : Int) ≤ twos [b] ∧ twos [b] < 128 * 256 ^ 0 := by
        intro b
        refine u8_forall (P := fun b => -(128 * 256 ^ 0 : Int) ≤ twos [b] ∧ twos [b] < 128 * 256 ^ 0) ?_ b
        decide +kernel
      exact this b
    · obtain ⟨h1, h2⟩ := ih hc
      rw [twos_concat hc]
      have hl : (c ++ [b]).length - 1 = (c.length - 1) + 1 := by
        have := List.length_pos_iff.mpr hc
        simp; omega
      rw [hl, pow_succ]
      have := u8_lt b
      generalize (256 : Int) ^ (c.length - 1) = q at *
      omega

/-- Octets with the right value are the shortest ones if one octet less cannot hold the value. -/
theorem content_of_range {i : Int} {c : Bytes} (h : c ≠ []) (hv : twos c = i)
    (hr : c.length = 1 ∨ i < -(128 * 256 ^ (c.length - 2) : Int) ∨ 128 * 256 ^ (c.length - 2) ≤ i) :
    IntContent i c := by
  refine ⟨h, hv, ?_⟩
  intro c' h' hv'
  by_contra hlt
  have h0 := List.length_pos_iff.mpr h'
  obtain ⟨r1, r2⟩ := twos_range h'
  rw [hv'] at r1 r2
  have hmono : (256 : Int) ^ (c'.length - 1) ≤ 256 ^ (c.length - 2) :=
    pow_le_pow_right₀ (by norm_num) (by omega)
  generalize (256 : Int) ^ (c'.length - 1) = p at *
  generalize (256 : Int) ^ (c.length - 2) = q at *
  omega

theorem intByte_toNat (i : Int) : ((intByte i).toNat : Int) = i % 256 := by
  unfold intByte
  have h1 : 0 ≤ i % 256 := Int.emod_nonneg _ (by decide)
  have h2 : i % 256 < 256 := Int.emod_lt_of_pos _ (by decide)
  rw [toUInt8_toNat_small (by omega)]
  omega

theorem twos_one {i : Int} (h1 : -128 ≤ i) (h2 : i ≤ 127) : twos [intByte i] = i := by
  have hb : beVal [intByte i] = (intByte i).toNat := by simp [beVal]
  have he := intByte_toNat i
  have hle : (0x80 : UInt8) ≤ intByte i ↔ 128 ≤ (intByte i).toNat := by
    rw [UInt8.le_iff_toNat_le]; rfl
  simp only [twos, hb, List.headD_cons, hle, List.length_cons, List.length_nil]
  split <;> omega

theorem intOctetsFuel_spec (f : Nat) : ∀ i : Int, -(128 * 256 ^ f) ≤ i → i < 128 * 256 ^ f →
    (intOctetsFuel f i ≠ [] ∧ twos (intOctetsFuel f i) = i ∧ (intOctetsFuel f i).length ≤ f + 1) ∧
    ((intOctetsFuel f i).length = 1 ∨ i < -(128 * 256 ^ ((intOctetsFuel f i).length - 2) : Int) ∨
      128 * 256 ^ ((intOctetsFuel f i).length - 2) ≤ i) := by
  induction f with
  | zero =>
    intro i h1 h2
    simp only [pow_zero, mul_one] at h1 h2
    exact ⟨⟨by simp [intOctetsFuel], twos_one (by omega) (by omega), by simp [intOctetsFuel]⟩, .inl rfl⟩
  | succ f ih =>
    intro i h1 h2
    unfold intOctetsFuel
    split
    · rename_i hbig
      rw [pow_succ] at h1 h2
      obtain ⟨⟨a1, a2, a3⟩, a4⟩ := ih (i / 256)
        (by generalize (256 : Int) ^ f = q at *; omega) (by generalize (256 : Int) ^ f = q at *; omega)
      have hl0 := List.length_pos_iff.mpr a1
      refine ⟨⟨by simp, ?_, by simp; omega⟩, .inr ?_⟩
      · rw [twos_concat a1, a2, intByte_toNat]; omega
      · simp only [List.length_append, List.length_cons, List.length_nil, Nat.zero_add]
        rcases a4 with hl | hl
        · rw [hl]; norm_num; omega
        · by_cases hone : (intOctetsFuel f (i / 256)).length = 1
          · rw [hone]; norm_num; omega
          · have e : (intOctetsFuel f (i / 256)).length + 1 - 2 = ((intOctetsFuel f (i / 256)).length - 2) + 1 := by
              omega
            rw [e, pow_succ]
            generalize (256 : Int) ^ ((intOctetsFuel f (i / 256)).length - 2) = q at *
            omega
    · rename_i hsmall
      exact ⟨⟨by simp, twos_one (by omega) (by omega), by simp⟩, .inl rfl⟩

/-- `int64Encoder` writes the shortest octets. -/
theorem intOctets_content {i : Int} (h1 : -2 ^ 63 ≤ i) (h2 : i < 2 ^ 63) :
    IntContent i (intOctets i) ∧ (intOctets i).length ≤ 8 := by
  obtain ⟨⟨a1, a2, a3⟩, a4⟩ := intOctetsFuel_spec 7 i (by norm_num; omega) (by norm_num; omega)
  exact ⟨content_of_range a1 a2 a4, a3⟩

theorem beVal_head_ge (a : UInt8) (t : Bytes) : a.toNat * 256 ^ t.length ≤ beVal (a :: t) := by
  rw [beVal_cons']; omega

theorem and80 (a : UInt8) : a &&& 0x80 = 0 ↔ a < 0x80 := by
  refine u8_forall (P := fun a => a &&& 0x80 = 0 ↔ a < 0x80) ?_ a
  decide +kernel

theorem xorff (a : UInt8) : (0xff ^^^ a).toNat = 255 - a.toNat ∧ ((0xff ^^^ a) < 0x80 ↔ 0x80 ≤ a) := by
  refine u8_forall (P := fun a => (0xff ^^^ a).toNat = 255 - a.toNat ∧ ((0xff ^^^ a) < 0x80 ↔ 0x80 ≤ a)) ?_ a
  decide +kernel

theorem beVal_not (c : Bytes) : beVal (c.map (0xff ^^^ ·)) + beVal c + 1 = 256 ^ c.length := by
  induction c with
  | nil => rfl
  | cons a t ih =>
    rw [List.map_cons, beVal_cons', beVal_cons', List.length_map, (xorff a).1, List.length_cons, pow_succ]
    have := u8_lt a
    have e : (255 - a.toNat) * 256 ^ t.length + a.toNat * 256 ^ t.length = 255 * 256 ^ t.length := by
      rw [← Nat.add_mul]; congr 1; omega
    generalize 256 ^ t.length = q at *
    generalize a.toNat * q = x at *
    generalize (255 - a.toNat) * q = y at *
    omega

/-- `makeBigInt` writes the shortest octets. -/
theorem bigIntOctets_content (i : Int) : IntContent i (bigIntOctets i) := by
  unfold bigIntOctets
  split
  · rename_i hneg
    obtain ⟨m, hm⟩ : ∃ m : Nat, (-i - 1).toNat = m ∧ i = -(m : Int) - 1 := ⟨(-i - 1).toNat, rfl, by omega⟩
    obtain ⟨hm1, hm2⟩ := hm
    rw [hm1]
    simp only [natBytes_eq]
    have hv := beVal_not (digits m)
    rw [Ber.beVal_digits] at hv
    by_cases h0 : m = 0
    · subst h0
      have hd : digits 0 = [] := by decide +kernel
      rw [hd]
      simp only [List.map_nil]
      exact content_of_range (by simp) (by rw [hm2]; decide +kernel) (.inl rfl)
    · obtain ⟨d, ds, he, hd, -⟩ := Ber.digits_head m (by omega)
      rw [he] at hv ⊢
      simp only [List.map_cons]
      have hge := beVal_head_ge d ds
      rw [← he, Ber.beVal_digits] at hge
      have hd0 : 1 ≤ d.toNat := by
        rcases Nat.eq_zero_or_pos d.toNat with h | h
        · exact absurd (UInt8.toNat_inj.mp (by simpa using h)) hd
        · exact h
      simp only [List.map_cons, List.length_cons] at hv
      have hvI : ((beVal ((0xff ^^^ d) :: ds.map (0xff ^^^ ·)) : Nat) : Int) + m + 1 = 256 ^ (ds.length + 1) := by
        exact_mod_cast hv
      split
      · rename_i ha
        rw [and80] at ha
        have hd8 := (xorff d).2.mp ha
        have hd128 : 128 ≤ d.toNat := by rw [UInt8.le_iff_toNat_le] at hd8; exact hd8
        apply content_of_range (by simp)
        · unfold twos
          rw [beVal_cons']
          have e : (0xff : UInt8).toNat = 255 := rfl
          simp only [List.headD_cons, show (0x80 : UInt8) ≤ 0xff by decide, if_true, List.length_cons,
            List.length_map, e]
          push_cast
          rw [pow_succ (256 : Int) (ds.length + 1)]
          omega
        · right; left
          have h1 : 128 * 256 ^ ds.length ≤ m := Nat.le_trans (Nat.mul_le_mul_right _ hd128) hge
          have h2 : (128 * 256 ^ ds.length : Int) ≤ m := by exact_mod_cast h1
          simp only [List.length_cons, List.length_map, Nat.add_sub_cancel]
          rw [show ds.length + 1 + 1 - 2 = ds.length by omega]
          omega
      · rename_i ha
        rw [and80] at ha
        apply content_of_range (by simp)
        · unfold twos
          have : (0x80 : UInt8) ≤ 0xff ^^^ d := by simpa using ha
          simp only [List.headD_cons, this, if_true, List.length_cons, List.length_map]
          omega
        · by_cases hl : ds.length = 0
          · left; simp [hl]
          · right; left
            have h1 : 1 * 256 ^ ds.length ≤ m := Nat.le_trans (Nat.mul_le_mul_right _ hd0) hge
            simp only [List.length_cons, List.length_map]
            obtain ⟨k, hk⟩ : ∃ k, ds.length = k + 1 := ⟨ds.length - 1, by omega⟩
            rw [hk] at h1 ⊢
            rw [show k + 1 + 1 - 2 = k by omega]
            rw [pow_succ] at h1
            have h2 : (256 ^ k * 256 : Int) ≤ m := by exact_mod_cast (by omega : 256 ^ k * 256 ≤ m)
            have h3 : (0 : Int) < 256 ^ k := by positivity
            generalize (256 : Int) ^ k = q at *
            omega
  · split
    · rename_i _ h0
      subst h0
      exact content_of_range (by simp) (by decide +kernel) (.inl rfl)
    · rename_i hn hz
      obtain ⟨m, hm1, hm2⟩ : ∃ m : Nat, i.toNat = m ∧ i = m := ⟨i.toNat, rfl, by omega⟩
      rw [hm1]
      simp only [natBytes_eq]
      obtain ⟨d, ds, he, hd, -⟩ := Ber.digits_head m (by omega)
      have hv : beVal (digits m) = m := Ber.beVal_digits m
      rw [he] at hv ⊢
      have hge := beVal_head_ge d ds
      rw [hv] at hge
      have hd0 : 1 ≤ d.toNat := by
        rcases Nat.eq_zero_or_pos d.toNat with h | h
        · exact absurd (UInt8.toNat_inj.mp (by simpa using h)) hd
        · exact h
      split
      · rename_i heq
        simp at heq
      · rename_i a t heq
        simp only [List.cons.injEq] at heq
        obtain ⟨rfl, rfl⟩ := heq
        split
        · rename_i ha
          rw [ne_eq, and80] at ha
          have hd8 : (0x80 : UInt8) ≤ d := by simpa using ha
          have hd128 : 128 ≤ d.toNat := by rw [UInt8.le_iff_toNat_le] at hd8; exact hd8
          apply content_of_range (by simp)
          · unfold twos
            rw [beVal_cons', hv]
            simp [hm2]
          · right; right
            have h1 : 128 * 256 ^ ds.length ≤ m := Nat.le_trans (Nat.mul_le_mul_right _ hd128) hge
            have h2 : (128 * 256 ^ ds.length : Int) ≤ m := by exact_mod_cast h1
            simp only [List.length_cons]
            rw [show ds.length + 1 + 1 - 2 = ds.length by omega]
            omega
        · rename_i ha
          have ha : d < 0x80 := by
            rw [← and80]; exact Classical.not_not.mp ha
          apply content_of_range (by simp)
          · unfold twos
            have : ¬ (0x80 : UInt8) ≤ d := by simpa using ha
            simp [this, hv, hm2]
          · by_cases hl : ds.length = 0
            · left; simp [hl]
            · right; right
              have h1 : 1 * 256 ^ ds.length ≤ m := Nat.le_trans (Nat.mul_le_mul_right _ hd0) hge
              simp only [List.length_cons]
              obtain ⟨k, hk⟩ : ∃ k, ds.length = k + 1 := ⟨ds.length - 1, by omega⟩
              rw [hk] at h1 ⊢
              rw [show k + 1 + 1 - 2 = k by omega]
              rw [pow_succ] at h1
              have h2 : (256 ^ k * 256 : Int) ≤ m := by exact_mod_cast (by omega : 256 ^ k * 256 ≤ m)
              have h3 : (0 : Int) < 256 ^ k := by positivity
              generalize (256 : Int) ^ k = q at *
              omega

/-! ### Elements in front of the rest -/

theorem parseSeq_elem (c rest : Bytes) (h : c.length < 2 ^ 31) :
    parseTyped 16 true (elem 0x30 c ++ rest) = .ok (c, rest) := by
  rw [← tlv_elem]; exact parseTyped_tlv 16 true 0x30 c rest rfl (by decide) h

theorem parseSet_elem (c rest : Bytes) (h : c.length < 2 ^ 31) :
    parseTyped 17 true (elem 0x31 c ++ rest) = .ok (c, rest) := by
  rw [← tlv_elem]; exact parseTyped_tlv 17 true 0x31 c rest rfl (by decide) h

theorem parseOctets_elem (c rest : Bytes) (h : c.length < 2 ^ 31) :
    parseOctets (elem 0x04 c ++ rest) = .ok (c, rest) := by
  rw [← tlv_elem]; exact parseTyped_tlv 4 false 0x04 c rest rfl (by decide) h

theorem parseBits_elem (c rest : Bytes) (h : c.length < 2 ^ 31) :
    parseTyped 3 false (elem 0x03 c ++ rest) = .ok (c, rest) := by
  rw [← tlv_elem]; exact parseTyped_tlv 3 false 0x03 c rest rfl (by decide) h

theorem parseInt_elem {i : Int} {c : Bytes} (rest : Bytes) (h : IntContent i c) (hl : c.length ≤ 8) :
    parseInt (elem 0x02 c ++ rest) = .ok (c, rest) ∧ intVal c = i := by
  constructor
  · unfold parseInt
    rw [← tlv_elem, parseTyped_tlv 2 false 0x02 c rest rfl (by decide) (by omega)]
    simp [intOk_of_content h hl]
  · rw [intVal_twos h.1]; exact h.2.1

theorem parseBigInt_elem {i : Int} {c : Bytes} (rest : Bytes) (h : IntContent i c) (hl : c.length < 2 ^ 31) :
    parseBigInt (elem 0x02 c ++ rest) = .ok (i, rest) := by
  unfold parseBigInt
  rw [← tlv_elem, parseTyped_tlv 2 false 0x02 c rest rfl (by decide) hl]
  simp [bigIntOk_of_content h, intVal_twos h.1, h.2.1]

/-- Contents octets that `parseObjectIdentifier` accepts. -/
def OidOk (c : Bytes) : Prop := c ≠ [] ∧ oidLoop c.length c = .ok ()

instance (c : Bytes) : Decidable (OidOk c) := by unfold OidOk; infer_instance

theorem parseOID_elem (c rest : Bytes) (h : OidOk c) (hl : c.length < 2 ^ 31) :
    parseOID (elem 0x06 c ++ rest) = .ok (c, rest) := by
  unfold parseOID
  rw [← tlv_elem, parseTyped_tlv 6 false 0x06 c rest rfl (by decide) hl]
  simp [h.1, h.2]

theorem elem_length_gt (id : UInt8) (c : Bytes) : c.length + 2 ≤ (elem id c).length := by
  rw [elem_length]
  have : 1 ≤ (derLength c.length).length := by unfold derLength; split <;> simp
  omega

theorem elem_ne_nil (id : UInt8) (c : Bytes) : elem id c ≠ [] := by simp [elem]

theorem flatten_mem_length {l : List Bytes} {x : Bytes} (h : x ∈ l) : x.length ≤ l.flatten.length :=
  List.Sublist.length_le (List.sublist_flatten_of_mem h)

/-- `parseAll` on a list of encodings. -/
theorem parseAll_forall₂ {α β : Type} (p : Bytes → Go (β × Bytes)) (R : α → Bytes → Prop) (Q : α → β → Prop)
    (l : List α) (encs : List Bytes) (h : List.Forall₂ R l encs)
    (hp : ∀ a enc, a ∈ l → enc ∈ encs → R a enc → enc ≠ [] ∧ ∃ b, Q a b ∧ ∀ rest, p (enc ++ rest) = .ok (b, rest)) :
    ∃ bs, parseAll p encs.flatten = .ok bs ∧ List.Forall₂ Q l bs := by
  have key : ∃ pairs : List (Bytes × β), pairs.map (·.1) = encs ∧ List.Forall₂ Q l (pairs.map (·.2)) ∧
      ∀ x ∈ pairs, x.1 ≠ [] ∧ ∀ rest, p (x.1 ++ rest) = .ok (x.2, rest) := by
    induction h with
    | nil => exact ⟨[], rfl, .nil, by simp⟩
    | @cons a enc l encs hr _ ih =>
      obtain ⟨pairs, h1, h2, h3⟩ := ih (fun a enc ha he => hp a enc (by simp [ha]) (by simp [he]))
      obtain ⟨hne, b, hq, hb⟩ := hp a enc (by simp) (by simp) hr
      refine ⟨(enc, b) :: pairs, by simp [h1], .cons hq h2, ?_⟩
      intro x hx
      rcases List.mem_cons.mp hx with rfl | hx
      · exact ⟨hne, hb⟩
      · exact h3 x hx
  obtain ⟨pairs, h1, h2, h3⟩ := key
  exact ⟨_, h1 ▸ parseAll_enc p pairs h3, h2⟩

/-! ### Bit strings -/

theorem bitStringOf_content {n v : Nat} {c : Bytes} (h : BitContent n v c) :
    ∃ b, bitStringOf c = .ok b ∧ BitsOk b ∧ b.bitLength = n ∧ bitsNum b = v := by
  obtain ⟨bytes, rfl, hl, hv⟩ := h
  have hp : 8 * bytes.length - n < 8 := by omega
  have hpn : ((8 * bytes.length - n).toUInt8).toNat = 8 * bytes.length - n := toUInt8_toNat_small (by omega)
  have hle : n ≤ 8 * bytes.length := by omega
  refine ⟨⟨bytes, n⟩, ?_, ⟨hl, ?_⟩, rfl, ?_⟩
  · simp only [bitStringOf]
    rw [if_neg, hpn]
    · congr 2; omega
    · intro hbad
      rcases hbad with hb | ⟨hb, hb'⟩ | hb
      · rw [gt_iff_lt, UInt8.lt_iff_toNat_lt, hpn] at hb
        have : (7 : UInt8).toNat = 7 := rfl
        omega
      · subst hb
        rw [gt_iff_lt, UInt8.lt_iff_toNat_lt, hpn] at hb'
        simp at hb'
      · rw [hpn] at hb
        apply hb
        cases hbs : bytes using List.reverseRecOn with
        | nil => subst hbs; simp
        | append_singleton init l =>
          subst hbs
          have hlast : (((8 * (init ++ [l]).length - n).toUInt8 :: (init ++ [l])).getLast?.getD 0) = l := by
            rw [← List.cons_append, List.getLast?_append]; simp
          rw [hlast]
          rw [beVal_app] at hv
          have hb1 : beVal [l] = l.toNat := by simp [beVal]
          rw [hb1] at hv
          have hd : 2 ^ (8 * (init ++ [l]).length - n) ∣ beVal init * 256 ^ [l].length := by
            apply Dvd.dvd.mul_left
            have : (256 : Nat) ^ [l].length = 2 ^ 8 := by simp
            rw [this]
            exact pow_dvd_pow 2 (by omega)
          have hd2 : 2 ^ (8 * (init ++ [l]).length - n) ∣ beVal init * 256 ^ [l].length + l.toNat := by
            rw [hv]; exact Dvd.intro_left _ rfl
          exact Nat.mod_eq_zero_of_dvd ((Nat.dvd_add_right hd).mp hd2)
  · simp only [hv]; exact Dvd.intro_left _ rfl
  · simp only [bitsNum, hv]
    exact Nat.mul_div_cancel _ (Nat.pow_pos (by decide))

theorem bitStringOctets_content {b : Cert.BitString} (h : BitsOk b) :
    BitContent b.bitLength (bitsNum b) (bitStringOctets b) := by
  obtain ⟨h1, h2⟩ := h
  refine ⟨b.bytes, ?_, h1, ?_⟩
  · unfold bitStringOctets
    congr 2; omega
  · unfold bitsNum
    exact (Nat.div_mul_cancel h2).symm

end Verif.Cms
