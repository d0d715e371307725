import Verif.Lemmas.Ber2
import Mathlib.Tactic.Linarith
/-
  Property theorems for BER2DER: C01 - C04.
-/
set_option autoImplicit false

namespace Verif.Props
open Ber BerSpec

/-! ## C01 — BER to DER normalisation -/

/-- **C01.** For every value `t`, every BER encoding `bs` of `t` (any mix of definite,
    non-minimal and indefinite lengths) and any octets following it, `BER2DER` returns the
    DER encoding of `t`. -/
theorem C01_ber_to_der (t : Tlv) (bs rest : Bytes) (h : BerEnc t bs) :
    BER2DER (bs ++ rest) = .ok (der t) := by
  have hl := berEnc_length h
  have := readObject_of_exists (readObject_enc (ber := bs ++ rest) (o := 0) h rfl)
  unfold BER2DER
  rw [if_neg (by simp only [List.length_append]; omega)]
  simp [this, encodeTo_toObj]

mutual
theorem toObj_inj : ∀ t u : Tlv, toObj t = toObj u → t = u
  | .prim a c, .prim b d, h => by simp [toObj] at h; simp [h]
  | .cons a ts, .cons b us, h => by
      simp only [toObj, Obj.struct.injEq] at h
      rw [h.1, toObjs_inj ts us h.2]
  | .prim a c, .cons b us, h => by simp [toObj] at h
  | .cons a ts, .prim b d, h => by simp [toObj] at h
theorem toObjs_inj : ∀ ts us : List Tlv, toObjs ts = toObjs us → ts = us
  | [], [], _ => rfl
  | t :: ts, u :: us, h => by
      simp only [toObjs, List.cons.injEq] at h
      rw [toObj_inj t u h.1, toObjs_inj ts us h.2]
  | [], u :: us, h => by simp [toObjs] at h
  | t :: ts, [], h => by simp [toObjs] at h
end

/-- **C01, no information is lost.** Different values have different DER encodings, so the
    result of `C01_ber_to_der` determines the value that was encoded. -/
theorem C01_der_injective (t u : Tlv) (ht : WellTagged t) (hu : WellTagged u)
    (hs : (der t).length < 2 ^ 31) (h : der t = der u) : t = u := by
  have h1 := readObject_of_exists (readObject_enc (ber := der t) (o := 0) (rest := [])
    (berEnc_der t ht hs) (by simp))
  have h2 := readObject_of_exists (readObject_enc (ber := der u) (o := 0) (rest := [])
    (berEnc_der u hu (by rw [← h]; exact hs)) (by simp))
  rw [h] at h1
  rw [h1] at h2
  simp at h2
  exact toObj_inj t u h2

/-- Non-vacuity: a SEQUENCE { OCTET STRING of 2 octets, SEQUENCE {} } in indefinite form, with
    a non-minimal inner length, has a BER encoding in the sense of the specification. -/
example : BerEnc (.cons [0x30] [.prim [0x04] [1, 2], .cons [0x30] []])
    ([0x30] ++ [0x80] ++ [[0x04, 0x81, 0x02, 1, 2], [0x30, 0x00]].flatten ++ [0, 0]) := by
  refine .indefinite _ _ _ tag30 ?_ (by simp) (by decide)
  refine .cons _ _ _ _ ?_ (.cons _ _ _ _ ?_ .nil)
  · exact .prim [0x04] [1, 2] [0x81, 0x02] tag04 (DefLen.long 2 [] (by simp) (by decide) (by simp))
  · exact .definite [0x30] [] [] [0x00] tag30 .nil (DefLen.short 0 (by omega))

/-- An empty value in indefinite form is legal BER (X.690 8.1.3.6), but the reader takes the
    end-of-contents octets for a first component and rejects the value. -/
theorem C01_empty_indefinite_rejected :
    BER2DER [0x30, 0x80, 0, 0] = .err "ber2der: Invalid BER format" := by
  decide +kernel

/-- ... and when more octets follow, the value after it is swallowed: this is a SEQUENCE of
    an empty indefinite SEQUENCE and a NULL, but the NULL becomes a child of the inner one. -/
theorem C01_empty_indefinite_swallows :
    BER2DER [0x30, 0x08, 0x30, 0x80, 0, 0, 0x05, 0x00, 0, 0]
      = .ok [0x30, 0x06, 0x30, 0x04, 0, 0, 0x05, 0x00] := by
  decide +kernel

/-! ## C02 — DER is a fixed point -/

/-- **C02.** Whenever `BER2DER` succeeds, whatever the input, its result is the DER encoding of a
    well-formed value, and if it is smaller than 2 GiB it is left unchanged by `BER2DER`. -/
theorem C02_canonical_and_idempotent (x y : Bytes) (h : BER2DER x = .ok y) :
    (∃ t, WellTagged t ∧ y = der t) ∧ (y.length < 2 ^ 31 → BER2DER y = .ok y) := by
  unfold BER2DER at h
  split at h
  · simp at h
  · rw [Go.bind_eq_ok] at h
    obtain ⟨r, hr, h⟩ := h
    obtain ⟨t, e, hw⟩ := (read_canonical x _).1 _ _ hr
    rw [e, encodeTo_toObj] at h
    simp at h
    subst h
    refine ⟨⟨t, hw, rfl⟩, fun hs => ?_⟩
    have := C01_ber_to_der t (der t) [] (berEnc_der t hw hs)
    simpa using this

/-- Non-vacuity: an indefinite encoding is accepted and changed by the first application. -/
example : BER2DER [0x30, 0x80, 0x05, 0x00, 0, 0] = .ok [0x30, 0x02, 0x05, 0x00] := by
  decide +kernel

/-- **C02, trailing data.** A result does not depend on octets after the first value. -/
theorem C02_trailing_ignored (x z y : Bytes) (h : BER2DER x = .ok y) :
    BER2DER (x ++ z) = .ok y := by
  unfold BER2DER at h ⊢
  split at h
  · simp at h
  · rename_i hx
    rw [if_neg (by simp at hx; simp [hx])]
    rw [Go.bind_eq_ok] at h
    obtain ⟨r, hr, h⟩ := h
    rw [readObject_of_exists ⟨_, (read_append x z _).1 _ _ hr⟩]
    exact h

/-! ## C03 — panics -/

/-- **C03 is violated.** For every run of continuation octets, an identifier in high-tag form
    that never ends makes `BER2DER` index out of range. -/
theorem C03_violated_tag (mid : Bytes) (hm : ∀ x ∈ mid, x ≥ 0x80) :
    BER2DER (0x1F :: mid) = .panic := by
  have hs : ∀ (n o : Nat), (0x1F :: mid).length - (o + 1) = n → skipTag (0x1F :: mid) (o + 1) = .panic := by
    intro n
    induction n with
    | zero => intro o ho; unfold skipTag; rw [dif_neg (by omega)]
    | succ n ih =>
      intro o ho
      unfold skipTag
      rw [dif_pos (by omega)]
      have hge : (0x1F :: mid)[o + 1]'(by omega) ≥ 0x80 := by
        rw [List.getElem_cons_succ]; exact hm _ (List.getElem_mem _)
      rw [if_pos hge]
      exact ih (o + 1) (by omega)
  unfold BER2DER
  rw [if_neg (by simp)]
  have : readTag (0x1F :: mid) 0 = .panic := by
    unfold readTag
    simp only [idx_cons_zero, Go.ok_bind]
    rw [if_pos (by decide), hs _ 0 rfl]; rfl
  simp [fuelFor, readObject, readHeader, this]

/-- **C03 is violated** at each of the other unchecked index expressions: first length octet
    (line 180), later length octets (line 186), first component of an indefinite value (line 141). -/
theorem C03_violated_length_and_indefinite :
    BER2DER [0x30, 0x81] = .panic ∧ BER2DER [0x30, 0x82, 0x01] = .panic ∧
    BER2DER [0x30, 0x80] = .panic := by
  decide +kernel

/-- **C03, the part that holds.** `BER2DER` panics only by running off the end of the input: an
    input that ends with three zero octets never panics, and (with `C02_trailing_ignored`) adding
    them to an input never changes a result that was already obtained. Missing for the full C03:
    inputs that do not end in this way. -/
theorem C03_no_panic_when_padded_partial (x : Bytes) : BER2DER (x ++ [0, 0, 0]) ≠ .panic := by
  unfold BER2DER
  rw [if_neg (by simp)]
  rw [ne_eq, Go.bind_eq_panic]
  rintro (h | ⟨_, _, h⟩)
  · exact (read_ne_panic (x ++ [0, 0, 0]) ⟨x, rfl⟩ _).1 0 (by simp) h
  · simp at h

/-- **C03, encodings.** No BER encoding of any value panics, whatever follows it. -/
theorem C03_no_panic_on_encodings_partial (t : Tlv) (bs rest : Bytes) (h : BerEnc t bs) :
    BER2DER (bs ++ rest) ≠ .panic := by
  rw [C01_ber_to_der t bs rest h]; simp

/-! ## C04 — output size -/

/-- **C04 is violated.** For every `k` there is an input of `4 k + 6` octets whose conversion
    succeeds with at least `2 ^ k` octets of output. -/
theorem C04_violated_exponential (k : Nat) :
    ∃ x y : Bytes, x.length = 4 * k + 6 ∧ BER2DER x = .ok y ∧ 2 ^ k ≤ y.length := by
  refine ⟨0x30 :: 0x80 :: blowTail k, encodeTo (.struct [0x30] (blowObjs k)), ?_, ?_, ?_⟩
  · simp [blowTail_length]
  · obtain ⟨f, hf⟩ := blow_read (ber := 0x30 :: 0x80 :: blowTail k) (k := k) (o := 2) (ce := 2) rfl
    have hh : readHeader (0x30 :: 0x80 :: blowTail k) 0 = .ok ⟨[0x30], true, true, 0, 2⟩ :=
      readHeader_indefinite (rest := blowTail k) tag30 rfl
    have : readObject (f + 1) (0x30 :: 0x80 :: blowTail k) 0
        = .ok (.struct [0x30] (blowObjs k), 2 + 4 * k + 2 + 2) := by
      simp only [readObject, hh, Go.ok_bind]
      simp [hf]
    unfold BER2DER
    rw [if_neg (by simp), readObject_of_exists ⟨_, this⟩]
    rfl
  · have := encodeAll_blow k
    simp only [encodeTo, List.length_append]
    omega

/-- Hence no linear bound exists. -/
theorem C04_violated_no_linear_bound (c d : Nat) :
    ∃ x y : Bytes, BER2DER x = .ok y ∧ c * x.length + d < y.length := by
  have key : ∀ a b : Nat, ∃ k, a * k + b < 2 ^ k := by
    intro a b
    obtain ⟨m, hm⟩ : ∃ m, m = a + b + 1 := ⟨_, rfl⟩
    have h3 : m + 1 ≤ 2 ^ m := Nat.lt_two_pow_self
    have h4 : 2 ^ (3 * m) = 2 ^ m * 2 ^ m * 2 ^ m := by
      rw [show 3 * m = m + m + m by omega, Nat.pow_add, Nat.pow_add]
    have h5 : (m + 1) * (m + 1) * (m + 1) ≤ 2 ^ m * 2 ^ m * 2 ^ m :=
      Nat.mul_le_mul (Nat.mul_le_mul h3 h3) h3
    refine ⟨3 * m, ?_⟩
    rw [h4]
    refine Nat.lt_of_lt_of_le ?_ h5
    have ha : a ≤ m := by omega
    have hb : b ≤ m := by omega
    have : a * (3 * m) ≤ m * (3 * m) := Nat.mul_le_mul_right _ ha
    nlinarith
  obtain ⟨k, hk⟩ := key (4 * c) (6 * c + d)
  obtain ⟨x, y, hl, hb, hy⟩ := C04_violated_exponential k
  refine ⟨x, y, hb, ?_⟩
  rw [hl]
  have : c * (4 * k + 6) + d = 4 * c * k + (6 * c + d) := by
    rw [Nat.mul_add, ← Nat.mul_assoc, Nat.mul_comm c 4, Nat.mul_comm c 6]; omega
  omega

/-- **C04, termination.** On every input the recursion of `readObject` ends: its depth is at most
    the number of octets plus two (the fuel of the model is never exhausted). -/
theorem C04_terminates_partial (x : Bytes) : BER2DER x ≠ .diverge := by
  unfold BER2DER
  split
  · simp
  · rw [ne_eq, Go.bind_eq_diverge]
    rintro (h | ⟨_, _, h⟩)
    · exact (readObject_fuel x _).1 0 (by omega) (by unfold fuelFor; omega) h
    · simp at h

/-- **C04, well-formed input.** The conversion of a BER encoding of any value (of less than 2 GiB)
    is at most twice as long as the encoding. Missing for the full C04: inputs in which a component
    overruns its parent (`C04_violated_exponential`). -/
theorem C04_linear_on_encodings_partial (t : Tlv) (bs rest : Bytes) (h : BerEnc t bs)
    (hs : bs.length < 2 ^ 31) :
    ∃ y, BER2DER (bs ++ rest) = .ok y ∧ y.length ≤ 2 * bs.length :=
  ⟨der t, C01_ber_to_der t bs rest h, der_size h hs⟩

end Verif.Props
