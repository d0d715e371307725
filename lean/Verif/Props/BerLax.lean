import Verif.Lemmas.BerLax
import Verif.Props.Ber
/-
  BER2DER on arbitrary octets: exactly what is accepted, with which result, and exactly what makes it crash (C01, C03).
-/
set_option autoImplicit false

namespace Verif.Props
open Ber BerSpec BerLax

/-! ## C01 — exactly what is accepted -/

/-- **C01, exact.** `BER2DER` accepts octets exactly if they have a value at the front as Spec/BerLax says, and the result
    is the DER encoding of that value. -/
theorem C01_exact (x y : Bytes) : BER2DER x = .ok y ↔ ∃ t k, Front t k x ∧ y = der t := by
  unfold BER2DER
  constructor
  · intro h
    split at h
    · simp at h
    · rw [Go.bind_eq_ok] at h
      obtain ⟨r, hr, h⟩ := h
      obtain ⟨t, k, rfl, hf⟩ := (read_sound x _).1 _ _ hr
      simp only [Go.pure_def, Go.ok.injEq, encodeTo_toObj] at h
      exact ⟨t, k, by simpa using hf, h.symm⟩
  · rintro ⟨t, k, hf, rfl⟩
    have hr := readObject_of_exists (read_front (ber := x) (o := 0) hf rfl)
    split
    · rename_i h0
      have : x = [] := List.length_eq_zero_iff.mp h0
      subst this
      simp [fuelFor, readObject, readHeader, readTag] at hr
    · rw [hr]
      simp [encodeTo_toObj]

/-- A value of three octets whose part has four: the part is read past the end, and what lies there is read again. -/
theorem overlap : Front (.cons [0x30] [.cons [0x30] [.prim [0x05] [], .prim [0x04] [7]]]) 5
    [0x30, 0x03, 0x30, 0x03, 0x05, 0x00, 0x04, 0x01, 0x07] := by
  have h5 : Front (.prim [0x05] []) 2 [0x05, 0x00, 0x04, 0x01, 0x07] :=
    .prim [0x05] [0x00] [] [0x04, 0x01, 0x07] ⟨0x05, [], rfl, by decide, Or.inl ⟨by decide, rfl⟩⟩ (DefLen.short 0 (by omega))
  have h4 : Front (.prim [0x04] [7]) 3 [0x04, 0x01, 0x07] :=
    .prim [0x04] [0x01] [7] [] ⟨0x04, [], rfl, by decide, Or.inl ⟨by decide, rfl⟩⟩ (DefLen.short 1 (by omega))
  have hi : Front (.cons [0x30] [.prim [0x05] [], .prim [0x04] [7]]) 5 [0x30, 0x03, 0x05, 0x00, 0x04, 0x01, 0x07] :=
    .definite [0x30] [0x03] 3 _ [0x05, 0x00, 0x04, 0x01, 0x07] tag30 (DefLen.short 3 (by omega)) (by simp)
      (.step 3 2 _ _ _ (by omega) h5 (.step 1 3 _ _ _ (by omega) h4 (.done _)))
  exact .definite [0x30] [0x03] 3 _ [0x30, 0x03, 0x05, 0x00, 0x04, 0x01, 0x07] tag30 (DefLen.short 3 (by omega)) (by simp)
    (.step 3 5 _ _ _ (by omega) hi (.done _))

/-- Non-vacuity: this is accepted, and longer than what was read. -/
example : BER2DER [0x30, 0x03, 0x30, 0x03, 0x05, 0x00, 0x04, 0x01, 0x07] = .ok [0x30, 0x07, 0x30, 0x05, 0x05, 0x00, 0x04, 0x01, 0x07] :=
  (C01_exact _ _).mpr ⟨_, _, overlap, by decide +kernel⟩

/-- **C01, beyond BER.** Octets that are no BER encoding are accepted too: a value that ends inside its part is read, and gives a
    value that the octets do not have. -/
theorem C01_more_than_ber : ∃ x t, BER2DER x = .ok (der t) ∧ ¬ ∃ u bs rest, x = bs ++ rest ∧ BerEnc u bs := by
  refine ⟨[0x30, 0x03, 0x30, 0x03, 0x05, 0x00, 0x04, 0x01, 0x07], _, (C01_exact _ _).mpr ⟨_, _, overlap, rfl⟩, ?_⟩
  rintro ⟨u, bs, rest, hx, hb⟩
  have h1 := readObject_of_exists (readObject_enc (ber := bs ++ rest) (o := 0) hb rfl)
  have h2 := readObject_of_exists (read_front (ber := bs ++ rest) (o := 0) overlap hx.symm)
  rw [h1] at h2
  have hl : bs.length = 5 := by simpa using congrArg Prod.snd (Go.ok.inj h2)
  have hbs : bs = [0x30, 0x03, 0x30, 0x03, 0x05] := by
    have : (bs ++ rest).take 5 = bs := by rw [← hl]; simp
    rw [← this, ← hx]; rfl
  have h3 := C01_ber_to_der u bs [] hb
  rw [hbs] at h3
  have h4 : BER2DER [0x30, 0x03, 0x30, 0x03, 0x05] = .err "ber2der: BER tag length is more than available data" := by decide +kernel
  rw [List.append_nil, h4] at h3
  simp at h3

/-! ## C03 — exactly what crashes -/

/-- **C03, exact.** `BER2DER` crashes exactly on the octets that are not empty and break off, as Spec/BerLax says, at a
    place where an identifier, a length or a part of a value in indefinite form is being read. -/
theorem C03_exact (x : Bytes) : BER2DER x = .panic ↔ x ≠ [] ∧ Breaks x := by
  unfold BER2DER
  constructor
  · intro h
    split at h
    · simp at h
    · rename_i h0
      rw [Go.bind_eq_panic] at h
      rcases h with h | ⟨_, _, h⟩
      · exact ⟨by rintro rfl; simp at h0, by simpa using (break_sound x _).1 _ h⟩
      · simp at h
  · rintro ⟨h0, h⟩
    rw [if_neg (by simpa using h0), readObject_panic_of_exists (break_front h 0 rfl)]
    rfl

/-- Non-vacuity: a long length that breaks off in the second of two parts. -/
example : BER2DER [0x30, 0x04, 0x05, 0x00, 0x04, 0x82] = .panic :=
  (C03_exact _).mpr ⟨by simp, .definite [0x30] [0x04] 4 [0x05, 0x00, 0x04, 0x82] tag30 (DefLen.short 4 (by omega)) (by simp)
    (.later 4 2 _ _ (by omega) (.prim [0x05] [0x00] [] [0x04, 0x82] ⟨0x05, [], rfl, by decide, Or.inl ⟨by decide, rfl⟩⟩ (DefLen.short 0 (by omega)))
      (.here 2 _ (by omega) (.length false [0x04] [0x82] tag04 ⟨0x82, [], rfl, by decide, by decide, by decide, by simp⟩)))⟩

/-- Non-vacuity: what is empty, and what breaks off inside contents octets, does not crash. -/
example : BER2DER [] ≠ .panic ∧ BER2DER [0x04, 0x02, 0x01] ≠ .panic := by decide +kernel

/-- **C03, what is left.** Every other input that is not empty is read or refused. -/
theorem C03_otherwise (x : Bytes) : (∃ t k, Front t k x) ∨ (x ≠ [] ∧ Breaks x) ∨ ∃ m, BER2DER x = .err m := by
  cases h : BER2DER x with
  | ok y =>
    obtain ⟨t, k, hf, _⟩ := (C01_exact x y).mp h
    exact Or.inl ⟨t, k, hf⟩
  | err m => exact Or.inr (Or.inr ⟨m, rfl⟩)
  | panic => exact Or.inr (Or.inl ((C03_exact x).mp h))
  | diverge => exact absurd h (C04_terminates_partial x)

end Verif.Props
