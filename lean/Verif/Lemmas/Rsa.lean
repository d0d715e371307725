import Verif.Spec.Rsa
import Mathlib.FieldTheory.Finite.Basic
import Mathlib.Data.Nat.ChineseRemainder
/-
  Raising to the private and then to the public exponent is the identity.
-/
set_option autoImplicit false

namespace Verif.CmsSpec

theorem pow_modEq_prime {p m M k : Nat} (hp : p.Prime) : m ^ (1 + (p - 1) * M * k) ≡ m [MOD p] := by
  haveI := Fact.mk hp
  rw [← ZMod.natCast_eq_natCast_iff]
  push_cast
  by_cases h : (m : ZMod p) = 0
  · rw [h, zero_pow (by omega)]
  · rw [pow_add, pow_one, mul_assoc, pow_mul, ZMod.pow_card_sub_one_eq_one h, one_pow, mul_one]

theorem rsa_inverse {n e d m : Nat} (h : RsaKeyPair n e d) (hm : m < n) : (m ^ d % n) ^ e % n = m := by
  obtain ⟨p, q, hp, hq, hne, rfl, hed⟩ := h
  have hp2 := hp.two_le
  have hq2 := hq.two_le
  have hM : 1 < (p - 1) * (q - 1) := by
    rcases Nat.lt_or_ge p 3 with h | h
    · have : 2 ≤ q - 1 := by omega
      have h1 : 1 ≤ p - 1 := by omega
      calc 1 < 1 * 2 := by norm_num
        _ ≤ (p - 1) * (q - 1) := Nat.mul_le_mul h1 this
    · have : 2 ≤ p - 1 := by omega
      have h1 : 1 ≤ q - 1 := by omega
      calc 1 < 2 * 1 := by norm_num
        _ ≤ (p - 1) * (q - 1) := Nat.mul_le_mul this h1
  have hk : e * d = 1 + (p - 1) * (q - 1) * (e * d / ((p - 1) * (q - 1))) := by
    have h1 : e * d % ((p - 1) * (q - 1)) = 1 := by
      have := hed
      unfold Nat.ModEq at this
      rw [this, Nat.mod_eq_of_lt hM]
    have := Nat.div_add_mod (e * d) ((p - 1) * (q - 1))
    omega
  have h1 : m ^ (d * e) ≡ m [MOD p] := by
    rw [Nat.mul_comm d e, hk]; exact pow_modEq_prime hp
  have h2 : m ^ (d * e) ≡ m [MOD q] := by
    rw [Nat.mul_comm d e, hk, Nat.mul_comm (p - 1) (q - 1)]; exact pow_modEq_prime hq
  have hc : Nat.Coprime p q := (Nat.coprime_primes hp hq).mpr hne
  have h3 : m ^ (d * e) ≡ m [MOD p * q] := (Nat.modEq_and_modEq_iff_modEq_mul hc).mp ⟨h1, h2⟩
  rw [← Nat.pow_mod, ← pow_mul]
  unfold Nat.ModEq at h3
  rw [h3, Nat.mod_eq_of_lt hm]

end Verif.CmsSpec
