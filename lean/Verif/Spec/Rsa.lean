import Mathlib.Data.Nat.Prime.Defs
import Mathlib.Data.Nat.ModEq
/-
  RFC 8017 3.1, 3.2: RSA key pairs.
-/
set_option autoImplicit false

namespace Verif.CmsSpec

/-- An RSA key pair with two prime factors. -/
def RsaKeyPair (n e d : Nat) : Prop :=
  ∃ p q : Nat, p.Prime ∧ q.Prime ∧ p ≠ q ∧ n = p * q ∧ e * d ≡ 1 [MOD (p - 1) * (q - 1)]

end Verif.CmsSpec
