import Verif.Model.RsaEncrypt
import Mathlib.Data.Nat.Prime.Defs
import Mathlib.Data.Nat.ModEq
/-
  RFC 8017 3.2: RSA private keys with two or more primes, and their precomputed values.
-/
set_option autoImplicit false

namespace Verif.RsaEncryptSpec
open RsaEncrypt

/-- A private key: the modulus is the product of different odd primes, and the two exponents undo each other for each of them. -/
structure ValidKey (k : RsaPriv) : Prop where
  prime : ∀ p ∈ k.primes, p.Prime ∧ p ≠ 2
  distinct : k.primes.Nodup
  two : 2 ≤ k.primes.length
  modulus : k.n = k.primes.prod
  inverse : ∀ p ∈ k.primes, k.e * k.d ≡ 1 [MOD p - 1]

/-- The values for the later primes, where `r` is the product of the primes before. -/
inductive CrtOf (d : Nat) : (r : Nat) → List Nat → List CrtValue → Prop
  | nil (r : Nat) : CrtOf d r [] []
  | cons (r p : Nat) (ps : List Nat) (v : CrtValue) (vs : List CrtValue) (he : v.exp = d % (p - 1)) (hr : v.r = r) (hc : v.coeff * r ≡ 1 [MOD p]) (h : CrtOf d (r * p) ps vs) :
      CrtOf d r (p :: ps) (v :: vs)

/-- The precomputed values are those of the key (crypto/rsa `Precompute`). -/
def PrecomputedOf (k : RsaPriv) (v : Precomputed) : Prop :=
  ∃ p q ps, k.primes = p :: q :: ps ∧ v.dp = k.d % (p - 1) ∧ v.dq = k.d % (q - 1) ∧ v.qinv * q ≡ 1 [MOD p] ∧ CrtOf k.d (p * q) ps v.crt

/-- RFC 8017 9.2: the block of `k` octets: 00 01, at least eight ff, 00, the data. -/
def Padded (k : Nat) (data em : Bytes) : Prop := em.length = k ∧ ∃ j, 8 ≤ j ∧ em = [0x00, 0x01] ++ List.replicate j 0xff ++ [0x00] ++ data

end Verif.RsaEncryptSpec
