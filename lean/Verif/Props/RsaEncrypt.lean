import Verif.Lemmas.RsaEncrypt
import Mathlib.Tactic.NormNum.Prime
import Mathlib.Tactic.ByContra
/-
  C108: `PrivateEncrypt` makes RSA signatures, with and without precomputed values, for keys with any number of primes.
-/
set_option autoImplicit false

namespace Verif.Props
open RsaEncrypt RsaEncryptSpec Cms

/-- C108: the result is the padded block raised to the private exponent, without leading zeros, whether or not the values for the Chinese remainder theorem are there. -/
theorem C108_value (k : RsaPriv) (hk : ValidKey k) (hv : ∀ v, k.pre = some v → PrecomputedOf k v) (data : Bytes) (h : data.length + 11 ≤ keySize k.n) :
    ∃ em s, Padded (keySize k.n) data em ∧ privateEncrypt k data = .ok s ∧ BerSpec.beVal s = BerSpec.beVal em ^ k.d % k.n ∧ s.head? ≠ some 0 := by
  refine ⟨padBlock (keySize k.n) data, natBytes (bytesVal (padBlock (keySize k.n) data) ^ k.d % k.n), ⟨by simp [padBlock]; omega, keySize k.n - data.length - 3, by omega, rfl⟩, ?_, ?_, ?_⟩
  · rw [privateEncrypt_eq hk hv, if_neg (by omega)]
  · rw [natBytes_eq, Ber.beVal_digits]; rfl
  · rw [natBytes_eq]
    exact digits_head _

/-- C108: only data that leave no room for the padding are refused, and no key of this kind makes it crash. -/
theorem C108_refused (k : RsaPriv) (hk : ValidKey k) (hv : ∀ v, k.pre = some v → PrecomputedOf k v) (data : Bytes) :
    (privateEncrypt k data = .err "Input error" ∧ keySize k.n < data.length + 11) ∨ (∃ s, privateEncrypt k data = .ok s ∧ data.length + 11 ≤ keySize k.n) := by
  rw [privateEncrypt_eq hk hv]
  by_cases h : keySize k.n < data.length + 11
  · exact .inl ⟨if_pos h, h⟩
  · exact .inr ⟨_, if_neg h, by omega⟩

/-- C108: the public key gives the data back (`RSAPublicDecrypt`). -/
theorem C108_round (k : RsaPriv) (hk : ValidKey k) (hv : ∀ v, k.pre = some v → PrecomputedOf k v) (data s : Bytes) (h : privateEncrypt k data = .ok s) :
    rsaPublicDecrypt ⟨k.n, k.e⟩ s = data := by
  rcases C108_refused k hk hv data with ⟨h1, -⟩ | ⟨-, -, hl⟩
  · rw [h1] at h; cases h
  have hlt := padBlock_lt hl
  rw [privateEncrypt_eq hk hv, if_neg (by omega)] at h
  obtain rfl := Go.ok.inj h
  unfold rsaPublicDecrypt
  simp only [Int.toNat_natCast]
  have hb : bytesVal (natBytes (bytesVal (padBlock (keySize k.n) data) ^ k.d % k.n)) = bytesVal (padBlock (keySize k.n) data) ^ k.d % k.n := by
    rw [natBytes_eq, bytesVal_eq (BerSpec.digits _), Ber.beVal_digits]
  rw [hb, multi_inverse hk hlt, bytesVal_eq]
  unfold padBlock
  rw [padded_val, natBytes_eq, Der.digits_beVal_aux _ _ (by decide)]
  obtain ⟨j, hj⟩ : ∃ j, keySize k.n - data.length - 3 = j + 1 + 1 := ⟨keySize k.n - data.length - 5, by omega⟩
  rw [hj]
  have : (0x01 :: (List.replicate (j + 1 + 1) 0xff ++ 0x00 :: data) : Bytes).drop 2 = List.replicate (j + 1) 0xff ++ 0x00 :: data := by
    rw [List.replicate_succ]; rfl
  unfold stripPadding
  rw [this, findSeparator_ff]

/-- C108: up to leading zeros it is the signature of the standard library. -/
theorem C108_library (k : RsaPriv) (hk : ValidKey k) (hv : ∀ v, k.pre = some v → PrecomputedOf k v) (data s : Bytes) (h : privateEncrypt k data = .ok s) :
    signPKCS1v15 ⟨⟨k.n, k.e⟩, k.d⟩ data = .ok (List.replicate (keySize k.n - s.length) 0 ++ s) := by
  rcases C108_refused k hk hv data with ⟨h1, -⟩ | ⟨-, -, hl⟩
  · rw [h1] at h; cases h
  rw [privateEncrypt_eq hk hv, if_neg (by omega)] at h
  obtain rfl := Go.ok.inj h
  simp only [signPKCS1v15, Int.toNat_natCast]
  rw [if_neg (by omega)]
  rfl

/-! ### A key with thirteen primes -/

def exKey (pre : Option Precomputed) : RsaPriv :=
  ⟨33609240859537152699516128729, 111995681444369073867, 3, [101, 107, 113, 131, 137, 149, 167, 173, 179, 191, 197, 227, 233], pre⟩

def exPre : Precomputed :=
  ⟨3, 3, 17, [⟨3, 11, 10807⟩, ⟨3, 102, 1221191⟩, ⟨3, 11, 159976021⟩, ⟨3, 13, 21916714877⟩, ⟨3, 127, 3265590516673⟩, ⟨3, 111, 545353616284391⟩, ⟨3, 1, 94346175617199643⟩,
    ⟨3, 58, 16887965435478736097⟩, ⟨3, 119, 3225601398176438594527⟩, ⟨3, 12, 635443475440758403121819⟩, ⟨3, 35, 144245668925052157508652913⟩]⟩

def exPrimes : List Nat := [101, 107, 113, 131, 137, 149, 167, 173, 179, 191, 197, 227, 233]

theorem exPrimes_nodup : exPrimes.Nodup := by decide +kernel

theorem exPrimes_prod : 33609240859537152699516128729 = exPrimes.prod := by
  unfold exPrimes
  simp only [List.prod_cons, List.prod_nil]; norm_num

theorem exPrimes_inverse : ∀ p ∈ exPrimes, 111995681444369073867 * 3 % (p - 1) = 1 % (p - 1) := by decide +kernel

theorem exPrimes_prime : ∀ p ∈ exPrimes, p.Prime ∧ p ≠ 2 := by
  intro p hp
  simp only [exPrimes, List.mem_cons, List.not_mem_nil, or_false] at hp
  rcases hp with rfl | rfl | rfl | rfl | rfl | rfl | rfl | rfl | rfl | rfl | rfl | rfl | rfl <;> norm_num

theorem exKey_valid (pre : Option Precomputed) : ValidKey (exKey pre) where
  prime := exPrimes_prime
  distinct := exPrimes_nodup
  two := by show 2 ≤ 13; decide
  modulus := exPrimes_prod
  inverse := exPrimes_inverse

theorem exPre_of : PrecomputedOf (exKey (some exPre)) exPre := by
  refine ⟨101, 107, [113, 131, 137, 149, 167, 173, 179, 191, 197, 227, 233], rfl, rfl, rfl, by decide, ?_⟩
  unfold exPre exKey
  repeat (refine CrtOf.cons _ _ _ _ _ (by decide) (by decide) (by decide) ?_)
  exact CrtOf.nil _

example : ∃ s, privateEncrypt (exKey (some exPre)) [7] = .ok s ∧ rsaPublicDecrypt ⟨33609240859537152699516128729, 111995681444369073867⟩ s = [7] := by
  have hv : ∀ v, (exKey (some exPre)).pre = some v → PrecomputedOf (exKey (some exPre)) v := by rintro v h; cases h; exact exPre_of
  obtain ⟨-, s, -, hs, -⟩ := C108_value (exKey (some exPre)) (exKey_valid _) hv [7] (by decide +kernel)
  exact ⟨s, hs, C108_round _ (exKey_valid _) hv [7] s hs⟩

/-- C108 fails in one point: the signature is not as long as the modulus, as RFC 8017 8.2.1 demands, when its value begins with a zero octet; readers that compare the lengths (such as crypto/rsa
    and OpenSSL) refuse it. -/
theorem C108_violated_short : ∃ (k : RsaPriv) (data s : Bytes), ValidKey k ∧ (∀ v, k.pre = some v → PrecomputedOf k v) ∧ privateEncrypt k data = .ok s ∧ s.length < keySize k.n :=
  ⟨exKey (some exPre), [29], natBytes 291061744193451911748371414, exKey_valid _, by rintro v h; cases h; exact exPre_of, by decide +kernel, by decide +kernel⟩

end Verif.Props
