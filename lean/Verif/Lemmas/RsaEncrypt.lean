import Verif.Spec.RsaEncrypt
import Verif.Lemmas.CmsSign
import Mathlib.Data.Int.ModEq
import Mathlib.Tactic.Ring
import Mathlib.Tactic.Linarith
import Mathlib.Algebra.BigOperators.Group.List.Basic
/-
  Lemmas for C108.
-/
set_option autoImplicit false

namespace Verif.RsaEncrypt
open RsaEncryptSpec Cms CmsSpec

/-- Exponents may be reduced modulo p - 1, if they have an inverse there and p is odd. -/
theorem pow_reduce {p c d e : Nat} (hp : p.Prime) (h2 : p ≠ 2) (he : e * d ≡ 1 [MOD p - 1]) : c ^ (d % (p - 1)) ≡ c ^ d [MOD p] := by
  haveI := Fact.mk hp
  have hp3 : 2 ≤ p - 1 := by have := hp.two_le; omega
  have hd : d % (p - 1) ≠ 0 := by
    intro h0
    have h1 : e * d % (p - 1) = 1 % (p - 1) := he
    rw [Nat.mul_mod, h0, Nat.mul_zero, Nat.zero_mod, Nat.mod_eq_of_lt (by omega)] at h1
    omega
  have hd0 : d ≠ 0 := by rintro rfl; simp at hd
  rw [← ZMod.natCast_eq_natCast_iff]
  push_cast
  by_cases h : (c : ZMod p) = 0
  · rw [h, zero_pow hd, zero_pow hd0]
  · conv_rhs => rw [← Nat.mod_add_div d (p - 1), pow_add, pow_mul, ZMod.pow_card_sub_one_eq_one h, one_pow, mul_one]

/-- One step of the Chinese remainder theorem as it is computed. -/
theorem crt_step {r p : Nat} {m x t co : Int} (hp : 0 < p) (hco : Nat.Coprime r p) (hm : m ≡ x [ZMOD r]) (hm0 : 0 ≤ m) (hmr : m < r) (ht : t ≡ x [ZMOD p]) (hc : co * r ≡ 1 [ZMOD p]) :
    m + ((t - m) * co % p) * r ≡ x [ZMOD (r * p : Nat)] ∧ 0 ≤ m + ((t - m) * co % p) * r ∧ m + ((t - m) * co % p) * r < (r * p : Nat) := by
  have hp' : (0 : Int) < p := by exact_mod_cast hp
  have e0 : 0 ≤ (t - m) * co % p := Int.emod_nonneg _ (by omega)
  have e1 : (t - m) * co % p < p := Int.emod_lt_of_pos _ hp'
  have r0 : (0 : Int) ≤ r := by omega
  refine ⟨?_, ?_, ?_⟩
  · push_cast
    rw [← Int.modEq_and_modEq_iff_modEq_mul (by simpa using hco)]
    constructor
    · have : m + ((t - m) * co % p) * r ≡ m + 0 [ZMOD r] := Int.ModEq.add_left _ (by rw [Int.modEq_zero_iff_dvd]; exact Dvd.intro_left _ rfl)
      rw [add_zero] at this
      exact this.trans hm
    · have h1 : ((t - m) * co % p) * r ≡ (t - m) * (co * r) [ZMOD p] := by
        have := (Int.mod_modEq ((t - m) * co) p).mul_right (r : Int)
        rwa [mul_assoc] at this
      have h2 : (t - m) * (co * r) ≡ (t - m) * 1 [ZMOD p] := Int.ModEq.mul_left _ hc
      have h3 := Int.ModEq.add_left m (h1.trans h2)
      have e : m + (t - m) * 1 = t := by ring
      rw [e] at h3
      exact h3.trans ht
  · have := mul_nonneg e0 r0
    omega
  · have h1 : ((t - m) * co % p) * r ≤ (p - 1) * r := mul_le_mul_of_nonneg_right (by omega) r0
    push_cast
    nlinarith

theorem modEq_cast {a b n : Nat} (h : a ≡ b [MOD n]) : (a : Int) ≡ b [ZMOD n] := (Int.natCast_modEq_iff).mpr h

theorem crtLoop_eq {c d e : Nat} : ∀ (ps : List Nat) (vs : List CrtValue) (r : Nat) (m : Int), CrtOf d r ps vs → (∀ p ∈ ps, p.Prime ∧ p ≠ 2 ∧ e * d ≡ 1 [MOD p - 1] ∧ Nat.Coprime r p) → ps.Pairwise Nat.Coprime →
    m ≡ ((c ^ d : Nat) : Int) [ZMOD r] → 0 ≤ m → m < r → ∃ m', crtLoop c vs ps m = .ok m' ∧ m' ≡ ((c ^ d : Nat) : Int) [ZMOD (r * ps.prod : Nat)] ∧ 0 ≤ m' ∧ m' < (r * ps.prod : Nat) := by
  intro ps
  induction ps with
  | nil =>
    intro vs r m h _ _ hm h0 h1
    cases h
    exact ⟨m, rfl, by simpa using hm, h0, by simpa using h1⟩
  | cons p ps ih =>
    intro vs r m h hps hpw hm h0 h1
    cases h with
    | cons _ _ _ v vs he hr hc h =>
      obtain ⟨hp, hp2, hed, hco⟩ := hps p List.mem_cons_self
      obtain ⟨hpw1, hpw2⟩ := List.pairwise_cons.mp hpw
      have ht : ((c ^ v.exp % p : Nat) : Int) ≡ ((c ^ d : Nat) : Int) [ZMOD p] := by
        apply modEq_cast
        rw [he]
        exact (Nat.mod_modEq _ _).trans (pow_reduce hp hp2 hed)
      have hcc : (v.coeff : Int) * r ≡ 1 [ZMOD p] := by
        have := modEq_cast hc
        push_cast at this
        exact this
      obtain ⟨s1, s2, s3⟩ := crt_step hp.pos hco hm h0 h1 ht hcc
      have hnn : ¬ (((c ^ v.exp % p : Nat) : Int) - m) * v.coeff % p < 0 := by
        have := Int.emod_nonneg ((((c ^ v.exp % p : Nat) : Int) - m) * v.coeff) (show (p : Int) ≠ 0 by have := hp.pos; omega)
        omega
      obtain ⟨m', g1, g2, g3, g4⟩ := ih vs (r * p) _ h (fun q hq => by
          obtain ⟨a1, a2, a3, a4⟩ := hps q (List.mem_cons_of_mem _ hq)
          exact ⟨a1, a2, a3, Nat.Coprime.mul_left a4 (hpw1 q hq)⟩) hpw2 s1 s2 s3
      refine ⟨m', ?_, ?_, g3, ?_⟩
      · simp only [crtLoop, if_neg hnn, hr]
        exact g1
      · rw [List.prod_cons, ← mul_assoc]; exact g2
      · rw [List.prod_cons, ← mul_assoc]; exact g4

theorem coprime_pairwise {l : List Nat} (hp : ∀ p ∈ l, p.Prime) (hn : l.Nodup) : l.Pairwise Nat.Coprime := by
  refine List.Pairwise.imp_of_mem ?_ hn
  intro a b ha hb hne
  exact (Nat.coprime_primes (hp a ha) (hp b hb)).mpr hne

theorem privateOp_eq {k : RsaPriv} (hk : ValidKey k) (hv : ∀ v, k.pre = some v → PrecomputedOf k v) (c : Nat) : privateOp k c = .ok ((c ^ k.d % k.n : Nat) : Int) := by
  unfold privateOp
  cases hpre : k.pre with
  | none => rfl
  | some v =>
    obtain ⟨p, q, ps, hps, hdp, hdq, hqi, hcrt⟩ := hv v hpre
    have hall := hk.prime
    have hinv := hk.inverse
    have hpw := coprime_pairwise (fun p hp => (hall p hp).1) hk.distinct
    rw [hps] at hall hinv hpw
    obtain ⟨w1, hpw⟩ := List.pairwise_cons.mp hpw
    obtain ⟨w2, hpw⟩ := List.pairwise_cons.mp hpw
    have hp := hall p (by simp)
    have hq := hall q (by simp)
    simp only [hps]
    have tq : ((c ^ v.dq % q : Nat) : Int) ≡ ((c ^ k.d : Nat) : Int) [ZMOD q] := by
      apply modEq_cast
      rw [hdq]
      exact (Nat.mod_modEq _ _).trans (pow_reduce hq.1 hq.2 (hinv q (by simp)))
    have tp : ((c ^ v.dp % p : Nat) : Int) ≡ ((c ^ k.d : Nat) : Int) [ZMOD p] := by
      apply modEq_cast
      rw [hdp]
      exact (Nat.mod_modEq _ _).trans (pow_reduce hp.1 hp.2 (hinv p (by simp)))
    have hcc : (v.qinv : Int) * q ≡ 1 [ZMOD p] := by
      have := modEq_cast hqi
      push_cast at this
      exact this
    have hlt : ((c ^ v.dq % q : Nat) : Int) < q := by
      have := Nat.mod_lt (c ^ v.dq) hq.1.pos
      omega
    obtain ⟨s1, s2, s3⟩ := crt_step hp.1.pos (Nat.Coprime.symm (w1 q (by simp))) tq (by omega) hlt tp hcc
    have hneg : (if ((c ^ v.dp % p : Nat) : Int) - ((c ^ v.dq % q : Nat) : Int) < 0 then ((c ^ v.dp % p : Nat) : Int) - ((c ^ v.dq % q : Nat) : Int) + p
        else ((c ^ v.dp % p : Nat) : Int) - ((c ^ v.dq % q : Nat) : Int)) * v.qinv % p = (((c ^ v.dp % p : Nat) : Int) - ((c ^ v.dq % q : Nat) : Int)) * v.qinv % p := by
      split
      · rw [add_mul, Int.add_mul_emod_self_left]
      · rfl
    rw [hneg]
    obtain ⟨m', g1, g2, g3, g4⟩ := crtLoop_eq (c := c) (d := k.d) (e := k.e) ps v.crt (q * p) _ (by rw [Nat.mul_comm]; exact hcrt) (fun x hx => by
        have h1 := hall x (by simp [hx])
        exact ⟨h1.1, h1.2, hinv x (by simp [hx]), Nat.Coprime.mul_left (w2 x hx) (w1 x (by simp [hx]))⟩) hpw s1 s2 s3
    rw [add_comm] at g1
    rw [g1]
    congr 1
    have hn : k.n = q * p * ps.prod := by rw [hk.modulus, hps]; simp [List.prod_cons]; ring
    rw [hn]
    have hmod : m' % ((q * p * ps.prod : Nat) : Int) = ((c ^ k.d : Nat) : Int) % ((q * p * ps.prod : Nat) : Int) := g2
    rw [Int.emod_eq_of_lt g3 g4] at hmod
    rw [hmod]
    exact (Int.natCast_mod _ _).symm

/-- Raising to the private and then to the public exponent is the identity, for any number of primes. -/
theorem multi_inverse {k : RsaPriv} (hk : ValidKey k) {m : Nat} (hm : m < k.n) : (m ^ k.d % k.n) ^ k.e % k.n = m := by
  have key : ∀ l : List Nat, (∀ p ∈ l, m ^ (k.d * k.e) ≡ m [MOD p]) → l.Pairwise Nat.Coprime → m ^ (k.d * k.e) ≡ m [MOD l.prod] := by
    intro l
    induction l with
    | nil => intro _ _; simp [Nat.modEq_one]
    | cons p l ih =>
      intro h hp
      obtain ⟨h1, h2⟩ := List.pairwise_cons.mp hp
      rw [List.prod_cons]
      exact (Nat.modEq_and_modEq_iff_modEq_mul (Nat.coprime_list_prod_right_iff.mpr h1)).mp ⟨h p List.mem_cons_self, ih (fun q hq => h q (List.mem_cons_of_mem _ hq)) h2⟩
  have hall : m ^ (k.d * k.e) ≡ m [MOD k.n] := by
    rw [hk.modulus]
    refine key _ ?_ (coprime_pairwise (fun p hp => (hk.prime p hp).1) hk.distinct)
    intro p hp
    obtain ⟨h1, h2⟩ := hk.prime p hp
    have hp2 := h1.two_le
    have hed : k.e * k.d % (p - 1) = 1 := by
      have h3 : k.e * k.d % (p - 1) = 1 % (p - 1) := hk.inverse p hp
      rwa [Nat.mod_eq_of_lt (show 1 < p - 1 by omega)] at h3
    have hk2 : k.d * k.e = 1 + (p - 1) * 1 * (k.e * k.d / (p - 1)) := by
      have := Nat.div_add_mod (k.e * k.d) (p - 1)
      rw [Nat.mul_comm k.d, Nat.mul_one]; omega
    rw [hk2]
    exact pow_modEq_prime h1
  rw [← Nat.pow_mod, ← pow_mul]
  unfold Nat.ModEq at hall
  rw [hall, Nat.mod_eq_of_lt hm]

theorem padded_val (j : Nat) (data : Bytes) : BerSpec.beVal ([0x00, 0x01] ++ List.replicate j 0xff ++ [0x00] ++ data) = BerSpec.beVal (0x01 :: (List.replicate j 0xff ++ 0x00 :: data)) := by
  have : ([0x00, 0x01] ++ List.replicate j 0xff ++ [0x00] ++ data : Bytes) = 0x00 :: 0x01 :: (List.replicate j 0xff ++ 0x00 :: data) := by simp
  rw [this, beVal_cons']; simp

theorem padBlock_lt {n : Nat} {data : Bytes} (h : data.length + 11 ≤ keySize n) : bytesVal (padBlock (keySize n) data) < n := by
  have hn : 0 < n := by
    rcases Nat.eq_zero_or_pos n with h0 | h0
    · rw [h0] at h; unfold keySize at h; simp at h
    · exact h0
  rw [bytesVal_eq]
  unfold padBlock
  rw [padded_val]
  refine Nat.lt_of_lt_of_le (Ber.beVal_lt _) (Nat.le_trans ?_ (keySize_le hn rfl))
  apply Nat.pow_le_pow_right (by decide)
  simp; omega

theorem digits_head (n : Nat) : (BerSpec.digits n).head? ≠ some 0 := by
  induction n using Nat.strongRecOn with
  | _ n ih =>
    rw [BerSpec.digits]
    split
    · simp
    · rename_i h
      by_cases h2 : n / 256 = 0
      · have h3 : n % 256 = n := Nat.mod_eq_of_lt (by omega)
        have hd : BerSpec.digits (n / 256) = [] := by rw [h2, BerSpec.digits]; simp
        rw [hd, h3]
        simp only [List.nil_append, List.head?_cons, ne_eq, Option.some.injEq]
        intro h4
        have := congrArg UInt8.toNat h4
        simp at this; omega
      · have h3 := ih (n / 256) (by omega)
        have hne : BerSpec.digits (n / 256) ≠ [] := by
          rw [BerSpec.digits, if_neg h2]; simp
        rw [List.head?_append_of_ne_nil _ hne]
        exact h3

theorem privateEncrypt_eq {k : RsaPriv} (hk : ValidKey k) (hv : ∀ v, k.pre = some v → PrecomputedOf k v) (data : Bytes) : privateEncrypt k data =
    if keySize k.n < data.length + 11 then .err "Input error" else .ok (natBytes (bytesVal (padBlock (keySize k.n) data) ^ k.d % k.n)) := by
  simp only [privateEncrypt]
  split
  · rfl
  · rename_i h
    have := padBlock_lt (n := k.n) (data := data) (by omega)
    rw [if_neg (by omega), privateOp_eq hk hv]
    rfl

end Verif.RsaEncrypt
