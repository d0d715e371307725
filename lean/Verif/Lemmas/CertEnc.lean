import Verif.Lemmas.Cert
/- Lemmas about encoding and decoding of resources. -/
set_option autoImplicit false

namespace Verif
open BerSpec Net Cert ResSpec

theorem familySize_of_isFamily {fam : Bytes} {size : Nat} (h : IsFamily fam size) :
    familySize fam = some size := by
  obtain ⟨hi, rest, ⟨rfl, rfl⟩ | ⟨rfl, rfl⟩⟩ := h <;> simp [familySize]

theorem isFamily_size {fam : Bytes} {size : Nat} (h : IsFamily fam size) : size = 4 ∨ size = 16 := by
  obtain ⟨hi, rest, ⟨rfl, rfl⟩ | ⟨rfl, rfl⟩⟩ := h <;> simp

theorem familySize_some {fam : Bytes} {size : Nat} (h : familySize fam = some size) :
    IsFamily fam size := by
  unfold familySize at h
  split at h
  · rename_i a b rest
    split at h
    · rename_i hb; exact ⟨a, rest, .inl ⟨by rw [hb], by simpa using h.symm⟩⟩
    · split at h
      · rename_i hb; exact ⟨a, rest, .inr ⟨by rw [hb], by simpa using h.symm⟩⟩
      · simp at h
  · simp at h

theorem copyInto_length (size : Nat) (b : Bytes) : (copyInto size b).length = size := by
  simp [copyInto]; omega

theorem copyInto_of_le {size : Nat} {b : Bytes} (h : b.length ≤ size) :
    copyInto size b = b ++ List.replicate (size - b.length) 0 := by
  simp [copyInto, List.take_of_length_le h]

theorem cidrMask_of_le {p size : Nat} (hs : size = 4 ∨ size = 16) (h : p ≤ 8 * size) :
    cidrMask p (size * 8) = maskBytes size p := by
  unfold cidrMask
  rw [if_neg (by omega), if_neg (by omega)]
  congr 1; omega

theorem cidrMask_of_gt {p size : Nat} (h : 8 * size < p) : cidrMask p (size * 8) = [] := by
  unfold cidrMask
  split
  · rfl
  · rw [if_pos (by omega)]

theorem decodeAddrOrRange_wf {fam : Bytes} {size : Nat} (h : IsFamily fam size) (a : AddrOrRange) :
    WfEntry (decodeAddrOrRange fam a) := by
  cases a with
  | range min max => trivial
  | «prefix» b =>
    have hs := isFamily_size h
    simp only [decodeAddrOrRange, decodeIP, familySize_of_isFamily h]
    by_cases hp : b.bitLength ≤ 8 * size
    · left
      rw [cidrMask_of_le hs hp]
      exact ⟨by simp [copyInto_length, maskBytes_length], by simpa [copyInto_length] using hs,
        b.bitLength, isMask_maskBytes _ _ hp⟩
    · right
      rw [cidrMask_of_gt (by omega)]
      exact ⟨rfl, by simpa [copyInto_length] using hs⟩

/-! ### Prefix bit strings -/

theorem prefixBytes_length (k : Nat) (a m : Bytes) : (prefixBytes k a m).length = k := by
  induction k generalizing a m with
  | zero => simp [prefixBytes]
  | succ k ih => cases a <;> cases m <;> simp [prefixBytes, ih]

theorem prefixBytes_zero (k : Nat) (a m : Bytes) (h : ∀ x ∈ m, x = 0) :
    prefixBytes k a m = List.replicate k 0 := by
  induction k generalizing a m with
  | zero => simp [prefixBytes]
  | succ k ih =>
    cases a with
    | nil => simp [prefixBytes, List.replicate_succ, ih]
    | cons x a =>
      cases m with
      | nil => simp [prefixBytes, List.replicate_succ, ih]
      | cons y m =>
        have hy := h y (by simp); subst hy
        simp [prefixBytes, List.replicate_succ, ih a m (fun z hz => h z (by simp [hz]))]

theorem rangeBytes_zero_fst (l : Nat) (a b e : Bytes) (ha : a.length = l)
    (h : rangeBytes a (List.replicate l 0) = some (b, e)) : b = List.replicate l 0 := by
  induction l generalizing a b e with
  | zero => simp at ha; subst ha; simp [rangeBytes] at h; simp [h.1]
  | succ l ih =>
    obtain ⟨x, a, rfl⟩ : ∃ x a', a = x :: a' := by cases a <;> simp_all
    simp only [List.length_cons, Nat.add_right_cancel_iff] at ha
    rw [List.replicate_succ, rangeBytes] at h
    split at h
    · simp at h
    · rename_i b' e' hr
      simp only [Option.some.injEq, Prod.mk.injEq] at h
      rw [← h.1, ih a b' e' ha hr]; simp [List.replicate_succ]

theorem prefixBytes_range (l p k : Nat) (hp : p ≤ 8 * l) (hk : p ≤ 8 * k) (hkl : k ≤ l)
    (a b e : Bytes) (ha : a.length = l) (h : rangeBytes a (maskBytes l p) = some (b, e)) :
    prefixBytes k a (maskBytes l p) ++ List.replicate (l - k) 0 = b := by
  induction l generalizing p k a b e with
  | zero =>
    have : k = 0 := by omega
    subst this
    simp at ha; subst ha
    simp [rangeBytes] at h
    simp [prefixBytes, h.1]
  | succ l ih =>
    by_cases h0 : p = 0
    · subst h0
      rw [maskBytes_zero] at h ⊢
      rw [rangeBytes_zero_fst _ _ _ _ ha h, prefixBytes_zero _ _ _ (by simp),
        List.replicate_append_replicate]
      congr 1; omega
    · obtain ⟨k, rfl⟩ : ∃ k', k = k' + 1 := ⟨k - 1, by omega⟩
      obtain ⟨x, a, rfl⟩ : ∃ x a', a = x :: a' := by cases a <;> simp_all
      simp only [List.length_cons, Nat.add_right_cancel_iff] at ha
      have e1 : l + 1 - (k + 1) = l - k := by omega
      rw [e1]
      unfold maskBytes at h ⊢
      split at h
      · rename_i hn
        rw [if_pos hn]
        rw [rangeBytes] at h
        split at h
        · simp at h
        · rename_i b' e' hr
          simp only [Option.some.injEq, Prod.mk.injEq] at h
          rw [prefixBytes, ← h.1, List.cons_append,
            ih (p - 8) k (by omega) (by omega) (by omega) a b' e' ha hr]
      · rename_i hn
        rw [if_neg hn]
        rw [rangeBytes] at h
        split at h
        · simp at h
        · rename_i b' e' hr
          simp only [Option.some.injEq, Prod.mk.injEq] at h
          rw [prefixBytes, ← h.1, List.cons_append,
            ih 0 k (by omega) (by omega) (by omega) a b' e' ha hr]

theorem ceil8 (p : Nat) : (if p % 8 > 0 then p / 8 + 1 else p / 8) = (p + 7) / 8 := by
  split <;> omega

/-- Encoding a proper prefix and decoding it gives the network with its host bits cleared. -/
theorem decodeIP_encode {n : IPNet} (h : ProperNet n) {fam : Bytes} (hf : IsFamily fam n.ip.length) :
    ∃ b e, getRangeIP (some n) = .ok (b, e) ∧ BitsOk (ipNetToBitString n) ∧
      decodeIP fam (ipNetToBitString n) = .ok ⟨b, n.mask⟩ := by
  obtain ⟨hl, hs, p, hp⟩ := h
  obtain ⟨ip, mask⟩ := n
  simp only at hl hs hp hf ⊢
  obtain ⟨b, e, hr, hb, he, vb, ve⟩ := rangeBytes_spec mask.length p hp.1 ip hl
  have hmask := eq_maskBytes hp
  have hple := hp.1
  have hpre := prefixBytes_range mask.length p ((p + 7) / 8) hple (by omega) (by omega) ip b e hl hr
  rw [← hmask] at hr hpre
  refine ⟨b, e, by simp [getRangeIP, hr], ?_, ?_⟩
  · simp only [BitsOk, ipNetToBitString, maskSize_of_isMask hp, ceil8, prefixBytes_length, true_and]
    have hv := congrArg beVal hpre
    rw [beVal_append', beVal_replicate_zero, Nat.add_zero, List.length_replicate, vb, pow256] at hv
    have e1 : 8 * mask.length - p
        = (8 * ((p + 7) / 8) - p) + 8 * (mask.length - (p + 7) / 8) := by omega
    rw [e1, Nat.pow_add, ← Nat.mul_assoc] at hv
    have := Nat.eq_of_mul_eq_mul_right (Nat.pow_pos (by omega)) hv
    rw [this]
    exact Nat.dvd_mul_left _ _
  · simp only [decodeIP, familySize_of_isFamily hf, ipNetToBitString, maskSize_of_isMask hp, ceil8]
    rw [copyInto_of_le (by rw [prefixBytes_length]; omega), prefixBytes_length, hl, hpre,
      cidrMask_of_le (by omega) hple, ← hmask]

theorem beVal_copyInto {size : Nat} {b : Bytes} (h : b.length ≤ size) :
    beVal (copyInto size b) = beVal b * 2 ^ (8 * (size - b.length)) := by
  rw [copyInto_of_le h, beVal_append', beVal_replicate_zero, List.length_replicate, pow256]; omega

theorem copyInto_dvd {size : Nat} {b : BitString} (h : BitsOk b) (hle : b.bitLength ≤ 8 * size) :
    2 ^ (8 * size - b.bitLength) ∣ beVal (copyInto size b.bytes) := by
  have hlen : b.bytes.length ≤ size := by have := h.1; omega
  rw [beVal_copyInto hlen]
  have e : 8 * size - b.bitLength
      = (8 * b.bytes.length - b.bitLength) + 8 * (size - b.bytes.length) := by
    have := h.1; omega
  rw [e, Nat.pow_add]
  exact Nat.mul_dvd_mul_right h.2 _

/-- Decoding a prefix bit string and encoding it gives it back. -/
theorem encode_decodeIP {b : BitString} (h : BitsOk b) {fam : Bytes} {size : Nat}
    (hf : IsFamily fam size) (hle : b.bitLength ≤ 8 * size) :
    ∃ n, decodeIP fam b = .ok n ∧ ProperNet n ∧ Canonical n ∧ n.ip.length = size ∧
      ipNetToBitString n = b := by
  have hs := isFamily_size hf
  have hm := isMask_maskBytes size b.bitLength hle
  have hlen : b.bytes.length ≤ size := by have := h.1; omega
  refine ⟨⟨copyInto size b.bytes, maskBytes size b.bitLength⟩, ?_, ⟨?_, ?_, _, hm⟩,
    ⟨_, hm, ?_⟩, copyInto_length _ _, ?_⟩
  · simp only [decodeIP, familySize_of_isFamily hf, cidrMask_of_le hs hle]
  · simp [copyInto_length, maskBytes_length]
  · simpa [copyInto_length] using hs
  · simp only [maskBytes_length]; exact copyInto_dvd h hle
  · obtain ⟨lo, e, hr, hb, he, vb, ve⟩ := rangeBytes_spec size b.bitLength hle (copyInto size b.bytes)
      (copyInto_length _ _)
    rw [Nat.div_mul_cancel (copyInto_dvd h hle)] at vb
    have hlo := beVal_inj (hb.trans (copyInto_length size b.bytes).symm) vb
    have hpre := prefixBytes_range size b.bitLength ((b.bitLength + 7) / 8) hle (by omega) (by omega)
      _ lo e (copyInto_length _ _) hr
    rw [hlo, copyInto_of_le hlen, ← h.1] at hpre
    have := (List.append_inj hpre (prefixBytes_length _ _ _)).1
    rw [← copyInto_of_le hlen] at this
    simp only [ipNetToBitString, maskSize_of_isMask hm, ceil8, ← h.1, this]

/-! ### Range bit strings -/

theorem or_not_zero : ∀ y : UInt8, y ||| ~~~0 = 0xff := by apply u8_forall; decide +kernel

theorem fillOnes_range (l p : Nat) (hp : p ≤ 8 * l) (a : Bytes) (ha : a.length = l) :
    ∃ b, rangeBytes a (maskBytes l p) = some (b, fillOnes p a) := by
  induction l generalizing p a with
  | zero =>
    simp at ha; subst ha
    exact ⟨[], by simp [rangeBytes, fillOnes]⟩
  | succ l ih =>
    obtain ⟨x, a, rfl⟩ : ∃ x a', a = x :: a' := by cases a <;> simp_all
    simp only [List.length_cons, Nat.add_right_cancel_iff] at ha
    unfold maskBytes
    split
    · rename_i hn
      obtain ⟨b, hb⟩ := ih (p - 8) (by omega) a ha
      refine ⟨x :: b, ?_⟩
      simp only [rangeBytes, hb, and_ff, or_not_ff]
      have hk : p / 8 = (p - 8) / 8 + 1 := by omega
      have hf : fillOnes p (x :: a) = x :: fillOnes (p - 8) a := by
        unfold fillOnes
        simp only [hk, List.take_succ_cons, List.cons_append, List.length_cons]
        have e1 : a.length + 1 - ((p - 8) / 8 + 1 + 1) = a.length - ((p - 8) / 8 + 1) := by omega
        have e2 : 8 - (8 * ((p - 8) / 8 + 1 + 1) - p) = 8 - (8 * ((p - 8) / 8 + 1) - (p - 8)) := by omega
        rw [e1, e2]
        simp only [Nat.add_lt_add_iff_right]
        split
        · simp
        · rfl
      rw [hf]
    · rename_i hn
      have hn : p < 8 := by omega
      obtain ⟨b, hb⟩ := ih 0 (by omega) a ha
      refine ⟨(x &&& ~~~(255 >>> p.toUInt8)) :: b, ?_⟩
      simp only [rangeBytes, hb]
      have hk : p / 8 = 0 := by omega
      have hall : ∀ (a : Bytes) (b e : Bytes), rangeBytes a (List.replicate a.length 0) = some (b, e) →
          e = List.replicate a.length 0xff := by
        intro a
        induction a with
        | nil => intro b e h; simp [rangeBytes] at h; simp [h.2]
        | cons y a iha =>
          intro b e h
          rw [List.length_cons, List.replicate_succ, rangeBytes] at h
          split at h
          · simp at h
          · rename_i b' e' hr
            simp only [Option.some.injEq, Prod.mk.injEq] at h
            rw [← h.2, iha _ _ hr, List.length_cons, List.replicate_succ]
            rw [or_not_zero]
      have hf0 : fillOnes 0 a = List.replicate a.length 0xff := by
        rw [maskBytes_zero, ← ha] at hb
        exact hall a b _ hb
      have hf : fillOnes p (x :: a) = (x ||| ~~~ ~~~(255 >>> p.toUInt8)) :: List.replicate a.length 0xff := by
        unfold fillOnes
        simp only [hk, List.take_succ_cons, List.cons_append, List.length_cons, List.take_zero]
        have e2 : 8 - (8 * (0 + 1) - p) = p := by omega
        rw [e2]
        simp
      rw [hf, hf0]

/-- Upper and lower end of a range given by bit strings. -/
theorem decodeIPMinMax_spec {b : BitString} (h : BitsOk b) {fam : Bytes} {size : Nat}
    (hf : IsFamily fam size) (hle : b.bitLength ≤ 8 * size) :
    ∃ lo hi, decodeIPMinMax fam b false = .ok lo ∧ decodeIPMinMax fam b true = .ok hi ∧
      lo.length = size ∧ hi.length = size ∧
      beVal lo = bitsNum b * 2 ^ (8 * size - b.bitLength) ∧
      beVal hi = bitsNum b * 2 ^ (8 * size - b.bitLength) + (2 ^ (8 * size - b.bitLength) - 1) := by
  have hlen : b.bytes.length ≤ size := by have := h.1; omega
  obtain ⟨lo, hi, hr, hb, he, vb, ve⟩ := rangeBytes_spec size b.bitLength hle (copyInto size b.bytes)
      (copyInto_length _ _)
  obtain ⟨lo', hr'⟩ := fillOnes_range size b.bitLength hle (copyInto size b.bytes) (copyInto_length _ _)
  rw [hr] at hr'
  simp only [Option.some.injEq, Prod.mk.injEq] at hr'
  have hq : beVal (copyInto size b.bytes) / 2 ^ (8 * size - b.bitLength) = bitsNum b := by
    rw [beVal_copyInto hlen, bitsNum]
    have e : 8 * size - b.bitLength
      = (8 * b.bytes.length - b.bitLength) + 8 * (size - b.bytes.length) := by
      have := h.1; omega
    rw [e, Nat.pow_add]
    exact Nat.mul_div_mul_right _ _ (Nat.pow_pos (by omega))
  refine ⟨copyInto size b.bytes, hi, ?_, ?_, copyInto_length _ _, he, ?_, ?_⟩
  · simp [decodeIPMinMax, familySize_of_isFamily hf]
  · simp only [decodeIPMinMax, familySize_of_isFamily hf, copyInto_length, if_true]
    rw [if_neg (by omega), ← hr'.2]
  · rw [← hq, Nat.div_mul_cancel (copyInto_dvd h hle)]
  · rw [ve, hq]

end Verif
