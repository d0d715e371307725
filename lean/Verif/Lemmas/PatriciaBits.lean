import Verif.Model.Patricia
/-
  The operations on IPv4 and IPv6 addresses, seen as operations on bits.
-/
set_option autoImplicit false

namespace Verif.Patricia

variable {A : Type}

/-- What the tree needs to know about the operations on addresses; `bit a i` is bit number `i`
    counted from the left, `W` the number of bits of an address. -/
structure Lawful (o : Ops A) (W : Nat) (bit : A → Nat → Bool) : Prop where
  wpos : 0 < W
  bit_shl : ∀ a n i, bit (o.shl a n) i = bit a (i + n)
  left : ∀ a, o.leftBit a = bit a 0
  out : ∀ a i, W ≤ i → bit a i = false
  mc_k : ∀ p k a n, o.matchCount p k a n ≤ k
  mc_n : ∀ p k a n, o.matchCount p k a n ≤ n
  agree : ∀ p k a n i, i < o.matchCount p k a n → bit p i = bit a i
  stop : ∀ p k a n, o.matchCount p k a n < k → o.matchCount p k a n < n →
    o.matchCount p k a n < W →
    bit p (o.matchCount p k a n) ≠ bit a (o.matchCount p k a n)

theorem takeWhile_range_lt (f : Nat → Bool) (w i : Nat)
    (h : i < ((List.range w).takeWhile f).length) : f i = true := by
  have hp : ((List.range w).takeWhile f) <+: List.range w := List.takeWhile_prefix f
  have hg := hp.getElem h
  have hi : ((List.range w).takeWhile f)[i] = i := by
    rw [hg]; simp
  have hm := List.getElem_mem h
  rw [hi] at hm
  have := List.all_takeWhile (p := f) (l := List.range w)
  exact (List.all_eq_true.mp this) i hm

theorem takeWhile_range_le (f : Nat → Bool) (w : Nat) :
    ((List.range w).takeWhile f).length ≤ w := by
  have := (List.takeWhile_prefix (l := List.range w) f).length_le
  simpa using this

theorem takeWhile_range_stop (f : Nat → Bool) (w : Nat)
    (h : ((List.range w).takeWhile f).length < w) :
    f ((List.range w).takeWhile f).length = false := by
  have hl := List.takeWhile_append_dropWhile (p := f) (l := List.range w)
  have hd : (List.range w).dropWhile f ≠ [] := by
    intro h0
    rw [h0, List.append_nil] at hl
    have := congrArg List.length hl
    simp at this
    omega
  have hh := List.head_dropWhile_not f hd
  have : ((List.range w).dropWhile f).head hd = ((List.range w).takeWhile f).length := by
    have hg : (List.range w)[((List.range w).takeWhile f).length]'(by simpa using h) =
        ((List.range w).dropWhile f).head hd := by
      rw [List.head_eq_getElem]
      have := List.getElem_append_right' (l₁ := (List.range w).takeWhile f)
        (l₂ := (List.range w).dropWhile f) (i := 0) (List.length_pos_iff.mpr hd)
      rw [this]
      simp
    rw [← hg]; simp
  rw [← this]
  simpa using hh

theorem lz_lt {w : Nat} (x : BitVec w) (i : Nat) (h : i < leadingZeros x) :
    x.getMsbD i = false := by
  have := takeWhile_range_lt _ _ _ h
  simpa using this

theorem lz_le {w : Nat} (x : BitVec w) : leadingZeros x ≤ w := takeWhile_range_le _ _

theorem lz_stop {w : Nat} (x : BitVec w) (h : leadingZeros x < w) :
    x.getMsbD (leadingZeros x) = true := by
  have := takeWhile_range_stop _ _ h
  simpa [leadingZeros] using this

theorem xor_false {w : Nat} (x y : BitVec w) (i : Nat) :
    (x ^^^ y).getMsbD i = false ↔ x.getMsbD i = y.getMsbD i := by
  rw [BitVec.getMsbD_xor]; cases x.getMsbD i <;> cases y.getMsbD i <;> decide

theorem xor_true {w : Nat} (x y : BitVec w) (i : Nat) :
    (x ^^^ y).getMsbD i = true ↔ x.getMsbD i ≠ y.getMsbD i := by
  rw [BitVec.getMsbD_xor]; cases x.getMsbD i <;> cases y.getMsbD i <;> decide

/-- Bits of an IPv4 address. -/
def bit4 (a : BitVec 32) (i : Nat) : Bool := a.getMsbD i

/-- Bits of an IPv6 address. -/
def bit6 (a : V6) (i : Nat) : Bool := if i < 64 then a.1.getMsbD i else a.2.getMsbD (i - 64)

theorem getMsbD_out {w : Nat} (x : BitVec w) (i : Nat) (h : w ≤ i) : x.getMsbD i = false := by
  simp [BitVec.getMsbD, Nat.not_lt.mpr h]

theorem mc4_eq (p : BitVec 32) (k : Nat) (a : BitVec 32) (n : Nat) :
    matchCount4 p k a n = min (min n k) (leadingZeros (p ^^^ a)) := by
  unfold matchCount4
  simp only
  have h : (if n > k then k else n) = min n k := by split <;> omega
  rw [h]
  split <;> omega

theorem mc6_eq (p : V6) (k : Nat) (a : V6) (n : Nat) :
    matchCount6 p k a n = min (min n k)
      (if leadingZeros (p.1 ^^^ a.1) = 64 then 64 + leadingZeros (p.2 ^^^ a.2)
       else leadingZeros (p.1 ^^^ a.1)) := by
  unfold matchCount6
  simp only
  have h : (if n > k then k else n) = min n k := by split <;> omega
  rw [h]
  generalize leadingZeros (p.1 ^^^ a.1) = x
  generalize leadingZeros (p.2 ^^^ a.2) = y
  by_cases hx : x = 64
  · rw [if_pos hx]
    by_cases hL : min n k > 64
    · have hc : x = 64 ∧ min n k > 64 := ⟨hx, hL⟩
      simp only [if_pos hc]; split <;> omega
    · have hc : ¬ (x = 64 ∧ min n k > 64) := fun h => hL h.2
      simp only [if_neg hc]; split <;> omega
  · have hc : ¬ (x = 64 ∧ min n k > 64) := fun h => hx h.1
    simp only [if_neg hc, if_neg hx]; split <;> omega

theorem lawful4 : Lawful ops4 32 bit4 where
  wpos := by decide
  bit_shl a n i := by
    show (a <<< n).getMsbD i = a.getMsbD (i + n)
    rw [BitVec.getMsbD_shiftLeft]
  left a := by
    show decide (a.toNat ≥ 2 ^ 31) = a.getMsbD 0
    have := BitVec.msb_eq_decide a
    rw [BitVec.msb] at this
    rw [this]
  out a i h := getMsbD_out a i h
  mc_k p k a n := by show matchCount4 p k a n ≤ k; rw [mc4_eq]; omega
  mc_n p k a n := by show matchCount4 p k a n ≤ n; rw [mc4_eq]; omega
  agree p k a n i h := by
    have h1 : matchCount4 p k a n ≤ leadingZeros (p ^^^ a) := by
      rw [mc4_eq]; omega
    exact (xor_false p a i).mp (lz_lt _ _ (Nat.lt_of_lt_of_le h h1))
  stop p k a n hk hn hw := by
    have hk : matchCount4 p k a n < k := hk
    have hn : matchCount4 p k a n < n := hn
    have hw : matchCount4 p k a n < 32 := hw
    show bit4 p (matchCount4 p k a n) ≠ bit4 a (matchCount4 p k a n)
    have h1 : matchCount4 p k a n = leadingZeros (p ^^^ a) := by
      rw [mc4_eq] at hk hn ⊢; omega
    rw [h1] at hw ⊢
    exact (xor_true p a _).mp (lz_stop _ hw)

theorem lawful6 : Lawful ops6 128 bit6 where
  wpos := by decide
  bit_shl a n i := by
    show bit6 (shl6 a n) i = bit6 a (i + n)
    unfold shl6 bit6
    by_cases hn : n ≥ 64
    · rw [if_pos hn]
      by_cases hi : i < 64
      · rw [if_pos hi, if_neg (by omega)]
        simp only [BitVec.getMsbD_shiftLeft]
        congr 1; omega
      · rw [if_neg hi, if_neg (by omega)]
        rw [getMsbD_out a.2 _ (by omega)]
        simp
    · rw [if_neg hn]
      by_cases hi : i < 64
      · rw [if_pos hi]
        simp only [BitVec.getMsbD_or, BitVec.getMsbD_shiftLeft, BitVec.getMsbD_ushiftRight]
        by_cases hin : i + n < 64
        · rw [if_pos hin]
          have : i < 64 - n := by omega
          simp [this]
        · rw [if_neg hin, getMsbD_out a.1 _ (by omega)]
          have h2 : ¬ i < 64 - n := by omega
          have h3 : i - (64 - n) = i + n - 64 := by omega
          simp [h2, h3, hi]
      · rw [if_neg hi, if_neg (by omega)]
        simp only [BitVec.getMsbD_shiftLeft]
        congr 1; omega
  left a := by
    show decide (a.1.toNat ≥ 2 ^ 63) = a.1.getMsbD 0
    have := BitVec.msb_eq_decide a.1
    rw [BitVec.msb] at this
    rw [this]
  out a i h := by
    show bit6 a i = false
    unfold bit6; rw [if_neg (by omega)]; exact getMsbD_out a.2 _ (by omega)
  mc_k p k a n := by show matchCount6 p k a n ≤ k; rw [mc6_eq]; omega
  mc_n p k a n := by show matchCount6 p k a n ≤ n; rw [mc6_eq]; omega
  agree p k a n i h := by
    have h : i < matchCount6 p k a n := h
    show bit6 p i = bit6 a i
    unfold bit6
    by_cases hi : i < 64
    · rw [if_pos hi, if_pos hi]
      have h1 : i < leadingZeros (p.1 ^^^ a.1) := by
        rw [mc6_eq] at h; split at h <;> omega
      exact (xor_false _ _ _).mp (lz_lt _ _ h1)
    · rw [if_neg hi, if_neg hi]
      have hl := lz_le (p.1 ^^^ a.1)
      have h1 : i - 64 < leadingZeros (p.2 ^^^ a.2) := by
        rw [mc6_eq] at h; split at h <;> omega
      exact (xor_false _ _ _).mp (lz_lt _ _ h1)
  stop p k a n hk hn hw := by
    have hk : matchCount6 p k a n < k := hk
    have hn : matchCount6 p k a n < n := hn
    have hw : matchCount6 p k a n < 128 := hw
    show bit6 p (matchCount6 p k a n) ≠ bit6 a (matchCount6 p k a n)
    have hl := lz_le (p.1 ^^^ a.1)
    have hl2 := lz_le (p.2 ^^^ a.2)
    have hc : (matchCount6 p k a n < 64 ∧ matchCount6 p k a n = leadingZeros (p.1 ^^^ a.1)) ∨
        (matchCount6 p k a n = 64 + leadingZeros (p.2 ^^^ a.2)) := by
      rw [mc6_eq] at hk hn ⊢
      split at hk
      · rename_i h; rw [if_pos h] at hn ⊢; omega
      · rename_i h; rw [if_neg h] at hn ⊢; omega
    unfold bit6
    rcases hc with ⟨h1, h2⟩ | h1
    · rw [if_pos h1, if_pos h1]
      rw [h2] at h1 ⊢
      exact (xor_true _ _ _).mp (lz_stop _ h1)
    · rw [if_neg (by omega), if_neg (by omega)]
      have h2 : matchCount6 p k a n - 64 = leadingZeros (p.2 ^^^ a.2) := by omega
      rw [h2]
      exact (xor_true _ _ _).mp (lz_stop _ (by omega))

end Verif.Patricia
