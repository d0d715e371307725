import Verif.Props.Output
import Verif.Spec.PrefixText
/-
  C77, the texts themselves: which texts are read as IPv4 addresses, and which text is written for an IPv6 address.
-/
set_option autoImplicit false

namespace Verif.Props
open Net TextSpec

theorem digitVal10 (c : UInt8) : digitVal 10 c = if 48 ≤ c ∧ c ≤ 57 then some (c.toNat - 48) else none := by
  unfold digitVal
  split
  · rfl
  · simp

theorem decVal_ge (t : Bytes) : ∀ acc, acc ≤ decVal acc t := by
  induction t with
  | nil => intro acc; exact Nat.le_refl _
  | cons c t ih =>
    intro acc
    have := ih (acc * 10 + (c.toNat - 48))
    simp only [decVal, List.foldl_cons] at this ⊢
    omega

theorem readLoop_exact : ∀ (s : Bytes) (acc v : Nat) (r : Bytes), v < 0xffffff →
    (readLoop 10 acc s = some (v, r) ↔ ∃ t, s = t ++ r ∧ (∀ c ∈ t, 48 ≤ c ∧ c ≤ 57) ∧ decVal acc t = v ∧ NoDigit 10 r) := by
  intro s
  induction s with
  | nil =>
    intro acc v r hv
    simp only [readLoop, Option.some.injEq, Prod.mk.injEq]
    constructor
    · rintro ⟨rfl, rfl⟩
      exact ⟨[], rfl, by simp, rfl, noDigit_nil⟩
    · rintro ⟨t, h, _, h2, _⟩
      have := List.append_eq_nil_iff.mp h.symm
      obtain ⟨rfl, rfl⟩ := this
      exact ⟨h2, rfl⟩
  | cons c s ih =>
    intro acc v r hv
    simp only [readLoop]
    cases hd : digitVal 10 c with
    | none =>
      simp only [Option.some.injEq, Prod.mk.injEq]
      constructor
      · rintro ⟨rfl, rfl⟩
        exact ⟨[], rfl, by simp, rfl, noDigit_cons hd⟩
      · rintro ⟨t, h, h1, h2, _⟩
        cases t with
        | nil => exact ⟨h2, h⟩
        | cons c' t =>
          simp at h
          have := h1 c' (by simp)
          rw [← h.1] at this
          rw [digitVal10, if_pos this] at hd
          simp at hd
    | some d =>
      have hc : 48 ≤ c ∧ c ≤ 57 := by
        rw [digitVal10] at hd
        split at hd
        · assumption
        · simp at hd
      have hd' : d = c.toNat - 48 := by
        rw [digitVal10, if_pos hc] at hd
        exact (Option.some.inj hd).symm
      simp only
      have key : (∃ t, c :: s = t ++ r ∧ (∀ c ∈ t, 48 ≤ c ∧ c ≤ 57) ∧ decVal acc t = v ∧ NoDigit 10 r) ↔
          ∃ t, s = t ++ r ∧ (∀ c ∈ t, 48 ≤ c ∧ c ≤ 57) ∧ decVal (acc * 10 + d) t = v ∧ NoDigit 10 r := by
        constructor
        · rintro ⟨t, h, h1, h2, h3⟩
          cases t with
          | nil =>
            have := h3 c s (by simpa using h.symm)
            rw [hd] at this
            simp at this
          | cons c' t =>
            simp at h
            obtain ⟨rfl, rfl⟩ := h
            exact ⟨t, rfl, fun x hx => h1 x (by simp [hx]), by rw [hd']; exact h2, h3⟩
        · rintro ⟨t, rfl, h1, h2, h3⟩
          refine ⟨c :: t, rfl, ?_, by rw [hd'] at h2; exact h2, h3⟩
          intro x hx
          simp at hx
          rcases hx with rfl | hx
          · exact hc
          · exact h1 x hx
      split
      · rename_i hb
        simp only [reduceCtorEq, false_iff]
        rw [key]
        rintro ⟨t, _, _, h2, _⟩
        have := decVal_ge t (acc * 10 + d)
        omega
      · rw [key]
        exact ih _ _ _ hv

theorem readNum_exact (s : Bytes) (v : Nat) (r : Bytes) (hv : v < 0xffffff) :
    readNum 10 s = some (v, r) ↔ ∃ t, s = t ++ r ∧ t ≠ [] ∧ (∀ c ∈ t, 48 ≤ c ∧ c ≤ 57) ∧ decVal 0 t = v ∧ NoDigit 10 r := by
  cases s with
  | nil =>
    simp only [readNum, reduceCtorEq, false_iff]
    rintro ⟨t, h, h1, _⟩
    exact h1 (List.append_eq_nil_iff.mp h.symm).1
  | cons c s =>
    simp only [readNum]
    split
    · rename_i hd
      simp only [reduceCtorEq, false_iff]
      rintro ⟨t, h, h1, h2, _⟩
      cases t with
      | nil => exact h1 rfl
      | cons c' t =>
        simp at h
        have := h2 c' (by simp)
        rw [← h.1] at this
        rw [digitVal10, if_pos this] at hd
        simp at hd
    · rename_i hd
      rw [readLoop_exact _ _ _ _ hv]
      constructor
      · rintro ⟨t, h, h1, h2, h3⟩
        refine ⟨t, h, ?_, h1, h2, h3⟩
        rintro rfl
        exact hd (h3 c s (by simpa using h.symm))
      · rintro ⟨t, h, _, h1, h2, h3⟩
        exact ⟨t, h, h1, h2, h3⟩

theorem parseDotted_succ (n : Nat) (s p r : Bytes) :
    parseDotted (n + 1) s = some (p, r) ↔ ∃ (t : Bytes) (a : UInt8) (s' p' : Bytes), s = 46 :: t ++ s' ∧ Decimal t a.toNat ∧ NoDigit 10 s' ∧
      p = a :: p' ∧ parseDotted n s' = some (p', r) := by
  constructor
  · intro h
    simp only [parseDotted] at h
    split at h
    · rename_i s0
      split at h
      · simp at h
      · rename_i v r' hn
        split at h
        · simp at h
        · rename_i hv
          have hv' : v ≤ 255 := by
            rcases Nat.lt_or_ge 255 v with h' | h'
            · exact absurd (Or.inl h') hv
            · exact h'
          simp only [Option.map_eq_some_iff] at h
          obtain ⟨⟨p', r1⟩, h1, h2⟩ := h
          simp at h2
          obtain ⟨t, e, e1, e2, e3, e4⟩ := (readNum_exact _ _ _ (by omega)).mp hn
          have hl : s0.length - r'.length = t.length := by rw [e]; simp
          refine ⟨t, v.toUInt8, r', p', by rw [e]; rfl, ⟨e1, e2, ?_, ?_⟩, e4, h2.1.symm, by rw [h1, h2.2]⟩
          · rw [e3]
            simp
            omega
          · intro hl2 hh
            apply hv
            right
            refine ⟨by omega, ?_⟩
            rw [e]
            cases t with
            | nil => exact absurd rfl e1
            | cons x t => simpa using hh
    · simp at h
  · rintro ⟨t, a, s', p', rfl, ⟨h1, h2, h3, h4⟩, h5, rfl, h6⟩
    simp only [List.cons_append, parseDotted]
    have ha : a.toNat < 256 := a.toNat_lt
    rw [(readNum_exact (t ++ s') a.toNat s' (by omega)).mpr ⟨t, rfl, h1, h2, h3, h5⟩]
    have hl : (t ++ s').length - s'.length = t.length := by simp
    simp only [hl]
    rw [if_neg, h6]
    · simp
    · rintro (h | ⟨h, hh⟩)
      · omega
      · refine h4 h ?_
        cases t with
        | nil => exact absurd rfl h1
        | cons x t => simpa using hh

theorem noDigit_dot (s : Bytes) : NoDigit 10 (46 :: s) := noDigit_cons (by decide)

/-- **C77, IPv4 texts.** A text is read as an IPv4 address exactly if it is the dotted form of its four bytes: four decimal numerals
    of at most 255, without leading zeros. -/
theorem C77_ipv4_text_exact (s ip : Bytes) : parseIPv4 s = some ip ↔ Dotted s ip := by
  have key : parseIPv4 s = some ip ↔ parseDotted 4 (46 :: s) = some (ip, []) := by
    unfold parseIPv4
    split
    · rename_i p hp
      rw [hp]; simp
    · rename_i hp
      simp only [reduceCtorEq, false_iff]
      intro h
      exact hp _ h
  rw [key]
  constructor
  · intro h
    obtain ⟨t1, a, s1, p1, e1, d1, n1, q1, h⟩ := (parseDotted_succ _ _ _ _).mp h
    obtain ⟨t2, b, s2, p2, e2, d2, n2, q2, h⟩ := (parseDotted_succ _ _ _ _).mp h
    obtain ⟨t3, c, s3, p3, e3, d3, n3, q3, h⟩ := (parseDotted_succ _ _ _ _).mp h
    obtain ⟨t4, d, s4, p4, e4, d4, n4, q4, h⟩ := (parseDotted_succ _ _ _ _).mp h
    simp only [parseDotted, Option.some.injEq, Prod.mk.injEq] at h
    refine ⟨t1, t2, t3, t4, a, b, c, d, ?_, ?_, d1, d2, d3, d4⟩
    · simp only [List.cons_append, List.cons.injEq, true_and] at e1
      rw [e1, e2, e3, e4, h.2]
      simp
    · rw [q1, q2, q3, q4, ← h.1]
  · rintro ⟨t1, t2, t3, t4, a, b, c, d, rfl, rfl, d1, d2, d3, d4⟩
    refine (parseDotted_succ _ _ _ _).mpr ⟨t1, a, 46 :: t2 ++ 46 :: t3 ++ 46 :: t4, _, by simp, d1, noDigit_dot _, rfl, ?_⟩
    refine (parseDotted_succ _ _ _ _).mpr ⟨t2, b, 46 :: t3 ++ 46 :: t4, _, by simp, d2, noDigit_dot _, rfl, ?_⟩
    refine (parseDotted_succ _ _ _ _).mpr ⟨t3, c, 46 :: t4, _, by simp, d3, noDigit_dot _, rfl, ?_⟩
    exact (parseDotted_succ _ _ _ _).mpr ⟨t4, d, [], _, by simp, d4, noDigit_nil, rfl, rfl⟩

example : Dotted (asc "10.0.255.1".toList) [10, 0, 255, 1] ∧ parseIPv4 (asc "10.0.256.1".toList) = none ∧
    parseIPv4 (asc "10.0.01.1".toList) = none := by
  refine ⟨(C77_ipv4_text_exact _ _).mp (by decide +kernel), by decide +kernel, by decide +kernel⟩

/-! ### IPv6 -/

theorem zeroRun_max : ∀ (gs : List Nat) (m : Nat), ZerosAt gs 0 m → m ≤ zeroRun gs := by
  intro gs
  induction gs with
  | nil =>
    intro m h
    cases m with
    | zero => simp
    | succ m => have := h 0 (by omega); simp at this
  | cons g gs ih =>
    intro m h
    cases m with
    | zero => simp
    | succ m =>
      have h0 := h 0 (by omega)
      simp at h0
      subst h0
      have := ih m (fun t ht => by
        have := h (t + 1) (by omega)
        simpa [Nat.add_assoc] using this)
      simp [zeroRun]; omega

theorem zeroRun_zeros (gs : List Nat) : ZerosAt gs 0 (zeroRun gs) := by
  intro t ht
  have h := (zeroRun_spec gs).2
  have : (gs.take (zeroRun gs))[t]? = some 0 := by
    rw [h]; simp [ht]
  rw [List.getElem?_take] at this
  simpa [ht] using this

/-- What the search keeps: the best run so far is first and longest among those that start before `i`. -/
def BestTo (all : List Nat) (i : Nat) (b : Nat × Nat) : Prop :=
  b.1 ≤ b.2 ∧ b.1 ≤ i ∧ ZerosAt all b.1 (b.2 - b.1) ∧
    ∀ j m, j < i → ZerosAt all j m → m < b.2 - b.1 ∨ m = 0 ∨ (m = b.2 - b.1 ∧ b.1 ≤ j)

theorem zerosAt_drop {all : List Nat} {i j m : Nat} : ZerosAt (all.drop i) j m ↔ ZerosAt all (i + j) m := by
  unfold ZerosAt
  simp [List.getElem?_drop, Nat.add_assoc]

/-- What the search gives: the first longest run of all. -/
def BestAll (all : List Nat) (b : Nat × Nat) : Prop :=
  b.1 ≤ b.2 ∧ ZerosAt all b.1 (b.2 - b.1) ∧
    ∀ j m, ZerosAt all j m → m < b.2 - b.1 ∨ m = 0 ∨ (m = b.2 - b.1 ∧ b.1 ≤ j)

theorem findRun_best (all : List Nat) : ∀ (f i : Nat) (gs : List Nat) (best : Nat × Nat), gs = all.drop i → gs.length ≤ f →
    BestTo all i best → BestAll all (findRun f i gs best) := by
  have fin : ∀ (i : Nat) (b : Nat × Nat), all.drop i = [] → BestTo all i b → BestAll all b := by
    rintro i b hd ⟨h1, h2, h3, h4⟩
    refine ⟨h1, h3, fun j m hz => ?_⟩
    by_cases hji : j < i
    · exact h4 j m hji hz
    · right; left
      have hl : all.length ≤ i := by simpa using hd
      cases m with
      | zero => rfl
      | succ m =>
        have := hz 0 (by omega)
        rw [List.getElem?_eq_none (by omega)] at this
        simp at this
  intro f
  induction f with
  | zero =>
    intro i gs best hg hl hb
    have : gs = [] := List.eq_nil_of_length_eq_zero (by omega)
    rw [this] at hg
    simp only [findRun]
    exact fin i best hg.symm hb
  | succ f ih =>
    intro i gs best hg hl hb
    cases gs with
    | nil => simp only [findRun]; exact fin i best hg.symm hb
    | cons g gs =>
      obtain ⟨h1, h2, h3, h4⟩ := hb
      have hmax : ∀ m, ZerosAt all i m → m ≤ zeroRun (g :: gs) := by
        intro m hm
        apply zeroRun_max
        rw [hg, zerosAt_drop]
        simpa using hm
      have hz : ZerosAt all i (zeroRun (g :: gs)) := by
        have := zeroRun_zeros (g :: gs)
        rw [hg, zerosAt_drop] at this
        rw [← hg] at this
        simpa using this
      simp only [findRun]
      generalize hr : zeroRun (g :: gs) = r at *
      split
      · rename_i hgt
        apply ih
        · rw [hg, List.drop_drop]; congr 1
        · simp at hl ⊢; omega
        · refine ⟨by simp, by simp; omega, by simpa using hz, fun j m hj hm => ?_⟩
          simp only [Nat.add_sub_cancel_left]
          by_cases hji : j < i
          · rcases h4 j m hji hm with h | h | h <;> omega
          · have := hmax (j - i + m) (by
              intro t ht
              by_cases htj : t < j - i
              · exact hz t (by omega)
              · have := hm (t - (j - i)) (by omega)
                rwa [show j + (t - (j - i)) = i + t by omega] at this)
            omega
      · rename_i hgt
        apply ih
        · rw [← List.drop_drop, ← hg]; rfl
        · simp at hl ⊢; omega
        · refine ⟨h1, by omega, h3, fun j m hj hm => ?_⟩
          by_cases hji : j < i
          · exact h4 j m hji hm
          · have hj' : j = i := by omega
            subst hj'
            have := hmax m hm
            omega

theorem findRun_first_longest (gs : List Nat) (h : gs.length = 8) : BestAll gs (findRun 8 0 gs (0, 0)) :=
  findRun_best gs 8 0 gs (0, 0) rfl (by omega) ⟨Nat.le_refl _, Nat.le_refl _, by intro t ht; simp at ht, by intro j m hj; omega⟩

/-- **C77, IPv6 texts.** An IPv6 address that is not IPv4-mapped is written in the form that RFC 5952 recommends. -/
theorem C77_ipv6_text_recommended (ip : Bytes) (hl : ip.length = 16) (hm : ¬ ResSpec.Mapped ip) :
    Recommended (groups ip) (ipString ip) := by
  have ht : ipString ip = ipv6Text (groups ip) := by
    unfold ipString
    rw [if_neg (by intro h; simp [h] at hl), not_mapped hl hm]
    simp [hl]
  have h8 : (groups ip).length = 8 := groups_length 8 ip hl
  rw [ht]
  obtain ⟨h1, h2, h3⟩ := findRun_first_longest _ h8
  unfold ipv6Text
  simp only
  generalize hf : findRun 8 0 (groups ip) (0, 0) = e at *
  split
  · rename_i hle
    right
    refine ⟨?_, rfl⟩
    rintro ⟨j, hj⟩
    rcases h3 j 2 hj with h | h | h <;> omega
  · rename_i hle
    left
    refine ⟨e.1, e.2 - e.1, by omega, h2, ?_, ?_⟩
    · intro j m hz
      rcases h3 j m hz with h | h | h
      · exact .inl h
      · left; omega
      · exact .inr h
    · rw [show e.1 + (e.2 - e.1) = e.2 by omega]
      rfl

/-- At most one text is recommended, so the theorem says exactly which text is written. -/
theorem C77_recommended_unique (gs : List Nat) (s t : Bytes) (hs : Recommended gs s) (ht : Recommended gs t) : s = t := by
  rcases hs with ⟨i, k, hk, hz, hb, rfl⟩ | ⟨hn, rfl⟩ <;> rcases ht with ⟨i', k', hk', hz', hb', rfl⟩ | ⟨hn', rfl⟩
  · have h1 := hb _ _ hz'
    have h2 := hb' _ _ hz
    have : i = i' ∧ k = k' := by omega
    rw [this.1, this.2]
  · exact absurd ⟨i, fun t ht => hz t (by omega)⟩ hn'
  · exact absurd ⟨i', fun t ht => hz' t (by omega)⟩ hn
  · rfl

example : Recommended (groups OutEx.netRuns.ip) (asc "2001:0:0:1::".toList) := by
  have := C77_ipv6_text_recommended OutEx.netRuns.ip (by decide) OutEx.goodRuns.2.2
  rwa [show ipString OutEx.netRuns.ip = asc "2001:0:0:1::".toList by decide +kernel] at this

/-- Two runs of the same length: the first one is replaced. One zero group alone is written. -/
example : ipString [0x20, 1, 0, 0, 0, 0, 0, 1, 0, 1, 0, 0, 0, 0, 0, 1] = asc "2001::1:1:0:0:1".toList ∧
    ipString [0x20, 1, 0, 0, 0, 2, 0, 1, 0, 1, 0, 3, 0, 4, 0, 1] = asc "2001:0:2:1:1:3:4:1".toList := by decide +kernel

end Verif.Props
