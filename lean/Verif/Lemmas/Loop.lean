import Verif.Spec.Loop
import Mathlib.Data.List.Induction
/-
  Invariant of the validation loop.
-/
set_option autoImplicit false

namespace Verif.Loop
open LoopSpec

theorem mem_addKey {m : List Bytes} {k r : Bytes} : r ∈ addKey m k ↔ r ∈ m ∨ r = k := by
  unfold addKey
  split
  · exact ⟨.inl, fun h => h.elim id fun h => by subst h; assumption⟩
  · simp

theorem nodup_addKey {m : List Bytes} {k : Bytes} (h : m.Nodup) : (addKey m k).Nodup := by
  unfold addKey
  split
  · exact h
  · rw [List.nodup_append]
    refine ⟨h, by simp, ?_⟩
    intro a ha b hb
    have : b = k := by simpa using hb
    subst this
    intro e
    subst e
    contradiction

theorem mem_addRepos {rs m : List Bytes} {r : Bytes} : r ∈ addRepos m rs ↔ r ∈ m ∨ r ∈ rs := by
  induction rs generalizing m with
  | nil => simp [addRepos]
  | cons x xs ih =>
    have : addRepos m (x :: xs) = addRepos (addKey m x) xs := rfl
    rw [this, ih, mem_addKey, List.mem_cons, or_assoc]

theorem nodup_addRepos {rs m : List Bytes} (h : m.Nodup) : (addRepos m rs).Nodup := by
  induction rs generalizing m with
  | nil => exact h
  | cons x xs ih => exact ih (nodup_addKey h)

theorem reduceLoop_spec (rs prev : List Bytes) (b : Bool) (h : prev.Nodup) :
    (reduceLoop prev rs b).1.Nodup ∧ (∀ r, r ∈ (reduceLoop prev rs b).1 ↔ r ∈ prev ∨ r ∈ rs) ∧
    ((reduceLoop prev rs b).2 = true ↔ b = true ∨ ∃ r ∈ rs, r ∉ prev) := by
  induction rs generalizing prev b with
  | nil => simp [reduceLoop, h]
  | cons x xs ih =>
    by_cases hx : x ∈ prev
    · simp only [reduceLoop, if_pos hx]
      obtain ⟨h1, h2, h3⟩ := ih prev b h
      refine ⟨h1, fun r => ?_, ?_⟩
      · rw [h2, List.mem_cons]
        constructor
        · rintro (h | h)
          exacts [.inl h, .inr (.inr h)]
        · rintro (h | rfl | h)
          exacts [.inl h, .inl hx, .inr h]
      · rw [h3]
        constructor
        · rintro (h | ⟨r, hr, hn⟩)
          exacts [.inl h, .inr ⟨r, List.mem_cons_of_mem _ hr, hn⟩]
        · rintro (h | ⟨r, hr, hn⟩)
          · exact .inl h
          · rcases List.mem_cons.mp hr with rfl | hr
            exacts [absurd hx hn, .inr ⟨r, hr, hn⟩]
    · simp only [reduceLoop, if_neg hx]
      have hnd : (prev ++ [x]).Nodup := by
        have := nodup_addKey (k := x) h
        rwa [addKey, if_neg hx] at this
      obtain ⟨h1, h2, h3⟩ := ih (prev ++ [x]) true hnd
      refine ⟨h1, fun r => ?_, ?_⟩
      · rw [h2]
        simp [or_assoc]
      · rw [h3]
        exact ⟨fun _ => .inr ⟨x, List.mem_cons_self .., hx⟩, fun _ => .inl rfl⟩

theorem nodup_length_eq {a b : List Bytes} (ha : a.Nodup) (hb : b.Nodup) (h : ∀ r, r ∈ a ↔ r ∈ b) :
    a.length = b.length :=
  ((List.perm_ext_iff_of_nodup ha hb).mpr h).length_eq

/-- When everything known before is still in the current map, `MainReduce` says that something changed
    exactly if a module is new, and afterwards both maps have the same keys. -/
theorem mainReduce_spec {prev current : List Bytes} (hp : prev.Nodup) (hc : current.Nodup)
    (hs : ∀ r ∈ prev, r ∈ current) :
    (mainReduce prev current).1.Nodup ∧ (∀ r, r ∈ (mainReduce prev current).1 ↔ r ∈ current) ∧
    ((mainReduce prev current).2 = false ↔ ∀ r ∈ current, r ∈ prev) := by
  obtain ⟨h1, h2, h3⟩ := reduceLoop_spec current prev false hp
  have hm : ∀ r, r ∈ (reduceLoop prev current false).1 ↔ r ∈ current := by
    intro r
    rw [h2]
    exact ⟨fun h => h.elim (hs r) id, .inr⟩
  have hl := nodup_length_eq h1 hc hm
  have e : mainReduce prev current = reduceLoop prev current false := by
    simp only [mainReduce, hl, ne_eq, not_true_eq_false, if_false]
  rw [e]
  refine ⟨h1, hm, ?_⟩
  rw [← Bool.not_eq_true, h3]
  simp

theorem known_succ {L : Type} {rounds : Nat → Round L} {k : Nat} {r : Bytes} :
    Known rounds (k + 1) r ↔ Known rounds k r ∨ r ∈ (rounds k).repos := by
  constructor
  · rintro ⟨j, hj, h⟩
    by_cases e : j = k
    · subst e; exact .inr h
    · exact .inl ⟨j, by omega, h⟩
  · rintro (⟨j, hj, h⟩ | h)
    exacts [⟨j, by omega, h⟩, ⟨k, by omega, h⟩]

/-- Rounds whose output step is over. -/
def writtenRounds {L : Type} (s : State L) : Nat :=
  match s.pc with
  | .fetched | .validated | .stored | .storedBoth => s.iterations - 1
  | _ => s.iterations

/-- What holds of the loop after any number of steps. -/
structure Inv {L : Type} (c : Config) (rounds : Nat → Round L) (l : L) (s : State L) : Prop where
  curNodup : s.current.Nodup
  prevNodup : s.prev.Nodup
  cur : ∀ r, r ∈ s.current ↔ Known rounds (validatedRounds s) r
  prev : ∀ r, r ∈ s.prev ↔ Known rounds (reducedRounds s) r
  began : s.pc ≠ .top → 1 ≤ s.iterations
  list0 : validatedRounds s = 0 → s.list = l
  list1 : ∀ k, validatedRounds s = k + 1 → s.list = (rounds k).list
  has : s.hasPrev = true ↔ ∃ k, settledRounds s = k + 1 ∧ Quiet rounds k
  st : match s.pc with
    | .top | .fetched | .validated => s.stable = false
    | .stored | .storedBoth | .written => (s.stable = true ↔ Quiet rounds (s.iterations - 1))
    | .limited => (s.stable = true ↔ Quiet rounds (s.iterations - 1) ∨ (s.untilStable : Int) > c.maxIterations)
    | .waiting | .done => s.stable = true ∧ (Quiet rounds (s.iterations - 1) ∨ (s.untilStable : Int) > c.maxIterations)
  span : s.pc ≠ .top → s.spanActive = decide (s.pc ≠ .waiting)
  bound : match s.pc with
    | .top => s.spanActive = true → (s.untilStable : Int) ≤ c.maxIterations ∧ s.untilStable ≤ s.iterations
    | _ => 1 ≤ s.untilStable ∧ s.untilStable ≤ c.maxIterations.toNat + 1 ∧ s.untilStable ≤ s.iterations
  loud : match s.pc with
    | .top => s.spanActive = true → ∀ j, s.iterations ≤ j + s.untilStable → j < s.iterations → ¬ Quiet rounds j
    | _ => ∀ j, s.iterations ≤ j + s.untilStable → j + 1 < s.iterations → ¬ Quiet rounds j
  out : s.outputs = if c.oneoff then toWrite c rounds (writtenRounds s) else []

theorem inv_start {L : Type} (c : Config) (rounds : Nat → Round L) (l : L) : Inv c rounds l (start l) := by
  constructor <;> simp [start, validatedRounds, reducedRounds, settledRounds, writtenRounds, Known, toWrite]

theorem toWrite_succ {L : Type} (c : Config) (rounds : Nat → Round L) (n : Nat) (b : Bool)
    (hb : b = true ↔ c.waitStable = false ∨ Quiet rounds n) :
    toWrite c rounds (n + 1) = if b = true then toWrite c rounds n ++ [(rounds n).list] else toWrite c rounds n := by
  unfold toWrite
  rw [List.range_succ, List.filter_append, List.map_append]
  by_cases h : b = true
  · have h' := hb.mp h
    simp [h, h']
  · have h' : ¬ (c.waitStable = false ∨ Quiet rounds n) := fun x => h (hb.mpr x)
    simp [h, h']

theorem inv_step {L : Type} {c : Config} {rounds : Nat → Round L} {l : L} {s : State L} (h : Inv c rounds l s) :
    Inv c rounds l (step c rounds s) := by
  obtain ⟨pc, current, prev, spanActive, iterations, untilStable, stable, hasPrev, list, outputs⟩ := s
  obtain ⟨cn, pn, cu, pr, bg, l0, l1, ha, st, sp, bo, lo, ou⟩ := h
  cases pc <;> simp only [validatedRounds, reducedRounds, settledRounds, writtenRounds, ne_eq, reduceCtorEq,
    not_true_eq_false, not_false_eq_true, true_implies, false_implies] at cu pr bg l0 l1 ha st sp bo lo ou
  case top =>
    refine ⟨cn, pn, ?_, ?_, ?_, ?_, ?_, ?_, ?_, ?_, ?_, ?_, ?_⟩ <;>
      simp only [step, validatedRounds, reducedRounds, settledRounds, writtenRounds, Nat.add_sub_cancel]
    · exact cu
    · exact pr
    · omega
    · exact l0
    · exact l1
    · exact ha
    · exact st
    · simp
    · cases spanActive
      · simp
      · have := bo rfl
        simp only [if_true]
        omega
    · cases spanActive
      · simp only [Bool.false_eq_true, if_false]
        intro j h1 h2
        omega
      · simp only [if_true]
        intro j h1 h2
        exact lo rfl j (by omega) (by omega)
    · exact ou
  case fetched =>
    obtain ⟨m, rfl⟩ : ∃ m, iterations = m + 1 := ⟨iterations - 1, by omega⟩
    simp only [Nat.add_sub_cancel] at *
    refine ⟨nodup_addRepos cn, pn, ?_, ?_, ?_, ?_, ?_, ?_, ?_, ?_, ?_, ?_, ?_⟩ <;>
      simp only [step, validatedRounds, reducedRounds, settledRounds, writtenRounds, Nat.add_sub_cancel]
    · intro r
      rw [mem_addRepos, cu, known_succ]
    · exact pr
    · omega
    · omega
    · intro k hk
      have : k = m := by omega
      rw [this]
    · exact ha
    · exact st
    · intro _; simpa using sp
    · exact bo
    · exact lo
    · exact ou
  case validated =>
    obtain ⟨m, rfl⟩ : ∃ m, iterations = m + 1 := ⟨iterations - 1, by omega⟩
    simp only [Nat.add_sub_cancel] at *
    obtain ⟨r1, r2, r3⟩ := mainReduce_spec pn cn (fun r hr => by
      rw [cu, known_succ]; exact .inl ((pr r).mp hr))
    refine ⟨cn, r1, ?_, ?_, ?_, ?_, ?_, ?_, ?_, ?_, ?_, ?_, ?_⟩ <;>
      simp only [step, validatedRounds, reducedRounds, settledRounds, writtenRounds, Nat.add_sub_cancel]
    · exact cu
    · intro r
      rw [r2, cu]
    · omega
    · omega
    · exact l1
    · exact ha
    · rw [Bool.and_eq_true, Bool.not_eq_true', decide_eq_true_eq, r3, Quiet]
      constructor
      · rintro ⟨hq, hm⟩
        refine ⟨by omega, fun r hr => (pr r).mp (hq r ?_)⟩
        rw [cu, known_succ]
        exact .inr hr
      · rintro ⟨hm, hq⟩
        refine ⟨fun r hr => ?_, by omega⟩
        rw [cu, known_succ] at hr
        rw [pr]
        exact hr.elim id (hq r)
    · intro _; simpa using sp
    · exact bo
    · exact lo
    · exact ou
  case stored =>
    obtain ⟨m, rfl⟩ : ∃ m, iterations = m + 1 := ⟨iterations - 1, by omega⟩
    simp only [Nat.add_sub_cancel] at *
    refine ⟨cn, pn, ?_, ?_, ?_, ?_, ?_, ?_, ?_, ?_, ?_, ?_, ?_⟩ <;>
      simp only [step, validatedRounds, reducedRounds, settledRounds, writtenRounds, Nat.add_sub_cancel]
    · exact cu
    · exact pr
    · omega
    · omega
    · exact l1
    · rw [st]
      exact ⟨fun h => ⟨m, rfl, h⟩, fun ⟨k, hk, h⟩ => by
        have : k = m := by omega
        rwa [this] at h⟩
    · exact st
    · intro _; simpa using sp
    · exact bo
    · exact lo
    · exact ou
  case storedBoth =>
    obtain ⟨m, rfl⟩ : ∃ m, iterations = m + 1 := ⟨iterations - 1, by omega⟩
    simp only [Nat.add_sub_cancel] at *
    refine ⟨cn, pn, ?_, ?_, ?_, ?_, ?_, ?_, ?_, ?_, ?_, ?_, ?_⟩ <;>
      simp only [step, validatedRounds, reducedRounds, settledRounds, writtenRounds, Nat.add_sub_cancel]
    · exact cu
    · exact pr
    · omega
    · omega
    · exact l1
    · exact ha
    · exact st
    · intro _; simpa using sp
    · exact bo
    · exact lo
    · rw [toWrite_succ c rounds m (stable || !c.waitStable)
        (by rw [Bool.or_eq_true, st, Bool.not_eq_true', or_comm])]
      rw [ou, l1 m rfl]
      cases c.oneoff <;> simp
  case written =>
    refine ⟨cn, pn, ?_, ?_, ?_, ?_, ?_, ?_, ?_, ?_, ?_, ?_, ?_⟩ <;>
      simp only [step, validatedRounds, reducedRounds, settledRounds, writtenRounds, Nat.add_sub_cancel]
    · exact cu
    · exact pr
    · omega
    · exact l0
    · exact l1
    · exact ha
    · by_cases h : (untilStable : Int) > c.maxIterations
      · simp [h]
      · simp [h, st]
    · intro _; simpa using sp
    · exact bo
    · exact lo
    · exact ou
  case limited =>
    cases stable
    · have hq : ¬ (Quiet rounds (iterations - 1) ∨ (untilStable : Int) > c.maxIterations) := by
        intro hh; exact absurd (st.mpr hh) (by simp)
      have hq1 : ¬ Quiet rounds (iterations - 1) := fun x => hq (.inl x)
      have hq2 : ¬ (untilStable : Int) > c.maxIterations := fun x => hq (.inr x)
      refine ⟨?_, ?_, ?_, ?_, ?_, ?_, ?_, ?_, ?_, ?_, ?_, ?_, ?_⟩ <;>
        simp only [step, Bool.and_false, Bool.false_eq_true, if_false, validatedRounds, reducedRounds, settledRounds,
          writtenRounds]
      · exact cn
      · exact pn
      · exact cu
      · exact pr
      · intro h; exact absurd rfl h
      · exact l0
      · exact l1
      · exact ha
      · intro h; exact absurd rfl h
      · intro _; omega
      · intro _ j h1 h2
        by_cases e : j + 1 = iterations
        · have : j = iterations - 1 := by omega
          rw [this]; exact hq1
        · exact lo j h1 (by omega)
      · exact ou
    · have hq := st.mp rfl
      cases hone : c.oneoff
      · refine ⟨?_, ?_, ?_, ?_, ?_, ?_, ?_, ?_, ?_, ?_, ?_, ?_, ?_⟩ <;>
          simp only [step, hone, Bool.false_and, Bool.false_eq_true, if_false, if_true, validatedRounds, reducedRounds,
            settledRounds, writtenRounds]
        · exact cn
        · exact pn
        · exact cu
        · exact pr
        · omega
        · exact l0
        · exact l1
        · exact ha
        · exact ⟨trivial, hq⟩
        · simp
        · exact bo
        · exact lo
        · rw [ou, hone]; rfl
      · refine ⟨?_, ?_, ?_, ?_, ?_, ?_, ?_, ?_, ?_, ?_, ?_, ?_, ?_⟩ <;>
          simp only [step, hone, Bool.and_true, if_true, validatedRounds, reducedRounds,
            settledRounds, writtenRounds]
        · exact cn
        · exact pn
        · exact cu
        · exact pr
        · omega
        · exact l0
        · exact l1
        · exact ha
        · exact ⟨trivial, hq⟩
        · intro _; simpa using sp
        · exact bo
        · exact lo
        · rw [ou, hone]; rfl
  case waiting =>
    have sp' : spanActive = false := by simpa using sp
    subst sp'
    refine ⟨cn, pn, ?_, ?_, ?_, ?_, ?_, ?_, ?_, ?_, ?_, ?_, ?_⟩ <;>
      simp only [step, validatedRounds, reducedRounds, settledRounds, writtenRounds]
    · exact cu
    · exact pr
    · intro h; exact absurd rfl h
    · exact l0
    · exact l1
    · exact ha
    · intro h; exact absurd rfl h
    · simp
    · simp
    · exact ou
  case done =>
    refine ⟨cn, pn, ?_, ?_, ?_, ?_, ?_, ?_, ?_, ?_, ?_, ?_, ?_⟩ <;>
      simp only [step, validatedRounds, reducedRounds, settledRounds, writtenRounds]
    · exact cu
    · exact pr
    · omega
    · exact l0
    · exact l1
    · exact ha
    · exact st
    · intro _; simpa using sp
    · exact bo
    · exact lo
    · exact ou

theorem inv_run {L : Type} (c : Config) (rounds : Nat → Round L) (l : L) (n : Nat) : Inv c rounds l (run c rounds l n) := by
  induction n with
  | zero => exact inv_start c rounds l
  | succ n ih => exact inv_step ih

end Verif.Loop

namespace Verif.Loop
open LoopSpec

/-- Number of rounds since the last refresh. -/
def sinceWait {L : Type} (s : State L) : Nat := if s.spanActive then s.untilStable else 0

theorem sinceWait_le {L : Type} {c : Config} {rounds : Nat → Round L} {l : L} {s : State L} (h : Inv c rounds l s) :
    sinceWait s ≤ c.maxIterations.toNat + 1 := by
  have hb := h.bound
  unfold sinceWait
  split
  · next hs =>
    split at hb
    · have := hb hs; omega
    · exact hb.2.1
  · omega

theorem step_count {L : Type} {c : Config} {rounds : Nat → Round L} {s : State L} (hw : s.pc ≠ .waiting)
    (hw' : (step c rounds s).pc ≠ .waiting) {a : Nat} (h : s.iterations ≤ a + sinceWait s) :
    (step c rounds s).iterations ≤ a + sinceWait (step c rounds s) := by
  obtain ⟨pc, current, prev, spanActive, iterations, untilStable, stable, hasPrev, list, outputs⟩ := s
  cases pc <;> simp only [step, sinceWait] at *
  · simp only [if_true]; omega
  all_goals try exact h
  · cases stable <;> cases hc : c.oneoff <;> simp [hc] at * <;> exact h

theorem count_le {L : Type} (c : Config) (rounds : Nat → Round L) (l : L) (n d : Nat)
    (hw : ∀ i, n ≤ i → i ≤ n + d → (run c rounds l i).pc ≠ .waiting) :
    (run c rounds l (n + d)).iterations ≤ (run c rounds l n).iterations + sinceWait (run c rounds l (n + d)) := by
  induction d with
  | zero => exact Nat.le_add_right _ _
  | succ d ih =>
    exact step_count (hw (n + d) (by omega) (by omega)) (hw (n + d + 1) (by omega) (by omega))
      (ih fun i h1 h2 => hw i h1 (by omega))

/-- Steps made when no wait is counted. -/
def position {L : Type} (s : State L) : Nat :=
  match s.pc with
  | .top | .waiting | .done => 7 * s.iterations
  | .fetched => 7 * s.iterations - 6
  | .validated => 7 * s.iterations - 5
  | .stored => 7 * s.iterations - 4
  | .storedBoth => 7 * s.iterations - 3
  | .written => 7 * s.iterations - 2
  | .limited => 7 * s.iterations - 1

theorem position_step {L : Type} {c : Config} {rounds : Nat → Round L} {l : L} {s : State L} (h : Inv c rounds l s)
    (hw : s.pc ≠ .waiting) (hd : s.pc ≠ .done) : position (step c rounds s) = position s + 1 := by
  have hb := h.began
  obtain ⟨pc, current, prev, spanActive, iterations, untilStable, stable, hasPrev, list, outputs⟩ := s
  cases pc <;> simp only [step, position, ne_eq, reduceCtorEq, not_true_eq_false, not_false_eq_true, true_implies,
    false_implies] at *
  all_goals try omega
  · cases stable <;> cases hc : c.oneoff <;> simp <;> omega

theorem position_run {L : Type} (c : Config) (rounds : Nat → Round L) (l : L) (n d : Nat)
    (hw : ∀ i, n ≤ i → i < n + d → (run c rounds l i).pc ≠ .waiting ∧ (run c rounds l i).pc ≠ .done) :
    position (run c rounds l (n + d)) = position (run c rounds l n) + d := by
  induction d with
  | zero => rfl
  | succ d ih =>
    obtain ⟨h1, h2⟩ := hw (n + d) (by omega) (by omega)
    have := position_step (inv_run c rounds l (n + d)) h1 h2
    rw [ih fun i a b => hw i a (by omega)] at this
    exact this

/-- A round that finds something new, in a loop that is not at its limit. -/
theorem loud_round {L : Type} {c : Config} {rounds : Nat → Round L} {l : L} {n : Nat}
    (hpc : (run c rounds l n).pc = .top) (hq : ¬ Quiet rounds (run c rounds l n).iterations) :
    (run c rounds l (n + 1)).pc = .fetched ∧ (run c rounds l (n + 2)).pc = .validated ∧
    (run c rounds l (n + 3)).pc = .stored ∧ (run c rounds l (n + 4)).pc = .storedBoth ∧
    (run c rounds l (n + 5)).pc = .written ∧ (run c rounds l (n + 6)).pc = .limited ∧
    (run c rounds l (n + 6)).iterations = (run c rounds l n).iterations + 1 ∧
    sinceWait (run c rounds l (n + 6)) = sinceWait (run c rounds l n) + 1 ∧
    (run c rounds l (n + 6)).stable = decide ((sinceWait (run c rounds l n) : Int) + 1 > c.maxIterations) := by
  have h3 := (inv_run c rounds l (n + 3)).st
  have e : ∀ k, run c rounds l (k + 1) = step c rounds (run c rounds l k) := fun _ => rfl
  rw [e (n + 5), e (n + 4), e (n + 3), e (n + 2), e (n + 1), e n] at *
  generalize run c rounds l n = s at *
  obtain ⟨pc, current, prev, spanActive, iterations, untilStable, stable, hasPrev, list, outputs⟩ := s
  simp only at hpc hq
  subst hpc
  simp only [step, Nat.add_sub_cancel] at *
  have h4 : (!(mainReduce prev (addRepos current (rounds iterations).repos)).2 && decide (iterations + 1 > 1)) = false := by
    rw [← Bool.not_eq_true, h3]; exact hq
  simp only [h4, sinceWait, if_true, true_and]
  by_cases h : ((((if spanActive = true then untilStable else 0) + 1 : Nat) : Int)) > c.maxIterations
  · rw [if_pos h]; exact (decide_eq_true (by simpa using h)).symm
  · rw [if_neg h]; exact (decide_eq_false (by simpa using h)).symm

end Verif.Loop
