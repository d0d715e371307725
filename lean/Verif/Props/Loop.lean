import Verif.Lemmas.Loop
/-
  Property theorems for the validation loop of octorpki: C56-C59.
-/
set_option autoImplicit false

namespace Verif.Props
open LoopSpec Loop

variable {L : Type}

/-! ## C56 — stability means no new repository -/

/-- **C56.** Whenever the loop says that it is stable, either the last round was not the first and found no
    repository unknown to the rounds before it, or the iteration limit was reached. -/
theorem C56_stable_sound (c : Config) (rounds : Nat → Round L) (l : L) (n : Nat)
    (h : (run c rounds l n).stable = true) :
    Quiet rounds ((run c rounds l n).iterations - 1) ∨ AtLimit rounds c.maxIterations.toNat (run c rounds l n) := by
  have hi := inv_run c rounds l n
  generalize run c rounds l n = s at *
  have hst := hi.st
  have lim : (s.pc ≠ .top) → (s.untilStable : Int) > c.maxIterations → AtLimit rounds c.maxIterations.toNat s := by
    intro hpc hu
    have hb := hi.bound
    have hl := hi.loud
    split at hb
    · next e => exact absurd e hpc
    split at hl
    · next e => exact absurd e hpc
    exact ⟨by omega, fun j h1 h2 => hl j (by omega) h1⟩
  cases hp : s.pc <;> simp only [hp] at hst <;> first
    | exact (hst.mp h).imp id (lim (by simp [hp]))
    | exact .inl (hst.mp h)
    | exact hst.2.imp id (lim (by simp [hp]))
    | (rw [hst] at h; exact absurd h (by simp))

/-- **C56.** Conversely, right after a reduction the flag says exactly whether the round was quiet. -/
theorem C56_reduction_exact (c : Config) (rounds : Nat → Round L) (l : L) (n : Nat)
    (h : (run c rounds l n).pc = .stored) :
    ((run c rounds l n).stable = true ↔ Quiet rounds ((run c rounds l n).iterations - 1)) := by
  have hst := (inv_run c rounds l n).st
  rwa [h] at hst

/-- **C56.** The loop never says that it is stable on its first round, if the limit is at least 1. -/
theorem C56_never_first (c : Config) (rounds : Nat → Round L) (l : L) (n : Nat) (hm : 1 ≤ c.maxIterations)
    (h : (run c rounds l n).iterations ≤ 1) : (run c rounds l n).stable = false := by
  by_contra hs
  rw [Bool.not_eq_false] at hs
  rcases C56_stable_sound c rounds l n hs with hq | hl
  · exact absurd hq.1 (by omega)
  · have := hl.1
    omega

/-- **C56.** With the limit set to 0 (or below) the first round is always declared stable. -/
theorem C56_limit_zero_stops_at_once (c : Config) (rounds : Nat → Round L) (l : L) (hm : c.maxIterations ≤ 0) :
    (run c rounds l 6).iterations = 1 ∧ (run c rounds l 6).stable = true := by
  have hq : ¬ Quiet rounds (run c rounds l 0).iterations := fun h => absurd h.1 (by simp [run, start])
  obtain ⟨-, -, -, -, -, -, h1, -, h2⟩ := loud_round (c := c) (l := l) (n := 0) rfl hq
  refine ⟨h1, h2.trans ?_⟩
  have : sinceWait (run c rounds l 0) = 0 := rfl
  rw [this]
  exact decide_eq_true (by omega)

/-! ## C57 — iterations are bounded -/

/-- **C57** (partial: one more than the statement allows, see `C57_violated`). Between two waits there are at
    most `max + 1` rounds, whatever they find. -/
theorem C57_rounds_between_waits_partial (c : Config) (rounds : Nat → Round L) (l : L) (n m : Nat) (hnm : n ≤ m)
    (hw : ∀ i, n ≤ i → i ≤ m → (run c rounds l i).pc ≠ .waiting) :
    (run c rounds l m).iterations ≤ (run c rounds l n).iterations + c.maxIterations.toNat + 1 := by
  obtain ⟨d, rfl⟩ := Nat.exists_eq_add_of_le hnm
  have h1 := count_le c rounds l n d hw
  have h2 := sinceWait_le (inv_run c rounds l (n + d))
  omega

/-- **C57.** Nothing that the repositories contain keeps the loop from pausing: from any point on it waits, or
    has ended, within a number of steps fixed by the limit. -/
theorem C57_always_pauses (c : Config) (rounds : Nat → Round L) (l : L) (n : Nat) :
    ∃ i, n ≤ i ∧ i ≤ n + 7 * c.maxIterations.toNat + 14 ∧
      ((run c rounds l i).pc = .waiting ∨ (run c rounds l i).pc = .done) := by
  by_contra hcon
  have hw : ∀ i, n ≤ i → i ≤ n + (7 * c.maxIterations.toNat + 14) →
      (run c rounds l i).pc ≠ .waiting ∧ (run c rounds l i).pc ≠ .done := by
    intro i h1 h2
    constructor
    · intro h; exact hcon ⟨i, h1, by omega, .inl h⟩
    · intro h; exact hcon ⟨i, h1, by omega, .inr h⟩
  have h1 := position_run c rounds l n (7 * c.maxIterations.toNat + 14) (fun i a b => hw i a (by omega))
  have h2 := count_le c rounds l n (7 * c.maxIterations.toNat + 14) (fun i a b => (hw i a b).1)
  have h3 := sinceWait_le (inv_run c rounds l (n + (7 * c.maxIterations.toNat + 14)))
  have h4 : position (run c rounds l (n + (7 * c.maxIterations.toNat + 14))) ≤
      7 * (run c rounds l (n + (7 * c.maxIterations.toNat + 14))).iterations := by
    unfold position; split <;> omega
  have h5 : 7 * (run c rounds l n).iterations ≤ position (run c rounds l n) + 6 := by
    unfold position; split <;> omega
  omega

namespace LoopEx

/-- Every round reveals a new repository; the list of round `k` is `k + 1` (the empty list is 0). -/
def fresh (k : Nat) : Round Nat := ⟨[List.replicate k 0], k + 1⟩

theorem fresh_not_quiet (k : Nat) : ¬ Quiet fresh k := by
  rintro ⟨-, h⟩
  obtain ⟨j, hj, hm⟩ := h (List.replicate k 0) (by simp [fresh])
  have : List.replicate k (0 : UInt8) = List.replicate j 0 := by simpa [fresh] using hm
  have := congrArg List.length this
  simp at this
  omega

/-- In the endless discovery the loop does `max + 1` rounds without a wait. -/
theorem fresh_run (c : Config) (hm : 0 ≤ c.maxIterations) (k : Nat) (hk : k ≤ c.maxIterations.toNat) :
    (run c fresh 0 (7 * k)).pc = .top ∧ (run c fresh 0 (7 * k)).iterations = k ∧
    sinceWait (run c fresh 0 (7 * k)) = k ∧
    (∀ i, i < 7 * k → (run c fresh 0 i).pc ≠ .waiting ∧ (run c fresh 0 i).pc ≠ .done) := by
  induction k with
  | zero => exact ⟨rfl, rfl, rfl, by omega⟩
  | succ k ih =>
    obtain ⟨i1, i2, i3, i4⟩ := ih (by omega)
    obtain ⟨p1, p2, p3, p4, p5, p6, p7, p8, p9⟩ := loud_round i1 (fresh_not_quiet _)
    have hst : (run c fresh 0 (7 * k + 6)).stable = false := by
      rw [p9, i3]; exact decide_eq_false (by omega)
    have e : run c fresh 0 (7 * (k + 1)) = step c fresh (run c fresh 0 (7 * k + 6)) := rfl
    have e2 : step c fresh (run c fresh 0 (7 * k + 6)) = { run c fresh 0 (7 * k + 6) with pc := .top } := by
      simp [step, p6, hst]
    rw [e, e2]
    refine ⟨rfl, p7.trans (by rw [i2]), p8.trans (by rw [i3]), ?_⟩
    intro i hi
    by_cases h : i < 7 * k
    · exact i4 i h
    · obtain ⟨d, rfl⟩ := Nat.exists_eq_add_of_le (Nat.le_of_not_lt h)
      have : d = 0 ∨ d = 1 ∨ d = 2 ∨ d = 3 ∨ d = 4 ∨ d = 5 ∨ d = 6 := by omega
      rcases this with rfl | rfl | rfl | rfl | rfl | rfl | rfl
      · rw [Nat.add_zero, i1]; simp
      · rw [p1]; simp
      · rw [p2]; simp
      · rw [p3]; simp
      · rw [p4]; simp
      · rw [p5]; simp
      · rw [p6]; simp

theorem fresh_last (c : Config) (hm : 0 ≤ c.maxIterations) :
    (run c fresh 0 (7 * c.maxIterations.toNat + 6)).pc = .limited ∧
    (run c fresh 0 (7 * c.maxIterations.toNat + 6)).iterations = c.maxIterations.toNat + 1 ∧
    (run c fresh 0 (7 * c.maxIterations.toNat + 6)).stable = true ∧
    (∀ i, i ≤ 7 * c.maxIterations.toNat + 6 → (run c fresh 0 i).pc ≠ .waiting) := by
  obtain ⟨i1, i2, i3, i4⟩ := fresh_run c hm c.maxIterations.toNat (Nat.le_refl _)
  obtain ⟨p1, p2, p3, p4, p5, p6, p7, p8, p9⟩ := loud_round i1 (fresh_not_quiet _)
  refine ⟨p6, by rw [p7, i2], ?_, ?_⟩
  · rw [p9, i3]; exact decide_eq_true (by omega)
  · intro i hi
    by_cases h : i < 7 * c.maxIterations.toNat
    · exact (i4 i h).1
    · obtain ⟨d, rfl⟩ := Nat.exists_eq_add_of_le (Nat.le_of_not_lt h)
      have : d = 0 ∨ d = 1 ∨ d = 2 ∨ d = 3 ∨ d = 4 ∨ d = 5 ∨ d = 6 := by omega
      rcases this with rfl | rfl | rfl | rfl | rfl | rfl | rfl
      · rw [Nat.add_zero, i1]; simp
      · rw [p1]; simp
      · rw [p2]; simp
      · rw [p3]; simp
      · rw [p4]; simp
      · rw [p5]; simp
      · rw [p6]; simp

end LoopEx

/-- **C57, the statement does not hold.** For every limit there is a discovery sequence for which the loop
    makes one round more than the limit before it first waits. -/
theorem C57_violated (c : Config) (hm : 0 ≤ c.maxIterations) :
    ∃ (rounds : Nat → Round Nat) (m : Nat), (∀ i, i ≤ m → (run c rounds 0 i).pc ≠ .waiting) ∧
      (run c rounds 0 m).iterations = c.maxIterations.toNat + 1 := by
  obtain ⟨-, h1, -, h2⟩ := LoopEx.fresh_last c hm
  exact ⟨LoopEx.fresh, _, h2, h1⟩

/-! ## C58 — one-off mode writes its output -/

/-- **C58.** What a one-off run has written: the lists of the rounds, in order, all of them if it does not wait for
    a stable state and otherwise those of the quiet rounds. In server mode nothing is written. -/
theorem C58_written_exact (c : Config) (rounds : Nat → Round L) (l : L) (n : Nat)
    (h : (run c rounds l n).pc = .done ∨ (run c rounds l n).pc = .waiting ∨ (run c rounds l n).pc = .top) :
    (run c rounds l n).outputs = if c.oneoff then toWrite c rounds (run c rounds l n).iterations else [] := by
  have ho := (inv_run c rounds l n).out
  have : writtenRounds (run c rounds l n) = (run c rounds l n).iterations := by
    rcases h with h | h | h <;> simp only [writtenRounds, h]
  rwa [this] at ho

/-- **C58** (partial: not at the iteration limit). A one-off run that has ended has written the list of its last round,
    if it does not wait for a stable state or if the last round found nothing new. -/
theorem C58_ended_has_written_partial (c : Config) (rounds : Nat → Round L) (l : L) (n : Nat) (ho : c.oneoff = true)
    (h : (run c rounds l n).pc = .done)
    (hs : c.waitStable = false ∨ Quiet rounds ((run c rounds l n).iterations - 1)) :
    (run c rounds l n).outputs.getLast? = some (rounds ((run c rounds l n).iterations - 1)).list ∧
    (run c rounds l n).outputs.getLast? = some (run c rounds l n).list := by
  have hi := inv_run c rounds l n
  have he := C58_written_exact c rounds l n (.inl h)
  have hb := hi.began (by simp [h])
  obtain ⟨k, hk⟩ : ∃ k, (run c rounds l n).iterations = k + 1 := ⟨_, (Nat.sub_add_cancel hb).symm⟩
  have hl := hi.list1 k (by simp only [validatedRounds, h, hk])
  rw [hk, Nat.add_sub_cancel] at hs ⊢
  rw [hk, ho, if_pos rfl, toWrite_succ c rounds k true (by simp [hs]), if_pos rfl] at he
  rw [he, hl]
  simp

/-- **C58.** A one-off run always ends. -/
theorem C58_ends (c : Config) (rounds : Nat → Round L) (l : L) (ho : c.oneoff = true) :
    ∃ n, (run c rounds l n).pc = .done := by
  obtain ⟨i, -, -, h | h⟩ := C57_always_pauses c rounds l 0
  · exfalso
    have : ∀ n, (run c rounds l n).pc ≠ .waiting := by
      intro n
      induction n with
      | zero => simp [run, start]
      | succ n ih =>
        simp only [run]
        generalize run c rounds l n = s at *
        cases hp : s.pc <;> simp only [step, hp] <;> try simp
        · cases hs : s.stable <;> simp [ho]
    exact this i h
  · exact ⟨i, h⟩

/-- **C58, the statement does not hold.** For every limit there is a discovery sequence for which the one-off
    run that waits for a stable state ends normally (saying "Stable, terminating") and has written nothing. -/
theorem C58_violated (c : Config) (hm : 0 ≤ c.maxIterations) (ho : c.oneoff = true) (hw : c.waitStable = true) :
    ∃ (rounds : Nat → Round Nat) (n : Nat), (run c rounds 0 n).pc = .done ∧ (run c rounds 0 n).outputs = [] := by
  obtain ⟨h1, h2, h3, -⟩ := LoopEx.fresh_last c hm
  have hd : (run c LoopEx.fresh 0 (7 * c.maxIterations.toNat + 6 + 1)).pc = .done := by
    rw [run]
    generalize run c LoopEx.fresh 0 (7 * c.maxIterations.toNat + 6) = s at *
    simp [step, h1, h3, ho]
  refine ⟨LoopEx.fresh, 7 * c.maxIterations.toNat + 6 + 1, hd, ?_⟩
  rw [C58_written_exact c _ _ _ (.inl hd)]
  simp [ho, toWrite, hw, LoopEx.fresh_not_quiet]

/-! ## C59 — what the endpoints serve -/

/-- **C59** (partial: it is about the flags, not about the list, see `C59_violated_unstable_list`). With waiting enabled a
    request gets data only if the last reduced round, or the last round that has set both flags, was quiet, or the
    limit was reached. The request reads the two flags and the list at any three moments. -/
theorem C59_served_only_after_stable_partial (c : Config) (rounds : Nat → Round L) (l : L) (i j k : Nat)
    (hw : c.waitStable = true) (h : serveROAs c rounds l i j k ≠ none) :
    Quiet rounds ((run c rounds l i).iterations - 1) ∨ AtLimit rounds c.maxIterations.toNat (run c rounds l i) ∨
    ∃ r, settledRounds (run c rounds l j) = r + 1 ∧ Quiet rounds r := by
  unfold serveROAs at h
  rw [hw] at h
  cases hs : (run c rounds l i).stable
  · cases hp : (run c rounds l j).hasPrev
    · simp [hs, hp] at h
    · exact .inr (.inr ((inv_run c rounds l j).has.mp hp))
  · exact (C56_stable_sound c rounds l i hs).imp id .inl

theorem hasPrev_stable (c : Config) (rounds : Nat → Round L) (l : L) (n : Nat) (h : (run c rounds l n).hasPrev = true) :
    ∃ i ≤ n, (run c rounds l i).stable = true := by
  induction n with
  | zero => simp [run, start] at h
  | succ n ih =>
    by_cases hp : (run c rounds l n).pc = .stored
    · have : (run c rounds l (n + 1)).hasPrev = (run c rounds l n).stable := by simp [run, step, hp]
      rw [this] at h
      exact ⟨n, by omega, h⟩
    · have : (run c rounds l (n + 1)).hasPrev = (run c rounds l n).hasPrev := by
        simp only [run]
        generalize run c rounds l n = s at *
        cases hp' : s.pc <;> simp only [step, hp'] <;> try rfl
        · exact absurd hp' hp
        · cases s.stable <;> cases c.oneoff <;> simp
      rw [this] at h
      obtain ⟨i, hi, hs⟩ := ih h
      exact ⟨i, by omega, hs⟩

/-- **C59.** With waiting enabled, before the loop has first said that it is stable every request gets 503, and the
    health endpoint too. -/
theorem C59_unavailable_before_first_stable (c : Config) (rounds : Nat → Round L) (l : L) (i j k : Nat)
    (hw : c.waitStable = true) (hij : i ≤ j) (hn : ∀ m ≤ j, (run c rounds l m).stable = false) :
    serveROAs c rounds l i j k = none ∧ serveHealth c rounds l i j = false := by
  have h1 := hn i hij
  have h2 : (run c rounds l j).hasPrev = false := by
    by_contra h
    rw [Bool.not_eq_false] at h
    obtain ⟨m, hm, hs⟩ := hasPrev_stable c rounds l j h
    rw [hn m hm] at hs
    exact absurd hs (by simp)
  simp [serveROAs, serveHealth, h1, h2, hw]

/-- **C59.** While the loop waits for the next refresh, requests are served, and get the list of the last round. -/
theorem C59_served_while_waiting (c : Config) (rounds : Nat → Round L) (l : L) (n : Nat)
    (h : (run c rounds l n).pc = .waiting) :
    serveROAs c rounds l n n n = some (rounds ((run c rounds l n).iterations - 1)).list := by
  have hi := inv_run c rounds l n
  have hst := hi.st
  have hb := hi.began (by simp [h])
  simp only [h] at hst
  have hl := hi.list1 ((run c rounds l n).iterations - 1) (by simp only [validatedRounds, h]; omega)
  simp [serveROAs, hst.1, hl]

/-- **C59** (partial: only as long as nothing new is found, see `C59_violated_unavailable_again`). If from round `r` on no
    round finds anything new, every request is served once round `r` has set its flags. -/
theorem C59_still_served_partial (c : Config) (rounds : Nat → Round L) (l : L) (r i j k : Nat)
    (hq : ∀ m, r ≤ m → Quiet rounds m) (hj : r + 1 ≤ settledRounds (run c rounds l j)) :
    serveROAs c rounds l i j k = some (run c rounds l k).list := by
  have : (run c rounds l j).hasPrev = true := by
    rw [(inv_run c rounds l j).has]
    exact ⟨settledRounds (run c rounds l j) - 1, by omega, hq _ (by omega)⟩
  simp [serveROAs, this]

/-- **C59.** Without waiting, requests are always served. -/
theorem C59_no_wait_always_served (c : Config) (rounds : Nat → Round L) (l : L) (i j k : Nat)
    (hw : c.waitStable = false) : serveROAs c rounds l i j k = some (run c rounds l k).list := by
  simp [serveROAs, hw]

/-- **C59.** With waiting on, the health check answers 200 exactly when a request for the list that reads the flags at
    the same moments is served: a balancer that asks for health sends no client to a server that refuses the list. -/
theorem C59_health_iff_served (c : Config) (rounds : Nat → Round L) (l : L) (i j k : Nat) (hw : c.waitStable = true) :
    serveHealth c rounds l i j = true ↔ ∃ x, serveROAs c rounds l i j k = some x := by
  unfold serveHealth serveROAs
  rw [hw]
  cases (run c rounds l i).stable <;> cases (run c rounds l j).hasPrev <;> simp

/-- **C59.** The health check answers 200 while the loop waits for the next refresh. -/
theorem C59_healthy_while_waiting (c : Config) (rounds : Nat → Round L) (l : L) (n : Nat)
    (h : (run c rounds l n).pc = .waiting) : serveHealth c rounds l n n = true := by
  have hst := (inv_run c rounds l n).st
  simp only [h] at hst
  simp [serveHealth, hst]

namespace LoopEx

/-- The default settings of the server. -/
def server : Config := ⟨false, true, 32⟩

/-- Rounds 0 and 1 find one repository, round 2 another one, and so do all rounds after it. -/
def grows (k : Nat) : Round Nat := ⟨if k < 2 then [[1]] else [[1], [2]], k + 1⟩

theorem grows_quiet_1 : Quiet grows 1 := by
  refine ⟨by omega, fun r hr => ⟨0, by omega, ?_⟩⟩
  simpa [grows] using hr

theorem grows_not_quiet_2 : ¬ Quiet grows 2 := by
  rintro ⟨-, h⟩
  obtain ⟨j, hj, hm⟩ := h [2] (by simp [grows])
  have : j = 0 ∨ j = 1 := by omega
  rcases this with rfl | rfl <;> simp [grows] at hm

end LoopEx

/-- **C59, the statement does not hold.** A list computed by a round that found a new repository is served, while the
    limit is far away: the list is replaced before the reduction, when the flag of the round before is
    still set. -/
theorem C59_violated_unstable_list :
    ∃ (rounds : Nat → Round Nat) (n r : Nat), serveROAs LoopEx.server rounds 0 n n n = some (rounds r).list ∧
      (∀ r', (rounds r').list = (rounds r).list → r' = r) ∧
      ¬ Quiet rounds r ∧ (run LoopEx.server rounds 0 n).iterations < 32 := by
  refine ⟨LoopEx.grows, 17, 2, by decide +kernel, ?_, LoopEx.grows_not_quiet_2, by decide +kernel⟩
  intro r' h
  have : r' + 1 = 2 + 1 := h
  omega

/-- **C59, the statement does not hold.** After a stable state has been published, a later round that finds a new
    repository makes the endpoint answer 503 again. -/
theorem C59_violated_unavailable_again :
    ∃ (rounds : Nat → Round Nat) (n m : Nat), n < m ∧ (run LoopEx.server rounds 0 n).pc = .waiting ∧
      Quiet rounds ((run LoopEx.server rounds 0 n).iterations - 1) ∧
      serveROAs LoopEx.server rounds 0 n n n ≠ none ∧ serveROAs LoopEx.server rounds 0 m m m = none := by
  refine ⟨LoopEx.grows, 14, 20, by omega, by decide +kernel, ?_, by decide +kernel, by decide +kernel⟩
  have : (run LoopEx.server LoopEx.grows 0 14).iterations - 1 = 1 := by decide +kernel
  rw [this]
  exact LoopEx.grows_quiet_1

/-! ## The hypotheses are met -/

/-- Stable after the second round, by a quiet round, not by the limit. -/
example : (run LoopEx.server LoopEx.grows 0 14).stable = true ∧ (run LoopEx.server LoopEx.grows 0 10).pc = .stored ∧
    (run LoopEx.server LoopEx.grows 0 14).iterations = 2 ∧ (run LoopEx.server LoopEx.grows 0 14).pc = .waiting := by
  decide +kernel

/-- Stable by the limit: two rounds allowed, the third one ends the search. -/
example : (run ⟨false, true, 2⟩ LoopEx.fresh 0 20).stable = true ∧ (run ⟨false, true, 2⟩ LoopEx.fresh 0 20).iterations = 3 ∧
    AtLimit LoopEx.fresh 2 (run ⟨false, true, 2⟩ LoopEx.fresh 0 20) := by
  refine ⟨by decide +kernel, by decide +kernel, ?_, fun j _ _ => LoopEx.fresh_not_quiet j⟩
  decide +kernel

/-- A one-off run that ends stable and has written. -/
example : (run ⟨true, true, 32⟩ LoopEx.grows 0 14).pc = .done ∧ (run ⟨true, true, 32⟩ LoopEx.grows 0 14).outputs = [2] ∧
    (run ⟨true, false, 32⟩ LoopEx.grows 0 14).outputs = [1, 2] := by decide +kernel

/-- Requests before the first stable state, and a segment without a wait of two rounds. -/
example : (∀ m ≤ 9, (run LoopEx.server LoopEx.grows 0 m).stable = false) ∧
    (∀ i ≤ 13, (run LoopEx.server LoopEx.grows 0 i).pc ≠ .waiting) ∧
    (run LoopEx.server LoopEx.grows 0 13).iterations = 2 := by decide +kernel

/-- From round 3 on `grows` finds nothing new, and those rounds are reached. -/
example : (∀ m, 3 ≤ m → Quiet LoopEx.grows m) ∧ 4 ≤ settledRounds (run LoopEx.server LoopEx.grows 0 30) := by
  refine ⟨fun m hm => ⟨by omega, fun r hr => ⟨2, by omega, ?_⟩⟩, by decide +kernel⟩
  have h1 : ¬ m < 2 := by omega
  simpa [LoopEx.grows, h1] using hr

end Verif.Props
