import Verif.Lemmas.ConcOwn
/-
  C103: which fields of octorpki are free of data races, and which are not.
  C104: that nobody can hold up the validation, or the answers to others, by being slow; and who can.
-/
set_option autoImplicit false

namespace Verif.Props
open Conc ConcSpec

private theorem inv_of_reached {rs : List Round} {reqs : List Request} {c : Cfg} (h : Reached rs reqs c) (info q : Bool) (hi : .info ∈ reqs → info = true)
    (hq : .resources true ∈ reqs → q = false) : ∃ held, LockInv (guardOf info) q held c := by
  obtain ⟨sched, h⟩ := h
  exact LockInv.run sched (LockInv.start (obeys_program rs reqs hi hq)) h

/-- C103: for every number of rounds and requests, every outcome of the downloads and every schedule, there is no data race on a field that is not
    exposed to one of the requests: the maps of the fetchers, the resources and authorities that are served, what only the loop uses; and, if nobody asks for the info
    page, the list of VRPs that is served. Missing: the exposed fields, see below. -/
theorem C103_no_race_partial (rs : List Round) (reqs : List Request) (c : Cfg) (h : Reached rs reqs c) (x : Var) (hx : ¬ Exposed reqs x) : ¬ Race c.trace x := by
  by_cases hinfo : Request.info ∈ reqs
  case' pos => obtain ⟨held, L⟩ := inv_of_reached h true false (fun _ => rfl) (fun _ => rfl)
  case' neg => obtain ⟨held, L⟩ := inv_of_reached h false false (fun e => (hinfo e).elim) (fun _ => rfl)
  all_goals
    obtain ⟨lo, seen, Pb⟩ : ∃ lo seen, PubInv lo seen c := by
      obtain ⟨sched, h⟩ := h
      exact PubInv.run sched (PubInv.start (owns_program rs reqs)) h
    have own : ∀ y, LoopVar y → (∀ r ∈ reqs, Avoids y (handler r)) → ¬ Race c.trace y := by
      intro y hy hr
      obtain ⟨sched, h⟩ := h
      exact (OwnInv.run sched (OwnInv.start (keeps_program hy rs reqs hr)) h).no_race
    have away : ∀ y, (y = .talsFetch ∨ y = .currentRepos ∨ y = .prevRepos) → ∀ r ∈ reqs, Avoids y (handler r) := by
      rintro y hy r -
      rcases hy with rfl | rfl | rfl <;> (match r with
        | .roas false _ => simp [handler, acts, Avoids]
        | .roas true true => simp [handler, acts, Avoids, rlocked]
        | .roas true false => simp [handler, acts, Avoids, rlocked]
        | .resources false => simp [handler, acts, Avoids]
        | .resources true => simp [handler, acts, Avoids]
        | .info => simp [handler, acts, Avoids, rlocked]
        | .health => simp [handler, acts, Avoids])
    have away2 : .info ∉ reqs → ∀ y, (y = .duration ∨ y = .talsCount) → ∀ r ∈ reqs, Avoids y (handler r) := by
      rintro hn y hy r hr
      rcases hy with rfl | rfl <;> (match r with
        | .roas false _ => simp [handler, acts, Avoids]
        | .roas true true => simp [handler, acts, Avoids, rlocked]
        | .roas true false => simp [handler, acts, Avoids, rlocked]
        | .resources false => simp [handler, acts, Avoids]
        | .resources true => simp [handler, acts, Avoids]
        | .info => exact (hn hr).elim
        | .health => simp [handler, acts, Avoids])
    have away3 : .info ∉ reqs → (∀ m, .roas true m ∉ reqs) → ∀ r ∈ reqs, Avoids .lastComputed (handler r) := by
      rintro hn hm r hr
      match r with
      | .roas false _ => simp [handler, acts, Avoids]
      | .roas true m => exact (hm m hr).elim
      | .resources false => simp [handler, acts, Avoids]
      | .resources true => simp [handler, acts, Avoids]
      | .info => exact (hn hr).elim
      | .health => simp [handler, acts, Avoids]
    match x with
    | .ptr .resources => exact L.no_race (m := .ptrMu .resources) rfl
    | .ptr .authorities => exact L.no_race (m := .ptrMu .authorities) rfl
    | .body .resources n => exact body_no_race L Pb (m := .ptrMu .resources) rfl n
    | .body .authorities n => exact body_no_race L Pb (m := .ptrMu .authorities) rfl n
    | .rrdpFetch => exact L.no_race (m := .fetchMu) rfl
    | .rrdpDomain => exact L.no_race (m := .domainMu) rfl
    | .rsyncJobs => exact L.no_race (m := .jobsMu) rfl
    | .rrdpInfo => exact L.no_race (m := .infoMu) rfl
    | .talsFetch => exact own _ trivial (away _ (by simp))
    | .currentRepos => exact own _ trivial (away _ (by simp))
    | .prevRepos => exact own _ trivial (away _ (by simp))
    | .duration => exact own _ trivial (away2 hx _ (by simp))
    | .talsCount => exact own _ trivial (away2 hx _ (by simp))
    | .lastComputed => exact own _ trivial (away3 (fun e => hx (.inl e)) fun m e => hx (.inr ⟨m, e⟩))
    | .ptr .list => first | exact (hx hinfo).elim | exact L.no_race (m := .ptrMu .list) rfl
    | .body .list n => first | exact (hx hinfo).elim | exact body_no_race L Pb (m := .ptrMu .list) rfl n

/-! ### The races -/

/-- A round with nothing to fetch. -/
def quietRound : Round := ⟨false, false, false, [], [], [], [], false⟩

/-- A request for the info page that comes before the end of the first round, goes on after it and is answered while the second round runs. -/
private def infoRun : List Nat := [0, 1, 2, 2, 2, 2] ++ List.replicate 39 0 ++ [2, 2, 2, 2, 2, 2] ++ List.replicate 27 0

private def infoTrace : List Ev := [
  ⟨0, .fork 1 false⟩, ⟨1, .fork 2 false⟩, ⟨2, .act (.rlock (.ptrMu .authorities))⟩, ⟨2, .read (.ptr .authorities) 0⟩,
  ⟨2, .act (.runlock (.ptrMu .authorities))⟩, ⟨2, .read (.body .authorities 0) 0⟩, ⟨0, .act (.store .iterations)⟩, ⟨0, .act (.load .iterations)⟩,
  ⟨0, .read .talsFetch 0⟩, ⟨0, .act (.write .talsFetch 0)⟩, ⟨0, .act (.rlock .jobsMu)⟩, ⟨0, .read .rsyncJobs 0⟩, ⟨0, .act (.runlock .jobsMu)⟩,
  ⟨0, .act .wait⟩, ⟨0, .act (.write (.body .authorities 1) 0)⟩, ⟨0, .act (.lock (.ptrMu .authorities))⟩, ⟨0, .act (.write (.ptr .authorities) 1)⟩,
  ⟨0, .act (.unlock (.ptrMu .authorities))⟩, ⟨0, .act (.write .talsCount 0)⟩, ⟨0, .act (.write (.body .resources 1) 0)⟩,
  ⟨0, .act (.write (.body .list 1) 0)⟩, ⟨0, .act (.write .lastComputed 0)⟩, ⟨0, .act (.write (.body .list 1) 0)⟩,
  ⟨0, .act (.lock (.ptrMu .resources))⟩, ⟨0, .act (.write (.ptr .resources) 1)⟩, ⟨0, .act (.unlock (.ptrMu .resources))⟩,
  ⟨0, .act (.lock (.ptrMu .list))⟩, ⟨0, .act (.write (.ptr .list) 1)⟩, ⟨0, .act (.unlock (.ptrMu .list))⟩, ⟨0, .act (.write .duration 0)⟩,
  ⟨0, .read .duration 0⟩, ⟨0, .read .lastComputed 0⟩, ⟨0, .read .currentRepos 0⟩, ⟨0, .read .prevRepos 0⟩, ⟨0, .act (.write .prevRepos 0)⟩,
  ⟨0, .read .prevRepos 0⟩, ⟨0, .act (.load .iterations)⟩, ⟨0, .act (.store .stable)⟩, ⟨0, .act (.load .stable)⟩, ⟨0, .act (.store .previous)⟩,
  ⟨0, .act (.load .stable)⟩, ⟨0, .act (.load .stable)⟩, ⟨2, .read (.ptr .list) 1⟩, ⟨2, .read (.body .list 1) 0⟩, ⟨2, .read .talsCount 0⟩,
  ⟨2, .act (.load .stable)⟩, ⟨2, .read .lastComputed 0⟩, ⟨2, .read .duration 0⟩, ⟨0, .act (.store .iterations)⟩, ⟨0, .act (.load .iterations)⟩,
  ⟨0, .read .talsFetch 0⟩, ⟨0, .act (.write .talsFetch 0)⟩, ⟨0, .act (.rlock .jobsMu)⟩, ⟨0, .read .rsyncJobs 0⟩, ⟨0, .act (.runlock .jobsMu)⟩,
  ⟨0, .act .wait⟩, ⟨0, .act (.write (.body .authorities 2) 0)⟩, ⟨0, .act (.lock (.ptrMu .authorities))⟩, ⟨0, .act (.write (.ptr .authorities) 2)⟩,
  ⟨0, .act (.unlock (.ptrMu .authorities))⟩, ⟨0, .act (.write .talsCount 0)⟩, ⟨0, .act (.write (.body .resources 2) 0)⟩,
  ⟨0, .act (.write (.body .list 2) 0)⟩, ⟨0, .act (.write .lastComputed 0)⟩, ⟨0, .act (.write (.body .list 2) 0)⟩,
  ⟨0, .act (.lock (.ptrMu .resources))⟩, ⟨0, .act (.write (.ptr .resources) 2)⟩, ⟨0, .act (.unlock (.ptrMu .resources))⟩,
  ⟨0, .act (.lock (.ptrMu .list))⟩, ⟨0, .act (.write (.ptr .list) 2)⟩, ⟨0, .act (.unlock (.ptrMu .list))⟩, ⟨0, .act (.write .duration 0)⟩]

private theorem infoTrace_run : ((Cfg.start [quietRound, quietRound] [.info]).run infoRun).map (·.trace) = some infoTrace := by decide +kernel

private def roasRun : List Nat := [0, 1] ++ List.replicate 39 0 ++ [2, 2, 2] ++ List.replicate 17 0

private def roasTrace : List Ev := [
  ⟨0, .fork 1 false⟩, ⟨1, .fork 2 false⟩, ⟨0, .act (.store .iterations)⟩, ⟨0, .act (.load .iterations)⟩, ⟨0, .read .talsFetch 0⟩,
  ⟨0, .act (.write .talsFetch 0)⟩, ⟨0, .act (.rlock .jobsMu)⟩, ⟨0, .read .rsyncJobs 0⟩, ⟨0, .act (.runlock .jobsMu)⟩, ⟨0, .act .wait⟩,
  ⟨0, .act (.write (.body .authorities 1) 0)⟩, ⟨0, .act (.lock (.ptrMu .authorities))⟩, ⟨0, .act (.write (.ptr .authorities) 1)⟩,
  ⟨0, .act (.unlock (.ptrMu .authorities))⟩, ⟨0, .act (.write .talsCount 0)⟩, ⟨0, .act (.write (.body .resources 1) 0)⟩,
  ⟨0, .act (.write (.body .list 1) 0)⟩, ⟨0, .act (.write .lastComputed 0)⟩, ⟨0, .act (.write (.body .list 1) 0)⟩,
  ⟨0, .act (.lock (.ptrMu .resources))⟩, ⟨0, .act (.write (.ptr .resources) 1)⟩, ⟨0, .act (.unlock (.ptrMu .resources))⟩,
  ⟨0, .act (.lock (.ptrMu .list))⟩, ⟨0, .act (.write (.ptr .list) 1)⟩, ⟨0, .act (.unlock (.ptrMu .list))⟩, ⟨0, .act (.write .duration 0)⟩,
  ⟨0, .read .duration 0⟩, ⟨0, .read .lastComputed 0⟩, ⟨0, .read .currentRepos 0⟩, ⟨0, .read .prevRepos 0⟩, ⟨0, .act (.write .prevRepos 0)⟩,
  ⟨0, .read .prevRepos 0⟩, ⟨0, .act (.load .iterations)⟩, ⟨0, .act (.store .stable)⟩, ⟨0, .act (.load .stable)⟩, ⟨0, .act (.store .previous)⟩,
  ⟨0, .act (.load .stable)⟩, ⟨0, .act (.load .stable)⟩, ⟨2, .act (.load .stable)⟩, ⟨2, .act (.load .previous)⟩, ⟨2, .read .lastComputed 0⟩,
  ⟨0, .act (.store .iterations)⟩, ⟨0, .act (.load .iterations)⟩, ⟨0, .read .talsFetch 0⟩, ⟨0, .act (.write .talsFetch 0)⟩, ⟨0, .act (.rlock .jobsMu)⟩,
  ⟨0, .read .rsyncJobs 0⟩, ⟨0, .act (.runlock .jobsMu)⟩, ⟨0, .act .wait⟩, ⟨0, .act (.write (.body .authorities 2) 0)⟩,
  ⟨0, .act (.lock (.ptrMu .authorities))⟩, ⟨0, .act (.write (.ptr .authorities) 2)⟩, ⟨0, .act (.unlock (.ptrMu .authorities))⟩,
  ⟨0, .act (.write .talsCount 0)⟩, ⟨0, .act (.write (.body .resources 2) 0)⟩, ⟨0, .act (.write (.body .list 2) 0)⟩, ⟨0, .act (.write .lastComputed 0)⟩]

private theorem roasTrace_run : ((Cfg.start [quietRound, quietRound] [.roas true true]).run roasRun).map (·.trace) = some roasTrace := by decide +kernel

/-- C103 fails for the info page: it reads the pointer to the list of VRPs, the list, the counts, the duration and the time of the last validation without a lock, while the
    loop writes them. -/
theorem C103_violated_info : ∃ c, Reached [quietRound, quietRound] [.info] c ∧ Race c.trace (.ptr .list) ∧ Race c.trace (.body .list 1) ∧ Race c.trace .talsCount ∧
    Race c.trace .lastComputed ∧ Race c.trace .duration := by
  have h := infoTrace_run
  cases hr : (Cfg.start [quietRound, quietRound] [.info]).run infoRun with
  | none => rw [hr] at h; cases h
  | some c =>
    rw [hr] at h
    have h : c.trace = infoTrace := by simpa using h
    refine ⟨c, ⟨infoRun, hr⟩, ?_⟩
    rw [h]
    refine ⟨race_of (i := 27) (j := 42) (A := fun k => (27 ≤ k && k < 42) || 45 ≤ k) (by decide +kernel),
      race_of (i := 22) (j := 43) (A := fun k => (22 ≤ k && k < 42) || 45 ≤ k) (by decide +kernel),
      race_of (i := 18) (j := 44) (A := fun k => (18 ≤ k && k < 42) || 45 ≤ k) (by decide +kernel),
      race_of (i := 46) (j := 63) (A := fun k => 46 ≤ k && k < 48) (by decide +kernel),
      race_of (i := 47) (j := 71) (A := fun k => 47 ≤ k && k < 48) (by decide +kernel)⟩

/-- C103 fails for the list of VRPs: with each request the time of the last validation is read without a lock, while the loop writes it. -/
theorem C103_violated_roas : ∃ c, Reached [quietRound, quietRound] [.roas true true] c ∧ Race c.trace .lastComputed := by
  have h := roasTrace_run
  cases hr : (Cfg.start [quietRound, quietRound] [.roas true true]).run roasRun with
  | none => rw [hr] at h; cases h
  | some c =>
    rw [hr] at h
    have h : c.trace = roasTrace := by simpa using h
    refine ⟨c, ⟨roasRun, hr⟩, ?_⟩
    rw [h]
    exact race_of (i := 40) (j := 56) (A := fun k => k == 40) (by decide +kernel)

/-- The hypotheses of C103_no_race_partial hold of a run in which a request and the loop use the pointer to the list of VRPs. -/
example : ∃ c, Reached [quietRound] [.roas true true] c ∧ ¬ Exposed [.roas true true] (.ptr .list) ∧
    (∃ (i : Nat) (e : Ev), c.trace[i]? = some e ∧ e.tid = 0 ∧ Writes e (.ptr .list)) ∧
    ∃ (i : Nat) (e : Ev), c.trace[i]? = some e ∧ e.tid = 2 ∧ Touches e (.ptr .list) := by
  have h : ((Cfg.start [quietRound] [.roas true true]).run ([0, 1] ++ List.replicate 39 0 ++ [2, 2, 2, 2, 2])).map (fun c => (c.trace[23]?, c.trace[42]?)) =
      some (some ⟨0, .act (.write (.ptr .list) 1)⟩, some ⟨2, .read (.ptr .list) 1⟩) := by decide +kernel
  cases hr : (Cfg.start [quietRound] [.roas true true]).run ([0, 1] ++ List.replicate 39 0 ++ [2, 2, 2, 2, 2]) with
  | none => rw [hr] at h; cases h
  | some c =>
    rw [hr] at h
    obtain ⟨h1, h2⟩ : c.trace[23]? = _ ∧ c.trace[42]? = _ := by simpa using h
    exact ⟨c, ⟨_, hr⟩, by simp [Exposed], ⟨23, _, h1, rfl, 1, rfl⟩, 42, _, h2, rfl, .inl ⟨1, rfl⟩⟩

/-! ### C104 -/

/-- C104: as long as nobody asks for the page of resources when it is ready, no client can hold up the validation: whatever the run so far, the loop can come to the end of its rounds without
    any client taking anything of what is sent to it (given that downloads and commands return). Missing: requests for resources, see below. -/
theorem C104_loop_ends_partial (rs : List Round) (reqs : List Request) (hr : .resources true ∉ reqs) (c : Cfg) (h : Reached rs reqs c) :
    ∃ c', Only NoClient c c' ∧ Ended c' 0 := by
  obtain ⟨held, L⟩ := inv_of_reached h true true (fun _ => rfl) (fun e => (hr e).elim)
  obtain ⟨sched, h⟩ := h
  obtain ⟨code, h0, hn⟩ := MainOk.run sched ⟨program rs reqs, rfl, noAnswer_rounds rs 1⟩ h
  exact main_ends (P := NoClient) (fun _ h => h) false rfl code L hn h0

/-- C104: under the same condition every request that has come in can be answered at once: without waiting for the network, the disk, the computing of the validation, the workers or another client.
    Missing: requests for resources. -/
theorem C104_request_ends_partial (rs : List Round) (reqs : List Request) (hr : .resources true ∉ reqs) (c : Cfg) (h : Reached rs reqs c) (t : Nat) (ht : 2 ≤ t)
    (code : Code) (hc : c.threads[t]? = some ⟨false, code⟩) : ∃ c', Only (Quick t) c c' ∧ Ended c' t := by
  obtain ⟨held, L⟩ := inv_of_reached h true true (fun _ => rfl) (fun e => (hr e).elim)
  obtain ⟨sched, h⟩ := h
  have R := RolesOk.run sched (LockInv.start (g := guardOf true) (q := true) (obeys_program rs reqs (fun _ => rfl) (fun e => (hr e).elim))) (.inl ⟨rs, reqs, rfl⟩) h
  refine request_ends false t code L ?_ hc
  match t, ht with
  | t + 2, _ =>
    rcases R with ⟨rs', reqs', e⟩ | ⟨_, _, rest, e, _, hrest⟩
    · rw [e] at hc; simp at hc
    · rw [e] at hc
      rcases hrest _ (List.mem_of_getElem? (i := t) (by simpa using hc)) with h1 | h1
      · exact (Bool.noConfusion h1.1)
      · exact h1.2

/-- The hypotheses hold of a state where the loop has to wait for a lock that a request holds. -/
example : ∃ c, Reached [quietRound, quietRound] [.roas true true] c ∧ .resources true ∉ [Request.roas true true] ∧ c.step 0 = none ∧ ¬ Ended c 0 ∧ ∃ code, c.threads[2]? = some ⟨false, code⟩ := by
  have h : ((Cfg.start [quietRound, quietRound] [.roas true true]).run ([0, 1] ++ List.replicate 39 0 ++ [2, 2, 2, 2] ++ List.replicate 23 0)).map
      (fun c => ((c.step 0).isNone, (c.threads[0]?.map (·.code.isDone)), c.threads[2]?.map (·.worker))) = some (true, some false, some false) := by decide +kernel
  cases hr : (Cfg.start [quietRound, quietRound] [.roas true true]).run ([0, 1] ++ List.replicate 39 0 ++ [2, 2, 2, 2] ++ List.replicate 23 0) with
  | none => rw [hr] at h; cases h
  | some c =>
    rw [hr] at h
    obtain ⟨h1, h2, h3⟩ : (c.step 0).isNone = true ∧ (c.threads[0]?.map (·.code.isDone)) = some false ∧ c.threads[2]?.map (·.worker) = some false := by
      simpa only [Option.map_some, Option.some.injEq, Prod.mk.injEq] using h
    refine ⟨c, ⟨_, hr⟩, by simp, by simpa using h1, ?_, ?_⟩
    · rintro ⟨w, e⟩
      rw [e] at h2
      simp [Code.isDone] at h2
    · cases h4 : c.threads[2]? with
      | none => rw [h4] at h3; cases h3
      | some th => rw [h4] at h3; exact ⟨th.code, by cases th; simp at h3; simp [h3]⟩

/-- The loop waits to take the lock of the resources, which goroutine 2 holds while it writes to its client; goroutine 3 wants to read under that lock. -/
private def StuckB (c : Cfg) : Bool :=
  match c.threads[0]?, c.threads[2]?, c.threads[3]? with
  | some (Thread.mk _ (.act (.lock (.ptrMu .resources)) _)), some (Thread.mk _ (.act .client _)), some (Thread.mk _ (.act (.rlock (.ptrMu .resources)) _)) =>
    decide (2 ∈ c.readers (.ptrMu .resources) ∧ c.pending (.ptrMu .resources) = some 0)
  | _, _, _ => false

private theorem stuckB_iff {c : Cfg} : StuckB c = true ↔ ∃ w k w' k' w3 k3, c.threads[0]? = some ⟨w, .act (.lock (.ptrMu .resources)) k⟩ ∧
    c.threads[2]? = some ⟨w', .act .client k'⟩ ∧ c.threads[3]? = some ⟨w3, .act (.rlock (.ptrMu .resources)) k3⟩ ∧
    2 ∈ c.readers (.ptrMu .resources) ∧ c.pending (.ptrMu .resources) = some 0 := by
  constructor
  · intro h
    unfold StuckB at h
    split at h
    · rename_i w k w' k' w3 k3 h1 h2 h3
      exact ⟨w, k, w', k', w3, k3, h1, h2, h3, by simpa using h⟩
    · cases h
  · rintro ⟨w, k, w', k', w3, k3, h1, h2, h3, h4⟩
    simp [StuckB, h1, h2, h3, h4]

private theorem stuck_step {c c' : Cfg} {t : Nat} (I : StuckB c = true) (h : c.step t = some c') :
    (t = 2 ∧ c'.trace = c.trace ++ [⟨2, .act .client⟩]) ∨
    (StuckB c' = true ∧ t ≠ 0 ∧ t ≠ 3 ∧ ((∃ op, c'.trace = c.trace ++ [⟨t, op⟩]) ∨ c'.trace = c.trace)) := by
  obtain ⟨w, k, w', k', w3, k3, h0, h2, h3, hm, hp⟩ := stuckB_iff.mp I
  obtain ⟨th, ht, hv⟩ := step_view h
  by_cases t0 : t = 0
  · subst t0
    rw [h0] at ht
    obtain rfl : _ = th := by simpa using ht
    exfalso
    rcases hv with ⟨a, k, hc, hal, rfl⟩ | ⟨y, k, hc, rfl⟩ | ⟨w, d, k, hc, rfl⟩ | ⟨m, k, hc, _, hn, rfl⟩
    · simp only [Code.act.injEq] at hc
      rw [← hc.1] at hal
      simp only [Cfg.allows, Bool.and_eq_true, List.isEmpty_iff] at hal
      rw [hal.2] at hm; cases hm
    · cases hc
    · cases hc
    · simp only [Code.act.injEq, Act.lock.injEq] at hc
      rw [← hc.1, hp] at hn; cases hn
  by_cases t3 : t = 3
  · subst t3
    rw [h3] at ht
    obtain rfl : _ = th := by simpa using ht
    exfalso
    rcases hv with ⟨a, k, hc, hal, rfl⟩ | ⟨y, k, hc, rfl⟩ | ⟨w, d, k, hc, rfl⟩ | ⟨m, k, hc, _, hn, rfl⟩
    · simp only [Code.act.injEq] at hc
      rw [← hc.1] at hal
      simp [Cfg.allows, hp] at hal
    · cases hc
    · cases hc
    · simp at hc
  by_cases t2 : t = 2
  · subst t2
    rw [h2] at ht
    obtain rfl : _ = th := by simpa using ht
    rcases hv with ⟨a, k, hc, hal, rfl⟩ | ⟨y, k, hc, rfl⟩ | ⟨w, d, k, hc, rfl⟩ | ⟨m, k, hc, _, hn, rfl⟩
    · simp only [Code.act.injEq] at hc
      obtain ⟨rfl, rfl⟩ := hc
      exact .inl ⟨rfl, rfl⟩
    · cases hc
    · cases hc
    · simp at hc
  right
  have k0 : ∀ th', (c.threads.set t th')[0]? = some ⟨w, .act (.lock (.ptrMu .resources)) k⟩ := fun th' => by rw [set_other _ (Ne.symm t0)]; exact h0
  have k2 : ∀ th', (c.threads.set t th')[2]? = some ⟨w', .act .client k'⟩ := fun th' => by rw [set_other _ (Ne.symm t2)]; exact h2
  have k4 : ∀ th', (c.threads.set t th')[3]? = some ⟨w3, .act (.rlock (.ptrMu .resources)) k3⟩ := fun th' => by rw [set_other _ (Ne.symm t3)]; exact h3
  rcases hv with ⟨a, ka, hc, hal, rfl⟩ | ⟨y, ka, hc, rfl⟩ | ⟨w1, d, ka, hc, rfl⟩ | ⟨m, ka, hc, _, hn, rfl⟩
  · refine ⟨stuckB_iff.mpr ⟨w, k, w', k', w3, k3, k0 _, k2 _, k4 _, ?_, ?_⟩, t0, t3, .inl ⟨_, rfl⟩⟩
    · cases a with
      | rlock m =>
        by_cases e : Mu.ptrMu .resources = m
        · subst e; simp [Cfg.effect, upd, hm]
        · simpa [Cfg.effect, upd, e] using hm
      | runlock m =>
        by_cases e : Mu.ptrMu .resources = m
        · subst e
          simp only [Cfg.effect, upd, if_true]
          exact (List.mem_erase_of_ne (Ne.symm t2)).mpr hm
        · simpa [Cfg.effect, upd, e] using hm
      | _ => exact hm
    · cases a with
      | lock m =>
        by_cases e : Mu.ptrMu .resources = m
        · subst e
          simp only [Cfg.allows, Bool.and_eq_true, List.isEmpty_iff] at hal
          rw [hal.2] at hm; cases hm
        · simpa [Cfg.effect, upd, e] using hp
      | _ => exact hp
  · exact ⟨stuckB_iff.mpr ⟨w, k, w', k', w3, k3, k0 _, k2 _, k4 _, hm, hp⟩, t0, t3, .inl ⟨_, rfl⟩⟩
  · exact ⟨stuckB_iff.mpr ⟨w, k, w', k', w3, k3, snoc_get.mpr (.inl (k0 _)), snoc_get.mpr (.inl (k2 _)), snoc_get.mpr (.inl (k4 _)), hm, hp⟩, t0, t3, .inl ⟨_, rfl⟩⟩
  · refine ⟨stuckB_iff.mpr ⟨w, k, w', k', w3, k3, h0, h2, h3, hm, ?_⟩, t0, t3, .inr rfl⟩
    by_cases e : Mu.ptrMu .resources = m
    · subst e; rw [hp] at hn; cases hn
    · simpa [upd, e] using hp

private theorem stuck_run : ∀ (sched : List Nat) {c c' : Cfg} {new : List Ev}, StuckB c = true → c.run sched = some c' → c'.trace = c.trace ++ new →
    (∀ e ∈ new, e ≠ ⟨2, .act .client⟩) → StuckB c' = true ∧ ∀ e ∈ new, e.tid ≠ 0 ∧ e.tid ≠ 3
  | [], c, c', new, I, h, ht, hn => by
    simp only [Cfg.run, Option.some.injEq] at h
    subst h
    obtain rfl : new = [] := by simpa using ht
    exact ⟨I, by simp⟩
  | t :: ts, c, c', new, I, h, ht, hn => by
    unfold Cfg.run at h
    cases hs : c.step t with
    | none => rw [hs] at h; simp at h
    | some c1 =>
      rw [hs] at h
      obtain ⟨more, hmore⟩ := run_trace ts h
      rcases stuck_step I hs with ⟨_, h1⟩ | ⟨h1, h2, h3, ⟨op, h4⟩ | h4⟩
      · exfalso
        rw [h1, ht, List.append_assoc] at hmore
        have := List.append_cancel_left hmore
        exact hn ⟨2, .act .client⟩ (by rw [this]; simp) rfl
      · rw [h4, ht, List.append_assoc] at hmore
        have e : new = ⟨t, op⟩ :: more := by simpa using List.append_cancel_left hmore
        subst e
        obtain ⟨h5, h6⟩ := stuck_run ts (new := more) h1 h (by rw [h4, ht]; simp) (fun e he => hn e (by simp [he]))
        exact ⟨h5, fun e he => by
          rcases List.mem_cons.mp he with rfl | he
          · exact ⟨h2, h3⟩
          · exact h6 e he⟩
      · exact stuck_run ts h1 h (by rw [h4]; exact ht) hn

/-- C104 fails for the page of resources: the answer is written to the client under the lock that the loop needs. If the client of one request does not read its answer, the loop never makes a step again,
    and the request of another client for the same page is not answered either, whatever all others do. -/
theorem C104_violated_resources : ∃ c, Reached [quietRound, quietRound] [.resources true, .resources true] c ∧ ¬ Ended c 0 ∧ ¬ Ended c 3 ∧
    ∀ (sched : List Nat) (c' : Cfg) (new : List Ev), c.run sched = some c' → c'.trace = c.trace ++ new → (∀ e ∈ new, e ≠ ⟨2, .act .client⟩) →
      ¬ Ended c' 0 ∧ ¬ Ended c' 3 ∧ ∀ e ∈ new, e.tid ≠ 0 ∧ e.tid ≠ 3 := by
  have h : ((Cfg.start [quietRound, quietRound] [.resources true, .resources true]).run
      ([0, 1, 1] ++ List.replicate 39 0 ++ [2, 2, 2, 2, 2, 3, 3] ++ List.replicate 19 0)).map StuckB = some true := by
    decide +kernel
  cases hr : (Cfg.start [quietRound, quietRound] [.resources true, .resources true]).run
      ([0, 1, 1] ++ List.replicate 39 0 ++ [2, 2, 2, 2, 2, 3, 3] ++ List.replicate 19 0) with
  | none => rw [hr] at h; cases h
  | some c =>
    rw [hr] at h
    have h : StuckB c = true := by simpa using h
    have no : ∀ {c : Cfg}, StuckB c = true → ¬ Ended c 0 ∧ ¬ Ended c 3 := by
      intro c hs
      obtain ⟨_, _, _, _, _, _, h1, _, h3, _⟩ := stuckB_iff.mp hs
      constructor
      · rintro ⟨w, e⟩
        rw [e] at h1; simp at h1
      · rintro ⟨w, e⟩
        rw [e] at h3; simp at h3
    refine ⟨c, ⟨_, hr⟩, (no h).1, (no h).2, fun sched c' new h1 h2 h3 => ?_⟩
    obtain ⟨h4, h5⟩ := stuck_run sched h h1 h2 h3
    exact ⟨(no h4).1, (no h4).2, h5⟩

end Verif.Props
