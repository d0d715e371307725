import Verif.Spec.Fetch
import Verif.Lemmas.PkiBase
import Verif.Props.Revoke
import Mathlib.Data.List.Perm.Basic
import Mathlib.Data.List.Induction
/-
  Property theorems for the scheduling of fetches in octorpki: C61-C64.
-/
set_option autoImplicit false

namespace Verif.Props
open FetchSpec Fetch

/-! ## C61 — the pools run every job exactly once -/

section Pool
variable {J : Type}

/-- What is kept by every step: all jobs are accounted for, and the caller goes on only when it may. -/
structure PoolInv (workers : Nat) (jobs : List J) (p : Pool J) : Prop where
  perm : (p.ran ++ running p ++ toSend p).Perm jobs
  size : p.workers.length = workers
  open_ : ∀ js, p.caller = .sending js → ∀ w ∈ p.workers, w ≠ .exited
  over : p.caller = .returned → ∀ w ∈ p.workers, w = .exited

theorem running_set_busy {ws : List (Worker J)} {i : Nat} {c c' : Caller J} {ran ran' : List J} {j : J}
    (h : ws[i]? = some .idle) :
    (running ⟨c, ws.set i (.busy j), ran⟩).Perm (j :: running ⟨c', ws, ran'⟩) := by
  induction ws generalizing i with
  | nil => simp at h
  | cons w ws ih =>
    cases i with
    | zero =>
      have : w = .idle := by simpa using h
      subst this
      exact List.Perm.refl _
    | succ i =>
      have := ih (i := i) (by simpa using h)
      cases w <;> simp only [running, List.set_cons_succ, List.filterMap_cons] at this ⊢
      · exact this
      · next k => exact (List.Perm.cons k this).trans (List.Perm.swap _ _ _)
      · exact this

theorem running_set_idle {ws : List (Worker J)} {i : Nat} {c c' : Caller J} {ran ran' : List J} {j : J}
    (h : ws[i]? = some (.busy j)) :
    (j :: running ⟨c, ws.set i .idle, ran⟩).Perm (running ⟨c', ws, ran'⟩) := by
  induction ws generalizing i with
  | nil => simp at h
  | cons w ws ih =>
    cases i with
    | zero =>
      have : w = .busy j := by simpa using h
      subst this
      exact List.Perm.refl _
    | succ i =>
      have := ih (i := i) (by simpa using h)
      cases w <;> simp only [running, List.set_cons_succ, List.filterMap_cons] at this ⊢
      · exact this
      · next k => exact (List.Perm.swap _ _ _).trans (List.Perm.cons k this)
      · exact this

theorem running_set_exited {ws : List (Worker J)} {i : Nat} {c c' : Caller J} {ran ran' : List J}
    (h : ws[i]? = some .idle) : running ⟨c, ws.set i .exited, ran⟩ = running ⟨c', ws, ran'⟩ := by
  induction ws generalizing i with
  | nil => simp at h
  | cons w ws ih =>
    cases i with
    | zero =>
      have : w = .idle := by simpa using h
      subst this
      rfl
    | succ i =>
      have := ih (i := i) (by simpa using h)
      cases w <;> simp only [running, List.set_cons_succ, List.filterMap_cons] at this ⊢ <;> rw [this]

theorem poolInv_start (workers : Nat) (jobs : List J) : PoolInv workers jobs (Pool.start workers jobs) := by
  constructor
  · have : running (Pool.start workers jobs) = [] := by
      simp only [running, Pool.start]
      rw [List.filterMap_eq_nil_iff]
      intro w hw
      rw [(List.mem_replicate.mp hw).2]
    rw [this]
    exact List.Perm.refl _
  · simp [Pool.start]
  · intro js _ w hw
    rw [Pool.start] at hw
    rw [(List.mem_replicate.mp hw).2]
    simp
  · simp [Pool.start]

theorem poolInv_step {workers : Nat} {jobs : List J} {p q : Pool J} (h : PoolInv workers jobs p) (hs : Step p q) :
    PoolInv workers jobs q := by
  obtain ⟨h1, h2, h3, h4⟩ := h
  cases hs with
  | send j js ws ran i hi =>
    refine ⟨?_, by simpa using h2, ?_, by simp⟩
    · refine List.Perm.trans ?_ h1
      simp only [toSend, List.append_assoc]
      refine List.Perm.append_left ran ?_
      refine ((running_set_busy (c := .sending js) (c' := .sending (j :: js)) (ran := ran) (ran' := ran) (j := j) hi).append_right js).trans ?_
      exact List.perm_middle.symm
    · intro _ _ w hw
      rcases List.mem_or_eq_of_mem_set hw with hw | rfl
      · exact h3 _ rfl w hw
      · simp
  | finish c ws ran i j hi =>
    have hw' : ∀ w ∈ ws.set i .idle, w ∈ ws ∨ w = .idle := fun w hw => List.mem_or_eq_of_mem_set hw
    refine ⟨?_, by simpa using h2, ?_, ?_⟩
    · refine List.Perm.trans ?_ h1
      have e : toSend (⟨c, ws.set i .idle, ran ++ [j]⟩ : Pool J) = toSend (⟨c, ws, ran⟩ : Pool J) := rfl
      rw [e]
      refine List.Perm.append_right _ ?_
      rw [List.append_assoc]
      exact List.Perm.append_left ran (running_set_idle hi)
    · intro js hc w hw
      rcases hw' w hw with hw | rfl
      · exact h3 js hc w hw
      · simp
    · intro hc
      have := h4 hc (.busy j) (List.mem_of_getElem? hi)
      simp at this
  | close ws ran => exact ⟨h1, h2, by simp, by simp⟩
  | exit ws ran i hi =>
    refine ⟨?_, by simpa using h2, by simp, by simp⟩
    simp only
    rw [running_set_exited (c' := .closed) (ran' := ran) hi]
    exact h1
  | wait ws ran hi => exact ⟨h1, h2, by simp, fun _ => hi⟩

theorem poolInv_steps {workers : Nat} {jobs : List J} {n : Nat} {p q : Pool J} (h : PoolInv workers jobs p)
    (hs : Steps n p q) : PoolInv workers jobs q := by
  induction hs with
  | refl => exact h
  | tail _ hstep ih => exact poolInv_step (ih h) hstep

/-- **C61.** In every schedule, when the wait returns every submitted job has been run exactly once (and nothing else
    has been run). -/
theorem C61_exactly_once (workers n : Nat) (jobs : List J) (p : Pool J) (h : Steps n (Pool.start workers jobs) p)
    (hr : p.caller = .returned) : p.ran.Perm jobs := by
  have hi := poolInv_steps (poolInv_start workers jobs) h
  have h1 : running p = [] := by
    simp only [running]
    rw [List.filterMap_eq_nil_iff]
    intro w hw
    rw [hi.over hr w hw]
  have h2 : toSend p = [] := by simp only [toSend, hr]
  have := hi.perm
  rwa [h1, h2, List.append_nil, List.append_nil] at this

/-- **C61.** At any time every submitted job is in exactly one of three places: done, running, or not yet handed
    over. -/
theorem C61_jobs_accounted (workers n : Nat) (jobs : List J) (p : Pool J) (h : Steps n (Pool.start workers jobs) p) :
    (p.ran ++ running p ++ toSend p).Perm jobs := (poolInv_steps (poolInv_start workers jobs) h).perm

/-- **C61.** Never more fetches run at once than there are workers. -/
theorem C61_at_most_workers (workers n : Nat) (jobs : List J) (p : Pool J) (h : Steps n (Pool.start workers jobs) p) :
    (running p).length ≤ workers := by
  have hi := poolInv_steps (poolInv_start workers jobs) h
  rw [← hi.size]
  exact List.length_filterMap_le _ _

/-- **C61.** With at least one worker the pool never deadlocks: until the wait returns, some step can be made. -/
theorem C61_no_deadlock (workers n : Nat) (jobs : List J) (p : Pool J) (hw : 1 ≤ workers)
    (h : Steps n (Pool.start workers jobs) p) (hr : p.caller ≠ .returned) : ∃ q, Step p q := by
  have hi := poolInv_steps (poolInv_start workers jobs) h
  obtain ⟨c, ws, ran⟩ := p
  by_cases hb : ∃ (i : Nat) (j : J), ws[i]? = some (Worker.busy j)
  · obtain ⟨i, j, hij⟩ := hb
    exact ⟨_, .finish c ws ran i j hij⟩
  · cases c with
    | returned => exact absurd rfl hr
    | sending js =>
      cases js with
      | nil => exact ⟨_, .close ws ran⟩
      | cons j js =>
        have hsz := hi.size
        simp only at hsz
        obtain ⟨w, hw0⟩ : ∃ w, ws[0]? = some w := ⟨ws[0], List.getElem?_eq_getElem (by omega)⟩
        cases w with
        | idle => exact ⟨_, .send j js ws ran 0 hw0⟩
        | busy k => exact absurd ⟨0, k, hw0⟩ hb
        | exited => exact absurd rfl (hi.open_ _ rfl _ (List.mem_of_getElem? hw0))
    | closed =>
      by_cases he : ∃ i : Nat, ws[i]? = some Worker.idle
      · obtain ⟨i, hi'⟩ := he
        exact ⟨_, .exit ws ran i hi'⟩
      · refine ⟨_, .wait ws ran fun w hw => ?_⟩
        obtain ⟨i, hi'⟩ := List.getElem?_of_mem hw
        cases w with
        | idle => exact absurd ⟨i, hi'⟩ he
        | busy k => exact absurd ⟨i, k, hi'⟩ hb
        | exited => rfl

/-- Steps that remain. -/
def workLeft (p : Pool J) : Nat :=
  (match p.caller with
    | .sending js => 2 * js.length + 2
    | .closed => 1
    | .returned => 0) +
  (p.workers.map fun w => match w with
    | .idle => 1
    | .busy _ => 2
    | .exited => 0).sum

theorem sum_set (f : Worker J → Nat) {ws : List (Worker J)} {i : Nat} {a : Worker J} (b : Worker J)
    (h : ws[i]? = some a) : ((ws.set i b).map f).sum + f a = (ws.map f).sum + f b := by
  induction ws generalizing i with
  | nil => simp at h
  | cons w ws ih =>
    cases i with
    | zero =>
      have : w = a := by simpa using h
      subst this
      simp; omega
    | succ i =>
      have := ih (i := i) (by simpa using h)
      simp only [List.set_cons_succ, List.map_cons, List.sum_cons]
      omega

theorem workLeft_step {p q : Pool J} (h : Step p q) : workLeft p = workLeft q + 1 := by
  cases h with
  | send j js ws ran i hi =>
    have := sum_set (fun w => match w with | .idle => 1 | .busy _ => 2 | .exited => 0) (.busy j) hi
    simp only [workLeft, List.length_cons] at this ⊢
    omega
  | finish c ws ran i j hi =>
    have := sum_set (fun w => match w with | .idle => 1 | .busy _ => 2 | .exited => 0) .idle hi
    simp only [workLeft] at this ⊢
    omega
  | close ws ran => simp only [workLeft, List.length_nil]; omega
  | exit ws ran i hi =>
    have := sum_set (fun w => match w with | .idle => 1 | .busy _ => 2 | .exited => 0) .exited hi
    simp only [workLeft] at this ⊢
    omega
  | wait ws ran hi => simp only [workLeft]; omega

theorem workLeft_steps {n : Nat} {p q : Pool J} (h : Steps n p q) : n + workLeft q = workLeft p := by
  induction h with
  | refl => simp
  | tail _ hs ih => have := workLeft_step hs; omega

theorem workLeft_start (workers : Nat) (jobs : List J) :
    workLeft (Pool.start workers jobs) = 2 * jobs.length + workers + 2 := by
  have : ∀ n : Nat, (List.replicate n 1).sum = n := by
    intro n
    induction n with
    | zero => rfl
    | succ n ih => rw [List.replicate_succ, List.sum_cons, ih, Nat.add_comm]
  simp only [workLeft, Pool.start, List.map_replicate, this]
  omega

/-- **C61.** Every schedule is finite: with `k` jobs and `w` workers none has more than `2 k + w + 2` steps. -/
theorem C61_schedules_end (workers n : Nat) (jobs : List J) (p : Pool J) (h : Steps n (Pool.start workers jobs) p) :
    n ≤ 2 * jobs.length + workers + 2 := by
  have h1 := workLeft_steps h
  rw [workLeft_start] at h1
  omega

/-- **C61.** So a schedule that goes on as long as it can ends with the return of the wait and every job run exactly
    once. -/
theorem C61_completes (workers n : Nat) (jobs : List J) (p : Pool J) (hw : 1 ≤ workers)
    (h : Steps n (Pool.start workers jobs) p) (hm : ∀ q, ¬ Step p q) : p.caller = .returned ∧ p.ran.Perm jobs := by
  have hr : p.caller = .returned := by
    by_contra hr
    obtain ⟨q, hq⟩ := C61_no_deadlock workers n jobs p hw h hr
    exact hm q hq
  exact ⟨hr, C61_exactly_once workers n jobs p h hr⟩

/-- The hypothesis of at least one worker is needed: the flag `-max.concurrent.retrievals` may be 0, and then the first
    job is never handed over. -/
theorem C61_zero_workers_stuck (j : J) (js : List J) : ∀ q, ¬ Step (Pool.start 0 (j :: js)) q := by
  intro q h
  simp only [Pool.start, List.replicate_zero] at h
  cases h with
  | send j js ws ran i hi => simp at hi
  | finish c ws ran i j hi => simp at hi

/-- A schedule with two workers and three jobs in which the second job ends before the first and the wait returns. -/
example : Steps 10 (Pool.start 2 [1, 2, 3]) ⟨.returned, [.exited, .exited], [2, 1, 3]⟩ := by
  refine .tail (.tail (.tail (.tail (.tail (.tail (.tail (.tail (.tail (.tail (.refl _) (.send 1 [2, 3] _ _ 0 rfl))
    (.send 2 [3] _ _ 1 rfl)) (.finish _ _ _ 1 2 rfl)) (.finish _ _ _ 0 1 rfl)) (.send 3 [] _ _ 1 rfl)) (.close _ _))
    (.exit _ _ 0 rfl)) (.finish _ _ _ 1 3 rfl)) (.exit _ _ 1 rfl)) (.wait _ _ ?_)
  intro w hw
  simpa using hw

end Pool

/-! ## C62 — failover to rsync -/

theorem removes_iff (failover : Bool) (outcome : Option Bytes) :
    removes failover outcome = true ↔ outcome = none ∨
      ∃ e, outcome = some e ∧ (failover = false ∨ e = asc "http: request body too large".toList) := by
  cases outcome with
  | none => simp [removes]
  | some e =>
    cases failover
    · simp [removes]
    · by_cases h : e = tooLarge
      · simp [removes, h, tooLarge]
      · simp only [removes, h, ne_eq, not_false_eq_true, decide_true, Bool.and_true, Bool.not_true, Bool.false_eq_true,
          reduceCtorEq, Option.some.injEq, false_or, exists_eq_left', false_iff, Bool.true_eq_false]
        exact h

theorem afterRrdp_get (failover : Bool) (outcome : RrdpJob → Option Bytes) (js : List RrdpJob) (jobs : Pki.Map Bytes)
    (m : Bytes) : (afterRrdp failover outcome js jobs).get m =
      if ∃ j ∈ js, j.rsync = m ∧ removes failover (outcome j) = true then none else jobs.get m := by
  induction js generalizing jobs with
  | nil => simp [afterRrdp]
  | cons j js ih =>
    rw [afterRrdp, ih]
    by_cases h1 : ∃ j' ∈ js, j'.rsync = m ∧ removes failover (outcome j') = true
    · rw [if_pos h1, if_pos]
      obtain ⟨j', h, h'⟩ := h1
      exact ⟨j', List.mem_cons_of_mem _ h, h'⟩
    · rw [if_neg h1]
      by_cases h2 : j.rsync = m ∧ removes failover (outcome j) = true
      · have h3 : ∃ j' ∈ j :: js, j'.rsync = m ∧ removes failover (outcome j') = true := ⟨j, List.mem_cons_self .., h2⟩
        rw [if_pos h3, if_pos h2.2, Pki.Map.get_del, if_pos h2.1.symm]
      · rw [if_neg (show ¬ ∃ j' ∈ j :: js, j'.rsync = m ∧ removes failover (outcome j') = true by
          rintro ⟨j', h, h'⟩
          rcases List.mem_cons.mp h with rfl | h
          · exact h2 h'
          · exact h1 ⟨j', h, h'⟩)]
        by_cases h3 : removes failover (outcome j) = true
        · rw [if_pos h3, Pki.Map.get_del, if_neg]
          intro e
          exact h2 ⟨e.symm, h3⟩
        · rw [if_neg h3]

open Classical in
/-- **C62.** The rsync modules left after the RRDP phase (with the RRDP URL noted for each): those of before, without the
    ones fetched by RRDP and without the ones whose failure does not allow failover. -/
theorem C62_left_to_rsync (failover : Bool) (outcome : RrdpJob → Option Bytes) (js : List RrdpJob)
    (jobs : Pki.Map Bytes) (m : Bytes) : (afterRrdp failover outcome js jobs).get m =
      if FetchedByRrdp outcome js m ∨ NoFailover failover outcome js m then none else jobs.get m := by
  rw [afterRrdp_get]
  refine if_congr ?_ rfl rfl
  constructor
  · rintro ⟨j, h1, h2, h3⟩
    rcases (removes_iff _ _).mp h3 with h | h
    · exact .inl ⟨j, h1, h2, h⟩
    · exact .inr ⟨j, h1, h2, h⟩
  · rintro (⟨j, h1, h2, h3⟩ | ⟨j, h1, h2, h3⟩)
    · exact ⟨j, h1, h2, (removes_iff _ _).mpr (.inl h3)⟩
    · exact ⟨j, h1, h2, (removes_iff _ _).mpr (.inr h3)⟩

/-- **C62.** Whatever the number of workers and the schedule of the pool, the same modules are left. -/
theorem C62_any_schedule (failover : Bool) (outcome : RrdpJob → Option Bytes) (js : List RrdpJob) (jobs : Pki.Map Bytes)
    (w w' n n' : Nat) (p p' : Pool RrdpJob) (h : Steps n (Pool.start w js) p) (h' : Steps n' (Pool.start w' js) p')
    (hr : p.caller = .returned) (hr' : p'.caller = .returned) (m : Bytes) :
    (afterRrdp failover outcome p.ran jobs).get m = (afterRrdp failover outcome p'.ran jobs).get m := by
  have hp : p.ran.Perm p'.ran := (C61_exactly_once w n js p h hr).trans (C61_exactly_once w' n' js p' h' hr').symm
  rw [afterRrdp_get, afterRrdp_get]
  refine if_congr ?_ rfl rfl
  constructor
  · rintro ⟨j, h1, h2⟩
    exact ⟨j, hp.mem_iff.mp h1, h2⟩
  · rintro ⟨j, h1, h2⟩
    exact ⟨j, hp.mem_iff.mpr h1, h2⟩

namespace FetchEx

/-- Three endpoints: the first is fetched, the second fails, the third sends too much. -/
def eps : List RrdpJob := [⟨[1], [10]⟩, ⟨[2], [20]⟩, ⟨[3], [30]⟩]
def out (j : RrdpJob) : Option Bytes :=
  if j.path = [1] then none else if j.path = [2] then some [0] else some tooLarge
def jobs : Pki.Map Bytes := [([10], [1]), ([20], [2]), ([30], [3]), ([40], [])]

end FetchEx

example : afterRrdp true FetchEx.out FetchEx.eps FetchEx.jobs = [([20], [2]), ([40], [])] ∧
    afterRrdp false FetchEx.out FetchEx.eps FetchEx.jobs = [([40], [])] := by decide +kernel

/-- An endpoint that sends too much keeps a module from being fetched at all, also when another endpoint of the
    module would allow rsync. -/
example : afterRrdp true FetchEx.out [⟨[2], [20]⟩, ⟨[3], [20]⟩] FetchEx.jobs = [([10], [1]), ([30], [3]), ([40], [])] := by
  decide +kernel

/-! ## C63 — Certificate Transparency paths -/

theorem akiOf_unknown {objs : List CtObj} {k : Bytes} (h : ∀ o ∈ objs, o.ski ≠ k) : akiOf objs k = [] := by
  unfold akiOf
  have : objs.reverse.find? (fun o => decide (o.ski = k)) = none := by
    rw [List.find?_eq_none]
    intro o ho
    simpa using h o (by simpa using ho)
  rw [this]

/-- Objects not yet visited. -/
def fresh (objs : List CtObj) (done : List Bytes) : Nat := (objs.filter fun o => decide (o.ski ∉ done)).length

theorem fresh_lt {objs : List CtObj} {done : List Bytes} {k : Bytes} (h : ∃ o ∈ objs, o.ski = k) (hk : k ∉ done) :
    fresh objs (k :: done) < fresh objs done := by
  induction objs with
  | nil => simp at h
  | cons o os ih =>
    have hle : fresh os (k :: done) ≤ fresh os done := by
      unfold fresh
      refine List.Sublist.length_le ?_
      refine List.monotone_filter_right _ ?_
      intro a ha
      simp only [List.mem_cons, not_or, decide_eq_true_eq] at ha ⊢
      exact ha.2
    by_cases ho : o.ski = k
    · have h1 : fresh (o :: os) (k :: done) = fresh os (k :: done) := by
        simp [fresh, List.filter_cons, ho]
      have h2 : fresh (o :: os) done = fresh os done + 1 := by
        simp [fresh, List.filter_cons, ho, hk]
      omega
    · have h' : ∃ o ∈ os, o.ski = k := by
        obtain ⟨x, hx, e⟩ := h
        rcases List.mem_cons.mp hx with rfl | hx
        · exact absurd e ho
        · exact ⟨x, hx, e⟩
      have := ih h'
      by_cases hd : o.ski ∈ done
      · simpa [fresh, List.filter_cons, ho, hd] using this
      · simpa [fresh, List.filter_cons, ho, hd] using this

/-- The loop with enough fuel ends, and the keys it goes through are the successive issuers. -/
theorem ctLoop_spec (objs : List CtObj) (fuel : Nat) (ks : List Bytes) (z : Bytes)
    (hf : fresh objs (ks ++ [z]).reverse + 2 ≤ fuel)
    (hn : (ks ++ [z]).Nodup)
    (hc : ∀ i a b, (ks ++ [z])[i]? = some a → (ks ++ [z])[i + 1]? = some b → b = akiOf objs a ∧ b ≠ []) :
    ∃ more, ctLoop objs fuel (akiOf objs z) (ks ++ [z]).reverse ((ks ++ [z]).map (fileOf objs)) =
        .ok ((ks ++ [z] ++ more).map (fileOf objs)) ∧
      (∀ i a b, (ks ++ [z] ++ more)[i]? = some a → (ks ++ [z] ++ more)[i + 1]? = some b → b = akiOf objs a ∧ b ≠ []) ∧
      (ks ++ [z] ++ more).dropLast.Nodup ∧
      ∃ y, (ks ++ [z] ++ more).getLast? = some y ∧
        ((akiOf objs y = [] ∧ (ks ++ [z] ++ more).Nodup) ∨ y ∈ (ks ++ [z] ++ more).dropLast) := by
  induction fuel generalizing ks z with
  | zero => omega
  | succ f ih =>
    rw [ctLoop]
    by_cases h0 : akiOf objs z = []
    · rw [if_pos h0]
      refine ⟨[], by simp, by simpa using hc, ?_, z, by simp, .inl ⟨h0, by simpa using hn⟩⟩
      rw [List.append_nil]
      exact hn.sublist (List.dropLast_sublist _)
    · rw [if_neg h0]
      have chain' : ∀ i a b, (ks ++ [z] ++ [akiOf objs z])[i]? = some a →
          (ks ++ [z] ++ [akiOf objs z])[i + 1]? = some b → b = akiOf objs a ∧ b ≠ [] := by
        intro i a b ha hb
        have hlen : (ks ++ [z]).length = ks.length + 1 := by simp
        by_cases hi : i + 1 < ks.length + 1
        · rw [List.getElem?_append_left (by omega)] at ha hb
          exact hc i a b ha hb
        · have hib := (List.getElem?_eq_some_iff.mp hb).1
          simp only [List.length_append, List.length_singleton] at hib
          have hieq : i = ks.length := by omega
          subst hieq
          have ea : a = z := by simpa using ha.symm
          have eb : b = akiOf objs z := by simpa using hb.symm
          rw [ea, eb]
          exact ⟨rfl, h0⟩
      by_cases hd : akiOf objs z ∈ (ks ++ [z]).reverse
      · rw [if_pos hd]
        have hd' : akiOf objs z ∈ ks ++ [z] := List.mem_reverse.mp hd
        refine ⟨[akiOf objs z], by simp, chain', ?_, akiOf objs z, by simp, .inr ?_⟩
        · rw [List.dropLast_concat]; exact hn
        · rw [List.dropLast_concat]; exact hd'
      · rw [if_neg hd]
        have hd' : akiOf objs z ∉ ks ++ [z] := fun x => hd (List.mem_reverse.mpr x)
        have hnn : (ks ++ [z] ++ [akiOf objs z]).Nodup := by
          rw [List.nodup_append]
          refine ⟨hn, by simp, ?_⟩
          intro a ha b hb
          have : b = akiOf objs z := by simpa using hb
          subst this
          intro e
          exact hd' (e ▸ ha)
        have erev : (ks ++ [z] ++ [akiOf objs z]).reverse = akiOf objs z :: (ks ++ [z]).reverse := by simp
        have emap : (ks ++ [z] ++ [akiOf objs z]).map (fileOf objs) =
            (ks ++ [z]).map (fileOf objs) ++ [fileOf objs (akiOf objs z)] := by simp
        by_cases hk : ∃ o ∈ objs, o.ski = akiOf objs z
        · have hlt := fresh_lt hk hd
          obtain ⟨more, h1, h2, h3, h4⟩ := ih (ks ++ [z]) (akiOf objs z) (by rw [erev]; omega) hnn chain'
          rw [erev, emap] at h1
          refine ⟨akiOf objs z :: more, ?_, ?_, ?_, ?_⟩
          · rw [h1]; simp
          · simpa using h2
          · simpa using h3
          · simpa using h4
        · have h1 : akiOf objs (akiOf objs z) = [] := akiOf_unknown fun o ho e => hk ⟨o, ho, e⟩
          refine ⟨[akiOf objs z], ?_, chain', ?_, akiOf objs z, by simp, .inl ⟨h1, hnn⟩⟩
          · rw [h1]
            cases f with
            | zero => omega
            | succ f => simp [ctLoop]
          · rw [List.dropLast_concat]; exact hn

/-- **C63.** Whatever the issuer links (also with cycles), the path of an object is built in finitely many steps; it lists
    the file of the object first and then the files of its successive issuers, up to one without issuer or to the
    first one listed twice. -/
theorem C63_issuer_path (objs : List CtObj) (ski : Bytes) :
    ∃ ks, ctPath objs ski = .ok (ks.map (fileOf objs)) ∧ IssuerPath (akiOf objs) ski ks := by
  obtain ⟨more, h1, h2, h3, h4⟩ := ctLoop_spec objs (objs.length + 3) [] ski
    (by have : fresh objs ([] ++ [ski]).reverse ≤ objs.length := List.length_filter_le _ _
        omega) (by simp) (by
      intro i a b ha hb
      have := (List.getElem?_eq_some_iff.mp hb).1
      simp at this)
  exact ⟨[] ++ [ski] ++ more, h1, rfl, h2, h3, h4⟩

theorem issuerPath_prefix {issuer : Bytes → Bytes} {ski : Bytes} {ks ls : List Bytes} (h : IssuerPath issuer ski ks)
    (h' : IssuerPath issuer ski ls) (i : Nat) (a b : Bytes) (ha : ks[i]? = some a) (hb : ls[i]? = some b) : a = b := by
  induction i generalizing a b with
  | zero =>
    rw [← List.head?_eq_getElem?, h.first] at ha
    rw [← List.head?_eq_getElem?, h'.first] at hb
    exact Option.some.inj (ha.symm.trans hb)
  | succ i ih =>
    have h1 := (List.getElem?_eq_some_iff.mp ha).1
    have h2 := (List.getElem?_eq_some_iff.mp hb).1
    have e1 : ks[i]? = some ks[i] := List.getElem?_eq_getElem (by omega)
    have e2 : ls[i]? = some ls[i] := List.getElem?_eq_getElem (by omega)
    rw [(h.next i _ a e1 ha).1, (h'.next i _ b e2 hb).1, ih _ _ e1 e2]

theorem issuerPath_le {issuer : Bytes → Bytes} {ski : Bytes} {ks ls : List Bytes} (h : IssuerPath issuer ski ks)
    (h' : IssuerPath issuer ski ls) : ls.length ≤ ks.length := by
  by_contra hlt
  obtain ⟨z, hz, hs⟩ := h.stops
  have hne : ks ≠ [] := by rintro rfl; simp at hz
  have hpos : 0 < ks.length := List.length_pos_of_ne_nil hne
  rw [List.getLast?_eq_getElem?] at hz
  have e2 : ls[ks.length - 1]? = some ls[ks.length - 1] := List.getElem?_eq_getElem (by omega)
  have ez : z = ls[ks.length - 1] := issuerPath_prefix h h' _ _ _ hz e2
  have e3 : ls[ks.length - 1 + 1]? = some ls[ks.length - 1 + 1] := List.getElem?_eq_getElem (by omega)
  have hn := h'.next _ _ _ e2 e3
  rw [← ez] at hn
  rcases hs with ⟨h0, -⟩ | hm
  · rw [h0] at hn
    exact hn.2 hn.1
  · obtain ⟨i, hi⟩ := List.getElem?_of_mem hm
    have hi1 := (List.getElem?_eq_some_iff.mp hi).1
    rw [List.length_dropLast] at hi1
    have hki : ks[i]? = some z := by
      rw [List.getElem?_dropLast, if_pos (by omega)] at hi
      exact hi
    have e4 : ls[i]? = some ls[i] := List.getElem?_eq_getElem (by omega)
    have e5 : z = ls[i] := issuerPath_prefix h h' i _ _ hki e4
    have hnd := (List.getElem?_inj (i := i) (j := ks.length - 1) (by rw [List.length_dropLast]; omega) h'.once).mp
      (by rw [List.getElem?_dropLast, List.getElem?_dropLast, if_pos (by omega), if_pos (by omega), e2, e4, ← ez, ← e5])
    omega

/-- The description determines the path. -/
theorem C63_path_unique (issuer : Bytes → Bytes) (ski : Bytes) (ks ls : List Bytes) (h : IssuerPath issuer ski ks)
    (h' : IssuerPath issuer ski ls) : ks = ls := by
  have hl : ks.length = ls.length := Nat.le_antisymm (issuerPath_le h' h) (issuerPath_le h h')
  refine List.ext_getElem hl ?_
  intro i h1 h2
  exact issuerPath_prefix h h' i _ _ (List.getElem?_eq_getElem h1) (List.getElem?_eq_getElem h2)

section Validator
open Pki PkiSpec

theorem find_mem {objs : List CtObj} {k : Bytes} {o : CtObj}
    (h : objs.reverse.find? (fun o => decide (o.ski = k)) = some o) : o ∈ objs ∧ o.ski = k :=
  ⟨List.mem_reverse.mp (List.mem_of_find?_eq_some h), by simpa using List.find?_some h⟩

theorem ctObjs_spec {env : Env} {T : Bytes → Prop} {v : V} (hr : Reachable env T v) (keys : List Bytes) :
    ∃ objs, ctObjs v keys = .ok objs ∧
      (∀ o ∈ objs, ∃ i c, v.validObjects.get o.ski = some i ∧ v.certOf i = some c ∧ o.aki = c.aki ∧
        o.file = (v.heap[i]?).bind (·.file)) ∧
      (∀ k ∈ keys, (v.validObjects.get k).isSome → ∃ o ∈ objs, o.ski = k) := by
  have hi := reachable_inv hr
  induction keys with
  | nil => exact ⟨[], rfl, by simp, by simp⟩
  | cons k rest ih =>
    obtain ⟨objs, h1, h2, h3⟩ := ih
    rw [ctObjs]
    cases hk : v.validObjects.get k with
    | none =>
      refine ⟨objs, h1, h2, ?_⟩
      intro k' hk' hs
      rcases List.mem_cons.mp hk' with rfl | hk'
      · rw [hk] at hs; simp at hs
      · exact h3 k' hk' hs
    | some i =>
      obtain ⟨c, hc, hs⟩ := hi.obj k i (hi.val k i hk)
      simp only [hc, h1]
      refine ⟨_, rfl, ?_, ?_⟩
      · intro o ho
        rcases List.mem_cons.mp ho with rfl | ho
        · exact ⟨i, c, by simp only [hs]; exact hk, hc, rfl, rfl⟩
        · exact h2 o ho
      · intro k' hk' hs'
        rcases List.mem_cons.mp hk' with rfl | hk'
        · exact ⟨_, List.mem_cons_self .., hs⟩
        · obtain ⟨o, ho, e⟩ := h3 k' hk' hs'
          exact ⟨o, List.mem_cons_of_mem _ ho, e⟩

/-- The keys of a map. -/
theorem mem_keys {m : Pki.Map Nat} {k : Bytes} {i : Nat} (h : m.get k = some i) : k ∈ m.map (·.1) := by
  induction m with
  | nil => simp [Map.get_nil] at h
  | cons e m ih =>
    obtain ⟨k', a⟩ := e
    by_cases hk : k = k'
    · subst hk; simp
    · rw [Map.get_cons, if_neg hk] at h
      exact List.mem_cons_of_mem _ (ih h)

/-- **C63.** For a validator after any history: the objects are all certificates (no type assertion fails), and the
    issuer used for a valid object is the one its certificate names. -/
theorem C63_validator_objects (env : Env) (T : Bytes → Prop) (v : V) (hr : Reachable env T v) :
    ∃ objs, ctObjs v (v.validObjects.map (·.1)) = .ok objs ∧
      (∀ o ∈ objs, ∃ c, IsValid v o.ski c ∧ o.aki = c.aki) ∧
      (∀ k c, IsValid v k c → akiOf objs k = c.aki ∧ ∃ o ∈ objs, o.ski = k) := by
  obtain ⟨objs, h1, h2, h3⟩ := ctObjs_spec hr (v.validObjects.map (·.1))
  refine ⟨objs, h1, ?_, ?_⟩
  · intro o ho
    obtain ⟨i, c, e1, e2, e3, -⟩ := h2 o ho
    exact ⟨c, ⟨i, e1, e2⟩, e3⟩
  · rintro k c ⟨i, e1, e2⟩
    obtain ⟨o, ho, e⟩ := h3 k (mem_keys e1) (by rw [e1]; rfl)
    refine ⟨?_, o, ho, e⟩
    unfold akiOf
    cases hf : objs.reverse.find? (fun o => decide (o.ski = k)) with
    | none =>
      rw [List.find?_eq_none] at hf
      exact absurd (by simpa using e) (hf o (List.mem_reverse.mpr ho))
    | some o' =>
      obtain ⟨m1, m2⟩ := find_mem hf
      obtain ⟨i', c', f1, f2, f3, -⟩ := h2 o' m1
      rw [m2, e1] at f1
      obtain rfl := Option.some.inj f1
      rw [e2] at f2
      obtain rfl := Option.some.inj f2
      exact f3

/-- **C63.** For a validator after any history in which each trust anchor names no issuer or a valid one: every key on the
    path of a valid object is a valid object. -/
theorem C63_path_of_valid (env : Env) (T : Bytes → Prop) (v : V) (hr : Reachable env T v)
    (hta : ∀ k c, T k → IsValid v k c → c.aki = [] ∨ ∃ p, IsValid v c.aki p)
    (objs : List CtObj) (ho : ctObjs v (v.validObjects.map (·.1)) = .ok objs)
    (ski : Bytes) (c : Pki.Cert) (hv : IsValid v ski c) (ks : List Bytes) (hp : IssuerPath (akiOf objs) ski ks) :
    ∀ k ∈ ks, ∃ c, IsValid v k c := by
  obtain ⟨objs', g1, g2, g3⟩ := C63_validator_objects env T v hr
  rw [ho] at g1
  obtain rfl := Go.ok.inj g1
  have key : ∀ (i : Nat) (a : Bytes), ks[i]? = some a → ∃ c, IsValid v a c := by
    intro i
    induction i with
    | zero =>
      intro a ha
      rw [← List.head?_eq_getElem?, hp.first] at ha
      obtain rfl := Option.some.inj ha
      exact ⟨c, hv⟩
    | succ i ih =>
      intro b hb
      have hlt := (List.getElem?_eq_some_iff.mp hb).1
      have ea : ks[i]? = some ks[i] := List.getElem?_eq_getElem (by omega)
      obtain ⟨ca, hca⟩ := ih _ ea
      obtain ⟨n1, n2⟩ := hp.next i _ b ea hb
      rw [(g3 _ _ hca).1] at n1
      subst n1
      by_cases ht : T ks[i]
      · rcases hta _ _ ht hca with h | h
        · exact absurd h n2
        · exact h
      · exact C15_issuer_valid env T v hr _ _ hca ht
  intro k hk
  obtain ⟨i, hi⟩ := List.getElem?_of_mem hk
  exact key i k hi

/-- **C63.** Then, if the valid objects came from files, the path can be sent: it has no hole. -/
theorem C63_path_has_no_hole (env : Env) (T : Bytes → Prop) (v : V) (hr : Reachable env T v)
    (hta : ∀ k c, T k → IsValid v k c → c.aki = [] ∨ ∃ p, IsValid v c.aki p)
    (hfile : ∀ k i r, v.validObjects.get k = some i → v.heap[i]? = some r → r.file ≠ none)
    (objs : List CtObj) (ho : ctObjs v (v.validObjects.map (·.1)) = .ok objs)
    (ski : Bytes) (c : Pki.Cert) (hv : IsValid v ski c) :
    ∃ path, ctPath objs ski = .ok path ∧ ctSend path = .ok () := by
  obtain ⟨ks, h1, h2⟩ := C63_issuer_path objs ski
  refine ⟨_, h1, ?_⟩
  have hk := C63_path_of_valid env T v hr hta objs ho ski c hv ks h2
  obtain ⟨objs', g1, g2, g3⟩ := ctObjs_spec hr (v.validObjects.map (·.1))
  rw [ho] at g1
  obtain rfl := Go.ok.inj g1
  unfold ctSend
  rw [if_neg]
  intro hm
  obtain ⟨k, hkm, hf⟩ := List.mem_map.mp hm
  obtain ⟨c', i, e1, e2⟩ := hk k hkm
  obtain ⟨o, hoo, e⟩ := g3 k (mem_keys e1) (by rw [e1]; rfl)
  unfold fileOf at hf
  cases hfi : objs.reverse.find? (fun o => decide (o.ski = k)) with
  | none =>
    rw [List.find?_eq_none] at hfi
    exact absurd (by simpa using e) (hfi o (List.mem_reverse.mpr hoo))
  | some o' =>
    rw [hfi] at hf
    obtain ⟨m1, m2⟩ := find_mem hfi
    obtain ⟨i', c'', f1, f2, -, f4⟩ := g2 o' m1
    rw [m2, e1] at f1
    obtain rfl := Option.some.inj f1
    simp only at hf
    rw [f4] at hf
    have : ∃ r, v.heap[i]? = some r := by
      unfold V.certOf at e2
      cases hh : v.heap[i]? with
      | none => rw [hh] at e2; simp at e2
      | some r => exact ⟨r, rfl⟩
    obtain ⟨r, hr'⟩ := this
    rw [hr'] at hf
    exact hfile k i r e1 hr' hf

end Validator

namespace FetchEx

/-- A trust anchor that names itself as its issuer, a CA and an object. -/
def chain3 : List CtObj := [⟨[1], [1], some 0⟩, ⟨[2], [1], some 1⟩, ⟨[3], [2], some 2⟩]
/-- Two objects that name each other. -/
def cycle : List CtObj := [⟨[1], [2], some 0⟩, ⟨[2], [1], some 1⟩, ⟨[3], [2], some 2⟩]
/-- A trust anchor that names an issuer nobody knows. -/
def orphan : List CtObj := [⟨[1], [9], some 0⟩, ⟨[2], [1], some 1⟩]

end FetchEx

example : ctPath FetchEx.cycle [3] = .ok [some 2, some 1, some 0, some 1] := by decide +kernel
example : ctPath [⟨[1], [], some 0⟩, ⟨[2], [1], some 1⟩, ⟨[3], [2], some 2⟩] [3] = .ok [some 2, some 1, some 0] := by
  decide +kernel

/-- A trust anchor that names itself as its issuer (as self-signed certificates usually do) is listed twice. -/
theorem C63_self_issued_twice : ctPath FetchEx.chain3 [3] = .ok [some 2, some 1, some 0, some 0] := by decide +kernel

/-- **C63, a hole in the path.** If the trust anchor names an issuer that is not a valid object, the path of every object
    has a nil file, and sending it ends the process. -/
theorem C63_violated_hole : ctPath FetchEx.orphan [2] = .ok [some 1, some 0, none] ∧
    ctSend [some 1, some 0, none] = .panic := by decide +kernel

/-- The hypotheses on the validator are met by a history with three certificates. -/
example : (∀ k c, T1 k → PkiSpec.IsValid (after env0 opsAB) k c → c.aki = [] ∨ ∃ p, PkiSpec.IsValid (after env0 opsAB) c.aki p) ∧
    ∃ c, PkiSpec.IsValid (after env0 opsAB) [3] c := by
  refine ⟨?_, bC, 2, by decide +kernel, by decide +kernel⟩
  rintro k c rfl ⟨i, h1, h2⟩
  have e : (after env0 opsAB).validObjects.get [1] = some 0 := by decide +kernel
  rw [e] at h1
  obtain rfl := Option.some.inj h1
  have e2 : (after env0 opsAB).certOf 0 = some taC := by decide +kernel
  rw [e2] at h2
  obtain rfl := Option.some.inj h2
  exact .inl rfl

/-- The files are set when the certificates came from files; the path can be sent. -/
example : ((after env1 ops1).validObjects.map fun e => ((after env1 ops1).heap[e.2]?).bind (·.file)) = [some 1, some 0] ∧
    (match ctObjs (after env1 ops1) ((after env1 ops1).validObjects.map (·.1)) with
      | .ok objs => ctPath objs [2]
      | _ => .panic) = .ok [some 1, some 0] := by decide +kernel

/-! ## C64 — binding of RRDP URLs -/

theorem bindCert_domain (b : Bindings) (c : CertNames) (u : Bytes) :
    (bindCert b c).domain.get u = match b.domain.get u with
      | some d => some d
      | none => match Path.extractDomainModule c.rsync with
        | .ok (_, d) => if c.rrdp = some u then some d else none
        | _ => none := by
  unfold bindCert
  cases he : Path.extractDomainModule c.rsync with
  | ok md =>
    obtain ⟨m, d⟩ := md
    simp only
    unfold bindRrdp
    cases hc : c.rrdp with
    | none => cases b.domain.get u <;> simp
    | some w =>
      simp only [Option.some.injEq]
      cases hw : b.domain.get w with
      | none =>
        simp only [Pki.Map.get_set]
        by_cases hu : u = w
        · subst hu; simp [hw]
        · rw [if_neg hu, if_neg (fun e => hu e.symm)]
          cases b.domain.get u <;> rfl
      | some d' =>
        simp only
        by_cases hd : d' ≠ d
        · rw [if_pos hd]
          simp only
          by_cases hu : u = w
          · subst hu; simp [hw]
          · rw [if_neg (fun e => hu e.symm)]
            cases b.domain.get u <;> rfl
        · rw [if_neg hd]
          simp only [Pki.Map.get_set]
          rw [ne_eq, not_not] at hd
          subst hd
          by_cases hu : u = w
          · subst hu; simp [hw]
          · rw [if_neg hu, if_neg (fun e => hu e.symm)]
            cases b.domain.get u <;> rfl
  | err e => cases b.domain.get u <;> rfl
  | panic => cases b.domain.get u <;> rfl
  | diverge => cases b.domain.get u <;> rfl

/-- **C64** (partial: the host, not the module). The rsync host bound to an RRDP URL never changes. -/
theorem C64_host_permanent_partial (cs more : List CertNames) (u d : Bytes)
    (h : (bindAll Bindings.empty cs).domain.get u = some d) :
    (bindAll Bindings.empty (cs ++ more)).domain.get u = some d := by
  have key : ∀ (b : Bindings), b.domain.get u = some d → (bindAll b more).domain.get u = some d := by
    induction more with
    | nil => intro b hb; exact hb
    | cons c more ih =>
      intro b hb
      have : bindAll b (c :: more) = bindAll (bindCert b c) more := rfl
      rw [this]
      apply ih
      rw [bindCert_domain, hb]
  have : bindAll Bindings.empty (cs ++ more) = bindAll (bindAll Bindings.empty cs) more := List.foldl_append ..
  rw [this]
  exact key _ h

/-- **C64.** It is the host of the first certificate that named the URL together with a usable rsync URL; there is a
    binding exactly if there was such a certificate. -/
theorem C64_first_certificate_binds (cs : List CertNames) (u d : Bytes) :
    (bindAll Bindings.empty cs).domain.get u = some d ↔
      ∃ before c after m, cs = before ++ c :: after ∧ Names c u m d ∧ ∀ c' ∈ before, ∀ m' d', ¬ Names c' u m' d' := by
  have none_iff : ∀ cs : List CertNames, (∀ c' ∈ cs, ∀ m' d', ¬ Names c' u m' d') →
      (bindAll Bindings.empty cs).domain.get u = none := by
    intro cs
    induction cs using List.reverseRecOn with
    | nil => intro _; rfl
    | append_singleton cs c ih =>
      intro h
      have : bindAll Bindings.empty (cs ++ [c]) = bindCert (bindAll Bindings.empty cs) c := by simp [bindAll]
      rw [this, bindCert_domain, ih fun c' hc' => h c' (by simp [hc'])]
      simp only
      cases he : Path.extractDomainModule c.rsync with
      | ok md =>
        obtain ⟨m, d⟩ := md
        simp only
        rw [if_neg]
        intro hc
        exact h c (by simp) m d ⟨hc, he⟩
      | err e => rfl
      | panic => rfl
      | diverge => rfl
  constructor
  · intro h
    induction cs using List.reverseRecOn with
    | nil => simp [bindAll, Bindings.empty, Pki.Map.get_nil] at h
    | append_singleton cs c ih =>
      have e : bindAll Bindings.empty (cs ++ [c]) = bindCert (bindAll Bindings.empty cs) c := by simp [bindAll]
      by_cases hex : ∃ c' ∈ cs, ∃ m' d', Names c' u m' d'
      · cases hb : (bindAll Bindings.empty cs).domain.get u with
        | some d0 =>
          rw [e, bindCert_domain, hb] at h
          obtain rfl := Option.some.inj h
          obtain ⟨x, c', y, m, h1, h2, h3⟩ := ih hb
          exact ⟨x, c', y ++ [c], m, by simp [h1], h2, h3⟩
        | none =>
          exfalso
          obtain ⟨c', hc', m', d', hn⟩ := hex
          obtain ⟨x, y, rfl⟩ := List.append_of_mem hc'
          have e2 : (bindAll Bindings.empty (x ++ [c'])).domain.get u ≠ none := by
            have : bindAll Bindings.empty (x ++ [c']) = bindCert (bindAll Bindings.empty x) c' := by simp [bindAll]
            rw [this, bindCert_domain]
            cases (bindAll Bindings.empty x).domain.get u with
            | some d => simp
            | none => simp [hn.2, hn.1]
          cases hd0 : (bindAll Bindings.empty (x ++ [c'])).domain.get u with
          | none => exact e2 hd0
          | some d0 =>
            have := C64_host_permanent_partial (x ++ [c']) y u d0 hd0
            rw [List.append_assoc, List.singleton_append, hb] at this
            simp at this
      · have hno : ∀ c' ∈ cs, ∀ m' d', ¬ Names c' u m' d' := fun c' hc' m' d' hn => hex ⟨c', hc', m', d', hn⟩
        rw [e, bindCert_domain, none_iff cs hno] at h
        simp only at h
        cases he : Path.extractDomainModule c.rsync with
        | ok md =>
          obtain ⟨m, d'⟩ := md
          rw [he] at h
          simp only at h
          by_cases hc : c.rrdp = some u
          · rw [if_pos hc] at h
            obtain rfl := Option.some.inj h
            exact ⟨cs, c, [], m, rfl, ⟨hc, he⟩, hno⟩
          · rw [if_neg hc] at h; simp at h
        | err e => rw [he] at h; simp at h
        | panic => rw [he] at h; simp at h
        | diverge => rw [he] at h; simp at h
  · rintro ⟨x, c, y, m, rfl, hn, hno⟩
    have h1 : (bindAll Bindings.empty (x ++ [c])).domain.get u = some d := by
      have : bindAll Bindings.empty (x ++ [c]) = bindCert (bindAll Bindings.empty x) c := by simp [bindAll]
      rw [this, bindCert_domain, none_iff x hno]
      simp [hn.2, hn.1]
    have := C64_host_permanent_partial (x ++ [c]) y u d h1
    rwa [List.append_assoc, List.singleton_append] at this

/-- **C64.** The module fetched for an RRDP URL is at any time on the host bound to it, and was named by a certificate together
    with the URL. -/
theorem C64_module_on_bound_host (cs : List CertNames) (u m : Bytes)
    (h : (bindAll Bindings.empty cs).fetch.get u = some m) :
    ∃ d, (bindAll Bindings.empty cs).domain.get u = some d ∧ ∃ c ∈ cs, Names c u m d := by
  induction cs using List.reverseRecOn generalizing m with
  | nil => simp [bindAll, Bindings.empty, Pki.Map.get_nil] at h
  | append_singleton cs c ih =>
    have e : bindAll Bindings.empty (cs ++ [c]) = bindCert (bindAll Bindings.empty cs) c := by simp [bindAll]
    have keep : (bindAll Bindings.empty cs).fetch.get u = some m → 
        ∃ d, (bindAll Bindings.empty (cs ++ [c])).domain.get u = some d ∧ ∃ c' ∈ cs ++ [c], Names c' u m d := by
      intro hf
      obtain ⟨d, h1, c', h2, h3⟩ := ih m hf
      exact ⟨d, C64_host_permanent_partial cs [c] u d h1, c', by simp [h2], h3⟩
    by_cases hf : (bindAll Bindings.empty cs).fetch.get u = some m
    · exact keep hf
    · rw [e] at h
      have hdom := bindCert_domain (bindAll Bindings.empty cs) c u
      rw [← e] at hdom
      unfold bindCert at h
      cases he : Path.extractDomainModule c.rsync with
      | ok md =>
        obtain ⟨m', d⟩ := md
        rw [he] at h hdom
        simp only at h hdom
        unfold bindRrdp at h
        cases hc : c.rrdp with
        | none => rw [hc] at h; exact absurd h hf
        | some w =>
          rw [hc] at h hdom
          simp only at h
          have upd : (Pki.Map.set (bindAll Bindings.empty cs).fetch w m').get u = some m → u = w ∧ m' = m := by
            rw [Pki.Map.get_set]
            by_cases hu : u = w
            · rw [if_pos hu]; intro x; exact ⟨hu, Option.some.inj x⟩
            · rw [if_neg hu]; intro x; exact absurd x hf
          cases hw : (bindAll Bindings.empty cs).domain.get w with
          | none =>
            rw [hw] at h
            obtain ⟨rfl, rfl⟩ := upd h
            rw [hw] at hdom
            refine ⟨d, by rw [hdom]; simp, c, by simp, hc, he⟩
          | some d' =>
            rw [hw] at h
            simp only at h
            by_cases hd : d' ≠ d
            · rw [if_pos hd] at h; exact absurd h hf
            · rw [if_neg hd] at h
              rw [ne_eq, not_not] at hd
              subst hd
              obtain ⟨rfl, rfl⟩ := upd h
              rw [hw] at hdom
              exact ⟨d', hdom, c, by simp, hc, he⟩
      | err x => rw [he] at h; exact absurd h hf
      | panic => rw [he] at h; exact absurd h hf
      | diverge => rw [he] at h; exact absurd h hf

/-- **C64.** A certificate that names a bound URL with another host changes nothing: neither the bindings, nor the rsync
    jobs, nor the repositories. So its repository is not fetched on its account, by RRDP or by rsync. -/
theorem C64_other_host_ignored (b : Bindings) (c : CertNames) (u m d d' : Bytes) (hb : b.domain.get u = some d)
    (hn : Names c u m d') (hd : d ≠ d') : bindCert b c = b := by
  simp [bindCert, hn.2, hn.1, bindRrdp, hb, hd]

/-- A certificate with a usable rsync URL and no RRDP URL, or one that fits its host, has its module scheduled for rsync
    and listed as a repository. -/
theorem C64_certificate_scheduled (b : Bindings) (c : CertNames) (m d : Bytes)
    (hn : Path.extractDomainModule c.rsync = .ok (m, d))
    (hb : ∀ u, c.rrdp = some u → b.domain.get u = none ∨ b.domain.get u = some d) :
    (bindCert b c).jobs.get m = some (c.rrdp.getD []) ∧ m ∈ (bindCert b c).repos ∧
    (∀ u, c.rrdp = some u → (bindCert b c).fetch.get u = some m) := by
  unfold bindCert
  rw [hn]
  simp only
  unfold bindRrdp
  cases hc : c.rrdp with
  | none => simp [Pki.Map.get_set]
  | some u =>
    rcases hb u hc with h | h <;> simp [h, Pki.Map.get_set]

namespace FetchEx

def url : Bytes := asc "https://rrdp.example/n.xml".toList
def certA : CertNames := ⟨asc "rsync://host/a/".toList, some url⟩
def certB : CertNames := ⟨asc "rsync://host/b/".toList, some url⟩
def certC : CertNames := ⟨asc "rsync://other/c/".toList, some url⟩

end FetchEx

/-- **C64, the statement does not hold.** A later certificate with another module of the same host replaces the module
    bound to the RRDP URL. -/
theorem C64_violated_module : ∃ (cs more : List CertNames) (u m m' : Bytes),
    (bindAll Bindings.empty cs).fetch.get u = some m ∧ (bindAll Bindings.empty (cs ++ more)).fetch.get u = some m' ∧
    m ≠ m' :=
  ⟨[FetchEx.certA], [FetchEx.certB], FetchEx.url, asc "rsync://host/a".toList, asc "rsync://host/b".toList,
    by decide +kernel, by decide +kernel, by decide +kernel⟩

/-- The certificate of another host comes second and is ignored; had it come first, it would have kept the two others
    out. -/
example : (bindAll Bindings.empty [FetchEx.certA, FetchEx.certC]).repos = [asc "rsync://host/a".toList] ∧
    (bindAll Bindings.empty [FetchEx.certC, FetchEx.certA, FetchEx.certB]).repos = [asc "rsync://other/c".toList] ∧
    (bindAll Bindings.empty [FetchEx.certC]).domain.get FetchEx.url = some (asc "rsync://other/".toList) := by
  decide +kernel

end Verif.Props
