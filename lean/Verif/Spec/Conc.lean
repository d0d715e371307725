import Verif.Model.Conc
/-
  Data races, as in the Go memory model: two accesses to the same memory by different goroutines, at least one a write, that
  no synchronisation puts in order.
-/
set_option autoImplicit false

namespace Verif.ConcSpec
open Conc

/-- The event is an access to `x`. -/
def Touches (e : Ev) (x : Var) : Prop := (∃ v, e.op = .read x v) ∨ ∃ v, e.op = .act (.write x v)
def Writes (e : Ev) (x : Var) : Prop := ∃ v, e.op = .act (.write x v)

/-- "Synchronized before" (go.dev/ref/mem): a direct edge from event `i` to event `j` of the trace. -/
inductive Edge (tr : List Ev) : Nat → Nat → Prop
  /-- The order of one goroutine. -/
  | same (i j : Nat) (a b : Ev) : i < j → tr[i]? = some a → tr[j]? = some b → a.tid = b.tid → Edge tr i j
  /-- The go statement is before what the new goroutine does. -/
  | fork (i j : Nat) (a b : Ev) (w : Bool) : i < j → tr[i]? = some a → tr[j]? = some b → a.op = .fork b.tid w → Edge tr i j
  /-- Unlock is before a later Lock or RLock. -/
  | unlock (i j : Nat) (a b : Ev) (m : Mu) : i < j → tr[i]? = some a → tr[j]? = some b → a.op = .act (.unlock m) →
      (b.op = .act (.lock m) ∨ b.op = .act (.rlock m)) → Edge tr i j
  /-- RUnlock is before a later Lock. -/
  | runlock (i j : Nat) (a b : Ev) (m : Mu) : i < j → tr[i]? = some a → tr[j]? = some b → a.op = .act (.runlock m) →
      b.op = .act (.lock m) → Edge tr i j
  /-- An atomic store is before a load that sees it. -/
  | atomic (i j : Nat) (a b : Ev) (f : Flag) : i < j → tr[i]? = some a → tr[j]? = some b → a.op = .act (.store f) →
      b.op = .act (.load f) → (∀ k e, i < k → k < j → tr[k]? = some e → e.op ≠ .act (.store f)) → Edge tr i j
  /-- What a worker did is before the end of a later wait for the workers. -/
  | wait (i j k : Nat) (f a b : Ev) : k < i → i < j → tr[k]? = some f → tr[i]? = some a → tr[j]? = some b →
      f.op = .fork a.tid true → b.op = .act .wait → Edge tr i j

/-- "Happens before". -/
inductive HB (tr : List Ev) : Nat → Nat → Prop
  | edge (i j : Nat) : Edge tr i j → HB tr i j
  | trans (i j k : Nat) : HB tr i j → HB tr j k → HB tr i k

/-- A data race on `x` between events `i` and `j`. -/
def RaceAt (tr : List Ev) (x : Var) (i j : Nat) : Prop :=
  ∃ a b, tr[i]? = some a ∧ tr[j]? = some b ∧ a.tid ≠ b.tid ∧ Touches a x ∧ Touches b x ∧ (Writes a x ∨ Writes b x) ∧ ¬ HB tr i j ∧ ¬ HB tr j i

def Race (tr : List Ev) (x : Var) : Prop := ∃ i j, RaceAt tr x i j

/-- The runs of the program: any number of rounds and requests, any schedule. -/
def Reached (rs : List Round) (reqs : List Request) (c : Cfg) : Prop := ∃ sched, (Cfg.start rs reqs).run sched = some c

/-- The goroutine has ended. -/
def Ended (c : Cfg) (t : Nat) : Prop := ∃ w, c.threads[t]? = some ⟨w, .done⟩

/-- From `c` a schedule leads to `c'` by events with `P` only. -/
def Only (P : Ev → Prop) (c c' : Cfg) : Prop :=
  ∃ (sched : List Nat) (new : List Ev), c.run sched = some c' ∧ c'.trace = c.trace ++ new ∧ ∀ e ∈ new, P e

/-- No client takes what is written to it. -/
def NoClient (e : Ev) : Prop := e.op ≠ .act .client

/-- Nothing that may take long: no network, disk or computing, no waiting for workers, no client but the one of goroutine `t`. -/
def Quick (t : Nat) (e : Ev) : Prop := e.op ≠ .act .outside ∧ e.op ≠ .act .wait ∧ (e.op = .act .client → e.tid = t)

/-- The fields with no protection against the handlers of these requests. -/
def Exposed (reqs : List Request) : Var → Prop
  | .lastComputed => .info ∈ reqs ∨ ∃ m, .roas true m ∈ reqs
  | .ptr .list | .body .list _ | .talsCount | .duration => .info ∈ reqs
  | _ => False

end Verif.ConcSpec
