import Verif.Model.Loop
/-
  Notions of the loop properties (C56-C59).  They speak about what the rounds found; the only thing taken
  from the loop is how far it has come.
-/
set_option autoImplicit false

namespace Verif.LoopSpec
open Loop

/-- The repository was found by one of the rounds before round `k`. -/
def Known {L : Type} (rounds : Nat → Round L) (k : Nat) (r : Bytes) : Prop := ∃ j < k, r ∈ (rounds j).repos

/-- Round `k` (counted from 0) is not the first one and found no repository unknown to the rounds before. -/
def Quiet {L : Type} (rounds : Nat → Round L) (k : Nat) : Prop :=
  0 < k ∧ ∀ r ∈ (rounds k).repos, Known rounds k r

/-- How many rounds have published their list: all that began, except one that is still fetching. -/
def validatedRounds {L : Type} (s : State L) : Nat :=
  match s.pc with
  | .fetched => s.iterations - 1
  | _ => s.iterations

/-- How many rounds have been reduced and have set the first flag. -/
def reducedRounds {L : Type} (s : State L) : Nat :=
  match s.pc with
  | .fetched | .validated => s.iterations - 1
  | _ => s.iterations

/-- How many rounds have been reduced and have set both flags. -/
def settledRounds {L : Type} (s : State L) : Nat :=
  match s.pc with
  | .fetched | .validated | .stored => s.iterations - 1
  | _ => s.iterations

/-- The loop waits, or has ended, at the iteration limit `n`: at least `n + 1` rounds have been run, and none of the
    `n` rounds before the last one was quiet. -/
def AtLimit {L : Type} (rounds : Nat → Round L) (n : Nat) (s : State L) : Prop :=
  n + 1 ≤ s.iterations ∧ ∀ j, j + 1 < s.iterations → s.iterations ≤ j + n + 1 → ¬ Quiet rounds j

open Classical in
/-- The lists of those of the first `n` rounds that are to be written: all of them if the run does not wait
    for a stable state, otherwise those of the quiet rounds. -/
noncomputable def toWrite {L : Type} (c : Config) (rounds : Nat → Round L) (n : Nat) : List L :=
  ((List.range n).filter fun k => decide (c.waitStable = false ∨ Quiet rounds k)).map fun k => (rounds k).list

end Verif.LoopSpec
