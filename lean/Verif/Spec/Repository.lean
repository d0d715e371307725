import Verif.Spec.Manager
/-
  Specification for exploring without manifests: which repositories were read, and what a reading gives.
-/
set_option autoImplicit false

namespace Verif.ManagerSpec
open Pki Manager

/-- A manifest file of the repository `r` has left the queue. -/
def RepoTaken (m : M) (r : Bytes) : Prop := ∃ i f, i ∈ taken m.trace ∧ m.files[i]? = some f ∧ f.type = .mft ∧ f.repo = r

/-- A file with the path `p` was given to the Validator. -/
def PathAdded (m : M) (p : Bytes) : Prop := ∃ i, i ∈ added m.trace ∧ m.pathOf i = p

/-- The event gives to the Validator what the call hands over, as a file below file `fid`. -/
def Gives (m : M) (fid : Nat) (e : Event) (c : Call) : Prop :=
  ∃ i, e = .added i c.data c.sha ∧ m.files[i]? = some { c.file with parent := some fid }

end Verif.ManagerSpec
