import Verif.Model.LocalRpki
import Verif.Spec.Output
import Verif.Spec.Pki
/-
  Specification for C100: what a line of the output of localrpki says, and where its path leads.
-/
set_option autoImplicit false

namespace Verif.LocalRpkiSpec
open Pki PkiSpec Manager Roa LocalRpki

/-- A reader of the line, in the notation of octorpki's list, understands this prefix, max length and AS number. -/
def Understood (x : OutputROA) (v : OutSpec.Vrp) : Prop :=
  OutSpec.Reads ⟨x.prefixText, x.maxLength.toNat.toUInt8, x.asn, []⟩ v ∧ x.maxLength = v.maxLength

/-- The FileSeeker gave a file for this path, and the ROA was decoded from it. -/
def FoundAt (W : World) (m : M) (roa : ROA) (path : Bytes) : Prop :=
  ∃ i f n data sha, m.files[i]? = some f ∧ m.pathOf i = path ∧ W.getFile n path f = .found data sha ∧ decodeROA W.env data = .ok roa

/-- The ROAs that are valid in a state, with their keys. -/
def ValidRoa (m : M) (k : Bytes) (roa : ROA) : Prop := 
  ∃ j res, m.v.validROA.get k = some j ∧ m.v.heap[j]? = some res ∧ res.data = .roa roa

/-- The valid ROAs of a state, each once. -/
def Enumerates (m : M) (b : List (Bytes × ROA)) : Prop := (b.map (·.1)).Nodup ∧ ∀ k roa, (k, roa) ∈ b ↔ ValidRoa m k roa

/-- What one line says, without the path. -/
def said (x : OutputROA) : Bytes × Bytes × Int := (x.asn, x.prefixText, x.maxLength)

end Verif.LocalRpkiSpec
