import Verif.Model.EndToEnd
/-
  The command localrpki: one exploration for each trust anchor locator (TAL), then one line for each entry of each
  valid ROA.  File cmd/localrpki/localrpki.go.
-/
set_option autoImplicit false

namespace Verif.LocalRpki
open Pki Manager Out EndToEnd Net

/-- pki.go:841 `PathOfResource[res] = file`: written together with `ResourceOfPath` (line 842), which the model has as
    `resOf`, newest first. The file of a resource is the one it was written with last. -/
def pathOfResource (m : M) (j : Nat) : Option Nat := (m.resOf.find? (fun e => e.2 == some j)).map (·.1)

/-- localrpki.go:32-37 `OutputROA`, with the order of its fields in the output. -/
structure OutputROA where
  asn : Bytes
  prefixText : Bytes
  maxLength : Int
  path : Bytes
  deriving Repr, DecidableEq

/-- localrpki.go:104 `manager.PathOfResource[roa].ComputePath()`: no entry is a nil pointer, which is dereferenced. -/
def filePath (m : M) (j : Nat) : Go Bytes :=
  match pathOfResource m j with
  | none => .panic
  | some fid =>
    match m.files[fid]? with
    | none => .panic
    | some f => .ok (f.computePath m.files)

/-- localrpki.go:99-107: the line of one entry. -/
def entryLine (m : M) (j : Nat) (asn : Int) (e : Roa.ROAEntry) : Go OutputROA := do
  let p ← filePath m j
  return ⟨asc "AS".toList ++ intText asn, ipNetString e.ipnet, e.maxLength, p⟩

/-- localrpki.go:99-107: the lines of the entries of one ROA. -/
def linesOf (m : M) (j : Nat) (asn : Int) : List Roa.ROAEntry → Go (List OutputROA)
  | [] => .ok []
  | e :: rest => do
    let x ← entryLine m j asn e
    let l ← linesOf m j asn rest
    return x :: l

/-- localrpki.go:97-108: the lines of the ROA of one key; a failed type assertion panics. -/
def roaLines (m : M) (k : Bytes) : Go (List OutputROA) :=
  match m.v.validROA.get k with
  | none => .panic
  | some j =>
    match m.v.heap[j]? with
    | none => .panic
    | some res =>
      match res.data with
      | .roa roa => linesOf m j roa.asn roa.valids
      | _ => .panic

/-- localrpki.go:97: the loop over the map, with the keys in some order. -/
def talLines (m : M) : List Bytes → Go (List OutputROA)
  | [] => .ok []
  | k :: rest => do
    let x ← roaLines m k
    let l ← talLines m rest
    return x ++ l

/-- localrpki.go:67-109: the TALs one after the other, each with a new validator and a new manager. -/
def runTals (fl : Flags) : List TalRun → Go (List (TalRun × M) × List OutputROA)
  | [] => .ok ([], [])
  | r :: rest => do
    let m ← exploreTal fl r
    let x ← talLines m (r.order (keysOf m.v.validROA))
    let y ← runTals fl rest
    return ((r, m) :: y.1, x ++ y.2)

end Verif.LocalRpki
