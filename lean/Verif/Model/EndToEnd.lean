import Verif.Model.Manager
import Verif.Model.Output
import Verif.Model.Local
/-
  One validation of the command octorpki: for each trust anchor locator (TAL) an exploration with a new
  validator, then the list of VRPs from the valid ROAs of all of them.  File cmd/octorpki/octorpki.go.
-/
set_option autoImplicit false

namespace Verif.EndToEnd
open Pki Manager Out

/-- What one validation meets for one TAL: the path of the TAL file, what the exploration finds outside, a
    bound on its length (exploration ends, C27), the order in which the map of valid ROAs is walked (Go
    leaves it open), and what `GetFileConv(file, false)` answers when the list is made. -/
structure TalRun where
  path : Bytes
  world : World
  fuel : Nat
  order : List Bytes → List Bytes
  perm : ∀ l, (order l).Perm l
  reread : PKIFile → Fetch

/-- octorpki.go:1425-1431: the file of the TAL. -/
def TalRun.file (r : TalRun) : PKIFile := ⟨none, [], r.path, .tal, false, none⟩

/-- The flags that matter (octorpki.go:50-65, 93). `strict.cms` belongs to the decoders of the world. -/
structure Flags where
  useManifest : Bool
  strictManifests : Bool
  strictHash : Bool
  filter : Bool
  validity : Int

/-- octorpki.go:1055-1070: the settings of the manager. -/
def Flags.cfg (fl : Flags) : Cfg := ⟨!fl.useManifest, false, fl.strictManifests, fl.strictHash, true, true⟩

/-- octorpki.go:1050-1070: the exploration for one TAL. -/
def exploreTal (fl : Flags) (r : TalRun) : Go M := do
  let x ← ((M.new V.new).putFiles [r.file]).explore fl.cfg r.world r.fuel
  return x.1

/-- octorpki.go:1050: one after the other. -/
def exploreTals (fl : Flags) : List TalRun → Go (List (TalRun × M))
  | [] => .ok []
  | r :: rest => do
    let m ← exploreTal fl r
    let l ← exploreTals fl rest
    return (r, m) :: l

/-- octorpki.go:783-788: the name of the TAL in the list. -/
def talName (names : List Bytes) (n i : Nat) (path : Bytes) : Bytes :=
  if names.length = n then names[i]?.getD path else path

/-- octorpki.go:882-893: the file of the object is read again; `nil, nil` is a nil dereference. The hash is
    only used for resources.json. -/
def readAgain (r : TalRun) (m : M) (file : Option Nat) : Go Unit :=
  match file with
  | none => .ok ()
  | some i =>
    match m.files[i]? with
    | none => .panic
    | some f =>
      match r.reread f with
      | .absent => .panic
      | _ => .ok ()

/-- octorpki.go:878-893: the object of one key; a failed type assertion panics. -/
def roaOf (r : TalRun) (m : M) (k : Bytes) : Go ROA :=
  match m.v.validROA.get k with
  | none => .panic
  | some j =>
    match m.v.heap[j]? with
    | none => .panic
    | some res =>
      match res.data with
      | .roa roa =>
        match readAgain r m res.file with
        | .ok _ => .ok roa
        | _ => .panic
      | _ => .panic

/-- octorpki.go:878: the loop over the map, with the keys in some order. -/
def roasOf (r : TalRun) (m : M) : List Bytes → Go (List ROA)
  | [] => .ok []
  | k :: rest => do
    let roa ← roaOf r m k
    let l ← roasOf r m rest
    return roa :: l

/-- The keys of a map. -/
def keysOf {α : Type} (m : Map α) : List Bytes := Cache.oncePer (m.map (·.1))

/-- octorpki.go:781-982: what the list takes from each TAL; `n` is the number of TALs, `i` the number of the
    first of the list. -/
def exportTals (names : List Bytes) (n : Nat) : Nat → List (TalRun × M) → Go (List TalResult)
  | _, [] => .ok []
  | i, (r, m) :: rest => do
    let roas ← roasOf r m (r.order (keysOf m.v.validROA))
    let l ← exportTals names n (i + 1) rest
    return ⟨talName names n i r.path, roas⟩ :: l

/-- octorpki.go:1037-1142 `mainValidation` with 771-1022 `generateROAList`: the managers at the end, and the
    list before it is signed. (Jobs for the next fetches: C56-C64.) -/
def mainValidation (fl : Flags) (names : List Bytes) (now : Int) (runs : List TalRun) : Go (List (TalRun × M) × ROAList) := do
  let ms ← exploreTals fl runs
  let ts ← exportTals names runs.length 0 ms
  let L ← generateROAList fl.filter now fl.validity ts
  return (ms, L)

end Verif.EndToEnd
