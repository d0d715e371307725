import Verif.Model.Pki
/-
  Model of validator/pki/pki.go: SimpleManager, the exploration of repositories.

  Files live in a list that only grows; a `*PKIFile` is an index into it. The FileSeeker, the wall
  clock and the decoders are parameters that may answer differently at every step. The error channel
  (pki.go:118-130, only used to report) and `PathOfResource` (only used to print) are left out.
  `trace` is not in the code: it records the calls that an observer of the FileSeeker and of the
  Validator sees.
-/
set_option autoImplicit false

namespace Verif.Manager
open Pki

/-- The answer of `FileSeeker.GetFile`: an error, no file (nil, nil), or data with an optional hash. -/
inductive Fetch where
  | fail
  | absent
  | found (data : Bytes) (sha : Option Bytes)
  deriving Repr, DecidableEq

/-- One call of the callback by `FileSeeker.GetRepository`: file, data, hash, `addInvalidChilds`. -/
structure Call where
  file : PKIFile
  data : Bytes
  sha : Option Bytes
  addInvalid : Bool
  deriving Repr, DecidableEq

/-- What the manager takes from outside. The first argument of each function is the number of the step.
    `getFile` gets the computed path and the file; `getRepository` gives the callback's arguments and
    whether it ended without error; `now1` and `now2` are the two readings of the clock (line 874). -/
structure World where
  env : Env
  getFile : Nat → Bytes → PKIFile → Fetch
  getRepository : Nat → PKIFile → List Call × Bool
  now1 : Nat → Int
  now2 : Nat → Int

/-- The arguments of `Explore` and the settings of the manager (pki.go:86-113). -/
structure Cfg where
  notMFT : Bool
  addInvalidChilds : Bool
  strictManifests : Bool
  strictHash : Bool
  hasSeeker : Bool
  hasLog : Bool
  deriving Repr, DecidableEq

/-- What an observer sees: a file leaves the queue; it is asked for at the FileSeeker; it is given to the
    Validator with the data that came (and the hash that came with it). -/
inductive Event where
  | taken (fid : Nat)
  | fetched (fid : Nat)
  | added (fid : Nat) (data : Bytes) (sha : Option Bytes)
  deriving Repr, DecidableEq

/-- pki.go:86-101 `SimpleManager`. `explored` and `unique` are the keys of the two maps of paths;
    `resOf` is `ResourceOfPath` (a nil resource is `none`). -/
structure M where
  v : V
  files : List PKIFile
  queue : List Nat
  explored : List Bytes
  unique : List Bytes
  resOf : List (Nat × Option Nat)
  clock : Nat
  trace : List Event
  deriving DecidableEq

/-- pki.go:103-113 `NewSimpleManager`, with a validator. -/
def M.new (v : V) : M := ⟨v, [], [], [], [], [], 0, []⟩

/-- The computed path of a file. -/
def M.pathOf (m : M) (i : Nat) : Bytes :=
  match m.files[i]? with
  | some f => f.computePath m.files
  | none => []

/-- pki.go:132-144: one file. -/
def M.put1 (m : M) (f : PKIFile) : M :=
  let path := f.computePath m.files
  if path ∈ m.explored ∨ path ∈ m.unique then { m with files := m.files ++ [f] }
  else { m with files := m.files ++ [f], unique := path :: m.unique, queue := m.queue ++ [m.files.length] }

/-- pki.go:131-145 `PutFiles` (and 768-770 `AddInitial`). -/
def M.putFiles (m : M) (l : List PKIFile) : M := l.foldl M.put1 m

/-- `sm.Log.Debugf`: a nil log panics. -/
def logged (cfg : Cfg) (m : M) : Go M := if cfg.hasLog then .ok m else .panic

/-- pki.go:774, 795: `file.Parent` of type `t` with a parent of type CER; the file of that parent. -/
def M.grandCer (m : M) (f : PKIFile) (t : FType) : Option (Nat × PKIFile) :=
  match f.parent with
  | none => none
  | some p =>
    match m.files[p]? with
    | none => none
    | some pf =>
      if pf.type = t then
        match pf.parent with
        | none => none
        | some g =>
          match m.files[g]? with
          | none => none
          | some gf => if gf.type = .cer then some (g, gf) else none
      else none

/-- pki.go:777-790, 798-811: the certificate of the resource is invalidated. -/
def M.invalidateRes (cfg : Cfg) (m : M) (res : Option Nat) : Go M :=
  match res with
  | some r =>
    match m.v.certOf r with
    | some c => do
      let v ← m.v.invalidateObject c.ski
      return { m with v := v }
    | none => logged cfg m
  | none => logged cfg m

/-- pki.go:773-792 `InvalidateManifestParent`. -/
def M.invalidateManifestParent (cfg : Cfg) (m : M) (f : PKIFile) : Go M :=
  match m.grandCer f .mft with
  | some (g, _) => m.invalidateRes cfg ((m.resOf.lookup g).bind id)
  | none => .ok m

/-- pki.go:794-813 `InvalidateCRLParent`. -/
def M.invalidateCRLParent (cfg : Cfg) (m : M) (f : PKIFile) : Go M :=
  match m.grandCer f .crl with
  | some (_, gf) => m.invalidateRes cfg (m.v.objectsPath.get gf.path)
  | none => .ok m

/-- pki.go:815-846 `ExploreAdd`. -/
def M.exploreAdd (W : World) (m : M) (fid : Nat) (data : Bytes) (sha : Option Bytes) (addInvalid : Bool) : Go M := do
  let a ← m.v.addResource W.env m.files fid data
  let m1 : M := { m with
    v := a.1
    explored := m.pathOf fid :: m.explored
    trace := m.trace ++ [.added fid data sha] }
  if addInvalid || a.2.valid then
    let m2 := m1.putFiles (withParent fid a.2.files)
    return { m2 with resOf := (fid, a.2.res) :: m2.resOf }
  else return m1

/-- pki.go:160-174 `GetNextFile`. -/
def M.getNextFile (cfg : Cfg) (W : World) (m : M) (fid : Nat) (f : PKIFile) : M × Fetch :=
  if m.pathOf fid ∈ m.explored then (m, .fail)
  else if cfg.hasSeeker then
    ({ m with trace := m.trace ++ [.fetched fid] }, W.getFile m.clock (m.pathOf fid) f)
  else (m, .fail)

/-- pki.go:868-883: an expired manifest invalidates its CA. -/
def M.checkExpired (cfg : Cfg) (W : World) (m : M) (f : PKIFile) : Go M :=
  match f.parent with
  | none => .ok m
  | some p =>
    match m.files[p]? with
    | none => .ok m
    | some pf =>
      if pf.type = .mft then
        match (m.resOf.lookup p).bind id with
        | some r =>
          match m.v.heap[r]? with
          | some res =>
            match res.data with
            | .mft c =>
              if W.now1 m.clock > c.nextUpdate ∨ W.now2 m.clock < c.thisUpdate then
                m.invalidateManifestParent cfg f
              else .ok m
            | _ => logged cfg m
          | none => logged cfg m
        | none => logged cfg m
      else .ok m

/-- pki.go:867-889: the answer after the checks of expiry and hash. -/
def M.checkHash (cfg : Cfg) (W : World) (m : M) (f : PKIFile) (r : Fetch) : Go (M × Fetch) :=
  match r with
  | .found data (some sha) =>
    match f.manifestHash with
    | some h =>
      if cfg.strictHash then do
        let m1 ← m.checkExpired cfg W f
        if sha ≠ h then return (m1, .fail) else return (m1, .found data (some sha))
      else .ok (m, r)
    | none => .ok (m, r)
  | _ => .ok (m, r)

/-- pki.go:891-898: a missing file invalidates the CA of its manifest. -/
def M.strict (cfg : Cfg) (m : M) (f : PKIFile) : Go M :=
  if cfg.strictManifests then m.invalidateManifestParent cfg f else .ok m

/-- pki.go:891-910: what is done with the answer. -/
def M.useAnswer (cfg : Cfg) (W : World) (m : M) (fid : Nat) (f : PKIFile) (r : Fetch) : Go M :=
  match r with
  | .fail => do
    let m1 ← m.strict cfg f
    m1.invalidateCRLParent cfg f
  | .absent => m.strict cfg f
  | .found data sha => m.exploreAdd W fid data sha cfg.addInvalidChilds

/-- The calls of the callback, one after the other. The FileSeeker makes a new file for each, below the
    file asked for (sync/lib/fetch.go:153-158). -/
def runCalls (W : World) (fid : Nat) : List Call → M → Go M
  | [], m => .ok m
  | c :: rest, m => do
    let m1 : M := { m with files := m.files ++ [{ c.file with parent := some fid }] }
    let m2 ← m1.exploreAdd W m.files.length c.data c.sha c.addInvalid
    runCalls W fid rest m2

/-- pki.go:178-188 `GetNextRepository`; its error is only reported. -/
def M.getNextRepository (cfg : Cfg) (W : World) (m : M) (fid : Nat) (f : PKIFile) : Go M :=
  if f.repo ∈ m.explored ∨ cfg.hasSeeker = false then .ok m
  else runCalls W fid (W.getRepository m.clock f).1 m

/-- pki.go:911-917: a manifest in `notMFT` mode: the whole repository is read. -/
def M.exploreRepo (cfg : Cfg) (W : World) (m : M) (fid : Nat) (f : PKIFile) : Go M := do
  let m1 ← m.getNextRepository cfg W fid f
  return { m1 with explored := f.repo :: m1.explored }

/-- pki.go:864-917: one round for the file at the head of the queue. -/
def M.handle (cfg : Cfg) (W : World) (m : M) (fid : Nat) (f : PKIFile) : Go M :=
  if cfg.notMFT = false ∨ f.type ≠ .mft then do
    let r := m.getNextFile cfg W fid f
    let x ← r.1.checkHash cfg W f r.2
    x.1.useAnswer cfg W fid f x.2
  else m.exploreRepo cfg W fid f

/-- pki.go:853-919: one round of the loop. With an empty queue, `GetNextExplore` (pki.go:151-158) gives an
    error and a nil file, which is then dereferenced. -/
def M.exploreStep (cfg : Cfg) (W : World) (m : M) : Go M :=
  match m.queue with
  | [] => .panic
  | fid :: rest =>
    match m.files[fid]? with
    | none => .panic
    | some f => do
      let m1 : M := { m with queue := rest, trace := m.trace ++ [.taken fid] }
      let m2 ← m1.handle cfg W fid f
      return { m2 with clock := m2.clock + 1 }

/-- pki.go:147-149 `HasMore`. -/
def M.hasMore (m : M) : Bool := !m.queue.isEmpty

/-- pki.go:850-921: the loop of `Explore`, with its variables `hasMore` and `count`. Out of fuel is
    `diverge`. -/
def exploreLoop (cfg : Cfg) (W : World) : (fuel : Nat) → M → (hasMore : Bool) → (count : Nat) → Go (M × Nat)
  | 0, _, _, _ => .diverge
  | _ + 1, m, false, count => .ok (m, count)
  | n + 1, m, true, count => do
    let m1 ← m.exploreStep cfg W
    exploreLoop cfg W n m1 m1.hasMore (count + 1)

/-- pki.go:850-921 `Explore`. -/
def M.explore (cfg : Cfg) (W : World) (fuel : Nat) (m : M) : Go (M × Nat) := exploreLoop cfg W fuel m m.hasMore 0

end Verif.Manager
