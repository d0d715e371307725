import Verif.Model.Manager
/-
  Model of the error reports of validator/pki: errors.go, the channel `Errors` of the SimpleManager, and
  the functions of the manager with what they send on it. `Model/Manager` is the same code without the
  reports; that both agree is proved (C97_same).

  Of an error an observer sees here its type (errors.go:12-23), the file it names and the second file it
  names. Left out: the texts, the certificates and data attached to an error, and the stack traces.
-/
set_option autoImplicit false

namespace Verif.Manager
open Pki

/-- errors.go:12-23, 29-40: the types of errors. -/
inductive Kind where
  | unknown | expiration | parent | revocation | resource | conflict | file | manifest | hash | crl
  deriving Repr, DecidableEq

/-- A value sent on the channel: a nil error; an error made by `errors.New` whose text names a path; another
    error without file information; an error that names a file (`File`, and `InnerFile` if any). -/
inductive Report where
  | nothing
  | text (path : Bytes)
  | other
  | about (kind : Kind) (file : Nat) (inner : Option Nat)
  deriving Repr, DecidableEq

/-- The types that `ValidateCertificate` and `AddCert` give their errors (pki.go:435, 470, 481-496, 507-512,
    528-532, 544), by the text that stands for the error in `Model/Pki`; the errors that `AddROA` and
    `AddManifest` make themselves are of unknown type (pki.go:582, 628; errors.go:356-370
    `NewResourceErrorWrap`). -/
def kindOfText (m : String) : Kind :=
  if m = "validity" then .expiration
  else if m = "conflict" then .conflict
  else if m = "revocation" then .revocation
  else if m = "resource" then .resource
  else if m = "Could not validate certificate due to wrong entry" ∨ m = "ROA inner validity error" ∨
    m = "Manifest inner validity error" then .unknown
  else .parent

/-- pki.go:820-828: an error that comes without a resource is none of the types of errors.go and becomes a
    FileError (errors.go:288-295 `NewFileError`); the others keep their type. -/
def kindOf (a : Added) (m : String) : Kind := if a.res.isNone then .file else kindOfText m

/-- pki.go:119-123 `reportError`: only with `ReportErrors`. -/
def send (rep : Bool) (r : Report) : List Report := if rep then [r] else []

/-- pki.go:819-836: what `ExploreAdd` reports about the answer of the Validator. -/
def addReports (rep : Bool) (cfg : Cfg) (fid : Nat) (a : Added) : List Report :=
  match a.error with
  | some m => if cfg.hasLog then send rep (.about (kindOf a m) fid none) else []
  | none => if a.valid = false then send rep .nothing else []

/-- pki.go:815-846 `ExploreAdd`. -/
def M.exploreAddR (rep : Bool) (cfg : Cfg) (W : World) (m : M) (fid : Nat) (data : Bytes) (sha : Option Bytes)
    (addInvalid : Bool) : Go (M × List Report) := do
  let a ← m.v.addResource W.env m.files fid data
  let rs := addReports rep cfg fid a.2
  let m1 : M := { m with
    v := a.1
    explored := m.pathOf fid :: m.explored
    trace := m.trace ++ [.added fid data sha] }
  if addInvalid || a.2.valid then
    let m2 := m1.putFiles (withParent fid a.2.files)
    return ({ m2 with resOf := (fid, a.2.res) :: m2.resOf }, rs)
  else return (m1, rs)

/-- pki.go:777-790, 798-811: the certificate of the resource is invalidated, which is reported. -/
def M.invalidateResR (rep : Bool) (cfg : Cfg) (m : M) (res : Option Nat) (r : Report) : Go (M × List Report) :=
  match res with
  | some i =>
    match m.v.certOf i with
    | some c => do
      let v ← m.v.invalidateObject c.ski
      return ({ m with v := v }, send rep r)
    | none => do
      let m1 ← logged cfg m
      return (m1, [])
  | none => do
    let m1 ← logged cfg m
    return (m1, [])

/-- pki.go:773-792 `InvalidateManifestParent`; errors.go:251-260 `NewCertificateErrorManifestRevocation`. -/
def M.invalidateManifestParentR (rep : Bool) (cfg : Cfg) (m : M) (fid : Nat) (f : PKIFile) : Go (M × List Report) :=
  match m.grandCer f .mft with
  | some (g, _) => m.invalidateResR rep cfg ((m.resOf.lookup g).bind id) (.about .manifest g (some fid))
  | none => .ok (m, [])

/-- pki.go:794-813 `InvalidateCRLParent`; errors.go:262-271 `NewCertificateErrorCRLRevocation`. -/
def M.invalidateCRLParentR (rep : Bool) (cfg : Cfg) (m : M) (fid : Nat) (f : PKIFile) : Go (M × List Report) :=
  match m.grandCer f .crl with
  | some (g, gf) => m.invalidateResR rep cfg (m.v.objectsPath.get gf.path) (.about .crl g (some fid))
  | none => .ok (m, [])

/-- pki.go:160-174 `GetNextFile`: the error of a failure. Errors made by `errors.New` do not get file
    information (pki.go:124-129 `reportErrorFile`). -/
def M.fetchError (cfg : Cfg) (m : M) (fid : Nat) : Report :=
  if m.pathOf fid ∈ m.explored then .text (m.pathOf fid)
  else if cfg.hasSeeker then .about .file fid none
  else .other

/-- pki.go:868-883: an expired manifest invalidates its CA. -/
def M.checkExpiredR (rep : Bool) (cfg : Cfg) (W : World) (m : M) (fid : Nat) (f : PKIFile) : Go (M × List Report) :=
  match f.parent with
  | none => .ok (m, [])
  | some p =>
    match m.files[p]? with
    | none => .ok (m, [])
    | some pf =>
      if pf.type = .mft then
        match (m.resOf.lookup p).bind id with
        | some r =>
          match m.v.heap[r]? with
          | some res =>
            match res.data with
            | .mft c =>
              if W.now1 m.clock > c.nextUpdate ∨ W.now2 m.clock < c.thisUpdate then
                m.invalidateManifestParentR rep cfg fid f
              else .ok (m, [])
            | _ => do let m1 ← logged cfg m; return (m1, [])
          | none => do let m1 ← logged cfg m; return (m1, [])
        | none => do let m1 ← logged cfg m; return (m1, [])
      else .ok (m, [])

/-- pki.go:867-889: the answer after the checks of expiry and hash, with the error if it is a failure
    (errors.go:372-379 `NewResourceErrorHash`). -/
def M.checkHashR (rep : Bool) (cfg : Cfg) (W : World) (m : M) (fid : Nat) (f : PKIFile) (r : Fetch) (e : Report) :
    Go (M × Fetch × Report × List Report) :=
  match r with
  | .found data (some sha) =>
    match f.manifestHash with
    | some h =>
      if cfg.strictHash then do
        let x ← m.checkExpiredR rep cfg W fid f
        if sha ≠ h then return (x.1, .fail, .about .hash fid none, x.2)
        else return (x.1, .found data (some sha), e, x.2)
      else .ok (m, r, e, [])
    | none => .ok (m, r, e, [])
  | _ => .ok (m, r, e, [])

/-- pki.go:891-898: a missing file invalidates the CA of its manifest. -/
def M.strictR (rep : Bool) (cfg : Cfg) (m : M) (fid : Nat) (f : PKIFile) : Go (M × List Report) :=
  if cfg.strictManifests then m.invalidateManifestParentR rep cfg fid f else .ok (m, [])

/-- pki.go:891-910: what is done with the answer. -/
def M.useAnswerR (rep : Bool) (cfg : Cfg) (W : World) (m : M) (fid : Nat) (f : PKIFile) (r : Fetch) (e : Report) :
    Go (M × List Report) :=
  match r with
  | .fail => do
    let x ← m.strictR rep cfg fid f
    let y ← x.1.invalidateCRLParentR rep cfg fid f
    return (y.1, x.2 ++ send rep e ++ y.2)
  | .absent => m.strictR rep cfg fid f
  | .found data sha => m.exploreAddR rep cfg W fid data sha cfg.addInvalidChilds

/-- The calls of the callback, one after the other, as in `runCalls`. -/
def runCallsR (rep : Bool) (cfg : Cfg) (W : World) (fid : Nat) : List Call → M → Go (M × List Report)
  | [], m => .ok (m, [])
  | c :: rest, m => do
    let m1 : M := { m with files := m.files ++ [{ c.file with parent := some fid }] }
    let x ← m1.exploreAddR rep cfg W m.files.length c.data c.sha c.addInvalid
    let y ← runCallsR rep cfg W fid rest x.1
    return (y.1, x.2 ++ y.2)

/-- pki.go:178-188, 911-917: a manifest in `notMFT` mode; the error of `GetNextRepository` is reported. -/
def M.exploreRepoR (rep : Bool) (cfg : Cfg) (W : World) (m : M) (fid : Nat) (f : PKIFile) : Go (M × List Report) :=
  if f.repo ∈ m.explored then .ok ({ m with explored := f.repo :: m.explored }, send rep (.text f.repo))
  else if cfg.hasSeeker = false then .ok ({ m with explored := f.repo :: m.explored }, send rep .other)
  else do
    let x ← runCallsR rep cfg W fid (W.getRepository m.clock f).1 m
    return ({ x.1 with explored := f.repo :: x.1.explored },
      x.2 ++ if (W.getRepository m.clock f).2 then [] else send rep .other)

/-- pki.go:864-917: one round for the file at the head of the queue. -/
def M.handleR (rep : Bool) (cfg : Cfg) (W : World) (m : M) (fid : Nat) (f : PKIFile) : Go (M × List Report) :=
  if cfg.notMFT = false ∨ f.type ≠ .mft then do
    let r := m.getNextFile cfg W fid f
    let x ← r.1.checkHashR rep cfg W fid f r.2 (m.fetchError cfg fid)
    let y ← x.1.useAnswerR rep cfg W fid f x.2.1 x.2.2.1
    return (y.1, x.2.2.2 ++ y.2)
  else m.exploreRepoR rep cfg W fid f

/-- pki.go:853-919: one round of the loop, with what it reports. -/
def M.exploreStepR (rep : Bool) (cfg : Cfg) (W : World) (m : M) : Go (M × List Report) :=
  match m.queue with
  | [] => .panic
  | fid :: rest =>
    match m.files[fid]? with
    | none => .panic
    | some f => do
      let m1 : M := { m with queue := rest, trace := m.trace ++ [.taken fid] }
      let x ← m1.handleR rep cfg W fid f
      return ({ x.1 with clock := x.1.clock + 1 }, x.2)

/-! ### The channel -/

/-- The channel `Errors` with its reader: what `Explore` has still to send, what is in the buffer
    (pki.go:109: room for 50), whether the channel is closed (pki.go:115-117 `Close`, octorpki.go:1124), what the
    collector has read (octorpki.go:756-769 `logCollector`), whether its loop has ended. -/
structure Chan where
  todo : List Report
  buf : List Report
  closed : Bool
  got : List Report
  ended : Bool
  deriving Repr, DecidableEq

/-- pki.go:109. -/
def chanRoom : Nat := 50

/-- octorpki.go:1067: the collector is started before the exploration. -/
def Chan.start (rs : List Report) : Chan := ⟨rs, [], false, [], false⟩

/-- One step of the manager or of the collector, in any order. A send waits for room; the channel is closed
    after the exploration; a read takes the oldest value; the loop `for … range` ends when the channel is
    closed and empty. -/
inductive Chan.Step : Chan → Chan → Prop where
  | send (c : Chan) (r : Report) (rest : List Report) (ht : c.todo = r :: rest) (hr : c.buf.length < chanRoom) :
      Chan.Step c { c with todo := rest, buf := c.buf ++ [r] }
  | close (c : Chan) (ht : c.todo = []) (hc : c.closed = false) : Chan.Step c { c with closed := true }
  | read (c : Chan) (r : Report) (rest : List Report) (hb : c.buf = r :: rest) (he : c.ended = false) :
      Chan.Step c { c with buf := rest, got := c.got ++ [r] }
  | finish (c : Chan) (hb : c.buf = []) (hc : c.closed = true) (he : c.ended = false) :
      Chan.Step c { c with ended := true }

end Verif.Manager
