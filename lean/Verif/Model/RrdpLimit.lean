import Verif.Model.Rrdp
import Verif.Model.Cache
import Verif.Model.Fetch
import Verif.Model.NetText
/-
  Errors of the RRDP client: sync/lib/rrdp.go `GetXML` with the limit on responses, sync/lib/errors.go, the errors that
  `FetchRRDP` returns, and what cmd/octorpki does with them (`rrdpError`).

  The run is that of Model/Rrdp, with the error in place of "there was an error". HTTP and the reading of XML are parameters.
-/
set_option autoImplicit false

namespace Verif.RrdpLimit
open Rrdp

/-- rrdp.go:17 `ResponseLimit`. (The comment there speaks of 5 GB.) -/
def responseLimit : Nat := 1000000000

/-- What happens to a request: the URL is refused (`http.NewRequest`), there is no answer (`Client.Do`), or there is one with a status and a body; the
    body may break off with an error (a lost connection, the timeout of 60 seconds). -/
inductive Answer where
  | badUrl (e : Bytes)
  | noAnswer (e : Bytes)
  | answer (status : Nat) (body : Bytes) (broken : Option Bytes)

/-- An error: one of sync/lib/errors.go:93-101 `NewRRDPErrorFetch` around another one, or any other, by its text. -/
inductive Err where
  | fetch (inner : Bytes)
  | text (t : Bytes)
  deriving DecidableEq, Repr

/-- rrdp.go:38-66 `GetXML`. `http.MaxBytesReader` gives an error as soon as there is one byte more than the limit; it passes an error of the body on if that
    comes before. -/
def getXML : Answer → Except Err Bytes
  | .badUrl e => .error (.fetch e)
  | .noAnswer e => .error (.fetch e)
  | .answer st b br =>
    if st ≠ 200 then .error (.fetch (asc "status is ".toList ++ Net.numText 10 st))
    else if responseLimit < b.length then .error (.text Fetch.tooLarge)
    else match br with
      | some e => .error (.text e)
      | none => .ok b

/-- sync/lib/errors.go:61-73 `Error` of an `RRDPError` with URL and rsync URL set (88-91 `SetURL`). -/
def rrdpErrorText (url rsync inner : Bytes) : Bytes :=
  asc "error fetching ".toList ++ (if url ≠ [] then asc "for repo rrdp:".toList ++ url ++ asc " (rsync:".toList ++ rsync ++ asc ")".toList else asc "for repo".toList) ++ asc ": ".toList ++ inner

/-- octorpki.go:490-492, 503: the text of the error after `SetURL`, which is there for an `RRDPError` only. -/
def errText (url rsync : Bytes) : Err → Bytes
  | .fetch inner => rrdpErrorText url rsync inner
  | .text t => t

def errXml : Err := .text (asc "XML does not conform to schema".toList)

/-- "illegal base64 data at input byte %d" -/
def errBase64 (value : Bytes) (at_ : Bytes → Nat) : Err := .text (asc "illegal base64 data at input byte ".toList ++ Net.numText 10 (at_ value))

/-- rrdp.go:306. (A negative serial does not come here with its sign; the text after the prefix is not used.) -/
def errDelta (serial : Int) : Err := .text (asc "Could not find delta with serial ".toList ++ Net.numText 10 serial.natAbs)

/-- What the client takes from outside; `at_` is the position of the first wrong byte of a base64 text. -/
structure EWorld where
  get : Nat → Bytes → Answer
  parseRoot : Bytes → Option Notification
  parseNode : Bytes → Option (List Item × List Item)
  at_ : Bytes → Nat

/-- The callback with the text of its error. -/
abbrev ECallback (σ : Type) := σ → Call → Go (σ × Option Bytes)

variable {σ : Type}

def callOneE (cb : ECallback σ) (r : R σ) (c : Call) : Go (R σ × Option Err) :=
  match cb r.st c with
  | .ok (s, e) => .ok ({ r with st := s, calls := r.calls ++ [(c, e.isNone)] }, e.map .text)
  | .err e => .err e
  | .panic => .panic
  | .diverge => .diverge

/-- rrdp.go:269-288, 339-358. With `strict = false` the callback's error is ignored (line 354). -/
def applyItemsE (W : EWorld) (cb : ECallback σ) (mk : Bytes → Bytes → Call) (strict : Bool) : List Item → R σ → Go (R σ × Option Err)
  | [], r => .ok (r, none)
  | i :: rest, r =>
    match decodeBase64 i.value with
    | none => .ok (r, some (errBase64 i.value W.at_))
    | some d => do
      let x ← callOneE cb r (mk i.uri d)
      match x.2 with
      | none => applyItemsE W cb mk strict rest x.1
      | some e => if strict then return (x.1, some e) else applyItemsE W cb mk strict rest x.1

def downloadE (W : EWorld) (r : R σ) (uri : Bytes) : R σ × Except Err Bytes :=
  ({ r with gets := r.gets ++ [uri] }, getXML (W.get r.gets.length uri))

/-- A download and `ParseNode` (rrdp.go:245-262, 312-330). -/
def nodeE (W : EWorld) (r : R σ) (uri : Bytes) : R σ × Except Err (List Item × List Item) :=
  let x := downloadE W r uri
  (x.1, match x.2 with
    | .error e => .error e
    | .ok d => match W.parseNode d with
      | none => .error errXml
      | some y => .ok y)

/-- rrdp.go:245-289. -/
def doSnapshotE (W : EWorld) (cb : ECallback σ) (s : Sys) (n : Notification) (r : R σ) : Go (R σ × Option Err) :=
  let x := nodeE W r n.snapshot.uri
  match x.2 with
  | .error e => .ok (x.1, some e)
  | .ok (pub, wd) => do
    let y ← applyItemsE W cb (fun u d => ⟨s.path, n.snapshot.uri, u, d, false, true, n.serial⟩) true pub x.1
    match y.2 with
    | none => applyItemsE W cb (fun u d => ⟨s.path, n.snapshot.uri, u, d, true, true, n.serial⟩) true wd y.1
    | some e => return (y.1, some e)

/-- rrdp.go:312-359. -/
def doDeltaE (W : EWorld) (cb : ECallback σ) (s : Sys) (n : Notification) (el : El) (r : R σ) : Go (R σ × Option Err) :=
  let x := nodeE W r el.uri
  match x.2 with
  | .error e => .ok (x.1, some e)
  | .ok (pub, wd) => do
    let y ← applyItemsE W cb (fun u d => ⟨s.path, n.snapshot.uri, u, d, false, false, el.serial⟩) true pub x.1
    match y.2 with
    | none => applyItemsE W cb (fun u d => ⟨s.path, n.snapshot.uri, u, d, true, false, el.serial⟩) false wd y.1
    | some e => return (y.1, some e)

/-- rrdp.go:302-362. -/
def doDeltasE (W : EWorld) (cb : ECallback σ) (s : Sys) (n : Notification) : (k : Nat) → (serial : Int) → R σ → Go (R σ × Option Err)
  | 0, _, r => .ok (r, none)
  | k + 1, serial, r =>
    match n.delta serial with
    | none => .ok (r, some (errDelta serial))
    | some el => do
      let x ← doDeltaE W cb s n el r
      match x.2 with
      | none => doDeltasE W cb s n k (serial + 1) x.1
      | some e => return (x.1, some e)

/-- rrdp.go:182-377 `FetchRRDP` with its error. -/
def fetchE (W : EWorld) (cb : ECallback σ) (s : Sys) (r : R σ) : Go (Sys × R σ × Option Err) :=
  let x := downloadE W r s.path
  match x.2 with
  | .error e => .ok (s, x.1, some e)
  | .ok d =>
    match W.parseRoot d with
    | none => .ok (s, x.1, some errXml)
    | some n =>
      if needSnapshot s n then do
        let y ← doSnapshotE W cb s n x.1
        match y.2 with
        | none => return ({ s with serial := n.serial, sessionID := n.sessionID }, y.1, none)
        | some e => return (s, y.1, some e)
      else do
        let y ← doDeltasE W cb s n (n.serial - s.serial).toNat (s.serial + 1) x.1
        match y.2 with
        | none => return ({ s with serial := s.serial + ((n.serial - s.serial).toNat : Int), sessionID := n.sessionID }, y.1, none)
        | some e => return (s, y.1, some e)

/-- The parameters of Model/Rrdp for the same server and parser. -/
def EWorld.plain (W : EWorld) : World where
  getXML i u := match getXML (W.get i u) with | .ok d => some d | .error _ => none
  parseRoot := W.parseRoot
  parseNode := W.parseNode

def ECallback.plain (cb : ECallback σ) : Callback σ := fun s c => (cb s c).bind fun x => .ok (x.1, x.2.isNone)

/-- octorpki.go:361-364: `ReceiveRRDPFileCallback` with its error; `why` is the reason the operating system gives. `%q` of the path is left out of the text. -/
def callbackE (os : Cache.OS) (base domain : Bytes) (why : Call → Bytes) : ECallback Cache.FS := fun fs c =>
  (Cache.callback os base domain fs c).bind fun x => .ok (x.1, if x.2 then none else some (asc "Unable to write sync file ".toList ++ c.path ++ asc " on disk: ".toList ++ why c))

/-- octorpki.go:440-448, 487-509: one run for a notification URL and its rsync URL, and whether the rsync module is taken off the list of jobs at the end of it. -/
def runE (failover : Bool) (W : EWorld) (cb : ECallback σ) (s : Sys) (rsync : Bytes) (st : σ) : Go (Sys × R σ × Option Err × Bool) := do
  let x ← fetchE W cb s ⟨st, [], []⟩
  return (x.1, x.2.1, x.2.2, Fetch.removes failover (x.2.2.map (errText s.path rsync)))

end Verif.RrdpLimit
