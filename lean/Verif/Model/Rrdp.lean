import Verif.Model.Path
/-
  Model of sync/lib/rrdp.go `FetchRRDP` and of the callback and the state that cmd/octorpki gives it.

  XML and HTTP are parameters. Serials are unbounded integers (in the code: int64; the loops of the code would
  wrap around at 2^63 - 1). The callback is set (a nil callback is not modelled).
-/
set_option autoImplicit false

namespace Verif.Rrdp

/-- rrdp_struct.go:14-18 `ElNode`. -/
structure El where
  serial : Int
  uri : Bytes
  hash : Bytes
  deriving Repr, DecidableEq

/-- rrdp_struct.go:25-30 `Notification`. -/
structure Notification where
  sessionID : Bytes
  serial : Int
  snapshot : El
  deltas : List El
  deriving Repr, DecidableEq

/-- rrdp_struct.go:20-23 `Cert`: URI and base64 text. -/
structure Item where
  uri : Bytes
  value : Bytes
  deriving Repr, DecidableEq

/-- One call of the callback: `callback(main, url, path, data, withdraw, snapshot, serial)`. -/
structure Call where
  main : Bytes
  url : Bytes
  path : Bytes
  data : Bytes
  withdraw : Bool
  snapshot : Bool
  serial : Int
  deriving Repr, DecidableEq

/-- What the client takes from outside: `GetXML` (`none`: error; the number counts the downloads), `ParseRoot`
    (rrdp.go:68-94) and `ParseNode` (rrdp.go:96-151), which gives the publish and the withdraw elements. -/
structure World where
  getXML : Nat → Bytes → Option Bytes
  parseRoot : Bytes → Option Notification
  parseNode : Bytes → Option (List Item × List Item)

/-- rrdp.go:155-166 `RRDPSystem`. -/
structure Sys where
  path : Bytes
  sessionID : Bytes
  serial : Int
  deriving Repr, DecidableEq

/-- The state behind the callback, and what an observer sees: the URLs asked for, and the calls of the callback
    with whether they returned without error. -/
structure R (σ : Type) where
  st : σ
  gets : List Bytes
  calls : List (Call × Bool)

/-- The callback: the new state and whether it returned without error; `panic` stands for the end of the
    process (`log.Fatalf`). -/
abbrev Callback (σ : Type) := σ → Call → Go (σ × Bool)

/-- rrdp.go:175-180 `DecodeRRDPBase64`. -/
def decodeBase64 (value : Bytes) : Option Bytes :=
  match Tal.b64DecodeStd (value.filter (fun c => !(c == 32 || c == 10 || c == 13))) with
  | .ok d => some d
  | _ => none

variable {σ : Type}

/-- A call of the callback. -/
def callOne (cb : Callback σ) (r : R σ) (c : Call) : Go (R σ × Bool) :=
  match cb r.st c with
  | .ok (s, ok) => .ok ({ r with st := s, calls := r.calls ++ [(c, ok)] }, ok)
  | .err e => .err e
  | .panic => .panic
  | .diverge => .diverge

/-- rrdp.go:269-288, 339-358: the elements of one list are decoded and given to the callback. With
    `strict = false` the callback's error is ignored (line 354). -/
def applyItems (cb : Callback σ) (mk : Bytes → Bytes → Call) (strict : Bool) : List Item → R σ → Go (R σ × Bool)
  | [], r => .ok (r, true)
  | i :: rest, r =>
    match decodeBase64 i.value with
    | none => .ok (r, false)
    | some d => do
      let x ← callOne cb r (mk i.uri d)
      if x.2 || !strict then applyItems cb mk strict rest x.1 else return (x.1, false)

/-- A download. -/
def download (W : World) (r : R σ) (uri : Bytes) : R σ × Option Bytes :=
  ({ r with gets := r.gets ++ [uri] }, W.getXML r.gets.length uri)

/-- rrdp.go:245-289: the snapshot. The elements of `withdraw` are handled like those of `publish`. -/
def doSnapshot (W : World) (cb : Callback σ) (s : Sys) (n : Notification) (r : R σ) : Go (R σ × Bool) :=
  let x := download W r n.snapshot.uri
  match x.2.bind W.parseNode with
  | none => .ok (x.1, false)
  | some (pub, wd) => do
    let y ← applyItems cb (fun u d => ⟨s.path, n.snapshot.uri, u, d, false, true, n.serial⟩) true pub x.1
    if y.2 then applyItems cb (fun u d => ⟨s.path, n.snapshot.uri, u, d, true, true, n.serial⟩) true wd y.1
    else return y

/-- rrdp.go:223-227, `deltasMap[serial]`: the last element of the list with that serial. -/
def Notification.delta (n : Notification) (serial : Int) : Option El := n.deltas.reverse.find? (fun e => e.serial = serial)

/-- rrdp.go:231-238: some serial of `k` ones from `serial` on is missing. -/
def missingFrom (n : Notification) : (k : Nat) → (serial : Int) → Bool
  | 0, _ => false
  | k + 1, serial => if (n.delta serial).isNone then true else missingFrom n k (serial + 1)

/-- rrdp.go:312-359: one delta. -/
def doDelta (W : World) (cb : Callback σ) (s : Sys) (n : Notification) (e : El) (r : R σ) : Go (R σ × Bool) :=
  let x := download W r e.uri
  match x.2.bind W.parseNode with
  | none => .ok (x.1, false)
  | some (pub, wd) => do
    let y ← applyItems cb (fun u d => ⟨s.path, n.snapshot.uri, u, d, false, false, e.serial⟩) true pub x.1
    if y.2 then applyItems cb (fun u d => ⟨s.path, n.snapshot.uri, u, d, true, false, e.serial⟩) false wd y.1
    else return y

/-- rrdp.go:302-362: `k` deltas from `serial` on. -/
def doDeltas (W : World) (cb : Callback σ) (s : Sys) (n : Notification) : (k : Nat) → (serial : Int) → R σ → Go (R σ × Bool)
  | 0, _, r => .ok (r, true)
  | k + 1, serial, r =>
    match n.delta serial with
    | none => .ok (r, false)
    | some e => do
      let x ← doDelta W cb s n e r
      if x.2 then doDeltas W cb s n k (serial + 1) x.1 else return x

/-- rrdp.go:240: is the snapshot needed? -/
def needSnapshot (s : Sys) (n : Notification) : Bool :=
  decide (s.serial = 0) || decide (s.sessionID ≠ n.sessionID) ||
    missingFrom n (n.serial - s.serial + 1).toNat s.serial

/-- rrdp.go:182-377 `FetchRRDP`: the client's new state, what happened, and whether there was no error. -/
def fetchRRDP (W : World) (cb : Callback σ) (s : Sys) (r : R σ) : Go (Sys × R σ × Bool) :=
  let x := download W r s.path
  match x.2.bind W.parseRoot with
  | none => .ok (s, x.1, false)
  | some n =>
    if needSnapshot s n then do
      let y ← doSnapshot W cb s n x.1
      if y.2 then return ({ s with serial := n.serial, sessionID := n.sessionID }, y.1, true)
      else return (s, y.1, false)
    else do
      let y ← doDeltas W cb s n (n.serial - s.serial).toNat (s.serial + 1) x.1
      if y.2 then
        return ({ s with serial := s.serial + ((n.serial - s.serial).toNat : Int), sessionID := n.sessionID }, y.1, true)
      else return (s, y.1, false)

end Verif.Rrdp
