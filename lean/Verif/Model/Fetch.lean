import Verif.Model.Path
import Verif.Model.Pki
/-
  How the command octorpki schedules its fetches: the worker pools (cmd/octorpki/rrdp_fetcher.go,
  rsync_fetcher.go), the rsync modules left over by the RRDP phase, the binding of RRDP URLs to rsync
  hosts, and the certificate paths for Certificate Transparency (cmd/octorpki/octorpki.go).
-/
set_option autoImplicit false

namespace Verif.Fetch

/-! ## The worker pools

  `rrdpFetcher` and `rsyncFetcher` are the same program with another job type `J`. The channel is
  unbuffered: a send happens together with the receive of an idle worker. A worker is a goroutine of
  `worker` (rrdp_fetcher.go:36-42): it receives, runs the fetch, receives again, and ends when the channel
  is closed. The caller sends all jobs, closes the channel (`done`) and waits for the workers (`wait`). That
  a started fetch ends is an assumption (its step `finish` may come at any time). -/

/-- A worker goroutine: at the receive, in the fetch of a job, or ended. -/
inductive Worker (J : Type) where
  | idle
  | busy (j : J)
  | exited

/-- The caller (octorpki.go:418-424): sending (the jobs still to send), waiting, or past `wait`. -/
inductive Caller (J : Type) where
  | sending (js : List J)
  | closed
  | returned

/-- `ran` are the fetches that have ended, in order. -/
structure Pool (J : Type) where
  caller : Caller J
  workers : List (Worker J)
  ran : List J

/-- rrdp_fetcher.go:21-34 `newRRDPFetcher` and rsync_fetcher.go:16-29 `newRsyncFetcher`, and the jobs that the caller will send. -/
def Pool.start {J : Type} (workers : Nat) (jobs : List J) : Pool J :=
  ⟨.sending jobs, List.replicate workers .idle, []⟩

/-- One step of the caller or of worker `i`. -/
inductive Step {J : Type} : Pool J → Pool J → Prop
  /-- rrdp_fetcher.go:52-57 (rsync_fetcher.go:47-49) `fetch` with the receive of worker `i` (line 39; 34) -/
  | send (j : J) (js : List J) (ws : List (Worker J)) (ran : List J) (i : Nat) (h : ws[i]? = some .idle) :
      Step ⟨.sending (j :: js), ws, ran⟩ ⟨.sending js, ws.set i (.busy j), ran⟩
  /-- rrdp_fetcher.go:40 (rsync_fetcher.go:35): the fetch ends -/
  | finish (c : Caller J) (ws : List (Worker J)) (ran : List J) (i : Nat) (j : J) (h : ws[i]? = some (.busy j)) :
      Step ⟨c, ws, ran⟩ ⟨c, ws.set i .idle, ran ++ [j]⟩
  /-- rrdp_fetcher.go:44-46 (rsync_fetcher.go:39-41) `done` -/
  | close (ws : List (Worker J)) (ran : List J) : Step ⟨.sending [], ws, ran⟩ ⟨.closed, ws, ran⟩
  /-- rrdp_fetcher.go:37-39 (rsync_fetcher.go:32-34): the channel is closed, the worker ends and signals the wait group -/
  | exit (ws : List (Worker J)) (ran : List J) (i : Nat) (h : ws[i]? = some .idle) :
      Step ⟨.closed, ws, ran⟩ ⟨.closed, ws.set i .exited, ran⟩
  /-- rrdp_fetcher.go:48-50 (rsync_fetcher.go:43-45) `wait` -/
  | wait (ws : List (Worker J)) (ran : List J) (h : ∀ w ∈ ws, w = .exited) :
      Step ⟨.closed, ws, ran⟩ ⟨.returned, ws, ran⟩

/-- Any number of steps. -/
inductive Steps {J : Type} : Nat → Pool J → Pool J → Prop
  | refl (p : Pool J) : Steps 0 p p
  | tail {n : Nat} {p q r : Pool J} : Steps n p q → Step q r → Steps (n + 1) p r

/-! ## What the RRDP phase leaves to rsync -/

/-- One entry of `rrdpFetch` (octorpki.go:419): the RRDP URL and its rsync module. -/
structure RrdpJob where
  path : Bytes
  rsync : Bytes
  deriving DecidableEq

/-- "http: request body too large" -/
def tooLarge : Bytes := asc "http: request body too large".toList

/-- octorpki.go:440-448 and 502-509: whether the end of a fetch removes its rsync module from the jobs; `none`
    is success, `some e` a failure with error text `e`. -/
def removes (failover : Bool) (outcome : Option Bytes) : Bool :=
  match outcome with
  | none => true
  | some e => !(failover && decide (e ≠ tooLarge))

/-- octorpki.go:1504-1509 `delete` of `rsyncFetchJobManager` at the end of each fetch, in the order in which
    they ended. -/
def afterRrdp (failover : Bool) (outcome : RrdpJob → Option Bytes) : List RrdpJob → Pki.Map Bytes → Pki.Map Bytes
  | [], jobs => jobs
  | j :: js, jobs =>
    afterRrdp failover outcome js (if removes failover (outcome j) then jobs.del j.rsync else jobs)

/-! ## Binding of RRDP URLs -/

/-- What `mainValidation` reads of a valid certificate: `GetRsyncGeneralName`, `HasRRDP` and
    `GetRRDPGeneralName` (validator/lib/cert.go:437-465); `none` if it has no RRDP entry. -/
structure CertNames where
  rsync : Bytes
  rrdp : Option Bytes

/-- The maps of octorpki.go:216-240 that the certificates fill. -/
structure Bindings where
  domain : Pki.Map Bytes
  fetch : Pki.Map Bytes
  jobs : Pki.Map Bytes
  repos : List Bytes

/-- octorpki.go:1470-1482: empty maps. -/
def Bindings.empty : Bindings := ⟨[], [], [], []⟩

/-- octorpki.go:1098-1105: the RRDP part for one certificate; `none` when it is skipped. -/
def bindRrdp (b : Bindings) (module domain : Bytes) : Option Bytes → Option Bindings
  | none => some b
  | some u =>
    match b.domain.get u with
    | some d =>
      if d ≠ domain then none else some { b with domain := b.domain.set u domain, fetch := b.fetch.set u module }
    | none => some { b with domain := b.domain.set u domain, fetch := b.fetch.set u module }

/-- octorpki.go:1087-1107: one valid certificate. -/
def bindCert (b : Bindings) (c : CertNames) : Bindings :=
  match Path.extractDomainModule c.rsync with
  | .ok (module, domain) =>
    match bindRrdp b module domain c.rrdp with
    | none => b
    | some b' => { b' with jobs := b'.jobs.set module (c.rrdp.getD []), repos := module :: b'.repos }
  | _ => b

/-- The certificates of any number of rounds, in the order in which they are visited (the fetches between them
    change `jobs` only, see `afterRrdp`). -/
def bindAll (b : Bindings) (cs : List CertNames) : Bindings := cs.foldl bindCert b

/-! ## Certificate paths for Certificate Transparency -/

/-- A valid object: key id, key id of its issuer, and its file. (The code writes the ids in hexadecimal, which is
    injective and keeps the empty id empty.) -/
structure CtObj where
  ski : Bytes
  aki : Bytes
  file : Option Nat

/-- octorpki.go:1147-1150: the objects that the validator holds valid, for a list of keys of the map; the type assertion
    panics on anything but a certificate. -/
def ctObjs (v : Pki.V) : List Bytes → Go (List CtObj)
  | [] => .ok []
  | k :: rest =>
    match v.validObjects.get k with
    | none => ctObjs v rest
    | some i =>
      match v.certOf i with
      | none => .panic
      | some c => do
        let t ← ctObjs v rest
        return ⟨c.ski, c.aki, (v.heap[i]?).bind (·.file)⟩ :: t

/-- octorpki.go:1145-1153: the map from key id to issuer; the last object with the id counts, a missing key
    gives the empty text. -/
def akiOf (objs : List CtObj) (k : Bytes) : Bytes :=
  match objs.reverse.find? (fun o => decide (o.ski = k)) with
  | some o => o.aki
  | none => []

/-- octorpki.go:1146-1154: the map from key id to file; a missing key gives nil. -/
def fileOf (objs : List CtObj) (k : Bytes) : Option Nat :=
  match objs.reverse.find? (fun o => decide (o.ski = k)) with
  | some o => o.file
  | none => none

/-- octorpki.go:1167-1176: the loop. `done` are the keys of `skiDone`. -/
def ctLoop (objs : List CtObj) : (fuel : Nat) → (cur : Bytes) → (done : List Bytes) → (path : List (Option Nat)) →
    Go (List (Option Nat))
  | 0, _, _, _ => .diverge
  | f + 1, cur, done, path =>
    if cur = [] then .ok path
    else if cur ∈ done then .ok (path ++ [fileOf objs cur])
    else ctLoop objs f (akiOf objs cur) (cur :: done) (path ++ [fileOf objs cur])

/-- octorpki.go:1158-1177: the path of the object with key id `ski`. -/
def ctPath (objs : List CtObj) (ski : Bytes) : Go (List (Option Nat)) :=
  ctLoop objs (objs.length + 3) (akiOf objs ski) [ski] [fileOf objs ski]

/-- ct.go:70-94 (`SendCertificateTransparency`): a nil file ends the process (`GetFile` and `cert.Type` read it). -/
def ctSend (path : List (Option Nat)) : Go Unit := if none ∈ path then .panic else .ok ()

end Verif.Fetch
