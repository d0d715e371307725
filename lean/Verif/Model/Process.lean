import Verif.Model.Refresh
import Verif.Model.RrdpState
import Verif.Model.Loop
/-
  The whole of the command octorpki: the parts of a round of `validationLoop` (cmd/octorpki/octorpki.go:1541-1568) put together,
  with all that stays from one round to the next.

  Simplified: fetches of a pool run one after the other, in any order (their schedules are in Model/Fetch.lean and
  Model/RrdpState.lean); the info page, resources.json and Certificate Transparency are left out (Model/Info.lean,
  Model/ResJson.lean, Model/Fetch.lean); the list is not signed (Model/Output.lean).
-/
set_option autoImplicit false

namespace Verif.Process
open Pki Manager EndToEnd Fetch

/-- What does not change while the process runs: to what the rounds of the trust anchors need (`Refresh.Setup`) come the names of the TALs
    (-tal.name), whether RRDP is on (-rrdp), and the file for its positions (-rrdp.file) with its format. -/
structure Setup extends Refresh.Setup where
  names : List Bytes
  rrdpOn : Bool
  rrdpFile : Bool
  codec : RrdpState.Codec

/-- What a round meets: the RRDP servers; the text of the error of a fetch that fails; the order in which RRDP fetches end; whether the
    file of the positions can be read, and how writing it ends; the answers of HTTP servers; the order in which map number `n` of
    the round is walked; what the rsync tool does; the time; and a bound on the length of explorations. -/
structure Tick where
  rrdp : RrdpJob → Rrdp.World
  why : RrdpJob → Bytes
  ended : List RrdpJob → List RrdpJob
  endedPerm : ∀ l, (ended l).Perm l
  readable : Bool
  wrote : RrdpState.Wrote
  http : Bytes → Option Bytes
  order : Nat → List Bytes → List Bytes
  perm : ∀ n l, (order n l).Perm l
  tool : Cache.FS → Bytes → Path.P → Cache.FS
  now : Int
  fuel : Nat

/-- What stays between rounds: the cache, `TalsFetch`, the maps of repositories (`repos` is `CurrentRepos`), the positions of
    RRDP and their file, and whether `MainReduce` has given `CurrentRepos` to the fetcher (line 309). The rest is what the last round
    did, for the observer: RRDP fetches with their outcome (`none`: success, otherwise the text of the error), rsync URLs fetched,
    the explorations, and the list that was published. -/
structure St where
  fs : Cache.FS
  fetch : Map Tal.RPKITAL
  b : Bindings
  mem : Option Cache.Info
  file : Option Bytes
  handed : Bool
  rrdps : List (RrdpJob × Option Bytes)
  rsyncs : List Bytes
  ms : List (TalRun × M)
  list : Out.ROAList

/-- octorpki.go:1470-1491 `NewOctoRPKI`, with the cache and the file that are there. -/
def St.boot (fs : Cache.FS) (file : Option Bytes) : St :=
  ⟨fs, [], Bindings.empty, some [], file, false, [], [], [], ⟨⟨0, 0, 0, [], []⟩, []⟩⟩

/-! ### RRDP -/

/-- octorpki.go:246-256 `getRRDPFetch`: the jobs of the RRDP phase. -/
def rrdpJobs (fetch : Map Bytes) : List RrdpJob :=
  (keysOf fetch).filterMap fun u => (fetch.get u).map fun m => ⟨u, m⟩

/-- octorpki.go:414-425 `mainRRDP` with 427-513: each fetch, and whether its rsync module is taken off the jobs. -/
def rrdpPhase (S : Setup) (k : Tick) (domain : Map Bytes) : List RrdpJob → Cache.FS → Option Cache.Info → Map Bytes →
    Go (Cache.FS × Option Cache.Info × Map Bytes × List (RrdpJob × Option Bytes))
  | [], fs, mem, jobs => .ok (fs, mem, jobs, [])
  | j :: js, fs, mem, jobs => do
    let x ← RrdpState.fetchJob (k.rrdp j) S.os S.base (fun u => domain.get u) j fs mem
    let o := if x.2.2 then none else some (k.why j)
    let y ← rrdpPhase S k domain js x.1 x.2.1 (if removes S.failover o then jobs.del j.rsync else jobs)
    return (y.1, y.2.1, y.2.2.1, (j, o) :: y.2.2.2)

/-- octorpki.go:1551-1553 and 1647-1671 `doRRDP`: the cache, positions, their file, the jobs left, and the fetches. -/
def doRRDP (S : Setup) (k : Tick) (s : St) :
    Go (Cache.FS × Option Cache.Info × Option Bytes × Map Bytes × List (RrdpJob × Option Bytes)) :=
  if S.rrdpOn then do
    let mem := if S.rrdpFile then RrdpState.load S.codec (if k.readable then s.file else none) s.mem else s.mem
    let y ← rrdpPhase S k s.b.domain (k.ended (rrdpJobs s.b.fetch)) s.fs mem s.b.jobs
    return (y.1, y.2.1, if S.rrdpFile then RrdpState.save S.codec k.wrote y.2.1 s.file else s.file, y.2.2.1, y.2.2.2)
  else .ok (s.fs, s.mem, s.file, s.b.jobs, [])

/-! ### rsync -/

/-- octorpki.go:515-530 `mainRsync`: the jobs in some order. -/
def mainRsync (S : Setup) (k : Tick) : List Bytes → Cache.FS → Go Cache.FS
  | [], fs => .ok fs
  | u :: us, fs => do
    let x ← Cache.fetchRsync S.os k.tool S.base fs u
    mainRsync S k us x.1

/-! ### Validation -/

/-- cert.go:437-465: the RRDP entry and the repository of a certificate: the first of each kind. -/
def firstSia (kind : SIAKind) (c : Cert) : Option Bytes := (c.sia.find? fun e => decide (e.1 = kind)).map (·.2)

/-- octorpki.go:1088-1089, 1098. -/
def certNames (c : Cert) : CertNames := ⟨(firstSia .caRepository c).getD [], firstSia .rrdp c⟩

/-- octorpki.go:1082-1087: the certificates of type TYPE_CER among the valid objects; a failed type assertion panics. -/
def namesOf (v : V) : List Bytes → Go (List CertNames)
  | [] => .ok []
  | key :: rest =>
    match (v.validObjects.get key).bind (fun i => v.heap[i]?) with
    | none => .panic
    | some r =>
      if r.type = .cer then
        match r.data with
        | .cert c => do
          let l ← namesOf v rest
          return certNames c :: l
        | _ => .panic
      else namesOf v rest

/-- The validation of TAL number `i`. `known` is what the fetcher knows of repositories; reading files again comes
    later (`withReread`). -/
def talRun (S : Setup) (k : Tick) (fs : Cache.FS) (known : List Bytes) (i : Nat) (path : Bytes) : TalRun :=
  ⟨path, Refresh.worldOf S.toSetup known k.now fs, k.fuel, k.order (2 * i + 3), k.perm _, fun _ => .fail⟩

/-- `GetFileConv(file, false)`: octorpki.go:803, 889 and 955 read the file again as it is stored. -/
def reread (S : Setup) (fs : Cache.FS) (known : List Bytes) (m : M) (f : PKIFile) : Fetch :=
  match Cache.getFileConv S.sha256 fs (Refresh.rsyncMap S.base) known (f.computePath m.files) f.path false with
  | .ok (.found s) => .found s.data (some s.sha)
  | .ok .absent => .absent
  | _ => .fail

/-- What `generateROAList` meets when it reads files again: the cache as it is. -/
def withReread (S : Setup) (fs : Cache.FS) (known : List Bytes) (ms : List (TalRun × M)) : List (TalRun × M) :=
  ms.map fun x => ({ x.1 with reread := reread S fs known x.2 }, x.2)

/-- octorpki.go:1050-1127: TAL after TAL, from number `i`: exploration, TALs to fetch, repositories. The fetcher knows no
    repositories until `MainReduce` has given it the map `CurrentRepos`, and from then on it sees each change of it. -/
def talLoop (S : Setup) (k : Tick) (fs : Cache.FS) (handed : Bool) : Nat → List Bytes → Map Tal.RPKITAL → Bindings →
    Go (List (TalRun × M) × Map Tal.RPKITAL × Bindings)
  | _, [], acc, b => .ok ([], acc, b)
  | i, path :: rest, acc, b => do
    let r := talRun S k fs (if handed then b.repos else []) i path
    let m ← exploreTal S.fl r
    let acc1 ← Refresh.collect m acc
    let names ← namesOf m.v (k.order (2 * i + 2) (keysOf m.v.validObjects))
    let y ← talLoop S k fs handed (i + 1) rest acc1 (bindAll b names)
    return ((r, m) :: y.1, y.2)

/-- octorpki.go:1550-1565: a round: RRDP, certificates of trust anchors, rsync, validation, reduction. -/
def round (S : Setup) (k : Tick) (s : St) : Go St := do
  let x ← doRRDP S k s
  let t ← Refresh.mainTAL S.toSetup k.http s.fetch (k.order 0 (keysOf s.fetch)) x.1 x.2.2.2.1
  let urls := k.order 1 (keysOf t.2)
  let fs ← mainRsync S k urls t.1
  let v ← talLoop S k fs s.handed 0 S.tals [] { s.b with jobs := t.2 }
  let ms := withReread S fs (if s.handed then v.2.2.repos else []) v.1
  let ts ← exportTals S.names S.tals.length 0 ms
  let L ← Out.generateROAList S.fl.filter k.now S.fl.validity ts
  return ⟨fs, v.2.1, v.2.2, x.2.1, x.2.2.1, true, x.2.2.2.2, urls, ms, L⟩

/-- The process after `n` rounds. -/
def after (S : Setup) (ticks : Nat → Tick) (s0 : St) : Nat → Go St
  | 0 => .ok s0
  | n + 1 => do
    let s ← after S ticks s0 n
    round S (ticks n) s

/-- What round number `n` (from 0) gives to the loop: the keys of `CurrentRepos` and the list. -/
def found (S : Setup) (ticks : Nat → Tick) (s0 : St) (n : Nat) : Loop.Round Out.ROAList :=
  match after S ticks s0 (n + 1) with
  | .ok s => ⟨s.b.repos, s.list⟩
  | _ => ⟨[], ⟨⟨0, 0, 0, [], []⟩, []⟩⟩

end Verif.Process
