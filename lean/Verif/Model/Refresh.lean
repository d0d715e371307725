import Verif.Model.EndToEnd
/-
  The rounds of the command octorpki as far as the certificates of the trust anchors go: which of them the
  program decides to download (cmd/octorpki/octorpki.go:1073-1080), the downloads (614-651) and the order of the
  parts of a round (1550-1563).
-/
set_option autoImplicit false

namespace Verif.Refresh
open Pki Manager EndToEnd

/-- octorpki.go:1074-1080, for some keys of the map `Validator.TALs`: a TAL whose certificate was not seen is noted
    under the path of its file. A failed type assertion and a nil file panic. -/
def collectKeys (m : M) : List Bytes → Map Tal.RPKITAL → Go (Map Tal.RPKITAL)
  | [], acc => .ok acc
  | k :: rest, acc =>
    match (m.v.tals.get k).bind (fun i => m.v.heap[i]?) with
    | none => .panic
    | some r =>
      match r.data with
      | .tal t =>
        if r.certTALValid then collectKeys m rest acc
        else
          match r.file.bind (fun i => m.files[i]?) with
          | none => .panic
          | some f => collectKeys m rest (acc.set f.path t)
      | _ => .panic

/-- octorpki.go:1074-1080. (The order of the map does not matter: a validator has at most one TAL, see
    `exploreTal`.) -/
def collect (m : M) (acc : Map Tal.RPKITAL) : Go (Map Tal.RPKITAL) := collectKeys m (keysOf m.v.tals) acc

/-- octorpki.go:1050: for one TAL after the other. -/
def collectAll : List M → Map Tal.RPKITAL → Go (Map Tal.RPKITAL)
  | [], acc => .ok acc
  | m :: rest, acc => do
    let acc1 ← collect m acc
    collectAll rest acc1

/-- What does not change while the process runs: flags, decoders (with the hash functions), the operating system, the cache
    directory and the paths of the TAL files. -/
structure Setup where
  fl : Flags
  failover : Bool
  env : Env
  sha256 : Bytes → Bytes
  os : Cache.OS
  base : Bytes
  tals : List Bytes

/-- What a round meets: what RRDP does to the cache, the answers of the HTTP servers, the order in which the map of TALs is
    walked, what rsync does to the cache (given the jobs), the repositories known to the fetcher, the time, and a bound on the
    length of explorations. -/
structure Tick where
  rrdp : Cache.FS → Cache.FS
  http : Bytes → Option Bytes
  order : List Bytes → List Bytes
  perm : ∀ l, (order l).Perm l
  rsync : Map Bytes → Cache.FS → Cache.FS
  repos : List Bytes
  now : Int
  fuel : Nat

/-- What stays between rounds: the cache, `TalsFetch` and the rsync jobs. -/
structure St where
  fs : Cache.FS
  fetch : Map Tal.RPKITAL
  jobs : Map Bytes
  deriving DecidableEq

/-- The one mapping that octorpki uses (sync/lib/fetch.go:23-29). -/
def rsyncMap (base : Bytes) : List (Bytes × Bytes) := [(Tal.rsyncScheme, base)]

/-- sync/lib/fetch.go:87-117 as the manager sees it. A conversion that crashes ends the process; here it counts as an error. -/
def seek (S : Setup) (repos : List Bytes) (fs : Cache.FS) (path : Bytes) (f : PKIFile) : Fetch :=
  match Cache.getFileConv S.sha256 fs (rsyncMap S.base) repos path f.path (decide (f.type ≠ .tal)) with
  | .ok (.found s) => .found s.data (some s.sha)
  | .ok .absent => .absent
  | _ => .fail

/-- The cache does not change during a validation. (`GetRepository` is not used in manifest mode.) -/
def worldOf (S : Setup) (repos : List Bytes) (now : Int) (fs : Cache.FS) : World :=
  ⟨{ S.env with now := now }, fun _ p f => seek S repos fs p f, fun _ _ => ([], true), fun _ => now, fun _ => now⟩

/-- The validation of one TAL. -/
def talRun (S : Setup) (k : Tick) (fs : Cache.FS) (path : Bytes) : TalRun :=
  ⟨path, worldOf S k.repos k.now fs, k.fuel, id, fun _ => .refl _, fun _ => .fail⟩

/-- octorpki.go:621-623: the TALs in some order. -/
def mainTAL (S : Setup) (http : Bytes → Option Bytes) (tals : Map Tal.RPKITAL) : List Bytes → Cache.FS → Map Bytes → Go (Cache.FS × Map Bytes)
  | [], fs, jobs => .ok (fs, jobs)
  | p :: rest, fs, jobs =>
    match tals.get p with
    | none => .panic
    | some t => do
      let x ← Cache.fetchTAL S.failover S.env.sha1 http S.os S.base t fs jobs
      mainTAL S http tals rest x.1 x.2.1

/-- octorpki.go:1550-1563: RRDP, the downloads, `TalsFetch` is cleared, rsync, validation. (The list of a round: C78.) -/
def round (S : Setup) (k : Tick) (s : St) : Go St := do
  let fs1 := k.rrdp s.fs
  let x ← mainTAL S k.http s.fetch (k.order (keysOf s.fetch)) fs1 s.jobs
  let fs2 := k.rsync x.2 x.1
  let ms ← exploreTals S.fl (S.tals.map (talRun S k fs2))
  let acc ← collectAll (ms.map (·.2)) []
  return ⟨fs2, acc, x.2⟩

/-- Rounds, one after the other. -/
def rounds (S : Setup) : List Tick → St → Go St
  | [], s => .ok s
  | k :: rest, s => do
    let s1 ← round S k s
    rounds S rest s1

end Verif.Refresh
