import Verif.Model.Cache
import Verif.Model.Ber
import Verif.Model.Pki
import Verif.Model.Der
/-
  Model of the files as the validator reads them (sync/lib/fetch.go) and of the two other ways in which
  cmd/octorpki/octorpki.go fills the cache: rsync (lines 532-577, sync/lib/rsync.go:61-70) and the download of
  trust anchor certificates (lines 614-753).

  A path is resolved by cleaning it: there are no symbolic links, and the directories before a ".." exist.
-/
set_option autoImplicit false

namespace Verif.Cache
open Path Pki
open Tal (hasPrefix rsyncScheme)

/-! ### Reading -/

/-- ioutil.ReadFile: fails on a directory and where there is no file. -/
def FS.read (fs : FS) (path : Bytes) : Option Bytes :=
  if fs.isDir (clean path) then none else fs.file (clean path)

/-- The text before each ',' or '=' and after the last one: strings.Split with a separator of one byte. -/
def splitOn (sep : UInt8) : Bytes → List Bytes
  | [] => [[]]
  | b :: r =>
    if b = sep then [] :: splitOn sep r
    else match splitOn sep r with
      | h :: t => (b :: h) :: t
      | [] => [[b]]

/-- fetch.go:75-85 `ParseMapDirectory`: entries "key=value", separated by commas; later ones win; all others are
    dropped. The result is a map. -/
def parseMapDirectory (s : Bytes) : Pki.Map Bytes :=
  (splitOn 44 s).foldl (fun m u =>
    match splitOn 61 u with
    | [k, v] => m.set k v
    | _ => m) []

/-- A file handed to the validator: `pki.SeekFile`. -/
structure Seek where
  file : Bytes
  data : Bytes
  sha : Bytes
  deriving Repr, DecidableEq

/-- fetch.go:54-73 `FetchFile`; the hash is that of the file, before the conversion. -/
def fetchFile (sha256 : Bytes → Bytes) (fs : FS) (path : Bytes) (der : Bool) : Go (Bytes × Bytes) :=
  match fs.read path with
  | none => .err "Unable to read file"
  | some fc =>
    if der then
      match Ber.BER2DER fc with
      | .ok d => .ok (d, sha256 fc)
      | .err _ => .err "librpki.BER2DER failed"
      | .panic => .panic
      | .diverge => .diverge
    else .ok (fc, sha256 fc)

/-- What `GetFileConv` returns: a file, no file and no error, or an error. (With an error it also returns a
    `SeekFile` without data, which the caller does not look at, pki.go:866-900.) -/
inductive Answer where
  | found (f : Seek)
  | absent
  | fail
  deriving Repr, DecidableEq

/-- fetch.go:104-108: the module that the file's own path names, or "". -/
def moduleOf (path : Bytes) : Bytes :=
  match extractDomainModule path with
  | .ok (m, _) => m
  | _ => []

/-- fetch.go:91-117 `GetFileConv`, with 48-52 `ReplacePath`; `repos` is set by 31-33 `SetRepositories`. `path` is `file.ComputePath()`, `own` is `file.Path`. The test `os.IsNotExist`
    (line 96) is never true, as `FetchFile` wraps its error in a text. -/
def getFileConv (sha256 : Bytes → Bytes) (fs : FS) (map : List (Bytes × Bytes)) (repos : List Bytes) (path own : Bytes)
    (der : Bool) : Go Answer :=
  match fetchFile sha256 fs (getLocalPath path map) der with
  | .ok r => .ok (.found ⟨own, r.1, r.2⟩)
  | .err _ => if moduleOf own ∈ repos then .ok .fail else .ok .absent
  | .panic => .panic
  | .diverge => .diverge

/-- fetch.go:87-89 `GetFile`. -/
def getFile (sha256 : Bytes → Bytes) (fs : FS) (map : List (Bytes × Bytes)) (repos : List Bytes) (files : List PKIFile)
    (f : PKIFile) : Go Answer :=
  getFileConv sha256 fs map repos (f.computePath files) f.path (decide (f.type ≠ .tal))

/-- Each name once. -/
def oncePer : List Bytes → List Bytes
  | [] => []
  | x :: xs => if x ∈ xs then oncePer xs else x :: oncePer xs

/-- The names in a directory, sorted, with "is it a directory": ioutil.ReadDir. -/
def FS.readDir (fs : FS) (path : Bytes) : Option (List (Bytes × Bool)) :=
  let p := clean path
  if fs.isDir p then
    let here := (fs.files.map (·.1) ++ fs.dirs).filter (fun q => q.rooted = p.rooted ∧ q.comps ≠ [] ∧ q.comps.dropLast = p.comps)
    let names := oncePer (here.filterMap (fun q => q.comps.getLast?))
    some ((Der.sortSet names).map (fun n => (n, fs.isDir ⟨p.rooted, p.comps ++ [n]⟩)))
  else none

/-- fetch.go:131-145: the type of a file by the end of its name. -/
def typeOfName (name : Bytes) : FType :=
  match (splitOn 46 name).getLast? with
  | some e =>
    if e = asc ['c', 'r', 'l'] then .crl
    else if e = asc ['c', 'e', 'r'] then .cer
    else if e = asc ['m', 'f', 't'] then .mft
    else if e = asc ['r', 'o', 'a'] then .roa
    else .unknown
  | none => .unknown

/-- fetch.go:126-163: the loop over the directory; `fid` is the manifest's file, `own` its path. The calls made
    before a failure, and whether it ended without one. -/
def repoLoop (sha256 : Bytes → Bytes) (fs : FS) (localPath repo own : Bytes) (fid : Nat) :
    List (Bytes × Bool) → Go (List (PKIFile × Seek) × Bool)
  | [] => .ok ([], true)
  | (name, isDir) :: rest =>
    if isDir then repoLoop sha256 fs localPath repo own fid rest
    else
      match fetchFile sha256 fs (localPath ++ name) true with
      | .ok r =>
        match repoLoop sha256 fs localPath repo own fid rest with
        | .ok x => .ok ((⟨some fid, repo, repo ++ name, typeOfName name, false, none⟩, ⟨own, r.1, r.2⟩) :: x.1, x.2)
        | .err e => .err e
        | .panic => .panic
        | .diverge => .diverge
      | .err _ => .ok ([], false)
      | .panic => .panic
      | .diverge => .diverge

/-- fetch.go:119-166 `GetRepository`: the directory is listed under its unmapped name (line 121). -/
def getRepository (sha256 : Bytes → Bytes) (fs : FS) (map : List (Bytes × Bytes)) (fid : Nat) (f : PKIFile) :
    Go (List (PKIFile × Seek) × Bool) :=
  match fs.readDir f.repo with
  | none => .ok ([], false)
  | some names => repoLoop sha256 fs (getLocalPath f.repo map) f.repo f.path fid names

/-! ### rsync -/

/-- octorpki.go:550-560: the directory that rsync is told to write to; another scheme ends the process. -/
def rsyncDir (base uri : Bytes) : Go P :=
  match extractFilePath uri with
  | .ok p => .ok (joinPath base p)
  | _ => .panic

/-- octorpki.go:550-577 `fetchRsync` with rsync.go:61-70: the directory is made, then rsync runs; `tool` is what
    rsync does to the files. The cache, and whether rsync was started. -/
def fetchRsync (os : OS) (tool : FS → Bytes → P → FS) (base : Bytes) (fs : FS) (uri : Bytes) : Go (FS × Bool) :=
  match rsyncDir base uri with
  | .ok dir =>
    match fs.mkdirAll os dir with
    | none => .ok (fs, false)
    | some fs1 => .ok (tool fs1 uri dir, true)
  | .err e => .err e
  | .panic => .panic
  | .diverge => .diverge

/-! ### Trust anchors -/

def httpScheme : Bytes := asc ['h', 't', 't', 'p', ':', '/', '/']
def httpsScheme : Bytes := asc ['h', 't', 't', 'p', 's', ':', '/', '/']

/-- octorpki.go:713-753 `fetchTALurl`; `http` is the answer of `getHTTP` (lines 664-711), `none` if it fails. -/
def fetchTALurl (sha1 : Bytes → Bytes) (http : Bytes → Option Bytes) (os : OS) (base : Bytes) (t : Tal.RPKITAL) (fs : FS) (uri : Bytes) :
    Go (FS × Bool) :=
  if hasPrefix uri httpScheme || hasPrefix uri httpsScheme then
    match http uri with
    | none => .ok (fs, false)
    | some data => writeRsyncFile os base fs (t.getRsyncURI sha1) data
  else .ok (fs, false)

/-- octorpki.go:653-662 `_fetchTAL`: the URIs in order, until one succeeds; that one. -/
def fetchTALLoop (sha1 : Bytes → Bytes) (http : Bytes → Option Bytes) (os : OS) (base : Bytes) (t : Tal.RPKITAL) :
    List Bytes → FS → Go (FS × Option Bytes)
  | [], fs => .ok (fs, none)
  | u :: us, fs =>
    match fetchTALurl sha1 http os base t fs u with
    | .ok (fs1, true) => .ok (fs1, some u)
    | .ok (fs1, false) => fetchTALLoop sha1 http os base t us fs1
    | .err e => .err e
    | .panic => .panic
    | .diverge => .diverge

/-- octorpki.go:629-651 `fetchTAL`: the cache, the rsync jobs, and the URI that succeeded. -/
def fetchTAL (failover : Bool) (sha1 : Bytes → Bytes) (http : Bytes → Option Bytes) (os : OS) (base : Bytes) (t : Tal.RPKITAL)
    (fs : FS) (jobs : Pki.Map Bytes) : Go (FS × Pki.Map Bytes × Option Bytes) :=
  match fetchTALLoop sha1 http os base t t.uri fs with
  | .ok (fs1, some u) => .ok (fs1, jobs, some u)
  | .ok (fs1, none) =>
    if failover && t.hasRsync then .ok (fs1, jobs.set (t.getRsyncURI sha1) [], none) else .ok (fs1, jobs, none)
  | .err e => .err e
  | .panic => .panic
  | .diverge => .diverge

end Verif.Cache
