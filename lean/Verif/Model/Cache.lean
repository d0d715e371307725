import Verif.Model.Rrdp
/-
  Model of the cache directory as cmd/octorpki/octorpki.go writes it, and of the RRDP state that it keeps.

  The file system is a set of directories and a map from cleaned paths to contents; there are no symbolic
  links. What the operating system may refuse (space, permissions) is a parameter.
-/
set_option autoImplicit false

namespace Verif.Cache
open Path

/-- The file system. -/
structure FS where
  dirs : List P
  files : List (P × Bytes)
  deriving Repr, DecidableEq

/-- A path with no elements, or with `..` only, is the root, the working directory or a directory above it. -/
def FS.isDir (fs : FS) (p : P) : Bool := p.comps.all (fun c => decide (c = dotdot)) || fs.dirs.contains p

def FS.file (fs : FS) (p : P) : Option Bytes := fs.files.lookup p

/-- The path and all directories above it. -/
def ancestors (p : P) : List P := (List.range (p.comps.length + 1)).map (fun n => ⟨p.rooted, p.comps.take n⟩)

/-- What the operating system decides at each step: may the directory be made; may the file be written, and if
    not, is the old content kept (`none`) or is some other content left (`some`). -/
structure OS where
  mkdir : FS → P → Bool
  write : FS → P → Bytes → Bool × Option Bytes

/-- os.MkdirAll: fails if an element of the path is a file. -/
def FS.mkdirAll (os : OS) (fs : FS) (p : P) : Option FS :=
  if os.mkdir fs p && (ancestors p).all (fun a => (fs.file a).isNone) then
    some { fs with dirs := ancestors p ++ fs.dirs }
  else none

def FS.set (fs : FS) (p : P) (d : Bytes) : FS := { fs with files := (p, d) :: fs.files }

/-- ioutil.WriteFile: fails on a directory, and where the directory does not exist. A write that the system
    breaks off may leave some other content. -/
def FS.writeFile (os : OS) (fs : FS) (p : P) (d : Bytes) : FS × Bool :=
  if fs.isDir p || !fs.isDir ⟨p.rooted, p.comps.dropLast⟩ then (fs, false)
  else
    match os.write fs p d with
    | (true, _) => (fs.set p d, true)
    | (false, none) => (fs, false)
    | (false, some x) => (fs.set p x, false)

/-- octorpki.go:326-343 `WriteRsyncFileOnDisk` with `mustMkdirAll` (345-350) and the `mustExtract` functions
    (532-548): a URL of another scheme, and a failure to make the directories, end the process. -/
def writeRsyncFile (os : OS) (base : Bytes) (fs : FS) (url : Bytes) (data : Bytes) : Go (FS × Bool) :=
  match extractFolders url, extractFilePath url with
  | .ok fPath, .ok filePath =>
    match fs.mkdirAll os (joinPath base fPath) with
    | none => .panic
    | some fs1 =>
      if contains filePath [46, 46, 47] || contains filePath [46, 46, 92] then .ok (fs1, false)
      else .ok (fs1.writeFile os (joinPath base filePath) data)
  | _, _ => .panic

/-- octorpki.go:352-368 `ReceiveRRDPFileCallback`. `domain` is the argument that `fetchRRDP` (440-441) passes on:
    the domain bound to the notification URL, empty if there is none. `withdraw` is not looked at. -/
def callback (os : OS) (base domain : Bytes) : Rrdp.Callback FS := fun fs c =>
  if contains c.path domain then writeRsyncFile os base fs c.path c.data
  else .ok (fs, true)

/-! ### The state kept between runs -/

/-- octorpki.go `RRDPInfo` entries: rsync URL, session, serial (the other fields are not used). -/
abbrev Info := List (Bytes × Bytes × Int)

/-- octorpki.go:473-485 `newRRDPSystem`: a missing entry gives the empty session and serial 0. -/
def newSys (info : Info) (path rsyncURL : Bytes) : Rrdp.Sys :=
  match info.lookup rsyncURL with
  | some (s, n) => ⟨path, s, n⟩
  | none => ⟨path, [], 0⟩

/-- octorpki.go:427-471 `fetchRRDP`: the cache, the kept state, and whether it succeeded. -/
def fetchRRDP (W : Rrdp.World) (os : OS) (base : Bytes) (domainOf : Bytes → Option Bytes) (path rsyncURL : Bytes)
    (fs : FS) (info : Info) : Go (FS × Info × Bool) := do
  let x ← Rrdp.fetchRRDP W (callback os base ((domainOf path).getD [])) (newSys info path rsyncURL) ⟨fs, [], []⟩
  if x.2.2 then return (x.2.1.st, (rsyncURL, x.1.sessionID, x.1.serial) :: info, true)
  else return (x.2.1.st, info, false)

end Verif.Cache
