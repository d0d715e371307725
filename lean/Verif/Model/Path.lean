import Verif.Model.Tal
/-
  Model of the path and URL functions: sync/lib/rsync.go, sync/lib/utils.go, sync/lib/fetch.go (paths), the
  path helpers of cmd/octorpki/octorpki.go, and of path/filepath (Unix) as far as they use it.
-/
set_option autoImplicit false

namespace Verif.Path
open Tal (hasPrefix rsyncScheme join)

/-- strings.Split(s, "/"): never empty. -/
def splitSlash : Bytes → List Bytes
  | [] => [[]]
  | b :: r =>
    if b = 47 then [] :: splitSlash r
    else
      match splitSlash r with
      | h :: t => (b :: h) :: t
      | [] => [[b]]

/-- strings.Join(l, "/") -/
def joinSlash (l : List Bytes) : Bytes := join [47] l

/-- strings.TrimPrefix -/
def trimPrefix (s pre : Bytes) : Bytes := if hasPrefix s pre then s.drop pre.length else s

/-- strings.Contains -/
def contains : (s sub : Bytes) → Bool
  | [], sub => sub.isEmpty
  | b :: r, sub => hasPrefix (b :: r) sub || contains r sub

/-! ### rsync URLs -/

/-- rsync.go:42-44 `isRsyncURL`. -/
def isRsyncURL (url : Bytes) : Bool := hasPrefix url rsyncScheme

/-- rsync.go:24-32 `ExtractFoldersPathFromRsyncURL`. -/
def extractFolders (url : Bytes) : Go Bytes :=
  if isRsyncURL url then
    .ok (joinSlash ((splitSlash (trimPrefix url rsyncScheme)).dropLast))
  else .err "not an rsync URL"

/-- rsync.go:34-40 `ExtractFilePathFromRsyncURL`. -/
def extractFilePath (url : Bytes) : Go Bytes :=
  if isRsyncURL url then .ok (trimPrefix url rsyncScheme) else .err "not an rsync URL"

/-- utils.go:23-33 `ExtractRsyncDomainModule`: module and domain. Only the length of the first eight bytes
    is looked at. -/
def extractDomainModule (rsync : Bytes) : Go (Bytes × Bytes) :=
  if rsync.length > 8 then
    match splitSlash (rsync.drop 8) with
    | a :: b :: _ => .ok (rsyncScheme ++ a ++ 47 :: b, rsyncScheme ++ a ++ [47])
    | _ => .err "rsync url does not contain module"
  else .err "Wrong size"

/-- octorpki.go:318-324 `ExtractRsyncDomain`. -/
def extractRsyncDomain (url : Bytes) : Go Bytes :=
  if hasPrefix url rsyncScheme then
    match splitSlash (trimPrefix url rsyncScheme) with
    | a :: _ => .ok a
    | [] => .panic
  else .err "not an rsync URL"

/-! ### path/filepath on Unix -/

/-- A cleaned path: rooted or not, and its elements. -/
structure P where
  rooted : Bool
  comps : List Bytes
  deriving Repr, DecidableEq

def dot : Bytes := [46]
def dotdot : Bytes := [46, 46]

/-- One element of `filepath.Clean`; `acc` is what is kept so far, last first. -/
def cleanStep (rooted : Bool) (acc : List Bytes) (c : Bytes) : List Bytes :=
  if c = [] ∨ c = dot then acc
  else if c = dotdot then
    match acc with
    | [] => if rooted then [] else [dotdot]
    | h :: t => if h = dotdot then dotdot :: h :: t else t
  else c :: acc

/-- filepath.Clean -/
def clean (s : Bytes) : P :=
  ⟨s.head? = some 47, ((splitSlash s).foldl (cleanStep (s.head? = some 47)) []).reverse⟩

/-- The text of a cleaned path. -/
def P.text (p : P) : Bytes :=
  if p.rooted then 47 :: joinSlash p.comps
  else if p.comps = [] then dot else joinSlash p.comps

/-- filepath.Join(a, b); for two empty elements the Go function gives "", here the path with no elements. -/
def joinPath (a b : Bytes) : P := if a ≠ [] then clean (a ++ 47 :: b) else clean b

/-! ### Local paths -/

/-- strings.Replace(s, old, new, -1) for a non-empty `old`. -/
def replaceAll (old new : Bytes) : (fuel : Nat) → Bytes → Bytes
  | 0, s => s
  | n + 1, s =>
    match s with
    | [] => []
    | b :: r =>
      if hasPrefix (b :: r) old then new ++ replaceAll old new n ((b :: r).drop old.length)
      else b :: replaceAll old new n r

/-- strings.HasSuffix(s, "/") or add it: fetch.go:39-41. -/
def withSlash (v : Bytes) : Bytes := if v.getLast? = some 47 then v else v ++ [47]

/-- fetch.go:35-46 `GetLocalPath`; the map is given in the order in which it is ranged over. Keys are not
    empty (for an empty key Go inserts the value between all characters; not modelled). -/
def getLocalPath (path : Bytes) : List (Bytes × Bytes) → Bytes
  | [] => path
  | (k, v) :: rest => getLocalPath (replaceAll k (withSlash v) path.length path) rest

end Verif.Path
