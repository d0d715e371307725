import Verif.Model.Path
/-
  Model of what RunRsync (sync/lib/rsync.go) makes of the output of rsync, and of AddInMap and ReduceMap
  (sync/lib/utils.go).
-/
set_option autoImplicit false

namespace Verif.RsyncOut
open Path
open Tal (hasPrefix rsyncScheme)

/-! ### The list of files -/

/-- The pieces of a text between line feeds. -/
def splitNL : Bytes → List Bytes
  | [] => [[]]
  | b :: r =>
    if b = 10 then [] :: splitNL r
    else
      match splitNL r with
      | h :: t => (b :: h) :: t
      | [] => [[b]]

/-- bufio's `dropCR`. -/
def dropCR (l : Bytes) : Bytes := if l.getLast? = some 13 then l.dropLast else l

/-- bufio.MaxScanTokenSize: a scanner whose buffer of that many bytes holds no line feed stops. -/
def maxToken : Nat := 65536

/-- What `bufio.NewScanner` gives for a text, line by line: nothing for the rest after the last line feed if it is
    empty, and nothing from the first line on that does not fit. -/
def scanLines (s : Bytes) : List Bytes :=
  let l := splitNL s
  let l := if l.getLast? = some [] then l.dropLast else l
  (l.takeWhile (fun x => x.length < maxToken)).map dropCR

/-- rsync.go:22 `wantedFileExtensionRE`: lines contain no line feed, so the expression looks at the end only. -/
def wanted (line : Bytes) : Bool :=
  [".cer", ".mft", ".crl", ".roa", ".gbr"].any fun e => (asc e.toList).isSuffixOf line

/-- rsync.go:56-59 `FileStat`. -/
structure FileStat where
  path : Bytes
  deleted : Bool
  deriving Repr, DecidableEq

/-- rsync.go:21,48-54 `FilterMatch` for a text without line feeds. -/
def filterMatch (line : Bytes) : Bytes × Bool :=
  if hasPrefix line (asc "deleting ".toList) then (line.drop 9, true) else (line, false)

/-- rsync.go:101-108: the URL below which the printed names are. Slicing a text that is too short panics. -/
def newURI (uri : Bytes) : Go Bytes :=
  if uri.length < 8 then .panic
  else
    let parts := splitSlash (uri.drop 8)
    if uri.getLast? ≠ some 47 ∧ parts.length > 2 then .ok (rsyncScheme ++ joinSlash parts.dropLast)
    else .ok (if uri.getLast? = some 47 then uri.dropLast else uri)

/-- rsync.go:101-138 `RunRsync` after the start of the tool: the files for the tool's standard output. The error of
    the scanner is dropped in line 136; the error of the tool is not modelled here. -/
def rsyncFiles (uri stdout : Bytes) : Go (List FileStat) := do
  let base ← newURI uri
  return ((scanLines stdout).filter wanted).map fun line =>
    ⟨base ++ 47 :: (filterMatch line).1, (filterMatch line).2⟩

/-! ### Directories of a set of URLs -/

/-- utils.go:18-21: a tree of `SubMap`. Each map is named by the keys that lead to it; the entry with the name `p` is
    the value stored in the map `p.dropLast` under the last key of `p`, given by its count. AddInMap makes a new map
    for each new entry, so maps are never shared. -/
abbrev Tree := List (List Bytes × Nat)

/-- Whether there is an entry. -/
def has (t : Tree) (p : List Bytes) : Bool := t.any fun e => e.1 = p

/-- utils.go:41-52, the loop, from the entry `done ++ [s]` on. An entry that is there already is a copy: adding one to
    its count (line 45) has no effect. -/
def addFrom (t : Tree) (done : List Bytes) : List Bytes → Tree
  | [] => t
  | s :: r =>
    let p := done ++ [s]
    let t' := if has t p then t else t ++ [(p, if r = [] then 1 else 0)]
    addFrom t' p r

/-- utils.go:35-53 `AddInMap`. -/
def addInMap (t : Tree) (item : Bytes) : Tree :=
  if item.length > 8 ∧ hasPrefix item rsyncScheme then addFrom t [] (splitSlash (item.drop 8)) else t

/-- The entries of the map named `p`: last key, count. -/
def entries (t : Tree) (p : List Bytes) : List (Bytes × Nat) :=
  t.filterMap fun e => match e.1.getLast? with
    | some s => if e.1.dropLast = p then some (s, e.2) else none
    | none => none

/-- utils.go:77: whether the entry `s` with count `n` of the map `p` is taken apart further. -/
def descends (t : Tree) (p : List Bytes) (depth : Nat) (e : Bytes × Nat) : Bool :=
  ((entries t (p ++ [e.1])).length = 1 && e.2 = 0) || depth < 1

/-- utils.go:64-86: the loop of `ReduceMap`. `queue` holds the maps to look at with their paths and depths, `ord` is the
    order in which Go iterates over a map, which may be another one each time. -/
def reduceLoop (t : Tree) (ord : Nat → List (Bytes × Nat) → List (Bytes × Nat)) :
    (fuel : Nat) → List (List Bytes × Bytes × Nat) → List Bytes → Go (List Bytes)
  | _, [], final => .ok final
  | 0, _ :: _, _ => .diverge
  | fuel + 1, (p, path, depth) :: queue, final =>
    let es := ord fuel (entries t p)
    reduceLoop t ord fuel
      (queue ++ (es.filter (descends t p depth)).map fun e => (p ++ [e.1], path ++ 47 :: e.1, depth + 1))
      (final ++ (es.filter (fun e => !descends t p depth e)).map fun e => path ++ 47 :: e.1)

/-- utils.go:55-87 `ReduceMap`. -/
def reduceMap (t : Tree) (ord : Nat → List (Bytes × Nat) → List (Bytes × Nat)) : Go (List Bytes) :=
  reduceLoop t ord (t.length + 1) [([], asc "rsync:/".toList, 0)] []

end Verif.RsyncOut
