import Verif.Model.Tal
/-
  What the lists of files and directories made from rsync URLs mean.
-/
set_option autoImplicit false

namespace Verif.RsyncSpec
open Tal (rsyncScheme)

/-- The URL `u` is the directory `d` or lies below it. -/
def Under (d u : Bytes) : Prop := u = d ∨ ∃ rest, u = d ++ 47 :: rest

/-- The URL `u` is of the module `module` of the host `host`. -/
def OfModule (host module u : Bytes) : Prop := Under (rsyncScheme ++ host ++ 47 :: module) u

/-- A URL that names a host and something on it. -/
def Named (u : Bytes) : Prop := ∃ host rest, (47 : UInt8) ∉ host ∧ u = rsyncScheme ++ host ++ 47 :: rest

/-- A file that rsync fetches: by its name relative to the directory that is fetched, or a line that it prints besides. -/
inductive Printed where
  | file (name : Bytes)
  | chatter (line : Bytes)

/-- The extensions of RPKI objects that are counted. -/
def Wanted (name : Bytes) : Prop := ∃ e ∈ [".cer", ".mft", ".crl", ".roa", ".gbr"], asc e.toList <:+ name

instance (name : Bytes) : Decidable (Wanted name) :=
  inferInstanceAs (Decidable (∃ e ∈ [".cer", ".mft", ".crl", ".roa", ".gbr"], asc e.toList <:+ name))

/-- What rsync prints in front of the name of each file: nothing when it copies a module or the contents of a directory
    (a URL that ends with a slash), the last name of the URL when it copies a directory as such. `dir` is the URL of
    what is copied, without a final slash. -/
inductive Prefixed (dir : Bytes) : (uri : Bytes) → (front : Bytes) → Prop
  | contents (s : rsyncScheme <+: dir) : Prefixed dir (dir ++ [47]) []
  | module (host module : Bytes) (h : (47 : UInt8) ∉ host) (m : (47 : UInt8) ∉ module) (ne : module ≠ [])
      (e : dir = rsyncScheme ++ host ++ 47 :: module) : Prefixed dir dir []
  | directory (host above last : Bytes) (h : (47 : UInt8) ∉ host) (l : (47 : UInt8) ∉ last) (ne : last ≠ [])
      (e : dir = rsyncScheme ++ host ++ 47 :: above ++ 47 :: last) : Prefixed dir dir (last ++ [47])

/-- The lines of rsync's output. -/
def Printed.line (front : Bytes) : Printed → Bytes
  | .file n => front ++ n
  | .chatter l => l

/-- rsync's output: each line ends with a line feed. -/
def output (front : Bytes) (ps : List Printed) : Bytes := ps.flatMap fun p => p.line front ++ [10]

/-- A line that a reader of lines takes as it is: one line, not too long, no carriage return at its end. -/
def Fits (line : Bytes) : Prop := (10 : UInt8) ∉ line ∧ line.length < 65536 ∧ line.getLast? ≠ some 13

/-- The URLs of the RPKI objects among the files. -/
def urls (dir : Bytes) (ps : List Printed) : List Bytes := ps.filterMap fun
  | .file n => if Wanted n then some (dir ++ 47 :: n) else none
  | .chatter _ => none

end Verif.RsyncSpec
