import Verif.Spec.Sync
import Verif.Model.Local
/-
  Specification for the local cache as the validator reads it, for rsync and for trust anchor certificates.
-/
set_option autoImplicit false

namespace Verif.LocalSpec
open Path Cache
open Tal (rsyncScheme)

/-- A name that can be one element of a path. -/
structure PlainName (n : Bytes) : Prop where
  noSlash : (47 : UInt8) ∉ n
  notEmpty : n ≠ []
  notDot : n ≠ [46]
  notUp : n ≠ [46, 46]

/-- `q` is the directory `p` or lies below it. -/
def Below (p q : P) : Prop := q.rooted = p.rooted ∧ p.comps <+: q.comps

/-- The URI `rsync://host/module`. -/
def moduleURI (host module : Bytes) : Bytes := rsyncScheme ++ host ++ 47 :: module

/-- The directory `base/host/module`. -/
def moduleDir (base host module : Bytes) : P := ⟨(clean base).rooted, (clean base).comps ++ [host, module]⟩

/-- rsync changes files only in the directory that it is given. -/
def WritesInside (tool : FS → Bytes → P → FS) : Prop :=
  ∀ fs u p q, (tool fs u p).file q ≠ fs.file q → Below p q

/-- rsync removes no directory (it is run without `--delete`). -/
def KeepsDirs (tool : FS → Bytes → P → FS) : Prop := ∀ fs u p q, q ∈ fs.dirs → q ∈ (tool fs u p).dirs

/-- The one mapping that octorpki uses (sync/lib/fetch.go:23-29). -/
def rsyncMap (base : Bytes) : List (Bytes × Bytes) := [(rsyncScheme, base)]

/-- The text after `rsync://` does not contain `rsync://` again. -/
def OneScheme (uri : Bytes) : Prop := ∃ rest, uri = rsyncScheme ++ rest ∧ ¬ rsyncScheme <:+: rest

/-- What can happen to the cache while the program runs: files written for a URI (RRDP and trust anchors) and
    runs of rsync. -/
inductive Later (os : OS) (tool : FS → Bytes → P → FS) (base : Bytes) : FS → FS → Prop
  | same (fs : FS) : Later os tool base fs fs
  | write {fs fs1 fs2 : FS} (url data : Bytes) (b : Bool) :
      Later os tool base fs fs1 → writeRsyncFile os base fs1 url data = .ok (fs2, b) → Later os tool base fs fs2
  | rsync {fs fs1 fs2 : FS} (url : Bytes) (b : Bool) :
      Later os tool base fs fs1 → fetchRsync os tool base fs1 url = .ok (fs2, b) → Later os tool base fs fs2

/-- The part of a file name after its last dot; all of it if there is none. -/
def Extension (name ext : Bytes) : Prop := (46 : UInt8) ∉ ext ∧ (name = ext ∨ ∃ stem, name = stem ++ 46 :: ext)

/-- A URI that is fetched over HTTP. -/
def IsHttp (u : Bytes) : Prop := asc "http://".toList <+: u ∨ asc "https://".toList <+: u

end Verif.LocalSpec
