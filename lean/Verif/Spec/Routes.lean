import Verif.Model.Routes
/-
  Specification of the routes: which pattern fits a path, which path is in its simple form, which origin is named by the list, and
  what a browser lets a page read.
-/
set_option autoImplicit false

namespace Verif.RoutesSpec
open Routes

/-- A pattern fits a path: it is the path, or it ends in a slash and the path is below it. -/
def Fits (pattern path : Bytes) : Prop := pattern = path ∨ (pattern.getLast? = some 47 ∧ pattern <+: path)

/-- The document for a path: the one of the longest pattern that fits. -/
def Best (pats : List (Bytes × Doc)) (path : Bytes) (d : Doc) : Prop :=
  ∃ p, (p, d) ∈ pats ∧ Fits p path ∧ ∀ q e, (q, e) ∈ pats → Fits q path → q.length ≤ p.length

/-- A path in its simple form: it begins with a slash, and none of its elements but the last is empty, and none is "." or "..". -/
def Simple (path : Bytes) : Prop :=
  path.head? = some 47 ∧ (∀ c ∈ (Path.splitSlash path).tail.dropLast, c ≠ []) ∧ ∀ c ∈ Path.splitSlash path, c ≠ Path.dot ∧ c ≠ Path.dotdot

/-- An origin is named by an entry of the list: the entry is a star alone, the origin itself, or it is the origin with a star in place
    of a part of it; upper and lower case are the same. -/
def Names (entry origin : Bytes) : Prop :=
  entry = [42] ∨ (42 ∉ entry ∧ lower entry = lower origin) ∨
    ∃ a mid b, entry = a ++ 42 :: b ∧ 42 ∉ a ∧ lower origin = lower a ++ mid ++ lower b

/-- What a browser lets a page of another origin read: without credentials if the header is a star or the origin, with credentials only
    if it is the origin and credentials are allowed (Fetch standard, CORS check). -/
def Readable (withCreds : Bool) (origin : Bytes) (h : Headers) : Prop :=
  if withCreds then h.allowOrigin = some origin ∧ h.allowCreds = true else h.allowOrigin = some [42] ∨ h.allowOrigin = some origin

/-- The methods of the list of octorpki. -/
def Method (m : Bytes) : Prop := upper m = asc "GET".toList ∨ upper m = asc "POST".toList ∨ upper m = asc "OPTIONS".toList

/-- All paths of the configuration begin with a slash (the one of the ROAs need not). -/
def Rooted (c : Cfg) : Prop := c.infoPath.head? = some 47 ∧ c.healthPath.head? = some 47 ∧ c.metricsPath.head? = some 47 ∧ c.roaPath ≠ []

end Verif.RoutesSpec
