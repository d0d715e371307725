import Verif.Model.Cache
/-
  Specification for paths, RRDP and the cache.
-/
set_option autoImplicit false

namespace Verif.SyncSpec
open Path Rrdp Cache

/-- `p` lies inside `base`: it is `base` followed by elements none of which is a step up. -/
def Under (base p : P) : Prop := p.rooted = base.rooted ∧ ∃ r, p.comps = base.comps ++ r ∧ dotdot ∉ r

/-- The serial `k` is not among the deltas of the notification. -/
def Missing (n : Notification) (k : Int) : Prop := ∀ e ∈ n.deltas, e.serial ≠ k

/-- The client must take the snapshot: it has no serial, the session changed, or a delta between its own serial
    and the announced one is missing. -/
def SnapshotNeeded (s : Sys) (n : Notification) : Prop :=
  s.serial = 0 ∨ s.sessionID ≠ n.sessionID ∨ ∃ k, s.serial ≤ k ∧ k ≤ n.serial ∧ Missing n k

/-- `e` is the last listed delta with the serial `k`. -/
def Listed (n : Notification) (k : Int) (e : El) : Prop :=
  ∃ a b, n.deltas = a ++ e :: b ∧ e.serial = k ∧ ∀ x ∈ b, x.serial ≠ k

/-- `es` are listed deltas with the serials `k`, `k + 1`, ... in this order. -/
def InOrder (n : Notification) : Int → List El → Prop
  | _, [] => True
  | k, e :: es => Listed n k e ∧ InOrder n (k + 1) es

/-- The calls for the elements of a snapshot or delta, if all of them can be decoded. -/
def callsOf (mk : Bytes → Bytes → Call) : List Item → Option (List Call)
  | [] => some []
  | i :: r =>
    match decodeBase64 i.value, callsOf mk r with
    | some d, some l => some (mk i.uri d :: l)
    | _, _ => none

/-- The calls for one publish list and one withdraw list. -/
def nodeCalls (s : Sys) (n : Notification) (snapshot : Bool) (serial : Int) (node : List Item × List Item) : Option (List Call) :=
  match callsOf (fun u d => ⟨s.path, n.snapshot.uri, u, d, false, snapshot, serial⟩) node.1,
    callsOf (fun u d => ⟨s.path, n.snapshot.uri, u, d, true, snapshot, serial⟩) node.2 with
  | some a, some b => some (a ++ b)
  | _, _ => none

/-- `l` are the calls for the deltas `es`, one delta after the other; the downloads count from `g` on. -/
def DeltaCalls (W : World) (s : Sys) (n : Notification) : Nat → List El → List Call → Prop
  | _, [], l => l = []
  | g, e :: es, l => ∃ d node a rest, W.getXML g e.uri = some d ∧ W.parseNode d = some node ∧
      nodeCalls s n false e.serial node = some a ∧ l = a ++ rest ∧ DeltaCalls W s n (g + 1) es rest

/-- The calls `l`, one after the other, with their outcomes, lead from `s` to `s'`. -/
inductive Exec {σ : Type} (cb : Callback σ) : σ → List (Call × Bool) → σ → Prop where
  | nil (s : σ) : Exec cb s [] s
  | cons (s s1 s2 : σ) (c : Call) (ok : Bool) (l : List (Call × Bool)) (h : cb s c = .ok (s1, ok))
      (ht : Exec cb s1 l s2) : Exec cb s ((c, ok) :: l) s2

/-- The server's answers: each download gives the file that the server has, or fails. -/
def Answers (W : World) (srv : Bytes → Option Bytes) : Prop := ∀ k u, W.getXML k u = none ∨ W.getXML k u = srv u

/-- The file that a URI is kept in. -/
def target (base uri : Bytes) : P := joinPath base (uri.drop 8)

/-- A snapshot of the content `c`: every URI once, and exactly those of `c`, with their data. -/
structure IsSnapshot (c : Bytes → Option Bytes) (pub : List Item) : Prop where
  once : (pub.map (·.uri)).Nodup
  exact' : ∀ u d, c u = some d ↔ ∃ i ∈ pub, i.uri = u ∧ decodeBase64 i.value = some d

/-- A delta from content `c` to `c'`: a URI is published with its new data, or withdrawn, or unchanged. -/
structure IsDelta (c c' : Bytes → Option Bytes) (pub wd : List Item) : Prop where
  once : (pub.map (·.uri)).Nodup
  disjoint : ∀ i ∈ pub, ∀ j ∈ wd, i.uri ≠ j.uri
  published : ∀ i ∈ pub, c' i.uri = decodeBase64 i.value
  withdrawn : ∀ i ∈ wd, c i.uri ≠ none ∧ c' i.uri = none
  unchanged : ∀ u, (∀ i ∈ pub, i.uri ≠ u) → (∀ i ∈ wd, i.uri ≠ u) → c' u = c u

/-- A consistent server with the history `content`, as seen through the notification `n`. -/
structure Consistent (W : World) (content : Int → Bytes → Option Bytes) (n : Notification) : Prop where
  snapshot : ∀ k d, W.getXML k n.snapshot.uri = some d →
    ∃ pub, W.parseNode d = some (pub, []) ∧ IsSnapshot (content n.serial) pub
  delta : ∀ e ∈ n.deltas, ∀ k d, W.getXML k e.uri = some d →
    ∃ pub wd, W.parseNode d = some (pub, wd) ∧ IsDelta (content (e.serial - 1)) (content e.serial) pub wd

/-- The cache holds the content. -/
def Mirrors (base : Bytes) (fs : FS) (c : Bytes → Option Bytes) : Prop :=
  ∀ u d, c u = some d → fs.file (target base u) = some d

/-- A process that made the calls `calls` from the cache `fs` on was killed: the calls before some `c` were
    complete, `c` was under way and its file may hold anything. -/
def KilledAt (os : OS) (base domain : Bytes) (fs : FS) (calls : List (Call × Bool)) (fs' : FS) : Prop :=
  ∃ pre c post fs1, calls = pre ++ c :: post ∧ Exec (callback os base domain) fs pre fs1 ∧
    (∀ p, p ≠ target base c.1.path → fs'.file p = fs1.file p) ∧
    (¬ domain <:+: c.1.path → fs' = fs1)

end Verif.SyncSpec
