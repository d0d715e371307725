import Verif.Model.Base
/-
  The validation loop of the command octorpki and what its HTTP endpoints answer meanwhile
  (cmd/octorpki/octorpki.go).  One `step` is a piece of the loop between two accesses to what the request
  handlers read (the two stability flags and the published list), so that requests can fall anywhere
  between the steps.  What a round finds (the repositories named by the valid certificates, and the list
  computed from the valid objects) is an arbitrary input of the model: `rounds k` is what round `k` finds.

  Simplified: waiting times, tracing, metrics and Certificate Transparency submissions are left out; the
  fetches of a round only matter through what the round finds; `iterations` (uint64) and
  `iterationsUntilStable` (int) do not overflow; writing the output succeeds (otherwise the process ends
  with an error: `mustOutput`, 1622-1627).
-/
set_option autoImplicit false

namespace Verif.Loop

/-- The flags read by the loop: `-mode` is "oneoff" (the other mode is "server"), `-output.wait` and
    `-max.iterations` (octorpki.go:54, 72). -/
structure Config where
  oneoff : Bool
  waitStable : Bool
  maxIterations : Int

/-- What one run of `mainValidation` finds: the rsync modules of the valid certificates (1107) and the
    list of `generateROAList` (1133). -/
structure Round (L : Type) where
  repos : List Bytes
  list : L

/-- Places of the loop between two steps. -/
inductive Pc where
  | top | fetched | validated | stored | storedBoth | written | limited | waiting | done
  deriving DecidableEq, Repr

/-- The variables of `validationLoop` and the fields of `OctoRPKI` it uses (octorpki.go:208-220). The keys
    of a map are a list without duplicates. `outputs` are the lists written by `mustOutput`. -/
structure State (L : Type) where
  pc : Pc
  current : List Bytes
  prev : List Bytes
  spanActive : Bool
  iterations : Nat
  untilStable : Nat
  stable : Bool
  hasPrev : Bool
  list : L
  outputs : List L

/-- octorpki.go:1470-1492 `NewOctoRPKI` and 1537-1539: the start of the loop. `l` is the empty list. -/
def start {L : Type} (l : L) : State L := ⟨.top, [], [], false, 0, 0, false, false, l, []⟩

/-- Setting a key of a map. -/
def addKey (m : List Bytes) (k : Bytes) : List Bytes := if k ∈ m then m else m ++ [k]

/-- octorpki.go:1107: every module found becomes a key of `CurrentRepos`; nothing is ever removed. -/
def addRepos (m rs : List Bytes) : List Bytes := rs.foldl addKey m

/-- octorpki.go:299-306: the loop of `MainReduce`. The order is that of the list; for the map of Go it can
    be any order. -/
def reduceLoop : List Bytes → List Bytes → Bool → List Bytes × Bool
  | prev, [], changed => (prev, changed)
  | prev, r :: rs, changed =>
    if r ∈ prev then reduceLoop prev rs changed else reduceLoop (prev ++ [r]) rs true

/-- octorpki.go:292-315 `MainReduce`. -/
def mainReduce (prev current : List Bytes) : List Bytes × Bool :=
  let r := reduceLoop prev current false
  if r.1.length ≠ current.length then (r.1, true) else r

/-- octorpki.go:1541-1618: one step of `validationLoop`. -/
def step {L : Type} (c : Config) (rounds : Nat → Round L) (s : State L) : State L :=
  match s.pc with
  | .top => -- 1541-1566: counters, fetches
    { s with
      pc := .fetched, spanActive := true, iterations := s.iterations + 1,
      untilStable := (if s.spanActive then s.untilStable else 0) + 1 }
  | .fetched => -- 1568 `mainValidation`
    { s with
      pc := .validated, current := addRepos s.current (rounds (s.iterations - 1)).repos,
      list := (rounds (s.iterations - 1)).list }
  | .validated => -- 1566-1567
    let r := mainReduce s.prev s.current
    { s with pc := .stored, prev := r.1, stable := !r.2 && decide (s.iterations > 1) }
  | .stored => -- 1568
    { s with pc := .storedBoth, hasPrev := s.stable }
  | .storedBoth => -- 1570-1572
    { s with
      pc := .written,
      outputs := if c.oneoff && (s.stable || !c.waitStable) then s.outputs ++ [s.list] else s.outputs }
  | .written => -- 1578-1582
    { s with pc := .limited, stable := if (s.untilStable : Int) > c.maxIterations then true else s.stable }
  | .limited => -- 1584-1587, 1603-1609
    if c.oneoff && s.stable then { s with pc := .done }
    else if s.stable then { s with pc := .waiting, spanActive := false }
    else { s with pc := .top }
  | .waiting => -- 1612-1614
    { s with pc := .top, stable := false }
  | .done => s

/-- The loop after `n` steps. -/
def run {L : Type} (c : Config) (rounds : Nat → Round L) (l : L) : Nat → State L
  | 0 => start l
  | n + 1 => step c rounds (run c rounds l n)

/-- octorpki.go:1203-1236 `ServeROAs`: a request that reads the first flag after step `i` of the loop, the
    second after step `j` and the list after step `k`. `none` is status 503; the If-None-Match part is
    modelled in Model/Output.lean. (The second flag is read only if the first is not set and waiting is
    on.) -/
def serveROAs {L : Type} (c : Config) (rounds : Nat → Round L) (l : L) (i j k : Nat) : Option L :=
  if !(run c rounds l i).stable && c.waitStable && !(run c rounds l j).hasPrev then none
  else some (run c rounds l k).list

/-- octorpki.go:1253-1260 `ServeHealth`: whether the status is 200. -/
def serveHealth {L : Type} (c : Config) (rounds : Nat → Round L) (l : L) (i j : Nat) : Bool :=
  (run c rounds l i).stable || (run c rounds l j).hasPrev

end Verif.Loop
