import Verif.Model.Net
import Verif.Model.Patricia
/-
  Origin validation: /repo/ov/ov.go and ParseFromIPAddr of
  /repo/vendor/github.com/kentik/patricia/net.go.
-/
set_option autoImplicit false

namespace Verif.Ov

open Verif.Net Verif.Patricia

/-- `binary.BigEndian.Uint32` / `Uint64` (standard library) on the first `n` bytes. -/
def bigEndian (n : Nat) (bs : Bytes) : Nat :=
  (bs.take n).foldl (fun acc b => acc * 256 + b.toNat) 0

/-- The two results of `ParseFromIPAddr`: at most one pointer is not nil. -/
inductive Parsed where
  | v4 (a : BitVec 32) (len : Nat)
  | v6 (a : V6) (len : Nat)
  | bad
  deriving DecidableEq

/-- patricia/net.go:82-99 `ParseFromIPAddr` with address_v4.go:26-35 and address_v6.go:18-31
    (whose length checks cannot fail here).  A nil `*net.IPNet` is `none`; `bad` is the error. -/
def parseFromIPAddr : Option IPNet → Parsed
  | none => .bad
  | some n =>
    match to4 n.ip with
    | some b => .v4 (BitVec.ofNat 32 (bigEndian 4 b)) (maskSize n.mask)
    | none =>
      if to16IsSome n.ip then
        .v6 (BitVec.ofNat 64 (bigEndian 8 n.ip), BitVec.ofNat 64 (bigEndian 8 (n.ip.drop 8)))
          (maskSize n.mask)
      else .bad

/-- ov.go:27-31 `AbstractROA`: what its three methods return. -/
structure VRP where
  asn : UInt32
  maxLen : Int
  pre : Option IPNet
  deriving DecidableEq

/-- ov.go:33-36 `AbstractRoute`. -/
structure Route where
  pre : Option IPNet
  asn : UInt32
  deriving DecidableEq

/-- ov.go:13-17. -/
inductive State where
  | unknown
  | invalid
  | valid
  deriving DecidableEq, Repr

/-- ov.go:38-42 `OriginValidator`. -/
structure OV where
  vrp : List VRP
  t4 : Tree (BitVec 32)
  t6 : Tree V6

/-- ov.go:49-56: the loop of `NewOV`, from index `i`. -/
def buildLoop : (vrps : List VRP) → (i : Nat) → Tree (BitVec 32) × Tree V6 →
    Go (Tree (BitVec 32) × Tree V6)
  | [], _, ts => .ok ts
  | v :: rest, i, ts =>
    match parseFromIPAddr v.pre with
    | .v4 a n => do
      let t ← add ops4 ts.1 a n (i : Int)
      buildLoop rest (i + 1) (t, ts.2)
    | .v6 a n => do
      let t ← add ops6 ts.2 a n (i : Int)
      buildLoop rest (i + 1) (ts.1, t)
    | .bad => buildLoop rest (i + 1) ts

/-- ov.go:45-59 `NewOV`. -/
def newOV (vrps : List VRP) : Go OV := do
  let ts ← buildLoop vrps 0 (newTree ops4, newTree ops6)
  pure { vrp := vrps, t4 := ts.1, t6 := ts.2 }

/-- ov.go:61-66 `curValidation`, the part that changes. -/
structure Cur where
  state : State
  matching : List VRP

/-- `cv.ov.vrp[payload]` with an `int64` index. -/
def vrpAt (vrps : List VRP) (i : Int) : Go VRP := if i < 0 then .panic else idx vrps i.toNat

/-- ov.go:68-81 `Filter`; `mask` is the length of the route's prefix mask. -/
def filter (vrps : List VRP) (asn : UInt32) (mask : Nat) : Filter Cur := fun cv payload => do
  let roa ← vrpAt vrps payload
  let state :=
    if cv.state ≠ .valid then
      if asn = roa.asn ∧ (mask : Int) ≤ roa.maxLen then .valid else .invalid
    else cv.state
  pure ({ state := state, matching := cv.matching ++ [roa] }, true)

/-- ov.go:72, `GetPrefix().Mask.Size()`; only called when the prefix was parsed, so not on nil. -/
def maskLen : Option IPNet → Nat
  | some n => maskSize n.mask
  | none => 0

/-- ov.go:83-106 `Validate`.  The prefix of the route is read once (the code calls
    `GetPrefix` again for every covering entry and relies on the same answer).  A prefix that
    cannot be parsed is returned as an error, with no entries and the state unknown. -/
def validate (ov : OV) (route : Route) : Go (List VRP × State) :=
  let mask := maskLen route.pre
  let cv : Cur := ⟨.unknown, []⟩
  match parseFromIPAddr route.pre with
  | .v4 a n => do
    let r ← findTagsWithFilter ops4 ov.t4 a n (filter ov.vrp route.asn mask) cv
    pure (r.2.matching, r.2.state)
  | .v6 a n => do
    let r ← findTagsWithFilter ops6 ov.t6 a n (filter ov.vrp route.asn mask) cv
    pure (r.2.matching, r.2.state)
  | .bad => .err "couldn't parse either v4 or v6 address"

end Verif.Ov
