import Verif.Model.Base
/-
  The prefix tree used for origin validation:
  /repo/vendor/github.com/kentik/patricia (address_v4.go, address_v6.go) and its
  int64_tree package (tree_node_v4.go, tree_node_v6.go, tree_v4.go,
  tree_v4_manual.go, tree_v6_generated.go, tree_v6_manual.go).

  tree_v6_generated.go is tree_v4.go with V4 replaced by V6, so the tree is written
  once, over the operations `Ops` on addresses; the operations of the two families
  are modelled separately (`ops4`, `ops6`).

  Simplifications, common to the whole file:
  * Only insertion and lookup are modelled (`Delete`, `Clone` and the iterators are not
    used by cfrpki).  Without `Delete`, `availableIndexes` is always empty, and is left out.
  * `matchFunc` is nil and `replaceFirst` false, as in every call from ov.go.
  * The map of tags is a function that is 0 where no tag was stored: Go's answer for a
    missing key.
  * `uint` values are natural numbers; every subtraction in the code is of a smaller number
    (proved: a `MatchCount` is at most both lengths).
-/
set_option autoImplicit false

namespace Verif.Patricia

/-- `bits.LeadingZeros32` / `bits.LeadingZeros64` (standard library): the number of zero
    bits before the first one bit, counted from the most significant end. -/
def leadingZeros {w : Nat} (x : BitVec w) : Nat :=
  ((List.range w).takeWhile (fun i => ! x.getMsbD i)).length

/-- What the tree does with an address or with the prefix of a node. -/
structure Ops (A : Type) where
  /-- `MatchCount`: node prefix, its length, address, its length. -/
  matchCount : A → Nat → A → Nat → Nat
  /-- the value part of `ShiftLeft` and of `ShiftPrefix` -/
  shl : A → Nat → A
  /-- `IsLeftBitSet` -/
  leftBit : A → Bool
  /-- the prefix of a node that was never written (Go's zero value) -/
  zero : A

/-- tree_node_v4.go:22-34 `treeNodeV4.MatchCount`. -/
def matchCount4 (p : BitVec 32) (plen : Nat) (a : BitVec 32) (alen : Nat) : Nat :=
  let length := if alen > plen then plen else alen
  let n := leadingZeros (p ^^^ a)
  if n > length then length else n

/-- address_v4.go:37-40 `IPv4Address.ShiftLeft` and tree_node_v4.go:37-40 `ShiftPrefix`, the
    value.  A Go shift by 32 or more gives 0, as does a `BitVec` shift. -/
def shl4 (a : BitVec 32) (n : Nat) : BitVec 32 := a <<< n

/-- address_v4.go:43-45, tree_node_v4.go:43-45 `IsLeftBitSet`. -/
def leftBit4 (a : BitVec 32) : Bool := a.toNat ≥ 2 ^ 31

/-- IPv4 addresses. -/
def ops4 : Ops (BitVec 32) :=
  { matchCount := matchCount4, shl := shl4, leftBit := leftBit4, zero := 0 }

/-- An IPv6 address as the code keeps it: `Left` and `Right`. -/
abbrev V6 := BitVec 64 × BitVec 64

/-- tree_node_v6.go:22-36 `treeNodeV6.MatchCount`. -/
def matchCount6 (p : V6) (plen : Nat) (a : V6) (alen : Nat) : Nat :=
  let length := if alen > plen then plen else alen
  let n := leadingZeros (p.1 ^^^ a.1)
  let n := if n = 64 ∧ length > 64 then n + leadingZeros (p.2 ^^^ a.2) else n
  if n > length then length else n

/-- address_v6.go:53-65 `ShiftLeftIPv6`, the value. -/
def shl6 (a : V6) (n : Nat) : V6 :=
  if n ≥ 64 then (a.2 <<< (n - 64), 0)
  else ((a.1 <<< n) ||| (a.2 >>> (64 - n)), a.2 <<< n)

/-- address_v6.go:82-84, tree_node_v6.go:44-46 `IsLeftBitSet`. -/
def leftBit6 (a : V6) : Bool := a.1.toNat ≥ 2 ^ 63

/-- IPv6 addresses. -/
def ops6 : Ops V6 :=
  { matchCount := matchCount6, shl := shl6, leftBit := leftBit6, zero := (0, 0) }

/-- tree_node_v4.go:13-19 `treeNodeV4`, tree_node_v6.go:13-20 `treeNodeV6`. -/
structure Node (A : Type) where
  left : Nat
  right : Nat
  pre : A
  plen : Nat
  tagCount : Nat
  deriving Repr, DecidableEq

/-- tree_v4.go:12-16 `TreeV4`; `cap` is the capacity of the slice `nodes`. -/
structure Tree (A : Type) where
  nodes : List (Node A)
  cap : Nat
  tags : Nat → Int

variable {A : Type}

/-- tree_v4.go:19-25 `NewTreeV4`: two zero nodes, index 1 is the root. -/
def newTree (o : Ops A) : Tree A :=
  { nodes := [⟨0, 0, o.zero, 0, 0⟩, ⟨0, 0, o.zero, 0, 0⟩], cap := 2, tags := fun _ => 0 }

/-- The key of tag number `i` of a node: `uint64(nodeIndex)<<32 + uint64(i)`
    (tree_v4.go:67,94,96). -/
def tagKey (nodeIndex i : Nat) : Nat := (nodeIndex * 2 ^ 32 + i) % 2 ^ 64

/-- Assignment to a map entry. -/
def setTag (tags : Nat → Int) (k : Nat) (v : Int) : Nat → Int :=
  fun k' => if k' = k then v else tags k'

/-- An assignment through a pointer to node `i`. -/
def updNode (t : Tree A) (i : Nat) (f : Node A → Node A) : Go (Tree A) := do
  let n ← idx t.nodes i
  pure { t with nodes := t.nodes.set i (f n) }

/-- tree_v4.go:57-82 `addTag`, with no `matchFunc` and `replaceFirst` false. -/
def addTag (t : Tree A) (tag : Int) (nodeIndex : Nat) : Go (Tree A) := do
  let n ← idx t.nodes nodeIndex
  updNode { t with tags := setTag t.tags (tagKey nodeIndex n.tagCount) tag } nodeIndex
    (fun n => { n with tagCount := n.tagCount + 1 })

/-- tree_v4_manual.go:14-25 `newNode`, with no available indexes.  `add` holds pointers into
    the array while it calls this: if `append` had to move the array, what it writes through
    them afterwards would be lost.  The model treats that as a panic; it is proved never to
    happen. -/
def newNode (t : Tree A) (a : A) (plen : Nat) : Go (Tree A × Nat) :=
  if t.nodes.length < t.cap then
    .ok ({ t with nodes := t.nodes ++ [⟨0, 0, a, plen, 0⟩] }, t.nodes.length)
  else .panic

/-- tree_v4.go:169-174: the array is grown before anything else. -/
def grow (t : Tree A) : Tree A :=
  if t.cap < t.nodes.length + 10 then { t with cap := (t.cap + 1) * 2 } else t

/-- `newNode` and `addTag` as at tree_v4.go:189-190, 197-198, 232-234, 271-272, 285-286, 303-304:
    a new node with one tag.  Returns its index. -/
def newTagged (t : Tree A) (a : A) (alen : Nat) (tag : Int) : Go (Tree A × Nat) := do
  let r ← newNode t a alen
  let t' ← addTag r.1 tag r.2
  pure (t', r.2)

/-- `x.Left = c` or `x.Right = c`. -/
def setChild (right : Bool) (c : Nat) (n : Node A) : Node A :=
  if right then { n with right := c } else { n with left := c }

/-- `x.Left` or `x.Right`. -/
def child (right : Bool) (n : Node A) : Nat := if right then n.right else n.left

/-- tree_v4.go:249-257 and 316-324: the parent's link to `old` now leads to `new`. -/
def relink (t : Tree A) (parent old new : Nat) : Go (Tree A) := do
  let p ← idx t.nodes parent
  if p.left = old then updNode t parent (setChild false new)
  else if p.right ≠ old then .panic
  else updNode t parent (setChild true new)

/-- tree_v4.go:230-259: the address ends inside the prefix of `nodeIndex`; a new node is put
    above it. -/
def addAbove (o : Ops A) (t : Tree A) (parent nodeIndex : Nat) (a : A) (alen : Nat)
    (tag : Int) (matchCount : Nat) : Go (Tree A) := do
  let r ← newTagged t a alen tag
  let t ← updNode r.1 nodeIndex
    (fun n => { n with pre := o.shl n.pre matchCount, plen := n.plen - matchCount })
  let n ← idx t.nodes nodeIndex
  let t ← updNode t r.2 (setChild (o.leftBit n.pre) nodeIndex)
  relink t parent nodeIndex r.2

/-- tree_v4.go:296-325: the address and the prefix of `nodeIndex` part ways; a common parent
    with two children. -/
def addSplit (o : Ops A) (t : Tree A) (parent nodeIndex : Nat) (a : A) (alen : Nat)
    (tag : Int) (matchCount : Nat) : Go (Tree A) := do
  let c ← newNode t a matchCount
  let r ← newTagged c.1 (o.shl a matchCount) (alen - matchCount) tag
  let t ← updNode r.1 nodeIndex
    (fun n => { n with pre := o.shl n.pre matchCount, plen := n.plen - matchCount })
  let n ← idx t.nodes nodeIndex
  let t ← updNode t c.2 (fun p =>
    setChild (! o.leftBit n.pre) r.2 (setChild (o.leftBit n.pre) nodeIndex p))
  relink t parent nodeIndex c.2

/-- tree_v4.go:204-326: the loop of `add`.  One round moves to a child and drops at least one
    bit of the address, so `alen` rounds suffice (proved: `diverge` is not reached). -/
def addLoop (o : Ops A) : (fuel : Nat) → Tree A → (parent nodeIndex : Nat) → A → (alen : Nat) →
    (tag : Int) → Go (Tree A)
  | 0, _, _, _, _, _, _ => .diverge
  | fuel + 1, t, parent, nodeIndex, a, alen, tag =>
    if nodeIndex = 0 then .panic
    else do
      let node ← idx t.nodes nodeIndex
      if node.plen = 0 then .panic
      else
        let mc := o.matchCount node.pre node.plen a alen
        if mc = 0 then .panic
        else if mc = alen then
          if mc = node.plen then addTag t tag nodeIndex
          else addAbove o t parent nodeIndex a alen tag mc
        else if mc = node.plen then
          let a' := o.shl a mc
          let side := o.leftBit a'
          if child side node = 0 then do
            let r ← newTagged t a' (alen - mc) tag
            updNode r.1 nodeIndex (setChild side r.2)
          else addLoop o fuel t nodeIndex (child side node) a' (alen - mc) tag
        else addSplit o t parent nodeIndex a alen tag mc

/-- tree_v4.go:161-163 `Add` and 168-326 `add`. -/
def add (o : Ops A) (t : Tree A) (a : A) (alen : Nat) (tag : Int) : Go (Tree A) :=
  let t := grow t
  if alen = 0 then addTag t tag 1
  else do
    let root ← idx t.nodes 1
    let side := o.leftBit a
    if child side root = 0 then do
      let r ← newTagged t a alen tag
      updNode r.1 1 (setChild side r.2)
    else addLoop o (alen + 1) t 1 (child side root) a alen tag

/-- A filter function that may change variables of its caller (a Go closure): state and tag to
    new state and verdict. -/
abbrev Filter (σ : Type) := σ → Int → Go (σ × Bool)

/-- The loop at tree_v4.go:95-100: tags number `i`, …, `i + n - 1` of the node. -/
def tagsLoop {σ : Type} (t : Tree A) (nodeIndex : Nat) (f : Filter σ) :
    (n i : Nat) → List Int × σ → Go (List Int × σ)
  | 0, _, s => .ok s
  | n + 1, i, s => do
    let tag := t.tags (tagKey nodeIndex i)
    let r ← f s.2 tag
    tagsLoop t nodeIndex f n (i + 1) (if r.2 then s.1 ++ [tag] else s.1, r.1)

/-- tree_v4.go:86-102 `tagsForNode`. -/
def tagsForNode {σ : Type} (t : Tree A) (nodeIndex : Nat) (f : Filter σ) (s : List Int × σ) :
    Go (List Int × σ) :=
  if nodeIndex = 0 then .ok s
  else do
    let n ← idx t.nodes nodeIndex
    tagsLoop t nodeIndex f n.tagCount 0 s

/-- tree_v4.go:518-547: the loop of `FindTagsWithFilterAppend`; `alen` rounds suffice as above. -/
def findLoop {σ : Type} (o : Ops A) (t : Tree A) (f : Filter σ) :
    (fuel : Nat) → (nodeIndex : Nat) → A → (alen : Nat) → List Int × σ → Go (List Int × σ)
  | 0, _, _, _, _ => .diverge
  | fuel + 1, nodeIndex, a, alen, s =>
    if nodeIndex = 0 then .ok s
    else do
      let node ← idx t.nodes nodeIndex
      let mc := o.matchCount node.pre node.plen a alen
      if mc < node.plen then .ok s
      else do
        let s ← tagsForNode t nodeIndex f s
        if mc = alen then .ok s
        else
          let a' := o.shl a mc
          findLoop o t f fuel (child (o.leftBit a') node) a' (alen - mc) s

/-- tree_v4.go:478-481 `FindTagsWithFilter` and 497-548 `FindTagsWithFilterAppend`.  The tests
    `TagCount > 0` only skip a `tagsForNode` that would do nothing. -/
def findTagsWithFilter {σ : Type} (o : Ops A) (t : Tree A) (a : A) (alen : Nat) (f : Filter σ)
    (s : σ) : Go (List Int × σ) := do
  let root ← idx t.nodes 1
  let s ← tagsForNode t 1 f ([], s)
  if alen = 0 then .ok s
  else findLoop o t f (alen + 1) (child (o.leftBit a) root) a alen s

end Verif.Patricia
