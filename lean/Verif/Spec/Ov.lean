import Verif.Model.Ov
import Verif.Spec.Resources
/-
  Independent meaning of prefixes and of route origin validation (RFC 6811).
-/
set_option autoImplicit false

namespace Verif.OvSpec
open BerSpec ResSpec Net Ov

/-- A prefix: family, the number of its address, its length. -/
structure Pfx where
  v6 : Bool
  addr : Nat
  len : Nat
  deriving DecidableEq, Repr

/-- The number of bits of an address of the family. -/
def Pfx.size (p : Pfx) : Nat := if p.v6 then 128 else 32

/-- The prefix a `*net.IPNet` stands for: an IPv4 address (in 4 bytes, or in 16 as `net.ParseIP`
    returns it) with a 4-byte mask, or an IPv6 address with a 16-byte mask. -/
inductive IsPfx : Option IPNet → Pfx → Prop where
  | v4 (ip mask : Bytes) (p : Nat) (hi : ip.length = 4) (hm : mask.length = 4) (hp : IsMask p mask) :
      IsPfx (some ⟨ip, mask⟩) ⟨false, beVal ip, p⟩
  | v4in16 (ip mask : Bytes) (p : Nat) (hi : ip.length = 4) (hm : mask.length = 4)
      (hp : IsMask p mask) :
      IsPfx (some ⟨List.replicate 10 0 ++ [0xff, 0xff] ++ ip, mask⟩) ⟨false, beVal ip, p⟩
  | v6 (ip mask : Bytes) (p : Nat) (hi : ip.length = 16) (hn : ¬ Mapped ip) (hm : mask.length = 16)
      (hp : IsMask p mask) : IsPfx (some ⟨ip, mask⟩) ⟨true, beVal ip, p⟩

/-- RFC 6811 section 2: `a` covers `b` when they are of one family, `a` is not longer, and their
    addresses agree on the bits of `a`. -/
def Pfx.Covers (a b : Pfx) : Prop :=
  a.v6 = b.v6 ∧ a.len ≤ b.len ∧ b.addr / 2 ^ (a.size - a.len) = a.addr / 2 ^ (a.size - a.len)

/-- The same prefix (the address bits after the length do not count). -/
def Pfx.Same (a b : Pfx) : Prop := a.Covers b ∧ a.len = b.len

/-- The entry covers the route. -/
def Covers (v : VRP) (r : Route) : Prop :=
  ∃ p q, IsPfx v.pre p ∧ IsPfx r.pre q ∧ p.Covers q

/-- The entry matches the route: it covers it, the origin is the same and the route is not longer
    than the maximum length. -/
def Matches (v : VRP) (r : Route) : Prop :=
  ∃ p q, IsPfx v.pre p ∧ IsPfx r.pre q ∧ p.Covers q ∧ v.asn = r.asn ∧ (q.len : Int) ≤ v.maxLen

/-- An entry with a prefix, or with none. -/
def Proper (v : VRP) : Prop := v.pre = none ∨ ∃ p, IsPfx v.pre p

/-! ### The prefix tree by itself -/

/-- Any sequence of insertions: address, length, tag. -/
def insertAll {A : Type} (o : Patricia.Ops A) (t : Patricia.Tree A) :
    List (A × Nat × Int) → Go (Patricia.Tree A)
  | [] => .ok t
  | (a, n, x) :: es => do
    let t' ← Patricia.add o t a n x
    insertAll o t' es

/-- The first `n` bits of an IPv4 address. -/
def bits4 (a : BitVec 32) (n : Nat) : List Bool := (List.range n).map a.getMsbD

/-- The first `n` bits of an IPv6 address, kept as two halves. -/
def bits6 (a : Patricia.V6) (n : Nat) : List Bool := (List.range n).map (a.1 ++ a.2).getMsbD

/-- The prefix a node stands for: the bits met on the way from the root to it, over the links
    stored in the tree.  `bits` reads an address. -/
inductive Stands {A : Type} (bits : A → Nat → List Bool) (t : Patricia.Tree A) : Nat → List Bool → Prop where
  | root : Stands bits t 1 []
  | left (i : Nat) (q : List Bool) (n m : Patricia.Node A) (h : Stands bits t i q)
      (hn : t.nodes[i]? = some n) (h0 : n.left ≠ 0) (hm : t.nodes[n.left]? = some m) :
      Stands bits t n.left (q ++ bits m.pre m.plen)
  | right (i : Nat) (q : List Bool) (n m : Patricia.Node A) (h : Stands bits t i q)
      (hn : t.nodes[i]? = some n) (h0 : n.right ≠ 0) (hm : t.nodes[n.right]? = some m) :
      Stands bits t n.right (q ++ bits m.pre m.plen)

/-- The tags stored at a node. -/
def stored {A : Type} (t : Patricia.Tree A) (i : Nat) : List Int :=
  match t.nodes[i]? with
  | some n => (List.range n.tagCount).map (fun k => t.tags (i * 2 ^ 32 + k))
  | none => []

end Verif.OvSpec
