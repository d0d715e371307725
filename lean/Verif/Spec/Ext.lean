import Verif.Spec.Content
/-
  Independent specification of the resource extensions of RFC 3779 and of the access, key identifier and
  policy extensions of RFC 5280, as DER octets, and of what they mean.  Nothing here refers to the model of
  the decoders or encoders.
-/
set_option autoImplicit false

namespace Verif.ExtSpec
open BerSpec CmsSpec ResSpec Cert

/-- A bit string: `length` bits that read as the number `value`. -/
structure Bits where
  length : Nat
  value : Nat

/-- RFC 3779 2.2.3.7: IPAddressOrRange. -/
inductive Addr where
  | prefix (b : Bits)
  | range (min max : Bits)

/-- RFC 3779 2.2.3.4: IPAddressChoice. -/
inductive Choice where
  | inherit
  | list (l : List Addr)

/-- The two address families. -/
inductive Afi where
  | v4
  | v6
  deriving DecidableEq

/-- RFC 3779 2.2.3.3: the number of the family. -/
def Afi.number : Afi → UInt8
  | .v4 => 1
  | .v6 => 2

/-- Octets of an address. -/
def Afi.size : Afi → Nat
  | .v4 => 4
  | .v6 => 16

/-- The first address of the family in the 128-bit space (see `ResSpec.addrNum`). -/
def Afi.base : Afi → Nat
  | .v4 => 0xffff00000000
  | .v6 => 0

/-- RFC 3779 2.2.3.2: IPAddressFamily, with the optional SAFI octet. -/
structure Family where
  afi : Afi
  safi : Option UInt8
  choice : Choice

/-- RFC 3779 2.2.3.3: the octets that name the family. -/
def Family.octets (f : Family) : Bytes := [0, f.afi.number] ++ f.safi.toList

def BitsDer (b : Bits) (out : Bytes) : Prop := ∃ c, BitContent b.length b.value c ∧ out = elem 0x03 c

/-- RFC 3779 2.2.3.7-2.2.3.9. -/
def AddrDer : Addr → Bytes → Prop
  | .prefix b, out => BitsDer b out
  | .range a b, out => ∃ x y, BitsDer a x ∧ BitsDer b y ∧ out = elem 0x30 (x ++ y)

/-- RFC 3779 2.2.3.4-2.2.3.6. -/
def ChoiceDer : Choice → Bytes → Prop
  | .inherit, out => out = elem 0x05 []
  | .list l, out => ∃ encs, List.Forall₂ AddrDer l encs ∧ out = elem 0x30 encs.flatten

def FamilyDer (f : Family) (out : Bytes) : Prop :=
  ∃ c, ChoiceDer f.choice c ∧ out = elem 0x30 (elem 0x04 f.octets ++ c)

/-- RFC 3779 2.2.3.1: IPAddrBlocks. -/
def BlockDer (fams : List Family) (out : Bytes) : Prop :=
  ∃ encs, List.Forall₂ FamilyDer fams encs ∧ out = elem 0x30 encs.flatten

/-- No bit string is longer than an address of `n` bits. -/
def Addr.Fits (n : Nat) : Addr → Prop
  | .prefix b => b.length ≤ n
  | .range a b => a.length ≤ n ∧ b.length ≤ n

def Choice.addrs : Choice → List Addr
  | .inherit => []
  | .list l => l

/-- RFC 3779 2.1.1, 2.1.2: the addresses of `n` bits meant by a prefix or range: missing bits are all
    values for a prefix, zeros for the lower end and ones for the upper end of a range. -/
def Addr.Holds (n : Nat) : Addr → Nat → Prop
  | .prefix b, x => b.value * 2 ^ (n - b.length) ≤ x ∧ x < (b.value + 1) * 2 ^ (n - b.length)
  | .range a b, x => a.value * 2 ^ (n - a.length) ≤ x ∧ x < (b.value + 1) * 2 ^ (n - b.length)

/-- An entry of a resource list stands for an address or range (or, `none`, for inherit) of a family. -/
def Stands : Afi × Option Addr → IPInfo → Prop
  | (afi, none), i => i = .null afi.number
  | (afi, some a), i => famOf i = afi.number ∧
      ∀ v, Denotes i v ↔ ∃ x, a.Holds (8 * afi.size) x ∧ v = afi.base + x

/-- What a family says, in order. -/
def Family.entries (f : Family) : List (Afi × Option Addr) :=
  match f.choice with
  | .inherit => [(f.afi, none)]
  | .list l => l.map (fun a => (f.afi, some a))

/-! ### What the decoder accepts beyond the grammar -/

/-- An element whose tag number is in one identifier octet and is this one, of any class, with any contents,
    constructed or not. -/
def AnyTag (tag : Nat) (out : Bytes) : Prop := ∃ (id : UInt8) (c : Bytes), id.toNat % 32 = tag ∧ out = elem id c

/-- An element with a tag number that is none of these. -/
def OtherTag (tags : List Nat) (out : Bytes) : Prop :=
  ∃ (id : UInt8) (more c : Bytes), (more = [] → id.toNat % 32 ∉ tags) ∧ out = id :: more ++ derLength c.length ++ c

/-- An element of the address list, or (`none`) one that is passed over. -/
def LaxAddr : Option Addr → Bytes → Prop
  | some (.prefix b), out => BitsDer b out
  | some (.range a b), out => ∃ x y junk, BitsDer a x ∧ BitsDer b y ∧ out = elem 0x30 (x ++ y ++ junk)
  | none, out => OtherTag [3, 16] out

/-- The choice of a family, or (`none`) one for which the family is passed over. -/
def LaxChoice : Option Choice → Bytes → Prop
  | some .inherit, out => AnyTag 5 out
  | some (.list l), out => ∃ items encs, List.Forall₂ LaxAddr items encs ∧ l = items.filterMap id ∧
      out = elem 0x30 encs.flatten
  | none, out => OtherTag [5, 16] out

/-- A family: the octets of its name, and the choice. -/
def LaxFamily (f : Bytes × Option Choice) (out : Bytes) : Prop :=
  ∃ c junk, LaxChoice f.2 c ∧ out = elem 0x30 (elem 0x04 f.1 ++ c ++ junk)

def LaxBlock (fams : List (Bytes × Option Choice)) (out : Bytes) : Prop :=
  ∃ encs junk, List.Forall₂ LaxFamily fams encs ∧ out = elem 0x30 encs.flatten ++ junk

/-- What a family says, in order, with the octets of its name. -/
def laxEntries (f : Bytes × Option Choice) : List (Bytes × Option Addr) :=
  match f.2 with
  | none => []
  | some .inherit => [(f.1, none)]
  | some (.list l) => l.map (fun a => (f.1, some a))

/-- An entry for octets of any shape. The second octet names the family, the first is not looked at.
    An address of an unknown family stands for nothing; inherit of an unknown family inherits nothing. -/
def LaxStands : Bytes × Option Addr → IPInfo → Prop
  | (name, none), i => (∃ (hi : UInt8) (afi : Afi), name = [hi, afi.number] ∧ i = .null afi.number) ∨
      ((∀ (hi : UInt8) (afi : Afi), name ≠ [hi, afi.number]) ∧ i = .null 0)
  | (name, some a), i =>
      (∀ (hi : UInt8) (more : Bytes) (afi : Afi), name = hi :: afi.number :: more → a.Fits (8 * afi.size) →
        famOf i = afi.number ∧ ∀ v, Denotes i v ↔ ∃ x, a.Holds (8 * afi.size) x ∧ v = afi.base + x) ∧
      ((∀ (hi : UInt8) (more : Bytes) (afi : Afi), name ≠ hi :: afi.number :: more) → ∀ v, ¬ Denotes i v)

/-! ### AS numbers -/

/-- RFC 3779 3.2.3.6: ASIdOrRange. -/
inductive ASItem where
  | id (n : Int)
  | range (min max : Int)

/-- RFC 3779 3.2.3.3: ASIdentifierChoice. -/
inductive ASChoice where
  | inherit
  | list (l : List ASItem)

def IntDer (n : Int) (out : Bytes) : Prop := ∃ c, IntContent n c ∧ out = elem 0x02 c

def ASItemDer : ASItem → Bytes → Prop
  | .id n, out => IntDer n out
  | .range a b, out => ∃ x y, IntDer a x ∧ IntDer b y ∧ out = elem 0x30 (x ++ y)

def ASChoiceDer : ASChoice → Bytes → Prop
  | .inherit, out => out = elem 0x05 []
  | .list l, out => ∃ encs, List.Forall₂ ASItemDer l encs ∧ out = elem 0x30 encs.flatten

/-- An optional field with an explicit tag. -/
def ASFieldDer (id : UInt8) : Option ASChoice → Bytes → Prop
  | none, out => out = []
  | some c, out => ∃ x, ASChoiceDer c x ∧ out = elem id x

/-- RFC 3779 3.2.3.1: ASIdentifiers ::= SEQUENCE { asnum [0] EXPLICIT ASIdentifierChoice OPTIONAL,
    rdi [1] EXPLICIT ASIdentifierChoice OPTIONAL }. -/
def ASDer (asnum rdi : Option ASChoice) (out : Bytes) : Prop :=
  ∃ x y, ASFieldDer 0xa0 asnum x ∧ ASFieldDer 0xa1 rdi y ∧ out = elem 0x30 (x ++ y)

def ASItem.Fits : ASItem → Prop
  | .id n => -2 ^ 63 ≤ n ∧ n < 2 ^ 63
  | .range a b => (-2 ^ 63 ≤ a ∧ a < 2 ^ 63) ∧ (-2 ^ 63 ≤ b ∧ b < 2 ^ 63)

def ASChoice.items : ASChoice → List ASItem
  | .inherit => []
  | .list l => l

/-- The entry for an item. -/
def ASItem.entry : ASItem → ASInfo
  | .id n => .asn n
  | .range a b => .range a b

/-- The AS numbers an item means. -/
def ASItem.Holds : ASItem → Int → Prop
  | .id n, x => x = n
  | .range a b, x => a ≤ x ∧ x ≤ b

/-- The entries for a field. -/
def asEntries : Option ASChoice → List ASInfo
  | none => []
  | some .inherit => [.null]
  | some (.list l) => l.map ASItem.entry

/-- An element of the list of AS numbers as the decoder takes it, or (`none`) one that is passed over. -/
def LaxASItem : Option ASItem → Bytes → Prop
  | some (.id n), out => IntDer n out
  | some (.range a b), out => ∃ x y junk, IntDer a x ∧ IntDer b y ∧ out = elem 0x30 (x ++ y ++ junk)
  | none, out => OtherTag [2, 16] out

/-- The contents of a field as the decoder takes them. -/
def LaxASChoice : ASChoice → Bytes → Prop
  | .inherit, out => ∃ x junk, AnyTag 5 x ∧ out = x ++ junk
  | .list l, out =>
      (∃ items encs junk, List.Forall₂ LaxASItem items encs ∧ l = items.filterMap id ∧
        out = elem 0x30 encs.flatten ++ junk) ∨
      (l = [] ∧ ∃ x junk, OtherTag [5, 16] x ∧ out = x ++ junk)

/-- A field as the decoder takes it: the constructed bit of the tag is not looked at. -/
def LaxASField (tag : Nat) : Option ASChoice → Bytes → Prop
  | none, out => out = []
  | some c, out => ∃ (id : UInt8) (x : Bytes), LaxASChoice c x ∧ id.toNat / 64 = 2 ∧ id.toNat % 32 = tag ∧
      out = elem id x

/-- Octets that do not begin with an element of context class with this tag. -/
def NoField (tag : Nat) (out : Bytes) : Prop :=
  ∀ (id : UInt8) (x junk : Bytes), id.toNat / 64 = 2 → id.toNat % 32 = tag → x.length < 2 ^ 31 →
    out ≠ elem id x ++ junk

/-- The extension as the decoder takes it. -/
def LaxAS (asnum rdi : Option ASChoice) (out : Bytes) : Prop :=
  ∃ x y junk junk', LaxASField 0 asnum x ∧ LaxASField 1 rdi y ∧ out = elem 0x30 (x ++ y ++ junk) ++ junk' ∧
    (asnum = none → NoField 0 (y ++ junk)) ∧ (rdi = none → NoField 1 junk)

/-! ### Information access, key identifiers, policies -/

/-- An access description: method (contents octets of its object identifier) and URI. -/
structure Access where
  method : Bytes
  uri : Bytes

/-- RFC 5280 4.2.2.1: AccessDescription ::= SEQUENCE { accessMethod OBJECT IDENTIFIER,
    accessLocation GeneralName }, with a URI: [6] IMPLICIT IA5String. -/
def AccessDer (a : Access) (out : Bytes) : Prop := out = elem 0x30 (elem 0x06 a.method ++ elem 0x86 a.uri)

/-- RFC 5280 4.2.2.1, 4.2.2.2. -/
def AccessListDer (l : List Access) (out : Bytes) : Prop :=
  ∃ encs, List.Forall₂ AccessDer l encs ∧ out = elem 0x30 encs.flatten

/-- An access description as the decoder takes it: octets may follow the location. -/
def LaxAccess (a : Access) (out : Bytes) : Prop :=
  ∃ junk, out = elem 0x30 (elem 0x06 a.method ++ elem 0x86 a.uri ++ junk)

/-- X.690 8.19.2: the octets of one arc: base 128, no leading 0x80. -/
def ArcOctets (c : Bytes) : Prop :=
  ∃ init last, c = init ++ [last] ∧ last < 0x80 ∧ (∀ b ∈ init, 0x80 ≤ b) ∧ c.headD 0 ≠ 0x80

/-- The contents octets of an object identifier with arcs below 2^28 (and a first pair of arcs a, b with
    40 a + b below 2^28). -/
def OidContent (c : Bytes) : Prop :=
  ∃ arcs : List Bytes, arcs ≠ [] ∧ (∀ a ∈ arcs, ArcOctets a ∧ a.length ≤ 4) ∧ c = arcs.flatten

/-- RFC 5280 4.2.1.4: a policy and its qualifiers, given by encodings. -/
structure Policy where
  oid : Bytes
  qualifiers : Option (List Bytes)

/-- RFC 5280 4.2.1.4: PolicyInformation ::= SEQUENCE { policyIdentifier, policyQualifiers SEQUENCE
    SIZE (1..MAX) OF PolicyQualifierInfo OPTIONAL }. -/
def PolicyDer (p : Policy) (out : Bytes) : Prop :=
  match p.qualifiers with
  | none => out = elem 0x30 (elem 0x06 p.oid)
  | some q => q ≠ [] ∧ (∀ x ∈ q, ∃ c, x = elem 0x30 c) ∧ out = elem 0x30 (elem 0x06 p.oid ++ elem 0x30 q.flatten)

/-- RFC 5280 4.2.1.4: a CPS pointer: PolicyQualifierInfo with an IA5String. -/
def cpsQualifier (uri : Bytes) : Bytes :=
  elem 0x30 (elem 0x06 [0x2b, 0x06, 0x01, 0x05, 0x05, 0x07, 0x02, 0x01] ++ elem 0x16 uri)

/-- certificatePolicies ::= SEQUENCE SIZE (1..MAX) OF PolicyInformation. -/
def PoliciesDer (l : List Policy) (out : Bytes) : Prop :=
  l ≠ [] ∧ ∃ encs, List.Forall₂ PolicyDer l encs ∧ out = elem 0x30 encs.flatten

end Verif.ExtSpec
