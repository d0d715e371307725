import Verif.Model.Cert
import Verif.Spec.Ber
/-
  Independent meaning of Internet number resources (RFC 3779), in plain arithmetic.
-/
set_option autoImplicit false

namespace Verif.ResSpec
open BerSpec Net Cert

/-- The number of an address in the 128-bit space. An IPv4 address a.b.c.d is the address
    ::ffff:a.b.c.d (RFC 4291 2.5.5.2). -/
def addrNum (a : Bytes) : Nat :=
  if a.length = 4 then 0xffff00000000 + beVal a else beVal a

/-- `m` is the mask with `p` leading ones, then zeros. -/
def IsMask (p : Nat) (m : Bytes) : Prop :=
  p ≤ 8 * m.length ∧ beVal m + 2 ^ (8 * m.length - p) = 2 ^ (8 * m.length)

/-- The addresses (as numbers) that an entry of a resource list stands for.
    An inherit entry stands for none by itself. -/
inductive Denotes : IPInfo → Nat → Prop where
  /-- IPv4 prefix of length `p`: the addresses that agree with it on the first `p` bits. -/
  | net4 (ip mask : Bytes) (p v : Nat) (hi : ip.length = 4) (hm : mask.length = 4)
      (hp : IsMask p mask) (hv : v < 2 ^ 32)
      (h : v / 2 ^ (32 - p) = beVal ip / 2 ^ (32 - p)) :
      Denotes (.net (some ⟨ip, mask⟩)) (0xffff00000000 + v)
  /-- IPv6 prefix of length `p`. -/
  | net6 (ip mask : Bytes) (p v : Nat) (hi : ip.length = 16) (hm : mask.length = 16)
      (hp : IsMask p mask) (h : v / 2 ^ (128 - p) = beVal ip / 2 ^ (128 - p)) :
      Denotes (.net (some ⟨ip, mask⟩)) v
  /-- Range of addresses of one family. -/
  | range (min max : Bytes) (v : Nat) (hl : min.length = max.length)
      (hf : min.length = 4 ∨ min.length = 16)
      (h1 : addrNum min ≤ v) (h2 : v ≤ addrNum max) : Denotes (.range min max) v

/-- A well-formed prefix: address and mask of the same family. -/
def ProperNet (n : IPNet) : Prop :=
  n.ip.length = n.mask.length ∧ (n.ip.length = 4 ∨ n.ip.length = 16) ∧ ∃ p, IsMask p n.mask

/-- What a decoder may put in a resource list: proper prefixes, prefixes whose length was out of
    range (nil mask), ranges, inherit. -/
def WfEntry : IPInfo → Prop
  | .net none => False
  | .net (some n) => ProperNet n ∨ (n.mask = [] ∧ (n.ip.length = 4 ∨ n.ip.length = 16))
  | .range _ _ => True
  | .null _ => True

/-- Entries that carry a proper set of addresses. -/
def ProperEntry : IPInfo → Prop
  | .net (some n) => ProperNet n
  | .range min max => min.length = max.length ∧ (min.length = 4 ∨ min.length = 16)
  | _ => False

/-- AS resources: the AS numbers an entry stands for. -/
inductive ASDenotes : ASInfo → Int → Prop where
  | asn (a : Int) : ASDenotes (.asn a) a
  | range (min max a : Int) (h1 : min ≤ a) (h2 : a ≤ max) : ASDenotes (.range min max) a

/-- IPv4-mapped address in 16 bytes. -/
def Mapped (a : Bytes) : Prop :=
  ∃ d, d.length = 4 ∧ a = List.replicate 10 0 ++ [0xff, 0xff] ++ d

end Verif.ResSpec

namespace Verif.ResSpec
open BerSpec Net Cert

/-- A DER BIT STRING: as many bytes as needed, unused bits zero (X.690 11.2.1). -/
def BitsOk (b : BitString) : Prop :=
  b.bytes.length = (b.bitLength + 7) / 8 ∧ 2 ^ (8 * b.bytes.length - b.bitLength) ∣ beVal b.bytes

/-- The bit string read as a number of `bitLength` bits. -/
def bitsNum (b : BitString) : Nat := beVal b.bytes / 2 ^ (8 * b.bytes.length - b.bitLength)

/-- RFC 3779 2.2.3.3: address family identifiers. -/
def IsFamily (fam : Bytes) (size : Nat) : Prop :=
  ∃ hi rest, (fam = hi :: 1 :: rest ∧ size = 4) ∨ (fam = hi :: 2 :: rest ∧ size = 16)

/-- A prefix with no bit set after its length. -/
def Canonical (n : IPNet) : Prop :=
  ∃ p, IsMask p n.mask ∧ 2 ^ (8 * n.mask.length - p) ∣ beVal n.ip

end Verif.ResSpec

namespace Verif.ResSpec
open BerSpec Net Cert

/-- RFC 3779 family of an entry: 1 for IPv4, 2 for IPv6. -/
def famOf : IPInfo → UInt8
  | .net (some n) => if n.ip.length = 4 then 1 else 2
  | .net none => 0
  | .range min _ => if min.length = 4 then 1 else 2
  | .null f => f

/-- Entries the encoder is meant for: prefixes in network form, IPv6 ranges, inherit;
    no IPv4-mapped IPv6 addresses. -/
def Encodable : IPInfo → Prop
  | .net (some n) => ProperNet n ∧ Canonical n ∧ ¬ Mapped n.ip
  | .net none => False
  | .range min max => min.length = 16 ∧ max.length = 16 ∧ ¬ Mapped min ∧ ¬ Mapped max
  | .null f => f = 1 ∨ f = 2

def isInherit : IPInfo → Bool
  | .null _ => true
  | _ => false

/-- Inherit replaces everything else said about its family (RFC 3779 2.2.3.5: the choice is
    either inherit or a list). -/
def collapse (f : UInt8) (g : List IPInfo) : List IPInfo :=
  if g.any isInherit then [.null f] else g

end Verif.ResSpec

namespace Verif.ResSpec
open Cert
/-- The numbers of an entry fit Go's 64-bit int (they always do in the program). -/
def FitsAS : ASInfo → Prop
  | .asn a => -2 ^ 63 ≤ a ∧ a < 2 ^ 63
  | .range a b => (-2 ^ 63 ≤ a ∧ a < 2 ^ 63) ∧ (-2 ^ 63 ≤ b ∧ b < 2 ^ 63)
  | .null => True
end Verif.ResSpec
