import Verif.Spec.Cms
import Verif.Spec.Resources
/-
  Independent specification of the contents of signed objects: RFC 6482 (ROA) and RFC 6486
  (manifest), as DER octets.
-/
set_option autoImplicit false

namespace Verif.CmsSpec
open BerSpec

/-- X.690 8.3.3: two's complement value of the contents octets of an INTEGER. -/
def twos (c : Bytes) : Int :=
  (beVal c : Int) - (if 0x80 ≤ c.headD 0 then (256 : Int) ^ c.length else 0)

/-- X.690 8.3.2: the contents octets of an INTEGER: the shortest ones with this value. -/
def IntContent (i : Int) (c : Bytes) : Prop :=
  c ≠ [] ∧ twos c = i ∧ ∀ c', c' ≠ [] → twos c' = i → c.length ≤ c'.length

/-- X.690 8.6.2 and 11.2: the contents octets of a BIT STRING of `n` bits that read as the number `v`:
    the count of unused bits, then the octets, unused bits zero. -/
def BitContent (n v : Nat) (c : Bytes) : Prop :=
  ∃ bytes : Bytes, c = (8 * bytes.length - n).toUInt8 :: bytes ∧ bytes.length = (n + 7) / 8 ∧
    beVal bytes = v * 2 ^ (8 * bytes.length - n)

/-- A prefix of a ROA: `length` bits that read as `value`, and the optional max length. -/
structure RoaPrefix where
  length : Nat
  value : Nat
  maxLength : Option Nat

/-- One address family of a ROA. -/
structure RoaFamily where
  afi : Bytes
  prefixes : List RoaPrefix

/-- RFC 6482 3.3: ROAIPAddress ::= SEQUENCE { address BIT STRING, maxLength INTEGER OPTIONAL }. -/
def RoaPrefixDer (p : RoaPrefix) (out : Bytes) : Prop :=
  ∃ b m, BitContent p.length p.value b ∧
    (match p.maxLength with
     | none => m = []
     | some k => ∃ i, IntContent k i ∧ m = elem 0x02 i) ∧
    out = elem 0x30 (elem 0x03 b ++ m)

/-- RFC 6482 3.3: ROAIPAddressFamily. -/
def RoaFamilyDer (f : RoaFamily) (out : Bytes) : Prop :=
  ∃ encs, List.Forall₂ RoaPrefixDer f.prefixes encs ∧ out = elem 0x30 (elem 0x04 f.afi ++ elem 0x30 encs.flatten)

/-- RFC 6482 3: RouteOriginAttestation with the default version. -/
def RoaDer (asn : Nat) (families : List RoaFamily) (out : Bytes) : Prop :=
  ∃ i encs, IntContent asn i ∧ List.Forall₂ RoaFamilyDer families encs ∧
    out = elem 0x30 (elem 0x02 i ++ elem 0x30 encs.flatten)

/-- A file of a manifest: name and hash. -/
structure MftEntry where
  name : Bytes
  hash : Bytes

/-- RFC 6486 4.2: FileAndHash ::= SEQUENCE { file IA5String, hash BIT STRING }, for a hash that is a
    whole number of octets. -/
def MftEntryDer (f : MftEntry) (out : Bytes) : Prop :=
  (∀ b ∈ f.name, b < 0x80) ∧ out = elem 0x30 (elem 0x16 f.name ++ elem 0x03 (0x00 :: f.hash))

/-- RFC 6486 4.2: Manifest with the default version; the times are given by their contents octets. -/
def MftDer (number : Nat) (thisUpdate nextUpdate alg : Bytes) (files : List MftEntry) (out : Bytes) : Prop :=
  ∃ i encs, IntContent number i ∧ List.Forall₂ MftEntryDer files encs ∧
    out = elem 0x30 (elem 0x02 i ++ elem 0x18 thisUpdate ++ elem 0x18 nextUpdate ++ elem 0x06 alg ++
      elem 0x30 encs.flatten)

end Verif.CmsSpec
