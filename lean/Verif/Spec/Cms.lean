import Verif.Spec.Ber
import Mathlib.Data.List.Forall2
/-
  Independent specification of the signed-object rules (RFC 5652, RFC 6488, PKCS#1 v1.5) at the level
  of octets.  Nothing here refers to the model of cms.go.
-/
set_option autoImplicit false

namespace Verif.CmsSpec
open BerSpec

/-- A DER element with a one-octet identifier. -/
def elem (id : UInt8) (content : Bytes) : Bytes := id :: derLength content.length ++ content

/-- X.690 11.6: the DER encoding of a SET OF with the given encoded members: the members in
    increasing (lexicographic) order. -/
def DerSetOf (members : List Bytes) (out : Bytes) : Prop :=
  ∃ sorted : List Bytes, sorted.Perm members ∧ sorted.Pairwise (· ≤ ·) ∧ out = elem 0x31 sorted.flatten

/-- An attribute: the contents octets of its type and, for each value, the complete encoding and its
    contents octets. -/
structure Attr where
  type : Bytes
  values : List (Bytes × Bytes)

/-- RFC 5652 5.3: Attribute ::= SEQUENCE { attrType OID, attrValues SET OF AttributeValue }. -/
def AttrDer (a : Attr) (out : Bytes) : Prop :=
  ∃ set, DerSetOf (a.values.map (·.1)) set ∧ out = elem 0x30 (elem 0x06 a.type ++ set)

/-- RFC 5652 5.4: the DER encoding of SignedAttributes as a SET OF, the input of the signature. -/
def SignedAttrsDer (attrs : List Attr) (out : Bytes) : Prop :=
  ∃ encs, List.Forall₂ AttrDer attrs encs ∧ DerSetOf encs out

/-- 1.2.840.113549.1.9.4 -/
def messageDigestType : Bytes := [0x2a, 0x86, 0x48, 0x86, 0xf7, 0x0d, 0x01, 0x09, 0x04]

/-- An attribute of type message-digest with exactly one value, which has these contents octets. -/
def IsDigestAttr (a : Attr) (digest : Bytes) : Prop :=
  a.type = messageDigestType ∧ ∃ full, a.values = [(full, digest)]

/-- Some message-digest attribute holds `digest`, and no later one holds anything else. -/
def CarriesDigest (attrs : List Attr) (digest : Bytes) : Prop :=
  ∃ before a after, attrs = before ++ a :: after ∧ IsDigestAttr a digest ∧
    ∀ b ∈ after, ∀ d, ¬ IsDigestAttr b d

/-- DigestInfo for SHA-256 (RFC 8017, 9.2), as a byte string. -/
def sha256DigestInfo (hash : Bytes) : Bytes :=
  [0x30, 0x31, 0x30, 0x0d, 0x06, 0x09, 0x60, 0x86, 0x48, 0x01, 0x65, 0x03, 0x04, 0x02, 0x01, 0x05, 0x00,
   0x04, 0x20] ++ hash

/-- RFC 8017 9.2: a complete PKCS#1 v1.5 signature block for a SHA-256 hash, without the leading
    zero octet: 01, at least eight ff, 00, the DigestInfo, and nothing more. -/
def StrictBlock (block hash : Bytes) : Prop :=
  ∃ n, 8 ≤ n ∧ block = 0x01 :: List.replicate n 0xff ++ [0x00] ++ sha256DigestInfo hash

/-- What the code really asks of a block: after some prefix that is empty or ends in ff 00 there is
    some SEQUENCE that starts with a SEQUENCE starting with an OID, followed by an octet string
    with the hash.  The algorithm, the padding and everything after the octet string are free. -/
def LenientBlock (block hash : Bytes) : Prop :=
  ∃ pre oid inner extra trailing,
    block = pre ++ elem 0x30 (elem 0x30 (elem 0x06 oid ++ inner) ++ elem 0x04 hash ++ extra) ++ trailing ∧
    (pre = [] ∨ ∃ p, pre = p ++ [0xff, 0x00])

/-- The octets of a number, big-endian without leading zeros, after the RSA public operation. -/
def RsaBlock (modulus exponent : Nat) (signature block : Bytes) : Prop :=
  block = digits (beVal signature ^ exponent % modulus)

end Verif.CmsSpec
