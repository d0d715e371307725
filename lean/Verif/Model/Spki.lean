import Verif.Model.Tal
import Verif.Model.CmsEncode
/-
  Model of the ASN.1 layer under /repo/validator/lib/tal.go: `asn1.Marshal` and `asn1.Unmarshal` of an
  RSA key and of a subject public key info, key identifiers and the small functions beside them.
  tal.go uses the `encoding/asn1` of the standard library; the functions of it that are needed are the
  same as in the fork modelled in Model/Der.lean and Model/CmsEncode.lean, whose definitions are used.
-/
set_option autoImplicit false

namespace Verif.Tal
open Der Cms

/-- tal.go:17: `RSA`, 1.2.840.113549.1.1.1, as contents octets of an OBJECT IDENTIFIER. -/
def rsaOID : Bytes := [0x2a, 0x86, 0x48, 0x86, 0xf7, 0x0d, 0x01, 0x01, 0x01]

/-- tal.go:120, 130: `asn1.Marshal(key)` of an `rsa.PublicKey`, a structure of a `*big.Int` and an `int`.
    Simplification: the modulus is present (a nil `*big.Int` is an error of encoding/asn1; it comes from
    no parser). -/
def marshalRSA (k : RSAKey) : Bytes :=
  tlv 0x30 (tlv 0x02 (bigIntOctets k.n) ++ tlv 0x02 (intOctets k.e))

/-- tal.go:129-136 `BundleRSAPublicKey`: the number of bits is left at zero. -/
def bundleRSAPublicKey (k : RSAKey) : Cert.BitString := ⟨marshalRSA k, 0⟩

/-- tal.go:151-172: `asn1.Marshal(spki)`; `asn1.NullRawValue` is written as 05 00. -/
def marshalSPKI (k : RSAKey) : Bytes :=
  tlv 0x30 (tlv 0x30 (tlv 0x06 rsaOID ++ tlv 0x05 []) ++ tlv 0x03 (bitStringOctets (bundleRSAPublicKey k)))

/-- tal.go:231-242: `asn1.Unmarshal(d, &inner)`: is the algorithm RSA (line 249), and the octets of the bit
    string. Elements after the expected ones, in both sequences and behind, are passed over. -/
def unmarshalSPKI (d : Bytes) : Go (Bool × Bytes) := do
  let s ← parseTyped 16 true d
  let t ← parseTyped 16 true s.1
  let o ← parseOID t.1
  let b ← parseTyped 3 false t.2
  let bits ← bitStringOf b.1
  return (decide (o.1 = rsaOID), bits.bytes)

/-- tal.go:252-257: `asn1.Unmarshal(inner.BS.Bytes, &inner2)`. -/
def unmarshalRSA (d : Bytes) : Go RSAKey := do
  let s ← parseTyped 16 true d
  let n ← parseBigInt s.1
  let e ← parseInt n.2
  return ⟨n.1, intVal e.1⟩

/-- The three functions of encoding/asn1 that `EncodeTALSize` (tal.go:138-187) and `DecodeTAL`
    (tal.go:189-263) call. -/
def derAsn : Asn := ⟨fun k => .ok (marshalSPKI k), unmarshalSPKI, unmarshalRSA⟩

/-- tal.go:119-127 `HashRSAPublicKey`. -/
def hashRSAPublicKey (sha1 : Bytes → Bytes) (k : RSAKey) : Go Bytes := .ok (sha1 (marshalRSA k))

/-- tal.go:108-117 `HashPublicKey`. -/
def hashPublicKey (sha1 : Bytes → Bytes) : PubKey → Go Bytes
  | .rsaPtr k => hashRSAPublicKey sha1 k
  | .rsaVal k => hashRSAPublicKey sha1 k
  | _ => .err "Public key is not RSA"

/-- tal.go:104-106 `EncodeTAL`. -/
def encodeTAL (t : RPKITAL) : Go Bytes := encodeTALSize derAsn t 64

/-- tal.go:54-60 `GetURI`. -/
def RPKITAL.getURI (t : RPKITAL) : Bytes :=
  match t.uri with
  | [] => asc ['u', 'n', 'k', 'n', 'o', 'w', 'n']
  | u :: _ => u

end Verif.Tal
