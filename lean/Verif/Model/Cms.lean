import Verif.Model.Der
import Verif.Model.Roa
import Verif.Model.Tal
/-
  Model of validator/lib/cms.go, of `DecodeROA` (roa.go), `DecodeManifest` (manifest.go) and
  `DecodeXML` (xml.go).  SHA-256, certificate decoding, the parsing of times and of the manifest
  content are parameters (`Env`).
-/
set_option autoImplicit false

namespace Verif.Cms
open Der

/-- cms.go:27-30 `Attribute`. -/
structure Attribute where
  attrType : Bytes
  attrValue : List Elem
  deriving Repr, DecidableEq

/-- cms.go:32-41 `SignerInfo`. -/
structure SignerInfo where
  version : Bytes
  sid : Elem
  digestAlgorithms : List Elem
  signedAttrs : List Attribute
  signatureAlgorithm : Elem
  signature : Bytes
  unsignedAttrs : Elem
  deriving Repr, DecidableEq

/-- cms.go:43-50 `CmsSignedData`. -/
structure SignedData where
  version : Bytes
  digestAlgorithms : List Elem
  encapContentInfo : Elem
  certificates : Elem
  crls : Elem
  signerInfos : List SignerInfo
  deriving Repr, DecidableEq

/-- cms.go:52-55 `CMS`. -/
structure CMS where
  oid : Bytes
  signedData : SignedData
  deriving Repr, DecidableEq

/-- cms.go:20 `MessageDigest` = 1.2.840.113549.1.9.4, as contents octets. -/
def messageDigestOID : Bytes := [0x2a, 0x86, 0x48, 0x86, 0xf7, 0x0d, 0x01, 0x09, 0x04]
/-- cms.go:21 `SigningTime` = 1.2.840.113549.1.9.5, as contents octets. -/
def signingTimeOID : Bytes := [0x2a, 0x86, 0x48, 0x86, 0xf7, 0x0d, 0x01, 0x09, 0x05]
/-- cms.go:23 `SHA256OID` = 2.16.840.1.101.3.4.2.1, as contents octets. -/
def sha256OID : Bytes := [0x60, 0x86, 0x48, 0x01, 0x65, 0x03, 0x04, 0x02, 0x01]

/-! ### RSA -/

/-- `big.Int.SetBytes`: the big-endian value. -/
def bytesVal (ds : Bytes) : Nat := ds.foldl (fun a d => a * 256 + d.toNat) 0

/-- `big.Int.Bytes`: base 256 digits, with enough fuel. -/
def natBytesFuel : Nat → Nat → Bytes
  | 0, _ => []
  | f + 1, n => if n = 0 then [] else natBytesFuel f (n / 256) ++ [(n % 256).toUInt8]

/-- `big.Int.Bytes`: big-endian base 256 digits without leading zero. -/
def natBytes (n : Nat) : Bytes := natBytesFuel (n.log2 / 8 + 1) n

/-- cms.go:66-74: the loop that looks for ff 00 from index 2 on, given the bytes from there on;
    the bytes after the first ff 00. -/
def findSeparator : Bytes → Option Bytes
  | a :: b :: rest => if a = 0xff ∧ b = 0 then some rest else findSeparator (b :: rest)
  | _ => none

/-- cms.go:65-75: `out[skip:]`. -/
def stripPadding (out : Bytes) : Bytes :=
  match findSeparator (out.drop 2) with
  | some rest => rest
  | none => out

/-- cms.go:58-76 `RSAPublicDecrypt`. Simplification: `big.Int.Exp` differs from this for a modulus
    or exponent that is not positive; crypto/x509 refuses such keys. -/
def rsaPublicDecrypt (key : Tal.RSAKey) (data : Bytes) : Bytes :=
  stripPadding (natBytes (bytesVal data ^ key.e.toNat % key.n.toNat))

/-- cms.go:138-141: `SignatureInner`, up to its end. -/
def parseSignatureInner (bs : Bytes) : Go (Bytes × Bytes) := do
  let s ← parseTyped 16 true bs
  let oid ← parseOID s.1
  let _ ← parseAny oid.2
  return (oid.1, s.2)

/-- cms.go:143-146, 154-158: the hash of a `SignatureDecoded`. -/
def parseSignatureDecoded (bs : Bytes) : Go Bytes := do
  let s ← parseTyped 16 true bs
  let i ← parseSignatureInner s.1
  let h ← parseOctets i.2
  return h.1

/-- cms.go:152-160 `DecryptSignatureRSA`. -/
def decryptSignatureRSA (signature : Bytes) (key : Tal.RSAKey) : Go Bytes :=
  parseSignatureDecoded (rsaPublicDecrypt key signature)

/-- cms.go:163-170: `asn1.Marshal(SignatureDecoded{...})`. -/
def marshalSignatureDecoded (hash : Bytes) : Bytes :=
  tlv 0x30 (tlv 0x30 (tlv 0x06 sha256OID ++ [0x05, 0x00]) ++ tlv 0x04 hash)

/-- An RSA private key: public part and private exponent. -/
structure PrivKey where
  pub : Tal.RSAKey
  d : Nat

/-- Octets needed for the modulus, `priv.Size()`: `(N.BitLen() + 7) / 8`. -/
def keySize (n : Nat) : Nat := (if n = 0 then 0 else n.log2 + 1 + 7) / 8

/-- Left padding with zeros up to `k` octets (`big.Int.FillBytes`). -/
def fillBytes (k : Nat) (n : Nat) : Bytes :=
  let b := natBytes n
  List.replicate (k - b.length) 0 ++ b

/-- crypto/rsa `SignPKCS1v15` with `crypto.Hash(0)` (standard library, called at cms.go:176):
    the data is padded as 00 01 ff ... ff 00 and raised to the private exponent. The random source
    only blinds the computation. The check of the result made by the library is left out: it can
    only turn a result that would not verify into an error. -/
def signPKCS1v15 (priv : PrivKey) (data : Bytes) : Go Bytes :=
  let k := keySize priv.pub.n.toNat
  if k < data.length + 11 then .err "crypto/rsa: message too long for RSA key size"
  else
    let em := [0x00, 0x01] ++ List.replicate (k - data.length - 3) 0xff ++ [0x00] ++ data
    .ok (fillBytes k (bytesVal em ^ priv.d % priv.pub.n.toNat))

/-- cms.go:162-187 `EncryptSignatureRSA`. -/
def encryptSignatureRSA (hash : Bytes) (priv : PrivKey) : Go Bytes :=
  signPKCS1v15 priv (marshalSignatureDecoded hash)

/-! ### Signed attributes -/

/-- `asn1.Marshal` of one `Attribute` (cms.go:27-30). The `FullBytes` of a value are never empty
    here: the parser sets them, and so do `Sign` and `EncodeCMS`. -/
def marshalAttr (a : Attribute) : Bytes :=
  tlv 0x30 (tlv 0x06 a.attrType ++ marshalSet (a.attrValue.map (·.full)))

/-- cms.go:148-150, 353: `asn1.Marshal(SignedAttributesDigest{attrs})`. It cannot fail: the object
    identifiers were read by the parser or are constants of the code. -/
def marshalSAD (attrs : List Attribute) : Bytes :=
  tlv 0x30 (marshalSet (attrs.map marshalAttr))

/-- cms.go:351-361 and 231-241: the octets that are hashed for the signature, `b[2:]`. -/
def signedAttrsInput (attrs : List Attribute) : Go Bytes :=
  let b := marshalSAD attrs
  if b.length < 2 then .err "Error with length of signed attributes"
  else slice b 2 b.length

/-- cms.go:335-342: the loop over the attributes. -/
def findDigest : (attrs : List Attribute) → (acc : Bytes) → Bytes
  | [], acc => acc
  | a :: rest, acc =>
    if a.attrType = messageDigestOID then
      match a.attrValue with
      | [v] => findDigest rest v.bytes
      | _ => findDigest rest acc
    else findDigest rest acc

/-- cms.go:364-378: the last part of `Validate`. -/
def checkSignature (sig input : Bytes) (sha256 : Bytes → Bytes) (key : Tal.PubKey) : Go Unit :=
  match key with
  | .rsaPtr k => do
    let h ← decryptSignatureRSA sig k
    if sha256 input = h then .ok ()
    else .err "CMS encrypted digest and calculated digest are different"
  | _ => .err "Public key is not RSA"

/-- cms.go:332-379 `Validate`. -/
def CMS.validate (sha256 : Bytes → Bytes) (c : CMS) (encap : Bytes) (key : Tal.PubKey) : Go Unit := do
  let si ← idx c.signedData.signerInfos 0
  if sha256 encap ≠ findDigest si.signedAttrs [] then
    .err "CMS digest and encapsulated digest are different"
  else do
    let input ← signedAttrsInput si.signedAttrs
    checkSignature si.signature input sha256 key

/-- `asn1.Unmarshal(cert, &inner)` followed by `MarshalWithParams([]RawValue{inner}, "tag:0,optional")`
    (cms.go:257-267). -/
def wrapCertificate (cert : Bytes) : Go Elem := do
  let r ← parseAny cert
  return ⟨0, 0, false, [], tlv 0xa0 r.1.full⟩

/-- The bytes of a `RawValue` with only `FullBytes` set. -/
def rawFull (b : Bytes) : Elem := ⟨0, 0, false, [], b⟩

/-- cms.go:220-228: the digest attribute that `Sign` appends. -/
def digestAttribute (sha256 : Bytes → Bytes) (encap : Bytes) : Attribute :=
  ⟨messageDigestOID, [rawFull (tlv 0x04 (sha256 encap))]⟩

/-- cms.go:214-269 `Sign`. The argument is changed in place; the result here is its new value. An
    error can leave it half changed, which is not modelled. `none` is a nil `ski`, which `optional`
    leaves out. -/
def CMS.sign (sha256 : Bytes → Bytes) (c : CMS) (ski : Option Bytes) (encap : Bytes) (priv : PrivKey)
    (cert : Bytes) :
    Go CMS := do
  let si ← idx c.signedData.signerInfos 0
  let attrs := si.signedAttrs ++ [digestAttribute sha256 encap]
  let input ← signedAttrsInput attrs
  let signature ← encryptSignatureRSA (sha256 input) priv
  let certM ← wrapCertificate cert
  let sid := rawFull ((ski.map (tlv 0x80)).getD [])
  let si' := { si with signedAttrs := attrs, signature := signature, sid := sid }
  return { c with signedData := { c.signedData with
    signerInfos := si' :: c.signedData.signerInfos.tail, certificates := certM } }

/-! ### Decoding -/

/-- cms.go:27-30: parsing an `Attribute`. -/
def parseAttribute (bs : Bytes) : Go (Attribute × Bytes) := do
  let s ← parseTyped 16 true bs
  let t ← parseOID s.1
  let v ← parseTyped 17 true t.2
  let vs ← parseAll parseAny v.1
  return (⟨t.1, vs⟩, s.2)

/-- cms.go:37: `[]Attribute` with `optional,tag:0,implicit,set`. -/
def parseSignedAttrs (bs : Bytes) : Go (List Attribute × Bytes) := do
  let r ← parseOptTyped 0 bs
  match r.1 with
  | none => return ([], r.2)
  | some c => do
    let l ← parseAll parseAttribute c
    return (l, r.2)

/-- cms.go:32-41: parsing a `SignerInfo`. -/
def parseSignerInfo (bs : Bytes) : Go (SignerInfo × Bytes) := do
  let s ← parseTyped 16 true bs
  let v ← parseInt s.1
  let sid ← parseAny v.2
  let d ← parseTyped 16 true sid.2
  let ds ← parseAll parseAny d.1
  let a ← parseSignedAttrs d.2
  let sa ← parseAny a.2
  let sig ← parseOctets sa.2
  let u ← parseOptRaw 1 sig.2
  return (⟨v.1, sid.1, ds, a.1, sa.1, sig.1, u.1⟩, s.2)

/-- cms.go:43-50: the contents of a `CmsSignedData`. -/
def parseSignedData (s : Bytes) : Go SignedData := do
  let v ← parseInt s
  let d ← parseTyped 17 true v.2
  let ds ← parseAll parseAny d.1
  let e ← parseAny d.2
  let c ← parseOptRaw 0 e.2
  let r ← parseOptRaw 1 c.2
  let i ← parseTyped 17 true r.2
  let is ← parseAll parseSignerInfo i.1
  return ⟨v.1, ds, e.1, c.1, r.1, is⟩

/-- cms.go:54: the field `explicit,tag:0` of a `CMS`. -/
def parseExplicitSignedData (bs : Bytes) : Go SignedData :=
  if bs = [] then .err "sequence truncated"
  else do
    let r ← parseExplicit 0 bs
    match r with
    | none => .err "explicitly tagged member didn't match"
    | some inner => do
      let s ← parseTyped 16 true inner
      parseSignedData s.1

/-- cms.go:565-572 `DecodeCMS`. -/
def decodeCMS (data : Bytes) : Go CMS := do
  let s ← parseTyped 16 true data
  let o ← parseOID s.1
  let sd ← parseExplicitSignedData o.2
  return ⟨o.1, sd⟩

/-- cms.go:284-289: an optional explicit [0] INTEGER; the bytes after it. -/
def skipVersion (bs : Bytes) : Go Bytes :=
  if bs = [] then .ok bs
  else do
    let r ← parseExplicit 0 bs
    match r with
    | none => return bs
    | some inner => do
      let v ← parseInt inner
      return v.2

/-- cms.go:284-302: the signature algorithm of the certificate. `asn1.RawContent` fields take no
    input. -/
def certSignatureAlgorithm (cert : Bytes) : Go Elem := do
  let s ← parseTyped 16 true cert
  let t ← parseTyped 16 true s.1
  let r ← skipVersion t.1
  let serial ← parseAny r
  let alg ← parseAny serial.2
  let _ ← parseAny t.2
  return alg.1

/-- `asn1.Unmarshal(b, &[]asn1.RawValue)` -/
def parseSequenceOfAny (bs : Bytes) : Go (List Elem) := do
  let s ← parseTyped 16 true bs
  parseAll parseAny s.1

/-- cms.go:282-329 `CheckSignaturesMatch`. -/
def CMS.checkSignaturesMatch (c : CMS) : Go Bool := do
  let alg ← certSignatureAlgorithm c.signedData.certificates.bytes
  match c.signedData.signerInfos with
  | [] => return false
  | si :: _ => do
    let signatureCert ← parseSequenceOfAny alg.full
    match signatureCert.getLast? with
    | none => return false
    | some last =>
      if last.tag ≠ 5 then return false
      else do
        let _ ← parseSequenceOfAny si.signatureAlgorithm.full
        return decide (alg.full = si.signatureAlgorithm.full)

/-- cms.go:392-402: the loop of `BadFormatGroup` on the bytes from `offset` on: the octets that are
    appended, the number of iterations, and whether the loop ended with an error. -/
def octetLoop : Nat → Bytes → Go (Bytes × Nat)
  | 0, _ => .diverge
  | n + 1, bs => do
    let r ← parseOctets bs
    if r.2 = [] then return (r.1, 1)
    else do
      let t ← octetLoop n r.2
      return (r.1 ++ t.1, t.2 + 1)

/-- cms.go:381-408 `BadFormatGroup`. On an error Go also returns what was read so far; every caller
    drops it. If the first `Unmarshal` fails its target stays zero, the tag is then not that of an
    octet string, and the error is returned. -/
def badFormatGroup (data : Bytes) : Go (Bytes × Bool) := do
  let pre ← parseAny data
  if pre.1.tag = 4 then do
    let r ← octetLoop (data.length + 1) data
    return (r.1, decide (r.2 > 1))
  else return (pre.1.full, false)

/-- cms.go:189-211 `EContentToEncap`. -/
def eContentToEncap (econtent : Bytes) : Go Bytes := do
  let inner ← parseAny econtent
  let inner2 ← parseAny inner.1.bytes
  let r ← badFormatGroup inner2.1.bytes
  return r.1

/-- cms.go:195-211 `EContentToEncapBF` with `skipbf` set. -/
def eContentToEncapRaw (econtent : Bytes) : Go Bytes := do
  let inner ← parseAny econtent
  let inner2 ← parseAny inner.1.bytes
  return inner2.1.bytes

/-- cms.go:418-428 `GetSigningTime`; `none` is the zero time. -/
def CMS.getSigningTime {T : Type} (parseTime : Bytes → Go T) (c : CMS) : Go (Option T) := do
  let si ← idx c.signedData.signerInfos 0
  match si.signedAttrs.find? (fun a => decide (a.attrType = signingTimeOID) && !a.attrValue.isEmpty) with
  | none => return none
  | some a =>
    match a.attrValue with
    | [] => return none
    | v :: _ => do
      let t ← parseTime v.full
      return some t

/-- What the decoders use of an `RPKICertificate`: its public key and its IP resources. -/
structure EECert where
  key : Tal.PubKey
  ips : List Cert.IPInfo

/-- The parts of the code and of the libraries that are not modelled here: SHA-256,
    `DecodeCertificate` (certificate.go), the ASN.1 times, and `asn1.Unmarshal` of a manifest
    content of type `M`. -/
structure Env (T M : Type) where
  sha256 : Bytes → Bytes
  decodeCert : Bytes → Go EECert
  parseTime : Bytes → Go T
  unmarshalManifest : Bytes → Go M

/-- asn1.go:226-243 `parseBitString`. -/
def bitStringOf : Bytes → Go Cert.BitString
  | [] => .err "zero length BIT STRING"
  | p :: bs =>
    if p > 7 ∨ (bs = [] ∧ p > 0) ∨ ((p :: bs).getLast?.getD 0).toNat % 2 ^ p.toNat ≠ 0 then
      .err "invalid padding bits in BIT STRING"
    else .ok ⟨bs, bs.length * 8 - p.toNat⟩

/-- roa.go:18: `int` with `optional,default:-1`. -/
def parseMaxLength (bs : Bytes) : Go Int :=
  if bs = [] then .ok (-1)
  else do
    let h ← parseHeader bs
    if h.1.cls ≠ 0 ∨ h.1.tag ≠ 2 ∨ h.1.compound ≠ false then .ok (-1)
    else do
      let r ← parseInt bs
      return intVal r.1

/-- roa.go:16-19: a `ROAIPAddresses`. -/
def parseROAAddress (bs : Bytes) : Go ((Cert.BitString × Int) × Bytes) := do
  let s ← parseTyped 16 true bs
  let a ← parseTyped 3 false s.1
  let b ← bitStringOf a.1
  let m ← parseMaxLength a.2
  return ((b, m), s.2)

/-- roa.go:21-24: a `ROAAddressFamily`. -/
def parseROAFamily (bs : Bytes) : Go (Roa.ROAFamily × Bytes) := do
  let s ← parseTyped 16 true bs
  let f ← parseOctets s.1
  let l ← parseTyped 16 true f.2
  let as ← parseAll parseROAAddress l.1
  return (⟨f.1, as⟩, s.2)

/-- roa.go:26-29, 288: `asn1.Unmarshal(fullbytes, &roacontent)`. -/
def unmarshalROA (bs : Bytes) : Go Roa.ROAContent := do
  let s ← parseTyped 16 true bs
  let a ← parseInt s.1
  let l ← parseTyped 16 true a.2
  let fs ← parseAll parseROAFamily l.1
  return ⟨intVal a.1, fs⟩

/-- roa.go:31-34, manifest.go:32-35, xml.go:13-16: the structures `ROA`, `Manifest`, `XML`; the
    element `EContent`. -/
def parseEContent (bs : Bytes) : Go Elem := do
  let s ← parseTyped 16 true bs
  let o ← parseOID s.1
  let e ← parseOptExplicitRaw 0 o.2
  return e.1

/-- The value left in the target when the error of `Unmarshal` is ignored. -/
def orZero (x : Go Elem) : Elem :=
  match x with
  | .ok e => e
  | _ => .zero

/-- roa.go:41-54 `RPKIROA`, without the certificate and the text of the error. -/
structure RPKIROA (T : Type) where
  asn : Int
  entries : List Roa.ROAEntry
  badFormat : Bool
  signingTime : Option T
  innerValid : Bool
  split : Cert.Split Roa.ROAEntry
  certificate : EECert

/-- The outcome of `err = c.Validate(...)` stored in a flag: a panic is not caught. -/
def caught (x : Go Unit) : Go Bool :=
  match x with
  | .ok _ => .ok true
  | .err _ => .ok false
  | .panic => .panic
  | .diverge => .diverge

/-- `rpkiROA.SigningTime, _ = c.GetSigningTime()` (roa.go:305): the error is dropped. -/
def dropErr {T : Type} (x : Go (Option T)) : Go (Option T) :=
  match x with
  | .err _ => .ok none
  | y => y

/-- roa.go:264-272, manifest.go:77-85: the strict check. -/
def strictCheck (strict : Bool) (c : CMS) : Go Unit :=
  if strict then do
    let vs ← c.checkSignaturesMatch
    if vs then .ok () else .err "CMS is not valid due to strict signature matching"
  else .ok ()

/-- roa.go:258-328 `DecodeROA`. -/
def decodeROA {T M : Type} (env : Env T M) (strict : Bool) (data : Bytes) : Go (RPKIROA T) := do
  let c ← decodeCMS data
  strictCheck strict c
  let inner ← parseAny (orZero (parseEContent c.signedData.encapContentInfo.full)).bytes
  let fb ← badFormatGroup inner.1.bytes
  let content ← unmarshalROA fb.1
  let e ← Roa.convertROAEntries content
  let time ← dropErr (c.getSigningTime env.parseTime)
  let cert ← env.decodeCert c.signedData.certificates.bytes
  let valid ← caught (c.validate env.sha256 fb.1 cert.key)
  let split ← Roa.validateIPRoaCertificateList e.1 cert.ips
  return ⟨e.2, e.1, fb.2, time, valid, split, cert⟩

/-- manifest.go:37-43 `RPKIManifest`. -/
structure RPKIManifest (M : Type) where
  content : M
  badFormat : Bool
  innerValid : Bool
  certificate : EECert

/-- manifest.go:104: the result of `BER2DER` when its error is ignored. -/
def ber2derOrNil (b : Bytes) : Go Bytes :=
  match Ber.BER2DER b with
  | .err _ => .ok []
  | y => y

/-- manifest.go:71-130 `DecodeManifest`. -/
def decodeManifest {T M : Type} (env : Env T M) (strict : Bool) (data : Bytes) :
    Go (RPKIManifest M) := do
  let c ← decodeCMS data
  strictCheck strict c
  let ec ← parseEContent c.signedData.encapContentInfo.full
  let inner ← parseAny ec.bytes
  let fb ← badFormatGroup inner.1.bytes
  let der ← ber2derOrNil fb.1
  let content ← env.unmarshalManifest der
  let cert ← env.decodeCert c.signedData.certificates.bytes
  let valid ← caught (c.validate env.sha256 der cert.key)
  return ⟨content, fb.2, valid, cert⟩

/-- xml.go:22-28 `RPKIXML`. -/
structure RPKIXML where
  content : Bytes
  innerValid : Bool
  certificate : EECert

/-- xml.go:53-88 `DecodeXML`. -/
def decodeXML {T M : Type} (env : Env T M) (data : Bytes) : Go RPKIXML := do
  let c ← decodeCMS data
  let ec ← parseEContent c.signedData.encapContentInfo.full
  let inner ← parseAny ec.bytes
  let cert ← env.decodeCert c.signedData.certificates.bytes
  let valid ← caught (c.validate env.sha256 inner.1.bytes cert.key)
  return ⟨inner.1.bytes, valid, cert⟩

end Verif.Cms
