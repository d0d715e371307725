import Verif.Model.Cms
/-
  Model of the encoders of validator/lib: `EncodeROAEntries` and `EncodeManifestContent` down to
  octets, `EncodeXMLData`, `EncodeCMS`, and `asn1.Marshal` of the structures involved; and of
  `asn1.Unmarshal` of a manifest content.  Line numbers "marshal.go" and "asn1.go" are those of the
  fork /repo/vendor/github.com/google/certificate-transparency-go/asn1 (see Model/Der.lean).
-/
set_option autoImplicit false

namespace Verif.Cms
open Der

/-- `byte(i)` of an integer. -/
def intByte (i : Int) : UInt8 := (i % 256).toNat.toUInt8

/-- marshal.go:98-122 `int64Encoder`: shift by eight bits while the value does not fit into one signed
    octet. `fuel` counts the octets that can still be added; 7 are enough for an int64. -/
def intOctetsFuel : Nat → Int → Bytes
  | 0, i => [intByte i]
  | f + 1, i => if i > 127 ∨ i < -128 then intOctetsFuel f (i / 256) ++ [intByte i] else [intByte i]

/-- marshal.go:98-122 `int64Encoder`. -/
def intOctets (i : Int) : Bytes := intOctetsFuel 7 i

/-- marshal.go:233-244 `bitStringEncoder`: the contents octets. -/
def bitStringOctets (b : Cert.BitString) : Bytes := ((8 - b.bitLength % 8) % 8).toUInt8 :: b.bytes

/-- roa.go:16-19: marshalling a `ROAIPAddresses`; the default max length -1 is left out. -/
def marshalROAAddress (a : Cert.BitString × Int) : Bytes :=
  tlv 0x30 (tlv 0x03 (bitStringOctets a.1) ++ (if a.2 = -1 then [] else tlv 0x02 (intOctets a.2)))

/-- roa.go:21-24: marshalling a `ROAAddressFamily`. -/
def marshalROAFamily (f : Roa.ROAFamily) : Bytes :=
  tlv 0x30 (tlv 0x04 f.addressFamily ++ tlv 0x30 (f.addresses.map marshalROAAddress).flatten)

/-- roa.go:26-29, 118: `asn1.Marshal(eContent)`. -/
def marshalROAContent (c : Roa.ROAContent) : Bytes :=
  tlv 0x30 (tlv 0x02 (intOctets c.asid) ++ tlv 0x30 (c.blocks.map marshalROAFamily).flatten)

/-- roa.go:126-129, manifest.go:56-59, xml.go:38-41: `MarshalWithParams(eContentEnc, "tag:0,explicit")`
    of a byte slice. -/
def wrapEContent (content : Bytes) : Bytes := tlv 0xa0 (tlv 0x04 content)

/-- roa.go:31-34: `ROA`, `Manifest` and `XML` have the same shape: object identifier and `EContent`
    (here its `FullBytes`). -/
structure Encap where
  oid : Bytes
  econtent : Bytes
  deriving Repr, DecidableEq

/-- roa.go:12-14 `RoaOID` = 1.2.840.113549.1.9.16.1.24, as contents octets. -/
def roaOID : Bytes := [0x2a, 0x86, 0x48, 0x86, 0xf7, 0x0d, 0x01, 0x09, 0x10, 0x01, 0x18]
/-- manifest.go:12 `ManifestOID` = 1.2.840.113549.1.9.16.1.26, as contents octets. -/
def manifestOID : Bytes := [0x2a, 0x86, 0x48, 0x86, 0xf7, 0x0d, 0x01, 0x09, 0x10, 0x01, 0x1a]
/-- xml.go:10 `XMLOID` = 1.2.840.113549.1.9.16.1.28, as contents octets. -/
def xmlOID : Bytes := [0x2a, 0x86, 0x48, 0x86, 0xf7, 0x0d, 0x01, 0x09, 0x10, 0x01, 0x1c]

/-- roa.go:79-134 `EncodeROAEntries`. -/
def encodeROA (asn : Int) (entries : List Roa.ROAEntry) : Encap :=
  ⟨roaOID, wrapEContent (marshalROAContent (Roa.encodeROAEntries asn entries))⟩

/-- xml.go:40-51 `EncodeXMLData`. -/
def encodeXMLData (message : Bytes) : Encap := ⟨xmlOID, wrapEContent message⟩

/-- `asn1.Marshal(*ec)` (cms.go:435, 442, 449). The field `EContent` is written as it is. -/
def marshalEncap (e : Encap) : Bytes := tlv 0x30 (tlv 0x06 e.oid ++ e.econtent)

/-- cms.go:22 `SignedDataOID` = 1.2.840.113549.1.7.2, as contents octets. -/
def signedDataOID : Bytes := [0x2a, 0x86, 0x48, 0x86, 0xf7, 0x0d, 0x01, 0x07, 0x02]
/-- cms.go:24 `RSAOID` = 1.2.840.113549.1.1.1, as contents octets. -/
def rsaOID : Bytes := [0x2a, 0x86, 0x48, 0x86, 0xf7, 0x0d, 0x01, 0x01, 0x01]
/-- cms.go:19 `ContentTypeOID` = 1.2.840.113549.1.9.3, as contents octets. -/
def contentTypeOID : Bytes := [0x2a, 0x86, 0x48, 0x86, 0xf7, 0x0d, 0x01, 0x09, 0x03]

/-- cms.go:430-563 `EncodeCMS`. `timeDer` is `asn1.Marshal(signingTime)`; that it can fail for a year
    after 9999 is left out. -/
def encodeCMS (certificate : Bytes) (e : Encap) (timeDer : Bytes) : CMS :=
  ⟨signedDataOID,
    ⟨[3], [rawFull (tlv 0x30 (tlv 0x06 sha256OID))], rawFull (marshalEncap e),
     rawFull (tlv 0x80 certificate), .zero,
     [⟨[3], .zero, [rawFull (tlv 0x06 sha256OID)],
       [⟨contentTypeOID, [rawFull (tlv 0x06 e.oid)]⟩, ⟨signingTimeOID, [rawFull timeDer]⟩],
       rawFull (tlv 0x30 (tlv 0x06 rsaOID ++ [0x05, 0x00])), [], .zero⟩]⟩⟩

/-- marshal.go:548-560: a `RawValue`: `FullBytes` if there are any, else identifier (tags below 31),
    length and `Bytes`. -/
def marshalRaw (e : Elem) : Bytes :=
  if e.full ≠ [] then e.full
  else tlv (e.cls * 64 + (if e.compound then 32 else 0) + e.tag).toUInt8 e.bytes

/-- marshal.go:539-546: an optional `RawValue` is left out when it is zero. -/
def marshalOptRaw (e : Elem) : Bytes := if e = .zero then [] else marshalRaw e

/-- cms.go:37: the field `SignedAttrs`. Simplification: an empty list counts as nil and is left out. -/
def marshalSignedAttrs (attrs : List Attribute) : Bytes :=
  if attrs = [] then [] else tlv 0xa0 (sortSet (attrs.map marshalAttr)).flatten

/-- cms.go:32-41: marshalling a `SignerInfo`. -/
def marshalSignerInfo (s : SignerInfo) : Bytes :=
  tlv 0x30 (tlv 0x02 s.version ++ marshalRaw s.sid ++ tlv 0x30 (s.digestAlgorithms.map marshalRaw).flatten ++
    marshalSignedAttrs s.signedAttrs ++ marshalRaw s.signatureAlgorithm ++ tlv 0x04 s.signature ++
    marshalOptRaw s.unsignedAttrs)

/-- cms.go:43-50: marshalling a `CmsSignedData`. -/
def marshalSignedData (d : SignedData) : Bytes :=
  tlv 0x30 (tlv 0x02 d.version ++ marshalSet (d.digestAlgorithms.map marshalRaw) ++
    marshalRaw d.encapContentInfo ++ marshalOptRaw d.certificates ++ marshalOptRaw d.crls ++
    marshalSet (d.signerInfos.map marshalSignerInfo))

/-- cms.go:52-55: `asn1.Marshal(*cms)`. -/
def marshalCMS (c : CMS) : Bytes := tlv 0x30 (tlv 0x06 c.oid ++ tlv 0xa0 (marshalSignedData c.signedData))

/-- cms.go:271-278 `AddCRLs`. -/
def CMS.addCRLs (c : CMS) (crls : Bytes) : CMS :=
  { c with signedData := { c.signedData with crls := rawFull (tlv 0xa1 crls) } }

/-! ### Manifest content -/

/-- manifest.go:15-18 `File`. -/
structure MftFile where
  name : Bytes
  hash : Cert.BitString
  deriving Repr, DecidableEq

/-- manifest.go:24-30 `ManifestContent`, with times of type `T`. -/
structure MftContent (T : Type) where
  number : Int
  thisUpdate : T
  nextUpdate : T
  hashAlg : Bytes
  files : List MftFile
  deriving Repr, DecidableEq

/-- The parts of encoding/asn1 that are not modelled: times (the flag says GeneralizedTime), UTF8String
    and BMPString. -/
structure MftEnv (T : Type) where
  time : Bool → Bytes → Go T
  utf8 : Bytes → Go Bytes
  bmp : Bytes → Go Bytes

/-- asn1.go:108-124 `checkInteger`. -/
def bigIntOk (c : Bytes) : Bool :=
  match c with
  | [] => false
  | [_] => true
  | a :: b :: _ => !((a == 0 && b < 0x80) || (a == 0xff && b ≥ 0x80))

/-- asn1.go:172-190 `parseBigInt`: a field of type `*big.Int`. -/
def parseBigInt (bs : Bytes) : Go (Int × Bytes) := do
  let r ← parseTyped 2 false bs
  if bigIntOk r.1 then return (intVal r.1, r.2) else .err "integer not minimally-encoded"

/-- asn1.go:895-900, 981-993: a field of type `time.Time`. -/
def parseTimeField {T : Type} (env : MftEnv T) (bs : Bytes) : Go (T × Bytes) :=
  if bs = [] then .err "sequence truncated"
  else do
    let h ← parseHeader bs
    if h.1.cls ≠ 0 ∨ (h.1.tag ≠ 23 ∧ h.1.tag ≠ 24) ∨ h.1.compound = true then .err "tags don't match"
    else if h.1.length > h.2.length then .err "data truncated"
    else do
      let t ← env.time (decide (h.1.tag = 24)) (h.2.take h.1.length)
      return (t, h.2.drop h.1.length)

/-- asn1.go:473-492 `isPrintable` with asterisk and ampersand allowed. -/
def isPrintable (b : UInt8) : Bool :=
  (0x61 ≤ b && b ≤ 0x7a) || (0x41 ≤ b && b ≤ 0x5a) || (0x30 ≤ b && b ≤ 0x39) || (0x27 ≤ b && b ≤ 0x29) ||
  (0x2b ≤ b && b ≤ 0x2f) || b == 0x20 || b == 0x3a || b == 0x3d || b == 0x3f || b == 0x2a || b == 0x26

/-- asn1.go:418-421 `isNumeric`. -/
def isNumeric (b : UInt8) : Bool := (0x30 ≤ b && b ≤ 0x39) || b == 0x20

/-- asn1.go:1065-1091: the value of a string with this universal tag. -/
def stringValue {T : Type} (env : MftEnv T) (tag : Nat) (c : Bytes) : Go Bytes :=
  if tag = 19 then if c.all isPrintable then .ok c else .err "PrintableString contains invalid character"
  else if tag = 18 then if c.all isNumeric then .ok c else .err "NumericString contains invalid character"
  else if tag = 22 then if c.all (· < 0x80) then .ok c else .err "IA5String contains invalid character"
  else if tag = 20 ∨ tag = 27 then .ok c
  else if tag = 12 then env.utf8 c
  else env.bmp c

/-- asn1.go:877-891, 1065-1091: a field of type `string`. -/
def parseString {T : Type} (env : MftEnv T) (bs : Bytes) : Go (Bytes × Bytes) :=
  if bs = [] then .err "sequence truncated"
  else do
    let h ← parseHeader bs
    if h.1.cls ≠ 0 ∨ h.1.tag ∉ [19, 22, 27, 20, 12, 18, 30] ∨ h.1.compound = true then .err "tags don't match"
    else if h.1.length > h.2.length then .err "data truncated"
    else do
      let s ← stringValue env h.1.tag (h.2.take h.1.length)
      return (s, h.2.drop h.1.length)

/-- manifest.go:15-18: a `File`. -/
def parseMftFile {T : Type} (env : MftEnv T) (bs : Bytes) : Go (MftFile × Bytes) := do
  let s ← parseTyped 16 true bs
  let n ← parseString env s.1
  let b ← parseTyped 3 false n.2
  let h ← bitStringOf b.1
  return (⟨n.1, h⟩, s.2)

/-- manifest.go:106: `asn1.Unmarshal(fullbytes, &mc)`. Simplification: `parseSequenceOf` compares the tag
    of each file with the expected one before it parses the first, so on a list with two faults the
    message can differ. -/
def unmarshalMft {T : Type} (env : MftEnv T) (bs : Bytes) : Go (MftContent T) := do
  let s ← parseTyped 16 true bs
  let n ← parseBigInt s.1
  let t ← parseTimeField env n.2
  let u ← parseTimeField env t.2
  let a ← parseOID u.2
  let l ← parseTyped 16 true a.2
  let fs ← parseAll (parseMftFile env) l.1
  return ⟨n.1, t.1, u.1, a.1, fs⟩

/-- marshal.go:152-180 `makeBigInt`: the contents octets. -/
def bigIntOctets (n : Int) : Bytes :=
  if n < 0 then
    let b := (natBytes (-n - 1).toNat).map (0xff ^^^ ·)
    match b with
    | [] => [0xff]
    | a :: _ => if a &&& 0x80 = 0 then 0xff :: b else b
  else if n = 0 then [0]
  else
    let b := natBytes n.toNat
    match b with
    | [] => []
    | a :: _ => if a &&& 0x80 ≠ 0 then 0 :: b else b

/-- manifest.go:15-18: marshalling a `File`; an error for a name that is not ASCII (marshal.go:279-287). -/
def marshalMftFile (f : MftFile) : Go Bytes :=
  if f.name.all (· < 0x80) then .ok (tlv 0x30 (tlv 0x16 f.name ++ tlv 0x03 (bitStringOctets f.hash)))
  else .err "IA5String contains invalid character"

/-- The files one after the other. -/
def marshalMftFiles : List MftFile → Go Bytes
  | [] => .ok []
  | f :: fs => do
    let a ← marshalMftFile f
    let r ← marshalMftFiles fs
    return a ++ r

/-- manifest.go:50-53: `asn1.Marshal(eContent)`, given the contents octets of the two times as
    GeneralizedTime. -/
def marshalMftContent {T : Type} (timeOctets : T → Bytes) (c : MftContent T) : Go Bytes := do
  let fs ← marshalMftFiles c.files
  return tlv 0x30 (tlv 0x02 (bigIntOctets c.number) ++ tlv 0x18 (timeOctets c.thisUpdate) ++
    tlv 0x18 (timeOctets c.nextUpdate) ++ tlv 0x06 c.hashAlg ++ tlv 0x30 fs)

/-- manifest.go:49-65 `EncodeManifestContent`. -/
def encodeManifest {T : Type} (timeOctets : T → Bytes) (c : MftContent T) : Go Encap := do
  let b ← marshalMftContent timeOctets c
  return ⟨manifestOID, wrapEContent b⟩

end Verif.Cms
