import Verif.Model.CmsEncode
/-
  Model of the certificate extensions of validator/lib/cert.go down to octets: reading
  (`DecodeIPAddressBlock`, `DecodeASN`, `DecodeSubjectInformationAccess`, `DecodeKeyAuthority`,
  `DecodeKeyIdentifier`, `DecodeCertificate`) and writing (`EncodeIPAddressBlock`, `EncodeASN`,
  `EncodeSIA`, `EncodeInfoAccess`, `EncodePolicyInformation`).  Model/Cert.lean has the same functions
  between the values; here `asn1.Unmarshal` and `asn1.Marshal` are included.
-/
set_option autoImplicit false

namespace Verif.Ext
open Der Cert Cms

/-! ### IP addresses -/

/-- cert.go:294-297, 301: one `IPAddressFamily`; octets after the second field are ignored. -/
def parseIPFamily (bs : Bytes) : Go ((Bytes × Elem) × Bytes) := do
  let s ← parseTyped 16 true bs
  let f ← parseOctets s.1
  let c ← parseAny f.2
  return ((f.1, c.1), s.2)

/-- cert.go:318, 374: `asn1.Unmarshal` into a `[]asn1.RawValue`. -/
def unmarshalRaws (bs : Bytes) : Go (List Elem) := do
  let s ← parseTyped 16 true bs
  parseAll parseAny s.1

/-- cert.go:326: `asn1.Unmarshal` into an `asn1.BitString`, and what is left. -/
def parseBitString (bs : Bytes) : Go (BitString × Bytes) := do
  let r ← parseTyped 3 false bs
  let b ← bitStringOf r.1
  return (b, r.2)

/-- cert.go:323-353: one element of the list of addresses: tag 3 is read as a prefix, tag 16 as a range
    (in both cases only the tag number chooses), any other tag is passed over. -/
def readAddr (e : Elem) : Go (List AddrOrRange) :=
  if e.tag = 3 then do
    let b ← parseBitString e.full
    return [.prefix b.1]
  else if e.tag = 16 then do
    let s ← parseTyped 16 true e.full
    let a ← parseBitString s.1
    let b ← parseBitString a.2
    return [.range a.1 b.1]
  else return []

/-- cert.go:323-353: the loop over the elements. -/
def readAddrs : List Elem → Go (List AddrOrRange)
  | [] => .ok []
  | e :: rest => do
    let a ← readAddr e
    let r ← readAddrs rest
    return a ++ r

/-- cert.go:306-321: the choice of one family: tag 5 is inherit, tag 16 a list of addresses; with any
    other tag the family is passed over. -/
def readChoice (c : Elem) : Go (Option AddrChoice) :=
  if c.tag = 5 then return some .inherit
  else if c.tag = 16 then do
    let l ← unmarshalRaws c.full
    let a ← readAddrs l
    return some (.addresses a)
  else return none

/-- cert.go:306-356: the loop over the families. -/
def readFamilies : List (Bytes × Elem) → Go (List AddrFamily)
  | [] => .ok []
  | (f, c) :: rest => do
    let o ← readChoice c
    let r ← readFamilies rest
    return (match o with
      | some ch => ⟨f, ch⟩ :: r
      | none => r)

/-- cert.go:293-358 `DecodeIPAddressBlock`. Simplification: the entries decoded before an error are
    returned by the code together with the error; no caller uses them. -/
def decodeIPExt (data : Bytes) : Go (List IPInfo) := do
  let s ← parseTyped 16 true data
  let fams ← parseAll parseIPFamily s.1
  let blk ← readFamilies fams
  return decodeIPAddressBlock blk

/-- cert.go:72-74, 137-141: `asn1.Marshal` of a prefix or of a range. -/
def marshalAddr : AddrOrRange → Bytes
  | .prefix b => tlv 0x03 (bitStringOctets b)
  | .range min max => tlv 0x30 (tlv 0x03 (bitStringOctets min) ++ tlv 0x03 (bitStringOctets max))

/-- cert.go:168-170, 783-795, 798: `asn1.Marshal` of one family. -/
def marshalFamily (f : AddrFamily) : Bytes :=
  tlv 0x30 (tlv 0x04 f.addressFamily ++
    (match f.choice with
     | .inherit => tlv 0x05 []
     | .addresses l => tlv 0x30 (l.map marshalAddr).flatten))

/-- cert.go:731-760 `EncodeIPAddressBlock`: the value of the extension. -/
def encodeIPExt (ips : List IPInfo) : Go Bytes := do
  let blk ← encodeIPAddressBlock ips
  return tlv 0x30 (blk.map marshalFamily).flatten

/-! ### AS numbers -/

/-- cert.go:379-395: one element of the list: tag 16 is a range, tag 2 a number, any other tag is passed
    over. -/
def readASElem (e : Elem) : Go (List ASInfo) :=
  if e.tag = 16 then do
    let s ← parseTyped 16 true e.full
    let a ← parseInt s.1
    let b ← parseInt a.2
    return [.range (intVal a.1) (intVal b.1)]
  else if e.tag = 2 then do
    let a ← parseInt e.full
    return [.asn (intVal a.1)]
  else return []

/-- cert.go:378-396: the loop. -/
def readASElems : List Elem → Go (List ASInfo)
  | [] => .ok []
  | e :: rest => do
    let a ← readASElem e
    let r ← readASElems rest
    return a ++ r

/-- cert.go:360-399 `DecodeASIdentifier`, on the contents octets of the field. -/
def readASIdentifier (bytes : Bytes) : Go (List ASInfo) := do
  let t ← parseAny bytes
  if t.1.tag = 5 then return [.null]
  else if t.1.tag = 16 then do
    let l ← unmarshalRaws bytes
    readASElems l
  else return []

/-- cert.go:413-424: a field is present if its class is not zero. -/
def readASField (e : Elem) : Go (List ASInfo) :=
  if e.cls ≠ 0 then readASIdentifier e.bytes else .ok []

/-- cert.go:401-426 `DecodeASN`. -/
def decodeASExt (data : Bytes) : Go (List ASInfo × List ASInfo) := do
  let s ← parseTyped 16 true data
  let n ← parseOptRaw 0 s.1
  let d ← parseOptRaw 1 n.2
  let nums ← readASField n.1
  let rdi ← readASField d.1
  return (nums, rdi)

/-- cert.go:206-208, 226-228, 245-247: `asn1.Marshal` of one entry. -/
def marshalAS : ASInfo → Bytes
  | .range min max => tlv 0x30 (tlv 0x02 (intOctets min) ++ tlv 0x02 (intOctets max))
  | .asn a => tlv 0x02 (intOctets a)
  | .null => tlv 0x05 []

/-- cert.go:808-822: the loop of `EncodeASNSeq`; `true` when it returned at an inherit entry. -/
def asSeqLoop : List ASInfo → List Bytes → List Bytes × Bool
  | [], acc => (acc, false)
  | .null :: _, acc => (acc ++ [marshalAS .null], true)
  | a :: rest, acc => asSeqLoop rest (acc ++ [marshalAS a])

/-- cert.go:802-830, 843-850: one field of the extension: the values `EncodeASNSeq` returns, in a
    context tag; nothing for an empty list. -/
def encodeASFieldExt (id : UInt8) (l : List ASInfo) : Bytes :=
  if l = [] then []
  else
    let r := asSeqLoop l []
    tlv id (if r.2 then r.1.flatten else tlv 0x30 r.1.flatten)

/-- cert.go:832-863 `EncodeASN`: the value of the extension. -/
def encodeASExt (nums rdi : List ASInfo) : Bytes :=
  tlv 0x30 (encodeASFieldExt 0xa0 nums ++ encodeASFieldExt 0xa1 rdi)

/-! ### Information access, key identifiers, policies -/

/-- asn1.go:765-945 `parseField` for a mandatory `[]byte` with parameter `tag:n`: context class,
    not constructed. -/
def parseTaggedOctets (n : Nat) (bs : Bytes) : Go (Bytes × Bytes) :=
  if bs = [] then .err "sequence truncated"
  else do
    let h ← parseHeader bs
    if h.1.cls ≠ 2 ∨ h.1.tag ≠ n ∨ h.1.compound ≠ false then .err "tags don't match"
    else if h.1.length > h.2.length then .err "data truncated"
    else return (h.2.take h.1.length, h.2.drop h.1.length)

/-- cert.go:608-611 `SIA`: access method (contents octets of the object identifier) and location. -/
structure SIA where
  method : Bytes
  name : Bytes
  deriving Repr, DecidableEq

/-- cert.go:608-611, 619: one `SIA`. -/
def parseSIA (bs : Bytes) : Go (SIA × Bytes) := do
  let s ← parseTyped 16 true bs
  let o ← parseOID s.1
  let n ← parseTaggedOctets 6 o.2
  return (⟨o.1, n.1⟩, s.2)

/-- cert.go:617-624 `DecodeSubjectInformationAccess`. -/
def decodeSIAExt (data : Bytes) : Go (List SIA) := do
  let s ← parseTyped 16 true data
  parseAll parseSIA s.1

/-- cert.go:627-637 `DecodeKeyAuthority`. -/
def decodeKeyAuthority (data : Bytes) : Go Bytes := do
  let s ← parseTyped 16 true data
  let k ← parseTaggedOctets 0 s.1
  return k.1

/-- cert.go:639-646 `DecodeKeyIdentifier`. -/
def decodeKeyIdentifier (data : Bytes) : Go Bytes := do
  let k ← parseOctets data
  return k.1

/-- cert.go:868: `asn1.Marshal(*sia)`. Simplification: an object identifier is given by its contents
    octets, so that it cannot be one `asn1.Marshal` rejects (fewer than two arcs). -/
def marshalSIA (s : SIA) : Bytes := tlv 0x30 (tlv 0x06 s.method ++ tlv 0x86 s.name)

/-- cert.go:865-887 `EncodeSIA`: the value of the extension. -/
def encodeSIAExt (l : List SIA) : Bytes := tlv 0x30 (l.map marshalSIA).flatten

/-- cert.go:31 `SubjectInfoAccess` = 1.3.6.1.5.5.7.1.11, as contents octets. -/
def subjectInfoAccess : Bytes := [0x2b, 0x06, 0x01, 0x05, 0x05, 0x07, 0x01, 0x0b]
/-- cert.go:32 `AuthorityInfoAccess` = 1.3.6.1.5.5.7.1.1 -/
def authorityInfoAccess : Bytes := [0x2b, 0x06, 0x01, 0x05, 0x05, 0x07, 0x01, 0x01]
/-- cert.go:33 `CAIssuer` = 1.3.6.1.5.5.7.48.2 -/
def caIssuer : Bytes := [0x2b, 0x06, 0x01, 0x05, 0x05, 0x07, 0x30, 0x02]
/-- cert.go:34 `SignedObject` = 1.3.6.1.5.5.7.48.11 -/
def signedObject : Bytes := [0x2b, 0x06, 0x01, 0x05, 0x05, 0x07, 0x30, 0x0b]

/-- cert.go:666-694 `EncodeInfoAccess`: identifier and value of the extension. `utf8` tells valid UTF-8
    strings (utf8.ValidString; marshal.go:596-602 rejects other strings). -/
def encodeInfoAccess (utf8 : Bytes → Bool) (authority : Bool) (path : Bytes) : Go (Bytes × Bytes) :=
  if utf8 path then
    .ok (if authority then authorityInfoAccess else subjectInfoAccess,
      tlv 0x30 (tlv 0x30 (tlv 0x06 (if authority then caIssuer else signedObject) ++ tlv 0x86 path)))
  else .err "string not valid UTF-8"

/-- cert.go:28 `ResourceCertPolicy` = 1.3.6.1.5.5.7.14.2 -/
def resourceCertPolicy : Bytes := [0x2b, 0x06, 0x01, 0x05, 0x05, 0x07, 0x0e, 0x02]
/-- cert.go:29 `CPS` = 1.3.6.1.5.5.7.2.1 -/
def cpsOID : Bytes := [0x2b, 0x06, 0x01, 0x05, 0x05, 0x07, 0x02, 0x01]

/-- cert.go:697-729 `EncodePolicyInformation`: the value of the extension. An empty policy string leaves
    the list of qualifiers nil, which is written as an empty SEQUENCE. marshal.go:255-266
    `makeIA5String` rejects octets above 127. -/
def encodePolicy (cps : Bytes) : Go Bytes :=
  if cps.all (· < 0x80) then
    .ok (tlv 0x30 (tlv 0x30 (tlv 0x06 resourceCertPolicy ++
      tlv 0x30 (if cps = [] then [] else tlv 0x30 (tlv 0x06 cpsOID ++ tlv 0x16 cps)))))
  else .err "IA5String contains invalid character"

/-! ### Certificates -/

/-- cert.go:20 `IpAddrBlock` = 1.3.6.1.5.5.7.1.7 -/
def ipAddrBlock : Bytes := [0x2b, 0x06, 0x01, 0x05, 0x05, 0x07, 0x01, 0x07]
/-- cert.go:21 `AutonomousSysIds` = 1.3.6.1.5.5.7.1.8 -/
def autonomousSysIds : Bytes := [0x2b, 0x06, 0x01, 0x05, 0x05, 0x07, 0x01, 0x08]

/-- cert.go:428-435 `RPKICertificate`; `x509` is what the X.509 parser made of it. -/
structure RCert (X : Type) where
  sia : List SIA
  ips : List IPInfo
  nums : List ASInfo
  rdi : List ASInfo
  x509 : X
  deriving Repr, DecidableEq

/-- crypto/x509/pkix `Extension`: identifier (contents octets), critical bit and value. -/
structure Extension where
  id : Bytes
  critical : Bool
  value : Bytes
  deriving Repr, DecidableEq

/-- cert.go:899-920: the loop over the extensions. Simplification: the part of the certificate decoded
    before an error is returned by the code together with the error; the callers do not use it. -/
def extLoop {X : Type} : List Extension → RCert X → Go (RCert X)
  | [], c => .ok c
  | x :: rest, c =>
    if x.id = ipAddrBlock then do
      let l ← decodeIPExt x.value
      extLoop rest { c with ips := l }
    else if x.id = autonomousSysIds then do
      let r ← decodeASExt x.value
      extLoop rest { c with nums := r.1, rdi := r.2 }
    else if x.id = subjectInfoAccess then do
      let l ← decodeSIAExt x.value
      extLoop rest { c with sia := l }
    else extLoop rest c

/-- cert.go:889-923 `DecodeCertificate`. `x509` is `x509.ParseCertificate`: the extensions and the rest. -/
def decodeCertificate {X : Type} (x509 : Bytes → Go (List Extension × X)) (data : Bytes) : Go (RCert X) := do
  let r ← x509 data
  extLoop r.1 ⟨[], [], [], [], r.2⟩

/-- cert.go:447-465: the loop of `GetRRDPGeneralName` and `GetRsyncGeneralName`: the first entry with the
    access method counts; the empty string if there is none. -/
def generalName (method : Bytes) : List SIA → Bytes
  | [] => []
  | s :: rest => if s.method = method then s.name else generalName method rest

/-- cert.go:39 `CertRepository` = 1.3.6.1.5.5.7.48.5 -/
def certRepository : Bytes := [0x2b, 0x06, 0x01, 0x05, 0x05, 0x07, 0x30, 0x05]
/-- cert.go:40 `CertRRDP` = 1.3.6.1.5.5.7.48.13 -/
def certRRDP : Bytes := [0x2b, 0x06, 0x01, 0x05, 0x05, 0x07, 0x30, 0x0d]

/-- cert.go:437-445 `HasRRDP`. -/
def hasRRDP (l : List SIA) : Bool := l.any (fun s => s.method = certRRDP)
/-- cert.go:447-455 `GetRRDPGeneralName`. -/
def rrdpName (l : List SIA) : Bytes := generalName certRRDP l
/-- cert.go:457-465 `GetRsyncGeneralName`. -/
def rsyncName (l : List SIA) : Bytes := generalName certRepository l

end Verif.Ext
