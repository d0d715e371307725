import Verif.Model.Ext
import Verif.Model.Time
import Verif.Model.Pki
/-
  Certificates as octets: `x509.ParseCertificate`, which `DecodeCertificate` (validator/lib/cert.go:889-923) calls on
  every certificate file and on the certificate inside every CMS message, and `CheckSignatureFrom`
  (validator/lib/cert.go:556).  From the standard library of Go 1.19 (/repo/go.mod): crypto/x509/parser.go, x509.go, on
  the reader of x/crypto/cryptobyte.  A copy of that reader is in /repo/vendor/golang.org/x/crypto/cryptobyte/asn1.go
  (lines "cryptobyte" below); it is older than the one inside Go 1.19, which also refuses a leading 0x80 in an arc.
  `int` has 64 bits.
-/
set_option autoImplicit false

namespace Verif.X509
open Der Cms

/-! ### The reader -/

/-- What `readASN1` took from the front: identifier octet, contents, the whole element, and what follows it. -/
structure Piece where
  tag : UInt8
  content : Bytes
  whole : Bytes
  rest : Bytes
  deriving Repr, DecidableEq

/-- string.go `readUnsigned`. -/
def unsigned (l : Bytes) : Nat := l.foldl (fun a b => a * 256 + b.toNat) 0

/-- cryptobyte asn1.go:808-815: `ReadBytes` and `Skip`. -/
def cut (tag : UInt8) (header length : Nat) (s : Bytes) : Go Piece :=
  if s.length < header + length then .err "truncated"
  else .ok ⟨tag, (s.take (header + length)).drop header, s.take (header + length), s.drop (header + length)⟩

/-- cryptobyte asn1.go:746-816 `readASN1`. -/
def readPiece (s : Bytes) : Go Piece :=
  match s with
  | tag :: l :: r =>
    if tag.toNat % 32 = 31 then .err "high tag number"
    else if l < 0x80 then cut tag 2 l.toNat s
    else
      let n := l.toNat % 128
      if n = 0 ∨ n > 4 ∨ r.length < n then .err "length"
      else
        let len := unsigned (r.take n)
        if len < 128 then .err "length should have used the short form"
        else if len / 256 ^ (n - 1) = 0 then .err "leading octet of the length is 0"
        else if 2 + n + len ≥ 2 ^ 32 then .err "overflow"
        else cut tag (2 + n) len s
  | _ => .err "truncated"

/-- cryptobyte asn1.go:591-600 `ReadASN1`: contents and rest. -/
def read (tag : UInt8) (s : Bytes) : Go (Bytes × Bytes) := do
  let p ← readPiece s
  if p.tag ≠ tag then .err "unexpected tag" else return (p.content, p.rest)

/-- cryptobyte asn1.go:632-637 `PeekASN1Tag`. -/
def peek (tag : UInt8) (s : Bytes) : Bool := s.head? == some tag

/-- cryptobyte asn1.go:650-661 `ReadOptionalASN1`, and 663-669 `SkipOptionalASN1`. -/
def readOpt (tag : UInt8) (s : Bytes) : Go (Option Bytes × Bytes) :=
  if peek tag s then do
    let r ← read tag s
    return (some r.1, r.2)
  else .ok (none, s)

/-- cryptobyte asn1.go:315-333 `readASN1BigInt`. -/
def readBig (s : Bytes) : Go (Int × Bytes) := do
  let r ← read 0x02 s
  if bigIntOk r.1 then return (intVal r.1, r.2) else .err "malformed integer"

/-- cryptobyte asn1.go:350-371 `readASN1Int64`, for an `int`. -/
def readInt (s : Bytes) : Go (Int × Bytes) := do
  let r ← read 0x02 s
  if bigIntOk r.1 ∧ r.1.length ≤ 8 then return (intVal r.1, r.2) else .err "malformed integer"

/-- cryptobyte asn1.go:249-267 `ReadASN1Boolean`. -/
def readBool (s : Bytes) : Go (Bool × Bytes) := do
  let r ← read 0x01 s
  if r.1 = [0x00] then return (false, r.2)
  else if r.1 = [0xff] then return (true, r.2)
  else .err "malformed boolean"

/-- A boolean if there is one at the front, otherwise false: parser.go `parseExtension`, `parseBasicConstraintsExtension`. -/
def optBool (s : Bytes) : Go (Bool × Bytes) := if peek 0x01 s then readBool s else .ok (false, s)

/-- An integer if there is one at the front, otherwise -1: parser.go `parseBasicConstraintsExtension`. -/
def optInt (s : Bytes) : Go (Int × Bytes) := if peek 0x02 s then readInt s else .ok (-1, s)

/-- cryptobyte asn1.go:542-560 `ReadASN1BitString`. -/
def readBits (s : Bytes) : Go (Cert.BitString × Bytes) := do
  let r ← read 0x03 s
  let b ← bitStringOf r.1
  return (b, r.2)

/-- cryptobyte asn1.go:421-441 `readBase128Int`; in Go 1.19 a first octet 0x80 is refused. -/
def arc : (i ret : Nat) → Bytes → Go (Nat × Bytes)
  | _, _, [] => .err "truncated"
  | i, ret, b :: s =>
    if i = 5 then .err "arc too long"
    else if ret ≥ 2 ^ 24 then .err "arc too large"
    else if i = 0 ∧ b = 0x80 then .err "arc not minimal"
    else
      let v := ret * 128 + b.toNat % 128
      if b < 0x80 then .ok (v, s) else arc (i + 1) v s

/-- cryptobyte asn1.go:445-480 `ReadASN1ObjectIdentifier`. The identifier is kept as contents octets: the arcs are read
    from them and determine them. -/
def readOID (s : Bytes) : Go (Bytes × Bytes) := do
  let r ← read 0x06 s
  if r.1 = [] then .err "empty OBJECT IDENTIFIER"
  else do
    let _ ← parseAll (arc 0 0) r.1
    return r

/-- cryptobyte asn1.go:505-538 `ReadASN1UTCTime`, the contents: first the layout with seconds. -/
def utcTime (s : Bytes) : Go Time.Stamp :=
  let attempt : Go (List Time.Std × Time.Parts) :=
    match Time.parseTime Time.utcLong s with
    | .ok p => .ok (Time.utcLong, p)
    | .err _ =>
      match Time.parseTime Time.utcShort s with
      | .ok p => .ok (Time.utcShort, p)
      | .err e => .err e
      | .panic => .panic
      | .diverge => .diverge
    | .panic => .panic
    | .diverge => .diverge
  match attempt with
  | .ok (layout, p) =>
    if p.stamp.format layout ≠ s then .err "time did not serialize back to the original value"
    else if (Time.civil p.stamp.unix p.stamp.offset).year ≥ 2050 then .ok p.stamp.centuryBack
    else .ok p.stamp
  | .err e => .err e
  | .panic => .panic
  | .diverge => .diverge

/-! ### The parts of a certificate -/

/-- The parts of the parser that are not modelled: `utf8.Valid`; `utf16.Decode` of big-endian octets; `parsePublicKey`
    for keys other than RSA (algorithm, parameters, key); and the checks of the extensions subjectAltName (17),
    nameConstraints (30) and extKeyUsage (37), whose values the code does not use. -/
structure Lib where
  utf8 : Bytes → Bool
  utf16 : Bytes → Bytes
  otherKey : Bytes → Bytes → Cert.BitString → Go Unit
  otherExt : Nat → Bytes → Go Unit

/-- pkix `AttributeTypeAndValue`: the attribute's type and its value as a text. -/
structure Attr where
  type : Bytes
  text : Bytes
  deriving Repr, DecidableEq

/-- parser.go `parseASN1String`. -/
def textOf (lib : Lib) (tag : UInt8) (v : Bytes) : Go Bytes :=
  if tag = 0x14 then .ok v
  else if tag = 0x13 then if v.all isPrintable then .ok v else .err "invalid PrintableString"
  else if tag = 0x0c then if lib.utf8 v then .ok v else .err "invalid UTF-8 string"
  else if tag = 0x1e then
    if v.length % 2 ≠ 0 then .err "invalid BMPString"
    else .ok (lib.utf16 (if v.drop (v.length - 2) = [0, 0] then v.take (v.length - 2) else v))
  else if tag = 0x16 then if v.all (· < 0x80) then .ok v else .err "invalid IA5String"
  else if tag = 0x12 then if v.all isNumeric then .ok v else .err "invalid NumericString"
  else .err "unsupported string type"

/-- parser.go `parseName`, the inner loop: one attribute. -/
def readAttr (lib : Lib) (s : Bytes) : Go (Attr × Bytes) := do
  let a ← read 0x30 s
  let o ← readOID a.1
  let v ← readPiece o.2
  let t ← textOf lib v.tag v.content
  return (⟨o.1, t⟩, a.2)

/-- parser.go `parseName`, the outer loop: one set of attributes. -/
def readRdn (lib : Lib) (s : Bytes) : Go (List Attr × Bytes) := do
  let a ← read 0x31 s
  let l ← parseAll (readAttr lib) a.1
  return (l, a.2)

/-- parser.go `parseName` after `ReadASN1Element`. -/
def readName (lib : Lib) (s : Bytes) : Go (List (List Attr) × Bytes) := do
  let a ← read 0x30 s
  let l ← parseAll (readRdn lib) a.1
  return (l, a.2)

/-- parser.go `parseTime`. -/
def readTime (s : Bytes) : Go (Time.Stamp × Bytes) :=
  if peek 0x17 s then do
    let r ← read 0x17 s
    let t ← utcTime r.1
    return (t, r.2)
  else if peek 0x18 s then do
    let r ← read 0x18 s
    let t ← Time.parseGeneralizedTime r.1
    return (t, r.2)
  else .err "unsupported time format"

/-- parser.go `parseValidity`. -/
def readValidity (s : Bytes) : Go ((Time.Stamp × Time.Stamp) × Bytes) := do
  let v ← read 0x30 s
  let a ← readTime v.1
  let b ← readTime a.2
  return ((a.1, b.1), v.2)

/-- parser.go `parseAI`: object identifier and parameters (the whole element; empty if there is none). -/
def parseAI (s : Bytes) : Go (Bytes × Bytes) := do
  let o ← readOID s
  if o.2 = [] then return (o.1, [])
  else do
    let p ← readPiece o.2
    return (o.1, p.whole)

/-- parser.go `parsePublicKey`, RSA. -/
def rsaKey (params : Bytes) (key : Cert.BitString) : Go Tal.RSAKey := do
  if params ≠ [0x05, 0x00] then .err "x509: RSA key missing NULL parameters"
  else do
    let s ← read 0x30 (Crl.rightAlign key)
    let n ← readBig s.1
    let e ← readInt n.2
    if n.1 ≤ 0 then .err "x509: RSA modulus is not a positive number"
    else if e.1 ≤ 0 then .err "x509: RSA public exponent is not a positive number"
    else return ⟨n.1, e.1⟩

/-- The subject public key info: parser.go `parseCertificate` and `parsePublicKey`. -/
def readSpki (lib : Lib) (s : Bytes) : Go (Tal.PubKey × Bytes) := do
  let k ← read 0x30 s
  let a ← read 0x30 k.1
  let ai ← parseAI a.1
  let b ← readBits a.2
  if ai.1 = rsaOID then do
    let r ← rsaKey ai.2 b.1
    return (.rsaPtr r, k.2)
  else do
    let _ ← lib.otherKey ai.1 ai.2 b.1
    return (.other, k.2)

/-- parser.go `parseExtension`. -/
def readExt (s : Bytes) : Go (Ext.Extension × Bytes) := do
  let x ← read 0x30 s
  let o ← readOID x.1
  let c ← optBool o.2
  let v ← read 0x04 c.2
  return (⟨o.1, c.1, v.1⟩, x.2)

/-! ### The extensions that the parser knows -/

/-- The fields of a certificate that come from its extensions, as far as the code or `CheckSignatureFrom` reads them. -/
structure Extras where
  keyUsage : Nat
  basic : Bool
  isCA : Bool
  aki : Bytes
  ski : Bytes
  crlDPs : List Bytes
  deriving Repr, DecidableEq

/-- The zero value. -/
def Extras.zero : Extras := ⟨0, false, false, [], [], []⟩

/-- asn1 `BitString.At`: the bit at a position, 0 if it is out of range. -/
def bitAt (b : Cert.BitString) (i : Nat) : Bool :=
  decide (i < b.bitLength) && decide ((b.bytes.getD (i / 8) 0).toNat / 2 ^ (7 - i % 8) % 2 = 1)

/-- parser.go `parseKeyUsageExtension`. -/
def keyUsage (v : Bytes) : Go Nat := do
  let b ← readBits v
  return ((List.range 9).map fun i => if bitAt b.1 i then 2 ^ i else 0).sum

/-- parser.go `parseBasicConstraintsExtension`: whether the subject is an authority. The path length is read and, as
    nothing uses it, dropped. -/
def basicConstraints (v : Bytes) : Go Bool := do
  let s ← read 0x30 v
  let c ← optBool s.1
  let _ ← optInt c.2
  return c.1

/-- parser.go `processExtensions`, case 31, the inner loop: the addresses at the front. -/
def urisFuel : Nat → Bytes → Go (List Bytes)
  | 0, s => if peek 0x86 s then .diverge else .ok []
  | n + 1, s =>
    if peek 0x86 s then do
      let u ← read 0x86 s
      let t ← urisFuel n u.2
      return u.1 :: t
    else .ok []

/-- The addresses at the front. -/
def uris (s : Bytes) : Go (List Bytes) := urisFuel s.length s

/-- parser.go `processExtensions`, case 31, the outer loop: one distribution point. -/
def readPoint (s : Bytes) : Go (List Bytes × Bytes) := do
  let d ← read 0x30 s
  let n ← readOpt 0xa0 d.1
  match n.1 with
  | none => return ([], d.2)
  | some name => do
    let f ← read 0xa0 name
    let u ← uris f.1
    return (u, d.2)

/-- parser.go `processExtensions`, case 31. -/
def distributionPoints (v : Bytes) : Go (List Bytes) := do
  let s ← read 0x30 v
  let l ← parseAll readPoint s.1
  return l.flatten

/-- parser.go `processExtensions`, case 35. `none` if there is no key identifier in it. -/
def authorityKey (v : Bytes) : Go (Option Bytes) := do
  let s ← read 0x30 v
  let k ← readOpt 0x80 s.1
  return k.1

/-- parser.go `processExtensions`, case 14. -/
def subjectKey (v : Bytes) : Go Bytes := do
  let s ← read 0x04 v
  return s.1

/-- parser.go `parseCertificatePoliciesExtension`, the loop: one policy. -/
def readPolicy (s : Bytes) : Go (Bytes × Bytes) := do
  let p ← read 0x30 s
  let o ← readOID p.1
  return (o.1, p.2)

/-- parser.go `parseCertificatePoliciesExtension`. -/
def policies (v : Bytes) : Go (List Bytes) := do
  let s ← read 0x30 v
  parseAll readPolicy s.1

/-- parser.go `processExtensions`, authority information access, the loop: method and, if it is one, address. -/
def readAia (s : Bytes) : Go ((Bytes × Option Bytes) × Bytes) := do
  let d ← read 0x30 s
  let m ← readOID d.1
  let u ← readOpt 0x86 m.2
  return ((m.1, u.1), d.2)

/-- parser.go `processExtensions`, authority information access. -/
def authorityInfo (v : Bytes) : Go (List (Bytes × Option Bytes)) := do
  let s ← read 0x30 v
  parseAll readAia s.1

/-- 2.5.29.`k`, for k below 128. -/
def ce (k : UInt8) : Bytes := [0x55, 0x1d, k]
/-- oidExtensionAuthorityInfoAccess, 1.3.6.1.5.5.7.1.1 -/
def aiaOID : Bytes := [0x2b, 0x06, 0x01, 0x05, 0x05, 0x07, 0x01, 0x01]

/-- parser.go `processExtensions`: one extension. -/
def process1 (lib : Lib) (x : Extras) (e : Ext.Extension) : Go Extras :=
  if e.id = ce 15 then do
    let u ← keyUsage e.value
    return { x with keyUsage := u }
  else if e.id = ce 19 then do
    let c ← basicConstraints e.value
    return { x with basic := true, isCA := c }
  else if e.id = ce 17 then do
    let _ ← lib.otherExt 17 e.value
    return x
  else if e.id = ce 30 then do
    let _ ← lib.otherExt 30 e.value
    return x
  else if e.id = ce 31 then do
    let l ← distributionPoints e.value
    return { x with crlDPs := x.crlDPs ++ l }
  else if e.id = ce 35 then do
    let k ← authorityKey e.value
    return { x with aki := k.getD x.aki }
  else if e.id = ce 37 then do
    let _ ← lib.otherExt 37 e.value
    return x
  else if e.id = ce 14 then do
    let k ← subjectKey e.value
    return { x with ski := k }
  else if e.id = ce 32 then do
    let _ ← policies e.value
    return x
  else if e.id = aiaOID then do
    let _ ← authorityInfo e.value
    return x
  else return x

/-- parser.go `processExtensions`. -/
def process (lib : Lib) : List Ext.Extension → Extras → Go Extras
  | [], x => .ok x
  | e :: l, x => do
    let y ← process1 lib x e
    process lib l y

/-! ### Certificates -/

/-- crypto/x509 `Certificate`, the fields that are modelled. `version` is as written: 0, 1, 2. -/
structure XCert where
  raw : Bytes
  tbs : Bytes
  version : Int
  serial : Int
  sigAlg : Bytes × Bytes
  issuer : List (List Attr)
  notBefore : Time.Stamp
  notAfter : Time.Stamp
  subject : List (List Attr)
  key : Tal.PubKey
  exts : List Ext.Extension
  extras : Extras
  signature : Bytes
  deriving Repr, DecidableEq

/-- parser.go `parseCertificate`: the version. -/
def readVersion (s : Bytes) : Go (Int × Bytes) := do
  let o ← readOpt 0xa0 s
  match o.1 with
  | none => return (0, o.2)
  | some c => do
    let v ← readInt c
    if v.2 ≠ [] then .err "x509: malformed version" else return (v.1, o.2)

/-- parser.go `parseCertificate`: the loop over the extensions. That an identifier occurs for the second time is
    noticed when it is read; only the text of the error depends on it. -/
def readExts (s : Bytes) : Go (List Ext.Extension) := do
  let r ← read 0x30 s
  let l ← parseAll readExt r.1
  if (l.map (·.id)).Nodup then return l else .err "x509: certificate contains duplicate extensions"

/-- parser.go `parseCertificate`: what follows the public key. -/
def readTail (lib : Lib) (version : Int) (s : Bytes) : Go (List Ext.Extension × Extras) :=
  if version > 0 then do
    let a ← readOpt 0x81 s
    let b ← readOpt 0x82 a.2
    if version = 2 then do
      let c ← readOpt 0xa3 b.2
      match c.1 with
      | none => return ([], Extras.zero)
      | some c => do
        let l ← readExts c
        let x ← process lib l Extras.zero
        return (l, x)
    else return ([], Extras.zero)
  else return ([], Extras.zero)

/-- parser.go `ParseCertificate` and `parseCertificate`. The name fields of the code (`Issuer.CommonName` and others)
    are picked from the attributes. -/
def parseCertificate (lib : Lib) (data : Bytes) : Go XCert := do
  let outer ← readPiece data
  if outer.tag ≠ 0x30 then .err "x509: malformed certificate"
  else do
    let tbs ← readPiece outer.content
    if tbs.tag ≠ 0x30 then .err "x509: malformed tbs certificate"
    else do
      let version ← readVersion tbs.content
      if version.1 < 0 then .err "x509: malformed version"
      else if version.1 > 2 then .err "x509: invalid version"
      else do
        let serial ← readBig version.2
        let inner ← read 0x30 serial.2
        let alg ← read 0x30 tbs.rest
        if alg.1 ≠ inner.1 then .err "x509: inner and outer signature algorithm identifiers don't match"
        else do
          let ai ← parseAI inner.1
          let issuer ← readName lib inner.2
          let validity ← readValidity issuer.2
          let subject ← readName lib validity.2
          let key ← readSpki lib subject.2
          let tail ← readTail lib version.1 key.2
          let sig ← readBits alg.2
          if outer.rest ≠ [] then .err "x509: trailing data"
          else return ⟨outer.whole, tbs.whole, version.1, serial.1, ai, issuer.1, validity.1.1, validity.1.2, subject.1,
            key.1, tail.1, tail.2, Crl.rightAlign sig.1⟩

/-- cert.go:889-923 `DecodeCertificate`. -/
def decodeCertificate (lib : Lib) (data : Bytes) : Go (Ext.RCert XCert) :=
  Ext.decodeCertificate (fun d => do
    let c ← parseCertificate lib d
    return (c.exts, c)) data

/-- x509.go `CheckSignatureFrom` (cert.go:556). `verify` is `checkSignature`: algorithm, signed octets, signature and
    the parent's key. A key of unknown kind is refused by `verify`. -/
def checkFrom (verify : Bytes × Bytes → Bytes → Bytes → Tal.PubKey → Bool) (child parent : XCert) : Bool :=
  if (parent.version = 2 ∧ parent.extras.basic = false) ∨ (parent.extras.basic = true ∧ parent.extras.isCA = false) then false
  else if parent.extras.keyUsage ≠ 0 ∧ parent.extras.keyUsage / 32 % 2 = 0 then false
  else verify child.sigAlg child.tbs child.signature parent.key

/-- pki.go:30 `Manifest`, 1.3.6.1.5.5.7.48.10 -/
def manifestOID : Bytes := [0x2b, 0x06, 0x01, 0x05, 0x05, 0x07, 0x30, 0x0a]

/-- The access methods that the code tells apart: pki.go:29-30, cert.go:39-40. -/
def siaKind (method : Bytes) : Pki.SIAKind :=
  if method = manifestOID then .manifest
  else if method = Ext.certRepository then .caRepository
  else if method = Ext.certRRDP then .rrdp
  else .other

/-- cert.go:428-435 `RPKICertificate`: the decoded certificate as the validator uses it. Times in nanoseconds. -/
def toPki (c : Ext.RCert XCert) : Pki.Cert where
  ski := c.x509.extras.ski
  aki := c.x509.extras.aki
  serial := c.x509.serial
  notBefore := c.x509.notBefore.unix * 1000000000
  notAfter := c.x509.notAfter.unix * 1000000000
  ips := c.ips
  asns := c.nums
  sia := c.sia.map fun s => (siaKind s.method, s.name)
  crlDPs := c.x509.extras.crlDPs
  isRSA := match c.x509.key with
    | .rsaPtr _ => true
    | _ => false
  pubKey := c.x509.key
  der := c.x509.raw

end Verif.X509
