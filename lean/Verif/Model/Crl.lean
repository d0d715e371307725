import Verif.Model.CmsEncode
import Verif.Model.Pki
/-
  Revocation lists as octets: `CreateCRL` (validator/lib/crl.go) and what the validator reads with
  `x509.ParseDERCRL` (validator/pki/pki.go:354), that is `asn1.Unmarshal` into a `pkix.CertificateList` of the
  standard library (Go 1.19; line numbers "asn1.go" and "marshal.go" as in Model/Der.lean).
-/
set_option autoImplicit false

namespace Verif.Crl
open Der Cms

/-- A `time.Time` in UTC by its fields. -/
structure Civil where
  year : Int
  month : Nat
  day : Nat
  hour : Nat
  minute : Nat
  second : Nat
  nsec : Nat
  deriving Repr, DecidableEq

/-- The zero `time.Time`. -/
def Civil.zero : Civil := ⟨1, 1, 1, 0, 0, 0, 0⟩

/-- `byte('0' + n)` for a digit. -/
def digit (n : Nat) : UInt8 := (48 + n % 10).toUInt8
/-- marshal.go:309-311 `appendTwoDigits`. -/
def two (n : Nat) : Bytes := [digit (n / 10), digit n]
/-- marshal.go:313-320 `appendFourDigits`. -/
def four (n : Nat) : Bytes := [digit (n / 1000), digit (n / 100), digit (n / 10), digit n]

/-- marshal.go:375-408 `appendTimeCommon`, for a time in UTC. -/
def timeCommon (t : Civil) : Bytes := two t.month ++ two t.day ++ two t.hour ++ two t.minute ++ two t.second ++ [0x5a]

/-- marshal.go:322-325, 349-373, 597-600: a field of type `time.Time`, written as UTCTime from 1950 to 2049 and as
    GeneralizedTime otherwise. -/
def marshalTime (t : Civil) : Go Bytes :=
  if 1950 ≤ t.year ∧ t.year < 2000 then .ok (tlv 0x17 (two (t.year - 1900).toNat ++ timeCommon t))
  else if 2000 ≤ t.year ∧ t.year < 2050 then .ok (tlv 0x17 (two (t.year - 2000).toNat ++ timeCommon t))
  else if t.year < 0 ∨ t.year > 9999 then .err "cannot represent time as GeneralizedTime"
  else .ok (tlv 0x18 (four t.year.toNat ++ timeCommon t))

/-- marshal.go:564-571: an optional time is left out when it is the zero time. -/
def marshalOptTime (t : Civil) : Go Bytes := if t = .zero then .ok [] else marshalTime t

/-- `pkix.Extension`; the object identifier as contents octets. -/
structure Ext where
  id : Bytes
  critical : Bool
  value : Bytes
  deriving Repr, DecidableEq

/-- `pkix.RevokedCertificate`. A nil serial number and a nil list of extensions are `none`. -/
structure Revoked where
  serial : Option Int
  time : Civil
  exts : Option (List Ext)
  deriving Repr, DecidableEq

/-- `asn1.Marshal` of a `pkix.Extension` (`Critical` is optional). -/
def marshalExt (e : Ext) : Bytes :=
  tlv 0x30 (tlv 0x06 e.id ++ (if e.critical then tlv 0x01 [0xff] else []) ++ tlv 0x04 e.value)

/-- An optional list of extensions: left out only when it is nil (marshal.go:564-571). -/
def marshalOptExts : Option (List Ext) → Bytes
  | none => []
  | some l => tlv 0x30 (l.map marshalExt).flatten

/-- `asn1.Marshal` of a `pkix.RevokedCertificate`. -/
def marshalRevoked (r : Revoked) : Go Bytes := do
  match r.serial with
  | none => .err "empty integer"
  | some n => do
    let t ← marshalTime r.time
    return tlv 0x30 (tlv 0x02 (bigIntOctets n) ++ t ++ marshalOptExts r.exts)

/-- The revoked certificates one after the other. -/
def marshalRevokeds : List Revoked → Go Bytes
  | [] => .ok []
  | r :: rs => do
    let a ← marshalRevoked r
    let b ← marshalRevokeds rs
    return a ++ b

/-- crl.go:15 `OidSignatureSHA256WithRSA` = 1.2.840.113549.1.1.11, as contents octets. -/
def sha256WithRSAOID : Bytes := [0x2a, 0x86, 0x48, 0x86, 0xf7, 0x0d, 0x01, 0x01, 0x0b]
/-- crl.go:16 `OidSerialNumber` = 2.5.29.20, as contents octets. -/
def crlNumberOID : Bytes := [0x55, 0x1d, 0x14]
/-- cert.go `AuthorityKeyIdentifier` = 2.5.29.35, as contents octets. -/
def akiOID : Bytes := [0x55, 0x1d, 0x23]

/-- crl.go:31-34: the algorithm identifier. -/
def signatureAlgorithm : Bytes := tlv 0x30 (tlv 0x06 sha256WithRSAOID ++ [0x05, 0x00])

/-- crl.go:19-21, 53-61: the authority key identifier extension, only if the issuer's key identifier is not empty. -/
def akiExt (ski : Bytes) : List Ext :=
  if ski.length > 0 then [⟨akiOID, false, tlv 0x30 (tlv 0x80 ski)⟩] else []

/-- crl.go:63-70: the CRL number extension; a nil number is an error. -/
def numberExt : Option Int → Go Ext
  | none => .err "empty integer"
  | some n => .ok ⟨crlNumberOID, false, tlv 0x02 (bigIntOctets n)⟩

/-- crl.go:43-75: `asn1.Marshal(tbsCertList)`. `issuer` is `asn1.Marshal(c.Subject.ToRDNSequence())`, the contents
    octets. The list of revoked certificates comes from `make` and is never nil, so it is written even if it is empty. -/
def marshalTBS (ski : Bytes) (issuer : Go Bytes) (revoked : List Revoked) (now expiry : Civil) (sn : Option Int) : Go Bytes := do
  let number ← numberExt sn
  let name ← issuer
  let t ← marshalTime now
  let u ← marshalOptTime expiry
  let rs ← marshalRevokeds revoked
  return tlv 0x30 (tlv 0x02 [1] ++ signatureAlgorithm ++ tlv 0x30 name ++ t ++ u ++ tlv 0x30 rs ++
    tlv 0xa0 (tlv 0x30 ((akiExt ski ++ [number]).map marshalExt).flatten))

/-- crl.go:24-92 `CreateCRL`. `signer` is the private key: `none` if it is not a `crypto.Signer`, otherwise its `Sign` of a
    digest. Times are already in UTC (36-41, 48-49). -/
def createCRL (sha256 : Bytes → Bytes) (signer : Option (Bytes → Go Bytes)) (ski : Bytes) (issuer : Go Bytes)
    (revoked : List Revoked) (now expiry : Civil) (sn : Option Int) : Go Bytes :=
  match signer with
  | none => .err "x509: certificate private key does not implement crypto.Signer"
  | some sign => do
    let tbs ← marshalTBS ski issuer revoked now expiry sn
    let sig ← sign (sha256 tbs)
    return tlv 0x30 (tbs ++ signatureAlgorithm ++ tlv 0x03 (bitStringOctets ⟨sig, sig.length * 8⟩))

/-! ### Reading -/

/-- The parts that are not modelled: times (the flag says GeneralizedTime), and whether octets are the contents of
    an RDNSequence. -/
structure Env where
  mft : MftEnv Civil
  name : Bytes → Go Unit

/-- asn1.go:765-945 `parseField` up to the contents octets, for an optional field of a type with the given universal tag. -/
def parseOptUni (tag : Nat) (compound : Bool) (bs : Bytes) : Go (Option Bytes × Bytes) :=
  if bs = [] then .ok (none, bs)
  else do
    let h ← parseHeader bs
    if h.1.cls ≠ 0 ∨ h.1.tag ≠ tag ∨ h.1.compound ≠ compound then .ok (none, bs)
    else if h.1.length > h.2.length then .err "data truncated"
    else return (some (h.2.take h.1.length), h.2.drop h.1.length)

/-- asn1.go:83-102 `parseBool`. -/
def parseBool : Bytes → Go Bool
  | [0] => .ok false
  | [0xff] => .ok true
  | _ => .err "invalid boolean"

/-- An optional boolean: absent is false. -/
def optBool : Option Bytes → Go Bool
  | none => .ok false
  | some v => parseBool v

/-- A `pkix.Extension`. -/
def parseExt (bs : Bytes) : Go (Ext × Bytes) := do
  let s ← parseTyped 16 true bs
  let i ← parseOID s.1
  let c ← parseOptUni 1 false i.2
  let b ← optBool c.1
  let v ← parseOctets c.2
  return (⟨i.1, b, v.1⟩, s.2)

/-- An optional list of extensions. -/
def parseOptExts (bs : Bytes) : Go (Option (List Ext) × Bytes) := do
  let s ← parseOptUni 16 true bs
  match s.1 with
  | none => .ok (none, s.2)
  | some c => do
    let l ← parseAll parseExt c
    return (some l, s.2)

/-- A `pkix.RevokedCertificate`. -/
def parseRevoked (env : Env) (bs : Bytes) : Go (Revoked × Bytes) := do
  let s ← parseTyped 16 true bs
  let n ← parseBigInt s.1
  let t ← parseTimeField env.mft n.2
  let e ← parseOptExts t.2
  return (⟨some n.1, t.1, e.1⟩, s.2)

/-- A `pkix.AlgorithmIdentifier`: object identifier and parameters. -/
def parseAlg (bs : Bytes) : Go ((Bytes × Elem) × Bytes) := do
  let s ← parseTyped 16 true bs
  let i ← parseOID s.1
  if i.2 = [] then return ((i.1, .zero), s.2)
  else do
    let p ← parseAny i.2
    return ((i.1, p.1), s.2)

/-- An `int` with `optional,default:0`. -/
def parseVersion (bs : Bytes) : Go (Int × Bytes) := do
  let v ← parseOptUni 2 false bs
  match v.1 with
  | none => .ok (0, v.2)
  | some c => if intOk c then .ok (intVal c, v.2) else .err "integer not minimally-encoded or too large"

/-- A `time.Time` with `optional`: absent is the zero time. -/
def parseOptTime (env : Env) (bs : Bytes) : Go (Civil × Bytes) :=
  if bs = [] then .ok (.zero, bs)
  else do
    let h ← parseHeader bs
    if h.1.cls ≠ 0 ∨ (h.1.tag ≠ 23 ∧ h.1.tag ≠ 24) ∨ h.1.compound = true then .ok (.zero, bs)
    else if h.1.length > h.2.length then .err "data truncated"
    else do
      let t ← env.mft.time (decide (h.1.tag = 24)) (h.2.take h.1.length)
      return (t, h.2.drop h.1.length)

/-- The list of revoked certificates, `optional`. -/
def parseRevokeds (env : Env) (bs : Bytes) : Go (Option (List Revoked) × Bytes) := do
  let s ← parseOptUni 16 true bs
  match s.1 with
  | none => .ok (none, s.2)
  | some c => do
    let l ← parseAll (parseRevoked env) c
    return (some l, s.2)

/-- The extensions of the list, `tag:0,optional,explicit` (asn1.go:834-868): if the tag or the type inside does not match
    they count as absent. -/
def parseCRLExts (bs : Bytes) : Go (Option (List Ext)) :=
  if bs = [] then .ok none
  else do
    let x ← parseExplicit 0 bs
    match x with
    | none => .ok none
    | some inner => do
      let h ← parseHeader inner
      if h.1.cls ≠ 0 ∨ h.1.tag ≠ 16 ∨ h.1.compound ≠ true then .ok none
      else if h.1.length > h.2.length then .err "data truncated"
      else do
        let l ← parseAll parseExt (h.2.take h.1.length)
        return some l

/-- `pkix.TBSCertificateList`. -/
structure TBS where
  raw : Bytes
  version : Int
  alg : Bytes × Elem
  issuer : Bytes
  thisUpdate : Civil
  nextUpdate : Civil
  revoked : Option (List Revoked)
  exts : Option (List Ext)
  deriving Repr, DecidableEq

/-- `pkix.CertificateList`. -/
structure CertList where
  tbs : TBS
  alg : Bytes × Elem
  sig : Cert.BitString
  deriving Repr, DecidableEq

/-- A `pkix.TBSCertificateList`; `Raw` are the octets of the whole element (asn1.go:1029-1033). -/
def parseTBS (env : Env) (bs : Bytes) : Go (TBS × Bytes) := do
  let s ← parseTyped 16 true bs
  let v ← parseVersion s.1
  let a ← parseAlg v.2
  let n ← parseTyped 16 true a.2
  let _ ← env.name n.1
  let t ← parseTimeField env.mft n.2
  let u ← parseOptTime env t.2
  let r ← parseRevokeds env u.2
  let e ← parseCRLExts r.2
  return (⟨bs.take (bs.length - s.2.length), v.1, a.1, n.1, t.1, u.1, r.1, e⟩, s.2)

/-- pki.go:354: `x509.ParseDERCRL`. -/
def parseDERCRL (env : Env) (bs : Bytes) : Go CertList := do
  let s ← parseTyped 16 true bs
  let t ← parseTBS env s.1
  let a ← parseAlg t.2
  let b ← parseTyped 3 false a.2
  let g ← bitStringOf b.1
  if s.2 ≠ [] then .err "x509: trailing data after CRL" else return ⟨t.1, a.1, g⟩

/-- asn1.go `RightAlign`: every octet takes the low bits of the one before it. -/
def shiftRight (s : UInt8) : UInt8 → Bytes → Bytes
  | _, [] => []
  | prev, b :: bs => ((prev <<< (8 - s)) ||| (b >>> s)) :: shiftRight s b bs

/-- `asn1.BitString.RightAlign`. -/
def rightAlign (b : Cert.BitString) : Bytes :=
  if b.bitLength % 8 = 0 ∨ b.bytes = [] then b.bytes else shiftRight (8 - b.bitLength % 8).toUInt8 0 b.bytes

/-- `CheckCRLSignature`: the check of the signature over the octets `Raw`, given the check of the standard library for an
    algorithm (object identifier), a text and a signature. -/
def crlSigOk (verify : Bytes → Bytes → Bytes → Bool) (l : CertList) : Bool := verify l.alg.1 l.tbs.raw (rightAlign l.sig)

/-- The list as `AddCRL` sees it (pki.go:637-644, 671): extensions and serial numbers. A list that was read has no nil
    serial numbers. -/
def CertList.toPki (l : CertList) (der : Bytes) : Pki.CRL :=
  ⟨(l.tbs.exts.getD []).map (fun e => (decide (e.id = akiOID), e.value)),
   (l.tbs.revoked.getD []).filterMap (·.serial), der⟩

/-- pki.go:354-357: the decoder of the validator. -/
def decodeCRL (env : Env) (bs : Bytes) : Go Pki.CRL := do
  let l ← parseDERCRL env bs
  return l.toPki bs

end Verif.Crl
