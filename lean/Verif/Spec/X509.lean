import Verif.Model.X509
import Verif.Spec.Ext
import Verif.Spec.Time
import Verif.Spec.Spki
import Mathlib.Data.List.Forall2
/-
  Independent specification of certificates as octets: RFC 5280 4.1 and 4.2, X.690 (DER).  `LaxCert` is what the
  parser takes; `Profile` is the form that RFC 5280 and RFC 6487 ask for.
-/
set_option autoImplicit false

namespace Verif.X509Spec
open BerSpec CmsSpec X509

/-- X.690 8.1, 10.1: an element with a one-octet identifier, shorter than 4 GiB. -/
def Tlv (tag : UInt8) (content out : Bytes) : Prop :=
  tag.toNat % 32 ≠ 31 ∧ out = elem tag content ∧ out.length < 2 ^ 32

/-- An optional element at the front of `s`, and what follows it. -/
def Opt (tag : UInt8) (content : Option Bytes) (s rest : Bytes) : Prop :=
  match content with
  | none => s.head? ≠ some tag ∧ rest = s
  | some c => ∃ e, Tlv tag c e ∧ s = e ++ rest

/-- The number that the octets of an arc stand for: base 128. -/
def arcValue (c : Bytes) : Nat := c.foldl (fun a b => a * 128 + b.toNat % 128) 0

/-- X.690 8.19: the contents octets of an object identifier with arcs below 2^31. -/
def OidOctets (c : Bytes) : Prop :=
  c ≠ [] ∧ ∃ arcs : List Bytes, (∀ a ∈ arcs, ExtSpec.ArcOctets a ∧ arcValue a < 2 ^ 31) ∧ c = arcs.flatten

/-- An object identifier. -/
def Oid (c out : Bytes) : Prop := OidOctets c ∧ Tlv 0x06 c out

/-- An integer. -/
def Integer (i : Int) (out : Bytes) : Prop := ∃ c, IntContent i c ∧ Tlv 0x02 c out

/-- An integer of at most 64 bits. -/
def Int64 (i : Int) (out : Bytes) : Prop := Integer i out ∧ -2 ^ 63 ≤ i ∧ i < 2 ^ 63

/-- X.690 8.2, 11.1 -/
def Boolean (b : Bool) (out : Bytes) : Prop := Tlv 0x01 [if b then 0xff else 0x00] out

/-- X.690 8.6, 11.2: a bit string: octets, and the number of unused bits at their end, which are zero. -/
def Bits (bytes : Bytes) (unused : Nat) (out : Bytes) : Prop :=
  unused ≤ 7 ∧ (bytes = [] → unused = 0) ∧ beVal bytes % 2 ^ unused = 0 ∧ Tlv 0x03 (unused.toUInt8 :: bytes) out

/-- The octets shifted to the right by a number of bits: as many octets, the quotient as number. -/
def Shifted (bytes : Bytes) (by_ : Nat) (out : Bytes) : Prop :=
  out.length = bytes.length ∧ beVal out = beVal bytes / 2 ^ by_

/-- A bit string read as octets, aligned to the right. -/
def BitsAligned (octets out : Bytes) : Prop := ∃ bytes unused, Bits bytes unused out ∧ Shifted bytes unused octets

/-! ### Names, dates, keys -/

/-- X.680: a character string and its text. -/
def StringText (lib : Lib) (tag : UInt8) (v text : Bytes) : Prop :=
  (tag = 0x14 ∧ text = v) ∨
  (tag = 0x13 ∧ text = v ∧ ∀ b ∈ v, Cms.isPrintable b = true) ∨
  (tag = 0x0c ∧ text = v ∧ lib.utf8 v = true) ∨
  (tag = 0x1e ∧ v.length % 2 = 0 ∧
    ((∃ w, v = w ++ [0, 0] ∧ text = lib.utf16 w) ∨ ((¬ ∃ w, v = w ++ [0, 0]) ∧ text = lib.utf16 v))) ∨
  (tag = 0x16 ∧ text = v ∧ ∀ b ∈ v, b < 0x80) ∨
  (tag = 0x12 ∧ text = v ∧ ∀ b ∈ v, Cms.isNumeric b = true)

/-- RFC 5280 4.1.2.4: AttributeTypeAndValue ::= SEQUENCE { type, value }, with anything behind them. -/
def AttrDer (lib : Lib) (a : X509.Attr) (out : Bytes) : Prop :=
  ∃ o tag v e junk, Oid a.type o ∧ Tlv tag v e ∧ StringText lib tag v a.text ∧ Tlv 0x30 (o ++ e ++ junk) out

/-- RelativeDistinguishedName ::= SET OF AttributeTypeAndValue -/
def RdnDer (lib : Lib) (l : List X509.Attr) (out : Bytes) : Prop :=
  ∃ encs, List.Forall₂ (AttrDer lib) l encs ∧ Tlv 0x31 encs.flatten out

/-- Name ::= SEQUENCE OF RelativeDistinguishedName -/
def NameDer (lib : Lib) (l : List (List X509.Attr)) (out : Bytes) : Prop :=
  ∃ encs, List.Forall₂ (RdnDer lib) l encs ∧ Tlv 0x30 encs.flatten out

/-- A UTCTime or GeneralizedTime: the text of a date and time with a zone. UTCTime has two digits of the year, which are
    those of a year from 1950 to 2049, and may leave out the seconds. -/
def TimeDer (t : Time.Stamp) (out : Bytes) : Prop :=
  ∃ (m : CrlSpec.Moment) (z : Time.Zone) (s : Bytes), m.Valid ∧ z.Valid ∧ t = ⟨Time.seconds m - z.offset, z.offset⟩ ∧
    ((1950 ≤ m.year ∧ m.year ≤ 2049 ∧ (s = Time.utcForm m z ∨ (m.second = 0 ∧ s = Time.utcShortForm m z)) ∧ Tlv 0x17 s out) ∨
     (s = Time.generalizedForm m z ∧ Tlv 0x18 s out))

/-- Validity ::= SEQUENCE { notBefore, notAfter }, with anything behind them. -/
def ValidityDer (a b : Time.Stamp) (out : Bytes) : Prop :=
  ∃ x y junk, TimeDer a x ∧ TimeDer b y ∧ Tlv 0x30 (x ++ y ++ junk) out

/-- The contents of an AlgorithmIdentifier: object identifier and parameters (an element, or nothing), with anything
    behind the parameters. -/
def AlgContent (oid params content : Bytes) : Prop :=
  ∃ o, Oid oid o ∧ ((params = [] ∧ content = o) ∨ ∃ tag c junk, Tlv tag c params ∧ content = o ++ params ++ junk)

/-- RFC 3279 2.3.1: the key in the bit string, with anything behind the numbers and behind the structure. -/
def RsaKeyOctets (k : Tal.RSAKey) (octets : Bytes) : Prop :=
  ∃ n e s more junk, Integer k.n n ∧ 0 < k.n ∧ Int64 k.e e ∧ 0 < k.e ∧ Tlv 0x30 (n ++ e ++ more) s ∧ octets = s ++ junk

/-- SubjectPublicKeyInfo ::= SEQUENCE { algorithm, subjectPublicKey }, with anything behind them. -/
def SpkiOctets (lib : Lib) (key : Tal.PubKey) (out : Bytes) : Prop :=
  ∃ oid params alg a b junk, AlgContent oid params alg ∧ Tlv 0x30 alg a ∧ Tlv 0x30 (a ++ b ++ junk) out ∧
    ((oid = SpkiSpec.rsaEncryption ∧ params = [0x05, 0x00] ∧ ∃ k octets, BitsAligned octets b ∧ RsaKeyOctets k octets ∧ key = .rsaPtr k) ∨
     (oid ≠ SpkiSpec.rsaEncryption ∧ key = .other ∧ ∃ bytes unused, Bits bytes unused b ∧
        lib.otherKey oid params ⟨bytes, 8 * bytes.length - unused⟩ = .ok ()))

/-! ### Extensions -/

/-- Extension ::= SEQUENCE { extnID, critical BOOLEAN DEFAULT FALSE, extnValue OCTET STRING }, with anything behind them. -/
def ExtOctets (e : Ext.Extension) (out : Bytes) : Prop :=
  ∃ o c v junk, Oid e.id o ∧ ((e.critical = false ∧ c = []) ∨ Boolean e.critical c) ∧ Tlv 0x04 e.value v ∧
    Tlv 0x30 (o ++ c ++ v ++ junk) out

/-- RFC 5280 4.2.1.2: the key identifier, with anything behind it. -/
def SubjectKeyDer (ski v : Bytes) : Prop := ∃ e junk, Tlv 0x04 ski e ∧ v = e ++ junk

/-- RFC 5280 4.2.1.1: the key identifier, empty if there is none, with anything behind it and behind the structure. -/
def AuthorityKeyDer (aki v : Bytes) : Prop :=
  ∃ c e junk, Tlv 0x30 c e ∧ v = e ++ junk ∧ ∃ k rest, Opt 0x80 k c rest ∧ aki = k.getD []

/-- RFC 5280 4.2.1.9: whether the subject is an authority. -/
def BasicDer (ca : Bool) (v : Bytes) : Prop :=
  ∃ c e junk a r, Tlv 0x30 c e ∧ v = e ++ junk ∧ c = a ++ r ∧
    ((ca = false ∧ a = [] ∧ r.head? ≠ some 0x01) ∨ Boolean ca a) ∧
    (r.head? ≠ some 0x02 ∨ ∃ i x more, Int64 i x ∧ r = x ++ more)

/-- RFC 5280 4.2.1.3: bit number i of the string is bit 2^i of the number. -/
def KeyUsageDer (u : Nat) (v : Bytes) : Prop :=
  ∃ bytes unused e junk, Bits bytes unused e ∧ v = e ++ junk ∧ u < 2 ^ 9 ∧
    ∀ i < 9, (u / 2 ^ i % 2 = 1 ↔ i < 8 * bytes.length ∧ beVal bytes / 2 ^ (8 * bytes.length - 1 - i) % 2 = 1)

/-- The addresses at the front: elements [6] as long as there are any. -/
def UriRun (l : List Bytes) (s : Bytes) : Prop :=
  ∃ encs rest, List.Forall₂ (Tlv 0x86) l encs ∧ s = encs.flatten ++ rest ∧ rest.head? ≠ some 0x86

/-- RFC 5280 4.2.1.13: a distribution point and the addresses in its full name. -/
def PointDer (l : List Bytes) (out : Bytes) : Prop :=
  ∃ c, Tlv 0x30 c out ∧ ∃ name rest, Opt 0xa0 name c rest ∧
    match name with
    | none => l = []
    | some n => ∃ f e junk, Tlv 0xa0 f e ∧ n = e ++ junk ∧ UriRun l f

/-- RFC 5280 4.2.1.13: the addresses of all distribution points. -/
def PointsDer (l : List Bytes) (v : Bytes) : Prop :=
  ∃ ls encs e junk, List.Forall₂ PointDer ls encs ∧ Tlv 0x30 encs.flatten e ∧ v = e ++ junk ∧ l = ls.flatten

/-- RFC 5280 4.2.1.4: a policy, with anything behind its identifier. -/
def PolicyOctets (p out : Bytes) : Prop := ∃ o junk, Oid p o ∧ Tlv 0x30 (o ++ junk) out

/-- RFC 5280 4.2.1.4 -/
def PoliciesDer (v : Bytes) : Prop :=
  ∃ l encs e junk, List.Forall₂ PolicyOctets l encs ∧ Tlv 0x30 encs.flatten e ∧ v = e ++ junk

/-- RFC 5280 4.2.2.1: an access description: method and, if it is of that kind, address. -/
def AiaDer (a : Bytes × Option Bytes) (out : Bytes) : Prop :=
  ∃ o r rest, Oid a.1 o ∧ Opt 0x86 a.2 r rest ∧ Tlv 0x30 (o ++ r) out

/-- RFC 5280 4.2.2.1 -/
def AuthorityInfoDer (v : Bytes) : Prop :=
  ∃ l encs e junk, List.Forall₂ AiaDer l encs ∧ Tlv 0x30 encs.flatten e ∧ v = e ++ junk

/-- Id-ce, 2.5.29, with one arc below 128 behind it. -/
def idCe (k : UInt8) : Bytes := [0x55, 0x1d, k]
/-- Id-pe-authorityInfoAccess, 1.3.6.1.5.5.7.1.1 -/
def idAia : Bytes := [0x2b, 0x06, 0x01, 0x05, 0x05, 0x07, 0x01, 0x01]

/-- The extension with an identifier, if there is one, says `x` in the sense of `P`; if there is none, `x` is `d`. -/
def Says {α : Type} (l : List Ext.Extension) (id : Bytes) (P : α → Bytes → Prop) (d x : α) : Prop :=
  (∀ e ∈ l, e.id = id → P x e.value) ∧ ((∀ e ∈ l, e.id ≠ id) → x = d)

/-- The extensions that are checked and not used. -/
def Sound (lib : Lib) (l : List Ext.Extension) : Prop :=
  ∀ e ∈ l, (e.id = idCe 32 → PoliciesDer e.value) ∧ (e.id = idAia → AuthorityInfoDer e.value) ∧
    (e.id = idCe 17 → lib.otherExt 17 e.value = .ok ()) ∧ (e.id = idCe 30 → lib.otherExt 30 e.value = .ok ()) ∧
    (e.id = idCe 37 → lib.otherExt 37 e.value = .ok ())

/-- What the extensions say. -/
def Meaning (lib : Lib) (l : List Ext.Extension) (x : Extras) : Prop :=
  Sound lib l ∧ Says l (idCe 15) KeyUsageDer 0 x.keyUsage ∧ Says l (idCe 19) BasicDer false x.isCA ∧
    (x.basic = true ↔ ∃ e ∈ l, e.id = idCe 19) ∧ Says l (idCe 31) PointsDer [] x.crlDPs ∧
    Says l (idCe 35) AuthorityKeyDer [] x.aki ∧ Says l (idCe 14) SubjectKeyDer [] x.ski

/-- [3] Extensions: each identifier at most once. -/
def ExtsOctets (l : List Ext.Extension) (c : Bytes) : Prop :=
  ∃ encs e junk, List.Forall₂ ExtOctets l encs ∧ Tlv 0x30 encs.flatten e ∧ c = e ++ junk ∧ (l.map (·.id)).Nodup

/-! ### Certificates -/

/-- Version ::= [0] INTEGER DEFAULT v1(0) -/
def VersionDer (v : Int) (out : Bytes) : Prop :=
  0 ≤ v ∧ v ≤ 2 ∧ ((v = 0 ∧ out = []) ∨ ∃ i, Int64 v i ∧ Tlv 0xa0 i out)

/-- What may follow the public key: in versions 2 and 3 the unique identifiers, in version 3 the extensions, and
    anything else. -/
def TailDer (lib : Lib) (v : Int) (l : List Ext.Extension) (x : Extras) (s : Bytes) : Prop :=
  (v = 0 ∧ l = [] ∧ x = Extras.zero) ∨
  (0 < v ∧ ∃ u w a b, Opt 0x81 u s a ∧ Opt 0x82 w a b ∧
    ((v ≠ 2 ∧ l = [] ∧ x = Extras.zero) ∨
     (v = 2 ∧ ∃ exts rest, Opt 0xa3 exts b rest ∧
       match exts with
       | none => l = [] ∧ x = Extras.zero
       | some c => ExtsOctets l c ∧ Meaning lib l x)))

/-- TBSCertificate and the signature's algorithm: the signed octets. -/
def TbsDer (lib : Lib) (c : XCert) (alg : Bytes) : Prop :=
  ∃ v s a i d n k rest, VersionDer c.version v ∧ Integer c.serial s ∧ AlgContent c.sigAlg.1 c.sigAlg.2 alg ∧ Tlv 0x30 alg a ∧
    NameDer lib c.issuer i ∧ ValidityDer c.notBefore c.notAfter d ∧ NameDer lib c.subject n ∧ SpkiOctets lib c.key k ∧
    TailDer lib c.version c.exts c.extras rest ∧ Tlv 0x30 (v ++ s ++ a ++ i ++ d ++ n ++ k ++ rest) c.tbs

/-- Certificate ::= SEQUENCE { tbsCertificate, signatureAlgorithm, signatureValue }, with anything behind them inside
    the structure: the octets that the parser takes for this certificate. -/
def LaxCert (lib : Lib) (c : XCert) (out : Bytes) : Prop :=
  ∃ alg a g junk, TbsDer lib c alg ∧ Tlv 0x30 alg a ∧ BitsAligned c.signature g ∧ Tlv 0x30 (c.tbs ++ a ++ g ++ junk) out ∧
    c.raw = out

/-! ### The form that RFC 6487 asks for -/

/-- What a resource certificate says (RFC 6487 4). `others` are the extensions for resources and access points. -/
structure Fields where
  serial : Int
  issuer : Bytes
  subject : Bytes
  notBefore : CrlSpec.Moment
  notAfter : CrlSpec.Moment
  key : Tal.RSAKey
  ca : Bool
  ski : Bytes
  aki : Option Bytes
  crl : Option Bytes
  issuerUri : Option Bytes
  others : List Ext.Extension
  signature : Bytes

/-- Id-at-commonName, 2.5.4.3 -/
def commonName : Bytes := [0x55, 0x04, 0x03]
/-- RFC 6487 4.4, 4.5: a name with one attribute, the common name, a PrintableString. -/
def nameForm (text : Bytes) : Bytes := elem 0x30 (elem 0x31 (elem 0x30 (elem 0x06 commonName ++ elem 0x13 text)))
/-- RFC 5280 4.1.2.5: UTCTime through 2049, GeneralizedTime from 2050 on, in UTC with seconds. -/
def timeForm (m : CrlSpec.Moment) : Bytes :=
  if m.year < 2050 then elem 0x17 (Time.utcForm m .utc) else elem 0x18 (Time.generalizedForm m .utc)
/-- RFC 7935 2: sha256WithRSAEncryption, 1.2.840.113549.1.1.11 -/
def sha256WithRSA : Bytes := [0x2a, 0x86, 0x48, 0x86, 0xf7, 0x0d, 0x01, 0x01, 0x0b]
/-- An algorithm with NULL parameters. -/
def algForm (oid : Bytes) : Bytes := elem 0x06 oid ++ [0x05, 0x00]
/-- RFC 3279 2.3.1: an RSA key, from the contents octets of its numbers. -/
def keyForm (n e : Bytes) : Bytes :=
  elem 0x30 (elem 0x30 (algForm SpkiSpec.rsaEncryption) ++ elem 0x03 (0 :: elem 0x30 (elem 0x02 n ++ elem 0x02 e)))
/-- RFC 5280 4.1: an extension; a criticality that is the default is left out. -/
def extForm (e : Ext.Extension) : Bytes :=
  elem 0x30 (elem 0x06 e.id ++ (if e.critical then elem 0x01 [0xff] else []) ++ elem 0x04 e.value)
/-- Id-cp-ipAddr-asNumber, 1.3.6.1.5.5.7.14.2 -/
def resourcePolicy : Bytes := [0x2b, 0x06, 0x01, 0x05, 0x05, 0x07, 0x0e, 0x02]
/-- Id-ad-caIssuers, 1.3.6.1.5.5.7.48.2 -/
def caIssuers : Bytes := [0x2b, 0x06, 0x01, 0x05, 0x05, 0x07, 0x30, 0x02]

/-- RFC 6487 4.8: the extensions. An authority has basic constraints and may sign certificates (bit 5) and lists (bit 6);
    any other key may be used for signatures (bit 0). -/
def Fields.exts (f : Fields) : List Ext.Extension :=
  (if f.ca then [⟨idCe 19, true, elem 0x30 (elem 0x01 [0xff])⟩] else []) ++
  [⟨idCe 14, false, elem 0x04 f.ski⟩] ++
  (f.aki.map fun k => ⟨idCe 35, false, elem 0x30 (elem 0x80 k)⟩).toList ++
  [⟨idCe 15, true, elem 0x03 (if f.ca then [1, 0x06] else [7, 0x80])⟩] ++
  (f.crl.map fun u => ⟨idCe 31, false, elem 0x30 (elem 0x30 (elem 0xa0 (elem 0xa0 (elem 0x86 u))))⟩).toList ++
  (f.issuerUri.map fun u => ⟨idAia, false, elem 0x30 (elem 0x30 (elem 0x06 caIssuers ++ elem 0x86 u))⟩).toList ++
  [⟨idCe 32, true, elem 0x30 (elem 0x30 (elem 0x06 resourcePolicy))⟩] ++ f.others

/-- The fields can be written: printable names, dates from 1950 to 9999, a key with positive numbers, the exponent of at
    most 63 bits, other extensions each at most once and with identifiers that are not used above. -/
def Fields.Valid (f : Fields) : Prop :=
  (∀ b ∈ f.issuer, Cms.isPrintable b = true) ∧ (∀ b ∈ f.subject, Cms.isPrintable b = true) ∧
  f.notBefore.Valid ∧ 1950 ≤ f.notBefore.year ∧ f.notAfter.Valid ∧ 1950 ≤ f.notAfter.year ∧
  0 < f.key.n ∧ 0 < f.key.e ∧ f.key.e < 2 ^ 63 ∧
  (∀ e ∈ f.others, OidOctets e.id ∧ e.id ∉ [idCe 14, idCe 15, idCe 17, idCe 19, idCe 30, idCe 31, idCe 32, idCe 35, idCe 37, idAia]) ∧
  (f.others.map (·.id)).Nodup

/-- RFC 6487 4: the certificate and its signed octets. -/
def Profile (f : Fields) (tbs out : Bytes) : Prop :=
  ∃ s n e, IntContent f.serial s ∧ IntContent f.key.n n ∧ IntContent f.key.e e ∧
    tbs = elem 0x30 (elem 0xa0 (elem 0x02 [2]) ++ elem 0x02 s ++ elem 0x30 (algForm sha256WithRSA) ++ nameForm f.issuer ++
      elem 0x30 (timeForm f.notBefore ++ timeForm f.notAfter) ++ nameForm f.subject ++ keyForm n e ++
      elem 0xa3 (elem 0x30 (f.exts.map extForm).flatten)) ∧
    out = elem 0x30 (tbs ++ elem 0x30 (algForm sha256WithRSA) ++ elem 0x03 (0 :: f.signature)) ∧ out.length < 2 ^ 32

end Verif.X509Spec
