import Verif.Model.Octets
import Verif.Model.Manager
import Verif.Spec.X509
import Verif.Lemmas.Cms
/-
  Specification for C116: what stands behind a line of the published list, in terms of the octets that were delivered.
-/
set_option autoImplicit false

namespace Verif.OctetSpec
open BerSpec CmsSpec X509 X509Spec Octets Manager Pki

/-- The seconds of a moment, in nanoseconds. -/
def nanos (t : Time.Stamp) : Int := t.unix * 10 ^ 9

/-- The access methods of RFC 6487 4.8.8.1 and RFC 8182 3.2: id-ad-rpkiManifest, id-ad-caRepository, id-ad-rpkiNotify
    (1.3.6.1.5.5.7.48 with 10, 5, 13 behind it). -/
def Access (method : Bytes) : SIAKind → Prop
  | .manifest => method = [0x2b, 6, 1, 5, 5, 7, 0x30, 10]
  | .caRepository => method = [0x2b, 6, 1, 5, 5, 7, 0x30, 5]
  | .rrdp => method = [0x2b, 6, 1, 5, 5, 7, 0x30, 13]
  | .other => method ∉ [[0x2b, 6, 1, 5, 5, 7, 0x30, 10], [0x2b, 6, 1, 5, 5, 7, 0x30, 5], [0x2b, 6, 1, 5, 5, 7, 0x30, 13]]

/-- The octets `d` are a certificate `x`, and `c` is what the validator has of it: each field is the one that the signed octets
    say, and the resources and access points are those of the extensions. -/
structure CertOctets (lib : Lib) (d : Bytes) (x : XCert) (c : Cert) : Prop where
  octets : LaxCert lib x d
  whole : c.der = d
  serial : c.serial = x.serial
  notBefore : c.notBefore = nanos x.notBefore
  notAfter : c.notAfter = nanos x.notAfter
  key : c.pubKey = x.key
  rsa : c.isRSA = true ↔ ∃ k, x.key = .rsaPtr k
  ski : Says x.exts (idCe 14) SubjectKeyDer [] c.ski
  aki : Says x.exts (idCe 35) AuthorityKeyDer [] c.aki
  crls : Says x.exts (idCe 31) PointsDer [] c.crlDPs
  ips : Says x.exts [0x2b, 6, 1, 5, 5, 7, 1, 7] (fun l v => Ext.decodeIPExt v = .ok l) [] c.ips
  asns : ∃ rdi, Says x.exts [0x2b, 6, 1, 5, 5, 7, 1, 8] (fun l v => Ext.decodeASExt v = .ok l) ([], []) (c.asns, rdi)
  sia : ∃ sia, Says x.exts [0x2b, 6, 1, 5, 5, 7, 1, 0x0b] (fun l v => Ext.decodeSIAExt v = .ok l) [] sia ∧
    List.Forall₂ (fun s t => Access s.method t.1 ∧ t.2 = s.name) sia c.sia

/-- The certificate `p` signed the certificate `c`: the signature is good with the key of `p`, `p` is an authority where it
    can say so, and its key usage, if there is one with a bit in it, allows signing certificates. -/
structure Signs (P : Prims) (p c : XCert) : Prop where
  signature : P.verify false c.sigAlg c.tbs c.signature p.key = true
  basic : p.version = 2 → ∃ e ∈ p.exts, e.id = idCe 19
  authority : ∀ e ∈ p.exts, e.id = idCe 19 → BasicDer true e.value
  usage : ∀ e ∈ p.exts, e.id = idCe 15 → ∃ u, KeyUsageDer u e.value ∧ (u = 0 ∨ u / 2 ^ 5 % 2 = 1)

/-- The moment lies in the validity period. -/
def InWindow (now : Int) (x : XCert) : Prop := nanos x.notBefore ≤ now ∧ now ≤ nanos x.notAfter

/-- The FileSeeker gave the octets as the contents of some file. -/
def Given (W : World) (data : Bytes) : Prop := ∃ n path f sha, W.getFile n path f = .found data sha

/-- The octets are a certificate that the FileSeeker gave, as a file or inside a signed object. -/
def GivenCert (W : World) (d : Bytes) : Prop :=
  Given W d ∨ ∃ data c, Given W data ∧ Cms.decodeCMS data = .ok c ∧ d = c.signedData.certificates.bytes

/-- The octets `d` are the certificate that the TAL file `f0` says where to find, and it has the key that the TAL says. -/
def AnchorOctets (P : Prims) (W : World) (f0 : PKIFile) (d : Bytes) : Prop :=
  ∃ n0 d0 s0 t n f s x k, W.getFile n0 f0.path f0 = .found d0 s0 ∧ Tal.decodeTAL Tal.derAsn d0 = .ok t ∧
    f.path = t.getRsyncURI P.sha1 ∧ W.getFile n f.path f = .found d s ∧ LaxCert P.lib x d ∧
    t.publicKey = .rsaPtr k ∧ x.key = .rsaPtr k

/-- Certificates as octets, all of them delivered, in their validity periods, each signed by the next one, which has
    the key id that the signed one names as its authority's, up to the certificate of the TAL. -/
inductive SignedPath (P : Prims) (now : Int) (W : World) (f0 : PKIFile) : Bytes → XCert → Prop where
  | anchor (d : Bytes) (x : XCert) (hx : LaxCert P.lib x d) (hg : GivenCert W d) (hw : InWindow now x)
      (ha : AnchorOctets P W f0 d) : SignedPath P now W f0 d x
  | step (d d' : Bytes) (x p : XCert) (k : Bytes) (hx : LaxCert P.lib x d) (hg : GivenCert W d) (hw : InWindow now x)
      (hk : Says x.exts (idCe 35) AuthorityKeyDer [] k) (hk' : Says p.exts (idCe 14) SubjectKeyDer [] k)
      (hs : Signs P p x) (h : SignedPath P now W f0 d' p) : SignedPath P now W f0 d x

/-- The signature of the signed object `c` binds `content` to the key: the signed attributes of the first signer carry the
    SHA-256 of the content, and the RSA operation with the key makes a block of its signature that holds the SHA-256 of these
    attributes. -/
def Binds (sha256 : Bytes → Bytes) (c : Cms.CMS) (key : Tal.PubKey) (content : Bytes) : Prop :=
  ∃ (si : Cms.SignerInfo) (more : List Cms.SignerInfo) (set block : Bytes) (k : Tal.RSAKey),
    c.signedData.signerInfos = si :: more ∧ CarriesDigest (si.signedAttrs.map Cms.Attribute.view) (sha256 content) ∧
    SignedAttrsDer (si.signedAttrs.map Cms.Attribute.view) set ∧ key = .rsaPtr k ∧
    RsaBlock k.n.toNat k.e.toNat si.signature block ∧ LenientBlock block (sha256 ((elem 0x30 set).drop 2))

/-- The octets in the content element of a signed object; several octet strings count as one. -/
def Carries (c : Cms.CMS) (content : Bytes) : Prop :=
  ∃ inner flag, Der.parseAny (Cms.orZero (Cms.parseEContent c.signedData.encapContentInfo.full)).bytes = .ok inner ∧
    Cms.badFormatGroup inner.1.bytes = .ok (content, flag)

/-- The octets `data` are a ROA with this number, these entries and the certificate `x`, and if `signed`, it is bound to the
    key of `x`. -/
def RoaOctets (P : Prims) (data : Bytes) (asn : Int) (entries : List Roa.ROAEntry) (d : Bytes) (x : XCert) (signed : Bool) : Prop :=
  ∃ c content rc, Cms.decodeCMS data = .ok c ∧ Carries c content ∧ Cms.unmarshalROA content = .ok rc ∧
    Roa.convertROAEntries rc = .ok (entries, asn) ∧ d = c.signedData.certificates.bytes ∧ LaxCert P.lib x d ∧
    (signed = true → Binds P.sha256 c x.key content)

/-- The octets `data` are a manifest with the certificate `x`, and if `signed`, it is bound to the key of `x`. The signature is
    over the content in DER. -/
def MftOctets (P : Prims) (data : Bytes) (mc : Cms.MftContent Time.Stamp) (d : Bytes) (x : XCert) (signed : Bool) : Prop :=
  ∃ c content der, Cms.decodeCMS data = .ok c ∧ Carries c content ∧ Cms.ber2derOrNil content = .ok der ∧
    Cms.unmarshalMft P.stamps der = .ok mc ∧ d = c.signedData.certificates.bytes ∧ LaxCert P.lib x d ∧
    (signed = true → Binds P.sha256 c x.key der)

end Verif.OctetSpec
