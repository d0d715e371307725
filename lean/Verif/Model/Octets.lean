import Verif.Model.X509
import Verif.Model.Spki
import Verif.Model.Crl
import Verif.Model.CmsEncode
/-
  The validator on octets: the decoders that `AddResource` (validator/pki/pki.go:267-365) calls and the two signature
  checks, put together from the models of the single formats.  What is left as a parameter are the digests, the check of
  a signature with a given key, and the texts of names.
-/
set_option autoImplicit false

namespace Verif.Octets
open Der Cms Crl

/-- The parts of the libraries that are not modelled: SHA-1, SHA-256, `checkSignature` of crypto/x509 (whether SHA-1 is
    allowed; algorithm and parameters, signed octets, signature, key), the parts of crypto/x509 that Model/X509 leaves out,
    strings of encoding/asn1, and the issuer's name of a CRL. -/
structure Prims where
  sha1 : Bytes → Bytes
  sha256 : Bytes → Bytes
  verify : Bool → Bytes × Bytes → Bytes → Bytes → Tal.PubKey → Bool
  lib : X509.Lib
  utf8 : Bytes → Go Bytes
  bmp : Bytes → Go Bytes
  crlName : Bytes → Go Unit

/-- Times of encoding/asn1, as Model/Time reads them. -/
def Prims.stamps (P : Prims) : MftEnv Time.Stamp := ⟨Time.readTime, P.utf8, P.bmp⟩
/-- The same for CRLs. -/
def Prims.civils (P : Prims) : MftEnv Civil := ⟨Time.readCivil, P.utf8, P.bmp⟩

/-- cms.go:423: the time in a signing-time attribute. -/
def Prims.timeOf (P : Prims) (b : Bytes) : Go Time.Stamp := do
  let r ← parseTimeField P.stamps b
  return r.1

/-- pki.go:295 `DecodeCertificate` (cert.go:889-923). -/
def certFrom (P : Prims) (data : Bytes) : Go Pki.Cert := do
  let c ← X509.decodeCertificate P.lib data
  return X509.toPki c

/-- cms.go:410-416 `GetRPKICertificate`: the certificate inside a signed object. -/
def eeOf (P : Prims) (c : CMS) : Go (Ext.RCert X509.XCert) := X509.decodeCertificate P.lib c.signedData.certificates.bytes

/-- pki.go:323, roa.go:258-320 `DecodeROA` up to the certificate and the check of the signature. -/
def roaFrom (P : Prims) (strict : Bool) (data : Bytes) : Go (Roa.ROAContent × Pki.Cert × Bool) := do
  let c ← decodeCMS data
  strictCheck strict c
  let inner ← parseAny (orZero (parseEContent c.signedData.encapContentInfo.full)).bytes
  let fb ← badFormatGroup inner.1.bytes
  let content ← unmarshalROA fb.1
  let _ ← Roa.convertROAEntries content
  let _ ← dropErr (c.getSigningTime P.timeOf)
  let cert ← eeOf P c
  let valid ← caught (c.validate P.sha256 fb.1 cert.x509.key)
  return (content, X509.toPki cert, valid)

/-- pki.go:336, manifest.go:71-130 `DecodeManifest`; manifest.go:20-22 `GetHash`. Times in nanoseconds. -/
def mftFrom (P : Prims) (strict : Bool) (data : Bytes) : Go Pki.Mft := do
  let c ← decodeCMS data
  strictCheck strict c
  let ec ← parseEContent c.signedData.encapContentInfo.full
  let inner ← parseAny ec.bytes
  let fb ← badFormatGroup inner.1.bytes
  let der ← ber2derOrNil fb.1
  let content ← unmarshalMft P.stamps der
  let cert ← eeOf P c
  let valid ← caught (c.validate P.sha256 der cert.x509.key)
  return ⟨X509.toPki cert, content.thisUpdate.unix * 1000000000, content.nextUpdate.unix * 1000000000,
    content.files.map (fun f => (f.name, f.hash.bytes)), valid⟩

/-- cert.go:550-560: `CheckSignatureFrom`. The two certificates were parsed from the octets `der`, and what the check
    looks at is a function of these octets. -/
def signedFrom (P : Prims) (child parent : Pki.Cert) : Bool :=
  match X509.parseCertificate P.lib child.der, X509.parseCertificate P.lib parent.der with
  | .ok c, .ok p => X509.checkFrom (P.verify false) c p
  | _, _ => false

/-- pki.go:666: `CheckCRLSignature`, which checks with the key of the certificate and allows SHA-1. -/
def crlSignedBy (P : Prims) (parent : Pki.Cert) (l : Pki.CRL) : Bool :=
  match parseDERCRL ⟨P.civils, P.crlName⟩ l.der with
  | .ok x => crlSigOk (fun oid text sig => P.verify true (oid, x.alg.2.full) text sig parent.pubKey) x
  | _ => false

/-- What the validator works with, on octets. `strict` is `DecoderConfig.ValidateStrict` (roa.go:244-252). -/
def octetEnv (P : Prims) (strict : Bool) (now : Int) : Pki.Env where
  now := now
  checkSig := signedFrom P
  checkCRLSig := crlSignedBy P
  asn := Tal.derAsn
  sha1 := P.sha1
  parseCert := certFrom P
  parseROA := roaFrom P strict
  parseMft := mftFrom P strict
  parseCRL := decodeCRL ⟨P.civils, P.crlName⟩

/-- The same parameters for the decoders of signed objects (roa.go, manifest.go) by themselves. -/
def cmsEnv (P : Prims) : Cms.Env Time.Stamp (MftContent Time.Stamp) where
  sha256 := P.sha256
  decodeCert := fun b => do
    let r ← X509.decodeCertificate P.lib b
    return ⟨r.x509.key, r.ips⟩
  parseTime := P.timeOf
  unmarshalManifest := unmarshalMft P.stamps

end Verif.Octets
