import Verif.Spec.Octets
import Verif.Spec.Crash
import Verif.Spec.BerLax
/-
  Which octets end the process when the validator decodes them, or put something into it that ends the process later.
-/
set_option autoImplicit false

namespace Verif.CrashOctets
open Pki X509 X509Spec Octets OctetSpec BerLax CrashSpec

/-- A call that comes back, with a result or an error. -/
def Returns {α : Type} (g : Go α) : Prop := (∃ a, g = .ok a) ∨ ∃ m, g = .err m

/-- The parts of the libraries that are not modelled always come back. -/
structure Quiet (P : Prims) : Prop where
  key : ∀ o p b, Returns (P.lib.otherKey o p b)
  ext : ∀ k v, Returns (P.lib.otherExt k v)
  utf8 : ∀ b, Returns (P.utf8 b)
  bmp : ∀ b, Returns (P.bmp b)
  name : ∀ b, Returns (P.crlName b)

/-- The octets are the signed object `c`, and its content is that of a ROA. -/
def RoaText (data : Bytes) (c : Cms.CMS) : Prop :=
  Cms.decodeCMS data = .ok c ∧ ∃ content rc e, Carries c content ∧ Cms.unmarshalROA content = .ok rc ∧ Roa.convertROAEntries rc = .ok e

/-- The octets are the signed object `c`, and its content, brought into DER, is that of a manifest. -/
def MftText (P : Prims) (data : Bytes) (c : Cms.CMS) : Prop :=
  Cms.decodeCMS data = .ok c ∧ ∃ content der mc, Carries c content ∧ Cms.ber2derOrNil content = .ok der ∧
    Cms.unmarshalMft P.stamps der = .ok mc

/-- In strict mode the signed object must pass the strict check. -/
def Admitted (strict : Bool) (c : Cms.CMS) : Prop := strict = true → c.checkSignaturesMatch = .ok true

/-- The octets are a ROA without signer, or a manifest without signer but with a certificate. -/
def Signerless (P : Prims) (data : Bytes) : Prop :=
  ∃ c, c.signedData.signerInfos = [] ∧
    (RoaText data c ∨ MftText P data c ∧ ∃ x ee, CertOctets P.lib c.signedData.certificates.bytes x ee)

/-- The octets are a signed object whose content breaks off in the middle of an identifier, a length or a part. -/
def BrokenContent (strict : Bool) (data : Bytes) : Prop :=
  ∃ c content, Cms.decodeCMS data = .ok c ∧ Admitted strict c ∧ Carries c content ∧ content ≠ [] ∧ Breaks content

/-- The certificate in the octets, or in the ROA or manifest in the octets, has an address that is not of the form of its
    family: the code keeps a nil prefix for it. -/
def NilAddress (P : Prims) (strict : Bool) (data : Bytes) : Prop :=
  (∃ x c, CertOctets P.lib data x c ∧ ¬ NoNil c) ∨
  ∃ c x ee, Admitted strict c ∧ (RoaText data c ∨ MftText P data c) ∧ CertOctets P.lib c.signedData.certificates.bytes x ee ∧ ¬ NoNil ee

/-- The octets are dangerous. -/
def Dangerous (P : Prims) (strict : Bool) (data : Bytes) : Prop :=
  (strict = false ∧ Signerless P data) ∨ BrokenContent strict data ∨ NilAddress P strict data

end Verif.CrashOctets
