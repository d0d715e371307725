import Verif.Spec.Pki
/-
  Specification for C118: revocation lists in force, and chains without revoked certificates.
-/
set_option autoImplicit false

namespace Verif.RevokedSpec
open Pki PkiSpec

/-- The validator holds the list `l` as the valid list of its issuer. -/
def InForce (v : V) (l : CRL) : Prop :=
  ∃ j r, v.validCRL.get l.aki = some j ∧ v.heap[j]? = some r ∧ r.data = .crl l

/-- No list in force of its issuer has the serial number of the certificate. -/
def Unrevoked (v : V) (c : Cert) : Prop := ∀ l, InForce v l → l.aki = c.aki → c.serial ∉ l.revoked

/-- After the certificate another one was stored with the same authority key id and serial number, in the form in which the code
    keeps them: the octets of the one followed by the other in decimal. (Objects are numbered in the order in which they are added.) -/
def Shadowed (v : V) (c : Cert) : Prop :=
  ∃ i j c', v.objects.get c.ski = some i ∧ v.objects.get c'.ski = some j ∧ i < j ∧ v.certOf j = some c' ∧
    c'.aki ++ dec c'.serial = c.aki ++ dec c.serial

/-- No list in force of its issuer has the serial number of the certificate, unless the certificate is shadowed. -/
def Cleared (v : V) (c : Cert) : Prop := ∀ l, InForce v l → l.aki = c.aki → c.serial ∈ l.revoked → Shadowed v c

/-- No two stored certificates have the same authority key id and serial number, in the form in which the code keeps them:
    the octets of the one followed by the other in decimal. -/
def SerialsApart (v : V) : Prop :=
  ∀ k1 c1 k2 c2, Stored v k1 c1 → Stored v k2 c2 → c1.aki ++ dec c1.serial = c2.aki ++ dec c2.serial → k1 = k2

/-- From the certificate up to one that satisfies `A`: all of them valid and in their validity windows, each signed by the next,
    which has the key id that the signed one names, and each of the signed ones with the property `U`. -/
inductive ClearPath (env : Env) (A U : Cert → Prop) (v : V) : Cert → Prop where
  | anchor (c : Cert) (hv : IsValid v c.ski c) (ht : c.notBefore ≤ env.now ∧ env.now ≤ c.notAfter) (ha : A c) : ClearPath env A U v c
  | step (c p : Cert) (hv : IsValid v c.ski c) (ht : c.notBefore ≤ env.now ∧ env.now ≤ c.notAfter) (hk : c.aki = p.ski)
      (hs : env.checkSig c p = true) (hu : U c) (h : ClearPath env A U v p) : ClearPath env A U v c

end Verif.RevokedSpec
