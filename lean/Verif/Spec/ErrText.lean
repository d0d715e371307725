import Verif.Model.ErrText
import Verif.Spec.Resources
/-
  Specification of the reports about rejected objects: which errors there are, when an error is justified, and which resources are
  outside of what the issuer holds.
-/
set_option autoImplicit false

namespace Verif.ErrTextSpec
open Net Cert Pki Manager ErrText ResSpec

/-- `e` is an error of the kind `k` about the certificate `c`, made by one of the functions of errors.go, with or without file
    information. -/
inductive Made : Kind → Pki.Cert → CertErr → Prop where
  | validity (c : Pki.Cert) (t : Bytes) : Made .expiration c (newValidity c t)
  | parent (c : Pki.Cert) (p : Option Pki.Cert) (t : Bytes) : Made .parent c (newParent c p t)
  | revocation (c : Pki.Cert) : Made .revocation c (newRevocation c)
  | resource (c : Pki.Cert) (ips : List IPInfo) (asns : List ASInfo) : Made .resource c (newResource c ips asns)
  | conflict (c : Pki.Cert) (o : Option Pki.Cert) : Made .conflict c (newConflict c o)
  | manifest (c : Pki.Cert) (t : Option Bytes) (m f : Option Nat) : Made .manifest c (newManifestRevocation c t m f)
  | crl (c : Pki.Cert) (t : Option Bytes) (m f : Option Nat) : Made .crl c (newCRLRevocation c t m f)
  | about (k : Kind) (c : Pki.Cert) (e : CertErr) (f : Nat) (s : Option Seek) (h : Made k c e) : Made k c { e with file := some f, seek := s }

/-- Resources as a certificate lists them: prefixes in network form and ranges, without IPv4-mapped addresses. -/
def Listed : IPInfo → Prop
  | .net (some n) => ProperNet n ∧ Canonical n ∧ ¬ Mapped n.ip
  | .net none => False
  | .range a b => (a.length = 4 ∨ a.length = 16) ∧ (b.length = 4 ∨ b.length = 16) ∧ ¬ Mapped a ∧ ¬ Mapped b
  | .null _ => True

/-- The issuer of a certificate, among the valid objects. -/
def Issuer (v : V) (c : Pki.Cert) (p : Nat) (pc : Pki.Cert) : Prop := v.validObjects.get c.aki = some p ∧ v.certOf p = some pc

/-- The entry `r` is outside of what the issuer holds: the issuer has an own list for it and the list does not cover it, or the issuer
    inherits, and the list of the issuer's own issuer does not cover it. (`verdict` is the comparison of an entry with the list of a
    certificate, see C05 to C07.) -/
def Outside {α : Type} (verdict : Pki.Cert → α → Go Verdict) (v : V) (p : Nat) (pc : Pki.Cert) (r : α) : Prop :=
  verdict pc r = .ok .invalid ∨
  (verdict pc r = .ok .checkParent ∧ v.parentOf p ≠ none ∧ ∃ g gc, Issuer v pc g gc ∧ verdict gc r = .ok .invalid)

/-- The error says the truth about the certificate. -/
def Justified (env : Env) (v : V) (c : Pki.Cert) (trust : Bool) (e : CertErr) : Prop :=
  match e.etype with
  | .conflict => ∃ o, v.objects.get c.ski = some o ∧ e.conflict = v.certOf o
  | .expiration => env.now < c.notBefore ∨ c.notAfter < env.now
  | .parent => trust = false ∧ ((¬ ∃ p pc, Issuer v c p pc) ∨ ∃ p pc, Issuer v c p pc ∧ e.parent = some pc ∧
      (env.checkSig c pc = false ∨ ¬ ∃ g gc, Issuer v pc g gc))
  | .revocation => trust = false ∧ v.revoked.get (serialKey c.aki c.serial) ≠ none
  | .resource => trust = false ∧ (e.ips ≠ [] ∨ e.asns ≠ []) ∧ ∃ p pc, Issuer v c p pc ∧
      (∀ r, r ∈ e.ips ↔ r ∈ c.ips ∧ Outside (fun g r => classifyIP g.ips r) v p pc r) ∧
      (∀ r, r ∈ e.asns ↔ r ∈ c.asns ∧ Outside (fun g r => .ok (classifyAS g.asns r)) v p pc r)
  | _ => False

/-- The kind of an error, as far as it has one. -/
def kindOfErr : Err → Option Kind
  | .cert e => some e.etype
  | .file e => some e.etype
  | .res r => some r.etype
  | .plain _ => none

/-- The certificate an error is about. -/
def certOfErr : Err → Option Pki.Cert
  | .cert e => e.cert
  | .file e => e.cert
  | .res r => match r.inner with | .cert e => e.cert | _ => none
  | .plain _ => none

/-- The repository a file belongs to: its own, else the one of the file that led to it. -/
def repoOf (files : List PKIFile) (f : PKIFile) : Option Bytes :=
  if f.repo ≠ [] then some f.repo
  else (f.parent.bind fun p => files[p]?).bind fun p => if p.repo ≠ [] then some p.repo else none

end Verif.ErrTextSpec
