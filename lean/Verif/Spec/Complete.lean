import Verif.Spec.Pki
/-
  Specification for C119: ROAs that are in order, and ROAs that the validator lists.
-/
set_option autoImplicit false

namespace Verif.CompleteSpec
open Pki PkiSpec

/-- The operation adds the ROA `r`. -/
def OffersROA (env : Env) (r : ROA) : Op → Prop
  | .addROA _ r' => r' = r
  | .addResource files fid data => (∃ f, files[fid]? = some f ∧ f.type = .roa) ∧ decodeROA env data = .ok r
  | _ => False

/-- The validator lists the ROA as valid. -/
def Listed (v : V) (r : ROA) : Prop := ∃ j res, v.validROA.get r.cert.ski = some j ∧ v.heap[j]? = some res ∧ res.data = .roa r

/-- The serial number of the certificate is in an accepted list of its issuer (in the form in which the code keeps them: the octets of
    the authority key id followed by the serial number in decimal). -/
def Withdrawn (env : Env) (ops : List Op) (c : Cert) : Prop :=
  ∃ aki s, RevokedIn env ops aki s ∧ aki ++ dec s = c.aki ++ dec c.serial

/-- The ROA is in order, apart from its issuer: the signatures of the container were found good, no entry has a wrong maximum length,
    and its certificate is in its validity window. -/
def InOrder (env : Env) (r : ROA) : Prop :=
  r.innerValid = true ∧ Roa.validateEntries r.entries = .ok () ∧ r.cert.notBefore ≤ env.now ∧ env.now ≤ r.cert.notAfter

/-- The certificate `p` issued `c`: its key made the signature, and it holds the resources by itself. -/
def Issued (env : Env) (p c : Cert) : Prop :=
  env.checkSig c p = true ∧ Cert.validateIPCertificateList c.ips p.ips = .ok ⟨c.ips, [], []⟩ ∧
    Cert.validateASNCertificateList c.asns p.asns = .ok ⟨c.asns, [], []⟩

/-- The operation adds the certificate `c`, not as a trust anchor. -/
def OffersCert (env : Env) (c : Cert) : Op → Prop
  | .addCert c' trust => c' = c ∧ trust = false
  | .addResource files fid data => (∃ f, files[fid]? = some f ∧ f.type = .cer ∧ f.trust = false ∧
      ∀ q pf, f.parent = some q → files[q]? = some pf → pf.type ≠ .tal) ∧ env.parseCert data = .ok c
  | _ => False

/-- The state after the first `n` operations. -/
def StateAt (env : Env) (ops : List Op) (n : Nat) (v : V) : Prop := V.run env V.new (ops.take n) = .ok v

/-- In the history, `c` came in good course, and was there after `n` operations: at the top there is a certificate that was accepted and
    that has no issuer in the validator; each of the others was delivered after its issuer, in its validity window, with a key id that was
    not in use, signed by its issuer and with resources that the issuer holds. None of them is withdrawn or invalidated by name. -/
inductive Course (env : Env) (ops : List Op) : Nat → Cert → Prop where
  | top (n : Nat) (c : Cert) (v e : V) (hv : StateAt env ops n v) (hc : IsValid v c.ski c) (he : V.run env V.new ops = .ok e)
      (ht : c.aki = c.ski ∨ ∀ d, ¬ Stored e c.aki d) (hw : ¬ Withdrawn env ops c) (hi : Op.invalidate c.ski ∉ ops.drop n) :
      Course env ops n c
  | child (m n : Nat) (p c : Cert) (op : Op) (u : V) (h : Course env ops m p) (hmn : m ≤ n) (hop : ops[n]? = some op)
      (ho : OffersCert env c op) (hu : StateAt env ops n u) (hn : ∀ d, ¬ Stored u c.ski d) (hk : c.aki = p.ski)
      (ht : c.notBefore ≤ env.now ∧ env.now ≤ c.notAfter) (hs : Issued env p c) (hw : ¬ Withdrawn env ops c)
      (hi : Op.invalidate c.ski ∉ ops.drop (n + 1)) : Course env ops (n + 1) c

end Verif.CompleteSpec
