import Verif.Model.Pki
import Verif.Spec.Resources
/-
  Independent specification for the Validator: what it means to be valid, to be below an object,
  to have a chain of trust.
-/
set_option autoImplicit false

namespace Verif.PkiSpec
open Pki Net Cert

/-- The object listed as valid under key id `k` is the certificate `c`. -/
def IsValid (v : V) (k : Bytes) (c : Cert) : Prop :=
  ∃ i, v.validObjects.get k = some i ∧ v.certOf i = some c

/-- The object stored under key id `k` is the certificate `c`. -/
def Stored (v : V) (k : Bytes) (c : Cert) : Prop :=
  ∃ i, v.objects.get k = some i ∧ v.certOf i = some c

/-- The only certificates that the operation offers as trust anchors have key ids in `T`. -/
def TrustsOnly (env : Env) (T : Bytes → Prop) : Op → Prop
  | .addCert c trust => trust = true → T c.ski
  | .addResource files fid data =>
    ∀ f c, files[fid]? = some f → f.trust = true → env.parseCert data = .ok c → T c.ski
  | _ => True

/-- `v` is the state after some history in which only certificates with key ids in `T` were offered
    as trust anchors. -/
def Reachable (env : Env) (T : Bytes → Prop) (v : V) : Prop :=
  ∃ ops, (∀ op ∈ ops, TrustsOnly env T op) ∧ V.run env V.new ops = .ok v

/-- A chain of trust: valid certificates, each signed by the next and in its validity window, up to
    a trust anchor. -/
inductive Chain (env : Env) (T : Bytes → Prop) (v : V) : Bytes → Prop where
  | anchor (k : Bytes) (c : Cert) (hv : IsValid v k c) (ht : T k) : Chain env T v k
  | step (k : Bytes) (c p : Cert) (hv : IsValid v k c) (hp : IsValid v c.aki p)
      (hs : env.checkSig c p = true) (ht : c.notBefore ≤ env.now ∧ env.now ≤ c.notAfter)
      (hc : Chain env T v c.aki) : Chain env T v k

/-- The only certificates that the operation offers as trust anchors satisfy `A`. -/
def OffersOnly (env : Env) (A : Cert → Prop) : Op → Prop
  | .addCert c trust => trust = true → A c
  | .addResource files fid data => ∀ f c, files[fid]? = some f → f.trust = true → env.parseCert data = .ok c → A c
  | _ => True

/-- A chain of trust, by certificates: from `c` up to a certificate that satisfies `A`, all of them valid and in their validity
    windows, each signed by the next. -/
inductive Ascends (env : Env) (A : Cert → Prop) (v : V) : Cert → Prop where
  | anchor (c : Cert) (hv : IsValid v c.ski c) (ht : c.notBefore ≤ env.now ∧ env.now ≤ c.notAfter) (ha : A c) : Ascends env A v c
  | step (c p : Cert) (hv : IsValid v c.ski c) (ht : c.notBefore ≤ env.now ∧ env.now ≤ c.notAfter) (hk : c.aki = p.ski)
      (hs : env.checkSig c p = true) (h : Ascends env A v p) : Ascends env A v c

/-- `k'` is `k` or is below it: following authority key ids through stored objects leads to `k`. -/
inductive Below (v : V) (k : Bytes) : Bytes → Prop where
  | self : Below v k k
  | step (k' : Bytes) (c : Cert) (hs : Stored v k' c) (hb : Below v k c.aki) : Below v k k'

/-- `k'` is `k`, or is a valid object, not a trust anchor, whose issuer depends on `k`. -/
inductive Depends (T : Bytes → Prop) (v : V) (k : Bytes) : Bytes → Prop where
  | self : Depends T v k k
  | step (k' : Bytes) (c : Cert) (hv : IsValid v k' c) (ht : ¬ T k') (hb : Depends T v k c.aki) :
      Depends T v k k'

/-- The operation adds the CRL `l`. -/
def OffersCRL (env : Env) (l : CRL) : Op → Prop
  | .addCRL l' => l' = l
  | .addResource files fid data => (∃ f, files[fid]? = some f ∧ f.type = .crl) ∧ env.parseCRL data = .ok l
  | _ => False

/-- An accepted CRL of issuer `aki` that lists `serial`, somewhere in the history. -/
def RevokedIn (env : Env) (ops : List Op) (aki : Bytes) (serial : Int) : Prop :=
  ∃ pre op post l v0 v1 a, ops = pre ++ op :: post ∧ V.run env V.new pre = .ok v0 ∧ OffersCRL env l op ∧
    v0.addCRL env l = .ok (v1, a) ∧ a.valid = true ∧ l.aki = aki ∧ serial ∈ l.revoked

/-- One resource entry of `p` holds everything that `e` stands for. -/
def CoversIP (p : Cert) (e : IPInfo) : Prop := ∃ f ∈ p.ips, ∀ x, ResSpec.Denotes e x → ResSpec.Denotes f x
def CoversAS (p : Cert) (e : ASInfo) : Prop := ∃ f ∈ p.asns, ∀ x, ResSpec.ASDenotes e x → ResSpec.ASDenotes f x

/-- The certificate says "inherit" for some address family / for AS numbers. -/
def InheritsIP (p : Cert) : Prop := ∃ f, .null f ∈ p.ips
def InheritsAS (p : Cert) : Prop := .null ∈ p.asns

/-- A proper AS resource: not "inherit", and not an empty range. -/
def ProperAS (e : ASInfo) : Prop := ∃ a, ResSpec.ASDenotes e a

/-- RFC 3779: the resource is held by an ancestor, with only inheriting certificates in between. -/
inductive AuthIP (v : V) (e : IPInfo) : Cert → Prop where
  | here (c p : Cert) (hp : IsValid v c.aki p) (h : CoversIP p e) : AuthIP v e c
  | up (c p : Cert) (hp : IsValid v c.aki p) (hi : InheritsIP p) (h : AuthIP v e p) : AuthIP v e c
inductive AuthAS (v : V) (e : ASInfo) : Cert → Prop where
  | here (c p : Cert) (hp : IsValid v c.aki p) (h : CoversAS p e) : AuthAS v e c
  | up (c p : Cert) (hp : IsValid v c.aki p) (hi : InheritsAS p) (h : AuthAS v e p) : AuthAS v e c

end Verif.PkiSpec
