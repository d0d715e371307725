import Verif.Model.Report
import Verif.Spec.Manager
/-
  Specification for the reports of an exploration: which file a report blames, which certificates it says
  were lost, and when a reason is true.
-/
set_option autoImplicit false

namespace Verif.ReportSpec
open Pki PkiSpec Manager ManagerSpec Roa

/-- The kinds of the reports that blame the file `fid`, in order. -/
def blames (fid : Nat) : List Report → List Kind
  | [] => []
  | .about k i none :: r => if i = fid then k :: blames fid r else blames fid r
  | _ :: r => blames fid r

/-- The reports of lost certificates: kind, file of the certificate, file that is the cause. -/
def losses : List Report → List (Kind × Nat × Nat)
  | [] => []
  | .about k g (some i) :: r => (k, g, i) :: losses r
  | _ :: r => losses r

/-- The octets of the file hold the certificate `c`: as such, or as the certificate of a signed object. -/
def Carries (env : Env) (f : PKIFile) (data : Bytes) (c : Cert) : Prop :=
  (f.type = .cer ∧ env.parseCert data = .ok c) ∨
  (f.type = .roa ∧ ∃ r, decodeROA env data = .ok r ∧ r.cert = c) ∨
  (f.type = .mft ∧ ∃ m, env.parseMft data = .ok m ∧ m.cert = c)

/-- The octets are not what the name of the file says. -/
def Undecodable (env : Env) (f : PKIFile) (data : Bytes) : Prop :=
  match f.type with
  | .tal => ∃ e, Tal.decodeTAL env.asn data = .err e
  | .cer => ∃ e, env.parseCert data = .err e
  | .roa => ∃ e, decodeROA env data = .err e
  | .mft => ∃ e, env.parseMft data = .err e
  | .crl => ∃ e, env.parseCRL data = .err e
  | _ => True

/-- A certificate that a TAL points to, with another key than the TAL has. -/
def NotOfTal (env : Env) (v : V) (files : List PKIFile) (f : PKIFile) (data : Bytes) : Prop :=
  f.type = .cer ∧ ∃ c p pf i t, env.parseCert data = .ok c ∧ f.parent = some p ∧ files[p]? = some pf ∧ pf.type = .tal ∧
    v.tals.get f.path = some i ∧ (v.heap[i]?.map Res.data) = some (.tal t) ∧ t.checkCertificate c.isRSA c.pubKey = .ok false

/-- A manifest that lists a name with a way up in the directory. -/
def IllegalManifest (env : Env) (f : PKIFile) (data : Bytes) : Prop :=
  f.type = .mft ∧ ∃ m, env.parseMft data = .ok m ∧ ∃ e ∈ m.fileList, illegalName e.1 = true

/-- A revocation list whose issuer was read from another path than the certificate where the way to the list
    began. -/
def MisplacedCRL (env : Env) (v : V) (files : List PKIFile) (f : PKIFile) (data : Bytes) : Prop :=
  f.type = .crl ∧ ∃ l i j p pf g gf cf, env.parseCRL data = .ok l ∧ v.objects.get l.aki = some i ∧
    (v.heap[i]?.bind Res.file) = some j ∧ files[j]? = some cf ∧ f.parent = some p ∧ files[p]? = some pf ∧
    pf.parent = some g ∧ files[g]? = some gf ∧ gf.path ≠ cf.path

/-- Checked against the certificate `q`, the resource is found outside (what this means: C05 to C07). -/
def OutsideIP (q : Cert) (e : Cert.IPInfo) : Prop := Cert.validateIPCertificateList [e] q.ips = .ok ⟨[], [e], []⟩
def OutsideAS (q : Cert) (e : Cert.ASInfo) : Prop := Cert.validateASNCertificateList [e] q.asns = .ok ⟨[], [e], []⟩

/-- What a kind of report claims about the file `f` with these octets, given to the validator `v`. -/
inductive Reason (env : Env) (v : V) (files : List PKIFile) (f : PKIFile) (data : Bytes) : Kind → Prop where
  /-- The file is not an object at all, or not one that may be here. -/
  | file (h : Undecodable env f data ∨ NotOfTal env v files f data ∨ IllegalManifest env f data ∨
      MisplacedCRL env v files f data) : Reason env v files f data .file
  /-- The certificate is not yet valid, or not any more. -/
  | expiration (c : Cert) (hc : Carries env f data c) (h : ¬ (c.notBefore ≤ env.now ∧ env.now ≤ c.notAfter)) :
      Reason env v files f data .expiration
  /-- Another object with the same key is known. -/
  | conflict (c : Cert) (hc : Carries env f data c) (h : v.objects.get c.ski ≠ none) : Reason env v files f data .conflict
  /-- No valid certificate is its issuer, or its issuer has lost its own issuer. -/
  | parent (c : Cert) (hc : Carries env f data c)
      (h : (∀ p, IsValid v c.aki p → env.checkSig c p = false) ∨ ∃ p, IsValid v c.aki p ∧ ∀ q, ¬ IsValid v p.aki q) :
      Reason env v files f data .parent
  /-- Its issuer has revoked it. -/
  | revocation (c : Cert) (hc : Carries env f data c) (h : v.revoked.get (serialKey c.aki c.serial) ≠ none) :
      Reason env v files f data .revocation
  /-- It has resources that its issuer (or the issuer of that, when inherited) does not have. -/
  | resource (c p q : Cert) (hc : Carries env f data c) (hp : IsValid v c.aki p) (hq : q = p ∨ IsValid v p.aki q)
      (h : (∃ e ∈ c.ips, OutsideIP q e) ∨ ∃ e ∈ c.asns, OutsideAS q e) : Reason env v files f data .resource
  /-- The signature over the content is wrong, or a ROA has wrong entries. -/
  | unknown (h : (f.type = .roa ∧ ∃ r, decodeROA env data = .ok r ∧ (r.innerValid = false ∨ ∀ u, validateEntries r.entries ≠ .ok u)) ∨
      (f.type = .mft ∧ ∃ m, env.parseMft data = .ok m ∧ m.innerValid = false)) : Reason env v files f data .unknown

/-- What is asked of the hash of the file: nothing, or that it is the one in the manifest. -/
def HashOk (cfg : Cfg) (f : PKIFile) (sha : Option Bytes) : Prop :=
  cfg.strictHash = true → ∀ s h, sha = some s → f.manifestHash = some h → s = h

/-- The validator before the file is given to it: as it was, or after the CA of an expired manifest was
    invalidated. -/
def Before (v v1 : V) : Prop := v1 = v ∨ ∃ k, v.invalidateObject k = .ok v1

/-- The manifest that lists the file is known and is not current. -/
def Stale (W : World) (m : M) (f : PKIFile) : Prop :=
  ∃ p pf r c, f.parent = some p ∧ m.files[p]? = some pf ∧ pf.type = .mft ∧ m.resOf.lookup p = some (some r) ∧
    (m.v.heap[r]?.map Res.data) = some (.mft c) ∧ (W.now1 m.clock > c.nextUpdate ∨ W.now2 m.clock < c.thisUpdate)

/-- The file cannot be had in this round: the FileSeeker fails, has no such file, or has one with a hash that is not the
    one the manifest lists. -/
def Missing (cfg : Cfg) (f : PKIFile) : Fetch → Prop
  | .fail => True
  | .absent => True
  | .found _ sha => ¬ HashOk cfg f sha

/-- `Chan.Steps c n c'`: `n` steps of the manager and of the reader of the channel lead from `c` to `c'`. -/
inductive Chan.Steps (c : Chan) : Nat → Chan → Prop where
  | here : Chan.Steps c 0 c
  | step (n : Nat) (c1 c2 : Chan) (hs : Chan.Steps c n c1) (h : Chan.Step c1 c2) : Chan.Steps c (n + 1) c2

end Verif.ReportSpec
