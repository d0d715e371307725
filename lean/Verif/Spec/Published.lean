import Verif.Spec.EndToEnd
import Verif.Spec.Pki
import Verif.Spec.Output
import Verif.Model.EndToEnd
/-
  Specification for C78: what stands behind a line of the published list.
-/
set_option autoImplicit false

namespace Verif.EndSpec
open Pki PkiSpec Manager EndToEnd Roa Net Cert

/-- The ROA was decoded from a file that the FileSeeker gave, and a manifest that the FileSeeker gave, with a
    good signature, lists that file with a hash. With `strict`, a hash that came with the file is this one. -/
def ListedROA (strict : Bool) (W : World) (m : M) (roa : ROA) : Prop :=
  ∃ i f n data sha, m.files[i]? = some f ∧ W.getFile n (m.pathOf i) f = .found data sha ∧ decodeROA W.env data = .ok roa ∧
    ∃ p pf n' data' sha' mft hash, f.parent = some p ∧ m.files[p]? = some pf ∧ pf.type = .mft ∧
      W.getFile n' (m.pathOf p) pf = .found data' sha' ∧ W.env.parseMft data' = .ok mft ∧ mft.innerValid = true ∧
      (f.path, hash) ∈ mft.fileList ∧ (strict = true → ∀ s, sha = some s → s = hash)

/-- What stands behind the publication of entry `e` of `roa` in a validation for one TAL that ended in the state `m`. -/
structure Backed (strict : Bool) (run : TalRun) (m : M) (roa : ROA) (e : ROAEntry) : Prop where
  /-- The entry was found to be covered by the resources of the EE certificate. -/
  entry : e ∈ roa.valids
  /-- The CMS signature of the ROA is good. -/
  signed : roa.innerValid = true
  /-- The EE certificate of the ROA is valid at the end of the validation. -/
  valid : IsValid m.v roa.cert.ski roa.cert
  /-- A chain of valid certificates, each signed by the next, leads to a certificate with the key of the TAL. -/
  chain : Chain run.world.env (AnchorOf run.world run.file) m.v roa.cert.ski
  /-- The chain, by certificates: all of them are valid and in their windows, each is signed by the next, and the last is the
      certificate that the TAL says where to find, with the key that the TAL says. -/
  ascends : Ascends run.world.env (AnchorCert run.world run.file) m.v roa.cert
  /-- A proper prefix is one of the ROA's, has a sensible max length, and lies in one resource of the EE certificate. -/
  covered : (∀ x ∈ roa.cert.ips, ResSpec.WfEntry x) → ResSpec.ProperNet e.ipnet →
    e ∈ roa.entries ∧ (maskSize e.ipnet.mask : Int) ≤ e.maxLength ∧ e.maxLength ≤ 8 * e.ipnet.ip.length ∧
    CoversIP roa.cert (.net (some e.ipnet))
  /-- A manifest lists the ROA. -/
  listed : ListedROA strict run.world m roa

/-- Each certificate on the way from `k` to a trust anchor, itself included, holds the resource or inherits; the
    trust anchor holds it. -/
inductive HeldUp (T : Bytes → Prop) (v : V) (e : IPInfo) : Bytes → Prop where
  | anchor (k : Bytes) (c : Cert) (hv : IsValid v k c) (ht : T k) (hc : CoversIP c e) : HeldUp T v e k
  | step (k : Bytes) (c : Cert) (hv : IsValid v k c) (hc : CoversIP c e ∨ InheritsIP c) (h : HeldUp T v e c.aki) : HeldUp T v e k

end Verif.EndSpec
