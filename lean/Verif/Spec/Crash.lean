import Verif.Spec.EndToEnd
import Verif.Spec.Tal
/-
  Specification for crashes of the exploration: which inputs are harmless, and what a revocation list of an
  unknown issuer is.
-/
set_option autoImplicit false

namespace Verif.CrashSpec
open Pki Manager

/-- No nil prefix among the address blocks (cert.go:331 drops the error of `DecodeIP` and keeps nil). -/
def NoNil (c : Cert) : Prop := ∀ e ∈ c.ips, e ≠ .net none

/-- The octets do not make a decoder panic, and no certificate decoded from them has a nil prefix. A key is
    said to be RSA exactly when it is an RSA key. -/
structure Harmless (env : Env) (data : Bytes) : Prop where
  tal : Tal.decodeTAL env.asn data ≠ .panic
  cert : env.parseCert data ≠ .panic
  roa : env.parseROA data ≠ .panic
  mft : env.parseMft data ≠ .panic
  crl : env.parseCRL data ≠ .panic
  certNil : ∀ c, env.parseCert data = .ok c → NoNil c ∧ TalSpec.CertKey c.isRSA c.pubKey
  roaNil : ∀ p, env.parseROA data = .ok p → NoNil p.2.1
  mftNil : ∀ m, env.parseMft data = .ok m → NoNil m.cert

/-- Everything that the FileSeeker ever hands out is harmless. -/
structure HarmlessWorld (W : World) : Prop where
  file : ∀ n path f data sha, W.getFile n path f = .found data sha → Harmless W.env data
  repo : ∀ n f, ∀ c ∈ (W.getRepository n f).1, Harmless W.env c.data

/-- The octets are a revocation list, and the validator knows no certificate with the key that it names. -/
def OfUnknownIssuer (env : Env) (v : V) (data : Bytes) : Prop :=
  ∃ l, env.parseCRL data = .ok l ∧ v.objects.get l.aki = none

/-- The file `f` at the head of the queue is asked for and comes, with the hash of the manifest (where it is
    checked), as `data`. -/
structure Comes (cfg : Cfg) (W : World) (m : M) (fid : Nat) (f : PKIFile) (data : Bytes) : Prop where
  new : m.pathOf fid ∉ m.explored
  seeker : cfg.hasSeeker = true
  got : ∃ sha, W.getFile m.clock (m.pathOf fid) f = .found data sha ∧
    (cfg.strictHash = true → ∀ s h, sha = some s → f.manifestHash = some h → s = h)

/-- The file in hand is a revocation list of an unknown issuer, or one is among the files of the repository. -/
def Culprit (cfg : Cfg) (W : World) (m : M) (fid : Nat) (f : PKIFile) : Prop :=
  ((cfg.notMFT = false ∨ f.type ≠ .mft) ∧ f.type = .crl ∧ ∃ data, Comes cfg W m fid f data ∧ OfUnknownIssuer W.env m.v data) ∨
  (cfg.notMFT = true ∧ f.type = .mft ∧ f.repo ∉ m.explored ∧ cfg.hasSeeker = true ∧
    ∃ c ∈ (W.getRepository m.clock f).1, c.file.type = .crl ∧ OfUnknownIssuer W.env m.v c.data)

end Verif.CrashSpec
