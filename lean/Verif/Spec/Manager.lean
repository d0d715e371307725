import Verif.Model.Manager
import Verif.Spec.Pki
/-
  Specification for the manager: its life as a sequence of calls, and what an observer sees of it.
-/
set_option autoImplicit false

namespace Verif.ManagerSpec
open Pki Manager

/-- The files that left the queue, in order. -/
def taken : List Event → List Nat
  | [] => []
  | .taken i :: r => i :: taken r
  | _ :: r => taken r

/-- The files asked for at the FileSeeker, in order. -/
def fetched : List Event → List Nat
  | [] => []
  | .fetched i :: r => i :: fetched r
  | _ :: r => fetched r

/-- The files given to the Validator, in order. -/
def added : List Event → List Nat
  | [] => []
  | .added i _ _ :: r => i :: added r
  | _ :: r => added r

/-- All files that ever entered the queue, in order: those that left it and those still in it. -/
def entered (m : M) : List Nat := taken m.trace ++ m.queue

/-- `Later W ok m m'`: `m'` is a later state of the manager: files without a parent were added from
    outside, and rounds of `Explore` were run with settings that satisfy `ok`. -/
inductive Later (W : World) (ok : Cfg → Prop) (m : M) : M → Prop where
  | here : Later W ok m m
  | initial (m1 : M) (fs : List PKIFile) (hl : Later W ok m m1) (hp : ∀ f ∈ fs, f.parent = none) :
      Later W ok m (m1.putFiles fs)
  | round (m1 m2 : M) (cfg : Cfg) (hc : ok cfg) (hl : Later W ok m m1) (h : m1.exploreStep cfg W = .ok m2) :
      Later W ok m m2

/-- `Rounds W cfg m m'`: rounds of `Explore` with the settings `cfg` lead from `m` to `m'`. -/
inductive Rounds (W : World) (cfg : Cfg) (m : M) : M → Prop where
  | here : Rounds W cfg m m
  | round (m1 m2 : M) (hl : Rounds W cfg m m1) (h : m1.exploreStep cfg W = .ok m2) : Rounds W cfg m m2

/-- A state in the life of a manager that started empty, with a validator that was used in any way before
    (with trust anchors in `T`). -/
def Life (W : World) (T : Bytes → Prop) (ok : Cfg → Prop) (m : M) : Prop :=
  ∃ v, PkiSpec.Reachable W.env T v ∧ Later W ok (M.new v) m

/-- The world offers as trust anchors only certificates with key ids in `T`. -/
structure WTrust (W : World) (T : Bytes → Prop) : Prop where
  file : ∀ n path f data sha c, W.getFile n path f = .found data sha → f.trust = true →
    W.env.parseCert data = .ok c → T c.ski
  repo : ∀ n f, ∀ call ∈ (W.getRepository n f).1, ∀ c, call.file.trust = true →
    W.env.parseCert call.data = .ok c → T c.ski

/-- The decoders end on every input. -/
structure Decodes (env : Env) : Prop where
  cert : ∀ d, env.parseCert d ≠ .diverge
  roa : ∀ d, env.parseROA d ≠ .diverge
  mft : ∀ d, env.parseMft d ≠ .diverge
  crl : ∀ d, env.parseCRL d ≠ .diverge
  spki : ∀ d, env.asn.unmarshalSPKI d ≠ .diverge
  rsa : ∀ d, env.asn.unmarshalRSA d ≠ .diverge

/-- File `i` was found in the manifest `p`, which was found in the CA certificate `g`. -/
structure Listed (m : M) (i : Nat) (f : PKIFile) (p g : Nat) : Prop where
  file : m.files[i]? = some f
  parent : f.parent = some p
  manifest : ∃ pf, m.files[p]? = some pf ∧ pf.type = .mft ∧ pf.parent = some g
  ca : ∃ gf, m.files[g]? = some gf ∧ gf.type = .cer

/-- The file can never be had: the FileSeeker fails, has no such file, or has one with a hash that is not
    the one the manifest lists. -/
def NeverGood (W : World) (path : Bytes) (f : PKIFile) : Prop :=
  ∀ n, W.getFile n path f = .fail ∨ W.getFile n path f = .absent ∨
    ∃ d s h, W.getFile n path f = .found d (some s) ∧ f.manifestHash = some h ∧ s ≠ h

/-- `k'` is `k`, or is a stored object, not a trust anchor, whose issuer is below `k` in this sense. -/
inductive CertifiedBelow (T : Bytes → Prop) (v : V) (k : Bytes) : Bytes → Prop where
  | self : CertifiedBelow T v k k
  | step (k' : Bytes) (c : Cert) (hs : PkiSpec.Stored v k' c) (ht : ¬ T k') (hb : CertifiedBelow T v k c.aki) :
      CertifiedBelow T v k k'

end Verif.ManagerSpec
