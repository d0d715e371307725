import Verif.Spec.Complete
import Verif.Spec.Report
/-
  Specification for C119: the history of operations behind an exploration.
-/
set_option autoImplicit false

namespace Verif.CompleteSpec
open Pki PkiSpec Manager ManagerSpec ReportSpec

/-- The files and octets that the operations add. -/
def addsOf (ops : List Op) : List (Nat × Bytes) :=
  ops.filterMap (fun op => match op with | .addResource _ fid data => some (fid, data) | _ => none)

/-- The files and octets delivered, in the order of the exploration. -/
def deliveries (tr : List Event) : List (Nat × Bytes) :=
  tr.filterMap (fun ev => match ev with | .added fid data _ => some (fid, data) | _ => none)

/-- The exploration had a reason to invalidate the key id: the file of a certificate with it was delivered, the manifest of that CA lists
    a file that was taken up, and that file could not be had at some moment (in strict manifest mode), or the manifest was not current
    at some moment (in strict hash mode). -/
def Blamed (W : World) (cfg : Cfg) (m : M) (k : Bytes) : Prop :=
  ∃ (i p g : Nat) (f : PKIFile) (d : Bytes) (sha : Option Bytes) (c : Cert), ManagerSpec.Listed m i f p g ∧ i ∈ taken m.trace ∧
    Event.added g d sha ∈ m.trace ∧ W.env.parseCert d = .ok c ∧ c.ski = k ∧
    ((cfg.strictManifests = true ∧ ∃ n, Missing cfg f (W.getFile n (m.pathOf i) f)) ∨
     (cfg.strictHash = true ∧ ∃ (n : Nat) (d' : Bytes) (sha' : Option Bytes) (mft : Mft), Event.added p d' sha' ∈ m.trace ∧
       W.env.parseMft d' = .ok mft ∧ (W.now1 n > mft.nextUpdate ∨ W.now2 n < mft.thisUpdate)))

/-- The exploration did `ops` to its validator: it added the files in the order in which they were delivered, with the table of files of
    that moment, and did nothing else but invalidate key ids for which it had a reason. -/
structure Drives (W : World) (cfg : Cfg) (m : M) (ops : List Op) : Prop where
  run : V.run W.env V.new ops = .ok m.v
  adds : addsOf ops = deliveries m.trace
  only : ∀ op ∈ ops, (∃ files fid data, op = .addResource files fid data ∧ files <+: m.files) ∨ ∃ k, op = .invalidate k ∧ Blamed W cfg m k

/-- `a` is `c`, or a valid certificate above it: following authority key ids through valid certificates leads from `c` to `a`. -/
inductive Above (v : V) : Cert → Cert → Prop where
  | self (c : Cert) : Above v c c
  | up (c p a : Cert) (hp : IsValid v c.aki p) (h : Above v p a) : Above v c a

/-- The certificate was delivered in a file that a TAL names. -/
def FromTAL (W : World) (m : M) (c : Cert) : Prop :=
  ∃ (i : Nat) (f : PKIFile) (d : Bytes) (sha : Option Bytes), m.files[i]? = some f ∧ f.trust = true ∧ Event.added i d sha ∈ m.trace ∧
    W.env.parseCert d = .ok c

/-- A reason of its own for the loss of `a`: the exploration had a reason to invalidate it, or it is withdrawn, or it is the certificate of
    a TAL that says that it has an issuer, and this issuer was delivered and is not valid. -/
def RootCause (W : World) (cfg : Cfg) (m : M) (ops : List Op) (a : Cert) : Prop :=
  Blamed W cfg m a.ski ∨ Withdrawn W.env ops a ∨
    (FromTAL W m a ∧ a.aki ≠ a.ski ∧ (∃ d, Stored m.v a.aki d) ∧ ∀ d, ¬ IsValid m.v a.aki d)

end Verif.CompleteSpec
