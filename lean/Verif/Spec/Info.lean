import Verif.Model.Info
/-
  What the info page of octorpki should show, said over the sequence of certificates of a round.
-/
set_option autoImplicit false

namespace Verif.Info

open Verif.Fetch (CertNames Bindings bindCert)

/-- A certificate that counts: trust anchor number `tal` has a valid certificate that names an rsync module and an RRDP
    URL (empty if it has none). -/
structure Naming where
  tal : Nat
  module : Bytes
  rrdp : Bytes
  deriving DecidableEq, Repr

/-- What a certificate names, if it counts: its rsync URL has a module, and its RRDP URL, if it has one, is not tied to
    another host by an earlier certificate. -/
def naming (b : Bindings) (i : Nat) (c : CertNames) : Option Naming :=
  match Path.extractDomainModule c.rsync with
  | .ok (m, d) =>
    match c.rrdp with
    | none => some ⟨i, m, []⟩
    | some u => if b.domain.get u = none ∨ b.domain.get u = some d then some ⟨i, m, u⟩ else none
  | _ => none

/-- The certificates that count, in the order in which the round visits them: `certs` gives each certificate with the
    number of its trust anchor. -/
def namings (b : Bindings) : List (Nat × CertNames) → List Naming
  | [] => []
  | (i, c) :: rest => (naming b i c).toList ++ namings (bindCert b c) rest

/-- The certificates of all trust anchors, numbered from `i`. -/
def numbered : Nat → List (List CertNames) → List (Nat × CertNames)
  | _, [] => []
  | i, cs :: rest => cs.map (fun c => (i, c)) ++ numbered (i + 1) rest

/-- Trust anchor `i` is the first to name the module. -/
def FirstNamed (ns : List Naming) (i : Nat) (m : Bytes) : Prop :=
  ∃ before n after, ns = before ++ n :: after ∧ n.tal = i ∧ n.module = m ∧ ∀ x ∈ before, x.module ≠ m

/-- The last certificate that names the module gives the RRDP URL `u`. -/
def LastUrl (ns : List Naming) (m u : Bytes) : Prop :=
  ∃ before n after, ns = before ++ n :: after ∧ n.module = m ∧ n.rrdp = u ∧ ∀ x ∈ after, x.module ≠ m

end Verif.Info
