import Verif.Model.Ct
/-
  What submission of certificates is about, without the programs: which bytes are the certificate of a file, and sequences of steps.
-/
set_option autoImplicit false

namespace Verif.CtSpec
open Ct Cache Pki

/-- The certificate of a file: for a ROA or a manifest the one inside it, otherwise the file itself. -/
def Holds (f : PKIFile) (data : Bytes) (cert : Bytes) : Prop :=
  if f.type = .roa ∨ f.type = .mft then ∃ c, Cms.decodeCMS data = .ok c ∧ cert = c.signedData.certificates.bytes else cert = data

/-- `k` steps from `a` to `b`. -/
inductive Steps {σ : Type} (R : σ → σ → Prop) : σ → Nat → σ → Prop where
  | here (a : σ) : Steps R a 0 a
  | step (a : σ) (k : Nat) (b c : σ) : Steps R a k b → R b c → Steps R a (k + 1) c

/-- What the threads are posting. -/
def posting {α : Type} (ws : List (Worker α)) : List α := ws.filterMap fun w => match w with | .busy c => some c | _ => none

end Verif.CtSpec
