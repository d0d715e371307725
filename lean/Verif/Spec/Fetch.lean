import Verif.Model.Fetch
/-
  Notions of the scheduling properties (C61-C64).
-/
set_option autoImplicit false

namespace Verif.FetchSpec
open Fetch

/-- The jobs that are being run. -/
def running {J : Type} (p : Pool J) : List J :=
  p.workers.filterMap fun w => match w with
    | .busy j => some j
    | _ => none

/-- The jobs that the caller has not handed over yet. -/
def toSend {J : Type} (p : Pool J) : List J :=
  match p.caller with
  | .sending js => js
  | _ => []

/-- The module was fetched by RRDP. -/
def FetchedByRrdp (outcome : RrdpJob → Option Bytes) (js : List RrdpJob) (m : Bytes) : Prop :=
  ∃ j ∈ js, j.rsync = m ∧ outcome j = none

/-- An RRDP fetch for the module failed in a way that does not allow rsync: failover is off, or the answer was too
    large. -/
def NoFailover (failover : Bool) (outcome : RrdpJob → Option Bytes) (js : List RrdpJob) (m : Bytes) : Prop :=
  ∃ j ∈ js, j.rsync = m ∧ ∃ e, outcome j = some e ∧ (failover = false ∨ e = asc "http: request body too large".toList)

/-- The certificate names the RRDP URL `u` and an rsync URL with module `m` on host `d`. -/
def Names (c : CertNames) (u m d : Bytes) : Prop := c.rrdp = some u ∧ Path.extractDomainModule c.rsync = .ok (m, d)

/-- The keys of the path of an object: each key is followed by the key of its issuer; the list ends where there is no
    issuer, or with the first key that is there twice. -/
structure IssuerPath (issuer : Bytes → Bytes) (ski : Bytes) (ks : List Bytes) : Prop where
  first : ks.head? = some ski
  next : ∀ i a b, ks[i]? = some a → ks[i + 1]? = some b → b = issuer a ∧ b ≠ []
  once : ks.dropLast.Nodup
  stops : ∃ z, ks.getLast? = some z ∧ ((issuer z = [] ∧ ks.Nodup) ∨ z ∈ ks.dropLast)

end Verif.FetchSpec
