import Verif.Model.Process
import Verif.Spec.Local
/-
  Specification for the rounds of the whole program: which certificates a round found valid, what they name, and what a round
  tried to fetch.
-/
set_option autoImplicit false

namespace Verif.ProcessSpec
open Pki Manager EndToEnd Process Fetch LocalSpec

/-- The first access description of this kind in the certificate has this location. -/
def FirstOf (kind : SIAKind) (c : Cert) (u : Bytes) : Prop :=
  ∃ before after, c.sia = before ++ (kind, u) :: after ∧ ∀ e ∈ before, e.1 ≠ kind

/-- The repository of the certificate lies in the module `name` of `host`. (The scheme of the URL is not looked at.) -/
def NamesModule (c : Cert) (host name : Bytes) : Prop :=
  (47 : UInt8) ∉ host ∧ (47 : UInt8) ∉ name ∧ ∃ url scheme rest, FirstOf .caRepository c url ∧ scheme.length = 8 ∧
    url = scheme ++ host ++ 47 :: name ++ rest ∧ (rest = [] ∨ rest.head? = some 47)

/-- The last round holds valid this certificate of a certificate authority (or of a router). -/
def ValidCA (s : St) (c : Cert) : Prop :=
  ∃ run m key i r, (run, m) ∈ s.ms ∧ m.v.validObjects.get key = some i ∧ m.v.heap[i]? = some r ∧ r.type = .cer ∧ r.data = .cert c

/-- The text `rsync://host/`. -/
def hostURI (host : Bytes) : Bytes := Tal.rsyncScheme ++ host ++ [47]

/-- The RRDP URL that the certificate names, if it names one, belongs to `host`. -/
def Fits (s : St) (c : Cert) (host : Bytes) : Prop := ∀ u, FirstOf .rrdp c u → s.b.domain.get u = some (hostURI host)

/-- The last round asked rsync for the module, or an RRDP server on its behalf. -/
def Tried (s : St) (module : Bytes) : Prop := module ∈ s.rsyncs ∨ ∃ j o, (j, o) ∈ s.rrdps ∧ j.rsync = module

/-- RRDP settled the module in the last round: a fetch for it succeeded, or failed in a way that rules out rsync. -/
def SettledByRrdp (failover : Bool) (s : St) (module : Bytes) : Prop :=
  ∃ j o, (j, o) ∈ s.rrdps ∧ j.rsync = module ∧
    (o = none ∨ ∃ e, o = some e ∧ (failover = false ∨ e = asc "http: request body too large".toList))

/-- The last round read this TAL. -/
def ReadTal (s : St) (t : Tal.RPKITAL) : Prop :=
  ∃ run m key i r, (run, m) ∈ s.ms ∧ m.v.tals.get key = some i ∧ m.v.heap[i]? = some r ∧ r.data = .tal t

end Verif.ProcessSpec
