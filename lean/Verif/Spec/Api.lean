import Verif.Model.Api
import Verif.Spec.Ber
import Verif.Spec.Local
/-
  Specification for C121: what a reader of files over the API should give.
-/
set_option autoImplicit false

namespace Verif.ApiSpec
open Pki Manager Api

/-- The exploration reads its files over the API, from a server that answers always the same. -/
structure OverApi (cl : Client) (W : World) : Prop where
  file : ∀ n files f, getFile cl files f = .ok (W.getFile n (f.computePath files) f)
  repo : ∀ n f, getRepository cl f = .ok (W.getRepository n f)

/-- The file is given to the callback as it should be: under its path, with the type that the end of its name says, not as a trust
    anchor, and, if its octets start with a BER encoding of a value, with the DER encoding of this value; with no octets at all if they
    cannot be converted. -/
def HandedOver (repo : Bytes) (r : Bytes × Bytes) (c : Call) : Prop :=
  c.file.path = r.1 ∧ c.file.repo = repo ∧ c.file.trust = false ∧ c.addInvalid = false ∧
  (∀ t bs rest, BerSpec.BerEnc t bs → r.2 = bs ++ rest → c.data = BerSpec.der t) ∧ (∀ e, Ber.BER2DER r.2 = .err e → c.data = []) ∧
  (c.file.type = .crl ↔ LocalSpec.Extension r.1 (asc "crl".toList)) ∧ (c.file.type = .cer ↔ LocalSpec.Extension r.1 (asc "cer".toList)) ∧
  (c.file.type = .mft ↔ LocalSpec.Extension r.1 (asc "mft".toList)) ∧ (c.file.type = .roa ↔ LocalSpec.Extension r.1 (asc "roa".toList))

end Verif.ApiSpec
