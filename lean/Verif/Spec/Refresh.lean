import Verif.Spec.EndToEnd
import Verif.Spec.Local
import Verif.Model.Refresh
/-
  Specification for the renewal of trust anchor certificates (C83).
-/
set_option autoImplicit false

namespace Verif.RefreshSpec
open Pki Refresh LocalSpec EndSpec Cache Path

/-- The file in the cache where the certificate of a TAL is looked for. -/
def anchorPath (S : Setup) (t : Tal.RPKITAL) : Bytes := getLocalPath (t.getRsyncURI S.env.sha1) (LocalSpec.rsyncMap S.base)

/-- That file holds a certificate with the key of the TAL (its dates, resources and signature do not matter). -/
def HasAnchor (S : Setup) (fs : FS) (t : Tal.RPKITAL) : Prop :=
  ∃ raw d c, fs.read (anchorPath S t) = some raw ∧ Ber.BER2DER raw = .ok d ∧ S.env.parseCert d = .ok c ∧ HasKeyOf t c

/-- The TAL file at `path` can be read and says `t`. -/
def ReadsTal (S : Setup) (fs : FS) (path : Bytes) (t : Tal.RPKITAL) : Prop :=
  ∃ td, fs.read (getLocalPath path (LocalSpec.rsyncMap S.base)) = some td ∧ Tal.decodeTAL S.env.asn td = .ok t ∧ t.getRsyncURI S.env.sha1 ≠ path

/-- What RRDP and rsync do in this round does not touch the local file `p`. -/
def LeavesAlone (k : Tick) (p : Bytes) : Prop := ∀ fs jobs, (k.rrdp fs).read p = fs.read p ∧ (k.rsync jobs fs).read p = fs.read p

end Verif.RefreshSpec
