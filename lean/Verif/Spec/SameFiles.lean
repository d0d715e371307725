import Verif.Model.EndToEnd
import Verif.Spec.CompleteLine
/-
  Specification for C122: two sources of files that give the same files.
-/
set_option autoImplicit false

namespace Verif.SameSpec
open Pki Manager EndToEnd

/-- The two answers give the same octets, or neither gives any. With `hashes`, the same hash too (or none). -/
def SameAnswer (hashes : Bool) : Fetch → Fetch → Prop
  | .found d s, .found d' s' => d = d' ∧ (hashes = true → s = s')
  | .found _ _, _ => False
  | _, .found _ _ => False
  | _, _ => True

/-- The same decoders and clock, and the same answers for files; a source may say "no such file" where the other fails. -/
structure SameSource (hashes : Bool) (W W' : World) : Prop where
  env : W'.env = W.env
  now1 : W'.now1 = W.now1
  now2 : W'.now2 = W.now2
  file : ∀ n files f, SameAnswer hashes (W.getFile n (f.computePath files) f) (W'.getFile n (f.computePath files) f)

/-- The same TAL, with two such sources; maps are walked in the same order, and the same files are gone when the list is made. -/
structure SameRun (hashes : Bool) (r r' : TalRun) : Prop where
  path : r'.path = r.path
  fuel : r'.fuel = r.fuel
  source : SameSource hashes r.world r'.world
  order : r'.order = r.order
  reread : ∀ f, r'.reread f = .absent ↔ r.reread f = .absent

end Verif.SameSpec
