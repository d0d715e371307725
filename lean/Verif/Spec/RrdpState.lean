import Verif.Model.RrdpState
/-
  Specification for the kept RRDP positions (C89).
-/
set_option autoImplicit false

namespace Verif.RrdpState
open Cache

/-- What is used of encoding/json: a map whose entries all fit (strings in UTF-8, serials of 64 bits) is read back as it
    was written, and the text cut short is not JSON: `Unmarshal` checks the syntax first and leaves the empty map. -/
structure Lawful (C : Codec) (Fit : Bytes → Bytes → Int → Prop) : Prop where
  round : ∀ m : Info, (∀ k s n, m.lookup k = some (s, n) → Fit k s n) →
    ∃ m', C.unmarshal (C.marshal m) = (some m', true) ∧ ∀ k, m'.lookup k = m.lookup k
  cut : ∀ (m : Info) (n : Nat), n < (C.marshal m).length → C.unmarshal ((C.marshal m).take n) = (some [], false)

/-- All positions that fetches reached fit. -/
def AllFit (Fit : Bytes → Bytes → Int → Prop) (log : List Ev) : Prop :=
  ∀ j s n, Ev.reached j s n ∈ log → Fit j.rsync s n

end Verif.RrdpState
