import Verif.Model.Output
import Verif.Spec.Resources
/-
  Independent specification of the published list.
-/
set_option autoImplicit false

namespace Verif.OutSpec
open Net ResSpec Out Roa

/-- What identifies a VRP in the file: prefix, max length, AS number, as they are written. -/
def triple (r : ROAJson) : Bytes × Nat × Bytes := (r.prefixText, r.length.toNat, r.asn)

/-- `r` is the first of the list with its prefix, max length and AS number. -/
def IsFirst (l : List ROAJson) (r : ROAJson) : Prop :=
  ∃ a b, l = a ++ r :: b ∧ ∀ x ∈ a, triple x ≠ triple r

/-- The character does not occur in the text. -/
def Free (c : UInt8) (s : Bytes) : Prop := c ∉ s

/-- The text is the usual text of a well-formed prefix `n` of `p` bits that is IPv4, or IPv6 and not
    IPv4-mapped. -/
def TextOf (s : Bytes) (n : IPNet) (p : Nat) : Prop :=
  ProperNet n ∧ IsMask p n.mask ∧ ¬ Mapped n.ip ∧ s = ipNetString n

/-- Short enough for the filter: an IPv4 prefix of at most 24 bits or an IPv6 prefix of at most 48. -/
def Short (n : IPNet) (p : Nat) : Prop := (n.ip.length = 4 ∧ p ≤ 24) ∨ (n.ip.length = 16 ∧ p ≤ 48)

/-- What a valid ROA says: this AS may originate this prefix, up to this max length. -/
structure Vrp where
  net : IPNet
  maxLength : Int
  asn : Int

/-- The authorisations of the valid ROAs of all trust anchors. -/
def Authorised (tals : List TalResult) (v : Vrp) : Prop :=
  ∃ t ∈ tals, ∃ roa ∈ t.roas, ∃ e ∈ roa.valids, v = ⟨e.ipnet, e.maxLength, roa.asn⟩

/-- What a reader of the file understands of one line. -/
def Reads (r : ROAJson) (v : Vrp) : Prop :=
  r.getPrefix = some v.net ∧ (r.length.toNat : Int) = v.maxLength ∧ (r.getASN : Int) = v.asn

/-- A well-formed authorisation: prefix in network form of one family, max length of at most the size
    of the family, 32-bit AS number. -/
def GoodVrp (v : Vrp) : Prop :=
  ProperNet v.net ∧ Canonical v.net ∧ ¬ Mapped v.net.ip ∧ 0 ≤ v.maxLength ∧ v.maxLength ≤ 128 ∧
    0 ≤ v.asn ∧ v.asn < 2 ^ 32

/-- All authorisations are well-formed. -/
def AllGood (tals : List TalResult) : Prop := ∀ v, Authorised tals v → GoodVrp v

/-- The text of an AS number: any letters of "aAsS" (none, "AS", "as" ...), then at least one decimal digit, of a number below 2^32. -/
def AsnText (t : Bytes) (n : Nat) : Prop :=
  ∃ letters digits : Bytes, t = letters ++ digits ∧ (∀ c ∈ letters, c ∈ asc "aAsS".toList) ∧ digits ≠ [] ∧
    (∀ c ∈ digits, 48 ≤ c.toNat ∧ c.toNat ≤ 57) ∧ digits.foldl (fun a c => a * 10 + (c.toNat - 48)) 0 = n ∧ n < 2 ^ 32

end Verif.OutSpec
