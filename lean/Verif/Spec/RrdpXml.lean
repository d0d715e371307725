import Verif.Model.RrdpXml
import Verif.Model.NetText
/-
  RRDP documents (RFC 8182) as trees, and what they say.
-/
set_option autoImplicit false

namespace Verif.RrdpXmlSpec
open RrdpXml Rrdp

/-- A piece of a document: an element, character data, or a comment and the like. -/
inductive Xml where
  | elem (name : Bytes) (attrs : List (Bytes × Bytes)) (inside : List Xml)
  | text (b : Bytes)
  | misc

mutual
/-- The tokens of a piece, in the order of the document. -/
def Xml.toks : Xml → List Tok
  | .elem n as cs => .start n as :: (Xml.toksL cs ++ [.stop n])
  | .text b => [.chars b]
  | .misc => [.misc]
def Xml.toksL : List Xml → List Tok
  | [] => []
  | x :: xs => x.toks ++ Xml.toksL xs
end

/-- What may stand before and after the one element of a document: white space, comments and the like. -/
def Around (l : List Xml) : Prop := ∀ x ∈ l, (∃ b, x = .text b) ∨ x = .misc

/-- The character data directly in an element. -/
def ownText : List Xml → Bytes
  | [] => []
  | .text b :: xs => b ++ ownText xs
  | _ :: xs => ownText xs

/-- The value of an attribute, nothing if it is missing. -/
def attr (k : Bytes) (as : List (Bytes × Bytes)) : Bytes := (as.lookup k).getD []

/-- The elements with a name among the pieces: URI and text of each, in order. -/
def items (name : Bytes) (cs : List Xml) : List Item :=
  cs.filterMap fun x => match x with
    | .elem n as inside => if n = name then some ⟨attr (asc "uri".toList) as, ownText inside⟩ else none
    | _ => none

/-- A number between 0 and 2^63 - 1 in decimal. -/
def Decimal (b : Bytes) (n : Int) : Prop := ∃ k : Nat, n = k ∧ k < 2 ^ 63 ∧ b = Net.numText 10 k

/-- The serial of an element. -/
def SerialIs (as : List (Bytes × Bytes)) (n : Int) : Prop := ∃ b, as.lookup (asc "serial".toList) = some b ∧ Decimal b n

/-- No attribute is given twice, as XML demands. -/
def Proper (as : List (Bytes × Bytes)) : Prop := (as.map Prod.fst).Nodup

/-- The attributes of the elements of a name among the pieces. -/
def attrsOf (name : Bytes) (cs : List Xml) : List (List (Bytes × Bytes)) :=
  cs.filterMap fun x => match x with
    | .elem n as _ => if n = name then some as else none
    | _ => none

/-- What a reference to a delta says (RFC 8182, 3.5.1.3). -/
def DeltaIs (as : List (Bytes × Bytes)) (e : El) : Prop :=
  Proper as ∧ SerialIs as e.serial ∧ e.uri = attr (asc "uri".toList) as ∧ e.hash = attr (asc "hash".toList) as

/-- The value of decimal digits by their places. -/
def place : Bytes → Nat
  | [] => 0
  | c :: r => (c.toNat - 48) * 10 ^ r.length + place r

/-- Only white space. -/
def White (b : Bytes) : Prop := ∀ c ∈ b, c = 32 ∨ (9 ≤ c ∧ c ≤ 13)

/-- The texts of a number of 64 bits: digits, a sign or none before them, white space around. -/
def NumberText (b : Bytes) (n : Int) : Prop :=
  ∃ w sign ds w', b = w ++ (sign ++ ds) ++ w' ∧ White w ∧ White w' ∧ ds ≠ [] ∧ (∀ c ∈ ds, 48 ≤ c ∧ c ≤ 57) ∧
    (sign = [45] ∧ n = -(place ds : Int) ∨ (sign = [] ∨ sign = [43]) ∧ n = (place ds : Int)) ∧ -(2 ^ 63) ≤ n ∧ n < 2 ^ 63

end Verif.RrdpXmlSpec
