import Verif.Model.CaXml
import Verif.Spec.Xml
/-
  Messages of the publication protocol (RFC 8181) and of the setup protocol (RFC 8183), octet by octet.
-/
set_option autoImplicit false

namespace Verif.CaXmlSpec
open XmlScan (Lib QName)
open XmlSpec
open RrdpXmlSpec (Xml NumberText)
open CaXml (Elem MsgName)

/-- The last attribute whose name has a property, if there is one. -/
def LastOf (P : QName → Prop) (as : List (QName × Bytes)) (v : Option Bytes) : Prop :=
  (∃ l k r w, as = l ++ (k, w) :: r ∧ P k ∧ (∀ x ∈ r, ¬ P x.1) ∧ v = some w) ∨ ((∀ x ∈ as, ¬ P x.1) ∧ v = none)

/-- The value of a string attribute: the last one of the local name, nothing if there is none. (XML allows no name twice.) -/
def StrIs (k : Bytes) (as : List (QName × Bytes)) (v : Bytes) : Prop := ∃ o, LastOf (fun n => n.loc = k) as o ∧ v = o.getD []

/-- The attribute that declares a prefix, or the name space of names without one (Namespaces in XML, 3). -/
def Declares (p : Bytes) (k : QName) : Prop := (p = [] ∧ k = ⟨[], asc "xmlns".toList⟩) ∨ (p ≠ [] ∧ k = ⟨asc "xmlns".toList, p⟩)

/-- The name space of the first element: as its own attributes declare; a prefix that is not declared stands for itself. The prefixes
    `xml` and `xmlns` are fixed. -/
def SpaceIs (as : List (QName × Bytes)) (n : QName) (u : Bytes) : Prop :=
  (n.space = asc "xmlns".toList ∧ u = n.space) ∨
  (n.space = asc "xml".toList ∧ u = asc "http://www.w3.org/XML/1998/namespace".toList) ∨
  (n = ⟨[], asc "xmlns".toList⟩ ∧ u = []) ∨
  (n.space ≠ asc "xmlns".toList ∧ n.space ≠ asc "xml".toList ∧ n ≠ ⟨[], asc "xmlns".toList⟩ ∧ ∃ o, LastOf (Declares n.space) as o ∧ u = o.getD n.space)

/-- The element that a tag and the octets inside say. -/
structure ElemIs (n : QName) (as : List (QName × Bytes)) (i : Bytes) (e : Elem) : Prop where
  space : SpaceIs as n e.space
  loc : e.loc = n.loc
  hash : StrIs (asc "hash".toList) as e.hash
  errorCode : StrIs (asc "error_code".toList) as e.errorCode
  tag : StrIs (asc "tag".toList) as e.tag
  uri : StrIs (asc "uri".toList) as e.uri
  inner : e.inner = i

/-- An element, octet by octet: its name, its attributes, the octets between its tags. -/
inductive Tagged (lib : Lib) : QName → List (QName × Bytes) → Bytes → Bytes → Prop where
  | pair (n a w : Bytes) (qn : QName) (as : List (QName × Bytes)) (cs : List Xml) (c : Bytes) (hn : NameText lib n) (hq : QNameIs n qn) (ha : AttrsIs lib as a) (hs : Apart a)
      (hw : White w) (hc : Content lib cs c) : Tagged lib qn as c ((60 :: n ++ a ++ [62]) ++ c ++ (60 :: 47 :: n ++ w ++ [62]))
  | empty (n a : Bytes) (qn : QName) (as : List (QName × Bytes)) (hn : NameText lib n) (hq : QNameIs n qn) (ha : AttrsIs lib as a) (hs : Apart a) :
      Tagged lib qn as [] (60 :: n ++ a ++ [47, 62])

/-- What stands between elements: text, comments and the like. -/
inductive Between (lib : Lib) : Bytes → Prop where
  | nil : Between lib []
  | chars (s w t : Bytes) (hp : Piece lib (.chars s) w) (he : Ends w t) (ht : Between lib t) : Between lib (w ++ t)
  | misc (w t : Bytes) (hp : Piece lib .misc w) (ht : Between lib t) : Between lib (w ++ t)

/-- A sequence of elements. -/
inductive Elems (lib : Lib) : List Elem → Bytes → Prop where
  | nil (b : Bytes) (hb : Between lib b) : Elems lib [] b
  | cons (b w t i : Bytes) (qn : QName) (as : List (QName × Bytes)) (e : Elem) (es : List Elem) (hb : Between lib b) (hw : Tagged lib qn as i w) (he : ElemIs qn as i e) (ht : Elems lib es t) :
      Elems lib (e :: es) (b ++ w ++ t)

/-- The version of a message: every attribute of this name is a number, and the last one counts; zero if there is none. -/
def VersionIs (as : List (QName × Bytes)) (v : Int) : Prop :=
  (∀ x ∈ as, x.1.loc = asc "version".toList → ∃ n, (x.2 = [] ∧ n = 0) ∨ NumberText x.2 n) ∧
  ∃ o, LastOf (fun n => n.loc = asc "version".toList) as o ∧ (o = none ∧ v = 0 ∨ ∃ b, o = some b ∧ ((b = [] ∧ v = 0) ∨ NumberText b v))

/-- The octets of a message: something between, the element of the right name and name space, and anything behind. -/
def MsgIs (lib : Lib) (nm : MsgName) (bs : Bytes) (as : List (QName × Bytes)) (v : Int) (i : Bytes) : Prop :=
  ∃ b w r qn, bs = b ++ w ++ r ∧ Between lib b ∧ Tagged lib qn as i w ∧ qn.loc = nm.loc ∧ SpaceIs as qn nm.space ∧ VersionIs as v

end Verif.CaXmlSpec
