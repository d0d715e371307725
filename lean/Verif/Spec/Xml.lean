import Verif.Model.Xml
import Verif.Spec.RrdpXml
import Verif.Spec.Json
/-
  How XML documents are written, octet by octet (XML 1.0, with the small liberties that encoding/xml takes; each is named).
-/
set_option autoImplicit false

namespace Verif.XmlSpec
open RrdpXml (Tok)
open RrdpXmlSpec (Xml)
open XmlScan (Lib QName Raw)
open JsonSpec (Utf8)

/-- White space (production 3). -/
def White (w : Bytes) : Prop := ∀ c ∈ w, c = 32 ∨ c = 9 ∨ c = 10 ∨ c = 13

/-- A character that a document may contain (production 2). -/
def XChar (n : Nat) : Prop :=
  n = 9 ∨ n = 10 ∨ n = 13 ∨ (0x20 ≤ n ∧ n ≤ 0xd7ff) ∨ (0xe000 ≤ n ∧ n ≤ 0xfffd) ∨ (0x10000 ≤ n ∧ n ≤ 0x10ffff)

/-- A text of such characters in UTF-8. -/
inductive XText : Bytes → Prop where
  | nil : XText []
  | cons (n : Nat) (u s : Bytes) (h : Utf8 n u) (hx : XChar n) (hs : XText s) : XText (u ++ s)

/-- Letters, digits and `_ : . -`. -/
def NameByte (c : UInt8) : Prop := (65 ≤ c ∧ c ≤ 90) ∨ (97 ≤ c ∧ c ≤ 122) ∨ (48 ≤ c ∧ c ≤ 57) ∨ c = 95 ∨ c = 58 ∨ c = 46 ∨ c = 45

/-- A name (production 5): of octets beyond ASCII the library decides; in ASCII it begins with a letter, `_` or `:`. -/
structure NameText (lib : Lib) (n : Bytes) : Prop where
  ne : n ≠ []
  octets : ∀ c ∈ n, 0x80 ≤ c ∨ NameByte c
  ascii : (∀ c ∈ n, c < 0x80) → ∀ a, n.head? = some a → (65 ≤ a ∧ a ≤ 90) ∨ (97 ≤ a ∧ a ≤ 122) ∨ a = 95 ∨ a = 58
  other : (∃ c ∈ n, 0x80 ≤ c) → lib n = true

/-- The name has a prefix. -/
def Prefixed (n p l : Bytes) : Prop := n = p ++ 58 :: l ∧ p ≠ [] ∧ l ≠ [] ∧ 58 ∉ p ∧ 58 ∉ l

/-- Prefix and local part of a name. -/
def QNameIs (n : Bytes) (q : QName) : Prop := Prefixed n q.space q.loc ∨ (q = ⟨[], n⟩ ∧ ∀ p l, ¬ Prefixed n p l)

/-- The value of hexadecimal digits by their places. -/
def hexPlace : Bytes → Nat
  | [] => 0
  | c :: r => (if c ≤ 57 then c.toNat - 48 else if c ≤ 70 then c.toNat - 55 else c.toNat - 87) * 16 ^ r.length + hexPlace r

/-- The text of a character; a surrogate, which is no character, gives U+FFFD (XML would reject it). -/
def CharIs (n : Nat) (u : Bytes) : Prop := Utf8 n u ∨ (0xd800 ≤ n ∧ n ≤ 0xdfff ∧ u = [0xef, 0xbf, 0xbd])

/-- A reference to a character, without the ampersand (productions 66 to 68): by name or by number. -/
inductive Ref : Bytes → Bytes → Prop where
  | lt : Ref [60] (asc "lt;".toList)
  | gt : Ref [62] (asc "gt;".toList)
  | amp : Ref [38] (asc "amp;".toList)
  | apos : Ref [39] (asc "apos;".toList)
  | quot : Ref [34] (asc "quot;".toList)
  | dec (ds u : Bytes) (hne : ds ≠ []) (hd : ∀ c ∈ ds, 48 ≤ c ∧ c ≤ 57) (hu : CharIs (RrdpXmlSpec.place ds) u) : Ref u (35 :: ds ++ [59])
  | hex (ds u : Bytes) (hne : ds ≠ []) (hd : ∀ c ∈ ds, (48 ≤ c ∧ c ≤ 57) ∨ (65 ≤ c ∧ c ≤ 70) ∨ (97 ≤ c ∧ c ≤ 102)) (hu : CharIs (hexPlace ds) u) :
      Ref u (35 :: 120 :: ds ++ [59])

/-- How a text is written: octets other than `<`, `&` and the quotation mark around it; the ends of lines CR, LF and CR LF all mean LF;
    references. -/
inductive Written (q : Option UInt8) : Bytes → Bytes → Prop where
  | nil : Written q [] []
  | oct (b : UInt8) (s t : Bytes) (h1 : b ≠ 60) (h2 : b ≠ 38) (h3 : b ≠ 13) (h4 : q ≠ some b) (hs : Written q s t) : Written q (b :: s) (b :: t)
  | crlf (s t : Bytes) (hs : Written q s t) : Written q (10 :: s) (13 :: 10 :: t)
  | cr (s t : Bytes) (h : t.head? ≠ some 10) (hs : Written q s t) : Written q (10 :: s) (13 :: t)
  | ref (u body s t : Bytes) (h : Ref u body) (hs : Written q s t) : Written q (u ++ s) (38 :: body ++ t)

/-- `]]>` is not in the text. -/
def NoEnd (w : Bytes) : Prop := ¬ [93, 93, 62] <:+: w

/-- The same for a CDATA section, where nothing but the ends of lines has a meaning. -/
inductive Lines : Bytes → Bytes → Prop where
  | nil : Lines [] []
  | oct (b : UInt8) (s t : Bytes) (h : b ≠ 13) (hs : Lines s t) : Lines (b :: s) (b :: t)
  | crlf (s t : Bytes) (hs : Lines s t) : Lines (10 :: s) (13 :: 10 :: t)
  | cr (s t : Bytes) (h : t.head? ≠ some 10) (hs : Lines s t) : Lines (10 :: s) (13 :: t)

/-- The attributes of a tag, each with white space before it (which encoding/xml does not demand between them), and white space at the
    end. -/
inductive AttrsIs (lib : Lib) : List (QName × Bytes) → Bytes → Prop where
  | nil (w : Bytes) (hw : White w) : AttrsIs lib [] w
  | cons (w n w1 w2 : Bytes) (qn : QName) (q : UInt8) (v t : Bytes) (as : List (QName × Bytes)) (r : Bytes) (hw : White w) (hn : NameText lib n) (hqn : QNameIs n qn)
      (h1 : White w1) (h2 : White w2) (hq : q = 34 ∨ q = 39) (hv : Written (some q) v t) (hx : XText v) (hr : AttrsIs lib as r) :
      AttrsIs lib ((qn, v) :: as) (w ++ n ++ w1 ++ 61 :: w2 ++ q :: t ++ q :: r)

/-- The rest of a directive such as `<!DOCTYPE …>`, with so many brackets open: quoted parts, comments and brackets. -/
inductive Dir : Nat → Bytes → Prop where
  | done : Dir 0 [62]
  | oct (d : Nat) (c : UInt8) (t : Bytes) (h : c ≠ 62 ∧ c ≠ 60 ∧ c ≠ 39 ∧ c ≠ 34) (ht : Dir d t) : Dir d (c :: t)
  | quoted (d : Nat) (q : UInt8) (s t : Bytes) (hq : q = 39 ∨ q = 34) (hs : q ∉ s) (ht : Dir d t) : Dir d (q :: s ++ q :: t)
  | close (d : Nat) (t : Bytes) (ht : Dir d t) : Dir (d + 1) (62 :: t)
  | note (d : Nat) (s t : Bytes) (hs : ¬ [45, 45, 62] <:+: s ++ [45, 45]) (ht : Dir d t) : Dir d (60 :: 33 :: 45 :: 45 :: s ++ 45 :: 45 :: 62 :: t)
  | deeper (d : Nat) (t : Bytes) (hn : ¬ [33, 45, 45] <+: t) (ht : Dir (d + 1) t) : Dir d (60 :: t)

/-- Nothing, or white space first. -/
def Apart (a : Bytes) : Prop := ∀ c, a.head? = some c → c = 32 ∨ c = 9 ∨ c = 10 ∨ c = 13

/-- What is behind the first place where `p` stands in `c`. -/
def FirstAfter (p c r : Bytes) : Prop := (∃ a, c = a ++ p ++ r) ∧ ∀ a' r', c = a' ++ p ++ r' → r'.length ≤ r.length

/-- The value of a parameter of the declaration, in quotation marks. -/
def ValueOf (key c v : Bytes) : Prop := ∃ q t, (q = 39 ∨ q = 34) ∧ q ∉ v ∧ FirstAfter (key ++ [61]) c (q :: v ++ q :: t)

/-- Equal but for the case of letters. -/
def SameLetters (a b : Bytes) : Prop := a.length = b.length ∧ ∀ x ∈ a.zip b, x.1 = x.2 ∨ (65 ≤ x.1 ∧ x.1 ≤ 90 ∧ x.1 + 32 = x.2)

/-- A declaration `<?xml …?>` that is accepted: no version or 1.0, no encoding or UTF-8. -/
def DeclOk (c : Bytes) : Prop :=
  (∀ v, ValueOf (asc "version".toList) c v → v = [] ∨ v = asc "1.0".toList) ∧
  (∀ v, ValueOf (asc "encoding".toList) c v → v = [] ∨ SameLetters v (asc "utf-8".toList))

/-- A piece of a document and what it is: tags, text, CDATA sections, comments, processing instructions, directives. -/
inductive Piece (lib : Lib) : Raw → Bytes → Prop where
  | start (n a : Bytes) (qn : QName) (as : List (QName × Bytes)) (hn : NameText lib n) (hq : QNameIs n qn) (ha : AttrsIs lib as a) (hs : Apart a) :
      Piece lib (.start qn as false) (60 :: n ++ a ++ [62])
  | empty (n a : Bytes) (qn : QName) (as : List (QName × Bytes)) (hn : NameText lib n) (hq : QNameIs n qn) (ha : AttrsIs lib as a) (hs : Apart a) :
      Piece lib (.start qn as true) (60 :: n ++ a ++ [47, 62])
  | stop (n w : Bytes) (qn : QName) (hn : NameText lib n) (hq : QNameIs n qn) (hw : White w) : Piece lib (.stop qn) (60 :: 47 :: n ++ w ++ [62])
  | text (s w : Bytes) (hne : w ≠ []) (hw : Written none s w) (he : NoEnd w) (hx : XText s) : Piece lib (.chars s) w
  | cdata (s c : Bytes) (hc : Lines s c) (he : NoEnd c) (hx : XText s) : Piece lib (.chars s) (asc "<![CDATA[".toList ++ c ++ asc "]]>".toList)
  | comment (c : Bytes) (hc : ¬ [45, 45] <:+: c ++ [45]) : Piece lib .misc (asc "<!--".toList ++ c ++ asc "-->".toList)
  | pi (n w c : Bytes) (hn : NameText lib n) (hw : White w) (hc : ¬ [63, 62] <:+: c) (ha : ∀ a, c.head? = some a → ¬ White [a]) (hs : w = [] → ∀ a, c.head? = some a → a < 0x80 ∧ ¬ NameByte a)
      (hd : n = asc "xml".toList → DeclOk c) : Piece lib .misc (60 :: 63 :: n ++ w ++ c ++ [63, 62])
  | directive (c : UInt8) (t : Bytes) (h : c ≠ 45 ∧ c ≠ 91) (ht : Dir 0 t) : Piece lib .misc (60 :: 33 :: c :: t)

/-- Text that is not in a section ends at a tag or with the document. -/
def Ends (w r : Bytes) : Prop := w.head? ≠ some 60 → r = [] ∨ r.head? = some 60

/-- Attributes by the local parts of their names. -/
def locals (as : List (QName × Bytes)) : List (Bytes × Bytes) := as.map fun kv => (kv.1.loc, kv.2)

/-- The text of a sequence of pieces as a tree: every element has its end tag, of the same name, or is closed at once. -/
inductive Content (lib : Lib) : List Xml → Bytes → Prop where
  | nil : Content lib [] []
  | elem (n a w : Bytes) (qn : QName) (as : List (QName × Bytes)) (cs xs : List Xml) (c t : Bytes) (hn : NameText lib n) (hq : QNameIs n qn) (ha : AttrsIs lib as a) (hs : Apart a)
      (hw : White w) (hc : Content lib cs c) (ht : Content lib xs t) : Content lib (.elem qn.loc (locals as) cs :: xs) ((60 :: n ++ a ++ [62]) ++ c ++ (60 :: 47 :: n ++ w ++ [62]) ++ t)
  | empty (n a : Bytes) (qn : QName) (as : List (QName × Bytes)) (xs : List Xml) (t : Bytes) (hn : NameText lib n) (hq : QNameIs n qn) (ha : AttrsIs lib as a) (hs : Apart a)
      (ht : Content lib xs t) : Content lib (.elem qn.loc (locals as) [] :: xs) ((60 :: n ++ a ++ [47, 62]) ++ t)
  | chars (s w : Bytes) (xs : List Xml) (t : Bytes) (hp : Piece lib (.chars s) w) (he : Ends w t) (ht : Content lib xs t) : Content lib (.text s :: xs) (w ++ t)
  | misc (w : Bytes) (xs : List Xml) (t : Bytes) (hp : Piece lib .misc w) (ht : Content lib xs t) : Content lib (.misc :: xs) (w ++ t)

/-- The octets of names, attributes and text in a token, without the names of end tags. -/
def tokSize : Tok → Nat
  | .start n as => n.length + (as.map fun kv => kv.1.length + kv.2.length).sum
  | .stop _ => 0
  | .chars b => b.length
  | .misc => 0

/-- The texts and attribute values of a token. -/
def tokTexts : Tok → List Bytes
  | .start _ as => as.map Prod.snd
  | .chars b => [b]
  | _ => []

end Verif.XmlSpec
