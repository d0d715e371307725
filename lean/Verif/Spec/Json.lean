import Verif.Model.Json
import Mathlib.Data.List.Forall2
/-
  Specification of JSON texts: UTF-8 as in RFC 3629, the grammar of RFC 8259.
-/
set_option autoImplicit false

namespace Verif.JsonSpec
open Json

/-- A Unicode scalar value. -/
def Scalar (n : Nat) : Prop := n < 0xd800 ∨ (0xe000 ≤ n ∧ n < 0x110000)

/-- The octets of a character (RFC 3629, 3). -/
inductive Utf8 : Nat → Bytes → Prop where
  | one (n : Nat) (h : n < 0x80) : Utf8 n [n.toUInt8]
  | two (n : Nat) (h : 0x80 ≤ n ∧ n < 0x800) : Utf8 n [(0xc0 + n / 64).toUInt8, (0x80 + n % 64).toUInt8]
  | three (n : Nat) (h : 0x800 ≤ n ∧ n < 0x10000) (hs : Scalar n) :
      Utf8 n [(0xe0 + n / 4096).toUInt8, (0x80 + n / 64 % 64).toUInt8, (0x80 + n % 64).toUInt8]
  | four (n : Nat) (h : 0x10000 ≤ n ∧ n < 0x110000) :
      Utf8 n [(0xf0 + n / 262144).toUInt8, (0x80 + n / 4096 % 64).toUInt8, (0x80 + n / 64 % 64).toUInt8, (0x80 + n % 64).toUInt8]

/-- A string in UTF-8. -/
inductive IsUtf8 : Bytes → Prop where
  | nil : IsUtf8 []
  | cons (n : Nat) (u s : Bytes) (h : Utf8 n u) (hs : IsUtf8 s) : IsUtf8 (u ++ s)

/-- A string, and the same string with U+FFFD in place of every octet at which no character begins. -/
inductive Replaced : Bytes → Bytes → Prop where
  | nil : Replaced [] []
  | char (n : Nat) (u s t : Bytes) (h : Utf8 n u) (hs : Replaced s t) : Replaced (u ++ s) (u ++ t)
  | bad (b : UInt8) (s t : Bytes) (h : ¬ ∃ n u, Utf8 n u ∧ u <+: b :: s) (hs : Replaced s t) :
      Replaced (b :: s) ([0xef, 0xbf, 0xbd] ++ t)

/-- White space. -/
def Ws (w : Bytes) : Prop := ∀ c ∈ w, c ∈ [0x20, 0x09, 0x0a, 0x0d]

/-- The two-character escapes: the letter and the octet it stands for. -/
def shortEscapes : List (UInt8 × UInt8) :=
  [(34, 34), (92, 92), (47, 47), (98, 8), (102, 12), (110, 10), (114, 13), (116, 9)]

/-- Four hexadecimal digits, of either case, and their value. -/
def Hex4 (n : Nat) (h : Bytes) : Prop :=
  ∃ a b c d : Nat × UInt8, h = [a.2, b.2, c.2, d.2] ∧ n = 4096 * a.1 + 256 * b.1 + 16 * c.1 + d.1 ∧
    ∀ x ∈ [a, b, c, d], x.1 < 16 ∧ (x.2 = (asc "0123456789abcdef".toList).getD x.1 0 ∨ x.2 = (asc "0123456789ABCDEF".toList).getD x.1 0)

/-- What is between the quotation marks (RFC 8259, 7), and the string in UTF-8 that it stands for. -/
inductive Chars : Bytes → Bytes → Prop where
  | nil : Chars [] []
  | char (n : Nat) (u s t : Bytes) (h : Utf8 n u) (h1 : 0x20 ≤ n) (h2 : n ≠ 34) (h3 : n ≠ 92) (hs : Chars s t) : Chars (u ++ s) (u ++ t)
  | short (e c : UInt8) (s t : Bytes) (h : (e, c) ∈ shortEscapes) (hs : Chars s t) : Chars (c :: s) (92 :: e :: t)
  | hex (n : Nat) (u d s t : Bytes) (h : Hex4 n d) (hu : Utf8 n u) (hs : Chars s t) : Chars (u ++ s) (92 :: 117 :: d ++ t)
  | pair (a b : Nat) (u d e s t : Bytes) (ha : Hex4 (0xd800 + a) d) (hb : Hex4 (0xdc00 + b) e) (la : a < 1024) (lb : b < 1024)
      (hu : Utf8 (0x10000 + 1024 * a + b) u) (hs : Chars s t) : Chars (u ++ s) (92 :: 117 :: d ++ 92 :: 117 :: e ++ t)

/-- What is between the quotation marks, as encoding/json takes it: U+FFFD stands for an octet at which no character begins, and for an
    escaped surrogate that is not one half of a pair. -/
inductive LaxChars : Bytes → Bytes → Prop where
  | nil : LaxChars [] []
  | char (n : Nat) (u s t : Bytes) (h : Utf8 n u) (h1 : 0x20 ≤ n) (h2 : n ≠ 34) (h3 : n ≠ 92) (hs : LaxChars s t) : LaxChars (u ++ s) (u ++ t)
  | short (e c : UInt8) (s t : Bytes) (h : (e, c) ∈ shortEscapes) (hs : LaxChars s t) : LaxChars (c :: s) (92 :: e :: t)
  | hex (n : Nat) (u d s t : Bytes) (h : Hex4 n d) (hu : Utf8 n u) (hs : LaxChars s t) : LaxChars (u ++ s) (92 :: 117 :: d ++ t)
  | pair (a b : Nat) (u d e s t : Bytes) (ha : Hex4 (0xd800 + a) d) (hb : Hex4 (0xdc00 + b) e) (la : a < 1024) (lb : b < 1024)
      (hu : Utf8 (0x10000 + 1024 * a + b) u) (hs : LaxChars s t) : LaxChars (u ++ s) (92 :: 117 :: d ++ 92 :: 117 :: e ++ t)
  | bad (b : UInt8) (s t : Bytes) (h : ¬ ∃ n u, Utf8 n u ∧ u <+: b :: t) (hs : LaxChars s t) : LaxChars ([0xef, 0xbf, 0xbd] ++ s) (b :: t)
  | lone (n : Nat) (d s t : Bytes) (h : Hex4 n d) (hn : 0xd800 ≤ n ∧ n < 0xe000)
      (hp : n < 0xdc00 → ¬ ∃ b e t', b < 1024 ∧ Hex4 (0xdc00 + b) e ∧ t = 92 :: 117 :: e ++ t') (hs : LaxChars s t) :
      LaxChars ([0xef, 0xbf, 0xbd] ++ s) (92 :: 117 :: d ++ t)

/-- Digits, at least one. -/
def Digits (t : Bytes) : Prop := t ≠ [] ∧ ∀ c ∈ t, 48 ≤ c ∧ c ≤ 57

/-- A number (RFC 8259, 6). -/
def Number (t : Bytes) : Prop :=
  ∃ sign int frac exp, t = sign ++ int ++ frac ++ exp ∧ (sign = [] ∨ sign = [45]) ∧
    (int = [48] ∨ Digits int ∧ int.head? ≠ some 48) ∧
    (frac = [] ∨ ∃ d, frac = 46 :: d ∧ Digits d) ∧
    (exp = [] ∨ ∃ l s d, exp = l :: s ++ d ∧ (l = 101 ∨ l = 69) ∧ (s = [] ∨ s = [43] ∨ s = [45]) ∧ Digits d)

mutual
/-- A text of a value (RFC 8259, 3), at most `n` brackets deep. The first argument says how strings are written. -/
inductive Val (C : Bytes → Bytes → Prop) : Nat → Json → Bytes → Prop where
  | null (n : Nat) : Val C n .null (asc "null".toList)
  | true (n : Nat) : Val C n (.bool true) (asc "true".toList)
  | false (n : Nat) : Val C n (.bool false) (asc "false".toList)
  | num (n : Nat) (t : Bytes) (h : Number t) : Val C n (.num t) t
  | str (n : Nat) (s t : Bytes) (h : C s t) : Val C n (.str s) (34 :: t ++ [34])
  | arr0 (n : Nat) (w : Bytes) (h : Ws w) : Val C (n + 1) (.arr []) (91 :: w ++ [93])
  | arr (n : Nat) (l : List Json) (t : Bytes) (h : Elems C n l t) : Val C (n + 1) (.arr l) (91 :: t)
  | obj0 (n : Nat) (w : Bytes) (h : Ws w) : Val C (n + 1) (.obj []) (123 :: w ++ [125])
  | obj (n : Nat) (l : List (Bytes × Json)) (t : Bytes) (h : Members C n l t) : Val C (n + 1) (.obj l) (123 :: t)
/-- The elements of an array that is not empty, with the closing bracket. -/
inductive Elems (C : Bytes → Bytes → Prop) : Nat → List Json → Bytes → Prop where
  | last (n : Nat) (v : Json) (w t x : Bytes) (hw : Ws w) (hv : Val C n v t) (hx : Ws x) : Elems C n [v] (w ++ t ++ x ++ [93])
  | more (n : Nat) (v : Json) (l : List Json) (w t x r : Bytes) (hw : Ws w) (hv : Val C n v t) (hx : Ws x) (hl : Elems C n l r) :
      Elems C n (v :: l) (w ++ t ++ x ++ 44 :: r)
/-- The members of an object that is not empty, with the closing bracket. -/
inductive Members (C : Bytes → Bytes → Prop) : Nat → List (Bytes × Json) → Bytes → Prop where
  | last (n : Nat) (k : Bytes) (v : Json) (w q y w' t x : Bytes) (hw : Ws w) (hk : C k q) (hy : Ws y) (hw' : Ws w') (hv : Val C n v t)
      (hx : Ws x) : Members C n [(k, v)] (w ++ 34 :: q ++ 34 :: y ++ 58 :: w' ++ t ++ x ++ [125])
  | more (n : Nat) (k : Bytes) (v : Json) (l : List (Bytes × Json)) (w q y w' t x r : Bytes) (hw : Ws w) (hk : C k q) (hy : Ws y)
      (hw' : Ws w') (hv : Val C n v t) (hx : Ws x) (hl : Members C n l r) :
      Members C n ((k, v) :: l) (w ++ 34 :: q ++ 34 :: y ++ 58 :: w' ++ t ++ x ++ 44 :: r)
end

/-- A JSON text (RFC 8259, 2). -/
def Text (C : Bytes → Bytes → Prop) (n : Nat) (v : Json) (t : Bytes) : Prop := ∃ w b x, t = w ++ b ++ x ∧ Ws w ∧ Val C n v b ∧ Ws x

/-- All strings of the list are in UTF-8. -/
def ListUtf8 (l : Out.ROAList) : Prop :=
  IsUtf8 l.metadata.signature ∧ IsUtf8 l.metadata.signatureDate ∧ ∀ r ∈ l.data, IsUtf8 r.prefixText ∧ IsUtf8 r.asn ∧ IsUtf8 r.ta

/-- The list with the replacement of what is not UTF-8. -/
def Cleaned (l l' : Out.ROAList) : Prop :=
  l'.metadata.counts = l.metadata.counts ∧ l'.metadata.generated = l.metadata.generated ∧ l'.metadata.valid = l.metadata.valid ∧
  Replaced l.metadata.signature l'.metadata.signature ∧ Replaced l.metadata.signatureDate l'.metadata.signatureDate ∧
  List.Forall₂ (fun r r' => Replaced r.prefixText r'.prefixText ∧ r'.length = r.length ∧ Replaced r.asn r'.asn ∧ Replaced r.ta r'.ta)
    l.data l'.data

/-- What fits into the file of positions: strings in UTF-8, serials of 64 bits. -/
def FitJson (k s : Bytes) (n : Int) : Prop := IsUtf8 k ∧ IsUtf8 s ∧ -(2 ^ 63) ≤ n ∧ n < 2 ^ 63

end Verif.JsonSpec
