import Verif.Spec.Ber
/-
  What a reader accepts that goes through octets from left to right and never checks that the parts of a value end where
  the value ends, and where such a reader wants an octet that is not there.  Nothing here refers to the model of ber.go.
-/
set_option autoImplicit false

namespace Verif.BerLax
open BerSpec

mutual
/-- `Front t k s`: the octets `s` begin with a value `t`, and reading goes on `k` octets further.  In the definite form
    the parts may reach beyond the end of the value: then what lies beyond is read again. -/
inductive Front : Tlv → Nat → Bytes → Prop where
  | prim (tag len content rest : Bytes) (ht : TagOk false tag) (hl : DefLen content.length len) :
      Front (.prim tag content) (tag.length + len.length + content.length) (tag ++ len ++ content ++ rest)
  | definite (tag len : Bytes) (n : Nat) (ts : List Tlv) (s : Bytes) (ht : TagOk true tag) (hl : DefLen n len)
      (hn : n ≤ s.length) (hs : Within n ts s) :
      Front (.cons tag ts) (tag.length + len.length + n) (tag ++ len ++ s)
  | indefinite (tag : Bytes) (ts : List Tlv) (k : Nat) (s : Bytes) (ht : TagOk true tag) (hs : Until ts k s) :
      Front (.cons tag ts) (tag.length + 1 + k + 2) (tag ++ [0x80] ++ s)
/-- `Within n ts s`: values `ts` are read one after the other until `n` octets are used up or exceeded. -/
inductive Within : Nat → List Tlv → Bytes → Prop where
  | done (s : Bytes) : Within 0 [] s
  | step (n k : Nat) (t : Tlv) (ts : List Tlv) (s : Bytes) (hn : 0 < n) (h : Front t k s) (hs : Within (n - k) ts (s.drop k)) :
      Within n (t :: ts) s
/-- `Until ts k s`: values `ts` are read up to the first two zero octets that follow a value. -/
inductive Until : List Tlv → Nat → Bytes → Prop where
  | last (t : Tlv) (k : Nat) (s : Bytes) (h : Front t k s) (hz : (s.drop k).take 2 = [0, 0]) : Until [t] k s
  | more (t : Tlv) (ts : List Tlv) (k j : Nat) (s : Bytes) (h : Front t k s) (hl : 2 ≤ (s.drop k).length)
      (hz : (s.drop k).take 2 ≠ [0, 0]) (hs : Until ts j (s.drop k)) : Until (t :: ts) (k + j) s
end

/-- The octets end inside, or before, an identifier. -/
def TagCut (s : Bytes) : Prop :=
  s = [] ∨ ∃ b mid, s = b :: mid ∧ b &&& 0x1F = 0x1F ∧ ∀ x ∈ mid, x ≥ 0x80

/-- The octets end inside a length in long form, of one to four octets, that has no fault so far. -/
def LengthCut (s : Bytes) : Prop :=
  ∃ (l : UInt8) (ds : Bytes), s = l :: ds ∧ 0x80 < l ∧ l ≤ 0x84 ∧ ds.length + 0x80 < l.toNat ∧
    ∀ d ∈ ds.head?, d ≠ 0 ∧ (l = 0x84 → d ≤ 0x7F)

mutual
/-- `Breaks s`: reading a value at the front of `s` comes to a place where an octet is missing and not noticed. -/
inductive Breaks : Bytes → Prop where
  | tag (s : Bytes) (h : TagCut s) : Breaks s
  | length (c : Bool) (tag s : Bytes) (ht : TagOk c tag) (h : LengthCut s) : Breaks (tag ++ s)
  | definite (tag len : Bytes) (n : Nat) (s : Bytes) (ht : TagOk true tag) (hl : DefLen n len) (hn : n ≤ s.length)
      (hs : BreaksWithin n s) : Breaks (tag ++ len ++ s)
  | indefinite (tag s : Bytes) (ht : TagOk true tag) (hs : BreaksUntil s) : Breaks (tag ++ [0x80] ++ s)
/-- The same among the parts of a value in definite form. -/
inductive BreaksWithin : Nat → Bytes → Prop where
  | here (n : Nat) (s : Bytes) (hn : 0 < n) (h : Breaks s) : BreaksWithin n s
  | later (n k : Nat) (t : Tlv) (s : Bytes) (hn : 0 < n) (h : Front t k s) (hs : BreaksWithin (n - k) (s.drop k)) :
      BreaksWithin n s
/-- The same among the parts of a value in indefinite form. -/
inductive BreaksUntil : Bytes → Prop where
  | here (s : Bytes) (h : Breaks s) : BreaksUntil s
  | later (k : Nat) (t : Tlv) (s : Bytes) (h : Front t k s) (hl : 2 ≤ (s.drop k).length)
      (hz : (s.drop k).take 2 ≠ [0, 0]) (hs : BreaksUntil (s.drop k)) : BreaksUntil s
end

end Verif.BerLax
