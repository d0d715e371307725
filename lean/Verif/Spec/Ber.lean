import Verif.Model.Base
/-
  Independent specification of BER and DER (X.690) at the tag-length-value level.
  Nothing here refers to the model of ber.go.
-/
set_option autoImplicit false

namespace Verif.BerSpec

/-- A value: identifier octets plus either contents octets or components. -/
inductive Tlv where
  | prim (tag : Bytes) (content : Bytes)
  | cons (tag : Bytes) (components : List Tlv)

/-- X.690 8.1.2: well-formed identifier octets. Bit 6 (0x20) tells constructed from
    primitive; number 31 announces the high-tag form: octets with the top bit set
    and a last octet without it. -/
def TagOk (constructed : Bool) (tag : Bytes) : Prop :=
  ∃ b rest, tag = b :: rest ∧ ((b &&& 0x20 ≠ 0) ↔ constructed = true) ∧
    ((b &&& 0x1F ≠ 0x1F ∧ rest = []) ∨
     (b &&& 0x1F = 0x1F ∧ ∃ mid last, rest = mid ++ [last] ∧
        (∀ x ∈ mid, x ≥ 0x80) ∧ last < 0x80))

/-- Big-endian value of a list of octets. -/
def beVal (ds : Bytes) : Nat := ds.foldl (fun a d => a * 256 + d.toNat) 0

/-- X.690 8.1.3, definite forms, as far as the code promises to read them: short form
    (one octet below 128), or long form with one to four subsequent octets, the first
    one not zero, and a value below 2^31.  A long form need not be minimal. -/
inductive DefLen : Nat → Bytes → Prop where
  | short (n : Nat) (h : n < 128) : DefLen n [n.toUInt8]
  | long (d : UInt8) (ds : Bytes) (hk : ds.length ≤ 3) (hd : d ≠ 0)
      (h4 : ds.length = 3 → d ≤ 0x7F) :
      DefLen (beVal (d :: ds)) ((0x80 + (ds.length + 1)).toUInt8 :: d :: ds)

mutual
/-- `BerEnc t bs`: `bs` is a BER encoding of `t`.  A constructed value may use the
    definite form, or the indefinite form closed by 00 00; in the indefinite form the
    value has at least one component and no component starts with 00 00. -/
inductive BerEnc : Tlv → Bytes → Prop where
  | prim (tag content len : Bytes) (ht : TagOk false tag) (hl : DefLen content.length len) :
      BerEnc (.prim tag content) (tag ++ len ++ content)
  | definite (tag : Bytes) (ts : List Tlv) (bss : List Bytes) (len : Bytes)
      (ht : TagOk true tag) (hs : BerEncs ts bss) (hl : DefLen bss.flatten.length len) :
      BerEnc (.cons tag ts) (tag ++ len ++ bss.flatten)
  | indefinite (tag : Bytes) (ts : List Tlv) (bss : List Bytes)
      (ht : TagOk true tag) (hs : BerEncs ts bss) (hne : ts ≠ [])
      (heoc : ∀ bs ∈ bss, bs.take 2 ≠ [0, 0]) :
      BerEnc (.cons tag ts) (tag ++ [0x80] ++ bss.flatten ++ [0, 0])
/-- Pointwise encodings of a list of values. -/
inductive BerEncs : List Tlv → List Bytes → Prop where
  | nil : BerEncs [] []
  | cons (t : Tlv) (ts : List Tlv) (bs : Bytes) (bss : List Bytes)
      (h : BerEnc t bs) (hs : BerEncs ts bss) : BerEncs (t :: ts) (bs :: bss)
end

/-- Big-endian base-256 digits without leading zero. -/
def digits (n : Nat) : Bytes :=
  if n = 0 then [] else digits (n / 256) ++ [(n % 256).toUInt8]
termination_by n
decreasing_by omega

/-- X.690 10.1: the DER length octets of `n` (for every `n` below 256^127). -/
def derLength (n : Nat) : Bytes :=
  if n < 128 then [n.toUInt8]
  else (0x80 ||| (digits n).length.toUInt8) :: digits n

mutual
/-- The DER encoding: same tree, every length definite and minimal. -/
def der : Tlv → Bytes
  | .prim tag content => tag ++ derLength content.length ++ content
  | .cons tag ts => tag ++ derLength (ders ts).length ++ ders ts
def ders : List Tlv → Bytes
  | [] => []
  | t :: ts => der t ++ ders ts
end

mutual
/-- All identifier octets of the tree are well formed. -/
def WellTagged : Tlv → Prop
  | .prim tag _ => TagOk false tag
  | .cons tag ts => TagOk true tag ∧ WellTaggedAll ts
def WellTaggedAll : List Tlv → Prop
  | [] => True
  | t :: ts => WellTagged t ∧ WellTaggedAll ts
end

end Verif.BerSpec
