import Verif.Model.NetText
import Verif.Spec.Resources
/-
  Independent specification of the texts of addresses: decimal numerals, dotted IPv4 addresses, and the
  recommended form of IPv6 addresses (RFC 5952 section 4).
-/
set_option autoImplicit false

namespace Verif.TextSpec
open Net

/-- The value of decimal digits after a number `acc`. -/
def decVal (acc : Nat) (t : Bytes) : Nat := t.foldl (fun a c => a * 10 + (c.toNat - 48)) acc

/-- `t` is the decimal numeral of `n`, without leading zeros. -/
def Decimal (t : Bytes) (n : Nat) : Prop :=
  t ≠ [] ∧ (∀ c ∈ t, 48 ≤ c ∧ c ≤ 57) ∧ decVal 0 t = n ∧ (t.length > 1 → t.head? ≠ some 48)

/-- `s` is the dotted form of the four bytes `ip`. -/
def Dotted (s ip : Bytes) : Prop :=
  ∃ (t1 t2 t3 t4 : Bytes) (a b c d : UInt8), s = t1 ++ 46 :: t2 ++ 46 :: t3 ++ 46 :: t4 ∧ ip = [a, b, c, d] ∧
    Decimal t1 a.toNat ∧ Decimal t2 b.toNat ∧ Decimal t3 c.toNat ∧ Decimal t4 d.toNat

/-- There are `m` zero groups from group `j` on. -/
def ZerosAt (gs : List Nat) (j m : Nat) : Prop := ∀ t, t < m → gs[j + t]? = some 0

/-- The groups, in hexadecimal, with single colons. -/
def hexGroups (gs : List Nat) : Bytes := joinWith [58] (gs.map (numText 16))

/-- RFC 5952 section 4.2: "::" stands for the longest run of two or more zero groups, the first one if there are several; without such
    a run there is no "::". -/
def Recommended (gs : List Nat) (s : Bytes) : Prop :=
  (∃ i k, 2 ≤ k ∧ ZerosAt gs i k ∧ (∀ j m, ZerosAt gs j m → m < k ∨ (m = k ∧ i ≤ j)) ∧
      s = hexGroups (gs.take i) ++ [58, 58] ++ hexGroups (gs.drop (i + k))) ∨
  ((¬ ∃ j, ZerosAt gs j 2) ∧ s = hexGroups gs)

/-- `c` is the hexadecimal digit `d`, small or capital. -/
def HexDigit (c : UInt8) (d : Nat) : Prop :=
  (asc "0123456789abcdef".toList)[d]? = some c ∨ (asc "0123456789ABCDEF".toList)[d]? = some c

/-- The digits `t` after a number `acc` give the number `v`. -/
inductive HexFrom : (acc : Nat) → (t : Bytes) → (v : Nat) → Prop where
  | done (acc : Nat) : HexFrom acc [] acc
  | digit (acc : Nat) (c : UInt8) (d : Nat) (t : Bytes) (v : Nat) (hd : HexDigit c d) (h : HexFrom (acc * 16 + d) t v) : HexFrom acc (c :: t) v

/-- One group of an IPv6 text: a hexadecimal number of 16 bits (leading zeros are allowed). -/
def HexGroup (t : Bytes) (n : Nat) : Prop := t ≠ [] ∧ HexFrom 0 t n ∧ n < 65536

/-- One or more groups with single colons between them, and their bytes. -/
inductive Colons : Bytes → Bytes → Prop where
  | one (t : Bytes) (n : Nat) (h : HexGroup t n) : Colons t [(n / 256).toUInt8, (n % 256).toUInt8]
  | more (t : Bytes) (n : Nat) (s b : Bytes) (h : HexGroup t n) (hs : Colons s b) :
      Colons (t ++ 58 :: s) ((n / 256).toUInt8 :: (n % 256).toUInt8 :: b)

/-- The same, where the last two groups may be written as a dotted IPv4 address. -/
inductive ColonsQuad : Bytes → Bytes → Prop where
  | one (t : Bytes) (n : Nat) (h : HexGroup t n) : ColonsQuad t [(n / 256).toUInt8, (n % 256).toUInt8]
  | quad (t b : Bytes) (h : Dotted t b) : ColonsQuad t b
  | more (t : Bytes) (n : Nat) (s b : Bytes) (h : HexGroup t n) (hs : ColonsQuad s b) :
      ColonsQuad (t ++ 58 :: s) ((n / 256).toUInt8 :: (n % 256).toUInt8 :: b)

/-- A text of an IPv6 address (RFC 4291 section 2.2): eight groups, or fewer with one "::" for at least one zero group. -/
def V6Text (s ip : Bytes) : Prop :=
  (ColonsQuad s ip ∧ ip.length = 16) ∨
  ∃ l r a b, s = l ++ [58, 58] ++ r ∧ (Colons l a ∨ (l = [] ∧ a = [])) ∧ (ColonsQuad r b ∨ (r = [] ∧ b = [])) ∧
    a.length + b.length < 16 ∧ ip = a ++ List.replicate (16 - (a.length + b.length)) 0 ++ b

/-- `n` is the prefix of length `p` of the address `ip`: the mask has `p` ones, the bits after them are cleared. -/
def PrefixOf (ip : Bytes) (p : Nat) (n : IPNet) : Prop :=
  n.ip.length = ip.length ∧ n.mask.length = ip.length ∧ ResSpec.IsMask p n.mask ∧
    BerSpec.beVal n.ip = BerSpec.beVal ip / 2 ^ (8 * ip.length - p) * 2 ^ (8 * ip.length - p)

/-- A text of a prefix: address, slash, length in decimal digits (leading zeros are allowed). -/
def CidrText (s : Bytes) (n : IPNet) : Prop :=
  ∃ addr t ip p, s = addr ++ 47 :: t ∧ t ≠ [] ∧ (∀ c ∈ t, 48 ≤ c ∧ c ≤ 57) ∧ decVal 0 t = p ∧ PrefixOf ip p n ∧
    ((Dotted addr ip ∧ p ≤ 32) ∨ (V6Text addr ip ∧ p ≤ 128))

end Verif.TextSpec
