import Verif.Model.Base
/-
  The part of Go's package `net` used by the code (standard library, modelled from its
  documented behaviour and source; see "Trusted base" in DESIGN.md).
  A `net.IP` or `net.IPMask` is a byte list; nil is the empty list (the code and the
  library only look at the length and the bytes).
-/
set_option autoImplicit false

namespace Verif.Net

/-- `net.IP.To4`: the 4-byte form of an IPv4 or IPv4-mapped address, `none` for nil. -/
def to4 (ip : Bytes) : Option Bytes :=
  if ip.length = 4 then some ip
  else if ip.length = 16 ∧ ip.take 10 = List.replicate 10 0 ∧ (ip.drop 10).take 2 = [0xff, 0xff]
  then some (ip.drop 12)
  else none

/-- `net.IP.To16`: only whether the result is nil is used by the code. -/
def to16IsSome (ip : Bytes) : Bool := ip.length = 4 ∨ ip.length = 16

/-- The loop of `net.CIDRMask`: `l` bytes, `n` ones left. -/
def maskBytes : (l n : Nat) → Bytes
  | 0, _ => []
  | l + 1, n =>
    if n ≥ 8 then 0xff :: maskBytes l (n - 8)
    else (~~~ ((0xff : UInt8) >>> n.toUInt8)) :: maskBytes l 0

/-- `net.CIDRMask(ones, bits)`; nil (empty) when the arguments do not fit. -/
def cidrMask (ones bits : Nat) : Bytes :=
  if bits ≠ 32 ∧ bits ≠ 128 then []
  else if ones > bits then []
  else maskBytes (bits / 8) ones

/-- Inner loop of `net.simpleMaskLength`: counts leading one bits; `none` is the -1 case.
    A byte has 8 bits, so 8 rounds suffice. -/
def leadingOnes : (rounds : Nat) → (v : UInt8) → (n : Nat) → Nat × UInt8
  | 0, v, n => (n, v)
  | r + 1, v, n => if v &&& 0x80 ≠ 0 then leadingOnes r (v <<< 1) (n + 1) else (n, v)

/-- `net.simpleMaskLength`, with `none` for -1. -/
def simpleMaskLength : Bytes → Option Nat
  | [] => some 0
  | v :: rest =>
    if v = 0xff then (simpleMaskLength rest).map (· + 8)
    else
      let r := leadingOnes 8 v 0
      if r.2 ≠ 0 then none
      else if rest.all (· == 0) then some r.1 else none

/-- First result of `net.IPMask.Size()`: the number of leading ones, 0 for a
    non-canonical mask (and for nil). -/
def maskSize (m : Bytes) : Nat := (simpleMaskLength m).getD 0

/-- `net.IPNet`. -/
structure IPNet where
  ip : Bytes
  mask : Bytes
  deriving Repr, DecidableEq

/-- `net.networkNumberAndMask`; nil results are empty lists. -/
def networkNumberAndMask (n : IPNet) : Bytes × Bytes :=
  match (match to4 n.ip with
         | some ip4 => some ip4
         | none => if n.ip.length = 16 then some n.ip else none) with
  | none => ([], [])
  | some ip =>
    if n.mask.length = 4 then
      if ip.length ≠ 4 then ([], []) else (ip, n.mask)
    else if n.mask.length = 16 then
      if ip.length = 4 then (ip, n.mask.drop 12) else (ip, n.mask)
    else ([], [])

/-- Pointwise `nn[i] & m[i] == ip[i] & m[i]`. -/
def maskedEq : Bytes → Bytes → Bytes → Bool
  | a :: as, m :: ms, b :: bs => (a &&& m == b &&& m) && maskedEq as ms bs
  | _, _, _ => true

/-- `net.IPNet.Contains`. -/
def contains (n : IPNet) (ip : Bytes) : Bool :=
  let nm := networkNumberAndMask n
  let ip := (to4 ip).getD ip
  if ip.length ≠ nm.1.length then false
  else maskedEq nm.1 nm.2 ip

/-- `bytes.Compare(a, b) <= 0`: lexicographic order, a proper prefix is smaller. -/
def bytesLe : Bytes → Bytes → Bool
  | [], _ => true
  | _ :: _, [] => false
  | a :: as, b :: bs => if a < b then true else if b < a then false else bytesLe as bs

end Verif.Net
