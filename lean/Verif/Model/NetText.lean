import Verif.Model.Net
/-
  The part of Go's package `net` that turns addresses and prefixes into text and back: `IP.String`,
  `IPMask.String`, `IPNet.String` and `ParseCIDR` (standard library of Go 1.19, files net/ip.go and
  net/parse.go; not in /repo, modelled from its source).  The command octorpki writes every prefix
  with `IPNet.String` (cmd/octorpki/octorpki.go:927, 937) and reads it back with `ParseCIDR`
  (vendor/github.com/cloudflare/gortr/prefixfile/prefixfile.go:124).  Strings are lists of bytes.
-/
set_option autoImplicit false

namespace Verif.Net

/-- The character of a digit below 16 (`_hexDigit`). -/
def digitChar (d : Nat) : UInt8 := if d < 10 then (48 + d).toUInt8 else (87 + d).toUInt8

/-- The value of a character as a digit in base `b` (10 or 16, parse.go:157, 170-182). -/
def digitVal (b : Nat) (c : UInt8) : Option Nat :=
  if 48 ≤ c ∧ c ≤ 57 then some (c.toNat - 48)
  else if b = 16 ∧ 97 ≤ c ∧ c ≤ 102 then some (c.toNat - 87)
  else if b = 16 ∧ 65 ≤ c ∧ c ≤ 70 then some (c.toNat - 55)
  else none

/-- Digits of a number in base `b`, most significant first, with enough fuel. -/
def digitsFuel (b : Nat) : Nat → Nat → Bytes
  | 0, _ => []
  | f + 1, n => if n < b then [digitChar n] else digitsFuel b f (n / b) ++ [digitChar (n % b)]

/-- `itoa.Uitoa`, `appendHex` and `%v` of a number that is not negative: no leading zeros. -/
def numText (b n : Nat) : Bytes := digitsFuel b (n.log2 + 1) n

/-- parse.go:155-163, 168-189: the loops of `dtoi` and `xtoi`; `none` when the number gets too big. -/
def readLoop (b : Nat) : (acc : Nat) → Bytes → Option (Nat × Bytes)
  | acc, [] => some (acc, [])
  | acc, c :: s =>
    match digitVal b c with
    | none => some (acc, c :: s)
    | some d => if acc * b + d ≥ 0xffffff then none else readLoop b (acc * b + d) s

/-- parse.go:153-166 `dtoi` and 168-192 `xtoi`: the number and the rest of the text. -/
def readNum (b : Nat) : Bytes → Option (Nat × Bytes)
  | [] => none
  | c :: s => if digitVal b c = none then none else readLoop b 0 (c :: s)

/-- Joining texts with a separator. -/
def joinWith (sep : Bytes) : List Bytes → Bytes
  | [] => []
  | [x] => x
  | x :: y :: rest => x ++ sep ++ joinWith sep (y :: rest)

/-- The 16-bit groups of an address. -/
def groups : Bytes → List Nat
  | a :: b :: rest => (a.toNat * 256 + b.toNat) :: groups rest
  | _ => []

/-- Number of zero groups at the start. -/
def zeroRun : List Nat → Nat
  | 0 :: rest => zeroRun rest + 1
  | _ => 0

/-- ip.go:317-330 (`IP.String`): the first longest run of zero groups, from group `i` on, in numbers of
    groups (the code counts bytes). `fuel` bounds the rounds: there are 8 groups. -/
def findRun : (fuel i : Nat) → List Nat → Nat × Nat → Nat × Nat
  | 0, _, _, best => best
  | _, _, [], best => best
  | f + 1, i, g :: gs, best =>
    let r := zeroRun (g :: gs)
    if r > best.2 - best.1 then findRun f (i + r + 1) ((g :: gs).drop (r + 1)) (i, i + r)
    else findRun f (i + 1) gs best

/-- ip.go:331-358: the groups in hexadecimal, with "::" in place of the run if it has at least two
    groups. -/
def ipv6Text (gs : List Nat) : Bytes :=
  let e := findRun 8 0 gs (0, 0)
  if e.2 - e.1 ≤ 1 then joinWith [58] (gs.map (numText 16))
  else joinWith [58] ((gs.take e.1).map (numText 16)) ++ [58, 58] ++ joinWith [58] ((gs.drop e.2).map (numText 16))

/-- `hexString`: two characters for each byte. -/
def hexString (b : Bytes) : Bytes := b.flatMap fun x => [digitChar (x.toNat / 16), digitChar (x.toNat % 16)]

/-- "<nil>" -/
def nilText : Bytes := [60, 110, 105, 108, 62]

/-- ip.go:296-358 `IP.String`. -/
def ipString (ip : Bytes) : Bytes :=
  if ip = [] then nilText
  else match to4 ip with
  | some p => joinWith [46] (p.map fun x => numText 10 x.toNat)
  | none => if ip.length ≠ 16 then 63 :: hexString ip else ipv6Text (groups ip)

/-- ip.go:504-513 `IPMask.String`. -/
def maskString (m : Bytes) : Bytes := if m = [] then nilText else hexString m

/-- ip.go:569-583 `IPNet.String`. -/
def ipNetString (n : IPNet) : Bytes :=
  let nm := networkNumberAndMask n
  if nm.1 = [] ∨ nm.2 = [] then nilText
  else match simpleMaskLength nm.2 with
  | none => ipString nm.1 ++ [47] ++ maskString nm.2
  | some l => ipString nm.1 ++ [47] ++ numText 10 l

/-- ip.go:586-617 `parseIPv4` from the second number on: `n` numbers, each after a dot. -/
def parseDotted : Nat → Bytes → Option (Bytes × Bytes)
  | 0, s => some ([], s)
  | n + 1, s =>
    match s with
    | 46 :: s =>
      match readNum 10 s with
      | none => none
      | some (v, r) =>
        if v > 255 ∨ (s.length - r.length > 1 ∧ s.head? = some 48) then none
        else (parseDotted n r).map fun x => (v.toUInt8 :: x.1, x.2)
    | _ => none

/-- ip.go:586-617 `parseIPv4`: the four bytes of the address. -/
def parseIPv4 (s : Bytes) : Option Bytes :=
  match parseDotted 4 (46 :: s) with
  | some (p, []) => some p
  | _ => none

/-- ip.go:639-700: the loop of `parseIPv6`: the bytes read, the position of "::", and what is left of
    the text. There are at most 8 rounds, as each reads at least two bytes. -/
def parseGroups : (fuel : Nat) → (acc : Bytes) → (ell : Option Nat) → Bytes → Option (Bytes × Option Nat × Bytes)
  | 0, acc, ell, s => some (acc, ell, s)
  | f + 1, acc, ell, s =>
    if acc.length ≥ 16 then some (acc, ell, s)
    else match readNum 16 s with
    | none => none
    | some (n, r) =>
      if n > 0xffff then none
      else match r with
      | 46 :: _ =>
        if ell = none ∧ acc.length ≠ 12 then none
        else if acc.length + 4 > 16 then none
        else (parseIPv4 s).map fun p => (acc ++ p, ell, [])
      | [] => some (acc ++ [(n / 256).toUInt8, n.toUInt8], ell, [])
      | 58 :: 58 :: r =>
        if ell ≠ none then none
        else if r = [] then some (acc ++ [(n / 256).toUInt8, n.toUInt8], some (acc.length + 2), [])
        else parseGroups f (acc ++ [(n / 256).toUInt8, n.toUInt8]) (some (acc.length + 2)) r
      | 58 :: c :: r => parseGroups f (acc ++ [(n / 256).toUInt8, n.toUInt8]) ell (c :: r)
      | _ => none

/-- ip.go:702-721: the end of `parseIPv6`: the whole text must be used; "::" is filled up with zeros. -/
def expandEllipsis (r : Bytes × Option Nat × Bytes) : Option Bytes :=
  if r.2.2 ≠ [] then none
  else if r.1.length < 16 then
    match r.2.1 with
    | none => none
    | some e => some (r.1.take e ++ List.replicate (16 - r.1.length) 0 ++ r.1.drop e)
  else if r.2.1 ≠ none then none
  else some r.1

/-- ip.go:625-724 `parseIPv6` (without zones). -/
def parseIPv6 (s : Bytes) : Option Bytes :=
  match s with
  | [58, 58] => some (List.replicate 16 0)
  | 58 :: 58 :: r => (parseGroups 8 [] (some 0) r).bind expandEllipsis
  | s => (parseGroups 8 [] none s).bind expandEllipsis

/-- The text before the first '/' and the text after it. -/
def cutSlash : Bytes → Option (Bytes × Bytes)
  | [] => none
  | c :: s => if c = 47 then some ([], s) else (cutSlash s).map fun r => (c :: r.1, r.2)

/-- ip.go:526-545 `IP.Mask` for an address and a mask of the same length. -/
def maskIP (ip m : Bytes) : Bytes := (ip.zip m).map fun x => x.1 &&& x.2

/-- ip.go:773-795 `ParseCIDR`: the network. (For an IPv4 address `Mask` gives the 4-byte form.) -/
def parseCIDR (s : Bytes) : Option IPNet :=
  match cutSlash s with
  | none => none
  | some (addr, mask) =>
    match parseIPv4 addr, readNum 10 mask with
    | some ip, some (n, []) => if n > 32 then none else some ⟨maskIP ip (cidrMask n 32), cidrMask n 32⟩
    | none, some (n, []) =>
      match parseIPv6 addr with
      | none => none
      | some ip => if n > 128 then none else some ⟨maskIP ip (cidrMask n 128), cidrMask n 128⟩
    | _, _ => none

end Verif.Net
