import Verif.Model.Ber
/-
  Model of the part of the Go standard library package encoding/asn1 that validator/lib/cms.go,
  roa.go, manifest.go and xml.go call (Go 1.19, the version in /repo/go.mod).  The package is not in
  /repo; a fork of it is, at
  /repo/vendor/github.com/google/certificate-transparency-go/asn1/asn1.go, and the line numbers
  below are those of the fork.  Two differences of the standard package are modelled: a base 128
  integer that starts with 0x80 is rejected, and the members of a SET OF are sorted when encoded.

  Parsing functions take the bytes that are left and return the bytes that are left after them.
-/
set_option autoImplicit false

namespace Verif.Der

/-- asn1.go:548-552 `tagAndLength`. -/
structure Header where
  cls : Nat
  tag : Nat
  compound : Bool
  length : Nat
  deriving Repr, DecidableEq

/-- `asn1.RawValue`: class, tag, constructed bit, contents octets, complete element. The zero value
    stands for an absent optional element. -/
structure Elem where
  cls : Nat
  tag : Nat
  compound : Bool
  bytes : Bytes
  full : Bytes
  deriving Repr, DecidableEq

/-- the zero `asn1.RawValue` -/
def Elem.zero : Elem := ⟨0, 0, false, [], []⟩

/-- asn1.go:340-367 `parseBase128Int`. -/
def base128 : (shifted acc : Nat) → Bytes → Go (Nat × Bytes)
  | _, _, [] => .err "truncated base 128 integer"
  | shifted, acc, b :: rest =>
    if shifted = 5 then .err "base 128 integer too large"
    else if shifted = 0 ∧ b = 0x80 then .err "integer is not minimally encoded"
    else if b < 0x80 then
      if acc * 128 + b.toNat % 128 > 2147483647 then .err "base 128 integer too large"
      else .ok (acc * 128 + b.toNat % 128, rest)
    else base128 (shifted + 1) (acc * 128 + b.toNat % 128) rest

/-- asn1.go:615-641: the octets of a long length and the checks after them. -/
def longLength : (n acc : Nat) → Bytes → Go (Nat × Bytes)
  | 0, acc, bs => if acc < 0x80 then .err "non-minimal length" else .ok (acc, bs)
  | _ + 1, _, [] => .err "truncated tag or length"
  | n + 1, acc, b :: bs =>
    if acc ≥ 2 ^ 23 then .err "length too large"
    else if acc * 256 + b.toNat = 0 then .err "superfluous leading zeros in length"
    else longLength n (acc * 256 + b.toNat) bs

/-- asn1.go:599-642: the length octets. -/
def parseLength : Bytes → Go (Nat × Bytes)
  | [] => .err "truncated tag or length"
  | b :: bs =>
    if b < 0x80 then .ok (b.toNat, bs)
    else if b.toNat % 128 = 0 then .err "indefinite length found (not DER)"
    else longLength (b.toNat % 128) 0 bs

/-- asn1.go:584-598: the tag number, given the first identifier octet. -/
def parseTag (b : UInt8) (bs : Bytes) : Go (Nat × Bytes) :=
  if b.toNat % 32 = 31 then do
    let t ← base128 0 0 bs
    if t.1 < 31 then .err "non-minimal tag" else .ok t
  else .ok (b.toNat % 32, bs)

/-- asn1.go:572-645 `parseTagAndLength`. -/
def parseHeader : Bytes → Go (Header × Bytes)
  | [] => .err "asn1: internal error in parseTagAndLength"
  | b :: bs => do
    let t ← parseTag b bs
    let l ← parseLength t.2
    return (⟨b.toNat / 64, t.1, b &&& 0x20 = 0x20, l.1⟩, l.2)

/-- asn1.go:765-945 `parseField` for a `RawValue` without parameters: any element. -/
def parseAny (bs : Bytes) : Go (Elem × Bytes) :=
  if bs = [] then .err "sequence truncated"
  else do
    let h ← parseHeader bs
    if h.1.length > h.2.length then .err "data truncated"
    else return (⟨h.1.cls, h.1.tag, h.1.compound, h.2.take h.1.length,
                  bs.take (bs.length - h.2.length + h.1.length)⟩, h.2.drop h.1.length)

/-- asn1.go:765-945 `parseField` up to the contents octets, for a mandatory field of a type with the
    given universal tag and constructed bit. -/
def parseTyped (tag : Nat) (compound : Bool) (bs : Bytes) : Go (Bytes × Bytes) :=
  if bs = [] then .err "sequence truncated"
  else do
    let h ← parseHeader bs
    if h.1.cls ≠ 0 ∨ h.1.tag ≠ tag ∨ h.1.compound ≠ compound then .err "tags don't match"
    else if h.1.length > h.2.length then .err "data truncated"
    else return (h.2.take h.1.length, h.2.drop h.1.length)

/-- asn1.go:765-945 `parseField` for a `RawValue` with parameters `tag:n,optional` (with or without
    `implicit`, which means nothing): the constructed bit is not compared. -/
def parseOptRaw (n : Nat) (bs : Bytes) : Go (Elem × Bytes) :=
  if bs = [] then .ok (.zero, bs)
  else do
    let h ← parseHeader bs
    if h.1.cls ≠ 2 ∨ h.1.tag ≠ n then .ok (.zero, bs)
    else if h.1.length > h.2.length then .err "data truncated"
    else return (⟨h.1.cls, h.1.tag, h.1.compound, h.2.take h.1.length,
                  bs.take (bs.length - h.2.length + h.1.length)⟩, h.2.drop h.1.length)

/-- asn1.go:765-945 `parseField` up to the contents octets, for a slice or structure with parameters
    `tag:n,optional`. -/
def parseOptTyped (n : Nat) (bs : Bytes) : Go (Option Bytes × Bytes) :=
  if bs = [] then .ok (none, bs)
  else do
    let h ← parseHeader bs
    if h.1.cls ≠ 2 ∨ h.1.tag ≠ n ∨ h.1.compound ≠ true then .ok (none, bs)
    else if h.1.length > h.2.length then .err "data truncated"
    else return (some (h.2.take h.1.length), h.2.drop h.1.length)

/-- asn1.go:834-868 and 924-950: a `RawValue` with parameters `tag:n,explicit,optional`. The inner
    element is not parsed: the value is the outer element. -/
def parseOptExplicitRaw (n : Nat) (bs : Bytes) : Go (Elem × Bytes) :=
  if bs = [] then .ok (.zero, bs)
  else do
    let h ← parseHeader bs
    if h.2 = [] then .err "explicit tag has no child"
    else if h.1.cls = 2 ∧ h.1.tag = n ∧ (h.1.length = 0 ∨ h.1.compound = true) then
      if h.1.length > h.2.length then .err "data truncated"
      else return (⟨h.1.cls, h.1.tag, h.1.compound, h.2.take h.1.length,
                    bs.take (bs.length - h.2.length + h.1.length)⟩, h.2.drop h.1.length)
    else .ok (.zero, bs)

/-- asn1.go:834-868: the header of an explicit tag `n` around a value that is not a `RawValue`.
    Returns the bytes after the header; `none` when the tag does not match. The length of the
    explicit tag is not used any further. -/
def parseExplicit (n : Nat) (bs : Bytes) : Go (Option Bytes) := do
  let h ← parseHeader bs
  if h.2 = [] then .err "explicit tag has no child"
  else if h.1.cls = 2 ∧ h.1.tag = n ∧ (h.1.length = 0 ∨ h.1.compound = true) then
    if h.1.length > 0 then return some h.2
    else .err "zero length explicit tag was not an asn1.Flag"
  else return none

/-- asn1.go:650-710 `parseSequenceOf`. The Go code goes over the elements twice, first comparing
    tags and lengths, then parsing; an element parser `p` makes both checks, so one pass accepts the
    same inputs with the same values. `fuel` bounds the number of elements;
    `Verif.Der.parseAll_ne_diverge` shows that the length of the input suffices. -/
def parseAllFuel {α : Type} (p : Bytes → Go (α × Bytes)) : Nat → Bytes → Go (List α)
  | _, [] => .ok []
  | 0, _ :: _ => .diverge
  | n + 1, b :: bs => do
    let r ← p (b :: bs)
    let t ← parseAllFuel p n r.2
    return r.1 :: t

/-- asn1.go:650-710 `parseSequenceOf`. -/
def parseAll {α : Type} (p : Bytes → Go (α × Bytes)) (bs : Bytes) : Go (List α) :=
  parseAllFuel p bs.length bs

/-- asn1.go:108-146 `checkInteger` and the size check of `parseInt64`. -/
def intOk (c : Bytes) : Bool :=
  match c with
  | [] => false
  | [_] => true
  | a :: b :: _ => !((a == 0 && b < 0x80) || (a == 0xff && b ≥ 0x80)) && c.length ≤ 8

/-- asn1.go:1010-1017: a field of type `int`. The value is not used by the code and is kept as
    contents octets. -/
def parseInt (bs : Bytes) : Go (Bytes × Bytes) := do
  let r ← parseTyped 2 false bs
  if intOk r.1 then return r else .err "integer not minimally-encoded or too large"

/-- asn1.go:126-147 `parseInt64`: the value of the contents octets, in two's complement. -/
def intVal (c : Bytes) : Int :=
  match c with
  | [] => 0
  | a :: _ =>
    let u : Nat := c.foldl (fun acc d => acc * 256 + d.toNat) 0
    if a < 0x80 then (u : Int) else (u : Int) - (256 ^ c.length : Nat)

/-- asn1.go:287-333 `parseObjectIdentifier`: does it accept these contents octets? -/
def oidLoop : Nat → Bytes → Go Unit
  | _, [] => .ok ()
  | 0, _ :: _ => .diverge
  | n + 1, b :: bs => do
    let r ← base128 0 0 (b :: bs)
    oidLoop n r.2

/-- asn1.go:287-333 `parseObjectIdentifier`. Simplification: the value stays in the form of its
    contents octets. Two object identifiers read by this function are equal exactly when their
    contents octets are (the base 128 integers are minimal), and encoding one gives back its
    octets. -/
def parseOID (bs : Bytes) : Go (Bytes × Bytes) := do
  let r ← parseTyped 6 false bs
  if r.1 = [] then .err "zero length OBJECT IDENTIFIER"
  else do
    oidLoop r.1.length r.1
    return r

/-- asn1.go:1053-1059: a field of type `[]byte`. -/
def parseOctets (bs : Bytes) : Go (Bytes × Bytes) := parseTyped 4 false bs

/-- marshal.go `appendTagAndLength` and the contents, for a one-octet identifier.
    `Ber.encodeLength` is the same computation as `appendLength`. -/
def tlv (id : UInt8) (content : Bytes) : Bytes := id :: Ber.encodeLength content.length ++ content

/-- Inserting into a list sorted by `bytes.Compare`. -/
def insertSorted (x : Bytes) : List Bytes → List Bytes
  | [] => [x]
  | y :: ys => if x ≤ y then x :: y :: ys else y :: insertSorted x ys

/-- `setEncoder.Encode` of the standard package: the encoded members are sorted with
    `bytes.Compare` (equal members are equal byte strings, so the result does not depend on the
    sorting algorithm). -/
def sortSet : List Bytes → List Bytes
  | [] => []
  | x :: xs => insertSorted x (sortSet xs)

/-- A SET OF with the given encoded members. -/
def marshalSet (members : List Bytes) : Bytes := tlv 0x31 (sortSet members).flatten

end Verif.Der
