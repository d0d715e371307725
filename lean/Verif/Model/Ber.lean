import Verif.Model.Base
/-
  Model of validator/lib/ber.go (BER to DER transcoding), byte by byte.
  Every out-of-range index of the Go code is a `panic` here.
-/
set_option autoImplicit false

namespace Verif.Ber

/-- ber.go:15-44  `asn1Object`, `asn1Structured`, `asn1Primitive`. -/
inductive Obj where
  | prim (tagBytes : Bytes) (length : Nat) (content : Bytes)
  | struct (tagBytes : Bytes) (content : List Obj)

/-- ber.go:95-102 `lengthLength` (`i` is never negative: it is a buffer length
    or a parsed length).  The loop is a recursion on `i / 256`. -/
def lengthLength (i : Nat) : Nat :=
  if i > 255 then lengthLength (i / 256) + 1 else 1
termination_by i
decreasing_by omega

/-- ber.go:81-92 `marshalLongLength`: writes byte `i >> ((n-1)*8)` for
    `n = lengthLength i` down to 1. `marshalBytes i n` is the loop started at `n`. -/
def marshalBytes (i : Nat) : Nat → Bytes
  | 0 => []
  | n + 1 => (i / 256 ^ n).toUInt8 :: marshalBytes i n

/-- ber.go:81-92 `marshalLongLength` -/
def marshalLongLength (i : Nat) : Bytes := marshalBytes i (lengthLength i)

/-- ber.go:118-136 `encodeLength` (the `bytes.Buffer` writes cannot fail). -/
def encodeLength (length : Nat) : Bytes :=
  if length ≥ 128 then
    (0x80 ||| (lengthLength length).toUInt8) :: marshalLongLength length
  else [length.toUInt8]

mutual
/-- ber.go:24-38 and 46-57 `encodeTo`. -/
def encodeTo : Obj → Bytes
  | .prim tagBytes length content => tagBytes ++ encodeLength length ++ content
  | .struct tagBytes content =>
      let inner := encodeAll content
      tagBytes ++ encodeLength inner.length ++ inner
/-- ber.go:27-32: the loop over the children of a structured object. -/
def encodeAll : List Obj → Bytes
  | [] => []
  | o :: os => encodeTo o ++ encodeAll os
end

/-- ber.go:146-149: the loop over the continuation octets of a long tag;
    returns the offset of the first octet below 0x80. The accumulated value
    `tag` is never used by the code and is not modelled. -/
def skipTag (ber : Bytes) (offset : Nat) : Go Nat :=
  if h : offset < ber.length then
    if ber[offset] ≥ 0x80 then skipTag ber (offset + 1) else .ok offset
  else .panic
termination_by ber.length - offset

/-- ber.go:185-188: reading the `n` octets of a long length. -/
def readLength (ber : Bytes) : (n offset acc : Nat) → Go (Nat × Nat)
  | 0, offset, acc => .ok (acc, offset)
  | n + 1, offset, acc => do
      let b ← idx ber offset
      readLength ber n (offset + 1) (acc * 256 + b.toNat)

/-- What ber.go:138-206 computes before looking at the content. -/
structure Header where
  /-- `ber[tagStart:tagEnd]` -/
  tagBytes : Bytes
  /-- `kind != 0` -/
  constructed : Bool
  indefinite : Bool
  length : Nat
  /-- `offset` after the length octets -/
  contentStart : Nat

/-- ber.go:141-153: the identifier octets; returns the first octet and `tagEnd`. -/
def readTag (ber : Bytes) (offset : Nat) : Go (UInt8 × Nat) := do
  let b ← idx ber offset
  if b &&& 0x1F = 0x1F then
    let o ← skipTag ber (offset + 1)
    return (b, o + 1)
  else
    return (b, offset + 1)

/-- ber.go:164-193: the length octets; returns `(indefinite, length, offset)`. -/
def readLen (ber : Bytes) (offset : Nat) : Go (Bool × Nat × Nat) :=
  if ber.length ≤ offset then .err "ber2der: invalid BER tag length"
  else do
    let l ← idx ber offset
    let offset := offset + 1
    if l > 0x80 then
      let numberOfBytes := (l &&& 0x7F).toNat
      if numberOfBytes > 4 then .err "ber2der: BER tag length too long"
      else
        let first ← idx ber offset
        if numberOfBytes = 4 ∧ first > 0x7F then .err "ber2der: BER tag length is negative"
        else if first = 0 then .err "ber2der: BER tag length has leading zero"
        else
          let r ← readLength ber numberOfBytes offset 0
          return (false, r.1, r.2)
    else if l = 0x80 then return (true, 0, offset)
    else return (false, l.toNat, offset)

/-- ber.go:140-206: tag, length and the checks before the content is used. -/
def readHeader (ber : Bytes) (tagStart : Nat) : Go Header := do
  let t ← readTag ber tagStart
  let kind := t.1 &&& 0x20
  let l ← readLen ber t.2
  if l.2.2 + l.2.1 > ber.length then
    .err "ber2der: BER tag length is more than available data"
  else if l.1 ∧ kind = 0 then
    .err "ber2der: Indefinite form tag must have constructed encoding"
  else
    return { tagBytes := (ber.drop tagStart).take (t.2 - tagStart)
             constructed := kind ≠ 0
             indefinite := l.1
             length := l.2.1
             contentStart := l.2.2 }

/-- ber.go:249-255 `isIndefiniteTermination`. `bytes.Index(x, {0,0}) == 0` holds
    exactly when `x` starts with two zero octets. -/
def isIndefiniteTermination (ber : Bytes) (offset : Nat) : Go Bool :=
  if (ber.length : Int) - offset < 2 then .err "ber2der: Invalid BER format"
  else .ok ((ber.drop offset).take 2 = [0, 0])

/-- ber.go:224-233: after a child, is an indefinite-length object closed here? -/
def closed (indefinite : Bool) (ber : Bytes) (offset : Nat) : Go Bool :=
  if indefinite then isIndefiniteTermination ber offset else .ok false

mutual
/-- ber.go:138-247 `readObject`. The recursion of the Go code has no bound of
    its own, so the model has fuel; `Verif.Ber.readObject_fuel` shows that the
    fuel given by `BER2DER` always suffices. -/
def readObject (fuel : Nat) (ber : Bytes) (offset : Nat) : Go (Obj × Nat) :=
  match fuel with
  | 0 => .diverge
  | fuel + 1 => do
    let h ← readHeader ber offset
    let contentEnd := h.contentStart + h.length
    if h.constructed = false then
      return (.prim h.tagBytes h.length
                ((ber.drop h.contentStart).take (contentEnd - h.contentStart)), contentEnd)
    else
      let r ← readContent fuel ber h.indefinite contentEnd h.contentStart
      return (.struct h.tagBytes r.1, if h.indefinite then r.2 + 2 else contentEnd)
/-- ber.go:214-234: the loop reading the children of a constructed object.
    Returns the children read from here on and the final offset. -/
def readContent (fuel : Nat) (ber : Bytes) (indefinite : Bool) (contentEnd offset : Nat) :
    Go (List Obj × Nat) :=
  match fuel with
  | 0 => .diverge
  | fuel + 1 =>
    if offset < contentEnd ∨ indefinite = true then do
      let s ← readObject fuel ber offset
      let terminated ← closed indefinite ber s.2
      if terminated then
        return ([s.1], s.2)
      else
        let rest ← readContent fuel ber indefinite contentEnd s.2
        return (s.1 :: rest.1, rest.2)
    else .ok ([], offset)
end

/-- Enough recursion depth for any input of this size. -/
def fuelFor (ber : Bytes) : Nat := ber.length + 2

/-- ber.go:60-78 `BER2DER`. `obj.encodeTo(out)` never fails. -/
def BER2DER (ber : Bytes) : Go Bytes :=
  if ber.length = 0 then .err "ber2der: input ber is empty"
  else do
    let r ← readObject (fuelFor ber) ber 0
    return encodeTo r.1

end Verif.Ber
