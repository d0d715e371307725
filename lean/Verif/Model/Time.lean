import Verif.Model.Crl
/-
  Dates: how `encoding/asn1` reads UTCTime and GeneralizedTime, which is how the dates of manifests
  (validator/lib/manifest.go:106), revocation lists (validator/pki/pki.go:354) and the signing time of a CMS message
  (validator/lib/cms.go:418-428) are read.  From the standard library of Go 1.19 (/repo/go.mod): encoding/asn1/asn1.go
  `parseUTCTime` and `parseGeneralizedTime`, and the parts of package time they use: `Parse`, `Date`, `Format` and
  `AddDate` (time/format.go, time/time.go), for the three layouts that occur.

  A `time.Time` is the number of seconds since 1970 in UTC, with the offset of its zone; the nanoseconds are 0 in all
  accepted texts (a fraction is read and then refused by the comparison with the formatted text).  Simplified: numbers do
  not overflow (dates have at most four digits of the year); if the offset is that of the local zone of the machine the
  value carries the local zone, which has the same offset at that moment.
-/
set_option autoImplicit false

namespace Verif.Time
open Crl (Civil digit)

/-- The elements of a layout. -/
inductive Std where
  | year | longYear | month | day | hour | minute | second | zone
  deriving DecidableEq, Repr

/-- "0601021504Z0700" -/
def utcShort : List Std := [.year, .month, .day, .hour, .minute, .zone]
/-- "060102150405Z0700" -/
def utcLong : List Std := [.year, .month, .day, .hour, .minute, .second, .zone]
/-- "20060102150405Z0700" -/
def generalized : List Std := [.longYear, .month, .day, .hour, .minute, .second, .zone]

/-- The variables of `time.parse`; the zone offset in seconds. `frac` says whether a fraction of a second other than zero was
    read. -/
structure Parts where
  year : Int
  month : Nat
  day : Nat
  hour : Nat
  minute : Nat
  second : Nat
  frac : Bool
  offset : Int
  deriving DecidableEq, Repr

/-- format.go `parse`: the initial values. -/
def Parts.start : Parts := ⟨0, 0, 0, 0, 0, 0, false, 0⟩

/-- format.go `isDigit(s, i)`. -/
def isDigitAt (s : Bytes) (i : Nat) : Bool :=
  match s[i]? with
  | some c => 0x30 ≤ c && c ≤ 0x39
  | none => false

/-- `int(c - '0')` -/
def digitVal (c : UInt8) : Nat := c.toNat - 48

/-- format.go `leadingInt`: the number at the start, and what follows it. -/
def leadingInt : (acc : Nat) → Bytes → Nat × Bytes
  | acc, [] => (acc, [])
  | acc, c :: s => if 0x30 ≤ c && c ≤ 0x39 then leadingInt (acc * 10 + digitVal c) s else (acc, c :: s)

/-- format.go `atoi`: a sign is allowed, and there may be no digits. -/
def atoi (s : Bytes) : Go Int :=
  let neg := s.head? = some 0x2d
  let r := leadingInt 0 (if s.head? = some 0x2d ∨ s.head? = some 0x2b then s.tail else s)
  if r.2 ≠ [] then .err "time: invalid number" else .ok (if neg then -(r.1 : Int) else r.1)

/-- format.go `getnum`: one or two digits, or exactly two. -/
def getnum (s : Bytes) (fixed : Bool) : Go (Nat × Bytes) :=
  match s with
  | a :: b :: rest =>
    if !isDigitAt s 0 then .err "bad value for field"
    else if !isDigitAt s 1 then (if fixed then .err "bad value for field" else .ok (digitVal a, b :: rest))
    else .ok (digitVal a * 10 + digitVal b, rest)
  | [a] =>
    if !isDigitAt s 0 then .err "bad value for field"
    else if fixed then .err "bad value for field" else .ok (digitVal a, [])
  | [] => .err "bad value for field"

/-- The digits at the start, and the rest. -/
def spanDigits : Bytes → Bytes × Bytes
  | [] => ([], [])
  | c :: s => if 0x30 ≤ c && c ≤ 0x39 then (c :: (spanDigits s).1, (spanDigits s).2) else ([], c :: s)

/-- format.go `parse`, after the seconds: a fraction may follow although the layout has none. `parseNanoseconds` takes the
    digits; more than nine are cut off (`value = value[:10]`). -/
def fraction (s : Bytes) : Bool × Bytes :=
  match s with
  | c :: rest =>
    if (c = 0x2e ∨ c = 0x2c) ∧ isDigitAt s 1 = true then
      (((spanDigits rest).1.take 9).any (· ≠ 0x30), (spanDigits rest).2)
    else (false, s)
  | [] => (false, s)

/-- format.go `parse`: one element of the layout. -/
def parseStd (std : Std) (p : Parts) (s : Bytes) : Go (Parts × Bytes) :=
  match std with
  | .year =>
    if s.length < 2 then .err "bad value for field"
    else do
      let y ← atoi (s.take 2)
      return ({ p with year := if y ≥ 69 then y + 1900 else y + 2000 }, s.drop 2)
  | .longYear =>
    if s.length < 4 ∨ isDigitAt s 0 = false then .err "bad value for field"
    else do
      let y ← atoi (s.take 4)
      return ({ p with year := y }, s.drop 4)
  | .month => do
    let r ← getnum s true
    if r.1 = 0 ∨ 12 < r.1 then .err "month out of range" else return ({ p with month := r.1 }, r.2)
  | .day => do
    let r ← getnum s true
    return ({ p with day := r.1 }, r.2)
  | .hour => do
    let r ← getnum s false
    if 24 ≤ r.1 then .err "hour out of range" else return ({ p with hour := r.1 }, r.2)
  | .minute => do
    let r ← getnum s true
    if 60 ≤ r.1 then .err "minute out of range" else return ({ p with minute := r.1 }, r.2)
  | .second => do
    let r ← getnum s true
    if 60 ≤ r.1 then .err "second out of range"
    else
      let f := fraction r.2
      return ({ p with second := r.1, frac := f.1 }, f.2)
  | .zone =>
    if s.head? = some 0x5a then .ok ({ p with offset := 0 }, s.tail)
    else if s.length < 5 then .err "bad value for field"
    else do
      let hr ← atoi ((s.drop 1).take 2)
      let mm ← atoi ((s.drop 3).take 2)
      let off := (hr * 60 + mm) * 60
      if s.head? = some 0x2b then return ({ p with offset := off }, s.drop 5)
      else if s.head? = some 0x2d then return ({ p with offset := -off }, s.drop 5)
      else .err "bad value for field"

/-- format.go `parse`: the loop over the layout; text left over is an error. -/
def parseStds : List Std → Parts → Bytes → Go Parts
  | [], p, s => if s ≠ [] then .err "extra text" else .ok p
  | std :: rest, p, s => do
    let r ← parseStd std p s
    parseStds rest r.1 r.2

/-- time.go `isLeap`. -/
def isLeap (year : Int) : Bool := decide (year % 4 = 0) && (decide (year % 100 ≠ 0) || decide (year % 400 = 0))

/-- time.go `daysBefore`: days in a non-leap year before each month. -/
def daysBefore : List Nat := [0, 31, 59, 90, 120, 151, 181, 212, 243, 273, 304, 334, 365]

/-- time.go `daysIn`. The month is in range where it is called. -/
def daysIn (month : Nat) (year : Int) : Nat :=
  if month = 2 ∧ isLeap year = true then 29 else daysBefore.getD month 0 - daysBefore.getD (month - 1) 0

/-- format.go `parse`, the end: the day of the month is checked. -/
def parseTime (layout : List Std) (s : Bytes) : Go Parts := do
  let p ← parseStds layout Parts.start s
  if p.day < 1 ∨ p.day > daysIn p.month p.year then .err "day out of range" else return p

/-- time.go `daysSinceEpoch`: days from the absolute epoch to the start of the year. The epoch is a year that is 1 modulo
    400. -/
def daysSinceEpoch (year : Int) : Nat :=
  let y := (year + 292277022399).toNat
  let n := y / 400
  let y := y - 400 * n
  let d := 146097 * n
  let n := y / 100
  let y := y - 100 * n
  let d := d + 36524 * n
  let n := y / 4
  let y := y - 4 * n
  let d := d + 1461 * n
  d + 365 * y

/-- time.go `Date` in UTC, for fields in range: seconds since 1970. -/
def date (year : Int) (month day hour minute second : Nat) : Int :=
  let d := daysSinceEpoch year + daysBefore.getD (month - 1) 0
  let d := if isLeap year = true ∧ month ≥ 3 then d + 1 else d
  let d := d + (day - 1)
  let abs := d * 86400 + (hour * 3600 + minute * 60 + second)
  (abs : Int) + (-9223371966579724800 - 62135596800)

/-- A `time.Time`: seconds since 1970 in UTC, and the offset of its zone in seconds. -/
structure Stamp where
  unix : Int
  offset : Int
  deriving DecidableEq, Repr

/-- format.go `parse`, the end: the value of the fields. -/
def Parts.stamp (p : Parts) : Stamp :=
  ⟨date p.year p.month p.day p.hour p.minute p.second - p.offset, p.offset⟩

/-- time.go `absDate`: year, month and day of a day counted from the absolute epoch. -/
def absDate (d : Nat) : Int × Nat × Nat :=
  let n := d / 146097
  let y := 400 * n
  let d := d - 146097 * n
  let n := d / 36524
  let n := n - n / 4
  let y := y + 100 * n
  let d := d - 36524 * n
  let n := d / 1461
  let y := y + 4 * n
  let d := d - 1461 * n
  let n := d / 365
  let n := n - n / 4
  let y := y + n
  let d := d - 365 * n
  let year := (y : Int) - 292277022399
  if isLeap year = true ∧ d = 59 then (year, 2, 29)
  else
    let d := if isLeap year = true ∧ d > 59 then d - 1 else d
    let month := d / 31
    let stop := daysBefore.getD (month + 1) 0
    if d ≥ stop then (year, month + 2, d - stop + 1) else (year, month + 1, d - daysBefore.getD month 0 + 1)

/-- time.go `Time.abs`, `Date`, `Clock`: the fields of a moment in a zone with this offset. -/
def civil (unix offset : Int) : Civil :=
  let abs := (unix + offset + (62135596800 + 9223371966579724800)).toNat
  let d := absDate (abs / 86400)
  let sec := abs % 86400
  ⟨d.1, d.2.1, d.2.2, sec / 3600, sec % 3600 / 60, sec % 60, 0⟩

/-- format.go `appendInt`: the digits, with room for twenty. -/
def digits : (room : Nat) → Nat → Bytes
  | 0, _ => []
  | r + 1, u => if u ≥ 10 then digits r (u / 10) ++ [digit (u % 10)] else [digit u]

/-- format.go `appendInt`, for a number that is not negative. -/
def appendInt (x width : Nat) : Bytes :=
  let ds := digits 20 x
  List.replicate (width - ds.length) 0x30 ++ ds

/-- format.go `appendFormat`: one element of the layout. The year is not negative where this is called. -/
def formatStd (c : Civil) (offset : Int) : Std → Bytes
  | .year => appendInt (c.year.toNat % 100) 2
  | .longYear => appendInt c.year.toNat 4
  | .month => appendInt c.month 2
  | .day => appendInt c.day 2
  | .hour => appendInt c.hour 2
  | .minute => appendInt c.minute 2
  | .second => appendInt c.second 2
  | .zone =>
    if offset = 0 then [0x5a]
    else
      let zone := (offset.tdiv 60).natAbs
      (if offset.tdiv 60 < 0 then [0x2d] else [0x2b]) ++ appendInt (zone / 60) 2 ++ appendInt (zone % 60) 2

/-- time.go `Time.Format`. -/
def Stamp.format (t : Stamp) (layout : List Std) : Bytes :=
  (layout.map (formatStd (civil t.unix t.offset) t.offset)).flatten

/-- time.go `Time.AddDate(-100, 0, 0)`: the same fields a hundred years earlier. The fields are in range because a leap year
    in question minus 100 is a leap year. -/
def Stamp.centuryBack (t : Stamp) : Stamp :=
  let c := civil t.unix t.offset
  ⟨date (c.year - 100) c.month c.day c.hour c.minute c.second - t.offset, t.offset⟩

/-- asn1.go `parseUTCTime`. -/
def parseUTCTime (s : Bytes) : Go Stamp :=
  let attempt : Go (List Std × Parts) :=
    match parseTime utcShort s with
    | .ok p => .ok (utcShort, p)
    | .err _ =>
      match parseTime utcLong s with
      | .ok p => .ok (utcLong, p)
      | .err e => .err e
      | .panic => .panic
      | .diverge => .diverge
    | .panic => .panic
    | .diverge => .diverge
  match attempt with
  | .ok (layout, p) =>
    if p.stamp.format layout ≠ s then .err "asn1: time did not serialize back to the original value"
    else if (civil p.stamp.unix p.stamp.offset).year ≥ 2050 then .ok p.stamp.centuryBack
    else .ok p.stamp
  | .err e => .err e
  | .panic => .panic
  | .diverge => .diverge

/-- asn1.go `parseGeneralizedTime`. -/
def parseGeneralizedTime (s : Bytes) : Go Stamp := do
  let p ← parseTime generalized s
  if p.stamp.format generalized ≠ s then .err "asn1: time did not serialize back to the original value"
  else return p.stamp

/-- asn1.go:981-993: a field of type `time.Time`, by its tag. -/
def readTime (isGeneralized : Bool) (s : Bytes) : Go Stamp :=
  if isGeneralized then parseGeneralizedTime s else parseUTCTime s

/-- The same as fields in UTC, the form that Model/Crl uses. -/
def readCivil (isGeneralized : Bool) (s : Bytes) : Go Civil := do
  let t ← readTime isGeneralized s
  return civil t.unix 0

end Verif.Time
