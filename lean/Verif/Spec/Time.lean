import Verif.Spec.Crl
/-
  Dates as texts and as moments: the calendar by counting days, and the forms of UTCTime and GeneralizedTime
  (X.680 46, 47) that are read.
-/
set_option autoImplicit false

namespace Verif.Time
open Verif.CrlSpec (Moment decimal)

/-- Days of a year of the Gregorian calendar. -/
def yearDays (year : Nat) : Nat := if year % 4 = 0 ∧ (year % 100 ≠ 0 ∨ year % 400 = 0) then 366 else 365

/-- Days from the start of year 0 to the start of this year. -/
def daysBeforeYear : Nat → Nat
  | 0 => 0
  | y + 1 => daysBeforeYear y + yearDays y

/-- Days from the start of the year to the start of the month after month number `k`. -/
def daysThroughMonth (year : Nat) : Nat → Nat
  | 0 => 0
  | k + 1 => daysThroughMonth year k + CrlSpec.daysIn year (k + 1)

/-- Days from the start of year 0 to this date. -/
def dayNumber (m : Moment) : Nat := daysBeforeYear m.year + daysThroughMonth m.year (m.month - 1) + (m.day - 1)

/-- Seconds of the clock from the start of 1970 to this date and time. -/
def seconds (m : Moment) : Int :=
  ((dayNumber m : Int) - daysBeforeYear 1970) * 86400 + (m.hour * 3600 + m.minute * 60 + m.second)

/-- A time zone as it is written: UTC, or hours and minutes ahead of it or behind it. -/
inductive Zone where
  | utc
  | ahead (hours minutes : Nat)
  | behind (hours minutes : Nat)

/-- Two digits each, less than 60 minutes; no difference at all is written as UTC. -/
def Zone.Valid : Zone → Prop
  | .utc => True
  | .ahead h m => h ≤ 99 ∧ m ≤ 59 ∧ (h ≠ 0 ∨ m ≠ 0)
  | .behind h m => h ≤ 99 ∧ m ≤ 59 ∧ (h ≠ 0 ∨ m ≠ 0)

/-- `Z`, `+hhmm` or `-hhmm`. -/
def Zone.text : Zone → Bytes
  | .utc => [0x5a]
  | .ahead h m => 0x2b :: decimal 2 h ++ decimal 2 m
  | .behind h m => 0x2d :: decimal 2 h ++ decimal 2 m

/-- Seconds ahead of UTC. -/
def Zone.offset : Zone → Int
  | .utc => 0
  | .ahead h m => h * 3600 + m * 60
  | .behind h m => -(h * 3600 + m * 60)

/-- Month, day, hour and minute. -/
def toMinute (m : Moment) : Bytes := decimal 2 m.month ++ decimal 2 m.day ++ decimal 2 m.hour ++ decimal 2 m.minute

/-- GeneralizedTime with seconds: `YYYYMMDDhhmmss` and the zone. -/
def generalizedForm (m : Moment) (z : Zone) : Bytes := decimal 4 m.year ++ toMinute m ++ decimal 2 m.second ++ z.text

/-- UTCTime with seconds: `YYMMDDhhmmss` and the zone. -/
def utcForm (m : Moment) (z : Zone) : Bytes := decimal 2 m.year ++ toMinute m ++ decimal 2 m.second ++ z.text

/-- UTCTime without seconds: `YYMMDDhhmm` and the zone. -/
def utcShortForm (m : Moment) (z : Zone) : Bytes := decimal 2 m.year ++ toMinute m ++ z.text

/-- Date and time come before another date and time. -/
def Before (a b : Moment) : Prop :=
  a.year < b.year ∨ (a.year = b.year ∧ (a.month < b.month ∨ (a.month = b.month ∧ (a.day < b.day ∨ (a.day = b.day ∧
    (a.hour < b.hour ∨ (a.hour = b.hour ∧ (a.minute < b.minute ∨ (a.minute = b.minute ∧ a.second < b.second)))))))))

end Verif.Time
