import Mathlib.Tactic.ByContra
import Mathlib.Tactic.IntervalCases
import Verif.Model.Time
import Verif.Spec.Time
/- Lemmas for Props/Time.lean: the calendar. -/
set_option autoImplicit false

namespace Verif.Time
open Verif.CrlSpec (Moment decimal)
open Verif.Crl (Civil)

/-! ### The calendar -/

/-- The day of the year, counted from 0. -/
def yday (leap : Bool) (month day : Nat) : Nat :=
  daysBefore.getD (month - 1) 0 + (if leap = true ∧ month ≥ 3 then 1 else 0) + (day - 1)

/-- Days of a month. -/
def monthDays (leap : Bool) (month : Nat) : Nat :=
  if month = 2 ∧ leap = true then 29 else daysBefore.getD month 0 - daysBefore.getD (month - 1) 0

theorem daysIn_eq (month : Nat) (year : Int) : daysIn month year = monthDays (isLeap year) month := rfl

/-- Month and day of a day of the year. -/
def ofYday (leap : Bool) (d : Nat) : Nat × Nat :=
  if leap = true ∧ d = 59 then (2, 29)
  else
    let d := if leap = true ∧ d > 59 then d - 1 else d
    let month := d / 31
    let stop := daysBefore.getD (month + 1) 0
    if d ≥ stop then (month + 2, d - stop + 1) else (month + 1, d - daysBefore.getD month 0 + 1)

theorem ofYday_yday (leap : Bool) (month day : Nat) (h1 : 1 ≤ month) (h2 : month ≤ 12) (h3 : 1 ≤ day)
    (h4 : day ≤ monthDays leap month) : ofYday leap (yday leap month day) = (month, day) := by
  have all : ∀ (leap : Bool) (month : Fin 13) (day : Fin 32), ¬ (1 ≤ month.val) ∨ ¬ (1 ≤ day.val) ∨
      ¬ (day.val ≤ monthDays leap month.val) ∨ ofYday leap (yday leap month.val day.val) = (month.val, day.val) := by
    decide +kernel
  have hd : ∀ leap : Bool, ∀ month < 13, monthDays leap month < 32 := by decide
  have hday : day < 32 := by have := hd leap month (by omega); omega
  rcases all leap ⟨month, by omega⟩ ⟨day, hday⟩ with h | h | h | h
  · exact absurd h1 h
  · exact absurd h3 h
  · exact absurd h4 h
  · exact h

theorem yday_lt (leap : Bool) (month day : Nat) (h1 : 1 ≤ month) (h2 : month ≤ 12) (h3 : 1 ≤ day)
    (h4 : day ≤ monthDays leap month) : yday leap month day < if leap = true then 366 else 365 := by
  have all : ∀ leap : Bool, ∀ month < 13, ∀ day < 32, 1 ≤ month → 1 ≤ day → day ≤ monthDays leap month →
      yday leap month day < if leap = true then 366 else 365 := by decide +kernel
  have hd : ∀ leap : Bool, ∀ month < 13, monthDays leap month < 32 := by decide
  exact all leap month (by omega) day (by have := hd leap month (by omega); omega) h1 h3 h4

theorem isLeap_iff (year : Int) : isLeap year = true ↔ year % 4 = 0 ∧ (year % 100 ≠ 0 ∨ year % 400 = 0) := by
  simp [isLeap]

/-- The year and the day of the year of a number of days. -/
def yearOf (d : Nat) : Int × Nat :=
  let n := d / 146097
  let y := 400 * n
  let d := d - 146097 * n
  let n := d / 36524
  let n := n - n / 4
  let y := y + 100 * n
  let d := d - 36524 * n
  let n := d / 1461
  let y := y + 4 * n
  let d := d - 1461 * n
  let n := d / 365
  let n := n - n / 4
  let y := y + n
  let d := d - 365 * n
  ((y : Int) - 292277022399, d)

theorem absDate_eq (d : Nat) :
    absDate d = ((yearOf d).1, (ofYday (isLeap (yearOf d).1) (yearOf d).2).1, (ofYday (isLeap (yearOf d).1) (yearOf d).2).2) := by
  unfold absDate ofYday yearOf
  simp only
  split
  · rfl
  · split <;> split <;> rfl

theorem yearOf_days (year : Int) (hy : 0 ≤ year) (k : Nat) (hk : k < if isLeap year = true then 366 else 365) :
    yearOf (daysSinceEpoch year + k) = (year, k) := by
  have hl := isLeap_iff year
  obtain ⟨Y, hY⟩ : ∃ Y : Nat, year + 292277022399 = Y := ⟨(year + 292277022399).toNat, by omega⟩
  obtain ⟨a, r, hr, hYa⟩ : ∃ a r, r < 400 ∧ Y = 400 * a + r := ⟨Y / 400, Y % 400, by omega, by omega⟩
  obtain ⟨b, r2, hr2, hYb⟩ : ∃ b r2, r2 < 100 ∧ r = 100 * b + r2 := ⟨r / 100, r % 100, by omega, by omega⟩
  obtain ⟨c, e, he, hYc⟩ : ∃ c e, e < 4 ∧ r2 = 4 * c + e := ⟨r2 / 4, r2 % 4, by omega, by omega⟩
  have hb : b ≤ 3 := by omega
  have hc : c ≤ 24 := by omega
  have hleap : isLeap year = true ↔ e = 3 ∧ (c ≠ 24 ∨ b = 3) := by
    rw [hl]; omega
  have hk' : k < 365 ∨ (k < 366 ∧ e = 3 ∧ (c ≠ 24 ∨ b = 3)) := by
    by_cases h : isLeap year = true
    · rw [if_pos h] at hk; exact .inr ⟨hk, hleap.1 h⟩
    · rw [if_neg h] at hk; exact .inl hk
  have hd : daysSinceEpoch year = 146097 * a + 36524 * b + 1461 * c + 365 * e := by
    unfold daysSinceEpoch
    simp only
    have : (year + 292277022399).toNat = Y := by omega
    rw [this]
    have h1 : Y / 400 = a := by omega
    rw [h1]
    have h2 : (Y - 400 * a) / 100 = b := by omega
    rw [h2]
    have h3 : (Y - 400 * a - 100 * b) / 4 = c := by omega
    rw [h3]
    omega
  rw [hd]
  unfold yearOf
  simp only
  have g1 : (146097 * a + 36524 * b + 1461 * c + 365 * e + k) / 146097 = a := by omega
  rw [g1]
  have g2 : (146097 * a + 36524 * b + 1461 * c + 365 * e + k) - 146097 * a = 36524 * b + 1461 * c + 365 * e + k := by omega
  rw [g2]
  have g3 : (36524 * b + 1461 * c + 365 * e + k) / 36524 - (36524 * b + 1461 * c + 365 * e + k) / 36524 / 4 = b := by
    have hrest : 1461 * c + 365 * e + k ≤ 36523 ∨ (1461 * c + 365 * e + k = 36524 ∧ b = 3) := by
      clear hd hl hleap g1 g2 hYa hYb hYc
      omega
    rw [Nat.add_assoc, Nat.add_assoc]
    rw [Nat.add_assoc] at hrest
    generalize 1461 * c + (365 * e + k) = rest at hrest ⊢
    clear hd hl hleap g1 g2 hYa hYb hYc hk'
    omega
  rw [g3]
  have g4 : (36524 * b + 1461 * c + 365 * e + k) - 36524 * b = 1461 * c + 365 * e + k := by omega
  rw [g4]
  have g5 : (1461 * c + 365 * e + k) / 1461 = c := by omega
  rw [g5]
  have g6 : (1461 * c + 365 * e + k) - 1461 * c = 365 * e + k := by omega
  rw [g6]
  have g7 : (365 * e + k) / 365 - (365 * e + k) / 365 / 4 = e := by omega
  rw [g7]
  refine Prod.ext ?_ ?_
  · simp only; omega
  · simp only; omega

/-- Fields in range. -/
structure InRange (year : Int) (month day hour minute second : Nat) : Prop where
  nonneg : 0 ≤ year
  month1 : 1 ≤ month
  month2 : month ≤ 12
  day1 : 1 ≤ day
  day2 : day ≤ daysIn month year
  hours : hour ≤ 23
  minutes : minute ≤ 59
  seconds : second ≤ 59

theorem date_eq {year : Int} {month day hour minute second : Nat} :
    date year month day hour minute second =
      ((daysSinceEpoch year + yday (isLeap year) month day) * 86400 + (hour * 3600 + minute * 60 + second) : Nat) +
        (-9223371966579724800 - 62135596800) := by
  have e : ∀ a b : Nat, a = b → ∀ c : Int, (a : Int) + c = (b : Int) + c := by
    intro a b h c; rw [h]
  unfold date yday
  simp only
  apply e
  split <;> rw [Nat.add_right_cancel_iff] <;> congr 1 <;> omega

/-- The fields of a moment are those it was made of. -/
theorem civil_date {year : Int} {month day hour minute second : Nat} (h : InRange year month day hour minute second)
    (offset : Int) :
    civil (date year month day hour minute second - offset) offset = ⟨year, month, day, hour, minute, second, 0⟩ := by
  obtain ⟨h0, h1, h2, h3, h4, h5, h6, h7⟩ := h
  rw [date_eq]
  unfold civil
  simp only
  generalize hD : daysSinceEpoch year + yday (isLeap year) month day = D
  have e : (((D * 86400 + (hour * 3600 + minute * 60 + second) : Nat) : Int) + (-9223371966579724800 - 62135596800) - offset +
      offset + (62135596800 + 9223371966579724800)).toNat = D * 86400 + (hour * 3600 + minute * 60 + second) := by omega
  rw [e]
  have e1 : (D * 86400 + (hour * 3600 + minute * 60 + second)) / 86400 = D := by omega
  have e2 : (D * 86400 + (hour * 3600 + minute * 60 + second)) % 86400 = hour * 3600 + minute * 60 + second := by omega
  rw [e1, e2, absDate_eq, ← hD, yearOf_days year h0 _ (yday_lt _ _ _ h1 h2 h3 h4)]
  simp only
  rw [ofYday_yday _ _ _ h1 h2 h3 h4]
  simp only [Civil.mk.injEq, true_and, and_true]
  omega

theorem daysBeforeYear_eq (y : Nat) : daysBeforeYear y = 365 * y + (y + 3) / 4 + (y + 399) / 400 - (y + 99) / 100 := by
  induction y with
  | zero => rfl
  | succ y ih =>
    simp only [daysBeforeYear, ih, yearDays]
    split <;> omega

theorem daysThroughMonth_eq (year : Nat) (month : Nat) (h1 : 1 ≤ month) (h2 : month ≤ 12) :
    daysThroughMonth year (month - 1) = daysBefore.getD (month - 1) 0 + (if isLeap year = true ∧ month ≥ 3 then 1 else 0) := by
  have hl := isLeap_iff year
  have hl' : isLeap year = true ↔ year % 4 = 0 ∧ (year % 100 ≠ 0 ∨ year % 400 = 0) := by rw [hl]; omega
  by_cases hleap : isLeap year = true
  · have := hl'.1 hleap
    interval_cases month <;> simp [daysThroughMonth, CrlSpec.daysIn, daysBefore, this, hleap]
  · have : ¬ (year % 4 = 0 ∧ (year % 100 ≠ 0 ∨ year % 400 = 0)) := fun h => hleap (hl'.2 h)
    interval_cases month <;> simp [daysThroughMonth, CrlSpec.daysIn, daysBefore, this, hleap]

theorem daysIn_spec (year month : Nat) (h1 : 1 ≤ month) (h2 : month ≤ 12) : daysIn month (year : Int) = CrlSpec.daysIn year month := by
  have hl := isLeap_iff year
  have hl' : isLeap year = true ↔ year % 4 = 0 ∧ (year % 100 ≠ 0 ∨ year % 400 = 0) := by rw [hl]; omega
  by_cases hleap : isLeap year = true
  · have := hl'.1 hleap
    interval_cases month <;> simp [daysIn, CrlSpec.daysIn, daysBefore, this, hleap]
  · have : ¬ (year % 4 = 0 ∧ (year % 100 ≠ 0 ∨ year % 400 = 0)) := fun h => hleap (hl'.2 h)
    interval_cases month <;> simp [daysIn, CrlSpec.daysIn, daysBefore, this, hleap]

theorem daysSinceEpoch_spec (year : Nat) :
    (daysSinceEpoch year : Int) = daysBeforeYear year + (106751990353566) := by
  rw [daysBeforeYear_eq]
  unfold daysSinceEpoch
  simp only
  omega

end Verif.Time
