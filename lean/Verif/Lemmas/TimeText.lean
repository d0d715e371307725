import Verif.Lemmas.Time
/- Lemmas for Props/Time.lean: the texts. -/
set_option autoImplicit false

namespace Verif.Time
open Verif.CrlSpec (Moment decimal)
open Verif.Crl (Civil digit)

/-! ### Digits -/

theorem digit_mod (n : Nat) : digit n = digit (n % 10) := by simp [digit]

theorem digit_ok (n : Nat) : (0x30 ≤ digit n && digit n ≤ 0x39) = true ∧ digitVal (digit n) = n % 10 ∧ digit n ≠ 0x2d ∧
    digit n ≠ 0x2b ∧ digit n ≠ 0x5a := by
  have all : ∀ n : Fin 10, (0x30 ≤ digit n.val && digit n.val ≤ 0x39) = true ∧ digitVal (digit n.val) = n.val ∧
      digit n.val ≠ 0x2d ∧ digit n.val ≠ 0x2b ∧ digit n.val ≠ 0x5a := by decide
  rw [digit_mod]
  exact all ⟨n % 10, by omega⟩

theorem decimal2 (n : Nat) : decimal 2 n = [digit (n / 10), digit n] := by
  simp [decimal, digit, List.range_succ]

theorem decimal4 (n : Nat) : decimal 4 n = [digit (n / 1000), digit (n / 100), digit (n / 10), digit n] := by
  simp [decimal, digit, List.range_succ]

theorem decimal2_mod (n : Nat) : decimal 2 (n % 100) = decimal 2 n := by
  rw [decimal2, decimal2, digit_mod (n % 100 / 10), digit_mod (n / 10), digit_mod (n % 100), digit_mod n]
  have e1 : n % 100 / 10 % 10 = n / 10 % 10 := by omega
  have e2 : n % 100 % 10 = n % 10 := by omega
  rw [e1, e2]

theorem digits_big (r u : Nat) (h : u ≥ 10) : digits (r + 1) u = digits r (u / 10) ++ [digit u] := by
  simp only [digits, if_pos h, ← digit_mod]

theorem digits_small (r u : Nat) (h : u < 10) : digits (r + 1) u = [digit u] := by
  simp only [digits, if_neg (show ¬ u ≥ 10 by omega)]

theorem appendInt2 (x : Nat) (h : x < 100) : appendInt x 2 = decimal 2 x := by
  rw [decimal2]
  unfold appendInt
  by_cases h1 : x < 10
  · rw [digits_small 19 x h1, show x / 10 = 0 by omega]; rfl
  · rw [digits_big 19 x (by omega), digits_small 18 _ (by omega)]; rfl

theorem appendInt4 (x : Nat) (h : x < 10000) : appendInt x 4 = decimal 4 x := by
  rw [decimal4]
  unfold appendInt
  by_cases h1 : x < 10
  · rw [digits_small 19 x h1, show x / 10 = 0 by omega, show x / 100 = 0 by omega, show x / 1000 = 0 by omega]; rfl
  by_cases h2 : x < 100
  · rw [digits_big 19 x (by omega), digits_small 18 _ (by omega), show x / 100 = 0 by omega, show x / 1000 = 0 by omega]; rfl
  by_cases h3 : x < 1000
  · rw [digits_big 19 x (by omega), digits_big 18 _ (by omega), digits_small 17 _ (by omega), show x / 1000 = 0 by omega,
      show x / 10 / 10 = x / 100 by omega]; rfl
  · rw [digits_big 19 x (by omega), digits_big 18 _ (by omega), digits_big 17 _ (by omega), digits_small 16 _ (by omega),
      show x / 10 / 10 / 10 = x / 1000 by omega, show x / 10 / 10 = x / 100 by omega]; rfl

theorem appendInt2_length (x : Nat) (h : x < 100) : (appendInt x 2).length = 2 := by
  rw [appendInt2 x h, decimal2]; rfl

/-! ### Reading digits -/

theorem getnum_decimal (n : Nat) (h : n < 100) (r : Bytes) (fixed : Bool) : getnum (decimal 2 n ++ r) fixed = .ok (n, r) := by
  have h1 := digit_ok (n / 10)
  have h2 := digit_ok n
  rw [decimal2]
  simp only [List.cons_append, List.nil_append, getnum, isDigitAt, List.getElem?_cons_zero, List.getElem?_cons_succ, h1.1, h2.1,
    h1.2.1, h2.2.1, Bool.not_true, Bool.false_eq_true, if_false]
  congr 2
  omega

theorem atoi2 (n : Nat) (h : n < 100) : atoi (decimal 2 n) = .ok n := by
  have h1 := digit_ok (n / 10)
  have h2 := digit_ok n
  rw [decimal2]
  unfold atoi
  simp only [List.head?_cons, Option.some.injEq, h1.2.2.1, h1.2.2.2.1, or_self, if_false, leadingInt, h1.1, h2.1, if_true, h1.2.1,
    h2.2.1, ne_eq, not_true_eq_false]
  congr 1
  omega

theorem atoi4 (n : Nat) (h : n < 10000) : atoi (decimal 4 n) = .ok n := by
  have h1 := digit_ok (n / 1000)
  have h2 := digit_ok (n / 100)
  have h3 := digit_ok (n / 10)
  have h4 := digit_ok n
  rw [decimal4]
  unfold atoi
  simp only [List.head?_cons, Option.some.injEq, h1.2.2.1, h1.2.2.2.1, or_self, if_false, leadingInt, h1.1, h2.1, h3.1, h4.1,
    if_true, h1.2.1, h2.2.1, h3.2.1, h4.2.1, ne_eq, not_true_eq_false]
  congr 1
  omega

/-! ### Reading the forms -/

theorem read_month (p : Parts) (n : Nat) (h1 : 1 ≤ n) (h2 : n ≤ 12) (r : Bytes) :
    parseStd .month p (decimal 2 n ++ r) = .ok ({ p with month := n }, r) := by
  simp only [parseStd, getnum_decimal n (by omega), Go.ok_bind]
  rw [if_neg (by omega)]
  rfl

theorem read_day (p : Parts) (n : Nat) (h : n < 100) (r : Bytes) :
    parseStd .day p (decimal 2 n ++ r) = .ok ({ p with day := n }, r) := by
  simp only [parseStd, getnum_decimal n h, Go.ok_bind]
  rfl

theorem read_hour (p : Parts) (n : Nat) (h : n ≤ 23) (r : Bytes) :
    parseStd .hour p (decimal 2 n ++ r) = .ok ({ p with hour := n }, r) := by
  simp only [parseStd, getnum_decimal n (by omega), Go.ok_bind]
  rw [if_neg (by omega)]
  rfl

theorem read_minute (p : Parts) (n : Nat) (h : n ≤ 59) (r : Bytes) :
    parseStd .minute p (decimal 2 n ++ r) = .ok ({ p with minute := n }, r) := by
  simp only [parseStd, getnum_decimal n (by omega), Go.ok_bind]
  rw [if_neg (by omega)]
  rfl

theorem fraction_zone (z : Zone) : fraction z.text = (false, z.text) := by
  cases z <;> simp [Zone.text, fraction]

theorem read_second (p : Parts) (n : Nat) (h : n ≤ 59) (z : Zone) :
    parseStd .second p (decimal 2 n ++ z.text) = .ok ({ p with second := n, frac := false }, z.text) := by
  simp only [parseStd, getnum_decimal n (by omega), Go.ok_bind]
  rw [if_neg (by omega), fraction_zone]
  rfl

theorem read_zone (p : Parts) (z : Zone) (h : z.Valid) :
    parseStd .zone p z.text = .ok ({ p with offset := z.offset }, []) := by
  have dl : ∀ n, (decimal 2 n).length = 2 := fun n => by rw [decimal2]; rfl
  cases z with
  | utc => rfl
  | ahead a b =>
    obtain ⟨h1, h2, -⟩ := h
    have t1 : (decimal 2 a ++ decimal 2 b).take 2 = decimal 2 a := by rw [List.take_append_of_le_length (by simp [dl]), List.take_of_length_le (by simp [dl])]
    have t2 : ((decimal 2 a ++ decimal 2 b).drop 2).take 2 = decimal 2 b := by
      rw [List.drop_append, dl]; simp [dl, List.drop_of_length_le, List.take_of_length_le]
    have t3 : (decimal 2 a ++ decimal 2 b).drop 4 = [] := by rw [List.drop_of_length_le]; simp [dl]
    simp only [parseStd, Zone.text, List.cons_append, List.head?_cons, List.drop_succ_cons, List.drop_zero, t1, t2, t3, atoi2 a (by omega),
      atoi2 b (by omega), Go.ok_bind, Zone.offset]
    rw [if_neg (by decide), if_neg (by simp [dl]), if_pos trivial]
    simp only [Go.pure_def, Go.ok.injEq, Prod.mk.injEq, and_true, Parts.mk.injEq, true_and]
    omega
  | behind a b =>
    obtain ⟨h1, h2, -⟩ := h
    have t1 : (decimal 2 a ++ decimal 2 b).take 2 = decimal 2 a := by rw [List.take_append_of_le_length (by simp [dl]), List.take_of_length_le (by simp [dl])]
    have t2 : ((decimal 2 a ++ decimal 2 b).drop 2).take 2 = decimal 2 b := by
      rw [List.drop_append, dl]; simp [dl, List.drop_of_length_le, List.take_of_length_le]
    have t3 : (decimal 2 a ++ decimal 2 b).drop 4 = [] := by rw [List.drop_of_length_le]; simp [dl]
    simp only [parseStd, Zone.text, List.cons_append, List.head?_cons, List.drop_succ_cons, List.drop_zero, t1, t2, t3, atoi2 a (by omega),
      atoi2 b (by omega), Go.ok_bind, Zone.offset]
    rw [if_neg (by decide), if_neg (by simp [dl]), if_neg (by decide), if_pos trivial]
    simp only [Go.pure_def, Go.ok.injEq, Prod.mk.injEq, and_true, Parts.mk.injEq, true_and]
    omega

theorem read_longYear (p : Parts) (n : Nat) (h : n ≤ 9999) (r : Bytes) :
    parseStd .longYear p (decimal 4 n ++ r) = .ok ({ p with year := n }, r) := by
  have dl : (decimal 4 n).length = 4 := by rw [decimal4]; rfl
  have t1 : (decimal 4 n ++ r).take 4 = decimal 4 n := by
    rw [List.take_append_of_le_length (by omega), List.take_of_length_le (by omega)]
  have t2 : (decimal 4 n ++ r).drop 4 = r := by rw [List.drop_append, dl]; simp [dl, List.drop_of_length_le]
  have t3 : isDigitAt (decimal 4 n ++ r) 0 = true := by
    rw [decimal4]
    simp only [isDigitAt, List.cons_append, List.getElem?_cons_zero, (digit_ok (n / 1000)).1]
  simp only [parseStd, t1, t2, t3, atoi4 n (by omega), Go.ok_bind]
  rw [if_neg (by simp [dl])]
  rfl

theorem read_year (p : Parts) (n : Nat) (r : Bytes) :
    parseStd .year p (decimal 2 n ++ r) =
      .ok ({ p with year := if n % 100 ≥ 69 then ((n % 100 : Nat) : Int) + 1900 else ((n % 100 : Nat) : Int) + 2000 }, r) := by
  have dl : (decimal 2 n).length = 2 := by rw [decimal2]; rfl
  have t1 : (decimal 2 n ++ r).take 2 = decimal 2 n := by
    rw [List.take_append_of_le_length (by omega), List.take_of_length_le (by omega)]
  have t2 : (decimal 2 n ++ r).drop 2 = r := by rw [List.drop_append, dl]; simp [dl, List.drop_of_length_le]
  have t3 : atoi (decimal 2 n) = .ok (n % 100 : Nat) := by rw [← decimal2_mod, atoi2 _ (by omega)]
  simp only [parseStd, t1, t2, t3, Go.ok_bind]
  rw [if_neg (by simp [dl])]
  simp only [Go.pure_def, Go.ok.injEq, Prod.mk.injEq, and_true, Parts.mk.injEq]
  by_cases h : n % 100 ≥ 69
  · rw [if_pos h, if_pos (by omega)]
  · rw [if_neg h, if_neg (by omega)]

/-- The fields of a moment, with this year. -/
def partsOf (year : Int) (m : Moment) (second : Nat) (z : Zone) : Parts :=
  ⟨year, m.month, m.day, m.hour, m.minute, second, false, z.offset⟩

theorem valid_day {m : Moment} (h : m.Valid) : m.day < 100 := by
  obtain ⟨-, -, -, -, h4, -⟩ := h
  have hd : CrlSpec.daysIn m.year m.month ≤ 31 := by unfold CrlSpec.daysIn; split <;> split <;> omega
  omega

theorem parse_generalized {m : Moment} {z : Zone} (h : m.Valid) (hz : z.Valid) :
    parseStds generalized Parts.start (generalizedForm m z) = .ok (partsOf m.year m m.second z) := by
  have hd := valid_day h
  obtain ⟨h0, h1, h2, h3, -, h5, h6, h7⟩ := h
  simp only [generalized, parseStds, generalizedForm, toMinute, List.append_assoc, read_longYear _ _ h0, Go.ok_bind,
    read_month _ _ h1 h2, read_day _ _ hd, read_hour _ _ h5, read_minute _ _ h6, read_second _ _ h7, read_zone _ _ hz]
  rfl

/-- The year that two digits stand for in package time. -/
def twoDigitYear (n : Nat) : Int := if n % 100 ≥ 69 then ((n % 100 : Nat) : Int) + 1900 else ((n % 100 : Nat) : Int) + 2000

theorem parse_utcLong {m : Moment} {z : Zone} (h : m.Valid) (hz : z.Valid) :
    parseStds utcLong Parts.start (utcForm m z) = .ok (partsOf (twoDigitYear m.year) m m.second z) := by
  have hd := valid_day h
  obtain ⟨h0, h1, h2, h3, -, h5, h6, h7⟩ := h
  simp only [utcLong, parseStds, utcForm, toMinute, List.append_assoc, read_year, Go.ok_bind,
    read_month _ _ h1 h2, read_day _ _ hd, read_hour _ _ h5, read_minute _ _ h6, read_second _ _ h7, read_zone _ _ hz]
  rfl

theorem parse_utcShort {m : Moment} {z : Zone} (h : m.Valid) (hz : z.Valid) :
    parseStds utcShort Parts.start (utcShortForm m z) = .ok (partsOf (twoDigitYear m.year) m 0 z) := by
  have hd := valid_day h
  obtain ⟨h0, h1, h2, h3, -, h5, h6, h7⟩ := h
  simp only [utcShort, parseStds, utcShortForm, toMinute, List.append_assoc, read_year, Go.ok_bind,
    read_month _ _ h1 h2, read_day _ _ hd, read_hour _ _ h5, read_minute _ _ h6, read_zone _ _ hz]
  rfl

theorem atoi_cases (s : Bytes) : (∃ n, atoi s = .ok n) ∨ ∃ e, atoi s = .err e := by
  unfold atoi
  simp only
  split
  · split
    · exact .inr ⟨_, rfl⟩
    · exact .inl ⟨_, rfl⟩
  · split
    · exact .inr ⟨_, rfl⟩
    · exact .inl ⟨_, rfl⟩

theorem digits_no_zone (n : Nat) (r : Bytes) (h : r ≠ []) (p : Parts) : ∃ e, parseStd .zone p (decimal 2 n ++ r) = .err e := by
  have h1 := digit_ok (n / 10)
  rw [decimal2]
  simp only [List.cons_append, List.nil_append, parseStd, List.head?_cons, Option.some.injEq, h1.2.2.2.2, if_false]
  split
  · exact ⟨_, rfl⟩
  · rcases atoi_cases (List.take 2 (List.drop 1 (digit (n / 10) :: digit n :: r))) with ⟨a, ha⟩ | ⟨e, ha⟩
    · rcases atoi_cases (List.take 2 (List.drop 3 (digit (n / 10) :: digit n :: r))) with ⟨b, hb⟩ | ⟨e, hb⟩
      · rw [ha, hb]
        simp only [Go.ok_bind, h1.2.2.1, h1.2.2.2.1, if_false]
        exact ⟨_, rfl⟩
      · rw [ha, hb]; exact ⟨_, rfl⟩
    · rw [ha]; exact ⟨_, rfl⟩

/-- A text with seconds is not read by the layout without. -/
theorem short_refuses {m : Moment} {z : Zone} (h : m.Valid) : ∃ e, parseTime utcShort (utcForm m z) = .err e := by
  have hd := valid_day h
  obtain ⟨h0, h1, h2, h3, -, h5, h6, h7⟩ := h
  have hz : z.text ≠ [] := by cases z <;> simp [Zone.text]
  simp only [parseTime, utcShort, parseStds, utcForm, toMinute, List.append_assoc, read_year, Go.ok_bind,
    read_month _ _ h1 h2, read_day _ _ hd, read_hour _ _ h5, read_minute _ _ h6]
  generalize Parts.mk _ _ _ _ _ _ _ _ = p
  obtain ⟨e, he⟩ := digits_no_zone m.second z.text hz p
  rw [he]
  exact ⟨e, rfl⟩

/-! ### Writing -/

theorem format_zone_zero (c : Civil) : formatStd c 0 .zone = [0x5a] := rfl

theorem format_zone_other (c : Civil) (o : Int) (h : o ≠ 0) : formatStd c o .zone =
    (if o.tdiv 60 < 0 then [0x2d] else [0x2b]) ++ appendInt ((o.tdiv 60).natAbs / 60) 2 ++ appendInt ((o.tdiv 60).natAbs % 60) 2 := by
  simp only [formatStd, if_neg h]

theorem zone_format {z : Zone} (h : z.Valid) (c : Civil) : formatStd c z.offset .zone = z.text := by
  cases z with
  | utc => rfl
  | ahead a b =>
    obtain ⟨h1, h2, h3⟩ := h
    have e : (Zone.ahead a b).offset = ((a * 60 + b : Nat) : Int) * 60 := by simp only [Zone.offset]; omega
    rw [format_zone_other _ _ (by omega), e, Int.mul_tdiv_cancel _ (by decide), if_neg (by omega), Int.natAbs_natCast,
      show (a * 60 + b) / 60 = a by omega, show (a * 60 + b) % 60 = b by omega, appendInt2 a (by omega), appendInt2 b (by omega)]
    rfl
  | behind a b =>
    obtain ⟨h1, h2, h3⟩ := h
    have e : (Zone.behind a b).offset = (-((a * 60 + b : Nat) : Int)) * 60 := by simp only [Zone.offset]; omega
    rw [format_zone_other _ _ (by omega), e, Int.mul_tdiv_cancel _ (by decide), if_pos (by omega), Int.natAbs_neg,
      Int.natAbs_natCast, show (a * 60 + b) / 60 = a by omega, show (a * 60 + b) % 60 = b by omega, appendInt2 a (by omega),
      appendInt2 b (by omega)]
    rfl

/-- A moment with another year, in which its day exists. -/
theorem inRange_parts {year : Int} {m : Moment} {second : Nat} (hy : 0 ≤ year) (h : m.Valid) (hs : second ≤ 59)
    (hd : m.day ≤ daysIn m.month year) : InRange year m.month m.day m.hour m.minute second := by
  obtain ⟨h0, h1, h2, h3, h4, h5, h6, h7⟩ := h
  exact ⟨hy, h1, h2, h3, hd, h5, h6, hs⟩

theorem format_minute {m : Moment} (h : m.Valid) (year : Int) (second : Nat) (offset : Int) :
    formatStd ⟨year, m.month, m.day, m.hour, m.minute, second, 0⟩ offset .month ++
    (formatStd ⟨year, m.month, m.day, m.hour, m.minute, second, 0⟩ offset .day ++
    (formatStd ⟨year, m.month, m.day, m.hour, m.minute, second, 0⟩ offset .hour ++
    formatStd ⟨year, m.month, m.day, m.hour, m.minute, second, 0⟩ offset .minute)) = toMinute m := by
  have hd := valid_day h
  obtain ⟨h0, h1, h2, h3, h4, h5, h6, h7⟩ := h
  simp only [formatStd, appendInt2 m.month (by omega), appendInt2 m.day hd, appendInt2 m.hour (by omega),
    appendInt2 m.minute (by omega), toMinute, List.append_assoc]

theorem format_parts {year : Int} {m : Moment} {second : Nat} {z : Zone} (hr : InRange year m.month m.day m.hour m.minute second)
    (h : m.Valid) (hz : z.Valid) :
    (partsOf year m second z).stamp.format generalized = appendInt year.toNat 4 ++ toMinute m ++ decimal 2 second ++ z.text ∧
    (partsOf year m second z).stamp.format utcLong = decimal 2 (year.toNat % 100) ++ toMinute m ++ decimal 2 second ++ z.text ∧
    (partsOf year m second z).stamp.format utcShort = decimal 2 (year.toNat % 100) ++ toMinute m ++ z.text := by
  have e : civil (partsOf year m second z).stamp.unix (partsOf year m second z).stamp.offset =
      ⟨year, m.month, m.day, m.hour, m.minute, second, 0⟩ := civil_date hr _
  have hs := hr.seconds
  have eo : (partsOf year m second z).stamp.offset = z.offset := rfl
  unfold Stamp.format
  rw [e, eo]
  simp only [generalized, utcLong, utcShort, List.map_cons, List.map_nil, List.flatten_cons, List.flatten_nil, List.append_nil,
    zone_format hz, ← format_minute h year second z.offset, List.append_assoc]
  refine ⟨?_, ?_, ?_⟩
  · simp only [formatStd, appendInt2 second (by omega)]
  · simp only [formatStd, appendInt2 second (by omega), appendInt2 (year.toNat % 100) (by omega)]
  · simp only [formatStd, appendInt2 (year.toNat % 100) (by omega)]

/-! ### The instant -/

theorem date_spec {m : Moment} (h : m.Valid) : date m.year m.month m.day m.hour m.minute m.second = seconds m := by
  obtain ⟨h0, h1, h2, h3, h4, h5, h6, h7⟩ := h
  rw [date_eq]
  unfold seconds dayNumber
  have e1 := daysSinceEpoch_spec m.year
  have e2 := daysThroughMonth_eq m.year m.month h1 h2
  have e3 : daysBeforeYear 1970 = 719528 := by rw [daysBeforeYear_eq]
  rw [e3, e2]
  unfold yday
  generalize daysBefore.getD (m.month - 1) 0 + _ = k
  generalize daysBeforeYear m.year = a at *
  push_cast
  omega

end Verif.Time
