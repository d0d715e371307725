import Verif.Lemmas.TimeRead
import Verif.Lemmas.CrlWrite
/-
  C94 — the dates of objects: exactly the texts of the calendar are read, and they are read as the moment they name.
-/
set_option autoImplicit false

namespace Verif.Props
open Time
open CrlSpec (Moment utcText generalizedText)
open Crl (Civil)

theorem parts_eq (p : Parts) (year : Nat) {z : Zone} (hz : z.offset = p.offset) :
    (partsOf p.year (p.moment year) p.second z).stamp = p.stamp := by
  obtain ⟨a, b, c, d, e, f, g, h⟩ := p
  simp only at hz
  subst hz
  rfl

/-- The last element of a written text is the zone. -/
theorem format_snoc (t : Stamp) (l : List Std) :
    t.format (l ++ [.zone]) = t.format l ++ formatStd (civil t.unix t.offset) t.offset .zone := by
  simp [Stamp.format]

/-- C94: a GeneralizedTime is accepted exactly if it is the text of a date of the calendar, a time of the day and a zone;
    it is then the moment it names. -/
theorem C94_generalized (s : Bytes) (t : Stamp) :
    parseGeneralizedTime s = .ok t ↔
      ∃ (m : Moment) (z : Zone), m.Valid ∧ z.Valid ∧ s = generalizedForm m z ∧ t = ⟨seconds m - z.offset, z.offset⟩ := by
  unfold parseGeneralizedTime
  constructor
  · intro h
    obtain ⟨p, h1, h2⟩ := Go.bind_eq_ok.mp h
    obtain ⟨h3, hd⟩ := parseTime_ok h1
    obtain ⟨hr, y1, y2, hz⟩ := post_generalized h3
    split at h2
    · cases h2
    · next hf =>
      simp only [ne_eq, Decidable.not_not] at hf
      cases h2
      have hyear : ((p.year.toNat : Nat) : Int) = p.year := by omega
      have hv : (p.moment p.year.toNat).Valid := moment_valid hr hd (by omega) (by rw [hyear])
      obtain ⟨z, z1, z2⟩ := zone_of (c := civil p.stamp.unix p.stamp.offset) (off := p.offset) hz
        (hf.symm.trans (format_snoc p.stamp [.longYear, .month, .day, .hour, .minute, .second]))
      refine ⟨p.moment p.year.toNat, z, hv, z1, ?_, ?_⟩
      · have hin : InRange p.year p.month p.day p.hour p.minute p.second :=
          ⟨y1, hv.2.1, hr.month, hv.2.2.2.1, by omega, hr.hour, hr.minute, hr.second⟩
        have := (format_parts (m := p.moment p.year.toNat) hin hv z1).1
        rw [parts_eq p _ z2, hf] at this
        rw [this, appendInt4 _ (by omega)]
        rfl
      · rw [← date_spec hv]
        simp only [Parts.moment, hyear, z2, Parts.stamp]
  · rintro ⟨m, z, hm, hz, rfl, rfl⟩
    have hp := parse_generalized hm hz
    have hdd : m.day ≤ daysIn m.month (m.year : Int) := by
      rw [daysIn_spec m.year m.month hm.2.1 hm.2.2.1]; exact hm.2.2.2.2.1
    have hin := inRange_parts (year := (m.year : Int)) (m := m) (second := m.second) (by omega) hm hm.2.2.2.2.2.2.2 hdd
    have hf := (format_parts hin hm hz).1
    have hpt : parseTime generalized (generalizedForm m z) = .ok (partsOf m.year m m.second z) := by
      unfold parseTime
      rw [hp, Go.ok_bind, if_neg]
      · rfl
      rintro (h | h)
      · exact absurd hm.2.2.2.1 (Nat.not_le.mpr h)
      · exact absurd hdd (Nat.not_le.mpr h)
    have hg : (partsOf (m.year : Int) m m.second z).stamp.format generalized = generalizedForm m z := by
      rw [hf, Int.toNat_natCast, appendInt4 _ (Nat.lt_succ_of_le hm.1)]
      rfl
    rw [hpt, Go.ok_bind, if_neg (fun h => h hg)]
    rw [← date_spec hm]
    rfl

/-- What is read from two digits of the year, for a moment from 1950 to 2049. -/
theorem utc_stamp {m : Moment} {z : Zone} (hm : m.Valid) (y1 : 1950 ≤ m.year) (y2 : m.year ≤ 2049) :
    let t := (partsOf (twoDigitYear m.year) m m.second z).stamp
    (if (civil t.unix t.offset).year ≥ 2050 then t.centuryBack else t) = ⟨seconds m - z.offset, z.offset⟩ ∧
      InRange (twoDigitYear m.year) m.month m.day m.hour m.minute m.second := by
  have hdd : m.day ≤ daysIn m.month (twoDigitYear m.year) := by
    have h1 := hm.2.2.2.2.1
    have h2 := hm.2.1
    have h3 := hm.2.2.1
    rw [← daysIn_spec m.year m.month h2 h3] at h1
    have : isLeap (twoDigitYear m.year) = isLeap (m.year : Int) := by
      rw [Bool.eq_iff_iff, isLeap_iff, isLeap_iff]
      unfold twoDigitYear
      split <;> omega
    unfold daysIn at h1 ⊢
    rwa [this]
  have hy0 : 0 ≤ twoDigitYear m.year := by unfold twoDigitYear; split <;> omega
  have hin := inRange_parts (m := m) (second := m.second) hy0 hm hm.2.2.2.2.2.2.2 hdd
  refine ⟨?_, hin⟩
  have hc : civil (partsOf (twoDigitYear m.year) m m.second z).stamp.unix (partsOf (twoDigitYear m.year) m m.second z).stamp.offset =
      ⟨twoDigitYear m.year, m.month, m.day, m.hour, m.minute, m.second, 0⟩ := civil_date hin _
  simp only [Stamp.centuryBack, hc, ← date_spec hm]
  by_cases h : m.year < 1969
  · have : twoDigitYear m.year = m.year + 100 := by unfold twoDigitYear; split <;> omega
    rw [if_pos (by omega), this]
    rw [Int.add_sub_cancel]
    rfl
  · have : twoDigitYear m.year = m.year := by unfold twoDigitYear; split <;> omega
    rw [if_neg (by omega), this]
    rfl

/-- The year that the two digits of the read year stand for. -/
theorem utc_moment {p : Parts} (hr : Ranges p) (hd : ¬ (p.day < 1 ∨ p.day > daysIn p.month p.year)) (y1 : 1969 ≤ p.year)
    (y2 : p.year ≤ 2068) :
    ∃ year : Nat, 1950 ≤ year ∧ year ≤ 2049 ∧ twoDigitYear year = p.year ∧ (p.moment year).Valid := by
  by_cases h : p.year ≤ 2049
  · refine ⟨p.year.toNat, by omega, by omega, by unfold twoDigitYear; split <;> omega, ?_⟩
    have : ((p.year.toNat : Nat) : Int) = p.year := by omega
    exact moment_valid hr hd (by omega) (by rw [this])
  · refine ⟨p.year.toNat - 100, by omega, by omega, by unfold twoDigitYear; split <;> omega, ?_⟩
    refine moment_valid hr hd (by omega) ?_
    have : isLeap ((p.year.toNat - 100 : Nat) : Int) = isLeap p.year := by
      rw [Bool.eq_iff_iff, isLeap_iff, isLeap_iff]
      omega
    unfold daysIn
    rw [this]

theorem parseTime_short {m : Moment} {z : Zone} (hm : m.Valid) (hz : z.Valid) (hs : m.second = 0)
    (hin : InRange (twoDigitYear m.year) m.month m.day m.hour m.minute m.second) :
    parseTime utcShort (utcShortForm m z) = .ok (partsOf (twoDigitYear m.year) m m.second z) := by
  unfold parseTime
  rw [parse_utcShort hm hz, Go.ok_bind, hs, if_neg]
  · rfl
  rintro (h | h)
  · exact absurd hin.day1 (Nat.not_le.mpr h)
  · exact absurd hin.day2 (Nat.not_le.mpr h)

theorem parseTime_long {m : Moment} {z : Zone} (hm : m.Valid) (hz : z.Valid)
    (hin : InRange (twoDigitYear m.year) m.month m.day m.hour m.minute m.second) :
    parseTime utcLong (utcForm m z) = .ok (partsOf (twoDigitYear m.year) m m.second z) := by
  unfold parseTime
  rw [parse_utcLong hm hz, Go.ok_bind, if_neg]
  · rfl
  rintro (h | h)
  · exact absurd hin.day1 (Nat.not_le.mpr h)
  · exact absurd hin.day2 (Nat.not_le.mpr h)

theorem two_digits {year : Nat} (y1 : 1950 ≤ year) (y2 : year ≤ 2049) :
    CrlSpec.decimal 2 ((twoDigitYear year).toNat % 100) = CrlSpec.decimal 2 year := by
  have : (twoDigitYear year).toNat % 100 = year % 100 := by unfold twoDigitYear; split <;> omega
  rw [this, decimal2_mod]

theorem short_second {s : Bytes} {p : Parts} (h : parseStds utcShort Parts.start s = .ok p) : p.second = 0 := by
  simp only [utcShort, parseStds] at h
  obtain ⟨r1, a1, h⟩ := Go.bind_eq_ok.mp h
  obtain ⟨r2, a2, h⟩ := Go.bind_eq_ok.mp h
  obtain ⟨r3, a3, h⟩ := Go.bind_eq_ok.mp h
  obtain ⟨r4, a4, h⟩ := Go.bind_eq_ok.mp h
  obtain ⟨r5, a5, h⟩ := Go.bind_eq_ok.mp h
  obtain ⟨r6, a6, h⟩ := Go.bind_eq_ok.mp h
  have k : ∀ {std : Std} {p : Parts} {s : Bytes} {r : Parts × Bytes}, std ≠ .second → parseStd std p s = .ok r →
      r.1.second = p.second := by
    intro std p s r hs h
    cases std with
    | second => exact absurd rfl hs
    | year =>
      simp only [parseStd] at h
      split at h
      · cases h
      · obtain ⟨n, hn, h⟩ := Go.bind_eq_ok.mp h
        cases h; rfl
    | longYear =>
      simp only [parseStd] at h
      split at h
      · cases h
      · obtain ⟨n, hn, h⟩ := Go.bind_eq_ok.mp h
        cases h; rfl
    | month =>
      simp only [parseStd] at h
      obtain ⟨n, hn, h⟩ := Go.bind_eq_ok.mp h
      split at h <;> cases h <;> rfl
    | day =>
      simp only [parseStd] at h
      obtain ⟨n, hn, h⟩ := Go.bind_eq_ok.mp h
      cases h; rfl
    | hour =>
      simp only [parseStd] at h
      obtain ⟨n, hn, h⟩ := Go.bind_eq_ok.mp h
      split at h <;> cases h <;> rfl
    | minute =>
      simp only [parseStd] at h
      obtain ⟨n, hn, h⟩ := Go.bind_eq_ok.mp h
      split at h <;> cases h <;> rfl
    | zone =>
      simp only [parseStd] at h
      split at h
      · cases h; rfl
      · split at h
        · cases h
        · obtain ⟨a, -, h⟩ := Go.bind_eq_ok.mp h
          obtain ⟨b, -, h⟩ := Go.bind_eq_ok.mp h
          split at h
          · cases h; rfl
          · split at h <;> cases h; rfl
  split at h
  · cases h
  · cases h
    rw [k (by decide) a6, k (by decide) a5, k (by decide) a4, k (by decide) a3, k (by decide) a2, k (by decide) a1]
    rfl

/-- C94: a UTCTime is accepted exactly if it is the text of a date and time from 1950 to 2049 with a zone, with seconds, or
    without them on a full minute; it is then the moment it names. -/
theorem C94_utc (s : Bytes) (t : Stamp) :
    parseUTCTime s = .ok t ↔
      ∃ (m : Moment) (z : Zone), m.Valid ∧ z.Valid ∧ 1950 ≤ m.year ∧ m.year ≤ 2049 ∧
        (s = utcForm m z ∨ (m.second = 0 ∧ s = utcShortForm m z)) ∧ t = ⟨seconds m - z.offset, z.offset⟩ := by
  constructor
  · intro h
    have key : ∃ (layout : List Std) (p : Parts), (layout = utcShort ∨ layout = utcLong) ∧ parseTime layout s = .ok p ∧
        p.stamp.format layout = s ∧
        t = (if (civil p.stamp.unix p.stamp.offset).year ≥ 2050 then p.stamp.centuryBack else p.stamp) := by
      unfold parseUTCTime at h
      cases hs : parseTime utcShort s with
      | ok p =>
        simp only [hs] at h
        split at h
        · cases h
        · next hf =>
          refine ⟨utcShort, p, .inl rfl, hs, by simpa using hf, ?_⟩
          split at h <;> rename_i hc
          · rw [if_pos hc]; cases h; rfl
          · rw [if_neg hc]; cases h; rfl
      | err e =>
        simp only [hs] at h
        cases hl : parseTime utcLong s with
        | ok p =>
          simp only [hl] at h
          split at h
          · cases h
          · next hf =>
            refine ⟨utcLong, p, .inr rfl, hl, by simpa using hf, ?_⟩
            split at h <;> rename_i hc
            · rw [if_pos hc]; cases h; rfl
            · rw [if_neg hc]; cases h; rfl
        | err e => simp [hl] at h
        | panic => simp [hl] at h
        | diverge => simp [hl] at h
      | panic => simp [hs] at h
      | diverge => simp [hs] at h
    obtain ⟨layout, p, hl, hp, hf, ht⟩ := key
    obtain ⟨h3, hd⟩ := parseTime_ok hp
    have hpost : Ranges p ∧ 1969 ≤ p.year ∧ p.year ≤ 2068 ∧ ZoneRead s p.offset := by
      rcases hl with rfl | rfl
      · exact post_utc (l := [.month, .day, .hour, .minute]) (by decide) h3
      · exact post_utc (l := [.month, .day, .hour, .minute, .second]) (by decide) h3
    obtain ⟨hr, y1, y2, hz⟩ := hpost
    obtain ⟨year, w1, w2, w3, hv⟩ := utc_moment hr hd y1 y2
    have hzone : ∃ z : Zone, z.Valid ∧ z.offset = p.offset := by
      rcases hl with rfl | rfl
      · exact zone_of (c := civil p.stamp.unix p.stamp.offset) (off := p.offset) hz
          (hf.symm.trans (format_snoc p.stamp [.year, .month, .day, .hour, .minute]))
      · exact zone_of (c := civil p.stamp.unix p.stamp.offset) (off := p.offset) hz
          (hf.symm.trans (format_snoc p.stamp [.year, .month, .day, .hour, .minute, .second]))
    obtain ⟨z, z1, z2⟩ := hzone
    obtain ⟨u1, u2⟩ := utc_stamp (z := z) hv w1 w2
    have e : (partsOf (twoDigitYear (p.moment year).year) (p.moment year) (p.moment year).second z).stamp = p.stamp := by
      show (partsOf (twoDigitYear year) (p.moment year) p.second z).stamp = p.stamp
      rw [w3]; exact parts_eq p year z2
    refine ⟨p.moment year, z, hv, z1, w1, w2, ?_, ?_⟩
    · have fp := format_parts u2 hv z1
      rw [e] at fp
      rcases hl with rfl | rfl
      · refine .inr ⟨short_second h3, ?_⟩
        rw [hf] at fp
        rw [fp.2.2, two_digits (year := (p.moment year).year) w1 w2]
        rfl
      · refine .inl ?_
        rw [hf] at fp
        rw [fp.2.1, two_digits (year := (p.moment year).year) w1 w2]
        rfl
    · simp only [e] at u1
      rw [ht, u1]
  · rintro ⟨m, z, hm, hz, y1, y2, hs, rfl⟩
    obtain ⟨u1, u2⟩ := utc_stamp (z := z) hm y1 y2
    have fp := format_parts u2 hm hz
    rw [two_digits y1 y2] at fp
    rcases hs with rfl | ⟨h0, rfl⟩
    · obtain ⟨e, he⟩ := short_refuses (z := z) hm
      have hp := parseTime_long hm hz u2
      unfold parseUTCTime
      simp only [he, hp]
      have hf : (partsOf (twoDigitYear m.year) m m.second z).stamp.format utcLong = utcForm m z := fp.2.1
      rw [if_neg (fun h => h hf), ← u1]
      split <;> rfl
    · have hp := parseTime_short hm hz h0 u2
      unfold parseUTCTime
      simp only [hp]
      have hf : (partsOf (twoDigitYear m.year) m m.second z).stamp.format utcShort = utcShortForm m z := fp.2.2
      rw [if_neg (fun h => h hf), ← u1]
      split <;> rfl

theorem getnum_cases (s : Bytes) (f : Bool) : (∃ n, getnum s f = .ok n) ∨ ∃ e, getnum s f = .err e := by
  unfold getnum
  split
  · split
    · exact .inr ⟨_, rfl⟩
    · split
      · split
        · exact .inr ⟨_, rfl⟩
        · exact .inl ⟨_, rfl⟩
      · exact .inl ⟨_, rfl⟩
  · split
    · exact .inr ⟨_, rfl⟩
    · split
      · exact .inr ⟨_, rfl⟩
      · exact .inl ⟨_, rfl⟩
  · exact .inr ⟨_, rfl⟩

/-- Neither a panic nor an endless loop. -/
def Ends {α : Type} (g : Go α) : Prop := (∃ a, g = .ok a) ∨ ∃ e, g = .err e

theorem ends_bind {α β : Type} {g : Go α} {f : α → Go β} (h : Ends g) (hf : ∀ a, Ends (f a)) : Ends (g >>= f) := by
  rcases h with ⟨a, rfl⟩ | ⟨e, rfl⟩
  · exact hf a
  · exact .inr ⟨e, rfl⟩

theorem ends_ite {α : Type} {c : Prop} [Decidable c] {a b : Go α} (ha : Ends a) (hb : Ends b) : Ends (if c then a else b) := by
  split <;> assumption

theorem parseStd_ends (std : Std) (p : Parts) (s : Bytes) : Ends (parseStd std p s) := by
  have ok : ∀ {α : Type} (a : α), Ends (Go.ok a) := fun a => .inl ⟨a, rfl⟩
  have er : ∀ {α : Type} (e : String), Ends (Go.err (α := α) e) := fun e => .inr ⟨e, rfl⟩
  cases std <;> simp only [parseStd]
  · exact ends_ite (er _) (ends_bind (atoi_cases _) fun _ => ok _)
  · exact ends_ite (er _) (ends_bind (atoi_cases _) fun _ => ok _)
  · exact ends_bind (getnum_cases _ _) fun _ => ends_ite (er _) (ok _)
  · exact ends_bind (getnum_cases _ _) fun _ => ok _
  · exact ends_bind (getnum_cases _ _) fun _ => ends_ite (er _) (ok _)
  · exact ends_bind (getnum_cases _ _) fun _ => ends_ite (er _) (ok _)
  · exact ends_bind (getnum_cases _ _) fun _ => ends_ite (er _) (ok _)
  · exact ends_ite (ok _) (ends_ite (er _) (ends_bind (atoi_cases _) fun _ => ends_bind (atoi_cases _) fun _ =>
      ends_ite (ok _) (ends_ite (ok _) (er _))))

theorem parseTime_ends (l : List Std) (s : Bytes) : Ends (parseTime l s) := by
  have h : ∀ (l : List Std) (p : Parts) (s : Bytes), Ends (parseStds l p s) := by
    intro l
    induction l with
    | nil =>
      intro p s
      unfold parseStds
      split
      · exact .inr ⟨_, rfl⟩
      · exact .inl ⟨_, rfl⟩
    | cons std l ih =>
      intro p s
      unfold parseStds
      exact ends_bind (parseStd_ends _ _ _) fun _ => ih _ _
  unfold parseTime
  refine ends_bind (h _ _ _) fun _ => ?_
  split
  · exact .inr ⟨_, rfl⟩
  · exact .inl ⟨_, rfl⟩

/-- C94: whatever the octets, reading a date ends with a date or an error. -/
theorem C94_no_panic (g : Bool) (s : Bytes) : (∃ t, readTime g s = .ok t) ∨ ∃ e, readTime g s = .err e := by
  unfold readTime
  split
  · unfold parseGeneralizedTime
    refine ends_bind (parseTime_ends _ _) fun _ => ?_
    split
    · exact .inr ⟨_, rfl⟩
    · exact .inl ⟨_, rfl⟩
  · unfold parseUTCTime
    rcases parseTime_ends utcShort s with ⟨p, hp⟩ | ⟨e, he⟩
    · simp only [hp]
      split
      · exact .inr ⟨_, rfl⟩
      · split <;> exact .inl ⟨_, rfl⟩
    · rcases parseTime_ends utcLong s with ⟨p, hp⟩ | ⟨e', he'⟩
      · simp only [he, hp]
        split
        · exact .inr ⟨_, rfl⟩
        · split <;> exact .inl ⟨_, rfl⟩
      · simp only [he, he']
        exact .inr ⟨_, rfl⟩

/-! ### Order -/

theorem daysBeforeYear_mono {a b : Nat} (h : a < b) : daysBeforeYear a + yearDays a ≤ daysBeforeYear b := by
  induction b with
  | zero => omega
  | succ b ih =>
    simp only [daysBeforeYear]
    by_cases hb : a = b
    · subst hb; omega
    · have := ih (by omega); omega

theorem daysThroughMonth_mono (year : Nat) {a b : Nat} (h : a < b) :
    daysThroughMonth year a + CrlSpec.daysIn year (a + 1) ≤ daysThroughMonth year b := by
  induction b with
  | zero => omega
  | succ b ih =>
    simp only [daysThroughMonth]
    by_cases hb : a = b
    · subst hb; omega
    · have := ih (by omega); omega

theorem daysThroughMonth_year (year : Nat) : daysThroughMonth year 12 = yearDays year := by
  simp only [daysThroughMonth, CrlSpec.daysIn, yearDays]
  simp
  split <;> rfl

/-- The day of the year is less than the length of the year. -/
theorem day_of_year {m : Moment} (h : m.Valid) : daysThroughMonth m.year (m.month - 1) + (m.day - 1) < yearDays m.year := by
  obtain ⟨-, h1, h2, h3, h4, -⟩ := h
  have e : m.month - 1 + 1 = m.month := by omega
  have := daysThroughMonth_mono m.year (show m.month - 1 < m.month by omega)
  rw [e] at this
  have h12 : daysThroughMonth m.year m.month ≤ daysThroughMonth m.year 12 := by
    by_cases hm : m.month = 12
    · rw [hm]
    · have := daysThroughMonth_mono m.year (show m.month < 12 by omega); omega
  rw [daysThroughMonth_year] at h12
  omega

theorem before_seconds {a b : Moment} (ha : a.Valid) (hb : b.Valid) (h : Before a b) : seconds a < seconds b := by
  have da := day_of_year ha
  obtain ⟨-, a1, a2, a3, a4, a5, a6, a7⟩ := ha
  obtain ⟨-, b1, b2, b3, b4, b5, b6, b7⟩ := hb
  unfold seconds dayNumber
  rcases h with h | ⟨h, h'⟩
  · have := daysBeforeYear_mono h
    generalize daysBeforeYear 1970 = z at *
    omega
  · rw [h] at da a4 ⊢
    rcases h' with h' | ⟨h', h''⟩
    · have := daysThroughMonth_mono b.year (show a.month - 1 < b.month - 1 by omega)
      rw [show a.month - 1 + 1 = a.month by omega] at this
      generalize daysBeforeYear 1970 = z at *
      omega
    · rw [h'] at a4 ⊢
      generalize daysBeforeYear 1970 = z at *
      omega

theorem before_total (a b : Moment) : Before a b ∨ a = b ∨ Before b a := by
  obtain ⟨a1, a2, a3, a4, a5, a6⟩ := a
  obtain ⟨b1, b2, b3, b4, b5, b6⟩ := b
  simp only [Before, Moment.mk.injEq]
  omega

/-- C94: the numbers of seconds, which is what is compared, have the order of the dates. -/
theorem C94_order (a b : Moment) (ha : a.Valid) (hb : b.Valid) : seconds a < seconds b ↔ Before a b := by
  constructor
  · intro h
    rcases before_total a b with h1 | rfl | h1
    · exact h1
    · omega
    · have := before_seconds hb ha h1; omega
  · exact before_seconds ha hb

/-- C94: two moments with the same number of seconds are the same. -/
theorem C94_one_moment (a b : Moment) (ha : a.Valid) (hb : b.Valid) (h : seconds a = seconds b) : a = b := by
  rcases before_total a b with h1 | h1 | h1
  · have := before_seconds ha hb h1; omega
  · exact h1
  · have := before_seconds hb ha h1; omega

/-! ### Reading what is written -/

/-- C94: whatever the zone of the text, the fields that are read are those of the same moment in UTC. -/
theorem C94_fields_in_utc (g : Bool) (s : Bytes) (t : Stamp) (h : readTime g s = .ok t) (m : Moment) (hm : m.Valid)
    (hs : seconds m = t.unix) : readCivil g s = .ok (Crl.ofMoment m) := by
  unfold readCivil
  rw [h, Go.ok_bind]
  have hdd : m.day ≤ daysIn m.month (m.year : Int) := by
    rw [daysIn_spec m.year m.month hm.2.1 hm.2.2.1]; exact hm.2.2.2.2.1
  have hin := inRange_parts (year := (m.year : Int)) (m := m) (second := m.second) (by omega) hm hm.2.2.2.2.2.2.2 hdd
  have := civil_date hin 0
  rw [date_spec hm, Int.sub_zero, hs] at this
  show Go.ok _ = _
  rw [this]
  rfl

theorem readCivil_moment {m : Moment} (hm : m.Valid) {g : Bool} {s : Bytes}
    (h : readTime g s = .ok ⟨seconds m - Zone.utc.offset, Zone.utc.offset⟩) : readCivil g s = .ok (Crl.ofMoment m) :=
  C94_fields_in_utc g s _ h m hm (by simp [Zone.offset])

/-- C94: the forms that RFC 5280 demands are read as the moment they were written for (the law `ReadsTimes` that C91 asks of
    the reader of dates). -/
theorem C94_reads_written (m : Moment) (hm : m.Valid) :
    (1950 ≤ m.year → m.year ≤ 2049 → readCivil false (utcText m) = .ok (Crl.ofMoment m)) ∧
      readCivil true (generalizedText m) = .ok (Crl.ofMoment m) := by
  constructor
  · intro y1 y2
    refine readCivil_moment hm ((C94_utc _ _).mpr ⟨m, .utc, hm, trivial, y1, y2, .inl ?_, rfl⟩)
    simp [utcText, utcForm, Moment.text, toMinute, Zone.text]
  · refine readCivil_moment hm ((C94_generalized _ _).mpr ⟨m, .utc, hm, trivial, ?_, rfl⟩)
    simp [generalizedText, generalizedForm, Moment.text, toMinute, Zone.text]

/-- C94: the reader of lists that uses this reader of dates meets the hypothesis of C91 and C92. -/
theorem C94_lists_read (env : Crl.Env) (h : env.mft.time = readCivil) : Crl.ReadsTimes env := by
  intro m hm
  rw [h]
  exact C94_reads_written m hm

/-- C94: a manifest whose dates are written as GeneralizedTime is read back with the same dates: these are the two
    hypotheses on dates of C73 and C76. -/
theorem C94_manifests_read (menv : Cms.MftEnv Civil) (h : menv.time = readCivil) (c : Cms.MftContent Civil)
    (h1 : c.thisUpdate.moment.Valid ∧ 0 ≤ c.thisUpdate.year ∧ c.thisUpdate.nsec = 0)
    (h2 : c.nextUpdate.moment.Valid ∧ 0 ≤ c.nextUpdate.year ∧ c.nextUpdate.nsec = 0) :
    menv.time true (generalizedText c.thisUpdate.moment) = .ok c.thisUpdate ∧
      menv.time true (generalizedText c.nextUpdate.moment) = .ok c.nextUpdate := by
  have k : ∀ t : Civil, t.moment.Valid ∧ 0 ≤ t.year ∧ t.nsec = 0 → menv.time true (generalizedText t.moment) = .ok t := by
    rintro t ⟨a, b, c⟩
    rw [h, (C94_reads_written t.moment a).2, Crl.ofMoment_moment t b, ← c]
  exact ⟨k _ h1, k _ h2⟩

/-! ### What is accepted although it is forbidden -/

/-- C94 violated: RFC 5280 4.1.2.5 demands seconds and the letter Z. For every moment, the forms with another zone are read as
    well, and for full minutes UTCTime without seconds. -/
theorem C94_violated_other_forms (m : Moment) (hm : m.Valid) (z : Zone) (hz : z.Valid) (hz' : z ≠ .utc) :
    (parseGeneralizedTime (generalizedForm m z) = .ok ⟨seconds m - z.offset, z.offset⟩ ∧
      ∀ k : Moment, generalizedForm m z ≠ generalizedText k) ∧
    (1950 ≤ m.year → m.year ≤ 2049 → m.second = 0 →
      parseUTCTime (utcShortForm m .utc) = .ok ⟨seconds m, 0⟩ ∧ ∀ k : Moment, utcShortForm m .utc ≠ utcText k) := by
  refine ⟨⟨(C94_generalized _ _).mpr ⟨m, z, hm, hz, rfl, rfl⟩, ?_⟩, ?_⟩
  · intro k h
    have := congrArg List.length h
    cases z with
    | utc => exact hz' rfl
    | ahead a b => simp [generalizedForm, generalizedText, Moment.text, toMinute, Zone.text, CrlSpec.decimal] at this
    | behind a b => simp [generalizedForm, generalizedText, Moment.text, toMinute, Zone.text, CrlSpec.decimal] at this
  · intro y1 y2 h0
    refine ⟨(C94_utc _ _).mpr ⟨m, .utc, hm, trivial, y1, y2, .inr ⟨h0, rfl⟩, by simp [Zone.offset]⟩, ?_⟩
    intro k h
    have := congrArg List.length h
    simp [utcShortForm, utcText, Moment.text, toMinute, Zone.text, CrlSpec.decimal] at this

/-! ### Cases -/

/-- 18:29:07 in UTC for 23:59:07 in a zone that is ahead. -/
example : readCivil true (asc "20240229235907+0530".toList) = .ok ⟨2024, 2, 29, 18, 29, 7, 0⟩ := by decide +kernel

/-- 29 February 2024, 23:59:07 in a zone 5 hours 30 minutes ahead of UTC. -/
def leapDay : Moment := ⟨2024, 2, 29, 23, 59, 7⟩

theorem leapDay_valid : leapDay.Valid := by unfold Moment.Valid; decide +kernel
example : (Zone.ahead 5 30).Valid := by unfold Zone.Valid; omega
example : parseGeneralizedTime (asc "20240229235907+0530".toList) = .ok ⟨1709231347, 19800⟩ := by decide +kernel
example : seconds leapDay - (Zone.ahead 5 30).offset = 1709231347 := by
  rw [← date_spec leapDay_valid]; decide +kernel
example : parseUTCTime (asc "500101000000Z".toList) = .ok ⟨-631152000, 0⟩ := by decide +kernel
example : parseUTCTime (asc "491231235959Z".toList) = .ok ⟨2524607999, 0⟩ := by decide +kernel
example : parseUTCTime (asc "2402292359Z".toList) = .ok ⟨1709251140, 0⟩ := by decide +kernel
example : ∃ e, parseUTCTime (asc "230229000000Z".toList) = .err e := ⟨_, rfl⟩
example : ∃ e, parseGeneralizedTime (asc "20240101000000.5Z".toList) = .err e := ⟨_, rfl⟩
example : ∃ e, parseGeneralizedTime (asc "20240101000000+0000".toList) = .err e := ⟨_, rfl⟩
example : ∃ e, parseUTCTime (asc "+50101000000Z".toList) = .err e := ⟨_, rfl⟩
example : Before ⟨2024, 2, 29, 23, 59, 59⟩ ⟨2024, 3, 1, 0, 0, 0⟩ := by unfold Before; decide

end Verif.Props
