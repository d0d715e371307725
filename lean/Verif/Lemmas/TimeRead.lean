import Verif.Lemmas.TimeText
/- Lemmas for Props/Time.lean: what an accepted text looks like. -/
set_option autoImplicit false

namespace Verif.Time
open Verif.CrlSpec (Moment decimal)
open Verif.Crl (Civil digit)

theorem digitVal_le (c : UInt8) (h : (0x30 ≤ c && c ≤ 0x39) = true) : digitVal c ≤ 9 := by
  simp only [Bool.and_eq_true, decide_eq_true_eq] at h
  have := UInt8.le_iff_toNat_le.mp h.2
  unfold digitVal
  simp at this
  omega

theorem leadingInt_lt (s : Bytes) (acc : Nat) : (leadingInt acc s).1 < (acc + 1) * 10 ^ s.length := by
  induction s generalizing acc with
  | nil => simp [leadingInt]
  | cons c s ih =>
    simp only [leadingInt]
    split
    · next h =>
      have h1 := ih (acc * 10 + digitVal c)
      have h2 := digitVal_le c h
      have h3 : (acc * 10 + digitVal c + 1) * 10 ^ s.length ≤ ((acc + 1) * 10) * 10 ^ s.length :=
        Nat.mul_le_mul_right _ (by omega)
      rw [List.length_cons, Nat.pow_succ']
      rw [Nat.mul_assoc] at h3
      omega
    · have : 1 ≤ 10 ^ (c :: s).length := Nat.one_le_pow _ _ (by decide)
      have := Nat.mul_le_mul_left (acc + 1) this
      simp only
      omega

theorem atoi_two {a b : UInt8} {n : Int} (h : atoi [a, b] = .ok n) : -9 ≤ n ∧ n ≤ 99 := by
  have l2 := leadingInt_lt [a, b] 0
  have l1 := leadingInt_lt [b] 0
  unfold atoi at h
  simp only [List.head?_cons, Option.some.injEq, List.tail_cons] at h
  by_cases hs : a = 0x2d ∨ a = 0x2b
  · rw [if_pos hs] at h
    split at h
    · cases h
    · simp only [Go.ok.injEq] at h
      simp at l1
      split at h <;> omega
  · rw [if_neg hs] at h
    have h0 : ¬ a = 0x2d := fun e => hs (.inl e)
    rw [if_neg h0] at h
    split at h
    · cases h
    · simp only [Go.ok.injEq] at h
      simp at l2
      omega

theorem atoi_four {s : Bytes} {n : Int} (hl : s.length ≤ 4) (hd : isDigitAt s 0 = true) (h : atoi s = .ok n) : 0 ≤ n ∧ n ≤ 9999 := by
  have l := leadingInt_lt s 0
  have h1 : ¬ (s.head? = some 0x2d ∨ s.head? = some 0x2b) := by
    cases s with
    | nil => simp
    | cons c s =>
      simp only [isDigitAt, List.getElem?_cons_zero] at hd
      simp only [List.head?_cons, Option.some.injEq]
      rintro (rfl | rfl) <;> exact absurd hd (by decide)
  have h0 : ¬ s.head? = some 0x2d := fun e => h1 (.inl e)
  unfold atoi at h
  simp only at h
  rw [if_neg h1, if_neg h0] at h
  split at h
  · cases h
  · simp only [Go.ok.injEq] at h
    have : 10 ^ s.length ≤ 10 ^ 4 := Nat.pow_le_pow_right (by decide) hl
    omega

theorem getnum_suffix {s : Bytes} {f : Bool} {r : Nat × Bytes} (h : getnum s f = .ok r) : ∃ pre, s = pre ++ r.2 := by
  unfold getnum at h
  split at h
  · next a b rest =>
    split at h
    · cases h
    · split at h
      · split at h
        · cases h
        · cases h; exact ⟨[a], rfl⟩
      · cases h; exact ⟨[a, b], rfl⟩
  · next a =>
    split at h
    · cases h
    · split at h
      · cases h
      · cases h; exact ⟨[a], rfl⟩
  · cases h

theorem spanDigits_append (s : Bytes) : s = (spanDigits s).1 ++ (spanDigits s).2 := by
  induction s with
  | nil => rfl
  | cons c s ih =>
    simp only [spanDigits]
    split
    · simp only [List.cons_append]; rw [← ih]
    · rfl

theorem fraction_suffix (s : Bytes) : ∃ pre, s = pre ++ (fraction s).2 := by
  unfold fraction
  split
  · next c rest =>
    split
    · exact ⟨c :: (spanDigits rest).1, by simp only [List.cons_append]; rw [← spanDigits_append]⟩
    · exact ⟨[], rfl⟩
  · exact ⟨[], rfl⟩

/-- Ranges of the fields. -/
structure Ranges (p : Parts) : Prop where
  month : p.month ≤ 12
  hour : p.hour ≤ 23
  minute : p.minute ≤ 59
  second : p.second ≤ 59

/-- What one element does. -/
theorem parseStd_ranges {std : Std} {p : Parts} {s : Bytes} {r : Parts × Bytes} (h : parseStd std p s = .ok r) (hp : Ranges p) :
    Ranges r.1 ∧ (∃ pre, s = pre ++ r.2) := by
  obtain ⟨h1, h2, h3, h4⟩ := hp
  cases std with
  | year =>
    simp only [parseStd] at h
    split at h
    · cases h
    · obtain ⟨y, -, h⟩ := Go.bind_eq_ok.mp h
      cases h
      exact ⟨⟨h1, h2, h3, h4⟩, s.take 2, (List.take_append_drop 2 s).symm⟩
  | longYear =>
    simp only [parseStd] at h
    split at h
    · cases h
    · obtain ⟨y, -, h⟩ := Go.bind_eq_ok.mp h
      cases h
      exact ⟨⟨h1, h2, h3, h4⟩, s.take 4, (List.take_append_drop 4 s).symm⟩
  | month =>
    simp only [parseStd] at h
    obtain ⟨n, hn, h⟩ := Go.bind_eq_ok.mp h
    split at h
    · cases h
    · cases h
      exact ⟨⟨by simp only; omega, h2, h3, h4⟩, getnum_suffix hn⟩
  | day =>
    simp only [parseStd] at h
    obtain ⟨n, hn, h⟩ := Go.bind_eq_ok.mp h
    cases h
    exact ⟨⟨h1, h2, h3, h4⟩, getnum_suffix hn⟩
  | hour =>
    simp only [parseStd] at h
    obtain ⟨n, hn, h⟩ := Go.bind_eq_ok.mp h
    split at h
    · cases h
    · cases h
      exact ⟨⟨h1, by simp only; omega, h3, h4⟩, getnum_suffix hn⟩
  | minute =>
    simp only [parseStd] at h
    obtain ⟨n, hn, h⟩ := Go.bind_eq_ok.mp h
    split at h
    · cases h
    · cases h
      exact ⟨⟨h1, h2, by simp only; omega, h4⟩, getnum_suffix hn⟩
  | second =>
    simp only [parseStd] at h
    obtain ⟨n, hn, h⟩ := Go.bind_eq_ok.mp h
    split at h
    · cases h
    · cases h
      obtain ⟨a, ha⟩ := getnum_suffix hn
      obtain ⟨b, hb⟩ := fraction_suffix n.2
      exact ⟨⟨h1, h2, h3, by simp only; omega⟩, a ++ b, by simp only [List.append_assoc]; rw [← hb, ← ha]⟩
  | zone =>
    simp only [parseStd] at h
    split at h
    · next hz =>
      cases h
      refine ⟨⟨h1, h2, h3, h4⟩, [0x5a], ?_⟩
      cases s with
      | nil => simp at hz
      | cons c s => simp at hz; subst hz; rfl
    · split at h
      · cases h
      · obtain ⟨a, -, h⟩ := Go.bind_eq_ok.mp h
        obtain ⟨b, -, h⟩ := Go.bind_eq_ok.mp h
        split at h
        · cases h
          exact ⟨⟨h1, h2, h3, h4⟩, s.take 5, (List.take_append_drop 5 s).symm⟩
        · split at h
          · cases h
            exact ⟨⟨h1, h2, h3, h4⟩, s.take 5, (List.take_append_drop 5 s).symm⟩
          · cases h

theorem parseStd_year_keep {std : Std} {p : Parts} {s : Bytes} {r : Parts × Bytes} (h : parseStd std p s = .ok r)
    (h1 : std ≠ .year) (h2 : std ≠ .longYear) : r.1.year = p.year := by
  cases std with
  | year => exact absurd rfl h1
  | longYear => exact absurd rfl h2
  | month =>
    simp only [parseStd] at h
    obtain ⟨n, hn, h⟩ := Go.bind_eq_ok.mp h
    split at h <;> cases h <;> rfl
  | day =>
    simp only [parseStd] at h
    obtain ⟨n, hn, h⟩ := Go.bind_eq_ok.mp h
    cases h; rfl
  | hour =>
    simp only [parseStd] at h
    obtain ⟨n, hn, h⟩ := Go.bind_eq_ok.mp h
    split at h <;> cases h <;> rfl
  | minute =>
    simp only [parseStd] at h
    obtain ⟨n, hn, h⟩ := Go.bind_eq_ok.mp h
    split at h <;> cases h <;> rfl
  | second =>
    simp only [parseStd] at h
    obtain ⟨n, hn, h⟩ := Go.bind_eq_ok.mp h
    split at h <;> cases h <;> rfl
  | zone =>
    simp only [parseStd] at h
    split at h
    · cases h; rfl
    · split at h
      · cases h
      · obtain ⟨a, -, h⟩ := Go.bind_eq_ok.mp h
        obtain ⟨b, -, h⟩ := Go.bind_eq_ok.mp h
        split at h
        · cases h; rfl
        · split at h <;> cases h; rfl

/-- The offset read from the end of the text. -/
def ZoneRead (s : Bytes) (off : Int) : Prop :=
  off = 0 ∨ ∃ (pre : Bytes) (m1 m2 : UInt8) (hr mm : Int), s = pre ++ [m1, m2] ∧ -9 ≤ hr ∧ hr ≤ 99 ∧
    atoi [m1, m2] = .ok mm ∧ (off = (hr * 60 + mm) * 60 ∨ off = -((hr * 60 + mm) * 60))

theorem zone_read {p q : Parts} {s : Bytes} (h : parseStds [.zone] p s = .ok q) : ZoneRead s q.offset := by
  simp only [parseStds] at h
  obtain ⟨⟨q', rest⟩, h1, hr⟩ := Go.bind_eq_ok.mp h
  clear h
  split at hr
  · cases hr
  · next hnil =>
    simp only [ne_eq, Decidable.not_not] at hnil
    simp only [Go.ok.injEq] at hr
    subst hr
    have h := h1
    clear h1
    simp only [parseStd] at h
    split at h
    · cases h; exact .inl rfl
    · split at h
      · cases h
      · next hlen =>
        have five : s.drop 5 = [] → ∃ c h1 h2 m1 m2, s = [c, h1, h2, m1, m2] := by
          intro hd
          match s, hlen, hd with
          | [c, h1, h2, m1, m2], _, _ => exact ⟨c, h1, h2, m1, m2, rfl⟩
          | c :: h1 :: h2 :: m1 :: m2 :: x :: rest, _, hd => simp at hd
          | [_], hl, _ => simp at hl
          | [_, _], hl, _ => simp at hl
          | [_, _, _], hl, _ => simp at hl
          | [_, _, _, _], hl, _ => simp at hl
          | [], hl, _ => simp at hl
        obtain ⟨a, ha, h⟩ := Go.bind_eq_ok.mp h
        obtain ⟨b, hb, h⟩ := Go.bind_eq_ok.mp h
        have fin : ∀ (o : Int), (o = (a * 60 + b) * 60 ∨ o = -((a * 60 + b) * 60)) → s.drop 5 = [] → ZoneRead s o := by
          intro o ho hd
          obtain ⟨c, h1, h2, m1, m2, rfl⟩ := five hd
          exact .inr ⟨[c, h1, h2], m1, m2, a, b, rfl, (atoi_two ha).1, (atoi_two ha).2, hb, ho⟩
        split at h
        · cases h
          exact fin _ (.inl rfl) hnil
        · split at h
          · cases h
            exact fin _ (.inr rfl) hnil
          · cases h

theorem zoneRead_prefix {s : Bytes} {o : Int} (pre : Bytes) (h : ZoneRead s o) : ZoneRead (pre ++ s) o := by
  rcases h with h | ⟨p, m1, m2, hr, mm, rfl, h⟩
  · exact .inl h
  · exact .inr ⟨pre ++ p, m1, m2, hr, mm, by simp, h⟩

/-- What holds of the fields that are read. -/
theorem parseStds_post (l : List Std) (hl : Std.year ∉ l ∧ Std.longYear ∉ l) {p q : Parts} {s : Bytes}
    (h : parseStds (l ++ [.zone]) p s = .ok q) (hp : Ranges p) : Ranges q ∧ q.year = p.year ∧ ZoneRead s q.offset := by
  induction l generalizing p s with
  | nil =>
    have hz := zone_read h
    simp only [List.nil_append, parseStds] at h
    obtain ⟨⟨q', rest⟩, h1, hr⟩ := Go.bind_eq_ok.mp h
    split at hr
    · cases hr
    · simp only [Go.ok.injEq] at hr
      subst hr
      exact ⟨(parseStd_ranges h1 hp).1, parseStd_year_keep h1 (by decide) (by decide), hz⟩
  | cons std l ih =>
    simp only [List.cons_append, parseStds] at h
    obtain ⟨r, h, hr⟩ := Go.bind_eq_ok.mp h
    obtain ⟨h1, pre, h2⟩ := parseStd_ranges h hp
    obtain ⟨g1, g2, g3⟩ := ih ⟨fun x => hl.1 (by simp [x]), fun x => hl.2 (by simp [x])⟩ hr h1
    refine ⟨g1, ?_, ?_⟩
    · rw [g2]
      exact parseStd_year_keep h (fun e => hl.1 (by simp [e])) (fun e => hl.2 (by simp [e]))
    · rw [h2]; exact zoneRead_prefix pre g3

theorem start_ranges : Ranges Parts.start := ⟨by decide, by decide, by decide, by decide⟩

theorem post_generalized {s : Bytes} {p : Parts} (h : parseStds generalized Parts.start s = .ok p) :
    Ranges p ∧ 0 ≤ p.year ∧ p.year ≤ 9999 ∧ ZoneRead s p.offset := by
  have e : generalized = .longYear :: ([.month, .day, .hour, .minute, .second] ++ [.zone]) := rfl
  rw [e] at h
  simp only [parseStds] at h
  obtain ⟨r, h, hr⟩ := Go.bind_eq_ok.mp h
  obtain ⟨h1, pre, h2⟩ := parseStd_ranges h start_ranges
  obtain ⟨g1, g2, g3⟩ := parseStds_post _ (by decide) hr h1
  have hy : 0 ≤ r.1.year ∧ r.1.year ≤ 9999 := by
    simp only [parseStd] at h
    split at h
    · cases h
    · next hc =>
      obtain ⟨y, hy, h⟩ := Go.bind_eq_ok.mp h
      cases h
      simp only [not_or, Bool.not_eq_false] at hc
      refine atoi_four (s := s.take 4) (by simp) ?_ hy
      have := hc.2
      cases s with
      | nil => simp [isDigitAt] at this
      | cons c s => simpa [isDigitAt] using this
  exact ⟨g1, by rw [g2]; exact hy.1, by rw [g2]; exact hy.2, by rw [h2]; exact zoneRead_prefix pre g3⟩

theorem post_utc {l : List Std} (hl : Std.year ∉ l ∧ Std.longYear ∉ l) {s : Bytes} {p : Parts}
    (h : parseStds (.year :: (l ++ [.zone])) Parts.start s = .ok p) :
    Ranges p ∧ 1969 ≤ p.year ∧ p.year ≤ 2068 ∧ ZoneRead s p.offset := by
  simp only [parseStds] at h
  obtain ⟨r, h, hr⟩ := Go.bind_eq_ok.mp h
  obtain ⟨h1, pre, h2⟩ := parseStd_ranges h start_ranges
  obtain ⟨g1, g2, g3⟩ := parseStds_post _ hl hr h1
  have hy : 1969 ≤ r.1.year ∧ r.1.year ≤ 2068 := by
    simp only [parseStd] at h
    split at h
    · cases h
    · next hc =>
      obtain ⟨y, hy, h⟩ := Go.bind_eq_ok.mp h
      cases h
      match s, hc, hy with
      | [], hc, _ => simp at hc
      | [_], hc, _ => simp at hc
      | a :: b :: rest, _, hy =>
        have := atoi_two (a := a) (b := b) hy
        simp only
        split <;> omega
  exact ⟨g1, by rw [g2]; exact hy.1, by rw [g2]; exact hy.2, by rw [h2]; exact zoneRead_prefix pre g3⟩

/-- A text that ends with the written offset has a valid zone. -/
theorem zone_of {s front : Bytes} {c : Civil} {off : Int} (h : ZoneRead s off) (hs : s = front ++ formatStd c off .zone) :
    ∃ z : Zone, z.Valid ∧ z.offset = off := by
  by_cases h0 : off = 0
  · exact ⟨.utc, trivial, h0.symm⟩
  rcases h with h | ⟨pre, m1, m2, hr, mm, hs', b1, b2, hm, ho⟩
  · exact absurd h h0
  rw [format_zone_other c off h0] at hs
  have hlt : (off.tdiv 60).natAbs % 60 < 100 := by omega
  have hmm : mm = ((off.tdiv 60).natAbs % 60 : Nat) := by
    rw [hs', ← List.append_assoc] at hs
    obtain ⟨-, e⟩ := List.append_inj' hs (by rw [appendInt2_length _ hlt]; rfl)
    rw [appendInt2 _ hlt] at e
    rw [e, atoi2 _ hlt] at hm
    cases hm; rfl
  have hdiv : (off.tdiv 60 = hr * 60 + mm ∨ off.tdiv 60 = -(hr * 60 + mm)) ∧ off = off.tdiv 60 * 60 := by
    rcases ho with ho | ho
    · have : off.tdiv 60 = hr * 60 + mm := by rw [ho, Int.mul_tdiv_cancel _ (by decide)]
      exact ⟨.inl this, by omega⟩
    · have : off.tdiv 60 = -(hr * 60 + mm) := by rw [ho, ← Int.neg_mul, Int.mul_tdiv_cancel _ (by decide)]
      exact ⟨.inr this, by omega⟩
  obtain ⟨hdiv, hoff⟩ := hdiv
  generalize off.tdiv 60 = k at *
  by_cases hk : k < 0
  · refine ⟨.behind (k.natAbs / 60) (k.natAbs % 60), ⟨by omega, by omega, by omega⟩, ?_⟩
    simp only [Zone.offset]
    omega
  · refine ⟨.ahead (k.natAbs / 60) (k.natAbs % 60), ⟨by omega, by omega, by omega⟩, ?_⟩
    simp only [Zone.offset]
    omega

/-- The moment with the fields of `p` and this year. -/
def Parts.moment (p : Parts) (year : Nat) : Moment := ⟨year, p.month, p.day, p.hour, p.minute, p.second⟩

theorem month_pos {p : Parts} (h : ¬ (p.day < 1 ∨ p.day > daysIn p.month p.year)) : 1 ≤ p.month := by
  by_contra hc
  have : p.month = 0 := by omega
  rw [this] at h
  have : daysIn 0 p.year = 0 := by simp [daysIn]
  omega

theorem moment_valid {p : Parts} (hr : Ranges p) (hd : ¬ (p.day < 1 ∨ p.day > daysIn p.month p.year)) {year : Nat} (hy : year ≤ 9999)
    (hdy : daysIn p.month (year : Int) = daysIn p.month p.year) : (p.moment year).Valid := by
  have hm := month_pos hd
  refine ⟨hy, hm, hr.month, by simp only [Parts.moment]; omega, ?_, hr.hour, hr.minute, hr.second⟩
  simp only [Parts.moment]
  rw [← daysIn_spec year p.month hm hr.month, hdy]
  omega

theorem parseTime_ok {l : List Std} {s : Bytes} {p : Parts} (h : parseTime l s = .ok p) :
    parseStds l Parts.start s = .ok p ∧ ¬ (p.day < 1 ∨ p.day > daysIn p.month p.year) := by
  unfold parseTime at h
  obtain ⟨q, h1, h2⟩ := Go.bind_eq_ok.mp h
  split at h2
  · cases h2
  · next hc => cases h2; exact ⟨h1, hc⟩

end Verif.Time
