import Verif.Lemmas.X509Parts
/-
  Dates, names, keys and extensions in certificates.
-/
set_option autoImplicit false

namespace Verif.Props
open Time
open Verif.CrlSpec (Moment)

/-- A text that a layout of UTCTime reads and writes the same way. -/
theorem utc_text {s : Bytes} {t : Stamp} (key : ∃ (layout : List Std) (p : Parts), (layout = utcShort ∨ layout = utcLong) ∧
      parseTime layout s = .ok p ∧ p.stamp.format layout = s ∧
      t = (if (civil p.stamp.unix p.stamp.offset).year ≥ 2050 then p.stamp.centuryBack else p.stamp)) :
    ∃ (m : Moment) (z : Zone), m.Valid ∧ z.Valid ∧ 1950 ≤ m.year ∧ m.year ≤ 2049 ∧
      (s = utcForm m z ∨ (m.second = 0 ∧ s = utcShortForm m z)) ∧ t = ⟨seconds m - z.offset, z.offset⟩ := by
  obtain ⟨layout, p, hl, hp, hf, ht⟩ := key
  obtain ⟨h3, hd⟩ := parseTime_ok hp
  have hpost : Ranges p ∧ 1969 ≤ p.year ∧ p.year ≤ 2068 ∧ ZoneRead s p.offset := by
    rcases hl with rfl | rfl
    · exact post_utc (l := [.month, .day, .hour, .minute]) (by decide) h3
    · exact post_utc (l := [.month, .day, .hour, .minute, .second]) (by decide) h3
  obtain ⟨hr, y1, y2, hz⟩ := hpost
  obtain ⟨year, w1, w2, w3, hv⟩ := utc_moment hr hd y1 y2
  have hzone : ∃ z : Zone, z.Valid ∧ z.offset = p.offset := by
    rcases hl with rfl | rfl
    · exact zone_of (c := civil p.stamp.unix p.stamp.offset) (off := p.offset) hz
        (hf.symm.trans (format_snoc p.stamp [.year, .month, .day, .hour, .minute]))
    · exact zone_of (c := civil p.stamp.unix p.stamp.offset) (off := p.offset) hz
        (hf.symm.trans (format_snoc p.stamp [.year, .month, .day, .hour, .minute, .second]))
  obtain ⟨z, z1, z2⟩ := hzone
  obtain ⟨u1, u2⟩ := utc_stamp (z := z) hv w1 w2
  have e : (partsOf (twoDigitYear (p.moment year).year) (p.moment year) (p.moment year).second z).stamp = p.stamp := by
    show (partsOf (twoDigitYear year) (p.moment year) p.second z).stamp = p.stamp
    rw [w3]; exact parts_eq p year z2
  refine ⟨p.moment year, z, hv, z1, w1, w2, ?_, ?_⟩
  · have fp := format_parts u2 hv z1
    rw [e] at fp
    rcases hl with rfl | rfl
    · refine .inr ⟨short_second h3, ?_⟩
      rw [hf] at fp
      rw [fp.2.2, two_digits (year := (p.moment year).year) w1 w2]
      rfl
    · refine .inl ?_
      rw [hf] at fp
      rw [fp.2.1, two_digits (year := (p.moment year).year) w1 w2]
      rfl
  · simp only [e] at u1
    rw [ht, u1]

/-- A text without seconds is not read by the layout with them. -/
theorem long_refuses {m : Moment} {z : Zone} (h : m.Valid) : ∃ e, parseTime utcLong (utcShortForm m z) = .err e := by
  have hd := valid_day h
  obtain ⟨h0, h1, h2, h3, -, h5, h6, h7⟩ := h
  simp only [parseTime, utcLong, parseStds, utcShortForm, toMinute, List.append_assoc, read_year, Go.ok_bind,
    read_month _ _ h1 h2, read_day _ _ hd, read_hour _ _ h5, read_minute _ _ h6]
  generalize Parts.mk _ _ _ _ _ _ _ _ = p
  have : ∃ e, parseStd .second p z.text = .err e := by
    have nd : ∀ (c : UInt8) (r : Bytes), (c = 0x5a ∨ c = 0x2b ∨ c = 0x2d) → getnum (c :: r) true = .err "bad value for field" := by
      rintro c r (rfl | rfl | rfl) <;> cases r <;> simp [getnum, isDigitAt]
    have hg : getnum z.text true = .err "bad value for field" := by
      cases z with
      | utc => exact nd _ _ (.inl rfl)
      | ahead a b => exact nd _ _ (.inr (.inl rfl))
      | behind a b => exact nd _ _ (.inr (.inr rfl))
    simp only [parseStd, hg]
    exact ⟨_, rfl⟩
  obtain ⟨e, he⟩ := this
  rw [he]
  exact ⟨e, rfl⟩

end Verif.Props

namespace Verif.X509
open Der Cms CmsSpec BerSpec X509Spec ExtSpec

/-! ### Dates -/

theorem utcTime_iff {s : Bytes} {t : Time.Stamp} : utcTime s = .ok t ↔
    ∃ (m : CrlSpec.Moment) (z : Time.Zone), m.Valid ∧ z.Valid ∧ 1950 ≤ m.year ∧ m.year ≤ 2049 ∧
      (s = Time.utcForm m z ∨ (m.second = 0 ∧ s = Time.utcShortForm m z)) ∧ t = ⟨Time.seconds m - z.offset, z.offset⟩ := by
  constructor
  · intro h
    apply Props.utc_text
    unfold utcTime at h
    cases hl : Time.parseTime Time.utcLong s with
    | ok p =>
      simp only [hl] at h
      split at h
      · cases h
      · next hf =>
        refine ⟨Time.utcLong, p, .inr rfl, hl, by simpa using hf, ?_⟩
        split at h <;> rename_i hc
        · rw [if_pos hc]; cases h; rfl
        · rw [if_neg hc]; cases h; rfl
    | err e =>
      simp only [hl] at h
      cases hs : Time.parseTime Time.utcShort s with
      | ok p =>
        simp only [hs] at h
        split at h
        · cases h
        · next hf =>
          refine ⟨Time.utcShort, p, .inl rfl, hs, by simpa using hf, ?_⟩
          split at h <;> rename_i hc
          · rw [if_pos hc]; cases h; rfl
          · rw [if_neg hc]; cases h; rfl
      | err e => simp [hs] at h
      | panic => simp [hs] at h
      | diverge => simp [hs] at h
    | panic => simp [hl] at h
    | diverge => simp [hl] at h
  · rintro ⟨m, z, hm, hz, y1, y2, hs, rfl⟩
    obtain ⟨u1, u2⟩ := Props.utc_stamp (z := z) hm y1 y2
    have fp := Time.format_parts u2 hm hz
    rw [Props.two_digits y1 y2] at fp
    rcases hs with rfl | ⟨h0, rfl⟩
    · have hp := Props.parseTime_long hm hz u2
      unfold utcTime
      simp only [hp]
      have hf : (Time.partsOf (Time.twoDigitYear m.year) m m.second z).stamp.format Time.utcLong = Time.utcForm m z := fp.2.1
      rw [if_neg (fun h => h hf), ← u1]
      split <;> rfl
    · obtain ⟨e, he⟩ := Props.long_refuses (z := z) hm
      have hp := Props.parseTime_short hm hz h0 u2
      unfold utcTime
      simp only [he, hp]
      have hf : (Time.partsOf (Time.twoDigitYear m.year) m m.second z).stamp.format Time.utcShort = Time.utcShortForm m z := fp.2.2
      rw [if_neg (fun h => h hf), ← u1]
      split <;> rfl

theorem peek_iff {tag : UInt8} {s : Bytes} : peek tag s = true ↔ s.head? = some tag := by simp [peek]

theorem readTime_iff {s r : Bytes} {t : Time.Stamp} : readTime s = .ok (t, r) ↔ ∃ e, TimeDer t e ∧ s = e ++ r := by
  unfold readTime
  constructor
  · intro h
    split at h
    · rw [Go.bind_eq_ok] at h; obtain ⟨⟨c, q⟩, h1, h⟩ := h
      rw [Go.bind_eq_ok] at h; obtain ⟨t', h2, h⟩ := h
      cases h
      obtain ⟨e, he, rfl⟩ := read_iff.mp h1
      obtain ⟨m, z, hm, hz, y1, y2, hs, ht⟩ := utcTime_iff.mp h2
      exact ⟨e, ⟨m, z, c, hm, hz, ht, .inl ⟨y1, y2, hs, he⟩⟩, rfl⟩
    · split at h
      · rw [Go.bind_eq_ok] at h; obtain ⟨⟨c, q⟩, h1, h⟩ := h
        rw [Go.bind_eq_ok] at h; obtain ⟨t', h2, h⟩ := h
        cases h
        obtain ⟨e, he, rfl⟩ := read_iff.mp h1
        obtain ⟨m, z, hm, hz, hs, ht⟩ := (Props.C94_generalized _ _).mp h2
        exact ⟨e, ⟨m, z, c, hm, hz, ht, .inr ⟨hs, he⟩⟩, rfl⟩
      · cases h
  · rintro ⟨e, ⟨m, z, c, hm, hz, ht, ⟨y1, y2, hs, he⟩ | ⟨hs, he⟩⟩, rfl⟩
    · rw [if_pos (peek_iff.mpr (tlv_head he r)), read_iff.mpr ⟨e, he, rfl⟩, Go.ok_bind,
        utcTime_iff.mpr ⟨m, z, hm, hz, y1, y2, hs, ht⟩]
      rfl
    · rw [if_neg (by rw [peek_iff, tlv_head he r]; decide), if_pos (peek_iff.mpr (tlv_head he r)), read_iff.mpr ⟨e, he, rfl⟩,
        Go.ok_bind, (Props.C94_generalized _ _).mpr ⟨m, z, hm, hz, hs, ht⟩]
      rfl

theorem readValidity_iff {s r : Bytes} {a b : Time.Stamp} :
    readValidity s = .ok ((a, b), r) ↔ ∃ e, ValidityDer a b e ∧ s = e ++ r := by
  unfold readValidity
  constructor
  · intro h
    rw [Go.bind_eq_ok] at h; obtain ⟨⟨c, q⟩, h1, h⟩ := h
    rw [Go.bind_eq_ok] at h; obtain ⟨⟨x, q1⟩, h2, h⟩ := h
    rw [Go.bind_eq_ok] at h; obtain ⟨⟨y, q2⟩, h3, h⟩ := h
    cases h
    obtain ⟨e, he, rfl⟩ := read_iff.mp h1
    obtain ⟨e1, he1, h4⟩ := readTime_iff.mp h2
    obtain ⟨e2, he2, h5⟩ := readTime_iff.mp h3
    simp only at h4 h5
    rw [h5, ← List.append_assoc] at h4
    exact ⟨e, ⟨e1, e2, q2, he1, he2, h4 ▸ he⟩, rfl⟩
  · rintro ⟨e, ⟨x, y, junk, hx, hy, he⟩, rfl⟩
    rw [read_iff.mpr ⟨e, he, rfl⟩, Go.ok_bind, List.append_assoc]
    simp only [readTime_iff.mpr ⟨x, hx, rfl⟩, Go.ok_bind]
    rw [readTime_iff.mpr ⟨y, hy, rfl⟩]
    rfl

/-! ### Names -/

theorem textOf_iff {lib : Lib} {tag : UInt8} {v t : Bytes} : textOf lib tag v = .ok t ↔ StringText lib tag v t := by
  have hbmp : v.drop (v.length - 2) = [0, 0] ↔ ∃ w, v = w ++ [0, 0] := by
    constructor
    · intro h; exact ⟨v.take (v.length - 2), by rw [← h, List.take_append_drop]⟩
    · rintro ⟨w, rfl⟩; simp
  unfold textOf StringText
  by_cases h1 : tag = 0x14
  · subst h1
    rw [if_pos rfl]
    constructor
    · intro h; cases h; exact .inl ⟨rfl, rfl⟩
    · rintro (⟨-, rfl⟩ | ⟨h, -⟩ | ⟨h, -⟩ | ⟨h, -⟩ | ⟨h, -⟩ | ⟨h, -⟩)
      · rfl
      all_goals exact absurd h (by decide)
  rw [if_neg h1]
  by_cases h2 : tag = 0x13
  · subst h2
    rw [if_pos rfl]
    constructor
    · intro h
      split at h
      · next ha => cases h; exact .inr (.inl ⟨rfl, rfl, by simpa using ha⟩)
      · cases h
    · rintro (⟨h, -⟩ | ⟨-, rfl, ha⟩ | ⟨h, -⟩ | ⟨h, -⟩ | ⟨h, -⟩ | ⟨h, -⟩)
      · exact absurd h (by decide)
      · rw [if_pos (by simpa using ha)]
      all_goals exact absurd h (by decide)
  rw [if_neg h2]
  by_cases h3 : tag = 0x0c
  · subst h3
    rw [if_pos rfl]
    constructor
    · intro h
      split at h
      · next ha => cases h; exact .inr (.inr (.inl ⟨rfl, rfl, ha⟩))
      · cases h
    · rintro (⟨h, -⟩ | ⟨h, -⟩ | ⟨-, rfl, ha⟩ | ⟨h, -⟩ | ⟨h, -⟩ | ⟨h, -⟩)
      · exact absurd h (by decide)
      · exact absurd h (by decide)
      · rw [if_pos ha]
      all_goals exact absurd h (by decide)
  rw [if_neg h3]
  by_cases h4 : tag = 0x1e
  · subst h4
    rw [if_pos rfl]
    constructor
    · intro h
      split at h
      · cases h
      · next ho =>
        cases h
        refine .inr (.inr (.inr (.inl ⟨rfl, by simpa using ho, ?_⟩)))
        split
        · next hw =>
          obtain ⟨w, rfl⟩ := hbmp.mp hw
          exact .inl ⟨w, rfl, by simp⟩
        · next hw => exact .inr ⟨fun h => hw (hbmp.mpr h), rfl⟩
    · rintro (⟨h, -⟩ | ⟨h, -⟩ | ⟨h, -⟩ | ⟨-, ho, ha⟩ | ⟨h, -⟩ | ⟨h, -⟩)
      · exact absurd h (by decide)
      · exact absurd h (by decide)
      · exact absurd h (by decide)
      · rw [if_neg (by simpa using ho)]
        rcases ha with ⟨w, rfl, rfl⟩ | ⟨hw, rfl⟩
        · rw [if_pos (hbmp.mpr ⟨w, rfl⟩)]; simp
        · rw [if_neg (fun h => hw (hbmp.mp h))]
      all_goals exact absurd h (by decide)
  rw [if_neg h4]
  by_cases h5 : tag = 0x16
  · subst h5
    rw [if_pos rfl]
    constructor
    · intro h
      split at h
      · next ha => cases h; exact .inr (.inr (.inr (.inr (.inl ⟨rfl, rfl, by simpa using ha⟩))))
      · cases h
    · rintro (⟨h, -⟩ | ⟨h, -⟩ | ⟨h, -⟩ | ⟨h, -⟩ | ⟨-, rfl, ha⟩ | ⟨h, -⟩)
      · exact absurd h (by decide)
      · exact absurd h (by decide)
      · exact absurd h (by decide)
      · exact absurd h (by decide)
      · rw [if_pos (by simpa using ha)]
      · exact absurd h (by decide)
  rw [if_neg h5]
  by_cases h6 : tag = 0x12
  · subst h6
    rw [if_pos rfl]
    constructor
    · intro h
      split at h
      · next ha => cases h; exact .inr (.inr (.inr (.inr (.inr ⟨rfl, rfl, by simpa using ha⟩))))
      · cases h
    · rintro (⟨h, -⟩ | ⟨h, -⟩ | ⟨h, -⟩ | ⟨h, -⟩ | ⟨h, -⟩ | ⟨-, rfl, ha⟩)
      · exact absurd h (by decide)
      · exact absurd h (by decide)
      · exact absurd h (by decide)
      · exact absurd h (by decide)
      · exact absurd h (by decide)
      · rw [if_pos (by simpa using ha)]
  rw [if_neg h6]
  constructor
  · intro h; cases h
  · rintro (⟨h, -⟩ | ⟨h, -⟩ | ⟨h, -⟩ | ⟨h, -⟩ | ⟨h, -⟩ | ⟨h, -⟩)
    · exact absurd h h1
    · exact absurd h h2
    · exact absurd h h3
    · exact absurd h h4
    · exact absurd h h5
    · exact absurd h h6

theorem readAttr_iff {lib : Lib} {s r : Bytes} {a : Attr} : readAttr lib s = .ok (a, r) ↔ ∃ e, AttrDer lib a e ∧ s = e ++ r := by
  unfold readAttr
  constructor
  · intro h
    rw [Go.bind_eq_ok] at h; obtain ⟨⟨c, q⟩, h1, h⟩ := h
    rw [Go.bind_eq_ok] at h; obtain ⟨⟨o, q1⟩, h2, h⟩ := h
    rw [Go.bind_eq_ok] at h; obtain ⟨v, h3, h⟩ := h
    rw [Go.bind_eq_ok] at h; obtain ⟨t, h4, h⟩ := h
    cases h
    obtain ⟨e, he, rfl⟩ := read_iff.mp h1
    obtain ⟨e1, he1, h5⟩ := readOID_iff.mp h2
    obtain ⟨he2, h6⟩ := readPiece_iff.mp h3
    simp only at h5 h6
    rw [h6, ← List.append_assoc] at h5
    exact ⟨e, ⟨e1, v.tag, v.content, v.whole, v.rest, he1, he2, textOf_iff.mp h4, h5 ▸ he⟩, rfl⟩
  · rintro ⟨e, ⟨o, tag, v, w, junk, ho, hv, ht, he⟩, rfl⟩
    rw [read_iff.mpr ⟨e, he, rfl⟩, Go.ok_bind, List.append_assoc]
    simp only [readOID_iff.mpr ⟨o, ho, rfl⟩, Go.ok_bind]
    rw [(readPiece_iff (p := ⟨tag, v, w, junk⟩)).mpr ⟨hv, rfl⟩, Go.ok_bind, textOf_iff.mpr ht]
    rfl

theorem attr_ne {lib : Lib} {a : Attr} {e : Bytes} (h : AttrDer lib a e) : e ≠ [] := by
  obtain ⟨_, _, _, _, _, _, _, _, h⟩ := h
  exact tlv_ne h

/-- A constructed element whose contents is a sequence of parts. -/
theorem readList_iff {α : Type} {tag : UInt8} {p : Bytes → Go (α × Bytes)} {R : α → Bytes → Prop}
    (hp : ∀ s a r, p s = .ok (a, r) ↔ ∃ e, R a e ∧ s = e ++ r) (hn : ∀ a e, R a e → e ≠ []) {s r : Bytes} {l : List α} :
    (∃ c, read tag s = .ok (c, r) ∧ parseAll p c = .ok l) ↔
      ∃ e, (∃ encs, List.Forall₂ R l encs ∧ Tlv tag encs.flatten e) ∧ s = e ++ r := by
  constructor
  · rintro ⟨c, h1, h2⟩
    obtain ⟨e, he, rfl⟩ := read_iff.mp h1
    obtain ⟨encs, h3, rfl⟩ := (parseAll_iff hp hn).mp h2
    exact ⟨e, ⟨encs, h3, he⟩, rfl⟩
  · rintro ⟨e, ⟨encs, h3, he⟩, rfl⟩
    exact ⟨_, read_iff.mpr ⟨e, he, rfl⟩, (parseAll_iff hp hn).mpr ⟨encs, h3, rfl⟩⟩

theorem readRdn_iff {lib : Lib} {s r : Bytes} {l : List Attr} : readRdn lib s = .ok (l, r) ↔ ∃ e, RdnDer lib l e ∧ s = e ++ r := by
  unfold RdnDer
  rw [← readList_iff (fun s a r => readAttr_iff) (fun a e h => attr_ne h)]
  unfold readRdn
  constructor
  · intro h
    rw [Go.bind_eq_ok] at h; obtain ⟨⟨c, q⟩, h1, h⟩ := h
    rw [Go.bind_eq_ok] at h; obtain ⟨l', h2, h⟩ := h
    cases h
    exact ⟨c, h1, h2⟩
  · rintro ⟨c, h1, h2⟩
    rw [h1, Go.ok_bind, h2]
    rfl

theorem readName_iff {lib : Lib} {s r : Bytes} {l : List (List Attr)} :
    readName lib s = .ok (l, r) ↔ ∃ e, NameDer lib l e ∧ s = e ++ r := by
  unfold NameDer
  rw [← readList_iff (fun s a r => readRdn_iff) (fun a e h => by obtain ⟨_, _, h⟩ := h; exact tlv_ne h)]
  unfold readName
  constructor
  · intro h
    rw [Go.bind_eq_ok] at h; obtain ⟨⟨c, q⟩, h1, h⟩ := h
    rw [Go.bind_eq_ok] at h; obtain ⟨l', h2, h⟩ := h
    cases h
    exact ⟨c, h1, h2⟩
  · rintro ⟨c, h1, h2⟩
    rw [h1, Go.ok_bind, h2]
    rfl

/-! ### Keys -/

theorem parseAI_iff {s o p : Bytes} : parseAI s = .ok (o, p) ↔ AlgContent o p s := by
  unfold parseAI AlgContent
  constructor
  · intro h
    rw [Go.bind_eq_ok] at h; obtain ⟨⟨c, q⟩, h1, h⟩ := h
    obtain ⟨e, he, rfl⟩ := readOID_iff.mp h1
    split at h
    · next hq =>
      cases h
      simp only at hq
      subst hq
      exact ⟨e, he, .inl ⟨rfl, by simp⟩⟩
    · rw [Go.bind_eq_ok] at h; obtain ⟨w, h2, h⟩ := h
      cases h
      obtain ⟨h3, h4⟩ := readPiece_iff.mp h2
      simp only at h4
      exact ⟨e, he, .inr ⟨w.tag, w.content, w.rest, h3, by rw [h4, List.append_assoc]⟩⟩
  · rintro ⟨e, he, ⟨rfl, rfl⟩ | ⟨tag, c, junk, h1, rfl⟩⟩
    · rw [readOID_iff.mpr ⟨s, he, (List.append_nil s).symm⟩, Go.ok_bind, if_pos rfl]
      rfl
    · rw [List.append_assoc, readOID_iff.mpr ⟨e, he, rfl⟩, Go.ok_bind, if_neg (by simp [tlv_ne h1])]
      simp only []
      rw [(readPiece_iff (p := ⟨tag, c, p, junk⟩)).mpr ⟨h1, rfl⟩]
      rfl

theorem rsaKey_iff {params : Bytes} {b : Cert.BitString} {k : Tal.RSAKey} :
    rsaKey params b = .ok k ↔ params = [0x05, 0x00] ∧ RsaKeyOctets k (Crl.rightAlign b) := by
  unfold rsaKey RsaKeyOctets
  constructor
  · intro h
    split at h
    · cases h
    · next hp =>
      rw [Go.bind_eq_ok] at h; obtain ⟨⟨c, q⟩, h1, h⟩ := h
      rw [Go.bind_eq_ok] at h; obtain ⟨⟨n, q1⟩, h2, h⟩ := h
      rw [Go.bind_eq_ok] at h; obtain ⟨⟨x, q2⟩, h3, h⟩ := h
      split at h
      · cases h
      · next hn =>
        split at h
        · cases h
        · next hx =>
          cases h
          obtain ⟨e, he, h4⟩ := read_iff.mp h1
          obtain ⟨e1, he1, h5⟩ := readBig_iff.mp h2
          obtain ⟨e2, he2, h6⟩ := readInt_iff.mp h3
          simp only at h5 h6
          rw [h6, ← List.append_assoc] at h5
          exact ⟨by simpa using hp, e1, e2, e, q2, q, he1, by simpa using hn, he2, by simpa using hx, h5 ▸ he, h4⟩
  · rintro ⟨rfl, n, e, w, more, junk, hn, n0, he, e0, hw, hs⟩
    rw [if_neg (by simp), hs, read_iff.mpr ⟨w, hw, rfl⟩, Go.ok_bind, List.append_assoc]
    simp only [readBig_iff.mpr ⟨n, hn, rfl⟩, Go.ok_bind]
    rw [readInt_iff.mpr ⟨e, he, rfl⟩]
    simp only [Go.ok_bind]
    rw [if_neg (by omega), if_neg (by omega)]
    rfl

theorem readSpki_iff {lib : Lib} {s r : Bytes} {k : Tal.PubKey} :
    readSpki lib s = .ok (k, r) ↔ ∃ e, SpkiOctets lib k e ∧ s = e ++ r := by
  unfold readSpki SpkiOctets
  constructor
  · intro h
    rw [Go.bind_eq_ok] at h; obtain ⟨⟨c, q⟩, h1, h⟩ := h
    rw [Go.bind_eq_ok] at h; obtain ⟨⟨alg, q1⟩, h2, h⟩ := h
    rw [Go.bind_eq_ok] at h; obtain ⟨⟨oid, params⟩, h3, h⟩ := h
    rw [Go.bind_eq_ok] at h; obtain ⟨⟨b, q2⟩, h4, h⟩ := h
    obtain ⟨e, he, rfl⟩ := read_iff.mp h1
    obtain ⟨e1, he1, h5⟩ := read_iff.mp h2
    have ha := parseAI_iff.mp h3
    simp only at h5
    split at h
    · next ho =>
      rw [Go.bind_eq_ok] at h; obtain ⟨rk, h6, h⟩ := h
      cases h
      obtain ⟨hp, hk⟩ := rsaKey_iff.mp h6
      obtain ⟨g, hg, h7⟩ := readAligned_iff.mp ⟨b, h4, rfl⟩
      simp only at h7
      rw [h7, ← List.append_assoc] at h5
      exact ⟨e, ⟨oid, params, alg, e1, g, q2, ha, he1, h5 ▸ he, .inl ⟨ho, hp, rk, _, hg, hk, rfl⟩⟩, rfl⟩
    · next ho =>
      rw [Go.bind_eq_ok] at h; obtain ⟨u, h6, h⟩ := h
      cases h
      obtain ⟨u, g, hg, hl, h7⟩ := readBits_iff.mp h4
      simp only at h7
      rw [h7, ← List.append_assoc] at h5
      refine ⟨e, ⟨oid, params, alg, e1, g, q2, ha, he1, h5 ▸ he, .inr ⟨ho, rfl, b.bytes, u, hg, ?_⟩⟩, rfl⟩
      rw [← hl]
      exact h6
  · rintro ⟨e, ⟨oid, params, alg, a, g, junk, ha, h1, he, ⟨ho, hp, rk, oct, hg, hk, rfl⟩ | ⟨ho, rfl, bytes, u, hg, hk⟩⟩, rfl⟩
    · rw [read_iff.mpr ⟨e, he, rfl⟩, Go.ok_bind, List.append_assoc]
      simp only [read_iff.mpr ⟨a, h1, rfl⟩, Go.ok_bind, parseAI_iff.mpr ha]
      obtain ⟨b, hb, rfl⟩ := readAligned_iff.mpr ⟨g, hg, rfl⟩
      rw [hb]
      simp only [Go.ok_bind]
      rw [if_pos (show oid = rsaOID from ho), rsaKey_iff.mpr ⟨hp, hk⟩]
      rfl
    · rw [read_iff.mpr ⟨e, he, rfl⟩, Go.ok_bind, List.append_assoc]
      simp only [read_iff.mpr ⟨a, h1, rfl⟩, Go.ok_bind, parseAI_iff.mpr ha]
      rw [readBits_iff (b := ⟨bytes, 8 * bytes.length - u⟩) |>.mpr ⟨u, g, hg, rfl, rfl⟩]
      simp only [Go.ok_bind]
      rw [if_neg (show ¬ oid = rsaOID from ho), hk]
      rfl

/-! ### Extensions as octets -/

theorem readExt_iff {s r : Bytes} {x : Ext.Extension} : readExt s = .ok (x, r) ↔ ∃ e, ExtOctets x e ∧ s = e ++ r := by
  unfold readExt ExtOctets
  constructor
  · intro h
    rw [Go.bind_eq_ok] at h; obtain ⟨⟨c, q⟩, h1, h⟩ := h
    rw [Go.bind_eq_ok] at h; obtain ⟨⟨o, q1⟩, h2, h⟩ := h
    rw [Go.bind_eq_ok] at h; obtain ⟨⟨b, q2⟩, h3, h⟩ := h
    rw [Go.bind_eq_ok] at h; obtain ⟨⟨v, q3⟩, h4, h⟩ := h
    cases h
    obtain ⟨e, he, rfl⟩ := read_iff.mp h1
    obtain ⟨e1, he1, h5⟩ := readOID_iff.mp h2
    obtain ⟨e3, he3, h7⟩ := read_iff.mp h4
    simp only at h5 h7
    unfold optBool at h3
    split at h3
    · obtain ⟨e2, he2, h6⟩ := readBool_iff.mp h3
      simp only at h6
      rw [h6, h7, ← List.append_assoc, ← List.append_assoc] at h5
      exact ⟨e, ⟨e1, e2, e3, q3, he1, .inr he2, he3, h5 ▸ he⟩, rfl⟩
    · cases h3
      simp only at h7
      rw [h7, ← List.append_assoc] at h5
      exact ⟨e, ⟨e1, [], e3, q3, he1, .inl ⟨rfl, rfl⟩, he3, by rw [List.append_nil, ← h5]; exact he⟩, rfl⟩
  · rintro ⟨e, ⟨o, c, v, junk, ho, hc, hv, he⟩, rfl⟩
    rw [read_iff.mpr ⟨e, he, rfl⟩, Go.ok_bind, List.append_assoc, List.append_assoc]
    simp only [readOID_iff.mpr ⟨o, ho, rfl⟩, Go.ok_bind]
    obtain ⟨id, crit, val⟩ := x
    simp only at hc hv ⊢
    unfold optBool
    rcases hc with ⟨rfl, rfl⟩ | hc
    · rw [List.nil_append, if_neg (by rw [peek_iff, tlv_head hv]; decide), Go.ok_bind]
      simp only []
      rw [read_iff.mpr ⟨v, hv, rfl⟩]
      rfl
    · rw [if_pos (peek_iff.mpr (tlv_head hc _)), readBool_iff.mpr ⟨c, hc, rfl⟩, Go.ok_bind]
      simp only []
      rw [read_iff.mpr ⟨v, hv, rfl⟩]
      rfl

theorem readExts_iff {c : Bytes} {l : List Ext.Extension} : readExts c = .ok l ↔ ExtsOctets l c := by
  unfold ExtsOctets readExts
  constructor
  · intro h
    rw [Go.bind_eq_ok] at h; obtain ⟨⟨x, q⟩, h1, h⟩ := h
    rw [Go.bind_eq_ok] at h; obtain ⟨l', h2, h⟩ := h
    split at h
    · next hn =>
      cases h
      obtain ⟨e, ⟨encs, h3, he⟩, rfl⟩ := (readList_iff (fun s a r => readExt_iff)
        (fun a e h => by obtain ⟨_, _, _, _, _, _, _, h⟩ := h; exact tlv_ne h)).mp ⟨x, h1, h2⟩
      exact ⟨encs, e, q, h3, he, rfl, hn⟩
    · cases h
  · rintro ⟨encs, e, junk, h3, he, rfl, hn⟩
    obtain ⟨x, h1, h2⟩ := (readList_iff (fun s a r => readExt_iff)
        (fun a e h => by obtain ⟨_, _, _, _, _, _, _, h⟩ := h; exact tlv_ne h)).mpr ⟨e, ⟨encs, h3, he⟩, rfl⟩
    rw [h1, Go.ok_bind]
    simp only []
    rw [h2, Go.ok_bind, if_pos hn]
    rfl

end Verif.X509
