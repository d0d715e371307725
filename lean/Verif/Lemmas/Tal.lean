import Verif.Spec.Tal
/-
  Lemmas about the TAL reader and base64.
-/
set_option autoImplicit false

namespace Verif.Tal
open TalSpec

/-! ### lines -/

theorem lines_cons_line (u : Bytes) (h : 0x0a ∉ u) (rest : Bytes) :
    lines (u ++ 0x0a :: rest) = ((u ++ [0x0a]) :: (lines rest).1, (lines rest).2) := by
  induction u with
  | nil => simp [lines]
  | cons b u ih =>
    have hb : b ≠ 0x0a := by intro hc; apply h; simp [hc]
    have hu : 0x0a ∉ u := by intro hc; apply h; simp [hc]
    simp [lines, ih hu, hb]

theorem lines_last (u : Bytes) (h : 0x0a ∉ u) : lines u = ([], u) := by
  induction u with
  | nil => rfl
  | cons b u ih =>
    have hb : b ≠ 0x0a := by intro hc; apply h; simp [hc]
    have hu : 0x0a ∉ u := by intro hc; apply h; simp [hc]
    simp [lines, ih hu, hb]

theorem dropLF_snoc (u : Bytes) : dropLF (u ++ [0x0a]) = u := by
  simp [dropLF]

theorem dropCRLF_crlf (u : Bytes) : dropCRLF (u ++ [0x0d, 0x0a]) = u := by
  simp [dropCRLF]

theorem dropCRLF_lf (u : Bytes) (h : u.getLast? ≠ some 0x0d) : dropCRLF (u ++ [0x0a]) = u ++ [0x0a] := by
  unfold dropCRLF
  rw [if_neg]
  rintro ⟨h1, h2⟩
  apply h
  simp only [List.length_append, List.length_singleton] at h1 h2
  rw [List.getElem?_append_left (by omega)] at h2
  rw [List.getLast?_eq_getElem?]
  have : u.length - 1 = u.length + 1 - 2 := by omega
  rw [this]; exact h2

theorem dropLF_id (u : Bytes) (h : 0x0a ∉ u) : dropLF u = u := by
  unfold dropLF
  rw [if_neg]
  rintro ⟨_, h2⟩
  exact h (List.mem_of_getElem? h2)

/-- A line without line-end characters is recovered from either line end. -/
theorem deleteLineEnd_eol (u eol : Bytes) (h1 : 0x0a ∉ u) (h2 : u.getLast? ≠ some 0x0d) (he : IsEol eol) :
    deleteLineEnd (u ++ eol) = u := by
  unfold deleteLineEnd
  rcases he with rfl | rfl
  · rw [dropCRLF_lf u h2, dropLF_snoc]
  · rw [dropCRLF_crlf, dropLF_id u h1]

theorem cleanLine_eol (u eol : Bytes) (h1 : 0x0a ∉ u) (h2 : 0x0d ∉ u) (he : IsEol eol) :
    cleanLine (u ++ eol) = u := by
  unfold cleanLine
  rw [deleteLineEnd_eol u eol h1 (fun hc => h2 (List.mem_of_getLast? hc)) he]
  cases u with
  | nil => rfl
  | cons b u =>
    have : b ≠ 0x0d := by intro hc; apply h2; simp [hc]
    simp [this]

theorem cleanLine_comment (c eol : Bytes) (h1 : 0x0a ∉ c) (he : IsEol eol) :
    ∃ c', cleanLine (35 :: c ++ eol) = 35 :: c' := by
  have key : ∃ c', deleteLineEnd (35 :: c ++ eol) = 35 :: c' := by
    have hn : (0x0a : UInt8) ∉ (35 : UInt8) :: c := by simp [h1]
    by_cases hl : (35 :: c : Bytes).getLast? = some 0x0d
    · rcases he with rfl | rfl
      · obtain ⟨d, hd⟩ : ∃ d, (35 :: c : Bytes) = d ++ [0x0d] := by
          have := List.getLast?_eq_some_iff.mp hl
          exact this
        cases d with
        | nil => simp at hd
        | cons x d =>
          simp at hd
          obtain ⟨rfl, rfl⟩ := hd
          refine ⟨d, ?_⟩
          have : (35 : UInt8) :: (d ++ [0x0d]) ++ [0x0a] = (35 :: d) ++ [0x0d, 0x0a] := by simp
          unfold deleteLineEnd
          rw [this, dropCRLF_crlf, dropLF_id]
          simp at h1 ⊢; exact h1
      · refine ⟨c, ?_⟩
        unfold deleteLineEnd
        rw [dropCRLF_crlf, dropLF_id _ hn]
    · exact ⟨c, deleteLineEnd_eol _ _ hn hl he⟩
  obtain ⟨c', h⟩ := key
  exact ⟨c', by unfold cleanLine; rw [h]; simp⟩

/-- Any line followed by a line end. -/
theorem lines_eol (u eol : Bytes) (h : 0x0a ∉ u) (he : IsEol eol) (rest : Bytes) :
    lines (u ++ eol ++ rest) = ((u ++ eol) :: (lines rest).1, (lines rest).2) := by
  rcases he with rfl | rfl
  · rw [List.append_assoc]; exact lines_cons_line u h rest
  · have := lines_cons_line (u ++ [0x0d]) (by simp [h]) rest
    simpa using this

theorem foldl_head {uris : List Bytes} {text : Bytes} (h : Head uris text) (rest : Bytes) (s : LoopState)
    (hs : s.passedUrl = false) (hb : s.b64 = []) :
    (lines (text ++ rest)).1.foldl lineStep s
      = (lines rest).1.foldl lineStep ⟨false, s.urls ++ uris, []⟩ ∧
    (lines (text ++ rest)).2 = (lines rest).2 := by
  induction h generalizing s with
  | nil =>
    obtain ⟨p, u, b⟩ := s
    simp at hs hb
    subst hs hb
    simp
  | comment c eol text uris hc he h ih =>
    have h1 : (35 :: c ++ eol ++ text) ++ rest = (35 :: c) ++ eol ++ (text ++ rest) := by simp
    rw [h1, lines_eol _ _ (by simp [hc]) he]
    obtain ⟨c', hc'⟩ := cleanLine_comment c eol hc he
    have hstep : lineStep s (35 :: c ++ eol) = s := by
      obtain ⟨p, u, b⟩ := s
      simp at hs hb
      subst hs hb
      simp only [lineStep]
      rw [hc']
      simp
    simp only [List.foldl_cons]
    rw [hstep]
    exact ih s hs hb
  | uri u eol text uris hu he h ih =>
    have h1 : (u ++ eol ++ text) ++ rest = u ++ eol ++ (text ++ rest) := by simp
    rw [h1, lines_eol _ _ hu.2.1 he]
    have hc' := cleanLine_eol u eol hu.2.1 hu.2.2.1 he
    have hstep : lineStep s (u ++ eol) = ⟨false, s.urls ++ [u], []⟩ := by
      obtain ⟨p, us, b⟩ := s
      simp at hs hb
      subst hs hb
      simp only [lineStep]
      rw [hc']
      simp [hu.1, hu.2.2.2]
    simp only [List.foldl_cons]
    rw [hstep]
    have := ih ⟨false, s.urls ++ [u], []⟩ rfl rfl
    simpa using this

theorem foldl_body {body text : Bytes} (h : Body body text) (urls : List Bytes) (b : Bytes) :
    ∃ b', (lines text).1.foldl lineStep ⟨true, urls, b⟩ = ⟨true, urls, b'⟩ ∧
      b' ++ (lines text).2 = b ++ body := by
  induction h generalizing b with
  | last s h1 h2 => rw [lines_last s h1]; exact ⟨b, rfl, rfl⟩
  | line s eol body text h1 h2 he h ih =>
    rw [lines_eol s eol h1 he]
    have hstep : lineStep ⟨true, urls, b⟩ (s ++ eol) = ⟨true, urls, b ++ s⟩ := by
      simp only [lineStep]
      rw [cleanLine_eol s eol h1 h2 he]
      by_cases hs : s = []
      · simp [hs]
      · simp [hs]
    simp only [List.foldl_cons]
    rw [hstep]
    obtain ⟨b', h1, h2⟩ := ih (b ++ s)
    exact ⟨b', h1, by rw [h2]; simp⟩

theorem readText_talText {uris : List Bytes} {body text : Bytes} (h : TalText uris body text) :
    readText text = (uris, body) := by
  obtain ⟨hd, eol, bt, h1, he, h2, rfl⟩ := h
  have e1 := foldl_head h1 (eol ++ bt) ⟨false, [], []⟩ rfl rfl
  have hl := lines_eol [] eol (by simp) he bt
  simp only [List.nil_append] at hl
  rw [hl] at e1
  have hstep : lineStep ⟨false, [] ++ uris, []⟩ eol = ⟨true, uris, []⟩ := by
    have := cleanLine_eol [] eol (by simp) (by simp) he
    simp only [List.nil_append] at this
    simp only [lineStep]
    rw [this]; simp
  simp only [List.foldl_cons] at e1
  rw [hstep] at e1
  obtain ⟨b', h3, h4⟩ := foldl_body h2 uris []
  unfold readText
  simp only
  rw [List.append_assoc, e1.1, e1.2, h3]
  simp only [List.nil_append] at h4
  simp [h4]

/-! ### base64 -/

theorem b64Char_eq (i : Nat) (h : i < 64) : b64Char i = char64 i := by
  have : ∀ i : Fin 64, b64Char i = char64 i := by decide +kernel
  exact this ⟨i, h⟩

theorem b64Val_char (i : Nat) (h : i < 64) : b64Val (char64 i) = some i := by
  have : ∀ i : Fin 64, b64Val (char64 i) = some i.val := by decide +kernel
  exact this ⟨i, h⟩

theorem char64_ne (i : Nat) (h : i < 64) :
    char64 i ≠ 61 ∧ char64 i ≠ 0x0a ∧ char64 i ≠ 0x0d ∧ char64 i ≠ 35 := by
  have : ∀ i : Fin 64, char64 i ≠ 61 ∧ char64 i ≠ 0x0a ∧ char64 i ≠ 0x0d ∧ char64 i ≠ 35 := by
    decide +kernel
  exact this ⟨i, h⟩

theorem toUInt8_of (x : UInt8) (n : Nat) (h : n = x.toNat) : n.toUInt8 = x := by
  subst h; simp

/-- Decoding groups of the specification's base64. -/
theorem decode_base64 (d : Bytes) : b64DecodeGroups (base64 d) = some d := by
  induction d using base64.induct with
  | case1 a b c rest ih =>
    have ha := a.toNat_lt
    have hb := b.toNat_lt
    have hc := c.toNat_lt
    obtain ⟨n, hn⟩ : ∃ n, n = a.toNat * 65536 + b.toNat * 256 + c.toNat := ⟨_, rfl⟩
    have n1 : n / 262144 < 64 := by omega
    have n2 : n / 4096 % 64 < 64 := by omega
    have n3 : n / 64 % 64 < 64 := by omega
    have n4 : n % 64 < 64 := by omega
    simp only [base64, b64DecodeGroups]
    rw [← hn, b64Val_char _ n1, b64Val_char _ n2]
    simp only
    rw [if_neg (char64_ne _ n3).1, b64Val_char _ n3]
    simp only
    rw [if_neg (char64_ne _ n4).1, b64Val_char _ n4, ih]
    simp only [Option.some.injEq, List.cons.injEq, and_true]
    refine ⟨toUInt8_of _ _ (by omega), toUInt8_of _ _ (by omega), toUInt8_of _ _ (by omega)⟩
  | case2 a b =>
    have ha := a.toNat_lt
    have hb := b.toNat_lt
    obtain ⟨n, hn⟩ : ∃ n, n = a.toNat * 65536 + b.toNat * 256 := ⟨_, rfl⟩
    have n1 : n / 262144 < 64 := by omega
    have n2 : n / 4096 % 64 < 64 := by omega
    have n3 : n / 64 % 64 < 64 := by omega
    simp only [base64, b64DecodeGroups]
    rw [← hn, b64Val_char _ n1, b64Val_char _ n2]
    simp only
    rw [if_neg (char64_ne _ n3).1, b64Val_char _ n3]
    simp only [if_true, Option.some.injEq, List.cons.injEq, and_true]
    refine ⟨toUInt8_of _ _ (by omega), toUInt8_of _ _ (by omega)⟩
  | case3 a =>
    have ha := a.toNat_lt
    obtain ⟨n, hn⟩ : ∃ n, n = a.toNat * 65536 := ⟨_, rfl⟩
    have n1 : n / 262144 < 64 := by omega
    have n2 : n / 4096 % 64 < 64 := by omega
    simp only [base64, b64DecodeGroups]
    rw [← hn, b64Val_char _ n1, b64Val_char _ n2]
    simp only [if_true, and_self, Option.some.injEq, List.cons.injEq, and_true]
    exact toUInt8_of _ _ (by omega)
  | case4 => rfl

/-- The unpadded encoding is the padded one without its padding. -/
theorem raw_base64 (d : Bytes) :
    base64 d = b64EncodeRaw d ++ List.replicate ((3 - d.length % 3) % 3) 61 := by
  induction d using base64.induct with
  | case1 a b c rest ih =>
    have ha := a.toNat_lt
    have hb := b.toNat_lt
    have hc := c.toNat_lt
    have e : (a :: b :: c :: rest).length % 3 = rest.length % 3 := by simp only [List.length_cons]; omega
    rw [e]
    simp only [base64, b64EncodeRaw, List.cons_append, ih]
    rw [b64Char_eq _ (by omega), b64Char_eq _ (by omega), b64Char_eq _ (by omega), b64Char_eq _ (by omega)]
    have e1 : (a.toNat * 65536 + b.toNat * 256 + c.toNat) / 262144 = a.toNat / 4 := by omega
    have e2 : (a.toNat * 65536 + b.toNat * 256 + c.toNat) / 4096 % 64 = a.toNat % 4 * 16 + b.toNat / 16 := by omega
    have e3 : (a.toNat * 65536 + b.toNat * 256 + c.toNat) / 64 % 64 = b.toNat % 16 * 4 + c.toNat / 64 := by omega
    have e4 : (a.toNat * 65536 + b.toNat * 256 + c.toNat) % 64 = c.toNat % 64 := by omega
    rw [e1, e2, e3, e4]
  | case2 a b =>
    have ha := a.toNat_lt
    have hb := b.toNat_lt
    simp only [base64, b64EncodeRaw]
    rw [b64Char_eq _ (by omega), b64Char_eq _ (by omega), b64Char_eq _ (by omega)]
    have e1 : (a.toNat * 65536 + b.toNat * 256) / 262144 = a.toNat / 4 := by omega
    have e2 : (a.toNat * 65536 + b.toNat * 256) / 4096 % 64 = a.toNat % 4 * 16 + b.toNat / 16 := by omega
    have e3 : (a.toNat * 65536 + b.toNat * 256) / 64 % 64 = b.toNat % 16 * 4 := by omega
    rw [e1, e2, e3]
    rfl
  | case3 a =>
    have ha := a.toNat_lt
    simp only [base64, b64EncodeRaw]
    rw [b64Char_eq _ (by omega), b64Char_eq _ (by omega)]
    have e1 : (a.toNat * 65536) / 262144 = a.toNat / 4 := by omega
    have e2 : (a.toNat * 65536) / 4096 % 64 = a.toNat % 4 * 16 := by omega
    rw [e1, e2]
    rfl
  | case4 => rfl

theorem raw_chars (d : Bytes) : ∀ c ∈ b64EncodeRaw d, c ≠ 61 ∧ c ≠ 0x0a ∧ c ≠ 0x0d ∧ c ≠ 35 := by
  induction d using base64.induct with
  | case1 a b c rest ih =>
    have ha := a.toNat_lt
    have hb := b.toNat_lt
    have hc := c.toNat_lt
    intro x hx
    simp only [b64EncodeRaw, List.mem_cons] at hx
    rcases hx with rfl | rfl | rfl | rfl | hx
    · rw [b64Char_eq _ (by omega)]; exact char64_ne _ (by omega)
    · rw [b64Char_eq _ (by omega)]; exact char64_ne _ (by omega)
    · rw [b64Char_eq _ (by omega)]; exact char64_ne _ (by omega)
    · rw [b64Char_eq _ (by omega)]; exact char64_ne _ (by omega)
    · exact ih x hx
  | case2 a b =>
    have ha := a.toNat_lt
    have hb := b.toNat_lt
    intro x hx
    simp only [b64EncodeRaw, List.mem_cons, List.not_mem_nil, or_false] at hx
    rcases hx with rfl | rfl | rfl
    · rw [b64Char_eq _ (by omega)]; exact char64_ne _ (by omega)
    · rw [b64Char_eq _ (by omega)]; exact char64_ne _ (by omega)
    · rw [b64Char_eq _ (by omega)]; exact char64_ne _ (by omega)
  | case3 a =>
    have ha := a.toNat_lt
    intro x hx
    simp only [b64EncodeRaw, List.mem_cons, List.not_mem_nil, or_false] at hx
    rcases hx with rfl | rfl
    · rw [b64Char_eq _ (by omega)]; exact char64_ne _ (by omega)
    · rw [b64Char_eq _ (by omega)]; exact char64_ne _ (by omega)
  | case4 => simp [b64EncodeRaw]

theorem raw_length (d : Bytes) : (b64EncodeRaw d).length % 4 = 0 ↔ d.length % 3 = 0 := by
  induction d using base64.induct with
  | case1 a b c rest ih => simp only [b64EncodeRaw, List.length_cons]; omega
  | case2 a b => simp [b64EncodeRaw]
  | case3 a => simp [b64EncodeRaw]
  | case4 => simp [b64EncodeRaw]

theorem decodeGroups_length : ∀ (n : Nat) {s d : Bytes}, s.length ≤ n → b64DecodeGroups s = some d →
    s.length % 4 = 0 := by
  intro n
  induction n with
  | zero => intro s d hs _; omega
  | succ n ih =>
    intro s d hs h
    match s, hs, h with
    | [], _, _ => rfl
    | [_], _, h => simp [b64DecodeGroups] at h
    | [_, _], _, h => simp [b64DecodeGroups] at h
    | [_, _, _], _, h => simp [b64DecodeGroups] at h
    | a :: b :: c :: e :: rest, hs, h =>
      simp only [List.length_cons] at hs ⊢
      by_cases hr : rest = []
      · subst hr; rfl
      · suffices rest.length % 4 = 0 by omega
        simp only [b64DecodeGroups] at h
        split at h
        · split at h
          · simp [hr] at h
          · split at h
            · simp at h
            · split at h
              · simp [hr] at h
              · split at h
                · rename_i hd
                  exact ih (by omega) hd
                · simp at h
        · simp at h

theorem filter_noeol {s : Bytes} (h : ∀ c ∈ s, c ≠ 0x0a ∧ c ≠ 0x0d) :
    s.filter (fun c => !(c == 0x0a || c == 0x0d)) = s := by
  rw [List.filter_eq_self]
  intro c hc
  have := h c hc
  simp [this.1, this.2]

theorem base64_noeol (d : Bytes) : ∀ c ∈ base64 d, c ≠ 0x0a ∧ c ≠ 0x0d := by
  intro c hc
  rw [raw_base64] at hc
  rcases List.mem_append.mp hc with h | h
  · exact ⟨(raw_chars d c h).2.1, (raw_chars d c h).2.2.1⟩
  · rw [List.eq_of_mem_replicate h]; decide

theorem decodeStd_base64 (d : Bytes) : b64DecodeStd (base64 d) = .ok d := by
  unfold b64DecodeStd
  rw [filter_noeol (base64_noeol d), decode_base64]

theorem decodeStd_raw (d : Bytes) :
    b64DecodeStd (b64EncodeRaw d) = if d.length % 3 = 0 then .ok d else .err "illegal base64 data" := by
  unfold b64DecodeStd
  rw [filter_noeol (fun c hc => ⟨(raw_chars d c hc).2.1, (raw_chars d c hc).2.2.1⟩)]
  by_cases h0 : d.length % 3 = 0
  · rw [if_pos h0]
    have := raw_base64 d
    rw [h0] at this
    simp at this
    rw [← this, decode_base64]
  · rw [if_neg h0]
    cases hd : b64DecodeGroups (b64EncodeRaw d) with
    | none => rfl
    | some x => exact (h0 ((raw_length d).mp (decodeGroups_length _ (Nat.le_refl _) hd))).elim

/-! ### wrapping -/

theorem body_noeol_append {p : Bytes} (h1 : 0x0a ∉ p) (h2 : 0x0d ∉ p) : Body p p := .last p h1 h2

theorem keySplit_drop (key : Bytes) (split n i : Nat) (hs : 0 < split) :
    (keySplit key split n i).flatten = (key.drop (i * split)).take (n * split) := by
  induction n generalizing i with
  | zero => simp [keySplit]
  | succ n ih =>
    simp only [keySplit, List.flatten_cons, ih]
    have e1 : (i + 1) * split = i * split + split := by rw [Nat.add_mul]; omega
    have e2 : (n + 1) * split = split + n * split := by rw [Nat.add_mul]; omega
    rw [e1, e2, List.take_add]
    congr 1
    · by_cases hlt : i * split + split ≤ key.length
      · rw [Nat.min_eq_left hlt]; congr 1; omega
      · rw [Nat.min_eq_right (by omega)]
        rw [List.take_of_length_le (by simp), List.take_of_length_le (by simp; omega)]
    · rw [List.drop_drop]

theorem keySplit_sub (key : Bytes) (split n i : Nat) : ∀ p ∈ keySplit key split n i, ∀ c ∈ p, c ∈ key := by
  induction n generalizing i with
  | zero => simp [keySplit]
  | succ n ih =>
    intro p hp c hc
    simp only [keySplit, List.mem_cons] at hp
    rcases hp with rfl | hp
    · exact List.mem_of_mem_drop (List.mem_of_mem_take hc)
    · exact ih _ p hp c hc

theorem body_join (ps : List Bytes) (hne : ps ≠ []) (h : ∀ p ∈ ps, 0x0a ∉ p ∧ 0x0d ∉ p) :
    Body ps.flatten (join [0x0a] ps) := by
  induction ps with
  | nil => exact (hne rfl).elim
  | cons p ps ih =>
    cases ps with
    | nil => simp only [join, List.flatten_cons, List.flatten_nil, List.append_nil]
             exact .last p (h p (by simp)).1 (h p (by simp)).2
    | cons q qs =>
      have := ih (by simp) (fun x hx => h x (by simp [hx]))
      have hb := Body.line p [0x0a] _ _ (h p (by simp)).1 (h p (by simp)).2 (.inl rfl) this
      simpa [join] using hb

theorem body_wrap (key : Bytes) (h : ∀ c ∈ key, c ≠ 0x0a ∧ c ≠ 0x0d) (split : Int) :
    Body key (wrap key split) := by
  have hno : 0x0a ∉ key ∧ 0x0d ∉ key := ⟨fun hc => (h _ hc).1 rfl, fun hc => (h _ hc).2 rfl⟩
  unfold wrap
  split
  · rename_i hs
    have hs' : 0 < split.toNat := by omega
    have hflat := keySplit_drop key split.toNat (key.length / split.toNat + 1) 0 hs'
    have : (key.length / split.toNat + 1) * split.toNat ≥ key.length := by
      have := Nat.div_add_mod key.length split.toNat
      have hm := Nat.mod_lt key.length hs'
      rw [Nat.add_mul, Nat.mul_comm]; omega
    rw [List.take_of_length_le (by simpa using this)] at hflat
    simp only [Nat.zero_mul, List.drop_zero] at hflat
    have hb := body_join (keySplit key split.toNat (key.length / split.toNat + 1) 0) (by simp [keySplit])
      (fun p hp => ⟨fun hc => hno.1 (keySplit_sub _ _ _ _ p hp _ hc),
        fun hc => hno.2 (keySplit_sub _ _ _ _ p hp _ hc)⟩)
    rw [hflat] at hb
    exact hb
  · exact .last key hno.1 hno.2

theorem head_join (uris : List Bytes) (hne : uris ≠ []) (h : ∀ u ∈ uris, UriLine u) :
    Head uris (join [0x0a] uris ++ [0x0a]) := by
  induction uris with
  | nil => exact (hne rfl).elim
  | cons u us ih =>
    cases us with
    | nil =>
      have := Head.uri u [0x0a] [] [] (h u (by simp)) (.inl rfl) .nil
      simpa [join] using this
    | cons v vs =>
      have := Head.uri u [0x0a] _ _ (h u (by simp)) (.inl rfl) (ih (by simp) (fun x hx => h x (by simp [hx])))
      simpa [join] using this

/-- What `EncodeTALSize` writes is a TAL file. -/
theorem encode_talText (uris : List Bytes) (h : ∀ u ∈ uris, UriLine u) (key : Bytes)
    (hk : ∀ c ∈ key, c ≠ 0x0a ∧ c ≠ 0x0d) (split : Int) :
    TalText uris key (join [0x0a] uris ++ [0x0a, 0x0a] ++ wrap key split) := by
  cases uris with
  | nil =>
    refine ⟨[], [0x0a], [0x0a] ++ wrap key split, .nil, .inl rfl, ?_, by simp [join]⟩
    have := Body.line [] [0x0a] _ _ (by simp) (by simp) (.inl rfl) (body_wrap key hk split)
    simpa using this
  | cons u us =>
    refine ⟨_, [0x0a], _, head_join (u :: us) (by simp) h, .inl rfl, body_wrap key hk split, ?_⟩
    simp

theorem hasPrefix_iff (s p : Bytes) : hasPrefix s p = true ↔ p <+: s := by
  induction s generalizing p with
  | nil => cases p <;> simp [hasPrefix]
  | cons a s ih => cases p with
    | nil => simp [hasPrefix]
    | cons b p => 
      simp only [hasPrefix, Bool.and_eq_true, beq_iff_eq, ih, List.cons_prefix_cons]
      exact ⟨fun h => ⟨h.1.symm, h.2⟩, fun h => ⟨h.1.symm, h.2⟩⟩

end Verif.Tal
