import Verif.Lemmas.Xml
/-
  The scanner of encoding/xml: sections, comments, processing instructions, directives; every token, exactly.
-/
set_option autoImplicit false

namespace Verif.XmlScan
open RrdpXml (Tok)
open RrdpXmlSpec (Xml)
open XmlSpec JsonSpec

theorem two_front {a b : UInt8} {l : Bytes} (h : l.take 2 = [a, b]) : l = a :: b :: l.drop 2 := by
  conv_lhs => rw [← List.take_append_drop 2 l, h]
  rfl

/-! ### CDATA sections -/

theorem front3 (a b c x : UInt8) (w t r : Bytes) (h : (x :: w ++ a :: b :: c :: t).take 3 = [a, b, c]) (h1 : a = b) (h2 : b ≠ c) : [a, b, c] <+: x :: w := by
  subst h1
  match w with
  | [] => simp at h; exact absurd h.2 h2
  | [y] => simp at h; exact absurd h.2.2 h2
  | y :: z :: w => simp at h; obtain ⟨rfl, rfl, rfl⟩ := h; exact ⟨w, rfl⟩

theorem cdata_complete {s c : Bytes} (h : Lines s c) : ∀ (prev : UInt8) (r : Bytes), NoEnd c → (prev = 13 → c.head? ≠ some 10) → cdata prev (c ++ 93 :: 93 :: 62 :: r) = some (s, r) := by
  have no : ∀ (x : UInt8) (w r : Bytes), NoEnd (x :: w) → ¬ (x :: (w ++ 93 :: 93 :: 62 :: r)).take 3 = [93, 93, 62] := by
    intro x w r hn ht
    exact hn (List.IsPrefix.isInfix (front3 93 93 62 x w r r ht rfl (by decide)))
  have tl : ∀ (x : UInt8) (w : Bytes), NoEnd (x :: w) → NoEnd w := fun x w hn hi => hn (List.infix_cons hi)
  induction h with
  | nil => intro prev r _ _; simp [cdata]
  | oct b s t hb hs ih =>
    intro prev r hn hl
    rw [List.cons_append, cdata, if_neg (no _ _ _ hn), if_neg hb, if_neg (fun ⟨h1, h2⟩ => hl h1 (by rw [h2]; rfl)), ih b r (tl _ _ hn) (fun h => absurd h hb)]
    rfl
  | crlf s t hs ih =>
    intro prev r hn hl
    have hn2 := tl _ _ hn
    rw [List.cons_append, cdata, if_neg (no _ _ _ hn), if_pos rfl, List.cons_append, cdata, if_neg (no _ _ _ hn2), if_neg (by decide), if_pos ⟨rfl, rfl⟩,
      ih 10 r (tl _ _ hn2) (fun h => absurd h (by decide))]
    rfl
  | cr s t hh hs ih =>
    intro prev r hn hl
    rw [List.cons_append, cdata, if_neg (no _ _ _ hn), if_pos rfl, ih 13 r (tl _ _ hn) (fun _ => hh)]
    rfl

theorem cdata_sound : ∀ (bs : Bytes) (prev : UInt8) (s r : Bytes), cdata prev bs = some (s, r) →
    ∃ p w, bs = p ++ 93 :: 93 :: 62 :: r ∧ ((p = w ∧ (prev = 13 → w.head? ≠ some 10)) ∨ (prev = 13 ∧ p = 10 :: w)) ∧ Lines s w ∧ NoEnd p := by
  intro bs
  induction bs with
  | nil => intro prev s r h; cases h
  | cons b bs ih =>
    intro prev s r h
    rw [cdata] at h
    split at h
    · rename_i ht
      cases h
      refine ⟨[], [], ?_, .inl ⟨rfl, by simp⟩, .nil, by unfold NoEnd; simp⟩
      rw [← List.take_append_drop 3 (b :: bs), ht]; rfl
    rename_i hno
    have nop : ∀ p r, bs = p ++ 93 :: 93 :: 62 :: r → NoEnd p → NoEnd (b :: p) := by
      rintro p r rfl hp hi
      rcases List.infix_cons_iff.mp hi with ⟨t, ht⟩ | hi
      · apply hno
        have : b :: (p ++ 93 :: 93 :: 62 :: r) = [93, 93, 62] ++ (t ++ 93 :: 93 :: 62 :: r) := by rw [← List.append_assoc, ht]; rfl
        rw [this]; rfl
      · exact hp hi
    split at h
    · rename_i hb
      rw [Option.map_eq_some_iff] at h
      obtain ⟨⟨s', r'⟩, h1, h2⟩ := h
      cases h2
      obtain ⟨p, w, g1, g2, g3, g4⟩ := ih _ _ _ h1
      refine ⟨b :: p, b :: p, by rw [g1]; rfl, .inl ⟨rfl, fun _ hh => by cases hh; exact absurd hb (by decide)⟩, ?_, nop p _ g1 g4⟩
      subst hb
      rcases g2 with ⟨rfl, g2⟩ | ⟨-, rfl⟩
      · exact .cr _ _ (g2 rfl) g3
      · exact .crlf _ _ g3
    rename_i c5
    split at h
    · rename_i hb
      obtain ⟨p, w, g1, g2, g3, g4⟩ := ih _ _ _ h
      obtain rfl : p = w := by
        rcases g2 with g2 | g2
        · exact g2.1
        · exact absurd g2.1 c5
      exact ⟨b :: p, p, by rw [g1]; rfl, .inr ⟨hb.1, by rw [hb.2]⟩, g3, nop p _ g1 g4⟩
    rename_i c6
    rw [Option.map_eq_some_iff] at h
    obtain ⟨⟨s', r'⟩, h1, h2⟩ := h
    cases h2
    obtain ⟨p, w, g1, g2, g3, g4⟩ := ih _ _ _ h1
    obtain rfl : p = w := by
      rcases g2 with g2 | g2
      · exact g2.1
      · exact absurd g2.1 c5
    exact ⟨b :: p, b :: p, by rw [g1]; rfl, .inl ⟨rfl, fun hb1 hb => c6 ⟨hb1, by simpa using hb⟩⟩, .oct b s' p c5 g3, nop p _ g1 g4⟩

theorem section_iff (bs s r : Bytes) : checked (cdata 0 bs) = some (s, r) ↔ ∃ c, bs = c ++ [93, 93, 62] ++ r ∧ Lines s c ∧ NoEnd c ∧ XText s := by
  rw [checked_iff]
  constructor
  · rintro ⟨h, hx⟩
    obtain ⟨p, w, rfl, g2, g3, g4⟩ := cdata_sound _ _ _ _ h
    rcases g2 with ⟨rfl, -⟩ | ⟨g2, -⟩
    · exact ⟨p, by simp, g3, g4, hx⟩
    · exact absurd g2 (by decide)
  · rintro ⟨c, rfl, h1, h2, hx⟩
    have e : c ++ [93, 93, 62] ++ r = c ++ 93 :: 93 :: 62 :: r := by simp
    exact ⟨by rw [e]; exact cdata_complete h1 0 r h2 (fun h => absurd h (by decide)), hx⟩

/-! ### Comments and processing instructions -/

theorem comment_iff : ∀ (bs r : Bytes), comment bs = some r ↔ ∃ c, bs = c ++ [45, 45, 62] ++ r ∧ ¬ [45, 45] <:+: c ++ [45] := by
  intro bs
  induction bs with
  | nil => intro r; simp [comment]
  | cons b bs ih =>
    intro r
    rw [comment]
    by_cases ht : (b :: bs).take 2 = [45, 45]
    · rw [if_pos ht]
      obtain ⟨t, e⟩ : ∃ t, b :: bs = 45 :: 45 :: t := ⟨(b :: bs).drop 2, two_front ht⟩
      obtain ⟨rfl, rfl⟩ := List.cons.inj e
      constructor
      · intro h
        split at h
        · rename_i hh
          cases h
          have := head_cons hh
          refine ⟨[], ?_, by intro hi; have := hi.length_le; simp at this⟩
          simp only [List.drop_succ_cons, List.drop_zero, List.nil_append, List.cons_append] at this ⊢
          rw [← this]
        · cases h
      · rintro ⟨c, he, hc⟩
        match c with
        | [] =>
          simp at he
          subst he
          rfl
        | [x] =>
          simp at he
          exfalso
          apply hc
          rw [← he.1]
          exact List.infix_refl _
        | x :: y :: c =>
          simp at he
          exfalso
          apply hc
          rw [← he.1, ← he.2.1]
          exact ⟨[], c ++ [45], rfl⟩
    · rw [if_neg ht, ih]
      constructor
      · rintro ⟨c, rfl, hc⟩
        refine ⟨b :: c, by simp, ?_⟩
        intro hi
        rw [List.cons_append] at hi
        rcases List.infix_cons_iff.mp hi with ⟨t, h⟩ | hi
        · apply ht
          have : b :: (c ++ [45, 45, 62] ++ r) = [45, 45] ++ (t ++ [45, 62] ++ r) := by
            have e : b :: (c ++ [45, 45, 62] ++ r) = (b :: (c ++ [45])) ++ [45, 62] ++ r := by simp
            rw [e, ← h]; simp
          rw [this]; rfl
        · exact hc hi
      · rintro ⟨c, he, hc⟩
        match c with
        | [] =>
          exfalso
          apply ht
          rw [he]; rfl
        | x :: c =>
          simp at he
          obtain ⟨rfl, rfl⟩ := he
          exact ⟨c, by simp, fun hi => hc (by rw [List.cons_append]; exact List.infix_cons hi)⟩

theorem untilPI_iff : ∀ (bs c r : Bytes), untilPI bs = some (c, r) ↔ bs = c ++ [63, 62] ++ r ∧ ¬ [63, 62] <:+: c := by
  intro bs
  induction bs with
  | nil => intro c r; simp [untilPI]
  | cons b bs ih =>
    intro c r
    rw [untilPI]
    by_cases ht : (b :: bs).take 2 = [63, 62]
    · rw [if_pos ht]
      obtain ⟨t, e⟩ : ∃ t, b :: bs = 63 :: 62 :: t := ⟨(b :: bs).drop 2, two_front ht⟩
      obtain ⟨rfl, rfl⟩ := List.cons.inj e
      constructor
      · intro h
        cases h
        exact ⟨rfl, by simp⟩
      · rintro ⟨he, hc⟩
        match c with
        | [] => simp at he; subst he; rfl
        | [x] => simp at he
        | x :: y :: c =>
          simp at he
          exfalso
          apply hc
          rw [← he.1, ← he.2.1]
          exact ⟨[], c, rfl⟩
    · rw [if_neg ht, Option.map_eq_some_iff]
      constructor
      · rintro ⟨⟨c', r'⟩, h1, h2⟩
        cases h2
        obtain ⟨rfl, hc⟩ := (ih _ _).mp h1
        refine ⟨by simp, ?_⟩
        intro hi
        rcases List.infix_cons_iff.mp hi with ⟨t, h⟩ | hi
        · apply ht
          have : b :: (c' ++ [63, 62] ++ r') = [63, 62] ++ (t ++ [63, 62] ++ r') := by
            have e : b :: (c' ++ [63, 62] ++ r') = (b :: c') ++ [63, 62] ++ r' := by simp
            rw [e, ← h]; simp
          rw [this]; rfl
        · exact hc hi
      · rintro ⟨he, hc⟩
        match c with
        | [] =>
          exfalso
          apply ht
          rw [he]; rfl
        | x :: c =>
          simp at he
          obtain ⟨rfl, rfl⟩ := he
          exact ⟨(c, r), (ih _ _).mpr ⟨by simp, fun hi => hc (List.infix_cons hi)⟩, rfl⟩

theorem after_iff (p : Bytes) (hp : p ≠ []) : ∀ (c r : Bytes), after p c = some r ↔ FirstAfter p c r := by
  intro c
  induction c with
  | nil =>
    intro r
    rw [after, if_neg hp]
    constructor
    · intro h; cases h
    · rintro ⟨⟨a, h⟩, -⟩
      simp at h
      exact absurd h.2.1 hp
  | cons b c ih =>
    intro r
    rw [after]
    by_cases hpre : p.isPrefixOf (b :: c) = true
    · rw [if_pos hpre]
      obtain ⟨t, ht⟩ := List.isPrefixOf_iff_prefix.mp hpre
      have hd : (b :: c).drop p.length = t := by rw [← ht, List.drop_left]
      rw [hd]
      constructor
      · intro h
        cases h
        refine ⟨⟨[], by rw [← ht]; simp⟩, ?_⟩
        intro a' r' he
        rw [← ht] at he
        have := congrArg List.length he
        simp at this
        omega
      · rintro ⟨⟨a, he⟩, hmin⟩
        have h1 := hmin [] t (by rw [← ht]; simp)
        rw [← ht] at he
        have hl := congrArg List.length he
        simp at hl
        have : a = [] := List.length_eq_zero_iff.mp (by omega)
        subst this
        simp at he
        rw [he]
    · rw [if_neg hpre, ih]
      have npre : ∀ t, b :: c ≠ p ++ t := fun t h => hpre (List.isPrefixOf_iff_prefix.mpr ⟨t, h.symm⟩)
      constructor
      · rintro ⟨⟨a, rfl⟩, hmin⟩
        refine ⟨⟨b :: a, by simp⟩, ?_⟩
        intro a' r' he
        match a' with
        | [] => exact absurd he (npre r')
        | x :: a' =>
          rw [List.cons_append, List.cons_append] at he
          exact hmin a' r' (List.cons.inj he).2
      · rintro ⟨⟨a, he⟩, hmin⟩
        match a with
        | [] => exact absurd he (npre r)
        | x :: a =>
          rw [List.cons_append, List.cons_append] at he
          obtain ⟨rfl, he2⟩ := List.cons.inj he
          refine ⟨⟨a, he2⟩, fun a' r' he' => hmin (b :: a') r' (by rw [he']; rfl)⟩

theorem procInst_val {key c v : Bytes} (h : ValueOf key c v) : procInst key c = v := by
  obtain ⟨q, t, hq, hv, hf⟩ := h
  unfold procInst
  rw [(after_iff _ (by simp) _ _).mpr hf, List.cons_append]
  simp only []
  rw [if_pos ⟨hq, by simp⟩, List.takeWhile_append_of_pos (by intro a ha; simp; rintro rfl; exact hv ha)]
  simp

theorem procInst_or (key c : Bytes) : procInst key c = [] ∨ ValueOf key c (procInst key c) := by
  unfold procInst
  cases ha : after (key ++ [61]) c with
  | none => exact .inl rfl
  | some r =>
    cases r with
    | nil => exact .inl rfl
    | cons q v =>
      simp only []
      split
      · rename_i hq
        right
        obtain ⟨hq1, hq2⟩ := hq
        have e := List.takeWhile_append_dropWhile (p := fun x : UInt8 => decide (x ≠ q)) (l := v)
        have hn : q ∉ v.takeWhile (fun x => decide (x ≠ q)) := by
          intro hm
          have hall := List.all_takeWhile (p := fun x : UInt8 => decide (x ≠ q)) (l := v)
          have := List.all_eq_true.mp hall _ hm
          simp at this
        cases hd : v.dropWhile (fun x => decide (x ≠ q)) with
        | nil =>
          exfalso
          rw [hd, List.append_nil] at e
          rw [e] at hn
          exact hn hq2
        | cons a t =>
          have : a = q := by
            have := List.head?_dropWhile_not (fun x : UInt8 => decide (x ≠ q)) v
            rw [hd] at this
            simpa using this
          subst this
          rw [hd] at e
          exact ⟨a, t, hq1, hn, by rw [List.cons_append, e]; exact (after_iff _ (by simp) _ _).mp ha⟩
      · exact .inl rfl

theorem fold_iff : ∀ (v b : Bytes), (∀ y ∈ b, ¬ (65 ≤ y ∧ y ≤ 90)) → (fold v = b ↔ SameLetters v b) := by
  intro v
  induction v with
  | nil =>
    intro b hb
    cases b with
    | nil => simp [fold, SameLetters]
    | cons y b => simp [fold, SameLetters]
  | cons x v ih =>
    intro b hb
    cases b with
    | nil => simp [fold, SameLetters]
    | cons y b =>
      have ih' := ih b (fun z hz => hb z (List.mem_cons_of_mem _ hz))
      have hy := hb y List.mem_cons_self
      have hx : (if (65 ≤ x && x ≤ 90) = true then x + 32 else x) = y ↔ x = y ∨ (65 ≤ x ∧ x ≤ 90 ∧ x + 32 = y) := by
        split
        · rename_i hu
          simp only [Bool.and_eq_true, decide_eq_true_eq] at hu
          constructor
          · intro h; exact .inr ⟨hu.1, hu.2, h⟩
          · rintro (rfl | h)
            · exact absurd hu hy
            · exact h.2.2
        · rename_i hu
          simp only [Bool.and_eq_true, decide_eq_true_eq] at hu
          constructor
          · intro h; exact .inl h
          · rintro (h | h)
            · exact h
            · exact absurd ⟨h.1, h.2.1⟩ hu
      unfold fold at ih' ⊢
      rw [List.map_cons, List.cons.injEq, hx, ih']
      simp only [SameLetters, List.length_cons, Nat.add_right_cancel_iff, List.zip_cons_cons, List.mem_cons, forall_eq_or_imp]
      constructor
      · rintro ⟨h1, h2, h3⟩; exact ⟨h2, h1, h3⟩
      · rintro ⟨h1, h2, h3⟩; exact ⟨h2, h1, h3⟩

theorem declOk_iff (c : Bytes) : declOk c = true ↔ DeclOk c := by
  have hf := fold_iff (procInst (asc "encoding".toList) c) (asc "utf-8".toList) (by decide)
  simp only [declOk, Bool.and_eq_true, Bool.or_eq_true, beq_iff_eq, hf]
  constructor
  · rintro ⟨h1, h2⟩
    exact ⟨fun v hv => by rw [← procInst_val hv]; exact h1, fun v hv => by rw [← procInst_val hv]; exact h2⟩
  · rintro ⟨h1, h2⟩
    constructor
    · rcases procInst_or (asc "version".toList) c with h | h
      · exact .inl h
      · exact h1 _ h
    · rcases procInst_or (asc "encoding".toList) c with h | h
      · exact .inl h
      · exact h2 _ h

/-! ### Directives -/

theorem dir_quote (q : UInt8) (d : Nat) : ∀ (s t : Bytes), q ∉ s → directive 0 (some q) d none (s ++ q :: t) = directive 0 none d none t := by
  intro s
  induction s with
  | nil => intro t _; simp [directive]
  | cons c s ih =>
    intro t h
    have hc : q ≠ c := fun e => h (by rw [e]; exact List.mem_cons_self)
    rw [List.cons_append, directive, if_neg (by simp), if_neg (by simpa using hc), if_pos (by simp)]
    exact ih t (fun hm => h (List.mem_cons_of_mem _ hm))

theorem dir_quote_sound (q : UInt8) (d : Nat) : ∀ (bs r : Bytes), directive 0 (some q) d none bs = some r → ∃ s t, bs = s ++ q :: t ∧ q ∉ s ∧ directive 0 none d none t = some r := by
  intro bs
  induction bs with
  | nil => intro r h; simp [directive] at h
  | cons c bs ih =>
    intro r h
    rw [directive, if_neg (by simp)] at h
    split at h
    · rename_i hc
      cases hc
      exact ⟨[], bs, rfl, by simp, h⟩
    · rename_i hc
      rw [if_pos (by simp)] at h
      obtain ⟨s, t, rfl, h1, h2⟩ := ih r h
      refine ⟨c :: s, t, rfl, ?_, h2⟩
      intro hm
      rcases List.mem_cons.mp hm with rfl | hm
      · exact hc rfl
      · exact h1 hm

theorem dash_step (a b c : UInt8) (w : Bytes) : ¬ [45, 45, 62] <:+: a :: b :: c :: w ↔ ¬ (a = 45 ∧ b = 45 ∧ c = 62) ∧ ¬ [45, 45, 62] <:+: b :: c :: w := by
  rw [List.infix_cons_iff, not_or]
  refine and_congr_left fun _ => not_congr ?_
  simp only [List.cons_prefix_cons, List.nil_prefix, and_true]
  exact ⟨fun ⟨h1, h2, h3⟩ => ⟨h1.symm, h2.symm, h3.symm⟩, fun ⟨h1, h2, h3⟩ => ⟨h1.symm, h2.symm, h3.symm⟩⟩

theorem dir_note (d : Nat) : ∀ (s t : Bytes) (b0 b1 : UInt8), ¬ [45, 45, 62] <:+: b0 :: b1 :: s ++ [45, 45] →
    directive 0 none d (some (b0, b1)) (s ++ 45 :: 45 :: 62 :: t) = directive 0 none d none t := by
  intro s
  induction s with
  | nil => intro t b0 b1 _; simp [directive]
  | cons c s ih =>
    intro t b0 b1 h
    have h' := (dash_step b0 b1 c (s ++ [45, 45])).mp (by simpa using h)
    rw [List.cons_append, directive, if_neg h'.1]
    exact ih t b1 c (by simpa using h'.2)

theorem dir_note_sound (d : Nat) : ∀ (bs r : Bytes) (b0 b1 : UInt8), directive 0 none d (some (b0, b1)) bs = some r →
    ∃ s t, b0 :: b1 :: bs = s ++ 45 :: 45 :: 62 :: t ∧ ¬ [45, 45, 62] <:+: s ++ [45, 45] ∧ directive 0 none d none t = some r := by
  intro bs
  induction bs with
  | nil => intro r b0 b1 h; simp [directive] at h
  | cons c bs ih =>
    intro r b0 b1 h
    rw [directive] at h
    split at h
    · rename_i hc
      obtain ⟨rfl, rfl, rfl⟩ := hc
      exact ⟨[], bs, rfl, by intro hi; have := hi.length_le; simp at this, h⟩
    · rename_i hc
      obtain ⟨s, t, e, h1, h2⟩ := ih r b1 c h
      refine ⟨b0 :: s, t, by rw [e]; rfl, ?_, h2⟩
      match s with
      | [] =>
        simp only [List.nil_append, List.cons.injEq] at e
        obtain ⟨rfl, rfl, -⟩ := e
        intro hi
        rw [List.cons_append, List.nil_append, List.infix_cons_iff] at hi
        rcases hi with hi | hi
        · simp [List.cons_prefix_cons] at hi
        · exact h1 hi
      | [x] =>
        simp only [List.cons_append, List.nil_append, List.cons.injEq] at e
        obtain ⟨rfl, rfl, -⟩ := e
        intro hi
        rw [List.cons_append, List.infix_cons_iff] at hi
        rcases hi with hi | hi
        · simp [List.cons_prefix_cons] at hi
        · exact h1 hi
      | x :: y :: s =>
        simp only [List.cons_append, List.cons.injEq] at e
        obtain ⟨rfl, rfl, -⟩ := e
        have h1' : ¬ [45, 45, 62] <:+: b1 :: c :: (s ++ [45, 45]) := by simpa using h1
        have := (dash_step b0 b1 c (s ++ [45, 45])).mpr ⟨hc, h1'⟩
        simpa using this

theorem dir_last {d : Nat} {t : Bytes} (h : Dir d t) : ∃ u, t = u ++ [62] := by
  induction h with
  | done => exact ⟨[], rfl⟩
  | oct d c t _ _ ih => obtain ⟨u, rfl⟩ := ih; exact ⟨c :: u, rfl⟩
  | quoted d q s t _ _ _ ih => obtain ⟨u, rfl⟩ := ih; exact ⟨q :: s ++ q :: u, by simp⟩
  | close d t _ ih => obtain ⟨u, rfl⟩ := ih; exact ⟨62 :: u, rfl⟩
  | note d s t _ _ ih => obtain ⟨u, rfl⟩ := ih; exact ⟨60 :: 33 :: 45 :: 45 :: s ++ 45 :: 45 :: 62 :: u, by simp⟩
  | deeper d t _ _ ih => obtain ⟨u, rfl⟩ := ih; exact ⟨60 :: u, rfl⟩

theorem dir_complete {d : Nat} {t : Bytes} (h : Dir d t) : ∀ (r : Bytes), directive 0 none d none (t ++ r) = some r := by
  induction h with
  | done => intro r; simp [directive]
  | oct d c t hc ht ih =>
    intro r
    rw [List.cons_append, directive, if_neg (fun h => hc.1 h.2.1), if_neg (by simp), if_neg (by simp), if_neg (by simp [hc]), if_neg hc.1, if_neg hc.2.1]
    exact ih r
  | quoted d q s t hq hs ht ih =>
    intro r
    have q62 : q ≠ 62 := by rcases hq with rfl | rfl <;> decide
    rw [List.append_assoc, List.cons_append, List.cons_append, directive, if_neg (fun h => q62 h.2.1), if_neg (by simp), if_neg (by simp), if_pos hq, dir_quote q d s _ hs]
    exact ih r
  | close d t ht ih =>
    intro r
    rw [List.cons_append, directive, if_neg (by simp), if_neg (by simp), if_neg (by simp), if_neg (by decide), if_pos rfl]
    exact ih r
  | note d s t hs ht ih =>
    intro r
    have e : 60 :: 33 :: 45 :: 45 :: s ++ 45 :: 45 :: 62 :: t ++ r = 60 :: 33 :: 45 :: 45 :: (s ++ 45 :: 45 :: 62 :: (t ++ r)) := by simp
    rw [e, directive, if_neg (by simp), if_neg (by simp), if_neg (by simp), if_neg (by decide), if_neg (by decide), if_pos rfl, if_pos (by simp)]
    rw [directive, directive, directive, dir_note d s _ 0 0 (by
      intro hi
      rw [List.cons_append, List.cons_append, List.infix_cons_iff, List.infix_cons_iff] at hi
      rcases hi with hi | hi | hi
      · simp [List.cons_prefix_cons] at hi
      · simp [List.cons_prefix_cons] at hi
      · exact hs hi)]
    exact ih r
  | deeper d t hn ht ih =>
    intro r
    have hne : ¬ (t ++ r).take 3 = [33, 45, 45] := by
      intro h
      obtain ⟨u, hu⟩ := dir_last ht
      match t, hn, hu with
      | [], _, hu => simp at hu
      | [x], _, hu =>
        have hx : x = 33 := by cases r <;> simp at h <;> exact h.1
        subst hx
        match u, hu with
        | [], hu => simp at hu
        | _ :: u, hu => simp at hu
      | [x, y], _, hu =>
        have hx : x = 33 ∧ y = 45 := by cases r <;> simp at h <;> exact ⟨h.1, h.2.1⟩
        obtain ⟨rfl, rfl⟩ := hx
        match u, hu with
        | [], hu => simp at hu
        | [_], hu => simp at hu
        | _ :: _ :: u, hu => simp at hu
      | x :: y :: z :: t, hn, _ =>
        simp at h
        obtain ⟨rfl, rfl, rfl⟩ := h
        exact hn ⟨t, rfl⟩
    rw [List.cons_append, directive, if_neg (by simp), if_neg (by simp), if_neg (by simp), if_neg (by decide), if_neg (by decide), if_pos rfl, if_neg hne]
    exact ih r

theorem dir_sound : ∀ (n : Nat) (bs : Bytes), bs.length ≤ n → ∀ (d : Nat) (r : Bytes), directive 0 none d none bs = some r → ∃ t, bs = t ++ r ∧ Dir d t := by
  intro n
  induction n with
  | zero =>
    intro bs hl d r h
    have : bs = [] := List.length_eq_zero_iff.mp (by omega)
    subst this
    cases h
  | succ n ih =>
    intro bs hl d r h
    cases bs with
    | nil => cases h
    | cons b bs =>
      rw [List.length_cons] at hl
      rw [directive] at h
      split at h
      · rename_i hc
        obtain ⟨-, rfl, rfl⟩ := hc
        cases h
        exact ⟨[62], rfl, .done⟩
      rename_i c1
      rw [if_neg (by simp), if_neg (by simp)] at h
      split at h
      · rename_i hq
        obtain ⟨s, t, rfl, h1, h2⟩ := dir_quote_sound b d bs r h
        obtain ⟨t', rfl, ht⟩ := ih t (by simp at hl; omega) d r h2
        exact ⟨b :: s ++ b :: t', by simp, .quoted d b s t' hq h1 ht⟩
      rename_i c2
      simp only [not_or] at c2
      split at h
      · rename_i hb
        subst hb
        obtain ⟨t, rfl, ht⟩ := ih bs (by omega) _ r h
        cases d with
        | zero => exact absurd ⟨rfl, rfl, rfl⟩ c1
        | succ d => exact ⟨62 :: t, rfl, .close d t ht⟩
      rename_i c3
      split at h
      · rename_i hb
        subst hb
        split at h
        · rename_i h3
          match bs, h3 with
          | x :: y :: z :: bs, h3 =>
            simp at h3
            obtain ⟨rfl, rfl, rfl⟩ := h3
            rw [directive, directive, directive] at h
            obtain ⟨s, t, e, h1, h2⟩ := dir_note_sound d bs r 0 0 h
            match s with
            | [] => simp at e
            | [a] => simp at e
            | a :: b :: s =>
              simp only [List.cons_append, List.cons.injEq] at e
              obtain ⟨rfl, rfl, rfl⟩ := e
              obtain ⟨t', rfl, ht⟩ := ih t (by simp at hl; omega) d r h2
              refine ⟨60 :: 33 :: 45 :: 45 :: s ++ 45 :: 45 :: 62 :: t', by simp, .note d s t' ?_ ht⟩
              intro hi
              exact h1 (by rw [List.cons_append, List.cons_append]; exact List.infix_cons (List.infix_cons hi))
          | [], h3 => simp at h3
          | [_], h3 => simp at h3
          | [_, _], h3 => simp at h3
        · rename_i h3
          obtain ⟨t, rfl, ht⟩ := ih bs (by omega) _ r h
          refine ⟨60 :: t, rfl, .deeper d t ?_ ht⟩
          rintro ⟨t', rfl⟩
          exact h3 rfl
      rename_i c4
      obtain ⟨t, rfl, ht⟩ := ih bs (by omega) _ r h
      exact ⟨b :: t, rfl, .oct d b t ⟨c3, c4, c2.1, c2.2⟩ ht⟩

/-! ### Every token -/

theorem rawPI_iff (lib : Lib) (bs r : Bytes) (t : Raw) : rawPI lib bs = some (t, r) ↔
    ∃ n w c, bs = n ++ w ++ c ++ [63, 62] ++ r ∧ NameText lib n ∧ White w ∧ ¬ [63, 62] <:+: c ∧ (∀ a, c.head? = some a → ¬ White [a]) ∧
      (w = [] → ∀ a, c.head? = some a → a < 0x80 ∧ ¬ NameByte a) ∧ (n = asc "xml".toList → DeclOk c) ∧ t = .misc := by
  have wh : ∀ a : UInt8, White [a] ↔ isWs a = true := by
    intro a
    rw [isWs_iff]
    simp [White]
  have inn : ∀ a : UInt8, ¬ InName a ↔ a < 0x80 ∧ ¬ NameByte a := by
    intro a
    unfold InName
    rw [not_or, UInt8.not_le]
  unfold rawPI
  constructor
  · intro h
    cases hn : name lib bs with
    | none => rw [hn] at h; cases h
    | some x =>
      obtain ⟨n, r1⟩ := x
      rw [hn] at h
      simp only at h
      obtain ⟨rfl, g1, b, r', hb, hb2⟩ := (name_iff _ _ _ _).mp hn
      cases hu : untilPI (space r1) with
      | none => rw [hu] at h; cases h
      | some y =>
        obtain ⟨c, r2⟩ := y
        rw [hu] at h
        simp only at h
        split at h
        · cases h
        · rename_i hd
          cases h
          obtain ⟨g2, g3⟩ := (untilPI_iff _ _ _).mp hu
          obtain ⟨w, e1, hw, hws⟩ := space_split r1
          refine ⟨n, w, c, ?_, g1, hw, g3, ?_, ?_, ?_, rfl⟩
          · have : r1 = w ++ (c ++ [63, 62] ++ r) := by rw [← g2]; exact e1
            rw [this]; simp
          · intro a ha
            rw [wh, hws a (by rw [g2]; cases c with | nil => cases ha | cons x c => exact ha)]
            decide
          · rintro rfl a ha
            rw [← inn]
            have : r1 = c ++ [63, 62] ++ r := by rw [← g2]; exact e1
            rw [this] at hb
            cases c with
            | nil => cases ha
            | cons x c => cases ha; rw [List.cons_append, List.cons_append] at hb; rw [(List.cons.inj hb).1]; exact hb2
          · intro hx
            rw [← declOk_iff]
            by_contra hc
            exact hd ⟨hx, by simpa using hc⟩
  · rintro ⟨n, w, c, rfl, h1, h2, h3, h4, h5, h6, rfl⟩
    have e : n ++ w ++ c ++ [63, 62] ++ r = n ++ (w ++ (c ++ [63, 62] ++ r)) := by simp
    have hhead : ∃ b r', w ++ (c ++ [63, 62] ++ r) = b :: r' ∧ ¬ InName b := by
      cases w with
      | cons d w => exact ⟨d, _, rfl, ws_not_inName (h2 d List.mem_cons_self)⟩
      | nil =>
        cases c with
        | nil => exact ⟨63, 62 :: r, rfl, not_inName (by decide)⟩
        | cons x c => exact ⟨x, _, rfl, (inn x).mpr (h5 rfl x rfl)⟩
    have hsp : space (w ++ (c ++ [63, 62] ++ r)) = c ++ [63, 62] ++ r := by
      apply space_white w _ h2
      intro a ha
      cases c with
      | nil => cases ha; decide
      | cons x c =>
        cases ha
        have := h4 a rfl
        rw [wh] at this
        simpa using this
    rw [e, (name_iff _ _ _ _).mpr ⟨rfl, h1, hhead⟩]
    simp only [hsp]
    rw [(untilPI_iff _ c r).mpr ⟨rfl, h3⟩]
    simp only
    rw [if_neg]
    rintro ⟨hx, hd⟩
    rw [(declOk_iff c).mpr (h6 hx)] at hd
    cases hd

theorem rawBang_iff (bs r : Bytes) (t : Raw) : rawBang bs = some (t, r) ↔
    (∃ c, bs = 45 :: 45 :: c ++ [45, 45, 62] ++ r ∧ ¬ [45, 45] <:+: c ++ [45] ∧ t = .misc) ∨
    (∃ s c, bs = asc "[CDATA[".toList ++ c ++ [93, 93, 62] ++ r ∧ Lines s c ∧ NoEnd c ∧ XText s ∧ t = .chars s) ∨
    (∃ c d, bs = c :: d ++ r ∧ c ≠ 45 ∧ c ≠ 91 ∧ Dir 0 d ∧ t = .misc) := by
  have hcd : asc "[CDATA[".toList = 91 :: asc "CDATA[".toList := by decide
  cases bs with
  | nil =>
    simp only [rawBang]
    constructor
    · intro h; cases h
    · rintro (⟨c, h, -⟩ | ⟨s, c, h, -⟩ | ⟨c, d, h, -⟩)
      · simp at h
      · rw [hcd] at h; simp at h
      · simp at h
  | cons b bs =>
    rw [rawBang]
    constructor
    · intro h
      split at h
      · rename_i hb
        subst hb
        split at h
        · rename_i hh
          rw [Option.map_eq_some_iff] at h
          obtain ⟨x, h1, h2⟩ := h
          cases h2
          obtain ⟨c, g1, g2⟩ := (comment_iff _ _).mp h1
          exact .inl ⟨c, by rw [head_cons hh, g1]; simp, g2, rfl⟩
        · cases h
      rename_i c1
      split at h
      · rename_i hb
        subst hb
        split at h
        · rename_i hh
          rw [Option.map_eq_some_iff] at h
          obtain ⟨⟨s, x⟩, h1, h2⟩ := h
          cases h2
          obtain ⟨c, g1, g2, g3, g4⟩ := (section_iff _ _ _).mp h1
          refine .inr (.inl ⟨s, c, ?_, g2, g3, g4, rfl⟩)
          have e : bs = asc "CDATA[".toList ++ bs.drop 6 := by rw [← hh, List.take_append_drop]
          rw [hcd, e, g1]; simp
        · cases h
      rename_i c2
      rw [Option.map_eq_some_iff] at h
      obtain ⟨x, h1, h2⟩ := h
      cases h2
      obtain ⟨d, rfl, hd⟩ := dir_sound _ _ (Nat.le_refl _) _ _ h1
      exact .inr (.inr ⟨b, d, rfl, c1, c2, hd, rfl⟩)
    · rintro (⟨c, h, hc, rfl⟩ | ⟨s, c, h, h1, h2, h3, rfl⟩ | ⟨c, d, h, h1, h2, h3, rfl⟩)
      · simp only [List.cons_append, List.cons.injEq] at h
        obtain ⟨rfl, rfl⟩ := h
        rw [if_pos rfl, List.head?_cons, if_pos rfl, List.drop_succ_cons, List.drop_zero, (comment_iff _ r).mpr ⟨c, rfl, hc⟩]
        rfl
      · rw [hcd] at h
        simp only [List.cons_append, List.cons.injEq] at h
        obtain ⟨rfl, rfl⟩ := h
        have hl : (asc "CDATA[".toList).length = 6 := by decide
        have e1 : asc "CDATA[".toList ++ c ++ [93, 93, 62] ++ r = asc "CDATA[".toList ++ (c ++ [93, 93, 62] ++ r) := by simp
        rw [if_neg (by decide), if_pos rfl, e1, ← hl, List.take_left, if_pos rfl, List.drop_left, (section_iff _ s r).mpr ⟨c, rfl, h1, h2, h3⟩]
        rfl
      · simp only [List.cons_append, List.cons.injEq] at h
        obtain ⟨rfl, rfl⟩ := h
        rw [if_neg h1, if_neg h2, dir_complete h3]
        rfl

theorem nameText_head {lib : Lib} {n : Bytes} (h : NameText lib n) (r : Bytes) : ∃ a m, n ++ r = a :: m ∧ a ≠ 47 ∧ a ≠ 63 ∧ a ≠ 33 := by
  obtain ⟨a, m, rfl, ha⟩ := nameText_cons h
  refine ⟨a, m ++ r, rfl, ?_, ?_, ?_⟩ <;> (rintro rfl; exact not_inName (by decide) ha)

theorem written_head {s w : Bytes} (h : Written none s w) (hne : w ≠ []) : ∃ a m, w = a :: m ∧ a ≠ 60 := by
  cases h with
  | nil => exact absurd rfl hne
  | oct b s t h1 => exact ⟨b, t, rfl, h1⟩
  | crlf s t => exact ⟨13, 10 :: t, rfl, by decide⟩
  | cr s t => exact ⟨13, t, rfl, by decide⟩
  | ref u body s t => exact ⟨38, body ++ t, rfl, by decide⟩

/-- What a token is read from, exactly. -/
theorem rawToken_iff (lib : Lib) (bs r : Bytes) (t : Raw) : rawToken lib bs = some (t, r) ↔ ∃ w, bs = w ++ r ∧ Piece lib t w ∧ Ends w r := by
  have hcd : asc "<![CDATA[".toList = 60 :: 33 :: asc "[CDATA[".toList := by decide
  have hce : asc "]]>".toList = [93, 93, 62] := by decide
  have hco : asc "<!--".toList = [60, 33, 45, 45] := by decide
  have hcf : asc "-->".toList = [45, 45, 62] := by decide
  have ends : ∀ w : Bytes, Ends (60 :: w) r := fun w h => absurd rfl h
  constructor
  · intro h
    cases bs with
    | nil => cases h
    | cons b bs =>
      rw [rawToken] at h
      split at h
      · rename_i hb
        subst hb
        split at h
        · rename_i hh
          obtain ⟨n, w, qn, e, g1, g2, g3, rfl⟩ := (rawStop_iff _ _ _ _).mp h
          exact ⟨60 :: 47 :: n ++ w ++ [62], by rw [head_cons hh, e]; simp, .stop n w qn g1 g2 g3, ends _⟩
        split at h
        · rename_i hh
          obtain ⟨n, w, c, e, g1, g2, g3, g4, g5, g6, rfl⟩ := (rawPI_iff _ _ _ _).mp h
          exact ⟨60 :: 63 :: n ++ w ++ c ++ [63, 62], by rw [head_cons hh, e]; simp, .pi n w c g1 g2 g3 g4 g5 g6, ends _⟩
        split at h
        · rename_i hh
          rcases (rawBang_iff _ _ _).mp h with ⟨c, e, g1, rfl⟩ | ⟨s, c, e, g1, g2, g3, rfl⟩ | ⟨c, d, e, g1, g2, g3, rfl⟩
          · exact ⟨_, by rw [head_cons hh, e, hco, hcf]; simp, .comment c g1, by rw [hco]; exact ends _⟩
          · exact ⟨_, by rw [head_cons hh, e, hcd, hce]; simp, .cdata s c g1 g2 g3, by rw [hcd]; exact ends _⟩
          · exact ⟨60 :: 33 :: c :: d, by rw [head_cons hh, e]; simp, .directive c d ⟨g1, g2⟩ g3, ends _⟩
        · obtain ⟨n, a, qn, as, em, e, g1, g2, g3, g4, rfl⟩ := (rawStart_iff _ _ _ _).mp h
          cases em with
          | true => exact ⟨60 :: n ++ a ++ [47, 62], by rw [e]; simp [tagEnd], .empty n a qn as g1 g2 g3 g4, ends _⟩
          | false => exact ⟨60 :: n ++ a ++ [62], by rw [e]; simp [tagEnd], .start n a qn as g1 g2 g3 g4, ends _⟩
      · rename_i hb
        rw [Option.map_eq_some_iff] at h
        obtain ⟨⟨s, r'⟩, h1, h2⟩ := h
        cases h2
        obtain ⟨w, e, g1, g2, g3, g4⟩ := (plain_iff _ _ _).mp h1
        refine ⟨w, e, .text s w ?_ g1 g2 g3, fun _ => g4⟩
        rintro rfl
        rw [List.nil_append] at e
        rw [← e] at g4
        rcases g4 with g4 | g4
        · cases g4
        · cases g4; exact hb rfl
  · rintro ⟨w, rfl, hp, he⟩
    cases hp with
    | start n a qn as hn hq ha hs =>
      obtain ⟨b, m, e, h1, h2, h3⟩ := nameText_head hn (a ++ tagEnd false ++ r)
      have e2 : 60 :: n ++ a ++ [62] ++ r = 60 :: (n ++ (a ++ tagEnd false ++ r)) := by simp [tagEnd]
      have hr := (rawStart_iff lib (n ++ (a ++ tagEnd false ++ r)) r _).mpr ⟨n, a, qn, as, false, by simp, hn, hq, ha, hs, rfl⟩
      rw [e] at e2 hr
      rw [e2, rawToken, if_pos rfl, List.head?_cons, if_neg (by simpa using h1), if_neg (by simpa using h2), if_neg (by simpa using h3), hr]
    | empty n a qn as hn hq ha hs =>
      obtain ⟨b, m, e, h1, h2, h3⟩ := nameText_head hn (a ++ tagEnd true ++ r)
      have e2 : 60 :: n ++ a ++ [47, 62] ++ r = 60 :: (n ++ (a ++ tagEnd true ++ r)) := by simp [tagEnd]
      have hr := (rawStart_iff lib (n ++ (a ++ tagEnd true ++ r)) r _).mpr ⟨n, a, qn, as, true, by simp, hn, hq, ha, hs, rfl⟩
      rw [e] at e2 hr
      rw [e2, rawToken, if_pos rfl, List.head?_cons, if_neg (by simpa using h1), if_neg (by simpa using h2), if_neg (by simpa using h3), hr]
    | stop n w qn hn hq hw =>
      have e2 : 60 :: 47 :: n ++ w ++ [62] ++ r = 60 :: 47 :: (n ++ w ++ [62] ++ r) := by simp
      rw [e2, rawToken, if_pos rfl, List.head?_cons, if_pos rfl]
      exact (rawStop_iff _ _ _ _).mpr ⟨n, w, qn, rfl, hn, hq, hw, rfl⟩
    | text s w hne hw hend hx =>
      obtain ⟨a, m, rfl, ha⟩ := written_head hw hne
      rw [List.cons_append, rawToken, if_neg ha]
      have := (plain_iff (a :: m ++ r) s r).mpr ⟨a :: m, rfl, hw, hend, hx, he (by simpa using ha)⟩
      rw [List.cons_append] at this
      rw [this]; rfl
    | cdata s c hc hend hx =>
      have e2 : asc "<![CDATA[".toList ++ c ++ asc "]]>".toList ++ r = 60 :: 33 :: (asc "[CDATA[".toList ++ c ++ [93, 93, 62] ++ r) := by rw [hcd, hce]; simp
      rw [e2, rawToken, if_pos rfl, List.head?_cons, if_neg (by decide), if_neg (by decide), if_pos rfl]
      exact (rawBang_iff _ _ _).mpr (.inr (.inl ⟨s, c, rfl, hc, hend, hx, rfl⟩))
    | comment c hc =>
      have e2 : asc "<!--".toList ++ c ++ asc "-->".toList ++ r = 60 :: 33 :: (45 :: 45 :: c ++ [45, 45, 62] ++ r) := by rw [hco, hcf]; simp
      rw [e2, rawToken, if_pos rfl, List.head?_cons, if_neg (by decide), if_neg (by decide), if_pos rfl]
      exact (rawBang_iff _ _ _).mpr (.inl ⟨c, rfl, hc, rfl⟩)
    | pi n w c hn hw hc ha hs hd =>
      have e2 : 60 :: 63 :: n ++ w ++ c ++ [63, 62] ++ r = 60 :: 63 :: (n ++ w ++ c ++ [63, 62] ++ r) := by simp
      rw [e2, rawToken, if_pos rfl, List.head?_cons, if_neg (by decide), if_pos rfl]
      exact (rawPI_iff _ _ _ _).mpr ⟨n, w, c, rfl, hn, hw, hc, ha, hs, hd, rfl⟩
    | directive c t h ht =>
      have e2 : 60 :: 33 :: c :: t ++ r = 60 :: 33 :: (c :: t ++ r) := by simp
      rw [e2, rawToken, if_pos rfl, List.head?_cons, if_neg (by decide), if_neg (by decide), if_pos rfl]
      exact (rawBang_iff _ _ _).mpr (.inr (.inr ⟨c, t, rfl, h.1, h.2, ht, rfl⟩))

end Verif.XmlScan
