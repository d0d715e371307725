import Verif.Lemmas.Cache
/-
  Where the cache's files lie.
-/
set_option autoImplicit false

namespace Verif.Cache
open Path Rrdp SyncSpec
open Tal (hasPrefix rsyncScheme join)

theorem split_join : ∀ (l : List Bytes), l ≠ [] → (∀ c ∈ l, (47 : UInt8) ∉ c) → splitSlash (joinSlash l) = l
  | [], h, _ => (h rfl).elim
  | [a], _, h => by simpa [joinSlash, join] using splitSlash_plain a (h a (by simp))
  | a :: b :: r, _, h => by
    have ih := split_join (b :: r) (by simp) (fun c hc => h c (by simp at hc ⊢; exact .inr hc))
    have : joinSlash (a :: b :: r) = a ++ 47 :: joinSlash (b :: r) := by simp [joinSlash, join]
    rw [this, splitSlash_append, ih, splitSlash_plain a (h a (by simp))]
    rfl

/-- Splitting off the last element. -/
theorem split_last (s : Bytes) : ∃ init last, splitSlash s = init ++ [last] ∧ (splitSlash s).dropLast = init := by
  refine ⟨(splitSlash s).dropLast, (splitSlash s).getLast (splitSlash_ne s), ?_, rfl⟩
  exact (List.dropLast_concat_getLast _).symm

theorem up_infix {s : Bytes} {init : List Bytes} {last : Bytes} (h : splitSlash s = init ++ [last]) (h' : ¬ [46, 46, 47] <:+: s) :
    ∀ c ∈ init, c ≠ dotdot := by
  intro c hc e
  subst e
  apply h'
  have := dropLast_infix s dotdot (by rw [h]; simpa using hc)
  simpa [dotdot] using this

theorem keep_empty : keep [[]] = [] := by simp [keep]

theorem keep_append (a b : List Bytes) : keep (a ++ b) = keep a ++ keep b := by simp [keep]

theorem split_folders {s : Bytes} {init : List Bytes} {last : Bytes} (h : splitSlash s = init ++ [last]) :
    splitSlash (joinSlash init) = if init = [] then [[]] else init := by
  by_cases hi : init = []
  · subst hi; simp [joinSlash, join, splitSlash]
  · rw [if_neg hi, split_join init hi]
    intro c hc
    exact split_no_slash s c (by rw [h]; simp [hc])

theorem joinPath_ne (a b : Bytes) (h : a ≠ []) : joinPath a b = clean (a ++ 47 :: b) := by simp [joinPath, h]

/-- The directory that is made for a file. -/
theorem folders_eq {base s : Bytes} {init : List Bytes} {last : Bytes} (hb : base ≠ []) (h : splitSlash s = init ++ [last])
    (h' : ¬ [46, 46, 47] <:+: s) :
    joinPath base (joinSlash init) = ⟨(clean base).rooted, (clean base).comps ++ keep init⟩ := by
  rw [joinPath_ne _ _ hb, clean_append _ _ hb]
  · rw [split_folders h]
    split
    · rename_i e; subst e; simp [keep]
    · rfl
  · intro c hc
    rw [split_folders h] at hc
    split at hc
    · simp at hc; subst hc; simp [dotdot]
    · exact up_infix h h' c hc

/-- The file that a URL without `../` is written to is a directory, or it is the base and the elements of the
    URL. -/
theorem target_cases {base url : Bytes} (hb : base ≠ []) (h' : ¬ [46, 46, 47] <:+: url.drop 8) :
    (dotdot ∉ splitSlash (url.drop 8) ∧
      target base url = ⟨(clean base).rooted, (clean base).comps ++ keep (splitSlash (url.drop 8))⟩) ∨
    (∀ os fs fs1, FS.mkdirAll os fs (joinPath base (joinSlash (splitSlash (url.drop 8)).dropLast)) = some fs1 →
      fs1.isDir (target base url) = true) := by
  obtain ⟨init, last, h1, h2⟩ := split_last (url.drop 8)
  by_cases hl : last = dotdot
  · subst hl
    right
    intro os fs fs1 hm
    rw [h2, folders_eq hb h1 h'] at hm
    have hd := (file_mkdir hm).2
    -- the target, in terms of what came before the last element
    have hr : (base ++ 47 :: url.drop 8).head? = base.head? := by
      cases base with
      | nil => exact (hb rfl).elim
      | cons x t => rfl
    have ht : target base url = ⟨(clean base).rooted,
        (cleanStep (clean base).rooted ((clean base).comps ++ keep init).reverse dotdot).reverse⟩ := by
      unfold target
      rw [joinPath_ne _ _ hb]
      unfold clean
      rw [hr, splitSlash_append, h1, ← List.append_assoc, List.foldl_append, List.foldl_append,
        foldl_clean _ init _ (up_infix h1 h')]
      simp
    obtain ⟨ups, names, e1, e2, e3, e4⟩ := clean_shape base
    rw [ht]
    unfold FS.isDir
    rcases List.eq_nil_or_concat ((clean base).comps ++ keep init) with hn | ⟨pre, x, hx⟩
    · rw [hn]
      unfold cleanStep
      cases (clean base).rooted <;> simp [dotdot, dot]
    · rw [hx]
      by_cases hx' : x = dotdot
      · -- only steps up
        subst hx'
        have hk : keep init = [] := by
          rcases List.eq_nil_or_concat (keep init) with hk | ⟨p2, y, hk⟩
          · exact hk
          · exfalso
            rw [hk] at hx
            have h3 : ((clean base).comps ++ p2) ++ [y] = pre ++ [dotdot] := by simpa using hx
            have : y = dotdot := (List.append_inj' h3 rfl).2 |> fun e => by simpa using e
            exact keep_no_up (up_infix h1 h') (by rw [hk]; simp [this])
        rw [hk, List.append_nil, e1] at hx
        have hnames : names = [] := by
          rcases List.eq_nil_or_concat names with hk | ⟨p2, y, hk⟩
          · exact hk
          · exfalso
            rw [hk] at hx
            have h3 : (ups ++ p2) ++ [y] = pre ++ [dotdot] := by simpa using hx
            have : y = dotdot := (List.append_inj' h3 rfl).2 |> fun e => by simpa using e
            exact e3 (by rw [hk]; simp [this])
        have hpre : ∀ u ∈ pre, u = dotdot := by
          intro u hu
          apply e2
          rw [hnames, List.append_nil] at hx
          rw [hx]; simp [hu]
        have : cleanStep (clean base).rooted (pre.concat dotdot).reverse dotdot = dotdot :: dotdot :: pre.reverse := by
          simp [cleanStep, dotdot, dot]
        rw [this]
        simp only [List.reverse_cons, List.reverse_reverse, List.all_append, List.all_cons, List.all_nil]
        simp
        exact .inl hpre
      · have : cleanStep (clean base).rooted (pre.concat x).reverse dotdot = pre.reverse := by
          have hx2 : ¬ x = [46, 46] := hx'
          simp [cleanStep, dotdot, dot, hx2]
        rw [this, hd]
        simp only [List.reverse_reverse, Bool.or_eq_true, List.contains_iff_mem, List.mem_append]
        right; left
        unfold ancestors
        simp only [List.mem_map, List.mem_range]
        refine ⟨pre.length, ?_, ?_⟩
        · rw [hx]; simp only [List.length_concat]; omega
        · rw [hx]; simp
  · left
    have hall : ∀ c ∈ splitSlash (url.drop 8), c ≠ dotdot := by
      intro c hc
      rw [h1] at hc
      simp at hc
      rcases hc with hc | rfl
      · exact up_infix h1 h' c hc
      · exact hl
    refine ⟨fun h => hall _ h rfl, ?_⟩
    unfold target
    rw [joinPath_ne _ _ hb, clean_append _ _ hb hall]

/-- A file that a call changes: its place. -/
theorem write_place {os : OS} {base : Bytes} {fs fs' : FS} {url d : Bytes} {b : Bool} (hb : base ≠ [])
    (h : writeRsyncFile os base fs url d = .ok (fs', b)) (p : P) (hp : fs'.file p ≠ fs.file p) :
    rsyncScheme <+: url ∧ p = ⟨(clean base).rooted, (clean base).comps ++ keep (splitSlash (url.drop 8))⟩ ∧
      dotdot ∉ splitSlash (url.drop 8) := by
  obtain ⟨hr, fs1, h1, h2⟩ := write_spec h
  have hf : ∀ p, fs1.file p = fs.file p := fun p => by simp [FS.file, (file_mkdir h1).1]
  rcases h2 with ⟨_, rfl, _⟩ | ⟨hc, h2⟩
  · exact (hp (hf p)).elim
  · have hno : ¬ [46, 46, 47] <:+: url.drop 8 := by
      intro hx
      simp [(contains_iff _ _).mpr hx] at hc
    obtain ⟨_, w1, _, w3⟩ := writeFile_spec h2
    have hpt : p = target base url := by
      by_cases e : p = target base url
      · exact e
      · exact (hp ((w1 p e).trans (hf p))).elim
    rcases target_cases hb hno with ⟨t1, t2⟩ | t
    · exact ⟨(hasPrefix_iff _ _).mp hr, hpt.trans t2, t1⟩
    · have := w3 (t os fs fs1 h1)
      subst this
      exact (hp (hf p)).elim

/-- The last element of a split keeps the end of the text. -/
theorem split_suffix : ∀ (a x : Bytes), (47 : UInt8) ∉ x → ∃ l c, splitSlash (a ++ x) = l ++ [c] ∧ x <:+ c
  | [], x, h => ⟨[], x, by simpa using splitSlash_plain x h, List.suffix_refl x⟩
  | b :: r, x, h => by
    obtain ⟨l, c, h1, h2⟩ := split_suffix r x h
    by_cases hb : b = 47
    · exact ⟨[] :: l, c, by simp [splitSlash, hb, h1], h2⟩
    · simp only [List.cons_append, splitSlash, hb, if_false, h1]
      cases l with
      | nil => exact ⟨[], b :: c, by simp, h2.trans (List.suffix_cons b c)⟩
      | cons y t => exact ⟨(b :: y) :: t, c, by simp, h2⟩

/-- The scheme does not overlap itself: a second occurrence lies after the first. -/
theorem scheme_occurs (pre post : Bytes) (h : rsyncScheme <+: pre ++ rsyncScheme ++ post) :
    pre = [] ∨ ∃ q, pre = rsyncScheme ++ q := by
  rcases pre with _ | ⟨a, _ | ⟨b, _ | ⟨c, _ | ⟨d, _ | ⟨e, _ | ⟨f, _ | ⟨g, _ | ⟨i, q⟩⟩⟩⟩⟩⟩⟩⟩
  · exact .inl rfl
  all_goals
    simp [rsyncScheme, asc] at h
  right
  obtain ⟨rfl, rfl, rfl, rfl, rfl, rfl, rfl, rfl⟩ := h
  exact ⟨q, by simp [rsyncScheme, asc]⟩

end Verif.Cache
