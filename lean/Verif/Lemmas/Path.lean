import Verif.Spec.Sync
/-
  Lemmas about paths and URLs.
-/
set_option autoImplicit false

namespace Verif.Path
open Tal (hasPrefix rsyncScheme join)
open SyncSpec

theorem hasPrefix_iff : ∀ (s p : Bytes), hasPrefix s p = true ↔ p <+: s
  | s, [] => by simp [hasPrefix]
  | [], b :: p => by simp [hasPrefix]
  | a :: s, b :: p => by
    simp only [hasPrefix, Bool.and_eq_true, beq_iff_eq, hasPrefix_iff s p, List.cons_prefix_cons]
    exact ⟨fun ⟨h, g⟩ => ⟨h.symm, g⟩, fun ⟨h, g⟩ => ⟨h.symm, g⟩⟩

theorem contains_iff : ∀ (s sub : Bytes), contains s sub = true ↔ sub <:+: s
  | [], sub => by simp [contains]
  | b :: r, sub => by
    simp only [contains, Bool.or_eq_true, hasPrefix_iff, contains_iff r sub]
    rw [List.infix_cons_iff]

theorem splitSlash_ne : ∀ (s : Bytes), splitSlash s ≠ []
  | [] => by simp [splitSlash]
  | b :: r => by
    unfold splitSlash
    split
    · simp
    · split <;> simp

theorem splitSlash_append : ∀ (a b : Bytes), splitSlash (a ++ 47 :: b) = splitSlash a ++ splitSlash b
  | [], b => by simp [splitSlash]
  | c :: r, b => by
    have ih := splitSlash_append r b
    by_cases h : c = 47
    · simp [splitSlash, h, ih]
    · simp only [List.cons_append, splitSlash, h, if_false, ih]
      cases hs : splitSlash r with
      | nil => exact (splitSlash_ne r hs).elim
      | cons x t => simp

theorem splitSlash_plain : ∀ (s : Bytes), (47 : UInt8) ∉ s → splitSlash s = [s]
  | [], _ => rfl
  | b :: r, h => by
    simp at h
    simp [splitSlash, splitSlash_plain r h.2, Ne.symm h.1]

theorem split_no_slash : ∀ (s : Bytes), ∀ c ∈ splitSlash s, (47 : UInt8) ∉ c
  | [] => by simp [splitSlash]
  | b :: r => by
    intro c hc
    have ih := split_no_slash r
    unfold splitSlash at hc
    split at hc
    · simp at hc
      rcases hc with rfl | hc
      · simp
      · exact ih c hc
    · rename_i hb
      split at hc
      · rename_i h t hs
        rw [hs] at ih
        simp at hc
        rcases hc with rfl | hc
        · have := ih h (by simp)
          simp [this, Ne.symm hb]
        · exact ih c (by simp [hc])
      · simp at hc; subst hc; simp [Ne.symm hb]

theorem join_split : ∀ (s : Bytes), joinSlash (splitSlash s) = s
  | [] => by simp [splitSlash, joinSlash, join]
  | b :: r => by
    have ih := join_split r
    unfold splitSlash
    split
    · rename_i h
      subst h
      cases hs : splitSlash r with
      | nil => exact (splitSlash_ne r hs).elim
      | cons x t => rw [hs] at ih; simp only [joinSlash] at ih ⊢; simp [join, ih]
    · cases hs : splitSlash r with
      | nil => exact (splitSlash_ne r hs).elim
      | cons x t =>
        rw [hs] at ih
        simp only [joinSlash] at ih ⊢
        cases t with
        | nil => simp [join] at ih ⊢; exact ih
        | cons y t => simp [join] at ih ⊢; exact ih

theorem split_head : ∀ (s : Bytes) (h : Bytes) (t : List Bytes), splitSlash s = h :: t → t ≠ [] → (h ++ [47]) <+: s
  | [], h, t, he, ht => by simp [splitSlash] at he; exact (ht he.2).elim
  | b :: r, h, t, he, ht => by
    unfold splitSlash at he
    split at he
    · rename_i hb; subst hb; simp at he; obtain ⟨rfl, _⟩ := he; simp
    · split at he
      · rename_i x y hs
        simp at he
        obtain ⟨rfl, rfl⟩ := he
        simp [split_head r x y hs ht]
      · simp at he; exact (ht he.2).elim

theorem dropLast_infix : ∀ (s : Bytes) (c : Bytes), c ∈ (splitSlash s).dropLast → (c ++ [47]) <:+: s
  | [], c, h => by simp [splitSlash] at h
  | b :: r, c, h => by
    have key : c ∈ (splitSlash r).dropLast → (c ++ [47]) <:+: (b :: r) := by
      intro hc
      exact List.infix_cons_iff.mpr (.inr (dropLast_infix r c hc))
    unfold splitSlash at h
    split at h
    · rename_i hb
      cases hs : splitSlash r with
      | nil => exact (splitSlash_ne r hs).elim
      | cons x t =>
        rw [hs, List.dropLast_cons_of_ne_nil (by simp)] at h
        simp only [List.mem_cons] at h
        rcases h with rfl | h
        · subst hb; exact List.infix_cons_iff.mpr (.inl (by simp))
        · rw [← hs] at h; exact key h
    · cases hs : splitSlash r with
      | nil => exact (splitSlash_ne r hs).elim
      | cons x t =>
        rw [hs] at h
        cases t with
        | nil => simp at h
        | cons y t =>
          rw [show ((b :: x) :: y :: t).dropLast = (b :: x) :: (y :: t).dropLast from rfl] at h
          simp only [List.mem_cons] at h
          rcases h with rfl | h
          · have := split_head r x (y :: t) hs (by simp)
            exact List.infix_cons_iff.mpr (.inl (by simpa using this))
          · apply key
            rw [hs]
            show c ∈ x :: (y :: t).dropLast
            simp [h]

/-! ### Clean -/

/-- Elements that stay. -/
def keep (l : List Bytes) : List Bytes := l.filter (fun c => !(decide (c = []) || decide (c = dot)))

theorem foldl_clean (rooted : Bool) : ∀ (l : List Bytes) (acc : List Bytes), (∀ c ∈ l, c ≠ dotdot) →
    l.foldl (cleanStep rooted) acc = (keep l).reverse ++ acc
  | [], acc, _ => by simp [keep]
  | c :: r, acc, h => by
    rw [List.foldl_cons, foldl_clean rooted r _ (fun c hc => h c (by simp [hc]))]
    have hc := h c (by simp)
    by_cases h1 : c = []
    · simp [cleanStep, keep, h1]
    · by_cases h2 : c = dot
      · simp [cleanStep, keep, h2]
      · simp [cleanStep, keep, h1, h2, hc]

theorem clean_append (a b : Bytes) (ha : a ≠ []) (hb : ∀ c ∈ splitSlash b, c ≠ dotdot) :
    clean (a ++ 47 :: b) = ⟨(clean a).rooted, (clean a).comps ++ keep (splitSlash b)⟩ := by
  unfold clean
  have : (a ++ 47 :: b).head? = a.head? := by cases a with
    | nil => exact (ha rfl).elim
    | cons x t => rfl
  rw [this, splitSlash_append, List.foldl_append, foldl_clean _ _ _ hb]
  simp

theorem keep_no_up {l : List Bytes} (h : ∀ c ∈ l, c ≠ dotdot) : dotdot ∉ keep l := by
  intro hc
  simp [keep] at hc
  exact h _ hc.1 rfl

/-- A reversed list of kept elements: names, then steps up; no steps up in a rooted path. -/
def CleanAcc (rooted : Bool) (acc : List Bytes) : Prop :=
  ∃ names ups, acc = names ++ ups ∧ dotdot ∉ names ∧ (∀ u ∈ ups, u = dotdot) ∧ (rooted = true → ups = [])

theorem cleanAcc_step {rooted : Bool} {acc : List Bytes} (h : CleanAcc rooted acc) (c : Bytes) :
    CleanAcc rooted (cleanStep rooted acc c) := by
  obtain ⟨names, ups, rfl, h1, h2, h3⟩ := h
  unfold cleanStep
  split
  · exact ⟨names, ups, rfl, h1, h2, h3⟩
  · split
    · cases names with
      | nil =>
        cases ups with
        | nil =>
          cases rooted with
          | true => exact ⟨[], [], rfl, by simp, by simp, by simp⟩
          | false => exact ⟨[], [dotdot], rfl, by simp, by simp, by simp⟩
        | cons u t =>
          have hu := h2 u (by simp)
          simp only [List.nil_append, hu, if_true]
          refine ⟨[], dotdot :: dotdot :: t, rfl, by simp, ?_, ?_⟩
          · intro x hx; simp at hx; rcases hx with rfl | hx
            · rfl
            · exact h2 x (by simp [hx])
          · intro hr; simpa using h3 hr
      | cons n t =>
        simp at h1
        simp only [List.cons_append]
        rw [if_neg (Ne.symm h1.1)]
        exact ⟨t, ups, rfl, h1.2, h2, h3⟩
    · rename_i hc
      exact ⟨c :: names, ups, by simp, by simp [h1, Ne.symm hc], h2, h3⟩

theorem cleanAcc_foldl {rooted : Bool} : ∀ (l : List Bytes) (acc : List Bytes), CleanAcc rooted acc →
    CleanAcc rooted (l.foldl (cleanStep rooted) acc)
  | [], _, h => h
  | c :: r, _, h => cleanAcc_foldl r _ (cleanAcc_step h c)

/-- In a cleaned path the steps up come first, and a rooted path has none. -/
theorem clean_shape (s : Bytes) : ∃ ups names, (clean s).comps = ups ++ names ∧ (∀ u ∈ ups, u = dotdot) ∧ dotdot ∉ names ∧
    ((clean s).rooted = true → ups = []) := by
  obtain ⟨names, ups, h, h1, h2, h3⟩ := cleanAcc_foldl (rooted := decide (s.head? = some 47)) (splitSlash s) []
    ⟨[], [], rfl, by simp, by simp, by simp⟩
  refine ⟨ups.reverse, names.reverse, ?_, by simpa using h2, by simpa using h1, ?_⟩
  · simp only [clean, h]; simp
  · intro hr
    have := h3 hr
    simp [this]

end Verif.Path
