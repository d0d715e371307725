import Verif.Spec.Routes
import Verif.Lemmas.Path
/-
  Lemmas for the routes: paths in simple form, the multiplexer as a list of patterns, the list of origins.
-/
set_option autoImplicit false

namespace Verif.Routes
open Path Tal RoutesSpec

/-! ### Paths -/

theorem splitSlash_cons47 (s : Bytes) : splitSlash (47 :: s) = [] :: splitSlash s := by
  simp [splitSlash]

theorem split_joinSlash : ∀ (l : List Bytes), l ≠ [] → (∀ c ∈ l, (47 : UInt8) ∉ c) → splitSlash (joinSlash l) = l
  | [], h, _ => absurd rfl h
  | [a], _, h => by
    show splitSlash (join [47] [a]) = [a]
    rw [show join [47] [a] = a from by simp [join]]
    exact splitSlash_plain a (h a (by simp))
  | a :: b :: r, _, h => by
    have ih := split_joinSlash (b :: r) (by simp) (fun c hc => h c (by simp [List.mem_cons.mp hc]))
    have : joinSlash (a :: b :: r) = a ++ 47 :: joinSlash (b :: r) := by simp [joinSlash, join]
    rw [this, splitSlash_append, ih, splitSlash_plain a (h a (by simp))]
    rfl

theorem getLast_join : ∀ (l : List Bytes), joinSlash (l ++ [[]]) = if l = [] then [] else joinSlash l ++ [47]
  | [] => rfl
  | [a] => by simp [joinSlash, join]
  | a :: b :: r => by
    have ih := getLast_join (b :: r)
    have e1 : joinSlash ((a :: b :: r) ++ [[]]) = a ++ 47 :: joinSlash ((b :: r) ++ [[]]) := by simp [joinSlash, join]
    have e2 : joinSlash (a :: b :: r) = a ++ 47 :: joinSlash (b :: r) := by simp [joinSlash, join]
    rw [e1, ih, e2]
    simp

/-- An element that stays in a cleaned path. -/
def Kept (c : Bytes) : Prop := c ≠ [] ∧ c ≠ dot ∧ c ≠ dotdot

theorem foldl_kept : ∀ (l acc : List Bytes), (∀ c ∈ l, Kept c) → l.foldl (cleanStep true) acc = l.reverse ++ acc
  | [], _, _ => rfl
  | c :: r, acc, h => by
    have hc := h c (by simp)
    rw [List.foldl_cons, foldl_kept r _ (fun x hx => h x (by simp [hx]))]
    have : cleanStep true acc c = c :: acc := by
      unfold cleanStep
      rw [if_neg (by rintro (h | h); exact hc.1 h; exact hc.2.1 h), if_neg hc.2.2]
    rw [this]
    simp

theorem foldl_all_kept : ∀ (l acc : List Bytes), (∀ c ∈ acc, Kept c) → (∀ c ∈ acc, (47 : UInt8) ∉ c) → (∀ c ∈ l, (47 : UInt8) ∉ c) →
    ∀ c ∈ l.foldl (cleanStep true) acc, Kept c ∧ (47 : UInt8) ∉ c
  | [], acc, h, h', _ => fun c hc => ⟨h c hc, h' c hc⟩
  | x :: r, acc, h, h', hl => by
    rw [List.foldl_cons]
    have hx := hl x (by simp)
    refine foldl_all_kept r _ ?_ ?_ (fun c hc => hl c (by simp [hc]))
    · intro c hc
      unfold cleanStep at hc
      split at hc
      · exact h c hc
      · rename_i h1
        split at hc
        · rename_i h2
          cases acc with
          | nil => simp at hc
          | cons a t =>
            have ha := h a (by simp)
            simp only [if_neg ha.2.2] at hc
            exact h c (by simp [hc])
        · rename_i h2
          rcases List.mem_cons.mp hc with rfl | hc
          · exact ⟨fun h => h1 (.inl h), fun h => h1 (.inr h), h2⟩
          · exact h c hc
    · intro c hc
      unfold cleanStep at hc
      split at hc
      · exact h' c hc
      · split at hc
        · cases acc with
          | nil => simp at hc
          | cons a t =>
            have ha := h a (by simp)
            simp only [if_neg ha.2.2] at hc
            exact h' c (by simp [hc])
        · rcases List.mem_cons.mp hc with rfl | hc
          · exact hx
          · exact h' c hc

theorem clean_rooted (s : Bytes) : clean (47 :: s) = ⟨true, ((splitSlash s).foldl (cleanStep true) []).reverse⟩ := by
  unfold clean
  rw [splitSlash_cons47]
  simp [cleanStep]

/-- The text of a list of kept elements, with or without a slash at the end, is in simple form. -/
theorem simple_text (l : List Bytes) (h : ∀ c ∈ l, Kept c) (h' : ∀ c ∈ l, (47 : UInt8) ∉ c) :
    Simple (47 :: joinSlash l) ∧ (l ≠ [] → Simple (47 :: joinSlash l ++ [47])) := by
  have hd : ([] : Bytes) ≠ dot ∧ ([] : Bytes) ≠ dotdot := by decide
  refine ⟨⟨rfl, ?_, ?_⟩, fun hl => ⟨rfl, ?_, ?_⟩⟩
  · rw [splitSlash_cons47]
    cases l with
    | nil => simp [joinSlash, join, splitSlash]
    | cons a r =>
      rw [split_joinSlash _ (by simp) h']
      exact fun c hc => (h c (List.dropLast_subset _ hc)).1
  · rw [splitSlash_cons47]
    cases l with
    | nil => simp [joinSlash, join, splitSlash, dot, dotdot]
    | cons a r =>
      rw [split_joinSlash _ (by simp) h']
      intro c hc
      rcases List.mem_cons.mp hc with rfl | hc
      · exact hd
      · exact (h c hc).2
  · have : joinSlash (l ++ [[]]) = joinSlash l ++ [47] := by rw [getLast_join, if_neg hl]
    rw [List.cons_append, ← this, splitSlash_cons47, split_joinSlash _ (by simp) (by
      intro c hc
      rcases List.mem_append.mp hc with hc | hc
      · exact h' c hc
      · simp at hc; simp [hc])]
    simp only [List.tail_cons, List.dropLast_concat]
    exact fun c hc => (h c hc).1
  · have : joinSlash (l ++ [[]]) = joinSlash l ++ [47] := by rw [getLast_join, if_neg hl]
    rw [List.cons_append, ← this, splitSlash_cons47, split_joinSlash _ (by simp) (by
      intro c hc
      rcases List.mem_append.mp hc with hc | hc
      · exact h' c hc
      · simp at hc; simp [hc])]
    intro c hc
    rcases List.mem_cons.mp hc with rfl | hc
    · exact hd
    · rcases List.mem_append.mp hc with hc | hc
      · exact (h c hc).2
      · simp at hc; simp only [hc]; exact hd

theorem cleanPath_rooted (s : Bytes) : cleanPath (47 :: s) = (let np := (clean (47 :: s)).text
    if (47 :: s).getLast? = some 47 ∧ np ≠ [47] then np ++ [47] else np) := by
  unfold cleanPath
  simp

theorem text_rooted (l : List Bytes) : P.text ⟨true, l⟩ = 47 :: joinSlash l := rfl

theorem joinSlash_nil {l : List Bytes} (h : ∀ c ∈ l, Kept c) (hj : joinSlash l = []) : l = [] := by
  cases l with
  | nil => rfl
  | cons a r =>
    cases r with
    | nil => exact absurd (by simpa [joinSlash, join] using hj) (h a (by simp)).1
    | cons b r => simp [joinSlash, join] at hj

theorem cleanPath_simple (p : Bytes) : Simple (cleanPath p) := by
  have key : ∀ s : Bytes, Simple (cleanPath (47 :: s)) := by
    intro s
    rw [cleanPath_rooted, clean_rooted, text_rooted]
    have hk := foldl_all_kept (splitSlash s) [] (by simp) (by simp) (split_no_slash s)
    have hs := simple_text (((splitSlash s).foldl (cleanStep true) []).reverse) (fun c hc => (hk c (List.mem_reverse.mp hc)).1)
      (fun c hc => (hk c (List.mem_reverse.mp hc)).2)
    dsimp only
    split
    · rename_i h
      refine hs.2 fun e => h.2 ?_
      rw [e]
      rfl
    · exact hs.1
  cases p with
  | nil => exact key []
  | cons b r =>
    by_cases hb : b = 47
    · subst hb; exact key r
    · have : cleanPath (b :: r) = cleanPath (47 :: b :: r) := by
        unfold cleanPath
        simp [hb]
      rw [this]
      exact key _

theorem cleanPath_of_simple {p : Bytes} (h : Simple p) : cleanPath p = p := by
  obtain ⟨h0, h1, h2⟩ := h
  cases p with
  | nil => simp at h0
  | cons b s =>
    simp only [List.head?_cons, Option.some.injEq] at h0
    subst h0
    rw [splitSlash_cons47] at h1 h2
    simp only [List.tail_cons] at h1
    have hne := splitSlash_ne s
    have hj := join_split s
    have hns := split_no_slash s
    generalize hl : splitSlash s = l at *
    obtain ⟨names, last, rfl⟩ : ∃ names last, l = names ++ [last] := ⟨l.dropLast, l.getLast hne, (List.dropLast_concat_getLast hne).symm⟩
    rw [List.dropLast_concat] at h1
    have hkn : ∀ c ∈ names, Kept c := fun c hc => ⟨h1 c hc, (h2 c (by simp [hc])).1, (h2 c (by simp [hc])).2⟩
    have hll := h2 last (by simp)
    rw [cleanPath_rooted, clean_rooted, text_rooted, hl, List.foldl_append, foldl_kept _ _ hkn]
    by_cases he : last = []
    · subst he
      simp only [List.foldl_cons, List.foldl_nil, List.append_nil]
      rw [show cleanStep true names.reverse [] = names.reverse from by simp [cleanStep], List.reverse_reverse]
      rw [getLast_join] at hj
      by_cases hn : names = []
      · subst hn
        simp only [if_true] at hj
        subst hj
        simp [joinSlash, join]
      · rw [if_neg hn] at hj
        subst hj
        rw [if_pos]
        · rfl
        · refine ⟨by rw [← List.cons_append, List.getLast?_append]; simp, fun e => hn ?_⟩
          simp only [List.cons.injEq, true_and] at e
          exact joinSlash_nil hkn e
    · have hk : Kept last := ⟨he, hll⟩
      simp only [List.foldl_cons, List.foldl_nil, List.append_nil]
      rw [show cleanStep true names.reverse last = last :: names.reverse from by
        unfold cleanStep
        rw [if_neg (by rintro (h | h); exact he h; exact hll.1 h), if_neg hll.2]]
      rw [List.reverse_cons, List.reverse_reverse, hj]
      rw [if_neg]
      rintro ⟨hlast, -⟩
      have hnl : (47 : UInt8) ∉ last := hns last (by simp)
      have : s.getLast? = last.getLast? := by
        rw [← hj]
        clear hj h1 h2 hns hkn hne hl hlast
        induction names with
        | nil => simp [joinSlash, join]
        | cons a r ih =>
          have : joinSlash ((a :: r) ++ [last]) = a ++ 47 :: joinSlash (r ++ [last]) := by
            cases r <;> simp [joinSlash, join]
          rw [this, List.getLast?_append, List.getLast?_cons, ih]
          cases hx : last.getLast? with
          | none => exact absurd (List.getLast?_eq_none_iff.mp hx) he
          | some y => simp
      cases s with
      | nil =>
        exact he (List.getLast?_eq_none_iff.mp (by simpa using this.symm))
      | cons x y =>
        rw [List.getLast?_cons_cons, this] at hlast
        exact hnl (List.mem_of_getLast? hlast)

theorem cleanPath_eq_iff (p : Bytes) : cleanPath p = p ↔ Simple p := ⟨fun h => h ▸ cleanPath_simple p, cleanPath_of_simple⟩

/-! ### The multiplexer -/

/-- The multiplexer holds exactly these patterns. -/
structure Holds (mux : Mux) (pats : List (Bytes × Doc)) : Prop where
  look : ∀ p d, mux.m.lookup p = some d ↔ (p, d) ∈ pats
  es : ∀ e, e ∈ mux.es ↔ e ∈ pats ∧ e.1.getLast? = some 47
  sorted : mux.es.Pairwise fun a b => b.1.length ≤ a.1.length
  hosts : mux.hosts = false ↔ ∀ e ∈ pats, e.1.head? = some 47

theorem mem_appendSorted (e : Bytes × Doc) : ∀ (l : List (Bytes × Doc)) (x : Bytes × Doc), x ∈ appendSorted l e ↔ x = e ∨ x ∈ l
  | [], x => by simp [appendSorted]
  | y :: r, x => by
    unfold appendSorted
    split
    · simp
    · rw [List.mem_cons, mem_appendSorted e r x, List.mem_cons]
      constructor
      · rintro (h | h | h)
        · exact .inr (.inl h)
        · exact .inl h
        · exact .inr (.inr h)
      · rintro (h | h | h)
        · exact .inr (.inl h)
        · exact .inl h
        · exact .inr (.inr h)

theorem sorted_appendSorted (e : Bytes × Doc) : ∀ (l : List (Bytes × Doc)), l.Pairwise (fun a b => b.1.length ≤ a.1.length) →
    (appendSorted l e).Pairwise (fun a b => b.1.length ≤ a.1.length)
  | [], _ => by simp [appendSorted]
  | y :: r, h => by
    obtain ⟨h1, h2⟩ := List.pairwise_cons.mp h
    unfold appendSorted
    split
    · rename_i hl
      refine List.pairwise_cons.mpr ⟨?_, h⟩
      intro x hx
      rcases List.mem_cons.mp hx with rfl | hx
      · omega
      · have := h1 x hx; omega
    · rename_i hl
      refine List.pairwise_cons.mpr ⟨?_, sorted_appendSorted e r h2⟩
      intro x hx
      rcases (mem_appendSorted e r x).mp hx with rfl | hx
      · omega
      · exact h1 x hx

theorem handle_holds {mux mux' : Mux} {pats : List (Bytes × Doc)} {p : Bytes} {d : Doc} (hh : Holds mux pats) (h : mux.handle p d = .ok mux') :
    Holds mux' (pats ++ [(p, d)]) ∧ p ≠ [] ∧ p ∉ pats.map (·.1) := by
  unfold Mux.handle at h
  split at h
  · cases h
  rename_i hp
  split at h
  · cases h
  rename_i hl
  have hl : mux.m.lookup p = none := Option.not_isSome_iff_eq_none.mp hl
  have hnew : p ∉ pats.map (·.1) := by
    intro hm
    obtain ⟨⟨q, e⟩, he, rfl⟩ := List.mem_map.mp hm
    rw [(hh.look q e).mpr he] at hl
    cases hl
  cases h
  refine ⟨⟨?_, ?_, ?_, ?_⟩, hp, hnew⟩
  · intro q e
    rw [List.lookup_cons]
    by_cases hq : q = p
    · subst hq
      simp only [beq_self_eq_true, Option.some.injEq, List.mem_append, List.mem_singleton, Prod.mk.injEq, true_and]
      constructor
      · exact fun h => .inr h.symm
      · rintro (h | h)
        · exact absurd (List.mem_map.mpr ⟨_, h, rfl⟩) hnew
        · exact h.symm
    · rw [show (q == p) = false from by simpa using hq]
      simp only [hh.look q e, List.mem_append, List.mem_singleton, Prod.mk.injEq, hq, false_and, or_false]
  · intro e
    dsimp only
    split
    · rename_i hs
      rw [mem_appendSorted, hh.es]
      simp only [List.mem_append, List.mem_singleton]
      constructor
      · rintro (rfl | h)
        · exact ⟨.inr rfl, hs⟩
        · exact ⟨.inl h.1, h.2⟩
      · rintro ⟨h | h, h'⟩
        · exact .inr ⟨h, h'⟩
        · exact .inl h
    · rename_i hs
      rw [hh.es]
      simp only [List.mem_append, List.mem_singleton]
      constructor
      · rintro h
        exact ⟨.inl h.1, h.2⟩
      · rintro ⟨h | h, h'⟩
        · exact ⟨h, h'⟩
        · subst h; exact absurd h' hs
  · dsimp only
    split
    · exact sorted_appendSorted _ _ hh.sorted
    · exact hh.sorted
  · dsimp only
    rw [Bool.or_eq_false_iff, hh.hosts]
    simp only [List.mem_append, List.mem_singleton]
    constructor
    · rintro ⟨h1, h2⟩ e (he | rfl)
      · exact h1 e he
      · simpa using h2
    · intro h
      exact ⟨fun e he => h e (.inl he), by simpa using h _ (.inr rfl)⟩

theorem handleAll_holds : ∀ (l : List (Bytes × Doc)) {mux mux' : Mux} {pats : List (Bytes × Doc)}, Holds mux pats → mux.handleAll l = .ok mux' →
    Holds mux' (pats ++ l)
  | [], mux, mux', pats, hh, h => by cases h; simpa using hh
  | (p, d) :: r, mux, mux', pats, hh, h => by
    unfold Mux.handleAll at h
    obtain ⟨m1, h1, h2⟩ := Go.bind_eq_ok.mp h
    have := handleAll_holds r (handle_holds hh h1).1 h2
    simpa using this

theorem holds_nil : Holds ⟨[], [], false⟩ [] := ⟨by simp, by simp, List.Pairwise.nil, by simp⟩

theorem start_holds {c : Cfg} {mux : Mux} (h : start c = .ok mux) : Holds mux (registered c) := by
  simpa using handleAll_holds (registered c) holds_nil h

/-- The multiplexer is made if and only if no pattern is empty and none is there twice; else there is a panic. -/
theorem handleAll_iff : ∀ (l : List (Bytes × Doc)) (mux : Mux) (pats : List (Bytes × Doc)), Holds mux pats →
    ((∃ mux', mux.handleAll l = .ok mux') ∨ mux.handleAll l = .panic) ∧
    ((∃ mux', mux.handleAll l = .ok mux') ↔ (∀ e ∈ l, e.1 ≠ []) ∧ (l.map (·.1)).Nodup ∧ ∀ e ∈ l, e.1 ∉ pats.map (·.1))
  | [], mux, pats, hh => by simp [Mux.handleAll]
  | (p, d) :: r, mux, pats, hh => by
    unfold Mux.handleAll
    by_cases hp : p = []
    · have : mux.handle p d = .panic := by unfold Mux.handle; rw [if_pos hp]
      rw [this]
      refine ⟨.inr rfl, ⟨(fun h => by obtain ⟨_, h⟩ := h; cases h), fun h => absurd hp (h.1 (p, d) (by simp))⟩⟩
    · by_cases hm : p ∈ pats.map (·.1)
      · have : mux.handle p d = .panic := by
          unfold Mux.handle
          obtain ⟨⟨q, e⟩, he, hq⟩ := List.mem_map.mp hm
          dsimp only at hq
          subst hq
          rw [if_neg hp, if_pos (by rw [(hh.look q e).mpr he]; rfl)]
        rw [this]
        refine ⟨.inr rfl, ⟨(fun h => by obtain ⟨_, h⟩ := h; cases h), fun h => absurd hm (h.2.2 (p, d) (by simp))⟩⟩
      · obtain ⟨m1, h1⟩ : ∃ m1, mux.handle p d = .ok m1 := by
          unfold Mux.handle
          rw [if_neg hp, if_neg]
          · exact ⟨_, rfl⟩
          · intro hs
            obtain ⟨e, he⟩ := Option.isSome_iff_exists.mp hs
            exact hm (List.mem_map.mpr ⟨_, (hh.look p e).mp he, rfl⟩)
        rw [h1]
        obtain ⟨ih1, ih2⟩ := handleAll_iff r m1 _ (handle_holds hh h1).1
        refine ⟨ih1, ?_⟩
        refine Iff.trans ih2 ?_
        simp only [List.map_append, List.map_cons, List.map_nil, List.mem_append, not_or, List.nodup_cons, List.mem_cons, List.not_mem_nil, not_false_eq_true, and_true, forall_eq_or_imp]
        constructor
        · rintro ⟨a, b, c⟩
          refine ⟨⟨hp, a⟩, ⟨fun hx => ?_, b⟩, hm, fun e he => (c e he).1⟩
          obtain ⟨e, he, hx⟩ := List.mem_map.mp hx
          exact (c e he).2 hx
        · rintro ⟨⟨_, a⟩, ⟨b1, b⟩, _, c⟩
          exact ⟨a, b, fun e he => ⟨c e he, fun hx => b1 (List.mem_map.mpr ⟨e, he, hx⟩)⟩⟩

theorem fits_length {p q : Bytes} (h : Fits p q) : p.length ≤ q.length := by
  rcases h with rfl | ⟨-, h⟩
  · exact Nat.le_refl _
  · exact h.length_le

theorem fits_eq {p q path : Bytes} (hp : Fits p path) (hq : Fits q path) (hl : p.length = q.length) : p = q := by
  have h1 : p <+: path := by rcases hp with rfl | ⟨-, h⟩; exact List.prefix_refl _; exact h
  have h2 : q <+: path := by rcases hq with rfl | ⟨-, h⟩; exact List.prefix_refl _; exact h
  exact (List.prefix_of_prefix_length_le h1 h2 (by omega)).eq_of_length hl

theorem find_first {l : List (Bytes × Doc)} {f : Bytes × Doc → Bool} {e : Bytes × Doc} (hs : l.Pairwise fun a b => b.1.length ≤ a.1.length) (h : l.find? f = some e) :
    e ∈ l ∧ f e = true ∧ ∀ x ∈ l, f x = true → x.1.length ≤ e.1.length := by
  induction l with
  | nil => cases h
  | cons y r ih =>
    rw [List.find?_cons] at h
    obtain ⟨h1, h2⟩ := List.pairwise_cons.mp hs
    cases hy : f y with
    | true =>
      rw [hy] at h
      cases h
      refine ⟨by simp, hy, ?_⟩
      intro x hx _
      rcases List.mem_cons.mp hx with rfl | hx
      · exact Nat.le_refl _
      · exact h1 x hx
    | false =>
      rw [hy] at h
      obtain ⟨a, b, c⟩ := ih h2 h
      refine ⟨by simp [a], b, ?_⟩
      intro x hx hf
      rcases List.mem_cons.mp hx with rfl | hx
      · rw [hy] at hf; cases hf
      · exact c x hx hf

/-- The lookup gives the document of the longest pattern that fits. -/
theorem find_best {mux : Mux} {pats : List (Bytes × Doc)} (hh : Holds mux pats) (path : Bytes) (d : Doc) : mux.find path = some d ↔ Best pats path d := by
  have huni : ∀ p d e, (p, d) ∈ pats → (p, e) ∈ pats → d = e := by
    intro p d e h1 h2
    have := (hh.look p d).mpr h1
    rw [(hh.look p e).mpr h2] at this
    exact (Option.some.inj this).symm
  have hex : (∃ e, mux.find path = some e ∧ Best pats path e) ∨ (mux.find path = none ∧ ∀ p e, (p, e) ∈ pats → ¬ Fits p path) := by
    unfold Mux.find
    cases hl : mux.m.lookup path with
    | some e =>
      exact .inl ⟨e, rfl, path, (hh.look _ _).mp hl, .inl rfl, fun q _ _ hq => fits_length hq⟩
    | none =>
      have hno : ∀ p e, (p, e) ∈ pats → p ≠ path := by
        rintro p e he rfl
        rw [(hh.look p e).mpr he] at hl
        cases hl
      dsimp only
      cases hf : mux.es.find? fun e => hasPrefix path e.1 with
      | none =>
        refine .inr ⟨rfl, ?_⟩
        rintro p e he (h | ⟨h1, h2⟩)
        · exact hno p e he h
        · have := List.find?_eq_none.mp hf (p, e) ((hh.es _).mpr ⟨he, h1⟩)
          exact this ((hasPrefix_iff _ _).mpr h2)
      | some e =>
        obtain ⟨a, b, c⟩ := find_first hh.sorted hf
        obtain ⟨a1, a2⟩ := (hh.es e).mp a
        refine .inl ⟨e.2, rfl, e.1, a1, .inr ⟨a2, (hasPrefix_iff _ _).mp b⟩, ?_⟩
        rintro q x hq (h | ⟨h1, h2⟩)
        · exact absurd h (hno q x hq)
        · exact c (q, x) ((hh.es _).mpr ⟨hq, h1⟩) ((hasPrefix_iff _ _).mpr h2)
  constructor
  · intro h
    rcases hex with ⟨e, h1, h2⟩ | ⟨h1, h2⟩
    · rw [h1] at h; cases h; exact h2
    · rw [h1] at h; cases h
  · rintro ⟨p, hp, hf, hm⟩
    rcases hex with ⟨e, h1, q, hq, hqf, hqm⟩ | ⟨h1, h2⟩
    · have hl : p.length = q.length := Nat.le_antisymm (hqm p d hp hf) (hm q e hq hqf)
      obtain rfl := fits_eq hf hqf hl
      rw [huni p d e hp hq]
      exact h1
    · exact absurd hf (h2 p d hp)

theorem find_none {mux : Mux} {pats : List (Bytes × Doc)} (hh : Holds mux pats) (path : Bytes) : mux.find path = none ↔ ∀ p e, (p, e) ∈ pats → ¬ Fits p path := by
  constructor
  · intro h p e he hf
    unfold Mux.find at h
    split at h
    · cases h
    · rename_i hl
      rcases hf with rfl | ⟨h1, h2⟩
      · rw [(hh.look p e).mpr he] at hl; cases hl
      · have h : mux.es.find? (fun e => hasPrefix path e.1) = none := by simpa using h
        exact List.find?_eq_none.mp h (p, e) ((hh.es _).mpr ⟨he, h1⟩) ((hasPrefix_iff _ _).mpr h2)
  · intro h
    cases hf : mux.find path with
    | none => rfl
    | some d =>
      obtain ⟨p, hp, hpf, -⟩ := (find_best hh path d).mp hf
      exact absurd hpf (h p d hp)

/-! ### Origins -/

theorem lower_append (a b : Bytes) : lower (a ++ b) = lower a ++ lower b := List.map_append ..

theorem lowerByte_star (b : UInt8) : lowerByte b = 42 ↔ b = 42 := by
  unfold lowerByte
  split
  · rename_i h
    obtain ⟨h1, h2⟩ := h
    have h1 : 65 ≤ b.toNat := h1
    have h2 : b.toNat ≤ 90 := h2
    constructor
    · intro h
      have := congrArg UInt8.toNat h
      simp at this
      omega
    · rintro rfl
      simp at h1
  · exact Iff.rfl

theorem lower_star (a : Bytes) : 42 ∈ lower a ↔ 42 ∈ a := by
  unfold lower
  rw [List.mem_map]
  constructor
  · rintro ⟨b, hb, h⟩
    rw [lowerByte_star] at h
    exact h ▸ hb
  · exact fun h => ⟨42, h, by decide⟩

theorem cutStar_none : ∀ (s : Bytes), cutStar s = none ↔ 42 ∉ s
  | [] => by simp [cutStar]
  | b :: r => by
    unfold cutStar
    by_cases h : b = 42
    · simp [h]
    · rw [if_neg h, Option.map_eq_none_iff, cutStar_none r]
      simp [Ne.symm h]

theorem cutStar_some : ∀ (s : Bytes) (w : Bytes × Bytes), cutStar s = some w ↔ s = w.1 ++ 42 :: w.2 ∧ 42 ∉ w.1
  | [], w => by simp [cutStar]
  | b :: r, (a, c) => by
    unfold cutStar
    by_cases h : b = 42
    · subst h
      rw [if_pos rfl]
      constructor
      · intro e; cases e; exact ⟨rfl, by simp⟩
      · rintro ⟨e, hn⟩
        cases a with
        | nil => simp at e; rw [e]
        | cons x y =>
          simp at e hn
          exact absurd e.1 hn.1
    · rw [if_neg h]
      constructor
      · intro e
        obtain ⟨w, hw, e⟩ := Option.map_eq_some_iff.mp e
        obtain ⟨h1, h2⟩ := (cutStar_some r w).mp hw
        cases e
        exact ⟨by rw [h1]; rfl, by simp [h2, Ne.symm h]⟩
      · rintro ⟨e, hn⟩
        cases a with
        | nil => simp at e; exact absurd e.1 h
        | cons x y =>
          simp at e hn
          obtain ⟨rfl, rfl⟩ := e
          rw [(cutStar_some (y ++ 42 :: c) (y, c)).mpr ⟨rfl, hn.2⟩]
          rfl

theorem wildMatch_iff (w : Bytes × Bytes) (s : Bytes) : wildMatch w s = true ↔ ∃ mid, s = w.1 ++ mid ++ w.2 := by
  unfold wildMatch
  simp only [Bool.and_eq_true, decide_eq_true_eq, hasPrefix_iff, List.reverse_prefix]
  constructor
  · rintro ⟨⟨hl, ⟨x, hx⟩⟩, ⟨y, hy⟩⟩
    subst hx
    have hxl : w.2.length ≤ x.length := by simp at hl; omega
    have hs : w.2 <:+ x := List.suffix_of_suffix_length_le ⟨y, hy⟩ (List.suffix_append _ _) hxl
    obtain ⟨mid, rfl⟩ := hs
    exact ⟨mid, by simp⟩
  · rintro ⟨mid, rfl⟩
    refine ⟨⟨by simp, ⟨mid ++ w.2, by simp⟩⟩, ⟨w.1 ++ mid, rfl⟩⟩

theorem addOrigins_creds : ∀ (l : List Bytes) (c : Cors), (addOrigins c l).creds = c.creds
  | [], c => rfl
  | o :: r, c => by
    unfold addOrigins
    dsimp only
    split
    · rfl
    · split
      · rw [addOrigins_creds r]
      · rw [addOrigins_creds r]

theorem addOrigins_spec : ∀ (l : List Bytes) (c : Cors), c.all = false →
    ((addOrigins c l).all = true ↔ [42] ∈ l) ∧
    ([42] ∉ l → (∀ o, o ∈ (addOrigins c l).origins ↔ o ∈ c.origins ∨ ∃ e ∈ l, 42 ∉ e ∧ o = lower e) ∧
      (∀ w, w ∈ (addOrigins c l).wild ↔ w ∈ c.wild ∨ ∃ e ∈ l, cutStar (lower e) = some w))
  | [], c, hc => by simp [addOrigins, hc]
  | o :: r, c, hc => by
    have hstar : lower o = [42] ↔ o = [42] := by
      cases o with
      | nil => simp [lower]
      | cons b t =>
        cases t with
        | nil => simp only [lower, List.map_cons, List.map_nil, List.cons.injEq, and_true]; exact lowerByte_star b
        | cons x y => simp [lower]
    unfold addOrigins
    dsimp only
    split
    · rename_i h
      have := hstar.mp h
      subst this
      exact ⟨by simp, fun h => absurd (by simp) h⟩
    · rename_i h
      have hn : o ≠ [42] := fun e => h (hstar.mpr e)
      split
      · rename_i w hw
        obtain ⟨ih1, ih2⟩ := addOrigins_spec r { c with wild := c.wild ++ [w] } hc
        refine ⟨by rw [ih1]; simp [Ne.symm hn], fun hm => ?_⟩
        obtain ⟨i1, i2⟩ := ih2 fun h => hm (by simp [h])
        have ho : 42 ∈ o := by
          rw [← lower_star]
          have := ((cutStar_some _ _).mp hw).1
          rw [this]; simp
        refine ⟨fun x => ?_, fun x => ?_⟩
        · rw [i1]
          simp only [List.mem_cons, exists_eq_or_imp]
          simp [ho]
        · rw [i2]
          simp only [List.mem_append, List.mem_cons, List.not_mem_nil, or_false, exists_eq_or_imp, hw, Option.some.injEq, or_assoc]
          constructor
          · rintro (h | h | h)
            · exact .inl h
            · exact .inr (.inl h.symm)
            · exact .inr (.inr h)
          · rintro (h | h | h)
            · exact .inl h
            · exact .inr (.inl h.symm)
            · exact .inr (.inr h)
      · rename_i hw
        obtain ⟨ih1, ih2⟩ := addOrigins_spec r { c with origins := c.origins ++ [lower o] } hc
        refine ⟨by rw [ih1]; simp [Ne.symm hn], fun hm => ?_⟩
        obtain ⟨i1, i2⟩ := ih2 fun h => hm (by simp [h])
        have ho : 42 ∉ o := by rw [← lower_star]; exact (cutStar_none _).mp hw
        refine ⟨fun x => ?_, fun x => ?_⟩
        · rw [i1]
          simp only [List.mem_append, List.mem_singleton, List.mem_cons, exists_eq_or_imp, or_assoc]
          simp [ho]
        · rw [i2]
          simp only [List.mem_cons, exists_eq_or_imp, hw]
          simp

end Verif.Routes
