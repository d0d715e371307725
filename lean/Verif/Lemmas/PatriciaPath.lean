import Verif.Lemmas.PatriciaFind
import Verif.Spec.Ov
/-
  What a node of the tree stands for, and what is stored there.
-/
set_option autoImplicit false

namespace Verif.Patricia

open PT OvSpec

variable {A : Type} {K : Prop}

/-- `s` is a subtree of `t`; the bits from the top of `t` down to and with those of `s`. -/
inductive Desc (bit : A → Nat → Bool) : PT A → PT A → List Bool → Prop where
  | here (i : Nat) (p : A) (k : Nat) (ts : List Int) (l r : PT A) :
      Desc bit (node i p k ts l r) (node i p k ts l r) (bitsOf bit p k)
  | left (i : Nat) (p : A) (k : Nat) (ts : List Int) (l r s : PT A) (q : List Bool)
      (h : Desc bit l s q) : Desc bit (node i p k ts l r) s (bitsOf bit p k ++ q)
  | right (i : Nat) (p : A) (k : Nat) (ts : List Int) (l r s : PT A) (q : List Bool)
      (h : Desc bit r s q) : Desc bit (node i p k ts l r) s (bitsOf bit p k ++ q)

theorem Desc.snoc {bit : A → Nat → Bool} {t s : PT A} {q : List Bool} (h : Desc bit t s q) :
    ∀ {i k : Nat} {p : A} {ts : List Int} {l r : PT A}, s = node i p k ts l r →
    ∀ {j m : Nat} {p' : A} {us : List Int} {l' r' : PT A},
    (l = node j p' m us l' r' ∨ r = node j p' m us l' r') →
      Desc bit t (node j p' m us l' r') (q ++ bitsOf bit p' m) := by
  induction h with
  | here i p k ts l r =>
    intro _ _ _ _ _ _ he _ _ _ _ _ _ h
    cases he
    rcases h with rfl | rfl
    · exact .left _ _ _ _ _ _ _ _ (.here ..)
    · exact .right _ _ _ _ _ _ _ _ (.here ..)
  | left i p k ts l r s q h ih =>
    intro _ _ _ _ _ _ he _ _ _ _ _ _ h'
    rw [List.append_assoc]
    exact .left _ _ _ _ _ _ _ _ (ih he h')
  | right i p k ts l r s q h ih =>
    intro _ _ _ _ _ _ he _ _ _ _ _ _ h'
    rw [List.append_assoc]
    exact .right _ _ _ _ _ _ _ _ (ih he h')

theorem Desc.mem {bit : A → Nat → Bool} {t s : PT A} {q : List Bool} (h : Desc bit t s q) :
    s.top ∈ t.idxs := by
  induction h with
  | here => simp [PT.idxs, PT.top]
  | left i p k ts l r s q h ih => simp [PT.idxs, ih]
  | right i p k ts l r s q h ih => simp [PT.idxs, ih]

/-- A node is reached over one way only. -/
theorem Desc.unique {bit : A → Nat → Bool} {t s : PT A} {q : List Bool} (h : Desc bit t s q) :
    t.idxs.Nodup → ∀ {s' : PT A} {q' : List Bool}, Desc bit t s' q' → s.top = s'.top →
      s = s' ∧ q = q' := by
  induction h with
  | here i p k ts l r =>
    intro hn s' q' h' he
    simp only [PT.idxs, List.nodup_cons, List.mem_append, not_or] at hn
    cases h' with
    | here => exact ⟨rfl, rfl⟩
    | left _ _ _ _ _ _ _ _ h' => exact absurd (show (node i p k ts l r).top ∈ l.idxs from he ▸ h'.mem) hn.1.1
    | right _ _ _ _ _ _ _ _ h' => exact absurd (show (node i p k ts l r).top ∈ r.idxs from he ▸ h'.mem) hn.1.2
  | left i p k ts l r s q h ih =>
    intro hn s' q' h' he
    simp only [PT.idxs, List.nodup_cons, List.mem_append, not_or, List.nodup_append] at hn
    cases h' with
    | here =>
      have := h.mem
      rw [he] at this
      exact absurd this hn.1.1
    | left _ _ _ _ _ _ _ _ h' =>
      obtain ⟨h1, h2⟩ := ih hn.2.1 h' he
      exact ⟨h1, by rw [h2]⟩
    | right _ _ _ _ _ _ _ _ h' => exact absurd he (hn.2.2.2 _ h.mem _ h'.mem)
  | right i p k ts l r s q h ih =>
    intro hn s' q' h' he
    simp only [PT.idxs, List.nodup_cons, List.mem_append, not_or, List.nodup_append] at hn
    cases h' with
    | here =>
      have := h.mem
      rw [he] at this
      exact absurd this hn.1.2
    | left _ _ _ _ _ _ _ _ h' => exact absurd he.symm (hn.2.2.2 _ h'.mem _ h.mem)
    | right _ _ _ _ _ _ _ _ h' =>
      obtain ⟨h1, h2⟩ := ih hn.2.2.1 h' he
      exact ⟨h1, by rw [h2]⟩

section
variable {o : Ops A} {W : Nat} {bit : A → Nat → Bool}

/-- What is below a tree with first bit `b` has first bit `b`. -/
theorem Desc.first (L : Lawful o W bit) {t s : PT A} {q : List Bool} (h : Desc bit t s q) {b : Bool} {d : Nat}
    (hw : WF W bit d t) (hf : First W bit b d t) (hfit : Fit W d t) : ∃ q', q = b :: q' := by
  have key : ∀ {i k : Nat} {p : A} {ts : List Int} {l r : PT A}, t = node i p k ts l r →
      ∃ rest, bitsOf bit p k = b :: rest := by
    intro i k p ts l r he
    subst he
    obtain ⟨rest, hr⟩ := bitsOf_cons L p hw.1
    rcases hf with h1 | ⟨-, h2⟩
    · exact ⟨rest, by rw [hr, h1]⟩
    · have := hfit.1
      have := hw.1
      omega
  cases h with
  | here i p k ts l r => exact key rfl
  | left i p k ts l r s q h =>
    obtain ⟨rest, hr⟩ := key rfl
    exact ⟨rest ++ q, by rw [hr]; rfl⟩
  | right i p k ts l r s q h =>
    obtain ⟨rest, hr⟩ := key rfl
    exact ⟨rest ++ q, by rw [hr]; rfl⟩

/-- The tags of a node are those at its prefix. -/
theorem Desc.tags (L : Lawful o W bit) {t s : PT A} {q : List Bool} (h : Desc bit t s q) :
    ∀ {i k : Nat} {p : A} {ts : List Int} {l r : PT A}, s = node i p k ts l r →
    ∀ {d : Nat}, WF W bit d t → Fit W d t → tagsAt bit t q = ts := by
  induction h with
  | here i p k ts l r =>
    intro _ _ _ _ _ _ he d _ _
    cases he
    have := tagsAt_append bit i p k ts l r []
    rw [List.append_nil] at this
    rw [this]; rfl
  | left i p k ts l r s q h ih =>
    intro _ _ _ _ _ _ he d hw hf
    rw [tagsAt_append]
    obtain ⟨q', hq⟩ := h.first L hw.2.2.2.1 hw.2.1 hf.2.1
    have := ih he hw.2.2.2.1 hf.2.1
    rw [hq] at this ⊢
    simpa [sub] using this
  | right i p k ts l r s q h ih =>
    intro _ _ _ _ _ _ he d hw hf
    rw [tagsAt_append]
    obtain ⟨q', hq⟩ := h.first L hw.2.2.2.2 hw.2.2.1 hf.2.2
    have := ih he hw.2.2.2.2 hf.2.2
    rw [hq] at this ⊢
    simpa [sub] using this

/-- Two nodes do not have the same prefix. -/
theorem Desc.inj (L : Lawful o W bit) {t s : PT A} {q : List Bool} (h : Desc bit t s q) :
    ∀ {s' : PT A} {d : Nat}, WF W bit d t → Fit W d t → Desc bit t s' q → s = s' := by
  induction h with
  | here i p k ts l r =>
    intro s' d hw hf h'
    generalize hq : bitsOf bit p k = q at h'
    cases h' with
    | here => rfl
    | left _ _ _ _ _ _ _ q h' =>
      obtain ⟨q', rfl⟩ := h'.first L hw.2.2.2.1 hw.2.1 hf.2.1
      have := congrArg List.length hq
      simp at this
    | right _ _ _ _ _ _ _ q h' =>
      obtain ⟨q', rfl⟩ := h'.first L hw.2.2.2.2 hw.2.2.1 hf.2.2
      have := congrArg List.length hq
      simp at this
  | left i p k ts l r s q h ih =>
    intro s' d hw hf h'
    obtain ⟨q1, hq1⟩ := h.first L hw.2.2.2.1 hw.2.1 hf.2.1
    generalize hq : bitsOf bit p k ++ q = qq at h'
    cases h' with
    | here =>
      have := congrArg List.length hq
      simp [hq1] at this
    | left _ _ _ _ _ _ _ q2 h' =>
      have := List.append_cancel_left hq
      subst this
      exact ih hw.2.2.2.1 hf.2.1 h'
    | right _ _ _ _ _ _ _ q2 h' =>
      have := List.append_cancel_left hq
      subst this
      obtain ⟨q3, hq3⟩ := h'.first L hw.2.2.2.2 hw.2.2.1 hf.2.2
      rw [hq1] at hq3
      simp at hq3
  | right i p k ts l r s q h ih =>
    intro s' d hw hf h'
    obtain ⟨q1, hq1⟩ := h.first L hw.2.2.2.2 hw.2.2.1 hf.2.2
    generalize hq : bitsOf bit p k ++ q = qq at h'
    cases h' with
    | here =>
      have := congrArg List.length hq
      simp [hq1] at this
    | left _ _ _ _ _ _ _ q2 h' =>
      have := List.append_cancel_left hq
      subst this
      obtain ⟨q3, hq3⟩ := h'.first L hw.2.2.2.1 hw.2.1 hf.2.1
      rw [hq1] at hq3
      simp at hq3
    | right _ _ _ _ _ _ _ q2 h' =>
      have := List.append_cancel_left hq
      subst this
      exact ih hw.2.2.2.2 hf.2.2 h'

/-- Where there are tags there is a node. -/
theorem desc_of_tags (t : PT A) : ∀ {q : List Bool}, tagsAt bit t q ≠ [] → ∃ s, Desc bit t s q := by
  induction t with
  | nil => intro q h; exact absurd rfl h
  | node i p k ts l r ihl ihr =>
    intro q h
    by_cases hp : bitsOf bit p k <+: q
    · obtain ⟨q', rfl⟩ := hp
      rw [tagsAt_append] at h
      cases q' with
      | nil => rw [List.append_nil]; exact ⟨_, .here ..⟩
      | cons b bs =>
        cases b with
        | true => obtain ⟨s, hs⟩ := ihr (q := true :: bs) (by simpa [sub] using h); exact ⟨s, .right _ _ _ _ _ _ _ _ hs⟩
        | false => obtain ⟨s, hs⟩ := ihl (q := false :: bs) (by simpa [sub] using h); exact ⟨s, .left _ _ _ _ _ _ _ _ hs⟩
    · exact absurd (tagsAt_not bit i p k ts l r q hp) h

end

/-- From the links in the array to the tree. -/
theorem stands_desc {bit : A → Nat → Bool} {T : Tree A} {z : A} {ts : List Int} {l r : PT A}
    (h : Rep K T.nodes T.tags 1 (node 1 z 0 ts l r)) {i : Nat} {q : List Bool}
    (hs : Stands (bitsOf bit) T i q) :
    ∃ s, Desc bit (node 1 z 0 ts l r) s q ∧ s.top = i ∧ i ≠ 0 ∧ Rep K T.nodes T.tags i s := by
  have step : ∀ {i c : Nat} {q : List Bool} {n m : Node A},
      (∃ s, Desc bit (node 1 z 0 ts l r) s q ∧ s.top = i ∧ i ≠ 0 ∧ Rep K T.nodes T.tags i s) →
      T.nodes[i]? = some n → c ≠ 0 → (c = n.left ∨ c = n.right) → T.nodes[c]? = some m →
      ∃ s, Desc bit (node 1 z 0 ts l r) s (q ++ bitsOf bit m.pre m.plen) ∧ s.top = c ∧ c ≠ 0 ∧
        Rep K T.nodes T.tags c s := by
    rintro i c q n m ⟨s, hd, ht, hi, hr⟩ hn h0 hc hm
    cases s with
    | nil => exact absurd hr hi
    | node j p k us l' r' =>
      obtain ⟨rfl, -, cl, cr, hj, -, hl, hr'⟩ := hr
      rw [hj] at hn
      cases hn
      rcases hc with rfl | rfl
      · cases l' with
        | nil => exact absurd hl h0
        | node j' p' k' us' l'' r'' =>
          have hl0 := hl
          obtain ⟨he, -, cl', cr', hj', -⟩ := hl
          rw [he] at hm
          rw [hj'] at hm
          cases hm
          exact ⟨_, hd.snoc rfl (Or.inl rfl), he.symm, h0, hl0⟩
      · cases r' with
        | nil => exact absurd hr' h0
        | node j' p' k' us' l'' r'' =>
          have hr0 := hr'
          obtain ⟨he, -, cl', cr', hj', -⟩ := hr'
          rw [he] at hm
          rw [hj'] at hm
          cases hm
          exact ⟨_, hd.snoc rfl (Or.inr rfl), he.symm, h0, hr0⟩
  induction hs with
  | root => exact ⟨_, .here .., rfl, by decide, h⟩
  | left i q n m _ hn h0 hm ih => exact step ih hn h0 (Or.inl rfl) hm
  | right i q n m _ hn h0 hm ih => exact step ih hn h0 (Or.inr rfl) hm

/-- And back. -/
theorem desc_stands {bit : A → Nat → Bool} {T : Tree A} {t s : PT A} {q : List Bool} (h : Desc bit t s q) :
    ∀ {c : Nat}, Rep K T.nodes T.tags c t → ∀ {pre : List Bool},
    (∀ i p k ts l r, t = node i p k ts l r → Stands (bitsOf bit) T c (pre ++ bitsOf bit p k)) →
    Stands (bitsOf bit) T s.top (pre ++ q) := by
  induction h with
  | here i p k ts l r =>
    intro c hr pre hs
    obtain ⟨rfl, -⟩ := hr
    exact hs _ _ _ _ _ _ rfl
  | left i p k ts l r s q h ih =>
    intro c hr pre hs
    obtain ⟨rfl, -, cl, cr, hc, -, hl, hr⟩ := hr
    rw [← List.append_assoc]
    refine ih hl ?_
    intro i' p' k' ts' l' r' he
    subst he
    obtain ⟨rfl, h0, cl', cr', hc', -⟩ := hl
    exact Stands.left _ _ _ _ (hs _ _ _ _ _ _ rfl) hc h0 hc'
  | right i p k ts l r s q h ih =>
    intro c hr pre hs
    obtain ⟨rfl, -, cl, cr, hc, -, hl, hr⟩ := hr
    rw [← List.append_assoc]
    refine ih hr ?_
    intro i' p' k' ts' l' r' he
    subst he
    obtain ⟨rfl, h0, cl', cr', hc', -⟩ := hr
    exact Stands.right _ _ _ _ (hs _ _ _ _ _ _ rfl) hc h0 hc'

section
variable {o : Ops A} {W : Nat} {bit : A → Nat → Bool}

theorem sub_tagsAt (z : A) (ts : List Int) (l r : PT A) (q : List Bool) :
    sub bit ts l r q = tagsAt bit (node 1 z 0 ts l r) q := by
  rw [← tagsAt_append bit 1 z 0 ts l r q]; rfl

/-- The tree after any sequence of insertions. -/
theorem insertAll_whole (L : Lawful o W bit) (es : List (A × Nat × Int)) : ∀ {N : Nat} {T : Tree A}
    {ts : List Int} {l r : PT A}, Whole K o W bit N T ts l r → (K → 2 * (N + es.length) + 4 ≤ 2 ^ 32) →
    ∃ T' ts' l' r', insertAll o T es = Go.ok T' ∧ Whole K o W bit (N + es.length) T' ts' l' r' ∧
      ((∀ e ∈ es, e.2.1 ≤ W) → Fit W 0 l → Fit W 0 r → Fit W 0 l' ∧ Fit W 0 r' ∧
        ∀ q, sub bit ts' l' r' q = sub bit ts l r q ++
          (es.filter (fun e => bitsOf bit e.1 e.2.1 = q)).map (·.2.2)) := by
  induction es with
  | nil =>
    intro N T ts l r h _
    exact ⟨T, ts, l, r, rfl, h, fun _ f1 f2 => ⟨f1, f2, fun q => by simp⟩⟩
  | cons e es ih =>
    intro N T ts l r h hN
    obtain ⟨a, n, x⟩ := e
    simp only [List.length_cons] at hN
    obtain ⟨T1, ts1, l1, r1, ha, hw1, hs1⟩ := add_whole L h (fun hK => by have := hN hK; omega) a n x
    obtain ⟨T', ts', l', r', hi, hw', hs'⟩ := ih hw1 (fun hK => by have := hN hK; omega)
    refine ⟨T', ts', l', r', ?_, ?_, ?_⟩
    · simp only [insertAll]
      rw [ha, Go.ok_bind, hi]
    · have e1 : N + (es.length + 1) = N + 1 + es.length := by omega
      simpa only [List.length_cons, e1] using hw'
    · intro hlen f1 f2
      obtain ⟨g1, g2, g3⟩ := hs1 (hlen (a, n, x) (by simp)) f1 f2
      obtain ⟨k1, k2, k3⟩ := hs' (fun e he => hlen e (by simp [he])) g1 g2
      refine ⟨k1, k2, fun q => ?_⟩
      rw [k3, g3, List.append_assoc]
      congr 1
      by_cases hq : bitsOf bit a n = q
      · rw [List.filter_cons_of_pos (by simpa using hq)]
        simp [hq]
      · rw [List.filter_cons_of_neg (by simpa using hq)]
        have : ¬ q = bitsOf bit a n := fun h => hq h.symm
        simp [this]

/-- A sequence of insertions into an empty tree: what every node stands for and holds. -/
theorem insertAll_new (L : Lawful o W bit) (es : List (A × Nat × Int)) (hlen : ∀ e ∈ es, e.2.1 ≤ W)
    (hb : es.length < 2 ^ 31 - 2) :
    ∃ T, insertAll o (newTree o) es = Go.ok T ∧
      (∀ i q, Stands (bitsOf bit) T i q →
        stored T i = (es.filter (fun e => bitsOf bit e.1 e.2.1 = q)).map (·.2.2)) ∧
      ∀ e ∈ es, ∃ i, Stands (bitsOf bit) T i (bitsOf bit e.1 e.2.1) := by
  obtain ⟨T, ts, l, r, h1, h2, h3⟩ := insertAll_whole (K := True) L es (newTree_whole o W bit)
    (fun _ => by omega)
  obtain ⟨f1, f2, f3⟩ := h3 hlen trivial trivial
  have e0 : ∀ q, sub bit ([] : List Int) (nil : PT A) nil q = [] := by
    intro q; cases q <;> simp [sub, tagsAt]
  simp only [e0, List.nil_append] at f3
  have hnlen : T.nodes.length ≤ 2 ^ 32 := by have := h2.len; omega
  refine ⟨T, h1, ?_, ?_⟩
  · intro i q hs
    obtain ⟨s, hd, ht, hi, hr⟩ := stands_desc h2.rep hs
    have hlt : i < T.nodes.length := by
      have := h2.rep.lt _ hd.mem
      rwa [ht] at this
    rw [← f3 q]
    have key : ∀ {j k : Nat} {p : A} {us : List Int} {l' r' : PT A}, s = node j p k us l' r' →
        stored T i = us := by
      intro j k p us l' r' he
      subst he
      obtain ⟨rfl, -, cl, cr, hn, htags, -, -⟩ := hr
      unfold stored
      rw [hn]
      simp only
      apply List.ext_getElem
      · simp
      · intro m hm1 hm2
        have hsm : us.length ≤ es.length := by
          have : ∀ {t s : PT A} {q : List Bool} {N : Nat}, Desc bit t s q → Small N t → Small N s := by
            intro t s q N h
            induction h with
            | here => exact id
            | left _ _ _ _ _ _ _ _ _ ih => exact fun h => ih h.2.1
            | right _ _ _ _ _ _ _ _ _ ih => exact fun h => ih h.2.2
          have := (this hd h2.small).1
          omega
        rw [← htags trivial m hm2]
        simp only [List.getElem_map, List.getElem_range, tagKey]
        congr 1
        rw [Nat.mod_eq_of_lt]
        have : m < 2 ^ 32 := by omega
        have : i * 2 ^ 32 + m < (i + 1) * 2 ^ 32 := by omega
        have : (i + 1) * 2 ^ 32 ≤ 2 ^ 32 * 2 ^ 32 := Nat.mul_le_mul_right _ (by omega)
        omega
    cases s with
    | nil => exact absurd hr hi
    | node j p k us l' r' =>
      rw [key rfl]
      cases hd with
      | here => rfl
      | left _ _ _ _ _ _ _ q hd =>
        obtain ⟨q', rfl⟩ := hd.first L h2.wl h2.fl f1
        simp only [bitsOf, List.range_zero, List.map_nil, List.nil_append, sub]
        exact (hd.tags L rfl h2.wl f1).symm
      | right _ _ _ _ _ _ _ q hd =>
        obtain ⟨q', rfl⟩ := hd.first L h2.wr h2.fr f2
        simp only [bitsOf, List.range_zero, List.map_nil, List.nil_append, sub]
        exact (hd.tags L rfl h2.wr f2).symm
  · intro e he
    have : tagsAt bit (node 1 o.zero 0 ts l r) (bitsOf bit e.1 e.2.1) ≠ [] := by
      rw [← sub_tagsAt, f3]
      intro hn
      rw [List.map_eq_nil_iff, List.filter_eq_nil_iff] at hn
      exact hn e he (by simp)
    obtain ⟨s, hs⟩ := desc_of_tags _ this
    refine ⟨s.top, ?_⟩
    have := desc_stands hs h2.rep (pre := []) (by
      intro i p k ts l r he
      cases he
      exact .root)
    simpa using this

/-- No bound: insertion never fails, and a node stands for one prefix. -/
theorem insertAll_any (L : Lawful o W bit) (es : List (A × Nat × Int)) :
    ∃ T, insertAll o (newTree o) es = Go.ok T ∧
      (∀ i q q', Stands (bitsOf bit) T i q → Stands (bitsOf bit) T i q' → q = q') ∧
      ((∀ e ∈ es, e.2.1 ≤ W) →
        ∀ i j q, Stands (bitsOf bit) T i q → Stands (bitsOf bit) T j q → i = j) := by
  obtain ⟨T, ts, l, r, h1, h2, h3⟩ := insertAll_whole (K := False) L es (newTree_whole o W bit)
    (fun h => h.elim)
  refine ⟨T, h1, ?_, ?_⟩
  · intro i q q' hs hs'
    obtain ⟨s, hd, ht, hi, hr⟩ := stands_desc h2.rep hs
    obtain ⟨s', hd', ht', -, -⟩ := stands_desc h2.rep hs'
    exact (hd.unique h2.nodup hd' (ht.trans ht'.symm)).2
  · intro hlen i j q hs hs'
    obtain ⟨f1, f2, -⟩ := h3 hlen trivial trivial
    obtain ⟨s, hd, ht, hi, hr⟩ := stands_desc h2.rep hs
    obtain ⟨s', hd', ht', -, -⟩ := stands_desc h2.rep hs'
    rw [← ht, ← ht']
    congr 1
    have e0 : bitsOf bit o.zero 0 = [] := rfl
    cases hd with
    | here =>
      generalize hq : bitsOf bit o.zero 0 = q at hd'
      cases hd' with
      | here => rfl
      | left _ _ _ _ _ _ _ q hd' =>
        obtain ⟨q', rfl⟩ := hd'.first L h2.wl h2.fl f1
        rw [e0] at hq; cases hq
      | right _ _ _ _ _ _ _ q hd' =>
        obtain ⟨q', rfl⟩ := hd'.first L h2.wr h2.fr f2
        rw [e0] at hq; cases hq
    | left _ _ _ _ _ _ _ q hd =>
      obtain ⟨q1, rfl⟩ := hd.first L h2.wl h2.fl f1
      rw [e0, List.nil_append] at hd'
      generalize hq : false :: q1 = q at hd'
      cases hd' with
      | here => cases hq
      | left _ _ _ _ _ _ _ q hd' =>
        rw [e0, List.nil_append] at hq
        subst hq
        exact hd.inj L h2.wl f1 hd'
      | right _ _ _ _ _ _ _ q hd' =>
        obtain ⟨q', rfl⟩ := hd'.first L h2.wr h2.fr f2
        cases hq
    | right _ _ _ _ _ _ _ q hd =>
      obtain ⟨q1, rfl⟩ := hd.first L h2.wr h2.fr f2
      rw [e0, List.nil_append] at hd'
      generalize hq : true :: q1 = q at hd'
      cases hd' with
      | here => cases hq
      | right _ _ _ _ _ _ _ q hd' =>
        rw [e0, List.nil_append] at hq
        subst hq
        exact hd.inj L h2.wr f2 hd'
      | left _ _ _ _ _ _ _ q hd' =>
        obtain ⟨q', rfl⟩ := hd'.first L h2.wl h2.fl f1
        cases hq

end

theorem bits6_eq (a : V6) (n : Nat) : bits6 a n = bitsOf bit6 a n := by
  unfold bits6 bitsOf
  apply List.map_congr_left
  intro i _
  unfold bit6
  rw [BitVec.getMsbD_append]
  by_cases h : i < 64
  · rw [if_pos h, if_neg (by omega)]
  · rw [if_neg h, if_pos (by omega)]

end Verif.Patricia
