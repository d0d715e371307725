import Verif.Lemmas.PatriciaTree
/-
  Lookups, and the tree after any sequence of insertions.
-/
set_option autoImplicit false

namespace Verif.Patricia

open PT

variable {A : Type} {K : Prop}

/-- A filter run over a list of tags. -/
def runFilter {σ : Type} (f : Filter σ) : List Int → List Int × σ → Go (List Int × σ)
  | [], s => .ok s
  | tag :: rest, s => do
    let r ← f s.2 tag
    runFilter f rest (if r.2 then s.1 ++ [tag] else s.1, r.1)

theorem runFilter_append {σ : Type} (f : Filter σ) (xs ys : List Int) (s : List Int × σ) :
    runFilter f (xs ++ ys) s = (runFilter f xs s >>= runFilter f ys) := by
  induction xs generalizing s with
  | nil => rfl
  | cons x xs ih =>
    simp only [List.cons_append, runFilter]
    cases f s.2 x with
    | ok r => simp only [Go.ok_bind]; exact ih _
    | err m => rfl
    | panic => rfl
    | diverge => rfl

theorem tagsLoop_run {σ : Type} (T : Tree A) (c : Nat) (f : Filter σ) (ts : List Int) :
    ∀ (i : Nat) (s : List Int × σ),
    (∀ m (h : m < ts.length), T.tags (tagKey c (i + m)) = ts[m]) →
    tagsLoop T c f ts.length i s = runFilter f ts s := by
  induction ts with
  | nil => intro i s _; rfl
  | cons t ts ih =>
    intro i s h
    simp only [List.length_cons, tagsLoop, runFilter]
    have h0 := h 0 (by simp)
    simp only [Nat.add_zero, List.getElem_cons_zero] at h0
    rw [h0]
    cases f s.2 t with
    | ok r =>
      simp only [Go.ok_bind]
      apply ih
      intro m hm
      have := h (m + 1) (by simpa using hm)
      rw [Nat.add_assoc, Nat.add_comm 1 m]
      simpa using this
    | err m => rfl
    | panic => rfl
    | diverge => rfl

theorem tagsForNode_run {σ : Type} {T : Tree A} {c cl cr : Nat} {p : A} {k : Nat} {ts : List Int}
    (f : Filter σ) (s : List Int × σ) (hc : c ≠ 0)
    (hn : T.nodes[c]? = some ⟨cl, cr, p, k, ts.length⟩)
    (ht : ∀ m (h : m < ts.length), T.tags (tagKey c m) = ts[m]) :
    tagsForNode T c f s = runFilter f ts s := by
  simp only [tagsForNode, if_neg hc, idx_some hn, Go.ok_bind]
  exact tagsLoop_run T c f ts 0 s (by simpa using ht)

/-- The tags a lookup meets. -/
def walk (o : Ops A) : PT A → A → Nat → List Int
  | nil, _, _ => []
  | node _ p k ts l r, a, n =>
    let mc := o.matchCount p k a n
    if mc < k then []
    else ts ++ if mc = n then [] else
      if o.leftBit (o.shl a mc) then walk o r (o.shl a mc) (n - mc)
      else walk o l (o.shl a mc) (n - mc)

theorem findLoop_walk {σ : Type} {o : Ops A} {W : Nat} {bit : A → Nat → Bool} (L : Lawful o W bit)
    (hK : K) (T : Tree A) (f : Filter σ) (t : PT A) :
    ∀ (d fuel c : Nat) (a : A) (n : Nat) (s : List Int × σ), n < fuel → WF W bit d t →
    Rep K T.nodes T.tags c t → findLoop o T f fuel c a n s = runFilter f (walk o t a n) s := by
  induction t with
  | nil =>
    intro d fuel c a n s hfu _ hr
    obtain ⟨g, rfl⟩ : ∃ g, fuel = g + 1 := ⟨fuel - 1, by omega⟩
    have hr : c = 0 := hr
    simp [findLoop, hr, walk, runFilter]
  | node i p k ts l r ihl ihr =>
    intro d fuel c a n s hfu hw hr
    obtain ⟨g, rfl⟩ : ∃ g, fuel = g + 1 := ⟨fuel - 1, by omega⟩
    obtain ⟨hc, h0, cl, cr, hi, hti, hl, hrr⟩ := hr
    subst hc
    have hmn := L.mc_n p k a n
    have hmk := L.mc_k p k a n
    have hk := hw.1
    simp only [findLoop, if_neg h0, idx_some hi, Go.ok_bind, walk]
    generalize o.matchCount p k a n = mc at hmn hmk ⊢
    by_cases h1 : mc < k
    · rw [if_pos h1, if_pos h1]; rfl
    · rw [if_neg h1, if_neg h1, tagsForNode_run f s h0 hi (hti hK), runFilter_append]
      cases hrf : runFilter f ts s with
      | err m => rfl
      | panic => rfl
      | diverge => rfl
      | ok s' =>
        simp only [Go.ok_bind]
        by_cases h2 : mc = n
        · rw [if_pos h2, if_pos h2]; rfl
        · rw [if_neg h2, if_neg h2]
          cases hb : o.leftBit (o.shl a mc) with
          | true =>
            simp only [if_true]
            exact ihr (d + k) g cr _ _ s' (by omega) hw.2.2.2.2 hrr
          | false =>
            simp only [Bool.false_eq_true, if_false]
            exact ihl (d + k) g cl _ _ s' (by omega) hw.2.2.2.1 hl

theorem tagsAt_nil {o : Ops A} {W : Nat} {bit : A → Nat → Bool} (L : Lawful o W bit) {d : Nat}
    {t : PT A} (hw : WF W bit d t) : tagsAt bit t [] = [] := by
  cases t with
  | nil => rfl
  | node i p k ts l r =>
    apply tagsAt_not
    obtain ⟨rest, hr⟩ := bitsOf_cons L p hw.1
    rw [hr]; simp

theorem flatMap_congr {B C : Type} {l : List B} {f g : B → List C} (h : ∀ b ∈ l, f b = g b) :
    l.flatMap f = l.flatMap g := by
  induction l with
  | nil => rfl
  | cons x xs ih =>
    simp only [List.flatMap_cons]
    rw [h x (by simp), ih (fun b hb => h b (by simp [hb]))]

theorem flatMap_nil' {B C : Type} {l : List B} {f : B → List C} (h : ∀ b ∈ l, f b = []) :
    l.flatMap f = [] := by
  rw [flatMap_congr h]; simp

/-- The levels of a node that is met in full. -/
theorem sub_levels {o : Ops A} {W : Nat} {bit : A → Nat → Bool} (L : Lawful o W bit) (ts : List Int)
    {l r : PT A} {d d' : Nat} (hl : WF W bit d l) (hr : WF W bit d' r) (a : A) (n : Nat)
    (ihl : walk o l a n = (List.range (n + 1)).flatMap (fun m => tagsAt bit l ((bitsOf bit a n).take m)))
    (ihr : walk o r a n = (List.range (n + 1)).flatMap (fun m => tagsAt bit r ((bitsOf bit a n).take m))) :
    (List.range (n + 1)).flatMap (fun m => sub bit ts l r ((bitsOf bit a n).take m)) =
      ts ++ if n = 0 then [] else if o.leftBit a then walk o r a n else walk o l a n := by
  rw [List.range_succ_eq_map, List.flatMap_cons]
  simp only [List.take_zero, sub]
  congr 1
  by_cases hn : n = 0
  · subst hn; simp
  · rw [if_neg hn, List.flatMap_map]
    obtain ⟨rest, hrest⟩ := bitsOf_cons L a (k := n) (by omega)
    rw [ihl, ihr, List.range_succ_eq_map]
    simp only [List.flatMap_cons, List.take_zero, tagsAt_nil L hl, tagsAt_nil L hr,
      List.nil_append, List.flatMap_map, hrest, List.take_succ_cons, sub, L.left]
    cases bit a 0 <;> rfl

/-- A lookup meets, from the shortest prefix of its address to the longest, the tags of each. -/
theorem walk_levels {o : Ops A} {W : Nat} {bit : A → Nat → Bool} (L : Lawful o W bit) (t : PT A) :
    ∀ (d : Nat) (a : A) (n : Nat), WF W bit d t → Fit W d t → d + n ≤ W →
    walk o t a n = (List.range (n + 1)).flatMap (fun m => tagsAt bit t ((bitsOf bit a n).take m)) := by
  induction t with
  | nil =>
    intro d a n _ _ _
    simp [walk, tagsAt]
  | node i p k ts l r ihl ihr =>
    intro d a n hw hfit hd
    obtain ⟨hk, hfl, hfr, hwl, hwr⟩ := hw
    obtain ⟨hdk, hfitl, hfitr⟩ := hfit
    have hmk := L.mc_k p k a n
    have hmn := L.mc_n p k a n
    have hstop := L.stop p k a n
    obtain ⟨hcp, hca⟩ := bitsOf_cut L p k a n
    simp only [walk]
    generalize hm : o.matchCount p k a n = mc at hmk hmn hstop hcp hca ⊢
    by_cases h1 : mc < k
    · rw [if_pos h1, flatMap_nil']
      intro m _
      apply tagsAt_not
      intro hp
      have hp : bitsOf bit p k <+: bitsOf bit a n := hp.trans (List.take_prefix _ _)
      have hkn : k ≤ n := by have := hp.length_le; simpa [bitsOf_length] using this
      have hne := hstop h1 (by omega) (by omega)
      rw [hcp, hca, List.prefix_append_right_inj] at hp
      obtain ⟨rp, hrp⟩ := bitsOf_cons L (o.shl p mc) (k := k - mc) (by omega)
      obtain ⟨ra, hra⟩ := bitsOf_cons L (o.shl a mc) (k := n - mc) (by omega)
      rw [hrp, hra, List.cons_prefix_cons, L.bit_shl, L.bit_shl, Nat.zero_add] at hp
      exact hne hp.1
    · have hmke : mc = k := by omega
      subst hmke
      rw [if_neg h1]
      have hpa : bitsOf bit a mc = bitsOf bit p mc := by
        rw [hcp, Nat.sub_self]; simp [bitsOf]
      rw [hpa] at hca
      have hr1 : n + 1 = mc + (n - mc + 1) := by omega
      rw [hr1, List.range_add, List.flatMap_append, flatMap_nil' (l := List.range mc), List.nil_append,
        List.flatMap_map]
      · have := sub_levels L ts hwl hwr (o.shl a mc) (n - mc)
          (ihl (d + mc) _ _ hwl hfitl (by omega)) (ihr (d + mc) _ _ hwr hfitr (by omega))
        have h0 : mc = n ↔ n - mc = 0 := by omega
        simp only [h0]
        rw [← this]
        apply flatMap_congr
        intro m _
        have hlen : mc = (bitsOf bit p mc).length := (bitsOf_length _ _ _).symm
        have e : (bitsOf bit a n).take (mc + m) =
            bitsOf bit p mc ++ (bitsOf bit (o.shl a mc) (n - mc)).take m := by
          rw [hca]
          conv => lhs; rw [hlen]
          rw [bitsOf_length, List.take_append, bitsOf_length]
          rw [List.take_of_length_le (by rw [bitsOf_length]; omega)]
          congr 1
          rw [Nat.add_sub_cancel_left]
        rw [e, tagsAt_append]
      · intro m hm'
        have hm' : m < mc := by simpa using hm'
        apply tagsAt_not
        intro hp
        have := hp.length_le
        rw [bitsOf_length, List.length_take] at this
        omega

/-- The tree as a whole: the root at index 1 with tags `ts` and children `l`, `r`, after at most
    `N` insertions. -/
structure Whole (K : Prop) (o : Ops A) (W : Nat) (bit : A → Nat → Bool) (N : Nat) (T : Tree A) (ts : List Int)
    (l r : PT A) : Prop where
  rep : Rep K T.nodes T.tags 1 (node 1 o.zero 0 ts l r)
  small : Small N (node 1 o.zero 0 ts l r)
  nodup : (node 1 o.zero 0 ts l r).idxs.Nodup
  len : T.nodes.length ≤ 2 * N + 2
  cap : T.nodes.length ≤ T.cap
  fl : First W bit false 0 l
  fr : First W bit true 0 r
  wl : WF W bit 0 l
  wr : WF W bit 0 r

theorem newTree_whole (o : Ops A) (W : Nat) (bit : A → Nat → Bool) :
    Whole K o W bit 0 (newTree o) [] nil nil where
  rep := ⟨rfl, by decide, 0, 0, rfl, by intro _ m h; simp at h, rfl, rfl⟩
  small := ⟨by simp, trivial, trivial⟩
  nodup := by simp [PT.idxs]
  len := by simp [newTree]
  cap := by simp [newTree]
  fl := trivial
  fr := trivial
  wl := trivial
  wr := trivial

/-- The tags at a prefix, in the whole tree. -/
theorem tagsAt_root (bit : A → Nat → Bool) (i : Nat) (p : A) (ts : List Int) (l r : PT A)
    (q : List Bool) : tagsAt bit (node i p 0 ts l r) q = sub bit ts l r q := by
  have := tagsAt_append bit i p 0 ts l r q
  simpa [bitsOf] using this

/-- One insertion into the whole tree. -/
theorem add_whole {o : Ops A} {W : Nat} {bit : A → Nat → Bool} (L : Lawful o W bit) {N : Nat}
    {T : Tree A} {ts : List Int} {l r : PT A} (h : Whole K o W bit N T ts l r)
    (hN : K → 2 * N + 4 ≤ 2 ^ 32) (a : A) (n : Nat) (x : Int) :
    ∃ T' ts' l' r', add o T a n x = Go.ok T' ∧ Whole K o W bit (N + 1) T' ts' l' r' ∧
      (n ≤ W → Fit W 0 l → Fit W 0 r → Fit W 0 l' ∧ Fit W 0 r' ∧
        ∀ q, sub bit ts' l' r' q = sub bit ts l r q ++ if q = bitsOf bit a n then [x] else []) := by
  obtain ⟨hrep, hsmall, hnodup, hlen, hcap, hfl, hfr, hwl, hwr⟩ := h
  have hrep0 := hrep
  have hall := hrep.lt
  obtain ⟨-, -, cl, cr, hroot, htags, hl, hr⟩ := hrep
  simp only [PT.idxs, List.mem_cons, List.mem_append] at hall
  have hnd' := hnodup
  simp only [PT.idxs, List.nodup_cons, List.mem_append, not_or, List.nodup_append] at hnd'
  obtain ⟨⟨hni, hnj⟩, hnl, hnr, hdis⟩ := hnd'
  have h1l : 1 < T.nodes.length := hall 1 (Or.inl rfl)
  -- the array after growing
  have hgn : (grow T).nodes = T.nodes := by unfold grow; split <;> rfl
  have hgt : (grow T).tags = T.tags := by unfold grow; split <;> rfl
  have hgc : T.nodes.length + 2 ≤ (grow T).cap := by
    unfold grow; split
    · simp only; omega
    · omega
  generalize hG : grow T = G at hgn hgt hgc
  unfold add
  rw [hG]
  simp only
  by_cases hn0 : n = 0
  · rw [if_pos hn0]
    subst hn0
    refine ⟨{ G with nodes := G.nodes.set 1 ⟨cl, cr, o.zero, 0, ts.length + 1⟩,
                     tags := setTag G.tags (tagKey 1 ts.length) x }, ts ++ [x], l, r,
      addTag_some x (n := ⟨cl, cr, o.zero, 0, ts.length⟩) (by rw [hgn]; exact hroot), ?_, ?_⟩
    · have hts := hsmall.1
      refine ⟨?_, ?_, hnodup, ?_, ?_, hfl, hfr, hwl, hwr⟩
      · refine ⟨rfl, by decide, cl, cr, ?_, ?_, ?_, ?_⟩
        · simp only [hgn]
          rw [getElem?_set_self' _ _ hroot]; simp
        · intro hK m hm
          have hN := hN hK
          have htags := htags hK
          simp only [List.length_append, List.length_cons, List.length_nil] at hm
          simp only [hgt]
          by_cases hme : m = ts.length
          · subst hme; simp [setTag_same]
          · have hlt : m < ts.length := by omega
            rw [List.getElem_append_left hlt, ← htags m hlt]
            apply setTag_other
            intro he
            have := tagKey_inj (by omega) (by omega) (by omega) (by omega) he
            omega
        · simp only [hgn, hgt]
          refine hl.tags_lt hsmall.2.1 x hni (fun hK => by have := hN hK; omega) ?_
          intro j hj
          exact getElem?_set_ne' _ _ (fun h => hni (h ▸ hj))
        · simp only [hgn, hgt]
          refine hr.tags_lt hsmall.2.2 x hnj (fun hK => by have := hN hK; omega) ?_
          intro j hj
          exact getElem?_set_ne' _ _ (fun h => hnj (h ▸ hj))
      · exact ⟨by simp; exact hts, hsmall.2.1.mono (by omega), hsmall.2.2.mono (by omega)⟩
      · simp only [List.length_set, hgn]; omega
      · simp only [List.length_set, hgn]; omega
    · intro _ f1 f2
      refine ⟨f1, f2, ?_⟩
      intro q
      have hb : bitsOf bit a 0 = [] := rfl
      rw [hb]
      cases q with
      | nil => simp [sub]
      | cons c cs => simp [sub]
  · rw [if_neg hn0]
    have hroot' : G.nodes[1]? = some ⟨cl, cr, o.zero, 0, ts.length⟩ := by rw [hgn]; exact hroot
    rw [idx_some hroot', Go.ok_bind]
    have hz : ∀ i, W ≤ i + 0 → bit a i = false := fun i hi => L.out a i hi
    -- the child on side `b`
    have key : ∀ (b : Bool) (q q' : PT A) (cq : Nat)
        (hcq : child b (⟨cl, cr, o.zero, 0, ts.length⟩ : Node A) = cq)
        (hrq : Rep K T.nodes T.tags cq q) (hsq : Small N q) (hnq : q.idxs.Nodup)
        (hcn : 1 ∉ q.idxs) (hb : b = true → cq ≠ 0 → cl ≠ cq)
        (hq' : ins o G.nodes.length q a n x = Go.ok q'),
        ∃ T', (if child b (⟨cl, cr, o.zero, 0, ts.length⟩ : Node A) = 0 then do
            let r ← newTagged G a n x
            updNode r.1 1 (setChild b r.2)
          else addLoop o (n + 1) G 1 (child b (⟨cl, cr, o.zero, 0, ts.length⟩ : Node A)) a n x)
            = Go.ok T' ∧ Grown K G T' 1 b ⟨cl, cr, o.zero, 0, ts.length⟩ q q' := by
      intro b q q' cq hcq hrq hsq hnq hcn hb hq'
      rw [hcq]
      by_cases h0 : cq = 0
      · rw [if_pos h0]
        have := hrq.top_pos.mp h0
        subst this
        simp only [PT.ins] at hq'
        cases hq'
        exact leaf_grown _ _ x hroot' (by rw [hgn]; omega) (fun hK => by have := hN hK; rw [hgn]; omega)
      · rw [if_neg h0]
        exact addLoop_grown (N := N) x (fun hK => by have := hN hK; omega) (L.mc_n) q (n + 1) G 1 b _ cq a n q' (by omega)
          (by rw [hgn]; omega) (fun hK => by have := hN hK; rw [hgn]; omega) hroot' (by rw [hgn, hgt]; exact hrq) h0 hsq hnq hcn hcq
          (fun h => hb h h0) hq'
    have hb0 : o.leftBit a = bit a 0 := L.left a
    have hts := hsmall.1
    have flen : ∀ {T' : Tree A}, T'.nodes.length ≤ G.nodes.length + 2 → T'.cap = G.cap →
        T'.nodes.length ≤ 2 * (N + 1) + 2 ∧ T'.nodes.length ≤ T'.cap := by
      intro T' h1 h2
      rw [hgn] at h1
      rw [h2]
      omega
    cases hb : o.leftBit a with
    | true =>
      rw [hb] at hb0
      obtain ⟨r', hi, hw', hf'⟩ := ins_ok L (f := G.nodes.length) (x := x) (t := r) (d := 0) (a := a) (n := n)
        hwr (by rw [← hb0]; exact hfr) hz (by omega)
      obtain ⟨T', hT', hg⟩ := key true r r' cr rfl hr hsmall.2.2 hnr hnj
        (by
          intro _ h0 he
          have h1 := hr.top_mem h0
          have h2 := hl.top_mem (he ▸ h0)
          exact hdis _ h2 _ h1 he) hi
      obtain ⟨i1, i2⟩ := ins_idxs hi hnr (fun j hj => by rw [hgn]; exact hr.lt j hj)
      have hlt2 := flen hg.hi hg.cap
      refine ⟨T', ts, l, r', hT', ⟨?_, ?_, ?_, hlt2.1, hlt2.2, hfl, by rw [← hb0] at hf'; exact hf', hwl, hw'⟩, ?_⟩
      · refine ⟨rfl, by decide, cl, r'.top, hg.parent, ?_, ?_, hg.rep⟩
        · intro hK m hm
          have hN := hN hK
          rw [hg.tags hK 1 m (by rw [hgn]; omega) hnj (by omega), hgt]
          exact htags hK m hm
        · refine hl.frame hsmall.2.1 ?_ ?_
          · intro j hj
            rw [hg.frame j (by rw [hgn]; exact hl.lt j hj) (fun h => hdis _ hj _ h rfl)
              (fun h => hni (h ▸ hj)), hgn]
          · intro hK j hj m hm
            have hN := hN hK
            rw [hg.tags hK j m (by rw [hgn]; exact hl.lt j hj) (fun h => hdis _ hj _ h rfl) (by omega), hgt]
      · exact ⟨by omega, hsmall.2.1.mono (by omega), ins_small hi hsmall.2.2⟩
      · simp only [PT.idxs, List.nodup_cons, List.mem_append, not_or, List.nodup_append]
        refine ⟨⟨hni, ?_⟩, hnl, i1, ?_⟩
        · intro h
          rw [hgn] at i2
          rcases i2 _ h with h | h | h
          · exact hnj h
          · omega
          · omega
        · intro j hj m hm' he
          subst he
          rw [hgn] at i2
          have := hall j (Or.inr (Or.inl hj))
          rcases i2 _ hm' with h | h | h
          · exact hdis j hj j h rfl
          · omega
          · omega
      · intro hnW f1 f2
        obtain ⟨f3, f4⟩ := ins_tagsAt L hwr f2 (by omega) hi
        refine ⟨f1, f3, ?_⟩
        intro q
        obtain ⟨rest, hrest⟩ := bitsOf_cons L a (k := n) (by omega)
        cases q with
        | nil => rw [hrest]; simp [sub]
        | cons c cs =>
          cases c
          · rw [hrest, ← hb0]; simp [sub]
          · simpa [sub] using f4 (true :: cs)
    | false =>
      rw [hb] at hb0
      obtain ⟨l', hi, hw', hf'⟩ := ins_ok L (f := G.nodes.length) (x := x) (t := l) (d := 0) (a := a) (n := n)
        hwl (by rw [← hb0]; exact hfl) hz (by omega)
      obtain ⟨T', hT', hg⟩ := key false l l' cl rfl hl hsmall.2.1 hnl hni (by intro h; cases h) hi
      obtain ⟨i1, i2⟩ := ins_idxs hi hnl (fun j hj => by rw [hgn]; exact hl.lt j hj)
      have hlt2 := flen hg.hi hg.cap
      refine ⟨T', ts, l', r, hT', ⟨?_, ?_, ?_, hlt2.1, hlt2.2, by rw [← hb0] at hf'; exact hf', hfr, hw', hwr⟩, ?_⟩
      · refine ⟨rfl, by decide, l'.top, cr, hg.parent, ?_, hg.rep, ?_⟩
        · intro hK m hm
          have hN := hN hK
          rw [hg.tags hK 1 m (by rw [hgn]; omega) hni (by omega), hgt]
          exact htags hK m hm
        · refine hr.frame hsmall.2.2 ?_ ?_
          · intro j hj
            rw [hg.frame j (by rw [hgn]; exact hr.lt j hj) (fun h => hdis _ h _ hj rfl)
              (fun h => hnj (h ▸ hj)), hgn]
          · intro hK j hj m hm
            have hN := hN hK
            rw [hg.tags hK j m (by rw [hgn]; exact hr.lt j hj) (fun h => hdis _ h _ hj rfl) (by omega), hgt]
      · exact ⟨by omega, ins_small hi hsmall.2.1, hsmall.2.2.mono (by omega)⟩
      · simp only [PT.idxs, List.nodup_cons, List.mem_append, not_or, List.nodup_append]
        refine ⟨⟨?_, hnj⟩, i1, hnr, ?_⟩
        · intro h
          rw [hgn] at i2
          rcases i2 _ h with h | h | h
          · exact hni h
          · omega
          · omega
        · intro j hj m hm' he
          subst he
          rw [hgn] at i2
          have := hall j (Or.inr (Or.inr hm'))
          rcases i2 _ hj with h | h | h
          · exact hdis j h j hm' rfl
          · omega
          · omega
      · intro hnW f1 f2
        obtain ⟨f3, f4⟩ := ins_tagsAt L hwl f1 (by omega) hi
        refine ⟨f3, f2, ?_⟩
        intro q
        obtain ⟨rest, hrest⟩ := bitsOf_cons L a (k := n) (by omega)
        cases q with
        | nil => rw [hrest]; simp [sub]
        | cons c cs =>
          cases c
          · simpa [sub] using f4 (false :: cs)
          · rw [hrest, ← hb0]; simp [sub]

/-- A lookup in the whole tree runs the filter over the tags of the prefixes of the address, from
    the shortest to the longest. -/
theorem find_whole {σ : Type} {o : Ops A} {W : Nat} {bit : A → Nat → Bool} (L : Lawful o W bit) (hK : K) {N : Nat}
    {T : Tree A} {ts : List Int} {l r : PT A} (h : Whole K o W bit N T ts l r)
    (f1 : Fit W 0 l) (f2 : Fit W 0 r) (a : A) (n : Nat) (hn : n ≤ W) (f : Filter σ) (s : σ) :
    findTagsWithFilter o T a n f s = runFilter f ((List.range (n + 1)).flatMap
      (fun m => sub bit ts l r ((bitsOf bit a n).take m))) ([], s) := by
  obtain ⟨-, -, cl, cr, hroot, htags, hl, hr⟩ := h.rep
  unfold findTagsWithFilter
  rw [idx_some hroot, Go.ok_bind, tagsForNode_run f _ (by decide) hroot (htags hK),
    sub_levels L ts h.wl h.wr a n (walk_levels L l 0 a n h.wl f1 (by omega))
      (walk_levels L r 0 a n h.wr f2 (by omega)), runFilter_append]
  cases runFilter f ts ([], s) with
  | err m => rfl
  | panic => rfl
  | diverge => rfl
  | ok s' =>
    simp only [Go.ok_bind]
    by_cases h0 : n = 0
    · rw [if_pos h0, if_pos h0]; rfl
    · rw [if_neg h0, if_neg h0]
      cases o.leftBit a with
      | true =>
        simp only [if_true]
        exact findLoop_walk L hK T f r 0 (n + 1) cr a n s' (by omega) h.wr hr
      | false =>
        simp only [Bool.false_eq_true, if_false]
        exact findLoop_walk L hK T f l 0 (n + 1) cl a n s' (by omega) h.wl hl

end Verif.Patricia
