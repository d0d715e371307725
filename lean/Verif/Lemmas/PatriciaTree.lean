import Verif.Lemmas.PatriciaSim
/-
  Insertion into the tree never panics, and adds one tag at one prefix; a lookup collects the
  tags of the prefixes of its address.
-/
set_option autoImplicit false

namespace Verif.Patricia

open PT

variable {A : Type}

/-- The first `k` bits. -/
def bitsOf (bit : A → Nat → Bool) (p : A) (k : Nat) : List Bool := (List.range k).map (bit p)

theorem bitsOf_length (bit : A → Nat → Bool) (p : A) (k : Nat) : (bitsOf bit p k).length = k := by
  simp [bitsOf]

section
variable {o : Ops A} {W : Nat} {bit : A → Nat → Bool}

theorem bitsOf_add (L : Lawful o W bit) (p : A) (m j : Nat) :
    bitsOf bit p (m + j) = bitsOf bit p m ++ bitsOf bit (o.shl p m) j := by
  unfold bitsOf
  rw [List.range_add, List.map_append, List.map_map]
  congr 1
  apply List.map_congr_left
  intro i _
  simp [L.bit_shl, Nat.add_comm]

theorem bitsOf_cons (L : Lawful o W bit) (p : A) {k : Nat} (h : 0 < k) :
    ∃ rest, bitsOf bit p k = bit p 0 :: rest := by
  obtain ⟨j, rfl⟩ : ∃ j, k = 1 + j := ⟨k - 1, by omega⟩
  rw [bitsOf_add L p 1 j]
  exact ⟨_, rfl⟩

theorem bitsOf_common (L : Lawful o W bit) (p : A) (k : Nat) (a : A) (n : Nat) :
    bitsOf bit p (o.matchCount p k a n) = bitsOf bit a (o.matchCount p k a n) := by
  apply List.map_congr_left
  intro i hi
  exact L.agree p k a n i (by simpa using hi)

/-- Both lists of bits, cut where they stop agreeing. -/
theorem bitsOf_cut (L : Lawful o W bit) (p : A) (k : Nat) (a : A) (n : Nat) :
    bitsOf bit p k = bitsOf bit a (o.matchCount p k a n) ++
      bitsOf bit (o.shl p (o.matchCount p k a n)) (k - o.matchCount p k a n) ∧
    bitsOf bit a n = bitsOf bit a (o.matchCount p k a n) ++
      bitsOf bit (o.shl a (o.matchCount p k a n)) (n - o.matchCount p k a n) := by
  have h1 := L.mc_k p k a n
  have h2 := L.mc_n p k a n
  rw [← bitsOf_add L a, ← bitsOf_common L p k a n, ← bitsOf_add L p]
  constructor <;> congr 1 <;> omega

end

/-- The first bit of the top prefix is `b`; or the place is one that no address reaches. -/
def First (W : Nat) (bit : A → Nat → Bool) (b : Bool) (d : Nat) : PT A → Prop
  | nil => True
  | node _ p _ _ _ _ => bit p 0 = b ∨ (b = true ∧ W ≤ d)

/-- Prefixes are not empty, and children are on the side of their first bit; `d` bits precede. -/
def WF (W : Nat) (bit : A → Nat → Bool) : Nat → PT A → Prop
  | _, nil => True
  | d, node _ _ k _ l r => 0 < k ∧ First W bit false (d + k) l ∧ First W bit true (d + k) r ∧
      WF W bit (d + k) l ∧ WF W bit (d + k) r

/-- No prefix is longer than an address. -/
def Fit (W : Nat) : Nat → PT A → Prop
  | _, nil => True
  | d, node _ _ k _ l r => d + k ≤ W ∧ Fit W (d + k) l ∧ Fit W (d + k) r

/-- The tags at exactly this prefix. -/
def tagsAt (bit : A → Nat → Bool) : PT A → List Bool → List Int
  | nil, _ => []
  | node _ p k ts l r, q =>
    if bitsOf bit p k <+: q then
      match q.drop k with
      | [] => ts
      | b :: bs => if b then tagsAt bit r (b :: bs) else tagsAt bit l (b :: bs)
    else []

/-- The tags in the subtrees. -/
def sub (bit : A → Nat → Bool) (ts : List Int) (l r : PT A) : List Bool → List Int
  | [] => ts
  | b :: bs => if b then tagsAt bit r (b :: bs) else tagsAt bit l (b :: bs)

theorem tagsAt_append (bit : A → Nat → Bool) (i : Nat) (p : A) (k : Nat) (ts : List Int)
    (l r : PT A) (q : List Bool) :
    tagsAt bit (node i p k ts l r) (bitsOf bit p k ++ q) = sub bit ts l r q := by
  have hd : (bitsOf bit p k ++ q).drop k = q := by
    have := List.drop_left (l₁ := bitsOf bit p k) (l₂ := q)
    rwa [bitsOf_length] at this
  simp only [tagsAt, hd, List.prefix_append, if_true]
  cases q <;> rfl

theorem tagsAt_not (bit : A → Nat → Bool) (i : Nat) (p : A) (k : Nat) (ts : List Int)
    (l r : PT A) (q : List Bool) (h : ¬ bitsOf bit p k <+: q) :
    tagsAt bit (node i p k ts l r) q = [] := by
  simp [tagsAt, h]

theorem tagsAt_wrong {W : Nat} {bit : A → Nat → Bool} {o : Ops A} (L : Lawful o W bit)
    {b : Bool} {d : Nat} {t : PT A} (hw : WF W bit d t) (hf : First W bit b d t) (hd : d < W)
    {c : Bool} {q : List Bool} (hc : c ≠ b) : tagsAt bit t (c :: q) = [] := by
  cases t with
  | nil => rfl
  | node i p k ts l r =>
    apply tagsAt_not
    obtain ⟨rest, hr⟩ := bitsOf_cons L p hw.1
    rw [hr, List.cons_prefix_cons]
    rintro ⟨h, -⟩
    rcases hf with h1 | ⟨-, h2⟩
    · exact hc (h.symm.trans h1)
    · omega

theorem ins_idxs {o : Ops A} {f : Nat} {x : Int} {t : PT A} : ∀ {a : A} {n : Nat} {t' : PT A},
    ins o f t a n x = Go.ok t' → t.idxs.Nodup → (∀ j ∈ t.idxs, j < f) →
    t'.idxs.Nodup ∧ ∀ j ∈ t'.idxs, j ∈ t.idxs ∨ j = f ∨ j = f + 1 := by
  induction t with
  | nil =>
    intro a n t' h _ _
    simp only [PT.ins] at h
    cases h
    simp [PT.idxs]
  | node i p k ts l r ihl ihr =>
    intro a n t' h hnd hlt
    rw [PT.ins.eq_def] at h
    simp only at h
    have hf1 : f ∉ (node i p k ts l r).idxs := fun h => Nat.lt_irrefl _ (hlt _ h)
    have hf2 : f + 1 ∉ (node i p k ts l r).idxs := fun h => by have := hlt _ h; omega
    by_cases hk : k = 0
    · rw [if_pos hk] at h; cases h
    rw [if_neg hk] at h
    generalize hm : o.matchCount p k a n = mc at h
    by_cases hm0 : mc = 0
    · rw [if_pos hm0] at h; cases h
    rw [if_neg hm0] at h
    by_cases hmn : mc = n
    · rw [if_pos hmn] at h
      by_cases hmk : mc = k
      · rw [if_pos hmk] at h
        cases h
        exact ⟨hnd, fun j hj => Or.inl hj⟩
      · rw [if_neg hmk] at h
        cases h
        have e : ∀ s, (mk2 s f a n [x] (node i (o.shl p mc) (k - mc) ts l r) nil).idxs =
            f :: (node i p k ts l r).idxs := by
          intro s; cases s <;> simp [PT.mk2, PT.idxs]
        rw [e]
        refine ⟨List.nodup_cons.mpr ⟨hf1, hnd⟩, ?_⟩
        intro j hj
        rcases List.mem_cons.mp hj with h | h
        · exact Or.inr (Or.inl h)
        · exact Or.inl h
    rw [if_neg hmn] at h
    simp only [PT.idxs, List.nodup_cons, List.mem_append, not_or, List.nodup_append] at hnd
    obtain ⟨⟨hni, hnj⟩, hnl, hnr, hdis⟩ := hnd
    simp only [PT.idxs, List.mem_cons, List.mem_append] at hlt
    by_cases hmk : mc = k
    · rw [if_pos hmk] at h
      cases hb : o.leftBit (o.shl a mc) with
      | true =>
        rw [hb] at h
        simp only [if_true] at h
        obtain ⟨r', hr', h⟩ := Go.bind_eq_ok.mp h
        cases h
        obtain ⟨h1, h2⟩ := ihr hr' hnr (fun j hj => hlt j (Or.inr (Or.inr hj)))
        simp only [PT.idxs, List.nodup_cons, List.mem_append, not_or, List.nodup_append,
          List.mem_cons]
        refine ⟨⟨⟨hni, ?_⟩, hnl, h1, ?_⟩, ?_⟩
        · intro h
          have := hlt i (Or.inl rfl)
          rcases h2 _ h with h | h | h
          · exact hnj h
          · omega
          · omega
        · intro j hj m hm' he
          subst he
          have := hlt j (Or.inr (Or.inl hj))
          rcases h2 _ hm' with h | h | h
          · exact hdis j hj j h rfl
          · omega
          · omega
        · rintro j (h | h | h)
          · exact Or.inl (Or.inl h)
          · exact Or.inl (Or.inr (Or.inl h))
          · rcases h2 _ h with h | h
            · exact Or.inl (Or.inr (Or.inr h))
            · exact Or.inr h
      | false =>
        rw [hb] at h
        simp only [Bool.false_eq_true, if_false] at h
        obtain ⟨l', hl', h⟩ := Go.bind_eq_ok.mp h
        cases h
        obtain ⟨h1, h2⟩ := ihl hl' hnl (fun j hj => hlt j (Or.inr (Or.inl hj)))
        simp only [PT.idxs, List.nodup_cons, List.mem_append, not_or, List.nodup_append,
          List.mem_cons]
        refine ⟨⟨⟨?_, hnj⟩, h1, hnr, ?_⟩, ?_⟩
        · intro h
          have := hlt i (Or.inl rfl)
          rcases h2 _ h with h | h | h
          · exact hni h
          · omega
          · omega
        · intro j hj m hm' he
          subst he
          have := hlt j (Or.inr (Or.inr hm'))
          rcases h2 _ hj with h | h | h
          · exact hdis j h j hm' rfl
          · omega
          · omega
        · rintro j (h | h | h)
          · exact Or.inl (Or.inl h)
          · rcases h2 _ h with h | h
            · exact Or.inl (Or.inr (Or.inl h))
            · exact Or.inr h
          · exact Or.inl (Or.inr (Or.inr h))
    · rw [if_neg hmk] at h
      cases h
      simp only [PT.idxs, List.mem_cons, List.mem_append, not_or] at hf1 hf2
      generalize o.leftBit (o.shl p mc) = s
      cases s
      · simp only [PT.mk2, PT.idxs, List.nodup_cons, List.mem_append, not_or, List.nodup_append,
          List.mem_cons, List.append_nil, List.not_mem_nil, Bool.false_eq_true, if_false]
        refine ⟨⟨⟨hf1, by simp⟩, ⟨⟨hni, hnj⟩, hnl, hnr, hdis⟩, by simp, ?_⟩, ?_⟩
        · intro j hj m hm' he
          simp only [or_false] at hm'
          subst hm'
          subst he
          rcases hj with h | h | h
          · exact hf2.1 h
          · exact hf2.2.1 h
          · exact hf2.2.2 h
        · rintro j (h | h | h)
          · exact Or.inr (Or.inl h)
          · exact Or.inl h
          · simp only [or_false] at h; exact Or.inr (Or.inr h)
      · simp only [PT.mk2, PT.idxs, List.nodup_cons, List.mem_append, not_or, List.nodup_append,
          List.mem_cons, List.append_nil, List.not_mem_nil, if_true]
        refine ⟨⟨⟨by simp, hf1⟩, by simp, ⟨⟨hni, hnj⟩, hnl, hnr, hdis⟩, ?_⟩, ?_⟩
        · intro j hj m hm' he
          simp only [or_false] at hj
          subst hj
          subst he
          rcases hm' with h | h | h
          · exact hf2.1 h
          · exact hf2.2.1 h
          · exact hf2.2.2 h
        · rintro j (h | h | h)
          · exact Or.inr (Or.inl h)
          · simp only [or_false] at h; exact Or.inr (Or.inr h)
          · exact Or.inl h

theorem PT.Small.mono {N M : Nat} {t : PT A} (h : Small N t) (hNM : N ≤ M) : Small M t := by
  induction t with
  | nil => trivial
  | node i p k ts l r ihl ihr => exact ⟨Nat.le_trans h.1 hNM, ihl h.2.1, ihr h.2.2⟩

theorem ins_small {o : Ops A} {f N : Nat} {x : Int} {t : PT A} : ∀ {a : A} {n : Nat} {t' : PT A},
    ins o f t a n x = Go.ok t' → Small N t → Small (N + 1) t' := by
  induction t with
  | nil =>
    intro a n t' h _
    simp only [PT.ins] at h
    cases h
    exact ⟨by simp, trivial, trivial⟩
  | node i p k ts l r ihl ihr =>
    intro a n t' h hs
    rw [PT.ins.eq_def] at h
    simp only at h
    have h1 := hs.2.1.mono (Nat.le_succ N)
    have h2 := hs.2.2.mono (Nat.le_succ N)
    have h3 := hs.1
    split at h
    · cases h
    split at h
    · cases h
    split at h
    · split at h
      · cases h
        exact ⟨by simp; omega, h1, h2⟩
      · cases h
        generalize o.leftBit _ = s
        cases s
        · exact ⟨by simp, ⟨by omega, h1, h2⟩, trivial⟩
        · exact ⟨by simp, trivial, ⟨by omega, h1, h2⟩⟩
    split at h
    · split at h
      · obtain ⟨r', hr', h⟩ := Go.bind_eq_ok.mp h
        cases h
        exact ⟨by omega, h1, ihr hr' hs.2.2⟩
      · obtain ⟨l', hl', h⟩ := Go.bind_eq_ok.mp h
        cases h
        exact ⟨by omega, ihl hl' hs.2.1, h2⟩
    · cases h
      generalize o.leftBit _ = s
      cases s
      · exact ⟨by simp, ⟨by omega, h1, h2⟩, ⟨by simp, trivial, trivial⟩⟩
      · exact ⟨by simp, ⟨by simp, trivial, trivial⟩, ⟨by omega, h1, h2⟩⟩

/-- Insertion of a non-empty prefix on the side of its first bit succeeds, whatever its length. -/
theorem ins_ok {o : Ops A} {W : Nat} {bit : A → Nat → Bool} (L : Lawful o W bit) {f : Nat} {x : Int}
    {t : PT A} : ∀ {d : Nat} {a : A} {n : Nat}, WF W bit d t → First W bit (bit a 0) d t →
    (∀ i, W ≤ i + d → bit a i = false) → 0 < n →
    ∃ t', ins o f t a n x = Go.ok t' ∧ WF W bit d t' ∧ First W bit (bit a 0) d t' := by
  induction t with
  | nil =>
    intro d a n _ _ _ hn
    exact ⟨_, rfl, ⟨hn, trivial, trivial, trivial, trivial⟩, Or.inl rfl⟩
  | node i p k ts l r ihl ihr =>
    intro d a n hw hf hz hn
    obtain ⟨hk, hfl, hfr, hwl, hwr⟩ := hw
    have hk0 : k ≠ 0 := by omega
    have hbit : bit p 0 = bit a 0 := by
      rcases hf with h | ⟨h1, h2⟩
      · exact h
      · rw [hz 0 (by omega)] at h1; cases h1
    have hmk := L.mc_k p k a n
    have hmn := L.mc_n p k a n
    have hstop := L.stop p k a n
    rw [PT.ins.eq_def]
    simp only [if_neg hk0]
    generalize hm : o.matchCount p k a n = mc at hmk hmn hstop ⊢
    have hm0 : mc ≠ 0 := by
      intro h
      subst h
      exact hstop hk hn L.wpos hbit
    rw [if_neg hm0]
    by_cases hmn' : mc = n
    · rw [if_pos hmn']
      by_cases hmk' : mc = k
      · rw [if_pos hmk']
        exact ⟨_, rfl, ⟨hk, hfl, hfr, hwl, hwr⟩, Or.inl hbit⟩
      · rw [if_neg hmk']
        have hsub : WF W bit (d + n) (node i (o.shl p mc) (k - mc) ts l r) := by
          have e : d + n + (k - mc) = d + k := by omega
          refine ⟨by omega, ?_⟩
          rw [e]
          exact ⟨hfl, hfr, hwl, hwr⟩
        have hfs : First W bit (o.leftBit (o.shl p mc)) (d + n)
            (node i (o.shl p mc) (k - mc) ts l r) := by
          rw [L.left]; exact Or.inl rfl
        revert hfs
        cases o.leftBit (o.shl p mc)
        · intro hfs
          exact ⟨_, rfl, ⟨hn, hfs, trivial, hsub, trivial⟩, Or.inl rfl⟩
        · intro hfs
          exact ⟨_, rfl, ⟨hn, trivial, hfs, trivial, hsub⟩, Or.inl rfl⟩
    · rw [if_neg hmn']
      have hz' : ∀ i, W ≤ i + (d + mc) → bit (o.shl a mc) i = false := by
        intro i hi
        rw [L.bit_shl]
        exact hz _ (by omega)
      by_cases hmk' : mc = k
      · rw [if_pos hmk']
        cases hb : o.leftBit (o.shl a mc) with
        | true =>
          rw [L.left] at hb
          obtain ⟨r', h1, h2, h3⟩ := ihr (d := d + k) (a := o.shl a mc) (n := n - mc) hwr
            (by rw [hb]; exact hfr) (by rw [← hmk']; exact hz') (by omega)
          simp only [if_true]
          rw [h1, Go.ok_bind]
          exact ⟨_, rfl, ⟨hk, hfl, by rw [hb] at h3; exact h3, hwl, h2⟩, Or.inl hbit⟩
        | false =>
          rw [L.left] at hb
          obtain ⟨l', h1, h2, h3⟩ := ihl (d := d + k) (a := o.shl a mc) (n := n - mc) hwl
            (by rw [hb]; exact hfl) (by rw [← hmk']; exact hz') (by omega)
          simp only [Bool.false_eq_true, if_false]
          rw [h1, Go.ok_bind]
          exact ⟨_, rfl, ⟨hk, by rw [hb] at h3; exact h3, hfr, h2, hwr⟩, Or.inl hbit⟩
      · rw [if_neg hmk']
        have hsub : WF W bit (d + mc) (node i (o.shl p mc) (k - mc) ts l r) := by
          have e : d + mc + (k - mc) = d + k := by omega
          refine ⟨by omega, ?_⟩
          rw [e]
          exact ⟨hfl, hfr, hwl, hwr⟩
        have hleaf : WF W bit (d + mc) (node (f + 1) (o.shl a mc) (n - mc) [x] nil nil) :=
          ⟨by omega, trivial, trivial, trivial, trivial⟩
        have hbp : o.leftBit (o.shl p mc) = bit p mc := by rw [L.left, L.bit_shl, Nat.zero_add]
        have hba : bit (o.shl a mc) 0 = bit a mc := by rw [L.bit_shl, Nat.zero_add]
        have hbp' : bit (o.shl p mc) 0 = bit p mc := by rw [L.bit_shl, Nat.zero_add]
        rw [hbp]
        by_cases hW : mc < W
        · have hne := hstop (by omega) (by omega) hW
          cases hp : bit p mc with
          | true =>
            refine ⟨_, rfl, ⟨by omega, ?_, ?_, hleaf, hsub⟩, Or.inl rfl⟩
            · left; rw [hba]
              cases ha : bit a mc
              · rfl
              · rw [hp, ha] at hne; exact absurd rfl hne
            · left; rw [hbp', hp]
          | false =>
            refine ⟨_, rfl, ⟨by omega, ?_, ?_, hsub, hleaf⟩, Or.inl rfl⟩
            · left; rw [hbp', hp]
            · left; rw [hba]
              cases ha : bit a mc
              · rw [hp, ha] at hne; exact absurd rfl hne
              · rfl
        · have hp : bit p mc = false := L.out p mc (by omega)
          rw [hp]
          refine ⟨_, rfl, ⟨by omega, ?_, ?_, hsub, hleaf⟩, Or.inl rfl⟩
          · left; rw [hbp', hp]
          · right; exact ⟨rfl, by omega⟩

theorem tagsAt_leaf (bit : A → Nat → Bool) (i : Nat) (p : A) (k : Nat) (x : Int) (q : List Bool) :
    tagsAt bit (node i p k [x] nil nil) q = if q = bitsOf bit p k then [x] else [] := by
  by_cases h : bitsOf bit p k <+: q
  · obtain ⟨q1, rfl⟩ := h
    rw [tagsAt_append]
    cases q1 with
    | nil => simp [sub]
    | cons c cs => cases c <;> simp [sub, tagsAt]
  · rw [tagsAt_not _ _ _ _ _ _ _ _ h, if_neg]
    rintro rfl
    exact h (List.prefix_refl _)

/-- Insertion adds its tag at its prefix and changes nothing else. -/
theorem ins_tagsAt {o : Ops A} {W : Nat} {bit : A → Nat → Bool} (L : Lawful o W bit) {f : Nat} {x : Int}
    {t : PT A} : ∀ {d : Nat} {a : A} {n : Nat} {t' : PT A}, WF W bit d t →
    Fit W d t → d + n ≤ W → ins o f t a n x = Go.ok t' →
    Fit W d t' ∧ ∀ q, tagsAt bit t' q = tagsAt bit t q ++ if q = bitsOf bit a n then [x] else [] := by
  induction t with
  | nil =>
    intro d a n t' _ _ hd h
    simp only [PT.ins] at h
    cases h
    refine ⟨⟨hd, trivial, trivial⟩, fun q => ?_⟩
    rw [tagsAt_leaf]; rfl
  | node i p k ts l r ihl ihr =>
    intro d a n t' hw hfit hd h
    obtain ⟨hk, hfl, hfr, hwl, hwr⟩ := hw
    obtain ⟨hdk, hfitl, hfitr⟩ := hfit
    have hk0 : k ≠ 0 := by omega
    have hmk := L.mc_k p k a n
    have hmn := L.mc_n p k a n
    have hstop := L.stop p k a n
    obtain ⟨hcp, hca⟩ := bitsOf_cut L p k a n
    rw [PT.ins.eq_def] at h
    simp only [if_neg hk0] at h
    generalize hm : o.matchCount p k a n = mc at hmk hmn hstop h hcp hca
    by_cases hm0 : mc = 0
    · rw [if_pos hm0] at h; cases h
    rw [if_neg hm0] at h
    by_cases hmn' : mc = n
    · rw [if_pos hmn'] at h
      by_cases hmk' : mc = k
      · rw [if_pos hmk'] at h
        cases h
        refine ⟨⟨hdk, hfitl, hfitr⟩, fun q => ?_⟩
        have he : bitsOf bit a n = bitsOf bit p k := by
          rw [hcp, ← hmn', ← hmk', Nat.sub_self]; simp [bitsOf]
        rw [he]
        by_cases hq : bitsOf bit p k <+: q
        · obtain ⟨q1, rfl⟩ := hq
          rw [tagsAt_append, tagsAt_append]
          cases q1 with
          | nil => simp [sub]
          | cons c cs => simp [sub]
        · rw [tagsAt_not _ _ _ _ _ _ _ _ hq, tagsAt_not _ _ _ _ _ _ _ _ hq, if_neg]
          · rfl
          · rintro rfl; exact hq (List.prefix_refl _)
      · rw [if_neg hmk'] at h
        have h := (Go.ok.inj h).symm
        rw [hmn'] at hcp
        have hsubfit : Fit W (d + n) (node i (o.shl p mc) (k - mc) ts l r) := by
          have e : d + n + (k - mc) = d + k := by omega
          refine ⟨by omega, ?_⟩
          rw [e]; exact ⟨hfitl, hfitr⟩
        have hhead : ∃ rest, bitsOf bit (o.shl p n) (k - n) = o.leftBit (o.shl p n) :: rest := by
          rw [L.left]
          exact bitsOf_cons L _ (by omega)
        obtain ⟨rest, hrest⟩ := hhead
        rw [hmn'] at h hsubfit
        -- what the old node had, with the prefix cut in two
        have hold : ∀ q1, tagsAt bit (node i p k ts l r) (bitsOf bit a n ++ q1) =
            tagsAt bit (node i (o.shl p n) (k - n) ts l r) q1 := by
          intro q1
          by_cases hq : bitsOf bit (o.shl p n) (k - n) <+: q1
          · obtain ⟨q2, rfl⟩ := hq
            rw [tagsAt_append, ← List.append_assoc, ← hcp, tagsAt_append]
          · rw [tagsAt_not _ _ _ _ _ _ _ _ hq, tagsAt_not]
            rw [hcp, List.prefix_append_right_inj]
            exact hq
        constructor
        · rw [h]
          cases o.leftBit (o.shl p n)
          · exact ⟨hd, hsubfit, trivial⟩
          · exact ⟨hd, trivial, hsubfit⟩
        · intro q
          by_cases hq : bitsOf bit a n <+: q
          · obtain ⟨q1, rfl⟩ := hq
            rw [hold, h]
            cases q1 with
            | nil =>
              have h0 : tagsAt bit (node i (o.shl p n) (k - n) ts l r) [] = [] := by
                apply tagsAt_not
                rw [hrest]; simp
              rw [h0]
              cases o.leftBit (o.shl p n)
              · show tagsAt bit (node _ _ _ _ _ _) _ = _
                rw [tagsAt_append]; simp [sub]
              · show tagsAt bit (node _ _ _ _ _ _) _ = _
                rw [tagsAt_append]; simp [sub]
            | cons c cs =>
              rw [if_neg (by simp), List.append_nil]
              have hne : c ≠ o.leftBit (o.shl p n) →
                  tagsAt bit (node i (o.shl p n) (k - n) ts l r) (c :: cs) = [] := by
                intro hc
                apply tagsAt_not
                rw [hrest, List.cons_prefix_cons]
                rintro ⟨h, -⟩
                exact hc h.symm
              revert hne
              cases o.leftBit (o.shl p n)
              · intro hne
                show tagsAt bit (node _ _ _ _ _ _) _ = _
                rw [tagsAt_append]
                cases c
                · simp [sub]
                · rw [hne (by simp)]; simp [sub, tagsAt]
              · intro hne
                show tagsAt bit (node _ _ _ _ _ _) _ = _
                rw [tagsAt_append]
                cases c
                · rw [hne (by simp)]; simp [sub, tagsAt]
                · simp [sub]
          · have h1 : tagsAt bit (node i p k ts l r) q = [] := by
              apply tagsAt_not
              intro hp
              apply hq
              rw [hcp] at hp
              exact (List.prefix_append _ _).trans hp
            rw [h1, if_neg (by rintro rfl; exact hq (List.prefix_refl _)), h]
            cases o.leftBit (o.shl p n)
            · exact tagsAt_not _ _ _ _ _ _ _ _ hq
            · exact tagsAt_not _ _ _ _ _ _ _ _ hq
    · rw [if_neg hmn'] at h
      by_cases hmk' : mc = k
      · rw [if_pos hmk'] at h
        have hpa : bitsOf bit a n = bitsOf bit p k ++ bitsOf bit (o.shl a k) (n - k) := by
          rw [hca, hcp, hmk', Nat.sub_self]; simp [bitsOf]
        have hhead : ∃ rest, bitsOf bit (o.shl a k) (n - k) = o.leftBit (o.shl a k) :: rest := by
          rw [L.left]
          exact bitsOf_cons L _ (by omega)
        obtain ⟨rest, hrest⟩ := hhead
        rw [hmk'] at h
        have fin : ∀ l' r', t' = node i p k ts l' r' →
            (∀ c cs, (if c then tagsAt bit r' (c :: cs) else tagsAt bit l' (c :: cs)) =
              (if c then tagsAt bit r (c :: cs) else tagsAt bit l (c :: cs)) ++
              if c :: cs = bitsOf bit (o.shl a k) (n - k) then [x] else []) →
            ∀ q, tagsAt bit t' q =
              tagsAt bit (node i p k ts l r) q ++ if q = bitsOf bit a n then [x] else [] := by
          intro l' r' ht' hc q
          rw [ht']
          by_cases hq : bitsOf bit p k <+: q
          · obtain ⟨q1, rfl⟩ := hq
            rw [tagsAt_append, tagsAt_append, hpa]
            simp only [List.append_cancel_left_eq]
            cases q1 with
            | nil => rw [hrest]; simp [sub]
            | cons c cs => exact hc c cs
          · rw [tagsAt_not _ _ _ _ _ _ _ _ hq, tagsAt_not _ _ _ _ _ _ _ _ hq, if_neg]
            · rfl
            · rintro rfl
              rw [hpa] at hq
              exact hq (List.prefix_append _ _)
        cases hb : o.leftBit (o.shl a k) with
        | true =>
          rw [hb] at h
          simp only [if_true] at h
          obtain ⟨r', hr', h⟩ := Go.bind_eq_ok.mp h
          obtain ⟨i1, i2⟩ := ihr (d := d + k) hwr hfitr (by omega) hr'
          have h := (Go.ok.inj h).symm
          refine ⟨by rw [h]; exact ⟨hdk, hfitl, i1⟩, fin l r' h ?_⟩
          intro c cs
          cases c
          · rw [hrest, hb]; simp
          · simpa using i2 (true :: cs)
        | false =>
          rw [hb] at h
          simp only [Bool.false_eq_true, if_false] at h
          obtain ⟨l', hl', h⟩ := Go.bind_eq_ok.mp h
          obtain ⟨i1, i2⟩ := ihl (d := d + k) hwl hfitl (by omega) hl'
          have h := (Go.ok.inj h).symm
          refine ⟨by rw [h]; exact ⟨hdk, i1, hfitr⟩, fin l' r h ?_⟩
          intro c cs
          cases c
          · simpa using i2 (false :: cs)
          · rw [hrest, hb]; simp
      · rw [if_neg hmk'] at h
        have h := (Go.ok.inj h).symm
        have hne := hstop (by omega) (by omega) (by omega)
        have hsubfit : Fit W (d + mc) (node i (o.shl p mc) (k - mc) ts l r) := by
          have e : d + mc + (k - mc) = d + k := by omega
          refine ⟨by omega, ?_⟩
          rw [e]; exact ⟨hfitl, hfitr⟩
        have hleaffit : Fit W (d + mc) (node (f + 1) (o.shl a mc) (n - mc) [x] nil nil) :=
          ⟨by omega, trivial, trivial⟩
        obtain ⟨restp, hrp⟩ := bitsOf_cons L (o.shl p mc) (k := k - mc) (by omega)
        obtain ⟨resta, hra⟩ := bitsOf_cons L (o.shl a mc) (k := n - mc) (by omega)
        have hbp : o.leftBit (o.shl p mc) = bit p mc := by rw [L.left, L.bit_shl, Nat.zero_add]
        have hba : bit (o.shl a mc) 0 = bit a mc := by rw [L.bit_shl, Nat.zero_add]
        have hbp' : bit (o.shl p mc) 0 = bit p mc := by rw [L.bit_shl, Nat.zero_add]
        rw [hba] at hra
        rw [hbp'] at hrp
        rw [hbp] at h
        have hold : ∀ q1, tagsAt bit (node i p k ts l r) (bitsOf bit a mc ++ q1) =
            tagsAt bit (node i (o.shl p mc) (k - mc) ts l r) q1 := by
          intro q1
          by_cases hq : bitsOf bit (o.shl p mc) (k - mc) <+: q1
          · obtain ⟨q2, rfl⟩ := hq
            rw [tagsAt_append, ← List.append_assoc, ← hcp, tagsAt_append]
          · rw [tagsAt_not _ _ _ _ _ _ _ _ hq, tagsAt_not]
            rw [hcp, List.prefix_append_right_inj]
            exact hq
        have hab : bit a mc = ! bit p mc := by
          cases h1 : bit a mc <;> cases h2 : bit p mc <;> simp_all
        constructor
        · rw [h]
          cases bit p mc
          · exact ⟨by omega, hsubfit, hleaffit⟩
          · exact ⟨by omega, hleaffit, hsubfit⟩
        · intro q
          by_cases hq : bitsOf bit a mc <+: q
          · obtain ⟨q1, rfl⟩ := hq
            rw [hold, h, hca]
            simp only [List.append_cancel_left_eq]
            cases q1 with
            | nil =>
              have h0 : tagsAt bit (node i (o.shl p mc) (k - mc) ts l r) [] = [] := by
                apply tagsAt_not
                rw [hrp]; simp
              rw [h0, hra]
              cases bit p mc
              · show tagsAt bit (node _ _ _ _ _ _) _ = _
                rw [tagsAt_append]; simp [sub]
              · show tagsAt bit (node _ _ _ _ _ _) _ = _
                rw [tagsAt_append]; simp [sub]
            | cons c cs =>
              have hnp : c ≠ bit p mc →
                  tagsAt bit (node i (o.shl p mc) (k - mc) ts l r) (c :: cs) = [] := by
                intro hc
                apply tagsAt_not
                rw [hrp, List.cons_prefix_cons]
                rintro ⟨h, -⟩
                exact hc h.symm
              have hleaf := tagsAt_leaf bit (f + 1) (o.shl a mc) (n - mc) x (c :: cs)
              by_cases hc : c = bit p mc
              · have hx : ¬ (c :: cs = bitsOf bit (o.shl a mc) (n - mc)) := by
                  rw [hra, hab, ← hc]
                  intro h; cases c <;> simp at h
                rw [if_neg hx, List.append_nil, ← hc]
                cases c
                · show tagsAt bit (node _ _ _ _ _ _) _ = _
                  rw [tagsAt_append]; simp [sub]
                · show tagsAt bit (node _ _ _ _ _ _) _ = _
                  rw [tagsAt_append]; simp [sub]
              · rw [hnp hc, List.nil_append, ← hleaf]
                have hc' : bit p mc = ! c := by cases c <;> cases h : bit p mc <;> simp_all
                rw [hc']
                cases c
                · show tagsAt bit (node _ _ _ _ _ _) _ = _
                  rw [tagsAt_append]; simp [sub]
                · show tagsAt bit (node _ _ _ _ _ _) _ = _
                  rw [tagsAt_append]; simp [sub]
          · have h1 : tagsAt bit (node i p k ts l r) q = [] := by
              apply tagsAt_not
              intro hp
              apply hq
              rw [hcp] at hp
              exact (List.prefix_append _ _).trans hp
            have h2 : q ≠ bitsOf bit a n := by
              rintro rfl
              rw [hca] at hq
              exact hq (List.prefix_append _ _)
            rw [h1, if_neg h2, h]
            cases bit p mc
            · exact tagsAt_not _ _ _ _ _ _ _ _ hq
            · exact tagsAt_not _ _ _ _ _ _ _ _ hq

end Verif.Patricia
