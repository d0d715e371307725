import Verif.Lemmas.Ov
/-
  `Validate` never panics: whatever was inserted and whatever is looked up.
-/
set_option autoImplicit false

namespace Verif.Patricia

open PT

variable {A : Type} {K : Prop}

theorem updNode_tags {t t' : Tree A} {i : Nat} {f : Node A → Node A} (h : updNode t i f = Go.ok t') :
    t'.tags = t.tags := by
  unfold updNode at h
  obtain ⟨n, -, h⟩ := Go.bind_eq_ok.mp h
  cases h; rfl

theorem addTag_tags {t t' : Tree A} {i : Nat} {x : Int} (h : addTag t x i = Go.ok t') (k : Nat) :
    t'.tags k = t.tags k ∨ t'.tags k = x := by
  unfold addTag at h
  obtain ⟨n, -, h⟩ := Go.bind_eq_ok.mp h
  rw [updNode_tags h]
  simp only [setTag]
  by_cases hk : k = tagKey i n.tagCount
  · right; rw [if_pos hk]
  · left; rw [if_neg hk]

theorem newTagged_tags {t : Tree A} {r : Tree A × Nat} {a : A} {n : Nat} {x : Int}
    (h : newTagged t a n x = Go.ok r) (k : Nat) : r.1.tags k = t.tags k ∨ r.1.tags k = x := by
  unfold newTagged at h
  obtain ⟨c, hc, h⟩ := Go.bind_eq_ok.mp h
  obtain ⟨t', ht, h⟩ := Go.bind_eq_ok.mp h
  cases h
  have hct : c.1.tags = t.tags := by
    unfold newNode at hc
    split at hc
    · cases hc; rfl
    · cases hc
  have := addTag_tags ht k
  rwa [hct] at this

theorem relink_tags {t t' : Tree A} {p o n : Nat} (h : relink t p o n = Go.ok t') : t'.tags = t.tags := by
  unfold relink at h
  obtain ⟨m, -, h⟩ := Go.bind_eq_ok.mp h
  split at h
  · exact updNode_tags h
  · split at h
    · cases h
    · exact updNode_tags h

theorem addLoop_tags (o : Ops A) : ∀ (fuel : Nat) {t t' : Tree A} {p c : Nat} {a : A} {n : Nat} {x : Int},
    addLoop o fuel t p c a n x = Go.ok t' → ∀ k, t'.tags k = t.tags k ∨ t'.tags k = x := by
  intro fuel
  induction fuel with
  | zero => intro t t' p c a n x h; cases h
  | succ fuel ih =>
    intro t t' p c a n x h k
    unfold addLoop at h
    split at h
    · cases h
    obtain ⟨nd, -, h⟩ := Go.bind_eq_ok.mp h
    split at h
    · cases h
    simp only at h
    split at h
    · cases h
    split at h
    · split at h
      · exact addTag_tags h k
      · unfold addAbove at h
        obtain ⟨r, hr, h⟩ := Go.bind_eq_ok.mp h
        obtain ⟨t1, h1, h⟩ := Go.bind_eq_ok.mp h
        obtain ⟨n1, -, h⟩ := Go.bind_eq_ok.mp h
        obtain ⟨t2, h2, h⟩ := Go.bind_eq_ok.mp h
        rw [relink_tags h, updNode_tags h2, updNode_tags h1]
        exact newTagged_tags hr k
    split at h
    · split at h
      · obtain ⟨r, hr, h⟩ := Go.bind_eq_ok.mp h
        rw [updNode_tags h]
        exact newTagged_tags hr k
      · exact ih h k
    · unfold addSplit at h
      obtain ⟨c1, hc1, h⟩ := Go.bind_eq_ok.mp h
      obtain ⟨r, hr, h⟩ := Go.bind_eq_ok.mp h
      obtain ⟨t1, h1, h⟩ := Go.bind_eq_ok.mp h
      obtain ⟨n1, -, h⟩ := Go.bind_eq_ok.mp h
      obtain ⟨t2, h2, h⟩ := Go.bind_eq_ok.mp h
      rw [relink_tags h, updNode_tags h2, updNode_tags h1]
      have hct : c1.1.tags = t.tags := by
        unfold newNode at hc1
        split at hc1
        · cases hc1; rfl
        · cases hc1
      have := newTagged_tags hr k
      rwa [hct] at this

theorem grow_tags (t : Tree A) : (grow t).tags = t.tags := by
  unfold grow; split <;> rfl

theorem add_tags {o : Ops A} {t t' : Tree A} {a : A} {n : Nat} {x : Int} (h : add o t a n x = Go.ok t') (k : Nat) :
    t'.tags k = t.tags k ∨ t'.tags k = x := by
  unfold add at h
  simp only at h
  rw [← grow_tags t]
  split at h
  · exact addTag_tags h k
  · obtain ⟨root, -, h⟩ := Go.bind_eq_ok.mp h
    split at h
    · obtain ⟨r, hr, h⟩ := Go.bind_eq_ok.mp h
      rw [updNode_tags h]
      exact newTagged_tags hr k
    · exact addLoop_tags o _ h k

section
variable {σ : Type} {f : Filter σ} {T : Tree A} (hf : ∀ s k, ∃ r, f s (T.tags k) = Go.ok r)
include hf

theorem tagsLoop_total (c : Nat) : ∀ (n i : Nat) (s : List Int × σ), ∃ s', tagsLoop T c f n i s = Go.ok s' := by
  intro n
  induction n with
  | zero => intro i s; exact ⟨s, rfl⟩
  | succ n ih =>
    intro i s
    unfold tagsLoop
    obtain ⟨r, hr⟩ := hf s.2 (tagKey c i)
    simp only
    rw [hr, Go.ok_bind]
    exact ih _ _

theorem tagsForNode_total {c : Nat} {nd : Node A} (hn : T.nodes[c]? = some nd) (s : List Int × σ) :
    ∃ s', tagsForNode T c f s = Go.ok s' := by
  unfold tagsForNode
  split
  · exact ⟨s, rfl⟩
  · rw [idx_some hn, Go.ok_bind]
    exact tagsLoop_total hf c _ _ _

theorem findLoop_total {o : Ops A} {W : Nat} {bit : A → Nat → Bool} (L : Lawful o W bit) (t : PT A) :
    ∀ (d fuel c : Nat) (a : A) (n : Nat) (s : List Int × σ), n < fuel → WF W bit d t →
    Rep K T.nodes T.tags c t → ∃ s', findLoop o T f fuel c a n s = Go.ok s' := by
  induction t with
  | nil =>
    intro d fuel c a n s hfu _ hr
    obtain ⟨g, rfl⟩ : ∃ g, fuel = g + 1 := ⟨fuel - 1, by omega⟩
    have hr : c = 0 := hr
    subst hr
    exact ⟨s, by simp [findLoop]⟩
  | node i p k ts l r ihl ihr =>
    intro d fuel c a n s hfu hw hr
    obtain ⟨g, rfl⟩ : ∃ g, fuel = g + 1 := ⟨fuel - 1, by omega⟩
    obtain ⟨rfl, h0, cl, cr, hi, -, hl, hr⟩ := hr
    simp only [findLoop, if_neg h0, idx_some hi, Go.ok_bind]
    split
    · exact ⟨s, rfl⟩
    · rename_i hmk
      obtain ⟨s1, hs1⟩ := tagsForNode_total hf hi s
      rw [hs1, Go.ok_bind]
      split
      · exact ⟨s1, rfl⟩
      · have h1 := L.mc_n p k a n
        have h2 := hw.1
        cases o.leftBit (o.shl a (o.matchCount p k a n)) with
        | true => exact ihr _ g cr _ _ _ (by omega) hw.2.2.2.2 hr
        | false => exact ihl _ g cl _ _ _ (by omega) hw.2.2.2.1 hl

theorem find_total {o : Ops A} {W : Nat} {bit : A → Nat → Bool} (L : Lawful o W bit) {N : Nat} {ts : List Int}
    {l r : PT A} (h : Whole K o W bit N T ts l r) (a : A) (n : Nat) (s : σ) :
    ∃ s', findTagsWithFilter o T a n f s = Go.ok s' := by
  obtain ⟨-, -, cl, cr, hroot, -, hl, hr⟩ := h.rep
  unfold findTagsWithFilter
  obtain ⟨s1, hs1⟩ := tagsForNode_total hf hroot ([], s)
  rw [idx_some hroot, Go.ok_bind, hs1, Go.ok_bind]
  split
  · exact ⟨s1, rfl⟩
  · cases o.leftBit a with
    | true => exact findLoop_total hf L r 0 _ cr a n s1 (by omega) h.wr hr
    | false => exact findLoop_total hf L l 0 _ cl a n s1 (by omega) h.wl hl

end

theorem find_new {σ : Type} (o : Ops A) (a : A) (n : Nat) (f : Filter σ) (s : σ) :
    findTagsWithFilter o (newTree o) a n f s = Go.ok ([], s) := by
  unfold findTagsWithFilter
  have h1 : idx (newTree o).nodes 1 = Go.ok ⟨0, 0, o.zero, 0, 0⟩ := rfl
  have h2 : tagsForNode (newTree o) 1 f ([], s) = Go.ok ([], s) := by
    simp only [tagsForNode, h1, Go.ok_bind]
    rfl
  rw [h1, Go.ok_bind, h2, Go.ok_bind]
  split
  · rfl
  · cases o.leftBit a <;> simp [child, findLoop]

end Verif.Patricia

namespace Verif.Ov

open Patricia

theorem buildLoop_tags (vs : List VRP) : ∀ {i : Nat} {ts ts' : Patricia.Tree (BitVec 32) × Patricia.Tree V6} {M : Nat},
    buildLoop vs i ts = Go.ok ts' → i + vs.length ≤ M →
    (∀ k, 0 ≤ ts.1.tags k ∧ ts.1.tags k < M) ∧ (∀ k, 0 ≤ ts.2.tags k ∧ ts.2.tags k < M) →
    (∀ k, 0 ≤ ts'.1.tags k ∧ ts'.1.tags k < M) ∧ (∀ k, 0 ≤ ts'.2.tags k ∧ ts'.2.tags k < M) := by
  induction vs with
  | nil => intro i ts ts' M h _ hb; cases h; exact hb
  | cons v vs ih =>
    intro i ts ts' M h hM hb
    simp only [List.length_cons] at hM
    unfold buildLoop at h
    split at h
    · obtain ⟨t, ht, h⟩ := Go.bind_eq_ok.mp h
      refine ih h (by omega) ⟨fun k => ?_, hb.2⟩
      have := hb.1 k
      rcases add_tags ht k with h1 | h1 <;> rw [h1] <;> omega
    · obtain ⟨t, ht, h⟩ := Go.bind_eq_ok.mp h
      refine ih h (by omega) ⟨hb.1, fun k => ?_⟩
      have := hb.2 k
      rcases add_tags ht k with h1 | h1 <;> rw [h1] <;> omega
    · exact ih h (by omega) hb

theorem vrpAt_total {vs : List VRP} {x : Int} (h0 : 0 ≤ x) (h1 : x < vs.length) : ∃ v, vrpAt vs x = Go.ok v := by
  unfold vrpAt
  rw [if_neg (by omega)]
  have : x.toNat < vs.length := by omega
  exact ⟨vs[x.toNat], idx_some (List.getElem?_eq_getElem this)⟩

/-- `Validate` answers, for any entries and any route; or the prefix of the route cannot be read. -/
theorem validate_total (vs : List VRP) (r : Route) : ∃ ov, newOV vs = Go.ok ov ∧
    ((∃ x, validate ov r = Go.ok x) ∨ (parseFromIPAddr r.pre = .bad ∧ ∃ m, validate ov r = .err m)) := by
  obtain ⟨ov, h1, h2, h3⟩ := newOV_trees (K := False) vs (fun h => h.elim)
  refine ⟨ov, h1, ?_⟩
  by_cases hvs : vs = []
  · subst hvs
    cases h1
    unfold validate
    cases hp : parseFromIPAddr r.pre with
    | bad => exact Or.inr ⟨rfl, _, rfl⟩
    | v4 a n => simp only; rw [find_new]; exact Or.inl ⟨_, rfl⟩
    | v6 a n => simp only; rw [find_new]; exact Or.inl ⟨_, rfl⟩
  · have hpos : 0 < vs.length := List.length_pos_iff.mpr hvs
    have htags : (∀ k, 0 ≤ ov.t4.tags k ∧ ov.t4.tags k < vs.length) ∧ (∀ k, 0 ≤ ov.t6.tags k ∧ ov.t6.tags k < vs.length) := by
      unfold newOV at h1
      obtain ⟨ts, hts, h1⟩ := Go.bind_eq_ok.mp h1
      cases h1
      refine buildLoop_tags vs hts (by omega) ⟨fun k => ?_, fun k => ?_⟩ <;> simp only [newTree] <;> omega
    have hfil : ∀ {x : Int} (cv : Cur), 0 ≤ x ∧ x < vs.length →
        ∃ y, filter ov.vrp r.asn (maskLen r.pre) cv x = Go.ok y := by
      intro x cv hx
      obtain ⟨v, hv⟩ := vrpAt_total hx.1 hx.2
      unfold filter
      rw [h2, hv, Go.ok_bind]
      exact ⟨_, rfl⟩
    unfold validate
    cases hp : parseFromIPAddr r.pre with
    | bad => exact Or.inr ⟨rfl, _, rfl⟩
    | v4 a n =>
      obtain ⟨xs, l, rr, hw, -⟩ := h3.t4
      obtain ⟨s, hs⟩ := find_total (fun cv k => hfil cv (htags.1 k)) lawful4 hw a n ⟨.unknown, []⟩
      simp only
      rw [hs]; exact Or.inl ⟨_, rfl⟩
    | v6 a n =>
      obtain ⟨xs, l, rr, hw, -⟩ := h3.t6
      obtain ⟨s, hs⟩ := find_total (fun cv k => hfil cv (htags.2 k)) lawful6 hw a n ⟨.unknown, []⟩
      simp only
      rw [hs]; exact Or.inl ⟨_, rfl⟩

end Verif.Ov
