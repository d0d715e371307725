import Verif.Lemmas.PatriciaBits
/-
  The array of nodes represents a tree, and insertion into the array is insertion into that
  tree.
-/
set_option autoImplicit false

namespace Verif.Patricia

variable {A : Type} {K : Prop}

/-- A tree: index, prefix, prefix length, tags, children. -/
inductive PT (A : Type) where
  | nil
  | node (i : Nat) (p : A) (k : Nat) (ts : List Int) (l r : PT A)

namespace PT

def idxs : PT A → List Nat
  | nil => []
  | node i _ _ _ l r => i :: (idxs l ++ idxs r)

def top : PT A → Nat
  | nil => 0
  | node i _ _ _ _ _ => i

/-- No node has more than `N` tags. -/
def Small (N : Nat) : PT A → Prop
  | nil => True
  | node _ _ _ ts l r => ts.length ≤ N ∧ Small N l ∧ Small N r

/-- A node with child `c` on side `s` and `d` on the other. -/
def mk2 (s : Bool) (i : Nat) (p : A) (k : Nat) (ts : List Int) (c d : PT A) : PT A :=
  if s then node i p k ts d c else node i p k ts c d

/-- Insertion; new nodes get the indexes `f` and `f + 1`. -/
def ins (o : Ops A) (f : Nat) : PT A → A → Nat → Int → Go (PT A)
  | nil, a, n, x => .ok (node f a n [x] nil nil)
  | node i p k ts l r, a, n, x =>
    if k = 0 then .panic
    else
      let mc := o.matchCount p k a n
      if mc = 0 then .panic
      else if mc = n then
        if mc = k then .ok (node i p k (ts ++ [x]) l r)
        else .ok (mk2 (o.leftBit (o.shl p mc)) f a n [x]
          (node i (o.shl p mc) (k - mc) ts l r) nil)
      else if mc = k then
        if o.leftBit (o.shl a mc) then do
          let r' ← ins o f r (o.shl a mc) (n - mc) x
          pure (node i p k ts l r')
        else do
          let l' ← ins o f l (o.shl a mc) (n - mc) x
          pure (node i p k ts l' r)
      else .ok (mk2 (o.leftBit (o.shl p mc)) f a mc []
        (node i (o.shl p mc) (k - mc) ts l r)
        (node (f + 1) (o.shl a mc) (n - mc) [x] nil nil))

end PT

open PT

/-- The array and the tags represent the tree whose top node has index `c`.  `K` says that the
    numbers involved are small enough for the keys of the tags not to collide. -/
def Rep (K : Prop) (ns : List (Node A)) (tg : Nat → Int) : Nat → PT A → Prop
  | c, nil => c = 0
  | c, node i p k ts l r => c = i ∧ i ≠ 0 ∧ ∃ cl cr, ns[i]? = some ⟨cl, cr, p, k, ts.length⟩ ∧
      (K → ∀ m (h : m < ts.length), tg (tagKey i m) = ts[m]) ∧ Rep K ns tg cl l ∧ Rep K ns tg cr r

theorem Rep.top {ns : List (Node A)} {tg : Nat → Int} {c : Nat} {t : PT A}
    (h : Rep K ns tg c t) : c = t.top := by
  cases t with
  | nil => exact h
  | node i p k ts l r => exact h.1

theorem Rep.lt {ns : List (Node A)} {tg : Nat → Int} {t : PT A} : ∀ {c : Nat},
    Rep K ns tg c t → ∀ j ∈ t.idxs, j < ns.length := by
  induction t with
  | nil => intro c _ j hj; simp [PT.idxs] at hj
  | node i p k ts l r ihl ihr =>
    intro c h j hj
    obtain ⟨_, _, cl, cr, hn, _, hl, hr⟩ := h
    simp only [PT.idxs, List.mem_cons, List.mem_append] at hj
    rcases hj with rfl | hj | hj
    · exact (List.getElem?_eq_some_iff.mp hn).1
    · exact ihl hl j hj
    · exact ihr hr j hj

theorem Rep.pos {ns : List (Node A)} {tg : Nat → Int} {t : PT A} : ∀ {c : Nat},
    Rep K ns tg c t → ∀ j ∈ t.idxs, j ≠ 0 := by
  induction t with
  | nil => intro c _ j hj; simp [PT.idxs] at hj
  | node i p k ts l r ihl ihr =>
    intro c h j hj
    obtain ⟨_, h0, cl, cr, hn, _, hl, hr⟩ := h
    simp only [PT.idxs, List.mem_cons, List.mem_append] at hj
    rcases hj with rfl | hj | hj
    · exact h0
    · exact ihl hl j hj
    · exact ihr hr j hj

theorem Rep.frame {ns ns' : List (Node A)} {tg tg' : Nat → Int} {t : PT A} {N : Nat} :
    ∀ {c : Nat}, Rep K ns tg c t → Small N t → (∀ j ∈ t.idxs, ns'[j]? = ns[j]?) →
    (K → ∀ j ∈ t.idxs, ∀ m, m < N → tg' (tagKey j m) = tg (tagKey j m)) → Rep K ns' tg' c t := by
  induction t with
  | nil => intro c h _ _ _; exact h
  | node i p k ts l r ihl ihr =>
    intro c h hs hn ht
    obtain ⟨hc, h0, cl, cr, hnode, htags, hl, hr⟩ := h
    simp only [PT.idxs, List.mem_cons, List.mem_append] at hn ht
    refine ⟨hc, h0, cl, cr, ?_, ?_, ?_, ?_⟩
    · rw [hn i (Or.inl rfl)]; exact hnode
    · intro hK m hm
      rw [ht hK i (Or.inl rfl) m (by have := hs.1; omega)]
      exact htags hK m hm
    · exact ihl hl hs.2.1 (fun j hj => hn j (Or.inr (Or.inl hj)))
        (fun hK j hj => ht hK j (Or.inr (Or.inl hj)))
    · exact ihr hr hs.2.2 (fun j hj => hn j (Or.inr (Or.inr hj)))
        (fun hK j hj => ht hK j (Or.inr (Or.inr hj)))

theorem tagKey_inj {i j m n : Nat} (hi : i < 2 ^ 32) (hj : j < 2 ^ 32) (hm : m < 2 ^ 32)
    (hn : n < 2 ^ 32) (h : tagKey i m = tagKey j n) : i = j ∧ m = n := by
  unfold tagKey at h
  rw [Nat.mod_eq_of_lt (by omega), Nat.mod_eq_of_lt (by omega)] at h
  omega

theorem setTag_same (tg : Nat → Int) (k : Nat) (v : Int) : setTag tg k v k = v := by
  simp [setTag]

theorem setTag_other (tg : Nat → Int) {k k' : Nat} (v : Int) (h : k' ≠ k) :
    setTag tg k v k' = tg k' := by
  simp [setTag, h]

theorem idx_some {B : Type} {l : List B} {i : Nat} {x : B} (h : l[i]? = some x) :
    idx l i = Go.ok x := by
  simp [idx, h]

theorem updNode_some {t : Tree A} {i : Nat} {n : Node A} (f : Node A → Node A)
    (h : t.nodes[i]? = some n) :
    updNode t i f = Go.ok { t with nodes := t.nodes.set i (f n) } := by
  simp [updNode, idx_some h]

theorem addTag_some {t : Tree A} {i : Nat} {n : Node A} (x : Int) (h : t.nodes[i]? = some n) :
    addTag t x i = Go.ok { t with
      nodes := t.nodes.set i { n with tagCount := n.tagCount + 1 },
      tags := setTag t.tags (tagKey i n.tagCount) x } := by
  simp only [addTag, idx_some h, Go.ok_bind]
  exact updNode_some (t := { t with tags := _ }) (n := n) _ h

theorem newNode_ok {t : Tree A} (a : A) (n : Nat) (h : t.nodes.length < t.cap) :
    newNode t a n = Go.ok ({ t with nodes := t.nodes ++ [⟨0, 0, a, n, 0⟩] }, t.nodes.length) := by
  simp [newNode, h]

theorem newTagged_ok {t : Tree A} (a : A) (n : Nat) (x : Int) (h : t.nodes.length < t.cap) :
    newTagged t a n x = Go.ok ({ t with
      nodes := t.nodes ++ [⟨0, 0, a, n, 1⟩],
      tags := setTag t.tags (tagKey t.nodes.length 0) x }, t.nodes.length) := by
  simp only [newTagged, newNode_ok a n h, Go.ok_bind]
  rw [addTag_some (n := ⟨0, 0, a, n, 0⟩) x (by simp)]
  simp

theorem relink_ok {t : Tree A} {par old new : Nat} {pn : Node A} {s : Bool}
    (hp : t.nodes[par]? = some pn) (hs : child s pn = old) (hs2 : s = true → pn.left ≠ old) :
    relink t par old new = Go.ok { t with nodes := t.nodes.set par (setChild s new pn) } := by
  simp only [relink, idx_some hp, Go.ok_bind]
  cases s with
  | false =>
    have hs : pn.left = old := by simpa [child] using hs
    rw [if_pos hs, updNode_some _ hp]
  | true =>
    have hs : pn.right = old := by simpa [child] using hs
    rw [if_neg (hs2 rfl), if_neg (by simp [hs]), updNode_some _ hp]

theorem setChild_self (s : Bool) (n : Node A) : setChild s (child s n) n = n := by
  cases s <;> rfl

/-- What an insertion below `par` does to the array: `t` (with top `c`) becomes `t'`. -/
structure Grown (K : Prop) (T T' : Tree A) (par : Nat) (s : Bool) (pn : Node A) (t t' : PT A) : Prop where
  rep : Rep K T'.nodes T'.tags t'.top t'
  parent : T'.nodes[par]? = some (setChild s t'.top pn)
  frame : ∀ j, j < T.nodes.length → j ∉ t.idxs → j ≠ par → T'.nodes[j]? = T.nodes[j]?
  tags : K → ∀ j m, j < T.nodes.length → j ∉ t.idxs → m < 2 ^ 32 →
    T'.tags (tagKey j m) = T.tags (tagKey j m)
  lo : T.nodes.length ≤ T'.nodes.length
  hi : T'.nodes.length ≤ T.nodes.length + 2
  cap : T'.cap = T.cap
  top : t'.top ≠ 0

theorem getElem?_set_ne' {B : Type} (l : List B) {i j : Nat} (x : B) (h : j ≠ i) :
    (l.set i x)[j]? = l[j]? := by
  rw [List.getElem?_set_ne (Ne.symm h)]

theorem getElem?_set_self' {B : Type} {l : List B} {i : Nat} (x y : B) (h : l[i]? = some y) :
    (l.set i x)[i]? = some x := by
  have := (List.getElem?_eq_some_iff.mp h).1
  simp [this]

theorem getElem?_append_lt {B : Type} (l m : List B) {i : Nat} (h : i < l.length) :
    (l ++ m)[i]? = l[i]? := List.getElem?_append_left h

/-- A new leaf under a node that had no child on that side. -/
theorem leaf_grown {T : Tree A} {par : Nat} {s : Bool} {pn : Node A}
    (a : A) (n : Nat) (x : Int)
    (hp : T.nodes[par]? = some pn) (hcap : T.nodes.length < T.cap)
    (hlen : K → T.nodes.length + 2 ≤ 2 ^ 32) :
    ∃ T', (newTagged T a n x >>= fun r => updNode r.1 par (setChild s r.2)) = Go.ok T' ∧
      Grown K T T' par s pn nil (node T.nodes.length a n [x] nil nil) := by
  have hpl := (List.getElem?_eq_some_iff.mp hp).1
  let ns1 := T.nodes ++ [(⟨0, 0, a, n, 1⟩ : Node A)]
  have e1 : ns1[par]? = some pn := (getElem?_append_lt _ _ hpl).trans hp
  refine ⟨{ T with
      nodes := ns1.set par (setChild s T.nodes.length pn),
      tags := setTag T.tags (tagKey T.nodes.length 0) x }, ?_, ?_⟩
  · rw [newTagged_ok a n x hcap, Go.ok_bind]
    exact updNode_some (t := { T with nodes := ns1, tags := _ }) _ e1
  · constructor
    · refine ⟨rfl, by omega, 0, 0, ?_, ?_, rfl, rfl⟩
      · simp only
        rw [getElem?_set_ne' _ _ (by omega)]; simp [ns1]
      · intro _ m hm
        have : m = 0 := by simpa using hm
        subst this
        simp [setTag_same]
    · simp only [PT.top]
      exact getElem?_set_self' _ pn e1
    · intro j hj _ hjp
      simp only
      rw [getElem?_set_ne' _ _ hjp, getElem?_append_lt _ _ hj]
    · intro hK j m hj _ hm
      have hlen := hlen hK
      apply setTag_other
      intro h
      have := tagKey_inj (by omega) (by omega) hm (by omega) h
      omega
    · simp [ns1]
    · simp [ns1]
    · rfl
    · simp only [PT.top]; omega

theorem Rep.tags_lt {ns : List (Node A)} {tg : Nat → Int} {t : PT A} {N : Nat} {c : Nat}
    (h : Rep K ns tg c t) (hs : Small N t) (x : Int) {f q : Nat} (hf : f ∉ t.idxs) {ns' : List (Node A)}
    (hlen : K → ns.length ≤ 2 ^ 32 ∧ f < 2 ^ 32 ∧ N ≤ 2 ^ 32 ∧ q < 2 ^ 32) 
    (hn : ∀ j ∈ t.idxs, ns'[j]? = ns[j]?) :
    Rep K ns' (setTag tg (tagKey f q) x) c t := by
  refine h.frame hs hn ?_
  intro hK j hj m hm
  have hjl := h.lt j hj
  have hlen := hlen hK
  apply setTag_other
  intro he
  have := tagKey_inj (by omega) (by omega) (by omega) (by omega) he
  exact hf (this.1 ▸ hj)

/-- The address ends inside the prefix of the node. -/
theorem above_grown {o : Ops A} {T : Tree A} {par : Nat} {s : Bool} {pn : Node A} {N : Nat}
    {i : Nat} {p : A} {k : Nat} {ts : List Int} {l r : PT A}
    (a : A) (n : Nat) (x : Int) (mc : Nat)
    (hp : T.nodes[par]? = some pn) (hcap : T.nodes.length < T.cap)
    (hlen : K → T.nodes.length + 2 ≤ 2 ^ 32) (hN : K → N ≤ 2 ^ 32)
    (hr : Rep K T.nodes T.tags i (node i p k ts l r)) (hsm : Small N (node i p k ts l r))
    (hnd : (node i p k ts l r).idxs.Nodup) (hpar : par ∉ (node i p k ts l r).idxs)
    (hs : child s pn = i) (hs2 : s = true → pn.left ≠ i) :
    ∃ T', addAbove o T par i a n x mc = Go.ok T' ∧
      Grown K T T' par s pn (node i p k ts l r) (mk2 (o.leftBit (o.shl p mc)) T.nodes.length a n [x]
          (node i (o.shl p mc) (k - mc) ts l r) nil) := by
  have hall := hr.lt
  obtain ⟨-, hi0, cl, cr, hi, hti, hl, hrr⟩ := hr
  have hpl := (List.getElem?_eq_some_iff.mp hp).1
  have hil := (List.getElem?_eq_some_iff.mp hi).1
  simp only [PT.idxs, List.mem_cons, List.mem_append, not_or] at hpar
  simp only [PT.idxs, List.mem_cons, List.mem_append] at hall
  simp only [PT.idxs, List.nodup_cons, List.mem_append, not_or] at hnd
  obtain ⟨⟨hni, hnj⟩, -⟩ := hnd
  generalize hlf : o.leftBit (o.shl p mc) = b
  let ns1 := T.nodes ++ [(⟨0, 0, a, n, 1⟩ : Node A)]
  let ns2 := ns1.set i ⟨cl, cr, o.shl p mc, k - mc, ts.length⟩
  let ns3 := ns2.set T.nodes.length (setChild b i ⟨0, 0, a, n, 1⟩)
  let ns4 := ns3.set par (setChild s T.nodes.length pn)
  have e1 : ns1[i]? = some ⟨cl, cr, p, k, ts.length⟩ := (getElem?_append_lt _ _ hil).trans hi
  have e2 : ns2[i]? = some ⟨cl, cr, o.shl p mc, k - mc, ts.length⟩ := getElem?_set_self' _ _ e1
  have e3 : ns2[T.nodes.length]? = some ⟨0, 0, a, n, 1⟩ := by
    show (ns1.set i _)[T.nodes.length]? = _
    rw [getElem?_set_ne' _ _ (by omega)]; simp [ns1]
  have e4 : ns3[par]? = some pn := by
    show (ns2.set _ _)[par]? = _
    rw [getElem?_set_ne' _ _ (by omega)]
    show (ns1.set i _)[par]? = _
    rw [getElem?_set_ne' _ _ hpar.1]
    exact (getElem?_append_lt _ _ hpl).trans hp
  have hfr : ∀ j, j < T.nodes.length → j ≠ i → j ≠ par → ns4[j]? = T.nodes[j]? := by
    intro j hj hji hjp
    show (ns3.set par _)[j]? = _
    rw [getElem?_set_ne' _ _ hjp]
    show (ns2.set _ _)[j]? = _
    rw [getElem?_set_ne' _ _ (by omega)]
    show (ns1.set i _)[j]? = _
    rw [getElem?_set_ne' _ _ hji]
    exact getElem?_append_lt _ _ hj
  have hfn : T.nodes.length ∉ (node i (o.shl p mc) (k - mc) ts l r).idxs := by
    simp only [PT.idxs, List.mem_cons, List.mem_append]
    intro h
    exact Nat.lt_irrefl _ (hall _ h)
  have hsub : Rep K ns4 (setTag T.tags (tagKey T.nodes.length 0) x) i
      (node i (o.shl p mc) (k - mc) ts l r) := by
    have hN' := hsm.1
    refine ⟨rfl, hi0, cl, cr, ?_, ?_, ?_, ?_⟩
    · show (ns3.set par _)[i]? = _
      rw [getElem?_set_ne' _ _ (Ne.symm hpar.1)]
      show (ns2.set _ _)[i]? = _
      rw [getElem?_set_ne' _ _ (by omega)]
      exact e2
    · intro hK m hm
      have hlen := hlen hK
      have hN := hN hK
      rw [setTag_other]
      · exact hti hK m hm
      · intro he
        have := tagKey_inj (by omega) (by omega) (by omega) (by omega) he
        omega
    · refine hl.tags_lt hsm.2.1 x ?_ (fun hK => by have := hlen hK; have := hN hK; omega) ?_
      · intro h; exact hfn (by simp [PT.idxs, h])
      · intro j hj
        exact hfr j (hall j (Or.inr (Or.inl hj))) (fun h => hni (h ▸ hj))
          (fun h => hpar.2.1 (h ▸ hj))
    · refine hrr.tags_lt hsm.2.2 x ?_ (fun hK => by have := hlen hK; have := hN hK; omega) ?_
      · intro h; exact hfn (by simp [PT.idxs, h])
      · intro j hj
        exact hfr j (hall j (Or.inr (Or.inr hj))) (fun h => hnj (h ▸ hj))
          (fun h => hpar.2.2 (h ▸ hj))
  have hnew : ns4[T.nodes.length]? = some (setChild b i ⟨0, 0, a, n, 1⟩) := by
    show (ns3.set par _)[T.nodes.length]? = _
    rw [getElem?_set_ne' _ _ (by omega)]
    exact getElem?_set_self' _ _ e3
  refine ⟨{ T with nodes := ns4, tags := setTag T.tags (tagKey T.nodes.length 0) x }, ?_, ?_⟩
  · unfold addAbove
    rw [newTagged_ok a n x hcap, Go.ok_bind]
    rw [updNode_some (t := { T with nodes := ns1, tags := _ }) _ e1, Go.ok_bind]
    simp only
    rw [idx_some e2, Go.ok_bind, updNode_some (t := { T with nodes := ns2, tags := _ }) _ e3, Go.ok_bind,
      hlf]
    exact relink_ok (t := { T with nodes := ns3, tags := _ }) e4 hs hs2
  · have htop : (mk2 b T.nodes.length a n [x] (node i (o.shl p mc) (k - mc) ts l r) nil).top =
        T.nodes.length := by cases b <;> rfl
    constructor
    · rw [htop]
      cases b with
      | true =>
        refine ⟨rfl, by omega, 0, i, hnew, ?_, rfl, hsub⟩
        intro _ m hm
        have : m = 0 := by simpa using hm
        subst this
        simp [setTag_same]
      | false =>
        refine ⟨rfl, by omega, i, 0, hnew, ?_, hsub, rfl⟩
        intro _ m hm
        have : m = 0 := by simpa using hm
        subst this
        simp [setTag_same]
    · rw [htop]; exact getElem?_set_self' _ _ e4
    · intro j hj hjt hjp
      simp only [PT.idxs, List.mem_cons, List.mem_append, not_or] at hjt
      exact hfr j hj hjt.1 hjp
    · intro hK j m hj hjt hm
      have hlen := hlen hK
      apply setTag_other
      intro h
      have := tagKey_inj (by omega) (by omega) hm (by omega) h
      omega
    · simp [ns4, ns3, ns2, ns1]
    · simp [ns4, ns3, ns2, ns1]
    · rfl
    · rw [htop]; omega

/-- The address and the prefix of the node part ways. -/
theorem split_grown {o : Ops A} {T : Tree A} {par : Nat} {s : Bool} {pn : Node A} {N : Nat}
    {i : Nat} {p : A} {k : Nat} {ts : List Int} {l r : PT A}
    (a : A) (n : Nat) (x : Int) (mc : Nat)
    (hp : T.nodes[par]? = some pn) (hcap : T.nodes.length + 1 < T.cap)
    (hlen : K → T.nodes.length + 2 ≤ 2 ^ 32) (hN : K → N ≤ 2 ^ 32)
    (hr : Rep K T.nodes T.tags i (node i p k ts l r)) (hsm : Small N (node i p k ts l r))
    (hnd : (node i p k ts l r).idxs.Nodup) (hpar : par ∉ (node i p k ts l r).idxs)
    (hs : child s pn = i) (hs2 : s = true → pn.left ≠ i) :
    ∃ T', addSplit o T par i a n x mc = Go.ok T' ∧
      Grown K T T' par s pn (node i p k ts l r) (mk2 (o.leftBit (o.shl p mc)) T.nodes.length a mc []
          (node i (o.shl p mc) (k - mc) ts l r)
          (node (T.nodes.length + 1) (o.shl a mc) (n - mc) [x] nil nil)) := by
  have hall := hr.lt
  obtain ⟨-, hi0, cl, cr, hi, hti, hl, hrr⟩ := hr
  have hpl := (List.getElem?_eq_some_iff.mp hp).1
  have hil := (List.getElem?_eq_some_iff.mp hi).1
  simp only [PT.idxs, List.mem_cons, List.mem_append, not_or] at hpar
  simp only [PT.idxs, List.mem_cons, List.mem_append] at hall
  simp only [PT.idxs, List.nodup_cons, List.mem_append, not_or] at hnd
  obtain ⟨⟨hni, hnj⟩, -⟩ := hnd
  generalize hlf : o.leftBit (o.shl p mc) = b
  let cn : Node A := ⟨0, 0, a, mc, 0⟩
  let ln : Node A := ⟨0, 0, o.shl a mc, n - mc, 1⟩
  let ns0 := T.nodes ++ [cn]
  let ns1 := ns0 ++ [ln]
  let ns2 := ns1.set i ⟨cl, cr, o.shl p mc, k - mc, ts.length⟩
  let ns3 := ns2.set T.nodes.length (setChild (!b) (T.nodes.length + 1) (setChild b i cn))
  let ns4 := ns3.set par (setChild s T.nodes.length pn)
  have l0 : ns0.length = T.nodes.length + 1 := by simp [ns0]
  have a1 : ∀ j, j < T.nodes.length → ns1[j]? = T.nodes[j]? := by
    intro j hj
    show (ns0 ++ [ln])[j]? = _
    rw [getElem?_append_lt _ _ (by omega)]
    exact getElem?_append_lt _ _ hj
  have e1 : ns1[i]? = some ⟨cl, cr, p, k, ts.length⟩ := (a1 i hil).trans hi
  have e2 : ns2[i]? = some ⟨cl, cr, o.shl p mc, k - mc, ts.length⟩ := getElem?_set_self' _ _ e1
  have e3 : ns2[T.nodes.length]? = some cn := by
    show (ns1.set i _)[T.nodes.length]? = _
    rw [getElem?_set_ne' _ _ (by omega)]
    show (ns0 ++ [ln])[_]? = _
    rw [getElem?_append_lt _ _ (by omega)]; simp [ns0]
  have e5 : ns4[T.nodes.length + 1]? = some ln := by
    show (ns3.set par _)[_]? = _
    rw [getElem?_set_ne' _ _ (by omega)]
    show (ns2.set _ _)[_]? = _
    rw [getElem?_set_ne' _ _ (by omega)]
    show (ns1.set i _)[_]? = _
    rw [getElem?_set_ne' _ _ (by omega)]
    show (ns0 ++ [ln])[_]? = _
    rw [← l0]; simp
  have e4 : ns3[par]? = some pn := by
    show (ns2.set _ _)[par]? = _
    rw [getElem?_set_ne' _ _ (by omega)]
    show (ns1.set i _)[par]? = _
    rw [getElem?_set_ne' _ _ hpar.1]
    exact (a1 par hpl).trans hp
  have hfr : ∀ j, j < T.nodes.length → j ≠ i → j ≠ par → ns4[j]? = T.nodes[j]? := by
    intro j hj hji hjp
    show (ns3.set par _)[j]? = _
    rw [getElem?_set_ne' _ _ hjp]
    show (ns2.set _ _)[j]? = _
    rw [getElem?_set_ne' _ _ (by omega)]
    show (ns1.set i _)[j]? = _
    rw [getElem?_set_ne' _ _ hji]
    exact a1 j hj
  have hfn : T.nodes.length + 1 ∉ (node i (o.shl p mc) (k - mc) ts l r).idxs := by
    simp only [PT.idxs, List.mem_cons, List.mem_append]
    intro h
    have := hall _ h
    omega
  have hsub : Rep K ns4 (setTag T.tags (tagKey (T.nodes.length + 1) 0) x) i
      (node i (o.shl p mc) (k - mc) ts l r) := by
    have hN' := hsm.1
    refine ⟨rfl, hi0, cl, cr, ?_, ?_, ?_, ?_⟩
    · show (ns3.set par _)[i]? = _
      rw [getElem?_set_ne' _ _ (Ne.symm hpar.1)]
      show (ns2.set _ _)[i]? = _
      rw [getElem?_set_ne' _ _ (by omega)]
      exact e2
    · intro hK m hm
      have hlen := hlen hK
      have hN := hN hK
      rw [setTag_other]
      · exact hti hK m hm
      · intro he
        have := tagKey_inj (by omega) (by omega) (by omega) (by omega) he
        omega
    · refine hl.tags_lt hsm.2.1 x ?_ (fun hK => by have := hlen hK; have := hN hK; omega) ?_
      · intro h; exact hfn (by simp [PT.idxs, h])
      · intro j hj
        exact hfr j (hall j (Or.inr (Or.inl hj))) (fun h => hni (h ▸ hj))
          (fun h => hpar.2.1 (h ▸ hj))
    · refine hrr.tags_lt hsm.2.2 x ?_ (fun hK => by have := hlen hK; have := hN hK; omega) ?_
      · intro h; exact hfn (by simp [PT.idxs, h])
      · intro j hj
        exact hfr j (hall j (Or.inr (Or.inr hj))) (fun h => hnj (h ▸ hj))
          (fun h => hpar.2.2 (h ▸ hj))
  have hleaf : Rep K ns4 (setTag T.tags (tagKey (T.nodes.length + 1) 0) x) (T.nodes.length + 1)
      (node (T.nodes.length + 1) (o.shl a mc) (n - mc) [x] nil nil) := by
    refine ⟨rfl, by omega, 0, 0, e5, ?_, rfl, rfl⟩
    intro _ m hm
    have : m = 0 := by simpa using hm
    subst this
    simp [setTag_same]
  have hnew : ns4[T.nodes.length]? =
      some (setChild (!b) (T.nodes.length + 1) (setChild b i cn)) := by
    show (ns3.set par _)[T.nodes.length]? = _
    rw [getElem?_set_ne' _ _ (by omega)]
    exact getElem?_set_self' _ _ e3
  refine ⟨{ T with nodes := ns4, tags := setTag T.tags (tagKey (T.nodes.length + 1) 0) x }, ?_, ?_⟩
  · unfold addSplit
    rw [newNode_ok a mc (by omega), Go.ok_bind]
    rw [newTagged_ok (t := { T with nodes := ns0 }) _ _ x (by simp only; omega), Go.ok_bind]
    simp only [l0]
    rw [updNode_some (t := { T with nodes := ns1, tags := _ }) _ e1, Go.ok_bind]
    simp only
    rw [idx_some e2, Go.ok_bind, updNode_some (t := { T with nodes := ns2, tags := _ }) _ e3, Go.ok_bind,
      hlf]
    exact relink_ok (t := { T with nodes := ns3, tags := _ }) e4 hs hs2
  · have htop : (mk2 b T.nodes.length a mc [] (node i (o.shl p mc) (k - mc) ts l r)
        (node (T.nodes.length + 1) (o.shl a mc) (n - mc) [x] nil nil)).top =
        T.nodes.length := by cases b <;> rfl
    constructor
    · rw [htop]
      cases b with
      | true =>
        refine ⟨rfl, by omega, T.nodes.length + 1, i, hnew, ?_, hleaf, hsub⟩
        intro _ m hm
        simp at hm
      | false =>
        refine ⟨rfl, by omega, i, T.nodes.length + 1, hnew, ?_, hsub, hleaf⟩
        intro _ m hm
        simp at hm
    · rw [htop]; exact getElem?_set_self' _ _ e4
    · intro j hj hjt hjp
      simp only [PT.idxs, List.mem_cons, List.mem_append, not_or] at hjt
      exact hfr j hj hjt.1 hjp
    · intro hK j m hj hjt hm
      have hlen := hlen hK
      apply setTag_other
      intro h
      have := tagKey_inj (by omega) (by omega) hm (by omega) h
      omega
    · simp [ns4, ns3, ns2, ns1, ns0]
    · simp [ns4, ns3, ns2, ns1, ns0]
    · rfl
    · rw [htop]; omega

theorem Rep.top_pos {ns : List (Node A)} {tg : Nat → Int} {c : Nat} {t : PT A}
    (h : Rep K ns tg c t) : c = 0 ↔ t = nil := by
  cases t with
  | nil => simpa [Rep] using h
  | node i p k ts l r =>
    have := h.2.1
    rw [h.1]
    simp [this]

theorem Rep.top_mem {ns : List (Node A)} {tg : Nat → Int} {c : Nat} {t : PT A}
    (h : Rep K ns tg c t) (hc : c ≠ 0) : c ∈ t.idxs := by
  cases t with
  | nil => exact absurd h hc
  | node i p k ts l r => rw [h.1]; simp [PT.idxs]

/-- The loop of `add` inserts into the tree. -/
theorem addLoop_grown {o : Ops A} {N : Nat} (x : Int) (hN : K → N + 1 ≤ 2 ^ 32)
    (hmc : ∀ p k a n, o.matchCount p k a n ≤ n) (t : PT A) :
    ∀ (fuel : Nat) (T : Tree A) (par : Nat) (s : Bool) (pn : Node A) (c : Nat) (a : A) (n : Nat)
      (t' : PT A),
    n < fuel → T.nodes.length + 2 ≤ T.cap → (K → T.nodes.length + 2 ≤ 2 ^ 32) →
    T.nodes[par]? = some pn → Rep K T.nodes T.tags c t → c ≠ 0 → Small N t → t.idxs.Nodup →
    par ∉ t.idxs → child s pn = c → (s = true → pn.left ≠ c) →
    ins o T.nodes.length t a n x = Go.ok t' →
    ∃ T', addLoop o fuel T par c a n x = Go.ok T' ∧ Grown K T T' par s pn t t' := by
  induction t with
  | nil =>
    intro fuel T par s pn c a n t' _ _ _ _ hr hc
    exact absurd hr hc
  | node i p k ts l r ihl ihr =>
    intro fuel T par s pn c a n t' hfuel hcap hlen hp hr hc hsm hnd hpar hs hs2 hins
    have hci : c = i := hr.1
    subst hci
    obtain ⟨f, rfl⟩ : ∃ f, fuel = f + 1 := ⟨fuel - 1, by omega⟩
    have hr0 := hr
    have hall := hr.lt
    obtain ⟨-, -, cl, cr, hi, hti, hl, hrr⟩ := hr
    have hil := (List.getElem?_eq_some_iff.mp hi).1
    rw [PT.ins.eq_def] at hins
    simp only at hins
    simp only [addLoop, if_neg hc, idx_some hi, Go.ok_bind]
    by_cases hk : k = 0
    · rw [if_pos hk] at hins; cases hins
    rw [if_neg hk] at hins ⊢
    have hmcn := hmc p k a n
    generalize hm : o.matchCount p k a n = mc at hins hmcn ⊢
    by_cases hm0 : mc = 0
    · rw [if_pos hm0] at hins; cases hins
    rw [if_neg hm0] at hins ⊢
    by_cases hmn : mc = n
    · rw [if_pos hmn] at hins ⊢
      by_cases hmk : mc = k
      · rw [if_pos hmk] at hins ⊢
        cases hins
        refine ⟨{ T with nodes := T.nodes.set c ⟨cl, cr, p, k, ts.length + 1⟩,
                         tags := setTag T.tags (tagKey c ts.length) x }, addTag_some x hi, ?_⟩
        simp only [PT.idxs, List.mem_cons, List.mem_append, not_or] at hpar
        simp only [PT.idxs, List.mem_cons, List.mem_append] at hall
        simp only [PT.idxs, List.nodup_cons, List.mem_append, not_or] at hnd
        obtain ⟨⟨hni, hnj⟩, -⟩ := hnd
        have hts := hsm.1
        constructor
        · refine ⟨rfl, hc, cl, cr, ?_, ?_, ?_, ?_⟩
          · rw [getElem?_set_self' _ _ hi]; simp
          · intro hK m hmlt
            have hlen := hlen hK
            have hN := hN hK
            have hti := hti hK
            simp only [List.length_append, List.length_cons, List.length_nil] at hmlt
            by_cases hme : m = ts.length
            · subst hme; simp [setTag_same]
            · have hlt : m < ts.length := by omega
              rw [List.getElem_append_left hlt, ← hti m hlt]
              apply setTag_other
              intro he
              have := tagKey_inj (by omega) (by omega) (by omega) (by omega) he
              omega
          · refine hl.tags_lt hsm.2.1 x hni (fun hK => by have := hlen hK; have := hN hK; omega) ?_
            intro j hj
            exact getElem?_set_ne' _ _ (fun h => hni (h ▸ hj))
          · refine hrr.tags_lt hsm.2.2 x hnj (fun hK => by have := hlen hK; have := hN hK; omega) ?_
            intro j hj
            exact getElem?_set_ne' _ _ (fun h => hnj (h ▸ hj))
        · simp only [PT.top]
          rw [getElem?_set_ne' _ _ hpar.1, hp, ← hs, setChild_self]
        · intro j hj hjt hjp
          simp only [PT.idxs, List.mem_cons, List.mem_append, not_or] at hjt
          exact getElem?_set_ne' _ _ hjt.1
        · intro hK j m hj hjt hmlt
          have hlen := hlen hK
          have hN := hN hK
          simp only [PT.idxs, List.mem_cons, List.mem_append, not_or] at hjt
          apply setTag_other
          intro he
          have := tagKey_inj (by omega) (by omega) (by omega) (by omega) he
          exact hjt.1 this.1
        · simp
        · simp
        · rfl
        · exact hc
      · rw [if_neg hmk] at hins ⊢
        cases hins
        exact above_grown a n x mc hp (by omega) hlen (fun hK => by have := hN hK; omega) hr0 hsm hnd hpar hs hs2
    rw [if_neg hmn] at hins ⊢
    by_cases hmk : mc = k
    · rw [if_pos hmk] at hins ⊢
      -- the child on side `b`
      have key : ∀ (b : Bool) (q q' : PT A) (cq : Nat) (hcq : child b ⟨cl, cr, p, k, ts.length⟩ = cq)
          (hrq : Rep K T.nodes T.tags cq q) (hsq : Small N q) (hnq : q.idxs.Nodup)
          (hcn : c ∉ q.idxs) (hpq : par ∉ q.idxs) (hsub : ∀ j ∈ q.idxs, j ∈ (node c p k ts l r).idxs)
          (hb : b = true → cq ≠ 0 → cl ≠ cq)
          (ih : ∀ (fuel : Nat) (T : Tree A) (par : Nat) (s : Bool) (pn : Node A) (c : Nat) (a : A) (n : Nat)
            (t' : PT A),
            n < fuel → T.nodes.length + 2 ≤ T.cap → (K → T.nodes.length + 2 ≤ 2 ^ 32) →
            T.nodes[par]? = some pn → Rep K T.nodes T.tags c q → c ≠ 0 → Small N q → q.idxs.Nodup →
            par ∉ q.idxs → child s pn = c → (s = true → pn.left ≠ c) →
            ins o T.nodes.length q a n x = Go.ok t' →
            ∃ T', addLoop o fuel T par c a n x = Go.ok T' ∧ Grown K T T' par s pn q t')
          (hq' : ins o T.nodes.length q (o.shl a mc) (n - mc) x = Go.ok q'),
          ∃ T', (if child b (⟨cl, cr, p, k, ts.length⟩ : Node A) = 0 then do
              let r ← newTagged T (o.shl a mc) (n - mc) x
              updNode r.1 c (setChild b r.2)
            else addLoop o f T c (child b (⟨cl, cr, p, k, ts.length⟩ : Node A)) (o.shl a mc) (n - mc) x)
              = Go.ok T' ∧ Grown K T T' c b ⟨cl, cr, p, k, ts.length⟩ q q' := by
        intro b q q' cq hcq hrq hsq hnq hcn hpq hsub hb ih hq'
        rw [hcq]
        by_cases h0 : cq = 0
        · rw [if_pos h0]
          have := hrq.top_pos.mp h0
          subst this
          simp only [PT.ins] at hq'
          cases hq'
          exact leaf_grown _ _ x hi (by omega) hlen
        · rw [if_neg h0]
          exact ih f T c b _ cq _ _ q' (by omega) hcap hlen hi hrq h0 hsq hnq hcn hcq
            (fun h => hb h h0) hq'
      -- from the child back to this node
      have lift : ∀ (b : Bool) (q q' : PT A) (T' : Tree A)
          (hsub : ∀ j ∈ q.idxs, j ∈ l.idxs ∨ j ∈ r.idxs)
          (hcn : c ∉ q.idxs)
          (hrep : Rep K T'.nodes T'.tags q'.top q' →
            T'.nodes[c]? = some (setChild b q'.top ⟨cl, cr, p, k, ts.length⟩) →
            (K → ∀ m (h : m < ts.length), T'.tags (tagKey c m) = ts[m]) →
            Rep K T'.nodes T'.tags t'.top t') (htop : t'.top = c),
          Grown K T T' c b ⟨cl, cr, p, k, ts.length⟩ q q' → Grown K T T' par s pn (node c p k ts l r) t' := by
        intro b q q' T' hsub hcn hrep htop hg
        simp only [PT.idxs, List.mem_cons, List.mem_append, not_or] at hpar
        have hpq : par ∉ q.idxs := by
          intro h
          rcases hsub _ h with h | h
          · exact hpar.2.1 h
          · exact hpar.2.2 h
        have hpl := (List.getElem?_eq_some_iff.mp hp).1
        have hts := hsm.1
        constructor
        · apply hrep hg.rep hg.parent
          intro hK m hmlt
          have hN := hN hK
          rw [hg.tags hK c m hil hcn (by omega)]
          exact hti hK m hmlt
        · rw [htop, hg.frame par hpl hpq hpar.1, hp, ← hs, setChild_self]
        · intro j hj hjt hjp
          simp only [PT.idxs, List.mem_cons, List.mem_append, not_or] at hjt
          refine hg.frame j hj ?_ hjt.1
          intro h
          rcases hsub _ h with h | h
          · exact hjt.2.1 h
          · exact hjt.2.2 h
        · intro hK j m hj hjt hmlt
          simp only [PT.idxs, List.mem_cons, List.mem_append, not_or] at hjt
          refine hg.tags hK j m hj ?_ hmlt
          intro h
          rcases hsub _ h with h | h
          · exact hjt.2.1 h
          · exact hjt.2.2 h
        · exact hg.lo
        · exact hg.hi
        · exact hg.cap
        · rw [htop]; exact hc
      have hnd' := hnd
      simp only [PT.idxs, List.nodup_cons, List.mem_append, not_or, List.nodup_append] at hnd'
      obtain ⟨⟨hni, hnj⟩, hnl, hnr, hdis⟩ := hnd'
      have hpar' := hpar
      simp only [PT.idxs, List.mem_cons, List.mem_append, not_or] at hpar'
      cases hb : o.leftBit (o.shl a mc) with
      | true =>
        rw [hb] at hins
        simp only [if_true] at hins
        obtain ⟨r', hr', hins⟩ := Go.bind_eq_ok.mp hins
        simp only [Go.pure_def, Go.ok.injEq] at hins
        obtain ⟨T', hT', hg⟩ := key true r r' cr rfl hrr hsm.2.2 hnr hnj hpar'.2.2
          (fun j hj => by simp [PT.idxs, hj])
          (by
            intro _ h0 he
            have h1 := hrr.top_mem h0
            have h2 := hl.top_mem (he ▸ h0)
            exact hdis _ h2 _ h1 he)
          ihr hr'
        refine ⟨T', hT', lift true r r' T' (fun j hj => Or.inr hj) hnj ?_ (by rw [← hins]; rfl) hg⟩
        intro h1 h2 h3
        rw [← hins]
        refine ⟨rfl, hc, cl, r'.top, h2, h3, ?_, h1⟩
        refine hl.frame hsm.2.1 ?_ ?_
        · intro j hj
          exact hg.frame j (hl.lt j hj) (fun h => hdis _ hj _ h rfl) (fun h => hni (h ▸ hj))
        · intro hK j hj m hmlt
          have hN := hN hK
          exact hg.tags hK j m (hl.lt j hj) (fun h => hdis _ hj _ h rfl) (by omega)
      | false =>
        rw [hb] at hins
        simp only [Bool.false_eq_true, if_false] at hins
        obtain ⟨l', hl', hins⟩ := Go.bind_eq_ok.mp hins
        simp only [Go.pure_def, Go.ok.injEq] at hins
        obtain ⟨T', hT', hg⟩ := key false l l' cl rfl hl hsm.2.1 hnl hni hpar'.2.1
          (fun j hj => by simp [PT.idxs, hj])
          (by intro h; cases h)
          ihl hl'
        refine ⟨T', hT', lift false l l' T' (fun j hj => Or.inl hj) hni ?_ (by rw [← hins]; rfl) hg⟩
        intro h1 h2 h3
        rw [← hins]
        refine ⟨rfl, hc, l'.top, cr, h2, h3, h1, ?_⟩
        refine hrr.frame hsm.2.2 ?_ ?_
        · intro j hj
          exact hg.frame j (hrr.lt j hj) (fun h => hdis _ h _ hj rfl) (fun h => hnj (h ▸ hj))
        · intro hK j hj m hmlt
          have hN := hN hK
          exact hg.tags hK j m (hrr.lt j hj) (fun h => hdis _ h _ hj rfl) (by omega)
    · rw [if_neg hmk] at hins ⊢
      cases hins
      exact split_grown a n x mc hp (by omega) hlen (fun hK => by have := hN hK; omega) hr0 hsm hnd hpar hs hs2

end Verif.Patricia
