import Verif.Model.RsyncOut
import Verif.Spec.RsyncOut
import Verif.Lemmas.CachePath
import Mathlib.Data.List.Perm.Basic
import Mathlib.Data.List.Nodup
import Mathlib.Tactic.ByContra
/-
  The tree of URLs and its reduction.
-/
set_option autoImplicit false

namespace Verif.RsyncOut
open Path RsyncSpec
open Tal (hasPrefix rsyncScheme)

/-! ### The tree -/

/-- The parts of a URL. -/
def parts (u : Bytes) : List Bytes := splitSlash (u.drop 8)

/-- URLs that are added. -/
def Taken (u : Bytes) : Prop := u.length > 8 ∧ rsyncScheme <+: u

theorem entries_mem {t : Tree} {p : List Bytes} {s : Bytes} {n : Nat} : (s, n) ∈ entries t p ↔ (p ++ [s], n) ∈ t := by
  unfold entries
  rw [List.mem_filterMap]
  constructor
  · rintro ⟨e, he, h⟩
    split at h
    · rename_i x hx
      split at h
      · rename_i hd
        simp at h
        have := List.dropLast_append_getLast? x hx
        rw [hd, h.1] at this
        rw [this, ← h.2]; exact he
      · simp at h
    · simp at h
  · intro h
    exact ⟨_, h, by simp⟩

theorem has_iff {t : Tree} {p : List Bytes} : has t p = true ↔ ∃ n, (p, n) ∈ t := by
  unfold has
  rw [List.any_eq_true]
  constructor
  · rintro ⟨⟨q, n⟩, he, h⟩
    simp at h
    exact ⟨n, h ▸ he⟩
  · rintro ⟨n, h⟩
    exact ⟨_, h, by simp⟩

/-- The tree of a list of URLs, as parts. -/
structure Inv (t : Tree) (L : List (List Bytes)) : Prop where
  keys : (t.map (·.1)).Nodup
  mem : ∀ p, (∃ n, (p, n) ∈ t) ↔ p ≠ [] ∧ ∃ q ∈ L, p <+: q
  /-- An entry is counted iff the first of the URLs below it is itself. -/
  count : ∀ p n, (p, n) ∈ t → (n = 0 ∧ (∃ q ∈ L, p <+: q ∧ q ≠ p) ∨ n = 1 ∧ p ∈ L)
  first : ∀ p n, (p, n) ∈ t → ∀ pre post, L = pre ++ p :: post → (∀ q ∈ pre, ¬ p <+: q) → n = 1

theorem has_step {t : Tree} {L : List (List Bytes)} (h : Inv t L) (p : List Bytes) (hp : p ≠ []) :
    has t p = true ↔ ∃ q ∈ L, p <+: q := by
  rw [has_iff, h.mem]; simp [hp]

theorem addFrom_mem : ∀ (r : List Bytes) (t : Tree) (done : List Bytes) (p : List Bytes) (n : Nat),
    (p, n) ∈ addFrom t done r ↔ (p, n) ∈ t ∨ (has t p = false ∧ ∃ x, x ≠ [] ∧ x <+: r ∧ p = done ++ x ∧ n = if x = r then 1 else 0)
  | [], t, done, p, n => by
    simp only [addFrom]
    constructor
    · exact Or.inl
    · rintro (h | ⟨_, x, hx, h, _⟩)
      · exact h
      · exact (hx (List.prefix_nil.mp h)).elim
  | s :: r, t, done, p, n => by
    simp only [addFrom]
    rw [addFrom_mem r]
    have hlen : ∀ x : List Bytes, x ≠ [] → ¬ done ++ [s] ++ x = done ++ [s] := by
      intro x hx h
      have := congrArg List.length h
      simp at this
      exact hx this
    by_cases hh : has t (done ++ [s]) = true
    · rw [if_pos hh]
      constructor
      · rintro (h | ⟨h1, x, hx, hxr, hp, hn⟩)
        · exact .inl h
        · exact .inr ⟨h1, s :: x, by simp, by simpa using hxr, by simpa using hp, by simpa using hn⟩
      · rintro (h | ⟨h1, x, hx, hxr, hp, hn⟩)
        · exact .inl h
        · cases x with
          | nil => exact (hx rfl).elim
          | cons a x =>
            obtain ⟨rfl, hxr2⟩ := List.cons_prefix_cons.mp hxr
            by_cases hx0 : x = []
            · subst hx0
              rw [← hp, h1] at hh; simp at hh
            · exact .inr ⟨h1, x, hx0, hxr2, by simpa using hp, by simpa using hn⟩
    · rw [if_neg hh]
      have hh' : has t (done ++ [s]) = false := by simpa using hh
      have hhas : ∀ q, q ≠ done ++ [s] → has (t ++ [(done ++ [s], if r = [] then 1 else 0)]) q = has t q := by
        intro q hq
        simp [has, Ne.symm hq]
      constructor
      · rintro (h | ⟨h1, x, hx, hxr, hp, hn⟩)
        · simp only [List.mem_append, List.mem_singleton, Prod.mk.injEq] at h
          rcases h with h | ⟨rfl, rfl⟩
          · exact .inl h
          · exact .inr ⟨hh', [s], by simp, by simp, by simp, by simp [eq_comm]⟩
        · refine .inr ⟨?_, s :: x, by simp, by simpa using hxr, by simpa using hp, by simpa using hn⟩
          rw [hhas p (by rw [hp]; exact hlen x hx)] at h1
          exact h1
      · rintro (h | ⟨h1, x, hx, hxr, hp, hn⟩)
        · exact .inl (by simp [h])
        · cases x with
          | nil => exact (hx rfl).elim
          | cons a x =>
            obtain ⟨rfl, hxr2⟩ := List.cons_prefix_cons.mp hxr
            by_cases hx0 : x = []
            · subst hx0
              left
              simp [hp, hn, eq_comm]
            · have hp' : p = done ++ [a] ++ x := by simpa using hp
              refine .inr ⟨?_, x, hx0, hxr2, hp', by simpa using hn⟩
              rw [hhas p (by rw [hp']; exact hlen x hx0)]
              exact h1

theorem addFrom_keys : ∀ (r : List Bytes) (t : Tree) (done : List Bytes), (t.map (·.1)).Nodup →
    ((addFrom t done r).map (·.1)).Nodup
  | [], _, _, h => h
  | s :: r, t, done, h => by
    simp only [addFrom]
    apply addFrom_keys r
    by_cases hh : has t (done ++ [s]) = true
    · rw [if_pos hh]; exact h
    · rw [if_neg hh, List.map_append, List.nodup_append]
      refine ⟨h, by simp, ?_⟩
      intro a ha b hb
      simp at hb
      subst hb
      rintro rfl
      apply hh
      rw [has_iff]
      simpa using ha

theorem inv_add {t : Tree} {L : List (List Bytes)} (h : Inv t L) (r : List Bytes) (hr : r ≠ []) :
    Inv (addFrom t [] r) (L ++ [r]) := by
  have hm : ∀ p n, (p, n) ∈ addFrom t [] r ↔ (p, n) ∈ t ∨ (has t p = false ∧ p ≠ [] ∧ p <+: r ∧ n = if p = r then 1 else 0) := by
    intro p n
    rw [addFrom_mem]
    constructor
    · rintro (h | ⟨h1, x, hx, hxr, hp, hn⟩)
      · exact .inl h
      · simp at hp; subst hp; exact .inr ⟨h1, hx, hxr, hn⟩
    · rintro (h | ⟨h1, hx, hxr, hn⟩)
      · exact .inl h
      · exact .inr ⟨h1, p, hx, hxr, by simp, hn⟩
  refine ⟨addFrom_keys r t [] h.keys, ?_, ?_, ?_⟩
  · intro p
    constructor
    · rintro ⟨n, hn⟩
      rcases (hm p n).mp hn with h1 | ⟨_, h2, h3, _⟩
      · obtain ⟨h2, q, hq, h3⟩ := (h.mem p).mp ⟨n, h1⟩
        exact ⟨h2, q, by simp [hq], h3⟩
      · exact ⟨h2, r, by simp, h3⟩
    · rintro ⟨hp, q, hq, hpq⟩
      by_cases hh : has t p = true
      · obtain ⟨n, hn⟩ := has_iff.mp hh
        exact ⟨n, (hm p n).mpr (.inl hn)⟩
      · simp only [List.mem_append, List.mem_singleton] at hq
        rcases hq with hq | rfl
        · exact (hh ((has_step h p hp).mpr ⟨q, hq, hpq⟩)).elim
        · exact ⟨_, (hm p _).mpr (.inr ⟨by simpa using hh, hp, hpq, rfl⟩)⟩
  · intro p n hn
    rcases (hm p n).mp hn with h1 | ⟨_, h2, h3, h4⟩
    · rcases h.count p n h1 with ⟨h5, q, hq, h6⟩ | ⟨h5, h6⟩
      · exact .inl ⟨h5, q, by simp [hq], h6⟩
      · exact .inr ⟨h5, by simp [h6]⟩
    · by_cases he : p = r
      · rw [if_pos he] at h4
        exact .inr ⟨h4, by simp [he]⟩
      · rw [if_neg he] at h4
        exact .inl ⟨h4, r, by simp, h3, Ne.symm he⟩
  · intro p n hn pre post hL hpre
    rcases (hm p n).mp hn with h1 | ⟨h0, h2, h3, h4⟩
    · obtain ⟨hp, q, hq, hpq⟩ := (h.mem p).mp ⟨n, h1⟩
      rcases List.eq_nil_or_concat post with rfl | ⟨post', z, rfl⟩
      · obtain ⟨rfl, _⟩ := List.append_inj' hL rfl
        exact (hpre q hq hpq).elim
      · have : L ++ [r] = (pre ++ p :: post') ++ [z] := by simpa using hL
        obtain ⟨rfl, _⟩ := List.append_inj' this rfl
        exact h.first p n h1 pre post' rfl hpre
    · by_cases he : p = r
      · rw [if_pos he] at h4; exact h4
      · exfalso
        rcases List.eq_nil_or_concat post with rfl | ⟨post', z, rfl⟩
        · obtain ⟨_, h5⟩ := List.append_inj' hL rfl
          simp at h5; exact he h5.symm
        · have : L ++ [r] = (pre ++ p :: post') ++ [z] := by simpa using hL
          obtain ⟨rfl, _⟩ := List.append_inj' this rfl
          have := (has_step h p h2).mpr ⟨p, by simp, List.prefix_refl _⟩
          rw [h0] at this; simp at this

theorem inv_nil : Inv [] [] := ⟨by simp, by simp, by simp, by simp⟩

instance (u : Bytes) : Decidable (Taken u) := inferInstanceAs (Decidable (_ ∧ _))

theorem addInMap_eq (t : Tree) (u : Bytes) : addInMap t u = if Taken u then addFrom t [] (parts u) else t := by
  by_cases h : Taken u
  · rw [if_pos h, addInMap, if_pos ⟨h.1, (hasPrefix_iff _ _).mpr h.2⟩]; rfl
  · rw [if_neg h, addInMap, if_neg (fun h' => h ⟨h'.1, (hasPrefix_iff _ _).mp h'.2⟩)]

theorem inv_fold : ∀ (items : List Bytes) {t : Tree} {L : List (List Bytes)}, Inv t L →
    Inv (items.foldl addInMap t) (L ++ (items.filter (fun u => decide (Taken u))).map parts)
  | [], t, L, h => by simpa using h
  | u :: items, t, L, h => by
    rw [List.foldl_cons, addInMap_eq]
    by_cases hu : Taken u
    · rw [if_pos hu]
      have := inv_fold items (inv_add h (parts u) (splitSlash_ne _))
      simpa [hu] using this
    · rw [if_neg hu]
      simpa [hu] using inv_fold items h

/-! ### The reduction -/

/-- Neither lies below the other. -/
def Apart (a b : List Bytes) : Prop := ¬ a <+: b ∧ ¬ b <+: a

theorem Apart.symm {a b : List Bytes} (h : Apart a b) : Apart b a := ⟨h.2, h.1⟩

/-- The text of a list of parts. -/
def text (p : List Bytes) : Bytes := asc "rsync:/".toList ++ p.flatMap (47 :: ·)

theorem text_snoc (p : List Bytes) (s : Bytes) : text p ++ 47 :: s = text (p ++ [s]) := by simp [text]

/-- The entry is taken apart further. -/
def Desc (t : Tree) (p : List Bytes) : Prop := p.length = 1 ∨ ((entries t p).length = 1 ∧ (p, 0) ∈ t)

/-- The entry is a result. -/
def Stop (t : Tree) (p : List Bytes) : Prop :=
  (∃ n, (p, n) ∈ t) ∧ ¬ Desc t p ∧ ∀ q, q ≠ [] → q <+: p → q ≠ p → Desc t q

theorem key_unique {t : Tree} (h : (t.map (·.1)).Nodup) {p : List Bytes} {n m : Nat} (h1 : (p, n) ∈ t) (h2 : (p, m) ∈ t) : n = m := by
  have := List.inj_on_of_nodup_map h h1 h2 rfl
  simpa using this

theorem descends_iff {t : Tree} (h : (t.map (·.1)).Nodup) {p : List Bytes} {s : Bytes} {n : Nat} (he : (p ++ [s], n) ∈ t) :
    descends t p p.length (s, n) = true ↔ Desc t (p ++ [s]) := by
  unfold descends Desc
  simp only [Bool.or_eq_true, Bool.and_eq_true, decide_eq_true_eq, List.length_append, List.length_singleton]
  constructor
  · rintro (⟨h1, rfl⟩ | h1)
    · exact .inr ⟨h1, he⟩
    · exact .inl (by omega)
  · rintro (h1 | ⟨h1, h2⟩)
    · exact .inr (by omega)
    · exact .inl ⟨h1, key_unique h he h2⟩

/-- Entries below `p`. -/
def below (t : Tree) (p : List Bytes) : Nat := t.countP fun e => decide (p <+: e.1 ∧ e.1 ≠ p)

theorem below_le {t : Tree} {k : List Bytes} {n : Nat} (h : (k, n) ∈ t) :
    1 + below t k ≤ t.countP fun e => decide (k <+: e.1) := by
  unfold below
  induction t with
  | nil => simp at h
  | cons e t ih =>
    have hmono : t.countP (fun e => decide (k <+: e.1 ∧ e.1 ≠ k)) ≤ t.countP (fun e => decide (k <+: e.1)) := by
      apply List.countP_mono_left
      intro x _ hx
      simp at hx ⊢; exact hx.1
    rw [List.countP_cons, List.countP_cons]
    simp only [List.mem_cons] at h
    rcases h with rfl | h
    · simp; simp at hmono; omega
    · have := ih h
      by_cases h1 : k <+: e.1
      · by_cases h2 : e.1 = k
        · simp [h2]; simp at this; omega
        · simp [h1, h2]; simp at this; omega
      · simp [h1]; simp at this; omega

theorem kids_count {p e : List Bytes} : ∀ (kids : List (List Bytes)), kids.Nodup → (∀ k ∈ kids, ∃ s, k = p ++ [s]) →
    kids.countP (fun k => decide (k <+: e)) ≤ if p <+: e ∧ e ≠ p then 1 else 0 := by
  intro kids hn hk
  have hall : ∀ k ∈ kids, k <+: e → k = e.take (p.length + 1) ∧ p <+: e ∧ e ≠ p := by
    intro k hk' he
    obtain ⟨s, rfl⟩ := hk k hk'
    have := List.prefix_iff_eq_take.mp he
    refine ⟨by simpa using this, (List.prefix_append p [s]).trans he, ?_⟩
    rintro rfl
    have := he.length_le
    simp at this
    omega
  by_cases h : p <+: e ∧ e ≠ p
  · rw [if_pos h]
    have : kids.countP (fun k => decide (k <+: e)) ≤ kids.count (e.take (p.length + 1)) := by
      rw [List.count]
      apply List.countP_mono_left
      intro x hx hxe
      simp at hxe ⊢
      exact (hall x hx hxe).1
    exact Nat.le_trans this (List.nodup_iff_count_le_one.mp hn _)
  · rw [if_neg h]
    apply Nat.le_of_eq
    rw [List.countP_eq_zero]
    intro k hk' he
    simp at he
    exact h (hall k hk' he).2

theorem kids_sum {p : List Bytes} {kids : List (List Bytes)} (hn : kids.Nodup) (hk : ∀ k ∈ kids, ∃ s, k = p ++ [s]) (t : Tree) :
    (kids.map (fun k => t.countP fun e => decide (k <+: e.1))).sum ≤ below t p := by
  unfold below
  induction t with
  | nil => simp
  | cons e t ih =>
    have hs : ∀ ks : List (List Bytes), (ks.map (fun k => (e :: t).countP fun e => decide (k <+: e.1))).sum =
        (ks.map (fun k => t.countP fun e => decide (k <+: e.1))).sum + ks.countP (fun k => decide (k <+: e.1)) := by
      intro ks
      induction ks with
      | nil => rfl
      | cons k ks ih =>
        rw [List.map_cons, List.sum_cons, ih, List.map_cons, List.sum_cons, List.countP_cons, List.countP_cons]
        omega
    rw [hs, List.countP_cons]
    have := kids_count (e := e.1) kids hn hk
    simp only [decide_eq_true_eq]
    omega

theorem kids_fuel {t : Tree} {p : List Bytes} {kids : List (List Bytes)} (hn : kids.Nodup) (hk : ∀ k ∈ kids, ∃ s, k = p ++ [s])
    (ht : ∀ k ∈ kids, ∃ n, (k, n) ∈ t) : (kids.map (fun k => 1 + below t k)).sum ≤ below t p := by
  refine Nat.le_trans ?_ (kids_sum hn hk t)
  clear hn hk
  induction kids with
  | nil => simp
  | cons k ks ih =>
    simp only [List.map_cons, List.sum_cons]
    obtain ⟨n, h⟩ := ht k (by simp)
    have := below_le h
    have := ih (fun k hk => ht k (by simp [hk]))
    omega

theorem sum_filter_le (f : List Bytes → Nat) (c : List Bytes → Bool) : ∀ l : List (List Bytes), ((l.filter c).map f).sum ≤ (l.map f).sum
  | [] => by simp
  | a :: l => by
    have := sum_filter_le f c l
    by_cases h : c a <;> simp [h] <;> omega

theorem apart_kid {p x : List Bytes} {s : Bytes} (h : Apart p x) : Apart (p ++ [s]) x := by
  refine ⟨fun h' => h.1 ((List.prefix_append p [s]).trans h'), fun h' => ?_⟩
  rcases List.prefix_concat_iff.mp h' with rfl | h''
  · exact h.1 (List.prefix_append p [s])
  · exact h.2 h''

theorem apart_kids {p : List Bytes} {s s' : Bytes} (h : s ≠ s') : Apart (p ++ [s]) (p ++ [s']) := by
  constructor <;> intro h' <;> have := h'.eq_of_length (by simp) <;> simp at this
  · exact h this
  · exact h this.symm

/-- The queue as it is made from the paths. -/
def queueOf (qs : List (List Bytes)) : List (List Bytes × Bytes × Nat) := qs.map fun p => (p, text p, p.length)

theorem reduce_loop {t : Tree} (hk : (t.map (·.1)).Nodup)
    (hc : ∀ p n, (p, n) ∈ t → ∀ r, r ≠ [] → r <+: p → ∃ n, (r, n) ∈ t) (ord : Nat → List (Bytes × Nat) → List (Bytes × Nat))
    (ho : ∀ n l, (ord n l).Perm l) : ∀ (fuel : Nat) (qs F : List (List Bytes)),
    (qs.map (fun p => 1 + below t p)).sum ≤ fuel → (F ++ qs).Pairwise Apart → (∀ p ∈ F, Stop t p) →
    (∀ q ∈ qs, ∀ r, r ≠ [] → r <+: q → Desc t r) → (∀ p, Stop t p → p ∈ F ∨ ∃ q ∈ qs, q <+: p ∧ q ≠ p) →
    ∃ R : List (List Bytes), reduceLoop t ord fuel (queueOf qs) (F.map text) = .ok (R.map text) ∧ R.Pairwise Apart ∧ ∀ p, p ∈ R ↔ Stop t p
  | fuel, [], F, _, h1, h2, _, h4 => by
    refine ⟨F, ?_, by simpa using h1, fun p => ⟨h2 p, fun h => ?_⟩⟩
    · cases fuel <;> rfl
    · rcases h4 p h with h | ⟨q, hq, _⟩
      · exact h
      · simp at hq
  | 0, q :: qs, F, h0, _, _, _, _ => by simp at h0
  | fuel + 1, p :: qs, F, h0, h1, h2, h3, h4 => by
    -- the children
    let es := ord fuel (entries t p)
    have hes : es.Perm (entries t p) := ho _ _
    have hmem : ∀ s n, (s, n) ∈ es ↔ (p ++ [s], n) ∈ t := fun s n => (hes.mem_iff).trans entries_mem
    let go := es.filter (descends t p p.length)
    let st := es.filter (fun e => !descends t p p.length e)
    let kid : Bytes × Nat → List Bytes := fun e => p ++ [e.1]
    have hnd : ∀ l : List (Bytes × Nat), l.Sublist es → (l.map kid).Nodup := by
      intro l hl
      have hent : (((entries t p)).map kid).Nodup := by
        have hsub : ((entries t p).map kid).Sublist (t.map (·.1)) := by
          unfold entries
          clear * -
          induction t with
          | nil => simp
          | cons e t ih =>
            rw [List.filterMap_cons]
            split
            · exact List.Sublist.cons _ ih
            · rename_i b hb
              split at hb
              · rename_i x hx
                split at hb
                · rename_i hd
                  simp at hb
                  subst hb
                  have := List.dropLast_append_getLast? x hx
                  rw [hd] at this
                  simp only [List.map_cons, kid, this]
                  exact List.Sublist.cons_cons _ ih
                · simp at hb
              · simp at hb
        exact hsub.nodup hk
      exact ((hl.map kid).nodup ((hes.map kid).nodup_iff.mpr hent))
    have hgo : ∀ e ∈ go, (kid e, e.2) ∈ t ∧ Desc t (kid e) := by
      rintro ⟨s, n⟩ he
      have := List.mem_filter.mp he
      have hm := (hmem s n).mp this.1
      exact ⟨hm, (descends_iff hk hm).mp this.2⟩
    have hst : ∀ e ∈ st, (kid e, e.2) ∈ t ∧ ¬ Desc t (kid e) := by
      rintro ⟨s, n⟩ he
      have := List.mem_filter.mp he
      have hm := (hmem s n).mp this.1
      refine ⟨hm, fun hd => ?_⟩
      have h5 := (descends_iff hk hm).mpr hd
      have h6 := this.2
      rw [h5] at h6; simp at h6
    have hkids : ∀ s n, (p ++ [s], n) ∈ t → (s, n) ∈ go ∨ (s, n) ∈ st := by
      intro s n h
      have := (hmem s n).mpr h
      by_cases hd : descends t p p.length (s, n) = true
      · exact .inl (List.mem_filter.mpr ⟨this, hd⟩)
      · exact .inr (List.mem_filter.mpr ⟨this, by simpa using hd⟩)
    have step : reduceLoop t ord (fuel + 1) (queueOf (p :: qs)) (F.map text) =
        reduceLoop t ord fuel (queueOf (qs ++ go.map kid)) ((F ++ st.map kid).map text) := by
      simp only [queueOf, List.map_cons, reduceLoop]
      congr 1
      · simp only [List.map_append, List.map_map]
        congr 1
        apply List.map_congr_left
        intro e _
        simp [kid, text_snoc]
      · simp only [List.map_append, List.map_map]
        congr 1
        apply List.map_congr_left
        intro e _
        simp [kid, text_snoc]
    rw [step]
    have hpF : ∀ x ∈ F ++ qs, Apart p x := by
      intro x hx
      rw [List.pairwise_append] at h1
      rcases List.mem_append.mp hx with hx | hx
      · exact (h1.2.2 x hx p (by simp)).symm
      · exact (List.pairwise_cons.mp h1.2.1).1 x hx
    refine reduce_loop hk hc ord ho fuel _ _ ?_ ?_ ?_ ?_ ?_
    · have hf := kids_fuel (t := t) (p := p) (hnd go List.filter_sublist) (by
        intro k hk'
        obtain ⟨e, _, rfl⟩ := List.mem_map.mp hk'
        exact ⟨_, rfl⟩) (by
        intro k hk'
        obtain ⟨e, he, rfl⟩ := List.mem_map.mp hk'
        exact ⟨_, (hgo e he).1⟩)
      simp only [List.map_cons, List.sum_cons, List.map_append, List.sum_append] at h0 ⊢
      omega
    · -- all apart
      have hperm : ((F ++ qs) ++ (st ++ go).map kid).Perm (F ++ st.map kid ++ (qs ++ go.map kid)) := by
        simp only [List.map_append, List.append_assoc]
        apply List.Perm.append_left
        rw [← List.append_assoc, ← List.append_assoc]
        exact List.Perm.append_right _ List.perm_append_comm
      refine (hperm.pairwise_iff (fun h => Apart.symm h)).mp ?_
      rw [List.pairwise_append]
      refine ⟨?_, ?_, ?_⟩
      · exact h1.sublist (List.Sublist.append_left (List.sublist_cons_self _ _) _)
      · have hn : ((st ++ go).map kid).Nodup := by
          have hp : (st ++ go).Perm es := by
            have := List.filter_append_perm (fun e => !descends t p p.length e) es
            simpa [st, go] using this
          exact (hp.map kid).nodup_iff.mpr (hnd es (List.Sublist.refl _))
        have hform : ∀ k ∈ (st ++ go).map kid, ∃ s, k = p ++ [s] := by
          intro k hk'
          obtain ⟨e, _, rfl⟩ := List.mem_map.mp hk'
          exact ⟨_, rfl⟩
        refine List.Pairwise.imp_of_mem ?_ hn
        intro a b ha hb hab
        obtain ⟨s, rfl⟩ := hform a ha
        obtain ⟨s', rfl⟩ := hform b hb
        exact apart_kids (fun h => hab (by rw [h]))
      · intro x hx k hk'
        obtain ⟨e, _, rfl⟩ := List.mem_map.mp hk'
        exact (apart_kid (hpF x hx)).symm
    · intro x hx
      rcases List.mem_append.mp hx with hx | hx
      · exact h2 x hx
      · obtain ⟨e, he, rfl⟩ := List.mem_map.mp hx
        refine ⟨⟨_, (hst e he).1⟩, (hst e he).2, ?_⟩
        intro r hr hrp hne
        rcases List.prefix_concat_iff.mp hrp with h | h
        · exact (hne h).elim
        · exact h3 p (by simp) r hr h
    · intro x hx r hr hrx
      rcases List.mem_append.mp hx with hx | hx
      · exact h3 x (by simp [hx]) r hr hrx
      · obtain ⟨e, he, rfl⟩ := List.mem_map.mp hx
        rcases List.prefix_concat_iff.mp hrx with h | h
        · rw [h]; exact (hgo e he).2
        · exact h3 p (by simp) r hr h
    · intro x hx
      rcases h4 x hx with h | ⟨q, hq, hqx, hne⟩
      · exact .inl (by simp [h])
      · simp only [List.mem_cons] at hq
        rcases hq with rfl | hq
        · -- a child of p on the way to x
          obtain ⟨y, rfl⟩ := hqx
          cases y with
          | nil => simp at hne
          | cons s y =>
            have hkx : q ++ [s] <+: q ++ s :: y := ⟨y, by simp⟩
            obtain ⟨n, hn⟩ := hc _ _ hx.1.choose_spec (q ++ [s]) (by simp) hkx
            rcases hkids s n hn with h | h
            · right
              refine ⟨q ++ [s], ?_, hkx, ?_⟩
              · exact List.mem_append.mpr (.inr (List.mem_map.mpr ⟨_, h, rfl⟩))
              · intro e
                exact hx.2.1 (e ▸ (hgo _ h).2)
            · left
              have : q ++ [s] = q ++ s :: y := by
                by_contra hne'
                exact (hst _ h).2 (hx.2.2 (q ++ [s]) (by simp) hkx hne')
              rw [← this]
              exact List.mem_append.mpr (.inr (List.mem_map.mpr ⟨_, h, rfl⟩))
        · exact .inr ⟨q, by simp [hq], hqx, hne⟩

theorem inv_closed {t : Tree} {L : List (List Bytes)} (h : Inv t L) (p : List Bytes) (n : Nat) (hp : (p, n) ∈ t) (r : List Bytes)
    (hr : r ≠ []) (hrp : r <+: p) : ∃ n, (r, n) ∈ t := by
  obtain ⟨_, q, hq, hpq⟩ := (h.mem p).mp ⟨n, hp⟩
  exact (h.mem r).mpr ⟨hr, q, hq, hrp.trans hpq⟩

theorem reduce_ok {t : Tree} {L : List (List Bytes)} (h : Inv t L) (ord : Nat → List (Bytes × Nat) → List (Bytes × Nat))
    (ho : ∀ n l, (ord n l).Perm l) :
    ∃ R : List (List Bytes), reduceMap t ord = .ok (R.map text) ∧ R.Pairwise Apart ∧ ∀ p, p ∈ R ↔ Stop t p := by
  refine reduce_loop h.keys (inv_closed h) ord ho (t.length + 1) [[]] [] ?_ (by simp) (by simp) ?_ ?_
  · have : below t [] ≤ t.length := List.countP_le_length
    simp; omega
  · intro q hq r hr hrq
    simp at hq
    subst hq
    exact (hr (List.prefix_nil.mp hrq)).elim
  · intro p hp
    right
    obtain ⟨hne, _⟩ := (h.mem p).mp hp.1
    exact ⟨[], by simp, List.nil_prefix, Ne.symm hne⟩

/-! ### Texts and parts -/

/-- Parts contain no slash. -/
def Plain (p : List Bytes) : Prop := p ≠ [] ∧ ∀ c ∈ p, (47 : UInt8) ∉ c

theorem flat_join : ∀ (p : List Bytes), p ≠ [] → p.flatMap (47 :: ·) = 47 :: joinSlash p
  | [], h => (h rfl).elim
  | [a], _ => by simp [joinSlash, Tal.join]
  | a :: b :: r, _ => by
    have := flat_join (b :: r) (by simp)
    rw [List.flatMap_cons, this]
    simp [joinSlash, Tal.join]

theorem text_eq {p : List Bytes} (h : p ≠ []) : text p = rsyncScheme ++ joinSlash p := by
  rw [text, flat_join p h]; rfl

theorem parts_text {p : List Bytes} (h : Plain p) : parts (text p) = p := by
  rw [parts, text_eq h.1, show rsyncScheme ++ joinSlash p = rsyncScheme ++ joinSlash p from rfl]
  rw [show List.drop 8 (rsyncScheme ++ joinSlash p) = joinSlash p from rfl]
  exact Cache.split_join p h.1 h.2

theorem text_parts {u : Bytes} (h : rsyncScheme <+: u) : text (parts u) = u := by
  obtain ⟨x, rfl⟩ := h
  rw [parts, text_eq (splitSlash_ne _), show List.drop 8 (rsyncScheme ++ x) = x from rfl, join_split]

theorem parts_plain (u : Bytes) : Plain (parts u) := ⟨splitSlash_ne _, split_no_slash _⟩

theorem text_inj {p q : List Bytes} (hp : Plain p) (hq : Plain q) (h : text p = text q) : p = q := by
  rw [← parts_text hp, h, parts_text hq]

theorem under_text {p q : List Bytes} (hp : Plain p) (hq : Plain q) : Under (text p) (text q) ↔ p <+: q := by
  constructor
  · rintro (h | ⟨rest, h⟩)
    · rw [text_inj hq hp h]; exact List.prefix_refl _
    · have h2 : parts (text q) = p ++ splitSlash rest := by
        rw [h, parts, text_eq hp.1]
        rw [show List.drop 8 (rsyncScheme ++ joinSlash p ++ 47 :: rest) = joinSlash p ++ 47 :: rest from rfl]
        rw [splitSlash_append, Cache.split_join p hp.1 hp.2]
      rw [parts_text hq] at h2
      exact ⟨_, h2.symm⟩
  · rintro ⟨y, rfl⟩
    cases y with
    | nil => left; simp
    | cons s y => right; exact ⟨s ++ y.flatMap (47 :: ·), by simp [text]⟩

theorem under_of_text {p : List Bytes} (hp : Plain p) {d : Bytes} (h : Under (text p) d) : ∃ q, Plain q ∧ d = text q ∧ p <+: q := by
  rcases h with rfl | ⟨rest, rfl⟩
  · exact ⟨p, hp, rfl, List.prefix_refl _⟩
  · have hs : rsyncScheme <+: text p ++ 47 :: rest := by
      rw [text_eq hp.1, List.append_assoc]; exact List.prefix_append _ _
    refine ⟨parts (text p ++ 47 :: rest), parts_plain _, (text_parts hs).symm, ?_⟩
    exact (under_text hp (parts_plain _)).mp (.inr ⟨rest, text_parts hs⟩)

theorem named_iff {u : Bytes} : Named u ↔ rsyncScheme <+: u ∧ 2 ≤ (parts u).length := by
  constructor
  · rintro ⟨host, rest, hh, rfl⟩
    refine ⟨by rw [List.append_assoc]; exact List.prefix_append _ _, ?_⟩
    rw [parts, show List.drop 8 (rsyncScheme ++ host ++ 47 :: rest) = host ++ 47 :: rest from rfl, splitSlash_append,
      splitSlash_plain host hh]
    have := splitSlash_ne rest
    cases h : splitSlash rest with
    | nil => exact (this h).elim
    | cons a b => simp
  · rintro ⟨hs, hl⟩
    cases hp : parts u with
    | nil => rw [hp] at hl; simp at hl
    | cons a r =>
      cases r with
      | nil => rw [hp] at hl; simp at hl
      | cons b r =>
        refine ⟨a, b ++ r.flatMap (47 :: ·), (parts_plain u).2 a (by rw [hp]; simp), ?_⟩
        rw [← text_parts hs, hp]
        simp [text, show rsyncScheme = asc "rsync:/".toList ++ [47] from rfl]

theorem named_taken {u : Bytes} (h : Named u) : Taken u := by
  obtain ⟨host, rest, _, rfl⟩ := h
  refine ⟨?_, by rw [List.append_assoc]; exact List.prefix_append _ _⟩
  have : rsyncScheme.length = 8 := rfl
  simp [this]; omega

/-! ### Results -/

theorem fork : ∀ (p q : List Bytes), Apart p q → ∃ c s s' y y', p = c ++ s :: y ∧ q = c ++ s' :: y' ∧ s ≠ s'
  | [], q, h => (h.1 List.nil_prefix).elim
  | _ :: _, [], h => (h.2 List.nil_prefix).elim
  | a :: p, b :: q, h => by
    by_cases hab : a = b
    · subst hab
      obtain ⟨c, s, s', y, y', h1, h2, h3⟩ := fork p q
        ⟨fun h' => h.1 (List.cons_prefix_cons.mpr ⟨rfl, h'⟩), fun h' => h.2 (List.cons_prefix_cons.mpr ⟨rfl, h'⟩)⟩
      exact ⟨a :: c, s, s', y, y', by simp [h1], by simp [h2], h3⟩
    · exact ⟨[], a, b, p, q, rfl, rfl, hab⟩

theorem one_entry {t : Tree} {p : List Bytes} (h : (entries t p).length = 1) {s s' : Bytes} {n n' : Nat}
    (h1 : (p ++ [s], n) ∈ t) (h2 : (p ++ [s'], n') ∈ t) : s = s' := by
  obtain ⟨e, he⟩ := List.length_eq_one_iff.mp h
  have a := entries_mem.mpr h1
  have b := entries_mem.mpr h2
  rw [he] at a b
  simp at a b
  have := a.trans b.symm
  simp at this
  exact this.1

theorem common_prefix {x p q c : List Bytes} {s s' : Bytes} {y y' : List Bytes} (hp : p = c ++ s :: y) (hq : q = c ++ s' :: y')
    (hne : s ≠ s') (h1 : x <+: p) (h2 : x <+: q) : x <+: c := by
  by_cases hl : x.length ≤ c.length
  · exact List.prefix_of_prefix_length_le h1 (by rw [hp]; exact List.prefix_append _ _) hl
  · exfalso
    have a := List.prefix_of_prefix_length_le (l₁ := c ++ [s]) (l₂ := x) (l₃ := p) ⟨y, by simp [hp]⟩ h1 (by simp; omega)
    have b := List.prefix_of_prefix_length_le (l₁ := c ++ [s']) (l₂ := x) (l₃ := q) ⟨y', by simp [hq]⟩ h2 (by simp; omega)
    have := List.prefix_of_prefix_length_le a b (by simp)
    have := this.eq_of_length (by simp)
    simp at this
    exact hne this

/-- Two results that agree on host and module are the same. -/
theorem stop_unique {t : Tree} {L : List (List Bytes)} (h : Inv t L) {p q x : List Bytes} (hx : 2 ≤ x.length) (hp : Stop t p)
    (hq : Stop t q) (h1 : x <+: p) (h2 : x <+: q) : p = q := by
  by_contra hne
  have key : ∀ {a b : List Bytes}, Stop t a → Stop t b → a ≠ b → x <+: a → a <+: b → False := by
    intro a b ha hb hab hxa hpre
    have hane : a ≠ [] := by rintro rfl; rw [List.prefix_nil.mp hxa] at hx; simp at hx
    exact ha.2.1 (hb.2.2 a hane hpre hab)
  have hap : Apart p q := ⟨key hp hq hne h1, key hq hp (Ne.symm hne) h2⟩
  obtain ⟨c, s, s', y, y', e1, e2, hs⟩ := fork p q hap
  have hxc := common_prefix e1 e2 hs h1 h2
  have hcl : 2 ≤ c.length := Nat.le_trans hx hxc.length_le
  have hcp : c <+: p := by rw [e1]; exact List.prefix_append _ _
  have hc : Desc t c := hp.2.2 c (by rintro rfl; simp at hcl) hcp (by
    rintro rfl
    have := congrArg List.length e1
    simp at this)
  rcases hc with hc | ⟨hc, _⟩
  · omega
  · obtain ⟨n, hn⟩ := hp.1
    obtain ⟨n', hn'⟩ := hq.1
    obtain ⟨m, hm⟩ := inv_closed h p n hn (c ++ [s]) (by simp) ⟨y, by simp [e1]⟩
    obtain ⟨m', hm'⟩ := inv_closed h q n' hn' (c ++ [s']) (by simp) ⟨y', by simp [e2]⟩
    exact hs (one_entry hc hm hm')

/-- An entry that is counted lies at or below a result. -/
theorem stop_above {t : Tree} {L : List (List Bytes)} (h : Inv t L) {q : List Bytes} {n : Nat} (hq : (q, n) ∈ t) (hnd : ¬ Desc t q) :
    ∃ p, Stop t p ∧ p <+: q := by
  -- the shortest prefix that is not taken apart
  have key : ∀ (k : Nat) (r : List Bytes), r.length = k → r ≠ [] → r <+: q → ¬ Desc t r → ∃ p, Stop t p ∧ p <+: q := by
    intro k
    induction k using Nat.strongRecOn with
    | ind k ih =>
      intro r hk hr hrq hd
      by_cases hall : ∀ x, x ≠ [] → x <+: r → x ≠ r → Desc t x
      · obtain ⟨m, hm⟩ := inv_closed h q n hq r hr hrq
        exact ⟨r, ⟨⟨m, hm⟩, hd, hall⟩, hrq⟩
      · simp only [not_forall] at hall
        obtain ⟨x, hx, hxr, hne, hxd⟩ := hall
        have hlt : x.length < k := by
          rw [← hk]
          rcases Nat.lt_or_ge x.length r.length with hl | hl
          · exact hl
          · exact (hne (hxr.eq_of_length (Nat.le_antisymm hxr.length_le hl))).elim
        exact ih x.length hlt x rfl hx (hxr.trans hrq) hxd
  have hqne : q ≠ [] := ((h.mem q).mp ⟨n, hq⟩).1
  exact key q.length q rfl hqne (List.prefix_refl _) hnd

/-- Every entry below a host lies at, below or above a result. -/
theorem stop_near {t : Tree} {L : List (List Bytes)} (h : Inv t L) : ∀ (k : Nat) {q : List Bytes} {n : Nat}, below t q = k →
    (q, n) ∈ t → 2 ≤ q.length → ∃ p, Stop t p ∧ (p <+: q ∨ q <+: p) := by
  intro k
  induction k using Nat.strongRecOn with
  | ind k ih =>
    intro q n hk hq hl
    by_cases hd : Desc t q
    · rcases hd with hd | ⟨hd, _⟩
      · omega
      · obtain ⟨⟨s, m⟩, he⟩ := List.length_eq_one_iff.mp hd
        have hm : (q ++ [s], m) ∈ t := entries_mem.mp (by rw [he]; simp)
        have hf := kids_fuel (t := t) (p := q) (kids := [q ++ [s]]) (by simp) (by simp) (by simp; exact ⟨m, hm⟩)
        simp at hf
        obtain ⟨p, hp, hpq⟩ := ih (below t (q ++ [s])) (by omega) rfl hm (by simp; omega)
        refine ⟨p, hp, ?_⟩
        rcases hpq with h1 | h1
        · rcases List.prefix_concat_iff.mp h1 with rfl | h2
          · exact .inr (List.prefix_append _ _)
          · exact .inl h2
        · exact .inr ((List.prefix_append q [s]).trans h1)
    · obtain ⟨p, hp, hpq⟩ := stop_above h hq hd
      exact ⟨p, hp, .inl hpq⟩

/-- A result is the longest directory of what lies below it. -/
theorem stop_longest {t : Tree} {L : List (List Bytes)} (h : Inv t L) {p p' : List Bytes} (hp : Stop t p) (hpp : p <+: p')
    (hall : ∀ q ∈ L, p <+: q → p' <+: q) : p' = p := by
  obtain ⟨y, rfl⟩ := hpp
  cases y with
  | nil => simp
  | cons s y =>
    exfalso
    obtain ⟨n, hn⟩ := hp.1
    have hkid : ∀ {q}, q ∈ L → p <+: q → p ++ [s] <+: q := fun hq hpq =>
      List.IsPrefix.trans ⟨y, by simp⟩ (hall _ hq hpq)
    rcases h.count p n hn with ⟨rfl, q, hq, hpq, hne⟩ | ⟨_, hpL⟩
    · apply hp.2.1
      right
      refine ⟨?_, hn⟩
      -- all entries have the same name
      have hsame : ∀ e ∈ entries t p, e.1 = s := by
        rintro ⟨s', m⟩ he
        have hm := entries_mem.mp he
        obtain ⟨_, q', hq', hpq'⟩ := (h.mem _).mp ⟨m, hm⟩
        have a := hkid hq' ((List.prefix_append p [s']).trans hpq')
        have := (List.prefix_of_prefix_length_le hpq' a (by simp)).eq_of_length (by simp)
        simpa using this
      obtain ⟨m, hm⟩ := (h.mem (p ++ [s])).mpr ⟨by simp, q, hq, hkid hq hpq⟩
      have hone : ∀ e ∈ entries t p, e = (s, m) := by
        rintro ⟨s', m'⟩ he
        have h1 := hsame _ he
        simp only at h1
        subst h1
        have := key_unique h.keys (entries_mem.mp he) hm
        rw [this]
      have hnd : (entries t p).Nodup := by
        unfold entries
        refine List.Nodup.filterMap ?_ (List.Nodup.of_map _ h.keys)
        intro a b c ha hb
        have key : ∀ {a : List Bytes × Nat} {c : Bytes × Nat}, (c ∈ (match a.1.getLast? with
            | some s => if a.1.dropLast = p then some (s, a.2) else none
            | none => none)) → a = (p ++ [c.1], c.2) := by
          intro a c hc
          cases hx : a.1.getLast? with
          | none => simp [hx] at hc
          | some x =>
            rw [hx] at hc
            simp only at hc
            by_cases hd : a.1.dropLast = p
            · simp [hd] at hc
              have := List.dropLast_append_getLast? x hx
              rw [hd] at this
              obtain ⟨a1, a2⟩ := a
              simp at this hc ⊢
              rw [← hc]
              exact ⟨this.symm, rfl⟩
            · simp [hd] at hc
        rw [key ha, key hb]
      have hmem := entries_mem.mpr hm
      cases he : entries t p with
      | nil => rw [he] at hmem; simp at hmem
      | cons a l =>
        cases l with
        | nil => rfl
        | cons b l =>
          have ha := hone a (by rw [he]; simp)
          have hb := hone b (by rw [he]; simp)
          rw [he, ha, hb] at hnd
          simp at hnd
    · have := (hkid hpL (List.prefix_refl _)).length_le
      simp at this
      omega

end Verif.RsyncOut
