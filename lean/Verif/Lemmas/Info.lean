import Mathlib.Tactic.ByContra
import Verif.Spec.Info
import Verif.Lemmas.PkiBase
/- Lemmas for Props/Info.lean. -/
set_option autoImplicit false

namespace Verif.Info

open Verif.Fetch (CertNames Bindings bindCert bindRrdp)

theorem firstNamed_snoc (ns : List Naming) (n : Naming) (i : Nat) (m : Bytes) :
    FirstNamed (ns ++ [n]) i m ↔ FirstNamed ns i m ∨ (n.tal = i ∧ n.module = m ∧ ∀ x ∈ ns, x.module ≠ m) := by
  constructor
  · rintro ⟨b, x, a, h, h1, h2, h3⟩
    rcases List.eq_nil_or_concat a with rfl | ⟨a', y, rfl⟩
    · obtain ⟨rfl, e⟩ := List.append_inj' h rfl
      simp only [List.cons.injEq, and_true] at e
      subst e
      exact .inr ⟨h1, h2, h3⟩
    · have : ns ++ [n] = (b ++ x :: a') ++ [y] := by simp [h]
      obtain ⟨rfl, -⟩ := List.append_inj' this rfl
      exact .inl ⟨b, x, a', rfl, h1, h2, h3⟩
  · rintro (⟨b, x, a, rfl, h1, h2, h3⟩ | ⟨h1, h2, h3⟩)
    · exact ⟨b, x, a ++ [n], by simp, h1, h2, h3⟩
    · exact ⟨ns, n, [], rfl, h1, h2, h3⟩

theorem lastUrl_snoc (ns : List Naming) (n : Naming) (m u : Bytes) :
    LastUrl (ns ++ [n]) m u ↔ (n.module = m ∧ n.rrdp = u) ∨ (n.module ≠ m ∧ LastUrl ns m u) := by
  constructor
  · rintro ⟨b, x, a, h, h1, h2, h3⟩
    rcases List.eq_nil_or_concat a with rfl | ⟨a', y, rfl⟩
    · obtain ⟨rfl, e⟩ := List.append_inj' h rfl
      simp only [List.cons.injEq, and_true] at e
      subst e
      exact .inl ⟨h1, h2⟩
    · have : ns ++ [n] = (b ++ x :: a') ++ [y] := by simp [h]
      obtain ⟨rfl, e⟩ := List.append_inj' this rfl
      simp only [List.cons.injEq, and_true] at e
      subst e
      exact .inr ⟨h3 _ (by simp), b, x, a', rfl, h1, h2, fun z hz => h3 z (by simp [hz])⟩
  · rintro (⟨h1, h2⟩ | ⟨h0, b, x, a, rfl, h1, h2, h3⟩)
    · exact ⟨ns, n, [], rfl, h1, h2, by simp⟩
    · refine ⟨b, x, a ++ [n], by simp, h1, h2, ?_⟩
      intro z hz
      rcases List.mem_append.1 hz with hz | hz
      · exact h3 z hz
      · simp at hz; subst hz; exact h0

/-- A module has one first certificate. -/
theorem firstNamed_unique {ns : List Naming} {i j : Nat} {m : Bytes} (h : FirstNamed ns i m) (h' : FirstNamed ns j m) :
    i = j := by
  obtain ⟨b, x, a, rfl, h1, h2, h3⟩ := h
  obtain ⟨b', x', a', e, h1', h2', h3'⟩ := h'
  rcases List.append_eq_append_iff.1 e with ⟨c, e1, e2⟩ | ⟨c, e1, e2⟩
  · cases c with
    | nil => simp at e2; rw [← h1, ← h1', e2.1]
    | cons y c =>
      simp at e2
      exact absurd h2 (h3' x (by simp [e1, e2.1]))
  · cases c with
    | nil => simp at e2; rw [← h1, ← h1', e2.1]
    | cons y c =>
      simp at e2
      exact absurd h2' (h3 x' (by simp [e1, e2.1]))

/-- What holds of the notes after the certificates `ns`. -/
structure Inv (n : Nat) (s : Notes) (ns : List Naming) : Prop where
  len : s.ia.length = n
  lt : ∀ (i a : Nat), s.ia[i]? = some a → a < s.mem.length
  inj : ∀ (i j a : Nat), s.ia[i]? = some a → s.ia[j]? = some a → i = j
  ptr : ∀ m p, s.tmp.get m = some p → ∃ arr x, s.mem[p.1]? = some arr ∧ arr.cells[p.2]? = some x ∧ x.rsync = m
  known : ∀ m, s.tmp.get m = none ↔ ∀ x ∈ ns, x.module ≠ m
  nodup : ∀ (i a : Nat) arr, s.ia[i]? = some a → s.mem[a]? = some arr → (arr.cells.map (·.rsync)).Nodup
  cells : ∀ (i a : Nat) arr, s.ia[i]? = some a → s.mem[a]? = some arr →
    ∀ m, m ∈ arr.cells.map (·.rsync) ↔ FirstNamed ns i m
  named : ∀ (a : Nat) arr, s.mem[a]? = some arr → ∀ x ∈ arr.cells, ∃ y ∈ ns, y.module = x.rsync ∧ y.rrdp = x.rrdp
  last : ∀ (i a : Nat) arr x, s.ia[i]? = some a → s.mem[a]? = some arr → arr.cells.getLast? = some x →
    s.tmp.get x.rsync = some (a, arr.cells.length - 1) ∧ LastUrl ns x.rsync x.rrdp

theorem inv_start (n : Nat) : Inv n (Notes.start n) [] := by
  have hm : ∀ (a : Nat) arr, (Notes.start n).mem[a]? = some arr → arr.cells = [] := by
    intro a arr h
    simp only [Notes.start, List.getElem?_replicate] at h
    split at h
    · cases h; rfl
    · simp at h
  have hi : ∀ (i a : Nat), (Notes.start n).ia[i]? = some a → a = i ∧ i < n := by
    intro i a h
    simp only [Notes.start] at h
    obtain ⟨h1, h2⟩ := List.getElem?_eq_some_iff.1 h
    simp at h1 h2
    exact ⟨h2.symm, h1⟩
  constructor
  · simp [Notes.start]
  · intro i a h
    obtain ⟨rfl, h⟩ := hi i a h
    simpa [Notes.start] using h
  · intro i j a h h'
    rw [← (hi i a h).1, ← (hi j a h').1]
  · intro m p h
    simp [Notes.start, Pki.Map.get_nil] at h
  · intro m
    simp [Notes.start, Pki.Map.get_nil]
  · intro i a arr _ h
    simp [hm a arr h]
  · intro i a arr _ h m
    rw [hm a arr h]
    simp [FirstNamed]
  · intro a arr h x hx
    simp [hm a arr h] at hx
  · intro i a arr x _ h hl
    simp [hm a arr h] at hl

/-- The value just written is written again. -/
theorem write_same (s : Notes) (a k : Nat) (arr : Arr) (x : SIA) (h : s.mem[a]? = some arr) (hx : arr.cells[k]? = some x) :
    s.write (a, k) x = s := by
  have h1 : arr.cells.set k x = arr.cells := by
    obtain ⟨hk, rfl⟩ := List.getElem?_eq_some_iff.1 hx
    exact List.set_getElem_self hk
  have h2 : s.mem.set a arr = s.mem := by
    obtain ⟨hk, rfl⟩ := List.getElem?_eq_some_iff.1 h
    exact List.set_getElem_self hk
  unfold Notes.write
  simp only [h, h1]
  cases s; simp_all

theorem inv_write {n : Nat} {s : Notes} {ns : List Naming} (hi : Inv n s ns) (nm : Naming) (p : Nat × Nat)
    (hp : s.tmp.get nm.module = some p) : Inv n (s.write p ⟨nm.module, nm.rrdp⟩) (ns ++ [nm]) := by
  obtain ⟨a, k⟩ := p
  obtain ⟨arr, x, h1, h2, h3⟩ := hi.ptr _ _ hp
  have hm : ∀ y, y ∈ ns → y ∈ ns ++ [nm] := fun y hy => by simp [hy]
  simp only at h1 h2
  have e : s.write (a, k) ⟨nm.module, nm.rrdp⟩ = { s with mem := s.mem.set a ⟨arr.cells.set k ⟨nm.module, nm.rrdp⟩, arr.cap⟩ } := by
    simp [Notes.write, h1]
  have ha : a < s.mem.length := (List.getElem?_eq_some_iff.1 h1).1
  have hmem : ∀ b, (s.write (a, k) ⟨nm.module, nm.rrdp⟩).mem[b]? =
      if a = b then some ⟨arr.cells.set k ⟨nm.module, nm.rrdp⟩, arr.cap⟩ else s.mem[b]? := by
    intro b
    rw [e]
    simp only [List.getElem?_set]
    split
    · next h => subst h; simp [ha]
    · rfl
  have hia : (s.write (a, k) ⟨nm.module, nm.rrdp⟩).ia = s.ia := by rw [e]
  have htmp : (s.write (a, k) ⟨nm.module, nm.rrdp⟩).tmp = s.tmp := by rw [e]
  have hlen : (s.write (a, k) ⟨nm.module, nm.rrdp⟩).mem.length = s.mem.length := by rw [e]; simp
  have hk : k < arr.cells.length := (List.getElem?_eq_some_iff.1 h2).1
  have hmap : (arr.cells.set k ⟨nm.module, nm.rrdp⟩).map (·.rsync) = arr.cells.map (·.rsync) := by
    rw [List.map_set]
    apply List.ext_getElem?
    intro j
    rw [List.getElem?_set]
    split
    · next h =>
      subst h
      simp [hk]
      obtain ⟨_, hh⟩ := List.getElem?_eq_some_iff.1 h2
      rw [hh, h3]
    · rfl
  have hold : ∃ y ∈ ns, y.module = nm.module := by
    by_contra hc
    have := (hi.known nm.module).2 fun y hy e => hc ⟨y, hy, e⟩
    simp [hp] at this
  generalize hs' : s.write (a, k) ⟨nm.module, nm.rrdp⟩ = s' at *
  have hfirst : ∀ i m, FirstNamed (ns ++ [nm]) i m ↔ FirstNamed ns i m := by
    intro i m
    rw [firstNamed_snoc]
    constructor
    · rintro (h | ⟨-, rfl, h⟩)
      · exact h
      · obtain ⟨y, hy, e⟩ := hold; exact absurd e (h y hy)
    · exact .inl
  constructor
  · rw [hia]; exact hi.len
  · rw [hia, hlen]; exact hi.lt
  · rw [hia]; exact hi.inj
  · intro m q hq
    rw [htmp] at hq
    obtain ⟨ar, y, g1, g2, g3⟩ := hi.ptr m q hq
    rw [hmem]
    split
    · next h =>
      rw [← h, h1] at g1
      cases g1
      refine ⟨_, (arr.cells.set k ⟨nm.module, nm.rrdp⟩)[q.2]'(by simpa using (List.getElem?_eq_some_iff.1 g2).1), rfl, ?_, ?_⟩
      · simp
      · have : ((arr.cells.set k ⟨nm.module, nm.rrdp⟩).map (·.rsync))[q.2]? = some m := by
          rw [hmap]; simp [g2, g3]
        rw [List.getElem?_map] at this
        obtain ⟨z, hz, e⟩ := Option.map_eq_some_iff.1 this
        obtain ⟨_, hh⟩ := List.getElem?_eq_some_iff.1 hz
        rw [hh]; exact e
    · exact ⟨ar, y, g1, g2, g3⟩
  · intro m
    rw [htmp, hi.known]
    constructor
    · intro h x hx
      rcases List.mem_append.1 hx with hx | hx
      · exact h x hx
      · simp at hx; subst hx
        intro e; subst e
        obtain ⟨y, hy, e⟩ := hold
        exact h y hy e
    · exact fun h x hx => h x (hm x hx)
  · intro i b ar g1 g2
    rw [hia] at g1
    rw [hmem] at g2
    split at g2
    · next h =>
      cases g2
      rw [hmap]
      exact hi.nodup i b arr g1 (h ▸ h1)
    · exact hi.nodup i b ar g1 g2
  · intro i b ar g1 g2 m
    rw [hia] at g1
    rw [hmem] at g2
    rw [hfirst]
    split at g2
    · next h =>
      cases g2
      rw [hmap]
      exact hi.cells i b arr g1 (h ▸ h1) m
    · exact hi.cells i b ar g1 g2 m
  · intro b ar g2 x hx
    rw [hmem] at g2
    split at g2
    · next h =>
      cases g2
      rcases List.mem_or_eq_of_mem_set hx with hx | rfl
      · obtain ⟨y, hy, hh⟩ := hi.named a arr h1 x hx
        exact ⟨y, hm y hy, hh⟩
      · exact ⟨nm, by simp, rfl, rfl⟩
    · obtain ⟨y, hy, hh⟩ := hi.named b ar g2 x hx
      exact ⟨y, hm y hy, hh⟩
  · intro i b ar x' g1 g2 g3
    rw [hia] at g1
    rw [hmem] at g2
    rw [htmp, lastUrl_snoc]
    split at g2
    · next h =>
      subst h
      cases g2
      simp only [List.length_set]
      -- the last cell, before and after
      rw [List.getLast?_eq_getElem?, List.getElem?_set] at g3
      simp only [List.length_set] at g3
      split at g3
      · next hkl =>
        cases g3
        refine ⟨?_, .inl ⟨rfl, rfl⟩⟩
        rw [hp, hkl]
      · next hkl =>
        obtain ⟨l1, l2⟩ := hi.last i a arr x' g1 h1 (by rw [List.getLast?_eq_getElem?]; exact g3)
        refine ⟨l1, .inr ⟨?_, l2⟩⟩
        intro e
        rw [← e, hp] at l1
        cases l1
        exact hkl rfl
    · next h =>
      obtain ⟨l1, l2⟩ := hi.last i b ar x' g1 g2 g3
      refine ⟨l1, .inr ⟨?_, l2⟩⟩
      intro e
      rw [← e, hp] at l1
      cases l1
      exact h rfl

theorem inv_add {n : Nat} {s : Notes} {ns : List Naming} (grow : Nat → Nat) (hi : Inv n s ns) (nm : Naming)
    (hn : nm.tal < n) (hp : s.tmp.get nm.module = none) :
    ∃ s' p, s.add grow nm.tal ⟨nm.module, nm.rrdp⟩ = .ok (s', p) ∧ Inv n s' (ns ++ [nm]) ∧
      s'.write p ⟨nm.module, nm.rrdp⟩ = s' := by
  have hnew := (hi.known nm.module).1 hp
  obtain ⟨a, ha⟩ : ∃ a, s.ia[nm.tal]? = some a := ⟨_, List.getElem?_eq_getElem (by rw [hi.len]; exact hn)⟩
  have halt := hi.lt _ _ ha
  obtain ⟨arr, harr⟩ : ∃ arr, s.mem[a]? = some arr := ⟨_, List.getElem?_eq_getElem halt⟩
  have hfresh : ∀ m, m ∈ arr.cells.map (·.rsync) → m ≠ nm.module := by
    intro m hm e
    subst e
    obtain ⟨b, x, c, rfl, h1, h2, h3⟩ := (hi.cells _ _ _ ha harr _).1 hm
    exact hnew x (by simp) h2
  have hm : ∀ y, y ∈ ns → y ∈ ns ++ [nm] := fun y hy => by simp [hy]
  -- both cases at once: `c` is the array of the list afterwards
  have main : ∀ (s' : Notes) (c : Nat) (cap : Nat),
      s'.ia = s.ia.set nm.tal c → (c = a ∨ (c = s.mem.length)) →
      (∀ b, s'.mem[b]? = if b = c then some ⟨arr.cells ++ [⟨nm.module, nm.rrdp⟩], cap⟩ else s.mem[b]?) →
      s'.tmp = s.tmp.set nm.module (c, arr.cells.length) →
      Inv n s' (ns ++ [nm]) ∧ s'.write (c, arr.cells.length) ⟨nm.module, nm.rrdp⟩ = s' := by
    intro s' c cap hia hc hmem htmp
    have hiam : ∀ (i b : Nat), s'.ia[i]? = some b ↔ (i = nm.tal ∧ b = c) ∨ (i ≠ nm.tal ∧ s.ia[i]? = some b) := by
      intro i b
      rw [hia, List.getElem?_set]
      by_cases h : nm.tal = i
      · subst h
        simp [hi.len, hn, eq_comm]
      · simp [h, Ne.symm h]
    have hother : ∀ (i b : Nat), i ≠ nm.tal → s.ia[i]? = some b → b ≠ c := by
      intro i b h1 h2 h3
      subst h3
      rcases hc with rfl | rfl
      · exact h1 (hi.inj _ _ _ h2 ha)
      · exact absurd (hi.lt _ _ h2) (by omega)
    have hcell : ∀ x : SIA, x ∈ arr.cells ++ [⟨nm.module, nm.rrdp⟩] → x ∈ arr.cells ∨ x = ⟨nm.module, nm.rrdp⟩ := by
      intro x hx; simpa using hx
    refine ⟨?_, write_same _ _ _ ⟨arr.cells ++ [⟨nm.module, nm.rrdp⟩], cap⟩ _ (by rw [hmem]; simp) (by simp)⟩
    constructor
    · rw [hia]; simp [hi.len]
    · intro i b h
      have hcl : c < s'.mem.length := by
        have := hmem c
        rw [if_pos rfl] at this
        exact (List.getElem?_eq_some_iff.1 this).1
      rcases (hiam i b).1 h with ⟨-, rfl⟩ | ⟨h1, h2⟩
      · exact hcl
      · have := hmem b
        rw [if_neg (hother i b h1 h2), List.getElem?_eq_getElem (hi.lt _ _ h2)] at this
        exact (List.getElem?_eq_some_iff.1 this).1
    · intro i j b h h'
      rcases (hiam i b).1 h with ⟨rfl, rfl⟩ | ⟨h1, h2⟩ <;> rcases (hiam j b).1 h' with ⟨h3, h4⟩ | ⟨h3, h4⟩
      · exact h3.symm
      · exact absurd rfl (hother j b h3 h4)
      · exact absurd h4 (hother i b h1 h2)
      · exact hi.inj _ _ _ h2 h4
    · intro m p h
      rw [htmp, Pki.Map.get_set] at h
      split at h
      · next e =>
        cases h
        refine ⟨⟨arr.cells ++ [⟨nm.module, nm.rrdp⟩], cap⟩, ⟨nm.module, nm.rrdp⟩, ?_, by simp, e.symm⟩
        rw [hmem]; simp
      · obtain ⟨ar, x, g1, g2, g3⟩ := hi.ptr m p h
        rw [hmem]
        split
        · next e =>
          rcases hc with rfl | rfl
          · rw [e, harr] at g1
            cases g1
            refine ⟨_, x, rfl, ?_, g3⟩
            rw [List.getElem?_append_left (List.getElem?_eq_some_iff.1 g2).1]
            exact g2
          · exact absurd (List.getElem?_eq_some_iff.1 g1).1 (by omega)
        · exact ⟨ar, x, g1, g2, g3⟩
    · intro m
      rw [htmp, Pki.Map.get_set]
      split
      · next e =>
        simp only [reduceCtorEq, false_iff]
        intro h
        exact h nm (by simp) e.symm
      · next e =>
        rw [hi.known]
        constructor
        · intro h x hx
          rcases List.mem_append.1 hx with hx | hx
          · exact h x hx
          · simp at hx; subst hx; exact fun h => e h.symm
        · exact fun h x hx => h x (hm x hx)
    · intro i b ar h1 h2
      rcases (hiam i b).1 h1 with ⟨rfl, rfl⟩ | ⟨g1, g2⟩
      · rw [hmem, if_pos rfl] at h2
        cases h2
        rw [List.map_append, List.nodup_append]
        refine ⟨hi.nodup _ _ _ ha harr, by simp, ?_⟩
        intro x hx y hy
        simp at hy
        subst hy
        exact hfresh x hx
      · rw [hmem, if_neg (hother i b g1 g2)] at h2
        exact hi.nodup _ _ _ g2 h2
    · intro i b ar h1 h2 m
      rw [firstNamed_snoc]
      rcases (hiam i b).1 h1 with ⟨rfl, rfl⟩ | ⟨g1, g2⟩
      · rw [hmem, if_pos rfl] at h2
        cases h2
        rw [List.map_append, List.mem_append, hi.cells _ _ _ ha harr]
        constructor
        · rintro (h | h)
          · exact .inl h
          · simp at h; subst h; exact .inr ⟨rfl, rfl, hnew⟩
        · rintro (h | ⟨-, rfl, -⟩)
          · exact .inl h
          · exact .inr (by simp)
      · rw [hmem, if_neg (hother i b g1 g2)] at h2
        rw [hi.cells _ _ _ g2 h2]
        constructor
        · exact .inl
        · rintro (h | ⟨rfl, -, -⟩)
          · exact h
          · exact absurd rfl g1
    · intro b ar h2 x hx
      rw [hmem] at h2
      split at h2
      · cases h2
        rcases hcell x hx with hx | rfl
        · obtain ⟨y, hy, hh⟩ := hi.named _ _ harr x hx
          exact ⟨y, hm y hy, hh⟩
        · exact ⟨nm, by simp, rfl, rfl⟩
      · obtain ⟨y, hy, hh⟩ := hi.named _ _ h2 x hx
        exact ⟨y, hm y hy, hh⟩
    · intro i b ar x h1 h2 h3
      rw [htmp, Pki.Map.get_set, lastUrl_snoc]
      rcases (hiam i b).1 h1 with ⟨rfl, rfl⟩ | ⟨g1, g2⟩
      · rw [hmem, if_pos rfl] at h2
        cases h2
        simp at h3
        subst h3
        simp
      · rw [hmem, if_neg (hother i b g1 g2)] at h2
        obtain ⟨l1, l2⟩ := hi.last _ _ _ _ g2 h2 h3
        have : x.rsync ≠ nm.module := by
          intro e
          rw [e, hp] at l1
          cases l1
        rw [if_neg this]
        exact ⟨l1, .inr ⟨Ne.symm this, l2⟩⟩
  unfold Notes.add
  simp only [ha, harr]
  split
  · refine ⟨_, _, rfl, main _ a arr.cap ?_ (.inl rfl) ?_ rfl⟩
    · obtain ⟨hk, rfl⟩ := List.getElem?_eq_some_iff.1 ha
      exact (List.set_getElem_self hk).symm
    · intro b
      simp only [List.getElem?_set]
      by_cases h : a = b
      · subst h; simp [halt]
      · simp [h, Ne.symm h]
  · refine ⟨_, _, rfl, main _ s.mem.length (grow arr.cells.length) rfl (.inr rfl) ?_ rfl⟩
    intro b
    simp only
    by_cases h : b = s.mem.length
    · subst h; simp
    · rw [if_neg h, List.getElem?_append]
      split
      · rfl
      · rw [List.getElem?_eq_none (by simp; omega), List.getElem?_eq_none (by omega)]

theorem inv_note {n : Nat} {s : Notes} {ns : List Naming} (grow : Nat → Nat) (hi : Inv n s ns) (nm : Naming)
    (hn : nm.tal < n) :
    ∃ s', s.note grow nm.tal ⟨nm.module, nm.rrdp⟩ = .ok s' ∧ Inv n s' (ns ++ [nm]) := by
  unfold Notes.note
  cases hp : s.tmp.get nm.module with
  | some p => exact ⟨_, rfl, inv_write hi nm p hp⟩
  | none =>
    obtain ⟨s', p, h1, h2, h3⟩ := inv_add grow hi nm hn hp
    simp only [h1, Go.ok_bind, Go.pure_def, h3]
    exact ⟨_, rfl, h2⟩

theorem bindRrdp_naming (b : Bindings) (i : Nat) (c : CertNames) (m d : Bytes)
    (h : Path.extractDomainModule c.rsync = .ok (m, d)) :
    (bindRrdp b m d c.rrdp = none ↔ naming b i c = none) ∧
    (∀ nm, naming b i c = some nm → nm = ⟨i, m, c.rrdp.getD []⟩) := by
  unfold naming bindRrdp
  simp only [h]
  cases c.rrdp with
  | none => simp
  | some u =>
    simp only
    cases hd : b.domain.get u with
    | none => simp
    | some d' => by_cases e : d' = d <;> simp [e]

theorem bindCert_naming (b : Bindings) (i : Nat) (c : CertNames) (h : naming b i c = none) : bindCert b c = b := by
  unfold bindCert
  cases he : Path.extractDomainModule c.rsync with
  | ok md =>
    obtain ⟨m, d⟩ := md
    simp only
    rw [(bindRrdp_naming b i c m d he).1.2 h]
  | err e => rfl
  | panic => rfl
  | diverge => rfl

theorem inv_cert {n : Nat} {b : Bindings} {s : Notes} {ns : List Naming} (grow : Nat → Nat) (hi : Inv n s ns) (i : Nat)
    (hn : i < n) (c : CertNames) :
    ∃ s', infoCert grow i (b, s) c = .ok (bindCert b c, s') ∧ Inv n s' (ns ++ (naming b i c).toList) := by
  unfold infoCert
  cases he : Path.extractDomainModule c.rsync with
  | ok md =>
    obtain ⟨m, d⟩ := md
    simp only
    have hb := bindRrdp_naming b i c m d he
    cases hr : bindRrdp b m d c.rrdp with
    | none =>
      have h0 := hb.1.1 hr
      rw [bindCert_naming b i c h0, h0]
      exact ⟨s, rfl, by simpa using hi⟩
    | some b' =>
      cases hnm : naming b i c with
      | none => rw [hb.1.2 hnm] at hr; cases hr
      | some nm =>
        have := hb.2 nm hnm
        subst this
        obtain ⟨s', h1, h2⟩ := inv_note grow hi ⟨i, m, c.rrdp.getD []⟩ hn
        simp only at h1
        simp only [h1, Go.ok_bind, Go.pure_def]
        exact ⟨s', rfl, h2⟩
  | err e =>
    have h0 : naming b i c = none := by simp [naming, he]
    rw [bindCert_naming b i c h0, h0]
    exact ⟨s, rfl, by simpa using hi⟩
  | panic =>
    have h0 : naming b i c = none := by simp [naming, he]
    rw [bindCert_naming b i c h0, h0]
    exact ⟨s, rfl, by simpa using hi⟩
  | diverge =>
    have h0 : naming b i c = none := by simp [naming, he]
    rw [bindCert_naming b i c h0, h0]
    exact ⟨s, rfl, by simpa using hi⟩

theorem namings_append (b : Bindings) (l r : List (Nat × CertNames)) :
    namings b (l ++ r) = namings b l ++ namings ((l.map (·.2)).foldl bindCert b) r := by
  induction l generalizing b with
  | nil => rfl
  | cons x l ih =>
    obtain ⟨i, c⟩ := x
    simp [namings, ih]

theorem inv_certs {n : Nat} (grow : Nat → Nat) (i : Nat) (hn : i < n) (cs : List CertNames) (b : Bindings) (s : Notes)
    (ns : List Naming) (hi : Inv n s ns) :
    ∃ s', infoCerts grow i cs (b, s) = .ok (cs.foldl bindCert b, s') ∧
      Inv n s' (ns ++ namings b (cs.map fun c => (i, c))) := by
  induction cs generalizing b s ns with
  | nil => exact ⟨s, rfl, by simpa [namings] using hi⟩
  | cons c cs ih =>
    obtain ⟨s1, h1, h2⟩ := inv_cert (b := b) grow hi i hn c
    obtain ⟨s2, h3, h4⟩ := ih (bindCert b c) s1 _ h2
    refine ⟨s2, ?_, ?_⟩
    · simp only [infoCerts, h1, Go.ok_bind, h3, List.foldl_cons]
    · simpa [namings, List.append_assoc] using h4

theorem inv_tals {n : Nat} (grow : Nat → Nat) (tals : List (List CertNames)) (i : Nat) (hn : i + tals.length ≤ n)
    (b : Bindings) (s : Notes) (ns : List Naming) (hi : Inv n s ns) :
    ∃ s', infoTals grow i tals (b, s) = .ok (tals.flatten.foldl bindCert b, s') ∧
      Inv n s' (ns ++ namings b (numbered i tals)) := by
  induction tals generalizing i b s ns with
  | nil => exact ⟨s, rfl, by simpa [namings, numbered] using hi⟩
  | cons cs rest ih =>
    simp only [List.length_cons] at hn
    obtain ⟨s1, h1, h2⟩ := inv_certs grow i (by omega) cs b s ns hi
    obtain ⟨s2, h3, h4⟩ := ih (i + 1) (by omega) (cs.foldl bindCert b) s1 _ h2
    refine ⟨s2, ?_, ?_⟩
    · simp only [infoTals, h1, Go.ok_bind, h3, List.flatten_cons, List.foldl_append]
    · rw [List.append_assoc] at h4
      simpa [numbered, namings_append, Function.comp_def] using h4

/-- What a round shows, from the invariant. -/
theorem authorities_inv (grow : Nat → Nat) (b : Bindings) (tals : List (List CertNames)) :
    ∃ s, authorities grow b tals = .ok (tals.flatten.foldl bindCert b, s.lists) ∧
      Inv tals.length s (namings b (numbered 0 tals)) := by
  obtain ⟨s, h1, h2⟩ := inv_tals grow tals 0 (by omega) b (Notes.start tals.length) [] (inv_start _)
  refine ⟨s, ?_, by simpa using h2⟩
  simp only [authorities, h1, Go.ok_bind, Go.pure_def]

theorem lists_get {n : Nat} {s : Notes} {ns : List Naming} (hi : Inv n s ns) (i : Nat) (l : List SIA)
    (h : s.lists[i]? = some l) : ∃ a arr, s.ia[i]? = some a ∧ s.mem[a]? = some arr ∧ arr.cells = l := by
  unfold Notes.lists at h
  rw [List.getElem?_map] at h
  obtain ⟨a, ha, h⟩ := Option.map_eq_some_iff.1 h
  have := hi.lt _ _ ha
  rw [List.getElem?_eq_getElem this] at h
  exact ⟨a, s.mem[a], ha, List.getElem?_eq_getElem this, h⟩

theorem lists_length {n : Nat} {s : Notes} {ns : List Naming} (hi : Inv n s ns) : s.lists.length = n := by
  simp [Notes.lists, hi.len]

end Verif.Info
