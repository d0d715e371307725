import Verif.Lemmas.Crash
import Verif.Spec.Repository
/-
  Lemmas for exploring without manifests.
-/
set_option autoImplicit false

namespace Verif.Manager
open Pki PkiSpec ManagerSpec

/-- From `m` to `m'`: what is new among the explored paths is that of the files that were added. -/
structure Saw (m m' : M) (evs : List Event) : Prop where
  files : ∃ l, m'.files = m.files ++ l
  trace : m'.trace = m.trace ++ evs
  inv : MInv m'
  lt : ∀ i ∈ added evs, i < m'.files.length
  expl : ∀ r, r ∈ m'.explored ↔ r ∈ m.explored ∨ ∃ i ∈ added evs, m'.pathOf i = r

theorem Saw.refl {m : M} (h : MInv m) : Saw m m [] := ⟨⟨[], by simp⟩, by simp, h, by simp [added], by simp [added]⟩

theorem Saw.trans {a b c : M} {e e' : List Event} (h : Saw a b e) (h' : Saw b c e') : Saw a c (e ++ e') := by
  obtain ⟨l, hl⟩ := h.files
  obtain ⟨l', hl'⟩ := h'.files
  have hp : ∀ i ∈ added e, c.pathOf i = b.pathOf i := fun i hi => pathOf_append hl' h.inv.par (h.lt i hi)
  refine ⟨⟨l ++ l', by rw [hl', hl, List.append_assoc]⟩, by rw [h'.trace, h.trace, List.append_assoc], h'.inv, ?_, ?_⟩
  · intro i hi
    rw [added_append] at hi
    rcases List.mem_append.mp hi with hi | hi
    · have := h.lt i hi; rw [hl']; simp; omega
    · exact h'.lt i hi
  · intro r
    rw [h'.expl, h.expl, added_append]
    constructor
    · rintro ((h1 | ⟨i, h1, h2⟩) | ⟨i, h1, h2⟩)
      · exact .inl h1
      · exact .inr ⟨i, List.mem_append_left _ h1, by rw [hp i h1]; exact h2⟩
      · exact .inr ⟨i, List.mem_append_right _ h1, h2⟩
    · rintro (h1 | ⟨i, h1, h2⟩)
      · exact .inl (.inl h1)
      · rcases List.mem_append.mp h1 with h1 | h1
        · exact .inl (.inr ⟨i, h1, by rw [← hp i h1]; exact h2⟩)
        · exact .inr ⟨i, h1, h2⟩

theorem Saw.onlyV {W : World} {m m' : M} (hi : MInv m) (h : OnlyV W m m') : Saw m m' [] := by
  have hk := h.keeps.2 hi
  obtain ⟨h1, _, h3, h4, _⟩ := onlyV_fields h
  exact ⟨⟨[], by simp [h1]⟩, by simp [h3], hk, by simp [added], by simp [added, h4]⟩

theorem exploreAdd_explored {W : World} {m m' : M} {fid : Nat} {data : Bytes} {sha : Option Bytes} {ai : Bool}
    (hlt : fid < m.files.length) (h : m.exploreAdd W fid data sha ai = .ok m') : m'.explored = m.pathOf fid :: m.explored := by
  unfold M.exploreAdd at h
  obtain ⟨⟨v1, a⟩, ha, h1⟩ := Go.bind_eq_ok.mp h
  simp only [] at h1
  split at h1
  · simp only [Go.pure_def, Go.ok.injEq] at h1
    obtain ⟨_, g1, g2, g3, g4, g5⟩ := keeps_putFiles (withParent fid a.files) { m with
        v := v1, explored := m.pathOf fid :: m.explored, trace := m.trace ++ [.added fid data sha] } (by
      intro f hf p hp
      simp [withParent] at hf
      obtain ⟨x, _, rfl⟩ := hf
      simp at hp
      subst hp
      exact hlt)
    subst h1
    exact g3
  · simp at h1
    subst h1
    rfl

theorem saw_exploreAdd {W : World} {m m' : M} {fid : Nat} {data : Bytes} {sha : Option Bytes} {ai : Bool}
    (hi : MInv m) (hlt : fid < m.files.length) (hq : fid ∉ m.queue)
    (h : m.exploreAdd W fid data sha ai = .ok m') : Saw m m' [.added fid data sha] ∧ m'.files[fid]? = m.files[fid]? := by
  obtain ⟨hk, _, htr, _, _, ⟨l, hl, _⟩, _⟩ := minv_exploreAdd hlt hq h
  refine ⟨⟨⟨l, hl⟩, htr, hk.2 hi, ?_, ?_⟩, by rw [hl, List.getElem?_append_left hlt]⟩
  · simp [added, hl]; omega
  · intro r
    rw [exploreAdd_explored hlt h, List.mem_cons]
    simp [added, pathOf_append hl hi.par hlt]
    constructor
    · rintro (h | h)
      · exact .inr h.symm
      · exact .inl h
    · rintro (h | h)
      · exact .inr h
      · exact .inl h.symm

/-- A new file below `fid`, not yet in the queue. -/
theorem saw_newFile {m : M} (hi : MInv m) {fid : Nat} (hlt : fid < m.files.length) (f : PKIFile) (hp : f.parent = some fid) :
    Saw m { m with files := m.files ++ [f] } [] := by
  have hmap : ∀ m' : M, m'.files = m.files ++ [f] → (entered m).map m'.pathOf = (entered m).map m.pathOf :=
    fun m' h => map_pathOf h hi.par hi.lt
  refine ⟨⟨_, rfl⟩, by simp, ⟨?_, ?_, ?_, ?_, ?_⟩, by simp [added], by simp [added]⟩
  · exact parOK_append hi.par (by rw [hp]; simp; omega)
  · intro i hh
    have := hi.lt i hh
    simp; omega
  · have := hi.nd
    rw [← hmap { m with files := m.files ++ [f] } rfl] at this
    exact this
  · have := hi.uniq
    rw [← hmap { m with files := m.files ++ [f] } rfl] at this
    exact this
  · intro e he
    have := hi.res e he
    exact ⟨this.1, by simp; omega⟩

theorem saw_runCalls {W : World} {fid : Nat} : ∀ (cs : List Call) (m m' : M), fid < m.files.length → MInv m →
    runCalls W fid cs m = .ok m' → ∃ evs, Saw m m' evs ∧ List.Forall₂ (Gives m' fid) evs cs := by
  intro cs
  induction cs with
  | nil =>
    intro m m' _ hi h
    simp [runCalls] at h; subst h
    exact ⟨[], Saw.refl hi, .nil⟩
  | cons c rest ih =>
    intro m m' hlt hi h
    unfold runCalls at h
    obtain ⟨m2, h2, h⟩ := Go.bind_eq_ok.mp h
    have s1 := saw_newFile hi hlt { c.file with parent := some fid } rfl
    obtain ⟨s2, hf⟩ := saw_exploreAdd s1.inv (by simp) (by
      intro hh
      have := hi.lt m.files.length (by unfold entered; exact List.mem_append_right _ hh)
      omega) h2
    have s := s1.trans s2
    obtain ⟨l, hl⟩ := s.files
    obtain ⟨evs, s3, hg⟩ := ih m2 m' (by rw [hl]; simp; omega) s.inv h
    refine ⟨_, s.trans s3, .cons ⟨m.files.length, rfl, ?_⟩ hg⟩
    obtain ⟨l', hl'⟩ := s3.files
    have hlt2 : m.files.length < m2.files.length := by
      rcases Nat.lt_or_ge m.files.length m2.files.length with h | h
      · exact h
      · rw [List.getElem?_eq_none h] at hf; simp at hf
    rw [hl', List.getElem?_append_left hlt2, hf]
    simp

/-- A round, in terms of what is explored. -/
structure RoundSaw (cfg : Cfg) (W : World) (m m' : M) (fid : Nat) (f : PKIFile) (evs : List Event) : Prop where
  trace : m'.trace = m.trace ++ .taken fid :: evs
  lt : ∀ i ∈ added evs, i < m'.files.length
  expl : ∀ r, r ∈ m'.explored ↔ r ∈ m.explored ∨ (∃ i ∈ added evs, m'.pathOf i = r) ∨ (cfg.notMFT = true ∧ f.type = .mft ∧ f.repo = r)
  read : cfg.notMFT = true → f.type = .mft →
    if f.repo ∈ m.explored ∨ cfg.hasSeeker = false then evs = [] ∧ m'.v = m.v ∧ m'.files = m.files
    else List.Forall₂ (Gives m' fid) evs (W.getRepository m.clock f).1

theorem round_saw {W : World} {cfg : Cfg} {m m' : M} {fid : Nat} {f : PKIFile} {rest : List Nat} (hi : MInv m)
    (hr : Round cfg W m m' fid f rest) (h : m.exploreStep cfg W = .ok m') : ∃ evs, RoundSaw cfg W m m' fid f evs := by
  unfold M.exploreStep at h
  rw [hr.queue] at h
  simp only [hr.file] at h
  obtain ⟨m2, h2, h⟩ := Go.bind_eq_ok.mp h
  simp only [Go.pure_def, Go.ok.injEq] at h
  have hlt : fid < m.files.length := hi.lt fid (by simp [entered, hr.queue])
  have hent : entered { m with queue := rest, trace := m.trace ++ [.taken fid] } = entered m := by
    simp [entered, taken_append, taken, hr.queue]
  have hq := (List.nodup_cons.mp (by
    have := hi.nd
    rw [entered, hr.queue, List.map_append, List.nodup_append] at this
    exact this.2.1)).1
  have hq' : fid ∉ rest := fun hh => hq (List.mem_map_of_mem hh)
  have hi1 : MInv { m with queue := rest, trace := m.trace ++ [.taken fid] } := by
    refine ⟨hi.par, ?_, ?_, ?_, ?_⟩
    · rw [hent]; exact hi.lt
    · rw [hent]; exact hi.nd
    · rw [hent]; exact hi.uniq
    · intro e he
      have := hi.res e he
      rw [hr.queue] at this
      simp at this ⊢
      exact ⟨this.1.2, this.2⟩
  generalize hm1 : ({ m with queue := rest, trace := m.trace ++ [.taken fid] } : M) = m1 at h2 hi1
  have f1 : m1.files = m.files := by rw [← hm1]
  have f2 : m1.queue = rest := by rw [← hm1]
  have f3 : m1.trace = m.trace ++ [.taken fid] := by rw [← hm1]
  have f5 : m1.v = m.v := by rw [← hm1]
  have f6 : m1.clock = m.clock := by rw [← hm1]
  have f7 : m1.explored = m.explored := by rw [← hm1]
  have hpath : ∀ i, m'.pathOf i = m2.pathOf i := by intro i; rw [← h]; rfl
  by_cases hb : cfg.notMFT = false ∨ f.type ≠ .mft
  · obtain ⟨pre, m3, hp, ho, hu⟩ := fetch_round hb h2
    have hpre : taken pre = [] ∧ added pre = [] := by rcases hp with ⟨rfl, _⟩ | ⟨rfl, _⟩ <;> exact ⟨rfl, rfl⟩
    have s1 : Saw m1 { m1 with trace := m1.trace ++ pre } pre :=
      ⟨⟨[], by simp⟩, rfl, (trace_keeps pre hpre.1).2 hi1, by simp [hpre.2], by simp [hpre.2]⟩
    have s2 := s1.trans (Saw.onlyV s1.inv ho)
    obtain ⟨g1, g2, _⟩ := onlyV_fields ho
    have : ∃ evs, Saw m1 m2 evs := by
      rcases useAnswer_cases hu with ⟨_, ho2⟩ | ⟨data, sha, _, hadd⟩
      · exact ⟨_, s2.trans (Saw.onlyV s2.inv ho2)⟩
      · exact ⟨_, s2.trans (saw_exploreAdd s2.inv (by rw [g1]; simp only [f1]; exact hlt) (by rw [g2]; simp only [f2]; exact hq') hadd).1⟩
    obtain ⟨evs, s⟩ := this
    refine ⟨evs, ?_, ?_, ?_, ?_⟩
    · rw [← h]; show m2.trace = _; rw [s.trace, f3]; simp
    · intro i hi'; rw [← h]; exact s.lt i hi'
    · intro r
      simp only [hpath]
      rw [← h]
      show r ∈ m2.explored ↔ _
      rw [s.expl, f7]
      constructor
      · rintro (h | h)
        · exact .inl h
        · exact .inr (.inl h)
      · rintro (h | h | ⟨h1, h2, _⟩)
        · exact .inl h
        · exact .inr h
        · rcases hb with hb | hb
          · rw [hb] at h1; simp at h1
          · exact (hb h2).elim
    · intro h1 h2
      rcases hb with hb | hb
      · rw [hb] at h1; simp at h1
      · exact (hb h2).elim
  · unfold M.handle at h2
    rw [if_neg hb] at h2
    simp only [not_or, ne_eq, not_not, Bool.not_eq_false] at hb
    unfold M.exploreRepo at h2
    obtain ⟨y, hy, h2⟩ := Go.bind_eq_ok.mp h2
    simp only [Go.pure_def, Go.ok.injEq] at h2
    unfold M.getNextRepository at hy
    rw [f7, f6] at hy
    have : ∃ evs, Saw m1 y evs ∧ (if f.repo ∈ m.explored ∨ cfg.hasSeeker = false then evs = [] ∧ y = m1
        else List.Forall₂ (Gives y fid) evs (W.getRepository m.clock f).1) := by
      split at hy
      · rename_i hc
        simp only [Go.ok.injEq] at hy
        exact ⟨[], hy ▸ Saw.refl hi1, by rw [if_pos hc]; exact ⟨rfl, hy.symm⟩⟩
      · rename_i hc
        obtain ⟨evs, s, hg⟩ := saw_runCalls _ m1 y (by rw [f1]; exact hlt) hi1 hy
        exact ⟨evs, s, by rw [if_neg hc]; exact hg⟩
    obtain ⟨evs, s, hc⟩ := this
    have e1 : m2.trace = y.trace := by rw [← h2]
    have e2 : m2.files = y.files := by rw [← h2]
    have e3 : m2.explored = f.repo :: y.explored := by rw [← h2]
    have e4 : m2.v = y.v := by rw [← h2]
    have ep : ∀ i, m2.pathOf i = y.pathOf i := by intro i; unfold M.pathOf; rw [e2]
    refine ⟨evs, ?_, ?_, ?_, ?_⟩
    · rw [← h]; show m2.trace = _; rw [e1, s.trace, f3]; simp
    · intro i hi'; rw [← h]; show i < m2.files.length; rw [e2]; exact s.lt i hi'
    · intro r
      simp only [hpath, ep]
      rw [← h]
      show r ∈ m2.explored ↔ _
      rw [e3, List.mem_cons, s.expl, f7]
      constructor
      · rintro (h | h | h)
        · exact .inr (.inr ⟨hb.1, hb.2, h.symm⟩)
        · exact .inl h
        · exact .inr (.inl h)
      · rintro (h | h | ⟨_, _, h⟩)
        · exact .inr (.inl h)
        · exact .inr (.inr h)
        · exact .inl h.symm
    · intro _ _
      split at hc
      · rename_i hc'
        rw [if_pos hc']
        obtain ⟨h1, h2⟩ := hc
        refine ⟨h1, ?_, ?_⟩
        · rw [← h]; show m2.v = _; rw [e4, h2, f5]
        · rw [← h]; show m2.files = _; rw [e2, h2, f1]
      · rename_i hc'
        rw [if_neg hc']
        have : m'.files = y.files := by rw [← h]; exact e2
        generalize (W.getRepository m.clock f).1 = cs at hc
        clear hc' s
        induction hc with
        | nil => exact .nil
        | cons hg _ ih =>
          obtain ⟨i, h1, h2⟩ := hg
          exact .cons ⟨i, h1, by rw [this]; exact h2⟩ ih

/-- In an exploration without manifests: a path or repository is marked as explored exactly if a file with this path was given to the
    validator, or a manifest of this repository was taken. -/
theorem explored_exact {W : World} {v : V} {m : M} (h : Later W (fun cfg => cfg.notMFT = true) (M.new v) m) :
    (∀ i ∈ added m.trace, i < m.files.length) ∧ (∀ r, r ∈ m.explored ↔ RepoTaken m r ∨ PathAdded m r) := by
  refine (later_ind (P := fun m => (∀ i ∈ added m.trace, i < m.files.length) ∧
    (∀ r, r ∈ m.explored ↔ RepoTaken m r ∨ PathAdded m r)) (minv_new v) ?_ ?_ ?_ h).2.2
  · simp [M.new, added, RepoTaken, PathAdded, taken]
  · intro m1 fs _ hi ⟨h1, h2⟩ hp
    obtain ⟨hk, g1, g2, g3, g4, g5⟩ := keeps_putFiles fs m1 (put_initial fs hp)
    refine ⟨?_, ?_⟩
    · rw [g2, g1]; intro i hi'; have := h1 i hi'; simp; omega
    · intro r
      rw [g3, h2]
      unfold RepoTaken PathAdded
      rw [g2, g1]
      constructor
      · rintro (⟨i, f, a, b, c⟩ | ⟨i, a, b⟩)
        · exact .inl ⟨i, f, a, by rw [List.getElem?_append_left ((List.getElem?_eq_some_iff.mp b).1)]; exact b, c⟩
        · exact .inr ⟨i, a, by rw [pathOf_append g1 hi.par (h1 i a)]; exact b⟩
      · rintro (⟨i, f, a, b, c⟩ | ⟨i, a, b⟩)
        · refine .inl ⟨i, f, a, ?_, c⟩
          rwa [List.getElem?_append_left (hi.lt i (List.mem_append_left _ a))] at b
        · exact .inr ⟨i, a, by rw [pathOf_append g1 hi.par (h1 i a)] at b; exact b⟩
  · intro m1 m2 cfg fid f rest _ hi ⟨h1, h2⟩ hc hs hr
    obtain ⟨evs, rs⟩ := round_saw hi hr hs
    obtain ⟨l, hl⟩ := hr.files
    obtain ⟨evs', t1, t2, _⟩ := hr.trace
    have hev : evs' = evs := by have := t1.symm.trans rs.trace; simpa using this
    subst hev
    have htk : taken m2.trace = taken m1.trace ++ [fid] := by rw [t1, taken_append]; simp [taken, t2]
    have had : added m2.trace = added m1.trace ++ added evs' := by rw [t1, added_append]; simp [added]
    refine ⟨?_, ?_⟩
    · rw [had]
      intro i hi'
      rcases List.mem_append.mp hi' with hi' | hi'
      · have := h1 i hi'; rw [hl]; simp; omega
      · exact rs.lt i hi'
    · intro r
      rw [rs.expl, h2]
      have hfid : m2.files[fid]? = some f := by
        rw [hl, List.getElem?_append_left ((List.getElem?_eq_some_iff.mp hr.file).1)]; exact hr.file
      constructor
      · rintro ((⟨i, g, a, b, c⟩ | ⟨i, a, b⟩) | ⟨i, a, b⟩ | ⟨_, a, b⟩)
        · exact .inl ⟨i, g, by rw [htk]; simp [a], by rw [hl, List.getElem?_append_left ((List.getElem?_eq_some_iff.mp b).1)]; exact b, c⟩
        · exact .inr ⟨i, by rw [had]; simp [a], by rw [pathOf_append hl hi.par (h1 i a)]; exact b⟩
        · exact .inr ⟨i, by rw [had]; simp [a], b⟩
        · exact .inl ⟨fid, f, by rw [htk]; simp, hfid, a, b⟩
      · rintro (⟨i, g, a, b, c⟩ | ⟨i, a, b⟩)
        · rw [htk] at a
          rcases List.mem_append.mp a with a | a
          · rw [hl, List.getElem?_append_left (hi.lt i (List.mem_append_left _ a))] at b
            exact .inl (.inl ⟨i, g, a, b, c⟩)
          · simp at a; subst a
            rw [hfid] at b; simp at b; subst b
            exact .inr (.inr ⟨hc, c⟩)
        · rw [had] at a
          rcases List.mem_append.mp a with a | a
          · exact .inl (.inr ⟨i, a, by rw [← pathOf_append hl hi.par (h1 i a)]; exact b⟩)
          · exact .inr (.inl ⟨i, a, b⟩)

end Verif.Manager
