import Verif.Spec.Manager
import Verif.Lemmas.PkiTerm
/-
  Invariants of the manager.
-/
set_option autoImplicit false

namespace Verif.Manager
open Pki ManagerSpec

theorem taken_append (a b : List Event) : taken (a ++ b) = taken a ++ taken b := by
  induction a with
  | nil => rfl
  | cons e r ih => cases e <;> simp [taken, ih]

theorem fetched_append (a b : List Event) : fetched (a ++ b) = fetched a ++ fetched b := by
  induction a with
  | nil => rfl
  | cons e r ih => cases e <;> simp [fetched, ih]

theorem added_append (a b : List Event) : added (a ++ b) = added a ++ added b := by
  induction a with
  | nil => rfl
  | cons e r ih => cases e <;> simp [added, ih]

/-! ### Paths are stable -/

theorem computePath_append {files l : List PKIFile} {f : PKIFile}
    (h : ∀ p, f.parent = some p → p < files.length) : f.computePath (files ++ l) = f.computePath files := by
  unfold PKIFile.computePath
  cases hp : f.parent with
  | none => rfl
  | some p =>
    have := h p hp
    simp [List.getElem?_append_left this]

def ParOK (files : List PKIFile) : Prop := ∀ (i : Nat) (f : PKIFile) (p : Nat), files[i]? = some f → f.parent = some p → p < i

theorem pathOf_append {m m' : M} {l : List PKIFile} (hf : m'.files = m.files ++ l) (hp : ParOK m.files)
    {i : Nat} (hi : i < m.files.length) : m'.pathOf i = m.pathOf i := by
  unfold M.pathOf
  rw [hf, List.getElem?_append_left hi]
  obtain ⟨f, hfi⟩ : ∃ f, m.files[i]? = some f := ⟨_, List.getElem?_eq_getElem hi⟩
  rw [hfi]
  exact computePath_append (fun p h => Nat.lt_trans (hp i f p hfi h) hi)

/-! ### The invariant -/

structure MInv (m : M) : Prop where
  par : ParOK m.files
  lt : ∀ i ∈ entered m, i < m.files.length
  nd : ((entered m).map m.pathOf).Nodup
  uniq : ∀ p, p ∈ m.unique ↔ p ∈ (entered m).map m.pathOf
  res : ∀ e ∈ m.resOf, e.1 ∉ m.queue ∧ e.1 < m.files.length

theorem minv_new (v : V) : MInv (M.new v) := by
  constructor <;> simp [M.new, entered, taken, fetched, ParOK]

/-- What every part of a round does. -/
structure Grow (m m' : M) : Prop where
  files : ∃ l, m'.files = m.files ++ l
  queue : ∃ q, m'.queue = m.queue ++ q ∧ ∀ i ∈ q, m.files.length ≤ i
  taken : taken m'.trace = taken m.trace
  clock : m'.clock = m.clock
  expl : ∀ p ∈ m.explored, p ∈ m'.explored

theorem Grow.refl (m : M) : Grow m m := ⟨⟨[], by simp⟩, ⟨[], by simp, by simp⟩, rfl, rfl, fun _ h => h⟩

theorem Grow.trans {a b c : M} (h : Grow a b) (h' : Grow b c) : Grow a c := by
  obtain ⟨⟨l, h1⟩, ⟨q, h2, h2'⟩, h3, h4, h5⟩ := h
  obtain ⟨⟨l', g1⟩, ⟨q', g2, g2'⟩, g3, g4, g5⟩ := h'
  refine ⟨⟨l ++ l', by rw [g1, h1, List.append_assoc]⟩, ⟨q ++ q', by rw [g2, h2, List.append_assoc], ?_⟩,
    by rw [g3, h3], by rw [g4, h4], fun p hp => g5 p (h5 p hp)⟩
  intro i hi
  rcases List.mem_append.mp hi with hi | hi
  · exact h2' i hi
  · have := g2' i hi
    rw [h1] at this
    simp at this
    omega

theorem Grow.entered {m m' : M} (h : Grow m m') : entered m <+: entered m' := by
  obtain ⟨q, hq, _⟩ := h.queue
  unfold ManagerSpec.entered
  rw [h.taken, hq, ← List.append_assoc]
  exact List.prefix_append _ _

theorem Grow.len {m m' : M} (h : Grow m m') : m.files.length ≤ m'.files.length := by
  obtain ⟨l, hl⟩ := h.files
  rw [hl]; simp

/-- Growth with the invariant kept. -/
def Keeps (m m' : M) : Prop := Grow m m' ∧ (MInv m → MInv m')

theorem Keeps.refl (m : M) : Keeps m m := ⟨Grow.refl m, id⟩
theorem Keeps.trans {a b c : M} (h : Keeps a b) (h' : Keeps b c) : Keeps a c :=
  ⟨h.1.trans h'.1, fun hi => h'.2 (h.2 hi)⟩

/-! ### Adding files to the queue -/

theorem parOK_append {files : List PKIFile} (h : ParOK files) {f : PKIFile}
    (hf : ∀ p, f.parent = some p → p < files.length) : ParOK (files ++ [f]) := by
  intro i g p hi hp
  rcases Nat.lt_or_ge i files.length with hlt | hge
  · rw [List.getElem?_append_left hlt] at hi
    exact h i g p hi hp
  · rw [List.getElem?_append_right hge] at hi
    have h0 : i - files.length = 0 := by
      rcases Nat.eq_zero_or_pos (i - files.length) with h | h
      · exact h
      · rw [List.getElem?_eq_none (by simp; omega)] at hi; simp at hi
    rw [h0] at hi
    simp at hi
    subst hi
    have := hf p hp
    omega

theorem put1_fields (m : M) (f : PKIFile) : (m.put1 f).files = m.files ++ [f] ∧
    (m.put1 f).trace = m.trace ∧ (m.put1 f).explored = m.explored ∧ (m.put1 f).resOf = m.resOf ∧
    (m.put1 f).clock = m.clock ∧ (m.put1 f).v = m.v := by
  unfold M.put1
  simp only []
  split <;> simp

theorem pathOf_new {m m' : M} {f : PKIFile} (hf : m'.files = m.files ++ [f])
    (hp : ∀ p, f.parent = some p → p < m.files.length) :
    m'.pathOf m.files.length = f.computePath m.files := by
  unfold M.pathOf
  rw [hf]
  simp only [List.getElem?_concat_length]
  exact computePath_append hp

theorem map_pathOf {m m' : M} {l : List PKIFile} (hf : m'.files = m.files ++ l) (hp : ParOK m.files)
    {ids : List Nat} (hi : ∀ i ∈ ids, i < m.files.length) : ids.map m'.pathOf = ids.map m.pathOf :=
  List.map_congr_left (fun i h => pathOf_append hf hp (hi i h))

theorem keeps_put1 (m : M) (f : PKIFile) (hp : ∀ p, f.parent = some p → p < m.files.length) :
    Keeps m (m.put1 f) := by
  obtain ⟨h1, h2, h3, h4, h5, h6⟩ := put1_fields m f
  have hq : (m.put1 f).queue = m.queue ∧ (m.put1 f).unique = m.unique ∨
      (m.put1 f).queue = m.queue ++ [m.files.length] ∧
      (m.put1 f).unique = f.computePath m.files :: m.unique ∧ f.computePath m.files ∉ m.unique := by
    unfold M.put1
    simp only []
    split
    · exact .inl ⟨rfl, rfl⟩
    · rename_i h
      exact .inr ⟨rfl, rfl, fun hh => h (.inr hh)⟩
  refine ⟨⟨⟨[f], h1⟩, ?_, by rw [h2], h5, by rw [h3]; exact fun _ h => h⟩, ?_⟩
  · rcases hq with ⟨h, _⟩ | ⟨h, _⟩
    · exact ⟨[], by rw [h]; simp, by simp⟩
    · exact ⟨_, h, by simp⟩
  · intro hi
    have hpar : ParOK (m.put1 f).files := by rw [h1]; exact parOK_append hi.par hp
    rcases hq with ⟨hq, hu⟩ | ⟨hq, hu, hnew⟩
    · have hent : entered (m.put1 f) = entered m := by unfold entered; rw [hq, h2]
      have hmap := map_pathOf h1 hi.par hi.lt
      refine ⟨hpar, ?_, ?_, ?_, ?_⟩
      · intro i hh
        rw [hent] at hh
        have := hi.lt i hh
        rw [h1]; simp; omega
      · rw [hent, hmap]; exact hi.nd
      · rw [hu, hent, hmap]; exact hi.uniq
      · rw [h4, hq, h1]
        intro e he
        have := hi.res e he
        exact ⟨this.1, by simp; omega⟩
    · have hent : entered (m.put1 f) = entered m ++ [m.files.length] := by
        unfold entered; rw [hq, h2, List.append_assoc]
      have hmap : (entered (m.put1 f)).map (m.put1 f).pathOf = (entered m).map m.pathOf ++ [f.computePath m.files] := by
        rw [hent, List.map_append, map_pathOf h1 hi.par hi.lt]
        simp [pathOf_new h1 hp]
      refine ⟨hpar, ?_, ?_, ?_, ?_⟩
      · intro i hh
        rw [hent] at hh
        rw [h1]
        simp at hh ⊢
        rcases hh with hh | hh
        · have := hi.lt i hh; omega
        · omega
      · rw [hmap, List.nodup_append]
        refine ⟨hi.nd, by simp, ?_⟩
        intro a ha b hb hab
        simp at hb
        rw [hab, hb] at ha
        exact hnew ((hi.uniq _).mpr ha)
      · intro p
        rw [hu, hmap]
        simp only [List.mem_cons, List.mem_append, List.not_mem_nil, or_false]
        rw [hi.uniq p]
        exact Or.comm
      · rw [h4, hq, h1]
        intro e he
        have := hi.res e he
        refine ⟨?_, by simp; omega⟩
        intro hh
        simp at hh
        rcases hh with hh | hh
        · exact this.1 hh
        · omega

theorem keeps_putFiles : ∀ (l : List PKIFile) (m : M),
    (∀ f ∈ l, ∀ p, f.parent = some p → p < m.files.length) →
    Keeps m (m.putFiles l) ∧ (m.putFiles l).files = m.files ++ l ∧ (m.putFiles l).trace = m.trace ∧
    (m.putFiles l).explored = m.explored ∧ (m.putFiles l).resOf = m.resOf ∧
    (m.putFiles l).v = m.v := by
  intro l
  induction l with
  | nil => intro m _; exact ⟨Keeps.refl m, by simp [M.putFiles]⟩
  | cons f r ih =>
    intro m h
    have hk := keeps_put1 m f (h f (by simp))
    obtain ⟨h1, h2, h3, h4, h5, h6⟩ := put1_fields m f
    obtain ⟨g, g1, g2, g3, g4, g5⟩ := ih (m.put1 f) (by
      intro x hx p hp
      have := h x (by simp [hx]) p hp
      rw [h1]; simp; omega)
    have e : m.putFiles (f :: r) = (m.put1 f).putFiles r := rfl
    rw [e]
    refine ⟨hk.trans g, ?_, by rw [g2, h2], by rw [g3, h3], by rw [g4, h4], by rw [g5, h6]⟩
    rw [g1, h1, List.append_assoc]
    rfl

/-- A file that is put is known afterwards: its path has entered the queue at some time, or was explored. -/
theorem put_known : ∀ (l : List PKIFile) (m : M) (f : PKIFile), MInv m →
    (∀ f ∈ l, ∀ p, f.parent = some p → p < m.files.length) → f ∈ l →
    f.computePath m.files ∈ (entered (m.putFiles l)).map (m.putFiles l).pathOf ∨
      f.computePath m.files ∈ m.explored := by
  intro l
  induction l with
  | nil => intro m f _ _ h; simp at h
  | cons g r ih =>
    intro m f hi hp hf
    have hk := keeps_put1 m g (hp g (by simp))
    obtain ⟨h1, h2, h3, h4, h5, h6⟩ := put1_fields m g
    have hp' : ∀ f ∈ r, ∀ p, f.parent = some p → p < (m.put1 g).files.length := by
      intro x hx p hxp
      have := hp x (by simp [hx]) p hxp
      rw [h1]; simp; omega
    have hk' := (keeps_putFiles r (m.put1 g) hp').1
    have e : m.putFiles (g :: r) = (m.put1 g).putFiles r := rfl
    rw [e]
    rcases List.mem_cons.mp hf with rfl | hf
    · by_cases hx : f.computePath m.files ∈ m.explored
      · exact .inr hx
      · left
        rw [← (hk'.2 (hk.2 hi)).uniq]
        have hu : f.computePath m.files ∈ (m.put1 f).unique := by
          unfold M.put1
          simp only []
          split
          · rename_i h
            rcases h with h | h
            · exact (hx h).elim
            · exact h
          · simp
        rw [(hk.2 hi).uniq] at hu
        rw [(hk'.2 (hk.2 hi)).uniq]
        obtain ⟨i, hi1, hi2⟩ := List.mem_map.mp hu
        refine List.mem_map.mpr ⟨i, hk'.1.entered.subset hi1, ?_⟩
        rw [← hi2]
        obtain ⟨l, hl⟩ := hk'.1.files
        exact pathOf_append hl (hk.2 hi).par ((hk.2 hi).lt i hi1)
    · have := ih (m.put1 g) f (hk.2 hi) hp' hf
      rw [h1, computePath_append (hp f (by simp [hf])), h3] at this
      exact this

/-! ### The parts of a round -/

/-- Only the validator changed, by invalidations. -/
def OnlyV (W : World) (m m' : M) : Prop :=
  ∃ v ops, m' = { m with v := v } ∧ V.run W.env m.v ops = .ok v ∧ (∀ op ∈ ops, ∃ k, op = .invalidate k)

theorem OnlyV.refl (W : World) (m : M) : OnlyV W m m := ⟨m.v, [], rfl, rfl, by simp⟩

theorem OnlyV.trans {W : World} {a b c : M} (h : OnlyV W a b) (h' : OnlyV W b c) : OnlyV W a c := by
  obtain ⟨v, ops, rfl, h2, h3⟩ := h
  obtain ⟨v', ops', rfl, g2, g3⟩ := h'
  refine ⟨v', ops ++ ops', rfl, (run_append ops ops' _ _).mpr ⟨v, h2, g2⟩, ?_⟩
  intro op ho
  rcases List.mem_append.mp ho with ho | ho
  · exact h3 op ho
  · exact g3 op ho

theorem OnlyV.keeps {W : World} {m m' : M} (h : OnlyV W m m') : Keeps m m' := by
  obtain ⟨v, ops, rfl, _⟩ := h
  refine ⟨⟨⟨[], by simp⟩, ⟨[], by simp, by simp⟩, rfl, rfl, fun _ h => h⟩, ?_⟩
  intro hi
  exact ⟨hi.par, hi.lt, hi.nd, hi.uniq, hi.res⟩

theorem onlyV_logged {W : World} {cfg : Cfg} {m m' : M} (h : logged cfg m = .ok m') : OnlyV W m m' := by
  unfold logged at h
  split at h
  · simp at h; subst h; exact OnlyV.refl W m
  · simp at h

theorem onlyV_invalidateRes {W : World} {cfg : Cfg} {m m' : M} {res : Option Nat}
    (h : m.invalidateRes cfg res = .ok m') : OnlyV W m m' := by
  unfold M.invalidateRes at h
  split at h
  · split at h
    · rename_i c _
      obtain ⟨v, hv, h⟩ := Go.bind_eq_ok.mp h
      simp at h
      subst h
      exact ⟨v, [.invalidate c.ski], rfl, by simp [V.run, V.step, hv], by simp⟩
    · exact onlyV_logged h
  · exact onlyV_logged h

theorem onlyV_invalidateManifestParent {W : World} {cfg : Cfg} {m m' : M} {f : PKIFile}
    (h : m.invalidateManifestParent cfg f = .ok m') : OnlyV W m m' := by
  unfold M.invalidateManifestParent at h
  split at h
  · exact onlyV_invalidateRes h
  · simp at h; subst h; exact OnlyV.refl W m

theorem onlyV_invalidateCRLParent {W : World} {cfg : Cfg} {m m' : M} {f : PKIFile}
    (h : m.invalidateCRLParent cfg f = .ok m') : OnlyV W m m' := by
  unfold M.invalidateCRLParent at h
  split at h
  · exact onlyV_invalidateRes h
  · simp at h; subst h; exact OnlyV.refl W m

theorem onlyV_checkExpired {W : World} {cfg : Cfg} {m m' : M} {f : PKIFile}
    (h : m.checkExpired cfg W f = .ok m') : OnlyV W m m' := by
  unfold M.checkExpired at h
  repeat' split at h
  all_goals first
    | (exact onlyV_invalidateManifestParent h)
    | (exact onlyV_logged h)
    | (simp at h; subst h; exact OnlyV.refl W m)

theorem onlyV_checkHash {W : World} {cfg : Cfg} {m : M} {f : PKIFile} {r : Fetch} {x : M × Fetch}
    (h : m.checkHash cfg W f r = .ok x) : OnlyV W m x.1 := by
  unfold M.checkHash at h
  repeat' split at h
  all_goals first
    | (simp at h; subst h; exact OnlyV.refl W m)
    | skip
  all_goals
    obtain ⟨m1, hm, h⟩ := Go.bind_eq_ok.mp h
    simp at h
    subst h
    exact onlyV_checkExpired hm

theorem minv_exploreAdd {W : World} {m m' : M} {fid : Nat} {data : Bytes} {sha : Option Bytes} {ai : Bool}
    (hlt : fid < m.files.length) (hq : fid ∉ m.queue)
    (h : m.exploreAdd W fid data sha ai = .ok m') :
    Keeps m m' ∧ fid ∉ m'.queue ∧ m'.trace = m.trace ++ [.added fid data sha] ∧
    (m'.resOf = m.resOf ∨ ∃ r, m'.resOf = (fid, r) :: m.resOf) ∧ m.pathOf fid ∈ m'.explored ∧
    (∃ l, m'.files = m.files ++ l ∧ ∀ f ∈ l, f.parent = some fid) ∧
    ∃ a, m.v.addResource W.env m.files fid data = .ok (m'.v, a) ∧
      (m'.files ≠ m.files → m'.resOf = (fid, a.res) :: m.resOf ∧ a.files ≠ []) ∧
      ((ai = true ∨ a.valid = true) → m'.resOf = (fid, a.res) :: m.resOf ∧
        (MInv m → ∀ f ∈ withParent fid a.files, f.computePath m.files ∈ (entered m').map m'.pathOf ∨ f.computePath m.files ∈ m'.explored)) := by
  unfold M.exploreAdd at h
  obtain ⟨⟨v1, a⟩, ha, h⟩ := Go.bind_eq_ok.mp h
  simp only [] at h
  have hbase : ∀ t : List Event, taken t = [] → fetched t = [] → ∀ v' ex,
      Keeps m { m with v := v', explored := ex :: m.explored, trace := m.trace ++ t } := by
    intro t ht hf v' ex
    refine ⟨⟨⟨[], by simp⟩, ⟨[], by simp, by simp⟩, by simp [taken_append, ht], rfl, ?_⟩, ?_⟩
    · intro p hp; simp [hp]
    · intro hi
      have e : entered { m with v := v', explored := ex :: m.explored, trace := m.trace ++ t } = entered m := by
        simp [entered, taken_append, ht]
      refine ⟨hi.par, ?_, ?_, ?_, hi.res⟩
      · rw [e]; exact hi.lt
      · rw [e]; exact hi.nd
      · rw [e]; exact hi.uniq
  have hb := hbase [.added fid data sha] rfl rfl v1 (m.pathOf fid)
  generalize hm1 : ({ m with v := v1, explored := m.pathOf fid :: m.explored, trace := m.trace ++ [.added fid data sha] } : M) = m1 at h hb
  have f1 : m1.files = m.files := by rw [← hm1]
  have f2 : m1.trace = m.trace ++ [.added fid data sha] := by rw [← hm1]
  have f3 : m1.resOf = m.resOf := by rw [← hm1]
  have f4 : m.pathOf fid ∈ m1.explored := by rw [← hm1]; simp
  have f5 : m1.v = v1 := by rw [← hm1]
  have f6 : m1.queue = m.queue := by rw [← hm1]
  split at h
  · simp only [Go.pure_def, Go.ok.injEq] at h
    obtain ⟨hk, g1, g2, g3, g4, g5⟩ := keeps_putFiles (withParent fid a.files) m1 (by
      intro f hf p hp
      simp [withParent] at hf
      obtain ⟨x, _, rfl⟩ := hf
      simp at hp
      subst hp
      rw [f1]; exact hlt)
    generalize hm2 : m1.putFiles (withParent fid a.files) = m2 at h hk g1 g2 g3 g4 g5
    have hnq : fid ∉ m2.queue := by
      obtain ⟨q, hq1, hq2⟩ := hk.1.queue
      rw [hq1, f6]
      intro hh
      rcases List.mem_append.mp hh with hh | hh
      · exact hq hh
      · have := hq2 _ hh
        rw [f1] at this
        omega
    have hl2 : fid < m2.files.length := by have := hk.1.len; rw [f1] at this; omega
    subst h
    refine ⟨?_, hnq, by simp only [g2, f2], .inr ⟨a.res, by simp only [g4, f3]⟩, hk.1.expl _ f4,
      ⟨withParent fid a.files, by simp only [g1, f1], by simp [withParent]⟩, a, by rw [ha, ← f5, ← g5], ?_, ?_⟩
    rotate_left
    · intro hne
      refine ⟨by simp only [g4, f3], ?_⟩
      intro he
      apply hne
      simp only [g1, f1, he]
      simp [withParent]
    · intro _
      refine ⟨by simp only [g4, f3], ?_⟩
      intro hi f hf
      have hkn := put_known (withParent fid a.files) m1 f (hb.2 hi) (by
        intro f hf p hp
        simp [withParent] at hf
        obtain ⟨x, _, rfl⟩ := hf
        simp at hp
        subst hp
        rw [f1]; exact hlt) hf
      rw [hm2, f1] at hkn
      rcases hkn with hkn | hkn
      · exact .inl hkn
      · exact .inr (hk.1.expl _ hkn)
    refine (hb.trans hk).trans ⟨⟨⟨[], by simp⟩, ⟨[], by simp, by simp⟩, rfl, rfl, fun _ h => h⟩, ?_⟩
    intro hi
    refine ⟨hi.par, hi.lt, hi.nd, hi.uniq, ?_⟩
    intro e he
    simp at he
    rcases he with rfl | he
    · exact ⟨hnq, hl2⟩
    · exact hi.res e he
  · simp at h
    subst h
    refine ⟨hb, by rw [f6]; exact hq, f2, .inl f3, f4, ⟨[], by simp [f1], by simp⟩, a, by rw [f5]; exact ha,
      fun hne => (hne f1).elim, ?_⟩
    rename_i hno
    intro hh
    simp at hno
    rcases hh with hh | hh
    · rw [hno.1] at hh; simp at hh
    · rw [hno.2] at hh; simp at hh

/-! ### A round -/

/-- The validator got from `v` to `v'` by operations that trust only `T`. -/
def VRun (env : Env) (T : Bytes → Prop) (v v' : V) : Prop :=
  ∃ ops, (∀ op ∈ ops, PkiSpec.TrustsOnly env T op) ∧ V.run env v ops = .ok v'

theorem VRun.refl (env : Env) (T : Bytes → Prop) (v : V) : VRun env T v v := ⟨[], by simp, rfl⟩

theorem VRun.trans {env : Env} {T : Bytes → Prop} {a b c : V} (h : VRun env T a b) (h' : VRun env T b c) :
    VRun env T a c := by
  obtain ⟨o, h1, h2⟩ := h
  obtain ⟨o', g1, g2⟩ := h'
  refine ⟨o ++ o', ?_, (run_append o o' _ _).mpr ⟨b, h2, g2⟩⟩
  intro op ho
  rcases List.mem_append.mp ho with ho | ho
  · exact h1 op ho
  · exact g1 op ho

theorem OnlyV.vrun {W : World} {T : Bytes → Prop} {m m' : M} (h : OnlyV W m m') : VRun W.env T m.v m'.v := by
  obtain ⟨v, ops, rfl, h2, h3⟩ := h
  refine ⟨ops, ?_, h2⟩
  intro op ho
  obtain ⟨k, rfl⟩ := h3 op ho
  simp [PkiSpec.TrustsOnly]

/-- What a round for file `fid` does. -/
structure Part (W : World) (fid : Nat) (m m' : M) : Prop where
  keeps : Keeps m m'
  nq : fid ∉ m.queue → fid ∉ m'.queue
  res : ∀ i, i < m.files.length → i ≠ fid → m'.resOf.lookup i = m.resOf.lookup i

theorem lookup_cons_ne {i j : Nat} {r : Option Nat} {l : List (Nat × Option Nat)} (h : i ≠ j) :
    List.lookup i ((j, r) :: l) = List.lookup i l := by
  have : (i == j) = false := by simpa using h
  simp [List.lookup, this]

theorem OnlyV.part {W : World} {m m' : M} (h : OnlyV W m m') (fid : Nat) : Part W fid m m' := by
  refine ⟨h.keeps, ?_, ?_⟩
  all_goals obtain ⟨v, ops, rfl, _⟩ := h; simp

theorem onlyV_fields {W : World} {m m' : M} (h : OnlyV W m m') : m'.files = m.files ∧ m'.queue = m.queue ∧
    m'.trace = m.trace ∧ m'.explored = m.explored ∧ m'.resOf = m.resOf ∧ m'.clock = m.clock ∧ m'.unique = m.unique := by
  obtain ⟨v, ops, rfl, _⟩ := h
  simp

theorem part_runCalls {W : World} {T : Bytes → Prop} {fid : Nat} : ∀ (cs : List Call) (m m' : M),
    fid < m.files.length → fid ∉ m.queue → MInv m → runCalls W fid cs m = .ok m' →
    (Part W fid m m') ∧ (∃ evs, m'.trace = m.trace ++ evs ∧ taken evs = [] ∧ fetched evs = []) ∧
    ((∀ c ∈ cs, ∀ x, c.file.trust = true → W.env.parseCert c.data = .ok x → T x.ski) → VRun W.env T m.v m'.v) := by
  intro cs
  induction cs with
  | nil =>
    intro m m' _ _ _ h
    simp [runCalls] at h; subst h
    exact ⟨⟨Keeps.refl m, id, fun _ _ _ => rfl⟩, ⟨[], by simp, rfl, rfl⟩, fun _ => VRun.refl _ _ _⟩
  | cons c rest ih =>
    intro m m' hlt hq hi h
    unfold runCalls at h
    obtain ⟨m2, h2, h⟩ := Go.bind_eq_ok.mp h
    have hk0 : Keeps m { m with files := m.files ++ [{ c.file with parent := some fid }] } := by
      refine ⟨⟨⟨_, rfl⟩, ⟨[], by simp, by simp⟩, rfl, rfl, fun _ h => h⟩, ?_⟩
      intro hi
      have hmap : ∀ m' : M, m'.files = m.files ++ [{ c.file with parent := some fid }] →
          (entered m).map m'.pathOf = (entered m).map m.pathOf := fun m' h => map_pathOf h hi.par hi.lt
      refine ⟨?_, ?_, ?_, ?_, ?_⟩
      · exact parOK_append hi.par (by simp; omega)
      · intro i hh
        have := hi.lt i hh
        simp; omega
      · have := hi.nd
        rw [← hmap { m with files := m.files ++ [{ c.file with parent := some fid }] } rfl] at this
        exact this
      · have := hi.uniq
        rw [← hmap { m with files := m.files ++ [{ c.file with parent := some fid }] } rfl] at this
        exact this
      · intro e he
        have := hi.res e he
        exact ⟨this.1, by simp; omega⟩
    generalize hm1 : ({ m with files := m.files ++ [{ c.file with parent := some fid }] } : M) = m1 at h2 hk0
    have f1 : m1.files = m.files ++ [{ c.file with parent := some fid }] := by rw [← hm1]
    have f2 : m1.queue = m.queue := by rw [← hm1]
    have f3 : m1.trace = m.trace := by rw [← hm1]
    have f4 : m1.resOf = m.resOf := by rw [← hm1]
    have f5 : m1.v = m.v := by rw [← hm1]
    obtain ⟨hk, hnq, htr, hres, _, _, a, ha, _⟩ := minv_exploreAdd (fid := m.files.length) (by rw [f1]; simp) (by
      rw [f2]
      intro hh
      have := hi.lt _ (by unfold entered; exact List.mem_append_right _ hh)
      omega) h2
    have hlen : fid < m2.files.length := Nat.lt_of_lt_of_le hlt (hk0.1.trans hk.1).len
    have hq2 : fid ∉ m2.queue := by
      obtain ⟨q, hq1, hq2⟩ := (hk0.1.trans hk.1).queue
      rw [hq1]
      intro hh
      rcases List.mem_append.mp hh with hh | hh
      · exact hq hh
      · have := hq2 _ hh; omega
    obtain ⟨hp, ⟨evs, hf, he1, he2⟩, hv⟩ := ih m2 m' hlen hq2 (hk.2 (hk0.2 hi)) h
    refine ⟨⟨(hk0.trans hk).trans hp.keeps, fun _ => hp.nq hq2, ?_⟩, ?_, ?_⟩
    · intro i hlt' hne
      rw [hp.res i (Nat.lt_of_lt_of_le hlt' (hk0.1.trans hk.1).len) hne]
      rcases hres with hres | ⟨r, hres⟩
      · rw [hres, f4]
      · rw [hres, f4, lookup_cons_ne (by omega)]
    · exact ⟨.added m.files.length c.data c.sha :: evs, by rw [hf, htr, f3]; simp,
        by simp [taken, he1], by simp [fetched, he2]⟩
    · intro ht
      refine VRun.trans ?_ (hv (fun c hc => ht c (by simp [hc])))
      refine ⟨[.addResource m1.files m.files.length c.data], ?_, ?_⟩
      · intro op ho
        simp at ho
        subst ho
        intro f x hf htr hx
        rw [f1] at hf
        simp at hf
        subst hf
        exact ht c (by simp) x htr hx
      · simp [V.run, V.step, ← f5, ha]

theorem trace_keeps {m : M} (t : List Event) (ht : taken t = []) : Keeps m { m with trace := m.trace ++ t } := by
  refine ⟨⟨⟨[], by simp⟩, ⟨[], by simp, by simp⟩, by simp [taken_append, ht], rfl, fun _ h => h⟩, ?_⟩
  intro hi
  have e : entered { m with trace := m.trace ++ t } = entered m := by simp [entered, taken_append, ht]
  refine ⟨hi.par, ?_, ?_, ?_, hi.res⟩
  · rw [e]; exact hi.lt
  · rw [e]; exact hi.nd
  · rw [e]; exact hi.uniq

/-- The answer that is used for a file: after the check of the hash. -/
def judged (cfg : Cfg) (f : PKIFile) (r : Fetch) : Fetch :=
  match r with
  | .found data (some sha) =>
    match f.manifestHash with
    | some h => if cfg.strictHash = true ∧ sha ≠ h then .fail else .found data (some sha)
    | none => .found data (some sha)
  | r => r

theorem checkHash_judged {W : World} {cfg : Cfg} {m : M} {f : PKIFile} {r : Fetch} {x : M × Fetch}
    (h : m.checkHash cfg W f r = .ok x) : x.2 = judged cfg f r := by
  unfold M.checkHash at h
  unfold judged
  repeat' split at h
  all_goals first
    | (obtain ⟨m1, hm, h⟩ := Go.bind_eq_ok.mp h; simp at h; subst h; simp_all)
    | (simp at h; subst h; simp_all)

/-- The answer of `GetNextFile`. -/
def answer (cfg : Cfg) (W : World) (m : M) (fid : Nat) (f : PKIFile) : Fetch :=
  if m.pathOf fid ∈ m.explored ∨ cfg.hasSeeker = false then .fail else W.getFile m.clock (m.pathOf fid) f

theorem onlyV_strict {W : World} {cfg : Cfg} {m m' : M} {f : PKIFile} (h : m.strict cfg f = .ok m') :
    OnlyV W m m' := by
  unfold M.strict at h
  split at h
  · exact onlyV_invalidateManifestParent h
  · simp at h; subst h; exact OnlyV.refl W m

theorem useAnswer_cases {W : World} {cfg : Cfg} {m m' : M} {fid : Nat} {f : PKIFile} {r : Fetch}
    (h : m.useAnswer cfg W fid f r = .ok m') :
    ((r = .fail ∨ r = .absent) ∧ OnlyV W m m') ∨
    (∃ data sha, r = .found data sha ∧ m.exploreAdd W fid data sha cfg.addInvalidChilds = .ok m') := by
  unfold M.useAnswer at h
  split at h
  · obtain ⟨m1, h1, h⟩ := Go.bind_eq_ok.mp h
    exact .inl ⟨.inl rfl, OnlyV.trans (onlyV_strict h1) (onlyV_invalidateCRLParent h)⟩
  · exact .inl ⟨.inr rfl, onlyV_strict h⟩
  · exact .inr ⟨_, _, rfl, h⟩

theorem judged_found {cfg : Cfg} {f : PKIFile} {r : Fetch} {data : Bytes} {sha : Option Bytes}
    (h : judged cfg f r = .found data sha) : r = .found data sha ∧
      (cfg.strictHash = true → ∀ s hh, sha = some s → f.manifestHash = some hh → s = hh) := by
  unfold judged at h
  split at h
  · split at h
    · split at h
      · simp at h
      · rename_i _ _ _ _ hm hn
        simp only [Fetch.found.injEq] at h
        obtain ⟨rfl, rfl⟩ := h
        refine ⟨rfl, ?_⟩
        intro hs s h' e1 e2
        rw [hm] at e2
        simp at e1 e2 hn
        rw [← e1, ← e2]
        exact hn hs
    · simp only [Fetch.found.injEq] at h
      obtain ⟨rfl, rfl⟩ := h
      refine ⟨rfl, ?_⟩
      intro _ s h' _ e
      simp_all
  · rename_i hr
    subst h
    refine ⟨rfl, ?_⟩
    intro _ s h' e _
    subst e
    exact (hr data s rfl).elim

/-- A round that asks for the file: what is asked for, what is done with the answer. -/
theorem fetch_round {W : World} {cfg : Cfg} {m m' : M} {fid : Nat} {f : PKIFile}
    (hb : cfg.notMFT = false ∨ f.type ≠ .mft) (h : m.handle cfg W fid f = .ok m') :
    ∃ pre m1, (pre = [] ∧ answer cfg W m fid f = .fail ∨ pre = [.fetched fid] ∧ m.pathOf fid ∉ m.explored ∧
        answer cfg W m fid f = W.getFile m.clock (m.pathOf fid) f) ∧
      OnlyV W { m with trace := m.trace ++ pre } m1 ∧
      m1.useAnswer cfg W fid f (judged cfg f (answer cfg W m fid f)) = .ok m' := by
  unfold M.handle at h
  rw [if_pos hb] at h
  simp only [] at h
  obtain ⟨x, hx, h⟩ := Go.bind_eq_ok.mp h
  have hj := checkHash_judged hx
  have ho := onlyV_checkHash hx
  have hg : ∃ pre, (pre = [] ∧ answer cfg W m fid f = .fail ∨ pre = [.fetched fid] ∧ m.pathOf fid ∉ m.explored ∧
        answer cfg W m fid f = W.getFile m.clock (m.pathOf fid) f) ∧
      m.getNextFile cfg W fid f = ({ m with trace := m.trace ++ pre }, answer cfg W m fid f) := by
    unfold M.getNextFile answer
    by_cases h1 : m.pathOf fid ∈ m.explored
    · exact ⟨[], by simp [h1]⟩
    · by_cases h2 : cfg.hasSeeker = true
      · exact ⟨[.fetched fid], by simp [h1, h2]⟩
      · exact ⟨[], by simp [h1, h2]⟩
  obtain ⟨pre, hp, hg⟩ := hg
  rw [hg] at hj ho
  refine ⟨pre, x.1, hp, ho, ?_⟩
  rw [← hj]
  exact h

theorem Part.trans {W : World} {fid : Nat} {a b c : M} (h : Part W fid a b) (h' : Part W fid b c) : Part W fid a c :=
  ⟨h.keeps.trans h'.keeps, fun hq => h'.nq (h.nq hq), fun i hi hne => by
    rw [h'.res i (Nat.lt_of_lt_of_le hi h.keeps.1.len) hne, h.res i hi hne]⟩

theorem vrun_add {W : World} {T : Bytes → Prop} {m : M} {v' : V} {fid : Nat} {f : PKIFile} {data : Bytes} {a : Added}
    (hf : m.files[fid]? = some f) (ht : ∀ c, f.trust = true → W.env.parseCert data = .ok c → T c.ski)
    (h : m.v.addResource W.env m.files fid data = .ok (v', a)) : VRun W.env T m.v v' := by
  refine ⟨[.addResource m.files fid data], ?_, by simp [V.run, V.step, h]⟩
  intro op ho
  simp at ho
  subst ho
  intro f' c hf' htr hc
  rw [hf] at hf'
  simp at hf'
  subst hf'
  exact ht c htr hc

/-- The events of a round, after the file was taken. -/
def RoundEvents (cfg : Cfg) (W : World) (m : M) (fid : Nat) (f : PKIFile) (evs : List Event) : Prop :=
  evs = [] ∨ evs = [.fetched fid] ∨
  (∃ data sha, evs = [.fetched fid, .added fid data sha] ∧ W.getFile m.clock (m.pathOf fid) f = .found data sha ∧
    (cfg.strictHash = true → ∀ s h, sha = some s → f.manifestHash = some h → s = h))

theorem part_fetch {W : World} {cfg : Cfg} {m m' : M} {fid : Nat} {f : PKIFile} {T : Bytes → Prop}
    (hlt : fid < m.files.length) (hf : m.files[fid]? = some f) (hq : fid ∉ m.queue)
    (hb : cfg.notMFT = false ∨ f.type ≠ .mft) (h : m.handle cfg W fid f = .ok m') :
    Part W fid m m' ∧ (WTrust W T → VRun W.env T m.v m'.v) ∧
    ∃ evs, m'.trace = m.trace ++ evs ∧ RoundEvents cfg W m fid f evs := by
  obtain ⟨pre, m1, hp, ho, hu⟩ := fetch_round hb h
  have hpre : taken pre = [] := by rcases hp with ⟨rfl, _⟩ | ⟨rfl, _⟩ <;> rfl
  have p0 : Part W fid m { m with trace := m.trace ++ pre } := ⟨trace_keeps pre hpre, by simp, by simp⟩
  have p1 := p0.trans (ho.part fid)
  obtain ⟨g1, g2, g3, g4, g5, g6, g7⟩ := onlyV_fields ho
  simp only at g1 g2 g3 g4 g5 g6 g7
  rcases useAnswer_cases hu with ⟨hr, ho2⟩ | ⟨data, sha, hr, hadd⟩
  · refine ⟨p1.trans (ho2.part fid), fun _ => ?_, pre, by rw [(onlyV_fields ho2).2.2.1, g3], ?_⟩
    · have e1 : VRun W.env T m.v m1.v := by have := ho.vrun (T := T); exact this
      exact e1.trans ho2.vrun
    · rcases hp with ⟨rfl, _⟩ | ⟨rfl, _⟩
      · exact .inl rfl
      · exact .inr (.inl rfl)
  · obtain ⟨hans, hhash⟩ := judged_found hr
    rcases hp with ⟨_, hp⟩ | ⟨rfl, hnex, hp⟩
    · rw [hp] at hans; simp at hans
    · rw [hp] at hans
      obtain ⟨hk, hnq, htr, hres, _, _, a, ha, _⟩ := minv_exploreAdd (by rw [g1]; exact hlt) (by rw [g2]; exact hq) hadd
      refine ⟨p1.trans ⟨hk, fun _ => hnq, ?_⟩, fun hT => ?_, ?_⟩
      · intro i _ hne
        rcases hres with hres | ⟨r, hres⟩
        · rw [hres]
        · rw [hres, lookup_cons_ne hne]
      · have e1 : VRun W.env T m.v m1.v := by have := ho.vrun (T := T); exact this
        exact e1.trans (vrun_add (by rw [g1]; exact hf) (fun c => hT.file _ _ _ _ _ c hans) ha)
      · exact ⟨_, by rw [htr, g3, List.append_assoc]; rfl, .inr (.inr ⟨data, sha, rfl, hans, hhash⟩)⟩

theorem part_repo {W : World} {cfg : Cfg} {m m' : M} {fid : Nat} {f : PKIFile} {T : Bytes → Prop}
    (hi : MInv m) (hlt : fid < m.files.length) (hq : fid ∉ m.queue) (h : m.exploreRepo cfg W fid f = .ok m') :
    Part W fid m m' ∧ (WTrust W T → VRun W.env T m.v m'.v) ∧
    ∃ evs, m'.trace = m.trace ++ evs ∧ taken evs = [] ∧ fetched evs = [] := by
  unfold M.exploreRepo at h
  obtain ⟨m1, h1, h⟩ := Go.bind_eq_ok.mp h
  simp only [Go.pure_def, Go.ok.injEq] at h
  have p2 : Part W fid m1 { m1 with explored := f.repo :: m1.explored } := by
    refine ⟨⟨⟨⟨[], by simp⟩, ⟨[], by simp, by simp⟩, rfl, rfl, fun _ h => by simp [h]⟩, ?_⟩, by simp, by simp⟩
    intro hi
    exact ⟨hi.par, hi.lt, hi.nd, hi.uniq, hi.res⟩
  subst h
  unfold M.getNextRepository at h1
  split at h1
  · simp at h1
    subst h1
    exact ⟨p2, fun _ => VRun.refl _ _ _, [], by simp, rfl, rfl⟩
  · obtain ⟨hp, he, hv⟩ := part_runCalls (T := T) _ m m1 hlt hq hi h1
    exact ⟨hp.trans p2, fun hT => hv (fun c hc x => hT.repo _ _ c hc x), he⟩

/-- A round, in full. -/
structure Round (cfg : Cfg) (W : World) (m m' : M) (fid : Nat) (f : PKIFile) (rest : List Nat) : Prop where
  queue : m.queue = fid :: rest
  file : m.files[fid]? = some f
  files : ∃ l, m'.files = m.files ++ l
  queue' : ∃ q, m'.queue = rest ++ q ∧ ∀ i ∈ q, m.files.length ≤ i
  clock : m'.clock = m.clock + 1
  expl : ∀ p ∈ m.explored, p ∈ m'.explored
  inv : MInv m'
  res : ∀ i, i < m.files.length → i ≠ fid → m'.resOf.lookup i = m.resOf.lookup i
  vrun : ∀ T, WTrust W T → VRun W.env T m.v m'.v
  trace : ∃ evs, m'.trace = m.trace ++ .taken fid :: evs ∧ taken evs = [] ∧
    (fetched evs = [] ∨ fetched evs = [fid]) ∧
    (cfg.notMFT = false ∨ f.type ≠ .mft → RoundEvents cfg W m fid f evs)

theorem round_ok {W : World} {cfg : Cfg} {m m' : M} (hi : MInv m) (h : m.exploreStep cfg W = .ok m') :
    ∃ fid f rest, Round cfg W m m' fid f rest := by
  unfold M.exploreStep at h
  split at h
  · simp at h
  · rename_i fid rest hqe
    split at h
    · simp at h
    · rename_i f hf
      obtain ⟨m2, h2, h⟩ := Go.bind_eq_ok.mp h
      simp only [Go.pure_def, Go.ok.injEq] at h
      refine ⟨fid, f, rest, ?_⟩
      have hent : entered { m with queue := rest, trace := m.trace ++ [.taken fid] } = entered m := by
        simp [entered, taken_append, taken, hqe]
      have hlt : fid < m.files.length := hi.lt fid (by simp [entered, hqe])
      have hq : fid ∉ rest := by
        have := hi.nd
        rw [entered, hqe, List.map_append, List.nodup_append] at this
        have := this.2.1
        rw [List.map_cons, List.nodup_cons] at this
        exact fun hh => this.1 (List.mem_map_of_mem hh)
      have hi1 : MInv { m with queue := rest, trace := m.trace ++ [.taken fid] } := by
        refine ⟨hi.par, ?_, ?_, ?_, ?_⟩
        · rw [hent]; exact hi.lt
        · rw [hent]; exact hi.nd
        · rw [hent]; exact hi.uniq
        · intro e he
          have := hi.res e he
          rw [hqe] at this
          simp at this ⊢
          exact ⟨this.1.2, this.2⟩
      generalize hm1 : ({ m with queue := rest, trace := m.trace ++ [.taken fid] } : M) = m1 at h2 hi1
      have f1 : m1.files = m.files := by rw [← hm1]
      have f2 : m1.queue = rest := by rw [← hm1]
      have f3 : m1.trace = m.trace ++ [.taken fid] := by rw [← hm1]
      have f4 : m1.resOf = m.resOf := by rw [← hm1]
      have f5 : m1.v = m.v := by rw [← hm1]
      have f6 : m1.clock = m.clock := by rw [← hm1]
      have f7 : m1.explored = m.explored := by rw [← hm1]
      have f8 : m1.pathOf fid = m.pathOf fid := by unfold M.pathOf; rw [f1]
      have hfin : ∀ evs, Part W fid m1 m2 → (∀ T, WTrust W T → VRun W.env T m1.v m2.v) →
          m2.trace = m1.trace ++ evs → taken evs = [] → (fetched evs = [] ∨ fetched evs = [fid]) →
          (cfg.notMFT = false ∨ f.type ≠ .mft → RoundEvents cfg W m fid f evs) →
          Round cfg W m m' fid f rest := by
        intro evs hp hv ht he1 he2 he3
        obtain ⟨l, hl⟩ := hp.keeps.1.files
        obtain ⟨q, hq1, hq2⟩ := hp.keeps.1.queue
        have hi2 := hp.keeps.2 hi1
        subst h
        refine ⟨hqe, hf, ⟨l, by simp only [hl, f1]⟩, ⟨q, by simp only [hq1, f2], by rw [f1] at hq2; exact hq2⟩, ?_, ?_,
          ⟨hi2.par, hi2.lt, hi2.nd, hi2.uniq, hi2.res⟩, ?_, ?_, ⟨evs, ?_, he1, he2, he3⟩⟩
        · simp only [hp.keeps.1.clock, f6]
        · intro p hp'; exact hp.keeps.1.expl p (by rw [f7]; exact hp')
        · intro i h1 h2
          have := hp.res i (by rw [f1]; exact h1) h2
          rw [f4] at this
          exact this
        · intro T hT
          have := hv T hT
          rw [f5] at this
          exact this
        · simp only [ht, f3]; simp
      by_cases hb : cfg.notMFT = false ∨ f.type ≠ .mft
      · have key := fun T => part_fetch (T := T) (by rw [f1]; exact hlt) (by rw [f1]; exact hf) (by rw [f2]; exact hq) hb h2
        obtain ⟨hp, _, evs, ht, he⟩ := key (fun _ => True)
        refine hfin evs hp (fun T => (key T).2.1) ht ?_ ?_ (fun _ => ?_)
        · rcases he with rfl | rfl | ⟨d, s, rfl, _⟩ <;> rfl
        · rcases he with rfl | rfl | ⟨d, s, rfl, _⟩ <;> simp [fetched]
        · unfold RoundEvents at he ⊢
          rw [f6, f8] at he
          exact he
      · unfold M.handle at h2
        rw [if_neg hb] at h2
        have key := fun T => part_repo (T := T) hi1 (by rw [f1]; exact hlt) (by rw [f2]; exact hq) h2
        obtain ⟨hp, _, evs, ht, he1, he2⟩ := key (fun _ => True)
        exact hfin evs hp (fun T => (key T).2.1) ht he1 (.inl he2) (fun hh => (hb hh).elim)

end Verif.Manager
