import Verif.Lemmas.Manager
/-
  Invariants over the life of a manager.
-/
set_option autoImplicit false

namespace Verif.Manager
open Pki PkiSpec ManagerSpec

/-! ### The life of a manager -/

theorem put_initial {m : M} (fs : List PKIFile) (hp : ∀ f ∈ fs, f.parent = none) :
    ∀ f ∈ fs, ∀ p, f.parent = some p → p < m.files.length := by
  intro f hf p h
  rw [hp f hf] at h
  simp at h

/-- What stays between two states. -/
structure Ext (m m' : M) : Prop where
  files : ∃ l, m'.files = m.files ++ l
  entered : entered m <+: entered m'
  trace : m.trace <+: m'.trace
  expl : ∀ p ∈ m.explored, p ∈ m'.explored

theorem Ext.refl (m : M) : Ext m m := ⟨⟨[], by simp⟩, List.prefix_refl _, List.prefix_refl _, fun _ h => h⟩

theorem Ext.trans {a b c : M} (h : Ext a b) (h' : Ext b c) : Ext a c := by
  obtain ⟨l, hl⟩ := h.files
  obtain ⟨l', hl'⟩ := h'.files
  exact ⟨⟨l ++ l', by rw [hl', hl, List.append_assoc]⟩, h.entered.trans h'.entered, h.trace.trans h'.trace,
    fun p hp => h'.expl p (h.expl p hp)⟩

theorem Round.ext {cfg : Cfg} {W : World} {m m' : M} {fid : Nat} {f : PKIFile} {rest : List Nat}
    (h : Round cfg W m m' fid f rest) : Ext m m' := by
  obtain ⟨evs, h1, h2, _⟩ := h.trace
  obtain ⟨q, h3, _⟩ := h.queue'
  refine ⟨h.files, ?_, ⟨_, h1.symm⟩, h.expl⟩
  refine ⟨q, ?_⟩
  unfold entered
  rw [h1, h3, taken_append, h.queue]
  simp [taken, h2]

theorem ext_putFiles {m : M} (fs : List PKIFile) (hp : ∀ f ∈ fs, f.parent = none) : Ext m (m.putFiles fs) := by
  obtain ⟨hk, _, h2, h3, _⟩ := keeps_putFiles fs m (put_initial fs hp)
  exact ⟨hk.1.files, hk.1.entered, by rw [h2]; exact List.prefix_refl _, hk.1.expl⟩

/-- Induction over the life, with the invariant at hand. -/
theorem later_ind {W : World} {ok : Cfg → Prop} {m : M} (hi : MInv m) {P : M → Prop} (h0 : P m)
    (hput : ∀ m1 fs, Ext m m1 → MInv m1 → P m1 → (∀ f ∈ fs, f.parent = none) → P (m1.putFiles fs))
    (hround : ∀ m1 m2 cfg fid f rest, Ext m m1 → MInv m1 → P m1 → ok cfg → m1.exploreStep cfg W = .ok m2 →
      Round cfg W m1 m2 fid f rest → P m2)
    {m' : M} (h : Later W ok m m') : MInv m' ∧ Ext m m' ∧ P m' := by
  induction h with
  | here => exact ⟨hi, Ext.refl m, h0⟩
  | initial m1 fs hl hp ih =>
    obtain ⟨a, b, c⟩ := ih
    exact ⟨(keeps_putFiles fs m1 (put_initial fs hp)).1.2 a, b.trans (ext_putFiles fs hp), hput m1 fs b a c hp⟩
  | round m1 m2 cfg hc hl hs ih =>
    obtain ⟨a, b, c⟩ := ih
    obtain ⟨fid, f, rest, hr⟩ := round_ok a hs
    exact ⟨hr.inv, b.trans hr.ext, hround m1 m2 cfg fid f rest b a c hc hs hr⟩

theorem later_inv {W : World} {ok : Cfg → Prop} {m m' : M} (hi : MInv m) (h : Later W ok m m') :
    MInv m' ∧ Ext m m' := by
  obtain ⟨a, b, _⟩ := later_ind (P := fun _ => True) hi trivial (fun _ _ _ _ _ _ => trivial)
    (fun _ _ _ _ _ _ _ _ _ _ _ _ => trivial) h
  exact ⟨a, b⟩

theorem later_fetched {W : World} {ok : Cfg → Prop} {m m' : M} (hi : MInv m)
    (h0 : (fetched m.trace).Sublist (taken m.trace)) (h : Later W ok m m') :
    (fetched m'.trace).Sublist (taken m'.trace) := by
  refine (later_ind (P := fun m => (fetched m.trace).Sublist (taken m.trace)) hi h0 ?_ ?_ h).2.2
  · intro m1 fs _ _ hp hf
    obtain ⟨_, _, h2, _⟩ := keeps_putFiles fs m1 (put_initial fs hf)
    rw [h2]; exact hp
  · intro m1 m2 cfg fid f rest _ _ hp _ _ hr
    obtain ⟨evs, h1, h2, h3, _⟩ := hr.trace
    rw [h1, fetched_append, taken_append]
    simp only [fetched, taken, h2]
    rcases h3 with h3 | h3
    · rw [h3]; simp; exact hp.trans (List.sublist_append_left _ _)
    · rw [h3]; exact hp.append (List.Sublist.refl _)

theorem later_added {W : World} {ok : Cfg → Prop} (hok : ∀ cfg, ok cfg → cfg.notMFT = false) {m m' : M} (hi : MInv m)
    (h0 : (added m.trace).Sublist (fetched m.trace)) (h : Later W ok m m') :
    (added m'.trace).Sublist (fetched m'.trace) := by
  refine (later_ind (P := fun m => (added m.trace).Sublist (fetched m.trace)) hi h0 ?_ ?_ h).2.2
  · intro m1 fs _ _ hp hf
    obtain ⟨_, _, h2, _⟩ := keeps_putFiles fs m1 (put_initial fs hf)
    rw [h2]; exact hp
  · intro m1 m2 cfg fid f rest _ _ hp hc _ hr
    obtain ⟨evs, h1, _, _, h4⟩ := hr.trace
    rw [h1, added_append, fetched_append]
    refine hp.append ?_
    rcases h4 (.inl (hok cfg hc)) with rfl | rfl | ⟨d, s, rfl, _⟩ <;> simp [added, fetched]

theorem later_vrun {W : World} {T : Bytes → Prop} (hT : WTrust W T) {ok : Cfg → Prop} {m m' : M} (hi : MInv m)
    (h : Later W ok m m') : VRun W.env T m.v m'.v := by
  refine (later_ind (P := fun m' => VRun W.env T m.v m'.v) hi (VRun.refl _ _ _) ?_ ?_ h).2.2
  · intro m1 fs _ _ hp hf
    obtain ⟨_, _, _, _, _, h5⟩ := keeps_putFiles fs m1 (put_initial fs hf)
    rw [h5]; exact hp
  · intro m1 m2 cfg fid f rest _ _ hp _ _ hr
    exact hp.trans (hr.vrun T hT)

theorem wtrust_all (W : World) : WTrust W (fun _ => True) := ⟨by simp, by simp⟩

theorem VRun.good {env : Env} {T : Bytes → Prop} {v v' : V} (h : VRun env T v v') :
    Good env T (fun _ => True) v v' := by
  obtain ⟨ops, h1, h2⟩ := h
  exact good_run ops v v' h1 (fun op _ => by cases op <;> simp [ROAsOnly]) h2

theorem VRun.reachable {env : Env} {T : Bytes → Prop} {v v' : V} (h : VRun env T v v') (hr : Reachable env T v) :
    Reachable env T v' := by
  obtain ⟨ops, h1, h2⟩ := h
  obtain ⟨o, g1, g2⟩ := hr
  refine ⟨o ++ ops, ?_, (run_append o ops _ _).mpr ⟨v, g2, h2⟩⟩
  intro op ho
  rcases List.mem_append.mp ho with ho | ho
  · exact g1 op ho
  · exact h1 op ho

theorem reachable_mono {env : Env} {T T' : Bytes → Prop} (h : ∀ k, T k → T' k) {v : V} (hr : Reachable env T v) :
    Reachable env T' v := by
  obtain ⟨o, g1, g2⟩ := hr
  refine ⟨o, ?_, g2⟩
  intro op ho
  have := g1 op ho
  cases op <;> simp [TrustsOnly] at this ⊢
  · exact fun ht => h _ (this ht)
  · exact fun f c a b d => h _ (this f c a b d)

theorem _root_.Verif.ManagerSpec.Later.trans {W : World} {ok : Cfg → Prop} {a b c : M} (h : Later W ok a b) (h' : Later W ok b c) :
    Later W ok a c := by
  induction h' with
  | here => exact h
  | initial x fs _ hp ih => exact .initial x fs ih hp
  | round x y cfg hcc _ hs ih => exact .round x y cfg hcc ih hs

/-! ### The loop of `Explore` -/

/-- `Explore` without its flag: as long as there is a file in the queue. -/
def drain (cfg : Cfg) (W : World) : (fuel : Nat) → M → (count : Nat) → Go (M × Nat)
  | 0, _, _ => .diverge
  | n + 1, m, count =>
    match m.queue with
    | [] => .ok (m, count)
    | _ :: _ => do
      let m1 ← m.exploreStep cfg W
      drain cfg W n m1 (count + 1)

theorem exploreLoop_drain (cfg : Cfg) (W : World) : ∀ (fuel : Nat) (m : M) (count : Nat),
    exploreLoop cfg W fuel m m.hasMore count = drain cfg W fuel m count := by
  intro fuel
  induction fuel with
  | zero => intro m count; rfl
  | succ n ih =>
    intro m count
    unfold drain
    cases hq : m.queue with
    | nil =>
      have : m.hasMore = false := by simp [M.hasMore, hq]
      rw [this]; rfl
    | cons a r =>
      have : m.hasMore = true := by simp [M.hasMore, hq]
      rw [this]
      simp only [exploreLoop]
      congr 1
      funext m1
      exact ih m1 _

theorem drain_later {cfg : Cfg} {W : World} {ok : Cfg → Prop} (hc : ok cfg) : ∀ (fuel : Nat) (m m' : M) (c n : Nat),
    MInv m → drain cfg W fuel m c = .ok (m', n) →
    Later W ok m m' ∧ m'.queue = [] ∧ (taken m'.trace).length + c = (taken m.trace).length + n := by
  intro fuel
  induction fuel with
  | zero => intro m m' c n _ h; simp [drain] at h
  | succ k ih =>
    intro m m' c n hi h
    unfold drain at h
    split at h
    · rename_i hq
      simp at h
      obtain ⟨rfl, rfl⟩ := h
      exact ⟨.here, hq, by omega⟩
    · obtain ⟨m1, h1, h⟩ := Go.bind_eq_ok.mp h
      obtain ⟨fid, f, rest, hr⟩ := round_ok hi h1
      obtain ⟨g1, g2, g3⟩ := ih m1 m' _ n hr.inv h
      have hl1 : Later W ok m m1 := .round m m1 cfg hc .here h1
      refine ⟨hl1.trans g1, g2, ?_⟩
      · obtain ⟨evs, e1, e2, _⟩ := hr.trace
        rw [e1, taken_append] at g3
        simp [taken, e2] at g3
        omega

/-! ### Rounds end -/

theorem nd_logged (cfg : Cfg) (m : M) : ND (logged cfg m) := by
  unfold logged
  split <;> simp [ND]

theorem nd_invalidateRes (cfg : Cfg) (m : M) (r : Option Nat) : ND (m.invalidateRes cfg r) := by
  unfold M.invalidateRes
  split
  · split
    · exact ND.bind (nd_invalidate _ _) (fun _ _ => nd_pure _)
    · exact nd_logged _ _
  · exact nd_logged _ _

theorem nd_invalidateManifestParent (cfg : Cfg) (m : M) (f : PKIFile) : ND (m.invalidateManifestParent cfg f) := by
  unfold M.invalidateManifestParent
  split
  · exact nd_invalidateRes _ _ _
  · exact nd_ok _

theorem nd_invalidateCRLParent (cfg : Cfg) (m : M) (f : PKIFile) : ND (m.invalidateCRLParent cfg f) := by
  unfold M.invalidateCRLParent
  split
  · exact nd_invalidateRes _ _ _
  · exact nd_ok _

theorem nd_checkExpired (cfg : Cfg) (W : World) (m : M) (f : PKIFile) : ND (m.checkExpired cfg W f) := by
  unfold M.checkExpired
  repeat' split
  all_goals first
    | exact nd_ok _
    | exact nd_logged _ _
    | exact nd_invalidateManifestParent _ _ _

theorem nd_checkHash (cfg : Cfg) (W : World) (m : M) (f : PKIFile) (r : Fetch) : ND (m.checkHash cfg W f r) := by
  unfold M.checkHash
  repeat' split
  all_goals first
    | exact nd_ok _
    | exact ND.bind (nd_checkExpired _ _ _ _) (fun _ _ => nd_pure _)

def ParV (v : V) : Prop := ∀ i p, v.parentOf i = some p → p < i

theorem OnlyV.parV {W : World} {m m' : M} (h : OnlyV W m m') (hr : Reachable W.env (fun _ => True) m.v) :
    ParV m'.v := (reachable_inv (h.vrun.reachable hr)).par

theorem nd_exploreAdd {W : World} (hd : Decodes W.env) {m : M} (hv : ParV m.v) (fid : Nat) (data : Bytes)
    (sha : Option Bytes) (ai : Bool) : ND (m.exploreAdd W fid data sha ai) := by
  unfold M.exploreAdd
  refine ND.bind (nd_addResource hv hd _ _ _) (fun a _ => ?_)
  simp only []
  split <;> exact nd_pure _

theorem nd_strict (cfg : Cfg) (m : M) (f : PKIFile) : ND (m.strict cfg f) := by
  unfold M.strict
  split
  · exact nd_invalidateManifestParent _ _ _
  · exact nd_ok _

theorem nd_useAnswer {W : World} (hd : Decodes W.env) {m : M} (hv : ParV m.v) (cfg : Cfg) (fid : Nat) (f : PKIFile)
    (r : Fetch) : ND (m.useAnswer cfg W fid f r) := by
  unfold M.useAnswer
  split
  · exact ND.bind (nd_strict _ _ _) (fun _ _ => nd_invalidateCRLParent _ _ _)
  · exact nd_strict _ _ _
  · exact nd_exploreAdd hd hv _ _ _ _

theorem nd_runCalls {W : World} (hd : Decodes W.env) (fid : Nat) : ∀ (cs : List Call) (m : M),
    Reachable W.env (fun _ => True) m.v → fid < m.files.length → fid ∉ m.queue → MInv m → ND (runCalls W fid cs m) := by
  intro cs
  induction cs with
  | nil => intro m _ _ _ _; simp [runCalls, ND]
  | cons c rest ih =>
    intro m hr hlt hq hi
    unfold runCalls
    refine ND.bind (nd_exploreAdd hd ?_ _ _ _ _) (fun m2 h2 => ?_)
    · exact (reachable_inv hr).par
    have h1 : runCalls W fid [c] m = .ok m2 := by
      unfold runCalls
      exact Go.bind_eq_ok.mpr ⟨m2, h2, rfl⟩
    obtain ⟨hp, _, hv⟩ := part_runCalls (T := fun _ => True) [c] m m2 hlt hq hi h1
    exact ih m2 ((hv (by simp)).reachable hr) (Nat.lt_of_lt_of_le hlt hp.keeps.1.len) (hp.nq hq) (hp.keeps.2 hi)

theorem nd_exploreStep {W : World} (hd : Decodes W.env) {m : M} (hi : MInv m)
    (hr : Reachable W.env (fun _ => True) m.v) (cfg : Cfg) : ND (m.exploreStep cfg W) := by
  unfold M.exploreStep
  split
  · exact nd_panic
  · rename_i fid rest hqe
    split
    · exact nd_panic
    · rename_i f hf
      refine ND.bind ?_ (fun _ _ => nd_pure _)
      have hent : entered { m with queue := rest, trace := m.trace ++ [.taken fid] } = entered m := by
        simp [entered, taken_append, taken, hqe]
      have hlt : fid < m.files.length := hi.lt fid (by simp [entered, hqe])
      have hq : fid ∉ rest := by
        have := hi.nd
        rw [entered, hqe, List.map_append, List.nodup_append] at this
        have := this.2.1
        rw [List.map_cons, List.nodup_cons] at this
        exact fun hh => this.1 (List.mem_map_of_mem hh)
      have hi1 : MInv { m with queue := rest, trace := m.trace ++ [.taken fid] } := by
        refine ⟨hi.par, ?_, ?_, ?_, ?_⟩
        · rw [hent]; exact hi.lt
        · rw [hent]; exact hi.nd
        · rw [hent]; exact hi.uniq
        · intro e he
          have := hi.res e he
          rw [hqe] at this
          simp at this ⊢
          exact ⟨this.1.2, this.2⟩
      unfold M.handle
      split
      · simp only []
        refine ND.bind (nd_checkHash _ _ _ _ _) (fun x hx => nd_useAnswer hd ?_ _ _ _ _)
        refine (onlyV_checkHash hx).parV ?_
        unfold M.getNextFile
        repeat' split
        all_goals exact hr
      · unfold M.exploreRepo
        refine ND.bind ?_ (fun _ _ => nd_pure _)
        unfold M.getNextRepository
        split
        · exact nd_ok _
        · exact nd_runCalls hd _ _ _ hr hlt hq hi1

/-- In manifest mode, a round that leaves something more in the queue has explored a new path, for which
    the FileSeeker gave a file. -/
theorem round_progress {W : World} {cfg : Cfg} (hc : cfg.notMFT = false) {m m' : M} (hi : MInv m)
    (h : m.exploreStep cfg W = .ok m') :
    m'.queue.length + 1 = m.queue.length ∧ m'.explored = m.explored ∨
    ∃ p n f d s, p ∉ m.explored ∧ p ∈ m'.explored ∧ W.getFile n p f = .found d s := by
  unfold M.exploreStep at h
  split at h
  · simp at h
  · rename_i fid rest hqe
    split at h
    · simp at h
    · rename_i f hf
      obtain ⟨m2, h2, h⟩ := Go.bind_eq_ok.mp h
      simp only [Go.pure_def, Go.ok.injEq] at h
      subst h
      obtain ⟨pre, m1, hp, ho, hu⟩ := fetch_round (.inl hc) h2
      have g := onlyV_fields ho
      simp only at g
      rcases useAnswer_cases hu with ⟨_, ho2⟩ | ⟨data, sha, hr, hadd⟩
      · left
        have g' := onlyV_fields ho2
        rw [hqe]
        simp only
        rw [g'.2.1, g.2.1, g'.2.2.2.1, g.2.2.2.1]
        simp
      · right
        obtain ⟨hans, _⟩ := judged_found hr
        rcases hp with ⟨_, hp⟩ | ⟨rfl, hnex, hp⟩
        · rw [hp] at hans; simp at hans
        · rw [hp] at hans
          have hlt : fid < m.files.length := hi.lt fid (by simp [entered, hqe])
          have hq : fid ∉ rest := by
            have := hi.nd
            rw [entered, hqe, List.map_append, List.nodup_append] at this
            have := this.2.1
            rw [List.map_cons, List.nodup_cons] at this
            exact fun hh => this.1 (List.mem_map_of_mem hh)
          obtain ⟨_, _, _, _, hex, _⟩ := minv_exploreAdd (by rw [g.1]; exact hlt) (by rw [g.2.1]; exact hq) hadd
          refine ⟨_, _, _, _, _, hnex, ?_, hans⟩
          have : m1.pathOf fid = M.pathOf { m with queue := rest, trace := m.trace ++ [.taken fid] } fid := by
            unfold M.pathOf; rw [g.1]
          rw [this] at hex
          exact hex

/-- Paths of `D` that are not explored yet. -/
def left (D : List Bytes) (m : M) : Nat := (D.filter (fun p => decide (p ∉ m.explored))).length

theorem filter_length_le {α : Type} {p q : α → Bool} : ∀ (l : List α), (∀ a ∈ l, q a = true → p a = true) →
    (l.filter q).length ≤ (l.filter p).length := by
  intro l
  induction l with
  | nil => simp
  | cons b t iht =>
    intro hs
    have := iht (fun a ha => hs a (by simp [ha]))
    have hb := hs b (by simp)
    simp only [List.filter_cons]
    by_cases h1 : q b = true
    · simp [h1, hb h1]; exact this
    · simp only [h1]
      by_cases h2 : p b = true
      · simp [h2]; omega
      · simp [h2]; exact this

theorem filter_length_lt {α : Type} {p q : α → Bool} : ∀ (l : List α), (∀ a ∈ l, q a = true → p a = true) →
    (∃ a ∈ l, p a = true ∧ q a = false) → (l.filter q).length < (l.filter p).length := by
  intro l
  induction l with
  | nil => intro _ h; simp at h
  | cons a r ih =>
    intro hs ⟨x, hx, hp, hq⟩
    have hle := filter_length_le r (fun a ha => hs a (by simp [ha]))
    rcases List.mem_cons.mp hx with rfl | hx
    · simp [hp, hq]; omega
    · have := ih (fun a ha => hs a (by simp [ha])) ⟨x, hx, hp, hq⟩
      simp only [List.filter_cons]
      by_cases h1 : q a = true
      · simp [h1, hs a (by simp) h1]; exact this
      · simp only [h1]
        by_cases h2 : p a = true
        · simp [h2]; omega
        · simp [h2]; exact this

theorem drain_ends {W : World} (hd : Decodes W.env) {cfg : Cfg} (hc : cfg.notMFT = false) (D : List Bytes)
    (hD : ∀ n p f d s, W.getFile n p f = .found d s → p ∈ D) : ∀ (k l : Nat) (m : M), MInv m →
    Reachable W.env (fun _ => True) m.v → left D m ≤ k → m.queue.length ≤ l →
    ∃ N, ∀ fuel, N ≤ fuel → ∀ c, ND (drain cfg W fuel m c) := by
  intro k
  induction k using Nat.strongRecOn with
  | _ k ihk =>
    intro l
    induction l with
    | zero =>
      intro m _ _ _ hl
      refine ⟨1, ?_⟩
      intro fuel hf c
      have hq : m.queue = [] := by simpa using hl
      cases fuel with
      | zero => omega
      | succ n => unfold drain; rw [hq]; exact nd_ok _
    | succ l ihl =>
      intro m hi hr hk hl
      cases hs : m.exploreStep cfg W with
      | ok m1 =>
        obtain ⟨fid, f, rest, hro⟩ := round_ok hi hs
        have hr1 := (hro.vrun _ (wtrust_all W)).reachable hr
        have hmono : left D m1 ≤ left D m := by
          unfold left
          apply filter_length_le
          intro p _ hp
          simp at hp ⊢
          exact fun h => hp (hro.expl p h)
        have hnext : ∃ N, ∀ fuel, N ≤ fuel → ∀ c, ND (drain cfg W fuel m1 c) := by
          rcases round_progress hc hi hs with ⟨h1, _⟩ | ⟨p, n, f', d, s, h1, h2, h3⟩
          · exact ihl m1 hro.inv hr1 (by omega) (by omega)
          · have hlt : left D m1 < left D m := by
              unfold left
              apply filter_length_lt
              · intro a _ ha
                simp at ha ⊢
                exact fun h => ha (hro.expl a h)
              · exact ⟨p, hD _ _ _ _ _ h3, by simp [h1], by simp [h2]⟩
            exact ihk (left D m1) (by omega) _ m1 hro.inv hr1 (Nat.le_refl _) (Nat.le_refl _)
        obtain ⟨N, hN⟩ := hnext
        refine ⟨N + 1, ?_⟩
        intro fuel hf c
        cases fuel with
        | zero => omega
        | succ n =>
          unfold drain
          split
          · exact nd_ok _
          · rw [hs]; exact hN n (by omega) _
      | err e =>
        refine ⟨1, ?_⟩
        intro fuel hf c
        cases fuel with
        | zero => omega
        | succ n =>
          unfold drain
          split
          · exact nd_ok _
          · rw [hs]; exact nd_err _
      | panic =>
        refine ⟨1, ?_⟩
        intro fuel hf c
        cases fuel with
        | zero => omega
        | succ n =>
          unfold drain
          split
          · exact nd_ok _
          · rw [hs]; exact nd_panic
      | diverge => exact (nd_exploreStep hd hi hr cfg hs).elim

end Verif.Manager
