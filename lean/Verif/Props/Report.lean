import Verif.Lemmas.ReportRound
import Verif.Lemmas.Clock
import Verif.Props.Manager
/-
  Property theorems for the reports of an exploration: C97.
-/
set_option autoImplicit false

namespace Verif.Props
open Pki PkiSpec Manager ManagerSpec ReportSpec

/-- Exploration by manifests, with a FileSeeker and a log, as in the programs. -/
def Usual (cfg : Cfg) : Prop := cfg.notMFT = false ∧ cfg.hasSeeker = true ∧ cfg.hasLog = true

/-- **C97, no effect.** Whether errors are reported or not, a round does the same; without `ReportErrors` nothing is reported. -/
theorem C97_same (rep : Bool) (cfg : Cfg) (W : World) (m : M) :
    (m.exploreStepR rep cfg W >>= fun x => Go.ok x.1) = m.exploreStep cfg W := agrees_step rep cfg W m

/-- **C97, who is blamed and why.** In every round of an exploration only the file of the round is blamed. If the FileSeeker
    fails it is blamed once, for that. If its hash is not the one of the manifest it is blamed once, for that. Otherwise, if it
    is found and rejected, it is blamed once, and the reason given is true; a revocation list that is rejected is not
    named, a nil error is reported. If it is accepted or is not there it is not blamed. -/
theorem C97_blame_partial (W : World) (T : Bytes → Prop) (m m' : M) (hl : Life W T Usual m) (cfg : Cfg) (hc : Usual cfg)
    (fid : Nat) (rest : List Nat) (f : PKIFile) (hq : m.queue = fid :: rest) (hf : m.files[fid]? = some f) (rs : List Report)
    (h : m.exploreStepR true cfg W = .ok (m', rs)) :
    (∀ i, i ≠ fid → blames i rs = []) ∧
    (W.getFile m.clock (m.pathOf fid) f = .fail → blames fid rs = [.file]) ∧
    (W.getFile m.clock (m.pathOf fid) f = .absent → blames fid rs = []) ∧
    (∀ data sha, W.getFile m.clock (m.pathOf fid) f = .found data sha →
      (¬ HashOk cfg f sha → blames fid rs = [.hash]) ∧
      (HashOk cfg f sha → ∃ v1 a, Before m.v v1 ∧ v1.addResource W.env m.files fid data = .ok (m'.v, a) ∧
        (a.valid = true → blames fid rs = [] ∧ Report.nothing ∉ rs) ∧
        (a.valid = false → (∃ k, blames fid rs = [k] ∧ Reason W.env v1 m.files f data k) ∨
          (f.type = .crl ∧ blames fid rs = [] ∧ Report.nothing ∈ rs)))) := by
  have hk := known_of_life (fun c h => h.1) hl
  obtain ⟨hc1, hc2, hc3⟩ := hc
  obtain ⟨m1, m2, rs1, rs2, e, a, _, b, c, d, hu, rfl, rfl, _⟩ := step_parts hk hc1 hc2 hq hf h
  have hf1 : m1.files[fid]? = some f := by rw [c]; exact hf
  have hbad : judged cfg f (W.getFile m.clock (m.pathOf fid) f) = .fail →
      ∀ i, blames i (rs1 ++ rs2) = blames i [e] := by
    intro hj i
    rw [hj] at hu
    unfold M.useAnswerR at hu
    simp only [] at hu
    obtain ⟨⟨m3, rs3⟩, hx, hu⟩ := Go.bind_eq_ok.mp hu
    obtain ⟨⟨m4, rs4⟩, hy, hu⟩ := Go.bind_eq_ok.mp hu
    obtain ⟨x1, _⟩ := strict_lost b hf1 hx
    have hk3 := b.onlyV x1.onlyV
    rw [crlParent_nothing hk3 (by rw [(onlyV_fields x1.onlyV).1]; exact hf1)] at hy
    simp only [Go.ok.injEq, Prod.mk.injEq] at hy
    obtain ⟨rfl, rfl⟩ := hy
    simp only [Go.pure_def, Go.ok.injEq, Prod.mk.injEq] at hu
    obtain ⟨_, rfl⟩ := hu
    simp [blames_append, a.blames, x1.blames, send]
  have habs : judged cfg f (W.getFile m.clock (m.pathOf fid) f) = .absent → ∀ i, blames i (rs1 ++ rs2) = [] := by
    intro hj i
    rw [hj] at hu
    unfold M.useAnswerR at hu
    simp only [] at hu
    obtain ⟨x1, _⟩ := strict_lost b hf1 hu
    simp [blames_append, a.blames, x1.blames]
  have hgood : ∀ data sha, judged cfg f (W.getFile m.clock (m.pathOf fid) f) = .found data sha →
      ∃ aa, m1.v.addResource W.env m.files fid data = .ok (m2.v, aa) ∧ rs2 = addReports true cfg fid aa := by
    intro data sha hj
    rw [hj] at hu
    unfold M.useAnswerR M.exploreAddR at hu
    simp only [] at hu
    obtain ⟨⟨v', aa⟩, hx, hu⟩ := Go.bind_eq_ok.mp hu
    rw [c] at hx
    refine ⟨aa, ?_⟩
    split at hu
    · simp only [Go.pure_def, Go.ok.injEq, Prod.mk.injEq] at hu
      obtain ⟨rfl, rfl⟩ := hu
      refine ⟨?_, rfl⟩
      rw [hx]
      show _ = Go.ok ((M.putFiles _ _).v, aa)
      rw [putFiles_v]
    · simp only [Go.pure_def, Go.ok.injEq, Prod.mk.injEq] at hu
      obtain ⟨rfl, rfl⟩ := hu
      exact ⟨hx, rfl⟩
  have hrep : ∀ aa : Added, (∀ i, i ≠ fid → blames i (addReports true cfg fid aa) = []) ∧
      (∀ mm, aa.error = some mm → blames fid (addReports true cfg fid aa) = [kindOf aa mm]) ∧
      (aa.error = none → blames fid (addReports true cfg fid aa) = [] ∧
        (aa.valid = false → Report.nothing ∈ addReports true cfg fid aa)) ∧
      (aa.error = none → aa.valid = true → addReports true cfg fid aa = []) := by
    intro aa
    unfold addReports
    cases he : aa.error with
    | none =>
      simp only [send, if_true]
      cases aa.valid <;> simp [blames]
    | some mm =>
      simp only [hc3, send, if_true]
      refine ⟨fun i hi => ?_, ?_, by simp, by simp⟩
      · simp [blames, Ne.symm hi]
      · intro mm' hm; simp at hm; subst hm; simp [blames]
  have hrs1 : Report.nothing ∉ rs1 := by
    rcases a with ⟨rfl, _⟩ | ⟨_, _, _, _, _, _, _, rfl, _⟩ <;> simp
  refine ⟨?_, ?_, ?_, ?_⟩
  · intro i hi
    cases hj : judged cfg f (W.getFile m.clock (m.pathOf fid) f) with
    | fail =>
      rw [hbad hj, d hj]
      cases W.getFile m.clock (m.pathOf fid) f <;> simp [errorOf, blames, Ne.symm hi]
    | absent => exact habs hj i
    | found data sha =>
      obtain ⟨aa, _, rfl⟩ := hgood data sha hj
      rw [blames_append, a.blames, (hrep aa).1 i hi]
      rfl
  · intro hg
    have hj : judged cfg f (W.getFile m.clock (m.pathOf fid) f) = .fail := by rw [hg]; rfl
    rw [hbad hj, d hj, hg]
    simp [errorOf, blames]
  · intro hg
    exact habs (by rw [hg]; rfl) fid
  · intro data sha hg
    refine ⟨fun hn => ?_, fun ho => ?_⟩
    · have hj : judged cfg f (W.getFile m.clock (m.pathOf fid) f) = .fail := by rw [hg]; exact judged_ok.2 hn
      rw [hbad hj, d hj, hg]
      simp [errorOf, blames]
    · have hj : judged cfg f (W.getFile m.clock (m.pathOf fid) f) = .found data sha := by rw [hg]; exact judged_ok.1 ho
      obtain ⟨aa, hx, rfl⟩ := hgood data sha hj
      obtain ⟨r1, r2⟩ := addResource_reason hf hx
      have hbl : blames fid (rs1 ++ addReports true cfg fid aa) = blames fid (addReports true cfg fid aa) := by
        rw [blames_append, a.blames]; rfl
      rw [hbl]
      refine ⟨m1.v, aa, a.before, hx, fun hv => ?_, fun hv => ?_⟩
      · cases he : aa.error with
        | none => exact ⟨((hrep aa).2.2.1 he).1, by rw [(hrep aa).2.2.2 he hv]; simpa using hrs1⟩
        | some mm => have := (r1 mm he).2; rw [hv] at this; simp at this
      · cases he : aa.error with
        | none =>
          right
          rcases r2 he with h' | h'
          · rw [hv] at h'; simp at h'
          · exact ⟨h', ((hrep aa).2.2.1 he).1, List.mem_append_right _ (((hrep aa).2.2.1 he).2 hv)⟩
        | some mm => exact .inl ⟨_, (hrep aa).2.1 mm he, (r1 mm he).1⟩

/-- **C97, losses.** A report of a lost certificate names the CA certificate above the file of the round, in whose manifest the
    file is listed; it is true: the key of this certificate is not valid after the round; and it has one of two causes, a file that
    cannot be had (with strict manifests) or a manifest that is not current. In the first case the loss is always
    reported; in the second case when the file comes with a hash to check. -/
theorem C97_losses (W : World) (T : Bytes → Prop) (m m' : M) (hl : Life W T Usual m) (cfg : Cfg) (hc : Usual cfg)
    (fid : Nat) (rest : List Nat) (f : PKIFile) (hq : m.queue = fid :: rest) (hf : m.files[fid]? = some f) (rs : List Report)
    (h : m.exploreStepR true cfg W = .ok (m', rs)) :
    (∀ k g i, (k, g, i) ∈ losses rs → k = .manifest ∧ i = fid ∧
      ((cfg.strictManifests = true ∧ Missing cfg f (W.getFile m.clock (m.pathOf fid) f)) ∨ Stale W m f) ∧
      ∃ p c d sha, Listed m fid f p g ∧ Event.added g d sha ∈ m.trace ∧ W.env.parseCert d = .ok c ∧
        m'.v.validObjects.get c.ski = none) ∧
    (∀ p g, Listed m fid f p g → cfg.strictManifests = true → Missing cfg f (W.getFile m.clock (m.pathOf fid) f) →
      (.manifest, g, fid) ∈ losses rs) ∧
    (∀ p g d s hh, Listed m fid f p g → W.getFile m.clock (m.pathOf fid) f = .found d (some s) → f.manifestHash = some hh →
      cfg.strictHash = true → Stale W m f → (.manifest, g, fid) ∈ losses rs) := by
  have hk := known_of_life (fun c h => h.1) hl
  obtain ⟨hc1, hc2, hc3⟩ := hc
  obtain ⟨m1, m2, rs1, rs2, e, a, a', b, c, d, hu, rfl, rfl, st⟩ := step_parts hk hc1 hc2 hq hf h
  have hf1 : m1.files[fid]? = some f := by rw [c]; exact hf
  have htr : m1.trace = m.trace ++ [.taken fid] ++ [.fetched fid] := (onlyV_fields a.onlyV).2.2.1
  -- the second part
  have hsecond : (∀ k g i, (k, g, i) ∈ losses rs2 → k = .manifest ∧ i = fid ∧ cfg.strictManifests = true ∧
        Missing cfg f (W.getFile m.clock (m.pathOf fid) f) ∧ ∃ p c d sha, Listed m fid f p g ∧ Event.added g d sha ∈ m.trace ∧
          W.env.parseCert d = .ok c ∧ m2.v.validObjects.get c.ski = none) ∧
      (∀ p g, Listed m fid f p g → cfg.strictManifests = true → Missing cfg f (W.getFile m.clock (m.pathOf fid) f) →
        (.manifest, g, fid) ∈ losses rs2) := by
    have hlist : ∀ p g, Listed m fid f p g → Listed m1 fid f p g := by
      intro p g hl'
      exact ⟨hf1, hl'.parent, by rw [c]; exact hl'.manifest, by rw [c]; exact hl'.ca⟩
    have hback : ∀ p g, Listed m1 fid f p g → Listed m fid f p g := by
      intro p g hl'
      exact ⟨hf, hl'.parent, by rw [← c]; exact hl'.manifest, by rw [← c]; exact hl'.ca⟩
    have part : ∀ (m3 : M) (rs3 : List Report), m1.strictR true cfg fid f = .ok (m3, rs3) →
        (∀ k g i, (k, g, i) ∈ losses rs3 → k = .manifest ∧ i = fid ∧ cfg.strictManifests = true ∧
          ∃ p c d sha, Listed m fid f p g ∧ Event.added g d sha ∈ m.trace ∧
            W.env.parseCert d = .ok c ∧ m3.v.validObjects.get c.ski = none) ∧
        (∀ p g, Listed m fid f p g → cfg.strictManifests = true → (.manifest, g, fid) ∈ losses rs3) := by
      intro m3 rs3 hx
      obtain ⟨x1, x2, x3⟩ := strict_lost b hf1 hx
      refine ⟨fun k g i hm => ?_, fun p g hl' hs => x1.reported (x3 hs p g (hlist p g hl')) (hlist p g hl')⟩
      obtain ⟨y1, y2, y3, p, c, d, sha, y4, y5, y6, _, y7⟩ := x1.loss hm
      refine ⟨y1, y2, x2 y3, p, c, d, sha, hback p g y4, ?_, y6, y7⟩
      rw [htr] at y5
      simpa using y5
    cases hj : judged cfg f (W.getFile m.clock (m.pathOf fid) f) with
    | fail =>
      have hmiss : Missing cfg f (W.getFile m.clock (m.pathOf fid) f) := by
        cases hg : W.getFile m.clock (m.pathOf fid) f with
        | fail => trivial
        | absent => trivial
        | found data sha =>
          intro ho
          rw [hg, judged_ok.1 ho] at hj
          simp at hj
      rw [hj] at hu
      unfold M.useAnswerR at hu
      simp only [] at hu
      obtain ⟨⟨m3, rs3⟩, hx, hu⟩ := Go.bind_eq_ok.mp hu
      obtain ⟨⟨m4, rs4⟩, hy, hu⟩ := Go.bind_eq_ok.mp hu
      obtain ⟨x1, _⟩ := strict_lost b hf1 hx
      rw [crlParent_nothing (b.onlyV x1.onlyV) (by rw [(onlyV_fields x1.onlyV).1]; exact hf1)] at hy
      simp only [Go.ok.injEq, Prod.mk.injEq] at hy
      obtain ⟨rfl, rfl⟩ := hy
      simp only [Go.pure_def, Go.ok.injEq, Prod.mk.injEq] at hu
      obtain ⟨rfl, rfl⟩ := hu
      have he : losses (rs3 ++ send true e ++ []) = losses rs3 := by
        rw [d hj, List.append_nil, losses_append]
        cases W.getFile m.clock (m.pathOf fid) f <;> simp [send, errorOf, losses]
      rw [he]
      obtain ⟨p1, p2⟩ := part m3 rs3 hx
      exact ⟨fun k g i hm => by obtain ⟨z1, z2, z3, z4⟩ := p1 k g i hm; exact ⟨z1, z2, z3, hmiss, z4⟩, fun p g hl' hs _ => p2 p g hl' hs⟩
    | absent =>
      have hmiss : Missing cfg f (W.getFile m.clock (m.pathOf fid) f) := by
        cases hg : W.getFile m.clock (m.pathOf fid) f with
        | fail => trivial
        | absent => trivial
        | found data sha =>
          intro ho
          rw [hg, judged_ok.1 ho] at hj
          simp at hj
      rw [hj] at hu
      unfold M.useAnswerR at hu
      simp only [] at hu
      obtain ⟨p1, p2⟩ := part m2 rs2 hu
      exact ⟨fun k g i hm => by obtain ⟨z1, z2, z3, z4⟩ := p1 k g i hm; exact ⟨z1, z2, z3, hmiss, z4⟩, fun p g hl' hs _ => p2 p g hl' hs⟩
    | found data sha =>
      have hmiss : ¬ Missing cfg f (W.getFile m.clock (m.pathOf fid) f) := by
        cases hg : W.getFile m.clock (m.pathOf fid) f with
        | fail => rw [hg] at hj; simp [judged] at hj
        | absent => rw [hg] at hj; simp [judged] at hj
        | found data' sha' =>
          intro hn
          rw [hg, judged_ok.2 hn] at hj
          simp at hj
      have hno : losses rs2 = [] := by
        rw [hj] at hu
        unfold M.useAnswerR M.exploreAddR at hu
        simp only [] at hu
        obtain ⟨⟨v', aa⟩, hx, hu⟩ := Go.bind_eq_ok.mp hu
        have : rs2 = addReports true cfg fid aa := by
          split at hu <;> simp only [Go.pure_def, Go.ok.injEq, Prod.mk.injEq] at hu <;> exact hu.2.symm
        rw [this]
        unfold addReports
        cases aa.error <;> simp only [send, if_true] <;> split <;> simp [losses]
      exact ⟨by simp [hno], fun _ _ _ _ hm => (hmiss hm).elim⟩
  refine ⟨?_, ?_, ?_⟩
  · intro k g i hm
    rw [losses_append] at hm
    rcases List.mem_append.mp hm with hm | hm
    · obtain ⟨y1, y2, y3, p, c', d', sha, y4, y5, y6, y7, y8⟩ := a.loss hm
      refine ⟨y1, y2, .inr (a' y3), p, c', d', sha, ⟨y4.file, y4.parent, y4.manifest, y4.ca⟩, by simpa using y5, y6, ?_⟩
      have hstep : m1.useAnswer cfg W fid f (judged cfg f (W.getFile m.clock (m.pathOf fid) f)) = .ok m2 := by
        have := agrees_useAnswer true cfg W m1 fid f (judged cfg f (W.getFile m.clock (m.pathOf fid) f)) e
        unfold Agrees at this
        rw [hu] at this
        simpa using this.symm
      have hvr : VRun W.env (fun _ => True) m1.v m2.v := by
        rcases useAnswer_cases hstep with ⟨_, ho⟩ | ⟨data, sha', _, hadd⟩
        · exact ho.vrun
        · obtain ⟨_, _, _, _, _, _, aa, haa, _⟩ := minv_exploreAdd (by rw [c]; exact (queue_nodup hk.inv hq).1)
            (by rw [(onlyV_fields a.onlyV).2.1]; exact (queue_nodup hk.inv hq).2) hadd
          exact vrun_add hf1 (fun _ _ _ => trivial) haa
      exact (hvr.good (reachable_inv b.reach)).2.gone y7 y8
    · obtain ⟨y1, y2, y3, y4, y5⟩ := hsecond.1 k g i hm
      exact ⟨y1, y2, .inl ⟨y3, y4⟩, y5⟩
  · intro p g hl' hs hmi
    rw [losses_append]
    exact List.mem_append_right _ (hsecond.2 p g hl' hs hmi)
  · intro p g d' s hh hl' h1 h2 h3 h4
    rw [losses_append]
    exact List.mem_append_left _ (a.reported (st d' s hh h1 h2 h3 h4 p g hl') ⟨hl'.file, hl'.parent, hl'.manifest, hl'.ca⟩)

/-- **C97, quiet.** Without `ReportErrors` no round reports anything. -/
theorem C97_quiet (cfg : Cfg) (W : World) (m m' : M) (rs : List Report) (h : m.exploreStepR false cfg W = .ok (m', rs)) : rs = [] := by
  have hadd : ∀ (m m' : M) fid d s ai rs, m.exploreAddR false cfg W fid d s ai = .ok (m', rs) → rs = [] := by
    intro m m' fid d s ai rs h
    unfold M.exploreAddR at h
    obtain ⟨⟨v', a⟩, _, h⟩ := Go.bind_eq_ok.mp h
    have : addReports false cfg fid a = [] := by unfold addReports; cases a.error <;> simp [send]
    simp only [this] at h
    split at h <;> simp at h <;> exact h.2
  have hres : ∀ (m m' : M) o r rs, m.invalidateResR false cfg o r = .ok (m', rs) → rs = [] := by
    intro m m' o r rs h
    unfold M.invalidateResR at h
    split at h
    · split at h
      · obtain ⟨v, _, h⟩ := Go.bind_eq_ok.mp h
        simp [send] at h; exact h.2
      · obtain ⟨v, _, h⟩ := Go.bind_eq_ok.mp h
        simp at h; exact h.2
    · obtain ⟨v, _, h⟩ := Go.bind_eq_ok.mp h
      simp at h; exact h.2
  have hmft : ∀ (m m' : M) fid f rs, m.invalidateManifestParentR false cfg fid f = .ok (m', rs) → rs = [] := by
    intro m m' fid f rs h
    unfold M.invalidateManifestParentR at h
    split at h
    · exact hres _ _ _ _ _ h
    · simp at h; exact h.2
  have hcrl : ∀ (m m' : M) fid f rs, m.invalidateCRLParentR false cfg fid f = .ok (m', rs) → rs = [] := by
    intro m m' fid f rs h
    unfold M.invalidateCRLParentR at h
    split at h
    · exact hres _ _ _ _ _ h
    · simp at h; exact h.2
  have hstrict : ∀ (m m' : M) fid f rs, m.strictR false cfg fid f = .ok (m', rs) → rs = [] := by
    intro m m' fid f rs h
    unfold M.strictR at h
    split at h
    · exact hmft _ _ _ _ _ h
    · simp at h; exact h.2
  have hexp : ∀ (m m' : M) fid f rs, m.checkExpiredR false cfg W fid f = .ok (m', rs) → rs = [] := by
    intro m m' fid f rs h
    unfold M.checkExpiredR at h
    repeat' split at h
    all_goals first
      | exact hmft _ _ _ _ _ h
      | (simp at h; exact h.2)
      | (obtain ⟨v, _, h⟩ := Go.bind_eq_ok.mp h; simp at h; exact h.2)
  have hcalls : ∀ fid (cs : List Call) (m m' : M) rs, runCallsR false cfg W fid cs m = .ok (m', rs) → rs = [] := by
    intro fid cs
    induction cs with
    | nil => intro m m' rs h; simp [runCallsR] at h; exact h.2
    | cons c t ih =>
      intro m m' rs h
      unfold runCallsR at h
      obtain ⟨⟨m1, rs1⟩, h1, h⟩ := Go.bind_eq_ok.mp h
      obtain ⟨⟨m2, rs2⟩, h2, h⟩ := Go.bind_eq_ok.mp h
      have e1 := hadd _ _ _ _ _ _ _ h1
      have e2 := ih _ _ _ h2
      subst e1; subst e2
      simp at h; exact h.2
  unfold M.exploreStepR at h
  split at h
  · simp at h
  · split at h
    · simp at h
    · obtain ⟨⟨m2, rs2⟩, h2, h⟩ := Go.bind_eq_ok.mp h
      simp only [Go.pure_def, Go.ok.injEq, Prod.mk.injEq] at h
      obtain ⟨_, rfl⟩ := h
      unfold M.handleR at h2
      split at h2
      · simp only [] at h2
        obtain ⟨⟨m3, r3, e3, rs3⟩, h3, h2⟩ := Go.bind_eq_ok.mp h2
        obtain ⟨⟨m4, rs4⟩, h4, h2⟩ := Go.bind_eq_ok.mp h2
        have e3 : rs3 = [] := by
          unfold M.checkHashR at h3
          repeat' split at h3
          all_goals first
            | (simp at h3; exact h3.2.2.2)
            | (obtain ⟨⟨m5, rs5⟩, h5, h3⟩ := Go.bind_eq_ok.mp h3
               have := hexp _ _ _ _ _ h5
               subst this
               simp at h3
               exact h3.2.2.2)
        have e4 : rs4 = [] := by
          unfold M.useAnswerR at h4
          split at h4
          · obtain ⟨⟨m5, rs5⟩, h5, h4⟩ := Go.bind_eq_ok.mp h4
            obtain ⟨⟨m6, rs6⟩, h6, h4⟩ := Go.bind_eq_ok.mp h4
            have e5 := hstrict _ _ _ _ _ h5
            have e6 := hcrl _ _ _ _ _ h6
            subst e5; subst e6
            simp [send] at h4
            exact h4.2
          · exact hstrict _ _ _ _ _ h4
          · exact hadd _ _ _ _ _ _ _ h4
        subst e3; subst e4
        simp at h2; exact h2.2
      · unfold M.exploreRepoR at h2
        split at h2
        · simp [send] at h2; exact h2.2
        · split at h2
          · simp [send] at h2; exact h2.2
          · obtain ⟨⟨m5, rs5⟩, h5, h2⟩ := Go.bind_eq_ok.mp h2
            have e5 := hcalls _ _ _ _ _ h5
            subst e5
            simp [send] at h2
            exact h2.2

/-! ### The channel -/

theorem chan_inv {rs : List Report} {n : Nat} {c : Chan} (h : Chan.Steps (Chan.start rs) n c) :
    c.got ++ c.buf ++ c.todo = rs ∧ c.buf.length ≤ chanRoom ∧ (c.closed = true → c.todo = []) ∧
    (c.ended = true → c.closed = true ∧ c.buf = []) ∧
    n + (2 * c.todo.length + c.buf.length + (if c.closed then 0 else 1) + (if c.ended then 0 else 1)) = 2 * rs.length + 2 := by
  induction h with
  | here => simp [Chan.start]
  | step n c1 c2 _ hs ih =>
    obtain ⟨h1, h2, h3, h4, h5⟩ := ih
    cases hs with
    | send r rest ht hr =>
      refine ⟨by rw [← h1, ht]; simp, by simp; omega, ?_, ?_, ?_⟩
      · intro hc; have := h3 hc; rw [ht] at this; simp at this
      · intro he; have := h3 (h4 he).1; rw [ht] at this; simp at this
      · rw [ht] at h5; simp only [List.length_cons, List.length_append, List.length_nil] at h5 ⊢; omega
    | close ht hc =>
      refine ⟨h1, h2, fun _ => ht, ?_, ?_⟩
      · intro he; exact ⟨rfl, (h4 he).2⟩
      · rw [hc] at h5; simp at h5 ⊢; omega
    | read r rest hb he =>
      refine ⟨by rw [← h1, hb]; simp, by rw [hb] at h2; simp at h2 ⊢; omega, h3, ?_, ?_⟩
      · intro he'; rw [he] at he'; simp at he'
      · rw [hb] at h5; simp only [List.length_cons] at h5 ⊢; omega
    | finish hb hc he =>
      refine ⟨h1, h2, h3, fun _ => ⟨hc, hb⟩, ?_⟩
      rw [he] at h5; simp at h5 ⊢; omega

/-- **C97, delivery.** Whatever the order of the steps of the manager and the collector: the collector reads the reports in the
    order in which they were sent, never more than 50 wait, none is lost; as long as the collector's loop has not ended some step
    is possible, no run is longer than twice the number of reports plus two, and when the loop has ended all reports
    were read. -/
theorem C97_delivery (rs : List Report) (n : Nat) (c : Chan) (h : Chan.Steps (Chan.start rs) n c) :
    c.got ++ c.buf ++ c.todo = rs ∧ c.buf.length ≤ 50 ∧ n ≤ 2 * rs.length + 2 ∧
    (c.ended = false → ∃ c', Chan.Step c c') ∧ (c.ended = true → c.got = rs) := by
  obtain ⟨h1, h2, h3, h4, h5⟩ := chan_inv h
  refine ⟨h1, h2, by omega, fun he => ?_, fun he => ?_⟩
  · cases hb : c.buf with
    | cons r rest => exact ⟨_, .read c r rest hb he⟩
    | nil =>
      cases ht : c.todo with
      | cons r rest => exact ⟨_, .send c r rest ht (by rw [hb]; simp [chanRoom])⟩
      | nil =>
        cases hc : c.closed with
        | false => exact ⟨_, .close c ht hc⟩
        | true => exact ⟨_, .finish c hb hc he⟩
  · obtain ⟨hc, hb⟩ := h4 he
    rw [hb, h3 hc] at h1
    simpa using h1

/-- **C97, violated.** Nothing waits for the collector: with at most 50 reports the manager can be done, and the channel closed, when the
    collector has not read a single one; a program that ends then loses them. -/
theorem C97_violated_unread (rs : List Report) (hr : rs.length ≤ 50) :
    ∃ n c, Chan.Steps (Chan.start rs) n c ∧ c.closed = true ∧ c.todo = [] ∧ c.got = [] := by
  have key : ∀ k, k ≤ rs.length → Chan.Steps (Chan.start rs) k ⟨rs.drop k, rs.take k, false, [], false⟩ := by
    intro k
    induction k with
    | zero => intro _; simpa [Chan.start] using Chan.Steps.here (c := Chan.start rs)
    | succ k ih =>
      intro hk
      have hs := ih (by omega)
      have hlt : k < rs.length := by omega
      have hd : rs.drop k = rs[k] :: rs.drop (k + 1) := List.drop_eq_getElem_cons hlt
      refine .step k _ _ hs ?_
      have := Chan.Step.send ⟨rs.drop k, rs.take k, false, [], false⟩ rs[k] (rs.drop (k + 1)) hd (by simp [chanRoom]; omega)
      simp only [] at this
      rw [List.take_succ_eq_append_getElem hlt]
      exact this
  refine ⟨_, _, .step _ _ _ (key rs.length (Nat.le_refl _)) (.close _ (by simp) rfl), rfl, by simp, rfl⟩

/-! ### The repository of C26 -/

/-- The state after `n` rounds. -/
def roundsN (cfg : Cfg) (W : World) : Nat → M
  | 0 => startM
  | n + 1 => match (roundsN cfg W n).exploreStep cfg W with | .ok m => m | _ => startM

/-- What the round after `n` rounds reports. -/
def reportsN (cfg : Cfg) (W : World) (n : Nat) : Option (List Report) :=
  match (roundsN cfg W n).exploreStepR true cfg W with
  | .ok (_, rs) => some rs
  | _ => none

theorem roundsN_life {cfg : Cfg} {W : World} (ok : Cfg → Prop) (hc : ok cfg) : ∀ n, Life W (fun k => k = [1]) ok (roundsN cfg W n) := by
  intro n
  refine ⟨V.new, ⟨[], by simp, rfl⟩, ?_⟩
  induction n with
  | zero => exact .initial _ _ .here (by simp)
  | succ n ih =>
    unfold roundsN
    split
    · rename_i m h; exact .round _ _ cfg hc ih h
    · exact .initial _ _ .here (by simp)

theorem usual_cfgS : Usual cfgS := ⟨rfl, rfl, rfl⟩

/-- All hypotheses hold in the rounds of this repository; the seventh round takes `s/x.roa`, file 6, which the manifest of
    the CA with file 2 lists. -/
example : (roundsN cfgS (worldM none) 6).queue = [6] ∧ (roundsN cfgS (worldM none) 6).pathOf 6 = dirS ++ 47 :: nX ∧
    (roundsN cfgS (worldM none) 6).files[6]? = some ⟨some 4, [], nX, .roa, false, some [7]⟩ ∧
    ((roundsN cfgS (worldM none) 6).files[4]?).bind (·.parent) = some 2 := by decide +kernel

/-- It is not there: the loss of the CA is reported. It has another hash: it is blamed, and the loss is reported. It is not a
    ROA: it is blamed. The manifest is not current: the loss is reported, for each file that it lists. -/
example : reportsN cfgS (worldM none) 6 = some [.about .manifest 2 (some 6)] ∧
    reportsN cfgS (worldM (some [9])) 6 = some [.about .manifest 2 (some 6), .about .hash 6 none] ∧
    reportsN cfgS (worldM (some [7])) 6 = some [.about .file 6 none] ∧
    reportsN cfgS (worldT 101) 2 = some [.about .manifest 0 (some 2), .about .parent 2 none] ∧
    reportsN cfgS (worldM (some [7])) 0 = some [] := by decide +kernel

/-- A run of the channel to the end. -/
example : ∃ n c, Chan.Steps (Chan.start (List.replicate 2 .nothing)) n c ∧ c.ended = true ∧ c.got = [.nothing, .nothing] := by
  refine ⟨6, ⟨[], [], true, [.nothing, .nothing], true⟩, ?_, rfl, rfl⟩
  refine .step _ _ _ (.step _ _ _ (.step _ _ _ (.step _ _ _ (.step _ _ _ (.step _ _ _ .here (.send _ _ _ rfl (by decide)))
    (.read _ _ _ rfl rfl)) (.send _ _ _ rfl (by decide))) (.close _ rfl rfl)) (.read _ _ _ rfl rfl)) (.finish _ rfl rfl rfl)

/-- **C97 is violated: absent files.** A file that a manifest lists and that is not there is not reported, if manifests are not strict. -/
theorem C97_violated_absent : ∃ (W : World) (m m' : M) (cfg : Cfg) (f : PKIFile) (p g : Nat), Usual cfg ∧ Life W (fun k => k = [1]) Usual m ∧
    m.queue = [6] ∧ Listed m 6 f p g ∧ W.getFile m.clock (m.pathOf 6) f = .absent ∧ m.exploreStepR true cfg W = .ok (m', []) := by
  let cfg : Cfg := ⟨false, false, false, true, true, true⟩
  have h : reportsN cfg (worldM none) 6 = some [] := by decide +kernel
  unfold reportsN at h
  split at h
  · rename_i m' rs hr
    simp at h
    subst h
    refine ⟨worldM none, roundsN cfg (worldM none) 6, m', cfg, ⟨some 4, [], nX, .roa, false, some [7]⟩, 4, 2, ⟨rfl, rfl, rfl⟩,
      roundsN_life Usual ⟨rfl, rfl, rfl⟩ 6, by decide +kernel, ⟨by decide +kernel, rfl, ⟨⟨some 2, dirS, nMA, .mft, false, none⟩, by decide +kernel⟩,
      ⟨⟨some 1, [], nA, .cer, false, some [2]⟩, by decide +kernel⟩⟩, by decide +kernel, hr⟩
  · simp at h

/-! A revocation list with a wrong signature. -/

def nCrlR : Bytes := asc ['x', '.', 'c', 'r', 'l']

def envCrlR : Env := { envM with
  checkCRLSig := fun _ _ => false
  parseMft := fun d => if d = [10] then .ok (mkMft [10] [1] [(nCrlR, [9])]) else .err ""
  parseCRL := fun d => if d = [9] then .ok (mkCRL [1] [77]) else .err "" }

def worldCrlR : World := { worldM none with
  env := envCrlR
  getFile := fun _ p _ => if p = dirR ++ 47 :: nCrlR then .found [9] (some [9]) else repoOf none p }

/-- **C97 is violated: revocation lists.** A revocation list with a wrong signature is rejected; what is reported is a nil error, without
    the file and the reason. -/
theorem C97_violated_crl : ∃ (W : World) (m m' : M) (f : PKIFile) (data : Bytes) (v1 : V) (a : Added), Life W (fun k => k = [1]) Usual m ∧
    m.queue = [2] ∧ m.files[2]? = some f ∧ f.type = .crl ∧ W.getFile m.clock (m.pathOf 2) f = .found data (some data) ∧
    Before m.v v1 ∧ v1.addResource W.env m.files 2 data = .ok (m'.v, a) ∧ a.valid = false ∧
    m.exploreStepR true cfgS W = .ok (m', [.nothing]) := by
  have h : reportsN cfgS worldCrlR 2 = some [.nothing] := by decide +kernel
  unfold reportsN at h
  split at h
  · rename_i m' rs hr
    simp at h
    subst h
    have hl : Life worldCrlR (fun k => k = [1]) Usual (roundsN cfgS worldCrlR 2) := roundsN_life Usual usual_cfgS 2
    have hf : (roundsN cfgS worldCrlR 2).files[2]? = some ⟨some 1, [], nCrlR, .crl, false, some [9]⟩ := by decide +kernel
    have hq : (roundsN cfgS worldCrlR 2).queue = [2] := by decide +kernel
    have hg : worldCrlR.getFile (roundsN cfgS worldCrlR 2).clock ((roundsN cfgS worldCrlR 2).pathOf 2)
        ⟨some 1, [], nCrlR, .crl, false, some [9]⟩ = .found [9] (some [9]) := by decide +kernel
    obtain ⟨v1, a, h1, h2, h3, h4⟩ := ((C97_blame_partial worldCrlR _ _ _ hl cfgS usual_cfgS 2 [] _ hq hf _ hr).2.2.2 _ _ hg).2 (by
      intro _ s h e1 e2; simp at e1 e2; rw [← e1, ← e2])
    refine ⟨worldCrlR, _, m', _, [9], v1, a, hl, hq, hf, rfl, hg, h1, h2, ?_, hr⟩
    cases hv : a.valid with
    | false => rfl
    | true => have := (h3 hv).2; simp at this
  · simp at h

/-- **C97 is violated: no log.** Without a log a file that is rejected is not reported. -/
theorem C97_violated_no_log : ∃ (W : World) (m m' : M) (cfg : Cfg) (f : PKIFile), cfg.notMFT = false ∧ cfg.hasSeeker = true ∧
    Life W (fun k => k = [1]) (fun _ => True) m ∧ m.queue = [6] ∧ m.files[6]? = some f ∧
    W.getFile m.clock (m.pathOf 6) f = .found [7] (some [7]) ∧ Undecodable W.env f [7] ∧ m.exploreStepR true cfg W = .ok (m', []) := by
  let cfg : Cfg := ⟨false, false, true, true, true, false⟩
  have h : reportsN cfg (worldM (some [7])) 6 = some [] := by decide +kernel
  unfold reportsN at h
  split at h
  · rename_i m' rs hr
    simp at h
    subst h
    exact ⟨worldM (some [7]), roundsN cfg (worldM (some [7])) 6, m', cfg, ⟨some 4, [], nX, .roa, false, some [7]⟩, rfl, rfl,
      roundsN_life _ trivial 6, by decide +kernel, by decide +kernel, by decide +kernel, ⟨"", by decide +kernel⟩, hr⟩
  · simp at h

end Verif.Props
