import Verif.Spec.SameFiles
import Verif.Props.CompleteLine
import Verif.Props.Refresh
/-
  Property theorems for sources of files: C122.
-/
set_option autoImplicit false

namespace Verif.Props
open Pki PkiSpec Manager ManagerSpec EndSpec EndToEnd CompleteSpec SameSpec

/-- The manager with another record of what was seen. -/
def setT (t : List Event) (m : M) : M := { m with trace := t }

theorem setT_invalidateRes (t : List Event) (cfg : Cfg) (m : M) (res : Option Nat) :
    (setT t m).invalidateRes cfg res = (m.invalidateRes cfg res >>= fun r => Go.ok (setT t r)) := by
  unfold M.invalidateRes logged
  cases res with
  | none => simp only; split <;> rfl
  | some r =>
    simp only
    have : (setT t m).v = m.v := rfl
    rw [this]
    cases m.v.certOf r with
    | none => simp only; split <;> rfl
    | some c =>
      simp only
      cases m.v.invalidateObject c.ski <;> rfl

theorem setT_manifestParent (t : List Event) (cfg : Cfg) (m : M) (f : PKIFile) :
    (setT t m).invalidateManifestParent cfg f = (m.invalidateManifestParent cfg f >>= fun r => Go.ok (setT t r)) := by
  unfold M.invalidateManifestParent
  have : (setT t m).grandCer f .mft = m.grandCer f .mft := rfl
  rw [this]
  cases m.grandCer f .mft with
  | none => rfl
  | some x => exact setT_invalidateRes t cfg m _

theorem setT_strict (t : List Event) (cfg : Cfg) (m : M) (f : PKIFile) :
    (setT t m).strict cfg f = (m.strict cfg f >>= fun r => Go.ok (setT t r)) := by
  unfold M.strict
  split
  · exact setT_manifestParent t cfg m f
  · rfl

theorem setT_checkExpired (t : List Event) (cfg : Cfg) {W W' : World} (h1 : W'.now1 = W.now1) (h2 : W'.now2 = W.now2) (m : M) (f : PKIFile) :
    (setT t m).checkExpired cfg W' f = (m.checkExpired cfg W f >>= fun r => Go.ok (setT t r)) := by
  unfold M.checkExpired logged
  rw [h1, h2]
  cases f.parent with
  | none => rfl
  | some p =>
    simp only
    have e1 : (setT t m).files = m.files := rfl
    have e2 : (setT t m).resOf = m.resOf := rfl
    have e3 : (setT t m).v = m.v := rfl
    have e4 : (setT t m).clock = m.clock := rfl
    rw [e1, e2, e3, e4]
    split
    · rfl
    · split
      · split
        · split
          · split
            · split
              · exact setT_manifestParent t cfg m f
              · rfl
            · split <;> rfl
          · split <;> rfl
        · split <;> rfl
      · rfl

theorem setT_checkHash (t : List Event) (cfg : Cfg) {W W' : World} (h1 : W'.now1 = W.now1) (h2 : W'.now2 = W.now2) (m : M) (f : PKIFile)
    (r : Fetch) : (setT t m).checkHash cfg W' f r = (m.checkHash cfg W f r >>= fun x => Go.ok (setT t x.1, x.2)) := by
  unfold M.checkHash
  split
  · split
    · split
      · rw [setT_checkExpired t cfg h1 h2]
        cases m.checkExpired cfg W f with
        | ok a => simp only [Go.ok_bind]; split <;> rfl
        | err e => rfl
        | panic => rfl
        | diverge => rfl
      · rfl
    · rfl
  · rfl

theorem setT_putFiles (t : List Event) : ∀ (l : List PKIFile) (m : M), (setT t m).putFiles l = setT t (m.putFiles l)
  | [], m => rfl
  | f :: l, m => by
    have : (setT t m).put1 f = setT t (m.put1 f) := by
      unfold M.put1
      by_cases hc : PKIFile.computePath m.files f ∈ m.explored ∨ PKIFile.computePath m.files f ∈ m.unique
      · simp [setT, hc]
      · simp [setT, hc]
    show M.putFiles ((setT t m).put1 f) l = setT t (M.putFiles (m.put1 f) l)
    rw [this]
    exact setT_putFiles t l _

theorem setT_exploreAdd (t : List Event) {W W' : World} (he : W'.env = W.env) (m : M) (fid : Nat) (data : Bytes) (s s' : Option Bytes) (b : Bool) :
    (setT t m).exploreAdd W' fid data s' b = (m.exploreAdd W fid data s b >>= fun r => Go.ok (setT (t ++ [.added fid data s']) r)) := by
  unfold M.exploreAdd
  rw [he]
  have e1 : (setT t m).files = m.files := rfl
  have e3 : (setT t m).v = m.v := rfl
  rw [e1, e3]
  cases m.v.addResource W.env m.files fid data with
  | ok a =>
    simp only [Go.ok_bind]
    split
    · have : ∀ (x : M), x = setT (t ++ [.added fid data s']) { m with
          v := a.1, explored := m.pathOf fid :: m.explored, trace := m.trace ++ [.added fid data s] } →
          (pure { x.putFiles (withParent fid a.2.files) with
            resOf := (fid, a.2.res) :: (x.putFiles (withParent fid a.2.files)).resOf } : Go M) =
          ((pure (let m2 := M.putFiles { m with
              v := a.1, explored := m.pathOf fid :: m.explored, trace := m.trace ++ [.added fid data s] } (withParent fid a.2.files)
            ({ m2 with resOf := (fid, a.2.res) :: m2.resOf } : M)) : Go M) >>= fun r => Go.ok (setT (t ++ [.added fid data s']) r)) := by
        intro x hx
        subst hx
        rw [setT_putFiles]
        rfl
      exact this _ rfl
    · rfl
  | err e => rfl
  | panic => rfl
  | diverge => rfl

theorem useAnswer_missing {W : World} {cfg : Cfg} {m : M} {fid : Nat} {f : PKIFile} {r : Fetch} (hk : KnownR1 W m)
    (hf : m.files[fid]? = some f) (W' : World) (hr : r = .fail ∨ r = .absent) : m.useAnswer cfg W' fid f r = m.strict cfg f := by
  rcases hr with rfl | rfl
  · unfold M.useAnswer
    simp only []
    cases hm : m.strict cfg f with
    | ok m1 =>
      have hs := strict_spared hk hf hm
      have hk1 := hk.onlyV hs.onlyV
      have := agrees_crlParent true cfg m1 fid f
      unfold Agrees at this
      rw [crlParent_nothing hk1 (by rw [(onlyV_fields hs.onlyV).1]; exact hf)] at this
      simp only [Go.ok_bind] at this ⊢
      exact this.symm
    | err e => rfl
    | panic => rfl
    | diverge => rfl
  · rfl

theorem same_missing {b : Bool} {r r' : Fetch} (h : SameAnswer b r r') :
    (∃ d s s', r = .found d s ∧ r' = .found d s' ∧ (b = true → s = s')) ∨ ((r = .fail ∨ r = .absent) ∧ (r' = .fail ∨ r' = .absent)) := by
  cases r <;> cases r' <;> simp_all [SameAnswer]

theorem same_checkHash (t : List Event) {cfg : Cfg} {W W' : World} (h1 : W'.now1 = W.now1) (h2 : W'.now2 = W.now2) {m m1 : M} {f : PKIFile}
    {r r' a : Fetch} (h : SameAnswer cfg.strictHash r r') (hx : m.checkHash cfg W f r = .ok (m1, a)) :
    ∃ a', (setT t m).checkHash cfg W' f r' = .ok (setT t m1, a') ∧ SameAnswer false a a' := by
  rcases same_missing h with ⟨d, s, s', rfl, rfl, hs⟩ | ⟨hr, hr'⟩
  · cases hst : cfg.strictHash with
    | true =>
      have := hs hst
      subst this
      refine ⟨a, by rw [setT_checkHash t cfg h1 h2, hx]; rfl, ?_⟩
      cases a <;> simp [SameAnswer]
    | false =>
      have g : ∀ (W : World) (m : M) s, m.checkHash cfg W f (.found d s) = .ok (m, .found d s) := by
        intro W m s
        unfold M.checkHash
        cases s with
        | none => rfl
        | some x =>
          cases f.manifestHash with
          | none => rfl
          | some y => simp [hst]
      rw [g] at hx ⊢
      simp only [Go.ok.injEq, Prod.mk.injEq] at hx
      obtain ⟨rfl, rfl⟩ := hx
      exact ⟨_, rfl, by simp [SameAnswer]⟩
  · have g : ∀ (W : World) (m : M) (r : Fetch), (r = .fail ∨ r = .absent) → m.checkHash cfg W f r = .ok (m, r) := by
      intro W m r hr
      rcases hr with rfl | rfl <;> rfl
    rw [g _ _ _ hr] at hx
    rw [g _ _ _ hr']
    simp only [Go.ok.injEq, Prod.mk.injEq] at hx
    obtain ⟨rfl, rfl⟩ := hx
    refine ⟨_, rfl, ?_⟩
    rcases hr with rfl | rfl <;> rcases hr' with rfl | rfl <;> trivial

theorem deliveries_snoc (t : List Event) (e : Event) : deliveries (t ++ [e]) = deliveries t ++ deliveries [e] := by
  simp [deliveries]

theorem same_round {W W' : World} {cfg : Cfg} (hc1 : cfg.notMFT = false) (hc3 : cfg.hasSeeker = true)
    (hw : SameSource cfg.strictHash W W') {m m' : M} (h : KnownR W m) (hs : m.exploreStep cfg W = .ok m') (t : List Event)
    (ht : deliveries t = deliveries m.trace) :
    ∃ t', (setT t m).exploreStep cfg W' = .ok (setT t' m') ∧ deliveries t' = deliveries m'.trace := by
  unfold M.exploreStep at hs
  split at hs
  · simp at hs
  · rename_i fid rest hqe
    split at hs
    · simp at hs
    · rename_i f hf
      obtain ⟨m3, h2, hs⟩ := Go.bind_eq_ok.mp hs
      simp only [Go.pure_def, Go.ok.injEq] at hs
      obtain ⟨m0, hm0⟩ : ∃ m0 : M, m0 = { m with queue := rest, trace := m.trace ++ [Event.taken fid] ++ [Event.fetched fid] } := ⟨_, rfl⟩
      have hfr := h.fresh hqe
      have hg : M.getNextFile cfg W { m with queue := rest, trace := m.trace ++ [.taken fid] } fid f =
          (m0, W.getFile m.clock (m.pathOf fid) f) := by
        unfold M.getNextFile
        rw [if_neg (show ¬ (M.pathOf { m with queue := rest, trace := m.trace ++ [.taken fid] } fid ∈ m.explored) from hfr),
          if_pos hc3, hm0]
        rfl
      have hg' : M.getNextFile cfg W' { m with queue := rest, trace := t ++ [.taken fid] } fid f =
          (setT (t ++ [.taken fid] ++ [.fetched fid]) m0, W'.getFile m.clock (m.pathOf fid) f) := by
        unfold M.getNextFile
        rw [if_neg (show ¬ (M.pathOf { m with queue := rest, trace := t ++ [.taken fid] } fid ∈ m.explored) from hfr),
          if_pos hc3, hm0]
        rfl
      unfold M.handle at h2
      rw [if_pos (.inl hc1)] at h2
      simp only [hg] at h2
      obtain ⟨⟨m1, a⟩, hx, hu⟩ := Go.bind_eq_ok.mp h2
      have f0 : m0.files = m.files := by rw [hm0]
      have v0 : m0.v = m.v := by rw [hm0]
      have t0 : m0.trace = m.trace ++ [.taken fid] ++ [.fetched fid] := by rw [hm0]
      have hk0 : KnownR1 W m0 := by
        refine ⟨by rw [v0]; exact h.reach, ?_, by rw [NoCrlParent, f0]; exact h.crl⟩
        intro i f p pf hx hp hpf ht
        rw [f0] at hx hpf
        obtain ⟨r, c, d, sha, k1, k2, k3, k4, k5⟩ := h.ca i f p pf hx hp hpf ht
        exact ⟨r, c, d, sha, by rw [hm0]; exact k1, by rw [v0]; exact k2, by rw [v0]; exact k3, by rw [t0]; simp [k4], k5⟩
      obtain ⟨hsp, _⟩ := checkHash_spared hk0 (by rw [f0]; exact hf) hx
      obtain ⟨g1, g2, g3, _⟩ := onlyV_fields hsp.onlyV
      have hk1 := hk0.onlyV hsp.onlyV
      have hf1 : m1.files[fid]? = some f := by rw [g1, f0]; exact hf
      have hfa : SameAnswer cfg.strictHash (W.getFile m.clock (m.pathOf fid) f) (W'.getFile m.clock (m.pathOf fid) f) := by
        rw [show m.pathOf fid = f.computePath m.files by unfold M.pathOf; rw [hf]]
        exact hw.file m.clock m.files f
      obtain ⟨a', hx', hsa⟩ := same_checkHash (t ++ [.taken fid] ++ [.fetched fid]) hw.now1 hw.now2
        hfa hx
      have hd0 : deliveries (t ++ [.taken fid] ++ [.fetched fid]) = deliveries m1.trace := by
        rw [g3, t0]
        simp only [deliveries_snoc, ht]
      obtain ⟨t3, hu', hd3⟩ : ∃ t3, (setT (t ++ [.taken fid] ++ [.fetched fid]) m1).useAnswer cfg W' fid f a' = .ok (setT t3 m3) ∧
          deliveries t3 = deliveries m3.trace := by
        rcases same_missing hsa with ⟨d, s, s', rfl, rfl, _⟩ | ⟨hr, hr'⟩
        · have hu2 : m1.exploreAdd W fid d s cfg.addInvalidChilds = .ok m3 := hu
          refine ⟨t ++ [.taken fid] ++ [.fetched fid] ++ [.added fid d s'], ?_, ?_⟩
          · show M.exploreAdd _ _ _ _ _ _ = _
            rw [setT_exploreAdd _ hw.env m1 fid d s s', hu2]
            rfl
          · have htr : m3.trace = m1.trace ++ [.added fid d s] := by
              have := setT_exploreAdd (W := W) (W' := W) m1.trace rfl m1 fid d s s cfg.addInvalidChilds
              rw [show setT m1.trace m1 = m1 from rfl, hu2] at this
              simp only [Go.ok_bind, Go.ok.injEq] at this
              rw [this]
              rfl
            rw [htr, deliveries_snoc m1.trace, ← hd0]
            exact deliveries_snoc _ _
        · rw [useAnswer_missing hk1 hf1 W hr] at hu
          have hcr : ∀ x : M, x.files = m1.files → x.invalidateCRLParent cfg f = .ok x := by
            intro x hx
            have hgc : m1.grandCer f .crl = none := by
              unfold M.grandCer
              split
              · rfl
              · rename_i p hp
                split
                · rfl
                · rename_i pf hpf
                  rw [if_neg (hk1.crl fid f p pf hf1 hp hpf)]
            have : x.grandCer f .crl = none := by
              rw [← hgc]
              unfold M.grandCer
              rw [hx]
            unfold M.invalidateCRLParent
            rw [this]
          have hsp2 := strict_spared hk1 hf1 hu
          obtain ⟨q1, _, q3, _⟩ := onlyV_fields hsp2.onlyV
          refine ⟨t ++ [.taken fid] ++ [.fetched fid], ?_, by rw [q3]; exact hd0⟩
          have hst := setT_strict (t ++ [.taken fid] ++ [.fetched fid]) cfg m1 f
          rw [hu] at hst
          simp only [Go.ok_bind] at hst
          rcases hr' with rfl | rfl
          · unfold M.useAnswer
            simp only []
            rw [hst]
            exact hcr _ q1
          · exact hst
      refine ⟨t3, ?_, by rw [← hs]; exact hd3⟩
      unfold M.exploreStep
      have e1 : (setT t m).queue = fid :: rest := hqe
      have e2 : (setT t m).files[fid]? = some f := hf
      simp only [e1, e2]
      have e3 : M.handle cfg W' { setT t m with queue := rest, trace := (setT t m).trace ++ [.taken fid] } fid f = .ok (setT t3 m3) := by
        unfold M.handle
        rw [if_pos (.inl hc1)]
        have e4 : ({ setT t m with queue := rest, trace := (setT t m).trace ++ [.taken fid] } : M) =
          { m with queue := rest, trace := t ++ [.taken fid] } := rfl
        rw [e4]
        simp only [hg']
        rw [hx']
        exact hu'
      rw [e3, ← hs]
      rfl

theorem same_loop {W W' : World} {cfg : Cfg} (hc1 : cfg.notMFT = false) (hc3 : cfg.hasSeeker = true)
    (hw : SameSource cfg.strictHash W W') : ∀ (n : Nat) (m m' : M) (b : Bool) (c c' : Nat), Life W (fun _ => True) (· = cfg) m →
      exploreLoop cfg W n m b c = .ok (m', c') → ∀ t, deliveries t = deliveries m.trace →
      ∃ t', exploreLoop cfg W' n (setT t m) b c = .ok (setT t' m', c') ∧ deliveries t' = deliveries m'.trace
  | 0, m, m', b, c, c', _, h, t, _ => by simp [exploreLoop] at h
  | n + 1, m, m', false, c, c', _, h, t, ht => by
    simp only [exploreLoop, Go.ok.injEq, Prod.mk.injEq] at h ⊢
    obtain ⟨rfl, rfl⟩ := h
    exact ⟨t, ⟨rfl, rfl⟩, ht⟩
  | n + 1, m, m', true, c, c', hl, h, t, ht => by
    unfold exploreLoop at h
    obtain ⟨m1, h1, h2⟩ := Go.bind_eq_ok.mp h
    obtain ⟨t1, e1, e2⟩ := same_round hc1 hc3 hw (known_of_life (fun cfg hc => by rw [hc]; exact hc1) hl) h1 t ht
    obtain ⟨v, hv, hla⟩ := hl
    obtain ⟨t2, e3, e4⟩ := same_loop hc1 hc3 hw n m1 m' _ _ _ ⟨v, hv, .round m m1 _ rfl hla h1⟩ h2 t1 e2
    refine ⟨t2, ?_, e4⟩
    unfold exploreLoop
    rw [e1]
    exact e3

/-- **C122, one exploration.** With manifests, two sources of files that give the same octets (with the same hashes in strict hash mode)
    lead to the same validator, the same files and the same deliveries; it makes no difference whether a source says that a file is not
    there or fails. -/
theorem C122_exploration (fl : Flags) (hm : fl.useManifest = true) (run run' : TalRun) (h : SameRun fl.strictHash run run') (m : M)
    (hx : exploreTal fl run = .ok m) : ∃ m', exploreTal fl run' = .ok m' ∧ m'.v = m.v ∧ m'.files = m.files ∧
      deliveries m'.trace = deliveries m.trace := by
  unfold exploreTal at hx
  obtain ⟨⟨m1, n⟩, h1, h2⟩ := Go.bind_eq_ok.mp hx
  simp only [Go.pure_def, Go.ok.injEq] at h2
  subst h2
  have hlife : Life run.world (fun _ => True) (· = fl.cfg) ((M.new V.new).putFiles [run.file]) :=
    ⟨V.new, ⟨[], by simp, rfl⟩, .initial _ _ .here (by simp [TalRun.file])⟩
  unfold M.explore at h1
  obtain ⟨t', e1, e2⟩ := same_loop (by simp [Flags.cfg, hm]) rfl h.source _ _ _ _ _ _ hlife h1 _ rfl
  refine ⟨setT t' m1, ?_, rfl, rfl, e2⟩
  unfold exploreTal M.explore
  have hfile : run'.file = run.file := by unfold TalRun.file; rw [h.path]
  rw [hfile, h.fuel]
  rw [show setT ((M.new V.new).putFiles [run.file]).trace ((M.new V.new).putFiles [run.file]) = (M.new V.new).putFiles [run.file] from rfl] at e1
  rw [e1]
  rfl

theorem same_roasOf {b : Bool} {run run' : TalRun} (h : SameRun b run run') {m m' : M} (hv : m'.v = m.v) (hf : m'.files = m.files) :
    ∀ l, roasOf run' m' l = roasOf run m l
  | [] => rfl
  | k :: l => by
    have hr : ∀ o, readAgain run' m' o = readAgain run m o := by
      intro o
      unfold readAgain
      rw [hf]
      cases o with
      | none => rfl
      | some i =>
        cases hi : m.files[i]? with
        | none => simp [hi]
        | some f =>
          simp only [hi]
          have := h.reread f
          cases h1 : run'.reread f <;> cases h2 : run.reread f <;> simp_all
    have hk : roaOf run' m' k = roaOf run m k := by
      unfold roaOf
      simp only [hv, hr]
    unfold roasOf
    rw [hk, same_roasOf h hv hf l]

theorem same_tals (fl : Flags) (hm : fl.useManifest = true) (names : List Bytes) (n : Nat) : ∀ (runs runs' : List TalRun),
    List.Forall₂ (SameRun fl.strictHash) runs runs' → ∀ ms, exploreTals fl runs = .ok ms →
    ∃ ms', exploreTals fl runs' = .ok ms' ∧ ∀ i, exportTals names n i ms' = exportTals names n i ms
  | _, _, .nil, ms, h => by
    simp only [exploreTals, Go.ok.injEq] at h
    subst h
    exact ⟨[], rfl, fun _ => rfl⟩
  | run :: rest, run' :: rest', .cons h1 h2, ms, h => by
    unfold exploreTals at h
    obtain ⟨m, hx, h⟩ := Go.bind_eq_ok.mp h
    obtain ⟨l, hl, h⟩ := Go.bind_eq_ok.mp h
    simp only [Go.pure_def, Go.ok.injEq] at h
    subst h
    obtain ⟨m', e1, e2, e3, _⟩ := C122_exploration fl hm run run' h1 m hx
    obtain ⟨l', e4, e5⟩ := same_tals fl hm names n rest rest' h2 l hl
    refine ⟨(run', m') :: l', ?_, ?_⟩
    · unfold exploreTals
      rw [e1, Go.ok_bind, e4]
      rfl
    · intro i
      unfold exportTals
      rw [e5, e2, h1.order, h1.path, same_roasOf h1 e2 e3]

/-- **C122, the list.** So with manifests the list of VRPs depends on the source of the files only through their octets, and through their
    hashes in strict hash mode. -/
theorem C122_list (fl : Flags) (hm : fl.useManifest = true) (names : List Bytes) (now : Int) (runs runs' : List TalRun)
    (h : List.Forall₂ (SameRun fl.strictHash) runs runs') (ms : List (TalRun × M)) (L : Out.ROAList)
    (hx : mainValidation fl names now runs = .ok (ms, L)) : ∃ ms', mainValidation fl names now runs' = .ok (ms', L) := by
  unfold mainValidation at hx
  obtain ⟨ms1, h1, hx⟩ := Go.bind_eq_ok.mp hx
  obtain ⟨ts, h2, hx⟩ := Go.bind_eq_ok.mp hx
  obtain ⟨L1, h3, hx⟩ := Go.bind_eq_ok.mp hx
  simp only [Go.pure_def, Go.ok.injEq, Prod.mk.injEq] at hx
  obtain ⟨rfl, rfl⟩ := hx
  obtain ⟨ms', e1, e2⟩ := same_tals fl hm names runs.length runs runs' h ms1 h1
  refine ⟨ms', ?_⟩
  unfold mainValidation
  rw [e1, Go.ok_bind, ← h.length_eq, e2, h2, Go.ok_bind, h3]
  rfl

/-- **C122, known repositories.** Which repositories the fetcher knows decides only whether a missing file counts as an error or as absent;
    so, with manifests, the list that is made from a cache does not depend on it. -/
theorem C122_repositories (S : Refresh.Setup) (fl : Flags) (hm : fl.useManifest = true) (names : List Bytes) (now : Int) (k : Refresh.Tick)
    (repos : List Bytes) (fs : Cache.FS) (tals : List Bytes) (ms : List (TalRun × M)) (L : Out.ROAList)
    (hx : mainValidation fl names now (tals.map (Refresh.talRun S k fs)) = .ok (ms, L)) :
    ∃ ms', mainValidation fl names now (tals.map (Refresh.talRun S { k with repos := repos } fs)) = .ok (ms', L) := by
  refine C122_list fl hm names now _ _ ?_ ms L hx
  · have one : ∀ p, SameRun fl.strictHash (Refresh.talRun S k fs p) (Refresh.talRun S { k with repos := repos } fs p) := by
      intro p
      refine ⟨rfl, rfl, ⟨rfl, rfl, rfl, ?_⟩, rfl, fun _ => Iff.rfl⟩
      intro n files f
      show SameAnswer _ (Refresh.seek S k.repos fs (f.computePath files) f) (Refresh.seek S repos fs (f.computePath files) f)
      unfold Refresh.seek Cache.getFileConv
      cases Cache.fetchFile S.sha256 fs (Path.getLocalPath (f.computePath files) (Refresh.rsyncMap S.base)) (decide (f.type ≠ .tal)) with
      | ok a => simp [SameAnswer]
      | err e => by_cases h1 : Cache.moduleOf f.path ∈ k.repos <;> by_cases h2 : Cache.moduleOf f.path ∈ repos <;> simp [h1, h2, SameAnswer]
      | panic => simp [SameAnswer]
      | diverge => simp [SameAnswer]
    have all : ∀ l : List Bytes, List.Forall₂ (SameRun fl.strictHash) (l.map (Refresh.talRun S k fs))
        (l.map (Refresh.talRun S { k with repos := repos } fs)) := by
      intro l
      induction l with
      | nil => exact .nil
      | cons p l ih => exact .cons (one p) ih
    exact all _

/-- The hypothesis holds of the cache of the example in Props/Refresh, in which the manifest of the anchor is missing: with a known repository this is
    an error, without it is not. -/
example : isOk (mainValidation flE [] 1000 (setupR.tals.map (Refresh.talRun setupR tickR oldS.fs))) = true ∧
    Refresh.seek setupR [] oldS.fs nM0 ⟨none, [], tx "rsync://h/m/a.mft", .mft, false, none⟩ = .absent ∧
    Refresh.seek setupR [tx "rsync://h/m"] oldS.fs nM0 ⟨none, [], tx "rsync://h/m/a.mft", .mft, false, none⟩ = .fail := by decide +kernel

/-! The repository of the examples, from a source that gives no hashes and fails where the other has no file. -/

def bare : Fetch → Fetch
  | .found d _ => .found d none
  | _ => .fail
def runBare : TalRun := { runE with world := { worldE with getFile := fun n p f => bare (worldE.getFile n p f) } }
def flBare : Flags := { flE with strictHash := false }

/-- The hypotheses hold without strict hash mode, and the list is not empty; in strict hash mode the sources differ. -/
example : flBare.useManifest = true ∧ List.Forall₂ (SameRun flBare.strictHash) [runE] [runBare] ∧
    isOk (exploreTal flBare runE) = true ∧
    (match mainValidation flBare [tx "T"] 1000 [runE] with
      | .ok (_, L) => L.data.map (fun r => (r.prefixText, r.length, r.asn, r.ta))
      | _ => []) = [(tx "10.1.0.0/16", 24, tx "AS7", tx "T")] ∧
    ¬ SameRun flE.strictHash runE runBare := by
  refine ⟨rfl, .cons ⟨rfl, rfl, ⟨rfl, rfl, rfl, ?_⟩, rfl, fun _ => Iff.rfl⟩ .nil, by decide +kernel, by decide +kernel, ?_⟩
  · intro n files f
    show SameAnswer false (worldE.getFile n (f.computePath files) f) (bare (worldE.getFile n (f.computePath files) f))
    cases worldE.getFile n (f.computePath files) f <;> simp [SameAnswer, bare]
  · intro h
    have := h.source.file 0 [] ⟨none, [], nM0, .mft, false, none⟩
    have e1 : runE.world.getFile 0 (PKIFile.computePath [] ⟨none, [], nM0, .mft, false, none⟩) ⟨none, [], nM0, .mft, false, none⟩ =
      .found [10] (some [10]) := by decide +kernel
    have e2 : runBare.world.getFile 0 (PKIFile.computePath [] ⟨none, [], nM0, .mft, false, none⟩) ⟨none, [], nM0, .mft, false, none⟩ =
      .found [10] none := by decide +kernel
    rw [e1, e2] at this
    simp [SameAnswer, flE] at this

end Verif.Props
