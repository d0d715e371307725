import Verif.Props.Complete
import Verif.Props.EndToEnd
import Verif.Spec.CompleteLine
import Verif.Lemmas.CompleteLine
/-
  Property theorems for C119: from the files delivered to an exploration to the lines of the list.
-/
set_option autoImplicit false

namespace Verif.Props
open Pki PkiSpec Manager ManagerSpec EndSpec EndToEnd Out OutSpec Roa Net ResSpec Cert CompleteSpec

/-- What holds all along an exploration with manifests. -/
structure Along (W : World) (cfg : Cfg) (m : M) : Prop where
  drives : ∃ ops, Drives W cfg m ops
  mft : MftInv W m
  known : KnownR W m

theorem follows_other {W : World} {cfg : Cfg} {m m' : M} (hi : MInv m) (h : ∃ ops, Drives W cfg m ops) (hf : m'.files = m.files)
    (hv : m'.v = m.v) (ht : ∃ l, m'.trace = m.trace ++ l ∧ ∀ e ∈ l, ∀ i d s, e ≠ .added i d s) : ∃ ops, Drives W cfg m' ops := by
  obtain ⟨ops, h1, h2, h3⟩ := h
  obtain ⟨l, ht, hl⟩ := ht
  refine ⟨ops, by rw [hv]; exact h1, ?_, ?_⟩
  · rw [h2, ht]
    unfold deliveries
    rw [List.filterMap_append]
    have : deliveries l = [] := by
      unfold deliveries
      rw [List.filterMap_eq_nil_iff]
      intro ev hev
      cases ev with
      | added i d s => exact (hl _ hev i d s rfl).elim
      | _ => rfl
    unfold deliveries at this
    rw [this, List.append_nil]
  · intro op hop
    rcases h3 op hop with hh | ⟨k, e1, e2⟩
    · rw [hf]; exact .inl hh
    · exact .inr ⟨k, e1, blamed_mono hi ⟨[], by simp [hf]⟩ ⟨l, ht⟩ e2⟩

theorem follows_spared {W : World} {cfg : Cfg} {m m' : M} {fid : Nat} {f : PKIFile} {R : Prop} (h : ∃ ops, Drives W cfg m ops)
    (hs : Spared W m fid f R m')
    (hR : R → ∀ p g, ManagerSpec.Listed m fid f p g → ∀ d sha c, Event.added g d sha ∈ m.trace → W.env.parseCert d = .ok c →
      Blamed W cfg m c.ski) : ∃ ops, Drives W cfg m' ops := by
  rcases hs with rfl | ⟨p, g, c, d, sha, v, g1, g2, g3, g4, rfl, g6⟩
  · exact h
  · obtain ⟨ops, h1, h2, h3⟩ := h
    have hb := hR g6 p g g1 d sha c g2 g3
    refine ⟨ops ++ [.invalidate c.ski], Manager.run_snoc h1 (by simp [V.step, g4]), ?_, ?_⟩
    · unfold addsOf at h2 ⊢
      rw [List.filterMap_append, h2]
      exact List.append_nil _
    · intro op hop
      rcases List.mem_append.mp hop with hop | hop
      · rcases h3 op hop with hh | ⟨k, e1, e2⟩
        · exact .inl hh
        · exact .inr ⟨k, e1, blamed_same (m := m) rfl rfl e2⟩
      · simp at hop
        exact .inr ⟨c.ski, hop, blamed_same (m := m) rfl rfl hb⟩

theorem follows_add {W : World} {cfg : Cfg} {m m' : M} (hi : MInv m) (h : ∃ ops, Drives W cfg m ops) {fid : Nat} {f : PKIFile}
    (hf : m.files[fid]? = some f) {data : Bytes} {sha : Option Bytes} (ha : m.exploreAdd W fid data sha false = .ok m') :
    ∃ ops, Drives W cfg m' ops := by
  obtain ⟨ops, h1, h2, h3⟩ := h
  unfold M.exploreAdd at ha
  obtain ⟨⟨v1, a⟩, hv, ha⟩ := Go.bind_eq_ok.mp ha
  simp only [Bool.false_or] at ha
  have hlt : fid < m.files.length := (List.getElem?_eq_some_iff.mp hf).1
  obtain ⟨l, hm1, hm2, hm3⟩ : ∃ l, m'.files = m.files ++ l ∧ m'.v = v1 ∧ m'.trace = m.trace ++ [.added fid data sha] := by
    split at ha
    · simp only [Go.pure_def, Go.ok.injEq] at ha
      obtain ⟨_, g1, g2, _, _, g3⟩ := keeps_putFiles (withParent fid a.files)
        { m with v := v1, explored := m.pathOf fid :: m.explored, trace := m.trace ++ [.added fid data sha] }
        (by intro z hz p hp
            obtain ⟨z0, _, rfl⟩ := List.mem_map.mp hz
            simp at hp; subst hp; exact hlt)
      refine ⟨withParent fid a.files, ?_, ?_, ?_⟩
      · rw [← ha]; exact g1
      · rw [← ha]; exact g3
      · rw [← ha]; exact g2
    · simp only [Go.pure_def, Go.ok.injEq] at ha
      subst ha
      exact ⟨[], by simp, rfl, rfl⟩
  have hstep : m.v.step W.env (.addResource m.files fid data) = .ok v1 := by simp [V.step, hv]
  refine ⟨ops ++ [.addResource m.files fid data], ?_, ?_, ?_⟩
  · rw [hm2]; exact Manager.run_snoc h1 hstep
  · rw [hm3]
    unfold addsOf deliveries at h2 ⊢
    rw [List.filterMap_append, List.filterMap_append, h2]
    rfl
  · intro op hop
    rcases List.mem_append.mp hop with hop | hop
    · rcases h3 op hop with ⟨fs, i, d, e1, e2⟩ | ⟨k, e1, e2⟩
      · exact .inl ⟨fs, i, d, e1, e2.trans ⟨l, hm1.symm⟩⟩
      · exact .inr ⟨k, e1, blamed_mono hi ⟨l, hm1⟩ ⟨_, hm3⟩ e2⟩
    · simp at hop
      exact .inl ⟨m.files, fid, data, hop, ⟨l, hm1.symm⟩⟩

theorem minv_same {m m' : M} (hi : MInv m) (hf : m'.files = m.files) (he : entered m' = entered m) (hu : m'.unique = m.unique)
    (hr : m'.resOf = m.resOf) (hq : ∀ i ∈ m'.queue, i ∈ m.queue) : MInv m' := by
  have hp : m'.pathOf = m.pathOf := by funext i; unfold M.pathOf; rw [hf]
  refine ⟨by rw [hf]; exact hi.par, by rw [hf, he]; exact hi.lt, by rw [he, hp]; exact hi.nd, by rw [hu, he, hp]; exact hi.uniq, ?_⟩
  rw [hr, hf]
  exact fun e he' => ⟨fun h => (hi.res e he').1 (hq _ h), (hi.res e he').2⟩

theorem follows_round {W : World} {cfg : Cfg} (hc1 : cfg.notMFT = false) (hc2 : cfg.addInvalidChilds = false) (hc3 : cfg.hasSeeker = true)
    {m m' : M} (h : Along W cfg m) (hs : m.exploreStep cfg W = .ok m') : ∃ ops, Drives W cfg m' ops := by
  unfold M.exploreStep at hs
  split at hs
  · simp at hs
  · rename_i fid rest hqe
    split at hs
    · simp at hs
    · rename_i f hf
      obtain ⟨m3, h2, hs⟩ := Go.bind_eq_ok.mp hs
      simp only [Go.pure_def, Go.ok.injEq] at hs
      have hi := h.known.inv
      -- the state after the fetch
      obtain ⟨m0, hm0⟩ : ∃ m0 : M, m0 = { m with queue := rest, trace := m.trace ++ [Event.taken fid] ++ [Event.fetched fid] } := ⟨_, rfl⟩
      have hg : M.getNextFile cfg W { m with queue := rest, trace := m.trace ++ [.taken fid] } fid f =
          (m0, W.getFile m.clock (m.pathOf fid) f) := by
        unfold M.getNextFile
        rw [if_neg (show ¬ (M.pathOf { m with queue := rest, trace := m.trace ++ [.taken fid] } fid ∈ m.explored) from h.known.fresh hqe),
          if_pos hc3, hm0]
        rfl
      unfold M.handle at h2
      rw [if_pos (.inl hc1)] at h2
      simp only [hg] at h2
      obtain ⟨⟨m1, r'⟩, hx, hu⟩ := Go.bind_eq_ok.mp h2
      have f0 : m0.files = m.files := by rw [hm0]
      have v0 : m0.v = m.v := by rw [hm0]
      have t0 : m0.trace = m.trace ++ [.taken fid] ++ [.fetched fid] := by rw [hm0]
      have p0 : ∀ i, m0.pathOf i = m.pathOf i := fun i => by unfold M.pathOf; rw [f0]
      have hi0 : MInv m0 := by
        refine minv_same hi f0 ?_ (by rw [hm0]) (by rw [hm0]) (by rw [hm0, hqe]; exact fun i hi => List.mem_cons_of_mem _ hi)
        unfold entered
        rw [t0, taken_append, taken_append, hqe, hm0]
        simp [taken]
      have hk0 : KnownR1 W m0 := by
        refine ⟨by rw [v0]; exact h.known.reach, ?_, by rw [NoCrlParent, f0]; exact h.known.crl⟩
        intro i f p pf hx hp hpf ht
        rw [f0] at hx hpf
        obtain ⟨r, c, d, sha, k1, k2, k3, k4, k5⟩ := h.known.ca i f p pf hx hp hpf ht
        exact ⟨r, c, d, sha, by rw [hm0]; exact k1, by rw [v0]; exact k2, by rw [v0]; exact k3, by rw [t0]; simp [k4], k5⟩
      have hd0 : ∃ ops, Drives W cfg m0 ops := follows_other hi h.drives f0 v0 ⟨[.taken fid] ++ [.fetched fid], by rw [t0]; simp, by simp⟩
      have hta : fid ∈ taken m0.trace := by rw [t0, taken_append, taken_append]; simp [taken]
      -- the check of the manifest
      obtain ⟨hsp, rfl⟩ := checkHash_spared hk0 (by rw [f0]; exact hf) hx
      have hd1 : ∃ ops, Drives W cfg m1 ops := by
        refine follows_spared hd0 hsp ?_
        rintro ⟨e1, p', pf, r, mc, q1, q2, q3, q4, q5, q6⟩ p g hl d sha c hd hc
        have := hl.parent
        rw [q1] at this
        simp at this
        subst this
        rw [f0] at q2
        obtain ⟨r2, c2, d2, sha2, k1, k2, k3, k4⟩ := h.mft fid f p' pf hf q1 q2 q3
        have hrr : r2 = r := by
          have : m0.resOf = m.resOf := by rw [hm0]
          rw [this, k1] at q4
          simpa using q4
        subst hrr
        have hcc : c2 = mc := by
          unfold V.dataOf at k2
          rw [v0] at q5
          rw [q5] at k2
          simpa using k2.symm
        subst hcc
        exact ⟨fid, p', g, f, d, sha, c, hl, hta, hd, hc, rfl, .inr ⟨e1, m0.clock, d2, sha2, c2, by rw [t0]; simp [k3], k4, q6⟩⟩
      obtain ⟨g1, g2, g3, _, g5, _, g7⟩ := onlyV_fields hsp.onlyV
      have p1 : ∀ i, m1.pathOf i = m.pathOf i := fun i => by unfold M.pathOf; rw [g1, f0]
      have hk1 := hk0.onlyV hsp.onlyV
      have hf1 : m1.files[fid]? = some f := by rw [g1, f0]; exact hf
      -- the use of the answer
      have hd3 : ∃ ops, Drives W cfg m3 ops := by
        rcases useAnswer_spared hk1 hf1 hu with ⟨hm, hsp2⟩ | ⟨data, sha, hr, hadd⟩
        · refine follows_spared hd1 hsp2 ?_
          intro e p g hl d sha c hd hc
          refine ⟨fid, p, g, f, d, sha, c, hl, by rw [g3]; exact hta, hd, hc, rfl, .inl ⟨e, m.clock, ?_⟩⟩
          rw [p1]
          exact missing_of_judged hm
        · rw [hc2] at hadd
          have hi1 : MInv m1 := by
            rcases hsp with rfl | ⟨_, _, _, _, _, v, _, _, _, _, rfl, _⟩
            · exact hi0
            · exact minv_same hi0 rfl rfl rfl rfl (fun _ h => h)
          exact follows_add hi1 hd1 hf1 hadd
      obtain ⟨ops, e1, e2, e3⟩ := hd3
      subst hs
      refine ⟨ops, e1, e2, fun op hop => ?_⟩
      rcases e3 op hop with hh | ⟨k, q1, q2⟩
      · exact .inl hh
      · exact .inr ⟨k, q1, blamed_same (m := m3) rfl rfl q2⟩

/-- Every exploration with manifests is a history of its validator. -/
theorem explore_follows (fl : Flags) (hm : fl.useManifest = true) (run : TalRun) (m : M) (h : exploreTal fl run = .ok m) :
    ∃ ops, Drives run.world fl.cfg m ops := by
  unfold exploreTal at h
  obtain ⟨⟨m', n⟩, h1, h2⟩ := Go.bind_eq_ok.mp h
  simp only [Go.pure_def, Go.ok.injEq] at h2
  subst h2
  have hlife : Life run.world (fun _ => True) (· = fl.cfg) ((M.new V.new).putFiles [run.file]) :=
    ⟨V.new, ⟨[], by simp, rfl⟩, .initial _ _ .here (by simp [TalRun.file])⟩
  have hn : fl.cfg.notMFT = false := by simp [Flags.cfg, hm]
  rw [M.explore, exploreLoop_drain] at h1
  have hrounds := drain_rounds (m0 := (M.new V.new).putFiles [run.file]) _ _ _ _ _ .here h1
  have : ∀ m1, Rounds run.world fl.cfg ((M.new V.new).putFiles [run.file]) m1 →
      Along run.world fl.cfg m1 ∧ Life run.world (fun _ => True) (· = fl.cfg) m1 := by
    intro m1 hr
    induction hr with
    | here =>
      obtain ⟨_, g1, g2, _, _, g3⟩ := keeps_putFiles [run.file] (M.new V.new) (by simp [TalRun.file])
      refine ⟨⟨⟨[], by rw [g3]; rfl, by rw [g2]; rfl, by simp⟩, ?_, known_of_life (fun cfg hc => by rw [hc]; exact hn) hlife⟩, hlife⟩
      intro i f p pf hx hp
      rw [g1] at hx
      have : f = run.file := by
        have := List.mem_of_getElem? hx
        simpa [M.new] using this
      subst this
      simp [TalRun.file] at hp
    | round a b _ hs ih =>
      obtain ⟨hal, v, hv, hla⟩ := ih
      have hlb : Life run.world (fun _ => True) (· = fl.cfg) b := ⟨v, hv, .round a b _ rfl hla hs⟩
      obtain ⟨_, _, _, hro⟩ := round_ok hal.known.inv hs
      exact ⟨⟨follows_round hn rfl rfl hal hs, mftInv_round hn hal.known.inv hal.known.reach hro hs hal.mft,
        known_of_life (fun cfg hc => by rw [hc]; exact hn) hlb⟩, hlb⟩
  exact (this _ hrounds).1.drives

/-- **C119, lines (partial, as `C119_published_partial`; and the VRPs of the valid ROAs are well-formed and the files are still there when
    the list is made, as in `C78_exact_partial`).** Each exploration does to its validator a history that adds the files in the order of
    their delivery; and whenever in it a ROA in order came after an issuer that came in good course, with a key id that was not in use, and
    was not withdrawn or invalidated by name, each of its VRPs (with the filter: each that is short enough) can be read in the list. -/
theorem C119_line_partial (fl : Flags) (hm : fl.useManifest = true) (names : List Bytes) (now : Int) (runs : List TalRun)
    (hk : ∀ run ∈ runs, ∀ d c, run.world.env.parseCert d = .ok c → TalSpec.CertKey c.isRSA c.pubKey)
    (ms : List (TalRun × M)) (h : exploreTals fl runs = .ok ms) (hg : ∀ v, ValidVrp ms v → GoodVrp v)
    (hre : ∀ run ∈ runs, ∀ f, run.reread f ≠ .absent) :
    ∃ L, mainValidation fl names now runs = .ok (ms, L) ∧ ∀ run m, (run, m) ∈ ms → ∃ ops, Drives run.world fl.cfg m ops ∧
      ∀ (k n : Nat) (p : Pki.Cert) (roa : ROA) (files : List PKIFile) (fid : Nat) (f : PKIFile) (data : Bytes) (u : V),
        Course run.world.env ops k p → k ≤ n → ops[n]? = some (.addResource files fid data) → files[fid]? = some f → f.type = .roa →
        decodeROA run.world.env data = .ok roa → StateAt run.world.env ops n u → (∀ d, ¬ Stored u roa.cert.ski d) →
        roa.cert.aki = p.ski → InOrder run.world.env roa → Issued run.world.env p roa.cert → ¬ Withdrawn run.world.env ops roa.cert →
        Op.invalidate roa.cert.ski ∉ ops.drop (n + 1) → ∀ e ∈ roa.valids,
        (fl.filter = true → ∃ q, IsMask q e.ipnet.mask ∧ Short e.ipnet q) → ∃ r ∈ L.data, Reads r ⟨e.ipnet, e.maxLength, roa.asn⟩ := by
  obtain ⟨L, h1, h2, _⟩ := C78_exact_partial fl hm names now runs hk ms h hg hre
  refine ⟨L, h1, ?_⟩
  intro run m hmem
  obtain ⟨_, hexp⟩ := exploreTals_ok h
  obtain ⟨ops, hfo⟩ := explore_follows fl hm run m (hexp (run, m) hmem)
  refine ⟨ops, hfo, ?_⟩
  intro k n p roa files fid f data u hc hkn hop hf hty hd hu hn hak hin his hw hi e he hfil
  obtain ⟨⟨j, res, g1, g2, g3⟩, _⟩ := C119_roa_partial run.world.env ops m.v hfo.run k n p roa _ u hc hkn hop ⟨⟨f, hf, hty⟩, hd⟩ hu hn hak hin his
    hw hi
  exact (h2 _).mpr ⟨⟨(run, m), hmem, roa.cert.ski, j, roa, e, g1, ⟨res, g2, g3⟩, he, rfl⟩, hfil⟩

/-- What the exploration of the example repository did: the TAL, its certificate, the manifest and the ROA. -/
def opsE : List Op := (deliveries doneE.trace).map (fun x => .addResource doneE.files x.1 x.2)
def roaE : ROA := ⟨7, [⟨⟨[10, 1, 0, 0], [255, 255, 0, 0]⟩, 24⟩], mkCert [5] [1] 5 [net10_1] [], true,
  [⟨⟨[10, 1, 0, 0], [255, 255, 0, 0]⟩, 24⟩], [], []⟩

theorem runOpsE : V.run envE V.new opsE = .ok doneE.v := by rfl
theorem opsE_after : doneE.v = after envE opsE := by
  have := runOpsE
  rw [run_after (by decide +kernel)] at this
  exact (Go.ok.inj this).symm

/-- Non-vacuity of `C119_line_partial` (with the example of `C78_exact_partial`): the exploration did these operations, the trust anchor
    came in good course, and the ROA meets the conditions. -/
example : Drives worldE flE.cfg doneE opsE ∧ Course envE opsE 2 taE ∧ opsE[3]? = some (.addResource doneE.files 3 [7]) ∧
    decodeROA envE [7] = .ok roaE ∧ StateAt envE opsE 3 (after envE (opsE.take 3)) ∧ (∀ d, ¬ Stored (after envE (opsE.take 3)) [5] d) ∧
    InOrder envE roaE ∧ Issued envE taE roaE.cert ∧ ¬ Withdrawn envE opsE roaE.cert ∧ Op.invalidate [5] ∉ opsE.drop 4 ∧
    Listed doneE.v roaE := by
  have hru : V.run envE V.new opsE = .ok (after envE opsE) := run_after (by decide +kernel)
  have hco : Course envE opsE 2 taE := .top 2 taE (after envE (opsE.take 2)) _ (run_after (by decide +kernel)) ⟨1, by decide +kernel⟩ hru
    (.inr (not_stored_of (by decide +kernel))) (not_withdrawn_of hru (by decide +kernel)) (by decide +kernel)
  have hst : StateAt envE opsE 3 (after envE (opsE.take 3)) := run_after (by decide +kernel)
  have hns : ∀ d, ¬ Stored (after envE (opsE.take 3)) [5] d := not_stored_of (by decide +kernel)
  have hin : InOrder envE roaE := ⟨by decide +kernel, by decide +kernel, by decide +kernel, by decide +kernel⟩
  have his : Issued envE taE roaE.cert := ⟨rfl, by decide +kernel, by decide +kernel⟩
  have hw : ¬ Withdrawn envE opsE roaE.cert := not_withdrawn_of hru (by decide +kernel)
  have hd : decodeROA envE [7] = .ok roaE := by decide +kernel
  have h3 : opsE[3]? = some (.addResource doneE.files 3 [7]) := by rfl
  have hi : Op.invalidate [5] ∉ opsE.drop 4 := by decide +kernel
  refine ⟨⟨runOpsE, by rfl, ?_⟩, hco, h3, hd, hst, hns, hin, his, hw, hi, ?_⟩
  · intro op hop
    obtain ⟨x, _, rfl⟩ := List.mem_map.mp hop
    exact .inl ⟨_, _, _, rfl, List.prefix_rfl⟩
  · exact (C119_roa_partial envE opsE _ runOpsE 2 3 taE roaE _ _ hco (by omega) h3 ⟨⟨doneE.files[3]'(by decide +kernel), by rfl, by rfl⟩, hd⟩
      hst hns (by decide +kernel) hin his hw hi).1

/-! ## C120 — what was accepted is lost only for a reason -/

theorem vobj_fell {env : Env} {c : Pki.Cert} : ∀ (ops : List Op) (u v : V), V.run env u ops = .ok v →
    Inv env (fun _ => True) (fun _ => True) u → (∃ i, u.objects.get c.ski = some i ∧ u.certOf i = some c) →
    v.validObjects.get c.ski = u.validObjects.get c.ski ∨ Op.invalidate c.ski ∈ ops ∨
      (v.revoked.get (serialKey c.aki c.serial)).isSome = true ∨
      (c.aki ≠ c.ski ∧ (∃ j, v.objects.get c.aki = some j) ∧ v.validObjects.get c.aki = none) := by
  intro ops
  induction ops with
  | nil => intro u v h _ _; simp [V.run] at h; subst h; exact .inl rfl
  | cons op rest ih =>
    intro u v h hi hc
    unfold V.run at h
    obtain ⟨w, hw, h⟩ := Go.bind_eq_ok.mp h
    obtain ⟨hi1, hf1⟩ := good_step (all_trust env op) (all_roas env op) hw hi
    obtain ⟨_, hf2⟩ := good_run rest w v (fun o _ => all_trust env o) (fun o _ => all_roas env o) h hi1
    obtain ⟨i, g1, g2⟩ := hc
    rcases vobj_step hi hw ⟨i, g1, g2⟩ with hs | hs | hs | ⟨hs, hs'⟩
    · rcases ih w v h hi1 ⟨i, hf1.obj _ _ g1, hf1.cert g2⟩ with e | e | e
      · exact .inl (e.trans hs)
      · exact .inr (.inl (by simp [e]))
      · exact .inr (.inr e)
    · exact .inr (.inl (by simp [hs]))
    · exact .inr (.inr (.inl (hf2.rev _ hs)))
    · refine .inr (.inr (.inr ⟨fun he => hs (.inl he), ?_⟩))
      cases ho : u.objects.get c.aki with
      | none => exact (hs (.inr ho)).elim
      | some q =>
        have h1 := hf1.obj _ _ ho
        exact ⟨⟨q, hf2.obj _ _ h1⟩, Frame.gone hf2 (by rw [h1]; rfl) hs'⟩

theorem drives_cert {W : World} {cfg : Cfg} {m : M} {ops : List Op} (hd : Drives W cfg m ops) : ∀ (n : Nat) (u : V) (c : Pki.Cert),
    StateAt W.env ops n u → IsValid u c.ski c →
      IsValid m.v c.ski c ∨ Blamed W cfg m c.ski ∨ Withdrawn W.env ops c ∨
      (c.aki ≠ c.ski ∧ (∃ d, Stored m.v c.aki d) ∧ ∀ d, ¬ IsValid m.v c.aki d) := by
  rintro n u c hu ⟨i, h1, h2⟩
  have hiu := state_inv hu
  have he := hd.run
  have hrun : V.run W.env u (ops.drop n) = .ok m.v := by
    have h : V.run W.env V.new (ops.take n ++ ops.drop n) = .ok m.v := by rw [List.take_append_drop]; exact he
    rw [run_append] at h
    obtain ⟨w', k1, k2⟩ := h
    unfold StateAt at hu
    rw [hu] at k1
    simp only [Go.ok.injEq] at k1
    subst k1
    exact k2
  have hfr := run_fr hrun hiu
  rcases vobj_fell _ u m.v hrun hiu ⟨i, hiu.val _ _ h1, h2⟩ with e | e | e | ⟨e1, ⟨j, e2⟩, e3⟩
  · exact .inl ⟨i, by rw [e]; exact h1, hfr.cert h2⟩
  · rcases hd.only _ (List.mem_of_mem_drop e) with ⟨_, _, _, q, _⟩ | ⟨k, q1, q2⟩
    · simp at q
    · simp only [Op.invalidate.injEq] at q1
      rw [q1]
      exact .inr (.inl q2)
  · obtain ⟨aki, s, q1, q2⟩ := revoked_from _ _ _ m.v rfl he e
    exact .inr (.inr (.inl ⟨aki, s, q1, q2.symm⟩))
  · refine .inr (.inr (.inr ⟨e1, ?_, ?_⟩))
    · obtain ⟨d, q1, _⟩ := (state_inv he).obj _ _ e2
      exact ⟨d, j, e2, q1⟩
    · rintro d ⟨q, q1, _⟩
      rw [e3] at q1; simp at q1

/-- **C120, certificates.** A certificate that is valid at some moment of an exploration with manifests is valid at the end,
    or the exploration had a reason to invalidate it, or an accepted revocation list of its issuer has its serial number, or its issuer is
    known and is not valid. -/
theorem C120_certificate (fl : Flags) (hm : fl.useManifest = true) (run : TalRun) (m : M) (h : exploreTal fl run = .ok m) :
    ∃ ops, Drives run.world fl.cfg m ops ∧ ∀ (n : Nat) (u : V) (c : Pki.Cert), StateAt run.world.env ops n u → IsValid u c.ski c →
      IsValid m.v c.ski c ∨ Blamed run.world fl.cfg m c.ski ∨ Withdrawn run.world.env ops c ∨
      (c.aki ≠ c.ski ∧ (∃ d, Stored m.v c.aki d) ∧ ∀ d, ¬ IsValid m.v c.aki d) := by
  obtain ⟨ops, hd⟩ := explore_follows fl hm run m h
  exact ⟨ops, hd, drives_cert hd⟩

theorem drives_roa {W : World} {cfg : Cfg} {m : M} {ops : List Op} (hd : Drives W cfg m ops) : ∀ (n : Nat) (u : V) (roa : ROA)
    (p : Pki.Cert), StateAt W.env ops n u →
      CompleteSpec.Listed u roa → Stored u roa.cert.aki p → CompleteSpec.Listed m.v roa ∨ Blamed W cfg m roa.cert.ski ∨
      Withdrawn W.env ops roa.cert ∨ ∀ d, ¬ IsValid m.v roa.cert.aki d := by
  rintro n u roa p hu ⟨j, res, h1, h2, h3⟩ ⟨q, hq, _⟩
  have hiu := state_inv hu
  have he := hd.run
  have hrun : V.run W.env u (ops.drop n) = .ok m.v := by
    have h : V.run W.env V.new (ops.take n ++ ops.drop n) = .ok m.v := by rw [List.take_append_drop]; exact he
    rw [run_append] at h
    obtain ⟨w', k1, k2⟩ := h
    unfold StateAt at hu
    rw [hu] at k1
    simp only [Go.ok.injEq] at k1
    subst k1
    exact k2
  have hfr := run_fr hrun hiu
  have hdat : u.dataOf j = some (.roa roa) := by unfold V.dataOf; rw [h2]; simp [h3]
  obtain ⟨r', i, g1, _, _, _, g5, g6⟩ := hiu.vroa _ _ h1
  rw [hdat] at g1
  simp only [Option.some.injEq, ResData.roa.injEq] at g1
  subst g1
  by_cases b1 : Op.invalidate roa.cert.ski ∈ ops.drop n
  · rcases hd.only _ (List.mem_of_mem_drop b1) with ⟨_, _, _, q, _⟩ | ⟨k, q1, q2⟩
    · simp at q
    · simp only [Op.invalidate.injEq] at q1
      rw [q1]
      exact .inr (.inl q2)
  by_cases b2 : (m.v.revoked.get (serialKey roa.cert.aki roa.cert.serial)).isSome = true
  · obtain ⟨aki, s, q1, q2⟩ := revoked_from _ _ _ m.v rfl he b2
    exact .inr (.inr (.inl ⟨aki, s, q1, q2.symm⟩))
  by_cases b3 : ∃ d, IsValid m.v roa.cert.aki d
  · obtain ⟨d, x, b3, _⟩ := b3
    have := vroa_run _ u m.v hrun hiu ⟨i, hiu.val _ _ g5, g6⟩ ⟨q, hq⟩ b1 (by simpa using b2) ⟨x, b3⟩
    have hdat' := hfr.data _ _ hdat
    unfold V.dataOf at hdat'
    cases hr : m.v.heap[j]? with
    | none => rw [hr] at hdat'; simp at hdat'
    | some res' =>
      rw [hr] at hdat'
      simp at hdat'
      exact .inl ⟨j, res', by rw [this]; exact h1, hr, hdat'⟩
  · exact .inr (.inr (.inr (fun d hd => b3 ⟨d, hd⟩)))

/-- **C120, ROAs.** A ROA that is listed at some moment of an exploration with manifests, when its issuer is known, is listed at the end,
    or the exploration had a reason to invalidate its certificate, or the certificate is withdrawn, or its issuer is not valid. -/
theorem C120_roa (fl : Flags) (hm : fl.useManifest = true) (run : TalRun) (m : M) (h : exploreTal fl run = .ok m) :
    ∃ ops, Drives run.world fl.cfg m ops ∧ ∀ (n : Nat) (u : V) (roa : ROA) (p : Pki.Cert), StateAt run.world.env ops n u →
      CompleteSpec.Listed u roa → Stored u roa.cert.aki p → CompleteSpec.Listed m.v roa ∨ Blamed run.world fl.cfg m roa.cert.ski ∨
      Withdrawn run.world.env ops roa.cert ∨ ∀ d, ¬ IsValid m.v roa.cert.aki d := by
  obtain ⟨ops, hd⟩ := explore_follows fl hm run m h
  exact ⟨ops, hd, drives_roa hd⟩

theorem drives_offers {W : World} {cfg : Cfg} {m : M} {ops : List Op} (hd : Drives W cfg m ops) :
    ∀ op ∈ ops, OffersOnly W.env (FromTAL W m) op := by
  intro op hop
  rcases hd.only op hop with ⟨files, fid, data, rfl, hp⟩ | ⟨k, rfl, _⟩
  · intro f c hf ht hc
    have h1 : (fid, data) ∈ deliveries m.trace := by
      rw [← hd.adds]
      unfold addsOf
      rw [List.mem_filterMap]
      exact ⟨_, hop, rfl⟩
    unfold deliveries at h1
    rw [List.mem_filterMap] at h1
    obtain ⟨ev, h2, h3⟩ := h1
    cases ev with
    | added i d sha =>
      simp only [Option.some.injEq, Prod.mk.injEq] at h3
      obtain ⟨rfl, rfl⟩ := h3
      obtain ⟨rest, hr⟩ := hp
      refine ⟨i, f, d, sha, ?_, ht, h2, hc⟩
      rw [← hr]
      exact List.getElem?_append_left (List.getElem?_eq_some_iff.mp hf).1 ▸ hf
    | _ => simp at h3
  · trivial

theorem drives_root {W : World} {cfg : Cfg} {m : M} {ops : List Op} (hd : Drives W cfg m ops) {n : Nat} {u : V}
    (hu : StateAt W.env ops n u) {c : Pki.Cert} (h : Ascends W.env (FromTAL W m) u c) :
    IsValid m.v c.ski c ∨ ∃ a, Above u c a ∧ RootCause W cfg m ops a := by
  induction h with
  | anchor c hv _ ha =>
    rcases drives_cert hd n u c hu hv with e | e | e | e
    · exact .inl e
    · exact .inr ⟨c, .self c, .inl e⟩
    · exact .inr ⟨c, .self c, .inr (.inl e)⟩
    · exact .inr ⟨c, .self c, .inr (.inr ⟨ha, e⟩)⟩
  | step c p hv _ hk _ hp ih =>
    rcases drives_cert hd n u c hu hv with e | e | e | ⟨_, _, e⟩
    · exact .inl e
    · exact .inr ⟨c, .self c, .inl e⟩
    · exact .inr ⟨c, .self c, .inr (.inl e)⟩
    · have hpv : IsValid u c.aki p := by
        rw [hk]
        cases hp with
        | anchor _ hv => exact hv
        | step _ _ hv => exact hv
      rcases ih with q | ⟨a, q1, q2⟩
      · rw [← hk] at q
        exact (e p q).elim
      · exact .inr ⟨a, .up c p a hpv q1, q2⟩

/-- **C120, root causes.** A certificate that is valid at some moment of an exploration with manifests is valid at the end, or it, or a
    certificate that was then valid above it, was lost for a reason of its own. -/
theorem C120_root (fl : Flags) (hm : fl.useManifest = true) (run : TalRun) (m : M) (h : exploreTal fl run = .ok m) :
    ∃ ops, Drives run.world fl.cfg m ops ∧ ∀ (n : Nat) (u : V) (c : Pki.Cert), StateAt run.world.env ops n u → IsValid u c.ski c →
      IsValid m.v c.ski c ∨ ∃ a, Above u c a ∧ RootCause run.world fl.cfg m ops a := by
  obtain ⟨ops, hd⟩ := explore_follows fl hm run m h
  refine ⟨ops, hd, fun n u c hu hv => drives_root hd hu ?_⟩
  exact C15_to_anchor _ _ (ops.take n) (fun op ho => drives_offers hd op (List.mem_of_mem_take ho)) u hu _ c hv

/-- **C120, root causes for ROAs.** A ROA that is listed at some moment of an exploration with manifests, and whose certificate was not
    also delivered as the certificate of a TAL, is listed at the end, or its certificate, or one that was then valid above it, was lost for
    a reason of its own. -/
theorem C120_root_roa (fl : Flags) (hm : fl.useManifest = true) (run : TalRun) (m : M) (h : exploreTal fl run = .ok m) :
    ∃ ops, Drives run.world fl.cfg m ops ∧ ∀ (n : Nat) (u : V) (roa : ROA), StateAt run.world.env ops n u →
      CompleteSpec.Listed u roa → ¬ FromTAL run.world m roa.cert →
      CompleteSpec.Listed m.v roa ∨ ∃ a, Above u roa.cert a ∧ RootCause run.world fl.cfg m ops a := by
  obtain ⟨ops, hd⟩ := explore_follows fl hm run m h
  refine ⟨ops, hd, ?_⟩
  intro n u roa hu hl hn
  have hv : IsValid u roa.cert.ski roa.cert := by
    obtain ⟨j, res, h1, h2, h3⟩ := hl
    obtain ⟨r', i, g1, _, _, _, g5, g6⟩ := (state_inv hu).vroa _ _ h1
    have hdat : u.dataOf j = some (.roa roa) := by unfold V.dataOf; rw [h2]; simp [h3]
    rw [hdat] at g1
    simp only [Option.some.injEq, ResData.roa.injEq] at g1
    subst g1
    exact ⟨i, g5, g6⟩
  have hasc : Ascends run.world.env (FromTAL run.world m) u roa.cert :=
    C15_to_anchor _ _ (ops.take n) (fun op ho => drives_offers hd op (List.mem_of_mem_take ho)) u hu _ _ hv
  cases hasc with
  | anchor _ _ _ ha => exact (hn ha).elim
  | step _ p _ _ hk _ hp =>
    have hpv : IsValid u roa.cert.aki p := by
      rw [hk]
      cases hp with
      | anchor _ hv => exact hv
      | step _ _ hv => exact hv
    rcases drives_roa hd n u roa p hu hl (isValid_inv (state_inv hu) hpv).2 with e | e | e | e
    · exact .inl e
    · exact .inr ⟨_, .self _, .inl e⟩
    · exact .inr ⟨_, .self _, .inr (.inl e)⟩
    · rcases drives_root hd hu hp with q | ⟨a, q1, q2⟩
      · rw [← hk] at q
        exact (e p q).elim
      · exact .inr ⟨a, .up _ p a hpv q1, q2⟩

/-! The example repository again, with a manifest that lists one more file, which is not there. -/

def envMiss : Env := { envE with
  parseMft := fun d => if d = [10] then .ok (mkMft [10] [1] [(nX, [7]), (tx "z.roa", [8])]) else .err "" }
def worldMiss : World := { worldE with env := envMiss }
def runMiss : TalRun := { runE with world := worldMiss }
def doneMiss : M := match exploreTal flE runMiss with | .ok m => m | _ => M.new V.new
/-- What the exploration did: the TAL, its certificate, the manifest, the ROA, and the trust anchor is invalidated. -/
def opsMiss : List Op := (deliveries doneMiss.trace).map (fun x => .addResource doneMiss.files x.1 x.2) ++ [.invalidate [1]]

/-- Non-vacuity of C120: the ROA was listed under a valid trust anchor; then the other file of the manifest could not be had, which is
    the reason for invalidating the trust anchor, and the ROA is no longer listed. -/
example : exploreTal flE runMiss = .ok doneMiss ∧ StateAt envMiss opsMiss 4 (after envMiss (opsMiss.take 4)) ∧
    V.run envMiss V.new opsMiss = .ok doneMiss.v ∧ addsOf opsMiss = deliveries doneMiss.trace ∧
    IsValid (after envMiss (opsMiss.take 4)) [1] taE ∧ CompleteSpec.Listed (after envMiss (opsMiss.take 4)) roaE ∧
    Stored (after envMiss (opsMiss.take 4)) roaE.cert.aki taE ∧ ¬ FromTAL worldMiss doneMiss roaE.cert ∧
    Above (after envMiss (opsMiss.take 4)) roaE.cert taE ∧
    Blamed worldMiss flE.cfg doneMiss [1] ∧ (∀ d, ¬ IsValid doneMiss.v [1] d) ∧ ¬ CompleteSpec.Listed doneMiss.v roaE := by
  have hok : isOk (exploreTal flE runMiss) = true := by decide +kernel
  have hex : exploreTal flE runMiss = .ok doneMiss := by
    unfold doneMiss
    cases hh : exploreTal flE runMiss with
    | ok m => rfl
    | err _ => rw [hh] at hok; simp [isOk] at hok
    | panic => rw [hh] at hok; simp [isOk] at hok
    | diverge => rw [hh] at hok; simp [isOk] at hok
  have hno : doneMiss.v.validROA = [] := by rfl
  have hnv : doneMiss.v.validObjects = [] := by rfl
  refine ⟨hex, run_after (by decide +kernel), by rfl, by rfl, ⟨1, by rfl, by rfl⟩, ⟨5, _, by rfl, by rfl, by rfl⟩, ⟨1, by rfl, by rfl⟩, ?_,
    .up _ taE _ ⟨1, by rfl, by rfl⟩ (.self _), ?_, ?_, ?_⟩
  · rintro ⟨_, _, d, _, _, _, _, hp⟩
    have hp : (if d = [1] then Go.ok taE else .err "") = .ok roaE.cert := hp
    split at hp
    · exact absurd (Go.ok.inj hp) (by decide +kernel)
    · simp at hp
  · refine ⟨4, 2, 1, doneMiss.files[4]'(by decide +kernel), [1], some [1], taE, ?_, by decide +kernel, by decide +kernel, by rfl, by rfl,
      .inl ⟨by rfl, 0, ?_⟩⟩
    · exact ⟨by rfl, by rfl, ⟨doneMiss.files[2]'(by decide +kernel), by rfl, by rfl, by rfl⟩, ⟨doneMiss.files[1]'(by decide +kernel), by rfl, by rfl⟩⟩
    · have hg : worldMiss.getFile 0 (doneMiss.pathOf 4) (doneMiss.files[4]'(by decide +kernel)) = .absent := by rfl
      rw [hg]; trivial
  · rintro d ⟨q, q1, _⟩
    rw [hnv] at q1; cases q1
  · rintro ⟨q, _, q1, _⟩
    rw [hno] at q1; cases q1

end Verif.Props
