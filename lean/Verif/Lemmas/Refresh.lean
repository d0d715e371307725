import Verif.Lemmas.Flags
import Verif.Model.Refresh
import Verif.Props.EndToEnd
/-
  The mark of the TAL after an exploration.
-/
set_option autoImplicit false

namespace Verif.Refresh
open Pki PkiSpec Manager ManagerSpec EndSpec EndToEnd Props

theorem onlyV_heap {W : World} {m m' : M} (ho : OnlyV W m m') : m'.v.heap = m.v.heap ∧ m'.v.tals = m.v.tals := by
  obtain ⟨v, ops, rfl, h2, h3⟩ := ho
  have key : ∀ (ops : List Op) (a b : V), V.run W.env a ops = .ok b → (∀ op ∈ ops, ∃ k, op = .invalidate k) →
      b.heap = a.heap ∧ b.tals = a.tals := by
    intro ops
    induction ops with
    | nil => intro a b h _; simp [V.run] at h; subst h; exact ⟨rfl, rfl⟩
    | cons op ops ih =>
      intro a b h ho
      simp only [V.run] at h
      obtain ⟨c, hc, h'⟩ := Go.bind_eq_ok.mp h
      obtain ⟨k, rfl⟩ := ho op (by simp)
      obtain ⟨g1, g2⟩ := ih c b h' (fun o h => ho o (by simp [h]))
      obtain ⟨q, _⟩ := invalidateObject_spec hc
      exact ⟨g1.trans q.heap, g2.trans q.tals⟩
  exact key ops _ _ h2 h3

/-- The file of the certificate of a TAL. -/
def taFile (uri : Bytes) : PKIFile := ⟨some 0, [], uri, .cer, true, none⟩

/-- The state once the TAL and its certificate have been dealt with. -/
structure Settled (uri : Bytes) (t : Tal.RPKITAL) (b : Bool) (m : M) : Prop where
  len : 2 ≤ m.files.length
  queue : ∀ i ∈ m.queue, 2 ≤ i
  par : ∀ (i : Nat) (f : PKIFile), 2 ≤ i → m.files[i]? = some f → ∃ p, f.parent = some p ∧ 1 ≤ p
  tals : m.v.tals = [(uri, 0)]
  data : m.v.dataOf 0 = some (.tal t)
  file : ResAll (fun d _ fo => ∀ t, d = .tal t → fo = some 0) m.v
  flag : m.v.flag 0 = b

theorem Settled.congr {uri : Bytes} {t : Tal.RPKITAL} {b : Bool} {m m' : M} (h : Settled uri t b m) (hf : m'.files = m.files)
    (hq : ∀ i ∈ m'.queue, i ∈ m.queue) (h1 : m'.v.heap = m.v.heap) (h2 : m'.v.tals = m.v.tals) : Settled uri t b m' := by
  refine ⟨by rw [hf]; exact h.len, fun i hi => h.queue i (hq i hi), by rw [hf]; exact h.par, by rw [h2]; exact h.tals, ?_, ?_, ?_⟩
  · rw [← h.data]; unfold V.dataOf; rw [h1]
  · intro i r hi; rw [h1] at hi; exact h.file i r hi
  · rw [flag_congr h1]; exact h.flag

theorem addResource_notTal {env : Env} {files : List PKIFile} {v v' : V} {fid : Nat} {f : PKIFile} {data : Bytes} {a : Added}
    (hf : files[fid]? = some f) (hty : f.type ≠ .tal) (hinv : Inv env (fun _ => True) (fun _ => True) v)
    (h : v.addResource env files fid data = .ok (v', a)) :
    v'.tals = v.tals ∧ (∀ i d, v.dataOf i = some d → v'.dataOf i = some d) ∧
    (ResAll (fun d _ fo => ∀ t, d = .tal t → fo = some 0) v → ResAll (fun d _ fo => ∀ t, d = .tal t → fo = some 0) v') := by
  have hstep : v.step env (.addResource files fid data) = .ok v' := by simp [V.step, h]
  have hframe := (good_step (T := fun _ => True) (P := fun _ => True) (trusts_all env _) (roas_all env _) hstep hinv).2
  refine ⟨?_, hframe.data, ?_⟩
  · rcases step_tals hstep with ⟨q, _⟩ | ⟨t, ⟨⟨g, hg, hgt⟩, _⟩, _⟩
    · exact q
    · rw [hf] at hg; simp at hg; subst hg; exact (hty hgt).elim
  · intro hr
    refine ResAll.addResource ?_ hr h
    intro g hg d hd
    rw [hf] at hg; simp at hg; subst hg
    have : ∀ t, d ≠ .tal t := by
      rintro t rfl
      generalize f.type = ty at hd hty
      cases hd
      exact hty rfl
    exact ⟨fun _ _ t ht => (this t ht).elim, fun _ _ t ht => (this t ht).elim⟩

/-- A later file leaves all that alone. -/
theorem Settled.add {W : World} {f0 : PKIFile} {uri : Bytes} {t : Tal.RPKITAL} {b b' : Bool} {m m' : M} (he : EInv W f0 m) (hs : Settled uri t b m)
    {fid : Nat} (h1 : 1 ≤ fid) (hlt : fid < m.files.length) (hq : fid ∉ m.queue) {data : Bytes} {sha : Option Bytes}
    (ha : m.exploreAdd W fid data sha false = .ok m')
    (hb : (b' = true ↔ b = true ∨ Checks W.env m.files m.v fid data 0)) : Settled uri t b' m' := by
  obtain ⟨k1, _, _, _, _, ⟨l, k2, k3⟩, a, k4, _⟩ := minv_exploreAdd hlt hq ha
  have hgrow := k1.1
  obtain ⟨q, q1, q2⟩ := hgrow.queue
  have hf := List.getElem?_eq_getElem hlt
  have hty : (m.files[fid]).type ≠ .tal := fun h => by
    have := he.tal fid _ hf h
    omega
  have hinv : Inv W.env (fun _ => True) (fun _ => True) m.v := by
    obtain ⟨ops, _, _, h3⟩ := he.run
    exact (good_run ops V.new m.v (fun o _ => trusts_all W.env o) (fun o _ => roas_all W.env o) h3 (inv_new _ _ _)).1
  obtain ⟨r1, r2, r3⟩ := addResource_notTal hf hty hinv k4
  have hl := hs.len
  refine ⟨by rw [k2]; simp; omega, ?_, ?_, by rw [r1]; exact hs.tals, r2 _ _ hs.data, r3 hs.file, ?_⟩
  · intro i hi
    rw [q1] at hi
    rcases List.mem_append.mp hi with hi | hi
    · exact hs.queue i hi
    · have := q2 i hi; omega
  · intro i f hi hfi
    rw [k2] at hfi
    by_cases hlt' : i < m.files.length
    · rw [List.getElem?_append_left hlt'] at hfi; exact hs.par i f hi hfi
    · rw [List.getElem?_append_right (by omega)] at hfi
      exact ⟨fid, k3 f (List.mem_of_getElem? hfi), h1⟩
  · have h5 := flag_addResource k4 0
    simp only at h5
    rw [hs.flag] at h5
    rw [Bool.eq_iff_iff, h5, hb]

theorem Settled.noChecks {W : World} {f0 : PKIFile} {uri : Bytes} {t : Tal.RPKITAL} {b : Bool} {m : M} (he : EInv W f0 m) (hs : Settled uri t b m)
    {fid : Nat} (h2 : 2 ≤ fid) {data : Bytes} {i : Nat} : ¬ Checks W.env m.files m.v fid data i := by
  rintro ⟨f, p, pf, _, _, _, a1, _, a3, a4, a5, _⟩
  obtain ⟨p', e1, e2⟩ := hs.par fid f h2 a1
  rw [a3] at e1
  simp at e1; subst e1
  have := he.tal p pf a4 a5
  omega

/-- One round in manifest mode: the file at the head of the queue is asked for; the validator is given what was found. -/
theorem step_cases {W : World} {f0 : PKIFile} {cfg : Cfg} (hc1 : cfg.notMFT = false) (hc2 : cfg.addInvalidChilds = false)
    (hc3 : cfg.hasSeeker = true) {m m' : M} (he : EInv W f0 m) (hi : MInv m) (hs : m.exploreStep cfg W = .ok m') :
    ∃ fid rest f m1, m.queue = fid :: rest ∧ m.files[fid]? = some f ∧ fid ∉ rest ∧ EInv W f0 m1 ∧ m1.files = m.files ∧ m1.queue = rest ∧
      m1.v.heap = m.v.heap ∧ m1.v.tals = m.v.tals ∧
      (((m.pathOf fid ∈ m.explored ∨ ∀ d s, judged cfg f (W.getFile m.clock (m.pathOf fid) f) ≠ .found d s) ∧
          m'.files = m.files ∧ m'.queue = rest ∧ m'.v.heap = m.v.heap ∧ m'.v.tals = m.v.tals) ∨
       ∃ data sha m3, m.pathOf fid ∉ m.explored ∧ judged cfg f (W.getFile m.clock (m.pathOf fid) f) = .found data sha ∧
         m1.exploreAdd W fid data sha false = .ok m3 ∧ m' = { m3 with clock := m3.clock + 1 }) := by
  unfold M.exploreStep at hs
  split at hs
  · simp at hs
  · rename_i fid rest hqe
    split at hs
    · simp at hs
    · rename_i f hf
      obtain ⟨m3, h2, hs⟩ := Go.bind_eq_ok.mp hs
      simp only [Go.pure_def, Go.ok.injEq] at hs
      subst hs
      have hq : fid ∉ rest := by
        have := hi.nd
        rw [entered, hqe, List.map_append, List.nodup_append] at this
        have := this.2.1
        rw [List.map_cons, List.nodup_cons] at this
        exact fun hh => this.1 (List.mem_map_of_mem hh)
      have h1 : EInv W f0 { m with queue := rest, trace := m.trace ++ [.taken fid] } :=
        he.other rfl rfl ⟨[.taken fid], rfl, by simp⟩
      obtain ⟨pre, m1, hp, ho, hu⟩ := fetch_round (.inl hc1) h2
      have h4 : EInv W f0 { m with queue := rest, trace := (m.trace ++ [.taken fid]) ++ pre } :=
        h1.other rfl rfl ⟨pre, rfl, by rcases hp with ⟨rfl, _⟩ | ⟨rfl, _⟩ <;> simp⟩
      obtain ⟨g1, g2, _, _, _, _, g7⟩ := onlyV_fields ho
      obtain ⟨e1, e2⟩ := onlyV_heap ho
      refine ⟨fid, rest, f, m1, hqe, hf, hq, h4.onlyV ho, g1, g2, e1, e2, ?_⟩
      have hans : answer cfg W { m with queue := rest, trace := m.trace ++ [.taken fid] } fid f =
          if m.pathOf fid ∈ m.explored then .fail else W.getFile m.clock (m.pathOf fid) f := by
        unfold answer
        simp only [hc3, Bool.true_eq_false, or_false]
        rfl
      rw [hans] at hu
      rcases useAnswer_cases hu with ⟨hr, ho2⟩ | ⟨data, sha, hr, hadd⟩
      · left
        obtain ⟨i1, i2, _, _, _, _, _⟩ := onlyV_fields ho2
        obtain ⟨j1, j2⟩ := onlyV_heap ho2
        refine ⟨?_, i1.trans g1, i2.trans g2, j1.trans e1, j2.trans e2⟩
        by_cases hx : m.pathOf fid ∈ m.explored
        · exact .inl hx
        · right
          rw [if_neg hx] at hr
          intro d s hd
          rw [hd] at hr
          simp at hr
      · right
        by_cases hx : m.pathOf fid ∈ m.explored
        · rw [if_pos hx] at hr
          simp [judged] at hr
        · rw [if_neg hx] at hr
          rw [hc2] at hadd
          exact ⟨data, sha, m3, hx, hr, hadd, rfl⟩

theorem Settled.round {W : World} {f0 : PKIFile} {uri : Bytes} {t : Tal.RPKITAL} {b : Bool} {cfg : Cfg} (hc1 : cfg.notMFT = false)
    (hc2 : cfg.addInvalidChilds = false) (hc3 : cfg.hasSeeker = true) {m m' : M} (he : EInv W f0 m)
    (hi : MInv m) (hst : Settled uri t b m) (hs : m.exploreStep cfg W = .ok m') : Settled uri t b m' := by
  obtain ⟨fid, rest, f, m1, h1, h2, h3, h4, h5, h6, h7, h8, h9⟩ := step_cases hc1 hc2 hc3 he hi hs
  have hsub : ∀ i ∈ rest, i ∈ m.queue := fun i hi => by rw [h1]; simp [hi]
  rcases h9 with ⟨_, r1, r2, r3, r4⟩ | ⟨data, sha, m3, _, _, hadd, rfl⟩
  · exact hst.congr r1 (by rw [r2]; exact hsub) r3 r4
  · have hst1 : Settled uri t b m1 := hst.congr h5 (by rw [h6]; exact hsub) h7 h8
    have h2f : 2 ≤ fid := hst.queue fid (by rw [h1]; simp)
    refine (hst1.add h4 (by omega) (by rw [h5]; exact (List.getElem?_eq_some_iff.mp h2).1) (by rw [h6]; exact h3) hadd (b' := b) ?_).congr
      rfl (fun _ h => h) rfl rfl
    simp [hst1.noChecks h4 h2f]

/-- The start. -/
theorem start_fields (f0 : PKIFile) (h : f0.parent = none) : (M.new V.new).putFiles [f0] =
    ⟨V.new, [f0], [0], [], [f0.path], [], 0, []⟩ := by
  simp [M.new, M.putFiles, M.put1, PKIFile.computePath, h]

/-- The TAL file is dealt with first. -/
theorem first_step {W : World} {cfg : Cfg} (hc1 : cfg.notMFT = false) (hc2 : cfg.addInvalidChilds = false) (hc3 : cfg.hasSeeker = true)
    {f0 : PKIFile} (h00 : f0.parent = none) (h0 : f0.type = .tal) (h01 : f0.trust = false) (h02 : f0.manifestHash = none)
    {td : Bytes} {sha : Option Bytes} (hg : W.getFile 0 f0.path f0 = .found td sha) {t : Tal.RPKITAL}
    (hd : Tal.decodeTAL W.env.asn td = .ok t) (hne : t.getRsyncURI W.env.sha1 ≠ f0.path) {m' : M}
    (hs : ((M.new V.new).putFiles [f0]).exploreStep cfg W = .ok m') :
    m'.files = [f0, taFile (t.getRsyncURI W.env.sha1)] ∧ m'.queue = [1] ∧ m'.explored = [f0.path] ∧ m'.clock = 1 ∧
    m'.v.tals = [(t.getRsyncURI W.env.sha1, 0)] ∧ m'.v.dataOf 0 = some (.tal t) ∧ m'.v.flag 0 = false ∧
    ResAll (fun d _ fo => ∀ t, d = .tal t → fo = some 0) m'.v := by
  rw [start_fields f0 h00] at hs
  obtain ⟨par, repo, path, ty, tr, mh⟩ := f0
  simp only at h00 h0 h01 h02 hg hne
  subst h00 h0 h01 h02
  have hj : judged cfg ⟨none, repo, path, .tal, false, none⟩ (.found td sha) = .found td sha := by
    unfold judged; cases sha <;> rfl
  cases sha <;>
    simp [M.exploreStep, M.handle, hc1, hc2, M.getNextFile, M.pathOf, PKIFile.computePath, hc3, hg, M.checkHash, M.useAnswer, M.exploreAdd, V.addResource, hd,
      V.addTAL, M.putFiles, withParent, M.put1, hne, V.setFile, V.new, V.alloc, V.modify, Map.set, Map.del] at hs <;>
    subst hs <;>
    refine ⟨rfl, rfl, rfl, rfl, rfl, rfl, rfl, ?_⟩ <;>
    · intro i r hi t ht
      cases i with
      | zero => simp [objectToResource] at hi; subst hi; rfl
      | succ i => simp at hi

/-- The certificate of the TAL is dealt with second: the TAL is marked exactly if the file that was found is a certificate with its key. -/
theorem second_step {W : World} (hk : ∀ d c, W.env.parseCert d = .ok c → TalSpec.CertKey c.isRSA c.pubKey)
    {cfg : Cfg} (hc1 : cfg.notMFT = false) (hc2 : cfg.addInvalidChilds = false) (hc3 : cfg.hasSeeker = true)
    {f0 : PKIFile} (h0 : f0.type = .tal) {td : Bytes} {t : Tal.RPKITAL}
    (hd : Tal.decodeTAL W.env.asn td = .ok t) {uri : Bytes} (hne : uri ≠ f0.path) {m m' : M} (he : EInv W f0 m) (hi : MInv m)
    (h1 : m.files = [f0, taFile uri]) (h2 : m.queue = [1]) (h3 : m.explored = [f0.path]) (h4 : m.clock = 1)
    (h5 : m.v.tals = [(uri, 0)]) (h6 : m.v.dataOf 0 = some (.tal t)) (h7 : m.v.flag 0 = false)
    (h8 : ResAll (fun d _ fo => ∀ t, d = .tal t → fo = some 0) m.v) (hs : m.exploreStep cfg W = .ok m') :
    ∃ b, Settled uri t b m' ∧ (b = true ↔ ∃ data sha c, W.getFile 1 uri (taFile uri) = .found data sha ∧
      W.env.parseCert data = .ok c ∧ HasKeyOf t c) := by
  obtain ⟨fid, rest, f, m1, e1, e2, e3, e4, e5, e6, e7, e8, e9⟩ := step_cases hc1 hc2 hc3 he hi hs
  rw [h2] at e1
  simp at e1
  obtain ⟨rfl, rfl⟩ := e1
  rw [h1] at e2
  simp at e2
  subst e2
  have hpath : m.pathOf 1 = uri := by simp [M.pathOf, h1, taFile, PKIFile.computePath, h0]
  rw [hpath, h4, h3] at e9
  have hjud : ∀ r, judged cfg (taFile uri) r = r := by
    intro r; unfold judged
    split
    · rfl
    · rfl
  rw [hjud] at e9
  have hst : Settled uri t false { m with queue := [] } := by
    refine ⟨by simp [h1], by simp, ?_, h5, h6, h8, h7⟩
    intro i f hi hf
    simp only [h1] at hf
    rw [List.getElem?_eq_none (by simpa using hi)] at hf
    simp at hf
  rcases e9 with ⟨hn, r1, r2, r3, r4⟩ | ⟨data, sha, m3, _, hg, hadd, rfl⟩
  · refine ⟨false, hst.congr r1 (by rw [r2]; simp) r3 r4, ?_⟩
    simp only [Bool.false_eq_true, false_iff]
    rintro ⟨d, s, c, hd, _⟩
    rcases hn with hn | hn
    · simp at hn; exact hne hn
    · exact hn d s hd
  · have hst1 : Settled uri t false m1 := hst.congr e5 (by rw [e6]; simp) e7 e8
    have hchk : Checks W.env m1.files m1.v 1 data 0 ↔ ∃ c, W.env.parseCert data = .ok c ∧ HasKeyOf t c := by
      have hr0 : ∃ r, m1.v.heap[0]? = some r ∧ r.data = .tal t := by
        have := hst1.data
        unfold V.dataOf at this
        simpa using this
      obtain ⟨r, hr, hrd⟩ := hr0
      constructor
      · rintro ⟨f, p, pf, c, t', r', a1, a2, a3, a4, a5, a6, a7, a8, a9, a10⟩
        rw [hr] at a8; simp at a8; subst a8
        rw [hrd] at a9; simp at a9; subst a9
        obtain ⟨b, hb, hiff⟩ := C50_decoded_exact_partial W.env.asn td t hd c.isRSA c.pubKey (hk _ _ a6)
        rw [hb] at a10
        simp at a10
        exact ⟨c, a6, hiff.mp a10⟩
      · rintro ⟨c, hc, hkey⟩
        obtain ⟨b, hb, hiff⟩ := C50_decoded_exact_partial W.env.asn td t hd c.isRSA c.pubKey (hk _ _ hc)
        refine ⟨taFile uri, 0, f0, c, t, r, by rw [e5, h1]; rfl, rfl, rfl, by rw [e5, h1]; rfl, h0, hc, ?_, hr, hrd, ?_⟩
        · rw [e8, h5]; simp [Map.get, taFile]
        · rw [hb, hiff.mpr hkey]
    classical
    refine ⟨decide (∃ c, W.env.parseCert data = .ok c ∧ HasKeyOf t c), ?_, ?_⟩
    · refine (hst1.add e4 (by omega) (by rw [e5, h1]; simp) (by rw [e6]; simp) hadd ?_).congr rfl (fun _ h => h) rfl rfl
      rw [hchk]; simp
    · rw [hg]
      simp

/-- The state at the end of the exploration. -/
theorem explore_settled (fl : Flags) (hm : fl.useManifest = true) (run : TalRun)
    (hk : ∀ d c, run.world.env.parseCert d = .ok c → TalSpec.CertKey c.isRSA c.pubKey) {td : Bytes} {sha : Option Bytes}
    (hg : run.world.getFile 0 run.path run.file = .found td sha) {t : Tal.RPKITAL}
    (hd : Tal.decodeTAL run.world.env.asn td = .ok t) (hne : t.getRsyncURI run.world.env.sha1 ≠ run.path) (m : M)
    (h : exploreTal fl run = .ok m) :
    m.files[0]? = some run.file ∧ ∃ b, Settled (t.getRsyncURI run.world.env.sha1) t b m ∧
      (b = true ↔ ∃ data sha c, run.world.getFile 1 (t.getRsyncURI run.world.env.sha1) (taFile (t.getRsyncURI run.world.env.sha1)) = .found data sha ∧
        run.world.env.parseCert data = .ok c ∧ HasKeyOf t c) := by
  refine ⟨(explore_einv fl hm run hk m h).1.file0, ?_⟩
  unfold exploreTal at h
  obtain ⟨⟨m', n⟩, h1, h2⟩ := Go.bind_eq_ok.mp h
  simp only [Go.pure_def, Go.ok.injEq] at h2
  subst h2
  have hlife : Life run.world (fun _ => True) (· = fl.cfg) ((M.new V.new).putFiles [run.file]) :=
    ⟨V.new, ⟨[], by simp, rfl⟩, .initial _ _ .here (by simp [TalRun.file])⟩
  have c1 : fl.cfg.notMFT = false := by simp [Flags.cfg, hm]
  have i0 := start_einv run.world run.file rfl rfl rfl
  have j0 := minv_life hlife
  have both : ∀ {a b : M}, EInv run.world run.file a → MInv a → a.exploreStep fl.cfg run.world = .ok b → EInv run.world run.file b ∧ MInv b := by
    intro a b ha hb hs
    obtain ⟨_, _, _, hro⟩ := round_ok hb hs
    exact ⟨ha.round hk c1 rfl rfl hb hs, hro.inv⟩
  rw [M.explore, exploreLoop_drain] at h1
  cases hfu : run.fuel with
  | zero => rw [hfu] at h1; simp [drain] at h1
  | succ fu =>
    rw [hfu] at h1
    unfold drain at h1
    have hq0 : ((M.new V.new).putFiles [run.file]).queue = [0] := by rw [start_fields _ rfl]
    rw [hq0] at h1
    simp only at h1
    obtain ⟨m1, hs1, h1⟩ := Go.bind_eq_ok.mp h1
    obtain ⟨k1, k2, k3, k4, k5, k6, k7, k8⟩ := first_step c1 rfl rfl rfl rfl rfl rfl hg hd hne hs1
    obtain ⟨i1, j1⟩ := both i0 j0 hs1
    cases hfu : fu with
    | zero => rw [hfu] at h1; simp [drain] at h1
    | succ fu' =>
      rw [hfu] at h1
      unfold drain at h1
      rw [k2] at h1
      simp only at h1
      obtain ⟨m2, hs2, h1⟩ := Go.bind_eq_ok.mp h1
      obtain ⟨b, s2, hb⟩ := second_step hk c1 rfl rfl rfl hd hne i1 j1 k1 k2 k3 k4 k5 k6 k7 k8 hs2
      obtain ⟨i2, j2⟩ := both i1 j1 hs2
      refine ⟨b, ?_, hb⟩
      have hrounds := drain_rounds (m0 := m2) _ _ _ _ _ .here h1
      have : ∀ m3, Rounds run.world fl.cfg m2 m3 → EInv run.world run.file m3 ∧ MInv m3 ∧ Settled (t.getRsyncURI run.world.env.sha1) t b m3 := by
        intro m3 hr
        induction hr with
        | here => exact ⟨i2, j2, s2⟩
        | round a b _ hs ih =>
          obtain ⟨x1, x2⟩ := both ih.1 ih.2.1 hs
          exact ⟨x1, x2, ih.2.2.round c1 rfl rfl ih.1 ih.2.1 hs⟩
      exact (this _ hrounds).2.2

end Verif.Refresh
