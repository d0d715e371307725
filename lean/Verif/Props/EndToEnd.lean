import Verif.Lemmas.EndToEnd
import Verif.Spec.Published
import Verif.Props.Output
import Verif.Props.Local
/-
  Property theorems for whole validations: C78.
-/
set_option autoImplicit false

namespace Verif.Props
open Pki PkiSpec Manager ManagerSpec EndSpec EndToEnd Out OutSpec Roa Net ResSpec Cert

/-! ### The exploration for one TAL -/

theorem start_einv (W : World) (f0 : PKIFile) (h00 : f0.parent = none) (h0 : f0.type = .tal) (h1 : f0.trust = false) :
    EInv W f0 ((M.new V.new).putFiles [f0]) := by
  obtain ⟨_, g1, g2, _, _, g3⟩ := keeps_putFiles [f0] (M.new V.new) (by simp [h00])
  have hf : ((M.new V.new).putFiles [f0]).files = [f0] := by rw [g1]; rfl
  have ht : ((M.new V.new).putFiles [f0]).trace = [] := by rw [g2]; rfl
  have hv : ((M.new V.new).putFiles [f0]).v = V.new := by rw [g3]; rfl
  have hget : ∀ (i : Nat) (f : PKIFile), [f0][i]? = some f → i = 0 ∧ f = f0 := by
    intro i f h
    cases i with
    | zero => simp at h; exact ⟨rfl, h.symm⟩
    | succ i => simp at h
  refine ⟨by rw [hf]; rfl, ?_, ?_, ?_, ?_, ?_, ?_, ?_, ?_, [], by simp, by simp, by rw [hv]; rfl⟩
  · intro i d hd; rw [hv] at hd; simp [V.new, V.dataOf] at hd
  · intro i r hr; rw [hv] at hr; simp [V.new] at hr
  · intro i o ho; rw [hv] at ho; simp [V.new, V.core] at ho
  · intro i f hi; rw [hf] at hi; exact .inl (hget i f hi).1
  · intro i f hi _; rw [hf] at hi; exact (hget i f hi).1
  · intro i f hi htr; rw [hf] at hi; rw [(hget i f hi).2, h1] at htr; simp at htr
  · intro p j hp; rw [hv] at hp; simp [V.new, Map.get] at hp
  · intro i d s hm; rw [ht] at hm; simp at hm

/-- The state after the exploration for one TAL. -/
theorem explore_einv (fl : Flags) (hm : fl.useManifest = true) (run : TalRun)
    (hk : ∀ d c, run.world.env.parseCert d = .ok c → TalSpec.CertKey c.isRSA c.pubKey) (m : M)
    (h : exploreTal fl run = .ok m) :
    EInv run.world run.file m ∧ Life run.world (fun _ => True) (· = fl.cfg) m := by
  unfold exploreTal at h
  obtain ⟨⟨m', n⟩, h1, h2⟩ := Go.bind_eq_ok.mp h
  simp only [Go.pure_def, Go.ok.injEq] at h2
  subst h2
  have hlife : Life run.world (fun _ => True) (· = fl.cfg) ((M.new V.new).putFiles [run.file]) :=
    ⟨V.new, ⟨[], by simp, rfl⟩, .initial _ _ .here (by simp [TalRun.file])⟩
  obtain ⟨hl, _, _, hlater⟩ := explore_life (T := fun _ => True) (ok := (· = fl.cfg)) rfl hlife h1
  refine ⟨?_, hl⟩
  rw [M.explore, exploreLoop_drain] at h1
  have hrounds := drain_rounds (m0 := (M.new V.new).putFiles [run.file]) _ _ _ _ _ .here h1
  have : ∀ m1, Rounds run.world fl.cfg ((M.new V.new).putFiles [run.file]) m1 → EInv run.world run.file m1 ∧ MInv m1 := by
    intro m1 hr
    induction hr with
    | here => exact ⟨start_einv _ _ rfl rfl rfl, minv_life hlife⟩
    | round a b _ hs ih =>
      obtain ⟨_, _, _, hro⟩ := round_ok ih.2 hs
      exact ⟨ih.1.round hk (by simp [Flags.cfg, hm]) rfl rfl ih.2 hs, hro.inv⟩
  exact (this _ hrounds).1

theorem roa_listed {W : World} {f0 : PKIFile} (h0 : f0.type = .tal) {m : M} (h : EInv W f0 m) {strict : Bool} {cfg : Cfg}
    (hc : cfg.notMFT = false) (hs : cfg.strictHash = strict) (hl : Life W (fun _ => True) (· = cfg) m)
    {j : Nat} {roa : ROA} (hj : m.v.dataOf j = some (.roa roa)) : ListedROA strict W m roa := by
  obtain ⟨i, f, data, sha, h1, h2, h3⟩ := h.data j _ hj
  have h3' : f.type = .roa ∧ decodeROA W.env data = .ok roa := by
    generalize f.type = ty at h3
    cases h3 with
    | roa _ hd => exact ⟨rfl, hd⟩
  obtain ⟨g, n, e1, e2⟩ := h.fetch i data sha h2
  rw [h1] at e1
  simp at e1; subst e1
  refine ⟨i, f, n, data, sha, h1, e2, h3'.2, ?_⟩
  rcases h.known i f h1 with rfl | ⟨p, pf, data', sha', _, q1, q2, q3⟩
  · have := h.file0
    rw [h1] at this
    simp at this
    rw [this, h0] at h3'
    simp at h3'
  · obtain ⟨g, n', r1, r2⟩ := h.fetch p data' sha' q2
    rw [q1] at r1
    simp at r1; subst r1
    generalize hpt : pf.type = ty at q3
    cases q3 with
    | anchor t _ _ _ _ hty _ _ => rw [hty] at h3'; simp at h3'
    | pointer c _ _ _ hty _ _ => rw [h3'.1] at hty; simp at hty
    | listed mft _ hash hd hi hp hmem _ hh _ =>
      refine ⟨p, pf, n', data', sha', mft, hash, hp, q1, hpt, r2, hd, hi, hmem, ?_⟩
      intro hst s hsha
      obtain ⟨f', _, w1, _, w3⟩ := C28_hash_enforced W (fun _ => True) (· = cfg)
        (by rintro _ rfl; exact ⟨hc, by rw [hs]; exact hst⟩) m hl i data sha h2
      rw [h1] at w1
      simp at w1; subst w1
      exact w3 s hash hsha hh

/-! ### The list -/

theorem roaOf_ok {r : TalRun} {m : M} {k : Bytes} {roa : ROA} (h : roaOf r m k = .ok roa) :
    ∃ j, m.v.validROA.get k = some j ∧ m.v.dataOf j = some (.roa roa) := by
  unfold roaOf at h
  split at h
  · simp at h
  · rename_i j hj
    split at h
    · simp at h
    · rename_i res hres
      split at h
      · rename_i x hx
        split at h
        · simp at h; subst h
          exact ⟨j, hj, by unfold V.dataOf; simp [hres, hx]⟩
        · simp at h
      · simp at h

theorem roasOf_ok {r : TalRun} {m : M} : ∀ {ks : List Bytes} {l : List ROA}, roasOf r m ks = .ok l →
    (∀ roa ∈ l, ∃ k ∈ ks, roaOf r m k = .ok roa) ∧ (∀ k ∈ ks, ∃ roa ∈ l, roaOf r m k = .ok roa)
  | [], l, h => by simp [roasOf] at h; subst h; simp
  | k :: ks, l, h => by
    unfold roasOf at h
    obtain ⟨x, hx, h⟩ := Go.bind_eq_ok.mp h
    obtain ⟨y, hy, h⟩ := Go.bind_eq_ok.mp h
    simp only [Go.pure_def, Go.ok.injEq] at h
    subst h
    obtain ⟨h1, h2⟩ := roasOf_ok hy
    constructor
    · intro roa hr
      rcases List.mem_cons.mp hr with rfl | hr
      · exact ⟨k, by simp, hx⟩
      · obtain ⟨k', hk', e⟩ := h1 roa hr
        exact ⟨k', by simp [hk'], e⟩
    · intro k' hk'
      rcases List.mem_cons.mp hk' with rfl | hk'
      · exact ⟨x, by simp, hx⟩
      · obtain ⟨roa, hr, e⟩ := h2 k' hk'
        exact ⟨roa, by simp [hr], e⟩

theorem exploreTals_ok {fl : Flags} : ∀ {runs : List TalRun} {ms : List (TalRun × M)}, exploreTals fl runs = .ok ms →
    ms.map (·.1) = runs ∧ ∀ x ∈ ms, exploreTal fl x.1 = .ok x.2
  | [], ms, h => by simp [exploreTals] at h; subst h; simp
  | r :: runs, ms, h => by
    unfold exploreTals at h
    obtain ⟨x, hx, h⟩ := Go.bind_eq_ok.mp h
    obtain ⟨y, hy, h⟩ := Go.bind_eq_ok.mp h
    simp only [Go.pure_def, Go.ok.injEq] at h
    subst h
    obtain ⟨h1, h2⟩ := exploreTals_ok hy
    refine ⟨by simp [h1], ?_⟩
    intro z hz
    rcases List.mem_cons.mp hz with rfl | hz
    · exact hx
    · exact h2 z hz

theorem exportTals_ok {names : List Bytes} {n : Nat} : ∀ {ms : List (TalRun × M)} {i : Nat} {ts : List TalResult},
    exportTals names n i ms = .ok ts → ts.length = ms.length ∧
      ∀ (a : Nat) (t : TalResult), ts[a]? = some t → ∃ r m, ms[a]? = some (r, m) ∧ t.name = talName names n (i + a) r.path ∧
        roasOf r m (r.order (keysOf m.v.validROA)) = .ok t.roas
  | [], i, ts, h => by simp [exportTals] at h; subst h; simp
  | (r, m) :: ms, i, ts, h => by
    unfold exportTals at h
    obtain ⟨x, hx, h⟩ := Go.bind_eq_ok.mp h
    obtain ⟨y, hy, h⟩ := Go.bind_eq_ok.mp h
    simp only [Go.pure_def, Go.ok.injEq] at h
    subst h
    obtain ⟨h1, h2⟩ := exportTals_ok hy
    refine ⟨by simp [h1], ?_⟩
    intro a t ht
    cases a with
    | zero =>
      simp at ht; subst ht
      exact ⟨r, m, by simp, by simp, hx⟩
    | succ a =>
      simp at ht
      obtain ⟨r', m', e1, e2, e3⟩ := h2 a t ht
      exact ⟨r', m', by simpa using e1, by rw [e2]; congr 1; omega, e3⟩

theorem filterInvalidPrefixLen_sub : ∀ {l d : List ROAJson}, filterInvalidPrefixLen l = .ok d → d.Sublist l
  | [], d, h => by simp [filterInvalidPrefixLen] at h; subst h; simp
  | r :: l, d, h => by
    unfold filterInvalidPrefixLen at h
    obtain ⟨x, hx, h⟩ := Go.bind_eq_ok.mp h
    obtain ⟨y, hy, h⟩ := Go.bind_eq_ok.mp h
    simp only [Go.pure_def, Go.ok.injEq] at h
    have ih := filterInvalidPrefixLen_sub hy
    split at h <;> subst h
    · exact ih.cons₂ r
    · exact ih.cons r

theorem generate_sub {filter : Bool} {now validity : Int} {ts : List TalResult} {L : ROAList}
    (h : generateROAList filter now validity ts = .ok L) : L.data.Sublist (exportAll ts) := by
  unfold generateROAList filterData at h
  obtain ⟨d, h1, h⟩ := Go.bind_eq_ok.mp h
  obtain ⟨d', h2, h1⟩ := Go.bind_eq_ok.mp h1
  simp only [Go.pure_def, Go.ok.injEq] at h h1
  subst h; subst h1
  refine (dedupLoop_sublist d' []).trans ?_
  unfold filterOpt at h2
  split at h2
  · exact (filterInvalidPrefixLen_sub h2).trans (dedupLoop_sublist _ [])
  · simp at h2; subst h2; exact .refl _

/-- The parts of a validation that ended. -/
theorem main_parts {fl : Flags} {names : List Bytes} {now : Int} {runs : List TalRun} {ms : List (TalRun × M)} {L : ROAList}
    (h : mainValidation fl names now runs = .ok (ms, L)) :
    exploreTals fl runs = .ok ms ∧ ∃ ts, exportTals names runs.length 0 ms = .ok ts ∧
      generateROAList fl.filter now fl.validity ts = .ok L := by
  unfold mainValidation at h
  obtain ⟨x, hx, h⟩ := Go.bind_eq_ok.mp h
  obtain ⟨ts, hts, h⟩ := Go.bind_eq_ok.mp h
  obtain ⟨y, hy, h⟩ := Go.bind_eq_ok.mp h
  simp at h
  obtain ⟨rfl, rfl⟩ := h
  exact ⟨hx, ts, hts, hy⟩

/-! A repository for the examples: the TAL of C24 (`rsync://h/a.cer`), its certificate with 10.0.0.0/8, a manifest that lists `x.roa`
    with hash 7, and that ROA: 10.1.0.0/16-24 for AS 7. The hash of a file is its data. -/

def taE : Pki.Cert := { mkCert [1] [] 1 [net10] [] with
  pubKey := .rsaPtr ⟨5, 3⟩, sia := [(.caRepository, dirR), (.manifest, nM0)] }

def envE : Env := { env2 with
  asn := toyAsn
  parseCert := fun d => if d = [1] then .ok taE else .err ""
  parseMft := fun d => if d = [10] then .ok (mkMft [10] [1] [(nX, [7])]) else .err "" }

def worldE : World :=
  ⟨envE, fun _ p _ =>
    if p = [65] then .found tal3 none
    else if p = tx "rsync://h/a.cer" then .found [1] (some [1])
    else if p = nM0 then .found [10] (some [10])
    else if p = dirR ++ 47 :: nX then .found [7] (some [7])
    else .absent, fun _ _ => ([], true), fun _ => 50, fun _ => 50⟩

def runE : TalRun := ⟨[65], worldE, 10, id, fun _ => .refl _, fun _ => .fail⟩
def flE : Flags := ⟨true, true, true, true, 3600⟩

/-- The list of this validation has the line of the ROA. -/
example : (match mainValidation flE [tx "T"] 1000 [runE] with
    | .ok (_, L) => L.data.map (fun r => (r.prefixText, r.length, r.asn, r.ta))
    | _ => []) = [(tx "10.1.0.0/16", 24, tx "AS7", tx "T")] := by decide +kernel

/-- The hypotheses of the theorems below hold of it. -/
example : (∀ d c, worldE.env.parseCert d = .ok c → TalSpec.CertKey c.isRSA c.pubKey) ∧ isOk (exploreTal flE runE) = true ∧
    isOk (exploreTals flE [runE]) = true ∧ (∀ f, runE.reread f ≠ .absent) := by
  refine ⟨?_, by decide +kernel, by decide +kernel, fun f => by simp [runE]⟩
  intro d c h
  simp only [worldE, envE] at h
  split at h
  · simp at h; subst h
    simp [TalSpec.CertKey, taE, mkCert]
  · simp at h

/-- What stands behind each entry of a ROA that is valid after the exploration for a TAL. -/
theorem valid_backed {fl : Flags} (hm : fl.useManifest = true) {run : TalRun}
    (hkey : ∀ d c, run.world.env.parseCert d = .ok c → TalSpec.CertKey c.isRSA c.pubKey) {m : M} (hx : exploreTal fl run = .ok m)
    {k : Bytes} {j : Nat} {roa : ROA} (hj : m.v.validROA.get k = some j) (hd : m.v.dataOf j = some (.roa roa))
    {e : ROAEntry} (he : e ∈ roa.valids) : Backed fl.strictHash run m roa e := by
  obtain ⟨hinv, hlife⟩ := explore_einv fl hm run hkey m hx
  obtain ⟨ops, o1, o2, o3⟩ := hinv.run
  obtain ⟨roa', c1, c2, c3, c4, c5⟩ := C23_exported_authorised run.world.env (AnchorOf run.world run.file) ops o1 o2 m.v o3 k j hj
  have : roa' = roa := by
    obtain ⟨res, hres, hdata⟩ := c1
    unfold V.dataOf at hd
    rw [hres] at hd
    simp [hdata] at hd
    exact hd
  subst this
  have hski : roa'.cert.ski = k := by
    obtain ⟨r2, d1, d2, _⟩ := C22_roa_backed run.world.env (AnchorOf run.world run.file) m.v ⟨ops, o1, o3⟩ k j hj
    obtain ⟨res, hres, hdata⟩ := c1
    obtain ⟨res', hres', hdata'⟩ := d1
    rw [hres] at hres'
    simp at hres'; subst hres'
    rw [hdata] at hdata'
    simp at hdata'
    rw [hdata']; exact d2
  refine ⟨he, c2, by rw [hski]; exact c3, ?_, ?_, ?_, ?_⟩
  · rw [hski]
    exact C15_chain_of_trust _ _ _ ⟨ops, o1, o3⟩ k roa'.cert c3
  · obtain ⟨ops', q1, _, q3⟩ := hinv.hist
    exact C15_to_anchor _ _ ops' q1 _ q3 k roa'.cert c3
  · intro hw hp
    obtain ⟨g1, g2⟩ := c5 hw e he hp
    obtain ⟨l1, l2, l3, l4⟩ := c4 e g1
    refine ⟨g1, l1, ?_, g2⟩
    rcases hp.2.1 with h4 | h16
    · have := l4 h4; omega
    · omega
  · exact roa_listed rfl hinv (cfg := fl.cfg) (by simp [Flags.cfg, hm]) rfl hlife hd

/-- **C78, soundness (partial: see `C78_held_partial` for what is said of the resources of the issuers).** In manifest mode, each
    line of the published list names a TAL (by its configured name if there is one for each TAL, otherwise by its path) and is an entry
    of a ROA that was valid for that TAL: the ROA's signature is good; its EE
    certificate heads a chain of valid certificates up to one with the key of the TAL; the prefix lies in a resource of the EE
    certificate; the file is listed, with its hash, by a manifest with a good signature. -/
theorem C78_line_backed_partial (fl : Flags) (hm : fl.useManifest = true) (names : List Bytes) (now : Int) (runs : List TalRun)
    (hk : ∀ run ∈ runs, ∀ d c, run.world.env.parseCert d = .ok c → TalSpec.CertKey c.isRSA c.pubKey)
    (ms : List (TalRun × M)) (L : ROAList) (h : mainValidation fl names now runs = .ok (ms, L)) (r : ROAJson) (hr : r ∈ L.data) :
    ∃ (i : Nat) (run : TalRun) (m : M) (roa : ROA) (e : ROAEntry), runs[i]? = some run ∧ ms[i]? = some (run, m) ∧
      Backed fl.strictHash run m roa e ∧ r = exportEntry r.ta roa.asn e ∧
      (names.length = runs.length → names[i]? = some r.ta) ∧ (names.length ≠ runs.length → r.ta = run.path) := by
  obtain ⟨hx, ts, hts, hL⟩ := main_parts h
  obtain ⟨t, ht, roa, hroa, e, he, rfl⟩ := mem_exportAll.mp ((generate_sub hL).subset hr)
  obtain ⟨i, hi⟩ := List.mem_iff_getElem?.mp ht
  obtain ⟨_, hex⟩ := exportTals_ok hts
  obtain ⟨run, m, h1, h2, h3⟩ := hex i t hi
  obtain ⟨hruns, hexp⟩ := exploreTals_ok hx
  have hrun : runs[i]? = some run := by rw [← hruns]; simp [h1]
  obtain ⟨k, _, hk'⟩ := (roasOf_ok h3).1 roa hroa
  obtain ⟨j, hj, hd⟩ := roaOf_ok hk'
  have hmem := List.mem_of_getElem? h1
  exact ⟨i, run, m, roa, e, hrun, h1, valid_backed hm (hk run (List.mem_of_getElem? hrun)) (hexp _ hmem) hj hd he, rfl,
    by
    intro hn
    have hlt : i < names.length := by rw [hn]; exact (List.getElem?_eq_some_iff.mp hrun).1
    simp [exportEntry, h2, talName, hn, List.getElem?_eq_getElem hlt],
    by
    intro hn
    simp [exportEntry, h2, talName, hn]⟩

theorem covers_trans {c : Pki.Cert} {x e : IPInfo} (h : CoversIP c x) (hx : ∀ y, Denotes e y → Denotes x y) : CoversIP c e := by
  obtain ⟨f, hf, hh⟩ := h
  exact ⟨f, hf, fun y hy => hh y (hx y hy)⟩

theorem proper_of_denotes {x : IPInfo} {y : Nat} (h : Denotes x y) : ProperEntry x := by
  cases h with
  | net4 ip mask p v hi hm hp hv h => exact ⟨by simp [hi, hm], .inl hi, p, hp⟩
  | net6 ip mask p v hi hm hp h => exact ⟨by simp [hi, hm], .inr hi, p, hp⟩
  | range min max v hl hf h1 h2 => exact ⟨hl, hf⟩

theorem denotes_self {n : IPNet} (h : ProperNet n) : ∃ y, Denotes (.net (some n)) y := by
  obtain ⟨h1, h2, p, hp⟩ := h
  rcases h2 with h4 | h16
  · exact ⟨_, .net4 n.ip n.mask p (BerSpec.beVal n.ip) h4 (by omega) hp (beVal_lt4 h4) rfl⟩
  · exact ⟨_, .net6 n.ip n.mask p (BerSpec.beVal n.ip) h16 (by omega) hp rfl⟩

/-- A resource that a valid certificate holds is held all the way up, unless inheriting certificates follow each other. -/
theorem held_up {env : Env} {T : Bytes → Prop} {v : V} (hr : Reachable env T v) (hw : WellFormed v)
    (hta : ∀ k p, IsValid v k p → T k → ¬ InheritsIP p)
    (h2 : ∀ k p g, IsValid v k p → IsValid v p.aki g → InheritsIP p → ¬ InheritsIP g) (e : IPInfo) (he : ∃ y, Denotes e y)
    (k : Bytes) (hc : Chain env T v k) :
    (∀ c, IsValid v k c → CoversIP c e → HeldUp T v e k) ∧
    (¬ T k → ∀ c p, IsValid v k c → IsValid v c.aki p → CoversIP p e → HeldUp T v e c.aki) := by
  have huniq : ∀ {k c c'}, IsValid v k c → IsValid v k c' → c = c' := by
    rintro k c c' ⟨i, a1, a2⟩ ⟨i', b1, b2⟩
    rw [a1] at b1; simp at b1; subst b1
    rw [a2] at b2; simpa using b2
  induction hc with
  | anchor k c hv ht => exact ⟨fun c' hc' hcov => .anchor k c' hc' ht hcov, fun h => (h ht).elim⟩
  | step k c p hv hp hs ht hchain ih =>
    have second : ∀ c' p', IsValid v k c' → IsValid v c'.aki p' → CoversIP p' e → HeldUp T v e c'.aki := by
      intro c' p' hc' hp' hcov
      have := huniq hv hc'; subst this
      exact ih.1 p' hp' hcov
    refine ⟨?_, fun _ => second⟩
    intro c' hc' hcov
    have := huniq hv hc'; subst this
    by_cases hT : T k
    · exact .anchor k c hv hT hcov
    · obtain ⟨p', hp', hj, _⟩ := C17_two_levels_partial env T v hr hw k c hv hT
      have := huniq hp hp'; subst this
      obtain ⟨x, hx, hxe⟩ := hcov
      obtain ⟨y, hy⟩ := he
      have hsk := (isValid_inv (reachable_inv hr) hp).1
      refine .step k c hv (.inl ⟨x, hx, hxe⟩) ?_
      rcases hj x hx (proper_of_denotes (hxe y hy)) with hcp | ⟨hinh, hh | ⟨g, hg, hcg | hig⟩⟩
      · exact ih.1 p hp (covers_trans hcp hxe)
      · exact ((hta _ _ hp (hsk ▸ hh)) hinh).elim
      · have hnt : ¬ T c.aki := fun hh => hta _ _ hp hh hinh
        exact .step c.aki p hp (.inr hinh) (ih.2 hnt p g hp hg (covers_trans hcg hxe))
      · exact (h2 _ _ _ hp hg hinh hig).elim

/-- **C78, resources (partial: no two inheriting certificates in a row, and none at the top; otherwise it is false, see
    `C17_violated`).** The prefix of a published line is held by the EE certificate of the ROA, and by each of its issuers up to
    the trust anchor unless it inherits. -/
theorem C78_held_partial (fl : Flags) (hm : fl.useManifest = true) (run : TalRun)
    (hk : ∀ d c, run.world.env.parseCert d = .ok c → TalSpec.CertKey c.isRSA c.pubKey) (m : M) (h : exploreTal fl run = .ok m)
    (hw : WellFormed m.v)
    (hta : ∀ k p, IsValid m.v k p → AnchorOf run.world run.file k → ¬ InheritsIP p)
    (h2 : ∀ k p g, IsValid m.v k p → IsValid m.v p.aki g → InheritsIP p → ¬ InheritsIP g)
    (roa : ROA) (e : ROAEntry) (hb : Backed fl.strictHash run m roa e) (he : ProperNet e.ipnet) :
    HeldUp (AnchorOf run.world run.file) m.v (.net (some e.ipnet)) roa.cert.ski := by
  obtain ⟨hinv, _⟩ := explore_einv fl hm run hk m h
  obtain ⟨ops, o1, _, o3⟩ := hinv.run
  have hr : Reachable run.world.env (AnchorOf run.world run.file) m.v := ⟨ops, o1, o3⟩
  have hst := (isValid_inv (reachable_inv hr) hb.valid).2
  obtain ⟨_, _, _, hcov⟩ := hb.covered (hw _ _ hst) he
  exact (held_up hr hw hta h2 _ (denotes_self he) _ hb.chain).1 _ hb.valid hcov

/-- The state of the example after the exploration. -/
def doneE : M := match exploreTal flE runE with | .ok m => m | _ => M.new V.new

theorem doneE_certs : ∀ i c, doneE.v.certOf i = some c → c.ips = [net10] ∨ c.ips = [net10_1] ∨ c.ips = [] := by
  have key : ∀ r ∈ doneE.v.heap, (match r.data with | .cert c => decide (c.ips = [net10] ∨ c.ips = [net10_1] ∨ c.ips = []) | _ => true) = true := by
    decide +kernel
  intro i c h
  unfold V.certOf at h
  split at h
  · rename_i r hr
    have := key r (List.mem_of_getElem? hr)
    split at h
    · rename_i c' hc
      rw [hc] at this
      simp at h; subst h
      simpa using this
    · simp at h
  · simp at h

/-- The example meets the hypotheses of `C78_held_partial`: well-formed resources, and nothing inherits. -/
example : WellFormed doneE.v ∧ (∀ k p, IsValid doneE.v k p → ¬ InheritsIP p) := by
  constructor
  · rintro k c ⟨i, _, hc⟩ e he
    rcases doneE_certs i c hc with h | h | h <;> rw [h] at he <;> simp at he
    · subst he; exact .inl proper_net10
    · subst he; exact .inl proper_net10_1
  · rintro k c ⟨i, _, hc⟩ ⟨f, hf⟩
    rcases doneE_certs i c hc with h | h | h <;> rw [h] at hf <;> simp [net10, net10_1] at hf

/-! A repository for the counterexample: below the trust anchor with 10.0.0.0/8 two certificates that inherit, then one that
    claims 11.0.0.0/8, with a ROA for it. -/

def mkCAV (ski aki : Bytes) (ips : List IPInfo) (mft repo : Bytes) : Pki.Cert :=
  { mkCert ski aki 1 ips [] with sia := [(.caRepository, repo), (.manifest, mft)], pubKey := .rsaPtr ⟨9, 3⟩ }

def envV : Env := { env0 with
  asn := toyAsn
  parseCert := fun d =>
    if d = [1] then .ok taE
    else if d = [2] then .ok (mkCAV [2] [1] [.null 1] nMA dirR)
    else if d = [3] then .ok (mkCAV [3] [2] [.null 1] nMB dirR)
    else if d = [4] then .ok (mkCAV [4] [3] [net11] (tx "c.mft") dirR)
    else .err ""
  parseROA := fun d => if d = [7] then
    .ok (⟨7, [⟨[0, 1], [(⟨[11], 8⟩, 8)]⟩]⟩, mkCert [5] [4] 5 [net11] [], true) else .err ""
  parseMft := fun d =>
    if d = [10] then .ok (mkMft [10] [1] [(nA, [2])])
    else if d = [11] then .ok (mkMft [11] [2] [(nB, [3])])
    else if d = [12] then .ok (mkMft [12] [3] [(tx "c.cer", [4])])
    else if d = [13] then .ok (mkMft [13] [4] [(nX, [7])]) else .err "" }

def worldV : World :=
  ⟨envV, fun _ p _ =>
    if p = [65] then .found tal3 none
    else if p = tx "rsync://h/a.cer" then .found [1] (some [1])
    else if p = nM0 then .found [10] (some [10])
    else if p = nMA then .found [11] (some [11])
    else if p = nMB then .found [12] (some [12])
    else if p = tx "c.mft" then .found [13] (some [13])
    else if p = dirR ++ 47 :: nA then .found [2] (some [2])
    else if p = dirR ++ 47 :: nB then .found [3] (some [3])
    else if p = dirR ++ 47 :: tx "c.cer" then .found [4] (some [4])
    else if p = dirR ++ 47 :: nX then .found [7] (some [7])
    else .absent, fun _ _ => ([], true), fun _ => 50, fun _ => 50⟩

def runV : TalRun := ⟨[65], worldV, 20, id, fun _ => .refl _, fun _ => .fail⟩

/-- **C78 is violated: resources that the trust anchor does not hold.** With the default settings, a list is published with the
    prefix 11.0.0.0/8, and none of the certificates that are trust anchors of the TAL has a resource with this address. -/
theorem C78_violated_overclaim : ∃ ms L r, mainValidation flE [] 1000 [runV] = .ok (ms, L) ∧ r ∈ L.data ∧
    r.getPrefix = some ⟨[11, 0, 0, 0], [255, 0, 0, 0]⟩ ∧
    ∀ m k p, (runV, m) ∈ ms → AnchorOf worldV runV.file k → IsValid m.v k p → ∀ x ∈ p.ips, ¬ Denotes x (addrNum [11, 0, 0, 0]) := by
  have hok : isOk (mainValidation flE [] 1000 [runV]) = true := by decide +kernel
  cases hh : mainValidation flE [] 1000 [runV] with
  | err _ => rw [hh] at hok; simp [isOk] at hok
  | panic => rw [hh] at hok; simp [isOk] at hok
  | diverge => rw [hh] at hok; simp [isOk] at hok
  | ok x =>
    obtain ⟨ms, L⟩ := x
    have hl : (match mainValidation flE [] 1000 [runV] with | .ok (_, L) => L.data.map (·.getPrefix) | _ => []) =
      [some ⟨[11, 0, 0, 0], [255, 0, 0, 0]⟩] := by decide +kernel
    rw [hh] at hl
    simp only at hl
    cases hd : L.data with
    | nil => rw [hd] at hl; simp at hl
    | cons r l =>
      rw [hd] at hl
      simp only [List.map_cons, List.cons.injEq] at hl
      refine ⟨ms, L, r, rfl, by rw [hd]; simp, hl.1, ?_⟩
      intro m k p hm ha hv x hx
      obtain ⟨_, hexp⟩ := exploreTals_ok (main_parts hh).1
      have hm' := hexp _ hm
      simp only at hm'
      -- the key ids of trust anchors
      have hk1 : k = [1] := by
        obtain ⟨n0, d0, s0, t, n, f, d, s, c, h1, h2, _, _, h5, ⟨key, h6, h7⟩, h8⟩ := ha
        simp only [worldV, runV, TalRun.file, if_true] at h1
        simp at h1
        obtain ⟨rfl, _⟩ := h1
        have ht : (match Tal.decodeTAL toyAsn tal3 with | .ok t => decide (t.publicKey = .rsaPtr ⟨5, 3⟩) | _ => false) = true := by
          decide +kernel
        have h2' : Tal.decodeTAL toyAsn tal3 = .ok t := h2
        rw [h2'] at ht
        simp at ht
        rw [ht] at h6
        simp at h6; subst h6
        simp only [worldV, envV] at h5
        repeat' split at h5
        all_goals simp at h5
        all_goals subst h5
        · rw [← h8]; rfl
        all_goals simp [mkCAV] at h7
      subst hk1
      have hc : ∀ i, m.v.validObjects.get [1] = some i → ∀ c, m.v.certOf i = some c → c.ips = [net10] := by
        have : (match exploreTal flE runV with
            | .ok m => (match m.v.validObjects.get [1] with
              | some i => (match m.v.certOf i with | some c => decide (c.ips = [net10]) | none => true)
              | none => true)
            | _ => true) = true := by decide +kernel
        intro i hi c hc
        rw [hm'] at this
        simp only [hi, hc] at this
        simpa using this
      obtain ⟨i, h1, h2⟩ := hv
      rw [hc i h1 p h2] at hx
      simp at hx; subst hx
      exact net10_not_11

theorem mem_keysOf {α : Type} {m : Map α} {k : Bytes} : k ∈ keysOf m ↔ (m.get k).isSome = true := by
  unfold keysOf
  rw [mem_oncePer]
  unfold Map.get
  induction m with
  | nil => simp
  | cons a l ih =>
    obtain ⟨k', x⟩ := a
    rw [List.lookup_cons]
    by_cases hq : k = k'
    · simp [hq]
    · have : (k == k') = false := by simp [hq]
      simp only [this, List.map_cons, List.mem_cons, hq, false_or]
      exact ih

/-- The VRPs of all valid ROAs of all TALs of a validation. -/
def ValidVrp (ms : List (TalRun × M)) (v : Vrp) : Prop :=
  ∃ x ∈ ms, ∃ k j roa e, x.2.v.validROA.get k = some j ∧ At x.2.v j (.roa roa) ∧ e ∈ roa.valids ∧ v = ⟨e.ipnet, e.maxLength, roa.asn⟩

theorem authorised_iff {names : List Bytes} {n : Nat} {ms : List (TalRun × M)} {ts : List TalResult}
    (h : exportTals names n 0 ms = .ok ts) (v : Vrp) : Authorised ts v ↔ ValidVrp ms v := by
  obtain ⟨hlen, hex⟩ := exportTals_ok h
  constructor
  · rintro ⟨t, ht, roa, hroa, e, he, rfl⟩
    obtain ⟨i, hi⟩ := List.mem_iff_getElem?.mp ht
    obtain ⟨r, m, h1, _, h3⟩ := hex i t hi
    obtain ⟨k, _, hk⟩ := (roasOf_ok h3).1 roa hroa
    obtain ⟨j, hj, hd⟩ := roaOf_ok hk
    exact ⟨(r, m), List.mem_of_getElem? h1, k, j, roa, e, hj, at_of_dataOf hd, he, rfl⟩
  · rintro ⟨x, hx, k, j, roa, e, hj, hat, he, rfl⟩
    obtain ⟨i, hi⟩ := List.mem_iff_getElem?.mp hx
    have hlt : i < ts.length := by rw [hlen]; exact (List.getElem?_eq_some_iff.mp hi).1
    obtain ⟨r, m, h1, _, h3⟩ := hex i ts[i] (List.getElem?_eq_getElem hlt)
    rw [hi] at h1
    simp at h1; subst h1
    obtain ⟨roa', hr', e'⟩ := (roasOf_ok h3).2 k ((r.perm _).mem_iff.mpr (mem_keysOf.mpr (by simp at hj; simp [hj])))
    obtain ⟨j', hj', hd'⟩ := roaOf_ok e'
    simp at hj
    rw [hj] at hj'
    simp at hj'; subst hj'
    have : roa' = roa := by
      obtain ⟨res, hres, hdata⟩ := hat
      unfold V.dataOf at hd'
      simp at hres
      rw [hres] at hd'
      simp [hdata] at hd'
      exact hd'.symm
    subst this
    exact ⟨ts[i], List.getElem_mem hlt, roa', hr', e, he, rfl⟩

theorem roaOf_total {W : World} {f0 : PKIFile} {m : M} (h : EInv W f0 m) {r : TalRun} (hre : ∀ f, r.reread f ≠ .absent) {k : Bytes}
    (hk : (m.v.validROA.get k).isSome = true) : ∃ roa, roaOf r m k = .ok roa := by
  obtain ⟨j, hj⟩ := Option.isSome_iff_exists.mp hk
  obtain ⟨ops, o1, _, o3⟩ := h.run
  obtain ⟨roa, ⟨res, hres, hdata⟩, _⟩ := C22_roa_backed W.env (AnchorOf W f0) m.v ⟨ops, o1, o3⟩ k j hj
  refine ⟨roa, ?_⟩
  unfold roaOf
  simp only [hj, hres, hdata]
  have : readAgain r m res.file = .ok () := by
    unfold readAgain
    split
    · rfl
    · rename_i i hi
      obtain ⟨f, _, _, hf, _⟩ := (h.res j res hres).1 i hi
      simp only [hf]
      split
      · rename_i ha; exact (hre f ha).elim
      · rfl
  rw [this]

theorem roasOf_total {r : TalRun} {m : M} : ∀ {ks : List Bytes}, (∀ k ∈ ks, ∃ roa, roaOf r m k = .ok roa) → ∃ l, roasOf r m ks = .ok l
  | [], _ => ⟨[], rfl⟩
  | k :: ks, h => by
    obtain ⟨roa, h1⟩ := h k (by simp)
    obtain ⟨l, h2⟩ := roasOf_total (ks := ks) (fun k hk => h k (by simp [hk]))
    exact ⟨roa :: l, by simp [roasOf, h1, h2]⟩

theorem exportTals_total {names : List Bytes} {n : Nat} : ∀ {ms : List (TalRun × M)} (i : Nat),
    (∀ x ∈ ms, ∃ l, roasOf x.1 x.2 (x.1.order (keysOf x.2.v.validROA)) = .ok l) → ∃ ts, exportTals names n i ms = .ok ts
  | [], _, _ => ⟨[], rfl⟩
  | (r, m) :: ms, i, h => by
    obtain ⟨l, h1⟩ := h (r, m) (by simp)
    obtain ⟨ts, h2⟩ := exportTals_total (names := names) (n := n) (ms := ms) (i + 1) (fun x hx => h x (by simp [hx]))
    simp only at h1
    exact ⟨⟨talName names n i r.path, l⟩ :: ts, by simp [exportTals, h1, h2]⟩

/-- **C78, exactness (partial: all VRPs of the valid ROAs are well-formed, and the files are still there when the list is made).**
    When all explorations end, a list is published, and a reader finds in it exactly the VRPs of the valid ROAs of all TALs
    (with the filter: those that are short enough). -/
theorem C78_exact_partial (fl : Flags) (hm : fl.useManifest = true) (names : List Bytes) (now : Int) (runs : List TalRun)
    (hk : ∀ run ∈ runs, ∀ d c, run.world.env.parseCert d = .ok c → TalSpec.CertKey c.isRSA c.pubKey)
    (ms : List (TalRun × M)) (h : exploreTals fl runs = .ok ms) (hg : ∀ v, ValidVrp ms v → GoodVrp v)
    (hre : ∀ run ∈ runs, ∀ f, run.reread f ≠ .absent) :
    ∃ L, mainValidation fl names now runs = .ok (ms, L) ∧
      (∀ v, (∃ r ∈ L.data, Reads r v) ↔ ValidVrp ms v ∧ (fl.filter = true → ∃ p, IsMask p v.net.mask ∧ Short v.net p)) ∧
      L.metadata.generated = now ∧ L.metadata.valid = now + fl.validity := by
  obtain ⟨hruns, hexp⟩ := exploreTals_ok h
  obtain ⟨ts, hts⟩ := exportTals_total (names := names) (n := runs.length) (ms := ms) 0 (by
    intro x hx
    have hrun : x.1 ∈ runs := by rw [← hruns]; exact List.mem_map_of_mem hx
    obtain ⟨hinv, _⟩ := explore_einv fl hm x.1 (hk _ hrun) x.2 (hexp x hx)
    exact roasOf_total (fun k hk' => roaOf_total hinv (hre _ hrun) (mem_keysOf.mp ((x.1.perm _).mem_iff.mp hk'))))
  obtain ⟨L, h1, h2, _, _, h5, h6⟩ := C53_output_exact fl.filter now fl.validity ts
    (fun v hv => hg v ((authorised_iff hts v).mp hv))
  refine ⟨L, by simp [mainValidation, h, hts, h1], ?_, h5, h6⟩
  intro v
  rw [h2 v, authorised_iff hts]

theorem doneE_roas : ∀ j roa, At doneE.v j (.roa roa) → roa.asn = 7 ∧ roa.valids = [⟨⟨[10, 1, 0, 0], [255, 255, 0, 0]⟩, 24⟩] := by
  have key : ∀ r ∈ doneE.v.heap, (match r.data with
      | .roa roa => decide (roa.asn = 7 ∧ roa.valids = [⟨⟨[10, 1, 0, 0], [255, 255, 0, 0]⟩, 24⟩]) | _ => true) = true := by
    decide +kernel
  rintro j roa ⟨res, h1, h2⟩
  have := key res (List.mem_of_getElem? h1)
  rw [h2] at this
  simpa using this

/-- The example meets the hypotheses of `C78_exact_partial`: its VRPs are well-formed (above: the list
    has a line). -/
example : (∀ v, ValidVrp [(runE, doneE)] v → GoodVrp v) ∧
    exploreTals flE [runE] = .ok [(runE, doneE)] := by
  have hok : isOk (exploreTal flE runE) = true := by decide +kernel
  have hex : exploreTal flE runE = .ok doneE := by
    unfold doneE
    cases hh : exploreTal flE runE with
    | ok m => rfl
    | err _ => rw [hh] at hok; simp [isOk] at hok
    | panic => rw [hh] at hok; simp [isOk] at hok
    | diverge => rw [hh] at hok; simp [isOk] at hok
  refine ⟨?_, by simp [exploreTals, hex]⟩
  · rintro v ⟨x, hx, k, j, roa, e, _, hat, he, rfl⟩
    simp at hx; subst hx
    obtain ⟨h1, h2⟩ := doneE_roas j roa hat
    rw [h2] at he
    simp at he; subst he
    refine ⟨?_, ?_, ?_, by simp, by simp, by simp [h1], by simp [h1]⟩
    · have := proper_net10_1
      simpa [net10_1] using this
    · have : IsMask 16 [255, 255, 0, 0] ∧ 2 ^ (8 * [255, 255, (0 : UInt8), 0].length - 16) ∣ BerSpec.beVal [10, 1, 0, 0] := by
        refine ⟨⟨by decide, by decide⟩, by decide⟩
      exact ⟨16, this.1, this.2⟩
    · rintro ⟨d, _, hd⟩
      simp [List.replicate] at hd

end Verif.Props
