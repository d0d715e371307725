import Verif.Lemmas.ManagerLife
/-
  Strict manifests: what the manager knows about the CA above a listed file.
-/
set_option autoImplicit false

namespace Verif.Manager
open Pki PkiSpec ManagerSpec

theorem addCert_files {env : Env} {v v' : V} {c : Cert} {trust : Bool} {a : Added} {T : Bytes → Prop}
    (hval : ∀ k i, v.validObjects.get k = some i → v.objects.get k = some i)
    (ht : trust = true → T c.ski)
    (h : v.addCert env c trust = .ok (v', a)) (hf : a.files ≠ []) :
    ∃ r, a.res = some r ∧ v'.certOf r = some c ∧ (v'.objects.get c.ski).isSome = true := by
  obtain ⟨h1, hc⟩ := addCert_ok h
  obtain ⟨_, hcert, _⟩ := frame_addCert (T := T) hval (fun h1 _ _ => ht h1) h
  refine ⟨_, h1, hcert, ?_⟩
  rcases hc with ⟨i, _, _, _, h2, _⟩ | ⟨_, _, _, _, rfl⟩
  · exact (hf h2).elim
  · simp [V.store, Map.get_set]

theorem addResource_cer {env : Env} {v v' : V} {files : List PKIFile} {fid : Nat} {f : PKIFile} {data : Bytes}
    {a : Added} (hr : Reachable env (fun _ => True) v) (hf : files[fid]? = some f) (ht : f.type = .cer)
    (h : v.addResource env files fid data = .ok (v', a)) (hne : a.files ≠ []) :
    ∃ c r, env.parseCert data = .ok c ∧ a.res = some r ∧ v'.certOf r = some c ∧
      (v'.objects.get c.ski).isSome = true := by
  unfold V.addResource at h
  rw [hf] at h
  simp only [ht] at h
  split at h
  · rename_i c hc
    refine ⟨c, ?_⟩
    unfold V.addResourceCer at h
    obtain ⟨t, htal, h⟩ := Go.bind_eq_ok.mp h
    have hi := reachable_inv hr
    have hi2 := (good_talCheck (P := fun _ => True) htal hi).1
    split at h
    · obtain ⟨b, hb, h⟩ := Go.bind_eq_ok.mp h
      simp only [] at h
      have hbr := (addCert_ok hb).1
      rw [hbr] at h
      simp only [Go.ok.injEq, Prod.mk.injEq] at h
      obtain ⟨rfl, rfl⟩ := h
      have hbf : b.2.files ≠ [] := by
        intro he
        apply hne
        simp [he, withParent]
      obtain ⟨r, g1, g2, g3⟩ := addCert_files (T := fun _ => True) hi2.val (by simp) hb hbf
      refine ⟨r, hc, by rw [← g1, hbr], ?_, ?_⟩
      · rw [certOf_eq]
        show (V.setFile _ _ _ _).dataOf r = _
        unfold V.setFile
        rw [dataOf_modify]
        · exact (certOf_eq _ _ _).mp g2
        · intro _; rfl
      · show ((V.setFile _ _ _ _).objects.get c.ski).isSome = true
        unfold V.setFile
        exact g3
    · simp only [Go.ok.injEq, Prod.mk.injEq] at h
      obtain ⟨_, rfl⟩ := h
      simp [failed] at hne
  all_goals simp at h
  all_goals
    obtain ⟨_, rfl⟩ := h
    simp [failed] at hne

theorem queue_nodup {m : M} (hi : MInv m) {fid : Nat} {rest : List Nat} (hqe : m.queue = fid :: rest) :
    fid < m.files.length ∧ fid ∉ rest := by
  refine ⟨hi.lt fid (by simp [entered, hqe]), ?_⟩
  have := hi.nd
  rw [entered, hqe, List.map_append, List.nodup_append] at this
  have := this.2.1
  rw [List.map_cons, List.nodup_cons] at this
  exact fun hh => this.1 (List.mem_map_of_mem hh)

/-- In manifest mode, the new files of a round are those found in the file added. -/
theorem round_new {W : World} {cfg : Cfg} (hc : cfg.notMFT = false) {m m' : M} (hi : MInv m)
    {fid : Nat} {f : PKIFile} {rest : List Nat} (hro : Round cfg W m m' fid f rest)
    (h : m.exploreStep cfg W = .ok m') :
    ∃ l, m'.files = m.files ++ l ∧ (∀ x ∈ l, x.parent = some fid) ∧
      (l ≠ [] → ∃ d sha a v1, Event.added fid d sha ∈ m'.trace ∧ VRun W.env (fun _ => True) m.v v1 ∧
        v1.addResource W.env m.files fid d = .ok (m'.v, a) ∧ a.files ≠ [] ∧ m'.resOf.lookup fid = some a.res) := by
  unfold M.exploreStep at h
  rw [hro.queue] at h
  simp only [hro.file] at h
  obtain ⟨m2, h2, h⟩ := Go.bind_eq_ok.mp h
  simp only [Go.pure_def, Go.ok.injEq] at h
  subst h
  obtain ⟨pre, m1, hp, ho, hu⟩ := fetch_round (.inl hc) h2
  have g := onlyV_fields ho
  simp only at g
  obtain ⟨hlt, hq⟩ := queue_nodup hi hro.queue
  rcases useAnswer_cases hu with ⟨_, ho2⟩ | ⟨data, sha, hr, hadd⟩
  · have g' := onlyV_fields ho2
    exact ⟨[], by simp [g'.1, g.1], by simp, by simp⟩
  · obtain ⟨_, _, htr, _, _, ⟨l, hl1, hl2⟩, a, ha, hnew, _⟩ :=
      minv_exploreAdd (by rw [g.1]; exact hlt) (by rw [g.2.1]; exact hq) hadd
    refine ⟨l, by simp only [hl1, g.1], hl2, ?_⟩
    intro hne
    obtain ⟨e1, e2⟩ := hnew (by rw [hl1]; simpa using hne)
    refine ⟨data, sha, a, m1.v, by simp [htr], ?_, ?_, e2, ?_⟩
    · have := ho.vrun (T := fun _ => True)
      exact this
    · rw [g.1] at ha; exact ha
    · simp [e1]

/-- The CA certificate of file `p` is known: its data, its object, its resource. -/
def KnownCA (W : World) (m : M) (p : Nat) : Prop :=
  ∃ r c d sha, m.resOf.lookup p = some (some r) ∧ m.v.certOf r = some c ∧
    (m.v.objects.get c.ski).isSome = true ∧ Event.added p d sha ∈ m.trace ∧ W.env.parseCert d = .ok c

def CInv (W : World) (m : M) : Prop :=
  ∀ (i : Nat) (f : PKIFile) (p : Nat) (pf : PKIFile), m.files[i]? = some f → f.parent = some p → m.files[p]? = some pf →
    pf.type = .cer → KnownCA W m p

theorem lookup_mem {i : Nat} {r : Option Nat} : ∀ {l : List (Nat × Option Nat)}, l.lookup i = some r → (i, r) ∈ l := by
  intro l
  induction l with
  | nil => simp
  | cons e t ih =>
    intro h
    obtain ⟨j, x⟩ := e
    by_cases hj : i = j
    · subst hj
      simp at h
      subst h
      simp
    · rw [lookup_cons_ne hj] at h
      simp [ih h]

theorem KnownCA.round {W : World} {cfg : Cfg} {m m' : M} (hi : MInv m)
    (hr : Reachable W.env (fun _ => True) m.v) {fid : Nat} {f : PKIFile} {rest : List Nat}
    (hro : Round cfg W m m' fid f rest) {p : Nat} (h : KnownCA W m p) : KnownCA W m' p := by
  obtain ⟨r, c, d, sha, h1, h2, h3, h4, h5⟩ := h
  have hres := hi.res _ (lookup_mem h1)
  have hne : p ≠ fid := by
    intro he
    rw [hro.queue] at hres
    simp [he] at hres
  have hfr := ((hro.vrun _ (wtrust_all W)).good (reachable_inv hr)).2
  refine ⟨r, c, d, sha, by rw [hro.res p hres.2 hne]; exact h1, hfr.cert h2, ?_, hro.ext.trace.subset h4, h5⟩
  obtain ⟨i, hi⟩ := Option.isSome_iff_exists.mp h3
  rw [hfr.obj _ _ hi]
  rfl

theorem cinv_round {W : World} {cfg : Cfg} (hc : cfg.notMFT = false) {m m' : M} (hi : MInv m)
    (hr : Reachable W.env (fun _ => True) m.v) {fid : Nat} {f : PKIFile} {rest : List Nat}
    (hro : Round cfg W m m' fid f rest) (h : m.exploreStep cfg W = .ok m') (hci : CInv W m) : CInv W m' := by
  intro i x p pf hx hp hpf ht
  obtain ⟨l, hl1, hl2, hl3⟩ := round_new hc hi hro h
  have hplt := hro.inv.par i x p hx hp
  rcases Nat.lt_or_ge i m.files.length with hlt | hge
  · rw [hl1, List.getElem?_append_left hlt] at hx
    rw [hl1, List.getElem?_append_left (by omega)] at hpf
    exact (hci i x p pf hx hp hpf ht).round hi hr hro
  · rw [hl1, List.getElem?_append_right hge] at hx
    have hmem := List.mem_of_getElem? hx
    have hpp := hl2 x hmem
    rw [hp] at hpp
    simp at hpp
    subst hpp
    obtain ⟨hltp, _⟩ := queue_nodup hi hro.queue
    rw [hl1, List.getElem?_append_left hltp] at hpf
    have hpf' := hro.file
    rw [hpf] at hpf'
    simp at hpf'
    subst hpf'
    obtain ⟨d, sha, a, v1, e1, e2, e3, e4, e5⟩ := hl3 (List.ne_nil_of_mem hmem)
    obtain ⟨c, r, f1, f2, f3, f4⟩ := addResource_cer (e2.reachable hr) hpf ht e3 e4
    exact ⟨r, c, d, sha, by rw [e5, f2], f3, f4, e1, f1⟩

theorem invalidated_gone {v v' : V} {k : Bytes} (h : v.invalidateObject k = .ok v') : v'.validObjects.get k = none :=
  ((invalidateObject_spec h).2.1 k .self).1

theorem onlyV_frame {W : World} {m m' : M} (h : OnlyV W m m') (hr : Reachable W.env (fun _ => True) m.v) :
    Frame (fun _ => True) m.v m'.v := (h.vrun.good (reachable_inv hr)).2

theorem _root_.Verif.Pki.Frame.gone {T : Bytes → Prop} {v v' : V} (h : Frame T v v') {k : Bytes}
    (hs : (v.objects.get k).isSome = true) (hn : v.validObjects.get k = none) : v'.validObjects.get k = none := by
  obtain ⟨i, hi⟩ := Option.isSome_iff_exists.mp hs
  cases hv : v'.validObjects.get k with
  | none => rfl
  | some j => have := h.val k i j hi hv; rw [hn] at this; simp at this

theorem grandCer_listed {m : M} {i : Nat} {f : PKIFile} {p g : Nat} (h : Listed m i f p g) :
    ∃ gf, m.grandCer f .mft = some (g, gf) := by
  obtain ⟨pf, h1, h2, h3⟩ := h.manifest
  obtain ⟨gf, h4, h5⟩ := h.ca
  refine ⟨gf, ?_⟩
  unfold M.grandCer
  rw [h.parent]
  simp only [h1, h2, if_true, h3, h4, h5]

/-- In strict mode a missing file takes away its CA. -/
theorem strict_hits {W : World} {cfg : Cfg} (hs : cfg.strictManifests = true) {m m' : M} {fid i : Nat} {f : PKIFile}
    {r : Fetch} {p g : Nat} (hr : Reachable W.env (fun _ => True) m.v) (hl : Listed m i f p g) (hk : KnownCA W m g)
    (hf : r = .fail ∨ r = .absent) (h : m.useAnswer cfg W fid f r = .ok m') :
    ∃ c d sha, Event.added g d sha ∈ m.trace ∧ W.env.parseCert d = .ok c ∧
      (m'.v.objects.get c.ski).isSome = true ∧ m'.v.validObjects.get c.ski = none := by
  obtain ⟨ri, c, d, sha, h1, h2, h3, h4, h5⟩ := hk
  obtain ⟨gf, hg⟩ := grandCer_listed hl
  have key : ∀ m1, m.strict cfg f = .ok m1 → m1.v.validObjects.get c.ski = none := by
    intro m1 hm1
    unfold M.strict M.invalidateManifestParent at hm1
    rw [if_pos hs, hg] at hm1
    simp only [h1, Option.bind_some, id] at hm1
    unfold M.invalidateRes at hm1
    simp only [h2] at hm1
    obtain ⟨v, hv, hm1⟩ := Go.bind_eq_ok.mp hm1
    simp at hm1
    subst hm1
    exact invalidated_gone hv
  refine ⟨c, d, sha, h4, h5, ?_⟩
  have hobj : ∀ m1, OnlyV W m m1 → (m1.v.objects.get c.ski).isSome = true := by
    intro m1 ho
    obtain ⟨j, hj⟩ := Option.isSome_iff_exists.mp h3
    rw [(onlyV_frame ho hr).obj _ _ hj]
    rfl
  rcases hf with rfl | rfl
  · unfold M.useAnswer at h
    simp only [] at h
    obtain ⟨m1, hm1, h⟩ := Go.bind_eq_ok.mp h
    have ho1 := onlyV_strict (W := W) hm1
    have ho2 := onlyV_invalidateCRLParent (W := W) h
    exact ⟨hobj _ (ho1.trans ho2), (onlyV_frame ho2 (ho1.vrun.reachable hr)).gone (hobj _ ho1) (key m1 hm1)⟩
  · unfold M.useAnswer at h
    simp only [] at h
    exact ⟨hobj _ (onlyV_strict h), key m' h⟩

/-- The CA of every listed file that was taken and can never be had is gone. -/
def Gone (W : World) (m : M) : Prop :=
  ∀ i f p g, Listed m i f p g → i ∈ taken m.trace → NeverGood W (m.pathOf i) f →
    ∃ c d sha, Event.added g d sha ∈ m.trace ∧ W.env.parseCert d = .ok c ∧
      (m.v.objects.get c.ski).isSome = true ∧ m.v.validObjects.get c.ski = none

theorem Listed.back {m m' : M} (hi : MInv m) (he : ∃ l, m'.files = m.files ++ l) {i : Nat} (hlt : i < m.files.length)
    {f : PKIFile} {p g : Nat} (h : Listed m' i f p g) : Listed m i f p g := by
  obtain ⟨l, hl⟩ := he
  obtain ⟨hf, hp, ⟨pf, h1, h2, h3⟩, ⟨gf, h4, h5⟩⟩ := h
  rw [hl, List.getElem?_append_left hlt] at hf
  have hpi := hi.par i f p hf hp
  rw [hl, List.getElem?_append_left (by omega)] at h1
  have hgp := hi.par p pf g h1 h3
  rw [hl, List.getElem?_append_left (by omega)] at h4
  exact ⟨hf, hp, ⟨pf, h1, h2, h3⟩, ⟨gf, h4, h5⟩⟩

theorem gone_ext {W : World} {m m' : M} (hi : MInv m) (he : Ext m m') (hv : Frame (fun _ => True) m.v m'.v)
    (hg : Gone W m) {i : Nat} {f : PKIFile} {p g : Nat} (hl : Listed m' i f p g) (ht : i ∈ taken m.trace)
    (hn : NeverGood W (m'.pathOf i) f) :
    ∃ c d sha, Event.added g d sha ∈ m'.trace ∧ W.env.parseCert d = .ok c ∧
      (m'.v.objects.get c.ski).isSome = true ∧ m'.v.validObjects.get c.ski = none := by
  have hlt := hi.lt i (by unfold entered; exact List.mem_append_left _ ht)
  obtain ⟨l, hl'⟩ := he.files
  rw [pathOf_append hl' hi.par hlt] at hn
  obtain ⟨c, d, sha, h1, h2, h3, h4⟩ := hg i f p g (Listed.back hi he.files hlt hl) ht hn
  refine ⟨c, d, sha, he.trace.subset h1, h2, ?_, Frame.gone hv h3 h4⟩
  obtain ⟨j, hj⟩ := Option.isSome_iff_exists.mp h3
  rw [hv.obj _ _ hj]
  rfl

theorem gone_round {W : World} {cfg : Cfg} (hc : cfg.notMFT = false) (hs : cfg.strictManifests = true)
    (hh : cfg.strictHash = true) {m m' : M} (hi : MInv m)
    (hr : Reachable W.env (fun _ => True) m.v) {fid : Nat} {f : PKIFile} {rest : List Nat}
    (hro : Round cfg W m m' fid f rest) (h : m.exploreStep cfg W = .ok m') (hci : CInv W m) (hg : Gone W m) :
    Gone W m' := by
  intro i x p g hl ht hn
  have hfr := ((hro.vrun _ (wtrust_all W)).good (reachable_inv hr)).2
  obtain ⟨evs, h1, h2, _⟩ := hro.trace
  rw [h1, taken_append] at ht
  simp only [taken, h2, List.mem_append, List.mem_cons, List.not_mem_nil, or_false] at ht
  rcases ht with ht | rfl
  · exact gone_ext hi hro.ext hfr hg hl ht hn
  · obtain ⟨hlt, hq⟩ := queue_nodup hi hro.queue
    have hlm := Listed.back hi hro.files hlt hl
    have hxf : x = f := by
      have := hlm.file
      rw [hro.file] at this
      simpa using this.symm
    subst hxf
    obtain ⟨l, hl'⟩ := hro.files
    rw [pathOf_append hl' hi.par hlt] at hn
    have hk : KnownCA W m g := by
      obtain ⟨pf, a1, a2, a3⟩ := hlm.manifest
      obtain ⟨gf, b1, b2⟩ := hlm.ca
      exact hci p pf g gf a1 a3 b1 b2
    unfold M.exploreStep at h
    rw [hro.queue] at h
    simp only [hro.file] at h
    obtain ⟨m2, hm2, h⟩ := Go.bind_eq_ok.mp h
    simp only [Go.pure_def, Go.ok.injEq] at h
    subst h
    obtain ⟨pre, m1, hp, ho, hu⟩ := fetch_round (.inl hc) hm2
    have e := onlyV_fields ho
    simp only at e
    have hbad : judged cfg x (answer cfg W { m with queue := rest, trace := m.trace ++ [.taken i] } i x) = .fail ∨
        judged cfg x (answer cfg W { m with queue := rest, trace := m.trace ++ [.taken i] } i x) = .absent := by
      unfold answer
      split
      · exact .inl rfl
      · have hn' := hn m.clock
        show judged cfg x (W.getFile m.clock (m.pathOf i) x) = _ ∨ judged cfg x (W.getFile m.clock (m.pathOf i) x) = _
        rcases hn' with hn' | hn' | ⟨d, s, hx, hn', hm, hne⟩
        · rw [hn']; exact .inl rfl
        · rw [hn']; exact .inr rfl
        · rw [hn']
          left
          simp [judged, hm, hh, hne]
    have hr1 : Reachable W.env (fun _ => True) m1.v := by
      have := ho.vrun (T := fun _ => True)
      exact this.reachable hr
    have hlm1 : Listed m1 i x p g := by
      obtain ⟨a1, a2, a3, a4⟩ := hlm
      exact ⟨by rw [e.1]; exact a1, a2, by rw [e.1]; exact a3, by rw [e.1]; exact a4⟩
    have hk1 : KnownCA W m1 g := by
      obtain ⟨r, c, d, sha, k1, k2, k3, k4, k5⟩ := hk
      have hfr1 : Frame (fun _ => True) m.v m1.v := by
        have := onlyV_frame ho hr
        exact this
      refine ⟨r, c, d, sha, by rw [e.2.2.2.2.1]; exact k1, hfr1.cert k2, ?_, by rw [e.2.2.1]; simp [k4], k5⟩
      obtain ⟨j, hj⟩ := Option.isSome_iff_exists.mp k3
      rw [hfr1.obj _ _ hj]
      rfl
    obtain ⟨c, d, sha, k1, k2, k3, k4⟩ := strict_hits hs hr1 hlm1 hk1 hbad hu
    refine ⟨c, d, sha, ?_, k2, k3, k4⟩
    rcases useAnswer_cases hu with ⟨_, ho2⟩ | ⟨data, sha', hr', _⟩
    · have := (onlyV_fields ho2).2.2.1
      show _ ∈ m2.trace
      rw [this]
      exact k1
    · rcases hbad with hb | hb <;> rw [hb] at hr' <;> simp at hr'

theorem later_gone {W : World} {ok : Cfg → Prop}
    (hok : ∀ cfg, ok cfg → cfg.notMFT = false ∧ cfg.strictManifests = true ∧ cfg.strictHash = true)
    {m m' : M} (hi : MInv m) (hr : Reachable W.env (fun _ => True) m.v) (hci : CInv W m) (hg : Gone W m)
    (h : Later W ok m m') : CInv W m' ∧ Gone W m' := by
  refine (later_ind (P := fun m => Reachable W.env (fun _ => True) m.v ∧ CInv W m ∧ Gone W m) hi ⟨hr, hci, hg⟩ ?_ ?_ h).2.2.2
  · intro m1 fs _ hi1 ⟨hr1, hc1, hg1⟩ hf
    obtain ⟨hk, g1, g2, g3, g4, g5⟩ := keeps_putFiles fs m1 (put_initial fs hf)
    refine ⟨by rw [g5]; exact hr1, ?_, ?_⟩
    · intro i f p pf hx hp hpf ht
      have hltp := (hk.2 hi1).par i f p hx hp
      rw [g1] at hx hpf
      rcases Nat.lt_or_ge i m1.files.length with hlt | hge
      · rw [List.getElem?_append_left hlt] at hx
        rw [List.getElem?_append_left (by omega)] at hpf
        obtain ⟨r, c, d, sha, k1, k2, k3, k4, k5⟩ := hc1 i f p pf hx hp hpf ht
        exact ⟨r, c, d, sha, by rw [g4]; exact k1, by rw [g5]; exact k2, by rw [g5]; exact k3, by rw [g2]; exact k4, k5⟩
      · rw [List.getElem?_append_right hge] at hx
        have := hf f (List.mem_of_getElem? hx)
        rw [hp] at this
        simp at this
    · intro i f p g hl ht hn
      rw [g2] at ht
      exact gone_ext hi1 (ext_putFiles fs hf) (by rw [g5]; exact Frame.refl _ _) hg1 hl ht hn
  · intro m1 m2 cfg fid f rest _ hi1 ⟨hr1, hc1, hg1⟩ hc hs hro
    obtain ⟨o1, o2, o3⟩ := hok cfg hc
    exact ⟨(hro.vrun _ (wtrust_all W)).reachable hr1, cinv_round o1 hi1 hr1 hro hs hc1,
      gone_round o1 o2 o3 hi1 hr1 hro hs hc1 hg1⟩

end Verif.Manager
