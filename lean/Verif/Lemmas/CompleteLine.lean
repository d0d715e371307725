import Verif.Spec.CompleteLine
import Verif.Lemmas.ReportRound
import Verif.Lemmas.EndToEnd
/-
  Lemmas for C119 and C120: why an exploration invalidates a key id.
-/
set_option autoImplicit false

namespace Verif.Manager
open Pki PkiSpec ManagerSpec ReportSpec CompleteSpec

theorem addResource_mft {env : Env} {v v' : V} {files : List PKIFile} {fid : Nat} {f : PKIFile} {data : Bytes} {a : Added}
    (hf : files[fid]? = some f) (ht : f.type = .mft) (h : v.addResource env files fid data = .ok (v', a)) (hne : a.files ≠ []) :
    ∃ c r, env.parseMft data = .ok c ∧ a.res = some r ∧ v'.dataOf r = some (.mft c) := by
  unfold V.addResource at h
  rw [hf] at h
  simp only [ht] at h
  split at h
  · rename_i c hc
    obtain ⟨b, hb, h⟩ := Go.bind_eq_ok.mp h
    simp only [Go.pure_def, Go.ok.injEq] at h
    have hv : ResAll (fun _ _ _ => True) v := fun _ _ _ => trivial
    have hd := (hv.addManifest (f := some fid) (m := c) trivial trivial trivial hb).2
    unfold V.finish at h
    split at h
    · simp only [Prod.mk.injEq] at h
      obtain ⟨_, rfl⟩ := h
      simp at hne
    · rename_i i hi
      simp only [Prod.mk.injEq] at h
      obtain ⟨rfl, rfl⟩ := h
      refine ⟨c, i, hc, hi, ?_⟩
      show (V.setFile _ _ _ _).dataOf i = _
      unfold V.setFile
      rw [dataOf_modify]
      · exact hd i hi
      · intro _; rfl
  all_goals simp at h
  all_goals
    obtain ⟨_, rfl⟩ := h
    simp [failed] at hne

/-- The manifest of file `p` is known: its data and its resource. -/
def KnownMft (W : World) (m : M) (p : Nat) : Prop :=
  ∃ r c d sha, m.resOf.lookup p = some (some r) ∧ m.v.dataOf r = some (.mft c) ∧ Event.added p d sha ∈ m.trace ∧
    W.env.parseMft d = .ok c

def MftInv (W : World) (m : M) : Prop :=
  ∀ (i : Nat) (f : PKIFile) (p : Nat) (pf : PKIFile), m.files[i]? = some f → f.parent = some p → m.files[p]? = some pf →
    pf.type = .mft → KnownMft W m p

theorem mftInv_round {W : World} {cfg : Cfg} (hc : cfg.notMFT = false) {m m' : M} (hi : MInv m)
    (hr : Reachable W.env (fun _ => True) m.v) {fid : Nat} {f : PKIFile} {rest : List Nat}
    (hro : Round cfg W m m' fid f rest) (h : m.exploreStep cfg W = .ok m') (hci : MftInv W m) : MftInv W m' := by
  intro i x p pf hx hp hpf ht
  obtain ⟨l, hl1, hl2, hl3⟩ := round_new hc hi hro h
  have hplt := hro.inv.par i x p hx hp
  rcases Nat.lt_or_ge i m.files.length with hlt | hge
  · rw [hl1, List.getElem?_append_left hlt] at hx
    rw [hl1, List.getElem?_append_left (by omega)] at hpf
    obtain ⟨r, c, d, sha, h1, h2, h4, h5⟩ := hci i x p pf hx hp hpf ht
    have hres := hi.res _ (lookup_mem h1)
    have hne : p ≠ fid := by
      intro he
      rw [hro.queue] at hres
      simp [he] at hres
    have hfr := ((hro.vrun _ (wtrust_all W)).good (reachable_inv hr)).2
    exact ⟨r, c, d, sha, by rw [hro.res p hres.2 hne]; exact h1, hfr.data _ _ h2, hro.ext.trace.subset h4, h5⟩
  · rw [hl1, List.getElem?_append_right hge] at hx
    have hmem := List.mem_of_getElem? hx
    have hpp := hl2 x hmem
    rw [hp] at hpp
    simp at hpp
    subst hpp
    obtain ⟨hltp, _⟩ := queue_nodup hi hro.queue
    rw [hl1, List.getElem?_append_left hltp] at hpf
    obtain ⟨d, sha, a, v1, e1, e2, e3, e4, e5⟩ := hl3 (List.ne_nil_of_mem hmem)
    obtain ⟨c, r, f1, f2, f3⟩ := addResource_mft hpf ht e3 e4
    exact ⟨r, c, d, sha, by rw [e5, f2], f3, e1, f1⟩

/-! ### Reasons -/

/-- Nothing was done to the validator, or the certificate of the CA above the file was invalidated, for the reason `R`. -/
def Spared (W : World) (m : M) (fid : Nat) (f : PKIFile) (R : Prop) (m' : M) : Prop :=
  m' = m ∨ ∃ p g c d sha v, ManagerSpec.Listed m fid f p g ∧ Event.added g d sha ∈ m.trace ∧ W.env.parseCert d = .ok c ∧
    m.v.invalidateObject c.ski = .ok v ∧ m' = { m with v := v } ∧ R

theorem spared_of_lost {W : World} {m m' : M} {fid : Nat} {f : PKIFile} {rs : List Report} {R : Prop} (h : Lost W m fid f m' rs)
    (hR : rs ≠ [] → R) : Spared W m fid f R m' := by
  rcases h with ⟨_, h⟩ | ⟨p, g, c, d, sha, v, h1, h2, h3, h4, _, h6, h7⟩
  · exact .inl h
  · exact .inr ⟨p, g, c, d, sha, v, h1, h3, h4, h6, h7, hR (by rw [h2]; simp)⟩

theorem checkHash_spared {W : World} {cfg : Cfg} {m m' : M} {fid : Nat} {f : PKIFile} {r r' : Fetch} (hk : KnownR1 W m)
    (hf : m.files[fid]? = some f) (h : m.checkHash cfg W f r = .ok (m', r')) :
    Spared W m fid f (cfg.strictHash = true ∧ Stale W m f) m' ∧ r' = judged cfg f r := by
  rw [← checkHash_agrees true cfg W m fid f r (.about .file fid none)] at h
  obtain ⟨⟨m1, r1, e1, rs⟩, hx, h⟩ := Go.bind_eq_ok.mp h
  simp only [Go.ok.injEq, Prod.mk.injEq] at h
  obtain ⟨rfl, rfl⟩ := h
  obtain ⟨a, b, c, _⟩ := checkHash_lost hk hf rfl hx
  refine ⟨spared_of_lost a (fun hne => ⟨?_, b hne⟩), c⟩
  by_contra hs
  apply hne
  unfold M.checkHashR at hx
  repeat' split at hx
  all_goals first
    | (simp only [Go.ok.injEq, Prod.mk.injEq] at hx; exact hx.2.2.2.symm)
    | exact (hs (by assumption)).elim

theorem strict_spared {W : World} {cfg : Cfg} {m m' : M} {fid : Nat} {f : PKIFile} (hk : KnownR1 W m)
    (hf : m.files[fid]? = some f) (h : m.strict cfg f = .ok m') : Spared W m fid f (cfg.strictManifests = true) m' := by
  have := agrees_strict true cfg m fid f
  unfold Agrees at this
  rw [← this] at h
  obtain ⟨⟨m1, rs⟩, hx, h⟩ := Go.bind_eq_ok.mp h
  simp only [Go.ok.injEq] at h
  subst h
  obtain ⟨a, b, _⟩ := strict_lost hk hf hx
  exact spared_of_lost a b

theorem Spared.onlyV {W : World} {m m' : M} {fid : Nat} {f : PKIFile} {R : Prop} (h : Spared W m fid f R m') : OnlyV W m m' := by
  rcases h with rfl | ⟨p, g, c, d, sha, v, _, _, _, hv, rfl, _⟩
  · exact OnlyV.refl W m'
  · exact ⟨v, [.invalidate c.ski], rfl, by simp [V.run, V.step, hv], by simp⟩

theorem useAnswer_spared {W : World} {cfg : Cfg} {m m' : M} {fid : Nat} {f : PKIFile} {r : Fetch} (hk : KnownR1 W m)
    (hf : m.files[fid]? = some f) (h : m.useAnswer cfg W fid f r = .ok m') :
    ((r = .fail ∨ r = .absent) ∧ Spared W m fid f (cfg.strictManifests = true) m') ∨
    ∃ data sha, r = .found data sha ∧ m.exploreAdd W fid data sha cfg.addInvalidChilds = .ok m' := by
  unfold M.useAnswer at h
  cases r with
  | fail =>
    simp only [] at h
    obtain ⟨m1, hm, h⟩ := Go.bind_eq_ok.mp h
    have hs := strict_spared hk hf hm
    have hk1 := hk.onlyV hs.onlyV
    have := agrees_crlParent true cfg m1 fid f
    unfold Agrees at this
    rw [crlParent_nothing hk1 (by rw [(onlyV_fields hs.onlyV).1]; exact hf), h] at this
    simp only [Go.ok_bind, Go.ok.injEq] at this
    subst this
    exact .inl ⟨.inl rfl, hs⟩
  | absent => exact .inl ⟨.inr rfl, strict_spared hk hf h⟩
  | found data sha => exact .inr ⟨data, sha, rfl, h⟩

theorem missing_of_judged {cfg : Cfg} {f : PKIFile} {r : Fetch} (h : judged cfg f r = .fail ∨ judged cfg f r = .absent) :
    Missing cfg f r := by
  cases r with
  | fail => trivial
  | absent => trivial
  | found data sha =>
    intro hh
    rw [judged_ok.1 hh] at h
    simp at h

theorem blamed_mono {W : World} {cfg : Cfg} {m m' : M} {k : Bytes} (hi : MInv m) (hf : ∃ l, m'.files = m.files ++ l)
    (ht : ∃ l, m'.trace = m.trace ++ l) (h : Blamed W cfg m k) : Blamed W cfg m' k := by
  obtain ⟨l, hf⟩ := hf
  obtain ⟨l', ht⟩ := ht
  obtain ⟨i, p, g, f, d, sha, c, hl, hta, h1, h2, h3, h4⟩ := h
  have up : ∀ (j : Nat) (x : PKIFile), m.files[j]? = some x → m'.files[j]? = some x := by
    intro j x hj
    rw [hf, List.getElem?_append_left (List.getElem?_eq_some_iff.mp hj).1]; exact hj
  obtain ⟨pf, a1, a2, a3⟩ := hl.manifest
  obtain ⟨gf, b1, b2⟩ := hl.ca
  refine ⟨i, p, g, f, d, sha, c, ⟨up _ _ hl.file, hl.parent, ⟨pf, up _ _ a1, a2, a3⟩, ⟨gf, up _ _ b1, b2⟩⟩,
    by rw [ht, taken_append]; simp [hta], by rw [ht]; simp [h1], h2, h3, ?_⟩
  rcases h4 with ⟨e, n, hn⟩ | ⟨e, n, d', sha', mft, e1, e2, e3⟩
  · exact .inl ⟨e, n, by rw [pathOf_append hf hi.par (hi.lt i (List.mem_append_left _ hta))]; exact hn⟩
  · exact .inr ⟨e, n, d', sha', mft, by rw [ht]; simp [e1], e2, e3⟩

theorem blamed_same {W : World} {cfg : Cfg} {m m' : M} {k : Bytes} (hf : m'.files = m.files) (ht : m'.trace = m.trace)
    (h : Blamed W cfg m k) : Blamed W cfg m' k := by
  obtain ⟨i, p, g, f, d, sha, c, hl, hta, h1, h2, h3, h4⟩ := h
  have hp : m'.pathOf i = m.pathOf i := by unfold M.pathOf; rw [hf]
  refine ⟨i, p, g, f, d, sha, c, ⟨by rw [hf]; exact hl.file, hl.parent, by rw [hf]; exact hl.manifest, by rw [hf]; exact hl.ca⟩,
    by rw [ht]; exact hta, by rw [ht]; exact h1, h2, h3, by rw [hp, ht]; exact h4⟩

end Verif.Manager
