import Verif.Lemmas.Report
import Verif.Lemmas.Repository
/-
  Lemmas for the reports of a round and for the channel.
-/
set_option autoImplicit false

namespace Verif.Manager
open Pki PkiSpec ManagerSpec ReportSpec

/-! ### Lists of reports -/

theorem blames_append (i : Nat) (a b : List Report) : blames i (a ++ b) = blames i a ++ blames i b := by
  induction a with
  | nil => rfl
  | cons x t ih =>
    cases x with
    | about k j inner =>
      cases inner with
      | none => simp only [List.cons_append, blames]; split <;> simp [ih]
      | some n => simpa [blames] using ih
    | _ => simpa [blames] using ih

theorem losses_append (a b : List Report) : losses (a ++ b) = losses a ++ losses b := by
  induction a with
  | nil => rfl
  | cons x t ih =>
    cases x with
    | about k j inner => cases inner <;> simp [losses, ih]
    | _ => simpa [losses] using ih

/-! ### What is known in an exploration by manifests -/

/-- No file was found in a revocation list. -/
def NoCrlParent (m : M) : Prop :=
  ∀ (i : Nat) (f : PKIFile) (p : Nat) (pf : PKIFile), m.files[i]? = some f → f.parent = some p → m.files[p]? = some pf →
    pf.type ≠ .crl

theorem addResource_crl_files {env : Env} {v v' : V} {files : List PKIFile} {fid : Nat} {f : PKIFile} {data : Bytes}
    {a : Added} (hf : files[fid]? = some f) (ht : f.type = .crl)
    (h : v.addResource env files fid data = .ok (v', a)) : a.files = [] := by
  unfold V.addResource at h
  rw [hf] at h
  simp only [ht] at h
  split at h
  · unfold V.addResourceCRL at h
    obtain ⟨⟨v1, a1⟩, ha, h⟩ := Go.bind_eq_ok.mp h
    obtain ⟨g1, g2, g3, g4⟩ := addCRL_ok ha
    simp only [g1] at h
    obtain ⟨mis, hm, h⟩ := Go.bind_eq_ok.mp h
    cases mis with
    | false =>
      simp only [Bool.false_eq_true, if_false, Go.pure_def, Go.ok.injEq] at h
      have h2 := congrArg Prod.snd h
      rw [finish_some (by rw [g1]; rfl)] at h2
      simp only [] at h2
      subst h2
      simp [g2]
    | true =>
      simp only [if_true, Go.pure_def, Go.ok.injEq, Prod.mk.injEq] at h
      obtain ⟨_, rfl⟩ := h
      rfl
  all_goals simp at h
  obtain ⟨_, rfl⟩ := h
  rfl

/-- What was explored was taken. -/
def OnlyTaken (m : M) : Prop := ∀ p ∈ m.explored, ∃ i ∈ taken m.trace, m.pathOf i = p

structure KnownR (W : World) (m : M) : Prop where
  inv : MInv m
  reach : Reachable W.env (fun _ => True) m.v
  ca : CInv W m
  crl : NoCrlParent m
  expl : OnlyTaken m

theorem nocrl_round {W : World} {cfg : Cfg} (hc : cfg.notMFT = false) {m m' : M} (hi : MInv m)
    {fid : Nat} {f : PKIFile} {rest : List Nat} (hro : Round cfg W m m' fid f rest) (h : m.exploreStep cfg W = .ok m')
    (hn : NoCrlParent m) : NoCrlParent m' := by
  intro i x p pf hx hp hpf ht
  obtain ⟨l, hl1, hl2, hl3⟩ := round_new hc hi hro h
  have hplt := hro.inv.par i x p hx hp
  rcases Nat.lt_or_ge i m.files.length with hlt | hge
  · rw [hl1, List.getElem?_append_left hlt] at hx
    rw [hl1, List.getElem?_append_left (by omega)] at hpf
    exact hn i x p pf hx hp hpf ht
  · rw [hl1, List.getElem?_append_right hge] at hx
    have hmem := List.mem_of_getElem? hx
    have hpp := hl2 x hmem
    rw [hp] at hpp
    simp at hpp
    subst hpp
    obtain ⟨hltp, _⟩ := queue_nodup hi hro.queue
    rw [hl1, List.getElem?_append_left hltp] at hpf
    obtain ⟨d, sha, a, v1, _, _, e3, e4, _⟩ := hl3 (List.ne_nil_of_mem hmem)
    exact e4 (addResource_crl_files hpf ht e3)

theorem known_of_life {W : World} {T : Bytes → Prop} {ok : Cfg → Prop} (hok : ∀ cfg, ok cfg → cfg.notMFT = false) {m : M}
    (h : Life W T ok m) : KnownR W m := by
  obtain ⟨v, hv, hl⟩ := h
  have hv' : Reachable W.env (fun _ => True) v := reachable_mono (by simp) hv
  have := later_ind (P := fun m => Reachable W.env (fun _ => True) m.v ∧ CInv W m ∧ NoCrlParent m ∧ OnlyTaken m) (minv_new v)
    ⟨hv', by intro i f p pf hx; simp [M.new] at hx, by intro i f p pf hx; simp [M.new] at hx, by intro p hp; simp [M.new] at hp⟩ ?_ ?_ hl
  · exact ⟨this.1, this.2.2.1, this.2.2.2.1, this.2.2.2.2.1, this.2.2.2.2.2⟩
  · intro m1 fs _ hi ⟨h1, h2, h3, h4⟩ hf
    obtain ⟨hk, g1, g2, g3, g4, g5⟩ := keeps_putFiles fs m1 (put_initial fs hf)
    refine ⟨by rw [g5]; exact h1, ?_, ?_, ?_⟩
    · intro i f p pf hx hp hpf ht
      have hltp := (hk.2 hi).par i f p hx hp
      rw [g1] at hx hpf
      rcases Nat.lt_or_ge i m1.files.length with hlt | hge
      · rw [List.getElem?_append_left hlt] at hx
        rw [List.getElem?_append_left (by omega)] at hpf
        obtain ⟨r, c, d, sha, k1, k2, k3, k4, k5⟩ := h2 i f p pf hx hp hpf ht
        exact ⟨r, c, d, sha, by rw [g4]; exact k1, by rw [g5]; exact k2, by rw [g5]; exact k3, by rw [g2]; exact k4, k5⟩
      · rw [List.getElem?_append_right hge] at hx
        have := hf f (List.mem_of_getElem? hx)
        rw [hp] at this
        simp at this
    · intro i f p pf hx hp hpf ht
      have hltp := (hk.2 hi).par i f p hx hp
      rw [g1] at hx hpf
      rcases Nat.lt_or_ge i m1.files.length with hlt | hge
      · rw [List.getElem?_append_left hlt] at hx
        rw [List.getElem?_append_left (by omega)] at hpf
        exact h3 i f p pf hx hp hpf ht
      · rw [List.getElem?_append_right hge] at hx
        have := hf f (List.mem_of_getElem? hx)
        rw [hp] at this
        simp at this
    · intro p hp
      rw [g3] at hp
      obtain ⟨i, hi', hip⟩ := h4 p hp
      exact ⟨i, by rw [g2]; exact hi', by rw [pathOf_append g1 hi.par (hi.lt i (List.mem_append_left _ hi'))]; exact hip⟩
  · intro m1 m2 cfg fid f rest _ hi ⟨h1, h2, h3, h4⟩ hc hs hro
    refine ⟨(hro.vrun _ (wtrust_all W)).reachable h1, cinv_round (hok cfg hc) hi h1 hro hs h2, nocrl_round (hok cfg hc) hi hro hs h3, ?_⟩
    obtain ⟨evs, rs⟩ := round_saw hi hro hs
    obtain ⟨l, hl⟩ := hro.files
    obtain ⟨evs', t1, t2, _, t4⟩ := hro.trace
    have hev : evs' = evs := by have := t1.symm.trans rs.trace; simpa using this
    subst hev
    intro p hp
    rw [rs.expl] at hp
    rcases hp with hp | ⟨i, hi', hip⟩ | ⟨hn, _⟩
    · obtain ⟨i, hi', hip⟩ := h4 p hp
      exact ⟨i, by rw [t1, taken_append]; simp [hi'], by rw [pathOf_append hl hi.par (hi.lt i (List.mem_append_left _ hi'))]; exact hip⟩
    · refine ⟨i, ?_, hip⟩
      have : i = fid := by
        rcases t4 (.inl (hok cfg hc)) with rfl | rfl | ⟨d, s, rfl, _⟩ <;> simpa [added] using hi'
      subst this
      rw [t1, taken_append]
      simp [taken]
    · rw [hok cfg hc] at hn; simp at hn

/-- The file at the head of the queue was not explored before. -/
theorem KnownR.fresh {W : World} {m : M} (h : KnownR W m) {fid : Nat} {rest : List Nat} (hq : m.queue = fid :: rest) :
    m.pathOf fid ∉ m.explored := by
  intro hp
  obtain ⟨i, hi, hip⟩ := h.expl _ hp
  have := h.inv.nd
  rw [entered, hq, List.map_append, List.nodup_append] at this
  exact this.2.2 _ (List.mem_map_of_mem hi) _ (List.mem_map_of_mem (List.mem_cons_self ..)) hip

theorem KnownR.listed {W : World} {m : M} (h : KnownR W m) {i p g : Nat} {f : PKIFile} (hl : Listed m i f p g) : KnownCA W m g := by
  obtain ⟨pf, a1, a2, a3⟩ := hl.manifest
  obtain ⟨gf, b1, b2⟩ := hl.ca
  exact h.ca p pf g gf a1 a3 b1 b2

/-- What is needed of `KnownR` when the validator was changed only by invalidation. -/
structure KnownR1 (W : World) (m : M) : Prop where
  reach : Reachable W.env (fun _ => True) m.v
  ca : CInv W m
  crl : NoCrlParent m

theorem KnownR1.onlyV {W : World} {m m1 : M} (h : KnownR1 W m) (ho : OnlyV W m m1) : KnownR1 W m1 := by
  have e := onlyV_fields ho
  have hfr := onlyV_frame ho h.reach
  refine ⟨ho.vrun.reachable h.reach, ?_, ?_⟩
  · intro i f p pf hx hp hpf ht
    rw [e.1] at hx hpf
    obtain ⟨r, c, d, sha, k1, k2, k3, k4, k5⟩ := h.ca i f p pf hx hp hpf ht
    refine ⟨r, c, d, sha, by rw [e.2.2.2.2.1]; exact k1, hfr.cert k2, ?_, by rw [e.2.2.1]; exact k4, k5⟩
    obtain ⟨j, hj⟩ := Option.isSome_iff_exists.mp k3
    rw [hfr.obj _ _ hj]
    rfl
  · intro i f p pf hx hp hpf
    rw [e.1] at hx hpf
    exact h.crl i f p pf hx hp hpf

theorem KnownR1.listed {W : World} {m : M} (h : KnownR1 W m) {i p g : Nat} {f : PKIFile} (hl : Listed m i f p g) : KnownCA W m g := by
  obtain ⟨pf, a1, a2, a3⟩ := hl.manifest
  obtain ⟨gf, b1, b2⟩ := hl.ca
  exact h.ca p pf g gf a1 a3 b1 b2

/-! ### Losses -/

/-- Nothing was lost, or the CA above the file, which is reported. -/
def Lost (W : World) (m : M) (fid : Nat) (f : PKIFile) (m' : M) (rs : List Report) : Prop :=
  (rs = [] ∧ m' = m) ∨
  ∃ p g c d sha v, Listed m fid f p g ∧ rs = [.about .manifest g (some fid)] ∧ Event.added g d sha ∈ m.trace ∧
    W.env.parseCert d = .ok c ∧ (m.v.objects.get c.ski).isSome = true ∧ m.v.invalidateObject c.ski = .ok v ∧ m' = { m with v := v }

theorem listed_grandCer {m : M} {i : Nat} {f : PKIFile} {g : Nat} {gf : PKIFile} (hf : m.files[i]? = some f)
    (h : m.grandCer f .mft = some (g, gf)) : ∃ p, Listed m i f p g := by
  unfold M.grandCer at h
  split at h
  · simp at h
  · rename_i p hp
    split at h
    · simp at h
    · rename_i pf hpf
      split at h
      · rename_i ht
        split at h
        · simp at h
        · rename_i g' hg
          split at h
          · simp at h
          · rename_i gf' hgf
            split at h
            · rename_i hc
              simp only [Option.some.injEq, Prod.mk.injEq] at h
              obtain ⟨rfl, rfl⟩ := h
              exact ⟨p, hf, hp, ⟨pf, hpf, ht, hg⟩, ⟨gf', hgf, hc⟩⟩
            · simp at h
      · simp at h

theorem manifestParent_lost {W : World} {cfg : Cfg} {m m' : M} {fid : Nat} {f : PKIFile} {rs : List Report} (hk : KnownR1 W m)
    (hf : m.files[fid]? = some f) (h : m.invalidateManifestParentR true cfg fid f = .ok (m', rs)) :
    Lost W m fid f m' rs ∧ ∀ p g, Listed m fid f p g → rs ≠ [] := by
  unfold M.invalidateManifestParentR at h
  cases hg : m.grandCer f .mft with
  | none =>
    rw [hg] at h
    simp only [Go.ok.injEq, Prod.mk.injEq] at h
    obtain ⟨rfl, rfl⟩ := h
    refine ⟨.inl ⟨rfl, rfl⟩, ?_⟩
    intro p g hl
    obtain ⟨gf, hgf⟩ := grandCer_listed hl
    rw [hg] at hgf
    simp at hgf
  | some x =>
    obtain ⟨g, gf⟩ := x
    rw [hg] at h
    simp only [] at h
    obtain ⟨p, hl⟩ := listed_grandCer hf hg
    obtain ⟨r, c, d, sha, k1, k2, k3, k4, k5⟩ := hk.listed hl
    rw [k1] at h
    unfold M.invalidateResR at h
    simp only [Option.bind_some, id, k2] at h
    obtain ⟨v, hv, h⟩ := Go.bind_eq_ok.mp h
    simp only [Go.pure_def, Go.ok.injEq, Prod.mk.injEq] at h
    obtain ⟨rfl, rfl⟩ := h
    exact ⟨.inr ⟨p, g, c, d, sha, v, hl, rfl, k4, k5, k3, hv, rfl⟩, by simp [send]⟩

theorem Lost.onlyV {W : World} {m m' : M} {fid : Nat} {f : PKIFile} {rs : List Report} (h : Lost W m fid f m' rs) : OnlyV W m m' := by
  rcases h with ⟨_, rfl⟩ | ⟨p, g, c, d, sha, v, _, _, _, _, _, hv, rfl⟩
  · exact OnlyV.refl W m'
  · exact ⟨v, [.invalidate c.ski], rfl, by simp [V.run, V.step, hv], by simp⟩

theorem Lost.before {W : World} {m m' : M} {fid : Nat} {f : PKIFile} {rs : List Report} (h : Lost W m fid f m' rs) : Before m.v m'.v := by
  rcases h with ⟨_, rfl⟩ | ⟨p, g, c, d, sha, v, _, _, _, _, _, hv, rfl⟩
  · exact .inl rfl
  · exact .inr ⟨_, hv⟩

theorem Lost.blames {W : World} {m m' : M} {fid : Nat} {f : PKIFile} {rs : List Report} (h : Lost W m fid f m' rs) (i : Nat) :
    blames i rs = [] := by
  rcases h with ⟨rfl, _⟩ | ⟨p, g, c, d, sha, v, _, rfl, _⟩ <;> rfl

theorem crlParent_nothing {cfg : Cfg} {m : M} {fid : Nat} {f : PKIFile} {W : World} (hk : KnownR1 W m)
    (hf : m.files[fid]? = some f) : m.invalidateCRLParentR true cfg fid f = .ok (m, []) := by
  unfold M.invalidateCRLParentR
  have : m.grandCer f .crl = none := by
    unfold M.grandCer
    split
    · rfl
    · rename_i p hp
      split
      · rfl
      · rename_i pf hpf
        rw [if_neg (hk.crl fid f p pf hf hp hpf)]
  rw [this]

/-! ### One round -/

theorem expired_lost {W : World} {cfg : Cfg} {m m' : M} {fid : Nat} {f : PKIFile} {rs : List Report} (hk : KnownR1 W m)
    (hf : m.files[fid]? = some f) (h : m.checkExpiredR true cfg W fid f = .ok (m', rs)) :
    Lost W m fid f m' rs ∧ (rs ≠ [] → Stale W m f) ∧ (Stale W m f → ∀ p g, Listed m fid f p g → rs ≠ []) := by
  have keep : ∀ {m' rs}, (logged cfg m >>= fun m1 => Go.ok (m1, ([] : List Report))) = .ok (m', rs) → m' = m ∧ rs = [] := by
    intro m' rs h
    unfold logged at h
    split at h
    · simp only [Go.ok_bind, Go.ok.injEq, Prod.mk.injEq] at h; exact ⟨h.1.symm, h.2.symm⟩
    · simp at h
  unfold M.checkExpiredR at h
  cases h1 : f.parent with
  | none =>
    simp only [h1, Go.ok.injEq, Prod.mk.injEq] at h
    obtain ⟨rfl, rfl⟩ := h
    exact ⟨.inl ⟨rfl, rfl⟩, by simp, by rintro ⟨p, _, _, _, hp, _⟩; rw [h1] at hp; simp at hp⟩
  | some p =>
    simp only [h1] at h
    cases h2 : m.files[p]? with
    | none =>
      simp only [h2, Go.ok.injEq, Prod.mk.injEq] at h
      obtain ⟨rfl, rfl⟩ := h
      exact ⟨.inl ⟨rfl, rfl⟩, by simp, by rintro ⟨p', _, _, _, hp, hx, _⟩; rw [h1] at hp; simp at hp; subst hp; rw [h2] at hx; simp at hx⟩
    | some pf =>
      simp only [h2] at h
      by_cases h3 : pf.type = .mft
      · rw [if_pos h3] at h
        cases h4 : (m.resOf.lookup p).bind id with
        | none =>
          simp only [h4] at h
          obtain ⟨rfl, rfl⟩ := keep h
          refine ⟨.inl ⟨rfl, rfl⟩, by simp, ?_⟩
          rintro ⟨p', _, _, _, hp, _, _, hr, _⟩
          rw [h1] at hp; simp at hp; subst hp
          rw [hr] at h4; simp at h4
        | some r =>
          have hlk : m.resOf.lookup p = some (some r) := by
            cases hh : m.resOf.lookup p with
            | none => rw [hh] at h4; simp at h4
            | some x => rw [hh] at h4; simpa using h4
          simp only [h4] at h
          cases h5 : m.v.heap[r]? with
          | none =>
            simp only [h5] at h
            obtain ⟨rfl, rfl⟩ := keep h
            refine ⟨.inl ⟨rfl, rfl⟩, by simp, ?_⟩
            rintro ⟨p', _, _, _, hp, _, _, hr, hx, _⟩
            rw [h1] at hp; simp at hp; subst hp
            rw [hlk] at hr; simp at hr; subst hr
            rw [h5] at hx; simp at hx
          | some res =>
            simp only [h5] at h
            cases h6 : res.data with
            | mft c =>
              simp only [h6] at h
              by_cases h7 : W.now1 m.clock > c.nextUpdate ∨ W.now2 m.clock < c.thisUpdate
              · rw [if_pos h7] at h
                obtain ⟨a, b⟩ := manifestParent_lost hk hf h
                exact ⟨a, fun _ => ⟨p, pf, r, c, h1, h2, h3, hlk, by rw [h5]; simp [h6], h7⟩, fun _ => b⟩
              · rw [if_neg h7] at h
                simp only [Go.ok.injEq, Prod.mk.injEq] at h
                obtain ⟨rfl, rfl⟩ := h
                refine ⟨.inl ⟨rfl, rfl⟩, by simp, ?_⟩
                rintro ⟨p', _, _, _, hp, _, _, hr, hx, hs⟩
                rw [h1] at hp; simp at hp; subst hp
                rw [hlk] at hr; simp at hr; subst hr
                rw [h5] at hx; simp [h6] at hx; subst hx
                exact (h7 hs).elim
            | _ =>
              simp only [h6] at h
              obtain ⟨rfl, rfl⟩ := keep h
              refine ⟨.inl ⟨rfl, rfl⟩, by simp, ?_⟩
              rintro ⟨p', _, _, _, hp, _, _, hr, hx, hs⟩
              rw [h1] at hp; simp at hp; subst hp
              rw [hlk] at hr; simp at hr; subst hr
              rw [h5] at hx; simp [h6] at hx
      · rw [if_neg h3] at h
        simp only [Go.ok.injEq, Prod.mk.injEq] at h
        obtain ⟨rfl, rfl⟩ := h
        refine ⟨.inl ⟨rfl, rfl⟩, by simp, ?_⟩
        rintro ⟨p', _, _, _, hp, hx, ht, _⟩
        rw [h1] at hp; simp at hp; subst hp
        rw [h2] at hx; simp at hx; subst hx
        exact (h3 ht).elim

theorem strict_lost {W : World} {cfg : Cfg} {m m' : M} {fid : Nat} {f : PKIFile} {rs : List Report} (hk : KnownR1 W m)
    (hf : m.files[fid]? = some f) (h : m.strictR true cfg fid f = .ok (m', rs)) :
    Lost W m fid f m' rs ∧ (rs ≠ [] → cfg.strictManifests = true) ∧
      (cfg.strictManifests = true → ∀ p g, Listed m fid f p g → rs ≠ []) := by
  unfold M.strictR at h
  by_cases hs : cfg.strictManifests = true
  · rw [if_pos hs] at h
    obtain ⟨a, b⟩ := manifestParent_lost hk hf h
    exact ⟨a, fun _ => hs, fun _ => b⟩
  · rw [if_neg hs] at h
    simp only [Go.ok.injEq, Prod.mk.injEq] at h
    obtain ⟨rfl, rfl⟩ := h
    exact ⟨.inl ⟨rfl, rfl⟩, by simp, fun h => (hs h).elim⟩

/-- The error of the round if the answer is a failure: that of the FileSeeker, or a wrong hash. -/
def errorOf (fid : Nat) : Fetch → Report
  | .fail => .about .file fid none
  | _ => .about .hash fid none

theorem checkHash_lost {W : World} {cfg : Cfg} {m m' : M} {fid : Nat} {f : PKIFile} {r r' : Fetch} {e e' : Report} {rs : List Report}
    (hk : KnownR1 W m) (hf : m.files[fid]? = some f) (he : e = .about .file fid none)
    (h : m.checkHashR true cfg W fid f r e = .ok (m', r', e', rs)) :
    Lost W m fid f m' rs ∧ (rs ≠ [] → Stale W m f) ∧ r' = judged cfg f r ∧ (r' = .fail → e' = errorOf fid r) ∧
    (∀ d s hh, r = .found d (some s) → f.manifestHash = some hh → cfg.strictHash = true → Stale W m f →
      ∀ p g, Listed m fid f p g → rs ≠ []) := by
  unfold M.checkHashR at h
  cases r with
  | fail =>
    simp only [Go.ok.injEq, Prod.mk.injEq] at h
    obtain ⟨rfl, rfl, rfl, rfl⟩ := h
    exact ⟨.inl ⟨rfl, rfl⟩, by simp, rfl, fun _ => he, by simp⟩
  | absent =>
    simp only [Go.ok.injEq, Prod.mk.injEq] at h
    obtain ⟨rfl, rfl, rfl, rfl⟩ := h
    exact ⟨.inl ⟨rfl, rfl⟩, by simp, rfl, by simp, by simp⟩
  | found data sha =>
    cases sha with
    | none =>
      simp only [Go.ok.injEq, Prod.mk.injEq] at h
      obtain ⟨rfl, rfl, rfl, rfl⟩ := h
      exact ⟨.inl ⟨rfl, rfl⟩, by simp, rfl, by simp, by simp⟩
    | some sha =>
      simp only [] at h
      cases hm : f.manifestHash with
      | none =>
        simp only [hm, Go.ok.injEq, Prod.mk.injEq] at h
        obtain ⟨rfl, rfl, rfl, rfl⟩ := h
        exact ⟨.inl ⟨rfl, rfl⟩, by simp, by simp [judged, hm], by simp, by simp⟩
      | some hh =>
        simp only [hm] at h
        by_cases hs : cfg.strictHash = true
        · rw [if_pos hs] at h
          obtain ⟨⟨m1, rs1⟩, hx, h⟩ := Go.bind_eq_ok.mp h
          obtain ⟨a, b, c⟩ := expired_lost hk hf hx
          by_cases hne : sha ≠ hh
          · rw [if_pos hne] at h
            simp only [Go.pure_def, Go.ok.injEq, Prod.mk.injEq] at h
            obtain ⟨rfl, rfl, rfl, rfl⟩ := h
            refine ⟨a, b, by simp [judged, hm, hs, hne], fun _ => rfl, fun _ _ _ _ _ _ hst => c hst⟩
          · rw [if_neg hne] at h
            simp only [Go.pure_def, Go.ok.injEq, Prod.mk.injEq] at h
            obtain ⟨rfl, rfl, rfl, rfl⟩ := h
            refine ⟨a, b, by simp [judged, hm, hne], by simp, fun _ _ _ _ _ _ hst => c hst⟩
        · rw [if_neg hs] at h
          simp only [Go.ok.injEq, Prod.mk.injEq] at h
          obtain ⟨rfl, rfl, rfl, rfl⟩ := h
          exact ⟨.inl ⟨rfl, rfl⟩, by simp, by simp [judged, hm, hs], by simp, fun _ _ _ _ _ h' => (hs h').elim⟩

/-- The parts of a round: the check of the manifest, and the use of the answer. -/
theorem step_parts {W : World} {cfg : Cfg} {m m' : M} {fid : Nat} {rest : List Nat} {f : PKIFile} {rs : List Report} (hk : KnownR W m)
    (hc : cfg.notMFT = false) (hs : cfg.hasSeeker = true) (hq : m.queue = fid :: rest) (hf : m.files[fid]? = some f)
    (h : m.exploreStepR true cfg W = .ok (m', rs)) :
    ∃ m1 m2 rs1 rs2 e, Lost W { m with queue := rest, trace := m.trace ++ [.taken fid] ++ [.fetched fid] } fid f m1 rs1 ∧
      (rs1 ≠ [] → Stale W m f) ∧ KnownR1 W m1 ∧ m1.files = m.files ∧
      (judged cfg f (W.getFile m.clock (m.pathOf fid) f) = .fail → e = errorOf fid (W.getFile m.clock (m.pathOf fid) f)) ∧
      m1.useAnswerR true cfg W fid f (judged cfg f (W.getFile m.clock (m.pathOf fid) f)) e = .ok (m2, rs2) ∧
      m' = { m2 with clock := m2.clock + 1 } ∧ rs = rs1 ++ rs2 ∧
      (∀ d s hh, W.getFile m.clock (m.pathOf fid) f = .found d (some s) → f.manifestHash = some hh → cfg.strictHash = true → Stale W m f →
        ∀ p g, Listed m fid f p g → rs1 ≠ []) := by
  have hfresh := hk.fresh hq
  unfold M.exploreStepR at h
  rw [hq] at h
  simp only [hf] at h
  obtain ⟨⟨m2, rs'⟩, hh, h⟩ := Go.bind_eq_ok.mp h
  simp only [Go.pure_def, Go.ok.injEq, Prod.mk.injEq] at h
  obtain ⟨rfl, rfl⟩ := h
  unfold M.handleR at hh
  rw [if_pos (.inl hc)] at hh
  have hg : M.getNextFile cfg W { m with queue := rest, trace := m.trace ++ [.taken fid] } fid f =
      ({ m with queue := rest, trace := m.trace ++ [.taken fid] ++ [.fetched fid] }, W.getFile m.clock (m.pathOf fid) f) := by
    unfold M.getNextFile
    rw [if_neg (show ¬ (M.pathOf { m with queue := rest, trace := m.trace ++ [.taken fid] } fid ∈ m.explored) from hfresh), if_pos hs]
    rfl
  have he : M.fetchError cfg { m with queue := rest, trace := m.trace ++ [.taken fid] } fid = .about .file fid none := by
    unfold M.fetchError
    rw [if_neg (show ¬ (M.pathOf { m with queue := rest, trace := m.trace ++ [.taken fid] } fid ∈ m.explored) from hfresh), if_pos hs]
  simp only [hg, he] at hh
  obtain ⟨⟨m1, r', e', rs1⟩, hx, hh⟩ := Go.bind_eq_ok.mp hh
  obtain ⟨⟨m3, rs2⟩, hu, hh⟩ := Go.bind_eq_ok.mp hh
  simp only [Go.pure_def, Go.ok.injEq, Prod.mk.injEq] at hh
  obtain ⟨rfl, rfl⟩ := hh
  have hk0 : KnownR1 W { m with queue := rest, trace := m.trace ++ [.taken fid] ++ [.fetched fid] } := by
    refine ⟨hk.reach, ?_, hk.crl⟩
    intro i f p pf hx hp hpf ht
    obtain ⟨r, c, d, sha, k1, k2, k3, k4, k5⟩ := hk.ca i f p pf hx hp hpf ht
    exact ⟨r, c, d, sha, k1, k2, k3, by simp [k4], k5⟩
  obtain ⟨a, b, rfl, d, e⟩ := checkHash_lost hk0 hf rfl hx
  refine ⟨m1, m3, rs1, rs2, e', a, b, hk0.onlyV a.onlyV, (onlyV_fields a.onlyV).1, d, hu, rfl, rfl, ?_⟩
  intro d' s' hh' q1 q2 q3 q4 p g hl
  exact e d' s' hh' q1 q2 q3 q4 p g ⟨hl.file, hl.parent, hl.manifest, hl.ca⟩

theorem judged_ok {cfg : Cfg} {f : PKIFile} {data : Bytes} {sha : Option Bytes} :
    (HashOk cfg f sha → judged cfg f (.found data sha) = .found data sha) ∧ (¬ HashOk cfg f sha → judged cfg f (.found data sha) = .fail) := by
  unfold HashOk judged
  cases sha with
  | none => simp
  | some s =>
    cases hm : f.manifestHash with
    | none => simp
    | some h =>
      by_cases hs : cfg.strictHash = true <;> by_cases he : s = h <;> simp [hs, he]

/-- How the losses of a part of a round look. -/
theorem Lost.loss {W : World} {m m' : M} {fid : Nat} {f : PKIFile} {rs : List Report} (h : Lost W m fid f m' rs) {k : Kind} {g i : Nat}
    (hx : (k, g, i) ∈ losses rs) : k = .manifest ∧ i = fid ∧ rs ≠ [] ∧ ∃ p c d sha, Listed m fid f p g ∧ Event.added g d sha ∈ m.trace ∧
      W.env.parseCert d = .ok c ∧ (m'.v.objects.get c.ski).isSome = true ∧ m'.v.validObjects.get c.ski = none := by
  rcases h with ⟨rfl, rfl⟩ | ⟨p, g', c, d, sha, v, h1, rfl, h2, h3, h4, h5, rfl⟩
  · simp [losses] at hx
  · simp only [losses, List.mem_cons, Prod.mk.injEq, List.not_mem_nil, or_false] at hx
    obtain ⟨rfl, rfl, rfl⟩ := hx
    refine ⟨rfl, rfl, by simp, p, c, d, sha, h1, h2, h3, ?_, invalidated_gone h5⟩
    show (v.objects.get c.ski).isSome = true
    rw [(invalidateObject_spec h5).1.objects]
    exact h4

theorem Lost.reported {W : World} {m m' : M} {fid : Nat} {f : PKIFile} {rs : List Report} (h : Lost W m fid f m' rs) (hne : rs ≠ [])
    {p g : Nat} (hl : Listed m fid f p g) : (.manifest, g, fid) ∈ losses rs := by
  rcases h with ⟨rfl, rfl⟩ | ⟨p', g', c, d, sha, v, h1, rfl, _⟩
  · exact (hne rfl).elim
  · have e1 : p' = p := by have := h1.parent.symm.trans hl.parent; simpa using this
    subst e1
    obtain ⟨pf, a1, _, a3⟩ := h1.manifest
    obtain ⟨pf', b1, _, b3⟩ := hl.manifest
    rw [a1] at b1; simp at b1; subst b1
    rw [a3] at b3; simp at b3; subst b3
    simp [losses]

end Verif.Manager
