import Verif.Lemmas.PkiRevoke
/-
  The table of TALs.
-/
set_option autoImplicit false

namespace Verif.Pki
open Net _root_.Verif.Cert Roa PkiSpec

theorem tals_link (v : V) (c : Cert) (i : Nat) (b : Bool) : (v.link c i b).tals = v.tals := by
  unfold V.link
  split
  · split <;> rfl
  · rfl

theorem tals_addCert {env : Env} {v : V} {c : Cert} {trust : Bool} {x : V × Added}
    (h : v.addCert env c trust = .ok x) : x.1.tals = v.tals := by
  obtain ⟨w, a⟩ := x
  obtain ⟨_, ⟨_, _, rfl, _⟩ | ⟨_, _, _, _, rfl⟩⟩ := addCert_ok h
  · rfl
  · show (V.link _ _ _ _).tals = _
    rw [tals_link]; rfl

theorem tals_setFile (v : V) (r : Option Nat) (f : Nat) (t : Option FType) :
    (v.setFile r f t).tals = v.tals := by
  unfold V.setFile; split <;> rfl

theorem tals_finish (v : V) (fid : Nat) (f : PKIFile) (a : Added) (files : List PKIFile) :
    (v.finish fid f a files).1.tals = v.tals := by
  unfold V.finish
  split
  · rfl
  · exact tals_setFile _ _ _ _

theorem tals_addROA {env : Env} {v : V} {file : Option Nat} {r : ROA} {x : V × Added}
    (h : v.addROA env file r = .ok x) : x.1.tals = v.tals := by
  unfold V.addROA at h
  obtain ⟨y, hy, h⟩ := Go.bind_eq_ok.mp h
  rw [← tals_addCert hy]
  split at h
  · simp at h; subst h; rfl
  · simp at h; subst h; rfl

theorem tals_addManifest {env : Env} {v : V} {file : Option Nat} {m : Mft} {x : V × Added}
    (h : v.addManifest env file m = .ok x) : x.1.tals = v.tals := by
  unfold V.addManifest at h
  split at h
  · obtain ⟨y, hy, h⟩ := Go.bind_eq_ok.mp h
    rw [← tals_addCert hy]
    split at h
    · simp at h; subst h; rfl
    · simp at h; subst h; rfl
  · simp at h; subst h; rfl

theorem tals_talCheck {v : V} {files : List PKIFile} {f : PKIFile} {c : Cert} {x : V × Bool}
    (h : v.talCheck files f c = .ok x) : x.1.tals = v.tals := by
  unfold V.talCheck at h
  split at h
  · split at h
    · split at h
      · split at h
        · split at h
          · obtain ⟨ok, _, h⟩ := Go.bind_eq_ok.mp h
            split at h <;> simp at h <;> subst h <;> rfl
          · simp at h
        · simp at h
      · simp at h; subst h; rfl
    · simp at h; subst h; rfl
  · simp at h; subst h; rfl

theorem tals_addResourceCer {env : Env} {files : List PKIFile} {v : V} {fid : Nat} {f : PKIFile} {c : Cert}
    {x : V × Added} (h : v.addResourceCer env files fid f c = .ok x) : x.1.tals = v.tals := by
  unfold V.addResourceCer at h
  obtain ⟨t, ht, h⟩ := Go.bind_eq_ok.mp h
  rw [← tals_talCheck ht]
  split at h
  · obtain ⟨y, hy, h⟩ := Go.bind_eq_ok.mp h
    rw [← tals_addCert hy]
    split at h
    · simp at h; subst h; exact tals_setFile _ _ _ _
    · simp at h; subst h; exact tals_setFile _ _ _ _
  · simp at h; subst h; rfl

theorem revokeLoop_tals (aki : Bytes) : ∀ (l : List Int) (v v' : V), revokeLoop aki l v = .ok v' →
    v'.tals = v.tals := by
  intro l
  induction l with
  | nil => intro v v' h; simp [revokeLoop] at h; subst h; rfl
  | cons s rest ih =>
    intro v v' h
    unfold revokeLoop at h
    obtain ⟨v1, h1, h⟩ := Go.bind_eq_ok.mp h
    rw [ih _ _ h]
    rcases revokeOne_cases h1 with rfl | ⟨_, _, _, _, _, h1⟩
    · rfl
    · exact (invalidateObject_spec h1).1.tals

theorem tals_addCRL {env : Env} {v : V} {l : CRL} {x : V × Added} (h : v.addCRL env l = .ok x) :
    x.1.tals = v.tals := by
  obtain ⟨w, a⟩ := x
  obtain ⟨_, _, _, ⟨_, _, rfl⟩ | ⟨_, _, _, v2, _, _, _, _, _, hloop, rfl⟩⟩ := addCRL_ok h
  · rfl
  · have := revokeLoop_tals _ _ _ _ hloop
    exact this

/-- The operation adds the TAL `t`. -/
def OffersTAL (env : Env) (t : Tal.RPKITAL) : Op → Prop
  | .addTAL t' => t' = t
  | .addResource files fid data => (∃ f, files[fid]? = some f ∧ f.type = .tal) ∧ Tal.decodeTAL env.asn data = .ok t
  | _ => False

/-- Only TALs change the table, each under its own URI. -/
theorem step_tals {env : Env} {v w : V} {op : Op} (h : v.step env op = .ok w) :
    (w.tals = v.tals ∧ ∀ t, ¬ OffersTAL env t op) ∨ ∃ t, OffersTAL env t op ∧
      w.tals = v.tals.set (t.getRsyncURI env.sha1) v.heap.length ∧ w.dataOf v.heap.length = some (.tal t) := by
  cases op with
  | addTAL t =>
    simp [V.step] at h; subst h
    refine .inr ⟨t, rfl, rfl, ?_⟩
    show V.dataOf (v.alloc _) _ = _
    rw [dataOf_alloc]; simp [objectToResource]
  | addCert c trust =>
    obtain ⟨y, hy, h⟩ := Go.bind_eq_ok.mp h
    simp at h; subst h
    exact .inl ⟨tals_addCert hy, by simp [OffersTAL]⟩
  | addROA f r =>
    obtain ⟨y, hy, h⟩ := Go.bind_eq_ok.mp h
    simp at h; subst h
    exact .inl ⟨tals_addROA hy, by simp [OffersTAL]⟩
  | addManifest f m =>
    obtain ⟨y, hy, h⟩ := Go.bind_eq_ok.mp h
    simp at h; subst h
    exact .inl ⟨tals_addManifest hy, by simp [OffersTAL]⟩
  | addCRL l =>
    obtain ⟨y, hy, h⟩ := Go.bind_eq_ok.mp h
    simp at h; subst h
    exact .inl ⟨tals_addCRL hy, by simp [OffersTAL]⟩
  | invalidate k => exact .inl ⟨(invalidateObject_spec h).1.tals, by simp [OffersTAL]⟩
  | addResource files fid data =>
    obtain ⟨y, hy, h⟩ := Go.bind_eq_ok.mp h
    simp at h; subst h
    unfold V.addResource at hy
    split at hy
    · simp at hy
    · rename_i f hf
      have hno : f.type ≠ .tal → ∀ t, ¬ OffersTAL env t (.addResource files fid data) := by
        rintro hne t ⟨⟨f', hf', ht'⟩, _⟩
        rw [hf] at hf'
        simp at hf'
        subst hf'
        exact hne ht'
      split at hy
      · rename_i ht
        split at hy
        · rename_i t hdec
          simp at hy; subst hy
          refine .inr ⟨t, ⟨⟨f, hf, ht⟩, hdec⟩, ?_, ?_⟩
          · rw [tals_setFile]; rfl
          · show V.dataOf (V.modify _ _ _) _ = _
            rw [dataOf_modify]
            · show V.dataOf (v.alloc _) _ = _
              rw [dataOf_alloc]; simp [objectToResource]
            · intro r; rfl
        · rename_i m hdec
          simp at hy; subst hy
          refine .inl ⟨rfl, ?_⟩
          rintro t ⟨_, h2⟩
          rw [hdec] at h2; simp at h2
        · simp at hy
        · simp at hy
      · rename_i ht
        refine .inl ⟨?_, hno (by simp [ht])⟩
        split at hy
        · exact tals_addResourceCer hy
        · simp at hy; subst hy; rfl
        · simp at hy
        · simp at hy
      · rename_i ht
        refine .inl ⟨?_, hno (by simp [ht])⟩
        split at hy
        · obtain ⟨z, hz, hy⟩ := Go.bind_eq_ok.mp hy
          simp at hy; subst hy
          rw [tals_finish]; exact tals_addROA hz
        · simp at hy; subst hy; rfl
        · simp at hy
        · simp at hy
      · rename_i ht
        refine .inl ⟨?_, hno (by simp [ht])⟩
        split at hy
        · obtain ⟨z, hz, hy⟩ := Go.bind_eq_ok.mp hy
          simp at hy; subst hy
          rw [tals_finish]; exact tals_addManifest hz
        · simp at hy; subst hy; rfl
        · simp at hy
        · simp at hy
      · rename_i ht
        refine .inl ⟨?_, hno (by simp [ht])⟩
        split at hy
        · rename_i l hl
          unfold V.addResourceCRL at hy
          obtain ⟨z, hz, hy⟩ := Go.bind_eq_ok.mp hy
          split at hy
          · simp at hy
          · obtain ⟨m, _, hy⟩ := Go.bind_eq_ok.mp hy
            split at hy
            · simp at hy; subst hy; have := tals_addCRL hz; exact this
            · simp only [Go.pure_def, Go.ok.injEq] at hy; subst hy
              rw [tals_finish]; exact tals_addCRL hz
        · simp at hy; subst hy; rfl
        · simp at hy
        · simp at hy
      · rename_i h1 h2 h3 h4 h5
        refine .inl ⟨?_, hno h1⟩
        simp at hy; subst hy; rfl

/-- The last TAL offered with a URI is the one registered for it. -/
theorem tals_after {env : Env} : ∀ (ops : List Op) (v w : V), Inv env (fun _ => True) (fun _ => True) v →
    V.run env v ops = .ok w → ∀ (t : Tal.RPKITAL) (i : Nat), v.tals.get (t.getRsyncURI env.sha1) = some i →
    v.dataOf i = some (.tal t) →
    (∀ op ∈ ops, ∀ t', OffersTAL env t' op → t'.getRsyncURI env.sha1 ≠ t.getRsyncURI env.sha1) →
    w.tals.get (t.getRsyncURI env.sha1) = some i ∧ w.dataOf i = some (.tal t) := by
  intro ops
  induction ops with
  | nil => intro v w _ h t i h1 h2 _; simp [V.run] at h; subst h; exact ⟨h1, h2⟩
  | cons op rest ih =>
    intro v w hi h t i h1 h2 h3
    unfold V.run at h
    obtain ⟨x, hx, h⟩ := Go.bind_eq_ok.mp h
    have htr : TrustsOnly env (fun _ => True) op := by cases op <;> simp [TrustsOnly]
    have hro : ROAsOnly env (fun _ => True) op := by cases op <;> simp [ROAsOnly]
    obtain ⟨hi', hf⟩ := good_step htr hro hx hi
    refine ih x w hi' h t i ?_ (hf.data _ _ h2) (fun o ho => h3 o (by simp [ho]))
    rcases step_tals hx with ⟨hh, _⟩ | ⟨t', ho, hh, _⟩
    · rw [hh]; exact h1
    · rw [hh, Map.get_set, if_neg]
      · exact h1
      · exact fun e => h3 op (by simp) t' ho e.symm

end Verif.Pki
