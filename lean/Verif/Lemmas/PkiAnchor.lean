import Verif.Lemmas.PkiStep
/-
  Which certificates the chains of trust end at.
-/
set_option autoImplicit false

namespace Verif.Pki
open Net _root_.Verif.Cert Roa PkiSpec

/-- A certificate that is added under a new key id is stored under it. -/
theorem addCert_stored {env : Env} {v v' : V} {c : Cert} {trust : Bool} {a : Added}
    (hv : ∀ k i, v.validObjects.get k = some i → v.objects.get k = some i) (h : v.addCert env c trust = .ok (v', a))
    (hn : v.objects.get c.ski = none) : Stored v' c.ski c := by
  obtain ⟨_, hc, _⟩ := frame_addCert (T := fun _ => True) hv (by simp) h
  refine ⟨v.heap.length, ?_, hc⟩
  obtain ⟨_, ⟨i, hi, _⟩ | ⟨_, _, _, _, rfl⟩⟩ := addCert_ok h
  · rw [hn] at hi; simp at hi
  · simp [V.store, Map.get_set]

theorem stored_frame {T : Bytes → Prop} {v v' : V} (h : Frame T v v') {k : Bytes} {c : Cert} (hs : Stored v k c) : Stored v' k c := by
  obtain ⟨i, h1, h2⟩ := hs
  exact ⟨i, h.obj _ _ h1, h.cert h2⟩

/-- The same for the certificate of a file that passed the check against the TAL. -/
theorem addResource_stored {env : Env} {v v' : V} {files : List PKIFile} {fid : Nat} {data : Bytes} {a : Added} {f : PKIFile}
    {c : Cert} (hi : Inv env (fun _ => True) (fun _ => True) v) (h : v.addResource env files fid data = .ok (v', a))
    (hf : files[fid]? = some f) (hty : f.type = .cer) (hc : env.parseCert data = .ok c)
    (hk : ∃ w, v.talCheck files f c = .ok (w, true)) (hn : v.objects.get c.ski = none) : Stored v' c.ski c := by
  obtain ⟨w, hk⟩ := hk
  unfold V.addResource at h
  rw [hf] at h
  simp only [hty, hc] at h
  unfold V.addResourceCer at h
  rw [hk] at h
  simp only [Go.ok_bind, if_true] at h
  obtain ⟨⟨x, d⟩, hx, h⟩ := Go.bind_eq_ok.mp h
  have hg : Good env (fun _ => True) (fun _ => True) v w := good_talCheck hk
  obtain ⟨hiw, _⟩ := hg hi
  have hnw : w.objects.get c.ski = none := by
    have : w.objects = v.objects := by
      unfold V.talCheck at hk
      split at hk
      · split at hk
        · split at hk
          · split at hk
            · split at hk
              · obtain ⟨ok, _, hk⟩ := Go.bind_eq_ok.mp hk
                split at hk
                · simp only [Go.pure_def, Go.ok.injEq, Prod.mk.injEq] at hk
                  obtain ⟨rfl, _⟩ := hk
                  rfl
                · simp at hk
              · simp at hk
            · simp at hk
          · simp at hk; rw [hk]
        · simp at hk; rw [hk]
      · simp at hk; rw [hk]
    rw [this]; exact hn
  have hs := addCert_stored hiw.val hx hnw
  obtain ⟨hix, _⟩ := good_addCert (T := fun _ => True) (by simp) hx hiw
  have hfr := (good_setFile env (fun _ => True) (fun _ => True) x d.res fid (some .cer) hix)
  split at h
  · simp only [Go.ok.injEq, Prod.mk.injEq] at h
    obtain ⟨rfl, _⟩ := h
    exact stored_frame hfr.2 hs
  · simp only [Go.ok.injEq, Prod.mk.injEq] at h
    obtain ⟨rfl, _⟩ := h
    exact stored_frame (good_path env _ _ _ _ hfr.1).2 (stored_frame hfr.2 hs)

/-- The invariant, with the certificates that are stored at the end. -/
theorem anchored_inv {env : Env} {A : Cert → Prop} {v : V} {ops : List Op} (ha : ∀ op ∈ ops, OffersOnly env A op)
    (h : V.run env V.new ops = .ok v) :
    Inv env (fun k => ∀ c, Stored v k c → A c ∧ (c.notBefore ≤ env.now ∧ env.now ≤ c.notAfter)) (fun _ => True) v := by
  have key : ∀ (ops : List Op) (u : V), (∀ op ∈ ops, OffersOnly env A op) → V.run env u ops = .ok v →
      Inv env (fun _ => True) (fun _ => True) u →
      Inv env (fun k => ∀ c, Stored v k c → A c ∧ (c.notBefore ≤ env.now ∧ env.now ≤ c.notAfter)) (fun _ => True) u →
      Inv env (fun k => ∀ c, Stored v k c → A c ∧ (c.notBefore ≤ env.now ∧ env.now ≤ c.notAfter)) (fun _ => True) v := by
    intro ops
    induction ops with
    | nil => intro u _ h _ hi; simp [V.run] at h; subst h; exact hi
    | cons op rest ih =>
      intro u ha h hi0 hi
      unfold V.run at h
      obtain ⟨w, hw, h⟩ := Go.bind_eq_ok.mp h
      have htt : ∀ o : Op, TrustsOnly env (fun _ => True) o := by intro o; cases o <;> simp [TrustsOnly]
      have hpp : ∀ o : Op, ROAsOnly env (fun _ => True) o := by intro o; cases o <;> simp [ROAsOnly]
      have hi1 := (good_step (htt op) (hpp op) hw hi0).1
      have hfr := (good_run rest w v (fun o _ => htt o) (fun o _ => hpp o) h hi1).2
      have hop := ha op (by simp)
      have one : ∀ c c', Stored w c.ski c → Stored v c.ski c' → c' = c := by
        intro c c' h1 h2
        obtain ⟨i, g1, g2⟩ := stored_frame hfr h1
        obtain ⟨j, g3, g4⟩ := h2
        rw [g1] at g3; simp at g3; subst g3
        rw [g2] at g4; simp at g4; exact g4.symm
      have ht : TrustsNew env (fun k => ∀ c, Stored v k c → A c ∧ (c.notBefore ≤ env.now ∧ env.now ≤ c.notAfter)) u op := by
        cases op with
        | addCert c trust =>
          intro htr hn hwin c' hs
          unfold V.step at hw
          obtain ⟨⟨x, b⟩, hb, hx⟩ := Go.bind_eq_ok.mp hw
          simp only [Go.pure_def, Go.ok.injEq] at hx
          subst hx
          rw [one c c' (addCert_stored hi0.val hb hn) hs]
          exact ⟨hop htr, hwin⟩
        | addResource files fid data =>
          intro f c hf hty htr hc hk hn hwin c' hs
          unfold V.step at hw
          obtain ⟨⟨x, b⟩, hb, hx⟩ := Go.bind_eq_ok.mp hw
          simp only [Go.pure_def, Go.ok.injEq] at hx
          subst hx
          rw [one c c' (addResource_stored hi0 hb hf hty hc hk hn) hs]
          exact ⟨hop f c hf htr hc, hwin⟩
        | _ => trivial
      exact ih w (fun o ho => ha o (by simp [ho])) h hi1 (good_stepNew ht (hpp op) hw hi).1
  exact key ops V.new ha h (inv_new _ _ _) (inv_new _ _ _)

/-- Every valid certificate heads a chain. -/
theorem ascends {env : Env} {A : Cert → Prop} {v : V} {ops : List Op} (ha : ∀ op ∈ ops, OffersOnly env A op)
    (h : V.run env V.new ops = .ok v) {k : Bytes} {c : Cert} (hv : IsValid v k c) : Ascends env A v c := by
  have hi := anchored_inv ha h
  obtain ⟨i, h1, h2⟩ := hv
  have key : ∀ n i k c, i < n → v.validObjects.get k = some i → v.certOf i = some c → Ascends env A v c := by
    intro n
    induction n with
    | zero => intro i _ _ hlt; omega
    | succ n ih =>
      intro i k c hlt h1 h2
      have hk : c.ski = k := hi.obj_certOf (hi.val _ _ h1) h2
      rcases hi.chain k i c h1 h2 with ht | ⟨p, pc, g1, g2, hlt', _, g3, g4, _⟩
      · obtain ⟨t1, t2⟩ := ht c ⟨i, hi.val _ _ h1, h2⟩
        exact .anchor c ⟨i, by rw [hk]; exact h1, h2⟩ t2 t1
      · exact .step c pc ⟨i, by rw [hk]; exact h1, h2⟩ g4 (hi.obj_certOf (hi.val _ _ g1) g2).symm g3
          (ih p c.aki pc (by omega) g1 g2)
  exact key (i + 1) i k c (by omega) h1 h2

end Verif.Pki
