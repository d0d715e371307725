import Verif.Spec.Revoked
import Verif.Lemmas.PkiRevoke
import Verif.Lemmas.PkiAnchor
/-
  Where the table of valid revocation lists comes from, and runs seen with the certificates stored at the end.
-/
set_option autoImplicit false

namespace Verif.Pki
open Net _root_.Verif.Cert Roa PkiSpec RevokedSpec

/-! ### The table of valid lists -/

theorem crls_link (v : V) (c : Cert) (i : Nat) (b : Bool) : (v.link c i b).validCRL = v.validCRL := by
  unfold V.link
  split
  · split <;> rfl
  · rfl

theorem crls_addCert {env : Env} {v : V} {c : Cert} {trust : Bool} {x : V × Added}
    (h : v.addCert env c trust = .ok x) : x.1.validCRL = v.validCRL := by
  obtain ⟨w, a⟩ := x
  obtain ⟨_, ⟨_, _, rfl, _⟩ | ⟨_, _, _, _, rfl⟩⟩ := addCert_ok h
  · rfl
  · show (V.link _ _ _ _).validCRL = _
    rw [crls_link]; rfl

theorem crls_setFile (v : V) (r : Option Nat) (f : Nat) (t : Option FType) :
    (v.setFile r f t).validCRL = v.validCRL := by
  unfold V.setFile; split <;> rfl

theorem crls_finish (v : V) (fid : Nat) (f : PKIFile) (a : Added) (files : List PKIFile) :
    (v.finish fid f a files).1.validCRL = v.validCRL := by
  unfold V.finish
  split
  · rfl
  · exact crls_setFile _ _ _ _

theorem crls_addROA {env : Env} {v : V} {file : Option Nat} {r : ROA} {x : V × Added}
    (h : v.addROA env file r = .ok x) : x.1.validCRL = v.validCRL := by
  unfold V.addROA at h
  obtain ⟨y, hy, h⟩ := Go.bind_eq_ok.mp h
  rw [← crls_addCert hy]
  split at h
  · simp at h; subst h; rfl
  · simp at h; subst h; rfl

theorem crls_addManifest {env : Env} {v : V} {file : Option Nat} {m : Mft} {x : V × Added}
    (h : v.addManifest env file m = .ok x) : x.1.validCRL = v.validCRL := by
  unfold V.addManifest at h
  split at h
  · obtain ⟨y, hy, h⟩ := Go.bind_eq_ok.mp h
    rw [← crls_addCert hy]
    split at h
    · simp at h; subst h; rfl
    · simp at h; subst h; rfl
  · simp at h; subst h; rfl

theorem crls_talCheck {v : V} {files : List PKIFile} {f : PKIFile} {c : Cert} {x : V × Bool}
    (h : v.talCheck files f c = .ok x) : x.1.validCRL = v.validCRL := by
  unfold V.talCheck at h
  split at h
  · split at h
    · split at h
      · split at h
        · split at h
          · obtain ⟨ok, _, h⟩ := Go.bind_eq_ok.mp h
            split at h <;> simp at h <;> subst h <;> rfl
          · simp at h
        · simp at h
      · simp at h; subst h; rfl
    · simp at h; subst h; rfl
  · simp at h; subst h; rfl

theorem crls_addResourceCer {env : Env} {files : List PKIFile} {v : V} {fid : Nat} {f : PKIFile} {c : Cert}
    {x : V × Added} (h : v.addResourceCer env files fid f c = .ok x) : x.1.validCRL = v.validCRL := by
  unfold V.addResourceCer at h
  obtain ⟨t, ht, h⟩ := Go.bind_eq_ok.mp h
  rw [← crls_talCheck ht]
  split at h
  · obtain ⟨y, hy, h⟩ := Go.bind_eq_ok.mp h
    rw [← crls_addCert hy]
    split at h
    · simp at h; subst h; exact crls_setFile _ _ _ _
    · simp at h; subst h; exact crls_setFile _ _ _ _
  · simp at h; subst h; rfl

theorem crls_invalidate {v v' : V} {k : Bytes} (h : v.invalidateObject k = .ok v') {x : Bytes} {j : Nat}
    (hx : v'.validCRL.get x = some j) : v.validCRL.get x = some j := by
  obtain ⟨_, h1, h2⟩ := invalidateObject_spec h
  by_cases hr : Reach v k x
  · rw [(h1 x hr).2.2] at hx; simp at hx
  · rw [(h2 x hr).2.2] at hx; exact hx

theorem crls_revokeLoop (aki : Bytes) : ∀ (l : List Int) (v v' : V), revokeLoop aki l v = .ok v' →
    ∀ x j, v'.validCRL.get x = some j → v.validCRL.get x = some j := by
  intro l
  induction l with
  | nil => intro v v' h x j hj; simp [revokeLoop] at h; subst h; exact hj
  | cons s rest ih =>
    intro v v' h x j hj
    unfold revokeLoop at h
    obtain ⟨v1, h1, h⟩ := Go.bind_eq_ok.mp h
    have := ih _ _ h x j hj
    change v1.validCRL.get x = some j at this
    rcases revokeOne_cases h1 with rfl | ⟨_, c, _, _, _, h1⟩
    · exact this
    · exact crls_invalidate h1 this

theorem heap_revokeLoop (aki : Bytes) : ∀ (l : List Int) (v v' : V), revokeLoop aki l v = .ok v' → v'.heap = v.heap := by
  intro l
  induction l with
  | nil => intro v v' h; simp [revokeLoop] at h; subst h; rfl
  | cons s rest ih =>
    intro v v' h
    unfold revokeLoop at h
    obtain ⟨v1, h1, h⟩ := Go.bind_eq_ok.mp h
    have := ih _ _ h
    change v'.heap = v1.heap at this
    rw [this]
    rcases revokeOne_cases h1 with rfl | ⟨_, c, _, _, _, h1⟩
    · rfl
    · exact (invalidateObject_spec h1).1.heap

/-- Only accepted lists come into the table. -/
theorem crls_step {env : Env} {v w : V} {op : Op} (h : v.step env op = .ok w) (k : Bytes) (j : Nat)
    (hk : w.validCRL.get k = some j) : v.validCRL.get k = some j ∨
      ∃ l x, OffersCRL env l op ∧ v.addCRL env l = .ok x ∧ x.2.valid = true ∧ l.aki = k ∧ j = v.heap.length := by
  have hcrl : ∀ l x, OffersCRL env l op → v.addCRL env l = .ok x → x.1.validCRL.get k = some j → v.validCRL.get k = some j ∨
      ∃ l x, OffersCRL env l op ∧ v.addCRL env l = .ok x ∧ x.2.valid = true ∧ l.aki = k ∧ j = v.heap.length := by
    intro l x hl hx hxk
    obtain ⟨w', a⟩ := x
    obtain ⟨_, _, _, ⟨_, _, rfl⟩ | ⟨i, p, c, v2, _, _, _, _, hv, hloop, rfl⟩⟩ := addCRL_ok hx
    · exact .inl hxk
    · have := crls_revokeLoop _ _ _ _ hloop k j hxk
      simp only [Map.get_set] at this
      split at this
      · rename_i he
        exact .inr ⟨l, _, hl, hx, hv, he.symm, by simpa using this.symm⟩
      · exact .inl this
  cases op with
  | addTAL t => simp [V.step] at h; subst h; exact .inl hk
  | addCert c trust =>
    obtain ⟨y, hy, h⟩ := Go.bind_eq_ok.mp h
    simp at h; subst h
    exact .inl (crls_addCert hy ▸ hk)
  | addROA f r =>
    obtain ⟨y, hy, h⟩ := Go.bind_eq_ok.mp h
    simp at h; subst h
    exact .inl (crls_addROA hy ▸ hk)
  | addManifest f m =>
    obtain ⟨y, hy, h⟩ := Go.bind_eq_ok.mp h
    simp at h; subst h
    exact .inl (crls_addManifest hy ▸ hk)
  | addCRL l =>
    obtain ⟨y, hy, h⟩ := Go.bind_eq_ok.mp h
    simp at h; subst h
    exact hcrl l y rfl hy hk
  | invalidate x => exact .inl (crls_invalidate h hk)
  | addResource files fid data =>
    obtain ⟨y, hy, h⟩ := Go.bind_eq_ok.mp h
    simp at h; subst h
    unfold V.addResource at hy
    split at hy
    · simp at hy
    · rename_i f hf
      split at hy
      · left
        split at hy
        · simp at hy; subst hy; rw [crls_setFile] at hk; exact hk
        · simp at hy; subst hy; exact hk
        · simp at hy
        · simp at hy
      · left
        split at hy
        · rw [← crls_addResourceCer hy]; exact hk
        · simp at hy; subst hy; exact hk
        · simp at hy
        · simp at hy
      · left
        split at hy
        · obtain ⟨z, hz, hy⟩ := Go.bind_eq_ok.mp hy
          simp at hy; subst hy
          rw [crls_finish, crls_addROA hz] at hk; exact hk
        · simp at hy; subst hy; exact hk
        · simp at hy
        · simp at hy
      · left
        split at hy
        · obtain ⟨z, hz, hy⟩ := Go.bind_eq_ok.mp hy
          simp at hy; subst hy
          rw [crls_finish, crls_addManifest hz] at hk; exact hk
        · simp at hy; subst hy; exact hk
        · simp at hy
        · simp at hy
      · rename_i ht
        split at hy
        · rename_i l hl
          unfold V.addResourceCRL at hy
          obtain ⟨x, hx, hy⟩ := Go.bind_eq_ok.mp hy
          refine hcrl l x ⟨⟨f, hf, ht⟩, hl⟩ hx ?_
          split at hy
          · simp at hy
          · obtain ⟨m, _, hy⟩ := Go.bind_eq_ok.mp hy
            split at hy
            · simp only [Go.pure_def, Go.ok.injEq] at hy
              subst hy; exact hk
            · simp only [Go.pure_def, Go.ok.injEq] at hy
              subst hy; rw [crls_finish] at hk; exact hk
        · simp at hy; subst hy; exact .inl hk
        · simp at hy
        · simp at hy
      · simp at hy; subst hy; exact .inl hk

/-- The list is kept in a new place. -/
theorem addCRL_kept {env : Env} {v : V} {l : CRL} {x : V × Added} (h : v.addCRL env l = .ok x) :
    x.1.dataOf v.heap.length = some (.crl l) := by
  obtain ⟨w, a⟩ := x
  have hal : ∀ r : Res, r.data = .crl l → (v.alloc r).dataOf v.heap.length = some (.crl l) := by
    intro r hr; rw [dataOf_alloc, if_pos rfl, hr]
  obtain ⟨_, _, _, ⟨_, _, rfl⟩ | ⟨i, p, c, v2, _, _, _, _, _, hloop, rfl⟩⟩ := addCRL_ok h
  · exact hal _ rfl
  · show (v2.modify p _).dataOf _ = _
    rw [dataOf_modify _ _ _ (by intro r; rfl)]
    have hh := heap_revokeLoop _ _ _ _ hloop
    unfold V.dataOf
    rw [hh]
    exact hal _ rfl

theorem step_kept {env : Env} {v w : V} {op : Op} {l : CRL} (hop : OffersCRL env l op) (h : v.step env op = .ok w) :
    w.dataOf v.heap.length = some (.crl l) := by
  cases op with
  | addCRL l' =>
    simp only [OffersCRL] at hop
    subst hop
    unfold V.step at h
    obtain ⟨x, hx, h⟩ := Go.bind_eq_ok.mp h
    simp only [Go.pure_def, Go.ok.injEq] at h
    subst h
    exact addCRL_kept hx
  | addResource files fid data =>
    obtain ⟨⟨f, hf, ht⟩, hp⟩ := hop
    unfold V.step V.addResource at h
    simp only [hf, ht, hp] at h
    obtain ⟨y, hy, h⟩ := Go.bind_eq_ok.mp h
    simp only [Go.pure_def, Go.ok.injEq] at h
    subst h
    unfold V.addResourceCRL at hy
    obtain ⟨x, hx, hy⟩ := Go.bind_eq_ok.mp hy
    have := addCRL_kept hx
    split at hy
    · simp at hy
    · obtain ⟨m, _, hy⟩ := Go.bind_eq_ok.mp hy
      split at hy
      · simp only [Go.pure_def, Go.ok.injEq] at hy
        subst hy; exact this
      · simp only [Go.pure_def, Go.ok.injEq] at hy
        subst hy
        unfold V.finish V.setFile
        split
        · exact this
        · split
          · show (x.1.modify _ _).dataOf _ = _
            rw [dataOf_modify _ _ _ (by intro r; rfl)]; exact this
          · exact this
  | _ => simp [OffersCRL] at hop

theorem all_trust (env : Env) (o : Op) : TrustsOnly env (fun _ => True) o := by cases o <;> simp [TrustsOnly]
theorem all_roas (env : Env) (o : Op) : ROAsOnly env (fun _ => True) o := by cases o <;> simp [ROAsOnly]

theorem run_snoc {env : Env} {pre : List Op} {op : Op} {u v : V} (h : V.run env u (pre ++ [op]) = .ok v) :
    ∃ w, V.run env u pre = .ok w ∧ w.step env op = .ok v := by
  obtain ⟨w, hw, hop⟩ := (run_append pre [op] u v).mp h
  refine ⟨w, hw, ?_⟩
  unfold V.run at hop
  obtain ⟨w', hop', he⟩ := Go.bind_eq_ok.mp hop
  simp only [V.run, Go.ok.injEq] at he
  rw [hop', he]

/-- The serials of a list in force are revoked by the history. -/
theorem inForce_revokedIn {env : Env} {l : CRL} (s : Int) (hs : s ∈ l.revoked) : ∀ (n : Nat) (ops : List Op) (v : V), ops.length = n →
    V.run env V.new ops = .ok v → ∀ j, v.validCRL.get l.aki = some j → v.dataOf j = some (.crl l) →
    RevokedIn env ops l.aki s := by
  intro n
  induction n with
  | zero =>
    intro ops v hl h j hj
    have : ops = [] := List.eq_nil_of_length_eq_zero hl
    subst this
    simp [V.run] at h
    subst h
    simp [V.new, Map.get_nil] at hj
  | succ n ih =>
    intro ops v hl h j hj hd
    obtain ⟨pre, op, rfl⟩ : ∃ pre op, ops = pre ++ [op] := by
      have hne : ops ≠ [] := by rintro rfl; simp at hl
      exact ⟨ops.dropLast, ops.getLast hne, (List.dropLast_concat_getLast hne).symm⟩
    obtain ⟨w, hw, hop⟩ := run_snoc h
    have hiw := (good_run (T := fun _ => True) (P := fun _ => True) pre V.new w (fun o _ => all_trust env o) (fun o _ => all_roas env o) hw
      (inv_new _ _ _)).1
    have hfr := (good_step (T := fun _ => True) (P := fun _ => True) (all_trust env op) (all_roas env op) hop hiw)
    rcases crls_step hop l.aki j hj with hh | ⟨l', x, h1, h2, h3, h4, h5⟩
    · have hdw : w.dataOf j = some (.crl l) := by
        obtain ⟨l', _, _, g, _⟩ := hiw.vcrl _ _ hh
        have := hfr.2.data _ _ g
        rw [hd] at this
        rw [g, ← this]
      obtain ⟨p, o, q, l2, v0, v1, a, rfl, hr⟩ := ih pre w (by simp at hl; exact hl) hw j hh hdw
      exact ⟨p, o, q ++ [op], l2, v0, v1, a, by simp, hr⟩
    · have hx := step_kept h1 hop
      rw [← h5, hd] at hx
      simp only [Option.some.injEq, ResData.crl.injEq] at hx
      subst hx
      exact ⟨pre, op, [], l, w, x.1, x.2, rfl, hw, h1, h2, h3, rfl, hs⟩

/-! ### Runs, seen with the certificates stored at the end -/

/-- The key ids under which, at the end, an anchor is stored. -/
def AnchorKey (env : Env) (A : Cert → Prop) (v : V) (k : Bytes) : Prop :=
  ∀ c, Stored v k c → A c ∧ (c.notBefore ≤ env.now ∧ env.now ≤ c.notAfter)

theorem anchored_run {env : Env} {A : Cert → Prop} {v : V} : ∀ (ops : List Op) (u w : V), (∀ op ∈ ops, OffersOnly env A op) →
    V.run env u ops = .ok w → Frame (fun _ => True) w v → Inv env (fun _ => True) (fun _ => True) u →
    Inv env (AnchorKey env A v) (fun _ => True) u →
    Inv env (AnchorKey env A v) (fun _ => True) w ∧ Frame (AnchorKey env A v) u w := by
  intro ops
  induction ops with
  | nil => intro u w _ h _ _ hi; simp [V.run] at h; subst h; exact ⟨hi, Frame.refl _ _⟩
  | cons op rest ih =>
    intro u z ha h hz hi0 hi
    unfold V.run at h
    obtain ⟨w, hw, h⟩ := Go.bind_eq_ok.mp h
    have hi1 := (good_step (all_trust env op) (all_roas env op) hw hi0).1
    have hfr := ((good_run rest w z (fun o _ => all_trust env o) (fun o _ => all_roas env o) h hi1).2).trans hz
    have hop := ha op (by simp)
    have one : ∀ c c', Stored w c.ski c → Stored v c.ski c' → c' = c := by
      intro c c' h1 h2
      obtain ⟨i, g1, g2⟩ := stored_frame hfr h1
      obtain ⟨j, g3, g4⟩ := h2
      rw [g1] at g3; simp at g3; subst g3
      rw [g2] at g4; simp at g4; exact g4.symm
    have ht : TrustsNew env (AnchorKey env A v) u op := by
      cases op with
      | addCert c trust =>
        intro htr hn hwin c' hs
        unfold V.step at hw
        obtain ⟨⟨x, b⟩, hb, hx⟩ := Go.bind_eq_ok.mp hw
        simp only [Go.pure_def, Go.ok.injEq] at hx
        subst hx
        rw [one c c' (addCert_stored hi0.val hb hn) hs]
        exact ⟨hop htr, hwin⟩
      | addResource files fid data =>
        intro f c hf hty htr hc hk hn hwin c' hs
        unfold V.step at hw
        obtain ⟨⟨x, b⟩, hb, hx⟩ := Go.bind_eq_ok.mp hw
        simp only [Go.pure_def, Go.ok.injEq] at hx
        subst hx
        rw [one c c' (addResource_stored hi0 hb hf hty hc hk hn) hs]
        exact ⟨hop f c hf htr hc, hwin⟩
      | _ => trivial
    have hg := good_stepNew ht (all_roas env op) hw hi
    obtain ⟨h1, h2⟩ := ih w z (fun o ho => ha o (by simp [ho])) h hz hi1 hg.1
    exact ⟨h1, hg.2.trans h2⟩

end Verif.Pki
