import Verif.Lemmas.PkiStep
/-
  Where revocations come from and what they remove.
-/
set_option autoImplicit false

namespace Verif.Pki
open Net _root_.Verif.Cert Roa PkiSpec

theorem revoked_link (v : V) (c : Cert) (i : Nat) (b : Bool) : (v.link c i b).revoked = v.revoked := by
  unfold V.link
  split
  · split <;> rfl
  · rfl

theorem revoked_addCert {env : Env} {v : V} {c : Cert} {trust : Bool} {x : V × Added}
    (h : v.addCert env c trust = .ok x) : x.1.revoked = v.revoked := by
  obtain ⟨w, a⟩ := x
  obtain ⟨_, ⟨_, _, rfl, _⟩ | ⟨_, _, _, _, rfl⟩⟩ := addCert_ok h
  · rfl
  · show (V.link _ _ _ _).revoked = _
    rw [revoked_link]; rfl

theorem revoked_setFile (v : V) (r : Option Nat) (f : Nat) (t : Option FType) :
    (v.setFile r f t).revoked = v.revoked := by
  unfold V.setFile; split <;> rfl

theorem revoked_finish (v : V) (fid : Nat) (f : PKIFile) (a : Added) (files : List PKIFile) :
    (v.finish fid f a files).1.revoked = v.revoked := by
  unfold V.finish
  split
  · rfl
  · exact revoked_setFile _ _ _ _

theorem revoked_addROA {env : Env} {v : V} {file : Option Nat} {r : ROA} {x : V × Added}
    (h : v.addROA env file r = .ok x) : x.1.revoked = v.revoked := by
  unfold V.addROA at h
  obtain ⟨y, hy, h⟩ := Go.bind_eq_ok.mp h
  rw [← revoked_addCert hy]
  split at h
  · simp at h; subst h; rfl
  · simp at h; subst h; rfl

theorem revoked_addManifest {env : Env} {v : V} {file : Option Nat} {m : Mft} {x : V × Added}
    (h : v.addManifest env file m = .ok x) : x.1.revoked = v.revoked := by
  unfold V.addManifest at h
  split at h
  · obtain ⟨y, hy, h⟩ := Go.bind_eq_ok.mp h
    rw [← revoked_addCert hy]
    split at h
    · simp at h; subst h; rfl
    · simp at h; subst h; rfl
  · simp at h; subst h; rfl

theorem revoked_talCheck {v : V} {files : List PKIFile} {f : PKIFile} {c : Cert} {x : V × Bool}
    (h : v.talCheck files f c = .ok x) : x.1.revoked = v.revoked := by
  unfold V.talCheck at h
  split at h
  · split at h
    · split at h
      · split at h
        · split at h
          · obtain ⟨ok, _, h⟩ := Go.bind_eq_ok.mp h
            split at h <;> simp at h <;> subst h <;> rfl
          · simp at h
        · simp at h
      · simp at h; subst h; rfl
    · simp at h; subst h; rfl
  · simp at h; subst h; rfl

theorem revoked_addResourceCer {env : Env} {files : List PKIFile} {v : V} {fid : Nat} {f : PKIFile} {c : Cert}
    {x : V × Added} (h : v.addResourceCer env files fid f c = .ok x) : x.1.revoked = v.revoked := by
  unfold V.addResourceCer at h
  obtain ⟨t, ht, h⟩ := Go.bind_eq_ok.mp h
  rw [← revoked_talCheck ht]
  split at h
  · obtain ⟨y, hy, h⟩ := Go.bind_eq_ok.mp h
    rw [← revoked_addCert hy]
    split at h
    · simp at h; subst h; exact revoked_setFile _ _ _ _
    · simp at h; subst h; exact revoked_setFile _ _ _ _
  · simp at h; subst h; rfl

/-- A step that offers a CRL adds it. -/
theorem step_offersCRL {env : Env} {v w : V} {op : Op} {l : Pki.CRL} (hop : OffersCRL env l op)
    (h : v.step env op = .ok w) : ∃ x, v.addCRL env l = .ok x ∧ w.revoked = x.1.revoked ∧
      w.validObjects = x.1.validObjects := by
  cases op with
  | addCRL l' =>
    simp only [OffersCRL] at hop
    subst hop
    unfold V.step at h
    obtain ⟨x, hx, h⟩ := Go.bind_eq_ok.mp h
    simp only [Go.pure_def, Go.ok.injEq] at h
    subst h
    exact ⟨x, hx, rfl, rfl⟩
  | addResource files fid data =>
    obtain ⟨⟨f, hf, ht⟩, hp⟩ := hop
    unfold V.step V.addResource at h
    simp only [hf, ht, hp] at h
    obtain ⟨y, hy, h⟩ := Go.bind_eq_ok.mp h
    simp only [Go.pure_def, Go.ok.injEq] at h
    subst h
    unfold V.addResourceCRL at hy
    obtain ⟨x, hx, hy⟩ := Go.bind_eq_ok.mp hy
    refine ⟨x, hx, ?_⟩
    split at hy
    · simp at hy
    · obtain ⟨m, _, hy⟩ := Go.bind_eq_ok.mp hy
      split at hy
      · simp only [Go.pure_def, Go.ok.injEq] at hy
        subst hy; exact ⟨rfl, rfl⟩
      · simp only [Go.pure_def, Go.ok.injEq] at hy
        subst hy
        unfold V.finish V.setFile
        split
        · exact ⟨rfl, rfl⟩
        · exact ⟨rfl, rfl⟩
  | _ => simp [OffersCRL] at hop

/-- The loop over revoked serials: what it adds to the revocation table. -/
theorem revokeLoop_revoked (aki : Bytes) : ∀ (l : List Int) (v v' : V), revokeLoop aki l v = .ok v' →
    ∀ key, (v'.revoked.get key).isSome = true →
      (v.revoked.get key).isSome = true ∨ ∃ s ∈ l, key = serialKey aki s := by
  intro l
  induction l with
  | nil => intro v v' h key hk; simp [revokeLoop] at h; subst h; exact .inl hk
  | cons s rest ih =>
    intro v v' h key hk
    unfold revokeLoop at h
    obtain ⟨v1, h1, h⟩ := Go.bind_eq_ok.mp h
    rcases ih _ _ h key hk with hh | ⟨t, ht, hh⟩
    · simp only [Map.get_set] at hh
      split at hh
      · exact .inr ⟨s, by simp, by assumption⟩
      · left
        rcases revokeOne_cases h1 with rfl | ⟨_, _, _, _, _, h1⟩
        · exact hh
        · rw [(invalidateObject_spec h1).1.revoked] at hh; exact hh
    · exact .inr ⟨t, by simp [ht], hh⟩

/-- Only accepted CRLs revoke. -/
theorem step_revoked {env : Env} {v w : V} {op : Op} (h : v.step env op = .ok w) (key : Bytes)
    (hk : (w.revoked.get key).isSome = true) : (v.revoked.get key).isSome = true ∨
      ∃ l x, OffersCRL env l op ∧ v.addCRL env l = .ok x ∧ x.2.valid = true ∧
        ∃ s ∈ l.revoked, key = serialKey l.aki s := by
  have hcrl : ∀ l, OffersCRL env l op → (v.revoked.get key).isSome = true ∨
      ∃ l x, OffersCRL env l op ∧ v.addCRL env l = .ok x ∧ x.2.valid = true ∧
        ∃ s ∈ l.revoked, key = serialKey l.aki s := by
    intro l hl
    obtain ⟨⟨w', a⟩, hx, hr, _⟩ := step_offersCRL hl h
    rw [hr] at hk
    obtain ⟨_, _, _, ⟨_, _, rfl⟩ | ⟨i, p, c, v2, _, _, _, _, hv, hloop, rfl⟩⟩ := addCRL_ok hx
    · exact .inl hk
    · rcases revokeLoop_revoked _ _ _ _ hloop key hk with hh | hh
      · exact .inl hh
      · exact .inr ⟨l, _, hl, hx, hv, hh⟩
  cases op with
  | addTAL t => simp [V.step] at h; subst h; exact .inl hk
  | addCert c trust =>
    obtain ⟨y, hy, h⟩ := Go.bind_eq_ok.mp h
    simp at h; subst h
    exact .inl (revoked_addCert hy ▸ hk)
  | addROA f r =>
    obtain ⟨y, hy, h⟩ := Go.bind_eq_ok.mp h
    simp at h; subst h
    exact .inl (revoked_addROA hy ▸ hk)
  | addManifest f m =>
    obtain ⟨y, hy, h⟩ := Go.bind_eq_ok.mp h
    simp at h; subst h
    exact .inl (revoked_addManifest hy ▸ hk)
  | addCRL l => exact hcrl l rfl
  | invalidate k =>
    left
    rw [(invalidateObject_spec h).1.revoked] at hk
    exact hk
  | addResource files fid data =>
    by_cases hc : ∃ f l, files[fid]? = some f ∧ f.type = .crl ∧ env.parseCRL data = .ok l
    · obtain ⟨f, l, h1, h2, h3⟩ := hc
      exact hcrl l ⟨⟨f, h1, h2⟩, h3⟩
    · left
      obtain ⟨y, hy, h⟩ := Go.bind_eq_ok.mp h
      simp at h; subst h
      suffices hs : y.1.revoked = v.revoked by rw [← hs]; exact hk
      unfold V.addResource at hy
      split at hy
      · simp at hy
      · rename_i f hf
        split at hy
        · split at hy
          · simp at hy; subst hy; exact revoked_setFile _ _ _ _
          · simp at hy; subst hy; rfl
          · simp at hy
          · simp at hy
        · split at hy
          · exact revoked_addResourceCer hy
          · simp at hy; subst hy; rfl
          · simp at hy
          · simp at hy
        · split at hy
          · obtain ⟨z, hz, hy⟩ := Go.bind_eq_ok.mp hy
            simp at hy; subst hy
            rw [revoked_finish]; exact revoked_addROA hz
          · simp at hy; subst hy; rfl
          · simp at hy
          · simp at hy
        · split at hy
          · obtain ⟨z, hz, hy⟩ := Go.bind_eq_ok.mp hy
            simp at hy; subst hy
            rw [revoked_finish]; exact revoked_addManifest hz
          · simp at hy; subst hy; rfl
          · simp at hy
          · simp at hy
        · rename_i ht
          split at hy
          · rename_i l hl; exact (hc ⟨f, l, hf, ht, hl⟩).elim
          · simp at hy; subst hy; rfl
          · simp at hy
          · simp at hy
        · simp at hy; subst hy; rfl

/-- Every revocation in the table comes from an accepted CRL of the history. -/
theorem revoked_from {env : Env} (key : Bytes) : ∀ (n : Nat) (ops : List Op) (v : V), ops.length = n →
    V.run env V.new ops = .ok v → (v.revoked.get key).isSome = true →
    ∃ aki s, RevokedIn env ops aki s ∧ key = serialKey aki s := by
  intro n
  induction n with
  | zero =>
    intro ops v hl h hk
    have : ops = [] := List.eq_nil_of_length_eq_zero hl
    subst this
    simp [V.run] at h
    subst h
    simp [V.new, Map.get_nil] at hk
  | succ n ih =>
    intro ops v hl h hk
    obtain ⟨pre, op, rfl⟩ : ∃ pre op, ops = pre ++ [op] := by
      have hne : ops ≠ [] := by rintro rfl; simp at hl
      exact ⟨ops.dropLast, ops.getLast hne, (List.dropLast_concat_getLast hne).symm⟩
    obtain ⟨w, hw, hop⟩ := (run_append pre [op] V.new v).mp h
    have hop : w.step env op = .ok v := by
      unfold V.run at hop
      obtain ⟨w', hop', he⟩ := Go.bind_eq_ok.mp hop
      simp only [V.run, Go.ok.injEq] at he
      rw [hop', he]
    rcases step_revoked hop key hk with hh | ⟨l, x, h1, h2, h3, s, h4, h5⟩
    · obtain ⟨aki, s, ⟨p, o, q, l, v0, v1, a, rfl, hh⟩, hkey⟩ := ih pre w (by simp at hl; exact hl) hw hh
      exact ⟨aki, s, ⟨p, o, q ++ [op], l, v0, v1, a, by simp, hh⟩, hkey⟩
    · exact ⟨l.aki, s, ⟨pre, op, [], l, w, x.1, x.2, rfl, hw, h1, h2, h3, rfl, h4⟩, h5⟩

/-! ### What a CRL removes -/

/-- The loop only removes. -/
theorem revokeLoop_shrinks (aki : Bytes) : ∀ (l : List Int) (v v' : V), revokeLoop aki l v = .ok v' →
    ∀ x j, v'.validObjects.get x = some j → v.validObjects.get x = some j := by
  intro l
  induction l with
  | nil => intro v v' h x j hj; simp [revokeLoop] at h; subst h; exact hj
  | cons s rest ih =>
    intro v v' h x j hj
    unfold revokeLoop at h
    obtain ⟨v1, h1, h⟩ := Go.bind_eq_ok.mp h
    have := ih _ _ h x j hj
    change v1.validObjects.get x = some j at this
    rcases revokeOne_cases h1 with rfl | ⟨_, c, _, _, _, h1⟩
    · exact this
    · obtain ⟨_, hr, hn⟩ := invalidateObject_spec h1
      by_cases hx : Reach v c.ski x
      · rw [(hr x hx).1] at this; simp at this
      · rw [(hn x hx).1] at this; exact this

/-- The loop removes what the serial table points to. -/
theorem revokeLoop_removes (aki : Bytes) : ∀ (l : List Int) (v v' : V), revokeLoop aki l v = .ok v' →
    ∀ s ∈ l, ∀ i c, v.certsSerial.get (serialKey aki s) = some i → v.certOf i = some c → c.serial = s →
      v'.validObjects.get c.ski = none := by
  intro l
  induction l with
  | nil => intro v v' _ s hs; simp at hs
  | cons s0 rest ih =>
    intro v v' h s hs i c hi hc hser
    unfold revokeLoop at h
    obtain ⟨v1, h1, h⟩ := Go.bind_eq_ok.mp h
    rcases List.mem_cons.mp hs with rfl | hs
    · have h1' := h1
      unfold V.revokeOne at h1'
      rw [hi] at h1'
      simp only [hc, hser, if_true] at h1'
      have hnone := ((invalidateObject_spec h1').2.1 c.ski .self).1
      cases hv : v'.validObjects.get c.ski with
      | none => rfl
      | some j =>
        have := revokeLoop_shrinks _ _ _ _ h c.ski j hv
        change v1.validObjects.get c.ski = some j at this
        rw [hnone] at this; simp at this
    · have hsame : v1.certsSerial = v.certsSerial ∧ v1.heap = v.heap := by
        rcases revokeOne_cases h1 with rfl | ⟨_, _, _, _, _, h1⟩
        · exact ⟨rfl, rfl⟩
        · exact ⟨(invalidateObject_spec h1).1.certsSerial, (invalidateObject_spec h1).1.heap⟩
      refine ih _ _ h s hs i c ?_ ?_ hser
      · show v1.certsSerial.get _ = _
        rw [hsame.1]; exact hi
      · show v1.certOf i = some c
        unfold V.certOf; rw [hsame.2]; exact hc

/-- The loop removes only what is reached from certificates of that issuer with a listed serial. -/
theorem revokeLoop_isolated (aki : Bytes) : ∀ (l : List Int) (v v' : V), revokeLoop aki l v = .ok v' →
    ∀ x j, v.validObjects.get x = some j → v'.validObjects.get x = none →
      ∃ s ∈ l, ∃ i c, v.certsSerial.get (serialKey aki s) = some i ∧ v.certOf i = some c ∧ c.serial = s ∧
        Reach v c.ski x := by
  intro l
  induction l with
  | nil => intro v v' h x j hj hn; simp [revokeLoop] at h; subst h; rw [hj] at hn; simp at hn
  | cons s0 rest ih =>
    intro v v' h x j hj hn
    unfold revokeLoop at h
    obtain ⟨v1, h1, h⟩ := Go.bind_eq_ok.mp h
    have hsame : v1.certsSerial = v.certsSerial ∧ v1.heap = v.heap ∧ v1.objects = v.objects := by
      rcases revokeOne_cases h1 with rfl | ⟨_, _, _, _, _, h1⟩
      · exact ⟨rfl, rfl, rfl⟩
      · have hs := (invalidateObject_spec h1).1
        exact ⟨hs.certsSerial, hs.heap, hs.objects⟩
    cases hv1 : v1.validObjects.get x with
    | none =>
      rcases revokeOne_cases h1 with rfl | ⟨i, c, g1, g2, g3, h1⟩
      · rw [hj] at hv1; simp at hv1
      · refine ⟨s0, by simp, i, c, g1, g2, g3, ?_⟩
        apply Classical.byContradiction
        intro hx
        rw [((invalidateObject_spec h1).2.2 x hx).1, hj] at hv1
        simp at hv1
    | some j' =>
      obtain ⟨s, hs, i, c, g1, g2, g3, g4⟩ := ih _ _ h x j' hv1 hn
      refine ⟨s, by simp [hs], i, c, ?_, ?_, g3, ?_⟩
      · change v1.certsSerial.get _ = _ at g1
        rw [← hsame.1]; exact g1
      · change v1.certOf i = some c at g2
        unfold V.certOf at g2 ⊢; rw [← hsame.2.1]; exact g2
      · have hch : ∀ k, ({ v1 with revoked := v1.revoked.set (serialKey aki s0) true } : V).childIds k = v.childIds k := by
          intro k
          unfold V.childIds
          simp only [hsame.2.2, hsame.2.1]
        clear g1 g2 hv1 hj hn h ih
        induction g4 with
        | self => exact .self
        | step a b _ hb ih' => exact .step a b ih' (by rw [← hch]; exact hb)

/-- The call never returns an error. -/
def NoErr {α : Type} (x : Go α) : Prop := ∀ m, x ≠ .err m

theorem NoErr.bind {α β : Type} {x : Go α} {f : α → Go β} (hx : NoErr x) (hf : ∀ a, NoErr (f a)) :
    NoErr (x >>= f) := by
  intro m h
  cases x with
  | ok a => exact hf a m h
  | err n => exact hx n rfl
  | panic => simp at h
  | diverge => simp at h

theorem noErr_isIPInRange (i : IPInfo) (ip : Bytes) : NoErr (i.isIPInRange ip) := by
  intro m h
  unfold IPInfo.isIPInRange at h
  repeat' split at h
  all_goals simp at h

theorem noErr_isIPRangeInCertificate : ∀ (l : List IPInfo) (a b : Bytes), NoErr (isIPRangeInCertificate l a b) := by
  intro l
  induction l with
  | nil => intro a b m h; simp [isIPRangeInCertificate] at h
  | cons i rest ih =>
    intro a b
    unfold isIPRangeInCertificate
    refine (noErr_isIPInRange i a).bind (fun x => (noErr_isIPInRange i b).bind (fun y => ?_))
    intro m h
    split at h
    · simp at h
    · split at h
      · simp at h
      · exact ih a b m h

theorem noErr_classifyIP (l : List IPInfo) (e : IPInfo) : NoErr (classifyIP l e) := by
  unfold classifyIP
  refine NoErr.bind ?_ (fun r => ?_)
  · intro m h
    unfold IPInfo.getRange at h
    repeat' split at h
    all_goals simp at h
  · split
    · intro m h; simp at h
    · refine (noErr_isIPRangeInCertificate _ _ _).bind (fun v => ?_)
      intro m h
      repeat' split at h
      all_goals simp at h

theorem noErr_splitFrom {α : Type} {f : α → Go Verdict} (hf : ∀ a, NoErr (f a)) : ∀ (l : List α) (s : Split α),
    NoErr (splitFrom f s l) := by
  intro l
  induction l with
  | nil => intro s m h; simp [splitFrom] at h
  | cons a rest ih => intro s; exact (hf a).bind (fun v => ih _)

theorem chainLoop_err {α : Type} {v : V} {p : Cert} {f : List α → Cert → Go (Split α)}
    (hf : ∀ l c, NoErr (f l c)) : ∀ (n : Nat) (ch : Option Nat) (s : Split α) (m : String),
    chainLoop v p f n ch s = .err m → m = "parent: ancestor is missing" ∨ m = "parent: ancestor is not a rpki certificate" := by
  intro n
  induction n with
  | zero => intro ch s m h; simp [chainLoop] at h
  | succ n ih =>
    intro ch s m h
    cases ch with
    | none => simp [chainLoop] at h
    | some c =>
      unfold chainLoop at h
      split at h
      · simp at h
      · split at h
        · simp at h; exact .inl h.symm
        · split at h
          · simp at h; exact .inr h.symm
          · rename_i upper _
            cases hx : f s.checkParents upper with
            | ok t => rw [hx] at h; exact ih _ _ _ h
            | err k => exact (hf _ _ _ hx).elim
            | panic => rw [hx] at h; simp at h
            | diverge => rw [hx] at h; simp at h

/-- The error "revocation" comes from the revocation table. -/
theorem revocation_error {env : Env} {v : V} {c : Cert}
    (h : v.validateCertificate env c false = .err "revocation") :
    (v.revoked.get (serialKey c.aki c.serial)).isSome = true := by
  unfold V.validateCertificate at h
  split at h
  · simp only [Bool.false_eq_true, if_false] at h
    split at h
    · simp at h
    · split at h
      · simp at h
      · split at h
        · simp at h
        · split at h
          · assumption
          · exfalso
            rename_i _ p _ _ pc _ _ _
            have hip : ∀ l c, NoErr (validateIPCertificateList l (Cert.ips c)) :=
              fun l c => noErr_splitFrom (noErr_classifyIP _) l _
            have has : ∀ l c, NoErr (validateASNCertificateList l (Cert.asns c)) :=
              fun l c => noErr_splitFrom (fun a m h => by simp at h) l _
            cases h1 : validateIPCertificateList c.ips pc.ips with
            | ok ips =>
              rw [h1] at h
              simp only [Go.ok_bind] at h
              cases h2 : chainLoop v pc (fun l c => validateIPCertificateList l c.ips) (v.heap.length + 1) (v.parentOf p) ips with
              | ok ips' =>
                rw [h2] at h
                simp only [Go.ok_bind] at h
                cases h3 : validateASNCertificateList c.asns pc.asns with
                | ok asns =>
                  rw [h3] at h
                  simp only [Go.ok_bind] at h
                  cases h4 : chainLoop v pc (fun l c => validateASNCertificateList l c.asns) (v.heap.length + 1) (v.parentOf p) asns with
                  | ok asns' =>
                    rw [h4] at h
                    simp only [Go.ok_bind] at h
                    split at h <;> simp at h
                  | err m =>
                    rw [h4] at h; simp at h; subst h
                    rcases chainLoop_err has _ _ _ _ h4 with hh | hh <;> simp at hh
                  | panic => rw [h4] at h; simp at h
                  | diverge => rw [h4] at h; simp at h
                | err m => exact has _ pc _ h3
                | panic => rw [h3] at h; simp at h
                | diverge => rw [h3] at h; simp at h
              | err m =>
                rw [h2] at h; simp at h; subst h
                rcases chainLoop_err hip _ _ _ _ h2 with hh | hh <;> simp at hh
              | panic => rw [h2] at h; simp at h
              | diverge => rw [h2] at h; simp at h
            | err m => exact hip _ pc _ h1
            | panic => rw [h1] at h; simp at h
            | diverge => rw [h1] at h; simp at h
  · simp at h

end Verif.Pki
