import Verif.Lemmas.ManagerStrict
import Verif.Spec.Report
/-
  Lemmas for the reports of an exploration.
-/
set_option autoImplicit false

namespace Verif.Manager
open Pki PkiSpec ManagerSpec ReportSpec Roa ResSpec

/-! ### With and without reports -/

/-- The first component is the outcome without reports. -/
def Agrees {β : Type} (x : Go (M × β)) (y : Go M) : Prop := (x >>= fun p => Go.ok p.1) = y

theorem agrees_bind {β γ : Type} {x : Go (M × β)} {y : Go M} (h : Agrees x y) {f : M × β → Go (M × γ)} {g : M → Go M}
    (hf : ∀ p, Agrees (f p) (g p.1)) : Agrees (x >>= f) (y >>= g) := by
  unfold Agrees at h ⊢
  subst h
  cases x with
  | ok p => have := hf p; unfold Agrees at this; simpa using this
  | err m => rfl
  | panic => rfl
  | diverge => rfl

theorem agrees_map {β γ : Type} {x : Go (M × β)} {y : Go M} (h : Agrees x y) (f : M × β → γ) :
    Agrees (x >>= fun p => Go.ok (p.1, f p)) y := by
  unfold Agrees at h ⊢
  subst h
  cases x <;> rfl

theorem agrees_logged (cfg : Cfg) (m : M) : Agrees (logged cfg m >>= fun m1 => Go.ok (m1, ([] : List Report))) (logged cfg m) := by
  unfold Agrees logged
  split <;> rfl

theorem agrees_exploreAdd (rep : Bool) (cfg : Cfg) (W : World) (m : M) (fid : Nat) (data : Bytes) (sha : Option Bytes) (ai : Bool) :
    Agrees (m.exploreAddR rep cfg W fid data sha ai) (m.exploreAdd W fid data sha ai) := by
  unfold M.exploreAddR M.exploreAdd Agrees
  cases m.v.addResource W.env m.files fid data with
  | ok a =>
    simp only [Go.ok_bind]
    split <;> rfl
  | err _ => rfl
  | panic => rfl
  | diverge => rfl

theorem agrees_invalidateRes (rep : Bool) (cfg : Cfg) (m : M) (res : Option Nat) (r : Report) :
    Agrees (m.invalidateResR rep cfg res r) (m.invalidateRes cfg res) := by
  unfold M.invalidateResR M.invalidateRes
  cases res with
  | none => exact agrees_logged cfg m
  | some i =>
    cases hc : m.v.certOf i with
    | none => simp only [hc]; exact agrees_logged cfg m
    | some c =>
      simp only [hc]
      unfold Agrees
      cases m.v.invalidateObject c.ski <;> rfl

theorem agrees_manifestParent (rep : Bool) (cfg : Cfg) (m : M) (fid : Nat) (f : PKIFile) :
    Agrees (m.invalidateManifestParentR rep cfg fid f) (m.invalidateManifestParent cfg f) := by
  unfold M.invalidateManifestParentR M.invalidateManifestParent
  rcases hx : m.grandCer f .mft with _ | ⟨g, gf⟩
  · simp only [hx]; rfl
  · simp only [hx]; exact agrees_invalidateRes _ _ _ _ _

theorem agrees_crlParent (rep : Bool) (cfg : Cfg) (m : M) (fid : Nat) (f : PKIFile) :
    Agrees (m.invalidateCRLParentR rep cfg fid f) (m.invalidateCRLParent cfg f) := by
  unfold M.invalidateCRLParentR M.invalidateCRLParent
  rcases hx : m.grandCer f .crl with _ | ⟨g, gf⟩
  · simp only [hx]; rfl
  · simp only [hx]; exact agrees_invalidateRes _ _ _ _ _

theorem agrees_expired (rep : Bool) (cfg : Cfg) (W : World) (m : M) (fid : Nat) (f : PKIFile) :
    Agrees (m.checkExpiredR rep cfg W fid f) (m.checkExpired cfg W f) := by
  unfold M.checkExpiredR M.checkExpired
  cases h1 : f.parent with
  | none => rfl
  | some p =>
    cases h2 : m.files[p]? with
    | none => simp only [h2]; rfl
    | some pf =>
      simp only [h2]
      by_cases h3 : pf.type = .mft
      · rw [if_pos h3, if_pos h3]
        cases h4 : (m.resOf.lookup p).bind id with
        | none => simp only [h4]; exact agrees_logged cfg m
        | some r =>
          cases h5 : m.v.heap[r]? with
          | none => simp only [h4, h5]; exact agrees_logged cfg m
          | some res =>
            simp only [h4, h5]
            cases h6 : res.data with
            | mft c =>
              simp only []
              by_cases h7 : W.now1 m.clock > c.nextUpdate ∨ W.now2 m.clock < c.thisUpdate
              · rw [if_pos h7, if_pos h7]; exact agrees_manifestParent _ _ _ _ _
              · rw [if_neg h7, if_neg h7]; rfl
            | _ => exact agrees_logged cfg m
      · rw [if_neg h3, if_neg h3]; rfl

/-- The check of the hash, with and without reports. -/
theorem checkHash_agrees (rep : Bool) (cfg : Cfg) (W : World) (m : M) (fid : Nat) (f : PKIFile) (r : Fetch) (e : Report) :
    (m.checkHashR rep cfg W fid f r e >>= fun x => Go.ok (x.1, x.2.1)) = m.checkHash cfg W f r := by
  unfold M.checkHashR M.checkHash
  cases r with
  | fail => rfl
  | absent => rfl
  | found data sha =>
    cases sha with
    | none => rfl
    | some sha =>
      cases h1 : f.manifestHash with
      | none => simp only [h1]; rfl
      | some h =>
        simp only [h1]
        by_cases h2 : cfg.strictHash = true
        · rw [if_pos h2, if_pos h2]
          have := agrees_expired rep cfg W m fid f
          unfold Agrees at this
          rw [← this]
          cases m.checkExpiredR rep cfg W fid f with
          | ok x => simp only [Go.ok_bind]; by_cases h3 : sha ≠ h <;> simp [h3]
          | err _ => rfl
          | panic => rfl
          | diverge => rfl
        · rw [if_neg h2, if_neg h2]; rfl

theorem agrees_strict (rep : Bool) (cfg : Cfg) (m : M) (fid : Nat) (f : PKIFile) :
    Agrees (m.strictR rep cfg fid f) (m.strict cfg f) := by
  unfold M.strictR M.strict
  by_cases h : cfg.strictManifests = true
  · rw [if_pos h, if_pos h]; exact agrees_manifestParent _ _ _ _ _
  · rw [if_neg h, if_neg h]; rfl

theorem agrees_useAnswer (rep : Bool) (cfg : Cfg) (W : World) (m : M) (fid : Nat) (f : PKIFile) (r : Fetch) (e : Report) :
    Agrees (m.useAnswerR rep cfg W fid f r e) (m.useAnswer cfg W fid f r) := by
  unfold M.useAnswerR M.useAnswer
  cases r with
  | fail => exact agrees_bind (agrees_strict rep cfg m fid f) (fun p => agrees_map (agrees_crlParent rep cfg p.1 fid f) _)
  | absent => exact agrees_strict rep cfg m fid f
  | found data sha => exact agrees_exploreAdd _ _ _ _ _ _ _ _

theorem agrees_runCalls (rep : Bool) (cfg : Cfg) (W : World) (fid : Nat) : ∀ (cs : List Call) (m : M),
    Agrees (runCallsR rep cfg W fid cs m) (runCalls W fid cs m) := by
  intro cs
  induction cs with
  | nil => intro m; rfl
  | cons c rest ih =>
    intro m
    unfold runCallsR runCalls
    exact agrees_bind (agrees_exploreAdd rep cfg W _ _ _ _ _) (fun p => agrees_map (ih p.1) _)

theorem agrees_repo (rep : Bool) (cfg : Cfg) (W : World) (m : M) (fid : Nat) (f : PKIFile) :
    Agrees (m.exploreRepoR rep cfg W fid f) (m.exploreRepo cfg W fid f) := by
  unfold M.exploreRepoR M.exploreRepo M.getNextRepository
  by_cases h1 : f.repo ∈ m.explored
  · rw [if_pos h1, if_pos (.inl h1)]; rfl
  · rw [if_neg h1]
    by_cases h2 : cfg.hasSeeker = false
    · rw [if_pos h2, if_pos (.inr h2)]; rfl
    · rw [if_neg h2, if_neg (show ¬ (f.repo ∈ m.explored ∨ cfg.hasSeeker = false) by simp [h1, h2])]
      have := agrees_runCalls rep cfg W fid (W.getRepository m.clock f).1 m
      unfold Agrees at this ⊢
      rw [← this]
      cases runCallsR rep cfg W fid (W.getRepository m.clock f).1 m <;> rfl

theorem agrees_handle (rep : Bool) (cfg : Cfg) (W : World) (m : M) (fid : Nat) (f : PKIFile) :
    Agrees (m.handleR rep cfg W fid f) (m.handle cfg W fid f) := by
  unfold M.handleR M.handle
  by_cases hb : cfg.notMFT = false ∨ f.type ≠ .mft
  · rw [if_pos hb, if_pos hb]
    simp only []
    rw [← checkHash_agrees rep cfg W _ fid f _ (m.fetchError cfg fid)]
    cases (m.getNextFile cfg W fid f).1.checkHashR rep cfg W fid f (m.getNextFile cfg W fid f).2 (m.fetchError cfg fid) with
    | ok x => simp only [Go.ok_bind]; exact agrees_map (agrees_useAnswer _ _ _ _ _ _ _ _) _
    | err _ => rfl
    | panic => rfl
    | diverge => rfl
  · rw [if_neg hb, if_neg hb]; exact agrees_repo _ _ _ _ _ _

theorem agrees_step (rep : Bool) (cfg : Cfg) (W : World) (m : M) :
    Agrees (m.exploreStepR rep cfg W) (m.exploreStep cfg W) := by
  unfold M.exploreStepR M.exploreStep
  cases hq : m.queue with
  | nil => rfl
  | cons fid rest =>
    cases hf : m.files[fid]? with
    | none => simp only [hf]; rfl
    | some f =>
      have := agrees_handle rep cfg W { m with queue := rest, trace := m.trace ++ [.taken fid] } fid f
      unfold Agrees at this ⊢
      simp only [hf]
      rw [← this]
      cases M.handleR rep cfg W { m with queue := rest, trace := m.trace ++ [.taken fid] } fid f <;> rfl

/-! ### Reasons -/

theorem classifyIP_ne (p : List Cert.IPInfo) (e : Cert.IPInfo) (m : String) : Cert.classifyIP p e ≠ .err m := by
  have hin : ∀ (x : Cert.IPInfo) (ip : Bytes) (m : String), x.isIPInRange ip ≠ .err m := by
    intro x ip m
    unfold Cert.IPInfo.isIPInRange
    repeat' split
    all_goals simp
  have hc : ∀ (l : List Cert.IPInfo) (a b : Bytes) (m : String), Cert.isIPRangeInCertificate l a b ≠ .err m := by
    intro l a b m
    induction l with
    | nil => simp [Cert.isIPRangeInCertificate]
    | cons x rest ih =>
      unfold Cert.isIPRangeInCertificate
      cases h1 : x.isIPInRange a with
      | err m => exact (hin _ _ _ h1).elim
      | panic => simp
      | diverge => simp
      | ok r =>
        cases h2 : x.isIPInRange b with
        | err m => exact (hin _ _ _ h2).elim
        | panic => simp
        | diverge => simp
        | ok r' =>
          simp only [Go.ok_bind]
          split
          · simp
          · split
            · simp
            · exact ih
  have hg : ∀ m, e.getRange ≠ .err m := by
    intro m
    unfold Cert.IPInfo.getRange
    repeat' split
    all_goals simp
  unfold Cert.classifyIP
  cases h1 : e.getRange with
  | err m => exact (hg _ h1).elim
  | panic => simp
  | diverge => simp
  | ok r =>
    simp only [Go.ok_bind]
    split
    · simp
    · cases h2 : Cert.isIPRangeInCertificate p r.1 r.2.1 with
      | err m => exact (hc _ _ _ _ h2).elim
      | panic => simp
      | diverge => simp
      | ok r' =>
        simp only [Go.ok_bind]
        repeat' split
        all_goals simp

theorem splitFrom_ne {α : Type} {cl : α → Go Cert.Verdict} (hcl : ∀ a m, cl a ≠ .err m) : ∀ (l : List α) (s : Cert.Split α) (m : String),
    Cert.splitFrom cl s l ≠ .err m := by
  intro l
  induction l with
  | nil => intro s m; simp [Cert.splitFrom]
  | cons a rest ih =>
    intro s m
    unfold Cert.splitFrom
    cases h : cl a with
    | err m => exact (hcl _ _ h).elim
    | panic => simp
    | diverge => simp
    | ok v => simp only [Go.ok_bind]; exact ih _ _

theorem chainLoop_err {α : Type} {v : V} {pc : Cert} {cl : Cert → α → Go Cert.Verdict} (hcl : ∀ c a m, cl c a ≠ .err m) {m : String} :
    ∀ (n : Nat) (chain : Option Nat) (s : Cert.Split α),
    chainLoop v pc (fun l c => Cert.splitFrom (cl c) ⟨[], [], []⟩ l) n chain s = .err m →
    kindOfText m = .parent ∧ ∀ q, ¬ IsValid v pc.aki q := by
  intro n
  induction n with
  | zero => intro chain s h; simp [chainLoop] at h
  | succ n ih =>
    intro chain s h
    cases chain with
    | none => simp [chainLoop] at h
    | some c =>
      unfold chainLoop at h
      split at h
      · simp at h
      · split at h
        · rename_i hu
          simp only [Go.err.injEq] at h
          subst h
          refine ⟨by decide, ?_⟩
          rintro q ⟨i, h1, _⟩
          rw [hu] at h1; simp at h1
        · rename_i u hu
          split at h
          · rename_i hc
            simp only [Go.err.injEq] at h
            subst h
            refine ⟨by decide, ?_⟩
            rintro q ⟨i, h1, h2⟩
            rw [hu] at h1; simp at h1; subst h1
            rw [hc] at h2; simp at h2
          · rename_i gc hgc
            cases hs : Cert.splitFrom (cl gc) ⟨[], [], []⟩ s.checkParents with
            | err m => exact (splitFrom_ne (hcl gc) _ _ _ hs).elim
            | panic => rw [hs] at h; simp at h
            | diverge => rw [hs] at h; simp at h
            | ok r => rw [hs] at h; exact ih _ _ h

theorem chainLoop_outside {α : Type} {v : V} {pc : Cert} {cl : Cert → α → Go Cert.Verdict} {e : α} :
    ∀ (n : Nat) (chain : Option Nat) (s t : Cert.Split α),
    chainLoop v pc (fun l c => Cert.splitFrom (cl c) ⟨[], [], []⟩ l) n chain s = .ok t → e ∈ t.invalids →
    e ∈ s.invalids ∨ (e ∈ s.checkParents ∧ ∃ q, IsValid v pc.aki q ∧ cl q e = .ok .invalid) := by
  intro n
  induction n with
  | zero => intro chain s t h; simp [chainLoop] at h
  | succ n ih =>
    intro chain s t h he
    cases chain with
    | none => simp [chainLoop] at h; subst h; exact .inl he
    | some c =>
      unfold chainLoop at h
      split at h
      · simp at h; subst h; exact .inl he
      · split at h
        · simp at h
        · rename_i u hu
          split at h
          · simp at h
          · rename_i gc hgc
            obtain ⟨r, hr, h⟩ := Go.bind_eq_ok.mp h
            obtain ⟨_, _, g2, g3⟩ := splitFrom_filter hr
            rcases ih _ _ _ h he with h1 | ⟨h1, q, h2, h3⟩
            · rcases List.mem_append.mp h1 with h1 | h1
              · exact .inl h1
              · rw [g2] at h1
                simp at h1
                exact .inr ⟨h1.1, gc, ⟨u, hu, hgc⟩, h1.2⟩
            · rw [g3] at h1
              simp at h1
              exact .inr ⟨h1.1, q, h2, h3⟩

theorem outsideIP_of {q : Cert} {e : Cert.IPInfo} (h : clIP q e = .ok .invalid) : OutsideIP q e := by
  unfold clIP at h
  simp [OutsideIP, Cert.validateIPCertificateList, Cert.splitFrom, h, Cert.Split.add]

theorem outsideAS_of {q : Cert} {e : Cert.ASInfo} (h : clAS q e = .ok .invalid) : OutsideAS q e := by
  unfold clAS at h
  simp only [Go.ok.injEq] at h
  simp [OutsideAS, Cert.validateASNCertificateList, Cert.splitFrom, h, Cert.Split.add]

/-- What an error of `AddCert` claims about the certificate. -/
def CertReason (env : Env) (v : V) (c : Cert) : Kind → Prop
  | .expiration => ¬ (c.notBefore ≤ env.now ∧ env.now ≤ c.notAfter)
  | .conflict => v.objects.get c.ski ≠ none
  | .parent => (∀ p, IsValid v c.aki p → env.checkSig c p = false) ∨ ∃ p, IsValid v c.aki p ∧ ∀ q, ¬ IsValid v p.aki q
  | .revocation => v.revoked.get (serialKey c.aki c.serial) ≠ none
  | .resource => ∃ p q, IsValid v c.aki p ∧ (q = p ∨ IsValid v p.aki q) ∧
      ((∃ e ∈ c.ips, OutsideIP q e) ∨ ∃ e ∈ c.asns, OutsideAS q e)
  | _ => False

theorem validate_err {env : Env} {v : V} {c : Cert} {trust : Bool} {m : String}
    (h : v.validateCertificate env c trust = .err m) : CertReason env v c (kindOfText m) := by
  unfold V.validateCertificate at h
  split at h
  · split at h
    · simp at h
    · split at h
      · rename_i hn
        simp only [Go.err.injEq] at h
        subst h
        refine .inl ?_
        rintro p ⟨i, h1, _⟩
        rw [hn] at h1; simp at h1
      · rename_i p hp
        split at h
        · rename_i hc
          simp only [Go.err.injEq] at h
          subst h
          refine .inl ?_
          rintro q ⟨i, h1, h2⟩
          rw [hp] at h1; simp at h1; subst h1
          rw [hc] at h2; simp at h2
        · rename_i pc hpc
          have hv : IsValid v c.aki pc := ⟨p, hp, hpc⟩
          have huniq : ∀ q, IsValid v c.aki q → q = pc := by
            rintro q ⟨i, h1, h2⟩
            rw [hp] at h1; simp at h1; subst h1
            rw [hpc] at h2; simp at h2; exact h2.symm
          split at h
          · rename_i hsig
            simp only [Go.err.injEq] at h
            subst h
            exact .inl (fun q hq => huniq q hq ▸ hsig)
          · split at h
            · rename_i hrev
              simp only [Go.err.injEq] at h
              subst h
              show v.revoked.get _ ≠ none
              intro hh
              rw [hh] at hrev; simp at hrev
            · have key : ∀ {α : Type} {cl : Cert → α → Go Cert.Verdict} (hcl : ∀ c a m, cl c a ≠ .err m) (l : List α)
                  (k : Cert.Split α → Go Unit)
                  (_ : (do let s ← Cert.splitFrom (cl pc) ⟨[], [], []⟩ l
                           let s ← chainLoop v pc (fun l c => Cert.splitFrom (cl c) ⟨[], [], []⟩ l) (v.heap.length + 1) (v.parentOf p) s
                           k s) = .err m),
                  CertReason env v c (kindOfText m) ∨ ∃ s, k s = .err m ∧ ∀ e ∈ s.invalids, e ∈ l ∧
                    ∃ q, (q = pc ∨ IsValid v pc.aki q) ∧ cl q e = .ok .invalid := by
                intro α cl hcl l k hk
                cases hs : Cert.splitFrom (cl pc) ⟨[], [], []⟩ l with
                | err m => exact (splitFrom_ne (hcl pc) _ _ _ hs).elim
                | panic => rw [hs] at hk; simp at hk
                | diverge => rw [hs] at hk; simp at hk
                | ok s =>
                  rw [hs] at hk
                  simp only [Go.ok_bind] at hk
                  cases ht : chainLoop v pc (fun l c => Cert.splitFrom (cl c) ⟨[], [], []⟩ l) (v.heap.length + 1) (v.parentOf p) s with
                  | err m' =>
                    rw [ht] at hk
                    simp at hk
                    subst hk
                    obtain ⟨h1, h2⟩ := chainLoop_err hcl _ _ _ ht
                    rw [h1]
                    exact .inl (.inr ⟨pc, hv, h2⟩)
                  | panic => rw [ht] at hk; simp at hk
                  | diverge => rw [ht] at hk; simp at hk
                  | ok t =>
                    rw [ht] at hk
                    refine .inr ⟨t, hk, fun e he => ?_⟩
                    obtain ⟨_, _, g2, g3⟩ := splitFrom_filter hs
                    rcases chainLoop_outside _ _ _ _ ht he with h1 | ⟨h1, q, h2, h3⟩
                    · rw [g2] at h1; simp at h1
                      exact ⟨h1.1, pc, .inl rfl, h1.2⟩
                    · rw [g3] at h1; simp at h1
                      exact ⟨h1.1, q, .inr h2, h3⟩
              rcases key (cl := clIP) (fun c a m => classifyIP_ne _ _ _) c.ips _ h with hh | ⟨s1, h, g1⟩
              · exact hh
              · rcases key (cl := clAS) (fun c a m => by simp [clAS]) c.asns _ h with hh | ⟨s2, h, g2⟩
                · exact hh
                · split at h
                  · rename_i hl
                    simp only [Go.err.injEq] at h
                    subst h
                    rcases hl with hl | hl
                    · obtain ⟨e, he⟩ := List.exists_mem_of_length_pos hl
                      obtain ⟨h1, q, h2, h3⟩ := g1 e he
                      exact ⟨pc, q, hv, h2, .inl ⟨e, h1, outsideIP_of h3⟩⟩
                    · obtain ⟨e, he⟩ := List.exists_mem_of_length_pos hl
                      obtain ⟨h1, q, h2, h3⟩ := g2 e he
                      exact ⟨pc, q, hv, h2, .inr ⟨e, h1, outsideAS_of h3⟩⟩
                  · simp at h
  · rename_i ht
    simp only [Go.err.injEq] at h
    subst h
    show ¬ _
    rintro ⟨h1, h2⟩
    refine ht ?_
    unfold Cert.validateTime
    rw [if_neg (by omega), if_neg (by omega)]

theorem addCert_reason {env : Env} {v v' : V} {c : Cert} {trust : Bool} {a : Added} (h : v.addCert env c trust = .ok (v', a)) :
    a.res.isSome = true ∧ (∀ m, a.error = some m → CertReason env v c (kindOfText m) ∧ a.valid = false) ∧
    (a.error = none → a.valid = true) := by
  obtain ⟨h1, ⟨i, h2, _, h4, _, h6⟩ | ⟨h2, _, h4, h5, _⟩⟩ := addCert_ok h
  · refine ⟨by rw [h1]; rfl, ?_, by rw [h6]; simp⟩
    intro m hm
    rw [h6] at hm
    simp only [Option.some.injEq] at hm
    subst hm
    exact ⟨show v.objects.get c.ski ≠ none by rw [h2]; simp, h4⟩
  · refine ⟨by rw [h1]; rfl, ?_, ?_⟩
    · intro m hm
      rw [hm] at h4 h5
      refine ⟨?_, by simp [h5]⟩
      unfold errOf at h4
      split at h4 <;> simp at h4
      rename_i m' hv
      subst h4
      exact validate_err hv
    · intro hn
      rw [hn] at h4 h5
      have hv := errOf_none h4
      rw [h5]
      cases trust with
      | true => simp
      | false =>
        obtain ⟨p, _, hp, _⟩ := validate_ok hv
        simp [hp]

theorem talCheck_cases {v v1 : V} {files : List PKIFile} {f : PKIFile} {c : Cert} {b : Bool}
    (h : v.talCheck files f c = .ok (v1, b)) :
    (v1.objects = v.objects ∧ v1.validObjects = v.validObjects ∧ v1.revoked = v.revoked ∧ ∀ i, v1.certOf i = v.certOf i) ∧
    (b = false → ∃ p pf i t, f.parent = some p ∧ files[p]? = some pf ∧ pf.type = .tal ∧ v.tals.get f.path = some i ∧
      (v.heap[i]?.map Res.data) = some (.tal t) ∧ t.checkCertificate c.isRSA c.pubKey = .ok false) := by
  unfold V.talCheck at h
  split at h
  · rename_i pf hpf
    split at h
    · rename_i ht
      split at h
      · rename_i i hi
        split at h
        · rename_i r hr
          split at h
          · rename_i t hd
            obtain ⟨ok, hok, h⟩ := Go.bind_eq_ok.mp h
            split at h
            · simp only [Go.pure_def, Go.ok.injEq, Prod.mk.injEq] at h
              obtain ⟨rfl, rfl⟩ := h
              refine ⟨⟨rfl, rfl, rfl, fun j => certOf_congr (dataOf_modify _ _ (fun r => { r with certTALValid := true }) (fun _ => rfl) _)⟩, by simp⟩
            · rename_i hb
              simp only [Go.pure_def, Go.ok.injEq, Prod.mk.injEq] at h
              obtain ⟨rfl, rfl⟩ := h
              refine ⟨⟨rfl, rfl, rfl, fun _ => rfl⟩, fun _ => ?_⟩
              cases hp : f.parent with
              | none => rw [hp] at hpf; simp at hpf
              | some p =>
                rw [hp] at hpf
                refine ⟨p, pf, i, t, rfl, by simpa using hpf, ht, hi, by rw [hr]; simp [hd], ?_⟩
                rw [hok]
                simpa using hb
          · simp at h
        · simp at h
      · simp only [Go.ok.injEq, Prod.mk.injEq] at h
        obtain ⟨rfl, rfl⟩ := h
        exact ⟨⟨rfl, rfl, rfl, fun _ => rfl⟩, by simp⟩
    · simp only [Go.ok.injEq, Prod.mk.injEq] at h
      obtain ⟨rfl, rfl⟩ := h
      exact ⟨⟨rfl, rfl, rfl, fun _ => rfl⟩, by simp⟩
  · simp only [Go.ok.injEq, Prod.mk.injEq] at h
    obtain ⟨rfl, rfl⟩ := h
    exact ⟨⟨rfl, rfl, rfl, fun _ => rfl⟩, by simp⟩

theorem certReason_congr {env : Env} {v v1 : V} {c : Cert} {k : Kind} (h1 : v1.objects = v.objects)
    (h2 : v1.validObjects = v.validObjects) (h3 : v1.revoked = v.revoked) (h4 : ∀ i, v1.certOf i = v.certOf i)
    (h : CertReason env v1 c k) : CertReason env v c k := by
  have hv : ∀ k c, IsValid v1 k c ↔ IsValid v k c := by intro k c; unfold IsValid; rw [h2]; simp only [h4]
  cases k <;> simp only [CertReason, hv, h1, h3] at h ⊢ <;> exact h

theorem reason_of_cert {env : Env} {v : V} {files : List PKIFile} {f : PKIFile} {data : Bytes} {c : Cert} {k : Kind}
    (hc : Carries env f data c) (h : CertReason env v c k) : Reason env v files f data k := by
  cases k with
  | expiration => exact .expiration c hc h
  | conflict => exact .conflict c hc h
  | parent => exact .parent c hc h
  | revocation => exact .revocation c hc h
  | resource => obtain ⟨p, q, h1, h2, h3⟩ := h; exact .resource c p q hc h1 h2 h3
  | _ => exact h.elim

theorem illegal_of {l : List (Bytes × Bytes)} (h : ∀ fs, extractPathManifest l ≠ .ok fs) : ∃ e ∈ l, illegalName e.1 = true := by
  induction l with
  | nil => exact (h [] rfl).elim
  | cons x rest ih =>
    obtain ⟨n, hh⟩ := x
    by_cases hi : illegalName n = true
    · exact ⟨(n, hh), by simp, hi⟩
    · have : ∀ fs, extractPathManifest rest ≠ .ok fs := by
        intro fs hfs
        unfold extractPathManifest at h
        rw [if_neg hi, hfs] at h
        exact h _ rfl
      obtain ⟨e, he, h2⟩ := ih this
      exact ⟨e, by simp [he], h2⟩

theorem kindOf_some {a : Added} (h : a.res.isSome = true) (m : String) : kindOf a m = kindOfText m := by
  unfold kindOf
  cases hr : a.res with
  | none => rw [hr] at h; simp at h
  | some i => simp

theorem finish_some {v : V} {fid : Nat} {f : PKIFile} {a : Added} {fs : List PKIFile} (h : a.res.isSome = true) :
    (v.finish fid f a fs).2 = { a with files := fs } := by
  unfold V.finish
  cases hr : a.res with
  | none => rw [hr] at h; simp at h
  | some i => rfl

theorem reason_failed {env : Env} {v : V} {files : List PKIFile} {f : PKIFile} {data : Bytes} {m0 : String}
    (h : Undecodable env f data ∨ NotOfTal env v files f data ∨ IllegalManifest env f data ∨ MisplacedCRL env v files f data) :
    (∀ m, (failed m0).error = some m → Reason env v files f data (kindOf (failed m0) m) ∧ (failed m0).valid = false) ∧
    ((failed m0).error = none → (failed m0).valid = true ∨ f.type = .crl) :=
  ⟨fun _ _ => ⟨.file h, rfl⟩, by simp [failed]⟩

/-- What the Validator says of a file: the reason of an error is true, an error means that the file is not
    accepted, and only revocation lists are refused without an error. -/
theorem addResource_reason {env : Env} {v v' : V} {files : List PKIFile} {fid : Nat} {f : PKIFile} {data : Bytes} {a : Added}
    (hf : files[fid]? = some f) (h : v.addResource env files fid data = .ok (v', a)) :
    (∀ m, a.error = some m → Reason env v files f data (kindOf a m) ∧ a.valid = false) ∧
    (a.error = none → a.valid = true ∨ f.type = .crl) := by
  unfold V.addResource at h
  rw [hf] at h
  simp only [] at h
  split at h
  · rename_i ht
    split at h
    · simp only [Go.ok.injEq, Prod.mk.injEq] at h
      obtain ⟨_, rfl⟩ := h
      exact ⟨by simp [V.addTAL], fun _ => .inl rfl⟩
    · rename_i m he
      simp only [Go.ok.injEq, Prod.mk.injEq] at h
      obtain ⟨_, rfl⟩ := h
      exact reason_failed (.inl (by unfold Undecodable; rw [ht]; exact ⟨m, he⟩))
    · simp at h
    · simp at h
  · rename_i ht
    split at h
    · rename_i cert hcert
      have hcar : Carries env f data cert := .inl ⟨ht, hcert⟩
      unfold V.addResourceCer at h
      obtain ⟨⟨t1, b⟩, htal, h⟩ := Go.bind_eq_ok.mp h
      obtain ⟨⟨e1, e2, e3, e4⟩, hb⟩ := talCheck_cases htal
      cases b with
      | false =>
        simp only [Bool.false_eq_true, if_false, Go.ok.injEq, Prod.mk.injEq] at h
        obtain ⟨_, rfl⟩ := h
        obtain ⟨p, pf, i, t, g1, g2, g3, g4, g5, g6⟩ := hb rfl
        exact reason_failed (.inr (.inl ⟨ht, cert, p, pf, i, t, hcert, g1, g2, g3, g4, g5, g6⟩))
      | true =>
        simp only [if_true] at h
        obtain ⟨⟨v1, a1⟩, ha, h⟩ := Go.bind_eq_ok.mp h
        obtain ⟨r1, r2, r3⟩ := addCert_reason ha
        simp only [] at h
        split at h
        · rename_i hn; rw [hn] at r1; simp at r1
        · rename_i i hi
          simp only [Go.ok.injEq, Prod.mk.injEq] at h
          obtain ⟨_, rfl⟩ := h
          refine ⟨fun m hm => ?_, fun hn => .inl (r3 hn)⟩
          obtain ⟨q1, q2⟩ := r2 m hm
          rw [kindOf_some (by exact r1)]
          exact ⟨reason_of_cert hcar (certReason_congr e1 e2 e3 e4 q1), q2⟩
    · rename_i m he
      simp only [Go.ok.injEq, Prod.mk.injEq] at h
      obtain ⟨_, rfl⟩ := h
      exact reason_failed (.inl (by unfold Undecodable; rw [ht]; exact ⟨m, he⟩))
    · simp at h
    · simp at h
  · rename_i ht
    split at h
    · rename_i roa hroa
      have hcar : Carries env f data roa.cert := .inr (.inl ⟨ht, roa, hroa, rfl⟩)
      obtain ⟨⟨v1, a1⟩, ha, h⟩ := Go.bind_eq_ok.mp h
      simp only [Go.pure_def, Go.ok.injEq] at h
      unfold V.addROA at ha
      obtain ⟨⟨v2, a2⟩, hc, ha⟩ := Go.bind_eq_ok.mp ha
      obtain ⟨r1, r2, r3⟩ := addCert_reason hc
      simp only [] at ha
      split at ha
      · rename_i hn; rw [hn] at r1; simp at r1
      · rename_i i hi
        simp only [Go.ok.injEq, Prod.mk.injEq] at ha
        obtain ⟨_, rfl⟩ := ha
        have h2 := congrArg Prod.snd h
        rw [finish_some rfl] at h2
        simp only [] at h2
        subst h2
        simp only []
        by_cases hin : roa.innerValid = false
        · have he : ∀ e, roaError roa e = some "ROA inner validity error" := by intro e; unfold roaError; rw [if_pos hin]
          simp only [he]
          refine ⟨fun m hm => ?_, by simp⟩
          simp only [Option.some.injEq] at hm
          subst hm
          exact ⟨.unknown (.inl ⟨ht, roa, hroa, .inl hin⟩), by simp⟩
        · cases hve : validateEntries roa.entries with
          | ok u =>
            have he : ∀ e, roaError roa e = e := by intro e; unfold roaError; rw [if_neg hin, hve]
            simp only [he]
            refine ⟨fun m hm => ?_, fun hn => .inl (by simp [r3 hn])⟩
            obtain ⟨q1, q2⟩ := r2 m hm
            exact ⟨reason_of_cert hcar q1, by simp [q2]⟩
          | _ =>
            have he : ∀ e, roaError roa e = some "Could not validate certificate due to wrong entry" := by
              intro e; unfold roaError; rw [if_neg hin, hve]
            simp only [he]
            refine ⟨fun m hm => ?_, by simp⟩
            simp only [Option.some.injEq] at hm
            subst hm
            exact ⟨.unknown (.inl ⟨ht, roa, hroa, .inr (by rw [hve]; simp)⟩), by simp⟩
    · rename_i m he
      simp only [Go.ok.injEq, Prod.mk.injEq] at h
      obtain ⟨_, rfl⟩ := h
      exact reason_failed (.inl (by unfold Undecodable; rw [ht]; exact ⟨m, he⟩))
    · simp at h
    · simp at h
  · rename_i ht
    split at h
    · rename_i mft hmft
      have hcar : Carries env f data mft.cert := .inr (.inr ⟨ht, mft, hmft, rfl⟩)
      obtain ⟨⟨v1, a1⟩, ha, h⟩ := Go.bind_eq_ok.mp h
      simp only [Go.pure_def, Go.ok.injEq] at h
      unfold V.addManifest at ha
      split at ha
      · obtain ⟨⟨v2, a2⟩, hc, ha⟩ := Go.bind_eq_ok.mp ha
        obtain ⟨r1, r2, r3⟩ := addCert_reason hc
        simp only [] at ha
        split at ha
        · rename_i hn; rw [hn] at r1; simp at r1
        · rename_i i hi
          simp only [Go.ok.injEq, Prod.mk.injEq] at ha
          obtain ⟨_, rfl⟩ := ha
          have h2 := congrArg Prod.snd h
          rw [finish_some rfl] at h2
          simp only [] at h2
          subst h2
          simp only []
          cases hin : mft.innerValid with
          | false =>
            refine ⟨fun m hm => ?_, by simp⟩
            simp only [Bool.false_eq_true, if_false, Option.some.injEq] at hm
            subst hm
            exact ⟨.unknown (.inr ⟨ht, mft, hmft, hin⟩), by simp⟩
          | true =>
            simp only [if_true, Bool.and_true]
            refine ⟨fun m hm => ?_, fun hn => .inl (r3 hn)⟩
            obtain ⟨q1, q2⟩ := r2 m hm
            exact ⟨reason_of_cert hcar q1, q2⟩
      · rename_i hbad
        simp only [Go.ok.injEq, Prod.mk.injEq] at ha
        obtain ⟨_, rfl⟩ := ha
        have h2 := congrArg Prod.snd h
        simp only [V.finish] at h2
        subst h2
        refine ⟨fun m hm => ⟨.file (.inr (.inr (.inl ⟨ht, mft, hmft, illegal_of hbad⟩))), rfl⟩, by simp⟩
    · rename_i m he
      simp only [Go.ok.injEq, Prod.mk.injEq] at h
      obtain ⟨_, rfl⟩ := h
      exact reason_failed (.inl (by unfold Undecodable; rw [ht]; exact ⟨m, he⟩))
    · simp at h
    · simp at h
  · rename_i ht
    split at h
    · rename_i l hl
      unfold V.addResourceCRL at h
      obtain ⟨⟨v1, a1⟩, ha, h⟩ := Go.bind_eq_ok.mp h
      obtain ⟨g1, g2, g3, g4⟩ := addCRL_ok ha
      simp only [g1] at h
      obtain ⟨mis, hm, h⟩ := Go.bind_eq_ok.mp h
      cases mis with
      | false =>
        simp only [Bool.false_eq_true, if_false, Go.pure_def, Go.ok.injEq] at h
        have h2 := congrArg Prod.snd h
        rw [finish_some (by rw [g1]; rfl)] at h2
        simp only [] at h2
        subst h2
        exact ⟨by simp [g3], fun _ => .inr ht⟩
      | true =>
        simp only [if_true, Go.pure_def, Go.ok.injEq, Prod.mk.injEq] at h
        obtain ⟨_, rfl⟩ := h
        refine reason_failed (.inr (.inr (.inr ⟨ht, ?_⟩)))
        have hpar : v1.parentOf v.heap.length = v.objects.get l.aki := by
          rcases g4 with ⟨_, _, rfl⟩ | ⟨i, p, c, v2, _, _, _, _, _, hloop, rfl⟩
          · show V.parentOf (v.alloc _) _ = _
            rw [parentOf_alloc]; simp
          · show V.parentOf (V.modify _ _ _) _ = _
            rw [parentOf_modify _ _ (fun r => { r with childs := r.childs ++ [v.heap.length] }) (fun _ => rfl)]
            obtain ⟨_, hh, _⟩ := good_revokeLoop (env := env) (T := fun _ => True) (P := fun _ => True) _ _ _ _ hloop
            have : v2.parentOf v.heap.length = (v.alloc { objectToResource (.crl l) with
                type := .crl, parent := v.objects.get l.aki }).parentOf v.heap.length := by
              unfold V.parentOf; rw [hh]
            rw [this, parentOf_alloc]; simp
        have hfile : ∀ i j : Nat, (v1.heap[i]?.bind Res.file) = some j → (v.heap[i]?.bind Res.file) = some j := by
          have halloc : ∀ i j : Nat, (((v.alloc { objectToResource (.crl l) with
              type := .crl, parent := v.objects.get l.aki }).heap[i]?).bind Res.file) = some j →
              (v.heap[i]?.bind Res.file) = some j := by
            intro i j hij
            unfold V.alloc at hij
            simp only [] at hij
            by_cases hlt : i < v.heap.length
            · rwa [List.getElem?_append_left hlt] at hij
            · rw [List.getElem?_append_right (by omega)] at hij
              cases hd : i - v.heap.length with
              | zero => rw [hd] at hij; simp [objectToResource] at hij
              | succ n => rw [hd] at hij; simp at hij
          rcases g4 with ⟨_, _, rfl⟩ | ⟨i, p, c, v2, _, _, _, _, _, hloop, rfl⟩
          · exact halloc
          · obtain ⟨_, hh, _⟩ := good_revokeLoop (env := env) (T := fun _ => True) (P := fun _ => True) _ _ _ _ hloop
            intro i' j hij
            apply halloc
            rw [← hij]
            show _ = ((V.modify v2 p _).heap[i']?).bind Res.file
            unfold V.modify
            simp only [List.getElem?_modify, hh]
            cases (v.alloc { objectToResource (.crl l) with type := .crl, parent := v.objects.get l.aki }).heap[i']? with
            | none => rfl
            | some r => by_cases hp' : p = i' <;> simp [hp']
        unfold V.crlMismatch at hm
        split at hm
        · simp at hm
        · rename_i pf hpf
          split at hm
          · simp at hm
          · rename_i gf hgf
            split at hm
            · simp at hm
            · rename_i i hi
              split at hm
              · simp at hm
              · rename_i cf hcf
                simp only [Go.ok.injEq, decide_eq_true_eq] at hm
                rw [hpar] at hi
                cases hj : v1.heap[i]?.bind Res.file with
                | none => rw [hj] at hcf; simp at hcf
                | some j =>
                  rw [hj] at hcf
                  cases hp : f.parent with
                  | none => rw [hp] at hpf; simp at hpf
                  | some p =>
                    rw [hp] at hpf
                    cases hg : pf.parent with
                    | none => rw [hg] at hgf; simp at hgf
                    | some g =>
                      rw [hg] at hgf
                      exact ⟨l, i, j, p, pf, g, gf, cf, hl, hi, hfile i j hj, by simpa using hcf, rfl, by simpa using hpf, hg, by simpa using hgf, hm⟩
    · rename_i m he
      simp only [Go.ok.injEq, Prod.mk.injEq] at h
      obtain ⟨_, rfl⟩ := h
      exact reason_failed (.inl (by unfold Undecodable; rw [ht]; exact ⟨m, he⟩))
    · simp at h
    · simp at h
  · rename_i h1 h2 h3 h4 h5
    simp only [Go.ok.injEq, Prod.mk.injEq] at h
    obtain ⟨_, rfl⟩ := h
    refine reason_failed (.inl ?_)
    unfold Undecodable
    split
    · exact (h1 ‹_›).elim
    · exact (h2 ‹_›).elim
    · exact (h3 ‹_›).elim
    · exact (h4 ‹_›).elim
    · exact (h5 ‹_›).elim
    · trivial

end Verif.Manager
