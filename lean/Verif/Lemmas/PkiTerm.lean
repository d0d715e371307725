import Verif.Lemmas.PkiStep
import Verif.Spec.Manager
/-
  No operation of the validator runs for ever.
-/
set_option autoImplicit false

namespace Verif.Pki
open Net _root_.Verif.Cert Roa PkiSpec ManagerSpec

/-- The call ends. -/
def ND {α : Type} (x : Go α) : Prop := x ≠ .diverge

theorem ND.bind {α β : Type} {x : Go α} {f : α → Go β} (hx : ND x) (hf : ∀ a, x = .ok a → ND (f a)) :
    ND (x >>= f) := by
  intro h
  rcases Go.bind_eq_diverge.mp h with h | ⟨a, ha, h⟩
  · exact hx h
  · exact hf a ha h

theorem nd_ok {α : Type} (a : α) : ND (.ok a) := by simp [ND]
theorem nd_pure {α : Type} (a : α) : ND (pure a : Go α) := by simp [ND]
theorem nd_err {α : Type} (m : String) : ND (.err m : Go α) := by simp [ND]
theorem nd_panic {α : Type} : ND (.panic : Go α) := by simp [ND]

theorem nd_isIPInRange (i : IPInfo) (ip : Bytes) : ND (i.isIPInRange ip) := by
  unfold IPInfo.isIPInRange
  repeat' split
  all_goals simp [ND]

theorem nd_getRangeIP (n : Option IPNet) : ND (getRangeIP n) := by
  unfold getRangeIP
  repeat' split
  all_goals simp [ND]

theorem nd_getRange (i : IPInfo) : ND i.getRange := by
  unfold IPInfo.getRange
  split
  · rename_i n
    have := nd_getRangeIP n
    split <;> simp_all [ND]
  · simp [ND]
  · simp [ND]

theorem nd_isIPRangeInCertificate : ∀ (l : List IPInfo) (a b : Bytes), ND (isIPRangeInCertificate l a b)
  | [], _, _ => by simp [isIPRangeInCertificate, ND]
  | i :: r, a, b => by
    unfold isIPRangeInCertificate
    refine ND.bind (nd_isIPInRange _ _) (fun x _ => ND.bind (nd_isIPInRange _ _) (fun y _ => ?_))
    split
    · exact nd_pure _
    · split
      · exact nd_pure _
      · exact nd_isIPRangeInCertificate r a b

theorem nd_classifyIP (p : List IPInfo) (i : IPInfo) : ND (classifyIP p i) := by
  unfold classifyIP
  refine ND.bind (nd_getRange _) (fun r _ => ?_)
  split
  · exact nd_pure _
  · refine ND.bind (nd_isIPRangeInCertificate _ _ _) (fun v _ => ?_)
    repeat' split
    all_goals exact nd_pure _

theorem nd_splitFrom {α : Type} {cl : α → Go Verdict} (h : ∀ a, ND (cl a)) : ∀ (l : List α) (s : Split α),
    ND (splitFrom cl s l)
  | [], s => by simp [splitFrom, ND]
  | a :: r, s => by
    unfold splitFrom
    exact ND.bind (h a) (fun v _ => nd_splitFrom h r _)

theorem nd_validateIP (l p : List IPInfo) : ND (validateIPCertificateList l p) :=
  nd_splitFrom (nd_classifyIP p) _ _

theorem nd_validateAS (l p : List ASInfo) : ND (validateASNCertificateList l p) :=
  nd_splitFrom (fun _ => nd_ok _) _ _

theorem nd_chainLoop {α : Type} {v : V} (hpar : ∀ i p, v.parentOf i = some p → p < i) (pc : Cert)
    {split : List α → Cert → Go (Split α)} (hs : ∀ l c, ND (split l c)) :
    ∀ (fuel : Nat) (ch : Option Nat) (s : Split α), (∀ c, ch = some c → c + 1 < fuel) → 0 < fuel →
      ND (chainLoop v pc split fuel ch s) := by
  intro fuel
  induction fuel with
  | zero => intro _ _ _ h; omega
  | succ n ih =>
    intro ch s hc _
    cases ch with
    | none => simp [chainLoop, ND]
    | some c =>
      have hcn := hc c rfl
      unfold chainLoop
      split
      · exact nd_ok _
      · split
        · exact nd_err _
        · split
          · exact nd_err _
          · refine ND.bind (hs _ _) (fun t _ => ih _ _ ?_ (by omega))
            intro d hd
            have := hpar c d hd
            omega

theorem parentOf_lt {v : V} {i p : Nat} (h : v.parentOf i = some p) : i < v.heap.length := by
  unfold V.parentOf at h
  cases hi : v.heap[i]? with
  | none => rw [hi] at h; simp at h
  | some r => exact (List.getElem?_eq_some_iff.mp hi).1

theorem nd_validateCertificate {v : V} (hpar : ∀ i p, v.parentOf i = some p → p < i) (env : Env) (c : Cert)
    (trust : Bool) : ND (v.validateCertificate env c trust) := by
  have hfuel : ∀ p d, v.parentOf p = some d → d + 1 < v.heap.length + 1 := by
    intro p d hd
    have h1 := hpar p d hd
    have h2 := parentOf_lt hd
    omega
  unfold V.validateCertificate
  split
  · split
    · exact nd_ok _
    · split
      · exact nd_err _
      · split
        · exact nd_err _
        · split
          · exact nd_err _
          · split
            · exact nd_err _
            · refine ND.bind (nd_validateIP _ _) (fun a _ => ND.bind ?_ (fun b _ =>
                ND.bind (nd_validateAS _ _) (fun x _ => ND.bind ?_ (fun y _ => ?_))))
              · exact nd_chainLoop hpar _ (fun _ _ => nd_validateIP _ _) _ _ _ (hfuel _) (by omega)
              · exact nd_chainLoop hpar _ (fun _ _ => nd_validateAS _ _) _ _ _ (hfuel _) (by omega)
              · split
                · exact nd_err _
                · exact nd_ok _
  · exact nd_err _

theorem nd_errOf {x : Go Unit} (h : ND x) : ND (errOf x) := by
  unfold errOf
  split <;> simp_all [ND]

theorem nd_addCert {v : V} (hpar : ∀ i p, v.parentOf i = some p → p < i) (env : Env) (c : Cert) (trust : Bool) :
    ND (v.addCert env c trust) := by
  unfold V.addCert
  split
  · exact nd_ok _
  · exact ND.bind (nd_errOf (nd_validateCertificate hpar env c trust)) (fun _ _ => nd_pure _)

theorem nd_addROA {v : V} (hpar : ∀ i p, v.parentOf i = some p → p < i) (env : Env) (file : Option Nat) (r : ROA) :
    ND (v.addROA env file r) := by
  unfold V.addROA
  refine ND.bind (nd_addCert hpar env _ _) (fun a _ => ?_)
  split <;> exact nd_ok _

theorem nd_addManifest {v : V} (hpar : ∀ i p, v.parentOf i = some p → p < i) (env : Env) (file : Option Nat)
    (m : Mft) : ND (v.addManifest env file m) := by
  unfold V.addManifest
  split
  · refine ND.bind (nd_addCert hpar env _ _) (fun a _ => ?_)
    split <;> exact nd_ok _
  · exact nd_ok _

theorem nd_invalidate (v : V) (k : Bytes) : ND (v.invalidateObject k) := by
  obtain ⟨v', h⟩ := invalidateObject_total v k
  rw [h]; exact nd_ok _

theorem nd_revokeLoop (aki : Bytes) : ∀ (l : List Int) (v : V), ND (revokeLoop aki l v)
  | [], v => by simp [revokeLoop, ND]
  | s :: r, v => by
    unfold revokeLoop
    refine ND.bind ?_ (fun v1 _ => nd_revokeLoop aki r _)
    unfold V.revokeOne
    repeat' split
    all_goals first
      | exact nd_ok _
      | exact nd_panic
      | exact nd_invalidate _ _

theorem nd_addCRL (env : Env) (v : V) (l : CRL) : ND (v.addCRL env l) := by
  unfold V.addCRL
  simp only []
  refine ND.bind ?_ (fun issuer _ => ?_)
  · unfold V.crlIssuer
    repeat' split
    all_goals simp [ND]
  · split
    · exact nd_ok _
    · exact ND.bind (nd_revokeLoop _ _ _) (fun _ _ => nd_pure _)

theorem nd_talCheck (v : V) (files : List PKIFile) (f : PKIFile) (c : Cert) : ND (v.talCheck files f c) := by
  unfold V.talCheck
  repeat' split
  all_goals first
    | exact nd_ok _
    | exact nd_panic
    | skip
  refine ND.bind ?_ (fun ok _ => ?_)
  · unfold Tal.RPKITAL.checkCertificate
    repeat' split
    all_goals simp [ND]
  · split <;> exact nd_pure _

theorem nd_decodeROA {env : Env} (h : ∀ d, ND (env.parseROA d)) (data : Bytes) : ND (decodeROA env data) := by
  have h1 : ∀ fam (l : List (BitString × Int)), ND (convertAddrs fam l) := by
    intro fam l
    induction l with
    | nil => simp [convertAddrs, ND]
    | cons a r ih =>
      unfold convertAddrs
      refine ND.bind ?_ (fun _ _ => ND.bind ih (fun _ _ => nd_pure _))
      unfold decodeIP
      split <;> simp [ND]
  have h2 : ∀ l : List ROAFamily, ND (convertBlocks l) := by
    intro l
    induction l with
    | nil => simp [convertBlocks, ND]
    | cons a r ih =>
      unfold convertBlocks
      exact ND.bind (h1 _ _) (fun _ _ => ND.bind ih (fun _ _ => nd_pure _))
  have h3 : ∀ (cert : List IPInfo) (l : List ROAEntry) (s : Split ROAEntry), ND (roaSplitFrom cert s l) := by
    intro cert l
    induction l with
    | nil => intro s; simp [roaSplitFrom, ND]
    | cons e r ih =>
      intro s
      unfold roaSplitFrom
      refine ND.bind ?_ (fun _ _ => ih _)
      unfold roaStep
      simp only []
      refine ND.bind (nd_isIPRangeInCertificate _ _ _) (fun _ _ => ?_)
      repeat' split
      all_goals exact nd_pure _
  unfold decodeROA
  refine ND.bind (h data) (fun p _ => ND.bind ?_ (fun e _ => ND.bind (h3 _ _ _) (fun _ _ => nd_pure _)))
  unfold convertROAEntries
  exact ND.bind (h2 _) (fun _ _ => nd_pure _)

theorem nd_crlMismatch (v : V) (files : List PKIFile) (f : PKIFile) (i : Nat) : ND (v.crlMismatch files f i) := by
  unfold V.crlMismatch
  repeat' split
  all_goals simp [ND]

theorem nd_decodeTAL {env : Env} (h : Decodes env) (data : Bytes) : ND (Tal.decodeTAL env.asn data) := by
  unfold Tal.decodeTAL Tal.decodeKey
  refine ND.bind ?_ (fun d _ => ND.bind (h.spki d) (fun inner _ => ?_))
  · unfold Tal.b64DecodeStd
    split <;> simp [ND]
  · split
    · exact ND.bind (h.rsa _) (fun _ _ => nd_pure _)
    · exact nd_pure _

theorem parentOf_modify_same (v : V) (i : Nat) (f : Res → Res) (hf : ∀ r, (f r).parent = r.parent) (j : Nat) :
    (v.modify i f).parentOf j = v.parentOf j := by
  unfold V.parentOf V.modify
  simp only [List.getElem?_modify]
  cases v.heap[j]? with
  | none => simp
  | some r =>
    by_cases h : i = j <;> simp [h, hf]

theorem nd_addResource {v : V} (hpar : ∀ i p, v.parentOf i = some p → p < i) {env : Env} (h : Decodes env)
    (files : List PKIFile) (fid : Nat) (data : Bytes) : ND (v.addResource env files fid data) := by
  unfold V.addResource
  split
  · exact nd_panic
  · rename_i f _
    split
    · have := nd_decodeTAL h data
      split <;> simp_all [ND]
    · have := h.cert data
      split
      · unfold V.addResourceCer
        refine ND.bind (nd_talCheck _ _ _ _) (fun t ht => ?_)
        split
        · refine ND.bind (nd_addCert ?_ _ _ _) (fun a _ => ?_)
          · intro i p hip
            have : t.1.parentOf i = v.parentOf i := by
              unfold V.talCheck at ht
              repeat' split at ht
              all_goals first
                | (simp at ht; done)
                | (simp at ht; subst ht; rfl)
                | skip
              obtain ⟨ok, _, ht⟩ := Go.bind_eq_ok.mp ht
              split at ht
              · simp at ht; subst ht
                show V.parentOf (V.modify _ _ _) i = _
                apply parentOf_modify_same
                intro _; rfl
              · simp at ht; subst ht; rfl
            rw [this] at hip
            exact hpar i p hip
          · split <;> exact nd_ok _
        · exact nd_ok _
      · exact nd_ok _
      · exact nd_panic
      · simp_all [ND]
    · have := nd_decodeROA h.roa data
      split
      · exact ND.bind (nd_addROA hpar _ _ _) (fun _ _ => nd_pure _)
      · exact nd_ok _
      · exact nd_panic
      · simp_all [ND]
    · have := h.mft data
      split
      · exact ND.bind (nd_addManifest hpar _ _ _) (fun _ _ => nd_pure _)
      · exact nd_ok _
      · exact nd_panic
      · simp_all [ND]
    · have := h.crl data
      split
      · unfold V.addResourceCRL
        refine ND.bind (nd_addCRL _ _ _) (fun a _ => ?_)
        split
        · exact nd_panic
        · refine ND.bind (nd_crlMismatch _ _ _ _) (fun _ _ => ?_)
          split <;> exact nd_pure _
      · exact nd_ok _
      · exact nd_panic
      · simp_all [ND]
    · exact nd_ok _

end Verif.Pki
