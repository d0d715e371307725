import Verif.Lemmas.Typed
import Verif.Lemmas.PkiTal
import Verif.Lemmas.PkiTerm
import Verif.Spec.Crash
import Verif.Props.Tal
import Verif.Props.Revoke
/-
  Which calls of the validator can panic.
-/
set_option autoImplicit false

namespace Verif.Pki
open Net _root_.Verif.Cert Roa PkiSpec ManagerSpec CrashSpec

/-- The call does not panic. -/
def NP {α : Type} (x : Go α) : Prop := x ≠ .panic

theorem NP.bind {α β : Type} {x : Go α} {f : α → Go β} (hx : NP x) (hf : ∀ a, x = .ok a → NP (f a)) :
    NP (x >>= f) := by
  intro h
  rcases Go.bind_eq_panic.mp h with h | ⟨a, ha, h⟩
  · exact hx h
  · exact hf a ha h

theorem np_ok {α : Type} (a : α) : NP (.ok a) := by simp [NP]
theorem np_pure {α : Type} (a : α) : NP (pure a : Go α) := by simp [NP]
theorem np_err {α : Type} (m : String) : NP (.err m : Go α) := by simp [NP]
theorem np_diverge {α : Type} : NP (.diverge : Go α) := by simp [NP]

theorem np_isIPInRange (i : IPInfo) (hi : i ≠ .net none) (ip : Bytes) : NP (i.isIPInRange ip) := by
  unfold IPInfo.isIPInRange
  repeat' split
  all_goals simp_all [NP]

theorem np_getRangeIP (n : IPNet) : NP (getRangeIP (some n)) := by
  unfold getRangeIP
  repeat' split
  all_goals simp_all [NP]

theorem np_getRange (i : IPInfo) (hi : i ≠ .net none) : NP i.getRange := by
  unfold IPInfo.getRange
  split
  · rename_i n
    cases n with
    | none => exact (hi rfl).elim
    | some n =>
      have := np_getRangeIP n
      split <;> simp_all [NP]
  · simp [NP]
  · simp [NP]

theorem np_isIPRangeInCertificate : ∀ (l : List IPInfo) (_ : ∀ e ∈ l, e ≠ .net none) (a b : Bytes),
    NP (isIPRangeInCertificate l a b)
  | [], _, _, _ => by simp [isIPRangeInCertificate, NP]
  | i :: r, h, a, b => by
    unfold isIPRangeInCertificate
    refine NP.bind (np_isIPInRange _ (h i (by simp)) _) (fun x _ => NP.bind (np_isIPInRange _ (h i (by simp)) _) (fun y _ => ?_))
    split
    · exact np_pure _
    · split
      · exact np_pure _
      · exact np_isIPRangeInCertificate r (fun e he => h e (by simp [he])) a b

theorem np_classifyIP (p : List IPInfo) (h : ∀ e ∈ p, e ≠ .net none) (i : IPInfo) (hi : i ≠ .net none) :
    NP (classifyIP p i) := by
  unfold classifyIP
  refine NP.bind (np_getRange _ hi) (fun r _ => ?_)
  split
  · exact np_pure _
  · refine NP.bind (np_isIPRangeInCertificate _ h _ _) (fun v _ => ?_)
    repeat' split
    all_goals exact np_pure _

theorem np_splitFrom {α : Type} {cl : α → Go Verdict} : ∀ (l : List α) (s : Split α), (∀ a ∈ l, NP (cl a)) →
    NP (splitFrom cl s l)
  | [], s, _ => by simp [splitFrom, NP]
  | a :: r, s, h => by
    unfold splitFrom
    exact NP.bind (h a (by simp)) (fun v _ => np_splitFrom r _ (fun b hb => h b (by simp [hb])))

theorem np_validateIP (l p : List IPInfo) (h : ∀ e ∈ p, e ≠ .net none) (hl : ∀ e ∈ l, e ≠ .net none) :
    NP (validateIPCertificateList l p) :=
  np_splitFrom _ _ (fun a ha => np_classifyIP p h a (hl a ha))

theorem np_validateAS (l p : List ASInfo) : NP (validateASNCertificateList l p) :=
  np_splitFrom _ _ (fun _ _ => np_ok _)

theorem split_left {α : Type} {cl : α → Go Verdict} {l : List α} {t : Split α}
    (h : splitFrom cl ⟨[], [], []⟩ l = .ok t) : ∀ e ∈ t.checkParents, e ∈ l := by
  intro e he
  rw [(splitFrom_filter h).2.2.2] at he
  simp at he
  exact he.1

theorem np_chainLoop {α : Type} {v : V} (pc : Cert) {split : List α → Cert → Go (Split α)} {Q : α → Prop}
    (hs : ∀ l u c, v.certOf u = some c → (∀ e ∈ l, Q e) → NP (split l c))
    (hsub : ∀ l c t, split l c = .ok t → ∀ e ∈ t.checkParents, e ∈ l) :
    ∀ (fuel : Nat) (ch : Option Nat) (s : Split α), (∀ e ∈ s.checkParents, Q e) → NP (chainLoop v pc split fuel ch s) := by
  intro fuel
  induction fuel with
  | zero => intro ch s _; simp [chainLoop, NP]
  | succ n ih =>
    intro ch s hq
    cases ch with
    | none => simp [chainLoop, NP]
    | some c =>
      unfold chainLoop
      split
      · exact np_ok _
      · split
        · exact np_err _
        · split
          · exact np_err _
          · rename_i hu
            exact NP.bind (hs _ _ _ hu hq) (fun t ht => ih _ _ (fun e he => hq e (hsub _ _ _ ht e he)))

/-- All certificates known are without nil prefixes. -/
def NoNils (v : V) : Prop := ∀ i c, v.certOf i = some c → NoNil c

theorem np_validateCertificate {v : V} (hn : NoNils v) (env : Env) {c : Cert} (hc : NoNil c) (trust : Bool) :
    NP (v.validateCertificate env c trust) := by
  unfold V.validateCertificate
  split
  · split
    · exact np_ok _
    · split
      · exact np_err _
      · split
        · exact np_err _
        · rename_i pc hpc
          split
          · exact np_err _
          · split
            · exact np_err _
            · refine NP.bind (np_validateIP _ _ (hn _ _ hpc) hc) (fun a ha => NP.bind ?_ (fun b _ =>
                NP.bind (np_validateAS _ _) (fun x _ => NP.bind ?_ (fun y _ => ?_))))
              · exact np_chainLoop _ (Q := fun e => e ≠ .net none) (fun _ _ _ hu hq => np_validateIP _ _ (hn _ _ hu) hq)
                  (fun _ _ _ h => split_left h) _ _ _ (fun e he => hc e (split_left ha e he))
              · exact np_chainLoop _ (Q := fun _ => True) (fun _ _ _ _ _ => np_validateAS _ _)
                  (fun _ _ _ h => split_left h) _ _ _ (fun _ _ => trivial)
              · split
                · exact np_err _
                · exact np_ok _
  · exact np_err _

theorem np_errOf {x : Go Unit} (h : NP x) : NP (errOf x) := by
  unfold errOf
  split <;> simp_all [NP]

theorem np_addCert {v : V} (hn : NoNils v) (env : Env) {c : Cert} (hc : NoNil c) (trust : Bool) : NP (v.addCert env c trust) := by
  unfold V.addCert
  split
  · exact np_ok _
  · exact NP.bind (np_errOf (np_validateCertificate hn env hc trust)) (fun _ _ => np_pure _)

theorem np_addROA {v : V} (hn : NoNils v) (env : Env) (file : Option Nat) {r : ROA} (hc : NoNil r.cert) : NP (v.addROA env file r) := by
  unfold V.addROA
  refine NP.bind (np_addCert hn env hc _) (fun a _ => ?_)
  split <;> exact np_ok _

theorem np_addManifest {v : V} (hn : NoNils v) (env : Env) (file : Option Nat) {m : Mft} (hc : NoNil m.cert) :
    NP (v.addManifest env file m) := by
  unfold V.addManifest
  split
  · refine NP.bind (np_addCert hn env hc _) (fun a _ => ?_)
    split <;> exact np_ok _
  · exact np_ok _

theorem np_invalidate (v : V) (k : Bytes) : NP (v.invalidateObject k) := by
  obtain ⟨v', h⟩ := invalidateObject_total v k
  rw [h]; exact np_ok _

/-- The table of serials points to certificates. -/
def SerialsOK (v : V) : Prop := ∀ key i, v.certsSerial.get key = some i → ∃ c, v.certOf i = some c

theorem serialsOK_congr {v v' : V} (h1 : v'.certsSerial = v.certsSerial) (h2 : ∀ i c, v.certOf i = some c → v'.certOf i = some c)
    (h : SerialsOK v) : SerialsOK v' := by
  intro key i hk
  rw [h1] at hk
  obtain ⟨c, hc⟩ := h key i hk
  exact ⟨c, h2 _ _ hc⟩

theorem np_revokeLoop (aki : Bytes) : ∀ (l : List Int) (v : V), SerialsOK v → NP (revokeLoop aki l v)
  | [], v, _ => by simp [revokeLoop, NP]
  | s :: r, v, hv => by
    unfold revokeLoop
    refine NP.bind ?_ (fun v1 h1 => np_revokeLoop aki r _ ?_)
    · unfold V.revokeOne
      split
      · exact np_ok _
      · rename_i i hi
        obtain ⟨c, hc⟩ := hv _ _ hi
        rw [hc]
        simp only
        split
        · exact np_invalidate _ _
        · exact np_ok _
    · rcases revokeOne_cases h1 with rfl | ⟨_, _, _, _, _, h1⟩
      · exact hv
      · have := (invalidateObject_spec h1).1
        refine serialsOK_congr (v := v) this.certsSerial (fun i c hc => ?_) hv
        show v1.certOf i = _
        unfold V.certOf; rw [this.heap]; exact hc

theorem np_addCRL (env : Env) {v : V} (hi : Inv env (fun _ => True) (fun _ => True) v) (l : CRL) : NP (v.addCRL env l) := by
  unfold V.addCRL
  simp only []
  refine NP.bind ?_ (fun issuer _ => ?_)
  · unfold V.crlIssuer
    split
    · exact np_ok _
    · rename_i i h
      rw [hi.val _ _ h]
      repeat' split
      all_goals simp_all [NP]
  · split
    · exact np_ok _
    · refine NP.bind (np_revokeLoop _ _ _ ?_) (fun _ _ => np_pure _)
      intro key i hk
      obtain ⟨c, hc, _⟩ := hi.serial key i hk
      refine ⟨c, ?_⟩
      have := (certOf_eq _ _ _).mp hc
      refine (certOf_eq _ _ _).mpr ?_
      show V.dataOf (v.alloc _) i = _
      rw [dataOf_alloc]
      split
      · rename_i he
        subst he
        simp [V.dataOf] at this
      · exact this

/-- What holds of the validator of a manager: `n` files are known. -/
structure VInv (env : Env) (n : Nat) (v : V) : Prop where
  inv : Inv env (fun _ => True) (fun _ => True) v
  nn : NoNils v
  tals : ∀ p i, v.tals.get p = some i → ∃ t data, v.dataOf i = some (.tal t) ∧ Tal.decodeTAL env.asn data = .ok t
  file : ∀ i c, v.certOf i = some c → ∃ q, v.heap[i]?.bind Res.file = some q ∧ q < n

theorem vinv_new (env : Env) (n : Nat) : VInv env n V.new := by
  refine ⟨inv_new _ _ _, ?_, ?_, ?_⟩
  all_goals simp [NoNils, V.new, Map.get_nil, V.certOf]

theorem VInv.mono {env : Env} {n n' : Nat} {v : V} (h : VInv env n v) (hn : n ≤ n') : VInv env n' v :=
  ⟨h.inv, h.nn, h.tals, fun i c hc => by obtain ⟨q, h1, h2⟩ := h.file i c hc; exact ⟨q, h1, by omega⟩⟩

theorem core_cert {v : V} {i : Nat} {c : Cert} (h : v.certOf i = some c) :
    ∃ t f, v.core i = some (.cert c, t, f) := by
  unfold V.certOf at h
  unfold V.core
  split at h
  · rename_i r hr
    rw [hr]
    split at h
    · rename_i hd
      simp at h; subst h
      exact ⟨r.type, r.file, by simp [hd]⟩
    · simp at h
  · simp at h

theorem cert_of_core {v : V} {i : Nat} {c : Cert} {t : FType} {f : Option Nat} (h : v.core i = some (.cert c, t, f)) :
    v.certOf i = some c ∧ v.heap[i]?.bind Res.file = f := by
  unfold V.core at h
  obtain ⟨r, hr, h⟩ := Option.map_eq_some_iff.mp h
  simp at h
  unfold V.certOf
  rw [hr]
  simp [h]

theorem certOf_of_core {v v' : V} (h : v'.core = v.core) {i : Nat} {c : Cert} (hc : v'.certOf i = some c) :
    v.certOf i = some c := by
  obtain ⟨t, f, hcore⟩ := core_cert hc
  rw [h] at hcore
  exact (cert_of_core hcore).1

theorem np_talCheck {env : Env} {n : Nat} {v : V} (hv : VInv env n v) (files : List PKIFile) (f : PKIFile) {c : Cert}
    (hk : TalSpec.CertKey c.isRSA c.pubKey) : NP (v.talCheck files f c) := by
  unfold V.talCheck
  split
  · split
    · split
      · rename_i i hi
        obtain ⟨t, data, h1, h2⟩ := hv.tals _ _ hi
        unfold V.dataOf at h1
        obtain ⟨r, hr, h1⟩ := Option.map_eq_some_iff.mp h1
        rw [hr]
        simp only [h1]
        obtain ⟨b, hb, _⟩ := Props.C50_decoded_exact_partial env.asn data t h2 c.isRSA c.pubKey hk
        rw [hb, Go.ok_bind]
        split <;> exact np_pure _
      · exact np_ok _
    · exact np_ok _
  · exact np_ok _

theorem np_decodeROA {env : Env} {data : Bytes} (h : Harmless env data) : NP (decodeROA env data) := by
  have h1 : ∀ fam (l : List (BitString × Int)), NP (convertAddrs fam l) := by
    intro fam l
    induction l with
    | nil => simp [convertAddrs, NP]
    | cons a r ih =>
      unfold convertAddrs
      refine NP.bind ?_ (fun _ _ => NP.bind ih (fun _ _ => np_pure _))
      unfold decodeIP
      split <;> simp [NP]
  have h2 : ∀ l : List ROAFamily, NP (convertBlocks l) := by
    intro l
    induction l with
    | nil => simp [convertBlocks, NP]
    | cons a r ih =>
      unfold convertBlocks
      exact NP.bind (h1 _ _) (fun _ _ => NP.bind ih (fun _ _ => np_pure _))
  have h3 : ∀ (cert : List IPInfo) (_ : ∀ e ∈ cert, e ≠ .net none) (l : List ROAEntry) (s : Split ROAEntry),
      NP (roaSplitFrom cert s l) := by
    intro cert hc l
    induction l with
    | nil => intro s; simp [roaSplitFrom, NP]
    | cons e r ih =>
      intro s
      unfold roaSplitFrom
      refine NP.bind ?_ (fun _ _ => ih _)
      unfold roaStep
      simp only []
      refine NP.bind (np_isIPRangeInCertificate _ hc _ _) (fun _ _ => ?_)
      repeat' split
      all_goals exact np_pure _
  unfold decodeROA
  refine NP.bind h.roa (fun p hp => NP.bind ?_ (fun e _ => NP.bind (h3 _ (h.roaNil p hp) _ _) (fun _ _ => np_pure _)))
  unfold convertROAEntries
  exact NP.bind (h2 _) (fun _ _ => np_pure _)

theorem decodeROA_noNil {env : Env} {data : Bytes} (h : Harmless env data) {r : ROA} (hr : decodeROA env data = .ok r) :
    NoNil r.cert := by
  unfold decodeROA at hr
  obtain ⟨p, hp, hr⟩ := Go.bind_eq_ok.mp hr
  obtain ⟨e, _, hr⟩ := Go.bind_eq_ok.mp hr
  obtain ⟨s, _, hr⟩ := Go.bind_eq_ok.mp hr
  simp at hr
  subst hr
  exact h.roaNil p hp

/-- Where `AddResource` can panic, for harmless octets: a revocation list of an unknown issuer, only. -/
theorem panic_addResource {env : Env} {files : List PKIFile} {v : V} {fid : Nat} {f : PKIFile} {data : Bytes}
    (hv : VInv env files.length v) (hd : Harmless env data) (hf : files[fid]? = some f)
    (hdeep : f.type = .crl → ∃ p pf g gf, f.parent = some p ∧ files[p]? = some pf ∧ pf.parent = some g ∧ files[g]? = some gf)
    (h : v.addResource env files fid data = .panic) : f.type = .crl ∧ OfUnknownIssuer env v data := by
  unfold V.addResource at h
  rw [hf] at h
  simp only at h
  split at h
  · have := hd.tal
    split at h <;> simp_all
  · have := hd.cert
    split at h
    · rename_i c hc
      obtain ⟨hn, hk⟩ := hd.certNil c hc
      exfalso
      refine NP.bind (np_talCheck hv files f hk) (fun t ht => ?_) h
      split
      · refine NP.bind (np_addCert (fun i c hc => hv.nn i c (certOf_of_core (core_talCheck ht).1 hc)) _ hn _) (fun a _ => ?_)
        split <;> exact np_ok _
      · exact np_ok _
    · simp at h
    · exact (this (by assumption)).elim
    · simp at h
  · have := np_decodeROA hd
    split at h
    · rename_i r hr
      exact (NP.bind (np_addROA hv.nn _ _ (decodeROA_noNil hd hr)) (fun _ _ => np_pure _) h).elim
    · simp at h
    · exact (this (by assumption)).elim
    · simp at h
  · have := hd.mft
    split at h
    · rename_i m hm
      exact (NP.bind (np_addManifest hv.nn _ _ (hd.mftNil m hm)) (fun _ _ => np_pure _) h).elim
    · simp at h
    · exact (this (by assumption)).elim
    · simp at h
  · rename_i hty
    have := hd.crl
    split at h
    · rename_i l hl
      refine ⟨hty, l, hl, ?_⟩
      cases ho : v.objects.get l.aki with
      | none => rfl
      | some o =>
        exfalso
        obtain ⟨p, pf, g, gf, h1, h2, h3, h4⟩ := hdeep hty
        refine NP.bind (np_addCRL env hv.inv l) (fun a ha => ?_) h
        obtain ⟨k1, k2⟩ := core_addCRL ha
        rw [k2]
        simp only
        have hpar : a.1.parentOf v.heap.length = some o := by
          obtain ⟨v', a⟩ := a
          obtain ⟨_, _, _, ⟨_, _, rfl⟩ | ⟨_, p, _, v2, _, hp, _, _, _, hloop, rfl⟩⟩ := addCRL_ok ha
          · simp [V.parentOf, V.alloc, ho]
          · have hh := revokeLoop_heap _ _ _ hloop
            refine (parentOf_modify_same v2 p (fun r => { r with childs := r.childs ++ [v.heap.length] }) (fun _ => rfl) _).trans ?_
            unfold V.parentOf
            rw [hh]
            simp [V.alloc, ho]
        obtain ⟨c, hc, _⟩ := hv.inv.obj _ _ ho
        obtain ⟨t, fo, hcore⟩ := core_cert hc
        have hlt := core_lt hcore
        have hcore' := k1 o
        rw [if_neg (by omega), hcore] at hcore'
        obtain ⟨q, hq1, hq2⟩ := hv.file o c hc
        rw [(cert_of_core hcore).2] at hq1
        refine NP.bind ?_ (fun b _ => ?_)
        · unfold V.crlMismatch
          rw [h1]
          simp only [Option.bind_some, h2, h3, h4, hpar, (cert_of_core hcore').2, hq1, List.getElem?_eq_getElem hq2]
          exact np_ok _
        · split <;> exact np_pure _
    · simp at h
    · exact (this (by assumption)).elim
    · simp at h
  · simp at h

/-- The invariant is kept by a file that is added. -/
theorem vinv_addResource {env : Env} {files : List PKIFile} {v v' : V} {fid : Nat} {data : Bytes} {a : Added}
    (hv : VInv env files.length v) (hd : Harmless env data)
    (h : v.addResource env files fid data = .ok (v', a)) : VInv env files.length v' := by
  have hstep : v.step env (.addResource files fid data) = .ok v' := by
    show (v.addResource env files fid data >>= _) = _
    rw [h]; rfl
  have hg := good_step (T := fun _ => True) (P := fun _ => True) (Props.trusts_all env _) (Props.roas_all env _) hstep hv.inv
  have hcert : ∀ i c, v'.certOf i = some c → v.certOf i = some c ∧ v'.heap[i]?.bind Res.file = v.heap[i]?.bind Res.file ∨
      NoNil c ∧ v'.heap[i]?.bind Res.file = some fid ∧ fid < files.length := by
    intro i c hc
    obtain ⟨t, fo, hcore⟩ := core_cert hc
    rcases core_addResource h i _ hcore with hold | ⟨f, hf, hfrom, _, hfo⟩
    · exact .inl ⟨(cert_of_core hold).1, by rw [(cert_of_core hold).2, (cert_of_core hcore).2]⟩
    · right
      refine ⟨?_, ?_, (List.getElem?_eq_some_iff.mp hf).1⟩
      · generalize f.type = ty at hfrom
        cases hfrom with
        | cer _ h => exact (hd.certNil _ h).1
        | roaCert r h => exact decodeROA_noNil hd h
        | mftCert m h => exact hd.mftNil m h
      · rw [(cert_of_core hcore).2]
        rcases hfo with ⟨l, hl⟩ | hfo
        · simp at hl
        · exact hfo
  refine ⟨hg.1, ?_, ?_, ?_⟩
  · intro i c hc
    rcases hcert i c hc with ⟨h1, _⟩ | ⟨h1, _⟩
    · exact hv.nn i c h1
    · exact h1
  · intro p i hi
    rcases step_tals hstep with ⟨h1, _⟩ | ⟨t, h1, h2, h3⟩
    · rw [h1] at hi
      obtain ⟨t, d, h2, h3⟩ := hv.tals p i hi
      exact ⟨t, d, hg.2.data _ _ h2, h3⟩
    · rw [h2, Map.get_set] at hi
      split at hi
      · simp at hi; subst hi
        exact ⟨t, data, h3, h1.2⟩
      · obtain ⟨t, d, h2, h3⟩ := hv.tals p i hi
        exact ⟨t, d, hg.2.data _ _ h2, h3⟩
  · intro i c hc
    rcases hcert i c hc with ⟨h1, h2⟩ | ⟨_, h2, h3⟩
    · rw [h2]; exact hv.file i c h1
    · exact ⟨fid, h2, h3⟩

theorem vinv_invalidate {env : Env} {n : Nat} {v v' : V} {k : Bytes} (hv : VInv env n v)
    (h : v.invalidateObject k = .ok v') : VInv env n v' := by
  have hg := good_step (T := fun _ => True) (P := fun _ => True) (Props.trusts_all env _) (Props.roas_all env _)
    (op := .invalidate k) h hv.inv
  have hs := (invalidateObject_spec h).1
  have hc : ∀ i, v'.certOf i = v.certOf i := fun i => by unfold V.certOf; rw [hs.heap]
  refine ⟨hg.1, ?_, ?_, ?_⟩
  · intro i c h; rw [hc] at h; exact hv.nn i c h
  · intro p i hi
    rw [hs.tals] at hi
    obtain ⟨t, d, h2, h3⟩ := hv.tals p i hi
    exact ⟨t, d, hg.2.data _ _ h2, h3⟩
  · intro i c h; rw [hc] at h; rw [hs.heap]; exact hv.file i c h

theorem vinv_invalidations {env : Env} {n : Nat} : ∀ (ops : List Op) (v v' : V), VInv env n v →
    (∀ op ∈ ops, ∃ k, op = .invalidate k) → V.run env v ops = .ok v' → VInv env n v'
  | [], v, v', hv, _, h => by simp [V.run] at h; subst h; exact hv
  | op :: r, v, v', hv, ho, h => by
    unfold V.run at h
    obtain ⟨v1, h1, h2⟩ := Go.bind_eq_ok.mp h
    obtain ⟨k, rfl⟩ := ho op (by simp)
    exact vinv_invalidations r v1 v' (vinv_invalidate hv h1) (fun o h => ho o (by simp [h])) h2

end Verif.Pki
