import Verif.Lemmas.EndToEnd
/-
  The mark `CertTALValid` of the TALs: it is set when a certificate with the key of the TAL has been given to the
  validator, and never taken back.
-/
set_option autoImplicit false

namespace Verif.Pki
open Manager EndSpec

/-- The mark of object `i`. -/
def V.flag (v : V) (i : Nat) : Bool := (v.heap[i]?.map (·.certTALValid)).getD false

theorem flag_congr {v v' : V} (h : v'.heap = v.heap) : v'.flag = v.flag := by
  funext i; unfold V.flag; rw [h]

theorem flag_alloc (v : V) (r : Res) (hr : r.certTALValid = false) : (v.alloc r).flag = v.flag := by
  funext i
  unfold V.flag V.alloc
  simp only [List.getElem?_append]
  split
  · rfl
  · rename_i h
    have h2 : v.heap[i]? = none := List.getElem?_eq_none (by omega)
    rw [h2]
    cases hj : [r][i - v.heap.length]? with
    | none => rfl
    | some x =>
      have := List.mem_of_getElem? hj
      simp at this; subst this
      simp [hr]

theorem flag_modify (v : V) (j : Nat) (f : Res → Res) (hf : ∀ r, (f r).certTALValid = r.certTALValid) : (v.modify j f).flag = v.flag := by
  funext i
  unfold V.flag V.modify
  simp only [List.getElem?_modify]
  cases v.heap[i]? with
  | none => rfl
  | some r =>
    by_cases h : j = i
    · simp [h, hf]
    · simp [h]

theorem flag_set (v : V) (j : Nat) (hj : j < v.heap.length) : (v.modify j (fun r => { r with certTALValid := true })).flag =
    fun i => decide (i = j) || v.flag i := by
  funext i
  unfold V.flag V.modify
  simp only [List.getElem?_modify]
  by_cases h : j = i
  · subst h
    rw [List.getElem?_eq_getElem hj]
    simp
  · have h' : ¬ i = j := fun e => h e.symm
    cases v.heap[i]? with
    | none => simp [h']
    | some r => simp [h, h']

theorem flag_invalidate {v v' : V} {k : Bytes} (h : v.invalidateObject k = .ok v') : v'.flag = v.flag := by
  obtain ⟨fin, _, _, _, _, hs, _⟩ := invalidateLoop_spec _ _ _ _ _ h (by simp)
  exact flag_congr hs.heap

theorem flag_addCert {env : Env} {v : V} {c : Cert} {t : Bool} {x : V × Added} (h : v.addCert env c t = .ok x) : x.1.flag = v.flag := by
  unfold V.addCert at h
  simp only at h
  split at h
  · simp at h; subst h
    exact flag_alloc _ _ rfl
  · obtain ⟨e, _, h⟩ := Go.bind_eq_ok.mp h
    simp at h; subst h
    have h1 := flag_alloc v { (objectToResource (.cert c)) with parent := v.objects.get c.aki } rfl
    refine (flag_congr (v := V.link _ c _ _) rfl).trans ?_
    unfold V.link
    split
    · split
      · exact (flag_congr (v := V.modify _ _ (fun r => { r with childs := r.childs ++ [v.heap.length] })) rfl).trans
          ((flag_modify _ _ (fun r => { r with childs := r.childs ++ [v.heap.length] }) (fun _ => rfl)).trans h1)
      · exact h1
    · exact h1

theorem flag_attach (v : V) (i : Nat) (e t : FType) (f : Option Nat) (d : ResData) : (v.attach i e t f d).flag = v.flag := by
  unfold V.attach
  rw [flag_modify _ _ (fun r => { r with childs := r.childs ++ [v.heap.length] }) (fun _ => rfl)]
  refine (flag_alloc _ _ rfl).trans ?_
  exact flag_modify _ _ (fun r => { r with type := e, file := f }) (fun _ => rfl)

theorem flag_addROA {env : Env} {v : V} {f : Option Nat} {r : ROA} {x : V × Added} (h : v.addROA env f r = .ok x) : x.1.flag = v.flag := by
  unfold V.addROA at h
  obtain ⟨a, ha, h⟩ := Go.bind_eq_ok.mp h
  have h1 := flag_addCert ha
  split at h
  · simp at h; subst h; exact h1
  · simp at h; subst h
    refine (flag_congr (v := a.1.attach _ _ _ _ _) rfl).trans ?_
    rw [flag_attach]; exact h1

theorem flag_addManifest {env : Env} {v : V} {f : Option Nat} {m : Mft} {x : V × Added} (h : v.addManifest env f m = .ok x) :
    x.1.flag = v.flag := by
  unfold V.addManifest at h
  split at h
  · obtain ⟨a, ha, h⟩ := Go.bind_eq_ok.mp h
    have h1 := flag_addCert ha
    split at h
    · simp at h; subst h; exact h1
    · simp at h; subst h
      refine (flag_congr (v := a.1.attach _ _ _ _ _) rfl).trans ?_
      rw [flag_attach]; exact h1
  · simp at h; subst h; rfl

theorem flag_addCRL {env : Env} {v : V} {l : CRL} {x : V × Added} (h : v.addCRL env l = .ok x) : x.1.flag = v.flag := by
  unfold V.addCRL at h
  simp only at h
  obtain ⟨o, _, h⟩ := Go.bind_eq_ok.mp h
  have h1 := flag_alloc v { (objectToResource (.crl l)) with type := .crl, parent := v.objects.get l.aki } rfl
  split at h
  · simp at h; subst h
    exact (flag_congr rfl).trans h1
  · obtain ⟨v2, h2, h⟩ := Go.bind_eq_ok.mp h
    have hh := revokeLoop_heap _ _ _ h2
    simp at h; subst h
    refine (flag_congr (v := v2.modify _ (fun r => { r with childs := r.childs ++ [v.heap.length] })) rfl).trans ?_
    rw [flag_modify _ _ (fun r => { r with childs := r.childs ++ [v.heap.length] }) (fun _ => rfl)]
    exact (flag_congr hh).trans h1

theorem flag_setFile (v : V) (i : Option Nat) (fid : Nat) (t : Option FType) : (v.setFile i fid t).flag = v.flag := by
  unfold V.setFile
  split
  · exact flag_modify _ _ _ (fun _ => rfl)
  · rfl

theorem flag_finish (v : V) (fid : Nat) (f : PKIFile) (a : Added) (l : List PKIFile) : (v.finish fid f a l).1.flag = v.flag := by
  unfold V.finish
  split
  · rfl
  · exact (flag_congr rfl).trans (flag_setFile _ _ _ _)

/-- The certificate file `fid` with contents `data` is checked against the TAL in object `i`, and has its key. -/
def Checks (env : Env) (files : List PKIFile) (v : V) (fid : Nat) (data : Bytes) (i : Nat) : Prop :=
  ∃ f p pf c t r, files[fid]? = some f ∧ f.type = .cer ∧ f.parent = some p ∧ files[p]? = some pf ∧ pf.type = .tal ∧
    env.parseCert data = .ok c ∧ v.tals.get f.path = some i ∧ v.heap[i]? = some r ∧ r.data = .tal t ∧
    t.checkCertificate c.isRSA c.pubKey = .ok true

theorem checks_tal {env : Env} {files : List PKIFile} {v : V} {fid : Nat} {data : Bytes} {i : Nat} (h : Checks env files v fid data i) :
    ∃ t, v.dataOf i = some (.tal t) := by
  obtain ⟨_, _, _, _, t, r, _, _, _, _, _, _, _, h1, h2, _⟩ := h
  exact ⟨t, by unfold V.dataOf; rw [h1]; simp [h2]⟩

/-- The marks after a file was given to the validator. -/
theorem flag_addResource {env : Env} {files : List PKIFile} {v : V} {fid : Nat} {data : Bytes} {x : V × Added}
    (h : v.addResource env files fid data = .ok x) (i : Nat) :
    x.1.flag i = true ↔ v.flag i = true ∨ Checks env files v fid data i := by
  unfold V.addResource at h
  split at h
  · simp at h
  · rename_i f hf
    have no : f.type ≠ .cer → ∀ i, ¬ Checks env files v fid data i := by
      rintro ht i ⟨f', _, _, _, _, _, h1, h2, _⟩
      rw [hf] at h1
      simp at h1; subst h1
      exact ht h2
    have nocert : (∀ c, env.parseCert data ≠ .ok c) → ∀ i, ¬ Checks env files v fid data i := by
      rintro ht i ⟨_, _, _, c, _, _, _, _, _, _, _, h1, _⟩
      exact ht c h1
    split at h
    · rename_i hty
      have hn := no (by rw [hty]; simp) i
      suffices hh : x.1.flag = v.flag by rw [hh]; simp [hn]
      split at h
      · simp at h; subst h
        simp only [flag_setFile, V.addTAL]
        exact (flag_congr rfl).trans (flag_alloc v { objectToResource (.tal _) with type := .tal } rfl)
      · simp at h; subst h; rfl
      · simp at h
      · simp at h
    · rename_i hty
      split at h
      · rename_i c hdec
        unfold V.addResourceCer at h
        obtain ⟨t, ht, h⟩ := Go.bind_eq_ok.mp h
        have hrest : x.1.flag = t.1.flag := by
          split at h
          · obtain ⟨a, ha, h⟩ := Go.bind_eq_ok.mp h
            have := flag_addCert ha
            split at h
            · simp at h; subst h; rw [flag_setFile]; exact this
            · simp at h; subst h
              refine (flag_congr (v := a.1.setFile _ _ _) rfl).trans ?_
              rw [flag_setFile]; exact this
          · simp at h; subst h; rfl
        rw [hrest]
        unfold V.talCheck at ht
        have none_case : t.1 = v → ¬ Checks env files v fid data i → (t.1.flag i = true ↔ v.flag i = true ∨ Checks env files v fid data i) := by
          intro e hn; rw [e]; simp [hn]
        split at ht
        · rename_i pf hpf
          obtain ⟨p, hp1, hp2⟩ := Option.bind_eq_some_iff.mp hpf
          split at ht
          · rename_i hpt
            split at ht
            · rename_i j hj
              split at ht
              · rename_i r hr
                split at ht
                · rename_i tal htal
                  obtain ⟨b, hb, ht⟩ := Go.bind_eq_ok.mp ht
                  have conv : ∀ i, Checks env files v fid data i ↔ i = j ∧ b = true := by
                    intro i
                    constructor
                    · rintro ⟨f', p', pf', c', t', r', a1, a2, a3, a4, a5, a6, a7, a8, a9, a10⟩
                      rw [hf] at a1; simp at a1; subst a1
                      rw [hj] at a7; simp at a7; subst a7
                      rw [hr] at a8; simp at a8; subst a8
                      rw [htal] at a9; simp at a9; subst a9
                      rw [hdec] at a6; simp at a6; subst a6
                      rw [hb] at a10; simp at a10
                      exact ⟨rfl, a10⟩
                    · rintro ⟨rfl, rfl⟩
                      exact ⟨f, p, pf, c, tal, r, hf, hty, hp1, hp2, hpt, hdec, hj, hr, htal, hb⟩
                  rw [conv]
                  split at ht
                  · rename_i hbt
                    simp at ht; subst ht
                    rw [flag_set _ _ (List.getElem?_eq_some_iff.mp hr).1]
                    simp [hbt, or_comm]
                  · rename_i hbf
                    simp at ht; subst ht
                    simp [hbf]
                · simp at ht
              · simp at ht
            · rename_i hj
              simp at ht
              refine none_case (by rw [← ht]) ?_
              rintro ⟨f', p', pf', c', t', r', a1, a2, a3, a4, a5, a6, a7, _⟩
              rw [hf] at a1; simp at a1; subst a1
              rw [hj] at a7; simp at a7
          · rename_i hpt
            simp at ht
            refine none_case (by rw [← ht]) ?_
            rintro ⟨f', p', pf', c', t', r', a1, a2, a3, a4, a5, _⟩
            rw [hf] at a1; simp at a1; subst a1
            rw [hp1] at a3; simp at a3; subst a3
            rw [hp2] at a4; simp at a4; subst a4
            exact hpt a5
        · rename_i hpf
          simp at ht
          refine none_case (by rw [← ht]) ?_
          rintro ⟨f', p', pf', c', t', r', a1, a2, a3, a4, _⟩
          rw [hf] at a1; simp at a1; subst a1
          rw [a3] at hpf
          simp [a4] at hpf
      · rename_i hc
        have hn := nocert (fun c hh => by rw [hc] at hh; simp at hh) i
        simp at h; subst h; simp [hn]
      · simp at h
      · simp at h
    · rename_i hty
      have hn := no (by rw [hty]; simp) i
      suffices hh : x.1.flag = v.flag by rw [hh]; simp [hn]
      split at h
      · obtain ⟨a, ha, h⟩ := Go.bind_eq_ok.mp h
        simp at h; subst h
        rw [flag_finish]; exact flag_addROA ha
      · simp at h; subst h; rfl
      · simp at h
      · simp at h
    · rename_i hty
      have hn := no (by rw [hty]; simp) i
      suffices hh : x.1.flag = v.flag by rw [hh]; simp [hn]
      split at h
      · obtain ⟨a, ha, h⟩ := Go.bind_eq_ok.mp h
        simp at h; subst h
        rw [flag_finish]; exact flag_addManifest ha
      · simp at h; subst h; rfl
      · simp at h
      · simp at h
    · rename_i hty
      have hn := no (by rw [hty]; simp) i
      suffices hh : x.1.flag = v.flag by rw [hh]; simp [hn]
      split at h
      · unfold V.addResourceCRL at h
        obtain ⟨a, ha, h⟩ := Go.bind_eq_ok.mp h
        have h1 := flag_addCRL ha
        split at h
        · simp at h
        · obtain ⟨b, _, h⟩ := Go.bind_eq_ok.mp h
          split at h
          · simp at h; subst h; exact h1
          · simp at h; subst h; rw [flag_finish]; exact h1
      · simp at h; subst h; rfl
      · simp at h
      · simp at h
    · rename_i h1 h2 h3 h4 h5
      simp at h; subst h
      simp [no h2 i]

end Verif.Pki
