import Verif.Lemmas.ResAll
/-
  The kind and the file of each object in the validator, exactly.
-/
set_option autoImplicit false

namespace Verif.Pki
open Manager EndSpec

/-- Contents, type and file of object `i`. -/
def V.core (v : V) (i : Nat) : Option (ResData × FType × Option Nat) := v.heap[i]?.map fun r => (r.data, r.type, r.file)

theorem core_congr {v v' : V} (h : v'.heap = v.heap) : v'.core = v.core := by
  funext i; unfold V.core; rw [h]

theorem core_alloc (v : V) (r : Res) (i : Nat) :
    (v.alloc r).core i = if i = v.heap.length then some (r.data, r.type, r.file) else v.core i := by
  unfold V.core V.alloc
  simp only [List.getElem?_append]
  split
  · rename_i h
    rw [if_neg (by omega)]
  · rename_i h
    by_cases hi : i = v.heap.length
    · simp [hi]
    · rw [if_neg hi, List.getElem?_eq_none (by simp; omega), List.getElem?_eq_none (by omega)]

theorem core_modify (v : V) (j : Nat) (f : Res → Res) (g : ResData × FType × Option Nat → ResData × FType × Option Nat)
    (hf : ∀ r, ((f r).data, (f r).type, (f r).file) = g (r.data, r.type, r.file)) (i : Nat) :
    (v.modify j f).core i = if i = j then (v.core i).map g else v.core i := by
  unfold V.core V.modify
  simp only [List.getElem?_modify]
  cases v.heap[i]? with
  | none => simp
  | some r =>
    by_cases h : i = j
    · simp [h, hf]
    · have : ¬ j = i := fun e => h e.symm
      simp [h, this]

theorem core_same (v : V) (j : Nat) (f : Res → Res)
    (hf : ∀ r, ((f r).data, (f r).type, (f r).file) = (r.data, r.type, r.file)) : (v.modify j f).core = v.core := by
  funext i
  rw [core_modify v j f id hf]
  simp

theorem core_lt {v : V} {i : Nat} {x : ResData × FType × Option Nat} (h : v.core i = some x) : i < v.heap.length := by
  unfold V.core at h
  obtain ⟨r, hr, _⟩ := Option.map_eq_some_iff.mp h
  exact (List.getElem?_eq_some_iff.mp hr).1

theorem len_modify (v : V) (j : Nat) (f : Res → Res) : (v.modify j f).heap.length = v.heap.length := by simp [V.modify]
theorem len_alloc (v : V) (r : Res) : (v.alloc r).heap.length = v.heap.length + 1 := by simp [V.alloc]

theorem core_addCert {env : Env} {v : V} {c : Cert} {t : Bool} {x : V × Added} (h : v.addCert env c t = .ok x) :
    (∀ i, x.1.core i = if i = v.heap.length then some (.cert c, .unknown, none) else v.core i) ∧
    x.2.res = some v.heap.length ∧ x.1.heap.length = v.heap.length + 1 := by
  unfold V.addCert at h
  simp only at h
  split at h
  · simp at h; subst h
    exact ⟨fun i => core_alloc _ _ _, rfl, len_alloc _ _⟩
  · obtain ⟨e, _, h⟩ := Go.bind_eq_ok.mp h
    simp at h; subst h
    have h1 := core_alloc v { (objectToResource (.cert c)) with parent := v.objects.get c.aki }
    have h2 := len_alloc v { (objectToResource (.cert c)) with parent := v.objects.get c.aki }
    refine ⟨fun i => ?_, rfl, ?_⟩
    · refine (congrFun (core_congr (v := V.link _ c _ _) rfl) i).trans ?_
      unfold V.link
      split
      · split
        · exact (congrFun (core_congr (v := V.modify _ _ (fun r => { r with childs := r.childs ++ [v.heap.length] })) rfl) i).trans
            ((congrFun (core_same _ _ (fun r => { r with childs := r.childs ++ [v.heap.length] }) (fun _ => rfl)) i).trans (h1 i))
        · exact h1 i
      · exact h1 i
    · show (V.link _ c _ _).heap.length = _
      unfold V.link
      split
      · split
        · exact (len_modify _ _ (fun r => { r with childs := r.childs ++ [v.heap.length] })).trans h2
        · exact h2
      · exact h2

theorem core_attach (v : V) (i : Nat) (e t : FType) (f : Option Nat) (d : ResData) (j : Nat) :
    (v.attach i e t f d).core j = if j = v.heap.length then some (d, t, f)
      else if j = i then (v.core j).map (fun p => (p.1, e, f)) else v.core j := by
  unfold V.attach
  rw [core_same _ _ (fun r => { r with childs := r.childs ++ [v.heap.length] }) (fun _ => rfl), core_alloc, len_modify]
  split
  · rfl
  · exact core_modify v i (fun r => { r with file := f, type := e }) (fun p => (p.1, e, f)) (fun _ => rfl) j

theorem core_setFile (v : V) (i : Nat) (fid : Nat) (t : Option FType) (j : Nat) :
    (v.setFile (some i) fid t).core j = if j = i then (v.core j).map (fun p => (p.1, t.getD p.2.1, some fid)) else v.core j :=
  core_modify v i (fun r => { r with file := some fid, type := t.getD r.type }) (fun p => (p.1, t.getD p.2.1, some fid)) (fun _ => rfl) j

/-- What the types of the objects from a file of this type are. -/
def typeFor : FType → ResData → FType
  | .cer, .cert _ => .cer
  | .roa, .cert _ => .roacer
  | .mft, .cert _ => .mftcer
  | _, .cert _ => .unknown
  | _, .tal _ => .tal
  | _, .roa _ => .roa
  | _, .mft _ => .mft
  | _, .crl _ => .crl

/-- An object decoded from the file `fid`, with the type and the file that it should have. -/
def NewObj (env : Env) (files : List PKIFile) (fid : Nat) (data : Bytes) (x : ResData × FType × Option Nat) : Prop :=
  ∃ f, files[fid]? = some f ∧ FromFile env data f.type x.1 ∧ x.2.1 = typeFor f.type x.1 ∧
    ((∃ l, x.1 = .crl l) ∨ x.2.2 = some fid)

theorem core_addROA {env : Env} {v : V} {f : Option Nat} {r : ROA} {x : V × Added} (h : v.addROA env f r = .ok x) :
    (∀ j, x.1.core j = if j = v.heap.length + 1 then some (.roa r, .roa, f)
      else if j = v.heap.length then some (.cert r.cert, .roacer, f) else v.core j) ∧ x.2.res = some (v.heap.length + 1) := by
  unfold V.addROA at h
  obtain ⟨a, ha, h⟩ := Go.bind_eq_ok.mp h
  obtain ⟨h1, h2, h3⟩ := core_addCert ha
  rw [h2] at h
  simp at h; subst h
  refine ⟨fun j => ?_, by simp [h3]⟩
  refine (congrFun (core_congr (v := a.1.attach _ _ _ _ _) rfl) j).trans ?_
  rw [core_attach, h3, h1]
  split
  · rfl
  · split <;> simp

theorem core_addManifest {env : Env} {v : V} {f : Option Nat} {m : Mft} {x : V × Added} (h : v.addManifest env f m = .ok x) :
    (x.1 = v ∧ x.2.res = none) ∨ ((∀ j, x.1.core j = if j = v.heap.length + 1 then some (.mft m, .mft, f)
      else if j = v.heap.length then some (.cert m.cert, .mftcer, f) else v.core j) ∧ x.2.res = some (v.heap.length + 1)) := by
  unfold V.addManifest at h
  split at h
  · right
    obtain ⟨a, ha, h⟩ := Go.bind_eq_ok.mp h
    obtain ⟨h1, h2, h3⟩ := core_addCert ha
    rw [h2] at h
    simp at h; subst h
    refine ⟨fun j => ?_, by simp [h3]⟩
    refine (congrFun (core_congr (v := a.1.attach _ _ _ _ _) rfl) j).trans ?_
    rw [core_attach, h3, h1]
    split
    · rfl
    · split <;> simp
  · left
    simp at h; subst h; exact ⟨rfl, rfl⟩

theorem core_addCRL {env : Env} {v : V} {l : CRL} {x : V × Added} (h : v.addCRL env l = .ok x) :
    (∀ j, x.1.core j = if j = v.heap.length then some (.crl l, .crl, none) else v.core j) ∧ x.2.res = some v.heap.length := by
  unfold V.addCRL at h
  simp only at h
  obtain ⟨o, _, h⟩ := Go.bind_eq_ok.mp h
  have h1 := core_alloc v { (objectToResource (.crl l)) with type := .crl, parent := v.objects.get l.aki }
  split at h
  · simp at h; subst h
    exact ⟨fun j => (congrFun (core_congr rfl) j).trans (h1 j), rfl⟩
  · obtain ⟨v2, h2, h⟩ := Go.bind_eq_ok.mp h
    have hh := revokeLoop_heap _ _ _ h2
    simp at h; subst h
    refine ⟨fun j => ?_, rfl⟩
    refine (congrFun (core_congr (v := v2.modify _ (fun r => { r with childs := r.childs ++ [v.heap.length] })) rfl) j).trans ?_
    rw [core_same _ _ (fun r => { r with childs := r.childs ++ [v.heap.length] }) (fun _ => rfl)]
    exact (congrFun (core_congr hh) j).trans (h1 j)

theorem core_finish (v : V) (fid : Nat) (f : PKIFile) (a : Added) (l : List PKIFile) (i : Nat) (hi : a.res = some i) (j : Nat) :
    (v.finish fid f a l).1.core j = if j = i then (v.core j).map (fun p => (p.1, p.2.1, some fid)) else v.core j := by
  unfold V.finish
  rw [hi]
  exact (congrFun (core_congr (v := v.setFile _ _ _) rfl) j).trans (core_setFile v i fid none j)

theorem core_talCheck {v : V} {files : List PKIFile} {f : PKIFile} {c : Cert} {x : V × Bool}
    (h : v.talCheck files f c = .ok x) : x.1.core = v.core ∧ x.1.heap.length = v.heap.length := by
  unfold V.talCheck at h
  split at h
  · split at h
    · split at h
      · split at h
        · split at h
          · obtain ⟨b, _, h⟩ := Go.bind_eq_ok.mp h
            split at h
            · simp at h; subst h
              exact ⟨core_same _ _ (fun r => { r with certTALValid := true }) (fun _ => rfl), len_modify _ _ _⟩
            · simp at h; subst h; exact ⟨rfl, rfl⟩
          · simp at h
        · simp at h
      · simp at h; subst h; exact ⟨rfl, rfl⟩
    · simp at h; subst h; exact ⟨rfl, rfl⟩
  · simp at h; subst h; exact ⟨rfl, rfl⟩

/-- A file given to the validator: each object was there before, as it is, or was decoded from the file, and has the right type. -/
theorem core_addResource {env : Env} {files : List PKIFile} {v : V} {fid : Nat} {data : Bytes} {x : V × Added}
    (h : v.addResource env files fid data = .ok x) (j : Nat) (o : ResData × FType × Option Nat) (ho : x.1.core j = some o) :
    v.core j = some o ∨ NewObj env files fid data o := by
  unfold V.addResource at h
  split at h
  · simp at h
  · rename_i f hf
    split at h
    · rename_i hty
      split at h
      · rename_i t hdec
        simp at h; subst h
        have q : ∀ j, (v.addTAL env t).1.core j = if j = v.heap.length then some (.tal t, .tal, none) else v.core j := fun j =>
          (congrFun (core_congr (v := v.alloc { objectToResource (.tal t) with type := .tal }) rfl) j).trans (core_alloc _ _ _)
        have ho : ((v.addTAL env t).1.setFile (some v.heap.length) fid none).core j = some o := ho
        rw [core_setFile, q] at ho
        split at ho
        · simp at ho; subst ho
          exact .inr ⟨f, hf, by rw [hty]; exact .tal t hdec, by simp [typeFor], .inr rfl⟩
        · exact .inl ho
      · simp at h; subst h; exact .inl ho
      · simp at h
      · simp at h
    · rename_i hty
      split at h
      · rename_i c hdec
        unfold V.addResourceCer at h
        obtain ⟨t, ht, h⟩ := Go.bind_eq_ok.mp h
        obtain ⟨g1, g2⟩ := core_talCheck ht
        split at h
        · obtain ⟨a, ha, h⟩ := Go.bind_eq_ok.mp h
          obtain ⟨k1, k2, k3⟩ := core_addCert ha
          rw [k2] at h
          simp only [Go.ok.injEq] at h; subst h
          have ho : (a.1.setFile (some t.1.heap.length) fid (some .cer)).core j = some o := ho
          rw [core_setFile, k1, g1] at ho
          split at ho
          · simp at ho; subst ho
            exact .inr ⟨f, hf, by rw [hty]; exact .cer c hdec, by simp [typeFor, hty], .inr rfl⟩
          · exact .inl ho
        · simp at h; subst h
          rw [g1] at ho; exact .inl ho
      · simp at h; subst h; exact .inl ho
      · simp at h
      · simp at h
    · rename_i hty
      split at h
      · rename_i r hdec
        obtain ⟨a, ha, h⟩ := Go.bind_eq_ok.mp h
        simp at h; subst h
        obtain ⟨k1, k2⟩ := core_addROA ha
        rw [core_finish _ _ _ _ _ _ k2, k1] at ho
        split at ho
        · simp at ho; subst ho
          exact .inr ⟨f, hf, by rw [hty]; exact .roa r hdec, by simp [typeFor], .inr rfl⟩
        · split at ho
          · simp at ho; subst ho
            exact .inr ⟨f, hf, by rw [hty]; exact .roaCert r hdec, by simp [typeFor, hty], .inr rfl⟩
          · exact .inl ho
      · simp at h; subst h; exact .inl ho
      · simp at h
      · simp at h
    · rename_i hty
      split at h
      · rename_i m hdec
        obtain ⟨a, ha, h⟩ := Go.bind_eq_ok.mp h
        simp at h; subst h
        rcases core_addManifest ha with ⟨k1, k2⟩ | ⟨k1, k2⟩
        · unfold V.finish at ho
          rw [k2] at ho
          simp only [k1] at ho
          exact .inl ho
        · rw [core_finish _ _ _ _ _ _ k2, k1] at ho
          split at ho
          · simp at ho; subst ho
            exact .inr ⟨f, hf, by rw [hty]; exact .mft m hdec, by simp [typeFor], .inr rfl⟩
          · split at ho
            · simp at ho; subst ho
              exact .inr ⟨f, hf, by rw [hty]; exact .mftCert m hdec, by simp [typeFor, hty], .inr rfl⟩
            · exact .inl ho
      · simp at h; subst h; exact .inl ho
      · simp at h
      · simp at h
    · rename_i hty
      split at h
      · rename_i l hdec
        unfold V.addResourceCRL at h
        obtain ⟨a, ha, h⟩ := Go.bind_eq_ok.mp h
        obtain ⟨k1, k2⟩ := core_addCRL ha
        rw [k2] at h
        simp only at h
        obtain ⟨b, _, h⟩ := Go.bind_eq_ok.mp h
        have hnew : ∀ fo, NewObj env files fid data (.crl l, .crl, fo) := fun fo =>
          ⟨f, hf, by rw [hty]; exact .crl l hdec, by simp [typeFor], .inl ⟨l, rfl⟩⟩
        split at h
        · simp at h; subst h
          simp only [k1] at ho
          split at ho
          · simp at ho; subst ho; exact .inr (hnew _)
          · exact .inl ho
        · simp at h; subst h
          rw [core_finish _ _ _ _ _ _ k2, k1] at ho
          split at ho
          · simp at ho; subst ho; exact .inr (hnew _)
          · exact .inl ho
      · simp at h; subst h; exact .inl ho
      · simp at h
      · simp at h
    · simp at h; subst h; exact .inl ho

end Verif.Pki
