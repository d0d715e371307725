import Verif.Lemmas.Manager
import Verif.Spec.EndToEnd
/-
  Where the objects in the validator come from: each is a result of a decoder.
-/
set_option autoImplicit false

namespace Verif.Pki
open Manager EndSpec

/-- All objects that the validator stores have the property `D`. -/
def DataAll (D : ResData → Prop) (v : V) : Prop := ∀ i d, v.dataOf i = some d → D d

theorem DataAll.congr {D : ResData → Prop} {v v' : V} (h : v'.heap = v.heap) (hv : DataAll D v) : DataAll D v' := by
  intro i c hc
  unfold V.dataOf at hc
  rw [h] at hc
  exact hv i c hc

theorem DataAll.alloc {D : ResData → Prop} {v : V} (hv : DataAll D v) (r : Res) (hr : D r.data) : DataAll D (v.alloc r) := by
  intro i c hc
  rw [dataOf_alloc] at hc
  split at hc
  · rw [← Option.some.inj hc]; exact hr
  · exact hv i c hc

theorem DataAll.modify {D : ResData → Prop} {v : V} (hv : DataAll D v) (j : Nat) (f : Res → Res) (hf : ∀ r, (f r).data = r.data) :
    DataAll D (v.modify j f) := by
  intro i c hc
  rw [dataOf_modify v j f hf] at hc
  exact hv i c hc

theorem DataAll.invalidate {D : ResData → Prop} {v v' : V} (hv : DataAll D v) {k : Bytes} (h : v.invalidateObject k = .ok v') : DataAll D v' := by
  obtain ⟨fin, _, _, _, _, hs, _⟩ := invalidateLoop_spec _ _ _ _ _ h (by simp)
  exact hv.congr hs.heap

theorem DataAll.addCert {D : ResData → Prop} {env : Env} {v : V} (hv : DataAll D v) {c : Cert} {t : Bool} (hc : D (.cert c)) {x : V × Added}
    (h : v.addCert env c t = .ok x) : DataAll D x.1 := by
  unfold V.addCert at h
  simp only at h
  split at h
  · simp at h; subst h
    exact hv.alloc _ hc
  · obtain ⟨e, _, h⟩ := Go.bind_eq_ok.mp h
    simp at h; subst h
    have h1 := hv.alloc { (objectToResource (.cert c)) with parent := v.objects.get c.aki } hc
    refine DataAll.congr (v := V.link _ c _ _) rfl ?_
    unfold V.link
    split
    · split
      · exact DataAll.congr rfl (h1.modify _ (fun r => { r with childs := r.childs ++ [v.heap.length] }) (fun _ => rfl))
      · exact h1
    · exact h1

theorem DataAll.attach {D : ResData → Prop} {v : V} (hv : DataAll D v) (i : Nat) (e t : FType) (f : Option Nat) (d : ResData)
    (hd : D d) : DataAll D (v.attach i e t f d) := by
  unfold V.attach
  refine DataAll.modify ?_ _ _ (fun _ => rfl)
  refine DataAll.alloc ?_ _ hd
  exact hv.modify _ _ (fun _ => rfl)

theorem DataAll.addROA {D : ResData → Prop} {env : Env} {v : V} (hv : DataAll D v) {f : Option Nat} {r : ROA} (hr : D (.roa r)) (hc : D (.cert r.cert)) {x : V × Added}
    (h : v.addROA env f r = .ok x) : DataAll D x.1 := by
  unfold V.addROA at h
  obtain ⟨a, ha, h⟩ := Go.bind_eq_ok.mp h
  have h1 := hv.addCert hc ha
  split at h
  · simp at h; subst h; exact h1
  · simp at h; subst h
    exact DataAll.congr rfl (h1.attach _ .roacer .roa f (.roa r) hr)

theorem DataAll.addManifest {D : ResData → Prop} {env : Env} {v : V} (hv : DataAll D v) {f : Option Nat} {m : Mft} (hm : D (.mft m)) (hc : D (.cert m.cert)) {x : V × Added}
    (h : v.addManifest env f m = .ok x) : DataAll D x.1 := by
  unfold V.addManifest at h
  split at h
  · obtain ⟨a, ha, h⟩ := Go.bind_eq_ok.mp h
    have h1 := hv.addCert hc ha
    split at h
    · simp at h; subst h; exact h1
    · simp at h; subst h
      exact DataAll.congr rfl (h1.attach _ .mftcer .mft f (.mft m) hm)
  · simp at h; subst h; exact hv

theorem DataAll.revokeLoop {D : ResData → Prop} {aki : Bytes} : ∀ (l : List Int) (v v' : V), DataAll D v →
    Pki.revokeLoop aki l v = .ok v' → DataAll D v' := by
  intro l
  induction l with
  | nil => intro v v' hv h; simp [Pki.revokeLoop] at h; subst h; exact hv
  | cons s l ih =>
    intro v v' hv h
    simp only [Pki.revokeLoop] at h
    obtain ⟨v1, h1, h⟩ := Go.bind_eq_ok.mp h
    refine ih _ _ ?_ h
    refine DataAll.congr (v := v1) rfl ?_
    unfold V.revokeOne at h1
    split at h1
    · simp at h1; subst h1; exact hv
    · split at h1
      · simp at h1
      · split at h1
        · exact hv.invalidate h1
        · simp at h1; subst h1; exact hv

theorem DataAll.addCRL {D : ResData → Prop} {env : Env} {v : V} (hv : DataAll D v) {l : CRL} (hl : D (.crl l)) {x : V × Added}
    (h : v.addCRL env l = .ok x) : DataAll D x.1 := by
  unfold V.addCRL at h
  simp only at h
  obtain ⟨o, _, h⟩ := Go.bind_eq_ok.mp h
  have h1 := hv.alloc { (objectToResource (.crl l)) with type := .crl, parent := v.objects.get l.aki } hl
  split at h
  · simp at h; subst h
    exact DataAll.congr rfl h1
  · obtain ⟨v2, h2, h⟩ := Go.bind_eq_ok.mp h
    simp at h; subst h
    refine DataAll.congr rfl (DataAll.modify (v := v2) ?_ _ (fun r => { r with childs := r.childs ++ [v.heap.length] }) (fun _ => rfl))
    refine DataAll.revokeLoop _ _ _ (DataAll.congr ?_ h1) h2
    rfl

theorem DataAll.setFile {D : ResData → Prop} {v : V} (hv : DataAll D v) (r : Option Nat) (fid : Nat) (t : Option FType) :
    DataAll D (v.setFile r fid t) := by
  unfold V.setFile
  split
  · exact hv.modify _ _ (fun _ => rfl)
  · exact hv

theorem DataAll.finish {D : ResData → Prop} {v : V} (hv : DataAll D v) (fid : Nat) (f : PKIFile) (a : Added) (l : List PKIFile) :
    DataAll D (v.finish fid f a l).1 := by
  unfold V.finish
  split
  · exact hv
  · rename_i i _
    exact DataAll.congr rfl (hv.setFile (some i) fid none)

theorem DataAll.talCheck {D : ResData → Prop} {v : V} (hv : DataAll D v) {files : List PKIFile} {f : PKIFile} {c : Cert} {x : V × Bool}
    (h : v.talCheck files f c = .ok x) : DataAll D x.1 := by
  unfold V.talCheck at h
  split at h
  · split at h
    · split at h
      · split at h
        · split at h
          · obtain ⟨b, _, h⟩ := Go.bind_eq_ok.mp h
            split at h
            · simp at h; subst h
              exact hv.modify _ _ (fun _ => rfl)
            · simp at h; subst h; exact hv
          · simp at h
        · simp at h
      · simp at h; subst h; exact hv
    · simp at h; subst h; exact hv
  · simp at h; subst h; exact hv

/-- A file given to the validator: the objects are those of before, and those decoded from the file. -/
theorem DataAll.addResource {D : ResData → Prop} {env : Env} {files : List PKIFile} {fid : Nat} {data : Bytes}
    (hD : ∀ f, files[fid]? = some f → ∀ d, FromFile env data f.type d → D d) {v : V} (hv : DataAll D v) {x : V × Added} (h : v.addResource env files fid data = .ok x) : DataAll D x.1 := by
  unfold V.addResource at h
  split at h
  · simp at h
  · rename_i f hf
    have hD := hD f hf
    split at h
    · rename_i hty
      rw [hty] at hD
      split at h
      · rename_i hdec
        simp at h; subst h
        refine DataAll.setFile ?_ _ _ _
        unfold V.addTAL
        exact DataAll.congr rfl (hv.alloc _ (hD _ (.tal _ hdec)))
      · simp at h; subst h; exact hv
      · simp at h
      · simp at h
    · rename_i hty
      rw [hty] at hD
      split at h
      · rename_i hdec
        unfold V.addResourceCer at h
        obtain ⟨t, ht, h⟩ := Go.bind_eq_ok.mp h
        have h1 := hv.talCheck ht
        split at h
        · obtain ⟨a, ha, h⟩ := Go.bind_eq_ok.mp h
          have h2 := (h1.addCert (hD _ (.cer _ hdec)) ha).setFile a.2.res fid (some .cer)
          split at h
          · simp at h; subst h; exact h2
          · simp at h; subst h; exact DataAll.congr rfl h2
        · simp at h; subst h; exact h1
      · simp at h; subst h; exact hv
      · simp at h
      · simp at h
    · rename_i hty
      rw [hty] at hD
      split at h
      · rename_i hdec
        obtain ⟨a, ha, h⟩ := Go.bind_eq_ok.mp h
        simp at h; subst h
        exact (hv.addROA (hD _ (.roa _ hdec)) (hD _ (.roaCert _ hdec)) ha).finish _ _ _ _
      · simp at h; subst h; exact hv
      · simp at h
      · simp at h
    · rename_i hty
      rw [hty] at hD
      split at h
      · rename_i m hm
        obtain ⟨a, ha, h⟩ := Go.bind_eq_ok.mp h
        simp at h; subst h
        exact (hv.addManifest (hD _ (.mft _ hm)) (hD _ (.mftCert _ hm)) ha).finish _ _ _ _
      · simp at h; subst h; exact hv
      · simp at h
      · simp at h
    · rename_i hty
      rw [hty] at hD
      split at h
      · rename_i hdec
        unfold V.addResourceCRL at h
        obtain ⟨a, ha, h⟩ := Go.bind_eq_ok.mp h
        have h1 := hv.addCRL (hD _ (.crl _ hdec)) ha
        split at h
        · simp at h
        · obtain ⟨b, _, h⟩ := Go.bind_eq_ok.mp h
          split at h
          · simp at h; subst h; exact h1
          · simp at h; subst h; exact h1.finish _ _ _ _
      · simp at h; subst h; exact hv
      · simp at h
      · simp at h
    · simp at h; subst h; exact hv

end Verif.Pki

