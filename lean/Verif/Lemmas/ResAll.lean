import Verif.Lemmas.DataAll
/-
  Which file each object in the validator is said to come from.
-/
set_option autoImplicit false

namespace Verif.Pki
open Manager EndSpec

/-- All objects that the validator stores have, with their types and files, the property `D`. -/
def ResAll (D : ResData → FType → Option Nat → Prop) (v : V) : Prop := ∀ (i : Nat) (r : Res), v.heap[i]? = some r → D r.data r.type r.file

variable {D : ResData → FType → Option Nat → Prop}

theorem ResAll.congr {v v' : V} (h : v'.heap = v.heap) (hv : ResAll D v) : ResAll D v' := by
  intro i r hr
  rw [h] at hr
  exact hv i r hr

theorem ResAll.alloc {v : V} (hv : ResAll D v) (r : Res) (hr : D r.data r.type r.file) : ResAll D (v.alloc r) := by
  intro i x hx
  unfold V.alloc at hx
  simp only [List.getElem?_append] at hx
  split at hx
  · exact hv i x hx
  · have := List.mem_of_getElem? hx
    simp at this
    rw [this]; exact hr

theorem ResAll.modify {v : V} (hv : ResAll D v) (j : Nat) (f : Res → Res)
    (hf : ∀ r, v.heap[j]? = some r → D (f r).data (f r).type (f r).file) : ResAll D (v.modify j f) := by
  intro i x hx
  unfold V.modify at hx
  simp only [List.getElem?_modify] at hx
  cases hr : v.heap[i]? with
  | none => rw [hr] at hx; simp at hx
  | some r =>
    rw [hr] at hx
    by_cases h : j = i
    · subst h
      simp at hx
      rw [← hx]
      exact hf r hr
    · simp [h] at hx
      rw [← hx]
      exact hv i r hr

theorem ResAll.same {v : V} (hv : ResAll D v) (j : Nat) (f : Res → Res)
    (hf : ∀ r, (f r).data = r.data ∧ (f r).type = r.type ∧ (f r).file = r.file) : ResAll D (v.modify j f) := by
  refine hv.modify j f (fun r hr => ?_)
  obtain ⟨h1, h2, h3⟩ := hf r
  rw [h1, h2, h3]
  exact hv j r hr

theorem ResAll.invalidate {v v' : V} (hv : ResAll D v) {k : Bytes} (h : v.invalidateObject k = .ok v') : ResAll D v' := by
  obtain ⟨fin, _, _, _, _, hs, _⟩ := invalidateLoop_spec _ _ _ _ _ h (by simp)
  exact hv.congr hs.heap

theorem dataOf_congr {v v' : V} (h : v'.heap = v.heap) (i : Nat) : v'.dataOf i = v.dataOf i := by unfold V.dataOf; rw [h]

theorem data_of_get {v : V} {i : Nat} {r : Res} {d : ResData} (h : v.dataOf i = some d) (hr : v.heap[i]? = some r) : r.data = d := by
  unfold V.dataOf at h
  rw [hr] at h
  simpa using h

theorem ResAll.addCert {env : Env} {v : V} (hv : ResAll D v) {c : Cert} {t : Bool} (hc : D (.cert c) .unknown none) {x : V × Added}
    (h : v.addCert env c t = .ok x) : ResAll D x.1 ∧ x.2.res = some v.heap.length ∧ x.1.dataOf v.heap.length = some (.cert c) := by
  unfold V.addCert at h
  simp only at h
  split at h
  · simp at h; subst h
    exact ⟨hv.alloc _ hc, rfl, by rw [dataOf_alloc]; simp [objectToResource]⟩
  · obtain ⟨e, _, h⟩ := Go.bind_eq_ok.mp h
    simp at h; subst h
    have h1 := hv.alloc { (objectToResource (.cert c)) with parent := v.objects.get c.aki } hc
    refine ⟨?_, rfl, ?_⟩
    · refine ResAll.congr (v := V.link _ c _ _) rfl ?_
      unfold V.link
      split
      · split
        · exact ResAll.congr rfl (h1.same _ (fun r => { r with childs := r.childs ++ [v.heap.length] }) (fun _ => ⟨rfl, rfl, rfl⟩))
        · exact h1
      · exact h1
    · refine (dataOf_congr (v := V.link _ c _ _) rfl _).trans ?_
      unfold V.link
      split
      · split
        · refine (dataOf_congr (v := V.modify _ _ (fun r => { r with childs := r.childs ++ [v.heap.length] })) rfl _).trans ?_
          rw [dataOf_modify _ _ (fun r => { r with childs := r.childs ++ [v.heap.length] }) (fun _ => rfl), dataOf_alloc]
          simp [objectToResource]
        · rw [dataOf_alloc]; simp [objectToResource]
      · rw [dataOf_alloc]; simp [objectToResource]

theorem ResAll.attach {v : V} (hv : ResAll D v) (i : Nat) (e t : FType) (f : Option Nat) (d d0 : ResData)
    (hi : v.dataOf i = some d0) (h0 : D d0 e f) (hd : D d t f) : ResAll D (v.attach i e t f d) ∧
      (v.attach i e t f d).dataOf v.heap.length = some d := by
  unfold V.attach
  constructor
  · refine ResAll.same ?_ _ _ (fun _ => ⟨rfl, rfl, rfl⟩)
    refine ResAll.alloc ?_ _ hd
    refine hv.modify _ _ (fun r hr => ?_)
    rw [data_of_get hi hr]
    exact h0
  · rw [dataOf_modify _ _ (fun r => { r with childs := r.childs ++ [v.heap.length] }) (fun _ => rfl), dataOf_alloc]
    simp [V.modify, objectToResource]

theorem ResAll.addROA {env : Env} {v : V} (hv : ResAll D v) {f : Option Nat} {r : ROA} (hr : D (.roa r) .roa f)
    (hc : D (.cert r.cert) .unknown none) (hc2 : D (.cert r.cert) .roacer f) {x : V × Added}
    (h : v.addROA env f r = .ok x) : ResAll D x.1 ∧ ∀ i, x.2.res = some i → x.1.dataOf i = some (.roa r) := by
  unfold V.addROA at h
  obtain ⟨a, ha, h⟩ := Go.bind_eq_ok.mp h
  obtain ⟨h1, h2, h3⟩ := hv.addCert hc ha
  split at h
  · simp at h; subst h; exact ⟨h1, by simp⟩
  · rename_i i hi
    rw [h2] at hi
    simp at hi; subst hi
    simp at h; subst h
    obtain ⟨g1, g2⟩ := h1.attach _ .roacer .roa f (.roa r) _ h3 hc2 hr
    refine ⟨ResAll.congr rfl g1, ?_⟩
    intro i hi
    simp at hi; subst hi
    refine (dataOf_congr (v := a.1.attach _ _ _ _ _) rfl _).trans ?_
    exact g2

theorem ResAll.addManifest {env : Env} {v : V} (hv : ResAll D v) {f : Option Nat} {m : Mft} (hm : D (.mft m) .mft f)
    (hc : D (.cert m.cert) .unknown none) (hc2 : D (.cert m.cert) .mftcer f) {x : V × Added}
    (h : v.addManifest env f m = .ok x) : ResAll D x.1 ∧ ∀ i, x.2.res = some i → x.1.dataOf i = some (.mft m) := by
  unfold V.addManifest at h
  split at h
  · obtain ⟨a, ha, h⟩ := Go.bind_eq_ok.mp h
    obtain ⟨h1, h2, h3⟩ := hv.addCert hc ha
    split at h
    · simp at h; subst h; exact ⟨h1, by simp⟩
    · rename_i i hi
      rw [h2] at hi
      simp at hi; subst hi
      simp at h; subst h
      obtain ⟨g1, g2⟩ := h1.attach _ .mftcer .mft f (.mft m) _ h3 hc2 hm
      refine ⟨ResAll.congr rfl g1, ?_⟩
      intro i hi
      simp at hi; subst hi
      refine (dataOf_congr (v := a.1.attach _ _ _ _ _) rfl _).trans ?_
      exact g2
  · simp at h; subst h; exact ⟨hv, by simp⟩

theorem revokeLoop_heap {aki : Bytes} : ∀ (l : List Int) (v v' : V), Pki.revokeLoop aki l v = .ok v' → v'.heap = v.heap := by
  intro l
  induction l with
  | nil => intro v v' h; simp [Pki.revokeLoop] at h; subst h; rfl
  | cons s l ih =>
    intro v v' h
    simp only [Pki.revokeLoop] at h
    obtain ⟨v1, h1, h⟩ := Go.bind_eq_ok.mp h
    refine (ih _ _ h).trans ?_
    show v1.heap = v.heap
    unfold V.revokeOne at h1
    split at h1
    · simp at h1; subst h1; rfl
    · split at h1
      · simp at h1
      · split at h1
        · obtain ⟨fin, _, _, _, _, hs, _⟩ := invalidateLoop_spec _ _ _ _ _ h1 (by simp)
          exact hs.heap
        · simp at h1; subst h1; rfl

theorem ResAll.addCRL {env : Env} {v : V} (hv : ResAll D v) {l : CRL} (hl : D (.crl l) .crl none) {x : V × Added}
    (h : v.addCRL env l = .ok x) : ResAll D x.1 ∧ ∀ i, x.2.res = some i → x.1.dataOf i = some (.crl l) := by
  unfold V.addCRL at h
  simp only at h
  obtain ⟨o, _, h⟩ := Go.bind_eq_ok.mp h
  have h1 := hv.alloc { (objectToResource (.crl l)) with type := .crl, parent := v.objects.get l.aki } hl
  have hd : (v.alloc { (objectToResource (.crl l)) with type := .crl, parent := v.objects.get l.aki }).dataOf v.heap.length = some (.crl l) := by
    rw [dataOf_alloc]; simp [objectToResource]
  split at h
  · simp at h; subst h
    refine ⟨ResAll.congr rfl h1, ?_⟩
    intro i hi
    simp at hi; subst hi
    exact hd
  · obtain ⟨v2, h2, h⟩ := Go.bind_eq_ok.mp h
    have hh := revokeLoop_heap _ _ _ h2
    simp at h; subst h
    refine ⟨ResAll.congr rfl (ResAll.same (v := v2) (h1.congr hh) _ (fun r => { r with childs := r.childs ++ [v.heap.length] })
      (fun _ => ⟨rfl, rfl, rfl⟩)), ?_⟩
    intro i hi
    simp at hi; subst hi
    refine (dataOf_congr (v := v2.modify _ (fun r => { r with childs := r.childs ++ [v.heap.length] })) rfl _).trans ?_
    rw [dataOf_modify _ _ (fun r => { r with childs := r.childs ++ [v.heap.length] }) (fun _ => rfl), dataOf_congr hh]
    exact hd

theorem ResAll.setFile {v : V} (hv : ResAll D v) (i : Nat) (fid : Nat) (t : Option FType) (d : ResData) (hd : v.dataOf i = some d)
    (h : ∀ ty, D d (t.getD ty) (some fid)) : ResAll D (v.setFile (some i) fid t) := by
  unfold V.setFile
  refine hv.modify _ _ (fun r hr => ?_)
  simp only
  rw [data_of_get hd hr]
  exact h _

theorem ResAll.finish {v : V} (hv : ResAll D v) (fid : Nat) (f : PKIFile) (a : Added) (l : List PKIFile) (d : ResData)
    (hd : ∀ i, a.res = some i → v.dataOf i = some d) (h : ∀ ty, D d ty (some fid)) : ResAll D (v.finish fid f a l).1 := by
  unfold V.finish
  split
  · exact hv
  · rename_i i hi
    exact ResAll.congr rfl (hv.setFile i fid none d (hd i hi) (fun ty => h ty))

theorem ResAll.talCheck {v : V} (hv : ResAll D v) {files : List PKIFile} {f : PKIFile} {c : Cert} {x : V × Bool}
    (h : v.talCheck files f c = .ok x) : ResAll D x.1 := by
  unfold V.talCheck at h
  split at h
  · split at h
    · split at h
      · split at h
        · split at h
          · obtain ⟨b, _, h⟩ := Go.bind_eq_ok.mp h
            split at h
            · simp at h; subst h
              exact hv.same _ _ (fun _ => ⟨rfl, rfl, rfl⟩)
            · simp at h; subst h; exact hv
          · simp at h
        · simp at h
      · simp at h; subst h; exact hv
    · simp at h; subst h; exact hv
  · simp at h; subst h; exact hv

/-- A file given to the validator: the objects decoded from it are marked with it. -/
theorem ResAll.addResource {env : Env} {files : List PKIFile} {fid : Nat} {data : Bytes}
    (hD : ∀ f, files[fid]? = some f → ∀ d, FromFile env data f.type d → (∀ t, t ≠ .cer → D d t none) ∧
      ∀ t, (t = .cer → ∀ c, d = .cert c → f.type = .cer) → D d t (some fid))
    {v : V} (hv : ResAll D v) {x : V × Added} (h : v.addResource env files fid data = .ok x) : ResAll D x.1 := by
  unfold V.addResource at h
  split at h
  · simp at h
  · rename_i f hf
    have hD := hD f hf
    split at h
    · rename_i hty
      rw [hty] at hD
      split at h
      · rename_i t hdec
        simp at h; subst h
        obtain ⟨g1, g2⟩ := hD _ (.tal _ hdec)
        unfold V.addTAL
        refine ResAll.setFile (d := .tal t) (ResAll.congr rfl (hv.alloc _ (g1 _ (by simp)))) _ _ _ ?_ (fun ty => g2 _ (by simp))
        rw [dataOf_congr (v := v.alloc { objectToResource (.tal t) with type := .tal }) rfl, dataOf_alloc]
        simp [objectToResource]
      · simp at h; subst h; exact hv
      · simp at h
      · simp at h
    · rename_i hty
      rw [hty] at hD
      split at h
      · rename_i c hdec
        obtain ⟨g1, g2⟩ := hD _ (.cer _ hdec)
        unfold V.addResourceCer at h
        obtain ⟨t, ht, h⟩ := Go.bind_eq_ok.mp h
        have h1 := hv.talCheck ht
        split at h
        · obtain ⟨a, ha, h⟩ := Go.bind_eq_ok.mp h
          obtain ⟨k1, k2, k3⟩ := h1.addCert (g1 _ (by simp)) ha
          have h2 : ResAll D (a.1.setFile a.2.res fid (some .cer)) := by
            rw [k2]
            exact k1.setFile _ _ _ _ k3 (fun _ => g2 _ (fun _ _ _ => rfl))
          split at h
          · simp at h; subst h; exact h2
          · simp at h; subst h; exact ResAll.congr rfl h2
        · simp at h; subst h; exact h1
      · simp at h; subst h; exact hv
      · simp at h
      · simp at h
    · rename_i hty
      rw [hty] at hD
      split at h
      · rename_i r hdec
        obtain ⟨a, ha, h⟩ := Go.bind_eq_ok.mp h
        simp at h; subst h
        obtain ⟨g1, g2⟩ := hD _ (.roa _ hdec)
        obtain ⟨g3, g4⟩ := hD _ (.roaCert _ hdec)
        obtain ⟨k1, k2⟩ := hv.addROA (g2 _ (by simp)) (g3 _ (by simp)) (g4 _ (by simp)) ha
        exact k1.finish _ _ _ _ _ k2 (fun ty => g2 _ (by simp))
      · simp at h; subst h; exact hv
      · simp at h
      · simp at h
    · rename_i hty
      rw [hty] at hD
      split at h
      · rename_i m hm
        obtain ⟨a, ha, h⟩ := Go.bind_eq_ok.mp h
        simp at h; subst h
        obtain ⟨g1, g2⟩ := hD _ (.mft _ hm)
        obtain ⟨g3, g4⟩ := hD _ (.mftCert _ hm)
        obtain ⟨k1, k2⟩ := hv.addManifest (g2 _ (by simp)) (g3 _ (by simp)) (g4 _ (by simp)) ha
        exact k1.finish _ _ _ _ _ k2 (fun ty => g2 _ (by simp))
      · simp at h; subst h; exact hv
      · simp at h
      · simp at h
    · rename_i hty
      rw [hty] at hD
      split at h
      · rename_i l hdec
        obtain ⟨g1, g2⟩ := hD _ (.crl _ hdec)
        unfold V.addResourceCRL at h
        obtain ⟨a, ha, h⟩ := Go.bind_eq_ok.mp h
        obtain ⟨k1, k2⟩ := hv.addCRL (g1 _ (by simp)) ha
        split at h
        · simp at h
        · obtain ⟨b, _, h⟩ := Go.bind_eq_ok.mp h
          split at h
          · simp at h; subst h; exact k1
          · simp at h; subst h; exact k1.finish _ _ _ _ _ k2 (fun ty => g2 _ (by simp))
      · simp at h; subst h; exact hv
      · simp at h
      · simp at h
    · simp at h; subst h; exact hv

end Verif.Pki
