import Verif.Lemmas.PkiInv
/-
  What every operation of the Validator preserves.
-/
set_option autoImplicit false

namespace Verif.Pki
open Net _root_.Verif.Cert Roa PkiSpec

/-- What never changes, and what can become valid. -/
structure Frame (T : Bytes → Prop) (v v' : V) : Prop where
  obj : ∀ k i, v.objects.get k = some i → v'.objects.get k = some i
  val : ∀ k i j, v.objects.get k = some i → v'.validObjects.get k = some j → v.validObjects.get k = some j
  data : ∀ i d, v.dataOf i = some d → v'.dataOf i = some d
  rev : ∀ key, (v.revoked.get key).isSome = true → (v'.revoked.get key).isSome = true
  new : ∀ k j, v'.validObjects.get k = some j → v.validObjects.get k = some j ∨
    ∃ c, v'.certOf j = some c ∧ (T k ∨ v.revoked.get (serialKey c.aki c.serial) = none)

theorem Frame.cert {T : Bytes → Prop} {v v' : V} (h : Frame T v v') {i : Nat} {c : Cert}
    (hc : v.certOf i = some c) : v'.certOf i = some c :=
  (certOf_eq _ _ _).mpr (h.data _ _ ((certOf_eq _ _ _).mp hc))

theorem Frame.refl (T : Bytes → Prop) (v : V) : Frame T v v :=
  ⟨fun _ _ h => h, fun _ _ _ _ h => h, fun _ _ h => h, fun _ h => h, fun _ _ h => .inl h⟩

theorem Frame.trans {T : Bytes → Prop} {a b c : V} (h : Frame T a b) (h' : Frame T b c) : Frame T a c := by
  refine ⟨fun k i hk => h'.obj k i (h.obj k i hk), ?_, fun i d hd => h'.data i d (h.data i d hd),
    fun key hk => h'.rev key (h.rev key hk), ?_⟩
  · intro k i j hk hj
    exact h.val k i j hk (h'.val k i j (h.obj k i hk) hj)
  · intro k j hj
    rcases h'.new k j hj with hb | ⟨d, hd, hh⟩
    · rcases h.new k j hb with ha | ⟨d, hd, hh⟩
      · exact .inl ha
      · exact .inr ⟨d, h'.cert hd, hh⟩
    · refine .inr ⟨d, hd, hh.imp id ?_⟩
      intro hn
      cases hr : a.revoked.get (serialKey d.aki d.serial) with
      | none => rfl
      | some x =>
        have := h.rev (serialKey d.aki d.serial) (by rw [hr]; rfl)
        rw [hn] at this; simp at this

theorem HeapExt.frame {T : Bytes → Prop} {v v' : V} (h : HeapExt v v') : Frame T v v' := by
  refine ⟨?_, ?_, h.data, ?_, ?_⟩
  · intro k i hk; rw [h.objects]; exact hk
  · intro k i j _ hj; rw [h.validObjects] at hj; exact hj
  · intro key hk; rw [h.revoked]; exact hk
  · intro k j hj; rw [h.validObjects] at hj; exact .inl hj

theorem Frame.of_eq {T : Bytes → Prop} {v v' : V} (h1 : v'.heap = v.heap) (h2 : v'.objects = v.objects)
    (h3 : v'.validObjects = v.validObjects) (h4 : v'.revoked = v.revoked) : Frame T v v' := by
  refine ⟨?_, ?_, ?_, ?_, ?_⟩
  · intro k i hk; rw [h2]; exact hk
  · intro k i j _ hj; rw [h3] at hj; exact hj
  · intro i d hd; unfold V.dataOf; rw [h1]; exact hd
  · intro key hk; rw [h4]; exact hk
  · intro k j hj; rw [h3] at hj; exact .inl hj

theorem frame_invalidate {T : Bytes → Prop} {v v' : V} {k : Bytes} (h : v.invalidateObject k = .ok v') :
    Frame T v v' := by
  obtain ⟨hs, hr, hn⟩ := invalidateObject_spec h
  have hval : ∀ x i, v'.validObjects.get x = some i → v.validObjects.get x = some i := by
    intro x i hx
    by_cases hxr : Reach v k x
    · rw [(hr x hxr).1] at hx; simp at hx
    · rw [(hn x hxr).1] at hx; exact hx
  refine ⟨?_, fun x i j _ hj => hval x j hj, ?_, ?_, fun x j hj => .inl (hval x j hj)⟩
  · intro x i hx; rw [hs.objects]; exact hx
  · intro i d hd; unfold V.dataOf; rw [hs.heap]; exact hd
  · intro key hk; rw [hs.revoked]; exact hk

theorem frame_revoke {T : Bytes → Prop} (v : V) (key : Bytes) :
    Frame T v { v with revoked := v.revoked.set key true } := by
  refine ⟨fun _ _ h => h, fun _ _ _ _ h => h, fun _ _ h => h, ?_, fun _ _ h => .inl h⟩
  intro k hk
  simp only [Map.get_set]
  split
  · rfl
  · exact hk

/-- Both together, from a state that satisfies the invariant. -/
def Good (env : Env) (T : Bytes → Prop) (P : ROA → Prop) (v v' : V) : Prop :=
  Inv env T P v → Inv env T P v' ∧ Frame T v v'

theorem Good.trans {env : Env} {T : Bytes → Prop} {P : ROA → Prop} {a b c : V} (h : Good env T P a b)
    (h' : Good env T P b c) : Good env T P a c := by
  intro hi
  obtain ⟨h1, h2⟩ := h hi
  obtain ⟨h3, h4⟩ := h' h1
  exact ⟨h3, h2.trans h4⟩

theorem good_refl (env : Env) (T : Bytes → Prop) (P : ROA → Prop) (v : V) : Good env T P v v :=
  fun hi => ⟨hi, .refl T v⟩

theorem good_setFile (env : Env) (T : Bytes → Prop) (P : ROA → Prop) (v : V) (res : Option Nat) (fid : Nat)
    (t : Option FType) : Good env T P v (v.setFile res fid t) := by
  intro hi
  unfold V.setFile
  split
  · refine ⟨hi.touch _ _ (fun _ => rfl) (fun _ => rfl) (fun _ => rfl), HeapExt.frame ?_⟩
    apply heapExt_touch <;> intro _ <;> rfl
  · exact ⟨hi, .refl T v⟩

theorem good_path (env : Env) (T : Bytes → Prop) (P : ROA → Prop) (v : V) (m : Map Nat) :
    Good env T P v { v with objectsPath := m } :=
  fun hi => ⟨hi.other rfl rfl rfl rfl rfl rfl rfl, .of_eq rfl rfl rfl rfl⟩

theorem good_addTAL (env : Env) (T : Bytes → Prop) (P : ROA → Prop) (v : V) (t : Tal.RPKITAL) :
    Good env T P v (v.addTAL env t).1 := by
  intro hi
  have h1 : Inv env T P (v.alloc { objectToResource (.tal t) with type := .tal }) :=
    hi.alloc _ rfl (by intro p hp; simp [objectToResource] at hp)
  refine ⟨h1.other rfl rfl rfl rfl rfl rfl rfl, ?_⟩
  exact (heapExt_alloc v _).frame.trans (.of_eq rfl rfl rfl rfl)

/-- `AddCert`. -/
theorem frame_addCert {T : Bytes → Prop} {env : Env} {v v' : V} {c : Cert} {trust : Bool} {a : Added}
    (hv : ∀ k i, v.validObjects.get k = some i → v.objects.get k = some i)
    (ht : trust = true → v.objects.get c.ski = none →
      (c.notBefore ≤ env.now ∧ env.now ≤ c.notAfter) → T c.ski) (h : v.addCert env c trust = .ok (v', a)) :
    Frame T v v' ∧ v'.certOf v.heap.length = some c ∧
      (a.valid = true → v'.validObjects.get c.ski = some v.heap.length ∧
        v'.objects.get c.ski = some v.heap.length) := by
  obtain ⟨_, ⟨i, hi, rfl, hf, _⟩ | ⟨hn, _, he, hva, rfl⟩⟩ := addCert_ok h
  · refine ⟨(heapExt_alloc v _).frame, ?_, by simp [hf]⟩
    rw [certOf_eq, dataOf_alloc]; simp [objectToResource]
  · have hext := heapExt_alloc v { objectToResource (.cert c) with parent := v.objects.get c.aki }
    have hcert : (v.alloc { objectToResource (.cert c) with parent := v.objects.get c.aki }).certOf
        v.heap.length = some c := by
      rw [certOf_eq, dataOf_alloc]; simp [objectToResource]
    generalize v.alloc { objectToResource (.cert c) with parent := v.objects.get c.aki } = v1 at hext hcert
    have hlink : ∃ v2, v2 = v1.link c v.heap.length a.valid ∧ v2.objects = v1.objects ∧
        v2.validObjects = v1.validObjects ∧ v2.revoked = v1.revoked ∧
        (∀ i, v2.dataOf i = v1.dataOf i) := by
      refine ⟨_, rfl, ?_⟩
      unfold V.link
      split
      · split
        · refine ⟨rfl, rfl, rfl, fun i => ?_⟩
          show V.dataOf (V.modify _ _ _) i = _
          apply dataOf_modify
          intro _; rfl
        · exact ⟨rfl, rfl, rfl, fun _ => rfl⟩
      · exact ⟨rfl, rfl, rfl, fun _ => rfl⟩
    obtain ⟨v2, e2, ho2, hv2, hr2, hd2⟩ := hlink
    rw [← e2]
    have hcert2 : v2.certOf v.heap.length = some c := by rw [certOf_eq, hd2]; exact (certOf_eq _ _ _).mp hcert
    have hnv : v.validObjects.get c.ski = none := by
      cases hvv : v.validObjects.get c.ski with
      | none => rfl
      | some j => have := hv _ _ hvv; rw [hn] at this; simp at this
    refine ⟨⟨?_, ?_, ?_, ?_, ?_⟩, hcert2, ?_⟩
    · intro k i hk
      show (v2.objects.set c.ski v.heap.length).get k = some i
      rw [Map.get_set, if_neg, ho2, hext.objects]
      · exact hk
      · rintro rfl; rw [hn] at hk; simp at hk
    · intro k i j hk hj
      have hne : k ≠ c.ski := by rintro rfl; rw [hn] at hk; simp at hk
      unfold V.store at hj
      simp only at hj
      split at hj
      · rw [Map.get_set, if_neg hne, hv2, hext.validObjects] at hj; exact hj
      · rw [hv2, hext.validObjects] at hj; exact hj
    · intro i d hd
      show v2.dataOf i = some d
      rw [hd2]; exact hext.data i d hd
    · intro key hk
      show (v2.revoked.get key).isSome = true
      rw [hr2, hext.revoked]; exact hk
    · intro k j hj
      unfold V.store at hj
      simp only at hj
      split at hj
      · rename_i hav
        rw [Map.get_set] at hj
        split at hj
        · rename_i hk
          simp at hj
          subst hj
          refine .inr ⟨c, hcert2, ?_⟩
          cases htr : trust with
          | true => 
            have hev : a.error = none := by
              rw [hva] at hav; simp at hav; exact hav.2
            rw [hev] at he
            exact .inl (by rw [hk]; exact ht htr hn (validate_window (errOf_none he)))
          | false =>
            right
            have hev : a.error = none := by
              rw [hva] at hav; simp at hav; exact hav.2
            rw [hev, htr] at he
            obtain ⟨_, _, _, _, _, _, h5, _⟩ := validate_ok (errOf_none he)
            exact h5
        · rw [hv2, hext.validObjects] at hj; exact .inl hj
      · rw [hv2, hext.validObjects] at hj; exact .inl hj
    · intro hav
      unfold V.store
      simp [hav, Map.get_set]

theorem good_addCert {env : Env} {T : Bytes → Prop} {P : ROA → Prop} {v v' : V} {c : Cert} {trust : Bool}
    {a : Added} (ht : trust = true → v.objects.get c.ski = none →
      (c.notBefore ≤ env.now ∧ env.now ≤ c.notAfter) → T c.ski) (h : v.addCert env c trust = .ok (v', a)) : Good env T P v v' :=
  fun hi => ⟨hi.addCert ht h, (frame_addCert hi.val ht h).1⟩

/-! ### ROAs and manifests -/

theorem attach_props {env : Env} {T : Bytes → Prop} {P : ROA → Prop} {v : V} (hi : Inv env T P v)
    {i : Nat} {c : Cert} (hc : v.certOf i = some c) (t1 t2 : FType) (file : Option Nat) (d : ResData)
    (hd : (∃ r, d = .roa r ∧ r.cert = c) ∨ (∃ m, d = .mft m ∧ m.cert = c)) :
    Inv env T P (v.attach i t1 t2 file d) ∧ HeapExt v (v.attach i t1 t2 file d) ∧
      (v.attach i t1 t2 file d).dataOf v.heap.length = some d := by
  have hil := dataOf_lt ((certOf_eq _ _ _).mp hc)
  have h1 : Inv env T P (v.modify i (fun r => { r with file := file, type := t1 })) :=
    hi.touch _ _ (fun _ => rfl) (fun _ => rfl) (fun _ => rfl)
  have e1 : HeapExt v (v.modify i (fun r => { r with file := file, type := t1 })) :=
    heapExt_touch _ _ _ (fun _ => rfl) (fun _ => rfl) (fun _ => rfl)
  have hl1 := length_modify v i (fun r => { r with file := file, type := t1 })
  unfold V.attach
  generalize v.modify i (fun r => { r with file := file, type := t1 }) = v1 at h1 e1 hl1 ⊢
  have h2 := h1.alloc { objectToResource d with type := t2, file := file, parent := some i } rfl
    (by intro p hp; simp at hp; omega)
  have e2 := heapExt_alloc v1 { objectToResource d with type := t2, file := file, parent := some i }
  have d2 : (v1.alloc { objectToResource d with type := t2, file := file, parent := some i }).dataOf
      v.heap.length = some d := by
    rw [dataOf_alloc, hl1]; simp [objectToResource]
  generalize v1.alloc { objectToResource d with type := t2, file := file, parent := some i } = v2 at h2 e2 d2 ⊢
  refine ⟨h2.addChild i v.heap.length ?_, (e1.trans e2).trans (heapExt_addChild _ _ _), ?_⟩
  · intro k hk
    obtain ⟨c', hc', hk'⟩ := h2.obj k i hk
    have := (e1.trans e2).cert hc
    rw [this] at hc'
    simp at hc'
    subst hc'
    rcases hd with ⟨r, rfl, rfl⟩ | ⟨m, rfl, rfl⟩
    · exact .inr (.inl ⟨r, d2, hk'⟩)
    · exact .inr (.inr (.inl ⟨m, d2, hk'⟩))
  · rw [dataOf_modify]
    · exact d2
    · intro r; rfl

theorem good_addROA {env : Env} {T : Bytes → Prop} {P : ROA → Prop} {v v' : V} {file : Option Nat}
    {roa : ROA} {a : Added} (hP : P roa) (h : v.addROA env file roa = .ok (v', a)) : Good env T P v v' := by
  intro hi
  unfold V.addROA at h
  obtain ⟨⟨w, b⟩, hb, h⟩ := Go.bind_eq_ok.mp h
  have hw := hi.addCert (by simp) hb
  obtain ⟨hfw, hcw, hvw⟩ := frame_addCert (T := T) hi.val (by simp) hb
  have hres := (addCert_ok hb).1
  simp only [hres] at h
  simp only [Go.ok.injEq, Prod.mk.injEq] at h
  obtain ⟨rfl, rfl⟩ := h
  obtain ⟨h1, h2, h3⟩ := attach_props hw hcw .roacer .roa file (.roa roa) (.inl ⟨roa, rfl, rfl⟩)
  generalize w.attach v.heap.length .roacer .roa file (.roa roa) = x at h1 h2 h3 ⊢
  refine ⟨?_, (hfw.trans h2.frame).trans (.of_eq rfl rfl rfl rfl)⟩
  have hv0 : ∀ (y : Bool), (y = true → b.valid = true ∧ roaError roa none = none) →
      Inv env T P (x.storeROA roa.cert.ski w.heap.length y) := by
    intro y hy
    have hx : Inv env T P (x.storeROA roa.cert.ski w.heap.length false) :=
      h1.other rfl rfl rfl rfl rfl rfl rfl
    cases y with
    | false => exact hx
    | true =>
      obtain ⟨hy1, hy2⟩ := hy rfl
      refine ⟨hx.obj, hx.val, hx.chain, hx.kids, hx.par, hx.serial, ?_, hx.vcrl, hx.vmft⟩
      intro k j hk
      simp only [V.storeROA, if_true] at hk
      rw [Map.get_set] at hk
      split at hk
      · rename_i hks
        simp at hk
        subst hk
        refine ⟨roa, v.heap.length, h3, hks.symm, hy2, hP, ?_, h2.cert hcw⟩
        show x.validObjects.get k = _
        rw [h2.validObjects, hks]
        exact (hvw hy1).1
      · exact h1.vroa k j hk
  apply hv0
  intro hh
  simpa using hh

theorem good_addManifest {env : Env} {T : Bytes → Prop} {P : ROA → Prop} {v v' : V} {file : Option Nat}
    {m : Mft} {a : Added} (h : v.addManifest env file m = .ok (v', a)) : Good env T P v v' := by
  intro hi
  unfold V.addManifest at h
  split at h
  · obtain ⟨⟨w, b⟩, hb, h⟩ := Go.bind_eq_ok.mp h
    have hw := hi.addCert (by simp) hb
    obtain ⟨hfw, hcw, hvw⟩ := frame_addCert (T := T) hi.val (by simp) hb
    have hres := (addCert_ok hb).1
    simp only [hres] at h
    simp only [Go.ok.injEq, Prod.mk.injEq] at h
    obtain ⟨rfl, rfl⟩ := h
    obtain ⟨h1, h2, h3⟩ := attach_props hw hcw .mftcer .mft file (.mft m) (.inr ⟨m, rfl, rfl⟩)
    generalize w.attach v.heap.length .mftcer .mft file (.mft m) = x at h1 h2 h3 ⊢
    refine ⟨?_, (hfw.trans h2.frame).trans (.of_eq rfl rfl rfl rfl)⟩
    have hv0 : ∀ (y : Bool), (y = true → b.valid = true ∧ m.innerValid = true) →
        Inv env T P (x.storeMft m.cert.ski w.heap.length y) := by
      intro y hy
      have hx : Inv env T P (x.storeMft m.cert.ski w.heap.length false) :=
        h1.other rfl rfl rfl rfl rfl rfl rfl
      cases y with
      | false => exact hx
      | true =>
        obtain ⟨hy1, hy2⟩ := hy rfl
        refine ⟨hx.obj, hx.val, hx.chain, hx.kids, hx.par, hx.serial, hx.vroa, hx.vcrl, ?_⟩
        intro k j hk
        simp only [V.storeMft, if_true] at hk
        rw [Map.get_set] at hk
        split at hk
        · rename_i hks
          simp at hk
          subst hk
          refine ⟨m, v.heap.length, h3, hks.symm, hy2, ?_, h2.cert hcw⟩
          show x.objects.get k = _
          rw [h2.objects, hks]
          exact (hvw hy1).2
        · exact h1.vmft k j hk
    apply hv0
    intro hh
    simpa using hh
  · simp only [Go.ok.injEq, Prod.mk.injEq] at h
    obtain ⟨rfl, rfl⟩ := h
    exact ⟨hi, .refl T v⟩

/-! ### CRLs -/

theorem revokeOne_cases {v v1 : V} {aki : Bytes} {s : Int} (h : v.revokeOne aki s = .ok v1) :
    v1 = v ∨ ∃ i c, v.certsSerial.get (serialKey aki s) = some i ∧ v.certOf i = some c ∧ c.serial = s ∧
      v.invalidateObject c.ski = .ok v1 := by
  unfold V.revokeOne at h
  split at h
  · simp at h; exact .inl h.symm
  · rename_i i hi
    split at h
    · simp at h
    · rename_i c hc
      split at h
      · exact .inr ⟨i, c, hi, hc, by assumption, h⟩
      · simp at h; exact .inl h.symm

theorem good_revokeLoop {env : Env} {T : Bytes → Prop} {P : ROA → Prop} (aki : Bytes) :
    ∀ (l : List Int) (v v' : V), revokeLoop aki l v = .ok v' →
      Good env T P v v' ∧ v'.heap = v.heap ∧ v'.objects = v.objects ∧ v'.certsSerial = v.certsSerial ∧
      (∀ s ∈ l, (v'.revoked.get (serialKey aki s)).isSome = true) := by
  intro l
  induction l with
  | nil =>
    intro v v' h
    simp [revokeLoop] at h
    subst h
    exact ⟨good_refl _ _ _ _, rfl, rfl, rfl, by simp⟩
  | cons s rest ih =>
    intro v v' h
    unfold revokeLoop at h
    obtain ⟨v1, h1, h⟩ := Go.bind_eq_ok.mp h
    have hg1 : Good env T P v v1 ∧ v1.heap = v.heap ∧ v1.objects = v.objects ∧ v1.certsSerial = v.certsSerial := by
      rcases revokeOne_cases h1 with rfl | ⟨i, c, _, _, _, h1⟩
      · exact ⟨good_refl _ _ _ _, rfl, rfl, rfl⟩
      · have hs := (invalidateObject_spec h1).1
        exact ⟨fun hi => ⟨hi.invalidated h1, frame_invalidate h1⟩, hs.heap, hs.objects, hs.certsSerial⟩
    obtain ⟨hg2, e1, e2, e3, hr⟩ := ih _ _ h
    refine ⟨?_, e1.trans hg1.2.1, e2.trans hg1.2.2.1, e3.trans hg1.2.2.2, ?_⟩
    · intro hi
      obtain ⟨hi1, hf1⟩ := hg1.1 hi
      obtain ⟨hi2, hf2⟩ := hg2 (hi1.other rfl rfl rfl rfl rfl rfl rfl)
      exact ⟨hi2, (hf1.trans (frame_revoke v1 _)).trans hf2⟩
    · intro t ht
      rcases List.mem_cons.mp ht with rfl | ht
      · have key : ∀ (l : List Int) (a b : V), revokeLoop aki l a = .ok b → ∀ key,
            (a.revoked.get key).isSome = true → (b.revoked.get key).isSome = true := by
          intro l
          induction l with
          | nil => intro a b hab key hk; simp [revokeLoop] at hab; subst hab; exact hk
          | cons s' rest' ih' =>
            intro a b hab key hk
            unfold revokeLoop at hab
            obtain ⟨a1, ha1, hab⟩ := Go.bind_eq_ok.mp hab
            refine ih' _ _ hab key ?_
            simp only [Map.get_set]
            split
            · rfl
            · have : a1.revoked = a.revoked := by
                rcases revokeOne_cases ha1 with rfl | ⟨_, _, _, _, _, ha1⟩
                · rfl
                · exact (invalidateObject_spec ha1).1.revoked
              rw [this]; exact hk
        exact key _ _ _ h _ (by simp [Map.get_set])
      · exact hr t ht

/-- `AddCRL` in one formula. -/
theorem addCRL_ok {env : Env} {v v' : V} {l : CRL} {a : Added} (h : v.addCRL env l = .ok (v', a)) :
    a.res = some v.heap.length ∧ a.files = [] ∧ a.error = none ∧
    ((v.crlIssuer env l = .ok none ∧ a.valid = false ∧
        v' = { v.alloc { objectToResource (.crl l) with type := .crl, parent := v.objects.get l.aki } with
          crl := v.crl.set l.aki v.heap.length }) ∨
     (∃ i p c v2, v.validObjects.get l.aki = some i ∧ v.objects.get l.aki = some p ∧ v.certOf p = some c ∧
        env.checkCRLSig c l = true ∧ a.valid = true ∧
        revokeLoop l.aki l.revoked { v.alloc { objectToResource (.crl l) with
          type := .crl, parent := v.objects.get l.aki } with validCRL := v.validCRL.set l.aki v.heap.length } = .ok v2 ∧
        v' = { v2.modify p (fun r => { r with childs := r.childs ++ [v.heap.length] }) with
          crl := v2.crl.set l.aki v.heap.length })) := by
  unfold V.addCRL at h
  obtain ⟨o, ho, h⟩ := Go.bind_eq_ok.mp h
  split at h
  · simp only [Go.ok.injEq, Prod.mk.injEq] at h
    obtain ⟨rfl, rfl⟩ := h
    exact ⟨rfl, rfl, rfl, .inl ⟨ho, rfl, rfl⟩⟩
  · obtain ⟨v2, h2, h⟩ := Go.bind_eq_ok.mp h
    simp only [Go.pure_def, Go.ok.injEq, Prod.mk.injEq] at h
    obtain ⟨rfl, rfl⟩ := h
    unfold V.crlIssuer at ho
    split at ho
    · simp at ho
    · rename_i i hi
      split at ho
      · simp at ho
      · rename_i p hp
        split at ho
        · simp at ho
        · rename_i c hc
          split at ho
          · rename_i hs
            simp at ho
            subst ho
            exact ⟨rfl, rfl, rfl, .inr ⟨i, p, c, v2, hi, hp, hc, hs, rfl, h2, rfl⟩⟩
          · simp at ho

theorem good_addCRL {env : Env} {T : Bytes → Prop} {P : ROA → Prop} {v v' : V} {l : CRL} {a : Added}
    (h : v.addCRL env l = .ok (v', a)) : Good env T P v v' := by
  intro hi
  have h1 := hi.alloc { objectToResource (.crl l) with type := .crl, parent := v.objects.get l.aki } rfl
    (fun p hp => hi.obj_lt hp)
  have e1 := heapExt_alloc v { objectToResource (.crl l) with type := .crl, parent := v.objects.get l.aki }
  have d1 : (v.alloc { objectToResource (.crl l) with type := .crl, parent := v.objects.get l.aki }).dataOf
      v.heap.length = some (.crl l) := by rw [dataOf_alloc]; simp [objectToResource]
  obtain ⟨_, _, _, ⟨_, _, rfl⟩ | ⟨i, p, c, v2, hvi, hp, hc, hsig, _, hloop, rfl⟩⟩ := addCRL_ok h
  · exact ⟨h1.other rfl rfl rfl rfl rfl rfl rfl, e1.frame.trans (.of_eq rfl rfl rfl rfl)⟩
  · generalize v.alloc { objectToResource (.crl l) with type := .crl, parent := v.objects.get l.aki } = w
      at h1 e1 d1 hloop
    have hip : i = p := by
      have := hi.val _ _ hvi; rw [hp] at this; simp at this; exact this.symm
    subst hip
    have hw : Inv env T P { w with validCRL := v.validCRL.set l.aki v.heap.length } := by
      refine ⟨h1.obj, h1.val, h1.chain, h1.kids, h1.par, h1.serial, h1.vroa, ?_, h1.vmft⟩
      intro k j hk
      simp only [Map.get_set] at hk
      split at hk
      · rename_i hkl
        simp at hk
        subst hk
        refine ⟨l, i, c, d1, hkl.symm, ?_, e1.cert hc, hsig⟩
        show w.validObjects.get k = some i
        rw [e1.validObjects, hkl]; exact hvi
      · rw [← e1.validCRL] at hk
        exact h1.vcrl k j hk
    obtain ⟨hg, hh, ho, _, _⟩ := good_revokeLoop (env := env) (T := T) (P := P) _ _ _ _ hloop
    obtain ⟨hi2, hf2⟩ := hg hw
    have hkid : ∀ k, v2.objects.get k = some i → Kid v2 k v.heap.length := by
      intro k _
      refine .inr (.inr (.inr ⟨l, ?_⟩))
      unfold V.dataOf
      rw [hh]; exact d1
    refine ⟨(hi2.addChild i v.heap.length hkid).other rfl rfl rfl rfl rfl rfl rfl, ?_⟩
    refine Frame.trans ?_ (.of_eq (v := v2.modify i (fun r => { r with childs := r.childs ++ [v.heap.length] })) rfl rfl rfl rfl)
    refine Frame.trans ?_ (heapExt_addChild v2 i v.heap.length).frame
    refine Frame.trans ?_ hf2
    exact e1.frame.trans (.of_eq rfl rfl rfl rfl)

/-! ### AddResource -/

theorem good_talCheck {env : Env} {T : Bytes → Prop} {P : ROA → Prop} {v v' : V} {files : List PKIFile}
    {f : PKIFile} {c : Cert} {b : Bool} (h : v.talCheck files f c = .ok (v', b)) : Good env T P v v' := by
  intro hi
  unfold V.talCheck at h
  split at h
  · split at h
    · split at h
      · split at h
        · split at h
          · obtain ⟨ok, _, h⟩ := Go.bind_eq_ok.mp h
            split at h
            · simp only [Go.pure_def, Go.ok.injEq, Prod.mk.injEq] at h
              obtain ⟨rfl, rfl⟩ := h
              refine ⟨hi.touch _ _ (fun _ => rfl) (fun _ => rfl) (fun _ => rfl), HeapExt.frame ?_⟩
              apply heapExt_touch <;> intro _ <;> rfl
            · simp only [Go.pure_def, Go.ok.injEq, Prod.mk.injEq] at h
              obtain ⟨rfl, rfl⟩ := h
              exact ⟨hi, .refl T _⟩
          · simp at h
        · simp at h
      · simp only [Go.ok.injEq, Prod.mk.injEq] at h
        obtain ⟨rfl, rfl⟩ := h
        exact ⟨hi, .refl T _⟩
    · simp only [Go.ok.injEq, Prod.mk.injEq] at h
      obtain ⟨rfl, rfl⟩ := h
      exact ⟨hi, .refl T _⟩
  · simp only [Go.ok.injEq, Prod.mk.injEq] at h
    obtain ⟨rfl, rfl⟩ := h
    exact ⟨hi, .refl T _⟩

theorem good_finish (env : Env) (T : Bytes → Prop) (P : ROA → Prop) (v : V) (fid : Nat) (f : PKIFile)
    (a : Added) (files : List PKIFile) : Good env T P v (v.finish fid f a files).1 := by
  unfold V.finish
  split
  · exact good_refl _ _ _ _
  · exact (good_setFile env T P v _ fid none).trans (good_path _ _ _ _ _)

theorem good_addResourceCer {env : Env} {T : Bytes → Prop} {P : ROA → Prop} {v v' : V}
    {files : List PKIFile} {fid : Nat} {f : PKIFile} {c : Cert} {a : Added}
    (ht : f.trust = true → (∃ w, v.talCheck files f c = .ok (w, true)) → v.objects.get c.ski = none →
      (c.notBefore ≤ env.now ∧ env.now ≤ c.notAfter) → T c.ski)
    (h : v.addResourceCer env files fid f c = .ok (v', a)) : Good env T P v v' := by
  unfold V.addResourceCer at h
  obtain ⟨⟨w, b⟩, hb, h⟩ := Go.bind_eq_ok.mp h
  intro hi
  have hg : Good env T P v w := good_talCheck hb
  refine hg.trans ?_ hi
  split at h
  · obtain ⟨⟨x, d⟩, hx, h⟩ := Go.bind_eq_ok.mp h
    have ht' : f.trust = true → w.objects.get c.ski = none →
        (c.notBefore ≤ env.now ∧ env.now ≤ c.notAfter) → T c.ski := by
      intro htr hn hw
      refine ht htr ⟨w, ?_⟩ ?_ hw
      · rw [hb]; simp; assumption
      cases hv : v.objects.get c.ski with
      | none => rfl
      | some i => have := (hg hi).2.obj _ _ hv; rw [hn] at this; simp at this
    refine (good_addCert ht' hx).trans ?_
    split at h
    · simp only [Go.ok.injEq, Prod.mk.injEq] at h
      obtain ⟨rfl, rfl⟩ := h
      exact good_setFile _ _ _ _ _ _ _
    · simp only [Go.ok.injEq, Prod.mk.injEq] at h
      obtain ⟨rfl, rfl⟩ := h
      exact (good_setFile _ _ _ _ _ _ _).trans (good_path _ _ _ _ _)
  · simp only [Go.ok.injEq, Prod.mk.injEq] at h
    obtain ⟨rfl, rfl⟩ := h
    exact good_refl _ _ _ _

theorem good_addResourceCRL {env : Env} {T : Bytes → Prop} {P : ROA → Prop} {v v' : V}
    {files : List PKIFile} {fid : Nat} {f : PKIFile} {l : CRL} {a : Added}
    (h : v.addResourceCRL env files fid f l = .ok (v', a)) : Good env T P v v' := by
  unfold V.addResourceCRL at h
  obtain ⟨⟨w, b⟩, hb, h⟩ := Go.bind_eq_ok.mp h
  refine (good_addCRL hb).trans ?_
  split at h
  · simp at h
  · obtain ⟨m, _, h⟩ := Go.bind_eq_ok.mp h
    split at h
    · simp only [Go.pure_def, Go.ok.injEq, Prod.mk.injEq] at h
      obtain ⟨rfl, rfl⟩ := h
      exact good_refl _ _ _ _
    · simp only [Go.pure_def, Go.ok.injEq] at h
      have := good_finish env T P w fid f b []
      rw [h] at this
      exact this

theorem good_addResource {env : Env} {T : Bytes → Prop} {P : ROA → Prop} {v v' : V}
    {files : List PKIFile} {fid : Nat} {data : Bytes} {a : Added}
    (ht : ∀ f c, files[fid]? = some f → f.type = .cer → f.trust = true → env.parseCert data = .ok c →
      (∃ w, v.talCheck files f c = .ok (w, true)) → v.objects.get c.ski = none →
      (c.notBefore ≤ env.now ∧ env.now ≤ c.notAfter) → T c.ski)
    (hP : ∀ r, decodeROA env data = .ok r → P r)
    (h : v.addResource env files fid data = .ok (v', a)) : Good env T P v v' := by
  unfold V.addResource at h
  split at h
  · simp at h
  · rename_i f hf
    split at h
    · split at h
      · simp only [Go.ok.injEq, Prod.mk.injEq] at h
        obtain ⟨rfl, rfl⟩ := h
        exact (good_addTAL env T P v _).trans (good_setFile _ _ _ _ _ _ _)
      · simp only [Go.ok.injEq, Prod.mk.injEq] at h
        obtain ⟨rfl, rfl⟩ := h
        exact good_refl _ _ _ _
      · simp at h
      · simp at h
    · split at h
      · rename_i c hc
        exact good_addResourceCer (fun htr hk => ht f c hf (by assumption) htr hc hk) h
      · simp only [Go.ok.injEq, Prod.mk.injEq] at h
        obtain ⟨rfl, rfl⟩ := h
        exact good_refl _ _ _ _
      · simp at h
      · simp at h
    · split at h
      · rename_i r hr
        obtain ⟨⟨w, b⟩, hb, h⟩ := Go.bind_eq_ok.mp h
        simp only [Go.pure_def, Go.ok.injEq] at h
        have := good_finish env T P w fid f b []
        rw [h] at this
        exact (good_addROA (hP r hr) hb).trans this
      · simp only [Go.ok.injEq, Prod.mk.injEq] at h
        obtain ⟨rfl, rfl⟩ := h
        exact good_refl _ _ _ _
      · simp at h
      · simp at h
    · split at h
      · obtain ⟨⟨w, b⟩, hb, h⟩ := Go.bind_eq_ok.mp h
        simp only [Go.pure_def, Go.ok.injEq] at h
        have := good_finish env T P w fid f b (withParent fid b.files)
        rw [h] at this
        exact (good_addManifest hb).trans this
      · simp only [Go.ok.injEq, Prod.mk.injEq] at h
        obtain ⟨rfl, rfl⟩ := h
        exact good_refl _ _ _ _
      · simp at h
      · simp at h
    · split at h
      · exact good_addResourceCRL h
      · simp only [Go.ok.injEq, Prod.mk.injEq] at h
        obtain ⟨rfl, rfl⟩ := h
        exact good_refl _ _ _ _
      · simp at h
      · simp at h
    · simp only [Go.ok.injEq, Prod.mk.injEq] at h
      obtain ⟨rfl, rfl⟩ := h
      exact good_refl _ _ _ _

/-- The ROAs that the operation offers satisfy `P`. -/
def ROAsOnly (env : Env) (P : ROA → Prop) : Op → Prop
  | .addROA _ r => P r
  | .addResource _ _ data => ∀ r, decodeROA env data = .ok r → P r
  | _ => True

/-- The certificates that the operation, in the state `v`, adds as trust anchors under a new key id have key ids in `T`. -/
def TrustsNew (env : Env) (T : Bytes → Prop) (v : V) : Op → Prop
  | .addCert c trust => trust = true → v.objects.get c.ski = none →
      (c.notBefore ≤ env.now ∧ env.now ≤ c.notAfter) → T c.ski
  | .addResource files fid data =>
    ∀ f c, files[fid]? = some f → f.type = .cer → f.trust = true → env.parseCert data = .ok c →
      (∃ w, v.talCheck files f c = .ok (w, true)) → v.objects.get c.ski = none →
      (c.notBefore ≤ env.now ∧ env.now ≤ c.notAfter) → T c.ski
  | _ => True

theorem TrustsNew.of {env : Env} {T : Bytes → Prop} {op : Op} (h : TrustsOnly env T op) (v : V) : TrustsNew env T v op := by
  cases op <;> first
    | exact fun h1 _ _ => h h1
    | exact fun f c h1 _ h2 h3 _ _ _ => h f c h1 h2 h3
    | trivial

theorem good_stepNew {env : Env} {T : Bytes → Prop} {P : ROA → Prop} {v v' : V} {op : Op}
    (ht : TrustsNew env T v op) (hP : ROAsOnly env P op) (h : v.step env op = .ok v') : Good env T P v v' := by
  unfold V.step at h
  cases op with
  | addTAL t =>
    simp only [Go.ok.injEq] at h
    subst h
    exact good_addTAL env T P v t
  | addCert c trust =>
    obtain ⟨⟨w, b⟩, hb, h⟩ := Go.bind_eq_ok.mp h
    simp only [Go.pure_def, Go.ok.injEq] at h
    subst h
    exact good_addCert ht hb
  | addROA file r =>
    obtain ⟨⟨w, b⟩, hb, h⟩ := Go.bind_eq_ok.mp h
    simp only [Go.pure_def, Go.ok.injEq] at h
    subst h
    exact good_addROA hP hb
  | addManifest file m =>
    obtain ⟨⟨w, b⟩, hb, h⟩ := Go.bind_eq_ok.mp h
    simp only [Go.pure_def, Go.ok.injEq] at h
    subst h
    exact good_addManifest hb
  | addCRL l =>
    obtain ⟨⟨w, b⟩, hb, h⟩ := Go.bind_eq_ok.mp h
    simp only [Go.pure_def, Go.ok.injEq] at h
    subst h
    exact good_addCRL hb
  | invalidate k =>
    intro hi
    exact ⟨hi.invalidated h, frame_invalidate h⟩
  | addResource files fid data =>
    obtain ⟨⟨w, b⟩, hb, h⟩ := Go.bind_eq_ok.mp h
    simp only [Go.pure_def, Go.ok.injEq] at h
    subst h
    exact good_addResource ht hP hb

theorem good_step {env : Env} {T : Bytes → Prop} {P : ROA → Prop} {v v' : V} {op : Op}
    (ht : TrustsOnly env T op) (hP : ROAsOnly env P op) (h : v.step env op = .ok v') : Good env T P v v' :=
  good_stepNew (.of ht v) hP h

theorem good_run {env : Env} {T : Bytes → Prop} {P : ROA → Prop} : ∀ (ops : List Op) (v v' : V),
    (∀ op ∈ ops, TrustsOnly env T op) → (∀ op ∈ ops, ROAsOnly env P op) → V.run env v ops = .ok v' →
    Good env T P v v' := by
  intro ops
  induction ops with
  | nil => intro v v' _ _ h; simp [V.run] at h; subst h; exact good_refl _ _ _ _
  | cons op rest ih =>
    intro v v' ht hP h
    unfold V.run at h
    obtain ⟨w, hw, h⟩ := Go.bind_eq_ok.mp h
    exact (good_step (ht op (by simp)) (hP op (by simp)) hw).trans
      (ih w v' (fun o ho => ht o (by simp [ho])) (fun o ho => hP o (by simp [ho])) h)

theorem run_append {env : Env} : ∀ (a b : List Op) (v v' : V),
    V.run env v (a ++ b) = .ok v' ↔ ∃ w, V.run env v a = .ok w ∧ V.run env w b = .ok v' := by
  intro a
  induction a with
  | nil => intro b v v'; simp [V.run]
  | cons op rest ih =>
    intro b v v'
    simp only [List.cons_append, V.run]
    constructor
    · intro h
      obtain ⟨x, hx, h⟩ := Go.bind_eq_ok.mp h
      obtain ⟨w, hw, h⟩ := (ih b x v').mp h
      exact ⟨w, by rw [hx]; exact hw, h⟩
    · rintro ⟨w, hw, h⟩
      obtain ⟨x, hx, hw⟩ := Go.bind_eq_ok.mp hw
      rw [hx]
      exact (ih b x v').mpr ⟨w, hw, h⟩

/-- The invariant holds after every history. -/
theorem reachable_inv {env : Env} {T : Bytes → Prop} {v : V} (h : Reachable env T v) :
    Inv env T (fun _ => True) v := by
  obtain ⟨ops, ht, hr⟩ := h
  refine (good_run ops V.new v ht ?_ hr (inv_new _ _ _)).1
  intro op _
  cases op <;> simp [ROAsOnly]

end Verif.Pki
