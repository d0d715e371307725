import Verif.Spec.Complete
import Verif.Lemmas.Revoked
/-
  How the table of valid ROAs changes.
-/
set_option autoImplicit false

namespace Verif.Pki
open Net _root_.Verif.Cert Roa PkiSpec CompleteSpec

theorem vroa_link (v : V) (c : Cert) (i : Nat) (b : Bool) : (v.link c i b).validROA = v.validROA := by
  unfold V.link
  split
  · split <;> rfl
  · rfl

theorem vroa_addCert {env : Env} {v : V} {c : Cert} {trust : Bool} {x : V × Added}
    (h : v.addCert env c trust = .ok x) : x.1.validROA = v.validROA := by
  obtain ⟨w, a⟩ := x
  obtain ⟨_, ⟨_, _, rfl, _⟩ | ⟨_, _, _, _, rfl⟩⟩ := addCert_ok h
  · rfl
  · show (V.link _ _ _ _).validROA = _
    rw [vroa_link]; rfl

theorem vroa_setFile (v : V) (r : Option Nat) (f : Nat) (t : Option FType) :
    (v.setFile r f t).validROA = v.validROA := by
  unfold V.setFile; split <;> rfl

theorem vroa_finish (v : V) (fid : Nat) (f : PKIFile) (a : Added) (files : List PKIFile) :
    (v.finish fid f a files).1.validROA = v.validROA := by
  unfold V.finish
  split
  · rfl
  · exact vroa_setFile _ _ _ _

/-- A ROA whose key id is taken changes nothing under that key id. -/
theorem vroa_addROA {env : Env} {v : V} {file : Option Nat} {r : ROA} {x : V × Added}
    (h : v.addROA env file r = .ok x) {k : Bytes} {i : Nat} (hk : v.objects.get k = some i) :
    x.1.validROA.get k = v.validROA.get k := by
  unfold V.addROA at h
  obtain ⟨⟨w, a⟩, hy, h⟩ := Go.bind_eq_ok.mp h
  have h1 := vroa_addCert hy
  simp only at h1
  split at h
  · simp at h; subst h; simp only; rw [h1]
  · simp at h; subst h
    show Map.get (if _ then w.validROA.set _ _ else w.validROA) k = _
    split
    · rename_i hv
      simp only [Bool.and_eq_true] at hv
      rw [Map.get_set]
      split
      · rename_i he
        obtain ⟨_, ⟨_, _, _, hf, _⟩ | ⟨hn, _⟩⟩ := addCert_ok hy
        · rw [hf] at hv; simp at hv
        · rw [← he, hk] at hn; simp at hn
      · rw [h1]
    · rw [h1]

theorem vroa_addManifest {env : Env} {v : V} {file : Option Nat} {m : Mft} {x : V × Added}
    (h : v.addManifest env file m = .ok x) : x.1.validROA = v.validROA := by
  unfold V.addManifest at h
  split at h
  · obtain ⟨y, hy, h⟩ := Go.bind_eq_ok.mp h
    rw [← vroa_addCert hy]
    split at h
    · simp at h; subst h; rfl
    · simp at h; subst h; rfl
  · simp at h; subst h; rfl

theorem vroa_talCheck {v : V} {files : List PKIFile} {f : PKIFile} {c : Cert} {x : V × Bool}
    (h : v.talCheck files f c = .ok x) : x.1.validROA = v.validROA := by
  unfold V.talCheck at h
  split at h
  · split at h
    · split at h
      · split at h
        · split at h
          · obtain ⟨ok, _, h⟩ := Go.bind_eq_ok.mp h
            split at h <;> simp at h <;> subst h <;> rfl
          · simp at h
        · simp at h
      · simp at h; subst h; rfl
    · simp at h; subst h; rfl
  · simp at h; subst h; rfl

theorem vroa_addResourceCer {env : Env} {files : List PKIFile} {v : V} {fid : Nat} {f : PKIFile} {c : Cert}
    {x : V × Added} (h : v.addResourceCer env files fid f c = .ok x) : x.1.validROA = v.validROA := by
  unfold V.addResourceCer at h
  obtain ⟨t, ht, h⟩ := Go.bind_eq_ok.mp h
  rw [← vroa_talCheck ht]
  split at h
  · obtain ⟨y, hy, h⟩ := Go.bind_eq_ok.mp h
    rw [← vroa_addCert hy]
    split at h
    · simp at h; subst h; exact vroa_setFile _ _ _ _
    · simp at h; subst h; exact vroa_setFile _ _ _ _
  · simp at h; subst h; rfl

/-- Whatever is reached from another key id hangs below an issuer that is reached too. -/
theorem reach_up {v : V} (hkids : ∀ k i, v.objects.get k = some i → ∀ ch ∈ v.childsOf i, Kid v k ch) {k x : Bytes} (h : Reach v k x) :
    x = k ∨ ∃ i c, v.objects.get x = some i ∧ v.dataOf i = some (.cert c) ∧ Reach v k c.aki ∧ c.aki ≠ x := by
  induction h with
  | self => exact .inl rfl
  | step a b ha hb ih =>
    rw [childIds_eq] at hb
    split at hb
    · simp at hb
    · rename_i i hi
      obtain ⟨ch, hch, hid⟩ := List.mem_filterMap.mp hb
      have hdat : ∀ d, v.dataOf ch = some d → (v.heap[ch]?.bind Res.getIdentifier) =
          (match d with | .cert c => some c.ski | .roa r => some r.cert.ski | .mft m => some m.cert.ski | _ => none) := by
        intro d hd
        unfold V.dataOf at hd
        cases hh : v.heap[ch]? with
        | none => rw [hh] at hd; simp at hd
        | some r =>
          rw [hh] at hd
          simp at hd
          simp only [Option.bind_some, Res.getIdentifier, hd]
          cases d <;> rfl
      rcases hkids a i hi ch hch with ⟨c, g1, g2, g3⟩ | ⟨r, g1, g2⟩ | ⟨m, g1, g2⟩ | ⟨l, g1⟩
      · have e := hdat _ g1
        simp only at e
        have hid' := hid
        simp only [e] at hid'
        simp at hid'
        by_cases hab : a = b
        · exact hab ▸ ih
        · subst hid'
          exact .inr ⟨ch, c, g3, g1, g2 ▸ ha, g2 ▸ hab⟩
      · have e := hdat _ g1
        simp only at e
        have hid' := hid
        simp only [e] at hid'
        simp at hid'
        have : a = b := by rw [← hid', g2]
        exact this ▸ ih
      · have e := hdat _ g1
        simp only at e
        have hid' := hid
        simp only [e] at hid'
        simp at hid'
        have : a = b := by rw [← hid', g2]
        exact this ▸ ih
      · have e := hdat _ g1
        simp only at e
        simp only [e] at hid
        simp at hid

theorem kid_same {a b : V} (hh : b.heap = a.heap) (ho : b.objects = a.objects) {k : Bytes} {ch : Nat} (h : Kid a k ch) : Kid b k ch := by
  have hd : ∀ i, b.dataOf i = a.dataOf i := fun i => by unfold V.dataOf; rw [hh]
  unfold Kid
  simp only [hd, ho]
  exact h

/-- What the two ways of invalidation start from: the certificate of a listed ROA. -/
structure Held (v : V) (c : Cert) : Prop where
  kids : ∀ k i, v.objects.get k = some i → ∀ ch ∈ v.childsOf i, Kid v k ch
  serial : ∀ key i, v.certsSerial.get key = some i → ∃ d, v.certOf i = some d ∧ key = serialKey d.aki d.serial ∧ v.objects.get d.ski = some i
  stored : ∃ i, v.objects.get c.ski = some i ∧ v.certOf i = some c

theorem Held.same {a b : V} {c : Cert} (h : Held a c) (hh : b.heap = a.heap) (ho : b.objects = a.objects) (hs : b.certsSerial = a.certsSerial) :
    Held b c := by
  have hd : ∀ i, b.certOf i = a.certOf i := fun i => by unfold V.certOf; rw [hh]
  have hch : ∀ i, b.childsOf i = a.childsOf i := fun i => by unfold V.childsOf; rw [hh]
  refine ⟨?_, ?_, ?_⟩
  · intro k i hk ch hm
    rw [ho] at hk
    rw [hch] at hm
    exact kid_same hh ho (h.kids k i hk ch hm)
  · intro key i hk
    rw [hs] at hk
    simp only [hd, ho]
    exact h.serial key i hk
  · simp only [hd, ho]
    exact h.stored

/-- Invalidation of another object leaves the entry, or takes the issuer too. -/
theorem vroa_invalidate {v v' : V} {k : Bytes} {c : Cert} (hh : Held v c) (h : v.invalidateObject k = .ok v') :
    v'.validROA.get c.ski = v.validROA.get c.ski ∨ c.ski = k ∨ v'.validObjects.get c.aki = none := by
  obtain ⟨_, h1, h2⟩ := invalidateObject_spec h
  by_cases hr : Reach v k c.ski
  · rcases reach_up hh.kids hr with he | ⟨i, d, g1, g2, g3, _⟩
    · exact .inr (.inl he)
    · obtain ⟨i', g4, g5⟩ := hh.stored
      rw [g1] at g4
      simp only [Option.some.injEq] at g4
      subst g4
      rw [certOf_eq, g2] at g5
      simp only [Option.some.injEq, ResData.cert.injEq] at g5
      subst g5
      exact .inr (.inr (h1 _ g3).1)
  · exact .inl (h2 _ hr).2.1

theorem revokeLoop_keeps (aki : Bytes) : ∀ (l : List Int) (v v' : V), revokeLoop aki l v = .ok v' →
    ∀ key, (v.revoked.get key).isSome = true → (v'.revoked.get key).isSome = true := by
  intro l
  induction l with
  | nil => intro v v' h key hk; simp [revokeLoop] at h; subst h; exact hk
  | cons s rest ih =>
    intro v v' h key hk
    unfold revokeLoop at h
    rw [Go.bind_eq_ok] at h
    obtain ⟨v1, h1, h2⟩ := h
    refine ih _ _ h2 key ?_
    simp only [Map.get_set]
    split
    · rfl
    · rcases revokeOne_cases h1 with rfl | ⟨_, _, _, _, _, h1⟩
      · exact hk
      · rw [(invalidateObject_spec h1).1.revoked]; exact hk

theorem vobj_finish (v : V) (fid : Nat) (f : PKIFile) (a : Added) (files : List PKIFile) :
    (v.finish fid f a files).1.validObjects = v.validObjects := by
  unfold V.finish V.setFile
  split <;> rfl

theorem vroa_revokeLoop (aki : Bytes) {c : Cert} : ∀ (l : List Int) (v v' : V), revokeLoop aki l v = .ok v' → Held v c →
    v'.validROA.get c.ski = v.validROA.get c.ski ∨ (v'.revoked.get (serialKey c.aki c.serial)).isSome = true ∨
      v'.validObjects.get c.aki = none := by
  intro l
  induction l with
  | nil => intro v v' h _; simp [revokeLoop] at h; subst h; exact .inl rfl
  | cons s rest ih =>
    intro v v' h hh
    unfold revokeLoop at h
    rw [Go.bind_eq_ok] at h
    obtain ⟨v1, h1, h⟩ := h
    have hfr : (serialKey aki s = serialKey c.aki c.serial) → (v'.revoked.get (serialKey c.aki c.serial)).isSome = true := by
      intro he
      refine revokeLoop_keeps _ _ _ _ h _ ?_
      simp [Map.get_set, he]
    have hshr : v1.validObjects.get c.aki = none → v'.validObjects.get c.aki = none := by
      intro hn
      cases hv : v'.validObjects.get c.aki with
      | none => rfl
      | some j =>
        have := revokeLoop_shrinks _ _ _ _ h _ _ hv
        simp only [hn] at this
        simp at this
    rcases revokeOne_cases h1 with rfl | ⟨i, d, e1, e2, _, h1⟩
    · have := ih _ _ h (hh.same rfl rfl rfl)
      exact this
    · have hs := (invalidateObject_spec h1).1
      rcases vroa_invalidate hh h1 with hk | hk | hk
      · rcases ih _ _ h (hh.same hs.heap hs.objects hs.certsSerial) with hr | hr
        · exact .inl (hr.trans hk)
        · exact .inr hr
      · right; left
        apply hfr
        obtain ⟨d', g1, g2, g3⟩ := hh.serial _ _ e1
        rw [e2] at g1
        simp only [Option.some.injEq] at g1
        subst g1
        obtain ⟨i', g4, g5⟩ := hh.stored
        rw [hk, g3] at g4
        simp only [Option.some.injEq] at g4
        subst g4
        rw [e2] at g5
        simp only [Option.some.injEq] at g5
        rw [g2, g5]
      · exact .inr (.inr (hshr hk))

theorem Inv.held {env : Env} {T : Bytes → Prop} {P : ROA → Prop} {v : V} (hi : Inv env T P v) {c : Cert}
    (h : ∃ i, v.objects.get c.ski = some i ∧ v.certOf i = some c) : Held v c := ⟨hi.kids, hi.serial, h⟩

/-- One operation: the ROA stays listed, or it is invalidated itself, or its serial is revoked, or its issuer is not valid. -/
theorem vroa_step {env : Env} {T : Bytes → Prop} {P : ROA → Prop} {v w : V} {op : Op} (hi : Inv env T P v) (h : v.step env op = .ok w) {c : Cert}
    (hc : ∃ i, v.objects.get c.ski = some i ∧ v.certOf i = some c) :
    w.validROA.get c.ski = v.validROA.get c.ski ∨ op = .invalidate c.ski ∨ (w.revoked.get (serialKey c.aki c.serial)).isSome = true ∨
      w.validObjects.get c.aki = none := by
  have hcrl : ∀ l x, v.addCRL env l = .ok x → x.1.validROA.get c.ski = v.validROA.get c.ski ∨
      (x.1.revoked.get (serialKey c.aki c.serial)).isSome = true ∨ x.1.validObjects.get c.aki = none := by
    intro l x hx
    obtain ⟨w', a⟩ := x
    have h1 := hi.alloc { objectToResource (.crl l) with type := .crl, parent := v.objects.get l.aki } rfl
      (fun p hp => hi.obj_lt hp)
    have e1 := heapExt_alloc v { objectToResource (.crl l) with type := .crl, parent := v.objects.get l.aki }
    obtain ⟨_, _, _, ⟨_, _, rfl⟩ | ⟨i, p, d, v2, _, _, _, _, hv, hloop, rfl⟩⟩ := addCRL_ok hx
    · exact .inl rfl
    · obtain ⟨i', g1, g2⟩ := hc
      have hh : Held { v.alloc { objectToResource (.crl l) with type := .crl, parent := v.objects.get l.aki } with
          validCRL := v.validCRL.set l.aki v.heap.length } c :=
        (h1.held ⟨i', g1, e1.cert g2⟩).same rfl rfl rfl
      have := vroa_revokeLoop _ _ _ _ hloop hh
      exact this
  obtain ⟨i, g1, g2⟩ := hc
  cases op with
  | addTAL t => simp [V.step] at h; subst h; exact .inl rfl
  | addCert c' trust =>
    obtain ⟨y, hy, h⟩ := Go.bind_eq_ok.mp h
    simp at h; subst h
    exact .inl (by rw [vroa_addCert hy])
  | addROA f r =>
    obtain ⟨y, hy, h⟩ := Go.bind_eq_ok.mp h
    simp at h; subst h
    exact .inl (vroa_addROA hy g1)
  | addManifest f m =>
    obtain ⟨y, hy, h⟩ := Go.bind_eq_ok.mp h
    simp at h; subst h
    exact .inl (by rw [vroa_addManifest hy])
  | addCRL l =>
    obtain ⟨y, hy, h⟩ := Go.bind_eq_ok.mp h
    simp at h; subst h
    exact (hcrl l y hy).imp id .inr
  | invalidate x =>
    rcases vroa_invalidate (hi.held ⟨i, g1, g2⟩) h with hk | hk | hk
    · exact .inl hk
    · exact .inr (.inl (by rw [hk]))
    · exact .inr (.inr (.inr hk))
  | addResource files fid data =>
    obtain ⟨y, hy, h⟩ := Go.bind_eq_ok.mp h
    simp at h; subst h
    unfold V.addResource at hy
    split at hy
    · simp at hy
    · rename_i f hf
      split at hy
      · left
        split at hy
        · simp at hy; subst hy; rw [vroa_setFile]; rfl
        · simp at hy; subst hy; rfl
        · simp at hy
        · simp at hy
      · left
        split at hy
        · rw [vroa_addResourceCer hy]
        · simp at hy; subst hy; rfl
        · simp at hy
        · simp at hy
      · left
        split at hy
        · obtain ⟨z, hz, hy⟩ := Go.bind_eq_ok.mp hy
          simp at hy; subst hy
          rw [vroa_finish]; exact vroa_addROA hz g1
        · simp at hy; subst hy; rfl
        · simp at hy
        · simp at hy
      · left
        split at hy
        · obtain ⟨z, hz, hy⟩ := Go.bind_eq_ok.mp hy
          simp at hy; subst hy
          rw [vroa_finish, vroa_addManifest hz]
        · simp at hy; subst hy; rfl
        · simp at hy
        · simp at hy
      · rename_i ht
        split at hy
        · rename_i l hl
          unfold V.addResourceCRL at hy
          obtain ⟨x, hx, hy⟩ := Go.bind_eq_ok.mp hy
          have hr := hcrl l x hx
          split at hy
          · simp at hy
          · obtain ⟨m, _, hy⟩ := Go.bind_eq_ok.mp hy
            split at hy
            · simp only [Go.pure_def, Go.ok.injEq] at hy
              subst hy; exact hr.imp id .inr
            · simp only [Go.pure_def, Go.ok.injEq] at hy
              subst hy
              rw [vroa_finish, revoked_finish, vobj_finish]; exact hr.imp id .inr
        · simp at hy; subst hy; exact .inl rfl
        · simp at hy
        · simp at hy
      · simp at hy; subst hy; exact .inl rfl

/-- From the moment it is listed on, a ROA stays listed while its issuer is valid and its serial is not revoked. -/
theorem vroa_run {env : Env} {c : Cert} : ∀ (ops : List Op) (u v : V), V.run env u ops = .ok v →
    Inv env (fun _ => True) (fun _ => True) u → (∃ i, u.objects.get c.ski = some i ∧ u.certOf i = some c) →
    (∃ i, u.objects.get c.aki = some i) → Op.invalidate c.ski ∉ ops → (v.revoked.get (serialKey c.aki c.serial)).isSome = false →
    (∃ j, v.validObjects.get c.aki = some j) → v.validROA.get c.ski = u.validROA.get c.ski := by
  intro ops
  induction ops with
  | nil => intro u v h _ _ _ _ _ _; simp [V.run] at h; subst h; rfl
  | cons op rest ih =>
    intro u v h hi hc hk hn hr hv
    unfold V.run at h
    obtain ⟨w, hw, h⟩ := Go.bind_eq_ok.mp h
    obtain ⟨hi1, hf1⟩ := good_step (all_trust env op) (all_roas env op) hw hi
    obtain ⟨_, hf2⟩ := good_run rest w v (fun o _ => all_trust env o) (fun o _ => all_roas env o) h hi1
    obtain ⟨i, g1, g2⟩ := hc
    obtain ⟨p, hp⟩ := hk
    obtain ⟨j, hj⟩ := hv
    have hj1 := hf2.val _ _ _ (hf1.obj _ _ hp) hj
    rw [ih w v h hi1 ⟨i, hf1.obj _ _ g1, hf1.cert g2⟩ ⟨p, hf1.obj _ _ hp⟩ (by simp at hn; exact hn.2) hr ⟨j, hj⟩]
    rcases vroa_step hi hw ⟨i, g1, g2⟩ with hs | hs | hs | hs
    · exact hs
    · simp [hs] at hn
    · have := hf2.rev _ hs
      rw [hr] at this; simp at this
    · rw [hj1] at hs; simp at hs

/-- A ROA that is in order is listed. -/
theorem addROA_listed {env : Env} {v v' : V} {file : Option Nat} {r : ROA} {a : Added} (h : v.addROA env file r = .ok (v', a))
    {w : V} {b : Added} (hb : v.addCert env r.cert false = .ok (w, b)) (hbv : b.valid = true) (hr : roaError r none = none) :
    ∃ j, v'.validROA.get r.cert.ski = some j ∧ v'.dataOf j = some (.roa r) := by
  unfold V.addROA at h
  rw [hb] at h
  simp only [Go.ok_bind] at h
  obtain ⟨hres, _⟩ := addCert_ok hb
  rw [hres] at h
  simp only [Go.ok.injEq, Prod.mk.injEq] at h
  obtain ⟨rfl, _⟩ := h
  refine ⟨w.heap.length, ?_, ?_⟩
  · simp [V.storeROA, hbv, hr, Map.get_set]
  · show V.dataOf (V.attach _ _ _ _ _ _) _ = _
    unfold V.attach
    rw [dataOf_modify _ _ _ (by intro r; rfl), dataOf_alloc]
    simp [V.modify, objectToResource]

/-! ### The table of valid objects -/

/-- A certificate whose key id is taken changes nothing under that key id. -/
theorem vobj_addCert {env : Env} {v : V} {c : Cert} {trust : Bool} {x : V × Added}
    (h : v.addCert env c trust = .ok x) {k : Bytes} {i : Nat} (hk : v.objects.get k = some i) :
    x.1.validObjects.get k = v.validObjects.get k := by
  obtain ⟨w, a⟩ := x
  obtain ⟨_, ⟨_, _, rfl, _⟩ | ⟨hn, _, _, _, rfl⟩⟩ := addCert_ok h
  · rfl
  · have hl : ∀ (u : V) (i : Nat) (b : Bool), (u.link c i b).validObjects = u.validObjects := by
      intro u i b
      unfold V.link
      split
      · split <;> rfl
      · rfl
    have hne : k ≠ c.ski := by rintro rfl; rw [hk] at hn; simp at hn
    show Map.get (if a.valid = true then _ else _) k = _
    split
    · rw [Map.get_set, if_neg (by first | exact hne | exact fun e => hne e.symm), hl]; rfl
    · rw [hl]; rfl

theorem vobj_setFile (v : V) (r : Option Nat) (f : Nat) (t : Option FType) :
    (v.setFile r f t).validObjects = v.validObjects := by
  unfold V.setFile; split <;> rfl

theorem vobj_addROA {env : Env} {v : V} {file : Option Nat} {r : ROA} {x : V × Added}
    (h : v.addROA env file r = .ok x) {k : Bytes} {i : Nat} (hk : v.objects.get k = some i) :
    x.1.validObjects.get k = v.validObjects.get k := by
  unfold V.addROA at h
  obtain ⟨y, hy, h⟩ := Go.bind_eq_ok.mp h
  rw [← vobj_addCert hy hk]
  split at h
  · simp at h; subst h; rfl
  · simp at h; subst h; rfl

theorem vobj_addManifest {env : Env} {v : V} {file : Option Nat} {m : Mft} {x : V × Added}
    (h : v.addManifest env file m = .ok x) {k : Bytes} {i : Nat} (hk : v.objects.get k = some i) :
    x.1.validObjects.get k = v.validObjects.get k := by
  unfold V.addManifest at h
  split at h
  · obtain ⟨y, hy, h⟩ := Go.bind_eq_ok.mp h
    rw [← vobj_addCert hy hk]
    split at h
    · simp at h; subst h; rfl
    · simp at h; subst h; rfl
  · simp at h; subst h; rfl

theorem vobj_talCheck {v : V} {files : List PKIFile} {f : PKIFile} {c : Cert} {x : V × Bool}
    (h : v.talCheck files f c = .ok x) : x.1.validObjects = v.validObjects ∧ x.1.objects = v.objects := by
  unfold V.talCheck at h
  split at h
  · split at h
    · split at h
      · split at h
        · split at h
          · obtain ⟨ok, _, h⟩ := Go.bind_eq_ok.mp h
            split at h <;> simp at h <;> subst h <;> exact ⟨rfl, rfl⟩
          · simp at h
        · simp at h
      · simp at h; subst h; exact ⟨rfl, rfl⟩
    · simp at h; subst h; exact ⟨rfl, rfl⟩
  · simp at h; subst h; exact ⟨rfl, rfl⟩

theorem vobj_addResourceCer {env : Env} {files : List PKIFile} {v : V} {fid : Nat} {f : PKIFile} {c : Cert}
    {x : V × Added} (h : v.addResourceCer env files fid f c = .ok x) {k : Bytes} {i : Nat} (hk : v.objects.get k = some i) :
    x.1.validObjects.get k = v.validObjects.get k := by
  unfold V.addResourceCer at h
  obtain ⟨t, ht, h⟩ := Go.bind_eq_ok.mp h
  obtain ⟨h1, h2⟩ := vobj_talCheck ht
  rw [← h1]
  split at h
  · obtain ⟨y, hy, h⟩ := Go.bind_eq_ok.mp h
    rw [← vobj_addCert hy (h2 ▸ hk)]
    split at h
    · simp at h; subst h; simp only; rw [vobj_setFile]
    · simp at h; subst h; simp only; rw [vobj_setFile]
  · simp at h; subst h; rfl

/-- The certificate has no issuer in the validator: it names itself, or nothing is stored under the key id that it names. -/
def Topmost (v : V) (c : Cert) : Prop := c.aki = c.ski ∨ v.objects.get c.aki = none

theorem reach_none {v : V} {k x : Bytes} (h : Reach v k x) (hn : v.objects.get x = none)
    (hkids : ∀ k i, v.objects.get k = some i → ∀ ch ∈ v.childsOf i, Kid v k ch) : x = k := by
  rcases reach_up hkids h with he | ⟨i, d, g1, _⟩
  · exact he
  · rw [hn] at g1; simp at g1

theorem vobj_invalidate {v v' : V} {k : Bytes} {c : Cert} (hh : Held v c) (h : v.invalidateObject k = .ok v') :
    v'.validObjects.get c.ski = v.validObjects.get c.ski ∨ c.ski = k ∨ (¬ Topmost v c ∧ v'.validObjects.get c.aki = none) := by
  obtain ⟨_, h1, h2⟩ := invalidateObject_spec h
  by_cases hr : Reach v k c.ski
  · rcases reach_up hh.kids hr with he | ⟨i, d, g1, g2, g3, g4⟩
    · exact .inr (.inl he)
    · obtain ⟨i', g5, g6⟩ := hh.stored
      rw [g1] at g5
      simp only [Option.some.injEq] at g5
      subst g5
      rw [certOf_eq, g2] at g6
      simp only [Option.some.injEq, ResData.cert.injEq] at g6
      subst g6
      by_cases ht : Topmost v d
      · rcases ht with ht | ht
        · exact (g4 ht).elim
        · have hk := reach_none g3 ht hh.kids
          rw [hk] at ht
          have hstuck : ∀ x, Reach v k x → x = k := by
            intro x hx
            induction hx with
            | self => rfl
            | step a b _ hb ih =>
              rw [ih, childIds_eq, ht] at hb
              simp at hb
          exact .inr (.inl (hstuck _ hr))
      · exact .inr (.inr ⟨ht, (h1 _ g3).1⟩)
  · exact .inl (h2 _ hr).1

theorem Topmost.same {a b : V} {c : Cert} (ho : b.objects = a.objects) : Topmost b c ↔ Topmost a c := by
  unfold Topmost; rw [ho]

theorem vobj_revokeLoop (aki : Bytes) {c : Cert} : ∀ (l : List Int) (v v' : V), revokeLoop aki l v = .ok v' → Held v c →
    v'.validObjects.get c.ski = v.validObjects.get c.ski ∨ (v'.revoked.get (serialKey c.aki c.serial)).isSome = true ∨
      (¬ Topmost v c ∧ v'.validObjects.get c.aki = none) := by
  intro l
  induction l with
  | nil => intro v v' h _; simp [revokeLoop] at h; subst h; exact .inl rfl
  | cons s rest ih =>
    intro v v' h hh
    unfold revokeLoop at h
    rw [Go.bind_eq_ok] at h
    obtain ⟨v1, h1, h⟩ := h
    have hfr : (serialKey aki s = serialKey c.aki c.serial) → (v'.revoked.get (serialKey c.aki c.serial)).isSome = true := by
      intro he
      refine revokeLoop_keeps _ _ _ _ h _ ?_
      simp [Map.get_set, he]
    have hshr : v1.validObjects.get c.aki = none → v'.validObjects.get c.aki = none := by
      intro hn
      cases hv : v'.validObjects.get c.aki with
      | none => rfl
      | some j =>
        have := revokeLoop_shrinks _ _ _ _ h _ _ hv
        simp only [hn] at this
        simp at this
    rcases revokeOne_cases h1 with rfl | ⟨i, d, e1, e2, _, h1⟩
    · have := ih _ _ h (hh.same rfl rfl rfl)
      exact this
    · have hs := (invalidateObject_spec h1).1
      rcases vobj_invalidate hh h1 with hk | hk | hk
      · rcases ih _ _ h (hh.same hs.heap hs.objects hs.certsSerial) with hr | hr | hr
        · exact .inl (hr.trans hk)
        · exact .inr (.inl hr)
        · refine .inr (.inr ⟨?_, hr.2⟩)
          rw [← Topmost.same hs.objects]; exact hr.1
      · right; left
        apply hfr
        obtain ⟨d', g1, g2, g3⟩ := hh.serial _ _ e1
        rw [e2] at g1
        simp only [Option.some.injEq] at g1
        subst g1
        obtain ⟨i', g4, g5⟩ := hh.stored
        rw [hk, g3] at g4
        simp only [Option.some.injEq] at g4
        subst g4
        rw [e2] at g5
        simp only [Option.some.injEq] at g5
        rw [g2, g5]
      · exact .inr (.inr ⟨hk.1, hshr hk.2⟩)

/-- One operation: the certificate stays valid, or it is invalidated itself, or its serial is revoked, or its issuer is not valid. -/
theorem vobj_step {env : Env} {T : Bytes → Prop} {P : ROA → Prop} {v w : V} {op : Op} (hi : Inv env T P v) (h : v.step env op = .ok w) {c : Cert}
    (hc : ∃ i, v.objects.get c.ski = some i ∧ v.certOf i = some c) :
    w.validObjects.get c.ski = v.validObjects.get c.ski ∨ op = .invalidate c.ski ∨ (w.revoked.get (serialKey c.aki c.serial)).isSome = true ∨
      (¬ Topmost v c ∧ w.validObjects.get c.aki = none) := by
  have hcrl : ∀ l x, v.addCRL env l = .ok x → x.1.validObjects.get c.ski = v.validObjects.get c.ski ∨
      (x.1.revoked.get (serialKey c.aki c.serial)).isSome = true ∨ (¬ Topmost v c ∧ x.1.validObjects.get c.aki = none) := by
    intro l x hx
    obtain ⟨w', a⟩ := x
    have h1 := hi.alloc { objectToResource (.crl l) with type := .crl, parent := v.objects.get l.aki } rfl
      (fun p hp => hi.obj_lt hp)
    have e1 := heapExt_alloc v { objectToResource (.crl l) with type := .crl, parent := v.objects.get l.aki }
    obtain ⟨_, _, _, ⟨_, _, rfl⟩ | ⟨i, p, d, v2, _, _, _, _, hv, hloop, rfl⟩⟩ := addCRL_ok hx
    · exact .inl rfl
    · obtain ⟨i', g1, g2⟩ := hc
      have hh : Held { v.alloc { objectToResource (.crl l) with type := .crl, parent := v.objects.get l.aki } with
          validCRL := v.validCRL.set l.aki v.heap.length } c :=
        (h1.held ⟨i', g1, e1.cert g2⟩).same rfl rfl rfl
      have := vobj_revokeLoop _ _ _ _ hloop hh
      exact this
  obtain ⟨i, g1, g2⟩ := hc
  cases op with
  | addTAL t => simp [V.step] at h; subst h; exact .inl rfl
  | addCert c' trust =>
    obtain ⟨y, hy, h⟩ := Go.bind_eq_ok.mp h
    simp at h; subst h
    exact .inl (vobj_addCert hy g1)
  | addROA f r =>
    obtain ⟨y, hy, h⟩ := Go.bind_eq_ok.mp h
    simp at h; subst h
    exact .inl (vobj_addROA hy g1)
  | addManifest f m =>
    obtain ⟨y, hy, h⟩ := Go.bind_eq_ok.mp h
    simp at h; subst h
    exact .inl (vobj_addManifest hy g1)
  | addCRL l =>
    obtain ⟨y, hy, h⟩ := Go.bind_eq_ok.mp h
    simp at h; subst h
    exact (hcrl l y hy).imp id .inr
  | invalidate x =>
    rcases vobj_invalidate (hi.held ⟨i, g1, g2⟩) h with hk | hk | hk
    · exact .inl hk
    · exact .inr (.inl (by rw [hk]))
    · exact .inr (.inr (.inr hk))
  | addResource files fid data =>
    obtain ⟨y, hy, h⟩ := Go.bind_eq_ok.mp h
    simp at h; subst h
    unfold V.addResource at hy
    split at hy
    · simp at hy
    · rename_i f hf
      split at hy
      · left
        split at hy
        · simp at hy; subst hy; rw [vobj_setFile]; rfl
        · simp at hy; subst hy; rfl
        · simp at hy
        · simp at hy
      · left
        split at hy
        · exact vobj_addResourceCer hy g1
        · simp at hy; subst hy; rfl
        · simp at hy
        · simp at hy
      · left
        split at hy
        · obtain ⟨z, hz, hy⟩ := Go.bind_eq_ok.mp hy
          simp at hy; subst hy
          rw [vobj_finish]; exact vobj_addROA hz g1
        · simp at hy; subst hy; rfl
        · simp at hy
        · simp at hy
      · left
        split at hy
        · obtain ⟨z, hz, hy⟩ := Go.bind_eq_ok.mp hy
          simp at hy; subst hy
          rw [vobj_finish]; exact vobj_addManifest hz g1
        · simp at hy; subst hy; rfl
        · simp at hy
        · simp at hy
      · rename_i ht
        split at hy
        · rename_i l hl
          unfold V.addResourceCRL at hy
          obtain ⟨x, hx, hy⟩ := Go.bind_eq_ok.mp hy
          have hr := hcrl l x hx
          split at hy
          · simp at hy
          · obtain ⟨m, _, hy⟩ := Go.bind_eq_ok.mp hy
            split at hy
            · simp only [Go.pure_def, Go.ok.injEq] at hy
              subst hy; exact hr.imp id .inr
            · simp only [Go.pure_def, Go.ok.injEq] at hy
              subst hy
              rw [revoked_finish, vobj_finish]; exact hr.imp id .inr
        · simp at hy; subst hy; exact .inl rfl
        · simp at hy
        · simp at hy
      · simp at hy; subst hy; exact .inl rfl

/-- A certificate stays valid while it is topmost or its issuer is valid, and its serial is not revoked. -/
theorem vobj_run {env : Env} {c : Cert} : ∀ (ops : List Op) (u v : V), V.run env u ops = .ok v →
    Inv env (fun _ => True) (fun _ => True) u → (∃ i, u.objects.get c.ski = some i ∧ u.certOf i = some c) →
    Op.invalidate c.ski ∉ ops → (v.revoked.get (serialKey c.aki c.serial)).isSome = false →
    (Topmost v c ∨ ((∃ i, u.objects.get c.aki = some i) ∧ ∃ j, v.validObjects.get c.aki = some j)) →
    v.validObjects.get c.ski = u.validObjects.get c.ski := by
  intro ops
  induction ops with
  | nil => intro u v h _ _ _ _ _; simp [V.run] at h; subst h; rfl
  | cons op rest ih =>
    intro u v h hi hc hn hr hv
    unfold V.run at h
    obtain ⟨w, hw, h⟩ := Go.bind_eq_ok.mp h
    obtain ⟨hi1, hf1⟩ := good_step (all_trust env op) (all_roas env op) hw hi
    obtain ⟨_, hf2⟩ := good_run rest w v (fun o _ => all_trust env o) (fun o _ => all_roas env o) h hi1
    obtain ⟨i, g1, g2⟩ := hc
    rw [ih w v h hi1 ⟨i, hf1.obj _ _ g1, hf1.cert g2⟩ (by simp at hn; exact hn.2) hr
      (hv.imp id (fun hh => ⟨⟨hh.1.choose, hf1.obj _ _ hh.1.choose_spec⟩, hh.2⟩))]
    rcases vobj_step hi hw ⟨i, g1, g2⟩ with hs | hs | hs | ⟨hs, hs'⟩
    · exact hs
    · simp [hs] at hn
    · have := hf2.rev _ hs
      rw [hr] at this; simp at this
    · rcases hv with ht | ⟨⟨p, hp⟩, j, hj⟩
      · exfalso
        apply hs
        rcases ht with ht | ht
        · exact .inl ht
        · right
          cases ho : u.objects.get c.aki with
          | none => rfl
          | some q =>
            have := hf2.obj _ _ (hf1.obj _ _ ho)
            rw [ht] at this; simp at this
      · have hj1 := hf2.val _ _ _ (hf1.obj _ _ hp) hj
        rw [hj1] at hs'; simp at hs'

end Verif.Pki
