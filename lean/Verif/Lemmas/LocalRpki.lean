import Verif.Model.LocalRpki
import Verif.Lemmas.EndToEnd
import Verif.Lemmas.PkiBase
/-
  Every valid ROA is recorded with the file it came from.
-/
set_option autoImplicit false

namespace Verif.Pki

theorem roa_addCert {env : Env} {v : V} {c : Cert} {t : Bool} {x : V × Added} (h : v.addCert env c t = .ok x) :
    x.1.validROA = v.validROA := by
  unfold V.addCert at h
  split at h
  · simp at h; subst h; rfl
  · obtain ⟨e, _, h⟩ := Go.bind_eq_ok.mp h
    simp only [Go.pure_def, Go.ok.injEq] at h
    subst h
    simp only [V.store]
    unfold V.link
    repeat' split
    all_goals rfl

theorem roa_talCheck {v : V} {files : List PKIFile} {f : PKIFile} {c : Cert} {x : V × Bool}
    (h : v.talCheck files f c = .ok x) : x.1.validROA = v.validROA := by
  unfold V.talCheck at h
  repeat' split at h
  all_goals first
    | (simp at h; subst h; rfl)
    | (simp at h; done)
    | (obtain ⟨ok, _, h⟩ := Go.bind_eq_ok.mp h
       split at h <;> (simp at h; subst h; rfl))

theorem roa_revokeOne {v v' : V} {aki : Bytes} {s : Int} (h : v.revokeOne aki s = .ok v') {k : Bytes} {j : Nat}
    (hk : v'.validROA.get k = some j) : v.validROA.get k = some j := by
  unfold V.revokeOne at h
  repeat' split at h
  · simp at h; subst h; exact hk
  · simp at h
  · obtain ⟨_, h1, h2⟩ := invalidateObject_spec h
    by_cases hr : Reach v ‹Cert›.ski k
    · rw [(h1 k hr).2.1] at hk; simp at hk
    · rw [(h2 k hr).2.1] at hk; exact hk
  · simp at h; subst h; exact hk

theorem roa_revokeLoop {aki : Bytes} {k : Bytes} {j : Nat} : ∀ {l : List Int} {v v' : V}, revokeLoop aki l v = .ok v' →
    v'.validROA.get k = some j → v.validROA.get k = some j
  | [], v, v', h, hk => by simp [revokeLoop] at h; subst h; exact hk
  | s :: l, v, v', h, hk => by
    unfold revokeLoop at h
    obtain ⟨v1, h1, h⟩ := Go.bind_eq_ok.mp h
    have := roa_revokeLoop h hk
    exact roa_revokeOne h1 this

theorem roa_addCRL {env : Env} {v : V} {l : CRL} {x : V × Added} (h : v.addCRL env l = .ok x) {k : Bytes} {j : Nat}
    (hk : x.1.validROA.get k = some j) : v.validROA.get k = some j := by
  unfold V.addCRL at h
  obtain ⟨iss, _, h⟩ := Go.bind_eq_ok.mp h
  split at h
  · simp at h; subst h; exact hk
  · obtain ⟨v2, h2, h⟩ := Go.bind_eq_ok.mp h
    simp only [Go.pure_def, Go.ok.injEq] at h
    subst h
    exact roa_revokeLoop (v := { v.alloc _ with validCRL := _ }) h2 hk

theorem roa_finish (v : V) (fid : Nat) (f : PKIFile) (a : Added) (l : List PKIFile) :
    (v.finish fid f a l).1.validROA = v.validROA ∧ (v.finish fid f a l).2.res = a.res ∧ (v.finish fid f a l).2.valid = a.valid := by
  unfold V.finish
  split
  · rename_i h; exact ⟨rfl, h.symm ▸ rfl, rfl⟩
  · exact ⟨rfl, rfl, rfl⟩

/-- What `AddResource` does to the objects that were there, to its result, and to the valid ROAs. -/
structure Traced (v : V) (fid : Nat) (x : V × Added) : Prop where
  old : ∀ j, j < v.heap.length → x.1.core j = v.core j
  new : ∀ r, x.2.res = some r → v.heap.length ≤ r ∧ ∃ d t, x.1.core r = some (d, t, some fid)
  roa : ∀ k j, x.1.validROA.get k = some j → v.validROA.get k = some j ∨ (x.2.valid = true ∧ x.2.res = some j)

theorem Traced.failed {v v1 : V} {fid : Nat} {m : String} (h1 : v1.core = v.core) (h2 : v1.validROA = v.validROA) :
    Traced v fid (v1, failed m) :=
  ⟨fun j _ => by rw [h1], by simp [Pki.failed], fun k j h => .inl (by rw [← h2]; exact h)⟩

theorem addResource_traced {env : Env} {files : List PKIFile} {v : V} {fid : Nat} {data : Bytes} {x : V × Added}
    (h : v.addResource env files fid data = .ok x) : Traced v fid x := by
  unfold V.addResource at h
  split at h
  · simp at h
  · rename_i f hf
    split at h
    · split at h
      · rename_i t hdec
        simp at h; subst h
        have q : ∀ j, (v.addTAL env t).1.core j = if j = v.heap.length then some (.tal t, .tal, none) else v.core j := fun j =>
          (congrFun (core_congr (v := v.alloc { objectToResource (.tal t) with type := .tal }) rfl) j).trans (core_alloc _ _ _)
        have q2 : ∀ j, ((v.addTAL env t).1.setFile (some v.heap.length) fid none).core j =
            if j = v.heap.length then some (.tal t, .tal, some fid) else v.core j := by
          intro j
          rw [core_setFile, q]
          split <;> simp
        refine ⟨fun j hj => ?_, ?_, fun k j hk => .inl hk⟩
        · exact (q2 j).trans (if_neg (by omega))
        · intro r hr
          have : r = v.heap.length := by simpa [V.addTAL] using hr.symm
          subst this
          exact ⟨Nat.le_refl _, _, _, (q2 _).trans (if_pos rfl)⟩
      · simp at h; subst h; exact .failed rfl rfl
      · simp at h
      · simp at h
    · split at h
      · rename_i c hdec
        unfold V.addResourceCer at h
        obtain ⟨t, ht, h⟩ := Go.bind_eq_ok.mp h
        obtain ⟨g1, g2⟩ := core_talCheck ht
        have g3 := roa_talCheck ht
        split at h
        · obtain ⟨a, ha, h⟩ := Go.bind_eq_ok.mp h
          obtain ⟨k1, k2, k3⟩ := core_addCert ha
          have k4 := roa_addCert ha
          rw [k2] at h
          simp only [Go.ok.injEq] at h; subst h
          have q2 : ∀ j, (a.1.setFile (some t.1.heap.length) fid (some .cer)).core j =
              if j = t.1.heap.length then some (.cert c, .cer, some fid) else v.core j := by
            intro j
            rw [core_setFile, k1, g1]
            split <;> simp
          refine ⟨fun j hj => (q2 j).trans (if_neg (by omega)), ?_, ?_⟩
          · intro r hr
            have : r = t.1.heap.length := by simpa [k2] using hr.symm
            subst this
            exact ⟨by omega, _, _, (q2 _).trans (if_pos rfl)⟩
          · intro k j hk
            left
            rw [← g3, ← k4]; exact hk
        · simp at h; subst h
          exact .failed g1 g3
      · simp at h; subst h; exact .failed rfl rfl
      · simp at h
      · simp at h
    · split at h
      · rename_i r hdec
        obtain ⟨a, ha, h⟩ := Go.bind_eq_ok.mp h
        simp at h; subst h
        obtain ⟨k1, k2⟩ := core_addROA ha
        obtain ⟨f1, f2, f3⟩ := roa_finish a.1 fid f a.2 []
        refine ⟨fun j hj => ?_, ?_, ?_⟩
        · rw [core_finish _ _ _ _ _ _ k2, k1, if_neg (by omega), if_neg (by omega), if_neg (by omega)]
        · intro q hq
          rw [f2, k2] at hq
          simp at hq; subst hq
          exact ⟨by omega, .roa r, .roa, by rw [core_finish _ _ _ _ _ _ k2, k1]; simp⟩
        · intro k j hk
          rw [f1] at hk
          rw [f2, f3]
          unfold V.addROA at ha
          obtain ⟨b, hb, ha⟩ := Go.bind_eq_ok.mp ha
          have e1 := roa_addCert hb
          split at ha
          · simp at ha; subst ha
            left; rw [← e1]; exact hk
          · simp at ha; subst ha
            simp only [V.storeROA] at hk
            split at hk
            · rename_i hval
              rw [Map.get_set] at hk
              split at hk
              · simp at hk; subst hk
                exact .inr ⟨by simpa using hval, rfl⟩
              · left; rw [← e1]; exact hk
            · left; rw [← e1]; exact hk
      · simp at h; subst h; exact .failed rfl rfl
      · simp at h
      · simp at h
    · split at h
      · rename_i m hdec
        obtain ⟨a, ha, h⟩ := Go.bind_eq_ok.mp h
        simp at h; subst h
        obtain ⟨f1, f2, f3⟩ := roa_finish a.1 fid f a.2 (withParent fid a.2.files)
        have hroa : a.1.validROA = v.validROA := by
          unfold V.addManifest at ha
          split at ha
          · obtain ⟨b, hb, ha⟩ := Go.bind_eq_ok.mp ha
            have e1 := roa_addCert hb
            split at ha <;> (simp at ha; subst ha; exact e1)
          · simp at ha; subst ha; rfl
        rcases core_addManifest ha with ⟨k1, k2⟩ | ⟨k1, k2⟩
        · refine ⟨fun j hj => ?_, ?_, ?_⟩
          · unfold V.finish; rw [k2]; simp [k1]
          · intro q hq
            rw [f2, k2] at hq; simp at hq
          · intro k j hk
            left; rw [← hroa, ← f1]; exact hk
        · refine ⟨fun j hj => ?_, ?_, ?_⟩
          · rw [core_finish _ _ _ _ _ _ k2, k1, if_neg (by omega), if_neg (by omega), if_neg (by omega)]
          · intro q hq
            rw [f2, k2] at hq
            simp at hq; subst hq
            exact ⟨by omega, .mft m, .mft, by rw [core_finish _ _ _ _ _ _ k2, k1]; simp⟩
          · intro k j hk
            left; rw [← hroa, ← f1]; exact hk
      · simp at h; subst h; exact .failed rfl rfl
      · simp at h
      · simp at h
    · split at h
      · rename_i l hdec
        unfold V.addResourceCRL at h
        obtain ⟨a, ha, h⟩ := Go.bind_eq_ok.mp h
        obtain ⟨k1, k2⟩ := core_addCRL ha
        rw [k2] at h
        simp only at h
        obtain ⟨b, _, h⟩ := Go.bind_eq_ok.mp h
        split at h
        · simp at h; subst h
          refine ⟨fun j hj => ?_, by simp [Pki.failed], fun k j hk => .inl (roa_addCRL ha hk)⟩
          exact (k1 j).trans (if_neg (by omega))
        · simp at h; subst h
          obtain ⟨f1, f2, f3⟩ := roa_finish a.1 fid f a.2 []
          refine ⟨fun j hj => ?_, ?_, ?_⟩
          · rw [core_finish _ _ _ _ _ _ k2, k1, if_neg (by omega), if_neg (by omega)]
          · intro q hq
            rw [f2, k2] at hq
            simp at hq; subst hq
            exact ⟨by omega, .crl l, .crl, by rw [core_finish _ _ _ _ _ _ k2, k1]; simp⟩
          · intro k j hk
            rw [f1] at hk
            exact .inl (roa_addCRL ha hk)
      · simp at h; subst h; exact .failed rfl rfl
      · simp at h
      · simp at h
    · simp at h; subst h; exact .failed rfl rfl

end Verif.Pki

namespace Verif.Manager
open Pki ManagerSpec

/-- What is recorded of resources and files: a resource has the file it is recorded with, and every valid ROA is recorded. -/
structure PInv (m : M) : Prop where
  file : ∀ fid j, (fid, some j) ∈ m.resOf → ∃ d t, m.v.core j = some (d, t, some fid)
  roa : ∀ k j, m.v.validROA.get k = some j → ∃ fid, (fid, some j) ∈ m.resOf

theorem PInv.other {m m' : M} (h : PInv m) (h1 : m'.v = m.v) (h2 : m'.resOf = m.resOf) : PInv m' := by
  obtain ⟨a, b⟩ := h
  constructor
  · rw [h1, h2]; exact a
  · rw [h1, h2]; exact b

theorem invalidations {env : Env} : ∀ (ops : List Op) (v v' : V), (∀ op ∈ ops, ∃ k, op = .invalidate k) →
    V.run env v ops = .ok v' → v'.core = v.core ∧ ∀ k j, v'.validROA.get k = some j → v.validROA.get k = some j
  | [], v, v', _, h => by simp [V.run] at h; subst h; simp
  | op :: ops, v, v', ho, h => by
    unfold V.run at h
    obtain ⟨v1, h1, hrun⟩ := Go.bind_eq_ok.mp h
    obtain ⟨k, rfl⟩ := ho op (by simp)
    obtain ⟨g1, g2⟩ := invalidations ops v1 v' (fun o hm => ho o (by simp [hm])) hrun
    have h1 : v.invalidateObject k = .ok v1 := h1
    obtain ⟨s1, s2, s3⟩ := invalidateObject_spec h1
    refine ⟨g1.trans (core_congr s1.heap), ?_⟩
    intro k' j hj
    have hj := g2 k' j hj
    by_cases hr : Reach v k k'
    · rw [(s2 k' hr).2.1] at hj; simp at hj
    · rw [(s3 k' hr).2.1] at hj; exact hj

theorem PInv.onlyV {W : World} {m m' : M} (h : PInv m) (ho : OnlyV W m m') : PInv m' := by
  obtain ⟨v, ops, rfl, h2, h3⟩ := ho
  obtain ⟨g1, g2⟩ := invalidations ops m.v v h3 h2
  constructor
  · intro fid j hm
    simp only [g1]
    exact h.file fid j hm
  · intro k j hj
    exact h.roa k j (g2 k j hj)

theorem putFiles_keeps : ∀ (l : List PKIFile) (m : M), (m.putFiles l).v = m.v ∧ (m.putFiles l).resOf = m.resOf
  | [], m => by simp [M.putFiles]
  | f :: l, m => by
    have h := putFiles_keeps l (m.put1 f)
    have h1 := put1_fields m f
    constructor
    · refine h.1.trans ?_
      unfold M.put1; simp only []; split <;> rfl
    · refine h.2.trans ?_
      unfold M.put1; simp only []; split <;> rfl

theorem PInv.add {W : World} {m m' : M} {fid : Nat} {data : Bytes} {sha : Option Bytes} {ai : Bool} (h : PInv m)
    (ha : m.exploreAdd W fid data sha ai = .ok m') : PInv m' := by
  unfold M.exploreAdd at ha
  obtain ⟨⟨v1, a⟩, hv, ha⟩ := Go.bind_eq_ok.mp ha
  have ht := addResource_traced hv
  have hfile : ∀ fid' j, (fid', some j) ∈ m.resOf → ∃ d t, v1.core j = some (d, t, some fid') := by
    intro fid' j hm
    obtain ⟨d, t, hc⟩ := h.file fid' j hm
    exact ⟨d, t, by rw [← hc]; exact ht.old j (core_lt hc)⟩
  split at ha
  · simp only [Go.pure_def, Go.ok.injEq] at ha
    obtain ⟨g1, g2⟩ := putFiles_keeps (withParent fid a.files)
      { m with v := v1, explored := m.pathOf fid :: m.explored, trace := m.trace ++ [.added fid data sha] }
    subst ha
    constructor
    · intro fid' j hm
      simp only [g1, g2] at hm ⊢
      rcases List.mem_cons.mp hm with heq | hm
      · simp only [Prod.mk.injEq] at heq
        obtain ⟨rfl, hres⟩ := heq
        exact (ht.new j hres.symm).2
      · exact hfile fid' j hm
    · intro k j hj
      simp only [g1, g2] at hj ⊢
      rcases ht.roa k j hj with hj | ⟨_, hj⟩
      · obtain ⟨fid', hf⟩ := h.roa k j hj
        exact ⟨fid', by simp [hf]⟩
      · have hj : a.res = some j := hj
        exact ⟨fid, by simp [hj]⟩
  · rename_i hno
    simp only [Go.pure_def, Go.ok.injEq] at ha
    subst ha
    refine ⟨hfile, ?_⟩
    intro k j hj
    rcases ht.roa k j hj with hj | ⟨hval, _⟩
    · exact h.roa k j hj
    · have hval : a.valid = true := hval
      simp [hval] at hno

theorem PInv.calls {W : World} {fid : Nat} : ∀ {cs : List Call} {m m' : M}, PInv m → runCalls W fid cs m = .ok m' → PInv m'
  | [], m, m', h, hr => by simp [runCalls] at hr; subst hr; exact h
  | c :: cs, m, m', h, hr => by
    unfold runCalls at hr
    obtain ⟨m2, h2, hr⟩ := Go.bind_eq_ok.mp hr
    have h1 : PInv { m with files := m.files ++ [{ c.file with parent := some fid }] } := h.other rfl rfl
    exact PInv.calls (PInv.add h1 h2) hr

theorem PInv.round {W : World} {cfg : Cfg} {m m' : M} (h : PInv m) (hs : m.exploreStep cfg W = .ok m') : PInv m' := by
  unfold M.exploreStep at hs
  split at hs
  · simp at hs
  · rename_i fid rest hqe
    split at hs
    · simp at hs
    · rename_i f hf
      obtain ⟨m3, h2, hs⟩ := Go.bind_eq_ok.mp hs
      simp only [Go.pure_def, Go.ok.injEq] at hs
      subst hs
      refine PInv.other (m := m3) ?_ rfl rfl
      have h1 : PInv { m with queue := rest, trace := m.trace ++ [.taken fid] } := h.other rfl rfl
      by_cases hb : cfg.notMFT = false ∨ f.type ≠ .mft
      · obtain ⟨pre, m1, hp, ho, hu⟩ := fetch_round hb h2
        have h5 := (PInv.other (m' := { m with queue := rest, trace := (m.trace ++ [.taken fid]) ++ pre }) h1 rfl rfl).onlyV ho
        rcases useAnswer_cases hu with ⟨_, ho2⟩ | ⟨data, sha, hr, hadd⟩
        · exact h5.onlyV ho2
        · exact h5.add hadd
      · unfold M.handle at h2
        rw [if_neg hb] at h2
        unfold M.exploreRepo at h2
        obtain ⟨m1, hm1, h2⟩ := Go.bind_eq_ok.mp h2
        simp only [Go.pure_def, Go.ok.injEq] at h2
        subst h2
        refine PInv.other (m := m1) ?_ rfl rfl
        unfold M.getNextRepository at hm1
        split at hm1
        · simp at hm1; subst hm1; exact h1
        · exact h1.calls hm1

theorem pinv_later {W : World} {ok : Cfg → Prop} {m m' : M} (h : PInv m) (hl : Later W ok m m') : PInv m' := by
  induction hl with
  | here => exact h
  | initial m1 fs _ _ ih => obtain ⟨g1, g2⟩ := putFiles_keeps fs m1; exact ih.other g1 g2
  | round m1 m2 cfg _ _ hs ih => exact ih.round hs

theorem pinv_new : PInv (M.new V.new) :=
  ⟨by simp [M.new], by simp [M.new, V.new, Map.get]⟩

end Verif.Manager
