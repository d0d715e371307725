import Verif.Lemmas.DataAll
/-
  Where the manifests in the validator come from: each is a result of the decoder.
-/
set_option autoImplicit false

namespace Verif.Pki
open Manager EndSpec

/-- All manifests that the validator stores have the property `D`. -/
def MftAll (D : Mft → Prop) : V → Prop := DataAll (fun d => ∀ c, d = .mft c → D c)

theorem MftAll.addResource {D : Mft → Prop} {env : Env} (hD : ∀ d c, env.parseMft d = .ok c → D c) {v : V} (hv : MftAll D v)
    {files : List PKIFile} {fid : Nat} {data : Bytes} {x : V × Added} (h : v.addResource env files fid data = .ok x) : MftAll D x.1 := by
  refine DataAll.addResource ?_ hv h
  rintro f _ d hd c rfl
  generalize f.type = ty at hd
  cases hd with
  | mft m h => exact hD _ _ h

end Verif.Pki

namespace Verif.Manager
open Pki

theorem putFiles_v : ∀ (l : List PKIFile) (m : M), (m.putFiles l).v = m.v := by
  intro l
  induction l with
  | nil => intro m; rfl
  | cons f l ih =>
    intro m
    show (M.putFiles (m.put1 f) l).v = _
    rw [ih]
    unfold M.put1
    simp only
    split <;> rfl

theorem onlyV_mft {W : World} {D : Mft → Prop} {m m' : M} (h : OnlyV W m m') (hv : MftAll D m.v) : MftAll D m'.v := by
  obtain ⟨v, ops, rfl, h2, h3⟩ := h
  have : ∀ (ops : List Op) (a b : V), V.run W.env a ops = .ok b → (∀ op ∈ ops, ∃ k, op = .invalidate k) → MftAll D a → MftAll D b := by
    intro ops
    induction ops with
    | nil => intro a b h _ ha; simp [V.run] at h; subst h; exact ha
    | cons op ops ih =>
      intro a b h ho ha
      simp only [V.run] at h
      obtain ⟨c, hc, h'⟩ := Go.bind_eq_ok.mp h
      obtain ⟨k, rfl⟩ := ho op (by simp)
      exact ih c b h' (fun o h => ho o (by simp [h])) (DataAll.invalidate ha hc)
  exact this ops _ _ h2 h3 hv

theorem exploreAdd_mft {W : World} {D : Mft → Prop} (hD : ∀ d c, W.env.parseMft d = .ok c → D c) {m m' : M} (hv : MftAll D m.v) {fid : Nat}
    {data : Bytes} {sha : Option Bytes} {b : Bool} (h : m.exploreAdd W fid data sha b = .ok m') : MftAll D m'.v := by
  unfold M.exploreAdd at h
  obtain ⟨a, ha, h⟩ := Go.bind_eq_ok.mp h
  have h1 := MftAll.addResource hD hv ha
  simp only at h
  split at h
  · simp at h; subst h
    simp only [putFiles_v]
    exact h1
  · simp at h; subst h; exact h1

theorem runCalls_mft {W : World} {D : Mft → Prop} (hD : ∀ d c, W.env.parseMft d = .ok c → D c) (fid : Nat) : ∀ (l : List Call) (m m' : M),
    MftAll D m.v → runCalls W fid l m = .ok m' → MftAll D m'.v := by
  intro l
  induction l with
  | nil => intro m m' hv h; simp [runCalls] at h; subst h; exact hv
  | cons c l ih =>
    intro m m' hv h
    simp only [runCalls] at h
    obtain ⟨m2, h2, h⟩ := Go.bind_eq_ok.mp h
    exact ih _ _ (exploreAdd_mft hD (m := { m with files := m.files ++ [{ c.file with parent := some fid }] }) hv h2) h

theorem handle_mft {W : World} {D : Mft → Prop} (hD : ∀ d c, W.env.parseMft d = .ok c → D c) {cfg : Cfg} {m m' : M} (hv : MftAll D m.v)
    {fid : Nat} {f : PKIFile} (h : m.handle cfg W fid f = .ok m') : MftAll D m'.v := by
  unfold M.handle at h
  split at h
  · simp only at h
    obtain ⟨x, hx, h⟩ := Go.bind_eq_ok.mp h
    have h0 : MftAll D (m.getNextFile cfg W fid f).1.v := by
      unfold M.getNextFile
      split
      · exact hv
      · split <;> exact hv
    have h1 := onlyV_mft (onlyV_checkHash hx) h0
    unfold M.useAnswer at h
    split at h
    · obtain ⟨m1, hm, h⟩ := Go.bind_eq_ok.mp h
      exact onlyV_mft (W := W) (onlyV_invalidateCRLParent h) (onlyV_mft (W := W) (onlyV_strict hm) h1)
    · exact onlyV_mft (W := W) (onlyV_strict h) h1
    · exact exploreAdd_mft hD h1 h
  · unfold M.exploreRepo at h
    obtain ⟨m1, hm, h⟩ := Go.bind_eq_ok.mp h
    simp at h; subst h
    unfold M.getNextRepository at hm
    split at hm
    · simp at hm; subst hm; exact hv
    · exact runCalls_mft hD fid _ m m1 hv hm

theorem exploreStep_mft {W : World} {D : Mft → Prop} (hD : ∀ d c, W.env.parseMft d = .ok c → D c) {cfg : Cfg} {m m' : M} (hv : MftAll D m.v)
    (h : m.exploreStep cfg W = .ok m') : MftAll D m'.v := by
  unfold M.exploreStep at h
  split at h
  · simp at h
  · rename_i fid rest hq
    split at h
    · simp at h
    · obtain ⟨m2, h2, h⟩ := Go.bind_eq_ok.mp h
      simp at h; subst h
      exact handle_mft hD (m := { m with queue := rest, trace := m.trace ++ [.taken fid] }) (m' := m2) hv h2

end Verif.Manager
