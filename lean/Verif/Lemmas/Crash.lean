import Verif.Lemmas.CrashPki
import Verif.Lemmas.ManagerLife
/-
  Which rounds of the exploration can panic.
-/
set_option autoImplicit false

namespace Verif.Manager
open Pki PkiSpec ManagerSpec CrashSpec

/-- The files that come from a file, accepted or not, and the object stored with it. -/
theorem addResource_kids {env : Env} {files : List PKIFile} {v v' : V} {fid : Nat} {data : Bytes} {a : Added} {f : PKIFile}
    (hf : files[fid]? = some f) (h : v.addResource env files fid data = .ok (v', a)) : ∀ g ∈ a.files,
    (f.type = .tal ∧ g.type = .cer) ∨
    (f.type = .cer ∧ (g.type = .crl ∨ g.type = .mft) ∧ ∃ r c, a.res = some r ∧ v'.certOf r = some c) ∨
    (f.type = .mft ∧ g.type ≠ .tal ∧ ∃ r m, a.res = some r ∧ v'.dataOf r = some (.mft m)) := by
  intro g hg
  unfold V.addResource at h
  rw [hf] at h
  simp only at h
  split at h
  · rename_i hty
    split at h
    · simp only [Go.ok.injEq, Prod.mk.injEq] at h
      obtain ⟨rfl, rfl⟩ := h
      simp only [V.addTAL, withParent, List.map_cons, List.map_nil, List.mem_singleton] at hg
      subst hg
      exact .inl ⟨hty, rfl⟩
    · simp only [Go.ok.injEq, Prod.mk.injEq] at h
      obtain ⟨rfl, rfl⟩ := h
      simp [failed] at hg
    · simp at h
    · simp at h
  · rename_i hty
    split at h
    · rename_i c hdec
      unfold V.addResourceCer at h
      obtain ⟨x, hx, h1⟩ := Go.bind_eq_ok.mp h
      split at h1
      · obtain ⟨y, hy, h2⟩ := Go.bind_eq_ok.mp h1
        obtain ⟨k1, k2, k3⟩ := core_addCert hy
        rw [k2] at h2
        simp only [Go.ok.injEq, Prod.mk.injEq] at h2
        obtain ⟨e1, e2⟩ := h2
        rw [← e2] at hg
        simp only [withParent, List.mem_map] at hg
        obtain ⟨z, hz, rfl⟩ := hg
        have hex : z ∈ extractPathCert c := by
          unfold V.addCert at hy
          simp only at hy
          split at hy
          · simp at hy; rw [← hy] at hz; simp at hz
          · obtain ⟨e, _, hy⟩ := Go.bind_eq_ok.mp hy
            simp at hy; rw [← hy] at hz; exact hz
        refine .inr (.inl ⟨hty, ?_, x.1.heap.length, c, by rw [← e2]; exact k2, ?_⟩)
        · unfold extractPathCert at hex
          simp only [List.mem_append, List.mem_map] at hex
          rcases hex with ⟨p, _, rfl⟩ | hex
          · exact .inl rfl
          · split at hex
            · simp at hex; subst hex; exact .inr rfl
            · simp at hex
        · rw [← e1]
          have : (y.1.setFile (some x.1.heap.length) fid (some .cer)).core x.1.heap.length = some (.cert c, .cer, some fid) := by
            rw [core_setFile, k1]; simp
          exact (cert_of_core this).1
      · simp only [Go.ok.injEq, Prod.mk.injEq] at h1
        obtain ⟨rfl, rfl⟩ := h1
        simp [failed] at hg
    · simp only [Go.ok.injEq, Prod.mk.injEq] at h
      obtain ⟨rfl, rfl⟩ := h
      simp [failed] at hg
    · simp at h
    · simp at h
  · split at h
    · obtain ⟨y, hy, h1⟩ := Go.bind_eq_ok.mp h
      simp at h1
      unfold V.finish at h1
      split at h1
      · simp only [Prod.mk.injEq] at h1
        rw [← h1.2] at hg; simp at hg
      · simp only [Prod.mk.injEq] at h1
        rw [← h1.2] at hg; simp at hg
    · simp only [Go.ok.injEq, Prod.mk.injEq] at h
      obtain ⟨rfl, rfl⟩ := h
      simp [failed] at hg
    · simp at h
    · simp at h
  · rename_i hty
    split at h
    · rename_i m hdec
      obtain ⟨y, hy, h1⟩ := Go.bind_eq_ok.mp h
      simp at h1
      rcases core_addManifest hy with ⟨k1, k2⟩ | ⟨k1, k2⟩
      · unfold V.finish at h1
        rw [k2] at h1
        simp only [Prod.mk.injEq] at h1
        rw [← h1.2] at hg; simp at hg
      · have hcore := core_finish y.1 fid f y.2 (withParent fid y.2.files) _ k2 (v.heap.length + 1)
        rw [h1, k1] at hcore
        simp at hcore
        unfold V.finish at h1
        rw [k2] at h1
        simp only [Prod.mk.injEq] at h1
        obtain ⟨_, e2⟩ := h1
        rw [← e2] at hg
        simp only [withParent, List.mem_map] at hg
        obtain ⟨z, hz, rfl⟩ := hg
        refine .inr (.inr ⟨hty, ?_, v.heap.length + 1, m, by rw [← e2], ?_⟩)
        · have hex : ∃ l, extractPathManifest m.fileList = .ok l ∧ z ∈ l := by
            unfold V.addManifest at hy
            split at hy
            · rename_i l hl
              obtain ⟨w, hw, hy2⟩ := Go.bind_eq_ok.mp hy
              split at hy2
              all_goals
                simp at hy2; rw [← hy2] at hz; exact ⟨l, hl, hz⟩
            · simp at hy; rw [← hy] at hz; simp at hz
          obtain ⟨l, hl, hz⟩ := hex
          have key : ∀ (fl : List (Bytes × Bytes)) (l : List PKIFile), extractPathManifest fl = .ok l → ∀ z ∈ l, z.type ≠ .tal := by
            intro fl
            induction fl with
            | nil => intro l h z hz; simp [extractPathManifest] at h; subst h; simp at hz
            | cons e r ih =>
              intro l h z hz
              obtain ⟨nm, hs⟩ := e
              unfold extractPathManifest at h
              split at h
              · simp at h
              · obtain ⟨l', hl', h2⟩ := Go.bind_eq_ok.mp h
                simp at h2; subst h2
                rcases List.mem_cons.mp hz with rfl | hz
                · show determineType nm ≠ .tal
                  unfold determineType
                  simp only
                  repeat' split
                  all_goals simp
                · exact ih l' hl' z hz
          exact key _ _ hl z hz
        · unfold V.core at hcore
          obtain ⟨r, hr, hcore⟩ := Option.map_eq_some_iff.mp hcore
          simp at hcore
          unfold V.dataOf
          rw [hr]
          simp [hcore]
    · simp only [Go.ok.injEq, Prod.mk.injEq] at h
      obtain ⟨rfl, rfl⟩ := h
      simp [failed] at hg
    · simp at h
    · simp at h
  · split at h
    · unfold V.addResourceCRL at h
      obtain ⟨y, hy, h1⟩ := Go.bind_eq_ok.mp h
      split at h1
      · simp at h1
      · obtain ⟨b, _, h2⟩ := Go.bind_eq_ok.mp h1
        split at h2
        · simp at h2; rw [← h2.2] at hg; simp [failed] at hg
        · simp at h2
          unfold V.finish at h2
          split at h2
          · simp only [Prod.mk.injEq] at h2
            rw [← h2.2] at hg; simp at hg
          · simp only [Prod.mk.injEq] at h2
            rw [← h2.2] at hg; simp at hg
    · simp only [Go.ok.injEq, Prod.mk.injEq] at h
      obtain ⟨rfl, rfl⟩ := h
      simp [failed] at hg
    · simp at h
    · simp at h
  · simp only [Go.ok.injEq, Prod.mk.injEq] at h
    obtain ⟨rfl, rfl⟩ := h
    simp [failed] at hg

/-- What holds of a manager that started with TAL files. -/
structure CrashInv (W : World) (m : M) : Prop where
  mi : MInv m
  v : VInv W.env m.files.length m.v
  deep : ∀ (i : Nat) (f : PKIFile), m.files[i]? = some f → f.type ≠ .tal → ∃ p, f.parent = some p
  crl : ∀ (i : Nat) (f : PKIFile) (p : Nat) (pf : PKIFile), m.files[i]? = some f → f.type = .crl → f.parent = some p →
    m.files[p]? = some pf → pf.type ≠ .tal
  cerKid : ∀ (i : Nat) (f : PKIFile) (p : Nat) (pf : PKIFile), m.files[i]? = some f → f.parent = some p → m.files[p]? = some pf → pf.type = .cer →
    ∃ r c, m.resOf.lookup p = some (some r) ∧ m.v.certOf r = some c
  crlKid : ∀ (i : Nat) (f : PKIFile) (p : Nat) (pf : PKIFile), m.files[i]? = some f → f.parent = some p → m.files[p]? = some pf → pf.type ≠ .crl
  mftKid : ∀ i ∈ m.queue, ∀ (f : PKIFile) (p : Nat) (pf : PKIFile), m.files[i]? = some f → f.parent = some p → m.files[p]? = some pf → pf.type = .mft →
    ∃ r c, m.resOf.lookup p = some (some r) ∧ m.v.dataOf r = some (.mft c)

theorem CrashInv.parents {W : World} {m : M} (h : CrashInv W m) {i : Nat} {f : PKIFile} (hf : m.files[i]? = some f)
    (ht : f.type = .crl) : ∃ p pf g gf, f.parent = some p ∧ m.files[p]? = some pf ∧ pf.parent = some g ∧ m.files[g]? = some gf := by
  have hex : ∀ {i : Nat} {f : PKIFile} {p : Nat}, m.files[i]? = some f → f.parent = some p → ∃ pf, m.files[p]? = some pf := by
    intro i f p hf hp
    have := h.mi.par i f p hf hp
    have := (List.getElem?_eq_some_iff.mp hf).1
    exact ⟨_, List.getElem?_eq_getElem (by omega)⟩
  obtain ⟨p, hp⟩ := h.deep i f hf (by rw [ht]; simp)
  obtain ⟨pf, hpf⟩ := hex hf hp
  obtain ⟨g, hg⟩ := h.deep p pf hpf (h.crl i f p pf hf ht hp hpf)
  obtain ⟨gf, hgf⟩ := hex hpf hg
  exact ⟨p, pf, g, gf, hp, hpf, hg, hgf⟩

theorem cinv_roots (W : World) (fs : List PKIFile) (hp : ∀ f ∈ fs, f.parent = none ∧ f.type = .tal) :
    CrashInv W ((M.new V.new).putFiles fs) := by
  obtain ⟨hk, h1, h2, h3, h4, h5⟩ := keeps_putFiles fs (M.new V.new) (put_initial fs (fun f hf => (hp f hf).1))
  have hmem : ∀ {i : Nat} {f : PKIFile}, ((M.new V.new).putFiles fs).files[i]? = some f → f ∈ fs := by
    intro i f hi
    rw [h1] at hi
    simp [M.new] at hi
    exact List.mem_of_getElem? hi
  have hno : ∀ {i : Nat} {f : PKIFile} {p : Nat}, ((M.new V.new).putFiles fs).files[i]? = some f → f.parent = some p → False := by
    intro i f p hi hpp
    rw [(hp f (hmem hi)).1] at hpp
    simp at hpp
  refine ⟨hk.2 (minv_new _), ?_, ?_, ?_, ?_, ?_, ?_⟩
  · rw [h5]; exact vinv_new _ _
  · intro i f hi ht
    exact (ht (hp f (hmem hi)).2).elim
  · intro i f p pf hi _ hpp; exact (hno hi hpp).elim
  · intro i f p pf hi hpp; exact (hno hi hpp).elim
  · intro i f p pf hi hpp; exact (hno hi hpp).elim
  · intro i _ f p pf hi hpp; exact (hno hi hpp).elim

/-- Invalidations keep what is known. -/
theorem CrashInv.onlyV {W : World} {m m' : M} (h : CrashInv W m) (ho : OnlyV W m m') : CrashInv W m' := by
  have hmi := ho.keeps.2 h.mi
  obtain ⟨v, ops, rfl, h2, h3⟩ := ho
  have hv := vinv_invalidations ops _ _ h.v h3 h2
  have hg := (good_run ops m.v v (fun o _ => Props.trusts_all W.env o) (fun o _ => Props.roas_all W.env o) h2 h.v.inv).2
  refine ⟨hmi, hv, h.deep, h.crl, ?_, h.crlKid, ?_⟩
  · intro i f p pf a b c d
    obtain ⟨r, x, e1, e2⟩ := h.cerKid i f p pf a b c d
    exact ⟨r, x, e1, hg.cert e2⟩
  · intro i hi f p pf a b c d
    obtain ⟨r, x, e1, e2⟩ := h.mftKid i hi f p pf a b c d
    exact ⟨r, x, e1, hg.data _ _ e2⟩

theorem exploreAdd_cases {W : World} {m m' : M} {fid : Nat} {data : Bytes} {sha : Option Bytes} {ai : Bool}
    (hlt : fid < m.files.length) (h : m.exploreAdd W fid data sha ai = .ok m') :
    ∃ a, m.v.addResource W.env m.files fid data = .ok (m'.v, a) ∧
      (m'.files = m.files ∧ m'.resOf = m.resOf ∧ m'.queue = m.queue ∨
       m'.files = m.files ++ withParent fid a.files ∧ m'.resOf = (fid, a.res) :: m.resOf) := by
  unfold M.exploreAdd at h
  obtain ⟨⟨v1, a⟩, ha, h1⟩ := Go.bind_eq_ok.mp h
  simp only [] at h1
  split at h1
  · simp only [Go.pure_def, Go.ok.injEq] at h1
    obtain ⟨_, g1, g2, g3, g4, g5⟩ := keeps_putFiles (withParent fid a.files) { m with
        v := v1, explored := m.pathOf fid :: m.explored, trace := m.trace ++ [.added fid data sha] } (by
      intro f hf p hp
      simp [withParent] at hf
      obtain ⟨x, _, rfl⟩ := hf
      simp at hp
      subst hp
      exact hlt)
    subst h1
    exact ⟨a, by rw [ha]; simp only [g5], .inr ⟨g1, by simp only [g4]⟩⟩
  · simp at h1
    subst h1
    exact ⟨a, ha, .inl ⟨rfl, rfl, rfl⟩⟩

theorem lookup_fresh {α : Type} {l : List (Nat × α)} {i : Nat} (h : ∀ e ∈ l, e.1 ≠ i) : l.lookup i = none := by
  induction l with
  | nil => rfl
  | cons e r ih =>
    obtain ⟨a, b⟩ := e
    have hne : (i == a) = false := by
      have := h (a, b) (by simp)
      simp only [beq_eq_false_iff_ne]
      exact fun he => this he.symm
    simp only [List.lookup, hne]
    exact ih (fun e he => h e (by simp [he]))

/-- A file that is added keeps what is known. -/
theorem CrashInv.add {W : World} {m m' : M} (h : CrashInv W m) {fid : Nat} {f : PKIFile} (hf : m.files[fid]? = some f)
    (hq : fid ∉ m.queue) (hfresh : ∀ e ∈ m.resOf, e.1 ≠ fid) {data : Bytes} {sha : Option Bytes} {ai : Bool}
    (hd : Harmless W.env data) (ha : m.exploreAdd W fid data sha ai = .ok m') : CrashInv W m' := by
  have hlt := (List.getElem?_eq_some_iff.mp hf).1
  obtain ⟨hk, _⟩ := minv_exploreAdd hlt hq ha
  obtain ⟨a, hadd, hc⟩ := exploreAdd_cases hlt ha
  have hv := vinv_addResource h.v hd hadd
  have hstep : m.v.step W.env (.addResource m.files fid data) = .ok m'.v := by
    show (m.v.addResource W.env m.files fid data >>= _) = _
    rw [hadd]; rfl
  have hg := (good_step (T := fun _ => True) (P := fun _ => True) (Props.trusts_all W.env _) (Props.roas_all W.env _) hstep h.v.inv).2
  rcases hc with ⟨e1, e2, e3⟩ | ⟨e1, e2⟩
  · refine ⟨hk.2 h.mi, by rw [e1]; exact hv, by rw [e1]; exact h.deep, by rw [e1]; exact h.crl, ?_,
      by rw [e1]; exact h.crlKid, ?_⟩
    · rw [e1, e2]
      intro i f p pf a b c d
      obtain ⟨r, x, e1, e2⟩ := h.cerKid i f p pf a b c d
      exact ⟨r, x, e1, hg.cert e2⟩
    · rw [e1, e2, e3]
      intro i hi f p pf a b c d
      obtain ⟨r, x, e1, e2⟩ := h.mftKid i hi f p pf a b c d
      exact ⟨r, x, e1, hg.data _ _ e2⟩
  · have hkids := addResource_kids hf hadd
    have hlf : m.resOf.lookup fid = none := lookup_fresh hfresh
    -- old files, and new ones
    have hget : ∀ {i : Nat} {g : PKIFile}, m'.files[i]? = some g →
        m.files[i]? = some g ∨ (m.files.length ≤ i ∧ g.parent = some fid ∧ ∃ z ∈ a.files, g.type = z.type) := by
      intro i g hi
      rw [e1] at hi
      rcases Nat.lt_or_ge i m.files.length with hl | hl
      · rw [List.getElem?_append_left hl] at hi; exact .inl hi
      · rw [List.getElem?_append_right hl] at hi
        have := List.mem_of_getElem? hi
        simp only [withParent, List.mem_map] at this
        obtain ⟨z, hz, rfl⟩ := this
        exact .inr ⟨hl, rfl, z, hz, rfl⟩
    have hfid : m'.files[fid]? = some f := by rw [e1, List.getElem?_append_left hlt]; exact hf
    have hold : ∀ {i : Nat} {g : PKIFile} {p : Nat} {pf : PKIFile}, m.files[i]? = some g → g.parent = some p →
        m'.files[p]? = some pf → m.files[p]? = some pf := by
      intro i g p pf hi hp hpf
      have h1 := h.mi.par i g p hi hp
      have h2 := (List.getElem?_eq_some_iff.mp hi).1
      rw [e1, List.getElem?_append_left (by omega)] at hpf
      exact hpf
    refine ⟨hk.2 h.mi, hv.mono (by rw [e1]; simp), ?_, ?_, ?_, ?_, ?_⟩
    · intro i g hi ht
      rcases hget hi with hi | ⟨_, hp, _⟩
      · exact h.deep i g hi ht
      · exact ⟨fid, hp⟩
    · intro i g p pf hi ht hp hpf
      rcases hget hi with hi | ⟨_, hp', z, hz, htz⟩
      · exact h.crl i g p pf hi ht hp (hold hi hp hpf)
      · rw [hp'] at hp
        simp at hp; subst hp
        rw [hfid] at hpf
        simp at hpf; subst hpf
        rcases hkids z hz with ⟨_, hc⟩ | ⟨hc, _⟩ | ⟨hc, _⟩
        · rw [← htz, ht] at hc; simp at hc
        · rw [hc]; simp
        · rw [hc]; simp
    · intro i g p pf hi hp hpf htp
      rcases hget hi with hi | ⟨_, hp', z, hz, htz⟩
      · obtain ⟨r, x, q1, q2⟩ := h.cerKid i g p pf hi hp (hold hi hp hpf) htp
        have hne : p ≠ fid := by
          intro he; rw [he, hlf] at q1; simp at q1
        exact ⟨r, x, by rw [e2, lookup_cons_ne hne]; exact q1, hg.cert q2⟩
      · rw [hp'] at hp
        simp at hp; subst hp
        rw [hfid] at hpf
        simp at hpf; subst hpf
        rcases hkids z hz with ⟨hc, _⟩ | ⟨_, _, r, c, q1, q2⟩ | ⟨hc, _⟩
        · rw [hc] at htp; simp at htp
        · exact ⟨r, c, by rw [e2, q1]; simp [List.lookup], q2⟩
        · rw [hc] at htp; simp at htp
    · intro i g p pf hi hp hpf
      rcases hget hi with hi | ⟨_, hp', z, hz, htz⟩
      · exact h.crlKid i g p pf hi hp (hold hi hp hpf)
      · rw [hp'] at hp
        simp at hp; subst hp
        rw [hfid] at hpf
        simp at hpf; subst hpf
        rcases hkids z hz with ⟨hc, _⟩ | ⟨hc, _⟩ | ⟨hc, _⟩ <;> rw [hc] <;> simp
    · intro i hiq g p pf hi hp hpf htp
      rcases hget hi with hi | ⟨_, hp', z, hz, htz⟩
      · obtain ⟨q, hq1, hq2⟩ := hk.1.queue
        rw [hq1] at hiq
        rcases List.mem_append.mp hiq with hiq | hiq
        · obtain ⟨r, x, q1, q2⟩ := h.mftKid i hiq g p pf hi hp (hold hi hp hpf) htp
          have hne : p ≠ fid := by
            intro he; rw [he, hlf] at q1; simp at q1
          exact ⟨r, x, by rw [e2, lookup_cons_ne hne]; exact q1, hg.data _ _ q2⟩
        · have := hq2 i hiq
          have := (List.getElem?_eq_some_iff.mp hi).1
          omega
      · rw [hp'] at hp
        simp at hp; subst hp
        rw [hfid] at hpf
        simp at hpf; subst hpf
        rcases hkids z hz with ⟨hc, _⟩ | ⟨hc, _⟩ | ⟨_, _, r, c, q1, q2⟩
        · rw [hc] at htp; simp at htp
        · rw [hc] at htp; simp at htp
        · exact ⟨r, c, by rw [e2, q1]; simp [List.lookup], q2⟩

/-- A file of the callback keeps what is known. -/
theorem CrashInv.call {W : World} {m : M} (h : CrashInv W m) {fid : Nat} {f : PKIFile} (hf : m.files[fid]? = some f)
    (ht : f.type = .mft) (x : PKIFile) (hx : x.parent = some fid) : CrashInv W { m with files := m.files ++ [x] } := by
  have hlt := (List.getElem?_eq_some_iff.mp hf).1
  have hget : ∀ {i : Nat} {g : PKIFile}, (m.files ++ [x])[i]? = some g → m.files[i]? = some g ∨ (m.files.length ≤ i ∧ g = x) := by
    intro i g hi
    rcases Nat.lt_or_ge i m.files.length with hl | hl
    · rw [List.getElem?_append_left hl] at hi; exact .inl hi
    · rw [List.getElem?_append_right hl] at hi
      have := List.mem_of_getElem? hi
      exact .inr ⟨hl, by simpa using this⟩
  have hfid : (m.files ++ [x])[fid]? = some f := by rw [List.getElem?_append_left hlt]; exact hf
  have hold : ∀ {i : Nat} {g : PKIFile} {p : Nat} {pf : PKIFile}, m.files[i]? = some g → g.parent = some p →
      (m.files ++ [x])[p]? = some pf → m.files[p]? = some pf := by
    intro i g p pf hi hp hpf
    have h1 := h.mi.par i g p hi hp
    have h2 := (List.getElem?_eq_some_iff.mp hi).1
    rw [List.getElem?_append_left (by omega)] at hpf
    exact hpf
  have hmap : ∀ m' : M, m'.files = m.files ++ [x] → (entered m).map m'.pathOf = (entered m).map m.pathOf :=
    fun m' h' => map_pathOf h' h.mi.par h.mi.lt
  refine ⟨⟨?_, ?_, ?_, ?_, ?_⟩, h.v.mono (by simp), ?_, ?_, ?_, ?_, ?_⟩
  · exact parOK_append h.mi.par (by intro p hp; rw [hx] at hp; simp at hp; omega)
  · intro i hh
    have := h.mi.lt i hh
    simp; omega
  · have := h.mi.nd
    rw [← hmap { m with files := m.files ++ [x] } rfl] at this
    exact this
  · have := h.mi.uniq
    rw [← hmap { m with files := m.files ++ [x] } rfl] at this
    exact this
  · intro e he
    have := h.mi.res e he
    exact ⟨this.1, by simp; omega⟩
  · intro i g hi hne
    rcases hget hi with hi | ⟨_, rfl⟩
    · exact h.deep i g hi hne
    · exact ⟨fid, hx⟩
  · intro i g p pf hi htg hp hpf
    rcases hget hi with hi | ⟨_, rfl⟩
    · exact h.crl i g p pf hi htg hp (hold hi hp hpf)
    · rw [hx] at hp; simp at hp; subst hp
      rw [hfid] at hpf; simp at hpf; subst hpf
      rw [ht]; simp
  · intro i g p pf hi hp hpf htp
    rcases hget hi with hi | ⟨_, rfl⟩
    · exact h.cerKid i g p pf hi hp (hold hi hp hpf) htp
    · rw [hx] at hp; simp at hp; subst hp
      rw [hfid] at hpf; simp at hpf; subst hpf
      rw [ht] at htp; simp at htp
  · intro i g p pf hi hp hpf
    rcases hget hi with hi | ⟨_, rfl⟩
    · exact h.crlKid i g p pf hi hp (hold hi hp hpf)
    · rw [hx] at hp; simp at hp; subst hp
      rw [hfid] at hpf; simp at hpf; subst hpf
      rw [ht]; simp
  · intro i hiq g p pf hi hp hpf htp
    have := h.mi.lt i (List.mem_append_right _ hiq)
    rcases hget hi with hi | ⟨hl, _⟩
    · exact h.mftKid i hiq g p pf hi hp (hold hi hp hpf) htp
    · omega

/-! ### Panics -/

theorem panic_exploreAdd {W : World} {m : M} (h : CrashInv W m) {fid : Nat} {f : PKIFile} (hf : m.files[fid]? = some f)
    {data : Bytes} {sha : Option Bytes} {ai : Bool} (hd : Harmless W.env data)
    (hp : m.exploreAdd W fid data sha ai = .panic) : f.type = .crl ∧ OfUnknownIssuer W.env m.v data := by
  unfold M.exploreAdd at hp
  rcases Go.bind_eq_panic.mp hp with hp | ⟨a, _, hp⟩
  · exact panic_addResource h.v hd hf (h.parents hf) hp
  · simp only [] at hp
    split at hp <;> simp at hp

theorem np_invalidateRes {cfg : Cfg} {m : M} {r : Nat} {c : Cert} (h : m.v.certOf r = some c) :
    NP (m.invalidateRes cfg (some r)) := by
  unfold M.invalidateRes
  simp only [h]
  exact NP.bind (np_invalidate _ _) (fun _ _ => np_pure _)

theorem grandCer_some {m : M} {f : PKIFile} {t : FType} {g : Nat} {gf : PKIFile} (h : m.grandCer f t = some (g, gf)) :
    ∃ p pf, f.parent = some p ∧ m.files[p]? = some pf ∧ pf.type = t ∧ pf.parent = some g ∧ m.files[g]? = some gf ∧ gf.type = .cer := by
  unfold M.grandCer at h
  repeat' split at h
  all_goals simp_all

theorem np_invalidateManifestParent {W : World} {cfg : Cfg} {m : M} (h : CrashInv W m) (f : PKIFile) :
    NP (m.invalidateManifestParent cfg f) := by
  unfold M.invalidateManifestParent
  split
  · rename_i g gf hg
    obtain ⟨p, pf, _, h2, _, h4, h5, h6⟩ := grandCer_some hg
    obtain ⟨r, c, e1, e2⟩ := h.cerKid p pf g gf h2 h4 h5 h6
    rw [e1]
    exact np_invalidateRes e2
  · exact np_ok _

theorem np_invalidateCRLParent {W : World} {cfg : Cfg} {m : M} (h : CrashInv W m) {fid : Nat} {f : PKIFile}
    (hf : m.files[fid]? = some f) : NP (m.invalidateCRLParent cfg f) := by
  unfold M.invalidateCRLParent
  split
  · rename_i g gf hg
    obtain ⟨p, pf, h1, h2, h3, _⟩ := grandCer_some hg
    exact (h.crlKid fid f p pf hf h1 h2 h3).elim
  · exact np_ok _

/-- For a file that was in the queue, its manifest is known. -/
def MftKnown (m : M) (f : PKIFile) : Prop := ∀ p pf, f.parent = some p → m.files[p]? = some pf → pf.type = .mft →
    ∃ r c, m.resOf.lookup p = some (some r) ∧ m.v.dataOf r = some (.mft c)

theorem np_checkExpired {W : World} {cfg : Cfg} {m : M} (h : CrashInv W m) {f : PKIFile} (hk : MftKnown m f) :
    NP (m.checkExpired cfg W f) := by
  unfold M.checkExpired
  split
  · exact np_ok _
  · rename_i p hp
    split
    · exact np_ok _
    · rename_i pf hpf
      split
      · rename_i ht
        obtain ⟨r, c, e1, e2⟩ := hk p pf hp hpf ht
        unfold V.dataOf at e2
        obtain ⟨res, hr, e2⟩ := Option.map_eq_some_iff.mp e2
        rw [e1]
        simp only [Option.bind_some, id, hr, e2]
        split
        · exact np_invalidateManifestParent h f
        · exact np_ok _
      · exact np_ok _

theorem np_checkHash {W : World} {cfg : Cfg} {m : M} (h : CrashInv W m) {f : PKIFile} (hk : MftKnown m f) (r : Fetch) :
    NP (m.checkHash cfg W f r) := by
  unfold M.checkHash
  repeat' split
  all_goals first
    | exact np_ok _
    | exact NP.bind (np_checkExpired h hk) (fun _ _ => np_pure _)
    | (refine NP.bind (np_checkExpired h hk) (fun _ _ => ?_); split <;> exact np_pure _)

/-- The call gives no error. -/
theorem noErr_checkHash (cfg : Cfg) (W : World) (m : M) (f : PKIFile) (r : Fetch) (e : String) : m.checkHash cfg W f r ≠ .err e := by
  have h1 : ∀ e, logged cfg m ≠ .err e := by intro e; unfold logged; split <;> simp
  have h2 : ∀ r e, m.invalidateRes cfg r ≠ .err e := by
    intro r e
    unfold M.invalidateRes
    repeat' split
    · rename_i c _
      obtain ⟨v', h⟩ := invalidateObject_total m.v c.ski
      rw [h]; simp
    all_goals exact h1 e
  have h3 : ∀ e, m.checkExpired cfg W f ≠ .err e := by
    intro e
    unfold M.checkExpired M.invalidateManifestParent
    repeat' split
    all_goals first
      | exact h1 e
      | exact h2 _ e
      | simp
  unfold M.checkHash
  repeat' split
  all_goals first
    | (simp; done)
    | (cases hx : m.checkExpired cfg W f with
       | ok y => first
         | (simp; done)
         | (simp; split <;> simp)
       | err e => exact (h3 e hx).elim
       | panic => simp
       | diverge => simp)

theorem np_strict {W : World} {cfg : Cfg} {m : M} (h : CrashInv W m) (f : PKIFile) : NP (m.strict cfg f) := by
  unfold M.strict
  split
  · exact np_invalidateManifestParent h f
  · exact np_ok _

theorem runCalls_spec {W : World} {fid : Nat} {f : PKIFile} (ht : f.type = .mft) : ∀ (cs : List Call) (m : M), CrashInv W m →
    m.files[fid]? = some f → fid ∉ m.queue → (∀ c ∈ cs, Harmless W.env c.data) →
    (∀ m', runCalls W fid cs m = .ok m' → CrashInv W m') ∧
    (runCalls W fid cs m = .panic → ∃ c ∈ cs, c.file.type = .crl ∧ OfUnknownIssuer W.env m.v c.data) := by
  intro cs
  induction cs with
  | nil =>
    intro m h _ _ _
    refine ⟨fun m' h' => ?_, fun h' => ?_⟩
    · simp [runCalls] at h'; subst h'; exact h
    · simp [runCalls] at h'
  | cons c rest ih =>
    intro m h hf hq hd
    have hlt := (List.getElem?_eq_some_iff.mp hf).1
    have h1 := h.call hf ht { c.file with parent := some fid } rfl
    have hnew : ({ m with files := m.files ++ [{ c.file with parent := some fid }] } : M).files[m.files.length]? =
        some { c.file with parent := some fid } := by simp
    have hnq : m.files.length ∉ m.queue := fun hh => by
      have := h.mi.lt _ (List.mem_append_right _ hh)
      omega
    have hfr : ∀ e ∈ m.resOf, e.1 ≠ m.files.length := fun e he => by have := (h.mi.res e he).2; omega
    have hdc := hd c (by simp)
    have key : ∀ m2, M.exploreAdd W { m with files := m.files ++ [{ c.file with parent := some fid }] } m.files.length c.data c.sha c.addInvalid = .ok m2 →
        CrashInv W m2 ∧ m2.files[fid]? = some f ∧ fid ∉ m2.queue ∧ ∀ k, m2.v.objects.get k = none → m.v.objects.get k = none := by
      intro m2 h2
      have hc2 := h1.add hnew hnq hfr hdc h2
      obtain ⟨hk, _, _, _, _, _, a, ha, _⟩ := minv_exploreAdd (List.getElem?_eq_some_iff.mp hnew).1 hnq h2
      refine ⟨hc2, ?_, ?_, ?_⟩
      · obtain ⟨l, hl⟩ := hk.1.files
        rw [hl]
        simp only [List.append_assoc]
        rw [List.getElem?_append_left hlt]; exact hf
      · obtain ⟨q, hq1, hq2⟩ := hk.1.queue
        rw [hq1]
        intro hh
        rcases List.mem_append.mp hh with hh | hh
        · exact hq hh
        · have := hq2 _ hh
          simp at this
          omega
      · intro k hkn
        have hstep : m.v.step W.env (.addResource (m.files ++ [{ c.file with parent := some fid }]) m.files.length c.data) = .ok m2.v := by
          show (m.v.addResource W.env _ _ c.data >>= _) = _
          rw [ha]; rfl
        have hg := (good_step (T := fun _ => True) (P := fun _ => True) (Props.trusts_all W.env _) (Props.roas_all W.env _) hstep h.v.inv).2
        cases ho : m.v.objects.get k with
        | none => rfl
        | some i => rw [hg.obj k i ho] at hkn; simp at hkn
    unfold runCalls
    refine ⟨fun m' h' => ?_, fun h' => ?_⟩
    · obtain ⟨m2, h2, h3⟩ := Go.bind_eq_ok.mp h'
      obtain ⟨k1, k2, k3, _⟩ := key m2 h2
      exact (ih m2 k1 k2 k3 (fun c hc => hd c (by simp [hc]))).1 m' h3
    · rcases Go.bind_eq_panic.mp h' with h2 | ⟨m2, h2, h3⟩
      · obtain ⟨q1, q2⟩ := panic_exploreAdd h1 hnew hdc h2
        exact ⟨c, by simp, q1, q2⟩
      · obtain ⟨k1, k2, k3, k4⟩ := key m2 h2
        obtain ⟨c', hc', q1, l, q2, q3⟩ := (ih m2 k1 k2 k3 (fun c hc => hd c (by simp [hc]))).2 h3
        exact ⟨c', by simp [hc'], q1, l, q2, k4 _ q3⟩

/-- What is known of the state inside a round, after the file left the queue. -/
theorem CrashInv.take {W : World} {m : M} (h : CrashInv W m) {fid : Nat} {rest : List Nat} {f : PKIFile} (hqe : m.queue = fid :: rest)
    (hf : m.files[fid]? = some f) : CrashInv W { m with queue := rest, trace := m.trace ++ [.taken fid] } ∧ fid ∉ rest ∧
      (∀ e ∈ m.resOf, e.1 ≠ fid) ∧ MftKnown { m with queue := rest, trace := m.trace ++ [.taken fid] } f := by
  have hent : entered { m with queue := rest, trace := m.trace ++ [.taken fid] } = entered m := by
    simp [entered, taken_append, taken, hqe]
  have hi := h.mi
  have hq : fid ∉ rest := by
    have := hi.nd
    rw [entered, hqe, List.map_append, List.nodup_append] at this
    have := this.2.1
    rw [List.map_cons, List.nodup_cons] at this
    exact fun hh => this.1 (List.mem_map_of_mem hh)
  refine ⟨⟨⟨hi.par, ?_, ?_, ?_, ?_⟩, h.v, h.deep, h.crl, h.cerKid, h.crlKid, ?_⟩, hq, ?_, ?_⟩
  · rw [hent]; exact hi.lt
  · rw [hent]; exact hi.nd
  · rw [hent]; exact hi.uniq
  · intro e he
    have := hi.res e he
    rw [hqe] at this
    simp at this ⊢
    exact ⟨this.1.2, this.2⟩
  · intro i hi2
    exact h.mftKid i (by rw [hqe]; simp [show i ∈ rest from hi2])
  · intro e he heq
    have := (hi.res e he).1
    rw [hqe, heq] at this
    simp at this
  · intro p pf h1 h2 h3
    exact h.mftKid fid (by rw [hqe]; simp) f p pf hf h1 h2 h3

theorem CrashInv.trace {W : World} {m : M} (h : CrashInv W m) (t : List Event) (ht : taken t = []) :
    CrashInv W { m with trace := m.trace ++ t } :=
  ⟨(trace_keeps t ht).2 h.mi, h.v, h.deep, h.crl, h.cerKid, h.crlKid, h.mftKid⟩

theorem getNextFile_spec (cfg : Cfg) (W : World) (m : M) (fid : Nat) (f : PKIFile) :
    ∃ pre, taken pre = [] ∧ m.getNextFile cfg W fid f = ({ m with trace := m.trace ++ pre }, answer cfg W m fid f) := by
  unfold M.getNextFile answer
  by_cases h1 : m.pathOf fid ∈ m.explored
  · exact ⟨[], rfl, by simp [h1]⟩
  · by_cases h2 : cfg.hasSeeker = true
    · exact ⟨[.fetched fid], rfl, by simp [h1, h2]⟩
    · exact ⟨[], rfl, by simp [h1, h2]⟩

theorem comes_iff {cfg : Cfg} {W : World} {m : M} {fid : Nat} {f : PKIFile} {data : Bytes} :
    Comes cfg W m fid f data ↔ ∃ sha, judged cfg f (answer cfg W m fid f) = .found data sha := by
  constructor
  · rintro ⟨h1, h2, sha, h3, h4⟩
    refine ⟨sha, ?_⟩
    unfold answer
    rw [if_neg (by simp [h1, h2]), h3]
    unfold judged
    cases sha with
    | none => rfl
    | some s =>
      simp only
      split
      · rename_i hh hm
        split
        · rename_i hb
          exact (hb.2 (h4 hb.1 s hh rfl hm)).elim
        · rfl
      · rfl
  · rintro ⟨sha, h⟩
    obtain ⟨h1, h2⟩ := judged_found h
    unfold answer at h1
    split at h1
    · simp at h1
    · rename_i hn
      simp at hn
      exact ⟨hn.1, hn.2, sha, h1, h2⟩

theorem onlyV_objects {W : World} {m m' : M} (h : CrashInv W m) (ho : OnlyV W m m') (k : Bytes) (hk : m'.v.objects.get k = none) :
    m.v.objects.get k = none := by
  obtain ⟨v, ops, rfl, h2, h3⟩ := ho
  have hg := (good_run ops m.v v (fun o _ => Props.trusts_all W.env o) (fun o _ => Props.roas_all W.env o) h2 h.v.inv).2
  cases hx : m.v.objects.get k with
  | none => rfl
  | some i => rw [hg.obj k i hx] at hk; simp at hk

/-- A round, with what is known before: what is known after, and when it panics. -/
theorem step_spec {W : World} (hW : HarmlessWorld W) (cfg : Cfg) {m : M} (h : CrashInv W m) :
    (∀ m', m.exploreStep cfg W = .ok m' → CrashInv W m') ∧
    (m.exploreStep cfg W = .panic → m.queue = [] ∨ ∃ fid rest f, m.queue = fid :: rest ∧ m.files[fid]? = some f ∧
      Culprit cfg W m fid f) := by
  cases hqe : m.queue with
  | nil =>
    unfold M.exploreStep
    rw [hqe]
    exact ⟨by simp, fun _ => .inl rfl⟩
  | cons fid rest =>
    have hlt := h.mi.lt fid (by simp [entered, hqe])
    obtain ⟨f, hf⟩ : ∃ f, m.files[fid]? = some f := ⟨_, List.getElem?_eq_getElem hlt⟩
    obtain ⟨h1, hq, hfr, hkn⟩ := h.take hqe hf
    have key : (∀ m', M.handle cfg W { m with queue := rest, trace := m.trace ++ [.taken fid] } fid f = .ok m' → CrashInv W m') ∧
        (M.handle cfg W { m with queue := rest, trace := m.trace ++ [.taken fid] } fid f = .panic → Culprit cfg W m fid f) := by
      generalize hm1 : ({ m with queue := rest, trace := m.trace ++ [.taken fid] } : M) = m1 at h1 hkn
      have f1 : m1.files = m.files := by rw [← hm1]
      have f2 : m1.queue = rest := by rw [← hm1]
      have f4 : m1.resOf = m.resOf := by rw [← hm1]
      have f5 : m1.v = m.v := by rw [← hm1]
      have f6 : m1.clock = m.clock := by rw [← hm1]
      have f7 : m1.explored = m.explored := by rw [← hm1]
      have f8 : m1.pathOf fid = m.pathOf fid := by unfold M.pathOf; rw [f1]
      have hans : answer cfg W m1 fid f = answer cfg W m fid f := by unfold answer; rw [f6, f7, f8]
      unfold M.handle
      split
      · rename_i hb
        simp only []
        obtain ⟨pre, hpre, hg⟩ := getNextFile_spec cfg W m1 fid f
        rw [hg]
        have h2 := h1.trace pre hpre
        have hx : ∀ x, M.checkHash cfg W { m1 with trace := m1.trace ++ pre } f (answer cfg W m1 fid f) = .ok x →
            CrashInv W x.1 ∧ x.2 = judged cfg f (answer cfg W m fid f) ∧ x.1.files = m.files ∧ x.1.queue = rest ∧ x.1.resOf = m.resOf ∧
            ∀ k, x.1.v.objects.get k = none → m.v.objects.get k = none := by
          intro x hx
          have ho := onlyV_checkHash hx
          have hj := checkHash_judged hx
          have hfl := onlyV_fields ho
          refine ⟨h2.onlyV ho, by rw [hj, hans], by rw [hfl.1]; exact f1, by rw [hfl.2.1]; exact f2, by rw [hfl.2.2.2.2.1]; exact f4, ?_⟩
          intro k hk
          rw [← f5]
          exact onlyV_objects h2 ho k hk
        have hfound : ∀ data sha, judged cfg f (answer cfg W m fid f) = .found data sha → Harmless W.env data := by
          intro data sha hj
          obtain ⟨_, _, s, hs, _⟩ := comes_iff.mpr ⟨sha, hj⟩
          exact hW.file _ _ _ _ _ hs
        refine ⟨fun m' hm => ?_, fun hm => ?_⟩
        · obtain ⟨x, hx1, hm⟩ := Go.bind_eq_ok.mp hm
          obtain ⟨k1, k2, k3, k4, k5, _⟩ := hx x hx1
          rcases useAnswer_cases hm with ⟨_, ho⟩ | ⟨data, sha, hr, hadd⟩
          · exact k1.onlyV ho
          · rw [k2] at hr
            exact k1.add (by rw [k3]; exact hf) (by rw [k4]; exact hq) (by rw [k5]; exact hfr) (hfound _ _ hr) hadd
        · rcases Go.bind_eq_panic.mp hm with hm | ⟨x, hx1, hm⟩
          · exact (np_checkHash h2 (by exact hkn) _ hm).elim
          · obtain ⟨k1, k2, k3, k4, k5, k6⟩ := hx x hx1
            unfold M.useAnswer at hm
            split at hm
            · rcases Go.bind_eq_panic.mp hm with hm | ⟨y, hy, hm⟩
              · exact (np_strict k1 f hm).elim
              · have ho := onlyV_strict (W := W) hy
                exact (np_invalidateCRLParent (k1.onlyV ho) (fid := fid) (by rw [(onlyV_fields ho).1, k3]; exact hf) hm).elim
            · exact (np_strict k1 f hm).elim
            · rename_i data sha hr
              rw [k2] at hr
              obtain ⟨q1, l, q2, q3⟩ := panic_exploreAdd k1 (by rw [k3]; exact hf) (hfound _ _ hr) hm
              exact .inl ⟨hb, q1, data, comes_iff.mpr ⟨sha, hr⟩, l, q2, k6 _ q3⟩
      · rename_i hb
        simp only [not_or, ne_eq, not_not, Bool.not_eq_false] at hb
        have hrun := runCalls_spec (W := W) (fid := fid) hb.2 (W.getRepository m1.clock f).1 m1 h1 (by rw [f1]; exact hf)
          (by rw [f2]; exact hq) (hW.repo _ _)
        unfold M.exploreRepo M.getNextRepository
        refine ⟨fun m' hm => ?_, fun hm => ?_⟩
        · obtain ⟨y, hy, hm⟩ := Go.bind_eq_ok.mp hm
          simp only [Go.pure_def, Go.ok.injEq] at hm
          have hc : CrashInv W y := by
            split at hy
            · simp at hy; subst hy; exact h1
            · exact hrun.1 y hy
          subst hm
          exact ⟨⟨hc.mi.par, hc.mi.lt, hc.mi.nd, hc.mi.uniq, hc.mi.res⟩, hc.v, hc.deep, hc.crl, hc.cerKid, hc.crlKid, hc.mftKid⟩
        · rcases Go.bind_eq_panic.mp hm with hm | ⟨y, hy, hm⟩
          · split at hm
            · simp at hm
            · rename_i hn
              simp only [not_or, Bool.not_eq_false] at hn
              have := hrun.2 hm
              rw [f5, f6] at this
              rw [f7] at hn
              exact .inr ⟨hb.1, hb.2, hn.1, hn.2, this⟩
          · simp at hm
    unfold M.exploreStep
    rw [hqe]
    simp only [hf]
    refine ⟨fun m' hm => ?_, fun hm => ?_⟩
    · obtain ⟨m2, h2, hm⟩ := Go.bind_eq_ok.mp hm
      simp only [Go.pure_def, Go.ok.injEq] at hm
      subst hm
      have hc := key.1 m2 h2
      exact ⟨⟨hc.mi.par, hc.mi.lt, hc.mi.nd, hc.mi.uniq, hc.mi.res⟩, hc.v, hc.deep, hc.crl, hc.cerKid, hc.crlKid, hc.mftKid⟩
    · rcases Go.bind_eq_panic.mp hm with hm | ⟨m2, h2, hm⟩
      · exact .inr ⟨fid, rest, f, rfl, hf, key.2 hm⟩
      · simp at hm

theorem addResource_unknown {env : Env} {v : V} (hi : Inv env (fun _ => True) (fun _ => True) v) {files : List PKIFile} {fid : Nat}
    {f : PKIFile} (hf : files[fid]? = some f) (ht : f.type = .crl) {data : Bytes} (hu : OfUnknownIssuer env v data) :
    v.addResource env files fid data = .panic := by
  obtain ⟨l, hp, hn⟩ := hu
  have hv : v.validObjects.get l.aki = none := by
    cases h : v.validObjects.get l.aki with
    | none => rfl
    | some i => have := hi.val _ _ h; rw [hn] at this; simp at this
  unfold V.addResource V.addResourceCRL V.addCRL V.crlIssuer
  rw [hf]
  simp only [ht, hp, hv, Go.ok_bind]
  unfold V.crlMismatch
  split
  · rfl
  · split
    · rfl
    · have : V.parentOf { (v.alloc { objectToResource (.crl l) with type := .crl, parent := v.objects.get l.aki }) with
          crl := Map.set (v.alloc { objectToResource (.crl l) with type := .crl, parent := v.objects.get l.aki }).crl l.aki v.heap.length }
          v.heap.length = none := by
        simp [V.parentOf, V.alloc, hn]
      rw [this]
      rfl

/-- A round with such a file panics. -/
theorem step_culprit {W : World} {cfg : Cfg} {m : M} (h : CrashInv W m) {fid : Nat} {rest : List Nat} {f : PKIFile} (hqe : m.queue = fid :: rest)
    (hf : m.files[fid]? = some f) (ht : f.type = .crl) {data : Bytes} (hc : Comes cfg W m fid f data)
    (hu : OfUnknownIssuer W.env m.v data) : m.exploreStep cfg W = .panic := by
  obtain ⟨h1, hq, hfr, hkn⟩ := h.take hqe hf
  unfold M.exploreStep
  rw [hqe]
  simp only [hf]
  refine Go.bind_eq_panic.mpr (.inl ?_)
  generalize hm1 : ({ m with queue := rest, trace := m.trace ++ [.taken fid] } : M) = m1 at h1 hkn
  have f1 : m1.files = m.files := by rw [← hm1]
  have f5 : m1.v = m.v := by rw [← hm1]
  have f6 : m1.clock = m.clock := by rw [← hm1]
  have f7 : m1.explored = m.explored := by rw [← hm1]
  have f8 : m1.pathOf fid = m.pathOf fid := by unfold M.pathOf; rw [f1]
  have hans : answer cfg W m1 fid f = answer cfg W m fid f := by unfold answer; rw [f6, f7, f8]
  obtain ⟨sha, hj⟩ := comes_iff.mp hc
  unfold M.handle
  rw [if_pos (.inr (by rw [ht]; simp))]
  obtain ⟨pre, hpre, hg⟩ := getNextFile_spec cfg W m1 fid f
  simp only [hg]
  have h2 := h1.trace pre hpre
  cases hx : M.checkHash cfg W { m1 with trace := m1.trace ++ pre } f (answer cfg W m1 fid f) with
  | panic => exact (np_checkHash h2 (by exact hkn) _ hx).elim
  | diverge => exact (nd_checkHash _ _ _ _ _ hx).elim
  | err e => exact (noErr_checkHash _ _ _ _ _ e hx).elim
  | ok x =>
    rw [Go.ok_bind]
    have ho := onlyV_checkHash hx
    have hjx := checkHash_judged hx
    have hfl := onlyV_fields ho
    have hcx := h2.onlyV ho
    rw [hjx, hans, hj]
    unfold M.useAnswer M.exploreAdd
    refine Go.bind_eq_panic.mpr (.inl ?_)
    refine addResource_unknown hcx.v.inv (f := f) (by rw [hfl.1]; exact f1 ▸ hf) ht ?_
    obtain ⟨l, q1, q2⟩ := hu
    refine ⟨l, q1, ?_⟩
    obtain ⟨v, ops, he, hr, hops⟩ := ho
    have : ∀ (ops : List Op) (a b : V), V.run W.env a ops = .ok b → (∀ op ∈ ops, ∃ k, op = .invalidate k) → b.objects = a.objects := by
      intro ops
      induction ops with
      | nil => intro a b h _; simp [V.run] at h; subst h; rfl
      | cons op ops ih =>
        intro a b h ho
        simp only [V.run] at h
        obtain ⟨c, hc, h'⟩ := Go.bind_eq_ok.mp h
        obtain ⟨k, rfl⟩ := ho op (by simp)
        exact (ih c b h' (fun o h => ho o (by simp [h]))).trans (invalidateObject_spec hc).1.objects
    rw [he]
    show v.objects.get l.aki = none
    rw [this ops _ _ hr hops]
    show m1.v.objects.get l.aki = none
    rw [f5]; exact q2

end Verif.Manager
