import Verif.Lemmas.Typed
import Verif.Props.Manager
/-
  The invariant of an exploration that starts from one TAL file, in manifest mode.
-/
set_option autoImplicit false

namespace Verif.Manager
open Pki PkiSpec ManagerSpec EndSpec Props

theorem determineType_ne_tal (p : Bytes) : determineType p ≠ .tal := by
  unfold determineType
  simp only
  repeat' split
  all_goals simp

/-- The files that come from a file that was accepted. -/
theorem addResource_offers {env : Env} {files : List PKIFile} {v v' : V} {fid : Nat} {data : Bytes} {a : Added} {f : PKIFile}
    (hf : files[fid]? = some f) (h : v.addResource env files fid data = .ok (v', a)) (ha : a.valid = true) :
    ∀ g ∈ withParent fid a.files, Offers env fid data f.type g ∧ g.type ≠ .tal ∧
      (g.trust = true → f.type = .tal ∧ (v'.tals.get g.path).isSome = true) := by
  intro g hg
  obtain ⟨g0, hg0, rfl⟩ := List.mem_map.mp hg
  unfold V.addResource at h
  rw [hf] at h
  simp only at h
  split at h
  · rename_i hty
    rw [hty]
    split at h
    · rename_i t hdec
      simp only [Go.ok.injEq, Prod.mk.injEq] at h
      obtain ⟨rfl, rfl⟩ := h
      simp only [V.addTAL, withParent, List.map_cons, List.map_nil, List.mem_singleton] at hg0
      subst hg0
      refine ⟨.anchor t _ hdec rfl rfl rfl rfl rfl, by simp, fun _ => ⟨rfl, ?_⟩⟩
      rw [tals_setFile]
      simp [V.addTAL, Map.get_set]
    · simp only [Go.ok.injEq, Prod.mk.injEq] at h
      obtain ⟨rfl, rfl⟩ := h
      simp [failed] at hg0
    · simp at h
    · simp at h
  · rename_i hty
    rw [hty]
    split at h
    · rename_i c hdec
      unfold V.addResourceCer at h
      obtain ⟨x, hx, h⟩ := Go.bind_eq_ok.mp h
      split at h
      · obtain ⟨y, hy, h⟩ := Go.bind_eq_ok.mp h
        have hfs : g0 ∈ y.2.files ∨ (∃ z, z ∈ y.2.files ∧ g0 = { z with parent := some fid }) := by
          split at h
          · simp only [Go.ok.injEq, Prod.mk.injEq] at h
            obtain ⟨rfl, rfl⟩ := h
            exact .inl hg0
          · simp only [Go.ok.injEq, Prod.mk.injEq] at h
            obtain ⟨rfl, rfl⟩ := h
            simp only [withParent, List.mem_map] at hg0
            obtain ⟨z, hz, rfl⟩ := hg0
            exact .inr ⟨z, hz, rfl⟩
        have hex : ∀ z ∈ y.2.files, z ∈ extractPathCert c := by
          intro z hz
          unfold V.addCert at hy
          simp only at hy
          split at hy
          · simp at hy; rw [← hy] at hz; simp at hz
          · obtain ⟨e, _, hy⟩ := Go.bind_eq_ok.mp hy
            simp at hy; rw [← hy] at hz; exact hz
        obtain ⟨z, hz, he⟩ : ∃ z, z ∈ extractPathCert c ∧
            ({ g0 with parent := some fid } : PKIFile) = { z with parent := some fid } := by
          rcases hfs with hz | ⟨z, hz, rfl⟩
          · exact ⟨g0, hex _ hz, rfl⟩
          · exact ⟨z, hex _ hz, rfl⟩
        rw [he]
        obtain ⟨_, _, h3, h4, h5⟩ := (C69_certificate_files c z).mp hz
        refine ⟨.pointer c _ hdec rfl ?_ h3 h4, ?_, ?_⟩
        · rcases h5 with h5 | ⟨h5, h6⟩
          · exact .inl h5
          · refine .inr ⟨h5, ?_⟩
            unfold lastSIA at h6
            obtain ⟨e, he1, he2⟩ := Option.map_eq_some_iff.mp h6
            have := List.mem_of_getLast? he1
            rw [List.mem_filter] at this
            obtain ⟨m1, m2⟩ := this
            obtain ⟨e1, e2⟩ := e
            simp at m2 he2
            subst m2; subst he2
            exact m1
        · rcases h5 with ⟨h5, _⟩ | ⟨h5, _⟩ <;> simp [h5]
        · intro ht
          simp [h3] at ht
      · simp only [Go.ok.injEq, Prod.mk.injEq] at h
        obtain ⟨rfl, rfl⟩ := h
        simp [failed] at hg0
    · simp only [Go.ok.injEq, Prod.mk.injEq] at h
      obtain ⟨rfl, rfl⟩ := h
      simp [failed] at hg0
    · simp at h
    · simp at h
  · split at h
    · obtain ⟨y, hy, h⟩ := Go.bind_eq_ok.mp h
      simp only [Go.pure_def, Go.ok.injEq] at h
      have h2 : (V.finish y.1 fid f y.2 []).2 = a := by rw [h]
      rw [← h2] at hg0
      unfold V.finish at hg0
      split at hg0 <;> simp at hg0
    · simp only [Go.ok.injEq, Prod.mk.injEq] at h
      obtain ⟨rfl, rfl⟩ := h
      simp [failed] at hg0
    · simp at h
    · simp at h
  · rename_i hty
    rw [hty]
    split at h
    · rename_i m hdec
      obtain ⟨y, hy, h⟩ := Go.bind_eq_ok.mp h
      simp only [Go.pure_def, Go.ok.injEq] at h
      have h2 : (V.finish y.1 fid f y.2 (withParent fid y.2.files)).2 = a := by rw [h]
      have hval : y.2.valid = true := by
        rw [← h2] at ha
        unfold V.finish at ha
        split at ha <;> exact ha
      have hz : ∃ z ∈ y.2.files, g0 = { z with parent := some fid } := by
        rw [← h2] at hg0
        unfold V.finish at hg0
        split at hg0
        · simp at hg0
        · simp only [withParent, List.mem_map] at hg0
          obtain ⟨z, hz, rfl⟩ := hg0
          exact ⟨z, hz, rfl⟩
      obtain ⟨z, hz, rfl⟩ := hz
      unfold V.addManifest at hy
      split at hy
      · rename_i fs hfs
        obtain ⟨w, hw, hy⟩ := Go.bind_eq_ok.mp hy
        have hzf : z ∈ fs ∧ (w.2.res = none ∨ m.innerValid = true) := by
          split at hy
          · rename_i hn
            simp at hy; rw [← hy] at hz; exact ⟨hz, .inl hn⟩
          · simp at hy; rw [← hy] at hz hval
            simp at hval
            exact ⟨hz, .inr hval.2⟩
        have hin : m.innerValid = true := by
          rcases hzf.2 with hn | hn
          · have := (addCert_ok (v' := w.1) (a := w.2) hw).1
            rw [hn] at this; simp at this
          · exact hn
        rw [(C30_expansion _).2 _ hfs] at hzf
        obtain ⟨e, he, rfl⟩ := List.mem_map.mp hzf.1
        exact ⟨.listed m _ e.2 hdec hin rfl he rfl rfl rfl, determineType_ne_tal _, by simp⟩
      · simp at hy; rw [← hy] at hval; simp at hval
    · simp only [Go.ok.injEq, Prod.mk.injEq] at h
      obtain ⟨rfl, rfl⟩ := h
      simp [failed] at hg0
    · simp at h
    · simp at h
  · split at h
    · unfold V.addResourceCRL at h
      obtain ⟨y, hy, h⟩ := Go.bind_eq_ok.mp h
      split at h
      · simp at h
      · obtain ⟨b, _, h⟩ := Go.bind_eq_ok.mp h
        split at h
        · simp at h; obtain ⟨rfl, rfl⟩ := h; simp [failed] at hg0
        · simp only [Go.pure_def, Go.ok.injEq] at h
          have h2 : (V.finish y.1 fid f y.2 []).2 = a := by rw [h]
          rw [← h2] at hg0
          unfold V.finish at hg0
          split at hg0 <;> simp at hg0
    · simp only [Go.ok.injEq, Prod.mk.injEq] at h
      obtain ⟨rfl, rfl⟩ := h
      simp [failed] at hg0
    · simp at h
    · simp at h
  · simp only [Go.ok.injEq, Prod.mk.injEq] at h
    obtain ⟨rfl, rfl⟩ := h
    simp [failed] at hg0

/-- The object was decoded from a file that was given to the validator. -/
def Came (W : World) (m : M) (d : ResData) : Prop :=
  ∃ i f data sha, m.files[i]? = some f ∧ Event.added i data sha ∈ m.trace ∧ FromFile W.env data f.type d

/-- The file is the TAL file, or a file that was given to the validator made it known. -/
def Known (W : World) (m : M) (i : Nat) (f : PKIFile) : Prop :=
  i = 0 ∨ ∃ p pf data sha, p < i ∧ m.files[p]? = some pf ∧ Event.added p data sha ∈ m.trace ∧ Offers W.env p data pf.type f

/-- The object has the type `t` and the file `fo`: the file was given to the validator, and the object was decoded from it. -/
def From (W : World) (m : M) (d : ResData) (t : FType) (fo : Option Nat) : Prop :=
  (∀ fid, fo = some fid → ∃ f data sha, m.files[fid]? = some f ∧ Event.added fid data sha ∈ m.trace ∧ FromFile W.env data f.type d ∧
    (t = .cer → ∀ c, d = .cert c → f.type = .cer)) ∧ (t = .cer → fo.isSome = true)

/-- The invariant of an exploration from the TAL file `f0`. -/
structure EInv (W : World) (f0 : PKIFile) (m : M) : Prop where
  file0 : m.files[0]? = some f0
  data : DataAll (Came W m) m.v
  res : ResAll (From W m) m.v
  typed : ∀ (i : Nat) (o : ResData × FType × Option Nat), m.v.core i = some o → ∃ fid data sha,
    Event.added fid data sha ∈ m.trace ∧ NewObj W.env m.files fid data o
  known : ∀ (i : Nat) (f : PKIFile), m.files[i]? = some f → Known W m i f
  tal : ∀ (i : Nat) (f : PKIFile), m.files[i]? = some f → f.type = .tal → i = 0
  trust : ∀ (i : Nat) (f : PKIFile), m.files[i]? = some f → f.trust = true → f.type = .cer ∧ f.parent = some 0 ∧
    (m.v.tals.get f.path).isSome = true
  tals : ∀ p j, m.v.tals.get p = some j → ∃ t, m.v.dataOf j = some (.tal t) ∧ p = t.getRsyncURI W.env.sha1
  fetch : ∀ i d s, Event.added i d s ∈ m.trace → ∃ f n, m.files[i]? = some f ∧ W.getFile n (m.pathOf i) f = .found d s
  hist : ∃ ops, (∀ op ∈ ops, OffersOnly W.env (AnchorCert W f0) op) ∧ (∀ op ∈ ops, ROAsDecoded W.env op) ∧
    V.run W.env V.new ops = .ok m.v

theorem EInv.run {W : World} {f0 : PKIFile} {m : M} (h : EInv W f0 m) :
    ∃ ops, (∀ op ∈ ops, TrustsOnly W.env (AnchorOf W f0) op) ∧ (∀ op ∈ ops, ROAsDecoded W.env op) ∧
      V.run W.env V.new ops = .ok m.v := by
  obtain ⟨ops, h1, h2, h3⟩ := h.hist
  have key : ∀ c, AnchorCert W f0 c → AnchorOf W f0 c.ski := by
    rintro c ⟨n0, d0, s0, t, n, f, d, s, g1, g2, g3, g4, g5, g6⟩
    exact ⟨n0, d0, s0, t, n, f, d, s, c, g1, g2, g3, g4, g5, g6, rfl⟩
  refine ⟨ops, fun op hop => ?_, h2, h3⟩
  have := h1 op hop
  cases op with
  | addCert c trust => exact fun ht => key c (this ht)
  | addResource files fid data => exact fun f c g1 g2 g3 => key c (this f c g1 g2 g3)
  | _ => trivial

theorem Came.mono {W : World} {m m' : M} {d : ResData} (hf : ∃ l, m'.files = m.files ++ l) (ht : ∃ l, m'.trace = m.trace ++ l)
    (h : Came W m d) : Came W m' d := by
  obtain ⟨l, hf⟩ := hf
  obtain ⟨l', ht⟩ := ht
  obtain ⟨i, f, data, sha, h1, h2, h3⟩ := h
  refine ⟨i, f, data, sha, ?_, by rw [ht]; simp [h2], h3⟩
  rw [hf, List.getElem?_append_left (List.getElem?_eq_some_iff.mp h1).1]; exact h1

theorem From.mono {W : World} {m m' : M} {d : ResData} {t : FType} {fo : Option Nat} (hf : ∃ l, m'.files = m.files ++ l)
    (ht : ∃ l, m'.trace = m.trace ++ l) (h : From W m d t fo) : From W m' d t fo := by
  obtain ⟨l, hf⟩ := hf
  obtain ⟨l', ht⟩ := ht
  refine ⟨fun fid hfo => ?_, h.2⟩
  obtain ⟨f, data, sha, h1, h2, h3, h4⟩ := h.1 fid hfo
  refine ⟨f, data, sha, ?_, by rw [ht]; simp [h2], h3, h4⟩
  rw [hf, List.getElem?_append_left (List.getElem?_eq_some_iff.mp h1).1]; exact h1

theorem Known.mono {W : World} {m m' : M} {i : Nat} {f : PKIFile} (hf : ∃ l, m'.files = m.files ++ l) (ht : ∃ l, m'.trace = m.trace ++ l)
    (h : Known W m i f) : Known W m' i f := by
  obtain ⟨l, hf⟩ := hf
  obtain ⟨l', ht⟩ := ht
  rcases h with h | ⟨p, pf, data, sha, h0, h1, h2, h3⟩
  · exact .inl h
  · refine .inr ⟨p, pf, data, sha, h0, ?_, by rw [ht]; simp [h2], h3⟩
    rw [hf, List.getElem?_append_left (List.getElem?_eq_some_iff.mp h1).1]; exact h1

theorem NewObj.mono {env : Env} {files l : List PKIFile} {fid : Nat} {data : Bytes} {o : ResData × FType × Option Nat}
    (h : NewObj env files fid data o) : NewObj env (files ++ l) fid data o := by
  obtain ⟨f, h1, h2⟩ := h
  exact ⟨f, by rw [List.getElem?_append_left (List.getElem?_eq_some_iff.mp h1).1]; exact h1, h2⟩

theorem EInv.inv {W : World} {f0 : PKIFile} {m : M} (h : EInv W f0 m) :
    Inv W.env (AnchorOf W f0) (fun r => ∃ data, decodeROA W.env data = .ok r) m.v := by
  obtain ⟨ops, h1, h2, h3⟩ := h.run
  exact (good_run ops V.new m.v h1 h2 h3 (inv_new _ _ _)).1

/-- Nothing but the queue, the clock and what is only kept for the observer changes. -/
theorem EInv.other {W : World} {f0 : PKIFile} {m m' : M} (h : EInv W f0 m) (hf : m'.files = m.files) (hv : m'.v = m.v)
    (ht : ∃ l, m'.trace = m.trace ++ l ∧ ∀ e ∈ l, ∀ i d s, e ≠ .added i d s) : EInv W f0 m' := by
  obtain ⟨l, ht, hl⟩ := ht
  have hf' : ∃ l, m'.files = m.files ++ l := ⟨[], by simp [hf]⟩
  have ht' : ∃ l, m'.trace = m.trace ++ l := ⟨l, ht⟩
  refine ⟨by rw [hf]; exact h.file0, ?_, ?_, ?_, ?_, by rw [hf]; exact h.tal, by rw [hf, hv]; exact h.trust, by rw [hv]; exact h.tals, ?_,
    by rw [hv]; exact h.hist⟩
  · rw [hv]; exact fun i d hd => (h.data i d hd).mono hf' ht'
  · rw [hv]; exact fun i r hr => (h.res i r hr).mono hf' ht'
  · intro i o ho
    rw [hv] at ho
    obtain ⟨fid, data, sha, q1, q2⟩ := h.typed i o ho
    exact ⟨fid, data, sha, by rw [ht]; simp [q1], by rw [hf]; exact q2⟩
  · rw [hf]; exact fun i f hi => (h.known i f hi).mono hf' ht'
  · intro i d s hm
    rw [ht, List.mem_append] at hm
    rcases hm with hm | hm
    · obtain ⟨f, n, e1, e2⟩ := h.fetch i d s hm
      refine ⟨f, n, by rw [hf]; exact e1, ?_⟩
      unfold M.pathOf at e2 ⊢
      rw [hf]; exact e2
    · exact (hl _ hm i d s rfl).elim

theorem run_snoc {env : Env} {v w x : V} {ops : List Op} {op : Op} (h : V.run env v ops = .ok w) (h2 : w.step env op = .ok x) :
    V.run env v (ops ++ [op]) = .ok x := by
  rw [run_append]
  exact ⟨w, h, by simp [V.run, h2]⟩

/-- Invalidation keeps the invariant. -/
theorem EInv.onlyV {W : World} {f0 : PKIFile} {m m' : M} (h : EInv W f0 m) (ho : OnlyV W m m') : EInv W f0 m' := by
  obtain ⟨v, ops, rfl, h2, h3⟩ := ho
  have key : ∀ (ops : List Op) (a b : V), V.run W.env a ops = .ok b → (∀ op ∈ ops, ∃ k, op = .invalidate k) →
      b.heap = a.heap ∧ b.tals = a.tals := by
    intro ops
    induction ops with
    | nil => intro a b h _; simp [V.run] at h; subst h; exact ⟨rfl, rfl⟩
    | cons op ops ih =>
      intro a b h ho
      simp only [V.run] at h
      obtain ⟨c, hc, h'⟩ := Go.bind_eq_ok.mp h
      obtain ⟨k, rfl⟩ := ho op (by simp)
      obtain ⟨g1, g2⟩ := ih c b h' (fun o h => ho o (by simp [h]))
      obtain ⟨q, _⟩ := invalidateObject_spec hc
      exact ⟨g1.trans q.heap, g2.trans q.tals⟩
  obtain ⟨k1, k2⟩ := key ops _ _ h2 h3
  have hd : ∀ i, v.dataOf i = m.v.dataOf i := fun i => by unfold V.dataOf; rw [k1]
  obtain ⟨ops0, e1, e2, e3⟩ := h.hist
  refine ⟨h.file0, ?_, ?_, ?_, h.known, h.tal, by simp only [k2]; exact h.trust, ?_, h.fetch, ops0 ++ ops, ?_, ?_, ?_⟩
  · intro i d hi
    rw [hd] at hi
    exact h.data i d hi
  · intro i r hi
    simp only [k1] at hi
    exact h.res i r hi
  · intro i o ho
    rw [show V.core _ = _ from core_congr k1] at ho
    exact h.typed i o ho
  · simp only [k2, hd]; exact h.tals
  · intro op hop
    rcases List.mem_append.mp hop with hop | hop
    · exact e1 op hop
    · obtain ⟨k, rfl⟩ := h3 op hop; trivial
  · intro op hop
    rcases List.mem_append.mp hop with hop | hop
    · exact e2 op hop
    · obtain ⟨k, rfl⟩ := h3 op hop; trivial
  · rw [run_append]; exact ⟨m.v, e3, h2⟩

/-- A file given to the validator keeps the invariant. -/
theorem EInv.add {W : World} (hk : ∀ d c, W.env.parseCert d = .ok c → TalSpec.CertKey c.isRSA c.pubKey) {f0 : PKIFile} {m m' : M}
    (h : EInv W f0 m) (hi : ParOK m.files) (h00 : f0.parent = none) {fid : Nat} {f : PKIFile} (hf : m.files[fid]? = some f) {n : Nat} {data : Bytes} {sha : Option Bytes}
    (hg : W.getFile n (m.pathOf fid) f = .found data sha) (ha : m.exploreAdd W fid data sha false = .ok m') : EInv W f0 m' := by
  unfold M.exploreAdd at ha
  obtain ⟨⟨v1, a⟩, hv, ha⟩ := Go.bind_eq_ok.mp ha
  simp only [Bool.false_or] at ha
  have hlt : fid < m.files.length := (List.getElem?_eq_some_iff.mp hf).1
  -- the new state, in all cases
  obtain ⟨l, hm1, hm2, hm3, hl⟩ : ∃ l, m'.files = m.files ++ l ∧ m'.v = v1 ∧ m'.trace = m.trace ++ [.added fid data sha] ∧
      ∀ g ∈ l, Offers W.env fid data f.type g ∧ g.type ≠ .tal ∧ (g.trust = true → f.type = .tal ∧ (v1.tals.get g.path).isSome = true) := by
    split at ha
    · rename_i hva
      simp only [Go.pure_def, Go.ok.injEq] at ha
      obtain ⟨_, g1, g2, _, _, g3⟩ := keeps_putFiles (withParent fid a.files)
        { m with v := v1, explored := m.pathOf fid :: m.explored, trace := m.trace ++ [.added fid data sha] }
        (by intro z hz p hp
            obtain ⟨z0, _, rfl⟩ := List.mem_map.mp hz
            simp at hp; subst hp; exact hlt)
      refine ⟨withParent fid a.files, ?_, ?_, ?_, addResource_offers hf hv hva⟩
      · rw [← ha]; exact g1
      · rw [← ha]; exact g3
      · rw [← ha]; exact g2
    · simp only [Go.pure_def, Go.ok.injEq] at ha
      subst ha
      exact ⟨[], by simp, rfl, rfl, by simp⟩
  have hf' : ∃ l, m'.files = m.files ++ l := ⟨l, hm1⟩
  have ht' : ∃ l, m'.trace = m.trace ++ l := ⟨_, hm3⟩
  have hmem : Event.added fid data sha ∈ m'.trace := by rw [hm3]; simp
  have hfm : m'.files[fid]? = some f := by rw [hm1, List.getElem?_append_left hlt]; exact hf
  have hstep : m.v.step W.env (.addResource m.files fid data) = .ok v1 := by simp [V.step, hv]
  -- the tables of TALs
  have hframe := (good_step (T := fun _ => True) (P := fun _ => True) (trusts_all W.env _) (roas_all W.env _) hstep
    (by
      obtain ⟨ops, _, _, h3⟩ := h.run
      exact (good_run ops V.new m.v (fun o _ => trusts_all W.env o) (fun o _ => roas_all W.env o) h3 (inv_new _ _ _)).1)).2
  have htals : ∀ p j, v1.tals.get p = some j → ∃ t, v1.dataOf j = some (.tal t) ∧ p = t.getRsyncURI W.env.sha1 := by
    intro p j hp
    rcases step_tals hstep with ⟨q, _⟩ | ⟨t, _, q, hd⟩
    · rw [q] at hp
      obtain ⟨t, e1, e2⟩ := h.tals p j hp
      exact ⟨t, hframe.data _ _ e1, e2⟩
    · rw [q, Map.get_set] at hp
      split at hp
      · rename_i he
        simp at hp; subst hp
        exact ⟨t, hd, he⟩
      · obtain ⟨t, e1, e2⟩ := h.tals p j hp
        exact ⟨t, hframe.data _ _ e1, e2⟩
  have htsome : ∀ p, (m.v.tals.get p).isSome = true → (v1.tals.get p).isSome = true := by
    intro p hp
    rcases step_tals hstep with ⟨q, _⟩ | ⟨t, _, q, _⟩
    · rw [q]; exact hp
    · rw [q, Map.get_set]; split
      · rfl
      · exact hp
  have hget : ∀ i g, m'.files[i]? = some g → m.files[i]? = some g ∨ g ∈ l ∧ m.files.length ≤ i := by
    intro i g hi
    rw [hm1] at hi
    by_cases hlt' : i < m.files.length
    · rw [List.getElem?_append_left hlt'] at hi; exact .inl hi
    · rw [List.getElem?_append_right (by omega)] at hi
      exact .inr ⟨List.mem_of_getElem? hi, by omega⟩
  refine ⟨?_, ?_, ?_, ?_, ?_, ?_, ?_, by rw [hm2]; exact htals, ?_, ?_⟩
  · rw [hm1, List.getElem?_append_left (List.getElem?_eq_some_iff.mp h.file0).1]; exact h.file0
  · rw [hm2]
    refine DataAll.addResource ?_ (fun i d hd => (h.data i d hd).mono hf' ht') hv
    intro f' hf2 d hd
    rw [hf] at hf2
    simp at hf2; subst hf2
    exact ⟨fid, f, data, sha, hfm, hmem, hd⟩
  · rw [hm2]
    refine ResAll.addResource ?_ (fun i r hr => (h.res i r hr).mono hf' ht') hv
    intro f' hf2 d hd
    rw [hf] at hf2
    simp at hf2; subst hf2
    refine ⟨fun t ht => ⟨by simp, fun h => (ht h).elim⟩, fun t ht => ⟨?_, by simp⟩⟩
    intro fid' hfid
    simp at hfid; subst hfid
    exact ⟨f, data, sha, hfm, hmem, hd, ht⟩
  · intro i o ho
    rw [hm2] at ho
    rcases core_addResource hv i o ho with q | q
    · obtain ⟨fid', data', sha', q1, q2⟩ := h.typed i o q
      exact ⟨fid', data', sha', by rw [hm3]; simp [q1], by rw [hm1]; exact NewObj.mono q2⟩
    · exact ⟨fid, data, sha, hmem, by rw [hm1]; exact NewObj.mono q⟩
  · intro i g hi'
    rcases hget i g hi' with hi' | ⟨hgl, hle⟩
    · exact (h.known i g hi').mono hf' ht'
    · exact .inr ⟨fid, f, data, sha, by omega, hfm, hmem, (hl g hgl).1⟩
  · intro i g hi' hty
    rcases hget i g hi' with hi' | ⟨hgl, _⟩
    · exact h.tal i g hi' hty
    · exact ((hl g hgl).2.1 hty).elim
  · intro i g hi' htr
    rw [hm2]
    rcases hget i g hi' with hi' | ⟨hgl, _⟩
    · obtain ⟨e1, e2, e3⟩ := h.trust i g hi' htr
      exact ⟨e1, e2, htsome _ e3⟩
    · obtain ⟨hof, _, hts⟩ := hl g hgl
      obtain ⟨e1, e2⟩ := hts htr
      have h0 := h.tal fid f hf e1
      subst h0
      refine ⟨?_, ?_, e2⟩
      · rw [e1] at hof
        cases hof with
        | anchor t _ _ _ _ hc _ _ => exact hc
      · rw [e1] at hof
        cases hof with
        | anchor t _ _ hp _ _ _ _ => exact hp
  · intro i d s hm
    rw [hm3, List.mem_append] at hm
    rcases hm with hm | hm
    · obtain ⟨g, n', e1, e2⟩ := h.fetch i d s hm
      have hlt' := (List.getElem?_eq_some_iff.mp e1).1
      exact ⟨g, n', by rw [hm1, List.getElem?_append_left hlt']; exact e1, by rw [pathOf_append hm1 hi hlt']; exact e2⟩
    · simp at hm
      obtain ⟨rfl, rfl, rfl⟩ := hm
      exact ⟨f, n, hfm, by rw [pathOf_append hm1 hi hlt]; exact hg⟩
  · obtain ⟨ops, e1, e2, e3⟩ := h.hist
    -- an operation that is a good one, or changes nothing
    have hcase : OffersOnly W.env (AnchorCert W f0) (.addResource m.files fid data) ∨ v1 = m.v := by
      by_cases htr : f.trust = true
      · obtain ⟨t1, t2, t3⟩ := h.trust fid f hf htr
        obtain ⟨j, hj⟩ := Option.isSome_iff_exists.mp t3
        obtain ⟨t, ht1, ht2⟩ := h.tals _ _ hj
        cases hc : W.env.parseCert data with
        | ok c =>
          -- where the TAL came from
          obtain ⟨i0, g0, d0, s0, q1, q2, q3⟩ := h.data _ _ ht1
          have hg0 : g0.type = .tal ∧ Tal.decodeTAL W.env.asn d0 = .ok t := by
            generalize g0.type = ty at q3
            cases q3 with
            | tal _ hd => exact ⟨rfl, hd⟩
          have hi0 := h.tal i0 g0 q1 hg0.1
          subst hi0
          have heq : g0 = f0 := by
            have := h.file0
            rw [q1] at this
            exact Option.some.inj this
          subst heq
          have hp0 : m.pathOf 0 = g0.path := by
            unfold M.pathOf
            rw [q1]
            simp [PKIFile.computePath, h00]
          have hpf : m.pathOf fid = f.path := by
            unfold M.pathOf
            rw [hf]
            simp [PKIFile.computePath, t2, q1, hg0.1]
          obtain ⟨g1, n0, r1, r2⟩ := h.fetch 0 d0 s0 q2
          rw [q1] at r1
          have := Option.some.inj r1
          subst this
          by_cases hs : SameKey t c
          · left
            intro f' c' hf1 _ hc'
            rw [hc] at hc'
            simp at hc'
            subst hc'
            refine ⟨n0, d0, s0, t, n, f, data, sha, ?_, hg0.2, ht2, ?_, hc, hs⟩
            · rw [← hp0]; exact r2
            · rw [← hpf]; exact hg
          · right
            obtain ⟨b, hb, _⟩ := (C24_pinned W.env m.v m.files fid f ⟨hf, t1, 0, g0, t2, q1, hg0.1⟩ j t hj (at_of_dataOf ht1)
              d0 hg0.2 data c hc (hk _ _ hc)).1 hs
            rw [hv] at hb
            simp at hb
            exact hb.1
        | err e => left; intro f' c' _ _ hc'; rw [hc] at hc'; simp at hc'
        | panic => left; intro f' c' _ _ hc'; rw [hc] at hc'; simp at hc'
        | diverge => left; intro f' c' _ _ hc'; rw [hc] at hc'; simp at hc'
      · left
        intro f' c' hf1 htr' _
        rw [hf] at hf1
        simp at hf1; subst hf1
        exact (htr htr').elim
    rw [hm2]
    rcases hcase with hcase | hcase
    · refine ⟨ops ++ [.addResource m.files fid data], ?_, ?_, run_snoc e3 hstep⟩
      · intro op hop
        rcases List.mem_append.mp hop with hop | hop
        · exact e1 op hop
        · simp at hop; subst hop; exact hcase
      · intro op hop
        rcases List.mem_append.mp hop with hop | hop
        · exact e2 op hop
        · simp at hop; subst hop; exact fun r hr => ⟨data, hr⟩
    · rw [hcase]; exact ⟨ops, e1, e2, e3⟩

/-- A round keeps the invariant. -/
theorem EInv.round {W : World} (hk : ∀ d c, W.env.parseCert d = .ok c → TalSpec.CertKey c.isRSA c.pubKey) {cfg : Cfg}
    (hc1 : cfg.notMFT = false) (hc2 : cfg.addInvalidChilds = false) {f0 : PKIFile} (h00 : f0.parent = none) {m m' : M}
    (h : EInv W f0 m) (hi : MInv m) (hs : m.exploreStep cfg W = .ok m') : EInv W f0 m' := by
  unfold M.exploreStep at hs
  split at hs
  · simp at hs
  · rename_i fid rest hqe
    split at hs
    · simp at hs
    · rename_i f hf
      obtain ⟨m3, h2, hs⟩ := Go.bind_eq_ok.mp hs
      simp only [Go.pure_def, Go.ok.injEq] at hs
      subst hs
      suffices hh : EInv W f0 m3 from hh.other rfl rfl ⟨[], by simp, by simp⟩
      have h1 : EInv W f0 { m with queue := rest, trace := m.trace ++ [.taken fid] } :=
        h.other rfl rfl ⟨[.taken fid], rfl, by simp⟩
      obtain ⟨pre, m1, hp, ho, hu⟩ := fetch_round (.inl hc1) h2
      have h4 : EInv W f0 { m with queue := rest, trace := (m.trace ++ [.taken fid]) ++ pre } :=
        h1.other rfl rfl ⟨pre, rfl, by rcases hp with ⟨rfl, _⟩ | ⟨rfl, _⟩ <;> simp⟩
      have h5 := h4.onlyV ho
      obtain ⟨g1, _, _, _, _, _, g7⟩ := onlyV_fields ho
      rcases useAnswer_cases hu with ⟨_, ho2⟩ | ⟨data, sha, hr, hadd⟩
      · exact h5.onlyV ho2
      · obtain ⟨hans, _⟩ := judged_found hr
        rcases hp with ⟨_, hp⟩ | ⟨_, _, hp⟩
        · rw [hp] at hans; simp at hans
        · rw [hp] at hans
          rw [hc2] at hadd
          refine h5.add hk (by rw [g1]; exact hi.par) h00 (by rw [g1]; exact hf) (n := m.clock) ?_ hadd
          have : m1.pathOf fid = m.pathOf fid := by unfold M.pathOf; rw [g1]
          rw [this]
          exact hans

end Verif.Manager
