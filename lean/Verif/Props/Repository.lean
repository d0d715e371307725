import Verif.Lemmas.Repository
import Verif.Props.Manager
import Verif.Props.Local
/-
  Property theorems for exploring without manifests: C96.
-/
set_option autoImplicit false

namespace Verif.Props
open Pki PkiSpec Manager ManagerSpec

/-- Explorations without manifests, with a FileSeeker. -/
def Listing (cfg : Cfg) : Prop := cfg.notMFT = true ∧ cfg.hasSeeker = true

theorem later_mono {W : World} {ok ok' : Cfg → Prop} (h : ∀ c, ok c → ok' c) {m m' : M} (hl : Later W ok m m') : Later W ok' m m' := by
  induction hl with
  | here => exact .here
  | initial m1 fs _ hp ih => exact .initial m1 fs ih hp
  | round m1 m2 cfg hc _ hs ih => exact .round m1 m2 cfg (h cfg hc) ih hs

/-- **C96, once.** A second manifest of a repository that was taken before leaves everything as it is: nothing is asked for and nothing is given to
    the validator. -/
theorem C96_once (W : World) (T : Bytes → Prop) (m m' : M) (hl : Life W T (fun c => c.notMFT = true) m) (cfg : Cfg) (hc : cfg.notMFT = true)
    (h : m.exploreStep cfg W = .ok m') (fid : Nat) (rest : List Nat) (f : PKIFile) (hq : m.queue = fid :: rest)
    (hf : m.files[fid]? = some f) (ht : f.type = .mft) (hr : RepoTaken m f.repo) :
    m'.v = m.v ∧ m'.files = m.files ∧ m'.trace = m.trace ++ [.taken fid] := by
  have hi := minv_life hl
  obtain ⟨v, _, hl⟩ := hl
  obtain ⟨_, hx⟩ := explored_exact hl
  obtain ⟨fid', f', rest', r⟩ := round_ok hi h
  have h1 := r.queue
  rw [hq] at h1; simp at h1
  obtain ⟨rfl, rfl⟩ := h1
  have h2 := r.file
  rw [hf] at h2; simp at h2; subst h2
  obtain ⟨evs, rs⟩ := round_saw hi r h
  have := rs.read hc ht
  rw [if_pos (.inl ((hx _).mpr (.inl hr)))] at this
  refine ⟨this.2.1, this.2.2, by rw [rs.trace, this.1]⟩

/-- **C96, all of it.** The first manifest of a repository makes the manager read the repository: everything that the FileSeeker hands over is
    given to the validator, in the same order, and nothing else. -/
theorem C96_read (W : World) (T : Bytes → Prop) (m m' : M) (hl : Life W T (fun c => c.notMFT = true) m) (cfg : Cfg) (hc : Listing cfg)
    (h : m.exploreStep cfg W = .ok m') (fid : Nat) (rest : List Nat) (f : PKIFile) (hq : m.queue = fid :: rest)
    (hf : m.files[fid]? = some f) (ht : f.type = .mft) (hr : ¬ RepoTaken m f.repo) (hp : ¬ PathAdded m f.repo) :
    ∃ evs, m'.trace = m.trace ++ .taken fid :: evs ∧ List.Forall₂ (Gives m' fid) evs (W.getRepository m.clock f).1 := by
  have hi := minv_life hl
  obtain ⟨v, _, hl⟩ := hl
  obtain ⟨_, hx⟩ := explored_exact hl
  obtain ⟨fid', f', rest', r⟩ := round_ok hi h
  have h1 := r.queue
  rw [hq] at h1; simp at h1
  obtain ⟨rfl, rfl⟩ := h1
  have h2 := r.file
  rw [hf] at h2; simp at h2; subst h2
  obtain ⟨evs, rs⟩ := round_saw hi r h
  have := rs.read hc.1 ht
  rw [if_neg (by
    rintro (h | h)
    · rcases (hx _).mp h with h | h
      · exact hr h
      · exact hp h
    · rw [hc.2] at h; simp at h)] at this
  exact ⟨evs, rs.trace, this⟩

/-- The repository `r` was read: one of its manifests was taken, and then exactly what the FileSeeker handed over was given to the validator. -/
def RepoRead (W : World) (m : M) (r : Bytes) : Prop :=
  ∃ fid f n pre evs post, m.files[fid]? = some f ∧ f.type = .mft ∧ f.repo = r ∧ m.trace = pre ++ .taken fid :: (evs ++ post) ∧
    List.Forall₂ (Gives m fid) evs (W.getRepository n f).1

theorem gives_mono {m m' : M} {fid : Nat} (h : ∃ l, m'.files = m.files ++ l) {evs : List Event} {cs : List Call}
    (hg : List.Forall₂ (Gives m fid) evs cs) : List.Forall₂ (Gives m' fid) evs cs := by
  obtain ⟨l, hl⟩ := h
  induction hg with
  | nil => exact .nil
  | cons hg _ ih =>
    obtain ⟨i, h1, h2⟩ := hg
    exact .cons ⟨i, h1, by rw [hl, List.getElem?_append_left ((List.getElem?_eq_some_iff.mp h2).1)]; exact h2⟩ ih

theorem RepoRead.mono {W : World} {m m' : M} {r : Bytes} (hf : ∃ l, m'.files = m.files ++ l) (ht : m.trace <+: m'.trace)
    (h : RepoRead W m r) : RepoRead W m' r := by
  obtain ⟨fid, f, n, pre, evs, post, h1, h2, h3, h4, h5⟩ := h
  obtain ⟨t, ht⟩ := ht
  obtain ⟨l, hl⟩ := hf
  refine ⟨fid, f, n, pre, evs, post ++ t, ?_, h2, h3, ?_, gives_mono ⟨l, hl⟩ h5⟩
  · rw [hl, List.getElem?_append_left ((List.getElem?_eq_some_iff.mp h1).1)]; exact h1
  · rw [← ht, h4]; simp

theorem pathAdded_mono {W : World} {v : V} {m m' : M} (h0 : Later W (fun c => c.notMFT = true) (M.new v) m) (hf : ∃ l, m'.files = m.files ++ l)
    (ht : m.trace <+: m'.trace) {p : Bytes} (h : PathAdded m p) : PathAdded m' p := by
  obtain ⟨i, h1, h2⟩ := h
  obtain ⟨t, ht⟩ := ht
  obtain ⟨l, hl⟩ := hf
  refine ⟨i, by rw [← ht, added_append]; exact List.mem_append_left _ h1, ?_⟩
  rw [pathOf_append hl (later_inv (minv_new v) h0).1.par ((explored_exact h0).1 i h1)]
  exact h2

/-- **C96, every repository.** At any time of an exploration without manifests, each repository of which a manifest was taken has been read, unless a
    file of the same name was given to the validator. -/
theorem C96_every_repository (W : World) (T : Bytes → Prop) (m : M) (hl : Life W T Listing m) (r : Bytes) (hr : RepoTaken m r) :
    RepoRead W m r ∨ PathAdded m r := by
  obtain ⟨v, _, hl⟩ := hl
  have key : Later W (fun c => c.notMFT = true) (M.new v) m ∧ ∀ r, RepoTaken m r → RepoRead W m r ∨ PathAdded m r := by
    clear hr
    induction hl with
    | here => exact ⟨.here, by simp [RepoTaken, M.new, taken]⟩
    | initial m1 fs hl hp ih =>
      obtain ⟨ha, hb⟩ := ih
      have he := ext_putFiles (m := m1) fs hp
      refine ⟨.initial _ _ ha hp, fun r hr => ?_⟩
      have hi := (later_inv (minv_new v) ha).1
      have hold : RepoTaken m1 r := by
        obtain ⟨i, g, a, b, c⟩ := hr
        obtain ⟨_, g1, g2, _⟩ := keeps_putFiles fs m1 (put_initial fs hp)
        rw [g2] at a
        rw [g1, List.getElem?_append_left (hi.lt i (List.mem_append_left _ a))] at b
        exact ⟨i, g, a, b, c⟩
      rcases hb r hold with h | h
      · exact .inl (h.mono he.files he.trace)
      · exact .inr (pathAdded_mono ha he.files he.trace h)
    | round m1 m2 cfg hc hl hs ih =>
      obtain ⟨ha, hb⟩ := ih
      have hi := (later_inv (minv_new v) ha).1
      obtain ⟨fid, f, rest, hrd⟩ := round_ok hi hs
      have he := hrd.ext
      refine ⟨.round _ _ cfg hc.1 ha hs, fun r hr => ?_⟩
      obtain ⟨evs, rs⟩ := round_saw hi hrd hs
      obtain ⟨l, hlf⟩ := hrd.files
      have hfid : m2.files[fid]? = some f := by
        rw [hlf, List.getElem?_append_left ((List.getElem?_eq_some_iff.mp hrd.file).1)]; exact hrd.file
      by_cases hold : RepoTaken m1 r
      · rcases hb r hold with h | h
        · exact .inl (h.mono he.files he.trace)
        · exact .inr (pathAdded_mono ha he.files he.trace h)
      · obtain ⟨i, g, a, b, c, d⟩ := hr
        obtain ⟨evs', t1, t2, _⟩ := hrd.trace
        rw [t1, taken_append] at a
        simp [taken, t2] at a
        rcases a with a | rfl
        · rw [hlf, List.getElem?_append_left (hi.lt i (List.mem_append_left _ a))] at b
          exact (hold ⟨i, g, a, b, c, d⟩).elim
        · rw [hfid] at b; simp at b; subst b
          by_cases hpa : PathAdded m1 r
          · exact .inr (pathAdded_mono ha he.files he.trace hpa)
          · have := rs.read hc.1 c
            rw [if_neg (by
              rw [d]
              rintro (h | h)
              · rcases ((explored_exact ha).2 _).mp h with h | h
                · exact hold h
                · exact hpa h
              · rw [hc.2] at h; simp at h)] at this
            exact .inl ⟨i, f, m1.clock, m1.trace, evs, [], hfid, c, d, by rw [rs.trace]; simp, this⟩
  exact key.2 r hr

/-! A trust anchor at `r/ta.cer` with its own directory `r/`, in which there is also the CA `a.cer`, which publishes in the same directory. -/

def dirR' : Bytes := tx "r/"

def envRp : Env := { env0 with
  parseCert := fun d => if d = [1] then .ok (mkCA [1] [] (tx "r/0.mft") dirR') else if d = [2] then .ok (mkCA [2] [1] (tx "r/a.mft") dirR') else .err "" }

/-- What the local FileSeeker hands over for a directory with these files (path `repo ++ name`). -/
def callR (repo name data : Bytes) : Call := ⟨⟨none, repo, repo ++ name, Cache.typeOfName name, false, none⟩, data, some data, false⟩

def worldR : World := ⟨envRp, fun _ p _ => if p = tx "r/ta.cer" then .found [1] (some [1]) else .absent,
  fun _ f => if f.repo = dirR' then ([callR dirR' (tx "a.cer") [2], callR dirR' (tx "ta.cer") [1]], true) else ([], false), fun _ => 50, fun _ => 50⟩

def cfgR : Cfg := ⟨true, false, true, true, true, true⟩

def startR : M := (M.new V.new).putFiles [⟨none, [], tx "r/ta.cer", .cer, true, none⟩]

/-- The state after `n` rounds. -/
def roundsR : Nat → M
  | 0 => startR
  | n + 1 => match (roundsR n).exploreStep cfgR worldR with | .ok m => m | _ => startR

theorem startR_later (ok : Cfg → Prop) : Later worldR ok (M.new V.new) startR := .initial _ _ .here (by simp)

theorem roundsR_later : ∀ n, Later worldR Listing (M.new V.new) (roundsR n)
  | 0 => startR_later _
  | n + 1 => by
    unfold roundsR
    split
    · rename_i m h
      exact .round _ _ cfgR ⟨rfl, rfl⟩ (roundsR_later n) h
    · exact startR_later _

/-- The hypotheses hold here: the second round takes the manifest of `r/`, which was not read before, and both files are given to the validator. -/
example : (roundsR 1).queue.map (roundsR 1).pathOf = [tx "r/0.mft"] ∧ ((roundsR 1).queue.map fun i => ((roundsR 1).files[i]?).map (·.repo)) = [some dirR'] ∧
    dirR' ∉ (roundsR 1).explored ∧ (added (roundsR 2).trace).length = 3 ∧ dirR' ∈ (roundsR 2).explored := by decide +kernel

/-- The third round takes another manifest of `r/`, which is taken already. -/
example : (roundsR 2).queue.map (roundsR 2).pathOf = [tx "r/a.mft"] ∧ ((roundsR 2).queue.map fun i => ((roundsR 2).files[i]?).map (·.repo)) = [some dirR'] ∧
    (roundsR 3).trace.length = (roundsR 2).trace.length + 1 := by decide +kernel
example : RepoTaken (roundsR 2) dirR' := ⟨1, ⟨some 0, dirR', tx "r/0.mft", .mft, false, none⟩, by decide +kernel⟩

/-- **C96 is violated: names.** A file of a repository that the local FileSeeker hands over has the name of the directory twice in the path
    under which the manager keeps it, so that it is never the path of the file. -/
theorem C96_violated_names (sha256 : Bytes → Bytes) (fs : Cache.FS) (map : List (Bytes × Bytes)) (fid : Nat) (f : PKIFile)
    (calls : List (PKIFile × Cache.Seek)) (b : Bool) (h : Cache.getRepository sha256 fs map fid f = .ok (calls, b))
    (files : List PKIFile) (hf : files[fid]? = some f) (ht : f.type = .mft) (c : PKIFile × Cache.Seek) (hc : c ∈ calls) :
    (∃ name, c.1.path = f.repo ++ name ∧ (c.1.computePath files = f.repo ++ (f.repo ++ name) ∨ c.1.computePath files = f.repo ++ 47 :: (f.repo ++ name))) ∧
    c.1.computePath files ≠ c.1.path := by
  have key : ∀ (localPath own : Bytes) (names : List (Bytes × Bool)) (calls : List (PKIFile × Cache.Seek)) (b : Bool),
      Cache.repoLoop sha256 fs localPath f.repo own fid names = .ok (calls, b) → ∀ c ∈ calls, ∃ name, c.1.path = f.repo ++ name ∧ c.1.parent = some fid := by
    intro localPath own names
    induction names with
    | nil => intro calls b h c hc; simp [Cache.repoLoop] at h; rw [h.1] at hc; simp at hc
    | cons x rest ih =>
      obtain ⟨name, d⟩ := x
      intro calls b h c hc
      unfold Cache.repoLoop at h
      split at h
      · exact ih calls b h c hc
      · split at h
        · split at h
          · rename_i y hy
            simp only [Go.ok.injEq, Prod.mk.injEq] at h
            rw [← h.1] at hc
            simp only [List.mem_cons] at hc
            rcases hc with rfl | hc
            · exact ⟨name, rfl, rfl⟩
            · exact ih y.1 y.2 hy c hc
          all_goals simp at h
        · simp at h; rw [h.1] at hc; simp at hc
        all_goals simp at h
  obtain ⟨name, h1, h2⟩ : ∃ name, c.1.path = f.repo ++ name ∧ c.1.parent = some fid := by
    unfold Cache.getRepository at h
    split at h
    · simp at h; rw [h.1] at hc; simp at hc
    · exact key _ _ _ _ _ h c hc
  have hcp : c.1.computePath files = if f.repo.getLast? = some 47 then f.repo ++ c.1.path else f.repo ++ 47 :: c.1.path := by
    unfold PKIFile.computePath
    rw [h2]
    simp [hf, ht]
  refine ⟨⟨name, h1, ?_⟩, ?_⟩
  · rw [hcp, h1]
    split
    · exact .inl rfl
    · exact .inr rfl
  · rw [hcp]
    intro he
    have hlen := congrArg List.length he
    split at hlen
    · rename_i hl
      simp at hlen
      rw [hlen] at hl; simp at hl
    · simp at hlen; omega

/-- **C96 is violated: twice.** A file that was read on its own is read once more with its repository: here the trust anchor's certificate
    is given to the validator twice, and both files have the same path. -/
theorem C96_violated_twice : ∃ m, Life worldR (fun _ => True) Listing m ∧ ∃ i j f g, i ≠ j ∧ i ∈ added m.trace ∧ j ∈ added m.trace ∧
    m.files[i]? = some f ∧ m.files[j]? = some g ∧ f.path = g.path ∧ m.trace.count (.added i [1] (some [1])) = 1 ∧ m.trace.count (.added j [1] (some [1])) = 1 := by
  refine ⟨roundsR 2, ⟨V.new, ⟨[], by simp, rfl⟩, roundsR_later 2⟩, 0, 4, ⟨none, [], tx "r/ta.cer", .cer, true, none⟩,
    ⟨some 1, dirR', tx "r/ta.cer", .cer, false, none⟩, by decide +kernel⟩

end Verif.Props
