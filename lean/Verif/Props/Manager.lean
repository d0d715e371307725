import Verif.Lemmas.ManagerStrict
import Verif.Props.Tables
/-
  Property theorems for the manager: C26 to C29, and C68 (no operation of the validator hangs).
-/
set_option autoImplicit false

namespace Verif.Props
open Pki PkiSpec Manager ManagerSpec

/-! ### A concrete repository for the examples

  A trust anchor `ta` (key 1) with a manifest that lists the CAs `a.cer` (key 2) and `b.cer` (key 3). Both
  publish in directory `s`, and both of their manifests list `x.roa`, with hashes 7 and 8. The hash of a
  file is its data. -/

def mkCA (ski aki : Bytes) (mft repo : Bytes) : Pki.Cert :=
  { mkCert ski aki 1 [] [] with sia := [(.caRepository, repo), (.manifest, mft)] }

def mkMft (ski aki : Bytes) (l : List (Bytes × Bytes)) : Mft := ⟨mkCert ski aki 1 [] [], 0, 100, l, true⟩

def nA : Bytes := asc ['a', '.', 'c', 'e', 'r']
def nB : Bytes := asc ['b', '.', 'c', 'e', 'r']
def nX : Bytes := asc ['x', '.', 'r', 'o', 'a']
def nM0 : Bytes := asc ['0', '.', 'm', 'f', 't']
def nMA : Bytes := asc ['a', '.', 'm', 'f', 't']
def nMB : Bytes := asc ['b', '.', 'm', 'f', 't']
def nTA : Bytes := asc ['t', 'a']
def dirR : Bytes := asc ['r']
def dirS : Bytes := asc ['s']

def caTA : Pki.Cert := mkCA [1] [] nM0 dirR
def caA : Pki.Cert := mkCA [2] [1] nMA dirS
def caB : Pki.Cert := mkCA [3] [1] nMB dirS

def envM : Env :=
  { env0 with
    parseCert := fun d => if d = [1] then .ok caTA else if d = [2] then .ok caA else if d = [3] then .ok caB else .err ""
    parseMft := fun d =>
      if d = [10] then .ok (mkMft [10] [1] [(nA, [2]), (nB, [3])])
      else if d = [11] then .ok (mkMft [11] [2] [(nX, [7])])
      else if d = [12] then .ok (mkMft [12] [3] [(nX, [8])])
      else .err "" }

/-- The files of the repository, `x` being the content of `s/x.roa`. -/
def repoOf (x : Option Bytes) (path : Bytes) : Fetch :=
  if path = nTA then .found [1] (some [1])
  else if path = nM0 then .found [10] (some [10])
  else if path = nMA then .found [11] (some [11])
  else if path = nMB then .found [12] (some [12])
  else if path = dirR ++ 47 :: nA then .found [2] (some [2])
  else if path = dirR ++ 47 :: nB then .found [3] (some [3])
  else if path = dirS ++ 47 :: nX then
    match x with
    | some d => .found d (some d)
    | none => .absent
  else .absent

def worldM (x : Option Bytes) : World := ⟨envM, fun _ p _ => repoOf x p, fun _ _ => ([], true), fun _ => 50, fun _ => 50⟩

def cfgS : Cfg := ⟨false, false, true, true, true, true⟩

def startM : M := (M.new V.new).putFiles [⟨none, [], nTA, .cer, true, none⟩]

/-- The state after exploration. -/
def doneM (x : Option Bytes) : M :=
  match startM.explore cfgS (worldM x) 20 with
  | .ok (m, _) => m
  | _ => startM

theorem startM_life (x : Option Bytes) (ok : Cfg → Prop) : Life (worldM x) (fun k => k = [1]) ok startM :=
  ⟨V.new, ⟨[], by simp, rfl⟩, .initial _ _ .here (by simp)⟩

theorem minv_life {W : World} {T : Bytes → Prop} {ok : Cfg → Prop} {m : M} (h : Life W T ok m) : MInv m := by
  obtain ⟨v, _, h⟩ := h
  exact (later_inv (minv_new v) h).1

theorem explore_life {W : World} {T : Bytes → Prop} {ok : Cfg → Prop} {m m' : M} {cfg : Cfg} {fuel n : Nat}
    (hc : ok cfg) (hl : Life W T ok m) (h : m.explore cfg W fuel = .ok (m', n)) :
    Life W T ok m' ∧ m'.queue = [] ∧ (taken m'.trace).length = (taken m.trace).length + n ∧ Later W ok m m' := by
  have hi := minv_life hl
  obtain ⟨v, hv, hl⟩ := hl
  rw [M.explore, exploreLoop_drain] at h
  obtain ⟨h1, h2, h3⟩ := drain_later hc fuel m m' 0 n hi h
  exact ⟨⟨v, hv, hl.trans h1⟩, h2, by omega, h1⟩

theorem doneM_ok (x : Option Bytes) (h : isOk (startM.explore cfgS (worldM x) 20) = true) :
    ∃ n, startM.explore cfgS (worldM x) 20 = .ok (doneM x, n) := by
  unfold doneM
  cases hh : startM.explore cfgS (worldM x) 20 with
  | ok a => exact ⟨a.2, rfl⟩
  | err _ => rw [hh] at h; simp [isOk] at h
  | panic => rw [hh] at h; simp [isOk] at h
  | diverge => rw [hh] at h; simp [isOk] at h

theorem doneM_life (x : Option Bytes) (h : isOk (startM.explore cfgS (worldM x) 20) = true) (ok : Cfg → Prop)
    (hc : ok cfgS) : Life (worldM x) (fun k => k = [1]) ok (doneM x) ∧ (doneM x).queue = [] := by
  obtain ⟨n, hn⟩ := doneM_ok x h
  obtain ⟨h1, h2, _⟩ := explore_life hc (startM_life x ok) hn
  exact ⟨h1, h2⟩

/-- The exploration of this repository ends after 7 files. -/
example : isOk (startM.explore cfgS (worldM (some [7])) 20) = true := by decide +kernel
example : taken (doneM (some [7])).trace = [0, 1, 2, 3, 4, 5, 6] := by decide +kernel

/-! ## C26 — every path is explored at most once -/

/-- **C26, at most once.** In the whole life of a manager no two files that entered the queue have the same
    path, and no path is asked for twice. -/
theorem C26_once (W : World) (T : Bytes → Prop) (ok : Cfg → Prop) (m : M) (h : Life W T ok m) :
    ((entered m).map m.pathOf).Nodup ∧ ((fetched m.trace).map m.pathOf).Nodup := by
  have hi := minv_life h
  obtain ⟨v, _, hl⟩ := h
  have hs := later_fetched (minv_new v) (by simp [M.new, fetched, taken]) hl
  refine ⟨hi.nd, ?_⟩
  have : ((fetched m.trace).map m.pathOf).Sublist ((entered m).map m.pathOf) :=
    (hs.trans (List.sublist_append_left _ _)).map _
  exact hi.nd.sublist this

/-- **C26, in manifest mode no path is given twice to the validator.** -/
theorem C26_added_once (W : World) (T : Bytes → Prop) (ok : Cfg → Prop) (hok : ∀ cfg, ok cfg → cfg.notMFT = false)
    (m : M) (h : Life W T ok m) : ((added m.trace).map m.pathOf).Nodup := by
  have hn := (C26_once W T ok m h).2
  obtain ⟨v, _, hl⟩ := h
  exact hn.sublist ((later_added hok (minv_new v) (by simp [M.new, added, fetched]) hl).map _)

/-- **C26, never lost.** What entered the queue stays on record, in the same order and with the same path:
    it is either taken or still in the queue. -/
theorem C26_never_lost (W : World) (T : Bytes → Prop) (ok : Cfg → Prop) (m m' : M) (h : Life W T ok m)
    (hl : Later W ok m m') : entered m <+: entered m' ∧ ∀ i ∈ entered m, m'.pathOf i = m.pathOf i := by
  have hi := minv_life h
  obtain ⟨_, he⟩ := later_inv hi hl
  obtain ⟨l, hf⟩ := he.files
  exact ⟨he.entered, fun i hh => pathOf_append hf hi.par (hi.lt i hh)⟩

/-- **C26, a file that is put is known.** After files were added to the queue, the path of each of them has
    entered the queue, now or before, unless a whole-repository reading already covered it. -/
theorem C26_put_known (W : World) (T : Bytes → Prop) (ok : Cfg → Prop) (m : M) (h : Life W T ok m)
    (fs : List PKIFile) (hp : ∀ f ∈ fs, f.parent = none) (f : PKIFile) (hf : f ∈ fs) :
    f.path ∈ (entered (m.putFiles fs)).map (m.putFiles fs).pathOf ∨ f.path ∈ m.explored := by
  have := put_known fs m f (minv_life h) (put_initial fs hp) hf
  have e : f.computePath m.files = f.path := by simp [PKIFile.computePath, hp f hf]
  rw [e] at this
  exact this

/-- **C26, everything is taken.** When `Explore` returns, every file that ever entered the queue has left it. -/
theorem C26_all_taken (W : World) (T : Bytes → Prop) (ok : Cfg → Prop) (m m' : M) (cfg : Cfg) (hc : ok cfg)
    (fuel n : Nat) (hl : Life W T ok m) (h : m.explore cfg W fuel = .ok (m', n)) :
    taken m'.trace = entered m' := by
  obtain ⟨_, h2, _⟩ := explore_life hc hl h
  simp [entered, h2]

example : entered (doneM (some [7])) ≠ [] ∧ (fetched (doneM (some [7])).trace).length = 7 := by decide +kernel
/-- `x.roa` is listed twice, but asked for once. -/
example : ((doneM (some [7])).files.filter (fun f => f.path = nX)).length = 2 ∧
    ((fetched (doneM (some [7])).trace).filter (fun i => (doneM (some [7])).pathOf i = dirS ++ 47 :: nX)).length = 1 := by
  decide +kernel

/-! ## C27 — exploration terminates -/

theorem nodup_subset_length {α : Type} [DecidableEq α] : ∀ (l u : List α), l.Nodup → (∀ a ∈ l, a ∈ u) →
    l.length ≤ u.length := by
  intro l
  induction l with
  | nil => simp
  | cons a r ih =>
    intro u hn hs
    have ha := hs a (by simp)
    rw [List.nodup_cons] at hn
    have := ih (u.erase a) hn.2 (by
      intro b hb
      rw [List.mem_erase_of_ne]
      · exact hs b (by simp [hb])
      · rintro rfl; exact hn.1 hb)
    rw [List.length_erase_of_mem ha] at this
    have : 0 < u.length := List.length_pos_of_mem ha
    simp; omega

theorem _root_.Verif.ManagerSpec.Rounds.later {W : World} {cfg : Cfg} {ok : Cfg → Prop} (hc : ok cfg) {m m' : M} (h : Rounds W cfg m m') :
    Later W ok m m' := by
  induction h with
  | here => exact .here
  | round m1 m2 _ h ih => exact .round m1 m2 cfg hc ih h

theorem drain_rounds {W : World} {cfg : Cfg} {m0 : M} : ∀ (fuel : Nat) (m m' : M) (c n : Nat), Rounds W cfg m0 m →
    drain cfg W fuel m c = .ok (m', n) → Rounds W cfg m0 m' := by
  intro fuel
  induction fuel with
  | zero => intro m m' c n _ h; simp [drain] at h
  | succ k ih =>
    intro m m' c n hm h
    unfold drain at h
    split at h
    · simp at h; obtain ⟨rfl, _⟩ := h; exact hm
    · obtain ⟨m1, h1, hrun⟩ := Go.bind_eq_ok.mp h
      exact ih m1 m' _ n (.round m m1 hm h1) hrun

/-- **C27, at most as many steps as names.** If all paths that enter the queue during the exploration are in
    the finite list `U`, then `Explore` cannot go on for more than `|U|` files; when it returns, it returns the
    number of files it took, at most `|U|`, and the queue is empty. -/
theorem C27_bounded (W : World) (T : Bytes → Prop) (ok : Cfg → Prop) (hd : Decodes W.env) (m : M) (cfg : Cfg)
    (hc : ok cfg) (hl : Life W T ok m) (U : List Bytes)
    (hU : ∀ m', Rounds W cfg m m' → ∀ i ∈ entered m', m'.pathOf i ∈ U) :
    (∀ fuel, U.length < fuel → m.explore cfg W fuel ≠ .diverge) ∧
    (∀ fuel m' n, m.explore cfg W fuel = .ok (m', n) →
      n ≤ U.length ∧ m'.queue = [] ∧ (taken m'.trace).length = (taken m.trace).length + n) := by
  have hi := minv_life hl
  have hbound : ∀ m', Rounds W cfg m m' → (taken m'.trace).length ≤ U.length := by
    intro m' hlm
    have hi' := (later_inv hi (hlm.later hc)).1
    have : ((entered m').map m'.pathOf).length ≤ U.length := by
      apply nodup_subset_length _ _ hi'.nd
      intro p hp
      obtain ⟨i, h1, rfl⟩ := List.mem_map.mp hp
      exact hU m' hlm i h1
    simp [entered] at this
    omega
  constructor
  · intro fuel hf
    rw [M.explore, exploreLoop_drain]
    have key : ∀ (fuel : Nat) (m1 : M) (c : Nat), Rounds W cfg m m1 → U.length < fuel + (taken m1.trace).length →
        ND (drain cfg W fuel m1 c) := by
      intro fuel
      induction fuel with
      | zero => intro m1 c hm1 hlt; have := hbound m1 hm1; omega
      | succ k ih =>
        intro m1 c hm1 hlt
        unfold drain
        split
        · exact nd_ok _
        · have hi1 := (later_inv hi (hm1.later hc)).1
          have hr1 : Reachable W.env (fun _ => True) m1.v := by
            obtain ⟨v, hv, hl0⟩ := hl
            exact (later_vrun (wtrust_all W) (minv_new v) (hl0.trans (hm1.later hc))).reachable
              (reachable_mono (T' := fun _ => True) (by simp) hv)
          refine ND.bind (nd_exploreStep hd hi1 hr1 cfg) (fun m2 h2 => ?_)
          refine ih m2 _ (.round m1 m2 hm1 h2) ?_
          obtain ⟨fid, f, rest, hro⟩ := round_ok hi1 h2
          obtain ⟨evs, e1, e2, _⟩ := hro.trace
          rw [e1, taken_append]
          simp [taken, e2]
          omega
    exact key fuel m 0 .here (by omega)
  · intro fuel m' n h
    obtain ⟨_, h2, h3, _⟩ := explore_life hc hl h
    rw [M.explore, exploreLoop_drain] at h
    have := hbound m' (drain_rounds fuel m m' 0 n .here h)
    exact ⟨by omega, h2, h3⟩

/-- `k` rounds. -/
def iterM (x : Option Bytes) : Nat → Go M
  | 0 => .ok startM
  | k + 1 => iterM x k >>= fun m => m.exploreStep cfgS (worldM x)

/-- In the example all paths that enter the queue are in a list of seven. -/
example : ∀ m', Rounds (worldM (some [7])) cfgS startM m' → ∀ i ∈ entered m', m'.pathOf i ∈
    [nTA, nM0, nMA, nMB, dirR ++ 47 :: nA, dirR ++ 47 :: nB, dirS ++ 47 :: nX] := by
  have h1 : ∀ m', Rounds (worldM (some [7])) cfgS startM m' → ∃ k, iterM (some [7]) k = .ok m' := by
    intro m' h
    induction h with
    | here => exact ⟨0, rfl⟩
    | round m1 m2 _ h ih =>
      obtain ⟨k, hk⟩ := ih
      exact ⟨k + 1, by simp only [iterM, hk, Go.ok_bind, h]⟩
  have h2 : ∀ k, isOk (iterM (some [7]) (k + 8)) = false := by
    intro k
    induction k with
    | zero => decide +kernel
    | succ k ih =>
      show isOk (iterM (some [7]) (k + 8) >>= fun m => m.exploreStep cfgS (worldM (some [7]))) = false
      cases hh : iterM (some [7]) (k + 8) <;> rw [hh] at ih <;> first | rfl | simp [isOk] at ih
  have h3 : ∀ k < 8, (match iterM (some [7]) k with
      | .ok m => (entered m).all (fun i => decide (m.pathOf i ∈
          [nTA, nM0, nMA, nMB, dirR ++ 47 :: nA, dirR ++ 47 :: nB, dirS ++ 47 :: nX]))
      | _ => true) = true := by decide +kernel
  intro m' hm
  obtain ⟨k, hk⟩ := h1 m' hm
  rcases Nat.lt_or_ge k 8 with hlt | hge
  · have := h3 k hlt
    rw [hk] at this
    intro i hi
    simpa using List.all_eq_true.mp this i hi
  · have := h2 (k - 8)
    rw [show k - 8 + 8 = k by omega, hk] at this
    simp [isOk] at this

/-- **C27, it terminates.** In manifest mode, if the FileSeeker has files for finitely many paths only,
    `Explore` ends, whatever the objects list and in spite of cycles. -/
theorem C27_terminates (W : World) (T : Bytes → Prop) (ok : Cfg → Prop) (hd : Decodes W.env) (m : M)
    (hl : Life W T ok m) (cfg : Cfg) (hc : cfg.notMFT = false) (D : List Bytes)
    (hD : ∀ n p f d s, W.getFile n p f = .found d s → p ∈ D) :
    ∃ N, ∀ fuel, N ≤ fuel → m.explore cfg W fuel ≠ .diverge := by
  have hi := minv_life hl
  obtain ⟨v, hv, hl⟩ := hl
  have hr : Reachable W.env (fun _ => True) m.v :=
    (later_vrun (wtrust_all W) (minv_new v) hl).reachable (reachable_mono (by simp) hv)
  obtain ⟨N, hN⟩ := drain_ends hd hc D hD _ _ m hi hr (Nat.le_refl _) (Nat.le_refl _)
  refine ⟨N, fun fuel hf => ?_⟩
  rw [M.explore, exploreLoop_drain]
  exact hN fuel hf 0

/-- **C27, no end-of-queue error.** `Explore` is the loop that takes a file only when there is one. -/
theorem C27_no_eof (W : World) (cfg : Cfg) (fuel : Nat) (m : M) : m.explore cfg W fuel = drain cfg W fuel m 0 :=
  exploreLoop_drain cfg W fuel m 0

/-- All decoders of the example end; files exist for seven paths. -/
theorem decodes_envM : Decodes envM := by
  constructor <;> intro d <;> simp [envM, env0] <;> repeat' split
  all_goals simp

example : ∀ (n : Nat) (p : Bytes) (f : PKIFile) (d : Bytes) (s : Option Bytes), (worldM (some [7])).getFile n p f = .found d s →
    p ∈ [nTA, nM0, nMA, nMB, dirR ++ 47 :: nA, dirR ++ 47 :: nB, dirS ++ 47 :: nX] := by
  intro n p f d s h
  simp only [worldM, repoOf] at h
  repeat' split at h
  all_goals simp_all

/-! ## C28 — manifest hashes are enforced -/

/-- **C28.** In manifest mode with strict hashes: whatever was given to the validator came from the FileSeeker
    for that very file, and if it came with a hash and a manifest lists one, the two are equal. -/
theorem C28_hash_enforced (W : World) (T : Bytes → Prop) (ok : Cfg → Prop)
    (hok : ∀ cfg, ok cfg → cfg.notMFT = false ∧ cfg.strictHash = true) (m : M) (hl : Life W T ok m)
    (i : Nat) (data : Bytes) (sha : Option Bytes) (h : Event.added i data sha ∈ m.trace) :
    ∃ f n, m.files[i]? = some f ∧ W.getFile n (m.pathOf i) f = .found data sha ∧
      ∀ s hash, sha = some s → f.manifestHash = some hash → s = hash := by
  obtain ⟨v, _, hl⟩ := hl
  refine (later_ind (P := fun m => ∀ i data sha, Event.added i data sha ∈ m.trace →
    ∃ f n, m.files[i]? = some f ∧ W.getFile n (m.pathOf i) f = .found data sha ∧
      ∀ s hash, sha = some s → f.manifestHash = some hash → s = hash) (minv_new v) (by simp [M.new]) ?_ ?_ hl).2.2 i data sha h
  · intro m1 fs _ hi1 hp hf i data sha hmem
    obtain ⟨hk, g1, g2, _⟩ := keeps_putFiles fs m1 (put_initial fs hf)
    rw [g2] at hmem
    obtain ⟨f, n, e1, e2, e3⟩ := hp i data sha hmem
    have hlt := (List.getElem?_eq_some_iff.mp e1).1
    refine ⟨f, n, by rw [g1, List.getElem?_append_left hlt]; exact e1, ?_, e3⟩
    rw [pathOf_append g1 hi1.par hlt]; exact e2
  · intro m1 m2 cfg fid f rest _ hi1 hp hc _ hro i data sha hmem
    obtain ⟨l, hl2⟩ := hro.files
    have keep : (∃ f n, m1.files[i]? = some f ∧ W.getFile n (m1.pathOf i) f = .found data sha ∧
        ∀ s hash, sha = some s → f.manifestHash = some hash → s = hash) →
        ∃ f n, m2.files[i]? = some f ∧ W.getFile n (m2.pathOf i) f = .found data sha ∧
        ∀ s hash, sha = some s → f.manifestHash = some hash → s = hash := by
      rintro ⟨f, n, e1, e2, e3⟩
      have hlt := (List.getElem?_eq_some_iff.mp e1).1
      refine ⟨f, n, by rw [hl2, List.getElem?_append_left hlt]; exact e1, ?_, e3⟩
      rw [pathOf_append hl2 hi1.par hlt]; exact e2
    obtain ⟨evs, e1, _, _, e4⟩ := hro.trace
    rw [e1] at hmem
    rcases List.mem_append.mp hmem with hmem | hmem
    · exact keep (hp i data sha hmem)
    · apply keep
      obtain ⟨o1, o2⟩ := hok cfg hc
      rcases e4 (.inl o1) with rfl | rfl | ⟨d, s, rfl, e5, e6⟩
      · simp at hmem
      · simp at hmem
      · simp at hmem
        obtain ⟨rfl, rfl, rfl⟩ := hmem
        exact ⟨f, _, hro.file, e5, e6 o2⟩

/-- **C28, as a fact about contents.** If the FileSeeker always gives, with the data, a hash that binds it
    (`Binds`: for the real FileSeeker, the data is read from a file with that SHA-256), then every object given
    to the validator for a file with a manifest hash is bound to that hash. -/
theorem C28_content_bound (W : World) (T : Bytes → Prop) (ok : Cfg → Prop)
    (hok : ∀ cfg, ok cfg → cfg.notMFT = false ∧ cfg.strictHash = true) (Binds : Bytes → Bytes → Prop)
    (hs : ∀ n p f d s, W.getFile n p f = .found d s → ∃ x, s = some x ∧ Binds x d)
    (m : M) (hl : Life W T ok m) (i : Nat) (data : Bytes) (sha : Option Bytes) (h : Event.added i data sha ∈ m.trace)
    (f : PKIFile) (hf : m.files[i]? = some f) (hash : Bytes) (hh : f.manifestHash = some hash) : Binds hash data := by
  obtain ⟨f', n, h1, h2, h3⟩ := C28_hash_enforced W T ok hok m hl i data sha h
  rw [hf] at h1
  simp at h1
  subst h1
  obtain ⟨x, rfl, hb⟩ := hs _ _ _ _ _ h2
  rw [← h3 x hash rfl hh]
  exact hb

/-- **C28, a mismatch changes nothing but by invalidation.** A round of `Explore` whose file comes with another
    hash than its manifest lists gives nothing to the validator: no object is stored, none becomes valid. -/
theorem C28_mismatch_adds_nothing (W : World) (T : Bytes → Prop) (ok : Cfg → Prop) (m m' : M) (hl : Life W T ok m)
    (cfg : Cfg) (hc : cfg.notMFT = false) (hs : cfg.strictHash = true) (i : Nat) (rest : List Nat) (f : PKIFile)
    (hq : m.queue = i :: rest) (hf : m.files[i]? = some f) (d s hash : Bytes)
    (hg : W.getFile m.clock (m.pathOf i) f = .found d (some s)) (hh : f.manifestHash = some hash) (hne : s ≠ hash)
    (h : m.exploreStep cfg W = .ok m') :
    added m'.trace = added m.trace ∧ m'.v.objects = m.v.objects ∧ m'.v.heap.length = m.v.heap.length ∧
      m'.files = m.files ∧ ∀ k c, IsValid m'.v k c → IsValid m.v k c := by
  unfold M.exploreStep at h
  rw [hq] at h
  simp only [hf] at h
  obtain ⟨m2, h2, h⟩ := Go.bind_eq_ok.mp h
  simp only [Go.pure_def, Go.ok.injEq] at h
  subst h
  obtain ⟨pre, m1, hp, ho, hu⟩ := fetch_round (.inl hc) h2
  have hbad : judged cfg f (answer cfg W { m with queue := rest, trace := m.trace ++ [.taken i] } i f) = .fail := by
    unfold answer
    split
    · rfl
    · show judged cfg f (W.getFile m.clock (m.pathOf i) f) = _
      rw [hg]
      simp [judged, hh, hs, hne]
  rw [hbad] at hu
  rcases useAnswer_cases hu with ⟨_, ho2⟩ | ⟨data, sha', hr', _⟩
  · have ho3 := ho.trans ho2
    obtain ⟨v', ops, rfl, h3, h4⟩ := ho3
    have hinv : ∀ (ops : List Op) (v v' : V), (∀ op ∈ ops, ∃ k, op = .invalidate k) → V.run W.env v ops = .ok v' →
        v'.objects = v.objects ∧ v'.heap = v.heap ∧ ∀ k c, IsValid v' k c → IsValid v k c := by
      intro ops
      induction ops with
      | nil => intro v v' _ h; simp [V.run] at h; subst h; exact ⟨rfl, rfl, fun _ _ h => h⟩
      | cons op r ih =>
        intro v v' ho h
        unfold V.run at h
        obtain ⟨w, hw, hrun⟩ := Go.bind_eq_ok.mp h
        obtain ⟨k, rfl⟩ := ho op (by simp)
        obtain ⟨a1, a2, a3⟩ := ih w v' (fun o h => ho o (by simp [h])) hrun
        have hsp := invalidateObject_spec hw
        obtain ⟨hsame, hrem, hkeep⟩ := hsp
        refine ⟨by rw [a1]; exact hsame.objects, by rw [a2]; exact hsame.heap, ?_⟩
        intro k' c hv
        obtain ⟨j, j1, j2⟩ := a3 k' c hv
        by_cases hrc : Reach v k k'
        · rw [(hrem k' hrc).1] at j1; simp at j1
        · rw [(hkeep k' hrc).1] at j1
          refine ⟨j, j1, ?_⟩
          unfold V.certOf at j2 ⊢
          rw [hsame.heap] at j2
          exact j2
    obtain ⟨b1, b2, b3⟩ := hinv ops _ _ h4 h3
    refine ⟨?_, b1, by rw [b2], rfl, b3⟩
    simp only [added_append]
    rcases hp with ⟨rfl, _⟩ | ⟨rfl, _⟩ <;> simp [added]
  · simp at hr'

/-- In the example `x.roa` has the hash that the manifest of A lists, and it is in the trace. -/
example : Event.added 5 [12] (some [12]) ∈ (doneM (some [7])).trace := by decide +kernel
example : ∃ i, Event.added i [7] (some [7]) ∈ (doneM (some [7])).trace ∧
    (doneM (some [7])).files[i]?.bind (·.manifestHash) = some [7] := ⟨6, by decide +kernel⟩
/-- With another content it is not. -/
example : ∀ i < 10, Event.added i [9] (some [9]) ∉ (doneM (some [9])).trace := by decide +kernel

/-! ## C29 — a missing or altered file invalidates the CA -/

/-- **C29, for files that are explored.** In strict manifest mode, once a file listed in the manifest of a CA
    was taken from the queue and the file cannot be had (missing, or with another hash), the CA certificate of
    that manifest and everything certified below it is not valid, now and later, in whatever order things come.
    What is missing: a file is taken only once per path; if another manifest listed the same path before, the
    second CA escapes (`C29_violated_second_listing`). -/
theorem C29_listed_partial (W : World) (T : Bytes → Prop) (hT : WTrust W T) (ok : Cfg → Prop)
    (hok : ∀ cfg, ok cfg → cfg.notMFT = false ∧ cfg.strictManifests = true ∧ cfg.strictHash = true)
    (m : M) (hl : Life W T ok m) (i : Nat) (f : PKIFile) (p g : Nat) (hli : Listed m i f p g)
    (ht : i ∈ taken m.trace) (hn : NeverGood W (m.pathOf i) f) :
    ∃ c d sha, Event.added g d sha ∈ m.trace ∧ W.env.parseCert d = .ok c ∧
      ∀ x, CertifiedBelow T m.v c.ski x → ∀ c', ¬ IsValid m.v x c' := by
  obtain ⟨v, hv, hl⟩ := hl
  have hr : Reachable W.env T m.v := (later_vrun hT (minv_new v) hl).reachable hv
  obtain ⟨_, hg⟩ := later_gone hok (minv_new v) (reachable_mono (T' := fun _ => True) (by simp) hv)
    (by intro i f p pf h; simp [M.new] at h) (by intro i f p g h; have := h.file; simp [M.new] at this) hl
  obtain ⟨c, d, sha, h1, h2, _, h4⟩ := hg i f p g hli ht hn
  refine ⟨c, d, sha, h1, h2, ?_⟩
  intro x hx
  induction hx with
  | self => rintro c' ⟨j, j1, _⟩; rw [h4] at j1; simp at j1
  | step k' c1 hs hnt _ ih =>
    intro c' hv'
    obtain ⟨_, j, j1, j2⟩ := isValid_inv (reachable_inv hr) hv'
    obtain ⟨j', j1', j2'⟩ := hs
    rw [j1] at j1'
    simp at j1'
    subst j1'
    rw [j2] at j2'
    simp at j2'
    subst j2'
    obtain ⟨pp, hp⟩ := C15_issuer_valid W.env T m.v hr k' _ hv' hnt
    exact ih pp hp

/-- **C29, when exploration has ended**, for every listed file whose path no other file shares. -/
theorem C29_explored_partial (W : World) (T : Bytes → Prop) (hT : WTrust W T) (ok : Cfg → Prop)
    (hok : ∀ cfg, ok cfg → cfg.notMFT = false ∧ cfg.strictManifests = true ∧ cfg.strictHash = true)
    (m m' : M) (hl : Life W T ok m) (cfg : Cfg) (hc : ok cfg) (fuel n : Nat)
    (h : m.explore cfg W fuel = .ok (m', n)) (i : Nat) (f : PKIFile) (p g : Nat) (hli : Listed m' i f p g)
    (hent : i ∈ entered m') (hn : NeverGood W (m'.pathOf i) f) :
    ∃ c d sha, Event.added g d sha ∈ m'.trace ∧ W.env.parseCert d = .ok c ∧
      ∀ x, CertifiedBelow T m'.v c.ski x → ∀ c', ¬ IsValid m'.v x c' := by
  have ht := C26_all_taken W T ok m m' cfg hc fuel n hl h
  exact C29_listed_partial W T hT ok hok m' (explore_life hc hl h).1 i f p g hli (by rw [ht]; exact hent) hn

/-- The example meets the hypotheses when `x.roa` is missing: A is not valid, the trust anchor is. -/
example : Listed (doneM none) 6 ⟨some 4, [], nX, .roa, false, some [7]⟩ 4 2 :=
  ⟨by decide +kernel, rfl, ⟨⟨some 2, dirS, nMA, .mft, false, none⟩, by decide +kernel, rfl, rfl⟩,
    ⟨⟨some 1, [], nA, .cer, false, some [2]⟩, by decide +kernel, rfl⟩⟩
example : 6 ∈ taken (doneM none).trace ∧ (doneM none).v.validObjects.get [2] = none ∧
    ((doneM none).v.validObjects.get [1]).isSome = true ∧ ((doneM none).v.objects.get [2]).isSome = true := by
  decide +kernel
example : NeverGood (worldM none) ((doneM none).pathOf 6) ⟨some 4, [], nX, .roa, false, some [7]⟩ :=
  fun _ => .inr (.inl (by
    have h : (doneM none).pathOf 6 = dirS ++ 47 :: nX := by decide +kernel
    rw [h]
    show repoOf none (dirS ++ 47 :: nX) = _
    decide +kernel))
theorem wtrust_worldM (x : Option Bytes) : WTrust (worldM x) (fun k => k = [1] ∨ k = [2] ∨ k = [3]) := by
  constructor
  · intro n path f data sha c _ _ h
    simp only [worldM, envM] at h
    repeat' split at h
    all_goals first
      | (simp only [Go.ok.injEq] at h; subst h; simp [caTA, caA, caB, mkCA, mkCert])
      | simp at h
  · intro n f call h; simp [worldM] at h

/-- **C29 is false for a second listing.** Two CAs under one trust anchor, A and B, list the same path in their
    manifests, B with a hash that the file does not have. After a complete strict exploration the file was
    explored for A only, and B is still valid although a file on its manifest can never be had. -/
theorem C29_violated_second_listing :
    ∃ (W : World) (m : M) (n : Nat), startM.explore cfgS W 20 = .ok (m, n) ∧ m.queue = [] ∧
      Life W (fun k => k = [1]) (fun c => c = cfgS) m ∧
      ∃ i f p g, Listed m i f p g ∧ NeverGood W (m.pathOf i) f ∧ Event.added g [3] (some [3]) ∈ m.trace ∧
        W.env.parseCert [3] = .ok caB ∧ IsValid m.v [3] caB := by
  obtain ⟨n, hn⟩ := doneM_ok (some [7]) (by decide +kernel)
  obtain ⟨h1, h2⟩ := doneM_life (some [7]) (by decide +kernel) (fun c => c = cfgS) rfl
  refine ⟨worldM (some [7]), doneM (some [7]), n, hn, h2, h1, 7, ⟨some 5, [], nX, .roa, false, some [8]⟩, 5, 3, ?_, ?_,
    by decide +kernel, by decide +kernel, ?_⟩
  · exact ⟨by decide +kernel, rfl, ⟨⟨some 3, dirS, nMB, .mft, false, none⟩, by decide +kernel, rfl, rfl⟩,
      ⟨⟨some 1, [], nB, .cer, false, some [3]⟩, by decide +kernel, rfl⟩⟩
  · intro k
    refine .inr (.inr ⟨[7], [7], [8], ?_, rfl, by decide⟩)
    have h : (doneM (some [7])).pathOf 7 = dirS ++ 47 :: nX := by decide +kernel
    rw [h]
    show repoOf (some [7]) (dirS ++ 47 :: nX) = _
    decide +kernel
  · exact ⟨4, by decide +kernel⟩

/-! ## C68 — no operation of the validator hangs -/

/-- **C68.** In every state that the validator reaches, every operation on every input ends (with a result, an
    error or a crash), provided the decoders do; also with resource chains and child lists of any shape. -/
theorem C68_no_hang (env : Env) (hd : Decodes env) (T : Bytes → Prop) (v : V) (hr : Reachable env T v) (op : Op) :
    v.step env op ≠ .diverge := by
  have hp := (reachable_inv hr).par
  cases op with
  | addTAL t => exact nd_ok _
  | addCert c trust => exact ND.bind (nd_addCert hp env c trust) (fun _ _ => nd_pure _)
  | addROA file r => exact ND.bind (nd_addROA hp env file r) (fun _ _ => nd_pure _)
  | addManifest file m => exact ND.bind (nd_addManifest hp env file m) (fun _ _ => nd_pure _)
  | addCRL l => exact ND.bind (nd_addCRL env v l) (fun _ _ => nd_pure _)
  | invalidate k => exact nd_invalidate v k
  | addResource files fid data => exact ND.bind (nd_addResource hp hd files fid data) (fun _ _ => nd_pure _)

example : Decodes envM ∧ Reachable envM (fun k => k = [1]) V.new := ⟨decodes_envM, [], by simp, rfl⟩

/-! ## C69 — what a certificate points to -/

/-- The last access location of a kind. -/
def lastSIA (k : SIAKind) (c : Pki.Cert) : Option Bytes := ((c.sia.filter (fun e => decide (e.1 = k))).getLast?).map (·.2)

theorem siaLoop_eq : ∀ (l : List (SIAKind × Bytes)) (s : Option Bytes × Bytes),
    siaLoop l s = ((((l.filter (fun e => decide (e.1 = .manifest))).getLast?).map (·.2)).or s.1,
      (((l.filter (fun e => decide (e.1 = .caRepository))).getLast?).map (·.2)).getD s.2) := by
  intro l
  induction l with
  | nil => intro s; simp [siaLoop]
  | cons e r ih =>
    intro s
    obtain ⟨k, n⟩ := e
    cases k
    all_goals
      simp only [siaLoop, ih, List.filter_cons]
      simp [List.getLast?_cons]
    · cases List.find? (fun e => decide (e.1 = SIAKind.manifest)) r.reverse <;> rfl
    · cases List.find? (fun e => decide (e.1 = SIAKind.caRepository)) r.reverse <;> rfl

/-- **C69.** The files found in a certificate are exactly: one CRL file for each CRL distribution point, and
    one manifest file if the certificate names a manifest; each with the certificate's repository (the empty
    one if it names none), without trust and without a hash. The last access description of a kind counts. -/
theorem C69_certificate_files (c : Pki.Cert) (f : PKIFile) :
    f ∈ extractPathCert c ↔
      f.repo = (lastSIA .caRepository c).getD [] ∧ f.parent = none ∧ f.trust = false ∧ f.manifestHash = none ∧
      ((f.type = .crl ∧ f.path ∈ c.crlDPs) ∨ (f.type = .mft ∧ lastSIA .manifest c = some f.path)) := by
  unfold extractPathCert lastSIA
  simp only [siaLoop_eq, Option.or_none]
  generalize (Option.map (·.2) ((c.sia.filter (fun e => decide (e.1 = SIAKind.manifest))).getLast?)) = a
  generalize (Option.map (·.2) ((c.sia.filter (fun e => decide (e.1 = SIAKind.caRepository))).getLast?)) = b
  obtain ⟨par, repo, path, ty, tr, mh⟩ := f
  simp only [List.mem_append, List.mem_map, PKIFile.mk.injEq]
  constructor
  · rintro (⟨p, h1, rfl, rfl, rfl, rfl, rfl, rfl⟩ | h)
    · simp [h1]
    · cases a with
      | none => simp at h
      | some x => simp at h; obtain ⟨rfl, rfl, rfl, rfl, rfl, rfl⟩ := h; simp
  · rintro ⟨rfl, rfl, rfl, rfl, ⟨rfl, h⟩ | ⟨rfl, h⟩⟩
    · exact .inl ⟨path, h, by simp⟩
    · right; rw [h]; simp

/-- **C69, one file per pointer.** There are as many files as distribution points and manifest pointers. -/
theorem C69_count (c : Pki.Cert) :
    (extractPathCert c).length = c.crlDPs.length + (lastSIA .manifest c).toList.length := by
  unfold extractPathCert lastSIA
  simp only [siaLoop_eq, Option.or_none]
  cases (Option.map (·.2) ((c.sia.filter (fun e => decide (e.1 = SIAKind.manifest))).getLast?)) <;> simp

example : extractPathCert caA = [⟨none, dirS, nMA, .mft, false, none⟩] := by decide +kernel

/-! ## C70 — a manifest outside its validity window invalidates its CA -/

/-- **C70, stale or not yet valid.** In strict hash mode, when a file listed with a hash in the manifest `mft` of the CA
    certificate `ca` is received while the clock is after the manifest's `nextUpdate` or before its `thisUpdate`, the CA
    certificate is not valid afterwards, whatever the file is, and in no later state. -/
theorem C70_stale_manifest (W : World) (T : Bytes → Prop) (hT : WTrust W T) (ok : Cfg → Prop) (m m' m2 : M) (hl : Life W T ok m)
    (cfg : Cfg) (hc : cfg.notMFT = false) (hs : cfg.strictHash = true) (i : Nat) (rest : List Nat) (f : PKIFile) (p g : Nat)
    (hq : m.queue = i :: rest) (hli : Listed m i f p g) (hash d sha : Bytes) (hh : f.manifestHash = some hash)
    (hsk : cfg.hasSeeker = true) (hne : m.pathOf i ∉ m.explored)
    (hg : W.getFile m.clock (m.pathOf i) f = .found d (some sha))
    (r rg : Nat) (res : Res) (mft : Mft) (ca : Pki.Cert)
    (hr1 : m.resOf.lookup p = some (some r)) (hr2 : m.v.heap[r]? = some res) (hr3 : res.data = .mft mft)
    (hg1 : m.resOf.lookup g = some (some rg)) (hg2 : m.v.certOf rg = some ca) (hst : (m.v.objects.get ca.ski).isSome = true)
    (hstale : W.now1 m.clock > mft.nextUpdate ∨ W.now2 m.clock < mft.thisUpdate)
    (h : m.exploreStep cfg W = .ok m') (hlater : Later W ok m' m2) :
    ∀ c, ¬ IsValid m2.v ca.ski c := by
  have hi := minv_life hl
  have hreach : Reachable W.env (fun _ => True) m.v := by
    obtain ⟨v, hv, hlt⟩ := hl
    exact reachable_mono (by simp) ((later_vrun hT (minv_new v) hlt).reachable hv)
  obtain ⟨pf, p1, p2, p3⟩ := hli.manifest
  obtain ⟨gf, hgc⟩ := grandCer_listed hli
  obtain ⟨_, _, _, hr0⟩ := round_ok hi h
  unfold M.exploreStep at h
  rw [hq] at h
  simp only [hli.file] at h
  obtain ⟨m3, h3, h⟩ := Go.bind_eq_ok.mp h
  simp only [Go.pure_def, Go.ok.injEq] at h
  unfold M.handle at h3
  rw [if_pos (.inl hc)] at h3
  simp only [] at h3
  obtain ⟨x, hx, h4⟩ := Go.bind_eq_ok.mp h3
  have hnf : ({ m with queue := rest, trace := m.trace ++ [.taken i] } : M).getNextFile cfg W i f =
      ({ m with queue := rest, trace := m.trace ++ [.taken i] ++ [.fetched i] }, .found d (some sha)) := by
    unfold M.getNextFile
    rw [if_neg (show ¬ ({ m with queue := rest, trace := m.trace ++ [.taken i] } : M).pathOf i ∈ m.explored from hne), if_pos hsk]
    rw [← hg]
    rfl
  rw [hnf] at hx
  generalize hmx : ({ m with queue := rest, trace := m.trace ++ [.taken i] ++ [.fetched i] } : M) = mx at hx
  have ev : mx.v = m.v := by rw [← hmx]
  have ef : mx.files = m.files := by rw [← hmx]
  have er : mx.resOf = m.resOf := by rw [← hmx]
  have ec : mx.clock = m.clock := by rw [← hmx]
  unfold M.checkHash at hx
  simp only [hh, hs, if_true] at hx
  obtain ⟨m4, hm4, hx⟩ := Go.bind_eq_ok.mp hx
  have ho4 := onlyV_checkExpired (W := W) hm4
  -- the check invalidates the CA
  have hgone : m4.v.validObjects.get ca.ski = none := by
    unfold M.checkExpired at hm4
    rw [hli.parent] at hm4
    simp only [ef, p1, p2, if_true, er, hr1, Option.bind_some, id, ev, hr2, hr3, ec, hstale] at hm4
    unfold M.invalidateManifestParent at hm4
    have : mx.grandCer f .mft = some (g, gf) := by unfold M.grandCer at hgc ⊢; rw [ef]; exact hgc
    rw [this] at hm4
    simp only [er, hg1, Option.bind_some, id] at hm4
    unfold M.invalidateRes at hm4
    simp only [ev, hg2] at hm4
    obtain ⟨v, hv, hm4⟩ := Go.bind_eq_ok.mp hm4
    simp at hm4
    subst hm4
    exact invalidated_gone hv
  have hx1 : x.1 = m4 := by
    split at hx <;> simp at hx <;> rw [← hx]
  have hsome4 : (m4.v.objects.get ca.ski).isSome = true := by
    obtain ⟨j, hj⟩ := Option.isSome_iff_exists.mp hst
    rw [(onlyV_frame ho4 (by rw [ev]; exact hreach)).obj _ _ (by rw [ev]; exact hj)]
    rfl
  have hreach4 : Reachable W.env (fun _ => True) m4.v := ho4.vrun.reachable (by rw [ev]; exact hreach)
  rw [hx1] at h4
  -- the rest of the round, and what comes later, does not bring it back
  have hframe : Frame (fun _ => True) m4.v m3.v := by
    rcases useAnswer_cases h4 with ⟨_, ho⟩ | ⟨data, sha', _, he⟩
    · exact onlyV_frame ho hreach4
    · unfold M.exploreAdd at he
      obtain ⟨a, ha, he⟩ := Go.bind_eq_ok.mp he
      have hv3 : m3.v = a.1 := by
        simp only [] at he
        split at he
        · simp at he
          rw [← he]
          show (M.putFiles _ _).v = _
          have : ∀ (l : List PKIFile) (k : M), (k.putFiles l).v = k.v := by
            intro l
            induction l with
            | nil => intro k; rfl
            | cons q l ih =>
              intro k
              show (M.putFiles (k.put1 q) l).v = _
              rw [ih]
              unfold M.put1
              simp only []
              split <;> rfl
          rw [this]
        · simp at he; rw [← he]
      rw [hv3]
      have hf4 : m4.files[i]? = some f := by
        rw [(onlyV_fields ho4).1, ef]; exact hli.file
      have hvr := vrun_add (T := fun _ => True) (v' := a.1) (a := a.2) hf4 (by intros; trivial) ha
      exact (hvr.good (reachable_inv hreach4)).2
  have hsome3 : (m3.v.objects.get ca.ski).isSome = true := by
    obtain ⟨j, hj⟩ := Option.isSome_iff_exists.mp hsome4
    rw [hframe.obj _ _ hj]
    rfl
  have hgone3 := hframe.gone hsome4 hgone
  have e' : m'.v = m3.v := by rw [← h]
  have hi' : MInv m' := hr0.inv
  have hreach3 : Reachable W.env (fun _ => True) m'.v := (hr0.vrun _ (wtrust_all W)).reachable hreach
  have hfl := ((later_vrun (wtrust_all W) hi' hlater).good (reachable_inv hreach3)).2
  rw [e'] at hfl
  rintro c ⟨j, hj, _⟩
  rw [hfl.gone hsome3 hgone3] at hj
  simp at hj

/-- **C70, current.** If the clock is inside the window and the hash is the listed one, all that happens to the
    validator is that the file is added to it. -/
theorem C70_current_manifest (W : World) (m m' : M) (cfg : Cfg) (hc : cfg.notMFT = false) (hs : cfg.strictHash = true)
    (i : Nat) (rest : List Nat) (f : PKIFile) (p g : Nat)
    (hq : m.queue = i :: rest) (hli : Listed m i f p g) (hash d : Bytes) (hh : f.manifestHash = some hash)
    (hsk : cfg.hasSeeker = true) (hne : m.pathOf i ∉ m.explored)
    (hg : W.getFile m.clock (m.pathOf i) f = .found d (some hash))
    (r : Nat) (res : Res) (mft : Mft)
    (hr1 : m.resOf.lookup p = some (some r)) (hr2 : m.v.heap[r]? = some res) (hr3 : res.data = .mft mft)
    (hcur : W.now1 m.clock ≤ mft.nextUpdate ∧ mft.thisUpdate ≤ W.now2 m.clock)
    (h : m.exploreStep cfg W = .ok m') :
    ∃ a, m.v.addResource W.env m.files i d = .ok (m'.v, a) := by
  obtain ⟨pf, p1, p2, p3⟩ := hli.manifest
  unfold M.exploreStep at h
  rw [hq] at h
  simp only [hli.file] at h
  obtain ⟨m3, h3, h⟩ := Go.bind_eq_ok.mp h
  simp only [Go.pure_def, Go.ok.injEq] at h
  unfold M.handle at h3
  rw [if_pos (.inl hc)] at h3
  simp only [] at h3
  obtain ⟨x, hx, h4⟩ := Go.bind_eq_ok.mp h3
  have hnf : ({ m with queue := rest, trace := m.trace ++ [.taken i] } : M).getNextFile cfg W i f =
      ({ m with queue := rest, trace := m.trace ++ [.taken i] ++ [.fetched i] }, .found d (some hash)) := by
    unfold M.getNextFile
    rw [if_neg (show ¬ ({ m with queue := rest, trace := m.trace ++ [.taken i] } : M).pathOf i ∈ m.explored from hne), if_pos hsk]
    rw [← hg]
    rfl
  rw [hnf] at hx
  generalize hmx : ({ m with queue := rest, trace := m.trace ++ [.taken i] ++ [.fetched i] } : M) = mx at hx
  have ev : mx.v = m.v := by rw [← hmx]
  have ef : mx.files = m.files := by rw [← hmx]
  have er : mx.resOf = m.resOf := by rw [← hmx]
  have ec : mx.clock = m.clock := by rw [← hmx]
  unfold M.checkHash at hx
  simp only [hh, hs, if_true] at hx
  obtain ⟨m4, hm4, hx⟩ := Go.bind_eq_ok.mp hx
  have hno : ¬ (W.now1 m.clock > mft.nextUpdate ∨ W.now2 m.clock < mft.thisUpdate) := by omega
  unfold M.checkExpired at hm4
  rw [hli.parent] at hm4
  simp only [ef, p1, p2, if_true, er, hr1, Option.bind_some, id, ev, hr2, hr3, ec, hno, if_false] at hm4
  simp at hm4 hx
  subst hm4 hx
  simp only [] at h4
  unfold M.useAnswer at h4
  simp only [] at h4
  unfold M.exploreAdd at h4
  obtain ⟨a, ha, he⟩ := Go.bind_eq_ok.mp h4
  rw [ev, ef] at ha
  refine ⟨a.2, ?_⟩
  rw [ha]
  have hv3 : m3.v = a.1 := by
    simp only [] at he
    split at he
    · simp at he
      rw [← he]
      show (M.putFiles _ _).v = _
      have : ∀ (l : List PKIFile) (k : M), (k.putFiles l).v = k.v := by
        intro l
        induction l with
        | nil => intro k; rfl
        | cons q l ih =>
          intro k
          show (M.putFiles (k.put1 q) l).v = _
          rw [ih]
          unfold M.put1
          simp only []
          split <;> rfl
      rw [this]
    · simp at he; rw [← he]
  rw [← h]
  simp [hv3]

/-- The repository at the time `t`; the manifests are valid from 0 to 100. -/
def worldT (t : Int) : World := { worldM (some [7]) with now1 := fun _ => t, now2 := fun _ => t }

/-- The state after `n` rounds. -/
def afterT (t : Int) : Nat → Option M
  | 0 => some startM
  | n + 1 => (afterT t n).bind (fun m => match m.exploreStep cfgS (worldT t) with | .ok m' => some m' | _ => none)

/-- After two rounds `a.cer`, listed in the manifest of the trust anchor, is next; all hypotheses of C70 hold, and with
    the clock at 101 or -1 the trust anchor is no longer valid after the third round, at 100 and 0 it is. -/
example : (afterT 101 2).map (fun m => (m.queue, m.files[2]?.bind (·.manifestHash), m.files[2]?.bind (·.parent))) =
    some ([2, 3], some [2], some 1) := by decide +kernel
example : (afterT 101 2).map (fun m => (m.files[1]?.bind (·.parent), decide (m.pathOf 2 ∈ m.explored),
      (m.resOf.lookup 1).bind id, (m.resOf.lookup 0).bind id)) = some (some 0, false, some 2, some 0) := by decide +kernel
example : [101, 100, 0, -1].map (fun t => (afterT t 3).map (fun m => (m.v.validObjects.get [1]).isSome)) =
    [some false, some true, some true, some false] := by decide +kernel

end Verif.Props
