import Verif.Spec.RrdpState
import Verif.Props.Sync
import Mathlib.Logic.Encodable.Basic
import Mathlib.Logic.Equiv.List
/-
  C89: the positions kept for RRDP over rounds, crashes and restarts.
-/
set_option autoImplicit false

namespace Verif.Props
open Path Rrdp Cache SyncSpec Fetch RrdpState

/-- Every entry of the map is a position that a fetch for its rsync module reached. -/
def Known (log : List Ev) (m : Info) : Prop :=
  ∀ k s n, m.lookup k = some (s, n) → ∃ j, j.rsync = k ∧ Ev.reached j s n ∈ log

theorem known_mono {log more : List Ev} {m : Info} (h : Known log m) : Known (log ++ more) m := by
  intro k s n hk
  obtain ⟨j, h1, h2⟩ := h k s n hk
  exact ⟨j, h1, List.mem_append_left _ h2⟩

structure KeptInv (C : Codec) (s : St) : Prop where
  mem : ∃ m, s.mem = some m ∧ Known s.log m
  file : ∀ b, s.file = some b → ∃ m n, Known s.log m ∧ b = (C.marshal m).take n
  started : ∀ a b j S n, s.log = a ++ Ev.started j S n :: b →
    (S = [] ∧ n = 0) ∨ ∃ j', j'.rsync = j.rsync ∧ Ev.reached j' S n ∈ a

theorem known_load {C : Codec} {Fit : Bytes → Bytes → Int → Prop} (hC : Lawful C Fit) {log : List Ev} {m : Info} {n : Nat}
    (hf : AllFit Fit log) (hk : Known log m) :
    ∃ m', (C.unmarshal ((C.marshal m).take n)).1 = some m' ∧ Known log m' := by
  by_cases hn : n < (C.marshal m).length
  · refine ⟨[], by rw [hC.cut m n hn], ?_⟩
    intro k s n h
    simp at h
  · rw [List.take_of_length_le (by omega)]
    obtain ⟨m', h1, h2⟩ := hC.round m (by
      intro k s n h
      obtain ⟨j, rfl, h2⟩ := hk k s n h
      exact hf j s n h2)
    refine ⟨m', by rw [h1], ?_⟩
    intro k s n h
    rw [h2] at h
    exact hk k s n h

theorem started_append {log : List Ev} {e : Ev} (he : ∀ j S n, e ≠ .started j S n)
    (h : ∀ a b j S n, log = a ++ Ev.started j S n :: b → (S = [] ∧ n = 0) ∨ ∃ j', j'.rsync = j.rsync ∧ Ev.reached j' S n ∈ a) :
    ∀ a b j S n, log ++ [e] = a ++ Ev.started j S n :: b →
      (S = [] ∧ n = 0) ∨ ∃ j', j'.rsync = j.rsync ∧ Ev.reached j' S n ∈ a := by
  intro a b j S n hab
  rcases List.eq_nil_or_concat b with rfl | ⟨b', x, rfl⟩
  · have := List.append_inj' hab rfl
    simp at this
    exact absurd this.2 (he j S n)
  · rw [List.concat_eq_append, ← List.cons_append, ← List.append_assoc] at hab
    exact h a b' j S n (List.append_inj' hab rfl).1

theorem keptInv_step {C : Codec} {Fit : Bytes → Bytes → Int → Prop} (hC : Lawful C Fit) {s t : St} (hi : KeptInv C s)
    (hf : AllFit Fit s.log) (h : Step C s t) : KeptInv C t := by
  obtain ⟨m, hm, hk⟩ := hi.mem
  cases h with
  | load seen hb =>
    cases seen with
    | none => exact ⟨⟨m, by simp [RrdpState.load, hm], hk⟩, hi.file, hi.started⟩
    | some b =>
      obtain ⟨m1, n, h1, rfl⟩ := hi.file b (by rcases hb with hb | hb; exact hb.symm; cases hb)
      obtain ⟨m2, h2, h3⟩ := known_load hC (n := n) hf h1
      exact ⟨⟨m2, by simp [RrdpState.load, h2], h3⟩, hi.file, hi.started⟩
  | begin j =>
    refine ⟨⟨m, hm, known_mono hk⟩, ?_, ?_⟩
    · intro b hb
      obtain ⟨m1, n, h1, h2⟩ := hi.file b hb
      exact ⟨m1, n, known_mono h1, h2⟩
    · intro a b j' S n hab
      rcases List.eq_nil_or_concat b with rfl | ⟨b', x, rfl⟩
      · have := List.append_inj' hab rfl
        simp only [List.cons.injEq, Ev.started.injEq, and_true] at this
        obtain ⟨rfl, rfl, rfl, rfl⟩ := this
        simp only [hm, getInfo, Option.getD_some, newSys]
        cases hl : m.lookup j.rsync with
        | none => exact .inl ⟨rfl, rfl⟩
        | some q =>
          obtain ⟨S, n⟩ := q
          obtain ⟨j', h1, h2⟩ := hk _ _ _ hl
          exact .inr ⟨j', h1, h2⟩
      · rw [List.concat_eq_append, ← List.cons_append, ← List.append_assoc] at hab
        exact hi.started a b' j' S n (List.append_inj' hab rfl).1
  | fail i => exact ⟨⟨m, hm, hk⟩, hi.file, hi.started⟩
  | succeed i j sys sys' m' h hf' hset =>
    simp only [hm, setInfo, Go.ok.injEq] at hset
    subst hset
    refine ⟨⟨_, rfl, ?_⟩, ?_, started_append (by simp) hi.started⟩
    · intro k S n hl
      by_cases hkj : k = j.rsync
      · subst hkj
        simp at hl
        obtain ⟨rfl, rfl⟩ := hl
        exact ⟨j, rfl, by simp⟩
      · have : (k == j.rsync) = false := by simpa using hkj
        simp only [List.lookup_cons, this] at hl
        obtain ⟨j', h1, h2⟩ := hk k S n hl
        exact ⟨j', h1, List.mem_append_left _ h2⟩
    · intro b hb
      obtain ⟨m1, n, h1, h2⟩ := hi.file b hb
      exact ⟨m1, n, known_mono h1, h2⟩
  | save w =>
    refine ⟨⟨m, hm, hk⟩, ?_, hi.started⟩
    intro b hb
    simp only [RrdpState.save, hm, getInfo, Option.getD_some] at hb
    cases w with
    | all =>
      simp at hb
      exact ⟨m, (C.marshal m).length, hk, by rw [← hb, List.take_length]⟩
    | nothing => exact hi.file b hb
    | cut n =>
      simp at hb
      exact ⟨m, n, hk, hb.symm⟩
  | kill => exact ⟨⟨[], rfl, fun k s n h => by simp at h⟩, hi.file, hi.started⟩

theorem step_log {C : Codec} {s t : St} (h : Step C s t) : ∃ more, t.log = s.log ++ more := by
  cases h with
  | begin j => exact ⟨_, rfl⟩
  | succeed i j sys sys' m' h hf' hset => exact ⟨_, rfl⟩
  | _ => exact ⟨[], by simp⟩

theorem keptInv_steps {C : Codec} {Fit : Bytes → Bytes → Int → Prop} (hC : Lawful C Fit) {s : St}
    (h : Steps C (St.boot none) s) (hf : AllFit Fit s.log) : KeptInv C s := by
  induction h with
  | refl =>
    refine ⟨⟨[], rfl, fun k s n h => by simp at h⟩, ?_, ?_⟩
    · intro b hb; simp [St.boot] at hb
    · intro a b j S n hab; simp [St.boot] at hab
  | tail h1 h2 ih =>
    obtain ⟨more, hl⟩ := step_log h2
    have hf' : AllFit Fit _ := fun j s n hm => hf j s n (by rw [hl]; exact List.mem_append_left _ hm)
    exact keptInv_step hC (ih hf') hf' h2

/-- **C89** (partial: for the rsync module, not for the endpoint, see below). Over any history of rounds with overlapping fetches, with crashes and restarts at any point, with a file that could not be read,
    was written or cut short at any time: a fetch starts from nothing (and then takes the snapshot), or from a session
    and serial that an earlier successful fetch for the same rsync module reached. So no delta is skipped because a position
    was kept that was not reached. -/
theorem C89_position_was_reached_partial (C : Codec) (Fit : Bytes → Bytes → Int → Prop) (hC : Lawful C Fit) (s : St)
    (h : Steps C (St.boot none) s) (hf : AllFit Fit s.log) (before after : List Ev) (j : RrdpJob) (S : Bytes) (n : Int)
    (hs : s.log = before ++ .started j S n :: after) :
    (S = [] ∧ n = 0) ∨ ∃ j', j'.rsync = j.rsync ∧ Ev.reached j' S n ∈ before :=
  (keptInv_steps hC h hf).started before after j S n hs

/-- **C89.** In the same histories the end of a successful fetch never panics: the map is never nil. -/
theorem C89_no_panic (C : Codec) (Fit : Bytes → Bytes → Int → Prop) (hC : Lawful C Fit) (s : St)
    (h : Steps C (St.boot none) s) (hf : AllFit Fit s.log) (rsync session : Bytes) (serial : Int) :
    ∃ m, setInfo s.mem rsync session serial = .ok m := by
  obtain ⟨m, hm, -⟩ := (keptInv_steps hC h hf).mem
  exact ⟨_, by rw [hm]; rfl⟩

/-- **C89.** A position of the log is what a server announced: the session is the announced one, and so is the serial, unless
    the fetch started within this session from a later serial, which it then keeps. -/
theorem C89_reached_was_announced (s s' : Sys) (h : Fetched s s') :
    ∃ (W : World) (n : Notification), (W.getXML 0 s.path).bind W.parseRoot = some n ∧ s'.sessionID = n.sessionID ∧
      (s'.serial = n.serial ∨ (s'.sessionID = s.sessionID ∧ n.serial < s.serial ∧ s'.serial = s.serial)) := by
  obtain ⟨σ, W, cb, st, r, h⟩ := h
  obtain ⟨n, h1, _, h2, h3⟩ := C34_success W cb s s' st r h
  exact ⟨W, n, h1, h2, h3⟩

theorem fetchJob_spec {W : World} {os : OS} {base : Bytes} {domainOf : Bytes → Option Bytes} {j : RrdpJob} {fs fs' : FS}
    {mem mem' : Option Info} {b : Bool} (h : fetchJob W os base domainOf j fs mem = .ok (fs', mem', b)) :
    ∃ s' r, Rrdp.fetchRRDP W (callback os base ((domainOf j.path).getD [])) (newSys (getInfo mem) j.path j.rsync) ⟨fs, [], []⟩ =
        .ok (s', r, b) ∧ fs' = r.st ∧
      (b = false → mem' = mem) ∧
      (b = true → ∃ m, mem = some m ∧ mem' = some ((j.rsync, s'.sessionID, s'.serial) :: m)) := by
  unfold fetchJob at h
  obtain ⟨⟨s', r, b'⟩, hx, h⟩ := Go.bind_eq_ok.mp h
  cases b' with
  | false =>
    simp at h
    obtain ⟨rfl, rfl, rfl⟩ := h
    exact ⟨s', r, hx, rfl, fun _ => rfl, by simp⟩
  | true =>
    simp only [if_true] at h
    obtain ⟨m, hm, h⟩ := Go.bind_eq_ok.mp h
    simp at h
    obtain ⟨rfl, rfl, rfl⟩ := h
    cases mem with
    | none => simp [setInfo] at hm
    | some m0 =>
      simp [setInfo] at hm
      exact ⟨s', r, hx, rfl, by simp, fun _ => ⟨m0, rfl, hm.symm⟩⟩

theorem newSys_congr {i i' : Info} {path rsync : Bytes} (h : i.lookup rsync = i'.lookup rsync) :
    newSys i path rsync = newSys i' path rsync := by
  unfold newSys
  rw [h]

/-- **C89.** After a round whose save was complete, the next round of this process, or of one started later, begins with the
    positions that this round ended with. -/
theorem C89_next_round (C : Codec) (Fit : Bytes → Bytes → Int → Prop) (hC : Lawful C Fit) (readable : Bool)
    (W : RrdpJob → World) (os : OS) (base : Bytes) (domainOf : Bytes → Option Bytes) (jobs : List RrdpJob)
    (fs fs' : FS) (mem mem' : Option Info) (file file' : Option Bytes)
    (h : doRRDP C true readable .all W os base domainOf jobs fs mem file = .ok (fs', mem', file'))
    (hf : ∀ k s n, (getInfo mem').lookup k = some (s, n) → Fit k s n) (anyMem : Option Info) (path rsync : Bytes) :
    newSys (getInfo (load C file' anyMem)) path rsync = newSys (getInfo mem') path rsync := by
  unfold doRRDP at h
  obtain ⟨⟨fs1, mem1⟩, hx, h⟩ := Go.bind_eq_ok.mp h
  simp [RrdpState.save] at h
  obtain ⟨rfl, rfl, rfl⟩ := h
  obtain ⟨m', h1, h2⟩ := hC.round (getInfo mem1) hf
  apply newSys_congr
  simp only [RrdpState.load, h1]
  exact h2 rsync

/-- **C89.** After a round with one endpoint, however its save ended, the next round finds for the module one of three positions:
    the one that a successful fetch of this round reached, the one that this round started from, or none. -/
theorem C89_one_of_three (C : Codec) (Fit : Bytes → Bytes → Int → Prop) (hC : Lawful C Fit) (w : Wrote)
    (W : World) (os : OS) (base : Bytes) (domainOf : Bytes → Option Bytes) (j : RrdpJob)
    (fs fs' : FS) (mem mem' : Option Info) (file file' : Option Bytes) (hfile : file ≠ none)
    (h : doRRDP C true true w (fun _ => W) os base domainOf [j] fs mem file = .ok (fs', mem', file'))
    (hf : ∀ k s n, (getInfo mem').lookup k = some (s, n) → Fit k s n) (anyMem : Option Info) :
    ∃ (s s' : Sys) (r : R FS) (b : Bool), s = newSys (getInfo (load C file mem)) j.path j.rsync ∧
      Rrdp.fetchRRDP W (callback os base ((domainOf j.path).getD [])) s ⟨fs, [], []⟩ = .ok (s', r, b) ∧ fs' = r.st ∧
      (newSys (getInfo (load C file' anyMem)) j.path j.rsync = s ∨
       (b = true ∧ newSys (getInfo (load C file' anyMem)) j.path j.rsync = s') ∨
       newSys (getInfo (load C file' anyMem)) j.path j.rsync = ⟨j.path, [], 0⟩) := by
  unfold doRRDP at h
  obtain ⟨⟨fs1, mem1⟩, hx, h⟩ := Go.bind_eq_ok.mp h
  simp only [if_true, Go.pure_def, Go.ok.injEq, Prod.mk.injEq] at h hx
  obtain ⟨rfl, rfl, rfl⟩ := h
  unfold mainRRDP at hx
  obtain ⟨⟨fs2, mem2, b⟩, hy, hx⟩ := Go.bind_eq_ok.mp hx
  simp only [mainRRDP, Go.ok.injEq, Prod.mk.injEq] at hx
  obtain ⟨rfl, rfl⟩ := hx
  obtain ⟨s', r, h1, h2, h3, h4⟩ := fetchJob_spec hy
  refine ⟨_, s', r, b, rfl, h1, h2, ?_⟩
  have all : newSys (getInfo (load C (some (C.marshal (getInfo mem2))) anyMem)) j.path j.rsync =
      newSys (getInfo mem2) j.path j.rsync := by
    obtain ⟨m', e1, e2⟩ := hC.round (getInfo mem2) hf
    apply newSys_congr
    simp only [RrdpState.load, e1]
    exact e2 j.rsync
  have mem2pos : newSys (getInfo mem2) j.path j.rsync = newSys (getInfo (load C file mem)) j.path j.rsync ∨
      (b = true ∧ newSys (getInfo mem2) j.path j.rsync = s') := by
    cases b with
    | false => exact .inl (by rw [h3 rfl])
    | true =>
      right
      obtain ⟨m, g1, g2⟩ := h4 rfl
      refine ⟨rfl, ?_⟩
      rw [g2]
      obtain ⟨n, _, g3, _⟩ := C34_success W _ _ _ _ _ h1
      have hp : ∀ i p q, (newSys i p q).path = p := by intro i p q; unfold newSys; split <;> rfl
      rw [hp] at g3
      simp only [getInfo, Option.getD_some, newSys, List.lookup_cons_self]
      obtain ⟨p, S, k⟩ := s'
      simp only at g3
      rw [g3]
  cases w with
  | all =>
    simp only [RrdpState.save]
    rw [all]
    rcases mem2pos with h | h
    · exact .inl h
    · exact .inr (.inl h)
  | nothing =>
    left
    simp only [RrdpState.save]
    obtain ⟨t, rfl⟩ := Option.ne_none_iff_exists'.mp hfile
    rfl
  | cut n =>
    simp only [RrdpState.save]
    by_cases hn : n < (C.marshal (getInfo mem2)).length
    · right; right
      simp only [RrdpState.load, hC.cut _ _ hn]
      rfl
    · rw [List.take_of_length_le (by omega), all]
      rcases mem2pos with h | h
      · exact .inl h
      · exact .inr (.inl h)

/-! ### What does not hold: positions are kept for the rsync module, not for the endpoint -/

/-- **C89, the statement does not hold for endpoints.** Two certificates may name the same rsync module with different RRDP
    endpoints, and both are fetched. The position of the one is used for the other: if the second announces the session of the
    first with a later serial, every fetch of the first succeeds and downloads nothing but the notification, until its
    serial passes that of the second. -/
theorem C89_violated_frozen (W : World) (os : OS) (base : Bytes) (domainOf : Bytes → Option Bytes) (j : RrdpJob) (fs : FS)
    (m : Info) (n : Notification) (serial : Int) (hm : m.lookup j.rsync = some (n.sessionID, serial)) (h0 : serial ≠ 0)
    (hlt : n.serial < serial) (hn : (W.getXML 0 j.path).bind W.parseRoot = some n) :
    fetchJob W os base domainOf j fs (some m) = .ok (fs, some ((j.rsync, n.sessionID, serial) :: m), true) ∧
    Rrdp.fetchRRDP W (callback os base ((domainOf j.path).getD [])) (newSys m j.path j.rsync) ⟨fs, [], []⟩ =
      .ok (⟨j.path, n.sessionID, serial⟩, ⟨fs, [j.path], []⟩, true) := by
  have key : Rrdp.fetchRRDP W (callback os base ((domainOf j.path).getD [])) (newSys m j.path j.rsync) ⟨fs, [], []⟩ =
      .ok (⟨j.path, n.sessionID, serial⟩, ⟨fs, [j.path], []⟩, true) := by
    have e : newSys m j.path j.rsync = ⟨j.path, n.sessionID, serial⟩ := by simp [newSys, hm]
    rw [e]
    have z1 : (n.serial - serial).toNat = 0 := by omega
    have z2 : (n.serial - serial + 1).toNat = 0 := by omega
    unfold Rrdp.fetchRRDP
    simp only [download, List.length_nil, hn, needSnapshot, z1, z2, missingFrom, doDeltas]
    simp [h0]
  refine ⟨?_, key⟩
  unfold fetchJob
  simp only [getInfo, Option.getD_some, key]
  rfl

namespace StateEx

/-- A codec as required: the number of the map, in ones. -/
def num (u : UInt8) : Nat := u.toNat
noncomputable instance : Encodable UInt8 := Encodable.ofLeftInjection num (fun n => some (UInt8.ofNat n)) (by
  intro u; simp [num])

noncomputable def codec : Codec where
  marshal m := List.replicate (Encodable.encode m) 1 ++ [0]
  unmarshal b :=
    if 0 ∈ b then
      match (Encodable.decode (b.length - 1) : Option Info) with
      | some m => (some m, true)
      | none => (some [], false)
    else (some [], false)

theorem codec_round (m : Info) : codec.unmarshal (codec.marshal m) = (some m, true) := by simp [codec]

theorem codec_lawful : Lawful codec (fun _ _ _ => True) where
  round m _ := ⟨m, codec_round m, fun _ => rfl⟩
  cut m n h := by
    have h' : n ≤ Encodable.encode m := by simp [codec] at h; omega
    have : (List.replicate (Encodable.encode m) (1 : UInt8) ++ [0]).take n = List.replicate n 1 := by
      rw [List.take_append_of_le_length (by simpa using h'), List.take_replicate, Nat.min_eq_left h']
    simp only [codec, this]
    rw [if_neg]
    intro hm
    exact absurd (List.mem_replicate.mp hm).2 (by decide)

def host : Bytes := tx "rsync://a/m"
def evil : Bytes := tx "https://evil/n.xml"
def first : CertNames := ⟨tx "rsync://a/m/one/", some pathS⟩
def second : CertNames := ⟨tx "rsync://a/m/two/", some evil⟩

/-- The second endpoint announces the session of the first with a late serial and an empty snapshot. -/
def worldEvil : World where
  getXML := fun _ u => if u = evil then some [1] else if u = tx "sx" then some [2] else none
  parseRoot := fun d => if d = [1] then some ⟨tx "S", 1000, ⟨0, tx "sx", []⟩, []⟩ else none
  parseNode := fun d => if d = [2] then some ([], []) else none

end StateEx

/-- Both endpoints are bound to the module; the fetch of the second endpoint leaves the position that freezes the first,
    though the first was at serial 1 and announces serial 3. -/
theorem C89_violated_other_endpoint :
    (bindAll Bindings.empty [StateEx.first, StateEx.second]).fetch.get pathS = some StateEx.host ∧
    (bindAll Bindings.empty [StateEx.first, StateEx.second]).fetch.get StateEx.evil = some StateEx.host ∧
    ∃ m, fetchJob StateEx.worldEvil osFine baseS (fun _ => some domS) ⟨StateEx.evil, StateEx.host⟩ fsS
        (some [(StateEx.host, tx "S", 1)]) = .ok (fsS, some m, true) ∧
      noteS.serial = 3 ∧
      fetchJob worldS osFine baseS (fun _ => some domS) ⟨pathS, StateEx.host⟩ fsS (some m) =
        .ok (fsS, some ((StateEx.host, tx "S", 1000) :: m), true) := by
  refine ⟨by decide +kernel, by decide +kernel, [(StateEx.host, tx "S", 1000), (StateEx.host, tx "S", 1)], by rfl, by rfl, ?_⟩
  exact (C89_violated_frozen worldS osFine baseS (fun _ => some domS) ⟨pathS, StateEx.host⟩ fsS _ noteS 1000 (by decide +kernel)
    (by decide) (by decide +kernel) (by decide +kernel)).1

/-- There is a codec as required. -/
example : ∃ C, Lawful C (fun _ _ _ => True) := ⟨_, StateEx.codec_lawful⟩

/-- A history that meets the hypotheses, for any such codec: a fetch is under way when the process is killed; the next one
    succeeds, its position is saved, the process is killed again, loads the file, and the following fetch starts from it. -/
example (C : Codec) (hC : Lawful C (fun _ _ _ => True)) : ∃ s, Steps C (St.boot none) s ∧ AllFit (fun _ _ _ => True) s.log ∧
    s.log = [.started ⟨pathS, StateEx.host⟩ [] 0, .started ⟨pathS, StateEx.host⟩ [] 0, .reached ⟨pathS, StateEx.host⟩ (tx "S") 3,
      .started ⟨pathS, StateEx.host⟩ (tx "S") 3] := by
  have fetched : Fetched ⟨pathS, [], 0⟩ ⟨pathS, tx "S", 3⟩ := by
    refine ⟨Unit, worldS, fun _ _ => .ok ((), true), (), ?_⟩
    exact ⟨_, rfl⟩
  have h6 : Steps C (St.boot none) ⟨some [], some (C.marshal [(StateEx.host, tx "S", 3)]), [],
      [.started ⟨pathS, StateEx.host⟩ [] 0, .started ⟨pathS, StateEx.host⟩ [] 0,
        .reached ⟨pathS, StateEx.host⟩ (tx "S") 3]⟩ :=
    .tail (.tail (.tail (.tail (.tail (.tail (.refl _) (.begin _ ⟨pathS, StateEx.host⟩)) (.kill _))
      (.begin _ ⟨pathS, StateEx.host⟩)) (.succeed _ 0 ⟨pathS, StateEx.host⟩ _ _ _ rfl fetched rfl)) (.save _ .all)) (.kill _)
  obtain ⟨m, e, hl⟩ := hC.round [(StateEx.host, tx "S", 3)] (fun _ _ _ _ => trivial)
  have h7 := (h6.tail (.load _ _ (.inl rfl))).tail (.begin _ ⟨pathS, StateEx.host⟩)
  refine ⟨_, h7, fun _ _ _ _ => trivial, ?_⟩
  have e2 : newSys m pathS StateEx.host = ⟨pathS, tx "S", 3⟩ := by
    rw [newSys_congr (hl StateEx.host)]
    rfl
  simp only [RrdpState.load, e, getInfo, Option.getD_some, e2]
  rfl

end Verif.Props
