import Verif.Lemmas.ConcPub
import Verif.Lemmas.ConcLive
/-
  Lemmas on goroutines: fields that only one goroutine uses; what the code of the loop never does; how to see that two events are not in order.
-/
set_option autoImplicit false

namespace Verif.Conc
open ConcSpec

/-- Code that never uses `x`, nor do the goroutines it starts. -/
def Avoids (x : Var) : Code → Prop
  | .done => True
  | .act a k => (∀ v, a ≠ .write x v) ∧ Avoids x k
  | .get y k => y ≠ x ∧ ∀ v, Avoids x (k v)
  | .fork _ c k => Avoids x c ∧ Avoids x k

/-- Code that starts only goroutines that never use `x`. -/
def Keeps (x : Var) : Code → Prop
  | .done => True
  | .act _ k => Keeps x k
  | .get _ k => ∀ v, Keeps x (k v)
  | .fork _ c k => Avoids x c ∧ Keeps x k

structure OwnInv (x : Var) (c : Cfg) : Prop where
  some0 : 0 < c.threads.length
  owner : ∀ th, c.threads[0]? = some th → Keeps x th.code
  others : ∀ t th, t ≠ 0 → c.threads[t]? = some th → Avoids x th.code
  uses : ∀ (i : Nat) (e : Ev), c.trace[i]? = some e → Touches e x → e.tid = 0

theorem OwnInv.step {x : Var} {c c' : Cfg} (I : OwnInv x c) {t : Nat} (h : c.step t = some c') : OwnInv x c' := by
  obtain ⟨th, ht, hv⟩ := step_view h
  have hlt := lt_of_get ht
  have h0 := I.some0
  rcases hv with ⟨a, k, hc, hal, rfl⟩ | ⟨y, k, hc, rfl⟩ | ⟨w, d, k, hc, rfl⟩ | ⟨m, k, hc, _, _, rfl⟩
  · refine ⟨by simpa using h0, ?_, ?_, ?_⟩
    · intro th' h'
      rcases set_get h' with ⟨rfl, rfl⟩ | ⟨_, h'⟩
      · have := I.owner th ht; rw [hc] at this; exact this
      · exact I.owner th' h'
    · intro t' th' hne h'
      rcases set_get h' with ⟨rfl, rfl⟩ | ⟨_, h'⟩
      · have := I.others t' th hne ht; rw [hc] at this; exact this.2
      · exact I.others t' th' hne h'
    · intro i e hi he
      rcases snoc_get.mp hi with hi | ⟨_, rfl⟩
      · exact I.uses i e hi he
      · by_contra hne
        have := I.others t th hne ht
        rw [hc] at this
        rcases he with ⟨v, he⟩ | ⟨v, he⟩
        · cases he
        · exact this.1 v (by injection he)
  · refine ⟨by simpa using h0, ?_, ?_, ?_⟩
    · intro th' h'
      rcases set_get h' with ⟨rfl, rfl⟩ | ⟨_, h'⟩
      · have := I.owner th ht; rw [hc] at this; exact this _
      · exact I.owner th' h'
    · intro t' th' hne h'
      rcases set_get h' with ⟨rfl, rfl⟩ | ⟨_, h'⟩
      · have := I.others t' th hne ht; rw [hc] at this; exact this.2 _
      · exact I.others t' th' hne h'
    · intro i e hi he
      rcases snoc_get.mp hi with hi | ⟨_, rfl⟩
      · exact I.uses i e hi he
      · by_contra hne
        have := I.others t th hne ht
        rw [hc] at this
        rcases he with ⟨v, he⟩ | ⟨v, he⟩
        · exact this.1 (by injection he)
        · cases he
  · refine ⟨by simp, ?_, ?_, ?_⟩
    · intro th' h'
      rcases snoc_get.mp h' with h' | ⟨e, _⟩
      · rcases set_get h' with ⟨rfl, rfl⟩ | ⟨_, h'⟩
        · have := I.owner th ht; rw [hc] at this; exact this.2
        · exact I.owner th' h'
      · simp at e; rw [← e] at h0; simp at h0
    · intro t' th' hne h'
      rcases snoc_get.mp h' with h' | ⟨_, rfl⟩
      · rcases set_get h' with ⟨rfl, rfl⟩ | ⟨_, h'⟩
        · have := I.others t' th hne ht; rw [hc] at this; exact this.2
        · exact I.others t' th' hne h'
      · by_cases hz : t = 0
        · subst hz
          have := I.owner th ht; rw [hc] at this; exact this.1
        · have := I.others t th hz ht; rw [hc] at this; exact this.1
    · intro i e hi he
      rcases snoc_get.mp hi with hi | ⟨_, rfl⟩
      · exact I.uses i e hi he
      · rcases he with ⟨v, he⟩ | ⟨v, he⟩ <;> cases he
  · exact ⟨h0, I.owner, I.others, I.uses⟩

theorem OwnInv.run {x : Var} : ∀ (sched : List Nat) {c c' : Cfg}, OwnInv x c → c.run sched = some c' → OwnInv x c'
  | [], c, c', I, h => by simp only [Cfg.run, Option.some.injEq] at h; subst h; exact I
  | t :: ts, c, c', I, h => by
    unfold Cfg.run at h
    cases hs : c.step t with
    | none => rw [hs] at h; simp at h
    | some c1 => rw [hs] at h; exact OwnInv.run ts (I.step hs) h

theorem OwnInv.start {x : Var} {rs : List Round} {reqs : List Request} (h : Keeps x (program rs reqs)) : OwnInv x (Cfg.start rs reqs) := by
  refine ⟨by simp [Cfg.start], ?_, ?_, by simp [Cfg.start]⟩
  · intro th ht; simp [Cfg.start] at ht; subst ht; exact h
  · intro t th hne ht
    cases t with
    | zero => exact (hne rfl).elim
    | succ t => simp [Cfg.start] at ht

theorem OwnInv.no_race {x : Var} {c : Cfg} (I : OwnInv x c) : ¬ Race c.trace x := by
  rintro ⟨i, j, a, b, ha, hb, hne, hta, htb, _⟩
  exact hne (by rw [I.uses i a ha hta, I.uses j b hb htb])

/-! ### The code of the program -/

/-- Fields that only the loop changes and that have no lock. -/
def LoopVar : Var → Prop
  | .lastComputed | .duration | .talsCount | .talsFetch | .currentRepos | .prevRepos => True
  | _ => False

theorem avoids_rrdpWorker {x : Var} (hx : LoopVar x) (jobs : List RrdpEnd) : Avoids x (rrdpWorker jobs) := by
  induction jobs with
  | nil => trivial
  | cons e jobs ih =>
    show Avoids x (fetchRRDP e (rrdpWorker jobs))
    cases x <;> simp only [LoopVar] at hx <;> cases e <;> simp [fetchRRDP, rlocked, locked, acts, Avoids, ih]

theorem avoids_rsyncWorker (x : Var) (n : Nat) : Avoids x (rsyncWorker n) := by
  induction n with
  | zero => trivial
  | succ n ih => exact ⟨by simp, ih⟩

theorem keeps_forks {x : Var} {ws : List Code} {k : Code} (hw : ∀ w ∈ ws, Avoids x w) (hk : Keeps x k) : Keeps x (forks ws k) := by
  induction ws with
  | nil => exact hk
  | cons w ws ih => exact ⟨hw w (by simp), ih fun w hw' => hw w (by simp [hw'])⟩

theorem keeps_rounds {x : Var} (hx : LoopVar x) : ∀ (rs : List Round) (n : Nat), Keeps x (rounds n rs)
  | [], _ => trivial
  | r :: rs, n => by
    have hk := keeps_rounds hx rs (n + 1)
    show Keeps x (round n r _)
    generalize rounds (n + 1) rs = k at hk
    unfold round
    simp only
    have hl : Keeps x (mainReduce (acts [.load .iterations, .store .stable, .load .stable, .store .previous, .load .stable, .load .stable]
        (if r.pause then .get .lastComputed fun _ => acts [.outside, .store .stable] k else k))) := by
      intro _ _ _
      show Keeps x (if r.pause then _ else _)
      split
      · intro _; exact hk
      · exact hk
    generalize mainReduce _ = k2 at hl ⊢
    have hcert : ∀ (l : List (Option Bool)) (k : Code), Keeps x k → Keeps x (l.foldr (oneCert n) k) := by
      intro l k hk
      induction l with
      | nil => exact hk
      | cons c l ih =>
        show Keeps x (oneCert n c _)
        generalize l.foldr (oneCert n) k = k' at ih
        unfold oneCert
        match c with
        | none => exact ih
        | some false => intro _; exact ih
        | some true => intro _; exact ih
    have hval : Keeps x (mainValidation n r k2) := by
      show Keeps x (r.found.foldr (oneTal n) _)
      have h0 : Keeps x (locked (.ptrMu .authorities) [.write (.ptr .authorities) n]
          (generateROAList n (locked (.ptrMu .list) [.write (.ptr .list) n]
            (.act (.write .duration 0) (.get .duration fun _ => .get .lastComputed fun _ => k2))))) := by
        intro _ _; exact hl
      generalize locked (.ptrMu .authorities) _ _ = k3 at h0
      induction r.found with
      | nil => exact h0
      | cons f l ih =>
        show Keeps x (oneTal n f _)
        intro _
        have := hcert f.2 _ ih
        generalize f.2.foldr (oneCert n) _ = k4 at this
        induction f.1 with
        | zero => exact this
        | succ i ih2 => exact ih2
    have hrs : Keeps x (mainRsync r.rsyncJobs (mainValidation n r k2)) := by
      intro _
      exact keeps_forks (by
        intro w hw
        obtain ⟨j, _, rfl⟩ := List.mem_map.mp hw
        exact avoids_rsyncWorker x j) hval
    have htal : Keeps x (mainTAL r.tals (mainRsync r.rsyncJobs (mainValidation n r k2))) := by
      intro _
      induction r.tals with
      | nil => exact hrs
      | cons b l ih =>
        show Keeps x (if b then _ else _)
        split
        · exact ih
        · exact ih
    generalize mainTAL r.tals _ = k5 at htal ⊢
    show Keeps x (if r.rrdp then doRRDP r k5 else k5)
    split
    · have hs : Keeps x (if r.rrdpFile then rlocked .infoMu .rrdpInfo fun _ => .act .outside k5 else k5) := by
        split
        · intro _; exact htal
        · exact htal
      have hf : Keeps x (rlocked .fetchMu .rrdpFetch fun _ => forks (r.rrdpJobs.map rrdpWorker) (.act .wait
          (if r.rrdpFile then rlocked .infoMu .rrdpInfo fun _ => .act .outside k5 else k5))) := by
        intro _
        exact keeps_forks (by
          intro w hw
          obtain ⟨j, _, rfl⟩ := List.mem_map.mp hw
          exact avoids_rrdpWorker hx j) hs
      show Keeps x (if r.rrdpFile && r.readable then _ else _)
      split
      · exact hf
      · exact hf
    · exact htal

theorem keeps_program {x : Var} (hx : LoopVar x) (rs : List Round) (reqs : List Request) (h : ∀ r ∈ reqs, Avoids x (handler r)) :
    Keeps x (program rs reqs) := by
  refine ⟨?_, keeps_rounds hx rs 1⟩
  induction reqs with
  | nil => trivial
  | cons r reqs ih => exact ⟨h r (by simp), ih fun r h' => h r (by simp [h'])⟩

theorem noAnswer_forks {ws : List Code} {k : Code} (hk : NoAnswer k) : NoAnswer (forks ws k) := by
  induction ws with
  | nil => exact hk
  | cons w ws ih => exact ih

theorem noAnswer_rounds : ∀ (rs : List Round) (n : Nat), NoAnswer (rounds n rs)
  | [], _ => trivial
  | r :: rs, n => by
    have hk := noAnswer_rounds rs (n + 1)
    show NoAnswer (round n r _)
    generalize rounds (n + 1) rs = k at hk
    unfold round
    simp only
    have hl : NoAnswer (mainReduce (acts [.load .iterations, .store .stable, .load .stable, .store .previous, .load .stable, .load .stable]
        (if r.pause then .get .lastComputed fun _ => acts [.outside, .store .stable] k else k))) := by
      refine fun _ _ => ⟨by simp, fun _ => ⟨by simp, by simp, by simp, by simp, by simp, by simp, ?_⟩⟩
      show NoAnswer (if r.pause then _ else _)
      split
      · exact fun _ => ⟨by simp, by simp, hk⟩
      · exact hk
    generalize mainReduce _ = k2 at hl ⊢
    have hcert : ∀ (l : List (Option Bool)) (k : Code), NoAnswer k → NoAnswer (l.foldr (oneCert n) k) := by
      intro l k hk
      induction l with
      | nil => exact hk
      | cons c l ih =>
        show NoAnswer (oneCert n c _)
        generalize l.foldr (oneCert n) k = k' at ih
        unfold oneCert
        match c with
        | none => simpa [locked, acts, NoAnswer] using ih
        | some false => simpa [rlocked, NoAnswer] using ih
        | some true => simpa [rlocked, locked, acts, NoAnswer] using ih
    have hval : NoAnswer (mainValidation n r k2) := by
      refine ⟨by simp, ?_⟩
      have h0 : NoAnswer (locked (.ptrMu .authorities) [.write (.ptr .authorities) n]
          (generateROAList n (locked (.ptrMu .list) [.write (.ptr .list) n]
            (.act (.write .duration 0) (.get .duration fun _ => .get .lastComputed fun _ => k2))))) := by
        simpa [generateROAList, locked, acts, NoAnswer] using hl
      generalize locked (.ptrMu .authorities) _ _ = k3 at h0
      induction r.found with
      | nil => exact h0
      | cons f l ih =>
        show NoAnswer (oneTal n f _)
        refine ⟨by simp, fun _ => ?_⟩
        have := hcert f.2 _ ih
        generalize f.2.foldr (oneCert n) _ = k4 at this
        induction f.1 with
        | zero => exact this
        | succ i ih2 => exact ⟨by simp, ih2⟩
    have hrs : NoAnswer (mainRsync r.rsyncJobs (mainValidation n r k2)) :=
      ⟨by simp, fun _ => ⟨by simp, noAnswer_forks ⟨by simp, hval⟩⟩⟩
    have htal : NoAnswer (mainTAL r.tals (mainRsync r.rsyncJobs (mainValidation n r k2))) := by
      intro _
      induction r.tals with
      | nil => exact ⟨by simp, hrs⟩
      | cons b l ih =>
        refine ⟨by simp, ?_⟩
        split
        · exact ⟨by simp, by simp, by simp, ih⟩
        · exact ih
    generalize mainTAL r.tals _ = k5 at htal ⊢
    refine ⟨by simp, by simp, ?_⟩
    show NoAnswer (if r.rrdp then doRRDP r k5 else k5)
    split
    · have hs : NoAnswer (if r.rrdpFile then rlocked .infoMu .rrdpInfo fun _ => .act .outside k5 else k5) := by
        split
        · exact ⟨by simp, fun _ => ⟨by simp, by simp, htal⟩⟩
        · exact htal
      have hf : NoAnswer (rlocked .fetchMu .rrdpFetch fun _ => forks (r.rrdpJobs.map rrdpWorker) (.act .wait
          (if r.rrdpFile then rlocked .infoMu .rrdpInfo fun _ => .act .outside k5 else k5))) :=
        ⟨by simp, fun _ => ⟨by simp, noAnswer_forks ⟨by simp, hs⟩⟩⟩
      show NoAnswer (if r.rrdpFile && r.readable then _ else _)
      split
      · exact ⟨by simp, by simp, by simp, by simp, hf⟩
      · exact hf
    · exact htal

/-- Goroutine 0 is the loop, and stays it. -/
def MainOk (c : Cfg) : Prop := ∃ code, c.threads[0]? = some ⟨false, code⟩ ∧ NoAnswer code

theorem MainOk.run : ∀ (sched : List Nat) {c c' : Cfg}, MainOk c → c.run sched = some c' → MainOk c'
  | [], c, c', I, h => by simp only [Cfg.run, Option.some.injEq] at h; subst h; exact I
  | t :: ts, c, c', I, h => by
    unfold Cfg.run at h
    cases hs : c.step t with
    | none => rw [hs] at h; simp at h
    | some c1 =>
      rw [hs] at h
      refine MainOk.run ts ?_ h
      obtain ⟨th, ht, hv⟩ := step_view hs
      obtain ⟨code, h0, hn⟩ := I
      have keep : ∀ {th' : Thread}, t ≠ 0 → (c.threads.set t th')[0]? = some ⟨false, code⟩ := fun hne => by
        rw [set_other _ (Ne.symm hne)]; exact h0
      by_cases hz : t = 0
      · subst hz
        rw [h0] at ht
        obtain rfl : _ = th := by simpa using ht
        rcases hv with ⟨a, k, hc, hal, rfl⟩ | ⟨y, k, hc, rfl⟩ | ⟨w, d, k, hc, rfl⟩ | ⟨m, k, hc, _, _, rfl⟩
        · simp only at hc; subst hc; exact ⟨k, set_self h0, hn.2⟩
        · simp only at hc; subst hc; exact ⟨_, set_self h0, hn _⟩
        · simp only at hc; subst hc; exact ⟨k, snoc_get.mpr (.inl (set_self h0)), hn⟩
        · exact ⟨code, h0, hn⟩
      · rcases hv with ⟨a, k, hc, hal, rfl⟩ | ⟨y, k, hc, rfl⟩ | ⟨w, d, k, hc, rfl⟩ | ⟨m, k, hc, _, _, rfl⟩
        · exact ⟨code, keep hz, hn⟩
        · exact ⟨code, keep hz, hn⟩
        · exact ⟨code, snoc_get.mpr (.inl (keep hz)), hn⟩
        · exact ⟨code, h0, hn⟩

/-- Code that starts only workers. -/
def StartsWorkers : Code → Prop
  | .done => True
  | .act _ k => StartsWorkers k
  | .get _ k => ∀ v, StartsWorkers (k v)
  | .fork w _ k => w = true ∧ StartsWorkers k

theorem startsWorkers_forks {ws : List Code} {k : Code} (hk : StartsWorkers k) : StartsWorkers (forks ws k) := by
  induction ws with
  | nil => exact hk
  | cons w ws ih => exact ⟨rfl, ih⟩

theorem startsWorkers_rounds : ∀ (rs : List Round) (n : Nat), StartsWorkers (rounds n rs)
  | [], _ => trivial
  | r :: rs, n => by
    have hk := startsWorkers_rounds rs (n + 1)
    show StartsWorkers (round n r _)
    generalize rounds (n + 1) rs = k at hk
    unfold round
    simp only
    have hl : StartsWorkers (mainReduce (acts [.load .iterations, .store .stable, .load .stable, .store .previous, .load .stable, .load .stable]
        (if r.pause then .get .lastComputed fun _ => acts [.outside, .store .stable] k else k))) := by
      intro _ _ _
      show StartsWorkers (if r.pause then _ else _)
      split
      · intro _; exact hk
      · exact hk
    generalize mainReduce _ = k2 at hl ⊢
    have hcert : ∀ (l : List (Option Bool)) (k : Code), StartsWorkers k → StartsWorkers (l.foldr (oneCert n) k) := by
      intro l k hk
      induction l with
      | nil => exact hk
      | cons c l ih =>
        show StartsWorkers (oneCert n c _)
        generalize l.foldr (oneCert n) k = k' at ih
        unfold oneCert
        match c with
        | none => exact ih
        | some false => intro _; exact ih
        | some true => intro _; exact ih
    have hval : StartsWorkers (mainValidation n r k2) := by
      show StartsWorkers (r.found.foldr (oneTal n) _)
      have h0 : StartsWorkers (locked (.ptrMu .authorities) [.write (.ptr .authorities) n]
          (generateROAList n (locked (.ptrMu .list) [.write (.ptr .list) n]
            (.act (.write .duration 0) (.get .duration fun _ => .get .lastComputed fun _ => k2))))) := by
        intro _ _; exact hl
      generalize locked (.ptrMu .authorities) _ _ = k3 at h0
      induction r.found with
      | nil => exact h0
      | cons f l ih =>
        show StartsWorkers (oneTal n f _)
        intro _
        have := hcert f.2 _ ih
        generalize f.2.foldr (oneCert n) _ = k4 at this
        induction f.1 with
        | zero => exact this
        | succ i ih2 => exact ih2
    have hrs : StartsWorkers (mainRsync r.rsyncJobs (mainValidation n r k2)) := by
      intro _
      exact startsWorkers_forks hval
    have htal : StartsWorkers (mainTAL r.tals (mainRsync r.rsyncJobs (mainValidation n r k2))) := by
      intro _
      induction r.tals with
      | nil => exact hrs
      | cons b l ih =>
        show StartsWorkers (if b then _ else _)
        split
        · exact ih
        · exact ih
    generalize mainTAL r.tals _ = k5 at htal ⊢
    show StartsWorkers (if r.rrdp then doRRDP r k5 else k5)
    split
    · have hs : StartsWorkers (if r.rrdpFile then rlocked .infoMu .rrdpInfo fun _ => .act .outside k5 else k5) := by
        split
        · intro _; exact htal
        · exact htal
      have hf : StartsWorkers (rlocked .fetchMu .rrdpFetch fun _ => forks (r.rrdpJobs.map rrdpWorker) (.act .wait
          (if r.rrdpFile then rlocked .infoMu .rrdpInfo fun _ => .act .outside k5 else k5))) := by
        intro _
        exact startsWorkers_forks hs
      show StartsWorkers (if r.rrdpFile && r.readable then _ else _)
      split
      · exact hf
      · exact hf
    · exact htal

theorem ask_handler (r : Request) : Ask (handler r) := by
  match r with
  | .roas false _ => simp [handler, acts, Ask]
  | .roas true true => simp [handler, acts, Ask, rlocked]
  | .roas true false => simp [handler, acts, Ask, rlocked]
  | .resources false => simp [handler, acts, Ask]
  | .resources true => simp [handler, acts, Ask]
  | .info => simp [handler, acts, Ask, rlocked]
  | .health => simp [handler, acts, Ask]

/-- Goroutine 0 is the loop, 1 the server, and the others are workers or handlers. -/
def RolesOk (c : Cfg) : Prop :=
  (∃ rs reqs, c.threads = [⟨false, program rs reqs⟩]) ∨
  ∃ (code : Code) (reqs : List Request) (rest : List Thread), c.threads = ⟨false, code⟩ :: ⟨false, serve reqs⟩ :: rest ∧ StartsWorkers code ∧
    ∀ th ∈ rest, th.worker = true ∧ Plain th.code ∨ th.worker = false ∧ Ask th.code

theorem RolesOk.step {g : Var → Option Mu} {q : Bool} {held : Nat → Option (Mu × Bool)} {c c' : Cfg} (L : LockInv g q held c) (I : RolesOk c) {t : Nat}
    (h : c.step t = some c') : RolesOk c' := by
  obtain ⟨th, ht, hv⟩ := step_view h
  rw [← or_assoc, ← or_assoc] at hv
  rcases hv with hv | ⟨m, k, _, _, _, rfl⟩
  case inr => exact I
  rw [or_assoc] at hv
  rcases I with ⟨rs, reqs, hI⟩ | ⟨code, reqs, rest, hI, hs, hr⟩
  · rw [hI] at ht hv
    have h0 : t = 0 := by have := lt_of_get ht; simpa using this
    subst h0
    obtain rfl : _ = th := by simpa using ht
    rcases hv with ⟨a, k, hc, _⟩ | ⟨y, k, hc, _⟩ | ⟨w, d, k, hc, rfl⟩
    · cases hc
    · cases hc
    · obtain ⟨rfl, rfl, rfl⟩ : false = w ∧ serve reqs = d ∧ rounds 1 rs = k := by simpa [program] using hc
      exact .inr ⟨rounds 1 rs, reqs, [], rfl, startsWorkers_rounds rs 1, by simp⟩
  · right
    rw [hI] at ht
    match t with
    | 0 =>
      have hlo := L.obeys 0 th (by rw [hI]; exact ht)
      obtain rfl : _ = th := by simpa using ht
      rcases hv with ⟨a, k, hc, _, rfl⟩ | ⟨y, k, hc, rfl⟩ | ⟨w, d, k, hc, rfl⟩
      · simp only at hc; subst hc
        exact ⟨k, reqs, rest, by simp [hI], hs, hr⟩
      · simp only at hc; subst hc
        exact ⟨k (c.mem y), reqs, rest, by simp [hI], hs _, hr⟩
      · simp only at hc; subst hc
        refine ⟨k, reqs, rest ++ [⟨w, d⟩], by simp [hI], hs.2, ?_⟩
        intro th' hm
        rcases List.mem_append.mp hm with hm | hm
        · exact hr th' hm
        · obtain rfl : th' = ⟨w, d⟩ := by simpa using hm
          exact .inl ⟨hs.1, hlo.2.1 hs.1⟩
    | 1 =>
      obtain rfl : _ = th := by simpa using ht
      cases reqs with
      | nil => rcases hv with ⟨a, k, hc, _, rfl⟩ | ⟨y, k, hc, rfl⟩ | ⟨w, d, k, hc, rfl⟩ <;> cases hc
      | cons r reqs =>
        rcases hv with ⟨a, k, hc, _, rfl⟩ | ⟨y, k, hc, rfl⟩ | ⟨w, d, k, hc, rfl⟩
        · cases hc
        · cases hc
        · obtain ⟨rfl, rfl, rfl⟩ : false = w ∧ handler r = d ∧ serve reqs = k := by simpa [serve] using hc
          refine ⟨code, reqs, rest ++ [⟨false, handler r⟩], by simp [hI], hs, ?_⟩
          intro th' hm
          rcases List.mem_append.mp hm with hm | hm
          · exact hr th' hm
          · obtain rfl : th' = ⟨false, handler r⟩ := by simpa using hm
            exact .inr ⟨rfl, ask_handler r⟩
    | t + 2 =>
      have hth : rest[t]? = some th := by simpa using ht
      have hm := hr th (List.mem_of_getElem? hth)
      have put : ∀ {k : Code}, (th.worker = true ∧ Plain k ∨ th.worker = false ∧ Ask k) →
          ∀ th' ∈ rest.set t ⟨th.worker, k⟩, th'.worker = true ∧ Plain th'.code ∨ th'.worker = false ∧ Ask th'.code := by
        intro k hk th' h'
        rcases List.mem_or_eq_of_mem_set h' with h' | rfl
        · exact hr th' h'
        · exact hk
      rcases hv with ⟨a, k, hc, _, rfl⟩ | ⟨y, k, hc, rfl⟩ | ⟨w, d, k, hc, rfl⟩
      · rw [hc] at hm
        exact ⟨code, reqs, rest.set t ⟨th.worker, k⟩, by simp [hI], hs, put (hm.imp (fun h => ⟨h.1, h.2.2.2⟩) (fun h => ⟨h.1, h.2.2.2⟩))⟩
      · rw [hc] at hm
        exact ⟨code, reqs, rest.set t ⟨th.worker, k (c.mem y)⟩, by simp [hI], hs, put (hm.imp (fun h => ⟨h.1, h.2 _⟩) (fun h => ⟨h.1, h.2 _⟩))⟩
      · rw [hc] at hm
        rcases hm with hm | hm
        · exact hm.2.elim
        · exact hm.2.elim

theorem RolesOk.run {g : Var → Option Mu} {q : Bool} : ∀ (sched : List Nat) {held : Nat → Option (Mu × Bool)} {c c' : Cfg}, LockInv g q held c → RolesOk c →
    c.run sched = some c' → RolesOk c'
  | [], held, c, c', _, I, h => by simp only [Cfg.run, Option.some.injEq] at h; subst h; exact I
  | t :: ts, held, c, c', L, I, h => by
    unfold Cfg.run at h
    cases hs : c.step t with
    | none => rw [hs] at h; simp at h
    | some c1 =>
      rw [hs] at h
      obtain ⟨_, L1⟩ := L.step_any hs
      exact RolesOk.run ts L1 (RolesOk.step L I hs) h

/-! ### Events that are not in order -/

/-- At least the direct edges between two positions. -/
def edgeB (tr : List Ev) (i j : Nat) : Bool :=
  match tr[i]?, tr[j]? with
  | some a, some b => decide (i < j) && (decide (a.tid = b.tid) ||
      match a.op, b.op with
      | .fork t _, _ => decide (t = b.tid) || (tr.any fun f => decide (f.op = .fork a.tid true))
      | _, .act .wait => tr.any fun f => decide (f.op = .fork a.tid true)
      | .act (.unlock m), .act (.lock m') => decide (m = m')
      | .act (.unlock m), .act (.rlock m') => decide (m = m')
      | .act (.runlock m), .act (.lock m') => decide (m = m')
      | .act (.store f), .act (.load f') => decide (f = f')
      | _, _ => false)
  | _, _ => false

theorem edgeB_of_edge {tr : List Ev} {i j : Nat} (h : Edge tr i j) : edgeB tr i j = true := by
  cases h with
  | same a b h ha hb e => simp [edgeB, ha, hb, h, e]
  | fork a b w h ha hb e =>
    simp [edgeB, ha, hb, h, e]
  | unlock a b m h ha hb e e' =>
    rcases e' with e' | e' <;> simp [edgeB, ha, hb, h, e, e']
  | runlock a b m h ha hb e e' => simp [edgeB, ha, hb, h, e, e']
  | atomic a b f h ha hb e e' _ => simp [edgeB, ha, hb, h, e, e']
  | wait k f a b hk h hf ha hb e e' =>
    have : (tr.any fun f => decide (f.op = .fork a.tid true)) = true :=
      List.any_eq_true.mpr ⟨f, List.mem_of_getElem? hf, by simpa using e⟩
    simp only [edgeB, ha, hb, h, e', this]
    cases a.op <;> simp

/-- The positions `A` are closed under the direct edges. -/
def closedB (tr : List Ev) (A : Nat → Bool) : Bool :=
  (List.range tr.length).all fun a => !(A a) || (List.range tr.length).all fun b => !(edgeB tr a b) || A b

theorem hb_closed {tr : List Ev} {A : Nat → Bool} (hA : closedB tr A = true) {i j : Nat} (h : HB tr i j) : A i = true → A j = true := by
  induction h with
  | trans i j k _ _ h1 h2 => exact fun h => h2 (h1 h)
  | edge i j e =>
    intro hi
    have he := edgeB_of_edge e
    have hl : i < tr.length ∧ j < tr.length := by
      cases ha : tr[i]? with
      | none => simp [edgeB, ha] at he
      | some a =>
        cases hb : tr[j]? with
        | none => simp [edgeB, ha, hb] at he
        | some b => exact ⟨lt_of_get ha, lt_of_get hb⟩
    have h1 := List.all_eq_true.mp hA i (List.mem_range.mpr hl.1)
    rw [hi, Bool.not_true, Bool.false_or] at h1
    have h2 := List.all_eq_true.mp h1 j (List.mem_range.mpr hl.2)
    simpa [he] using h2

def writesB (e : Ev) (x : Var) : Bool := match e.op with | .act (.write y _) => decide (y = x) | _ => false
def touchesB (e : Ev) (x : Var) : Bool := match e.op with | .read y _ => decide (y = x) | .act (.write y _) => decide (y = x) | _ => false

theorem writes_of {e : Ev} {x : Var} (h : writesB e x = true) : Writes e x := by
  unfold writesB at h
  split at h
  · rename_i y v ho
    obtain rfl : y = x := by simpa using h
    exact ⟨v, ho⟩
  · cases h

theorem touches_of {e : Ev} {x : Var} (h : touchesB e x = true) : Touches e x := by
  unfold touchesB at h
  split at h
  · rename_i y v ho
    obtain rfl : y = x := by simpa using h
    exact .inl ⟨v, ho⟩
  · rename_i y v ho
    obtain rfl : y = x := by simpa using h
    exact .inr ⟨v, ho⟩
  · cases h

def raceB (tr : List Ev) (x : Var) (i j : Nat) (A : Nat → Bool) : Bool :=
  match tr[i]?, tr[j]? with
  | some a, some b => decide (a.tid ≠ b.tid) && touchesB a x && touchesB b x && (writesB a x || writesB b x) && decide (i < j) && A i && !A j && closedB tr A
  | _, _ => false

theorem race_of {tr : List Ev} {x : Var} {i j : Nat} {A : Nat → Bool} (h : raceB tr x i j A = true) : Race tr x := by
  unfold raceB at h
  split at h
  · rename_i a b ha hb
    simp only [Bool.and_eq_true, decide_eq_true_eq, Bool.or_eq_true, Bool.not_eq_true'] at h
    obtain ⟨⟨⟨⟨⟨⟨⟨h1, h2⟩, h3⟩, h4⟩, h5⟩, h6⟩, h7⟩, h8⟩ := h
    refine ⟨i, j, a, b, ha, hb, h1, touches_of h2, touches_of h3, h4.imp writes_of writes_of, fun hb => ?_, fun hb => ?_⟩
    · rw [hb_closed h8 hb h6] at h7; cases h7
    · have := hb_lt hb; omega
  · cases h

end Verif.Conc
