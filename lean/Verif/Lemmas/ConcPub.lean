import Verif.Lemmas.Conc
/-
  Lemmas on goroutines: what is built, then published by a pointer under a lock, and not changed after that.
-/
set_option autoImplicit false

namespace Verif.Conc
open ConcSpec

/-- Code that changes no pointer and no object, and looks only into objects that it got from a pointer. -/
def Follows : Code → List (Obj × Nat) → Prop
  | .done, _ => True
  | .act a k, s => (∀ o v, a ≠ .write (.ptr o) v) ∧ (∀ o n v, a ≠ .write (.body o n) v) ∧ Follows k s
  | .get x k, s => (∀ o n, x = .body o n → (o, n) ∈ s) ∧ ∀ v, Follows (k v) (match x with | .ptr o => (o, v) :: s | _ => s)
  | .fork _ c k, s => Follows c [] ∧ Follows k s

/-- Code that publishes objects with growing numbers, and changes no object once it is published. -/
def Owns : Code → (Obj → Nat) → Prop
  | .done, _ => True
  | .act a k, lo =>
    match a with
    | .write (.ptr o) v => lo o ≤ v ∧ Owns k (upd lo o (v + 1))
    | .write (.body o n) _ => lo o ≤ n ∧ Owns k lo
    | _ => Owns k lo
  | .get x k, lo => (∀ o n, x ≠ .body o n) ∧ ∀ v, Owns (k v) lo
  | .fork _ c k, lo => Follows c [] ∧ Owns k lo

structure PubInv (lo : Obj → Nat) (seen : Nat → List (Obj × Nat)) (c : Cfg) : Prop where
  some0 : 0 < c.threads.length
  owner : ∀ th, c.threads[0]? = some th → Owns th.code lo
  others : ∀ t th, t ≠ 0 → c.threads[t]? = some th → Follows th.code (seen t)
  ptr0 : ∀ (i : Nat) (e : Ev) (o : Obj) (v : Nat), c.trace[i]? = some e → e.op = .act (.write (.ptr o) v) → e.tid = 0 ∧ v < lo o
  body0 : ∀ (i : Nat) (e : Ev) (o : Obj) (n v : Nat), c.trace[i]? = some e → e.op = .act (.write (.body o n) v) → e.tid = 0 ∧ 1 ≤ n
  pos : ∀ o, 1 ≤ lo o
  order : ∀ (i p : Nat) (e f : Ev) (o : Obj) (n v : Nat), c.trace[i]? = some e → e.op = .act (.write (.body o n) v) →
    c.trace[p]? = some f → f.op = .act (.write (.ptr o) n) → i < p
  got : ∀ (t : Nat) (o : Obj) (n : Nat), (o, n) ∈ seen t → ∃ q : Nat, c.trace[q]? = some ⟨t, .read (.ptr o) n⟩
  looked : ∀ (j : Nat) (e : Ev) (o : Obj) (n v : Nat), c.trace[j]? = some e → e.op = .read (.body o n) v →
    ∃ q : Nat, q < j ∧ c.trace[q]? = some ⟨e.tid, .read (.ptr o) n⟩
  now : ∀ o, c.mem (.ptr o) = 0 ∨ ∃ (p : Nat) (e : Ev), c.trace[p]? = some e ∧ e.op = .act (.write (.ptr o) (c.mem (.ptr o)))
  then' : ∀ (q : Nat) (e : Ev) (o : Obj) (n : Nat), c.trace[q]? = some e → e.op = .read (.ptr o) n →
    n = 0 ∨ ∃ (p : Nat) (f : Ev), p < q ∧ c.trace[p]? = some f ∧ f.op = .act (.write (.ptr o) n)

theorem PubInv.step {lo : Obj → Nat} {seen : Nat → List (Obj × Nat)} {c c' : Cfg} (I : PubInv lo seen c) {t : Nat} (h : c.step t = some c') :
    ∃ lo' seen', PubInv lo' seen' c' := by
  obtain ⟨th, ht, hv⟩ := step_view h
  have hlt := lt_of_get ht
  have hnew : ∀ {i : Nat} {a : Ev}, c.trace[i]? = some a → i < c.trace.length := lt_of_get
  rcases hv with ⟨a, k, hc, hal, rfl⟩ | ⟨x, k, hc, rfl⟩ | ⟨w, d, k, hc, rfl⟩ | ⟨m, k, hc, _, _, rfl⟩
  · -- an action
    by_cases hptr : ∃ o v, a = .write (.ptr o) v
    · obtain ⟨o, v, rfl⟩ := hptr
      have t0 : t = 0 := by
        by_contra hne
        have := I.others t th hne ht
        rw [hc] at this
        exact this.1 o v rfl
      subst t0
      have ho := I.owner th ht
      rw [hc] at ho
      obtain ⟨h1, h2⟩ : lo o ≤ v ∧ Owns k (upd lo o (v + 1)) := ho
      refine ⟨upd lo o (v + 1), seen, by simpa using hlt, ?_, ?_, ?_, ?_, ?_, ?_, ?_, ?_, ?_, ?_⟩
      · intro th' hth
        rcases set_get hth with ⟨_, rfl⟩ | ⟨hne, _⟩
        · exact h2
        · exact (hne rfl).elim
      · intro t' th' hne hth
        rcases set_get hth with ⟨rfl, _⟩ | ⟨_, hth⟩
        · exact (hne rfl).elim
        · exact I.others t' th' hne hth
      · intro i e o' v' hi he
        have mono : lo o' ≤ upd lo o (v + 1) o' := by
          simp only [upd]; split
          · rename_i e; subst e; omega
          · exact Nat.le_refl _
        rcases snoc_get.mp hi with hi | ⟨_, rfl⟩
        · obtain ⟨e1, e2⟩ := I.ptr0 i e o' v' hi he
          exact ⟨e1, by omega⟩
        · obtain ⟨rfl, rfl⟩ : o = o' ∧ v = v' := by simpa using he
          exact ⟨rfl, by simp [upd]⟩
      · intro i e o' n v' hi he
        rcases snoc_get.mp hi with hi | ⟨_, rfl⟩
        · exact I.body0 i e o' n v' hi he
        · simp at he
      · intro o'
        simp only [upd]; split
        · omega
        · exact I.pos o'
      · intro i p e f o' n v' hi he hp hf
        rcases snoc_get.mp hi with hi | ⟨_, rfl⟩
        · rcases snoc_get.mp hp with hp | ⟨hp, _⟩
          · exact I.order i p e f o' n v' hi he hp hf
          · have := hnew hi; omega
        · simp at he
      · intro t' o' n hs
        obtain ⟨q, hq⟩ := I.got t' o' n hs
        exact ⟨q, snoc_get.mpr (.inl hq)⟩
      · intro j e o' n v' hj he
        rcases snoc_get.mp hj with hj | ⟨_, rfl⟩
        · obtain ⟨q, h3, h4⟩ := I.looked j e o' n v' hj he
          exact ⟨q, h3, snoc_get.mpr (.inl h4)⟩
        · simp at he
      · intro o'
        by_cases ho' : o' = o
        · subst ho'
          refine .inr ⟨c.trace.length, _, snoc_get.mpr (.inr ⟨rfl, rfl⟩), ?_⟩
          simp [Cfg.effect, upd]
        · have e : (c.effect 0 (.write (.ptr o) v)).mem (.ptr o') = c.mem (.ptr o') := by simp [Cfg.effect, upd, ho']
          rcases I.now o' with h3 | ⟨p, e', h3, h4⟩
          · exact .inl (by simpa [e] using h3)
          · exact .inr ⟨p, e', snoc_get.mpr (.inl h3), by rw [h4]; simp [e]⟩
      · intro q e o' n hq he
        rcases snoc_get.mp hq with hq | ⟨_, rfl⟩
        · rcases I.then' q e o' n hq he with h3 | ⟨p, f, h3, h4, h5⟩
          · exact .inl h3
          · exact .inr ⟨p, f, h3, snoc_get.mpr (.inl h4), h5⟩
        · simp at he
    · have hmem : ∀ o, (c.effect t a).mem (.ptr o) = c.mem (.ptr o) := by
        intro o
        cases a with
        | write x v =>
          simp only [Cfg.effect, upd]
          split
          · rename_i e; subst e; exact (hptr ⟨o, v, rfl⟩).elim
          · rfl
        | _ => rfl
      have hbody : ∀ o n v, a = .write (.body o n) v → t = 0 ∧ lo o ≤ n := by
        rintro o n v rfl
        have t0 : t = 0 := by
          by_contra hne
          have := I.others t th hne ht
          rw [hc] at this
          exact this.2.1 o n v rfl
        subst t0
        have ho := I.owner th ht
        rw [hc] at ho
        exact ⟨rfl, ho.1⟩
      refine ⟨lo, seen, by simpa using I.some0, ?_, ?_, ?_, ?_, I.pos, ?_, ?_, ?_, ?_, ?_⟩
      · intro th' hth
        rcases set_get hth with ⟨e, rfl⟩ | ⟨hne, hth⟩
        · subst e
          have ho := I.owner th ht
          rw [hc] at ho
          cases a with
          | write x v =>
            cases x with
            | ptr o => exact (hptr ⟨o, v, rfl⟩).elim
            | body o n => exact ho.2
            | _ => exact ho
          | _ => exact ho
        · exact I.owner th' hth
      · intro t' th' hne hth
        rcases set_get hth with ⟨rfl, rfl⟩ | ⟨_, hth⟩
        · have := I.others t' th hne ht
          rw [hc] at this
          exact this.2.2
        · exact I.others t' th' hne hth
      · intro i e o v hi he
        rcases snoc_get.mp hi with hi | ⟨_, rfl⟩
        · exact I.ptr0 i e o v hi he
        · simp at he; exact (hptr ⟨o, v, he⟩).elim
      · intro i e o n v hi he
        rcases snoc_get.mp hi with hi | ⟨_, rfl⟩
        · exact I.body0 i e o n v hi he
        · obtain ⟨h1, h2⟩ := hbody o n v (by simpa using he)
          exact ⟨h1, Nat.le_trans (I.pos o) h2⟩
      · intro i p e f o n v hi he hp hf
        rcases snoc_get.mp hp with hp | ⟨_, rfl⟩
        · rcases snoc_get.mp hi with hi | ⟨_, rfl⟩
          · exact I.order i p e f o n v hi he hp hf
          · obtain ⟨h1, h2⟩ := hbody o n v (by simpa using he)
            have := (I.ptr0 p f o n hp hf).2
            omega
        · simp at hf; exact (hptr ⟨o, n, hf⟩).elim
      · intro t' o' n hs
        obtain ⟨q, hq⟩ := I.got t' o' n hs
        exact ⟨q, snoc_get.mpr (.inl hq)⟩
      · intro j e o' n v' hj he
        rcases snoc_get.mp hj with hj | ⟨_, rfl⟩
        · obtain ⟨q, h3, h4⟩ := I.looked j e o' n v' hj he
          exact ⟨q, h3, snoc_get.mpr (.inl h4)⟩
        · simp at he
      · intro o
        rcases I.now o with h3 | ⟨p, e', h3, h4⟩
        · exact .inl (by rw [← h3]; exact hmem o)
        · exact .inr ⟨p, e', snoc_get.mpr (.inl h3), by rw [h4]; simp [hmem o]⟩
      · intro q e o' n hq he
        rcases snoc_get.mp hq with hq | ⟨_, rfl⟩
        · rcases I.then' q e o' n hq he with h3 | ⟨p, f, h3, h4, h5⟩
          · exact .inl h3
          · exact .inr ⟨p, f, h3, snoc_get.mpr (.inl h4), h5⟩
        · simp at he
  · -- a read
    refine ⟨lo, upd seen t (match x with | .ptr o => (o, c.mem x) :: seen t | _ => seen t), by simpa using I.some0, ?_, ?_, ?_, ?_, I.pos, ?_, ?_, ?_, ?_, ?_⟩
    · intro th' hth
      rcases set_get hth with ⟨e, rfl⟩ | ⟨hne, hth⟩
      · subst e
        have ho := I.owner th ht
        rw [hc] at ho
        exact ho.2 _
      · exact I.owner th' hth
    · intro t' th' hne hth
      rcases set_get hth with ⟨rfl, rfl⟩ | ⟨hne', hth⟩
      · have := I.others t' th hne ht
        rw [hc] at this
        have := this.2 (c.mem x)
        cases x <;> simpa [upd] using this
      · simpa [upd, hne'] using I.others t' th' hne hth
    · intro i e o v hi he
      rcases snoc_get.mp hi with hi | ⟨_, rfl⟩
      · exact I.ptr0 i e o v hi he
      · simp at he
    · intro i e o n v hi he
      rcases snoc_get.mp hi with hi | ⟨_, rfl⟩
      · exact I.body0 i e o n v hi he
      · simp at he
    · intro i p e f o n v hi he hp hf
      rcases snoc_get.mp hp with hp | ⟨_, rfl⟩
      · rcases snoc_get.mp hi with hi | ⟨_, rfl⟩
        · exact I.order i p e f o n v hi he hp hf
        · simp at he
      · simp at hf
    · intro t' o n hs
      have old : (o, n) ∈ seen t' → ∃ q : Nat, (c.trace ++ [⟨t, .read x (c.mem x)⟩])[q]? = some ⟨t', .read (.ptr o) n⟩ := by
        intro hs
        obtain ⟨q, hq⟩ := I.got t' o n hs
        exact ⟨q, snoc_get.mpr (.inl hq)⟩
      by_cases htt : t' = t
      · subst htt
        cases x with
        | ptr o' =>
          have hs : (o, n) = (o', c.mem (.ptr o')) ∨ (o, n) ∈ seen t' := by simpa [upd] using hs
          rcases hs with hs | hs
          · obtain ⟨rfl, rfl⟩ := by simpa using hs
            exact ⟨c.trace.length, snoc_get.mpr (.inr ⟨rfl, rfl⟩)⟩
          · exact old hs
        | _ => exact old (by simpa [upd] using hs)
      · exact old (by simpa [upd, htt] using hs)
    · intro j e o n v hj he
      rcases snoc_get.mp hj with hj | ⟨hj2, rfl⟩
      · obtain ⟨q, h3, h4⟩ := I.looked j e o n v hj he
        exact ⟨q, h3, snoc_get.mpr (.inl h4)⟩
      · obtain ⟨rfl, _⟩ : x = .body o n ∧ _ := by simpa using he
        have t0 : t ≠ 0 := by
          rintro rfl
          have ho := I.owner th ht
          rw [hc] at ho
          exact ho.1 o n rfl
        have := I.others t th t0 ht
        rw [hc] at this
        obtain ⟨q, hq⟩ := I.got t o n (this.1 o n rfl)
        exact ⟨q, by rw [hj2]; exact hnew hq, snoc_get.mpr (.inl hq)⟩
    · intro o
      rcases I.now o with h3 | ⟨p, e', h3, h4⟩
      · exact .inl h3
      · exact .inr ⟨p, e', snoc_get.mpr (.inl h3), h4⟩
    · intro q e o n hq he
      rcases snoc_get.mp hq with hq | ⟨hq2, rfl⟩
      · rcases I.then' q e o n hq he with h3 | ⟨p, f, h3, h4, h5⟩
        · exact .inl h3
        · exact .inr ⟨p, f, h3, snoc_get.mpr (.inl h4), h5⟩
      · obtain ⟨rfl, rfl⟩ : x = .ptr o ∧ c.mem x = n := by simpa using he
        rcases I.now o with h3 | ⟨p, e', h3, h4⟩
        · exact .inl h3
        · exact .inr ⟨p, e', by rw [hq2]; exact hnew h3, snoc_get.mpr (.inl h3), h4⟩
  · -- a new goroutine
    refine ⟨lo, upd seen c.threads.length [], by simp, ?_, ?_, ?_, ?_, I.pos, ?_, ?_, ?_, ?_, ?_⟩
    · intro th' hth
      rcases snoc_get.mp hth with hth | ⟨h0, _⟩
      · rcases set_get hth with ⟨e, rfl⟩ | ⟨hne, hth⟩
        · subst e
          have ho := I.owner th ht
          rw [hc] at ho
          exact ho.2
        · exact I.owner th' hth
      · simp at h0; omega
    · intro t' th' hne hth
      rcases snoc_get.mp hth with hth | ⟨h0, rfl⟩
      · rcases set_get hth with ⟨rfl, rfl⟩ | ⟨hne', hth⟩
        · have := I.others t' th hne ht
          rw [hc] at this
          have hl : t' ≠ c.threads.length := by omega
          simpa [upd, hl] using this.2
        · have hl : t' ≠ c.threads.length := by have := lt_of_get hth; omega
          simpa [upd, hl] using I.others t' th' hne hth
      · rw [List.length_set] at h0
        subst h0
        have hd : Follows d [] := by
          by_cases t0 : t = 0
          · subst t0
            have ho := I.owner th ht
            rw [hc] at ho
            exact ho.1
          · have := I.others t th t0 ht
            rw [hc] at this
            exact this.1
        simpa [upd] using hd
    · intro i e o v hi he
      rcases snoc_get.mp hi with hi | ⟨_, rfl⟩
      · exact I.ptr0 i e o v hi he
      · simp at he
    · intro i e o n v hi he
      rcases snoc_get.mp hi with hi | ⟨_, rfl⟩
      · exact I.body0 i e o n v hi he
      · simp at he
    · intro i p e f o n v hi he hp hf
      rcases snoc_get.mp hp with hp | ⟨_, rfl⟩
      · rcases snoc_get.mp hi with hi | ⟨_, rfl⟩
        · exact I.order i p e f o n v hi he hp hf
        · simp at he
      · simp at hf
    · intro t' o n hs
      have hs : (o, n) ∈ seen t' := by
        simp only [upd] at hs
        split at hs
        · simp at hs
        · exact hs
      obtain ⟨q, hq⟩ := I.got t' o n hs
      exact ⟨q, snoc_get.mpr (.inl hq)⟩
    · intro j e o n v hj he
      rcases snoc_get.mp hj with hj | ⟨hj2, rfl⟩
      · obtain ⟨q, h3, h4⟩ := I.looked j e o n v hj he
        exact ⟨q, h3, snoc_get.mpr (.inl h4)⟩
      · simp at he
    · intro o
      rcases I.now o with h3 | ⟨p, e', h3, h4⟩
      · exact .inl h3
      · exact .inr ⟨p, e', snoc_get.mpr (.inl h3), h4⟩
    · intro q e o n hq he
      rcases snoc_get.mp hq with hq | ⟨hq2, rfl⟩
      · rcases I.then' q e o n hq he with h3 | ⟨p, f, h3, h4, h5⟩
        · exact .inl h3
        · exact .inr ⟨p, f, h3, snoc_get.mpr (.inl h4), h5⟩
      · simp at he
  · exact ⟨lo, seen, I.some0, I.owner, I.others, I.ptr0, I.body0, I.pos, I.order, I.got, I.looked, I.now, I.then'⟩

theorem PubInv.run : ∀ (sched : List Nat) {lo : Obj → Nat} {seen : Nat → List (Obj × Nat)} {c c' : Cfg}, PubInv lo seen c →
    c.run sched = some c' → ∃ lo' seen', PubInv lo' seen' c'
  | [], lo, seen, c, c', I, h => by
    simp only [Cfg.run, Option.some.injEq] at h; subst h; exact ⟨lo, seen, I⟩
  | t :: ts, lo, seen, c, c', I, h => by
    unfold Cfg.run at h
    cases hs : c.step t with
    | none => rw [hs] at h; simp at h
    | some c1 =>
      rw [hs] at h
      obtain ⟨lo', seen', I'⟩ := I.step hs
      exact PubInv.run ts I' h

theorem PubInv.start {rs : List Round} {reqs : List Request} (h : Owns (program rs reqs) (fun _ => 1)) :
    PubInv (fun _ => 1) (fun _ => []) (Cfg.start rs reqs) := by
  refine ⟨by simp [Cfg.start], ?_, ?_, by simp [Cfg.start], by simp [Cfg.start], by simp, by simp [Cfg.start], by simp, by simp [Cfg.start],
    by simp [Cfg.start], by simp [Cfg.start]⟩
  · intro th ht
    simp [Cfg.start] at ht; subst ht; exact h
  · intro t th hne ht
    cases t with
    | zero => exact (hne rfl).elim
    | succ t => simp [Cfg.start] at ht

/-- Objects published under a lock are free of races, all of them, although they are looked at without the lock. -/
theorem body_no_race {g : Var → Option Mu} {q : Bool} {held : Nat → Option (Mu × Bool)} {lo : Obj → Nat} {seen : Nat → List (Obj × Nat)} {c : Cfg}
    (L : LockInv g q held c) (P : PubInv lo seen c) {o : Obj} {m : Mu} (hg : g (.ptr o) = some m) (n : Nat) : ¬ Race c.trace (.body o n) := by
  have key : ∀ (i j : Nat) (a b : Ev), c.trace[i]? = some a → c.trace[j]? = some b → a.tid ≠ b.tid → Writes a (.body o n) → Touches b (.body o n) →
      HB c.trace i j := by
    rintro i j a b ha hb hne ⟨v, hv⟩ ht
    obtain ⟨a0, hn⟩ := P.body0 i a o n v ha hv
    rcases ht with ⟨w, hw⟩ | ⟨w, hw⟩
    · obtain ⟨r, hrj, hr⟩ := P.looked j b o n w hb hw
      rcases P.then' r _ o n hr rfl with h0 | ⟨p, f, hpr, hp, hf⟩
      · omega
      · have hip := P.order i p a f o n v ha hv hp hf
        have f0 := (P.ptr0 p f o n hp hf).1
        have h1 : HB c.trace i p := hb_same hip ha hp (by rw [a0, f0])
        have h2 : HB c.trace p r := L.ordered hg hpr hp hr (by rw [f0, ← a0]; exact hne) (.inr ⟨n, hf⟩) (.inl ⟨n, rfl⟩) (.inl ⟨n, hf⟩)
        exact .trans _ _ _ h1 (.trans _ _ _ h2 (hb_same hrj hr hb rfl))
    · exact (hne (by rw [a0, (P.body0 j b o n w hb hw).1])).elim
  rintro ⟨i, j, a, b, ha, hb, hne, hta, htb, hw, n1, n2⟩
  rcases hw with hw | hw
  · exact n1 (key i j a b ha hb hne hw htb)
  · exact n2 (key j i b a hb ha (Ne.symm hne) hw hta)

/-! ### The code of the program -/

/-- The lock of each field. With `info`, requests for the info page are served, and `ROAList` has no lock that all respect. -/
def guardOf (info : Bool) : Var → Option Mu
  | .ptr .list => if info then none else some (.ptrMu .list)
  | .ptr o => some (.ptrMu o)
  | .rrdpFetch => some .fetchMu
  | .rrdpDomain => some .domainMu
  | .rsyncJobs => some .jobsMu
  | .rrdpInfo => some .infoMu
  | _ => none

section
variable {info q : Bool}

theorem obeys_forks {ws : List Code} {k : Code} (hw : ∀ w ∈ ws, Plain w ∧ Obeys (guardOf info) q w none) (hk : Obeys (guardOf info) q k none) :
    Obeys (guardOf info) q (forks ws k) none := by
  induction ws with
  | nil => exact hk
  | cons w ws ih => exact ⟨rfl, fun _ => (hw w (by simp)).1, (hw w (by simp)).2, ih fun w hw' => hw w (by simp [hw'])⟩

theorem obeys_locked {m : Mu} {x : Var} {v : Nat} {k : Code} (hx : ∀ m', guardOf info x = some m' → m' = m) (hk : Obeys (guardOf info) q k none) :
    Obeys (guardOf info) q (locked m [.write x v] k) none :=
  ⟨rfl, fun m' h => by rw [hx m' h], rfl, hk⟩

theorem obeys_rlocked {m : Mu} {x : Var} {k : Nat → Code} (hx : ∀ m', guardOf info x = some m' → m' = m) (hk : ∀ v, Obeys (guardOf info) q (k v) none) :
    Obeys (guardOf info) q (rlocked m x k) none :=
  ⟨rfl, fun m' h => ⟨false, by rw [hx m' h]⟩, fun v => ⟨rfl, hk v⟩⟩

theorem plain_rrdpWorker (jobs : List RrdpEnd) : Plain (rrdpWorker jobs) := by
  induction jobs with
  | nil => trivial
  | cons e jobs ih =>
    show Plain (fetchRRDP e (rrdpWorker jobs))
    cases e <;> simp [fetchRRDP, rlocked, locked, acts, Plain, ih]

theorem plain_rsyncWorker (n : Nat) : Plain (rsyncWorker n) := by
  induction n with
  | zero => trivial
  | succ n ih => exact ⟨by simp, by simp, ih⟩

theorem obeys_rrdpWorker (jobs : List RrdpEnd) : Obeys (guardOf info) q (rrdpWorker jobs) none := by
  induction jobs with
  | nil => rfl
  | cons e jobs ih =>
    show Obeys _ _ (fetchRRDP e (rrdpWorker jobs)) none
    unfold fetchRRDP
    refine obeys_rlocked (by simp [guardOf]) fun _ => obeys_rlocked (by simp [guardOf]) fun _ => ⟨rfl, ?_⟩
    cases e with
    | success => exact obeys_locked (by simp [guardOf]) (obeys_locked (by simp [guardOf]) ih)
    | failover => exact ih
    | dropped => exact obeys_locked (by simp [guardOf]) ih

theorem obeys_rsyncWorker (n : Nat) : Obeys (guardOf info) q (rsyncWorker n) none := by
  induction n with
  | zero => rfl
  | succ n ih => exact ⟨rfl, ih⟩

theorem obeys_doRRDP {r : Round} {k : Code} (hk : Obeys (guardOf info) q k none) : Obeys (guardOf info) q (doRRDP r k) none := by
  unfold doRRDP
  have hs : Obeys (guardOf info) q (if r.rrdpFile then rlocked .infoMu .rrdpInfo fun _ => .act .outside k else k) none := by
    split
    · exact obeys_rlocked (by simp [guardOf]) fun _ => ⟨rfl, hk⟩
    · exact hk
  have hf := obeys_rlocked (info := info) (q := q) (m := .fetchMu) (x := .rrdpFetch)
    (k := fun _ => forks (r.rrdpJobs.map rrdpWorker) (.act .wait (if r.rrdpFile then rlocked .infoMu .rrdpInfo fun _ => .act .outside k else k)))
    (by simp [guardOf]) (fun _ => obeys_forks (by
      intro w hw
      obtain ⟨j, _, rfl⟩ := List.mem_map.mp hw
      exact ⟨plain_rrdpWorker j, obeys_rrdpWorker j⟩) ⟨rfl, hs⟩)
  simp only
  split
  · exact ⟨rfl, obeys_locked (by simp [guardOf]) hf⟩
  · exact hf

theorem obeys_mainTAL {tals : List Bool} {k : Code} (hk : Obeys (guardOf info) q k none) : Obeys (guardOf info) q (mainTAL tals k) none := by
  refine ⟨by simp [guardOf], fun _ => ?_⟩
  induction tals with
  | nil => exact ⟨by simp [guardOf], hk⟩
  | cons b tals ih =>
    refine ⟨rfl, ?_⟩
    split
    · exact obeys_locked (by simp [guardOf]) ih
    · exact ih

theorem obeys_mainRsync {jobs : List Nat} {k : Code} (hk : Obeys (guardOf info) q k none) : Obeys (guardOf info) q (mainRsync jobs k) none :=
  obeys_rlocked (by simp [guardOf]) fun _ => obeys_forks (by
    intro w hw
    obtain ⟨j, _, rfl⟩ := List.mem_map.mp hw
    exact ⟨plain_rsyncWorker j, obeys_rsyncWorker j⟩) ⟨rfl, hk⟩

theorem obeys_oneCert {n : Nat} {c : Option Bool} {k : Code} (hk : Obeys (guardOf info) q k none) : Obeys (guardOf info) q (oneCert n c k) none := by
  have hr : Obeys (guardOf info) q (locked .jobsMu [.write .rsyncJobs 0] (acts [.write .currentRepos 0, .write (.body .authorities n) 0] k)) none :=
    obeys_locked (by simp [guardOf]) ⟨by simp [guardOf], by simp [guardOf], hk⟩
  unfold oneCert
  match c with
  | none => exact hr
  | some false => exact obeys_rlocked (by simp [guardOf]) fun _ => hk
  | some true => exact obeys_rlocked (by simp [guardOf]) fun _ => obeys_locked (by simp [guardOf]) (obeys_locked (by simp [guardOf]) hr)

theorem obeys_oneTal {n : Nat} {f : Nat × List (Option Bool)} {k : Code} (hk : Obeys (guardOf info) q k none) :
    Obeys (guardOf info) q (oneTal n f k) none := by
  refine ⟨rfl, by simp [guardOf], fun _ => ?_⟩
  have hc : Obeys (guardOf info) q (f.2.foldr (oneCert n) k) none := by
    induction f.2 with
    | nil => exact hk
    | cons c l ih => exact obeys_oneCert ih
  induction f.1 with
  | zero => exact hc
  | succ i ih => exact ⟨by simp [guardOf], ih⟩

theorem obeys_mainValidation {n : Nat} {r : Round} {k : Code} (hk : Obeys (guardOf info) q k none) :
    Obeys (guardOf info) q (mainValidation n r k) none := by
  refine ⟨by simp [guardOf], ?_⟩
  have ht : ∀ {k : Code}, Obeys (guardOf info) q k none → Obeys (guardOf info) q (r.found.foldr (oneTal n) k) none := by
    intro k hk
    induction r.found with
    | nil => exact hk
    | cons c l ih => exact obeys_oneTal ih
  refine ht (obeys_locked (by simp [guardOf]) ?_)
  refine ⟨by simp [guardOf], by simp [guardOf], by simp [guardOf], by simp [guardOf], by simp [guardOf], obeys_locked (by simp [guardOf]) ?_⟩
  exact obeys_locked (by cases info <;> simp [guardOf]) ⟨by simp [guardOf], by simp [guardOf], fun _ => ⟨by simp [guardOf], fun _ => hk⟩⟩

theorem obeys_round {n : Nat} {r : Round} {k : Code} (hk : Obeys (guardOf info) q k none) : Obeys (guardOf info) q (round n r k) none := by
  unfold round
  have hl : Obeys (guardOf info) q (if r.pause then .get .lastComputed fun _ => acts [.outside, .store .stable] k else k) none := by
    split
    · exact ⟨by simp [guardOf], fun _ => ⟨rfl, hk⟩⟩
    · exact hk
  have hrest := obeys_mainTAL (info := info) (q := q) (tals := r.tals) (obeys_mainRsync (jobs := r.rsyncJobs) (obeys_mainValidation (n := n) (r := r)
    (k := mainReduce (acts [.load .iterations, .store .stable, .load .stable, .store .previous, .load .stable, .load .stable]
      (if r.pause then .get .lastComputed fun _ => acts [.outside, .store .stable] k else k)))
    ⟨by simp [guardOf], fun _ => ⟨by simp [guardOf], fun _ => ⟨by simp [guardOf], by simp [guardOf], fun _ => hl⟩⟩⟩))
  simp only
  show Obeys _ _ (if r.rrdp then _ else _) none
  split
  · exact obeys_doRRDP hrest
  · exact hrest

theorem obeys_rounds : ∀ (rs : List Round) (n : Nat), Obeys (guardOf info) q (rounds n rs) none
  | [], _ => rfl
  | _ :: rs, n => obeys_round (obeys_rounds rs (n + 1))

theorem obeys_handler {r : Request} (hi : r = .info → info = true) (hq : r = .resources true → q = false) :
    Obeys (guardOf info) q (handler r) none := by
  match r with
  | .roas false _ => exact ⟨fun _ => rfl, rfl⟩
  | .roas true modified =>
    refine ⟨by simp [guardOf], fun _ => ?_⟩
    refine obeys_rlocked (by cases info <;> simp [guardOf]) fun n => ⟨by simp [guardOf], fun _ => ?_⟩
    split
    · exact ⟨by simp [guardOf], fun _ => ⟨fun _ => rfl, rfl⟩⟩
    · exact ⟨fun _ => rfl, rfl⟩
  | .resources false => exact ⟨fun _ => rfl, rfl⟩
  | .resources true =>
    refine ⟨rfl, by simp [guardOf], fun n => ⟨by simp [guardOf], fun _ => ⟨?_, rfl, rfl⟩⟩⟩
    intro h; rw [hq rfl] at h; cases h
  | .info =>
    obtain rfl := hi rfl
    refine obeys_rlocked (by simp [guardOf]) fun n => ⟨by simp [guardOf], fun _ => ⟨by simp [guardOf], fun l => ⟨by simp [guardOf], fun _ =>
      ⟨by simp [guardOf], fun _ => ⟨by simp [guardOf], fun _ => ⟨by simp [guardOf], fun _ => ⟨fun _ => rfl, rfl⟩⟩⟩⟩⟩⟩⟩
  | .health => exact ⟨fun _ => rfl, rfl⟩

theorem obeys_program (rs : List Round) (reqs : List Request) (hi : .info ∈ reqs → info = true) (hq : .resources true ∈ reqs → q = false) :
    Obeys (guardOf info) q (program rs reqs) none := by
  refine ⟨rfl, by simp, ?_, obeys_rounds rs 1⟩
  induction reqs with
  | nil => rfl
  | cons r reqs ih =>
    exact ⟨rfl, by simp, obeys_handler (fun e => hi (by simp [e])) (fun e => hq (by simp [e])), ih (fun h => hi (by simp [h])) (fun h => hq (by simp [h]))⟩
end

theorem follows_rrdpWorker (jobs : List RrdpEnd) : Follows (rrdpWorker jobs) [] := by
  induction jobs with
  | nil => trivial
  | cons e jobs ih =>
    show Follows (fetchRRDP e (rrdpWorker jobs)) []
    cases e <;> simp [fetchRRDP, rlocked, locked, acts, Follows, ih]

theorem follows_rsyncWorker (n : Nat) : Follows (rsyncWorker n) [] := by
  induction n with
  | zero => trivial
  | succ n ih => exact ⟨by simp, by simp, ih⟩

theorem follows_handler (r : Request) : Follows (handler r) [] := by
  match r with
  | .roas false _ => simp [handler, acts, Follows]
  | .roas true true => simp [handler, acts, Follows, rlocked]
  | .roas true false => simp [handler, acts, Follows, rlocked]
  | .resources false => simp [handler, acts, Follows]
  | .resources true => simp [handler, acts, Follows]
  | .info => simp [handler, acts, Follows, rlocked]
  | .health => simp [handler, acts, Follows]

theorem follows_serve (reqs : List Request) : Follows (serve reqs) [] := by
  induction reqs with
  | nil => trivial
  | cons r reqs ih => exact ⟨follows_handler r, ih⟩

theorem owns_forks {ws : List Code} {k : Code} {lo : Obj → Nat} (hw : ∀ w ∈ ws, Follows w []) (hk : Owns k lo) : Owns (forks ws k) lo := by
  induction ws with
  | nil => exact hk
  | cons w ws ih => exact ⟨hw w (by simp), ih fun w hw' => hw w (by simp [hw'])⟩

theorem owns_doRRDP {r : Round} {k : Code} {lo : Obj → Nat} (hk : Owns k lo) : Owns (doRRDP r k) lo := by
  have hf : ∀ {k : Code}, Owns k lo → Owns (forks (r.rrdpJobs.map rrdpWorker) k) lo := fun hk => owns_forks (by
    intro w hw
    obtain ⟨j, _, rfl⟩ := List.mem_map.mp hw
    exact follows_rrdpWorker j) hk
  have hs : Owns (if r.rrdpFile then rlocked .infoMu .rrdpInfo fun _ => .act .outside k else k) lo := by
    split
    · simp [rlocked, Owns, hk]
    · exact hk
  unfold doRRDP
  simp only
  split
  · simp only [rlocked, locked, acts, List.foldr, Owns]
    exact ⟨by simp, fun _ => hf hs⟩
  · simp only [rlocked, Owns]
    exact ⟨by simp, fun _ => hf hs⟩

theorem owns_mainTAL {tals : List Bool} {k : Code} {lo : Obj → Nat} (hk : Owns k lo) : Owns (mainTAL tals k) lo := by
  refine ⟨by simp, fun _ => ?_⟩
  induction tals with
  | nil => exact hk
  | cons b tals ih =>
    simp only [List.foldr, Owns]
    split
    · exact ih
    · exact ih

theorem owns_mainRsync {jobs : List Nat} {k : Code} {lo : Obj → Nat} (hk : Owns k lo) : Owns (mainRsync jobs k) lo := by
  refine ⟨by simp, fun _ => owns_forks (by
    intro w hw
    obtain ⟨j, _, rfl⟩ := List.mem_map.mp hw
    exact follows_rsyncWorker j) hk⟩

theorem owns_oneCert {n : Nat} {c : Option Bool} {k : Code} {lo : Obj → Nat} (hn : lo .authorities ≤ n) (hk : Owns k lo) : Owns (oneCert n c k) lo := by
  unfold oneCert
  match c with
  | none => exact ⟨hn, hk⟩
  | some false => exact ⟨by simp, fun _ => hk⟩
  | some true => exact ⟨by simp, fun _ => ⟨hn, hk⟩⟩

theorem owns_oneTal {n : Nat} {f : Nat × List (Option Bool)} {k : Code} {lo : Obj → Nat} (hn : lo .authorities ≤ n) (hk : Owns k lo) :
    Owns (oneTal n f k) lo := by
  refine ⟨by simp, fun _ => ?_⟩
  have hc : Owns (f.2.foldr (oneCert n) k) lo := by
    induction f.2 with
    | nil => exact hk
    | cons c l ih => exact owns_oneCert hn ih
  induction f.1 with
  | zero => exact hc
  | succ i ih => exact ih

theorem owns_mainValidation {n : Nat} {r : Round} {k : Code} (hk : Owns k (fun _ => n + 1)) : Owns (mainValidation n r k) (fun _ => n) := by
  refine ⟨Nat.le_refl _, ?_⟩
  have ht : ∀ {k : Code}, Owns k (fun _ => n) → Owns (r.found.foldr (oneTal n) k) (fun _ => n) := by
    intro k hk
    induction r.found with
    | nil => exact hk
    | cons c l ih => exact owns_oneTal (Nat.le_refl _) ih
  refine ht ⟨Nat.le_refl _, ?_⟩
  refine ⟨by simp [upd], by simp [upd], by simp [upd], by simp [upd], by simp [upd], by simp, fun _ => ⟨by simp, fun _ => ?_⟩⟩
  have : upd (upd (upd (fun _ => n) Obj.authorities (n + 1)) .resources (n + 1)) .list (n + 1) = fun _ => n + 1 := by
    funext o; cases o <;> simp [upd]
  rw [this]
  exact hk

theorem owns_round {n : Nat} {r : Round} {k : Code} (hk : Owns k (fun _ => n + 1)) : Owns (round n r k) (fun _ => n) := by
  unfold round
  have hl : Owns (if r.pause then .get .lastComputed fun _ => acts [.outside, .store .stable] k else k) (fun _ => n + 1) := by
    split
    · exact ⟨by simp, fun _ => hk⟩
    · exact hk
  have hrest := owns_mainTAL (tals := r.tals) (owns_mainRsync (jobs := r.rsyncJobs) (owns_mainValidation (n := n) (r := r)
    (k := mainReduce (acts [.load .iterations, .store .stable, .load .stable, .store .previous, .load .stable, .load .stable]
      (if r.pause then .get .lastComputed fun _ => acts [.outside, .store .stable] k else k)))
    ⟨by simp, fun _ => ⟨by simp, fun _ => ⟨by simp, fun _ => hl⟩⟩⟩))
  simp only
  show Owns (if r.rrdp then _ else _) _
  split
  · exact owns_doRRDP hrest
  · exact hrest

theorem owns_rounds : ∀ (rs : List Round) (n : Nat), Owns (rounds n rs) (fun _ => n)
  | [], _ => trivial
  | _ :: rs, n => owns_round (owns_rounds rs (n + 1))

theorem owns_program (rs : List Round) (reqs : List Request) : Owns (program rs reqs) (fun _ => 1) :=
  ⟨follows_serve reqs, owns_rounds rs 1⟩

end Verif.Conc
