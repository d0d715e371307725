import Verif.Lemmas.Conc
/-
  Lemmas on goroutines with locks: nobody has to wait for ever when no lock is held while something slow happens.
-/
set_option autoImplicit false

namespace Verif.Conc
open ConcSpec

theorem run_append : ∀ (s1 : List Nat) {s2 : List Nat} {c c1 : Cfg}, c.run s1 = some c1 → c.run (s1 ++ s2) = c1.run s2
  | [], s2, c, c1, h => by simp only [Cfg.run, Option.some.injEq] at h; subst h; rfl
  | t :: ts, s2, c, c1, h => by
    unfold Cfg.run at h
    rw [List.cons_append, Cfg.run]
    cases hs : c.step t with
    | none => rw [hs] at h; simp at h
    | some c' => rw [hs] at h; exact run_append ts h

theorem run_trace : ∀ (s : List Nat) {c c' : Cfg}, c.run s = some c' → ∃ more, c'.trace = c.trace ++ more
  | [], c, c', h => by simp only [Cfg.run, Option.some.injEq] at h; subst h; exact ⟨[], by simp⟩
  | t :: ts, c, c', h => by
    unfold Cfg.run at h
    cases hs : c.step t with
    | none => rw [hs] at h; simp at h
    | some c1 =>
      rw [hs] at h
      obtain ⟨more, hm⟩ := run_trace ts h
      obtain ⟨th, _, hv⟩ := step_view hs
      rcases hv with ⟨a, k, _, _, rfl⟩ | ⟨x, k, _, rfl⟩ | ⟨w, d, k, _, rfl⟩ | ⟨m, k, _, _, _, rfl⟩
      · exact ⟨_, by rw [hm, List.append_assoc]⟩
      · exact ⟨_, by rw [hm, List.append_assoc]⟩
      · exact ⟨_, by rw [hm, List.append_assoc]⟩
      · exact ⟨more, hm⟩

theorem _root_.Verif.ConcSpec.Only.refl (P : Ev → Prop) (c : Cfg) : Only P c c := ⟨[], [], rfl, by simp, by simp⟩

theorem _root_.Verif.ConcSpec.Only.trans {P : Ev → Prop} {a b c : Cfg} (h1 : Only P a b) (h2 : Only P b c) : Only P a c := by
  obtain ⟨s1, n1, r1, t1, f1⟩ := h1
  obtain ⟨s2, n2, r2, t2, f2⟩ := h2
  refine ⟨s1 ++ s2, n1 ++ n2, by rw [run_append s1 r1, r2], by rw [t2, t1, List.append_assoc], ?_⟩
  intro e he
  rcases List.mem_append.mp he with he | he
  · exact f1 e he
  · exact f2 e he

theorem _root_.Verif.ConcSpec.Only.one {P : Ev → Prop} {c c' : Cfg} {t : Nat} {e : Ev} (h : c.step t = some c') (ht : c'.trace = c.trace ++ [e]) (he : P e) :
    Only P c c' :=
  ⟨[t], [e], by simp [Cfg.run, h], ht, by simpa using he⟩

/-- Events that are no answer, nothing slow and no waiting for workers are in `P`. -/
def Allows (P : Ev → Prop) : Prop := ∀ e : Ev, e.op ≠ .act .client → e.op ≠ .act .outside → e.op ≠ .act .wait → P e

theorem allows_noClient : Allows NoClient := fun _ h _ _ => h
theorem allows_quick (t : Nat) : Allows (Quick t) := fun _ h1 h2 h3 => ⟨h2, h3, fun h => (h1 h).elim⟩

theorem step_act {c : Cfg} {t : Nat} {w : Bool} {a : Act} {k : Code} (ht : c.threads[t]? = some ⟨w, .act a k⟩) (h : c.allows t a = true) :
    c.step t = some { c.effect t a with threads := c.threads.set t ⟨w, k⟩, trace := c.trace ++ [⟨t, .act a⟩] } := by
  simp [Cfg.step, ht, h]

theorem step_get {c : Cfg} {t : Nat} {w : Bool} {x : Var} {k : Nat → Code} (ht : c.threads[t]? = some ⟨w, .get x k⟩) :
    c.step t = some { c with threads := c.threads.set t ⟨w, k (c.mem x)⟩, trace := c.trace ++ [⟨t, .read x (c.mem x)⟩] } := by
  simp [Cfg.step, ht]

theorem step_fork {c : Cfg} {t : Nat} {w w' : Bool} {d k : Code} (ht : c.threads[t]? = some ⟨w, .fork w' d k⟩) :
    c.step t = some { c with
      threads := c.threads.set t ⟨w, k⟩ ++ [⟨w', d⟩], trace := c.trace ++ [⟨t, .fork c.threads.length w'⟩] } := by
  simp [Cfg.step, ht]

/-- No new writer waits. -/
def Fewer (c c' : Cfg) : Prop := ∀ m t', c'.pending m = some t' → c.pending m = some t'

/-- One step of `t` in code that forks nothing: what it leaves. -/
def Left (P : Ev → Prop) (c c' : Cfg) (t : Nat) (w : Bool) (k : Code) (held held' : Nat → Option (Mu × Bool)) : Prop :=
  Only P c c' ∧ c'.threads = c.threads.set t ⟨w, k⟩ ∧ (∀ t', t' ≠ t → held' t' = held t') ∧ Fewer c c'

theorem upd_ne {α β : Type} [DecidableEq α] (f : α → β) {a a' : α} (b : β) (h : a' ≠ a) : upd f a b a' = f a' := by simp [upd, h]
theorem upd_eq {α β : Type} [DecidableEq α] (f : α → β) (a : α) (b : β) : upd f a b a = b := by simp [upd]

variable {g : Var → Option Mu} {P : Ev → Prop}

theorem Left.glue {c c1 c2 : Cfg} {t : Nat} {w : Bool} {k1 k2 : Code} {h0 h1 h2 : Nat → Option (Mu × Bool)} (a : Left P c c1 t w k1 h0 h1)
    (b : Left P c1 c2 t w k2 h1 h2) : Left P c c2 t w k2 h0 h2 :=
  ⟨a.1.trans b.1, by rw [b.2.1, a.2.1, List.set_set], fun t' h => by rw [b.2.2.1 t' h, a.2.2.1 t' h], fun m t' h => a.2.2.2 m t' (b.2.2.2 m t' h)⟩

theorem left_self {c : Cfg} {t : Nat} {w : Bool} {k : Code} {held : Nat → Option (Mu × Bool)} (ht : c.threads[t]? = some ⟨w, k⟩) : Left P c c t w k held held :=
  ⟨Only.refl P c, by
    obtain ⟨hl, he⟩ := List.getElem?_eq_some_iff.mp ht
    rw [← he, List.set_getElem_self], fun _ _ => rfl, fun _ _ h => h⟩

/-- An enabled action. -/
theorem left_act {held : Nat → Option (Mu × Bool)} {c : Cfg} (I : LockInv g true held c) {t : Nat} {w : Bool} {a : Act} {k : Code}
    (ht : c.threads[t]? = some ⟨w, .act a k⟩) (hal : c.allows t a = true) (hP : P ⟨t, .act a⟩) :
    ∃ c', LockInv g true (upd held t (heldAfter (.act a k) (held t))) c' ∧ Left P c c' t w k held (upd held t (heldAfter (.act a k) (held t))) ∧
      c'.pending = (c.effect t a).pending := by
  have hs := step_act ht hal
  refine ⟨_, I.step ht hs (by simp), ⟨Only.one hs rfl hP, ?_, fun t' h => upd_ne _ _ h, ?_⟩, rfl⟩
  · cases a <;> rfl
  · intro m t' h
    have h : (c.effect t a).pending m = some t' := h
    cases a
    case lock m' =>
      simp only [Cfg.effect, upd] at h
      split at h
      · cases h
      · exact h
    all_goals exact h

theorem left_get (hP : Allows P) {held : Nat → Option (Mu × Bool)} {c : Cfg} (I : LockInv g true held c) {t : Nat} {w : Bool} {x : Var} {k : Nat → Code}
    (ht : c.threads[t]? = some ⟨w, .get x k⟩) :
    ∃ c', LockInv g true (upd held t (held t)) c' ∧ Left P c c' t w (k (c.mem x)) held (upd held t (held t)) := by
  have hs := step_get ht
  exact ⟨_, I.step ht hs (by simp), Only.one hs rfl (hP _ (by simp) (by simp) (by simp)), rfl, fun t' h => upd_ne _ _ h, fun _ _ h => h⟩

theorem set_self {α : Type} {l : List α} {t : Nat} {a b : α} (h : l[t]? = some a) : (l.set t b)[t]? = some b := by
  have := lt_of_get h
  simp [this]

theorem set_other {α : Type} {l : List α} {t t' : Nat} (b : α) (h : t' ≠ t) : (l.set t b)[t']? = l[t']? := by
  rw [List.getElem?_set_ne (Ne.symm h)]

/-- A goroutine that holds a lock is never kept from its next step. -/
theorem holder_free {held : Nat → Option (Mu × Bool)} {c : Cfg} (I : LockInv g true held c) {t : Nat} {w : Bool} {a : Act} {k : Code} {h : Mu × Bool}
    (ht : c.threads[t]? = some ⟨w, .act a k⟩) (hh : held t = some h) : c.allows t a = true ∧ a ≠ .client ∧ a ≠ .outside ∧ a ≠ .wait := by
  have ho := I.obeys t _ ht
  rw [hh] at ho
  cases a <;> simp only [Obeys, reduceCtorEq, false_and, Option.some.injEq] at ho
  case write => exact ⟨rfl, by simp, by simp, by simp⟩
  case unlock m => exact ⟨by simp only [Cfg.allows, decide_eq_true_eq]; rw [I.writer, hh, ho.1], by simp, by simp, by simp⟩
  case runlock m => exact ⟨by simp only [Cfg.allows, decide_eq_true_eq]; rw [I.readers, hh, ho.1], by simp, by simp, by simp⟩
  case load => exact ⟨rfl, by simp, by simp, by simp⟩
  case store => exact ⟨rfl, by simp, by simp, by simp⟩
  case client => simp at ho

/-- Nobody but `t` holds a lock or waits to write. -/
def Alone (t : Nat) (held : Nat → Option (Mu × Bool)) (c : Cfg) : Prop := (∀ t', t' ≠ t → held t' = none) ∧ ∀ m t', t' ≠ t → c.pending m ≠ some t'

theorem Alone.left {t : Nat} {w : Bool} {k : Code} {held held' : Nat → Option (Mu × Bool)} {c c' : Cfg} (h : Alone t held c) (l : Left P c c' t w k held held') :
    Alone t held' c' :=
  ⟨fun t' hne => by rw [l.2.2.1 t' hne]; exact h.1 t' hne, fun m t' hne e => h.2 m t' hne (l.2.2.2 m t' e)⟩

/-- A goroutine that is alone can do its next action, unless it waits for workers. -/
theorem alone_act {held : Nat → Option (Mu × Bool)} {c : Cfg} (I : LockInv g true held c) {t : Nat} {w : Bool} {a : Act} {k : Code}
    (ht : c.threads[t]? = some ⟨w, .act a k⟩) (hA : Alone t held c) (hw : a ≠ .wait) (hP : P ⟨t, .act a⟩) :
    ∃ c', LockInv g true (upd held t (heldAfter (.act a k) (held t))) c' ∧ Left P c c' t w k held (upd held t (heldAfter (.act a k) (held t))) := by
  cases hh : held t with
  | some h =>
    rw [← hh]
    obtain ⟨c', I', L', _⟩ := left_act (P := P) I ht (holder_free I ht hh).1 hP
    exact ⟨c', I', L'⟩
  | none =>
    have free : ∀ t', held t' = none := fun t' => by
      by_cases e : t' = t
      · rw [e]; exact hh
      · exact hA.1 t' e
    have ho := I.obeys t _ ht
    rw [hh] at ho
    have fw : ∀ m, c.writer m = none := fun m => by
      cases h : c.writer m with
      | none => rfl
      | some t' => rw [I.writer, free] at h; cases h
    have fr : ∀ m, c.readers m = [] := fun m => by
      rw [List.eq_nil_iff_forall_not_mem]
      intro t' h
      rw [I.readers, free] at h; cases h
    have plainly : c.allows t a = true → ∃ c', LockInv g true (upd held t (heldAfter (.act a k) none)) c' ∧
        Left P c c' t w k held (upd held t (heldAfter (.act a k) none)) := by
      intro hal
      rw [← hh]
      obtain ⟨c', I', L', _⟩ := left_act (P := P) I ht hal hP
      exact ⟨c', I', L'⟩
    cases a
    case lock m =>
      cases hp : c.pending m with
      | some t' =>
        have : t' = t := by
          by_contra hne
          exact hA.2 m t' hne hp
        subst this
        exact plainly (by simp [Cfg.allows, fw, fr, hp])
      | none =>
        have hs : c.step t = some { c with pending := upd c.pending m (some t) } := by
          simp [Cfg.step, ht, Cfg.allows, Cfg.announce, fw, hp]
        have I1 := I.announce hs rfl
        have ht1 : (Cfg.threads { c with pending := upd c.pending m (some t) })[t]? = some ⟨w, .act (.lock m) k⟩ := ht
        obtain ⟨c2, I2, L2, e2⟩ := left_act (P := P) I1 ht1 (by simp [Cfg.allows, fw, fr, upd]) hP
        rw [hh] at I2 L2
        refine ⟨c2, I2, Only.trans ⟨[t], [], by simp [Cfg.run, hs], by simp, by simp⟩ L2.1, L2.2.1, L2.2.2.1, ?_⟩
        intro m' t' h'
        rw [e2] at h'
        simp only [Cfg.effect, upd] at h'
        split at h'
        · cases h'
        · exact h'
    case rlock m =>
      refine plainly ?_
      have : c.pending m = none := by
        cases hp : c.pending m with
        | none => rfl
        | some t' =>
          by_cases e : t' = t
          · subst e
            obtain ⟨w', k', h'⟩ := I.pend m t' hp
            rw [ht] at h'
            simp at h'
          · exact (hA.2 m t' e hp).elim
      simp [Cfg.allows, fw, this]
    case wait => exact (hw rfl).elim
    case unlock m => cases ho.1
    case runlock m => cases ho.1
    all_goals exact plainly rfl

/-- Code that writes no answer itself. -/
def NoAnswer : Code → Prop
  | .done => True
  | .act a k => a ≠ .client ∧ NoAnswer k
  | .get _ k => ∀ v, NoAnswer (k v)
  | .fork _ _ k => NoAnswer k

/-- A goroutine that holds a lock can run on until it holds none. -/
theorem let_go (hP : Allows P) (w : Bool) (t : Nat) : ∀ (code : Code) {held : Nat → Option (Mu × Bool)} {c : Cfg}, LockInv g true held c →
    c.threads[t]? = some ⟨w, code⟩ → ∃ (k : Code) (c' : Cfg) (held' : Nat → Option (Mu × Bool)),
      LockInv g true held' c' ∧ held' t = none ∧ Left P c c' t w k held held' := by
  intro code
  induction code with
  | done =>
    intro held c I ht
    exact ⟨.done, c, held, I, I.obeys t _ ht, left_self ht⟩
  | act a k ih =>
    intro held c I ht
    cases hh : held t with
    | none => exact ⟨.act a k, c, held, I, hh, left_self ht⟩
    | some h =>
      obtain ⟨hal, n1, n2, n3⟩ := holder_free I ht hh
      obtain ⟨c1, I1, L1, _⟩ := left_act (P := P) I ht hal (hP _ (by simpa using n1) (by simpa using n2) (by simpa using n3))
      obtain ⟨k2, c2, held2, I2, h2, L2⟩ := ih I1 (by rw [L1.2.1]; exact set_self ht)
      exact ⟨k2, c2, held2, I2, h2, L1.glue L2⟩
  | get x k ih =>
    intro held c I ht
    obtain ⟨c1, I1, L1⟩ := left_get hP I ht
    obtain ⟨k2, c2, held2, I2, h2, L2⟩ := ih _ I1 (by rw [L1.2.1]; exact set_self ht)
    exact ⟨k2, c2, held2, I2, h2, L1.glue L2⟩
  | fork w' d k _ _ =>
    intro held c I ht
    exact ⟨_, c, held, I, (I.obeys t _ ht).1, left_self ht⟩

/-- All the others can run on until none of them holds a lock. -/
theorem others_let_go (hP : Allows P) (z n : Nat) : ∀ {held : Nat → Option (Mu × Bool)} {c : Cfg}, LockInv g true held c →
    ∃ (c' : Cfg) (held' : Nat → Option (Mu × Bool)), LockInv g true held' c' ∧ Only P c c' ∧ c'.threads.length = c.threads.length ∧
      c'.threads[z]? = c.threads[z]? ∧ held' z = held z ∧ ∀ t, t ≠ z → t < n → held' t = none := by
  induction n with
  | zero => intro held c I; exact ⟨c, held, I, Only.refl P c, rfl, rfl, rfl, fun t _ h => by omega⟩
  | succ n ih =>
    intro held c I
    obtain ⟨c1, held1, I1, N1, l1, z1, h1, f1⟩ := ih I
    by_cases hn : n = z
    · exact ⟨c1, held1, I1, N1, l1, z1, h1, fun t a b => f1 t a (by omega)⟩
    · cases ht : c1.threads[n]? with
      | none =>
        refine ⟨c1, held1, I1, N1, l1, z1, h1, fun t a b => ?_⟩
        by_cases e : t = n
        · rw [e]; exact I1.beyond n (List.getElem?_eq_none_iff.mp ht)
        · exact f1 t a (by omega)
      | some th =>
        obtain ⟨k, c2, held2, I2, h2, N2, s2, o2, _⟩ := let_go hP th.worker n th.code I1 ht
        refine ⟨c2, held2, I2, N1.trans N2, by rw [s2, List.length_set, l1], ?_, by rw [o2 z (Ne.symm hn), h1], fun t a b => ?_⟩
        · rw [s2, set_other _ (Ne.symm hn), z1]
        · by_cases e : t = n
          · rw [e]; exact h2
          · rw [o2 t e]; exact f1 t a (by omega)

/-- When nobody holds a lock, the others that wait to write can do so and run on until none of them waits or holds a lock. -/
theorem others_write (hP : Allows P) (z n : Nat) : ∀ {held : Nat → Option (Mu × Bool)} {c : Cfg}, LockInv g true held c → (∀ t, held t = none) →
    ∃ (c' : Cfg) (held' : Nat → Option (Mu × Bool)), LockInv g true held' c' ∧ Only P c c' ∧ c'.threads.length = c.threads.length ∧
      c'.threads[z]? = c.threads[z]? ∧ (∀ t, held' t = none) ∧ ∀ t, t ≠ z → t < n → ∀ m, c'.pending m ≠ some t := by
  induction n with
  | zero => intro held c I hf; exact ⟨c, held, I, Only.refl P c, rfl, rfl, hf, fun t _ h => by omega⟩
  | succ n ih =>
    intro held c I hf
    obtain ⟨c1, held1, I1, N1, l1, z1, h1, f1⟩ := ih I hf
    by_cases hn : n = z
    · exact ⟨c1, held1, I1, N1, l1, z1, h1, fun t a b => f1 t a (by omega)⟩
    · by_cases hp : ∃ m, c1.pending m = some n
      · obtain ⟨m, hp⟩ := hp
        obtain ⟨w, k, ht⟩ := I1.pend m n hp
        have fw : c1.writer m = none := by
          cases h : c1.writer m with
          | none => rfl
          | some t' => rw [I1.writer, h1] at h; cases h
        have fr : c1.readers m = [] := by
          rw [List.eq_nil_iff_forall_not_mem]
          intro t' h
          rw [I1.readers, h1] at h; cases h
        obtain ⟨c2, I2, L2, e2⟩ := left_act (P := P) I1 ht (by simp [Cfg.allows, fw, fr, hp]) (hP _ (by simp) (by simp) (by simp))
        have ht2 : c2.threads[n]? = some ⟨w, k⟩ := by rw [L2.2.1]; exact set_self ht
        obtain ⟨k3, c3, held3, I3, h3, L3⟩ := let_go hP w n k I2 ht2
        have L := L2.glue L3
        refine ⟨c3, held3, I3, N1.trans L.1, by rw [L.2.1, List.length_set, l1], by rw [L.2.1, set_other _ (Ne.symm hn), z1], ?_, ?_⟩
        · intro t
          by_cases e : t = n
          · rw [e]; exact h3
          · rw [L.2.2.1 t e]; exact h1 t
        · intro t a b m' h'
          by_cases e : t = n
          · subst e
            have h4 := L3.2.2.2 m' t h'
            rw [e2] at h4
            simp only [Cfg.effect, upd] at h4
            split at h4
            · cases h4
            · rename_i hne
              obtain ⟨w', k', h5⟩ := I1.pend m' t h4
              rw [ht] at h5
              simp only [Option.some.injEq, Thread.mk.injEq, Code.act.injEq, Act.lock.injEq] at h5
              exact hne h5.2.1.symm
          · exact f1 t a (by omega) m' (L.2.2.2 m' t h')
      · refine ⟨c1, held1, I1, N1, l1, z1, h1, fun t a b m h => ?_⟩
        by_cases e : t = n
        · exact hp ⟨m, by rw [h, e]⟩
        · exact f1 t a (by omega) m h

/-- A goroutine that holds no lock can be left alone. -/
theorem settle (hP : Allows P) (z : Nat) {held : Nat → Option (Mu × Bool)} {c : Cfg} (I : LockInv g true held c) (hz : held z = none) :
    ∃ (c' : Cfg) (held' : Nat → Option (Mu × Bool)), LockInv g true held' c' ∧ Only P c c' ∧ c'.threads[z]? = c.threads[z]? ∧ (∀ t, held' t = none) ∧ Alone z held' c' := by
  obtain ⟨c1, held1, I1, N1, l1, z1, h1, f1⟩ := others_let_go hP z c.threads.length I
  have free : ∀ t, held1 t = none := fun t => by
    by_cases e : t = z
    · rw [e, h1]; exact hz
    · by_cases hl : t < c.threads.length
      · exact f1 t e hl
      · exact I1.beyond t (by omega)
  obtain ⟨c2, held2, I2, N2, l2, z2, h2, f2⟩ := others_write hP z c1.threads.length I1 free
  refine ⟨c2, held2, I2, N1.trans N2, by rw [z2, z1], h2, fun t _ => h2 t, fun m t hne h => ?_⟩
  obtain ⟨w, k, h3⟩ := I2.pend m t h
  exact f2 t hne (by have := lt_of_get h3; omega) m h

/-- A worker can run to its end when it is alone. -/
theorem worker_ends (hP : ∀ e : Ev, e.op ≠ .act .client → P e) (w : Bool) (t : Nat) : ∀ (code : Code) {held : Nat → Option (Mu × Bool)} {c : Cfg}, LockInv g true held c → Plain code →
    c.threads[t]? = some ⟨w, code⟩ → Alone t held c → ∃ (c' : Cfg) (held' : Nat → Option (Mu × Bool)),
      LockInv g true held' c' ∧ Left P c c' t w .done held held' := by
  intro code
  induction code with
  | done =>
    intro held c I _ ht _
    exact ⟨c, held, I, left_self ht⟩
  | act a k ih =>
    intro held c I hp ht hf
    obtain ⟨p1, p2, p3⟩ := hp
    obtain ⟨c1, I1, L1⟩ := alone_act (P := P) I ht hf p2 (hP _ (by simpa using p1))
    obtain ⟨c2, held2, I2, L2⟩ := ih I1 p3 (by rw [L1.2.1]; exact set_self ht) (hf.left L1)
    exact ⟨c2, held2, I2, L1.glue L2⟩
  | get x k ih =>
    intro held c I hp ht hf
    obtain ⟨c1, I1, L1⟩ := left_get (fun e h _ _ => hP e h) I ht
    obtain ⟨c2, held2, I2, L2⟩ := ih _ I1 (hp _) (by rw [L1.2.1]; exact set_self ht) (hf.left L1)
    exact ⟨c2, held2, I2, L1.glue L2⟩
  | fork w' d k _ _ =>
    intro held c I hp
    exact hp.elim

/-- Code of a handler: it starts nothing and waits for nothing slow but its client. -/
def Ask : Code → Prop
  | .done => True
  | .act a k => a ≠ .outside ∧ a ≠ .wait ∧ Ask k
  | .get _ k => ∀ v, Ask (k v)
  | .fork _ _ _ => False

/-- A request can be answered without waiting for anything slow. -/
theorem request_ends (w : Bool) (t : Nat) : ∀ (code : Code) {held : Nat → Option (Mu × Bool)} {c : Cfg}, LockInv g true held c → Ask code →
    c.threads[t]? = some ⟨w, code⟩ → ∃ c', Only (Quick t) c c' ∧ Ended c' t := by
  intro code
  induction code with
  | done => intro held c I _ ht; exact ⟨c, Only.refl _ c, w, ht⟩
  | act a k ih =>
    intro held c I hp ht
    obtain ⟨p1, p2, p3⟩ := hp
    have hQ : Quick t ⟨t, .act a⟩ := ⟨by simpa using p1, by simpa using p2, fun _ => rfl⟩
    cases hh : held t with
    | some h =>
      obtain ⟨c1, I1, L1, _⟩ := left_act (P := Quick t) I ht (holder_free I ht hh).1 hQ
      obtain ⟨c2, N2, e2⟩ := ih I1 p3 (by rw [L1.2.1]; exact set_self ht)
      exact ⟨c2, L1.1.trans N2, e2⟩
    | none =>
      obtain ⟨c0, held0, I0, N0, z0, _, A0⟩ := settle (allows_quick t) t I hh
      have ht0 : c0.threads[t]? = some ⟨w, .act a k⟩ := by rw [z0]; exact ht
      obtain ⟨c1, I1, L1⟩ := alone_act (P := Quick t) I0 ht0 A0 p2 hQ
      obtain ⟨c2, N2, e2⟩ := ih I1 p3 (by rw [L1.2.1]; exact set_self ht0)
      exact ⟨c2, N0.trans (L1.1.trans N2), e2⟩
  | get x k ih =>
    intro held c I hp ht
    obtain ⟨c1, I1, L1⟩ := left_get (allows_quick t) I ht
    obtain ⟨c2, N2, e2⟩ := ih _ I1 (hp _) (by rw [L1.2.1]; exact set_self ht)
    exact ⟨c2, L1.1.trans N2, e2⟩
  | fork w' d k _ _ =>
    intro held c I hp
    exact hp.elim

/-- All workers can run to their ends when nobody holds a lock or waits to write. -/
theorem workers_end (hP : ∀ e : Ev, e.op ≠ .act .client → P e) (n : Nat) : ∀ {held : Nat → Option (Mu × Bool)} {c : Cfg}, LockInv g true held c → (∀ t, held t = none) →
    (∀ m t, c.pending m ≠ some t) → ∃ (c' : Cfg) (held' : Nat → Option (Mu × Bool)), LockInv g true held' c' ∧ (∀ t, held' t = none) ∧ (∀ m t, c'.pending m ≠ some t) ∧
      Only P c c' ∧ c'.threads.length = c.threads.length ∧
      (∀ (t : Nat) (th : Thread), c.threads[t]? = some th → th.worker = false → c'.threads[t]? = some th) ∧
      ∀ (t : Nat) (th : Thread), t < n → c'.threads[t]? = some th → th.worker = true → th.code = .done := by
  induction n with
  | zero => intro held c I hf hp; exact ⟨c, held, I, hf, hp, Only.refl P c, rfl, fun _ _ h _ => h, fun t _ h => by omega⟩
  | succ n ih =>
    intro held c I hf hp
    obtain ⟨c1, held1, I1, f1, p1, N1, l1, k1, d1⟩ := ih I hf hp
    cases ht : c1.threads[n]? with
    | none =>
      refine ⟨c1, held1, I1, f1, p1, N1, l1, k1, fun t th hn h hw => ?_⟩
      by_cases e : t = n
      · rw [e, ht] at h; cases h
      · exact d1 t th (by omega) h hw
    | some th =>
      cases hw : th.worker with
      | false =>
        refine ⟨c1, held1, I1, f1, p1, N1, l1, k1, fun t th' hn h hw' => ?_⟩
        by_cases e : t = n
        · rw [e, ht] at h
          obtain rfl : th = th' := by simpa using h
          rw [hw] at hw'; cases hw'
        · exact d1 t th' (by omega) h hw'
      | true =>
        obtain ⟨c2, held2, I2, N2, s2, o2, q2⟩ := worker_ends hP th.worker n th.code I1 (I1.plain n th ht hw) ht ⟨fun t' _ => f1 t', fun m t' _ => p1 m t'⟩
        refine ⟨c2, held2, I2, ?_, fun m t h => p1 m t (q2 m t h), N1.trans N2, by rw [s2, List.length_set, l1], ?_, ?_⟩
        · intro t
          by_cases e : t = n
          · subst e
            have : c2.threads[t]? = some ⟨th.worker, .done⟩ := by rw [s2]; exact set_self ht
            exact I2.obeys t _ this
          · rw [o2 t e]; exact f1 t
        · intro t th' h hw'
          have h1 := k1 t th' h hw'
          by_cases e : t = n
          · rw [e, ht] at h1
            obtain rfl : th = th' := by simpa using h1
            rw [hw] at hw'; cases hw'
          · rw [s2, set_other _ e, h1]
        · intro t th' hn h hw'
          by_cases e : t = n
          · rw [e, s2, set_self ht] at h
            obtain rfl : _ = th' := by simpa using h
            rfl
          · rw [s2, set_other _ e] at h
            exact d1 t th' (by omega) h hw'

/-- The loop can come to its end, whatever the other goroutines are doing and without any client taking an answer. -/
theorem main_ends (hP : ∀ e : Ev, e.op ≠ .act .client → P e) (w : Bool) (hw : w = false) : ∀ (code : Code) {held : Nat → Option (Mu × Bool)} {c : Cfg}, LockInv g true held c → NoAnswer code →
    c.threads[0]? = some ⟨w, code⟩ → ∃ c', Only P c c' ∧ Ended c' 0 := by
  intro code
  induction code with
  | done => intro held c I _ ht; exact ⟨c, Only.refl P c, w, ht⟩
  | act a k ih =>
    intro held c I hn ht
    obtain ⟨hn1, hn2⟩ := hn
    have hPa : P ⟨0, .act a⟩ := hP _ (by simpa using hn1)
    cases hh : held 0 with
    | some h =>
      obtain ⟨c1, I1, L1, _⟩ := left_act (P := P) I ht (holder_free I ht hh).1 hPa
      obtain ⟨c2, N2, e2⟩ := ih I1 hn2 (by rw [L1.2.1]; exact set_self ht)
      exact ⟨c2, L1.1.trans N2, e2⟩
    | none =>
      obtain ⟨c0, held0, I0, N0, z0, f0, A0⟩ := settle (fun e h _ _ => hP e h) 0 I hh
      have ht0 : c0.threads[0]? = some ⟨w, .act a k⟩ := by rw [z0]; exact ht
      by_cases hwt : a = .wait
      · have hp0 : ∀ m t, c0.pending m ≠ some t := by
          intro m t h
          by_cases e : t = 0
          · subst e
            obtain ⟨w', k', h'⟩ := I0.pend m 0 h
            rw [ht0, hwt] at h'
            simp at h'
          · exact A0.2 m t e h
        obtain ⟨c1, held1, I1, f1, _, N1, l1, k1, d1⟩ := workers_end hP c0.threads.length I0 f0 hp0
        have ht1 := k1 0 _ ht0 hw
        have hal : c1.allows 0 a = true := by
          subst hwt
          simp only [Cfg.allows, List.all_eq_true]
          intro th hm
          obtain ⟨t, hl, he⟩ := List.mem_iff_getElem.mp hm
          cases hwk : th.worker with
          | false => rfl
          | true =>
            have : th.code = .done := d1 t th (by omega) (by rw [List.getElem?_eq_getElem hl, he]) hwk
            simp [this, Code.isDone]
        obtain ⟨c2, I2, L2, _⟩ := left_act (P := P) I1 ht1 hal hPa
        obtain ⟨c3, N3, e3⟩ := ih I2 hn2 (by rw [L2.2.1]; exact set_self ht1)
        exact ⟨c3, N0.trans (N1.trans (L2.1.trans N3)), e3⟩
      · obtain ⟨c1, I1, L1⟩ := alone_act (P := P) I0 ht0 A0 hwt hPa
        obtain ⟨c2, N2, e2⟩ := ih I1 hn2 (by rw [L1.2.1]; exact set_self ht0)
        exact ⟨c2, N0.trans (L1.1.trans N2), e2⟩
  | get x k ih =>
    intro held c I hn ht
    obtain ⟨c2, I2, L2⟩ := left_get (fun e h _ _ => hP e h) I ht
    obtain ⟨c3, N3, e3⟩ := ih _ I2 (hn _) (by rw [L2.2.1]; exact set_self ht)
    exact ⟨c3, L2.1.trans N3, e3⟩
  | fork w' d k _ ih =>
    intro held c I hn ht
    have hs := step_fork ht
    obtain ⟨c3, N3, e3⟩ := ih (I.step ht hs (by simp)) hn (by
      show (c.threads.set 0 ⟨w, k⟩ ++ [⟨w', d⟩])[0]? = _
      exact snoc_get.mpr (.inl (set_self ht)))
    exact ⟨c3, (Only.one hs rfl (hP _ (by simp))).trans N3, e3⟩

end Verif.Conc
