import Verif.Spec.Conc
import Mathlib.Data.List.Nodup
import Mathlib.Tactic.ByContra
/-
  Lemmas on goroutines with locks: what a discipline of locking gives for every run.
-/
set_option autoImplicit false

namespace Verif.Conc
open ConcSpec

def acq (m : Mu) (b : Bool) : Op := .act (if b then .lock m else .rlock m)
def rel (m : Mu) (b : Bool) : Op := .act (if b then .unlock m else .runlock m)

/-- Code of a worker: it starts nothing, waits for no goroutine and writes to no client. -/
def Plain : Code → Prop
  | .done => True
  | .act a k => a ≠ .client ∧ a ≠ .wait ∧ Plain k
  | .get _ k => ∀ v, Plain (k v)
  | .fork _ _ _ => False

/-- The code holds at most one lock at a time (`h`: the lock, and whether for writing), accesses `x` under the lock `g x`, does nothing slow under a lock and, if
    `q`, writes to no client under a lock. -/
def Obeys (g : Var → Option Mu) (q : Bool) : Code → Option (Mu × Bool) → Prop
  | .done, h => h = none
  | .act a k, h =>
    match a with
    | .lock m => h = none ∧ Obeys g q k (some (m, true))
    | .rlock m => h = none ∧ Obeys g q k (some (m, false))
    | .unlock m => h = some (m, true) ∧ Obeys g q k none
    | .runlock m => h = some (m, false) ∧ Obeys g q k none
    | .write x _ => (∀ m, g x = some m → h = some (m, true)) ∧ Obeys g q k h
    | .client => (q = true → h = none) ∧ Obeys g q k h
    | .outside => h = none ∧ Obeys g q k h
    | .wait => h = none ∧ Obeys g q k h
    | .load _ => Obeys g q k h
    | .store _ => Obeys g q k h
  | .get x k, h => (∀ m, g x = some m → ∃ b, h = some (m, b)) ∧ ∀ v, Obeys g q (k v) h
  | .fork w c k, h => h = none ∧ (w = true → Plain c) ∧ Obeys g q c none ∧ Obeys g q k h

/-- What the goroutine holds after the first step of its code. -/
def heldAfter : Code → Option (Mu × Bool) → Option (Mu × Bool)
  | .act (.lock m) _, _ => some (m, true)
  | .act (.rlock m) _, _ => some (m, false)
  | .act (.unlock _) _, _ => none
  | .act (.runlock _) _, _ => none
  | _, h => h

theorem snoc_get {α : Type} {l : List α} {e a : α} {i : Nat} :
    (l ++ [e])[i]? = some a ↔ l[i]? = some a ∨ (i = l.length ∧ e = a) := by
  rw [List.getElem?_append]
  split
  · rename_i h
    constructor
    · exact .inl
    · rintro (h' | ⟨rfl, _⟩)
      · exact h'
      · omega
  · rename_i h
    rw [List.getElem?_eq_none (l := l) (by omega)]
    rcases Nat.lt_or_eq_of_le (Nat.le_of_not_lt h) with h' | rfl
    · rw [List.getElem?_eq_none (by simp; omega)]
      simp; omega
    · simp

theorem lt_of_get {α : Type} {l : List α} {a : α} {i : Nat} (h : l[i]? = some a) : i < l.length := (List.getElem?_eq_some_iff.mp h).1

/-- What goroutine `t` holds before (`h`) and after (`h'`) an event. -/
def Move (g : Var → Option Mu) (c : Cfg) (t : Nat) (e : Ev) (h h' : Option (Mu × Bool)) : Prop :=
  (∃ m b, e = ⟨t, acq m b⟩ ∧ h = none ∧ h' = some (m, b) ∧ c.writer m = none ∧ (b = true → c.readers m = [])) ∨
  (∃ m b, e = ⟨t, rel m b⟩ ∧ h = some (m, b) ∧ h' = none) ∨
  (e.tid = t ∧ h' = h ∧ (∀ m b, e.op ≠ acq m b) ∧ (∀ m b, e.op ≠ rel m b) ∧
    ∀ x m, Touches e x → g x = some m → ∃ b, h = some (m, b) ∧ (Writes e x → b = true))

structure LockInv (g : Var → Option Mu) (q : Bool) (held : Nat → Option (Mu × Bool)) (c : Cfg) : Prop where
  obeys : ∀ t th, c.threads[t]? = some th → Obeys g q th.code (held t)
  plain : ∀ (t : Nat) (th : Thread), c.threads[t]? = some th → th.worker = true → Plain th.code
  beyond : ∀ t, c.threads.length ≤ t → held t = none
  pend : ∀ (m : Mu) (t : Nat), c.pending m = some t → ∃ (w : Bool) (k : Code), c.threads[t]? = some ⟨w, .act (.lock m) k⟩
  writer : ∀ m t, c.writer m = some t ↔ held t = some (m, true)
  readers : ∀ m t, t ∈ c.readers m ↔ held t = some (m, false)
  nodup : ∀ m, (c.readers m).Nodup
  excl : ∀ m t, c.writer m = some t → c.readers m = []
  released : ∀ (p t : Nat) (m : Mu) (b : Bool), c.trace[p]? = some ⟨t, acq m b⟩ → held t = some (m, b) ∨ ∃ u : Nat, p < u ∧ c.trace[u]? = some ⟨t, rel m b⟩
  holding : ∀ t m b, held t = some (m, b) → ∃ p : Nat, c.trace[p]? = some ⟨t, acq m b⟩ ∧ ∀ u : Nat, p < u → c.trace[u]? ≠ some ⟨t, rel m b⟩
  apart : ∀ (p q t1 t2 : Nat) (m : Mu) (b1 b2 : Bool), p < q → c.trace[p]? = some ⟨t1, acq m b1⟩ → c.trace[q]? = some ⟨t2, acq m b2⟩ → t1 ≠ t2 →
    (b1 = true ∨ b2 = true) → ∃ u : Nat, p < u ∧ u < q ∧ c.trace[u]? = some ⟨t1, rel m b1⟩
  guarded : ∀ (i : Nat) (e : Ev) (x : Var) (m : Mu), c.trace[i]? = some e → Touches e x → g x = some m → ∃ (b : Bool) (p : Nat), p < i ∧ c.trace[p]? = some ⟨e.tid, acq m b⟩ ∧
    (∀ u : Nat, p < u → u < i → c.trace[u]? ≠ some ⟨e.tid, rel m b⟩) ∧ (Writes e x → b = true)

theorem acq_ne_rel (m m' : Mu) (b b' : Bool) : acq m b ≠ rel m' b' := by
  cases b <;> cases b' <;> simp [acq, rel]

theorem acq_inj {m m' : Mu} {b b' : Bool} (h : acq m b = acq m' b') : m = m' ∧ b = b' := by
  cases b <;> cases b' <;> simp_all [acq]

theorem rel_inj {m m' : Mu} {b b' : Bool} (h : rel m b = rel m' b') : m = m' ∧ b = b' := by
  cases b <;> cases b' <;> simp_all [rel]

theorem not_touch_acq (t : Nat) (m : Mu) (b : Bool) (x : Var) : ¬ Touches ⟨t, acq m b⟩ x := by
  cases b <;> simp [Touches, acq]

theorem not_touch_rel (t : Nat) (m : Mu) (b : Bool) (x : Var) : ¬ Touches ⟨t, rel m b⟩ x := by
  cases b <;> simp [Touches, rel]

/-- The part of the invariant that is about the trace, after a move. -/
theorem trace_move {g : Var → Option Mu} {q : Bool} {held : Nat → Option (Mu × Bool)} {c : Cfg} (I : LockInv g q held c) {t : Nat} {e : Ev}
    {h' : Option (Mu × Bool)} (mv : Move g c t e (held t) h') :
    (∀ (p t' : Nat) (m : Mu) (b : Bool), (c.trace ++ [e])[p]? = some ⟨t', acq m b⟩ → upd held t h' t' = some (m, b) ∨ ∃ u : Nat, p < u ∧ (c.trace ++ [e])[u]? = some ⟨t', rel m b⟩) ∧
    (∀ t' m b, upd held t h' t' = some (m, b) → ∃ p : Nat, (c.trace ++ [e])[p]? = some ⟨t', acq m b⟩ ∧ ∀ u : Nat, p < u → (c.trace ++ [e])[u]? ≠ some ⟨t', rel m b⟩) ∧
    (∀ (p q t1 t2 : Nat) (m : Mu) (b1 b2 : Bool), p < q → (c.trace ++ [e])[p]? = some ⟨t1, acq m b1⟩ → (c.trace ++ [e])[q]? = some ⟨t2, acq m b2⟩ → t1 ≠ t2 →
      (b1 = true ∨ b2 = true) → ∃ u : Nat, p < u ∧ u < q ∧ (c.trace ++ [e])[u]? = some ⟨t1, rel m b1⟩) ∧
    (∀ (i : Nat) (e' : Ev) (x : Var) (m : Mu), (c.trace ++ [e])[i]? = some e' → Touches e' x → g x = some m → ∃ (b : Bool) (p : Nat), p < i ∧ (c.trace ++ [e])[p]? = some ⟨e'.tid, acq m b⟩ ∧
      (∀ u : Nat, p < u → u < i → (c.trace ++ [e])[u]? ≠ some ⟨e'.tid, rel m b⟩) ∧ (Writes e' x → b = true)) := by
  have hold : ∀ {i : Nat} {a : Ev}, c.trace[i]? = some a → (c.trace ++ [e])[i]? = some a := fun h => snoc_get.mpr (.inl h)
  have hlast : (c.trace ++ [e])[c.trace.length]? = some e := snoc_get.mpr (.inr ⟨rfl, rfl⟩)
  have hnew : ∀ {i : Nat} {a : Ev}, c.trace[i]? = some a → i < c.trace.length := lt_of_get
  -- the lock of an earlier acquisition is released, unless it is still held
  refine ⟨?_, ?_, ?_, ?_⟩
  · intro p t' m b hp
    rcases snoc_get.mp hp with hp | ⟨rfl, he⟩
    · rcases I.released p t' m b hp with h | ⟨u, h1, h2⟩
      · by_cases ht : t' = t
        · subst ht
          rcases mv with ⟨m', b', he, h0, h1, _⟩ | ⟨m', b', he, h0, h1⟩ | ⟨_, h1, _⟩
          · rw [h0] at h; cases h
          · rw [h0] at h
            obtain ⟨rfl, rfl⟩ : m' = m ∧ b' = b := by simpa using h
            exact .inr ⟨_, hnew hp, by rw [← he]; exact hlast⟩
          · left; simp [upd, h1, h]
        · left; simp [upd, ht, h]
      · exact .inr ⟨u, h1, hold h2⟩
    · left
      rcases mv with ⟨m', b', he', h0, h1, _⟩ | ⟨m', b', he', h0, h1⟩ | ⟨_, h1, h2, _⟩
      · rw [he'] at he
        obtain ⟨rfl, ho⟩ : t = t' ∧ acq m' b' = acq m b := by simpa using he
        obtain ⟨rfl, rfl⟩ := acq_inj ho
        simp [upd, h1]
      · rw [he'] at he
        have ho : rel m' b' = acq m b := by injection he
        exact (acq_ne_rel _ _ _ _ ho.symm).elim
      · rw [he] at h2; exact (h2 m b rfl).elim
  · intro t' m b h
    by_cases ht : t' = t
    · subst ht
      have h : h' = some (m, b) := by simpa [upd] using h
      rcases mv with ⟨m', b', he, h0, h1, _⟩ | ⟨m', b', he, h0, h1⟩ | ⟨_, h1, _, h3, _⟩
      · rw [h1] at h
        obtain ⟨rfl, rfl⟩ : m' = m ∧ b' = b := by simpa using h
        refine ⟨c.trace.length, by rw [← he]; exact hlast, ?_⟩
        intro u hu hc
        have := lt_of_get hc
        simp at this; omega
      · rw [h1] at h; cases h
      · rw [h1] at h
        obtain ⟨p, h4, h5⟩ := I.holding t' m b h
        refine ⟨p, hold h4, ?_⟩
        intro u hu hc
        rcases snoc_get.mp hc with hc | ⟨_, he⟩
        · exact h5 u hu hc
        · rw [he] at h3; exact h3 m b rfl
    · have h : held t' = some (m, b) := by simpa [upd, ht] using h
      obtain ⟨p, h4, h5⟩ := I.holding t' m b h
      refine ⟨p, hold h4, ?_⟩
      intro u hu hc
      rcases snoc_get.mp hc with hc | ⟨_, he⟩
      · exact h5 u hu hc
      · rcases mv with ⟨_, _, he', _⟩ | ⟨_, _, he', _⟩ | ⟨he', _⟩
        · rw [he'] at he; injection he with he _; exact ht he.symm
        · rw [he'] at he; injection he with he _; exact ht he.symm
        · rw [he] at he'; exact ht he'
  · intro p q' t1 t2 m b1 b2 hpq hp hq hne hb
    rcases snoc_get.mp hq with hq | ⟨hq', he⟩
    · have hp' : c.trace[p]? = some ⟨t1, acq m b1⟩ := by
        rcases snoc_get.mp hp with hp | ⟨h, _⟩
        · exact hp
        · have := hnew hq; omega
      obtain ⟨u, h1, h2, h3⟩ := I.apart p q' t1 t2 m b1 b2 hpq hp' hq hne hb
      exact ⟨u, h1, h2, hold h3⟩
    · have hp' : c.trace[p]? = some ⟨t1, acq m b1⟩ := by
        rcases snoc_get.mp hp with hp | ⟨h, _⟩
        · exact hp
        · omega
      rcases mv with ⟨m', b', he', h0, h1, h2, h3⟩ | ⟨m', b', he', h0, h1⟩ | ⟨_, h1, h2, _⟩
      · rw [he'] at he
        obtain ⟨rfl, ho⟩ : t = t2 ∧ acq m' b' = acq m b2 := by simpa using he
        obtain ⟨rfl, rfl⟩ := acq_inj ho
        rcases I.released p t1 m' b1 hp' with h | ⟨u, h4, h5⟩
        · cases b1 with
          | true => rw [← I.writer, h2] at h; cases h
          | false =>
            rw [← I.readers] at h
            rw [h3 (by simpa using hb)] at h
            cases h
        · exact ⟨u, h4, by have := hnew h5; omega, hold h5⟩
      · rw [he'] at he
        have ho : rel m' b' = acq m b2 := by injection he
        exact (acq_ne_rel _ _ _ _ ho.symm).elim
      · rw [he] at h2; exact (h2 m b2 rfl).elim
  · intro i e' x m hi ht hg
    rcases snoc_get.mp hi with hi | ⟨hi2, rfl⟩
    · obtain ⟨b, p, h1, h2, h3, h4⟩ := I.guarded i e' x m hi ht hg
      refine ⟨b, p, h1, hold h2, ?_, h4⟩
      intro u hu hu' hc
      rcases snoc_get.mp hc with hc | ⟨hl, _⟩
      · exact h3 u hu hu' hc
      · have := hnew hi; omega
    · rcases mv with ⟨m', b', he', _⟩ | ⟨m', b', he', _⟩ | ⟨htid, _, _, _, h5⟩
      · rw [he'] at ht; exact (not_touch_acq _ _ _ _ ht).elim
      · rw [he'] at ht; exact (not_touch_rel _ _ _ _ ht).elim
      · obtain ⟨b, h6, h7⟩ := h5 x m ht hg
        obtain ⟨p, h8, h9⟩ := I.holding t m b h6
        refine ⟨b, p, by rw [hi2]; exact hnew h8, by rw [htid]; exact hold h8, ?_, h7⟩
        intro u hu hu' hc
        rw [htid] at hc
        rcases snoc_get.mp hc with hc | ⟨hl, _⟩
        · exact h9 u hu hc
        · omega

/-! ### Steps keep the invariant -/

theorem acq_true (m : Mu) : acq m true = .act (.lock m) := rfl
theorem acq_false (m : Mu) : acq m false = .act (.rlock m) := rfl
theorem rel_true (m : Mu) : rel m true = .act (.unlock m) := rfl
theorem rel_false (m : Mu) : rel m false = .act (.runlock m) := rfl

theorem step_view {c c' : Cfg} {t : Nat} (h : c.step t = some c') : ∃ th, c.threads[t]? = some th ∧
    ((∃ a k, th.code = .act a k ∧ c.allows t a = true ∧
        c' = { c.effect t a with threads := c.threads.set t ⟨th.worker, k⟩, trace := c.trace ++ [⟨t, .act a⟩] }) ∨
      (∃ x k, th.code = .get x k ∧ c' = { c with
        threads := c.threads.set t ⟨th.worker, k (c.mem x)⟩, trace := c.trace ++ [⟨t, .read x (c.mem x)⟩] }) ∨
      (∃ w d k, th.code = .fork w d k ∧ c' = { c with
        threads := c.threads.set t ⟨th.worker, k⟩ ++ [⟨w, d⟩], trace := c.trace ++ [⟨t, .fork c.threads.length w⟩] }) ∨
      (∃ m k, th.code = .act (.lock m) k ∧ c.writer m = none ∧ c.pending m = none ∧ c' = { c with pending := upd c.pending m (some t) })) := by
  unfold Cfg.step at h
  cases ht : c.threads[t]? with
  | none => rw [ht] at h; simp at h
  | some th =>
    rw [ht] at h
    simp only at h
    refine ⟨th, rfl, ?_⟩
    cases hc : th.code with
    | done => rw [hc] at h; simp at h
    | act a k =>
      rw [hc] at h
      simp only at h
      split at h
      · rename_i ha
        exact .inl ⟨a, k, rfl, ha, by simpa using h.symm⟩
      · cases a
        case lock m _ =>
          simp only [Cfg.announce] at h
          split at h
          · rename_i hb
            simp only [Bool.and_eq_true, Option.isNone_iff_eq_none] at hb
            exact .inr (.inr (.inr ⟨m, k, rfl, hb.1, hb.2, by simpa using h.symm⟩))
          · cases h
        all_goals cases h
    | get x k => rw [hc] at h; exact .inr (.inl ⟨x, k, rfl, by simpa using h.symm⟩)
    | fork w d k => rw [hc] at h; exact .inr (.inr (.inl ⟨w, d, k, rfl, by simpa using h.symm⟩))

theorem set_get {α : Type} {l : List α} {t i : Nat} {a b : α} (h : (l.set t a)[i]? = some b) : (i = t ∧ b = a) ∨ (i ≠ t ∧ l[i]? = some b) := by
  rw [List.getElem?_set] at h
  split at h
  · rename_i e
    split at h
    · left; exact ⟨e.symm, by simpa using h.symm⟩
    · simp at h
  · rename_i e
    exact .inr ⟨fun e' => e e'.symm, h⟩

theorem LockInv.step {g : Var → Option Mu} {q : Bool} {held : Nat → Option (Mu × Bool)} {c c' : Cfg} (I : LockInv g q held c) {t : Nat} {th : Thread}
    (ht : c.threads[t]? = some th) (h : c.step t = some c') (hd : c'.trace ≠ c.trace) : LockInv g q (upd held t (heldAfter th.code (held t))) c' := by
  obtain ⟨th', ht', hv⟩ := step_view h
  rw [ht] at ht'
  obtain rfl : th = th' := by simpa using ht'
  have hu : upd held t (held t) = held := by funext i; simp only [upd]; split <;> simp_all
  have hpl := I.plain t th ht
  have hob := I.obeys t th ht
  have hlt := lt_of_get ht
  have pend' : ∀ (a : Thread) (p : Mu → Option Nat), (∀ m t', p m = some t' → c.pending m = some t' ∧ t' ≠ t) → ∀ (m : Mu) (t' : Nat), p m = some t' →
      ∃ (w : Bool) (k : Code), (c.threads.set t a)[t']? = some ⟨w, .act (.lock m) k⟩ := by
    intro a p hp m t' h'
    obtain ⟨h1, h2⟩ := hp m t' h'
    obtain ⟨w, k, h3⟩ := I.pend m t' h1
    exact ⟨w, k, by rw [List.getElem?_set_ne (Ne.symm h2)]; exact h3⟩
  have notme : (∀ m k, th.code ≠ .act (.lock m) k) → ∀ (m : Mu) (t' : Nat), c.pending m = some t' → c.pending m = some t' ∧ t' ≠ t := by
    intro hn m t' h'
    refine ⟨h', ?_⟩
    rintro rfl
    obtain ⟨w, k, h3⟩ := I.pend m t' h'
    rw [ht] at h3
    exact hn m k (by rw [Option.some.injEq] at h3; rw [h3])
  rcases hv with ⟨a, k, hc, hal, rfl⟩ | ⟨x, k, hc, rfl⟩ | ⟨w, d, k, hc, rfl⟩ | ⟨m, k, hc, _, _, rfl⟩
  · rw [hc] at hob ⊢
    have hpend : ∀ (m : Mu) (t' : Nat), (c.effect t a).pending m = some t' → c.pending m = some t' ∧ t' ≠ t := by
      intro m t' h'
      by_cases hl : ∃ m', a = .lock m'
      · obtain ⟨m', rfl⟩ := hl
        simp only [Cfg.effect, upd] at h'
        split at h'
        · cases h'
        · rename_i hne
          refine ⟨h', ?_⟩
          rintro rfl
          obtain ⟨w, k2, h3⟩ := I.pend m t' h'
          rw [ht, Option.some.injEq] at h3
          rw [h3] at hc
          simp only [Code.act.injEq, Act.lock.injEq] at hc
          exact hne hc.1
      · have e : (c.effect t a).pending = c.pending := by
          cases a <;> first | rfl | exact (hl ⟨_, rfl⟩).elim
        rw [e] at h'
        exact notme (fun m k e => hl (by rw [hc] at e; injection e with e _; exact ⟨m, e⟩)) m t' h'
    have fin : ∀ (h' : Option (Mu × Bool)) (_ : Move g c t ⟨t, .act a⟩ (held t) h') (_ : Obeys g q k h')
        (_ : ∀ m t', (c.effect t a).writer m = some t' ↔ upd held t h' t' = some (m, true))
        (_ : ∀ m t', t' ∈ (c.effect t a).readers m ↔ upd held t h' t' = some (m, false))
        (_ : ∀ m, ((c.effect t a).readers m).Nodup) (_ : ∀ m t', (c.effect t a).writer m = some t' → (c.effect t a).readers m = []),
        LockInv g q (upd held t h') { c.effect t a with threads := c.threads.set t ⟨th.worker, k⟩, trace := c.trace ++ [⟨t, .act a⟩] } := by
      intro h' mv ho hw hr hn he
      obtain ⟨t1, t2, t3, t4⟩ := trace_move I mv
      refine ⟨fun i th' hi => ?_, fun i th' hi hwk => ?_, fun i hi => ?_, pend' _ _ hpend, hw, hr, hn, he, t1, t2, t3, t4⟩
      · rcases set_get hi with ⟨rfl, rfl⟩ | ⟨hne, hi⟩
        · simpa [upd] using ho
        · simpa [upd, hne] using I.obeys i th' hi
      · rcases set_get hi with ⟨rfl, rfl⟩ | ⟨hne, hi⟩
        · have := hpl hwk; rw [hc] at this; exact this.2.2
        · exact I.plain i th' hi hwk
      · have hi : c.threads.length ≤ i := by simpa using hi
        have : i ≠ t := by omega
        simpa [upd, this] using I.beyond i hi
    have same : (c.effect t a).writer = c.writer → (c.effect t a).readers = c.readers → Obeys g q k (held t) →
        Move g c t ⟨t, .act a⟩ (held t) (held t) →
        LockInv g q (upd held t (held t)) { c.effect t a with threads := c.threads.set t ⟨th.worker, k⟩, trace := c.trace ++ [⟨t, .act a⟩] } := by
      intro e1 e2 ho mv
      refine fin (held t) mv ho ?_ ?_ ?_ ?_
      · rw [e1, hu]; exact I.writer
      · rw [e2, hu]; exact I.readers
      · rw [e2]; exact I.nodup
      · rw [e1, e2]; exact I.excl
    have plain : (∀ m b, Op.act a ≠ acq m b) → (∀ m b, Op.act a ≠ rel m b) → (∀ x, ¬ Touches ⟨t, .act a⟩ x) → Move g c t ⟨t, .act a⟩ (held t) (held t) :=
      fun h1 h2 h3 => .inr (.inr ⟨rfl, rfl, h1, h2, fun x m hx => (h3 x hx).elim⟩)
    cases a with
    | lock m =>
      obtain ⟨h1, h2⟩ := hob
      obtain ⟨⟨h3, _⟩, h4⟩ : (c.writer m = none ∧ c.pending m = some t) ∧ c.readers m = [] := by simpa [Cfg.allows] using hal
      refine fin (some (m, true)) (.inl ⟨m, true, rfl, h1, rfl, h3, fun _ => h4⟩) h2 ?_ ?_ ?_ ?_
      · intro m' t'
        by_cases hm : m' = m
        · subst hm
          by_cases htt : t' = t
          · subst htt; simp [Cfg.effect, upd]
          · have h5 := I.writer m' t'
            rw [h3] at h5
            have h6 : ¬ held t' = some (m', true) := fun e => by cases h5.mpr e
            have h7 : ¬ t = t' := fun e => htt e.symm
            simp [Cfg.effect, upd, htt, h6, h7]
        · by_cases htt : t' = t
          · subst htt
            have h5 : ¬ m = m' := fun e => hm e.symm
            simp [Cfg.effect, upd, hm, I.writer, h1, h5]
          · simp [Cfg.effect, upd, hm, htt, I.writer]
      · intro m' t'
        have := I.readers m' t'
        simp only [Cfg.effect, upd]
        split <;> simp_all
      · exact I.nodup
      · intro m' t'
        simp only [Cfg.effect, upd]
        split
        · rename_i e; subst e; intro _; exact h4
        · exact I.excl m' t'
    | rlock m =>
      obtain ⟨h1, h2⟩ := hob
      obtain ⟨h3, _⟩ : c.writer m = none ∧ c.pending m = none := by simpa [Cfg.allows] using hal
      refine fin (some (m, false)) (.inl ⟨m, false, rfl, h1, rfl, h3, fun e => by cases e⟩) h2 ?_ ?_ ?_ ?_
      · intro m' t'
        have := I.writer m' t'
        simp only [Cfg.effect, upd]
        split <;> simp_all
      · intro m' t'
        by_cases hm : m' = m
        · subst hm
          by_cases htt : t' = t
          · subst htt; simp [Cfg.effect, upd]
          · simp [Cfg.effect, upd, htt, I.readers]
        · by_cases htt : t' = t
          · subst htt
            have h5 : ¬ m = m' := fun e => hm e.symm
            simp [Cfg.effect, upd, hm, I.readers, h1, h5]
          · simp [Cfg.effect, upd, hm, htt, I.readers]
      · intro m'
        simp only [Cfg.effect, upd]
        split
        · rename_i e
          subst e
          refine List.nodup_cons.mpr ⟨?_, I.nodup m'⟩
          rw [I.readers, h1]; simp
        · exact I.nodup m'
      · intro m' t' hw
        simp only [Cfg.effect, upd] at hw ⊢
        split
        · rename_i e; subst e; rw [h3] at hw; cases hw
        · exact I.excl m' t' hw
    | unlock m =>
      obtain ⟨h1, h2⟩ := hob
      have h3 : c.writer m = some t := by simpa [Cfg.allows] using hal
      refine fin none (.inr (.inl ⟨m, true, rfl, h1, rfl⟩)) h2 ?_ ?_ ?_ ?_
      · intro m' t'
        by_cases hm : m' = m
        · subst hm
          by_cases htt : t' = t
          · subst htt; simp [Cfg.effect, upd]
          · have h6 : ¬ held t' = some (m', true) := fun e => by
              have := (I.writer m' t').mpr e
              rw [h3] at this
              exact htt (by simpa using this.symm)
            simp [Cfg.effect, upd, htt, h6]
        · by_cases htt : t' = t
          · subst htt
            have h5 : ¬ m = m' := fun e => hm e.symm
            simp [Cfg.effect, upd, hm, I.writer, h1, h5]
          · simp [Cfg.effect, upd, hm, htt, I.writer]
      · intro m' t'
        have := I.readers m' t'
        simp only [Cfg.effect, upd]
        split <;> simp_all
      · exact I.nodup
      · intro m' t' hw
        simp only [Cfg.effect, upd] at hw ⊢
        split at hw
        · cases hw
        · exact I.excl m' t' hw
    | runlock m =>
      obtain ⟨h1, h2⟩ := hob
      have h3 : t ∈ c.readers m := by simpa [Cfg.allows] using hal
      refine fin none (.inr (.inl ⟨m, false, rfl, h1, rfl⟩)) h2 ?_ ?_ ?_ ?_
      · intro m' t'
        have := I.writer m' t'
        simp only [Cfg.effect, upd]
        split <;> simp_all
      · intro m' t'
        by_cases hm : m' = m
        · subst hm
          by_cases htt : t' = t
          · subst htt; simp [Cfg.effect, upd, (I.nodup m').mem_erase_iff]
          · simp [Cfg.effect, upd, htt, (I.nodup m').mem_erase_iff, I.readers]
        · by_cases htt : t' = t
          · subst htt
            have h5 : ¬ m = m' := fun e => hm e.symm
            simp [Cfg.effect, upd, hm, I.readers, h1, h5]
          · simp [Cfg.effect, upd, hm, htt, I.readers]
      · intro m'
        simp only [Cfg.effect, upd]
        split
        · rename_i e; subst e; exact (I.nodup m').erase _
        · exact I.nodup m'
      · intro m' t' hw
        simp only [Cfg.effect, upd] at hw ⊢
        split
        · rename_i e; subst e; rw [I.excl m' t' hw]; rfl
        · exact I.excl m' t' hw
    | write x v =>
      obtain ⟨h1, h2⟩ := hob
      refine same rfl rfl h2 (.inr (.inr ⟨rfl, rfl, by intro m b; cases b <;> simp [acq], by intro m b; cases b <;> simp [rel], ?_⟩))
      intro y m hy hg
      have : y = x := by simpa [Touches, eq_comm] using hy
      subst this
      exact ⟨true, h1 m hg, fun _ => rfl⟩
    | load f => exact same rfl rfl hob (plain (by intro m b; cases b <;> simp [acq]) (by intro m b; cases b <;> simp [rel]) (by simp [Touches]))
    | store f => exact same rfl rfl hob (plain (by intro m b; cases b <;> simp [acq]) (by intro m b; cases b <;> simp [rel]) (by simp [Touches]))
    | client => exact same rfl rfl hob.2 (plain (by intro m b; cases b <;> simp [acq]) (by intro m b; cases b <;> simp [rel]) (by simp [Touches]))
    | outside => exact same rfl rfl hob.2 (plain (by intro m b; cases b <;> simp [acq]) (by intro m b; cases b <;> simp [rel]) (by simp [Touches]))
    | wait => exact same rfl rfl hob.2 (plain (by intro m b; cases b <;> simp [acq]) (by intro m b; cases b <;> simp [rel]) (by simp [Touches]))
  · rw [hc] at hob ⊢
    obtain ⟨h1, h2⟩ := hob
    show LockInv g q (upd held t (held t)) _
    rw [hu]
    have mv : Move g c t ⟨t, .read x (c.mem x)⟩ (held t) (held t) := by
      refine .inr (.inr ⟨rfl, rfl, by intro m b; cases b <;> simp [acq], by intro m b; cases b <;> simp [rel], ?_⟩)
      intro y m hy hg
      have : y = x := by simpa [Touches, eq_comm] using hy
      subst this
      obtain ⟨b, hb⟩ := h1 m hg
      exact ⟨b, hb, by simp [Writes]⟩
    obtain ⟨t1, t2, t3, t4⟩ := trace_move I mv
    rw [hu] at t1 t2
    exact ⟨fun i th' hi => by
        rcases set_get hi with ⟨rfl, rfl⟩ | ⟨_, hi⟩
        · exact h2 _
        · exact I.obeys i th' hi,
      fun i th' hi hwk => by
        rcases set_get hi with ⟨rfl, rfl⟩ | ⟨_, hi⟩
        · have := hpl hwk; rw [hc] at this; exact this _
        · exact I.plain i th' hi hwk,
      fun i hi => I.beyond i (by simpa using hi), pend' _ _ (notme (by rw [hc]; simp)), I.writer, I.readers, I.nodup, I.excl, t1, t2, t3, t4⟩
  · rw [hc] at hob ⊢
    obtain ⟨_, h0, h1, h2⟩ := hob
    show LockInv g q (upd held t (held t)) _
    rw [hu]
    have mv : Move g c t ⟨t, .fork c.threads.length w⟩ (held t) (held t) := by
      refine .inr (.inr ⟨rfl, rfl, by intro m b; cases b <;> simp [acq], by intro m b; cases b <;> simp [rel], ?_⟩)
      intro y m hy
      simp [Touches] at hy
    obtain ⟨t1, t2, t3, t4⟩ := trace_move I mv
    rw [hu] at t1 t2
    exact ⟨fun i th' hi => by
        rcases snoc_get.mp hi with hi | ⟨rfl, rfl⟩
        · rcases set_get hi with ⟨rfl, rfl⟩ | ⟨_, hi⟩
          · exact h2
          · exact I.obeys i th' hi
        · rw [List.length_set, I.beyond _ (Nat.le_refl _)]; exact h1,
      fun i th' hi hwk => by
        rcases snoc_get.mp hi with hi | ⟨rfl, rfl⟩
        · rcases set_get hi with ⟨rfl, rfl⟩ | ⟨_, hi⟩
          · have := hpl hwk; rw [hc] at this; exact this.elim
          · exact I.plain i th' hi hwk
        · exact h0 hwk,
      fun i hi => I.beyond i (by simp at hi; omega), fun m t' h' => by
        obtain ⟨w', k', h3⟩ := pend' ⟨th.worker, k⟩ c.pending (notme (by rw [hc]; simp)) m t' h'
        exact ⟨w', k', snoc_get.mpr (.inl h3)⟩, I.writer, I.readers, I.nodup, I.excl, t1, t2, t3, t4⟩
  · exact (hd rfl).elim

/-- A step without an event: a writer announces itself. -/
theorem LockInv.announce {g : Var → Option Mu} {q : Bool} {held : Nat → Option (Mu × Bool)} {c c' : Cfg} (I : LockInv g q held c) {t : Nat}
    (h : c.step t = some c') (hd : c'.trace = c.trace) : LockInv g q held c' := by
  obtain ⟨th, ht, hv⟩ := step_view h
  rcases hv with ⟨a, k, hc, hal, rfl⟩ | ⟨x, k, hc, rfl⟩ | ⟨w, d, k, hc, rfl⟩ | ⟨m, k, hc, _, _, rfl⟩
  · simp at hd
  · simp at hd
  · simp at hd
  · refine ⟨I.obeys, I.plain, I.beyond, fun m' t' h' => ?_, I.writer, I.readers, I.nodup, I.excl, I.released, I.holding, I.apart, I.guarded⟩
    simp only [upd] at h'
    split at h'
    · rename_i e
      subst e
      obtain rfl : t = t' := by simpa using h'
      exact ⟨th.worker, k, by rw [← hc]; exact ht⟩
    · exact I.pend m' t' h'

theorem LockInv.step_any {g : Var → Option Mu} {q : Bool} {held : Nat → Option (Mu × Bool)} {c c' : Cfg} (I : LockInv g q held c) {t : Nat}
    (h : c.step t = some c') : ∃ held', LockInv g q held' c' := by
  obtain ⟨th, ht, _⟩ := step_view h
  by_cases hd : c'.trace = c.trace
  · exact ⟨_, I.announce h hd⟩
  · exact ⟨_, I.step ht h hd⟩

theorem LockInv.run {g : Var → Option Mu} {q : Bool} : ∀ (sched : List Nat) {held : Nat → Option (Mu × Bool)} {c c' : Cfg}, LockInv g q held c →
    c.run sched = some c' → ∃ held', LockInv g q held' c'
  | [], held, c, c', I, h => by
    simp only [Cfg.run, Option.some.injEq] at h; subst h; exact ⟨held, I⟩
  | t :: ts, held, c, c', I, h => by
    unfold Cfg.run at h
    cases hs : c.step t with
    | none => rw [hs] at h; simp at h
    | some c1 =>
      rw [hs] at h
      obtain ⟨held', I'⟩ := I.step_any hs
      exact LockInv.run ts I' h

theorem LockInv.start {g : Var → Option Mu} {q : Bool} {rs : List Round} {reqs : List Request} (h : Obeys g q (program rs reqs) none) :
    LockInv g q (fun _ => none) (Cfg.start rs reqs) := by
  refine ⟨?_, ?_, by simp, by simp [Cfg.start], by simp [Cfg.start], by simp [Cfg.start], by simp [Cfg.start], by simp [Cfg.start], by simp [Cfg.start], by simp, by simp [Cfg.start], by simp [Cfg.start]⟩
  intro t th ht
  cases t with
  | zero => simp [Cfg.start] at ht; subst ht; exact h
  | succ t => simp [Cfg.start] at ht
  intro t th ht hw
  cases t with
  | zero => simp [Cfg.start] at ht; subst ht; cases hw
  | succ t => simp [Cfg.start] at ht

/-! ### Happens before -/

theorem hb_lt {tr : List Ev} {i j : Nat} (h : HB tr i j) : i < j := by
  induction h with
  | edge i j e => cases e <;> omega
  | trans i j k _ _ h1 h2 => omega

theorem hb_same {tr : List Ev} {i j : Nat} {a b : Ev} (h : i < j) (ha : tr[i]? = some a) (hb : tr[j]? = some b) (e : a.tid = b.tid) : HB tr i j :=
  .edge _ _ (.same i j a b h ha hb e)

theorem rel_acq_hb {tr : List Ev} {i j t1 t2 : Nat} {m : Mu} {b1 b2 : Bool} (h : i < j) (ha : tr[i]? = some ⟨t1, rel m b1⟩)
    (hb : tr[j]? = some ⟨t2, acq m b2⟩) (hx : b1 = true ∨ b2 = true) : HB tr i j := by
  cases b1 with
  | true =>
    refine .edge _ _ (.unlock i j _ _ m h ha hb rfl ?_)
    cases b2
    · exact .inr rfl
    · exact .inl rfl
  | false =>
    have : b2 = true := by simpa using hx
    subst this
    exact .edge _ _ (.runlock i j _ _ m h ha hb rfl rfl)

/-- Accesses under the same lock, one for writing, are in order. -/
theorem LockInv.ordered {g : Var → Option Mu} {q : Bool} {held : Nat → Option (Mu × Bool)} {c : Cfg} (I : LockInv g q held c) {x : Var} {m : Mu}
    (hg : g x = some m) {i j : Nat} {a b : Ev} (hij : i < j) (ha : c.trace[i]? = some a) (hb : c.trace[j]? = some b) (hne : a.tid ≠ b.tid)
    (hta : Touches a x) (htb : Touches b x) (hw : Writes a x ∨ Writes b x) : HB c.trace i j := by
  obtain ⟨b1, p1, p1i, h1, n1, w1⟩ := I.guarded i a x m ha hta hg
  obtain ⟨b2, p2, p2j, h2, n2, w2⟩ := I.guarded j b x m hb htb hg
  have hx : b1 = true ∨ b2 = true := hw.imp w1 w2
  have p2i : p2 ≠ i := by
    rintro rfl
    rw [ha] at h2
    obtain rfl : a = _ := by simpa using h2
    exact not_touch_acq _ _ _ _ hta
  rcases Nat.lt_or_gt_of_ne p2i with hlt | hgt
  · exfalso
    have hp : p1 ≠ p2 := by
      rintro rfl
      rw [h1] at h2
      injection h2 with h2
      injection h2 with h2 _
      exact hne h2
    rcases Nat.lt_or_gt_of_ne hp with hlt' | hgt'
    · obtain ⟨u, u1, u2, u3⟩ := I.apart p1 p2 _ _ m b1 b2 hlt' h1 h2 hne hx
      exact n1 u u1 (by omega) u3
    · obtain ⟨u, u1, u2, u3⟩ := I.apart p2 p1 _ _ m b2 b1 hgt' h2 h1 (Ne.symm hne) hx.symm
      exact n2 u u1 (by omega) u3
  · obtain ⟨u, u1, u2, u3⟩ := I.apart p1 p2 _ _ m b1 b2 (by omega) h1 h2 hne hx
    have ui : i < u := by
      rcases Nat.lt_trichotomy u i with h | h | h
      · exact (n1 u u1 h u3).elim
      · subst h
        rw [ha] at u3
        have e : a = ⟨a.tid, rel m b1⟩ := by simpa using u3
        rw [e] at hta
        exact (not_touch_rel _ _ _ _ hta).elim
      · exact h
    exact .trans _ u _ (hb_same ui ha u3 rfl) (.trans _ p2 _ (rel_acq_hb u2 u3 h2 hx) (hb_same p2j h2 hb rfl))

theorem LockInv.no_race {g : Var → Option Mu} {q : Bool} {held : Nat → Option (Mu × Bool)} {c : Cfg} (I : LockInv g q held c) {x : Var} {m : Mu}
    (hg : g x = some m) : ¬ Race c.trace x := by
  rintro ⟨i, j, a, b, ha, hb, hne, hta, htb, hw, n1, n2⟩
  have hij : i ≠ j := by
    rintro rfl
    rw [ha] at hb
    simp at hb; subst hb
    exact hne rfl
  rcases Nat.lt_or_gt_of_ne hij with h | h
  · exact n1 (I.ordered hg h ha hb hne hta htb hw)
  · exact n2 (I.ordered hg h hb ha (Ne.symm hne) htb hta hw.symm)

end Verif.Conc
