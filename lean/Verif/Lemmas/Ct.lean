import Verif.Spec.Ct
import Mathlib.Tactic.ByContra
set_option autoImplicit false

namespace Verif.Ct
open CtSpec Cache Pki

variable {α : Type}

theorem workers_split {ws : List (Worker α)} {i : Nat} {w : Worker α} (h : ws[i]? = some w) (w' : Worker α) :
    ∃ a b, ws = a ++ w :: b ∧ ws.set i w' = a ++ w' :: b := by
  obtain ⟨hl, he⟩ := List.getElem?_eq_some_iff.mp h
  refine ⟨ws.take i, ws.drop (i + 1), ?_, ?_⟩
  · rw [← he, List.getElem_cons_drop, List.take_append_drop]
  · rw [List.set_eq_take_append_cons_drop, if_pos hl]

theorem posting_busy {ws : List (Worker α)} {i : Nat} {c : α} (h : ws[i]? = some .idle) : (posting (ws.set i (.busy c))).Perm (c :: posting ws) := by
  obtain ⟨a, b, h1, h2⟩ := workers_split h (.busy c)
  rw [h2, h1]
  simp only [posting, List.filterMap_append, List.filterMap_cons]
  exact List.perm_middle

theorem posting_idle {ws : List (Worker α)} {i : Nat} {c : α} (h : ws[i]? = some (.busy c)) : (posting ws).Perm (c :: posting (ws.set i .idle)) := by
  obtain ⟨a, b, h1, h2⟩ := workers_split h .idle
  rw [h2, h1]
  simp only [posting, List.filterMap_append, List.filterMap_cons]
  exact List.perm_middle

theorem posting_gone {ws : List (Worker α)} {i : Nat} (h : ws[i]? = some .idle) : posting (ws.set i .gone) = posting ws := by
  obtain ⟨a, b, h1, h2⟩ := workers_split h .gone
  rw [h2, h1]
  simp [posting]

theorem posting_replicate (n : Nat) : posting (List.replicate n (.idle : Worker α)) = [] := by simp [posting, List.filterMap_eq_nil_iff]

theorem posting_ne {ws : List (Worker α)} (h : posting ws ≠ []) : ∃ (i : Nat) (c : α), ws[i]? = some (.busy c) := by
  obtain ⟨c, hc⟩ := List.exists_mem_of_ne_nil _ h
  obtain ⟨w, hw, he⟩ := List.mem_filterMap.mp hc
  cases w <;> simp at he
  subst he
  obtain ⟨i, hi⟩ := List.mem_iff_getElem?.mp hw
  exact ⟨i, _, hi⟩

/-- Nothing gets lost or doubled on the way, and nobody is told to stop in octorpki. -/
theorem octo_inv {n : Nat} {chains : List α} {k : Nat} {s : Outbox α} (h : Steps OctoStep (Outbox.start n chains) k s) :
    (s.sent ++ posting s.workers ++ s.todo).Perm chains ∧ s.workers.length = n ∧ (∀ w ∈ s.workers, w ≠ .gone) ∧
    k + 2 * s.todo.length + (posting s.workers).length = 2 * chains.length := by
  induction h with
  | here =>
    simp [Outbox.start, posting_replicate]
  | step k b c hs hr ih =>
    obtain ⟨p, l, g, m⟩ := ih
    cases hr with
    | hand c rest i ht hw =>
      have hp := posting_busy (c := c) hw
      refine ⟨?_, by simpa using l, ?_, ?_⟩
      · refine List.Perm.trans ?_ p
        rw [ht, List.append_assoc, List.append_assoc]
        refine List.Perm.append_left _ ?_
        refine (hp.append_right rest).trans ?_
        rw [List.cons_append]
        exact List.perm_middle.symm
      · intro w hm
        rcases List.mem_or_eq_of_mem_set hm with hm | rfl
        · exact g w hm
        · simp
      · have := hp.length_eq
        rw [ht] at m
        simp only [List.length_cons] at this m ⊢
        omega
    | post c i hw =>
      have hp := posting_idle hw
      refine ⟨?_, by simpa using l, ?_, ?_⟩
      · refine List.Perm.trans ?_ p
        refine List.Perm.append_right _ ?_
        simp only [List.append_assoc]
        exact List.Perm.append_left _ hp.symm
      · intro w hm
        rcases List.mem_or_eq_of_mem_set hm with hm | rfl
        · exact g w hm
        · simp
      · have := hp.length_eq
        simp only [List.length_cons] at this m ⊢
        omega

/-- ctrpki: the same with the channel; the first `told` threads have ended, and only after the last chain was put in the channel. -/
theorem ctr_inv {n : Nat} {chains : List α} {k : Nat} {s : Outbox α} (h : Steps (CtrStep n) (Outbox.start n chains) k s) :
    (s.sent ++ posting s.workers ++ s.buf ++ s.todo).Perm chains ∧ s.workers.length = n ∧ s.buf.length ≤ n ∧
    (∀ i, s.workers[i]? = some .gone ↔ i < s.told) ∧ (0 < s.told → s.todo = []) ∧ s.told ≤ n ∧
    k + 3 * s.todo.length + 2 * s.buf.length + (posting s.workers).length = 3 * chains.length + s.told := by
  induction h with
  | here =>
    refine ⟨by simp [Outbox.start, posting_replicate], by simp [Outbox.start], by simp [Outbox.start], ?_, by simp [Outbox.start], by simp [Outbox.start], by simp [Outbox.start, posting_replicate]⟩
    intro i
    simp only [Outbox.start, List.getElem?_replicate, Nat.not_lt_zero, iff_false]
    split <;> simp
  | step k b c hs hr ih =>
    obtain ⟨p, l, r, g, z, t, m⟩ := ih
    cases hr with
    | put c rest ht hr =>
      refine ⟨?_, l, by simp; omega, g, ?_, t, ?_⟩
      · rw [ht] at p
        simpa [List.append_assoc] using p
      · intro h; rw [z h] at ht; cases ht
      · rw [ht] at m
        simp only [List.length_cons, List.length_append, List.length_nil] at m ⊢
        omega
    | take c rest i hb hw =>
      have hp := posting_busy (c := c) hw
      refine ⟨?_, by simpa using l, by rw [hb] at r; simp only [List.length_cons] at r ⊢; omega, ?_, z, t, ?_⟩
      · refine List.Perm.trans ?_ p
        refine List.Perm.append_right _ ?_
        rw [hb, List.append_assoc, List.append_assoc]
        refine List.Perm.append_left _ ?_
        refine (hp.append_right rest).trans ?_
        rw [List.cons_append]
        exact List.perm_middle.symm
      · intro j
        rw [← g j]
        by_cases e : i = j
        · subst e
          rw [List.getElem?_set_self (List.getElem?_eq_some_iff.mp hw).1, hw]; simp
        · rw [List.getElem?_set_ne e]
      · have := hp.length_eq
        rw [hb] at m
        simp only [List.length_cons] at this m ⊢
        omega
    | post c i hw =>
      have hp := posting_idle hw
      refine ⟨?_, by simpa using l, r, ?_, z, t, ?_⟩
      · refine List.Perm.trans ?_ p
        refine List.Perm.append_right _ (List.Perm.append_right _ ?_)
        simp only [List.append_assoc]
        exact List.Perm.append_left _ hp.symm
      · intro j
        rw [← g j]
        by_cases e : i = j
        · subst e
          rw [List.getElem?_set_self (List.getElem?_eq_some_iff.mp hw).1, hw]; simp
        · rw [List.getElem?_set_ne e]
      · have := hp.length_eq
        simp only [List.length_cons] at this m ⊢
        omega
    | tell ht hw =>
      have hp := posting_gone hw
      have hl := (List.getElem?_eq_some_iff.mp hw).1
      refine ⟨by simpa [hp] using p, by simpa using l, r, ?_, fun _ => ht, by simp only; omega, by simp only [hp] at m ⊢; omega⟩
      intro j
      by_cases e : b.told = j
      · subst e
        rw [List.getElem?_set_self hl]; simp
      · rw [List.getElem?_set_ne e, g j]
        simp only
        omega

theorem _root_.Verif.CtSpec.Steps.trans {σ : Type} {R : σ → σ → Prop} {a b c : σ} {k l : Nat} (h : Steps R a k b) (h' : Steps R b l c) : Steps R a (k + l) c := by
  induction h' with
  | here => exact h
  | step l y z _ hr ih => exact .step _ _ _ _ ih hr

/-- A family of states, each one round of steps after the other. -/
theorem family {σ : Type} {R : σ → σ → Prop} (f : Nat → σ) (j n : Nat) (h : ∀ i, i < n → Steps R (f i) j (f (i + 1))) : Steps R (f 0) (n * j) (f n) := by
  induction n with
  | zero => simpa using Steps.here (R := R) (f 0)
  | succ n ih =>
    have := (ih fun i hi => h i (by omega)).trans (h n (by omega))
    rwa [← Nat.succ_mul] at this

end Verif.Ct
