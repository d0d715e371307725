import Verif.Lemmas.RrdpXml
/-
  Text at the very end of the tokens changes nothing in whether a document is accepted.
-/
set_option autoImplicit false

namespace Verif.RrdpXml
open Rrdp RrdpXmlSpec

theorem skip_snoc (b : Bytes) : ∀ (a : List Tok) (d : Nat) (r : List Tok), skip d (a ++ [.chars b]) = .ok r → ∃ r0, r = r0 ++ [.chars b] ∧ skip d a = .ok r0 := by
  intro a
  induction a with
  | nil => intro d r h; cases d <;> simp [skip] at h
  | cons t a ih =>
    intro d r h
    cases t with
    | start n as => exact ih (d + 1) r (by cases d <;> exact h) |>.imp fun _ hx => ⟨hx.1, by cases d <;> exact hx.2⟩
    | stop n =>
      cases d with
      | zero =>
        have h : Go.ok (a ++ [Tok.chars b]) = Go.ok r := h
        exact ⟨a, (Go.ok.inj h).symm, rfl⟩
      | succ d => exact ih d r h
    | chars c => exact ih d r (by cases d <;> exact h) |>.imp fun _ hx => ⟨hx.1, by cases d <;> exact hx.2⟩
    | misc => exact ih d r (by cases d <;> exact h) |>.imp fun _ hx => ⟨hx.1, by cases d <;> exact hx.2⟩

theorem certBody_snoc (b : Bytes) : ∀ (a : List Tok) (acc : Bytes) (d : Nat) (v : Bytes) (r : List Tok), certBody acc d (a ++ [.chars b]) = .ok (v, r) →
    ∃ r0, r = r0 ++ [.chars b] ∧ certBody acc d a = .ok (v, r0) := by
  intro a
  induction a with
  | nil => intro acc d v r h; cases d <;> simp [certBody] at h
  | cons t a ih =>
    intro acc d v r h
    cases t with
    | start n as => exact ih acc (d + 1) v r (by cases d <;> exact h) |>.imp fun _ hx => ⟨hx.1, by cases d <;> exact hx.2⟩
    | stop n =>
      cases d with
      | zero =>
        have h : Go.ok (acc, a ++ [Tok.chars b]) = Go.ok (v, r) := h
        have h := Go.ok.inj h
        simp only [Prod.mk.injEq] at h
        obtain ⟨rfl, rfl⟩ := h
        exact ⟨a, rfl, rfl⟩
      | succ d => exact ih acc d v r h
    | chars c =>
      cases d with
      | zero => exact ih (acc ++ c) 0 v r h
      | succ d => exact ih acc (d + 1) v r h
    | misc => exact ih acc d v r (by cases d <;> exact h) |>.imp fun _ hx => ⟨hx.1, by cases d <;> exact hx.2⟩

theorem nodeBody_snoc (b : Bytes) : ∀ (f : Nat) (a : List Tok) (st st' : List Item × List Item) (r : List Tok), nodeBody f st (a ++ [.chars b]) = .ok (st', r) →
    ∃ r0, r = r0 ++ [.chars b] ∧ nodeBody f st a = .ok (st', r0) := by
  intro f
  induction f with
  | zero => intro a st st' r h; simp [nodeBody] at h
  | succ f ih =>
    intro a st st' r h
    cases a with
    | nil =>
      rw [List.nil_append, nodeBody] at h
      cases f <;> simp [nodeBody] at h
    | cons t a =>
      rw [List.cons_append] at h
      cases t with
      | start k as =>
        rw [nodeBody] at h ⊢
        split at h
        · rename_i hk
          rw [if_pos hk]
          obtain ⟨⟨v, x⟩, h1, h2⟩ := Go.bind_eq_ok.mp h
          obtain ⟨r0, rfl, h3⟩ := certBody_snoc b _ _ _ _ _ h1
          rw [h3, Go.ok_bind]
          exact ih _ _ _ _ h2
        · rename_i hk
          rw [if_neg hk]
          split at h
          · rename_i hk2
            rw [if_pos hk2]
            obtain ⟨⟨v, x⟩, h1, h2⟩ := Go.bind_eq_ok.mp h
            obtain ⟨r0, rfl, h3⟩ := certBody_snoc b _ _ _ _ _ h1
            rw [h3, Go.ok_bind]
            exact ih _ _ _ _ h2
          · rename_i hk2
            rw [if_neg hk2]
            obtain ⟨x, h1, h2⟩ := Go.bind_eq_ok.mp h
            obtain ⟨r0, rfl, h3⟩ := skip_snoc b _ _ _ h1
            rw [h3, Go.ok_bind]
            exact ih _ _ _ _ h2
      | stop k =>
        rw [nodeBody] at h ⊢
        have h := Go.ok.inj h
        simp only [Prod.mk.injEq] at h
        obtain ⟨rfl, rfl⟩ := h
        exact ⟨a, rfl, rfl⟩
      | chars c => rw [nodeBody] at h ⊢; exact ih _ _ _ _ h
      | misc => rw [nodeBody] at h ⊢; exact ih _ _ _ _ h

theorem nodeLoop_snoc (b : Bytes) : ∀ (f : Nat) (a : List Tok) (d s out x : List Item × List Item), parseNodeLoop f d s out (a ++ [.chars b]) = .ok x → parseNodeLoop f d s out a = .ok x := by
  intro f
  induction f with
  | zero => intro a d s out x h; simp [parseNodeLoop] at h
  | succ f ih =>
    intro a d s out x h
    cases a with
    | nil =>
      rw [List.nil_append, parseNodeLoop] at h
      · cases f with
        | zero => simp [parseNodeLoop] at h
        | succ f => exact h
      · intro k as hh; cases hh
    | cons t a =>
      rw [List.cons_append] at h
      cases t with
      | start k as =>
        rw [parseNodeLoop] at h ⊢
        split at h
        · rename_i hk
          rw [if_pos hk]
          obtain ⟨y, h0, h⟩ := Go.bind_eq_ok.mp h
          obtain ⟨⟨v, z⟩, h1, h2⟩ := Go.bind_eq_ok.mp h
          obtain ⟨r0, rfl, h3⟩ := nodeBody_snoc b _ _ _ _ _ h1
          rw [h0, Go.ok_bind, h3, Go.ok_bind]
          exact ih _ _ _ _ _ h2
        · rename_i hk
          rw [if_neg hk]
          split at h
          · rename_i hk2
            rw [if_pos hk2]
            obtain ⟨y, h0, h⟩ := Go.bind_eq_ok.mp h
            obtain ⟨⟨v, z⟩, h1, h2⟩ := Go.bind_eq_ok.mp h
            obtain ⟨r0, rfl, h3⟩ := nodeBody_snoc b _ _ _ _ _ h1
            rw [h0, Go.ok_bind, h3, Go.ok_bind]
            exact ih _ _ _ _ _ h2
          · rename_i hk2
            rw [if_neg hk2]
            exact ih _ _ _ _ _ h
      | stop k => exact ih _ _ _ _ _ h
      | chars c => exact ih _ _ _ _ _ h
      | misc => exact ih _ _ _ _ _ h

theorem rootBody_snoc (b : Bytes) : ∀ (f : Nat) (a : List Tok) (st st' : Notification) (r : List Tok), rootBody f st (a ++ [.chars b]) = .ok (st', r) →
    ∃ r0, r = r0 ++ [.chars b] ∧ rootBody f st a = .ok (st', r0) := by
  intro f
  induction f with
  | zero => intro a st st' r h; simp [rootBody] at h
  | succ f ih =>
    intro a st st' r h
    cases a with
    | nil =>
      rw [List.nil_append, rootBody] at h
      cases f <;> simp [rootBody] at h
    | cons t a =>
      rw [List.cons_append] at h
      cases t with
      | start k as =>
        rw [rootBody] at h ⊢
        split at h
        · rename_i hk
          rw [if_pos hk]
          obtain ⟨e, h0, h⟩ := Go.bind_eq_ok.mp h
          obtain ⟨x, h1, h2⟩ := Go.bind_eq_ok.mp h
          obtain ⟨r0, rfl, h3⟩ := skip_snoc b _ _ _ h1
          rw [h0, Go.ok_bind, h3, Go.ok_bind]
          exact ih _ _ _ _ h2
        · rename_i hk
          rw [if_neg hk]
          split at h
          · rename_i hk2
            rw [if_pos hk2]
            obtain ⟨e, h0, h⟩ := Go.bind_eq_ok.mp h
            obtain ⟨x, h1, h2⟩ := Go.bind_eq_ok.mp h
            obtain ⟨r0, rfl, h3⟩ := skip_snoc b _ _ _ h1
            rw [h0, Go.ok_bind, h3, Go.ok_bind]
            exact ih _ _ _ _ h2
          · rename_i hk2
            rw [if_neg hk2]
            obtain ⟨x, h1, h2⟩ := Go.bind_eq_ok.mp h
            obtain ⟨r0, rfl, h3⟩ := skip_snoc b _ _ _ h1
            rw [h3, Go.ok_bind]
            exact ih _ _ _ _ h2
      | stop k =>
        rw [rootBody] at h ⊢
        have h := Go.ok.inj h
        simp only [Prod.mk.injEq] at h
        obtain ⟨rfl, rfl⟩ := h
        exact ⟨a, rfl, rfl⟩
      | chars c => rw [rootBody] at h ⊢; exact ih _ _ _ _ h
      | misc => rw [rootBody] at h ⊢; exact ih _ _ _ _ h

theorem rootLoop_snoc (b : Bytes) : ∀ (f : Nat) (a : List Tok) (n x : Notification), parseRootLoop f n (a ++ [.chars b]) = .ok x → parseRootLoop f n a = .ok x := by
  intro f
  induction f with
  | zero => intro a n x h; simp [parseRootLoop] at h
  | succ f ih =>
    intro a n x h
    cases a with
    | nil =>
      rw [List.nil_append, parseRootLoop] at h
      · cases f with
        | zero => simp [parseRootLoop] at h
        | succ f => exact h
      · intro k as hh; cases hh
    | cons t a =>
      rw [List.cons_append] at h
      cases t with
      | start k as =>
        rw [parseRootLoop] at h ⊢
        split at h
        · rename_i hk
          rw [if_pos hk]
          obtain ⟨y, h0, h⟩ := Go.bind_eq_ok.mp h
          obtain ⟨⟨v, z⟩, h1, h2⟩ := Go.bind_eq_ok.mp h
          obtain ⟨r0, rfl, h3⟩ := rootBody_snoc b _ _ _ _ _ h1
          rw [h0, Go.ok_bind, h3, Go.ok_bind]
          exact ih _ _ _ h2
        · rename_i hk
          rw [if_neg hk]
          exact ih _ _ _ h
      | stop k => exact ih _ _ _ h
      | chars c => exact ih _ _ _ h
      | misc => exact ih _ _ _ h

/-! ### The number of rounds does not matter -/

theorem rootAttrs_result : ∀ (as : List (Bytes × Bytes)) (e : Root), (∃ m, rootAttrs as e = .err m) ∨ ∃ e', rootAttrs as e = .ok e' := by
  intro as
  induction as with
  | nil => intro e; exact .inr ⟨e, rfl⟩
  | cons kv as ih =>
    intro e
    obtain ⟨k, v⟩ := kv
    rw [rootAttrs]
    split
    · exact ih _
    · split
      · cases parseInt64 v with
        | none => exact .inl ⟨_, rfl⟩
        | some n => exact ih _
      · exact ih _

theorem nodeBody_fuel : ∀ (f f' : Nat) (p : List Tok) (st : List Item × List Item), p.length < f → f ≤ f' → nodeBody f' st p = nodeBody f st p := by
  intro f
  induction f with
  | zero => intro f' p st hl; omega
  | succ f ih =>
    intro f' p st hl hf
    obtain ⟨g, rfl⟩ : ∃ g, f' = g + 1 := ⟨f' - 1, by omega⟩
    cases p with
    | nil => rw [nodeBody, nodeBody]
    | cons t p =>
      rw [List.length_cons] at hl
      cases t with
      | start k as =>
        rw [nodeBody, nodeBody]
        rcases certBody_result p [] 0 with ⟨m, hc⟩ | ⟨v, r, hc, hr⟩
        · rcases skip_result p 0 with ⟨m', hs⟩ | ⟨r', hs, hr'⟩
          · rw [hc, hs]; rfl
          · rw [hc, hs, Go.ok_bind, Go.ok_bind, ih g r' st (by omega) (by omega)]; rfl
        · rcases skip_result p 0 with ⟨m', hs⟩ | ⟨r', hs, hr'⟩
          · rw [hc, hs]
            simp only [Go.ok_bind]
            rw [ih g r _ (by omega) (by omega), ih g r _ (by omega) (by omega)]; rfl
          · rw [hc, hs]
            simp only [Go.ok_bind]
            rw [ih g r _ (by omega) (by omega), ih g r _ (by omega) (by omega), ih g r' st (by omega) (by omega)]
      | stop k => rw [nodeBody, nodeBody]
      | chars c => rw [nodeBody, nodeBody]; exact ih g p st (by omega) (by omega)
      | misc => rw [nodeBody, nodeBody]; exact ih g p st (by omega) (by omega)

theorem nodeLoop_fuel : ∀ (f f' : Nat) (p : List Tok) (d s out : List Item × List Item), p.length < f → f ≤ f' →
    parseNodeLoop f' d s out p = parseNodeLoop f d s out p ∧ ((∃ m, parseNodeLoop f d s out p = .err m) ∨ ∃ x, parseNodeLoop f d s out p = .ok x) := by
  intro f
  induction f with
  | zero => intro f' p d s out hl; omega
  | succ f ih =>
    intro f' p d s out hl hf
    obtain ⟨g, rfl⟩ : ∃ g, f' = g + 1 := ⟨f' - 1, by omega⟩
    cases p with
    | nil => rw [parseNodeLoop, parseNodeLoop]; exact ⟨rfl, .inr ⟨_, rfl⟩⟩
    | cons t p =>
      rw [List.length_cons] at hl
      cases t with
      | start k as =>
        rw [parseNodeLoop, parseNodeLoop]
        rcases rootAttrs_result as ⟨[], 0⟩ with ⟨m, h0⟩ | ⟨e, h0⟩
        · rw [h0]
          split
          · exact ⟨rfl, .inl ⟨m, rfl⟩⟩
          · split
            · exact ⟨rfl, .inl ⟨m, rfl⟩⟩
            · exact ih g p d s out (by omega) (by omega)
        · rw [h0]
          simp only [Go.ok_bind]
          split
          · rw [nodeBody_fuel (f + 1) (g + 1) p d (by omega) (by omega)]
            rcases nodeBody_result (f + 1) p d (by omega) with ⟨m, h⟩ | ⟨st', r, h, hr⟩
            · rw [h]; exact ⟨rfl, .inl ⟨m, rfl⟩⟩
            · rw [h]; simp only [Go.ok_bind]; exact ih g r _ _ _ (by omega) (by omega)
          · split
            · rw [nodeBody_fuel (f + 1) (g + 1) p s (by omega) (by omega)]
              rcases nodeBody_result (f + 1) p s (by omega) with ⟨m, h⟩ | ⟨st', r, h, hr⟩
              · rw [h]; exact ⟨rfl, .inl ⟨m, rfl⟩⟩
              · rw [h]; simp only [Go.ok_bind]; exact ih g r _ _ _ (by omega) (by omega)
            · exact ih g p d s out (by omega) (by omega)
      | stop k => exact ih g p d s out (by omega) (by omega)
      | chars c => exact ih g p d s out (by omega) (by omega)
      | misc => exact ih g p d s out (by omega) (by omega)

theorem parseNode_snoc {us : List Tok} (b : Bytes) (h : ∃ m, parseNode us = .err m) : ∃ m, parseNode (us ++ [.chars b]) = .err m := by
  obtain ⟨m, h⟩ := h
  rcases (nodeLoop_fuel _ _ (us ++ [.chars b]) ([], []) ([], []) ([], []) (Nat.lt_succ_self _) (Nat.le_refl _)).2 with h' | ⟨x, h'⟩
  · exact h'
  · have h2 := nodeLoop_snoc b _ _ _ _ _ _ h'
    rw [(nodeLoop_fuel (us.length + 1) _ us _ _ _ (by omega) (by simp)).1] at h2
    rw [parseNode, h2] at h
    cases h

theorem rootBody_fuel : ∀ (f f' : Nat) (p : List Tok) (st : Notification), p.length < f → f ≤ f' → rootBody f' st p = rootBody f st p := by
  intro f
  induction f with
  | zero => intro f' p st hl; omega
  | succ f ih =>
    intro f' p st hl hf
    obtain ⟨g, rfl⟩ : ∃ g, f' = g + 1 := ⟨f' - 1, by omega⟩
    cases p with
    | nil => rw [rootBody, rootBody]
    | cons t p =>
      rw [List.length_cons] at hl
      cases t with
      | start k as =>
        rw [rootBody, rootBody]
        rcases skip_result p 0 with ⟨m', hs⟩ | ⟨r', hs, hr'⟩
        · rw [hs]; rfl
        · rw [hs]
          simp only [Go.ok_bind]
          rw [ih g r' st (by omega) (by omega)]
          have e : ∀ st, rootBody g st r' = rootBody f st r' := fun st => ih g r' st (by omega) (by omega)
          simp only [e]
      | stop k => rw [rootBody, rootBody]
      | chars c => rw [rootBody, rootBody]; exact ih g p st (by omega) (by omega)
      | misc => rw [rootBody, rootBody]; exact ih g p st (by omega) (by omega)

theorem rootLoop_fuel : ∀ (f f' : Nat) (p : List Tok) (n : Notification), p.length < f → f ≤ f' →
    parseRootLoop f' n p = parseRootLoop f n p ∧ ((∃ m, parseRootLoop f n p = .err m) ∨ ∃ x, parseRootLoop f n p = .ok x) := by
  intro f
  induction f with
  | zero => intro f' p n hl; omega
  | succ f ih =>
    intro f' p n hl hf
    obtain ⟨g, rfl⟩ : ∃ g, f' = g + 1 := ⟨f' - 1, by omega⟩
    cases p with
    | nil => rw [parseRootLoop, parseRootLoop]; exact ⟨rfl, .inr ⟨_, rfl⟩⟩
    | cons t p =>
      rw [List.length_cons] at hl
      cases t with
      | start k as =>
        rw [parseRootLoop, parseRootLoop]
        rcases rootAttrs_result as ⟨n.sessionID, n.serial⟩ with ⟨m, h0⟩ | ⟨e, h0⟩
        · rw [h0]
          split
          · exact ⟨rfl, .inl ⟨m, rfl⟩⟩
          · exact ih g p n (by omega) (by omega)
        · rw [h0]
          simp only [Go.ok_bind]
          split
          · rw [rootBody_fuel (f + 1) (g + 1) p _ (by omega) (by omega)]
            rcases rootBody_result (f + 1) p { n with sessionID := e.session, serial := e.serial } (by omega) with ⟨m, h⟩ | ⟨st', r, h, hr⟩
            · rw [h]; exact ⟨rfl, .inl ⟨m, rfl⟩⟩
            · rw [h]; simp only [Go.ok_bind]; exact ih g r _ (by omega) (by omega)
          · exact ih g p n (by omega) (by omega)
      | stop k => exact ih g p n (by omega) (by omega)
      | chars c => exact ih g p n (by omega) (by omega)
      | misc => exact ih g p n (by omega) (by omega)

theorem parseRoot_snoc {us : List Tok} (b : Bytes) (h : ∃ m, parseRoot us = .err m) : ∃ m, parseRoot (us ++ [.chars b]) = .err m := by
  obtain ⟨m, h⟩ := h
  rcases (rootLoop_fuel _ _ (us ++ [.chars b]) ⟨[], 0, ⟨0, [], []⟩, []⟩ (Nat.lt_succ_self _) (Nat.le_refl _)).2 with h' | ⟨x, h'⟩
  · exact h'
  · have h2 := rootLoop_snoc b _ _ _ _ h'
    rw [(rootLoop_fuel (us.length + 1) _ us _ (by omega) (by simp)).1] at h2
    rw [parseRoot, h2] at h
    cases h

end Verif.RrdpXml
