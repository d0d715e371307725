import Verif.Model.RrdpLimit
/-
  Lemmas for C107.
-/
set_option autoImplicit false

namespace Verif.RrdpLimit
open Rrdp

variable {σ : Type}

/-- The answer of the server is over the limit. -/
def Over (a : Answer) : Prop := ∃ b br, a = .answer 200 b br ∧ 10 ^ 9 < b.length

theorem over_get {a : Answer} (h : Over a) : getXML a = .error (.text Fetch.tooLarge) := by
  obtain ⟨b, br, rfl, hl⟩ := h
  have : responseLimit < b.length := by simpa [responseLimit] using hl
  simp [getXML, this]

theorem notOver_get {a : Answer} (h : ¬ Over a) (hb : ∀ b e, a = .answer 200 b (some e) → e ≠ Fetch.tooLarge) : getXML a ≠ .error (.text Fetch.tooLarge) := by
  cases a with
  | badUrl e => simp [getXML]
  | noAnswer e => simp [getXML]
  | answer st b br =>
    simp only [getXML]
    split
    · simp
    · rename_i hs
      obtain rfl : st = 200 := by simpa using hs
      split
      · rename_i hl
        exact absurd ⟨b, br, rfl, by simpa [responseLimit] using hl⟩ h
      · cases br with
        | none => simp
        | some e =>
          have := hb b e rfl
          simpa using this

/-! ### The same run as without the errors -/

/-- What is left without the errors. -/
def noErr (x : Go (R σ × Option Err)) : Go (R σ × Bool) := x.bind fun y => .ok (y.1, y.2.isNone)

theorem callOneE_plain (cb : ECallback σ) (r : R σ) (c : Call) : noErr (callOneE cb r c) = callOne (ECallback.plain cb) r c := by
  unfold callOneE callOne ECallback.plain noErr
  cases cb r.st c with
  | ok x => cases x with | mk s e => cases e <;> rfl
  | err e => rfl
  | panic => rfl
  | diverge => rfl

theorem applyItemsE_plain (W : EWorld) (cb : ECallback σ) (mk : Bytes → Bytes → Call) (strict : Bool) : ∀ (l : List Item) (r : R σ),
    noErr (applyItemsE W cb mk strict l r) = applyItems (ECallback.plain cb) mk strict l r := by
  intro l
  induction l with
  | nil => intro r; rfl
  | cons i l ih =>
    intro r
    unfold applyItemsE applyItems
    cases decodeBase64 i.value with
    | none => rfl
    | some d =>
      simp only [← callOneE_plain]
      cases callOneE cb r (mk i.uri d) with
      | ok x =>
        obtain ⟨r', e⟩ := x
        cases e with
        | none =>
          show noErr (applyItemsE W cb mk strict l r') = (if (true || !strict) = true then applyItems (ECallback.plain cb) mk strict l r' else pure (r', false))
          rw [if_pos (by simp)]; exact ih r'
        | some e =>
          cases strict with
          | true => rfl
          | false => exact ih r'
      | err e => rfl
      | panic => rfl
      | diverge => rfl

theorem nodeE_plain (W : EWorld) (r : R σ) (u : Bytes) : (nodeE W r u).1 = (download W.plain r u).1 ∧
    (∀ y, (nodeE W r u).2 = .ok y → (download W.plain r u).2.bind W.plain.parseNode = some y) ∧
    (∀ e, (nodeE W r u).2 = .error e → (download W.plain r u).2.bind W.plain.parseNode = none) := by
  unfold nodeE downloadE download EWorld.plain
  refine ⟨rfl, ?_, ?_⟩
  · intro y h
    simp only at h ⊢
    cases hg : getXML (W.get r.gets.length u) with
    | error e => rw [hg] at h; cases h
    | ok d =>
      rw [hg] at h
      simp only [Option.bind_some] at h ⊢
      cases hp : W.parseNode d with
      | none => rw [hp] at h; cases h
      | some z => rw [hp] at h; cases h; rfl
  · intro e h
    simp only at h ⊢
    cases hg : getXML (W.get r.gets.length u) with
    | error e => rfl
    | ok d =>
      rw [hg] at h
      simp only [Option.bind_some] at h ⊢
      cases hp : W.parseNode d with
      | none => rfl
      | some z => rw [hp] at h; cases h

/-- A document: the two lists, one after the other. -/
theorem two_plain (W : EWorld) (cb : ECallback σ) (m1 m2 : Bytes → Bytes → Call) (t : Bool) (pub wd : List Item) (r : R σ) :
    noErr (do
      let y ← applyItemsE W cb m1 true pub r
      match y.2 with
      | none => applyItemsE W cb m2 t wd y.1
      | some e => return (y.1, some e)) =
    (do
      let y ← applyItems (ECallback.plain cb) m1 true pub r
      if y.2 then applyItems (ECallback.plain cb) m2 t wd y.1 else return y) := by
  rw [← applyItemsE_plain W]
  cases applyItemsE W cb m1 true pub r with
  | ok x =>
    obtain ⟨r', e⟩ := x
    cases e with
    | none => exact applyItemsE_plain W cb m2 t wd r'
    | some e => rfl
  | err e => rfl
  | panic => rfl
  | diverge => rfl

theorem doSnapshotE_plain (W : EWorld) (cb : ECallback σ) (s : Sys) (n : Notification) (r : R σ) : noErr (doSnapshotE W cb s n r) = doSnapshot W.plain (ECallback.plain cb) s n r := by
  obtain ⟨h1, h2, h3⟩ := nodeE_plain W r n.snapshot.uri
  unfold doSnapshotE doSnapshot
  cases hn : (nodeE W r n.snapshot.uri).2 with
  | error e => simp only [h3 e hn, hn, h1]; rfl
  | ok y =>
    obtain ⟨pub, wd⟩ := y
    simp only [h2 _ hn, hn, h1]
    exact two_plain W cb _ _ true pub wd _

theorem doDeltaE_plain (W : EWorld) (cb : ECallback σ) (s : Sys) (n : Notification) (el : El) (r : R σ) : noErr (doDeltaE W cb s n el r) = doDelta W.plain (ECallback.plain cb) s n el r := by
  obtain ⟨h1, h2, h3⟩ := nodeE_plain W r el.uri
  unfold doDeltaE doDelta
  cases hn : (nodeE W r el.uri).2 with
  | error e => simp only [h3 e hn, hn, h1]; rfl
  | ok y =>
    obtain ⟨pub, wd⟩ := y
    simp only [h2 _ hn, hn, h1]
    exact two_plain W cb _ _ false pub wd _

theorem doDeltasE_plain (W : EWorld) (cb : ECallback σ) (s : Sys) (n : Notification) : ∀ (k : Nat) (serial : Int) (r : R σ),
    noErr (doDeltasE W cb s n k serial r) = doDeltas W.plain (ECallback.plain cb) s n k serial r := by
  intro k
  induction k with
  | zero => intro serial r; rfl
  | succ k ih =>
    intro serial r
    unfold doDeltasE doDeltas
    cases n.delta serial with
    | none => rfl
    | some el =>
      simp only [← doDeltaE_plain]
      cases doDeltaE W cb s n el r with
      | ok x =>
        obtain ⟨r', e⟩ := x
        cases e with
        | none => exact ih (serial + 1) r'
        | some e => rfl
      | err e => rfl
      | panic => rfl
      | diverge => rfl

/-! ### Answers over the limit -/

/-- No answer to these downloads was over the limit. -/
def Clean (W : EWorld) (gets : List Bytes) : Prop := ∀ i u, gets[i]? = some u → ¬ Over (W.get i u)

/-- What an error says about the downloads: not the text for answers over the limit, and no such answer; or that text, and the last answer was the first such. -/
def Judged (W : EWorld) (r : R σ) (e : Option Err) : Prop :=
  (e ≠ some (.text Fetch.tooLarge) ∧ Clean W r.gets) ∨
  (e = some (.text Fetch.tooLarge) ∧ ∃ g u, r.gets = g ++ [u] ∧ Clean W g ∧ Over (W.get g.length u))

/-- The server's other errors, and those of the callback, have other texts. -/
structure Usual (W : EWorld) (cb : ECallback σ) : Prop where
  body : ∀ i u b e, W.get i u = .answer 200 b (some e) → e ≠ Fetch.tooLarge
  call : ∀ st c st' e, cb st c = .ok (st', some e) → e ≠ Fetch.tooLarge

theorem clean_append {W : EWorld} {g : List Bytes} {u : Bytes} (h : Clean W g) (ho : ¬ Over (W.get g.length u)) : Clean W (g ++ [u]) := by
  intro i v hi
  by_cases hl : i < g.length
  · rw [List.getElem?_append_left hl] at hi
    exact h i v hi
  · rw [List.getElem?_append_right (by omega)] at hi
    obtain ⟨h1, h2⟩ : i - g.length = 0 ∧ u = v := by
      cases hk : i - g.length with
      | zero => rw [hk] at hi; simpa using hi
      | succ k => rw [hk] at hi; simp at hi
    have : i = g.length := by omega
    rw [this, ← h2]; exact ho

theorem download_judged {W : EWorld} {cb : ECallback σ} (hu : Usual W cb) (r : R σ) (u : Bytes) (hc : Clean W r.gets) :
    (∃ b, (downloadE W r u).2 = .ok b ∧ Clean W (downloadE W r u).1.gets) ∨ (∃ e, (downloadE W r u).2 = .error e ∧ Judged W (downloadE W r u).1 (some e)) := by
  unfold downloadE
  by_cases ho : Over (W.get r.gets.length u)
  · right
    refine ⟨_, over_get ho, .inr ⟨rfl, r.gets, u, rfl, hc, ho⟩⟩
  · cases hg : getXML (W.get r.gets.length u) with
    | ok b => exact .inl ⟨b, rfl, clean_append hc ho⟩
    | error e =>
      refine .inr ⟨e, rfl, .inl ⟨?_, clean_append hc ho⟩⟩
      intro he
      cases he
      exact notOver_get ho (fun b e h => hu.body _ _ b e h) hg

theorem prefix_ne {a b t : Bytes} (h : a.length ≤ t.length) (hn : t.take a.length ≠ a) : a ++ b ≠ t := by
  rintro rfl
  simp at hn

theorem errXml_ne : errXml ≠ .text Fetch.tooLarge := by decide

theorem errBase64_ne (v : Bytes) (f : Bytes → Nat) : errBase64 v f ≠ .text Fetch.tooLarge := by
  intro h
  injection h with h
  have h := congrArg (List.take 1) h
  rw [List.take_append_of_le_length (by decide)] at h
  exact absurd h (by decide)

theorem errDelta_ne (n : Int) : errDelta n ≠ .text Fetch.tooLarge := by
  intro h
  injection h with h
  have h := congrArg (List.take 1) h
  rw [List.take_append_of_le_length (by decide)] at h
  exact absurd h (by decide)

theorem node_judged {W : EWorld} {cb : ECallback σ} (hu : Usual W cb) (r : R σ) (u : Bytes) (hc : Clean W r.gets) :
    (∃ b, (nodeE W r u).2 = .ok b ∧ Clean W (nodeE W r u).1.gets) ∨ (∃ e, (nodeE W r u).2 = .error e ∧ Judged W (nodeE W r u).1 (some e)) := by
  unfold nodeE
  rcases download_judged hu r u hc with ⟨b, h, hcl⟩ | ⟨e, h, hj⟩
  · simp only [h]
    cases W.parseNode b with
    | none => exact .inr ⟨errXml, rfl, .inl ⟨by simpa using errXml_ne, hcl⟩⟩
    | some y => exact .inl ⟨y, rfl, hcl⟩
  · simp only [h]
    exact .inr ⟨e, rfl, hj⟩

theorem applyItemsE_judged {W : EWorld} {cb : ECallback σ} (hu : Usual W cb) (mk : Bytes → Bytes → Call) (strict : Bool) : ∀ (l : List Item) (r r' : R σ) (e : Option Err),
    Clean W r.gets → applyItemsE W cb mk strict l r = .ok (r', e) → e ≠ some (.text Fetch.tooLarge) ∧ Clean W r'.gets := by
  intro l
  induction l with
  | nil => intro r r' e hc h; cases h; exact ⟨by simp, hc⟩
  | cons i l ih =>
    intro r r' e hc h
    unfold applyItemsE at h
    cases hd : decodeBase64 i.value with
    | none =>
      rw [hd] at h; cases h
      exact ⟨by simpa using errBase64_ne _ _, hc⟩
    | some d =>
      rw [hd] at h
      obtain ⟨x, hx, h⟩ := Go.bind_eq_ok.mp h
      unfold callOneE at hx
      cases hcb : cb r.st (mk i.uri d) with
      | ok y =>
        obtain ⟨s, ce⟩ := y
        rw [hcb] at hx
        cases hx
        cases ce with
        | none => exact ih { st := s, gets := r.gets, calls := r.calls ++ [(mk i.uri d, true)] } _ _ hc h
        | some t =>
          have ht := hu.call _ _ _ _ hcb
          cases strict with
          | true =>
            simp only [Option.map_some, if_true] at h
            cases h
            exact ⟨by simpa using ht, hc⟩
          | false => exact ih { st := s, gets := r.gets, calls := r.calls ++ [(mk i.uri d, false)] } _ _ hc h
      | err e => rw [hcb] at hx; cases hx
      | panic => rw [hcb] at hx; cases hx
      | diverge => rw [hcb] at hx; cases hx

theorem two_judged {W : EWorld} {cb : ECallback σ} (hu : Usual W cb) (m1 m2 : Bytes → Bytes → Call) (t : Bool) (pub wd : List Item) (r r' : R σ) (e : Option Err) (hc : Clean W r.gets)
    (h : (do
      let y ← applyItemsE W cb m1 true pub r
      match y.2 with
      | none => applyItemsE W cb m2 t wd y.1
      | some e => return (y.1, some e)) = Go.ok (r', e)) : e ≠ some (.text Fetch.tooLarge) ∧ Clean W r'.gets := by
  obtain ⟨⟨r1, e1⟩, h1, h⟩ := Go.bind_eq_ok.mp h
  obtain ⟨hne, hc1⟩ := applyItemsE_judged hu _ _ _ _ _ _ hc h1
  cases e1 with
  | none => exact applyItemsE_judged hu _ _ _ _ _ _ hc1 h
  | some e1 => cases h; exact ⟨hne, hc1⟩

theorem doSnapshotE_judged {W : EWorld} {cb : ECallback σ} (hu : Usual W cb) (s : Sys) (n : Notification) (r r' : R σ) (e : Option Err) (hc : Clean W r.gets)
    (h : doSnapshotE W cb s n r = .ok (r', e)) : Judged W r' e := by
  unfold doSnapshotE at h
  rcases node_judged hu r n.snapshot.uri hc with ⟨b, hb, hcl⟩ | ⟨e', hb, hj⟩
  · simp only [hb] at h
    exact .inl (two_judged hu _ _ _ _ _ _ _ _ hcl h)
  · simp only [hb] at h
    cases h; exact hj

theorem doDeltaE_judged {W : EWorld} {cb : ECallback σ} (hu : Usual W cb) (s : Sys) (n : Notification) (el : El) (r r' : R σ) (e : Option Err) (hc : Clean W r.gets)
    (h : doDeltaE W cb s n el r = .ok (r', e)) : Judged W r' e := by
  unfold doDeltaE at h
  rcases node_judged hu r el.uri hc with ⟨b, hb, hcl⟩ | ⟨e', hb, hj⟩
  · simp only [hb] at h
    exact .inl (two_judged hu _ _ _ _ _ _ _ _ hcl h)
  · simp only [hb] at h
    cases h; exact hj

theorem doDeltasE_judged {W : EWorld} {cb : ECallback σ} (hu : Usual W cb) (s : Sys) (n : Notification) : ∀ (k : Nat) (serial : Int) (r r' : R σ) (e : Option Err), Clean W r.gets →
    doDeltasE W cb s n k serial r = .ok (r', e) → Judged W r' e := by
  intro k
  induction k with
  | zero => intro serial r r' e hc h; cases h; exact .inl ⟨by simp, hc⟩
  | succ k ih =>
    intro serial r r' e hc h
    unfold doDeltasE at h
    cases hd : n.delta serial with
    | none => rw [hd] at h; cases h; exact .inl ⟨by simpa using errDelta_ne _, hc⟩
    | some el =>
      rw [hd] at h
      obtain ⟨⟨r1, e1⟩, h1, h⟩ := Go.bind_eq_ok.mp h
      have hj := doDeltaE_judged hu s n el r r1 e1 hc h1
      cases e1 with
      | none =>
        rcases hj with ⟨-, hc1⟩ | ⟨hx, -⟩
        · exact ih _ _ _ _ hc1 h
        · cases hx
      | some e1 => cases h; exact hj

theorem fetchE_judged {W : EWorld} {cb : ECallback σ} (hu : Usual W cb) (s s' : Sys) (r r' : R σ) (e : Option Err) (hc : Clean W r.gets)
    (h : fetchE W cb s r = .ok (s', r', e)) : Judged W r' e ∧ (e ≠ none → s' = s) := by
  unfold fetchE at h
  rcases download_judged hu r s.path hc with ⟨b, hb, hcl⟩ | ⟨e', hb, hj⟩
  · simp only [hb] at h
    cases hp : W.parseRoot b with
    | none => rw [hp] at h; cases h; exact ⟨.inl ⟨by simpa using errXml_ne, hcl⟩, fun _ => rfl⟩
    | some n =>
      rw [hp] at h
      simp only at h
      split at h
      · obtain ⟨⟨r1, e1⟩, h1, h⟩ := Go.bind_eq_ok.mp h
        have hj := doSnapshotE_judged hu s n _ r1 e1 hcl h1
        cases e1 <;> cases h
        · exact ⟨hj, fun h => absurd rfl h⟩
        · exact ⟨hj, fun _ => rfl⟩
      · obtain ⟨⟨r1, e1⟩, h1, h⟩ := Go.bind_eq_ok.mp h
        have hj := doDeltasE_judged hu s n _ _ _ r1 e1 hcl h1
        cases e1 <;> cases h
        · exact ⟨hj, fun h => absurd rfl h⟩
        · exact ⟨hj, fun _ => rfl⟩
  · simp only [hb] at h
    cases h; exact ⟨hj, fun _ => rfl⟩

theorem rrdpErrorText_ne (u v i : Bytes) : rrdpErrorText u v i ≠ Fetch.tooLarge := by
  intro h
  unfold rrdpErrorText at h
  have h := congrArg (List.take 1) h
  rw [List.append_assoc, List.append_assoc, List.take_append_of_le_length (by decide)] at h
  exact absurd h (by decide)

theorem errText_tooLarge (u v : Bytes) (e : Err) : errText u v e = Fetch.tooLarge ↔ e = .text Fetch.tooLarge := by
  cases e with
  | fetch i => simp [errText, rrdpErrorText_ne]
  | text t => simp [errText]

end Verif.RrdpLimit
