import Verif.Lemmas.RrdpLimit
import Mathlib.Tactic.ByContra
/-
  C107: answers over the limit are not processed and do not lead to rsync; every other failure does.
-/
set_option autoImplicit false

namespace Verif.Props
open Rrdp RrdpLimit

/-- C107: the document that is read is the whole body of an answer with status 200 of at most 10^9 bytes; anything else is an error. -/
theorem C107_get (a : Answer) (b : Bytes) : getXML a = .ok b ↔ a = .answer 200 b none ∧ b.length ≤ 10 ^ 9 := by
  cases a with
  | badUrl e => simp [getXML]
  | noAnswer e => simp [getXML]
  | answer st c br =>
    simp only [getXML]
    split
    · rename_i h
      constructor
      · intro h'; cases h'
      · rintro ⟨h', -⟩; cases h'; exact absurd rfl h
    · rename_i h
      obtain rfl : st = 200 := by simpa using h
      split
      · rename_i hl
        constructor
        · intro h'; cases h'
        · rintro ⟨h', hle⟩
          cases h'
          simp [responseLimit] at hl hle; omega
      · rename_i hl
        have hle : c.length ≤ 10 ^ 9 := by simp [responseLimit] at hl ⊢; omega
        cases br with
        | none => simp only [Except.ok.injEq, Answer.answer.injEq, true_and, and_true]; exact ⟨fun h => ⟨h, h ▸ hle⟩, fun h => h.1⟩
        | some e => simp

example : getXML (.answer 200 (asc "<x/>".toList) none) = .ok (asc "<x/>".toList) := (C107_get _ _).mpr ⟨rfl, by decide⟩

/-- The run with its errors is the run of the other properties (C10 and following). -/
theorem C107_same {σ : Type} (W : EWorld) (cb : ECallback σ) (s : Sys) (r : R σ) :
    (fetchE W cb s r).bind (fun x => .ok (x.1, x.2.1, x.2.2.isNone)) = fetchRRDP W.plain (ECallback.plain cb) s r := by
  have hg : ∀ x : Except Err Bytes, (∀ b, x = .ok b → (match x with | .ok d => some d | .error _ => none : Option Bytes) = some b) ∧
      (∀ e, x = .error e → (match x with | .ok d => some d | .error _ => none : Option Bytes) = none) := by
    intro x; cases x <;> simp
  unfold fetchE fetchRRDP
  have h1 : (downloadE W r s.path).1 = (download W.plain r s.path).1 := rfl
  cases hx : (downloadE W r s.path).2 with
  | error e =>
    have h2 : (download W.plain r s.path).2 = none := (hg _).2 e hx
    simp only [hx, h1, h2]; rfl
  | ok b =>
    have h2 : (download W.plain r s.path).2 = some b := (hg _).1 b hx
    simp only [hx, h1, h2, Option.bind_some]
    have h3 : W.plain.parseRoot b = W.parseRoot b := rfl
    rw [h3]
    cases W.parseRoot b with
    | none => rfl
    | some n =>
      simp only
      split
      · rw [← doSnapshotE_plain]
        cases doSnapshotE W cb s n (download W.plain r s.path).1 with
        | ok y => obtain ⟨r1, e⟩ := y; cases e <;> rfl
        | err e => rfl
        | panic => rfl
        | diverge => rfl
      · rw [← doDeltasE_plain]
        cases doDeltasE W cb s n _ _ (download W.plain r s.path).1 with
        | ok y => obtain ⟨r1, e⟩ := y; cases e <;> rfl
        | err e => rfl
        | panic => rfl
        | diverge => rfl

/-- C107: with failover on, the rsync module of a run is left out of the rsync phase in exactly two cases: the run succeeded, or an answer was over the limit. In the second case that answer was
    the last one, and the client keeps session and serial. (The errors of a broken body and of the callback have other texts than "http: request body too large"; for octorpki's callback
    see the next theorem.) -/
theorem C107_failover {σ : Type} (W : EWorld) (cb : ECallback σ)
    (hbody : ∀ i u b e, W.get i u = .answer 200 b (some e) → e ≠ asc "http: request body too large".toList)
    (hcall : ∀ st c st' e, cb st c = .ok (st', some e) → e ≠ asc "http: request body too large".toList)
    (s s' : Sys) (rsync : Bytes) (st : σ) (r : R σ) (e : Option Err) (gone : Bool) (h : runE true W cb s rsync st = .ok (s', r, e, gone)) :
    (gone = true ↔ e = none ∨ ∃ i u b br, r.gets[i]? = some u ∧ W.get i u = .answer 200 b br ∧ 10 ^ 9 < b.length) ∧
    (∀ i u b br, r.gets[i]? = some u → W.get i u = .answer 200 b br → 10 ^ 9 < b.length → e ≠ none ∧ s' = s ∧ i + 1 = r.gets.length) := by
  obtain ⟨x, hx, h⟩ := Go.bind_eq_ok.mp h
  obtain ⟨s1, r1, e1⟩ := x
  have h := Go.ok.inj h
  simp only [Prod.mk.injEq] at h
  obtain ⟨rfl, rfl, rfl, rfl⟩ := h
  obtain ⟨hj, hs⟩ := fetchE_judged (W := W) (cb := cb) ⟨hbody, hcall⟩ s s1 ⟨st, [], []⟩ r1 e1 (by intro i u h; simp at h) hx
  rcases hj with ⟨hne, hc⟩ | ⟨he, g, u, hg, hcg, ho⟩
  · have hno : ∀ i u b br, r1.gets[i]? = some u → W.get i u = .answer 200 b br → ¬ 10 ^ 9 < b.length := fun i u b br h1 h2 h3 => hc i u h1 ⟨b, br, h2, h3⟩
    refine ⟨⟨?_, ?_⟩, fun i u b br h1 h2 h3 => absurd h3 (hno i u b br h1 h2)⟩
    · intro hr
      cases e1 with
      | none => exact .inl rfl
      | some e =>
        exfalso
        have : errText s.path rsync e = Fetch.tooLarge := by simpa [Fetch.removes] using hr
        exact hne (by rw [(errText_tooLarge _ _ _).mp this])
    · rintro (rfl | ⟨i, u, b, br, h1, h2, h3⟩)
      · rfl
      · exact absurd h3 (hno i u b br h1 h2)
  · refine ⟨⟨fun _ => .inr ?_, fun _ => ?_⟩, ?_⟩
    · obtain ⟨b, br, h1, h2⟩ := ho
      exact ⟨g.length, u, b, br, by rw [hg]; simp, h1, h2⟩
    · rw [he]; simp [Fetch.removes, errText]
    · intro i v b br h1 h2 h3
      refine ⟨by rw [he]; simp, hs (by rw [he]; simp), ?_⟩
      by_contra hlt
      have hl : i < r1.gets.length := by
        by_contra hn
        rw [List.getElem?_eq_none (by omega)] at h1; cases h1
      have : i < g.length := by rw [hg] at hl hlt; simp at hl hlt; omega
      rw [hg, List.getElem?_append_left this] at h1
      exact hcg i v h1 ⟨b, br, h2, h3⟩

/-- octorpki's callback with its errors is that of the other properties. -/
theorem C107_callback (os : Cache.OS) (base domain : Bytes) (why : Call → Bytes) : ECallback.plain (callbackE os base domain why) = Cache.callback os base domain := by
  funext fs c
  unfold ECallback.plain callbackE
  cases Cache.callback os base domain fs c with
  | ok x => obtain ⟨a, b⟩ := x; cases b <;> rfl
  | err e => rfl
  | panic => rfl
  | diverge => rfl

/-- C107 for octorpki: its callback's errors have other texts. -/
theorem C107_octorpki (W : EWorld) (os : Cache.OS) (base domain : Bytes) (why : Call → Bytes)
    (hbody : ∀ i u b e, W.get i u = .answer 200 b (some e) → e ≠ asc "http: request body too large".toList)
    (s s' : Sys) (rsync : Bytes) (fs : Cache.FS) (r : R Cache.FS) (e : Option Err) (gone : Bool) (h : runE true W (callbackE os base domain why) s rsync fs = .ok (s', r, e, gone)) :
    (gone = true ↔ e = none ∨ ∃ i u b br, r.gets[i]? = some u ∧ W.get i u = .answer 200 b br ∧ 10 ^ 9 < b.length) ∧
    (∀ i u b br, r.gets[i]? = some u → W.get i u = .answer 200 b br → 10 ^ 9 < b.length → e ≠ none ∧ s' = s ∧ i + 1 = r.gets.length) := by
  refine C107_failover W _ hbody ?_ s s' rsync fs r e gone h
  intro st c st' t ht
  obtain ⟨x, -, hx⟩ := Go.bind_eq_ok.mp ht
  simp only [Go.ok.injEq, Prod.mk.injEq] at hx
  have hx := hx.2
  split at hx
  · cases hx
  · obtain rfl := Option.some.inj hx
    intro h
    have h := congrArg (List.take 1) h
    rw [List.append_assoc, List.append_assoc, List.take_append_of_le_length (by decide)] at h
    exact absurd h (by decide)

/-- C107: with failover off no failed run leads to rsync. -/
theorem C107_failover_off {σ : Type} (W : EWorld) (cb : ECallback σ) (s s' : Sys) (rsync : Bytes) (st : σ) (r : R σ) (e : Option Err) (gone : Bool)
    (h : runE false W cb s rsync st = .ok (s', r, e, gone)) : gone = true := by
  obtain ⟨x, hx, h⟩ := Go.bind_eq_ok.mp h
  cases h
  cases x.2.2 <;> simp [Fetch.removes]

/-- A server that answers with 404: the run fails and the module goes to rsync; with a body over the limit: it does not. -/
example : ∀ (W : EWorld), (W.get = fun _ _ => .answer 404 [] none) → runE true W (fun (s : Nat) _ => .ok (s, none)) ⟨[1], [], 0⟩ [2] 0 =
    .ok (⟨[1], [], 0⟩, ⟨0, [[1]], []⟩, some (.fetch (asc "status is 404".toList)), false) := by
  intro W hW
  have hg : getXML (.answer 404 [] none) = .error (.fetch (asc "status is 404".toList)) := by rw [show asc "status is 404".toList = asc "status is ".toList ++ Net.numText 10 404 by decide]; rfl
  simp only [runE, fetchE, downloadE, hW, hg]
  simp [Fetch.removes, errText, rrdpErrorText_ne]

example (b : Bytes) (hb : 10 ^ 9 < b.length) : ∀ (W : EWorld), (W.get = fun _ _ => .answer 200 b none) → runE true W (fun (s : Nat) _ => .ok (s, none)) ⟨[1], [], 0⟩ [2] 0 =
    .ok (⟨[1], [], 0⟩, ⟨0, [[1]], []⟩, some (.text Fetch.tooLarge), true) := by
  intro W hW
  simp only [runE, fetchE, downloadE, hW]
  rw [over_get ⟨_, none, rfl, hb⟩]
  rfl

/-- C107: the message of a failed download names the notification and the rsync module. -/
theorem C107_message (url rsync inner : Bytes) (h : url ≠ []) : errText url rsync (.fetch inner) =
    asc "error fetching for repo rrdp:".toList ++ url ++ asc " (rsync:".toList ++ rsync ++ asc "): ".toList ++ inner := by
  simp only [errText, rrdpErrorText, h, ne_eq, not_false_eq_true, if_true]
  simp [asc]

end Verif.Props
