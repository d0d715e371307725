import Verif.Lemmas.XmlMore
import Verif.Spec.CaXml
/-
  Lemmas on messages: the decoder of elements is exact.
-/
set_option autoImplicit false

namespace Verif.CaXml
open XmlScan XmlSpec CaXmlSpec
open RrdpXml (Tok parseInt64 parseInt64_iff)
open RrdpXmlSpec (Xml NumberText)

/-! ### Names -/

theorem qname_unique {n n' : Bytes} {q : QName} (h : QNameIs n q) (h' : QNameIs n' q) : n = n' := by
  rcases h with ⟨h, hp, -⟩ | ⟨rfl, -⟩
  · rcases h' with ⟨h', -⟩ | ⟨h', -⟩
    · rw [h, h']
    · rw [h'] at hp; exact absurd rfl hp
  · rcases h' with ⟨-, hp, -⟩ | ⟨h', -⟩
    · exact absurd rfl hp
    · exact (QName.mk.inj h').2

theorem rawToken_nil (lib : Lib) : rawToken lib [] = none := rfl

/-! ### The end of an element -/

/-- An end tag of the element. -/
structure EndTag (lib : Lib) (q : QName) (y : Bytes) : Prop where
  is : ∃ n w, y = 60 :: 47 :: n ++ w ++ [62] ∧ NameText lib n ∧ QNameIs n q ∧ White w

theorem ends_front {w c r : Bytes} (h : Ends w (c ++ r)) : Ends w c := by
  intro hw
  cases c with
  | nil => exact .inl rfl
  | cons b c =>
    rcases h hw with h | h
    · cases h
    · exact .inr h

theorem stop_endTag {lib : Lib} {m : QName} {w : Bytes} (h : Piece lib (.stop m) w) : EndTag lib m w := by
  cases h with
  | stop n w qn hn hq hw => exact ⟨n, w, rfl, hn, hq, hw⟩

theorem innerEnd_sound (lib : Lib) : ∀ (f d : Nat) (q : QName) (st : List QName) (bs e r : Bytes), innerEnd lib f d ⟨none, q :: st, bs⟩ = .ok (e, r) →
    ∃ cs c y bs', bs = c ++ y ++ bs' ∧ Content lib cs c ∧ EndTag lib q y ∧ (d = 0 → e = y ++ bs' ∧ r = bs') ∧
      (∀ d', d = d' + 1 → ∃ f', f' < f ∧ innerEnd lib f' d' ⟨none, st, bs'⟩ = .ok (e, r)) := by
  intro f
  induction f using Nat.strong_induction_on with
  | _ f ih =>
    intro d q st bs e r h
    cases f with
    | zero => cases h
    | succ f =>
      rw [innerEnd] at h
      cases ht : token lib ⟨none, q :: st, bs⟩ with
      | none => rw [ht] at h; cases h
      | some x =>
        obtain ⟨t, s'⟩ := x
        rw [ht] at h
        unfold token at ht
        simp only at ht
        cases hr : rawToken lib bs with
        | none => rw [hr] at ht; cases ht
        | some z =>
          obtain ⟨raw, r0⟩ := z
          rw [hr] at ht
          obtain ⟨w, rfl, hp, he⟩ := (rawToken_iff _ _ _ _).mp hr
          cases raw with
          | start n as em =>
            cases em with
            | false =>
              have ht := Option.some.inj ht
              obtain ⟨rfl, rfl⟩ := Prod.mk.inj ht
              have h : innerEnd lib f (d + 1) ⟨none, n :: q :: st, r0⟩ = .ok (e, r) := h
              obtain ⟨cs1, c1, y1, b1, rfl, hc1, hy1, -, h1⟩ := ih f (Nat.lt_succ_self f) _ _ _ _ _ _ h
              obtain ⟨f', hf', h2⟩ := h1 d rfl
              obtain ⟨cs2, c2, y2, b2, rfl, hc2, hy2, h3, h4⟩ := ih f' (by omega) _ _ _ _ _ _ h2
              obtain ⟨n1, w1, rfl, k1, k2, k3⟩ := hy1.is
              cases hp with
              | start n0 a0 qn as hn hq ha hs =>
                obtain rfl := qname_unique hq k2
                refine ⟨_, _, y2, b2, ?_, Content.elem n0 a0 w1 n as cs1 cs2 c1 c2 hn hq ha hs k3 hc1 hc2, hy2, h3, fun d' hd => ?_⟩
                · simp
                · obtain ⟨f'', hf'', h5⟩ := h4 d' hd
                  exact ⟨f'', by omega, h5⟩
            | true =>
              have ht := Option.some.inj ht
              obtain ⟨rfl, rfl⟩ := Prod.mk.inj ht
              have h : innerEnd lib f (d + 1) ⟨some n, n :: q :: st, r0⟩ = .ok (e, r) := h
              cases f with
              | zero => cases h
              | succ f =>
                have h : innerEnd lib f d ⟨none, q :: st, r0⟩ = .ok (e, r) := by
                  rw [innerEnd] at h
                  simpa [token] using h
                obtain ⟨cs2, c2, y2, b2, rfl, hc2, hy2, h3, h4⟩ := ih f (by omega) _ _ _ _ _ _ h
                cases hp with
                | empty n0 a0 qn as hn hq ha hs =>
                  refine ⟨_, _, y2, b2, ?_, Content.empty n0 a0 n as cs2 c2 hn hq ha hs hc2, hy2, h3, fun d' hd => ?_⟩
                  · simp
                  · obtain ⟨f'', hf'', h5⟩ := h4 d' hd
                    exact ⟨f'', by omega, h5⟩
          | stop m =>
            simp only at ht
            split at ht
            · rename_i hm
              subst hm
              have ht := Option.some.inj ht
              obtain ⟨rfl, rfl⟩ := Prod.mk.inj ht
              refine ⟨[], [], w, r0, rfl, .nil, stop_endTag hp, ?_, ?_⟩
              · rintro rfl
                have h : Go.ok (w ++ r0, r0) = Go.ok (e, r) := h
                have h := Prod.mk.inj (Go.ok.inj h)
                exact ⟨h.1.symm, h.2.symm⟩
              · rintro d' rfl
                exact ⟨f, Nat.lt_succ_self f, by simpa using h⟩
            · cases ht
          | chars b =>
            have ht := Option.some.inj ht
            obtain ⟨rfl, rfl⟩ := Prod.mk.inj ht
            obtain ⟨cs2, c2, y2, b2, rfl, hc2, hy2, h3, h4⟩ := ih f (Nat.lt_succ_self f) _ _ _ _ _ _ h
            refine ⟨_, w ++ c2, y2, b2, by simp, Content.chars b w cs2 c2 hp (ends_front (r := y2 ++ b2) (by simpa using he)) hc2, hy2, h3, fun d' hd => ?_⟩
            obtain ⟨f'', hf'', h5⟩ := h4 d' hd
            exact ⟨f'', by omega, h5⟩
          | misc =>
            have ht := Option.some.inj ht
            obtain ⟨rfl, rfl⟩ := Prod.mk.inj ht
            obtain ⟨cs2, c2, y2, b2, rfl, hc2, hy2, h3, h4⟩ := ih f (Nat.lt_succ_self f) _ _ _ _ _ _ h
            refine ⟨_, w ++ c2, y2, b2, by simp, Content.misc w cs2 c2 hp hc2, hy2, h3, fun d' hd => ?_⟩
            obtain ⟨f'', hf'', h5⟩ := h4 d' hd
            exact ⟨f'', by omega, h5⟩

/-- A result stays with more rounds, and there is one with enough of them. -/
theorem innerEnd_fuel (lib : Lib) : ∀ (f f' d : Nat) (s : State), left s < f → f ≤ f' → innerEnd lib f' d s = innerEnd lib f d s ∧ innerEnd lib f d s ≠ .diverge ∧ innerEnd lib f d s ≠ .panic := by
  intro f
  induction f with
  | zero => intro f' d s h; omega
  | succ f ih =>
    intro f' d s hl hf
    obtain ⟨g, rfl⟩ : ∃ g, f' = g + 1 := ⟨f' - 1, by omega⟩
    rw [innerEnd, innerEnd]
    cases ht : token lib s with
    | none => exact ⟨rfl, by simp, by simp⟩
    | some x =>
      obtain ⟨t, s'⟩ := x
      have := token_left ht
      cases t with
      | start n as => exact ih g _ s' (by omega) (by omega)
      | stop n =>
        simp only
        split
        · exact ⟨rfl, by simp, by simp⟩
        · exact ih g _ s' (by omega) (by omega)
      | chars b => exact ih g _ s' (by omega) (by omega)
      | misc => exact ih g _ s' (by omega) (by omega)

theorem innerEnd_more (lib : Lib) : ∀ (f f' d : Nat) (s : State) (x : Bytes × Bytes), innerEnd lib f d s = .ok x → f ≤ f' → innerEnd lib f' d s = .ok x := by
  intro f
  induction f with
  | zero => intro f' d s x h; cases h
  | succ f ih =>
    intro f' d s x h hf
    obtain ⟨g, rfl⟩ : ∃ g, f' = g + 1 := ⟨f' - 1, by omega⟩
    rw [innerEnd] at h ⊢
    cases ht : token lib s with
    | none => rw [ht] at h; cases h
    | some y =>
      obtain ⟨t, s'⟩ := y
      rw [ht] at h
      cases t with
      | start n as => exact ih g _ s' x h (by omega)
      | stop n =>
        simp only at h ⊢
        split at h
        · rename_i hd; rw [if_pos hd]; exact h
        · rename_i hd; rw [if_neg hd]; exact ih g _ s' x h (by omega)
      | chars b => exact ih g _ s' x h (by omega)
      | misc => exact ih g _ s' x h (by omega)

theorem innerEnd_enough {lib : Lib} {f F d : Nat} {s : State} {x : Bytes × Bytes} (h : innerEnd lib f d s = .ok x) (hF : left s < F) : innerEnd lib F d s = .ok x := by
  rw [← (innerEnd_fuel lib F (max f F) d s hF (Nat.le_max_right _ _)).1]
  exact innerEnd_more lib f _ d s x h (Nat.le_max_left _ _)

/-- Content inside an element is passed over. -/
theorem innerEnd_content {lib : Lib} {cs : List Xml} {c : Bytes} (h : Content lib cs c) : ∀ (f d : Nat) (st : List QName) (r : Bytes) (x : Bytes × Bytes), Behind c r →
    innerEnd lib f d ⟨none, st, r⟩ = .ok x → ∃ f', innerEnd lib f' d ⟨none, st, c ++ r⟩ = .ok x := by
  induction h with
  | nil => intro f d st r x _ h; exact ⟨f, h⟩
  | elem n a w qn as cs xs c t hn hq ha hs hw hc ht ih1 ih2 =>
    intro f d st r x hr h
    obtain ⟨f1, h1⟩ := ih2 f d st r x hr h
    have g2 : innerEnd lib (f1 + 1) (d + 1) ⟨none, qn :: st, (60 :: 47 :: n ++ w ++ [62]) ++ (t ++ r)⟩ = .ok x := by
      rw [innerEnd]
      have : token lib ⟨none, qn :: st, (60 :: 47 :: n ++ w ++ [62]) ++ (t ++ r)⟩ = some (.stop qn.loc, ⟨none, st, t ++ r⟩) := by
        unfold token
        simp only
        rw [token_piece (.stop n w qn hn hq hw) [] (t ++ r) (fun h => absurd rfl h)]
        simp
      rw [this]
      simpa using h1
    obtain ⟨f2, h2⟩ := ih1 (f1 + 1) (d + 1) (qn :: st) _ x (.inr rfl) g2
    refine ⟨f2 + 1, ?_⟩
    have e : (60 :: n ++ a ++ [62]) ++ c ++ (60 :: 47 :: n ++ w ++ [62]) ++ t ++ r = (60 :: n ++ a ++ [62]) ++ (c ++ ((60 :: 47 :: n ++ w ++ [62]) ++ (t ++ r))) := by simp
    rw [e, innerEnd]
    have : token lib ⟨none, st, (60 :: n ++ a ++ [62]) ++ (c ++ ((60 :: 47 :: n ++ w ++ [62]) ++ (t ++ r)))⟩ =
        some (.start qn.loc (locals as), ⟨none, qn :: st, c ++ ((60 :: 47 :: n ++ w ++ [62]) ++ (t ++ r))⟩) := by
      unfold token
      simp only
      rw [token_piece (.start n a qn as hn hq ha hs) [] _ (fun h => absurd rfl h)]
      rfl
    rw [this]
    exact h2
  | empty n a qn as xs t hn hq ha hs ht ih =>
    intro f d st r x hr h
    obtain ⟨f1, h1⟩ := ih f d st r x hr h
    refine ⟨f1 + 1 + 1, ?_⟩
    rw [List.append_assoc, innerEnd]
    have : token lib ⟨none, st, (60 :: n ++ a ++ [47, 62]) ++ (t ++ r)⟩ = some (.start qn.loc (locals as), ⟨some qn, qn :: st, t ++ r⟩) := by
      unfold token
      simp only
      rw [token_piece (.empty n a qn as hn hq ha hs) [] _ (fun h => absurd rfl h)]
      rfl
    rw [this]
    show innerEnd lib (f1 + 1) (d + 1) _ = _
    rw [innerEnd]
    simpa [token] using h1
  | chars s w xs t hp he ht ih =>
    intro f d st r x hr h
    obtain ⟨f1, h1⟩ := ih f d st r x hr h
    refine ⟨f1 + 1, ?_⟩
    rw [List.append_assoc, innerEnd]
    have : token lib ⟨none, st, w ++ (t ++ r)⟩ = some (.chars s, ⟨none, st, t ++ r⟩) := by
      unfold token
      simp only
      rw [token_piece hp [] _ (ends_append he hr)]
    rw [this]
    exact h1
  | misc w xs t hp ht ih =>
    intro f d st r x hr h
    obtain ⟨f1, h1⟩ := ih f d st r x hr h
    refine ⟨f1 + 1, ?_⟩
    have h60 : w.head? = some 60 := by
      cases hp with
      | comment c => rfl
      | pi n => rfl
      | directive c => rfl
    rw [List.append_assoc, innerEnd]
    have : token lib ⟨none, st, w ++ (t ++ r)⟩ = some (.misc, ⟨none, st, t ++ r⟩) := by
      unfold token
      simp only
      rw [token_piece hp [] _ (fun h => absurd h60 h)]
    rw [this]
    exact h1

/-! ### One element -/

theorem findStart_iff (lib : Lib) : ∀ (f : Nat) (bs : Bytes), bs.length < f → ∀ (qn : QName) (as : List (QName × Bytes)) (s : State), findStart lib f bs = .ok (qn, as, s) ↔
    ∃ b w em, bs = b ++ w ++ s.rest ∧ Between lib b ∧ Piece lib (.start qn as em) w ∧ s = ⟨if em then some qn else none, [qn], s.rest⟩ := by
  intro f
  induction f with
  | zero => intro bs h; omega
  | succ f ih =>
    intro bs hl qn as s
    rw [findStart]
    by_cases hb : bs = []
    · rw [if_pos hb]
      constructor
      · intro h; cases h
      · rintro ⟨b, w, em, e, -, hp, -⟩
        rw [hb] at e
        have := piece_ne_nil hp
        simp only [List.nil_eq, List.append_eq_nil_iff] at e
        exact absurd e.1.2 this
    · rw [if_neg hb]
      have unique : ∀ b w em (r : Bytes), bs = b ++ w ++ r → Between lib b → Piece lib (.start qn as em) w →
          (b = [] ∧ rawToken lib bs = some (.start qn as em, r)) ∨ ∃ raw w0 b0, b = w0 ++ b0 ∧ rawToken lib bs = some (raw, b0 ++ w ++ r) ∧ ((∃ s, raw = .chars s) ∨ raw = .misc) ∧ Between lib b0 := by
        intro b w em r e h1 h2
        obtain ⟨u, rfl⟩ : ∃ u, w = 60 :: u := by cases h2 <;> exact ⟨_, rfl⟩
        cases h1 with
        | nil => left; exact ⟨rfl, by rw [e]; exact token_piece h2 [] r (fun h => absurd rfl h)⟩
        | chars s0 w0 t0 hp he ht =>
          right
          refine ⟨_, w0, t0, rfl, ?_, .inl ⟨s0, rfl⟩, ht⟩
          rw [e, List.append_assoc, List.append_assoc]
          rw [token_piece hp [] _ (ends_append he (.inr rfl)), List.append_assoc]
        | misc w0 t0 hp ht =>
          right
          refine ⟨_, w0, t0, rfl, ?_, .inr rfl, ht⟩
          have h60 : w0.head? = some 60 := by
            cases hp with
            | comment c => rfl
            | pi n => rfl
            | directive c => rfl
          rw [e, List.append_assoc, List.append_assoc]
          rw [token_piece hp [] _ (fun h => absurd h60 h), List.append_assoc]
      cases hr : rawToken lib bs with
      | none =>
        constructor
        · intro h; cases h
        · rintro ⟨b, w, em, e, h1, h2, -⟩
          rcases unique b w em _ e h1 h2 with ⟨-, h⟩ | ⟨raw, w0, b0, -, h, -, -⟩ <;> (rw [hr] at h; cases h)
      | some z =>
        obtain ⟨raw, r0⟩ := z
        obtain ⟨w1, e1, hp1, he1⟩ := (rawToken_iff _ _ _ _).mp hr
        cases raw with
        | start n as' em =>
          constructor
          · intro h
            have h := Go.ok.inj h
            simp only [Prod.mk.injEq] at h
            obtain ⟨rfl, rfl, rfl⟩ := h
            exact ⟨[], w1, em, by simpa using e1, .nil, hp1, rfl⟩
          · rintro ⟨b, w, em', e, h1, h2, h3⟩
            rcases unique b w em' _ e h1 h2 with ⟨-, h⟩ | ⟨raw, w0, b0, -, h, h', -⟩
            · rw [hr] at h
              simp only [Option.some.injEq, Prod.mk.injEq, Raw.start.injEq] at h
              obtain ⟨⟨rfl, rfl, rfl⟩, h4⟩ := h
              rw [h3, ← h4]
            · rw [hr] at h
              simp only [Option.some.injEq, Prod.mk.injEq] at h
              rcases h' with ⟨s, rfl⟩ | rfl <;> cases h.1
        | stop m =>
          constructor
          · intro h; cases h
          · rintro ⟨b, w, em, e, h1, h2, -⟩
            rcases unique b w em _ e h1 h2 with ⟨-, h⟩ | ⟨raw, w0, b0, -, h, h', -⟩
            · rw [hr] at h; cases h
            · rw [hr] at h
              simp only [Option.some.injEq, Prod.mk.injEq] at h
              rcases h' with ⟨s, rfl⟩ | rfl <;> cases h.1
        | chars x =>
          have hlen : r0.length < f := by
            have := List.length_pos_iff.mpr (piece_ne_nil hp1)
            rw [e1, List.length_append] at hl; omega
          simp only [ih r0 hlen]
          constructor
          · rintro ⟨b, w, em, e, h1, h2, h3⟩
            refine ⟨w1 ++ b, w, em, by rw [e1, List.append_assoc, List.append_assoc, ← List.append_assoc b, ← e], .chars x w1 b hp1 (ends_front (r := w ++ s.rest) ?_) h1, h2, h3⟩
            rw [← List.append_assoc, ← e]; exact he1
          · rintro ⟨b, w, em, e, h1, h2, h3⟩
            rcases unique b w em _ e h1 h2 with ⟨-, h⟩ | ⟨raw, w0, b0, -, h, h', hb0⟩
            · rw [hr] at h; cases h
            · rw [hr] at h
              simp only [Option.some.injEq, Prod.mk.injEq] at h
              exact ⟨b0, w, em, h.2, hb0, h2, h3⟩
        | misc =>
          have hlen : r0.length < f := by
            have := List.length_pos_iff.mpr (piece_ne_nil hp1)
            rw [e1, List.length_append] at hl; omega
          simp only [ih r0 hlen]
          constructor
          · rintro ⟨b, w, em, e, h1, h2, h3⟩
            exact ⟨w1 ++ b, w, em, by rw [e1, List.append_assoc, List.append_assoc, ← List.append_assoc b, ← e], .misc w1 b hp1 h1, h2, h3⟩
          · rintro ⟨b, w, em, e, h1, h2, h3⟩
            rcases unique b w em _ e h1 h2 with ⟨-, h⟩ | ⟨raw, w0, b0, -, h, h', hb0⟩
            · rw [hr] at h; cases h
            · rw [hr] at h
              simp only [Option.some.injEq, Prod.mk.injEq] at h
              exact ⟨b0, w, em, h.2, hb0, h2, h3⟩

/-- The inside of an element whose start tag has been read. -/
theorem inner_sound {lib : Lib} {qn : QName} {as : List (QName × Bytes)} {em : Bool} {w rest i r : Bytes} (hp : Piece lib (.start qn as em) w)
    (h : inner lib ⟨if em then some qn else none, [qn], rest⟩ = .ok (i, r)) : ∃ y, rest = y ++ r ∧ Tagged lib qn as i (w ++ y) := by
  unfold inner at h
  cases em with
  | true =>
    have h0 : innerEnd lib (2 * rest.length + 2) 0 ⟨some qn, [qn], rest⟩ = .ok (rest, rest) := by
      rw [innerEnd]
      simp [token]
    simp only [if_true, h0, Go.ok_bind] at h
    have h := Prod.mk.inj (Go.ok.inj h)
    obtain ⟨h1, rfl⟩ := h
    rw [Nat.sub_self, List.take_zero] at h1
    subst h1
    refine ⟨[], rfl, ?_⟩
    rw [List.append_nil]
    cases hp with
    | empty n a qn as hn hq ha hs => exact .empty n a qn as hn hq ha hs
  | false =>
    obtain ⟨⟨e, r'⟩, h1, h2⟩ := Go.bind_eq_ok.mp h
    obtain ⟨cs, c, y, bs', e1, hc, hy, h3, -⟩ := innerEnd_sound lib _ _ _ _ _ _ _ h1
    obtain ⟨rfl, rfl⟩ := h3 rfl
    have h2 := Prod.mk.inj (Go.ok.inj h2)
    obtain ⟨h4, rfl⟩ := h2
    obtain ⟨n1, w1, rfl, k1, k2, k3⟩ := hy.is
    refine ⟨c ++ (60 :: 47 :: n1 ++ w1 ++ [62]), e1, ?_⟩
    have hi : i = c := by
      rw [← h4, e1]
      simp only
      rw [List.append_assoc, List.length_append (as := c), Nat.add_sub_cancel, List.take_left]
    subst hi
    cases hp with
    | start n0 a0 qn as hn hq ha hs =>
      obtain rfl := qname_unique hq k2
      rw [← List.append_assoc]
      exact .pair n0 a0 w1 qn as cs i hn hq ha hs k3 hc

theorem inner_complete {lib : Lib} {qn : QName} {as : List (QName × Bytes)} {i x : Bytes} (h : Tagged lib qn as i x) :
    ∃ w em y, x = w ++ y ∧ Piece lib (.start qn as em) w ∧ ∀ r, inner lib ⟨if em then some qn else none, [qn], y ++ r⟩ = .ok (i, r) := by
  cases h with
  | pair n a w qn as cs c hn hq ha hs hw hc =>
    refine ⟨_, false, i ++ (60 :: 47 :: n ++ w ++ [62]), by simp, .start n a qn as hn hq ha hs, fun r => ?_⟩
    have g : innerEnd lib 1 0 ⟨none, [qn], (60 :: 47 :: n ++ w ++ [62]) ++ r⟩ = .ok ((60 :: 47 :: n ++ w ++ [62]) ++ r, r) := by
      rw [innerEnd]
      have : token lib ⟨none, [qn], (60 :: 47 :: n ++ w ++ [62]) ++ r⟩ = some (.stop qn.loc, ⟨none, [], r⟩) := by
        unfold token
        simp only
        rw [token_piece (.stop n w qn hn hq hw) [] r (fun h => absurd rfl h)]
        simp
      rw [this]
      rfl
    obtain ⟨f, hf⟩ := innerEnd_content hc 1 0 [qn] _ _ (.inr rfl) g
    rw [← List.append_assoc] at hf
    have := innerEnd_enough hf (F := 2 * (i ++ (60 :: 47 :: n ++ w ++ [62]) ++ r).length + 2) (by simp [left])
    unfold inner
    simp only [if_neg (Bool.false_ne_true), this, Go.ok_bind]
    rw [List.append_assoc, List.length_append (as := i), Nat.add_sub_cancel, List.take_left]
    rfl
  | empty n a qn as hn hq ha hs =>
    refine ⟨_, true, [], by simp, .empty n a qn as hn hq ha hs, fun r => ?_⟩
    unfold inner
    have h0 : innerEnd lib (2 * r.length + 2) 0 ⟨some qn, [qn], r⟩ = .ok (r, r) := by
      rw [innerEnd]
      simp [token]
    simp only [if_true, List.nil_append, h0, Go.ok_bind]
    rw [Nat.sub_self, List.take_zero]
    rfl

/-- A start tag found with the inside read: an element. -/
theorem element_iff (lib : Lib) (bs : Bytes) (qn : QName) (as : List (QName × Bytes)) (i r : Bytes) :
    (∃ s, findStart lib (bs.length + 1) bs = .ok (qn, as, s) ∧ inner lib s = .ok (i, r)) ↔ ∃ b x, bs = b ++ x ++ r ∧ Between lib b ∧ Tagged lib qn as i x := by
  constructor
  · rintro ⟨s, h1, h2⟩
    obtain ⟨b, w, em, e, hb, hp, hs⟩ := (findStart_iff lib _ bs (Nat.lt_succ_self _) _ _ _).mp h1
    rw [hs] at h2
    obtain ⟨y, e2, ht⟩ := inner_sound hp h2
    refine ⟨b, w ++ y, ?_, hb, ht⟩
    rw [e, e2]
    simp
  · rintro ⟨b, x, rfl, hb, ht⟩
    obtain ⟨w, em, y, rfl, hp, hi⟩ := inner_complete ht
    refine ⟨⟨if em then some qn else none, [qn], y ++ r⟩, ?_, hi r⟩
    exact (findStart_iff lib _ _ (Nat.lt_succ_self _) _ _ _).mpr ⟨b, w, em, by simp, hb, hp, rfl⟩

/-! ### Attributes -/

theorem lastOf_some {P : QName → Prop} {as : List (QName × Bytes)} {v : Bytes} : LastOf P as (some v) ↔ ∃ l k r, as = l ++ (k, v) :: r ∧ P k ∧ ∀ x ∈ r, ¬ P x.1 := by
  constructor
  · rintro (⟨l, k, r, w, e, hk, hr, hv⟩ | ⟨-, h⟩)
    · cases hv; exact ⟨l, k, r, e, hk, hr⟩
    · cases h
  · rintro ⟨l, k, r, e, hk, hr⟩
    exact .inl ⟨l, k, r, v, e, hk, hr, rfl⟩

theorem lastOf_none {P : QName → Prop} {as : List (QName × Bytes)} : LastOf P as none ↔ ∀ x ∈ as, ¬ P x.1 := by
  constructor
  · rintro (⟨l, k, r, w, e, hk, hr, hv⟩ | ⟨h, -⟩)
    · cases hv
    · exact h
  · intro h; exact .inr ⟨h, rfl⟩

theorem lastOf_exists (P : QName → Prop) (as : List (QName × Bytes)) : ∃ o, LastOf P as o := by
  induction as with
  | nil => exact ⟨none, lastOf_none.mpr (by simp)⟩
  | cons x as ih =>
    obtain ⟨o, h⟩ := ih
    cases o with
    | some v =>
      obtain ⟨l, k, r, e, hk, hr⟩ := lastOf_some.mp h
      exact ⟨some v, lastOf_some.mpr ⟨x :: l, k, r, by rw [e]; rfl, hk, hr⟩⟩
    | none =>
      by_cases hx : P x.1
      · exact ⟨some x.2, lastOf_some.mpr ⟨[], x.1, as, rfl, hx, lastOf_none.mp h⟩⟩
      · exact ⟨none, lastOf_none.mpr (by intro y hy; rcases List.mem_cons.mp hy with rfl | hy; exacts [hx, lastOf_none.mp h y hy])⟩

theorem foldl_none (p : QName → Bool) : ∀ (r : List (QName × Bytes)) (u : Bytes), (∀ x ∈ r, p x.1 = false) → r.foldl (fun u kv => if p kv.1 then kv.2 else u) u = u := by
  intro r
  induction r with
  | nil => intros; rfl
  | cons x r ih =>
    intro u h
    rw [List.foldl_cons, h x (List.mem_cons_self ..)]
    exact ih u fun y hy => h y (List.mem_cons_of_mem _ hy)

theorem lastOf_foldl {P : QName → Prop} {p : QName → Bool} (hp : ∀ k, p k = true ↔ P k) {as : List (QName × Bytes)} {o : Option Bytes} (h : LastOf P as o) (d : Bytes) :
    as.foldl (fun u kv => if p kv.1 then kv.2 else u) d = o.getD d := by
  have hf : ∀ (r : List (QName × Bytes)), (∀ x ∈ r, ¬ P x.1) → ∀ x ∈ r, p x.1 = false := by
    intro r hr x hx
    rw [← Bool.not_eq_true, hp]
    exact hr x hx
  cases o with
  | none => exact foldl_none p as d (hf as (lastOf_none.mp h))
  | some v =>
    obtain ⟨l, k, r, rfl, hk, hr⟩ := lastOf_some.mp h
    rw [List.foldl_append, List.foldl_cons, foldl_none p r _ (hf r hr), (hp k).mpr hk]
    rfl

theorem foldl_iff {P : QName → Prop} {p : QName → Bool} (hp : ∀ k, p k = true ↔ P k) (as : List (QName × Bytes)) (d u : Bytes) :
    as.foldl (fun u kv => if p kv.1 then kv.2 else u) d = u ↔ ∃ o, LastOf P as o ∧ u = o.getD d := by
  constructor
  · rintro rfl
    obtain ⟨o, h⟩ := lastOf_exists P as
    exact ⟨o, h, lastOf_foldl hp h d⟩
  · rintro ⟨o, h, rfl⟩
    exact lastOf_foldl hp h d

theorem strField_iff (k : Bytes) (as : List (QName × Bytes)) (v : Bytes) : strField k as = v ↔ StrIs k as v := by
  have := foldl_iff (P := fun n => n.loc = k) (p := fun n => decide (n.loc = k)) (fun n => decide_eq_true_iff) as [] v
  unfold StrIs
  rw [← this]
  unfold strField
  simp only [decide_eq_true_eq]

theorem declares_iff (p : Bytes) (k : QName) : declares p k = true ↔ Declares p k := by
  unfold declares Declares
  by_cases h : p = []
  · simp [h]
  · simp [h]

theorem qname_eq (n : QName) (l : Bytes) : n = ⟨[], l⟩ ↔ n.space = [] ∧ n.loc = l := by
  cases n
  simp

theorem translate_iff (as : List (QName × Bytes)) (n : QName) (u : Bytes) : translate as n = u ↔ SpaceIs as n u := by
  have hd : asc "xml".toList ≠ asc "xmlns".toList := by decide
  have hd1 : ([] : Bytes) ≠ asc "xmlns".toList := by decide
  have hd2 : ([] : Bytes) ≠ asc "xml".toList := by decide
  unfold translate SpaceIs
  rw [qname_eq, ne_eq, ne_eq, ne_eq, qname_eq]
  by_cases h1 : n.space = asc "xmlns".toList
  · rw [if_pos h1]
    constructor
    · intro h; exact .inl ⟨h1, h.symm⟩
    · rintro (⟨-, h⟩ | ⟨h, -⟩ | ⟨⟨h, -⟩, -⟩ | ⟨h, -⟩)
      · exact h.symm
      · exact absurd (h.symm.trans h1) hd
      · exact absurd (h.symm.trans h1) hd1
      · exact absurd h1 h
  · rw [if_neg h1]
    by_cases h2 : n.space = asc "xml".toList
    · rw [if_pos h2]
      constructor
      · intro h; exact .inr (.inl ⟨h2, h.symm⟩)
      · rintro (⟨h, -⟩ | ⟨-, h⟩ | ⟨⟨h, -⟩, -⟩ | ⟨-, h, -⟩)
        · exact absurd h h1
        · exact h.symm
        · exact absurd (h.symm.trans h2) hd2
        · exact absurd h2 h
    · rw [if_neg h2]
      by_cases h3 : n.space = [] ∧ n.loc = asc "xmlns".toList
      · rw [if_pos h3]
        constructor
        · intro h; exact .inr (.inr (.inl ⟨h3, h.symm⟩))
        · rintro (⟨h, -⟩ | ⟨h, -⟩ | ⟨-, h⟩ | ⟨-, -, h, -⟩)
          · exact absurd h h1
          · exact absurd h h2
          · exact h.symm
          · exact absurd h3 h
      · rw [if_neg h3, foldl_iff (declares_iff n.space)]
        constructor
        · intro h; exact .inr (.inr (.inr ⟨h1, h2, h3, h⟩))
        · rintro (⟨h, -⟩ | ⟨h, -⟩ | ⟨h, -⟩ | ⟨-, -, -, h⟩)
          · exact absurd h h1
          · exact absurd h h2
          · exact absurd h h3
          · exact h

theorem elemOf_iff (n : QName) (as : List (QName × Bytes)) (i : Bytes) (e : Elem) : elemOf n as i = e ↔ ElemIs n as i e := by
  constructor
  · rintro rfl
    exact ⟨(translate_iff _ _ _).mp rfl, rfl, (strField_iff _ _ _).mp rfl, (strField_iff _ _ _).mp rfl, (strField_iff _ _ _).mp rfl, (strField_iff _ _ _).mp rfl, rfl⟩
  · rintro ⟨h1, h2, h3, h4, h5, h6, h7⟩
    unfold elemOf
    rw [(translate_iff _ _ _).mpr h1, (strField_iff _ _ _).mpr h3, (strField_iff _ _ _).mpr h4, (strField_iff _ _ _).mpr h5, (strField_iff _ _ _).mpr h6, ← h2, ← h7]

/-- The texts of an int. -/
def IntText (b : Bytes) (n : Int) : Prop := (b = [] ∧ n = 0) ∨ NumberText b n

theorem intField_iff (k : Bytes) : ∀ (as : List (QName × Bytes)) (v0 v : Int), intField k as v0 = .ok v ↔
    (∀ x ∈ as, x.1.loc = k → ∃ n, IntText x.2 n) ∧ ∃ o, LastOf (fun n => n.loc = k) as o ∧ (o = none ∧ v = v0 ∨ ∃ b, o = some b ∧ IntText b v) := by
  intro as
  induction as with
  | nil =>
    intro v0 v
    constructor
    · intro h
      exact ⟨by simp, none, lastOf_none.mpr (by simp), .inl ⟨rfl, (Go.ok.inj h).symm⟩⟩
    · rintro ⟨-, o, h, ⟨-, rfl⟩ | ⟨b, rfl, -⟩⟩
      · rfl
      · obtain ⟨l, k, r, e, -⟩ := lastOf_some.mp h
        simp at e
  | cons kv as ih =>
    intro v0 v
    rw [intField]
    by_cases hk : kv.1.loc = k
    · rw [if_pos hk]
      cases hv : parseInt64 kv.2 with
      | none =>
        constructor
        · intro h; cases h
        · rintro ⟨h, -⟩
          obtain ⟨n, hn⟩ := h kv (List.mem_cons_self ..) hk
          rw [(parseInt64_iff _ _).mpr hn] at hv
          cases hv
      | some n =>
        have hn : IntText kv.2 n := (parseInt64_iff _ _).mp hv
        show intField k as n = .ok v ↔ _
        rw [ih]
        constructor
        · rintro ⟨h1, o, h2, h3⟩
          refine ⟨by intro x hx hxk; rcases List.mem_cons.mp hx with rfl | hx; exacts [⟨n, hn⟩, h1 x hx hxk], ?_⟩
          rcases h3 with ⟨rfl, rfl⟩ | ⟨b, rfl, hb⟩
          · exact ⟨some kv.2, lastOf_some.mpr ⟨[], kv.1, as, rfl, hk, lastOf_none.mp h2⟩, .inr ⟨_, rfl, hn⟩⟩
          · obtain ⟨l, k', r, rfl, hk', hr⟩ := lastOf_some.mp h2
            exact ⟨some b, lastOf_some.mpr ⟨kv :: l, k', r, rfl, hk', hr⟩, .inr ⟨_, rfl, hb⟩⟩
        · rintro ⟨h1, o, h2, h3⟩
          refine ⟨fun x hx => h1 x (List.mem_cons_of_mem _ hx), ?_⟩
          rcases h3 with ⟨rfl, rfl⟩ | ⟨b, rfl, hb⟩
          · exact absurd hk (lastOf_none.mp h2 kv (List.mem_cons_self ..))
          · obtain ⟨l, k', r, e, hk', hr⟩ := lastOf_some.mp h2
            cases l with
            | nil =>
              obtain ⟨rfl, rfl⟩ := List.cons.inj e
              refine ⟨none, lastOf_none.mpr hr, .inl ⟨rfl, ?_⟩⟩
              have := (parseInt64_iff b v).mpr hb
              rw [show parseInt64 b = some n from hv] at this
              exact (Option.some.inj this).symm
            | cons y l =>
              have e2 := (List.cons.inj e).2
              exact ⟨some b, lastOf_some.mpr ⟨l, k', r, e2, hk', hr⟩, .inr ⟨_, rfl, hb⟩⟩
    · rw [if_neg hk, ih]
      constructor
      · rintro ⟨h1, o, h2, h3⟩
        refine ⟨by intro x hx hxk; rcases List.mem_cons.mp hx with rfl | hx; exacts [absurd hxk hk, h1 x hx hxk], o, ?_, h3⟩
        cases o with
        | none => exact lastOf_none.mpr (by intro x hx; rcases List.mem_cons.mp hx with rfl | hx; exacts [hk, lastOf_none.mp h2 x hx])
        | some b =>
          obtain ⟨l, k', r, rfl, hk', hr⟩ := lastOf_some.mp h2
          exact lastOf_some.mpr ⟨kv :: l, k', r, rfl, hk', hr⟩
      · rintro ⟨h1, o, h2, h3⟩
        refine ⟨fun x hx => h1 x (List.mem_cons_of_mem _ hx), o, ?_, h3⟩
        cases o with
        | none => exact lastOf_none.mpr fun x hx => lastOf_none.mp h2 x (List.mem_cons_of_mem _ hx)
        | some b =>
          obtain ⟨l, k', r, e, hk', hr⟩ := lastOf_some.mp h2
          cases l with
          | nil =>
            have e1 := (List.cons.inj e).1
            rw [e1] at hk
            exact absurd hk' hk
          | cons y l => exact lastOf_some.mpr ⟨l, k', r, (List.cons.inj e).2, hk', hr⟩

theorem version_iff (as : List (QName × Bytes)) (v : Int) : intField (asc "version".toList) as 0 = .ok v ↔ VersionIs as v := intField_iff _ as 0 v

theorem intField_safe (k : Bytes) : ∀ (as : List (QName × Bytes)) (v0 : Int), intField k as v0 ≠ .panic ∧ intField k as v0 ≠ .diverge := by
  intro as
  induction as with
  | nil => intro v0; exact ⟨by simp [intField], by simp [intField]⟩
  | cons kv as ih =>
    intro v0
    rw [intField]
    split
    · split
      · exact ih _
      · exact ⟨by simp, by simp⟩
    · exact ih _

/-! ### Sequences of elements -/

theorem findStart_eof (lib : Lib) : ∀ (f : Nat) (bs : Bytes), bs.length < f → (findStart lib f bs = .err "EOF" ↔ Between lib bs) := by
  intro f
  induction f with
  | zero => intro bs h; omega
  | succ f ih =>
    intro bs hl
    rw [findStart]
    by_cases hb : bs = []
    · rw [if_pos hb, hb]
      exact ⟨fun _ => .nil, fun _ => rfl⟩
    · rw [if_neg hb]
      have first : Between lib bs → ∃ raw r, rawToken lib bs = some (raw, r) ∧ ((∃ s, raw = .chars s) ∨ raw = .misc) ∧ Between lib r := by
        intro h
        cases h with
        | nil => exact absurd rfl hb
        | chars s0 w0 t0 hp he ht => exact ⟨_, _, token_piece hp [] _ he, .inl ⟨s0, rfl⟩, ht⟩
        | misc w0 t0 hp ht =>
          have h60 : w0.head? = some 60 := by
            cases hp with
            | comment c => rfl
            | pi n => rfl
            | directive c => rfl
          exact ⟨_, _, token_piece hp [] _ (fun h => absurd h60 h), .inr rfl, ht⟩
      have hse : syntaxErr ≠ "EOF" := by decide
      cases hr : rawToken lib bs with
      | none =>
        constructor
        · intro h; exact absurd (Go.err.inj h) hse
        · intro h; obtain ⟨raw, r, h1, -⟩ := first h; rw [hr] at h1; cases h1
      | some z =>
        obtain ⟨raw, r0⟩ := z
        obtain ⟨w1, e1, hp1, he1⟩ := (rawToken_iff _ _ _ _).mp hr
        have back : Between lib bs → ((∃ s, raw = .chars s) ∨ raw = .misc) ∧ Between lib r0 := by
          intro h
          obtain ⟨raw', r, h1, h2, h3⟩ := first h
          rw [hr] at h1
          cases h1
          exact ⟨h2, h3⟩
        have hlen : r0.length < f := by
          have := List.length_pos_iff.mpr (piece_ne_nil hp1)
          rw [e1, List.length_append] at hl; omega
        cases raw with
        | start n as em =>
          constructor
          · intro h; cases h
          · intro h; rcases (back h).1 with ⟨s, h⟩ | h <;> cases h
        | stop m =>
          constructor
          · intro h; exact absurd (Go.err.inj h) hse
          · intro h; rcases (back h).1 with ⟨s, h⟩ | h <;> cases h
        | chars x =>
          show findStart lib f r0 = _ ↔ _
          rw [ih r0 hlen]
          constructor
          · intro h; rw [e1]; exact .chars x w1 r0 hp1 he1 h
          · intro h; exact (back h).2
        | misc =>
          show findStart lib f r0 = _ ↔ _
          rw [ih r0 hlen]
          constructor
          · intro h; rw [e1]; exact .misc w1 r0 hp1 h
          · intro h; exact (back h).2

theorem findStart_safe (lib : Lib) : ∀ (f : Nat) (bs : Bytes), bs.length < f → findStart lib f bs ≠ .panic ∧ findStart lib f bs ≠ .diverge := by
  intro f
  induction f with
  | zero => intro bs h; omega
  | succ f ih =>
    intro bs hl
    rw [findStart]
    split
    · exact ⟨by simp, by simp⟩
    · cases hr : rawToken lib bs with
      | none => exact ⟨by simp, by simp⟩
      | some z =>
        obtain ⟨raw, r0⟩ := z
        obtain ⟨w1, e1, hp1, he1⟩ := (rawToken_iff _ _ _ _).mp hr
        have hlen : r0.length < f := by
          have := List.length_pos_iff.mpr (piece_ne_nil hp1)
          rw [e1, List.length_append] at hl; omega
        cases raw with
        | start n as em => exact ⟨by simp, by simp⟩
        | stop m => exact ⟨by simp, by simp⟩
        | chars x => exact ih r0 hlen
        | misc => exact ih r0 hlen

theorem innerEnd_err (lib : Lib) : ∀ (f d : Nat) (s : State) (m : String), innerEnd lib f d s = .err m → m = syntaxErr := by
  intro f
  induction f with
  | zero => intro d s m h; cases h
  | succ f ih =>
    intro d s m h
    rw [innerEnd] at h
    cases ht : token lib s with
    | none => rw [ht] at h; exact (Go.err.inj h).symm
    | some x =>
      obtain ⟨t, s'⟩ := x
      rw [ht] at h
      cases t with
      | start n as => exact ih _ _ _ h
      | stop n =>
        simp only at h
        split at h
        · cases h
        · exact ih _ _ _ h
      | chars b => exact ih _ _ _ h
      | misc => exact ih _ _ _ h

theorem inner_safe (lib : Lib) (s : State) : inner lib s ≠ .panic ∧ inner lib s ≠ .diverge := by
  have := innerEnd_fuel lib (2 * s.rest.length + 2) _ 0 s (by unfold left; split <;> omega) (Nat.le_refl _)
  unfold inner
  cases h : innerEnd lib (2 * s.rest.length + 2) 0 s with
  | ok x => exact ⟨by simp [pure], by simp [pure]⟩
  | err m => exact ⟨by simp, by simp⟩
  | panic => exact absurd h this.2.2
  | diverge => exact absurd h this.2.1

theorem inner_err {lib : Lib} {s : State} {m : String} (h : inner lib s = .err m) : m = syntaxErr := by
  unfold inner at h
  cases h1 : innerEnd lib (2 * s.rest.length + 2) 0 s with
  | ok x => rw [h1] at h; cases h
  | err m' => rw [h1] at h; cases h; exact innerEnd_err lib _ _ _ _ h1
  | panic => rw [h1] at h; cases h
  | diverge => rw [h1] at h; cases h

theorem decodeElem_iff (lib : Lib) (bs r : Bytes) (e : Elem) : decodeElem lib bs = .ok (e, r) ↔
    ∃ b x qn as i, bs = b ++ x ++ r ∧ Between lib b ∧ Tagged lib qn as i x ∧ ElemIs qn as i e := by
  unfold decodeElem
  constructor
  · intro h
    obtain ⟨⟨qn, as, s⟩, h1, h2⟩ := Go.bind_eq_ok.mp h
    obtain ⟨⟨i, r'⟩, h3, h4⟩ := Go.bind_eq_ok.mp h2
    have h4 := Prod.mk.inj (Go.ok.inj h4)
    obtain ⟨h5, rfl⟩ := h4
    obtain ⟨b, x, e1, hb, ht⟩ := (element_iff lib bs qn as i r').mp ⟨s, h1, h3⟩
    exact ⟨b, x, qn, as, i, e1, hb, ht, (elemOf_iff _ _ _ _).mp h5⟩
  · rintro ⟨b, x, qn, as, i, e1, hb, ht, he⟩
    obtain ⟨s, h1, h2⟩ := (element_iff lib bs qn as i r).mpr ⟨b, x, e1, hb, ht⟩
    rw [h1]
    simp only [Go.ok_bind]
    rw [h2]
    simp only [Go.ok_bind]
    rw [(elemOf_iff _ _ _ _).mpr he]
    rfl

theorem decodeElem_eof (lib : Lib) (bs : Bytes) : decodeElem lib bs = .err "EOF" ↔ Between lib bs := by
  have hse : syntaxErr ≠ "EOF" := by decide
  rw [← findStart_eof lib (bs.length + 1) bs (Nat.lt_succ_self _)]
  unfold decodeElem
  constructor
  · intro h
    cases h1 : findStart lib (bs.length + 1) bs with
    | ok x =>
      rw [h1] at h
      simp only [Go.ok_bind] at h
      cases h2 : inner lib x.2.2 with
      | ok y => rw [h2] at h; cases h
      | err m => rw [h2] at h; cases h; exact absurd (inner_err h2).symm hse
      | panic => rw [h2] at h; cases h
      | diverge => rw [h2] at h; cases h
    | err m => rw [h1] at h; cases h; rfl
    | panic => rw [h1] at h; cases h
    | diverge => rw [h1] at h; cases h
  · intro h
    rw [h]
    rfl

theorem decodeElem_safe (lib : Lib) (bs : Bytes) : decodeElem lib bs ≠ .panic ∧ decodeElem lib bs ≠ .diverge := by
  have h0 := findStart_safe lib (bs.length + 1) bs (Nat.lt_succ_self _)
  unfold decodeElem
  cases h1 : findStart lib (bs.length + 1) bs with
  | ok x =>
    have h3 := inner_safe lib x.2.2
    simp only [Go.ok_bind]
    cases h2 : inner lib x.2.2 with
    | ok y => exact ⟨by simp [pure], by simp [pure]⟩
    | err m => exact ⟨by simp, by simp⟩
    | panic => exact absurd h2 h3.1
    | diverge => exact absurd h2 h3.2
  | err m => exact ⟨by simp, by simp⟩
  | panic => exact absurd h1 h0.1
  | diverge => exact absurd h1 h0.2

theorem tagged_ne_nil {lib : Lib} {qn : QName} {as : List (QName × Bytes)} {i x : Bytes} (h : Tagged lib qn as i x) : x ≠ [] := by
  cases h <;> simp

theorem elems_front {lib : Lib} {es : List Elem} {bs : Bytes} (h : Elems lib es bs) : (es = [] ∧ Between lib bs) ∨
    ∃ e es' r, es = e :: es' ∧ decodeElem lib bs = .ok (e, r) ∧ Elems lib es' r := by
  cases h with
  | nil b hb => exact .inl ⟨rfl, hb⟩
  | cons b w t i qn as e es' hb hw he ht => exact .inr ⟨e, es', t, rfl, (decodeElem_iff _ _ _ _).mpr ⟨b, w, qn, as, i, rfl, hb, hw, he⟩, ht⟩

/-- The loop ends, and the list begins with what was there. -/
theorem decodeLoop_total (lib : Lib) : ∀ (f : Nat) (acc : List Elem) (bs : Bytes), bs.length < f → ∃ es o p q, decodeLoop lib f acc bs = .ok (acc ++ es, o) ∧ bs = p ++ q ∧ Elems lib es p := by
  intro f
  induction f with
  | zero => intro acc bs h; omega
  | succ f ih =>
    intro acc bs hl
    rw [decodeLoop]
    cases hd : decodeElem lib bs with
    | ok x =>
      obtain ⟨e, r⟩ := x
      obtain ⟨b, x, qn, as, i, e1, hb, ht, he⟩ := (decodeElem_iff _ _ _ _).mp hd
      have hlen : r.length < f := by
        have := List.length_pos_iff.mpr (tagged_ne_nil ht)
        rw [e1, List.length_append, List.length_append] at hl; omega
      obtain ⟨es, o, p, q, h1, h2, h3⟩ := ih (acc ++ [e]) r hlen
      refine ⟨e :: es, o, b ++ x ++ p, q, ?_, ?_, .cons b x p i qn as e es hb ht he h3⟩
      · show decodeLoop lib f (acc ++ [e]) r = _
        rw [h1]; simp
      · rw [e1, h2]; simp
    | err m => exact ⟨[], _, [], bs, by rw [List.append_nil], rfl, .nil _ .nil⟩
    | panic => exact absurd hd (decodeElem_safe _ _).1
    | diverge => exact absurd hd (decodeElem_safe _ _).2

theorem decodeLoop_iff (lib : Lib) : ∀ (f : Nat) (acc es : List Elem) (bs : Bytes), bs.length < f → (decodeLoop lib f acc bs = .ok (acc ++ es, none) ↔ Elems lib es bs) := by
  intro f
  induction f with
  | zero => intro acc es bs h; omega
  | succ f ih =>
    intro acc es bs hl
    rw [decodeLoop]
    cases hd : decodeElem lib bs with
    | ok x =>
      obtain ⟨e, r⟩ := x
      obtain ⟨b, x, qn, as, i, e1, hb, ht, he⟩ := (decodeElem_iff _ _ _ _).mp hd
      have hlen : r.length < f := by
        have := List.length_pos_iff.mpr (tagged_ne_nil ht)
        rw [e1, List.length_append, List.length_append] at hl; omega
      show decodeLoop lib f (acc ++ [e]) r = _ ↔ _
      constructor
      · intro h
        obtain ⟨es2, o, p, q, h1, -, -⟩ := decodeLoop_total lib f (acc ++ [e]) r hlen
        rw [h1] at h
        have h := Prod.mk.inj (Go.ok.inj h)
        have h2 : es = e :: es2 := by
          have := h.1
          rw [List.append_assoc] at this
          exact (List.append_cancel_left this).symm
        have h3 := h.2
        subst h3
        subst h2
        rw [e1]
        exact .cons b x r i qn as e es2 hb ht he ((ih (acc ++ [e]) es2 r hlen).mp h1)
      · intro h
        rcases elems_front h with ⟨-, h1⟩ | ⟨e', es', r', rfl, h1, h2⟩
        · rw [(decodeElem_eof _ _).mpr h1] at hd; cases hd
        · rw [hd] at h1
          cases h1
          have := (ih (acc ++ [e]) es' _ hlen).mpr h2
          rw [this]
          simp
    | err m =>
      show Go.ok (acc, if m = "EOF" then none else some m) = _ ↔ _
      constructor
      · intro h
        have h := Prod.mk.inj (Go.ok.inj h)
        have h1 : es = [] := by simpa using h.1
        subst h1
        by_cases hm : m = "EOF"
        · subst hm; exact .nil _ ((decodeElem_eof _ _).mp hd)
        · rw [if_neg hm] at h; cases h.2
      · intro h
        rcases elems_front h with ⟨rfl, h1⟩ | ⟨e', es', r', rfl, h1, h2⟩
        · rw [(decodeElem_eof _ _).mpr h1] at hd
          cases hd
          simp
        · rw [hd] at h1; cases h1
    | panic => exact absurd hd (decodeElem_safe _ _).1
    | diverge => exact absurd hd (decodeElem_safe _ _).2

theorem decodeInner_iff (lib : Lib) (i : Bytes) (es : List Elem) : decodeInner lib i = .ok (es, none) ↔ Elems lib es i := by
  unfold decodeInner
  by_cases h : i = []
  · rw [if_pos h]
    subst h
    constructor
    · intro h; cases h; exact .nil _ .nil
    · intro h
      rcases elems_front h with ⟨rfl, -⟩ | ⟨e, es', r, rfl, h1, -⟩
      · rfl
      · rw [(decodeElem_eof _ _).mpr .nil] at h1; cases h1
  · rw [if_neg h]
    exact decodeLoop_iff lib _ [] es i (Nat.lt_succ_self _)

theorem decodeInner_total (lib : Lib) (i : Bytes) : ∃ es o p q, decodeInner lib i = .ok (es, o) ∧ i = p ++ q ∧ Elems lib es p := by
  unfold decodeInner
  by_cases h : i = []
  · rw [if_pos h]; exact ⟨[], none, [], i, rfl, rfl, .nil _ .nil⟩
  · rw [if_neg h]
    exact decodeLoop_total lib _ [] i (Nat.lt_succ_self _)

/-! ### Messages -/

theorem decodeMsg_iff (lib : Lib) (nm : MsgName) (bs : Bytes) (m : Msg) : decodeMsg lib nm bs = .ok m ↔ MsgIs lib nm bs m.attrs m.version m.inner := by
  unfold decodeMsg MsgIs
  constructor
  · intro h
    obtain ⟨⟨qn, as, s⟩, h1, h2⟩ := Go.bind_eq_ok.mp h
    simp only at h2
    split at h2
    · cases h2
    · rename_i hl
      split at h2
      · cases h2
      · rename_i hs
        obtain ⟨v, h3, h4⟩ := Go.bind_eq_ok.mp h2
        obtain ⟨⟨i, r⟩, h5, h6⟩ := Go.bind_eq_ok.mp h4
        have h6 := Go.ok.inj h6
        subst h6
        obtain ⟨b, x, e1, hb, ht⟩ := (element_iff lib bs qn as i r).mp ⟨s, h1, h5⟩
        exact ⟨b, x, r, qn, e1, hb, ht, Classical.not_not.mp hl, (translate_iff _ _ _).mp (Classical.not_not.mp hs), (version_iff _ _).mp h3⟩
  · rintro ⟨b, x, r, qn, e1, hb, ht, hl, hs, hv⟩
    obtain ⟨s, h1, h2⟩ := (element_iff lib bs qn m.attrs m.inner r).mpr ⟨b, x, e1, hb, ht⟩
    rw [h1]
    simp only [Go.ok_bind]
    rw [if_neg (not_not.mpr hl), if_neg (not_not.mpr ((translate_iff _ _ _).mpr hs)), (version_iff _ _).mpr hv]
    simp only [Go.ok_bind]
    rw [h2]
    rfl

theorem bind_runs {α β : Type} {x : Go α} {f : α → Go β} (hx : x ≠ .panic ∧ x ≠ .diverge) (hf : ∀ a, f a ≠ .panic ∧ f a ≠ .diverge) : (x >>= f) ≠ .panic ∧ (x >>= f) ≠ .diverge := by
  cases x with
  | ok a => exact hf a
  | err m => exact ⟨nofun, nofun⟩
  | panic => exact absurd rfl hx.1
  | diverge => exact absurd rfl hx.2

theorem decodeMsg_safe (lib : Lib) (nm : MsgName) (bs : Bytes) : decodeMsg lib nm bs ≠ .panic ∧ decodeMsg lib nm bs ≠ .diverge := by
  unfold decodeMsg
  refine bind_runs (findStart_safe lib (bs.length + 1) bs (Nat.lt_succ_self _)) fun x => ?_
  split
  · exact ⟨nofun, nofun⟩
  · split
    · exact ⟨nofun, nofun⟩
    · exact bind_runs (intField_safe _ x.2.1 0) fun v => bind_runs (inner_safe lib x.2.2) fun y => ⟨nofun, nofun⟩

/-- The same octets say one message. -/
theorem msgIs_unique {lib : Lib} {nm : MsgName} {bs : Bytes} {as as' : List (QName × Bytes)} {v v' : Int} {i i' : Bytes} (h : MsgIs lib nm bs as v i) (h' : MsgIs lib nm bs as' v' i') :
    as = as' ∧ v = v' ∧ i = i' := by
  have h1 := (decodeMsg_iff lib nm bs ⟨v, as, i⟩).mpr h
  rw [(decodeMsg_iff lib nm bs ⟨v', as', i'⟩).mpr h'] at h1
  have h1 := Go.ok.inj h1
  simp only [Msg.mk.injEq] at h1
  exact ⟨h1.2.1.symm, h1.1.symm, h1.2.2.symm⟩

end Verif.CaXml
