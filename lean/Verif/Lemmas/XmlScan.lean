import Verif.Lemmas.XmlDoc
/-
  The tokens of a document: of a whole one and of one that is cut off.
-/
set_option autoImplicit false

namespace Verif.XmlScan
open RrdpXml (Tok)
open RrdpXmlSpec (Xml)
open XmlSpec JsonSpec

/-! ### Runs of the decoder -/

/-- These tokens are read between two states. -/
inductive Reads (lib : Lib) : State → List Tok → State → Prop where
  | nil (s : State) : Reads lib s [] s
  | cons (s s1 s2 : State) (t : Tok) (ts : List Tok) (h : token lib s = some (t, s1)) (hs : Reads lib s1 ts s2) : Reads lib s (t :: ts) s2

theorem Reads.append {lib : Lib} {a b c : State} {ts us : List Tok} (h1 : Reads lib a ts b) (h2 : Reads lib b us c) : Reads lib a (ts ++ us) c := by
  induction h1 with
  | nil => exact h2
  | cons s s1 s2 t ts h _ ih => exact .cons s s1 c t _ h (ih h2)

theorem Reads.one {lib : Lib} {s s1 : State} {t : Tok} (h : token lib s = some (t, s1)) : Reads lib s [t] s1 := .cons s s1 s1 t [] h (.nil _)

/-- Of two runs from one state one is the beginning of the other. -/
theorem Reads.meet {lib : Lib} {a b c : State} {ts us : List Tok} (h1 : Reads lib a ts b) (h2 : Reads lib a us c) :
    (∃ vs, us = ts ++ vs ∧ Reads lib b vs c) ∨ (∃ vs, ts = us ++ vs ∧ Reads lib c vs b) := by
  induction h1 generalizing us c with
  | nil s => exact .inl ⟨us, rfl, h2⟩
  | cons s s1 s2 t ts h hs ih =>
    cases h2 with
    | nil => exact .inr ⟨t :: ts, rfl, .cons s s1 s2 t ts h hs⟩
    | cons _ s1' _ t' us' h' hs' =>
      rw [h] at h'
      cases h'
      rcases ih hs' with ⟨vs, rfl, hv⟩ | ⟨vs, rfl, hv⟩
      · exact .inl ⟨vs, rfl, hv⟩
      · exact .inr ⟨vs, rfl, hv⟩

/-- What is still to be read. -/
def left (s : State) : Nat := 2 * s.rest.length + (if s.close.isSome then 1 else 0)

theorem piece_ne_nil {lib : Lib} {t : Raw} {w : Bytes} (h : Piece lib t w) : w ≠ [] := by
  cases h with
  | text s w hne => exact hne
  | cdata s c => rw [show asc "<![CDATA[".toList = 60 :: asc "![CDATA[".toList by decide]; simp
  | comment c => rw [show asc "<!--".toList = 60 :: asc "!--".toList by decide]; simp
  | start n => simp
  | empty n => simp
  | stop n => simp
  | pi n => simp
  | directive n => simp

theorem token_left {lib : Lib} {s s1 : State} {t : Tok} (h : token lib s = some (t, s1)) : left s1 < left s := by
  obtain ⟨cl, st, bs⟩ := s
  unfold token at h
  simp only at h
  cases cl with
  | some n =>
    simp only at h
    cases st with
    | nil => cases h
    | cons m st =>
      simp only at h
      split at h
      · cases h; simp [left]
      · cases h
  | none =>
    simp only at h
    cases hr : rawToken lib bs with
    | none => rw [hr] at h; cases h
    | some x =>
      obtain ⟨t', r⟩ := x
      rw [hr] at h
      obtain ⟨w, rfl, hp, -⟩ := (rawToken_iff _ _ _ _).mp hr
      have hw := List.length_pos_iff.mpr (piece_ne_nil hp)
      cases t' with
      | start n as em =>
        simp only at h
        cases h
        cases em <;> simp [left] <;> omega
      | stop n =>
        simp only at h
        cases st with
        | nil => cases h
        | cons m st =>
          simp only at h
          split at h
          · cases h; simp [left]; omega
          · cases h
      | chars b => simp only at h; cases h; simp [left]; omega
      | misc => simp only at h; cases h; simp [left]; omega

theorem tokens_reads (lib : Lib) : ∀ (f : Nat) (s : State), left s < f → ∃ s1, Reads lib s (tokens lib f s) s1 ∧ token lib s1 = none := by
  intro f
  induction f with
  | zero => intro s h; omega
  | succ f ih =>
    intro s h
    rw [tokens]
    cases ht : token lib s with
    | none => exact ⟨s, .nil s, ht⟩
    | some x =>
      obtain ⟨t, s'⟩ := x
      have := token_left ht
      obtain ⟨s1, h1, h2⟩ := ih s' (by omega)
      exact ⟨s1, .cons s s' s1 t _ ht h1, h2⟩

/-- The tokens of a document are all that can be read. -/
theorem scan_reads (lib : Lib) (d : Bytes) : ∃ s1, Reads lib ⟨none, [], d⟩ (scan lib d) s1 ∧ token lib s1 = none :=
  tokens_reads lib _ _ (by simp [left])

theorem reads_stuck {lib : Lib} {s s1 : State} {ts : List Tok} (h : Reads lib s ts s1) (hn : token lib s = none) : ts = [] ∧ s1 = s := by
  cases h with
  | nil => exact ⟨rfl, rfl⟩
  | cons _ _ _ _ _ h => rw [hn] at h; cases h

theorem scan_eq {lib : Lib} {d : Bytes} {ts : List Tok} {s1 : State} (h : Reads lib ⟨none, [], d⟩ ts s1) (hn : token lib s1 = none) : scan lib d = ts := by
  obtain ⟨s2, h2, hn2⟩ := scan_reads lib d
  rcases h.meet h2 with ⟨vs, e, hv⟩ | ⟨vs, e, hv⟩
  · rw [(reads_stuck hv hn).1, List.append_nil] at e; exact e
  · rw [(reads_stuck hv hn2).1, List.append_nil] at e; exact e.symm

/-- What is read at the beginning is at the beginning of the tokens. -/
theorem scan_front {lib : Lib} {d : Bytes} {ts : List Tok} {s1 : State} (h : Reads lib ⟨none, [], d⟩ ts s1) : ts <+: scan lib d := by
  obtain ⟨s2, h2, hn2⟩ := scan_reads lib d
  rcases h.meet h2 with ⟨vs, e, hv⟩ | ⟨vs, e, hv⟩
  · exact ⟨vs, e.symm⟩
  · rw [(reads_stuck hv hn2).1, List.append_nil] at e; rw [e]; exact List.prefix_refl _

/-! ### Whole documents -/

theorem token_piece {lib : Lib} {t : Raw} {w : Bytes} (hp : Piece lib t w) (st : List QName) (r : Bytes) (he : Ends w r) : rawToken lib (w ++ r) = some (t, r) :=
  (rawToken_iff _ _ _ _).mpr ⟨w, rfl, hp, he⟩

/-- The content begins with a tag or is empty, seen from the piece before it. -/
def Behind (t r : Bytes) : Prop := r = [] ∨ r.head? = some 60

theorem ends_append {w t r : Bytes} (h : Ends w t) (hr : Behind t r) : Ends w (t ++ r) := by
  intro hw
  cases t with
  | nil => exact hr
  | cons c t => rcases h hw with h | h
                · cases h
                · exact .inr h

theorem content_reads {lib : Lib} {cs : List Xml} {w : Bytes} (h : Content lib cs w) : ∀ (st : List QName) (r : Bytes), Behind w r →
    Reads lib ⟨none, st, w ++ r⟩ (Xml.toksL cs) ⟨none, st, r⟩ := by
  induction h with
  | nil => intro st r _; exact .nil _
  | elem n a w qn as cs xs c t hn hq ha hs hw hc ht ih1 ih2 =>
    intro st r hr
    have h1 := rawToken_iff lib ((60 :: n ++ a ++ [62]) ++ (c ++ ((60 :: 47 :: n ++ w ++ [62]) ++ (t ++ r)))) (c ++ ((60 :: 47 :: n ++ w ++ [62]) ++ (t ++ r))) (.start qn as false)
    have h1 := h1.mpr ⟨_, rfl, .start n a qn as hn hq ha hs, fun h => absurd rfl h⟩
    have h2 := (rawToken_iff lib ((60 :: 47 :: n ++ w ++ [62]) ++ (t ++ r)) (t ++ r) (.stop qn)).mpr ⟨_, rfl, .stop n w qn hn hq hw, fun h => absurd rfl h⟩
    have g1 : token lib ⟨none, st, (60 :: n ++ a ++ [62]) ++ (c ++ ((60 :: 47 :: n ++ w ++ [62]) ++ (t ++ r)))⟩ =
        some (.start qn.loc (locals as), ⟨none, qn :: st, c ++ ((60 :: 47 :: n ++ w ++ [62]) ++ (t ++ r))⟩) := by
      unfold token; simp only [h1]; rfl
    have g2 : token lib ⟨none, qn :: st, (60 :: 47 :: n ++ w ++ [62]) ++ (t ++ r)⟩ = some (.stop qn.loc, ⟨none, st, t ++ r⟩) := by
      unfold token; simp only [h2, if_true]
    have e : (60 :: n ++ a ++ [62]) ++ c ++ (60 :: 47 :: n ++ w ++ [62]) ++ t ++ r = (60 :: n ++ a ++ [62]) ++ (c ++ ((60 :: 47 :: n ++ w ++ [62]) ++ (t ++ r))) := by simp
    have e2 : Xml.toksL (.elem qn.loc (locals as) cs :: xs) = .start qn.loc (locals as) :: (Xml.toksL cs ++ .stop qn.loc :: Xml.toksL xs) := by simp [Xml.toksL, Xml.toks]
    rw [e, e2]
    exact .cons _ _ _ _ _ g1 ((ih1 (qn :: st) _ (.inr rfl)).append (.cons _ _ _ _ _ g2 (ih2 st r hr)))
  | empty n a qn as xs t hn hq ha hs ht ih =>
    intro st r hr
    have h1 := (rawToken_iff lib ((60 :: n ++ a ++ [47, 62]) ++ (t ++ r)) (t ++ r) (.start qn as true)).mpr ⟨_, rfl, .empty n a qn as hn hq ha hs, fun h => absurd rfl h⟩
    have g1 : token lib ⟨none, st, (60 :: n ++ a ++ [47, 62]) ++ (t ++ r)⟩ = some (.start qn.loc (locals as), ⟨some qn, qn :: st, t ++ r⟩) := by
      unfold token; simp only [h1]; rfl
    have g2 : token lib ⟨some qn, qn :: st, t ++ r⟩ = some (.stop qn.loc, ⟨none, st, t ++ r⟩) := by
      unfold token; simp only [if_true]
    have e : (60 :: n ++ a ++ [47, 62]) ++ t ++ r = (60 :: n ++ a ++ [47, 62]) ++ (t ++ r) := by simp
    have e2 : Xml.toksL (.elem qn.loc (locals as) [] :: xs) = .start qn.loc (locals as) :: .stop qn.loc :: Xml.toksL xs := by simp [Xml.toksL, Xml.toks]
    rw [e, e2]
    exact .cons _ _ _ _ _ g1 (.cons _ _ _ _ _ g2 (ih st r hr))
  | chars s w xs t hp he ht ih =>
    intro st r hr
    have h1 := (rawToken_iff lib (w ++ (t ++ r)) (t ++ r) (.chars s)).mpr ⟨_, rfl, hp, ends_append he hr⟩
    have g1 : token lib ⟨none, st, w ++ (t ++ r)⟩ = some (.chars s, ⟨none, st, t ++ r⟩) := by
      unfold token; simp only [h1]
    rw [List.append_assoc]
    exact .cons _ _ _ _ _ g1 (ih st r hr)
  | misc w xs t hp ht ih =>
    intro st r hr
    have h60 : w.head? = some 60 := by
      cases hp with
      | comment c => rfl
      | pi n => rfl
      | directive c => rfl
    have h1 := (rawToken_iff lib (w ++ (t ++ r)) (t ++ r) .misc).mpr ⟨_, rfl, hp, fun h => absurd h60 h⟩
    have g1 : token lib ⟨none, st, w ++ (t ++ r)⟩ = some (.misc, ⟨none, st, t ++ r⟩) := by
      unfold token; simp only [h1]
    rw [List.append_assoc]
    exact .cons _ _ _ _ _ g1 (ih st r hr)

theorem token_end (lib : Lib) (st : List QName) : token lib ⟨none, st, []⟩ = none := rfl

theorem scan_content {lib : Lib} {cs : List Xml} {w : Bytes} (h : Content lib cs w) : scan lib w = Xml.toksL cs := by
  have := content_reads h [] [] (.inl rfl)
  rw [List.append_nil] at this
  exact scan_eq this (token_end _ _)

/-! ### Documents that are cut off -/

/-- With more octets behind it, a token is the same, unless it is text at the very end. -/
theorem token_more {lib : Lib} {s s1 : State} {t : Tok} (h : token lib s = some (t, s1)) (q : Bytes) :
    token lib ⟨s.close, s.stack, s.rest ++ q⟩ = some (t, ⟨s1.close, s1.stack, s1.rest ++ q⟩) ∨ ((∃ b, t = .chars b) ∧ s1.rest = [] ∧ s.rest ≠ []) := by
  obtain ⟨cl, st, bs⟩ := s
  unfold token at h
  simp only at h ⊢
  cases cl with
  | some n =>
    left
    simp only at h
    unfold token
    simp only
    cases st with
    | nil => cases h
    | cons m st =>
      simp only at h ⊢
      split at h
      · rename_i hm
        cases h
        rw [if_pos hm]
      · cases h
  | none =>
    simp only at h
    cases hr : rawToken lib bs with
    | none => rw [hr] at h; cases h
    | some x =>
      obtain ⟨t', r⟩ := x
      rw [hr] at h
      obtain ⟨w, rfl, hp, he⟩ := (rawToken_iff _ _ _ _).mp hr
      have hne := piece_ne_nil hp
      by_cases hend : Ends w (r ++ q)
      · left
        have h2 := (rawToken_iff lib (w ++ (r ++ q)) (r ++ q) t').mpr ⟨w, rfl, hp, hend⟩
        unfold token
        simp only [List.append_assoc, h2]
        cases t' with
        | start n as em => simp only at h; cases h; rfl
        | stop n =>
          simp only at h ⊢
          cases st with
          | nil => cases h
          | cons m st =>
            simp only at h ⊢
            split at h
            · rename_i hm
              cases h
              rw [if_pos hm]
            · cases h
        | chars b => simp only at h; cases h; rfl
        | misc => simp only at h; cases h; rfl
      · right
        have hr0 : r = [] := by
          by_contra hc
          apply hend
          intro hw
          rcases he hw with h | h
          · exact absurd h hc
          · right; rw [head_cons h]; rfl
        have hw60 : w.head? ≠ some 60 := by
          intro hw; exact hend (fun h => absurd hw h)
        subst hr0
        cases hp with
        | text s w => simp only at h; cases h; exact ⟨⟨s, rfl⟩, rfl, by simpa using hne⟩
        | cdata s c => exact absurd rfl hw60
        | comment c => exact absurd rfl hw60
        | start n => exact absurd rfl hw60
        | empty n => exact absurd rfl hw60
        | stop n => exact absurd rfl hw60
        | pi n => exact absurd rfl hw60
        | directive n => exact absurd rfl hw60

/-- The tokens of a beginning: at the beginning of the tokens of the whole, but for a text at the end. -/
theorem reads_more {lib : Lib} {s s1 : State} {ts : List Tok} (h : Reads lib s ts s1) (q : Bytes) (hq : q ≠ []) :
    ∃ us vs s2, ts = us ++ vs ∧ (vs = [] ∨ ∃ b, vs = [.chars b]) ∧ Reads lib ⟨s.close, s.stack, s.rest ++ q⟩ us s2 ∧ s2.rest ≠ [] := by
  induction h with
  | nil s => exact ⟨[], [], _, rfl, .inl rfl, .nil _, by simp [hq]⟩
  | cons s s1 s2 t ts h hs ih =>
    rcases token_more h q with hm | ⟨⟨b, rfl⟩, hr, hne⟩
    · obtain ⟨us, vs, s3, rfl, h2, h3, h4⟩ := ih
      exact ⟨t :: us, vs, s3, rfl, h2, .cons _ _ _ _ _ hm h3, h4⟩
    · refine ⟨[], .chars b :: ts, _, rfl, .inr ⟨b, ?_⟩, .nil _, by simp [hq]⟩
      have hs1 : token lib s1 = none := by
        obtain ⟨cl, st, r⟩ := s1
        simp only at hr
        subst hr
        have hcl : cl = none := by
          obtain ⟨c0, st0, bs0⟩ := s
          unfold token at h
          simp only at h
          cases c0 with
          | some n =>
            simp only at h
            cases st0 with
            | nil => cases h
            | cons m st0 =>
              simp only at h
              split at h <;> cases h
          | none =>
            simp only at h
            split at h
            · cases h
            · cases h
            · split at h
              · split at h <;> cases h
              · cases h
            · cases h; rfl
            · cases h
        subst hcl
        rfl
      rw [(reads_stuck hs hs1).1]

theorem scan_cut {lib : Lib} {cs : List Xml} {p q : Bytes} (h : Content lib cs (p ++ q)) (hq : q ≠ []) :
    ∃ us vs ws, scan lib p = us ++ vs ∧ (vs = [] ∨ ∃ b, vs = [.chars b]) ∧ Xml.toksL cs = us ++ ws ∧ ws ≠ [] := by
  obtain ⟨s1, h1, hn1⟩ := scan_reads lib p
  obtain ⟨us, vs, s2, e, h2, h3, h4⟩ := reads_more h1 q hq
  have hw := content_reads h [] [] (.inl rfl)
  rw [List.append_nil] at hw
  rcases h3.meet hw with ⟨ws, e2, hv⟩ | ⟨ws, e2, hv⟩
  · refine ⟨us, vs, ws, e, h2, e2, ?_⟩
    rintro rfl
    cases hv
    exact h4 rfl
  · exfalso
    have := (reads_stuck hv (token_end lib []))
    rw [this.2] at h4
    exact h4 rfl

end Verif.XmlScan
