import Verif.Lemmas.XmlScan
import Verif.Lemmas.RrdpXmlMore
/-
  Size and characters of what is read from a document.
-/
set_option autoImplicit false

namespace Verif.XmlScan
open RrdpXml (Tok)
open RrdpXmlSpec (Xml)
open XmlSpec JsonSpec

/-! ### What a piece of a document gives -/

/-- The token of a piece. -/
def Raw.tok : Raw → Tok
  | .start n as _ => .start n.loc (locals as)
  | .stop n => .stop n.loc
  | .chars b => .chars b
  | .misc => .misc

/-- A token comes from a piece, or is the end of an element that is closed at once. -/
theorem token_from {lib : Lib} {s s1 : State} {t : Tok} (h : token lib s = some (t, s1)) :
    (∃ w raw, s.rest = w ++ s1.rest ∧ Piece lib raw w ∧ t = raw.tok) ∨ (s1.rest = s.rest ∧ ∃ n, t = .stop n) := by
  obtain ⟨cl, st, bs⟩ := s
  unfold token at h
  simp only at h
  cases cl with
  | some n =>
    right
    cases st with
    | nil => cases h
    | cons m st =>
      simp only at h
      split at h
      · cases h; exact ⟨rfl, _, rfl⟩
      · cases h
  | none =>
    left
    simp only at h
    cases hr : rawToken lib bs with
    | none => rw [hr] at h; cases h
    | some x =>
      obtain ⟨raw, r⟩ := x
      rw [hr] at h
      obtain ⟨w, hw, hp, -⟩ := (rawToken_iff _ _ _ _).mp hr
      refine ⟨w, raw, ?_⟩
      cases raw with
      | start n as e => cases h; exact ⟨hw, hp, rfl⟩
      | stop n =>
        cases st with
        | nil => cases h
        | cons m st =>
          simp only at h
          split at h
          · cases h; exact ⟨hw, hp, rfl⟩
          · cases h
      | chars b => cases h; exact ⟨hw, hp, rfl⟩
      | misc => cases h; exact ⟨hw, hp, rfl⟩

/-! ### Size -/

theorem qname_size {n : Bytes} {q : QName} (h : QNameIs n q) : q.loc.length ≤ n.length := by
  rcases h with ⟨h, -⟩ | ⟨rfl, -⟩
  · rw [h]; simp; omega
  · exact Nat.le_refl _

theorem charIs_size {n : Nat} {u : Bytes} (h : CharIs n u) : u.length ≤ 4 := by
  rcases h with h | ⟨-, -, rfl⟩
  · cases h <;> simp
  · simp

theorem ref_size {u body : Bytes} (h : Ref u body) : u.length ≤ body.length + 1 := by
  cases h with
  | lt => decide
  | gt => decide
  | amp => decide
  | apos => decide
  | quot => decide
  | dec ds u hne hd hu =>
    have h1 := charIs_size hu
    have h2 : 0 < ds.length := List.length_pos_iff.mpr hne
    simp; omega
  | hex ds u hne hd hu =>
    have h1 := charIs_size hu
    have h2 : 0 < ds.length := List.length_pos_iff.mpr hne
    simp; omega

theorem written_size {q : Option UInt8} {s t : Bytes} (h : Written q s t) : s.length ≤ t.length := by
  induction h with
  | nil => exact Nat.le_refl _
  | oct b s t _ _ _ _ _ ih => simp; exact ih
  | crlf s t _ ih => simp; omega
  | cr s t _ _ ih => simp; exact ih
  | ref u body s t h _ ih => have := ref_size h; simp; omega

theorem lines_size {s t : Bytes} (h : Lines s t) : s.length ≤ t.length := by
  induction h with
  | nil => exact Nat.le_refl _
  | oct b s t _ _ ih => simp; exact ih
  | crlf s t _ ih => simp; omega
  | cr s t _ _ ih => simp; exact ih

theorem attrsIs_size {lib : Lib} {as : List (QName × Bytes)} {a : Bytes} (h : AttrsIs lib as a) : ((locals as).map fun kv => kv.1.length + kv.2.length).sum ≤ a.length := by
  induction h with
  | nil => simp [locals]
  | cons w n w1 w2 qn q v t as r hw hn hqn h1 h2 hq hv hx hr ih =>
    have := qname_size hqn
    have := written_size hv
    simp only [locals, List.map_cons, List.sum_cons, List.length_append, List.length_cons] at ih ⊢; omega

theorem piece_size {lib : Lib} {raw : Raw} {w : Bytes} (h : Piece lib raw w) : tokSize raw.tok ≤ w.length := by
  cases h with
  | start n a qn as hn hq ha hs =>
    have := qname_size hq
    have := attrsIs_size ha
    simp [Raw.tok, tokSize]; omega
  | empty n a qn as hn hq ha hs =>
    have := qname_size hq
    have := attrsIs_size ha
    simp [Raw.tok, tokSize]; omega
  | stop => simp [Raw.tok, tokSize]
  | text s w hne hw he hx => exact written_size hw
  | cdata s c hc he hx =>
    have := lines_size hc
    simp [Raw.tok, tokSize]; omega
  | comment => simp [Raw.tok, tokSize]
  | pi => simp [Raw.tok, tokSize]
  | directive => simp [Raw.tok, tokSize]

theorem reads_size {lib : Lib} {s s1 : State} {ts : List Tok} (h : Reads lib s ts s1) : (ts.map tokSize).sum + s1.rest.length ≤ s.rest.length := by
  induction h with
  | nil s => simp
  | cons s s1 s2 t ts h hs ih =>
    rw [List.map_cons, List.sum_cons]
    rcases token_from h with ⟨w, raw, hw, hp, rfl⟩ | ⟨he, n, rfl⟩
    · have := piece_size hp
      rw [hw, List.length_append]; omega
    · rw [← he]; simp [tokSize]; exact ih

theorem scan_size (lib : Lib) (d : Bytes) : ((scan lib d).map tokSize).sum ≤ d.length := by
  obtain ⟨s1, h, -⟩ := scan_reads lib d
  have := reads_size h
  simp only at this
  omega

/-! ### Characters -/

theorem attrsIs_chars {lib : Lib} {as : List (QName × Bytes)} {a : Bytes} (h : AttrsIs lib as a) : ∀ v ∈ (locals as).map Prod.snd, XText v := by
  induction h with
  | nil => simp [locals]
  | cons w n w1 w2 qn q v t as r hw hn hqn h1 h2 hq hv hx hr ih =>
    intro x hm
    rw [locals, List.map_cons, List.map_cons, List.mem_cons] at hm
    rcases hm with rfl | hm
    · exact hx
    · exact ih x hm

theorem piece_chars {lib : Lib} {raw : Raw} {w : Bytes} (h : Piece lib raw w) : ∀ v ∈ tokTexts raw.tok, XText v := by
  cases h with
  | start n a qn as hn hq ha hs => exact attrsIs_chars ha
  | empty n a qn as hn hq ha hs => exact attrsIs_chars ha
  | text s w hne hw he hx => intro v hv; rw [List.mem_singleton.mp hv]; exact hx
  | cdata s c hc he hx => intro v hv; rw [List.mem_singleton.mp hv]; exact hx
  | stop => intro v hv; cases hv
  | comment => intro v hv; cases hv
  | pi => intro v hv; cases hv
  | directive => intro v hv; cases hv

theorem reads_chars {lib : Lib} {s s1 : State} {ts : List Tok} (h : Reads lib s ts s1) : ∀ t ∈ ts, ∀ v ∈ tokTexts t, XText v := by
  induction h with
  | nil s => simp
  | cons s s1 s2 t ts h hs ih =>
    intro t' ht
    rw [List.mem_cons] at ht
    rcases ht with rfl | ht
    · rcases token_from h with ⟨w, raw, hw, hp, rfl⟩ | ⟨he, n, rfl⟩
      · exact piece_chars hp
      · intro v hv; cases hv
    · exact ih t' ht

/-! ### Reading of plain texts -/

theorem written_plain (q : Option UInt8) : ∀ (s : Bytes), (∀ b ∈ s, b ≠ 60 ∧ b ≠ 38 ∧ b ≠ 13 ∧ q ≠ some b) → Written q s s := by
  intro s
  induction s with
  | nil => intro _; exact .nil
  | cons b s ih =>
    intro h
    obtain ⟨h1, h2, h3, h4⟩ := h b List.mem_cons_self
    exact .oct b s s h1 h2 h3 h4 (ih fun c hc => h c (List.mem_cons_of_mem _ hc))

/-! ### Cuts -/

theorem start_front {lib : Lib} {pre : List Xml} {w t r : Bytes} {qn : QName} {as : List (QName × Bytes)} {e : Bool} (hc : Content lib pre w) (hp : Piece lib (.start qn as e) t) :
    Tok.start qn.loc (locals as) ∈ scan lib (w ++ t ++ r) := by
  have h60 : ∃ u, t = 60 :: u := by cases hp <;> exact ⟨_, rfl⟩
  obtain ⟨u, rfl⟩ := h60
  have h1 := content_reads hc [] ((60 :: u) ++ r) (.inr rfl)
  have h2 : token lib ⟨none, [], (60 :: u) ++ r⟩ = some (.start qn.loc (locals as), ⟨if e then some qn else none, [qn], r⟩) := by
    unfold token
    simp only
    rw [token_piece hp [] r (fun h => absurd rfl h)]
    rfl
  have h3 := scan_front (h1.append (Reads.one h2))
  rw [List.append_assoc]
  exact h3.subset (by simp)

end Verif.XmlScan
