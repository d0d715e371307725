import Verif.Spec.RrdpXml
import Verif.Lemmas.NetText
/-
  Lemmas on the reading of RRDP documents.
-/
set_option autoImplicit false

namespace Verif.RrdpXml
open Rrdp RrdpXmlSpec

/-! ### Going on after what was read -/

theorem skip_append : ∀ (p q : List Tok) (d : Nat) (r : List Tok), skip d p = .ok r → skip d (p ++ q) = .ok (r ++ q) := by
  intro p q
  induction p with
  | nil => intro d r h; cases d <;> simp [skip] at h
  | cons t p ih =>
    intro d r h
    cases t with
    | start n as => cases d <;> simp only [List.cons_append, skip] at h ⊢ <;> exact ih _ _ h
    | stop n =>
      cases d with
      | zero => simp only [List.cons_append, skip] at h ⊢; rw [Go.ok.inj h]
      | succ d => simp only [List.cons_append, skip] at h ⊢; exact ih _ _ h
    | chars b => cases d <;> simp only [List.cons_append, skip] at h ⊢ <;> exact ih _ _ h
    | misc => cases d <;> simp only [List.cons_append, skip] at h ⊢ <;> exact ih _ _ h

theorem skip_result : ∀ (p : List Tok) (d : Nat), (∃ m, skip d p = .err m) ∨ ∃ r, skip d p = .ok r ∧ r.length < p.length := by
  intro p
  induction p with
  | nil => intro d; left; cases d <;> exact ⟨_, rfl⟩
  | cons t p ih =>
    have k : ∀ d d', skip d (t :: p) = skip d' p → (∃ m, skip d (t :: p) = .err m) ∨ ∃ r, skip d (t :: p) = .ok r ∧ r.length < (t :: p).length := by
      intro d d' e
      rw [e]
      rcases ih d' with h | ⟨r, h, hl⟩
      · exact .inl h
      · exact .inr ⟨r, h, by simp; omega⟩
    intro d
    cases t with
    | start n as => exact k d (d + 1) (by cases d <;> rfl)
    | stop n =>
      cases d with
      | zero => exact .inr ⟨p, rfl, by simp⟩
      | succ d => exact k (d + 1) d rfl
    | chars b => exact k d d (by cases d <;> rfl)
    | misc => exact k d d (by cases d <;> rfl)

theorem certBody_append : ∀ (p q : List Tok) (acc : Bytes) (d : Nat) (v : Bytes) (r : List Tok), certBody acc d p = .ok (v, r) →
    certBody acc d (p ++ q) = .ok (v, r ++ q) := by
  intro p q
  induction p with
  | nil => intro acc d v r h; cases d <;> simp [certBody] at h
  | cons t p ih =>
    intro acc d v r h
    cases t with
    | start n as => cases d <;> simp only [List.cons_append, certBody] at h ⊢ <;> exact ih _ _ _ _ h
    | stop n =>
      cases d with
      | zero => simp only [List.cons_append, certBody] at h ⊢; cases h; rfl
      | succ d => simp only [List.cons_append, certBody] at h ⊢; exact ih _ _ _ _ h
    | chars b => cases d <;> simp only [List.cons_append, certBody] at h ⊢ <;> exact ih _ _ _ _ h
    | misc => cases d <;> simp only [List.cons_append, certBody] at h ⊢ <;> exact ih _ _ _ _ h

theorem certBody_result : ∀ (p : List Tok) (acc : Bytes) (d : Nat), (∃ m, certBody acc d p = .err m) ∨ ∃ v r, certBody acc d p = .ok (v, r) ∧ r.length < p.length := by
  intro p
  induction p with
  | nil => intro acc d; left; cases d <;> exact ⟨_, rfl⟩
  | cons t p ih =>
    have k : ∀ acc d acc' d', certBody acc d (t :: p) = certBody acc' d' p →
        (∃ m, certBody acc d (t :: p) = .err m) ∨ ∃ v r, certBody acc d (t :: p) = .ok (v, r) ∧ r.length < (t :: p).length := by
      intro acc d acc' d' e
      rw [e]
      rcases ih acc' d' with h | ⟨v, r, h, hl⟩
      · exact .inl h
      · exact .inr ⟨v, r, h, by simp; omega⟩
    intro acc d
    cases t with
    | start n as => exact k acc d acc (d + 1) (by cases d <;> rfl)
    | stop n =>
      cases d with
      | zero => exact .inr ⟨acc, p, rfl, by simp⟩
      | succ d => exact k acc (d + 1) acc d rfl
    | chars b =>
      cases d with
      | zero => exact k acc 0 (acc ++ b) 0 rfl
      | succ d => exact k acc (d + 1) acc (d + 1) rfl
    | misc => exact k acc d acc d (by cases d <;> rfl)

/-! ### Whole pieces -/

mutual
theorem skip_piece : ∀ (x : Xml) (d : Nat) (r : List Tok), skip d (x.toks ++ r) = skip d r
  | .elem n as cs, d, r => by
    have h := skip_pieces cs (d + 1) (.stop n :: r)
    have e : (Xml.elem n as cs).toks ++ r = .start n as :: (Xml.toksL cs ++ .stop n :: r) := by simp [Xml.toks]
    rw [e]
    have e2 : skip d (.start n as :: (Xml.toksL cs ++ .stop n :: r)) = skip (d + 1) (Xml.toksL cs ++ .stop n :: r) := by cases d <;> rfl
    rw [e2, h]; rfl
  | .text b, d, r => by cases d <;> simp [Xml.toks, skip]
  | .misc, d, r => by cases d <;> simp [Xml.toks, skip]
theorem skip_pieces : ∀ (l : List Xml) (d : Nat) (r : List Tok), skip d (Xml.toksL l ++ r) = skip d r
  | [], _, _ => by simp [Xml.toksL]
  | x :: xs, d, r => by
    have h1 := skip_piece x d (Xml.toksL xs ++ r)
    have h2 := skip_pieces xs d r
    simp only [Xml.toksL, List.append_assoc]
    rw [h1, h2]
end

mutual
theorem certBody_piece : ∀ (x : Xml) (acc : Bytes) (d : Nat) (r : List Tok), certBody acc (d + 1) (x.toks ++ r) = certBody acc (d + 1) r
  | .elem n as cs, acc, d, r => by
    have h := certBody_pieces cs acc (d + 1) (.stop n :: r)
    have e : (Xml.elem n as cs).toks ++ r = .start n as :: (Xml.toksL cs ++ .stop n :: r) := by simp [Xml.toks]
    rw [e]
    show certBody acc (d + 1 + 1) _ = _
    rw [h]; rfl
  | .text b, acc, d, r => by simp [Xml.toks, certBody]
  | .misc, acc, d, r => by simp [Xml.toks, certBody]
theorem certBody_pieces : ∀ (l : List Xml) (acc : Bytes) (d : Nat) (r : List Tok), certBody acc (d + 1) (Xml.toksL l ++ r) = certBody acc (d + 1) r
  | [], _, _, _ => by simp [Xml.toksL]
  | x :: xs, acc, d, r => by
    have h1 := certBody_piece x acc d (Xml.toksL xs ++ r)
    have h2 := certBody_pieces xs acc d r
    simp only [Xml.toksL, List.append_assoc]
    rw [h1, h2]
end

theorem certBody_own : ∀ (l : List Xml) (acc : Bytes) (n : Bytes) (r : List Tok), certBody acc 0 (Xml.toksL l ++ .stop n :: r) = .ok (acc ++ ownText l, r) := by
  intro l
  induction l with
  | nil => intro acc n r; simp [Xml.toksL, certBody, ownText]
  | cons x xs ih =>
    intro acc n r
    cases x with
    | elem m as cs =>
      have e : Xml.toksL (Xml.elem m as cs :: xs) ++ .stop n :: r = .start m as :: (Xml.toksL cs ++ .stop m :: (Xml.toksL xs ++ .stop n :: r)) := by simp [Xml.toksL, Xml.toks]
      rw [e]
      show certBody acc (0 + 1) _ = _
      rw [certBody_pieces]
      show certBody acc 0 _ = _
      rw [ih]; simp [ownText]
    | text b =>
      simp only [Xml.toksL, Xml.toks, List.cons_append, List.nil_append, certBody]
      rw [ih]; simp [ownText]
    | misc =>
      simp only [Xml.toksL, Xml.toks, List.cons_append, List.nil_append, certBody]
      rw [ih]; simp [ownText]

/-! ### Attributes -/

theorem lookup_none_of_not_mem {k : Bytes} : ∀ {as : List (Bytes × Bytes)}, k ∉ as.map Prod.fst → as.lookup k = none := by
  intro as
  induction as with
  | nil => intro _; rfl
  | cons a as ih =>
    intro h
    simp only [List.map_cons, List.mem_cons, not_or] at h
    rw [List.lookup_cons]
    have : (k == a.1) = false := by simpa using h.1
    rw [this]; exact ih h.2

theorem certAttrs_eq {as : List (Bytes × Bytes)} (h : Proper as) : certAttrs as = attr (asc "uri".toList) as := by
  have g : ∀ (as : List (Bytes × Bytes)) (u : Bytes), (as.map Prod.fst).Nodup →
      as.foldl (fun u kv => if kv.1 = nUri then kv.2 else u) u = (as.lookup nUri).getD u := by
    intro as
    induction as with
    | nil => intro u _; rfl
    | cons a as ih =>
      intro u hn
      simp only [List.map_cons, List.nodup_cons] at hn
      simp only [List.foldl_cons]
      rw [ih _ hn.2, List.lookup_cons]
      by_cases e : a.1 = nUri
      · have : (nUri == a.1) = true := by simp [e]
        rw [if_pos e, this]
        rw [e] at hn
        rw [lookup_none_of_not_mem hn.1]; rfl
      · have : (nUri == a.1) = false := by simpa using Ne.symm e
        rw [if_neg e, this]
  exact g as [] h

/-! ### Numbers -/

theorem digits_digitsFuel : ∀ (f n : Nat), n < 10 ^ f → f ≠ 0 → digits (Net.digitsFuel 10 f n) = some n := by
  have chr : ∀ d, d < 10 → (48 ≤ Net.digitChar d && Net.digitChar d ≤ 57) = true ∧ (Net.digitChar d).toNat - 48 = d := by decide +kernel
  intro f
  induction f with
  | zero => intro n _ h; exact absurd rfl h
  | succ f ih =>
    intro n hn _
    simp only [Net.digitsFuel]
    split
    · rename_i h
      obtain ⟨h1, h2⟩ := chr n h
      simp only [digits, List.all_cons, List.all_nil, h1, List.foldl_cons, List.foldl_nil, h2]
      simp
    · rename_i h
      have hf : f ≠ 0 := by rintro rfl; simp at hn; omega
      have hd : n / 10 < 10 ^ f := by rw [Nat.pow_succ] at hn; omega
      have hi := ih (n / 10) hd hf
      unfold digits at hi ⊢
      split at hi
      · rename_i hc
        have hv := Option.some.inj hi
        obtain ⟨h1, h2⟩ := chr (n % 10) (Nat.mod_lt _ (by omega))
        rw [if_pos]
        · rw [List.foldl_append, hv]
          simp only [List.foldl_cons, List.foldl_nil, h2]
          congr 1; omega
        · refine ⟨by simp, ?_⟩
          rw [List.all_append, hc.2]
          simp only [List.all_cons, List.all_nil, h1, Bool.and_true]
      · cases hi

theorem trim_digits {b : Bytes} {n : Nat} (h : digits b = some n) : trim b = b := by
  unfold digits at h
  split at h
  · rename_i hc
    obtain ⟨hne, ha⟩ := hc
    have ns : ∀ c : UInt8, (48 ≤ c && c ≤ 57) = true → isSpace c = false := by
      intro c hc
      simp only [Bool.and_eq_true, decide_eq_true_eq] at hc
      unfold isSpace
      have h1 : c.toNat ≥ 48 := by simpa using UInt8.le_iff_toNat_le.mp hc.1
      simp only [Bool.or_eq_false_iff, decide_eq_false_iff_not, Bool.and_eq_false_iff]
      refine ⟨fun e => by rw [e] at h1; simp at h1, .inr fun e => ?_⟩
      have := UInt8.le_iff_toNat_le.mp e
      simp at this; omega
    have dw : ∀ l : Bytes, (l.all fun c => 48 ≤ c && c ≤ 57) = true → l.dropWhile isSpace = l := by
      intro l hl
      cases l with
      | nil => rfl
      | cons c l =>
        simp only [List.all_cons, Bool.and_eq_true] at hl
        rw [List.dropWhile_cons_of_neg]
        rw [ns c (by simpa using hl.1)]; simp
    unfold trim
    rw [dw b ha, dw b.reverse (by rw [List.all_reverse]; exact ha), List.reverse_reverse]
  · cases h

theorem parseInt64_decimal {b : Bytes} {n : Int} (h : Decimal b n) : parseInt64 b = some n := by
  obtain ⟨k, rfl, hk, rfl⟩ := h
  have hd : digits (Net.numText 10 k) = some k := digits_digitsFuel _ _ (Net.lt_pow_log2 (.inl rfl) k) (by omega)
  have ht := trim_digits hd
  have hne : Net.numText 10 k ≠ [] := Net.numText_ne_nil
  unfold parseInt64
  rw [if_neg hne, ht]
  have hs : ∀ t, Net.numText 10 k ≠ 45 :: t ∧ Net.numText 10 k ≠ 43 :: t := by
    intro t
    have : ∀ c t, Net.numText 10 k = c :: t → (48 ≤ c && c ≤ 57) = true := by
      intro c t e
      rw [e] at hd
      unfold digits at hd
      split at hd
      · rename_i hc; have := hc.2; simp only [List.all_cons, Bool.and_eq_true] at this; simpa using this.1
      · cases hd
    constructor <;> intro e <;> have := this _ _ e <;> revert this <;> decide
  have key : ∀ r : Option Int, r = some (k : Int) → (r.bind fun n => if -(2 ^ 63) ≤ n ∧ n < 2 ^ 63 then some n else none) = some (k : Int) := by
    rintro r rfl
    rw [Option.bind_some, if_pos]
    constructor
    · have : (0 : Int) ≤ (k : Int) := Int.natCast_nonneg k
      omega
    · exact_mod_cast hk
  apply key
  split
  · rename_i t e; exact absurd e (hs t).1
  · rename_i t e; exact absurd e (hs t).2
  · rw [hd]; rfl

/-- The serial of an element, if it has one, is a number. -/
def Numbered (as : List (Bytes × Bytes)) : Prop := ∀ b, as.lookup nSerial = some b → ∃ n, Decimal b n

theorem lookup_here {k v : Bytes} {as : List (Bytes × Bytes)} : ((k, v) :: as).lookup k = some v := by simp [List.lookup_cons]

theorem lookup_there {k k' v : Bytes} {as : List (Bytes × Bytes)} (h : k' ≠ k) : ((k', v) :: as).lookup k = as.lookup k := by
  rw [List.lookup_cons]
  have : (k == k') = false := by simpa using Ne.symm h
  simp [this]

theorem rootAttrs_eq : ∀ (as : List (Bytes × Bytes)) (r : Root), Proper as → Numbered as → ∃ a, rootAttrs as r = .ok a ∧ a.session = (as.lookup nSession).getD r.session ∧
    (∀ b, as.lookup nSerial = some b → parseInt64 b = some a.serial) ∧ (as.lookup nSerial = none → a.serial = r.serial) := by
  have hss : nSession ≠ nSerial := by decide
  intro as
  induction as with
  | nil => intro r _ _; exact ⟨r, rfl, rfl, by simp, by simp⟩
  | cons x as ih =>
    obtain ⟨k, v⟩ := x
    intro r hp hn
    simp only [Proper, List.map_cons, List.nodup_cons] at hp
    by_cases h1 : k = nSession
    · subst h1
      have hn' : Numbered as := fun b hb => hn b (by rw [lookup_there hss]; exact hb)
      obtain ⟨a, e, e1, e2, e3⟩ := ih { r with session := v } hp.2 hn'
      rw [lookup_none_of_not_mem hp.1] at e1
      refine ⟨a, by simp [rootAttrs, e], by rw [lookup_here]; exact e1, ?_, ?_⟩
      · rw [lookup_there hss]; exact e2
      · rw [lookup_there hss]; exact e3
    · by_cases h2 : k = nSerial
      · subst h2
        obtain ⟨n, hd⟩ := hn v lookup_here
        have hi := parseInt64_decimal hd
        have hno := lookup_none_of_not_mem hp.1
        obtain ⟨a, e, e1, e2, e3⟩ := ih { r with serial := n } hp.2 (fun b hb => by rw [hno] at hb; cases hb)
        refine ⟨a, by simp [rootAttrs, Ne.symm hss, hi, e], by rw [lookup_there (Ne.symm hss)]; exact e1, ?_, ?_⟩
        · intro b hb
          rw [lookup_here] at hb
          cases hb
          rw [hi, e3 hno]
        · intro hb; rw [lookup_here] at hb; cases hb
      · have hn' : Numbered as := fun b hb => hn b (by rw [lookup_there h2]; exact hb)
        obtain ⟨a, e, e1, e2, e3⟩ := ih r hp.2 hn'
        refine ⟨a, by simp [rootAttrs, h1, h2, e], by rw [lookup_there h1]; exact e1, ?_, ?_⟩
        · rw [lookup_there h2]; exact e2
        · rw [lookup_there h2]; exact e3

theorem elAttrs_eq : ∀ (as : List (Bytes × Bytes)) (r : El), Proper as → Numbered as → ∃ a, elAttrs as r = .ok a ∧ a.uri = (as.lookup nUri).getD r.uri ∧
    a.hash = (as.lookup nHash).getD r.hash ∧
    (∀ b, as.lookup nSerial = some b → parseInt64 b = some a.serial) ∧ (as.lookup nSerial = none → a.serial = r.serial) := by
  have hus : nUri ≠ nSerial := by decide
  have hhs : nHash ≠ nSerial := by decide
  have huh : nUri ≠ nHash := by decide
  intro as
  induction as with
  | nil => intro r _ _; exact ⟨r, rfl, rfl, rfl, by simp, by simp⟩
  | cons x as ih =>
    obtain ⟨k, v⟩ := x
    intro r hp hn
    simp only [Proper, List.map_cons, List.nodup_cons] at hp
    by_cases h2 : k = nSerial
    · subst h2
      obtain ⟨n, hd⟩ := hn v lookup_here
      have hi := parseInt64_decimal hd
      have hno := lookup_none_of_not_mem hp.1
      obtain ⟨a, e, e0, e1, e2, e3⟩ := ih { r with serial := n } hp.2 (fun b hb => by rw [hno] at hb; cases hb)
      refine ⟨a, by simp [elAttrs, hi, e], by rw [lookup_there (Ne.symm hus)]; exact e0, by rw [lookup_there (Ne.symm hhs)]; exact e1, ?_, ?_⟩
      · intro b hb
        rw [lookup_here] at hb
        cases hb
        rw [hi, e3 hno]
      · intro hb; rw [lookup_here] at hb; cases hb
    · have hn' : Numbered as := fun b hb => hn b (by rw [lookup_there h2]; exact hb)
      by_cases h1 : k = nUri
      · subst h1
        obtain ⟨a, e, e0, e1, e2, e3⟩ := ih { r with uri := v } hp.2 hn'
        rw [lookup_none_of_not_mem hp.1] at e0
        refine ⟨a, by simp [elAttrs, h2, e], by rw [lookup_here]; exact e0, by rw [lookup_there huh]; exact e1, ?_, ?_⟩
        · rw [lookup_there h2]; exact e2
        · rw [lookup_there h2]; exact e3
      · by_cases h3 : k = nHash
        · subst h3
          obtain ⟨a, e, e0, e1, e2, e3⟩ := ih { r with hash := v } hp.2 hn'
          rw [lookup_none_of_not_mem hp.1] at e1
          refine ⟨a, by simp [elAttrs, h2, h1, e], by rw [lookup_there h1]; exact e0, by rw [lookup_here]; exact e1, ?_, ?_⟩
          · rw [lookup_there h2]; exact e2
          · rw [lookup_there h2]; exact e3
        · obtain ⟨a, e, e0, e1, e2, e3⟩ := ih r hp.2 hn'
          refine ⟨a, by simp [elAttrs, h1, h2, h3, e], by rw [lookup_there h1]; exact e0, by rw [lookup_there h3]; exact e1, ?_, ?_⟩
          · rw [lookup_there h2]; exact e2
          · rw [lookup_there h2]; exact e3

/-! ### The element of a snapshot or delta -/

theorem nodeBody_append : ∀ (f : Nat) (p q : List Tok) (st st' : List Item × List Item) (r : List Tok) (f' : Nat), f ≤ f' → nodeBody f st p = .ok (st', r) →
    nodeBody f' st (p ++ q) = .ok (st', r ++ q) := by
  intro f
  induction f with
  | zero => intro p q st st' r f' _ h; simp [nodeBody] at h
  | succ f ih =>
    intro p q st st' r f' hf h
    obtain ⟨f', rfl⟩ : ∃ g, f' = g + 1 := ⟨f' - 1, by omega⟩
    have hf : f ≤ f' := by omega
    cases p with
    | nil => simp [nodeBody] at h
    | cons t p =>
      cases t with
      | start k as =>
        simp only [List.cons_append, nodeBody] at h ⊢
        by_cases h1 : k = nPublish
        · rw [if_pos h1] at h ⊢
          obtain ⟨x, hx, h⟩ := Go.bind_eq_ok.mp h
          rw [certBody_append p q [] 0 x.1 x.2 hx]
          exact ih _ _ _ _ _ _ hf h
        · rw [if_neg h1] at h ⊢
          by_cases h2 : k = nWithdraw
          · rw [if_pos h2] at h ⊢
            obtain ⟨x, hx, h⟩ := Go.bind_eq_ok.mp h
            rw [certBody_append p q [] 0 x.1 x.2 hx]
            exact ih _ _ _ _ _ _ hf h
          · rw [if_neg h2] at h ⊢
            obtain ⟨x, hx, h⟩ := Go.bind_eq_ok.mp h
            rw [skip_append p q 0 x hx]
            exact ih _ _ _ _ _ _ hf h
      | stop k => simp only [List.cons_append, nodeBody] at h ⊢; cases h; rfl
      | chars b => simp only [List.cons_append, nodeBody] at h ⊢; exact ih _ _ _ _ _ _ hf h
      | misc => simp only [List.cons_append, nodeBody] at h ⊢; exact ih _ _ _ _ _ _ hf h

theorem nodeBody_result : ∀ (f : Nat) (p : List Tok) (st : List Item × List Item), p.length < f →
    (∃ m, nodeBody f st p = .err m) ∨ ∃ st' r, nodeBody f st p = .ok (st', r) ∧ r.length < p.length := by
  intro f
  induction f with
  | zero => intro p st h; omega
  | succ f ih =>
    intro p st hl
    cases p with
    | nil => exact .inl ⟨_, rfl⟩
    | cons t p =>
      have hl' : p.length < f := by simpa using hl
      have k : ∀ (st' : List Item × List Item) (p' : List Tok), p'.length ≤ p.length → nodeBody (f + 1) st (t :: p) = nodeBody f st' p' →
          (∃ m, nodeBody (f + 1) st (t :: p) = .err m) ∨ ∃ st' r, nodeBody (f + 1) st (t :: p) = .ok (st', r) ∧ r.length < (t :: p).length := by
        intro st' p' hp e
        rw [e]
        rcases ih p' st' (by omega) with h | ⟨a, r, h, hr⟩
        · exact .inl h
        · exact .inr ⟨a, r, h, by simp; omega⟩
      cases t with
      | start n as =>
        by_cases h1 : n = nPublish
        · rcases certBody_result p [] 0 with ⟨m, h⟩ | ⟨v, r, h, hr⟩
          · exact .inl ⟨m, by simp [nodeBody, h1, h]⟩
          · exact k (st.1 ++ [⟨certAttrs as, v⟩], st.2) r (by omega) (by simp [nodeBody, h1, h])
        · by_cases h2 : n = nWithdraw
          · rcases certBody_result p [] 0 with ⟨m, h⟩ | ⟨v, r, h, hr⟩
            · exact .inl ⟨m, by subst h2; simp [nodeBody, h1, h]⟩
            · exact k (st.1, st.2 ++ [⟨certAttrs as, v⟩]) r (by omega) (by subst h2; simp [nodeBody, h1, h])
          · rcases skip_result p 0 with ⟨m, h⟩ | ⟨r, h, hr⟩
            · exact .inl ⟨m, by simp [nodeBody, h1, h2, h]⟩
            · exact k st r (by omega) (by simp [nodeBody, h1, h2, h])
      | stop n => exact .inr ⟨st, p, rfl, by simp⟩
      | chars b => exact k st p (by omega) rfl
      | misc => exact k st p (by omega) rfl

/-- The elements directly inside have proper attributes. -/
def ProperIn (cs : List Xml) : Prop := ∀ n as inside, Xml.elem n as inside ∈ cs → Proper as

theorem nodeBody_pieces : ∀ (cs : List Xml) (f : Nat) (st : List Item × List Item) (n : Bytes) (r : List Tok), cs.length < f → ProperIn cs →
    nodeBody f st (Xml.toksL cs ++ .stop n :: r) = .ok ((st.1 ++ items nPublish cs, st.2 ++ items nWithdraw cs), r) := by
  have hpw : nPublish ≠ nWithdraw := by decide
  intro cs
  induction cs with
  | nil =>
    intro f st n r hf _
    obtain ⟨f, rfl⟩ : ∃ g, f = g + 1 := ⟨f - 1, by simp at hf; omega⟩
    simp [Xml.toksL, nodeBody, items]
  | cons x cs ih =>
    intro f st n r hf hp
    obtain ⟨f, rfl⟩ : ∃ g, f = g + 1 := ⟨f - 1, by simp at hf; omega⟩
    have hf2 : cs.length < f := by simpa using hf
    have hp' : ProperIn cs := fun n as inside h => hp n as inside (List.mem_cons_of_mem _ h)
    cases x with
    | elem m as inside =>
      have e : Xml.toksL (Xml.elem m as inside :: cs) ++ .stop n :: r = .start m as :: (Xml.toksL inside ++ .stop m :: (Xml.toksL cs ++ .stop n :: r)) := by simp [Xml.toksL, Xml.toks]
      rw [e]
      have ha := certAttrs_eq (hp m as inside List.mem_cons_self)
      by_cases h1 : m = nPublish
      · subst h1
        simp only [nodeBody, if_pos, certBody_own, Go.ok_bind, List.nil_append]
        rw [ih f _ n r hf2 hp']
        simp [items, ha, hpw]
      · by_cases h2 : m = nWithdraw
        · subst h2
          simp only [nodeBody, if_neg h1, if_pos, certBody_own, Go.ok_bind, List.nil_append]
          rw [ih f _ n r hf2 hp']
          simp [items, ha, Ne.symm hpw]
        · have hs : skip 0 (Xml.toksL inside ++ .stop m :: (Xml.toksL cs ++ .stop n :: r)) = .ok (Xml.toksL cs ++ .stop n :: r) := by rw [skip_pieces]; rfl
          simp only [nodeBody, if_neg h1, if_neg h2, hs, Go.ok_bind]
          rw [ih f _ n r hf2 hp']
          simp [items, h1, h2]
    | text b =>
      simp only [Xml.toksL, Xml.toks, List.cons_append, List.nil_append, nodeBody]
      rw [ih f _ n r hf2 hp']; simp [items]
    | misc =>
      simp only [Xml.toksL, Xml.toks, List.cons_append, List.nil_append, nodeBody]
      rw [ih f _ n r hf2 hp']; simp [items]

theorem length_toksL : ∀ (l : List Xml), l.length ≤ (Xml.toksL l).length := by
  intro l
  induction l with
  | nil => simp [Xml.toksL]
  | cons x l ih =>
    cases x <;> simp [Xml.toksL, Xml.toks] <;> omega

theorem toksL_append (a b : List Xml) : Xml.toksL (a ++ b) = Xml.toksL a ++ Xml.toksL b := by
  induction a with
  | nil => simp [Xml.toksL]
  | cons x a ih => simp [Xml.toksL, ih]

/-! ### Documents -/

/-- No tag with one of the names of documents of objects. -/
def Mute (ts : List Tok) : Prop := ∀ n as, Tok.start n as ∈ ts → n ≠ nDelta ∧ n ≠ nSnapshot

theorem loop_mute : ∀ (ts : List Tok) (f : Nat) (d s out : List Item × List Item) (r : List Tok), Mute ts →
    parseNodeLoop (f + ts.length) d s out (ts ++ r) = parseNodeLoop f d s out r := by
  intro ts
  induction ts with
  | nil => intro f d s out r _; rfl
  | cons t ts ih =>
    intro f d s out r h
    have h' : Mute ts := fun n as hm => h n as (List.mem_cons_of_mem _ hm)
    have e : f + (t :: ts).length = (f + ts.length) + 1 := by simp; omega
    rw [e, List.cons_append]
    cases t with
    | start n as =>
      obtain ⟨h1, h2⟩ := h n as List.mem_cons_self
      simp only [parseNodeLoop, if_neg h1, if_neg h2]
      exact ih f d s out r h'
    | stop n => simp only [parseNodeLoop]; exact ih f d s out r h'
    | chars b => simp only [parseNodeLoop]; exact ih f d s out r h'
    | misc => simp only [parseNodeLoop]; exact ih f d s out r h'

theorem parseNode_mute (ts : List Tok) (h : Mute ts) : parseNode ts = .ok ([], []) := by
  have := loop_mute ts 1 ([], []) ([], []) ([], []) [] h
  rw [List.append_nil] at this
  unfold parseNode
  rw [Nat.add_comm, this]; rfl

theorem around_toks {l : List Xml} (h : Around l) : ∀ t ∈ Xml.toksL l, (∃ b, t = .chars b) ∨ t = .misc := by
  induction l with
  | nil => intro t ht; simp [Xml.toksL] at ht
  | cons x l ih =>
    intro t ht
    rw [Xml.toksL, List.mem_append] at ht
    rcases ht with ht | ht
    · rcases h x List.mem_cons_self with ⟨b, rfl⟩ | rfl <;> simp [Xml.toks] at ht
      · exact .inl ⟨b, ht⟩
      · exact .inr ht
    · exact ih (fun y hy => h y (List.mem_cons_of_mem _ hy)) t ht

theorem around_mute {l : List Xml} (h : Around l) : Mute (Xml.toksL l) := by
  intro n as hm
  rcases around_toks h _ hm with ⟨b, hb⟩ | hb <;> cases hb

/-- One step into the element of a document. -/
theorem loop_enter (name : Bytes) (hname : name = nDelta ∨ name = nSnapshot) (as : List (Bytes × Bytes)) (hp : Proper as) (hn : Numbered as) (f : Nat) (r : List Tok) :
    (∀ m, nodeBody (f + 1) ([], []) r = .err m → parseNodeLoop (f + 1) ([], []) ([], []) ([], []) (.start name as :: r) = .err m) ∧
    (∀ st r', nodeBody (f + 1) ([], []) r = .ok (st, r') → ∃ d s, parseNodeLoop (f + 1) ([], []) ([], []) ([], []) (.start name as :: r) = parseNodeLoop f d s st r') := by
  have hds : nDelta ≠ nSnapshot := by decide
  obtain ⟨a, ha, -⟩ := rootAttrs_eq as ⟨[], 0⟩ hp hn
  rcases hname with rfl | rfl
  · refine ⟨fun m h => ?_, fun st r' h => ⟨st, ([], []), ?_⟩⟩ <;> simp [parseNodeLoop, ha, h]
  · refine ⟨fun m h => ?_, fun st r' h => ⟨([], []), st, ?_⟩⟩ <;> simp [parseNodeLoop, Ne.symm hds, ha, h]

/-! ### The element of a notification -/

/-- The elements directly inside that refer to documents have readable attributes. -/
def ReadableIn (cs : List Xml) : Prop := ∀ n as inside, Xml.elem n as inside ∈ cs → n = nSnapshot ∨ n = nDelta → Proper as ∧ Numbered as

theorem rootBody_pieces : ∀ (cs : List Xml) (f : Nat) (n0 : Notification) (m : Bytes) (r : List Tok), cs.length < f → ReadableIn cs →
    ∃ n1 ds, rootBody f n0 (Xml.toksL cs ++ .stop m :: r) = .ok (n1, r) ∧ n1.sessionID = n0.sessionID ∧ n1.serial = n0.serial ∧ n1.deltas = n0.deltas ++ ds ∧
      List.Forall₂ (fun as e => elAttrs as ⟨0, [], []⟩ = .ok e) (attrsOf nDelta cs) ds ∧
      (attrsOf nSnapshot cs = [] → n1.snapshot = n0.snapshot) ∧ (∀ as, attrsOf nSnapshot cs = [as] → elAttrs as n0.snapshot = .ok n1.snapshot) := by
  have hds : nDelta ≠ nSnapshot := by decide
  intro cs
  induction cs with
  | nil =>
    intro f n0 m r hf _
    obtain ⟨f, rfl⟩ : ∃ g, f = g + 1 := ⟨f - 1, by simp at hf; omega⟩
    exact ⟨n0, [], by simp [Xml.toksL, rootBody], rfl, rfl, by simp, by simp [attrsOf], by simp, by simp [attrsOf]⟩
  | cons x cs ih =>
    intro f n0 m r hf hp
    obtain ⟨f, rfl⟩ : ∃ g, f = g + 1 := ⟨f - 1, by simp at hf; omega⟩
    have hf2 : cs.length < f := by simpa using hf
    have hp' : ReadableIn cs := fun n as inside h => hp n as inside (List.mem_cons_of_mem _ h)
    cases x with
    | elem k as inside =>
      have e : Xml.toksL (Xml.elem k as inside :: cs) ++ .stop m :: r = .start k as :: (Xml.toksL inside ++ .stop k :: (Xml.toksL cs ++ .stop m :: r)) := by simp [Xml.toksL, Xml.toks]
      have hs : skip 0 (Xml.toksL inside ++ .stop k :: (Xml.toksL cs ++ .stop m :: r)) = .ok (Xml.toksL cs ++ .stop m :: r) := by rw [skip_pieces]; rfl
      rw [e]
      by_cases h1 : k = nSnapshot
      · subst h1
        obtain ⟨pa, na⟩ := hp _ as inside List.mem_cons_self (.inl rfl)
        obtain ⟨a, ha, -⟩ := elAttrs_eq as n0.snapshot pa na
        obtain ⟨n1, ds, g1, g2, g3, g4, g5, g6, g7⟩ := ih f { n0 with snapshot := a } m r hf2 hp'
        have ea : attrsOf nSnapshot (Xml.elem nSnapshot as inside :: cs) = as :: attrsOf nSnapshot cs := by simp [attrsOf]
        have eb : attrsOf nDelta (Xml.elem nSnapshot as inside :: cs) = attrsOf nDelta cs := by simp [attrsOf, Ne.symm hds]
        refine ⟨n1, ds, by simp [rootBody, ha, hs, g1], g2, g3, g4, by rw [eb]; exact g5, by rw [ea]; simp, ?_⟩
        intro as' h
        rw [ea] at h
        obtain ⟨rfl, hn⟩ := List.cons.inj h
        rw [ha, g6 hn]
      · by_cases h2 : k = nDelta
        · subst h2
          obtain ⟨pa, na⟩ := hp _ as inside List.mem_cons_self (.inr rfl)
          obtain ⟨a, ha, -⟩ := elAttrs_eq as ⟨0, [], []⟩ pa na
          obtain ⟨n1, ds, g1, g2, g3, g4, g5, g6, g7⟩ := ih f { n0 with deltas := n0.deltas ++ [a] } m r hf2 hp'
          have ea : attrsOf nSnapshot (Xml.elem nDelta as inside :: cs) = attrsOf nSnapshot cs := by simp [attrsOf, hds]
          have eb : attrsOf nDelta (Xml.elem nDelta as inside :: cs) = as :: attrsOf nDelta cs := by simp [attrsOf]
          exact ⟨n1, a :: ds, by simp [rootBody, h1, ha, hs, g1], g2, g3, by rw [g4]; simp, by rw [eb]; exact .cons ha g5, by rw [ea]; exact g6, by rw [ea]; exact g7⟩
        · obtain ⟨n1, ds, g1, g2, g3, g4, g5, g6, g7⟩ := ih f n0 m r hf2 hp'
          have ea : attrsOf nSnapshot (Xml.elem k as inside :: cs) = attrsOf nSnapshot cs := by simp [attrsOf, h1]
          have eb : attrsOf nDelta (Xml.elem k as inside :: cs) = attrsOf nDelta cs := by simp [attrsOf, h2]
          exact ⟨n1, ds, by simp [rootBody, h1, h2, hs, g1], g2, g3, g4, by rw [eb]; exact g5, by rw [ea]; exact g6, by rw [ea]; exact g7⟩
    | text b =>
      obtain ⟨n1, ds, g1, g2, g3, g4, g5, g6, g7⟩ := ih f n0 m r hf2 hp'
      exact ⟨n1, ds, by simpa [Xml.toksL, Xml.toks, rootBody] using g1, g2, g3, g4, by simpa [attrsOf] using g5, by simpa [attrsOf] using g6, by simpa [attrsOf] using g7⟩
    | misc =>
      obtain ⟨n1, ds, g1, g2, g3, g4, g5, g6, g7⟩ := ih f n0 m r hf2 hp'
      exact ⟨n1, ds, by simpa [Xml.toksL, Xml.toks, rootBody] using g1, g2, g3, g4, by simpa [attrsOf] using g5, by simpa [attrsOf] using g6, by simpa [attrsOf] using g7⟩

/-- No tag of a notification. -/
def MuteRoot (ts : List Tok) : Prop := ∀ n as, Tok.start n as ∈ ts → n ≠ nNotification

theorem rootLoop_mute : ∀ (ts : List Tok) (f : Nat) (n : Notification) (r : List Tok), MuteRoot ts →
    parseRootLoop (f + ts.length) n (ts ++ r) = parseRootLoop f n r := by
  intro ts
  induction ts with
  | nil => intro f n r _; rfl
  | cons t ts ih =>
    intro f n r h
    have h' : MuteRoot ts := fun n as hm => h n as (List.mem_cons_of_mem _ hm)
    have e : f + (t :: ts).length = (f + ts.length) + 1 := by simp; omega
    rw [e, List.cons_append]
    cases t with
    | start k as =>
      simp only [parseRootLoop, if_neg (h k as List.mem_cons_self)]
      exact ih f n r h'
    | stop k => simp only [parseRootLoop]; exact ih f n r h'
    | chars b => simp only [parseRootLoop]; exact ih f n r h'
    | misc => simp only [parseRootLoop]; exact ih f n r h'

theorem around_muteRoot {l : List Xml} (h : Around l) : MuteRoot (Xml.toksL l) := by
  intro n as hm
  rcases around_toks h _ hm with ⟨b, hb⟩ | hb <;> cases hb

theorem rootBody_append : ∀ (f : Nat) (p q : List Tok) (st st' : Notification) (r : List Tok) (f' : Nat), f ≤ f' → rootBody f st p = .ok (st', r) →
    rootBody f' st (p ++ q) = .ok (st', r ++ q) := by
  intro f
  induction f with
  | zero => intro p q st st' r f' _ h; simp [rootBody] at h
  | succ f ih =>
    intro p q st st' r f' hf h
    obtain ⟨f', rfl⟩ : ∃ g, f' = g + 1 := ⟨f' - 1, by omega⟩
    have hf : f ≤ f' := by omega
    cases p with
    | nil => simp [rootBody] at h
    | cons t p =>
      cases t with
      | start k as =>
        simp only [List.cons_append, rootBody] at h ⊢
        by_cases h1 : k = nSnapshot
        · rw [if_pos h1] at h ⊢
          obtain ⟨e, he, h⟩ := Go.bind_eq_ok.mp h
          obtain ⟨x, hx, h⟩ := Go.bind_eq_ok.mp h
          rw [he, Go.ok_bind, skip_append p q 0 x hx]
          exact ih _ _ _ _ _ _ hf h
        · rw [if_neg h1] at h ⊢
          by_cases h2 : k = nDelta
          · rw [if_pos h2] at h ⊢
            obtain ⟨e, he, h⟩ := Go.bind_eq_ok.mp h
            obtain ⟨x, hx, h⟩ := Go.bind_eq_ok.mp h
            rw [he, Go.ok_bind, skip_append p q 0 x hx]
            exact ih _ _ _ _ _ _ hf h
          · rw [if_neg h2] at h ⊢
            obtain ⟨x, hx, h⟩ := Go.bind_eq_ok.mp h
            rw [skip_append p q 0 x hx]
            exact ih _ _ _ _ _ _ hf h
      | stop k => simp only [List.cons_append, rootBody] at h ⊢; cases h; rfl
      | chars b => simp only [List.cons_append, rootBody] at h ⊢; exact ih _ _ _ _ _ _ hf h
      | misc => simp only [List.cons_append, rootBody] at h ⊢; exact ih _ _ _ _ _ _ hf h

theorem elAttrs_result : ∀ (as : List (Bytes × Bytes)) (e : El), (∃ m, elAttrs as e = .err m) ∨ ∃ e', elAttrs as e = .ok e' := by
  intro as
  induction as with
  | nil => intro e; exact .inr ⟨e, rfl⟩
  | cons kv as ih =>
    intro e
    obtain ⟨k, v⟩ := kv
    unfold elAttrs
    split
    · split
      · exact ih _
      · exact .inl ⟨_, rfl⟩
    · split
      · exact ih _
      · split <;> exact ih _

theorem rootBody_result : ∀ (f : Nat) (p : List Tok) (st : Notification), p.length < f →
    (∃ m, rootBody f st p = .err m) ∨ ∃ st' r, rootBody f st p = .ok (st', r) ∧ r.length < p.length := by
  intro f
  induction f with
  | zero => intro p st h; omega
  | succ f ih =>
    intro p st hl
    cases p with
    | nil => exact .inl ⟨_, rfl⟩
    | cons t p =>
      have hl' : p.length < f := by simpa using hl
      have k : ∀ (st' : Notification) (p' : List Tok), p'.length ≤ p.length → rootBody (f + 1) st (t :: p) = rootBody f st' p' →
          (∃ m, rootBody (f + 1) st (t :: p) = .err m) ∨ ∃ st' r, rootBody (f + 1) st (t :: p) = .ok (st', r) ∧ r.length < (t :: p).length := by
        intro st' p' hp e
        rw [e]
        rcases ih p' st' (by omega) with h | ⟨a, r, h, hr⟩
        · exact .inl h
        · exact .inr ⟨a, r, h, by simp; omega⟩
      cases t with
      | start n as =>
        by_cases h1 : n = nSnapshot
        · rcases elAttrs_result as st.snapshot with ⟨m, he⟩ | ⟨e, he⟩
          · exact .inl ⟨m, by simp [rootBody, h1, he]⟩
          · rcases skip_result p 0 with ⟨m, h⟩ | ⟨r, h, hr⟩
            · exact .inl ⟨m, by simp [rootBody, h1, he, h]⟩
            · exact k { st with snapshot := e } r (by omega) (by simp [rootBody, h1, he, h])
        · by_cases h2 : n = nDelta
          · rcases elAttrs_result as ⟨0, [], []⟩ with ⟨m, he⟩ | ⟨e, he⟩
            · exact .inl ⟨m, by subst h2; simp [rootBody, h1, he]⟩
            · rcases skip_result p 0 with ⟨m, h⟩ | ⟨r, h, hr⟩
              · exact .inl ⟨m, by subst h2; simp [rootBody, h1, he, h]⟩
              · exact k { st with deltas := st.deltas ++ [e] } r (by omega) (by subst h2; simp [rootBody, h1, he, h])
          · rcases skip_result p 0 with ⟨m, h⟩ | ⟨r, h, hr⟩
            · exact .inl ⟨m, by simp [rootBody, h1, h2, h]⟩
            · exact k st r (by omega) (by simp [rootBody, h1, h2, h])
      | stop n => exact .inr ⟨st, p, rfl, by simp⟩
      | chars b => exact k st p (by omega) rfl
      | misc => exact k st p (by omega) rfl

/-! ### Numbers -/

theorem isSpace_iff (c : UInt8) : isSpace c = true ↔ c = 32 ∨ (9 ≤ c ∧ c ≤ 13) := by simp [isSpace]

theorem foldl_place : ∀ (ds : Bytes) (a : Nat), ds.foldl (fun n c => n * 10 + (c.toNat - 48)) a = a * 10 ^ ds.length + place ds := by
  intro ds
  induction ds with
  | nil => intro a; simp [place]
  | cons c ds ih =>
    intro a
    rw [List.foldl_cons, ih, place, List.length_cons, Nat.pow_succ, Nat.add_mul, Nat.mul_assoc, Nat.mul_comm 10]
    omega

theorem digits_iff (ds : Bytes) (k : Nat) : digits ds = some k ↔ ds ≠ [] ∧ (∀ c ∈ ds, 48 ≤ c ∧ c ≤ 57) ∧ k = place ds := by
  unfold digits
  have e : (ds.all (fun c => 48 ≤ c && c ≤ 57) = true) ↔ ∀ c ∈ ds, 48 ≤ c ∧ c ≤ 57 := by simp
  split
  · rename_i h
    rw [foldl_place]
    simp only [Option.some.injEq, Nat.zero_mul, Nat.zero_add]
    constructor
    · rintro rfl; exact ⟨h.1, e.mp h.2, rfl⟩
    · rintro ⟨-, -, rfl⟩; rfl
  · rename_i h
    constructor
    · intro h'; cases h'
    · rintro ⟨h1, h2, -⟩; exact absurd ⟨h1, e.mpr h2⟩ h

theorem trim_split (b : Bytes) : ∃ w w', b = w ++ trim b ++ w' ∧ White w ∧ White w' := by
  have tw : ∀ l : Bytes, White (l.takeWhile isSpace) := by
    intro l c hc
    induction l with
    | nil => simp at hc
    | cons x l ih =>
      by_cases hx : isSpace x = true
      · rw [List.takeWhile_cons_of_pos hx] at hc
        rcases List.mem_cons.mp hc with rfl | hc
        · exact (isSpace_iff c).mp hx
        · exact ih hc
      · rw [List.takeWhile_cons_of_neg hx] at hc; simp at hc
  refine ⟨b.takeWhile isSpace, (((b.dropWhile isSpace).reverse.takeWhile isSpace)).reverse, ?_, tw b, ?_⟩
  · unfold trim
    rw [List.append_assoc, ← List.reverse_append, List.takeWhile_append_dropWhile, List.reverse_reverse, List.takeWhile_append_dropWhile]
  · intro c hc
    exact tw _ c (List.mem_reverse.mp hc)

theorem dropWhile_white : ∀ (w t : Bytes), White w → (∀ c r, t = c :: r → isSpace c = false) → (w ++ t).dropWhile isSpace = t := by
  intro w
  induction w with
  | nil =>
    intro t _ h
    cases t with
    | nil => rfl
    | cons c r => rw [List.nil_append, List.dropWhile_cons_of_neg]; rw [h c r rfl]; simp
  | cons c w ih =>
    intro t hw h
    rw [List.cons_append, List.dropWhile_cons_of_pos ((isSpace_iff c).mpr (hw c List.mem_cons_self))]
    exact ih t (fun c hc => hw c (List.mem_cons_of_mem _ hc)) h

theorem trim_around (w t w' : Bytes) (hw : White w) (hw' : White w') (hne : t ≠ []) (hh : isSpace (t.head hne) = false) (hl : isSpace (t.getLast hne) = false) : trim (w ++ t ++ w') = t := by
  unfold trim
  have e1 : (w ++ t ++ w').dropWhile isSpace = t ++ w' := by
    rw [List.append_assoc]
    apply dropWhile_white _ _ hw
    intro c r h
    cases t with
    | nil => exact absurd rfl hne
    | cons x t => cases h; exact hh
  rw [e1, List.reverse_append]
  have e2 : (w'.reverse ++ t.reverse).dropWhile isSpace = t.reverse := by
    apply dropWhile_white _ _ (fun c hc => hw' c (List.mem_reverse.mp hc))
    intro c r h
    have : c = t.getLast hne := by
      have h1 : t.reverse.head (by simpa using hne) = c := by simp [h]
      rw [← h1, List.head_reverse]
    rw [this]; exact hl
  rw [e2, List.reverse_reverse]

theorem digit_nospace {c : UInt8} (h : 48 ≤ c ∧ c ≤ 57) : isSpace c = false := by
  have h1 : c.toNat ≥ 48 := by simpa using UInt8.le_iff_toNat_le.mp h.1
  unfold isSpace
  simp only [Bool.or_eq_false_iff, decide_eq_false_iff_not, Bool.and_eq_false_iff]
  refine ⟨fun e => by rw [e] at h1; simp at h1, .inr fun e => ?_⟩
  have := UInt8.le_iff_toNat_le.mp e
  simp at this; omega

/-- The value of the number without white space around it. -/
def signedVal : Bytes → Option Int
  | 45 :: t => (digits t).map fun (n : Nat) => -(n : Int)
  | 43 :: t => (digits t).map fun (n : Nat) => (n : Int)
  | t => (digits t).map fun (n : Nat) => (n : Int)

theorem signedVal_iff (t : Bytes) (n : Int) : signedVal t = some n ↔
    ∃ sign ds, t = sign ++ ds ∧ ds ≠ [] ∧ (∀ c ∈ ds, 48 ≤ c ∧ c ≤ 57) ∧ (sign = [45] ∧ n = -(place ds : Int) ∨ (sign = [] ∨ sign = [43]) ∧ n = (place ds : Int)) := by
  constructor
  · intro h
    unfold signedVal at h
    split at h
    · rename_i u
      obtain ⟨k, hk, rfl⟩ := Option.map_eq_some_iff.mp h
      obtain ⟨h1, h2, rfl⟩ := (digits_iff _ _).mp hk
      exact ⟨[45], u, rfl, h1, h2, .inl ⟨rfl, rfl⟩⟩
    · rename_i u
      obtain ⟨k, hk, rfl⟩ := Option.map_eq_some_iff.mp h
      obtain ⟨h1, h2, rfl⟩ := (digits_iff _ _).mp hk
      exact ⟨[43], u, rfl, h1, h2, .inr ⟨.inr rfl, rfl⟩⟩
    · obtain ⟨k, hk, rfl⟩ := Option.map_eq_some_iff.mp h
      obtain ⟨h1, h2, rfl⟩ := (digits_iff _ _).mp hk
      exact ⟨[], t, rfl, h1, h2, .inr ⟨.inl rfl, rfl⟩⟩
  · rintro ⟨sign, ds, rfl, h1, h2, ⟨rfl, rfl⟩ | ⟨rfl | rfl, rfl⟩⟩
    · simp [signedVal, (digits_iff ds _).mpr ⟨h1, h2, rfl⟩]
    · have hd := (digits_iff ds _).mpr ⟨h1, h2, rfl⟩
      cases ds with
      | nil => exact absurd rfl h1
      | cons c ds =>
        have hc := h2 c List.mem_cons_self
        have n45 : c ≠ 45 := by rintro rfl; exact absurd hc.1 (by decide)
        have n43 : c ≠ 43 := by rintro rfl; exact absurd hc.1 (by decide)
        rw [List.nil_append]
        unfold signedVal
        split
        · rename_i h; cases h; exact absurd rfl n45
        · rename_i h; cases h; exact absurd rfl n43
        · rw [hd]; rfl
    · simp [signedVal, (digits_iff ds _).mpr ⟨h1, h2, rfl⟩]

theorem parseInt64_val (b : Bytes) : parseInt64 b = if b = [] then some 0 else (signedVal (trim b)).bind fun n => if -(2 ^ 63) ≤ n ∧ n < 2 ^ 63 then some n else none := rfl

theorem parseInt64_iff (b : Bytes) (n : Int) : parseInt64 b = some n ↔ (b = [] ∧ n = 0) ∨ NumberText b n := by
  rw [parseInt64_val]
  split
  · rename_i h
    subst h
    constructor
    · intro h; exact .inl ⟨rfl, (Option.some.inj h).symm⟩
    · rintro (⟨-, rfl⟩ | ⟨w, sign, ds, w', h, -, -, h1, -⟩)
      · rfl
      · have h := congrArg List.length h
        have := List.length_pos_iff.mpr h1
        simp at h; omega
  · rename_i hb
    rw [Option.bind_eq_some_iff]
    constructor
    · rintro ⟨k, hk, h⟩
      split at h
      · rename_i hr
        obtain rfl := Option.some.inj h
        obtain ⟨sign, ds, ht, h1, h2, h3⟩ := (signedVal_iff _ _).mp hk
        obtain ⟨w, w', hs, hw, hw'⟩ := trim_split b
        exact .inr ⟨w, sign, ds, w', by rw [← ht]; exact hs, hw, hw', h1, h2, h3, hr⟩
      · cases h
    · rintro (⟨h, -⟩ | ⟨w, sign, ds, w', h, hw, hw', h1, h2, h3, hr⟩)
      · exact absurd h hb
      · refine ⟨n, ?_, if_pos hr⟩
        have hne : sign ++ ds ≠ [] := by simp [h1]
        have ht : trim b = sign ++ ds := by
          rw [h]
          apply trim_around w (sign ++ ds) w' hw hw' hne
          · rcases h3 with ⟨rfl, -⟩ | ⟨rfl | rfl, -⟩
            · rfl
            · simp only [List.nil_append]
              exact digit_nospace (h2 _ (List.head_mem _))
            · rfl
          · rw [List.getLast_append_of_ne_nil _ h1]
            exact digit_nospace (h2 _ (List.getLast_mem _))
        rw [ht]
        exact (signedVal_iff _ _).mpr ⟨sign, ds, rfl, h1, h2, h3⟩

/-! ### Runs of the client that get documents without content -/

theorem missing_false {n : Notification} : ∀ (k : Nat) (serial : Int), missingFrom n k serial = false → ∀ j : Nat, j < k → ∃ e, n.delta (serial + j) = some e := by
  intro k
  induction k with
  | zero => intro serial _ j hj; omega
  | succ k ih =>
    intro serial h j hj
    unfold missingFrom at h
    split at h
    · cases h
    · rename_i hs
      cases j with
      | zero =>
        cases hd : n.delta serial with
        | none => rw [hd] at hs; simp at hs
        | some e => exact ⟨e, by simpa using hd⟩
      | succ j =>
        obtain ⟨e, he⟩ := ih (serial + 1) h j (by omega)
        exact ⟨e, by rw [← he]; congr 1; push_cast; omega⟩

theorem deltas_mute {σ : Type} {get : Nat → Bytes → Option Bytes} {scan : Bytes → List Tok} {cb : Callback σ} {s : Sys} {n : Notification}
    (hm : ∀ i u, i ≠ 0 → ∃ d, get i u = some d ∧ Mute (scan d)) : ∀ (k : Nat) (serial : Int) (r : R σ), r.gets ≠ [] → (∀ j : Nat, j < k → ∃ e, n.delta (serial + j) = some e) →
    ∃ r', doDeltas (xmlWorld get scan) cb s n k serial r = .ok (r', true) ∧ r'.calls = r.calls ∧ r'.st = r.st := by
  intro k
  induction k with
  | zero => intro serial r _ _; exact ⟨r, rfl, rfl, rfl⟩
  | succ k ih =>
    intro serial r hg hd
    obtain ⟨e, he⟩ := hd 0 (by omega)
    have he : n.delta serial = some e := by simpa using he
    obtain ⟨d, hd1, hd2⟩ := hm r.gets.length e.uri (by have := List.length_pos_iff.mpr hg; omega)
    have hn : doDelta (xmlWorld get scan) cb s n e r = .ok ({ r with gets := r.gets ++ [e.uri] }, true) := by
      simp [doDelta, download, xmlWorld, hd1, parseNode_mute _ hd2, applyItems]
    obtain ⟨r', h1, h2, h3⟩ := ih (serial + 1) { r with gets := r.gets ++ [e.uri] } (by simp) (by
      intro j hj
      obtain ⟨e', h'⟩ := hd (j + 1) (by omega)
      exact ⟨e', by rw [← h']; congr 1; push_cast; omega⟩)
    exact ⟨r', by simp [doDeltas, he, hn, h1], h2, h3⟩

end Verif.RrdpXml
