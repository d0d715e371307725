import Verif.Lemmas.JsonPrint
/-
  encoding/json accepts exactly the JSON texts, but for strings that are not UTF-8.
-/
set_option autoImplicit false

namespace Verif.Json
open JsonSpec

/-! ### Strings -/

theorem hexVal_digit : ∀ c : UInt8, ∀ n, getu4.hexVal c = some n → n < 16 ∧ (c = (asc "0123456789abcdef".toList).getD n 0 ∨ c = (asc "0123456789ABCDEF".toList).getD n 0) := by
  have key : ∀ k : Fin 256, ∀ n ∈ getu4.hexVal (UInt8.ofNat k.1), n < 16 ∧ (UInt8.ofNat k.1 = (asc "0123456789abcdef".toList).getD n 0 ∨ UInt8.ofNat k.1 = (asc "0123456789ABCDEF".toList).getD n 0) := by
    decide +kernel
  intro c n h
  have := key ⟨c.toNat, c.toNat_lt⟩ n
  simp only [UInt8.ofNat_toNat] at this
  exact this h

theorem isHex_val : ∀ c : UInt8, isHex c = true → ∃ n, getu4.hexVal c = some n := by
  have key : ∀ k : Fin 256, isHex (UInt8.ofNat k.1) = true → (getu4.hexVal (UInt8.ofNat k.1)).isSome = true := by decide +kernel
  intro c h
  have := key ⟨c.toNat, c.toNat_lt⟩
  simp only [UInt8.ofNat_toNat] at this
  exact Option.isSome_iff_exists.mp (this h)

theorem getu4_hex4 {s : Bytes} {n : Nat} (h : getu4 s = some n) : ∃ d t, s = d ++ t ∧ Hex4 n d := by
  match s, h with
  | a :: b :: c :: d :: t, h =>
    unfold getu4 at h
    simp only at h
    cases ha : getu4.hexVal a with
    | none => simp [ha] at h
    | some w =>
      cases hb : getu4.hexVal b with
      | none => simp [ha, hb] at h
      | some x =>
        cases hc : getu4.hexVal c with
        | none => simp [ha, hb, hc] at h
        | some y =>
          cases hd : getu4.hexVal d with
          | none => simp [ha, hb, hc, hd] at h
          | some z =>
            simp only [ha, hb, hc, hd, Option.some.injEq] at h
            refine ⟨[a, b, c, d], t, rfl, (w, a), (x, b), (y, c), (z, d), rfl, h.symm, ?_⟩
            intro p hp
            simp only [List.mem_cons, List.not_mem_nil, or_false] at hp
            rcases hp with rfl | rfl | rfl | rfl
            · exact hexVal_digit _ _ ha
            · exact hexVal_digit _ _ hb
            · exact hexVal_digit _ _ hc
            · exact hexVal_digit _ _ hd
  | [], h => simp [getu4] at h
  | [_], h => simp [getu4] at h
  | [_, _], h => simp [getu4] at h
  | [_, _, _], h => simp [getu4] at h

theorem hex4_lt {n : Nat} {d : Bytes} (h : Hex4 n d) : n < 0x10000 := by
  obtain ⟨a, b, c, e, -, rfl, h⟩ := h
  have ha := (h a (by simp)).1
  have hb := (h b (by simp)).1
  have hc := (h c (by simp)).1
  have he := (h e (by simp)).1
  omega

theorem secondHalf_none {n : Nat} {t : Bytes} (hp : n < 0xdc00 → ¬ ∃ b e t', b < 1024 ∧ Hex4 (0xdc00 + b) e ∧ t = 92 :: 117 :: e ++ t') : secondHalf n t = none := by
  unfold secondHalf
  split
  · rename_i t'
    cases h : getu4 t' with
    | none => rfl
    | some lo =>
      simp only
      split
      · rename_i hl
        exfalso
        obtain ⟨e, u, rfl, he⟩ := getu4_hex4 h
        have e1 : 0xdc00 + (lo - 0xdc00) = lo := by omega
        exact hp hl.1 ⟨lo - 0xdc00, e, u, by omega, by rw [e1]; exact he, rfl⟩
      · rfl
  · rfl

theorem lax_of_chars {s t : Bytes} (h : Chars s t) : LaxChars s t := by
  induction h with
  | nil => exact .nil
  | char n u s t h h1 h2 h3 hs ih => exact .char n u s t h h1 h2 h3 ih
  | short e c s t h hs ih => exact .short e c s t h ih
  | hex n u d s t h hu hs ih => exact .hex n u d s t h hu ih
  | pair a b u d e s t ha hb la lb hu hs ih => exact .pair a b u d e s t ha hb la lb hu ih

theorem not_utf8_high {b : UInt8} {t : Bytes} (h : ¬ ∃ n u, Utf8 n u ∧ u <+: b :: t) : ¬ b < 0x80 ∧ runeLen (b :: t) = none := by
  constructor
  · intro hb
    refine h ⟨b.toNat, [b], ?_, by simp⟩
    have := Utf8.one b.toNat (by have := UInt8.lt_iff_toNat_lt.mp hb; simpa using this)
    rwa [show b.toNat.toUInt8 = b by simp] at this
  · cases hr : runeLen (b :: t) with
    | none => rfl
    | some n =>
      exfalso
      obtain ⟨c, u, t', e, -, hu, -⟩ := runeLen_sound hr
      exact h ⟨c, u, hu, t', e.symm⟩

theorem lax_read {s t : Bytes} (h : LaxChars s t) :
    (∀ stk, run ⟨.inString, stk⟩ t = ⟨.inString, stk⟩) ∧ (∀ r, scanString (t ++ 34 :: r) = some (t, r)) ∧ unquoteLoop 0 t = some s := by
  induction h with
  | nil => exact ⟨fun _ => rfl, fun _ => by simp [scanString], rfl⟩
  | char n u s t h h1 h2 h3 hs ih =>
    have hp := char_plain h h1 h2 h3
    refine ⟨fun stk => ?_, fun r => ?_, ?_⟩
    · rw [run_append, run_plain u hp, ih.1]
    · rw [List.append_assoc, scanString_plain u _ fun c hc => ⟨(hp c hc).1, (hp c hc).2.1⟩, ih.2.1]
      rfl
    · rw [unquote_char h h1 h2 h3, ih.2.2]
      rfl
  | short e c s t h hs ih =>
    have hf := short_facts _ h
    refine ⟨fun stk => ?_, fun r => ?_, ?_⟩
    · simp only [run, List.foldl_cons]
      have a1 : Scan.next ⟨.inString, stk⟩ 92 = ⟨.esc, stk⟩ := rfl
      have a2 : Scan.next ⟨.esc, stk⟩ e = ⟨.inString, stk⟩ := by simp only [Scan.next]; rw [if_pos hf.2.2]
      rw [a1, a2]
      exact ih.1 stk
    · rw [List.cons_append, List.cons_append, scanString, ih.2.1]
      rfl
    · have hq : unquoteUnit 92 (e :: t) = some ([c], 1) := by
        unfold unquoteUnit
        rw [if_pos rfl]
        simp only [if_neg hf.2.1, hf.1]
        rfl
      rw [unquoteLoop, hq]
      simp only
      rw [unquoteLoop, ih.2.2]
      rfl
  | hex n u d s t h hu hs ih =>
    obtain ⟨hr, a, b, c, e, hd, ha, hb, hc, he, hp⟩ := hex4_read h t
    refine ⟨fun stk => ?_, fun r => ?_, ?_⟩
    · rw [hd]
      simp only [run, List.cons_append, List.nil_append, List.foldl_cons]
      have a1 : Scan.next ⟨.inString, stk⟩ 92 = ⟨.esc, stk⟩ := rfl
      have a2 : Scan.next ⟨.esc, stk⟩ 117 = ⟨.escU 3, stk⟩ := rfl
      rw [a1, a2]
      simp only [Scan.next, ha, hb, hc, he, if_true]
      exact ih.1 stk
    · rw [List.append_assoc, List.cons_append, List.cons_append, scanString, scanString_plain d _ hp, ih.2.1]
      rfl
    · have hns : ¬ (0xd800 ≤ n ∧ n < 0xe000) := by
        cases hu with
        | one h => omega
        | two h => omega
        | three h hs => unfold Scalar at hs; omega
        | four h => omega
      have hq : unquoteUnit 92 (117 :: (d ++ t)) = some (u, 5) := by
        unfold unquoteUnit
        rw [if_pos rfl]
        simp only [if_true, hr]
        rw [if_neg hns, encodeRune_utf8 hu]
      rw [List.cons_append, List.cons_append, unquoteLoop, hq]
      have : unquoteLoop 5 (117 :: (d ++ t)) = unquoteLoop 0 t := by
        rw [← List.cons_append]
        exact unquoteLoop_skip' t (by rw [hd]; rfl)
      simp only [this, ih.2.2]
      rfl
  | pair a b u d e s t ha hb la lb hu hs ih =>
    obtain ⟨hr, a1, a2, a3, a4, hd, i1, i2, i3, i4, hp⟩ := hex4_read ha (92 :: 117 :: e ++ t)
    obtain ⟨hr', b1, b2, b3, b4, hd', j1, j2, j3, j4, hp'⟩ := hex4_read hb t
    refine ⟨fun stk => ?_, fun r => ?_, ?_⟩
    · rw [hd, hd']
      simp only [run, List.cons_append, List.nil_append, List.foldl_cons]
      have c1 : Scan.next ⟨.inString, stk⟩ 92 = ⟨.esc, stk⟩ := rfl
      have c2 : Scan.next ⟨.esc, stk⟩ 117 = ⟨.escU 3, stk⟩ := rfl
      rw [c1, c2]
      simp only [Scan.next, i1, i2, i3, i4, j1, j2, j3, j4, if_true]
      exact ih.1 stk
    · have e1 : 92 :: 117 :: d ++ 92 :: 117 :: e ++ t ++ 34 :: r = 92 :: 117 :: (d ++ (92 :: 117 :: (e ++ (t ++ 34 :: r)))) := by simp
      rw [e1, scanString, scanString_plain d _ hp, scanString, scanString_plain e _ hp', ih.2.1]
      simp
    · have e1 : 92 :: 117 :: d ++ 92 :: 117 :: e ++ t = 92 :: 117 :: (d ++ (92 :: 117 :: e ++ t)) := by simp
      have hdrop : (d ++ (92 :: 117 :: e ++ t)).drop 4 = 92 :: 117 :: (e ++ t) := by rw [hd]; rfl
      have hsec : secondHalf (0xd800 + a) (92 :: 117 :: (e ++ t)) = some (0x10000 + 1024 * a + b) := by
        simp only [secondHalf, hr']
        rw [if_pos (by omega), Option.some.injEq]
        omega
      have hq : unquoteUnit 92 (117 :: (d ++ (92 :: 117 :: e ++ t))) = some (u, 11) := by
        unfold unquoteUnit
        rw [if_pos rfl]
        simp only [if_true, hr]
        rw [if_pos (by omega), hdrop, hsec]
        simp only [encodeRune_utf8 hu]
      rw [e1, unquoteLoop, hq]
      have : unquoteLoop 11 (117 :: (d ++ (92 :: 117 :: e ++ t))) = unquoteLoop 0 t := by
        rw [show 117 :: (d ++ (92 :: 117 :: e ++ t)) = (117 :: d ++ 92 :: 117 :: e) ++ t by simp]
        exact unquoteLoop_skip' t (by rw [hd, hd']; rfl)
      simp only [this, ih.2.2]
      rfl
  | bad b s t h hs ih =>
    obtain ⟨hb, hr⟩ := not_utf8_high h
    have h1 : b ≠ 34 := by rintro rfl; exact hb (by decide)
    have h2 : b ≠ 92 := by rintro rfl; exact hb (by decide)
    have h3 : ¬ b < 0x20 := by
      intro h3
      apply hb
      rw [UInt8.lt_iff_toNat_lt] at h3 ⊢
      have e1 : (0x20 : UInt8).toNat = 32 := rfl
      have e2 : (0x80 : UInt8).toNat = 128 := rfl
      omega
    have hp : ∀ c ∈ [b], c ≠ 34 ∧ c ≠ 92 ∧ 0x20 ≤ c := by
      intro c hc
      rw [List.mem_singleton.mp hc]
      exact ⟨h1, h2, UInt8.not_lt.mp h3⟩
    refine ⟨fun stk => ?_, fun r => ?_, ?_⟩
    · rw [show b :: t = [b] ++ t from rfl, run_append, run_plain [b] hp, ih.1]
    · rw [show b :: t ++ 34 :: r = [b] ++ (t ++ 34 :: r) from rfl, scanString_plain [b] _ fun c hc => ⟨(hp c hc).1, (hp c hc).2.1⟩, ih.2.1]
      rfl
    · have hq : unquoteUnit b t = some (replacement, 0) := by
        unfold unquoteUnit
        rw [if_neg h2, if_neg (by rintro (h | h); exacts [h1 h, h3 h]), if_neg hb, hr]
      rw [unquoteLoop, hq]
      simp only [ih.2.2]
      rfl
  | lone n d s t h hn hp0 hs ih =>
    obtain ⟨hr, a, b, c, e, hd, ha, hb, hc, he, hp⟩ := hex4_read h t
    refine ⟨fun stk => ?_, fun r => ?_, ?_⟩
    · rw [hd]
      simp only [run, List.cons_append, List.nil_append, List.foldl_cons]
      have a1 : Scan.next ⟨.inString, stk⟩ 92 = ⟨.esc, stk⟩ := rfl
      have a2 : Scan.next ⟨.esc, stk⟩ 117 = ⟨.escU 3, stk⟩ := rfl
      rw [a1, a2]
      simp only [Scan.next, ha, hb, hc, he, if_true]
      exact ih.1 stk
    · rw [List.append_assoc, List.cons_append, List.cons_append, scanString, scanString_plain d _ hp, ih.2.1]
      rfl
    · have hdrop : (d ++ t).drop 4 = t := by rw [hd]; rfl
      have hq : unquoteUnit 92 (117 :: (d ++ t)) = some (replacement, 5) := by
        unfold unquoteUnit
        rw [if_pos rfl]
        simp only [if_true, hr]
        rw [if_pos hn, hdrop, secondHalf_none hp0]
      rw [List.cons_append, List.cons_append, unquoteLoop, hq]
      have : unquoteLoop 5 (117 :: (d ++ t)) = unquoteLoop 0 t := by
        rw [← List.cons_append]
        exact unquoteLoop_skip' t (by rw [hd]; rfl)
      simp only [this, ih.2.2]
      rfl

instance : Readable LaxChars := ⟨lax_read⟩

/-! ### Texts that the scanner accepts -/

/-- The scanner accepts the rest of the text. -/
def Acc (s : Scan) (t : Bytes) : Prop := (run s t).eof = true

theorem acc_cons (s : Scan) (c : UInt8) (t : Bytes) : Acc s (c :: t) ↔ Acc (s.next c) t := Iff.rfl

theorem acc_error {stk : List Open} {t : Bytes} : ¬ Acc ⟨.error, stk⟩ t := by
  unfold Acc
  rw [run_error]
  simp [Scan.eof]

/-- What is between quotation marks for the scanner. -/
inductive RawStr : Bytes → Prop where
  | nil : RawStr []
  | plain (c : UInt8) (t : Bytes) (h1 : c ≠ 34) (h2 : c ≠ 92) (h3 : ¬ c < 0x20) (ht : RawStr t) : RawStr (c :: t)
  | short (e : UInt8) (t : Bytes) (h : e ∈ ([98, 102, 110, 114, 116, 92, 47, 34] : List UInt8)) (ht : RawStr t) : RawStr (92 :: e :: t)
  | hex (a b c d : UInt8) (t : Bytes) (h : isHex a = true ∧ isHex b = true ∧ isHex c = true ∧ isHex d = true) (ht : RawStr t) : RawStr (92 :: 117 :: a :: b :: c :: d :: t)

theorem acc_escU {stk : List Open} : ∀ (n : Nat) (t : Bytes), Acc ⟨.escU n, stk⟩ t → ∃ d r, t = d ++ r ∧ d.length = n + 1 ∧ (∀ c ∈ d, isHex c = true) ∧ Acc ⟨.inString, stk⟩ r := by
  intro n
  induction n with
  | zero =>
    intro t h
    cases t with
    | nil => revert h; unfold Acc; simp [Scan.eof, Scan.next, isHex, isDigit]
    | cons c t =>
      rw [acc_cons] at h
      by_cases hc : isHex c = true
      · simp only [Scan.next, hc, if_true] at h
        exact ⟨[c], t, rfl, rfl, by simpa using hc, h⟩
      · simp only [Scan.next, if_neg hc] at h
        exact absurd h acc_error
  | succ n ih =>
    intro t h
    cases t with
    | nil => revert h; unfold Acc; simp [Scan.eof, Scan.next, isHex, isDigit]
    | cons c t =>
      rw [acc_cons] at h
      by_cases hc : isHex c = true
      · simp only [Scan.next, hc, if_true, Nat.add_eq_zero_iff, Nat.one_ne_zero, and_false, if_false, Nat.add_sub_cancel] at h
        obtain ⟨d, r, rfl, hd, hx, hr⟩ := ih t h
        exact ⟨c :: d, r, rfl, by simp [hd], by simpa [hc] using hx, hr⟩
      · simp only [Scan.next, if_neg hc] at h
        exact absurd h acc_error

theorem acc_string {stk : List Open} : ∀ (n : Nat) (t : Bytes), t.length ≤ n → Acc ⟨.inString, stk⟩ t → ∃ q r, t = q ++ 34 :: r ∧ RawStr q ∧ Acc ⟨.endValue, stk⟩ r := by
  intro n
  induction n with
  | zero =>
    intro t hl h
    have : t = [] := List.length_eq_zero_iff.mp (by omega)
    subst this
    revert h; unfold Acc; simp [Scan.eof, Scan.next]
  | succ n ih =>
    intro t hl h
    cases t with
    | nil => revert h; unfold Acc; simp [Scan.eof, Scan.next]
    | cons c t =>
      rw [acc_cons] at h
      simp only [List.length_cons] at hl
      by_cases h1 : c = 34
      · subst h1
        exact ⟨[], t, rfl, .nil, h⟩
      · by_cases h2 : c = 92
        · subst h2
          have h : Acc ⟨.esc, stk⟩ t := h
          cases t with
          | nil => revert h; unfold Acc; simp [Scan.eof, Scan.next]
          | cons e t =>
            rw [acc_cons] at h
            simp only [List.length_cons] at hl
            by_cases he : e ∈ ([98, 102, 110, 114, 116, 92, 47, 34] : List UInt8)
            · simp only [Scan.next] at h
              rw [if_pos he] at h
              obtain ⟨q, r, rfl, hq, hr⟩ := ih t (by omega) h
              exact ⟨92 :: e :: q, r, rfl, .short e q he hq, hr⟩
            · simp only [Scan.next] at h
              rw [if_neg he] at h
              by_cases hu : e = 117
              · rw [if_pos hu] at h
                obtain ⟨d, r, rfl, hd, hx, hr⟩ := acc_escU 3 t h
                obtain ⟨q, r', rfl, hq, hr'⟩ := ih r (by simp only [List.length_append] at hl; omega) hr
                match d, hd, hx with
                | [a, b, c, d], _, hx =>
                  simp only [List.mem_cons, List.not_mem_nil, or_false, forall_eq_or_imp, forall_eq] at hx
                  exact ⟨92 :: 117 :: a :: b :: c :: d :: q, r', by rw [hu]; rfl, .hex a b c d q hx hq, hr'⟩
              · rw [if_neg hu] at h
                exact absurd h acc_error
        · by_cases h3 : c < 0x20
          · simp only [Scan.next, if_neg h1, if_neg h2, if_pos h3] at h
            exact absurd h acc_error
          · simp only [Scan.next, if_neg h1, if_neg h2, if_neg h3] at h
            obtain ⟨q, r, rfl, hq, hr⟩ := ih t (by omega) h
            exact ⟨c :: q, r, rfl, .plain c q h1 h2 h3 hq, hr⟩

theorem rawStr_high : ∀ (u t : Bytes), (∀ c ∈ u, 0x80 ≤ c) → RawStr (u ++ t) → RawStr t := by
  intro u
  induction u with
  | nil => intro t _ h; exact h
  | cons c u ih =>
    intro t hu h
    have hc : 0x80 ≤ c := hu c List.mem_cons_self
    have h92 : c ≠ 92 := by rintro rfl; revert hc; decide
    apply ih t (fun x hx => hu x (List.mem_cons_of_mem _ hx))
    rw [List.cons_append] at h
    generalize hz : u ++ t = z at h
    cases h with
    | plain _ _ _ _ _ ht => exact ht
    | short => exact absurd rfl h92
    | hex => exact absurd rfl h92

theorem hexFour {a b c d : UInt8} (h : isHex a = true ∧ isHex b = true ∧ isHex c = true ∧ isHex d = true) : ∃ n, Hex4 n [a, b, c, d] := by
  obtain ⟨w, hw⟩ := isHex_val a h.1
  obtain ⟨x, hx⟩ := isHex_val b h.2.1
  obtain ⟨y, hy⟩ := isHex_val c h.2.2.1
  obtain ⟨z, hz⟩ := isHex_val d h.2.2.2
  refine ⟨_, (w, a), (x, b), (y, c), (z, d), rfl, rfl, ?_⟩
  intro p hp
  simp only [List.mem_cons, List.not_mem_nil, or_false] at hp
  rcases hp with rfl | rfl | rfl | rfl
  · exact hexVal_digit _ _ hw
  · exact hexVal_digit _ _ hx
  · exact hexVal_digit _ _ hy
  · exact hexVal_digit _ _ hz

theorem utf8_exists {n : Nat} (h : Scalar n) : ∃ u, Utf8 n u := by
  unfold Scalar at h
  by_cases h1 : n < 0x80
  · exact ⟨_, .one n h1⟩
  · by_cases h2 : n < 0x800
    · exact ⟨_, .two n ⟨by omega, h2⟩⟩
    · by_cases h3 : n < 0x10000
      · exact ⟨_, .three n ⟨by omega, h3⟩ (by unfold Scalar; exact h)⟩
      · exact ⟨_, .four n ⟨by omega, by omega⟩⟩

theorem short_exists : ∀ e ∈ ([98, 102, 110, 114, 116, 92, 47, 34] : List UInt8), ∃ c, (e, c) ∈ shortEscapes := by
  intro e he
  simp only [List.mem_cons, List.not_mem_nil, or_false] at he
  rcases he with rfl | rfl | rfl | rfl | rfl | rfl | rfl | rfl
  · exact ⟨8, by decide⟩
  · exact ⟨12, by decide⟩
  · exact ⟨10, by decide⟩
  · exact ⟨13, by decide⟩
  · exact ⟨9, by decide⟩
  · exact ⟨92, by decide⟩
  · exact ⟨47, by decide⟩
  · exact ⟨34, by decide⟩

theorem rawStr_lax : ∀ (n : Nat) (q : Bytes), q.length ≤ n → RawStr q → ∃ s, LaxChars s q := by
  intro n
  induction n with
  | zero =>
    intro q hl _
    have : q = [] := List.length_eq_zero_iff.mp (by omega)
    subst this
    exact ⟨[], .nil⟩
  | succ n ih =>
    intro q hl h
    cases h with
    | nil => exact ⟨[], .nil⟩
    | plain c t h1 h2 h3 ht =>
      simp only [List.length_cons] at hl
      by_cases hb : c < 0x80
      · obtain ⟨s, hs⟩ := ih t (by omega) ht
        have hn := UInt8.lt_iff_toNat_lt.mp hb
        have hu := Utf8.one c.toNat (by simpa using hn)
        rw [show c.toNat.toUInt8 = c by simp] at hu
        refine ⟨[c] ++ s, LaxChars.char c.toNat [c] s t hu ?_ ?_ ?_ hs⟩
        · rw [UInt8.lt_iff_toNat_lt] at h3
          have e1 : (0x20 : UInt8).toNat = 32 := rfl
          omega
        · intro h; exact h1 (UInt8.toNat_inj.mp (by rw [h]; rfl))
        · intro h; exact h2 (UInt8.toNat_inj.mp (by rw [h]; rfl))
      · by_cases hu : ∃ n u, Utf8 n u ∧ u <+: c :: t
        · obtain ⟨m, u, hu, t', e⟩ := hu
          have hm : 0x80 ≤ m := by
            by_contra hlt
            obtain ⟨rfl, hm⟩ := utf8_ascii hu (by omega)
            have := (List.cons.inj e).1
            rw [← this, UInt8.lt_iff_toNat_lt, hm] at hb
            have e2 : (0x80 : UInt8).toNat = 128 := rfl
            omega
          obtain ⟨b, v, hbv, -, hall, -⟩ := utf8_multi hu hm t'
          have hr : RawStr t' := rawStr_high u t' hall (by rw [e]; exact .plain c t h1 h2 h3 ht)
          have hlen : t'.length ≤ n := by
            have := congrArg List.length e
            rw [List.length_append, hbv] at this
            simp only [List.length_cons] at this
            omega
          obtain ⟨s, hs⟩ := ih t' hlen hr
          exact ⟨u ++ s, e ▸ .char m u s t' hu (by omega) (by omega) (by omega) hs⟩
        · obtain ⟨s, hs⟩ := ih t (by omega) ht
          exact ⟨_, .bad c s t hu hs⟩
    | short e t he ht =>
      simp only [List.length_cons] at hl
      obtain ⟨s, hs⟩ := ih t (by omega) ht
      obtain ⟨c, hc⟩ := short_exists e he
      exact ⟨_, .short e c s t hc hs⟩
    | hex a b c d t h ht =>
      simp only [List.length_cons] at hl
      obtain ⟨m, hm⟩ := hexFour h
      by_cases hsur : 0xd800 ≤ m ∧ m < 0xe000
      · by_cases hp : m < 0xdc00 ∧ ∃ b e t', b < 1024 ∧ Hex4 (0xdc00 + b) e ∧ t = 92 :: 117 :: e ++ t'
        · obtain ⟨hlt, b', e, t', hb', he, rfl⟩ := hp
          have ht' : RawStr t' := by
            obtain ⟨-, x1, x2, x3, x4, rfl, -⟩ := hex4_read he t'
            cases ht with
            | plain _ _ _ h2 => exact absurd rfl h2
            | short e t he => simp at he
            | hex _ _ _ _ _ _ h => exact h
          obtain ⟨s, hs⟩ := ih t' (by simp only [List.length_append, List.length_cons] at hl; omega) ht'
          obtain ⟨u, hu⟩ := utf8_exists (n := 0x10000 + 1024 * (m - 0xd800) + b') (by unfold Scalar; omega)
          have e1 : 0xd800 + (m - 0xd800) = m := by omega
          exact ⟨u ++ s, LaxChars.pair (m - 0xd800) b' u [a, b, c, d] e s t' (by rw [e1]; exact hm) he (by omega) hb' hu hs⟩
        · obtain ⟨s, hs⟩ := ih t (by omega) ht
          exact ⟨_, LaxChars.lone m [a, b, c, d] s t hm hsur (fun h1 h2 => hp ⟨h1, h2⟩) hs⟩
      · obtain ⟨s, hs⟩ := ih t (by omega) ht
        obtain ⟨u, hu⟩ := utf8_exists (n := m) (by have := hex4_lt hm; unfold Scalar; omega)
        exact ⟨_, LaxChars.hex m u [a, b, c, d] s t hm hu hs⟩

theorem acc_str {stk : List Open} {t : Bytes} (h : Acc ⟨.inString, stk⟩ t) : ∃ s q r, t = q ++ 34 :: r ∧ LaxChars s q ∧ Acc ⟨.endValue, stk⟩ r := by
  obtain ⟨q, r, e, hq, hr⟩ := acc_string _ t (Nat.le_refl _) h
  obtain ⟨s, hs⟩ := rawStr_lax _ q (Nat.le_refl _) hq
  exact ⟨s, q, r, e, hs, hr⟩

/-! ### White space -/

theorem isSpace_ws : ∀ c : UInt8, isSpace c = true → c = 32 ∨ c = 9 ∨ c = 10 ∨ c = 13 := by
  have key : ∀ k : Fin 256, isSpace (UInt8.ofNat k.1) = true → UInt8.ofNat k.1 = 32 ∨ UInt8.ofNat k.1 = 9 ∨ UInt8.ofNat k.1 = 10 ∨ UInt8.ofNat k.1 = 13 := by decide +kernel
  intro c h
  have := key ⟨c.toNat, c.toNat_lt⟩
  simp only [UInt8.ofNat_toNat] at this
  exact this h

theorem ws_cons {c : UInt8} {w : Bytes} (hc : isSpace c = true) (hw : Ws w) : Ws (c :: w) := by
  intro x hx
  rcases List.mem_cons.mp hx with rfl | hx
  · have := isSpace_ws x hc
    simpa using this
  · exact hw x hx

theorem acc_ws {st : Step} {stk : List Open} (hst : ∀ c, isSpace c = true → Scan.next ⟨st, stk⟩ c = ⟨st, stk⟩) :
    ∀ t : Bytes, Acc ⟨st, stk⟩ t → ∃ w r, t = w ++ r ∧ Ws w ∧ Acc ⟨st, stk⟩ r ∧ ∀ c ∈ r.head?, isSpace c = false := by
  intro t
  induction t with
  | nil => intro h; exact ⟨[], [], rfl, ws_nil, h, by simp⟩
  | cons c t ih =>
    intro h
    by_cases hc : isSpace c = true
    · rw [acc_cons, hst c hc] at h
      obtain ⟨w, r, rfl, hw, hr, hh⟩ := ih h
      exact ⟨c :: w, r, rfl, ws_cons hc hw, hr, hh⟩
    · exact ⟨[], c :: t, rfl, ws_nil, h, by simpa using hc⟩

/-! ### Numbers and literals -/

/-- Digits, perhaps none. -/
def Digits0 (t : Bytes) : Prop := ∀ c ∈ t, 48 ≤ c ∧ c ≤ 57

/-- The last part of a number, perhaps absent. -/
def ExpPart (exp : Bytes) : Prop := exp = [] ∨ ∃ l s d, exp = l :: s ++ d ∧ (l = 101 ∨ l = 69) ∧ (s = [] ∨ s = [43] ∨ s = [45]) ∧ Digits d

/-- The part of a number behind the point, perhaps absent. -/
def FracPart (frac : Bytes) : Prop := frac = [] ∨ ∃ d, frac = 46 :: d ∧ Digits d

theorem digit_range {c : UInt8} (h : isDigit c = true) : 48 ≤ c ∧ c ≤ 57 := by
  simpa [isDigit] using h

theorem digits_cons {c : UInt8} {d : Bytes} (h : isDigit c = true) (hd : Digits0 d) : Digits (c :: d) := by
  refine ⟨by simp, fun x hx => ?_⟩
  rcases List.mem_cons.mp hx with rfl | hx
  · exact digit_range h
  · exact hd x hx

theorem acc_digits {st : Step} {stk : List Open} (hst : ∀ c, isDigit c = true → Scan.next ⟨st, stk⟩ c = ⟨st, stk⟩) :
    ∀ t : Bytes, Acc ⟨st, stk⟩ t → ∃ d r, t = d ++ r ∧ Digits0 d ∧ Acc ⟨st, stk⟩ r ∧ ∀ c ∈ r.head?, isDigit c = false := by
  intro t
  induction t with
  | nil => intro h; exact ⟨[], [], rfl, by simp [Digits0], h, by simp⟩
  | cons c t ih =>
    intro h
    by_cases hc : isDigit c = true
    · rw [acc_cons, hst c hc] at h
      obtain ⟨d, r, rfl, hd, hr, hh⟩ := ih h
      exact ⟨c :: d, r, rfl, (digits_cons hc hd).2, hr, hh⟩
    · exact ⟨[], c :: t, rfl, by simp [Digits0], h, by simpa using hc⟩

/-- A state that treats the end and the next octet as the end of a value does. -/
theorem acc_like {st : Step} {stk : List Open} {r : Bytes} (h1 : st ≠ .error) (h2 : st ≠ .endTop) (h3 : Scan.next ⟨st, stk⟩ 32 = stepEndValue stk 32)
    (h4 : ∀ c ∈ r.head?, Scan.next ⟨st, stk⟩ c = stepEndValue stk c) (h : Acc ⟨st, stk⟩ r) : Acc ⟨.endValue, stk⟩ r := by
  cases r with
  | nil =>
    unfold Acc at h ⊢
    simp only [run, List.foldl_nil, Scan.eof, if_neg h1, if_neg h2, h3] at h
    have h := of_decide_eq_true h
    simp only [run, List.foldl_nil, Scan.eof, Scan.next]
    simp [h]
  | cons c r =>
    rw [acc_cons] at h ⊢
    rw [h4 c (by simp)] at h
    exact h

theorem acc_e0 {stk : List Open} {t : Bytes} (h : Acc ⟨.e0, stk⟩ t) : ∃ d r, t = d ++ r ∧ Digits0 d ∧ Acc ⟨.endValue, stk⟩ r := by
  obtain ⟨d, r, e, hd, hr, hh⟩ := acc_digits (fun c hc => by simp only [Scan.next, hc, if_true]) t h
  refine ⟨d, r, e, hd, acc_like (by simp) (by simp) (by simp [Scan.next, isDigit]) (fun c hc => ?_) hr⟩
  simp [Scan.next, hh c hc]

theorem acc_eSign {stk : List Open} {c : UInt8} {t : Bytes} (h : Acc (stepESign stk c) t) : ∃ d r, c :: t = d ++ r ∧ Digits d ∧ Acc ⟨.endValue, stk⟩ r := by
  unfold stepESign at h
  by_cases hc : isDigit c = true
  · rw [if_pos hc] at h
    obtain ⟨d, r, rfl, hd, hr⟩ := acc_e0 h
    exact ⟨c :: d, r, rfl, digits_cons hc hd, hr⟩
  · rw [if_neg hc] at h
    exact absurd h acc_error

theorem acc_e {stk : List Open} {t : Bytes} (h : Acc ⟨.e, stk⟩ t) :
    ∃ s d r, t = s ++ d ++ r ∧ (s = [] ∨ s = [43] ∨ s = [45]) ∧ Digits d ∧ Acc ⟨.endValue, stk⟩ r := by
  cases t with
  | nil => revert h; unfold Acc; simp [run, Scan.eof, Scan.next, stepESign, isDigit]
  | cons c t =>
    rw [acc_cons] at h
    simp only [Scan.next] at h
    by_cases hc : c = 43 ∨ c = 45
    · rw [if_pos hc] at h
      cases t with
      | nil => revert h; unfold Acc; simp [run, Scan.eof, Scan.next, stepESign, isDigit]
      | cons c' t =>
        obtain ⟨d, r, e, hd, hr⟩ := acc_eSign (c := c') (t := t) h
        refine ⟨[c], d, r, by rw [e]; simp, ?_, hd, hr⟩
        rcases hc with rfl | rfl <;> simp
    · rw [if_neg hc] at h
      obtain ⟨d, r, e, hd, hr⟩ := acc_eSign h
      exact ⟨[], d, r, by rw [e]; simp, .inl rfl, hd, hr⟩

theorem acc_dot0 {stk : List Open} {t : Bytes} (h : Acc ⟨.dot0, stk⟩ t) :
    ∃ d exp r, t = d ++ exp ++ r ∧ Digits0 d ∧ ExpPart exp ∧ Acc ⟨.endValue, stk⟩ r := by
  obtain ⟨d, r, e, hd, hr, hh⟩ := acc_digits (fun c hc => by simp only [Scan.next, hc, if_true]) t h
  by_cases hx : ∃ l r', r = l :: r' ∧ (l = 101 ∨ l = 69)
  · obtain ⟨l, r', rfl, hl⟩ := hx
    rw [acc_cons] at hr
    have hl' := hh l (by simp)
    simp only [Scan.next, hl', if_pos hl] at hr
    obtain ⟨s, d', r'', rfl, hs, hd', hr''⟩ := acc_e hr
    exact ⟨d, l :: s ++ d', r'', by rw [e]; simp, hd, .inr ⟨l, s, d', rfl, hl, hs, hd'⟩, hr''⟩
  · refine ⟨d, [], r, by rw [e]; simp, hd, .inl rfl, acc_like (by simp) (by simp) (by simp [Scan.next, isDigit]) (fun c hc => ?_) hr⟩
    have hne : ¬ (c = 101 ∨ c = 69) := fun hl => by
      cases r with
      | nil => simp at hc
      | cons a r => simp only [List.head?_cons, Option.mem_def, Option.some.injEq] at hc; exact hx ⟨a, r, rfl, hc ▸ hl⟩
    simp only [Scan.next, hh c hc, if_neg hne]
    simp

theorem acc_dot {stk : List Open} {t : Bytes} (h : Acc ⟨.dot, stk⟩ t) :
    ∃ d exp r, t = d ++ exp ++ r ∧ Digits d ∧ ExpPart exp ∧ Acc ⟨.endValue, stk⟩ r := by
  cases t with
  | nil => revert h; unfold Acc; simp [run, Scan.eof, Scan.next, isDigit]
  | cons c t =>
    rw [acc_cons] at h
    simp only [Scan.next] at h
    by_cases hc : isDigit c = true
    · rw [if_pos hc] at h
      obtain ⟨d, exp, r, rfl, hd, hx, hr⟩ := acc_dot0 h
      exact ⟨c :: d, exp, r, rfl, digits_cons hc hd, hx, hr⟩
    · rw [if_neg hc] at h
      exact absurd h acc_error

/-- Behind the digits in front of the point. -/
theorem acc_tail {st : Step} {stk : List Open} {t : Bytes} (h1 : st ≠ .error) (h2 : st ≠ .endTop) (h3 : Scan.next ⟨st, stk⟩ 32 = stepZero stk 32)
    (h4 : ∀ c ∈ t.head?, Scan.next ⟨st, stk⟩ c = stepZero stk c) (h : Acc ⟨st, stk⟩ t) :
    ∃ frac exp r, t = frac ++ exp ++ r ∧ FracPart frac ∧ ExpPart exp ∧ Acc ⟨.endValue, stk⟩ r := by
  by_cases hx : ∃ l r, t = l :: r ∧ (l = 46 ∨ l = 101 ∨ l = 69)
  · obtain ⟨l, t, rfl, hl⟩ := hx
    rw [acc_cons, h4 l (by simp)] at h
    unfold stepZero at h
    by_cases hd : l = 46
    · rw [if_pos hd] at h
      obtain ⟨d, exp, r, rfl, hd', hx, hr⟩ := acc_dot h
      exact ⟨46 :: d, exp, r, by rw [hd]; rfl, .inr ⟨d, rfl, hd'⟩, hx, hr⟩
    · have hl : l = 101 ∨ l = 69 := by rcases hl with h | h; exacts [absurd h hd, h]
      rw [if_neg hd, if_pos hl] at h
      obtain ⟨s, d', r, rfl, hs, hd', hr⟩ := acc_e h
      exact ⟨[], l :: s ++ d', r, by simp, .inl rfl, .inr ⟨l, s, d', rfl, hl, hs, hd'⟩, hr⟩
  · refine ⟨[], [], t, rfl, .inl rfl, .inl rfl, acc_like h1 h2 (by rw [h3]; rfl) (fun c hc => ?_) h⟩
    have hne : ¬ (c = 46 ∨ c = 101 ∨ c = 69) := fun hl => by
      cases t with
      | nil => simp at hc
      | cons a r => simp only [List.head?_cons, Option.mem_def, Option.some.injEq] at hc; exact hx ⟨a, r, rfl, hc ▸ hl⟩
    rw [h4 c hc]
    unfold stepZero
    rw [if_neg (fun h => hne (.inl h)), if_neg (fun h => hne (.inr h))]

theorem acc_zero {stk : List Open} {t : Bytes} (h : Acc ⟨.zero, stk⟩ t) :
    ∃ frac exp r, t = frac ++ exp ++ r ∧ FracPart frac ∧ ExpPart exp ∧ Acc ⟨.endValue, stk⟩ r :=
  acc_tail (by simp) (by simp) rfl (fun _ _ => rfl) h

theorem acc_one {stk : List Open} {t : Bytes} (h : Acc ⟨.one, stk⟩ t) :
    ∃ d frac exp r, t = d ++ frac ++ exp ++ r ∧ Digits0 d ∧ FracPart frac ∧ ExpPart exp ∧ Acc ⟨.endValue, stk⟩ r := by
  obtain ⟨d, r, e, hd, hr, hh⟩ := acc_digits (fun c hc => by simp only [Scan.next, hc, if_true]) t h
  obtain ⟨frac, exp, r', rfl, hf, hx, hr'⟩ := acc_tail (by simp) (by simp) (by simp [Scan.next, isDigit]) (fun c hc => by simp [Scan.next, hh c hc]) hr
  exact ⟨d, frac, exp, r', by rw [e]; simp, hd, hf, hx, hr'⟩

theorem nonzero_digit {c : UInt8} (h : (49 ≤ c && c ≤ 57) = true) : isDigit c = true ∧ c ≠ 48 := by
  simp only [Bool.and_eq_true, decide_eq_true_eq] at h
  refine ⟨?_, ?_⟩
  · simp only [isDigit, Bool.and_eq_true, decide_eq_true_eq]
    refine ⟨?_, h.2⟩
    have := h.1
    rw [UInt8.le_iff_toNat_le] at this ⊢
    have e1 : (49 : UInt8).toNat = 49 := rfl
    have e2 : (48 : UInt8).toNat = 48 := rfl
    omega
  · rintro rfl
    exact absurd h.1 (by decide)

/-- A number, from its digits in front of the point on. -/
theorem acc_int {stk : List Open} {c : UInt8} {t : Bytes} (sign : Bytes) (hs : sign = [] ∨ sign = [45])
    (h : (c = 48 ∧ Acc ⟨.zero, stk⟩ t) ∨ ((49 ≤ c && c ≤ 57) = true ∧ Acc ⟨.one, stk⟩ t)) :
    ∃ b r, sign ++ c :: t = b ++ r ∧ Number b ∧ Acc ⟨.endValue, stk⟩ r := by
  rcases h with ⟨rfl, h⟩ | ⟨hc, h⟩
  · obtain ⟨frac, exp, r, rfl, hf, hx, hr⟩ := acc_zero h
    exact ⟨sign ++ [48] ++ frac ++ exp, r, by simp, ⟨sign, [48], frac, exp, rfl, hs, .inl rfl, hf, hx⟩, hr⟩
  · obtain ⟨d, frac, exp, r, rfl, hd, hf, hx, hr⟩ := acc_one h
    obtain ⟨h1, h2⟩ := nonzero_digit hc
    exact ⟨sign ++ (c :: d) ++ frac ++ exp, r, by simp, ⟨sign, c :: d, frac, exp, rfl, hs, .inr ⟨digits_cons h1 hd, by simpa using h2⟩, hf, hx⟩, hr⟩

theorem acc_lit {stk : List Open} : ∀ (l t : Bytes), l ≠ [] → Acc ⟨.lit l, stk⟩ t → ∃ r, t = l ++ r ∧ Acc ⟨.endValue, stk⟩ r := by
  intro l
  induction l with
  | nil => intro t h; exact absurd rfl h
  | cons a l ih =>
    intro t _ h
    cases t with
    | nil =>
      exfalso
      revert h
      unfold Acc
      cases l <;> by_cases ha : (32 : UInt8) = a <;> simp [run, Scan.eof, Scan.next, ha]
    | cons c t =>
      rw [acc_cons] at h
      cases l with
      | nil =>
        simp only [Scan.next] at h
        by_cases hc : c = a
        · rw [if_pos hc] at h
          exact ⟨t, by rw [hc]; rfl, h⟩
        · rw [if_neg hc] at h
          exact absurd h acc_error
      | cons b l =>
        simp only [Scan.next] at h
        by_cases hc : c = a
        · rw [if_pos hc] at h
          obtain ⟨r, rfl, hr⟩ := ih t (by simp) h
          exact ⟨r, by rw [hc]; rfl, hr⟩
        · rw [if_neg hc] at h
          exact absurd h acc_error

/-! ### Values -/

theorem acc_pop {o : Open} {k : List Open} {r : Bytes} (h : Acc (pop (o :: k)) r) : Acc ⟨.endValue, k⟩ r := by
  cases k with
  | nil =>
    cases r with
    | nil => rfl
    | cons c r => exact h
  | cons o' k => exact h

/-- The end of a value inside brackets: white space and one more octet. -/
theorem acc_close {o : Open} {k : List Open} {t : Bytes} (h : Acc ⟨.endValue, o :: k⟩ t) :
    ∃ x c r, t = x ++ c :: r ∧ Ws x ∧ isSpace c = false ∧ Acc (stepEndValue (o :: k) c) r := by
  obtain ⟨x, r, e, hx, hr, hh⟩ := acc_ws (fun c hc => by simp only [Scan.next, stepEndValue, hc, if_true]) t h
  cases r with
  | nil => revert hr; unfold Acc; simp [run, Scan.eof, Scan.next, stepEndValue, isSpace]
  | cons c r => exact ⟨x, c, r, e, hx, hh c (by simp), hr⟩

/-- What the proof shows of a text. -/
def ReadsVal (t : Bytes) : Prop :=
  ∀ stk, Acc ⟨.beginValue, stk⟩ t →
    ∃ w v b r, t = w ++ b ++ r ∧ Ws w ∧ Val LaxChars (maxDepth - stk.length) v b ∧ Acc ⟨.endValue, stk⟩ r

/-- The same of the elements of an array. -/
def ReadsElems (t : Bytes) : Prop :=
  ∀ k, Acc ⟨.beginValue, .elem :: k⟩ t →
    ∃ l b r, t = b ++ r ∧ Elems LaxChars (maxDepth - (k.length + 1)) l b ∧ Acc ⟨.endValue, k⟩ r

/-- The same of the members of an object. -/
def ReadsMembers (t : Bytes) : Prop :=
  ∀ k, Acc ⟨.beginString, .key :: k⟩ t →
    ∃ l b r, t = b ++ r ∧ Members LaxChars (maxDepth - (k.length + 1)) l b ∧ Acc ⟨.endValue, k⟩ r

theorem acc_push {stk : List Open} {o : Open} {st : Step} {t : Bytes} (h : Acc (push stk o st) t) : stk.length + 1 ≤ maxDepth ∧ Acc ⟨st, o :: stk⟩ t := by
  unfold push at h
  split at h
  · exact ⟨by omega, h⟩
  · exact absurd h acc_error

/-- A value behind its white space. -/
theorem acc_value {stk : List Open} {c : UInt8} {t : Bytes} (hsp : isSpace c = false) (h : Acc (stepBeginValue stk c) t)
    (hE : ∀ r, r.length ≤ t.length → ReadsElems r) (hM : ∀ r, r.length ≤ t.length → ReadsMembers r) :
    ∃ v b r, c :: t = b ++ r ∧ Val LaxChars (maxDepth - stk.length) v b ∧ Acc ⟨.endValue, stk⟩ r := by
  unfold stepBeginValue at h
  rw [if_neg (by simp [hsp])] at h
  by_cases c1 : c = 123
  · rw [if_pos c1] at h
    obtain ⟨hd, h⟩ := acc_push h
    have en : maxDepth - stk.length = (maxDepth - (stk.length + 1)) + 1 := by omega
    obtain ⟨w, r, e, hw, hr, hh⟩ := acc_ws (fun c hc => by simp only [Scan.next, hc, if_true]) t h
    cases r with
    | nil => revert hr; unfold Acc; simp [run, Scan.eof, Scan.next, isSpace]
    | cons a r =>
      rw [acc_cons] at hr
      have ha := hh a (by simp)
      by_cases ha2 : a = 125
      · subst ha2
        have hr : Acc (pop (.value :: stk)) r := hr
        exact ⟨.obj [], 123 :: w ++ [125], r, by rw [c1, e]; simp, en ▸ .obj0 _ w hw, acc_pop hr⟩
      · simp only [Scan.next, ha, if_neg ha2] at hr
        have hr' : Acc ⟨.beginString, .key :: stk⟩ t := by
          rw [e]
          unfold Acc
          rw [run_ws_append hw _ (by simp)]
          exact hr
        obtain ⟨l, b, r, rfl, hl, hr⟩ := hM t (Nat.le_refl _) stk hr'
        exact ⟨.obj l, 123 :: b, r, by rw [c1]; simp, en ▸ .obj _ l b hl, hr⟩
  rw [if_neg c1] at h
  by_cases c2 : c = 91
  · rw [if_pos c2] at h
    obtain ⟨hd, h⟩ := acc_push h
    have en : maxDepth - stk.length = (maxDepth - (stk.length + 1)) + 1 := by omega
    obtain ⟨w, r, e, hw, hr, hh⟩ := acc_ws (fun c hc => by simp only [Scan.next, hc, if_true]) t h
    cases r with
    | nil => revert hr; unfold Acc; simp [run, Scan.eof, Scan.next, isSpace]
    | cons a r =>
      rw [acc_cons] at hr
      have ha := hh a (by simp)
      by_cases ha2 : a = 93
      · subst ha2
        have hr : Acc (pop (.elem :: stk)) r := hr
        exact ⟨.arr [], 91 :: w ++ [93], r, by rw [c2, e]; simp, en ▸ .arr0 _ w hw, acc_pop hr⟩
      · simp only [Scan.next, ha, if_neg ha2] at hr
        have hr' : Acc ⟨.beginValue, .elem :: stk⟩ t := by
          rw [e]
          unfold Acc
          rw [run_ws_append hw _ (by simp)]
          exact hr
        obtain ⟨l, b, r, rfl, hl, hr⟩ := hE t (Nat.le_refl _) stk hr'
        exact ⟨.arr l, 91 :: b, r, by rw [c2]; simp, en ▸ .arr _ l b hl, hr⟩
  rw [if_neg c2] at h
  by_cases c3 : c = 34
  · rw [if_pos c3] at h
    obtain ⟨s, q, r, rfl, hs, hr⟩ := acc_str h
    exact ⟨.str s, 34 :: q ++ [34], r, by rw [c3]; simp, .str _ s q hs, hr⟩
  rw [if_neg c3] at h
  by_cases c4 : c = 45
  · rw [if_pos c4] at h
    cases t with
    | nil => revert h; unfold Acc; simp [run, Scan.eof, Scan.next]
    | cons a t =>
      rw [acc_cons] at h
      have : (a = 48 ∧ Acc ⟨.zero, stk⟩ t) ∨ ((49 ≤ a && a ≤ 57) = true ∧ Acc ⟨.one, stk⟩ t) := by
        simp only [Scan.next] at h
        by_cases a1 : a = 48
        · rw [if_pos a1] at h; exact .inl ⟨a1, h⟩
        · rw [if_neg a1] at h
          by_cases a2 : (49 ≤ a && a ≤ 57) = true
          · rw [if_pos a2] at h; exact .inr ⟨a2, h⟩
          · rw [if_neg a2] at h; exact absurd h acc_error
      obtain ⟨b, r, e, hb, hr⟩ := acc_int [45] (.inr rfl) this
      exact ⟨.num b, b, r, by rw [c4]; exact e, .num _ b hb, hr⟩
  rw [if_neg c4] at h
  by_cases c5 : c = 48
  · rw [if_pos c5] at h
    obtain ⟨b, r, e, hb, hr⟩ := acc_int [] (.inl rfl) (.inl ⟨c5, h⟩)
    exact ⟨.num b, b, r, e, .num _ b hb, hr⟩
  rw [if_neg c5] at h
  by_cases c6 : c = 116
  · rw [if_pos c6] at h
    obtain ⟨r, rfl, hr⟩ := acc_lit _ t (by decide) h
    exact ⟨.bool true, asc "true".toList, r, by rw [c6]; rfl, .true _, hr⟩
  rw [if_neg c6] at h
  by_cases c7 : c = 102
  · rw [if_pos c7] at h
    obtain ⟨r, rfl, hr⟩ := acc_lit _ t (by decide) h
    exact ⟨.bool false, asc "false".toList, r, by rw [c7]; rfl, .false _, hr⟩
  rw [if_neg c7] at h
  by_cases c8 : c = 110
  · rw [if_pos c8] at h
    obtain ⟨r, rfl, hr⟩ := acc_lit _ t (by decide) h
    exact ⟨.null, asc "null".toList, r, by rw [c8]; rfl, .null _, hr⟩
  rw [if_neg c8] at h
  by_cases c9 : (49 ≤ c && c ≤ 57) = true
  · rw [if_pos c9] at h
    obtain ⟨b, r, e, hb, hr⟩ := acc_int [] (.inl rfl) (.inr ⟨c9, h⟩)
    exact ⟨.num b, b, r, e, .num _ b hb, hr⟩
  · rw [if_neg c9] at h
    exact absurd h acc_error

theorem readsVal_step {t : Bytes} (hE : ∀ r, r.length < t.length → ReadsElems r) (hM : ∀ r, r.length < t.length → ReadsMembers r) : ReadsVal t := by
  intro stk h
  obtain ⟨w, r, rfl, hw, hr, hh⟩ := acc_ws (fun c hc => by simp only [Scan.next, stepBeginValue, hc, if_true]) t h
  cases r with
  | nil => revert hr; unfold Acc; simp [run, Scan.eof, Scan.next, stepBeginValue, isSpace]
  | cons c r =>
    have hl : ∀ u : Bytes, u.length ≤ r.length → u.length < (w ++ c :: r).length := by
      intro u hu
      simp only [List.length_append, List.length_cons]
      omega
    obtain ⟨v, b, r', e, hv, hr'⟩ := acc_value (hh c (by simp)) hr (fun u hu => hE u (hl u hu)) (fun u hu => hM u (hl u hu))
    exact ⟨w, v, b, r', by rw [e]; simp, hw, hv, hr'⟩

theorem readsElems_step {t : Bytes} (hV : ReadsVal t) (hE : ∀ r, r.length < t.length → ReadsElems r) : ReadsElems t := by
  intro k h
  obtain ⟨w, v, b, r, e, hw, hv, hr⟩ := hV _ h
  obtain ⟨c0, b0, eb, -⟩ := val_first hv
  obtain ⟨x, c, r', rfl, hx, hc, hr'⟩ := acc_close hr
  simp only [List.length_cons] at hv
  simp only [stepEndValue, hc] at hr'
  by_cases c1 : c = 44
  · simp only [if_pos c1] at hr'
    have hlen : r'.length < t.length := by
      rw [e, eb]
      simp only [List.length_append, List.length_cons]
      omega
    obtain ⟨l, b', r'', rfl, hl, hr''⟩ := hE r' hlen k hr'
    exact ⟨v :: l, w ++ b ++ x ++ 44 :: b', r'', by rw [e, c1]; simp, .more _ v l w b x b' hw hv hx hl, hr''⟩
  · by_cases c2 : c = 93
    · simp only [if_neg c1, if_pos c2] at hr'
      exact ⟨[v], w ++ b ++ x ++ [93], r', by rw [e, c2]; simp, .last _ v w b x hw hv hx, acc_pop hr'⟩
    · simp only [if_neg c1, if_neg c2] at hr'
      exact absurd hr' acc_error

theorem readsMembers_step {t : Bytes} (hV : ∀ r, r.length < t.length → ReadsVal r) (hM : ∀ r, r.length < t.length → ReadsMembers r) : ReadsMembers t := by
  intro k h
  obtain ⟨w, r, e, hw, hr, hh⟩ := acc_ws (fun c hc => by simp only [Scan.next, stepBeginString, hc, if_true]) t h
  cases r with
  | nil => revert hr; unfold Acc; simp [run, Scan.eof, Scan.next, stepBeginString, isSpace]
  | cons a r =>
    rw [acc_cons] at hr
    have ha := hh a (by simp)
    simp only [Scan.next, stepBeginString, ha] at hr
    by_cases a1 : a = 34
    · simp only [if_pos a1] at hr
      obtain ⟨s, q, r1, rfl, hs, hr⟩ := acc_str hr
      obtain ⟨y, c, r2, rfl, hy, hc, hr⟩ := acc_close hr
      simp only [stepEndValue, hc] at hr
      by_cases c1 : c = 58
      · simp only [if_pos c1] at hr
        have hlen2 : r2.length < t.length := by
          rw [e]
          simp only [List.length_append, List.length_cons]
          omega
        obtain ⟨w', v, b, r3, e3, hw', hv, hr⟩ := hV r2 hlen2 _ hr
        obtain ⟨x, d, r4, rfl, hx, hd, hr⟩ := acc_close hr
        simp only [List.length_cons] at hv
        simp only [stepEndValue, hd] at hr
        by_cases d1 : d = 44
        · simp only [if_pos d1] at hr
          have hlen4 : r4.length < t.length := by
            have := congrArg List.length e3
            simp only [List.length_append, List.length_cons] at this
            omega
          obtain ⟨l, b', r5, rfl, hl, hr⟩ := hM r4 hlen4 k hr
          exact ⟨(s, v) :: l, w ++ 34 :: q ++ 34 :: y ++ 58 :: w' ++ b ++ x ++ 44 :: b', r5, by rw [e, e3, a1, c1, d1]; simp,
            .more _ s v l w q y w' b x b' hw hs hy hw' hv hx hl, hr⟩
        · by_cases d2 : d = 125
          · simp only [if_neg d1, if_pos d2] at hr
            exact ⟨[(s, v)], w ++ 34 :: q ++ 34 :: y ++ 58 :: w' ++ b ++ x ++ [125], r4, by rw [e, e3, a1, c1, d2]; simp,
              .last _ s v w q y w' b x hw hs hy hw' hv hx, acc_pop hr⟩
          · simp only [if_neg d1, if_neg d2] at hr
            exact absurd hr acc_error
      · simp only [if_neg c1] at hr
        exact absurd hr acc_error
    · simp only [if_neg a1] at hr
      exact absurd hr acc_error

theorem reads_all : ∀ (n : Nat) (t : Bytes), t.length ≤ n → ReadsVal t ∧ ReadsElems t ∧ ReadsMembers t := by
  intro n
  induction n with
  | zero =>
    intro t ht
    have no : ∀ r : Bytes, r.length < t.length → False := fun r hr => by omega
    have hv := readsVal_step (t := t) (fun r hr => (no r hr).elim) (fun r hr => (no r hr).elim)
    exact ⟨hv, readsElems_step hv (fun r hr => (no r hr).elim), readsMembers_step (fun r hr => (no r hr).elim) (fun r hr => (no r hr).elim)⟩
  | succ n ih =>
    intro t ht
    have go : ∀ r : Bytes, r.length < t.length → ReadsVal r ∧ ReadsElems r ∧ ReadsMembers r := fun r hr => ih r (by omega)
    have hv := readsVal_step (t := t) (fun r hr => (go r hr).2.1) (fun r hr => (go r hr).2.2)
    exact ⟨hv, readsElems_step hv (fun r hr => (go r hr).2.1), readsMembers_step (fun r hr => (go r hr).1) (fun r hr => (go r hr).2.2)⟩

theorem acc_top : ∀ t : Bytes, Acc ⟨.endTop, []⟩ t → Ws t := by
  intro t
  induction t with
  | nil => intro _; exact ws_nil
  | cons c t ih =>
    intro h
    rw [acc_cons] at h
    by_cases hc : isSpace c = true
    · simp only [Scan.next, stepEndTop, hc] at h
      exact ws_cons hc (ih h)
    · simp only [Scan.next, stepEndTop, hc] at h
      exact absurd h acc_error

/-- What the scanner accepts is a text. -/
theorem valid_text {t : Bytes} (h : checkValid t = true) : ∃ v, Text LaxChars maxDepth v t := by
  obtain ⟨w, v, b, r, rfl, hw, hv, hr⟩ := (reads_all _ t (Nat.le_refl _)).1 [] h
  refine ⟨v, w, b, r, rfl, hw, hv, acc_top r ?_⟩
  cases r with
  | nil => rfl
  | cons c r => exact hr

/-- The reader accepts the texts and nothing else. -/
theorem parse_exact (t : Bytes) (v : Json) : parse t = some v ↔ Text LaxChars maxDepth v t := by
  constructor
  · intro h
    have hv : checkValid t = true := by
      unfold parse at h
      split at h
      · assumption
      · cases h
    obtain ⟨v', hv'⟩ := valid_text hv
    have := text_read hv' (Nat.le_refl _)
    rw [h] at this
    exact Option.some.inj this ▸ hv'
  · intro h
    exact text_read h (Nat.le_refl _)

end Verif.Json
