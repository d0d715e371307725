import Verif.Spec.Json
import Verif.Lemmas.Output
/-
  Lemmas about JSON texts: the syntax check and the reader against the grammar, what is written, and cut-off texts.
-/
set_option autoImplicit false

namespace Verif.Json
open JsonSpec

/-! ### UTF-8 -/

theorem toUInt8_nat {n : Nat} (h : n < 256) : n.toUInt8.toNat = n := by
  simp only [Nat.toUInt8, UInt8.toNat_ofNat']
  exact Nat.mod_eq_of_lt h

theorem ne_iff_toNat (a b : UInt8) : (a != b) = decide (a.toNat ≠ b.toNat) := by
  by_cases h : a = b
  · subst h; simp
  · have : a.toNat ≠ b.toNat := fun e => h (UInt8.toNat_inj.mp e)
    simp [h, this]

/-- A character beyond ASCII. -/
theorem utf8_multi {n : Nat} {u : Bytes} (h : Utf8 n u) (hn : 0x80 ≤ n) (r : Bytes) :
    ∃ b v, u = b :: v ∧ 0x80 ≤ b ∧ (∀ c ∈ u, 0x80 ≤ c) ∧ runeLen (u ++ r) = some u.length := by
  cases h with
  | one h => omega
  | two h =>
    have e1 : ((0xc0 + n / 64).toUInt8).toNat = 0xc0 + n / 64 := toUInt8_nat (by omega)
    have e2 : ((0x80 + n % 64).toUInt8).toNat = 0x80 + n % 64 := toUInt8_nat (by omega)
    generalize (0xc0 + n / 64).toUInt8 = a at e1 ⊢
    generalize (0x80 + n % 64).toUInt8 = b at e2 ⊢
    refine ⟨a, [b], rfl, UInt8.le_iff_toNat_le.mpr (by rw [e1]; show 128 ≤ _; omega), ?_, ?_⟩
    · intro c hc
      simp only [List.mem_cons, List.not_mem_nil, or_false] at hc
      rcases hc with rfl | rfl <;> refine UInt8.le_iff_toNat_le.mpr ?_ <;> show 128 ≤ _ <;> omega
    · simp only [List.cons_append, List.nil_append, runeLen, isCont]
      simp only [UInt8.le_iff_toNat_le, e1, e2, Bool.and_eq_true, decide_eq_true_iff]
      rw [if_pos (by constructor <;> first | (show (194 : Nat) ≤ _; omega) | (show _ ≤ (223 : Nat); omega)),
        if_pos (by constructor <;> first | (show (128 : Nat) ≤ _; omega) | (show _ ≤ (191 : Nat); omega))]
      rfl
  | three h hs =>
    unfold Scalar at hs
    have e1 : ((0xe0 + n / 4096).toUInt8).toNat = 0xe0 + n / 4096 := toUInt8_nat (by omega)
    have e2 : ((0x80 + n / 64 % 64).toUInt8).toNat = 0x80 + n / 64 % 64 := toUInt8_nat (by omega)
    have e3 : ((0x80 + n % 64).toUInt8).toNat = 0x80 + n % 64 := toUInt8_nat (by omega)
    generalize (0xe0 + n / 4096).toUInt8 = a at e1 ⊢
    generalize (0x80 + n / 64 % 64).toUInt8 = b at e2 ⊢
    generalize (0x80 + n % 64).toUInt8 = c at e3 ⊢
    refine ⟨a, [b, c], rfl, UInt8.le_iff_toNat_le.mpr (by rw [e1]; show 128 ≤ _; omega), ?_, ?_⟩
    · intro x hx
      simp only [List.mem_cons, List.not_mem_nil, or_false] at hx
      rcases hx with rfl | rfl | rfl <;> refine UInt8.le_iff_toNat_le.mpr ?_ <;> show 128 ≤ _ <;> omega
    · simp only [List.cons_append, List.nil_append, runeLen, isCont, ne_iff_toNat]
      simp only [UInt8.le_iff_toNat_le, e1, e2, e3, Bool.and_eq_true, Bool.or_eq_true, decide_eq_true_iff]
      simp only [show (0xc2 : UInt8).toNat = 194 from rfl, show (0xdf : UInt8).toNat = 223 from rfl, show (0xe0 : UInt8).toNat = 224 from rfl,
        show (0xef : UInt8).toNat = 239 from rfl, show (0x80 : UInt8).toNat = 128 from rfl, show (0xbf : UInt8).toNat = 191 from rfl,
        show (0xa0 : UInt8).toNat = 160 from rfl, show (0xed : UInt8).toNat = 237 from rfl, show (0x9f : UInt8).toNat = 159 from rfl]
      rw [if_neg (by omega), if_pos (by omega), if_pos (by omega)]
      rfl
  | four h =>
    have e1 : ((0xf0 + n / 262144).toUInt8).toNat = 0xf0 + n / 262144 := toUInt8_nat (by omega)
    have e2 : ((0x80 + n / 4096 % 64).toUInt8).toNat = 0x80 + n / 4096 % 64 := toUInt8_nat (by omega)
    have e3 : ((0x80 + n / 64 % 64).toUInt8).toNat = 0x80 + n / 64 % 64 := toUInt8_nat (by omega)
    have e4 : ((0x80 + n % 64).toUInt8).toNat = 0x80 + n % 64 := toUInt8_nat (by omega)
    generalize (0xf0 + n / 262144).toUInt8 = a at e1 ⊢
    generalize (0x80 + n / 4096 % 64).toUInt8 = b at e2 ⊢
    generalize (0x80 + n / 64 % 64).toUInt8 = c at e3 ⊢
    generalize (0x80 + n % 64).toUInt8 = d at e4 ⊢
    refine ⟨a, [b, c, d], rfl, UInt8.le_iff_toNat_le.mpr (by rw [e1]; show 128 ≤ _; omega), ?_, ?_⟩
    · intro x hx
      simp only [List.mem_cons, List.not_mem_nil, or_false] at hx
      rcases hx with rfl | rfl | rfl | rfl <;> refine UInt8.le_iff_toNat_le.mpr ?_ <;> show 128 ≤ _ <;> omega
    · simp only [List.cons_append, List.nil_append, runeLen, isCont, ne_iff_toNat]
      simp only [UInt8.le_iff_toNat_le, e1, e2, e3, e4, Bool.and_eq_true, Bool.or_eq_true, decide_eq_true_iff]
      simp only [show (0xc2 : UInt8).toNat = 194 from rfl, show (0xdf : UInt8).toNat = 223 from rfl, show (0xe0 : UInt8).toNat = 224 from rfl,
        show (0xef : UInt8).toNat = 239 from rfl, show (0x80 : UInt8).toNat = 128 from rfl, show (0xbf : UInt8).toNat = 191 from rfl,
        show (0xf0 : UInt8).toNat = 240 from rfl, show (0xf4 : UInt8).toNat = 244 from rfl, show (0x90 : UInt8).toNat = 144 from rfl,
        show (0x8f : UInt8).toNat = 143 from rfl]
      rw [if_neg (by omega), if_neg (by omega), if_pos (by omega), if_pos (by omega)]
      rfl

theorem utf8_ascii {n : Nat} {u : Bytes} (h : Utf8 n u) (hn : n < 0x80) : u = [n.toUInt8] ∧ n.toUInt8.toNat = n := by
  cases h with
  | one h => exact ⟨rfl, toUInt8_nat (by omega)⟩
  | two h => omega
  | three h => omega
  | four h => omega

theorem encodeRune_utf8 {n : Nat} {u : Bytes} (h : Utf8 n u) : encodeRune n = u := by
  unfold encodeRune
  cases h with
  | one h => rw [if_pos h]
  | two h => rw [if_neg (by omega), if_pos (by omega)]
  | three h hs => unfold Scalar at hs; rw [if_neg (by omega), if_neg (by omega), if_neg (by omega), if_pos (by omega)]
  | four h => rw [if_neg (by omega), if_neg (by omega), if_neg (by omega), if_neg (by omega)]

/-! ### Hexadecimal digits -/

theorem hex_digit : ∀ n : Fin 16, ∀ c : UInt8,
    (c = (asc "0123456789abcdef".toList).getD n.1 0 ∨ c = (asc "0123456789ABCDEF".toList).getD n.1 0) →
    getu4.hexVal c = some n.1 ∧ isHex c = true ∧ c ≠ 34 ∧ c ≠ 92 ∧ 0x20 ≤ c := by
  have : ∀ n : Fin 16, ∀ m ∈ [(asc "0123456789abcdef".toList).getD n.1 0, (asc "0123456789ABCDEF".toList).getD n.1 0],
    getu4.hexVal m = some n.1 ∧ isHex m = true ∧ m ≠ 34 ∧ m ≠ 92 ∧ 0x20 ≤ m := by decide +kernel
  intro n c h
  exact this n c (by simpa using h)

theorem hex4_read {n : Nat} {d : Bytes} (h : Hex4 n d) (r : Bytes) :
    getu4 (d ++ r) = some n ∧ ∃ a b c e, d = [a, b, c, e] ∧ isHex a = true ∧ isHex b = true ∧ isHex c = true ∧ isHex e = true ∧
      ∀ x ∈ d, x ≠ 34 ∧ x ≠ 92 := by
  obtain ⟨a, b, c, e, rfl, rfl, h⟩ := h
  have ha := h a (by simp)
  have hb := h b (by simp)
  have hc := h c (by simp)
  have he := h e (by simp)
  have ia := hex_digit ⟨a.1, ha.1⟩ a.2 ha.2
  have ib := hex_digit ⟨b.1, hb.1⟩ b.2 hb.2
  have ic := hex_digit ⟨c.1, hc.1⟩ c.2 hc.2
  have ie := hex_digit ⟨e.1, he.1⟩ e.2 he.2
  refine ⟨by simp [getu4, ia.1, ib.1, ic.1, ie.1], _, _, _, _, rfl, ia.2.1, ib.2.1, ic.2.1, ie.2.1, ?_⟩
  intro x hx
  simp only [List.mem_cons, List.not_mem_nil, or_false] at hx
  rcases hx with rfl | rfl | rfl | rfl
  · exact ⟨ia.2.2.1, ia.2.2.2.1⟩
  · exact ⟨ib.2.2.1, ib.2.2.2.1⟩
  · exact ⟨ic.2.2.1, ic.2.2.2.1⟩
  · exact ⟨ie.2.2.1, ie.2.2.2.1⟩

/-! ### Strings -/

/-- The scanner over a text. -/
abbrev run (s : Scan) (t : Bytes) : Scan := t.foldl Scan.next s

theorem run_append (s : Scan) (a b : Bytes) : run s (a ++ b) = run (run s a) b := List.foldl_append

theorem next_inString {stk : List Open} {c : UInt8} (h1 : c ≠ 34) (h2 : c ≠ 92) (h3 : 0x20 ≤ c) :
    Scan.next ⟨.inString, stk⟩ c = ⟨.inString, stk⟩ := by
  simp only [Scan.next, if_neg h1, if_neg h2]
  rw [if_neg (UInt8.not_lt.mpr h3)]

theorem run_plain {stk : List Open} (u : Bytes) (h : ∀ c ∈ u, c ≠ 34 ∧ c ≠ 92 ∧ 0x20 ≤ c) : run ⟨.inString, stk⟩ u = ⟨.inString, stk⟩ := by
  induction u with
  | nil => rfl
  | cons c u ih =>
    have := h c List.mem_cons_self
    simp only [run, List.foldl_cons]
    rw [next_inString this.1 this.2.1 this.2.2]
    exact ih fun x hx => h x (List.mem_cons_of_mem _ hx)

theorem scanString_plain (u t : Bytes) (h : ∀ c ∈ u, c ≠ 34 ∧ c ≠ 92) :
    scanString (u ++ t) = (scanString t).map fun x => (u ++ x.1, x.2) := by
  induction u with
  | nil => simp
  | cons c u ih =>
    have hc := h c List.mem_cons_self
    rw [List.cons_append, scanString.eq_def]
    split
    · rename_i e; cases e
    · rename_i e; exact absurd (List.cons.inj e).1 hc.1
    · rename_i e; exact absurd (List.cons.inj e).1 hc.2
    · rename_i e
      obtain ⟨rfl, rfl⟩ := List.cons.inj e
      rw [ih fun x hx => h x (List.mem_cons_of_mem _ hx), Option.map_map]
      rfl

theorem unquoteLoop_skip (x t : Bytes) : unquoteLoop x.length (x ++ t) = unquoteLoop 0 t := by
  induction x with
  | nil => rfl
  | cons c x ih => rw [List.cons_append, List.length_cons, unquoteLoop, ih]

theorem unquoteLoop_skip' {k : Nat} {x : Bytes} (t : Bytes) (h : x.length = k) : unquoteLoop k (x ++ t) = unquoteLoop 0 t := by
  rw [← h, unquoteLoop_skip]

/-- Facts about a character that may stand for itself. -/
theorem char_plain {n : Nat} {u : Bytes} (h : Utf8 n u) (h1 : 0x20 ≤ n) (h2 : n ≠ 34) (h3 : n ≠ 92) :
    ∀ c ∈ u, c ≠ 34 ∧ c ≠ 92 ∧ 0x20 ≤ c := by
  by_cases hn : n < 0x80
  · obtain ⟨rfl, e⟩ := utf8_ascii h hn
    intro c hc
    simp only [List.mem_cons, List.not_mem_nil, or_false] at hc
    subst hc
    refine ⟨fun he => ?_, fun he => ?_, UInt8.le_iff_toNat_le.mpr (by rw [e]; exact h1)⟩
    · rw [he] at e; exact h2 e.symm
    · rw [he] at e; exact h3 e.symm
  · obtain ⟨b, v, -, -, hu, -⟩ := utf8_multi h (by omega) []
    intro c hc
    have := UInt8.le_iff_toNat_le.mp (hu c hc)
    have this : 128 ≤ c.toNat := this
    refine ⟨fun he => ?_, fun he => ?_, UInt8.le_iff_toNat_le.mpr (by show 32 ≤ _; omega)⟩
    · rw [he] at this; exact absurd this (by decide)
    · rw [he] at this; exact absurd this (by decide)

theorem unquote_char {n : Nat} {u : Bytes} (h : Utf8 n u) (h1 : 0x20 ≤ n) (h2 : n ≠ 34) (h3 : n ≠ 92) (t : Bytes) :
    unquoteLoop 0 (u ++ t) = (unquoteLoop 0 t).map (u ++ ·) := by
  have hp := char_plain h h1 h2 h3
  by_cases hn : n < 0x80
  · obtain ⟨rfl, e⟩ := utf8_ascii h hn
    have hc := hp _ List.mem_cons_self
    generalize n.toUInt8 = c at e hc ⊢
    have hu : unquoteUnit c t = some ([c], 0) := by
      unfold unquoteUnit
      rw [if_neg hc.2.1, if_neg (by rintro (a | a); exact hc.1 a; exact UInt8.not_lt.mpr hc.2.2 a),
        if_pos (UInt8.lt_iff_toNat_lt.mpr (by rw [e]; exact hn))]
    rw [List.cons_append, List.nil_append, unquoteLoop, hu]
  · obtain ⟨b, v, rfl, hb, hu, hr⟩ := utf8_multi h (by omega) t
    have hc := hp b List.mem_cons_self
    have hq : unquoteUnit b (v ++ t) = some (b :: v, v.length) := by
      unfold unquoteUnit
      rw [if_neg hc.2.1, if_neg (by rintro (a | a); exact hc.1 a; exact UInt8.not_lt.mpr hc.2.2 a), if_neg (UInt8.not_lt.mpr hb)]
      rw [List.cons_append] at hr
      rw [hr]
      simp only [List.length_cons, Nat.add_sub_cancel]
      rw [← List.cons_append, ← List.length_cons (a := b), List.take_left]
    rw [List.cons_append, unquoteLoop, hq]
    simp only [unquoteLoop_skip]

theorem short_facts : ∀ x ∈ shortEscapes, escOf x.1 = some x.2 ∧ x.1 ≠ 117 ∧ x.1 ∈ ([98, 102, 110, 114, 116, 92, 47, 34] : List UInt8) := by
  decide +kernel

/-- Strings that the scanner and the decoder read. -/
class Readable (C : Bytes → Bytes → Prop) : Prop where
  all : ∀ {s t : Bytes}, C s t → (∀ stk, run ⟨.inString, stk⟩ t = ⟨.inString, stk⟩) ∧ (∀ r, scanString (t ++ 34 :: r) = some (t, r)) ∧ unquoteLoop 0 t = some s

theorem chars_read {s t : Bytes} (h : Chars s t) :
    (∀ stk, run ⟨.inString, stk⟩ t = ⟨.inString, stk⟩) ∧ (∀ r, scanString (t ++ 34 :: r) = some (t, r)) ∧ unquoteLoop 0 t = some s := by
  induction h with
  | nil => exact ⟨fun _ => rfl, fun _ => by simp [scanString], rfl⟩
  | char n u s t h h1 h2 h3 hs ih =>
    have hp := char_plain h h1 h2 h3
    refine ⟨fun stk => ?_, fun r => ?_, ?_⟩
    · rw [run_append, run_plain u hp, ih.1]
    · rw [List.append_assoc, scanString_plain u _ fun c hc => ⟨(hp c hc).1, (hp c hc).2.1⟩, ih.2.1]
      rfl
    · rw [unquote_char h h1 h2 h3, ih.2.2]
      rfl
  | short e c s t h hs ih =>
    have hf := short_facts _ h
    refine ⟨fun stk => ?_, fun r => ?_, ?_⟩
    · simp only [run, List.foldl_cons]
      have a1 : Scan.next ⟨.inString, stk⟩ 92 = ⟨.esc, stk⟩ := rfl
      have a2 : Scan.next ⟨.esc, stk⟩ e = ⟨.inString, stk⟩ := by simp only [Scan.next]; rw [if_pos hf.2.2]
      rw [a1, a2]
      exact ih.1 stk
    · rw [List.cons_append, List.cons_append, scanString, ih.2.1]
      rfl
    · have hq : unquoteUnit 92 (e :: t) = some ([c], 1) := by
        unfold unquoteUnit
        rw [if_pos rfl]
        simp only [if_neg hf.2.1, hf.1]
        rfl
      rw [unquoteLoop, hq]
      simp only
      rw [unquoteLoop, ih.2.2]
      rfl
  | hex n u d s t h hu hs ih =>
    obtain ⟨hr, a, b, c, e, hd, ha, hb, hc, he, hp⟩ := hex4_read h t
    refine ⟨fun stk => ?_, fun r => ?_, ?_⟩
    · rw [hd]
      simp only [run, List.cons_append, List.nil_append, List.foldl_cons]
      have a1 : Scan.next ⟨.inString, stk⟩ 92 = ⟨.esc, stk⟩ := rfl
      have a2 : Scan.next ⟨.esc, stk⟩ 117 = ⟨.escU 3, stk⟩ := rfl
      rw [a1, a2]
      simp only [Scan.next, ha, hb, hc, he, if_true]
      exact ih.1 stk
    · rw [List.append_assoc, List.cons_append, List.cons_append, scanString, scanString_plain d _ hp, ih.2.1]
      rfl
    · have hns : ¬ (0xd800 ≤ n ∧ n < 0xe000) := by
        cases hu with
        | one h => omega
        | two h => omega
        | three h hs => unfold Scalar at hs; omega
        | four h => omega
      have hq : unquoteUnit 92 (117 :: (d ++ t)) = some (u, 5) := by
        unfold unquoteUnit
        rw [if_pos rfl]
        simp only [if_true, hr]
        rw [if_neg hns, encodeRune_utf8 hu]
      rw [List.cons_append, List.cons_append, unquoteLoop, hq]
      have : unquoteLoop 5 (117 :: (d ++ t)) = unquoteLoop 0 t := by
        rw [← List.cons_append]
        exact unquoteLoop_skip' t (by rw [hd]; rfl)
      simp only [this, ih.2.2]
      rfl
  | pair a b u d e s t ha hb la lb hu hs ih =>
    obtain ⟨hr, a1, a2, a3, a4, hd, i1, i2, i3, i4, hp⟩ := hex4_read ha (92 :: 117 :: e ++ t)
    obtain ⟨hr', b1, b2, b3, b4, hd', j1, j2, j3, j4, hp'⟩ := hex4_read hb t
    refine ⟨fun stk => ?_, fun r => ?_, ?_⟩
    · rw [hd, hd']
      simp only [run, List.cons_append, List.nil_append, List.foldl_cons]
      have c1 : Scan.next ⟨.inString, stk⟩ 92 = ⟨.esc, stk⟩ := rfl
      have c2 : Scan.next ⟨.esc, stk⟩ 117 = ⟨.escU 3, stk⟩ := rfl
      rw [c1, c2]
      simp only [Scan.next, i1, i2, i3, i4, j1, j2, j3, j4, if_true]
      exact ih.1 stk
    · have e1 : 92 :: 117 :: d ++ 92 :: 117 :: e ++ t ++ 34 :: r = 92 :: 117 :: (d ++ (92 :: 117 :: (e ++ (t ++ 34 :: r)))) := by simp
      rw [e1, scanString, scanString_plain d _ hp, scanString, scanString_plain e _ hp', ih.2.1]
      simp
    · have e1 : 92 :: 117 :: d ++ 92 :: 117 :: e ++ t = 92 :: 117 :: (d ++ (92 :: 117 :: e ++ t)) := by simp
      have hdrop : (d ++ (92 :: 117 :: e ++ t)).drop 4 = 92 :: 117 :: (e ++ t) := by rw [hd]; rfl
      have hsec : secondHalf (0xd800 + a) (92 :: 117 :: (e ++ t)) = some (0x10000 + 1024 * a + b) := by
        simp only [secondHalf, hr']
        rw [if_pos (by omega), Option.some.injEq]
        omega
      have hq : unquoteUnit 92 (117 :: (d ++ (92 :: 117 :: e ++ t))) = some (u, 11) := by
        unfold unquoteUnit
        rw [if_pos rfl]
        simp only [if_true, hr]
        rw [if_pos (by omega), hdrop, hsec]
        simp only [encodeRune_utf8 hu]
      rw [e1, unquoteLoop, hq]
      have : unquoteLoop 11 (117 :: (d ++ (92 :: 117 :: e ++ t))) = unquoteLoop 0 t := by
        rw [show 117 :: (d ++ (92 :: 117 :: e ++ t)) = (117 :: d ++ 92 :: 117 :: e) ++ t by simp]
        exact unquoteLoop_skip' t (by rw [hd, hd']; rfl)
      simp only [this, ih.2.2]
      rfl

instance : Readable Chars := ⟨chars_read⟩

theorem chars_all {C : Bytes → Bytes → Prop} [Readable C] {s t : Bytes} (h : C s t) :
    (∀ stk, run ⟨.inString, stk⟩ t = ⟨.inString, stk⟩) ∧ (∀ r, scanString (t ++ 34 :: r) = some (t, r)) ∧ unquoteLoop 0 t = some s := Readable.all h

theorem readString_chars {C : Bytes → Bytes → Prop} [Readable C] {s t : Bytes} (h : C s t) (r : Bytes) : readString (t ++ 34 :: r) = some (s, r) := by
  have := chars_all h
  unfold readString
  rw [this.2.1 r]
  simp only [this.2.2]
  rfl

/-! ### Numbers -/

/-- The scanner is behind a value: with any octet that cannot continue a number it goes on as stateEndValue. -/
def Ended (s : Scan) (stk : List Open) : Prop := ∀ c, isNumChar c = false → s.next c = stepEndValue stk c

theorem ended_endValue (stk : List Open) : Ended ⟨.endValue, stk⟩ stk := fun _ _ => rfl

theorem ended_pop (o : Open) (stk : List Open) : Ended (pop (o :: stk)) stk := by
  intro c _
  cases stk <;> rfl

theorem not_numChar {c : UInt8} (h : isNumChar c = false) :
    isDigit c = false ∧ c ≠ 46 ∧ c ≠ 101 ∧ c ≠ 69 ∧ c ≠ 43 ∧ c ≠ 45 := by
  simp only [isNumChar, Bool.or_eq_false_iff, beq_eq_false_iff_ne] at h
  obtain ⟨⟨⟨⟨⟨h1, h2⟩, h3⟩, h4⟩, h5⟩, h6⟩ := h
  exact ⟨h1, h2, h3, h4, h5, h6⟩

theorem ended_zero (stk : List Open) : Ended ⟨.zero, stk⟩ stk := by
  intro c h
  have := not_numChar h
  simp only [Scan.next, stepZero, if_neg this.2.1]
  rw [if_neg (by rintro (a | a); exact this.2.2.1 a; exact this.2.2.2.1 a)]

theorem ended_one (stk : List Open) : Ended ⟨.one, stk⟩ stk := by
  intro c h
  have := not_numChar h
  simp only [Scan.next, this.1, stepZero, if_neg this.2.1]
  rw [if_neg (by simp), if_neg (by rintro (a | a); exact this.2.2.1 a; exact this.2.2.2.1 a)]

theorem ended_dot0 (stk : List Open) : Ended ⟨.dot0, stk⟩ stk := by
  intro c h
  have := not_numChar h
  simp only [Scan.next, this.1]
  rw [if_neg (by simp), if_neg (by rintro (a | a); exact this.2.2.1 a; exact this.2.2.2.1 a)]

theorem ended_e0 (stk : List Open) : Ended ⟨.e0, stk⟩ stk := by
  intro c h
  have := not_numChar h
  simp only [Scan.next, this.1]
  rw [if_neg (by simp)]

theorem isDigit_iff {c : UInt8} : isDigit c = true ↔ 48 ≤ c ∧ c ≤ 57 := by
  simp [isDigit]

theorem run_digits {stk : List Open} {st : Step} (h : st = .one ∨ st = .dot0 ∨ st = .e0) (d : Bytes) (hd : ∀ c ∈ d, 48 ≤ c ∧ c ≤ 57) :
    run ⟨st, stk⟩ d = ⟨st, stk⟩ := by
  induction d with
  | nil => rfl
  | cons c d ih =>
    have hc := isDigit_iff.mpr (hd c List.mem_cons_self)
    have : Scan.next ⟨st, stk⟩ c = ⟨st, stk⟩ := by
      rcases h with rfl | rfl | rfl <;> simp only [Scan.next, hc, if_true]
    simp only [run, List.foldl_cons, this]
    exact ih fun x hx => hd x (List.mem_cons_of_mem _ hx)

/-- The states in which a fraction or an exponent may begin. -/
def AfterInt (s : Scan) (stk : List Open) : Prop := s = ⟨.zero, stk⟩ ∨ s = ⟨.one, stk⟩

theorem run_frac {s : Scan} {stk : List Open} (h : AfterInt s stk) (frac : Bytes) (hf : frac = [] ∨ ∃ d, frac = 46 :: d ∧ Digits d) :
    (AfterInt (run s frac) stk ∨ run s frac = ⟨.dot0, stk⟩) := by
  rcases hf with rfl | ⟨d, rfl, hne, hd⟩
  · exact .inl h
  · right
    cases d with
    | nil => exact absurd rfl hne
    | cons c d =>
      have hc := isDigit_iff.mpr (hd c List.mem_cons_self)
      have h1 : s.next 46 = ⟨.dot, stk⟩ := by rcases h with rfl | rfl <;> rfl
      have h2 : Scan.next ⟨.dot, stk⟩ c = ⟨.dot0, stk⟩ := by simp only [Scan.next, hc, if_true]
      simp only [run, List.foldl_cons, h1, h2]
      exact run_digits (.inr (.inl rfl)) d fun x hx => hd x (List.mem_cons_of_mem _ hx)

theorem run_exp {s : Scan} {stk : List Open} (h : AfterInt s stk ∨ s = ⟨.dot0, stk⟩) (exp : Bytes)
    (he : exp = [] ∨ ∃ l s d, exp = l :: s ++ d ∧ (l = 101 ∨ l = 69) ∧ (s = [] ∨ s = [43] ∨ s = [45]) ∧ Digits d) :
    Ended (run s exp) stk := by
  rcases he with rfl | ⟨l, sg, d, rfl, hl, hs, hne, hd⟩
  · rcases h with (rfl | rfl) | rfl
    · exact ended_zero stk
    · exact ended_one stk
    · exact ended_dot0 stk
  · have h1 : s.next l = ⟨.e, stk⟩ := by rcases h with (rfl | rfl) | rfl <;> rcases hl with rfl | rfl <;> rfl
    cases d with
    | nil => exact absurd rfl hne
    | cons c d =>
      have hc := isDigit_iff.mpr (hd c List.mem_cons_self)
      have hrest : run ⟨.e0, stk⟩ d = ⟨.e0, stk⟩ := run_digits (.inr (.inr rfl)) d fun x hx => hd x (List.mem_cons_of_mem _ hx)
      have hc43 : ¬ (c = 43 ∨ c = 45) := by
        rintro (rfl | rfl) <;> exact absurd hc (by decide)
      have h3 : Scan.next ⟨.eSign, stk⟩ c = ⟨.e0, stk⟩ := by simp only [Scan.next, stepESign, hc, if_true]
      have h2 : Scan.next ⟨.e, stk⟩ c = ⟨.e0, stk⟩ := by simp only [Scan.next, stepESign, hc, if_true, if_neg hc43]
      have hend : run s (l :: sg ++ c :: d) = ⟨.e0, stk⟩ := by
        rcases hs with rfl | rfl | rfl
        · simp only [run, List.cons_append, List.nil_append, List.foldl_cons, h1, h2]
          exact hrest
        · simp only [run, List.cons_append, List.nil_append, List.foldl_cons, h1]
          rw [show Scan.next ⟨.e, stk⟩ 43 = ⟨.eSign, stk⟩ from rfl, h3]
          exact hrest
        · simp only [run, List.cons_append, List.nil_append, List.foldl_cons, h1]
          rw [show Scan.next ⟨.e, stk⟩ 45 = ⟨.eSign, stk⟩ from rfl, h3]
          exact hrest
      rw [hend]
      exact ended_e0 stk

theorem run_number {t : Bytes} (h : Number t) (stk : List Open) : Ended (run ⟨.beginValue, stk⟩ t) stk := by
  obtain ⟨sign, int, frac, exp, rfl, hs, hi, hf, he⟩ := h
  rw [run_append, run_append, run_append]
  refine run_exp (run_frac ?_ frac hf) exp he
  have hb : ∀ c : UInt8, 48 ≤ c → c ≤ 57 → c ≠ 48 →
      Scan.next ⟨.beginValue, stk⟩ c = ⟨.one, stk⟩ ∧ Scan.next ⟨.neg, stk⟩ c = ⟨.one, stk⟩ := by
    have key : ∀ n : Fin 256, 48 ≤ UInt8.ofNat n.1 → UInt8.ofNat n.1 ≤ 57 → UInt8.ofNat n.1 ≠ 48 →
        isSpace (UInt8.ofNat n.1) = false ∧ UInt8.ofNat n.1 ∉ ([123, 91, 34, 45, 48, 116, 102, 110] : List UInt8) ∧
          (49 ≤ UInt8.ofNat n.1 && UInt8.ofNat n.1 ≤ 57) = true := by decide +kernel
    intro c h1 h2 h3
    have := key ⟨c.toNat, c.toNat_lt⟩
    simp only [UInt8.ofNat_toNat] at this
    obtain ⟨k1, k2, k3⟩ := this h1 h2 h3
    simp only [List.mem_cons, List.not_mem_nil, or_false, not_or] at k2
    obtain ⟨m1, m2, m3, m4, m5, m6, m7, m8⟩ := k2
    refine ⟨?_, ?_⟩
    · simp only [Scan.next, stepBeginValue, k1, if_neg m1, if_neg m2, if_neg m3, if_neg m4, if_neg m5, if_neg m6, if_neg m7, if_neg m8, k3,
        if_true]
      rfl
    · simp only [Scan.next, if_neg m5, k3, if_true]
  rcases hs with rfl | rfl
  · rcases hi with rfl | ⟨⟨hne, hd⟩, h0⟩
    · exact .inl rfl
    · cases int with
      | nil => exact absurd rfl hne
      | cons c d =>
        have hc := hd c List.mem_cons_self
        right
        simp only [run, List.foldl_nil, List.foldl_cons]
        rw [(hb c hc.1 hc.2 fun e => h0 (by rw [e]; rfl)).1]
        exact run_digits (.inl rfl) d fun x hx => hd x (List.mem_cons_of_mem _ hx)
  · have h45 : run ⟨.beginValue, stk⟩ [45] = ⟨.neg, stk⟩ := rfl
    rw [h45]
    rcases hi with rfl | ⟨⟨hne, hd⟩, h0⟩
    · exact .inl rfl
    · cases int with
      | nil => exact absurd rfl hne
      | cons c d =>
        have hc := hd c List.mem_cons_self
        right
        simp only [run, List.foldl_cons]
        rw [(hb c hc.1 hc.2 fun e => h0 (by rw [e]; rfl)).2]
        exact run_digits (.inl rfl) d fun x hx => hd x (List.mem_cons_of_mem _ hx)

theorem digit_numChar {c : UInt8} (h : 48 ≤ c ∧ c ≤ 57) : isNumChar c = true := by
  simp [isNumChar, isDigit_iff.mpr h]

/-- A number is made of the octets of numbers, and begins with a digit or a minus sign. -/
theorem number_chars {t : Bytes} (h : Number t) :
    (∀ c ∈ t, isNumChar c = true) ∧ ∃ c r, t = c :: r ∧ (c = 45 ∨ (48 ≤ c ∧ c ≤ 57)) := by
  obtain ⟨sign, int, frac, exp, rfl, hs, hi, hf, he⟩ := h
  have hint : (∀ c ∈ int, 48 ≤ c ∧ c ≤ 57) ∧ int ≠ [] := by
    rcases hi with rfl | ⟨⟨hne, hd⟩, -⟩
    · exact ⟨by decide, by simp⟩
    · exact ⟨hd, hne⟩
  refine ⟨fun c hc => ?_, ?_⟩
  · simp only [List.mem_append] at hc
    rcases hc with ((hc | hc) | hc) | hc
    · rcases hs with rfl | rfl
      · cases hc
      · simp only [List.mem_cons, List.not_mem_nil, or_false] at hc; subst hc; rfl
    · exact digit_numChar (hint.1 c hc)
    · rcases hf with rfl | ⟨d, rfl, -, hd⟩
      · cases hc
      · rcases List.mem_cons.mp hc with rfl | hc
        · rfl
        · exact digit_numChar (hd c hc)
    · rcases he with rfl | ⟨l, s, d, rfl, hl, hs', -, hd⟩
      · cases hc
      · rw [List.cons_append] at hc
        rcases List.mem_cons.mp hc with rfl | hc
        · rcases hl with rfl | rfl <;> rfl
        · rcases List.mem_append.mp hc with hc | hc
          · rcases hs' with rfl | rfl | rfl
            · cases hc
            · simp only [List.mem_cons, List.not_mem_nil, or_false] at hc; subst hc; rfl
            · simp only [List.mem_cons, List.not_mem_nil, or_false] at hc; subst hc; rfl
          · exact digit_numChar (hd c hc)
  · rcases hs with rfl | rfl
    · cases int with
      | nil => exact absurd rfl hint.2
      | cons c d => exact ⟨c, _, rfl, .inr (hint.1 c List.mem_cons_self)⟩
    · exact ⟨45, _, rfl, .inl rfl⟩

/-! ### Values -/

theorem ws_space {w : Bytes} (h : Ws w) : ∀ c ∈ w, isSpace c = true ∧ isNumChar c = false := by
  intro c hc
  have := h c hc
  simp only [List.mem_cons, List.not_mem_nil, or_false] at this
  rcases this with rfl | rfl | rfl | rfl <;> decide

theorem skipSpace_ws {w : Bytes} (h : Ws w) (c : UInt8) (r : Bytes) (hc : isSpace c = false) : skipSpace (w ++ c :: r) = c :: r := by
  have h' := ws_space h
  clear h
  induction w with
  | nil => simp [skipSpace, hc]
  | cons a w ih =>
    rw [List.cons_append, skipSpace, if_pos (h' a List.mem_cons_self).1]
    exact ih fun x hx => h' x (List.mem_cons_of_mem _ hx)

theorem skipSpace_all {w : Bytes} (h : Ws w) : skipSpace w = [] := by
  have h' := ws_space h
  clear h
  induction w with
  | nil => rfl
  | cons a w ih =>
    rw [skipSpace, if_pos (h' a List.mem_cons_self).1]
    exact ih fun x hx => h' x (List.mem_cons_of_mem _ hx)

theorem run_ws {st : Step} {stk : List Open} {w : Bytes} (h : Ws w)
    (hs : st = .beginValue ∨ st = .beginValueOrEmpty ∨ st = .beginString ∨ st = .beginStringOrEmpty ∨ (st = .endValue ∧ stk ≠ [])) :
    run ⟨st, stk⟩ w = ⟨st, stk⟩ := by
  have h' := ws_space h
  clear h
  induction w with
  | nil => rfl
  | cons a w ih =>
    have ha := (h' a List.mem_cons_self).1
    have : Scan.next ⟨st, stk⟩ a = ⟨st, stk⟩ := by
      rcases hs with rfl | rfl | rfl | rfl | ⟨rfl, hk⟩
      · simp only [Scan.next, stepBeginValue, ha, if_true]
      · simp only [Scan.next, ha, if_true]
      · simp only [Scan.next, stepBeginString, ha, if_true]
      · simp only [Scan.next, ha, if_true]
      · cases stk with
        | nil => exact absurd rfl hk
        | cons o k => simp only [Scan.next, stepEndValue, ha, if_true]
    simp only [run, List.foldl_cons, this]
    exact ih fun x hx => h' x (List.mem_cons_of_mem _ hx)

theorem run_ws_append {st : Step} {stk : List Open} {w : Bytes} (h : Ws w) (t : Bytes)
    (hs : st = .beginValue ∨ st = .beginValueOrEmpty ∨ st = .beginString ∨ st = .beginStringOrEmpty ∨ (st = .endValue ∧ stk ≠ [])) :
    run ⟨st, stk⟩ (w ++ t) = run ⟨st, stk⟩ t := by
  rw [run_append, run_ws h hs]

theorem ended_ws {s : Scan} {o : Open} {k : List Open} (h : Ended s (o :: k)) {x : Bytes} (hx : Ws x) : Ended (run s x) (o :: k) := by
  cases x with
  | nil => exact h
  | cons a x =>
    have ha := ws_space hx a List.mem_cons_self
    have h1 : s.next a = ⟨.endValue, o :: k⟩ := by
      rw [h a ha.2]
      simp only [stepEndValue, ha.1, if_true]
    simp only [run, List.foldl_cons, h1]
    have := run_ws (st := .endValue) (stk := o :: k) (w := x) (fun c hc => hx c (List.mem_cons_of_mem _ hc)) (by simp)
    rw [run] at this
    rw [this]
    exact ended_endValue _

/-- How the text of a value begins. -/
theorem val_first {C : Bytes → Bytes → Prop} {n : Nat} {v : Json} {t : Bytes} (h : Val C n v t) :
    ∃ c r, t = c :: r ∧ isSpace c = false ∧ c ≠ 93 ∧ c ≠ 125 := by
  have num : ∀ t, Number t → ∃ c r, t = c :: r ∧ isSpace c = false ∧ c ≠ 93 ∧ c ≠ 125 := by
    intro t h
    obtain ⟨-, c, r, rfl, hc⟩ := number_chars h
    refine ⟨c, r, rfl, ?_⟩
    rcases hc with rfl | hc
    · decide
    · have key : ∀ n : Fin 256, 48 ≤ UInt8.ofNat n.1 ∧ UInt8.ofNat n.1 ≤ 57 →
          isSpace (UInt8.ofNat n.1) = false ∧ UInt8.ofNat n.1 ≠ 93 ∧ UInt8.ofNat n.1 ≠ 125 := by decide +kernel
      have := key ⟨c.toNat, c.toNat_lt⟩
      simp only [UInt8.ofNat_toNat] at this
      exact this hc
  cases h with
  | num => rename_i h; exact num _ h
  | null => exact ⟨_, _, rfl, by decide⟩
  | true => exact ⟨_, _, rfl, by decide⟩
  | false => exact ⟨_, _, rfl, by decide⟩
  | str _ _ _ => exact ⟨_, _, rfl, by decide⟩
  | arr0 _ _ _ => exact ⟨_, _, rfl, by decide⟩
  | arr _ _ _ => exact ⟨_, _, rfl, by decide⟩
  | obj0 _ _ _ => exact ⟨_, _, rfl, by decide⟩
  | obj _ _ _ => exact ⟨_, _, rfl, by decide⟩

theorem run_cons (s : Scan) (c : UInt8) (t : Bytes) : run s (c :: t) = run (s.next c) t := rfl

theorem run_orEmpty {stk : List Open} {c : UInt8} {r : Bytes} (h1 : isSpace c = false) (h2 : c ≠ 93) :
    run ⟨.beginValueOrEmpty, stk⟩ (c :: r) = run ⟨.beginValue, stk⟩ (c :: r) := by
  rw [run_cons, run_cons]
  simp only [Scan.next, h1, if_neg h2]
  rw [if_neg (by simp)]

theorem val_scan {C : Bytes → Bytes → Prop} [Readable C] {n : Nat} {v : Json} {t : Bytes} (h : Val C n v t) :
    ∀ stk : List Open, stk.length + n ≤ maxDepth → Ended (run ⟨.beginValue, stk⟩ t) stk := by
  refine Val.rec (motive_1 := fun n v t _ => ∀ stk : List Open, stk.length + n ≤ maxDepth → Ended (run ⟨.beginValue, stk⟩ t) stk)
    (motive_2 := fun n l t _ => ∀ k : List Open, k.length + 1 + n ≤ maxDepth →
      run ⟨.beginValue, .elem :: k⟩ t = pop (.elem :: k) ∧ run ⟨.beginValueOrEmpty, .elem :: k⟩ t = pop (.elem :: k))
    (motive_3 := fun n l t _ => ∀ k : List Open, k.length + 1 + n ≤ maxDepth →
      run ⟨.beginString, .key :: k⟩ t = pop (.value :: k) ∧ run ⟨.beginStringOrEmpty, .key :: k⟩ t = pop (.value :: k))
    ?_ ?_ ?_ ?_ ?_ ?_ ?_ ?_ ?_ ?_ ?_ ?_ ?_ h
  · exact fun n stk _ => ended_endValue stk
  · exact fun n stk _ => ended_endValue stk
  · exact fun n stk _ => ended_endValue stk
  · exact fun n t h stk _ => run_number h stk
  · intro n s t h stk _
    rw [List.cons_append, run_cons, show Scan.next ⟨.beginValue, stk⟩ 34 = ⟨.inString, stk⟩ from rfl, run_append, (chars_all h).1]
    exact ended_endValue stk
  · intro n w h stk hd
    rw [List.cons_append, run_cons]
    have : Scan.next ⟨.beginValue, stk⟩ 91 = ⟨.beginValueOrEmpty, .elem :: stk⟩ := by
      show push stk .elem .beginValueOrEmpty = _
      rw [push, if_pos (by omega)]
    rw [this, run_append, run_ws h (by simp)]
    exact ended_pop .elem stk
  · intro n l t h ih stk hd
    have : Scan.next ⟨.beginValue, stk⟩ 91 = ⟨.beginValueOrEmpty, .elem :: stk⟩ := by
      show push stk .elem .beginValueOrEmpty = _
      rw [push, if_pos (by omega)]
    rw [run_cons, this, (ih stk (by omega)).2]
    exact ended_pop .elem stk
  · intro n w h stk hd
    rw [List.cons_append, run_cons]
    have : Scan.next ⟨.beginValue, stk⟩ 123 = ⟨.beginStringOrEmpty, .key :: stk⟩ := by
      show push stk .key .beginStringOrEmpty = _
      rw [push, if_pos (by omega)]
    rw [this, run_append, run_ws h (by simp)]
    exact ended_pop .value stk
  · intro n l t h ih stk hd
    have : Scan.next ⟨.beginValue, stk⟩ 123 = ⟨.beginStringOrEmpty, .key :: stk⟩ := by
      show push stk .key .beginStringOrEmpty = _
      rw [push, if_pos (by omega)]
    rw [run_cons, this, (ih stk (by omega)).2]
    exact ended_pop .value stk
  · intro n v w t x hw hv hx ih k hd
    have he := ended_ws (ih (.elem :: k) (by simp only [List.length_cons]; omega)) hx
    have h1 : run ⟨.beginValue, .elem :: k⟩ (t ++ x ++ [93]) = pop (.elem :: k) := by
      rw [run_append, run_append, run_cons, he 93 (by decide)]
      rfl
    obtain ⟨c, r, hc, c1, c2, -⟩ := val_first hv
    have h2 : run ⟨.beginValueOrEmpty, .elem :: k⟩ (t ++ x ++ [93]) = pop (.elem :: k) := by
      rw [← h1, hc]
      exact run_orEmpty c1 c2
    rw [List.append_assoc w, List.append_assoc w]
    rw [run_ws_append hw _ (by simp), run_ws_append hw _ (by simp)]
    exact ⟨h1, h2⟩
  · intro n v l w t x r hw hv hx hl ih ihl k hd
    have he := ended_ws (ih (.elem :: k) (by simp only [List.length_cons]; omega)) hx
    have h1 : run ⟨.beginValue, .elem :: k⟩ (t ++ x ++ 44 :: r) = pop (.elem :: k) := by
      rw [run_append, run_append, run_cons, he 44 (by decide)]
      exact (ihl k hd).1
    obtain ⟨c, r', hc, c1, c2, -⟩ := val_first hv
    have h2 : run ⟨.beginValueOrEmpty, .elem :: k⟩ (t ++ x ++ 44 :: r) = pop (.elem :: k) := by
      rw [← h1, hc]
      exact run_orEmpty c1 c2
    rw [List.append_assoc w, List.append_assoc w]
    rw [run_ws_append hw _ (by simp), run_ws_append hw _ (by simp)]
    exact ⟨h1, h2⟩
  · intro n kk v w q y w' t x hw hk hy hw' hv hx ih k hd
    have he := ended_ws (ih (.value :: k) (by simp only [List.length_cons]; omega)) hx
    have h1 : run ⟨.inString, .key :: k⟩ (q ++ 34 :: y ++ 58 :: w' ++ t ++ x ++ [125]) = pop (.value :: k) := by
      simp only [run_append, run_cons, (chars_all hk).1]
      rw [show Scan.next ⟨.inString, .key :: k⟩ 34 = ⟨.endValue, .key :: k⟩ from rfl, run_ws hy (by simp),
        show Scan.next ⟨.endValue, .key :: k⟩ 58 = ⟨.beginValue, .value :: k⟩ from rfl, run_ws hw' (by simp), he 125 (by decide)]
      rfl
    have e : w ++ 34 :: q ++ 34 :: y ++ 58 :: w' ++ t ++ x ++ [125] = w ++ 34 :: (q ++ 34 :: y ++ 58 :: w' ++ t ++ x ++ [125]) := by simp
    rw [e, run_ws_append hw _ (by simp), run_ws_append hw _ (by simp)]
    exact ⟨h1, h1⟩
  · intro n kk v l w q y w' t x r hw hk hy hw' hv hx hl ih ihl k hd
    have he := ended_ws (ih (.value :: k) (by simp only [List.length_cons]; omega)) hx
    have h1 : run ⟨.inString, .key :: k⟩ (q ++ 34 :: y ++ 58 :: w' ++ t ++ x ++ 44 :: r) = pop (.value :: k) := by
      simp only [run_append, run_cons, (chars_all hk).1]
      rw [show Scan.next ⟨.inString, .key :: k⟩ 34 = ⟨.endValue, .key :: k⟩ from rfl, run_ws hy (by simp),
        show Scan.next ⟨.endValue, .key :: k⟩ 58 = ⟨.beginValue, .value :: k⟩ from rfl, run_ws hw' (by simp), he 44 (by decide)]
      exact (ihl k hd).1
    have e : w ++ 34 :: q ++ 34 :: y ++ 58 :: w' ++ t ++ x ++ 44 :: r = w ++ 34 :: (q ++ 34 :: y ++ 58 :: w' ++ t ++ x ++ 44 :: r) := by simp
    rw [e, run_ws_append hw _ (by simp), run_ws_append hw _ (by simp)]
    exact ⟨h1, h1⟩

theorem run_endTop {x : Bytes} (h : Ws x) : run ⟨.endTop, []⟩ x = ⟨.endTop, []⟩ := by
  have h' := ws_space h
  clear h
  induction x with
  | nil => rfl
  | cons a w ih =>
    rw [run_cons, show Scan.next ⟨.endTop, []⟩ a = ⟨.endTop, []⟩ by simp only [Scan.next, stepEndTop, (h' a List.mem_cons_self).1, if_true]]
    exact ih fun x hx => h' x (List.mem_cons_of_mem _ hx)

theorem ended_not_error {s : Scan} (h : Ended s []) : s.step ≠ .error := by
  intro he
  have := h 32 (by decide)
  rw [show Scan.next s 32 = s by simp only [Scan.next, he]] at this
  rw [this] at he
  exact absurd he (by decide)

theorem ended_eof {s : Scan} (h : Ended s []) : s.eof = true := by
  unfold Scan.eof
  rw [if_neg (ended_not_error h), h 32 (by decide)]
  split
  · rfl
  · decide

theorem text_valid {C : Bytes → Bytes → Prop} [Readable C] {n : Nat} {v : Json} {t : Bytes} (h : Text C n v t) (hn : n ≤ maxDepth) : checkValid t = true := by
  obtain ⟨w, b, x, rfl, hw, hb, hx⟩ := h
  have he := val_scan hb [] (by simpa using hn)
  show (run start (w ++ b ++ x)).eof = true
  rw [run_append, run_append, show run start w = start from run_ws hw (by simp)]
  cases x with
  | nil => exact ended_eof he
  | cons a x =>
    have ha := ws_space hx a List.mem_cons_self
    rw [run_cons, show run start b = run ⟨.beginValue, []⟩ b from rfl, he a ha.2]
    rw [show stepEndValue [] a = ⟨.endTop, []⟩ by simp only [stepEndValue, stepEndTop, ha.1, if_true]]
    rw [run_endTop fun c hc => hx c (List.mem_cons_of_mem _ hc)]
    rfl

/-! ### Reading -/

theorem takeWhile_append_stop {p : UInt8 → Bool} (a r : Bytes) (ha : ∀ c ∈ a, p c = true) (hr : ∀ c ∈ r.head?, p c = false) :
    (a ++ r).takeWhile p = a ∧ (a ++ r).dropWhile p = r := by
  induction a with
  | nil =>
    cases r with
    | nil => exact ⟨rfl, rfl⟩
    | cons c r => simp [hr c (by simp)]
  | cons c a ih =>
    have := ih fun x hx => ha x (List.mem_cons_of_mem _ hx)
    simp [ha c List.mem_cons_self, this.1, this.2]

theorem val_read {C : Bytes → Bytes → Prop} [Readable C] {n : Nat} {v : Json} {t : Bytes} (h : Val C n v t) :
    ∀ (f : Nat) (r : Bytes), t.length < f → (∀ c ∈ r.head?, isNumChar c = false) → readValue f (t ++ r) = some (v, r) := by
  refine Val.rec
    (motive_1 := fun n v t _ => ∀ (f : Nat) (r : Bytes), t.length < f → (∀ c ∈ r.head?, isNumChar c = false) →
      readValue f (t ++ r) = some (v, r))
    (motive_2 := fun n l t _ => ∀ (f : Nat) (r : Bytes), t.length < f → readElems f (t ++ r) = some (l, r))
    (motive_3 := fun n l t _ => ∀ (f : Nat) (r : Bytes), t.length < f → readMembers f (t ++ r) = some (l, r))
    ?_ ?_ ?_ ?_ ?_ ?_ ?_ ?_ ?_ ?_ ?_ ?_ ?_ h
  · intro n f r hf _
    cases f with
    | zero => omega
    | succ f => rfl
  · intro n f r hf _
    cases f with
    | zero => omega
    | succ f => rfl
  · intro n f r hf _
    cases f with
    | zero => omega
    | succ f => rfl
  · intro n t ht f r hf hr
    obtain ⟨hall, c, t', rfl, hc⟩ := number_chars ht
    cases f with
    | zero => omega
    | succ f =>
      have hne : c ≠ 123 ∧ c ≠ 91 ∧ c ≠ 34 ∧ c ≠ 116 ∧ c ≠ 102 ∧ c ≠ 110 := by
        have key : ∀ n : Fin 256, (UInt8.ofNat n.1 = 45 ∨ (48 ≤ UInt8.ofNat n.1 ∧ UInt8.ofNat n.1 ≤ 57)) →
          UInt8.ofNat n.1 ≠ 123 ∧ UInt8.ofNat n.1 ≠ 91 ∧ UInt8.ofNat n.1 ≠ 34 ∧ UInt8.ofNat n.1 ≠ 116 ∧ UInt8.ofNat n.1 ≠ 102 ∧
            UInt8.ofNat n.1 ≠ 110 := by decide +kernel
        have := key ⟨c.toNat, c.toNat_lt⟩
        simp only [UInt8.ofNat_toNat] at this
        exact this hc
      obtain ⟨m1, m2, m3, m4, m5, m6⟩ := hne
      have ht := takeWhile_append_stop t' r (fun x hx => hall x (List.mem_cons_of_mem _ hx)) hr
      rw [List.cons_append, readValue, if_neg m1, if_neg m2, if_neg m3, if_neg m4, if_neg m5, if_neg m6, ht.1, ht.2]
  · intro n s t hs f r hf _
    cases f with
    | zero => omega
    | succ f =>
      rw [List.append_assoc, List.cons_append, readValue, if_neg (by decide), if_neg (by decide), if_pos rfl]
      rw [show t ++ ([34] ++ r) = t ++ 34 :: r from rfl, readString_chars hs]
      rfl
  · intro n w hw f r hf _
    cases f with
    | zero => omega
    | succ f =>
      cases f with
      | zero => simp at hf
      | succ f =>
        rw [List.append_assoc, List.cons_append, readValue, if_neg (by decide), if_pos rfl, readElems]
        rw [show w ++ ([93] ++ r) = w ++ 93 :: r from rfl, skipSpace_ws hw 93 r (by decide)]
        rfl
  · intro n l t ht ih f r hf _
    cases f with
    | zero => omega
    | succ f =>
      rw [List.cons_append, readValue, if_neg (by decide), if_pos rfl, ih f r (by simp only [List.length_cons] at hf; omega)]
      rfl
  · intro n w hw f r hf _
    cases f with
    | zero => omega
    | succ f =>
      cases f with
      | zero => simp at hf
      | succ f =>
        rw [List.append_assoc, List.cons_append, readValue, if_pos rfl, readMembers]
        rw [show w ++ ([125] ++ r) = w ++ 125 :: r from rfl, skipSpace_ws hw 125 r (by decide)]
        rfl
  · intro n l t ht ih f r hf _
    cases f with
    | zero => omega
    | succ f =>
      rw [List.cons_append, readValue, if_pos rfl, ih f r (by simp only [List.length_cons] at hf; omega)]
      rfl
  · intro n v w t x hw hv hx ih f r hf
    cases f with
    | zero => omega
    | succ f =>
      simp only [List.length_append, List.length_cons, List.length_nil] at hf
      have hv' := ih f (x ++ 93 :: r) (by omega) (by
        intro c hc
        cases x with
        | nil => simp at hc; subst hc; decide
        | cons a x => simp at hc; subst hc; exact (ws_space hx a List.mem_cons_self).2)
      obtain ⟨c, t', hc, c1, c2, -⟩ := val_first hv
      have e : w ++ t ++ x ++ [93] ++ r = w ++ c :: (t' ++ (x ++ 93 :: r)) := by rw [hc]; simp
      rw [e, readElems, skipSpace_ws hw c _ c1]
      have e2 : c :: (t' ++ (x ++ 93 :: r)) = t ++ (x ++ 93 :: r) := by rw [hc]; simp
      split
      · rename_i e3; exact absurd (List.cons.inj e3).1 c2
      · rw [e2, hv']
        simp only [skipSpace_ws hx 93 r (by decide)]
  · intro n v l w t x r' hw hv hx hl ih ihl f r hf
    cases f with
    | zero => omega
    | succ f =>
      simp only [List.length_append, List.length_cons] at hf
      have hv' := ih f (x ++ 44 :: (r' ++ r)) (by omega) (by
        intro c hc
        cases x with
        | nil => simp at hc; subst hc; decide
        | cons a x => simp at hc; subst hc; exact (ws_space hx a List.mem_cons_self).2)
      obtain ⟨c, t', hc, c1, c2, -⟩ := val_first hv
      have e : w ++ t ++ x ++ 44 :: r' ++ r = w ++ c :: (t' ++ (x ++ 44 :: (r' ++ r))) := by rw [hc]; simp
      rw [e, readElems, skipSpace_ws hw c _ c1]
      have e2 : c :: (t' ++ (x ++ 44 :: (r' ++ r))) = t ++ (x ++ 44 :: (r' ++ r)) := by rw [hc]; simp
      split
      · rename_i e3; exact absurd (List.cons.inj e3).1 c2
      · rw [e2, hv']
        simp only [skipSpace_ws hx 44 (r' ++ r) (by decide)]
        rw [ihl f r (by omega)]
        rfl
  · intro n k v w q y w' t x hw hk hy hw' hv hx ih f r hf
    cases f with
    | zero => omega
    | succ f =>
      simp only [List.length_append, List.length_cons, List.length_nil] at hf
      have hv' := ih f (x ++ 125 :: r) (by omega) (by
        intro c hc
        cases x with
        | nil => simp at hc; subst hc; decide
        | cons a x => simp at hc; subst hc; exact (ws_space hx a List.mem_cons_self).2)
      obtain ⟨c, t', hc, c1, -, -⟩ := val_first hv
      have e : w ++ 34 :: q ++ 34 :: y ++ 58 :: w' ++ t ++ x ++ [125] ++ r = w ++ 34 :: (q ++ 34 :: (y ++ 58 :: (w' ++ c :: (t' ++ (x ++ 125 :: r))))) := by
        rw [hc]; simp
      have e2 : c :: (t' ++ (x ++ 125 :: r)) = t ++ (x ++ 125 :: r) := by rw [hc]; simp
      rw [e, readMembers, skipSpace_ws hw 34 _ (by decide)]
      simp only [readString_chars hk, skipSpace_ws hy 58 _ (by decide), skipSpace_ws hw' c _ c1]
      rw [e2, hv']
      simp only [skipSpace_ws hx 125 r (by decide)]
  · intro n k v l w q y w' t x r' hw hk hy hw' hv hx hl ih ihl f r hf
    cases f with
    | zero => omega
    | succ f =>
      simp only [List.length_append, List.length_cons] at hf
      have hv' := ih f (x ++ 44 :: (r' ++ r)) (by omega) (by
        intro c hc
        cases x with
        | nil => simp at hc; subst hc; decide
        | cons a x => simp at hc; subst hc; exact (ws_space hx a List.mem_cons_self).2)
      obtain ⟨c, t', hc, c1, -, -⟩ := val_first hv
      have e : w ++ 34 :: q ++ 34 :: y ++ 58 :: w' ++ t ++ x ++ 44 :: r' ++ r =
          w ++ 34 :: (q ++ 34 :: (y ++ 58 :: (w' ++ c :: (t' ++ (x ++ 44 :: (r' ++ r)))))) := by
        rw [hc]; simp
      have e2 : c :: (t' ++ (x ++ 44 :: (r' ++ r))) = t ++ (x ++ 44 :: (r' ++ r)) := by rw [hc]; simp
      rw [e, readMembers, skipSpace_ws hw 34 _ (by decide)]
      simp only [readString_chars hk, skipSpace_ws hy 58 _ (by decide), skipSpace_ws hw' c _ c1]
      rw [e2, hv']
      simp only [skipSpace_ws hx 44 (r' ++ r) (by decide)]
      rw [ihl f r (by omega)]
      rfl

theorem text_read {C : Bytes → Bytes → Prop} [Readable C] {n : Nat} {v : Json} {t : Bytes} (h : Text C n v t) (hn : n ≤ maxDepth) : parse t = some v := by
  have hv := text_valid h hn
  obtain ⟨w, b, x, rfl, hw, hb, hx⟩ := h
  obtain ⟨c, b', hc, c1, -⟩ := val_first hb
  unfold parse
  rw [if_pos hv]
  have e : skipSpace (w ++ b ++ x) = b ++ x := by
    rw [hc, List.append_assoc, List.cons_append, skipSpace_ws hw c _ c1]
  rw [e, val_read hb _ x (by simp only [List.length_append]; omega)]
  · rfl
  · intro a ha
    cases x with
    | nil => cases ha
    | cons a' x => simp at ha; subst ha; exact (ws_space hx a' List.mem_cons_self).2

/-! ### Texts that are cut off -/

/-- The scanner is inside brackets, behind the value, or has failed. -/
def Inside (s : Scan) : Prop := s.stack ≠ [] ∨ s.step = .endTop ∨ s.step = .error

theorem inside_endValue {stk : List Open} (h : stk ≠ []) (c : UInt8) : Inside (stepEndValue stk c) := by
  cases stk with
  | nil => exact absurd rfl h
  | cons o k =>
    have hp : Inside (pop (o :: k)) := by
      cases k with
      | nil => exact .inr (.inl rfl)
      | cons _ _ => exact .inl (by simp [pop])
    simp only [stepEndValue]
    split
    · exact .inl (by simp)
    · cases o with
      | key => simp only; split <;> exact .inl (by simp)
      | value => simp only; split; · exact .inl (by simp)
                 split; · exact hp
                 exact .inl (by simp)
      | elem => simp only; split; · exact .inl (by simp)
                split; · exact hp
                exact .inl (by simp)

theorem stack_beginValue (stk : List Open) (c : UInt8) : stk ≠ [] → (stepBeginValue stk c).stack ≠ [] := by
  intro h
  unfold stepBeginValue push
  repeat' split
  all_goals first | exact h | simp

theorem stack_beginString (stk : List Open) (c : UInt8) : stk ≠ [] → (stepBeginString stk c).stack ≠ [] := by
  intro h
  unfold stepBeginString
  repeat' split
  all_goals exact h

theorem inside_zero {stk : List Open} (h : stk ≠ []) (c : UInt8) : Inside (stepZero stk c) := by
  unfold stepZero
  split
  · exact .inl h
  · split
    · exact .inl h
    · exact inside_endValue h c

theorem inside_eSign {stk : List Open} (h : stk ≠ []) (c : UInt8) : Inside (stepESign stk c) := by
  unfold stepESign
  split <;> exact .inl h

theorem inside_next {s : Scan} (h : Inside s) (c : UInt8) : Inside (s.next c) := by
  obtain ⟨st, stk⟩ := s
  by_cases hs : stk = []
  · subst hs
    rcases h with h | h | h
    · exact absurd rfl h
    · simp only at h
      subst h
      simp only [Scan.next, stepEndTop]
      split
      · exact .inr (.inl rfl)
      · exact .inr (.inr rfl)
    · simp only at h
      subst h
      exact .inr (.inr rfl)
  · cases st with
    | beginValue => exact .inl (stack_beginValue stk c hs)
    | beginValueOrEmpty =>
      simp only [Scan.next]
      split
      · exact .inl hs
      · split
        · exact inside_endValue hs c
        · exact .inl (stack_beginValue stk c hs)
    | beginString => exact .inl (stack_beginString stk c hs)
    | beginStringOrEmpty =>
      simp only [Scan.next]
      split
      · exact .inl hs
      · split
        · exact inside_endValue (by simp) c
        · exact .inl (stack_beginString stk c hs)
    | endValue => exact inside_endValue hs c
    | endTop => simp only [Scan.next, stepEndTop]; split <;> exact .inl hs
    | inString => simp only [Scan.next]; repeat' split
                  all_goals exact .inl hs
    | esc => simp only [Scan.next]; repeat' split
             all_goals exact .inl hs
    | escU n => simp only [Scan.next]; repeat' split
                all_goals exact .inl hs
    | neg => simp only [Scan.next]; repeat' split
             all_goals exact .inl hs
    | one => simp only [Scan.next]; split; · exact .inl hs
             exact inside_zero hs c
    | zero => exact inside_zero hs c
    | dot => simp only [Scan.next]; split <;> exact .inl hs
    | dot0 => simp only [Scan.next]; split; · exact .inl hs
              split; · exact .inl hs
              exact inside_endValue hs c
    | e => simp only [Scan.next]; split; · exact .inl hs
           exact inside_eSign hs c
    | eSign => exact inside_eSign hs c
    | e0 => simp only [Scan.next]; split; · exact .inl hs
            exact inside_endValue hs c
    | lit l =>
      cases l with
      | nil => exact .inl hs
      | cons a l => cases l with
        | nil => simp only [Scan.next]; split <;> exact .inl hs
        | cons b l => simp only [Scan.next]; split <;> exact .inl hs
    | error => exact .inl hs

theorem inside_run {s : Scan} (h : Inside s) (t : Bytes) : Inside (run s t) := by
  induction t generalizing s with
  | nil => exact h
  | cons c t ih => exact ih (inside_next h c)

theorem run_error (stk : List Open) (t : Bytes) : run ⟨.error, stk⟩ t = ⟨.error, stk⟩ := by
  induction t with
  | nil => rfl
  | cons c t ih => exact ih

/-- A step on white space does not close a bracket. -/
theorem next_space {s : Scan} (h : s.stack ≠ []) (he : s.step ≠ .endTop) : (s.next 32).step ≠ .endTop := by
  obtain ⟨st, stk⟩ := s
  simp only at h he
  have hv : (stepEndValue stk 32).step ≠ .endTop := by
    cases stk with
    | nil => exact absurd rfl h
    | cons o k => simp [stepEndValue, isSpace]
  cases st with
  | endTop => exact absurd rfl he
  | endValue => exact hv
  | one => exact hv
  | zero => exact hv
  | dot0 => exact hv
  | e0 => exact hv
  | escU n => simp [Scan.next, isHex, isDigit]
  | lit l =>
    cases l with
    | nil => simp [Scan.next]
    | cons a l => cases l with
      | nil => simp only [Scan.next]; split <;> simp
      | cons b l => simp only [Scan.next]; split <;> simp
  | _ => intro hh; cases hh

/-- A valid text that begins with a bracket and does not end in white space is not valid any more when it is cut off. -/
theorem cut_invalid {c d : UInt8} {m : Bytes} (hc : c = 123 ∨ c = 91) (hd : isSpace d = false)
    (hv : checkValid (c :: m ++ [d]) = true) (n : Nat) (hn : n < (c :: m ++ [d]).length) : checkValid ((c :: m ++ [d]).take n) = false := by
  generalize ht : c :: m ++ [d] = t at hv hn
  cases n with
  | zero => rfl
  | succ n =>
    have htake : t.take (n + 1) = c :: (m ++ [d]).take n := by rw [← ht]; rfl
    have hsplit : t = t.take (n + 1) ++ t.drop (n + 1) := (List.take_append_drop _ _).symm
    have hfirst : Inside (start.next c) := by rcases hc with rfl | rfl <;> exact .inl (by decide)
    have hin : Inside (run start (t.take (n + 1))) := by
      rw [htake, run_cons]
      exact inside_run hfirst _
    -- what comes after a text that is complete must be white space
    have hend : (run start (t.take (n + 1))).step ≠ .endTop := by
      intro he
      have hlast : ∃ y, t.drop (n + 1) = y ++ [d] := by
        have : (t.drop (n + 1)).getLast? = some d := by
          rw [List.getLast?_drop, if_neg (by omega), ← ht]
          exact List.getLast?_concat
        exact List.getLast?_eq_some_iff.mp this
      obtain ⟨y, hy⟩ := hlast
      have hv' : (run (run (run start (t.take (n + 1))) y) [d]).eof = true := by
        rw [← run_append, ← run_append, ← hy, ← hsplit]
        exact hv
      have key : ∀ (y : Bytes) (s : Scan), s.step = .endTop ∨ s.step = .error → (run s y).step = .endTop ∨ (run s y).step = .error := by
        intro y
        induction y with
        | nil => exact fun s h => h
        | cons a y ih =>
          intro s h
          refine ih _ ?_
          rcases h with h | h
          · simp only [Scan.next, h, stepEndTop]
            split
            · exact .inl rfl
            · exact .inr rfl
          · simp only [Scan.next, h]
            exact .inr trivial
      have hbad : (run (run (run start (t.take (n + 1))) y) [d]).step = .error := by
        rcases key y _ (.inl he) with h | h
        · rw [run_cons]
          simp only [Scan.next, h, stepEndTop, hd]
          rfl
        · rw [run_cons]
          simp only [Scan.next, h, run, List.foldl_nil]
      unfold Scan.eof at hv'
      rw [if_pos hbad] at hv'
      cases hv'
    show (run start (t.take (n + 1))).eof = false
    unfold Scan.eof
    split
    · rfl
    · rename_i hne
      rcases hin with h | h | h
      · simp only [decide_eq_false_iff_not]
        exact next_space h hend
      · exact absurd h hend
      · exact absurd h hne

end Verif.Json
