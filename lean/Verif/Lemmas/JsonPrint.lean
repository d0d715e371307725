import Verif.Lemmas.Json
/-
  Lemmas about the JSON texts that octorpki writes.
-/
set_option autoImplicit false

namespace Verif.Json
open JsonSpec Out Net

/-! ### Characters -/

/-- What is taken for a character beyond ASCII is one. -/
theorem runeLen_sound {b : UInt8} {r : Bytes} {n : Nat} (h : runeLen (b :: r) = some n) :
    ∃ c u t, b :: r = u ++ t ∧ u.length = n ∧ Utf8 c u ∧ 0x80 ≤ c := by
  have enc : ∀ (k : Nat) (x : UInt8), k = x.toNat → k.toUInt8 = x := by
    intro k x e
    subst e
    simp
  cases r with
  | nil => cases h
  | cons b2 r =>
    simp only [runeLen, isCont] at h
    have key : ∀ (x y : UInt8), x ≤ y ↔ x.toNat ≤ y.toNat := fun x y => UInt8.le_iff_toNat_le
    simp only [Bool.and_eq_true, Bool.or_eq_true, decide_eq_true_eq, ne_iff_toNat, key] at h
    have n1 : (0xc2 : UInt8).toNat = 0xc2 := rfl
    have n2 : (0xdf : UInt8).toNat = 0xdf := rfl
    have n3 : (0xe0 : UInt8).toNat = 0xe0 := rfl
    have n4 : (0xef : UInt8).toNat = 0xef := rfl
    have n5 : (0xf0 : UInt8).toNat = 0xf0 := rfl
    have n6 : (0xf4 : UInt8).toNat = 0xf4 := rfl
    have n7 : (0x80 : UInt8).toNat = 0x80 := rfl
    have n8 : (0xbf : UInt8).toNat = 0xbf := rfl
    have n9 : (0xa0 : UInt8).toNat = 0xa0 := rfl
    have n10 : (0xed : UInt8).toNat = 0xed := rfl
    have n11 : (0x9f : UInt8).toNat = 0x9f := rfl
    have n12 : (0x90 : UInt8).toNat = 0x90 := rfl
    have n13 : (0x8f : UInt8).toNat = 0x8f := rfl
    simp only [n1, n2, n3, n4, n5, n6, n7, n8, n9, n10, n11, n12, n13] at h
    split at h
    · rename_i h1
      split at h
      · rename_i h2
        cases h
        have hn := Utf8.two ((b.toNat - 0xc0) * 64 + (b2.toNat - 0x80)) (by omega)
        rw [enc _ b (by omega), enc _ b2 (by omega)] at hn
        exact ⟨_, _, r, rfl, rfl, hn, by omega⟩
      · cases h
    · split at h
      · rename_i h1
        cases r with
        | nil => cases h
        | cons b3 r =>
          simp only at h
          split at h
          · rename_i h2
            cases h
            have hn := Utf8.three ((b.toNat - 0xe0) * 4096 + (b2.toNat - 0x80) * 64 + (b3.toNat - 0x80)) (by omega) (by unfold Scalar; omega)
            rw [enc _ b (by omega), enc _ b2 (by omega), enc _ b3 (by omega)] at hn
            exact ⟨_, _, r, rfl, rfl, hn, by omega⟩
          · cases h
      · split at h
        · rename_i h1
          cases r with
          | nil => cases h
          | cons b3 r => cases r with
            | nil => cases h
            | cons b4 r =>
              simp only at h
              split at h
              · rename_i h2
                cases h
                have hn := Utf8.four ((b.toNat - 0xf0) * 262144 + (b2.toNat - 0x80) * 4096 + (b3.toNat - 0x80) * 64 + (b4.toNat - 0x80)) (by omega)
                rw [enc _ b (by omega), enc _ b2 (by omega), enc _ b3 (by omega), enc _ b4 (by omega)] at hn
                exact ⟨_, _, r, rfl, rfl, hn, by omega⟩
              · cases h
        · cases h

/-- The character at the front is unique. -/
theorem utf8_front {n m : Nat} {u w s t : Bytes} (hu : Utf8 n u) (hw : Utf8 m w) (h : u ++ s = w ++ t) : u = w ∧ s = t := by
  have hlen : u.length = w.length := by
    by_cases h1 : n < 0x80
    · obtain ⟨rfl, e1⟩ := utf8_ascii hu h1
      by_cases h2 : m < 0x80
      · obtain ⟨rfl, -⟩ := utf8_ascii hw h2
        rfl
      · obtain ⟨b, v, rfl, hb, -⟩ := utf8_multi hw (by omega) t
        have := (List.cons.inj h).1
        subst this
        rw [UInt8.le_iff_toNat_le, e1] at hb
        exact absurd hb (by show ¬ 128 ≤ n; omega)
    · obtain ⟨b, v, hu', hb, -, hl⟩ := utf8_multi hu (by omega) s
      by_cases h2 : m < 0x80
      · obtain ⟨rfl, e2⟩ := utf8_ascii hw h2
        subst hu'
        have := (List.cons.inj h).1
        subst this
        rw [UInt8.le_iff_toNat_le, e2] at hb
        exact absurd hb (by show ¬ 128 ≤ m; omega)
      · obtain ⟨b', v', -, -, -, hl'⟩ := utf8_multi hw (by omega) t
        rw [h, hl'] at hl
        exact (Option.some.inj hl).symm
  exact List.append_inj h hlen

theorem utf8_ne_nil {n : Nat} {u : Bytes} (h : Utf8 n u) : u ≠ [] := by cases h <;> simp

/-- Nothing is replaced in a string in UTF-8. -/
theorem replaced_utf8 {s s' : Bytes} (h : IsUtf8 s) (hr : Replaced s s') : s' = s := by
  induction h generalizing s' with
  | nil =>
    generalize he : ([] : Bytes) = x at hr
    cases hr with
    | nil => rfl
    | char n u s t h hs =>
      have := utf8_ne_nil h
      cases u with
      | nil => exact absurd rfl this
      | cons _ _ => cases he
    | bad b s t h hs => cases he
  | cons n u s hu hs ih =>
    generalize he : u ++ s = x at hr
    cases hr with
    | nil =>
      have := utf8_ne_nil hu
      cases u with
      | nil => exact absurd rfl this
      | cons _ _ => cases he
    | char m w s2 t hw hs2 =>
      obtain ⟨rfl, rfl⟩ := utf8_front hu hw he
      rw [ih hs2]
    | bad b s2 t hb hs2 => exact absurd ⟨n, u, hu, s, he⟩ hb

/-- There is always exactly one result. -/
theorem replaced_unique {s a b : Bytes} (ha : Replaced s a) (hb : Replaced s b) : a = b := by
  induction ha generalizing b with
  | nil =>
    generalize he : ([] : Bytes) = x at hb
    cases hb with
    | nil => rfl
    | char n u s t h hs =>
      have := utf8_ne_nil h
      cases u with
      | nil => exact absurd rfl this
      | cons _ _ => cases he
    | bad b s t h hs => cases he
  | char n u s t hu hs ih =>
    generalize he : u ++ s = x at hb
    cases hb with
    | nil =>
      have := utf8_ne_nil hu
      cases u with
      | nil => exact absurd rfl this
      | cons _ _ => cases he
    | char m w s2 t2 hw hs2 =>
      obtain ⟨rfl, rfl⟩ := utf8_front hu hw he
      rw [ih hs2]
    | bad b s2 t2 hb' hs2 => exact absurd ⟨n, u, hu, s, he⟩ hb'
  | bad c s t hc hs ih =>
    generalize he : c :: s = x at hb
    cases hb with
    | nil => cases he
    | char m w s2 t2 hw hs2 => exact absurd ⟨m, w, hw, s2, he.symm⟩ hc
    | bad b s2 t2 hb' hs2 =>
      cases he
      rw [ih hs2]

/-! ### Strings -/

theorem escLoop_skip (x t : Bytes) : escLoop x.length (x ++ t) = escLoop 0 t := by
  induction x with
  | nil => rfl
  | cons c x ih => exact ih

theorem hex4_digit (a b : Nat) (ha : a < 16) (hb : b < 16) : Hex4 (16 * a + b) [48, 48, digitChar a, digitChar b] := by
  have hd : ∀ d, d < 16 → digitChar d = (asc "0123456789abcdef".toList).getD d 0 := by decide +kernel
  refine ⟨(0, 48), (0, 48), (a, digitChar a), (b, digitChar b), rfl, by simp, ?_⟩
  intro x hx
  simp only [List.mem_cons, List.not_mem_nil, or_false] at hx
  rcases hx with rfl | rfl | rfl | rfl
  · decide +kernel
  · decide +kernel
  · exact ⟨ha, .inl (hd a ha)⟩
  · exact ⟨hb, .inl (hd b hb)⟩

theorem esc_ascii (b : UInt8) (hb : b < 0x80) (s t : Bytes) (hs : Chars s t) : Chars (b :: s) (escByte b ++ t) := by
  have hlt : b.toNat < 0x80 := UInt8.lt_iff_toNat_lt.mp hb
  have hu : Utf8 b.toNat [b] := by
    have := Utf8.one b.toNat hlt
    rwa [show b.toNat.toUInt8 = b by simp] at this
  unfold escByte
  split
  · rename_i h
    rcases h with rfl | rfl
    · exact Chars.short 34 34 s t (by decide) hs
    · exact Chars.short 92 92 s t (by decide) hs
  · rename_i h0
    split
    · rename_i h; subst h; exact Chars.short 110 10 s t (by decide) hs
    · split
      · rename_i h; subst h; exact Chars.short 114 13 s t (by decide) hs
      · split
        · rename_i h; subst h; exact Chars.short 116 9 s t (by decide) hs
        · split
          · have h4 := hex4_digit (b.toNat / 16) (b.toNat % 16) (by omega) (by omega)
            rw [show 16 * (b.toNat / 16) + b.toNat % 16 = b.toNat by omega] at h4
            exact Chars.hex b.toNat [b] _ s t h4 hu hs
          · rename_i h
            have hne : ∀ k : UInt8, b ≠ k → b.toNat ≠ k.toNat := fun k h e => h (UInt8.toNat_inj.mp e)
            refine Chars.char b.toNat [b] s t hu ?_ (hne 34 fun e => h0 (.inl e)) (hne 92 fun e => h0 (.inr e)) hs
            have : ¬ b < 0x20 := fun e => h (.inl e)
            rw [UInt8.lt_iff_toNat_lt] at this
            exact Nat.le_of_not_lt this

theorem hex4_fffd : Hex4 0xfffd [102, 102, 102, 100] := ⟨(15, 102), (15, 102), (15, 102), (13, 100), rfl, rfl, by decide +kernel⟩

theorem hex4_2028 : Hex4 0x2028 [50, 48, 50, 56] := ⟨(2, 50), (0, 48), (2, 50), (8, 56), rfl, rfl, by decide +kernel⟩

theorem hex4_2029 : Hex4 0x2029 [50, 48, 50, 57] := ⟨(2, 50), (0, 48), (2, 50), (9, 57), rfl, rfl, by decide +kernel⟩

theorem utf8_fffd : Utf8 0xfffd replacement := Utf8.three 0xfffd (by omega) (by unfold Scalar; omega)

theorem utf8_2028 : Utf8 0x2028 [0xe2, 0x80, 0xa8] := Utf8.three 0x2028 (by omega) (by unfold Scalar; omega)

theorem utf8_2029 : Utf8 0x2029 [0xe2, 0x80, 0xa9] := Utf8.three 0x2029 (by omega) (by unfold Scalar; omega)

/-- What is written between the quotation marks stands for the string, with the replacement of what is not UTF-8. -/
theorem esc_chars (s : Bytes) : ∃ s', Chars s' (escLoop 0 s) ∧ Replaced s s' := by
  generalize hn : s.length = n
  induction n using Nat.strongRecOn generalizing s with
  | _ n ih =>
    cases s with
    | nil => exact ⟨[], .nil, .nil⟩
    | cons b r =>
      by_cases hb : b < 0x80
      · obtain ⟨r', h1, h2⟩ := ih r.length (by subst hn; simp) r rfl
        refine ⟨b :: r', ?_, ?_⟩
        · rw [escLoop, if_pos hb]
          exact esc_ascii b hb r' _ h1
        · have hlt : b.toNat < 0x80 := UInt8.lt_iff_toNat_lt.mp hb
          have hu := Utf8.one b.toNat hlt
          rw [show b.toNat.toUInt8 = b by simp] at hu
          exact Replaced.char _ _ _ _ hu h2
      · have hge : 0x80 ≤ b := by
          rw [UInt8.lt_iff_toNat_lt] at hb
          exact UInt8.le_iff_toNat_le.mpr (Nat.le_of_not_lt hb)
        cases hl : runeLen (b :: r) with
        | none =>
          obtain ⟨r', h1, h2⟩ := ih r.length (by subst hn; simp) r rfl
          refine ⟨replacement ++ r', ?_, ?_⟩
          · rw [escLoop, if_neg hb, hl]
            exact Chars.hex 0xfffd replacement _ r' _ hex4_fffd utf8_fffd h1
          · refine Replaced.bad b r r' ?_ h2
            rintro ⟨m, w, hw, t, ht⟩
            by_cases hm : m < 0x80
            · obtain ⟨rfl, e⟩ := utf8_ascii hw hm
              have := (List.cons.inj ht).1
              subst this
              rw [UInt8.le_iff_toNat_le, e] at hge
              exact absurd hge (by show ¬ 128 ≤ m; omega)
            · obtain ⟨-, -, -, -, -, hl'⟩ := utf8_multi hw (by omega) t
              rw [ht, hl] at hl'
              cases hl'
        | some k =>
          obtain ⟨c, u, t, hut, hk, hu, hc⟩ := runeLen_sound hl
          have hulen : 0 < u.length := by
            have := utf8_ne_nil hu
            exact List.length_pos_iff.mpr this
          have hlen : t.length < n := by
            rw [← hn, hut, List.length_append]
            omega
          obtain ⟨t', h1, h2⟩ := ih t.length hlen t rfl
          have hrest : escLoop (k - 1) r = escLoop 0 t := by
            cases u with
            | nil => simp at hulen
            | cons a u' =>
              have e := List.cons.inj hut
              rw [e.2, ← hk]
              exact escLoop_skip u' t
          refine ⟨u ++ t', ?_, by rw [hut]; exact Replaced.char c u t t' hu h2⟩
          rw [escLoop, if_neg hb, hl]
          simp only [hrest]
          have front : ∀ {m : Nat} {w : Bytes}, Utf8 m w → w.length = 3 → (b :: r).take 3 = w → u = w := by
            intro m w hw h3 htk
            have : b :: r = w ++ (b :: r).drop 3 := by rw [← htk]; exact (List.take_append_drop 3 _).symm
            exact (utf8_front hu hw (hut.symm.trans this)).1
          split
          · rename_i h
            rw [front utf8_2028 rfl h]
            exact Chars.hex 0x2028 _ _ t' _ hex4_2028 utf8_2028 h1
          · split
            · rename_i h
              rw [front utf8_2029 rfl h]
              exact Chars.hex 0x2029 _ _ t' _ hex4_2029 utf8_2029 h1
            · have : (b :: r).take k = u := by rw [hut, ← hk, List.take_left]
              rw [this]
              exact Chars.char c u t' _ hu (by omega) (by omega) (by omega) h1

theorem esc_utf8 {s : Bytes} (h : IsUtf8 s) : Chars s (escLoop 0 s) := by
  obtain ⟨s', h1, h2⟩ := esc_chars s
  rwa [replaced_utf8 h h2] at h1

theorem isUtf8_ascii (s : Bytes) (h : ∀ c ∈ s, c < 0x80) : IsUtf8 s := by
  induction s with
  | nil => exact .nil
  | cons b s ih =>
    have hlt : b.toNat < 0x80 := UInt8.lt_iff_toNat_lt.mp (h b List.mem_cons_self)
    have hu := Utf8.one b.toNat hlt
    rw [show b.toNat.toUInt8 = b by simp] at hu
    exact IsUtf8.cons _ [b] s hu (ih fun c hc => h c (List.mem_cons_of_mem _ hc))

/-! ### Values -/

theorem number_int (i : Int) : Number (intText i) := by
  have hint : ∀ n : Nat, numText 10 n = [48] ∨ Digits (numText 10 n) ∧ (numText 10 n).head? ≠ some 48 := by
    intro n
    have hd : Digits (numText 10 n) := by
      refine ⟨numText_ne_nil, fun c hc => ?_⟩
      have := digits_chars_ge c hc
      exact ⟨UInt8.le_iff_toNat_le.mpr this.1, UInt8.le_iff_toNat_le.mpr this.2⟩
    by_cases hl : (numText 10 n).length > 1
    · refine .inr ⟨hd, ?_⟩
      have := numText_leading hl []
      rwa [List.append_nil] at this
    · have hne : numText 10 n ≠ [] := numText_ne_nil
      generalize numText 10 n = t at hd hl hne ⊢
      match t, hl, hne with
      | [c], _, _ =>
        by_cases h : c = 48
        · exact .inl (by rw [h])
        · exact .inr ⟨hd, by simpa using h⟩
      | _ :: _ :: _, hl, _ => simp at hl
  unfold intText
  split
  · exact ⟨[45], numText 10 i.natAbs, [], [], by simp, .inr rfl, hint _, .inl rfl, .inl rfl⟩
  · exact ⟨[], numText 10 i.natAbs, [], [], by simp, .inl rfl, hint _, .inl rfl, .inl rfl⟩

theorem parseInt64_text {i : Int} (h1 : -(2 ^ 63) ≤ i) (h2 : i < 2 ^ 63) : parseInt64 (intText i) = some i := by
  have hgo : ∀ n : Nat, (numText 10 n).all isDigit = true := by
    intro n
    rw [List.all_eq_true]
    intro c hc
    have := digits_chars_ge c hc
    exact isDigit_iff.mpr ⟨UInt8.le_iff_toNat_le.mpr this.1, UInt8.le_iff_toNat_le.mpr this.2⟩
  have hval : ∀ n : Nat, (numText 10 n).foldl (fun a c => 10 * a + (c.toNat - 48)) 0 = n := by
    intro n
    have e : (fun (a : Nat) (c : UInt8) => 10 * a + (c.toNat - 48)) = fun a c => a * 10 + (c.toNat - 48) := by
      funext a c; rw [Nat.mul_comm]
    rw [e]
    exact decVal_numText n
  unfold intText
  split
  · rename_i h
    unfold parseInt64
    simp only [if_pos (⟨numText_ne_nil, hgo _⟩ : numText 10 i.natAbs ≠ [] ∧ (numText 10 i.natAbs).all isDigit = true), hval]
    rw [if_pos (by omega)]
    congr 1
    omega
  · rename_i h
    have hne : ∀ r, numText 10 i.natAbs ≠ 45 :: r := fun r e => numText_free (s := 45) (.inl (by decide)) (n := i.natAbs) (by rw [e]; exact List.mem_cons_self)
    have hne' : ∀ r, numText 10 i.natAbs ≠ 43 :: r := fun r e => numText_free (s := 43) (.inl (by decide)) (n := i.natAbs) (by rw [e]; exact List.mem_cons_self)
    unfold parseInt64
    split
    · rename_i e; exact absurd e (hne _)
    · rename_i e; exact absurd e (hne' _)
    · simp only [if_pos (⟨numText_ne_nil, hgo _⟩ : numText 10 i.natAbs ≠ [] ∧ (numText 10 i.natAbs).all isDigit = true), hval]
      rw [if_pos (by omega)]
      congr 1
      omega

theorem ws_nil : Ws [] := fun _ h => by cases h

theorem elems_print {n : Nat} {v v' : Json} (hv : Val Chars n v' (print v)) {l l' : List Json}
    (h : List.Forall₂ (fun v v' => Val Chars n v' (print v)) l l') : Elems Chars n (v' :: l') (print v ++ printElems l) := by
  induction h generalizing v v' with
  | nil =>
    have := Elems.last n v' [] (print v) [] ws_nil hv ws_nil
    simpa [printElems] using this
  | cons h1 _ ih =>
    have := Elems.more n v' _ [] (print v) [] _ ws_nil hv ws_nil (ih h1)
    simpa [printElems] using this

/-- Arrays. -/
theorem val_arr {n : Nat} {l l' : List Json} (h : List.Forall₂ (fun v v' => Val Chars n v' (print v)) l l') :
    Val Chars (n + 1) (.arr l') (print (.arr l)) := by
  cases h with
  | nil => exact Val.arr0 n [] ws_nil
  | cons h1 h2 =>
    have := Val.arr n _ _ (elems_print h1 h2)
    simpa [print] using this

/-- A member as it is written. -/
def MemberPrint (n : Nat) (m m' : Bytes × Json) : Prop := Chars m'.1 (escLoop 0 m.1) ∧ Val Chars n m'.2 (print m.2)

theorem members_print {n : Nat} {m m' : Bytes × Json} (hm : MemberPrint n m m') {l l' : List (Bytes × Json)}
    (h : List.Forall₂ (MemberPrint n) l l') : Members Chars n (m' :: l') (printMember m ++ printMembers l) := by
  induction h generalizing m m' with
  | nil =>
    obtain ⟨k, v⟩ := m
    obtain ⟨k', v'⟩ := m'
    have := Members.last n k' v' [] _ [] [] _ [] ws_nil hm.1 ws_nil ws_nil hm.2 ws_nil
    simpa [printMembers, printMember, quote] using this
  | cons h1 _ ih =>
    obtain ⟨k, v⟩ := m
    obtain ⟨k', v'⟩ := m'
    have := Members.more n k' v' _ [] _ [] [] _ [] _ ws_nil hm.1 ws_nil ws_nil hm.2 ws_nil (ih h1)
    simpa [printMembers, printMember, quote] using this

/-- Objects. -/
theorem val_obj {n : Nat} {l l' : List (Bytes × Json)} (h : List.Forall₂ (MemberPrint n) l l') : Val Chars (n + 1) (.obj l') (print (.obj l)) := by
  cases h with
  | nil => exact Val.obj0 n [] ws_nil
  | cons h1 h2 =>
    have := Val.obj n _ _ (members_print h1 h2)
    simpa [print] using this

theorem val_str {n : Nat} {s s' : Bytes} (h : Chars s' (escLoop 0 s)) : Val Chars n (.str s') (print (.str s)) := by
  rw [print]
  exact Val.str n s' _ h

theorem val_int {n : Nat} (i : Int) : Val Chars n (.num (intText i)) (print (.num (intText i))) := by
  rw [print]
  exact Val.num n _ (number_int i)

end Verif.Json
