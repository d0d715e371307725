import Verif.Props.PrefixText
/-
  C77, the texts that are read as IPv6 addresses.
-/
set_option autoImplicit false

namespace Verif.Props
open Net TextSpec ResSpec BerSpec

theorem digitVal16 (c : UInt8) (d : Nat) : digitVal 16 c = some d ↔ HexDigit c d := by
  have h1 : ∀ n : Fin 256, ∀ d : Fin 16, digitVal 16 (UInt8.ofNat n) = some d.val ↔
      ((asc "0123456789abcdef".toList)[d.val]? = some (UInt8.ofNat n) ∨ (asc "0123456789ABCDEF".toList)[d.val]? = some (UInt8.ofNat n)) := by
    decide +kernel
  have h2 : ∀ n : Fin 256, ∀ e ∈ digitVal 16 (UInt8.ofNat n), e < 16 := by decide +kernel
  have hc : UInt8.ofNat c.toNat = c := by simp
  by_cases hd : d < 16
  · have := h1 ⟨c.toNat, c.toNat_lt⟩ ⟨d, hd⟩
    simp only [hc] at this
    exact this
  · constructor
    · intro h
      have := h2 ⟨c.toNat, c.toNat_lt⟩ d (by simp only [hc]; exact h)
      exact absurd this hd
    · rintro (h | h)
      · have : (asc "0123456789abcdef".toList)[d]? = none := List.getElem?_eq_none (by
          have : (asc "0123456789abcdef".toList).length = 16 := by decide
          omega)
        rw [this] at h; simp at h
      · have : (asc "0123456789ABCDEF".toList)[d]? = none := List.getElem?_eq_none (by
          have : (asc "0123456789ABCDEF".toList).length = 16 := by decide
          omega)
        rw [this] at h; simp at h

theorem hexFrom_ge {acc v : Nat} {t : Bytes} (h : HexFrom acc t v) : acc ≤ v := by
  induction h with
  | done _ => exact Nat.le_refl _
  | digit acc c d t v _ _ ih => omega

theorem readLoop_hex : ∀ (s : Bytes) (acc v : Nat) (r : Bytes), v < 0xffffff →
    (readLoop 16 acc s = some (v, r) ↔ ∃ t, s = t ++ r ∧ HexFrom acc t v ∧ NoDigit 16 r) := by
  intro s
  induction s with
  | nil =>
    intro acc v r hv
    simp only [readLoop, Option.some.injEq, Prod.mk.injEq]
    constructor
    · rintro ⟨rfl, rfl⟩
      exact ⟨[], rfl, .done _, noDigit_nil⟩
    · rintro ⟨t, h, h1, _⟩
      obtain ⟨rfl, rfl⟩ := List.append_eq_nil_iff.mp h.symm
      cases h1
      exact ⟨rfl, rfl⟩
  | cons c s ih =>
    intro acc v r hv
    simp only [readLoop]
    cases hd : digitVal 16 c with
    | none =>
      simp only [Option.some.injEq, Prod.mk.injEq]
      constructor
      · rintro ⟨rfl, rfl⟩
        exact ⟨[], rfl, .done _, noDigit_cons hd⟩
      · rintro ⟨t, h, h1, _⟩
        cases h1 with
        | done => exact ⟨rfl, h⟩
        | digit _ c' d t _ hh _ =>
          simp at h
          rw [← h.1, ← digitVal16, hd] at hh
          simp at hh
    | some d =>
      simp only
      have key : (∃ t, c :: s = t ++ r ∧ HexFrom acc t v ∧ NoDigit 16 r) ↔
          ∃ t, s = t ++ r ∧ HexFrom (acc * 16 + d) t v ∧ NoDigit 16 r := by
        constructor
        · rintro ⟨t, h, h1, h3⟩
          cases h1 with
          | done =>
            have := h3 c s (by simpa using h.symm)
            rw [hd] at this
            simp at this
          | digit _ c' d' t _ hh h2 =>
            simp at h
            obtain ⟨rfl, rfl⟩ := h
            rw [← digitVal16, hd] at hh
            simp at hh; subst hh
            exact ⟨t, rfl, h2, h3⟩
        · rintro ⟨t, rfl, h1, h3⟩
          exact ⟨c :: t, rfl, .digit _ _ _ _ _ ((digitVal16 _ _).mp hd) h1, h3⟩
      split
      · rename_i hb
        simp only [reduceCtorEq, false_iff]
        rw [key]
        rintro ⟨t, _, h2, _⟩
        have := hexFrom_ge h2
        omega
      · rw [key]
        exact ih _ _ _ hv

theorem readNum_hex (s : Bytes) (v : Nat) (r : Bytes) (hv : v < 65536) :
    readNum 16 s = some (v, r) ↔ ∃ t, s = t ++ r ∧ HexGroup t v ∧ NoDigit 16 r := by
  cases s with
  | nil =>
    simp only [readNum, reduceCtorEq, false_iff]
    rintro ⟨t, h, h1, _⟩
    exact h1.1 (List.append_eq_nil_iff.mp h.symm).1
  | cons c s =>
    simp only [readNum]
    split
    · rename_i hd
      simp only [reduceCtorEq, false_iff]
      rintro ⟨t, h, ⟨h1, h2, _⟩, _⟩
      cases h2 with
      | done => exact h1 rfl
      | digit _ c' d t _ hh _ =>
        simp at h
        rw [← h.1, ← digitVal16, hd] at hh
        simp at hh
    · rename_i hd
      rw [readLoop_hex _ _ _ _ (by omega)]
      constructor
      · rintro ⟨t, h, h1, h3⟩
        refine ⟨t, h, ⟨?_, h1, hv⟩, h3⟩
        rintro rfl
        exact hd (h3 c s (by simpa using h.symm))
      · rintro ⟨t, h, ⟨_, h1, _⟩, h3⟩
        exact ⟨t, h, h1, h3⟩

theorem hexGroup_head {t : Bytes} {n : Nat} (h : HexGroup t n) : ∃ c r, t = c :: r ∧ c ≠ 58 := by
  obtain ⟨h1, h2, _⟩ := h
  cases h2 with
  | done => exact absurd rfl h1
  | digit _ c d t _ hh _ =>
    refine ⟨c, t, rfl, ?_⟩
    rintro rfl
    rw [← digitVal16] at hh
    simp [digitVal] at hh

theorem toUInt8_mod (n : Nat) : (n % 256).toUInt8 = n.toUInt8 := by
  apply UInt8.toNat_inj.mp
  simp

theorem dotted_head {s ip : Bytes} (h : Dotted s ip) : ∃ c r, s = c :: r ∧ c ≠ 58 := by
  obtain ⟨t1, t2, t3, t4, a, b, c, d, rfl, _, ⟨h1, h2, _⟩, _⟩ := h
  cases t1 with
  | nil => exact absurd rfl h1
  | cons x t1 =>
    refine ⟨x, _, rfl, ?_⟩
    rintro rfl
    have := h2 58 (by simp)
    revert this; decide

theorem colonsQuad_head {s b : Bytes} (h : ColonsQuad s b) : ∃ c r, s = c :: r ∧ c ≠ 58 := by
  cases h with
  | one t n h => exact hexGroup_head h
  | quad t b h => exact dotted_head h
  | more t n s b h hs =>
    obtain ⟨c, r, rfl, hc⟩ := hexGroup_head h
    exact ⟨c, _, rfl, hc⟩

/-- What the loop has read. -/
def Read (acc : Bytes) (ell : Option Nat) (s acc' : Bytes) (ell' : Option Nat) : Prop :=
  (ell' = ell ∧ ∃ b, ColonsQuad s b ∧ acc' = acc ++ b) ∨
  (ell = none ∧ ∃ l r a b, s = l ++ [58, 58] ++ r ∧ Colons l a ∧ (ColonsQuad r b ∨ (r = [] ∧ b = [])) ∧ acc' = acc ++ a ++ b ∧
    ell' = some (acc ++ a).length)

theorem parseGroups_sound : ∀ (f : Nat) (acc : Bytes) (ell : Option Nat) (s acc' : Bytes) (ell' : Option Nat), s ≠ [] →
    acc.length % 2 = 0 → parseGroups f acc ell s = some (acc', ell', []) → Read acc ell s acc' ell' ∧ acc'.length ≤ 16 := by
  intro f
  induction f with
  | zero =>
    intro acc ell s acc' ell' hs _ h
    simp only [parseGroups, Option.some.injEq, Prod.mk.injEq] at h
    exact absurd h.2.2 hs
  | succ f ih =>
    intro acc ell s acc' ell' hs he h
    simp only [parseGroups] at h
    split at h
    · simp only [Option.some.injEq, Prod.mk.injEq] at h
      exact absurd h.2.2 hs
    · rename_i hlen
      cases hn : readNum 16 s with
      | none => rw [hn] at h; simp at h
      | some x =>
        obtain ⟨n, r⟩ := x
        rw [hn] at h
        simp only at h
        split at h
        · simp at h
        · rename_i hbig
          obtain ⟨t, rfl, hg, hr⟩ := (readNum_hex _ _ _ (by omega)).mp hn
          split at h
          · rename_i r0
            split at h
            · simp at h
            · split at h
              · simp at h
              · rename_i h16
                simp only [Option.map_eq_some_iff] at h
                obtain ⟨p, hp, h⟩ := h
                simp only [Prod.mk.injEq, and_true] at h
                obtain ⟨rfl, rfl⟩ := h
                have hd := (C77_ipv4_text_exact _ _).mp hp
                have hl : p.length = 4 := by
                  obtain ⟨_, _, _, _, _, _, _, _, _, rfl, _⟩ := hd
                  rfl
                exact ⟨.inl ⟨rfl, p, .quad _ _ hd, rfl⟩, by simp only [List.length_append]; omega⟩
          · simp only [Option.some.injEq, Prod.mk.injEq, and_true] at h
            obtain ⟨rfl, rfl⟩ := h
            refine ⟨.inl ⟨rfl, _, ?_, rfl⟩, by simp only [List.length_append, List.length_cons, List.length_nil]; omega⟩
            rw [← toUInt8_mod n, List.append_nil]
            exact .one _ _ hg
          · rename_i r0
            split at h
            · simp at h
            · rename_i hell
              have hell : ell = none := Classical.byContradiction hell
              subst hell
              split at h
              · rename_i hr0
                subst hr0
                simp only [Option.some.injEq, Prod.mk.injEq, and_true] at h
                obtain ⟨rfl, rfl⟩ := h
                refine ⟨.inr ⟨rfl, t, [], _, [], by simp, .one _ _ hg, .inr ⟨rfl, rfl⟩, ?_, ?_⟩,
                  by simp only [List.length_append, List.length_cons, List.length_nil]; omega⟩
                · rw [toUInt8_mod]; simp
                · simp
              · rename_i hr0
                obtain ⟨hR, hl⟩ := ih _ _ _ _ _ hr0 (by simp only [List.length_append, List.length_cons, List.length_nil]; omega) h
                refine ⟨?_, hl⟩
                rcases hR with ⟨rfl, b, hb, rfl⟩ | ⟨h, _⟩
                · refine .inr ⟨rfl, t, r0, _, b, by simp, .one _ _ hg, .inl hb, ?_, ?_⟩
                  · rw [toUInt8_mod]
                  · simp
                · simp at h
          · rename_i c r0 hc
            obtain ⟨hR, hl⟩ := ih _ _ _ _ _ (by simp) (by simp only [List.length_append, List.length_cons, List.length_nil]; omega) h
            refine ⟨?_, hl⟩
            rcases hR with ⟨rfl, b, hb, rfl⟩ | ⟨rfl, l, r, a, b, e1, e2, e3, e4, e5⟩
            · refine .inl ⟨rfl, _, .more _ _ _ _ hg hb, ?_⟩
              rw [toUInt8_mod]; simp
            · refine .inr ⟨rfl, t ++ 58 :: l, r, _, b, by rw [e1]; simp, .more _ _ _ _ hg e2, e3, ?_, ?_⟩
              · rw [toUInt8_mod, e4]; simp
              · rw [e5, toUInt8_mod]; simp
          · simp at h

theorem decVal_pow (t : Bytes) : ∀ acc, acc * 10 ^ t.length ≤ decVal acc t := by
  induction t with
  | nil => intro acc; simp [decVal]
  | cons c t ih =>
    intro acc
    have := ih (acc * 10 + (c.toNat - 48))
    simp only [decVal, List.foldl_cons, List.length_cons] at this ⊢
    refine Nat.le_trans ?_ this
    rw [Nat.pow_succ, Nat.add_mul, Nat.mul_comm (10 ^ _) 10, Nat.mul_assoc]
    exact Nat.le_add_right _ _

theorem decimal_short {t : Bytes} {n : Nat} (h : Decimal t n) (hn : n ≤ 255) : t.length ≤ 3 := by
  obtain ⟨h1, h2, h3, h4⟩ := h
  cases t with
  | nil => exact absurd rfl h1
  | cons c t =>
    by_cases hl : (c :: t).length > 1
    · have hc := h4 hl
      simp at hc
      have hr := h2 c (by simp)
      have hc1 : 1 ≤ c.toNat - 48 := by
        have h48 : 48 ≤ c.toNat := by simpa using UInt8.le_iff_toNat_le.mp hr.1
        have : c.toNat ≠ 48 := fun h => hc (UInt8.toNat_inj.mp (by simpa using h))
        omega
      have := decVal_pow t (0 * 10 + (c.toNat - 48))
      simp only [decVal, List.foldl_cons] at this h3
      rw [h3] at this
      have hp : 10 ^ t.length ≤ n := Nat.le_trans (by
        calc 10 ^ t.length = 1 * 10 ^ t.length := by simp
          _ ≤ (0 * 10 + (c.toNat - 48)) * 10 ^ t.length := Nat.mul_le_mul_right _ (by omega)) this
      by_cases h3' : t.length ≤ 2
      · simp; omega
      · have : 10 ^ 3 ≤ 10 ^ t.length := Nat.pow_le_pow_right (by omega) (by omega)
        omega
    · omega

theorem hexFrom_digits : ∀ (t : Bytes) (acc : Nat), (∀ c ∈ t, 48 ≤ c ∧ c ≤ 57) → ∃ v, HexFrom acc t v ∧ v < (acc + 1) * 16 ^ t.length := by
  intro t
  induction t with
  | nil => intro acc _; exact ⟨acc, .done _, by simp⟩
  | cons c t ih =>
    intro acc h
    have hc := h c (by simp)
    have hd : digitVal 16 c = some (c.toNat - 48) := by unfold digitVal; rw [if_pos hc]
    have hlt : c.toNat - 48 < 16 := by
      have : c.toNat ≤ 57 := by simpa using UInt8.le_iff_toNat_le.mp hc.2
      omega
    obtain ⟨v, h1, h2⟩ := ih (acc * 16 + (c.toNat - 48)) (fun x hx => h x (by simp [hx]))
    refine ⟨v, .digit _ _ _ _ _ ((digitVal16 _ _).mp hd) h1, Nat.lt_of_lt_of_le h2 ?_⟩
    rw [List.length_cons, Nat.pow_succ, Nat.mul_comm (16 ^ _) 16, ← Nat.mul_assoc]
    exact Nat.mul_le_mul_right _ (by omega)

theorem dotted_first {s ip : Bytes} (h : Dotted s ip) : ∃ t n r, s = t ++ 46 :: r ∧ HexGroup t n := by
  obtain ⟨t1, t2, t3, t4, a, b, c, d, rfl, _, h1, _⟩ := h
  obtain ⟨v, hv, hl⟩ := hexFrom_digits t1 0 h1.2.1
  refine ⟨t1, v, t2 ++ 46 :: (t3 ++ 46 :: t4), by simp, h1.1, hv, ?_⟩
  have h3 := decimal_short h1 (by have := a.toNat_lt; omega)
  have : 16 ^ t1.length ≤ 16 ^ 3 := Nat.pow_le_pow_right (by omega) h3
  omega

theorem parseGroups_single {f n : Nat} {acc r s : Bytes} {c : UInt8} {ell : Option Nat} (hg : n < 65536) (ha : acc.length < 16)
    (hc : c ≠ 58) (h : readNum 16 s = some (n, 58 :: c :: r)) :
    parseGroups (f + 1) acc ell s = parseGroups f (acc ++ [(n / 256).toUInt8, (n % 256).toUInt8]) ell (c :: r) := by
  rw [toUInt8_mod]
  conv_lhs => unfold parseGroups
  rw [if_neg (by omega), h]
  simp only
  rw [if_neg (by omega)]

theorem parseGroups_complete {s b : Bytes} (h : ColonsQuad s b) : ∀ (f : Nat) (acc : Bytes) (ell : Option Nat),
    acc.length + b.length ≤ 16 → 16 ≤ acc.length + 2 * f → (ell = none → acc.length + b.length = 16) →
    parseGroups f acc ell s = some (acc ++ b, ell, []) := by
  induction h with
  | one t n h =>
    intro f acc ell h1 h2 _
    simp only [List.length_cons, List.length_nil] at h1
    obtain ⟨f, rfl⟩ : ∃ g, f = g + 1 := ⟨f - 1, by omega⟩
    have hn := (readNum_hex t n [] h.2.2).mpr ⟨t, by simp, h, noDigit_nil⟩
    simp only [parseGroups, hn]
    rw [if_neg (by omega), if_neg (by have := h.2.2; omega), toUInt8_mod]
  | quad t b h =>
    intro f acc ell h1 h2 h3
    have hl : b.length = 4 := by
      obtain ⟨_, _, _, _, _, _, _, _, _, rfl, _⟩ := h
      rfl
    obtain ⟨f, rfl⟩ : ∃ g, f = g + 1 := ⟨f - 1, by omega⟩
    obtain ⟨t1, n, r, e, hg⟩ := dotted_first h
    have hn := (readNum_hex t n (46 :: r) hg.2.2).mpr ⟨t1, e, hg, noDigit_cons (by decide)⟩
    have hp := (C77_ipv4_text_exact _ _).mpr h
    simp only [parseGroups, hn, hp]
    rw [if_neg (by omega), if_neg (by have := hg.2.2; omega), if_neg (by rintro ⟨h4, h5⟩; have := h3 h4; omega), if_neg (by omega)]
    rfl
  | more t n s b h hs ih =>
    intro f acc ell h1 h2 h3
    simp only [List.length_cons] at h1 h3
    obtain ⟨f, rfl⟩ : ∃ g, f = g + 1 := ⟨f - 1, by omega⟩
    have hn := (readNum_hex (t ++ 58 :: s) n (58 :: s) h.2.2).mpr ⟨t, rfl, h, noDigit_cons (by decide)⟩
    obtain ⟨c, r, rfl, hc⟩ := colonsQuad_head hs
    rw [parseGroups_single h.2.2 (by omega) hc hn]
    rw [ih f _ ell (by simp only [List.length_append, List.length_cons, List.length_nil]; omega)
        (by simp only [List.length_append, List.length_cons, List.length_nil]; omega)
        (fun hh => by have := h3 hh; simp only [List.length_append, List.length_cons, List.length_nil]; omega)]
    simp

theorem parseGroups_left {l a : Bytes} (h : Colons l a) (r : Bytes) : ∀ (f : Nat) (acc : Bytes),
    acc.length + a.length < 16 → 16 ≤ acc.length + 2 * f →
    ∃ f', 16 ≤ (acc ++ a).length + 2 * f' ∧ parseGroups f acc none (l ++ [58, 58] ++ r) =
      if r = [] then some (acc ++ a, some (acc ++ a).length, []) else parseGroups f' (acc ++ a) (some (acc ++ a).length) r := by
  induction h with
  | one t n h =>
    intro f acc h1 h2
    simp only [List.length_cons, List.length_nil] at h1
    obtain ⟨f, rfl⟩ : ∃ g, f = g + 1 := ⟨f - 1, by omega⟩
    have hn := (readNum_hex (t ++ [58, 58] ++ r) n (58 :: 58 :: r) h.2.2).mpr ⟨t, by simp, h, noDigit_cons (by decide)⟩
    refine ⟨f, by simp only [List.length_append, List.length_cons, List.length_nil]; omega, ?_⟩
    simp only [parseGroups, hn]
    rw [if_neg (by omega), if_neg (by have := h.2.2; omega), toUInt8_mod]
    simp
  | more t n s b h hs ih =>
    intro f acc h1 h2
    simp only [List.length_cons] at h1
    obtain ⟨f, rfl⟩ : ∃ g, f = g + 1 := ⟨f - 1, by omega⟩
    have hn := (readNum_hex (t ++ 58 :: s ++ [58, 58] ++ r) n (58 :: (s ++ [58, 58] ++ r)) h.2.2).mpr
      ⟨t, by simp, h, noDigit_cons (by decide)⟩
    obtain ⟨f', h3, h4⟩ := ih f (acc ++ [(n / 256).toUInt8, (n % 256).toUInt8])
      (by simp only [List.length_append, List.length_cons, List.length_nil]; omega)
      (by simp only [List.length_append, List.length_cons, List.length_nil]; omega)
    obtain ⟨c, r', hc', hc⟩ : ∃ c r, s = c :: r ∧ c ≠ 58 := by
      cases hs with
      | one t n h => exact hexGroup_head h
      | more t n s b h hs =>
        obtain ⟨c, r, rfl, hc⟩ := hexGroup_head h
        exact ⟨c, _, rfl, hc⟩
    refine ⟨f', by simp only [List.length_append, List.length_cons, List.length_nil] at h3 ⊢; omega, ?_⟩
    subst hc'
    rw [parseGroups_single h.2.2 (by omega) hc hn]
    refine Eq.trans h4 ?_
    simp

/-- **C77, IPv6 texts.** A text is read as an IPv6 address exactly if it is one of its texts of RFC 4291: eight groups of hexadecimal
    numbers of 16 bits, the last two perhaps as a dotted IPv4 address, or fewer groups with one "::" for at least one group of zeros.
    (More than four digits are allowed in a group if they begin with zeros.) -/
theorem C77_ipv6_text_exact (s ip : Bytes) : parseIPv6 s = some ip ↔ V6Text s ip := by
  have fin : ∀ (acc' : Bytes) (ell' : Option Nat) (r : Bytes), expandEllipsis (acc', ell', r) = some ip ↔
      r = [] ∧ ((∃ e, ell' = some e ∧ acc'.length < 16 ∧ ip = acc'.take e ++ List.replicate (16 - acc'.length) 0 ++ acc'.drop e) ∨
        (ell' = none ∧ ¬ acc'.length < 16 ∧ ip = acc')) := by
    intro acc' ell' r
    unfold expandEllipsis
    cases r with
    | cons _ _ => simp
    | nil =>
      cases ell' with
      | none =>
        by_cases h : acc'.length < 16 <;> simp [h, eq_comm]
      | some e =>
        by_cases h : acc'.length < 16 <;> simp [h, eq_comm]
  constructor
  · intro h
    unfold parseIPv6 at h
    split at h
    · simp at h
      exact .inr ⟨[], [], [], [], rfl, .inr ⟨rfl, rfl⟩, .inr ⟨rfl, rfl⟩, by simp, by simp [← h]⟩
    · rename_i r hr
      simp only [Option.bind_eq_some_iff] at h
      obtain ⟨⟨acc', ell', r'⟩, h1, h2⟩ := h
      obtain ⟨rfl, h5⟩ := (fin _ _ _).mp h2
      obtain ⟨hR, hl⟩ := parseGroups_sound _ _ _ _ _ _ (by rintro rfl; exact hr rfl) rfl h1
      rcases hR with ⟨rfl, b, hb, hacc⟩ | ⟨h, _⟩
      · rw [List.nil_append] at hacc
        subst hacc
        rcases h5 with ⟨e, he, h3, h4⟩ | ⟨he, _⟩
        · simp at he; subst he
          simp at h3 h4
          exact .inr ⟨[], r, [], acc', rfl, .inr ⟨rfl, rfl⟩, .inl hb, by simpa using h3, by simpa using h4⟩
        · simp at he
      · simp at h
    · rename_i s hs1 hs2
      simp only [Option.bind_eq_some_iff] at h
      obtain ⟨⟨acc', ell', r'⟩, h1, h2⟩ := h
      obtain ⟨rfl, h5⟩ := (fin _ _ _).mp h2
      obtain ⟨hR, hl⟩ := parseGroups_sound _ _ _ _ _ _ (by
        rintro rfl
        simp [parseGroups, readNum] at h1) rfl h1
      rcases hR with ⟨rfl, b, hb, rfl⟩ | ⟨_, l, r, a, b, rfl, hla, hrb, rfl, rfl⟩
      · rcases h5 with ⟨e, he, _⟩ | ⟨_, h3, rfl⟩
        · simp at he
        · simp at h3 hl ⊢
          exact .inl ⟨hb, by omega⟩
      · rcases h5 with ⟨e, he, h3, h4⟩ | ⟨he, _⟩
        · simp at he; subst he
          simp only [List.nil_append, List.length_append] at h3 h4
          refine .inr ⟨l, r, a, b, rfl, .inl hla, hrb, h3, ?_⟩
          rw [h4]; simp
        · simp at he
  · rintro (⟨h, hl⟩ | ⟨l, r, a, b, rfl, hla, hrb, hlen, rfl⟩)
    · have := parseGroups_complete h 8 [] none (by simp [hl]) (by simp) (by simp [hl])
      obtain ⟨c, r, rfl, hc⟩ := colonsQuad_head h
      unfold parseIPv6
      split
      · rename_i heq; simp at heq; exact absurd heq.1 hc
      · rename_i heq; simp at heq; exact absurd heq.1 hc
      · rw [this]
        simp only [Option.bind_some]
        rw [fin]
        exact ⟨rfl, .inr ⟨rfl, by simp [hl], by simp⟩⟩
    · rcases hla with hla | ⟨rfl, rfl⟩
      · obtain ⟨f', hf', hp⟩ := parseGroups_left hla r 8 [] (by simp; omega) (by simp)
        have hhead : ∃ c r, l = c :: r ∧ c ≠ 58 := by
          cases hla with
          | one t n h => exact hexGroup_head h
          | more t n s b h hs =>
            obtain ⟨c, r, rfl, hc⟩ := hexGroup_head h
            exact ⟨c, _, rfl, hc⟩
        obtain ⟨c, l', rfl, hc⟩ := hhead
        have hpar : parseGroups 8 [] none (c :: l' ++ [58, 58] ++ r) = some (a ++ b, some a.length, []) := by
          rw [hp]
          rcases hrb with hrb | ⟨rfl, rfl⟩
          · obtain ⟨c, r', rfl, _⟩ := colonsQuad_head hrb
            rw [if_neg (by simp), parseGroups_complete hrb f' _ _ (by simp; omega) hf' (by simp)]
            simp
          · simp
        unfold parseIPv6
        split
        · rename_i heq; simp at heq; exact absurd heq.1 hc
        · rename_i heq; simp at heq; exact absurd heq.1 hc
        · rw [hpar]
          simp only [Option.bind_some]
          rw [fin]
          refine ⟨rfl, .inl ⟨a.length, rfl, by simpa using hlen, by simp⟩⟩
      · unfold parseIPv6
        rcases hrb with hrb | ⟨rfl, rfl⟩
        · have := parseGroups_complete hrb 8 [] (some 0) (by simpa using Nat.le_of_lt hlen) (by simp) (by simp)
          obtain ⟨c, r', rfl, _⟩ := colonsQuad_head hrb
          show (parseGroups 8 [] (some 0) (c :: r')).bind expandEllipsis = _
          rw [this]
          show expandEllipsis ([] ++ b, some 0, []) = _
          rw [fin]
          refine ⟨rfl, .inl ⟨0, rfl, by simpa using hlen, by simp⟩⟩
        · simp

example : parseIPv6 (asc "2001:DB8::10.0.0.1".toList) = some [0x20, 1, 0xd, 0xb8, 0, 0, 0, 0, 0, 0, 0, 0, 10, 0, 0, 1] ∧
    parseIPv6 (asc "1::2::3".toList) = none ∧ parseIPv6 (asc "1:2:3:4:5:6:7::8".toList) = none ∧
    parseIPv6 (asc "::10000".toList) = none ∧ parseIPv6 (asc "00000001::".toList) ≠ none := by
  decide +kernel

theorem hexFrom_chars {acc v : Nat} {t : Bytes} (h : HexFrom acc t v) : ∀ c ∈ t, c ≠ 47 := by
  induction h with
  | done _ => simp
  | digit acc c d t v hd _ ih =>
    intro x hx
    simp at hx
    rcases hx with rfl | hx
    · rintro rfl
      rw [← digitVal16] at hd
      simp [digitVal] at hd
    · exact ih x hx

theorem decimal_chars {t : Bytes} {n : Nat} (h : Decimal t n) : ∀ c ∈ t, c ≠ 47 := by
  intro c hc
  have := h.2.1 c hc
  rintro rfl
  revert this; decide

theorem dotted_chars {s ip : Bytes} (h : Dotted s ip) : ∀ c ∈ s, c ≠ 47 := by
  obtain ⟨t1, t2, t3, t4, a, b, c, d, rfl, _, h1, h2, h3, h4⟩ := h
  intro x hx
  simp only [List.cons_append, List.append_assoc, List.mem_append, List.mem_cons] at hx
  rcases hx with hx | rfl | hx | rfl | hx | rfl | hx
  · exact decimal_chars h1 x hx
  · decide
  · exact decimal_chars h2 x hx
  · decide
  · exact decimal_chars h3 x hx
  · decide
  · exact decimal_chars h4 x hx

theorem colonsQuad_chars {s b : Bytes} (h : ColonsQuad s b) : ∀ c ∈ s, c ≠ 47 := by
  induction h with
  | one t n h => exact hexFrom_chars h.2.1
  | quad t b h => exact dotted_chars h
  | more t n s b h _ ih =>
    intro x hx
    simp only [List.mem_append, List.mem_cons] at hx
    rcases hx with hx | rfl | hx
    · exact hexFrom_chars h.2.1 x hx
    · decide
    · exact ih x hx

theorem colons_quad {s b : Bytes} (h : Colons s b) : ColonsQuad s b := by
  induction h with
  | one t n h => exact .one t n h
  | more t n s b h _ ih => exact .more t n s b h ih

theorem v6_chars {s ip : Bytes} (h : V6Text s ip) : ∀ c ∈ s, c ≠ 47 := by
  rcases h with ⟨h, _⟩ | ⟨l, r, a, b, rfl, hl, hr, _⟩
  · exact colonsQuad_chars h
  · intro x hx
    simp only [List.mem_append, List.mem_cons, List.not_mem_nil, or_false] at hx
    rcases hx with (hx | rfl | rfl) | hx
    · rcases hl with hl | ⟨rfl, _⟩
      · exact colonsQuad_chars (colons_quad hl) x hx
      · simp at hx
    · decide
    · decide
    · rcases hr with hr | ⟨rfl, _⟩
      · exact colonsQuad_chars hr x hx
      · simp at hx

theorem v6_colon {s ip : Bytes} (h : V6Text s ip) : (58 : UInt8) ∈ s := by
  rcases h with ⟨h, hl⟩ | ⟨l, r, a, b, rfl, _⟩
  · cases h with
    | one t n h => simp at hl
    | quad t b h =>
      obtain ⟨_, _, _, _, _, _, _, _, _, rfl, _⟩ := h
      simp at hl
    | more t n s b h hs => simp
  · simp

theorem v6_length {s ip : Bytes} (h : V6Text s ip) : ip.length = 16 := by
  rcases h with ⟨_, hl⟩ | ⟨l, r, a, b, _, _, _, hl, rfl⟩
  · exact hl
  · simp; omega

theorem v6_not_dotted {s ip ip' : Bytes} (h : V6Text s ip) : ¬ Dotted s ip' := by
  intro hd
  have := parseIPv4_chars ((C77_ipv4_text_exact _ _).mpr hd) 58 (v6_colon h)
  revert this; decide

theorem prefixOf_iff {ip : Bytes} {p : Nat} {n : IPNet} (hs : ip.length = 4 ∨ ip.length = 16) (hp : p ≤ 8 * ip.length) :
    PrefixOf ip p n ↔ n = ⟨maskIP ip (cidrMask p (ip.length * 8)), cidrMask p (ip.length * 8)⟩ := by
  rw [cidrMask_of_le hs hp]
  obtain ⟨b, e, hr, hb, he, vb, ve⟩ := rangeBytes_spec ip.length p hp ip rfl
  have hm := Out.maskIP_range hr
  subst hm
  constructor
  · rintro ⟨h1, h2, h3, h4⟩
    have hmask : n.mask = maskBytes ip.length p := by rw [← h2]; exact eq_maskBytes h3
    have hip : n.ip = maskIP ip (maskBytes ip.length p) :=
      beVal_inj (by rw [h1, hb]) (by rw [h4, vb])
    cases n
    simp at hmask hip
    simp [hmask, hip]
  · rintro rfl
    exact ⟨hb, maskBytes_length _ _, isMask_maskBytes _ _ hp, vb⟩

theorem cutSlash_iff (s a t : Bytes) : cutSlash s = some (a, t) ↔ s = a ++ 47 :: t ∧ ∀ c ∈ a, c ≠ 47 := by
  constructor
  · induction s generalizing a with
    | nil => simp [cutSlash]
    | cons c s ih =>
      simp only [cutSlash]
      split
      · rename_i hc
        subst hc
        simp only [Option.some.injEq, Prod.mk.injEq]
        rintro ⟨rfl, rfl⟩
        simp
      · rename_i hc
        simp only [Option.map_eq_some_iff, Prod.mk.injEq]
        rintro ⟨⟨a', t'⟩, h1, h2, h3⟩
        simp only at h2 h3
        subst h2 h3
        obtain ⟨e, h⟩ := ih _ h1
        refine ⟨by rw [e]; rfl, ?_⟩
        intro x hx
        simp at hx
        rcases hx with rfl | hx
        · exact hc
        · exact h x hx
  · rintro ⟨rfl, h⟩
    exact cutSlash_append _ _ h

/-- **C77, prefix texts.** A text is read as a prefix exactly if it is an IPv4 or IPv6 address, a slash and a length of at most 32 or
    128; what is read is the prefix of this length of the address. -/
theorem C77_prefix_text_exact (s : Bytes) (n : IPNet) : parseCIDR s = some n ↔ CidrText s n := by
  have num : ∀ t v, v < 0xffffff → (readNum 10 t = some (v, []) ↔ t ≠ [] ∧ (∀ c ∈ t, 48 ≤ c ∧ c ≤ 57) ∧ decVal 0 t = v) := by
    intro t v hv
    rw [readNum_exact _ _ _ hv]
    constructor
    · rintro ⟨t', rfl, h1, h2, h3, _⟩
      simp only [List.append_nil]
      exact ⟨h1, h2, h3⟩
    · rintro ⟨h1, h2, h3⟩
      exact ⟨t, by simp, h1, h2, h3, noDigit_nil⟩
  constructor
  · intro h
    unfold parseCIDR at h
    split at h
    · simp at h
    · rename_i addr mask hc
      obtain ⟨rfl, hch⟩ := (cutSlash_iff _ _ _).mp hc
      split at h
      · rename_i ip l h4 hl
        split at h
        · simp at h
        · rename_i hle
          simp only [Option.some.injEq] at h
          obtain ⟨h1, h2, h3⟩ := (num _ _ (by omega)).mp hl
          have hlen := Out.parseIPv4_length h4
          refine ⟨addr, mask, ip, l, rfl, h1, h2, h3, ?_, .inl ⟨(C77_ipv4_text_exact _ _).mp h4, by omega⟩⟩
          rw [prefixOf_iff (.inl hlen) (by omega), hlen]
          exact h.symm
      · rename_i l h4 hl
        split at h
        · simp at h
        · rename_i ip h6
          split at h
          · simp at h
          · rename_i hle
            simp only [Option.some.injEq] at h
            obtain ⟨h1, h2, h3⟩ := (num _ _ (by omega)).mp hl
            have hv := (C77_ipv6_text_exact _ _).mp h6
            have hlen := v6_length hv
            refine ⟨addr, mask, ip, l, rfl, h1, h2, h3, ?_, .inr ⟨hv, by omega⟩⟩
            rw [prefixOf_iff (.inr hlen) (by omega), hlen]
            exact h.symm
      · simp at h
  · rintro ⟨addr, t, ip, p, rfl, h1, h2, h3, hp, ⟨hd, hle⟩ | ⟨hv, hle⟩⟩
    · have hn := (num t p (by omega)).mpr ⟨h1, h2, h3⟩
      have h4 := (C77_ipv4_text_exact _ _).mpr hd
      have hlen := Out.parseIPv4_length h4
      rw [prefixOf_iff (.inl hlen) (by omega), hlen] at hp
      unfold parseCIDR
      simp only [(cutSlash_iff _ _ _).mpr ⟨rfl, dotted_chars hd⟩, h4, hn]
      rw [if_neg (by omega), hp]
    · have hn := (num t p (by omega)).mpr ⟨h1, h2, h3⟩
      have h4 : parseIPv4 addr = none := by
        cases h : parseIPv4 addr with
        | none => rfl
        | some q => exact absurd ((C77_ipv4_text_exact _ _).mp h) (v6_not_dotted hv)
      have hlen := v6_length hv
      rw [prefixOf_iff (.inr hlen) (by omega), hlen] at hp
      unfold parseCIDR
      simp only [(cutSlash_iff _ _ _).mpr ⟨rfl, v6_chars hv⟩, h4, hn, (C77_ipv6_text_exact _ _).mpr hv]
      rw [if_neg (by omega), hp]

example : CidrText (asc "2001:db8::1/032".toList) ⟨[0x20, 1, 0xd, 0xb8, 0, 0, 0, 0, 0, 0, 0, 0, 0, 0, 0, 0],
    [255, 255, 255, 255, 0, 0, 0, 0, 0, 0, 0, 0, 0, 0, 0, 0]⟩ := (C77_prefix_text_exact _ _).mp (by decide +kernel)

end Verif.Props
