import Verif.Spec.Output
import Verif.Lemmas.NetText
import Verif.Lemmas.Content
import Verif.Lemmas.CertBlock
import Mathlib.Data.List.Induction
import Mathlib.Data.List.Forall2
/-
  Lemmas on the published list.
-/
set_option autoImplicit false

namespace Verif.Out
open BerSpec Net Cert ResSpec OutSpec Roa

/-! ### Splitting texts -/

theorem split_first {s : UInt8} : ∀ {a a' b b' : Bytes}, s ∉ a → s ∉ a' → a ++ s :: b = a' ++ s :: b' → a = a' ∧ b = b' := by
  intro a
  induction a with
  | nil =>
    intro a' b b' _ h' h
    cases a' with
    | nil => simp at h; exact ⟨rfl, h⟩
    | cons c a' => simp at h; exact absurd (h.1 ▸ List.mem_cons_self) h'
  | cons c a ih =>
    intro a' b b' h1 h' h
    cases a' with
    | nil => simp at h; exact absurd (h.1 ▸ List.mem_cons_self) h1
    | cons d a' =>
      simp at h
      obtain ⟨r1, r2⟩ := ih (fun hm => h1 (by simp [hm])) (fun hm => h' (by simp [hm])) h.2
      exact ⟨by rw [h.1, r1], r2⟩

theorem split_last {s : UInt8} {a a' b b' : Bytes} (h1 : s ∉ b) (h2 : s ∉ b') (h : a ++ s :: b = a' ++ s :: b') :
    a = a' ∧ b = b' := by
  have hr := congrArg List.reverse h
  simp only [List.reverse_append, List.reverse_cons, List.append_assoc, List.cons_append, List.nil_append] at hr
  obtain ⟨r1, r2⟩ := split_first (s := s) (by simpa using h1) (by simpa using h2) hr
  exact ⟨List.reverse_injective r2, List.reverse_injective r1⟩

/-! ### Numbers in decimal -/

theorem digits_chars_ge {n : Nat} : ∀ c ∈ numText 10 n, 48 ≤ c.toNat ∧ c.toNat ≤ 57 := by
  have h : ∀ d, d < 10 → 48 ≤ (digitChar d).toNat ∧ (digitChar d).toNat ≤ 57 := by decide +kernel
  intro c hc
  obtain ⟨d, hd, rfl⟩ := digits_all (.inl rfl) _ _ c hc
  exact h d hd

theorem numText_free {n : Nat} {s : UInt8} (h : s.toNat < 48 ∨ 57 < s.toNat) : s ∉ numText 10 n := by
  intro hm
  have := digits_chars_ge s hm
  omega

theorem decLoop_digits : ∀ (f n : Nat) (tail : Bytes), n < 10 ^ f → n ≤ 0xffffffff → f ≠ 0 →
    decLoop 0 (digitsFuel 10 f n ++ tail) = decLoop n tail := by
  have step : ∀ (acc d : Nat) (tail : Bytes), d < 10 → acc * 10 + d ≤ 0xffffffff →
      decLoop acc (digitChar d :: tail) = decLoop (acc * 10 + d) tail := by
    intro acc d tail hd h
    simp only [decLoop, digitVal_char (.inl rfl) hd]
    rw [if_neg (by omega)]
  intro f
  induction f with
  | zero => intro n tail _ _ h; exact absurd rfl h
  | succ f ih =>
    intro n tail hn hl _
    simp only [digitsFuel]
    split
    · rename_i h
      simp only [List.cons_append, List.nil_append]
      rw [step 0 n tail h (by omega)]
      congr 1
      omega
    · rename_i h
      have hdiv : n / 10 < 10 ^ f := by
        rw [Nat.div_lt_iff_lt_mul (by omega)]
        rwa [Nat.pow_succ] at hn
      have hf : f ≠ 0 := by
        rintro rfl
        simp at hdiv
        omega
      rw [List.append_assoc, ih (n / 10) _ hdiv (by omega) hf]
      rw [List.cons_append, List.nil_append, step _ _ _ (by omega) (by omega)]
      congr 1
      omega

theorem parseUint32_numText {n : Nat} (h : n < 2 ^ 32) : parseUint32 (numText 10 n) = some n := by
  unfold parseUint32
  rw [if_neg numText_ne_nil]
  have := decLoop_digits (n.log2 + 1) n [] (lt_pow_log2 (.inl rfl) n) (by omega) (by omega)
  rw [List.append_nil] at this
  exact this

/-- Value of decimal digits. -/
def decVal (s : Bytes) : Nat := s.foldl (fun acc c => acc * 10 + (c.toNat - 48)) 0

theorem decVal_numText (n : Nat) : decVal (numText 10 n) = n := by
  have hd : ∀ d, d < 10 → (digitChar d).toNat - 48 = d := by decide +kernel
  have : ∀ (f n : Nat), n < 10 ^ f → decVal (digitsFuel 10 f n) = n := by
    intro f
    induction f with
    | zero => intro n h; simp at h; subst h; rfl
    | succ f ih =>
      intro n hn
      simp only [digitsFuel]
      split
      · rename_i h
        simp [decVal, hd n h]
      · have hdiv : n / 10 < 10 ^ f := by
          rw [Nat.div_lt_iff_lt_mul (by omega)]
          rwa [Nat.pow_succ] at hn
        have := ih _ hdiv
        unfold decVal at this ⊢
        rw [List.foldl_append, this]
        simp only [List.foldl_cons, List.foldl_nil]
        rw [hd _ (by omega)]
        omega
  exact this _ _ (lt_pow_log2 (.inl rfl) n)

theorem numText_inj {n m : Nat} (h : numText 10 n = numText 10 m) : n = m := by
  rw [← decVal_numText n, h, decVal_numText]

theorem intText_inj {i j : Int} (h : intText i = intText j) : i = j := by
  have hne : ∀ n m : Nat, (45 : UInt8) :: numText 10 n ≠ numText 10 m := by
    intro n m hh
    exact numText_free (n := m) (s := 45) (.inl (by decide)) (hh ▸ List.mem_cons_self)
  unfold intText at h
  split at h <;> split at h
  · have := numText_inj (List.cons.inj h).2
    omega
  · exact absurd h (hne _ _)
  · exact absurd h.symm (hne _ _)
  · have := numText_inj h
    omega

theorem intText_free {i : Int} {s : UInt8} (h : s.toNat < 48 ∨ 57 < s.toNat) (h' : s ≠ 45) : s ∉ intText i := by
  unfold intText
  split
  · intro hm
    rcases List.mem_cons.mp hm with hm | hm
    · exact h' hm
    · exact numText_free h hm
  · exact numText_free h

/-! ### Removing duplicates -/

theorem str_inj {a b : ROAJson} (ha : Free 47 a.asn) (hb : Free 47 b.asn) : a.str = b.str ↔ triple a = triple b := by
  unfold ROAJson.str triple
  constructor
  · intro h
    obtain ⟨h1, h2⟩ := split_last ha hb h
    obtain ⟨h3, h4⟩ := split_last (numText_free (.inl (by decide))) (numText_free (.inl (by decide))) h1
    rw [h3, h2, numText_inj h4]
  · intro h
    simp only [Prod.mk.injEq] at h
    rw [h.1, h.2.1, h.2.2]

theorem dedupLoop_sublist (l : List ROAJson) : ∀ seen, (dedupLoop seen l).Sublist l := by
  induction l with
  | nil => intro seen; exact List.Sublist.refl _
  | cons r l ih =>
    intro seen
    simp only [dedupLoop]
    split
    · exact (ih _).cons _
    · exact (ih _).cons_cons _

theorem dedupLoop_mem (l : List ROAJson) : ∀ seen r, r ∈ dedupLoop seen l ↔
    r.str ∉ seen ∧ ∃ a b, l = a ++ r :: b ∧ ∀ x ∈ a, x.str ≠ r.str := by
  induction l with
  | nil => intro seen r; simp [dedupLoop]
  | cons y l ih =>
    intro seen r
    have key : (∃ a b, y :: l = a ++ r :: b ∧ ∀ x ∈ a, x.str ≠ r.str) ↔
        (r = y ∨ (y.str ≠ r.str ∧ ∃ a b, l = a ++ r :: b ∧ ∀ x ∈ a, x.str ≠ r.str)) := by
      constructor
      · rintro ⟨a, b, h, hx⟩
        cases a with
        | nil => simp at h; exact .inl h.1.symm
        | cons z a =>
          simp at h
          exact .inr ⟨h.1 ▸ hx z (by simp), a, b, h.2, fun x hm => hx x (by simp [hm])⟩
      · rintro (rfl | ⟨hne, a, b, h, hx⟩)
        · exact ⟨[], l, rfl, by simp⟩
        · refine ⟨y :: a, b, by simp [h], ?_⟩
          intro x hm
          rcases List.mem_cons.mp hm with rfl | hm
          · exact hne
          · exact hx x hm
    rw [key]
    simp only [dedupLoop]
    split
    · rename_i hs
      rw [ih]
      constructor
      · rintro ⟨h1, h2⟩
        exact ⟨h1, .inr ⟨fun he => h1 (he ▸ hs), h2⟩⟩
      · rintro ⟨h1, rfl | ⟨_, h2⟩⟩
        · exact absurd hs h1
        · exact ⟨h1, h2⟩
    · rename_i hs
      rw [List.mem_cons, ih]
      constructor
      · rintro (rfl | ⟨h1, h2⟩)
        · exact ⟨hs, .inl rfl⟩
        · simp only [List.mem_cons, not_or] at h1
          exact ⟨h1.2, .inr ⟨fun he => h1.1 he.symm, h2⟩⟩
      · rintro ⟨h1, rfl | ⟨hne, h2⟩⟩
        · exact .inl rfl
        · exact .inr ⟨by simp only [List.mem_cons, not_or]; exact ⟨fun he => hne he.symm, h1⟩, h2⟩

theorem dedupLoop_nodup (l : List ROAJson) : ∀ seen, ((dedupLoop seen l).map ROAJson.str).Nodup := by
  induction l with
  | nil => intro seen; simp [dedupLoop]
  | cons y l ih =>
    intro seen
    simp only [dedupLoop]
    split
    · exact ih _
    · simp only [List.map_cons, List.nodup_cons]
      refine ⟨?_, ih _⟩
      intro hm
      obtain ⟨r, hr, he⟩ := List.mem_map.mp hm
      have := (dedupLoop_mem l _ r).mp hr
      exact this.1 (by simp [he])

/-- A list has a first element with a given key as soon as it has one. -/
theorem exists_first {α β : Type} (f : α → β) : ∀ (l : List α) (r : α), r ∈ l →
    ∃ x a b, f x = f r ∧ l = a ++ x :: b ∧ ∀ y ∈ a, f y ≠ f r := by
  intro l
  induction l with
  | nil => intro r h; simp at h
  | cons y l ih =>
    intro r hr
    by_cases h : f y = f r
    · exact ⟨y, [], l, h, rfl, by simp⟩
    · have hm : r ∈ l := by
        rcases List.mem_cons.mp hr with rfl | hm
        · exact absurd rfl h
        · exact hm
      obtain ⟨x, a, b, h1, h2, h3⟩ := ih r hm
      refine ⟨x, y :: a, b, h1, by simp [h2], ?_⟩
      intro z hz
      rcases List.mem_cons.mp hz with rfl | hz
      · exact h
      · exact h3 z hz

theorem dedup_idem_of_nodup (l : List ROAJson) : ∀ seen, (∀ r ∈ l, r.str ∉ seen) → (l.map ROAJson.str).Nodup →
    dedupLoop seen l = l := by
  induction l with
  | nil => intro seen _ _; rfl
  | cons y l ih =>
    intro seen hs hn
    simp only [List.map_cons, List.nodup_cons] at hn
    simp only [dedupLoop]
    rw [if_neg (hs y (by simp)), ih _ _ hn.2]
    intro r hr
    simp only [List.mem_cons, not_or]
    refine ⟨?_, hs r (by simp [hr])⟩
    intro he
    exact hn.1 (he ▸ List.mem_map.mpr ⟨r, hr, rfl⟩)

/-! ### The filter on lengths -/

theorem filterInvalidPrefixLen_ok (l : List ROAJson) (k : ROAJson → Bool) (h : ∀ r ∈ l, keepLen r = .ok (k r)) :
    filterInvalidPrefixLen l = .ok (l.filter k) := by
  induction l with
  | nil => rfl
  | cons r l ih =>
    simp only [filterInvalidPrefixLen, h r (by simp), ih (fun x hx => h x (by simp [hx])), Go.ok_bind, Go.pure_def]
    cases hk : k r <;> simp [List.filter_cons, hk]

theorem keepLen_cases (r : ROAJson) : keepLen r = .panic ∨ ∃ b, keepLen r = .ok b := by
  unfold keepLen
  split
  · exact .inl rfl
  · split
    · exact .inr ⟨_, rfl⟩
    · exact .inr ⟨_, rfl⟩

theorem filterInvalidPrefixLen_panic (l : List ROAJson) (r : ROAJson) (hr : r ∈ l) (h : r.getPrefix = none) :
    filterInvalidPrefixLen l = .panic := by
  induction l with
  | nil => simp at hr
  | cons y l ih =>
    simp only [filterInvalidPrefixLen]
    rcases List.mem_cons.mp hr with rfl | hr
    · have : keepLen r = .panic := by unfold keepLen; rw [h]
      rw [this]; rfl
    · rcases keepLen_cases y with hk | ⟨b, hk⟩
      · rw [hk]; rfl
      · rw [hk, ih hr]; rfl

theorem properNet_nm {n : IPNet} (h : ProperNet n) (hm : ¬ Mapped n.ip) : networkNumberAndMask n = (n.ip, n.mask) := by
  obtain ⟨hl, hs, _⟩ := h
  unfold networkNumberAndMask
  rcases hs with hs | hs
  · rw [to4_len4 hs]
    simp only
    rw [if_pos (by omega), if_neg (by omega)]
  · rw [not_mapped hs hm]
    simp only
    rw [if_pos hs]
    simp only
    rw [if_neg (by omega), if_pos (by omega), if_neg (by omega)]

/-- The text of a well-formed prefix is read back with its host bits cleared. -/
theorem parseCIDR_proper {n : IPNet} {p : Nat} (h : ProperNet n) (hp : IsMask p n.mask) (hm : ¬ Mapped n.ip) :
    parseCIDR (ipNetString n) = some ⟨maskIP n.ip n.mask, n.mask⟩ := by
  have hnm := properNet_nm h hm
  have := parseCIDR_ipNetString n p (by
      rw [hnm]
      intro h0
      simp only at h0
      have := h.2.1
      rw [h0] at this
      simp at this) (by rw [hnm]; exact hp.1) (by rw [hnm]; exact eq_maskBytes hp)
  rw [hnm] at this
  exact this

theorem maskIP_range {a m b e : Bytes} : rangeBytes a m = some (b, e) → b = maskIP a m := by
  induction a generalizing m b e with
  | nil => intro h; cases m <;> simp [rangeBytes] at h <;> simp [h.1, maskIP]
  | cons x a ih =>
    intro h
    cases m with
    | nil => simp [rangeBytes] at h
    | cons y m =>
      simp only [rangeBytes] at h
      cases hr : rangeBytes a m with
      | none => rw [hr] at h; simp at h
      | some q =>
        rw [hr] at h
        simp at h
        have := ih (m := m) (b := q.1) (e := q.2) hr
        rw [← h.1, this]
        rfl

theorem maskIP_length {a m : Bytes} (h : a.length = m.length) : (maskIP a m).length = a.length := by
  simp [maskIP, h]

/-- In network form nothing is cleared. -/
theorem maskIP_canonical {n : IPNet} (h : ProperNet n) (hc : Canonical n) : maskIP n.ip n.mask = n.ip := by
  obtain ⟨hl, hs, p, hp⟩ := h
  obtain ⟨q, hq, hd⟩ := hc
  have := isMask_inj hp hq; subst this
  obtain ⟨b, e, hr, hb, he, vb, ve⟩ := rangeBytes_spec n.mask.length p hp.1 n.ip hl
  rw [← eq_maskBytes hp] at hr
  rw [Nat.div_mul_cancel hd] at vb
  have hb' := beVal_inj (hb.trans hl.symm) vb
  rw [← maskIP_range hr, hb']

theorem parseCIDR_good {n : IPNet} (h : ProperNet n) (hc : Canonical n) (hm : ¬ Mapped n.ip) :
    parseCIDR (ipNetString n) = some n := by
  obtain ⟨p, hp⟩ := h.2.2
  rw [parseCIDR_proper h hp hm, maskIP_canonical h hc]

/-! ### What is read from a text -/

theorem parseDotted_length : ∀ (n : Nat) (s p r : Bytes), parseDotted n s = some (p, r) → p.length = n := by
  intro n
  induction n with
  | zero => intro s p r h; simp [parseDotted] at h; simp [← h.1]
  | succ n ih =>
    intro s p r h
    unfold parseDotted at h
    split at h
    · split at h
      · simp at h
      · rename_i v r' hr
        split at h
        · simp at h
        · cases hp : parseDotted n r' with
          | none => rw [hp] at h; simp at h
          | some x =>
            rw [hp] at h
            simp at h
            rw [← h.1, List.length_cons, ih r' x.1 x.2 hp]
    · simp at h

theorem parseIPv4_length {s p : Bytes} (h : parseIPv4 s = some p) : p.length = 4 := by
  unfold parseIPv4 at h
  split at h
  · rename_i q hq
    simp at h
    rw [← h]
    exact parseDotted_length _ _ _ _ hq
  · simp at h

theorem parseGroups_length : ∀ (f : Nat) (acc : Bytes) (ell : Option Nat) (s : Bytes) (r : Bytes × Option Nat × Bytes),
    parseGroups f acc ell s = some r → acc.length % 2 = 0 → acc.length ≤ 16 →
    (∀ e, ell = some e → e ≤ acc.length) →
    r.1.length ≤ 16 ∧ ∀ e, r.2.1 = some e → e ≤ r.1.length := by
  intro f
  induction f with
  | zero => intro acc ell s r h h1 h2 h3; simp [parseGroups] at h; rw [← h]; exact ⟨h2, h3⟩
  | succ f ih =>
    intro acc ell s r h h1 h2 h3
    unfold parseGroups at h
    split at h
    · simp at h; rw [← h]; exact ⟨h2, h3⟩
    · split at h
      · simp at h
      · split at h
        · simp at h
        · split at h
          · split at h
            · simp at h
            · split at h
              · simp at h
              · cases hp : parseIPv4 s with
                | none => rw [hp] at h; simp at h
                | some p =>
                  have := parseIPv4_length hp
                  rw [hp] at h
                  simp at h
                  rw [← h]
                  simp only [List.length_append]
                  exact ⟨by omega, fun e he => Nat.le_trans (h3 e he) (by omega)⟩
          · simp at h
            rw [← h]
            simp only [List.length_append, List.length_cons, List.length_nil]
            exact ⟨by omega, fun e he => Nat.le_trans (h3 e he) (by omega)⟩
          · split at h
            · simp at h
            · split at h
              · simp at h
                rw [← h]
                simp only [List.length_append, List.length_cons, List.length_nil]
                refine ⟨by omega, fun e he => ?_⟩
                simp at he
                omega
              · refine ih _ _ _ _ h ?_ ?_ ?_
                · simp only [List.length_append, List.length_cons, List.length_nil]; omega
                · simp only [List.length_append, List.length_cons, List.length_nil]; omega
                · intro e he
                  simp only [List.length_append, List.length_cons, List.length_nil]
                  simp at he
                  omega
          · refine ih _ _ _ _ h ?_ ?_ ?_
            · simp only [List.length_append, List.length_cons, List.length_nil]; omega
            · simp only [List.length_append, List.length_cons, List.length_nil]; omega
            · intro e he
              simp only [List.length_append, List.length_cons, List.length_nil]
              exact Nat.le_trans (h3 e he) (by omega)
          · simp at h

theorem expandEllipsis_length {r : Bytes × Option Nat × Bytes} {p : Bytes} (h : expandEllipsis r = some p)
    (h1 : r.1.length ≤ 16) (h2 : ∀ e, r.2.1 = some e → e ≤ r.1.length) : p.length = 16 := by
  unfold expandEllipsis at h
  split at h
  · simp at h
  · split at h
    · split at h
      · simp at h
      · rename_i e he
        have := h2 e he
        simp at h
        rw [← h]
        simp only [List.length_append, List.length_take, List.length_replicate, List.length_drop]
        omega
    · split at h
      · simp at h
      · simp at h
        rw [← h]
        omega

theorem parseIPv6_length {s p : Bytes} (h : parseIPv6 s = some p) : p.length = 16 := by
  unfold parseIPv6 at h
  split at h
  · simp at h; rw [← h]; rfl
  · obtain ⟨r, hr, he⟩ := Option.bind_eq_some_iff.mp h
    have := parseGroups_length _ _ _ _ _ hr rfl (by simp) (by intro e he; simp at he; simp [← he])
    exact expandEllipsis_length he this.1 this.2
  · obtain ⟨r, hr, he⟩ := Option.bind_eq_some_iff.mp h
    have := parseGroups_length _ _ _ _ _ hr rfl (by simp) (by intro e he; simp at he)
    exact expandEllipsis_length he this.1 this.2

/-- Whatever the text, what is read is a well-formed prefix in network form. -/
theorem parseCIDR_shape {s : Bytes} {n : IPNet} (h : parseCIDR s = some n) :
    ∃ ip p, n = ⟨maskIP ip (maskBytes ip.length p), maskBytes ip.length p⟩ ∧ p ≤ 8 * ip.length ∧
      (ip.length = 4 ∨ ip.length = 16) := by
  unfold parseCIDR at h
  split at h
  · simp at h
  · split at h
    · rename_i ip l h4 _
      have hl := parseIPv4_length h4
      split at h
      · simp at h
      · simp at h
        refine ⟨ip, l, ?_, by omega, .inl hl⟩
        rw [← h, hl]
        unfold cidrMask
        rw [if_neg (by simp), if_neg (by omega)]
    · rename_i l _ _
      split at h
      · simp at h
      · rename_i ip h6
        have hl := parseIPv6_length h6
        split at h
        · simp at h
        · simp at h
          refine ⟨ip, l, ?_, by omega, .inr hl⟩
          rw [← h, hl]
          unfold cidrMask
          rw [if_neg (by simp), if_neg (by omega)]
    · simp at h

/-- A prefix of at most 48 bits in network form is not IPv4-mapped. -/
theorem short_not_mapped {ip : Bytes} {p : Nat} (hl : ip.length = 16) (hp : p ≤ 48) : to4 (maskIP ip (maskBytes 16 p)) = none := by
  have hm : ∀ p, p < 49 → (maskBytes 16 p)[11]? = some 0 := by decide +kernel
  have h11 : (maskIP ip (maskBytes 16 p))[11]? = some 0 := by
    unfold maskIP
    rw [List.getElem?_map, List.zip, List.getElem?_zipWith, hm p (by omega)]
    rw [List.getElem?_eq_getElem (by omega)]
    simp
  have hlen : (maskIP ip (maskBytes 16 p)).length = 16 := by
    rw [maskIP_length (by rw [maskBytes_length]; exact hl)]; exact hl
  generalize maskIP ip (maskBytes 16 p) = q at *
  unfold to4
  rw [if_neg (by omega), if_neg]
  rintro ⟨_, _, h2⟩
  have := congrArg (fun l => l[1]?) h2
  simp [h11] at this

theorem keepLen_exact {r : ROAJson} {n : IPNet} (h : r.getPrefix = some n) :
    ∃ p, IsMask p n.mask ∧ (n.ip.length = 4 ∨ n.ip.length = 16) ∧ n.ip.length = n.mask.length ∧
      keepLen r = .ok (decide ((n.ip.length = 4 ∧ p ≤ 24) ∨ (n.ip.length = 16 ∧ p ≤ 48))) := by
  obtain ⟨ip, p, rfl, hp, hl⟩ := parseCIDR_shape h
  have hmask := isMask_maskBytes ip.length p hp
  have hlen : (maskIP ip (maskBytes ip.length p)).length = ip.length := maskIP_length (by rw [maskBytes_length])
  refine ⟨p, hmask, by simp only [hlen]; exact hl, by simp only [hlen, maskBytes_length], ?_⟩
  unfold keepLen
  rw [h]
  simp only [hlen, maskSize_of_isMask hmask]
  rcases hl with hl | hl
  · rw [to4_len4 (by rw [hlen]; exact hl)]
    simp [hl]
  · by_cases h48 : p ≤ 48
    · have := short_not_mapped (ip := ip) hl h48
      rw [← hl] at this
      rw [this]
      simp [hl, h48]
    · have h24 : ¬ p ≤ 24 := by omega
      split <;> simp [hl, h48, h24]

end Verif.Out
