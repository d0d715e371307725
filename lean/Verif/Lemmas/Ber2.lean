import Verif.Lemmas.Ber
/- Consequences of the reading lemmas: canonical output, stability under extension,
   absence of panics on padded input, and the blow-up family. -/
set_option autoImplicit false

namespace Verif.Ber
open BerSpec

theorem readObject_of_exists {ber : Bytes} {r : Obj × Nat}
    (h : ∃ f, readObject f ber 0 = .ok r) : readObject (fuelFor ber) ber 0 = .ok r := by
  obtain ⟨f, hf⟩ := h
  have h1 : readObject (fuelFor ber) ber 0 ≠ .diverge :=
    (readObject_fuel ber (fuelFor ber)).1 0 (by omega) (by unfold fuelFor; omega)
  have e1 := readObject_fuel_le (g := max f (fuelFor ber)) (by omega) h1
  have e2 := readObject_fuel_le (g := max f (fuelFor ber)) (f := f) (ber := ber) (o := 0) (by omega)
    (by rw [hf]; simp)
  rw [← e1, e2, hf]

/-- Every object the reader returns is the object of a well-tagged tree. -/
theorem read_canonical (ber : Bytes) (fuel : Nat) :
    (∀ o r, readObject fuel ber o = .ok r → ∃ t, r.1 = toObj t ∧ WellTagged t) ∧
    (∀ i ce o r, readContent fuel ber i ce o = .ok r → ∃ ts, r.1 = toObjs ts ∧ WellTaggedAll ts) := by
  induction fuel with
  | zero => simp [readObject, readContent]
  | succ fuel ih =>
    obtain ⟨ihO, ihC⟩ := ih
    constructor
    · intro o r h
      simp only [readObject, Go.bind_eq_ok] at h
      obtain ⟨hd, hh, h⟩ := h
      obtain ⟨h1, h2, h3, h4⟩ := readHeader_ok hh
      split at h
      · rename_i hc
        simp at h; subst h
        refine ⟨.prim hd.tagBytes ((ber.drop hd.contentStart).take hd.length), ?_, ?_⟩
        · simp only [toObj]
          congr 1
          simp; omega
        · rw [hc] at h3; exact h3
      · rename_i hc
        simp only [Go.bind_eq_ok, Go.pure_def, Go.ok.injEq] at h
        obtain ⟨rc, hrc, rfl⟩ := h
        obtain ⟨ts, hts, hw⟩ := ihC _ _ _ _ hrc
        refine ⟨.cons hd.tagBytes ts, by simp [toObj, hts], ?_, hw⟩
        have : hd.constructed = true := by simpa using hc
        rw [this] at h3; exact h3
    · intro i ce o r h
      simp only [readContent] at h
      split at h
      · simp only [Go.bind_eq_ok] at h
        obtain ⟨s, hs, t, ht, h⟩ := h
        obtain ⟨t1, e1, w1⟩ := ihO _ _ hs
        split at h
        · simp at h; subst h
          exact ⟨[t1], by simp [toObjs, e1], w1, trivial⟩
        · simp only [Go.bind_eq_ok, Go.pure_def, Go.ok.injEq] at h
          obtain ⟨rest, hr, rfl⟩ := h
          obtain ⟨ts, e2, w2⟩ := ihC _ _ _ _ hr
          exact ⟨t1 :: ts, by simp [toObjs, e1, e2], w1, w2⟩
      · simp at h; subst h
        exact ⟨[], by simp [toObjs], trivial⟩

mutual
/-- The DER encoding of a well-tagged tree is one of its BER encodings. -/
theorem berEnc_der : ∀ t : Tlv, WellTagged t → (der t).length < 2 ^ 31 → BerEnc t (der t)
  | .prim tag content, hw, hl => by
    simp only [der] at hl ⊢
    refine .prim tag content _ hw (defLen_derLength _ ?_)
    simp at hl; omega
  | .cons tag ts, hw, hl => by
    simp only [der] at hl ⊢
    simp only [WellTagged] at hw
    simp only [List.length_append] at hl
    obtain ⟨bss, h1, h2⟩ := berEncs_ders ts hw.2 (by omega)
    rw [h2]
    refine .definite tag ts bss _ hw.1 h1 (defLen_derLength _ ?_)
    rw [← h2]; omega
theorem berEncs_ders : ∀ ts : List Tlv, WellTaggedAll ts → (ders ts).length < 2 ^ 31 →
    ∃ bss, BerEncs ts bss ∧ ders ts = bss.flatten
  | [], _, _ => ⟨[], .nil, by simp [ders]⟩
  | t :: ts, hw, hl => by
    simp only [ders, List.length_append] at hl ⊢
    simp only [WellTaggedAll] at hw
    obtain ⟨bss, h1, h2⟩ := berEncs_ders ts hw.2 (by omega)
    exact ⟨der t :: bss, .cons _ _ _ _ (berEnc_der t hw.1 (by omega)) h1, by simp [h2]⟩
end

/-! ### Appending octets -/

theorem idx_append {s z : Bytes} {o : Nat} {b : UInt8} (h : idx s o = .ok b) :
    idx (s ++ z) o = .ok b := by
  have hl := idx_lt h
  rw [idx_eq_ok] at h ⊢
  rw [List.getElem?_append_left hl]; exact h

theorem skipTag_append {s z : Bytes} {o e : Nat} (h : skipTag s o = .ok e) :
    skipTag (s ++ z) o = .ok e := by
  obtain ⟨mid, last, rest, h1, h2, h3, rfl⟩ := skipTag_ok h
  have hl := length_of_drop h1 (by simp)
  apply skipTag_enc (rest := rest ++ z) _ h2 h3
  rw [List.drop_append_of_le_length (by omega), h1]; simp

theorem readLength_append {s z : Bytes} {n o acc : Nat} {r : Nat × Nat}
    (h : readLength s n o acc = .ok r) : readLength (s ++ z) n o acc = .ok r := by
  induction n generalizing o acc with
  | zero => simpa [readLength] using h
  | succ n ih =>
    simp only [readLength, Go.bind_eq_ok] at h ⊢
    obtain ⟨b, hb, h⟩ := h
    exact ⟨b, idx_append hb, ih h⟩

theorem readTag_append {s z : Bytes} {o : Nat} {r : UInt8 × Nat} (h : readTag s o = .ok r) :
    readTag (s ++ z) o = .ok r := by
  simp only [readTag, Go.bind_eq_ok] at h ⊢
  obtain ⟨b, hb, h⟩ := h
  refine ⟨b, idx_append hb, ?_⟩
  split
  · rename_i h1
    rw [if_pos h1] at h
    simp only [Go.bind_eq_ok] at h ⊢
    obtain ⟨e, he, h⟩ := h
    exact ⟨e, skipTag_append he, h⟩
  · rename_i h1
    rw [if_neg h1] at h; exact h

theorem readLen_append {s z : Bytes} {o : Nat} {r : Bool × Nat × Nat} (h : readLen s o = .ok r) :
    readLen (s ++ z) o = .ok r := by
  unfold readLen at h ⊢
  split at h
  · simp at h
  · rw [if_neg (by simp; omega)]
    simp only [Go.bind_eq_ok] at h ⊢
    obtain ⟨l, hl, h⟩ := h
    refine ⟨l, idx_append hl, ?_⟩
    split
    · rename_i h1
      rw [if_pos h1] at h
      split
      · rename_i h2; rw [if_pos h2] at h; simp at h
      · rename_i h2
        rw [if_neg h2] at h
        simp only [Go.bind_eq_ok] at h ⊢
        obtain ⟨f, hf, h⟩ := h
        refine ⟨f, idx_append hf, ?_⟩
        split
        · rename_i h3; rw [if_pos h3] at h; simp at h
        · rename_i h3
          rw [if_neg h3] at h
          split
          · rename_i h4; rw [if_pos h4] at h; simp at h
          · rename_i h4
            rw [if_neg h4] at h
            simp only [Go.bind_eq_ok] at h ⊢
            obtain ⟨r', hr, h⟩ := h
            exact ⟨r', readLength_append hr, h⟩
    · rename_i h1
      rw [if_neg h1] at h
      exact h

theorem readHeader_append {s z : Bytes} {o : Nat} {hd : Header} (h : readHeader s o = .ok hd) :
    readHeader (s ++ z) o = .ok hd := by
  unfold readHeader at h ⊢
  simp only [Go.bind_eq_ok] at h ⊢
  obtain ⟨t, ht, l, hl, h⟩ := h
  refine ⟨t, readTag_append ht, l, readLen_append hl, ?_⟩
  obtain ⟨tag, rest, h1, h2, h3⟩ := readTag_ok (b := t.1) (e := t.2) ht
  have hlen := length_of_drop h1 (by simp [tagOk_ne_nil h2])
  simp only [List.length_append] at hlen
  split at h
  · simp at h
  · rename_i hle
    rw [if_neg (by simp only [List.length_append]; omega)]
    split at h
    · simp at h
    · rename_i hk
      rw [if_neg hk]
      have : ((s ++ z).drop o).take (t.2 - o) = (s.drop o).take (t.2 - o) := by
        rw [List.drop_append_of_le_length (by omega), List.take_append_of_le_length]
        rw [h1]; simp; omega
      rw [this]; exact h

theorem closed_append {s z : Bytes} {i : Bool} {o : Nat} {t : Bool} (h : closed i s o = .ok t) :
    closed i (s ++ z) o = .ok t := by
  unfold closed at h ⊢
  split
  · rename_i hi
    rw [if_pos hi] at h
    have h1 := (isIndefiniteTermination_ok h).1
    unfold isIndefiniteTermination at h ⊢
    rw [if_neg (by omega)] at h
    rw [if_neg (by simp; omega)]
    rw [List.drop_append_of_le_length (by omega), List.take_append_of_le_length (by simp; omega)]
    exact h
  · rename_i hi
    rw [if_neg hi] at h; exact h

theorem read_append (s z : Bytes) (fuel : Nat) :
    (∀ o r, readObject fuel s o = .ok r → readObject fuel (s ++ z) o = .ok r) ∧
    (∀ i ce o r, readContent fuel s i ce o = .ok r → readContent fuel (s ++ z) i ce o = .ok r) := by
  induction fuel with
  | zero => simp [readObject, readContent]
  | succ fuel ih =>
    obtain ⟨ihO, ihC⟩ := ih
    constructor
    · intro o r h
      simp only [readObject, Go.bind_eq_ok] at h ⊢
      obtain ⟨hd, hh, h⟩ := h
      refine ⟨hd, readHeader_append hh, ?_⟩
      obtain ⟨h1, h2, h3, h4⟩ := readHeader_ok hh
      split
      · rename_i hc
        rw [if_pos hc] at h
        rw [List.drop_append_of_le_length (by omega), List.take_append_of_le_length (by simp; omega)]
        exact h
      · rename_i hc
        rw [if_neg hc] at h
        simp only [Go.bind_eq_ok] at h ⊢
        obtain ⟨rc, hrc, h⟩ := h
        exact ⟨rc, ihC _ _ _ _ hrc, h⟩
    · intro i ce o r h
      simp only [readContent] at h ⊢
      split
      · rename_i hc
        rw [if_pos hc] at h
        simp only [Go.bind_eq_ok] at h ⊢
        obtain ⟨s', hs, t, ht, h⟩ := h
        refine ⟨s', ihO _ _ hs, t, closed_append ht, ?_⟩
        split
        · rename_i htt; rw [if_pos htt] at h; exact h
        · rename_i htt
          rw [if_neg htt] at h
          simp only [Go.bind_eq_ok] at h ⊢
          obtain ⟨rest, hr, h⟩ := h
          exact ⟨rest, ihC _ _ _ _ hr, h⟩
      · rename_i hc
        rw [if_neg hc] at h; exact h

/-! ### No panic on input that ends with three zero octets -/

/-- The last three octets are zero. -/
def Padded (y : Bytes) : Prop := ∃ x, y = x ++ [0, 0, 0]

theorem padded_nonzero {y : Bytes} (hp : Padded y) {o : Nat} {b : UInt8} (h : idx y o = .ok b)
    (hb : b ≠ 0) : o + 3 < y.length := by
  obtain ⟨x, rfl⟩ := hp
  rw [idx_eq_ok] at h
  simp only [List.length_append, List.length_cons, List.length_nil]
  apply Nat.lt_of_not_le
  intro hle
  rw [List.getElem?_append_right (by omega)] at h
  have := List.mem_of_getElem? h
  simp at this
  exact hb this

theorem idx_ne_panic {y : Bytes} {o : Nat} (h : o < y.length) : idx y o ≠ .panic := by
  unfold idx
  rw [List.getElem?_eq_getElem h]; simp

theorem skipTag_ne_panic {y : Bytes} (hp : Padded y) {o : Nat} (h : o < y.length) :
    skipTag y o ≠ .panic := by
  induction hk : y.length - o generalizing o with
  | zero => omega
  | succ k ih =>
    unfold skipTag
    rw [dif_pos h]
    split
    · rename_i hge
      have hi : idx y o = .ok y[o] := by rw [idx_eq_ok]; exact List.getElem?_eq_getElem h
      have := padded_nonzero hp hi (by
        intro e; rw [e] at hge; exact absurd hge (by decide))
      exact ih (by omega) (by omega)
    · simp

theorem readLength_ne_panic {y : Bytes} {n o acc : Nat} (h : o + n ≤ y.length) :
    readLength y n o acc ≠ .panic := by
  induction n generalizing o acc with
  | zero => simp [readLength]
  | succ n ih =>
    simp only [readLength, ne_eq, Go.bind_eq_panic, not_or]
    exact ⟨idx_ne_panic (by omega), fun ⟨b, _, h2⟩ => ih (by omega) h2⟩

theorem readTag_ne_panic {y : Bytes} (hp : Padded y) {o : Nat} (h : o < y.length) :
    readTag y o ≠ .panic := by
  simp only [readTag, ne_eq, Go.bind_eq_panic, not_or]
  refine ⟨idx_ne_panic h, fun ⟨b, hb, h2⟩ => ?_⟩
  split at h2
  · rename_i hf
    have := padded_nonzero hp hb (by intro e; rw [e] at hf; exact absurd hf (by decide))
    rw [Go.bind_eq_panic] at h2
    rcases h2 with h2 | ⟨_, _, h2⟩
    · exact skipTag_ne_panic hp (by omega) h2
    · simp at h2
  · simp at h2

theorem readLen_ne_panic {y : Bytes} (hp : Padded y) {o : Nat} : readLen y o ≠ .panic := by
  unfold readLen
  split
  · simp
  · rename_i hlt
    simp only [ne_eq, Go.bind_eq_panic, not_or]
    refine ⟨idx_ne_panic (by omega), fun ⟨l, hl, h⟩ => ?_⟩
    split at h
    · rename_i hgt
      have h1 := padded_nonzero hp hl (by intro e; rw [e] at hgt; exact absurd hgt (by decide))
      split at h
      · simp at h
      · rename_i h4
        rw [Go.bind_eq_panic] at h
        rcases h with h | ⟨f, hf, h⟩
        · exact idx_ne_panic (by omega) h
        · split at h
          · simp at h
          · split at h
            · simp at h
            · rename_i hf0
              have h2 := padded_nonzero hp hf hf0
              rw [Go.bind_eq_panic] at h
              rcases h with h | ⟨_, _, h⟩
              · exact readLength_ne_panic (by omega) h
              · simp at h
    · split at h <;> simp at h

theorem readLen_indef_lt {y : Bytes} (hp : Padded y) {o n e : Nat}
    (h : readLen y o = .ok (true, n, e)) : e < y.length := by
  unfold readLen at h
  split at h
  · simp at h
  · simp only [Go.bind_eq_ok] at h
    obtain ⟨l, hl, h⟩ := h
    split at h
    · split at h
      · simp at h
      · simp only [Go.bind_eq_ok] at h
        obtain ⟨f, _, h⟩ := h
        split at h
        · simp at h
        · split at h
          · simp at h
          · simp only [Go.bind_eq_ok] at h
            obtain ⟨r, _, h⟩ := h
            simp at h
    · split at h
      · rename_i h80
        simp at h
        have := padded_nonzero hp hl (by rw [h80]; decide)
        omega
      · simp at h

theorem readHeader_ne_panic {y : Bytes} (hp : Padded y) {o : Nat} (h : o < y.length) :
    readHeader y o ≠ .panic := by
  simp only [readHeader, ne_eq, Go.bind_eq_panic, not_or]
  refine ⟨readTag_ne_panic hp h, fun ⟨t, _, h2⟩ => ?_⟩
  rcases h2 with h2 | ⟨l, _, h2⟩
  · exact readLen_ne_panic hp h2
  · split at h2
    · simp at h2
    · split at h2 <;> simp at h2

theorem readHeader_indef_lt {y : Bytes} (hp : Padded y) {o : Nat} {hd : Header}
    (h : readHeader y o = .ok hd) (hi : hd.indefinite = true) : hd.contentStart < y.length := by
  simp only [readHeader, Go.bind_eq_ok] at h
  obtain ⟨t, _, l, hl, h⟩ := h
  split at h
  · simp at h
  · split at h
    · simp at h
    · simp at h
      subst h
      simp only at hi ⊢
      obtain ⟨i, n, e⟩ := l
      simp only at hi ⊢
      subst hi
      exact readLen_indef_lt hp hl

theorem read_ne_panic (y : Bytes) (hp : Padded y) (fuel : Nat) :
    (∀ o, o < y.length → readObject fuel y o ≠ .panic) ∧
    (∀ i ce o, ce ≤ y.length → (i = true → o < y.length) → readContent fuel y i ce o ≠ .panic) := by
  induction fuel with
  | zero => simp [readObject, readContent]
  | succ fuel ih =>
    obtain ⟨ihO, ihC⟩ := ih
    constructor
    · intro o ho h
      simp only [readObject, Go.bind_eq_panic] at h
      rcases h with h | ⟨hd, hh, h⟩
      · exact readHeader_ne_panic hp ho h
      · obtain ⟨h1, h2, _, _⟩ := readHeader_ok hh
        split at h
        · simp at h
        · rw [Go.bind_eq_panic] at h
          rcases h with h | ⟨_, _, h⟩
          · exact ihC _ _ _ h2 (fun hi => readHeader_indef_lt hp hh hi) h
          · simp at h
    · intro i ce o hce hi h
      simp only [readContent] at h
      split at h
      · rename_i hc
        rw [Go.bind_eq_panic] at h
        rcases h with h | ⟨s, hs, h⟩
        · refine ihO _ ?_ h
          rcases hc with hc | hc
          · omega
          · exact hi hc
        · rw [Go.bind_eq_panic] at h
          rcases h with h | ⟨t, ht, h⟩
          · unfold closed at h
            split at h
            · unfold isIndefiniteTermination at h; split at h <;> simp at h
            · simp at h
          · split at h
            · simp at h
            · rw [Go.bind_eq_panic] at h
              rcases h with h | ⟨_, _, h⟩
              · refine ihC _ _ _ hce (fun hi' => ?_) h
                unfold closed at ht
                rw [if_pos hi'] at ht
                have := (isIndefiniteTermination_ok ht).1
                omega
              · simp at h
      · simp at h

/-! ### The blow-up family -/

/-- `k` copies of 30 02 30 80, then 04 00 00 00. -/
def blowTail : Nat → Bytes
  | 0 => [0x04, 0x00, 0x00, 0x00]
  | k + 1 => 0x30 :: 0x02 :: 0x30 :: 0x80 :: blowTail k

/-- What the reader builds from it. -/
def blowObjs : Nat → List Obj
  | 0 => [.prim [0x04] 0 []]
  | k + 1 => .struct [0x30] [.struct [0x30] (blowObjs k)] :: blowObjs k

theorem blowTail_length (k : Nat) : (blowTail k).length = 4 * k + 4 := by
  induction k with
  | zero => rfl
  | succ k ih => simp [blowTail, ih]; omega

theorem tag30 : TagOk true [0x30] := ⟨0x30, [], rfl, by decide, Or.inl ⟨by decide, rfl⟩⟩
theorem tag04 : TagOk false [0x04] := ⟨0x04, [], rfl, by decide, Or.inl ⟨by decide, rfl⟩⟩

theorem blow_take2 (k : Nat) : (blowTail k).take 2 ≠ [0, 0] := by
  cases k <;> simp [blowTail]

theorem blow_read {ber : Bytes} {k o ce : Nat} (h : ber.drop o = blowTail k) :
    ∃ f, readContent f ber true ce o = .ok (blowObjs k, o + 4 * k + 2) := by
  induction k generalizing o ce with
  | zero =>
    refine ⟨2, ?_⟩
    have hl := length_of_drop h (by simp [blowTail])
    simp [blowTail] at hl
    have hh := readHeader_definite (ber := ber) (o := o) (rest := [0, 0]) tag04
      (DefLen.short 0 (by omega)) (by rw [h]; rfl) (by simp)
    have h2 : ber.drop (o + 2) = [0, 0] := by
      rw [← List.drop_drop, h]; rfl
    simp only [readContent, readObject, hh, Go.ok_bind, closed, isIndefiniteTermination]
    simp
    rw [if_neg (by omega)]
    simp [h2, blowObjs]
  | succ k ih =>
    have hl := length_of_drop h (by simp [blowTail])
    simp [blowTail, blowTail_length] at hl
    have h4 : ber.drop (o + 4) = blowTail k := by
      rw [← List.drop_drop, h]; rfl
    have h2 : ber.drop (o + 2) = [0x30] ++ [0x80] ++ blowTail k := by
      rw [← List.drop_drop, h]; rfl
    have hh1 : readHeader ber o = .ok ⟨[0x30], true, false, 2, o + 2⟩ :=
      readHeader_definite (ber := ber) (o := o) (rest := 0x30 :: 0x80 :: blowTail k) tag30
      (DefLen.short 2 (by omega)) (by rw [h]; rfl) (by simp)
    have hh2 : readHeader ber (o + 2) = .ok ⟨[0x30], true, true, 0, o + 4⟩ :=
      readHeader_indefinite (ber := ber) (o := o + 2) (rest := blowTail k) tag30 h2
    obtain ⟨f1, hf1⟩ := ih (ce := o + 4) h4
    obtain ⟨f2, hf2⟩ := ih (ce := ce) h4
    have e1 := readContent_fuel_le (g := max f1 f2) (f := f1) (ber := ber) (i := true)
      (ce := o + 4) (o := o + 4) (by omega) (by rw [hf1]; simp)
    have e2 := readContent_fuel_le (g := max f1 f2 + 3) (f := f2) (ber := ber) (i := true)
      (ce := ce) (o := o + 4) (by omega) (by rw [hf2]; simp)
    have hcl : closed true ber (o + 4) = .ok false := by
      unfold closed isIndefiniteTermination
      simp only [if_true]
      rw [if_neg (by omega), h4]
      simp [blow_take2]
    -- inner indefinite object at o + 2
    have hin : readObject (max f1 f2 + 1) ber (o + 2)
        = .ok (.struct [0x30] (blowObjs k), o + 4 + 4 * k + 2 + 2) := by
      simp only [readObject, hh2, Go.ok_bind]
      simp [e1, hf1]
    -- the definite object at o
    have hout : readObject (max f1 f2 + 3) ber o
        = .ok (.struct [0x30] [.struct [0x30] (blowObjs k)], o + 4) := by
      rw [readObject]
      simp only [hh1, Go.ok_bind]
      rw [readContent]
      simp only [hin, Go.ok_bind, closed]
      simp [readContent]
      rw [if_neg (by simp; omega)]
      simp
    refine ⟨max f1 f2 + 4, ?_⟩
    rw [readContent]
    simp only [hout, Go.ok_bind, hcl, e2, hf2]
    simp [blowObjs]; omega

theorem encodeAll_blow (k : Nat) : 2 ^ k ≤ (encodeAll (blowObjs k)).length := by
  induction k with
  | zero => simp [blowObjs, encodeAll, encodeTo]
  | succ k ih =>
    simp only [blowObjs, encodeAll, encodeTo, List.length_append]
    omega

end Verif.Ber

namespace Verif.Ber
open BerSpec

/-! ### Size of the DER encoding of a well-formed BER encoding -/

theorem lengthLength_le {n k : Nat} (h : n < 256 ^ k) (hk : 1 ≤ k) : lengthLength n ≤ k := by
  induction k generalizing n with
  | zero => omega
  | succ k ih =>
    unfold lengthLength
    split
    · rename_i hgt
      by_cases hk0 : k = 0
      · subst hk0; simp at h; omega
      · have : n / 256 < 256 ^ k := by
          rw [Nat.div_lt_iff_lt_mul (by omega)]; rw [Nat.pow_succ] at h; exact h
        have := ih this (by omega)
        omega
    · omega

theorem derLength_length_le {n k : Nat} (h : n < 256 ^ k) (hk : 1 ≤ k) :
    (derLength n).length ≤ k + 1 := by
  unfold derLength
  split
  · simp
  · rename_i hn
    simp [digits_length n (by omega)]
    exact lengthLength_le h hk

theorem beVal_lt (ds : Bytes) : beVal ds < 256 ^ ds.length := by
  have : ∀ (ds : Bytes) (acc : Nat),
      ds.foldl (fun a d => a * 256 + d.toNat) acc < (acc + 1) * 256 ^ ds.length := by
    intro ds
    induction ds with
    | nil => intro acc; simp
    | cons d ds ih =>
      intro acc
      have h1 := ih (acc * 256 + d.toNat)
      have h2 := u8_lt d
      simp only [List.foldl_cons, List.length_cons]
      refine Nat.lt_of_lt_of_le h1 ?_
      rw [Nat.pow_succ, Nat.mul_comm (256 ^ ds.length) 256, ← Nat.mul_assoc]
      exact Nat.mul_le_mul_right _ (by omega)
  simpa [beVal] using this ds 0

theorem defLen_double {n m : Nat} {len : Bytes} (h : DefLen n len) (hm : m ≤ 2 * n) :
    (derLength m).length ≤ len.length + 1 := by
  cases h with
  | short n hn =>
    have := derLength_length_le (n := m) (k := 1) (by omega) (by omega)
    simpa using this
  | long d ds hk hd h4 =>
    have h1 := beVal_lt (d :: ds)
    have : m < 256 ^ (ds.length + 2) := by
      rw [Nat.pow_succ]
      simp only [List.length_cons] at h1
      omega
    have := derLength_length_le this (by omega)
    simp; omega

mutual
theorem der_size {t : Tlv} {bs : Bytes} (h : BerEnc t bs) (hs : bs.length < 2 ^ 31) :
    (der t).length ≤ 2 * bs.length := by
  cases h with
  | prim tag content len ht hl =>
    have := defLen_double (m := content.length) hl (by omega)
    have := List.length_pos_iff.mpr (defLen_ne_nil hl)
    simp [der]; omega
  | definite tag ts bss len ht hs' hl =>
    simp only [List.length_append] at hs
    have h1 := ders_size hs' (by omega)
    have := defLen_double (m := (ders ts).length) hl h1
    have := List.length_pos_iff.mpr (defLen_ne_nil hl)
    simp only [der, List.length_append]; omega
  | indefinite tag ts bss ht hs' hne heoc =>
    simp only [List.length_append, List.length_cons, List.length_nil] at hs
    have h1 := ders_size hs' (by omega)
    have := derLength_length_le (n := (ders ts).length) (k := 4) (by omega) (by omega)
    simp only [der, List.length_append, List.length_cons, List.length_nil]; omega
theorem ders_size {ts : List Tlv} {bss : List Bytes} (h : BerEncs ts bss)
    (hs : bss.flatten.length < 2 ^ 31) : (ders ts).length ≤ 2 * bss.flatten.length := by
  cases h with
  | nil => simp [ders]
  | cons t ts bs bss h hs' =>
    have e : (bs :: bss).flatten.length = bs.length + bss.flatten.length := by simp
    rw [e] at hs ⊢
    have h1 := der_size h (by omega)
    have h2 := ders_size hs' (by omega)
    simp only [ders, List.length_append]; omega
end

end Verif.Ber
