import Verif.Model.Ber
import Verif.Spec.Ber
import Verif.Lemmas.Basic
/- Helper lemmas about the model of ber.go. -/
set_option autoImplicit false

namespace Verif.Ber
open BerSpec

/-! ### Lengths -/

theorem lengthLength_pos (n : Nat) : 1 ≤ lengthLength n := by
  unfold lengthLength; split <;> omega

theorem marshalBytes_length (i n : Nat) : (marshalBytes i n).length = n := by
  induction n with
  | zero => rfl
  | succ n ih => simp [marshalBytes, ih]

theorem marshalBytes_succ (i n : Nat) :
    marshalBytes i (n + 1) = marshalBytes (i / 256) n ++ [i.toUInt8] := by
  induction n generalizing i with
  | zero => simp [marshalBytes]
  | succ n ih =>
    rw [marshalBytes, ih, marshalBytes]
    simp [Nat.pow_succ, Nat.div_div_eq_div_mul, Nat.mul_comm]

theorem toUInt8_mod (n : Nat) : (n % 256).toUInt8 = n.toUInt8 := by
  apply UInt8.toNat_inj.mp; simp

theorem digits_eq (n : Nat) (h : 0 < n) : digits n = marshalBytes n (lengthLength n) := by
  induction n using Nat.strongRecOn with
  | _ n ih =>
    rw [digits, lengthLength]
    have hn : n ≠ 0 := by omega
    simp only [hn, if_false]
    split
    · rw [ih (n / 256) (by omega) (by omega), marshalBytes_succ, toUInt8_mod]
    · have : n / 256 = 0 := by omega
      rw [this, digits]
      simp [marshalBytes, toUInt8_mod]

theorem digits_length (n : Nat) (h : 0 < n) : (digits n).length = lengthLength n := by
  rw [digits_eq n h, marshalBytes_length]

theorem encodeLength_eq (n : Nat) : encodeLength n = derLength n := by
  unfold encodeLength derLength
  by_cases h : n < 128
  · simp [h, Nat.not_le.mpr h]
  · have h' : n ≥ 128 := by omega
    simp only [h, h', if_true, if_false]
    rw [digits_length n (by omega), marshalLongLength, digits_eq n (by omega)]

theorem beVal_append (a b : Bytes) :
    beVal (a ++ b) = b.foldl (fun a d => a * 256 + d.toNat) (beVal a) := by
  simp [beVal, List.foldl_append]

theorem beVal_digits (n : Nat) : beVal (digits n) = n := by
  induction n using Nat.strongRecOn with
  | _ n ih =>
    rw [digits]
    split
    · simp [beVal, *]
    · rw [beVal_append, ih (n / 256) (by omega)]
      simp; omega

theorem digits_ne_nil (n : Nat) (h : 0 < n) : digits n ≠ [] := by
  rw [digits]; simp; omega

/-- The leading digit is the quotient by the largest power of 256 not above `n`. -/
theorem digits_head (n : Nat) (h : 0 < n) :
    ∃ d ds, digits n = d :: ds ∧ d ≠ 0 ∧ d.toNat * 256 ^ ds.length ≤ n := by
  induction n using Nat.strongRecOn with
  | _ n ih =>
    rw [digits]
    have hn : n ≠ 0 := by omega
    simp only [hn, if_false]
    by_cases h1 : n / 256 = 0
    · rw [h1, digits]
      refine ⟨(n % 256).toUInt8, [], by simp, ?_, ?_⟩
      · intro h; have := congrArg UInt8.toNat h; simp at this; omega
      · simp; omega
    · obtain ⟨d, ds, e, hd, hle⟩ := ih (n / 256) (by omega) (by omega)
      refine ⟨d, ds ++ [(n % 256).toUInt8], by simp [e], hd, ?_⟩
      simp only [List.length_append, List.length_singleton, Nat.pow_succ]
      rw [← Nat.mul_assoc]
      have := Nat.mul_le_mul_right 256 hle
      omega

/-- A DER length below 2^31 is one of the definite forms. -/
theorem defLen_derLength (n : Nat) (h : n < 2 ^ 31) : DefLen n (derLength n) := by
  unfold derLength
  by_cases h1 : n < 128
  · simp only [h1, if_true]; exact .short n h1
  · simp only [h1, if_false]
    obtain ⟨d, ds, e, hd, hle⟩ := digits_head n (by omega)
    have hv := beVal_digits n
    rw [e] at hv ⊢
    have hd1 : 1 ≤ d.toNat := by
      rcases Nat.eq_zero_or_pos d.toNat with h0 | h0
      · exact absurd (UInt8.toNat_inj.mp (by simpa using h0)) hd
      · exact h0
    have hlen : ds.length ≤ 3 := by
      apply Nat.le_of_not_lt
      intro hgt
      have h4 : 256 ^ 4 ≤ 256 ^ ds.length := Nat.pow_le_pow_right (by omega) hgt
      have := Nat.mul_le_mul hd1 h4
      omega
    have hd7 : ds.length = 3 → d ≤ 0x7F := by
      intro h3
      rw [h3] at hle
      rw [UInt8.le_iff_toNat_le]
      show d.toNat ≤ 127
      omega
    have hb : (0x80 ||| (d :: ds).length.toUInt8) = (0x80 + (ds.length + 1)).toUInt8 := by
      have : ds.length = 0 ∨ ds.length = 1 ∨ ds.length = 2 ∨ ds.length = 3 := by omega
      rcases this with h | h | h | h <;> simp [h] <;> decide
    rw [hb]
    have := DefLen.long d ds hlen hd hd7
    rwa [hv] at this

theorem defLen_ne_nil {n : Nat} {len : Bytes} (h : DefLen n len) : len ≠ [] := by
  cases h <;> simp

/-! ### Reading a header -/

theorem skipTag_enc {ber rest : Bytes} {mid : Bytes} {last : UInt8} {o : Nat}
    (h : ber.drop o = mid ++ last :: rest) (hm : ∀ x ∈ mid, x ≥ 0x80) (hl : last < 0x80) :
    skipTag ber o = .ok (o + mid.length) := by
  induction mid generalizing o with
  | nil =>
    unfold skipTag
    have hlen := length_of_drop h (by simp)
    have hlt : o < ber.length := by simp at hlen; omega
    have h0 : ber[o] = last := by
      have : (ber.drop o)[0]? = some last := by rw [h]; simp
      rw [List.getElem?_drop] at this
      exact (List.getElem?_eq_some_iff.mp this).2
    have : ¬ last ≥ 0x80 := by
      rw [ge_iff_le, UInt8.le_iff_toNat_le]; rw [UInt8.lt_iff_toNat_lt] at hl; omega
    simp [hlt, h0, this]
  | cons x mid ih =>
    unfold skipTag
    have hlen := length_of_drop h (by simp)
    have hlt : o < ber.length := by simp at hlen; omega
    have h0 : ber[o] = x := by
      have : (ber.drop o)[0]? = some x := by rw [h]; simp
      rw [List.getElem?_drop] at this
      exact (List.getElem?_eq_some_iff.mp this).2
    have hx : x ≥ 0x80 := hm x (by simp)
    have := ih (o := o + 1) (drop_of_append (x := [x]) (by simpa using h))
      (fun y hy => hm y (by simp [hy]))
    simp only [hlt, h0, hx, dite_true, if_true, this]
    simp; omega

theorem readLength_enc {ber rest ds : Bytes} {o acc : Nat} (h : ber.drop o = ds ++ rest) :
    readLength ber ds.length o acc
      = .ok (ds.foldl (fun a d => a * 256 + d.toNat) acc, o + ds.length) := by
  induction ds generalizing o acc with
  | nil => simp [readLength]
  | cons d ds ih =>
    have h1 : idx ber o = .ok d := by rw [idx_of_drop h]; simp
    have h2 : ber.drop (o + 1) = ds ++ rest := drop_of_append (x := [d]) (by simpa using h)
    simp only [List.length_cons, readLength, h1, Go.ok_bind, ih h2, List.foldl_cons]
    simp; omega

/-- The identifier octets are read back and the cursor stands on the length octets. -/
theorem readTag_enc {ber rest tag : Bytes} {o : Nat} {c : Bool} (ht : TagOk c tag)
    (h : ber.drop o = tag ++ rest) :
    ∃ b, readTag ber o = .ok (b, o + tag.length) ∧ (decide (b &&& 0x20 ≠ 0) = c) := by
  obtain ⟨b, r, rfl, hc, hr⟩ := ht
  refine ⟨b, ?_, ?_⟩
  · have hb : idx ber o = .ok b := by rw [idx_of_drop h]; simp
    unfold readTag
    rcases hr with ⟨h1, rfl⟩ | ⟨h1, mid, last, rfl, hm, hl⟩
    · simp [hb, h1]
    · have := skipTag_enc (o := o + 1) (mid := mid) (last := last) (rest := rest)
        (drop_of_append (x := [b]) (by simpa using h)) hm hl
      simp only [hb, Go.ok_bind, h1, if_true, this, Go.pure_def]
      simp; omega
  · cases c <;> simp_all

theorem readLen_definite {ber rest len : Bytes} {o n : Nat} (hl : DefLen n len)
    (h : ber.drop o = len ++ rest) : readLen ber o = .ok (false, n, o + len.length) := by
  have hlen := length_of_drop h (by simp [defLen_ne_nil hl])
  simp only [List.length_append] at hlen
  have hlp : 0 < len.length := List.length_pos_iff.mpr (defLen_ne_nil hl)
  unfold readLen
  rw [if_neg (by omega)]
  cases hl with
  | short n h128 =>
    have hl0 : idx ber o = .ok n.toUInt8 := by rw [idx_of_drop h]; simp
    have h1 : ¬ n.toUInt8 > 0x80 := by
      rw [gt_iff_lt, UInt8.lt_iff_toNat_lt]; simp; omega
    have h2 : n.toUInt8 ≠ 0x80 := by
      intro e; have := congrArg UInt8.toNat e; simp at this; omega
    have h3 : n.toUInt8.toNat = n := by simp; omega
    simp only [hl0, Go.ok_bind, h1, h2, if_false, Go.pure_def, h3, List.length_singleton]
  | long d ds hk3 hd h4 =>
    have hl0 : idx ber o = .ok (0x80 + (ds.length + 1)).toUInt8 := by
      rw [idx_of_drop h]; simp
    have h'' : ber.drop (o + 1) = d :: ds ++ rest :=
      drop_of_append (x := [(0x80 + (ds.length + 1)).toUInt8]) (by simpa using h)
    have hf : idx ber (o + 1) = .ok d := by rw [idx_of_drop h'']; simp
    have hnum : (((0x80 + (ds.length + 1)).toUInt8) &&& 0x7F).toNat = ds.length + 1 := by
      have : ds.length = 0 ∨ ds.length = 1 ∨ ds.length = 2 ∨ ds.length = 3 := by omega
      rcases this with h | h | h | h <;> rw [h] <;> rfl
    have h1 : (0x80 + (ds.length + 1)).toUInt8 > 0x80 := by
      rw [gt_iff_lt, UInt8.lt_iff_toNat_lt]; simp; omega
    have h5 : ¬ (ds.length + 1 = 4 ∧ d > 0x7F) := by
      rintro ⟨h3, h6⟩
      have := h4 (by omega)
      rw [UInt8.le_iff_toNat_le] at this
      rw [gt_iff_lt, UInt8.lt_iff_toNat_lt] at h6
      omega
    have hrl := readLength_enc (acc := 0) h''
    simp only [List.length_cons] at hrl
    simp only [hl0, Go.ok_bind, h1, if_true, hnum]
    rw [if_neg (by omega)]
    simp only [hf, hd, if_false, h5, hrl, Go.pure_def, Go.ok_bind]
    simp [beVal]; omega

theorem readLen_indefinite {ber rest : Bytes} {o : Nat}
    (h : ber.drop o = 0x80 :: rest) : readLen ber o = .ok (true, 0, o + 1) := by
  have hlen := length_of_drop h (by simp)
  simp only [List.length_cons] at hlen
  have hl0 : idx ber o = .ok 0x80 := by rw [idx_of_drop h]; simp
  unfold readLen
  rw [if_neg (by omega)]
  simp only [hl0, Go.ok_bind]
  rw [if_neg (by decide)]
  simp

theorem readHeader_definite {ber rest tag len : Bytes} {o n : Nat} {c : Bool}
    (ht : TagOk c tag) (hl : DefLen n len) (h : ber.drop o = tag ++ len ++ rest)
    (hn : n ≤ rest.length) :
    readHeader ber o = .ok { tagBytes := tag, constructed := c, indefinite := false, length := n,
                             contentStart := o + tag.length + len.length } := by
  obtain ⟨b, hb, hk⟩ := readTag_enc ht (by simpa [List.append_assoc] using h)
  have h' : ber.drop (o + tag.length) = len ++ rest := drop_of_append (by simpa using h)
  have hlen := length_of_drop h (by simp [defLen_ne_nil hl])
  simp only [List.length_append] at hlen
  have htag : (ber.drop o).take (o + tag.length - o) = tag := by
    rw [h]; simp [List.append_assoc]
  unfold readHeader
  simp only [hb, Go.ok_bind, readLen_definite hl h']
  rw [if_neg (by omega), if_neg (by simp)]
  simp only [htag, hk, Go.pure_def]

theorem readHeader_indefinite {ber rest tag : Bytes} {o : Nat}
    (ht : TagOk true tag) (h : ber.drop o = tag ++ [0x80] ++ rest) :
    readHeader ber o = .ok { tagBytes := tag, constructed := true, indefinite := true, length := 0,
                             contentStart := o + tag.length + 1 } := by
  obtain ⟨b, hb, hk⟩ := readTag_enc ht (by simpa [List.append_assoc] using h)
  have h' : ber.drop (o + tag.length) = 0x80 :: rest := drop_of_append (by simpa using h)
  have hlen := length_of_drop h (by simp)
  simp only [List.length_append, List.length_singleton] at hlen
  have htag : (ber.drop o).take (o + tag.length - o) = tag := by
    rw [h]; simp [List.append_assoc]
  have hk' : ¬ (b &&& 0x20 = 0) := by simpa using hk
  unfold readHeader
  simp only [hb, Go.ok_bind, readLen_indefinite h']
  rw [if_neg (by omega), if_neg (by simp [hk'])]
  simp only [htag, hk, Go.pure_def]

/-! ### What a successful header read tells -/

theorem skipTag_ok {ber : Bytes} {o e : Nat} (h : skipTag ber o = .ok e) :
    ∃ mid last rest, ber.drop o = mid ++ last :: rest ∧ (∀ x ∈ mid, x ≥ 0x80) ∧ last < 0x80 ∧
      e = o + mid.length := by
  induction hk : ber.length - o generalizing o with
  | zero =>
    unfold skipTag at h
    rw [dif_neg (by omega)] at h
    simp at h
  | succ k ih =>
    unfold skipTag at h
    have hlt : o < ber.length := by omega
    have hd : ber.drop o = ber[o] :: ber.drop (o + 1) := List.drop_eq_getElem_cons hlt
    rw [dif_pos hlt] at h
    split at h
    · rename_i hge
      obtain ⟨mid, last, rest, h1, h2, h3, h4⟩ := ih h (by omega)
      refine ⟨ber[o] :: mid, last, rest, by rw [hd, h1]; simp, ?_, h3, ?_⟩
      · intro x hx
        rcases List.mem_cons.mp hx with rfl | hx
        · exact hge
        · exact h2 x hx
      · simp; omega
    · rename_i hlt'
      refine ⟨[], ber[o], ber.drop (o + 1), by simpa using hd, by simp, ?_, ?_⟩
      · rw [UInt8.lt_iff_toNat_lt]
        rw [ge_iff_le, UInt8.le_iff_toNat_le] at hlt'
        omega
      · simp at h; simp [h]

theorem readTag_ok {ber : Bytes} {o e : Nat} {b : UInt8} (h : readTag ber o = .ok (b, e)) :
    ∃ tag rest, ber.drop o = tag ++ rest ∧ TagOk (decide (b &&& 0x20 ≠ 0)) tag ∧
      e = o + tag.length := by
  unfold readTag at h
  rw [Go.bind_eq_ok] at h
  obtain ⟨b', hb, h⟩ := h
  have hlt := idx_lt hb
  have hd : ber.drop o = ber[o] :: ber.drop (o + 1) := List.drop_eq_getElem_cons hlt
  have hbe : ber[o] = b' := by
    rw [idx_eq_ok] at hb
    exact (List.getElem?_eq_some_iff.mp hb).2
  split at h
  · rename_i h1F
    rw [Go.bind_eq_ok] at h
    obtain ⟨e', hs, h⟩ := h
    simp at h
    obtain ⟨mid, last, rest, hd', hm, hl, he⟩ := skipTag_ok hs
    obtain ⟨rfl, rfl⟩ := h
    refine ⟨b' :: (mid ++ [last]), rest, by rw [hd, hd', hbe]; simp, ?_, by simp; omega⟩
    exact ⟨b', mid ++ [last], rfl, by simp, Or.inr ⟨h1F, mid, last, rfl, hm, hl⟩⟩
  · rename_i h1F
    simp at h
    obtain ⟨rfl, rfl⟩ := h
    refine ⟨[b'], ber.drop (o + 1), by rw [hd, hbe]; simp, ?_, by simp⟩
    exact ⟨b', [], rfl, by simp, Or.inl ⟨h1F, rfl⟩⟩

theorem readLength_ok {ber : Bytes} {n o acc v e : Nat}
    (h : readLength ber n o acc = .ok (v, e)) : e = o + n := by
  induction n generalizing o acc with
  | zero => simp [readLength] at h; omega
  | succ n ih =>
    simp only [readLength, Go.bind_eq_ok] at h
    obtain ⟨b, _, h⟩ := h
    have := ih h; omega

theorem readLen_ok {ber : Bytes} {o n e : Nat} {i : Bool} (h : readLen ber o = .ok (i, n, e)) :
    o + 1 ≤ e ∧ (i = true → n = 0) := by
  unfold readLen at h
  split at h
  · simp at h
  · rw [Go.bind_eq_ok] at h
    obtain ⟨l, _, h⟩ := h
    simp only at h
    split at h
    · split at h
      · simp at h
      · rw [Go.bind_eq_ok] at h
        obtain ⟨f, _, h⟩ := h
        split at h
        · simp at h
        · split at h
          · simp at h
          · rw [Go.bind_eq_ok] at h
            obtain ⟨r, hr, h⟩ := h
            have := readLength_ok (v := r.1) (e := r.2) hr
            simp at h
            obtain ⟨rfl, rfl, rfl⟩ := h
            exact ⟨by omega, by simp⟩
    · split at h
      · simp at h; omega
      · simp at h; exact ⟨by omega, fun hi => by simp [hi] at h⟩

theorem readHeader_ok {ber : Bytes} {o : Nat} {hd : Header} (h : readHeader ber o = .ok hd) :
    o + 2 ≤ hd.contentStart ∧ hd.contentStart + hd.length ≤ ber.length ∧
    TagOk hd.constructed hd.tagBytes ∧ (hd.indefinite = true → hd.constructed = true ∧ hd.length = 0) := by
  unfold readHeader at h
  rw [Go.bind_eq_ok] at h
  obtain ⟨⟨b, te⟩, ht, h⟩ := h
  simp only at h
  rw [Go.bind_eq_ok] at h
  obtain ⟨⟨i, n, e⟩, hl, h⟩ := h
  simp only at h
  obtain ⟨tag, rest, hd1, htag, hte⟩ := readTag_ok ht
  obtain ⟨he, hi⟩ := readLen_ok hl
  have htl : 1 ≤ tag.length := by
    obtain ⟨b, r, rfl, _⟩ := htag; simp
  split at h
  · simp at h
  · split at h
    · simp at h
    · rename_i hn
      simp only [Go.pure_def, Go.ok.injEq] at h
      subst h
      refine ⟨by simp only; omega, by simp only; omega, ?_, ?_⟩
      · simp only
        have : (ber.drop o).take (te - o) = tag := by rw [hd1, hte]; simp
        rw [this]; exact htag
      · simp only
        intro hh
        subst hh
        exact ⟨by simpa using hn, hi rfl⟩

/-! ### Progress and fuel -/

theorem isIndefiniteTermination_ok {ber : Bytes} {o : Nat} {t : Bool}
    (h : isIndefiniteTermination ber o = .ok t) :
    o + 2 ≤ ber.length ∧ (t = true ↔ (ber.drop o).take 2 = [0, 0]) := by
  unfold isIndefiniteTermination at h
  split at h
  · simp at h
  · simp at h; subst h; simp; omega

/-- A successful read moves the cursor forward by at least two octets and stays inside the input. -/
theorem read_progress (ber : Bytes) (fuel : Nat) :
    (∀ o r, readObject fuel ber o = .ok r → o + 2 ≤ r.2 ∧ r.2 ≤ ber.length) ∧
    (∀ i ce o r, o ≤ ber.length → readContent fuel ber i ce o = .ok r →
        o ≤ r.2 ∧ r.2 ≤ ber.length ∧ (i = true → r.2 + 2 ≤ ber.length ∧ o + 2 ≤ r.2)) := by
  induction fuel with
  | zero => simp [readObject, readContent]
  | succ fuel ih =>
    obtain ⟨ihO, ihC⟩ := ih
    constructor
    · intro o r h
      simp only [readObject, Go.bind_eq_ok] at h
      obtain ⟨hd, hh, h⟩ := h
      obtain ⟨h1, h2, _, h4⟩ := readHeader_ok hh
      split at h
      · simp at h; subst h; simp; omega
      · simp only [Go.bind_eq_ok, Go.pure_def, Go.ok.injEq] at h
        obtain ⟨rc, hc, rfl⟩ := h
        obtain ⟨c1, c2, c3⟩ := ihC _ _ _ _ (by omega) hc
        simp only
        split
        · rename_i hi; have := c3 hi; omega
        · omega
    · intro i ce o r ho h
      simp only [readContent] at h
      split at h
      · simp only [Go.bind_eq_ok] at h
        obtain ⟨s, hs, t, ht, h⟩ := h
        obtain ⟨s1, s2⟩ := ihO _ _ hs
        have hb : i = true → s.2 + 2 ≤ ber.length := by
          intro hi
          subst hi
          simp only [closed, if_true] at ht
          exact (isIndefiniteTermination_ok ht).1
        split at h
        · rename_i htt
          simp at h; subst h
          exact ⟨by simp; omega, s2, fun hi => ⟨hb hi, s1⟩⟩
        · simp only [Go.bind_eq_ok, Go.pure_def, Go.ok.injEq] at h
          obtain ⟨rest, hr, rfl⟩ := h
          obtain ⟨c1, c2, c3⟩ := ihC _ _ _ _ s2 hr
          exact ⟨by simp; omega, by simp; omega, fun hi => ⟨(c3 hi).1, by simp; omega⟩⟩
      · rename_i hc
        simp at h; subst h
        exact ⟨by simp, by simpa using ho, fun hi => by simp [hi] at hc⟩

theorem readHeader_ne_diverge (ber : Bytes) (o : Nat) : readHeader ber o ≠ .diverge := by
  have hidx : ∀ (s : Bytes) i, idx s i ≠ .diverge := by intro s i; unfold idx; split <;> simp
  have hskip : ∀ (n o : Nat), ber.length - o = n → skipTag ber o ≠ .diverge := by
    intro n
    induction n with
    | zero => intro o ho; unfold skipTag; rw [dif_neg (by omega)]; simp
    | succ n ih =>
      intro o ho; unfold skipTag; rw [dif_pos (by omega)]
      split
      · exact ih _ (by omega)
      · simp
  have hrl : ∀ n o acc, readLength ber n o acc ≠ .diverge := by
    intro n
    induction n with
    | zero => simp [readLength]
    | succ n ih =>
      intro o acc h
      simp only [readLength, Go.bind_eq_diverge] at h
      rcases h with h | ⟨_, _, h⟩
      · exact hidx _ _ h
      · exact ih _ _ h
  have htag : ∀ o, readTag ber o ≠ .diverge := by
    intro o h
    simp only [readTag, Go.bind_eq_diverge] at h
    rcases h with h | ⟨b, _, h⟩
    · exact hidx _ _ h
    · split at h
      · simp only [Go.bind_eq_diverge] at h
        rcases h with h | ⟨_, _, h⟩
        · exact hskip _ _ rfl h
        · simp at h
      · simp at h
  have hlen : ∀ o, readLen ber o ≠ .diverge := by
    intro o h
    unfold readLen at h
    split at h
    · simp at h
    · simp only [Go.bind_eq_diverge] at h
      rcases h with h | ⟨l, _, h⟩
      · exact hidx _ _ h
      · split at h
        · split at h
          · simp at h
          · simp only [Go.bind_eq_diverge] at h
            rcases h with h | ⟨f, _, h⟩
            · exact hidx _ _ h
            · split at h
              · simp at h
              · split at h
                · simp at h
                · simp only [Go.bind_eq_diverge] at h
                  rcases h with h | ⟨_, _, h⟩
                  · exact hrl _ _ _ h
                  · simp at h
        · split at h <;> simp at h
  intro h
  simp only [readHeader, Go.bind_eq_diverge] at h
  rcases h with h | ⟨t, _, h | ⟨l, _, h⟩⟩
  · exact htag _ h
  · exact hlen _ h
  · split at h
    · simp at h
    · split at h <;> simp at h

theorem isIndefiniteTermination_ne_diverge (ber : Bytes) (o : Nat) :
    isIndefiniteTermination ber o ≠ .diverge := by
  unfold isIndefiniteTermination; split <;> simp

/-- With fuel proportional to the octets left, reading never runs out of fuel. -/
theorem readObject_fuel (ber : Bytes) (fuel : Nat) :
    (∀ o, o ≤ ber.length → ber.length - o + 1 ≤ fuel → readObject fuel ber o ≠ .diverge) ∧
    (∀ i ce o, o ≤ ber.length → ber.length - o + 2 ≤ fuel → readContent fuel ber i ce o ≠ .diverge) := by
  induction fuel with
  | zero => exact ⟨by intros; omega, by intros; omega⟩
  | succ fuel ih =>
    obtain ⟨ihO, ihC⟩ := ih
    constructor
    · intro o ho hf h
      simp only [readObject, Go.bind_eq_diverge] at h
      rcases h with h | ⟨hd, hh, h⟩
      · exact readHeader_ne_diverge _ _ h
      · obtain ⟨h1, h2, _, _⟩ := readHeader_ok hh
        split at h
        · simp at h
        · simp only [Go.bind_eq_diverge] at h
          rcases h with h | ⟨_, _, h⟩
          · exact ihC _ _ _ (by omega) (by omega) h
          · simp at h
    · intro i ce o ho hf h
      simp only [readContent] at h
      split at h
      · simp only [Go.bind_eq_diverge] at h
        rcases h with h | ⟨s, hs, h | ⟨t, ht, h⟩⟩
        · exact ihO _ ho (by omega) h
        · unfold closed at h
          split at h
          · exact isIndefiniteTermination_ne_diverge _ _ h
          · simp at h
        · split at h
          · simp at h
          · simp only [Go.bind_eq_diverge] at h
            obtain ⟨s1, s2⟩ := (read_progress ber fuel).1 _ _ hs
            rcases h with h | ⟨_, _, h⟩
            · exact ihC _ _ _ s2 (by omega) h
            · simp at h
      · simp at h

/-- More fuel does not change a result. -/
theorem fuel_mono (ber : Bytes) (fuel : Nat) :
    (∀ o, readObject fuel ber o ≠ .diverge →
        readObject (fuel + 1) ber o = readObject fuel ber o) ∧
    (∀ i ce o, readContent fuel ber i ce o ≠ .diverge →
        readContent (fuel + 1) ber i ce o = readContent fuel ber i ce o) := by
  induction fuel with
  | zero => simp [readObject, readContent]
  | succ fuel ih =>
    obtain ⟨ihO, ihC⟩ := ih
    constructor
    · intro o h
      rw [readObject] at h
      rw [readObject]
      conv => rhs; rw [readObject]
      cases hh : readHeader ber o with
      | ok hd =>
        simp only [hh, Go.ok_bind] at h ⊢
        split
        · rfl
        · rename_i hc
          simp only [hc] at h
          have : readContent fuel ber hd.indefinite (hd.contentStart + hd.length) hd.contentStart ≠ .diverge := by
            intro e; rw [e] at h; simp at h
          rw [ihC _ _ _ this]
      | err m => simp
      | panic => simp
      | diverge => simp
    · intro i ce o h
      rw [readContent] at h
      rw [readContent]
      conv => rhs; rw [readContent]
      split
      · rename_i hc
        rw [if_pos hc] at h
        have h1 : readObject fuel ber o ≠ .diverge := by
          intro e; rw [e] at h; simp at h
        rw [ihO _ h1]
        cases hs : readObject fuel ber o with
        | ok s =>
          simp only [hs, Go.ok_bind] at h ⊢
          cases ht : closed i ber s.2 with
          | ok t =>
            simp only [ht, Go.ok_bind] at h ⊢
            split
            · rfl
            · rename_i htt
              rw [if_neg htt] at h
              have : readContent fuel ber i ce s.2 ≠ .diverge := by
                intro e; rw [e] at h; simp at h
              rw [ihC _ _ _ this]
          | err m => simp
          | panic => simp
          | diverge => simp
        | err m => simp
        | panic => simp
        | diverge => simp
      · rfl

theorem readObject_fuel_le {ber : Bytes} {f g o : Nat} (hfg : f ≤ g)
    (h : readObject f ber o ≠ .diverge) : readObject g ber o = readObject f ber o := by
  induction g with
  | zero => have : f = 0 := by omega
            rw [this]
  | succ g ih =>
    by_cases hg : f = g + 1
    · rw [hg]
    · have e := ih (by omega)
      rw [(fuel_mono ber g).1 o (by rw [e]; exact h), e]

theorem readContent_fuel_le {ber : Bytes} {f g ce o : Nat} {i : Bool} (hfg : f ≤ g)
    (h : readContent f ber i ce o ≠ .diverge) :
    readContent g ber i ce o = readContent f ber i ce o := by
  induction g with
  | zero => have : f = 0 := by omega
            rw [this]
  | succ g ih =>
    by_cases hg : f = g + 1
    · rw [hg]
    · have e := ih (by omega)
      rw [(fuel_mono ber g).2 i ce o (by rw [e]; exact h), e]

/-! ### Trees -/

mutual
/-- The object the reader builds for a value. -/
def toObj : Tlv → Obj
  | .prim tag content => .prim tag content.length content
  | .cons tag ts => .struct tag (toObjs ts)
def toObjs : List Tlv → List Obj
  | [] => []
  | t :: ts => toObj t :: toObjs ts
end

mutual
theorem encodeTo_toObj : ∀ t : Tlv, encodeTo (toObj t) = der t
  | .prim tag content => by simp [toObj, encodeTo, der, encodeLength_eq]
  | .cons tag ts => by simp [toObj, encodeTo, der, encodeLength_eq, encodeAll_toObjs ts]
theorem encodeAll_toObjs : ∀ ts : List Tlv, encodeAll (toObjs ts) = ders ts
  | [] => by simp [toObjs, encodeAll, ders]
  | t :: ts => by simp [toObjs, encodeAll, ders, encodeTo_toObj t, encodeAll_toObjs ts]
end

theorem tagOk_ne_nil {c : Bool} {tag : Bytes} (h : TagOk c tag) : tag ≠ [] := by
  obtain ⟨b, r, rfl, _⟩ := h; simp

theorem berEnc_length {t : Tlv} {bs : Bytes} (h : BerEnc t bs) : 2 ≤ bs.length := by
  cases h with
  | prim tag content len ht hl =>
    have := List.length_pos_iff.mpr (tagOk_ne_nil ht)
    have := List.length_pos_iff.mpr (defLen_ne_nil hl)
    simp; omega
  | definite tag ts bss len ht hs hl =>
    have := List.length_pos_iff.mpr (tagOk_ne_nil ht)
    have := List.length_pos_iff.mpr (defLen_ne_nil hl)
    simp; omega
  | indefinite tag ts bss ht hs hne heoc =>
    have := List.length_pos_iff.mpr (tagOk_ne_nil ht)
    simp; omega

theorem take2_append {bs rest : Bytes} (h : 2 ≤ bs.length) : (bs ++ rest).take 2 = bs.take 2 := by
  rw [List.take_append_of_le_length h]

mutual
/-- Reading any BER encoding of `t` builds the object of `t`. -/
theorem readObject_enc {ber rest : Bytes} {t : Tlv} {bs : Bytes} {o : Nat} (h : BerEnc t bs)
    (hd : ber.drop o = bs ++ rest) :
    ∃ f, readObject f ber o = .ok (toObj t, o + bs.length) := by
  cases h with
  | prim tag content len ht hl =>
    refine ⟨1, ?_⟩
    have := readHeader_definite (rest := content ++ rest) ht hl (by simpa using hd) (by simp)
    simp only [readObject, this, Go.ok_bind, if_true, Go.pure_def, toObj]
    have h2 : ber.drop (o + tag.length + len.length) = content ++ rest := by
      have := drop_of_append (x := tag ++ len) (y := content ++ rest) (by simpa using hd)
      simpa [Nat.add_assoc] using this
    rw [h2]
    simp; omega
  | definite tag ts bss len ht hs hl =>
    have hh := readHeader_definite (rest := bss.flatten ++ rest) ht hl (by simpa using hd) (by simp)
    have h2 : ber.drop (o + tag.length + len.length) = bss.flatten ++ rest := by
      have := drop_of_append (x := tag ++ len) (y := bss.flatten ++ rest) (by simpa using hd)
      simpa [Nat.add_assoc] using this
    obtain ⟨f, hf⟩ := readContent_def hs h2 
    refine ⟨f + 1, ?_⟩
    simp only [readObject, hh, Go.ok_bind, hf, Go.pure_def, toObj]
    simp; omega
  | indefinite tag ts bss ht hs hne heoc =>
    have hh := readHeader_indefinite (rest := bss.flatten ++ [0, 0] ++ rest) ht (by simpa using hd)
    have h2 : ber.drop (o + tag.length + 1) = bss.flatten ++ ([0, 0] ++ rest) := by
      have := drop_of_append (x := tag ++ [0x80]) (y := bss.flatten ++ [0, 0] ++ rest) (by simpa using hd)
      simpa [Nat.add_assoc] using this
    obtain ⟨f, hf⟩ := readContent_indef (ce := o + tag.length + 1) hs hne heoc h2
    refine ⟨f + 1, ?_⟩
    simp only [readObject, hh, Go.ok_bind, hf, Go.pure_def, toObj, Nat.add_zero]
    simp; omega
theorem readContent_def {ber rest : Bytes} {ts : List Tlv} {bss : List Bytes} {o : Nat}
    (h : BerEncs ts bss) (hd : ber.drop o = bss.flatten ++ rest) :
    ∃ f, readContent f ber false (o + bss.flatten.length) o = .ok (toObjs ts, o + bss.flatten.length) := by
  cases h with
  | nil => exact ⟨1, by simp [readContent, toObjs]⟩
  | cons t ts bs bss h hs =>
    have hl := berEnc_length h
    obtain ⟨f1, h1⟩ := readObject_enc (rest := bss.flatten ++ rest) h (by simpa using hd)
    obtain ⟨f2, h2⟩ := readContent_def (rest := rest) (o := o + bs.length) hs
      (drop_of_append (by simpa using hd))
    refine ⟨max f1 f2 + 1, ?_⟩
    have e1 := readObject_fuel_le (g := max f1 f2) (by omega) (f := f1) (o := o) (ber := ber) (by rw [h1]; simp)
    have e2 := readContent_fuel_le (g := max f1 f2) (by omega) (f := f2) (o := o + bs.length) (ber := ber)
      (i := false) (ce := o + bs.length + bss.flatten.length) (by rw [h2]; simp)
    have hlen : (bs :: bss).flatten.length = bs.length + bss.flatten.length := by simp
    simp only [readContent, hlen]
    rw [if_pos (by left; omega)]
    simp only [e1, h1, Go.ok_bind, closed]
    rw [← Nat.add_assoc]
    simp only [e2, h2, Go.ok_bind]
    simp [toObjs]
theorem readContent_indef {ber rest : Bytes} {ts : List Tlv} {bss : List Bytes} {o ce : Nat}
    (h : BerEncs ts bss) (hne : ts ≠ []) (heoc : ∀ bs ∈ bss, bs.take 2 ≠ [0, 0])
    (hd : ber.drop o = bss.flatten ++ ([0, 0] ++ rest)) :
    ∃ f, readContent f ber true ce o = .ok (toObjs ts, o + bss.flatten.length) := by
  cases h with
  | nil => exact absurd rfl hne
  | cons t ts bs bss h hs =>
    have hl := berEnc_length h
    obtain ⟨f1, h1⟩ := readObject_enc (rest := bss.flatten ++ ([0, 0] ++ rest)) h (by simpa using hd)
    have hd2 : ber.drop (o + bs.length) = bss.flatten ++ ([0, 0] ++ rest) :=
      drop_of_append (by simpa using hd)
    have hlen2 := length_of_drop hd2 (by simp)
    simp at hlen2
    cases hs with
    | nil =>
      refine ⟨f1 + 1, ?_⟩
      simp only [readContent, h1, Go.ok_bind, closed, isIndefiniteTermination, hd2]
      simp [toObjs]
      rw [if_neg (by omega)]
      simp
    | cons t' ts' bs' bss' h' hs' =>
      have hl' := berEnc_length h'
      obtain ⟨f2, h2⟩ := readContent_indef (rest := rest) (o := o + bs.length) (ce := ce) (.cons _ _ _ _ h' hs')
        (by simp) (fun b hb => heoc b (List.mem_cons_of_mem _ hb)) hd2
      refine ⟨max f1 f2 + 1, ?_⟩
      have e1 := readObject_fuel_le (g := max f1 f2) (by omega) (f := f1) (o := o) (ber := ber) (by rw [h1]; simp)
      have e2 := readContent_fuel_le (g := max f1 f2) (by omega) (f := f2) (o := o + bs.length) (ber := ber)
        (i := true) (ce := ce) (by rw [h2]; simp)
      have ht : isIndefiniteTermination ber (o + bs.length) = .ok false := by
        unfold isIndefiniteTermination
        rw [if_neg (by simp; omega), hd2]
        have : (List.flatten (bs' :: bss') ++ ([0, 0] ++ rest)).take 2 = bs'.take 2 := by
          simp only [List.flatten_cons, List.append_assoc]
          exact take2_append hl'
        rw [this]
        simp [heoc bs' (by simp)]
      simp only [readContent]
      rw [if_pos (by simp)]
      simp only [e1, h1, Go.ok_bind, closed, if_true, ht, e2, h2]
      simp [toObjs]; omega
end

end Verif.Ber
