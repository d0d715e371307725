import Verif.Lemmas.Ber2
import Verif.Spec.BerLax
/- The reader of ber.go against Spec/BerLax: what it accepts and where it breaks, in both directions. -/
set_option autoImplicit false

namespace Verif.Ber
open BerSpec BerLax

theorem and_7f (l : UInt8) : (l &&& 0x7F).toNat = l.toNat % 128 := by
  rw [UInt8.toNat_and]
  exact Nat.and_two_pow_sub_one_eq_mod _ 7

theorem drop_head {ber : Bytes} {o : Nat} {b : UInt8} (h : idx ber o = .ok b) : ber.drop o = b :: ber.drop (o + 1) := by
  have hlt := idx_lt h
  rw [idx_eq_ok] at h
  rw [← (List.getElem?_eq_some_iff.mp h).2]
  exact List.drop_eq_getElem_cons hlt

theorem drop_succ {ber r : Bytes} {o : Nat} {b : UInt8} (h : ber.drop o = b :: r) : ber.drop (o + 1) = r :=
  drop_of_append (x := [b]) (y := r) (by simpa using h)

theorem idx_panic {ber : Bytes} {o : Nat} : idx ber o = .panic ↔ ber.drop o = [] := by
  unfold idx
  rw [List.drop_eq_nil_iff]
  split
  · rename_i h
    have := (List.getElem?_eq_some_iff.mp h).1
    simp; omega
  · rename_i h
    rw [List.getElem?_eq_none_iff] at h
    simp [h]

theorem readLength_form {ber : Bytes} {n o acc v e : Nat} (h : readLength ber n o acc = .ok (v, e)) :
    ∃ ds rest, ber.drop o = ds ++ rest ∧ ds.length = n ∧ v = ds.foldl (fun a d => a * 256 + d.toNat) acc ∧ e = o + n := by
  induction n generalizing o acc with
  | zero => simp [readLength] at h; exact ⟨[], _, rfl, rfl, h.1.symm, by omega⟩
  | succ n ih =>
    simp only [readLength, Go.bind_eq_ok] at h
    obtain ⟨b, hb, h⟩ := h
    obtain ⟨ds, rest, h1, h2, h3, h4⟩ := ih h
    exact ⟨b :: ds, rest, by rw [drop_head hb, h1]; rfl, by simp [h2], by simpa using h3, by omega⟩

theorem readLength_panic {ber : Bytes} {n o acc : Nat} : readLength ber n o acc = .panic ↔ (ber.drop o).length < n := by
  induction n generalizing o acc with
  | zero => simp [readLength]
  | succ n ih =>
    simp only [readLength, Go.bind_eq_panic, idx_panic]
    constructor
    · rintro (h | ⟨b, hb, h⟩)
      · simp [h]
      · rw [ih] at h; rw [drop_head hb]; simpa using h
    · intro h
      cases hd : ber.drop o with
      | nil => exact Or.inl rfl
      | cons b r =>
        refine Or.inr ⟨b, by rw [idx_of_drop hd]; rfl, ?_⟩
        rw [ih, drop_succ hd]
        rw [hd] at h; simpa using h

theorem readLen_form {ber : Bytes} {o n e : Nat} {i : Bool} (h : readLen ber o = .ok (i, n, e)) :
    ∃ len rest, ber.drop o = len ++ rest ∧ e = o + len.length ∧
      ((i = true ∧ len = [0x80] ∧ n = 0) ∨ (i = false ∧ DefLen n len)) := by
  unfold readLen at h
  split at h
  · simp at h
  · rw [Go.bind_eq_ok] at h
    obtain ⟨l, hl, h⟩ := h
    have hd := drop_head hl
    simp only at h
    split at h
    · rename_i hgt
      have hn := and_7f l
      have hlt := l.toNat_lt
      rw [gt_iff_lt, UInt8.lt_iff_toNat_lt] at hgt
      have hgt : 128 < l.toNat := hgt
      split at h
      · simp at h
      · rename_i h4
        rw [Go.bind_eq_ok] at h
        obtain ⟨f, hf, h⟩ := h
        split at h
        · simp at h
        · rename_i hneg
          split at h
          · simp at h
          · rename_i h0
            rw [Go.bind_eq_ok] at h
            obtain ⟨⟨v, e'⟩, hr, h⟩ := h
            simp only [Go.pure_def, Go.ok.injEq, Prod.mk.injEq] at h
            obtain ⟨rfl, rfl, rfl⟩ := h
            obtain ⟨ds, rest, h1, h2, h3, h5⟩ := readLength_form hr
            cases ds with
            | nil =>
              have h2 : 0 = (l &&& 0x7F).toNat := h2
              omega
            | cons d ds =>
              have hd2 := drop_head hf
              rw [h1] at hd2
              have hfd : d = f := by simpa using (List.cons.inj hd2).1
              subst hfd
              have hlen : ds.length + 1 = l.toNat % 128 := by rw [← hn, ← h2]; rfl
              refine ⟨l :: d :: ds, rest, by rw [hd, h1]; rfl, by simp; omega, Or.inr ⟨rfl, ?_⟩⟩
              have hle : l = (0x80 + (ds.length + 1)).toUInt8 := by
                apply UInt8.toNat_inj.mp; simp; omega
              have := DefLen.long d ds (by omega) h0 (by
                intro h3'
                have hnot : ¬ d > 0x7F := fun hc => hneg ⟨by omega, hc⟩
                rw [UInt8.le_iff_toNat_le]; rw [gt_iff_lt, UInt8.lt_iff_toNat_lt] at hnot; omega)
              rw [← hle] at this
              rw [h3]
              exact this
    · rename_i hgt
      split at h
      · rename_i h80
        simp only [Go.pure_def, Go.ok.injEq, Prod.mk.injEq] at h
        obtain ⟨rfl, rfl, rfl⟩ := h
        exact ⟨[0x80], _, by rw [hd, h80]; rfl, rfl, Or.inl ⟨rfl, rfl, rfl⟩⟩
      · rename_i h80
        simp only [Go.pure_def, Go.ok.injEq, Prod.mk.injEq] at h
        obtain ⟨rfl, rfl, rfl⟩ := h
        refine ⟨[l], _, by rw [hd]; rfl, rfl, Or.inr ⟨rfl, ?_⟩⟩
        have hl2 : l.toNat < 128 := by
          rw [gt_iff_lt, UInt8.lt_iff_toNat_lt] at hgt
          have hgt : ¬ 128 < l.toNat := hgt
          have : l.toNat ≠ 128 := fun e => h80 (UInt8.toNat_inj.mp e)
          omega
        have := DefLen.short l.toNat hl2
        simpa using this

theorem readLen_panic {ber : Bytes} {o : Nat} : readLen ber o = .panic ↔ LengthCut (ber.drop o) := by
  unfold readLen
  split
  · rename_i hle
    have : ber.drop o = [] := List.drop_eq_nil_iff.mpr hle
    constructor
    · simp
    · rintro ⟨l, ds, h, _⟩; rw [this] at h; simp at h
  · rename_i hle
    have hlt : o < ber.length := by omega
    have hl : idx ber o = .ok ber[o] := by rw [idx_eq_ok]; simp
    have hd := drop_head hl
    generalize ber[o] = l at hl hd
    simp only [hl, Go.ok_bind]
    have hn := and_7f l
    have hlt := l.toNat_lt
    constructor
    · intro h
      split at h
      · rename_i hgt
        have hgt' : 128 < l.toNat := by rw [gt_iff_lt, UInt8.lt_iff_toNat_lt] at hgt; exact hgt
        split at h
        · simp at h
        · rename_i h4
          have hl4 : l ≤ 0x84 := by
            rw [UInt8.le_iff_toNat_le]
            show l.toNat ≤ 132
            omega
          rw [Go.bind_eq_panic] at h
          rcases h with h | ⟨f, hf, h⟩
          · rw [idx_panic] at h
            exact ⟨l, _, hd, hgt, hl4, by rw [h]; simpa using hgt', by rw [h]; simp⟩
          · split at h
            · simp at h
            · rename_i hneg
              split at h
              · simp at h
              · rename_i h0
                rw [Go.bind_eq_panic] at h
                rcases h with h | ⟨r, _, h⟩
                · rw [readLength_panic] at h
                  refine ⟨l, _, hd, hgt, hl4, by omega, ?_⟩
                  intro d hdm
                  rw [drop_head hf] at hdm
                  simp at hdm
                  subst hdm
                  refine ⟨h0, fun he => ?_⟩
                  have hnot : ¬ f > 0x7F := fun hc => hneg ⟨by rw [hn, he]; decide, hc⟩
                  rw [UInt8.le_iff_toNat_le]; rw [gt_iff_lt, UInt8.lt_iff_toNat_lt] at hnot; omega
                · simp at h
      · split at h <;> simp at h
    · rintro ⟨l', ds, h, hgt, hl4, hlen, hh⟩
      rw [hd] at h
      obtain ⟨rfl, rfl⟩ := List.cons.inj h
      have hgt' : 128 < l.toNat := by rw [UInt8.lt_iff_toNat_lt] at hgt; exact hgt
      have hl4' : l.toNat ≤ 132 := by rw [UInt8.le_iff_toNat_le] at hl4; exact hl4
      rw [if_pos hgt, if_neg (by omega), Go.bind_eq_panic, idx_panic]
      cases hf : ber.drop (o + 1) with
      | nil => exact Or.inl rfl
      | cons f r =>
        refine Or.inr ⟨f, by rw [idx_of_drop hf]; rfl, ?_⟩
        obtain ⟨h0, h84⟩ := hh f (by rw [hf]; rfl)
        rw [if_neg ?_, if_neg h0, Go.bind_eq_panic, readLength_panic]
        · exact Or.inl (by omega)
        · rintro ⟨h1, h2⟩
          have := h84 (UInt8.toNat_inj.mp (by show l.toNat = 132; omega))
          rw [UInt8.le_iff_toNat_le] at this
          rw [gt_iff_lt, UInt8.lt_iff_toNat_lt] at h2
          omega

theorem skipTag_panic {ber : Bytes} {o : Nat} : skipTag ber o = .panic ↔ ∀ x ∈ ber.drop o, x ≥ 0x80 := by
  induction hk : ber.length - o generalizing o with
  | zero =>
    unfold skipTag
    rw [dif_neg (by omega), List.drop_eq_nil_iff.mpr (by omega)]
    simp
  | succ k ih =>
    unfold skipTag
    have hlt : o < ber.length := by omega
    rw [dif_pos hlt, List.drop_eq_getElem_cons hlt]
    split
    · rename_i hge
      rw [ih (by omega)]
      simp only [List.forall_mem_cons]
      exact ⟨fun h => ⟨hge, h⟩, fun h => h.2⟩
    · rename_i hge
      simp only [List.forall_mem_cons]
      exact ⟨fun h => by simp at h, fun h => absurd h.1 hge⟩

theorem readTag_panic {ber : Bytes} {o : Nat} : readTag ber o = .panic ↔ TagCut (ber.drop o) := by
  unfold readTag TagCut
  rw [Go.bind_eq_panic, idx_panic]
  constructor
  · rintro (h | ⟨b, hb, h⟩)
    · exact Or.inl h
    · split at h
      · rename_i h1
        rw [Go.bind_eq_panic, skipTag_panic] at h
        rcases h with h | ⟨_, _, h⟩
        · exact Or.inr ⟨b, _, drop_head hb, h1, h⟩
        · simp at h
      · simp at h
  · rintro (h | ⟨b, mid, h, h1, hm⟩)
    · exact Or.inl h
    · refine Or.inr ⟨b, by rw [idx_of_drop h]; rfl, ?_⟩
      rw [if_pos h1, Go.bind_eq_panic, skipTag_panic, drop_succ h]
      exact Or.inl hm

/-- What a header that was read looks like. -/
theorem readHeader_form {ber : Bytes} {o : Nat} {hd : Header} (h : readHeader ber o = .ok hd) :
    ∃ len rest, ber.drop o = hd.tagBytes ++ len ++ rest ∧ TagOk hd.constructed hd.tagBytes ∧
      hd.contentStart = o + hd.tagBytes.length + len.length ∧ hd.length ≤ rest.length ∧
      ((hd.indefinite = true ∧ hd.constructed = true ∧ len = [0x80] ∧ hd.length = 0) ∨
       (hd.indefinite = false ∧ DefLen hd.length len)) := by
  have hok := readHeader_ok h
  unfold readHeader at h
  rw [Go.bind_eq_ok] at h
  obtain ⟨⟨b, te⟩, ht, h⟩ := h
  simp only at h
  rw [Go.bind_eq_ok] at h
  obtain ⟨⟨i, n, e⟩, hl, h⟩ := h
  simp only at h
  obtain ⟨tag, rest, hd1, htag, hte⟩ := readTag_ok ht
  obtain ⟨len, rest', hd2, he, hc⟩ := readLen_form hl
  have hrest : rest = len ++ rest' := by rw [← hd2, hte]; exact (drop_of_append hd1).symm
  have htt : (ber.drop o).take (te - o) = tag := by rw [hd1, hte]; simp
  split at h
  · simp at h
  · rename_i hle
    split at h
    · simp at h
    · simp only [Go.pure_def, Go.ok.injEq] at h
      subst h
      simp only [htt] at hok ⊢
      refine ⟨len, rest', by rw [hd1, hrest]; simp, hok.2.2.1, by rw [he, hte], ?_, ?_⟩
      · have h1 := congrArg List.length hd1
        rw [hrest] at h1
        simp only [List.length_drop, List.length_append] at h1
        omega
      · rcases hc with ⟨rfl, h2, h3⟩ | ⟨rfl, h2⟩
        · exact Or.inl ⟨rfl, (hok.2.2.2 rfl).1, h2, h3⟩
        · exact Or.inr ⟨rfl, h2⟩

theorem readHeader_panic {ber : Bytes} {o : Nat} : readHeader ber o = .panic ↔
    TagCut (ber.drop o) ∨ ∃ c tag s, ber.drop o = tag ++ s ∧ TagOk c tag ∧ LengthCut s := by
  unfold readHeader
  rw [Go.bind_eq_panic, readTag_panic]
  constructor
  · rintro (h | ⟨⟨b, e⟩, ht, h⟩)
    · exact Or.inl h
    · simp only at h
      obtain ⟨tag, rest, h1, h2, h3⟩ := readTag_ok ht
      rw [Go.bind_eq_panic, readLen_panic] at h
      rcases h with h | ⟨l, _, h⟩
      · rw [h3, drop_of_append h1] at h
        exact Or.inr ⟨_, tag, rest, h1, h2, h⟩
      · split at h
        · simp at h
        · split at h <;> simp at h
  · rintro (h | ⟨c, tag, s, h1, h2, h⟩)
    · exact Or.inl h
    · obtain ⟨b, hb, _⟩ := readTag_enc h2 h1
      refine Or.inr ⟨_, hb, ?_⟩
      simp only
      rw [Go.bind_eq_panic, readLen_panic, drop_of_append h1]
      exact Or.inl h

theorem closed_false {ber : Bytes} {o : Nat} {t : Bool} (h : closed false ber o = .ok t) : t = false := by
  simpa [closed] using h.symm

theorem closed_true {ber : Bytes} {o : Nat} {t : Bool} : closed true ber o = .ok t ↔
    2 ≤ (ber.drop o).length ∧ t = decide ((ber.drop o).take 2 = [0, 0]) := by
  simp only [closed, if_true, isIndefiniteTermination, List.length_drop]
  split
  · simp; omega
  · simp only [Go.ok.injEq]
    constructor
    · rintro rfl; exact ⟨by omega, rfl⟩
    · rintro ⟨_, rfl⟩; rfl

theorem closed_panic {ber : Bytes} {i : Bool} {o : Nat} : closed i ber o ≠ .panic := by
  cases i <;> simp only [closed, isIndefiniteTermination] <;> simp
  split <;> simp

/-- What the reader accepts. -/
theorem read_sound (ber : Bytes) (fuel : Nat) :
    (∀ o r, readObject fuel ber o = .ok r → ∃ t k, r = (toObj t, o + k) ∧ Front t k (ber.drop o)) ∧
    (∀ n o r, readContent fuel ber false (o + n) o = .ok r → ∃ ts, r.1 = toObjs ts ∧ Within n ts (ber.drop o)) ∧
    (∀ ce o, ce ≤ o → ∀ r, readContent fuel ber false ce o = .ok r → r.1 = []) ∧
    (∀ ce o r, readContent fuel ber true ce o = .ok r → ∃ ts k, r = (toObjs ts, o + k) ∧ Until ts k (ber.drop o)) := by
  induction fuel with
  | zero => simp [readObject, readContent]
  | succ fuel ih =>
    obtain ⟨ihO, ihD, ihE, ihU⟩ := ih
    refine ⟨?_, ?_, ?_, ?_⟩
    · intro o r h
      simp only [readObject, Go.bind_eq_ok] at h
      obtain ⟨hd, hh, h⟩ := h
      obtain ⟨len, rest, h1, h2, h3, h4, h5⟩ := readHeader_form hh
      have hdr : ber.drop hd.contentStart = rest := by
        rw [h3, Nat.add_assoc, ← List.length_append]
        exact drop_of_append h1
      split at h
      · rename_i hc
        simp only [Go.pure_def, Go.ok.injEq] at h
        subst h
        rcases h5 with ⟨_, h6, _⟩ | ⟨_, h6⟩
        · rw [hc] at h6; simp at h6
        · have hcl : (rest.take hd.length).length = hd.length := by simp; omega
          refine ⟨.prim hd.tagBytes (rest.take hd.length), hd.tagBytes.length + len.length + hd.length, ?_, ?_⟩
          · simp only [toObj, hdr, Nat.add_sub_cancel_left, hcl, Prod.mk.injEq, true_and]
            omega
          · have := Front.prim hd.tagBytes len (rest.take hd.length) (rest.drop hd.length) (hc ▸ h2) (by rw [hcl]; exact h6)
            rw [hcl, List.append_assoc _ _ (rest.drop _), List.take_append_drop] at this
            rw [h1]; exact this
      · rename_i hc
        have hc : hd.constructed = true := by simpa using hc
        simp only [Go.bind_eq_ok, Go.pure_def, Go.ok.injEq] at h
        obtain ⟨rc, hrc, rfl⟩ := h
        rcases h5 with ⟨h6, _, h7, h8⟩ | ⟨h6, h7⟩
        · rw [h6] at hrc
          obtain ⟨ts, k, rfl, hu⟩ := ihU _ _ _ hrc
          refine ⟨.cons hd.tagBytes ts, hd.tagBytes.length + 1 + k + 2, ?_, ?_⟩
          · simp only [toObj, h6, if_true, h3, h7]
            simp; omega
          · rw [h1, h7]
            rw [hdr] at hu
            exact .indefinite _ _ _ _ (hc ▸ h2) hu
        · rw [h6] at hrc
          obtain ⟨ts, e, hw⟩ := ihD _ _ _ hrc
          refine ⟨.cons hd.tagBytes ts, hd.tagBytes.length + len.length + hd.length, ?_, ?_⟩
          · simp only [toObj, h6, e, h3]
            simp; omega
          · rw [h1]
            rw [hdr] at hw
            exact .definite _ _ _ _ _ (hc ▸ h2) h7 h4 hw
    · intro n o r h
      simp only [readContent] at h
      split at h
      · rename_i hlt
        have hn : 0 < n := by simpa using hlt
        simp only [Go.bind_eq_ok] at h
        obtain ⟨s, hs, t, ht, h⟩ := h
        obtain ⟨u, k, rfl, hf⟩ := ihO _ _ hs
        rw [closed_false ht] at h
        simp only [Bool.false_eq_true, if_false, Go.bind_eq_ok, Go.pure_def, Go.ok.injEq] at h
        obtain ⟨rest, hr, rfl⟩ := h
        by_cases hk : k ≤ n
        · rw [show o + n = o + k + (n - k) by omega] at hr
          obtain ⟨ts, e, hw⟩ := ihD _ _ _ hr
          refine ⟨u :: ts, by simp [toObjs, e], .step _ k _ _ _ hn hf ?_⟩
          rw [List.drop_drop]; exact hw
        · have := ihE _ _ (by omega) _ hr
          refine ⟨[u], by simp [toObjs, this], .step _ k _ _ _ hn hf ?_⟩
          rw [show n - k = 0 by omega]
          exact .done _
      · rename_i hlt
        have hn : n = 0 := by simp at hlt; omega
        simp only [Go.ok.injEq] at h
        subst h
        subst hn
        exact ⟨[], rfl, .done _⟩
    · intro ce o hle r h
      simp only [readContent] at h
      rw [if_neg (by simp; omega)] at h
      simp only [Go.ok.injEq] at h
      rw [← h]
    · intro ce o r h
      simp only [readContent, or_true, if_true] at h
      simp only [Go.bind_eq_ok] at h
      obtain ⟨s, hs, t, ht, h⟩ := h
      obtain ⟨u, k, rfl, hf⟩ := ihO _ _ hs
      simp only [closed_true] at ht
      obtain ⟨h2, rfl⟩ := ht
      split at h
      · rename_i hz
        simp only [Go.pure_def, Go.ok.injEq] at h
        subst h
        exact ⟨[u], k, by simp [toObjs], .last _ _ _ hf (by rw [List.drop_drop]; simpa using hz)⟩
      · rename_i hz
        simp only [Go.bind_eq_ok, Go.pure_def, Go.ok.injEq] at h
        obtain ⟨rest, hr, rfl⟩ := h
        obtain ⟨ts, j, rfl, hu⟩ := ihU _ _ _ hr
        exact ⟨u :: ts, k + j, by simp [toObjs]; omega, .more _ _ _ _ _ hf (by rw [List.drop_drop]; exact h2)
          (by rw [List.drop_drop]; simpa using hz) (by rw [List.drop_drop]; exact hu)⟩

mutual
/-- What has a value at the front is read. -/
theorem read_front {ber : Bytes} {t : Tlv} {k o : Nat} {s : Bytes} (h : Front t k s) (hd : ber.drop o = s) :
    ∃ f, readObject f ber o = .ok (toObj t, o + k) := by
  cases h with
  | prim tag len content rest ht hl =>
    refine ⟨1, ?_⟩
    have := readHeader_definite (rest := content ++ rest) ht hl (by simpa using hd) (by simp)
    simp only [readObject, this, Go.ok_bind, if_true, Go.pure_def, toObj]
    have h2 : ber.drop (o + tag.length + len.length) = content ++ rest := by
      have := drop_of_append (x := tag ++ len) (y := content ++ rest) (by simpa using hd)
      simpa [Nat.add_assoc] using this
    rw [h2]
    simp; omega
  | definite tag len n ts s' ht hl hn hs =>
    have hh := readHeader_definite (rest := s') ht hl hd hn
    have h2 : ber.drop (o + tag.length + len.length) = s' := by
      have := drop_of_append (x := tag ++ len) (y := s') hd
      simpa [Nat.add_assoc] using this
    obtain ⟨f, e, hf⟩ := read_within hs h2
    refine ⟨f + 1, ?_⟩
    simp only [readObject, hh, Go.ok_bind, hf, Go.pure_def, toObj]
    simp; omega
  | indefinite tag ts k' s' ht hs =>
    have hh := readHeader_indefinite (rest := s') ht hd
    have h2 : ber.drop (o + tag.length + 1) = s' := by
      have := drop_of_append (x := tag ++ [0x80]) (y := s') hd
      simpa [Nat.add_assoc] using this
    obtain ⟨f, hf⟩ := read_until (ce := o + tag.length + 1) hs h2
    refine ⟨f + 1, ?_⟩
    simp only [readObject, hh, Go.ok_bind, hf, Go.pure_def, toObj, Nat.add_zero]
    simp; omega
theorem read_within {ber : Bytes} {n : Nat} {ts : List Tlv} {o : Nat} {s : Bytes} (h : Within n ts s) (hd : ber.drop o = s) :
    ∃ f e, readContent f ber false (o + n) o = .ok (toObjs ts, e) := by
  cases h with
  | done => exact ⟨1, o, by simp [readContent, toObjs]⟩
  | step _ k t ts' _ hn hf hs =>
    obtain ⟨f1, h1⟩ := read_front hf hd
    have hd2 : ber.drop (o + k) = s.drop k := by rw [← hd, List.drop_drop]
    have hw : ∃ f e, readContent f ber false (o + n) (o + k) = .ok (toObjs ts', e) := by
      obtain ⟨f, e, hf⟩ := read_within hs hd2
      by_cases hk : k ≤ n
      · rw [show o + k + (n - k) = o + n by omega] at hf
        exact ⟨f, e, hf⟩
      · refine ⟨1, o + k, ?_⟩
        have h0 : n - k = 0 := by omega
        rw [h0] at hs
        cases hs with
        | done => simp only [readContent]; rw [if_neg (by simp; omega)]; rfl
        | step _ _ _ _ _ hn' => omega
    obtain ⟨f2, e, h2⟩ := hw
    refine ⟨max f1 f2 + 1, e, ?_⟩
    have e1 := readObject_fuel_le (g := max f1 f2) (by omega) (f := f1) (o := o) (ber := ber) (by rw [h1]; simp)
    have e2 := readContent_fuel_le (g := max f1 f2) (by omega) (f := f2) (o := o + k) (ber := ber)
      (i := false) (ce := o + n) (by rw [h2]; simp)
    simp only [readContent]
    rw [if_pos (by left; omega)]
    simp only [e1, h1, Go.ok_bind, closed, e2, h2]
    simp [toObjs]
theorem read_until {ber : Bytes} {k : Nat} {ts : List Tlv} {o ce : Nat} {s : Bytes} (h : Until ts k s) (hd : ber.drop o = s) :
    ∃ f, readContent f ber true ce o = .ok (toObjs ts, o + k) := by
  cases h with
  | last t _ _ hf hz =>
    obtain ⟨f1, h1⟩ := read_front hf hd
    have hd2 : ber.drop (o + k) = s.drop k := by rw [← hd, List.drop_drop]
    have hc : closed true ber (o + k) = .ok true := by
      rw [closed_true, hd2]
      refine ⟨?_, by simp [hz]⟩
      have := congrArg List.length hz
      simp only [List.length_take, List.length_cons, List.length_nil] at this
      omega
    refine ⟨f1 + 1, ?_⟩
    simp only [readContent, h1, Go.ok_bind, hc]
    simp [toObjs]
  | more t ts' k1 j _ hf hl hz hs =>
    obtain ⟨f1, h1⟩ := read_front hf hd
    have hd2 : ber.drop (o + k1) = s.drop k1 := by rw [← hd, List.drop_drop]
    obtain ⟨f2, h2⟩ := read_until (ce := ce) hs hd2
    have hc : closed true ber (o + k1) = .ok false := by
      rw [closed_true, hd2]
      exact ⟨hl, by simp [hz]⟩
    refine ⟨max f1 f2 + 1, ?_⟩
    have e1 := readObject_fuel_le (g := max f1 f2) (by omega) (f := f1) (o := o) (ber := ber) (by rw [h1]; simp)
    have e2 := readContent_fuel_le (g := max f1 f2) (by omega) (f := f2) (o := o + k1) (ber := ber)
      (i := true) (ce := ce) (by rw [h2]; simp)
    simp only [readContent, or_true, if_true]
    simp only [e1, h1, Go.ok_bind, hc, e2, h2]
    simp [toObjs]; omega
end

/-- Where the reader breaks. -/
theorem break_sound (ber : Bytes) (fuel : Nat) :
    (∀ o, readObject fuel ber o = .panic → Breaks (ber.drop o)) ∧
    (∀ n o, readContent fuel ber false (o + n) o = .panic → BreaksWithin n (ber.drop o)) ∧
    (∀ ce o, ce ≤ o → readContent fuel ber false ce o ≠ .panic) ∧
    (∀ ce o, readContent fuel ber true ce o = .panic → BreaksUntil (ber.drop o)) := by
  induction fuel with
  | zero => simp [readObject, readContent]
  | succ fuel ih =>
    obtain ⟨ihO, ihD, ihE, ihU⟩ := ih
    refine ⟨?_, ?_, ?_, ?_⟩
    · intro o h
      rw [readObject, Go.bind_eq_panic, readHeader_panic] at h
      rcases h with (h | ⟨c, tag, s, h1, h2, h3⟩) | ⟨hd, hh, h⟩
      · exact .tag _ h
      · rw [h1]; exact .length _ _ _ h2 h3
      · obtain ⟨len, rest, h1, h2, h3, h4, h5⟩ := readHeader_form hh
        have hdr : ber.drop hd.contentStart = rest := by
          rw [h3, Nat.add_assoc, ← List.length_append]
          exact drop_of_append h1
        simp only at h
        split at h
        · simp at h
        · rename_i hc
          have hc : hd.constructed = true := by simpa using hc
          rw [Go.bind_eq_panic] at h
          rcases h with h | ⟨_, _, h⟩
          · rcases h5 with ⟨h6, _, h7, h8⟩ | ⟨h6, h7⟩
            · rw [h6] at h
              have := ihU _ _ h
              rw [hdr] at this
              rw [h1, h7]
              exact .indefinite _ _ (hc ▸ h2) this
            · rw [h6] at h
              have := ihD _ _ h
              rw [hdr] at this
              rw [h1]
              exact .definite _ _ _ _ (hc ▸ h2) h7 h4 this
          · simp at h
    · intro n o h
      simp only [readContent] at h
      split at h
      · rename_i hlt
        have hn : 0 < n := by simpa using hlt
        rw [Go.bind_eq_panic] at h
        rcases h with h | ⟨s, hs, h⟩
        · exact .here _ _ hn (ihO _ h)
        · obtain ⟨u, k, rfl, hf⟩ := (read_sound ber fuel).1 _ _ hs
          simp only [closed, Bool.false_eq_true, if_false, Go.ok_bind, Go.bind_eq_panic] at h
          rcases h with h | ⟨_, _, h⟩
          · by_cases hk : k ≤ n
            · rw [show o + n = o + k + (n - k) by omega] at h
              have := ihD _ _ h
              rw [← List.drop_drop] at this
              exact .later _ _ _ _ hn hf this
            · exact absurd h (ihE _ _ (by omega))
          · simp at h
      · simp at h
    · intro ce o hle
      simp only [readContent]
      rw [if_neg (by simp; omega)]
      simp
    · intro ce o h
      simp only [readContent, or_true, if_true] at h
      rw [Go.bind_eq_panic] at h
      rcases h with h | ⟨s, hs, h⟩
      · exact .here _ (ihO _ h)
      · obtain ⟨u, k, rfl, hf⟩ := (read_sound ber fuel).1 _ _ hs
        rw [Go.bind_eq_panic] at h
        rcases h with h | ⟨t, ht, h⟩
        · exact absurd h closed_panic
        · simp only [closed_true] at ht
          obtain ⟨h2, rfl⟩ := ht
          split at h
          · simp at h
          · rename_i hz
            rw [Go.bind_eq_panic] at h
            rcases h with h | ⟨_, _, h⟩
            · have := ihU _ _ h
              rw [← List.drop_drop] at this h2 hz
              exact .later _ _ _ hf h2 (by simpa using hz) this
            · simp at h

/-- What breaks makes the reader panic. -/
theorem break_front {ber : Bytes} {s : Bytes} (h : Breaks s) : ∀ o, ber.drop o = s → ∃ f, readObject f ber o = .panic := by
  refine Breaks.rec (motive_1 := fun s _ => ∀ o, ber.drop o = s → ∃ f, readObject f ber o = .panic)
    (motive_2 := fun n s _ => ∀ o, ber.drop o = s → ∃ f, readContent f ber false (o + n) o = .panic)
    (motive_3 := fun s _ => ∀ ce o, ber.drop o = s → ∃ f, readContent f ber true ce o = .panic)
    ?_ ?_ ?_ ?_ ?_ ?_ ?_ ?_ h
  · intro s h o hd
    refine ⟨1, ?_⟩
    rw [readObject, Go.bind_eq_panic, readHeader_panic, hd]
    exact Or.inl (Or.inl h)
  · intro c tag s' ht h o hd
    refine ⟨1, ?_⟩
    rw [readObject, Go.bind_eq_panic, readHeader_panic, hd]
    exact Or.inl (Or.inr ⟨c, tag, s', rfl, ht, h⟩)
  · intro tag len n s' ht hl hn hs ih o hd
    have hh := readHeader_definite (rest := s') ht hl hd hn
    have h2 : ber.drop (o + tag.length + len.length) = s' := by
      have := drop_of_append (x := tag ++ len) (y := s') hd
      simpa [Nat.add_assoc] using this
    obtain ⟨f, hf⟩ := ih _ h2
    refine ⟨f + 1, ?_⟩
    simp only [readObject, hh, Go.ok_bind, hf]
    simp
  · intro tag s' ht hs ih o hd
    have hh := readHeader_indefinite (rest := s') ht hd
    have h2 : ber.drop (o + tag.length + 1) = s' := by
      have := drop_of_append (x := tag ++ [0x80]) (y := s') hd
      simpa [Nat.add_assoc] using this
    obtain ⟨f, hf⟩ := ih (o + tag.length + 1) _ h2
    refine ⟨f + 1, ?_⟩
    simp only [readObject, hh, Go.ok_bind, Nat.add_zero, hf]
    simp
  · intro n s hn h ih o hd
    obtain ⟨f, hf⟩ := ih _ hd
    refine ⟨f + 1, ?_⟩
    simp only [readContent]
    rw [if_pos (by left; omega), hf]
    rfl
  · intro n k t s hn hf hs ih o hd
    obtain ⟨f1, h1⟩ := read_front hf hd
    have hd2 : ber.drop (o + k) = s.drop k := by rw [← hd, List.drop_drop]
    have hk : 0 < n - k := by cases hs <;> assumption
    obtain ⟨f2, h2⟩ := ih _ hd2
    rw [show o + k + (n - k) = o + n by omega] at h2
    refine ⟨max f1 f2 + 1, ?_⟩
    have e1 := readObject_fuel_le (g := max f1 f2) (by omega) (f := f1) (o := o) (ber := ber) (by rw [h1]; simp)
    have e2 := readContent_fuel_le (g := max f1 f2) (by omega) (f := f2) (o := o + k) (ber := ber)
      (i := false) (ce := o + n) (by rw [h2]; simp)
    simp only [readContent]
    rw [if_pos (by left; omega)]
    simp only [e1, h1, Go.ok_bind, closed, e2, h2]
    simp
  · intro s h ih ce o hd
    obtain ⟨f, hf⟩ := ih _ hd
    refine ⟨f + 1, ?_⟩
    simp only [readContent, or_true, if_true]
    rw [hf]
    rfl
  · intro k t s hf hl hz hs ih ce o hd
    obtain ⟨f1, h1⟩ := read_front hf hd
    have hd2 : ber.drop (o + k) = s.drop k := by rw [← hd, List.drop_drop]
    obtain ⟨f2, h2⟩ := ih ce _ hd2
    have hc : closed true ber (o + k) = .ok false := by
      rw [closed_true, hd2]
      exact ⟨hl, by simp [hz]⟩
    refine ⟨max f1 f2 + 1, ?_⟩
    have e1 := readObject_fuel_le (g := max f1 f2) (by omega) (f := f1) (o := o) (ber := ber) (by rw [h1]; simp)
    have e2 := readContent_fuel_le (g := max f1 f2) (by omega) (f := f2) (o := o + k) (ber := ber)
      (i := true) (ce := ce) (by rw [h2]; simp)
    simp only [readContent, or_true, if_true]
    simp only [e1, h1, Go.ok_bind, hc, e2, h2]
    simp

theorem readObject_panic_of_exists {ber : Bytes} (h : ∃ f, readObject f ber 0 = .panic) :
    readObject (fuelFor ber) ber 0 = .panic := by
  obtain ⟨f, hf⟩ := h
  have h1 : readObject (fuelFor ber) ber 0 ≠ .diverge :=
    (readObject_fuel ber (fuelFor ber)).1 0 (by omega) (by unfold fuelFor; omega)
  have e1 := readObject_fuel_le (g := max f (fuelFor ber)) (by omega) h1
  have e2 := readObject_fuel_le (g := max f (fuelFor ber)) (f := f) (ber := ber) (o := 0) (by omega)
    (by rw [hf]; simp)
  rw [← e1, e2, hf]

end Verif.Ber
