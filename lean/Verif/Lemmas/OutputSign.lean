import Verif.Lemmas.Output
/-
  Lemmas on the signed texts and on the signatures of the published list.
-/
set_option autoImplicit false

namespace Verif.Out
open BerSpec Net OutSpec CmsSpec Der

/-- The line of a VRP in the signed text. -/
def line (t : Bytes × Nat × Bytes) : Bytes := t.1 ++ 44 :: (numText 10 t.2.1 ++ 44 :: (t.2.2 ++ [44]))

/-- Commas only between the fields. -/
def NoComma (t : Bytes × Nat × Bytes) : Prop := Free 44 t.1 ∧ Free 44 t.2.2

theorem signText_line (r : ROAJson) : r.signText = line (triple r) := by
  simp [ROAJson.signText, line, triple]

theorem line_inj {t t' : Bytes × Nat × Bytes} {r r' : Bytes} (h : NoComma t) (h' : NoComma t')
    (he : line t ++ r = line t' ++ r') : t = t' ∧ r = r' := by
  unfold line at he
  simp only [List.append_assoc, List.cons_append, List.nil_append] at he
  obtain ⟨h1, h2⟩ := split_first h.1 h'.1 he
  obtain ⟨h3, h4⟩ := split_first (numText_free (.inl (by decide))) (numText_free (.inl (by decide))) h2
  obtain ⟨h5, h6⟩ := split_first h.2 h'.2 h4
  exact ⟨Prod.ext h1 (Prod.ext (numText_inj h3) h5), h6⟩

theorem lines_inj : ∀ (a b : List (Bytes × Nat × Bytes)) (x y : Bytes), (∀ t ∈ a, NoComma t) → (∀ t ∈ b, NoComma t) →
    (44 : UInt8) ∉ x → (44 : UInt8) ∉ y → (a.map line).flatten ++ x = (b.map line).flatten ++ y → a = b ∧ x = y := by
  have hmem : ∀ (t : Bytes × Nat × Bytes), (44 : UInt8) ∈ line t := by intro t; simp [line]
  intro a
  induction a with
  | nil =>
    intro b x y _ hb hx hy h
    cases b with
    | nil => simp at h; exact ⟨rfl, h⟩
    | cons t b =>
      simp at h
      exact absurd (h ▸ List.mem_append_left _ (hmem t)) hx
  | cons s a ih =>
    intro b x y ha hb hx hy h
    cases b with
    | nil =>
      simp at h
      exact absurd (h ▸ List.mem_append_left _ (hmem s)) hy
    | cons t b =>
      simp only [List.map_cons, List.flatten_cons, List.append_assoc] at h
      obtain ⟨h1, h2⟩ := line_inj (ha s (by simp)) (hb t (by simp)) h
      obtain ⟨h3, h4⟩ := ih b x y (fun z hz => ha z (by simp [hz])) (fun z hz => hb z (by simp [hz])) hx hy h2
      exact ⟨by rw [h1, h3], h4⟩

theorem perm_of_map {α β : Type} (f : α → β) : ∀ (x : List α) (L : List β), L.Perm (x.map f) →
    ∃ ts : List α, ts.Perm x ∧ L = ts.map f := by
  intro x
  induction x with
  | nil => intro L h; simp at h; exact ⟨[], List.Perm.refl _, by simp [h]⟩
  | cons a x ih =>
    intro L h
    have hm : f a ∈ L := h.symm.subset (by simp)
    obtain ⟨s, t, rfl⟩ := List.append_of_mem hm
    have h' : (s ++ t).Perm (x.map f) := by
      have : (f a :: (s ++ t)).Perm (f a :: x.map f) := (List.perm_middle.symm).trans h
      exact this.cons_inv
    obtain ⟨ts, h1, h2⟩ := ih _ h'
    obtain ⟨t1, t2, h3, h4, h5⟩ := List.append_eq_map_iff.mp h2
    refine ⟨t1 ++ a :: t2, ?_, by simp [h4, h5]⟩
    rw [h3] at h1
    exact List.perm_middle.trans (h1.cons a)

/-- The sorted texts are the lines of the triples in some order. -/
theorem sorted_lines (l : ROAList) : ∃ ts : List (Bytes × Nat × Bytes), ts.Perm (l.data.map triple) ∧
    l.sorted = (ts.map line).flatten := by
  have hp := sortSet_perm (l.data.map ROAJson.signText)
  have he : l.data.map ROAJson.signText = (l.data.map triple).map line := by
    rw [List.map_map]
    apply List.map_congr_left
    intro r _
    exact signText_line r
  rw [he] at hp
  unfold ROAList.sorted
  rw [he]
  obtain ⟨ts, h1, h2⟩ := perm_of_map line _ _ hp
  exact ⟨ts, h1, by rw [h2]⟩

theorem sorted_perm {l l' : ROAList} (h : l.data.Perm l'.data) : l.sorted = l'.sorted := by
  unfold ROAList.sorted
  rw [sortSet_congr (h.map _)]

/-! ### Signatures -/

theorem hexDecode_hexString (b : Bytes) : hexDecode (hexString b) = .ok b := by
  induction b with
  | nil => rfl
  | cons x b ih =>
    have hx := x.toNat_lt
    have h : hexString (x :: b) = digitChar (x.toNat / 16) :: digitChar (x.toNat % 16) :: hexString b := by
      simp [hexString]
    rw [h]
    simp only [hexDecode, digitVal_char (.inr rfl) (show x.toNat / 16 < 16 by omega),
      digitVal_char (.inr rfl) (show x.toNat % 16 < 16 by omega), ih, Go.ok_bind, Go.pure_def]
    congr 2
    rw [show x.toNat / 16 * 16 + x.toNat % 16 = x.toNat by omega]
    simp

theorem readSig_derSig (r s : Nat) (h : (derSig r s).length < 2 ^ 31) : readSig (derSig r s) = .ok ((r : Int), (s : Int)) := by
  unfold derSig at h ⊢
  simp only [tlv_eq] at h ⊢
  have e : ∀ id c, id :: derLength c.length ++ c = elem id c := fun _ _ => rfl
  simp only [e] at h ⊢
  have h1 := Cms.elem_length_gt 0x30 (elem 0x02 (Cms.bigIntOctets r) ++ elem 0x02 (Cms.bigIntOctets s))
  have h2 := Cms.elem_length_gt 0x02 (Cms.bigIntOctets r)
  have h3 := Cms.elem_length_gt 0x02 (Cms.bigIntOctets s)
  rw [List.length_append] at h1
  unfold readSig
  have hq := Cms.parseSeq_elem (elem 0x02 (Cms.bigIntOctets r) ++ elem 0x02 (Cms.bigIntOctets s)) []
    (by rw [List.length_append]; omega)
  rw [List.append_nil] at hq
  rw [hq]
  simp only [Go.ok_bind]
  rw [Cms.parseBigInt_elem _ (Cms.bigIntOctets_content r) (by omega)]
  simp only [Go.ok_bind]
  have hs := Cms.parseBigInt_elem [] (Cms.bigIntOctets_content s) (by omega)
  rw [List.append_nil] at hs
  rw [hs]
  rfl

end Verif.Out
