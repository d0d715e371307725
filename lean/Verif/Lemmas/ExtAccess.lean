import Verif.Lemmas.Ext
/-
  Reading and writing of the access, key identifier and policy extensions.
-/
set_option autoImplicit false

namespace Verif.Ext
open Der Cms CmsSpec BerSpec ResSpec ExtSpec Cert

/-! ### Object identifiers -/

theorem base128_arc : ∀ (init : Bytes) (last : UInt8) (rest : Bytes) (s acc : Nat),
    (∀ b ∈ init, 0x80 ≤ b) → last < 0x80 → s + init.length ≤ 3 → acc < 128 ^ s →
    (s = 0 → (init ++ [last]).headD 0 ≠ 0x80) → ∃ v, base128 s acc (init ++ [last] ++ rest) = .ok (v, rest)
  | [], last, rest, s, acc, _, hl, hs, ha, hh => by
    have h1 : acc * 128 + last.toNat % 128 < 128 ^ (s + 1) := by
      rw [pow_succ]; have := Nat.mod_lt last.toNat (show 0 < 128 by decide); omega
    have h2 : 128 ^ (s + 1) ≤ 128 ^ 4 := Nat.pow_le_pow_right (by decide) (by simp at hs; omega)
    refine ⟨acc * 128 + last.toNat % 128, ?_⟩
    have h3 : ¬ (s = 0 ∧ last = 0x80) := fun h => hh h.1 (by simp [h.2])
    simp only [List.nil_append, List.singleton_append, base128]
    rw [if_neg (by simp at hs; omega), if_neg h3, if_pos hl, if_neg (by omega)]
  | b :: init, last, rest, s, acc, hi, hl, hs, ha, hh => by
    have hb := hi b (by simp)
    have hlt : ¬ b < 0x80 := by
      rw [UInt8.lt_iff_toNat_lt]; rw [UInt8.le_iff_toNat_le] at hb; omega
    have h3 : ¬ (s = 0 ∧ b = 0x80) := fun h => hh h.1 (by simp [h.2])
    simp only [List.length_cons] at hs
    obtain ⟨v, hv⟩ := base128_arc init last rest (s + 1) (acc * 128 + b.toNat % 128)
      (fun x hx => hi x (by simp [hx])) hl (by omega) (by
        rw [pow_succ]; have := Nat.mod_lt b.toNat (show 0 < 128 by decide); omega) (by omega)
    refine ⟨v, ?_⟩
    simp only [List.cons_append, base128]
    rw [if_neg (by omega), if_neg h3, if_neg hlt]
    exact hv

theorem oidOk_of_content {c : Bytes} (h : OidContent c) : OidOk c := by
  obtain ⟨arcs, hne, ha, rfl⟩ := h
  have hnil : ∀ a ∈ arcs, a ≠ [] := by
    rintro a hm rfl
    obtain ⟨⟨init, last, h1, -⟩, -⟩ := ha _ hm
    exact absurd h1 (by simp)
  refine ⟨?_, ?_⟩
  · cases arcs with
    | nil => exact absurd rfl hne
    | cons a arcs => simp [hnil a (by simp)]
  · have key : ∀ (arcs : List Bytes) (n : Nat), (∀ a ∈ arcs, ArcOctets a ∧ a.length ≤ 4) →
        arcs.flatten.length ≤ n → oidLoop n arcs.flatten = .ok () := by
      intro arcs
      induction arcs with
      | nil => intro n _ _; cases n <;> rfl
      | cons a arcs ih =>
        intro n h hn
        obtain ⟨⟨init, last, h1, h2, h3, h4⟩, h5⟩ := h a (by simp)
        subst h1
        simp only [List.flatten_cons, List.length_append, List.length_singleton] at hn h5
        obtain ⟨v, hv⟩ := base128_arc init last arcs.flatten 0 0 h3 h2 (by omega) (by simp) (fun _ => h4)
        cases n with
        | zero => omega
        | succ n =>
          have hc : ∃ x y, init ++ [last] ++ arcs.flatten = x :: y := by
            cases init with
            | nil => exact ⟨_, _, rfl⟩
            | cons x y => exact ⟨_, _, rfl⟩
          obtain ⟨x, y, hxy⟩ := hc
          rw [List.flatten_cons, hxy]
          simp only [oidLoop]
          rw [← hxy, hv]
          simp only [Go.ok_bind]
          exact ih n (fun b hb => h b (by simp [hb])) (by omega)
    exact key arcs _ ha (Nat.le_refl _)

/-! ### Tagged octets -/

theorem tag_octet (n : Nat) (hn : n < 31) {id : UInt8} (h1 : id.toNat / 64 = 2) (h2 : id.toNat % 32 = n)
    (h3 : decide (id &&& 0x20 = 0x20) = false) : id = (128 + n).toUInt8 := by
  have key : ∀ k : Fin 256, k.val / 64 = 2 → decide (k.val.toUInt8 &&& 0x20 = 0x20) = false →
      k.val = 128 + k.val % 32 := by decide +kernel
  have := key ⟨id.toNat, u8_lt id⟩ h1 (by simpa using h3)
  apply UInt8.toNat_inj.mp
  simp only at this
  rw [toUInt8_toNat_small (by omega)]
  omega

theorem parseTaggedOctets_elem {n : Nat} (hn : n < 31) (x rest : Bytes) (hx : x.length < 2 ^ 31) :
    parseTaggedOctets n (elem (128 + n).toUInt8 x ++ rest) = .ok (x, rest) := by
  have ht : ((128 + n).toUInt8).toNat = 128 + n := toUInt8_toNat_small (by omega)
  have hh := parseHeader_enc (128 + n).toUInt8 x.length (x ++ rest) (by rw [ht]; omega) hx
  have hc : ((128 + n).toUInt8 &&& 0x20 = 0x20) = False := by
    have key : ∀ k : Fin 31, ¬ ((128 + k.val).toUInt8 &&& 0x20 = 0x20) := by decide +kernel
    simpa using key ⟨n, hn⟩
  have e : elem (128 + n).toUInt8 x ++ rest = (128 + n).toUInt8 :: derLength x.length ++ (x ++ rest) := by simp [elem]
  unfold parseTaggedOctets
  rw [if_neg (by simp [elem]), e, hh]
  simp only [Go.ok_bind, ht]
  have h1 : (128 + n) / 64 = 2 := by omega
  have h2 : (128 + n) % 32 = n := by omega
  rw [if_neg (by simp only [h1, h2, hc]; simp), if_neg (by simp)]
  simp

theorem parseTaggedOctets_ok {n : Nat} (hn : n < 31) {bs x rest : Bytes}
    (h : parseTaggedOctets n bs = .ok (x, rest)) :
    bs = elem (128 + n).toUInt8 x ++ rest := by
  unfold parseTaggedOctets at h
  split at h
  · simp at h
  · obtain ⟨hd, hh, h⟩ := Go.bind_eq_ok.mp h
    split at h
    · simp at h
    · rename_i hc
      split at h
      · simp at h
      · rename_i hle
        simp only [Go.pure_def, Go.ok.injEq, Prod.mk.injEq] at h
        obtain ⟨rfl, rfl⟩ := h
        simp only [not_or, Classical.not_not] at hc
        obtain ⟨id, more, e1, e2, e3, e4, e5⟩ := parseHeader_ok (hd := hd.1) (rest := hd.2) hh
        rcases e5 with ⟨rfl, e5, -⟩ | e5
        · have hid := tag_octet n hn (id := id) (by rw [← e3]; exact hc.1) (by rw [← e5]; exact hc.2.1)
            (by rw [← e4]; exact hc.2.2)
          rw [← hid]
          have hl : (hd.2.take hd.1.length).length = hd.1.length := by simp; omega
          simp only [elem, hl]
          rw [e1]
          simp
        · omega

/-! ### Subject information access -/

theorem decodeSIAExt_der {l : List Access} {out : Bytes} (h : AccessListDer l out) (hl : out.length < 2 ^ 31)
    (ho : ∀ a ∈ l, OidContent a.method) (rest : Bytes) :
    decodeSIAExt (out ++ rest) = .ok (l.map (fun a => ⟨a.method, a.uri⟩)) := by
  obtain ⟨encs, h1, rfl⟩ := h
  have l1 := elem_length_gt 0x30 encs.flatten
  obtain ⟨es, h2, h3⟩ := parseAll_forall₂ parseSIA AccessDer (fun a s => s = ⟨a.method, a.uri⟩) l encs h1
    (fun a enc ha he hr => by
      have l2 := flatten_mem_length he
      rw [show enc = _ from hr] at l2 ⊢
      have l3 := elem_length_gt 0x30 (elem 0x06 a.method ++ elem 0x86 a.uri)
      have l4 := elem_length_gt 0x06 a.method
      have l5 := elem_length_gt 0x86 a.uri
      rw [List.length_append] at l3
      refine ⟨elem_ne_nil _ _, _, rfl, fun rest => ?_⟩
      have e1 := parseSeq_elem (elem 0x06 a.method ++ elem 0x86 a.uri) rest (by rw [List.length_append]; omega)
      have e2 := parseOID_elem a.method (elem 0x86 a.uri) (oidOk_of_content (ho a ha)) (by omega)
      have e3 := parseTaggedOctets_elem (n := 6) (by decide) a.uri [] (by omega)
      rw [List.append_nil] at e3
      have e4 : ((128 + 6 : Nat)).toUInt8 = 0x86 := rfl
      rw [e4] at e3
      simp [parseSIA, e1, e2, e3])
  unfold decodeSIAExt
  rw [parseSeq_elem encs.flatten rest (by omega)]
  simp only [Go.ok_bind, h2, Go.ok.injEq]
  clear h2 h1 ho l1 hl
  induction h3 with
  | nil => rfl
  | cons h _ ih => simp [h, ih]

theorem parseSIA_ok {bs rest : Bytes} {s : SIA} (h : parseSIA bs = .ok (s, rest)) :
    ∃ enc, LaxAccess ⟨s.method, s.name⟩ enc ∧ bs = enc ++ rest := by
  unfold parseSIA at h
  obtain ⟨s, hs, h⟩ := Go.bind_eq_ok.mp h
  obtain ⟨o, ho, h⟩ := Go.bind_eq_ok.mp h
  obtain ⟨n, hn, h⟩ := Go.bind_eq_ok.mp h
  simp only [Go.pure_def, Go.ok.injEq, Prod.mk.injEq] at h
  obtain ⟨rfl, rfl⟩ := h
  have h1 := parseTyped_elem (x := s.1) (rest := s.2) (by decide) hs
  have h2 := parseOID_ok (x := o.1) (rest := o.2) ho
  have h3 := parseTaggedOctets_ok (x := n.1) (rest := n.2) (by decide) hn
  refine ⟨_, ⟨n.2, rfl⟩, ?_⟩
  rw [h1, h2, h3]
  simp

theorem decodeSIAExt_ok {data : Bytes} {l : List SIA} (h : decodeSIAExt data = .ok l) :
    ∃ encs junk, List.Forall₂ LaxAccess (l.map (fun s => ⟨s.method, s.name⟩)) encs ∧
      data = elem 0x30 encs.flatten ++ junk := by
  unfold decodeSIAExt at h
  obtain ⟨s, hs, h⟩ := Go.bind_eq_ok.mp h
  obtain ⟨encs, k1, k2⟩ := parseAll_ok (R := fun (s : SIA) enc => LaxAccess ⟨s.method, s.name⟩ enc)
    (fun bs a rest hp => parseSIA_ok hp) h
  refine ⟨encs, s.2, by rwa [List.forall₂_map_left_iff], ?_⟩
  rw [← k2]
  exact parseTyped_elem (x := s.1) (rest := s.2) (by decide) hs

end Verif.Ext
