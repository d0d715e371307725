import Verif.Lemmas.CertEnc
/- Round trip of the IP address block and of the AS extension. -/
set_option autoImplicit false

namespace Verif
open BerSpec Net Cert ResSpec

theorem getRangeIP_canonical {n : IPNet} (h : ProperNet n) (hc : Canonical n) :
    ∃ e, getRangeIP (some n) = .ok (n.ip, e) := by
  obtain ⟨hl, hs, p, hp⟩ := h
  obtain ⟨q, hq, hd⟩ := hc
  have := isMask_inj hp hq; subst this
  obtain ⟨b, e, hr, hb, he, vb, ve⟩ := rangeBytes_spec n.mask.length p hp.1 n.ip hl
  rw [← eq_maskBytes hp] at hr
  rw [Nat.div_mul_cancel hd] at vb
  have := beVal_inj (hb.trans hl.symm) vb
  subst this
  exact ⟨e, by simp [getRangeIP, hr]⟩

theorem not_mapped {a : Bytes} (hl : a.length = 16) (h : ¬ Mapped a) : to4 a = none := by
  rw [mapped_iff] at h
  cases hc : to4 a <;> simp_all

theorem afiOf_encodable {a : Bytes} (hl : a.length = 4 ∨ a.length = 16) (h : ¬ Mapped a) :
    afiOf a = if a.length = 4 then 1 else 2 := by
  rcases hl with hl | hl
  · simp [afiOf, to4_len4 hl, hl]
  · simp [afiOf, not_mapped hl h, hl, to16IsSome]

theorem getAfi_encodable {e : IPInfo} (h : Encodable e) : e.getAfi = .ok (famOf e) := by
  cases e with
  | net o =>
    cases o with
    | none => exact h.elim
    | some n => simp only [IPInfo.getAfi, famOf]; rw [afiOf_encodable h.1.2.1 h.2.2]
  | range min max => simp only [IPInfo.getAfi, famOf]; rw [afiOf_encodable (.inr h.1) h.2.2.1]
  | null f => rfl

theorem famOf_encodable {e : IPInfo} (h : Encodable e) : famOf e = 1 ∨ famOf e = 2 := by
  cases e with
  | net o =>
    cases o with
    | none => exact h.elim
    | some n => simp only [famOf]; split <;> simp
  | range min max => simp only [famOf]; split <;> simp
  | null f => exact h

theorem groupOf_eq {ips : List IPInfo} (h : ∀ e ∈ ips, Encodable e) (k : UInt8) :
    groupOf k ips = .ok (ips.filter (fun e => famOf e = k)) := by
  induction ips with
  | nil => rfl
  | cons e ips ih =>
    unfold groupOf
    rw [getAfi_encodable (h e (by simp)), Go.ok_bind, ih (fun e he => h e (by simp [he])), Go.ok_bind]
    simp only [List.filter_cons, decide_eq_true_eq, Go.pure_def, Go.ok.injEq]

theorem fillOnes_full {a : Bytes} {p : Nat} (hp : p = 8 * a.length) : fillOnes p a = a := by
  subst hp
  unfold fillOnes
  simp only [show 8 * a.length / 8 = a.length by omega, List.take_of_length_le (Nat.le_succ _)]
  simp

/-- One entry: encode, then decode. -/
theorem decode_encode_entry {e : IPInfo} (h : Encodable e) (hn : ∀ x, e ≠ .null x) :
    ∃ a, encodeAddrOrRange e = .ok a ∧ decodeAddrOrRange [0, famOf e] a = e := by
  cases e with
  | net o =>
    cases o with
    | none => exact h.elim
    | some n =>
      refine ⟨_, rfl, ?_⟩
      have hf : IsFamily [0, famOf (.net (some n))] n.ip.length := by
        simp only [famOf]
        rcases h.1.2.1 with h4 | h4
        · rw [h4]; exact ⟨0, [], .inl ⟨rfl, rfl⟩⟩
        · rw [h4]; exact ⟨0, [], .inr ⟨rfl, rfl⟩⟩
      obtain ⟨b, e, hr, _, hd⟩ := decodeIP_encode h.1 hf
      obtain ⟨e', hr'⟩ := getRangeIP_canonical h.1 h.2.1
      rw [hr] at hr'
      simp only [Go.ok.injEq, Prod.mk.injEq] at hr'
      simp only [decodeAddrOrRange, hd, hr'.1]
  | range min max =>
    obtain ⟨h1, h2, h3, h4⟩ := h
    have hf : familySize [0, famOf (.range min max)] = some 16 := by
      simp only [famOf]; rw [if_neg (by omega)]; rfl
    refine ⟨.range ⟨min, 128⟩ ⟨max, 128⟩, ?_, ?_⟩
    · simp [encodeAddrOrRange, ipToBitString, not_mapped h1 h3, not_mapped h2 h4]
    · simp only [decodeAddrOrRange, decodeIPMinMax, hf, orNil]
      have c1 : copyInto 16 min = min := by rw [copyInto_of_le (by omega), h1]; simp
      have c2 : copyInto 16 max = max := by rw [copyInto_of_le (by omega), h2]; simp
      simp [c1, c2, h2, fillOnes_full]
  | null f => exact absurd rfl (hn f)

theorem encodeVersion_spec {k : UInt8} (hk : k = 1 ∨ k = 2) {g : List IPInfo}
    (h : ∀ e ∈ g, Encodable e ∧ famOf e = k) (acc : List AddrOrRange) (pre : List IPInfo)
    (hpre : acc.map (decodeAddrOrRange [0, k]) = pre) (hn : ∀ x, IPInfo.null x ∉ pre) :
    ∃ f, encodeVersion k g acc = .ok f ∧ f.addressFamily = [0, k] ∧
      decodeFamily f = collapse k (pre ++ g) := by
  induction g generalizing acc pre with
  | nil =>
    refine ⟨_, rfl, rfl, ?_⟩
    rw [collapse, if_neg (by
      simp only [List.append_nil, List.any_eq_true, not_exists, not_and]
      intro e he hi
      cases e <;> simp [isInherit] at hi
      exact hn _ he)]
    simp [decodeFamily, hpre]
  | cons e g ih =>
    by_cases hnull : ∃ x, e = .null x
    · obtain ⟨x, rfl⟩ := hnull
      refine ⟨_, rfl, rfl, ?_⟩
      rw [collapse, if_pos (by simp [isInherit])]
      rcases hk with rfl | rfl <;> simp [decodeFamily]
    · have hnull' : ∀ x, e ≠ .null x := fun x hx => hnull ⟨x, hx⟩
      obtain ⟨he, hfe⟩ := h e (by simp)
      obtain ⟨a, ha, hd⟩ := decode_encode_entry he hnull'
      obtain ⟨f, hf, hf1, hf2⟩ := ih (fun e' he' => h e' (by simp [he'])) (acc ++ [a]) (pre ++ [e])
        (by rw [List.map_append, hpre]; simp [← hfe, hd])
        (by
          intro x hx
          rcases List.mem_append.mp hx with hx | hx
          · exact hn x hx
          · simp at hx; exact hnull' x hx.symm)
      refine ⟨f, ?_, hf1, by rw [hf2]; simp⟩
      cases e with
      | null x => exact absurd rfl (hnull' x)
      | net o => unfold encodeVersion; simp only [ha, Go.ok_bind]; exact hf
      | range a b => unfold encodeVersion; simp only [ha, Go.ok_bind]; exact hf

theorem encodeGroups_none {ips : List IPInfo} (h : ∀ e ∈ ips, Encodable e) {keys : List UInt8}
    (hk : ∀ k ∈ keys, k ≠ 1 ∧ k ≠ 2) : encodeGroups ips keys = .ok [] := by
  induction keys with
  | nil => rfl
  | cons k ks ih =>
    unfold encodeGroups
    rw [groupOf_eq h k, Go.ok_bind, if_pos, ih (fun k hk' => hk k (by simp [hk']))]
    rw [List.filter_eq_nil_iff]
    intro e he
    have := famOf_encodable (h e he)
    have hk := hk k (by simp)
    simp only [decide_eq_true_eq]
    rintro rfl
    rcases this with h' | h'
    · exact hk.1 h'
    · exact hk.2 h'

theorem encodeGroups_key {ips : List IPInfo} (h : ∀ e ∈ ips, Encodable e) {k : UInt8}
    (hk : k = 1 ∨ k = 2) {ks : List UInt8} {r : List AddrFamily}
    (hr : encodeGroups ips ks = .ok r) :
    ∃ pre, encodeGroups ips (k :: ks) = .ok (pre ++ r) ∧
      (pre.map AddrFamily.addressFamily = [] ∨ pre.map AddrFamily.addressFamily = [[0, k]]) ∧
      decodeIPAddressBlock pre = collapse k (ips.filter (fun e => famOf e = k)) := by
  unfold encodeGroups
  rw [groupOf_eq h k, Go.ok_bind]
  by_cases hg : ips.filter (fun e => famOf e = k) = []
  · rw [if_pos hg, hr, hg]
    refine ⟨[], rfl, .inl rfl, ?_⟩
    rw [collapse, if_neg (by simp)]; rfl
  · rw [if_neg hg]
    obtain ⟨f, hf, hf1, hf2⟩ := encodeVersion_spec hk (g := ips.filter (fun e => famOf e = k))
      (by intro e he; simp at he; exact ⟨h e he.1, he.2⟩) [] [] rfl (by simp)
    rw [hf, Go.ok_bind, hr, Go.ok_bind]
    refine ⟨[f], rfl, .inr (by simp [hf1]), ?_⟩
    simp [decodeIPAddressBlock, hf2]

theorem encodeBlock_spec {ips : List IPInfo} (h : ∀ e ∈ ips, Encodable e) :
    ∃ blk, encodeIPAddressBlock ips = .ok blk ∧
      (blk.map AddrFamily.addressFamily).Sublist [[0, 1], [0, 2]] ∧
      decodeIPAddressBlock blk = collapse 1 (ips.filter (fun e => famOf e = 1)) ++
        collapse 2 (ips.filter (fun e => famOf e = 2)) := by
  have hkeys : allKeys = [0] ++ 1 :: 2 :: (List.range' 3 253).map (fun n => n.toUInt8) := by
    decide +kernel
  have h3 : encodeGroups ips ((List.range' 3 253).map (fun n => n.toUInt8)) = .ok [] :=
    encodeGroups_none h (by decide +kernel)
  obtain ⟨p2, e2, s2, d2⟩ := encodeGroups_key h (.inr rfl) h3
  obtain ⟨p1, e1, s1, d1⟩ := encodeGroups_key h (.inl rfl) e2
  have h0 : encodeGroups ips [0] = .ok [] := encodeGroups_none h (by simp)
  have h00 : ∀ ks, encodeGroups ips ([0] ++ ks) = encodeGroups ips ks := by
    intro ks
    rw [List.singleton_append]
    conv_lhs => unfold encodeGroups
    rw [groupOf_eq h 0, Go.ok_bind, if_pos]
    rw [List.filter_eq_nil_iff]
    intro e he
    have := famOf_encodable (h e he)
    simp only [decide_eq_true_eq]
    intro hc
    rw [hc] at this
    simp at this
  refine ⟨p1 ++ p2, ?_, ?_, ?_⟩
  · rw [encodeIPAddressBlock, hkeys, h00, e1]; simp
  · rw [List.map_append]
    rcases s1 with s1 | s1 <;> rcases s2 with s2 | s2 <;> rw [s1, s2] <;> decide
  · rw [decodeIPAddressBlock, List.flatMap_append]
    rw [decodeIPAddressBlock] at d1 d2
    rw [d1, d2]

/-! ### AS -/

theorem asnSeqLoop_noNull (l : List ASInfo) (h : .null ∉ l) (acc : List AsnVal) :
    asnSeqLoop l acc = (acc ++ l.map ASInfo.asn1, false) := by
  induction l generalizing acc with
  | nil => simp [asnSeqLoop]
  | cons a l ih =>
    have hl : ASInfo.null ∉ l := fun hc => h (by simp [hc])
    cases a with
    | null => exact absurd (by simp) h
    | asn a => simp [asnSeqLoop, ih hl, ASInfo.asn1]
    | range a b => simp [asnSeqLoop, ih hl, ASInfo.asn1]

theorem fitsInt_of {a : Int} (h : -2 ^ 63 ≤ a ∧ a < 2 ^ 63) : fitsInt a = true := by
  simp only [fitsInt, Bool.and_eq_true, decide_eq_true_eq]; exact h

theorem decodeASElems_map (l : List ASInfo) (h : .null ∉ l) (hf : ∀ a ∈ l, FitsAS a) :
    decodeASElems (l.map ASInfo.asn1) = .ok l := by
  induction l with
  | nil => rfl
  | cons a l ih =>
    have hl : ASInfo.null ∉ l := fun hc => h (by simp [hc])
    have ihl := ih hl (fun b hb => hf b (by simp [hb]))
    have ha := hf a (by simp)
    cases a with
    | null => exact absurd (by simp) h
    | asn a =>
      have ha : fitsInt a = true := fitsInt_of ha
      simp [decodeASElems, decodeASElem, ASInfo.asn1, ihl, ha]
    | range a b =>
      have h1 : fitsInt a = true := fitsInt_of ha.1
      have h2 : fitsInt b = true := fitsInt_of ha.2
      simp [decodeASElems, decodeASElem, ASInfo.asn1, ihl, h1, h2]

end Verif
