import Verif.Lemmas.Content
import Verif.Lemmas.CertEnc
/-
  Decoding of ROA and manifest contents given by the specification.
-/
set_option autoImplicit false

namespace Verif.Cms
open Der CmsSpec BerSpec ResSpec Net

theorem content_le8 {i : Int} {c : Bytes} (h : IntContent i c) (h1 : -2 ^ 63 ≤ i) (h2 : i < 2 ^ 63) :
    c.length ≤ 8 := by
  obtain ⟨h3, h4⟩ := intOctets_content h1 h2
  exact Nat.le_trans (h.2.2 _ h3.1 h3.2.1) h4

/-- What is read for a prefix of a ROA. -/
def PrefixRead (p : RoaPrefix) (a : Cert.BitString × Int) : Prop :=
  BitsOk a.1 ∧ a.1.bitLength = p.length ∧ bitsNum a.1 = p.value ∧
    a.2 = (match p.maxLength with | none => -1 | some k => (k : Int))

theorem parseROAAddress_der {p : RoaPrefix} {out : Bytes} (h : RoaPrefixDer p out) (hl : out.length < 2 ^ 31)
    (hm : ∀ k, p.maxLength = some k → k < 2 ^ 63) :
    out ≠ [] ∧ ∃ a, PrefixRead p a ∧ ∀ rest, parseROAAddress (out ++ rest) = .ok (a, rest) := by
  obtain ⟨b, m, hb, hmax, rfl⟩ := h
  obtain ⟨bits, e1, e2, e3, e4⟩ := bitStringOf_content hb
  have l1 := elem_length_gt 0x30 (elem 0x03 b ++ m)
  have l2 := elem_length_gt 0x03 b
  simp only [List.length_append] at l1
  have hmr : parseMaxLength m = .ok (match p.maxLength with | none => -1 | some k => (k : Int)) := by
    cases hp : p.maxLength with
    | none => simp only [hp] at hmax; subst hmax; rfl
    | some k =>
      simp only [hp] at hmax
      obtain ⟨i, hi, rfl⟩ := hmax
      have hk := hm k hp
      have h8 := content_le8 hi (by omega) (by omega)
      obtain ⟨q1, q2⟩ := parseInt_elem [] hi h8
      rw [List.append_nil] at q1
      have hh := parseHeader_enc 0x02 i.length i (by decide) (by omega)
      unfold parseMaxLength
      rw [if_neg (elem_ne_nil _ _)]
      have : parseHeader (elem 0x02 i) = _ := hh
      rw [this, Go.ok_bind]
      simp [q1, q2]
      decide
  refine ⟨elem_ne_nil _ _, (bits, _), ⟨e2, e3, e4, rfl⟩, ?_⟩
  intro rest
  unfold parseROAAddress
  rw [parseSeq_elem _ rest (by simp; omega)]
  simp only [Go.ok_bind]
  rw [parseBits_elem b m (by omega)]
  simp only [Go.ok_bind, e1, hmr, Go.pure_def]

/-- What is read for a family of a ROA. -/
def FamilyRead (f : RoaFamily) (g : Roa.ROAFamily) : Prop :=
  g.addressFamily = f.afi ∧ List.Forall₂ PrefixRead f.prefixes g.addresses

theorem parseROAFamily_der {f : RoaFamily} {out : Bytes} (h : RoaFamilyDer f out) (hl : out.length < 2 ^ 31)
    (hm : ∀ p ∈ f.prefixes, ∀ k, p.maxLength = some k → k < 2 ^ 63) :
    out ≠ [] ∧ ∃ g, FamilyRead f g ∧ ∀ rest, parseROAFamily (out ++ rest) = .ok (g, rest) := by
  obtain ⟨encs, h1, rfl⟩ := h
  have l1 := elem_length_gt 0x30 (elem 0x04 f.afi ++ elem 0x30 encs.flatten)
  have l2 := elem_length_gt 0x04 f.afi
  have l3 := elem_length_gt 0x30 encs.flatten
  simp only [List.length_append] at l1
  obtain ⟨as, ha, hq⟩ := parseAll_forall₂ parseROAAddress RoaPrefixDer PrefixRead f.prefixes encs h1
    (fun p enc hp he hr => parseROAAddress_der hr (by have := flatten_mem_length he; omega) (hm p hp))
  refine ⟨elem_ne_nil _ _, ⟨f.afi, as⟩, ⟨rfl, hq⟩, ?_⟩
  intro rest
  unfold parseROAFamily
  rw [parseSeq_elem _ rest (by simp; omega)]
  simp only [Go.ok_bind]
  rw [parseOctets_elem _ _ (by omega)]
  simp only [Go.ok_bind]
  rw [← List.append_nil (elem 0x30 encs.flatten), parseSeq_elem _ [] (by omega)]
  simp only [Go.ok_bind, ha, Go.pure_def]

theorem unmarshalROA_der {asn : Nat} {fams : List RoaFamily} {out : Bytes} (h : RoaDer asn fams out)
    (hl : out.length < 2 ^ 31) (hasn : asn < 2 ^ 63)
    (hm : ∀ f ∈ fams, ∀ p ∈ f.prefixes, ∀ k, p.maxLength = some k → k < 2 ^ 63) (rest : Bytes) :
    ∃ gs, unmarshalROA (out ++ rest) = .ok ⟨asn, gs⟩ ∧ List.Forall₂ FamilyRead fams gs := by
  obtain ⟨i, encs, hi, h1, rfl⟩ := h
  have l1 := elem_length_gt 0x30 (elem 0x02 i ++ elem 0x30 encs.flatten)
  have l2 := elem_length_gt 0x02 i
  have l3 := elem_length_gt 0x30 encs.flatten
  simp only [List.length_append] at l1
  obtain ⟨gs, hg, hq⟩ := parseAll_forall₂ parseROAFamily RoaFamilyDer FamilyRead fams encs h1
    (fun f enc hf he hr => parseROAFamily_der hr (by have := flatten_mem_length he; omega) (hm f hf))
  refine ⟨gs, ?_, hq⟩
  obtain ⟨q1, q2⟩ := parseInt_elem (elem 0x30 encs.flatten) hi (content_le8 hi (by omega) (by omega))
  unfold unmarshalROA
  rw [parseSeq_elem _ rest (by simp; omega)]
  simp only [Go.ok_bind, q1, q2]
  rw [← List.append_nil (elem 0x30 encs.flatten), parseSeq_elem _ [] (by omega)]
  simp only [Go.ok_bind, hg, Go.pure_def]

/-- The entry stands for the prefix of an address family with addresses of `size` octets. -/
def IsEntry (size : Nat) (p : RoaPrefix) (e : Roa.ROAEntry) : Prop :=
  e.ipnet.ip.length = size ∧ e.ipnet.mask.length = size ∧ IsMask p.length e.ipnet.mask ∧
    beVal e.ipnet.ip = p.value * 2 ^ (8 * size - p.length) ∧
    e.maxLength = (match p.maxLength with | none => (p.length : Int) | some k => (k : Int))

theorem convertAddrs_read {fam : Bytes} {size : Nat} (hf : IsFamily fam size) {ps : List RoaPrefix}
    {as : List (Cert.BitString × Int)} (h : List.Forall₂ PrefixRead ps as)
    (hle : ∀ p ∈ ps, p.length ≤ 8 * size) :
    ∃ es, Roa.convertAddrs fam as = .ok es ∧ List.Forall₂ (IsEntry size) ps es := by
  induction h with
  | nil => exact ⟨[], rfl, .nil⟩
  | @cons p a ps as hp _ ih =>
    obtain ⟨es, h1, h2⟩ := ih (fun q hq => hle q (by simp [hq]))
    obtain ⟨b1, b2, b3, b4⟩ := hp
    have hs := isFamily_size hf
    have hlen := hle p (by simp)
    have hbl : a.1.bytes.length ≤ size := by have := b1.1; omega
    have hmask := isMask_maskBytes size a.1.bitLength (by omega)
    have hd : Cert.decodeIP fam a.1 = .ok ⟨Cert.copyInto size a.1.bytes, maskBytes size a.1.bitLength⟩ := by
      simp only [Cert.decodeIP, familySize_of_isFamily hf, cidrMask_of_le hs (show a.1.bitLength ≤ 8 * size by omega)]
    refine ⟨⟨⟨Cert.copyInto size a.1.bytes, maskBytes size a.1.bitLength⟩,
      if a.2 < 0 then (maskSize (maskBytes size a.1.bitLength) : Int) else a.2⟩ :: es, by simp only [Roa.convertAddrs, hd, h1, Go.ok_bind, Go.pure_def], .cons ?_ h2⟩
    refine ⟨copyInto_length _ _, maskBytes_length _ _, b2 ▸ hmask, ?_, ?_⟩
    · simp only
      rw [beVal_copyInto hbl, ← b2, ← b3]
      unfold bitsNum
      have e : 8 * size - a.1.bitLength = (8 * a.1.bytes.length - a.1.bitLength) + 8 * (size - a.1.bytes.length) := by
        have := b1.1; omega
      rw [e, Nat.pow_add, ← Nat.mul_assoc, Nat.div_mul_cancel b1.2]
    · simp only [b4]
      cases hp : p.maxLength with
      | none =>
        have := maskSize_of_isMask hmask
        rw [if_pos (by decide), this, b2]
      | some k => simp

/-- The entries of all families, in order. -/
def IsEntries (fams : List (RoaFamily × Nat)) (es : List Roa.ROAEntry) : Prop :=
  List.Forall₂ (fun (x : RoaPrefix × Nat) e => IsEntry x.2 x.1 e)
    (fams.flatMap fun f => f.1.prefixes.map fun p => (p, f.2)) es

theorem convertBlocks_read (fams : List (RoaFamily × Nat)) (gs : List Roa.ROAFamily)
    (h : List.Forall₂ FamilyRead (fams.map (·.1)) gs)
    (hf : ∀ f ∈ fams, IsFamily f.1.afi f.2 ∧ ∀ p ∈ f.1.prefixes, p.length ≤ 8 * f.2) :
    ∃ es, Roa.convertBlocks gs = .ok es ∧ IsEntries fams es := by
  induction fams generalizing gs with
  | nil => cases h; exact ⟨[], rfl, .nil⟩
  | cons f fams ih =>
    cases h with
    | @cons _ g _ gs hg hgs =>
      obtain ⟨es, h1, h2⟩ := ih gs hgs (fun x hx => hf x (by simp [hx]))
      obtain ⟨hfam, hle⟩ := hf f (by simp)
      obtain ⟨e1, h3, h4⟩ := convertAddrs_read hfam hg.2 hle
      refine ⟨e1 ++ es, ?_, ?_⟩
      · unfold Roa.convertBlocks
        rw [hg.1, h3, h1]
        simp
      · unfold IsEntries at h2 ⊢
        rw [List.flatMap_cons]
        refine List.rel_append ?_ h2
        exact List.forall₂_map_left_iff.mpr h4

/-! ### Manifests -/

/-- What is read for a file of a manifest. -/
def FileRead (f : MftEntry) (g : MftFile) : Prop :=
  g.name = f.name ∧ g.hash = ⟨f.hash, 8 * f.hash.length⟩

theorem parseMftFile_der {T : Type} (env : MftEnv T) {f : MftEntry} {out : Bytes} (h : MftEntryDer f out)
    (hl : out.length < 2 ^ 31) :
    out ≠ [] ∧ ∃ g, FileRead f g ∧ ∀ rest, parseMftFile env (out ++ rest) = .ok (g, rest) := by
  obtain ⟨hasc, rfl⟩ := h
  have l1 := elem_length_gt 0x30 (elem 0x16 f.name ++ elem 0x03 (0x00 :: f.hash))
  have l2 := elem_length_gt 0x16 f.name
  have l3 := elem_length_gt 0x03 (0x00 :: f.hash)
  simp only [List.length_append, List.length_cons] at l1 l3
  refine ⟨elem_ne_nil _ _, ⟨f.name, ⟨f.hash, 8 * f.hash.length⟩⟩, ⟨rfl, rfl⟩, ?_⟩
  intro rest
  unfold parseMftFile
  rw [parseSeq_elem _ rest (by simp; omega)]
  simp only [Go.ok_bind]
  have hs : parseString env (elem 0x16 f.name ++ elem 0x03 (0x00 :: f.hash)) =
      .ok (f.name, elem 0x03 (0x00 :: f.hash)) := by
    unfold parseString
    rw [if_neg (by simp [elem])]
    have := parseHeader_enc 0x16 f.name.length (f.name ++ elem 0x03 (0x00 :: f.hash)) (by decide) (by omega)
    have e : elem 0x16 f.name ++ elem 0x03 (0x00 :: f.hash) =
        0x16 :: derLength f.name.length ++ (f.name ++ elem 0x03 (0x00 :: f.hash)) := by simp [elem]
    rw [e, this, Go.ok_bind]
    have hall : f.name.all (· < 0x80) = true := by simpa using hasc
    simp only [UInt8.reduceToNat, Nat.reduceDiv, Nat.reduceMod, List.take_left, List.drop_left, stringValue, hall]
    simp
    decide
  rw [hs]
  simp only [Go.ok_bind]
  rw [← List.append_nil (elem 0x03 (0x00 :: f.hash)), parseBits_elem _ [] (by simp; omega)]
  simp only [Go.ok_bind]
  have hb : BitContent (8 * f.hash.length) (beVal f.hash) (0x00 :: f.hash) := by
    refine ⟨f.hash, by simp, by omega, by simp⟩
  have : bitStringOf (0x00 :: f.hash) = .ok ⟨f.hash, 8 * f.hash.length⟩ := by
    obtain ⟨b, hb1, -⟩ := bitStringOf_content hb
    simp only [bitStringOf] at hb1 ⊢
    split at hb1
    · simp at hb1
    · rename_i hn
      rw [if_neg hn]
      simp; omega
  rw [this]
  simp

theorem parseTimeField_elem {T : Type} (env : MftEnv T) (c rest : Bytes) (t : T) (hl : c.length < 2 ^ 31)
    (ht : env.time true c = .ok t) : parseTimeField env (elem 0x18 c ++ rest) = .ok (t, rest) := by
  unfold parseTimeField
  rw [if_neg (by simp [elem])]
  have := parseHeader_enc 0x18 c.length (c ++ rest) (by decide) hl
  have e : elem 0x18 c ++ rest = 0x18 :: derLength c.length ++ (c ++ rest) := by simp [elem]
  rw [e, this, Go.ok_bind]
  simp [ht]
  decide

theorem unmarshalMft_der {T : Type} (env : MftEnv T) {number : Nat} {t u alg : Bytes} {files : List MftEntry}
    {out : Bytes} (h : MftDer number t u alg files out) (hl : out.length < 2 ^ 31) (halg : OidOk alg)
    {tv uv : T} (ht : env.time true t = .ok tv) (hu : env.time true u = .ok uv) (rest : Bytes) :
    ∃ fs, unmarshalMft env (out ++ rest) = .ok ⟨number, tv, uv, alg, fs⟩ ∧ List.Forall₂ FileRead files fs := by
  obtain ⟨i, encs, hi, h1, rfl⟩ := h
  have l1 := elem_length_gt 0x30 (elem 0x02 i ++ elem 0x18 t ++ elem 0x18 u ++ elem 0x06 alg ++ elem 0x30 encs.flatten)
  have l2 := elem_length_gt 0x02 i
  have l3 := elem_length_gt 0x18 t
  have l4 := elem_length_gt 0x18 u
  have l5 := elem_length_gt 0x06 alg
  have l6 := elem_length_gt 0x30 encs.flatten
  simp only [List.length_append] at l1
  obtain ⟨fs, hg, hq⟩ := parseAll_forall₂ (parseMftFile env) MftEntryDer FileRead files encs h1
    (fun f enc hf he hr => parseMftFile_der env hr (by have := flatten_mem_length he; omega))
  refine ⟨fs, ?_, hq⟩
  unfold unmarshalMft
  rw [parseSeq_elem _ rest (by simp; omega)]
  simp only [Go.ok_bind, List.append_assoc]
  rw [parseBigInt_elem _ hi (by omega)]
  simp only [Go.ok_bind]
  rw [parseTimeField_elem env t _ tv (by omega) ht]
  simp only [Go.ok_bind]
  rw [parseTimeField_elem env u _ uv (by omega) hu]
  simp only [Go.ok_bind]
  rw [parseOID_elem alg _ halg (by omega)]
  simp only [Go.ok_bind]
  rw [← List.append_nil (elem 0x30 encs.flatten), parseSeq_elem _ [] (by omega)]
  simp only [Go.ok_bind, hg, Go.pure_def]

end Verif.Cms
