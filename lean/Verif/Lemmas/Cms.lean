import Verif.Model.Cms
import Verif.Spec.Cms
import Verif.Lemmas.Der
/- Lemmas about the CMS model. -/
set_option autoImplicit false

namespace Verif.Cms
open Der BerSpec CmsSpec

theorem tlv_elem (id : UInt8) (c : Bytes) : tlv id c = elem id c := tlv_eq id c

/-! ### Numbers and octets -/

theorem bytesVal_eq (b : Bytes) : bytesVal b = beVal b := rfl

theorem natBytesFuel_eq (f n : Nat) (h : n < 256 ^ f) : natBytesFuel f n = digits n := by
  induction f generalizing n with
  | zero =>
    have : n = 0 := by simpa using h
    subst this; unfold digits; simp [natBytesFuel]
  | succ f ih =>
    unfold natBytesFuel
    conv => rhs; unfold digits
    split
    · rfl
    · rw [ih (n / 256) ((Nat.div_lt_iff_lt_mul (by omega)).mpr (by rwa [Nat.pow_succ] at h))]

theorem natBytes_eq (n : Nat) : natBytes n = digits n := by
  apply natBytesFuel_eq
  have h1 : n < 2 ^ (n.log2 + 1) := Nat.lt_log2_self
  refine Nat.lt_of_lt_of_le h1 ?_
  rw [show (256 : Nat) = 2 ^ 8 from rfl, ← Nat.pow_mul]
  exact Nat.pow_le_pow_right (by omega) (by omega)

/-! ### The signature block -/

theorem findSeparator_some {l rest : Bytes} (h : findSeparator l = some rest) :
    ∃ p, l = p ++ [0xff, 0x00] ++ rest := by
  induction l with
  | nil => simp [findSeparator] at h
  | cons a l ih =>
    cases l with
    | nil => simp [findSeparator] at h
    | cons b l =>
      simp only [findSeparator] at h
      split at h
      · rename_i hc
        simp at h
        exact ⟨[], by simp [hc.1, hc.2, h]⟩
      · obtain ⟨p, e⟩ := ih h
        exact ⟨a :: p, by simp [e]⟩

theorem stripPadding_spec (out : Bytes) :
    ∃ pre, out = pre ++ stripPadding out ∧ (pre = [] ∨ ∃ p, pre = p ++ [0xff, 0x00]) := by
  unfold stripPadding
  split
  · rename_i rest h
    obtain ⟨p, e⟩ := findSeparator_some h
    refine ⟨out.take 2 ++ p ++ [0xff, 0x00], ?_, Or.inr ⟨out.take 2 ++ p, rfl⟩⟩
    conv => lhs; rw [← List.take_append_drop 2 out, e]
    simp
  · exact ⟨[], by simp, Or.inl rfl⟩

theorem findSeparator_ff (n : Nat) (rest : Bytes) :
    findSeparator (List.replicate (n + 1) 0xff ++ 0x00 :: rest) = some rest := by
  induction n with
  | zero => simp [findSeparator]
  | succ n ih =>
    rw [List.replicate_succ, List.cons_append]
    rw [List.replicate_succ, List.cons_append] at ih ⊢
    unfold findSeparator
    rw [if_neg (by simp)]
    exact ih

/-- A block 01 ff … ff 00 with at least two ff is stripped to what follows. -/
theorem stripPadding_block (n : Nat) (rest : Bytes) :
    stripPadding (0x01 :: List.replicate (n + 2) 0xff ++ 0x00 :: rest) = rest := by
  unfold stripPadding
  have : (0x01 :: List.replicate (n + 2) 0xff ++ 0x00 :: rest : Bytes).drop 2 =
      List.replicate (n + 1) 0xff ++ 0x00 :: rest := by
    rw [List.replicate_succ]; simp
  rw [this, findSeparator_ff]

theorem oidLoop_sha256 : oidLoop sha256OID.length sha256OID = .ok () := by decide +kernel

theorem parseOID_sha256 (rest : Bytes) : parseOID (tlv 0x06 sha256OID ++ rest) = .ok (sha256OID, rest) := by
  unfold parseOID
  rw [parseTyped_tlv 6 false 0x06 sha256OID rest (by decide) (by decide) (by decide)]
  simp only [Go.ok_bind]
  rw [if_neg (by decide), oidLoop_sha256]
  rfl

theorem parseAny_null (rest : Bytes) :
    parseAny ([0x05, 0x00] ++ rest) = .ok (⟨0, 5, false, [], [0x05, 0x00]⟩, rest) := by
  have := parseAny_tlv 0x05 [] rest (by decide) (by decide)
  have e : tlv 0x05 [] = [0x05, 0x00] := by decide +kernel
  rw [e] at this
  exact this

theorem elem_length (id : UInt8) (c : Bytes) : (elem id c).length = 1 + (derLength c.length).length + c.length := by
  simp [elem]; omega

theorem derLength_len_le {n : Nat} (h : n < 2 ^ 31) : (derLength n).length ≤ 5 := by
  have := Ber.derLength_length_le (n := n) (k := 4) (by omega) (by omega)
  omega

theorem parse_marshalSignatureDecoded (hash trailing : Bytes) (hl : hash.length < 2 ^ 30) :
    parseSignatureDecoded (marshalSignatureDecoded hash ++ trailing) = .ok hash := by
  unfold parseSignatureDecoded marshalSignatureDecoded
  have h1 : (tlv 0x04 hash).length ≤ hash.length + 6 := by
    rw [tlv_elem, elem_length]; have := derLength_len_le (n := hash.length) (by omega); omega
  have h2 : (tlv 0x30 (tlv 0x06 sha256OID ++ [0x05, 0x00])).length = 15 := by decide +kernel
  rw [parseTyped_tlv 16 true 0x30 _ trailing (by decide) (by decide) (by simp only [List.length_append]; omega)]
  simp only [Go.ok_bind, parseSignatureInner]
  rw [parseTyped_tlv 16 true 0x30 _ _ (by decide) (by decide) (by decide +kernel)]
  simp only [Go.ok_bind, parseOID_sha256]
  have := parseAny_null []
  simp only [List.append_nil] at this
  rw [this]
  simp only [Go.ok_bind, Go.pure_def, parseOctets]
  have h3 := parseTyped_tlv 4 false 0x04 hash [] (by decide) (by decide) (by omega)
  simp only [List.append_nil] at h3
  rw [h3]
  rfl

theorem marshalSignatureDecoded_eq (hash : Bytes) (hl : hash.length = 32) :
    marshalSignatureDecoded hash = sha256DigestInfo hash := by
  have e1 : tlv 0x30 (tlv 0x06 sha256OID ++ [0x05, 0x00]) =
      [0x30, 0x0d, 0x06, 0x09, 0x60, 0x86, 0x48, 0x01, 0x65, 0x03, 0x04, 0x02, 0x01, 0x05, 0x00] := by
    decide +kernel
  have e2 : tlv 0x04 hash = 0x04 :: 0x20 :: hash := by
    unfold tlv
    have : Ber.encodeLength hash.length = [0x20] := by rw [hl]; decide +kernel
    rw [this]; rfl
  unfold marshalSignatureDecoded
  rw [e1, e2]
  unfold tlv
  have e3 : ([0x30, 0x0d, 0x06, 0x09, 0x60, 0x86, 0x48, 0x01, 0x65, 0x03, 0x04, 0x02, 0x01, 0x05, 0x00] ++
      0x04 :: 0x20 :: hash : Bytes).length = 49 := by simp [hl]
  have : Ber.encodeLength 49 = [0x31] := by decide +kernel
  rw [e3, this]
  simp [sha256DigestInfo]

theorem parseSeq_ok {bs x rest : Bytes} (h : parseTyped 16 true bs = .ok (x, rest)) :
    bs = elem 0x30 x ++ rest := by
  have e := (parseTyped_ok (by decide) h).1
  rw [tlv_elem] at e
  have : ((if true = true then 32 else 0) + 16 : Nat).toUInt8 = 0x30 := by decide
  rwa [this] at e

theorem parseSet_ok {bs x rest : Bytes} (h : parseTyped 17 true bs = .ok (x, rest)) :
    bs = elem 0x31 x ++ rest := by
  have e := (parseTyped_ok (by decide) h).1
  rw [tlv_elem] at e
  have : ((if true = true then 32 else 0) + 17 : Nat).toUInt8 = 0x31 := by decide
  rwa [this] at e

theorem parseOctets_ok {bs x rest : Bytes} (h : parseOctets bs = .ok (x, rest)) :
    bs = elem 0x04 x ++ rest := by
  have e := (parseTyped_ok (by decide) h).1
  rw [tlv_elem] at e
  have : ((if false = true then 32 else 0) + 4 : Nat).toUInt8 = 0x04 := by decide
  rwa [this] at e

theorem parseOID_ok {bs x rest : Bytes} (h : parseOID bs = .ok (x, rest)) :
    bs = elem 0x06 x ++ rest := by
  unfold parseOID at h
  obtain ⟨r, hr, h⟩ := Go.bind_eq_ok.mp h
  split at h
  · simp at h
  · obtain ⟨u, _, h⟩ := Go.bind_eq_ok.mp h
    simp at h; subst h
    have e := (parseTyped_ok (by decide) hr).1
    rw [tlv_elem] at e
    have : ((if false = true then 32 else 0) + 6 : Nat).toUInt8 = 0x06 := by decide
    rwa [this] at e

theorem parseSignatureDecoded_ok {bs h : Bytes} (hp : parseSignatureDecoded bs = .ok h) :
    ∃ oid inner extra trailing,
      bs = elem 0x30 (elem 0x30 (elem 0x06 oid ++ inner) ++ elem 0x04 h ++ extra) ++ trailing := by
  unfold parseSignatureDecoded at hp
  obtain ⟨s, hs, hp⟩ := Go.bind_eq_ok.mp hp
  obtain ⟨i, hi, hp⟩ := Go.bind_eq_ok.mp hp
  obtain ⟨o, ho, hp⟩ := Go.bind_eq_ok.mp hp
  simp at hp; subst hp
  have e1 := parseSeq_ok (x := s.1) (rest := s.2) hs
  unfold parseSignatureInner at hi
  obtain ⟨t, ht, hi⟩ := Go.bind_eq_ok.mp hi
  obtain ⟨oid, hoid, hi⟩ := Go.bind_eq_ok.mp hi
  obtain ⟨a, _, hi⟩ := Go.bind_eq_ok.mp hi
  simp at hi; subst hi
  have e2 := parseSeq_ok (x := t.1) (rest := t.2) ht
  have e3 := parseOID_ok (x := oid.1) (rest := oid.2) hoid
  have e4 : t.2 = _ := parseOctets_ok (x := o.1) (rest := o.2) ho
  refine ⟨oid.1, oid.2, o.2, s.2, ?_⟩
  rw [e1, e2, e3, e4]
  simp only [List.append_assoc]

theorem decrypt_lenient {sig h : Bytes} {k : Tal.RSAKey} (hd : decryptSignatureRSA sig k = .ok h) :
    ∃ block, RsaBlock k.n.toNat k.e.toNat sig block ∧ LenientBlock block h := by
  refine ⟨_, rfl, ?_⟩
  unfold decryptSignatureRSA rsaPublicDecrypt at hd
  rw [natBytes_eq, bytesVal_eq] at hd
  obtain ⟨pre, e, hpre⟩ := stripPadding_spec (digits (beVal sig ^ k.e.toNat % k.n.toNat))
  obtain ⟨oid, inner, extra, trailing, e2⟩ := parseSignatureDecoded_ok hd
  refine ⟨pre, oid, inner, extra, trailing, ?_, hpre⟩
  conv => lhs; rw [e, e2]
  simp

/-- A block 01 ff ff … 00 DigestInfo, followed by anything, is accepted. -/
theorem decrypt_block {sig hash trailing : Bytes} {k : Tal.RSAKey} {n : Nat} (hl : hash.length = 32)
    (hb : RsaBlock k.n.toNat k.e.toNat sig
      (0x01 :: List.replicate (n + 2) 0xff ++ [0x00] ++ sha256DigestInfo hash ++ trailing)) :
    decryptSignatureRSA sig k = .ok hash := by
  unfold decryptSignatureRSA rsaPublicDecrypt
  rw [natBytes_eq, bytesVal_eq, ← hb]
  have : (0x01 :: List.replicate (n + 2) 0xff ++ [0x00] ++ sha256DigestInfo hash ++ trailing : Bytes) =
      0x01 :: List.replicate (n + 2) 0xff ++ 0x00 :: (sha256DigestInfo hash ++ trailing) := by simp
  rw [this, stripPadding_block, ← marshalSignatureDecoded_eq hash hl]
  exact parse_marshalSignatureDecoded hash trailing (by omega)

/-! ### Digest attribute -/

/-- The specification's view of an attribute. -/
def Attribute.view (a : Attribute) : Attr := ⟨a.attrType, a.attrValue.map (fun v => (v.full, v.bytes))⟩

theorem isDigest_view (a : Attribute) (d : Bytes) :
    IsDigestAttr a.view d ↔ a.attrType = messageDigestOID ∧ ∃ v, a.attrValue = [v] ∧ v.bytes = d := by
  unfold IsDigestAttr Attribute.view
  constructor
  · rintro ⟨h1, full, h2⟩
    refine ⟨h1, ?_⟩
    cases hv : a.attrValue with
    | nil => simp [hv] at h2
    | cons v l =>
      simp only [hv, List.map_cons, List.cons.injEq, List.map_eq_nil_iff, Prod.mk.injEq] at h2
      exact ⟨v, by simp [h2.2], h2.1.2⟩
  · rintro ⟨h1, v, h2, h3⟩
    exact ⟨h1, v.full, by simp [h2, h3]⟩

theorem findDigest_cases (attrs : List Attribute) (acc : Bytes) :
    (CarriesDigest (attrs.map Attribute.view) (findDigest attrs acc)) ∨
    (findDigest attrs acc = acc ∧ ∀ b ∈ attrs.map Attribute.view, ∀ d, ¬ IsDigestAttr b d) := by
  induction attrs generalizing acc with
  | nil => right; simp [findDigest]
  | cons a rest ih =>
    have key : ∀ acc', (¬ (∃ v, a.attrType = messageDigestOID ∧ a.attrValue = [v])) →
        (CarriesDigest ((a :: rest).map Attribute.view) (findDigest rest acc')) ∨
        (findDigest rest acc' = acc' ∧ ∀ b ∈ (a :: rest).map Attribute.view, ∀ d, ¬ IsDigestAttr b d) := by
      intro acc' hn
      rcases ih acc' with ⟨before, x, after, e1, e2, e3⟩ | ⟨e1, e2⟩
      · exact Or.inl ⟨a.view :: before, x, after, by simp [e1], e2, e3⟩
      · refine Or.inr ⟨e1, ?_⟩
        intro b hb d
        simp only [List.map_cons, List.mem_cons] at hb
        rcases hb with rfl | hb
        · rw [isDigest_view]
          rintro ⟨h1, v, h2, -⟩
          exact hn ⟨v, h1, h2⟩
        · exact e2 b hb d
    unfold findDigest
    split
    · rename_i ht
      split
      · rename_i v hv
        left
        rcases ih v.bytes with ⟨before, x, after, e1, e2, e3⟩ | ⟨e1, e2⟩
        · exact ⟨a.view :: before, x, after, by simp [e1], e2, e3⟩
        · rw [e1]
          exact ⟨[], a.view, rest.map Attribute.view, by simp, (isDigest_view a _).mpr ⟨ht, v, hv, rfl⟩, e2⟩
      · rename_i hv
        apply key
        rintro ⟨v, -, h⟩
        exact hv v h
    · rename_i ht
      apply key
      rintro ⟨v, h, -⟩
      exact ht h

theorem carries_unique {attrs : List Attr} {d e : Bytes} (h : CarriesDigest attrs d) (h' : CarriesDigest attrs e) :
    d = e := by
  obtain ⟨b1, a1, c1, e1, d1, n1⟩ := h
  obtain ⟨b2, a2, c2, e2, d2, n2⟩ := h'
  rw [e1] at e2
  rcases List.append_eq_append_iff.mp e2 with ⟨t, h1, h2⟩ | ⟨t, h1, h2⟩
  · cases t with
    | nil =>
      simp at h2
      obtain ⟨rfl, -⟩ := h2
      obtain ⟨-, f, hf⟩ := d1
      obtain ⟨-, g, hg⟩ := d2
      rw [hf] at hg; simp at hg; exact hg.2
    | cons x t =>
      simp only [List.cons_append, List.cons.injEq] at h2
      exact absurd d2 (n1 a2 (by rw [h2.2]; simp) e)
  · cases t with
    | nil =>
      simp at h2
      obtain ⟨rfl, -⟩ := h2
      obtain ⟨-, f, hf⟩ := d1
      obtain ⟨-, g, hg⟩ := d2
      rw [hf] at hg; simp at hg; exact hg.2
    | cons x t =>
      simp only [List.cons_append, List.cons.injEq] at h2
      exact absurd d1 (n2 a1 (by rw [h2.2]; simp) d)

/-- For a digest that is not empty, the loop finds it exactly when the attributes carry it. -/
theorem findDigest_iff {attrs : List Attribute} {d : Bytes} (hd : d ≠ []) :
    d = findDigest attrs [] ↔ CarriesDigest (attrs.map Attribute.view) d := by
  rcases findDigest_cases attrs [] with h | ⟨h, hn⟩
  · constructor
    · intro e; rw [e]; exact h
    · intro h'; exact carries_unique h' h
  · constructor
    · intro e; rw [h] at e; exact absurd e hd
    · rintro ⟨b, a, c, e, h1, -⟩
      exact absurd h1 (hn a (by rw [e]; simp) d)

/-! ### Signed attributes -/

theorem marshalSet_der (members : List Bytes) : DerSetOf members (marshalSet members) :=
  ⟨sortSet members, sortSet_perm members, sortSet_sorted members, tlv_elem _ _⟩

theorem derSetOf_unique {members out : List Bytes} {x : Bytes} (hp : members.Perm out)
    (h : DerSetOf members x) : x = marshalSet out := by
  obtain ⟨s, h1, h2, rfl⟩ := h
  unfold marshalSet
  rw [tlv_elem]
  rw [sorted_perm_eq s (sortSet out) ((h1.trans hp).trans (sortSet_perm out).symm) h2 (sortSet_sorted out)]

theorem marshalAttr_der (a : Attribute) : AttrDer a.view (marshalAttr a) := by
  refine ⟨marshalSet (a.attrValue.map (·.full)), ?_, ?_⟩
  · have : a.view.values.map (·.1) = a.attrValue.map (·.full) := by
      simp [Attribute.view]
    rw [this]; exact marshalSet_der _
  · unfold marshalAttr; rw [tlv_elem, tlv_elem]; rfl

theorem attrDer_unique {a : Attribute} {x : Bytes} (h : AttrDer a.view x) : x = marshalAttr a := by
  obtain ⟨s, h1, rfl⟩ := h
  have : a.view.values.map (·.1) = a.attrValue.map (·.full) := by
    simp [Attribute.view]
  rw [this] at h1
  rw [derSetOf_unique (.refl _) h1]
  unfold marshalAttr; rw [tlv_elem, tlv_elem]; rfl

/-- The encoded SET of the signed attributes. -/
def attrSet (attrs : List Attribute) : Bytes := marshalSet (attrs.map marshalAttr)

theorem attrSet_der (attrs : List Attribute) : SignedAttrsDer (attrs.map Attribute.view) (attrSet attrs) := by
  refine ⟨attrs.map marshalAttr, ?_, marshalSet_der _⟩
  induction attrs with
  | nil => exact .nil
  | cons a l ih => exact .cons (marshalAttr_der a) ih

theorem attrSet_unique {attrs : List Attribute} {x : Bytes} (h : SignedAttrsDer (attrs.map Attribute.view) x) :
    x = attrSet attrs := by
  obtain ⟨encs, h1, h2⟩ := h
  have : encs = attrs.map marshalAttr := by
    clear h2
    induction attrs generalizing encs with
    | nil => cases h1; rfl
    | cons a l ih =>
      cases h1 with
      | cons ha hl => simp [attrDer_unique ha, ih _ hl]
  rw [this] at h2
  exact derSetOf_unique (.refl _) h2

theorem signedAttrsInput_eq (attrs : List Attribute) :
    signedAttrsInput attrs = .ok ((elem 0x30 (attrSet attrs)).drop 2) := by
  have e : marshalSAD attrs = elem 0x30 (attrSet attrs) := tlv_elem _ _
  have hl : 2 ≤ (marshalSAD attrs).length := tlv_length_pos _ _
  unfold signedAttrsInput
  simp only []
  rw [if_neg (by omega), slice, if_pos ⟨hl, Nat.le_refl _⟩, e]
  congr 1
  apply List.take_of_length_le
  simp

theorem validate_iff (sha256 : Bytes → Bytes) (c : CMS) (si : SignerInfo) (more : List SignerInfo)
    (hsi : c.signedData.signerInfos = si :: more) (encap : Bytes) (key : Tal.PubKey) :
    c.validate sha256 encap key = .ok () ↔
      sha256 encap = findDigest si.signedAttrs [] ∧ ∃ k, key = .rsaPtr k ∧
        decryptSignatureRSA si.signature k = .ok (sha256 ((elem 0x30 (attrSet si.signedAttrs)).drop 2)) := by
  unfold CMS.validate
  rw [hsi]
  simp only [idx_cons_zero, Go.ok_bind, signedAttrsInput_eq]
  by_cases h1 : sha256 encap = findDigest si.signedAttrs []
  · rw [if_neg (by simpa using h1)]
    simp only [h1, true_and]
    unfold checkSignature
    cases key with
    | rsaPtr k =>
      simp only [Tal.PubKey.rsaPtr.injEq]
      constructor
      · intro h
        obtain ⟨x, hx, h⟩ := Go.bind_eq_ok.mp h
        split at h
        · rename_i he
          exact ⟨k, rfl, by rw [hx, he]⟩
        · simp at h
      · rintro ⟨k', rfl, h⟩
        rw [h]
        simp
    | rsaVal k => simp
    | raw b => simp
    | other => simp
  · rw [if_pos (by simpa using h1)]
    simp [h1]

/-! ### Chunks -/

theorem octetLoop_chunks (chunks : List Bytes) (last : Bytes) (n : Nat) (hn : chunks.length < n)
    (h : ∀ x ∈ chunks ++ [last], x.length < 2 ^ 31) :
    octetLoop n ((chunks.map (elem 0x04)).flatten ++ elem 0x04 last) =
      .ok ((chunks ++ [last]).flatten, chunks.length + 1) := by
  induction chunks generalizing n with
  | nil =>
    cases n with
    | zero => simp at hn
    | succ n =>
      have h3 := parseTyped_tlv 4 false 0x04 last [] (by decide) (by decide) (h last (by simp))
      rw [tlv_elem, List.append_nil] at h3
      unfold octetLoop parseOctets
      simp only [List.map_nil, List.flatten_nil, List.nil_append, h3, Go.ok_bind]
      simp
  | cons x l ih =>
    cases n with
    | zero => simp at hn
    | succ n =>
      have h3 := parseTyped_tlv 4 false 0x04 x ((l.map (elem 0x04)).flatten ++ elem 0x04 last) (by decide) (by decide)
        (h x (by simp))
      rw [tlv_elem] at h3
      unfold octetLoop parseOctets
      simp only [List.map_cons, List.flatten_cons, List.append_assoc, h3, Go.ok_bind]
      rw [if_neg (by simp [elem]), ih n (by simp at hn; omega) (fun y hy => h y (by simp only [List.cons_append, List.mem_cons]; exact Or.inr hy))]
      simp

end Verif.Cms
