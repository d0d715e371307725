import Verif.Lemmas.CmsRound
import Verif.Lemmas.Rsa
/-
  Signing an object, writing it and reading it again.
-/
set_option autoImplicit false

namespace Verif.Cms
open Der CmsSpec BerSpec

/-! ### RSA -/

theorem marshalSignatureDecoded_length {hash : Bytes} (h : hash.length = 32) :
    (marshalSignatureDecoded hash).length = 51 := by
  rw [marshalSignatureDecoded_eq hash h]; simp [sha256DigestInfo, h]

theorem keySize_le {n k : Nat} (hn : 0 < n) (hk : keySize n = k) : 256 ^ (k - 1) ≤ n := by
  unfold keySize at hk
  rw [if_neg (by omega)] at hk
  have h1 : 2 ^ n.log2 ≤ n := Nat.log2_self_le (by omega)
  have h2 : (256 : Nat) ^ (k - 1) = 2 ^ (8 * (k - 1)) := by rw [Nat.pow_mul]
  rw [h2]
  exact Nat.le_trans (Nat.pow_le_pow_right (by decide) (by omega)) h1

theorem beVal_fillBytes (k n : Nat) : beVal (fillBytes k n) = n := by
  unfold fillBytes
  simp only [natBytes_eq]
  have : ∀ j (l : Bytes), beVal (List.replicate j 0 ++ l) = beVal l := by
    intro j l
    induction j with
    | zero => rfl
    | succ j ih => rw [List.replicate_succ, List.cons_append, beVal_cons', ih]; simp
  rw [this, Ber.beVal_digits]

/-- The signature made by `EncryptSignatureRSA` is decrypted by `DecryptSignatureRSA`. -/
theorem decrypt_encrypt {hash sig : Bytes} {priv : PrivKey} (hl : hash.length = 32)
    (hrsa : RsaKeyPair priv.pub.n.toNat priv.pub.e.toNat priv.d) (h : encryptSignatureRSA hash priv = .ok sig) :
    decryptSignatureRSA sig priv.pub = .ok hash := by
  unfold encryptSignatureRSA signPKCS1v15 at h
  simp only [] at h
  split at h
  · simp at h
  · rename_i hk
    have hd := marshalSignatureDecoded_length hl
    rw [hd] at h hk
    generalize hkk : keySize priv.pub.n.toNat = k at h hk
    have hn : 0 < priv.pub.n.toNat := by
      rcases Nat.eq_zero_or_pos priv.pub.n.toNat with h0 | h0
      · rw [h0] at hkk; unfold keySize at hkk; simp at hkk; omega
      · exact h0
    obtain ⟨j, rfl⟩ : ∃ j, k = j + 62 := ⟨k - 62, by omega⟩
    have hrep : j + 62 - 51 - 3 = j + 6 + 2 := by omega
    rw [hrep] at h
    simp only [Go.ok.injEq] at h
    have hb : ([0x00, 0x01] ++ List.replicate (j + 6 + 2) 0xff ++ [0x00] ++ marshalSignatureDecoded hash : Bytes) =
        0x00 :: (0x01 :: List.replicate (j + 6 + 2) 0xff ++ [0x00] ++ sha256DigestInfo hash) := by
      rw [marshalSignatureDecoded_eq hash hl]; simp
    rw [hb, bytesVal_eq, beVal_cons'] at h
    have hlen : (0x01 :: List.replicate (j + 6 + 2) 0xff ++ [0x00] ++ sha256DigestInfo hash : Bytes).length = j + 61 := by
      simp [sha256DigestInfo, hl]
    have hlt : beVal (0x01 :: List.replicate (j + 6 + 2) 0xff ++ [0x00] ++ sha256DigestInfo hash : Bytes) <
        priv.pub.n.toNat := by
      refine Nat.lt_of_lt_of_le (Ber.beVal_lt _) ?_
      have hks := keySize_le hn hkk
      have e61 : j + 62 - 1 = j + 61 := by omega
      rw [e61] at hks
      rw [hlen]
      exact hks
    apply decrypt_block (n := j + 6) (trailing := []) hl
    unfold RsaBlock
    rw [← h, beVal_fillBytes]
    have hz : (0x00 : UInt8).toNat * 256 ^ (0x01 :: List.replicate (j + 6 + 2) 0xff ++ [0x00] ++
        sha256DigestInfo hash : Bytes).length + beVal (0x01 :: List.replicate (j + 6 + 2) 0xff ++ [0x00] ++
        sha256DigestInfo hash : Bytes) = beVal (0x01 :: List.replicate (j + 6 + 2) 0xff ++ [0x00] ++
        sha256DigestInfo hash : Bytes) := by simp
    rw [hz, rsa_inverse hrsa hlt, List.append_nil, List.cons_append, List.cons_append,
      digits_beVal_aux _ _ (by decide)]

/-- `EncryptSignatureRSA` works for keys of at least 62 octets. -/
theorem encrypt_ok {hash : Bytes} {priv : PrivKey} (hl : hash.length = 32) :
    (∃ sig, encryptSignatureRSA hash priv = .ok sig) ↔ 62 ≤ keySize priv.pub.n.toNat := by
  unfold encryptSignatureRSA signPKCS1v15
  simp only [marshalSignatureDecoded_length hl]
  split
  · simp; omega
  · constructor
    · intro _; omega
    · intro _; exact ⟨_, rfl⟩

/-! ### The digest attribute -/

theorem findDigest_unique {l : List Attribute} {acc d : Bytes}
    (h : ∀ a ∈ l, a.attrType ≠ messageDigestOID ∨ ∃ v, a.attrValue = [v] ∧ v.bytes = d)
    (hex : acc = d ∨ ∃ a ∈ l, a.attrType = messageDigestOID) : findDigest l acc = d := by
  induction l generalizing acc with
  | nil =>
    rcases hex with h' | ⟨a, ha, _⟩
    · exact h'
    · simp at ha
  | cons a l ih =>
    unfold findDigest
    have hrest := fun b hb => h b (List.mem_cons_of_mem a hb)
    by_cases ht : a.attrType = messageDigestOID
    · rw [if_pos ht]
      rcases h a (by simp) with h' | ⟨v, hv, hd⟩
      · exact absurd ht h'
      · rw [hv]
        exact ih hrest (.inl hd)
    · rw [if_neg ht]
      refine ih hrest ?_
      rcases hex with h' | ⟨b, hb, hbt⟩
      · exact .inl h'
      · rcases List.mem_cons.mp hb with rfl | hb
        · exact absurd hbt ht
        · exact .inr ⟨b, hb, hbt⟩

theorem mem_normAttrs {attrs : List Attribute} {a : Attribute} :
    a ∈ normAttrs attrs ↔ ∃ b ∈ attrs, a = normAttr b := by
  unfold normAttrs
  simp only [List.mem_map, (sortBy_perm marshalAttr attrs).mem_iff]
  constructor
  · rintro ⟨b, h1, h2⟩; exact ⟨b, h1, h2.symm⟩
  · rintro ⟨b, h1, h2⟩; exact ⟨b, h1, h2.symm⟩

theorem rawFull_raw {b : Bytes} (h : b ≠ []) : marshalRaw (rawFull b) = b := raw_full h

theorem reread_rawFull (id : UInt8) (body : Bytes) (hid : id.toNat % 32 ≠ 31) (h : body.length < 2 ^ 31) :
    reread (rawFull (elem id body)) = node id body :=
  reread_elem hid (rawFull_raw (elem_ne_nil _ _)) h

theorem normAttr_single (t : Bytes) (id : UInt8) (body : Bytes) (hid : id.toNat % 32 ≠ 31) (h : body.length < 2 ^ 31) :
    normAttr ⟨t, [rawFull (elem id body)]⟩ = ⟨t, [node id body]⟩ := by
  simp [normAttr, sortBy, insertBy, reread_rawFull id body hid h]

theorem wfAttr_single {t : Bytes} (ht : OidOk t) (id : UInt8) (body : Bytes) (hid : id.toNat % 32 ≠ 31) :
    WfAttr ⟨t, [rawFull (elem id body)]⟩ := by
  refine ⟨ht, ?_⟩
  intro v hv
  simp at hv
  subst hv
  exact ⟨elem_ne_nil _ _, id, body, hid, rawFull_raw (elem_ne_nil _ _)⟩

/-! ### Signing -/

theorem idx_single {α : Type} (x : α) : idx [x] 0 = .ok x := rfl

/-- What `Sign` leaves in an object with one signer. -/
theorem sign_eq {sha256 : Bytes → Bytes} {c c' : CMS} {si : SignerInfo} {ski content cert : Bytes} {priv : PrivKey}
    (hc : c.signedData.signerInfos = [si]) (h : c.sign sha256 (some ski) content priv cert = .ok c') :
    ∃ sig certM, encryptSignatureRSA
        (sha256 ((elem 0x30 (attrSet (si.signedAttrs ++ [digestAttribute sha256 content]))).drop 2)) priv = .ok sig ∧
      wrapCertificate cert = .ok certM ∧
      c' = ⟨c.oid, ⟨c.signedData.version, c.signedData.digestAlgorithms, c.signedData.encapContentInfo, certM,
        c.signedData.crls,
        [⟨si.version, rawFull (elem 0x80 ski), si.digestAlgorithms,
          si.signedAttrs ++ [digestAttribute sha256 content], si.signatureAlgorithm, sig, si.unsignedAttrs⟩]⟩⟩ := by
  unfold CMS.sign at h
  rw [hc] at h
  simp only [idx_cons_zero, Go.ok_bind, signedAttrsInput_eq] at h
  obtain ⟨sig, h1, h⟩ := Go.bind_eq_ok.mp h
  obtain ⟨certM, h2, h⟩ := Go.bind_eq_ok.mp h
  simp [tlv_elem] at h
  exact ⟨sig, certM, h1, h2, h.symm⟩

/-- A freshly signed object, written and read again, passes `Validate`. -/
theorem sign_validate {sha256 : Bytes → Bytes} (hsha : ∀ b, (sha256 b).length = 32) {c c' : CMS} {si : SignerInfo}
    {ski content cert : Bytes} {priv : PrivKey}
    (hrsa : RsaKeyPair priv.pub.n.toNat priv.pub.e.toNat priv.d)
    (hc : c.signedData.signerInfos = [si]) (hno : ∀ a ∈ si.signedAttrs, a.attrType ≠ messageDigestOID)
    (h : c.sign sha256 (some ski) content priv cert = .ok c') (hw : WfCMS c')
    (hl : (marshalCMS c').length < 2 ^ 31) :
    (normCMS c').validate sha256 content (.rsaPtr priv.pub) = .ok () := by
  obtain ⟨sig, certM, h1, h2, rfl⟩ := sign_eq hc h
  have hdec := decrypt_encrypt (hsha _) hrsa h1
  generalize hs : (⟨si.version, rawFull (elem 0x80 ski), si.digestAlgorithms,
          si.signedAttrs ++ [digestAttribute sha256 content], si.signatureAlgorithm, sig, si.unsignedAttrs⟩ :
          SignerInfo) = s at *
  have hsattrs : s.signedAttrs = si.signedAttrs ++ [digestAttribute sha256 content] := by rw [← hs]
  have hsize : (s.signedAttrs.map marshalAttr).flatten.length < 2 ^ 31 := by
    have hne : s.signedAttrs ≠ [] := by rw [hsattrs]; simp
    simp only [marshalCMS, tlv_elem] at hl
    have l0 := elem_length_gt 0x30 (elem 0x06 c.oid ++ elem 0xa0 (marshalSignedData ⟨c.signedData.version,
      c.signedData.digestAlgorithms, c.signedData.encapContentInfo, certM, c.signedData.crls, [s]⟩))
    have l1 := elem_length_gt 0xa0 (marshalSignedData ⟨c.signedData.version,
      c.signedData.digestAlgorithms, c.signedData.encapContentInfo, certM, c.signedData.crls, [s]⟩)
    simp only [List.length_append] at l0
    have l2 : (marshalSignerInfo s).length ≤ (marshalSignedData ⟨c.signedData.version,
      c.signedData.digestAlgorithms, c.signedData.encapContentInfo, certM, c.signedData.crls, [s]⟩).length := by
      simp only [marshalSignedData, tlv_elem, marshalSet]
      refine Nat.le_trans ?_ (Nat.le_of_lt (Nat.lt_of_lt_of_le (Nat.lt_succ_self _) (Nat.le_trans
        (Nat.le_succ _) (elem_length_gt _ _))))
      simp only [List.length_append]
      have := elem_length_gt 0x31 (sortSet (List.map marshalSignerInfo [s])).flatten
      simp [sortSet, insertSorted] at this ⊢
      omega
    have l3 : (marshalSignedAttrs s.signedAttrs).length ≤ (marshalSignerInfo s).length := by
      simp only [marshalSignerInfo, tlv_elem]
      refine Nat.le_trans ?_ (Nat.le_of_lt (Nat.lt_of_lt_of_le (Nat.lt_succ_self _) (Nat.le_trans
        (Nat.le_succ _) (elem_length_gt _ _))))
      simp only [List.length_append]
      omega
    have l4 : (sortSet (s.signedAttrs.map marshalAttr)).flatten.length + 2 ≤ (marshalSignedAttrs s.signedAttrs).length := by
      unfold marshalSignedAttrs
      rw [if_neg hne, tlv_elem]
      exact elem_length_gt _ _
    rw [sortSet_length] at l4
    omega
  have hwa : ∀ a ∈ s.signedAttrs, WfAttr a := (hw.2.signers s (by simp)).attrs
  have hsi : (normCMS ⟨c.oid, ⟨c.signedData.version, c.signedData.digestAlgorithms, c.signedData.encapContentInfo,
      certM, c.signedData.crls, [s]⟩⟩).signedData.signerInfos = [normSigner s] := by
    simp [normCMS, normData, sortBy, insertBy]
  rw [validate_iff sha256 _ (normSigner s) [] hsi]
  have hshas : (sha256 content).length < 2 ^ 31 := by rw [hsha]; omega
  have hdn : normAttr (digestAttribute sha256 content) = ⟨messageDigestOID, [node 0x04 (sha256 content)]⟩ := by
    unfold digestAttribute
    rw [tlv_elem]
    exact normAttr_single _ _ _ (by decide) hshas
  refine ⟨?_, priv.pub, rfl, ?_⟩
  · symm
    apply findDigest_unique
    · intro a ha
      obtain ⟨b, hb, rfl⟩ := mem_normAttrs.mp ha
      rw [hsattrs] at hb
      rcases List.mem_append.mp hb with hb | hb
      · exact .inl (hno b hb)
      · simp at hb
        subst hb
        right
        rw [hdn]
        exact ⟨_, rfl, rfl⟩
    · right
      refine ⟨normAttr (digestAttribute sha256 content), mem_normAttrs.mpr ⟨_, by rw [hsattrs]; simp, rfl⟩, ?_⟩
      rw [hdn]
  · have e1 : (normSigner s).signature = sig := by rw [← hs]; rfl
    have e2 : (normSigner s).signedAttrs = normAttrs s.signedAttrs := rfl
    rw [e1, e2, attrSet_norm hwa hsize, hsattrs]
    exact hdec

/-- `Validate` on the object in memory, before it is written and read again, fails: the value of the
    digest attribute was set without its contents octets. -/
theorem sign_validate_memory {sha256 : Bytes → Bytes} (hsha : ∀ b, (sha256 b).length = 32) {c c' : CMS}
    {si : SignerInfo} {ski content cert : Bytes} {priv : PrivKey}
    (hc : c.signedData.signerInfos = [si])
    (h : c.sign sha256 (some ski) content priv cert = .ok c') (key : Tal.PubKey) (content' : Bytes) :
    c'.validate sha256 content' key = .err "CMS digest and encapsulated digest are different" := by
  obtain ⟨sig, certM, h1, h2, rfl⟩ := sign_eq hc h
  unfold CMS.validate
  simp only [idx_cons_zero, Go.ok_bind]
  have hfd : ∀ (l : List Attribute) (acc : Bytes), findDigest (l ++ [digestAttribute sha256 content]) acc = [] := by
    intro l
    induction l with
    | nil => intro acc; simp [findDigest, digestAttribute, rawFull]
    | cons a l ih =>
      intro acc
      rw [List.cons_append]
      unfold findDigest
      split
      · split
        · exact ih _
        · exact ih _
      · exact ih _
  rw [hfd, if_pos]
  intro he
  have := hsha content'
  rw [he] at this
  simp at this

end Verif.Cms
