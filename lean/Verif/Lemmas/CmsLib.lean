import Verif.Lemmas.CmsSign
import Verif.Lemmas.ContentWrite
/-
  Objects made by `EncodeCMS` and `Sign`.
-/
set_option autoImplicit false

namespace Verif.Cms
open Der CmsSpec BerSpec

theorem marshalCMS_parts (c : CMS) :
    (marshalRaw c.signedData.encapContentInfo).length < (marshalCMS c).length ∧
    (marshalOptRaw c.signedData.certificates).length < (marshalCMS c).length ∧
    ∀ s ∈ c.signedData.signerInfos, (marshalSignerInfo s).length < (marshalCMS c).length := by
  have l0 := elem_length_gt 0x30 (elem 0x06 c.oid ++ elem 0xa0 (marshalSignedData c.signedData))
  have l1 := elem_length_gt 0xa0 (marshalSignedData c.signedData)
  have e0 : marshalCMS c = elem 0x30 (elem 0x06 c.oid ++ elem 0xa0 (marshalSignedData c.signedData)) := by
    simp [marshalCMS, tlv_elem]
  have l2 := elem_length_gt 0x30 (elem 0x02 c.signedData.version ++
    marshalSet (c.signedData.digestAlgorithms.map marshalRaw) ++ marshalRaw c.signedData.encapContentInfo ++
    marshalOptRaw c.signedData.certificates ++ marshalOptRaw c.signedData.crls ++
    marshalSet (c.signedData.signerInfos.map marshalSignerInfo))
  have e1 : marshalSignedData c.signedData = elem 0x30 (elem 0x02 c.signedData.version ++
    marshalSet (c.signedData.digestAlgorithms.map marshalRaw) ++ marshalRaw c.signedData.encapContentInfo ++
    marshalOptRaw c.signedData.certificates ++ marshalOptRaw c.signedData.crls ++
    marshalSet (c.signedData.signerInfos.map marshalSignerInfo)) := by
    simp [marshalSignedData, tlv_elem]
  rw [← e0] at l0
  rw [← e1] at l2
  simp only [List.length_append] at l0 l2
  refine ⟨by omega, by omega, ?_⟩
  intro s hs
  have hm : (marshalSignerInfo s).length ≤ (c.signedData.signerInfos.map marshalSignerInfo).flatten.length :=
    flatten_mem_length (List.mem_map_of_mem hs)
  have l3 := elem_length_gt 0x31 (sortSet (c.signedData.signerInfos.map marshalSignerInfo)).flatten
  rw [sortSet_length, ← tlv_elem] at l3
  change _ ≤ (marshalSet (c.signedData.signerInfos.map marshalSignerInfo)).length at l3
  omega

/-- What the decoders see of an object made by `EncodeCMS` and `Sign`. -/
structure LibRead (sha256 : Bytes → Bytes) (oid content timeDer cert : Bytes) (key : Tal.RSAKey) (c : CMS) : Prop where
  encap : c.signedData.encapContentInfo.full = elem 0x30 (elem 0x06 oid ++ elem 0xa0 (elem 0x04 content))
  certs : c.signedData.certificates.bytes = cert
  valid : c.validate sha256 content (.rsaPtr key) = .ok ()
  time : ∀ {T : Type} (parseTime : Bytes → Go T) (t : T), parseTime timeDer = .ok t →
    c.getSigningTime parseTime = .ok (some t)
  signer : ∃ s, c.signedData.signerInfos = [s] ∧
    s.signatureAlgorithm.full = elem 0x30 (elem 0x06 rsaOID ++ [0x05, 0x00])

theorem find_unique {α : Type} {p : α → Bool} {l : List α} {x : α} (hx : x ∈ l) (hp : p x = true)
    (hu : ∀ y ∈ l, p y = true → y = x) : l.find? p = some x := by
  induction l with
  | nil => simp at hx
  | cons y l ih =>
    by_cases hy : p y = true
    · rw [List.find?_cons_of_pos hy, hu y (by simp) hy]
    · rw [List.find?_cons_of_neg hy]
      have : x ∈ l := by
        rcases List.mem_cons.mp hx with rfl | h
        · exact absurd hp hy
        · exact h
      exact ih this (fun z hz => hu z (by simp [hz]))

theorem lib_read {sha256 : Bytes → Bytes} (hsha : ∀ b, (sha256 b).length = 32)
    {cert0 oid content ski cbody tbody : Bytes} {tid : UInt8} {priv : PrivKey} {c' : CMS}
    (htid : tid.toNat % 32 ≠ 31) (hcb : cbody.length < 2 ^ 31)
    (hrsa : RsaKeyPair priv.pub.n.toNat priv.pub.e.toNat priv.d)
    (h : (encodeCMS cert0 ⟨oid, wrapEContent content⟩ (elem tid tbody)).sign sha256 (some ski) content priv
      (elem 0x30 cbody) = .ok c')
    (hl : (marshalCMS c').length < 2 ^ 31) (rest : Bytes) :
    ∃ c, decodeCMS (marshalCMS c' ++ rest) = .ok c ∧
      LibRead sha256 oid content (elem tid tbody) (elem 0x30 cbody) priv.pub c := by
  obtain ⟨sig, certM, h1, h2, hc'⟩ := sign_eq rfl h
  have hcert : certM = rawFull (elem 0xa0 (elem 0x30 cbody)) := by
    unfold wrapCertificate at h2
    have := parseAny_elem 0x30 cbody [] (by decide) hcb
    rw [List.append_nil] at this
    rw [this] at h2
    simp [tlv_elem, node] at h2
    rw [← h2]; rfl
  have hw : WfCMS c' := by
    rw [hc', hcert]
    refine ⟨(by decide +kernel : OidOk signedDataOID), ?_⟩
    constructor
    · rfl
    · intro e he
      simp [encodeCMS, tlv_elem] at he
      subst he
      exact ⟨0x30, elem 0x06 sha256OID, by decide, rawFull_raw (elem_ne_nil _ _)⟩
    · refine ⟨0x30, elem 0x06 oid ++ wrapEContent content, by decide, ?_⟩
      simp only [encodeCMS, marshalEncap, tlv_elem]
      exact rawFull_raw (elem_ne_nil _ _)
    · right
      exact ⟨0xa0, elem 0x30 cbody, by decide, by decide, rawFull_raw (elem_ne_nil _ _)⟩
    · left; rfl
    · intro s hs
      simp only [List.mem_singleton] at hs
      subst hs
      constructor
      · rfl
      · exact ⟨0x80, ski, by decide, rawFull_raw (elem_ne_nil _ _)⟩
      · intro e he
        simp only [tlv_elem, List.mem_singleton] at he
        subst he
        exact ⟨0x06, sha256OID, by decide, rawFull_raw (elem_ne_nil _ _)⟩
      · intro a ha
        simp only [tlv_elem, digestAttribute, List.mem_append, List.mem_cons, List.not_mem_nil, or_false] at ha
        rcases ha with (rfl | rfl) | rfl
        · exact wfAttr_single (by decide +kernel) _ _ (by decide)
        · exact wfAttr_single (by decide +kernel) _ _ htid
        · exact wfAttr_single (by decide +kernel) _ _ (by decide)
      · refine ⟨elem 0x06 rsaOID ++ [0x05, 0x00], ?_⟩
        simp only [tlv_elem]
        exact rawFull_raw (elem_ne_nil _ _)
      · left; rfl
  have hval := sign_validate hsha hrsa rfl (by
    intro a ha
    simp only [List.mem_cons, List.not_mem_nil, or_false] at ha
    rcases ha with rfl | rfl
    · simp only; decide
    · simp only; decide) h hw hl
  obtain ⟨p1, p2, p3⟩ := marshalCMS_parts c'
  refine ⟨normCMS c', decodeCMS_marshal hw hl rest, ?_⟩
  have hencap : c'.signedData.encapContentInfo =
      rawFull (elem 0x30 (elem 0x06 oid ++ elem 0xa0 (elem 0x04 content))) := by
    rw [hc']; simp [encodeCMS, marshalEncap, wrapEContent, tlv_elem]
  have hcerts : c'.signedData.certificates = rawFull (elem 0xa0 (elem 0x30 cbody)) := by rw [hc', hcert]
  have hsig : ∃ s, c'.signedData.signerInfos = [s] ∧
      s.signatureAlgorithm = rawFull (elem 0x30 (elem 0x06 rsaOID ++ [0x05, 0x00])) ∧
      s.signedAttrs = [⟨contentTypeOID, [rawFull (elem 0x06 oid)]⟩, ⟨signingTimeOID, [rawFull (elem tid tbody)]⟩,
        ⟨messageDigestOID, [rawFull (elem 0x04 (sha256 content))]⟩] := by
    rw [hc']
    exact ⟨_, rfl, by simp [tlv_elem], by simp [tlv_elem, digestAttribute]⟩
  obtain ⟨s, hs1, hs2, hs3⟩ := hsig
  have hsn : (normCMS c').signedData.signerInfos = [normSigner s] := by
    simp [normCMS, normData, hs1, sortBy, insertBy]
  constructor
  · simp only [normCMS, normData]
    rw [reread_full hw.2.encap (by omega), hencap]
    exact rawFull_raw (elem_ne_nil _ _)
  · simp only [normCMS, normData, rereadOpt]
    have hne : c'.signedData.certificates ≠ .zero := by
      rw [hcerts]
      intro hz
      have := congrArg Elem.full hz
      exact elem_ne_nil _ _ this
    rw [if_neg hne]
    have hle : (elem 0x30 cbody).length < 2 ^ 31 := by
      have := elem_length_gt 0xa0 (elem 0x30 cbody)
      unfold marshalOptRaw at p2
      rw [if_neg hne, hcerts, rawFull_raw (elem_ne_nil _ _)] at p2
      omega
    rw [hcerts, reread_rawFull 0xa0 _ (by decide) hle]
    rfl
  · exact hval
  · intro T parseTime t ht
    unfold CMS.getSigningTime
    rw [hsn]
    simp only [idx_cons_zero, Go.ok_bind]
    have hp3 := p3 s (by rw [hs1]; simp)
    have htl : tbody.length < 2 ^ 31 := by
      have hm : (marshalAttr ⟨signingTimeOID, [rawFull (elem tid tbody)]⟩).length ≤
          (s.signedAttrs.map marshalAttr).flatten.length := by
        apply flatten_mem_length
        rw [hs3]
        exact List.mem_map_of_mem (by simp)
      have hme : marshalAttr ⟨signingTimeOID, [rawFull (elem tid tbody)]⟩ =
          elem 0x30 (elem 0x06 signingTimeOID ++ elem 0x31 (elem tid tbody)) := by
        rw [marshalAttr_elem]; simp [sortSet, insertSorted, rawFull]
      rw [hme] at hm
      have q1 := elem_length_gt 0x30 (elem 0x06 signingTimeOID ++ elem 0x31 (elem tid tbody))
      have q2 := elem_length_gt 0x31 (elem tid tbody)
      have q3 := elem_length_gt tid tbody
      simp only [List.length_append] at q1
      have q4 : (s.signedAttrs.map marshalAttr).flatten.length ≤ (marshalSignerInfo s).length := by
        have q5 : (s.signedAttrs.map marshalAttr).flatten.length + 2 ≤ (marshalSignedAttrs s.signedAttrs).length := by
          unfold marshalSignedAttrs
          rw [if_neg (by rw [hs3]; simp), tlv_elem, ← sortSet_length]
          exact elem_length_gt _ _
        have q6 : (marshalSignedAttrs s.signedAttrs).length ≤ (marshalSignerInfo s).length := by
          simp only [marshalSignerInfo, tlv_elem]
          refine Nat.le_trans ?_ (Nat.le_trans (Nat.le_add_right _ 2) (elem_length_gt _ _))
          simp only [List.length_append]
          omega
        omega
      omega
    have hstn := normAttr_single signingTimeOID tid tbody htid htl
    have hfind : (normSigner s).signedAttrs.find?
        (fun a => decide (a.attrType = signingTimeOID) && !a.attrValue.isEmpty) =
        some ⟨signingTimeOID, [node tid tbody]⟩ := by
      apply find_unique
      · apply mem_normAttrs.mpr
        exact ⟨⟨signingTimeOID, [rawFull (elem tid tbody)]⟩, by rw [hs3]; simp, hstn.symm⟩
      · simp
      · intro y hy hyp
        obtain ⟨b, hb, rfl⟩ := mem_normAttrs.mp hy
        rw [hs3] at hb
        simp only [List.mem_cons, List.not_mem_nil, or_false] at hb
        rcases hb with rfl | rfl | rfl
        · exfalso
          have hd : decide (contentTypeOID = signingTimeOID) = false := by decide
          simp only [normAttr, hd, Bool.false_and] at hyp
          exact Bool.false_ne_true hyp
        · exact hstn
        · exfalso
          have hd : decide (messageDigestOID = signingTimeOID) = false := by decide
          simp only [normAttr, hd, Bool.false_and] at hyp
          exact Bool.false_ne_true hyp
    rw [hfind]
    simp [node, ht]
  · refine ⟨normSigner s, hsn, ?_⟩
    simp only [normSigner]
    rw [hs2, reread_rawFull 0x30 _ (by decide) (by decide)]
    rfl

/-! ### Contents -/

theorem parseEContent_elem {oid content : Bytes} (hoid : OidOk oid)
    (hl : (elem 0x30 (elem 0x06 oid ++ elem 0xa0 (elem 0x04 content))).length < 2 ^ 31) :
    parseEContent (elem 0x30 (elem 0x06 oid ++ elem 0xa0 (elem 0x04 content))) = .ok (node 0xa0 (elem 0x04 content)) := by
  have l0 := elem_length_gt 0x30 (elem 0x06 oid ++ elem 0xa0 (elem 0x04 content))
  have l1 := elem_length_gt 0x06 oid
  have l2 := elem_length_gt 0xa0 (elem 0x04 content)
  simp only [List.length_append] at l0
  unfold parseEContent
  rw [← List.append_nil (elem 0x30 _), parseSeq_elem _ [] (by simp; omega)]
  simp only [Go.ok_bind]
  rw [parseOID_elem _ _ hoid (by omega)]
  simp only [Go.ok_bind]
  have : parseOptExplicitRaw 0 (elem 0xa0 (elem 0x04 content)) = .ok (node 0xa0 (elem 0x04 content), []) := by
    unfold parseOptExplicitRaw
    rw [if_neg (elem_ne_nil _ _)]
    have hp := parseHeader_elem 0xa0 (elem 0x04 content) [] (by decide) (by omega)
    rw [List.append_nil, List.append_nil] at hp
    rw [hp]
    simp only [Go.ok_bind]
    rw [if_neg (elem_ne_nil _ _), if_pos ⟨by decide, by decide, .inr (by decide)⟩, if_neg (by omega)]
    have e : (elem 0xa0 (elem 0x04 content)).length - (elem 0x04 content).length + (elem 0x04 content).length =
        (elem 0xa0 (elem 0x04 content)).length := by omega
    rw [e, List.take_length, List.take_length, List.drop_length]
    rfl
  rw [this]
  rfl

theorem parseAny_octets (content : Bytes) (hl : content.length < 2 ^ 31) :
    parseAny (elem 0x04 content) = .ok (node 0x04 content, []) := by
  have := parseAny_elem 0x04 content [] (by decide) hl
  rwa [List.append_nil] at this

/-- A content that is one SEQUENCE is taken as it is. -/
theorem badFormatGroup_seq (body : Bytes) (hl : body.length < 2 ^ 31) :
    badFormatGroup (elem 0x30 body) = .ok (elem 0x30 body, false) := by
  unfold badFormatGroup
  have := parseAny_elem 0x30 body [] (by decide) hl
  rw [List.append_nil] at this
  rw [this]
  simp only [Go.ok_bind]
  have ht : (node 0x30 body).tag = 16 := rfl
  rw [ht, if_neg (by decide)]
  rfl

theorem eContentToEncap_seq (body : Bytes) (hl : (wrapEContent (elem 0x30 body)).length < 2 ^ 31) :
    eContentToEncap (wrapEContent (elem 0x30 body)) = .ok (elem 0x30 body) := by
  unfold wrapEContent at hl ⊢
  rw [tlv_elem, tlv_elem] at hl ⊢
  have l0 := elem_length_gt 0xa0 (elem 0x04 (elem 0x30 body))
  have l1 := elem_length_gt 0x04 (elem 0x30 body)
  have l2 := elem_length_gt 0x30 body
  unfold eContentToEncap
  have := parseAny_elem 0xa0 (elem 0x04 (elem 0x30 body)) [] (by decide) (by omega)
  rw [List.append_nil] at this
  rw [this]
  simp only [Go.ok_bind]
  have hb : (node 0xa0 (elem 0x04 (elem 0x30 body))).bytes = elem 0x04 (elem 0x30 body) := rfl
  rw [hb, parseAny_octets _ (by omega)]
  simp only [Go.ok_bind]
  have hb2 : (node 0x04 (elem 0x30 body)).bytes = elem 0x30 body := rfl
  rw [hb2, badFormatGroup_seq _ (by omega)]
  rfl

theorem caught_ok {x : Go Unit} (h : x = .ok ()) : caught x = .ok true := by rw [h]; rfl

/-- `DecodeROA`, not strict, on an object made by this library. -/
theorem decodeROA_lib {T M : Type} (env : Env T M) {data content timeDer cert : Bytes} {key : Tal.RSAKey} {c : CMS}
    {oid body : Bytes} (hoid : OidOk oid) (hbody : content = elem 0x30 body)
    (hl : (elem 0x30 (elem 0x06 oid ++ elem 0xa0 (elem 0x04 content))).length < 2 ^ 31)
    (hd : decodeCMS data = .ok c) (hr : LibRead env.sha256 oid content timeDer cert key c)
    {roa : Roa.ROAContent} (hu : unmarshalROA content = .ok roa) {es : List Roa.ROAEntry} {asn : Int}
    (he : Roa.convertROAEntries roa = .ok (es, asn)) {t : T} (ht : env.parseTime timeDer = .ok t)
    {ee : EECert} (hee : env.decodeCert cert = .ok ee) (hk : ee.key = .rsaPtr key)
    {sp : Cert.Split Roa.ROAEntry} (hs : Roa.validateIPRoaCertificateList es ee.ips = .ok sp) :
    decodeROA env false data = .ok ⟨asn, es, false, some t, true, sp, ee⟩ := by
  have l0 := elem_length_gt 0x30 (elem 0x06 oid ++ elem 0xa0 (elem 0x04 content))
  have l2 := elem_length_gt 0xa0 (elem 0x04 content)
  have l3 := elem_length_gt 0x04 content
  have l4 := elem_length_gt 0x30 body
  rw [← hbody] at l4
  simp only [List.length_append] at l0
  unfold decodeROA
  rw [hd]
  simp only [Go.ok_bind, strictCheck]
  rw [if_neg (by decide)]
  simp only [Go.ok_bind]
  rw [hr.encap, parseEContent_elem hoid hl]
  have hb : (orZero (Go.ok (node 0xa0 (elem 0x04 content)))).bytes = elem 0x04 content := rfl
  rw [hb, parseAny_octets _ (by omega)]
  simp only [Go.ok_bind]
  have hb2 : (node 0x04 content).bytes = content := rfl
  have hbf : badFormatGroup content = .ok (content, false) := by
    rw [hbody]; exact badFormatGroup_seq _ (by omega)
  rw [hb2, hbf]
  simp only [Go.ok_bind]
  rw [hu]
  simp only [Go.ok_bind]
  rw [he]
  simp only [Go.ok_bind]
  rw [hr.time env.parseTime t ht]
  simp only [dropErr, Go.ok_bind]
  rw [hr.certs, hee]
  simp only [Go.ok_bind]
  rw [hk, caught_ok hr.valid]
  simp only [Go.ok_bind]
  rw [hs]
  rfl

/-- `DecodeManifest`, not strict, on an object made by this library. -/
theorem decodeManifest_lib {T M : Type} (env : Env T M) {data content timeDer cert : Bytes} {key : Tal.RSAKey} {c : CMS}
    {oid body : Bytes} (hoid : OidOk oid) (hbody : content = elem 0x30 body)
    (hl : (elem 0x30 (elem 0x06 oid ++ elem 0xa0 (elem 0x04 content))).length < 2 ^ 31)
    (hd : decodeCMS data = .ok c) (hr : LibRead env.sha256 oid content timeDer cert key c)
    (hder : Ber.BER2DER content = .ok content) {m : M} (hu : env.unmarshalManifest content = .ok m)
    {ee : EECert} (hee : env.decodeCert cert = .ok ee) (hk : ee.key = .rsaPtr key) :
    decodeManifest env false data = .ok ⟨m, false, true, ee⟩ := by
  have l0 := elem_length_gt 0x30 (elem 0x06 oid ++ elem 0xa0 (elem 0x04 content))
  have l2 := elem_length_gt 0xa0 (elem 0x04 content)
  have l3 := elem_length_gt 0x04 content
  have l4 := elem_length_gt 0x30 body
  rw [← hbody] at l4
  simp only [List.length_append] at l0
  unfold decodeManifest
  rw [hd]
  simp only [Go.ok_bind, strictCheck]
  rw [if_neg (by decide)]
  simp only [Go.ok_bind]
  rw [hr.encap, parseEContent_elem hoid hl]
  simp only [Go.ok_bind]
  have hb : (node 0xa0 (elem 0x04 content)).bytes = elem 0x04 content := rfl
  rw [hb, parseAny_octets _ (by omega)]
  simp only [Go.ok_bind]
  have hb2 : (node 0x04 content).bytes = content := rfl
  have hbf : badFormatGroup content = .ok (content, false) := by
    rw [hbody]; exact badFormatGroup_seq _ (by omega)
  rw [hb2, hbf]
  simp only [Go.ok_bind, ber2derOrNil]
  rw [hder]
  simp only [Go.ok_bind]
  rw [hu]
  simp only [Go.ok_bind]
  rw [hr.certs, hee]
  simp only [Go.ok_bind]
  rw [hk, caught_ok hr.valid]
  rfl

/-- `DecodeXML` on an object made by this library. -/
theorem decodeXML_lib {T M : Type} (env : Env T M) {data content timeDer cert : Bytes} {key : Tal.RSAKey} {c : CMS}
    {oid : Bytes} (hoid : OidOk oid)
    (hl : (elem 0x30 (elem 0x06 oid ++ elem 0xa0 (elem 0x04 content))).length < 2 ^ 31)
    (hd : decodeCMS data = .ok c) (hr : LibRead env.sha256 oid content timeDer cert key c)
    {ee : EECert} (hee : env.decodeCert cert = .ok ee) (hk : ee.key = .rsaPtr key) :
    decodeXML env data = .ok ⟨content, true, ee⟩ := by
  have l0 := elem_length_gt 0x30 (elem 0x06 oid ++ elem 0xa0 (elem 0x04 content))
  have l2 := elem_length_gt 0xa0 (elem 0x04 content)
  have l3 := elem_length_gt 0x04 content
  simp only [List.length_append] at l0
  unfold decodeXML
  rw [hd]
  simp only [Go.ok_bind]
  rw [hr.encap, parseEContent_elem hoid hl]
  simp only [Go.ok_bind]
  have hb : (node 0xa0 (elem 0x04 content)).bytes = elem 0x04 content := rfl
  rw [hb, parseAny_octets _ (by omega)]
  simp only [Go.ok_bind]
  have hb2 : (node 0x04 content).bytes = content := rfl
  rw [hb2, hr.certs, hee]
  simp only [Go.ok_bind]
  rw [hk, caught_ok hr.valid]
  rfl

/-- The encapsulated content is part of the object. -/
theorem lib_encap_length {cert0 oid content ski cert timeDer : Bytes} {sha256 : Bytes → Bytes} {priv : PrivKey}
    {c' : CMS} (h : (encodeCMS cert0 ⟨oid, wrapEContent content⟩ timeDer).sign sha256 (some ski) content priv
      cert = .ok c') :
    (elem 0x30 (elem 0x06 oid ++ elem 0xa0 (elem 0x04 content))).length < (marshalCMS c').length := by
  obtain ⟨sig, certM, h1, h2, hc'⟩ := sign_eq rfl h
  have := (marshalCMS_parts c').1
  have hencap : c'.signedData.encapContentInfo =
      rawFull (elem 0x30 (elem 0x06 oid ++ elem 0xa0 (elem 0x04 content))) := by
    rw [hc']; simp [encodeCMS, marshalEncap, wrapEContent, tlv_elem]
  rwa [hencap, rawFull_raw (elem_ne_nil _ _)] at this

end Verif.Cms
