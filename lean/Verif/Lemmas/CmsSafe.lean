import Verif.Lemmas.Cms
/- Which decoders return for every input. -/
set_option autoImplicit false

namespace Verif.Cms
open Der BerSpec CmsSpec

theorem safe_parseAttribute (bs : Bytes) : Safe (parseAttribute bs) := by
  unfold parseAttribute
  exact (safe_parseTyped _ _ _).bind fun _ _ => (safe_parseOID _).bind fun _ _ =>
    (safe_parseTyped _ _ _).bind fun _ _ =>
    (safe_parseAll _ safe_parseAny consumes_parseAny _).bind fun _ _ => .ok _

theorem consumes_of_typed {α : Type} {t : Nat} {c : Bool} {f : Bytes → Go α} :
    Consumes (fun bs => do
      let s ← parseTyped t c bs
      let a ← f s.1
      return (a, s.2)) := by
  intro bs r h
  obtain ⟨s, hs, h⟩ := Go.bind_eq_ok.mp h
  obtain ⟨a, _, h⟩ := Go.bind_eq_ok.mp h
  simp at h; subst h
  have := parseTyped_rest (x := s.1) (rest := s.2) hs
  simp; omega

theorem consumes_parseAttribute : Consumes parseAttribute := by
  intro bs r h
  unfold parseAttribute at h
  obtain ⟨s, hs, h⟩ := Go.bind_eq_ok.mp h
  obtain ⟨_, _, h⟩ := Go.bind_eq_ok.mp h
  obtain ⟨_, _, h⟩ := Go.bind_eq_ok.mp h
  obtain ⟨_, _, h⟩ := Go.bind_eq_ok.mp h
  simp at h; subst h
  have := parseTyped_rest (x := s.1) (rest := s.2) hs
  simp; omega

theorem safe_parseSignedAttrs (bs : Bytes) : Safe (parseSignedAttrs bs) := by
  unfold parseSignedAttrs
  refine (safe_parseOptTyped _ _).bind fun r _ => ?_
  split
  · exact .ok _
  · exact (safe_parseAll _ safe_parseAttribute consumes_parseAttribute _).bind fun _ _ => .ok _

theorem safe_parseSignerInfo (bs : Bytes) : Safe (parseSignerInfo bs) := by
  unfold parseSignerInfo
  exact (safe_parseTyped _ _ _).bind fun _ _ => (safe_parseInt _).bind fun _ _ =>
    (safe_parseAny _).bind fun _ _ => (safe_parseTyped _ _ _).bind fun _ _ =>
    (safe_parseAll _ safe_parseAny consumes_parseAny _).bind fun _ _ =>
    (safe_parseSignedAttrs _).bind fun _ _ => (safe_parseAny _).bind fun _ _ =>
    (safe_parseOctets _).bind fun _ _ => (safe_parseOptRaw _ _).bind fun _ _ => .ok _

theorem consumes_parseSignerInfo : Consumes parseSignerInfo := by
  intro bs r h
  unfold parseSignerInfo at h
  obtain ⟨s, hs, h⟩ := Go.bind_eq_ok.mp h
  obtain ⟨_, _, h⟩ := Go.bind_eq_ok.mp h
  obtain ⟨_, _, h⟩ := Go.bind_eq_ok.mp h
  obtain ⟨_, _, h⟩ := Go.bind_eq_ok.mp h
  obtain ⟨_, _, h⟩ := Go.bind_eq_ok.mp h
  obtain ⟨_, _, h⟩ := Go.bind_eq_ok.mp h
  obtain ⟨_, _, h⟩ := Go.bind_eq_ok.mp h
  obtain ⟨_, _, h⟩ := Go.bind_eq_ok.mp h
  obtain ⟨_, _, h⟩ := Go.bind_eq_ok.mp h
  simp at h; subst h
  have := parseTyped_rest (x := s.1) (rest := s.2) hs
  simp; omega

theorem safe_parseSignedData (bs : Bytes) : Safe (parseSignedData bs) := by
  unfold parseSignedData
  exact (safe_parseInt _).bind fun _ _ => (safe_parseTyped _ _ _).bind fun _ _ =>
    (safe_parseAll _ safe_parseAny consumes_parseAny _).bind fun _ _ =>
    (safe_parseAny _).bind fun _ _ => (safe_parseOptRaw _ _).bind fun _ _ =>
    (safe_parseOptRaw _ _).bind fun _ _ => (safe_parseTyped _ _ _).bind fun _ _ =>
    (safe_parseAll _ safe_parseSignerInfo consumes_parseSignerInfo _).bind fun _ _ => .ok _

theorem safe_decodeCMS (data : Bytes) : Safe (decodeCMS data) := by
  unfold decodeCMS parseExplicitSignedData
  refine (safe_parseTyped _ _ _).bind fun _ _ => (safe_parseOID _).bind fun _ _ => Safe.bind ?_ fun _ _ => .ok _
  refine .ite (.err _) ((safe_parseExplicit _ _).bind fun r _ => ?_)
  split
  · exact .err _
  · exact (safe_parseTyped _ _ _).bind fun _ _ => safe_parseSignedData _

theorem safe_skipVersion (bs : Bytes) : Safe (skipVersion bs) := by
  unfold skipVersion
  refine .ite (.ok _) ((safe_parseExplicit _ _).bind fun r _ => ?_)
  split
  · exact .ok _
  · exact (safe_parseInt _).bind fun _ _ => .ok _

theorem safe_certSignatureAlgorithm (bs : Bytes) : Safe (certSignatureAlgorithm bs) := by
  unfold certSignatureAlgorithm
  exact (safe_parseTyped _ _ _).bind fun _ _ => (safe_parseTyped _ _ _).bind fun _ _ =>
    (safe_skipVersion _).bind fun _ _ => (safe_parseAny _).bind fun _ _ =>
    (safe_parseAny _).bind fun _ _ => (safe_parseAny _).bind fun _ _ => .ok _

theorem safe_parseSequenceOfAny (bs : Bytes) : Safe (parseSequenceOfAny bs) := by
  unfold parseSequenceOfAny
  exact (safe_parseTyped _ _ _).bind fun _ _ => safe_parseAll _ safe_parseAny consumes_parseAny _

theorem safe_checkSignaturesMatch (c : CMS) : Safe c.checkSignaturesMatch := by
  unfold CMS.checkSignaturesMatch
  refine (safe_certSignatureAlgorithm _).bind fun alg _ => ?_
  split
  · exact .ok _
  · refine (safe_parseSequenceOfAny _).bind fun l _ => ?_
    split
    · exact .ok _
    · exact .ite (.ok _) ((safe_parseSequenceOfAny _).bind fun _ _ => .ok _)

theorem checkSignaturesMatch_signer {c : CMS} (h : c.checkSignaturesMatch = .ok true) :
    c.signedData.signerInfos ≠ [] := by
  intro he
  unfold CMS.checkSignaturesMatch at h
  rw [he] at h
  obtain ⟨_, _, h⟩ := Go.bind_eq_ok.mp h
  simp at h

theorem safe_octetLoop (n : Nat) (bs : Bytes) (h : bs.length < n) : Safe (octetLoop n bs) := by
  induction n generalizing bs with
  | zero => omega
  | succ n ih =>
    unfold octetLoop
    refine (safe_parseOctets _).bind fun r hr => .ite (.ok _) ((ih _ ?_).bind fun _ _ => .ok _)
    have := parseTyped_rest (x := r.1) (rest := r.2) hr
    omega

theorem safe_badFormatGroup (bs : Bytes) : Safe (badFormatGroup bs) := by
  unfold badFormatGroup
  exact (safe_parseAny _).bind fun _ _ => .ite
    ((safe_octetLoop _ _ (by omega)).bind fun _ _ => .ok _) (.ok _)

theorem safe_bitStringOf (bs : Bytes) : Safe (bitStringOf bs) := by
  unfold bitStringOf
  split
  · exact .err _
  · exact .ite (.err _) (.ok _)

theorem safe_parseMaxLength (bs : Bytes) : Safe (parseMaxLength bs) := by
  unfold parseMaxLength
  exact .ite (.ok _) ((safe_parseHeader _).bind fun _ _ => .ite (.ok _) ((safe_parseInt _).bind fun _ _ => .ok _))

theorem safe_parseROAAddress (bs : Bytes) : Safe (parseROAAddress bs) := by
  unfold parseROAAddress
  exact (safe_parseTyped _ _ _).bind fun _ _ => (safe_parseTyped _ _ _).bind fun _ _ =>
    (safe_bitStringOf _).bind fun _ _ => (safe_parseMaxLength _).bind fun _ _ => .ok _

theorem consumes_parseROAAddress : Consumes parseROAAddress := by
  intro bs r h
  unfold parseROAAddress at h
  obtain ⟨s, hs, h⟩ := Go.bind_eq_ok.mp h
  obtain ⟨_, _, h⟩ := Go.bind_eq_ok.mp h
  obtain ⟨_, _, h⟩ := Go.bind_eq_ok.mp h
  obtain ⟨_, _, h⟩ := Go.bind_eq_ok.mp h
  simp at h; subst h
  have := parseTyped_rest (x := s.1) (rest := s.2) hs
  simp; omega

theorem safe_parseROAFamily (bs : Bytes) : Safe (parseROAFamily bs) := by
  unfold parseROAFamily
  exact (safe_parseTyped _ _ _).bind fun _ _ => (safe_parseOctets _).bind fun _ _ =>
    (safe_parseTyped _ _ _).bind fun _ _ =>
    (safe_parseAll _ safe_parseROAAddress consumes_parseROAAddress _).bind fun _ _ => .ok _

theorem consumes_parseROAFamily : Consumes parseROAFamily := by
  intro bs r h
  unfold parseROAFamily at h
  obtain ⟨s, hs, h⟩ := Go.bind_eq_ok.mp h
  obtain ⟨_, _, h⟩ := Go.bind_eq_ok.mp h
  obtain ⟨_, _, h⟩ := Go.bind_eq_ok.mp h
  obtain ⟨_, _, h⟩ := Go.bind_eq_ok.mp h
  simp at h; subst h
  have := parseTyped_rest (x := s.1) (rest := s.2) hs
  simp; omega

theorem safe_unmarshalROA (bs : Bytes) : Safe (unmarshalROA bs) := by
  unfold unmarshalROA
  exact (safe_parseTyped _ _ _).bind fun _ _ => (safe_parseInt _).bind fun _ _ =>
    (safe_parseTyped _ _ _).bind fun _ _ =>
    (safe_parseAll _ safe_parseROAFamily consumes_parseROAFamily _).bind fun _ _ => .ok _

theorem safe_parseEContent (bs : Bytes) : Safe (parseEContent bs) := by
  unfold parseEContent
  exact (safe_parseTyped _ _ _).bind fun _ _ => (safe_parseOID _).bind fun _ _ =>
    (safe_parseOptExplicitRaw _ _).bind fun _ _ => .ok _

theorem safe_decodeIP (f : Bytes) (b : Cert.BitString) : Safe (Cert.decodeIP f b) := by
  unfold Cert.decodeIP
  split
  · exact .ok _
  · exact .err _

theorem safe_convertAddrs (f : Bytes) (l : List (Cert.BitString × Int)) : Safe (Roa.convertAddrs f l) := by
  induction l with
  | nil => exact .ok _
  | cons a l ih =>
    unfold Roa.convertAddrs
    exact (safe_decodeIP _ _).bind fun _ _ => ih.bind fun _ _ => .ok _

theorem safe_convertBlocks (l : List Roa.ROAFamily) : Safe (Roa.convertBlocks l) := by
  induction l with
  | nil => exact .ok _
  | cons a l ih =>
    unfold Roa.convertBlocks
    exact (safe_convertAddrs _ _).bind fun _ _ => ih.bind fun _ _ => .ok _

theorem safe_convertROAEntries (c : Roa.ROAContent) : Safe (Roa.convertROAEntries c) := by
  unfold Roa.convertROAEntries
  exact (safe_convertBlocks _).bind fun _ _ => .ok _

theorem safe_isIPInRange {i : Cert.IPInfo} (h : i ≠ .net none) (ip : Bytes) : Safe (i.isIPInRange ip) := by
  unfold Cert.IPInfo.isIPInRange
  split
  · exact absurd rfl h
  · exact .ok _
  · exact .ite (.ok _) (.ok _)
  · exact .ite (.ok _) (.ite (.ok _) (.ok _))

theorem safe_isIPRangeInCertificate (ips : List Cert.IPInfo) (h : Cert.IPInfo.net none ∉ ips) (a b : Bytes) :
    Safe (Cert.isIPRangeInCertificate ips a b) := by
  induction ips with
  | nil => exact .ok _
  | cons i l ih =>
    unfold Cert.isIPRangeInCertificate
    have hi : i ≠ .net none := by rintro rfl; simp at h
    exact (safe_isIPInRange hi _).bind fun _ _ => (safe_isIPInRange hi _).bind fun _ _ =>
      .ite (.ok _) (.ite (.ok _) (ih (by simp at h; exact h.2)))

theorem safe_roaStep (ips : List Cert.IPInfo) (h : Cert.IPInfo.net none ∉ ips) (s : Cert.Split Roa.ROAEntry)
    (e : Roa.ROAEntry) : Safe (Roa.roaStep ips s e) := by
  unfold Roa.roaStep
  exact (safe_isIPRangeInCertificate ips h _ _).bind fun _ _ => .ite (.ok _) (.ite (.ok _) (.ok _))

theorem safe_roaSplit (ips : List Cert.IPInfo) (h : Cert.IPInfo.net none ∉ ips) (l : List Roa.ROAEntry) :
    ∀ s, Safe (Roa.roaSplitFrom ips s l) := by
  induction l with
  | nil => intro s; exact .ok _
  | cons e l ih =>
    intro s
    unfold Roa.roaSplitFrom
    exact (safe_roaStep ips h _ _).bind fun _ _ => ih _

theorem safe_parseSignatureDecoded (bs : Bytes) : Safe (parseSignatureDecoded bs) := by
  unfold parseSignatureDecoded parseSignatureInner
  exact (safe_parseTyped _ _ _).bind fun _ _ => Safe.bind
    ((safe_parseTyped _ _ _).bind fun _ _ => (safe_parseOID _).bind fun _ _ =>
      (safe_parseAny _).bind fun _ _ => .ok _) fun _ _ =>
    (safe_parseOctets _).bind fun _ _ => .ok _

theorem safe_validate (sha256 : Bytes → Bytes) (c : CMS) (h : c.signedData.signerInfos ≠ []) (encap : Bytes)
    (key : Tal.PubKey) : Safe (c.validate sha256 encap key) := by
  unfold CMS.validate
  cases hs : c.signedData.signerInfos with
  | nil => exact absurd hs h
  | cons si l =>
    simp only [idx_cons_zero, Go.ok_bind, signedAttrsInput_eq]
    refine .ite (.err _) ?_
    unfold checkSignature
    split
    · exact (safe_parseSignatureDecoded _).bind fun _ _ => .ite (.ok _) (.err _)
    · exact .err _

theorem safe_caught {x : Go Unit} (h : Safe x) : Safe (caught x) := by
  cases x <;> simp_all [caught, Safe]

theorem safe_dropErr {T : Type} {x : Go (Option T)} (h : Safe x) : Safe (dropErr x) := by
  cases x <;> simp_all [dropErr, Safe]

theorem safe_getSigningTime {T : Type} (parseTime : Bytes → Go T) (hp : ∀ b, Safe (parseTime b)) (c : CMS)
    (h : c.signedData.signerInfos ≠ []) : Safe (c.getSigningTime parseTime) := by
  unfold CMS.getSigningTime
  cases hs : c.signedData.signerInfos with
  | nil => exact absurd hs h
  | cons si l =>
    simp only [idx_cons_zero, Go.ok_bind]
    split
    · exact .ok _
    · split
      · exact .ok _
      · exact (hp _).bind fun _ _ => .ok _

theorem safe_strictCheck (s : Bool) (c : CMS) : Safe (strictCheck s c) := by
  unfold strictCheck
  exact .ite ((safe_checkSignaturesMatch c).bind fun _ _ => .ite (.ok _) (.err _)) (.ok _)

theorem strictCheck_signer {c : CMS} {u : Unit} (h : strictCheck true c = .ok u) : c.signedData.signerInfos ≠ [] := by
  unfold strictCheck at h
  simp only [↓reduceIte] at h
  obtain ⟨v, hv, h⟩ := Go.bind_eq_ok.mp h
  split at h
  · rename_i ht; rw [ht] at hv; exact checkSignaturesMatch_signer hv
  · simp at h

end Verif.Cms
