import Verif.Lemmas.CmsForge
import Verif.Lemmas.CmsSafe
/-
  C43-C47: signed objects (CMS).  `CmsSpec` is the independent specification.
-/
set_option autoImplicit false

namespace Verif.Props
open Der Cms CmsSpec BerSpec

/-! ### A concrete signed object used in the examples -/

namespace CmsEx
/-- A stand-in for SHA-256 with 32 octets of output. -/
def sha (b : Bytes) : Bytes := List.replicate 31 0x55 ++ [b.length.toUInt8]
/-- A key with exponent 1, under which the signature is the block itself. -/
def key : Tal.RSAKey := ⟨2 ^ 1024, 1⟩
def content : Bytes := [0x30, 0x05, 0x02, 0x01, 0x01, 0x30, 0x00]
def attrs : List Attribute :=
  [⟨[0x2a, 0x86, 0x48, 0x86, 0xf7, 0x0d, 0x01, 0x09, 0x03], [⟨0, 6, false, [0x2a], [0x06, 0x01, 0x2a]⟩]⟩,
   ⟨messageDigestOID, [⟨0, 4, false, sha content, 0x04 :: 0x20 :: sha content⟩]⟩]
def sig : Bytes :=
  0x01 :: List.replicate 8 0xff ++ [0x00] ++ sha256DigestInfo (sha ((elem 0x30 (attrSet attrs)).drop 2))
theorem sig_block : RsaBlock key.n.toNat key.e.toNat sig sig := by
  have hlen : sig.length = 61 := by simp [sig, sha256DigestInfo, sha]
  have hl : beVal sig < 256 ^ 61 := hlen ▸ Ber.beVal_lt sig
  have he : key.e.toNat = 1 := rfl
  have hn : 256 ^ 61 ≤ key.n.toNat := by decide +kernel
  unfold RsaBlock
  rw [he, Nat.pow_one, Nat.mod_eq_of_lt (Nat.lt_of_lt_of_le hl hn)]
  unfold sig
  rw [List.cons_append, List.cons_append, digits_beVal_aux _ _ (by decide)]
def signer : SignerInfo := ⟨[3], .zero, [], attrs, .zero, sig, .zero⟩
def cms (signers : List SignerInfo) : CMS := ⟨[0x2a], ⟨[3], [], .zero, .zero, .zero, signers⟩⟩
end CmsEx

/-- C44, one direction: a signature whose block is a complete PKCS#1 v1.5 block is read correctly. -/
theorem C44_strict_accepted (k : Tal.RSAKey) (sig block hash : Bytes) (hl : hash.length = 32)
    (hb : RsaBlock k.n.toNat k.e.toNat sig block) (hs : StrictBlock block hash) :
    decryptSignatureRSA sig k = .ok hash := by
  obtain ⟨n, hn, rfl⟩ := hs
  obtain ⟨m, rfl⟩ : ∃ m, n = m + 2 := ⟨n - 2, by omega⟩
  exact decrypt_block (n := m) (trailing := []) hl (by simpa using hb)

/-! ### C43: digest binding -/

/-- C43. `Validate` accepts exactly the objects whose first signer carries, as its last message-digest
    attribute with one value, the SHA-256 of the content, and whose signature decrypts to the SHA-256
    of the encoded signed attributes (without the two octets that the code removes in front). -/
theorem C43_validate_exact (sha256 : Bytes → Bytes) (hsha : ∀ b, (sha256 b).length = 32) (c : CMS)
    (si : SignerInfo) (more : List SignerInfo) (hsi : c.signedData.signerInfos = si :: more)
    (content : Bytes) (key : Tal.PubKey) :
    c.validate sha256 content key = .ok () ↔
      CarriesDigest (si.signedAttrs.map Attribute.view) (sha256 content) ∧
      ∃ k set, key = .rsaPtr k ∧ SignedAttrsDer (si.signedAttrs.map Attribute.view) set ∧
        decryptSignatureRSA si.signature k = .ok (sha256 ((elem 0x30 set).drop 2)) := by
  rw [validate_iff sha256 c si more hsi]
  have hne : sha256 content ≠ [] := by
    intro h; have := hsha content; rw [h] at this; simp at this
  rw [findDigest_iff hne]
  constructor
  · rintro ⟨h1, k, h2, h3⟩
    exact ⟨h1, k, _, h2, attrSet_der _, h3⟩
  · rintro ⟨h1, k, set, h2, h3, h4⟩
    rw [attrSet_unique h3] at h4
    exact ⟨h1, k, h2, h4⟩

/-- An object that is accepted. -/
example : (CmsEx.cms [CmsEx.signer]).validate CmsEx.sha CmsEx.content (.rsaPtr CmsEx.key) = .ok () := by
  rw [validate_iff _ _ CmsEx.signer [] rfl]
  refine ⟨by decide +kernel, CmsEx.key, rfl, ?_⟩
  exact C44_strict_accepted CmsEx.key CmsEx.sig CmsEx.sig _ (by simp [CmsEx.sha]) CmsEx.sig_block ⟨8, by omega, rfl⟩

/-- C43, for `DecodeROA`: a ROA marked valid has entries read from a content whose SHA-256 is carried
    by the signed attributes, and the attributes are bound by a signature that decrypts, under the key
    of the certificate in the object, to a block holding their SHA-256. -/
theorem C43_roa_binding {T M : Type} (env : Env T M) (hsha : ∀ b, (env.sha256 b).length = 32)
    (strict : Bool) (data : Bytes) (roa : RPKIROA T)
    (h : decodeROA env strict data = .ok roa) (hv : roa.innerValid = true) :
    ∃ (content : Bytes) (c : Roa.ROAContent) (attrs : List Attr) (set signature block : Bytes) (k : Tal.RSAKey),
      unmarshalROA content = .ok c ∧ Roa.convertROAEntries c = .ok (roa.entries, roa.asn) ∧
      CarriesDigest attrs (env.sha256 content) ∧ SignedAttrsDer attrs set ∧
      roa.certificate.key = .rsaPtr k ∧ RsaBlock k.n.toNat k.e.toNat signature block ∧
      LenientBlock block (env.sha256 ((elem 0x30 set).drop 2)) := by
  unfold decodeROA at h
  obtain ⟨c, _, h⟩ := Go.bind_eq_ok.mp h
  obtain ⟨_, _, h⟩ := Go.bind_eq_ok.mp h
  obtain ⟨inner, _, h⟩ := Go.bind_eq_ok.mp h
  obtain ⟨fb, _, h⟩ := Go.bind_eq_ok.mp h
  obtain ⟨content, hcontent, h⟩ := Go.bind_eq_ok.mp h
  obtain ⟨e, he, h⟩ := Go.bind_eq_ok.mp h
  obtain ⟨time, _, h⟩ := Go.bind_eq_ok.mp h
  obtain ⟨cert, _, h⟩ := Go.bind_eq_ok.mp h
  obtain ⟨valid, hvalid, h⟩ := Go.bind_eq_ok.mp h
  obtain ⟨split, _, h⟩ := Go.bind_eq_ok.mp h
  simp at h; subst h
  simp only at hv
  subst hv
  have hval : c.validate env.sha256 fb.1 cert.key = .ok () := by
    cases hx : c.validate env.sha256 fb.1 cert.key <;> simp_all [caught]
  cases hs : c.signedData.signerInfos with
  | nil => unfold CMS.validate at hval; rw [hs] at hval; simp [idx] at hval
  | cons si more =>
    obtain ⟨h1, k, set, h2, h3, h4⟩ := (C43_validate_exact env.sha256 hsha c si more hs fb.1 cert.key).mp hval
    obtain ⟨block, h5, h6⟩ := decrypt_lenient h4
    exact ⟨fb.1, content, _, set, si.signature, block, k, hcontent, he, h1, h3, h2, h5, h6⟩

/-- C43, for `DecodeManifest`: the bound content is the DER re-encoding of what the object holds. -/
theorem C43_manifest_binding {T M : Type} (env : Env T M) (hsha : ∀ b, (env.sha256 b).length = 32)
    (strict : Bool) (data : Bytes) (mft : RPKIManifest M)
    (h : decodeManifest env strict data = .ok mft) (hv : mft.innerValid = true) :
    ∃ (content : Bytes) (attrs : List Attr) (set signature block : Bytes) (k : Tal.RSAKey),
      env.unmarshalManifest content = .ok mft.content ∧
      CarriesDigest attrs (env.sha256 content) ∧ SignedAttrsDer attrs set ∧
      mft.certificate.key = .rsaPtr k ∧ RsaBlock k.n.toNat k.e.toNat signature block ∧
      LenientBlock block (env.sha256 ((elem 0x30 set).drop 2)) := by
  unfold decodeManifest at h
  obtain ⟨c, _, h⟩ := Go.bind_eq_ok.mp h
  obtain ⟨_, _, h⟩ := Go.bind_eq_ok.mp h
  obtain ⟨ec, _, h⟩ := Go.bind_eq_ok.mp h
  obtain ⟨inner, _, h⟩ := Go.bind_eq_ok.mp h
  obtain ⟨fb, _, h⟩ := Go.bind_eq_ok.mp h
  obtain ⟨der, _, h⟩ := Go.bind_eq_ok.mp h
  obtain ⟨content, hcontent, h⟩ := Go.bind_eq_ok.mp h
  obtain ⟨cert, _, h⟩ := Go.bind_eq_ok.mp h
  obtain ⟨valid, hvalid, h⟩ := Go.bind_eq_ok.mp h
  simp at h; subst h
  simp only at hv
  subst hv
  have hval : c.validate env.sha256 der cert.key = .ok () := by
    cases hx : c.validate env.sha256 der cert.key <;> simp_all [caught]
  cases hs : c.signedData.signerInfos with
  | nil => unfold CMS.validate at hval; rw [hs] at hval; simp [idx] at hval
  | cons si more =>
    obtain ⟨h1, k, set, h2, h3, h4⟩ := (C43_validate_exact env.sha256 hsha c si more hs der cert.key).mp hval
    obtain ⟨block, h5, h6⟩ := decrypt_lenient h4
    exact ⟨der, _, set, si.signature, block, k, hcontent, h1, h3, h2, h5, h6⟩

/-- C43: a content with another digest, or a key that is not an RSA key, is refused. -/
theorem C43_other_content_refused (sha256 : Bytes → Bytes) (hsha : ∀ b, (sha256 b).length = 32) (c : CMS)
    (si : SignerInfo) (more : List SignerInfo) (hsi : c.signedData.signerInfos = si :: more)
    (content content' : Bytes) (key key' : Tal.PubKey)
    (h : c.validate sha256 content key = .ok ()) (hne : sha256 content' ≠ sha256 content) :
    c.validate sha256 content' key' ≠ .ok () := by
  intro h'
  have h1 := ((C43_validate_exact sha256 hsha c si more hsi _ _).mp h).1
  have h2 := ((C43_validate_exact sha256 hsha c si more hsi _ _).mp h').1
  exact hne (carries_unique h2 h1)

/-! ### C44: padding -/

/-- The example signature has such a block. -/
example : RsaBlock CmsEx.key.n.toNat CmsEx.key.e.toNat CmsEx.sig CmsEx.sig ∧
    StrictBlock CmsEx.sig (CmsEx.sha ((elem 0x30 (attrSet CmsEx.attrs)).drop 2)) := by
  exact ⟨CmsEx.sig_block, 8, by omega, rfl⟩

/-- C44, what acceptance does guarantee (partial: the statement asks for a complete block). -/
theorem C44_accepted_block_partial (k : Tal.RSAKey) (sig hash : Bytes)
    (h : decryptSignatureRSA sig k = .ok hash) :
    ∃ block, RsaBlock k.n.toNat k.e.toNat sig block ∧ LenientBlock block hash := decrypt_lenient h

/-- C44 is violated, with the worst consequence: under every key with exponent 3 and a modulus of at
    least 1306 bits, anyone can compute a signature that is accepted for any hash, without the private
    key; its block is not a complete block for any hash. -/
theorem C44_violated_forgery (n : Nat) (hn : 2 ^ 1305 ≤ n) (hash : Bytes) (hl : hash.length = 32) :
    ∃ sig, decryptSignatureRSA sig ⟨n, 3⟩ = .ok hash ∧
      ∀ block hash', RsaBlock n 3 sig block → ¬ StrictBlock block hash' := by
  obtain ⟨s, trailing, h1, h2, h3⟩ := forged_cube hash hl
  have hmod : beVal (digits s) ^ 3 % n = s ^ 3 := by
    rw [Ber.beVal_digits]; exact Nat.mod_eq_of_lt (Nat.lt_of_lt_of_le h1 hn)
  refine ⟨digits s, ?_, ?_⟩
  · refine decrypt_block (n := 0) (trailing := trailing) hl ?_
    show _ = digits (beVal (digits s) ^ 3 % n)
    rw [hmod, h3]
  · rintro block hash' hb ⟨m, hm, he⟩
    unfold RsaBlock at hb
    rw [hmod, h3, he] at hb
    obtain ⟨j, rfl⟩ : ∃ j, m = j + 3 := ⟨m - 3, by omega⟩
    simp [List.replicate_succ] at hb

/-- C44 violated, at the level of objects: for every content there is a signed object that the code
    accepts under any such key. The 2048-bit keys of the RPKI are covered. -/
theorem C44_violated_forged_object (sha256 : Bytes → Bytes) (hsha : ∀ b, (sha256 b).length = 32)
    (n : Nat) (hn : 2 ^ 1305 ≤ n) (content : Bytes) :
    ∃ c : CMS, c.validate sha256 content (.rsaPtr ⟨n, 3⟩) = .ok () := by
  let attrs : List Attribute := [⟨messageDigestOID, [⟨0, 4, false, sha256 content, elem 0x04 (sha256 content)⟩]⟩]
  obtain ⟨sig, hs, -⟩ := C44_violated_forgery n hn (sha256 ((elem 0x30 (attrSet attrs)).drop 2)) (hsha _)
  refine ⟨CmsEx.cms [⟨[3], .zero, [], attrs, .zero, sig, .zero⟩], ?_⟩
  rw [validate_iff _ _ _ _ rfl]
  refine ⟨?_, _, rfl, hs⟩
  simp [attrs, findDigest]

/-! ### C45: signed attributes -/

/-- C45 for small sets (partial: at most 127 octets): the octets hashed for the signature are exactly
    the DER SET of the signed attributes. -/
theorem C45_small_set_partial (attrs : List Attribute) (set : Bytes)
    (hset : SignedAttrsDer (attrs.map Attribute.view) set) (hl : set.length < 128) :
    signedAttrsInput attrs = .ok set := by
  rw [signedAttrsInput_eq, ← attrSet_unique hset]
  unfold elem derLength
  rw [if_pos hl]
  rfl

/-- The attributes of the example meet the condition. -/
example : ∃ set, SignedAttrsDer (CmsEx.attrs.map Attribute.view) set ∧ set.length < 128 := by
  refine ⟨attrSet CmsEx.attrs, attrSet_der _, ?_⟩
  decide +kernel

/-- C45: the octets hashed do not depend on the order of the attributes in the object. -/
theorem C45_order_irrelevant (a b : List Attribute) (h : a.Perm b) :
    signedAttrsInput a = signedAttrsInput b := by
  have : attrSet a = attrSet b := by
    unfold attrSet marshalSet
    rw [sortSet_congr (h.map marshalAttr)]
  rw [signedAttrsInput_eq, signedAttrsInput_eq, this]

/-- C45 is violated for every larger set: the octets hashed are longer than the DER SET. -/
theorem C45_violated_large_set (attrs : List Attribute) (set : Bytes)
    (hset : SignedAttrsDer (attrs.map Attribute.view) set) (hl : 128 ≤ set.length) :
    ∃ input, signedAttrsInput attrs = .ok input ∧ set.length < input.length := by
  refine ⟨_, signedAttrsInput_eq attrs, ?_⟩
  rw [← attrSet_unique hset]
  have h1 : 2 ≤ (derLength set.length).length := by
    unfold derLength
    rw [if_neg (by omega)]
    have := Ber.digits_ne_nil set.length (by omega)
    have : 0 < (digits set.length).length := List.length_pos_iff.mpr this
    simp; omega
  rw [List.length_drop, elem_length]
  omega

/-- C45 violated, with its effect: a conforming object with signed attributes of 128 octets or more,
    correctly signed, is refused (unless SHA-256 collides on the two inputs). -/
theorem C45_violated_conforming_refused (sha256 : Bytes → Bytes) (hsha : ∀ b, (sha256 b).length = 32)
    (c : CMS) (si : SignerInfo) (more : List SignerInfo) (hsi : c.signedData.signerInfos = si :: more)
    (content set block : Bytes) (k : Tal.RSAKey)
    (hset : SignedAttrsDer (si.signedAttrs.map Attribute.view) set) (_hl : 128 ≤ set.length)
    (hb : RsaBlock k.n.toNat k.e.toNat si.signature block) (hs : StrictBlock block (sha256 set))
    (hcoll : sha256 ((elem 0x30 set).drop 2) ≠ sha256 set) :
    c.validate sha256 content (.rsaPtr k) ≠ .ok () := by
  intro h
  obtain ⟨-, k', set', h2, h3, h4⟩ := (C43_validate_exact sha256 hsha c si more hsi _ _).mp h
  simp only [Tal.PubKey.rsaPtr.injEq] at h2
  subst h2
  rw [attrSet_unique h3, ← attrSet_unique hset] at h4
  rw [C44_strict_accepted k si.signature block (sha256 set) (hsha _) hb hs] at h4
  simp at h4
  exact hcoll h4.symm

/-- Attributes of more than 127 octets exist: one value of 200 octets is enough. -/
example : ∃ set, SignedAttrsDer
    (([⟨[0x2a], [⟨0, 4, false, List.replicate 200 0, elem 0x04 (List.replicate 200 0)⟩]⟩] : List Attribute).map
      Attribute.view) set ∧ 128 ≤ set.length := by
  refine ⟨_, attrSet_der _, ?_⟩
  decide +kernel

/-! ### C46: objects without signer -/

/-- C46 is violated: `Validate` crashes on every object without signer. -/
theorem C46_violated_validate (sha256 : Bytes → Bytes) (c : CMS) (h : c.signedData.signerInfos = [])
    (content : Bytes) (key : Tal.PubKey) : c.validate sha256 content key = .panic := by
  unfold CMS.validate; rw [h]; rfl

/-- C46 is violated: `GetSigningTime` crashes on every object without signer. -/
theorem C46_violated_signing_time {T : Type} (parseTime : Bytes → Go T) (c : CMS)
    (h : c.signedData.signerInfos = []) : c.getSigningTime parseTime = .panic := by
  unfold CMS.getSigningTime; rw [h]; rfl

/-- A ROA without signer and without certificate, as bytes. -/
def signerlessROA : Bytes :=
  [0x30, 0x32, 0x06, 0x09, 0x2a, 0x86, 0x48, 0x86, 0xf7, 0x0d, 0x01, 0x07, 0x02,
   0xa0, 0x25, 0x30, 0x23, 0x02, 0x01, 0x03, 0x31, 0x00,
   0x30, 0x1a, 0x06, 0x0b, 0x2a, 0x86, 0x48, 0x86, 0xf7, 0x0d, 0x01, 0x09, 0x10, 0x01, 0x18,
   0xa0, 0x0b, 0x24, 0x09, 0x04, 0x07, 0x30, 0x05, 0x02, 0x01, 0x01, 0x30, 0x00, 0x31, 0x00]

/-- C46 violated from bytes: with the setting that the two programs use by default (not strict),
    decoding this 52-octet ROA ends the process, whatever the libraries do. -/
theorem C46_violated_decodeROA {T M : Type} (env : Env T M) :
    decodeROA env false signerlessROA = .panic := by
  have h1 : decodeCMS signerlessROA = .ok ⟨[0x2a, 0x86, 0x48, 0x86, 0xf7, 0x0d, 0x01, 0x07, 0x02],
      ⟨[3], [], ⟨0, 16, true, (signerlessROA.drop 24).take 26, (signerlessROA.drop 22).take 28⟩, .zero, .zero, []⟩⟩ := by
    decide +kernel
  have h2 : parseAny (orZero (parseEContent ((signerlessROA.drop 22).take 28))).bytes =
      .ok (⟨0, 4, true, [0x04, 0x07, 0x30, 0x05, 0x02, 0x01, 0x01, 0x30, 0x00],
        [0x24, 0x09, 0x04, 0x07, 0x30, 0x05, 0x02, 0x01, 0x01, 0x30, 0x00]⟩, []) := by decide +kernel
  have h3 : badFormatGroup [0x04, 0x07, 0x30, 0x05, 0x02, 0x01, 0x01, 0x30, 0x00] =
      .ok ([0x30, 0x05, 0x02, 0x01, 0x01, 0x30, 0x00], false) := by decide +kernel
  have h4 : unmarshalROA [0x30, 0x05, 0x02, 0x01, 0x01, 0x30, 0x00] = .ok ⟨1, []⟩ := by decide +kernel
  have h5 : Roa.convertROAEntries ⟨1, []⟩ = .ok ([], 1) := by decide +kernel
  unfold decodeROA
  rw [h1]
  simp only [Go.ok_bind, strictCheck, Bool.false_eq_true, ↓reduceIte, h2, h3, h4, h5]
  rw [C46_violated_signing_time env.parseTime _ rfl]
  rfl

/-- C46, what holds (partial: strict mode, and a certificate without nil networks): strict decoding of
    a ROA returns for every input, with any number of signers. -/
theorem C46_decodeROA_strict_partial {T M : Type} (env : Env T M) (data : Bytes)
    (hcert : ∀ b, Safe (env.decodeCert b)) (htime : ∀ b, Safe (env.parseTime b))
    (hips : ∀ b c, env.decodeCert b = .ok c → Cert.IPInfo.net none ∉ c.ips) :
    decodeROA env true data ≠ .panic ∧ decodeROA env true data ≠ .diverge := by
  show Safe _
  unfold decodeROA
  refine (safe_decodeCMS _).bind fun c _ => (safe_strictCheck _ _).bind fun u hu => ?_
  have hs := strictCheck_signer hu
  refine (safe_parseAny _).bind fun _ _ => (safe_badFormatGroup _).bind fun _ _ =>
    (safe_unmarshalROA _).bind fun _ _ => (safe_convertROAEntries _).bind fun _ _ =>
    (safe_dropErr (safe_getSigningTime _ htime _ hs)).bind fun _ _ => (hcert _).bind fun cert hc =>
    (safe_caught (safe_validate _ _ hs _ _)).bind fun _ _ =>
    (safe_roaSplit _ (hips _ _ hc) _ _).bind fun _ _ => .ok _

/-- Without the strict check decoding returns for every object that has a signer. -/
theorem C46_decodeROA_signed_partial {T M : Type} (env : Env T M) (strict : Bool) (data : Bytes)
    (hcert : ∀ b, Safe (env.decodeCert b)) (htime : ∀ b, Safe (env.parseTime b))
    (hips : ∀ b c, env.decodeCert b = .ok c → Cert.IPInfo.net none ∉ c.ips)
    (hsigner : ∀ c, decodeCMS data = .ok c → c.signedData.signerInfos ≠ []) :
    decodeROA env strict data ≠ .panic ∧ decodeROA env strict data ≠ .diverge := by
  show Safe _
  unfold decodeROA
  refine (safe_decodeCMS _).bind fun c hc => (safe_strictCheck _ _).bind fun u hu => ?_
  have hs := hsigner c hc
  refine (safe_parseAny _).bind fun _ _ => (safe_badFormatGroup _).bind fun _ _ =>
    (safe_unmarshalROA _).bind fun _ _ => (safe_convertROAEntries _).bind fun _ _ =>
    (safe_dropErr (safe_getSigningTime _ htime _ hs)).bind fun _ _ => (hcert _).bind fun cert hc =>
    (safe_caught (safe_validate _ _ hs _ _)).bind fun _ _ =>
    (safe_roaSplit _ (hips _ _ hc) _ _).bind fun _ _ => .ok _

/-- An environment that meets the conditions. -/
example : ∃ env : Env Unit Unit, (∀ b, Safe (env.decodeCert b)) ∧ (∀ b, Safe (env.parseTime b)) ∧
    (∀ b c, env.decodeCert b = .ok c → Cert.IPInfo.net none ∉ c.ips) :=
  ⟨⟨CmsEx.sha, fun _ => .ok ⟨.rsaPtr CmsEx.key, [.null 1]⟩, fun _ => .ok (), fun _ => .ok ()⟩,
   fun _ => .ok _, fun _ => .ok _, by rintro b c h; simp at h; subst h; simp⟩

/-- A manifest with one signer and a certificate with the same signature algorithm, whose content is
    one octet string holding 1f 80. -/
def crashingManifest : Bytes :=
  [0x30, 0x4a, 0x06, 0x09, 0x2a, 0x86, 0x48, 0x86, 0xf7, 0x0d, 0x01, 0x07, 0x02,
   0xa0, 0x3d, 0x30, 0x3b, 0x02, 0x01, 0x03, 0x31, 0x00,
   0x30, 0x0d, 0x06, 0x03, 0x2a, 0x86, 0x48, 0xa0, 0x06, 0x24, 0x04, 0x04, 0x02, 0x1f, 0x80,
   0xa0, 0x10, 0x30, 0x0e, 0x30, 0x0a, 0x02, 0x01, 0x01, 0x30, 0x05, 0x06, 0x01, 0x2a, 0x05, 0x00, 0x05, 0x00,
   0x31, 0x13, 0x30, 0x11, 0x02, 0x01, 0x03, 0x80, 0x00, 0x30, 0x00, 0x30, 0x05, 0x06, 0x01, 0x2a, 0x05, 0x00,
   0x04, 0x01, 0x00]

/-- C46 violated for manifests, with and without the strict check: decoding this 76-octet file ends the
    process, because the content is passed through the BER converter, which crashes on it. -/
theorem C46_violated_decodeManifest {T M : Type} (env : Env T M) (strict : Bool) :
    decodeManifest env strict crashingManifest = .panic := by
  have h0 : (decodeCMS crashingManifest).bind (fun c => (strictCheck true c).bind fun _ =>
      (parseEContent c.signedData.encapContentInfo.full).bind fun ec => (parseAny ec.bytes).bind fun inner =>
        (badFormatGroup inner.1.bytes)) = .ok ([0x1f, 0x80], false) := by
    decide +kernel
  obtain ⟨c, hc, h0⟩ := Go.bind_eq_ok.mp h0
  obtain ⟨u, hu, h0⟩ := Go.bind_eq_ok.mp h0
  obtain ⟨ec, hec, h0⟩ := Go.bind_eq_ok.mp h0
  obtain ⟨inner, hi, h0⟩ := Go.bind_eq_ok.mp h0
  have hst : strictCheck strict c = .ok () := by
    cases strict
    · rfl
    · exact hu
  have hb : ber2derOrNil [0x1f, 0x80] = .panic := by decide +kernel
  unfold decodeManifest
  simp only [hc, Go.ok_bind, hst, hec, hi, h0, hb, Go.panic_bind]

/-- Both files pass the BER converter unchanged, so they reach the decoders as they are on disk. -/
example : Ber.BER2DER signerlessROA = .ok signerlessROA := by decide +kernel
example : Ber.BER2DER crashingManifest = .ok crashingManifest := by decide +kernel

/-- C46, what holds for manifests (partial: strict mode, and the BER converter returns on the content
    of this object). -/
theorem C46_decodeManifest_strict_partial {T M : Type} (env : Env T M) (data : Bytes)
    (hcert : ∀ b, Safe (env.decodeCert b)) (hmft : ∀ b, Safe (env.unmarshalManifest b))
    (hber : ∀ c ec inner fb, decodeCMS data = .ok c →
      parseEContent c.signedData.encapContentInfo.full = .ok ec → parseAny ec.bytes = .ok inner →
      badFormatGroup inner.1.bytes = .ok fb → Safe (Ber.BER2DER fb.1)) :
    decodeManifest env true data ≠ .panic ∧ decodeManifest env true data ≠ .diverge := by
  show Safe _
  unfold decodeManifest
  refine (safe_decodeCMS _).bind fun c hc => (safe_strictCheck _ _).bind fun u hu => ?_
  have hs := strictCheck_signer hu
  refine (safe_parseEContent _).bind fun ec hec => (safe_parseAny _).bind fun inner hi =>
    (safe_badFormatGroup _).bind fun fb hfb => ?_
  have hb := hber c ec inner fb hc hec hi hfb
  have : Safe (ber2derOrNil fb.1) := by
    unfold ber2derOrNil
    cases hx : Ber.BER2DER fb.1 with
    | ok x => exact .ok _
    | err e => exact .ok _
    | panic => exact absurd hx hb.1
    | diverge => exact absurd hx hb.2
  exact this.bind fun _ _ => (hmft _).bind fun _ _ => (hcert _).bind fun _ _ =>
    (safe_caught (safe_validate _ _ hs _ _)).bind fun _ _ => .ok _

/-- The same manifest with the content 30 00 meets the last condition. -/
example : let data := crashingManifest.take 35 ++ [0x30, 0x00] ++ crashingManifest.drop 37
    ∀ c ec inner fb, decodeCMS data = .ok c →
      parseEContent c.signedData.encapContentInfo.full = .ok ec → parseAny ec.bytes = .ok inner →
      badFormatGroup inner.1.bytes = .ok fb → Safe (Ber.BER2DER fb.1) := by
  intro data c ec inner fb hc hec hi hfb
  have h0 : (decodeCMS data).bind (fun c =>
      (parseEContent c.signedData.encapContentInfo.full).bind fun ec => (parseAny ec.bytes).bind fun inner =>
        (badFormatGroup inner.1.bytes)) = .ok ([0x30, 0x00], false) := by
    decide +kernel
  simp only [hc, hec, hi, hfb, Go.ok_bind, Go.bind] at h0
  simp at h0
  subst h0
  have : Ber.BER2DER [0x30, 0x00] = .ok [0x30, 0x00] := by decide +kernel
  rw [this]
  exact .ok _

/-! ### C47: reassembly of octet strings -/

/-- C47. A content cut into octet strings is put together again, and the form is reported as bad
    exactly if there is more than one part. -/
theorem C47_reassembly (chunks : List Bytes) (hne : chunks ≠ []) (h : ∀ x ∈ chunks, x.length < 2 ^ 31) :
    badFormatGroup (chunks.map (elem 0x04)).flatten = .ok (chunks.flatten, decide (chunks.length > 1)) := by
  have hl : chunks.length ≤ ((chunks.map (elem 0x04)).flatten).length := by
    clear h hne
    induction chunks with
    | nil => simp
    | cons a t ih =>
      simp only [List.map_cons, List.flatten_cons, List.length_append, List.length_cons, elem_length]
      omega
  obtain ⟨init, last, rfl⟩ : ∃ i l, chunks = i ++ [l] :=
    ⟨chunks.dropLast, chunks.getLast hne, (List.dropLast_concat_getLast hne).symm⟩
  have hloop := octetLoop_chunks init last
    ((((init ++ [last]).map (elem 0x04)).flatten).length + 1) (by simp at hl ⊢; omega) h
  have hpre : ∃ r rest, parseAny (((init ++ [last]).map (elem 0x04)).flatten) = .ok (r, rest) ∧ r.tag = 4 := by
    cases init with
    | nil =>
      have := parseAny_tlv 0x04 last [] (by decide) (h last (by simp))
      rw [tlv_elem] at this
      exact ⟨_, _, by simpa using this, rfl⟩
    | cons a t =>
      have := parseAny_tlv 0x04 a (((t ++ [last]).map (elem 0x04)).flatten) (by decide) (h a (by simp))
      rw [tlv_elem] at this
      exact ⟨_, _, by simpa using this, rfl⟩
  obtain ⟨r, rest, hp, ht⟩ := hpre
  have hflat : ((init ++ [last]).map (elem 0x04)).flatten =
      (init.map (elem 0x04)).flatten ++ elem 0x04 last := by simp
  unfold badFormatGroup
  rw [hp]
  simp only [Go.ok_bind, ht, ↓reduceIte]
  rw [← hflat] at hloop
  rw [hloop]
  simp

/-- C47, from the content field of an object: every way to cut a content inside a constructed octet
    string gives the content back. -/
theorem C47_econtent (content : Bytes) (chunks : List Bytes) (hne : chunks ≠ [])
    (hcut : chunks.flatten = content)
    (h : ((chunks.map (elem 0x04)).flatten).length < 2 ^ 31 - 6) :
    eContentToEncap (elem 0xa0 (elem 0x24 (chunks.map (elem 0x04)).flatten)) = .ok content := by
  have hx : ∀ x ∈ chunks, x.length < 2 ^ 31 := by
    intro x hx
    have h1 : (elem 0x04 x).length ≤ ((chunks.map (elem 0x04)).flatten).length :=
      List.Sublist.length_le (List.sublist_flatten_of_mem (List.mem_map_of_mem hx))
    rw [elem_length] at h1
    omega
  have h2 : (elem 0x24 (chunks.map (elem 0x04)).flatten).length < 2 ^ 31 := by
    rw [elem_length]
    have := derLength_len_le (n := ((chunks.map (elem 0x04)).flatten).length) (by omega)
    omega
  have e1 := parseAny_tlv 0xa0 (elem 0x24 (chunks.map (elem 0x04)).flatten) [] (by decide) h2
  have e2 := parseAny_tlv 0x24 (chunks.map (elem 0x04)).flatten [] (by decide) (by omega)
  rw [tlv_elem, List.append_nil] at e1 e2
  unfold eContentToEncap
  rw [e1]
  simp only [Go.ok_bind]
  rw [e2]
  simp only [Go.ok_bind]
  rw [C47_reassembly chunks hne hx]
  simp [hcut]

/-- C47, the usual form: a content in one primitive octet string that starts with an element (not itself
    an octet string) is that element. Octets after it are dropped and so are not covered by the digest. -/
theorem C47_primitive (id : UInt8) (body junk : Bytes) (hid : id.toNat % 32 ≠ 31) (hid4 : id.toNat % 32 ≠ 4)
    (h : body.length + junk.length < 2 ^ 31 - 12) :
    eContentToEncap (elem 0xa0 (elem 0x04 (elem id body ++ junk))) = .ok (elem id body) := by
  have h1 : (elem id body ++ junk).length < 2 ^ 31 - 6 := by
    rw [List.length_append, elem_length]
    have := derLength_len_le (n := body.length) (by omega)
    omega
  have h2 : (elem 0x04 (elem id body ++ junk)).length < 2 ^ 31 := by
    rw [elem_length]
    have := derLength_len_le (n := (elem id body ++ junk).length) (by omega)
    omega
  have e1 := parseAny_tlv 0xa0 (elem 0x04 (elem id body ++ junk)) [] (by decide) h2
  have e2 := parseAny_tlv 0x04 (elem id body ++ junk) [] (by decide) (by omega)
  have e3 := parseAny_tlv id body junk hid (by omega)
  rw [tlv_elem, List.append_nil] at e1 e2
  rw [tlv_elem] at e3
  unfold eContentToEncap
  rw [e1]
  simp only [Go.ok_bind]
  rw [e2]
  simp only [Go.ok_bind]
  unfold badFormatGroup
  rw [e3]
  simp [hid4]

/-- Two parts. -/
example : badFormatGroup [0x04, 0x02, 0xaa, 0xbb, 0x04, 0x01, 0xcc] = .ok ([0xaa, 0xbb, 0xcc], true) := by
  decide +kernel

end Verif.Props
