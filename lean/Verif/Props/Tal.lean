import Verif.Lemmas.Tal
/-
  Property theorems for trust anchor locators: C48 - C50, C67.
-/
set_option autoImplicit false

namespace Verif.Props
open Tal TalSpec

/-! ## C48 — TAL text parsing -/

/-- **C48, text.** For every TAL text (comments, URI lines, empty line, body wrapped anywhere, LF or
    CRLF), the URIs are recovered in order and the body is recovered unwrapped. -/
theorem C48_text (uris : List Bytes) (body text : Bytes) (h : TalText uris body text) :
    readText text = (uris, body) := readText_talText h

/-- **C48.** If the body is the base64 form of `d`, which is the ASN.1 form of the RSA key `k`, the
    decoder returns the URIs and `k`. -/
theorem C48_decode (asn : Asn) (uris : List Bytes) (d text bits : Bytes) (k : RSAKey)
    (h : TalText uris (base64 d) text)
    (h1 : asn.unmarshalSPKI d = .ok (true, bits)) (h2 : asn.unmarshalRSA bits = .ok k) :
    decodeTAL asn text = .ok ⟨uris, true, true, .rsaPtr k⟩ := by
  unfold decodeTAL decodeKey
  rw [C48_text _ _ _ h]
  simp only [decodeStd_base64, Go.ok_bind, h1, h2, if_true, Go.pure_def]

/-- A toy ASN.1 layer, used in the examples: one byte of modulus, one of exponent and a tag. -/
def toyAsn : Asn where
  marshalSPKI k := .ok [48, k.n.toNat.toUInt8, k.e.toNat.toUInt8]
  unmarshalSPKI d := match d with
    | 48 :: r => .ok (true, r)
    | _ => .err "asn1"
  unmarshalRSA d := match d with
    | [a, b] => .ok ⟨a.toNat, b.toNat⟩
    | _ => .err "asn1"

/-- "# x\r\nrsync://a\r\nhttps://b\n\nMAU\r\nD" -/
def talExample : Bytes :=
  asc ['#', ' ', 'x', '\r', '\n', 'r', 's', 'y', 'n', 'c', ':', '/', '/', 'a', '\r', '\n',
    'h', 't', 't', 'p', 's', ':', '/', '/', 'b', '\n', '\n', 'M', 'A', 'U', '\r', '\n', 'D']

theorem talExample_text : TalText [asc ['r', 's', 'y', 'n', 'c', ':', '/', '/', 'a'],
    asc ['h', 't', 't', 'p', 's', ':', '/', '/', 'b']] (base64 [48, 5, 3]) talExample := by
  have hb : Body (asc ['M', 'A', 'U'] ++ asc ['D']) _ :=
    Body.line (asc ['M', 'A', 'U']) [13, 10] (asc ['D']) (asc ['D']) (by decide) (by decide) (.inr rfl)
      (Body.last _ (by decide) (by decide))
  have he : base64 [48, 5, 3] = asc ['M', 'A', 'U'] ++ asc ['D'] := by decide +kernel
  rw [he]
  refine ⟨_, [10], _, Head.comment (asc [' ', 'x']) [13, 10] _ _ (by decide) (.inr rfl)
    (Head.uri (asc ['r', 's', 'y', 'n', 'c', ':', '/', '/', 'a']) [13, 10] _ _
      ⟨by decide, by decide, by decide, by decide⟩ (.inr rfl)
      (Head.uri (asc ['h', 't', 't', 'p', 's', ':', '/', '/', 'b']) [10] _ _
        ⟨by decide, by decide, by decide, by decide⟩ (.inl rfl) .nil)), .inl rfl, hb, by decide +kernel⟩

example : decodeTAL toyAsn talExample = .ok ⟨[asc ['r', 's', 'y', 'n', 'c', ':', '/', '/', 'a'],
    asc ['h', 't', 't', 'p', 's', ':', '/', '/', 'b']], true, true, .rsaPtr ⟨5, 3⟩⟩ :=
  C48_decode toyAsn _ [48, 5, 3] _ [5, 3] _ talExample_text rfl rfl

/-- A text without an empty line and without a final newline: its last line is taken as the key. -/
theorem C48_last_line_is_key (u : Bytes) (h : 0x0a ∉ u) : readText u = ([], u) := by
  simp [readText, lines_last u h]

/-! ## C49 — TAL round trip -/

/-- **C49, what holds.** A created TAL survives encoding (wrapped at any width or not at all) and
    decoding, if the number of bytes of the key's ASN.1 form is a multiple of three.
    Missing: the other lengths, for which it is false (next theorem). -/
theorem C49_round_trip_partial (asn : Asn) (uris : List Bytes) (hu : ∀ u ∈ uris, UriLine u) (k : RSAKey)
    (d bits : Bytes) (h0 : asn.marshalSPKI k = .ok d) (h1 : asn.unmarshalSPKI d = .ok (true, bits))
    (h2 : asn.unmarshalRSA bits = .ok k) (hlen : d.length % 3 = 0) (split : Int) :
    ∃ t text, createTAL uris (.rsaPtr k) = .ok t ∧ encodeTALSize asn t split = .ok text ∧
      decodeTAL asn text = .ok ⟨uris, true, true, .rsaPtr k⟩ := by
  refine ⟨_, _, rfl, by simp only [encodeTALSize, h0, if_true, Go.ok_bind, Go.pure_def]; rfl, ?_⟩
  have ht := encode_talText uris hu (b64EncodeRaw d)
    (fun c hc => ⟨(raw_chars d c hc).2.1, (raw_chars d c hc).2.2.1⟩) split
  unfold decodeTAL decodeKey
  rw [C48_text _ _ _ ht]
  simp only [decodeStd_raw, hlen, if_true, Go.ok_bind, h1, h2, Go.pure_def]

/-- **C49 is violated** for every key whose ASN.1 form has a length that is not a multiple of three:
    the encoder leaves out the padding that the decoder requires. -/
theorem C49_violated_length (asn : Asn) (uris : List Bytes) (hu : ∀ u ∈ uris, UriLine u) (k : RSAKey)
    (d : Bytes) (h0 : asn.marshalSPKI k = .ok d) (hlen : d.length % 3 ≠ 0) (split : Int) :
    ∃ t text m, createTAL uris (.rsaPtr k) = .ok t ∧ encodeTALSize asn t split = .ok text ∧
      decodeTAL asn text = .err m := by
  refine ⟨_, _, "illegal base64 data", rfl, by simp only [encodeTALSize, h0, if_true, Go.ok_bind, Go.pure_def]; rfl, ?_⟩
  have ht := encode_talText uris hu (b64EncodeRaw d)
    (fun c hc => ⟨(raw_chars d c hc).2.1, (raw_chars d c hc).2.2.1⟩) split
  unfold decodeTAL decodeKey
  rw [C48_text _ _ _ ht]
  simp only [decodeStd_raw, hlen, if_false, Go.err_bind]

/-- **C49 is violated** in the other direction: re-encoding any decoded RSA TAL crashes. -/
theorem C49_violated_reencode (asn : Asn) (data : Bytes) (t : RPKITAL) (h : decodeTAL asn data = .ok t)
    (hr : t.isRSAOID = true) (split : Int) : encodeTALSize asn t split = .panic := by
  unfold decodeTAL decodeKey at h
  obtain ⟨d, _, h⟩ := Go.bind_eq_ok.mp h
  obtain ⟨i, _, h⟩ := Go.bind_eq_ok.mp h
  split at h
  · obtain ⟨k, _, h⟩ := Go.bind_eq_ok.mp h
    simp only [Go.pure_def, Go.ok.injEq] at h
    subst h
    simp [encodeTALSize]
  · simp only [Go.pure_def, Go.ok.injEq] at h
    subst h
    simp at hr

example : toyAsn.marshalSPKI ⟨5, 3⟩ = .ok [48, 5, 3] ∧ toyAsn.unmarshalSPKI [48, 5, 3] = .ok (true, [5, 3]) ∧
    toyAsn.unmarshalRSA [5, 3] = .ok ⟨5, 3⟩ ∧ ([48, 5, 3] : Bytes).length % 3 = 0 ∧
    encodeTALSize toyAsn ⟨[[97], [98]], true, true, .rsaVal ⟨5, 3⟩⟩ 2
      = .ok (asc ['a', '\n', 'b', '\n', '\n', 'M', 'A', '\n', 'U', 'D', '\n']) := by decide +kernel

/-! ## C50 — the key check -/

/-- **C50, what holds.** For every TAL read from a file, the check never crashes and answers true
    exactly when the certificate holds the TAL's RSA key.
    Missing: TALs made by `CreateTAL`, for which it is false (next theorem). -/
theorem C50_decoded_exact_partial (asn : Asn) (data : Bytes) (t : RPKITAL) (h : decodeTAL asn data = .ok t)
    (isRSA : Bool) (key : PubKey) (hk : CertKey isRSA key) :
    ∃ b, t.checkCertificate isRSA key = .ok b ∧
      (b = true ↔ ∃ k, t.publicKey = .rsaPtr k ∧ key = .rsaPtr k) := by
  unfold decodeTAL decodeKey at h
  obtain ⟨d, _, h⟩ := Go.bind_eq_ok.mp h
  obtain ⟨i, _, h⟩ := Go.bind_eq_ok.mp h
  split at h
  · obtain ⟨k, _, h⟩ := Go.bind_eq_ok.mp h
    simp only [Go.pure_def, Go.ok.injEq] at h
    subst h
    simp only [RPKITAL.checkCertificate]
    cases isRSA with
    | true =>
      obtain ⟨r, rfl⟩ := hk.mp rfl
      refine ⟨_, rfl, ?_⟩
      obtain ⟨n, e⟩ := k
      obtain ⟨n', e'⟩ := r
      simp only [Bool.and_eq_true, decide_eq_true_eq, PubKey.rsaPtr.injEq]
      constructor
      · rintro ⟨rfl, rfl⟩; exact ⟨_, rfl, rfl⟩
      · rintro ⟨k', rfl, h⟩; cases h; exact ⟨rfl, rfl⟩
    | false =>
      refine ⟨_, rfl, ?_⟩
      have : ¬ ∃ r, key = .rsaPtr r := fun hc => by simpa using hk.mpr hc
      simp only [PubKey.rsaPtr.injEq, Bool.false_eq_true, false_iff, not_exists, not_and]
      rintro k' rfl hk'
      exact this ⟨_, hk'⟩
  · simp only [Go.pure_def, Go.ok.injEq] at h
    subst h
    exact ⟨false, by simp [RPKITAL.checkCertificate], by simp⟩

/-- **C50 is violated**: for every TAL made by `CreateTAL`, the check of any RSA certificate crashes,
    even one with the same key. -/
theorem C50_violated_created (uris : List Bytes) (p : PubKey) (t : RPKITAL) (h : createTAL uris p = .ok t)
    (k : RSAKey) : t.checkCertificate true (.rsaPtr k) = .panic := by
  cases p <;> simp [createTAL] at h <;> subst h <;> rfl

example : CertKey true (.rsaPtr ⟨5, 3⟩) ∧ CertKey false .other := by
  simp [CertKey]
example : createTAL [[97]] (.rsaPtr ⟨5, 3⟩) = .ok ⟨[[97]], true, true, .rsaVal ⟨5, 3⟩⟩ := rfl

/-! ## C67 — the rsync URI of a TAL -/

/-- **C67.** The rsync URI of a TAL is its first URI with the rsync scheme, if it has one; otherwise it
    is made from the last URI. -/
theorem C67_rsync_uri (sha1 : Bytes → Bytes) (t : RPKITAL) :
    (∀ pre u post, t.uri = pre ++ u :: post → rsyncScheme <+: u → (∀ v ∈ pre, ¬ rsyncScheme <+: v) →
      t.getRsyncURI sha1 = u) ∧
    ((∀ v ∈ t.uri, ¬ rsyncScheme <+: v) → t.getRsyncURI sha1 =
      rsyncScheme ++ asc ['r', 'f', 'c', '8', '6', '3', '0', '/', 'c', 'e', 'r', 't', 's', '/'] ++
        hex (sha1 (t.uri.getLast?.getD [])) ++ asc ['.', 'c', 'e', 'r']) := by
  have key1 : ∀ (us : List Bytes) (other : Bytes) pre u post, us = pre ++ u :: post → rsyncScheme <+: u →
      (∀ v ∈ pre, ¬ rsyncScheme <+: v) → (rsyncLoop us other).1 = u := by
    intro us
    induction us with
    | nil => intro o pre u post h; simp at h
    | cons x xs ih =>
      intro o pre u post h hu hp
      cases pre with
      | nil =>
        simp at h
        obtain ⟨rfl, rfl⟩ := h
        simp [rsyncLoop, (hasPrefix_iff _ _).mpr hu]
      | cons y pre =>
        simp at h
        obtain ⟨rfl, rfl⟩ := h
        have hx : hasPrefix x rsyncScheme ≠ true := fun hc => hp x (by simp) ((hasPrefix_iff _ _).mp hc)
        simp only [rsyncLoop, if_neg hx]
        exact ih x pre u post rfl hu (fun v hv => hp v (by simp [hv]))
  have key2 : ∀ (us : List Bytes) (other : Bytes), (∀ v ∈ us, ¬ rsyncScheme <+: v) →
      rsyncLoop us other = ([], us.getLast?.getD other) := by
    intro us
    induction us with
    | nil => intro o _; rfl
    | cons x xs ih =>
      intro o h
      have hx : hasPrefix x rsyncScheme ≠ true := fun hc => h x (by simp) ((hasPrefix_iff _ _).mp hc)
      simp only [rsyncLoop, if_neg hx]
      rw [ih x (fun v hv => h v (by simp [hv]))]
      cases xs with
      | nil => rfl
      | cons y ys => simp [List.getLast?_cons]
  constructor
  · intro pre u post h hu hp
    unfold RPKITAL.getRsyncURI
    have := key1 t.uri [] pre u post h hu hp
    simp only [this]
    rw [if_neg]
    rintro rfl
    simp [rsyncScheme, asc] at hu
  · intro h
    unfold RPKITAL.getRsyncURI
    simp only [key2 t.uri [] h, if_true]
    rfl

example : (RPKITAL.getRsyncURI id ⟨[[97], rsyncScheme ++ [98], rsyncScheme ++ [99]], true, true, .other⟩)
    = rsyncScheme ++ [98] := by decide +kernel

end Verif.Props
