import Verif.Lemmas.Spki
import Verif.Props.Tal
/-
  Property theorems for the octets of RSA keys: C112 (keys in locators, key identifiers), and C49 for
  the keys in use.
-/
set_option autoImplicit false

namespace Verif.Props
open Tal TalSpec SpkiSpec CmsSpec BerSpec

/-! ## C112 — key identifiers -/

/-- **C112, identifier.** The identifier of an RSA key, given as a value or as a pointer, is the SHA-1
    digest of the DER form of the key (RFC 5280 4.2.1.2, method 1), and there is one such form. -/
theorem C112_identifier (sha1 : Bytes → Bytes) (k : RSAKey) (he : -2 ^ 63 ≤ k.e ∧ k.e < 2 ^ 63) :
    (∃ der, RsaKeyDer k.n k.e der) ∧
    ∀ der, RsaKeyDer k.n k.e der →
      hashPublicKey sha1 (.rsaPtr k) = .ok (sha1 der) ∧ hashPublicKey sha1 (.rsaVal k) = .ok (sha1 der) := by
  refine ⟨⟨_, marshalRSA_der k he⟩, fun der h => ?_⟩
  rw [rsaKeyDer_unique h (marshalRSA_der k he)]
  exact ⟨rfl, rfl⟩

/-- **C112, other keys.** A key has an identifier exactly if it is an RSA key; otherwise there is an error,
    never a crash. -/
theorem C112_other_kinds (sha1 : Bytes → Bytes) (key : PubKey) :
    ((∃ id, hashPublicKey sha1 key = .ok id) ↔ ∃ k, key = .rsaPtr k ∨ key = .rsaVal k) ∧
    ((¬ ∃ k, key = .rsaPtr k ∨ key = .rsaVal k) → hashPublicKey sha1 key = .err "Public key is not RSA") := by
  cases key <;> simp [hashPublicKey, hashRSAPublicKey]

/-- **C112, injective.** Two RSA keys with the same identifier are the same key, or there is a collision
    of SHA-1. -/
theorem C112_identifies (sha1 : Bytes → Bytes) (k k' : RSAKey) (hk : Usable k.n k.e) (hk' : Usable k'.n k'.e)
    (id : Bytes) (h : hashPublicKey sha1 (.rsaPtr k) = .ok id) (h' : hashPublicKey sha1 (.rsaPtr k') = .ok id) :
    k = k' ∨ ∃ x y, RsaKeyDer k.n k.e x ∧ RsaKeyDer k'.n k'.e y ∧ x ≠ y ∧ sha1 x = sha1 y := by
  have e1 := marshalRSA_der k ⟨hk.1, hk.2.1⟩
  have e2 := marshalRSA_der k' ⟨hk'.1, hk'.2.1⟩
  by_cases hx : marshalRSA k = marshalRSA k'
  · left
    have r1 := read_rsa e1 ⟨hk.1, hk.2.1⟩ (usable_length hk).2
    have r2 := read_rsa e2 ⟨hk'.1, hk'.2.1⟩ (usable_length hk').2
    rw [hx, r2] at r1
    exact (Go.ok.inj r1).symm
  · exact .inr ⟨_, _, e1, e2, hx, Go.ok.inj (h.trans h'.symm)⟩

/-- A small key -/
def smallKey : RSAKey := ⟨3233, 17⟩

example : marshalRSA smallKey = [0x30, 7, 2, 2, 0x0c, 0xa1, 2, 1, 17] ∧
    marshalSPKI smallKey = [0x30, 27, 0x30, 13, 6, 9, 0x2a, 0x86, 0x48, 0x86, 0xf7, 0x0d, 1, 1, 1, 5, 0,
      3, 10, 0, 0x30, 7, 2, 2, 0x0c, 0xa1, 2, 1, 17] := by decide +kernel

theorem smallKey_usable : Usable smallKey.n smallKey.e :=
  ⟨by decide, by decide, marshalSPKI smallKey, marshalSPKI_der _ ⟨by decide, by decide⟩, by decide +kernel⟩

example : Usable smallKey.n smallKey.e ∧
    hashPublicKey (fun b => b) (.rsaPtr smallKey) = .ok [0x30, 7, 2, 2, 0x0c, 0xa1, 2, 1, 17] ∧
    hashPublicKey (fun b => b) .other = .err "Public key is not RSA" :=
  ⟨smallKey_usable, by decide +kernel, rfl⟩

/-! ## C112 — the key in a locator -/

/-- **C112, written.** What a locator carries for a key is the base64 text of the key's subject public key
    info (RFC 5280), in lines of 64 characters: on the empty line follow full lines and a shorter last one. -/
theorem C112_written (t : RPKITAL) (k : RSAKey) (hr : t.isRSAOID = true) (hk : t.publicKey = .rsaVal k)
    (he : -2 ^ 63 ≤ k.e ∧ k.e < 2 ^ 63) :
    ∃ d, SpkiDer k.n k.e d ∧ (∀ d', SpkiDer k.n k.e d' → d' = d) ∧
      encodeTAL t = .ok (join [0x0a] t.uri ++ [0x0a, 0x0a] ++ wrap (b64EncodeRaw d) 64) := by
  refine ⟨_, marshalSPKI_der k he, fun d' h' => spkiDer_unique h' (marshalSPKI_der k he), ?_⟩
  unfold encodeTAL encodeTALSize
  rw [if_pos hr, hk]
  rfl

/-- **C112, read.** A locator whose body is the base64 text of the info of a usable key is read as its
    URIs and that key. -/
theorem C112_read (uris : List Bytes) (k : RSAKey) (hk : Usable k.n k.e) (d text : Bytes) (hd : SpkiDer k.n k.e d)
    (h : TalText uris (base64 d) text) :
    decodeTAL derAsn text = .ok ⟨uris, true, true, .rsaPtr k⟩ := by
  have hl : d.length < 2 ^ 31 := by
    obtain ⟨_, _, d', hd', hl⟩ := hk
    rw [spkiDer_unique hd hd']; exact hl
  obtain ⟨bits, r1, r2⟩ := read_lax (k := k) (spkiDer_lax hd) ⟨hk.1, hk.2.1⟩ hl
  exact C48_decode derAsn uris d text bits k h r1 r2

/-- **C112, exact.** A locator with the base64 text of `d` is read as the RSA key `k` exactly if `d` is
    the lax form of `k`: the only key that comes out of a locator is the one written in it. -/
theorem C112_exact (uris : List Bytes) (k : RSAKey) (d text : Bytes) (hl : d.length < 2 ^ 31)
    (h : TalText uris (base64 d) text) :
    decodeTAL derAsn text = .ok ⟨uris, true, true, .rsaPtr k⟩ ↔
      LaxSpki k.n k.e d ∧ -2 ^ 63 ≤ k.e ∧ k.e < 2 ^ 63 := by
  constructor
  · intro hdec
    unfold decodeTAL decodeKey at hdec
    rw [C48_text _ _ _ h] at hdec
    simp only [decodeStd_base64, Go.ok_bind] at hdec
    obtain ⟨i, hi, hdec⟩ := Go.bind_eq_ok.mp hdec
    split at hdec
    · rename_i h1
      obtain ⟨k', hk', hdec⟩ := Go.bind_eq_ok.mp hdec
      simp only [Go.pure_def, Go.ok.injEq, RPKITAL.mk.injEq, PubKey.rsaPtr.injEq] at hdec
      rw [← hdec.2.2.2]
      have hi' : unmarshalSPKI d = .ok (true, i.2) := by
        rw [← h1]; exact hi
      exact lax_read hi' hk'
    · simp at hdec
  · rintro ⟨h1, h2, h3⟩
    obtain ⟨bits, r1, r2⟩ := read_lax h1 ⟨h2, h3⟩ hl
    exact C48_decode derAsn uris d text bits k h r1 r2

/-- **C112, any input.** No text makes the decoder of locators crash or run for ever. -/
theorem C112_total (text : Bytes) : decodeTAL derAsn text ≠ .panic ∧ decodeTAL derAsn text ≠ .diverge :=
  safe_decodeTAL text

/-- **C112, check.** A locator with the info of a usable key, and a certificate with an RSA key: the check
    of the key says yes exactly if the certificate has that key. -/
theorem C112_check (uris : List Bytes) (k : RSAKey) (hk : Usable k.n k.e) (d text : Bytes) (hd : SpkiDer k.n k.e d)
    (h : TalText uris (base64 d) text) (c : RSAKey) :
    ∃ t, decodeTAL derAsn text = .ok t ∧ t.uri = uris ∧
      t.checkCertificate true (.rsaPtr c) = .ok (decide (c = k)) := by
  refine ⟨_, C112_read uris k hk d text hd h, rfl, ?_⟩
  obtain ⟨n, e⟩ := k
  obtain ⟨n', e'⟩ := c
  simp only [RPKITAL.checkCertificate, RSAKey.mk.injEq, Bool.decide_and]
  simp only [eq_comm, Bool.and_self, if_true]

/-- "rsync://a\n\n" and a body in one line -/
def oneLine (body : Bytes) : Bytes := asc ['r', 's', 'y', 'n', 'c', ':', '/', '/', 'a', '\n', '\n'] ++ body

theorem oneLine_text (d : Bytes) : TalText [asc ['r', 's', 'y', 'n', 'c', ':', '/', '/', 'a']] (base64 d) (oneLine (base64 d)) := by
  refine ⟨_, [10], _, Head.uri (asc ['r', 's', 'y', 'n', 'c', ':', '/', '/', 'a']) [10] _ _
    ⟨by decide, by decide, by decide, by decide⟩ (.inl rfl) .nil, .inl rfl, Body.last (base64 d)
      (fun h => (base64_noeol d _ h).1 rfl) (fun h => (base64_noeol d _ h).2 rfl), by simp [oneLine]; rfl⟩

example : decodeTAL derAsn (oneLine (base64 (marshalSPKI smallKey))) =
    .ok ⟨[asc ['r', 's', 'y', 'n', 'c', ':', '/', '/', 'a']], true, true, .rsaPtr smallKey⟩ :=
  C112_read _ _ smallKey_usable _ _ (marshalSPKI_der _ ⟨by decide, by decide⟩) (oneLine_text _)

/-- The info of the key with modulus 0 and exponent -1, with four octets more inside and one behind. -/
def oddInfo : Bytes := [0x30, 0x1d, 0x30, 0x0b, 6, 9, 0x2a, 0x86, 0x48, 0x86, 0xf7, 0x0d, 1, 1, 1,
  3, 0x0a, 3, 0x30, 6, 2, 1, 0, 2, 1, 0xff, 0x08, 0xde, 0xad, 0xbe, 0xef, 0x00]

/-- **C112 is violated** as regards form and use of the key: a locator is accepted although its info is
    not the DER form of any key (no parameters, unused bits, octets behind) and the key, with modulus
    zero, can verify nothing. -/
theorem C112_violated_lax : ∃ uris d text k, TalText uris (base64 d) text ∧
    decodeTAL derAsn text = .ok ⟨uris, true, true, .rsaPtr k⟩ ∧ k.n = 0 ∧ k.e = -1 ∧ (∀ n e, ¬ SpkiDer n e d) := by
  refine ⟨_, oddInfo, oneLine (base64 oddInfo), ⟨0, -1⟩, oneLine_text _, ?_, rfl, rfl, ?_⟩
  · have h1 : unmarshalSPKI oddInfo = .ok (true, [0x30, 6, 2, 1, 0, 2, 1, 0xff, 0x08]) := by decide +kernel
    have h2 : unmarshalRSA [0x30, 6, 2, 1, 0, 2, 1, 0xff, 0x08] = .ok ⟨0, -1⟩ := by decide +kernel
    exact C48_decode derAsn _ oddInfo _ _ _ (oneLine_text _) h1 h2
  · rintro n e ⟨key, -, hd⟩
    have h2 : oddInfo = elem 0x30 (oddInfo.drop 2 |>.take 29) ++ [0x00] := by decide +kernel
    have h3 := Ext.elem_app_inj (r := [0x00]) (r' := []) (by rw [← h2]; decide) (by rw [← h2, List.append_nil]; exact hd)
    exact absurd h3.2.2 (by decide)

/-! ## C49 — round trip of locators, for keys -/

/-- **C49, which keys survive.** A locator made for an RSA key, written in lines of 64 characters, is read
    back as the same URIs and the same key exactly if the length of the key's info is a multiple of three;
    otherwise it cannot be read at all. -/
theorem C49_keys (uris : List Bytes) (hu : ∀ u ∈ uris, UriLine u) (k : RSAKey) (hk : Usable k.n k.e) (d : Bytes)
    (hd : SpkiDer k.n k.e d) :
    ∃ t text, createTAL uris (.rsaPtr k) = .ok t ∧ encodeTAL t = .ok text ∧
      (d.length % 3 = 0 → decodeTAL derAsn text = .ok ⟨uris, true, true, .rsaPtr k⟩) ∧
      (d.length % 3 ≠ 0 → ∃ m, decodeTAL derAsn text = .err m) := by
  have e := spkiDer_unique hd (marshalSPKI_der k ⟨hk.1, hk.2.1⟩)
  subst e
  obtain ⟨bits, r1, r2⟩ := read_lax (k := k) (spkiDer_lax hd) ⟨hk.1, hk.2.1⟩ (usable_length hk).1
  by_cases hl : (marshalSPKI k).length % 3 = 0
  · obtain ⟨t, text, h1, h2, h3⟩ := C49_round_trip_partial derAsn uris hu k _ bits rfl r1 r2 hl 64
    exact ⟨t, text, h1, h2, fun _ => h3, fun h => absurd hl h⟩
  · obtain ⟨t, text, m, h1, h2, h3⟩ := C49_violated_length derAsn uris hu k _ rfl hl 64
    exact ⟨t, text, h1, h2, fun h => absurd h hl, fun _ => ⟨m, h3⟩⟩

/-- A modulus of exactly `bits` bits, and the exponent that everyone uses. -/
def KeyOfBits (bits : Nat) (k : RSAKey) : Prop := 2 ^ (bits - 1) ≤ k.n ∧ k.n < 2 ^ bits ∧ k.e = 65537

theorem spkiLength_of_bits {m : Nat} {k : RSAKey} (h : KeyOfBits (8 * (m + 1)) k) (hm : 254 ≤ m) (hm2 : m < 60000) :
    SpkiDer k.n k.e (marshalSPKI k) ∧ (marshalSPKI k).length = m + 39 ∧ Usable k.n k.e := by
  obtain ⟨h1, h2, h3⟩ := h
  have he : Int64 k.e := by rw [h3]; exact ⟨by norm_num, by norm_num⟩
  have hd := marshalSPKI_der k he
  have p1 : (2 : Int) ^ (8 * (m + 1) - 1) = 128 * 256 ^ m := by
    have : 8 * (m + 1) - 1 = 7 + 8 * m := by omega
    rw [this, pow_add, pow_mul]; norm_num
  have p2 : (2 : Int) ^ (8 * (m + 1)) = 256 * 256 ^ m := by
    have : 8 * (m + 1) = 8 + 8 * m := by omega
    rw [this, pow_add, pow_mul]; norm_num
  rw [p1] at h1
  rw [p2] at h2
  have hl := spki_length (n := k.n) (d := marshalSPKI k) (by rw [← h3]; exact hd) h1 h2 hm hm2
  exact ⟨hd, hl, he.1, he.2, _, hd, by rw [hl]; omega⟩

/-- **C49, keys of whole octets.** For every key with a modulus of `8 * (m + 1)` bits and exponent 65537
    (from 2040 bits on), the locator survives exactly if `m` is a multiple of three. -/
theorem C49_sizes (uris : List Bytes) (hu : ∀ u ∈ uris, UriLine u) (m : Nat) (hm : 254 ≤ m) (hm2 : m < 60000) (k : RSAKey)
    (h : KeyOfBits (8 * (m + 1)) k) :
    ∃ t text, createTAL uris (.rsaPtr k) = .ok t ∧ encodeTAL t = .ok text ∧
      (m % 3 = 0 → decodeTAL derAsn text = .ok ⟨uris, true, true, .rsaPtr k⟩) ∧
      (m % 3 ≠ 0 → ∃ msg, decodeTAL derAsn text = .err msg) := by
  obtain ⟨hd, hl, hk⟩ := spkiLength_of_bits h hm hm2
  obtain ⟨t, text, h1, h2, h3, h4⟩ := C49_keys uris hu k hk _ hd
  rw [hl] at h3 h4
  exact ⟨t, text, h1, h2, fun hx => h3 (by omega), fun hx => h4 (by omega)⟩

/-- **C49 for the keys of the RPKI** (RFC 7935: 2048 bits, exponent 65537): every locator survives. -/
theorem C49_rsa2048 (uris : List Bytes) (hu : ∀ u ∈ uris, UriLine u) (k : RSAKey) (h : KeyOfBits 2048 k) :
    ∃ t text, createTAL uris (.rsaPtr k) = .ok t ∧ encodeTAL t = .ok text ∧
      decodeTAL derAsn text = .ok ⟨uris, true, true, .rsaPtr k⟩ := by
  obtain ⟨t, text, h1, h2, h3, -⟩ := C49_sizes uris hu 255 (by decide) (by decide) k h
  exact ⟨t, text, h1, h2, h3 (by decide)⟩

/-- **C49 is violated for every key of 4096 bits** (exponent 65537): the locator that is written cannot
    be read. -/
theorem C49_violated_rsa4096 (uris : List Bytes) (hu : ∀ u ∈ uris, UriLine u) (k : RSAKey) (h : KeyOfBits 4096 k) :
    ∃ t text msg, createTAL uris (.rsaPtr k) = .ok t ∧ encodeTAL t = .ok text ∧ decodeTAL derAsn text = .err msg := by
  obtain ⟨t, text, h1, h2, -, h4⟩ := C49_sizes uris hu 511 (by decide) (by decide) k h
  obtain ⟨msg, h5⟩ := h4 (by decide)
  exact ⟨t, text, msg, h1, h2, h5⟩

/-- Keys of these sizes: the smallest numbers. -/
example : KeyOfBits 2048 ⟨2 ^ 2047, 65537⟩ ∧ KeyOfBits 4096 ⟨2 ^ 4095, 65537⟩ :=
  ⟨⟨le_refl _, pow_lt_pow_right₀ (by norm_num) (by norm_num), rfl⟩,
   ⟨le_refl _, pow_lt_pow_right₀ (by norm_num) (by norm_num), rfl⟩⟩

/-! ## C67 — the first URI -/

/-- **C67, name of a locator.** The URI that stands for a locator in messages is its first one, whatever
    its scheme; a locator without a URI is called "unknown". -/
theorem C67_first_uri (t : RPKITAL) :
    (∀ u rest, t.uri = u :: rest → t.getURI = u) ∧ (t.uri = [] → t.getURI = asc ['u', 'n', 'k', 'n', 'o', 'w', 'n']) := by
  refine ⟨fun u rest h => ?_, fun h => ?_⟩ <;> simp [RPKITAL.getURI, h]

example : RPKITAL.getURI ⟨[[97], [98]], true, true, .other⟩ = [97] := rfl

end Verif.Props
