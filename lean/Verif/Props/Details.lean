import Verif.Props.Content
import Verif.Props.Tal
import Verif.Props.Pki
import Verif.Lemmas.Output
/-
  Exact forms of what is written and read: characters of names in a manifest (C76), lines of a trust anchor locator (C49), the made up
  rsync address (C67), octets of a signed object (C73), the key of a revocation list (C92).
-/
set_option autoImplicit false

namespace Verif.Props
open Der Cms CmsSpec BerSpec Tal

/-! ### C76: characters of a name -/

/-- The characters of a PrintableString (X.680, 41.4), and the two that are accepted besides. -/
def printable : Bytes :=
  asc ("ABCDEFGHIJKLMNOPQRSTUVWXYZabcdefghijklmnopqrstuvwxyz0123456789 '()+,-./:=?".toList ++ ['*', '&'])

/-- The characters of a NumericString (X.680, 41.2). -/
def numeric : Bytes := asc "0123456789 ".toList

theorem isPrintable_iff (b : UInt8) : isPrintable b = true ↔ b ∈ printable := by
  have : ∀ n : Fin 256, isPrintable (UInt8.ofNat n.1) = decide (UInt8.ofNat n.1 ∈ printable) := by decide +kernel
  have h := this ⟨b.toNat, b.toNat_lt⟩
  simp only [UInt8.ofNat_toNat] at h
  rw [h, decide_eq_true_iff]

theorem isNumeric_iff (b : UInt8) : isNumeric b = true ↔ b ∈ numeric := by
  have : ∀ n : Fin 256, isNumeric (UInt8.ofNat n.1) = decide (UInt8.ofNat n.1 ∈ numeric) := by decide +kernel
  have h := this ⟨b.toNat, b.toNat_lt⟩
  simp only [UInt8.ofNat_toNat] at h
  rw [h, decide_eq_true_iff]

theorem parseString_elem {T : Type} (env : MftEnv T) (id : UInt8) (name rest : Bytes) (hl : name.length < 2 ^ 31)
    (h1 : id.toNat % 32 ≠ 31) (h2 : id.toNat / 64 = 0) (h3 : id.toNat % 32 ∈ [19, 22, 27, 20, 12, 18, 30]) (h4 : id &&& 0x20 ≠ 0x20) :
    parseString env (elem id name ++ rest) = (stringValue env (id.toNat % 32) name).bind fun s => .ok (s, rest) := by
  unfold parseString
  rw [if_neg (by simp [elem]), parseHeader_elem id name rest h1 hl]
  simp only [Go.ok_bind]
  rw [if_neg (by simp only [h2, h3, h4]; decide), if_neg (by simp)]
  simp only [List.take_left, List.drop_left, Go.pure_def]
  rfl

/-- C76. The name of a file in a manifest may be written as an IA5String (22), as RFC 6486 asks, or as a PrintableString (19), a
    NumericString (18), a T61String (20) or a GeneralString (27): it is read octet by octet, and exactly the names that are made of the characters of that
    type are accepted. -/
theorem C76_names {T : Type} (env : MftEnv T) (name rest x r : Bytes) (hl : name.length < 2 ^ 31) :
    (parseString env (elem 22 name ++ rest) = .ok (x, r) ↔ (x = name ∧ r = rest) ∧ ∀ b ∈ name, b < 0x80) ∧
    (parseString env (elem 19 name ++ rest) = .ok (x, r) ↔ (x = name ∧ r = rest) ∧ ∀ b ∈ name, b ∈ printable) ∧
    (parseString env (elem 18 name ++ rest) = .ok (x, r) ↔ (x = name ∧ r = rest) ∧ ∀ b ∈ name, b ∈ numeric) ∧
    (parseString env (elem 20 name ++ rest) = .ok (x, r) ↔ (x = name ∧ r = rest)) ∧
    (parseString env (elem 27 name ++ rest) = .ok (x, r) ↔ (x = name ∧ r = rest)) := by
  refine ⟨?_, ?_, ?_, ?_, ?_⟩
  · rw [parseString_elem env 22 name rest hl (by decide) (by decide) (by decide) (by decide)]
    show (stringValue env 22 name).bind _ = _ ↔ _
    simp only [stringValue, show ¬ (22 = 19) by decide, show ¬ (22 = 18) by decide, if_false, if_true]
    by_cases h : name.all (· < 0x80)
    · rw [if_pos h]
      simp only [List.all_eq_true, decide_eq_true_iff] at h
      simp only [Go.bind, Go.ok.injEq, Prod.mk.injEq]
      exact ⟨fun e => ⟨⟨e.1.symm, e.2.symm⟩, h⟩, fun e => ⟨e.1.1.symm, e.1.2.symm⟩⟩
    · rw [if_neg h]
      simp only [Go.bind]
      exact ⟨(fun e => by cases e), fun e => (h (by simpa using e.2)).elim⟩
  · rw [parseString_elem env 19 name rest hl (by decide) (by decide) (by decide) (by decide)]
    show (stringValue env 19 name).bind _ = _ ↔ _
    simp only [stringValue, if_true]
    by_cases h : name.all isPrintable
    · rw [if_pos h]
      simp only [List.all_eq_true, isPrintable_iff] at h
      simp only [Go.bind, Go.ok.injEq, Prod.mk.injEq]
      exact ⟨fun e => ⟨⟨e.1.symm, e.2.symm⟩, h⟩, fun e => ⟨e.1.1.symm, e.1.2.symm⟩⟩
    · rw [if_neg h]
      simp only [Go.bind]
      exact ⟨(fun e => by cases e), fun e => (h (by simpa [isPrintable_iff] using e.2)).elim⟩
  · rw [parseString_elem env 18 name rest hl (by decide) (by decide) (by decide) (by decide)]
    show (stringValue env 18 name).bind _ = _ ↔ _
    simp only [stringValue, show ¬ (18 = 19) by decide, if_false, if_true]
    by_cases h : name.all isNumeric
    · rw [if_pos h]
      simp only [List.all_eq_true, isNumeric_iff] at h
      simp only [Go.bind, Go.ok.injEq, Prod.mk.injEq]
      exact ⟨fun e => ⟨⟨e.1.symm, e.2.symm⟩, h⟩, fun e => ⟨e.1.1.symm, e.1.2.symm⟩⟩
    · rw [if_neg h]
      simp only [Go.bind]
      exact ⟨(fun e => by cases e), fun e => (h (by simpa [isNumeric_iff] using e.2)).elim⟩
  · rw [parseString_elem env 20 name rest hl (by decide) (by decide) (by decide) (by decide)]
    show (stringValue env 20 name).bind _ = _ ↔ _
    simp only [stringValue, show ¬ (20 = 19) by decide, show ¬ (20 = 18) by decide, show ¬ (20 = 22) by decide, true_or, if_false, if_true,
      Go.bind, Go.ok.injEq, Prod.mk.injEq]
    exact ⟨fun e => ⟨e.1.symm, e.2.symm⟩, fun e => ⟨e.1.symm, e.2.symm⟩⟩
  · rw [parseString_elem env 27 name rest hl (by decide) (by decide) (by decide) (by decide)]
    show (stringValue env 27 name).bind _ = _ ↔ _
    simp only [stringValue, show ¬ (27 = 19) by decide, show ¬ (27 = 18) by decide, show ¬ (27 = 22) by decide, or_true, if_false, if_true,
      Go.bind, Go.ok.injEq, Prod.mk.injEq]
    exact ⟨fun e => ⟨e.1.symm, e.2.symm⟩, fun e => ⟨e.1.symm, e.2.symm⟩⟩

/-- C76. No other type is read as a name: the first octet is the tag of an IA5String, PrintableString, NumericString, T61String,
    GeneralString, UTF8String (12) or BMPString (30). -/
theorem C76_name_types {T : Type} (env : MftEnv T) (bs x r : Bytes) (h : parseString env bs = .ok (x, r)) :
    ∃ id t, bs = id :: t ∧ id ∈ [22, 19, 18, 20, 27, 12, 30] := by
  unfold parseString at h
  split at h
  · cases h
  · obtain ⟨hd, h1, h'⟩ := Go.bind_eq_ok.mp h
    clear h
    have h := h'
    clear h'
    obtain ⟨id, more, hbs, -, h2, h3, h4⟩ := parseHeader_ok h1
    refine ⟨id, _, hbs, ?_⟩
    split at h
    · cases h
    · rename_i hn
      simp only [not_or, Decidable.not_not, Bool.not_eq_true] at hn
      obtain ⟨n1, n2, n3⟩ := hn
      rcases h4 with ⟨-, h5, -⟩ | h5
      · rw [n1] at h2
        rw [h5] at n2
        rw [n3] at h3
        have key : ∀ n : Fin 256, (UInt8.ofNat n.1).toNat / 64 = 0 → (UInt8.ofNat n.1).toNat % 32 ∈ [19, 22, 27, 20, 12, 18, 30] →
            ¬ (UInt8.ofNat n.1 &&& 0x20 = 0x20) → UInt8.ofNat n.1 ∈ [22, 19, 18, 20, 27, 12, 30] := by decide +kernel
        have := key ⟨id.toNat, id.toNat_lt⟩
        simp only [UInt8.ofNat_toNat] at this
        exact this h2.symm n2 (by simpa using h3.symm)
      · have : hd.1.tag < 31 := by
          simp only [List.mem_cons, List.not_mem_nil, or_false] at n2
          omega
        omega

example : (∀ b ∈ asc "a-b.roa".toList, b ∈ printable) ∧ (∀ b ∈ asc "12 34".toList, b ∈ numeric) ∧ ¬ (∀ b ∈ asc "a_b.roa".toList, b ∈ printable) ∧
    ¬ (∀ b ∈ asc "1.2".toList, b ∈ numeric) := by decide +kernel

/-! ### C49: lines of a trust anchor locator -/

theorem keySplit_lengths (key : Bytes) (split n i : Nat) (hs : 0 < split) (hn : (i + n) * split ≤ key.length) :
    ∀ p ∈ keySplit key split n i, p.length = split := by
  induction n generalizing i with
  | zero => simp [keySplit]
  | succ n ih =>
    have e1 : (i + 1) * split = i * split + split := by rw [Nat.add_mul]; omega
    have e2 : (i + (n + 1)) * split = (i + 1) * split + n * split := by rw [← Nat.add_mul]; congr 1; omega
    intro p hp
    simp only [keySplit, List.mem_cons] at hp
    rcases hp with rfl | hp
    · rw [List.length_take, List.length_drop]
      have : i * split + split ≤ key.length := by rw [← e1]; exact Nat.le_trans (Nat.le_add_right _ _) (e2 ▸ hn)
      rw [e1, Nat.min_eq_left this]; omega
    · exact ih (i + 1) (by rw [show i + 1 + n = i + (n + 1) by omega]; exact hn) p hp

theorem keySplit_snoc (key : Bytes) (split n i : Nat) :
    keySplit key split (n + 1) i = keySplit key split n i ++
      [(key.drop ((i + n) * split)).take (min ((i + n + 1) * split) key.length - (i + n) * split)] := by
  induction n generalizing i with
  | zero => simp [keySplit]
  | succ n ih =>
    rw [keySplit, ih (i + 1)]
    simp only [keySplit, List.cons_append]
    rw [show i + 1 + n = i + (n + 1) by omega]

/-- C49. A trust anchor locator that is written: the URIs, one on each line, an empty line, and the key in base64 (RFC 4648, without
    padding): in one line if no width is given, otherwise in lines of exactly that width and a last line that is shorter (and can be
    empty). -/
theorem C49_lines (asn : Asn) (t : RPKITAL) (split : Int) (out : Bytes) (h : encodeTALSize asn t split = .ok out) :
    ∃ k d, t.publicKey = .rsaVal k ∧ asn.marshalSPKI k = .ok d ∧
      (split ≤ 0 → out = join [0x0a] t.uri ++ [0x0a, 0x0a] ++ b64EncodeRaw d) ∧
      (0 < split → ∃ full last, out = join [0x0a] t.uri ++ [0x0a, 0x0a] ++ join [0x0a] (full ++ [last]) ∧
        full.flatten ++ last = b64EncodeRaw d ∧ (∀ p ∈ full, (p.length : Int) = split) ∧ (last.length : Int) < split) := by
  unfold encodeTALSize at h
  split at h
  · cases hk : t.publicKey with
    | rsaVal k =>
      rw [hk] at h
      obtain ⟨d, hd, h⟩ := Go.bind_eq_ok.mp h
      have h := (Go.ok.inj h).symm
      refine ⟨k, d, rfl, hd, fun hs => ?_, fun hs => ?_⟩
      · rw [h, wrap, if_neg (by omega)]
      · have hs' : 0 < split.toNat := by omega
        have hw : wrap (b64EncodeRaw d) split = join [0x0a] (keySplit (b64EncodeRaw d) split.toNat ((b64EncodeRaw d).length / split.toNat + 1) 0) := by
          rw [wrap, if_pos hs]
        have hdm := Nat.div_add_mod (b64EncodeRaw d).length split.toNat
        have hm := Nat.mod_lt (b64EncodeRaw d).length hs'
        have hmul : (b64EncodeRaw d).length / split.toNat * split.toNat ≤ (b64EncodeRaw d).length := Nat.div_mul_le_self _ _
        have hmc := Nat.mul_comm ((b64EncodeRaw d).length / split.toNat) split.toNat
        have hflat := keySplit_drop (b64EncodeRaw d) split.toNat ((b64EncodeRaw d).length / split.toNat + 1) 0 hs'
        have hge : (b64EncodeRaw d).length ≤ ((b64EncodeRaw d).length / split.toNat + 1) * split.toNat := by
          rw [Nat.add_mul]; omega
        rw [List.take_of_length_le (by simpa using hge)] at hflat
        simp only [Nat.zero_mul, List.drop_zero] at hflat
        rw [keySplit_snoc] at hw hflat
        refine ⟨_, _, by rw [h, hw], by simpa using hflat, fun p hp => ?_, ?_⟩
        · have := keySplit_lengths (b64EncodeRaw d) split.toNat _ 0 hs' (by simpa using hmul) p hp
          omega
        · rw [List.length_take, List.length_drop, Nat.zero_add]
          omega
    | _ => rw [hk] at h; cases h
  · cases h

namespace TalLines
/-- A key that is written as seven octets. -/
def asn : Asn := ⟨fun _ => .ok [1, 2, 3, 4, 5, 6, 7], fun _ => .err "", fun _ => .err ""⟩
def tal : RPKITAL := ⟨[asc "rsync://h/m/r.cer".toList, asc "https://h/r.cer".toList], true, true, .rsaVal ⟨15, 3⟩⟩
end TalLines

example : encodeTALSize TalLines.asn TalLines.tal 4 = .ok (asc "rsync://h/m/r.cer\nhttps://h/r.cer\n\nAQID\nBAUG\nBw".toList) ∧
    encodeTALSize TalLines.asn TalLines.tal 0 = .ok (asc "rsync://h/m/r.cer\nhttps://h/r.cer\n\nAQIDBAUGBw".toList) := by decide +kernel

/-! ### C67: the made up rsync address -/

/-- The digits of base 16. -/
def hexDigits : Bytes := asc "0123456789abcdef".toList

/-- C67. A locator without an rsync URI: the address under which its certificate is kept is made of the digest of its last URI in
    lower-case hexadecimal digits, two for each octet, the high half first. -/
theorem C67_hex (sha1 : Bytes → Bytes) (t : RPKITAL) (h : ∀ v ∈ t.uri, ¬ rsyncScheme <+: v) :
    t.getRsyncURI sha1 = asc "rsync://rfc8630/certs/".toList ++
      ((sha1 (t.uri.getLast?.getD [])).flatMap fun b => [hexDigits.getD (b.toNat / 16) 0, hexDigits.getD (b.toNat % 16) 0]) ++
      asc ".cer".toList := by
  rw [(C67_rsync_uri sha1 t).2 h]
  have hd : ∀ n : Fin 16, hexDigit n.1 = hexDigits.getD n.1 0 := by decide +kernel
  have hx : ∀ b : Bytes, hex b = b.flatMap fun b => [hexDigits.getD (b.toNat / 16) 0, hexDigits.getD (b.toNat % 16) 0] := by
    intro b
    induction b with
    | nil => rfl
    | cons a r ih =>
      have := a.toNat_lt
      rw [List.flatMap_cons, ← ih, hex, hd ⟨a.toNat / 16, by omega⟩, hd ⟨a.toNat % 16, by omega⟩]
      rfl
  rw [hx]
  rfl

example : RPKITAL.getRsyncURI (fun _ => [0xab, 0x09]) ⟨[asc "https://h/r.cer".toList], true, true, .other⟩ =
    asc "rsync://rfc8630/certs/ab09.cer".toList := by decide +kernel

/-! ### C73: the octets of a signed object -/

/-- The object identifiers id-signedData, id-sha256, rsaEncryption and the attributes id-contentType, id-signingTime, id-messageDigest. -/
def oidSignedData : Bytes := [0x2a, 0x86, 0x48, 0x86, 0xf7, 0x0d, 0x01, 0x07, 0x02]
def oidSha256 : Bytes := [0x60, 0x86, 0x48, 0x01, 0x65, 0x03, 0x04, 0x02, 0x01]
def oidRsa : Bytes := [0x2a, 0x86, 0x48, 0x86, 0xf7, 0x0d, 0x01, 0x01, 0x01]
def oidContentType : Bytes := [0x2a, 0x86, 0x48, 0x86, 0xf7, 0x0d, 0x01, 0x09, 0x03]
def oidSigningTime : Bytes := [0x2a, 0x86, 0x48, 0x86, 0xf7, 0x0d, 0x01, 0x09, 0x05]
def oidMessageDigest : Bytes := [0x2a, 0x86, 0x48, 0x86, 0xf7, 0x0d, 0x01, 0x09, 0x04]

/-- One attribute with one value (RFC 5652, 5.3). -/
def signedAttr (oid value : Bytes) : Bytes := elem 0x30 (elem 0x06 oid ++ elem 0x31 value)

theorem sortSet_single (x : Bytes) : sortSet [x] = [x] := rfl

theorem marshalOptRaw_zero : marshalOptRaw .zero = [] := rfl

theorem marshalOptRaw_full (id : UInt8) (b : Bytes) : marshalOptRaw (rawFull (elem id b)) = elem id b := by
  unfold marshalOptRaw
  rw [if_neg (by intro h; exact elem_ne_nil id b (congrArg Elem.full h)), rawFull_raw (elem_ne_nil _ _)]

theorem elem_short (id : UInt8) (c : Bytes) (h : c.length < 128) : elem id c = id :: c.length.toUInt8 :: c := by
  simp [elem, derLength, h]

theorem signedAttr_length (oid value : Bytes) (h1 : oid.length = 9) (h2 : value.length ≤ 40) :
    (signedAttr oid value).length = 15 + value.length := by
  unfold signedAttr
  rw [elem_short 0x06 _ (by omega), elem_short 0x31 _ (by omega), elem_short 0x30 _ (by simp; omega)]
  simp only [List.length_cons, List.length_append]
  omega

/-- C73. The octets of an object made and signed with this library (RFC 5652, 5.1, RFC 6488): version 3, the digest algorithm, the
    content with its type, the certificate, no revocation lists, and one signer: version 3, the subject key identifier, the digest
    algorithm, the three signed attributes in the order of a DER set, the signature algorithm and the signature. The signature is made
    over the digest of the DER set of those same attributes. -/
theorem C73_octets (sha256 : Bytes → Bytes) (priv : PrivKey) (cert0 cbody timeDer ski content : Bytes) (e : Encap)
    (hcb : cbody.length < 2 ^ 31) (hsha : (sha256 content).length = 32) (hoid : e.oid.length ≤ 20) (htime : timeDer.length ≤ 20) (c : CMS)
    (hc : (encodeCMS cert0 e timeDer).sign sha256 (some ski) content priv (elem 0x30 cbody) = .ok c) :
    ∃ attrs : List Bytes, ∃ sig : Bytes,
      attrs.Perm [signedAttr oidContentType (elem 0x06 e.oid), signedAttr oidSigningTime timeDer,
        signedAttr oidMessageDigest (elem 0x04 (sha256 content))] ∧
      attrs.Pairwise (· ≤ ·) ∧
      marshalCMS c = elem 0x30 (elem 0x06 oidSignedData ++ elem 0xa0 (elem 0x30 (
        elem 0x02 [3] ++ elem 0x31 (elem 0x30 (elem 0x06 oidSha256)) ++ elem 0x30 (elem 0x06 e.oid ++ e.econtent) ++
        elem 0xa0 (elem 0x30 cbody) ++
        elem 0x31 (elem 0x30 (elem 0x02 [3] ++ elem 0x80 ski ++ elem 0x30 (elem 0x06 oidSha256) ++ elem 0xa0 attrs.flatten ++
          elem 0x30 (elem 0x06 oidRsa ++ [0x05, 0x00]) ++ elem 0x04 sig))))) ∧
      encryptSignatureRSA (sha256 (elem 0x31 attrs.flatten)) priv = .ok sig := by
  obtain ⟨sig, certM, h1, h2, rfl⟩ := sign_eq rfl hc
  have hcm : certM = rawFull (elem 0xa0 (elem 0x30 cbody)) := by
    unfold wrapCertificate at h2
    have := parseAny_elem 0x30 cbody [] (by decide) hcb
    rw [List.append_nil] at this
    rw [this] at h2
    simp only [Go.ok_bind, tlv_elem] at h2
    exact (Go.ok.inj h2).symm
  have hA : ([⟨contentTypeOID, [rawFull (tlv 0x06 e.oid)]⟩, ⟨signingTimeOID, [rawFull timeDer]⟩] ++
        [digestAttribute sha256 content] : List Attribute).map marshalAttr =
      [signedAttr oidContentType (elem 0x06 e.oid), signedAttr oidSigningTime timeDer,
        signedAttr oidMessageDigest (elem 0x04 (sha256 content))] := by
    simp only [marshalAttr, digestAttribute, signedAttr, tlv_elem, marshalSet, rawFull, List.cons_append, List.nil_append, List.map_cons,
      List.map_nil, sortSet_single, List.flatten_cons, List.flatten_nil, List.append_nil]
    rfl
  generalize hL : [signedAttr oidContentType (elem 0x06 e.oid), signedAttr oidSigningTime timeDer,
        signedAttr oidMessageDigest (elem 0x04 (sha256 content))] = L at hA ⊢
  have hlen : (sortSet L).flatten.length < 126 := by
    rw [sortSet_length, ← hL]
    have e1 : (elem 0x06 e.oid).length = e.oid.length + 2 := by rw [elem_short _ _ (by omega)]; rfl
    have e3 : (elem 0x04 (sha256 content)).length = (sha256 content).length + 2 := by rw [elem_short _ _ (by omega)]; rfl
    have a1 := signedAttr_length oidContentType (elem 0x06 e.oid) (by decide) (by omega)
    have a2 := signedAttr_length oidSigningTime timeDer (by decide) (by omega)
    have a3 := signedAttr_length oidMessageDigest (elem 0x04 (sha256 content)) (by decide) (by omega)
    simp only [List.flatten_cons, List.flatten_nil, List.length_append, List.length_nil, a1, a2, a3]
    omega
  refine ⟨sortSet L, sig, sortSet_perm _, sortSet_sorted _, ?_, ?_⟩
  · subst hcm
    simp only [encodeCMS, marshalCMS, marshalSignedData, marshalSignerInfo, List.map_cons, List.map_nil, marshalSet, marshalSignedAttrs]
    rw [if_neg (by simp), hA]
    simp only [tlv_elem, rawFull_raw (elem_ne_nil _ _), sortSet_single, List.flatten_cons, List.flatten_nil, List.append_nil,
      marshalOptRaw_zero, marshalOptRaw_full, marshalEncap, List.append_assoc]
    rfl
  · simp only [attrSet] at h1
    rw [hA] at h1
    rw [marshalSet, tlv_elem, elem_short 0x30 _ (by rw [elem_short _ _ (by omega)]; simp only [List.length_cons]; omega)] at h1
    exact h1

/-- All the hypotheses of `C73_octets`. -/
example : (∃ cbody, SignEx.cert = elem 0x30 cbody ∧ cbody.length < 2 ^ 31) ∧ (CmsEx.sha SignEx.roaContent).length = 32 ∧
    (encodeROA 64496 SignEx.entries).oid.length ≤ 20 ∧ SignEx.timeDer.length ≤ 20 ∧
    ∃ c, (encodeCMS [] (encodeROA 64496 SignEx.entries) SignEx.timeDer).sign CmsEx.sha (some [1, 2]) SignEx.roaContent SignEx.priv SignEx.cert =
      .ok c :=
  ⟨SignEx.inputs.cert, SignEx.inputs.sha _, by decide +kernel, by decide +kernel,
    (C73_sign_succeeds _ _ _ _ _ _ _ _ SignEx.inputs).mpr (by decide +kernel)⟩

/-! ### C92: the key of a revocation list -/

/-- C92. The key a revocation list is filed under: the octets from the fifth on of its authority key identifier (the last one, if there
    are several; values of up to four octets do not count), none if there is no such extension. -/
theorem C92_key (l : Pki.CRL) :
    (∀ pre v post, l.exts = pre ++ (true, v) :: post → 4 < v.length → (∀ e ∈ post, e.1 = true → e.2.length ≤ 4) → l.aki = v.drop 4) ∧
    ((∀ e ∈ l.exts, e.1 = true → e.2.length ≤ 4) → l.aki = []) := by
  have key : ∀ (es : List (Bool × Bytes)) (a : Bytes), (∀ e ∈ es, e.1 = true → e.2.length ≤ 4) →
      es.foldl (fun a e => if e.1 && decide (e.2.length > 4) then e.2.drop 4 else a) a = a := by
    intro es
    induction es with
    | nil => intros; rfl
    | cons e es ih =>
      intro a h
      rw [List.foldl_cons, if_neg, ih a fun x hx => h x (List.mem_cons_of_mem _ hx)]
      intro hc
      simp only [Bool.and_eq_true, decide_eq_true_iff] at hc
      have := h e List.mem_cons_self hc.1
      omega
  refine ⟨fun pre v post h hv hp => ?_, fun h => key _ _ h⟩
  unfold Pki.CRL.aki
  rw [h, List.foldl_append, List.foldl_cons, key post _ hp, if_pos (by simp; omega)]

example : (⟨[(true, [1, 2, 3, 4, 5]), (false, [9, 9, 9, 9, 9, 9]), (true, [1, 2, 3, 4, 7, 8]), (true, [1, 2, 3, 4])], [], []⟩ : Pki.CRL).aki = [7, 8] := by
  decide +kernel

end Verif.Props
