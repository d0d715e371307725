import Verif.Lemmas.CmsLib
import Verif.Props.Roa
import Verif.Props.Ber
import Verif.Props.Cms
import Mathlib.NumberTheory.LucasLehmer
/-
  C73-C76: contents of signed objects, and objects made by this library.  `CmsSpec` (Spec/Cms,
  Spec/Content, Spec/Rsa) is the independent specification.
-/
set_option autoImplicit false

namespace Verif.Props
open Der Cms CmsSpec BerSpec ResSpec Roa

/-! ### C74: ROA contents -/

/-- C74. The DER encoding of a RouteOriginAttestation (RFC 6482), whatever follows it, is read as its
    AS number and its prefixes, one entry for each, in order: the address bytes and the mask of the
    prefix, and its max length, or the prefix length where there is none. -/
theorem C74_roa_content_read (asn : Nat) (fams : List (RoaFamily × Nat)) (out rest : Bytes)
    (h : RoaDer asn (fams.map (·.1)) out) (hl : out.length < 2 ^ 31) (hasn : asn < 2 ^ 63)
    (hf : ∀ f ∈ fams, IsFamily f.1.afi f.2 ∧ ∀ p ∈ f.1.prefixes, p.length ≤ 8 * f.2)
    (hm : ∀ f ∈ fams, ∀ p ∈ f.1.prefixes, ∀ k, p.maxLength = some k → k < 2 ^ 63) :
    ∃ c es, unmarshalROA (out ++ rest) = .ok c ∧ convertROAEntries c = .ok (es, (asn : Int)) ∧
      List.Forall₂ (fun (p : RoaPrefix × Nat) (e : ROAEntry) =>
          e.ipnet.ip.length = p.2 ∧ e.ipnet.mask.length = p.2 ∧ IsMask p.1.length e.ipnet.mask ∧
          beVal e.ipnet.ip = p.1.value * 2 ^ (8 * p.2 - p.1.length) ∧
          e.maxLength = p.1.maxLength.getD p.1.length)
        (fams.flatMap fun f => f.1.prefixes.map fun p => (p, f.2)) es := by
  obtain ⟨gs, h1, h2⟩ := unmarshalROA_der h hl hasn (by
    intro f hf p hp k hk
    obtain ⟨x, hx, rfl⟩ := List.mem_map.mp hf
    exact hm x hx p hp k hk) rest
  obtain ⟨es, h3, h4⟩ := convertBlocks_read fams gs h2 hf
  refine ⟨_, es, h1, ?_, ?_⟩
  · unfold convertROAEntries; simp [h3]
  · refine List.Forall₂.imp ?_ h4
    rintro ⟨p, s⟩ e ⟨a, b, c, d, e'⟩
    refine ⟨a, b, c, d, ?_⟩
    rw [e']
    cases p.maxLength <;> rfl

theorem intContent_one (a : UInt8) (h : a < 0x80) : IntContent a.toNat [a] := by
  refine ⟨by simp, ?_, ?_⟩
  · have : ¬ 0x80 ≤ a := by simpa using h
    simp [twos, beVal, this]
  · intro c' hc _
    cases c' with
    | nil => exact absurd rfl hc
    | cons => simp

/-- A conforming content: AS 5 with 10.1.0.0/16 up to 24. -/
example : RoaDer 5 [⟨[0, 1], [⟨16, 0x0a01, some 24⟩]⟩]
      [0x30, 0x17, 0x02, 0x01, 0x05, 0x30, 0x12, 0x30, 0x10, 0x04, 0x02, 0x00, 0x01, 0x30, 0x0a,
       0x30, 0x08, 0x03, 0x03, 0x00, 0x0a, 0x01, 0x02, 0x01, 0x18] :=
  ⟨[5], [elem 0x30 (elem 0x04 [0, 1] ++ elem 0x30 (elem 0x30 (elem 0x03 [0, 0x0a, 1] ++ elem 0x02 [24])))],
    intContent_one 5 (by decide), .cons ⟨[elem 0x30 (elem 0x03 [0, 0x0a, 1] ++ elem 0x02 [24])], .cons
      ⟨[0, 0x0a, 1], elem 0x02 [24], ⟨[0x0a, 1], rfl, rfl, by simp [beVal]⟩, ⟨[24], intContent_one 24 (by decide), rfl⟩, rfl⟩
      .nil, by simp⟩ .nil, by decide +kernel⟩

/-- Entries that can be written: proper prefixes, not IPv4-mapped, and a max length that is -1 (none)
    or a number of at most 63 bits. -/
def Writable (e : ROAEntry) : Prop := GoodEntry e ∧ -1 ≤ e.maxLength ∧ e.maxLength < 2 ^ 63

theorem addrOk_of {e : ROAEntry} (h : Writable e) : AddrOk (Cert.ipNetToBitString e.ipnet, e.maxLength) := by
  obtain ⟨⟨h1, _, _⟩, h2, h3⟩ := h
  have hfam : ∃ fam, IsFamily fam e.ipnet.ip.length := by
    rcases h1.2.1 with hs | hs
    · exact ⟨[0, 1], 0, [], .inl ⟨rfl, hs⟩⟩
    · exact ⟨[0, 2], 0, [], .inr ⟨rfl, hs⟩⟩
  obtain ⟨fam, hf⟩ := hfam
  obtain ⟨_, _, _, hb, _⟩ := decodeIP_encode h1 hf
  exact ⟨hb, h2, h3⟩

theorem blocks_addrOk {asn : Int} {l : List ROAEntry} (h : ∀ e ∈ l, Writable e) :
    ∀ g ∈ (encodeROAEntries asn l).blocks, ∀ a ∈ g.addresses, AddrOk a := by
  intro g hg a ha
  simp only [encodeROAEntries, List.mem_append] at hg
  rcases hg with hg | hg
  · split at hg
    · simp at hg
    · simp at hg
      subst hg
      simp only [encodeROAFamily, List.mem_map] at ha
      obtain ⟨e, he, rfl⟩ := ha
      exact addrOk_of (h e (List.mem_filter.mp he).1)
  · split at hg
    · simp at hg
    · simp at hg
      subst hg
      simp only [encodeROAFamily, List.mem_map] at ha
      obtain ⟨e, he, rfl⟩ := ha
      exact addrOk_of (h e (List.mem_filter.mp he).1)

/-- C74, writing. `EncodeROAEntries` writes a DER RouteOriginAttestation with the given AS number inside
    [0] and an OCTET STRING, and reading it gives the AS number and the entries, IPv4 first, where an
    entry with max length -1 comes back with its prefix length. -/
theorem C74_roa_content_write (asn : Nat) (l : List ROAEntry) (hasn : asn < 2 ^ 63) (h : ∀ e ∈ l, Writable e) :
    ∃ content fams, RoaDer asn fams content ∧
      (encodeROA asn l).econtent = elem 0xa0 (elem 0x04 content) ∧
      (content.length < 2 ^ 31 → ∃ c, unmarshalROA content = .ok c ∧
        convertROAEntries c = .ok ((l.filter (fun e => e.ipnet.ip.length = 4)).map effective ++
          (l.filter (fun e => e.ipnet.ip.length = 16)).map effective, (asn : Int))) := by
  refine ⟨marshalROAContent (encodeROAEntries asn l), _,
    marshalROAContent_der (c := encodeROAEntries asn l) rfl hasn (blocks_addrOk h),
    by simp [encodeROA, wrapEContent, tlv_elem], ?_⟩
  intro hl
  refine ⟨encodeROAEntries asn l, ?_, C42_roa_round_trip asn l (fun e he => (h e he).1)⟩
  have := unmarshalROA_marshal (c := encodeROAEntries asn l) rfl hasn (blocks_addrOk h) hl []
  rwa [List.append_nil] at this

example : ∀ e ∈ [(⟨⟨[10, 0, 0, 0], [255, 0, 0, 0]⟩, -1⟩ : ROAEntry), ⟨⟨[10, 0, 0, 0], [255, 0, 0, 0]⟩, 24⟩],
    Writable e := by
  intro e he
  simp at he
  rcases he with rfl | rfl
  · exact ⟨good_net10 _, by norm_num, by norm_num⟩
  · exact ⟨good_net10 _, by norm_num, by norm_num⟩

/-- C74 is violated for numbers that RFC 6482 does not allow: the AS number -1, and 2^32, are read
    without an error (RFC 6482 3.2 and RFC 3779 3.2.3.10 ask for 0 to 4294967295). -/
theorem C74_violated_as_number :
    (∃ c, unmarshalROA [0x30, 0x05, 0x02, 0x01, 0xff, 0x30, 0x00] = .ok c ∧ convertROAEntries c = .ok ([], -1)) ∧
    (∃ c, unmarshalROA [0x30, 0x09, 0x02, 0x05, 0x01, 0x00, 0x00, 0x00, 0x00, 0x30, 0x00] = .ok c ∧
      convertROAEntries c = .ok ([], 4294967296)) := by
  refine ⟨⟨⟨-1, []⟩, by decide +kernel, rfl⟩, ⟨⟨4294967296, []⟩, by decide +kernel, rfl⟩⟩

/-! ### C76: manifest contents -/

/-- C76. The DER encoding of a Manifest (RFC 6486), whatever follows it, is read as its number, times,
    algorithm and list of files: every name and every hash, in order, and nothing else. -/
theorem C76_manifest_content_read {T : Type} (env : MftEnv T) (number : Nat) (t u alg : Bytes)
    (files : List MftEntry) (out rest : Bytes) (h : MftDer number t u alg files out) (hl : out.length < 2 ^ 31)
    (halg : OidOk alg) (tv uv : T) (ht : env.time true t = .ok tv) (hu : env.time true u = .ok uv) :
    ∃ fs, unmarshalMft env (out ++ rest) = .ok ⟨number, tv, uv, alg, fs⟩ ∧
      fs.map (fun f => (f.name, f.hash.bytes, f.hash.bitLength)) =
        files.map (fun f => (f.name, f.hash, 8 * f.hash.length)) := by
  obtain ⟨fs, h1, h2⟩ := unmarshalMft_der env h hl halg ht hu rest
  refine ⟨fs, h1, ?_⟩
  clear h1 h
  induction h2 with
  | nil => rfl
  | cons hf _ ih =>
    obtain ⟨e1, e2⟩ := hf
    simp only [List.map_cons, e1, e2, ih]

/-- C76, writing: what `EncodeManifestContent` writes is the DER encoding of the Manifest inside [0]
    and an OCTET STRING, is left alone by `BER2DER`, and is read back as it was. -/
theorem C76_manifest_content_write {T : Type} (env : MftEnv T) (timeOctets : T → Bytes)
    (c : MftContent T) (ht : env.time true (timeOctets c.thisUpdate) = .ok c.thisUpdate)
    (hu : env.time true (timeOctets c.nextUpdate) = .ok c.nextUpdate) (number : Nat) (hn : c.number = number)
    (halg : OidOk c.hashAlg) (hh : ∀ f ∈ c.files, f.hash.bitLength = 8 * f.hash.bytes.length) :
    (∀ f ∈ c.files, ∀ b ∈ f.name, b < 0x80) ↔
    ∃ e, encodeManifest timeOctets c = .ok e ∧ ∃ content,
      e.econtent = elem 0xa0 (elem 0x04 content) ∧
      MftDer number (timeOctets c.thisUpdate) (timeOctets c.nextUpdate) c.hashAlg
        (c.files.map fun f => ⟨f.name, f.hash.bytes⟩) content ∧
      (content.length < 2 ^ 31 → Ber.BER2DER content = .ok content ∧ unmarshalMft env content = .ok c) := by
  constructor
  · intro hasc
    obtain ⟨fs, hfs⟩ := marshalMftFiles_total hasc
    have hm : ∃ content, marshalMftContent timeOctets c = .ok content := by
      unfold marshalMftContent; rw [hfs]; exact ⟨_, rfl⟩
    obtain ⟨content, hm⟩ := hm
    have hder := marshalMftContent_der hm hn hh
    refine ⟨⟨manifestOID, wrapEContent content⟩, by unfold encodeManifest; rw [hm]; rfl, content,
      by simp [wrapEContent, tlv_elem], hder, ?_⟩
    intro hl
    obtain ⟨tr, hw, rfl⟩ := mft_tree hder
    constructor
    · have := C01_ber_to_der tr (der tr) [] (Ber.berEnc_der tr hw hl)
      rwa [List.append_nil] at this
    · have := unmarshalMft_marshal env hm hn hh hl halg ht hu []
      rwa [List.append_nil] at this
  · rintro ⟨e, he, content, _, hder, _⟩
    obtain ⟨i, encs, _, h1, _⟩ := hder
    intro f hf
    have : ∀ (l : List MftFile) (encs : List Bytes),
        List.Forall₂ MftEntryDer (l.map fun f => ⟨f.name, f.hash.bytes⟩) encs → f ∈ l → ∀ b ∈ f.name, b < 0x80 := by
      intro l
      induction l with
      | nil => intro _ _ hf; simp at hf
      | cons a l ih =>
        intro encs h hf
        cases h with
        | cons ha hl =>
          rcases List.mem_cons.mp hf with rfl | hf
          · exact ha.1
          · exact ih _ hl hf
    exact this c.files encs h1 hf

/-- C76: an explicit version field is refused (RFC 6486 4.2.1: the version is 0, and DER leaves the
    default out). -/
theorem C76_explicit_version_refused {T : Type} (env : MftEnv T) (v rest junk : Bytes)
    (hl : (elem 0x30 (elem 0xa0 v ++ rest)).length < 2 ^ 31) :
    unmarshalMft env (elem 0x30 (elem 0xa0 v ++ rest) ++ junk) = .err "tags don't match" := by
  have l0 := elem_length_gt 0x30 (elem 0xa0 v ++ rest)
  have l1 := elem_length_gt 0xa0 v
  have l0' := l0
  simp only [List.length_append] at l0'
  unfold unmarshalMft
  rw [parseSeq_elem _ junk (by omega)]
  simp only [Go.ok_bind, parseBigInt, parseTyped]
  rw [if_neg (by simp [elem]), parseHeader_elem 0xa0 v rest (by decide) (by omega)]
  simp only [Go.ok_bind]
  rw [if_pos (.inl (by decide))]
  rfl

namespace MftEx
/-- Times are their contents octets. -/
def env : MftEnv Bytes := ⟨fun _ b => .ok b, fun b => .ok b, fun b => .ok b⟩
def content : MftContent Bytes :=
  ⟨7, asc "20200101000000Z".toList, asc "20200102000000Z".toList, sha256OID, [⟨asc "a.roa".toList, ⟨List.replicate 32 7, 256⟩⟩]⟩
end MftEx

example : (∀ t, MftEx.env.time true (id t) = .ok t) ∧ OidOk MftEx.content.hashAlg ∧
    (∀ f ∈ MftEx.content.files, f.hash.bitLength = 8 * f.hash.bytes.length) ∧
    (∀ f ∈ MftEx.content.files, ∀ b ∈ f.name, b < 0x80) := by
  refine ⟨fun _ => rfl, by decide +kernel, by decide +kernel, by decide +kernel⟩

/-! ### C75: the strict check -/

/-- A certificate as far as the strict check looks at it (RFC 5280 4.1): version, serial number and
    signature algorithm with its parameters. -/
structure CertHead where
  version : Bytes
  serial : Bytes
  oid : Bytes
  params : Bytes
  tbsRest : Bytes
  outer : Bytes
  sig : Bytes

/-- The signature algorithm of the certificate. -/
def CertHead.alg (c : CertHead) : Bytes := elem 0x30 (elem 0x06 c.oid ++ c.params)

/-- The certificate in DER. -/
def CertHead.der (c : CertHead) : Bytes :=
  elem 0x30 (elem 0x30 (c.version ++ elem 0x02 c.serial ++ c.alg ++ c.tbsRest) ++ elem 0x30 c.outer ++ c.sig)

/-- The version is left out or is an explicit INTEGER; the parameters are left out or are one element. -/
structure CertHead.Ok (c : CertHead) : Prop where
  version : c.version = [] ∨ ∃ i, intOk i = true ∧ c.version = elem 0xa0 (elem 0x02 i)
  params : c.params = [] ∨ ∃ id b, id.toNat % 32 ≠ 31 ∧ c.params = elem id b
  size : c.der.length < 2 ^ 31

theorem parseAny_elem' (id : UInt8) (body : Bytes) (hid : id.toNat % 32 ≠ 31) (h : body.length < 2 ^ 31) :
    parseAny (elem id body) = .ok (node id body, []) := by
  have := parseAny_elem id body [] hid h
  rwa [List.append_nil] at this

theorem skipVersion_elem {i rest : Bytes} (hi : intOk i = true) (hl : (elem 0x02 i).length < 2 ^ 31) :
    skipVersion (elem 0xa0 (elem 0x02 i) ++ rest) = .ok rest := by
  have l1 := elem_length_gt 0x02 i
  unfold skipVersion
  rw [if_neg (by simp [elem])]
  have hx : parseExplicit 0 (elem 0xa0 (elem 0x02 i) ++ rest) = .ok (some (elem 0x02 i ++ rest)) := by
    unfold parseExplicit
    rw [parseHeader_elem 0xa0 (elem 0x02 i) rest (by decide) hl]
    simp only [Go.ok_bind]
    rw [if_neg (by simp [elem]), if_pos ⟨by decide, by decide, .inr (by decide)⟩, if_pos (by omega)]
    rfl
  rw [hx]
  simp only [Go.ok_bind]
  rw [parseInt_raw rest hi (by omega)]
  rfl

theorem skipVersion_none {s rest : Bytes} (hs : s.length < 2 ^ 31) :
    skipVersion (elem 0x02 s ++ rest) = .ok (elem 0x02 s ++ rest) ∨
      skipVersion (elem 0x02 s ++ rest) = .err "explicit tag has no child" := by
  unfold skipVersion
  rw [if_neg (by simp [elem])]
  have hh : parseHeader (elem 0x02 s ++ rest) = .ok (⟨0, 2, false, s.length⟩, s ++ rest) := by
    rw [parseHeader_elem 0x02 s rest (by decide) hs]; rfl
  by_cases he : s ++ rest = []
  · right
    unfold parseExplicit
    rw [hh]
    simp only [Go.ok_bind]
    rw [if_pos he]
    rfl
  · left
    unfold parseExplicit
    rw [hh]
    simp only [Go.ok_bind]
    rw [if_neg he, if_neg (by simp)]
    rfl

theorem certSignatureAlgorithm_head {c : CertHead} (h : c.Ok) :
    certSignatureAlgorithm c.der = .ok (node 0x30 (elem 0x06 c.oid ++ c.params)) := by
  obtain ⟨hv, hp, hs⟩ := h
  unfold CertHead.der at hs ⊢
  have l0 := elem_length_gt 0x30 (elem 0x30 (c.version ++ elem 0x02 c.serial ++ c.alg ++ c.tbsRest) ++
    elem 0x30 c.outer ++ c.sig)
  have l1 := elem_length_gt 0x30 (c.version ++ elem 0x02 c.serial ++ c.alg ++ c.tbsRest)
  have l2 := elem_length_gt 0x02 c.serial
  have l3 := elem_length_gt 0x30 c.outer
  have l4 := elem_length_gt 0x30 (elem 0x06 c.oid ++ c.params)
  have l0' := l0
  have l1' := l1
  simp only [List.length_append] at l0' l1' l4
  have halg : c.alg.length = (elem 0x30 (elem 0x06 c.oid ++ c.params)).length := rfl
  unfold certSignatureAlgorithm
  rw [← List.append_nil (elem 0x30 (elem 0x30 (c.version ++ elem 0x02 c.serial ++ c.alg ++ c.tbsRest) ++
    elem 0x30 c.outer ++ c.sig)), parseSeq_elem _ [] (by omega)]
  simp only [Go.ok_bind]
  rw [List.append_assoc (elem 0x30 (c.version ++ elem 0x02 c.serial ++ c.alg ++ c.tbsRest)),
    parseSeq_elem _ _ (by simp only [List.length_append]; omega)]
  simp only [Go.ok_bind]
  have hsk : skipVersion (c.version ++ elem 0x02 c.serial ++ c.alg ++ c.tbsRest) =
      .ok (elem 0x02 c.serial ++ (c.alg ++ c.tbsRest)) := by
    rcases hv with hv | ⟨i, hi, hv⟩
    · rw [hv, List.nil_append, List.append_assoc]
      rcases skipVersion_none (s := c.serial) (rest := c.alg ++ c.tbsRest) (by omega) with h | h
      · exact h
      · exfalso
        unfold skipVersion at h
        rw [if_neg (by simp [elem])] at h
        unfold parseExplicit at h
        rw [parseHeader_elem 0x02 c.serial _ (by decide) (by omega)] at h
        simp only [Go.ok_bind] at h
        rw [if_neg (by simp [CertHead.alg, elem]), if_neg (by simp)] at h
        simp at h
    · have l5 := elem_length_gt 0xa0 (elem 0x02 i)
      rw [← hv] at l5
      rw [hv, List.append_assoc, List.append_assoc]
      exact skipVersion_elem hi (by omega)
  rw [hsk]
  simp only [Go.ok_bind]
  rw [parseAny_elem 0x02 c.serial _ (by decide) (by omega)]
  simp only [Go.ok_bind]
  unfold CertHead.alg
  rw [parseAny_elem 0x30 _ _ (by decide) (by simp only [List.length_append]; omega)]
  simp only [Go.ok_bind]
  rw [parseAny_elem 0x30 _ _ (by decide) (by omega)]
  rfl

theorem parseSequenceOfAny_alg {oid params : Bytes} (hp : params = [] ∨ ∃ id b, id.toNat % 32 ≠ 31 ∧ params = elem id b)
    (hl : (elem 0x30 (elem 0x06 oid ++ params)).length < 2 ^ 31) :
    (params = [] ∧ parseSequenceOfAny (elem 0x30 (elem 0x06 oid ++ params)) = .ok [node 0x06 oid]) ∨
    ∃ id b, params = elem id b ∧
      parseSequenceOfAny (elem 0x30 (elem 0x06 oid ++ params)) = .ok [node 0x06 oid, node id b] := by
  have l0 := elem_length_gt 0x30 (elem 0x06 oid ++ params)
  have l1 := elem_length_gt 0x06 oid
  have l0' := l0
  simp only [List.length_append] at l0'
  have hseq : ∀ l, parseAll parseAny (elem 0x06 oid ++ params) = .ok l →
      parseSequenceOfAny (elem 0x30 (elem 0x06 oid ++ params)) = .ok l := by
    intro l h
    unfold parseSequenceOfAny
    rw [← List.append_nil (elem 0x30 _), parseSeq_elem _ [] (by omega)]
    simp only [Go.ok_bind]
    exact h
  rcases hp with hp | ⟨id, b, hid, hp⟩
  · refine .inl ⟨hp, hseq _ ?_⟩
    have := parseAll_enc parseAny [(elem 0x06 oid, node 0x06 oid)] (by
      intro x hx
      simp at hx
      subst hx
      exact ⟨elem_ne_nil _ _, fun rest => parseAny_elem _ _ rest (by decide) (by omega)⟩)
    simpa [hp] using this
  · refine .inr ⟨id, b, hp, hseq _ ?_⟩
    have l2 := elem_length_gt id b
    rw [hp] at l0' hl
    have := parseAll_enc parseAny [(elem 0x06 oid, node 0x06 oid), (elem id b, node id b)] (by
      intro x hx
      simp at hx
      rcases hx with rfl | rfl
      · exact ⟨elem_ne_nil _ _, fun rest => parseAny_elem _ _ rest (by decide) (by omega)⟩
      · exact ⟨elem_ne_nil _ _, fun rest => parseAny_elem _ _ rest hid (by omega)⟩)
    simpa [hp] using this

/-- An element of a given identifier octet is read in one way only. -/
theorem elem_inj {id id' : UInt8} {b b' : Bytes} (h1 : id.toNat % 32 ≠ 31) (hb : b.length < 2 ^ 31)
    (h2 : id'.toNat % 32 ≠ 31) (hb' : b'.length < 2 ^ 31) (h : elem id b = elem id' b') : id = id' ∧ b = b' := by
  have e1 := parseAny_elem' id b h1 hb
  have e2 := parseAny_elem' id' b' h2 hb'
  rw [h, e2] at e1
  simp only [Go.ok.injEq, Prod.mk.injEq, and_true] at e1
  have hbb : b' = b := congrArg Elem.bytes e1
  have hid : id :: derLength b.length ++ b = id' :: derLength b'.length ++ b' := h
  simp only [List.cons_append, List.cons.injEq] at hid
  exact ⟨hid.1, hbb.symm⟩

/-- C75. For a certificate in DER, the strict check accepts exactly when the certificate's signature
    algorithm has parameters with tag number 5 (NULL) and is, octet for octet, the signature algorithm
    of the first signer. -/
theorem C75_strict_check_exact (h : CertHead) (hok : h.Ok) (c : CMS) (si : SignerInfo) (more : List SignerInfo)
    (hc : c.signedData.certificates.bytes = h.der) (hs : c.signedData.signerInfos = si :: more) :
    c.checkSignaturesMatch = .ok true ↔
      (∃ id b, id.toNat % 32 = 5 ∧ h.params = elem id b) ∧ si.signatureAlgorithm.full = h.alg := by
  have hlalg : (elem 0x30 (elem 0x06 h.oid ++ h.params)).length < 2 ^ 31 := by
    have hsz := hok.size
    unfold CertHead.der at hsz
    have l0 := elem_length_gt 0x30 (elem 0x30 (h.version ++ elem 0x02 h.serial ++ h.alg ++ h.tbsRest) ++
      elem 0x30 h.outer ++ h.sig)
    have l1 := elem_length_gt 0x30 (h.version ++ elem 0x02 h.serial ++ h.alg ++ h.tbsRest)
    simp only [List.length_append] at l0 l1
    have halg : h.alg.length = (elem 0x30 (elem 0x06 h.oid ++ h.params)).length := rfl
    omega
  have l4 := elem_length_gt 0x30 (elem 0x06 h.oid ++ h.params)
  simp only [List.length_append] at l4
  unfold CMS.checkSignaturesMatch
  rw [hc, certSignatureAlgorithm_head hok]
  simp only [Go.ok_bind]
  rw [hs]
  simp only
  have hfull : (node 0x30 (elem 0x06 h.oid ++ h.params)).full = h.alg := rfl
  rw [hfull]
  rcases parseSequenceOfAny_alg hok.params hlalg with ⟨hp, he⟩ | ⟨id, b, hp, he⟩
  · have he' : parseSequenceOfAny h.alg = .ok [node 0x06 h.oid] := he
    rw [he']
    simp only [Go.ok_bind, List.getLast?_singleton]
    rw [if_pos (show (node 0x06 h.oid).tag ≠ 5 from (by decide : (0x06 : UInt8).toNat % 32 ≠ 5))]
    constructor
    · intro hx; simp at hx
    · rintro ⟨⟨id, b, _, h1⟩, _⟩
      rw [hp] at h1
      exact absurd h1.symm (elem_ne_nil _ _)
  · have he' : parseSequenceOfAny h.alg = .ok [node 0x06 h.oid, node id b] := he
    have l5 := elem_length_gt id b
    rw [hp] at l4
    have hid : id.toNat % 32 ≠ 31 := by
      rcases hok.params with h0 | ⟨id', b', h1, h2⟩
      · rw [hp] at h0; exact absurd h0 (elem_ne_nil _ _)
      · rw [hp] at h2
        have := congrArg List.head? h2
        simp [elem] at this
        rw [this]; exact h1
    rw [he']
    simp only [Go.ok_bind]
    have hlast : [node 0x06 h.oid, node id b].getLast? = some (node id b) := rfl
    rw [hlast]
    simp only
    have htag : (node id b).tag = id.toNat % 32 := rfl
    rw [htag]
    by_cases h5 : id.toNat % 32 = 5
    · rw [if_neg (by simpa using h5)]
      constructor
      · intro hx
        obtain ⟨_, _, hx⟩ := Go.bind_eq_ok.mp hx
        simp at hx
        exact ⟨⟨id, b, h5, hp⟩, hx.symm⟩
      · rintro ⟨_, h2⟩
        rw [h2, he']
        simp
    · rw [if_pos h5]
      constructor
      · intro hx; simp at hx
      · rintro ⟨⟨id', b', h1, h2⟩, _⟩
        rw [hp] at h2
        have := congrArg List.head? h2
        simp [elem] at this
        rw [this] at h5
        exact absurd h1 h5

/-- A certificate with sha256WithRSAEncryption and NULL, and an object that passes. -/
def exampleHead : CertHead :=
  ⟨elem 0xa0 (elem 0x02 [2]), [1], [0x2a, 0x86, 0x48, 0x86, 0xf7, 0x0d, 0x01, 0x01, 0x0b], elem 0x05 [], [], [], []⟩

example : exampleHead.Ok ∧
    (⟨[0x2a], ⟨[3], [], .zero, ⟨2, 0, true, exampleHead.der, []⟩, .zero,
      [⟨[3], .zero, [], [], ⟨0, 16, true, [], exampleHead.alg⟩, [], .zero⟩]⟩⟩ : CMS).checkSignaturesMatch = .ok true := by
  refine ⟨⟨.inr ⟨[2], rfl, rfl⟩, .inr ⟨0x05, [], by decide, rfl⟩, by decide +kernel⟩, by decide +kernel⟩

/-- C75: an object without signers never passes the strict check. -/
theorem C75_no_signer_refused (c : CMS) (hs : c.signedData.signerInfos = []) :
    c.checkSignaturesMatch ≠ .ok true := by
  unfold CMS.checkSignaturesMatch
  intro h
  obtain ⟨alg, _, h⟩ := Go.bind_eq_ok.mp h
  rw [hs] at h
  simp at h

/-- C75: whatever the octets of the certificate, an object that passes the strict check has a signer whose signature
    algorithm is a sequence that ends in NULL. -/
theorem C75_accepted_ends_in_null (c : CMS) (h : c.checkSignaturesMatch = .ok true) :
    ∃ si more l last, c.signedData.signerInfos = si :: more ∧ parseSequenceOfAny si.signatureAlgorithm.full = .ok l ∧
      l.getLast? = some last ∧ last.tag = 5 := by
  unfold CMS.checkSignaturesMatch at h
  obtain ⟨alg, _, h⟩ := Go.bind_eq_ok.mp h
  cases hs : c.signedData.signerInfos with
  | nil => rw [hs] at h; simp at h
  | cons si more =>
    rw [hs] at h
    dsimp only at h
    rw [Go.bind_eq_ok] at h
    obtain ⟨l, hl, h⟩ := h
    cases hg : l.getLast? with
    | none => rw [hg] at h; simp at h
    | some last =>
      rw [hg] at h
      dsimp only at h
      by_cases ht : last.tag = 5
      · rw [if_neg (by simpa using ht), Go.bind_eq_ok] at h
        obtain ⟨_, _, h⟩ := h
        simp only [Go.pure_def, Go.ok.injEq, decide_eq_true_eq] at h
        exact ⟨si, more, l, last, rfl, h ▸ hl, hg, ht⟩
      · rw [if_pos ht] at h
        simp at h

/-! ### C73: objects made by this library -/

/-- The inputs of `EncodeCMS` and `Sign`: a certificate and a time that are DER elements, an RSA key
    pair, and a digest function with 32 octets of output. -/
structure SignInputs (sha256 : Bytes → Bytes) (priv : PrivKey) (cert timeDer : Bytes) : Prop where
  sha : ∀ b, (sha256 b).length = 32
  rsa : RsaKeyPair priv.pub.n.toNat priv.pub.e.toNat priv.d
  cert : ∃ body, cert = elem 0x30 body ∧ body.length < 2 ^ 31
  time : ∃ id body, id.toNat % 32 ≠ 31 ∧ timeDer = elem id body

/-- C73. A ROA encoded and signed with this library, written and read again (without the strict
    check), gives the AS number and the entries that were put in, the signing time, and is marked
    valid. `encap` is what `EContentToEncap` gives for the content, as in the code's own callers. -/
theorem C73_roa_sign_decode {T M : Type} (env : Env T M) (priv : PrivKey) (cert0 cert timeDer ski encap : Bytes)
    (hin : SignInputs env.sha256 priv cert timeDer)
    (asn : Nat) (l : List ROAEntry) (hasn : asn < 2 ^ 63) (hl : ∀ e ∈ l, Writable e)
    (hen : eContentToEncap (encodeROA asn l).econtent = .ok encap)
    (c : CMS) (hc : (encodeCMS cert0 (encodeROA asn l) timeDer).sign env.sha256 (some ski) encap priv cert = .ok c)
    (hsize : (marshalCMS c).length < 2 ^ 31)
    (t : T) (ht : env.parseTime timeDer = .ok t) (ee : EECert) (hee : env.decodeCert cert = .ok ee)
    (hk : ee.key = .rsaPtr priv.pub) (sp : Cert.Split ROAEntry)
    (hsp : validateIPRoaCertificateList ((l.filter (fun e => e.ipnet.ip.length = 4)).map effective ++
      (l.filter (fun e => e.ipnet.ip.length = 16)).map effective) ee.ips = .ok sp) (junk : Bytes) :
    decodeROA env false (marshalCMS c ++ junk) =
      .ok ⟨asn, (l.filter (fun e => e.ipnet.ip.length = 4)).map effective ++
        (l.filter (fun e => e.ipnet.ip.length = 16)).map effective, false, some t, true, sp, ee⟩ := by
  obtain ⟨cbody, rfl, hcb⟩ := hin.cert
  obtain ⟨tid, tbody, htid, rfl⟩ := hin.time
  obtain ⟨body, hbody⟩ : ∃ body, marshalROAContent (encodeROAEntries asn l) = elem 0x30 body :=
    ⟨_, tlv_elem _ _⟩
  have hE : encodeROA asn l = ⟨roaOID, wrapEContent (marshalROAContent (encodeROAEntries asn l))⟩ := rfl
  rw [hE] at hc hen
  have hwl : (wrapEContent (marshalROAContent (encodeROAEntries asn l))).length < 2 ^ 31 := by
    obtain ⟨sig, certM, h1, h2, hc'⟩ := sign_eq rfl hc
    have := (marshalCMS_parts c).1
    have hencap : c.signedData.encapContentInfo = rawFull (elem 0x30 (elem 0x06 roaOID ++
        wrapEContent (marshalROAContent (encodeROAEntries asn l)))) := by
      rw [hc']; simp [encodeCMS, marshalEncap, tlv_elem]
    rw [hencap, rawFull_raw (elem_ne_nil _ _)] at this
    have l0 := elem_length_gt 0x30 (elem 0x06 roaOID ++ wrapEContent (marshalROAContent (encodeROAEntries asn l)))
    simp only [List.length_append] at l0
    omega
  have henc : encap = marshalROAContent (encodeROAEntries asn l) := by
    rw [hbody] at hen hwl ⊢
    rw [eContentToEncap_seq body hwl] at hen
    simp at hen
    exact hen.symm
  subst henc
  have hcl := lib_encap_length hc
  obtain ⟨c', hd, hr⟩ := lib_read hin.sha htid hcb hin.rsa hc hsize junk
  have hcont : (marshalROAContent (encodeROAEntries asn l)).length < 2 ^ 31 := by
    have l0 := elem_length_gt 0xa0 (elem 0x04 (marshalROAContent (encodeROAEntries asn l)))
    have l1 := elem_length_gt 0x04 (marshalROAContent (encodeROAEntries asn l))
    unfold wrapEContent at hwl
    rw [tlv_elem, tlv_elem] at hwl
    omega
  have hu := unmarshalROA_marshal (c := encodeROAEntries asn l) rfl hasn (blocks_addrOk hl) hcont []
  rw [List.append_nil] at hu
  exact decodeROA_lib env (by decide +kernel : OidOk roaOID) hbody (by omega) hd hr hu
    (C42_roa_round_trip asn l (fun e he => (hl e he).1)) ht hee hk hsp

/-- C73 for manifests. -/
theorem C73_manifest_sign_decode {T U M : Type} (env : Env U (MftContent T)) (menv : MftEnv T)
    (hmu : env.unmarshalManifest = unmarshalMft menv) (timeOctets : T → Bytes)
    (priv : PrivKey) (cert0 cert timeDer ski encap : Bytes)
    (hin : SignInputs env.sha256 priv cert timeDer)
    (m : MftContent T) (htime : menv.time true (timeOctets m.thisUpdate) = .ok m.thisUpdate)
    (hutime : menv.time true (timeOctets m.nextUpdate) = .ok m.nextUpdate)
    (number : Nat) (hn : m.number = number) (halg : OidOk m.hashAlg)
    (hh : ∀ f ∈ m.files, f.hash.bitLength = 8 * f.hash.bytes.length)
    (e : Encap) (he : encodeManifest timeOctets m = .ok e) (hen : eContentToEncap e.econtent = .ok encap)
    (c : CMS) (hc : (encodeCMS cert0 e timeDer).sign env.sha256 (some ski) encap priv cert = .ok c)
    (hsize : (marshalCMS c).length < 2 ^ 31)
    (ee : EECert) (hee : env.decodeCert cert = .ok ee) (hk : ee.key = .rsaPtr priv.pub) (junk : Bytes) :
    decodeManifest env false (marshalCMS c ++ junk) = .ok ⟨m, false, true, ee⟩ := by
  obtain ⟨cbody, rfl, hcb⟩ := hin.cert
  obtain ⟨tid, tbody, htid, rfl⟩ := hin.time
  unfold encodeManifest at he
  obtain ⟨content, hm, he⟩ := Go.bind_eq_ok.mp he
  simp at he
  subst he
  have hder := marshalMftContent_der hm hn hh
  obtain ⟨body, hbody⟩ : ∃ body, content = elem 0x30 body := by
    obtain ⟨_, _, _, _, h⟩ := hder; exact ⟨_, h⟩
  have hwl : (wrapEContent content).length < 2 ^ 31 := by
    obtain ⟨sig, certM, h1, h2, hc'⟩ := sign_eq rfl hc
    have := (marshalCMS_parts c).1
    have hencap : c.signedData.encapContentInfo = rawFull (elem 0x30 (elem 0x06 manifestOID ++
        wrapEContent content)) := by
      rw [hc']; simp [encodeCMS, marshalEncap, tlv_elem]
    rw [hencap, rawFull_raw (elem_ne_nil _ _)] at this
    have l0 := elem_length_gt 0x30 (elem 0x06 manifestOID ++ wrapEContent content)
    simp only [List.length_append] at l0
    omega
  have henc : encap = content := by
    rw [hbody] at hen hwl ⊢
    rw [eContentToEncap_seq body hwl] at hen
    simp at hen
    exact hen.symm
  subst henc
  have hcl := lib_encap_length hc
  obtain ⟨c', hd, hr⟩ := lib_read hin.sha htid hcb hin.rsa hc hsize junk
  have hcont : encap.length < 2 ^ 31 := by
    have l0 := elem_length_gt 0xa0 (elem 0x04 encap)
    have l1 := elem_length_gt 0x04 encap
    unfold wrapEContent at hwl
    rw [tlv_elem, tlv_elem] at hwl
    omega
  have hu := unmarshalMft_marshal menv hm hn hh hcont halg htime hutime []
  rw [List.append_nil, ← hmu] at hu
  have hb : Ber.BER2DER encap = .ok encap := by
    obtain ⟨tr, hw, hte⟩ := mft_tree hder
    have := C01_ber_to_der tr (der tr) [] (Ber.berEnc_der tr hw (hte ▸ hcont))
    rw [List.append_nil, ← hte] at this
    exact this
  exact decodeManifest_lib env (by decide +kernel : OidOk manifestOID) hbody (by omega) hd hr hb hu hee hk

/-- C73 for XML messages (up-down protocol): the message comes back octet for octet. -/
theorem C73_xml_sign_decode {T M : Type} (env : Env T M) (priv : PrivKey) (cert0 cert timeDer ski message encap : Bytes)
    (hin : SignInputs env.sha256 priv cert timeDer)
    (hen : eContentToEncapRaw (encodeXMLData message).econtent = .ok encap)
    (c : CMS) (hc : (encodeCMS cert0 (encodeXMLData message) timeDer).sign env.sha256 (some ski) encap priv cert = .ok c)
    (hsize : (marshalCMS c).length < 2 ^ 31)
    (ee : EECert) (hee : env.decodeCert cert = .ok ee) (hk : ee.key = .rsaPtr priv.pub) (junk : Bytes) :
    decodeXML env (marshalCMS c ++ junk) = .ok ⟨message, true, ee⟩ := by
  obtain ⟨cbody, rfl, hcb⟩ := hin.cert
  obtain ⟨tid, tbody, htid, rfl⟩ := hin.time
  have hE : encodeXMLData message = ⟨xmlOID, wrapEContent message⟩ := rfl
  rw [hE] at hc hen
  have hwl : (wrapEContent message).length < 2 ^ 31 := by
    obtain ⟨sig, certM, h1, h2, hc'⟩ := sign_eq rfl hc
    have := (marshalCMS_parts c).1
    have hencap : c.signedData.encapContentInfo = rawFull (elem 0x30 (elem 0x06 xmlOID ++ wrapEContent message)) := by
      rw [hc']; simp [encodeCMS, marshalEncap, tlv_elem]
    rw [hencap, rawFull_raw (elem_ne_nil _ _)] at this
    have l0 := elem_length_gt 0x30 (elem 0x06 xmlOID ++ wrapEContent message)
    simp only [List.length_append] at l0
    omega
  have henc : encap = message := by
    unfold wrapEContent at hen hwl
    rw [tlv_elem, tlv_elem] at hen hwl
    have l0 := elem_length_gt 0xa0 (elem 0x04 message)
    have l1 := elem_length_gt 0x04 message
    unfold eContentToEncapRaw at hen
    rw [parseAny_elem' 0xa0 _ (by decide) (by omega)] at hen
    simp only [Go.ok_bind] at hen
    have hb : (node 0xa0 (elem 0x04 message)).bytes = elem 0x04 message := rfl
    rw [hb, parseAny_elem' 0x04 _ (by decide) (by omega)] at hen
    simp only [Go.ok_bind, Go.pure_def, Go.ok.injEq] at hen
    exact hen.symm
  subst henc
  have hcl := lib_encap_length hc
  obtain ⟨c', hd, hr⟩ := lib_read hin.sha htid hcb hin.rsa hc hsize junk
  exact decodeXML_lib env (by decide +kernel : OidOk xmlOID) (by omega) hd hr hee hk

/-- C73: `Sign` succeeds exactly for keys of at least 62 octets (the signature block needs 51 octets
    for the digest and 11 for the padding). -/
theorem C73_sign_succeeds (sha256 : Bytes → Bytes) (priv : PrivKey) (cert0 cert timeDer ski encap : Bytes) (e : Encap)
    (hin : SignInputs sha256 priv cert timeDer) :
    (∃ c, (encodeCMS cert0 e timeDer).sign sha256 (some ski) encap priv cert = .ok c) ↔
      62 ≤ keySize priv.pub.n.toNat := by
  obtain ⟨cbody, rfl, hcb⟩ := hin.cert
  constructor
  · rintro ⟨c, hc⟩
    obtain ⟨sig, certM, h1, h2, hc'⟩ := sign_eq rfl hc
    exact (encrypt_ok (hin.sha _)).mp ⟨sig, h1⟩
  · intro hks
    unfold CMS.sign
    simp only [encodeCMS, idx_cons_zero, Go.ok_bind, signedAttrsInput_eq]
    obtain ⟨sig, hsig⟩ := (encrypt_ok (hash := sha256 ((elem 0x30 (attrSet ([⟨contentTypeOID, [rawFull (tlv 0x06 e.oid)]⟩,
      ⟨signingTimeOID, [rawFull timeDer]⟩] ++ [digestAttribute sha256 encap]))).drop 2)) (hin.sha _)).mpr hks
    rw [hsig]
    simp only [Go.ok_bind, wrapCertificate]
    rw [parseAny_elem' 0x30 cbody (by decide) hcb]
    exact ⟨_, rfl⟩

/-- C73 is violated in memory: `Validate` on the object that `Sign` has just completed fails, whatever
    the content and the key: only an object that was written and read again can be validated. -/
theorem C73_violated_in_memory (sha256 : Bytes → Bytes) (hsha : ∀ b, (sha256 b).length = 32) (priv : PrivKey)
    (cert0 cert timeDer ski encap : Bytes) (e : Encap) (c : CMS)
    (hc : (encodeCMS cert0 e timeDer).sign sha256 (some ski) encap priv cert = .ok c) (key : Tal.PubKey) (content : Bytes) :
    c.validate sha256 content key = .err "CMS digest and encapsulated digest are different" :=
  sign_validate_memory hsha rfl hc key content

/-- C73 is violated in strict mode: an object made by this library names rsaEncryption as its
    signature algorithm, so the strict decoders refuse it for every certificate that is signed with
    anything else, as every RPKI certificate is (RFC 7935: sha256WithRSAEncryption). -/
theorem C73_violated_strict {T M : Type} (env : Env T M) (priv : PrivKey) (cert0 timeDer ski encap oid : Bytes)
    (h : CertHead) (hok : h.Ok) (hin : SignInputs env.sha256 priv h.der timeDer)
    (c : CMS) (hc : (encodeCMS cert0 ⟨oid, wrapEContent encap⟩ timeDer).sign env.sha256 (some ski) encap priv h.der = .ok c)
    (hsize : (marshalCMS c).length < 2 ^ 31)
    (halg : h.alg ≠ elem 0x30 (elem 0x06 rsaOID ++ [0x05, 0x00])) (junk : Bytes) (roa : RPKIROA T) (mft : RPKIManifest M) :
    decodeROA env true (marshalCMS c ++ junk) ≠ .ok roa ∧ decodeManifest env true (marshalCMS c ++ junk) ≠ .ok mft := by
  obtain ⟨cbody, hce, hcb⟩ := hin.cert
  obtain ⟨tid, tbody, htid, rfl⟩ := hin.time
  rw [hce] at hc
  obtain ⟨c', hd, hr⟩ := lib_read hin.sha htid hcb hin.rsa hc hsize junk
  obtain ⟨s, hs, hsalg⟩ := hr.signer
  have hne : c'.checkSignaturesMatch ≠ .ok true := by
    intro hx
    have := (C75_strict_check_exact h hok c' s [] (by rw [hr.certs, hce]) hs).mp hx
    rw [hsalg] at this
    exact halg this.2.symm
  have hstrict : ∀ u, strictCheck true c' ≠ .ok u := by
    intro u hu
    unfold strictCheck at hu
    rw [if_pos rfl] at hu
    obtain ⟨b, hb, hu⟩ := Go.bind_eq_ok.mp hu
    cases b with
    | true => exact hne hb
    | false => simp at hu
  constructor
  · intro hx
    unfold decodeROA at hx
    rw [hd] at hx
    simp only [Go.ok_bind] at hx
    obtain ⟨u, hu, _⟩ := Go.bind_eq_ok.mp hx
    exact hstrict u hu
  · intro hx
    unfold decodeManifest at hx
    rw [hd] at hx
    simp only [Go.ok_bind] at hx
    obtain ⟨u, hu, _⟩ := Go.bind_eq_ok.mp hx
    exact hstrict u hu

namespace SignEx
/-- Two Mersenne primes. -/
def p : Nat := 2 ^ 521 - 1
def q : Nat := 2 ^ 607 - 1
theorem p_prime : p.Prime := lucas_lehmer_sufficiency _ (by norm_num) (by norm_num)
theorem q_prime : q.Prime := lucas_lehmer_sufficiency _ (by norm_num) (by norm_num)
/-- An RSA key with the usual exponent. -/
def d : Nat := 605309440029444797632079365922351903778944636504290628815687804447518401725202045830587428993072200378798732205389608178468869002370652053408838463061590768976059755211666722868590174546762165023955171158423681809701058604934000382033836393559131564093520170601086332978178762009136501271874027235396379522707933355224417396404416034089473
def priv : PrivKey := ⟨⟨p * q, 65537⟩, d⟩
theorem key_pair : RsaKeyPair (p * q) 65537 d :=
  ⟨p, q, p_prime, q_prime, by decide +kernel, rfl, by unfold Nat.ModEq; decide +kernel⟩
/-- An RSA key whose arithmetic can be run here. -/
def priv1 : PrivKey := ⟨⟨p * q, 1⟩, 1⟩
theorem key_pair1 : RsaKeyPair (p * q) 1 1 :=
  ⟨p, q, p_prime, q_prime, by decide +kernel, rfl, by unfold Nat.ModEq; decide +kernel⟩
def timeDer : Bytes := elem 0x17 (asc "200101000000Z".toList)
def cert : Bytes := exampleHead.der
theorem inputs : SignInputs CmsEx.sha priv cert timeDer :=
  ⟨fun b => by simp [CmsEx.sha], key_pair, ⟨_, rfl, by decide +kernel⟩, ⟨0x17, _, by decide, rfl⟩⟩
theorem inputs1 : SignInputs CmsEx.sha priv1 cert timeDer :=
  ⟨fun b => by simp [CmsEx.sha], key_pair1, ⟨_, rfl, by decide +kernel⟩, ⟨0x17, _, by decide, rfl⟩⟩
def entries : List ROAEntry := [⟨⟨[10, 0, 0, 0], [255, 0, 0, 0]⟩, 24⟩]
/-- An environment in which every certificate holds the key `priv1` and the resource 10.0.0.0/8. -/
def env : Env Bytes (MftContent Bytes) :=
  ⟨CmsEx.sha, fun _ => .ok ⟨.rsaPtr priv1.pub, [.net (some ⟨[10, 0, 0, 0], [255, 0, 0, 0]⟩)]⟩, fun b => .ok b,
    unmarshalMft MftEx.env⟩
/-- Whether `Sign` completed an object that is not too long to read. -/
def signed (x : Go CMS) : Bool := match x with
  | .ok c => decide ((marshalCMS c).length < 2 ^ 31)
  | _ => false
theorem of_signed {x : Go CMS} (h : signed x = true) : ∃ c, x = .ok c ∧ (marshalCMS c).length < 2 ^ 31 := by
  cases x with
  | ok c => exact ⟨c, rfl, by simpa [signed] using h⟩
  | _ => simp [signed] at h
def roaContent : Bytes := marshalROAContent (encodeROAEntries 64496 entries)
def mftContent : Bytes := match marshalMftContent id MftEx.content with
  | .ok b => b
  | _ => []
end SignEx

/-- The inputs of C73 can be met with a real key, and `Sign` then succeeds. -/
example : SignInputs CmsEx.sha SignEx.priv SignEx.cert SignEx.timeDer ∧
    ∃ c, (encodeCMS [] (encodeROA 64496 SignEx.entries) SignEx.timeDer).sign CmsEx.sha (some [1, 2])
      SignEx.roaContent SignEx.priv SignEx.cert = .ok c :=
  ⟨SignEx.inputs, (C73_sign_succeeds _ _ _ _ _ _ _ _ SignEx.inputs).mpr (by decide +kernel)⟩

/-- All the hypotheses of `C73_roa_sign_decode`. -/
example : SignInputs SignEx.env.sha256 SignEx.priv1 SignEx.cert SignEx.timeDer ∧
    (∀ e ∈ SignEx.entries, Writable e) ∧
    eContentToEncap (encodeROA 64496 SignEx.entries).econtent = .ok SignEx.roaContent ∧
    (∃ c, (encodeCMS [] (encodeROA 64496 SignEx.entries) SignEx.timeDer).sign SignEx.env.sha256 (some [1, 2])
      SignEx.roaContent SignEx.priv1 SignEx.cert = .ok c ∧ (marshalCMS c).length < 2 ^ 31) ∧
    (∃ t, SignEx.env.parseTime SignEx.timeDer = .ok t) ∧
    (∃ ee, SignEx.env.decodeCert SignEx.cert = .ok ee ∧ ee.key = .rsaPtr SignEx.priv1.pub ∧
      ∃ sp, validateIPRoaCertificateList ((SignEx.entries.filter (fun e => e.ipnet.ip.length = 4)).map effective ++
        (SignEx.entries.filter (fun e => e.ipnet.ip.length = 16)).map effective) ee.ips = .ok sp) := by
  refine ⟨SignEx.inputs1, ?_, by decide +kernel, ?_, ⟨_, rfl⟩, ⟨_, rfl, rfl, ⟨_, rfl⟩⟩⟩
  · intro e he
    simp [SignEx.entries] at he
    subst he
    exact ⟨good_net10 _, by norm_num, by norm_num⟩
  · exact SignEx.of_signed (by decide +kernel)

/-- All the hypotheses of `C73_manifest_sign_decode`. -/
example : SignInputs SignEx.env.sha256 SignEx.priv1 SignEx.cert SignEx.timeDer ∧
    SignEx.env.unmarshalManifest = unmarshalMft MftEx.env ∧ (∀ t, MftEx.env.time true (id t) = .ok t) ∧
    OidOk MftEx.content.hashAlg ∧ (∀ f ∈ MftEx.content.files, f.hash.bitLength = 8 * f.hash.bytes.length) ∧
    (∃ e, encodeManifest id MftEx.content = .ok e ∧ eContentToEncap e.econtent = .ok SignEx.mftContent ∧
      ∃ c, (encodeCMS [] e SignEx.timeDer).sign SignEx.env.sha256 (some [1, 2]) SignEx.mftContent SignEx.priv1
        SignEx.cert = .ok c ∧ (marshalCMS c).length < 2 ^ 31) := by
  refine ⟨SignEx.inputs1, rfl, fun _ => rfl, by decide +kernel, by decide +kernel,
    ⟨manifestOID, wrapEContent SignEx.mftContent⟩, rfl, by decide +kernel, SignEx.of_signed (by decide +kernel)⟩

/-- All the hypotheses of `C73_xml_sign_decode`, and of the violations. -/
example : SignInputs SignEx.env.sha256 SignEx.priv1 exampleHead.der SignEx.timeDer ∧ exampleHead.Ok ∧
    exampleHead.alg ≠ elem 0x30 (elem 0x06 rsaOID ++ [0x05, 0x00]) ∧
    eContentToEncapRaw (encodeXMLData (asc "<a/>".toList)).econtent = .ok (asc "<a/>".toList) ∧
    (∃ c, (encodeCMS [] (encodeXMLData (asc "<a/>".toList)) SignEx.timeDer).sign SignEx.env.sha256 (some [1, 2])
      (asc "<a/>".toList) SignEx.priv1 exampleHead.der = .ok c ∧ (marshalCMS c).length < 2 ^ 31) :=
  ⟨SignEx.inputs1, ⟨.inr ⟨[2], rfl, rfl⟩, .inr ⟨0x05, [], by decide, rfl⟩, by decide +kernel⟩, by decide +kernel,
    by decide +kernel, SignEx.of_signed (by decide +kernel)⟩

end Verif.Props
