import Verif.Spec.Octets
import Verif.Props.X509
import Verif.Props.Cms
import Verif.Props.EndToEnd
import Verif.Props.Content
import Verif.Props.Spki
/-
  C116: from the octets that were delivered to the lines that are published.
-/
set_option autoImplicit false

namespace Verif.Props
open Pki PkiSpec Manager EndSpec EndToEnd Out X509 X509Spec CmsSpec Octets OctetSpec

/-! ### A repository as octets -/

namespace OctetEx
/-- A key with exponent 1, under which the signature is the block itself. -/
def key : Tal.RSAKey := ⟨2 ^ 1024, 1⟩
def prims : Prims := ⟨id, CmsEx.sha, fun _ _ _ _ _ => true, easyLib, fun b => .ok b, fun b => .ok b, fun _ => .ok ()⟩
/-- The address block 10.0.0.0/8. -/
def block : Bytes :=
  xExt [0x2b, 6, 1, 5, 5, 7, 1, 7] true (elem 0x30 (elem 0x30 (elem 0x04 [0, 1] ++ elem 0x30 (elem 0x03 [0, 10]))))
def certificate (serial : UInt8) (exts : List Bytes) : Bytes :=
  xFile (elem 0x30 (v3 ++ elem 0x02 [serial] ++ xAlg ++ xName [0x41] ++ xDates ++ xName [0x42] ++ Tal.marshalSPKI key ++ xExts exts)) []
/-- The certificate of the TAL: an authority with a manifest at `rsync://a/m`. -/
def anchor : Bytes := certificate 1 [xExt (idCe 14) false (elem 0x04 [1]), xExt (idCe 15) true (elem 0x03 [1, 0x06]),
  xExt (idCe 19) true (elem 0x30 (elem 0x01 [0xff])), block,
  xExt Ext.subjectInfoAccess false (Ext.encodeSIAExt [⟨Ext.certRepository, asc "rsync://a/".toList⟩,
    ⟨X509.manifestOID, asc "rsync://a/m".toList⟩])]
/-- A certificate below it. -/
def ee (k : UInt8) : Bytes :=
  certificate k [xExt (idCe 14) false (elem 0x04 [k]), xExt (idCe 35) false (elem 0x30 (elem 0x80 [1])), block]
/-- A signed object. -/
def object (k : UInt8) (e : Cms.Encap) : Bytes :=
  match Cms.eContentToEncap e.econtent with
  | .ok encap =>
    match (Cms.encodeCMS [] e SignEx.timeDer).sign CmsEx.sha (some [k]) encap ⟨key, 1⟩ (ee k) with
    | .ok c => Cms.marshalCMS c
    | _ => []
  | _ => []
/-- AS 7 for 10.1.0.0/16-24. -/
def roa : Bytes := object 3 (Cms.encodeROA 7 [⟨⟨[10, 1, 0, 0], [255, 255, 0, 0]⟩, 24⟩])
/-- A manifest that lists `x.roa`. -/
def mft : Bytes :=
  match Cms.encodeManifest id ⟨7, asc "20200101000000Z".toList, asc "20600102000000Z".toList, Cms.sha256OID,
    [⟨asc "x.roa".toList, ⟨[7], 8⟩⟩]⟩ with
  | .ok e => object 2 e
  | _ => []
/-- A TAL with the URI `rsync://a`. -/
def tal : Bytes := oneLine (TalSpec.base64 (Tal.marshalSPKI key))
def now : Int := 1700000000 * 10 ^ 9
def world : World :=
  ⟨octetEnv prims false now, fun _ p _ =>
    if p = [65] then .found tal none
    else if p = asc "rsync://a".toList then .found anchor none
    else if p = asc "rsync://a/m".toList then .found mft none
    else if p = asc "rsync://a/x.roa".toList then .found roa (some [7])
    else .absent, fun _ _ => ([], true), fun _ => now, fun _ => now⟩
def run : TalRun := ⟨[65], world, 10, id, fun _ => .refl _, fun _ => .fail⟩
end OctetEx

/-! ### Certificates -/

theorem says_unique {α : Type} {l : List Ext.Extension} {id : Bytes} {R : α → Bytes → Prop} {d x y : α}
    (hf : ∀ v a b, R a v → R b v → a = b) (hx : Says l id R d x) (hy : Says l id R d y) : x = y := by
  by_cases h : ∃ e ∈ l, e.id = id
  · obtain ⟨e, he, hi⟩ := h
    exact hf _ _ _ (hx.1 e he hi) (hy.1 e he hi)
  · have hn : ∀ e ∈ l, e.id ≠ id := fun e he hi => h ⟨e, he, hi⟩
    rw [hx.2 hn, hy.2 hn]

theorem aki_unique (v a b : Bytes) (ha : AuthorityKeyDer a v) (hb : AuthorityKeyDer b v) : a = b := by
  obtain ⟨c, e, junk, h1, h2, k, rest, h3, rfl⟩ := ha
  obtain ⟨c', e', junk', h1', h2', k', rest', h3', rfl⟩ := hb
  have h := authorityKey_iff.mpr ⟨c, e, junk, h1, h2, rest, h3⟩
  rw [authorityKey_iff.mpr ⟨c', e', junk', h1', h2', rest', h3'⟩] at h
  rw [Go.ok.inj h]

theorem access_kind (m : Bytes) : Access m (siaKind m) := by
  unfold siaKind
  split
  · assumption
  · split
    · assumption
    · split
      · assumption
      · rename_i h1 h2 h3
        show m ∉ _
        simp only [List.mem_cons, List.not_mem_nil, or_false, not_or]
        exact ⟨h1, h2, h3⟩

theorem kind_of_access {m : Bytes} {k : SIAKind} (h : Access m k) : siaKind m = k := by
  cases k with
  | manifest => subst h; decide
  | caRepository => subst h; decide
  | rrdp => subst h; decide
  | other =>
    have h : m ∉ _ := h
    simp only [List.mem_cons, List.not_mem_nil, or_false, not_or] at h
    unfold siaKind manifestOID Ext.certRepository Ext.certRRDP
    rw [if_neg h.1, if_neg h.2.1, if_neg h.2.2]

theorem view_sia (l : List Ext.SIA) (c : List (SIAKind × Bytes)) :
    List.Forall₂ (fun s t => Access s.method t.1 ∧ t.2 = s.name) l c ↔ c = l.map fun s => (siaKind s.method, s.name) := by
  constructor
  · intro h
    induction h with
    | nil => rfl
    | cons h _ ih => rw [List.map_cons, ← ih, kind_of_access h.1, ← h.2]
  · rintro rfl
    induction l with
    | nil => exact .nil
    | cons s l ih => exact .cons ⟨access_kind _, rfl⟩ ih

theorem cert_view {lib : Lib} {d : Bytes} {r : Ext.RCert XCert} (h : decodeCertificate lib d = .ok r) :
    CertOctets lib d r.x509 (toPki r) := by
  obtain ⟨h0, h1, h2, h3⟩ := (C115_decode _ _ _).mp h
  obtain ⟨-, -, -, -, m4, m5, m6⟩ := parsed_meaning h0
  refine ⟨h0, ?_, rfl, rfl, rfl, rfl, ?_, m6, m5, m4, h1, ⟨_, h2⟩, ⟨_, h3, (view_sia _ _).mpr rfl⟩⟩
  · obtain ⟨_, _, _, _, _, _, _, _, hr⟩ := h0; exact hr
  · show (match r.x509.key with | .rsaPtr _ => true | _ => false) = true ↔ _
    cases hk : r.x509.key <;> simp

/-- C116. The validator takes exactly the octets that are a certificate, and has of it exactly what the octets say. -/
theorem C116_certificate (P : Prims) (strict : Bool) (now : Int) (d : Bytes) (c : Cert) :
    (octetEnv P strict now).parseCert d = .ok c ↔ ∃ x, CertOctets P.lib d x c := by
  show certFrom P d = .ok c ↔ _
  unfold certFrom
  rw [Go.bind_eq_ok]
  constructor
  · rintro ⟨r, h, h'⟩
    cases h'
    exact ⟨_, cert_view h⟩
  · rintro ⟨x, h⟩
    obtain ⟨rdi, hr⟩ := h.asns
    obtain ⟨sia, hs, hs'⟩ := h.sia
    have hd : decodeCertificate P.lib d = .ok ⟨sia, c.ips, c.asns, rdi, x⟩ :=
      (C115_decode _ _ _).mpr ⟨h.octets, h.ips, hr, hs⟩
    refine ⟨_, hd, ?_⟩
    have hv := cert_view hd
    have e1 := says_unique (fun v a b ha hb => by
      have := subjectKey_iff.mpr ha; rw [subjectKey_iff.mpr hb] at this; exact (Go.ok.inj this).symm) hv.ski h.ski
    have e2 := says_unique aki_unique hv.aki h.aki
    have e3 := says_unique (fun v a b ha hb => by
      have := points_iff.mpr ha; rw [points_iff.mpr hb] at this; exact (Go.ok.inj this).symm) hv.crls h.crls
    have e4 := (view_sia _ _).mp hs'
    have e5 : (toPki ⟨sia, c.ips, c.asns, rdi, x⟩).isRSA = c.isRSA := Bool.eq_iff_iff.mpr (hv.rsa.trans h.rsa.symm)
    show Go.ok _ = _
    congr 1
    cases c with
    | mk ski aki serial notBefore notAfter ips asns sia' crlDPs isRSA pubKey der =>
      have f1 := h.whole
      have f2 := h.serial
      have f3 := h.notBefore
      have f4 := h.notAfter
      have f5 := h.key
      have g1 := hv.whole
      dsimp only at *
      simp only [toPki] at e1 e2 e3 e5 g1 ⊢
      simp only [Cert.mk.injEq]
      exact ⟨e1, e2, f2.symm, f3.symm, f4.symm, trivial, trivial, e4.symm, e3, e5, f5.symm, by rw [g1, f1]⟩

/-- The certificate of the example, as the validator has it. -/
example : yields ((octetEnv OctetEx.prims false 0).parseCert OctetEx.anchor) (fun c => decide (c.ski = [1] ∧ c.aki = [] ∧ c.serial = 1 ∧
    c.notBefore = 1577836800 * 10 ^ 9 ∧ c.sia = [(.caRepository, asc "rsync://a/".toList), (.manifest, asc "rsync://a/m".toList)] ∧
    c.pubKey = .rsaPtr OctetEx.key ∧ c.isRSA = true)) = true := by decide +kernel

/-! ### Signed objects -/

/-- C116. The validator reads a ROA as `DecodeROA` does: with the same outcome and the same number, entries, verdict on the
    signature, and split of the entries. -/
theorem C116_roa_same (P : Prims) (strict : Bool) (now : Int) (data : Bytes) :
    (do let r ← decodeROA (octetEnv P strict now) data
        return (r.asn, r.entries, r.innerValid, r.valids, r.invalids, r.checkParent, r.cert.pubKey, r.cert.ips)) =
    (do let r ← Cms.decodeROA (cmsEnv P) strict data
        return (r.asn, r.entries, r.innerValid, r.split.valids, r.split.invalids, r.split.checkParents, r.certificate.key,
          r.certificate.ips)) := by
  show (do let r ← decodeROA (octetEnv P strict now) data
           return (r.asn, r.entries, r.innerValid, r.valids, r.invalids, r.checkParent, r.cert.pubKey, r.cert.ips)) = _
  unfold decodeROA Cms.decodeROA octetEnv roaFrom cmsEnv eeOf
  dsimp only
  cases Cms.decodeCMS data with
  | ok c =>
    simp only [Go.ok_bind]
    cases Cms.strictCheck strict c with
    | ok _ =>
      simp only [Go.ok_bind]
      cases Der.parseAny (Cms.orZero (Cms.parseEContent c.signedData.encapContentInfo.full)).bytes with
      | ok inner =>
        simp only [Go.ok_bind]
        cases Cms.badFormatGroup inner.1.bytes with
        | ok fb =>
          simp only [Go.ok_bind]
          cases Cms.unmarshalROA fb.1 with
          | ok content =>
            simp only [Go.ok_bind]
            cases hc : Roa.convertROAEntries content with
            | ok e =>
              simp only [Go.ok_bind]
              cases Cms.dropErr (c.getSigningTime P.timeOf) with
              | ok t =>
                simp only [Go.ok_bind]
                cases decodeCertificate P.lib c.signedData.certificates.bytes with
                | ok r =>
                  simp only [Go.ok_bind, Go.pure_def]
                  cases Cms.caught (c.validate P.sha256 fb.1 r.x509.key) with
                  | ok v =>
                    simp only [Go.ok_bind, hc]
                    show (do let s ← (do let s ← Roa.validateIPRoaCertificateList e.1 r.ips; _); _) = _
                    cases Roa.validateIPRoaCertificateList e.1 r.ips <;> rfl
                  | _ => rfl
                | _ => rfl
              | _ => rfl
            | _ => rfl
          | _ => rfl
        | _ => rfl
      | _ => rfl
    | _ => rfl
  | _ => rfl

/-- C116. The validator reads a manifest as `DecodeManifest` does: with the same outcome, times, files, verdict on the
    signature and key. -/
theorem C116_manifest_same (P : Prims) (strict : Bool) (now : Int) (data : Bytes) :
    (do let m ← (octetEnv P strict now).parseMft data
        return (m.thisUpdate, m.nextUpdate, m.fileList, m.innerValid, m.cert.pubKey)) =
    (do let m ← Cms.decodeManifest (cmsEnv P) strict data
        return (nanos m.content.thisUpdate, nanos m.content.nextUpdate, m.content.files.map (fun f => (f.name, f.hash.bytes)),
          m.innerValid, m.certificate.key)) := by
  unfold Cms.decodeManifest octetEnv mftFrom cmsEnv eeOf
  dsimp only
  cases Cms.decodeCMS data with
  | ok c =>
    simp only [Go.ok_bind]
    cases Cms.strictCheck strict c with
    | ok _ =>
      simp only [Go.ok_bind]
      cases Cms.parseEContent c.signedData.encapContentInfo.full with
      | ok ec =>
        simp only [Go.ok_bind]
        cases Der.parseAny ec.bytes with
        | ok inner =>
          simp only [Go.ok_bind]
          cases Cms.badFormatGroup inner.1.bytes with
          | ok fb =>
            simp only [Go.ok_bind]
            cases Cms.ber2derOrNil fb.1 with
            | ok der =>
              simp only [Go.ok_bind]
              cases Cms.unmarshalMft P.stamps der with
              | ok content =>
                simp only [Go.ok_bind]
                cases decodeCertificate P.lib c.signedData.certificates.bytes with
                | ok r =>
                  simp only [Go.ok_bind, Go.pure_def]
                  cases Cms.caught (c.validate P.sha256 der r.x509.key) <;> rfl
                | _ => rfl
              | _ => rfl
            | _ => rfl
          | _ => rfl
        | _ => rfl
      | _ => rfl
    | _ => rfl
  | _ => rfl

/-- A ROA and a manifest that are read, with good signatures. -/
example : yields (decodeROA (octetEnv OctetEx.prims false 0) OctetEx.roa) (fun r => decide (r.asn = 7 ∧ r.innerValid = true ∧
      r.valids = [⟨⟨[10, 1, 0, 0], [255, 255, 0, 0]⟩, 24⟩] ∧ r.cert.ski = [3])) = true ∧
    yields ((octetEnv OctetEx.prims false 0).parseMft OctetEx.mft) (fun m => decide (m.innerValid = true ∧
      m.fileList = [(asc "x.roa".toList, [7])] ∧ m.thisUpdate = 1577836800 * 10 ^ 9 ∧ m.cert.ski = [2])) = true := by decide +kernel

theorem binds_of {sha256 : Bytes → Bytes} (hsha : ∀ b, (sha256 b).length = 32) {c : Cms.CMS} {content : Bytes} {key : Tal.PubKey}
    (h : Cms.caught (c.validate sha256 content key) = .ok true) : Binds sha256 c key content := by
  have hval : c.validate sha256 content key = .ok () := by
    cases hx : c.validate sha256 content key <;> simp_all [Cms.caught]
  cases hs : c.signedData.signerInfos with
  | nil => unfold Cms.CMS.validate at hval; rw [hs] at hval; simp [idx] at hval
  | cons si more =>
    obtain ⟨h1, k, set, h2, h3, h4⟩ := (C43_validate_exact sha256 hsha c si more hs content key).mp hval
    obtain ⟨block, h5, h6⟩ := Cms.decrypt_lenient h4
    exact ⟨si, more, set, block, k, hs, h1, h3, h2, h5, h6⟩

/-- C116. A ROA that the validator has was read from octets that are a ROA with that number and those entries and with the
    certificate that the validator has; and if it counts as signed, the content is bound to the key of that certificate. -/
theorem C116_roa (P : Prims) (hsha : ∀ b, (P.sha256 b).length = 32) (strict : Bool) (now : Int) (data : Bytes) (roa : ROA)
    (h : decodeROA (octetEnv P strict now) data = .ok roa) :
    ∃ d x, RoaOctets P data roa.asn roa.entries d x roa.innerValid ∧ CertOctets P.lib d x roa.cert := by
  unfold decodeROA at h
  rw [Go.bind_eq_ok] at h
  obtain ⟨p, hp, h⟩ := h
  have hp : roaFrom P strict data = .ok p := hp
  unfold roaFrom eeOf at hp
  obtain ⟨c, g1, hp⟩ := Go.bind_eq_ok.mp hp
  obtain ⟨_, g2, hp⟩ := Go.bind_eq_ok.mp hp
  obtain ⟨inner, g3, hp⟩ := Go.bind_eq_ok.mp hp
  obtain ⟨fb, g4, hp⟩ := Go.bind_eq_ok.mp hp
  obtain ⟨content, g5, hp⟩ := Go.bind_eq_ok.mp hp
  obtain ⟨e, g6, hp⟩ := Go.bind_eq_ok.mp hp
  obtain ⟨_, _, hp⟩ := Go.bind_eq_ok.mp hp
  obtain ⟨r, g7, hp⟩ := Go.bind_eq_ok.mp hp
  obtain ⟨valid, g8, hp⟩ := Go.bind_eq_ok.mp hp
  simp only [Go.pure_def, Go.ok.injEq] at hp
  subst hp
  rw [Go.bind_eq_ok] at h
  obtain ⟨e', g6', h⟩ := h
  dsimp only at g6'
  rw [g6] at g6'
  cases g6'
  rw [Go.bind_eq_ok] at h
  obtain ⟨s, _, h⟩ := h
  simp only [Go.pure_def, Go.ok.injEq] at h
  subst h
  have hv := cert_view g7
  refine ⟨_, r.x509, ⟨c, fb.1, content, g1, ⟨inner, fb.2, g3, g4⟩, g5, g6, rfl, hv.octets, ?_⟩, hv⟩
  intro hvalid
  dsimp only at hvalid
  rw [hvalid] at g8
  exact binds_of hsha g8

/-- C116. The same for manifests. -/
theorem C116_manifest (P : Prims) (hsha : ∀ b, (P.sha256 b).length = 32) (strict : Bool) (now : Int) (data : Bytes) (mft : Mft)
    (h : (octetEnv P strict now).parseMft data = .ok mft) :
    ∃ mc d x, MftOctets P data mc d x mft.innerValid ∧ CertOctets P.lib d x mft.cert ∧ mft.thisUpdate = nanos mc.thisUpdate ∧
      mft.nextUpdate = nanos mc.nextUpdate ∧ mft.fileList = mc.files.map (fun f => (f.name, f.hash.bytes)) := by
  have h : mftFrom P strict data = .ok mft := h
  unfold mftFrom eeOf at h
  obtain ⟨c, g1, h⟩ := Go.bind_eq_ok.mp h
  obtain ⟨_, g2, h⟩ := Go.bind_eq_ok.mp h
  obtain ⟨ec, g0, h⟩ := Go.bind_eq_ok.mp h
  obtain ⟨inner, g3, h⟩ := Go.bind_eq_ok.mp h
  obtain ⟨fb, g4, h⟩ := Go.bind_eq_ok.mp h
  obtain ⟨der, g5, h⟩ := Go.bind_eq_ok.mp h
  obtain ⟨content, g6, h⟩ := Go.bind_eq_ok.mp h
  obtain ⟨r, g7, h⟩ := Go.bind_eq_ok.mp h
  obtain ⟨valid, g8, h⟩ := Go.bind_eq_ok.mp h
  simp only [Go.pure_def, Go.ok.injEq] at h
  subst h
  have hv := cert_view g7
  refine ⟨content, _, r.x509, ⟨c, fb.1, der, g1, ⟨inner, fb.2, by rw [g0]; exact g3, g4⟩, g5, g6, rfl, hv.octets, ?_⟩, hv, rfl, rfl, rfl⟩
  intro hvalid
  dsimp only at hvalid
  rw [hvalid] at g8
  exact binds_of hsha g8

/-! ### Signatures on certificates -/

theorem octets_unique {lib : Lib} {d : Bytes} {x y : XCert} (hx : LaxCert lib x d) (hy : LaxCert lib y d) : x = y := by
  have := (C115_exact _ _ _).mpr hx
  rw [(C115_exact _ _ _).mpr hy] at this
  exact (Go.ok.inj this).symm

/-- C116. The check of one certificate against another says yes exactly if the octets of the one are signed by the other. -/
theorem C116_signed (P : Prims) (strict : Bool) (now : Int) (d d' : Bytes) (x y : XCert) (c p : Cert)
    (hc : CertOctets P.lib d x c) (hp : CertOctets P.lib d' y p) :
    (octetEnv P strict now).checkSig c p = true ↔ Signs P y x := by
  show signedFrom P c p = true ↔ _
  unfold signedFrom
  rw [hc.whole, hp.whole, (C115_exact _ _ _).mpr hc.octets, (C115_exact _ _ _).mpr hp.octets]
  dsimp only
  rw [C115_signer P.lib _ d' x y ((C115_exact _ _ _).mpr hp.octets)]
  exact ⟨fun ⟨h1, h2, h3, h4⟩ => ⟨h1, h2, h3, h4⟩, fun ⟨h1, h2, h3, h4⟩ => ⟨h1, h2, h3, h4⟩⟩

/-- C116. Whatever certificates are compared: the check says yes only if both were read from octets and the one is signed by the other. -/
theorem C116_signed_only (P : Prims) (strict : Bool) (now : Int) (c p : Cert) (h : (octetEnv P strict now).checkSig c p = true) :
    ∃ x y, LaxCert P.lib x c.der ∧ LaxCert P.lib y p.der ∧ Signs P y x := by
  have h : signedFrom P c p = true := h
  unfold signedFrom at h
  split at h
  · rename_i x y hx hy
    rw [C115_signer P.lib _ p.der x y hy] at h
    obtain ⟨h1, h2, h3, h4⟩ := h
    exact ⟨x, y, (C115_exact _ _ _).mp hx, (C115_exact _ _ _).mp hy, ⟨h1, h2, h3, h4⟩⟩
  · simp at h

/-- C116. Whatever revocation list is checked: it counts as signed only if its octets are those of a list with a good signature. -/
theorem C116_crl_only (P : Prims) (strict : Bool) (now : Int) (l : CRL) (c : Cert)
    (h : (octetEnv P strict now).checkCRLSig c l = true) :
    ∃ x : Crl.CertList, Crl.parseDERCRL ⟨P.civils, P.crlName⟩ l.der = .ok x ∧
      P.verify true (x.alg.1, x.alg.2.full) x.tbs.raw (Crl.rightAlign x.sig) c.pubKey = true := by
  have h : crlSignedBy P c l = true := h
  unfold crlSignedBy at h
  split at h
  · rename_i x hx
    exact ⟨x, hx, h⟩
  · simp at h

/-- C116. A revocation list that was read from octets counts as signed by a certificate exactly if the signature in the octets,
    over the signed part of the octets, is good with the key of that certificate. Nothing else of the certificate is looked at. -/
theorem C116_crl (P : Prims) (strict : Bool) (now : Int) (data : Bytes) (l : CRL) (c : Cert)
    (h : (octetEnv P strict now).parseCRL data = .ok l) :
    ∃ x : Crl.CertList, Crl.parseDERCRL ⟨P.civils, P.crlName⟩ data = .ok x ∧ l = x.toPki data ∧
      ((octetEnv P strict now).checkCRLSig c l = true ↔
        P.verify true (x.alg.1, x.alg.2.full) x.tbs.raw (Crl.rightAlign x.sig) c.pubKey = true) := by
  have h : Crl.decodeCRL ⟨P.civils, P.crlName⟩ data = .ok l := h
  unfold Crl.decodeCRL at h
  obtain ⟨x, hx, h⟩ := Go.bind_eq_ok.mp h
  simp only [Go.pure_def, Go.ok.injEq] at h
  subst h
  refine ⟨x, hx, rfl, ?_⟩
  show crlSignedBy P c (x.toPki data) = true ↔ _
  unfold crlSignedBy
  have : (x.toPki data).der = data := rfl
  rw [this, hx]
  rfl

/-- A revocation list without entries. -/
def OctetEx.crl : Bytes :=
  elem 0x30 (elem 0x30 (elem 0x02 [1] ++ xAlg ++ xName [0x41] ++ elem 0x17 (asc "200101000000Z".toList)) ++ xAlg ++ elem 0x03 [0, 0x77])

example : yields ((octetEnv OctetEx.prims false 0).parseCRL OctetEx.crl) (fun l => decide (l.revoked = [])) = true := by decide +kernel

/-- C116 is violated as regards the use of keys: a certificate whose key usage is digital signatures only (bit 0) passes as the
    signer of a revocation list; RFC 5280 6.3.3 (f) asks for bit 6. -/
theorem C116_violated_crl_usage : ∃ d x c data l, CertOctets easyLib d x c ∧
    (∃ e ∈ x.exts, e.id = idCe 15 ∧ KeyUsageDer 1 e.value) ∧ (octetEnv OctetEx.prims false 0).parseCRL data = .ok l ∧
    (octetEnv OctetEx.prims false 0).checkCRLSig c l = true := by
  have h : yields (decodeCertificate easyLib (OctetEx.certificate 9 [xExt (idCe 15) true (elem 0x03 [7, 0x80])])) (fun r =>
      yields ((octetEnv OctetEx.prims false 0).parseCRL OctetEx.crl) (fun l => decide (
        ⟨idCe 15, true, elem 0x03 [7, 0x80]⟩ ∈ r.x509.exts ∧ keyUsage (elem 0x03 [7, 0x80]) = .ok 1 ∧
        (octetEnv OctetEx.prims false 0).checkCRLSig (toPki r) l = true))) = true := by decide +kernel
  obtain ⟨r, h1, h2⟩ := yields_iff.mp h
  obtain ⟨l, h3, h4⟩ := yields_iff.mp h2
  obtain ⟨h5, h6, h7⟩ := of_decide_eq_true h4
  exact ⟨_, _, _, _, l, cert_view h1, ⟨_, h5, rfl, keyUsage_iff.mp h6⟩, h3, h7⟩

/-! ### The published list -/

theorem octet_key {P : Prims} {strict : Bool} {now : Int} (d : Bytes) (c : Cert)
    (h : (octetEnv P strict now).parseCert d = .ok c) : TalSpec.CertKey c.isRSA c.pubKey := by
  obtain ⟨x, hx⟩ := (C116_certificate P strict now d c).mp h
  unfold TalSpec.CertKey
  rw [hx.rsa, hx.key]

theorem stored_octets {P : Prims} (hsha : ∀ b, (P.sha256 b).length = 32) {strict : Bool} {now : Int} {W : World} {f0 : PKIFile} {m : M}
    (he : W.env = octetEnv P strict now) (hi : EInv W f0 m) {k : Bytes} {c : Cert} (hv : IsValid m.v k c) :
    ∃ d x, CertOctets P.lib d x c ∧ GivenCert W d := by
  obtain ⟨i, _, hc⟩ := hv
  obtain ⟨fid, f, data, sha, h1, h2, h3⟩ := hi.data i _ ((certOf_eq _ _ _).mp hc)
  obtain ⟨f', n, _, h5⟩ := hi.fetch _ _ _ h2
  have hg : Given W data := ⟨n, _, f', sha, h5⟩
  rw [he] at h3
  generalize f.type = t at h3
  cases h3 with
  | cer c h =>
    obtain ⟨x, hx⟩ := (C116_certificate P strict now data c).mp h
    exact ⟨data, x, hx, .inl hg⟩
  | roaCert r h =>
    obtain ⟨d, x, ⟨cms, _, _, q1, _, _, _, q2, _, _⟩, hx⟩ := C116_roa P hsha strict now data r h
    exact ⟨d, x, hx, .inr ⟨data, cms, hg, q1, q2⟩⟩
  | mftCert mft h =>
    obtain ⟨mc, d, x, ⟨cms, _, _, q1, _, _, _, q2, _, _⟩, hx, _⟩ := C116_manifest P hsha strict now data mft h
    exact ⟨d, x, hx, .inr ⟨data, cms, hg, q1, q2⟩⟩

theorem path_of_ascends {P : Prims} (hsha : ∀ b, (P.sha256 b).length = 32) {strict : Bool} {now : Int} {W : World} {f0 : PKIFile} {m : M}
    (he : W.env = octetEnv P strict now) (hi : EInv W f0 m) {c : Cert} (h : Ascends W.env (AnchorCert W f0) m.v c) :
    ∀ d x, CertOctets P.lib d x c → GivenCert W d → SignedPath P now W f0 d x := by
  induction h with
  | anchor c hv ht ha =>
    intro d x hx hg
    rw [he] at ht
    obtain ⟨n0, d0, s0, t, n, f, d', s, g1, g2, g3, g4, g5, k, g6, g7⟩ := ha
    rw [he] at g2 g3 g5
    obtain ⟨x', hx'⟩ := (C116_certificate P strict now d' c).mp g5
    have : d' = d := by rw [← hx'.whole, hx.whole]
    subst this
    refine .anchor d' x hx.octets hg ⟨hx.notBefore ▸ ht.1, hx.notAfter ▸ ht.2⟩
      ⟨n0, d0, s0, t, n, f, s, x, k, g1, g2, g3, g4, hx.octets, g6, hx.key ▸ g7⟩
  | step c p hv ht hk hs h ih =>
    intro d x hx hg
    rw [he] at ht hs
    have hvp : IsValid m.v p.ski p := by cases h <;> assumption
    obtain ⟨d', x', hx', hg'⟩ := stored_octets hsha he hi hvp
    exact .step d d' x x' c.aki hx.octets hg ⟨hx.notBefore ▸ ht.1, hx.notAfter ▸ ht.2⟩ hx.aki (hk ▸ hx'.ski)
      ((C116_signed P strict now d d' x x' c p hx hx').mp hs) (ih d' x' hx' hg')

theorem valids_sub {env : Env} {data : Bytes} {roa : ROA} (h : decodeROA env data = .ok roa) {e : Roa.ROAEntry} (he : e ∈ roa.valids) :
    e ∈ roa.entries := by
  unfold decodeROA at h
  obtain ⟨p, _, h⟩ := Go.bind_eq_ok.mp h
  obtain ⟨c, _, h⟩ := Go.bind_eq_ok.mp h
  obtain ⟨s, hs, h⟩ := Go.bind_eq_ok.mp h
  simp only [Go.pure_def, Go.ok.injEq] at h
  subst h
  rcases roaSplit_valids hs e he with h | ⟨h, _⟩
  · simp at h
  · exact h

/-- **C116.** In manifest mode, behind each line of the published list there are octets that were delivered: a file that is a
    signed ROA; its content says the AS number, the prefix and the max length of the line and is bound by the signature to the
    key of the certificate inside; this certificate is in its validity period, holds the prefix (if it is a proper one), and is
    signed by a delivered certificate in its validity period, and so on, each with a signature over its octets that is good with
    the key of the next one, which is an authority, up to the certificate that the TAL says where to find and which has the key
    that the TAL says; and a delivered manifest, bound by a signature to the key of the certificate inside, lists the file with a hash. -/
theorem C116_line (P : Prims) (hsha : ∀ b, (P.sha256 b).length = 32) (strict : Bool) (fl : Flags) (hm : fl.useManifest = true)
    (names : List Bytes) (now : Int) (runs : List TalRun)
    (henv : ∀ run ∈ runs, ∃ t, run.world.env = octetEnv P strict t)
    (ms : List (TalRun × M)) (L : ROAList) (h : mainValidation fl names now runs = .ok (ms, L)) (r : ROAJson) (hr : r ∈ L.data) :
    ∃ run ∈ runs, ∃ n path f data sha asn entries e d x ips,
      run.world.getFile n path f = .found data sha ∧ RoaOctets P data asn entries d x true ∧
      SignedPath P run.world.env.now run.world run.file d x ∧ r = exportEntry r.ta asn e ∧
      Says x.exts [0x2b, 6, 1, 5, 5, 7, 1, 7] (fun l v => Ext.decodeIPExt v = .ok l) [] ips ∧
      e ∈ entries ∧ ((∀ i ∈ ips, ResSpec.WfEntry i) → ResSpec.ProperNet e.ipnet → (Net.maskSize e.ipnet.mask : Int) ≤ e.maxLength ∧
        e.maxLength ≤ 8 * e.ipnet.ip.length ∧ ∃ i ∈ ips, ∀ a, ResSpec.Denotes (.net (some e.ipnet)) a → ResSpec.Denotes i a) ∧
      ∃ data' mc d' x' g, Given run.world data' ∧ MftOctets P data' mc d' x' true ∧ g ∈ mc.files ∧ g.name = f.path ∧
        (fl.strictHash = true → ∀ s, sha = some s → s = g.hash.bytes) := by
  obtain ⟨i, run, m, roa, e, h1, h2, hb, h3, -, -⟩ := C78_line_backed_partial fl hm names now runs
    (fun run hrun d c hc => by
      obtain ⟨t, ht⟩ := henv run hrun
      rw [ht] at hc
      exact octet_key d c hc) ms L h r hr
  have hrun := List.mem_of_getElem? h1
  obtain ⟨t, ht⟩ := henv run hrun
  have hexp := (exploreTals_ok (main_parts h).1).2 _ (List.mem_of_getElem? h2)
  obtain ⟨hinv, -⟩ := explore_einv fl hm run (fun d c hc => by rw [ht] at hc; exact octet_key d c hc) m hexp
  obtain ⟨j, f, n, data, sha, l1, l2, l3, p, pf, n', data', sha', mft, hash, l4, l5, l6, l7, l8, l9, l10, l11⟩ := hb.listed
  rw [ht] at l3 l8
  obtain ⟨d, x, hroa, hx⟩ := C116_roa P hsha strict t data roa l3
  obtain ⟨mc, d', x', hmft, _, _, _, hfiles⟩ := C116_manifest P hsha strict t data' mft l8
  rw [hb.signed] at hroa
  rw [l9] at hmft
  have hg : GivenCert run.world d := by
    obtain ⟨cms, _, _, q1, _, _, _, q2, _, _⟩ := hroa
    exact .inr ⟨data, cms, ⟨n, _, f, sha, l2⟩, q1, q2⟩
  have hpath := path_of_ascends hsha ht hinv hb.ascends d x hx hg
  have hnow : run.world.env.now = t := by rw [ht]; rfl
  rw [hfiles, List.mem_map] at l10
  obtain ⟨g, hg1, hg2⟩ := l10
  obtain ⟨hg0, hg3⟩ := Prod.mk.inj hg2.symm
  subst hg3
  exact ⟨run, hrun, n, _, f, data, sha, roa.asn, roa.entries, e, d, x, roa.cert.ips, l2, hroa, hnow ▸ hpath, h3, hx.ips, valids_sub l3 hb.entry,
    fun hw hp => (hb.covered hw hp).2,
    data', mc, d', x', g, ⟨n', _, pf, sha', l7⟩, hmft, hg1, hg0.symm, l11⟩

/-- The hypotheses hold of the repository of the example, and its octets lead to a line. -/
example : (∀ b, (OctetEx.prims.sha256 b).length = 32) ∧ flE.useManifest = true ∧
    (∀ run ∈ [OctetEx.run], ∃ t, run.world.env = octetEnv OctetEx.prims false t) ∧
    (match mainValidation flE [] 1000 [OctetEx.run] with
      | .ok (_, L) => L.data.map (fun r => (r.prefixText, r.length, r.asn, r.ta))
      | _ => []) = [(asc "10.1.0.0/16".toList, 24, asc "AS7".toList, [65])] := by
  refine ⟨fun b => by simp [OctetEx.prims, CmsEx.sha], rfl, ?_, by decide +kernel⟩
  intro run hrun
  rw [List.mem_singleton] at hrun
  subst hrun
  exact ⟨_, rfl⟩

end Verif.Props
