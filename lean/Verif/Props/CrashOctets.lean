import Verif.Spec.CrashOctets
import Verif.Props.BerLax
import Verif.Props.Octets
import Verif.Props.Crash
import Verif.Lemmas.CrlWrite
/-
  C117: exactly which files can end the process.
-/
set_option autoImplicit false

namespace Verif.Props
open Pki PkiSpec Manager ManagerSpec EndSpec X509 X509Spec Octets OctetSpec BerLax CrashSpec CrashOctets Der Cms

theorem safe_returns {α : Type} {g : Go α} (h : Returns g) : Der.Safe g := by
  rcases h with ⟨a, rfl⟩ | ⟨e, rfl⟩
  · exact .ok _
  · exact .err _

theorem calm_of {P : Prims} (h : Quiet P) : P.lib.Calm :=
  ⟨fun o p b => safe_returns (h.key o p b), fun k v => safe_returns (h.ext k v)⟩

theorem stamps_safe (P : Prims) (g : Bool) (b : Bytes) : Der.Safe (P.stamps.time g b) := X509.safe_of_ends (C94_no_panic g b)

theorem safe_timeOf (P : Prims) (b : Bytes) : Der.Safe (P.timeOf b) :=
  (Crl.safe_parseTimeField P.stamps (stamps_safe P) b).bind fun _ _ => .ok _

theorem safe_fileName {P : Prims} (h : Quiet P) (b : Bytes) : Der.Safe (parseString P.stamps b) := by
  unfold parseString
  refine .ite (.err _) ((safe_parseHeader _).bind fun r _ => .ite (.err _) (.ite (.err _) (Der.Safe.bind ?_ fun _ _ => .ok _)))
  unfold stringValue
  exact .ite (.ite (.ok _) (.err _)) (.ite (.ite (.ok _) (.err _)) (.ite (.ite (.ok _) (.err _)) (.ite (.ok _)
    (.ite (safe_returns (h.utf8 _)) (safe_returns (h.bmp _))))))

theorem safe_mftFile {P : Prims} (h : Quiet P) (b : Bytes) : Der.Safe (parseMftFile P.stamps b) := by
  unfold parseMftFile
  exact (safe_parseTyped _ _ _).bind fun _ _ => (safe_fileName h _).bind fun _ _ => (safe_parseTyped _ _ _).bind fun _ _ =>
    (Cms.safe_bitStringOf _).bind fun _ _ => .ok _

theorem consumes_mftFile (P : Prims) : Consumes (parseMftFile P.stamps) := by
  intro bs r h
  unfold parseMftFile at h
  obtain ⟨s, h1, h⟩ := Go.bind_eq_ok.mp h
  obtain ⟨n, h2, h⟩ := Go.bind_eq_ok.mp h
  obtain ⟨b, h3, h⟩ := Go.bind_eq_ok.mp h
  obtain ⟨v, h4, h⟩ := Go.bind_eq_ok.mp h
  simp only [Go.pure_def, Go.ok.injEq] at h
  rw [← h]
  exact Crl.parseTyped_lt h1

theorem safe_mft {P : Prims} (h : Quiet P) (b : Bytes) : Der.Safe (unmarshalMft P.stamps b) := by
  unfold unmarshalMft
  exact (safe_parseTyped _ _ _).bind fun _ _ => (Crl.safe_parseBigInt _).bind fun _ _ =>
    (Crl.safe_parseTimeField _ (stamps_safe P) _).bind fun _ _ => (Crl.safe_parseTimeField _ (stamps_safe P) _).bind fun _ _ =>
    (safe_parseOID _).bind fun _ _ => (safe_parseTyped _ _ _).bind fun _ _ =>
    (safe_parseAll _ (safe_mftFile h) (consumes_mftFile P) _).bind fun _ _ => .ok _

theorem panic_after {α β : Type} {x : Go α} {f : α → Go β} (hx : Der.Safe x) :
    (x >>= f) = .panic ↔ ∃ a, x = .ok a ∧ f a = .panic := by
  rw [Go.bind_eq_panic]
  exact ⟨fun h => h.resolve_left hx.1, .inr⟩

theorem not_panic {α : Type} {x : Go α} (hx : Der.Safe x) : x = .panic ↔ False := ⟨fun h => hx.1 h, False.elim⟩

theorem strict_iff (strict : Bool) (c : CMS) : (∃ u, strictCheck strict c = .ok u) ↔ Admitted strict c := by
  unfold strictCheck Admitted
  cases strict with
  | false => simp
  | true =>
    simp only [↓reduceIte, true_imp_iff]
    constructor
    · rintro ⟨u, h⟩
      obtain ⟨v, hv, h⟩ := Go.bind_eq_ok.mp h
      split at h
      · rename_i ht; rw [ht] at hv; exact hv
      · simp at h
    · intro h
      rw [h]
      exact ⟨(), rfl⟩

theorem admitted_signer {strict : Bool} {c : CMS} (h : Admitted strict c) (hs : c.signedData.signerInfos = []) : strict = false := by
  cases strict with
  | false => rfl
  | true =>
    obtain ⟨u, hu⟩ := (strict_iff true c).mpr h
    exact (strictCheck_signer hu hs).elim

theorem carries_iff (c : CMS) (content : Bytes) : Carries c content ↔ ∃ ec inner flag,
    parseEContent c.signedData.encapContentInfo.full = .ok ec ∧ parseAny ec.bytes = .ok inner ∧
      badFormatGroup inner.1.bytes = .ok (content, flag) := by
  unfold Carries
  constructor
  · rintro ⟨inner, flag, h1, h2⟩
    cases he : parseEContent c.signedData.encapContentInfo.full with
    | ok ec => rw [he] at h1; exact ⟨ec, inner, flag, rfl, h1, h2⟩
    | err m => rw [he] at h1; exact absurd h1 (by simp [orZero, Elem.zero, parseAny])
    | panic => rw [he] at h1; exact absurd h1 (by simp [orZero, Elem.zero, parseAny])
    | diverge => rw [he] at h1; exact absurd h1 (by simp [orZero, Elem.zero, parseAny])
  · rintro ⟨ec, inner, flag, h1, h2, h3⟩
    exact ⟨inner, flag, by rw [h1]; exact h2, h3⟩

theorem ee_iff (P : Prims) (c : CMS) : (∃ r, eeOf P c = .ok r) ↔ ∃ x ee, CertOctets P.lib c.signedData.certificates.bytes x ee := by
  constructor
  · rintro ⟨r, h⟩
    exact ⟨_, _, cert_view h⟩
  · rintro ⟨x, ee, h⟩
    have := (C116_certificate P false 0 _ _).mpr ⟨x, h⟩
    obtain ⟨r, hr, _⟩ := Go.bind_eq_ok.mp this
    exact ⟨r, hr⟩

theorem ee_view (P : Prims) (c : CMS) {r : Ext.RCert XCert} (h : eeOf P c = .ok r) {x : XCert} {ee : Cert}
    (hx : CertOctets P.lib c.signedData.certificates.bytes x ee) : X509.toPki r = ee := by
  have := (C116_certificate P false 0 _ _).mpr ⟨x, hx⟩
  obtain ⟨r', hr, h'⟩ := Go.bind_eq_ok.mp this
  have e : r' = r := Go.ok.inj (hr.symm.trans h)
  rw [e] at h'
  exact Go.ok.inj h'

/-- The libraries of the example come back. -/
example : Quiet OctetEx.prims :=
  ⟨fun _ _ _ => .inl ⟨_, rfl⟩, fun _ _ => .inl ⟨_, rfl⟩, fun _ => .inl ⟨_, rfl⟩, fun _ => .inl ⟨_, rfl⟩, fun _ => .inl ⟨_, rfl⟩⟩

/-- **C117, ROAs.** Reading a file as a ROA panics exactly if it is a ROA without signer and the strict check is off. -/
theorem C117_roa {P : Prims} (hq : Quiet P) (strict : Bool) (now : Int) (data : Bytes) :
    (octetEnv P strict now).parseROA data = .panic ↔
      strict = false ∧ ∃ c, RoaText data c ∧ c.signedData.signerInfos = [] := by
  show roaFrom P strict data = .panic ↔ _
  unfold roaFrom
  simp only [panic_after (safe_decodeCMS _), panic_after (safe_strictCheck _ _), panic_after (safe_parseAny _),
    panic_after (safe_badFormatGroup _), panic_after (safe_unmarshalROA _), panic_after (safe_convertROAEntries _)]
  constructor
  · rintro ⟨c, hc, u, hu, inner, hi, fb, hf, rc, hr, e, he, h⟩
    by_cases hs : c.signedData.signerInfos = []
    · exact ⟨admitted_signer ((strict_iff _ _).mp ⟨u, hu⟩) hs, c, ⟨hc, fb.1, rc, e, ⟨inner, fb.2, hi, hf⟩, hr, he⟩, hs⟩
    · exfalso
      refine (not_panic ?_).mp h
      exact (safe_dropErr (safe_getSigningTime _ (safe_timeOf P) _ hs)).bind fun _ _ => (X509.safe_decode (calm_of hq) _).bind fun _ _ =>
        (safe_caught (safe_validate _ _ hs _ _)).bind fun _ _ => .ok _
  · rintro ⟨rfl, c, ⟨hc, content, rc, e, ⟨inner, flag, hi, hf⟩, hr, he⟩, hs⟩
    refine ⟨c, hc, (), rfl, inner, hi, (content, flag), hf, rc, hr, e, he, ?_⟩
    rw [C46_violated_signing_time _ _ hs]
    rfl

theorem berOrNil_panic (b : Bytes) : ber2derOrNil b = .panic ↔ b ≠ [] ∧ Breaks b := by
  rw [← C03_exact]
  unfold ber2derOrNil
  cases h : Ber.BER2DER b <;> simp

theorem berOrNil_safe (b : Bytes) (h : ¬ (b ≠ [] ∧ Breaks b)) : Der.Safe (ber2derOrNil b) := by
  refine ⟨fun hp => h ((berOrNil_panic b).mp hp), ?_⟩
  unfold ber2derOrNil
  have := C04_terminates_partial b
  cases hx : Ber.BER2DER b <;> simp_all

/-- **C117, manifests.** Reading a file as a manifest panics exactly if its content breaks off in the middle of an identifier, a
    length or a part, or if it is a manifest with a certificate and without signer and the strict check is off. -/
theorem C117_manifest {P : Prims} (hq : Quiet P) (strict : Bool) (now : Int) (data : Bytes) :
    (octetEnv P strict now).parseMft data = .panic ↔ BrokenContent strict data ∨
      strict = false ∧ ∃ c, MftText P data c ∧ (∃ x ee, CertOctets P.lib c.signedData.certificates.bytes x ee) ∧
        c.signedData.signerInfos = [] := by
  show mftFrom P strict data = .panic ↔ _
  unfold mftFrom
  simp only [panic_after (safe_decodeCMS _), panic_after (safe_strictCheck _ _), panic_after (safe_parseAny _),
    panic_after (safe_badFormatGroup _), panic_after (safe_parseEContent _)]
  constructor
  · rintro ⟨c, hc, u, hu, ec, hec, inner, hi, fb, hf, h⟩
    have ha := (strict_iff _ _).mp ⟨u, hu⟩
    have hcar : Carries c fb.1 := (carries_iff _ _).mpr ⟨ec, inner, fb.2, hec, hi, hf⟩
    by_cases hb : fb.1 ≠ [] ∧ Breaks fb.1
    · exact .inl ⟨c, fb.1, hc, ha, hcar, hb.1, hb.2⟩
    · right
      simp only [panic_after (berOrNil_safe _ hb), panic_after (safe_mft hq _)] at h
      obtain ⟨der, hd, mc, hm, h⟩ := h
      have he : Der.Safe (eeOf P c) := X509.safe_decode (calm_of hq) _
      rw [panic_after he] at h
      obtain ⟨r, hr, h⟩ := h
      by_cases hs : c.signedData.signerInfos = []
      · exact ⟨admitted_signer ha hs, c, ⟨hc, fb.1, der, mc, hcar, hd, hm⟩, (ee_iff P c).mp ⟨r, hr⟩, hs⟩
      · exfalso
        refine (not_panic ?_).mp h
        exact (safe_caught (safe_validate _ _ hs _ _)).bind fun _ _ => .ok _
  · rintro (⟨c, content, hc, ha, hcar, hb⟩ | ⟨rfl, c, ⟨hc, content, der, mc, hcar, hd, hm⟩, hx, hs⟩)
    · obtain ⟨u, hu⟩ := (strict_iff _ _).mpr ha
      obtain ⟨ec, inner, flag, h1, h2, h3⟩ := (carries_iff _ _).mp hcar
      refine ⟨c, hc, u, hu, ec, h1, inner, h2, _, h3, ?_⟩
      rw [(berOrNil_panic _).mpr hb]
      rfl
    · obtain ⟨ec, inner, flag, h1, h2, h3⟩ := (carries_iff _ _).mp hcar
      obtain ⟨r, hr⟩ := (ee_iff P c).mpr hx
      refine ⟨c, hc, (), rfl, ec, h1, inner, h2, _, h3, ?_⟩
      simp only [hd, hm, hr, Go.ok_bind]
      rw [C46_violated_validate _ _ hs]
      rfl

theorem roa_read {P : Prims} (hq : Quiet P) (strict : Bool) (now : Int) (data : Bytes) (ee : Cert) :
    (∃ p, (octetEnv P strict now).parseROA data = .ok p ∧ p.2.1 = ee) ↔
      ∃ c x, Admitted strict c ∧ RoaText data c ∧ c.signedData.signerInfos ≠ [] ∧ CertOctets P.lib c.signedData.certificates.bytes x ee := by
  show (∃ p, roaFrom P strict data = .ok p ∧ _) ↔ _
  unfold roaFrom
  simp only [Go.bind_eq_ok]
  constructor
  · rintro ⟨p, ⟨c, hc, u, hu, inner, hi, fb, hf, rc, hr, e, he, t, ht, r, hx, v, hv, h⟩, rfl⟩
    cases h
    refine ⟨c, _, (strict_iff _ _).mp ⟨u, hu⟩, ⟨hc, fb.1, rc, e, ⟨inner, fb.2, hi, hf⟩, hr, he⟩, fun hs => ?_, cert_view hx⟩
    rw [C46_violated_signing_time _ _ hs] at ht
    simp [dropErr] at ht
  · rintro ⟨c, x, ha, ⟨hc, content, rc, e, ⟨inner, flag, hi, hf⟩, hr, he⟩, hs, hx⟩
    obtain ⟨u, hu⟩ := (strict_iff _ _).mpr ha
    obtain ⟨r, hrr⟩ := (ee_iff P c).mpr ⟨x, ee, hx⟩
    have h1 := safe_getSigningTime P.timeOf (safe_timeOf P) c hs
    have h2 := safe_validate P.sha256 c hs content r.x509.key
    have h3 : ∃ t, dropErr (c.getSigningTime P.timeOf) = .ok t := by
      cases hg : c.getSigningTime P.timeOf with
      | ok t => exact ⟨t, rfl⟩
      | err m => exact ⟨none, rfl⟩
      | panic => exact absurd hg h1.1
      | diverge => exact absurd hg h1.2
    have h4 : ∃ t, caught (c.validate P.sha256 content r.x509.key) = .ok t := by
      cases hg : c.validate P.sha256 content r.x509.key with
      | ok t => exact ⟨true, rfl⟩
      | err m => exact ⟨false, rfl⟩
      | panic => exact absurd hg h2.1
      | diverge => exact absurd hg h2.2
    obtain ⟨t, ht⟩ := h3
    obtain ⟨v, hv⟩ := h4
    exact ⟨_, ⟨c, hc, u, hu, inner, hi, _, hf, rc, hr, e, he, t, ht, r, hrr, v, hv, rfl⟩, ee_view P c hrr hx⟩

theorem mft_read {P : Prims} (strict : Bool) (now : Int) (data : Bytes) (ee : Cert) :
    (∃ m, (octetEnv P strict now).parseMft data = .ok m ∧ m.cert = ee) ↔
      ∃ c x, Admitted strict c ∧ MftText P data c ∧ c.signedData.signerInfos ≠ [] ∧ CertOctets P.lib c.signedData.certificates.bytes x ee := by
  show (∃ m, mftFrom P strict data = .ok m ∧ _) ↔ _
  unfold mftFrom
  simp only [Go.bind_eq_ok]
  constructor
  · rintro ⟨p, ⟨c, hc, u, hu, ec, hec, inner, hi, fb, hf, der, hd, mc, hm, r, hx, v, hv, h⟩, rfl⟩
    cases h
    refine ⟨c, _, (strict_iff _ _).mp ⟨u, hu⟩, ⟨hc, fb.1, der, mc, (carries_iff _ _).mpr ⟨ec, inner, fb.2, hec, hi, hf⟩, hd, hm⟩,
      fun hs => ?_, cert_view hx⟩
    rw [C46_violated_validate _ _ hs] at hv
    simp [caught] at hv
  · rintro ⟨c, x, ha, ⟨hc, content, der, mc, hcar, hd, hm⟩, hs, hx⟩
    obtain ⟨u, hu⟩ := (strict_iff _ _).mpr ha
    obtain ⟨r, hrr⟩ := (ee_iff P c).mpr ⟨x, ee, hx⟩
    obtain ⟨ec, inner, flag, g1, g2, g3⟩ := (carries_iff _ _).mp hcar
    have h2 := safe_validate P.sha256 c hs der r.x509.key
    have h4 : ∃ t, caught (c.validate P.sha256 der r.x509.key) = .ok t := by
      cases hg : c.validate P.sha256 der r.x509.key with
      | ok t => exact ⟨true, rfl⟩
      | err m => exact ⟨false, rfl⟩
      | panic => exact absurd hg h2.1
      | diverge => exact absurd hg h2.2
    obtain ⟨v, hv⟩ := h4
    exact ⟨_, ⟨c, hc, u, hu, ec, g1, inner, g2, _, g3, der, hd, mc, hm, r, hrr, v, hv, rfl⟩, ee_view P c hrr hx⟩

theorem civils_safe (P : Prims) (g : Bool) (b : Bytes) : Der.Safe (P.civils.time g b) := by
  show Der.Safe (Time.readCivil g b)
  unfold Time.readCivil
  exact (X509.safe_of_ends (C94_no_panic g b)).bind fun _ _ => .ok _

theorem safe_crl {P : Prims} (hq : Quiet P) (data : Bytes) : Der.Safe (Crl.decodeCRL ⟨P.civils, P.crlName⟩ data) := by
  unfold Crl.decodeCRL
  exact (Crl.safe_parseDERCRL _ (civils_safe P) (fun b => safe_returns (hq.name b)) _).bind fun _ _ => .ok _

/-- **C117.** With library code that comes back, the octets of a file do no harm to the validator exactly if they are not
    dangerous: no signed object without signer (unless the strict check is on), no signed object whose content breaks off in the
    middle of an identifier, a length or a part, no certificate with an address that does not fit its family. -/
theorem C117_exact {P : Prims} (hq : Quiet P) (strict : Bool) (now : Int) (data : Bytes) :
    Harmless (octetEnv P strict now) data ↔ ¬ Dangerous P strict data := by
  constructor
  · rintro h (⟨rfl, c, hs, hr | ⟨hm, hx⟩⟩ | hb | ⟨x, c, hx, hn⟩ | ⟨c, x, ee, ha, hr, hx, hn⟩)
    · exact h.roa ((C117_roa hq _ _ _).mpr ⟨rfl, c, hr, hs⟩)
    · exact h.mft ((C117_manifest hq _ _ _).mpr (.inr ⟨rfl, c, hm, hx, hs⟩))
    · exact h.mft ((C117_manifest hq _ _ _).mpr (.inl hb))
    · exact hn (h.certNil c ((C116_certificate _ _ _ _ _).mpr ⟨x, hx⟩)).1
    · by_cases hs : c.signedData.signerInfos = []
      · have hst := admitted_signer ha hs
        rcases hr with hr | hr
        · exact h.roa ((C117_roa hq _ _ _).mpr ⟨hst, c, hr, hs⟩)
        · exact h.mft ((C117_manifest hq _ _ _).mpr (.inr ⟨hst, c, hr, ⟨x, ee, hx⟩, hs⟩))
      · rcases hr with hr | hr
        · obtain ⟨p, hp, rfl⟩ := (roa_read hq strict now data ee).mpr ⟨c, x, ha, hr, hs, hx⟩
          exact hn (h.roaNil p hp)
        · obtain ⟨m, hm, rfl⟩ := (mft_read strict now data ee).mpr ⟨c, x, ha, hr, hs, hx⟩
          exact hn (h.mftNil m hm)
  · intro h
    refine ⟨(C112_total data).1, ?_, ?_, ?_, (safe_crl hq data).1, ?_, ?_, ?_⟩
    · have : Der.Safe (certFrom P data) := (X509.safe_decode (calm_of hq) data).bind fun _ _ => .ok _
      exact this.1
    · intro hp
      obtain ⟨hst, c, hr, hs⟩ := (C117_roa hq _ _ _).mp hp
      exact h (.inl ⟨hst, c, hs, .inl hr⟩)
    · intro hp
      rcases (C117_manifest hq _ _ _).mp hp with hb | ⟨hst, c, hm, hx, hs⟩
      · exact h (.inr (.inl hb))
      · exact h (.inl ⟨hst, c, hs, .inr ⟨hm, hx⟩⟩)
    · intro c hc
      refine ⟨?_, octet_key data c hc⟩
      obtain ⟨x, hx⟩ := (C116_certificate _ _ _ _ _).mp hc
      by_contra hn
      exact h (.inr (.inr (.inl ⟨x, c, hx, hn⟩)))
    · intro p hp
      obtain ⟨c, x, ha, hr, _, hx⟩ := (roa_read hq strict now data p.2.1).mp ⟨p, hp, rfl⟩
      by_contra hn
      exact h (.inr (.inr (.inr ⟨c, x, _, ha, .inl hr, hx, hn⟩)))
    · intro m hm
      obtain ⟨c, x, ha, hr, _, hx⟩ := (mft_read strict now data m.cert).mp ⟨m, hm, rfl⟩
      by_contra hn
      exact h (.inr (.inr (.inr ⟨c, x, _, ha, .inr hr, hx, hn⟩)))

/-- **C117, the run.** From TAL files, with the manifests and over octets none of which are dangerous, the exploration panics if and
    only if it comes to a revocation list whose octets are delivered (and pass the check of the hash) and name, as their issuer's, a
    key that belongs to no certificate that was accepted before. -/
theorem C117_run {P : Prims} (hq : Quiet P) (strict : Bool) (now : Int) (W : World) (he : W.env = octetEnv P strict now)
    (hf : ∀ n path f data sha, W.getFile n path f = .found data sha → ¬ Dangerous P strict data)
    (hr : ∀ n f, ∀ c ∈ (W.getRepository n f).1, ¬ Dangerous P strict c.data)
    (cfg : Cfg) (hm : cfg.notMFT = false) (roots : List PKIFile) (hroots : ∀ f ∈ roots, f.parent = none ∧ f.type = .tal) :
    (∃ fuel, (startOf roots).explore cfg W fuel = .panic) ↔
    ∃ m fid rest f data x, Rounds W cfg (startOf roots) m ∧ m.queue = fid :: rest ∧ m.files[fid]? = some f ∧ f.type = .crl ∧
      Comes cfg W m fid f data ∧ Crl.parseDERCRL ⟨P.civils, P.crlName⟩ data = .ok x ∧ m.v.objects.get (x.toPki data).aki = none := by
  have hW : HarmlessWorld W := ⟨fun n path f data sha h => by rw [he]; exact (C117_exact hq strict now data).mpr (hf n path f data sha h),
    fun n f c hc => by rw [he]; exact (C117_exact hq strict now c.data).mpr (hr n f c hc)⟩
  rw [C95_exact_partial W hW cfg hm roots hroots]
  constructor
  · rintro ⟨m, fid, rest, f, data, h1, h2, h3, h4, h5, l, hl, h6⟩
    rw [he] at hl
    obtain ⟨x, hx, hl⟩ := Go.bind_eq_ok.mp (show Crl.decodeCRL ⟨P.civils, P.crlName⟩ data = .ok l from hl)
    cases hl
    exact ⟨m, fid, rest, f, data, x, h1, h2, h3, h4, h5, hx, h6⟩
  · rintro ⟨m, fid, rest, f, data, x, h1, h2, h3, h4, h5, hx, h6⟩
    refine ⟨m, fid, rest, f, data, h1, h2, h3, h4, h5, x.toPki data, ?_, h6⟩
    rw [he]
    show Crl.decodeCRL ⟨P.civils, P.crlName⟩ data = .ok _
    unfold Crl.decodeCRL
    rw [hx]
    rfl

/-! ### The repository of C116 -/

theorem quiet_prims : Quiet OctetEx.prims :=
  ⟨fun _ _ _ => .inl ⟨_, rfl⟩, fun _ _ => .inl ⟨_, rfl⟩, fun _ => .inl ⟨_, rfl⟩, fun _ => .inl ⟨_, rfl⟩, fun _ => .inl ⟨_, rfl⟩⟩

/-- The clauses of `Harmless`, as a computation. -/
def tame (env : Env) (data : Bytes) : Bool :=
  (match env.parseCert data with | .panic => false | .ok c => decide (c.ips.all (fun e => decide (e ≠ .net none)) = true) | _ => true) &&
  (match env.parseROA data with | .panic => false | .ok p => decide (p.2.1.ips.all (fun e => decide (e ≠ .net none)) = true) | _ => true) &&
  (match env.parseMft data with | .panic => false | .ok m => decide (m.cert.ips.all (fun e => decide (e ≠ .net none)) = true) | _ => true)

theorem noNil_of {c : Cert} (h : decide (c.ips.all (fun e => decide (e ≠ .net none)) = true) = true) : NoNil c := by
  intro e he
  exact of_decide_eq_true (List.all_eq_true.mp (of_decide_eq_true h) e he)

theorem ends_of {α : Type} {g : Go α} (h : isPanic g = true) : g = .panic := by
  cases g <;> simp [isPanic] at h ⊢

theorem found_octets {a b : Bytes} {s t : Option Bytes} (h : Manager.Fetch.found a s = .found b t) : a = b := by
  injection h

theorem harmless_of_tame {P : Prims} (hq : Quiet P) {strict : Bool} {now : Int} {data : Bytes}
    (h : tame (octetEnv P strict now) data = true) : ¬ Dangerous P strict data := by
  rw [← C117_exact hq strict now]
  simp only [tame, Bool.and_eq_true] at h
  obtain ⟨⟨h1, h2⟩, h3⟩ := h
  refine ⟨(C112_total data).1, ?_, ?_, ?_, (safe_crl hq data).1, ?_, ?_, ?_⟩
  · intro hp; rw [hp] at h1; simp at h1
  · intro hp; rw [hp] at h2; simp at h2
  · intro hp; rw [hp] at h3; simp at h3
  · intro c hc; rw [hc] at h1; exact ⟨noNil_of h1, octet_key data c hc⟩
  · intro c hc; rw [hc] at h2; exact noNil_of h2
  · intro c hc; rw [hc] at h3; exact noNil_of h3

/-- A manifest that lists `x.crl`. -/
def OctetEx.mftOfList : Bytes :=
  match Cms.encodeManifest id ⟨7, asc "20200101000000Z".toList, asc "20600102000000Z".toList, Cms.sha256OID,
    [⟨asc "x.crl".toList, ⟨[7], 8⟩⟩]⟩ with
  | .ok e => OctetEx.object 2 e
  | _ => []

/-- The repository, with a revocation list that names no issuer in place of the ROA. -/
def OctetEx.listWorld : World := { OctetEx.world with
  getFile := fun n p f =>
    if p = asc "rsync://a/m".toList then .found OctetEx.mftOfList none
    else if p = asc "rsync://a/x.crl".toList then .found OctetEx.crl (some [7])
    else OctetEx.world.getFile n p f }

theorem tame_tal : ¬ Dangerous OctetEx.prims false OctetEx.tal := harmless_of_tame (now := OctetEx.now) quiet_prims (by decide +kernel)
theorem tame_anchor : ¬ Dangerous OctetEx.prims false OctetEx.anchor := harmless_of_tame (now := OctetEx.now) quiet_prims (by decide +kernel)
theorem tame_mft : ¬ Dangerous OctetEx.prims false OctetEx.mft := harmless_of_tame (now := OctetEx.now) quiet_prims (by decide +kernel)
theorem tame_roa : ¬ Dangerous OctetEx.prims false OctetEx.roa := harmless_of_tame (now := OctetEx.now) quiet_prims (by decide +kernel)
theorem tame_mftOfList : ¬ Dangerous OctetEx.prims false OctetEx.mftOfList :=
  harmless_of_tame (now := OctetEx.now) quiet_prims (by decide +kernel)
theorem tame_crl : ¬ Dangerous OctetEx.prims false OctetEx.crl := harmless_of_tame (now := OctetEx.now) quiet_prims (by decide +kernel)

theorem tame_world : ∀ n path f data sha, OctetEx.world.getFile n path f = .found data sha → ¬ Dangerous OctetEx.prims false data := by
  intro n path f data sha h
  simp only [OctetEx.world] at h
  split at h
  · rw [← found_octets h]; exact tame_tal
  · split at h
    · rw [← found_octets h]; exact tame_anchor
    · split at h
      · rw [← found_octets h]; exact tame_mft
      · split at h
        · rw [← found_octets h]; exact tame_roa
        · simp at h

theorem tame_listWorld : ∀ n path f data sha, OctetEx.listWorld.getFile n path f = .found data sha → ¬ Dangerous OctetEx.prims false data := by
  intro n path f data sha h
  simp only [OctetEx.listWorld] at h
  split at h
  · rw [← found_octets h]; exact tame_mftOfList
  · split at h
    · rw [← found_octets h]; exact tame_crl
    · exact tame_world n path f data sha h

/-- The hypotheses of `C117_run` hold of the repository of C116, which is explored to its end. -/
example : Quiet OctetEx.prims ∧ OctetEx.world.env = octetEnv OctetEx.prims false OctetEx.now ∧
    (∀ n path f data sha, OctetEx.world.getFile n path f = .found data sha → ¬ Dangerous OctetEx.prims false data) ∧
    (∀ n f, ∀ c ∈ (OctetEx.world.getRepository n f).1, ¬ Dangerous OctetEx.prims false c.data) ∧ cfgK.notMFT = false ∧
    (match (startOf [rootE]).explore cfgK OctetEx.world 20 with | .ok _ => true | _ => false) = true :=
  ⟨quiet_prims, rfl, tame_world, fun _ _ _ h => absurd h List.not_mem_nil, rfl, by decide +kernel⟩

/-- C117, what is left is real: with no dangerous octets at all, a repository with a TAL, a certificate, a manifest and one
    revocation list that names no issuer ends the process. -/
theorem C117_violated_list :
    (∀ n path f data sha, OctetEx.listWorld.getFile n path f = .found data sha → ¬ Dangerous OctetEx.prims false data) ∧
    (startOf [rootE]).explore cfgK OctetEx.listWorld 20 = .panic :=
  ⟨tame_listWorld, ends_of (by decide +kernel)⟩

/-- Dangerous octets: a ROA without signer, and in either mode a manifest whose content is 1f 80. -/
theorem C117_violated_octets (P : Prims) : Dangerous P false signerlessROA ∧ ∀ strict, Dangerous P strict crashingManifest := by
  constructor
  · refine .inl ⟨rfl, ?_⟩
    have h : (decodeCMS signerlessROA).bind (fun c => (parseAny (orZero (parseEContent c.signedData.encapContentInfo.full)).bytes).bind fun inner =>
        (badFormatGroup inner.1.bytes).bind fun fb => (unmarshalROA fb.1).bind fun rc => (Roa.convertROAEntries rc).bind fun _ =>
        .ok (decide (c.signedData.signerInfos.length = 0))) = .ok true := by decide +kernel
    obtain ⟨c, hc, h⟩ := Go.bind_eq_ok.mp h
    obtain ⟨inner, hi, h⟩ := Go.bind_eq_ok.mp h
    obtain ⟨fb, hf, h⟩ := Go.bind_eq_ok.mp h
    obtain ⟨rc, hr, h⟩ := Go.bind_eq_ok.mp h
    obtain ⟨e, he, h⟩ := Go.bind_eq_ok.mp h
    exact ⟨c, List.length_eq_zero_iff.mp (of_decide_eq_true (Go.ok.inj h)), .inl ⟨hc, fb.1, rc, e, ⟨inner, fb.2, hi, hf⟩, hr, he⟩⟩
  · intro strict
    have h : (decodeCMS crashingManifest).bind (fun c => (strictCheck true c).bind fun _ =>
        (parseAny (orZero (parseEContent c.signedData.encapContentInfo.full)).bytes).bind fun inner =>
        (badFormatGroup inner.1.bytes)) = .ok ([0x1f, 0x80], false) := by decide +kernel
    obtain ⟨c, hc, h⟩ := Go.bind_eq_ok.mp h
    obtain ⟨u, hu, h⟩ := Go.bind_eq_ok.mp h
    obtain ⟨inner, hi, h⟩ := Go.bind_eq_ok.mp h
    have hp : Ber.BER2DER [0x1f, 0x80] = .panic := by decide +kernel
    exact .inr (.inl ⟨c, _, hc, fun _ => (strict_iff true c).mp ⟨u, hu⟩ rfl, ⟨inner, false, hi, h⟩, (C03_exact _).mp hp⟩)

end Verif.Props
