import Verif.Lemmas.CrlWrite
import Verif.Lemmas.Ext
import Verif.Props.Revoke
/-
  Property theorems about revocation lists as octets: C91 (what `CreateCRL` writes), C92 (what the validator reads).
-/
set_option autoImplicit false

namespace Verif.Props
open Der Cms CmsSpec BerSpec CrlSpec
open Ext (elem_eq elem_app_inj)
open Crl (Civil Ext Revoked createCRL parseDERCRL decodeCRL crlSigOk ReadsTimes)

/-! ## C91 — a list that was created is read back, and revokes -/

/-- A time without the fraction of the second. -/
def toSecond (t : Civil) : Civil := { t with nsec := 0 }

/-- **C91.** Whatever `CreateCRL` writes is read back by the validator with the same contents: the revoked serial numbers
    with their dates (to the second) and extensions, both dates of the list, the issuer, the number and the key
    identifier; and the octets that are checked against the signature are the octets whose digest was signed. -/
theorem C91_created_is_read (sha256 : Bytes → Bytes) (signer : Option (Bytes → Go Bytes)) (ski : Bytes) (issuer : Go Bytes)
    (revoked : List Revoked) (now expiry : Civil) (sn : Option Int) (out : Bytes)
    (h : createCRL sha256 signer ski issuer revoked now expiry sn = .ok out) (hl : out.length < 2 ^ 31)
    (env : Crl.Env) (henv : ReadsTimes env) (hname : ∀ name, issuer = .ok name → env.name name = .ok ())
    (hnow : now.moment.Valid) (hexp : expiry.moment.Valid) (hrev : ∀ r ∈ revoked, r.time.moment.Valid)
    (hoid : ∀ r ∈ revoked, ∀ x, r.exts = some x → ∀ e ∈ x, OidOk e.id) :
    ∃ l sign n, parseDERCRL env out = .ok l ∧ signer = some sign ∧ sn = some n ∧ issuer = .ok l.tbs.issuer ∧
      l.tbs.version = 1 ∧ l.tbs.thisUpdate = toSecond now ∧ l.tbs.nextUpdate = toSecond expiry ∧
      l.tbs.revoked = some (revoked.map fun r => { r with time := toSecond r.time }) ∧
      l.tbs.exts = some ((if ski = [] then [] else [⟨[0x55, 0x1d, 0x23], false, elem 0x30 (elem 0x80 ski)⟩]) ++
        [⟨[0x55, 0x1d, 0x14], false, elem 0x02 (bigIntOctets n)⟩]) ∧
      l.tbs.alg.1 = Crl.sha256WithRSAOID ∧ l.alg = l.tbs.alg ∧
      sign (sha256 l.tbs.raw) = .ok l.sig.bytes ∧ l.sig.bitLength = 8 * l.sig.bytes.length := by
  obtain ⟨sign, tbs, sig, rfl, h1, h2, h3⟩ := Crl.createCRL_ok h
  obtain ⟨n, name, t, u, encs, rfl, rfl, ht, hu, hr, rfl⟩ := Crl.marshalTBS_ok h1
  have hut : Crl.OptTimeForm env (toSecond expiry) u := by
    unfold Crl.marshalOptTime at hu
    split at hu
    · rename_i hz
      have := Go.ok.inj hu
      subst hz
      exact .inr ⟨rfl, this.symm⟩
    · exact .inl (Crl.marshalTime_form henv hu hexp)
  have hp := Crl.parseDERCRL_form (hname name rfl) (Crl.marshalTime_form henv ht hnow) hut
    (show Crl.RevokedsForm env (some _) _ from ⟨encs, Crl.forall₂_revoked henv hr hrev hoid, rfl⟩)
    (Crl.written_oids ski n) out h3 hl
  refine ⟨_, sign, n, hp, rfl, rfl, rfl, rfl, rfl, rfl, rfl, ?_, rfl, rfl, h2, Nat.mul_comm _ _⟩
  simp only [Crl.written, Crl.akiExt, Option.some.injEq]
  cases ski with
  | nil => rfl
  | cons a b => simp [tlv_elem, Crl.akiOID, Crl.crlNumberOID]

/-- **C91, signature.** If the check accepts every signature that the key makes of the digest of a text, it accepts the
    list that was created. -/
theorem C91_created_signature (sha256 : Bytes → Bytes) (sign : Bytes → Go Bytes) (ski : Bytes) (issuer : Go Bytes)
    (revoked : List Revoked) (now expiry : Civil) (sn : Option Int) (out : Bytes)
    (h : createCRL sha256 (some sign) ski issuer revoked now expiry sn = .ok out) (hl : out.length < 2 ^ 31)
    (env : Crl.Env) (henv : ReadsTimes env) (hname : ∀ name, issuer = .ok name → env.name name = .ok ())
    (hnow : now.moment.Valid) (hexp : expiry.moment.Valid) (hrev : ∀ r ∈ revoked, r.time.moment.Valid)
    (hoid : ∀ r ∈ revoked, ∀ x, r.exts = some x → ∀ e ∈ x, OidOk e.id)
    (verify : Bytes → Bytes → Bytes → Bool)
    (hv : ∀ text sig, sign (sha256 text) = .ok sig → verify Crl.sha256WithRSAOID text sig = true) :
    ∃ l, parseDERCRL env out = .ok l ∧ crlSigOk verify l = true := by
  obtain ⟨l, s, n, h1, h2, -, -, -, -, -, -, -, h3, h4, h5, h6⟩ := C91_created_is_read sha256 _ ski issuer revoked now expiry
    sn out h hl env henv hname hnow hexp hrev hoid
  have : s = sign := by simpa using h2.symm
  subst this
  refine ⟨l, h1, ?_⟩
  unfold crlSigOk Crl.rightAlign
  rw [if_pos (.inl (by omega)), h4, h3]
  exact hv _ _ h5

/-- What the validator takes as the key identifier of a list that was created. -/
theorem aki_of_written (ski : Bytes) (n : Int) (rev : List Int) (der : Bytes) :
    Pki.CRL.aki ⟨(((if ski = [] then [] else [(⟨[0x55, 0x1d, 0x23], false, elem 0x30 (elem 0x80 ski)⟩ : Ext)]) ++
      [⟨[0x55, 0x1d, 0x14], false, elem 0x02 (bigIntOctets n)⟩] : List Ext)).map (fun e => (decide (e.id = Crl.akiOID), e.value)), rev, der⟩ =
    if ski = [] then [] else (elem 0x30 (elem 0x80 ski)).drop 4 := by
  unfold Pki.CRL.aki
  split
  · rfl
  · rename_i h
    have hpos : ski.length ≠ 0 := by cases ski <;> simp_all
    have l1 := elem_length_gt 0x30 (elem 0x80 ski)
    have l2 := elem_length_gt 0x80 ski
    simp only [List.cons_append, List.nil_append, List.map_cons, List.map_nil, List.foldl_cons, List.foldl_nil]
    have e1 : decide (([0x55, 0x1d, 0x14] : Bytes) = Crl.akiOID) = false := by decide
    have e2 : decide (([0x55, 0x1d, 0x23] : Bytes) = Crl.akiOID) = true := by decide
    simp only [e1, e2, Bool.false_and, Bool.true_and, Bool.false_eq_true, if_false]
    rw [if_pos (by simp only [decide_eq_true_eq]; omega)]

theorem drop_short {ski : Bytes} (h : ski.length ≤ 125) : (elem 0x30 (elem 0x80 ski)).drop 4 = ski := by
  have e1 : elem 0x80 ski = 0x80 :: ski.length.toUInt8 :: ski := by
    unfold elem derLength
    rw [if_pos (by omega)]
    rfl
  rw [e1]
  unfold elem derLength
  rw [if_pos (by simp; omega)]
  rfl

/-- **C91, key identifier.** The validator recognises a list that was created as one of the key identifier it was created
    for, if that has 1 to 125 octets (it has 20 in the RPKI), and takes the revoked serial numbers from it. -/
theorem C91_created_is_of_issuer (sha256 : Bytes → Bytes) (signer : Option (Bytes → Go Bytes)) (ski : Bytes) (issuer : Go Bytes)
    (revoked : List Revoked) (now expiry : Civil) (sn : Option Int) (out : Bytes)
    (h : createCRL sha256 signer ski issuer revoked now expiry sn = .ok out) (hl : out.length < 2 ^ 31)
    (env : Crl.Env) (henv : ReadsTimes env) (hname : ∀ name, issuer = .ok name → env.name name = .ok ())
    (hnow : now.moment.Valid) (hexp : expiry.moment.Valid) (hrev : ∀ r ∈ revoked, r.time.moment.Valid)
    (hoid : ∀ r ∈ revoked, ∀ x, r.exts = some x → ∀ e ∈ x, OidOk e.id) (hs : ski.length ≤ 125) :
    ∃ l, decodeCRL env out = .ok l ∧ l.aki = ski ∧ l.revoked = revoked.filterMap (·.serial) ∧ l.der = out := by
  obtain ⟨l, s, n, h1, -, -, -, -, -, -, h2, h3, -⟩ := C91_created_is_read sha256 _ ski issuer revoked now expiry
    sn out h hl env henv hname hnow hexp hrev hoid
  refine ⟨l.toPki out, by simp [decodeCRL, h1], ?_, ?_, rfl⟩
  · unfold Crl.CertList.toPki
    rw [h3]
    simp only [Option.getD_some]
    rw [aki_of_written]
    split
    · rename_i e; exact e.symm
    · exact drop_short hs
  · unfold Crl.CertList.toPki
    rw [h2]
    simp [List.filterMap_map, Function.comp_def]

/-- **C91, revocation.** A list created with the key of a valid certificate for its key identifier is accepted by the
    validator, and from then on no certificate of that issuer with one of its serial numbers becomes valid. -/
theorem C91_created_list_revokes (sha256 : Bytes → Bytes) (sign : Bytes → Go Bytes) (ski : Bytes) (issuer : Go Bytes)
    (revoked : List Revoked) (now expiry : Civil) (sn : Option Int) (out : Bytes)
    (h : createCRL sha256 (some sign) ski issuer revoked now expiry sn = .ok out) (hl : out.length < 2 ^ 31)
    (renv : Crl.Env) (henv : ReadsTimes renv) (hname : ∀ name, issuer = .ok name → renv.name name = .ok ())
    (hnow : now.moment.Valid) (hexp : expiry.moment.Valid) (hrev : ∀ r ∈ revoked, r.time.moment.Valid)
    (hoid : ∀ r ∈ revoked, ∀ x, r.exts = some x → ∀ e ∈ x, OidOk e.id) (hs : ski.length ≤ 125)
    -- the validator reads lists in this way and checks their signatures with the key of the certificate
    (env : Pki.Env) (verify : Pki.Cert → Bytes → Bytes → Bytes → Bool) (hparse : env.parseCRL = decodeCRL renv)
    (hcheck : ∀ c (l : Pki.CRL) x, parseDERCRL renv l.der = .ok x → env.checkCRLSig c l = crlSigOk (verify c) x)
    -- the issuer is valid, and its key accepts what `sign` makes
    (T : Bytes → Prop) (v : Pki.V) (hr : PkiSpec.Reachable env T v) (ic : Pki.Cert) (hic : PkiSpec.IsValid v ski ic)
    (hv : ∀ text sig, sign (sha256 text) = .ok sig → verify ic Crl.sha256WithRSAOID text sig = true) :
    ∃ l, env.parseCRL out = .ok l ∧ ∀ v1 a, v.addCRL env l = .ok (v1, a) → a.valid = true ∧
      ∀ r ∈ revoked, ∀ s, r.serial = some s → ∀ ops v2, (∀ op ∈ ops, PkiSpec.TrustsOnly env T op) →
        Pki.V.run env v1 ops = .ok v2 → ∀ k c, PkiSpec.IsValid v2 k c → ¬ T k → v.objects.get k = none →
        ¬ (c.aki = ski ∧ c.serial = s) := by
  obtain ⟨l, h1, h2, h3, h4⟩ := C91_created_is_of_issuer sha256 _ ski issuer revoked now expiry sn out h hl renv henv hname
    hnow hexp hrev hoid hs
  obtain ⟨x, h5, h6⟩ := C91_created_signature sha256 sign ski issuer revoked now expiry sn out h hl renv henv hname hnow hexp
    hrev hoid (verify ic) hv
  refine ⟨l, by rw [hparse, h1], fun v1 a hadd => ?_⟩
  have hval : a.valid = true := by
    obtain ⟨i, hi1, hi2⟩ := hic
    have hob := (Pki.reachable_inv hr).val _ _ hi1
    have hiss : v.crlIssuer env l = .ok (some i) := by
      unfold Pki.V.crlIssuer
      rw [h2, hi1, hob]
      simp only [hi2]
      rw [hcheck ic l x (by rw [h4]; exact h5), h6]
      rfl
    unfold Pki.V.addCRL at hadd
    rw [hiss] at hadd
    simp only [Go.ok_bind] at hadd
    obtain ⟨v2, _, hadd⟩ := Go.bind_eq_ok.mp hadd
    simp only [Go.pure_def, Go.ok.injEq, Prod.mk.injEq] at hadd
    rw [← hadd.2]
  refine ⟨hval, fun r hrm s hs' ops v2 ht hrun k c hc hT hn => ?_⟩
  have := C19_later_rejected env T v v1 v2 hr l a hadd hval s (by
    rw [h3]
    exact List.mem_filterMap.mpr ⟨r, hrm, hs'⟩) ops ht hrun k c hc hT hn
  rw [h2] at this
  exact this

/-- **C91, failures.** If the key signs every digest and the subject can be written, creating a list fails exactly when
    the number or a serial number is missing, or a year has more than four digits or is negative. -/
theorem C91_created_iff (sha256 : Bytes → Bytes) (sign : Bytes → Go Bytes) (hsign : ∀ d, ∃ sig, sign d = .ok sig)
    (ski name : Bytes) (revoked : List Revoked) (now expiry : Civil) (sn : Option Int) :
    (∃ out, createCRL sha256 (some sign) ski (.ok name) revoked now expiry sn = .ok out) ↔
      sn ≠ none ∧ (0 ≤ now.year ∧ now.year ≤ 9999) ∧ (0 ≤ expiry.year ∧ expiry.year ≤ 9999) ∧
      ∀ r ∈ revoked, r.serial ≠ none ∧ 0 ≤ r.time.year ∧ r.time.year ≤ 9999 := by
  constructor
  · rintro ⟨out, h⟩
    obtain ⟨_, tbs, sig, -, h1, -⟩ := Crl.createCRL_ok h
    obtain ⟨n, name, t, u, encs, rfl, -, ht, hu, hr, -⟩ := Crl.marshalTBS_ok h1
    refine ⟨by simp, ⟨(Crl.marshalTime_der ht).1, (Crl.marshalTime_der ht).2.1⟩, ?_, ?_⟩
    · unfold Crl.marshalOptTime at hu
      split at hu
      · rename_i hz; subst hz; decide
      · exact ⟨(Crl.marshalTime_der hu).1, (Crl.marshalTime_der hu).2.1⟩
    · intro r hm
      obtain ⟨e, he⟩ := Crl.forall₂_mem_left hr r hm
      obtain ⟨n, t, h2, h3, -⟩ := Crl.marshalRevoked_ok he
      exact ⟨by simp [h2], (Crl.marshalTime_der h3).1, (Crl.marshalTime_der h3).2.1⟩
  · rintro ⟨h1, h2, h3, h4⟩
    obtain ⟨n, rfl⟩ := Option.ne_none_iff_exists'.mp h1
    obtain ⟨t, ht⟩ := Crl.marshalTime_ok h2.1 h2.2
    obtain ⟨u, hu⟩ : ∃ u, Crl.marshalOptTime expiry = .ok u := by
      unfold Crl.marshalOptTime
      split
      · exact ⟨_, rfl⟩
      · exact Crl.marshalTime_ok h3.1 h3.2
    obtain ⟨rs, hrs⟩ := Crl.marshalRevokeds_of (l := revoked) (by
      intro r hr
      obtain ⟨h5, h6, h7⟩ := h4 r hr
      obtain ⟨n, hn⟩ := Option.ne_none_iff_exists'.mp h5
      obtain ⟨t, ht⟩ := Crl.marshalTime_ok h6 h7
      unfold Crl.marshalRevoked
      simp only [hn, ht, Go.ok_bind, Go.pure_def]
      exact ⟨_, rfl⟩)
    obtain ⟨tbs, htbs⟩ : ∃ tbs, Crl.marshalTBS ski (.ok name) revoked now expiry (some n) = .ok tbs := by
      unfold Crl.marshalTBS
      simp only [Crl.numberExt, Go.ok_bind, ht, hu, hrs, Go.pure_def]
      exact ⟨_, rfl⟩
    obtain ⟨sig, hsig⟩ := hsign (sha256 tbs)
    unfold createCRL
    simp only [htbs, Go.ok_bind, hsig, Go.pure_def]
    exact ⟨_, rfl⟩

/-- A key that cannot sign makes no list. -/
theorem C91_no_signer (sha256 : Bytes → Bytes) (ski : Bytes) (issuer : Go Bytes) (revoked : List Revoked) (now expiry : Civil)
    (sn : Option Int) : ¬ ∃ out, createCRL sha256 none ski issuer revoked now expiry sn = .ok out := by
  rintro ⟨out, h⟩
  cases h

/-! ### The form of the list -/

/-- The entry of a revoked certificate. -/
def entryOf' (r : Revoked) : Entry :=
  ⟨r.serial.getD 0, r.time.moment, (r.exts.getD []).map fun e => ⟨e.id, e.critical, e.value⟩⟩

theorem marshalTime_der' {t : Civil} {out : Bytes} (h : Crl.marshalTime t = .ok out) : out = timeDer t.moment :=
  (Crl.marshalTime_der h).2.2

theorem marshalRevoked_der {r : Revoked} {out : Bytes} (h : Crl.marshalRevoked r = .ok out) (he : r.exts ≠ some []) :
    EntryDer (entryOf' r) out := by
  obtain ⟨n, t, h1, h2, rfl⟩ := Crl.marshalRevoked_ok h
  refine ⟨bigIntOctets n, ?_, ?_⟩
  · simp only [entryOf', h1, Option.getD_some]
    exact bigIntOctets_content n
  · rw [marshalTime_der' h2]
    simp only [entryOf', List.map_map]
    cases hx : r.exts with
    | none => simp [Crl.optExtsForm, nonEmptySeq]
    | some l =>
      have hl : l ≠ [] := by rintro rfl; exact he hx
      simp only [Option.getD_some, nonEmptySeq, List.map_eq_nil_iff, if_neg hl, Crl.optExtsForm]
      rfl

/-- **C91, form (partial).** A list with at least one revoked certificate, created for a non-empty key identifier, is a
    CertificateList of RFC 5280 in DER: version 2, the given contents, exactly the two extensions RFC 6487 asks for, and
    a signature of the digest of the octets to be signed. (Missing: a list without revoked certificates, see
    `C91_violated_empty`; empty lists of entry extensions and an expiry that is the zero time are left out too.) -/
theorem C91_created_form_partial (sha256 : Bytes → Bytes) (signer : Option (Bytes → Go Bytes)) (ski : Bytes) (issuer : Go Bytes)
    (revoked : List Revoked) (now expiry : Civil) (sn : Option Int) (out : Bytes)
    (h : createCRL sha256 signer ski issuer revoked now expiry sn = .ok out)
    (hne : revoked ≠ []) (hski : ski ≠ []) (hexp : expiry ≠ .zero) (hext : ∀ r ∈ revoked, r.exts ≠ some []) :
    ∃ sign name n number tbs sig, signer = some sign ∧ issuer = .ok name ∧ sn = some n ∧ IntContent n number ∧
      CrlDer ⟨name, now.moment, expiry.moment, revoked.map entryOf', rpkiExts ski number⟩ tbs sig out ∧
      sign (sha256 tbs) = .ok sig := by
  obtain ⟨sign, tbs, sig, rfl, h1, h2, h3⟩ := Crl.createCRL_ok h
  obtain ⟨n, name, t, u, encs, rfl, rfl, ht, hu, hr, rfl⟩ := Crl.marshalTBS_ok h1
  refine ⟨sign, name, n, bigIntOctets n, _, sig, rfl, rfl, rfl, bigIntOctets_content n, ⟨⟨encs, ?_, ?_⟩, ?_⟩, h2⟩
  · rw [List.forall₂_map_left_iff]
    clear h h1 h2 h3 hne
    induction hr with
    | nil => exact .nil
    | cons hd _ ih => exact .cons (marshalRevoked_der hd (hext _ (by simp))) (ih fun r hm => hext r (by simp [hm]))
  · rw [Crl.marshalOptTime, if_neg hexp] at hu
    have henc : encs ≠ [] := by
      rintro rfl
      cases hr
      exact hne rfl
    have hw : (Crl.written ski n).map Crl.extForm = (rpkiExts ski (bigIntOctets n)).map extDer := by
      unfold Crl.written Crl.akiExt
      rw [if_pos (by cases ski <;> simp_all)]
      simp only [tlv_elem]
      rfl
    unfold Crl.tbsOf
    rw [hw, marshalTime_der' ht, marshalTime_der' hu, nonEmptySeq, if_neg henc]
    rfl
  · rw [h3]
    rfl

/-- **C91, form, violated.** Without revoked certificates the list says `revokedCertificates` is an empty sequence, which
    RFC 5280 5.1.2.6 forbids: the octets are no CertificateList, whatever their contents. -/
theorem C91_violated_empty (sha256 : Bytes → Bytes) (signer : Option (Bytes → Go Bytes)) (ski : Bytes) (issuer : Go Bytes)
    (now expiry : Civil) (sn : Option Int) (out : Bytes)
    (h : createCRL sha256 signer ski issuer [] now expiry sn = .ok out) (hexp : expiry ≠ .zero) (hl : out.length < 2 ^ 31) :
    ¬ ∃ c tbs sig, CrlDer c tbs sig out := by
  rintro ⟨c, tbs, sig, ⟨encs, hd, rfl⟩, ho⟩
  obtain ⟨sign, tbs', sig', rfl, h1, h2, h3⟩ := Crl.createCRL_ok h
  obtain ⟨n, name, t, u, encs', rfl, rfl, ht, hu, hr, rfl⟩ := Crl.marshalTBS_ok h1
  cases hr
  rw [Crl.marshalOptTime, if_neg hexp] at hu
  have ht' := marshalTime_der' ht
  have hu' := marshalTime_der' hu
  subst ht' hu'
  rw [h3] at ho hl
  have l0 : (Crl.tbsOf name (timeDer now.moment) (timeDer expiry.moment) (elem 0x30 ([] : List Bytes).flatten) (Crl.written ski n) ++ Crl.algForm ++
      elem 0x03 (0x00 :: sig')).length < 2 ^ 31 := by
    have := elem_length_gt 0x30 (Crl.tbsOf name (timeDer now.moment) (timeDer expiry.moment) (elem 0x30 ([] : List Bytes).flatten) (Crl.written ski n) ++ Crl.algForm ++
      elem 0x03 (0x00 :: sig'))
    omega
  obtain ⟨-, e1⟩ := elem_eq ho hl
  generalize hT : elem 0x03 (0x00 :: sig') = S' at *
  simp only [List.append_assoc] at e1 l0
  unfold Crl.tbsOf at e1 l0
  obtain ⟨-, e2, -⟩ := elem_app_inj (by omega) e1.symm
  simp only [List.append_assoc] at e2 l0
  have lt := elem_length_gt 0x30 (elem 0x02 [1] ++ (Crl.algForm ++ (elem 0x30 name ++ (timeDer now.moment ++ (timeDer expiry.moment ++
    (elem 0x30 ([] : List Bytes).flatten ++ elem 0xa0 (elem 0x30 ((Crl.written ski n).map Crl.extForm).flatten)))))))
  rw [List.length_append] at l0
  obtain ⟨-, -, e3⟩ := elem_app_inj (by omega) e2.symm
  have l3 : ∀ a b : Bytes, (a ++ b).length = a.length + b.length := fun _ _ => List.length_append
  rw [l3] at lt
  obtain ⟨-, -, e4⟩ := elem_app_inj (by change (Crl.algForm ++ _).length < _; omega) (show Crl.algForm ++ _ = _ from e3.symm)
  rw [l3 Crl.algForm] at lt
  obtain ⟨-, -, e5⟩ := elem_app_inj (by omega) e4.symm
  rw [l3 (elem 0x30 name)] at lt
  have inj : ∀ (a b : Moment) (x y : Bytes), (timeDer a ++ x).length < 2 ^ 31 → timeDer a ++ x = timeDer b ++ y → y = x := by
    intro a b x y hlt he
    unfold timeDer at hlt he
    split at he <;> split at he <;> exact (elem_app_inj (by simp_all) he).2.2
  have e6 := inj _ _ _ _ (by omega) e5.symm
  rw [l3 (timeDer _)] at lt
  have e7 := inj _ _ _ _ (by omega) e6.symm
  rw [l3 (timeDer _)] at lt
  generalize c.entries = es at hd
  cases hd with
  | nil =>
    simp only [nonEmptySeq, if_true, List.nil_append] at e7
    have e8 : elem 0x30 ([] : List Bytes).flatten ++ elem 0xa0 (elem 0x30 ((Crl.written ski n).map Crl.extForm).flatten) =
        elem 0xa0 (elem 0x30 (c.exts.map extDer).flatten) ++ [] := by rw [List.append_nil]; exact e7.symm
    have := (elem_app_inj (by omega) e8).1
    exact absurd this (by decide)
  | cons hd _ =>
    obtain ⟨i, -, rfl⟩ := hd
    simp only [nonEmptySeq, List.cons_ne_nil, if_false] at e7
    have := (elem_app_inj (by omega) e7.symm).2.1
    simp only [List.flatten_cons, List.flatten_nil] at this
    exact elem_ne_nil _ _ (List.append_eq_nil_iff.mp this).1

/-! ### The key identifier -/

/-- **C91, key identifier, violated.** For a key identifier of 126 octets or more the list is well formed, but the
    validator takes something else for the key identifier of its issuer (it skips four octets, whatever the lengths). -/
theorem C91_violated_long_key (sha256 : Bytes → Bytes) (signer : Option (Bytes → Go Bytes)) (ski : Bytes) (issuer : Go Bytes)
    (revoked : List Revoked) (now expiry : Civil) (sn : Option Int) (out : Bytes)
    (h : createCRL sha256 signer ski issuer revoked now expiry sn = .ok out) (hl : out.length < 2 ^ 31)
    (env : Crl.Env) (henv : ReadsTimes env) (hname : ∀ name, issuer = .ok name → env.name name = .ok ())
    (hnow : now.moment.Valid) (hexp : expiry.moment.Valid) (hrev : ∀ r ∈ revoked, r.time.moment.Valid)
    (hoid : ∀ r ∈ revoked, ∀ x, r.exts = some x → ∀ e ∈ x, OidOk e.id) (hs : 126 ≤ ski.length) :
    ∃ l, decodeCRL env out = .ok l ∧ l.aki ≠ ski := by
  obtain ⟨l, s, n, h1, -, -, -, -, -, -, h2, h3, -⟩ := C91_created_is_read sha256 _ ski issuer revoked now expiry
    sn out h hl env henv hname hnow hexp hrev hoid
  refine ⟨l.toPki out, by simp [decodeCRL, h1], ?_⟩
  unfold Crl.CertList.toPki
  rw [h3]
  simp only [Option.getD_some]
  rw [aki_of_written, if_neg (by rintro rfl; simp at hs)]
  intro hd
  have := congrArg List.length hd
  have l1 : ski.length + 2 ≤ (elem 0x80 ski).length := by
    have := elem_length_gt 0x80 ski; omega
  have l2 : (elem 0x80 ski).length + 3 ≤ (elem 0x30 (elem 0x80 ski)).length := by
    have hge : ¬ (elem 0x80 ski).length < 128 := by omega
    generalize elem 0x80 ski = c at hge
    unfold elem derLength
    rw [if_neg hge]
    have : 1 ≤ (digits c.length).length := by
      rw [digits, if_neg (by omega)]
      simp
    simp only [List.length_append, List.length_cons]
    omega
  simp only [List.length_drop] at this
  omega

/-! ## C92 — what the validator reads -/

/-- **C92, safety.** Reading any octets as a revocation list ends, without panic. -/
theorem C92_no_panic (env : Crl.Env) (ht : ∀ g b, env.mft.time g b ≠ .panic ∧ env.mft.time g b ≠ .diverge)
    (hn : ∀ b, env.name b ≠ .panic ∧ env.name b ≠ .diverge) (data : Bytes) :
    decodeCRL env data ≠ .panic ∧ decodeCRL env data ≠ .diverge := by
  have : Safe (decodeCRL env data) := by
    unfold decodeCRL
    exact .bind (Crl.safe_parseDERCRL env ht hn data) fun _ _ => .ok _
  exact this

/-- The extension as it is read. -/
def extnExt (e : Extn) : Ext := ⟨e.id, e.critical, e.value⟩
/-- The entry as it is read. -/
def entryRevoked (r : Entry) : Revoked :=
  ⟨some r.serial, Crl.ofMoment r.date, if r.exts = [] then none else some (r.exts.map extnExt)⟩

theorem entry_form {env : Crl.Env} (henv : ReadsTimes env) {r : Entry} {out : Bytes} (h : EntryDer r out) (hd : r.date.Valid)
    (ho : ∀ e ∈ r.exts, OidOk e.id) : Crl.RevokedForm env (entryRevoked r) out := by
  obtain ⟨i, h1, rfl⟩ := h
  refine ⟨r.serial, i, timeDer r.date, rfl, h1, Crl.timeDer_form henv hd, ?_, ?_⟩
  · intro l hl e he
    unfold entryRevoked at hl
    simp only at hl
    split at hl
    · cases hl
    · have := Option.some.inj hl
      subst this
      obtain ⟨x, hx, rfl⟩ := List.mem_map.mp he
      exact ho x hx
  · unfold entryRevoked nonEmptySeq
    simp only [List.map_eq_nil_iff]
    split
    · simp [Crl.optExtsForm]
    · simp only [Crl.optExtsForm, List.map_map]
      rfl

/-- **C92, reading.** A revocation list in DER as RFC 5280 writes it is read as its contents: the octets to be signed,
    the signature, the dates, the entries and the extensions. -/
theorem C92_reads_der (env : Crl.Env) (henv : ReadsTimes env) (c : Crl) (tbs sig out : Bytes) (h : CrlDer c tbs sig out)
    (hl : out.length < 2 ^ 31) (hname : env.name c.issuer = .ok ()) (hthis : c.thisUpdate.Valid) (hnext : c.nextUpdate.Valid)
    (hdate : ∀ r ∈ c.entries, r.date.Valid) (hoid : ∀ e ∈ c.exts, OidOk e.id)
    (hoid' : ∀ r ∈ c.entries, ∀ e ∈ r.exts, OidOk e.id) :
    ∃ l, parseDERCRL env out = .ok l ∧ l.tbs.raw = tbs ∧ l.sig = ⟨sig, 8 * sig.length⟩ ∧ l.alg.1 = Crl.sha256WithRSAOID ∧
      l.tbs.issuer = c.issuer ∧ l.tbs.thisUpdate = Crl.ofMoment c.thisUpdate ∧ l.tbs.nextUpdate = Crl.ofMoment c.nextUpdate ∧
      l.tbs.revoked.getD [] = c.entries.map entryRevoked ∧ l.tbs.exts = some (c.exts.map extnExt) := by
  obtain ⟨⟨encs, h1, h2⟩, h3⟩ := h
  have hf : List.Forall₂ (Crl.RevokedForm env) (c.entries.map entryRevoked) encs := by
    rw [List.forall₂_map_left_iff]
    clear h2
    generalize c.entries = es at h1 hdate hoid'
    induction h1 with
    | nil => exact .nil
    | cons hd _ ih =>
      exact .cons (entry_form henv hd (hdate _ (by simp)) (hoid' _ (by simp)))
        (ih (fun r hr => hdate r (by simp [hr])) fun r hr => hoid' r (by simp [hr]))
  have hrs : Crl.RevokedsForm env (if encs = [] then none else some (c.entries.map entryRevoked)) (nonEmptySeq encs) := by
    unfold nonEmptySeq
    split
    · rfl
    · exact ⟨encs, hf, rfl⟩
  have htbs : tbs = Crl.tbsOf c.issuer (timeDer c.thisUpdate) (timeDer c.nextUpdate) (nonEmptySeq encs) (c.exts.map extnExt) := by
    rw [h2]
    unfold Crl.tbsOf
    simp only [List.map_map]
    rfl
  subst htbs
  have hp := Crl.parseDERCRL_form (exts := c.exts.map extnExt) hname (Crl.timeDer_form henv hthis)
    (.inl (Crl.timeDer_form henv hnext)) hrs (by intro e he; obtain ⟨x, hx, rfl⟩ := List.mem_map.mp he; exact hoid x hx) out (by rw [h3]; rfl) hl
  refine ⟨_, hp, rfl, by rw [Nat.mul_comm], rfl, rfl, rfl, rfl, ?_, rfl⟩
  simp only
  split
  · rename_i he
    subst he
    cases hf' : c.entries with
    | nil => rfl
    | cons => rw [hf'] at h1; cases h1
  · rfl

/-- **C92, the validator's view.** Of a list in DER with the two extensions of the RPKI, for a key identifier of 1 to 125
    octets, the validator takes that key identifier and exactly the serial numbers of the entries. -/
theorem C92_reads_rpki (env : Crl.Env) (henv : ReadsTimes env) (c : Crl) (tbs sig out ski number : Bytes)
    (h : CrlDer c tbs sig out) (hx : c.exts = rpkiExts ski number) (hs : ski.length ≤ 125) (hs0 : ski ≠ [])
    (hl : out.length < 2 ^ 31) (hname : env.name c.issuer = .ok ()) (hthis : c.thisUpdate.Valid) (hnext : c.nextUpdate.Valid)
    (hdate : ∀ r ∈ c.entries, r.date.Valid) (hoid' : ∀ r ∈ c.entries, ∀ e ∈ r.exts, OidOk e.id) :
    ∃ l, decodeCRL env out = .ok l ∧ l.aki = ski ∧ l.revoked = c.entries.map (·.serial) ∧ l.der = out := by
  obtain ⟨l, h1, -, -, -, -, -, -, h2, h3⟩ := C92_reads_der env henv c tbs sig out h hl hname hthis hnext hdate (by
    rw [hx]
    intro e he
    simp only [rpkiExts, List.mem_cons, List.not_mem_nil, or_false] at he
    rcases he with rfl | rfl
    · show OidOk Crl.akiOID; decide +kernel
    · show OidOk Crl.crlNumberOID; decide +kernel) hoid'
  refine ⟨l.toPki out, by simp [decodeCRL, h1], ?_, ?_, rfl⟩
  · unfold Crl.CertList.toPki Pki.CRL.aki
    rw [h3, hx]
    have hpos : ski.length ≠ 0 := by cases ski <;> simp_all
    have l1 := elem_length_gt 0x30 (elem 0x80 ski)
    have l2 := elem_length_gt 0x80 ski
    simp only [Option.getD_some, rpkiExts, List.map_cons, List.map_nil, List.foldl_cons, List.foldl_nil, extnExt]
    have e1 : decide (([0x55, 0x1d, 0x14] : Bytes) = Crl.akiOID) = false := by decide
    have e2 : decide (([0x55, 0x1d, 0x23] : Bytes) = Crl.akiOID) = true := by decide
    simp only [e1, e2, Bool.false_and, Bool.true_and, Bool.false_eq_true, if_false]
    rw [if_pos (by simp only [decide_eq_true_eq]; omega)]
    exact drop_short hs
  · unfold Crl.CertList.toPki
    rw [h2]
    simp [List.filterMap_map, Function.comp_def, entryRevoked]

/-! ### The hypotheses are met -/

namespace CrlEx

def num (c : Bytes) : Nat := c.foldl (fun a b => a * 10 + (b.toNat - 48)) 0

/-- A reader of times. -/
def clock (g : Bool) (c : Bytes) : Go Civil :=
  let k := if g then 4 else 2
  let y := num (c.take k)
  let d := c.drop k
  .ok ⟨if g then y else if y ≥ 50 then 1900 + y else 2000 + y, num (d.take 2), num ((d.drop 2).take 2), num ((d.drop 4).take 2),
    num ((d.drop 6).take 2), num ((d.drop 8).take 2), 0⟩

def env : Crl.Env := ⟨⟨clock, fun b => .ok b, fun b => .ok b⟩, fun _ => .ok ()⟩

theorem byte (d : Nat) (h : d < 10) : (48 + d).toUInt8.toNat - 48 = d := by
  rw [Nat.toUInt8, UInt8.toNat_ofNat']
  omega

theorem num2 (n : Nat) (h : n < 100) (r : Bytes) : num ((decimal 2 n ++ r).take 2) = n := by
  have e : decimal 2 n = [(48 + n / 10 ^ 1 % 10).toUInt8, (48 + n / 10 ^ 0 % 10).toUInt8] := rfl
  rw [e]
  simp only [List.cons_append, List.nil_append, List.take_succ_cons, List.take_zero, num, List.foldl_cons, List.foldl_nil]
  rw [byte _ (by omega), byte _ (by omega)]
  omega

theorem num2' (n : Nat) (r : Bytes) : num ((decimal 2 n ++ r).take 2) = n % 100 := by
  have e : decimal 2 n = [(48 + n / 10 ^ 1 % 10).toUInt8, (48 + n / 10 ^ 0 % 10).toUInt8] := rfl
  rw [e]
  simp only [List.cons_append, List.nil_append, List.take_succ_cons, List.take_zero, num, List.foldl_cons, List.foldl_nil]
  rw [byte _ (by omega), byte _ (by omega)]
  omega

theorem num4 (n : Nat) (h : n ≤ 9999) (r : Bytes) : num ((decimal 4 n ++ r).take 4) = n := by
  have e : decimal 4 n = [(48 + n / 10 ^ 3 % 10).toUInt8, (48 + n / 10 ^ 2 % 10).toUInt8, (48 + n / 10 ^ 1 % 10).toUInt8,
    (48 + n / 10 ^ 0 % 10).toUInt8] := rfl
  rw [e]
  simp only [List.cons_append, List.nil_append, List.take_succ_cons, List.take_zero, num, List.foldl_cons, List.foldl_nil]
  rw [byte _ (by omega), byte _ (by omega), byte _ (by omega), byte _ (by omega)]
  omega

theorem len2 (n : Nat) : (decimal 2 n).length = 2 := rfl
theorem len4 (n : Nat) : (decimal 4 n).length = 4 := rfl

theorem text_parts (m : Moment) (h : m.Valid) : num (m.text.take 2) = m.month ∧ num ((m.text.drop 2).take 2) = m.day ∧
    num ((m.text.drop 4).take 2) = m.hour ∧ num ((m.text.drop 6).take 2) = m.minute ∧ num ((m.text.drop 8).take 2) = m.second := by
  obtain ⟨-, -, h2, -, h4, h5, h6, h7⟩ := h
  have hd : daysIn m.year m.month ≤ 31 := by unfold daysIn; split <;> split <;> omega
  unfold Moment.text
  simp only [List.append_assoc]
  have drop2 : ∀ (n k : Nat) (r : Bytes), (decimal 2 n ++ r).drop (2 + k) = r.drop k := fun n k r => by
    rw [List.drop_append, len2]
    simp [len2]
  refine ⟨num2 _ (by omega) _, ?_, ?_, ?_, ?_⟩
  · rw [drop2 _ 0]; exact num2 _ (by omega) _
  · rw [drop2 _ 2, drop2 _ 0]; exact num2 _ (by omega) _
  · rw [drop2 _ 4, drop2 _ 2, drop2 _ 0]; exact num2 _ (by omega) _
  · rw [drop2 _ 6, drop2 _ 4, drop2 _ 2, drop2 _ 0]; exact num2 _ (by omega) _

/-- The law of reading times can be met. -/
theorem reads : ReadsTimes env := by
  intro m h
  obtain ⟨p1, p2, p3, p4, p5⟩ := text_parts m h
  constructor
  · intro h1 h2
    show clock false (utcText m) = _
    unfold clock utcText
    simp only [Bool.false_eq_true, if_false]
    have hdrop : (decimal 2 m.year ++ m.text).drop 2 = m.text := by
      rw [List.drop_append, len2]; simp [len2]
    rw [hdrop, p1, p2, p3, p4, p5, num2']
    unfold Crl.ofMoment
    congr 2
    split <;> omega
  · show clock true (generalizedText m) = _
    unfold clock generalizedText
    simp only [if_true]
    have hdrop : (decimal 4 m.year ++ m.text).drop 4 = m.text := by
      rw [List.drop_append, len4]; simp [len4]
    rw [hdrop, p1, p2, p3, p4, p5, num4 _ h.1]
    rfl

def now : Civil := ⟨2024, 2, 29, 12, 34, 56, 789⟩
def expiry : Civil := ⟨2050, 1, 1, 0, 0, 0, 0⟩
def revoked : List Revoked := [⟨some 5, ⟨1999, 12, 31, 23, 59, 59, 0⟩, none⟩, ⟨some 300, now, some [⟨[0x55, 0x1d, 0x15], true, [1]⟩]⟩]
def sign (d : Bytes) : Go Bytes := .ok (0xee :: d)
def sha (b : Bytes) : Bytes := [b.length.toUInt8]
def made : Go Bytes := createCRL sha (some sign) [1, 2, 3] (.ok [0x31, 0]) revoked now expiry (some 7)

theorem valid : now.moment.Valid ∧ expiry.moment.Valid ∧ ∀ r ∈ revoked, r.time.moment.Valid := by
  unfold Moment.Valid
  decide +kernel

/-- A list with two entries is made, and read back with the same serial numbers for the same key identifier. -/
example : ∃ out l, made = .ok out ∧ decodeCRL env out = .ok l ∧ l.aki = [1, 2, 3] ∧ l.revoked = [5, 300] := by
  obtain ⟨out, h⟩ := (C91_created_iff sha sign (fun d => ⟨_, rfl⟩) [1, 2, 3] [0x31, 0] revoked now expiry (some 7)).mpr
    (by decide +kernel)
  have hl : out.length < 2 ^ 31 := by
    have : (match made with | .ok o => decide (o.length < 2 ^ 31) | _ => false) = true := by decide +kernel
    unfold made at this
    rw [h] at this
    exact of_decide_eq_true this
  obtain ⟨l, h1, h2, h3, -⟩ := C91_created_is_of_issuer sha (some sign) [1, 2, 3] (.ok [0x31, 0]) revoked now expiry (some 7) out h hl
    env reads (fun _ _ => rfl) valid.1 valid.2.1 valid.2.2 (by
      intro r hr x hx e he
      simp only [revoked, List.mem_cons, List.not_mem_nil, or_false] at hr
      rcases hr with rfl | rfl
      · cases hx
      · cases hx
        simp only [List.mem_cons, List.not_mem_nil, or_false] at he
        subst he
        decide +kernel) (by decide)
  exact ⟨out, l, h, h1, h2, by rw [h3]; rfl⟩

/-- And it has the form of RFC 5280. -/
example : ∃ out c tbs sig, made = .ok out ∧ CrlDer c tbs sig out ∧ c.entries.map (·.serial) = [5, 300] := by
  obtain ⟨out, h⟩ := (C91_created_iff sha sign (fun d => ⟨_, rfl⟩) [1, 2, 3] [0x31, 0] revoked now expiry (some 7)).mpr
    (by decide +kernel)
  obtain ⟨_, _, _, _, tbs, sig, -, -, -, -, h2, -⟩ := C91_created_form_partial sha (some sign) [1, 2, 3] (.ok [0x31, 0]) revoked now
    expiry (some 7) out h (by decide) (by decide) (by decide) (by decide)
  exact ⟨out, _, tbs, sig, h, h2, rfl⟩

end CrlEx

end Verif.Props
