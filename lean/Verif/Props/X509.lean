import Verif.Lemmas.X509Safe
import Verif.Props.ExtAccess
/-
  C115: certificates octet by octet.
-/
set_option autoImplicit false

namespace Verif.Props
open X509 X509Spec CmsSpec BerSpec

/-! ### Concrete certificates -/

/-- The result is a value with a property. -/
def yields {α : Type} (g : Go α) (p : α → Bool) : Bool :=
  match g with
  | .ok a => p a
  | _ => false

theorem yields_iff {α : Type} {g : Go α} {p : α → Bool} : yields g p = true ↔ ∃ a, g = .ok a ∧ p a = true := by
  cases g <;> simp [yields]

/-- A library that accepts all keys and extensions of other kinds. -/
def easyLib : Lib := ⟨fun _ => true, fun b => b, fun _ _ _ => .ok (), fun _ _ => .ok ()⟩
/-- sha256WithRSAEncryption, NULL. -/
def xAlg : Bytes := elem 0x30 (elem 0x06 [0x2a, 0x86, 0x48, 0x86, 0xf7, 0x0d, 0x01, 0x01, 0x0b] ++ [0x05, 0x00])
/-- A name with one attribute, commonName. -/
def xName (t : Bytes) : Bytes := elem 0x30 (elem 0x31 (elem 0x30 (elem 0x06 [0x55, 0x04, 0x03] ++ elem 0x13 t)))
/-- From the start of 2020 to the start of 2060. -/
def xDates : Bytes :=
  elem 0x30 (elem 0x17 (asc "200101000000Z".toList) ++ elem 0x18 (asc "20600101000000Z".toList))
/-- A (small) RSA key. -/
def xKey : Bytes :=
  elem 0x30 (elem 0x30 (elem 0x06 [0x2a, 0x86, 0x48, 0x86, 0xf7, 0x0d, 0x01, 0x01, 0x01] ++ [0x05, 0x00]) ++
    elem 0x03 (0 :: elem 0x30 (elem 0x02 [0x00, 0xbb] ++ elem 0x02 [0x03])))
/-- An extension. -/
def xExt (id : Bytes) (critical : Bool) (v : Bytes) : Bytes :=
  elem 0x30 (elem 0x06 id ++ (if critical then elem 0x01 [0xff] else []) ++ elem 0x04 v)
/-- The signed octets. -/
def xTbs (version : Bytes) (serial : UInt8) (tail : Bytes) : Bytes :=
  elem 0x30 (version ++ elem 0x02 [serial] ++ xAlg ++ xName [0x41] ++ xDates ++ xName [0x42] ++ xKey ++ tail)
/-- The file. -/
def xFile (tbs junk : Bytes) : Bytes := elem 0x30 (tbs ++ xAlg ++ elem 0x03 [0, 0x77] ++ junk)
/-- Version 3. -/
def v3 : Bytes := elem 0xa0 (elem 0x02 [2])
/-- Extensions of a certificate of version 3. -/
def xExts (l : List Bytes) : Bytes := elem 0xa3 (elem 0x30 l.flatten)
/-- The extensions of an authority: key identifiers, key usage (to sign certificates and lists), basic constraints, a
    distribution point, and the address block 10.0.0.0/8. -/
def xCA : Bytes := xExts [
  xExt (idCe 14) false (elem 0x04 [1, 2, 3]),
  xExt (idCe 35) false (elem 0x30 (elem 0x80 [4, 5, 6])),
  xExt (idCe 15) true (elem 0x03 [1, 0x06]),
  xExt (idCe 19) true (elem 0x30 (elem 0x01 [0xff])),
  xExt (idCe 31) false (elem 0x30 (elem 0x30 (elem 0xa0 (elem 0xa0 (elem 0x86 (asc "rsync://h/a.crl".toList)))))),
  xExt [0x2b, 6, 1, 5, 5, 7, 1, 7] true (elem 0x30 (elem 0x30 (elem 0x04 [0, 1] ++ elem 0x30 (elem 0x03 [0, 10]))))]
/-- A certificate of an authority. -/
def xFileCA : Bytes := xFile (xTbs v3 5 xCA) []

/-! ### Exactly these octets -/

/-- C115. The parser of certificates takes exactly the octets of the specification, and the fields it gives are those
    that stand in them. -/
theorem C115_exact (lib : Lib) (data : Bytes) (c : XCert) : parseCertificate lib data = .ok c ↔ LaxCert lib c data :=
  ⟨parse_sound, parse_complete⟩

example : ∃ c, LaxCert easyLib c xFileCA ∧ c.version = 2 ∧ c.serial = 5 ∧ c.issuer = [[⟨[0x55, 4, 3], [0x41]⟩]] ∧
    c.subject = [[⟨[0x55, 4, 3], [0x42]⟩]] ∧ c.notBefore = ⟨1577836800, 0⟩ ∧ c.notAfter = ⟨2840140800, 0⟩ ∧
    c.key = .rsaPtr ⟨187, 3⟩ ∧ c.extras = ⟨96, true, true, [4, 5, 6], [1, 2, 3], [asc "rsync://h/a.crl".toList]⟩ ∧
    c.exts.length = 6 ∧ c.signature = [0x77] := by
  have h : yields (parseCertificate easyLib xFileCA) (fun c => decide (c.version = 2 ∧ c.serial = 5 ∧
      c.issuer = [[⟨[0x55, 4, 3], [0x41]⟩]] ∧ c.subject = [[⟨[0x55, 4, 3], [0x42]⟩]] ∧ c.notBefore = ⟨1577836800, 0⟩ ∧
      c.notAfter = ⟨2840140800, 0⟩ ∧ c.key = .rsaPtr ⟨187, 3⟩ ∧
      c.extras = ⟨96, true, true, [4, 5, 6], [1, 2, 3], [asc "rsync://h/a.crl".toList]⟩ ∧ c.exts.length = 6 ∧
      c.signature = [0x77])) = true := by decide +kernel
  obtain ⟨c, h1, h2⟩ := yields_iff.mp h
  exact ⟨c, (C115_exact _ _ _).mp h1, of_decide_eq_true h2⟩

theorem exts_nodup {lib : Lib} {data : Bytes} {c : XCert} (h : LaxCert lib c data) : (c.exts.map (·.id)).Nodup := by
  obtain ⟨alg, eb, eg, junk, ⟨ev, es, ea, ei, ed, en, ek, rest, k3, k4, k7, k5, k8, k9, k10, k11, k12, k2⟩, k6, k13, k1, hraw⟩ := h
  rcases k12 with ⟨-, h, -⟩ | ⟨-, u, w, a, b, -, -, ⟨-, h, -⟩ | ⟨-, exts, r, -, h⟩⟩
  · rw [h]; exact List.nodup_nil
  · rw [h]; exact List.nodup_nil
  · cases exts with
    | none => rw [h.1]; exact List.nodup_nil
    | some x => obtain ⟨⟨_, _, _, _, _, _, h⟩, _⟩ := h; exact h

/-- C115. No extension occurs twice in a certificate that is accepted. -/
theorem C115_once (lib : Lib) (data : Bytes) (c : XCert) (h : parseCertificate lib data = .ok c) : (c.exts.map (·.id)).Nodup :=
  exts_nodup (parse_sound h)

/-- The parser refuses the same certificate with one of the extensions repeated. -/
example : yields (parseCertificate easyLib (xFile (xTbs v3 5 (xExts [xExt (idCe 14) false (elem 0x04 [1])])) []))
      (fun _ => true) = true ∧
    yields (parseCertificate easyLib (xFile (xTbs v3 5 (xExts [xExt (idCe 14) false (elem 0x04 [1]),
      xExt (idCe 14) false (elem 0x04 [1])])) [])) (fun _ => true) = false := by decide +kernel

/-! ### The certificate that the validator works with -/

theorem last_says {α : Type} {exts : List Ext.Extension} (hn : (exts.map (·.id)).Nodup) {id : Bytes} {P : α → Bytes → Prop}
    {d x : α} : Says exts id P d x ↔ (∀ v, lastValue id exts = some v → P x v) ∧ (lastValue id exts = none → x = d) := by
  unfold Says
  constructor
  · rintro ⟨h1, h2⟩
    constructor
    · intro v hv
      obtain ⟨e, he, hi, rfl⟩ := (lastValue_iff hn v).mp hv
      exact h1 e he hi
    · intro hv
      apply h2
      intro e he hi
      have := (lastValue_iff hn e.value).mpr ⟨e, he, hi, rfl⟩
      rw [hv] at this
      cases this
  · rintro ⟨h1, h2⟩
    constructor
    · intro e he hi
      exact h1 _ ((lastValue_iff hn e.value).mpr ⟨e, he, hi, rfl⟩)
    · intro h
      apply h2
      cases hv : lastValue id exts with
      | none => rfl
      | some v =>
        obtain ⟨e, he, hi, -⟩ := (lastValue_iff hn v).mp hv
        exact absurd hi (h e he)

/-- C115. `DecodeCertificate` accepts exactly the octets of the specification whose resource and access extensions can
    be read; resources and access points are what these extensions say, and there are none without them. -/
theorem C115_decode (lib : Lib) (data : Bytes) (r : Ext.RCert XCert) :
    decodeCertificate lib data = .ok r ↔ LaxCert lib r.x509 data ∧
      Says r.x509.exts [0x2b, 6, 1, 5, 5, 7, 1, 7] (fun l v => Ext.decodeIPExt v = .ok l) [] r.ips ∧
      Says r.x509.exts [0x2b, 6, 1, 5, 5, 7, 1, 8] (fun l v => Ext.decodeASExt v = .ok l) ([], []) (r.nums, r.rdi) ∧
      Says r.x509.exts [0x2b, 6, 1, 5, 5, 7, 1, 0x0b] (fun l v => Ext.decodeSIAExt v = .ok l) [] r.sia := by
  unfold decodeCertificate
  rw [C88_decode]
  constructor
  · rintro ⟨exts, h, hall, h1, h2, h3⟩
    rw [Go.bind_eq_ok] at h
    obtain ⟨c, h0, h⟩ := h
    simp only [Go.pure_def, Go.ok.injEq, Prod.mk.injEq] at h
    obtain ⟨rfl, rfl⟩ := h
    have hl := parse_sound h0
    have hn := exts_nodup hl
    refine ⟨hl, (last_says hn).mpr ⟨?_, ?_⟩, (last_says hn).mpr ⟨?_, ?_⟩, (last_says hn).mpr ⟨?_, ?_⟩⟩
    · intro v hv; rw [hv] at h1; exact h1
    · intro hv; rw [hv] at h1; exact h1
    · intro v hv; rw [hv] at h2; exact h2
    · intro hv; rw [hv] at h2; rw [h2.1, h2.2]
    · intro v hv; rw [hv] at h3; exact h3
    · intro hv; rw [hv] at h3; exact h3
  · rintro ⟨hl, h1, h2, h3⟩
    have hn := exts_nodup hl
    refine ⟨r.x509.exts, by rw [parse_complete hl]; rfl, fun e he => ⟨fun hi => ⟨_, h1.1 e he hi⟩, fun hi => ⟨_, h2.1 e he hi⟩,
      fun hi => ⟨_, h3.1 e he hi⟩⟩, ?_, ?_, ?_⟩
    · have h1 := (last_says hn).mp h1
      cases hv : lastValue [0x2b, 6, 1, 5, 5, 7, 1, 7] r.x509.exts with
      | none => exact h1.2 hv
      | some v => exact h1.1 v hv
    · have h2 := (last_says hn).mp h2
      cases hv : lastValue [0x2b, 6, 1, 5, 5, 7, 1, 8] r.x509.exts with
      | none => exact Prod.mk.injEq .. ▸ h2.2 hv
      | some v => exact h2.1 v hv
    · have h3 := (last_says hn).mp h3
      cases hv : lastValue [0x2b, 6, 1, 5, 5, 7, 1, 0x0b] r.x509.exts with
      | none => exact h3.2 hv
      | some v => exact h3.1 v hv

example : ∃ r, decodeCertificate easyLib xFileCA = .ok r ∧ r.ips = [.net (some ⟨[10, 0, 0, 0], [0xff, 0, 0, 0]⟩)] ∧ r.nums = [] := by
  have h : yields (decodeCertificate easyLib xFileCA) (fun r => decide (r.ips = [.net (some ⟨[10, 0, 0, 0], [0xff, 0, 0, 0]⟩)] ∧
    r.nums = [])) = true := by decide +kernel
  obtain ⟨r, h1, h2⟩ := yields_iff.mp h
  exact ⟨r, h1, of_decide_eq_true h2⟩

/-- C115. Everything the validator uses of a certificate is covered by its signature: two files with the same signed
    octets give the same certificate, but for the octets of the file itself. -/
theorem C115_signed (lib : Lib) (data data' : Bytes) (r r' : Ext.RCert XCert) (h : decodeCertificate lib data = .ok r)
    (h' : decodeCertificate lib data' = .ok r') (ht : r.x509.tbs = r'.x509.tbs) :
    { toPki r with der := [] } = { toPki r' with der := [] } ∧ r.rdi = r'.rdi ∧
      r.x509 = { r'.x509 with raw := r.x509.raw, signature := r.x509.signature } := by
  obtain ⟨hl, h1, h2, h3⟩ := (C115_decode _ _ _).mp h
  obtain ⟨hl', h1', h2', h3'⟩ := (C115_decode _ _ _).mp h'
  have hn := exts_nodup hl
  obtain ⟨alg, _, _, _, k, _⟩ := hl
  obtain ⟨alg', _, _, _, k', _⟩ := hl'
  obtain ⟨-, a1, a2, a3, a4, a5, a6, a7, a8, a9, a10⟩ := tbs_unique k k' ht
  have same : ∀ {α : Type} {id : Bytes} {f : Bytes → Go α} {d x y : α}, Says r.x509.exts id (fun l v => f v = .ok l) d x →
      Says r'.x509.exts id (fun l v => f v = .ok l) d y → x = y := by
    intro α id f d x y hx hy
    rw [← a9, last_says hn] at hy
    rw [last_says hn] at hx
    cases hv : lastValue id r.x509.exts with
    | none => rw [hx.2 hv, hy.2 hv]
    | some v =>
      have := hx.1 v hv
      rw [hy.1 v hv] at this
      exact (Go.ok.inj this).symm
  have e1 := same h1 h1'
  have e2 := same h2 h2'
  have e3 := same h3 h3'
  rw [Prod.mk.injEq] at e2
  obtain ⟨sia, ips, nums, rdi, x⟩ := r
  obtain ⟨sia', ips', nums', rdi', x'⟩ := r'
  obtain ⟨raw, tbs, v, serial, sa, issuer, nb, na, subject, key, exts, extras, sig⟩ := x
  obtain ⟨raw', tbs', v', serial', sa', issuer', nb', na', subject', key', exts', extras', sig'⟩ := x'
  simp only at ht a1 a2 a3 a4 a5 a6 a7 a8 a9 a10 e1 e2 e3
  obtain ⟨e2, e4⟩ := e2
  subst ht a1 a2 a3 a4 a5 a6 a7 a8 a9 a10 e1 e2 e3 e4
  exact ⟨rfl, rfl, rfl⟩

/-- Two different files with the same signed octets: the signatures differ. -/
example : yields (decodeCertificate easyLib xFileCA) (fun r => yields (decodeCertificate easyLib
      (elem 0x30 (xTbs v3 5 xCA ++ xAlg ++ elem 0x03 [0, 0x78]))) (fun r' => decide (r.x509.tbs = r'.x509.tbs ∧
        r.x509.signature ≠ r'.x509.signature ∧ { toPki r with der := [] } = { toPki r' with der := [] }))) = true := by
  decide +kernel

/-- C115 is violated: octets behind the signature, inside the structure, are passed over, so that different files are
    the same certificate with the same signature. -/
theorem C115_violated_trailing : ∃ data data' c c', data ≠ data' ∧ parseCertificate easyLib data = .ok c ∧
    parseCertificate easyLib data' = .ok c' ∧ c = { c' with raw := data } := by
  have h : yields (parseCertificate easyLib xFileCA) (fun c => yields (parseCertificate easyLib (xFile (xTbs v3 5 xCA) [0x61, 0x62]))
      (fun c' => decide (xFileCA ≠ xFile (xTbs v3 5 xCA) [0x61, 0x62] ∧ c = { c' with raw := xFileCA }))) = true := by decide +kernel
  obtain ⟨c, h1, h2⟩ := yields_iff.mp h
  obtain ⟨c', h3, h4⟩ := yields_iff.mp h2
  have h4 := of_decide_eq_true h4
  exact ⟨_, _, c, c', h4.1, h1, h3, h4.2⟩

/-! ### No crash -/

/-- C115. Whatever the octets are, `DecodeCertificate` ends with a certificate or an error, if those parts of the
    library do that are not modelled. -/
theorem C115_no_panic (lib : Lib) (hk : ∀ o p b, (∃ u, lib.otherKey o p b = .ok u) ∨ ∃ m, lib.otherKey o p b = .err m)
    (hx : ∀ k v, (∃ u, lib.otherExt k v = .ok u) ∨ ∃ m, lib.otherExt k v = .err m) (data : Bytes) :
    (∃ r, decodeCertificate lib data = .ok r) ∨ ∃ m, decodeCertificate lib data = .err m := by
  have hs := safe_decode (lib := lib) ⟨fun o p b => safe_of_ends (hk o p b), fun k v => safe_of_ends (hx k v)⟩ data
  cases h : decodeCertificate lib data with
  | ok r => exact .inl ⟨r, rfl⟩
  | err m => exact .inr ⟨m, rfl⟩
  | panic => exact absurd h hs.1
  | diverge => exact absurd h hs.2

example : (∀ o p b, (∃ u, easyLib.otherKey o p b = .ok u) ∨ ∃ m, easyLib.otherKey o p b = .err m) ∧
    (∀ k v, (∃ u, easyLib.otherExt k v = .ok u) ∨ ∃ m, easyLib.otherExt k v = .err m) ∧
    yields (decodeCertificate easyLib (xFileCA.take 100)) (fun _ => true) = false :=
  ⟨fun _ _ _ => .inl ⟨(), rfl⟩, fun _ _ => .inl ⟨(), rfl⟩, by decide +kernel⟩

/-! ### Who may sign -/

theorem parsed_meaning {lib : Lib} {data : Bytes} {c : XCert} (h : LaxCert lib c data) : Meaning lib c.exts c.extras := by
  obtain ⟨alg, eb, eg, junk, ⟨ev, es, ea, ei, ed, en, ek, rest, k3, k4, k7, k5, k8, k9, k10, k11, k12, k2⟩, k6, k13, k1, hraw⟩ := h
  have nil : c.exts = [] → c.extras = Extras.zero → Meaning lib c.exts c.extras := by
    intro h1 h2
    rw [h1, h2]
    exact meaning_iff.mp (rel_nil.mpr rfl)
  rcases k12 with ⟨-, h, h'⟩ | ⟨-, u, w, a, b, -, -, ⟨-, h, h'⟩ | ⟨-, exts, r, -, h⟩⟩
  · exact nil h h'
  · exact nil h h'
  · cases exts with
    | none => exact nil h.1 h.2
    | some x => exact h.2

/-- C115. A certificate passes as the signer of another one exactly if the signature is good; if, being of version 3, it
    has basic constraints; if basic constraints, where present, say that it is an authority; and if the key usage, where
    present and not empty, has the bit for signing certificates (RFC 5280 4.2.1.3, 4.2.1.9). -/
theorem C115_signer (lib : Lib) (verify : Bytes × Bytes → Bytes → Bytes → Tal.PubKey → Bool) (data : Bytes) (child parent : XCert)
    (hp : parseCertificate lib data = .ok parent) :
    checkFrom verify child parent = true ↔
      verify child.sigAlg child.tbs child.signature parent.key = true ∧
      (parent.version = 2 → ∃ e ∈ parent.exts, e.id = idCe 19) ∧
      (∀ e ∈ parent.exts, e.id = idCe 19 → BasicDer true e.value) ∧
      (∀ e ∈ parent.exts, e.id = idCe 15 → ∃ u, KeyUsageDer u e.value ∧ (u = 0 ∨ u / 2 ^ 5 % 2 = 1)) := by
  obtain ⟨-, hu, hb, hx, -⟩ := parsed_meaning (parse_sound hp)
  have ha : ∀ {e : Ext.Extension}, e ∈ parent.exts → e.id = idCe 19 → BasicDer true e.value → parent.extras.isCA = true := by
    intro e he hi h
    have := basic_iff.mpr (hb.1 e he hi)
    rw [basic_iff.mpr h] at this
    exact (Go.ok.inj this).symm
  unfold checkFrom
  constructor
  · intro h
    split at h
    · cases h
    next h1 =>
    split at h
    · cases h
    next h2 =>
    rw [not_or] at h1
    refine ⟨h, fun hv => ?_, fun e he hi => ?_, fun e he hi => ⟨_, hu.1 e he hi, ?_⟩⟩
    · apply hx.mp
      cases hc : parent.extras.basic with
      | true => rfl
      | false => exact absurd ⟨hv, hc⟩ h1.1
    · have hc : parent.extras.isCA = true := by
        cases hc : parent.extras.isCA with
        | true => rfl
        | false => exact absurd ⟨hx.mpr ⟨e, he, hi⟩, hc⟩ h1.2
      exact hc ▸ hb.1 e he hi
    · by_cases h0 : parent.extras.keyUsage = 0
      · exact .inl h0
      · right
        have : ¬ parent.extras.keyUsage / 32 % 2 = 0 := fun h => h2 ⟨h0, h⟩
        show parent.extras.keyUsage / 32 % 2 = 1
        omega
  · rintro ⟨h, h1, h2, h3⟩
    rw [if_neg, if_neg]
    · exact h
    · rintro ⟨h0, hz⟩
      by_cases hk : ∃ e ∈ parent.exts, e.id = idCe 15
      · obtain ⟨e, he, hi⟩ := hk
        obtain ⟨u, k1, k2⟩ := h3 e he hi
        have := keyUsage_iff.mpr (hu.1 e he hi)
        rw [keyUsage_iff.mpr k1] at this
        obtain rfl := Go.ok.inj this
        rcases k2 with k2 | k2
        · exact h0 k2
        · have k2 : parent.extras.keyUsage / 32 % 2 = 1 := k2
          omega
      · exact h0 (hu.2 fun e he hi => hk ⟨e, he, hi⟩)
    · rintro (⟨hv, hf⟩ | ⟨ht, hf⟩)
      · have := hx.mpr (h1 hv)
        rw [hf] at this
        cases this
      · obtain ⟨e, he, hi⟩ := hx.mp ht
        have := ha he hi (h2 e he hi)
        rw [hf] at this
        cases this

/-- An authority passes; a certificate whose key may sign lists only does not, and neither does an end entity. -/
example : yields (parseCertificate easyLib xFileCA) (fun c => checkFrom (fun _ _ _ _ => true) c c) = true ∧
    yields (parseCertificate easyLib (xFile (xTbs v3 5 (xExts [xExt (idCe 15) true (elem 0x03 [1, 0x02]),
      xExt (idCe 19) true (elem 0x30 (elem 0x01 [0xff]))])) [])) (fun c => !checkFrom (fun _ _ _ _ => true) c c) = true ∧
    yields (parseCertificate easyLib (xFile (xTbs v3 5 (xExts [xExt (idCe 15) true (elem 0x03 [7, 0x80])])) []))
      (fun c => !checkFrom (fun _ _ _ _ => true) c c) = true := by decide +kernel

/-- C115 is violated: a certificate of version 1, which cannot say that it belongs to an authority, passes as a signer
    (RFC 6487 4.1, 4.8.1). -/
theorem C115_violated_version : ∃ data c, parseCertificate easyLib data = .ok c ∧ c.version = 0 ∧ c.exts = [] ∧
    ∀ verify child, checkFrom verify child c = verify child.sigAlg child.tbs child.signature c.key := by
  have h : yields (parseCertificate easyLib (xFile (xTbs [] 5 []) [])) (fun c => decide (c.version = 0 ∧ c.exts = [] ∧
    c.extras = Extras.zero)) = true := by decide +kernel
  obtain ⟨c, h1, h2⟩ := yields_iff.mp h
  obtain ⟨h2, h3, h4⟩ := of_decide_eq_true h2
  refine ⟨_, c, h1, h2, h3, fun verify child => ?_⟩
  unfold checkFrom
  rw [h2, h4]
  rfl

/-- C115 is violated: a key usage without any bit allows everything (RFC 5280 4.2.1.3 asks for at least one bit). -/
theorem C115_violated_usage : ∃ data c, parseCertificate easyLib data = .ok c ∧
    (∃ e ∈ c.exts, e.id = idCe 15 ∧ KeyUsageDer 0 e.value) ∧
    ∀ verify child, checkFrom verify child c = verify child.sigAlg child.tbs child.signature c.key := by
  have h : yields (parseCertificate easyLib (xFile (xTbs v3 5 (xExts [xExt (idCe 15) true (elem 0x03 [0]),
      xExt (idCe 19) true (elem 0x30 (elem 0x01 [0xff]))])) [])) (fun c => decide (c.version = 2 ∧
        c.extras = ⟨0, true, true, [], [], []⟩ ∧ ⟨idCe 15, true, elem 0x03 [0]⟩ ∈ c.exts ∧ keyUsage (elem 0x03 [0]) = .ok 0)) = true := by
    decide +kernel
  obtain ⟨c, h1, h2⟩ := yields_iff.mp h
  obtain ⟨h2, h3, h4, h5⟩ := of_decide_eq_true h2
  refine ⟨_, c, h1, ⟨_, h4, rfl, keyUsage_iff.mp h5⟩, fun verify child => ?_⟩
  unfold checkFrom
  rw [h2, h3]
  rfl

/-- C115 is violated: an authority that may have no authorities below it (path length 0) passes as the signer of an
    authority (RFC 5280 4.2.1.9). -/
theorem C115_violated_path : ∃ pdata cdata parent child, parseCertificate easyLib pdata = .ok parent ∧
    parseCertificate easyLib cdata = .ok child ∧
    (∃ e ∈ parent.exts, e.id = idCe 19 ∧ e.value = elem 0x30 (elem 0x01 [0xff] ++ elem 0x02 [0])) ∧
    child.extras.isCA = true ∧ child.issuer = parent.subject ∧
    ∀ verify, checkFrom verify child parent = verify child.sigAlg child.tbs child.signature parent.key := by
  have h : yields (parseCertificate easyLib (elem 0x30 (elem 0x30 (v3 ++ elem 0x02 [1] ++ xAlg ++ xName [0x41] ++ xDates ++
      xName [0x41] ++ xKey ++ xExts [xExt (idCe 19) true (elem 0x30 (elem 0x01 [0xff] ++ elem 0x02 [0]))]) ++ xAlg ++
      elem 0x03 [0, 0x77]))) (fun p => yields (parseCertificate easyLib xFileCA) (fun c => decide (
        ⟨idCe 19, true, elem 0x30 (elem 0x01 [0xff] ++ elem 0x02 [0])⟩ ∈ p.exts ∧ c.extras.isCA = true ∧ c.issuer = p.subject ∧
        p.version = 2 ∧ p.extras = ⟨0, true, true, [], [], []⟩))) = true := by decide +kernel
  obtain ⟨p, h1, h2⟩ := yields_iff.mp h
  obtain ⟨c, h3, h4⟩ := yields_iff.mp h2
  obtain ⟨h4, h5, h6, h7, h8⟩ := of_decide_eq_true h4
  refine ⟨_, _, p, c, h1, h3, ⟨_, h4, rfl, rfl⟩, h5, h6, fun verify => ?_⟩
  unfold checkFrom
  rw [h7, h8]
  rfl

/-- C115 is violated: a certificate with a critical extension that the code does not know is accepted (RFC 5280 4.2). -/
theorem C115_violated_critical : ∃ data r, decodeCertificate easyLib data = .ok r ∧
    ∃ e ∈ r.x509.exts, e.critical = true ∧ e.id = [0x2a, 0x03, 0x04] := by
  have h : yields (decodeCertificate easyLib (xFile (xTbs v3 5 (xExts [xExt [0x2a, 0x03, 0x04] true [0x61]])) []))
      (fun r => decide (⟨[0x2a, 0x03, 0x04], true, [0x61]⟩ ∈ r.x509.exts)) = true := by decide +kernel
  obtain ⟨r, h1, h2⟩ := yields_iff.mp h
  exact ⟨_, r, h1, _, of_decide_eq_true h2, rfl, rfl⟩

end Verif.Props
