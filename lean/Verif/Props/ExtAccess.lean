import Verif.Lemmas.ExtAccess
import Verif.Props.Ext
/-
  C87: the access, key identifier and policy extensions, as octets.  C88: certificates as a whole.
-/
set_option autoImplicit false

namespace Verif.Props
open Der Cms CmsSpec BerSpec ResSpec Cert Ext ExtSpec

/-! ### C87 -/

/-- C87. The DER encoding of a list of access descriptions with URIs, whatever follows it, is read as these
    methods and URIs, in order. -/
theorem C87_access_read (l : List Access) (out rest : Bytes) (h : AccessListDer l out) (hl : out.length < 2 ^ 31)
    (ho : ∀ a ∈ l, OidContent a.method) :
    decodeSIAExt (out ++ rest) = .ok (l.map (fun a => ⟨a.method, a.uri⟩)) :=
  decodeSIAExt_der h hl ho rest

/-- C87. Whatever octets are accepted are such a list, up to octets after the list and after the URI of an
    entry, and give the entries written there. -/
theorem C87_access_sound (data : Bytes) (l : List SIA) (h : decodeSIAExt data = .ok l) :
    ∃ encs junk, List.Forall₂ LaxAccess (l.map (fun s => ⟨s.method, s.name⟩)) encs ∧
      data = elem 0x30 encs.flatten ++ junk :=
  decodeSIAExt_ok h

/-- C87. What is written for a list of entries is the DER encoding of these entries. -/
theorem C87_access_write (l : List SIA) :
    AccessListDer (l.map (fun s => ⟨s.method, s.name⟩)) (encodeSIAExt l) := by
  refine ⟨l.map marshalSIA, ?_, tlv_elem _ _⟩
  rw [List.forall₂_map_left_iff, List.forall₂_map_right_iff, List.forall₂_same]
  intro s _
  exact show marshalSIA s = _ by simp only [marshalSIA, tlv_elem]

/-- C87. It is read back as the same entries. -/
theorem C87_access_round_trip (l : List SIA) (ho : ∀ s ∈ l, OidContent s.method)
    (hl : (encodeSIAExt l).length < 2 ^ 31) (rest : Bytes) : decodeSIAExt (encodeSIAExt l ++ rest) = .ok l := by
  rw [C87_access_read _ _ rest (C87_access_write l) hl (by
    intro a ha
    obtain ⟨s, hs, rfl⟩ := List.mem_map.mp ha
    exact ho s hs)]
  rw [List.map_map]
  exact congrArg Go.ok (List.map_id l)

/-- C87. The access extension of an object's certificate: for the issuer, extension 1.3.6.1.5.5.7.1.1 with
    one description caIssuers (…48.2), otherwise extension …1.11 with one description signedObject (…48.11),
    holding the given URI, and read back as that. -/
theorem C87_info_access (utf8 : Bytes → Bool) (path : Bytes) (hu : utf8 path = true) :
    (∃ out, encodeInfoAccess utf8 true path = .ok ([0x2b, 6, 1, 5, 5, 7, 1, 1], out) ∧
      AccessListDer [⟨[0x2b, 6, 1, 5, 5, 7, 0x30, 2], path⟩] out) ∧
    (∃ out, encodeInfoAccess utf8 false path = .ok ([0x2b, 6, 1, 5, 5, 7, 1, 0x0b], out) ∧
      AccessListDer [⟨[0x2b, 6, 1, 5, 5, 7, 0x30, 0x0b], path⟩] out ∧
      (out.length < 2 ^ 31 → decodeSIAExt out = .ok [⟨[0x2b, 6, 1, 5, 5, 7, 0x30, 0x0b], path⟩])) := by
  have hd : ∀ m : Bytes, AccessListDer [⟨m, path⟩] (tlv 0x30 (tlv 0x30 (tlv 0x06 m ++ tlv 0x86 path))) := by
    intro m
    refine ⟨[elem 0x30 (elem 0x06 m ++ elem 0x86 path)], .cons rfl .nil, ?_⟩
    simp [tlv_elem]
  refine ⟨⟨_, by simp [encodeInfoAccess, hu, authorityInfoAccess]; rfl, hd _⟩,
    ⟨_, by simp [encodeInfoAccess, hu, subjectInfoAccess]; rfl, hd _, fun hl => ?_⟩⟩
  have := C87_access_read _ _ [] (hd signedObject) hl (by
    intro a ha
    rw [List.mem_singleton.mp ha]
    refine ⟨[[0x2b], [6], [1], [5], [5], [7], [0x30], [0x0b]], by simp, ?_, rfl⟩
    intro a ha
    simp only [List.mem_cons, List.not_mem_nil, or_false] at ha
    rcases ha with rfl | rfl | rfl | rfl | rfl | rfl | rfl | rfl <;>
      exact ⟨⟨[], _, rfl, by decide, by simp, by decide⟩, by decide⟩)
  rw [List.append_nil] at this
  exact this

/-- C87. The key identifiers: the subject's is the contents of the OCTET STRING, the authority's is the field
    [0] that comes first (RFC 5280 4.2.1.1, 4.2.1.2); nothing else is accepted. -/
theorem C87_key_identifiers (k more rest : Bytes) (hk : (elem 0x30 (elem 0x80 k ++ more)).length < 2 ^ 31) :
    decodeKeyIdentifier (elem 0x04 k ++ rest) = .ok k ∧
    decodeKeyAuthority (elem 0x30 (elem 0x80 k ++ more) ++ rest) = .ok k ∧
    (∀ data x, decodeKeyIdentifier data = .ok x → ∃ rest, data = elem 0x04 x ++ rest) ∧
    (∀ data x, decodeKeyAuthority data = .ok x → ∃ more rest, data = elem 0x30 (elem 0x80 x ++ more) ++ rest) := by
  have l1 := elem_length_gt 0x30 (elem 0x80 k ++ more)
  have l2 := elem_length_gt 0x80 k
  have l3 : (elem 0x80 k ++ more).length = (elem 0x80 k).length + more.length := List.length_append
  refine ⟨?_, ?_, ?_, ?_⟩
  · simp [decodeKeyIdentifier, parseOctets_elem k rest (by omega)]
  · have e := parseTaggedOctets_elem (n := 0) (by decide) k more (by omega)
    rw [show ((128 + 0 : Nat)).toUInt8 = 0x80 from rfl] at e
    simp [decodeKeyAuthority, parseSeq_elem (elem 0x80 k ++ more) rest (by omega), e]
  · intro data x h
    unfold decodeKeyIdentifier at h
    obtain ⟨r, hr, h⟩ := Go.bind_eq_ok.mp h
    simp only [Go.pure_def, Go.ok.injEq] at h
    subst h
    exact ⟨r.2, parseOctets_ok (x := r.1) (rest := r.2) hr⟩
  · intro data x h
    unfold decodeKeyAuthority at h
    obtain ⟨s, hs, h⟩ := Go.bind_eq_ok.mp h
    obtain ⟨r, hr, h⟩ := Go.bind_eq_ok.mp h
    simp only [Go.pure_def, Go.ok.injEq] at h
    subst h
    have h1 := parseTyped_elem (x := s.1) (rest := s.2) (by decide) hs
    have h2 := parseTaggedOctets_ok (x := r.1) (rest := r.2) (by decide) hr
    exact ⟨r.2, s.2, by rw [h1, h2]; rfl⟩

/-- C87. With a CPS address in ASCII, the policy extension is DER: the one policy of RFC 6484
    (1.3.6.1.5.5.7.14.2) with the address as its one qualifier. Other characters are refused.
    Missing: the empty address (next theorem). -/
theorem C87_policy_write_partial (cps : Bytes) :
    (cps ≠ [] → (∀ b ∈ cps, b < 0x80) → ∃ out, encodePolicy cps = .ok out ∧
      PoliciesDer [⟨[0x2b, 6, 1, 5, 5, 7, 0x0e, 2], some [cpsQualifier cps]⟩] out) ∧
    ((∃ b ∈ cps, 0x80 ≤ b) → ∃ e, encodePolicy cps = .err e) := by
  refine ⟨fun hne ha => ?_, fun ⟨b, hb, h⟩ => ?_⟩
  · refine ⟨_, by unfold encodePolicy; rw [if_pos (by simpa using ha), if_neg hne], by simp, ?_⟩
    refine ⟨[elem 0x30 (elem 0x06 [0x2b, 6, 1, 5, 5, 7, 0x0e, 2] ++ elem 0x30 (cpsQualifier cps))],
      .cons ⟨by simp, ?_, by simp⟩ .nil, ?_⟩
    · intro x hx
      rw [List.mem_singleton.mp hx]
      exact ⟨_, rfl⟩
    · simp only [tlv_elem, resourceCertPolicy, cpsOID, cpsQualifier, List.flatten_cons, List.flatten_nil,
        List.append_nil]
  · refine ⟨_, by
      unfold encodePolicy
      rw [if_neg]
      simp only [List.all_eq_true, not_forall, decide_eq_true_eq]
      refine ⟨b, hb, ?_⟩
      rw [UInt8.lt_iff_toNat_lt]; rw [UInt8.le_iff_toNat_le] at h; omega⟩

/-- C87 fails without a CPS address: the extension written holds an empty list of qualifiers, which no list
    of policies encodes to (RFC 5280: SIZE (1..MAX)). -/
theorem C87_violated_no_cps : ∃ out, encodePolicy [] = .ok out ∧ ¬ ∃ l, PoliciesDer l out := by
  refine ⟨elem 0x30 (elem 0x30 (elem 0x06 resourceCertPolicy ++ elem 0x30 [])), by decide +kernel, ?_⟩
  rintro ⟨l, hne, encs, h1, h2⟩
  obtain ⟨-, h3⟩ := elem_eq h2 (by decide +kernel)
  cases h1 with
  | nil => exact hne rfl
  | @cons p enc l encs hp _ =>
    rw [List.flatten_cons] at h3
    unfold PolicyDer at hp
    split at hp
    · subst hp
      obtain ⟨-, h4, -⟩ := elem_head h3.symm (by decide +kernel)
      rw [← List.append_nil (elem 0x06 p.oid)] at h4
      obtain ⟨-, -, h5⟩ := elem_app_inj (by decide +kernel) h4.symm
      exact absurd h5.symm (elem_ne_nil _ _)
    · rename_i q _
      obtain ⟨hq, hx, rfl⟩ := hp
      obtain ⟨-, h4, -⟩ := elem_head h3.symm (by decide +kernel)
      obtain ⟨-, -, h5⟩ := elem_app_inj (by decide +kernel) h4.symm
      obtain ⟨-, h6⟩ := elem_eq h5.symm (by decide +kernel)
      cases q with
      | nil => exact hq rfl
      | cons a q =>
        obtain ⟨c, rfl⟩ := hx a (by simp)
        rw [List.flatten_cons] at h6
        exact absurd (List.append_eq_nil_iff.mp h6).1 (elem_ne_nil _ _)

/-- Repository rsync://h/m/ and RRDP https://h/n.xml. -/
def accessExample : List SIA :=
  [⟨certRepository, "rsync://h/m/".toUTF8.toList⟩, ⟨certRRDP, "https://h/n.xml".toUTF8.toList⟩]

example : decodeSIAExt (encodeSIAExt accessExample) = .ok accessExample ∧
    (encodeSIAExt accessExample).length = 57 := by decide +kernel

/-! ### C88 -/

/-- The value of the last extension with this identifier. -/
def lastValue (id : Bytes) (exts : List Extension) : Option Bytes :=
  ((exts.filter (fun x => x.id = id)).getLast?).map Extension.value

theorem lastValue_cons (id : Bytes) (x : Extension) (exts : List Extension) :
    lastValue id (x :: exts) = match lastValue id exts with
      | some v => some v
      | none => if x.id = id then some x.value else none := by
  unfold lastValue
  by_cases h : x.id = id
  · rw [List.filter_cons_of_pos (by simpa using h), if_pos h, List.getLast?_cons]
    cases (exts.filter (fun x => x.id = id)).getLast? <;> simp
  · rw [List.filter_cons_of_neg (by simpa using h), if_neg h]
    cases (exts.filter (fun x => x.id = id)).getLast? <;> simp

/-- What the extensions say, starting from what was known before. -/
def ExtsRead {X : Type} (exts : List Extension) (c0 c : RCert X) : Prop :=
  c.x509 = c0.x509 ∧
  (∀ e ∈ exts, (e.id = ipAddrBlock → ∃ l, decodeIPExt e.value = .ok l) ∧
    (e.id = autonomousSysIds → ∃ l, decodeASExt e.value = .ok l) ∧
    (e.id = subjectInfoAccess → ∃ l, decodeSIAExt e.value = .ok l)) ∧
  (match lastValue ipAddrBlock exts with
    | none => c.ips = c0.ips
    | some v => decodeIPExt v = .ok c.ips) ∧
  (match lastValue autonomousSysIds exts with
    | none => c.nums = c0.nums ∧ c.rdi = c0.rdi
    | some v => decodeASExt v = .ok (c.nums, c.rdi)) ∧
  (match lastValue subjectInfoAccess exts with
    | none => c.sia = c0.sia
    | some v => decodeSIAExt v = .ok c.sia)

theorem extLoop_iff {X : Type} (exts : List Extension) (c0 c : RCert X) :
    extLoop exts c0 = .ok c ↔ ExtsRead exts c0 c := by
  induction exts generalizing c0 with
  | nil =>
    obtain ⟨s0, i0, n0, r0, x0⟩ := c0
    obtain ⟨s, i, n, r, x⟩ := c
    simp only [extLoop, ExtsRead, lastValue, List.filter_nil, List.getLast?_nil, Option.map_none, Go.ok.injEq,
      RCert.mk.injEq, List.not_mem_nil, false_implies, implies_true, true_and]
    constructor
    · rintro ⟨rfl, rfl, rfl, rfl, rfl⟩; exact ⟨rfl, rfl, ⟨rfl, rfl⟩, rfl⟩
    · rintro ⟨rfl, rfl, ⟨rfl, rfl⟩, rfl⟩; exact ⟨rfl, rfl, rfl, rfl, rfl⟩
  | cons x exts ih =>
    have d1 : ipAddrBlock ≠ autonomousSysIds := by decide
    have d2 : ipAddrBlock ≠ subjectInfoAccess := by decide
    have d3 : autonomousSysIds ≠ subjectInfoAccess := by decide
    simp only [extLoop]
    unfold ExtsRead
    simp only [List.forall_mem_cons, lastValue_cons]
    by_cases h1 : x.id = ipAddrBlock
    · rw [if_pos h1, Go.bind_eq_ok]
      simp only [ih, h1, d1, d2, if_true, if_false, true_implies, false_implies, and_true, ExtsRead]
      constructor
      · rintro ⟨l, hl, k1, k2, k3, k4, k5⟩
        refine ⟨k1, ⟨⟨l, hl⟩, k2⟩, ?_, ?_, ?_⟩
        · cases hv : lastValue ipAddrBlock exts with
          | none => rw [hv] at k3; simp only at k3 ⊢; rw [k3]; exact hl
          | some v => rw [hv] at k3; exact k3
        · cases hv : lastValue autonomousSysIds exts with
          | none => rw [hv] at k4; exact k4
          | some v => rw [hv] at k4; exact k4
        · cases hv : lastValue subjectInfoAccess exts with
          | none => rw [hv] at k5; exact k5
          | some v => rw [hv] at k5; exact k5
      · rintro ⟨k1, ⟨⟨l, hl⟩, k2⟩, k3, k4, k5⟩
        refine ⟨l, hl, k1, k2, ?_, ?_, ?_⟩
        · cases hv : lastValue ipAddrBlock exts with
          | none => rw [hv] at k3; simp only at k3 ⊢; rw [hl] at k3; exact (Go.ok.inj k3).symm
          | some v => rw [hv] at k3; exact k3
        · cases hv : lastValue autonomousSysIds exts with
          | none => rw [hv] at k4; exact k4
          | some v => rw [hv] at k4; exact k4
        · cases hv : lastValue subjectInfoAccess exts with
          | none => rw [hv] at k5; exact k5
          | some v => rw [hv] at k5; exact k5
    · rw [if_neg h1]
      by_cases h2 : x.id = autonomousSysIds
      · rw [if_pos h2, Go.bind_eq_ok]
        simp only [ih, h2, d1.symm, d3, if_true, if_false, true_implies, false_implies, and_true, true_and, ExtsRead]
        constructor
        · rintro ⟨l, hl, k1, k2, k3, k4, k5⟩
          refine ⟨k1, ⟨⟨l, hl⟩, k2⟩, ?_, ?_, ?_⟩
          · cases hv : lastValue ipAddrBlock exts with
            | none => rw [hv] at k3; exact k3
            | some v => rw [hv] at k3; exact k3
          · cases hv : lastValue autonomousSysIds exts with
            | none => rw [hv] at k4; simp only at k4 ⊢; rw [k4.1, k4.2]; exact hl
            | some v => rw [hv] at k4; exact k4
          · cases hv : lastValue subjectInfoAccess exts with
            | none => rw [hv] at k5; exact k5
            | some v => rw [hv] at k5; exact k5
        · rintro ⟨k1, ⟨⟨l, hl⟩, k2⟩, k3, k4, k5⟩
          refine ⟨l, hl, k1, k2, ?_, ?_, ?_⟩
          · cases hv : lastValue ipAddrBlock exts with
            | none => rw [hv] at k3; exact k3
            | some v => rw [hv] at k3; exact k3
          · cases hv : lastValue autonomousSysIds exts with
            | none =>
              rw [hv] at k4; simp only at k4 ⊢; rw [hl] at k4
              rw [Go.ok.inj k4]
              exact ⟨rfl, rfl⟩
            | some v => rw [hv] at k4; exact k4
          · cases hv : lastValue subjectInfoAccess exts with
            | none => rw [hv] at k5; exact k5
            | some v => rw [hv] at k5; exact k5
      · rw [if_neg h2]
        by_cases h3 : x.id = subjectInfoAccess
        · rw [if_pos h3, Go.bind_eq_ok]
          simp only [ih, h3, d2.symm, d3.symm, if_true, if_false, true_implies, false_implies, and_true, true_and, ExtsRead]
          constructor
          · rintro ⟨l, hl, k1, k2, k3, k4, k5⟩
            refine ⟨k1, ⟨⟨l, hl⟩, k2⟩, ?_, ?_, ?_⟩
            · cases hv : lastValue ipAddrBlock exts with
              | none => rw [hv] at k3; exact k3
              | some v => rw [hv] at k3; exact k3
            · cases hv : lastValue autonomousSysIds exts with
              | none => rw [hv] at k4; exact k4
              | some v => rw [hv] at k4; exact k4
            · cases hv : lastValue subjectInfoAccess exts with
              | none => rw [hv] at k5; simp only at k5 ⊢; rw [k5]; exact hl
              | some v => rw [hv] at k5; exact k5
          · rintro ⟨k1, ⟨⟨l, hl⟩, k2⟩, k3, k4, k5⟩
            refine ⟨l, hl, k1, k2, ?_, ?_, ?_⟩
            · cases hv : lastValue ipAddrBlock exts with
              | none => rw [hv] at k3; exact k3
              | some v => rw [hv] at k3; exact k3
            · cases hv : lastValue autonomousSysIds exts with
              | none => rw [hv] at k4; exact k4
              | some v => rw [hv] at k4; exact k4
            · cases hv : lastValue subjectInfoAccess exts with
              | none => rw [hv] at k5; simp only at k5 ⊢; rw [hl] at k5; exact (Go.ok.inj k5).symm
              | some v => rw [hv] at k5; exact k5
        · rw [if_neg h3, ih]
          simp only [h1, h2, h3, if_false, false_implies, and_true, true_and, ExtsRead]
          have e : ∀ o : Option Bytes, (match o with
              | some v => some v
              | none => none) = o := by intro o; cases o <;> rfl
          simp only [e]

/-- C88. A certificate is accepted exactly when the X.509 parser accepts it and all its extensions for
    IP addresses (1.3.6.1.5.5.7.1.7), AS numbers (…1.8) and subject information access (…1.11) can be read;
    its resources and access points are then those of the last extension of each kind, and there are none
    when there is no such extension. -/
theorem C88_decode {X : Type} (x509 : Bytes → Go (List Extension × X)) (data : Bytes) (c : RCert X) :
    decodeCertificate x509 data = .ok c ↔ ∃ exts, x509 data = .ok (exts, c.x509) ∧
      (∀ e ∈ exts, (e.id = [0x2b, 6, 1, 5, 5, 7, 1, 7] → ∃ l, decodeIPExt e.value = .ok l) ∧
        (e.id = [0x2b, 6, 1, 5, 5, 7, 1, 8] → ∃ l, decodeASExt e.value = .ok l) ∧
        (e.id = [0x2b, 6, 1, 5, 5, 7, 1, 0x0b] → ∃ l, decodeSIAExt e.value = .ok l)) ∧
      (match lastValue [0x2b, 6, 1, 5, 5, 7, 1, 7] exts with
        | none => c.ips = []
        | some v => decodeIPExt v = .ok c.ips) ∧
      (match lastValue [0x2b, 6, 1, 5, 5, 7, 1, 8] exts with
        | none => c.nums = [] ∧ c.rdi = []
        | some v => decodeASExt v = .ok (c.nums, c.rdi)) ∧
      (match lastValue [0x2b, 6, 1, 5, 5, 7, 1, 0x0b] exts with
        | none => c.sia = []
        | some v => decodeSIAExt v = .ok c.sia) := by
  unfold decodeCertificate
  rw [Go.bind_eq_ok]
  constructor
  · rintro ⟨r, hr, h⟩
    obtain ⟨k1, k2⟩ := (extLoop_iff r.1 _ c).mp h
    exact ⟨r.1, by rw [k1]; exact hr, k2⟩
  · rintro ⟨exts, h1, h2⟩
    exact ⟨_, h1, (extLoop_iff exts _ c).mpr ⟨rfl, h2⟩⟩

theorem lastValue_iff {id : Bytes} {exts : List Extension} (hn : (exts.map Extension.id).Nodup) (v : Bytes) :
    lastValue id exts = some v ↔ ∃ e ∈ exts, e.id = id ∧ e.value = v := by
  induction exts with
  | nil => simp [lastValue]
  | cons x exts ih =>
    rw [List.map_cons, List.nodup_cons] at hn
    have ih := ih hn.2
    rw [lastValue_cons]
    cases hv : lastValue id exts with
    | some w =>
      rw [hv] at ih
      constructor
      · intro h
        obtain ⟨e, he, h1⟩ := ih.mp h
        exact ⟨e, by simp [he], h1⟩
      · rintro ⟨e, he, h1, h2⟩
        rcases List.mem_cons.mp he with rfl | he
        · have : ∃ e' ∈ exts, e'.id = id := by
            have hw : lastValue id exts = some w := hv
            unfold lastValue at hw
            rw [Option.map_eq_some_iff] at hw
            obtain ⟨y, hy, -⟩ := hw
            have := List.mem_of_getLast? hy
            simp only [List.mem_filter, decide_eq_true_eq] at this
            exact ⟨y, this⟩
          obtain ⟨e', he', h3⟩ := this
          exact absurd (List.mem_map.mpr ⟨e', he', h3.trans h1.symm⟩) hn.1
        · exact ih.mpr ⟨e, he, h1, h2⟩
    | none =>
      rw [hv] at ih
      constructor
      · intro h
        by_cases hx : x.id = id
        · simp only [hx, if_true, Option.some.injEq] at h
          exact ⟨x, by simp, hx, h⟩
        · simp [hx] at h
      · rintro ⟨e, he, h1, h2⟩
        rcases List.mem_cons.mp he with rfl | he
        · simp [h1, h2]
        · exact absurd (ih.mpr ⟨e, he, h1, h2⟩) (by simp)

/-- C88. The order of the extensions does not matter (each occurs once: RFC 5280 4.2). -/
theorem C88_order {X : Type} (x509 : Bytes → Go (List Extension × X)) (d d' : Bytes) (exts exts' : List Extension)
    (y : X) (h : x509 d = .ok (exts, y)) (h' : x509 d' = .ok (exts', y)) (hp : exts.Perm exts')
    (hn : (exts.map Extension.id).Nodup) (c : RCert X) :
    decodeCertificate x509 d = .ok c ↔ decodeCertificate x509 d' = .ok c := by
  have hn' : (exts'.map Extension.id).Nodup := (hp.map _).nodup_iff.mp hn
  have hl : ∀ id, lastValue id exts = lastValue id exts' := by
    intro id
    apply Option.ext
    intro v
    rw [lastValue_iff hn, lastValue_iff hn']
    simp only [hp.mem_iff]
  unfold decodeCertificate
  rw [h, h']
  simp only [Go.ok_bind]
  rw [extLoop_iff, extLoop_iff]
  unfold ExtsRead
  simp only [hl, hp.mem_iff]

/-- C88 fails for critical extensions: whether an extension is marked critical makes no difference, and an
    extension of any other kind makes none either, critical or not. So a certificate with a critical
    extension the program does not know is used, although RFC 5280 4.2 demands its rejection; the
    extensions of RFC 8360 (…1.28, …1.29), for one, are read as no resources. -/
theorem C88_violated_critical {X : Type} (pre post : List Extension) (e : Extension) (y : X)
    (he : e.id ∉ [ipAddrBlock, autonomousSysIds, subjectInfoAccess]) (mark : Extension → Bool) :
    decodeCertificate (fun _ => .ok (pre ++ e :: post, y)) [] = decodeCertificate (fun _ => .ok (pre ++ post, y)) [] ∧
    decodeCertificate (fun _ => .ok ((pre ++ post).map (fun x => { x with critical := mark x }), y)) [] =
      decodeCertificate (fun _ => .ok (pre ++ post, y)) [] := by
  simp only [List.mem_cons, List.not_mem_nil, or_false, not_or] at he
  simp only [decodeCertificate, Go.ok_bind]
  constructor
  · generalize (⟨[], [], [], [], y⟩ : RCert X) = c
    induction pre generalizing c with
    | nil => simp [extLoop, he]
    | cons x pre ih =>
      simp only [List.cons_append, extLoop]
      split
      · simp only [ih]
      · split
        · simp only [ih]
        · split <;> simp only [ih]
  · generalize (⟨[], [], [], [], y⟩ : RCert X) = c
    generalize pre ++ post = l
    induction l generalizing c with
    | nil => rfl
    | cons x l ih =>
      simp only [List.map_cons, extLoop, ih]

theorem generalName_spec (m : Bytes) (l : List SIA) :
    (∀ pre s post, l = pre ++ s :: post → s.method = m → (∀ x ∈ pre, x.method ≠ m) → generalName m l = s.name) ∧
    ((∀ s ∈ l, s.method ≠ m) → generalName m l = []) := by
  constructor
  · rintro pre s post rfl hs hp
    induction pre with
    | nil => simp [generalName, hs]
    | cons x pre ih =>
      simp only [List.cons_append, generalName]
      rw [if_neg (hp x (by simp))]
      exact ih (fun y hy => hp y (by simp [hy]))
  · intro h
    induction l with
    | nil => rfl
    | cons x l ih =>
      simp only [generalName]
      rw [if_neg (h x (by simp))]
      exact ih (fun s hs => h s (by simp [hs]))

/-- C88. The access points of a certificate: the RRDP address is that of its first entry with method
    …48.13, the rsync address that of its first entry with method …48.5, empty when there is none, whatever
    other entries there are. -/
theorem C88_access_points (l : List SIA) (rrdp rsync : Bytes)
    (h1 : rrdp = [0x2b, 6, 1, 5, 5, 7, 0x30, 0x0d]) (h2 : rsync = [0x2b, 6, 1, 5, 5, 7, 0x30, 5]) :
    (hasRRDP l = true ↔ ∃ s ∈ l, s.method = rrdp) ∧
    (∀ pre s post, l = pre ++ s :: post → s.method = rrdp → (∀ x ∈ pre, x.method ≠ rrdp) → rrdpName l = s.name) ∧
    ((∀ s ∈ l, s.method ≠ rrdp) → rrdpName l = []) ∧
    (∀ pre s post, l = pre ++ s :: post → s.method = rsync → (∀ x ∈ pre, x.method ≠ rsync) → rsyncName l = s.name) ∧
    ((∀ s ∈ l, s.method ≠ rsync) → rsyncName l = []) := by
  subst h1 h2
  refine ⟨?_, (generalName_spec certRRDP l).1, (generalName_spec certRRDP l).2,
    (generalName_spec certRepository l).1, (generalName_spec certRepository l).2⟩
  rw [hasRRDP, List.any_eq_true]
  exact ⟨fun ⟨s, hs, h⟩ => ⟨s, hs, of_decide_eq_true h⟩, fun ⟨s, hs, h⟩ => ⟨s, hs, decide_eq_true h⟩⟩

example : rrdpName accessExample = "https://h/n.xml".toUTF8.toList ∧ rsyncName accessExample = "rsync://h/m/".toUTF8.toList ∧
    hasRRDP accessExample = true := by decide +kernel

/-- A certificate with an IP extension, an unknown critical extension and access points. -/
example : decodeCertificate (fun _ => .ok ([⟨ipAddrBlock, true, blockExample⟩, ⟨[0x2b, 6, 1, 5, 5, 7, 1, 0x1c], true, [1]⟩,
      ⟨subjectInfoAccess, false, encodeSIAExt accessExample⟩], ())) [] =
    .ok ⟨accessExample, [.net (some ⟨[10, 0, 0, 0], [255, 0, 0, 0]⟩), .range [10, 1, 0, 0] [10, 2, 255, 255], .null 2],
      [], [], ()⟩ := by decide +kernel

/-! ### From octets to containment -/

theorem forall₂_right_mem {α β : Type} {R : α → β → Prop} {l : List α} {m : List β} (h : List.Forall₂ R l m) {b : β}
    (hb : b ∈ m) : ∃ a ∈ l, R a b := by
  induction h with
  | nil => simp at hb
  | @cons a c l m hr _ ih =>
    rcases List.mem_cons.mp hb with rfl | hb
    · exact ⟨a, by simp, hr⟩
    · obtain ⟨x, hx, h⟩ := ih hb
      exact ⟨x, by simp [hx], h⟩

theorem forall₂_left_mem {α β : Type} {R : α → β → Prop} {l : List α} {m : List β} (h : List.Forall₂ R l m) {a : α}
    (ha : a ∈ l) : ∃ b ∈ m, R a b := by
  obtain ⟨b, hb, h⟩ := forall₂_right_mem (R := fun b a => R a b) h.flip ha
  exact ⟨b, hb, h⟩


theorem denotes_proper {i : IPInfo} {v : Nat} (h : Denotes i v) : ProperEntry i := by
  cases h with
  | net4 ip mask p v hi hm hp hv h => exact ⟨hi.trans hm.symm, .inl hi, p, hp⟩
  | net6 ip mask p v hi hm hp h => exact ⟨hi.trans hm.symm, .inr hi, p, hp⟩
  | range min max v hl hf h1 h2 => exact ⟨hl, hf⟩

theorem decodeIPExt_wf {fams : List Family} {out : Bytes} (h : BlockDer fams out) (hl : out.length < 2 ^ 31)
    {l : List IPInfo} (hd : decodeIPExt out = .ok l) : ∀ e ∈ l, WfEntry e := by
  obtain ⟨blk, h1, h2⟩ := decodeIPExt_der h hl []
  rw [List.append_nil, hd] at h1
  rw [Go.ok.inj h1]
  apply C05_decoded_wf
  intro f hf
  rw [List.forall₂_map_left_iff] at h2
  obtain ⟨g, -, hg⟩ := forall₂_right_mem h2 hf
  exact .inr ⟨_, by rw [hg.1]; exact isFamily_afi 0 g.afi g.safi.toList⟩

/-- C88. From octets to containment: if the IP extensions of a certificate and of its issuer are DER, and
    the check of the first against the second leaves no entry invalid or to be looked up further, then the
    addresses of every prefix and range written in the certificate lie within one prefix or range written in
    the issuer's. -/
theorem C88_ip_contained (child parent : List Family) (cout pout : Bytes) (hc : BlockDer child cout)
    (hp : BlockDer parent pout) (lc : cout.length < 2 ^ 31) (lp : pout.length < 2 ^ 31)
    (fc : ∀ f ∈ child, ∀ a ∈ f.choice.addrs, a.Fits (8 * f.afi.size))
    (fp : ∀ f ∈ parent, ∀ a ∈ f.choice.addrs, a.Fits (8 * f.afi.size))
    (sc : ∀ f ∈ child, f.choice = .inherit → f.safi = none)
    (sp : ∀ f ∈ parent, f.choice = .inherit → f.safi = none)
    (cl pl : List IPInfo) (dc : decodeIPExt cout = .ok cl) (dp : decodeIPExt pout = .ok pl)
    (s : Split IPInfo) (hv : validateIPCertificateList cl pl = .ok s) (hi : s.invalids = []) (hu : s.checkParents = []) :
    ∀ afi a, (afi, some a) ∈ child.flatMap Family.entries → (∃ x, a.Holds (8 * afi.size) x) →
      ∃ afi' b, (afi', some b) ∈ parent.flatMap Family.entries ∧
        ∀ x, a.Holds (8 * afi.size) x → ∃ y, b.Holds (8 * afi'.size) y ∧ afi'.base + y = afi.base + x := by
  intro afi a ha ⟨x, hx⟩
  obtain ⟨cl', dc', hc'⟩ := C85_ip_read child cout [] hc lc fc sc
  obtain ⟨pl', dp', hp'⟩ := C85_ip_read parent pout [] hp lp fp sp
  rw [List.append_nil, dc] at dc'
  rw [List.append_nil, dp] at dp'
  cases dc'
  cases dp'
  obtain ⟨i, hi1, hi2⟩ := forall₂_left_mem hc' ha
  have hmem : i ∈ s.valids := by
    have := (C07_ip_partition cl pl s hv).1
    rw [hi, hu, List.append_nil, List.append_nil] at this
    exact this.mem_iff.mpr hi1
  have hd : Denotes i (afi.base + x) := (hi2.2 _).mpr ⟨x, hx, rfl⟩
  obtain ⟨e, he, hsub⟩ := C05_validated_sound cl pl (decodeIPExt_wf hp lp dp) s hv i hmem (denotes_proper hd)
  obtain ⟨⟨afi', o⟩, hm, hst⟩ := forall₂_right_mem hp' he
  cases o with
  | none =>
    rw [show e = .null _ from hst] at hsub
    exact absurd (hsub _ hd) (by intro h; cases h)
  | some b =>
    refine ⟨afi', b, hm, fun z hz => ?_⟩
    have := hsub _ ((hi2.2 (afi.base + z)).mpr ⟨z, hz, rfl⟩)
    obtain ⟨y, hy, heq⟩ := (hst.2 _).mp this
    exact ⟨y, hy, heq.symm⟩

/-- Non-vacuity of `C88_ip_contained`: 10.1.0.0/16 under the block of `blockExample`. -/
example : BlockDer [⟨.v4, none, .list [.prefix ⟨16, 0xa01⟩]⟩]
      (elem 0x30 (elem 0x30 (elem 0x04 [0, 1] ++ elem 0x30 (elem 0x03 [0, 10, 1])))) ∧
    decodeIPExt (elem 0x30 (elem 0x30 (elem 0x04 [0, 1] ++ elem 0x30 (elem 0x03 [0, 10, 1])))) =
      .ok [.net (some ⟨[10, 1, 0, 0], [255, 255, 0, 0]⟩)] ∧
    validateIPCertificateList [.net (some ⟨[10, 1, 0, 0], [255, 255, 0, 0]⟩)]
      [.net (some ⟨[10, 0, 0, 0], [255, 0, 0, 0]⟩), .range [10, 1, 0, 0] [10, 2, 255, 255], .null 2] =
      .ok ⟨[.net (some ⟨[10, 1, 0, 0], [255, 255, 0, 0]⟩)], [], []⟩ ∧
    (∃ x, Addr.Holds 32 (.prefix ⟨16, 0xa01⟩) x) := by
  have b2 : BitsDer ⟨16, 0xa01⟩ (elem 0x03 [0, 10, 1]) := ⟨_, ⟨[10, 1], by decide, by decide, by decide⟩, rfl⟩
  refine ⟨⟨_, .cons ⟨_, ⟨_, .cons b2 .nil, rfl⟩, rfl⟩ .nil, ?_⟩, by decide +kernel, by decide +kernel,
    ⟨0xa010000, by decide, by decide⟩⟩
  simp [Family.octets, Afi.number]

/-- C88. The same for AS numbers. -/
theorem C88_as_contained (child parent : Option ASChoice) (crdi prdi : Option ASChoice) (cout pout : Bytes)
    (hc : ASDer child crdi cout) (hp : ASDer parent prdi pout) (lc : cout.length < 2 ^ 31) (lp : pout.length < 2 ^ 31)
    (fc : ∀ c, (child = some c ∨ crdi = some c) → ∀ a ∈ c.items, a.Fits)
    (fp : ∀ c, (parent = some c ∨ prdi = some c) → ∀ a ∈ c.items, a.Fits)
    (cl pl cr pr : List ASInfo) (dc : decodeASExt cout = .ok (cl, cr)) (dp : decodeASExt pout = .ok (pl, pr))
    (s : Split ASInfo) (hv : validateASNCertificateList cl pl = .ok s) (hi : s.invalids = []) (hu : s.checkParents = []) :
    ∀ c, child = some c → ∀ a ∈ c.items, (∃ x, a.Holds x) →
      ∃ p, parent = some p ∧ ∃ b ∈ p.items, ∀ x, a.Holds x → b.Holds x := by
  intro c hcc a ha ⟨x0, hx0⟩
  have e1 := C86_as_read child crdi cout [] hc lc (fun c h => fc c (.inl h)) (fun c h => fc c (.inr h))
  have e2 := C86_as_read parent prdi pout [] hp lp (fun c h => fp c (.inl h)) (fun c h => fp c (.inr h))
  rw [List.append_nil, dc] at e1
  rw [List.append_nil, dp] at e2
  simp only [Go.ok.injEq, Prod.mk.injEq] at e1 e2
  have hd : ∀ (a : ASItem) x, a.Holds x ↔ ASDenotes a.entry x := by
    intro a x
    cases a with
    | id n =>
      constructor
      · intro h; rw [show x = n from h]; exact .asn n
      · intro h; cases h; rfl
    | range m n =>
      constructor
      · intro h; exact .range m n x h.1 h.2
      · intro h; cases h with
        | range _ _ _ h1 h2 => exact ⟨h1, h2⟩
  have hmem : a.entry ∈ cl := by
    rw [e1.1, hcc]
    cases c with
    | inherit => simp [ASChoice.items] at ha
    | list l => exact List.mem_map_of_mem ha
  obtain ⟨s', hs', hperm, -⟩ := C07_as_partition cl pl
  rw [hv] at hs'
  cases hs'
  rw [hi, hu, List.append_nil, List.append_nil] at hperm
  have hval := ((C07_as_verdicts cl pl s hv a.entry hmem).1).mp (hperm.mem_iff.mpr hmem)
  have hne : a.entry ≠ .null := by cases a <;> simp [ASItem.entry]
  have hval := hval.resolve_left hne
  have hr : a.entry.getRange.1 ≤ a.entry.getRange.2.1 ∧
      ∀ x, a.Holds x → a.entry.getRange.1 ≤ x ∧ x ≤ a.entry.getRange.2.1 := by
    cases a with
    | id n =>
      refine ⟨?_, ?_⟩
      · simp [ASItem.entry, ASInfo.getRange]
      · intro x h
        rw [show x = n from h]
        simp [ASItem.entry, ASInfo.getRange]
    | range m n =>
      refine ⟨?_, ?_⟩
      · have := hx0.1; have := hx0.2
        simp only [ASItem.entry, ASInfo.getRange]; omega
      · intro x h; exact h
  obtain ⟨pre, e, post, hsplit, -, hcov⟩ := ((C06_as_exact pl _ _ hr.1).1).mp hval
  have hem : e ∈ asEntries parent := by rw [← e2.1, hsplit]; simp
  cases parent with
  | none => simp [asEntries] at hem
  | some p =>
    refine ⟨p, rfl, ?_⟩
    cases p with
    | inherit =>
      simp only [asEntries, List.mem_singleton] at hem
      subst hem
      have := hcov _ (Int.le_refl _) hr.1
      cases this
    | list l =>
      obtain ⟨b, hb, rfl⟩ := List.mem_map.mp hem
      exact ⟨b, hb, fun x hx => (hd b x).mpr (hcov x (hr.2 x hx).1 (hr.2 x hx).2)⟩

/-- Non-vacuity of `C88_as_contained`: AS 64496 under AS 64490 - AS 64500. -/
example : decodeASExt (encodeASExt [.asn 64496] []) = .ok ([.asn 64496], []) ∧
    decodeASExt (encodeASExt [.range 64490 64500] []) = .ok ([.range 64490 64500], []) ∧
    validateASNCertificateList [.asn 64496] [.range 64490 64500] = .ok ⟨[.asn 64496], [], []⟩ ∧
    (ASItem.id 64496).Holds 64496 := ⟨by decide +kernel, by decide +kernel, by decide +kernel, rfl⟩

end Verif.Props
