import Verif.Model.Crl
import Verif.Spec.Crl
import Verif.Lemmas.ContentWrite
/-
  Reading and writing revocation lists.
-/
set_option autoImplicit false

namespace Verif.Crl
open Der Cms CmsSpec BerSpec

theorem parseHeader_elem' (id : UInt8) (c rest : Bytes) (hid : id.toNat % 32 ≠ 31) (h : c.length < 2 ^ 31) :
    parseHeader (elem id c ++ rest) =
      .ok (⟨id.toNat / 64, id.toNat % 32, id &&& 0x20 = 0x20, c.length⟩, c ++ rest) := by
  have := parseHeader_enc id c.length (c ++ rest) hid h
  simpa [elem, List.append_assoc] using this

theorem parseOptUni_nil (tag : Nat) (compound : Bool) : parseOptUni tag compound [] = .ok (none, []) := by
  simp [parseOptUni]

theorem parseOptUni_hit (tag : Nat) (compound : Bool) (id : UInt8) (c rest : Bytes) (hid : id.toNat % 32 ≠ 31)
    (h : ¬ (id.toNat / 64 ≠ 0 ∨ id.toNat % 32 ≠ tag ∨ decide (id &&& 0x20 = 0x20) ≠ compound)) (hl : c.length < 2 ^ 31) :
    parseOptUni tag compound (elem id c ++ rest) = .ok (some c, rest) := by
  unfold parseOptUni
  rw [if_neg (by simp [elem]), parseHeader_elem' id c rest hid hl]
  simp only [Go.ok_bind]
  rw [if_neg h, if_neg (by simp)]
  simp

theorem parseOptUni_miss (tag : Nat) (compound : Bool) (id : UInt8) (c rest : Bytes) (hid : id.toNat % 32 ≠ 31)
    (h : id.toNat / 64 ≠ 0 ∨ id.toNat % 32 ≠ tag ∨ decide (id &&& 0x20 = 0x20) ≠ compound) (hl : c.length < 2 ^ 31) :
    parseOptUni tag compound (elem id c ++ rest) = .ok (none, elem id c ++ rest) := by
  unfold parseOptUni
  rw [if_neg (by simp [elem]), parseHeader_elem' id c rest hid hl]
  simp only [Go.ok_bind]
  rw [if_pos h]

/-! ### Extensions -/

def extForm (e : Ext) : Bytes :=
  elem 0x30 (elem 0x06 e.id ++ (if e.critical then elem 0x01 [0xff] else []) ++ elem 0x04 e.value)

theorem marshalExt_form (e : Ext) : marshalExt e = extForm e := by
  simp only [marshalExt, extForm, tlv_elem]

theorem extForm_ne (e : Ext) : extForm e ≠ [] := elem_ne_nil _ _

theorem parseExt_form (e : Ext) (rest : Bytes) (ho : OidOk e.id) (hl : (extForm e).length < 2 ^ 31) :
    parseExt (extForm e ++ rest) = .ok (e, rest) := by
  unfold extForm at hl ⊢
  have l0 := elem_length_gt 0x30 (elem 0x06 e.id ++ (if e.critical then elem 0x01 [0xff] else []) ++ elem 0x04 e.value)
  have l1 := elem_length_gt 0x06 e.id
  have l2 := elem_length_gt 0x04 e.value
  simp only [List.length_append] at l0
  unfold parseExt
  rw [parseSeq_elem _ rest (by simp only [List.length_append]; omega)]
  simp only [Go.ok_bind, List.append_assoc]
  rw [parseOID_elem _ _ ho (by omega)]
  simp only [Go.ok_bind]
  have hv : e.value.length < 2 ^ 31 := by omega
  obtain ⟨id, cr, v⟩ := e
  cases cr with
  | true =>
    simp only [if_true]
    rw [parseOptUni_hit 1 false 0x01 [0xff] _ (by decide) (by decide) (by decide)]
    simp only [Go.ok_bind, optBool, parseBool]
    have := parseOctets_elem v [] hv
    rw [List.append_nil] at this
    rw [this]
    rfl
  | false =>
    simp only [Bool.false_eq_true, if_false, List.nil_append]
    have hm := parseOptUni_miss 1 false 0x04 v [] (by decide) (by decide) hv
    rw [List.append_nil] at hm
    rw [hm]
    simp only [Go.ok_bind, optBool]
    have := parseOctets_elem v [] hv
    rw [List.append_nil] at this
    rw [this]
    rfl

theorem flatten_map_length_mem {α : Type} {f : α → Bytes} {l : List α} {a : α} (h : a ∈ l) :
    (f a).length ≤ (l.map f).flatten.length := flatten_mem_length (List.mem_map.mpr ⟨a, h, rfl⟩)

theorem parseAll_exts (l : List Ext) (ho : ∀ e ∈ l, OidOk e.id) (hl : (l.map extForm).flatten.length < 2 ^ 31) :
    parseAll parseExt (l.map extForm).flatten = .ok l := by
  have := parseAll_enc parseExt (l.map fun e => (extForm e, e)) (by
    intro x hx
    obtain ⟨e, he, rfl⟩ := List.mem_map.mp hx
    refine ⟨extForm_ne e, fun rest => parseExt_form e rest (ho e he) ?_⟩
    have := flatten_map_length_mem (f := extForm) he
    omega)
  simpa [List.map_map, Function.comp_def] using this

def optExtsForm : Option (List Ext) → Bytes
  | none => []
  | some l => elem 0x30 (l.map extForm).flatten

theorem marshalOptExts_form (o : Option (List Ext)) : marshalOptExts o = optExtsForm o := by
  cases o with
  | none => rfl
  | some l =>
    have : l.map marshalExt = l.map extForm := List.map_congr_left fun e _ => marshalExt_form e
    simp only [marshalOptExts, optExtsForm, tlv_elem, this]

theorem parseOptExts_form (o : Option (List Ext)) (ho : ∀ l, o = some l → ∀ e ∈ l, OidOk e.id)
    (hl : (optExtsForm o).length < 2 ^ 31) : parseOptExts (optExtsForm o) = .ok (o, []) := by
  cases o with
  | none => simp [optExtsForm, parseOptExts, parseOptUni_nil]
  | some l =>
    have l0 := elem_length_gt 0x30 (l.map extForm).flatten
    simp only [optExtsForm] at hl ⊢
    unfold parseOptExts
    have := parseOptUni_hit 16 true 0x30 (l.map extForm).flatten [] (by decide) (by decide) (by omega)
    rw [List.append_nil] at this
    rw [this]
    simp only [Go.ok_bind]
    rw [parseAll_exts l (ho l rfl) (by omega)]
    rfl

/-! ### Times -/

/-- Octets that are read as this time. -/
def TimeForm (env : Env) (t : Civil) (out : Bytes) : Prop :=
  ∃ c, (out = elem 0x17 c ∧ env.mft.time false c = .ok t) ∨ (out = elem 0x18 c ∧ env.mft.time true c = .ok t)

theorem timeForm_pos {env : Env} {t : Civil} {out : Bytes} (h : TimeForm env t out) : 2 ≤ out.length := by
  obtain ⟨c, ⟨rfl, _⟩ | ⟨rfl, _⟩⟩ := h
  · have := elem_length_gt 0x17 c; omega
  · have := elem_length_gt 0x18 c; omega

theorem parseTime_form {env : Env} {t : Civil} {out : Bytes} (rest : Bytes) (h : TimeForm env t out) (hl : out.length < 2 ^ 31) :
    parseTimeField env.mft (out ++ rest) = .ok (t, rest) := by
  obtain ⟨c, ⟨rfl, h⟩ | ⟨rfl, h⟩⟩ := h
  · have := elem_length_gt 0x17 c
    unfold parseTimeField
    rw [if_neg (by simp [elem]), parseHeader_elem' _ c rest (by decide) (by omega)]
    simp only [Go.ok_bind]
    rw [if_neg (by decide), if_neg (by simp)]
    simp only [List.take_left, List.drop_left]
    have e : decide ((0x17 : UInt8).toNat % 32 = 24) = false := by decide
    rw [e, h]
    rfl
  · have := elem_length_gt 0x18 c
    unfold parseTimeField
    rw [if_neg (by simp [elem]), parseHeader_elem' _ c rest (by decide) (by omega)]
    simp only [Go.ok_bind]
    rw [if_neg (by decide), if_neg (by simp)]
    simp only [List.take_left, List.drop_left]
    have e : decide ((0x18 : UInt8).toNat % 32 = 24) = true := by decide
    rw [e, h]
    rfl

theorem parseOptTime_form {env : Env} {t : Civil} {out : Bytes} (rest : Bytes) (h : TimeForm env t out)
    (hl : out.length < 2 ^ 31) : parseOptTime env (out ++ rest) = .ok (t, rest) := by
  have h0 := parseTime_form rest h hl
  have hne : out ++ rest ≠ [] := by
    have := timeForm_pos h
    intro e
    rw [(List.append_eq_nil_iff.mp e).1] at this
    simp at this
  unfold parseTimeField at h0
  unfold parseOptTime
  rw [if_neg hne] at h0 ⊢
  obtain ⟨hd, h1, h2⟩ := Go.bind_eq_ok.mp h0
  rw [h1]
  simp only [Go.ok_bind]
  split at h2
  · cases h2
  · rename_i hc
    rw [if_neg hc]
    exact h2

theorem parseOptTime_miss (env : Env) (id : UInt8) (c rest : Bytes) (hid : id.toNat % 32 ≠ 31)
    (h : id.toNat / 64 ≠ 0 ∨ (id.toNat % 32 ≠ 23 ∧ id.toNat % 32 ≠ 24) ∨ decide (id &&& 0x20 = 0x20) = true)
    (hl : c.length < 2 ^ 31) : parseOptTime env (elem id c ++ rest) = .ok (.zero, elem id c ++ rest) := by
  unfold parseOptTime
  rw [if_neg (by simp [elem]), parseHeader_elem' id c rest hid hl]
  simp only [Go.ok_bind]
  rw [if_pos h]

/-! ### Entries -/

def RevokedForm (env : Env) (r : Revoked) (out : Bytes) : Prop :=
  ∃ n c t, r.serial = some n ∧ IntContent n c ∧ TimeForm env r.time t ∧ (∀ l, r.exts = some l → ∀ e ∈ l, OidOk e.id) ∧
    out = elem 0x30 (elem 0x02 c ++ t ++ optExtsForm r.exts)

theorem parseRevoked_form {env : Env} {r : Revoked} {out : Bytes} (rest : Bytes) (h : RevokedForm env r out)
    (hl : out.length < 2 ^ 31) : parseRevoked env (out ++ rest) = .ok (r, rest) := by
  obtain ⟨n, c, t, h1, h2, h3, h4, rfl⟩ := h
  have l0 := elem_length_gt 0x30 (elem 0x02 c ++ t ++ optExtsForm r.exts)
  have l1 := elem_length_gt 0x02 c
  simp only [List.length_append] at l0
  unfold parseRevoked
  rw [parseSeq_elem _ rest (by simp only [List.length_append]; omega)]
  simp only [Go.ok_bind, List.append_assoc]
  rw [parseBigInt_elem _ h2 (by omega)]
  simp only [Go.ok_bind]
  rw [parseTime_form _ h3 (by omega)]
  simp only [Go.ok_bind]
  rw [parseOptExts_form _ h4 (by omega)]
  simp only [Go.ok_bind, Go.pure_def]
  obtain ⟨a, b, d⟩ := r
  simp only at h1
  rw [h1]

theorem revokedForm_ne {env : Env} {r : Revoked} {out : Bytes} (h : RevokedForm env r out) : out ≠ [] := by
  obtain ⟨n, c, t, h1, h2, h3, h4, rfl⟩ := h
  exact elem_ne_nil _ _

theorem forall₂_eq {α : Type} {l m : List α} (h : List.Forall₂ (fun a b => b = a) l m) : m = l := by
  induction h with
  | nil => rfl
  | cons h _ ih => rw [h, ih]

theorem parseAll_revoked {env : Env} {l : List Revoked} {encs : List Bytes} (h : List.Forall₂ (RevokedForm env) l encs)
    (hl : encs.flatten.length < 2 ^ 31) : parseAll (parseRevoked env) encs.flatten = .ok l := by
  obtain ⟨bs, h1, h2⟩ := parseAll_forall₂ (parseRevoked env) (RevokedForm env) (fun a b => b = a) l encs h (by
    intro a enc _ he hr
    refine ⟨revokedForm_ne hr, a, rfl, fun rest => parseRevoked_form rest hr ?_⟩
    have := flatten_mem_length he
    omega)
  rw [h1, forall₂_eq h2]

/-! ### The list -/

/-- The list of revoked certificates, possibly absent. -/
def RevokedsForm (env : Env) : Option (List Revoked) → Bytes → Prop
  | none, out => out = []
  | some l, out => ∃ encs, List.Forall₂ (RevokedForm env) l encs ∧ out = elem 0x30 encs.flatten

theorem parseRevokeds_form {env : Env} {o : Option (List Revoked)} {out : Bytes} (c rest : Bytes) (h : RevokedsForm env o out)
    (hl : out.length < 2 ^ 31) (hc : c.length < 2 ^ 31) :
    parseRevokeds env (out ++ (elem 0xa0 c ++ rest)) = .ok (o, elem 0xa0 c ++ rest) := by
  cases o with
  | none =>
    simp only [RevokedsForm] at h
    subst h
    unfold parseRevokeds
    rw [List.nil_append, parseOptUni_miss 16 true 0xa0 c rest (by decide) (by decide) hc]
    rfl
  | some l =>
    obtain ⟨encs, h1, rfl⟩ := h
    have l0 := elem_length_gt 0x30 encs.flatten
    unfold parseRevokeds
    rw [parseOptUni_hit 16 true 0x30 _ _ (by decide) (by decide) (by omega)]
    simp only [Go.ok_bind]
    rw [parseAll_revoked h1 (by omega)]
    rfl

theorem parseCRLExts_form (l : List Ext) (ho : ∀ e ∈ l, OidOk e.id)
    (hl : (elem 0xa0 (elem 0x30 (l.map extForm).flatten)).length < 2 ^ 31) :
    parseCRLExts (elem 0xa0 (elem 0x30 (l.map extForm).flatten)) = .ok (some l) := by
  have l0 := elem_length_gt 0xa0 (elem 0x30 (l.map extForm).flatten)
  have l1 := elem_length_gt 0x30 (l.map extForm).flatten
  have e1 := parseHeader_elem' 0xa0 (elem 0x30 (l.map extForm).flatten) [] (by decide) (by omega)
  have e2 := parseHeader_elem' 0x30 (l.map extForm).flatten [] (by decide) (by omega)
  rw [List.append_nil] at e1 e2
  unfold parseCRLExts parseExplicit
  rw [if_neg (elem_ne_nil _ _), e1]
  simp only [Go.ok_bind, List.append_nil] at e2 ⊢
  rw [if_neg (elem_ne_nil _ _), if_pos (by refine ⟨by decide, by decide, .inr (by decide)⟩), if_pos (by omega)]
  simp only [Go.pure_def, Go.ok_bind]
  rw [e2]
  simp only [Go.ok_bind]
  rw [if_neg (by decide), if_neg (by simp)]
  simp only [List.take_length]
  rw [parseAll_exts l ho (by omega)]
  rfl

def algForm : Bytes := elem 0x30 (elem 0x06 sha256WithRSAOID ++ [0x05, 0x00])
def algValue : Bytes × Elem := (sha256WithRSAOID, ⟨0, 5, false, [], [0x05, 0x00]⟩)

theorem signatureAlgorithm_form : signatureAlgorithm = algForm := by
  simp only [signatureAlgorithm, algForm, tlv_elem]

theorem parseAlg_form (rest : Bytes) : parseAlg (algForm ++ rest) = .ok (algValue, rest) := by
  unfold parseAlg algForm
  rw [parseSeq_elem _ rest (by decide +kernel)]
  simp only [Go.ok_bind]
  rw [parseOID_elem _ _ (by decide +kernel) (by decide)]
  simp only [Go.ok_bind]
  rw [if_neg (by simp)]
  have := parseAny_null []
  rw [List.append_nil] at this
  rw [this]
  rfl

theorem parseVersion_form (rest : Bytes) : parseVersion (elem 0x02 [1] ++ rest) = .ok (1, rest) := by
  unfold parseVersion
  rw [parseOptUni_hit 2 false 0x02 [1] rest (by decide) (by decide) (by decide)]
  rfl

/-- The next update, possibly absent. -/
def OptTimeForm (env : Env) (t : Civil) (out : Bytes) : Prop := TimeForm env t out ∨ (t = .zero ∧ out = [])

/-- The octets of a list to be signed. -/
def tbsOf (issuer t u rs : Bytes) (exts : List Ext) : Bytes :=
  elem 0x30 (elem 0x02 [1] ++ algForm ++ elem 0x30 issuer ++ t ++ u ++ rs ++ elem 0xa0 (elem 0x30 (exts.map extForm).flatten))

theorem parseTBS_form {env : Env} {issuer t u rs : Bytes} {exts : List Ext} {this next : Civil} {o : Option (List Revoked)}
    (rest : Bytes) (hn : env.name issuer = .ok ()) (ht : TimeForm env this t) (hu : OptTimeForm env next u)
    (hr : RevokedsForm env o rs) (ho : ∀ e ∈ exts, OidOk e.id) (hl : (tbsOf issuer t u rs exts).length < 2 ^ 31) :
    parseTBS env (tbsOf issuer t u rs exts ++ rest) =
      .ok (⟨tbsOf issuer t u rs exts, 1, algValue, issuer, this, next, o, some exts⟩, rest) := by
  generalize hT : tbsOf issuer t u rs exts = T at hl ⊢
  have hT' := hT
  unfold tbsOf at hT
  have l0 := elem_length_gt 0x30
    (elem 0x02 [1] ++ algForm ++ elem 0x30 issuer ++ t ++ u ++ rs ++ elem 0xa0 (elem 0x30 (exts.map extForm).flatten))
  rw [hT] at l0
  have l1 := elem_length_gt 0x30 issuer
  have l2 := elem_length_gt 0xa0 (elem 0x30 (exts.map extForm).flatten)
  simp only [List.length_append] at l0
  unfold parseTBS
  have hseq := parseSeq_elem (elem 0x02 [1] ++ algForm ++ elem 0x30 issuer ++ t ++ u ++ rs ++
    elem 0xa0 (elem 0x30 (exts.map extForm).flatten)) rest (by simp only [List.length_append]; omega)
  rw [hT] at hseq
  rw [hseq]
  simp only [Go.ok_bind, List.append_assoc]
  rw [parseVersion_form]
  simp only [Go.ok_bind]
  rw [parseAlg_form]
  simp only [Go.ok_bind]
  rw [parseSeq_elem _ _ (by omega)]
  simp only [Go.ok_bind]
  rw [hn]
  simp only [Go.ok_bind]
  rw [parseTime_form _ ht (by omega)]
  simp only [Go.ok_bind]
  have hopt : parseOptTime env (u ++ (rs ++ elem 0xa0 (elem 0x30 (exts.map extForm).flatten))) =
      .ok (next, rs ++ elem 0xa0 (elem 0x30 (exts.map extForm).flatten)) := by
    rcases hu with hu | ⟨rfl, rfl⟩
    · exact parseOptTime_form _ hu (by omega)
    · rw [List.nil_append]
      cases o with
      | none =>
        simp only [RevokedsForm] at hr
        subst hr
        have := parseOptTime_miss env 0xa0 (elem 0x30 (exts.map extForm).flatten) [] (by decide) (by decide) (by omega)
        simpa using this
      | some l =>
        obtain ⟨encs, _, rfl⟩ := hr
        have := elem_length_gt 0x30 encs.flatten
        exact parseOptTime_miss env 0x30 _ _ (by decide) (by decide) (by omega)
  rw [hopt]
  simp only [Go.ok_bind]
  have := parseRevokeds_form (elem 0x30 (exts.map extForm).flatten) [] hr (by omega) (by omega)
  rw [List.append_nil] at this
  rw [this]
  simp only [Go.ok_bind]
  rw [parseCRLExts_form exts ho (by omega)]
  simp [Go.pure_def]

theorem bitStringOf_whole (sig : Bytes) : bitStringOf (0x00 :: sig) = .ok ⟨sig, sig.length * 8⟩ := by
  simp only [bitStringOf]
  rw [if_neg]
  · simp
  · simp [Nat.mod_one]

/-- Reading a complete list. -/
theorem parseDERCRL_form {env : Env} {issuer t u rs sig : Bytes} {exts : List Ext} {this next : Civil} {o : Option (List Revoked)}
    (hn : env.name issuer = .ok ()) (ht : TimeForm env this t) (hu : OptTimeForm env next u)
    (hr : RevokedsForm env o rs) (ho : ∀ e ∈ exts, OidOk e.id) (out : Bytes)
    (hout : out = elem 0x30 (tbsOf issuer t u rs exts ++ algForm ++ elem 0x03 (0x00 :: sig))) (hl : out.length < 2 ^ 31) :
    parseDERCRL env out = .ok ⟨⟨tbsOf issuer t u rs exts, 1, algValue, issuer, this, next, o, some exts⟩, algValue,
      ⟨sig, sig.length * 8⟩⟩ := by
  subst hout
  have l0 := elem_length_gt 0x30 (tbsOf issuer t u rs exts ++ algForm ++ elem 0x03 (0x00 :: sig))
  have l1 := elem_length_gt 0x03 (0x00 :: sig)
  simp only [List.length_append] at l0
  unfold parseDERCRL
  have hseq := parseSeq_elem (tbsOf issuer t u rs exts ++ algForm ++ elem 0x03 (0x00 :: sig)) []
    (by simp only [List.length_append]; omega)
  rw [List.append_nil] at hseq
  rw [hseq]
  simp only [Go.ok_bind, List.append_assoc]
  rw [parseTBS_form _ hn ht hu hr ho (by omega)]
  simp only [Go.ok_bind]
  rw [parseAlg_form]
  simp only [Go.ok_bind]
  have hb := parseBits_elem (0x00 :: sig) [] (by omega)
  rw [List.append_nil] at hb
  rw [hb]
  simp only [Go.ok_bind]
  rw [bitStringOf_whole]
  simp

end Verif.Crl
