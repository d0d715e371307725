import Verif.Lemmas.Content
/-
  Decoding an encoded CMS object.
-/
set_option autoImplicit false

namespace Verif.Cms
open Der CmsSpec BerSpec

/-! ### Elements -/

/-- The element that is read from `elem id body`. -/
def node (id : UInt8) (body : Bytes) : Elem :=
  ⟨id.toNat / 64, id.toNat % 32, decide (id &&& 0x20 = 0x20), body, elem id body⟩

theorem parseAny_elem (id : UInt8) (body rest : Bytes) (hid : id.toNat % 32 ≠ 31) (h : body.length < 2 ^ 31) :
    parseAny (elem id body ++ rest) = .ok (node id body, rest) := by
  have := parseAny_tlv id body rest hid h
  rw [tlv_elem] at this
  exact this

theorem parseHeader_elem (id : UInt8) (c rest : Bytes) (hid : id.toNat % 32 ≠ 31) (h : c.length < 2 ^ 31) :
    parseHeader (elem id c ++ rest) =
      .ok (⟨id.toNat / 64, id.toNat % 32, decide (id &&& 0x20 = 0x20), c.length⟩, c ++ rest) := by
  have := parseHeader_enc id c.length (c ++ rest) hid h
  have e : elem id c ++ rest = id :: derLength c.length ++ (c ++ rest) := by simp [elem]
  rw [e, this]

/-- A `RawValue` that is written as one element with a one-octet identifier. -/
def WfRaw (e : Elem) : Prop := ∃ id body, id.toNat % 32 ≠ 31 ∧ marshalRaw e = elem id body

/-- What is read back for a `RawValue`. -/
def reread (e : Elem) : Elem :=
  match parseAny (marshalRaw e) with
  | .ok r => r.1
  | _ => e

theorem reread_elem {e : Elem} {id : UInt8} {body : Bytes} (hid : id.toNat % 32 ≠ 31)
    (he : marshalRaw e = elem id body) (h : body.length < 2 ^ 31) : reread e = node id body := by
  unfold reread
  rw [he]
  have := parseAny_elem id body [] hid h
  rw [List.append_nil] at this
  rw [this]

theorem parseAny_raw {e : Elem} (hw : WfRaw e) (h : (marshalRaw e).length < 2 ^ 31) (rest : Bytes) :
    parseAny (marshalRaw e ++ rest) = .ok (reread e, rest) := by
  obtain ⟨id, body, hid, he⟩ := hw
  have hl := elem_length_gt id body
  rw [he] at h
  rw [reread_elem hid he (by omega), he]
  exact parseAny_elem id body rest hid (by omega)

theorem wfRaw_ne_nil {e : Elem} (hw : WfRaw e) : marshalRaw e ≠ [] := by
  obtain ⟨id, body, hid, he⟩ := hw
  rw [he]; exact elem_ne_nil _ _

theorem reread_full {e : Elem} (hw : WfRaw e) (h : (marshalRaw e).length < 2 ^ 31) :
    (reread e).full = marshalRaw e := by
  obtain ⟨id, body, hid, he⟩ := hw
  have hl := elem_length_gt id body
  rw [he] at h
  rw [reread_elem hid he (by omega), he]
  rfl

/-- An element that has been read is read back as it is. -/
theorem reread_node (id : UInt8) (body : Bytes) (hid : id.toNat % 32 ≠ 31) (h : body.length < 2 ^ 31) :
    reread (node id body) = node id body := by
  apply reread_elem hid _ h
  have hf : (node id body).full ≠ [] := elem_ne_nil id body
  unfold marshalRaw
  rw [if_pos hf]
  rfl

/-! ### Optional elements -/

theorem parseOptRaw_nil (n : Nat) : parseOptRaw n [] = .ok (.zero, []) := by simp [parseOptRaw]

theorem parseOptRaw_hit (n : Nat) (id : UInt8) (body rest : Bytes) (h1 : id.toNat / 64 = 2) (h2 : id.toNat % 32 = n)
    (hn : n < 31) (h : body.length < 2 ^ 31) :
    parseOptRaw n (elem id body ++ rest) = .ok (node id body, rest) := by
  unfold parseOptRaw
  rw [if_neg (by simp [elem]), parseHeader_elem id body rest (by omega) h]
  simp only [Go.ok_bind, h1, h2, ne_eq, not_true_eq_false, or_self, if_false]
  rw [if_neg (by simp)]
  have e : (elem id body ++ rest).take ((elem id body ++ rest).length - (body ++ rest).length + body.length) =
      elem id body := by
    have hl := elem_length_gt id body
    have : (elem id body ++ rest).length - (body ++ rest).length + body.length = (elem id body).length := by
      simp only [List.length_append]; omega
    rw [this, List.take_left]
  rw [e]
  simp [node, h1, h2]

theorem parseOptRaw_miss (n : Nat) (id : UInt8) (body rest : Bytes) (hid : id.toNat % 32 ≠ 31)
    (h1 : id.toNat / 64 ≠ 2 ∨ id.toNat % 32 ≠ n) (h : body.length < 2 ^ 31) :
    parseOptRaw n (elem id body ++ rest) = .ok (.zero, elem id body ++ rest) := by
  unfold parseOptRaw
  rw [if_neg (by simp [elem]), parseHeader_elem id body rest hid h]
  simp only [Go.ok_bind]
  rw [if_pos h1]

theorem parseOptTyped_hit (body rest : Bytes) (h : body.length < 2 ^ 31) :
    parseOptTyped 0 (elem 0xa0 body ++ rest) = .ok (some body, rest) := by
  unfold parseOptTyped
  rw [if_neg (by simp [elem]), parseHeader_elem 0xa0 body rest (by decide) h]
  simp only [Go.ok_bind]
  have e1 : (0xa0 : UInt8).toNat / 64 = 2 := by decide
  have e2 : (0xa0 : UInt8).toNat % 32 = 0 := by decide
  have e3 : decide ((0xa0 : UInt8) &&& 0x20 = 0x20) = true := by decide
  simp [e1, e2, e3]

theorem parseOptTyped_miss (body rest : Bytes) (h : body.length < 2 ^ 31) :
    parseOptTyped 0 (elem 0x30 body ++ rest) = .ok (none, elem 0x30 body ++ rest) := by
  unfold parseOptTyped
  rw [if_neg (by simp [elem]), parseHeader_elem 0x30 body rest (by decide) h]
  simp only [Go.ok_bind]
  rw [if_pos (.inl (by decide))]

/-! ### Sets -/

/-- Insertion by encoding. -/
def insertBy {α : Type} (f : α → Bytes) (x : α) : List α → List α
  | [] => [x]
  | y :: ys => if f x ≤ f y then x :: y :: ys else y :: insertBy f x ys

/-- The members of a SET OF in the order in which they are written. -/
def sortBy {α : Type} (f : α → Bytes) : List α → List α
  | [] => []
  | x :: xs => insertBy f x (sortBy f xs)

theorem insertBy_map {α : Type} (f : α → Bytes) (x : α) (l : List α) :
    insertSorted (f x) (l.map f) = (insertBy f x l).map f := by
  induction l with
  | nil => rfl
  | cons y ys ih =>
    simp only [List.map_cons, insertSorted, insertBy]
    split
    · rfl
    · simp [ih]

theorem sortBy_map {α : Type} (f : α → Bytes) (l : List α) : sortSet (l.map f) = (sortBy f l).map f := by
  induction l with
  | nil => rfl
  | cons x xs ih => simp only [List.map_cons, sortSet, sortBy, ih, insertBy_map]

theorem insertBy_perm {α : Type} (f : α → Bytes) (x : α) (l : List α) : (insertBy f x l).Perm (x :: l) := by
  induction l with
  | nil => exact .refl _
  | cons y ys ih =>
    unfold insertBy
    split
    · exact .refl _
    · exact (ih.cons y).trans (.swap x y ys)

theorem sortBy_perm {α : Type} (f : α → Bytes) (l : List α) : (sortBy f l).Perm l := by
  induction l with
  | nil => exact .refl _
  | cons x xs ih => exact (insertBy_perm f x _).trans (.cons x ih)

theorem insertBy_sorted {α : Type} (f : α → Bytes) (x : α) (l : List α) (h : ∀ y ∈ l, f x ≤ f y) :
    insertBy f x l = x :: l := by
  cases l with
  | nil => rfl
  | cons y ys => simp [insertBy, h y]

/-- A list that is already in order stays as it is. -/
theorem sortBy_sorted {α : Type} (f : α → Bytes) (l : List α) (h : (l.map f).Pairwise (· ≤ ·)) : sortBy f l = l := by
  induction l with
  | nil => rfl
  | cons x xs ih =>
    rw [List.map_cons, List.pairwise_cons] at h
    rw [sortBy, ih h.2]
    exact insertBy_sorted f x xs (fun y hy => h.1 _ (List.mem_map_of_mem hy))

theorem parseAll_map {α β : Type} (p : Bytes → Go (β × Bytes)) (f : α → Bytes) (g : α → β) (l : List α)
    (h : ∀ x ∈ l, f x ≠ [] ∧ ∀ rest, p (f x ++ rest) = .ok (g x, rest)) :
    parseAll p (l.map f).flatten = .ok (l.map g) := by
  have := parseAll_enc p (l.map (fun x => (f x, g x))) (by
    intro y hy
    obtain ⟨x, hx, rfl⟩ := List.mem_map.mp hy
    exact h x hx)
  simpa [Function.comp_def] using this

theorem parseAll_set {α β : Type} (p : Bytes → Go (β × Bytes)) (f : α → Bytes) (g : α → β) (l : List α)
    (h : ∀ x ∈ l, f x ≠ [] ∧ ∀ rest, p (f x ++ rest) = .ok (g x, rest)) :
    parseAll p (sortSet (l.map f)).flatten = .ok ((sortBy f l).map g) := by
  rw [sortBy_map]
  exact parseAll_map p f g _ (fun x hx => h x ((sortBy_perm f l).mem_iff.mp hx))

theorem sortSet_length (l : List Bytes) : (sortSet l).flatten.length = l.flatten.length :=
  ((sortSet_perm l).flatten).length_eq

/-! ### Attributes -/

/-- An attribute that can be written and read: an object identifier, and values that are elements. -/
def WfAttr (a : Attribute) : Prop := OidOk a.attrType ∧ ∀ v ∈ a.attrValue, v.full ≠ [] ∧ WfRaw v

/-- The attribute that is read back. -/
def normAttr (a : Attribute) : Attribute := ⟨a.attrType, (sortBy Elem.full a.attrValue).map reread⟩

theorem raw_full {v : Elem} (h : v.full ≠ []) : marshalRaw v = v.full := by
  unfold marshalRaw; rw [if_pos h]

theorem marshalAttr_elem (a : Attribute) :
    marshalAttr a = elem 0x30 (elem 0x06 a.attrType ++ elem 0x31 (sortSet (a.attrValue.map (·.full))).flatten) := by
  simp [marshalAttr, marshalSet, tlv_elem]

theorem parseAttribute_marshal {a : Attribute} (h : WfAttr a) (hl : (marshalAttr a).length < 2 ^ 31) :
    marshalAttr a ≠ [] ∧ ∀ rest, parseAttribute (marshalAttr a ++ rest) = .ok (normAttr a, rest) := by
  rw [marshalAttr_elem] at hl ⊢
  have l1 := elem_length_gt 0x30 (elem 0x06 a.attrType ++ elem 0x31 (sortSet (a.attrValue.map (·.full))).flatten)
  have l2 := elem_length_gt 0x06 a.attrType
  have l3 := elem_length_gt 0x31 (sortSet (a.attrValue.map (·.full))).flatten
  simp only [List.length_append] at l1
  refine ⟨elem_ne_nil _ _, ?_⟩
  intro rest
  unfold parseAttribute
  rw [parseSeq_elem _ rest (by simp; omega)]
  simp only [Go.ok_bind]
  rw [parseOID_elem _ _ h.1 (by omega)]
  simp only [Go.ok_bind]
  rw [← List.append_nil (elem 0x31 _), parseSet_elem _ [] (by omega)]
  simp only [Go.ok_bind]
  have : parseAll parseAny (sortSet (a.attrValue.map (·.full))).flatten =
      .ok ((sortBy Elem.full a.attrValue).map reread) := by
    apply parseAll_set
    intro v hv
    obtain ⟨hf, hw⟩ := h.2 v hv
    have hm : v.full.length ≤ (a.attrValue.map (·.full)).flatten.length :=
      flatten_mem_length (List.mem_map_of_mem hv)
    rw [sortSet_length] at l3
    refine ⟨hf, fun rest => ?_⟩
    have := parseAny_raw hw (by rw [raw_full hf]; omega) rest
    rwa [raw_full hf] at this
  rw [this]
  simp [normAttr]

/-- Reading and writing again gives the same octets. -/
theorem marshalAttr_norm {a : Attribute} (h : WfAttr a) (hl : (marshalAttr a).length < 2 ^ 31) :
    marshalAttr (normAttr a) = marshalAttr a := by
  rw [marshalAttr_elem] at hl
  have l1 := elem_length_gt 0x30 (elem 0x06 a.attrType ++ elem 0x31 (sortSet (a.attrValue.map (·.full))).flatten)
  have l3 := elem_length_gt 0x31 (sortSet (a.attrValue.map (·.full))).flatten
  rw [sortSet_length] at l3
  simp only [List.length_append] at l1
  have e : (normAttr a).attrValue.map (·.full) = (sortBy Elem.full a.attrValue).map (·.full) := by
    simp only [normAttr, List.map_map]
    apply List.map_congr_left
    intro v hv
    have hv' := (sortBy_perm _ _).mem_iff.mp hv
    obtain ⟨hf, hw⟩ := h.2 v hv'
    have hm : v.full.length ≤ (a.attrValue.map (·.full)).flatten.length :=
      flatten_mem_length (List.mem_map_of_mem hv')
    simp only [Function.comp]
    rw [reread_full hw (by rw [raw_full hf]; omega), raw_full hf]
  have ep : sortSet ((sortBy Elem.full a.attrValue).map (·.full)) = sortSet (a.attrValue.map (·.full)) :=
    sortSet_congr ((sortBy_perm _ _).map _)
  rw [marshalAttr_elem, marshalAttr_elem, e, ep]
  rfl

/-- The attributes that are read back. -/
def normAttrs (attrs : List Attribute) : List Attribute := (sortBy marshalAttr attrs).map normAttr

theorem attrSet_norm {attrs : List Attribute} (h : ∀ a ∈ attrs, WfAttr a)
    (hl : (attrs.map marshalAttr).flatten.length < 2 ^ 31) : attrSet (normAttrs attrs) = attrSet attrs := by
  have e : (normAttrs attrs).map marshalAttr = (sortBy marshalAttr attrs).map marshalAttr := by
    simp only [normAttrs, List.map_map]
    apply List.map_congr_left
    intro a ha
    have ha' := (sortBy_perm _ _).mem_iff.mp ha
    have hm : (marshalAttr a).length ≤ (attrs.map marshalAttr).flatten.length :=
      flatten_mem_length (List.mem_map_of_mem ha')
    exact marshalAttr_norm (h a ha') (by omega)
  unfold attrSet marshalSet
  rw [e, sortSet_congr ((sortBy_perm marshalAttr attrs).map marshalAttr)]

/-! ### Signers -/

/-- A signer that can be written and read. -/
structure WfSigner (s : SignerInfo) : Prop where
  version : intOk s.version = true
  sid : WfRaw s.sid
  digests : ∀ e ∈ s.digestAlgorithms, WfRaw e
  attrs : ∀ a ∈ s.signedAttrs, WfAttr a
  alg : ∃ body, marshalRaw s.signatureAlgorithm = elem 0x30 body
  unsigned : s.unsignedAttrs = .zero ∨
    ∃ id body, id.toNat / 64 = 2 ∧ id.toNat % 32 = 1 ∧ marshalRaw s.unsignedAttrs = elem id body

/-- What is read back for an optional element. -/
def rereadOpt (e : Elem) : Elem := if e = .zero then .zero else reread e

/-- The signer that is read back. -/
def normSigner (s : SignerInfo) : SignerInfo :=
  ⟨s.version, reread s.sid, s.digestAlgorithms.map reread, normAttrs s.signedAttrs,
   reread s.signatureAlgorithm, s.signature, rereadOpt s.unsignedAttrs⟩

theorem parseInt_raw {c : Bytes} (rest : Bytes) (h : intOk c = true) (hl : c.length < 2 ^ 31) :
    parseInt (elem 0x02 c ++ rest) = .ok (c, rest) := by
  unfold parseInt
  rw [← tlv_elem, parseTyped_tlv 2 false 0x02 c rest rfl (by decide) hl]
  simp [h]

theorem parseSignedAttrs_marshal {attrs : List Attribute} (h : ∀ a ∈ attrs, WfAttr a) (alg rest : Bytes)
    (hl : (marshalSignedAttrs attrs).length < 2 ^ 31) (hal : alg.length < 2 ^ 31) :
    parseSignedAttrs (marshalSignedAttrs attrs ++ (elem 0x30 alg ++ rest)) =
      .ok (normAttrs attrs, elem 0x30 alg ++ rest) := by
  unfold parseSignedAttrs marshalSignedAttrs
  by_cases he : attrs = []
  · subst he
    rw [if_pos rfl, List.nil_append, parseOptTyped_miss alg rest hal]
    simp [normAttrs, sortBy]
  · rw [if_neg he, tlv_elem]
    unfold marshalSignedAttrs at hl
    rw [if_neg he, tlv_elem] at hl
    have l1 := elem_length_gt 0xa0 (sortSet (attrs.map marshalAttr)).flatten
    rw [parseOptTyped_hit _ _ (by omega)]
    simp only [Go.ok_bind]
    have : parseAll parseAttribute (sortSet (attrs.map marshalAttr)).flatten = .ok (normAttrs attrs) := by
      apply parseAll_set
      intro a ha
      have hm : (marshalAttr a).length ≤ (attrs.map marshalAttr).flatten.length :=
        flatten_mem_length (List.mem_map_of_mem ha)
      rw [sortSet_length] at l1
      exact parseAttribute_marshal (h a ha) (by omega)
    rw [this]
    simp

theorem parseOptRaw_end {e : Elem} (n : Nat) (hn : n < 31) (h : e = .zero ∨
      ∃ id body, id.toNat / 64 = 2 ∧ id.toNat % 32 = n ∧ marshalRaw e = elem id body)
    (hl : (marshalOptRaw e).length < 2 ^ 31) : parseOptRaw n (marshalOptRaw e) = .ok (rereadOpt e, []) := by
  unfold marshalOptRaw at hl ⊢
  unfold rereadOpt
  by_cases hz : e = .zero
  · rw [if_pos hz, if_pos hz]; exact parseOptRaw_nil n
  · rw [if_neg hz, if_neg hz] at *
    rcases h with h | ⟨id, body, h1, h2, h3⟩
    · exact absurd h hz
    · rw [h3] at hl ⊢
      have := elem_length_gt id body
      rw [reread_elem (by omega) h3 (by omega), ← List.append_nil (elem id body)]
      exact parseOptRaw_hit n id body [] h1 h2 hn (by omega)

theorem parseSignerInfo_marshal {s : SignerInfo} (h : WfSigner s) (hl : (marshalSignerInfo s).length < 2 ^ 31) :
    marshalSignerInfo s ≠ [] ∧ ∀ rest, parseSignerInfo (marshalSignerInfo s ++ rest) = .ok (normSigner s, rest) := by
  obtain ⟨ab, hab⟩ := h.alg
  have hm : marshalSignerInfo s = elem 0x30 (elem 0x02 s.version ++ (marshalRaw s.sid ++
      (elem 0x30 (s.digestAlgorithms.map marshalRaw).flatten ++ (marshalSignedAttrs s.signedAttrs ++
        (elem 0x30 ab ++ (elem 0x04 s.signature ++ marshalOptRaw s.unsignedAttrs)))))) := by
    simp [marshalSignerInfo, tlv_elem, hab]
  rw [hm] at hl ⊢
  have l0 := elem_length_gt 0x30 (elem 0x02 s.version ++ (marshalRaw s.sid ++
      (elem 0x30 (s.digestAlgorithms.map marshalRaw).flatten ++ (marshalSignedAttrs s.signedAttrs ++
        (elem 0x30 ab ++ (elem 0x04 s.signature ++ marshalOptRaw s.unsignedAttrs))))))
  have l1 := elem_length_gt 0x02 s.version
  have l2 := elem_length_gt 0x30 (s.digestAlgorithms.map marshalRaw).flatten
  have l3 := elem_length_gt 0x30 ab
  have l4 := elem_length_gt 0x04 s.signature
  have l0' := l0
  simp only [List.length_append] at l0'
  refine ⟨elem_ne_nil _ _, ?_⟩
  intro rest
  unfold parseSignerInfo
  rw [parseSeq_elem _ rest (by omega)]
  simp only [Go.ok_bind]
  rw [parseInt_raw _ h.version (by omega)]
  simp only [Go.ok_bind]
  rw [parseAny_raw h.sid (by omega)]
  simp only [Go.ok_bind]
  rw [parseSeq_elem _ _ (by omega)]
  simp only [Go.ok_bind]
  have hd : parseAll parseAny (s.digestAlgorithms.map marshalRaw).flatten = .ok (s.digestAlgorithms.map reread) := by
    apply parseAll_map
    intro e he
    have hm : (marshalRaw e).length ≤ (s.digestAlgorithms.map marshalRaw).flatten.length :=
      flatten_mem_length (List.mem_map_of_mem he)
    exact ⟨wfRaw_ne_nil (h.digests e he), parseAny_raw (h.digests e he) (by omega)⟩
  rw [hd]
  simp only [Go.ok_bind]
  rw [parseSignedAttrs_marshal h.attrs ab _ (by omega) (by omega)]
  simp only [Go.ok_bind]
  rw [parseAny_elem 0x30 ab _ (by decide) (by omega)]
  simp only [Go.ok_bind]
  rw [parseOctets_elem _ _ (by omega)]
  simp only [Go.ok_bind]
  rw [parseOptRaw_end 1 (by decide) h.unsigned (by omega)]
  simp only [Go.ok_bind, Go.pure_def, normSigner]
  rw [reread_elem (by decide) hab (by omega)]

/-! ### Signed data -/

/-- An optional element `[n]`. -/
def WfOpt (n : Nat) (e : Elem) : Prop :=
  e = .zero ∨ ∃ id body, id.toNat / 64 = 2 ∧ id.toNat % 32 = n ∧ marshalRaw e = elem id body

/-- Signed data that can be written and read. -/
structure WfData (d : SignedData) : Prop where
  version : intOk d.version = true
  digests : ∀ e ∈ d.digestAlgorithms, WfRaw e
  encap : WfRaw d.encapContentInfo
  certs : WfOpt 0 d.certificates
  crls : WfOpt 1 d.crls
  signers : ∀ s ∈ d.signerInfos, WfSigner s

/-- The signed data that are read back. -/
def normData (d : SignedData) : SignedData :=
  ⟨d.version, (sortBy marshalRaw d.digestAlgorithms).map reread, reread d.encapContentInfo,
   rereadOpt d.certificates, rereadOpt d.crls, (sortBy marshalSignerInfo d.signerInfos).map normSigner⟩

/-- An optional element in front of an element that is not one of this kind. -/
theorem parseOptRaw_opt {e : Elem} (n : Nat) (hn : n < 31) (h : WfOpt n e) (id : UInt8) (body rest : Bytes)
    (hid : id.toNat % 32 ≠ 31) (hm : id.toNat / 64 ≠ 2 ∨ id.toNat % 32 ≠ n) (hb : body.length < 2 ^ 31)
    (hl : (marshalOptRaw e).length < 2 ^ 31) :
    parseOptRaw n (marshalOptRaw e ++ (elem id body ++ rest)) = .ok (rereadOpt e, elem id body ++ rest) := by
  unfold marshalOptRaw at hl ⊢
  unfold rereadOpt
  by_cases hz : e = .zero
  · rw [if_pos hz, if_pos hz]; exact parseOptRaw_miss n id body rest hid hm hb
  · rw [if_neg hz, if_neg hz] at *
    rcases h with h | ⟨id', body', h1, h2, h3⟩
    · exact absurd h hz
    · rw [h3] at hl ⊢
      have := elem_length_gt id' body'
      rw [reread_elem (by omega) h3 (by omega)]
      exact parseOptRaw_hit n id' body' _ h1 h2 hn (by omega)

/-- Two optional elements `[0]` and `[1]` in front of a SET. -/
theorem parse_two_opt {c r : Elem} (hc : WfOpt 0 c) (hr : WfOpt 1 r) (body : Bytes) (hb : body.length < 2 ^ 31)
    (hlc : (marshalOptRaw c).length < 2 ^ 31) (hlr : (marshalOptRaw r).length < 2 ^ 31) :
    parseOptRaw 0 (marshalOptRaw c ++ (marshalOptRaw r ++ elem 0x31 body)) =
      .ok (rereadOpt c, marshalOptRaw r ++ elem 0x31 body) ∧
    parseOptRaw 1 (marshalOptRaw r ++ elem 0x31 body) = .ok (rereadOpt r, elem 0x31 body) := by
  have h2 := parseOptRaw_opt 1 (by decide) hr 0x31 body [] (by decide) (.inl (by decide)) hb hlr
  rw [List.append_nil] at h2
  refine ⟨?_, h2⟩
  rcases hr with rfl | ⟨id, rb, h3, h4, h5⟩
  · have : marshalOptRaw Elem.zero = [] := by simp [marshalOptRaw]
    rw [this, List.nil_append]
    have h1 := parseOptRaw_opt 0 (by decide) hc 0x31 body [] (by decide) (.inl (by decide)) hb hlc
    rwa [List.append_nil] at h1
  · by_cases hz : r = .zero
    · subst hz
      have : marshalOptRaw Elem.zero = [] := by simp [marshalOptRaw]
      rw [this, List.nil_append]
      have h1 := parseOptRaw_opt 0 (by decide) hc 0x31 body [] (by decide) (.inl (by decide)) hb hlc
      rwa [List.append_nil] at h1
    · have : marshalOptRaw r = elem id rb := by unfold marshalOptRaw; rw [if_neg hz, h5]
      rw [this] at hlr ⊢
      have hlt := elem_length_gt id rb
      exact parseOptRaw_opt 0 (by decide) hc id rb _ (by omega) (.inr (by omega)) (by omega) hlc

theorem parseSignedData_marshal {d : SignedData} (h : WfData d) (hl : (marshalSignedData d).length < 2 ^ 31) :
    ∃ body, marshalSignedData d = elem 0x30 body ∧ parseSignedData body = .ok (normData d) := by
  refine ⟨elem 0x02 d.version ++ (elem 0x31 (sortSet (d.digestAlgorithms.map marshalRaw)).flatten ++
    (marshalRaw d.encapContentInfo ++ (marshalOptRaw d.certificates ++ (marshalOptRaw d.crls ++
      elem 0x31 (sortSet (d.signerInfos.map marshalSignerInfo)).flatten)))),
    by simp [marshalSignedData, marshalSet, tlv_elem], ?_⟩
  have hm : marshalSignedData d = elem 0x30 (elem 0x02 d.version ++
    (elem 0x31 (sortSet (d.digestAlgorithms.map marshalRaw)).flatten ++
    (marshalRaw d.encapContentInfo ++ (marshalOptRaw d.certificates ++ (marshalOptRaw d.crls ++
      elem 0x31 (sortSet (d.signerInfos.map marshalSignerInfo)).flatten))))) := by
    simp [marshalSignedData, marshalSet, tlv_elem]
  rw [hm] at hl
  have l0 := elem_length_gt 0x30 (elem 0x02 d.version ++
    (elem 0x31 (sortSet (d.digestAlgorithms.map marshalRaw)).flatten ++
    (marshalRaw d.encapContentInfo ++ (marshalOptRaw d.certificates ++ (marshalOptRaw d.crls ++
      elem 0x31 (sortSet (d.signerInfos.map marshalSignerInfo)).flatten)))))
  have l1 := elem_length_gt 0x02 d.version
  have l2 := elem_length_gt 0x31 (sortSet (d.digestAlgorithms.map marshalRaw)).flatten
  have l3 := elem_length_gt 0x31 (sortSet (d.signerInfos.map marshalSignerInfo)).flatten
  simp only [List.length_append] at l0
  obtain ⟨o1, o2⟩ := parse_two_opt h.certs h.crls (sortSet (d.signerInfos.map marshalSignerInfo)).flatten
    (by omega) (by omega) (by omega)
  unfold parseSignedData
  rw [parseInt_raw _ h.version (by omega)]
  simp only [Go.ok_bind]
  rw [parseSet_elem _ _ (by omega)]
  simp only [Go.ok_bind]
  have hd : parseAll parseAny (sortSet (d.digestAlgorithms.map marshalRaw)).flatten =
      .ok ((sortBy marshalRaw d.digestAlgorithms).map reread) := by
    apply parseAll_set
    intro e he
    have hm : (marshalRaw e).length ≤ (d.digestAlgorithms.map marshalRaw).flatten.length :=
      flatten_mem_length (List.mem_map_of_mem he)
    rw [sortSet_length] at l2
    exact ⟨wfRaw_ne_nil (h.digests e he), parseAny_raw (h.digests e he) (by omega)⟩
  rw [hd]
  simp only [Go.ok_bind]
  rw [parseAny_raw h.encap (by omega)]
  simp only [Go.ok_bind]
  rw [o1]
  simp only [Go.ok_bind]
  rw [o2]
  simp only [Go.ok_bind]
  rw [← List.append_nil (elem 0x31 _), parseSet_elem _ [] (by omega)]
  simp only [Go.ok_bind]
  have hs : parseAll parseSignerInfo (sortSet (d.signerInfos.map marshalSignerInfo)).flatten =
      .ok ((sortBy marshalSignerInfo d.signerInfos).map normSigner) := by
    apply parseAll_set
    intro s hs
    have hm : (marshalSignerInfo s).length ≤ (d.signerInfos.map marshalSignerInfo).flatten.length :=
      flatten_mem_length (List.mem_map_of_mem hs)
    rw [sortSet_length] at l3
    exact parseSignerInfo_marshal (h.signers s hs) (by omega)
  rw [hs]
  simp [normData]

/-- An object that can be written and read. -/
def WfCMS (c : CMS) : Prop := OidOk c.oid ∧ WfData c.signedData

/-- The object that is read back. -/
def normCMS (c : CMS) : CMS := ⟨c.oid, normData c.signedData⟩

theorem decodeCMS_marshal {c : CMS} (h : WfCMS c) (hl : (marshalCMS c).length < 2 ^ 31) (rest : Bytes) :
    decodeCMS (marshalCMS c ++ rest) = .ok (normCMS c) := by
  have hm : marshalCMS c = elem 0x30 (elem 0x06 c.oid ++ elem 0xa0 (marshalSignedData c.signedData)) := by
    simp [marshalCMS, tlv_elem]
  rw [hm] at hl ⊢
  have l0 := elem_length_gt 0x30 (elem 0x06 c.oid ++ elem 0xa0 (marshalSignedData c.signedData))
  have l1 := elem_length_gt 0x06 c.oid
  have l2 := elem_length_gt 0xa0 (marshalSignedData c.signedData)
  simp only [List.length_append] at l0
  obtain ⟨body, hb, hp⟩ := parseSignedData_marshal h.2 (by omega)
  have l3 := elem_length_gt 0x30 body
  rw [hb] at l2 l0 hl
  unfold decodeCMS
  rw [parseSeq_elem _ rest (by simp; rw [hb]; omega)]
  simp only [Go.ok_bind]
  rw [parseOID_elem _ _ h.1 (by omega)]
  simp only [Go.ok_bind]
  have : parseExplicitSignedData (elem 0xa0 (marshalSignedData c.signedData)) = .ok (normData c.signedData) := by
    unfold parseExplicitSignedData
    rw [if_neg (elem_ne_nil _ _), hb]
    have hx : parseExplicit 0 (elem 0xa0 (elem 0x30 body)) = .ok (some (elem 0x30 body)) := by
      unfold parseExplicit
      have := parseHeader_elem 0xa0 (elem 0x30 body) [] (by decide) (by omega)
      rw [List.append_nil, List.append_nil] at this
      rw [this]
      simp only [Go.ok_bind]
      rw [if_neg (elem_ne_nil _ _), if_pos ⟨by decide, by decide, .inr (by decide)⟩, if_pos (by omega)]
      rfl
    rw [hx]
    simp only [Go.ok_bind]
    rw [← List.append_nil (elem 0x30 body), parseSeq_elem _ [] (by omega)]
    simp only [Go.ok_bind, hp]
  rw [this]
  simp [normCMS]

end Verif.Cms
