import Verif.Lemmas.X509Cert
import Verif.Lemmas.CmsSafe
import Verif.Props.Time
/-
  Parsing a certificate neither panics nor loops, and what is read depends on the signed octets only.
-/
set_option autoImplicit false

namespace Verif.X509
open Der Cms CmsSpec BerSpec X509Spec

/-- The parts that are not modelled end without a panic. -/
def Lib.Calm (lib : Lib) : Prop := (∀ o p b, Safe (lib.otherKey o p b)) ∧ ∀ k v, Safe (lib.otherExt k v)

theorem safe_of_ends {α : Type} {g : Go α} (h : Props.Ends g) : Safe g := by
  rcases h with ⟨a, rfl⟩ | ⟨e, rfl⟩
  · exact .ok _
  · exact .err _

theorem safe_cut (t : UInt8) (h l : Nat) (s : Bytes) : Safe (cut t h l s) := by
  unfold cut; exact .ite (.err _) (.ok _)

theorem safe_readPiece (s : Bytes) : Safe (readPiece s) := by
  unfold readPiece
  split
  · exact .ite (.err _) (.ite (safe_cut _ _ _ _) (.ite (.err _) (.ite (.err _) (.ite (.err _) (.ite (.err _) (safe_cut _ _ _ _))))))
  · exact .err _

theorem safe_read (t : UInt8) (s : Bytes) : Safe (read t s) := by
  unfold read; exact (safe_readPiece s).bind fun _ _ => .ite (.err _) (.ok _)

theorem safe_readOpt (t : UInt8) (s : Bytes) : Safe (readOpt t s) := by
  unfold readOpt; exact .ite ((safe_read _ _).bind fun _ _ => .ok _) (.ok _)

theorem safe_readBig (s : Bytes) : Safe (readBig s) := by
  unfold readBig; exact (safe_read _ _).bind fun _ _ => .ite (.ok _) (.err _)

theorem safe_readInt (s : Bytes) : Safe (readInt s) := by
  unfold readInt; exact (safe_read _ _).bind fun _ _ => .ite (.ok _) (.err _)

theorem safe_readBool (s : Bytes) : Safe (readBool s) := by
  unfold readBool; exact (safe_read _ _).bind fun _ _ => .ite (.ok _) (.ite (.ok _) (.err _))

theorem safe_optBool (s : Bytes) : Safe (optBool s) := by unfold optBool; exact .ite (safe_readBool _) (.ok _)
theorem safe_optInt (s : Bytes) : Safe (optInt s) := by unfold optInt; exact .ite (safe_readInt _) (.ok _)

theorem safe_readBits (s : Bytes) : Safe (readBits s) := by
  unfold readBits; exact (safe_read _ _).bind fun _ _ => (safe_bitStringOf _).bind fun _ _ => .ok _

theorem safe_arc (i v : Nat) (s : Bytes) : Safe (arc i v s) := by
  induction s generalizing i v with
  | nil => exact .err _
  | cons b s ih =>
    unfold arc
    exact .ite (.err _) (.ite (.err _) (.ite (.err _) (.ite (.ok _) (ih _ _))))

/-- A reader that is exact consumes what it accepts. -/
theorem consumes_of {α : Type} {p : Bytes → Go (α × Bytes)} {R : α → Bytes → Prop}
    (hp : ∀ s a r, p s = .ok (a, r) → ∃ e, R a e ∧ s = e ++ r) (hn : ∀ a e, R a e → e ≠ []) : Consumes p := by
  intro s r h
  obtain ⟨e, he, rfl⟩ := hp s r.1 r.2 h
  have := List.length_pos_iff.mpr (hn _ _ he)
  simp; omega

theorem consumes_arc : Consumes (arc 0 0) := by
  intro s r h
  obtain ⟨v, t⟩ := r
  have h' := (arc_iff (s := s) (r := t) (v := v)).mp h
  obtain ⟨e, h1, h2, h3⟩ := h'
  have : 0 < e.length := by
    apply List.length_pos_iff.mpr
    rintro rfl
    simp [ExtSpec.ArcOctets] at h1
  simp_all

theorem safe_readOID (s : Bytes) : Safe (readOID s) := by
  unfold readOID
  exact (safe_read _ _).bind fun _ _ => .ite (.err _) ((safe_parseAll _ (safe_arc 0 0) consumes_arc _).bind fun _ _ => .ok _)

theorem safe_textOf (lib : Lib) (t : UInt8) (v : Bytes) : Safe (textOf lib t v) := by
  unfold textOf
  exact .ite (.ok _) (.ite (.ite (.ok _) (.err _)) (.ite (.ite (.ok _) (.err _)) (.ite (.ite (.err _) (.ok _))
    (.ite (.ite (.ok _) (.err _)) (.ite (.ite (.ok _) (.err _)) (.err _))))))

theorem safe_readAttr (lib : Lib) (s : Bytes) : Safe (readAttr lib s) := by
  unfold readAttr
  exact (safe_read _ _).bind fun _ _ => (safe_readOID _).bind fun _ _ => (safe_readPiece _).bind fun _ _ =>
    (safe_textOf _ _ _).bind fun _ _ => .ok _

theorem safe_readRdn (lib : Lib) (s : Bytes) : Safe (readRdn lib s) := by
  unfold readRdn
  exact (safe_read _ _).bind fun _ _ => (safe_parseAll _ (safe_readAttr lib)
    (consumes_of (fun _ _ _ => readAttr_iff.mp) fun _ _ h => attr_ne h) _).bind fun _ _ => .ok _

theorem safe_readName (lib : Lib) (s : Bytes) : Safe (readName lib s) := by
  unfold readName
  exact (safe_read _ _).bind fun _ _ => (safe_parseAll _ (safe_readRdn lib)
    (consumes_of (fun _ _ _ => readRdn_iff.mp) fun _ _ h => by obtain ⟨_, _, h⟩ := h; exact tlv_ne h) _).bind fun _ _ => .ok _

theorem safe_utcTime (s : Bytes) : Safe (utcTime s) := by
  unfold utcTime
  rcases Props.parseTime_ends Time.utcLong s with ⟨a, h⟩ | ⟨e, h⟩
  · simp only [h]
    exact .ite (.err _) (.ite (.ok _) (.ok _))
  · rcases Props.parseTime_ends Time.utcShort s with ⟨a, h'⟩ | ⟨e, h'⟩
    · simp only [h, h']
      exact .ite (.err _) (.ite (.ok _) (.ok _))
    · simp only [h, h']
      exact .err _

theorem gt_ends (s : Bytes) : Props.Ends (Time.parseGeneralizedTime s) := Props.C94_no_panic true s

theorem safe_readTime (s : Bytes) : Safe (readTime s) := by
  unfold readTime
  exact .ite ((safe_read _ _).bind fun _ _ => (safe_utcTime _).bind fun _ _ => .ok _)
    (.ite ((safe_read _ _).bind fun _ _ => (safe_of_ends (gt_ends _)).bind fun _ _ => .ok _) (.err _))

theorem safe_readValidity (s : Bytes) : Safe (readValidity s) := by
  unfold readValidity
  exact (safe_read _ _).bind fun _ _ => (safe_readTime _).bind fun _ _ => (safe_readTime _).bind fun _ _ => .ok _

theorem safe_parseAI (s : Bytes) : Safe (parseAI s) := by
  unfold parseAI
  exact (safe_readOID _).bind fun _ _ => .ite (.ok _) ((safe_readPiece _).bind fun _ _ => .ok _)

theorem safe_rsaKey (p : Bytes) (b : Cert.BitString) : Safe (rsaKey p b) := by
  unfold rsaKey
  exact .ite (.err _) ((safe_read _ _).bind fun _ _ => (safe_readBig _).bind fun _ _ => (safe_readInt _).bind fun _ _ =>
    .ite (.err _) (.ite (.err _) (.ok _)))

theorem safe_readSpki {lib : Lib} (hl : lib.Calm) (s : Bytes) : Safe (readSpki lib s) := by
  unfold readSpki
  exact (safe_read _ _).bind fun _ _ => (safe_read _ _).bind fun _ _ => (safe_parseAI _).bind fun _ _ =>
    (safe_readBits _).bind fun _ _ => .ite ((safe_rsaKey _ _).bind fun _ _ => .ok _) ((hl.1 _ _ _).bind fun _ _ => .ok _)

theorem safe_readExt (s : Bytes) : Safe (readExt s) := by
  unfold readExt
  exact (safe_read _ _).bind fun _ _ => (safe_readOID _).bind fun _ _ => (safe_optBool _).bind fun _ _ =>
    (safe_read _ _).bind fun _ _ => .ok _

theorem safe_urisFuel (n : Nat) : ∀ s : Bytes, s.length ≤ n → Safe (urisFuel n s) := by
  induction n with
  | zero =>
    intro s hs
    have : s = [] := List.length_eq_zero_iff.mp (by omega)
    subst this
    exact .ok _
  | succ n ih =>
    intro s hs
    unfold urisFuel
    refine .ite ((safe_read _ _).bind fun r hr => (ih _ ?_).bind fun _ _ => .ok _) (.ok _)
    obtain ⟨e, he, rfl⟩ := read_iff.mp hr
    have := List.length_pos_iff.mpr (tlv_ne he)
    simp at hs; omega

theorem safe_readPoint (s : Bytes) : Safe (readPoint s) := by
  unfold readPoint
  refine (safe_read _ _).bind fun _ _ => (safe_readOpt _ _).bind fun n _ => ?_
  obtain ⟨n, q⟩ := n
  cases n with
  | none => exact .ok _
  | some n => exact (safe_read _ _).bind fun _ _ => (safe_urisFuel _ _ (Nat.le_refl _)).bind fun _ _ => .ok _

theorem safe_points (s : Bytes) : Safe (distributionPoints s) := by
  unfold distributionPoints
  exact (safe_read _ _).bind fun _ _ => (safe_parseAll _ safe_readPoint
    (consumes_of (fun _ _ _ => readPoint_iff.mp) fun _ _ h => by obtain ⟨_, h, _⟩ := h; exact tlv_ne h) _).bind fun _ _ => .ok _

theorem safe_policies (s : Bytes) : Safe (policies s) := by
  unfold policies
  refine (safe_read _ _).bind fun _ _ => safe_parseAll _ (fun s => ?_)
    (consumes_of (fun _ _ _ => readPolicy_iff.mp) fun _ _ h => by obtain ⟨_, _, _, h⟩ := h; exact tlv_ne h) _
  unfold readPolicy
  exact (safe_read _ _).bind fun _ _ => (safe_readOID _).bind fun _ _ => .ok _

theorem safe_aia (s : Bytes) : Safe (authorityInfo s) := by
  unfold authorityInfo
  refine (safe_read _ _).bind fun _ _ => safe_parseAll _ (fun s => ?_)
    (consumes_of (fun _ _ _ => readAia_iff.mp) fun _ _ h => by obtain ⟨_, _, _, _, _, h⟩ := h; exact tlv_ne h) _
  unfold readAia
  exact (safe_read _ _).bind fun _ _ => (safe_readOID _).bind fun _ _ => (safe_readOpt _ _).bind fun _ _ => .ok _

theorem safe_process1 {lib : Lib} (hl : lib.Calm) (x : Extras) (e : Ext.Extension) : Safe (process1 lib x e) := by
  have h1 : ∀ v, Safe (keyUsage v) := fun v => by unfold keyUsage; exact (safe_readBits _).bind fun _ _ => .ok _
  have h2 : ∀ v, Safe (basicConstraints v) := fun v => by
    unfold basicConstraints
    exact (safe_read _ _).bind fun _ _ => (safe_optBool _).bind fun _ _ => (safe_optInt _).bind fun _ _ => .ok _
  have h3 : ∀ v, Safe (authorityKey v) := fun v => by
    unfold authorityKey; exact (safe_read _ _).bind fun _ _ => (safe_readOpt _ _).bind fun _ _ => .ok _
  have h4 : ∀ v, Safe (subjectKey v) := fun v => by unfold subjectKey; exact (safe_read _ _).bind fun _ _ => .ok _
  have ok : ∀ {α : Type} {g : Go α} {f : α → Extras}, Safe g → Safe (g >>= fun a => pure (f a)) := fun h => h.bind fun _ _ => .ok _
  unfold process1
  exact .ite (ok (h1 _)) (.ite (ok (h2 _)) (.ite (ok (hl.2 _ _)) (.ite (ok (hl.2 _ _)) (.ite (ok (safe_points _)) (.ite (ok (h3 _))
    (.ite (ok (hl.2 _ _)) (.ite (ok (h4 _)) (.ite (ok (safe_policies _)) (.ite (ok (safe_aia _)) (.ok _))))))))))

theorem safe_process {lib : Lib} (hl : lib.Calm) (l : List Ext.Extension) : ∀ x, Safe (process lib l x) := by
  induction l with
  | nil => intro x; exact .ok _
  | cons e l ih => intro x; unfold process; exact (safe_process1 hl x e).bind fun y _ => ih y

theorem safe_readVersion (s : Bytes) : Safe (readVersion s) := by
  unfold readVersion
  refine (safe_readOpt _ _).bind fun n _ => ?_
  obtain ⟨n, q⟩ := n
  cases n with
  | none => exact .ok _
  | some n => exact (safe_readInt _).bind fun _ _ => .ite (.err _) (.ok _)

theorem safe_readTail {lib : Lib} (hl : lib.Calm) (v : Int) (s : Bytes) : Safe (readTail lib v s) := by
  unfold readTail
  refine .ite ((safe_readOpt _ _).bind fun _ _ => (safe_readOpt _ _).bind fun _ _ =>
    .ite ((safe_readOpt _ _).bind fun n _ => ?_) (.ok _)) (.ok _)
  obtain ⟨n, q⟩ := n
  cases n with
  | none => exact .ok _
  | some n =>
    refine Safe.bind ?_ fun l _ => (safe_process hl l _).bind fun _ _ => .ok _
    unfold readExts
    exact (safe_read _ _).bind fun _ _ => (safe_parseAll _ safe_readExt
      (consumes_of (fun _ _ _ => readExt_iff.mp) fun _ _ h => by
        obtain ⟨_, _, _, _, _, _, _, h⟩ := h; exact tlv_ne h) _).bind fun _ _ => .ite (.ok _) (.err _)

theorem safe_parse {lib : Lib} (hl : lib.Calm) (data : Bytes) : Safe (parseCertificate lib data) := by
  unfold parseCertificate
  exact (safe_readPiece _).bind fun _ _ => .ite (.err _) ((safe_readPiece _).bind fun _ _ => .ite (.err _)
    ((safe_readVersion _).bind fun _ _ => .ite (.err _) (.ite (.err _) ((safe_readBig _).bind fun _ _ =>
    (safe_read _ _).bind fun _ _ => (safe_read _ _).bind fun _ _ => .ite (.err _) ((safe_parseAI _).bind fun _ _ =>
    (safe_readName _ _).bind fun _ _ => (safe_readValidity _).bind fun _ _ => (safe_readName _ _).bind fun _ _ =>
    (safe_readSpki hl _).bind fun _ _ => (safe_readTail hl _ _).bind fun _ _ => (safe_readBits _).bind fun _ _ =>
    .ite (.err _) (.ok _))))))

theorem safe_parseIPFamily (s : Bytes) : Safe (Ext.parseIPFamily s) := by
  unfold Ext.parseIPFamily
  exact (safe_parseTyped _ _ _).bind fun _ _ => (safe_parseOctets _).bind fun _ _ => (safe_parseAny _).bind fun _ _ => .ok _

theorem safe_unmarshalRaws (s : Bytes) : Safe (Ext.unmarshalRaws s) := by
  unfold Ext.unmarshalRaws
  exact (safe_parseTyped _ _ _).bind fun _ _ => safe_parseAll _ safe_parseAny consumes_parseAny _

theorem safe_parseBitString (s : Bytes) : Safe (Ext.parseBitString s) := by
  unfold Ext.parseBitString
  exact (safe_parseTyped _ _ _).bind fun _ _ => (safe_bitStringOf _).bind fun _ _ => .ok _

theorem safe_readAddrs (l : List Elem) : Safe (Ext.readAddrs l) := by
  induction l with
  | nil => exact .ok _
  | cons e l ih =>
    unfold Ext.readAddrs Ext.readAddr
    exact Safe.bind (.ite ((safe_parseBitString _).bind fun _ _ => .ok _) (.ite ((safe_parseTyped _ _ _).bind fun _ _ =>
      (safe_parseBitString _).bind fun _ _ => (safe_parseBitString _).bind fun _ _ => .ok _) (.ok _))) fun _ _ => ih.bind fun _ _ => .ok _

theorem safe_readFamilies (l : List (Bytes × Elem)) : Safe (Ext.readFamilies l) := by
  induction l with
  | nil => exact .ok _
  | cons e l ih =>
    unfold Ext.readFamilies Ext.readChoice
    exact Safe.bind (.ite (.ok _) (.ite ((safe_unmarshalRaws _).bind fun _ _ => (safe_readAddrs _).bind fun _ _ => .ok _) (.ok _)))
      fun _ _ => ih.bind fun _ _ => .ok _

theorem consumes_typed {α β : Type} {f : Bytes × Bytes → Go β} {g : Bytes × Bytes → β → α × Bytes}
    (hg : ∀ s b, (g s b).2 = s.2) : Consumes (fun bs => do
      let s ← parseTyped 16 true bs
      let b ← f s
      return g s b) := by
  intro bs r h
  simp only [] at h
  rw [Go.bind_eq_ok] at h
  obtain ⟨s, h1, h⟩ := h
  rw [Go.bind_eq_ok] at h
  obtain ⟨b, h2, h⟩ := h
  cases h
  rw [hg]
  have := parseTyped_rest (x := s.1) (rest := s.2) h1
  omega

theorem consumes_parseIPFamily : Consumes Ext.parseIPFamily := by
  have e : Ext.parseIPFamily = fun bs => do
      let s ← parseTyped 16 true bs
      let b ← (do
        let f ← parseOctets s.1
        let c ← parseAny f.2
        return ((f.1, c.1) : Bytes × Elem))
      return (b, s.2) := by
    funext bs
    unfold Ext.parseIPFamily
    cases parseTyped 16 true bs with
    | ok s =>
      simp only [Go.ok_bind]
      cases parseOctets s.1 with
      | ok f => simp only [Go.ok_bind]; cases parseAny f.2 <;> rfl
      | _ => rfl
    | _ => rfl
  rw [e]
  exact consumes_typed (g := fun s b => (b, s.2)) fun _ _ => rfl

theorem safe_decodeIPExt (s : Bytes) : Safe (Ext.decodeIPExt s) := by
  unfold Ext.decodeIPExt
  exact (safe_parseTyped _ _ _).bind fun _ _ => (safe_parseAll _ safe_parseIPFamily consumes_parseIPFamily _).bind fun _ _ =>
    (safe_readFamilies _).bind fun _ _ => .ok _

theorem safe_readASElems (l : List Elem) : Safe (Ext.readASElems l) := by
  induction l with
  | nil => exact .ok _
  | cons e l ih =>
    unfold Ext.readASElems Ext.readASElem
    exact Safe.bind (.ite ((safe_parseTyped _ _ _).bind fun _ _ => (safe_parseInt _).bind fun _ _ => (safe_parseInt _).bind fun _ _ => .ok _)
      (.ite ((safe_parseInt _).bind fun _ _ => .ok _) (.ok _))) fun _ _ => ih.bind fun _ _ => .ok _

theorem safe_decodeASExt (s : Bytes) : Safe (Ext.decodeASExt s) := by
  have h : ∀ e, Safe (Ext.readASField e) := fun e => by
    unfold Ext.readASField Ext.readASIdentifier
    exact .ite ((safe_parseAny _).bind fun _ _ => .ite (.ok _) (.ite ((safe_unmarshalRaws _).bind fun _ _ => safe_readASElems _) (.ok _))) (.ok _)
  unfold Ext.decodeASExt
  exact (safe_parseTyped _ _ _).bind fun _ _ => (safe_parseOptRaw _ _).bind fun _ _ => (safe_parseOptRaw _ _).bind fun _ _ =>
    (h _).bind fun _ _ => (h _).bind fun _ _ => .ok _

theorem safe_parseTaggedOctets (n : Nat) (s : Bytes) : Safe (Ext.parseTaggedOctets n s) := by
  unfold Ext.parseTaggedOctets
  exact .ite (.err _) ((safe_parseHeader _).bind fun _ _ => .ite (.err _) (.ite (.err _) (.ok _)))

theorem safe_decodeSIAExt (s : Bytes) : Safe (Ext.decodeSIAExt s) := by
  unfold Ext.decodeSIAExt
  refine (safe_parseTyped _ _ _).bind fun _ _ => safe_parseAll _ (fun s => ?_) ?_ _
  · unfold Ext.parseSIA
    exact (safe_parseTyped _ _ _).bind fun _ _ => (safe_parseOID _).bind fun _ _ => (safe_parseTaggedOctets _ _).bind fun _ _ => .ok _
  · intro bs r h
    unfold Ext.parseSIA at h
    rw [Go.bind_eq_ok] at h
    obtain ⟨s, h1, h⟩ := h
    rw [Go.bind_eq_ok] at h
    obtain ⟨_, _, h⟩ := h
    rw [Go.bind_eq_ok] at h
    obtain ⟨_, _, h⟩ := h
    cases h
    have := parseTyped_rest (x := s.1) (rest := s.2) h1
    simp only
    omega

theorem safe_extLoop {X : Type} (l : List Ext.Extension) : ∀ c : Ext.RCert X, Safe (Ext.extLoop l c) := by
  induction l with
  | nil => intro c; exact .ok _
  | cons e l ih =>
    intro c
    unfold Ext.extLoop
    exact .ite ((safe_decodeIPExt _).bind fun _ _ => ih _) (.ite ((safe_decodeASExt _).bind fun _ _ => ih _)
      (.ite ((safe_decodeSIAExt _).bind fun _ _ => ih _) (ih _)))

theorem safe_decode {lib : Lib} (hl : lib.Calm) (data : Bytes) : Safe (decodeCertificate lib data) := by
  unfold decodeCertificate Ext.decodeCertificate
  exact Safe.bind ((safe_parse hl data).bind fun _ _ => .ok _) fun _ _ => safe_extLoop _ _

/-! ### The signed octets say everything -/

theorem tbs_unique {lib : Lib} {c d : XCert} {alg alg' : Bytes} (h : TbsDer lib c alg) (h' : TbsDer lib d alg')
    (he : c.tbs = d.tbs) : alg = alg' ∧ c.version = d.version ∧ c.serial = d.serial ∧ c.sigAlg = d.sigAlg ∧
      c.issuer = d.issuer ∧ c.notBefore = d.notBefore ∧ c.notAfter = d.notAfter ∧ c.subject = d.subject ∧
      c.key = d.key ∧ c.exts = d.exts ∧ c.extras = d.extras := by
  obtain ⟨ev, es, ea, ei, ed, en, ek, rest, k3, k4, k7, k5, k8, k9, k10, k11, k12, k2⟩ := h
  obtain ⟨ev', es', ea', ei', ed', en', ek', rest', l3, l4, l7, l5, l8, l9, l10, l11, l12, l2⟩ := h'
  obtain ⟨-, e, -, -⟩ := tlv_inj (r := []) (r' := []) k2 l2 (by rw [he])
  simp only [List.append_assoc] at e
  have hs : ∀ {s : Int} {e t : Bytes}, Integer s e → (e ++ t).head? ≠ some 0xa0 := by
    rintro s e t ⟨_, _, h⟩
    rw [tlv_head h]
    decide
  have a := readVersion_complete k3 (hs (t := ea ++ (ei ++ (ed ++ (en ++ (ek ++ rest))))) k4)
  rw [e, readVersion_complete l3 (hs l4), Go.ok.injEq, Prod.mk.injEq] at a
  obtain ⟨a1, e⟩ := a
  have a := (readBig_iff (r := ea ++ (ei ++ (ed ++ (en ++ (ek ++ rest)))))).mpr ⟨es, k4, rfl⟩
  rw [← e, readBig_iff.mpr ⟨es', l4, rfl⟩, Go.ok.injEq, Prod.mk.injEq] at a
  obtain ⟨a2, e⟩ := a
  obtain ⟨-, a3, -, e⟩ := tlv_inj l5 k5 e
  subst a3
  have a := parseAI_iff.mpr k7
  rw [parseAI_iff.mpr l7, Go.ok.injEq] at a
  have a4 : d.sigAlg = c.sigAlg := a
  have a := (readName_iff (r := ed ++ (en ++ (ek ++ rest)))).mpr ⟨ei, k8, rfl⟩
  rw [← e, readName_iff.mpr ⟨ei', l8, rfl⟩, Go.ok.injEq, Prod.mk.injEq] at a
  obtain ⟨a5, e⟩ := a
  have a := (readValidity_iff (r := en ++ (ek ++ rest))).mpr ⟨ed, k9, rfl⟩
  rw [← e, readValidity_iff.mpr ⟨ed', l9, rfl⟩, Go.ok.injEq, Prod.mk.injEq, Prod.mk.injEq] at a
  obtain ⟨⟨a6, a7⟩, e⟩ := a
  have a := (readName_iff (r := ek ++ rest)).mpr ⟨en, k10, rfl⟩
  rw [← e, readName_iff.mpr ⟨en', l10, rfl⟩, Go.ok.injEq, Prod.mk.injEq] at a
  obtain ⟨a8, e⟩ := a
  have a := (readSpki_iff (r := rest)).mpr ⟨ek, k11, rfl⟩
  rw [← e, readSpki_iff.mpr ⟨ek', l11, rfl⟩, Go.ok.injEq, Prod.mk.injEq] at a
  obtain ⟨a9, e⟩ := a
  have a := (readTail_iff k3.1).mpr k12
  rw [← e, ← a1, (readTail_iff l3.1).mpr l12, Go.ok.injEq, Prod.mk.injEq] at a
  exact ⟨rfl, a1.symm, a2.symm, a4.symm, a5.symm, a6.symm, a7.symm, a8.symm, a9.symm, a.1.symm, a.2.symm⟩

end Verif.X509
