import Verif.Model.ErrText
import Verif.Lemmas.NetText
import Verif.Lemmas.PkiInv
import Verif.Lemmas.OutputSign
import Verif.Lemmas.Output
/-
  Lemmas about the texts of errors.
-/
set_option autoImplicit false

namespace Verif.ErrText
open Net Cert Roa Pki Manager

/-! ### The checks with and without their errors -/

/-- No error of another kind. -/
def NoErr {α : Type} (x : Go α) : Prop := ∀ m, x ≠ .err m

theorem NoErr.bind {α β : Type} {x : Go α} {f : α → Go β} (hx : NoErr x) (hf : ∀ a, NoErr (f a)) : NoErr (x.bind f) := by
  intro m
  cases x with
  | ok a => exact hf a m
  | err k => exact absurd rfl (hx k)
  | panic => simp [Go.bind]
  | diverge => simp [Go.bind]

theorem noErr_ok {α : Type} (a : α) : NoErr (Go.ok a) := by intro m h; cases h

theorem noErr_inRange (e : IPInfo) (ip : Bytes) : NoErr (e.isIPInRange ip) := by
  intro m
  unfold IPInfo.isIPInRange
  split
  · simp
  · simp
  · split <;> simp
  · split
    · simp
    · split <;> simp

theorem noErr_range (e : IPInfo) : NoErr e.getRange := by
  intro m
  unfold IPInfo.getRange
  split
  · unfold getRangeIP
    split <;> rename_i h <;> split at h <;> simp_all
  · simp
  · simp

theorem noErr_inCert : ∀ (ips : List IPInfo) (a b : Bytes), NoErr (isIPRangeInCertificate ips a b)
  | [], _, _ => noErr_ok _
  | e :: r, a, b => by
    unfold isIPRangeInCertificate
    refine NoErr.bind (noErr_inRange _ _) fun x => NoErr.bind (noErr_inRange _ _) fun y => ?_
    split
    · exact noErr_ok _
    · split
      · exact noErr_ok _
      · exact noErr_inCert r a b

theorem noErr_classify (p : List IPInfo) (e : IPInfo) : NoErr (classifyIP p e) := by
  unfold classifyIP
  refine NoErr.bind (noErr_range _) fun x => ?_
  split
  · exact noErr_ok _
  · refine NoErr.bind (noErr_inCert _ _ _) fun y => ?_
    split
    · exact noErr_ok _
    · split <;> exact noErr_ok _

theorem noErr_split {α : Type} {cl : α → Go Verdict} (h : ∀ a, NoErr (cl a)) : ∀ (l : List α) (s : Split α), NoErr (splitFrom cl s l)
  | [], _ => noErr_ok _
  | a :: r, s => by
    unfold splitFrom
    exact NoErr.bind (h a) fun v => noErr_split h r _

/-- The result with marks and the result with errors say the same. -/
inductive Agree {α : Type} : Go α → Go (Except CertErr α) → Prop where
  | ok (a : α) : Agree (.ok a) (.ok (.ok a))
  | err (m : String) (e : CertErr) (h : kindOfText m = e.etype) : Agree (.err m) (.ok (.error e))
  | panic : Agree .panic .panic
  | diverge : Agree .diverge .diverge

theorem chainLoop_agree {α : Type} {v : V} {c pc : Pki.Cert} {missing : Bytes} {split : List α → Pki.Cert → Go (Split α)} (hs : ∀ l u, NoErr (split l u)) :
    ∀ (n : Nat) (ch : Option Nat) (s : Split α), Agree (chainLoop v pc split n ch s) (chainLoopE v c pc missing split n ch s)
  | 0, _, _ => .diverge
  | n + 1, none, s => .ok s
  | n + 1, some i, s => by
    unfold chainLoop chainLoopE
    split
    · exact .ok s
    · cases hu : v.validObjects.get pc.aki with
      | none => exact Agree.err "parent: ancestor is missing" (newParent c (some pc) (asc "ancestor ".toList ++ hexString pc.aki ++ missing)) rfl
      | some u =>
        dsimp only
        cases hg : v.certOf u with
        | none =>
          exact Agree.err "parent: ancestor is not a rpki certificate"
            (newParent c (some pc) (asc "ancestor ".toList ++ hexString pc.aki ++ asc " is not a rpki certificate".toList)) rfl
        | some g =>
          dsimp only
          cases h : split s.checkParents g with
          | ok t => exact chainLoop_agree hs n _ _
          | err m => exact absurd h (hs _ _ m)
          | panic => exact .panic
          | diverge => exact .diverge

/-- The type of the error, where `Model/Pki` has a mark. -/
def marked (x : Go Unit) : Go (Option Kind) := do
  let e ← errOf x
  return e.map kindOfText

/-- The type of the error. -/
def typed (x : Go (Option CertErr)) : Go (Option Kind) := do
  let e ← x
  return e.map CertErr.etype

theorem resources_same (v : V) (cert pc : Pki.Cert) (p : Nat) :
    marked (do
      let ips ← validateIPCertificateList cert.ips pc.ips
      let ips ← chainLoop v pc (fun l c => validateIPCertificateList l c.ips) (v.heap.length + 1) (v.parentOf p) ips
      let asns ← validateASNCertificateList cert.asns pc.asns
      let asns ← chainLoop v pc (fun l c => validateASNCertificateList l c.asns) (v.heap.length + 1) (v.parentOf p) asns
      if ips.invalids.length > 0 ∨ asns.invalids.length > 0 then .err "resource" else .ok ()) =
    typed (V.resourcesE v cert pc p) := by
  unfold V.resourcesE
  have n1 := noErr_split (cl := classifyIP pc.ips) (fun a => noErr_classify _ a) cert.ips ⟨[], [], []⟩
  cases h1 : validateIPCertificateList cert.ips pc.ips with
  | err m => exact absurd h1 (n1 m)
  | panic => rfl
  | diverge => rfl
  | ok s =>
    show marked (Go.bind (chainLoop _ _ _ _ _ _) _) = typed (Go.bind (chainLoopE _ _ _ _ _ _ _ _) _)
    have a1 := chainLoop_agree (v := v) (c := cert) (pc := pc) (missing := asc " is missing".toList) (split := fun l c => validateIPCertificateList l c.ips)
      (fun l u => noErr_split (fun a => noErr_classify _ a) l _) (v.heap.length + 1) (v.parentOf p) s
    generalize chainLoop v pc (fun l c => validateIPCertificateList l c.ips) (v.heap.length + 1) (v.parentOf p) s = x1 at a1 ⊢
    generalize chainLoopE v cert pc (asc " is missing".toList) (fun l c => validateIPCertificateList l c.ips) (v.heap.length + 1) (v.parentOf p) s = y1 at a1 ⊢
    cases a1 with
    | err m e h => show Go.ok (some (kindOfText m)) = Go.ok (some e.etype); rw [h]
    | panic => rfl
    | diverge => rfl
    | ok ips =>
      obtain ⟨t, h2⟩ := splitFrom_total (cl := fun a => .ok (classifyAS pc.asns a)) (l := cert.asns) ⟨[], [], []⟩ (fun a _ => ⟨_, rfl⟩)
      show marked (Go.bind (validateASNCertificateList _ _) _) = typed (Go.bind (validateASNCertificateList _ _) _)
      have h2' : validateASNCertificateList cert.asns pc.asns = .ok t := h2
      rw [h2']
      show marked (Go.bind (chainLoop _ _ _ _ _ _) _) = typed (Go.bind (chainLoopE _ _ _ _ _ _ _ _) _)
      have a2 := chainLoop_agree (v := v) (c := cert) (pc := pc) (missing := asc " is not valid".toList) (split := fun l c => validateASNCertificateList l c.asns)
        (fun l u => noErr_split (fun a => noErr_ok _) l _) (v.heap.length + 1) (v.parentOf p) t
      generalize chainLoop v pc (fun l c => validateASNCertificateList l c.asns) (v.heap.length + 1) (v.parentOf p) t = x2 at a2 ⊢
      generalize chainLoopE v cert pc (asc " is not valid".toList) (fun l c => validateASNCertificateList l c.asns) (v.heap.length + 1) (v.parentOf p) t = y2 at a2 ⊢
      cases a2 with
      | err m e h => show Go.ok (some (kindOfText m)) = Go.ok (some e.etype); rw [h]
      | panic => rfl
      | diverge => rfl
      | ok asns =>
        show marked (if _ then _ else _) = typed (Go.ok (if _ then _ else _))
        by_cases hc : ips.invalids.length > 0 ∨ asns.invalids.length > 0
        · rw [if_pos hc, if_pos hc]; rfl
        · rw [if_neg hc, if_neg hc]; rfl

theorem timeText_none {tx : Texts} {a b n : Int} : timeText tx a b n = none ↔ validateTime a b n = .ok () := by
  unfold timeText validateTime
  split
  · simp
  · split <;> simp

theorem validateCertificate_same (tx : Texts) (env : Env) (v : V) (cert : Pki.Cert) (trust : Bool) :
    marked (v.validateCertificate env cert trust) = typed (V.validateCertificateE tx env v cert trust) := by
  unfold V.validateCertificate V.validateCertificateE
  cases ht : timeText tx cert.notBefore cert.notAfter env.now with
  | some t =>
    have : validateTime cert.notBefore cert.notAfter env.now ≠ .ok () := fun h => by rw [timeText_none.mpr h] at ht; cases ht
    split
    · contradiction
    · rfl
  | none =>
    rw [timeText_none.mp ht]
    dsimp only
    split
    · rfl
    · cases hu : v.validObjects.get cert.aki with
      | none => rfl
      | some p =>
        dsimp only
        cases hg : v.certOf p with
        | none => rfl
        | some pc =>
          dsimp only
          split
          · rfl
          · split
            · rfl
            · exact resources_same _ _ _ _

/-! ### The resources that are listed -/

/-- The entries that the climb through inheriting issuers puts aside. -/
theorem chainLoopE_lists {α : Type} {v : V} {c pc : Pki.Cert} {missing : Bytes} {cl : Pki.Cert → α → Go Verdict} :
    ∀ (n : Nat) (ch : Option Nat) (s t : Split α),
    chainLoopE v c pc missing (fun l u => splitFrom (cl u) ⟨[], [], []⟩ l) n ch s = .ok (.ok t) →
    ∀ e, e ∈ t.invalids ↔ e ∈ s.invalids ∨ (e ∈ s.checkParents ∧ ch ≠ none ∧ ∃ u g, v.validObjects.get pc.aki = some u ∧ v.certOf u = some g ∧ cl g e = .ok .invalid)
  | 0, _, _, _, h => by simp [chainLoopE] at h
  | n + 1, none, s, t, h => by
    simp only [chainLoopE, Go.ok.injEq, Except.ok.injEq] at h
    subst h; simp
  | n + 1, some i, s, t, h => by
    intro e
    unfold chainLoopE at h
    split at h
    · rename_i he
      simp only [Go.ok.injEq, Except.ok.injEq] at h
      subst h
      rw [List.isEmpty_iff] at he
      simp [he]
    · split at h
      · simp at h
      · rename_i u hu
        split at h
        · simp at h
        · rename_i g hg
          obtain ⟨r, hr, h⟩ := Go.bind_eq_ok.mp h
          obtain ⟨-, -, g2, g3⟩ := splitFrom_filter hr
          rw [chainLoopE_lists n _ _ _ h e]
          simp only [List.nil_append] at g2 g3
          simp only [List.mem_append, g2, g3, List.mem_filter, decide_eq_true_eq]
          constructor
          · rintro ((h | h) | ⟨h, -, u', g', hu', hg', h'⟩)
            · exact .inl h
            · exact .inr ⟨h.1, by simp, u, g, hu, hg, h.2⟩
            · rw [hu] at hu'; cases hu'
              rw [hg] at hg'; cases hg'
              rw [h.2] at h'; cases h'
          · rintro (h | ⟨h, -, u', g', hu', hg', h'⟩)
            · exact .inl (.inl h)
            · rw [hu] at hu'; cases hu'
              rw [hg] at hg'; cases hg'
              exact .inl (.inr ⟨h, h'⟩)

theorem chainLoopE_parent {α : Type} {v : V} {c pc : Pki.Cert} {missing : Bytes} {split : List α → Pki.Cert → Go (Split α)} :
    ∀ (n : Nat) (ch : Option Nat) (s : Split α) (e : CertErr), chainLoopE v c pc missing split n ch s = .ok (.error e) →
    ∃ t, e = newParent c (some pc) t ∧ ∀ u, v.validObjects.get pc.aki = some u → v.certOf u = none
  | 0, _, _, _, h => by simp [chainLoopE] at h
  | n + 1, none, s, e, h => by simp [chainLoopE] at h
  | n + 1, some i, s, e, h => by
    unfold chainLoopE at h
    split at h
    · simp at h
    · split at h
      · rename_i hu
        simp only [Go.ok.injEq, Except.error.injEq] at h
        exact ⟨_, h.symm, fun u h' => by rw [hu] at h'; cases h'⟩
      · rename_i u hu
        split at h
        · rename_i hg
          simp only [Go.ok.injEq, Except.error.injEq] at h
          exact ⟨_, h.symm, fun u' h' => by rw [hu] at h'; cases h'; exact hg⟩
        · obtain ⟨r, -, h⟩ := Go.bind_eq_ok.mp h
          exact chainLoopE_parent n _ _ _ h

/-! ### Texts -/

theorem digitChar_inj : ∀ a, a < 16 → ∀ b, b < 16 → digitChar a = digitChar b → a = b := by decide +kernel

theorem digitChar_hex : ∀ a, a < 16 → digitChar a ≠ 32 ∧ digitChar a ≠ 58 ∧ digitChar a ≠ 44 ∧ digitChar a ≠ 93 ∧ digitChar a ≠ 41 ∧ digitChar a ≠ 60 ∧ digitChar a ≠ 77 ∧ digitChar a ≠ 78 := by decide +kernel

theorem hexString_inj {a b : Bytes} (h : hexString a = hexString b) : a = b := by
  have := Out.hexDecode_hexString a
  rw [h, Out.hexDecode_hexString] at this
  exact (Go.ok.inj this).symm

theorem hexString_all {P : UInt8 → Prop} (hP : ∀ d, d < 16 → P (digitChar d)) (b : Bytes) : ∀ c ∈ hexString b, P c := by
  intro c hc
  obtain ⟨x, -, hx⟩ := List.mem_flatMap.mp hc
  have hx' := x.toNat_lt
  simp only [List.mem_cons, List.not_mem_nil, or_false] at hx
  rcases hx with rfl | rfl
  · exact hP _ (by omega)
  · exact hP _ (Nat.mod_lt _ (by decide))

/-- A text ends where a character stands that it does not have. -/
theorem cut_at {p : UInt8 → Prop} : ∀ {a b ra rb : Bytes}, (∀ c ∈ a, p c) → (∀ c ∈ b, p c) → (∀ c, ra.head? = some c → ¬ p c) → (∀ c, rb.head? = some c → ¬ p c) →
    a ++ ra = b ++ rb → a = b ∧ ra = rb
  | [], [], _, _, _, _, _, _, h => ⟨rfl, h⟩
  | [], y :: b, ra, rb, _, hb, hra, _, h => by
    rw [List.nil_append] at h
    exact absurd (hb y (by simp)) (hra y (by rw [h]; rfl))
  | x :: a, [], ra, rb, ha, _, _, hrb, h => by
    rw [List.nil_append] at h
    exact absurd (ha x (by simp)) (hrb x (by rw [← h]; rfl))
  | x :: a, y :: b, ra, rb, ha, hb, hra, hrb, h => by
    simp only [List.cons_append, List.cons.injEq] at h
    obtain ⟨rfl, h⟩ := h
    obtain ⟨rfl, h2⟩ := cut_at (fun c hc => ha c (by simp [hc])) (fun c hc => hb c (by simp [hc])) hra hrb h
    exact ⟨rfl, h2⟩


/-- The characters of addresses and numbers: no blank, comma, bracket, nor the first letter of another form. -/
def Plain (c : UInt8) : Prop := c ≠ 32 ∧ c ≠ 44 ∧ c ≠ 93 ∧ c ≠ 41 ∧ c ≠ 77 ∧ c ≠ 78

theorem digitChar_plain : ∀ d, d < 16 → Plain (digitChar d) := by unfold Plain; decide +kernel

theorem plain_const (l : Bytes) (h : ∀ c ∈ l, c ≠ 32 ∧ c ≠ 44 ∧ c ≠ 93 ∧ c ≠ 41 ∧ c ≠ 77 ∧ c ≠ 78) : ∀ c ∈ l, Plain c := h

theorem numText_plain {b n : Nat} (hb : b = 10 ∨ b = 16) : ∀ c ∈ numText b n, Plain c := by
  intro c hc
  obtain ⟨d, hd, rfl⟩ := digits_all hb _ _ c hc
  exact digitChar_plain d (by rcases hb with rfl | rfl <;> omega)

theorem hexGroups_plain (gs : List Nat) : ∀ c ∈ joinWith [58] (gs.map (numText 16)), Plain c := by
  refine joinWith_all (P := Plain) (plain_const [58] (by decide)) _ ?_
  intro x hx c hc
  obtain ⟨g, _, rfl⟩ := List.mem_map.mp hx
  exact numText_plain (.inr rfl) c hc

theorem ipString_plain (ip : Bytes) : ∀ c ∈ ipString ip, Plain c := by
  unfold ipString
  split
  · exact plain_const nilText (by decide)
  · split
    · refine joinWith_all (P := Plain) (plain_const [46] (by decide)) _ ?_
      intro x hx c hc
      obtain ⟨g, _, rfl⟩ := List.mem_map.mp hx
      exact numText_plain (.inl rfl) c hc
    · split
      · intro c hc
        rcases List.mem_cons.mp hc with rfl | hc
        · unfold Plain; decide
        · exact hexString_all digitChar_plain _ c hc
      · unfold ipv6Text
        dsimp only
        split
        · exact hexGroups_plain _
        · intro c hc
          simp only [List.mem_append] at hc
          rcases hc with (hc | hc) | hc
          · exact hexGroups_plain _ c hc
          · exact plain_const [58, 58] (by decide) c hc
          · exact hexGroups_plain _ c hc

theorem ipNetString_plain (n : IPNet) : ∀ c ∈ ipNetString n, Plain c := by
  unfold ipNetString
  dsimp only
  split
  · exact plain_const nilText (by decide)
  · split <;> intro c hc <;> simp only [List.mem_append] at hc <;> rcases hc with (hc | hc) | hc
    · exact ipString_plain _ c hc
    · exact plain_const [47] (by decide) c hc
    · unfold maskString at hc
      split at hc
      · exact plain_const nilText (by decide) c hc
      · exact hexString_all digitChar_plain _ c hc
    · exact ipString_plain _ c hc
    · exact plain_const [47] (by decide) c hc
    · exact numText_plain (.inl rfl) c hc

theorem natDec_digit : ∀ (f n : Nat), ∀ c ∈ natDecAux f n, Plain c := by
  intro f
  induction f with
  | zero => intro n c hc; simp [natDecAux] at hc
  | succ f ih =>
    intro n c hc
    have hd : ∀ d, d < 10 → Plain (digit d) := by unfold Plain; decide +kernel
    unfold natDecAux at hc
    split at hc
    · simp only [List.mem_singleton] at hc
      subst hc; exact hd _ (by omega)
    · simp only [List.mem_append, List.mem_singleton] at hc
      rcases hc with hc | rfl
      · exact ih _ _ hc
      · exact hd _ (Nat.mod_lt _ (by decide))

theorem natDec_plain (n : Nat) : ∀ c ∈ natDec n, Plain c := natDec_digit _ _

theorem dec_plain (i : Int) : ∀ c ∈ dec i, Plain c := by
  unfold dec
  split
  · intro c hc
    rcases List.mem_cons.mp hc with rfl | hc
    · unfold Plain; decide
    · exact natDec_plain _ c hc
  · exact natDec_plain _

/-- No comma and no closing bracket. -/
def Loose (c : UInt8) : Prop := c ≠ 44 ∧ c ≠ 93

theorem Plain.loose {c : UInt8} (h : Plain c) : Loose c := ⟨h.2.1, h.2.2.1⟩

theorem loose_asc (l : Bytes) (h : ∀ c ∈ l, c ≠ 44 ∧ c ≠ 93) : ∀ c ∈ l, Loose c := h

theorem loose_append {a b : Bytes} (ha : ∀ c ∈ a, Loose c) (hb : ∀ c ∈ b, Loose c) : ∀ c ∈ a ++ b, Loose c := by
  intro c hc
  rcases List.mem_append.mp hc with hc | hc
  · exact ha c hc
  · exact hb c hc

theorem ipInfoText_loose (e : IPInfo) : ∀ c ∈ ipInfoText e, Loose c := by
  cases e with
  | net n =>
    cases n with
    | none => exact loose_asc nilText (by decide)
    | some n => exact fun c hc => (ipNetString_plain n c hc).loose
  | range a b =>
    exact loose_append (loose_append (loose_append (loose_asc _ (by decide +kernel)) fun c hc => (ipString_plain a c hc).loose) (loose_asc _ (by decide +kernel)))
      fun c hc => (ipString_plain b c hc).loose
  | null f => exact loose_append (loose_asc _ (by decide +kernel)) fun c hc => (natDec_plain _ c hc).loose

theorem asInfoText_loose (e : ASInfo) : ∀ c ∈ asInfoText e, Loose c := by
  cases e with
  | asn a => exact fun c hc => (dec_plain a c hc).loose
  | range a b =>
    exact loose_append (loose_append (loose_append (loose_asc _ (by decide +kernel)) fun c hc => (dec_plain a c hc).loose) (loose_asc _ (by decide +kernel)))
      fun c hc => (dec_plain b c hc).loose
  | null => exact loose_asc _ (by decide +kernel)

/-- A list of texts without commas is read off the text of the list. -/
theorem join_inj : ∀ {a b : List Bytes}, a ≠ [] → b ≠ [] → (∀ t ∈ a, ∀ c ∈ t, Loose c) → (∀ t ∈ b, ∀ c ∈ t, Loose c) →
    joinWith (asc ", ".toList) a = joinWith (asc ", ".toList) b → a = b
  | [], _, h, _, _, _, _ => absurd rfl h
  | _, [], _, h, _, _, _ => absurd rfl h
  | [x], [y], _, _, _, _, h => by rw [joinWith, joinWith] at h; rw [h]
  | [x], y :: z :: b, _, _, ha, _, h => by
    rw [joinWith, joinWith] at h
    have : (44 : UInt8) ∈ x := by rw [h]; simp [asc]
    exact absurd rfl (ha x (by simp) _ this).1
  | x :: z :: a, [y], _, _, _, hb, h => by
    rw [joinWith, joinWith] at h
    have : (44 : UInt8) ∈ y := by rw [← h]; simp [asc]
    exact absurd rfl (hb y (by simp) _ this).1
  | x :: x' :: a, y :: y' :: b, _, _, ha, hb, h => by
    rw [joinWith, joinWith, List.append_assoc, List.append_assoc] at h
    obtain ⟨rfl, h2⟩ := cut_at (p := Loose) (ha x (by simp)) (hb y (by simp))
      (fun c hc hl => hl.1 (by simpa [asc] using hc.symm)) (fun c hc hl => hl.1 (by simpa [asc] using hc.symm)) h
    have h3 := List.append_cancel_left h2
    rw [join_inj (List.cons_ne_nil _ _) (List.cons_ne_nil _ _) (fun t ht => ha t (by simp [ht])) (fun t ht => hb t (by simp [ht])) h3]

/-- The part of a text that lists resources, with anything after it that does not begin like another list of the same kind. -/
theorem listPart_inj {hd : Bytes} {a b : List Bytes} {ra rb : Bytes} (ha : ∀ t ∈ a, ∀ c ∈ t, Loose c) (hb : ∀ t ∈ b, ∀ c ∈ t, Loose c)
    (hra : ∀ x, ra ≠ hd ++ x) (hrb : ∀ x, rb ≠ hd ++ x) (h : listPart hd a ++ ra = listPart hd b ++ rb) : a = b ∧ ra = rb := by
  unfold listPart at h
  by_cases h1 : a.length > 0
  · by_cases h2 : b.length > 0
    · rw [if_pos h1, if_pos h2] at h
      simp only [List.append_assoc] at h
      have h := List.append_cancel_left h
      obtain ⟨-, h⟩ := cut_at (p := Plain) (natDec_plain _) (natDec_plain _) (fun c hc hl => hl.2.2.2.1 (by simpa [asc] using hc.symm))
        (fun c hc hl => hl.2.2.2.1 (by simpa [asc] using hc.symm)) h
      have h := List.append_cancel_left h
      have hl : ∀ {x : List Bytes}, (∀ t ∈ x, ∀ c ∈ t, Loose c) → ∀ c ∈ joinWith (asc ", ".toList) x, c ≠ 93 := fun hx =>
        joinWith_all (P := fun c => c ≠ 93) (by decide +kernel) _ (fun t ht c hc => (hx t ht c hc).2)
      obtain ⟨h, h'⟩ := cut_at (p := fun c => c ≠ 93) (hl ha) (hl hb) (fun c hc hl => hl (by simpa [asc] using hc.symm))
        (fun c hc hl => hl (by simpa [asc] using hc.symm)) h
      exact ⟨join_inj (fun e => by simp [e] at h1) (fun e => by simp [e] at h2) ha hb h, List.append_cancel_left h'⟩
    · rw [if_pos h1, if_neg h2, List.nil_append] at h
      simp only [List.append_assoc] at h
      exact absurd h.symm (hrb _)
  · by_cases h2 : b.length > 0
    · rw [if_neg h1, if_pos h2, List.nil_append] at h
      simp only [List.append_assoc] at h
      exact absurd h (hra _)
    · rw [if_neg h1, if_neg h2] at h
      have e1 : a = [] := List.length_eq_zero_iff.mp (by omega)
      have e2 : b = [] := List.length_eq_zero_iff.mp (by omega)
      exact ⟨by rw [e1, e2], h⟩

theorem asInfoText_inj {a b : ASInfo} (h : asInfoText a = asInfoText b) : a = b := by
  have hM : ∀ (x : Int) (r : Bytes), dec x ≠ 77 :: r := fun x r e => (dec_plain x 77 (by rw [e]; simp)).2.2.2.2.1 rfl
  have hN : ∀ (x : Int) (r : Bytes), dec x ≠ 78 :: r := fun x r e => (dec_plain x 78 (by rw [e]; simp)).2.2.2.2.2 rfl
  cases a with
  | asn x =>
    cases b with
    | asn y => rw [dec_inj h]
    | range y z => exact absurd h (hM _ _)
    | null => exact absurd h (hN _ _)
  | null =>
    cases b with
    | asn y => exact absurd h.symm (hN _ _)
    | range y z => simp [asInfoText, asc] at h
    | null => rfl
  | range x x' =>
    cases b with
    | asn y => exact absurd h.symm (hM _ _)
    | null => simp [asInfoText, asc] at h
    | range y y' =>
      simp only [asInfoText, List.append_assoc] at h
      have h := List.append_cancel_left h
      obtain ⟨e1, h⟩ := cut_at (p := Plain) (dec_plain x) (dec_plain y) (fun c hc hl => hl.1 (by simpa [asc] using hc.symm))
        (fun c hc hl => hl.1 (by simpa [asc] using hc.symm)) h
      rw [dec_inj e1, dec_inj (List.append_cancel_left h)]

theorem map_inj_of {α β : Type} {f : α → β} : ∀ {a b : List α}, (∀ x ∈ a, ∀ y ∈ b, f x = f y → x = y) → a.map f = b.map f → a = b
  | [], [], _, _ => rfl
  | [], _ :: _, _, h => by simp at h
  | _ :: _, [], _, h => by simp at h
  | x :: a, y :: b, hf, h => by
    simp only [List.map_cons, List.cons.injEq] at h
    rw [hf x (by simp) y (by simp) h.1, map_inj_of (fun x hx y hy => hf x (by simp [hx]) y (by simp [hy])) h.2]

end Verif.ErrText
