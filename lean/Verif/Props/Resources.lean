import Verif.Lemmas.CertBlock
/-
  Property theorems for Internet number resources: C05 - C14.
-/
set_option autoImplicit false

namespace Verif.Props
open BerSpec Net Cert ResSpec

/-- 10.0.0.0/8, used in the examples. -/
def net10 : IPInfo := .net (some ⟨[10, 0, 0, 0], [255, 0, 0, 0]⟩)
/-- 10.1.0.0/16 -/
def net10_1 : IPInfo := .net (some ⟨[10, 1, 0, 0], [255, 255, 0, 0]⟩)
/-- 2001:db8::/32 -/
def net2001 : IPInfo :=
  .net (some ⟨[0x20, 0x01, 0x0d, 0xb8, 0, 0, 0, 0, 0, 0, 0, 0, 0, 0, 0, 0],
    [255, 255, 255, 255, 0, 0, 0, 0, 0, 0, 0, 0, 0, 0, 0, 0]⟩)

theorem proper_net10 : ProperNet ⟨[10, 0, 0, 0], [255, 0, 0, 0]⟩ :=
  ⟨rfl, .inl rfl, 8, by simp [IsMask, beVal]⟩
theorem proper_net10_1 : ProperNet ⟨[10, 1, 0, 0], [255, 255, 0, 0]⟩ :=
  ⟨rfl, .inl rfl, 16, by simp [IsMask, beVal]⟩
theorem proper_net2001 : ProperNet
    ⟨[0x20, 0x01, 0x0d, 0xb8, 0, 0, 0, 0, 0, 0, 0, 0, 0, 0, 0, 0],
    [255, 255, 255, 255, 0, 0, 0, 0, 0, 0, 0, 0, 0, 0, 0, 0]⟩ :=
  ⟨rfl, .inr rfl, 32, by simp [IsMask, beVal]⟩

/-! ## C05 — IP containment is sound -/

/-- **C05.** If a certificate says that the range from `min` to `max` is in its resources, then a
    single entry of the certificate stands for every address from `min` to `max`. -/
theorem C05_range_sound (ips : List IPInfo) (hw : ∀ e ∈ ips, WfEntry e) (min max : Bytes) (c : Bool)
    (hmin : min.length = 4 ∨ min.length = 16) (hmax : max.length = 4 ∨ max.length = 16)
    (h : isIPRangeInCertificate ips min max = .ok (true, c)) :
    ∃ e ∈ ips, ∀ x, addrNum min ≤ x → x ≤ addrNum max → Denotes e x :=
  isIPRange_sound hw hmin hmax h

theorem classifyIP_valid {parent : List IPInfo} {e : IPInfo} {lo hi : Bytes}
    (hr : e.getRange = .ok (lo, hi, false)) {v : Verdict} (h : classifyIP parent e = .ok v) :
    (v = .valid ∧ isIPRangeInCertificate parent lo hi = .ok (true, false)) ∨
    (v = .checkParent ∧ isIPRangeInCertificate parent lo hi = .ok (false, true)) ∨
    (v = .invalid ∧ isIPRangeInCertificate parent lo hi = .ok (false, false)) := by
  unfold classifyIP at h
  rw [hr, Go.ok_bind] at h
  simp only [Bool.false_eq_true, if_false] at h
  obtain ⟨r, hr', h⟩ := Go.bind_eq_ok.mp h
  have key : ∀ (ips : List IPInfo), isIPRangeInCertificate ips lo hi = .ok r →
      r = (true, false) ∨ r = (false, true) ∨ r = (false, false) := by
    intro ips
    induction ips with
    | nil => intro h; simp [isIPRangeInCertificate] at h; simp [← h]
    | cons e rest ih =>
      intro h
      obtain ⟨_, _, _, _, h | h | h⟩ := isIPRange_cons h
      · exact .inl h.2.2
      · exact .inr (.inl h.2.2)
      · exact ih h.2.2
  rcases key _ hr' with rfl | rfl | rfl <;> simp at h <;> simp [← h, hr']

/-- **C05, as used on child certificates.** A child resource listed as valid against a parent only
    stands for addresses that one single parent entry stands for. -/
theorem C05_validated_sound (list parent : List IPInfo) (hw : ∀ e ∈ parent, WfEntry e)
    (s : Split IPInfo) (h : validateIPCertificateList list parent = .ok s)
    (c : IPInfo) (hc : c ∈ s.valids) (hp : ProperEntry c) :
    ∃ e ∈ parent, ∀ x, Denotes c x → Denotes e x := by
  obtain ⟨_, hv, _, _⟩ := splitFrom_filter h
  rw [hv] at hc
  simp at hc
  obtain ⟨lo, hi, hr, hl, hf, hd⟩ := getRange_proper hp
  rcases classifyIP_valid hr hc.2 with h' | h' | h'
  · obtain ⟨e, he, hx⟩ := isIPRange_sound hw hf (by omega) h'.2
    exact ⟨e, he, fun x hx' => hx x ((hd x).mp hx').1 ((hd x).mp hx').2⟩
  · simp at h'
  · simp at h'

/-- Entries produced by the decoder for a known family meet the hypothesis of `C05`. -/
theorem C05_decoded_wf (blk : List AddrFamily)
    (h : ∀ f ∈ blk, f.choice = .inherit ∨ ∃ size, IsFamily f.addressFamily size) :
    ∀ e ∈ decodeIPAddressBlock blk, WfEntry e := by
  intro e he
  simp only [decodeIPAddressBlock, List.mem_flatMap] at he
  obtain ⟨f, hf, he⟩ := he
  unfold decodeFamily at he
  split at he
  · split at he <;> simp at he <;> subst he <;> trivial
  · rename_i l hl
    simp only [List.mem_map] at he
    obtain ⟨a, _, rfl⟩ := he
    rcases h f hf with h' | ⟨size, h'⟩
    · rw [hl] at h'; simp at h'
    · exact decodeAddrOrRange_wf h' a

/-- Byte length of the addresses of an entry. -/
def entryLen : IPInfo → Nat
  | .net (some n) => n.ip.length
  | .range min _ => min.length
  | _ => 0

/-- The network address of an entry is not IPv4-mapped. -/
def PlainEntry : IPInfo → Prop
  | .net (some n) => ¬ Mapped n.ip
  | _ => True

theorem isIPInRange_complete {e : IPInfo} (hp : ProperEntry e) (hpl : PlainEntry e) {a : Bytes}
    (hl : a.length = entryLen e) (ha : ¬ Mapped a) (hd : Denotes e (addrNum a)) :
    e.isIPInRange a = .ok (true, false) := by
  cases e with
  | net o =>
    cases o with
    | none => exact hp.elim
    | some n =>
      simp only [IPInfo.isIPInRange, Go.ok.injEq, Prod.mk.injEq, and_true]
      obtain ⟨ip, mask⟩ := n
      simp only [entryLen] at hl
      have hx : ∀ v, v = addrNum a → Denotes (.net (some ⟨ip, mask⟩)) v →
          contains ⟨ip, mask⟩ a = true := by
        intro v hv hd
        cases hd with
        | net4 _ _ p v hi hm hpm hv' hq =>
          rw [contains_net4 hi hm hpm]
          refine ⟨a, to4_len4 (hl.trans hi), ?_⟩
          rw [addrNum, if_pos (hl.trans hi)] at hv
          have : v = beVal a := by omega
          rw [← this, hq]
        | net6 _ _ p _ hi hm hpm hq =>
          rw [contains_net6 hi hm hpm (not_mapped hi hpl)]
          refine ⟨not_mapped (hl.trans hi) ha, hl.trans hi, ?_⟩
          rw [addrNum, if_neg (by omega)] at hv
          rw [← hv, hq]
      exact hx _ rfl hd
  | range min max =>
    simp only [entryLen] at hl
    simp only [IPInfo.isIPInRange]
    obtain ⟨h1, h2⟩ := hp
    rw [if_neg (by omega)]
    have hx : ∀ v, v = addrNum a → Denotes (.range min max) v →
        addrNum min ≤ addrNum a ∧ addrNum a ≤ addrNum max := by
      intro v hv hd; cases hd; subst hv; constructor <;> assumption
    have := hx _ rfl hd
    rw [addrNum_le hl.symm, addrNum_le (hl.trans h1)] at this
    simp [(bytesLe_iff hl.symm).mpr this.1, (bytesLe_iff (hl.trans h1)).mpr this.2]
  | null f => exact hp.elim

/-- **C05, converse.** A range whose addresses all belong to one entry `e` of the certificate (same
    family, no IPv4-mapped IPv6 addresses involved) is reported as contained, provided the
    certificate has no inherit entries. -/
theorem C05_range_complete (ips : List IPInfo) (hok : ∀ x ∈ ips, x ≠ .net none)
    (hn : ∀ f, .null f ∉ ips) (e : IPInfo) (he : e ∈ ips) (hp : ProperEntry e) (hpl : PlainEntry e)
    (min max : Bytes) (h1 : min.length = entryLen e) (h2 : max.length = entryLen e)
    (m1 : ¬ Mapped min) (m2 : ¬ Mapped max) (hle : addrNum min ≤ addrNum max)
    (hd : ∀ x, addrNum min ≤ x → x ≤ addrNum max → Denotes e x) :
    isIPRangeInCertificate ips min max = .ok (true, false) := by
  have d1 := hd _ (Nat.le_refl _) hle
  have d2 := hd _ hle (Nat.le_refl _)
  induction ips with
  | nil => simp at he
  | cons x rest ih =>
    have hx : ∃ a b, x.isIPInRange min = .ok (a, false) ∧ x.isIPInRange max = .ok (b, false) := by
      cases x with
      | net o =>
        cases o with
        | none => exact absurd rfl (hok _ (by simp))
        | some n => exact ⟨_, _, rfl, rfl⟩
      | range a b =>
        simp only [IPInfo.isIPInRange]
        have : ∀ z : Bytes, ∃ w, (if z.length ≠ a.length ∨ z.length ≠ b.length then
            Go.ok (false, false) else .ok (bytesLe a z && bytesLe z b, false)) = .ok (w, false) := by
          intro z; split <;> exact ⟨_, rfl⟩
        obtain ⟨w1, hw1⟩ := this min
        obtain ⟨w2, hw2⟩ := this max
        exact ⟨w1, w2, hw1, hw2⟩
      | null f => exact absurd (by simp) (hn f)
    obtain ⟨a, b, ha, hb⟩ := hx
    unfold isIPRangeInCertificate
    simp only [ha, hb, Go.ok_bind, Bool.or_false, Bool.false_eq_true, if_false]
    split
    · rfl
    · rename_i hab
      rcases List.mem_cons.mp he with rfl | he
      · exfalso
        rw [isIPInRange_complete hp hpl h1 m1 d1] at ha
        rw [isIPInRange_complete hp hpl h2 m2 d2] at hb
        simp at ha hb
        rw [ha, hb] at hab
        simp at hab
      · exact ih (fun y hy => hok y (by simp [hy])) (fun f hf => hn f (by simp [hf])) he

/-- Non-vacuity of C05: 10.1.0.0/16 against a certificate with 2001:db8::/32 and 10.0.0.0/8. -/
example : (validateIPCertificateList [net10_1] [net2001, net10]) = .ok ⟨[net10_1], [], []⟩
    ∧ ProperEntry net10_1 ∧ (∀ e ∈ [net2001, net10], WfEntry e) ∧ Denotes net10_1 (0xffff0a010203) := by
  refine ⟨by decide +kernel, proper_net10_1, ?_, ?_⟩
  · intro e he
    simp at he
    rcases he with rfl | rfl
    · exact .inl proper_net2001
    · exact .inl proper_net10
  · exact .net4 _ _ 16 (0x0a010203) rfl rfl (by simp [IsMask, beVal]) (by omega) (by simp [beVal])

/-- Non-vacuity of the converse: nothing outside is accepted. -/
example : (validateIPCertificateList [net10] [net2001, net10_1]) = .ok ⟨[], [net10], []⟩ := by
  decide +kernel

/-- A malformed entry (prefix length out of range, nil mask) in the parent makes the certificate
    say that the range of a malformed child entry is contained, whatever the addresses are.
    This is why `C05` asks for proper child entries. -/
theorem C05_malformed_accepted (a b : Bytes) (ha : a.length = 4 ∨ a.length = 16)
    (_ : b.length = 4 ∨ b.length = 16) :
    validateIPCertificateList [.net (some ⟨a, []⟩)] [.net (some ⟨b, []⟩)]
      = .ok ⟨[.net (some ⟨a, []⟩)], [], []⟩ := by
  have h1 : IPInfo.getRange (.net (some ⟨a, []⟩)) = .ok ([], [], false) := by
    have : rangeBytes a [] = none := by
      cases a with
      | nil => simp at ha
      | cons x a => rfl
    simp [IPInfo.getRange, getRangeIP, this]
  have h2 : isIPRangeInCertificate [.net (some ⟨b, []⟩)] [] [] = .ok (true, false) := by
    have := (contains_nilMask (n := ⟨b, []⟩) rfl []).mpr rfl
    simp [isIPRangeInCertificate, IPInfo.isIPInRange, this]
  simp [validateIPCertificateList, splitFrom, classifyIP, h1, h2, Split.add]

/-- Both families share one number space: a parent that only holds the IPv6 prefix
    ::ffff:10.0.0.0/104 is accepted as holder of the IPv4 prefix 10.1.0.0/16. -/
theorem C05_cross_family :
    validateIPCertificateList [net10_1]
      [.net (some ⟨List.replicate 10 0 ++ [0xff, 0xff, 10, 0, 0, 0],
        List.replicate 13 255 ++ [0, 0, 0]⟩)] = .ok ⟨[net10_1], [], []⟩ := by
  decide +kernel

/-! ## C06 — AS containment is exact -/

/-- **C06.** An AS range `min..max` is reported as contained exactly when some entry that stands
    for all its numbers comes before every inherit entry; it is referred to the parent exactly when
    an inherit entry comes before every such entry. -/
theorem C06_as_exact (asns : List ASInfo) (min max : Int) (hle : min ≤ max) :
    ((isASRangeInCertificate asns min max).1 = true ↔
      ∃ pre e post, asns = pre ++ e :: post ∧ .null ∉ pre ∧
        ∀ a, min ≤ a → a ≤ max → ASDenotes e a) ∧
    ((isASRangeInCertificate asns min max).2 = true ↔
      ∃ pre post, asns = pre ++ .null :: post ∧
        ∀ e ∈ pre, ¬ ∀ a, min ≤ a → a ≤ max → ASDenotes e a) := by
  have cov : ∀ e : ASInfo, (∀ a, min ≤ a → a ≤ max → ASDenotes e a) ↔
      (e.isASNInRange min).1 = true ∧ (e.isASNInRange max).1 = true := by
    intro e
    cases e with
    | asn b =>
      simp only [ASInfo.isASNInRange, decide_eq_true_eq]
      constructor
      · intro h
        have h1 := h min (by omega) hle
        have h2 := h max hle (by omega)
        cases h1; cases h2; simp
      · rintro ⟨rfl, rfl⟩ a h1 h2
        have : a = max := by omega
        subst this; exact .asn _
    | range lo hi =>
      simp only [ASInfo.isASNInRange, Bool.and_eq_true, decide_eq_true_eq]
      constructor
      · intro h
        have h1 := h min (by omega) hle
        have h2 := h max hle (by omega)
        cases h1; cases h2; omega
      · rintro ⟨h1, h2⟩ a h3 h4
        exact .range _ _ _ (by omega) (by omega)
    | null =>
      simp only [ASInfo.isASNInRange, Bool.false_eq_true, false_and, iff_false]
      intro h
      have := h min (by omega) hle
      cases this
  have nul : ∀ e : ASInfo, ((e.isASNInRange min).2 || (e.isASNInRange max).2) = true ↔ e = .null := by
    intro e; cases e <;> simp [ASInfo.isASNInRange]
  induction asns with
  | nil => simp [isASRangeInCertificate]
  | cons e rest ih =>
    unfold isASRangeInCertificate
    simp only []
    by_cases hc : ∀ a, min ≤ a → a ≤ max → ASDenotes e a
    · rw [if_pos (by simpa using (cov e).mp hc)]
      constructor
      · exact ⟨fun _ => ⟨[], e, rest, rfl, by simp, hc⟩, fun _ => rfl⟩
      · simp only [Bool.false_eq_true, false_iff, not_exists, not_and]
        rintro pre post heq hall
        cases pre with
        | nil =>
          simp at heq
          have := (cov e).mp hc
          rw [heq.1] at this
          simp [ASInfo.isASNInRange] at this
        | cons p pre =>
          simp at heq
          exact hall p (by simp) (heq.1 ▸ hc)
    · rw [if_neg (by rw [Bool.and_eq_true, ← cov e]; exact hc)]
      by_cases hn : e = .null
      · rw [if_pos ((nul e).mpr hn)]
        constructor
        · simp only [Bool.false_eq_true, false_iff, not_exists, not_and]
          rintro pre e' post heq hnp
          cases pre with
          | nil => simp at heq; rw [← heq.1]; exact hc
          | cons p pre => simp at heq; exact absurd (by simp [← heq.1, hn]) hnp
        · exact ⟨fun _ => ⟨[], rest, by simp [hn], by simp⟩, fun _ => rfl⟩
      · rw [if_neg (by rw [nul e]; exact hn)]
        rw [ih.1, ih.2]
        constructor
        · constructor
          · rintro ⟨pre, e', post, rfl, hnp, hx⟩
            exact ⟨e :: pre, e', post, rfl, by simp [hnp, Ne.symm hn], hx⟩
          · rintro ⟨pre, e', post, heq, hnp, hx⟩
            cases pre with
            | nil => simp at heq; rw [heq.1] at hc; exact absurd hx hc
            | cons p pre =>
              simp at heq hnp
              exact ⟨pre, e', post, heq.2, hnp.2, hx⟩
        · constructor
          · rintro ⟨pre, post, rfl, hx⟩
            refine ⟨e :: pre, post, rfl, ?_⟩
            intro e' he'
            rcases List.mem_cons.mp he' with rfl | he'
            · exact hc
            · exact hx e' he'
          · rintro ⟨pre, post, heq, hx⟩
            cases pre with
            | nil => simp at heq; exact absurd heq.1 hn
            | cons p pre =>
              simp at heq
              exact ⟨pre, post, heq.2, fun e' he' => hx e' (by simp [he'])⟩

/-- **C06 for certificates without inherit.** -/
theorem C06_as_exact_no_inherit (asns : List ASInfo) (hn : .null ∉ asns) (min max : Int)
    (hle : min ≤ max) :
    (isASRangeInCertificate asns min max).1 = true ↔
      ∃ e ∈ asns, ∀ a, min ≤ a → a ≤ max → ASDenotes e a := by
  rw [(C06_as_exact asns min max hle).1]
  constructor
  · rintro ⟨pre, e, post, rfl, _, h⟩; exact ⟨e, by simp, h⟩
  · rintro ⟨e, he, h⟩
    obtain ⟨pre, post, rfl⟩ := List.append_of_mem he
    exact ⟨pre, e, post, rfl, fun hc => hn (by simp [hc]), h⟩

example : isASRangeInCertificate [.asn 5, .range 10 20, .null] 12 20 = (true, false) := by decide
example : isASRangeInCertificate [.asn 5, .null, .range 10 20] 12 20 = (false, true) := by decide
example : isASRangeInCertificate [.asn 5, .range 10 20] 12 21 = (false, false) := by decide

/-! ## C07 — the three-way split -/

theorem split_perm {α : Type} {cl : α → Go Verdict} (l : List α) (h : ∀ a ∈ l, ∃ v, cl a = .ok v) :
    (l.filter (fun a => decide (cl a = .ok .valid)) ++ l.filter (fun a => decide (cl a = .ok .invalid))
      ++ l.filter (fun a => decide (cl a = .ok .checkParent))).Perm l := by
  induction l with
  | nil => simp
  | cons a l ih =>
    have ih := ih (fun b hb => h b (by simp [hb]))
    obtain ⟨v, hv⟩ := h a (by simp)
    cases v
    · simpa [hv] using ih
    · simp only [List.filter_cons, hv, decide_true, if_true, Go.ok.injEq, reduceCtorEq, decide_false,
        Bool.false_eq_true, if_false]
      refine List.Perm.trans ?_ (List.Perm.cons a ih)
      rw [List.append_assoc, List.append_assoc, List.cons_append]
      exact List.perm_middle
    · simp only [List.filter_cons, hv, decide_true, if_true, Go.ok.injEq, reduceCtorEq, decide_false,
        Bool.false_eq_true, if_false]
      exact List.Perm.trans List.perm_middle (List.Perm.cons a ih)

/-- **C07, IP.** The three lists together are a rearrangement of the child's list, each keeps the
    child's order, and equal entries are never put in different lists. -/
theorem C07_ip_partition (list parent : List IPInfo) (s : Split IPInfo)
    (h : validateIPCertificateList list parent = .ok s) :
    (s.valids ++ s.invalids ++ s.checkParents).Perm list ∧
    s.valids.Sublist list ∧ s.invalids.Sublist list ∧ s.checkParents.Sublist list ∧
    (∀ c ∈ s.valids, c ∉ s.invalids ∧ c ∉ s.checkParents) ∧
    (∀ c ∈ s.invalids, c ∉ s.checkParents) := by
  obtain ⟨h0, h1, h2, h3⟩ := splitFrom_filter h
  simp only [List.nil_append] at h1 h2 h3
  rw [h1, h2, h3]
  refine ⟨split_perm list h0, List.filter_sublist, List.filter_sublist, List.filter_sublist, ?_, ?_⟩
  · intro c hc
    simp at hc ⊢
    simp [hc.2]
  · intro c hc
    simp at hc ⊢
    simp [hc.2]

/-- **C07, AS.** -/
theorem C07_as_partition (list parent : List ASInfo) :
    ∃ s, validateASNCertificateList list parent = .ok s ∧
    (s.valids ++ s.invalids ++ s.checkParents).Perm list ∧
    s.valids.Sublist list ∧ s.invalids.Sublist list ∧ s.checkParents.Sublist list ∧
    (∀ c ∈ s.valids, c ∉ s.invalids ∧ c ∉ s.checkParents) ∧
    (∀ c ∈ s.invalids, c ∉ s.checkParents) := by
  obtain ⟨s, h⟩ := splitFrom_total (cl := fun a => .ok (classifyAS parent a)) (l := list)
    ⟨[], [], []⟩ (fun a _ => ⟨_, rfl⟩)
  refine ⟨s, h, ?_⟩
  obtain ⟨h0, h1, h2, h3⟩ := splitFrom_filter h
  simp only [List.nil_append] at h1 h2 h3
  rw [h1, h2, h3]
  refine ⟨split_perm list h0, List.filter_sublist, List.filter_sublist, List.filter_sublist, ?_, ?_⟩
  · intro c hc
    simp at hc ⊢
    simp [hc.2]
  · intro c hc
    simp at hc ⊢
    simp [hc.2]

/-- **C07, meaning of the AS verdicts** for explicit, non-empty child entries `min..max`. -/
theorem C07_as_verdicts (list parent : List ASInfo) (s : Split ASInfo)
    (h : validateASNCertificateList list parent = .ok s) (c : ASInfo) (hc : c ∈ list) :
    (c ∈ s.valids ↔ c = .null ∨ (isASRangeInCertificate parent c.getRange.1 c.getRange.2.1).1 = true) ∧
    (c ∈ s.checkParents → .null ∈ parent ∧ c ≠ .null) ∧
    (c ∈ s.invalids → c ≠ .null ∧ (isASRangeInCertificate parent c.getRange.1 c.getRange.2.1).1 = false) := by
  obtain ⟨h0, h1, h2, h3⟩ := splitFrom_filter h
  simp only [List.nil_append] at h1 h2 h3
  rw [h1, h2, h3]
  simp only [List.mem_filter, hc, true_and, Go.ok.injEq, decide_eq_true_eq]
  have hnull : c.getRange.2.2 = true ↔ c = .null := by cases c <;> simp [ASInfo.getRange]
  have hpar : ∀ (ps : List ASInfo) (a b : Int), (isASRangeInCertificate ps a b).2 = true → .null ∈ ps := by
    intro ps a b
    induction ps with
    | nil => simp [isASRangeInCertificate]
    | cons p ps ih =>
      unfold isASRangeInCertificate
      simp only []
      split
      · simp
      · split
        · rename_i _ hh
          intro _
          cases p <;> simp [ASInfo.isASNInRange] at hh
          simp
        · intro hh; simp [ih hh]
  unfold classifyAS
  simp only []
  split
  · rename_i hn; simp [hnull.mp hn]
  · rename_i hn
    have hne : c ≠ .null := fun hc => hn (hnull.mpr hc)
    split
    · rename_i hv; simp [hv]
    · rename_i hv
      split
      · rename_i hp; simp [hv, hne, hpar _ _ _ hp]
      · simp [hv, hne]

theorem isIPRange_check {ips : List IPInfo} {lo hi : Bytes} {b : Bool}
    (h : isIPRangeInCertificate ips lo hi = .ok (b, true)) : ∃ f, .null f ∈ ips ∧
      ((f = 1 ∧ ((to4 lo).isSome ∨ (to4 hi).isSome)) ∨
       (f = 2 ∧ (((to4 lo) = none ∧ to16IsSome lo) ∨ ((to4 hi) = none ∧ to16IsSome hi)))) := by
  induction ips with
  | nil => simp [isIPRangeInCertificate] at h
  | cons e rest ih =>
    obtain ⟨x, y, hx, hy, h | h | h⟩ := isIPRange_cons h
    · simp at h
    · have key : ∀ (a : Bytes) (z : Bool × Bool), e.isIPInRange a = .ok z → z.2 = true →
          ∃ f, e = .null f ∧ ((f = 1 ∧ (to4 a).isSome) ∨ (f = 2 ∧ (to4 a = none ∧ to16IsSome a))) := by
        intro a z hz h2
        cases e with
        | net o => cases o <;> simp [IPInfo.isIPInRange] at hz; rw [← hz] at h2; simp at h2
        | range p q =>
          simp only [IPInfo.isIPInRange] at hz
          split at hz <;> simp at hz <;> rw [← hz] at h2 <;> simp at h2
        | null f =>
          refine ⟨f, rfl, ?_⟩
          simp only [IPInfo.isIPInRange] at hz
          split at hz
          · rename_i hh; exact .inl hh
          · split at hz
            · rename_i hh; exact .inr (by simpa using hh)
            · simp at hz; rw [← hz] at h2; simp at h2
      rcases Bool.or_eq_true_iff.mp h.2.1 with h' | h'
      · obtain ⟨f, rfl, hf⟩ := key _ _ hx h'
        refine ⟨f, by simp, ?_⟩
        rcases hf with hf | hf
        · exact .inl ⟨hf.1, .inl hf.2⟩
        · exact .inr ⟨hf.1, .inl hf.2⟩
      · obtain ⟨f, rfl, hf⟩ := key _ _ hy h'
        refine ⟨f, by simp, ?_⟩
        rcases hf with hf | hf
        · exact .inl ⟨hf.1, .inr hf.2⟩
        · exact .inr ⟨hf.1, .inr hf.2⟩
    · obtain ⟨f, hf, hh⟩ := ih h.2.2
      exact ⟨f, by simp [hf], hh⟩

/-- **C07, meaning of the IP verdicts** for proper child entries: `valid` means one parent entry
    stands for all the child's addresses, `check parent` means the parent inherits; for `invalid` see
    `C07_ip_invalid`. -/
theorem C07_ip_verdicts (list parent : List IPInfo) (hw : ∀ e ∈ parent, WfEntry e) (s : Split IPInfo)
    (h : validateIPCertificateList list parent = .ok s) (c : IPInfo) (hp : ProperEntry c) :
    (c ∈ s.valids → ∃ e ∈ parent, ∀ x, Denotes c x → Denotes e x) ∧
    (c ∈ s.checkParents → ∃ f, .null f ∈ parent ∧ (f = 1 ∨ f = 2)) := by
  refine ⟨fun hc => C05_validated_sound list parent hw s h c hc hp, fun hc => ?_⟩
  obtain ⟨_, _, _, h3⟩ := splitFrom_filter h
  rw [h3] at hc
  simp at hc
  obtain ⟨lo, hi, hr, hl, hf, hd⟩ := getRange_proper hp
  rcases classifyIP_valid hr hc.2 with h' | h' | h'
  · simp at h'
  · obtain ⟨f, hf, hh⟩ := isIPRange_check h'.2
    refine ⟨f, hf, ?_⟩
    rcases hh with hh | hh
    · exact .inl hh.1
    · exact .inr hh.1
  · simp at h'

/-- An inherit entry of the child is always put in the valid list. -/
theorem C07_inherit_valid (list parent : List IPInfo) (s : Split IPInfo)
    (h : validateIPCertificateList list parent = .ok s) (f : UInt8) (hc : .null f ∈ list) :
    .null f ∈ s.valids := by
  obtain ⟨_, h1, _, _⟩ := splitFrom_filter h
  rw [h1]
  simp [hc, classifyIP, IPInfo.getRange]

example : validateIPCertificateList [net10_1, .null 1, net2001] [net10, .null 2]
    = .ok ⟨[net10_1, .null 1], [], [net2001]⟩ := by decide +kernel
example : validateASNCertificateList [.asn 7, .null, .range 1 3, .asn 9] [.range 1 7, .null]
    = .ok ⟨[.asn 7, .null, .range 1 3], [], [.asn 9]⟩ := by decide +kernel

/-! ## C08 — the range of a prefix is exact -/

/-- **C08.** For every proper prefix, the first and last address computed for it have the prefix's
    family, and an address is in the prefix exactly when it lies between them. -/
theorem C08_prefix_range_exact (n : IPNet) (h : ProperNet n) :
    ∃ b e, getRangeIP (some n) = .ok (b, e) ∧ b.length = n.ip.length ∧ e.length = n.ip.length ∧
      ∀ x, Denotes (.net (some n)) x ↔ addrNum b ≤ x ∧ x ≤ addrNum e :=
  getRangeIP_proper h

/-- **C08, bad masks are refused** rather than read out of bounds. -/
theorem C08_short_mask (n : IPNet) (h : n.mask.length < n.ip.length) :
    ∃ m, getRangeIP (some n) = .err m := by
  have : ∀ a m : Bytes, m.length < a.length → rangeBytes a m = none := by
    intro a
    induction a with
    | nil => intro m hm; simp at hm
    | cons x a ih =>
      intro m hm
      cases m with
      | nil => rfl
      | cons y m => simp at hm; simp [rangeBytes, ih m hm]
  exact ⟨"Invalid IP address mask", by simp [getRangeIP, this _ _ h]⟩

example : getRangeIP (some ⟨[10, 1, 2, 3], [255, 255, 240, 0]⟩) = .ok ([10, 1, 0, 0], [10, 1, 15, 255]) := by
  decide

/-! ## C09 — prefix bit strings -/

/-- **C09.** Encoding a prefix and decoding the bit string gives the same mask and the same set of
    addresses; the address is the first address of the prefix. -/
theorem C09_prefix_round_trip (n : IPNet) (h : ProperNet n) (fam : Bytes)
    (hf : IsFamily fam n.ip.length) :
    ∃ n', decodeIP fam (ipNetToBitString n) = .ok n' ∧ n'.mask = n.mask ∧
      (∀ x, Denotes (.net (some n')) x ↔ Denotes (.net (some n)) x) ∧
      (Canonical n → n' = n) := by
  obtain ⟨b, e, hr, hbits, hd⟩ := decodeIP_encode h hf
  refine ⟨_, hd, rfl, ?_, ?_⟩
  · intro x
    obtain ⟨hl, hs, p, hp⟩ := h
    obtain ⟨ip, mask⟩ := n
    simp only at hl hs hp hf hr hd ⊢
    obtain ⟨b', e', hr', hb', he', vb, ve⟩ := rangeBytes_spec mask.length p hp.1 ip hl
    rw [← eq_maskBytes hp] at hr'
    have : b' = b := by
      simp only [getRangeIP, hr'] at hr
      simp at hr; exact hr.1
    subst this
    have hq : ∀ k, 8 * mask.length - p = k → beVal b' / 2 ^ k = beVal ip / 2 ^ k := by
      intro k hk
      rw [vb, hk]
      exact Nat.mul_div_cancel _ (Nat.pow_pos (by omega))
    constructor
    · intro hx
      cases hx with
      | net4 _ _ p' v hi hm hp' hv hq' =>
        have := isMask_inj hp hp'; subst this
        exact .net4 _ _ p v (by omega) hm hp hv (by rw [hq', hq]; omega)
      | net6 _ _ p' v hi hm hp' hq' =>
        have := isMask_inj hp hp'; subst this
        exact .net6 _ _ p x (by omega) hm hp (by rw [hq', hq]; omega)
    · intro hx
      cases hx with
      | net4 _ _ p' v hi hm hp' hv hq' =>
        have := isMask_inj hp hp'; subst this
        exact .net4 _ _ p v (by omega) hm hp hv (by rw [hq', hq]; omega)
      | net6 _ _ p' v hi hm hp' hq' =>
        have := isMask_inj hp hp'; subst this
        exact .net6 _ _ p x (by omega) hm hp (by rw [hq', hq]; omega)
  · intro hc
    obtain ⟨e', hr'⟩ := getRangeIP_canonical h hc
    rw [hr] at hr'
    simp at hr'
    rw [hr'.1]

/-- **C09, other direction.** Decoding a DER bit string of a length allowed in the family and
    encoding the prefix gives the bit string back; so no two of them mean the same prefix. -/
theorem C09_bitstring_round_trip (b : BitString) (h : BitsOk b) (fam : Bytes) (size : Nat)
    (hf : IsFamily fam size) (hle : b.bitLength ≤ 8 * size) :
    ∃ n, decodeIP fam b = .ok n ∧ ProperNet n ∧ Canonical n ∧ n.ip.length = size ∧
      ipNetToBitString n = b :=
  encode_decodeIP h hf hle

/-- A prefix whose address is an IPv4 address in 16-byte form with a 4-byte mask (as Go code can
    build it) is not covered by `C09`: the zero bytes in front are encoded instead. -/
theorem C09_mapped_form_lost :
    ipNetToBitString ⟨List.replicate 10 0 ++ [0xff, 0xff, 10, 0, 0, 0], [255, 0, 0, 0]⟩ = ⟨[0], 8⟩ := by
  decide +kernel

example : BitsOk ⟨[10, 0x80], 9⟩ ∧ IsFamily [0, 1] 4 ∧
    decodeIP [0, 1] ⟨[10, 0x80], 9⟩ = .ok ⟨[10, 0x80, 0, 0], [255, 0x80, 0, 0]⟩ := by
  refine ⟨by simp [BitsOk, beVal], ⟨0, [], .inl ⟨rfl, rfl⟩⟩, by decide +kernel⟩

/-! ## C10 — address ranges -/

/-- **C10, decoding.** The lower end of a range is the bit string padded with zeros, the upper end
    the bit string padded with ones, for both families (RFC 3779 2.1.2). -/
theorem C10_decode_min_max (b : BitString) (h : BitsOk b) (fam : Bytes) (size : Nat)
    (hf : IsFamily fam size) (hle : b.bitLength ≤ 8 * size) :
    ∃ lo hi, decodeIPMinMax fam b false = .ok lo ∧ decodeIPMinMax fam b true = .ok hi ∧
      lo.length = size ∧ hi.length = size ∧
      beVal lo = bitsNum b * 2 ^ (8 * size - b.bitLength) ∧
      beVal hi + 1 = (bitsNum b + 1) * 2 ^ (8 * size - b.bitLength) := by
  obtain ⟨lo, hi, h1, h2, h3, h4, h5, h6⟩ := decodeIPMinMax_spec h hf hle
  refine ⟨lo, hi, h1, h2, h3, h4, h5, ?_⟩
  have : 0 < 2 ^ (8 * size - b.bitLength) := Nat.pow_pos (by omega)
  rw [h6, Nat.add_mul]; omega

/-- **C10, what is proved of the round trip.** IPv6 ranges survive encoding and decoding.
    Missing: IPv4 ranges, for which the full statement is false (next theorems). -/
theorem C10_ipv6_round_trip_partial (min max : Bytes) (h1 : min.length = 16) (h2 : max.length = 16)
    (m1 : ¬ Mapped min) (m2 : ¬ Mapped max) :
    ∃ a, encodeAddrOrRange (.range min max) = .ok a ∧
      decodeAddrOrRange [0, 2] a = .range min max := by
  obtain ⟨a, ha, hd⟩ := decode_encode_entry (e := .range min max) ⟨h1, h2, m1, m2⟩ (by simp)
  refine ⟨a, ha, ?_⟩
  simp only [famOf] at hd
  rw [if_neg (by omega)] at hd
  exact hd

/-- **C10 fails for IPv4**: every range of IPv4 addresses in the form the decoder produces crashes
    the encoder. -/
theorem C10_violated_ipv4 (min max : Bytes) (h1 : min.length = 4) :
    encodeAddrOrRange (.range min max) = .panic := by
  simp [encodeAddrOrRange, ipToBitString, to4_len4 h1, h1]

/-- **C10 fails for IPv6 ranges that end in the IPv4-mapped block**: the range
    :: - ::ffff:1.2.3.4 is encoded without error and decodes to :: - 102:304:ffff:…:ffff,
    a larger range. -/
theorem C10_violated_mapped :
    ∃ min max a max', encodeAddrOrRange (.range min max) = .ok a ∧
      IPInfo.getAfi (.range min max) = .ok 2 ∧
      decodeAddrOrRange [0, 2] a = .range min max' ∧ addrNum max < addrNum max' := by
  refine ⟨List.replicate 16 0, List.replicate 10 0 ++ [0xff, 0xff, 1, 2, 3, 4],
    .range ⟨List.replicate 16 0, 128⟩ ⟨[1, 2, 3, 4], 32⟩, [1, 2, 3, 4] ++ List.replicate 12 0xff, ?_⟩
  decide +kernel

/-! ## C11 — grouping -/

/-- **C11.** Encoding a list of resources succeeds, the encoded families appear in increasing order
    and each at most once, and decoding gives the IPv4 resources followed by the IPv6 resources,
    each group in its order; a family that contains inherit becomes just inherit. -/
theorem C11_block_round_trip (ips : List IPInfo) (h : ∀ e ∈ ips, Encodable e) :
    ∃ blk, encodeIPAddressBlock ips = .ok blk ∧
      (blk.map AddrFamily.addressFamily).Sublist [[0, 1], [0, 2]] ∧
      decodeIPAddressBlock blk = collapse 1 (ips.filter (fun e => famOf e = 1)) ++
        collapse 2 (ips.filter (fun e => famOf e = 2)) :=
  encodeBlock_spec h

/-- **C11, nothing is lost** when there is no inherit entry: the decoded list is a rearrangement. -/
theorem C11_block_perm (ips : List IPInfo) (h : ∀ e ∈ ips, Encodable e) (hn : ∀ f, .null f ∉ ips) :
    ∃ blk, encodeIPAddressBlock ips = .ok blk ∧ (decodeIPAddressBlock blk).Perm ips := by
  obtain ⟨blk, h1, _, h2⟩ := encodeBlock_spec h
  refine ⟨blk, h1, ?_⟩
  have hc : ∀ f g, (∀ e ∈ g, e ∈ ips) → collapse f g = g := by
    intro f g hg
    rw [collapse, if_neg]
    simp only [List.any_eq_true, not_exists, not_and]
    intro e he hi
    cases e <;> simp [isInherit] at hi
    exact hn _ (hg _ he)
  rw [h2, hc _ _ (by intro e he; simp at he; exact he.1), hc _ _ (by intro e he; simp at he; exact he.1)]
  clear hc h1 h2 hn
  induction ips with
  | nil => simp
  | cons e ips ih =>
    have ih := ih (fun x hx => h x (by simp [hx]))
    rcases famOf_encodable (h e (by simp)) with hf | hf
    · simpa [hf] using ih
    · simp only [List.filter_cons, hf, decide_true, if_true]
      simp only [show (2 : UInt8) = 1 ↔ False by decide, decide_false, Bool.false_eq_true, if_false]
      exact List.Perm.trans List.perm_middle (List.Perm.cons e ih)

example : encodeIPAddressBlock [net2001, net10] = .ok
    [⟨[0, 1], .addresses [.prefix ⟨[10], 8⟩]⟩,
     ⟨[0, 2], .addresses [.prefix ⟨[0x20, 0x01, 0x0d, 0xb8], 32⟩]⟩] := by decide +kernel

theorem canonical_net10 : Encodable net10 := by
  refine ⟨proper_net10, ⟨8, ⟨by simp [IsMask, beVal], by simp [beVal]⟩⟩, ?_⟩
  rintro ⟨d, hd, h⟩
  have := congrArg List.length h
  simp [hd] at this

/-! ## C12 — AS round trip -/

theorem decodeASIdentifier_encode (l : List ASInfo) (hne : l ≠ []) (hf : ∀ a ∈ l, FitsAS a)
    (h : .null ∉ l ∨ ∃ r, l = .null :: r) :
    decodeASIdentifier (encodeASNSeq l) = .ok (if .null ∈ l then [.null] else l) := by
  rcases h with h | ⟨r, rfl⟩
  · rw [if_neg h, encodeASNSeq, if_neg hne, asnSeqLoop_noNull l h]
    simp [decodeASIdentifier, decodeASElems_map l h hf]
  · rw [if_pos (by simp), encodeASNSeq, if_neg (by simp)]
    simp [asnSeqLoop, decodeASIdentifier]

/-- **C12, what is proved.** Lists without inherit, and the list holding just inherit, come back
    unchanged, for AS numbers and for RDIs.  Missing: lists where inherit follows other entries, for
    which the full statement is false. -/
theorem C12_round_trip_partial (nums rdi : List ASInfo)
    (hn : .null ∉ nums ∨ nums = [.null]) (hr : .null ∉ rdi ∨ rdi = [.null])
    (fn : ∀ a ∈ nums, FitsAS a) (fr : ∀ a ∈ rdi, FitsAS a) :
    decodeASN (encodeASN nums rdi) = .ok (nums, rdi) := by
  have key : ∀ l : List ASInfo, (.null ∉ l ∨ l = [.null]) → (∀ a ∈ l, FitsAS a) →
      decodeASField (encodeASField l) = .ok l := by
    intro l h hf
    unfold encodeASField
    by_cases hl : l = []
    · subst hl; rfl
    · rw [if_neg hl]
      have h' : .null ∉ l ∨ ∃ r, l = .null :: r := by
        rcases h with h | h
        · exact .inl h
        · exact .inr ⟨[], h⟩
      simp only [decodeASField, decodeASIdentifier_encode l hl hf h']
      rcases h with h | h
      · rw [if_neg h]
      · subst h; rfl
  unfold decodeASN encodeASN
  simp only [key nums hn fn, key rdi hr fr, Go.ok_bind, Go.pure_def]

/-- **C12 fails** when inherit follows an AS number: everything is lost. -/
theorem C12_violated_lost (a : Int) :
    decodeASN (encodeASN [.asn a, .null] []) = .ok ([], []) := by
  simp [decodeASN, encodeASN, decodeASField, encodeASField, encodeASNSeq, asnSeqLoop, decodeASIdentifier,
    ASInfo.asn1]

/-- **C12 fails** when inherit follows a range: the two ends come back as two AS numbers. -/
theorem C12_violated_range (a b : Int) (ha : fitsInt a = true) (hb : fitsInt b = true) :
    decodeASN (encodeASN [.range a b, .null] []) = .ok ([.asn a, .asn b], []) := by
  simp [decodeASN, encodeASN, decodeASField, encodeASField, encodeASNSeq, asnSeqLoop, decodeASIdentifier,
    ASInfo.asn1, decodeASElems,
    decodeASElem, ha, hb]

example : FitsAS (.range 64496 64511) ∧ FitsAS (.asn 4294967295) := by simp [FitsAS]

/-! ## C13 — validity window -/

/-- **C13.** -/
theorem C13_validity_window (notBefore notAfter t : Int) :
    validateTime notBefore notAfter t = .ok () ↔ notBefore ≤ t ∧ t ≤ notAfter := by
  unfold validateTime
  split
  · simp; omega
  · split
    · simp; omega
    · simp; omega

example : validateTime 10 20 10 = .ok () ∧ validateTime 10 20 20 = .ok () ∧
    validateTime 10 20 21 ≠ .ok () := by decide

/-! ## C14 — crashes -/

/-- **C14 fails.** A certificate with one prefix under an unknown address family decodes without
    error and crashes the check against any parent. -/
theorem C14_violated_child (parent : List IPInfo) (b : BitString) :
    validateIPCertificateList (decodeIPAddressBlock [⟨[0, 3], .addresses [.prefix b]⟩]) parent
      = .panic := by
  simp [decodeIPAddressBlock, decodeFamily, decodeAddrOrRange, decodeIP, familySize,
    validateIPCertificateList, splitFrom, classifyIP, IPInfo.getRange, getRangeIP]

/-- **C14 fails.** Such an entry in the parent crashes the check of a well-formed child. -/
theorem C14_violated_parent (b : BitString) :
    validateIPCertificateList [net10] (decodeIPAddressBlock [⟨[0, 3], .addresses [.prefix b]⟩])
      = .panic := by
  have hr : net10.getRange = .ok ([10, 0, 0, 0], [10, 255, 255, 255], false) := by decide
  simp [decodeIPAddressBlock, decodeFamily, decodeAddrOrRange, decodeIP, familySize,
    validateIPCertificateList, splitFrom, classifyIP, hr, isIPRangeInCertificate, IPInfo.isIPInRange]

/-- **C14, what is proved.** If all families of both extensions are IPv4 or IPv6 (or inherit), the
    check returns a verdict.  Missing: unknown families, for which it crashes. -/
theorem C14_no_crash_partial (child parent : List AddrFamily)
    (hc : ∀ f ∈ child, f.choice = .inherit ∨ ∃ size, IsFamily f.addressFamily size)
    (hp : ∀ f ∈ parent, f.choice = .inherit ∨ ∃ size, IsFamily f.addressFamily size) :
    ∃ s, validateIPCertificateList (decodeIPAddressBlock child) (decodeIPAddressBlock parent) = .ok s := by
  have nn : ∀ blk : List AddrFamily,
      (∀ f ∈ blk, f.choice = .inherit ∨ ∃ size, IsFamily f.addressFamily size) →
      ∀ e ∈ decodeIPAddressBlock blk, e ≠ .net none := by
    intro blk h e he hc
    have := C05_decoded_wf blk h e he
    rw [hc] at this; exact this
  apply splitFrom_total
  intro e he
  have hne := nn child hc e he
  have hr : ∃ r, e.getRange = .ok r := by
    cases e with
    | net o =>
      cases o with
      | none => exact absurd rfl hne
      | some n =>
        simp only [IPInfo.getRange, getRangeIP]
        cases rangeBytes n.ip n.mask <;> exact ⟨_, rfl⟩
    | range a b => exact ⟨_, rfl⟩
    | null f => exact ⟨_, rfl⟩
  obtain ⟨r, hr⟩ := hr
  have hin : ∀ (ps : List IPInfo), (∀ x ∈ ps, x ≠ .net none) → ∀ a b,
      ∃ v, isIPRangeInCertificate ps a b = .ok v := by
    intro ps hps a b
    induction ps with
    | nil => exact ⟨_, rfl⟩
    | cons x ps ih =>
      have hx : ∀ a, ∃ v, x.isIPInRange a = .ok v := by
        intro a
        cases x with
        | net o =>
          cases o with
          | none => exact absurd rfl (hps _ (by simp))
          | some n => exact ⟨_, rfl⟩
        | range p q => simp only [IPInfo.isIPInRange]; split <;> exact ⟨_, rfl⟩
        | null f =>
          simp only [IPInfo.isIPInRange]
          split
          · exact ⟨_, rfl⟩
          · split <;> exact ⟨_, rfl⟩
      obtain ⟨u, hu⟩ := hx a
      obtain ⟨w, hw⟩ := hx b
      obtain ⟨v, hv⟩ := ih (fun y hy => hps y (by simp [hy]))
      unfold isIPRangeInCertificate
      simp only [hu, hw, hv, Go.ok_bind]
      split
      · exact ⟨_, rfl⟩
      · split <;> exact ⟨_, rfl⟩
  obtain ⟨v, hv⟩ := hin _ (nn parent hp) r.1 r.2.1
  unfold classifyIP
  simp only [hr, hv, Go.ok_bind]
  split
  · exact ⟨_, rfl⟩
  · split
    · exact ⟨_, rfl⟩
    · split <;> exact ⟨_, rfl⟩

example : ∀ f ∈ [(⟨[0, 1], .addresses [.prefix ⟨[10], 40⟩]⟩ : AddrFamily), ⟨[0, 7], .inherit⟩],
    f.choice = .inherit ∨ ∃ size, IsFamily f.addressFamily size := by
  intro f hf
  simp at hf
  rcases hf with rfl | rfl
  · exact .inr ⟨4, 0, [], .inl ⟨rfl, rfl⟩⟩
  · exact .inl rfl

end Verif.Props

namespace Verif.Props
open BerSpec Net Cert ResSpec

/-- **C07, invalid IP resources.** If the parent has no inherit entry, a child entry put in the
    invalid list is not covered by any proper parent entry of its family (IPv4-mapped IPv6 addresses
    apart). -/
theorem C07_ip_invalid (list parent : List IPInfo) (hok : ∀ x ∈ parent, x ≠ .net none)
    (hn : ∀ f, .null f ∉ parent) (s : Split IPInfo)
    (h : validateIPCertificateList list parent = .ok s) (c : IPInfo) (hc : c ∈ s.invalids)
    (lo hi : Bytes) (hr : c.getRange = .ok (lo, hi, false)) (hle : addrNum lo ≤ addrNum hi)
    (m1 : ¬ Mapped lo) (m2 : ¬ Mapped hi) (hp : ProperEntry c)
    (e : IPInfo) (he : e ∈ parent) (hpe : ProperEntry e) (hpl : PlainEntry e)
    (hl : lo.length = entryLen e) : ¬ ∀ x, Denotes c x → Denotes e x := by
  intro hsub
  obtain ⟨_, _, h2, _⟩ := splitFrom_filter h
  rw [h2] at hc
  simp at hc
  obtain ⟨lo', hi', hr', hll, hf, hd⟩ := getRange_proper hp
  rw [hr] at hr'
  simp at hr'
  obtain ⟨rfl, rfl⟩ := hr'
  have := C05_range_complete parent hok hn e he hpe hpl lo hi hl (by omega) m1 m2 hle
    (fun x h1 h2 => hsub x ((hd x).mpr ⟨h1, h2⟩))
  rcases classifyIP_valid hr hc.2 with h' | h' | h'
  · simp at h'
  · simp at h'
  · rw [this] at h'; simp at h'

end Verif.Props
