import Verif.Model.Roa
import Verif.Props.Resources
/-
  Property theorems for ROA entries: C41, C42 and the entry part of C23.
-/
set_option autoImplicit false

namespace Verif.Props
open BerSpec Net Cert ResSpec Roa

/-! ## C41 — max length -/

/-- An IPv4 address has 32 bits, an IPv6 address 128. -/
def familyBits (n : IPNet) : Int := if n.ip.length = 4 then 32 else 128

/-- **C41.** For a prefix of length `p` that is IPv4, or IPv6 and not IPv4-mapped, an entry passes
    exactly when `p ≤ max length ≤ size of the family`. -/
theorem C41_max_length_exact (e : ROAEntry) (h : ProperNet e.ipnet) (hm : ¬ Mapped e.ipnet.ip)
    (p : Nat) (hp : IsMask p e.ipnet.mask) :
    e.validate = .ok () ↔ (p : Int) ≤ e.maxLength ∧ e.maxLength ≤ familyBits e.ipnet := by
  obtain ⟨hl, hs, _⟩ := h
  have h4 : (to4 e.ipnet.ip).isSome = true ↔ e.ipnet.ip.length = 4 := by
    rcases hs with hs | hs
    · simp [to4_len4 hs, hs]
    · simp [not_mapped hs hm, hs]
  unfold ROAEntry.validate familyBits
  simp only [maskSize_of_isMask hp, h4]
  have : (0 : Int) ≤ p := by omega
  split
  · simp; omega
  · split
    · simp; omega
    · rename_i h2
      by_cases hl4 : e.ipnet.ip.length = 4
      · simp only [hl4, true_and, if_true]
        split
        · simp; omega
        · rw [if_neg (by omega)]; simp; omega
      · simp only [hl4, false_and, if_false]
        split
        · simp; omega
        · simp; omega

/-- **C41, lists.** A list passes exactly when each entry does. -/
theorem C41_entries_exact (l : List ROAEntry) :
    validateEntries l = .ok () ↔ ∀ e ∈ l, e.validate = .ok () := by
  induction l with
  | nil => simp [validateEntries]
  | cons e l ih =>
    unfold validateEntries
    rw [Go.bind_eq_ok]
    simp only [List.mem_cons, forall_eq_or_imp, ih]
    constructor
    · rintro ⟨u, h1, h2⟩; exact ⟨h1, h2⟩
    · rintro ⟨h1, h2⟩; exact ⟨(), h1, h2⟩

/-- An entry that passes never has a max length beyond its family, whatever its prefix. -/
theorem C41_max_length_bound (e : ROAEntry) (h : e.validate = .ok ()) :
    (maskSize e.ipnet.mask : Int) ≤ e.maxLength ∧ 0 ≤ e.maxLength ∧ e.maxLength ≤ 128 ∧
      (e.ipnet.ip.length = 4 → e.maxLength ≤ 32) := by
  unfold ROAEntry.validate at h
  simp only [] at h
  split at h
  · simp at h
  · split at h
    · simp at h
    · split at h
      · simp at h
      · split at h
        · simp at h
        · rename_i h1 h2 h3 h4
          refine ⟨by omega, by omega, by omega, ?_⟩
          intro hl
          rw [to4_len4 hl] at h3
          simp at h3; omega

/-- IPv4-mapped IPv6 prefixes are outside of `C41_max_length_exact`: ::ffff:1.2.3.0/120 with max
    length 120 is refused although 120 ≤ 120 ≤ 128. -/
theorem C41_violated_mapped :
    (ROAEntry.validate ⟨⟨List.replicate 10 0 ++ [0xff, 0xff, 1, 2, 3, 0],
      List.replicate 15 255 ++ [0]⟩, 120⟩) = .err "max length too small for IPv4 prefix" := by
  decide +kernel

/-- A prefix length out of range (nil mask after decoding) counts as length 0 here, so the entry
    10.0.0.0/33 with max length 5 passes. -/
theorem C41_violated_bad_length :
    ∃ n, decodeIP [0, 1] ⟨[10, 0, 0, 0, 0], 33⟩ = .ok n ∧ (ROAEntry.validate ⟨n, 5⟩) = .ok () := by
  refine ⟨⟨[10, 0, 0, 0], []⟩, by decide +kernel, by decide +kernel⟩

example : ROAEntry.validate ⟨⟨[10, 0, 0, 0], [255, 0, 0, 0]⟩, 8⟩ = .ok () ∧
    ROAEntry.validate ⟨⟨[10, 0, 0, 0], [255, 0, 0, 0]⟩, 32⟩ = .ok () ∧
    ROAEntry.validate ⟨⟨[10, 0, 0, 0], [255, 0, 0, 0]⟩, 33⟩ ≠ .ok () ∧
    ROAEntry.validate ⟨⟨[10, 0, 0, 0], [255, 0, 0, 0]⟩, 7⟩ ≠ .ok () := by decide +kernel

/-! ## C42 — ROA content round trip -/

/-- Effective max length: the prefix length when absent (negative). -/
def effective (e : ROAEntry) : ROAEntry :=
  ⟨e.ipnet, if e.maxLength < 0 then (maskSize e.ipnet.mask : Int) else e.maxLength⟩

/-- Entries with a proper prefix in network form, not IPv4-mapped. -/
def GoodEntry (e : ROAEntry) : Prop := ProperNet e.ipnet ∧ Canonical e.ipnet ∧ ¬ Mapped e.ipnet.ip

theorem roaAfi_good {e : ROAEntry} (h : GoodEntry e) :
    roaAfi e = if e.ipnet.ip.length = 4 then 1 else 2 := by
  unfold roaAfi
  rcases h.1.2.1 with hs | hs
  · simp [to4_len4 hs, hs]
  · simp [not_mapped hs h.2.2, hs]

theorem convertAddrs_encode (k : UInt8) (l : List ROAEntry) (h : ∀ e ∈ l, GoodEntry e ∧ roaAfi e = k) :
    convertAddrs [0, k] (encodeROAFamily k l).addresses = .ok (l.map effective) := by
  induction l with
  | nil => rfl
  | cons e l ih =>
    obtain ⟨hg, hk⟩ := h e (by simp)
    have ih := ih (fun x hx => h x (by simp [hx]))
    simp only [encodeROAFamily] at ih
    have hf : IsFamily [0, k] e.ipnet.ip.length := by
      rw [roaAfi_good hg] at hk
      rcases hg.1.2.1 with hs | hs
      · rw [if_pos hs] at hk; rw [← hk, hs]; exact ⟨0, [], .inl ⟨rfl, rfl⟩⟩
      · rw [if_neg (by omega)] at hk; rw [← hk, hs]; exact ⟨0, [], .inr ⟨rfl, rfl⟩⟩
    obtain ⟨n', hd, _, _, hc⟩ := C09_prefix_round_trip e.ipnet hg.1 _ hf
    rw [hc hg.2.1] at hd
    simp only [encodeROAFamily, List.map_cons, convertAddrs, hd, ih, Go.ok_bind, Go.pure_def, effective]

/-- **C42.** Encoding a list of ROA entries and converting the content back gives the same AS and the
    same prefixes with their effective max lengths: first the IPv4 entries, then the IPv6 entries,
    in order. -/
theorem C42_roa_round_trip (asn : Int) (l : List ROAEntry) (h : ∀ e ∈ l, GoodEntry e) :
    convertROAEntries (encodeROAEntries asn l) =
      .ok ((l.filter (fun e => e.ipnet.ip.length = 4)).map effective ++
           (l.filter (fun e => e.ipnet.ip.length = 16)).map effective, asn) := by
  have f1 : l.filter (fun e => roaAfi e = 1) = l.filter (fun e => e.ipnet.ip.length = 4) := by
    apply List.filter_congr
    intro e he
    rw [roaAfi_good (h e he)]
    split <;> simp_all
  have f2 : l.filter (fun e => roaAfi e = 2) = l.filter (fun e => e.ipnet.ip.length = 16) := by
    apply List.filter_congr
    intro e he
    rw [roaAfi_good (h e he)]
    have := (h e he).1.2.1
    split
    · rename_i h4; simp [h4]
    · rename_i h4; simp; omega
  have g1 := convertAddrs_encode 1 (l.filter (fun e => roaAfi e = 1))
    (by intro e he; simp at he; exact ⟨h e he.1, he.2⟩)
  have g2 := convertAddrs_encode 2 (l.filter (fun e => roaAfi e = 2))
    (by intro e he; simp at he; exact ⟨h e he.1, he.2⟩)
  unfold convertROAEntries encodeROAEntries
  rw [← f1, ← f2]
  simp only []
  generalize l.filter (fun e => roaAfi e = 1) = A at *
  generalize l.filter (fun e => roaAfi e = 2) = B at *
  have a1 : (encodeROAFamily 1 A).addressFamily = [0, 1] := rfl
  have a2 : (encodeROAFamily 2 B).addressFamily = [0, 2] := rfl
  by_cases hA : A = [] <;> by_cases hB : B = [] <;>
    simp [hA, hB, convertBlocks, a1, a2, g1, g2]

/-- IPv4-mapped IPv6 prefixes are outside of `C42`: they are encoded as IPv4 with 120 bits and come
    back with a nil mask. -/
theorem C42_violated_mapped :
    convertROAEntries (encodeROAEntries 1 [⟨⟨List.replicate 10 0 ++ [0xff, 0xff, 1, 2, 3, 0],
      List.replicate 15 255 ++ [0]⟩, 120⟩]) = .ok ([⟨⟨[0, 0, 0, 0], []⟩, 120⟩], 1) := by
  decide +kernel

theorem good_net10 (m : Int) : GoodEntry ⟨⟨[10, 0, 0, 0], [255, 0, 0, 0]⟩, m⟩ :=
  ⟨proper_net10, canonical_net10.2.1, canonical_net10.2.2⟩

example : ∀ e ∈ [(⟨⟨[10, 0, 0, 0], [255, 0, 0, 0]⟩, -1⟩ : ROAEntry), ⟨⟨[10, 0, 0, 0], [255, 0, 0, 0]⟩, 24⟩],
    GoodEntry e := by
  intro e he
  simp at he
  rcases he with rfl | rfl <;> exact good_net10 _

/-! ## C23, entry part — entries listed as valid are covered by the certificate -/

theorem roaStep_valids {cert : List IPInfo} {s t : Split ROAEntry} {e : ROAEntry}
    (h : roaStep cert s e = .ok t) : t.valids = s.valids ∨
      (t.valids = s.valids ++ [e] ∧ ∃ lo hi, isIPRangeInCertificate cert lo hi = .ok (true, false) ∧
        (getRangeIP (some e.ipnet) = .ok (lo, hi) ∨ ((∃ m, getRangeIP (some e.ipnet) = .err m) ∧ lo = [] ∧ hi = []))) := by
  unfold roaStep at h
  simp only [] at h
  have hv : ∀ lo hi v, isIPRangeInCertificate cert lo hi = .ok v → v.1 = true → v = (true, false) := by
    intro lo hi v
    clear h
    induction cert with
    | nil => intro h; simp [isIPRangeInCertificate] at h; simp [← h]
    | cons x rest ih =>
      intro h ht
      obtain ⟨_, _, _, _, h | h | h⟩ := isIPRange_cons h
      · exact h.2.2
      · rw [h.2.2] at ht; simp at ht
      · exact ih h.2.2 ht
  cases hr : getRangeIP (some e.ipnet) with
  | ok r =>
    obtain ⟨b, x⟩ := r
    simp only [hr] at h
    obtain ⟨v, h1, h2⟩ := Go.bind_eq_ok.mp h
    split at h2
    · rename_i ht
      simp at h2; subst h2
      right; refine ⟨rfl, b, x, ?_, .inl rfl⟩
      rw [h1, hv _ _ _ h1 ht]
    · split at h2 <;> simp at h2 <;> subst h2 <;> exact .inl rfl
  | err m =>
    simp only [hr] at h
    obtain ⟨v, h1, h2⟩ := Go.bind_eq_ok.mp h
    split at h2
    · rename_i ht
      simp at h2; subst h2
      right; refine ⟨rfl, [], [], ?_, .inr ⟨⟨m, rfl⟩, rfl, rfl⟩⟩
      rw [h1, hv _ _ _ h1 ht]
    · split at h2 <;> simp at h2 <;> subst h2 <;> exact .inl rfl
  | panic => simp [getRangeIP] at hr; split at hr <;> simp at hr
  | diverge => simp [getRangeIP] at hr; split at hr <;> simp at hr

theorem roaSplit_valids {cert : List IPInfo} {l : List ROAEntry} {s t : Split ROAEntry}
    (h : roaSplitFrom cert s l = .ok t) (e : ROAEntry) (he : e ∈ t.valids) :
    e ∈ s.valids ∨ (e ∈ l ∧ ∃ lo hi, isIPRangeInCertificate cert lo hi = .ok (true, false) ∧
      (getRangeIP (some e.ipnet) = .ok (lo, hi) ∨ ((∃ m, getRangeIP (some e.ipnet) = .err m) ∧ lo = [] ∧ hi = []))) := by
  induction l generalizing s with
  | nil => simp [roaSplitFrom] at h; subst h; exact .inl he
  | cons x l ih =>
    unfold roaSplitFrom at h
    obtain ⟨s', h1, h2⟩ := Go.bind_eq_ok.mp h
    rcases ih h2 with h' | ⟨h', hr⟩
    · rcases roaStep_valids h1 with h3 | ⟨h3, hr⟩
      · rw [h3] at h'; exact .inl h'
      · rw [h3] at h'
        rcases List.mem_append.mp h' with h' | h'
        · exact .inl h'
        · simp at h'; subst h'; exact .inr ⟨by simp, hr⟩
    · exact .inr ⟨by simp [h'], hr⟩

/-- **C23, entries.** Every entry with a proper prefix that is listed as valid stands only for
    addresses that one single resource entry of the certificate stands for. -/
theorem C23_valid_entries_covered (entries : List ROAEntry) (cert : List IPInfo)
    (hw : ∀ e ∈ cert, WfEntry e) (s : Split ROAEntry)
    (h : validateIPRoaCertificateList entries cert = .ok s) (e : ROAEntry) (he : e ∈ s.valids)
    (hp : ProperNet e.ipnet) :
    e ∈ entries ∧ ∃ r ∈ cert, ∀ x, Denotes (.net (some e.ipnet)) x → Denotes r x := by
  rcases roaSplit_valids h e he with h' | ⟨h', lo, hi, h1, h2⟩
  · simp at h'
  · refine ⟨h', ?_⟩
    obtain ⟨b, x, hr, hb, hx, hd⟩ := getRangeIP_proper hp
    rcases h2 with h2 | ⟨⟨m, h2⟩, _⟩
    · rw [hr] at h2
      simp at h2
      obtain ⟨rfl, rfl⟩ := h2
      have hs := hp.2.1
      obtain ⟨r, hr', hc⟩ := isIPRange_sound hw (by omega) (by omega) h1
      exact ⟨r, hr', fun y hy => hc y ((hd y).mp hy).1 ((hd y).mp hy).2⟩
    · rw [hr] at h2; simp at h2

/-- **C23, malformed entries.** An entry whose prefix length was out of range can be listed as valid
    (and at the same time as invalid), when the certificate holds a malformed prefix too. -/
theorem C23_violated_malformed :
    let e : ROAEntry := ⟨⟨[10, 0, 0, 0], []⟩, 0⟩
    validateIPRoaCertificateList [e] [.net (some ⟨[192, 0, 2, 0], []⟩)] = .ok ⟨[e], [e], []⟩ := by
  decide +kernel

example : validateIPRoaCertificateList
    [⟨⟨[10, 1, 0, 0], [255, 255, 0, 0]⟩, 24⟩, ⟨⟨[11, 1, 0, 0], [255, 255, 0, 0]⟩, 24⟩] [net2001, net10]
    = .ok ⟨[⟨⟨[10, 1, 0, 0], [255, 255, 0, 0]⟩, 24⟩], [⟨⟨[11, 1, 0, 0], [255, 255, 0, 0]⟩, 24⟩], []⟩ := by
  decide +kernel

end Verif.Props
