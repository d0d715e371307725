import Verif.Lemmas.OutputSign
/-
  Property theorems for the published list: C51-C55, C60, C77.
-/
set_option autoImplicit false

namespace Verif.Props
open BerSpec Net Cert ResSpec OutSpec Out Roa

/-! ## C77 — prefixes are read back from their texts -/

/-- **C77.** The text written for a prefix in network form (IPv4, or IPv6 that is not IPv4-mapped) is read
    back as the same prefix. -/
theorem C77_prefix_text_round_trip (n : IPNet) (h : ProperNet n) (hc : Canonical n) (hm : ¬ Mapped n.ip) :
    parseCIDR (ipNetString n) = some n := parseCIDR_good h hc hm

/-- **C77.** Different prefixes have different texts. -/
theorem C77_prefix_text_injective (n m : IPNet) (hn : ProperNet n) (hcn : Canonical n) (hmn : ¬ Mapped n.ip)
    (hm : ProperNet m) (hcm : Canonical m) (hmm : ¬ Mapped m.ip) (h : ipNetString n = ipNetString m) : n = m := by
  have h1 := parseCIDR_good hn hcn hmn
  have h2 := parseCIDR_good hm hcm hmm
  rw [h, h2] at h1
  exact (Option.some.inj h1).symm

/-- **C77.** With host bits set, the text is read as the prefix without them. -/
theorem C77_host_bits_cleared (n : IPNet) (p : Nat) (h : ProperNet n) (hp : IsMask p n.mask) (hm : ¬ Mapped n.ip) :
    ∃ n', parseCIDR (ipNetString n) = some n' ∧ n'.mask = n.mask ∧ n'.ip.length = n.ip.length ∧
      beVal n'.ip = beVal n.ip / 2 ^ (8 * n.mask.length - p) * 2 ^ (8 * n.mask.length - p) := by
  obtain ⟨b, e, hr, hb, he, vb, ve⟩ := rangeBytes_spec n.mask.length p hp.1 n.ip h.1
  rw [← eq_maskBytes hp] at hr
  refine ⟨_, parseCIDR_proper h hp hm, rfl, ?_, ?_⟩
  · rw [← maskIP_range hr, hb, h.1]
  · rw [← maskIP_range hr, vb]

/-- Whatever the text, what is read is a prefix in network form. -/
theorem C77_read_is_network_form (s : Bytes) (n : IPNet) (h : parseCIDR s = some n) : ProperNet n ∧ Canonical n := by
  obtain ⟨ip, p, rfl, hp, hl⟩ := parseCIDR_shape h
  have hmask := isMask_maskBytes ip.length p hp
  have hlen : (maskIP ip (maskBytes ip.length p)).length = ip.length := maskIP_length (by rw [maskBytes_length])
  obtain ⟨b, e, hr, hb, he, vb, ve⟩ := rangeBytes_spec ip.length p hp ip rfl
  refine ⟨⟨by simp only [hlen, maskBytes_length], by simp only [hlen]; exact hl, p, hmask⟩, p, hmask, ?_⟩
  simp only [maskBytes_length]
  rw [← maskIP_range hr, vb]
  exact Nat.dvd_mul_left _ _

namespace OutEx

def net10 : IPNet := ⟨[10, 0, 0, 0], [255, 0, 0, 0]⟩
def net24 : IPNet := ⟨[192, 0, 2, 0], [255, 255, 255, 0]⟩
def net25 : IPNet := ⟨[192, 0, 2, 128], [255, 255, 255, 128]⟩
/-- 2001:db8::/32 -/
def netDoc : IPNet := ⟨[0x20, 1, 0xd, 0xb8] ++ List.replicate 12 0, List.replicate 4 255 ++ List.replicate 12 0⟩
/-- 2001:0:0:1::/64: two runs of zeros -/
def netRuns : IPNet := ⟨[0x20, 1, 0, 0, 0, 0, 0, 1] ++ List.replicate 8 0, List.replicate 8 255 ++ List.replicate 8 0⟩

theorem proper {n : IPNet} (p : Nat) (h : n.ip.length = n.mask.length ∧ (n.ip.length = 4 ∨ n.ip.length = 16) ∧
    p ≤ 8 * n.mask.length ∧ beVal n.mask + 2 ^ (8 * n.mask.length - p) = 2 ^ (8 * n.mask.length) ∧
    2 ^ (8 * n.mask.length - p) ∣ beVal n.ip) : ProperNet n ∧ Canonical n :=
  ⟨⟨h.1, h.2.1, p, h.2.2.1, h.2.2.2.1⟩, p, ⟨h.2.2.1, h.2.2.2.1⟩, h.2.2.2.2⟩

theorem not_mapped_of {a : Bytes} (h : a.head? ≠ some 0) : ¬ Mapped a := by
  rintro ⟨d, _, rfl⟩
  simp [List.replicate] at h

theorem good10 : ProperNet net10 ∧ Canonical net10 ∧ ¬ Mapped net10.ip := by
  have := proper (n := net10) 8 (by decide +kernel)
  exact ⟨this.1, this.2, not_mapped_of (by decide)⟩

theorem good24 : ProperNet net24 ∧ Canonical net24 ∧ ¬ Mapped net24.ip := by
  have := proper (n := net24) 24 (by decide +kernel)
  exact ⟨this.1, this.2, not_mapped_of (by decide)⟩

theorem good25 : ProperNet net25 ∧ Canonical net25 ∧ ¬ Mapped net25.ip := by
  have := proper (n := net25) 25 (by decide +kernel)
  exact ⟨this.1, this.2, not_mapped_of (by decide)⟩

theorem goodDoc : ProperNet netDoc ∧ Canonical netDoc ∧ ¬ Mapped netDoc.ip := by
  have := proper (n := netDoc) 32 (by decide +kernel)
  exact ⟨this.1, this.2, not_mapped_of (by decide)⟩

theorem goodRuns : ProperNet netRuns ∧ Canonical netRuns ∧ ¬ Mapped netRuns.ip := by
  have := proper (n := netRuns) 64 (by decide +kernel)
  exact ⟨this.1, this.2, not_mapped_of (by decide)⟩

end OutEx

example : ipNetString OutEx.net10 = asc "10.0.0.0/8".toList ∧ ipNetString OutEx.netDoc = asc "2001:db8::/32".toList ∧
    ipNetString OutEx.netRuns = asc "2001:0:0:1::/64".toList ∧
    ipNetString ⟨List.replicate 16 0, List.replicate 16 0⟩ = asc "::/0".toList := by decide +kernel

example : parseCIDR (asc "2001:0:0:1::/64".toList) = some OutEx.netRuns := by
  have := C77_prefix_text_round_trip _ OutEx.goodRuns.1 OutEx.goodRuns.2.1 OutEx.goodRuns.2.2
  rwa [show ipNetString OutEx.netRuns = asc "2001:0:0:1::/64".toList by decide +kernel] at this

/-! ## C51 — duplicates -/

/-- **C51.** Removing duplicates keeps exactly the VRPs that are the first with their prefix, max length and
    AS number, in order; no two of them agree in all three; no triple is lost. (The AS number is written
    without '/'.) -/
theorem C51_dedup (l : List ROAJson) (h : ∀ r ∈ l, Free 47 r.asn) :
    (filterDuplicates l).Sublist l ∧
      (∀ r, r ∈ filterDuplicates l ↔ IsFirst l r) ∧
      ((filterDuplicates l).map triple).Nodup ∧
      (∀ t, t ∈ (filterDuplicates l).map triple ↔ t ∈ l.map triple) := by
  have hsub := dedupLoop_sublist l []
  have hmem : ∀ r, r ∈ filterDuplicates l ↔ IsFirst l r := by
    intro r
    unfold filterDuplicates
    rw [dedupLoop_mem]
    constructor
    · rintro ⟨_, a, b, rfl, hx⟩
      refine ⟨a, b, rfl, fun x hx' he => hx x hx' ?_⟩
      exact (str_inj (h x (by simp [hx'])) (h r (by simp))).mpr he
    · rintro ⟨a, b, rfl, hx⟩
      refine ⟨by simp, a, b, rfl, fun x hx' he => hx x hx' ?_⟩
      exact (str_inj (h x (by simp [hx'])) (h r (by simp))).mp he
  refine ⟨hsub, hmem, ?_, ?_⟩
  · have hn := dedupLoop_nodup l []
    unfold filterDuplicates
    rw [List.Nodup, List.pairwise_map] at hn ⊢
    refine hn.imp_of_mem ?_
    intro a b ha hb hne he
    exact hne ((str_inj (h a (hsub.subset ha)) (h b (hsub.subset hb))).mpr he)
  · intro t
    constructor
    · intro ht
      obtain ⟨r, hr, rfl⟩ := List.mem_map.mp ht
      exact List.mem_map.mpr ⟨r, hsub.subset hr, rfl⟩
    · intro ht
      obtain ⟨r, hr, rfl⟩ := List.mem_map.mp ht
      obtain ⟨x, a, b, h1, h2, h3⟩ := exists_first triple l r hr
      exact List.mem_map.mpr ⟨x, (hmem x).mpr ⟨a, b, h2, fun y hy => h1 ▸ h3 y hy⟩, h1⟩

/-- A list without duplicates is left as it is. -/
theorem C51_dedup_fixed (l : List ROAJson) (h : ∀ r ∈ l, Free 47 r.asn) (hn : (l.map triple).Nodup) :
    filterDuplicates l = l := by
  apply dedup_idem_of_nodup l [] (by simp)
  rw [List.Nodup, List.pairwise_map] at hn ⊢
  refine hn.imp_of_mem ?_
  intro a b ha hb hne he
  exact hne ((str_inj (h a ha) (h b hb)).mp he)

namespace OutEx
def vrp (p : String) (len : UInt8) (asn : String) (ta : String) : ROAJson :=
  ⟨asc p.toList, len, asc asn.toList, asc ta.toList⟩
end OutEx

example : (∀ r ∈ [OutEx.vrp "10.0.0.0/8" 8 "AS1" "ripe", OutEx.vrp "10.0.0.0/8" 9 "AS1" "ripe",
      OutEx.vrp "10.0.0.0/8" 8 "AS1" "arin"], Free 47 r.asn) ∧
    filterDuplicates [OutEx.vrp "10.0.0.0/8" 8 "AS1" "ripe", OutEx.vrp "10.0.0.0/8" 9 "AS1" "ripe",
      OutEx.vrp "10.0.0.0/8" 8 "AS1" "arin"] =
    [OutEx.vrp "10.0.0.0/8" 8 "AS1" "ripe", OutEx.vrp "10.0.0.0/8" 9 "AS1" "ripe"] := by
  unfold Free; decide +kernel

/-! ## C52 — filter on prefix lengths -/

open Classical in
/-- **C52.** On a list of VRPs with well-formed prefixes, the filter keeps, in order, exactly those with an
    IPv4 prefix of at most 24 bits or an IPv6 prefix of at most 48 bits. -/
theorem C52_filter_exact (l : List ROAJson) (h : ∀ r ∈ l, ∃ n p, TextOf r.prefixText n p) :
    filterInvalidPrefixLen l = .ok (l.filter fun r => ∃ n p, TextOf r.prefixText n p ∧ Short n p) := by
  apply filterInvalidPrefixLen_ok
  intro r hr
  obtain ⟨n, p, hn, hp, hm, ht⟩ := h r hr
  have hg : r.getPrefix = some ⟨maskIP n.ip n.mask, n.mask⟩ := by
    unfold ROAJson.getPrefix
    rw [ht]
    exact parseCIDR_proper hn hp hm
  obtain ⟨q, hq, hl, hlm, hk⟩ := keepLen_exact hg
  have hqp := isMask_inj hp hq
  subst hqp
  have hlen := maskIP_length (a := n.ip) (m := n.mask) hn.1
  rw [hk]
  simp only [hlen]
  congr 1
  rw [decide_eq_decide]
  constructor
  · intro hs
    exact ⟨n, p, ⟨hn, hp, hm, ht⟩, hs⟩
  · rintro ⟨n', p', ⟨hn', hp', hm', ht'⟩, hs⟩
    have h1 := parseCIDR_proper hn hp hm
    have h2 := parseCIDR_proper hn' hp' hm'
    rw [← ht, ht', h2] at h1
    have h3 := Option.some.inj h1
    obtain ⟨hip0, hmask⟩ := IPNet.mk.inj h3
    have hip : (maskIP n'.ip n'.mask).length = (maskIP n.ip n.mask).length := congrArg List.length hip0
    rw [maskIP_length hn'.1, hlen] at hip
    rw [hmask] at hp'
    have := isMask_inj hp hp'
    subst this
    unfold Short at hs
    rw [hip] at hs
    exact hs

/-- **C52**, for any text that can be read as a prefix, also one that is not written in the usual way: a VRP
    is kept exactly when what is read is an IPv4 prefix of at most 24 bits or an IPv6 prefix of at most 48
    bits; and the filter fails on no such list. -/
theorem C52_filter_any_text (l : List ROAJson) (h : ∀ r ∈ l, r.getPrefix ≠ none) :
    ∃ d, filterInvalidPrefixLen l = .ok d ∧ d.Sublist l ∧
      ∀ r ∈ l, (r ∈ d ↔ ∃ n p, r.getPrefix = some n ∧ IsMask p n.mask ∧ Short n p) := by
  classical
  have hk : ∀ r ∈ l, keepLen r = .ok (decide (∃ n p, r.getPrefix = some n ∧ IsMask p n.mask ∧ Short n p)) := by
    intro r hr
    obtain ⟨n, hn⟩ := Option.ne_none_iff_exists'.mp (h r hr)
    obtain ⟨q, hq, hl, hlm, hk⟩ := keepLen_exact hn
    rw [hk]
    congr 1
    rw [decide_eq_decide]
    constructor
    · intro hs; exact ⟨n, q, hn, hq, hs⟩
    · rintro ⟨n', p, hn', hp, hs⟩
      rw [hn] at hn'
      have := Option.some.inj hn'
      subst this
      have := isMask_inj hp hq
      subst this
      exact hs
  refine ⟨_, filterInvalidPrefixLen_ok l _ hk, List.filter_sublist, ?_⟩
  intro r hr
  rw [List.mem_filter]
  simp [hr]

/-- A text that cannot be read as a prefix crashes the filter. -/
theorem C52_unreadable_crashes (l : List ROAJson) (r : ROAJson) (hr : r ∈ l) (h : r.getPrefix = none) :
    filterInvalidPrefixLen l = .panic := filterInvalidPrefixLen_panic l r hr h

example : filterInvalidPrefixLen [OutEx.vrp "192.0.2.0/24" 24 "AS1" "", OutEx.vrp "192.0.2.128/25" 25 "AS1" "",
      OutEx.vrp "2001:db8::/32" 32 "AS1" "", OutEx.vrp "2001:0:0:1::/64" 64 "AS1" "", OutEx.vrp "::ffff:0:0/96" 96 "AS1" ""] =
    .ok [OutEx.vrp "192.0.2.0/24" 24 "AS1" "", OutEx.vrp "2001:db8::/32" 32 "AS1" ""] := by decide +kernel

example : TextOf (asc "192.0.2.128/25".toList) OutEx.net25 25 ∧ ¬ Short OutEx.net25 25 :=
  ⟨⟨OutEx.good25.1, by unfold IsMask; decide +kernel, OutEx.good25.2.2, by decide +kernel⟩, by unfold Short; decide⟩

/-! ## C53 — the published list -/

theorem exportEntry_free (ta : Bytes) (asn : Int) (e : ROAEntry) : Free 47 (exportEntry ta asn e).asn := by
  unfold Free exportEntry
  simp only [List.mem_append, not_or]
  exact ⟨by decide, intText_free (.inl (by decide)) (by decide)⟩

theorem digitVal_ten : ∀ c : UInt8, digitVal 10 c = if 48 ≤ c.toNat ∧ c.toNat ≤ 57 then some (c.toNat - 48) else none := by
  have : ∀ n : Fin 256, digitVal 10 (UInt8.ofNat n.val) =
      if 48 ≤ (UInt8.ofNat n.val).toNat ∧ (UInt8.ofNat n.val).toNat ≤ 57 then some ((UInt8.ofNat n.val).toNat - 48) else none := by decide +kernel
  intro c
  have h := this ⟨c.toNat, c.toNat_lt⟩
  simpa using h

theorem decLoop_exact : ∀ (s : Bytes) (acc n : Nat), acc < 2 ^ 32 → (decLoop acc s = some n ↔
    (∀ c ∈ s, 48 ≤ c.toNat ∧ c.toNat ≤ 57) ∧ s.foldl (fun a c => a * 10 + (c.toNat - 48)) acc = n ∧ n < 2 ^ 32) := by
  intro s
  induction s with
  | nil => intro acc n h; simp [decLoop]; intro he; omega
  | cons c s ih =>
    intro acc n h
    have hmono : ∀ (s : Bytes) (a : Nat), a ≤ s.foldl (fun a c => a * 10 + (c.toNat - 48)) a := by
      intro s
      induction s with
      | nil => simp
      | cons c s ih => intro a; rw [List.foldl_cons]; exact Nat.le_trans (by omega) (ih _)
    unfold decLoop
    rw [digitVal_ten]
    by_cases hc : 48 ≤ c.toNat ∧ c.toNat ≤ 57
    · rw [if_pos hc]
      simp only []
      by_cases hb : acc * 10 + (c.toNat - 48) > 0xffffffff
      · rw [if_pos hb]
        simp only [reduceCtorEq, false_iff]
        rintro ⟨_, h2, h3⟩
        rw [List.foldl_cons] at h2
        have := hmono s (acc * 10 + (c.toNat - 48))
        omega
      · rw [if_neg hb, ih _ _ (by omega), List.foldl_cons]
        simp only [List.mem_cons, forall_eq_or_imp]
        exact ⟨fun h => ⟨⟨hc, h.1⟩, h.2⟩, fun h => ⟨h.1.2, h.2⟩⟩
    · rw [if_neg hc]
      simp only [reduceCtorEq, false_iff]
      rintro ⟨h1, _⟩
      exact hc (h1 c (by simp))

theorem trimAS_append : ∀ (l s : Bytes), (∀ c ∈ l, c ∈ asc "aAsS".toList) → trimAS (l ++ s) = trimAS s := by
  intro l
  induction l with
  | nil => simp
  | cons c l ih =>
    intro s h
    have hc : c ∈ asc "aAsS".toList := h c (by simp)
    have he : asc "aAsS".toList = [97, 65, 115, 83] := by decide +kernel
    rw [he] at hc
    simp at hc
    rw [List.cons_append, trimAS, if_pos hc]
    exact ih s (fun x hx => h x (by simp [hx]))

theorem trimAS_split : ∀ (t : Bytes), ∃ l, t = l ++ trimAS t ∧ (∀ c ∈ l, c ∈ asc "aAsS".toList) := by
  have he : asc "aAsS".toList = [97, 65, 115, 83] := by decide +kernel
  rw [he]
  intro t
  induction t with
  | nil => exact ⟨[], by simp [trimAS]⟩
  | cons c t ih =>
    obtain ⟨l, h1, h2⟩ := ih
    unfold trimAS
    split
    · rename_i hc
      refine ⟨c :: l, by rw [List.cons_append, ← h1], ?_⟩
      intro x hx
      rcases List.mem_cons.mp hx with rfl | hx
      · simpa using hc
      · exact h2 x hx
    · exact ⟨[], by simp⟩

/-- **C53, AS numbers as text.** The AS number read from a line is exactly the one that the text names, with or without the letters "AS" in upper
    or lower case; a text that names none (or one of more than 32 bits) is read as AS 0. -/
theorem C53_asn_text (r : ROAJson) : (∀ n, AsnText r.asn n → r.getASN = n) ∧ ((¬ ∃ n, AsnText r.asn n) → r.getASN = 0) := by
  have key : ∀ n, parseUint32 (trimAS r.asn) = some n ↔ AsnText r.asn n := by
    intro n
    constructor
    · intro h
      obtain ⟨l, h1, h2⟩ := trimAS_split r.asn
      unfold parseUint32 at h
      split at h
      · simp at h
      · rename_i hne
        obtain ⟨a, b, c⟩ := (decLoop_exact _ 0 n (by omega)).mp h
        exact ⟨l, _, h1, h2, hne, a, b, c⟩
    · rintro ⟨l, d, h1, h2, h3, h4, h5, h6⟩
      have ht : trimAS r.asn = d := by
        rw [h1, trimAS_append l d h2]
        cases d with
        | nil => exact (h3 rfl).elim
        | cons c d =>
          have := h4 c (by simp)
          rw [trimAS, if_neg]
          rintro (rfl | rfl | rfl | rfl) <;> revert this <;> decide
      unfold parseUint32
      rw [ht, if_neg h3]
      exact (decLoop_exact _ 0 n (by omega)).mpr ⟨h4, h5, h6⟩
  refine ⟨fun n h => ?_, fun h => ?_⟩
  · unfold ROAJson.getASN; rw [(key n).mpr h]; rfl
  · unfold ROAJson.getASN
    cases hp : parseUint32 (trimAS r.asn) with
    | none => rfl
    | some n => exact (h ⟨n, (key n).mp hp⟩).elim

example : AsnText (asc "as064500".toList) 64500 := ⟨asc "as".toList, asc "064500".toList, by decide +kernel⟩

/-- **C53, one line.** What a reader understands of the line written for a well-formed authorisation is
    that authorisation. -/
theorem C53_line_lossless (ta : Bytes) (asn : Int) (e : ROAEntry) (h : GoodVrp ⟨e.ipnet, e.maxLength, asn⟩) :
    Reads (exportEntry ta asn e) ⟨e.ipnet, e.maxLength, asn⟩ ∧ (exportEntry ta asn e).ta = ta := by
  obtain ⟨h1, h2, h3, h4, h5, h6, h7⟩ := h
  refine ⟨⟨parseCIDR_good h1 h2 h3, ?_, ?_⟩, rfl⟩
  · simp only [exportEntry] at h4 h5 ⊢
    have : (e.maxLength % 256).toNat < 256 := by omega
    have hh : ((e.maxLength % 256).toNat.toUInt8).toNat = (e.maxLength % 256).toNat := by
      simp [Nat.mod_eq_of_lt this]
    rw [hh]
    omega
  · simp only at h6 h7
    have hi : intText asn = numText 10 asn.natAbs := by unfold intText; rw [if_neg (by omega)]
    have ht : trimAS (exportEntry ta asn e).asn = numText 10 asn.natAbs := by
      simp only [exportEntry, hi]
      show trimAS (65 :: 83 :: numText 10 asn.natAbs) = _
      rw [trimAS, if_pos (by decide), trimAS, if_pos (by decide)]
      cases hn : numText 10 asn.natAbs with
      | nil => exact absurd hn numText_ne_nil
      | cons c r =>
        have hc := digits_chars_ge c (hn ▸ List.mem_cons_self)
        rw [trimAS, if_neg]
        rintro (rfl | rfl | rfl | rfl) <;> revert hc <;> decide
    unfold ROAJson.getASN
    rw [ht, parseUint32_numText (by omega)]
    simp only [Option.getD_some]
    omega

theorem reads_unique {r : ROAJson} {v w : Vrp} (h1 : Reads r v) (h2 : Reads r w) : v = w := by
  obtain ⟨n, m, a⟩ := v
  obtain ⟨n', m', a'⟩ := w
  unfold Reads at h1 h2
  simp only at h1 h2
  have e1 : n = n' := Option.some.inj (h1.1.symm.trans h2.1)
  have e2 : m = m' := h1.2.1.symm.trans h2.2.1
  have e3 : a = a' := h1.2.2.symm.trans h2.2.2
  rw [e1, e2, e3]

theorem reads_congr {r s : ROAJson} {v : Vrp} (h : triple r = triple s) (hr : Reads r v) : Reads s v := by
  unfold triple at h
  simp only [Prod.mk.injEq] at h
  unfold Reads ROAJson.getPrefix ROAJson.getASN at *
  rw [← h.1, ← h.2.1, ← h.2.2]
  exact hr

theorem mem_exportAll {tals : List TalResult} {r : ROAJson} :
    r ∈ exportAll tals ↔ ∃ t ∈ tals, ∃ roa ∈ t.roas, ∃ e ∈ roa.valids, r = exportEntry t.name roa.asn e := by
  simp only [exportAll, exportTal, List.mem_flatMap, List.mem_map]
  constructor
  · rintro ⟨t, ht, roa, hr, e, he, rfl⟩; exact ⟨t, ht, roa, hr, e, he, rfl⟩
  · rintro ⟨t, ht, roa, hr, e, he, rfl⟩; exact ⟨t, ht, roa, hr, e, he, rfl⟩

/-- Same authorisation, same triple. -/
theorem exportEntry_triple {ta ta' : Bytes} {asn asn' : Int} {e e' : ROAEntry}
    (h : (⟨e.ipnet, e.maxLength, asn⟩ : Vrp) = ⟨e'.ipnet, e'.maxLength, asn'⟩) :
    triple (exportEntry ta asn e) = triple (exportEntry ta' asn' e') := by
  simp only [Vrp.mk.injEq] at h
  unfold triple exportEntry
  simp only
  rw [h.1, h.2.1, h.2.2]

/-- **C53.** When the authorisations of the valid ROAs are well-formed, the list is generated, and it has
    exactly one line for each authorisation (with the filter: each one that is short enough), with its
    prefix, its full max length and its AS number; the trust anchor named in a line has a valid ROA with
    this authorisation; the dates are those given. -/
theorem C53_output_exact (filter : Bool) (now validity : Int) (tals : List TalResult) (hg : AllGood tals) :
    ∃ L, generateROAList filter now validity tals = .ok L ∧
      (∀ v, (∃ r ∈ L.data, Reads r v) ↔
        Authorised tals v ∧ (filter = true → ∃ p, IsMask p v.net.mask ∧ Short v.net p)) ∧
      (∀ r ∈ L.data, ∃ t ∈ tals, r.ta = t.name ∧ ∃ roa ∈ t.roas, ∃ e ∈ roa.valids,
        Reads r ⟨e.ipnet, e.maxLength, roa.asn⟩) ∧
      (L.data.Pairwise fun a b => ∀ v, Reads a v → ¬ Reads b v) ∧
      L.metadata.generated = now ∧ L.metadata.valid = now + validity := by
  classical
  -- every line of the unfiltered list
  have hall : ∀ r ∈ exportAll tals, ∃ t ∈ tals, r.ta = t.name ∧ ∃ roa ∈ t.roas, ∃ e ∈ roa.valids,
      Reads r ⟨e.ipnet, e.maxLength, roa.asn⟩ ∧ r = exportEntry t.name roa.asn e := by
    intro r hr
    obtain ⟨t, ht, roa, hroa, e, he, rfl⟩ := mem_exportAll.mp hr
    have := C53_line_lossless t.name roa.asn e (hg _ ⟨t, ht, roa, hroa, e, he, rfl⟩)
    exact ⟨t, ht, rfl, roa, hroa, e, he, this.1, rfl⟩
  have hfree : ∀ r ∈ exportAll tals, Free 47 r.asn := by
    intro r hr
    obtain ⟨t, ht, roa, hroa, e, he, rfl⟩ := mem_exportAll.mp hr
    exact exportEntry_free _ _ _
  have hauth : ∀ v, Authorised tals v → ∃ r ∈ exportAll tals, Reads r v := by
    rintro v ⟨t, ht, roa, hroa, e, he, rfl⟩
    exact ⟨_, mem_exportAll.mpr ⟨t, ht, roa, hroa, e, he, rfl⟩,
      (C53_line_lossless t.name roa.asn e (hg _ ⟨t, ht, roa, hroa, e, he, rfl⟩)).1⟩
  have hback : ∀ r ∈ exportAll tals, ∀ v, Reads r v → Authorised tals v := by
    intro r hr v hv
    obtain ⟨t, ht, _, roa, hroa, e, he, hre, _⟩ := hall r hr
    exact ⟨t, ht, roa, hroa, e, he, reads_unique hv hre⟩
  have hsame : ∀ a ∈ exportAll tals, ∀ b ∈ exportAll tals, ∀ v, Reads a v → Reads b v → triple a = triple b := by
    intro a ha b hb v hav hbv
    obtain ⟨t, ht, _, roa, hroa, e, he, hre, rfl⟩ := hall a ha
    obtain ⟨t', ht', _, roa', hroa', e', he', hre', rfl⟩ := hall b hb
    exact exportEntry_triple ((reads_unique hre hav).trans (reads_unique hbv hre'))
  -- the optional filter
  have hopt : ∃ d, filterOpt filter (exportAll tals) = .ok d ∧ d.Sublist (exportAll tals) ∧
      ∀ v, (∃ r ∈ d, Reads r v) ↔ Authorised tals v ∧ (filter = true → ∃ p, IsMask p v.net.mask ∧ Short v.net p) := by
    cases filter with
    | false =>
      refine ⟨_, rfl, List.Sublist.refl _, ?_⟩
      intro v
      simp only [Bool.false_eq_true, false_implies, and_true]
      exact ⟨fun ⟨r, hr, hv⟩ => hback r hr v hv, hauth v⟩
    | true =>
      obtain ⟨hsub, hfirst, hnd, htr⟩ := C51_dedup (exportAll tals) hfree
      obtain ⟨d, hd, hds, hdm⟩ := C52_filter_any_text (filterDuplicates (exportAll tals)) (by
        intro r hr
        obtain ⟨t, ht, _, roa, hroa, e, he, hre, _⟩ := hall r (hsub.subset hr)
        rw [hre.1]; simp)
      refine ⟨d, hd, hds.trans hsub, ?_⟩
      intro v
      constructor
      · rintro ⟨r, hr, hv⟩
        refine ⟨hback r (hsub.subset (hds.subset hr)) v hv, fun _ => ?_⟩
        obtain ⟨n, p, hn, hp, hs⟩ := (hdm r (hds.subset hr)).mp hr
        have : n = v.net := Option.some.inj (hn.symm.trans hv.1)
        subst this
        exact ⟨p, hp, hs⟩
      · rintro ⟨ha, hs⟩
        obtain ⟨p, hp, hs⟩ := hs rfl
        obtain ⟨r, hr, hv⟩ := hauth v ha
        obtain ⟨x, hx, hxt⟩ := List.mem_map.mp ((htr (triple r)).mpr (List.mem_map.mpr ⟨r, hr, rfl⟩))
        have hxv := reads_congr hxt.symm hv
        exact ⟨x, (hdm x hx).mpr ⟨v.net, p, hxv.1, hp, hs⟩, hxv⟩
  obtain ⟨d, hd, hdsub, hdv⟩ := hopt
  obtain ⟨hsub, hfirst, hnd, htr⟩ := C51_dedup d (fun r hr => hfree r (hdsub.subset hr))
  refine ⟨⟨⟨(exportAll tals).length, now, now + validity, [], []⟩, filterDuplicates d⟩, ?_, ?_, ?_, ?_, rfl, rfl⟩
  · simp only [generateROAList, filterData, hd, Go.ok_bind, Go.pure_def]
  · intro v
    rw [← hdv v]
    constructor
    · rintro ⟨r, hr, hv⟩; exact ⟨r, hsub.subset hr, hv⟩
    · rintro ⟨r, hr, hv⟩
      obtain ⟨x, hx, hxt⟩ := List.mem_map.mp ((htr (triple r)).mpr (List.mem_map.mpr ⟨r, hr, rfl⟩))
      exact ⟨x, hx, reads_congr hxt.symm hv⟩
  · intro r hr
    obtain ⟨t, ht, h1, roa, hroa, e, he, hre, _⟩ := hall r (hdsub.subset (hsub.subset hr))
    exact ⟨t, ht, h1, roa, hroa, e, he, hre⟩
  · rw [List.Nodup, List.pairwise_map] at hnd
    refine hnd.imp_of_mem ?_
    intro a b ha hb hne v hav hbv
    exact hne (hsame a (hdsub.subset (hsub.subset ha)) b (hdsub.subset (hsub.subset hb)) v hav hbv)

/-- **C53, count (partial).** The published count is the number of authorised entries; it is the number of
    published lines when the filter is off and no authorisation occurs twice. Missing: the general claim,
    which is false (`C53_violated_count`). -/
theorem C53_count_partial (filter : Bool) (now validity : Int) (tals : List TalResult) (L : ROAList)
    (h : generateROAList filter now validity tals = .ok L) :
    L.metadata.counts = ((tals.map fun t => (t.roas.map fun r => r.valids.length).sum).sum : Nat) ∧
      (L.data.length : Int) ≤ L.metadata.counts ∧
      (filter = false → ((exportAll tals).map triple).Nodup → L.metadata.counts = L.data.length) := by
  unfold generateROAList at h
  obtain ⟨d, hd, h⟩ := Go.bind_eq_ok.mp h
  simp only [Go.pure_def, Go.ok.injEq] at h
  subst h
  have hfree : ∀ r ∈ exportAll tals, Free 47 r.asn := by
    intro r hr
    obtain ⟨t, ht, roa, hroa, e, he, rfl⟩ := mem_exportAll.mp hr
    exact exportEntry_free _ _ _
  refine ⟨?_, ?_, ?_⟩
  · simp only [exportAll, exportTal, List.length_flatMap, List.length_map]
  · unfold filterData at hd
    obtain ⟨x, hx, hd⟩ := Go.bind_eq_ok.mp hd
    simp only [Go.pure_def, Go.ok.injEq] at hd
    have h1 : d.length ≤ x.length := hd ▸ (dedupLoop_sublist x []).length_le
    have h2 : x.length ≤ (exportAll tals).length := by
      unfold filterOpt at hx
      split at hx
      · have hf : ∀ (l d : List ROAJson), filterInvalidPrefixLen l = .ok d → d.length ≤ l.length := by
          intro l
          induction l with
          | nil => intro d h; simp [filterInvalidPrefixLen] at h; simp [← h]
          | cons r l ih =>
            intro d h
            simp only [filterInvalidPrefixLen] at h
            obtain ⟨k, _, h⟩ := Go.bind_eq_ok.mp h
            obtain ⟨y, hy, h⟩ := Go.bind_eq_ok.mp h
            have := ih y hy
            simp only [Go.pure_def, Go.ok.injEq] at h
            rw [← h]
            split <;> simp <;> omega
        exact Nat.le_trans (hf _ _ hx) (dedupLoop_sublist _ []).length_le
      · simp only [Go.ok.injEq] at hx; rw [hx]
    simp only
    omega
  · rintro rfl hn
    have : filterData false (exportAll tals) = .ok (filterDuplicates (exportAll tals)) := rfl
    rw [this] at hd
    simp only [Go.ok.injEq] at hd
    rw [← hd, C51_dedup_fixed _ hfree hn]

namespace OutEx

def cert : Pki.Cert := ⟨[1], [2], 5, 0, 100, [], [], [], [], true, .other, []⟩
def roa (asn : Int) (valids : List ROAEntry) : Pki.ROA := ⟨asn, valids, cert, true, valids, [], []⟩

/-- Two trust anchors; the entry 10.0.0.0/8-16 AS 65001 occurs in both. -/
def tals : List TalResult :=
  [⟨asc "ripe".toList, [roa 65001 [⟨net10, 16⟩, ⟨netDoc, 48⟩], roa 0 [⟨net25, 25⟩]]⟩,
   ⟨asc "arin".toList, [roa 65001 [⟨net10, 16⟩], roa 4294967295 [⟨net10, 16⟩]]⟩]

theorem tals_good : AllGood tals := by
  rintro v ⟨t, ht, r, hr, e, he, rfl⟩
  simp only [tals, List.mem_cons, List.not_mem_nil, or_false] at ht
  rcases ht with rfl | rfl <;> simp only [List.mem_cons, List.not_mem_nil, or_false] at hr <;>
    rcases hr with rfl | rfl <;> simp only [roa, List.mem_cons, List.not_mem_nil, or_false] at he
  · rcases he with rfl | rfl
    · exact ⟨good10.1, good10.2.1, good10.2.2, by decide, by decide, by decide, by decide⟩
    · exact ⟨goodDoc.1, goodDoc.2.1, goodDoc.2.2, by decide, by decide, by decide, by decide⟩
  · subst he
    exact ⟨good25.1, good25.2.1, good25.2.2, by decide, by decide, by decide, by decide⟩
  · subst he
    exact ⟨good10.1, good10.2.1, good10.2.2, by decide, by decide, by decide, by decide⟩
  · subst he
    exact ⟨good10.1, good10.2.1, good10.2.2, by decide, by decide, by decide, by decide⟩

end OutEx

example : (generateROAList true 1000 3600 OutEx.tals) = .ok ⟨⟨5, 1000, 4600, [], []⟩,
    [OutEx.vrp "10.0.0.0/8" 16 "AS65001" "ripe", OutEx.vrp "2001:db8::/32" 48 "AS65001" "ripe",
     OutEx.vrp "10.0.0.0/8" 16 "AS4294967295" "arin"]⟩ := by decide +kernel

/-- **C53, count, is false in general.** Duplicates are counted (and so are entries that the filter
    removes): here five are announced and three, or four without the filter, are published. -/
theorem C53_violated_count :
    ∃ tals, AllGood tals ∧
      (∃ L, generateROAList true 1000 3600 tals = .ok L ∧ L.metadata.counts = 5 ∧ L.data.length = 3) ∧
      (∃ L, generateROAList false 1000 3600 tals = .ok L ∧ L.metadata.counts = 5 ∧ L.data.length = 4) := by
  refine ⟨OutEx.tals, OutEx.tals_good, ⟨_, rfl, ?_⟩, ⟨_, rfl, ?_⟩⟩ <;> decide +kernel

/-- **C53 needs well-formed prefixes.** A ROA entry for 10.0.0.0/33 passes the decoder and the length checks,
    and it is authorised by a certificate with the same malformed entry. With the filter on (the default)
    the whole program then crashes while it makes the list; with the filter off the entry is published as
    "<nil>". -/
theorem C53_violated_crash :
    ∃ n e, decodeIP [0, 1] ⟨[10, 0, 0, 0, 0], 33⟩ = .ok n ∧ e = ⟨n, 24⟩ ∧ validateEntries [e] = .ok () ∧
      (∃ s, validateIPRoaCertificateList [e] [.net (some n)] = .ok s ∧ e ∈ s.valids) ∧
      (∀ tals, (∃ t ∈ tals, ∃ r ∈ t.roas, e ∈ r.valids) → ∀ now validity,
        generateROAList true now validity tals = .panic) ∧
      (∀ ta asn, (exportEntry ta asn e).prefixText = asc "<nil>".toList) := by
  refine ⟨⟨[10, 0, 0, 0], []⟩, _, by decide +kernel, rfl, by decide +kernel, ⟨_, rfl, by decide +kernel⟩, ?_, ?_⟩
  · rintro tals ⟨t, ht, r, hr, he⟩ now validity
    have hmem : exportEntry t.name r.asn ⟨⟨[10, 0, 0, 0], []⟩, 24⟩ ∈ exportAll tals :=
      mem_exportAll.mpr ⟨t, ht, r, hr, _, he, rfl⟩
    have hfree : ∀ r ∈ exportAll tals, Free 47 r.asn := by
      intro r hr
      obtain ⟨t, ht, roa, hroa, e, he, rfl⟩ := mem_exportAll.mp hr
      exact exportEntry_free _ _ _
    obtain ⟨x, hx, hxt⟩ := List.mem_map.mp (((C51_dedup _ hfree).2.2.2 _).mpr (List.mem_map.mpr ⟨_, hmem, rfl⟩))
    have hnone : x.getPrefix = none := by
      have h1 := congrArg Prod.fst hxt
      simp only [triple] at h1
      unfold ROAJson.getPrefix
      rw [h1]
      show parseCIDR (ipNetString ⟨[10, 0, 0, 0], []⟩) = none
      decide +kernel
    have := C52_unreadable_crashes _ x hx hnone
    simp only [generateROAList, filterData, filterOpt, if_true, this]
    rfl
  · intro ta asn
    show ipNetString ⟨[10, 0, 0, 0], []⟩ = _
    decide +kernel

/-- **C53 needs 32-bit AS numbers.** A ROA with AS number 2^32 (accepted by the decoder, C74) is published,
    and a reader takes it for AS 0; so does one with a negative AS number. -/
theorem C53_violated_asn :
    ∃ c : ROAContent, c.asid = 2 ^ 32 ∧
      ∃ e, convertROAEntries c = .ok ([e], 2 ^ 32) ∧ validateEntries [e] = .ok () ∧
        (exportEntry [] (2 ^ 32) e).asn = asc "AS4294967296".toList ∧ (exportEntry [] (2 ^ 32) e).getASN = 0 ∧
        (exportEntry [] (-1) e).asn = asc "AS-1".toList ∧ (exportEntry [] (-1) e).getASN = 0 := by
  refine ⟨⟨2 ^ 32, [⟨[0, 1], [(⟨[10], 8⟩, -1)]⟩]⟩, rfl, ⟨OutEx.net10, 8⟩, ?_⟩
  decide +kernel

/-! ## C54 — the signed digests -/

/-- **C54, order.** The digests do not depend on the order of the VRPs. -/
theorem C54_digest_order (sha : Bytes → Bytes) (m : MetaData) (d d' : List ROAJson) (h : d.Perm d') :
    ROAList.generateDigest sha ⟨m, d⟩ = ROAList.generateDigest sha ⟨m, d'⟩ := by
  have := sorted_perm (l := ⟨m, d⟩) (l' := ⟨m, d'⟩) h
  unfold ROAList.generateDigest ROAList.datedText
  rw [this]

/-- **C54, binding.** If the hash has no collision on the two texts, lists with the same first digest have the
    same prefixes, max lengths and AS numbers, with the same multiplicities; lists with the same second
    digest have also the same dates. (Fields are written without commas.) -/
theorem C54_digest_binds (sha : Bytes → Bytes) (l l' : ROAList)
    (hl : ∀ r ∈ l.data, Free 44 r.prefixText ∧ Free 44 r.asn)
    (hl' : ∀ r ∈ l'.data, Free 44 r.prefixText ∧ Free 44 r.asn) :
    ((sha l.sorted = sha l'.sorted → l.sorted = l'.sorted) →
      (l.generateDigest sha).1 = (l'.generateDigest sha).1 → (l.data.map triple).Perm (l'.data.map triple)) ∧
    ((sha l.datedText = sha l'.datedText → l.datedText = l'.datedText) →
      (l.generateDigest sha).2 = (l'.generateDigest sha).2 → (l.data.map triple).Perm (l'.data.map triple) ∧
        l.metadata.generated = l'.metadata.generated ∧ l.metadata.valid = l'.metadata.valid) := by
  obtain ⟨ts, h1, h2⟩ := sorted_lines l
  obtain ⟨ts', h1', h2'⟩ := sorted_lines l'
  have hn : ∀ t ∈ ts, NoComma t := by
    intro t ht
    obtain ⟨r, hr, rfl⟩ := List.mem_map.mp (h1.subset ht)
    exact hl r hr
  have hn' : ∀ t ∈ ts', NoComma t := by
    intro t ht
    obtain ⟨r, hr, rfl⟩ := List.mem_map.mp (h1'.subset ht)
    exact hl' r hr
  constructor
  · intro hsha he
    have := hsha he
    rw [h2, h2'] at this
    have := (lines_inj ts ts' [] [] hn hn' (by simp) (by simp) (by simpa using this)).1
    subst this
    exact h1.symm.trans h1'
  · intro hsha he
    have := hsha he
    unfold ROAList.datedText at this
    simp only [List.append_assoc, List.cons_append] at this
    obtain ⟨hgen, hrest⟩ := split_first (s := 44) (intText_free (.inl (by decide)) (by decide))
      (intText_free (.inl (by decide)) (by decide)) this
    rw [h2, h2'] at hrest
    obtain ⟨e1, e2⟩ := lines_inj ts ts' _ _ hn hn' (intText_free (.inl (by decide)) (by decide))
      (intText_free (.inl (by decide)) (by decide)) hrest
    subst e1
    exact ⟨h1.symm.trans h1', intText_inj hgen, intText_inj e2⟩

/-- The trust anchor is not covered by the signature. -/
theorem C54_trust_anchor_not_covered (sha : Bytes → Bytes) (m : MetaData) (d : List ROAJson) (ta : Bytes) :
    ROAList.generateDigest sha ⟨m, d⟩ = ROAList.generateDigest sha ⟨m, d.map fun r => { r with ta := ta }⟩ := by
  unfold ROAList.generateDigest ROAList.datedText ROAList.sorted
  simp only [List.map_map]
  rfl

/-- The lines that octorpki writes for well-formed prefixes have no commas in the fields. -/
example : ∀ r ∈ [OutEx.vrp "10.0.0.0/8" 16 "AS65001" "ripe", OutEx.vrp "2001:db8::/32" 48 "AS65001" "ripe"],
    Free 44 r.prefixText ∧ Free 44 r.asn := by unfold Free; decide +kernel

example : ROAList.sorted ⟨⟨2, 0, 0, [], []⟩, [OutEx.vrp "9.0.0.0/8" 8 "AS1" "", OutEx.vrp "10.0.0.0/8" 16 "AS2" ""]⟩ =
    asc "10.0.0.0/8,16,AS2,9.0.0.0/8,8,AS1,".toList := by decide +kernel

/-! ## C55 — signed lists verify -/

/-- **C55.** A list signed by the server verifies under the matching public key, without and with the dates,
    whatever the order of its lines. ECDSA itself is assumed to verify what it signed, with signatures of
    less than 2^31 octets. -/
theorem C55_signed_verifies (sha : Bytes → Bytes) (ec : Ecdsa)
    (hec : ∀ seed d r s, ec.sign seed d = some (r, s) → ec.verify d r s = true ∧ (derSig r s).length < 2 ^ 31)
    (seed1 seed2 : Nat) (l : ROAList)
    (h1 : ec.sign seed1 (l.generateDigest sha).1 ≠ none) (h2 : ec.sign seed2 (l.generateDigest sha).2 ≠ none)
    (data : List ROAJson) (hp : data.Perm l.data) :
    ROAList.checkFile sha ec { signROAList sha ec seed1 seed2 l with data := data } = .ok (true, true) := by
  obtain ⟨⟨r1, s1⟩, e1⟩ := Option.ne_none_iff_exists'.mp h1
  obtain ⟨⟨r2, s2⟩, e2⟩ := Option.ne_none_iff_exists'.mp h2
  have hs : l.sign sha ec seed1 seed2 = .ok (hexString (derSig r1 s1), hexString (derSig r2 s2)) := by
    unfold ROAList.sign
    simp only [e1, e2]
  unfold signROAList
  rw [hs]
  simp only
  have hd : ∀ sig sigd, ROAList.generateDigest sha
      ⟨{ l.metadata with signature := sig, signatureDate := sigd }, data⟩ = l.generateDigest sha := by
    intro sig sigd
    have := sorted_perm (l := ⟨{ l.metadata with signature := sig, signatureDate := sigd }, data⟩) (l' := l) hp
    unfold ROAList.generateDigest ROAList.datedText
    rw [this]
  unfold ROAList.checkFile
  simp only [hd, hexDecode_hexString, Go.ok_bind, readSig_derSig r1 s1 (hec _ _ _ _ e1).2,
    readSig_derSig r2 s2 (hec _ _ _ _ e2).2, Go.pure_def, (hec _ _ _ _ e1).1, (hec _ _ _ _ e2).1]

/-- When signing fails the list is still published, with empty signatures, and never verifies. -/
theorem C55_unsigned_refused (sha : Bytes → Bytes) (ec : Ecdsa) (seed1 seed2 : Nat) (l : ROAList)
    (h : ec.sign seed1 (l.generateDigest sha).1 = none ∨ ec.sign seed2 (l.generateDigest sha).2 = none) :
    ∃ e, ROAList.checkFile sha ec (signROAList sha ec seed1 seed2 l) = .err e := by
  have hs : ∃ e, l.sign sha ec seed1 seed2 = .err e := by
    unfold ROAList.sign
    simp only
    split
    · rename_i h1 h2
      rcases h with h | h
      · rw [h] at h1; simp at h1
      · rw [h] at h2; simp at h2
    · exact ⟨_, rfl⟩
  obtain ⟨e, hs⟩ := hs
  unfold signROAList
  rw [hs]
  exact ⟨_, rfl⟩

/-- A toy scheme for the hypotheses: the signature is the digest and 1. -/
def toyEc : Ecdsa := ⟨fun _ d => some (beVal d, 1), fun d r s => r = beVal d ∧ s = 1⟩

example : ROAList.checkFile id toyEc (signROAList id toyEc 0 0 ⟨⟨1, 5, 6, [], []⟩, [OutEx.vrp "10.0.0.0/8" 8 "AS1" ""]⟩) =
    .ok (true, true) := by decide +kernel

example : ROAList.checkFile id toyEc { signROAList id toyEc 0 0 ⟨⟨1, 5, 6, [], []⟩, [OutEx.vrp "10.0.0.0/8" 8 "AS1" ""]⟩ with
    data := [OutEx.vrp "10.0.0.0/8" 9 "AS1" ""] } = .ok (false, false) := by decide +kernel

/-! ## C60 — entity tag -/

/-- **C60 is false.** For any hash function: two lists generated in the same second with the same number of
    entries have the same entity tag, so a client that has the first one is told that nothing changed. -/
theorem C60_violated (sha : Bytes → Bytes) :
    ∃ tals tals' L L', AllGood tals ∧ AllGood tals' ∧ generateROAList true 1000 3600 tals = .ok L ∧
      generateROAList true 1000 3600 tals' = .ok L' ∧ L.data ≠ L'.data ∧ etag sha L = etag sha L' ∧
      (etag sha L ≠ [] → notModified sha L' (etag sha L) = true) := by
  have hgood : ∀ n, ProperNet n ∧ Canonical n ∧ ¬ Mapped n.ip → AllGood [⟨[], [OutEx.roa 1 [⟨n, 24⟩]]⟩] := by
    rintro n hn v ⟨t, ht, r, hr, e, he, rfl⟩
    simp only [List.mem_cons, List.not_mem_nil, or_false] at ht
    subst ht
    simp only [List.mem_cons, List.not_mem_nil, or_false] at hr
    subst hr
    simp only [OutEx.roa, List.mem_cons, List.not_mem_nil, or_false] at he
    subst he
    exact ⟨hn.1, hn.2.1, hn.2.2, show (0 : Int) ≤ 24 by decide, show (24 : Int) ≤ 128 by decide,
      show (0 : Int) ≤ 1 by decide, show (1 : Int) < 2 ^ 32 by decide⟩
  refine ⟨_, _, ⟨⟨1, 1000, 4600, [], []⟩, [OutEx.vrp "10.0.0.0/8" 24 "AS1" ""]⟩,
    ⟨⟨1, 1000, 4600, [], []⟩, [OutEx.vrp "192.0.2.0/24" 24 "AS1" ""]⟩, hgood OutEx.net10 OutEx.good10,
    hgood OutEx.net24 OutEx.good24, by decide +kernel, by decide +kernel, by decide +kernel, rfl, ?_⟩
  intro h
  simp only [notModified, decide_eq_true_eq]
  exact ⟨h, rfl⟩

/-- **C60 (partial).** Lists with different times of generation or different counts have different entity
    tags, unless the hash collides. Missing: lists of the same second with the same count. -/
theorem C60_etag_partial (sha : Bytes → Bytes) (l l' : ROAList)
    (hsha : sha (etagText l) = sha (etagText l') → etagText l = etagText l') (h : etag sha l = etag sha l') :
    l.metadata.generated = l'.metadata.generated ∧ l.metadata.counts = l'.metadata.counts := by
  unfold etag at h
  have h1 := hexDecode_hexString (sha (etagText l))
  rw [h, hexDecode_hexString] at h1
  have h2 := hsha (Go.ok.inj h1).symm
  unfold etagText at h2
  obtain ⟨h3, h4⟩ := split_first (s := 47) (intText_free (.inl (by decide)) (by decide))
    (intText_free (.inl (by decide)) (by decide)) h2
  exact ⟨intText_inj h3, intText_inj h4⟩

example : etagText ⟨⟨12, 1700000000, 0, [], []⟩, []⟩ = asc "1700000000/12".toList := by decide +kernel

end Verif.Props
