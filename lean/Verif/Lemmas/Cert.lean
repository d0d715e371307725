import Verif.Lemmas.Net
/- Lemmas about resource containment. -/
set_option autoImplicit false

namespace Verif
open BerSpec Net Cert ResSpec

/-! ### to4 -/

theorem to4_len4 {a : Bytes} (h : a.length = 4) : to4 a = some a := by simp [to4, h]

theorem to4_some {a b : Bytes} (h : to4 a = some b) :
    (a.length = 4 ∧ b = a) ∨ (a.length = 16 ∧ b = a.drop 12 ∧ b.length = 4 ∧
      a = List.replicate 10 0 ++ [0xff, 0xff] ++ b) := by
  unfold to4 at h
  split at h
  · left; simp_all
  · split at h
    · rename_i hc
      obtain ⟨h1, h2, h3⟩ := hc
      right
      simp only [Option.some.injEq] at h
      refine ⟨h1, h.symm, by rw [← h]; simp [h1], ?_⟩
      rw [← h, ← h2, ← h3, List.append_assoc]
      conv_lhs => rw [← List.take_append_drop 10 a, ← List.take_append_drop 2 (a.drop 10)]
      simp
    · simp at h

theorem to4_length {a b : Bytes} (h : to4 a = some b) : b.length = 4 := by
  rcases to4_some h with ⟨h1, h2⟩ | ⟨_, _, h, _⟩
  · rw [h2, h1]
  · exact h

theorem to4_mapped {d : Bytes} (h : d.length = 4) :
    to4 (List.replicate 10 0 ++ [0xff, 0xff] ++ d) = some d := by
  have h2 : (List.replicate 10 (0 : UInt8) ++ [0xff, 0xff] ++ d).length = 16 := by simp [h]
  unfold to4
  rw [if_neg (by omega), if_pos]
  · simp
  · refine ⟨h2, by simp, by simp⟩

theorem mapped_iff {a : Bytes} : Mapped a ↔ a.length = 16 ∧ (to4 a).isSome := by
  constructor
  · rintro ⟨d, hd, rfl⟩
    rw [to4_mapped hd]; simp [hd]
  · rintro ⟨h1, h2⟩
    obtain ⟨b, hb⟩ := Option.isSome_iff_exists.mp h2
    rcases to4_some hb with ⟨h, _⟩ | ⟨_, _, h, h'⟩
    · omega
    · exact ⟨b, h, h'⟩

theorem addrNum_to4 {a b : Bytes} (h : to4 a = some b) : addrNum a = 0xffff00000000 + beVal b := by
  rcases to4_some h with ⟨h1, h2⟩ | ⟨h1, _, h3, h4⟩
  · simp [addrNum, h1, h2]
  · rw [addrNum, if_neg (by omega)]
    conv_lhs => rw [h4]
    rw [beVal_append', h3]
    rfl

theorem beVal_lt4 {a : Bytes} (h : a.length = 4) : beVal a < 2 ^ 32 := by
  have := beVal_lt' a; rw [h] at this; exact this

theorem beVal_lt16 {a : Bytes} (h : a.length = 16) : beVal a < 2 ^ 128 := by
  have := beVal_lt' a; rw [h] at this; exact this

/-! ### contains -/

theorem maskBytes_drop (k l p : Nat) : (maskBytes l p).drop k = maskBytes (l - k) (p - 8 * k) := by
  induction k generalizing l p with
  | zero => simp
  | succ k ih =>
    cases l with
    | zero => simp [maskBytes]
    | succ l =>
      conv_lhs => unfold maskBytes
      split
      · rw [List.drop_succ_cons, ih]
        congr 1 <;> omega
      · rw [List.drop_succ_cons, ih]
        congr 1 <;> omega

theorem contains_net4 {n : IPNet} (hi : n.ip.length = 4) (hm : n.mask.length = 4) {p : Nat}
    (hp : IsMask p n.mask) (a : Bytes) :
    contains n a = true ↔ ∃ b, to4 a = some b ∧ beVal b / 2 ^ (32 - p) = beVal n.ip / 2 ^ (32 - p) := by
  have hnm : networkNumberAndMask n = (n.ip, n.mask) := by
    simp [networkNumberAndMask, to4_len4 hi, hm, hi]
  have hmask := eq_maskBytes hp
  have hp' := hp.1
  rw [hm] at hmask hp'
  unfold contains
  simp only [hnm]
  cases ht : to4 a with
  | none =>
    simp only [Option.getD_none, reduceCtorEq, false_and, exists_false, iff_false]
    have : a.length ≠ 4 := by intro h; rw [to4_len4 h] at ht; simp at ht
    rw [if_pos (by rw [hi]; exact this)]; simp
  | some b =>
    simp only [Option.getD_some, Option.some.injEq, exists_eq_left']
    have hb := to4_length ht
    rw [if_neg (by rw [hi, hb]; simp), hmask, maskedEq_iff 4 p hp' _ _ hi hb]

theorem contains_net6 {n : IPNet} (hi : n.ip.length = 16) (hm : n.mask.length = 16) {p : Nat}
    (hp : IsMask p n.mask) (h6 : to4 n.ip = none) (a : Bytes) :
    contains n a = true ↔ to4 a = none ∧ a.length = 16 ∧
      beVal a / 2 ^ (128 - p) = beVal n.ip / 2 ^ (128 - p) := by
  have hnm : networkNumberAndMask n = (n.ip, n.mask) := by
    simp [networkNumberAndMask, h6, hm, hi]
  have hmask := eq_maskBytes hp
  have hp' := hp.1
  rw [hm] at hmask hp'
  unfold contains
  simp only [hnm]
  cases ht : to4 a with
  | none =>
    simp only [Option.getD_none, true_and]
    by_cases hl : a.length = 16
    · rw [if_neg (by rw [hi, hl]; simp), hmask, maskedEq_iff 16 p hp' _ _ hi hl]
      simp [hl]
    · rw [if_pos (by rw [hi]; exact hl)]; simp [hl]
  | some b =>
    simp only [Option.getD_some, reduceCtorEq, false_and, iff_false]
    have hb := to4_length ht
    rw [if_pos (by rw [hi, hb]; omega)]; simp

theorem contains_netMapped {n : IPNet} (hm : n.mask.length = 16) {p : Nat}
    (hp : IsMask p n.mask) {i4 : Bytes} (h6 : to4 n.ip = some i4) (a : Bytes) :
    contains n a = true ↔ ∃ b, to4 a = some b ∧
      beVal b / 2 ^ (32 - (p - 96)) = beVal i4 / 2 ^ (32 - (p - 96)) := by
  have hi4 := to4_length h6
  have hnm : networkNumberAndMask n = (i4, n.mask.drop 12) := by
    simp [networkNumberAndMask, h6, hm, hi4]
  have hmask := eq_maskBytes hp
  have hp' := hp.1
  rw [hm] at hmask hp'
  unfold contains
  simp only [hnm]
  cases ht : to4 a with
  | none =>
    simp only [Option.getD_none, reduceCtorEq, false_and, exists_false, iff_false]
    have : a.length ≠ 4 := by intro h; rw [to4_len4 h] at ht; simp at ht
    rw [if_pos (by rw [hi4]; exact this)]; simp
  | some b =>
    simp only [Option.getD_some, Option.some.injEq, exists_eq_left']
    have hb := to4_length ht
    rw [if_neg (by rw [hi4, hb]; simp), hmask, maskBytes_drop,
      maskedEq_iff 4 (p - 96) (by omega) _ _ hi4 hb]

theorem contains_nilMask {n : IPNet} (hm : n.mask = []) (a : Bytes) :
    contains n a = true ↔ a = [] := by
  have hnm : networkNumberAndMask n = ([], []) := by
    unfold networkNumberAndMask
    split
    · rfl
    · rw [hm]; simp
  unfold contains
  simp only [hnm]
  cases ht : to4 a with
  | none =>
    simp only [Option.getD_none, List.length_nil]
    by_cases h : a = []
    · subst h; simp [maskedEq]
    · rw [if_pos (by have := List.length_pos_iff.mpr h; omega)]; simp [h]
  | some b =>
    simp only [Option.getD_some, List.length_nil]
    have hb := to4_length ht
    rw [if_pos (by omega)]
    have : a ≠ [] := by rintro rfl; simp [to4] at ht
    simp [this]

/-- `Contains` only accepts addresses the prefix stands for. -/
theorem contains_denotes {n : IPNet} (h : ProperNet n) {a : Bytes}
    (hc : contains n a = true) : Denotes (.net (some n)) (addrNum a) := by
  obtain ⟨hl, hf, p, hp⟩ := h
  obtain ⟨ip, mask⟩ := n
  simp only at hl hf hp
  rcases hf with hi | hi
  · obtain ⟨b, hb, hq⟩ := (contains_net4 hi (hl ▸ hi) hp a).mp hc
    rw [addrNum_to4 hb]
    exact .net4 _ _ p _ hi (hl ▸ hi) hp (beVal_lt4 (to4_length hb)) hq
  · cases h6 : to4 ip with
    | none =>
      obtain ⟨h1, h2, hq⟩ := (contains_net6 hi (hl ▸ hi) hp h6 a).mp hc
      refine .net6 _ _ p _ hi (hl ▸ hi) hp ?_
      rw [addrNum, if_neg (by omega)]; exact hq
    | some i4 =>
      obtain ⟨b, hb, hq⟩ := (contains_netMapped (hl ▸ hi) hp h6 a).mp hc
      refine .net6 _ _ p _ hi (hl ▸ hi) hp ?_
      have hn := addrNum_to4 h6
      rw [addrNum, if_neg (by omega)] at hn
      rw [addrNum_to4 hb, hn]
      have e : (0xffff00000000 : Nat) = 0xffff * 2 ^ 32 := rfl
      rw [e]
      have hb4 := beVal_lt4 (to4_length hb)
      have hi4 := beVal_lt4 (to4_length h6)
      by_cases h96 : p < 96
      · obtain ⟨k, hk⟩ : ∃ k, 128 - p = k + 32 := ⟨96 - p, by omega⟩
        rw [hk, div_cons_low _ _ _ _ hb4, div_cons_low _ _ _ _ hi4]
      · have hple := hp.1
        have hml : mask.length = 16 := hl ▸ hi
        obtain ⟨k, hk, hk2⟩ : ∃ k, 128 - p = k ∧ 32 - (p - 96) = k := ⟨128 - p, rfl, by omega⟩
        obtain ⟨e, he⟩ : ∃ e, 32 = k + e := ⟨32 - k, by omega⟩
        rw [hk]
        rw [hk2] at hq
        rw [he] at hb4 hi4 ⊢
        rw [div_cons_high _ _ _ _ hb4, div_cons_high _ _ _ _ hi4, hq]

theorem div_convex {x y z k : Nat} (h : x / k = z / k) (h1 : x ≤ y) (h2 : y ≤ z) : y / k = x / k := by
  have a := Nat.div_le_div_right (c := k) h1
  have b := Nat.div_le_div_right (c := k) h2
  omega

/-- Every entry stands for an interval. -/
theorem denotes_convex {e : IPInfo} {x y z : Nat} (hx : Denotes e x) (hz : Denotes e z)
    (h1 : x ≤ y) (h2 : y ≤ z) : Denotes e y := by
  cases hx with
  | net4 ip mask p v hi hm hp hv hq =>
    cases hz with
    | net4 _ _ p' v' hi' hm' hp' hv' hq' =>
      have := isMask_inj hp hp'; subst this
      obtain ⟨w, rfl⟩ : ∃ w, y = 0xffff00000000 + w := ⟨y - 0xffff00000000, by omega⟩
      refine .net4 _ _ p w hi hm hp (by omega) ?_
      rw [div_convex (x := v) (z := v') (hq.trans hq'.symm) (by omega) (by omega), hq]
    | net6 _ _ _ _ hi' _ _ _ => omega
  | net6 ip mask p v hi hm hp hq =>
    cases hz with
    | net6 _ _ p' v' hi' hm' hp' hq' =>
      have := isMask_inj hp hp'; subst this
      refine .net6 _ _ p y hi hm hp ?_
      rw [div_convex (hq.trans hq'.symm) h1 h2, hq]
    | net4 _ _ _ _ hi' _ _ _ _ => omega
  | range min max v hl hf ha hb =>
    cases hz with
    | range _ _ v' _ _ hc hd => exact .range _ _ y hl hf (by omega) (by omega)

theorem addrNum_le {a b : Bytes} (hl : a.length = b.length) :
    addrNum a ≤ addrNum b ↔ beVal a ≤ beVal b := by
  unfold addrNum; rw [hl]; split <;> omega

theorem isIPInRange_ok {e : IPInfo} {a : Bytes} {c : Bool} (he : WfEntry e)
    (ha : a.length = 4 ∨ a.length = 16) (h : e.isIPInRange a = .ok (true, c)) :
    Denotes e (addrNum a) := by
  cases e with
  | net o =>
    cases o with
    | none => simp [IPInfo.isIPInRange] at h
    | some n =>
      simp only [IPInfo.isIPInRange, Go.ok.injEq, Prod.mk.injEq] at h
      rcases he with he | ⟨he, _⟩
      · exact contains_denotes he h.1
      · rw [contains_nilMask he] at h
        rw [h.1] at ha; simp at ha
  | range min max =>
    simp only [IPInfo.isIPInRange] at h
    split at h
    · simp at h
    · rename_i hl
      have hl : a.length = min.length ∧ a.length = max.length := by omega
      simp only [Go.ok.injEq, Prod.mk.injEq, Bool.and_eq_true] at h
      have h1 := (bytesLe_iff hl.1.symm).mp h.1.1
      have h2 := (bytesLe_iff hl.2).mp h.1.2
      exact .range _ _ _ (by omega) (by omega) ((addrNum_le hl.1.symm).mpr h1) ((addrNum_le hl.2).mpr h2)
  | null f =>
    simp only [IPInfo.isIPInRange] at h
    split at h
    · simp at h
    · split at h <;> simp at h

theorem isIPRange_cons {e : IPInfo} {rest : List IPInfo} {min max : Bytes} {r : Bool × Bool}
    (h : isIPRangeInCertificate (e :: rest) min max = .ok r) :
    ∃ a b, e.isIPInRange min = .ok a ∧ e.isIPInRange max = .ok b ∧
      ((a.1 = true ∧ b.1 = true ∧ r = (true, false)) ∨
       ((a.1 && b.1) = false ∧ (a.2 || b.2) = true ∧ r = (false, true)) ∨
       ((a.1 && b.1) = false ∧ (a.2 || b.2) = false ∧ isIPRangeInCertificate rest min max = .ok r)) := by
  unfold isIPRangeInCertificate at h
  obtain ⟨a, ha, h⟩ := Go.bind_eq_ok.mp h
  obtain ⟨b, hb, h⟩ := Go.bind_eq_ok.mp h
  refine ⟨a, b, ha, hb, ?_⟩
  split at h
  · rename_i hc
    simp only [Bool.and_eq_true] at hc
    simp only [Go.pure_def, Go.ok.injEq] at h
    exact .inl ⟨hc.1, hc.2, h.symm⟩
  · rename_i hc
    split at h
    · rename_i hd
      simp only [Go.pure_def, Go.ok.injEq] at h
      exact .inr (.inl ⟨by simpa using hc, hd, h.symm⟩)
    · rename_i hd
      exact .inr (.inr ⟨by simpa using hc, by simpa using hd, h⟩)

theorem isIPRange_sound {ips : List IPInfo} (hw : ∀ e ∈ ips, WfEntry e) {min max : Bytes} {c : Bool}
    (hmin : min.length = 4 ∨ min.length = 16) (hmax : max.length = 4 ∨ max.length = 16)
    (h : isIPRangeInCertificate ips min max = .ok (true, c)) :
    ∃ e ∈ ips, ∀ x, addrNum min ≤ x → x ≤ addrNum max → Denotes e x := by
  induction ips with
  | nil => simp [isIPRangeInCertificate] at h
  | cons e rest ih =>
    obtain ⟨a, b, ha, hb, hc | hc | hc⟩ := isIPRange_cons h
    · refine ⟨e, by simp, fun x h1 h2 => ?_⟩
      obtain ⟨a1, a2⟩ := a
      obtain ⟨b1, b2⟩ := b
      simp only at hc
      rw [hc.1] at ha; rw [hc.2.1] at hb
      exact denotes_convex (isIPInRange_ok (hw e (by simp)) hmin ha)
        (isIPInRange_ok (hw e (by simp)) hmax hb) h1 h2
    · simp at hc
    · obtain ⟨e', he', hx⟩ := ih (fun e he => hw e (by simp [he])) hc.2.2
      exact ⟨e', by simp [he'], hx⟩

/-! ### The range of an entry -/

theorem getRangeIP_proper {n : IPNet} (h : ProperNet n) :
    ∃ b e, getRangeIP (some n) = .ok (b, e) ∧ b.length = n.ip.length ∧ e.length = n.ip.length ∧
      ∀ x, Denotes (.net (some n)) x ↔ addrNum b ≤ x ∧ x ≤ addrNum e := by
  obtain ⟨hl, hf, p, hp⟩ := h
  obtain ⟨ip, mask⟩ := n
  simp only at hl hf hp ⊢
  obtain ⟨b, e, hr, hb, he, vb, ve⟩ := rangeBytes_spec mask.length p hp.1 ip hl
  rw [← eq_maskBytes hp] at hr
  refine ⟨b, e, by simp [getRangeIP, hr], hb.trans hl.symm, he.trans hl.symm, ?_⟩
  have hk : 0 < 2 ^ (8 * mask.length - p) := Nat.pow_pos (by omega)
  have key : ∀ v, v / 2 ^ (8 * mask.length - p) = beVal ip / 2 ^ (8 * mask.length - p) ↔
      beVal b ≤ v ∧ v ≤ beVal e := by
    intro v
    rw [vb, ve]
    generalize 2 ^ (8 * mask.length - p) = k at *
    generalize beVal ip / k = q
    have hd := Nat.div_add_mod v k
    have hm := Nat.mod_lt v hk
    rw [Nat.mul_comm] at hd
    constructor
    · intro h; rw [h] at hd; omega
    · rintro ⟨h1, h2⟩
      apply Nat.div_eq_of_lt_le
      · exact h1
      · rw [Nat.add_mul]; omega
  rcases hf with hi | hi
  · have hm4 : mask.length = 4 := by omega
    have e4 := beVal_lt4 (he.trans hm4)
    rw [hm4] at key
    intro x
    rw [addrNum, addrNum, if_pos (hb.trans hm4), if_pos (he.trans hm4)]
    constructor
    · intro hx
      cases hx with
      | net4 _ _ p' v _ _ hp' hv hq =>
        have := isMask_inj hp hp'; subst this
        have := (key v).mp hq
        omega
      | net6 _ _ _ _ hi' _ _ _ => omega
    · intro hx
      obtain ⟨w, rfl⟩ : ∃ w, x = 0xffff00000000 + w := ⟨x - 0xffff00000000, by omega⟩
      exact .net4 _ _ p w hi hm4 hp (by omega) ((key w).mpr (by omega))
  · have hm4 : mask.length = 16 := by omega
    rw [hm4] at key
    intro x
    rw [addrNum, addrNum, if_neg (by omega), if_neg (by omega)]
    constructor
    · intro hx
      cases hx with
      | net6 _ _ p' v _ _ hp' hq =>
        have := isMask_inj hp hp'; subst this
        exact (key x).mp hq
      | net4 _ _ _ _ hi' _ _ _ _ => omega
    · intro hx
      exact .net6 _ _ p x hi hm4 hp ((key x).mpr hx)

/-- The range of a proper entry is exactly the set it stands for. -/
theorem getRange_proper {e : IPInfo} (h : ProperEntry e) :
    ∃ lo hi, e.getRange = .ok (lo, hi, false) ∧ lo.length = hi.length ∧
      (lo.length = 4 ∨ lo.length = 16) ∧ ∀ x, Denotes e x ↔ addrNum lo ≤ x ∧ x ≤ addrNum hi := by
  cases e with
  | net o =>
    cases o with
    | none => exact absurd h (by simp [ProperEntry])
    | some n =>
      obtain ⟨b, e, hr, hb, he, hx⟩ := getRangeIP_proper h
      refine ⟨b, e, by simp [IPInfo.getRange, hr], by omega, ?_, hx⟩
      have := h.2.1; omega
  | range min max =>
    refine ⟨min, max, rfl, h.1, h.2, fun x => ?_⟩
    constructor
    · intro hx; cases hx; constructor <;> assumption
    · rintro ⟨h1, h2⟩; exact .range _ _ _ h.1 h.2 h1 h2
  | null f => exact absurd h (by simp [ProperEntry])

/-! ### The split -/

/-- Verdict of the loop as a function, for lists that did not panic. -/
theorem splitFrom_filter {α : Type} {cl : α → Go Verdict} {l : List α} {s t : Split α}
    (h : splitFrom cl s l = .ok t) :
    (∀ a ∈ l, ∃ v, cl a = .ok v) ∧
    t.valids = s.valids ++ l.filter (fun a => decide (cl a = .ok .valid)) ∧
    t.invalids = s.invalids ++ l.filter (fun a => decide (cl a = .ok .invalid)) ∧
    t.checkParents = s.checkParents ++ l.filter (fun a => decide (cl a = .ok .checkParent)) := by
  induction l generalizing s with
  | nil =>
    simp only [splitFrom, Go.ok.injEq] at h
    subst h; simp
  | cons a l ih =>
    unfold splitFrom at h
    obtain ⟨v, hv, h⟩ := Go.bind_eq_ok.mp h
    obtain ⟨h1, h2, h3, h4⟩ := ih h
    refine ⟨?_, ?_, ?_, ?_⟩
    · intro b hb
      rcases List.mem_cons.mp hb with rfl | hb
      · exact ⟨v, hv⟩
      · exact h1 b hb
    all_goals
      first | rw [h2] | rw [h3] | rw [h4]
      cases v <;> simp [Split.add, hv]

theorem splitFrom_total {α : Type} {cl : α → Go Verdict} {l : List α} (s : Split α)
    (h : ∀ a ∈ l, ∃ v, cl a = .ok v) : ∃ t, splitFrom cl s l = .ok t := by
  induction l generalizing s with
  | nil => exact ⟨s, rfl⟩
  | cons a l ih =>
    obtain ⟨v, hv⟩ := h a (by simp)
    unfold splitFrom
    rw [hv, Go.ok_bind]
    exact ih _ (fun b hb => h b (by simp [hb]))

end Verif
