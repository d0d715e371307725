import Verif.Lemmas.OvTotal
import Verif.Lemmas.PatriciaPath
/-
  Properties C38, C39 and C40: route origin validation and the prefix tree under it.
-/
set_option autoImplicit false

namespace Verif.Props

open ResSpec Net Ov OvSpec Patricia

/-! ### Helpers -/

theorem isPfx_unique {n : Option IPNet} {p q : Pfx} (h : IsPfx n p) (h' : IsPfx n q) : p = q := by
  cases h with
  | v4 ip mask k hi hm hk =>
    generalize hn : (some (⟨ip, mask⟩ : IPNet)) = n at h'
    cases h' with
    | v4 ip' mask' k' hi' hm' hk' =>
      cases hn
      rw [isMask_inj hk hk']
    | v4in16 ip' mask' k' hi' hm' hk' =>
      cases hn
      simp [hi'] at hi
    | v6 ip' mask' k' hi' hn' hm' hk' =>
      cases hn
      omega
  | v4in16 ip mask k hi hm hk =>
    generalize hn : (some (⟨List.replicate 10 0 ++ [0xff, 0xff] ++ ip, mask⟩ : IPNet)) = n at h'
    cases h' with
    | v4 ip' mask' k' hi' hm' hk' =>
      cases hn
      simp [hi] at hi'
    | v4in16 ip' mask' k' hi' hm' hk' =>
      simp only [Option.some.injEq, IPNet.mk.injEq] at hn
      have := List.append_cancel_left hn.1
      subst this
      have := hn.2
      subst this
      rw [isMask_inj hk hk']
    | v6 ip' mask' k' hi' hn' hm' hk' =>
      cases hn
      omega
  | v6 ip mask k hi hx hm hk =>
    generalize hn : (some (⟨ip, mask⟩ : IPNet)) = n at h'
    cases h' with
    | v4 ip' mask' k' hi' hm' hk' => cases hn; omega
    | v4in16 ip' mask' k' hi' hm' hk' =>
      cases hn
      omega
    | v6 ip' mask' k' hi' hn' hm' hk' =>
      cases hn
      rw [isMask_inj hk hk']

/-- An entry of the result is an entry of the table that covers the route, and conversely. -/
theorem mem_result {vs : List VRP} (hv : ∀ v ∈ vs, Proper v) {r : Route} {p : Pfx} (hp : IsPfx r.pre p) (v : VRP) :
    (v ∈ (List.range (p.len + 1)).flatMap (fun m =>
      vs.filter (fun v => keyOf (parseFromIPAddr v.pre) = some (p.v6, (pbits p).take m)))) ↔
    v ∈ vs ∧ Covers v r := by
  simp only [List.mem_flatMap, List.mem_range, List.mem_filter, decide_eq_true_eq]
  constructor
  · rintro ⟨m, hm, hvm, hk⟩
    refine ⟨hvm, ?_⟩
    rcases hv v hvm with h0 | ⟨q, hq⟩
    · rw [h0] at hk; cases hk
    · rw [key_isPfx hq] at hk
      simp only [Option.some.injEq, Prod.mk.injEq] at hk
      refine ⟨q, p, hq, hp, (covers_iff (isPfx_ranged hq) (isPfx_ranged hp)).mpr ⟨hk.1, ?_⟩⟩
      rw [hk.2]
      exact List.take_prefix _ _
  · rintro ⟨hvm, q, p', hq, hp', hc⟩
    have : p' = p := isPfx_unique hp' hp
    subst this
    obtain ⟨h1, h2⟩ := (covers_iff (isPfx_ranged hq) (isPfx_ranged hp)).mp hc
    refine ⟨q.len, ?_, hvm, ?_⟩
    · have := h2.length_le
      rw [pbits_length, pbits_length] at this
      omega
    · rw [key_isPfx hq, h1]
      rw [List.prefix_iff_eq_take] at h2
      rw [pbits_length] at h2
      rw [← h2]

theorem perm_filter_or {B : Type} (f g : B → Bool) (h : ∀ b, ¬ (f b = true ∧ g b = true)) (l : List B) :
    (l.filter f ++ l.filter g).Perm (l.filter (fun b => f b || g b)) := by
  induction l with
  | nil => exact List.Perm.nil
  | cons b l ih =>
    have := h b
    cases hf : f b <;> cases hg : g b <;> simp only [hf, hg] at this
    · simpa [List.filter_cons, hf, hg] using ih
    · simp only [List.filter_cons, hf, hg, Bool.false_or, if_true, Bool.false_eq_true, if_false]
      exact List.perm_middle.trans (ih.cons b)
    · simp only [List.filter_cons, hf, hg, Bool.or_false, if_true, Bool.false_eq_true, if_false, List.cons_append]
      exact ih.cons b
    · simp at this

theorem perm_levels {B C : Type} [DecidableEq C] (g : B → C) (f : Nat → C) (l : List B) : ∀ (ms : List Nat),
    ms.Nodup → (∀ m ∈ ms, ∀ n ∈ ms, f m = f n → m = n) →
    (ms.flatMap (fun m => l.filter (fun b => g b = f m))).Perm (l.filter (fun b => decide (∃ m ∈ ms, g b = f m))) := by
  intro ms
  induction ms with
  | nil => intro _ _; simp
  | cons m ms ih =>
    intro hn hi
    rw [List.flatMap_cons]
    have h1 := ih (List.nodup_cons.mp hn).2 (fun a ha b hb => hi a (by simp [ha]) b (by simp [hb]))
    refine (h1.append_left _).trans ?_
    refine (perm_filter_or _ _ ?_ l).trans ?_
    · rintro b ⟨h2, h3⟩
      simp only [decide_eq_true_eq] at h2 h3
      obtain ⟨k, hk, h3⟩ := h3
      have := hi m (by simp) k (by simp [hk]) (h2.symm.trans h3)
      subst this
      exact (List.nodup_cons.mp hn).1 hk
    · apply List.Perm.of_eq
      congr 1
      funext b
      simp

/-- What `NewOV` and `Validate` return, before it is read. -/
theorem validate_result (vs : List VRP) (h : vs.length < 2 ^ 31 - 2) (hv : ∀ v ∈ vs, Proper v) (r : Route)
    (p : Pfx) (hp : IsPfx r.pre p) :
    ∃ ov res st, newOV vs = .ok ov ∧ validate ov r = .ok (res, st) ∧ st = verdict r.asn p.len res ∧
      res = (List.range (p.len + 1)).flatMap (fun m =>
        vs.filter (fun v => keyOf (parseFromIPAddr v.pre) = some (p.v6, (pbits p).take m))) := by
  obtain ⟨ov, h1, h2⟩ := validate_eq vs h hv r p hp
  exact ⟨ov, _, _, h1, h2, rfl, rfl⟩

/-! ### C38 -/

/-- **C38.** For every table and every route the three answers are those of RFC 6811: Valid exactly when an entry
    matches, Invalid exactly when entries cover the route and none matches, NotFound exactly when none covers it.

    Partial: the prefixes must be proper (`IsPfx`), which excludes IPv4-mapped IPv6 prefixes with a 128-bit mask
    (`C38_violated_mapped`) and masks that are not a run of ones; and the table has fewer than 2³¹ − 2 entries,
    which is what the 32-bit keys of the prefix tree allow. -/
theorem C38_rfc6811_partial (vs : List VRP) (h : vs.length < 2 ^ 31 - 2) (hv : ∀ v ∈ vs, Proper v) (r : Route)
    (hr : ∃ p, IsPfx r.pre p) :
    ∃ ov res st, newOV vs = .ok ov ∧ validate ov r = .ok (res, st) ∧
      (st = .valid ↔ ∃ v ∈ vs, Matches v r) ∧
      (st = .invalid ↔ (∃ v ∈ vs, Covers v r) ∧ ¬ ∃ v ∈ vs, Matches v r) ∧
      (st = .unknown ↔ ¬ ∃ v ∈ vs, Covers v r) := by
  obtain ⟨p, hp⟩ := hr
  obtain ⟨ov, res, st, h1, h2, h3, h4⟩ := validate_result vs h hv r p hp
  refine ⟨ov, res, st, h1, h2, ?_⟩
  have hmem : ∀ v, v ∈ res ↔ v ∈ vs ∧ Covers v r := fun v => by rw [h4]; exact mem_result hv hp v
  have hany : res.any (fun v => r.asn = v.asn ∧ (p.len : Int) ≤ v.maxLen) = true ↔ ∃ v ∈ vs, Matches v r := by
    rw [List.any_eq_true]
    constructor
    · rintro ⟨v, hvr, hc⟩
      simp only [decide_eq_true_eq] at hc
      obtain ⟨hvm, q, p', hq, hp', hcov⟩ := (hmem v).mp hvr
      have := isPfx_unique hp' hp
      subst this
      exact ⟨v, hvm, q, p', hq, hp', hcov, hc.1.symm, hc.2⟩
    · rintro ⟨v, hvm, q, p', hq, hp', hcov, ha, hl⟩
      have := isPfx_unique hp' hp
      subst this
      refine ⟨v, (hmem v).mpr ⟨hvm, q, p', hq, hp', hcov⟩, ?_⟩
      simp only [decide_eq_true_eq]
      exact ⟨ha.symm, hl⟩
  have hnil : res = [] ↔ ¬ ∃ v ∈ vs, Covers v r := by
    constructor
    · rintro he ⟨v, hvm, hc⟩
      have := (hmem v).mpr ⟨hvm, hc⟩
      rw [he] at this
      cases this
    · intro hn
      cases res with
      | nil => rfl
      | cons v res => exact absurd ⟨v, (hmem v).mp (by simp)⟩ hn
  have himp : (∃ v ∈ vs, Matches v r) → ∃ v ∈ vs, Covers v r := by
    rintro ⟨v, hvm, q, p', hq, hp', hcov, -⟩
    exact ⟨v, hvm, q, p', hq, hp', hcov⟩
  rw [h3]
  unfold verdict
  by_cases ha : ∃ v ∈ vs, Matches v r
  · rw [if_pos (hany.mpr ha)]
    simp [ha, himp ha]
  · rw [if_neg (fun hh => ha (hany.mp hh))]
    by_cases hn : res = []
    · rw [if_pos hn]
      simp [ha, hnil.mp hn]
    · rw [if_neg hn]
      have : ∃ v ∈ vs, Covers v r := Classical.not_not.mp (fun hh => hn (hnil.mpr hh))
      simp [ha, this]

/-- 10.0.0.0/8-24 AS 1, 10.1.0.0/16 AS 2, 10.1.0.0/16-20 AS 1 and 2001:db8::/32-48 AS 1. -/
def ovTable : List VRP :=
  [⟨1, 24, some ⟨[10, 0, 0, 0], [255, 0, 0, 0]⟩⟩,
   ⟨2, 16, some ⟨[10, 1, 0, 0], [255, 255, 0, 0]⟩⟩,
   ⟨1, 48, some ⟨[0x20, 1, 0xd, 0xb8, 0, 0, 0, 0, 0, 0, 0, 0, 0, 0, 0, 0],
     [255, 255, 255, 255, 0, 0, 0, 0, 0, 0, 0, 0, 0, 0, 0, 0]⟩⟩,
   ⟨1, 20, some ⟨[10, 1, 0, 0], [255, 255, 0, 0]⟩⟩,
   ⟨7, 0, none⟩]

/-- 10.1.2.0/24. -/
def ovRoute (asn : UInt32) : Route := ⟨some ⟨[10, 1, 2, 0], [255, 255, 255, 0]⟩, asn⟩

theorem isMask_maskBytes4 : IsMask 8 [255, 0, 0, 0] ∧ IsMask 16 [255, 255, 0, 0] ∧ IsMask 24 [255, 255, 255, 0] ∧
    IsMask 32 [255, 255, 255, 255, 0, 0, 0, 0, 0, 0, 0, 0, 0, 0, 0, 0] := by
  refine ⟨⟨by decide, by decide⟩, ⟨by decide, by decide⟩, ⟨by decide, by decide⟩, ⟨by decide, by decide⟩⟩

theorem ovTable_proper : ∀ v ∈ ovTable, Proper v := by
  intro v hv
  simp only [ovTable, List.mem_cons, List.not_mem_nil, or_false] at hv
  rcases hv with rfl | rfl | rfl | rfl | rfl
  · exact Or.inr ⟨_, .v4 _ _ 8 rfl rfl isMask_maskBytes4.1⟩
  · exact Or.inr ⟨_, .v4 _ _ 16 rfl rfl isMask_maskBytes4.2.1⟩
  · refine Or.inr ⟨_, .v6 _ _ 32 rfl ?_ rfl isMask_maskBytes4.2.2.2⟩
    rintro ⟨d, -, hd⟩
    simp [List.replicate] at hd
  · exact Or.inr ⟨_, .v4 _ _ 16 rfl rfl isMask_maskBytes4.2.1⟩
  · exact Or.inl rfl

example : ovTable.length < 2 ^ 31 - 2 ∧ (∀ v ∈ ovTable, Proper v) ∧ ∃ p, IsPfx (ovRoute 1).pre p :=
  ⟨by decide, ovTable_proper, _, .v4 _ _ 24 rfl rfl isMask_maskBytes4.2.2.1⟩

/-- The three answers occur. -/
example :
    (newOV ovTable >>= fun ov => validate ov (ovRoute 1)) =
      .ok ([ovTable[0], ovTable[1], ovTable[3]], .valid) ∧
    (newOV ovTable >>= fun ov => validate ov (ovRoute 2)) =
      .ok ([ovTable[0], ovTable[1], ovTable[3]], .invalid) ∧
    (newOV ovTable >>= fun ov => validate ov ⟨some ⟨[11, 1, 2, 0], [255, 255, 255, 0]⟩, 1⟩) = .ok ([], .unknown) := by
  decide +kernel

/-- **C38 is violated** for an IPv4-mapped IPv6 prefix with a 128-bit mask: the very prefix and origin of an entry
    are not found.  (The tree takes it as an IPv4 prefix 120 bits long.) -/
theorem C38_violated_mapped :
    let net : IPNet := ⟨List.replicate 10 0 ++ [0xff, 0xff, 10, 0, 0, 0], List.replicate 15 255 ++ [0]⟩
    IsMask 120 net.mask ∧
    (newOV [⟨1, 120, some net⟩] >>= fun ov => validate ov ⟨some net, 1⟩) = .ok ([], .unknown) := by
  refine ⟨⟨by decide, by decide⟩, ?_⟩
  decide +kernel

/-- **C38, the code's reading of AS 0.** RFC 6483 uses AS 0 to say that nobody may originate a prefix; a route with
    origin 0 is nevertheless answered Valid. -/
theorem C38_violated_as0 :
    (newOV [⟨0, 24, some ⟨[10, 1, 2, 0], [255, 255, 255, 0]⟩⟩] >>= fun ov => validate ov (ovRoute 0)) =
      .ok ([⟨0, 24, some ⟨[10, 1, 2, 0], [255, 255, 255, 0]⟩⟩], .valid) := by
  decide +kernel

/-- **C38, unreadable routes.** A route without a prefix is an error, whatever the table. -/
theorem C38_unreadable_route (vs : List VRP) (asn : UInt32) :
    ∃ ov m, newOV vs = .ok ov ∧ validate ov ⟨none, asn⟩ = .err m := by
  obtain ⟨ov, h1, -⟩ := validate_total vs ⟨none, asn⟩
  exact ⟨ov, _, h1, rfl⟩

/-! ### C39 -/

/-- Two entries are for the same prefix. -/
def SamePrefix (v w : VRP) : Prop := ∃ p q, IsPfx v.pre p ∧ IsPfx w.pre q ∧ p.Same q

theorem samePrefix_iff {v w : VRP} {p q : Pfx} (hp : IsPfx v.pre p) (hq : IsPfx w.pre q) :
    SamePrefix v w ↔ keyOf (parseFromIPAddr v.pre) = keyOf (parseFromIPAddr w.pre) := by
  rw [key_isPfx hp, key_isPfx hq]
  simp only [Option.some.injEq, Prod.mk.injEq]
  rw [← same_iff (isPfx_ranged hp) (isPfx_ranged hq)]
  constructor
  · rintro ⟨p', q', hp', hq', h⟩
    rwa [isPfx_unique hp hp', isPfx_unique hq hq']
  · exact fun h => ⟨p, q, hp, hq, h⟩

theorem take_inj {B : Type} {l : List B} {m n : Nat} (hm : m ≤ l.length) (hn : n ≤ l.length)
    (h : l.take m = l.take n) : m = n := by
  have := congrArg List.length h
  simp only [List.length_take] at this
  omega

open Classical in
/-- **C39.** The entries returned are those of the table that cover the route, each as often as it was supplied; they
    are ordered from the shortest prefix to the longest; and the entries for one prefix stand in the order in which
    they were supplied.  Partial, with the hypotheses of `C38_rfc6811_partial`. -/
theorem C39_covering_exact_partial (vs : List VRP) (h : vs.length < 2 ^ 31 - 2) (hv : ∀ v ∈ vs, Proper v) (r : Route)
    (hr : ∃ p, IsPfx r.pre p) :
    ∃ ov res st, newOV vs = .ok ov ∧ validate ov r = .ok (res, st) ∧
      res.Perm (vs.filter (fun v => Covers v r)) ∧
      res.Pairwise (fun v w => ∀ p q, IsPfx v.pre p → IsPfx w.pre q → p.len ≤ q.len) ∧
      ∀ v ∈ res, res.filter (fun w => SamePrefix v w) = vs.filter (fun w => SamePrefix v w) := by
  obtain ⟨p, hp⟩ := hr
  obtain ⟨ov, res, st, h1, h2, h3, h4⟩ := validate_result vs h hv r p hp
  refine ⟨ov, res, st, h1, h2, ?_, ?_, ?_⟩
  · rw [h4]
    refine (perm_levels (fun v : VRP => keyOf (parseFromIPAddr v.pre)) (fun m => some (p.v6, (pbits p).take m)) vs _
      List.nodup_range ?_).trans ?_
    · intro m hm n hn he
      simp only [Option.some.injEq, Prod.mk.injEq, true_and] at he
      simp only [List.mem_range] at hm hn
      exact take_inj (by rw [pbits_length]; omega) (by rw [pbits_length]; omega) he
    · apply List.Perm.of_eq
      apply List.filter_congr
      intro v hvm
      rw [decide_eq_decide]
      have := mem_result hv hp v
      simp only [List.mem_flatMap, List.mem_filter, decide_eq_true_eq] at this
      constructor
      · rintro ⟨m, hm, hk⟩
        exact (this.mp ⟨m, hm, hvm, hk⟩).2
      · intro hc
        obtain ⟨m, hm, -, hk⟩ := this.mpr ⟨hvm, hc⟩
        exact ⟨m, hm, hk⟩
  · rw [h4]
    have hlen : ∀ {m : Nat} {v : VRP} {q : Pfx}, m ≤ p.len →
        keyOf (parseFromIPAddr v.pre) = some (p.v6, (pbits p).take m) → IsPfx v.pre q → q.len = m := by
      intro m v q hm hk hq
      rw [key_isPfx hq] at hk
      simp only [Option.some.injEq, Prod.mk.injEq] at hk
      have := congrArg List.length hk.2
      rw [pbits_length, List.length_take, pbits_length] at this
      omega
    have : ∀ k n, k + n = p.len + 1 → ((List.range' k n).flatMap (fun m =>
        vs.filter (fun v => keyOf (parseFromIPAddr v.pre) = some (p.v6, (pbits p).take m)))).Pairwise
        (fun v w => ∀ p q, IsPfx v.pre p → IsPfx w.pre q → p.len ≤ q.len) := by
      intro k n
      induction n generalizing k with
      | zero => intro _; exact .nil
      | succ n ih =>
        intro hk
        rw [List.range'_succ, List.flatMap_cons, List.pairwise_append]
        refine ⟨?_, ih (k + 1) (by omega), ?_⟩
        · apply List.Pairwise.imp_of_mem (R := fun _ _ => True)
          · intro v w hvm hwm _ a b ha hb
            simp only [List.mem_filter, decide_eq_true_eq] at hvm hwm
            rw [hlen (by omega) hvm.2 ha, hlen (by omega) hwm.2 hb]
          · exact List.pairwise_of_forall (fun _ _ => trivial)
        · intro v hvm w hwm a b ha hb
          simp only [List.mem_flatMap, List.mem_filter, decide_eq_true_eq, List.mem_range'_1] at hvm hwm
          obtain ⟨m, hm, -, hk'⟩ := hwm
          rw [hlen (by omega) hvm.2 ha, hlen (by omega) hk' hb]
          omega
    have := this 0 (p.len + 1) (by omega)
    rwa [← List.range_eq_range'] at this
  · intro v hvr
    have hcov := (mem_result hv hp v).mp (h4 ▸ hvr)
    obtain ⟨hvm, q, -, hq, -, -⟩ := hcov
    rw [h4] at hvr
    simp only [List.mem_flatMap, List.mem_filter, decide_eq_true_eq, List.mem_range] at hvr
    obtain ⟨m, hm, -, hk⟩ := hvr
    have hsame : ∀ w ∈ vs, SamePrefix v w ↔ keyOf (parseFromIPAddr w.pre) = some (p.v6, (pbits p).take m) := by
      intro w hw
      rcases hv w hw with h0 | ⟨q', hq'⟩
      · rw [h0]
        constructor
        · rintro ⟨_, _, _, hx, -⟩
          rw [h0] at hx; cases hx
        · intro hx; cases hx
      · rw [samePrefix_iff hq hq', hk, eq_comm]
    rw [h4, List.filter_flatMap]
    have hpart : ∀ n, n ≤ p.len → ((vs.filter (fun w => keyOf (parseFromIPAddr w.pre) = some (p.v6, (pbits p).take n))).filter
        (fun w => SamePrefix v w)) = if n = m then vs.filter (fun w => SamePrefix v w) else [] := by
      intro n hn
      rw [List.filter_filter]
      by_cases hnm : n = m
      · rw [if_pos hnm]
        apply List.filter_congr
        intro w hw
        have := hsame w hw
        subst hnm
        by_cases hh : SamePrefix v w <;> simp [hh, this.mp] <;> simp_all
      · rw [if_neg hnm, List.filter_eq_nil_iff]
        intro w hw hh
        simp only [Bool.and_eq_true, decide_eq_true_eq] at hh
        have h1 := (hsame w hw).mp hh.1
        rw [hh.2] at h1
        simp only [Option.some.injEq, Prod.mk.injEq, true_and] at h1
        exact hnm (take_inj (by rw [pbits_length]; omega) (by rw [pbits_length]; omega) h1)
    have : ∀ k n, k ≤ m → m < k + n → k + n = p.len + 1 → (List.range' k n).flatMap (fun n =>
        (vs.filter (fun w => keyOf (parseFromIPAddr w.pre) = some (p.v6, (pbits p).take n))).filter
          (fun w => SamePrefix v w)) = vs.filter (fun w => SamePrefix v w) := by
      have hnone : ∀ n k, m < k → k + n = p.len + 1 → (List.range' k n).flatMap (fun n =>
          (vs.filter (fun w => keyOf (parseFromIPAddr w.pre) = some (p.v6, (pbits p).take n))).filter
            (fun w => SamePrefix v w)) = [] := by
        intro n
        induction n with
        | zero => intro k _ _; rfl
        | succ n ih =>
          intro k hk he
          rw [List.range'_succ, List.flatMap_cons, ih (k + 1) (by omega) (by omega), hpart k (by omega), if_neg (by omega)]
          rfl
      intro k n
      induction n generalizing k with
      | zero => intro _ _ _; omega
      | succ n ih =>
        intro h1 h2 h3
        rw [List.range'_succ, List.flatMap_cons, hpart k (by omega)]
        by_cases hkm : k = m
        · rw [if_pos hkm, hnone n (k + 1) (by omega) (by omega), List.append_nil]
        · rw [if_neg hkm, ih (k + 1) (by omega) (by omega) (by omega), List.nil_append]
    have := this 0 (p.len + 1) (by omega) (by omega) (by omega)
    rwa [← List.range_eq_range'] at this

/-- The table and the route of C38 meet the hypotheses; the answer has three entries, two of them for one prefix. -/
example : ∃ ov st, newOV ovTable = .ok ov ∧
    validate ov (ovRoute 1) = .ok ([ovTable[0], ovTable[1], ovTable[3]], st) := by
  have : (newOV ovTable >>= fun ov => validate ov (ovRoute 1)) = .ok ([ovTable[0], ovTable[1], ovTable[3]], .valid) := by
    decide +kernel
  obtain ⟨ov, h1, h2⟩ := Go.bind_eq_ok.mp this
  exact ⟨ov, _, h1, h2⟩

/-! ### C40 -/

/-- **C40.** No sequence of insertions into an empty IPv4 tree panics or goes on for ever, whatever the addresses, the
    lengths (also above 32), the tags and their number; and then no node stands for two prefixes. -/
theorem C40_insert_total_v4 (es : List (BitVec 32 × Nat × Int)) :
    ∃ t, insertAll ops4 (newTree ops4) es = .ok t ∧
      (∀ i q q', Stands bits4 t i q → Stands bits4 t i q' → q = q') ∧
      ((∀ e ∈ es, e.2.1 ≤ 32) → ∀ i j q, Stands bits4 t i q → Stands bits4 t j q → i = j) :=
  insertAll_any lawful4 es

/-- **C40.** The same for IPv6. -/
theorem C40_insert_total_v6 (es : List (V6 × Nat × Int)) :
    ∃ t, insertAll ops6 (newTree ops6) es = .ok t ∧
      (∀ i q q', Stands bits6 t i q → Stands bits6 t i q' → q = q') ∧
      ((∀ e ∈ es, e.2.1 ≤ 128) → ∀ i j q, Stands bits6 t i q → Stands bits6 t j q → i = j) := by
  have e : bits6 = bitsOf bit6 := by funext a n; exact bits6_eq a n
  rw [e]
  exact insertAll_any lawful6 es

/-- **C40.** A node holds the tags inserted with the prefix it stands for, in the order of insertion, and no others;
    and every inserted prefix has its node.  The number of insertions is below 2³¹ − 2: with more, the 32-bit keys of
    the tags could collide. -/
theorem C40_node_holds_v4 (es : List (BitVec 32 × Nat × Int)) (hlen : ∀ e ∈ es, e.2.1 ≤ 32)
    (hb : es.length < 2 ^ 31 - 2) :
    ∃ t, insertAll ops4 (newTree ops4) es = .ok t ∧
      (∀ i q, Stands bits4 t i q → stored t i = (es.filter (fun e => bits4 e.1 e.2.1 = q)).map (·.2.2)) ∧
      ∀ e ∈ es, ∃ i, Stands bits4 t i (bits4 e.1 e.2.1) :=
  insertAll_new lawful4 es hlen hb

/-- **C40.** The same for IPv6. -/
theorem C40_node_holds_v6 (es : List (V6 × Nat × Int)) (hlen : ∀ e ∈ es, e.2.1 ≤ 128)
    (hb : es.length < 2 ^ 31 - 2) :
    ∃ t, insertAll ops6 (newTree ops6) es = .ok t ∧
      (∀ i q, Stands bits6 t i q → stored t i = (es.filter (fun e => bits6 e.1 e.2.1 = q)).map (·.2.2)) ∧
      ∀ e ∈ es, ∃ i, Stands bits6 t i (bits6 e.1 e.2.1) := by
  have e : bits6 = bitsOf bit6 := by funext a n; exact bits6_eq a n
  rw [e]
  exact insertAll_new lawful6 es hlen hb

/-- Four insertions: a node is split, another is put above. -/
def treeSample : List (BitVec 32 × Nat × Int) :=
  [(0x0a010000, 16, 5), (0x0a020000, 16, 6), (0x0a000000, 8, 7), (0x0a010000, 16, 8)]

example : (∀ e ∈ treeSample, e.2.1 ≤ 32) ∧ treeSample.length < 2 ^ 31 - 2 := by decide

/-- The node of 10.1.0.0/16 stands below two others and holds two tags. -/
example : ∃ t, insertAll ops4 (newTree ops4) treeSample = .ok t ∧ stored t 2 = [5, 8] ∧
    Stands bits4 t 2 (bits4 0x0a010000 16) := by
  have he : (insertAll ops4 (newTree ops4) treeSample >>= fun t => Go.ok (stored t 2, t.nodes.drop 1)) =
      .ok ([5, 8], [⟨5, 0, 0, 0, 0⟩, ⟨0, 0, 0x40000000#32, 2, 2⟩, ⟨2, 4, 0x02000000#32, 6, 0⟩,
        ⟨0, 0, 0x80000000#32, 2, 1⟩, ⟨3, 0, 0x0a000000#32, 8, 1⟩]) := by
    decide +kernel
  obtain ⟨t, h1, h2⟩ := Go.bind_eq_ok.mp he
  simp only [Go.ok.injEq, Prod.mk.injEq] at h2
  obtain ⟨e0, e⟩ := h2
  have hn : ∀ i, t.nodes[i + 1]? = (t.nodes.drop 1)[i]? := by intro i; rw [List.getElem?_drop]; congr 1; omega
  have e1 := hn 0
  have e5 := hn 4
  have e3 := hn 2
  have e2 := hn 1
  rw [e] at e1 e2 e3 e5
  simp only [Nat.zero_add, Nat.reduceAdd] at e1 e2 e3 e5
  refine ⟨t, h1, e0, ?_⟩
  have s1 := Stands.root (bits := bits4) (t := t)
  have s5 := Stands.left _ _ _ _ s1 e1 (by decide) e5
  have s3 := Stands.left _ _ _ _ s5 e5 (by decide) e3
  have s2 := Stands.left _ _ _ _ s3 e3 (by decide) e2
  exact s2

/-- **C40, in use.** `NewOV` always returns, and `Validate` on the result always answers or reports that it cannot read
    the prefix of the route: for every table, of any size and with any prefixes and masks, and every route. -/
theorem C40_validate_total (vs : List VRP) (r : Route) : ∃ ov, newOV vs = .ok ov ∧
    ((∃ res st, validate ov r = .ok (res, st)) ∨ ∃ m, validate ov r = .err m) := by
  obtain ⟨ov, h1, h2⟩ := validate_total vs r
  refine ⟨ov, h1, ?_⟩
  rcases h2 with ⟨⟨res, st⟩, h⟩ | ⟨-, h⟩
  · exact Or.inl ⟨res, st, h⟩
  · exact Or.inr h

end Verif.Props
