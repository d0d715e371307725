import Verif.Lemmas.PatriciaFind
import Verif.Lemmas.Cert
import Verif.Spec.Ov
/-
  Origin validation: from prefixes as numbers to bits, and from bits to the two trees.
-/
set_option autoImplicit false

namespace Verif.Ov

variable {K : Prop}
open BerSpec ResSpec Net Patricia OvSpec

/-- The bits of a prefix. -/
def pbits (p : Pfx) : List Bool := (List.range p.len).map (fun i => p.addr.testBit (p.size - 1 - i))

theorem div_eq_iff_bits {x y S p : Nat} (hx : x < 2 ^ S) (hy : y < 2 ^ S) (hp : p ≤ S) :
    x / 2 ^ (S - p) = y / 2 ^ (S - p) ↔ ∀ i, i < p → x.testBit (S - 1 - i) = y.testBit (S - 1 - i) := by
  constructor
  · intro h i hi
    have h1 := congrArg (fun z => z.testBit (p - 1 - i)) h
    simp only [Nat.testBit_div_two_pow] at h1
    have e : p - 1 - i + (S - p) = S - 1 - i := by omega
    rwa [e] at h1
  · intro h
    apply Nat.eq_of_testBit_eq
    intro j
    simp only [Nat.testBit_div_two_pow]
    by_cases hj : j + (S - p) < S
    · have := h (S - 1 - (j + (S - p))) (by omega)
      have e : S - 1 - (S - 1 - (j + (S - p))) = j + (S - p) := by omega
      rwa [e] at this
    · have hle : 2 ^ S ≤ 2 ^ (j + (S - p)) := Nat.pow_le_pow_right (by decide) (by omega)
      rw [Nat.testBit_lt_two_pow (by omega), Nat.testBit_lt_two_pow (by omega)]

/-- Prefixes met by the code: the address fits the family, and so does the length. -/
def Ranged (p : Pfx) : Prop := p.addr < 2 ^ p.size ∧ p.len ≤ p.size

theorem map_range_prefix {B : Type} (f g : Nat → B) (m n : Nat) :
    (List.range m).map f <+: (List.range n).map g ↔ m ≤ n ∧ ∀ i, i < m → f i = g i := by
  constructor
  · intro h
    have hl := h.length_le
    simp only [List.length_map, List.length_range] at hl
    refine ⟨hl, fun i hi => ?_⟩
    have := h.getElem (i := i) (by simpa using hi)
    simpa using this
  · rintro ⟨h, he⟩
    rw [List.prefix_iff_eq_take]
    simp only [List.length_map, List.length_range]
    rw [← List.map_take, List.take_range, Nat.min_eq_left h]
    apply List.map_congr_left
    intro i hi
    exact he i (by simpa using hi)

theorem covers_iff {a b : Pfx} (ha : Ranged a) (hb : Ranged b) :
    a.Covers b ↔ a.v6 = b.v6 ∧ pbits a <+: pbits b := by
  unfold Pfx.Covers pbits
  constructor
  · rintro ⟨h1, h2, h3⟩
    have hs : b.size = a.size := by unfold Pfx.size; rw [h1]
    refine ⟨h1, ?_⟩
    rw [map_range_prefix, hs]
    refine ⟨h2, fun i hi => ?_⟩
    exact ((div_eq_iff_bits (by rw [← hs]; exact hb.1) ha.1 ha.2).mp h3 i hi).symm
  · rintro ⟨h1, h2⟩
    have hs : b.size = a.size := by unfold Pfx.size; rw [h1]
    rw [map_range_prefix, hs] at h2
    refine ⟨h1, h2.1, ?_⟩
    exact (div_eq_iff_bits (by rw [← hs]; exact hb.1) ha.1 ha.2).mpr (fun i hi => (h2.2 i hi).symm)

theorem pbits_length (p : Pfx) : (pbits p).length = p.len := by simp [pbits]

theorem same_iff {a b : Pfx} (ha : Ranged a) (hb : Ranged b) :
    a.Same b ↔ a.v6 = b.v6 ∧ pbits a = pbits b := by
  unfold Pfx.Same
  rw [covers_iff ha hb]
  constructor
  · rintro ⟨⟨h1, h2⟩, h3⟩
    exact ⟨h1, h2.eq_of_length (by rw [pbits_length, pbits_length, h3])⟩
  · rintro ⟨h1, h2⟩
    refine ⟨⟨h1, h2 ▸ List.prefix_refl _⟩, ?_⟩
    rw [← pbits_length a, h2, pbits_length]

theorem isPfx_ranged {n : Option IPNet} {p : Pfx} (h : IsPfx n p) : Ranged p := by
  cases h with
  | v4 ip mask k hi hm hp => exact ⟨beVal_lt4 hi, by have := hp.1; rw [hm] at this; simpa [Pfx.size] using this⟩
  | v4in16 ip mask k hi hm hp => exact ⟨beVal_lt4 hi, by have := hp.1; rw [hm] at this; simpa [Pfx.size] using this⟩
  | v6 ip mask k hi hn hm hp => exact ⟨beVal_lt16 hi, by have := hp.1; rw [hm] at this; simpa [Pfx.size] using this⟩

/-- The family and the bits of what was parsed. -/
def keyOf : Parsed → Option (Bool × List Bool)
  | .v4 a n => some (false, bitsOf bit4 a n)
  | .v6 a n => some (true, bitsOf bit6 a n)
  | .bad => none

theorem addr_bits4 (v n : Nat) (h : n ≤ 32) :
    bitsOf bit4 (BitVec.ofNat 32 v) n = (List.range n).map (fun i => v.testBit (32 - 1 - i)) := by
  apply List.map_congr_left
  intro i hi
  have hi : i < n := by simpa using hi
  have h1 : i < 32 := by omega
  have h2 : 31 - i < 32 := by omega
  simp only [bit4, BitVec.getMsbD, h1, decide_true, Bool.true_and, BitVec.getLsbD_ofNat]
  simp [h2]

theorem addr_bits6 (v n : Nat) (hv : v < 2 ^ 128) (h : n ≤ 128) :
    bitsOf bit6 (BitVec.ofNat 64 (v / 2 ^ 64), BitVec.ofNat 64 (v % 2 ^ 64)) n =
      (List.range n).map (fun i => v.testBit (128 - 1 - i)) := by
  apply List.map_congr_left
  intro i hi
  have hi : i < n := by simpa using hi
  unfold bit6
  by_cases h1 : i < 64
  · rw [if_pos h1]
    have h2 : 63 - i < 64 := by omega
    have e : 63 - i + 64 = 127 - i := by omega
    simp only [BitVec.getMsbD, h1, decide_true, Bool.true_and, BitVec.getLsbD_ofNat]
    rw [Nat.testBit_div_two_pow]
    simp [h2, e]
  · rw [if_neg h1]
    have h2 : i - 64 < 64 := by omega
    have h3 : 63 - (i - 64) < 64 := by omega
    have e : 63 - (i - 64) = 127 - i := by omega
    simp only [BitVec.getMsbD, h2, decide_true, Bool.true_and, BitVec.getLsbD_ofNat]
    rw [Nat.testBit_mod_two_pow]
    have h4 : 127 - i < 64 := by omega
    simp [h2, h4, e]

/-- Parsing gives the family, the bits and the length of the prefix. -/
theorem parse_isPfx {n : Option IPNet} {p : Pfx} (h : IsPfx n p) :
    (∃ a, p.v6 = false ∧ parseFromIPAddr n = .v4 a p.len ∧ bitsOf bit4 a p.len = pbits p ∧ p.len ≤ 32) ∨
    (∃ a, p.v6 = true ∧ parseFromIPAddr n = .v6 a p.len ∧ bitsOf bit6 a p.len = pbits p ∧ p.len ≤ 128) := by
  have hr := (isPfx_ranged h).2
  cases h with
  | v4 ip mask k hi hm hp =>
    left
    have h1 : to4 ip = some ip := by simp [to4, hi]
    refine ⟨BitVec.ofNat 32 (bigEndian 4 ip), rfl, ?_, ?_, by simpa [Pfx.size] using hr⟩
    · simp only [parseFromIPAddr, h1, maskSize_of_isMask hp]
    · rw [addr_bits4 _ _ (by simpa [Pfx.size] using hr)]
      simp only [pbits, Pfx.size, Bool.false_eq_true, if_false, bigEndian]
      rw [List.take_of_length_le (by omega)]
      rfl
  | v4in16 ip mask k hi hm hp =>
    left
    have h1 : to4 (List.replicate 10 0 ++ [0xff, 0xff] ++ ip) = some ip := by
      simp [to4, hi, List.replicate]
    refine ⟨BitVec.ofNat 32 (bigEndian 4 ip), rfl, ?_, ?_, by simpa [Pfx.size] using hr⟩
    · simp only [parseFromIPAddr, h1, maskSize_of_isMask hp]
    · rw [addr_bits4 _ _ (by simpa [Pfx.size] using hr)]
      simp only [pbits, Pfx.size, Bool.false_eq_true, if_false, bigEndian]
      rw [List.take_of_length_le (by omega)]
      rfl
  | v6 ip mask k hi hn hm hp =>
    right
    have h1 : to4 ip = none := by
      unfold to4
      rw [if_neg (by omega), if_neg]
      rintro ⟨-, h2, h3⟩
      apply hn
      refine ⟨ip.drop 12, by simp [hi], ?_⟩
      rw [← h2, ← h3]
      have e : ip.drop 12 = (ip.drop 10).drop 2 := by simp
      rw [e, List.append_assoc, List.take_append_drop, List.take_append_drop]
    have h2 : to16IsSome ip = true := by simp [to16IsSome, hi]
    refine ⟨(BitVec.ofNat 64 (bigEndian 8 ip), BitVec.ofNat 64 (bigEndian 8 (ip.drop 8))), rfl, ?_, ?_,
      by simpa [Pfx.size] using hr⟩
    · simp only [parseFromIPAddr, h1, h2, if_true, maskSize_of_isMask hp]
    · have hsplit : beVal ip = beVal (ip.take 8) * 2 ^ 64 + beVal (ip.drop 8) := by
        conv => lhs; rw [← List.take_append_drop 8 ip]
        rw [beVal_append']
        simp [hi]
      have hlow : beVal (ip.drop 8) < 2 ^ 64 := by
        have := beVal_lt' (ip.drop 8)
        simpa [hi] using this
      have hb1 : bigEndian 8 ip = beVal ip / 2 ^ 64 := by
        have e : bigEndian 8 ip = beVal (ip.take 8) := rfl
        rw [e, hsplit]; omega
      have hb2 : bigEndian 8 (ip.drop 8) = beVal ip % 2 ^ 64 := by
        have e : bigEndian 8 (ip.drop 8) = beVal (ip.drop 8) := by
          unfold bigEndian beVal
          rw [List.take_of_length_le (by simp [hi])]
        rw [e, hsplit]; omega
      rw [hb1, hb2, addr_bits6 _ _ (beVal_lt16 hi) (by simpa [Pfx.size] using hr)]
      simp [pbits, Pfx.size]

theorem key_isPfx {n : Option IPNet} {p : Pfx} (h : IsPfx n p) :
    keyOf (parseFromIPAddr n) = some (p.v6, pbits p) := by
  rcases parse_isPfx h with ⟨a, h1, h2, h3, -⟩ | ⟨a, h1, h2, h3, -⟩
  · rw [h2, h1]; simp [keyOf, h3]
  · rw [h2, h1]; simp [keyOf, h3]

theorem key_none : keyOf (parseFromIPAddr none) = none := rfl

/-- The indices, counted from `i`, of the entries with this family and these bits. -/
def hits (k : Bool × List Bool) : List VRP → Nat → List Int
  | [], _ => []
  | v :: vs, i => (if keyOf (parseFromIPAddr v.pre) = some k then [(i : Int)] else []) ++ hits k vs (i + 1)

/-- The length of what was parsed fits its family. -/
def FitLen (n : Option IPNet) : Prop :=
  match parseFromIPAddr n with
  | .v4 _ k => k ≤ 32
  | .v6 _ k => k ≤ 128
  | .bad => True

theorem isPfx_fitLen {n : Option IPNet} {p : Pfx} (h : IsPfx n p) : FitLen n := by
  unfold FitLen
  rcases parse_isPfx h with ⟨a, h1, h2, h3, h4⟩ | ⟨a, h1, h2, h3, h4⟩
  · rw [h2]; exact h4
  · rw [h2]; exact h4

theorem proper_fitLen {v : VRP} (h : Proper v) : FitLen v.pre := by
  rcases h with h | ⟨p, h⟩
  · rw [h]; trivial
  · exact isPfx_fitLen h

/-- What is known about the two trees: they are well formed; and, if all lengths fitted, what they
    hold. -/
structure Trees (K : Prop) (N : Nat) (ts : Patricia.Tree (BitVec 32) × Patricia.Tree V6) (fit : Prop)
    (hold : Bool × List Bool → List Int) : Prop where
  t4 : ∃ xs l r, Whole K ops4 32 bit4 N ts.1 xs l r ∧
    (fit → Fit 32 0 l ∧ Fit 32 0 r ∧ ∀ q, sub bit4 xs l r q = hold (false, q))
  t6 : ∃ xs l r, Whole K ops6 128 bit6 N ts.2 xs l r ∧
    (fit → Fit 128 0 l ∧ Fit 128 0 r ∧ ∀ q, sub bit6 xs l r q = hold (true, q))

theorem _root_.Verif.Patricia.Whole.mono {A : Type} {o : Ops A} {W : Nat} {bit : A → Nat → Bool} {N M : Nat}
    {T : Patricia.Tree A} {ts : List Int} {l r : PT A} (h : Whole K o W bit N T ts l r) (hm : N ≤ M) :
    Whole K o W bit M T ts l r :=
  ⟨h.rep, h.small.mono hm, h.nodup, by have := h.len; omega, h.cap, h.fl, h.fr, h.wl, h.wr⟩

theorem buildLoop_trees (vs : List VRP) : ∀ (i N : Nat) (ts : Patricia.Tree (BitVec 32) × Patricia.Tree V6) (fit : Prop)
    (hold : Bool × List Bool → List Int), Trees K N ts fit hold → (K → 2 * (N + vs.length) + 4 ≤ 2 ^ 32) →
    ∃ ts', buildLoop vs i ts = Go.ok ts' ∧
      Trees K (N + vs.length) ts' (fit ∧ ∀ v ∈ vs, FitLen v.pre) (fun k => hold k ++ hits k vs i) := by
  induction vs with
  | nil =>
    intro i N ts fit hold h _
    refine ⟨ts, rfl, ?_⟩
    obtain ⟨h4, h6⟩ := h
    constructor
    · obtain ⟨xs, l, r, hw, hf⟩ := h4
      refine ⟨xs, l, r, hw, fun hh => ?_⟩
      obtain ⟨f1, f2, f3⟩ := hf hh.1
      exact ⟨f1, f2, fun q => by simp [hits, f3]⟩
    · obtain ⟨xs, l, r, hw, hf⟩ := h6
      refine ⟨xs, l, r, hw, fun hh => ?_⟩
      obtain ⟨f1, f2, f3⟩ := hf hh.1
      exact ⟨f1, f2, fun q => by simp [hits, f3]⟩
  | cons v vs ih =>
    intro i N ts fit hold h hN
    simp only [List.length_cons] at hN
    have step : ∀ ts1, Trees K (N + 1) ts1 (fit ∧ FitLen v.pre)
        (fun k => hold k ++ if keyOf (parseFromIPAddr v.pre) = some k then [(i : Int)] else []) →
        ∃ ts', buildLoop vs (i + 1) ts1 = Go.ok ts' ∧
          Trees K (N + (vs.length + 1)) ts' (fit ∧ ∀ w ∈ v :: vs, FitLen w.pre)
            (fun k => hold k ++ hits k (v :: vs) i) := by
      intro ts1 h1
      obtain ⟨ts', h2, h3⟩ := ih (i + 1) (N + 1) ts1 _ _ h1 (fun hK => by have := hN hK; omega)
      refine ⟨ts', h2, ?_⟩
      have e1 : N + 1 + vs.length = N + (vs.length + 1) := by omega
      rw [e1] at h3
      have e2 : ((fit ∧ FitLen v.pre) ∧ ∀ w ∈ vs, FitLen w.pre) = (fit ∧ ∀ w ∈ v :: vs, FitLen w.pre) := by
        apply propext
        simp [and_assoc]
      rw [e2] at h3
      have e3 : (fun k => (hold k ++ if keyOf (parseFromIPAddr v.pre) = some k then [(i : Int)] else []) ++
          hits k vs (i + 1)) = (fun k => hold k ++ hits k (v :: vs) i) := by
        funext k; simp [hits]
      rw [e3] at h3
      exact h3
    obtain ⟨h4, h6⟩ := h
    unfold buildLoop
    cases hp : parseFromIPAddr v.pre with
    | bad =>
      simp only
      apply step
      constructor
      · obtain ⟨xs, l, r, hw, hf⟩ := h4
        refine ⟨xs, l, r, hw.mono (by omega), fun hh => ?_⟩
        obtain ⟨f1, f2, f3⟩ := hf hh.1
        exact ⟨f1, f2, fun q => by simp [hp, keyOf, f3]⟩
      · obtain ⟨xs, l, r, hw, hf⟩ := h6
        refine ⟨xs, l, r, hw.mono (by omega), fun hh => ?_⟩
        obtain ⟨f1, f2, f3⟩ := hf hh.1
        exact ⟨f1, f2, fun q => by simp [hp, keyOf, f3]⟩
    | v4 a n =>
      simp only
      obtain ⟨xs, l, r, hw, hf⟩ := h4
      obtain ⟨T', xs', l', r', ha, hw', hs'⟩ := add_whole lawful4 hw (fun hK => by have := hN hK; omega) a n (i : Int)
      rw [ha, Go.ok_bind]
      apply step
      constructor
      · refine ⟨xs', l', r', hw', fun hh => ?_⟩
        obtain ⟨f1, f2, f3⟩ := hf hh.1
        have hn : n ≤ 32 := by have := hh.2; unfold FitLen at this; rw [hp] at this; exact this
        obtain ⟨g1, g2, g3⟩ := hs' hn f1 f2
        refine ⟨g1, g2, fun q => ?_⟩
        rw [g3, f3, hp]
        simp only [keyOf, Option.some.injEq, Prod.mk.injEq, true_and, eq_comm]
      · obtain ⟨xs, l, r, hw, hf⟩ := h6
        refine ⟨xs, l, r, hw.mono (by omega), fun hh => ?_⟩
        obtain ⟨f1, f2, f3⟩ := hf hh.1
        exact ⟨f1, f2, fun q => by simp [hp, keyOf, f3]⟩
    | v6 a n =>
      simp only
      obtain ⟨xs, l, r, hw, hf⟩ := h6
      obtain ⟨T', xs', l', r', ha, hw', hs'⟩ := add_whole lawful6 hw (fun hK => by have := hN hK; omega) a n (i : Int)
      rw [ha, Go.ok_bind]
      apply step
      constructor
      · obtain ⟨xs, l, r, hw, hf⟩ := h4
        refine ⟨xs, l, r, hw.mono (by omega), fun hh => ?_⟩
        obtain ⟨f1, f2, f3⟩ := hf hh.1
        exact ⟨f1, f2, fun q => by simp [hp, keyOf, f3]⟩
      · refine ⟨xs', l', r', hw', fun hh => ?_⟩
        obtain ⟨f1, f2, f3⟩ := hf hh.1
        have hn : n ≤ 128 := by have := hh.2; unfold FitLen at this; rw [hp] at this; exact this
        obtain ⟨g1, g2, g3⟩ := hs' hn f1 f2
        refine ⟨g1, g2, fun q => ?_⟩
        rw [g3, f3, hp]
        simp only [keyOf, Option.some.injEq, Prod.mk.injEq, true_and, eq_comm]

/-- The two trees after `NewOV`. -/
theorem newOV_trees (vs : List VRP) (h : K → vs.length < 2 ^ 31 - 2) : ∃ ov, newOV vs = Go.ok ov ∧ ov.vrp = vs ∧
    Trees K vs.length (ov.t4, ov.t6) (∀ v ∈ vs, FitLen v.pre) (fun k => hits k vs 0) := by
  have h0 : Trees K 0 (newTree ops4, newTree ops6) True (fun _ => []) := by
    constructor
    · refine ⟨[], .nil, .nil, newTree_whole _ _ _, fun _ => ⟨trivial, trivial, fun q => ?_⟩⟩
      cases q <;> simp [sub, tagsAt]
    · refine ⟨[], .nil, .nil, newTree_whole _ _ _, fun _ => ⟨trivial, trivial, fun q => ?_⟩⟩
      cases q <;> simp [sub, tagsAt]
  obtain ⟨ts, h1, h2⟩ := buildLoop_trees vs 0 0 _ _ _ h0 (fun hK => by have := h hK; omega)
  refine ⟨⟨vs, ts.1, ts.2⟩, ?_, rfl, ?_⟩
  · unfold newOV
    rw [h1]; rfl
  · simpa using h2

/-- Entries picked by their indices. -/
def Picks (vrps : List VRP) (xs : List Int) (vs : List VRP) : Prop :=
  List.Forall₂ (fun x v => vrpAt vrps x = Go.ok v) xs vs

theorem picks_append {vrps : List VRP} {xs ys : List Int} {vs ws : List VRP} (h1 : Picks vrps xs vs)
    (h2 : Picks vrps ys ws) : Picks vrps (xs ++ ys) (vs ++ ws) := by
  induction h1 with
  | nil => exact h2
  | cons h _ ih => exact .cons h ih

theorem hits_picks (k : Bool × List Bool) (vrps : List VRP) : ∀ (pre vs : List VRP), vrps = pre ++ vs →
    Picks vrps (hits k vs pre.length) (vs.filter (fun v => keyOf (parseFromIPAddr v.pre) = some k)) := by
  intro pre vs
  induction vs generalizing pre with
  | nil => intro _; exact .nil
  | cons v vs ih =>
    intro h
    have := ih (pre ++ [v]) (by simp [h])
    simp only [List.length_append, List.length_cons, List.length_nil] at this
    simp only [hits]
    by_cases hk : keyOf (parseFromIPAddr v.pre) = some k
    · rw [if_pos hk, List.filter_cons_of_pos (by simpa using hk)]
      refine .cons ?_ this
      unfold vrpAt
      rw [if_neg (by omega)]
      apply idx_some
      simp [h]
    · rw [if_neg hk, List.filter_cons_of_neg (by simpa using hk)]
      exact this

theorem flatMap_picks {vrps : List VRP} {B : Type} (l : List B) (f : B → List Int) (g : B → List VRP)
    (h : ∀ b ∈ l, Picks vrps (f b) (g b)) : Picks vrps (l.flatMap f) (l.flatMap g) := by
  induction l with
  | nil => exact .nil
  | cons b l ih =>
    simp only [List.flatMap_cons]
    exact picks_append (h b (by simp)) (ih (fun c hc => h c (by simp [hc])))

/-- The verdict after some entries. -/
def verdict (asn : UInt32) (mask : Nat) (vs : List VRP) : State :=
  if vs.any (fun v => asn = v.asn ∧ (mask : Int) ≤ v.maxLen) then .valid
  else if vs = [] then .unknown else .invalid

theorem run_filter {vrps : List VRP} {asn : UInt32} {mask : Nat} {xs : List Int} {vs : List VRP}
    (h : Picks vrps xs vs) : ∀ (acc : List Int) (old : List VRP),
    ∃ acc', runFilter (filter vrps asn mask) xs (acc, ⟨verdict asn mask old, old⟩) =
      Go.ok (acc', ⟨verdict asn mask (old ++ vs), old ++ vs⟩) := by
  induction h with
  | nil => intro acc old; exact ⟨acc, by simp [runFilter]⟩
  | @cons x v xs vs h _ ih =>
    intro acc old
    obtain ⟨acc', ha⟩ := ih (acc ++ [x]) (old ++ [v])
    refine ⟨acc', ?_⟩
    have hv : (if verdict asn mask old ≠ .valid then
        (if asn = v.asn ∧ (mask : Int) ≤ v.maxLen then State.valid else .invalid)
        else verdict asn mask old) = verdict asn mask (old ++ [v]) := by
      unfold verdict
      simp only [List.any_append, List.any_cons, List.any_nil, Bool.or_false]
      cases h1 : old.any (fun v => asn = v.asn ∧ (mask : Int) ≤ v.maxLen) with
      | true => simp
      | false =>
        by_cases h2 : asn = v.asn ∧ (mask : Int) ≤ v.maxLen
        · by_cases h3 : old = [] <;> simp [h2, h3]
        · by_cases h3 : old = [] <;> simp [h2, h3]
    simp only [runFilter, filter, h, Go.ok_bind, Go.pure_def, if_true]
    rw [hv, ha]
    simp

/-- `NewOV` and `Validate`, for proper prefixes: the entries are those whose prefix is one of the
    prefixes of the route, from the shortest to the longest. -/
theorem validate_eq (vs : List VRP) (h : vs.length < 2 ^ 31 - 2) (hv : ∀ v ∈ vs, Proper v) (r : Route)
    (p : Pfx) (hp : IsPfx r.pre p) :
    let res := (List.range (p.len + 1)).flatMap (fun m =>
      vs.filter (fun v => keyOf (parseFromIPAddr v.pre) = some (p.v6, (pbits p).take m)))
    ∃ ov, newOV vs = Go.ok ov ∧ validate ov r = Go.ok (res, verdict r.asn p.len res) := by
  intro res
  obtain ⟨ov, h1, h2, h3⟩ := newOV_trees (K := True) vs (fun _ => h)
  refine ⟨ov, h1, ?_⟩
  have hfit : ∀ v ∈ vs, FitLen v.pre := fun v hvm => proper_fitLen (hv v hvm)
  have hpk : Picks vs ((List.range (p.len + 1)).flatMap
      (fun m => hits (p.v6, (pbits p).take m) vs 0)) res :=
    flatMap_picks _ _ _ (fun m _ => hits_picks _ vs [] vs rfl)
  have hmask : maskLen r.pre = p.len := by
    generalize r.pre = n at hp
    cases hp with
    | v4 ip mask k hi hm hp => exact maskSize_of_isMask hp
    | v4in16 ip mask k hi hm hp => exact maskSize_of_isMask hp
    | v6 ip mask k hi hn hm hp => exact maskSize_of_isMask hp
  obtain ⟨acc, hrun⟩ := run_filter (asn := r.asn) (mask := p.len) hpk [] []
  have hv0 : verdict r.asn p.len [] = .unknown := by simp [verdict]
  rw [hv0] at hrun
  simp only [List.nil_append] at hrun
  unfold validate
  simp only [hmask]
  rcases parse_isPfx hp with ⟨a, e1, e2, e3, e4⟩ | ⟨a, e1, e2, e3, e4⟩
  · obtain ⟨xs, l, rr, hw, hf⟩ := h3.t4
    obtain ⟨f1, f2, f3⟩ := hf hfit
    rw [e2]
    simp only
    rw [find_whole lawful4 trivial hw f1 f2 a p.len e4, h2, e3]
    simp only [f3]
    rw [e1] at hrun
    rw [hrun]; rfl
  · obtain ⟨xs, l, rr, hw, hf⟩ := h3.t6
    obtain ⟨f1, f2, f3⟩ := hf hfit
    rw [e2]
    simp only
    rw [find_whole lawful6 trivial hw f1 f2 a p.len e4, h2, e3]
    simp only [f3]
    rw [e1] at hrun
    rw [hrun]; rfl

end Verif.Ov
