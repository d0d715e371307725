import Verif.Model.Der
import Verif.Lemmas.Ber2
import Verif.Lemmas.Basic
import Mathlib.Data.List.Induction
/- Lemmas about the element-level model of encoding/asn1. -/
set_option autoImplicit false

namespace Verif.Der
open BerSpec Ber

/-! ### Calls that end with a value or an error -/

/-- The call returns: it neither panics nor runs for ever. -/
def Safe {α : Type} (x : Go α) : Prop := x ≠ .panic ∧ x ≠ .diverge

theorem Safe.ok {α : Type} (a : α) : Safe (Go.ok a) := by simp [Safe]
theorem Safe.err {α : Type} (m : String) : Safe (Go.err m : Go α) := by simp [Safe]
theorem Safe.bind {α β : Type} {x : Go α} {f : α → Go β} (h : Safe x) (hf : ∀ a, x = .ok a → Safe (f a)) :
    Safe (x >>= f) := by
  cases x with
  | ok a => simpa using hf a rfl
  | err m => simp [Safe]
  | panic => simp [Safe] at h
  | diverge => simp [Safe] at h
theorem Safe.ite {α : Type} {c : Prop} [Decidable c] {x y : Go α} (hx : Safe x) (hy : Safe y) :
    Safe (if c then x else y) := by split <;> assumption

/-! ### Lengths -/

theorem foldl_ge (ds : Bytes) (acc : Nat) :
    acc ≤ ds.foldl (fun a d => a * 256 + d.toNat) acc := by
  induction ds generalizing acc with
  | nil => simp
  | cons d ds ih => simp only [List.foldl_cons]; exact le_trans (by omega) (ih _)
where le_trans {a b c : Nat} (h : a ≤ b) (h' : b ≤ c) : a ≤ c := Nat.le_trans h h'

theorem longLength_enc (ds rest : Bytes) (acc : Nat)
    (hv : ds.foldl (fun a d => a * 256 + d.toNat) acc < 2 ^ 31)
    (hm : 128 ≤ ds.foldl (fun a d => a * 256 + d.toNat) acc)
    (h0 : 0 < acc ∨ ∃ d ds', ds = d :: ds' ∧ d ≠ 0) :
    longLength ds.length acc (ds ++ rest) =
      .ok (ds.foldl (fun a d => a * 256 + d.toNat) acc, rest) := by
  induction ds generalizing acc with
  | nil => simp only [List.foldl_nil] at hm; simp [longLength]; omega
  | cons d ds ih =>
    simp only [List.foldl_cons] at hv hm ⊢
    simp only [List.length_cons, List.cons_append, longLength]
    have h1 := foldl_ge ds (acc * 256 + d.toNat)
    have hpos : 0 < acc * 256 + d.toNat := by
      rcases h0 with h0 | ⟨d', ds', he, hd⟩
      · omega
      · simp only [List.cons.injEq] at he
        have : d.toNat ≠ 0 := by
          intro hz; apply hd; rw [← he.1]; exact UInt8.toNat_inj.mp (by simpa using hz)
        omega
    rw [if_neg (by omega), if_neg (by omega)]
    exact ih _ hv hm (Or.inl hpos)

theorem or80 (k : Nat) (h0 : 0 < k) (h : k < 128) :
    ¬ ((0x80 : UInt8) ||| k.toUInt8) < 0x80 ∧ ((0x80 : UInt8) ||| k.toUInt8).toNat % 128 = k := by
  have := (by decide : ∀ k : Fin 128, ¬ ((0x80 : UInt8) ||| k.val.toUInt8) < 0x80 ∧
    ((0x80 : UInt8) ||| k.val.toUInt8).toNat % 128 = k.val) ⟨k, h⟩
  simpa using this

theorem or80_inv (b : UInt8) (h : ¬ b < 0x80) : (0x80 : UInt8) ||| (b.toNat % 128).toUInt8 = b := by
  revert h
  refine u8_forall (P := fun b => ¬ b < 0x80 → (0x80 : UInt8) ||| (b.toNat % 128).toUInt8 = b) ?_ b
  decide +kernel

theorem toUInt8_toNat_small {n : Nat} (h : n < 256) : n.toUInt8.toNat = n := by
  simp [Nat.toUInt8, UInt8.ofNat, UInt8.toNat, BitVec.toNat_ofNat]; omega

theorem parseLength_enc (n : Nat) (rest : Bytes) (h : n < 2 ^ 31) :
    parseLength (derLength n ++ rest) = .ok (n, rest) := by
  unfold derLength
  split
  · rename_i hs
    simp only [List.cons_append, List.nil_append, parseLength]
    have e := toUInt8_toNat_small (n := n) (by omega)
    rw [if_pos (by rw [UInt8.lt_iff_toNat_lt, e]; simpa using hs), e]
  · rename_i hs
    have hl : (digits n).length < 128 := by
      rw [digits_length n (by omega)]
      have := Ber.lengthLength_le (n := n) (k := 4) (by omega) (by omega); omega
    have hp : 0 < (digits n).length := by
      rw [digits_length n (by omega)]; exact Ber.lengthLength_pos n
    obtain ⟨h1, h2⟩ := or80 _ hp hl
    simp only [List.cons_append, parseLength]
    rw [if_neg h1, h2, if_neg (by omega)]
    have hb : (digits n).foldl (fun a d => a * 256 + d.toNat) 0 = n := beVal_digits n
    rw [longLength_enc (digits n) rest 0 (by rw [hb]; omega) (by rw [hb]; omega), hb]
    obtain ⟨d, ds, he, hd, -⟩ := digits_head n (by omega)
    exact Or.inr ⟨d, ds, he, hd⟩

theorem longLength_ok {k acc v : Nat} {bs rest : Bytes} (h : longLength k acc bs = .ok (v, rest)) :
    ∃ ds, ds.length = k ∧ bs = ds ++ rest ∧ v = ds.foldl (fun a d => a * 256 + d.toNat) acc ∧
      128 ≤ v ∧ (acc < 2 ^ 31 → v < 2 ^ 31) ∧
      (acc = 0 → ∀ d ds', ds = d :: ds' → d ≠ 0) := by
  induction k generalizing acc bs with
  | zero =>
    simp only [longLength] at h
    split at h
    · simp at h
    · simp at h; obtain ⟨rfl, rfl⟩ := h
      exact ⟨[], rfl, rfl, rfl, by omega, fun h => h, by simp⟩
  | succ k ih =>
    cases bs with
    | nil => simp [longLength] at h
    | cons b bs =>
      simp only [longLength] at h
      split at h
      · simp at h
      · split at h
        · simp at h
        · rename_i h1 h2
          obtain ⟨ds, e1, e2, e3, e4, e5, e6⟩ := ih h
          refine ⟨b :: ds, by simp [e1], by simp [e2], by simpa using e3, e4, ?_, ?_⟩
          · intro _
            apply e5
            have := u8_lt b
            omega
          · intro ha d ds' he
            simp only [List.cons.injEq] at he
            obtain ⟨rfl, -⟩ := he
            intro hz; apply h2; rw [ha, hz]; rfl

theorem digits_beVal_aux (ds : Bytes) : ∀ d : UInt8, d ≠ 0 → digits (beVal (d :: ds)) = d :: ds := by
  induction ds using List.reverseRecOn with
  | nil =>
    intro d hd
    have hd' : d.toNat ≠ 0 := by
      intro hz; apply hd; exact UInt8.toNat_inj.mp (by simpa using hz)
    have := u8_lt d
    have e : beVal [d] = d.toNat := by simp [beVal]
    rw [e, digits, if_neg (by omega)]
    have e' : d.toNat / 256 = 0 := by omega
    rw [e', digits, if_pos rfl, List.nil_append]
    congr 1
    apply UInt8.toNat_inj.mp
    rw [toUInt8_toNat_small (by omega)]; omega
  | append_singleton ds x ih =>
    intro d hd
    have e : beVal (d :: (ds ++ [x])) = beVal (d :: ds) * 256 + x.toNat := by
      simp [beVal, List.foldl_append]
    have hx := u8_lt x
    rw [e]
    have hpos : beVal (d :: ds) ≠ 0 := by
      have := foldl_ge ds (0 * 256 + d.toNat)
      have hd' : d.toNat ≠ 0 := by
        intro hz; apply hd; exact UInt8.toNat_inj.mp (by simpa using hz)
      simp only [beVal, List.foldl_cons]; omega
    rw [digits, if_neg (by omega)]
    have e1 : (beVal (d :: ds) * 256 + x.toNat) / 256 = beVal (d :: ds) := by omega
    have e2 : (beVal (d :: ds) * 256 + x.toNat) % 256 = x.toNat := by omega
    rw [e1, e2, ih d hd]
    simp only [List.cons_append]
    congr 2
    congr 1
    apply UInt8.toNat_inj.mp
    rw [toUInt8_toNat_small (by omega)]

theorem parseLength_ok {n : Nat} {bs rest : Bytes} (h : parseLength bs = .ok (n, rest)) :
    bs = derLength n ++ rest ∧ n < 2 ^ 31 := by
  cases bs with
  | nil => simp [parseLength] at h
  | cons b bs =>
    simp only [parseLength] at h
    split at h
    · rename_i hb
      simp at h; obtain ⟨rfl, rfl⟩ := h
      have : b.toNat < 128 := by rw [UInt8.lt_iff_toNat_lt] at hb; simpa using hb
      refine ⟨?_, by omega⟩
      simp [derLength, this]
    · rename_i hb
      split at h
      · simp at h
      · rename_i hk
        obtain ⟨ds, e1, e2, e3, e4, e5, e6⟩ := longLength_ok h
        have hn := e5 (by omega)
        cases ds with
        | nil => simp at e1; omega
        | cons d ds =>
          have e7 : digits n = d :: ds := by
            rw [e3]; exact digits_beVal_aux ds d (e6 rfl d ds rfl)
          refine ⟨?_, hn⟩
          unfold derLength
          rw [if_neg (by omega), e7, e1, or80_inv b hb, e2]
          simp

/-! ### Headers -/

/-- The identifier octet of a tag below 31. -/
def ident (cls tag : Nat) (compound : Bool) : UInt8 := (cls * 64 + (if compound then 32 else 0) + tag).toUInt8

theorem ident_facts (b : UInt8) : b &&& 0x20 = 0x20 ↔ b.toNat / 32 % 2 = 1 := by
  refine u8_forall (P := fun b => b &&& 0x20 = 0x20 ↔ b.toNat / 32 % 2 = 1) ?_ b
  decide +kernel

theorem ident_inv (b : UInt8) : ident (b.toNat / 64) (b.toNat % 32) (b &&& 0x20 = 0x20) = b := by
  refine u8_forall (P := fun b => ident (b.toNat / 64) (b.toNat % 32) (b &&& 0x20 = 0x20) = b) ?_ b
  decide +kernel

theorem parseHeader_enc (id : UInt8) (n : Nat) (rest : Bytes) (hid : id.toNat % 32 ≠ 31) (h : n < 2 ^ 31) :
    parseHeader (id :: derLength n ++ rest) =
      .ok (⟨id.toNat / 64, id.toNat % 32, id &&& 0x20 = 0x20, n⟩, rest) := by
  simp only [List.cons_append, parseHeader, parseTag, if_neg hid, Go.ok_bind,
    parseLength_enc n rest h, Go.pure_def]

theorem base128_ok {s acc : Nat} {bs : Bytes} {r : Nat × Bytes} (h : base128 s acc bs = .ok r) :
    ∃ pre, pre ≠ [] ∧ bs = pre ++ r.2 := by
  induction bs generalizing s acc with
  | nil => simp [base128] at h
  | cons b bs ih =>
    simp only [base128] at h
    split at h
    · simp at h
    · split at h
      · simp at h
      · split at h
        · split at h
          · simp at h
          · simp at h; subst h; exact ⟨[b], by simp, by simp⟩
        · obtain ⟨pre, -, e⟩ := ih h
          exact ⟨b :: pre, by simp, by simp [e]⟩

/-- What an accepted header looks like: identifier octets, then a minimal definite length. -/
theorem parseHeader_ok {bs rest : Bytes} {hd : Header} (h : parseHeader bs = .ok (hd, rest)) :
    ∃ id more, bs = id :: more ++ derLength hd.length ++ rest ∧ hd.length < 2 ^ 31 ∧
      hd.cls = id.toNat / 64 ∧ hd.compound = decide (id &&& 0x20 = 0x20) ∧
      ((more = [] ∧ hd.tag = id.toNat % 32 ∧ hd.tag < 31) ∨ 31 ≤ hd.tag) := by
  cases bs with
  | nil => simp [parseHeader] at h
  | cons b bs =>
    simp only [parseHeader] at h
    obtain ⟨t, ht, h⟩ := Go.bind_eq_ok.mp h
    obtain ⟨l, hl, h⟩ := Go.bind_eq_ok.mp h
    simp at h
    obtain ⟨rfl, rfl⟩ := h
    obtain ⟨e1, e2⟩ := parseLength_ok (n := l.1) (rest := l.2) hl
    unfold parseTag at ht
    split at ht
    · obtain ⟨t', ht', ht⟩ := Go.bind_eq_ok.mp ht
      split at ht
      · simp at ht
      · simp at ht; subst ht
        obtain ⟨pre, -, e3⟩ := base128_ok ht'
        refine ⟨b, pre, ?_, e2, rfl, rfl, Or.inr ?_⟩
        · rw [e3, e1]; simp
        · show 31 ≤ t'.1
          omega
    · simp at ht; subst ht
      refine ⟨b, [], ?_, e2, rfl, rfl, Or.inl ⟨rfl, rfl, ?_⟩⟩
      · simp only [List.cons_append, List.nil_append]; exact congrArg _ e1
      · show b.toNat % 32 < 31
        omega

theorem tlv_eq (id : UInt8) (c : Bytes) : tlv id c = id :: derLength c.length ++ c := by
  unfold tlv; rw [Ber.encodeLength_eq]

/-! ### Elements -/

theorem parseTyped_tlv (tag : Nat) (compound : Bool) (id : UInt8) (c rest : Bytes)
    (hid : id.toNat = (if compound then 32 else 0) + tag) (ht : tag < 31) (hc : c.length < 2 ^ 31) :
    parseTyped tag compound (tlv id c ++ rest) = .ok (c, rest) := by
  rw [tlv_eq]
  unfold parseTyped
  rw [if_neg (by simp)]
  have e : id :: derLength c.length ++ c ++ rest = id :: derLength c.length ++ (c ++ rest) := by simp
  have hm : id.toNat % 32 = tag := by split at hid <;> omega
  have hk : decide (id &&& 0x20 = 0x20) = compound := by
    cases compound
    · simp only [decide_eq_false_iff_not, ident_facts]; simp at hid; omega
    · simp only [decide_eq_true_eq, ident_facts]; simp at hid; omega
  rw [e, parseHeader_enc id c.length (c ++ rest) (by omega) hc]
  simp only [Go.ok_bind, hm, hk]
  rw [if_neg (by
    have : id.toNat / 64 = 0 := by split at hid <;> omega
    simp [this]), if_neg (by simp)]
  simp

theorem parseTyped_ok {tag : Nat} {compound : Bool} {bs x rest : Bytes} (ht : tag < 31)
    (h : parseTyped tag compound bs = .ok (x, rest)) :
    bs = tlv ((if compound then 32 else 0) + tag).toUInt8 x ++ rest ∧ x.length < 2 ^ 31 := by
  unfold parseTyped at h
  split at h
  · simp at h
  · obtain ⟨hd, hh, h⟩ := Go.bind_eq_ok.mp h
    split at h
    · simp at h
    · rename_i hne
      split at h
      · simp at h
      · rename_i hlen
        simp at h; obtain ⟨rfl, rfl⟩ := h
        obtain ⟨id, more, e1, e2, e3, e4, e5⟩ := parseHeader_ok (hd := hd.1) (rest := hd.2) hh
        have h1 : hd.1.cls = 0 := by
          by_cases hx : hd.1.cls = 0
          · exact hx
          · exact absurd (Or.inl hx) hne
        have h2 : hd.1.tag = tag := by
          by_cases hx : hd.1.tag = tag
          · exact hx
          · exact absurd (Or.inr (Or.inl hx)) hne
        have h3 : hd.1.compound = compound := by
          by_cases hx : hd.1.compound = compound
          · exact hx
          · exact absurd (Or.inr (Or.inr hx)) hne
        have hxl : (hd.2.take hd.1.length).length = hd.1.length := by simp; omega
        refine ⟨?_, by rw [hxl]; exact e2⟩
        rcases e5 with ⟨rfl, e5, -⟩ | e5
        · rw [tlv_eq, hxl]
          have hid : ((if compound then 32 else 0) + tag).toUInt8 = id := by
            have := ident_inv id
            unfold ident at this
            rw [← e3, ← e5, h1, h2] at this
            rw [← this]
            have e6 : decide (id &&& 0x20 = 0x20) = compound := by rw [← e4, h3]
            rw [e6]
            simp
          rw [hid, e1]
          simp
        · omega

/-- An accepted element is the start of the input. -/
theorem parseAny_ok {bs rest : Bytes} {e : Elem} (h : parseAny bs = .ok (e, rest)) :
    bs = e.full ++ rest ∧ 2 ≤ e.full.length ∧ ∃ id more, e.full = id :: more ++ derLength e.bytes.length ++ e.bytes ∧
      e.bytes.length < 2 ^ 31 ∧ e.cls = id.toNat / 64 ∧ e.compound = decide (id &&& 0x20 = 0x20) ∧
      ((more = [] ∧ e.tag = id.toNat % 32 ∧ e.tag < 31) ∨ 31 ≤ e.tag) := by
  unfold parseAny at h
  split at h
  · simp at h
  · obtain ⟨hd, hh, h⟩ := Go.bind_eq_ok.mp h
    split at h
    · simp at h
    · rename_i hlen
      simp at h; obtain ⟨rfl, rfl⟩ := h
      obtain ⟨id, more, e1, e2, e3, e4, e5⟩ := parseHeader_ok (hd := hd.1) (rest := hd.2) hh
      have hxl : (hd.2.take hd.1.length).length = hd.1.length := by simp; omega
      have e6 : bs.length - hd.2.length = (id :: more ++ derLength hd.1.length).length := by
        rw [e1]; simp; omega
      have e7 : bs.take (bs.length - hd.2.length + hd.1.length) =
          id :: more ++ derLength hd.1.length ++ hd.2.take hd.1.length := by
        rw [e6]
        conv => lhs; rw [e1]
        rw [List.take_append]
        simp [List.take_of_length_le]
      refine ⟨?_, ?_, id, more, ?_, ?_, e3, e4, e5⟩
      · show bs = bs.take (bs.length - hd.2.length + hd.1.length) ++ _
        rw [e7]
        conv => lhs; rw [e1]
        simp
      · show 2 ≤ (bs.take (bs.length - hd.2.length + hd.1.length)).length
        rw [e7]
        have : 1 ≤ (derLength hd.1.length).length := by
          unfold derLength; split <;> simp
        simp; omega
      · show bs.take (bs.length - hd.2.length + hd.1.length) = _
        rw [e7, hxl]
      · show (hd.2.take hd.1.length).length < 2 ^ 31
        rw [hxl]; exact e2

theorem parseAny_tlv (id : UInt8) (c rest : Bytes) (hid : id.toNat % 32 ≠ 31) (hc : c.length < 2 ^ 31) :
    parseAny (tlv id c ++ rest) =
      .ok (⟨id.toNat / 64, id.toNat % 32, id &&& 0x20 = 0x20, c, tlv id c⟩, rest) := by
  rw [tlv_eq]
  unfold parseAny
  rw [if_neg (by simp)]
  have e : id :: derLength c.length ++ c ++ rest = id :: derLength c.length ++ (c ++ rest) := by simp
  rw [e, parseHeader_enc id c.length (c ++ rest) hid hc]
  simp only [Go.ok_bind]
  rw [if_neg (by simp)]
  have e2 : (id :: derLength c.length ++ (c ++ rest)).length - (c ++ rest).length + c.length =
      (id :: derLength c.length ++ c).length := by simp; omega
  rw [e2, ← e, List.take_left' rfl]
  simp only [List.take_left', List.drop_left', Go.pure_def]

theorem tlv_length_pos (id : UInt8) (c : Bytes) : 2 ≤ (tlv id c).length := by
  rw [tlv_eq]
  have : 1 ≤ (derLength c.length).length := by unfold derLength; split <;> simp
  simp; omega

/-! ### No panic, no divergence -/

theorem safe_base128 (s acc : Nat) (bs : Bytes) : Safe (base128 s acc bs) := by
  induction bs generalizing s acc with
  | nil => exact .err _
  | cons b bs ih =>
    unfold base128
    exact .ite (.err _) (.ite (.err _) (.ite (.ite (.err _) (.ok _)) (ih _ _)))

theorem safe_longLength (k acc : Nat) (bs : Bytes) : Safe (longLength k acc bs) := by
  induction k generalizing acc bs with
  | zero => unfold longLength; exact .ite (.err _) (.ok _)
  | succ k ih =>
    cases bs with
    | nil => exact .err _
    | cons b bs => unfold longLength; exact .ite (.err _) (.ite (.err _) (ih _ _))

theorem safe_parseLength (bs : Bytes) : Safe (parseLength bs) := by
  cases bs with
  | nil => exact .err _
  | cons b bs => unfold parseLength; exact .ite (.ok _) (.ite (.err _) (safe_longLength _ _ _))

theorem safe_parseTag (b : UInt8) (bs : Bytes) : Safe (parseTag b bs) := by
  unfold parseTag
  exact .ite ((safe_base128 _ _ _).bind (fun _ _ => .ite (.err _) (.ok _))) (.ok _)

theorem safe_parseHeader (bs : Bytes) : Safe (parseHeader bs) := by
  cases bs with
  | nil => exact .err _
  | cons b bs =>
    unfold parseHeader
    exact (safe_parseTag _ _).bind (fun _ _ => (safe_parseLength _).bind (fun _ _ => .ok _))

theorem safe_parseAny (bs : Bytes) : Safe (parseAny bs) := by
  unfold parseAny
  exact .ite (.err _) ((safe_parseHeader _).bind (fun _ _ => .ite (.err _) (.ok _)))

theorem safe_parseTyped (t : Nat) (c : Bool) (bs : Bytes) : Safe (parseTyped t c bs) := by
  unfold parseTyped
  exact .ite (.err _) ((safe_parseHeader _).bind (fun _ _ => .ite (.err _) (.ite (.err _) (.ok _))))

theorem safe_parseOptRaw (n : Nat) (bs : Bytes) : Safe (parseOptRaw n bs) := by
  unfold parseOptRaw
  exact .ite (.ok _) ((safe_parseHeader _).bind (fun _ _ => .ite (.ok _) (.ite (.err _) (.ok _))))

theorem safe_parseOptTyped (n : Nat) (bs : Bytes) : Safe (parseOptTyped n bs) := by
  unfold parseOptTyped
  exact .ite (.ok _) ((safe_parseHeader _).bind (fun _ _ => .ite (.ok _) (.ite (.err _) (.ok _))))

theorem safe_parseOptExplicitRaw (n : Nat) (bs : Bytes) : Safe (parseOptExplicitRaw n bs) := by
  unfold parseOptExplicitRaw
  exact .ite (.ok _) ((safe_parseHeader _).bind
    (fun _ _ => .ite (.err _) (.ite (.ite (.err _) (.ok _)) (.ok _))))

theorem safe_parseExplicit (n : Nat) (bs : Bytes) : Safe (parseExplicit n bs) := by
  unfold parseExplicit
  exact (safe_parseHeader _).bind (fun _ _ => .ite (.err _) (.ite (.ite (.ok _) (.err _)) (.ok _)))

theorem safe_parseInt (bs : Bytes) : Safe (parseInt bs) := by
  unfold parseInt
  exact (safe_parseTyped _ _ _).bind (fun _ _ => .ite (.ok _) (.err _))

theorem safe_parseOctets (bs : Bytes) : Safe (parseOctets bs) := safe_parseTyped _ _ _

theorem safe_oidLoop (n : Nat) (bs : Bytes) (h : bs.length ≤ n) : Safe (oidLoop n bs) := by
  induction n generalizing bs with
  | zero =>
    cases bs with
    | nil => exact .ok _
    | cons b bs => simp at h
  | succ n ih =>
    cases bs with
    | nil => exact .ok _
    | cons b bs =>
      unfold oidLoop
      refine (safe_base128 _ _ _).bind (fun r hr => ih _ ?_)
      obtain ⟨pre, hp, e⟩ := base128_ok hr
      have := congrArg List.length e
      have : 0 < pre.length := List.length_pos_iff.mpr hp
      simp at *; omega

theorem safe_parseOID (bs : Bytes) : Safe (parseOID bs) := by
  unfold parseOID
  exact (safe_parseTyped _ _ _).bind (fun _ _ => .ite (.err _)
    ((safe_oidLoop _ _ (Nat.le_refl _)).bind (fun _ _ => .ok _)))

/-- A parser that consumes something whenever it accepts. -/
def Consumes {α : Type} (p : Bytes → Go (α × Bytes)) : Prop :=
  ∀ bs r, p bs = .ok r → r.2.length < bs.length

theorem consumes_parseAny : Consumes parseAny := by
  intro bs r h
  obtain ⟨e, h2, -⟩ := parseAny_ok (e := r.1) (rest := r.2) h
  have := congrArg List.length e
  simp at this; omega

theorem parseTyped_rest {t : Nat} {c : Bool} {bs x rest : Bytes} (h : parseTyped t c bs = .ok (x, rest)) :
    x.length + rest.length < bs.length := by
  unfold parseTyped at h
  split at h
  · simp at h
  · obtain ⟨hd, hh, h⟩ := Go.bind_eq_ok.mp h
    split at h
    · simp at h
    · split at h
      · simp at h
      · simp at h; obtain ⟨rfl, rfl⟩ := h
        obtain ⟨id, more, e1, -⟩ := parseHeader_ok (hd := hd.1) (rest := hd.2) hh
        have := congrArg List.length e1
        simp at this; simp; omega

theorem safe_parseAllFuel {α : Type} (p : Bytes → Go (α × Bytes)) (hp : ∀ bs, Safe (p bs)) (hc : Consumes p)
    (n : Nat) (bs : Bytes) (h : bs.length ≤ n) : Safe (parseAllFuel p n bs) := by
  induction n generalizing bs with
  | zero =>
    cases bs with
    | nil => exact .ok _
    | cons b bs => simp at h
  | succ n ih =>
    cases bs with
    | nil => exact .ok _
    | cons b bs =>
      unfold parseAllFuel
      refine (hp _).bind (fun r hr => (ih _ ?_).bind (fun _ _ => .ok _))
      have := hc _ _ hr
      simp at *; omega

theorem safe_parseAll {α : Type} (p : Bytes → Go (α × Bytes)) (hp : ∀ bs, Safe (p bs)) (hc : Consumes p)
    (bs : Bytes) : Safe (parseAll p bs) := safe_parseAllFuel p hp hc _ _ (Nat.le_refl _)

/-- The fuel of `parseAll` is enough: it never reports divergence. -/
theorem parseAll_ne_diverge {α : Type} (p : Bytes → Go (α × Bytes)) (hp : ∀ bs, Safe (p bs))
    (hc : Consumes p) (bs : Bytes) : parseAll p bs ≠ .diverge := (safe_parseAll p hp hc bs).2

/-- Parsing the concatenation of encodings that the element parser reads one by one. -/
theorem parseAllFuel_enc {α : Type} (p : Bytes → Go (α × Bytes)) (l : List (Bytes × α))
    (h : ∀ x ∈ l, x.1 ≠ [] ∧ ∀ rest, p (x.1 ++ rest) = .ok (x.2, rest)) (n : Nat)
    (hn : (l.map (·.1)).flatten.length ≤ n) :
    parseAllFuel p n (l.map (·.1)).flatten = .ok (l.map (·.2)) := by
  induction l generalizing n with
  | nil => cases n <;> simp [parseAllFuel]
  | cons x l ih =>
    obtain ⟨h1, h2⟩ := h x (by simp)
    cases hx : x.1 with
    | nil => exact absurd hx h1
    | cons b bs =>
      have hl := congrArg List.length hx
      simp only [List.map_cons, List.flatten_cons, List.length_append] at hn ⊢
      cases n with
      | zero => simp at hl; omega
      | succ n =>
        rw [hx, List.cons_append]
        unfold parseAllFuel
        have h3 := h2 (l.map (·.1)).flatten
        rw [hx, List.cons_append] at h3
        rw [h3, Go.ok_bind]
        rw [ih (fun y hy => h y (by simp [hy])) n (by simp at hl; omega)]
        simp

theorem parseAll_enc {α : Type} (p : Bytes → Go (α × Bytes)) (l : List (Bytes × α))
    (h : ∀ x ∈ l, x.1 ≠ [] ∧ ∀ rest, p (x.1 ++ rest) = .ok (x.2, rest)) :
    parseAll p (l.map (·.1)).flatten = .ok (l.map (·.2)) :=
  parseAllFuel_enc p l h _ (Nat.le_refl _)

/-! ### Sorting -/

theorem insertSorted_perm (x : Bytes) (l : List Bytes) : (insertSorted x l).Perm (x :: l) := by
  induction l with
  | nil => exact .refl _
  | cons y ys ih =>
    unfold insertSorted
    split
    · exact .refl _
    · exact (List.Perm.cons y ih).trans (.swap x y ys)

theorem sortSet_perm (l : List Bytes) : (sortSet l).Perm l := by
  induction l with
  | nil => exact .refl _
  | cons x xs ih => exact (insertSorted_perm x _).trans (.cons x ih)

theorem insertSorted_sorted (x : Bytes) (l : List Bytes) (h : l.Pairwise (· ≤ ·)) :
    (insertSorted x l).Pairwise (· ≤ ·) := by
  induction l with
  | nil => simp [insertSorted]
  | cons y ys ih =>
    have h' := List.pairwise_cons.mp h
    unfold insertSorted
    split
    · rename_i hxy
      refine List.pairwise_cons.mpr ⟨fun z hz => ?_, h⟩
      rcases List.mem_cons.mp hz with rfl | hz
      · exact hxy
      · exact List.le_trans hxy (h'.1 z hz)
    · rename_i hxy
      refine List.pairwise_cons.mpr ⟨fun z hz => ?_, ih h'.2⟩
      have := (insertSorted_perm x ys).mem_iff.mp hz
      rcases List.mem_cons.mp this with rfl | hz
      · exact (List.le_total y z).resolve_right hxy
      · exact h'.1 z hz

theorem sortSet_sorted (l : List Bytes) : (sortSet l).Pairwise (· ≤ ·) := by
  induction l with
  | nil => simp [sortSet]
  | cons x xs ih => exact insertSorted_sorted x _ ih

theorem sorted_perm_eq : ∀ (a b : List Bytes), a.Perm b → a.Pairwise (· ≤ ·) → b.Pairwise (· ≤ ·) → a = b := by
  intro a
  induction a with
  | nil => intro b hp _ _; exact hp.nil_eq
  | cons x xs ih =>
    intro b hp ha hb
    cases b with
    | nil => exact absurd hp.symm.nil_eq (by simp)
    | cons y ys =>
      have ha' := List.pairwise_cons.mp ha
      have hb' := List.pairwise_cons.mp hb
      have hxy : x = y := by
        have h1 : x ≤ y := by
          rcases List.mem_cons.mp (hp.symm.subset (List.mem_cons_self : y ∈ y :: ys)) with h | h
          · rw [h]; exact List.le_refl _
          · exact ha'.1 y h
        have h2 : y ≤ x := by
          rcases List.mem_cons.mp (hp.subset (List.mem_cons_self : x ∈ x :: xs)) with h | h
          · rw [h]; exact List.le_refl _
          · exact hb'.1 x h
        exact List.le_antisymm h1 h2
      subst hxy
      rw [ih ys ((List.perm_cons x).mp hp) ha'.2 hb'.2]

/-- The encoding does not depend on the order of the members. -/
theorem sortSet_congr {a b : List Bytes} (h : a.Perm b) : sortSet a = sortSet b :=
  sorted_perm_eq _ _ ((sortSet_perm a).trans (h.trans (sortSet_perm b).symm)) (sortSet_sorted a) (sortSet_sorted b)

end Verif.Der
