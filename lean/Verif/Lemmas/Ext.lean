import Verif.Model.Ext
import Verif.Spec.Ext
import Verif.Lemmas.ContentRead
import Verif.Lemmas.ContentWrite
import Verif.Lemmas.CertBlock
/-
  Reading and writing of certificate extensions.
-/
set_option autoImplicit false

namespace Verif.Ext
open Der Cms CmsSpec BerSpec ResSpec ExtSpec Net Cert

/-! ### Lists of elements -/

/-- What `parseAll` has read, piece by piece. -/
theorem parseAllFuel_ok {α : Type} {p : Bytes → Go (α × Bytes)} {R : α → Bytes → Prop}
    (hp : ∀ bs a rest, p bs = .ok (a, rest) → ∃ enc, R a enc ∧ bs = enc ++ rest) (n : Nat) :
    ∀ (bs : Bytes) (l : List α), parseAllFuel p n bs = .ok l →
      ∃ encs, List.Forall₂ R l encs ∧ bs = encs.flatten := by
  induction n with
  | zero =>
    intro bs l h
    cases bs with
    | nil => simp only [parseAllFuel, Go.ok.injEq] at h; subst h; exact ⟨[], .nil, rfl⟩
    | cons b bs => simp [parseAllFuel] at h
  | succ n ih =>
    intro bs l h
    cases bs with
    | nil => simp only [parseAllFuel, Go.ok.injEq] at h; subst h; exact ⟨[], .nil, rfl⟩
    | cons b bs =>
      simp only [parseAllFuel] at h
      obtain ⟨r, hr, h⟩ := Go.bind_eq_ok.mp h
      obtain ⟨t, ht, h⟩ := Go.bind_eq_ok.mp h
      simp only [Go.pure_def, Go.ok.injEq] at h
      subst h
      obtain ⟨enc, h1, h2⟩ := hp _ r.1 r.2 hr
      obtain ⟨encs, h3, h4⟩ := ih _ _ ht
      exact ⟨enc :: encs, .cons h1 h3, by rw [h2, h4]; rfl⟩

theorem parseAll_ok {α : Type} {p : Bytes → Go (α × Bytes)} {R : α → Bytes → Prop}
    (hp : ∀ bs a rest, p bs = .ok (a, rest) → ∃ enc, R a enc ∧ bs = enc ++ rest) {bs : Bytes} {l : List α}
    (h : parseAll p bs = .ok l) : ∃ encs, List.Forall₂ R l encs ∧ bs = encs.flatten :=
  parseAllFuel_ok hp _ _ _ h

/-- A parsed element and its octets. -/
def ElemOf (e : Elem) (enc : Bytes) : Prop :=
  e.full = enc ∧ ∃ id more, enc = id :: more ++ derLength e.bytes.length ++ e.bytes ∧ e.bytes.length < 2 ^ 31 ∧
    ((more = [] ∧ e.tag = id.toNat % 32) ∨ 31 ≤ e.tag ∧ more ≠ [])

theorem parseHeader_more {bs rest : Bytes} {hd : Header} (h : parseHeader bs = .ok (hd, rest)) :
    ∃ id more, bs = id :: more ++ derLength hd.length ++ rest ∧
      ((more = [] ∧ hd.tag = id.toNat % 32) ∨ 31 ≤ hd.tag ∧ more ≠ []) := by
  cases bs with
  | nil => simp [parseHeader] at h
  | cons b bs =>
    simp only [parseHeader] at h
    obtain ⟨t, ht, h⟩ := Go.bind_eq_ok.mp h
    obtain ⟨l, hl, h⟩ := Go.bind_eq_ok.mp h
    simp only [Go.pure_def, Go.ok.injEq, Prod.mk.injEq] at h
    obtain ⟨rfl, rfl⟩ := h
    obtain ⟨hl1, -⟩ := parseLength_ok (n := l.1) (rest := l.2) hl
    unfold parseTag at ht
    split at ht
    · obtain ⟨u, hu, ht⟩ := Go.bind_eq_ok.mp ht
      split at ht
      · simp at ht
      · rename_i hge
        simp only [Go.ok.injEq] at ht
        subst ht
        obtain ⟨pre, hpre, hbs⟩ := base128_ok hu
        exact ⟨b, pre, by rw [hbs, hl1]; simp, .inr ⟨by simpa using hge, hpre⟩⟩
    · simp only [Go.ok.injEq] at ht
      subst ht
      exact ⟨b, [], by simp at hl1 ⊢; exact hl1, .inl ⟨rfl, rfl⟩⟩

theorem parseAny_elemOf {bs rest : Bytes} {e : Elem} (h : parseAny bs = .ok (e, rest)) :
    ElemOf e e.full ∧ bs = e.full ++ rest := by
  obtain ⟨h1, -, -, -, -, hlen, -, -, -⟩ := parseAny_ok h
  refine ⟨⟨rfl, ?_⟩, h1⟩
  unfold parseAny at h
  split at h
  · simp at h
  · obtain ⟨hd, hh, h⟩ := Go.bind_eq_ok.mp h
    split at h
    · simp at h
    · rename_i hle
      simp only [Go.pure_def, Go.ok.injEq, Prod.mk.injEq] at h
      obtain ⟨he, hr⟩ := h
      obtain ⟨id, more, hb, ht⟩ := parseHeader_more hh
      have hbytes : e.bytes = hd.2.take hd.1.length := by rw [← he]
      have hbl : e.bytes.length = hd.1.length := by rw [hbytes, List.length_take]; omega
      refine ⟨id, more, ?_, hlen, ?_⟩
      · have : bs = (id :: more ++ derLength e.bytes.length ++ e.bytes) ++ rest := by
          rw [hb, hbl, hbytes, ← hr]
          simp [List.take_append_drop]
        rw [this] at h1
        exact (List.append_cancel_right h1).symm
      · rw [← he]; exact ht

theorem elemOf_elem {id : UInt8} {c : Bytes} (hid : id.toNat % 32 ≠ 31) (hc : c.length < 2 ^ 31) (rest : Bytes) :
    ∃ e, parseAny (elem id c ++ rest) = .ok (e, rest) ∧ e.full = elem id c ∧ e.bytes = c ∧ e.tag = id.toNat % 32 ∧
      e.cls = id.toNat / 64 := by
  refine ⟨_, by rw [← tlv_elem]; exact parseAny_tlv id c rest hid hc, by simp [tlv_elem], rfl, rfl, rfl⟩

/-- Octets of an element with this tag number. -/
theorem ElemOf.anyTag {e : Elem} {enc : Bytes} (h : ElemOf e enc) {t : Nat} (ht : e.tag = t) (h31 : t < 31) :
    AnyTag t enc := by
  obtain ⟨-, id, more, henc, -, hm⟩ := h
  rcases hm with ⟨rfl, hm⟩ | ⟨hm, -⟩
  · exact ⟨id, e.bytes, by rw [← hm, ht], by rw [henc]; simp [elem]⟩
  · omega

theorem ElemOf.other {e : Elem} {enc : Bytes} (h : ElemOf e enc) {ts : List Nat} (ht : e.tag ∉ ts) :
    OtherTag ts enc := by
  obtain ⟨-, id, more, henc, -, hm⟩ := h
  refine ⟨id, more, e.bytes, ?_, henc⟩
  intro hnil
  rcases hm with ⟨-, hm⟩ | ⟨-, hm⟩
  · rw [← hm]; exact ht
  · exact absurd hnil hm

theorem elem_inj {id id' : UInt8} {c x rest : Bytes} (hc : c.length < 2 ^ 31) (hx : x.length < 2 ^ 31)
    (h : elem id c = elem id' x ++ rest) : id = id' ∧ x = c ∧ rest = [] := by
  simp only [elem, List.cons_append, List.cons.injEq] at h
  obtain ⟨h1, h2⟩ := h
  have a := parseLength_enc c.length c hc
  have b := parseLength_enc x.length (x ++ rest) hx
  rw [h2, List.append_assoc, b] at a
  simp only [Go.ok.injEq, Prod.mk.injEq] at a
  obtain ⟨e1, e2⟩ := a
  have hr : rest = [] := by
    have := congrArg List.length e2
    simp at this
    exact List.eq_nil_of_length_eq_zero (by omega)
  subst hr
  exact ⟨h1, by simpa using e2, rfl⟩

theorem elem_app_inj {id id' : UInt8} {c x r r' : Bytes} (hl : (elem id c ++ r).length < 2 ^ 31)
    (h : elem id c ++ r = elem id' x ++ r') : id = id' ∧ x = c ∧ r' = r := by
  have l0 := congrArg List.length h
  have l1 := elem_length_gt id c
  have l2 := elem_length_gt id' x
  rw [List.length_append] at hl
  simp only [List.length_append] at l0
  simp only [elem, List.cons_append, List.cons.injEq, List.append_assoc] at h
  obtain ⟨h1, h2⟩ := h
  have a := parseLength_enc c.length (c ++ r) (by omega)
  have b := parseLength_enc x.length (x ++ r') (by omega)
  rw [h2, b] at a
  simp only [Go.ok.injEq, Prod.mk.injEq] at a
  obtain ⟨e1, e2⟩ := a
  obtain ⟨e3, e4⟩ := List.append_inj e2 e1
  exact ⟨h1, e3, e4⟩

theorem elem_eq {id id' : UInt8} {c x : Bytes} (h : elem id c = elem id' x) (hl : (elem id c).length < 2 ^ 31) :
    id = id' ∧ x = c := by
  obtain ⟨h1, h2, -⟩ := elem_app_inj (id := id) (c := c) (id' := id') (x := x) (r := []) (r' := []) (by simpa using hl)
    (by simp [h])
  exact ⟨h1, h2⟩

theorem elem_head {id id' : UInt8} {c x r : Bytes} (h : elem id c = elem id' x ++ r)
    (hl : (elem id c).length < 2 ^ 31) : id = id' ∧ x = c ∧ r = [] :=
  elem_app_inj (r := []) (by simpa using hl) (by simp [h])

/-- Parsing an element again. -/
theorem ElemOf.reparse {e : Elem} {enc : Bytes} (h : ElemOf e enc) {t : Nat} (ht : e.tag = t) (h31 : t < 31)
    {compound : Bool} {x rest : Bytes} (hp : parseTyped t compound e.full = .ok (x, rest)) :
    rest = [] ∧ enc = elem ((if compound then 32 else 0) + t).toUInt8 x := by
  obtain ⟨h0, id, more, henc, hlen, hm⟩ := h
  obtain ⟨h1, h2⟩ := parseTyped_ok h31 hp
  rw [tlv_elem, h0] at h1
  rcases hm with ⟨rfl, -⟩ | ⟨hm, -⟩
  · have h3 : elem id e.bytes = elem ((if compound then 32 else 0) + t).toUInt8 x ++ rest := by
      rw [← h1, henc]; simp [elem]
    obtain ⟨-, -, hr⟩ := elem_inj hlen h2 h3
    subst hr
    exact ⟨rfl, by simpa using h1⟩
  · omega

/-! ### Bit strings -/

/-- The bit string that is read. -/
def BitsRead (b : Bits) (y : BitString) : Prop := BitsOk y ∧ y.bitLength = b.length ∧ bitsNum y = b.value

theorem bitStringOf_ok {c : Bytes} {b : BitString} (h : bitStringOf c = .ok b) :
    BitsOk b ∧ BitContent b.bitLength (bitsNum b) c := by
  cases c with
  | nil => simp [bitStringOf] at h
  | cons p bs =>
    simp only [bitStringOf] at h
    split at h
    · simp at h
    · rename_i hc
      simp only [Go.ok.injEq] at h
      subst h
      simp only [not_or, not_and] at hc
      obtain ⟨h7, h0, hl⟩ := hc
      have hp7 : p.toNat ≤ 7 := by
        have : ¬ (7 : UInt8) < p := h7
        rw [UInt8.lt_iff_toNat_lt] at this
        have e : (7 : UInt8).toNat = 7 := rfl
        omega
      have hp0 : bs = [] → p.toNat = 0 := by
        intro hb
        have : ¬ (0 : UInt8) < p := h0 hb
        rw [UInt8.lt_iff_toNat_lt] at this
        have e : (0 : UInt8).toNat = 0 := rfl
        omega
      have hlen : bs = [] ∨ 1 ≤ bs.length := by
        cases bs with
        | nil => exact .inl rfl
        | cons a t => right; simp
      have hsub : 8 * bs.length - (bs.length * 8 - p.toNat) = p.toNat := by
        rcases hlen with hb | hb
        · have := hp0 hb; subst hb; simp; omega
        · omega
      have hok : BitsOk ⟨bs, bs.length * 8 - p.toNat⟩ := by
        constructor
        · simp only
          rcases hlen with hb | hb
          · subst hb; simp
          · omega
        · simp only [hsub]
          rcases List.eq_nil_or_concat bs with hb | ⟨init, l, hb⟩
          · rw [hp0 hb]; simp
          · subst hb
            simp only [List.concat_eq_append] at *
            have hlast : ((p :: (init ++ [l])).getLast?.getD 0) = l := by
              rw [← List.cons_append, List.getLast?_append]; simp
            rw [hlast] at hl
            rw [beVal_app]
            have hb1 : beVal [l] = l.toNat := by simp [beVal]
            rw [hb1]
            apply Nat.dvd_add
            · apply Dvd.dvd.mul_left
              have : (256 : Nat) ^ [l].length = 2 ^ 8 := by simp
              rw [this]
              exact pow_dvd_pow 2 (by omega)
            · exact Nat.dvd_of_mod_eq_zero (Classical.not_not.mp hl)
      refine ⟨hok, ?_⟩
      have hb := bitStringOctets_content hok
      have : bitStringOctets ⟨bs, bs.length * 8 - p.toNat⟩ = p :: bs := by
        unfold bitStringOctets
        simp only [List.cons.injEq, and_true]
        have : (8 - (bs.length * 8 - p.toNat) % 8) % 8 = p.toNat := by
          rcases hlen with hb | hb
          · have := hp0 hb; subst hb; simp [this]
          · omega
        rw [this]
        exact UInt8.toNat_inj.mp (toUInt8_toNat_small (u8_lt p))
      rwa [this] at hb

theorem parseBitString_der {b : Bits} {out : Bytes} (h : BitsDer b out) (hl : out.length < 2 ^ 31) :
    ∃ y, BitsRead b y ∧ ∀ rest, parseBitString (out ++ rest) = .ok (y, rest) := by
  obtain ⟨c, hc, rfl⟩ := h
  obtain ⟨y, e1, e2, e3, e4⟩ := bitStringOf_content hc
  have l1 := elem_length_gt 0x03 c
  refine ⟨y, ⟨e2, e3, e4⟩, ?_⟩
  intro rest
  unfold parseBitString
  rw [parseBits_elem c rest (by omega)]
  simp only [Go.ok_bind, e1, Go.pure_def]

theorem parseTyped_elem {tag : Nat} {compound : Bool} {bs x rest : Bytes} (ht : tag < 31)
    (h : parseTyped tag compound bs = .ok (x, rest)) :
    bs = elem ((if compound then 32 else 0) + tag).toUInt8 x ++ rest := by
  rw [← tlv_elem]; exact (parseTyped_ok ht h).1

theorem parseBitString_ok {bs rest : Bytes} {y : BitString} (h : parseBitString bs = .ok (y, rest)) :
    ∃ b out, BitsDer b out ∧ BitsRead b y ∧ bs = out ++ rest ∧ ∃ x, parseTyped 3 false bs = .ok (x, rest) := by
  unfold parseBitString at h
  obtain ⟨r, hr, h⟩ := Go.bind_eq_ok.mp h
  obtain ⟨z, hz, h⟩ := Go.bind_eq_ok.mp h
  simp only [Go.pure_def, Go.ok.injEq, Prod.mk.injEq] at h
  obtain ⟨rfl, rfl⟩ := h
  obtain ⟨h1, h2⟩ := bitStringOf_ok hz
  exact ⟨⟨z.bitLength, bitsNum z⟩, elem 0x03 r.1, ⟨r.1, h2, rfl⟩, ⟨h1, rfl, rfl⟩,
    parseTyped_elem (x := r.1) (rest := r.2) (by decide) hr, r.1, hr⟩

/-! ### Addresses -/

/-- The address or range that is read. -/
def AddrRead : Addr → AddrOrRange → Prop
  | .prefix b, .prefix y => BitsRead b y
  | .range a b, .range x y => BitsRead a x ∧ BitsRead b y
  | _, _ => False

theorem bitsDer_elem {b : Bits} {out : Bytes} (h : BitsDer b out) : ∃ c, out = elem 0x03 c := by
  obtain ⟨c, -, rfl⟩ := h; exact ⟨c, rfl⟩

theorem readAddr_der {a : Addr} {out : Bytes} (h : AddrDer a out) (hl : out.length < 2 ^ 31) :
    out ≠ [] ∧ ∃ e, (∃ x, AddrRead a x ∧ readAddr e = .ok [x]) ∧ ∀ rest, parseAny (out ++ rest) = .ok (e, rest) := by
  cases a with
  | «prefix» b =>
    obtain ⟨c, rfl⟩ := bitsDer_elem h
    have l1 := elem_length_gt 0x03 c
    obtain ⟨y, hy, hp⟩ := parseBitString_der h hl
    have he : ∀ rest, parseAny (elem 0x03 c ++ rest) = .ok (⟨0, 3, false, c, elem 0x03 c⟩, rest) := by
      intro rest
      rw [← tlv_elem, parseAny_tlv 0x03 c rest (by decide) (by omega)]
      rfl
    refine ⟨elem_ne_nil _ _, _, ⟨.prefix y, hy, ?_⟩, he⟩
    have := hp []
    rw [List.append_nil] at this
    simp [readAddr, this]
  | range a b =>
    obtain ⟨x, y, hx, hy, rfl⟩ := h
    have l1 := elem_length_gt 0x30 (x ++ y)
    simp only [List.length_append] at l1
    obtain ⟨u, hu, hpu⟩ := parseBitString_der hx (by omega)
    obtain ⟨w, hw, hpw⟩ := parseBitString_der hy (by omega)
    have he : ∀ rest, parseAny (elem 0x30 (x ++ y) ++ rest) =
        .ok (⟨0, 16, true, x ++ y, elem 0x30 (x ++ y)⟩, rest) := by
      intro rest
      rw [← tlv_elem, parseAny_tlv 0x30 _ rest (by decide) (by simp; omega)]
      rfl
    refine ⟨elem_ne_nil _ _, _, ⟨.range u w, ⟨hu, hw⟩, ?_⟩, he⟩
    have h1 := parseSeq_elem (x ++ y) [] (by simp; omega)
    rw [List.append_nil] at h1
    have h2 := hpw []
    rw [List.append_nil] at h2
    simp [readAddr, h1, hpu, h2]

theorem readAddr_ok {e : Elem} {enc : Bytes} (he : ElemOf e enc) {l : List AddrOrRange} (h : readAddr e = .ok l) :
    ∃ o : Option Addr, LaxAddr o enc ∧ List.Forall₂ AddrRead o.toList l := by
  unfold readAddr at h
  split at h
  · rename_i htag
    obtain ⟨b, hb, h⟩ := Go.bind_eq_ok.mp h
    simp only [Go.pure_def, Go.ok.injEq] at h
    subst h
    obtain ⟨s, out, h1, h2, h3, x, hx⟩ := parseBitString_ok (y := b.1) (rest := b.2) hb
    obtain ⟨hr, -⟩ := he.reparse htag (by decide) hx
    rw [hr, List.append_nil, he.1] at h3
    exact ⟨some (.prefix s), h3 ▸ h1, .cons h2 .nil⟩
  · split at h
    · rename_i htag
      obtain ⟨s, hs, h⟩ := Go.bind_eq_ok.mp h
      obtain ⟨a, ha, h⟩ := Go.bind_eq_ok.mp h
      obtain ⟨b, hb, h⟩ := Go.bind_eq_ok.mp h
      simp only [Go.pure_def, Go.ok.injEq] at h
      subst h
      obtain ⟨-, henc⟩ := he.reparse htag (by decide) (x := s.1) (rest := s.2) hs
      obtain ⟨u, x, h1, h2, h3, -⟩ := parseBitString_ok (y := a.1) (rest := a.2) ha
      obtain ⟨w, y, k1, k2, k3, -⟩ := parseBitString_ok (y := b.1) (rest := b.2) hb
      refine ⟨some (.range u w), ⟨x, y, b.2, h1, k1, ?_⟩, .cons ⟨h2, k2⟩ .nil⟩
      rw [henc, h3, k3, List.append_assoc]
      rfl
    · rename_i h3 h16
      simp only [Go.pure_def, Go.ok.injEq] at h
      subst h
      exact ⟨none, he.other (by simp [h3, h16]), .nil⟩

theorem readAddrs_ok {es : List Elem} {encs : List Bytes} (he : List.Forall₂ ElemOf es encs) :
    ∀ {l : List AddrOrRange}, readAddrs es = .ok l →
    ∃ items : List (Option Addr), List.Forall₂ LaxAddr items encs ∧ List.Forall₂ AddrRead (items.filterMap id) l := by
  induction he with
  | nil =>
    intro l h
    simp only [readAddrs, Go.ok.injEq] at h; subst h
    exact ⟨[], .nil, .nil⟩
  | @cons e enc es encs h1 _ ih =>
    intro l h
    simp only [readAddrs] at h
    obtain ⟨a, ha, h⟩ := Go.bind_eq_ok.mp h
    obtain ⟨r, hr, h⟩ := Go.bind_eq_ok.mp h
    simp only [Go.pure_def, Go.ok.injEq] at h
    subst h
    obtain ⟨o, k1, k2⟩ := readAddr_ok h1 ha
    obtain ⟨items, k3, k4⟩ := ih hr
    refine ⟨o :: items, .cons k1 k3, ?_⟩
    cases o with
    | none =>
      cases k2
      simpa using k4
    | some v =>
      have : (some v :: items).filterMap id = [v] ++ items.filterMap id := rfl
      rw [this]
      exact List.rel_append k2 k4

theorem readAddrs_der {as : List Addr} {encs : List Bytes} (h : List.Forall₂ AddrDer as encs)
    (hl : encs.flatten.length < 2 ^ 31) :
    ∃ es xs, parseAll parseAny encs.flatten = .ok es ∧ readAddrs es = .ok xs ∧ List.Forall₂ AddrRead as xs := by
  obtain ⟨es, h1, h2⟩ := parseAll_forall₂ parseAny AddrDer (fun a e => ∃ x, AddrRead a x ∧ readAddr e = .ok [x]) as encs h
    (fun a enc _ he hr => readAddr_der hr (by have := flatten_mem_length he; omega))
  have key : ∃ xs, readAddrs es = .ok xs ∧ List.Forall₂ AddrRead as xs := by
    clear h1 h hl
    induction h2 with
    | nil => exact ⟨[], rfl, .nil⟩
    | @cons a e as es hae _ ih =>
      obtain ⟨x, hx1, hx2⟩ := hae
      obtain ⟨xs, hy1, hy2⟩ := ih
      exact ⟨x :: xs, by simp [readAddrs, hx2, hy1], .cons hx1 hy2⟩
  obtain ⟨xs, h3, h4⟩ := key
  exact ⟨es, xs, h1, h3, h4⟩

/-! ### Families -/

/-- The choice that is read. -/
def ChoiceRead : Choice → AddrChoice → Prop
  | .inherit, .inherit => True
  | .list l, .addresses xs => List.Forall₂ AddrRead l xs
  | _, _ => False

theorem unmarshalRaws_elem {c : Bytes} (hc : c.length < 2 ^ 31) (rest : Bytes) :
    unmarshalRaws (elem 0x30 c ++ rest) = parseAll parseAny c := by
  unfold unmarshalRaws
  rw [parseSeq_elem c rest hc]
  rfl

theorem readChoice_der {ch : Choice} {out : Bytes} (h : ChoiceDer ch out) (hl : out.length < 2 ^ 31) :
    ∃ e g, ChoiceRead ch g ∧ readChoice e = .ok (some g) ∧ ∀ rest, parseAny (out ++ rest) = .ok (e, rest) := by
  cases ch with
  | inherit =>
    subst h
    refine ⟨⟨0, 5, false, [], elem 0x05 []⟩, .inherit, trivial, rfl, ?_⟩
    intro rest
    rw [← tlv_elem, parseAny_tlv 0x05 [] rest (by decide) (by decide)]
    rfl
  | list l =>
    obtain ⟨encs, h1, rfl⟩ := h
    have l1 := elem_length_gt 0x30 encs.flatten
    obtain ⟨es, xs, h2, h3, h4⟩ := readAddrs_der h1 (by omega)
    refine ⟨⟨0, 16, true, encs.flatten, elem 0x30 encs.flatten⟩, .addresses xs, h4, ?_, ?_⟩
    · have := unmarshalRaws_elem (c := encs.flatten) (by omega) []
      rw [List.append_nil] at this
      simp [readChoice, this, h2, h3]
    · intro rest
      rw [← tlv_elem, parseAny_tlv 0x30 _ rest (by decide) (by omega)]
      rfl

theorem readChoice_ok {e : Elem} {enc : Bytes} (he : ElemOf e enc) {o : Option AddrChoice} (h : readChoice e = .ok o) :
    ∃ ch : Option Choice, LaxChoice ch enc ∧ Option.Rel ChoiceRead ch o := by
  unfold readChoice at h
  split at h
  · rename_i htag
    simp only [Go.pure_def, Go.ok.injEq] at h
    subst h
    exact ⟨some .inherit, he.anyTag htag (by decide), .some trivial⟩
  · split at h
    · rename_i htag
      obtain ⟨es, hes, h⟩ := Go.bind_eq_ok.mp h
      obtain ⟨xs, hxs, h⟩ := Go.bind_eq_ok.mp h
      simp only [Go.pure_def, Go.ok.injEq] at h
      subst h
      unfold unmarshalRaws at hes
      obtain ⟨s, hs, hes⟩ := Go.bind_eq_ok.mp hes
      obtain ⟨-, henc⟩ := he.reparse htag (by decide) (x := s.1) (rest := s.2) hs
      obtain ⟨encs, k1, k2⟩ := parseAll_ok (R := ElemOf) (fun bs a rest hp => ⟨a.full, parseAny_elemOf hp⟩) hes
      obtain ⟨items, k3, k4⟩ := readAddrs_ok k1 hxs
      exact ⟨some (.list (items.filterMap id)), ⟨items, encs, k3, rfl, by rw [henc, k2]; rfl⟩, .some k4⟩
    · rename_i h3 h16
      simp only [Go.pure_def, Go.ok.injEq] at h
      subst h
      exact ⟨none, he.other (by simp [h3, h16]), .none⟩

/-- The family that is read. -/
def FamRead (f : Bytes × Choice) (g : AddrFamily) : Prop := g.addressFamily = f.1 ∧ ChoiceRead f.2 g.choice

theorem parseIPFamily_der {f : Family} {out : Bytes} (h : FamilyDer f out) (hl : out.length < 2 ^ 31) :
    out ≠ [] ∧ ∃ x : Bytes × Elem, (x.1 = f.octets ∧ ∃ g, ChoiceRead f.choice g ∧ readChoice x.2 = .ok (some g)) ∧
      ∀ rest, parseIPFamily (out ++ rest) = .ok (x, rest) := by
  obtain ⟨c, hc, rfl⟩ := h
  have l1 := elem_length_gt 0x30 (elem 0x04 f.octets ++ c)
  have l2 := elem_length_gt 0x04 f.octets
  simp only [List.length_append] at l1
  obtain ⟨e, g, h1, h2, h3⟩ := readChoice_der hc (by omega)
  refine ⟨elem_ne_nil _ _, (f.octets, e), ⟨rfl, g, h1, h2⟩, ?_⟩
  intro rest
  unfold parseIPFamily
  rw [parseSeq_elem _ rest (by simp; omega)]
  simp only [Go.ok_bind]
  rw [parseOctets_elem _ _ (by omega)]
  simp only [Go.ok_bind]
  have := h3 []
  rw [List.append_nil] at this
  rw [this]
  simp only [Go.ok_bind, Go.pure_def]

theorem parseIPFamily_ok {bs rest : Bytes} {x : Bytes × Elem} (h : parseIPFamily bs = .ok (x, rest)) :
    ∃ enc, (∃ c junk, ElemOf x.2 c ∧ enc = elem 0x30 (elem 0x04 x.1 ++ c ++ junk)) ∧ bs = enc ++ rest := by
  unfold parseIPFamily at h
  obtain ⟨s, hs, h⟩ := Go.bind_eq_ok.mp h
  obtain ⟨f, hf, h⟩ := Go.bind_eq_ok.mp h
  obtain ⟨c, hc, h⟩ := Go.bind_eq_ok.mp h
  simp only [Go.pure_def, Go.ok.injEq, Prod.mk.injEq] at h
  obtain ⟨rfl, rfl⟩ := h
  obtain ⟨h1, h2⟩ := parseAny_elemOf (e := c.1) (rest := c.2) hc
  have h3 := parseTyped_elem (x := s.1) (rest := s.2) (by decide) hs
  have h4 := parseTyped_elem (x := f.1) (rest := f.2) (by decide) hf
  refine ⟨elem 0x30 s.1, ⟨c.1.full, c.2, h1, ?_⟩, h3⟩
  rw [h4, h2, List.append_assoc]
  rfl

theorem readFamilies_der {fams : List Family} {xs : List (Bytes × Elem)}
    (h : List.Forall₂ (fun (f : Family) (x : Bytes × Elem) =>
      x.1 = f.octets ∧ ∃ g, ChoiceRead f.choice g ∧ readChoice x.2 = .ok (some g)) fams xs) :
    ∃ blk, readFamilies xs = .ok blk ∧
      List.Forall₂ FamRead (fams.map (fun f => (f.octets, f.choice))) blk := by
  induction h with
  | nil => exact ⟨[], rfl, .nil⟩
  | @cons f x fams xs hx _ ih =>
    obtain ⟨blk, h1, h2⟩ := ih
    obtain ⟨hx1, g, hg1, hg2⟩ := hx
    obtain ⟨n, e⟩ := x
    simp only at hx1 hg2
    subst hx1
    exact ⟨⟨f.octets, g⟩ :: blk, by simp [readFamilies, hg2, h1], .cons ⟨rfl, hg1⟩ h2⟩

/-- The families that are not passed over. -/
def kept (fams : List (Bytes × Option Choice)) : List (Bytes × Choice) :=
  fams.filterMap (fun f => f.2.map (fun c => (f.1, c)))

theorem readFamilies_ok {xs : List (Bytes × Elem)} {encs : List Bytes}
    (h : List.Forall₂ (fun (x : Bytes × Elem) enc =>
      ∃ c junk, ElemOf x.2 c ∧ enc = elem 0x30 (elem 0x04 x.1 ++ c ++ junk)) xs encs) :
    ∀ {blk : List AddrFamily}, readFamilies xs = .ok blk →
    ∃ fams, List.Forall₂ LaxFamily fams encs ∧ List.Forall₂ FamRead (kept fams) blk := by
  induction h with
  | nil =>
    intro blk h
    simp only [readFamilies, Go.ok.injEq] at h; subst h
    exact ⟨[], .nil, .nil⟩
  | @cons x enc xs encs hx _ ih =>
    intro blk h
    obtain ⟨n, e⟩ := x
    simp only [readFamilies] at h
    obtain ⟨o, ho, h⟩ := Go.bind_eq_ok.mp h
    obtain ⟨r, hr, h⟩ := Go.bind_eq_ok.mp h
    simp only [Go.pure_def, Go.ok.injEq] at h
    subst h
    obtain ⟨fams, k1, k2⟩ := ih hr
    obtain ⟨c, junk, hc, henc⟩ := hx
    obtain ⟨ch, k3, k4⟩ := readChoice_ok hc ho
    refine ⟨(n, ch) :: fams, .cons ⟨c, junk, k3, henc⟩ k1, ?_⟩
    cases k4 with
    | none => simpa [kept] using k2
    | some k5 => exact .cons ⟨rfl, k5⟩ k2

theorem decodeIPExt_der {fams : List Family} {out : Bytes} (h : BlockDer fams out) (hl : out.length < 2 ^ 31)
    (rest : Bytes) : ∃ blk, decodeIPExt (out ++ rest) = .ok (decodeIPAddressBlock blk) ∧
      List.Forall₂ FamRead (fams.map (fun f => (f.octets, f.choice))) blk := by
  obtain ⟨encs, h1, rfl⟩ := h
  have l1 := elem_length_gt 0x30 encs.flatten
  obtain ⟨xs, h2, h3⟩ := parseAll_forall₂ parseIPFamily FamilyDer _ fams encs h1
    (fun f enc _ he hr => parseIPFamily_der hr (by have := flatten_mem_length he; omega))
  obtain ⟨blk, h4, h5⟩ := readFamilies_der h3
  refine ⟨blk, ?_, h5⟩
  unfold decodeIPExt
  rw [parseSeq_elem _ rest (by omega)]
  simp only [Go.ok_bind, h2, h4, Go.pure_def]

theorem decodeIPExt_ok {data : Bytes} {l : List IPInfo} (h : decodeIPExt data = .ok l) :
    ∃ fams blk, LaxBlock fams data ∧ l = decodeIPAddressBlock blk ∧ List.Forall₂ FamRead (kept fams) blk := by
  unfold decodeIPExt at h
  obtain ⟨s, hs, h⟩ := Go.bind_eq_ok.mp h
  obtain ⟨xs, hxs, h⟩ := Go.bind_eq_ok.mp h
  obtain ⟨blk, hblk, h⟩ := Go.bind_eq_ok.mp h
  simp only [Go.pure_def, Go.ok.injEq] at h
  subst h
  obtain ⟨encs, k1, k2⟩ := parseAll_ok (fun bs x rest hp => parseIPFamily_ok hp) hxs
  obtain ⟨fams, k3, k4⟩ := readFamilies_ok k1 hblk
  refine ⟨fams, blk, ⟨encs, s.2, k3, ?_⟩, rfl, k4⟩
  rw [← k2]
  exact parseTyped_elem (x := s.1) (rest := s.2) (by decide) hs

/-! ### Meaning -/

theorem isFamily_afi (hi : UInt8) (afi : Afi) (more : Bytes) : IsFamily (hi :: afi.number :: more) afi.size := by
  cases afi
  · exact ⟨hi, more, .inl ⟨rfl, rfl⟩⟩
  · exact ⟨hi, more, .inr ⟨rfl, rfl⟩⟩

theorem bitsNum_ip {y : BitString} (h : BitsOk y) {size : Nat} (hle : y.bitLength ≤ 8 * size) :
    beVal (copyInto size y.bytes) = bitsNum y * 2 ^ (8 * size - y.bitLength) := by
  have hbl : y.bytes.length ≤ size := by have := h.1; omega
  rw [beVal_copyInto hbl]
  unfold bitsNum
  have e : 8 * size - y.bitLength = (8 * y.bytes.length - y.bitLength) + 8 * (size - y.bytes.length) := by
    have := h.1; omega
  rw [e, Nat.pow_add, ← Nat.mul_assoc, Nat.div_mul_cancel h.2]

theorem bitsNum_lt {y : BitString} (h : BitsOk y) {size : Nat} (hle : y.bitLength ≤ 8 * size) :
    (bitsNum y + 1) * 2 ^ (8 * size - y.bitLength) ≤ 2 ^ (8 * size) := by
  have h1 := bitsNum_ip h hle
  have h2 := beVal_lt' (copyInto size y.bytes)
  rw [copyInto_length, h1] at h2
  have e : (256 : Nat) ^ size = 2 ^ y.bitLength * 2 ^ (8 * size - y.bitLength) := by
    rw [← Nat.pow_add, show y.bitLength + (8 * size - y.bitLength) = 8 * size by omega, Nat.pow_mul]
  rw [e] at h2
  have h3 : bitsNum y < 2 ^ y.bitLength := Nat.lt_of_mul_lt_mul_right h2
  calc (bitsNum y + 1) * 2 ^ (8 * size - y.bitLength) ≤ 2 ^ y.bitLength * 2 ^ (8 * size - y.bitLength) :=
        Nat.mul_le_mul_right _ h3
    _ = 2 ^ (8 * size) := by rw [← Nat.pow_add, show y.bitLength + (8 * size - y.bitLength) = 8 * size by omega]

theorem div_eq_iff' (v k a : Nat) : v / 2 ^ k = a ↔ a * 2 ^ k ≤ v ∧ v < (a + 1) * 2 ^ k := by
  have hp : 0 < 2 ^ k := Nat.pow_pos (by decide)
  constructor
  · intro h
    subst h
    exact ⟨Nat.div_mul_le_self v _, by rw [Nat.add_mul, Nat.one_mul]; exact Nat.lt_div_mul_add hp⟩
  · rintro ⟨h1, h2⟩
    exact Nat.div_eq_of_lt_le h1 h2

theorem addr_means {a : Addr} {x : AddrOrRange} (h : AddrRead a x) (hi : UInt8) (more : Bytes) (afi : Afi)
    (hf : a.Fits (8 * afi.size)) :
    famOf (decodeAddrOrRange (hi :: afi.number :: more) x) = afi.number ∧
      ∀ v, Denotes (decodeAddrOrRange (hi :: afi.number :: more) x) v ↔
        ∃ y, a.Holds (8 * afi.size) y ∧ v = afi.base + y := by
  have hfam := isFamily_afi hi afi more
  have hs := isFamily_size hfam
  cases a with
  | «prefix» b =>
    cases x with
    | range _ _ => exact h.elim
    | «prefix» y =>
      obtain ⟨h1, h2, h3⟩ := h
      have hle : y.bitLength ≤ 8 * afi.size := by rw [h2]; exact hf
      have hip := bitsNum_ip h1 hle
      have hlt := bitsNum_lt h1 hle
      have hmask := isMask_maskBytes afi.size y.bitLength hle
      have hd : decodeAddrOrRange (hi :: afi.number :: more) (.prefix y) =
          .net (some ⟨copyInto afi.size y.bytes, maskBytes afi.size y.bitLength⟩) := by
        simp only [decodeAddrOrRange, decodeIP, familySize_of_isFamily hfam, cidrMask_of_le hs hle]
      rw [hd]
      have hil : (copyInto afi.size y.bytes).length = afi.size := copyInto_length _ _
      have hml : (maskBytes afi.size y.bitLength).length = afi.size := maskBytes_length _ _
      have hval : beVal (copyInto afi.size y.bytes) / 2 ^ (8 * afi.size - y.bitLength) = b.value := by
        rw [hip, Nat.mul_div_cancel _ (Nat.pow_pos (by decide)), h3]
      simp only [Addr.Holds, ← h2]
      rw [h3] at hlt
      cases afi with
      | v4 =>
        simp only [Afi.size, Afi.number, Afi.base, Nat.reduceMul] at *
        refine ⟨by simp [famOf, hil], ?_⟩
        intro v
        constructor
        · intro hv
          cases hv with
          | net4 ip mask p w hi' hm' hp' hw' hv' =>
            have := isMask_inj hp' hmask
            subst this
            rw [hval] at hv'
            exact ⟨w, (div_eq_iff' _ _ _).mp hv', rfl⟩
          | net6 ip mask p w hi' => rw [hil] at hi'; simp at hi'
        · rintro ⟨w, hw, rfl⟩
          exact .net4 _ _ y.bitLength w hil hml hmask (Nat.lt_of_lt_of_le hw.2 hlt)
            (by rw [hval]; exact (div_eq_iff' _ _ _).mpr hw)
      | v6 =>
        simp only [Afi.size, Afi.number, Afi.base, Nat.reduceMul] at *
        refine ⟨by simp [famOf, hil], ?_⟩
        intro v
        constructor
        · intro hv
          cases hv with
          | net4 ip mask p w hi' => rw [hil] at hi'; simp at hi'
          | net6 ip mask p w hi' hm' hp' hv' =>
            have := isMask_inj hp' hmask
            subst this
            rw [hval] at hv'
            exact ⟨v, (div_eq_iff' _ _ _).mp hv', by omega⟩
        · rintro ⟨w, hw, rfl⟩
          rw [Nat.zero_add]
          exact .net6 _ _ y.bitLength w hil hml hmask (by rw [hval]; exact (div_eq_iff' _ _ _).mpr hw)
  | range a b =>
    cases x with
    | «prefix» _ => exact h.elim
    | range x y =>
      obtain ⟨⟨x1, x2, x3⟩, ⟨y1, y2, y3⟩⟩ := h
      obtain ⟨lo, -, e1, -, l1, -, v1, -⟩ := decodeIPMinMax_spec x1 hfam (by rw [x2]; exact hf.1)
      obtain ⟨-, hi2, -, e2, -, l2, -, v2⟩ := decodeIPMinMax_spec y1 hfam (by rw [y2]; exact hf.2)
      simp only [decodeAddrOrRange, e1, e2, orNil, Addr.Holds]
      rw [x2, x3] at v1
      rw [y2, y3] at v2
      have hpow : 0 < 2 ^ (8 * afi.size - b.length) := Nat.pow_pos (by decide)
      have hv2 : beVal hi2 + 1 = (b.value + 1) * 2 ^ (8 * afi.size - b.length) := by
        rw [v2, Nat.add_mul, Nat.one_mul]; omega
      rw [← v1, ← hv2]
      have hb : addrNum lo = afi.base + beVal lo ∧ addrNum hi2 = afi.base + beVal hi2 := by
        cases afi <;> simp [addrNum, l1, l2, Afi.size, Afi.base]
      refine ⟨by cases afi <;> simp [famOf, l1, Afi.size, Afi.number], ?_⟩
      intro v
      constructor
      · intro hv
        cases hv with
        | range _ _ _ _ _ k1 k2 =>
          rw [hb.1] at k1
          rw [hb.2] at k2
          exact ⟨v - afi.base, ⟨by omega, by omega⟩, by omega⟩
      · rintro ⟨w, hw, rfl⟩
        exact .range _ _ _ (by rw [l1, l2]) (by rw [l1]; exact hs) (by rw [hb.1]; omega) (by rw [hb.2]; omega)

theorem decodeAddr_unknown (x : AddrOrRange) {name : Bytes}
    (h : ∀ (hi : UInt8) (more : Bytes) (afi : Afi), name ≠ hi :: afi.number :: more) (v : Nat) :
    ¬ Denotes (decodeAddrOrRange name x) v := by
  have hnone : familySize name = none := by
    unfold familySize
    split
    · rename_i a b t
      have h1 := h a t .v4
      have h2 := h a t .v6
      simp only [Afi.number] at h1 h2
      rw [if_neg (by rintro rfl; exact h1 rfl), if_neg (by rintro rfl; exact h2 rfl)]
    · rfl
  intro hv
  cases x with
  | «prefix» y =>
    simp only [decodeAddrOrRange, decodeIP, hnone] at hv
    cases hv
  | range x y =>
    simp only [decodeAddrOrRange, decodeIPMinMax, hnone, orNil] at hv
    cases hv with
    | range _ _ _ _ hf => simp at hf

theorem decodeFamily_stands {f : Family} {g : AddrFamily} (h : FamRead (f.octets, f.choice) g)
    (hfit : ∀ a ∈ f.choice.addrs, a.Fits (8 * f.afi.size)) (hs : f.choice = .inherit → f.safi = none) :
    List.Forall₂ Stands f.entries (decodeFamily g) := by
  obtain ⟨h1, h2⟩ := h
  simp only at h1 h2
  unfold Family.entries decodeFamily
  cases hc : f.choice with
  | inherit =>
    rw [hc] at h2
    cases hg : g.choice with
    | addresses _ => rw [hg] at h2; exact h2.elim
    | inherit =>
      simp only [h1, Family.octets, hs hc, Option.toList_none, List.append_nil]
      refine .cons ?_ .nil
      cases hfa : f.afi <;> simp [Stands, Afi.number]
  | list l =>
    rw [hc] at h2
    cases hg : g.choice with
    | inherit => rw [hg] at h2; exact h2.elim
    | addresses xs =>
      rw [hg] at h2
      simp only [h1]
      have hfit' : ∀ a ∈ l, a.Fits (8 * f.afi.size) := by rw [hc] at hfit; exact hfit
      clear hc hg hfit
      simp only [ChoiceRead] at h2
      induction h2 with
      | nil => exact .nil
      | @cons a x l xs ha _ ih =>
        refine .cons ?_ (ih (fun a ha => hfit' a (by simp [ha])))
        exact addr_means ha 0 _ f.afi (hfit' a (by simp))

theorem decodeFamily_lax {f : Bytes × Choice} {g : AddrFamily} (h : FamRead f g) :
    List.Forall₂ LaxStands (laxEntries (f.1, some f.2)) (decodeFamily g) := by
  obtain ⟨name, ch⟩ := f
  obtain ⟨h1, h2⟩ := h
  simp only at h1 h2
  unfold laxEntries decodeFamily
  cases ch with
  | inherit =>
    cases hg : g.choice with
    | addresses _ => rw [hg] at h2; exact h2.elim
    | inherit =>
      simp only [h1]
      have hcase : (∃ hi b, name = [hi, b]) ∨ ∀ hi b, name ≠ [hi, b] := by
        by_cases hx : ∃ hi b, name = [hi, b]
        · exact .inl hx
        · exact .inr (fun hi b he => hx ⟨hi, b, he⟩)
      rcases hcase with ⟨hi, b, rfl⟩ | hne
      · refine .cons ?_ .nil
        simp only [LaxStands]
        by_cases hb1 : b = 1
        · subst hb1; exact .inl ⟨hi, .v4, rfl, rfl⟩
        · by_cases hb2 : b = 2
          · subst hb2; exact .inl ⟨hi, .v6, rfl, rfl⟩
          · right
            refine ⟨?_, by simp [hb1, hb2]⟩
            intro hi' afi he
            simp only [List.cons.injEq, and_true] at he
            cases afi
            · exact hb1 he.2
            · exact hb2 he.2
      · split
        · rename_i hi b
          exact absurd rfl (hne hi b)
        · exact .cons (.inr ⟨fun hi afi => hne hi _, rfl⟩) .nil
  | list l =>
    cases hg : g.choice with
    | inherit => rw [hg] at h2; exact h2.elim
    | addresses xs =>
      rw [hg] at h2
      simp only [h1]
      simp only [ChoiceRead] at h2
      clear hg
      induction h2 with
      | nil => exact .nil
      | @cons a x l xs ha _ ih =>
        refine .cons ⟨?_, decodeAddr_unknown x⟩ ih
        rintro hi more afi rfl hfit
        exact addr_means ha hi more afi hfit

end Verif.Ext
