import Verif.Lemmas.Ext
/-
  Reading and writing of the AS extension.
-/
set_option autoImplicit false

namespace Verif.Ext
open Der Cms CmsSpec BerSpec ResSpec ExtSpec Cert

/-! ### Integers -/

theorem content_of_intOk {c : Bytes} (h : intOk c = true) : IntContent (intVal c) c ∧ c.length ≤ 8 := by
  cases c with
  | nil => simp [intOk] at h
  | cons a t =>
    rw [intVal_twos (by simp)]
    cases t with
    | nil => exact ⟨content_of_range (by simp) rfl (.inl rfl), by simp⟩
    | cons b t =>
      simp only [intOk, Bool.and_eq_true, Bool.not_eq_true', Bool.or_eq_false_iff, Bool.and_eq_false_iff,
        beq_eq_false_iff_ne, decide_eq_false_iff_not, decide_eq_true_eq] at h
      obtain ⟨⟨hz, hf⟩, hl⟩ := h
      refine ⟨content_of_range (by simp) rfl (.inr ?_), hl⟩
      have e : (a :: b :: t).length - 2 = t.length := by simp
      rw [e]
      have hbv : beVal (a :: b :: t) = a.toNat * (256 * 256 ^ t.length) + beVal (b :: t) := by
        rw [beVal_cons', List.length_cons, pow_succ, Nat.mul_comm (256 ^ t.length)]
      have hlt := beVal_lt' (b :: t)
      have hge := beVal_head_ge b t
      have hlt2 : beVal (b :: t) < (b.toNat + 1) * 256 ^ t.length := by
        rw [beVal_cons', Nat.add_mul, Nat.one_mul]
        have := beVal_lt' t
        omega
      rw [List.length_cons, pow_succ, Nat.mul_comm (256 ^ t.length)] at hlt
      have hq : 0 < 256 ^ t.length := Nat.pow_pos (by decide)
      have hpI : ((256 : Int) ^ (a :: b :: t).length) = 256 * (256 * (256 ^ t.length : Nat)) := by
        simp only [List.length_cons, pow_succ]; push_cast; ring
      have hqI : ((256 : Int) ^ t.length) = ((256 ^ t.length : Nat) : Int) := by push_cast; rfl
      have ha := u8_lt a
      have hb := u8_lt b
      have hz' : a.toNat = 0 → 128 ≤ b.toNat := by
        intro h0
        have : a = 0 := UInt8.toNat_inj.mp (by simpa using h0)
        rcases hz with hz | hz
        · exact absurd this hz
        · rw [UInt8.lt_iff_toNat_lt] at hz
          have e : (0x80 : UInt8).toNat = 128 := rfl
          omega
      have hf' : a.toNat = 255 → b.toNat < 128 := by
        intro h0
        have : a = 0xff := UInt8.toNat_inj.mp (by rw [h0]; rfl)
        rcases hf with hf | hf
        · exact absurd this hf
        · rw [ge_iff_le, UInt8.le_iff_toNat_le] at hf
          have e : (0x80 : UInt8).toNat = 128 := rfl
          omega
      have hle : (0x80 : UInt8) ≤ a ↔ 128 ≤ a.toNat := by rw [UInt8.le_iff_toNat_le]; rfl
      simp only [twos, List.headD_cons, hle, hpI, hqI, hbv]
      generalize hqq : 256 ^ t.length = q at *
      generalize beVal (b :: t) = v at *
      generalize a.toNat = x at *
      generalize b.toNat = y at *
      by_cases hx : 128 ≤ x
      · left
        rw [if_pos hx]
        by_cases h255 : x = 255
        · subst h255
          have hy := hf' rfl
          have : (y + 1) * q ≤ 128 * q := Nat.mul_le_mul_right _ (by omega)
          push_cast
          omega
        · have : x * (256 * q) ≤ 254 * (256 * q) := Nat.mul_le_mul_right _ (by omega)
          push_cast
          generalize hm : x * (256 * q) = m at *
          have hmI : (x : Int) * (256 * (q : Int)) = (m : Int) := by rw [← hm]; push_cast; ring
          rw [hmI]
          omega
      · right
        rw [if_neg hx]
        by_cases h0 : x = 0
        · subst h0
          have hy := hz' rfl
          have : 128 * q ≤ y * q := Nat.mul_le_mul_right _ hy
          push_cast
          omega
        · have : 1 * (256 * q) ≤ x * (256 * q) := Nat.mul_le_mul_right _ (by omega)
          push_cast
          generalize hm : x * (256 * q) = m at *
          have hmI : (x : Int) * (256 * (q : Int)) = (m : Int) := by rw [← hm]; push_cast; ring
          rw [hmI]
          omega

theorem parseInt_ok {bs rest c : Bytes} (h : parseInt bs = .ok (c, rest)) :
    IntDer (intVal c) (elem 0x02 c) ∧ bs = elem 0x02 c ++ rest ∧ parseTyped 2 false bs = .ok (c, rest) := by
  unfold parseInt at h
  obtain ⟨r, hr, h⟩ := Go.bind_eq_ok.mp h
  split at h
  · rename_i hi
    simp only [Go.pure_def, Go.ok.injEq] at h
    subst h
    exact ⟨⟨c, (content_of_intOk hi).1, rfl⟩, parseTyped_elem (by decide) hr, hr⟩
  · simp at h

theorem parseInt_der {n : Int} {out : Bytes} (h : IntDer n out) (hn : -2 ^ 63 ≤ n ∧ n < 2 ^ 63) :
    ∃ c, intVal c = n ∧ out = elem 0x02 c ∧ c.length ≤ 8 ∧ ∀ rest, parseInt (out ++ rest) = .ok (c, rest) := by
  obtain ⟨c, hc, rfl⟩ := h
  have h8 := content_le8 hc hn.1 hn.2
  exact ⟨c, (parseInt_elem [] hc h8).2, rfl, h8, fun rest => (parseInt_elem rest hc h8).1⟩

/-! ### Items -/

theorem readASElem_der {a : ASItem} {out : Bytes} (h : ASItemDer a out) (hf : a.Fits) :
    out ≠ [] ∧ ∃ e, readASElem e = .ok [a.entry] ∧ ∀ rest, parseAny (out ++ rest) = .ok (e, rest) := by
  cases a with
  | id n =>
    obtain ⟨c, h1, rfl, h3, h4⟩ := parseInt_der h hf
    have he : ∀ rest, parseAny (elem 0x02 c ++ rest) = .ok (⟨0, 2, false, c, elem 0x02 c⟩, rest) := by
      intro rest
      rw [← tlv_elem, parseAny_tlv 0x02 c rest (by decide) (by omega)]
      rfl
    refine ⟨elem_ne_nil _ _, _, ?_, he⟩
    have := h4 []
    rw [List.append_nil] at this
    simp [readASElem, this, h1, ASItem.entry]
  | range a b =>
    obtain ⟨x, y, hx, hy, rfl⟩ := h
    obtain ⟨c, c1, rfl, c3, c4⟩ := parseInt_der hx hf.1
    obtain ⟨d, d1, rfl, d3, d4⟩ := parseInt_der hy hf.2
    have hlen : (elem 0x02 c ++ elem 0x02 d).length < 2 ^ 31 := by
      rw [List.length_append, elem_length, elem_length]
      have l1 := derLength_len_le (n := c.length) (by omega)
      have l2 := derLength_len_le (n := d.length) (by omega)
      omega
    have he : ∀ rest, parseAny (elem 0x30 (elem 0x02 c ++ elem 0x02 d) ++ rest) =
        .ok (⟨0, 16, true, elem 0x02 c ++ elem 0x02 d, elem 0x30 (elem 0x02 c ++ elem 0x02 d)⟩, rest) := by
      intro rest
      rw [← tlv_elem, parseAny_tlv 0x30 _ rest (by decide) hlen]
      rfl
    refine ⟨elem_ne_nil _ _, _, ?_, he⟩
    have h1 := parseSeq_elem (elem 0x02 c ++ elem 0x02 d) [] hlen
    rw [List.append_nil] at h1
    have h2 := d4 []
    rw [List.append_nil] at h2
    simp [readASElem, h1, c4, h2, c1, d1, ASItem.entry]

theorem readASElem_ok {e : Elem} {enc : Bytes} (he : ElemOf e enc) {l : List ASInfo} (h : readASElem e = .ok l) :
    ∃ o : Option ASItem, LaxASItem o enc ∧ l = o.toList.map ASItem.entry := by
  unfold readASElem at h
  split at h
  · rename_i htag
    obtain ⟨s, hs, h⟩ := Go.bind_eq_ok.mp h
    obtain ⟨a, ha, h⟩ := Go.bind_eq_ok.mp h
    obtain ⟨b, hb, h⟩ := Go.bind_eq_ok.mp h
    simp only [Go.pure_def, Go.ok.injEq] at h
    subst h
    obtain ⟨-, henc⟩ := he.reparse htag (by decide) (x := s.1) (rest := s.2) hs
    obtain ⟨h1, h2, -⟩ := parseInt_ok (c := a.1) (rest := a.2) ha
    obtain ⟨k1, k2, -⟩ := parseInt_ok (c := b.1) (rest := b.2) hb
    refine ⟨some (.range (intVal a.1) (intVal b.1)), ⟨_, _, b.2, h1, k1, ?_⟩, rfl⟩
    rw [henc, h2, k2, List.append_assoc]
    rfl
  · split at h
    · rename_i htag
      obtain ⟨a, ha, h⟩ := Go.bind_eq_ok.mp h
      simp only [Go.pure_def, Go.ok.injEq] at h
      subst h
      obtain ⟨h1, h2, h3⟩ := parseInt_ok (c := a.1) (rest := a.2) ha
      obtain ⟨hr, henc⟩ := he.reparse htag (by decide) h3
      exact ⟨some (.id (intVal a.1)), by rw [henc]; exact h1, rfl⟩
    · rename_i h16 h2
      simp only [Go.pure_def, Go.ok.injEq] at h
      subst h
      exact ⟨none, he.other (by simp [h2, h16]), rfl⟩

theorem readASElems_ok {es : List Elem} {encs : List Bytes} (he : List.Forall₂ ElemOf es encs) :
    ∀ {l : List ASInfo}, readASElems es = .ok l →
    ∃ items : List (Option ASItem), List.Forall₂ LaxASItem items encs ∧ l = (items.filterMap id).map ASItem.entry := by
  induction he with
  | nil =>
    intro l h
    simp only [readASElems, Go.ok.injEq] at h; subst h
    exact ⟨[], .nil, rfl⟩
  | @cons e enc es encs h1 _ ih =>
    intro l h
    simp only [readASElems] at h
    obtain ⟨a, ha, h⟩ := Go.bind_eq_ok.mp h
    obtain ⟨r, hr, h⟩ := Go.bind_eq_ok.mp h
    simp only [Go.pure_def, Go.ok.injEq] at h
    subst h
    obtain ⟨o, k1, rfl⟩ := readASElem_ok h1 ha
    obtain ⟨items, k3, rfl⟩ := ih hr
    refine ⟨o :: items, .cons k1 k3, ?_⟩
    cases o <;> simp

theorem readASElems_der {as : List ASItem} {encs : List Bytes} (h : List.Forall₂ ASItemDer as encs)
    (hf : ∀ a ∈ as, a.Fits) :
    ∃ es, parseAll parseAny encs.flatten = .ok es ∧ readASElems es = .ok (as.map ASItem.entry) := by
  obtain ⟨es, h1, h2⟩ := parseAll_forall₂ parseAny ASItemDer (fun a e => readASElem e = .ok [a.entry]) as encs h
    (fun a enc ha _ hr => readASElem_der hr (hf a ha))
  refine ⟨es, h1, ?_⟩
  clear h1 h hf
  induction h2 with
  | nil => rfl
  | @cons a e as es hae _ ih => simp [readASElems, hae, ih]

/-! ### Fields -/

theorem readASIdentifier_der {c : ASChoice} {out : Bytes} (h : ASChoiceDer c out) (hl : out.length < 2 ^ 31)
    (hf : ∀ a ∈ c.items, a.Fits) : readASIdentifier out = .ok (asEntries (some c)) := by
  unfold readASIdentifier
  cases c with
  | inherit =>
    subst h
    have := parseAny_tlv 0x05 [] [] (by decide) (by decide)
    rw [List.append_nil, tlv_elem] at this
    rw [this]
    rfl
  | list l =>
    obtain ⟨encs, h1, rfl⟩ := h
    have l1 := elem_length_gt 0x30 encs.flatten
    obtain ⟨es, h2, h3⟩ := readASElems_der h1 hf
    have hp := parseAny_tlv 0x30 encs.flatten [] (by decide) (by omega)
    rw [List.append_nil, tlv_elem] at hp
    have hu := unmarshalRaws_elem (c := encs.flatten) (by omega) []
    rw [List.append_nil] at hu
    rw [hp]
    simp only [Go.ok_bind]
    rw [if_neg (by decide), if_pos (by decide), hu, h2]
    simp only [Go.ok_bind, h3, asEntries]

theorem readASIdentifier_ok {bytes : Bytes} {l : List ASInfo} (h : readASIdentifier bytes = .ok l) :
    ∃ c, LaxASChoice c bytes ∧ l = asEntries (some c) := by
  unfold readASIdentifier at h
  obtain ⟨t, ht, h⟩ := Go.bind_eq_ok.mp h
  obtain ⟨he, hb⟩ := parseAny_elemOf (e := t.1) (rest := t.2) ht
  split at h
  · rename_i htag
    simp only [Go.pure_def, Go.ok.injEq] at h
    subst h
    exact ⟨.inherit, ⟨_, _, he.anyTag htag (by decide), hb⟩, rfl⟩
  · split at h
    · obtain ⟨es, hes, h⟩ := Go.bind_eq_ok.mp h
      unfold unmarshalRaws at hes
      obtain ⟨s, hs, hes⟩ := Go.bind_eq_ok.mp hes
      obtain ⟨encs, k1, k2⟩ := parseAll_ok (R := ElemOf) (fun bs a rest hp => ⟨a.full, parseAny_elemOf hp⟩) hes
      obtain ⟨items, k3, k4⟩ := readASElems_ok k1 h
      refine ⟨.list (items.filterMap id), .inl ⟨items, encs, s.2, k3, rfl, ?_⟩, k4⟩
      rw [← k2]
      exact parseTyped_elem (x := s.1) (rest := s.2) (by decide) hs
    · rename_i h5 h16
      simp only [Go.pure_def, Go.ok.injEq] at h
      subst h
      exact ⟨.list [], .inr ⟨rfl, _, _, he.other (by simp [h5, h16]), hb⟩, rfl⟩

theorem parseOptRaw_elem {n : Nat} {id : UInt8} (x rest : Bytes) (h2 : id.toNat / 64 = 2) (hn : id.toNat % 32 = n)
    (h31 : n < 31) (hx : x.length < 2 ^ 31) :
    ∃ e, parseOptRaw n (elem id x ++ rest) = .ok (e, rest) ∧ e.cls = 2 ∧ e.bytes = x := by
  have hh := parseHeader_enc id x.length (x ++ rest) (by omega) hx
  have e : elem id x ++ rest = id :: derLength x.length ++ (x ++ rest) := by simp [elem]
  unfold parseOptRaw
  rw [if_neg (by simp [elem]), e, hh]
  simp only [Go.ok_bind]
  rw [if_neg (by simp [h2, hn]), if_neg (by simp)]
  exact ⟨_, by simp only [Go.pure_def, List.drop_left]; rfl, h2, by simp⟩

theorem parseOptRaw_skip {n : Nat} {id : UInt8} (x rest : Bytes) (hn : id.toNat % 32 ≠ n) (h31 : id.toNat % 32 ≠ 31)
    (hx : x.length < 2 ^ 31) : parseOptRaw n (elem id x ++ rest) = .ok (.zero, elem id x ++ rest) := by
  have hh := parseHeader_enc id x.length (x ++ rest) h31 hx
  have e : elem id x ++ rest = id :: derLength x.length ++ (x ++ rest) := by simp [elem]
  unfold parseOptRaw
  rw [if_neg (by simp [elem]), e, hh]
  simp [hn]

theorem parseOptRaw_ok {n : Nat} (h31 : n < 31) {bs rest : Bytes} {e : Elem} (h : parseOptRaw n bs = .ok (e, rest)) :
    (e.cls = 0 ∧ rest = bs ∧ NoField n bs) ∨
    (e.cls ≠ 0 ∧ ∃ id : UInt8, id.toNat / 64 = 2 ∧ id.toNat % 32 = n ∧ bs = elem id e.bytes ++ rest) := by
  unfold parseOptRaw at h
  split at h
  · rename_i hnil
    simp only [Go.ok.injEq, Prod.mk.injEq] at h
    obtain ⟨rfl, rfl⟩ := h
    subst hnil
    exact .inl ⟨rfl, rfl, fun id x junk _ _ _ he => by simp [elem] at he⟩
  · obtain ⟨hd, hh, h⟩ := Go.bind_eq_ok.mp h
    split at h
    · rename_i hc
      simp only [Go.ok.injEq, Prod.mk.injEq] at h
      obtain ⟨rfl, rfl⟩ := h
      refine .inl ⟨rfl, rfl, ?_⟩
      rintro id x junk k1 k2 k3 rfl
      have e : elem id x ++ junk = id :: derLength x.length ++ (x ++ junk) := by simp [elem]
      rw [e, parseHeader_enc id x.length _ (by omega) k3] at hh
      simp only [Go.ok.injEq] at hh
      subst hh
      simp [k1, k2] at hc
    · rename_i hc
      split at h
      · simp at h
      · rename_i hle
        simp only [Go.pure_def, Go.ok.injEq, Prod.mk.injEq] at h
        obtain ⟨rfl, rfl⟩ := h
        simp only [not_or, Classical.not_not] at hc
        obtain ⟨id, more, e1, e2, e3, -, e5⟩ := parseHeader_ok (hd := hd.1) (rest := hd.2) hh
        refine .inr ⟨by simp [hc.1], ?_⟩
        rcases e5 with ⟨rfl, e5, -⟩ | e5
        · refine ⟨id, by rw [← e3]; exact hc.1, by rw [← e5]; exact hc.2, ?_⟩
          have hl : (hd.2.take hd.1.length).length = hd.1.length := by simp; omega
          simp only [elem, hl]
          rw [e1]
          simp
        · omega

theorem decodeASExt_der {asnum rdi : Option ASChoice} {out : Bytes} (h : ASDer asnum rdi out)
    (hl : out.length < 2 ^ 31) (h1 : ∀ c, asnum = some c → ∀ a ∈ c.items, a.Fits)
    (h2 : ∀ c, rdi = some c → ∀ a ∈ c.items, a.Fits) (rest : Bytes) :
    decodeASExt (out ++ rest) = .ok (asEntries asnum, asEntries rdi) := by
  obtain ⟨x, y, hx, hy, rfl⟩ := h
  have l1 := elem_length_gt 0x30 (x ++ y)
  simp only [List.length_append] at l1
  unfold decodeASExt
  rw [parseSeq_elem _ rest (by simp; omega)]
  simp only [Go.ok_bind]
  have hr : ∃ e, parseOptRaw 1 y = .ok (e, []) ∧ readASField e = .ok (asEntries rdi) := by
    cases rdi with
    | none => subst hy; exact ⟨_, rfl, rfl⟩
    | some c =>
      obtain ⟨z, hz, rfl⟩ := hy
      have l2 := elem_length_gt 0xa1 z
      obtain ⟨e, e1, e2, e3⟩ := parseOptRaw_elem (n := 1) (id := 0xa1) z [] rfl rfl (by decide) (by omega)
      rw [List.append_nil] at e1
      exact ⟨e, e1, by simp [readASField, e2, e3, readASIdentifier_der hz (by omega) (h2 c rfl)]⟩
  obtain ⟨e, he1, he2⟩ := hr
  cases asnum with
  | none =>
    subst hx
    have hskip : parseOptRaw 0 y = .ok (.zero, y) := by
      cases rdi with
      | none => subst hy; rfl
      | some c =>
        obtain ⟨z, hz, rfl⟩ := hy
        have l2 := elem_length_gt 0xa1 z
        have := parseOptRaw_skip (n := 0) (id := 0xa1) z [] (by decide) (by decide) (by omega)
        rwa [List.append_nil] at this
    have hz : readASField Elem.zero = .ok [] := rfl
    simp only [List.nil_append, hskip, Go.ok_bind, he1, he2, hz, Go.pure_def, asEntries]
  | some c =>
    obtain ⟨z, hz, rfl⟩ := hx
    have l2 := elem_length_gt 0xa0 z
    obtain ⟨u, u1, u2, u3⟩ := parseOptRaw_elem (n := 0) (id := 0xa0) z y rfl rfl (by decide) (by omega)
    have hu : readASField u = .ok (asEntries (some c)) := by
      simp [readASField, u2, u3, readASIdentifier_der hz (by omega) (h1 c rfl)]
    simp only [u1, Go.ok_bind, he1, he2, hu, Go.pure_def]

theorem readASField_ok {n : Nat} (h31 : n < 31) {bs rest : Bytes} {e : Elem} {l : List ASInfo}
    (h : parseOptRaw n bs = .ok (e, rest)) (hr : readASField e = .ok l) :
    ∃ o x, LaxASField n o x ∧ bs = x ++ rest ∧ l = asEntries o ∧ (o = none → NoField n bs) := by
  unfold readASField at hr
  rcases parseOptRaw_ok h31 h with ⟨h1, rfl, h3⟩ | ⟨h1, id, k1, k2, k3⟩
  · rw [if_neg (by simp [h1])] at hr
    simp only [Go.ok.injEq] at hr
    exact ⟨none, [], rfl, rfl, hr.symm, fun _ => h3⟩
  · rw [if_pos h1] at hr
    obtain ⟨c, c1, c2⟩ := readASIdentifier_ok hr
    exact ⟨some c, elem id e.bytes, ⟨id, e.bytes, c1, k1, k2, rfl⟩, k3, c2, by simp⟩

theorem decodeASExt_ok {data : Bytes} {nums rdi : List ASInfo} (h : decodeASExt data = .ok (nums, rdi)) :
    ∃ a d, LaxAS a d data ∧ nums = asEntries a ∧ rdi = asEntries d := by
  unfold decodeASExt at h
  obtain ⟨s, hs, h⟩ := Go.bind_eq_ok.mp h
  obtain ⟨n, hn, h⟩ := Go.bind_eq_ok.mp h
  obtain ⟨d, hd, h⟩ := Go.bind_eq_ok.mp h
  obtain ⟨nums', hnums, h⟩ := Go.bind_eq_ok.mp h
  obtain ⟨rdi', hrdi, h⟩ := Go.bind_eq_ok.mp h
  simp only [Go.pure_def, Go.ok.injEq, Prod.mk.injEq] at h
  obtain ⟨rfl, rfl⟩ := h
  obtain ⟨a, x, a1, a2, a3, a4⟩ := readASField_ok (by decide) (e := n.1) (rest := n.2) hn hnums
  obtain ⟨b, y, b1, b2, b3, b4⟩ := readASField_ok (by decide) (e := d.1) (rest := d.2) hd hrdi
  refine ⟨a, b, ⟨x, y, d.2, s.2, a1, b1, ?_, ?_, ?_⟩, a3, b3⟩
  · rw [List.append_assoc, ← b2, ← a2]
    exact parseTyped_elem (x := s.1) (rest := s.2) (by decide) hs
  · intro h0
    have := a4 h0
    subst h0
    have hx : x = [] := a1
    rw [a2, hx, List.nil_append, b2] at this
    exact this
  · intro h0
    have := b4 h0
    subst h0
    have hy : y = [] := b1
    rw [b2, hy, List.nil_append] at this
    exact this

/-! ### Writing -/

/-- The field for a list of entries. -/
def fieldSpec (l : List ASInfo) : Option ASChoice :=
  if l = [] then none
  else if l = [.null] then some .inherit
  else some (.list (l.map (fun i => match i with
    | .asn a => .id a
    | .range a b => .range a b
    | .null => .id 0)))

theorem asSeqLoop_noNull {l : List ASInfo} (h : .null ∉ l) (acc : List Bytes) :
    asSeqLoop l acc = (acc ++ l.map marshalAS, false) := by
  induction l generalizing acc with
  | nil => simp [asSeqLoop]
  | cons a l ih =>
    have := ih (fun hm => h (by simp [hm])) (acc ++ [marshalAS a])
    cases a with
    | null => simp at h
    | asn a => simp only [asSeqLoop, this]; simp
    | range a b => simp only [asSeqLoop, this]; simp

theorem intOctets_der {n : Int} (h : -2 ^ 63 ≤ n ∧ n < 2 ^ 63) : IntDer n (tlv 0x02 (intOctets n)) :=
  ⟨_, (intOctets_content h.1 h.2).1, tlv_elem _ _⟩

theorem fieldSpec_der {l : List ASInfo} (h : .null ∉ l ∨ l = [.null]) (hf : ∀ a ∈ l, FitsAS a) (id : UInt8) :
    ASFieldDer id (fieldSpec l) (encodeASFieldExt id l) ∧ asEntries (fieldSpec l) = l ∧
      (∀ c, fieldSpec l = some c → ∀ a ∈ c.items, a.Fits) := by
  by_cases h0 : l = []
  · subst h0
    exact ⟨rfl, rfl, by simp [fieldSpec]⟩
  · by_cases h1 : l = [.null]
    · subst h1
      refine ⟨⟨elem 0x05 [], rfl, ?_⟩, rfl, ?_⟩
      · simp [encodeASFieldExt, asSeqLoop, marshalAS, tlv_elem]
      · intro c hc
        simp [fieldSpec] at hc
        subst hc
        simp [ASChoice.items]
    · have hn : .null ∉ l := h.resolve_right h1
      unfold encodeASFieldExt fieldSpec
      rw [if_neg h0, if_neg h1, if_neg h0, asSeqLoop_noNull hn]
      refine ⟨⟨_, ⟨l.map marshalAS, ?_, rfl⟩, by simp [tlv_elem]⟩, ?_, ?_⟩
      · refine forall₂_map_right _ marshalAS l ?_
        intro a ha
        have hfa := hf a ha
        cases a with
        | null => exact absurd ha hn
        | asn a => exact intOctets_der hfa
        | range a b => exact ⟨_, _, intOctets_der hfa.1, intOctets_der hfa.2, tlv_elem _ _⟩
      · simp only [asEntries, List.map_map]
        conv_rhs => rw [← List.map_id l]
        apply List.map_congr_left
        intro a ha
        cases a with
        | null => exact absurd ha hn
        | asn a => rfl
        | range a b => rfl
      · intro c hc
        simp only [Option.some.injEq] at hc
        subst hc
        simp only [ASChoice.items, List.mem_map]
        rintro a ⟨x, hx, rfl⟩
        have hfa := hf x hx
        cases x with
        | null => exact absurd hx hn
        | asn a => exact hfa
        | range a b => exact hfa

end Verif.Ext
