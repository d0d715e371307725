import Verif.Lemmas.ExtAs
import Verif.Lemmas.Tal
import Verif.Model.Spki
import Verif.Spec.Spki
/-
  Lemmas about RSA keys as octets.
-/
set_option autoImplicit false

namespace Verif.Tal
open Der Cms CmsSpec BerSpec SpkiSpec Ext Net

/-! ### Integers -/

theorem content_of_bigIntOk {c : Bytes} (h : bigIntOk c = true) : IntContent (intVal c) c := by
  cases c with
  | nil => simp [bigIntOk] at h
  | cons a t =>
    rw [intVal_twos (by simp)]
    cases t with
    | nil => exact content_of_range (by simp) rfl (.inl rfl)
    | cons b t =>
      simp only [bigIntOk, Bool.and_eq_true, Bool.not_eq_true', Bool.or_eq_false_iff, Bool.and_eq_false_iff,
        beq_eq_false_iff_ne, decide_eq_false_iff_not, decide_eq_true_eq] at h
      obtain ⟨hz, hf⟩ := h
      refine content_of_range (by simp) rfl (.inr ?_)
      have e : (a :: b :: t).length - 2 = t.length := by simp
      rw [e]
      have hbv : beVal (a :: b :: t) = a.toNat * (256 * 256 ^ t.length) + beVal (b :: t) := by
        rw [beVal_cons', List.length_cons, pow_succ, Nat.mul_comm (256 ^ t.length)]
      have hlt := beVal_lt' (b :: t)
      have hge := beVal_head_ge b t
      have hlt2 : beVal (b :: t) < (b.toNat + 1) * 256 ^ t.length := by
        rw [beVal_cons', Nat.add_mul, Nat.one_mul]
        have := beVal_lt' t
        omega
      rw [List.length_cons, pow_succ, Nat.mul_comm (256 ^ t.length)] at hlt
      have hq : 0 < 256 ^ t.length := Nat.pow_pos (by decide)
      have hpI : ((256 : Int) ^ (a :: b :: t).length) = 256 * (256 * (256 ^ t.length : Nat)) := by
        simp only [List.length_cons, pow_succ]; push_cast; ring
      have hqI : ((256 : Int) ^ t.length) = ((256 ^ t.length : Nat) : Int) := by push_cast; rfl
      have ha := u8_lt a
      have hb := u8_lt b
      have hz' : a.toNat = 0 → 128 ≤ b.toNat := by
        intro h0
        have : a = 0 := UInt8.toNat_inj.mp (by simpa using h0)
        rcases hz with hz | hz
        · exact absurd this hz
        · rw [UInt8.lt_iff_toNat_lt] at hz
          have e : (0x80 : UInt8).toNat = 128 := rfl
          omega
      have hf' : a.toNat = 255 → b.toNat < 128 := by
        intro h0
        have : a = 0xff := UInt8.toNat_inj.mp (by rw [h0]; rfl)
        rcases hf with hf | hf
        · exact absurd this hf
        · rw [ge_iff_le, UInt8.le_iff_toNat_le] at hf
          have e : (0x80 : UInt8).toNat = 128 := rfl
          omega
      have hle : (0x80 : UInt8) ≤ a ↔ 128 ≤ a.toNat := by rw [UInt8.le_iff_toNat_le]; rfl
      simp only [twos, List.headD_cons, hle, hpI, hqI, hbv]
      generalize hqq : 256 ^ t.length = q at *
      generalize beVal (b :: t) = v at *
      generalize a.toNat = x at *
      generalize b.toNat = y at *
      by_cases hx : 128 ≤ x
      · left
        rw [if_pos hx]
        by_cases h255 : x = 255
        · subst h255
          have hy := hf' rfl
          have : (y + 1) * q ≤ 128 * q := Nat.mul_le_mul_right _ (by omega)
          push_cast
          omega
        · have : x * (256 * q) ≤ 254 * (256 * q) := Nat.mul_le_mul_right _ (by omega)
          push_cast
          generalize hm : x * (256 * q) = m at *
          have hmI : (x : Int) * (256 * (q : Int)) = (m : Int) := by rw [← hm]; push_cast; ring
          rw [hmI]
          omega
      · right
        rw [if_neg hx]
        by_cases h0 : x = 0
        · subst h0
          have hy := hz' rfl
          have : 128 * q ≤ y * q := Nat.mul_le_mul_right _ hy
          push_cast
          omega
        · have : 1 * (256 * q) ≤ x * (256 * q) := Nat.mul_le_mul_right _ (by omega)
          push_cast
          generalize hm : x * (256 * q) = m at *
          have hmI : (x : Int) * (256 * (q : Int)) = (m : Int) := by rw [← hm]; push_cast; ring
          rw [hmI]
          omega

/-- An integer has one form. -/
theorem content_unique {i : Int} {c c' : Bytes} (h : IntContent i c) (h' : IntContent i c') : c = c' := by
  have hl : c.length = c'.length := Nat.le_antisymm (h.2.2 _ h'.1 h'.2.1) (h'.2.2 _ h.1 h.2.1)
  have e : twos c = twos c' := h.2.1.trans h'.2.1.symm
  have l1 := beVal_lt' c
  have l2 := beVal_lt' c'
  refine beVal_inj hl ?_
  unfold twos at e
  rw [hl] at e l1
  have hp : ((256 : Int) ^ c'.length) = ((256 ^ c'.length : Nat) : Int) := by push_cast; rfl
  rw [hp] at e
  generalize 256 ^ c'.length = q at *
  split at e <;> split at e <;> omega

/-- The value of at most eight octets is an `int`. -/
theorem twos_int64 {c : Bytes} (h : c ≠ []) (hl : c.length ≤ 8) : -2 ^ 63 ≤ twos c ∧ twos c < 2 ^ 63 := by
  obtain ⟨h1, h2⟩ := twos_range h
  have hm : (256 : Int) ^ (c.length - 1) ≤ 256 ^ 7 := pow_le_pow_right₀ (by norm_num) (by omega)
  generalize (256 : Int) ^ (c.length - 1) = q at *
  norm_num at hm ⊢
  omega

/-- An `int` -/
def Int64 (e : Int) : Prop := -2 ^ 63 ≤ e ∧ e < 2 ^ 63

theorem rsaKeyDer_unique {n e : Int} {a b : Bytes} (ha : RsaKeyDer n e a) (hb : RsaKeyDer n e b) : a = b := by
  obtain ⟨n1, e1, h1, h2, rfl⟩ := ha
  obtain ⟨n2, e2, h3, h4, rfl⟩ := hb
  rw [content_unique h1 h3, content_unique h2 h4]

theorem marshalRSA_der (k : RSAKey) (he : Int64 k.e) : RsaKeyDer k.n k.e (marshalRSA k) := by
  refine ⟨_, _, bigIntOctets_content k.n, (intOctets_content he.1 he.2).1, ?_⟩
  simp only [marshalRSA, tlv_elem]

theorem marshalSPKI_der (k : RSAKey) (he : Int64 k.e) : SpkiDer k.n k.e (marshalSPKI k) := by
  refine ⟨_, marshalRSA_der k he, ?_⟩
  have h1 : bitStringOctets (bundleRSAPublicKey k) = 0x00 :: marshalRSA k := by
    simp [bitStringOctets, bundleRSAPublicKey]
  have h2 : elem 0x05 [] = [0x05, 0x00] := by decide
  simp only [marshalSPKI, tlv_elem, h1, h2]
  rfl

theorem spkiDer_unique {n e : Int} {a b : Bytes} (ha : SpkiDer n e a) (hb : SpkiDer n e b) : a = b := by
  obtain ⟨k1, h1, rfl⟩ := ha
  obtain ⟨k2, h2, rfl⟩ := hb
  rw [rsaKeyDer_unique h1 h2]

/-! ### Reading -/

theorem rsaOID_ok : OidOk rsaEncryption := by decide +kernel

theorem read_lax {d : Bytes} {k : RSAKey} (h : LaxSpki k.n k.e d) (he : Int64 k.e) (hl : d.length < 2 ^ 31) :
    ∃ bits, unmarshalSPKI d = .ok (true, bits) ∧ unmarshalRSA bits = .ok k := by
  obtain ⟨n, e, params, more, tail, junk, after, unused, hn, hee, hu, hpad, rfl⟩ := h
  have l1 := elem_length_gt 0x30 (elem 0x30 (elem 0x06 rsaEncryption ++ params) ++
          elem 0x03 (unused :: (elem 0x30 (elem 0x02 n ++ elem 0x02 e ++ more) ++ tail)) ++ junk)
  have l2 := elem_length_gt 0x30 (elem 0x06 rsaEncryption ++ params)
  have l3 := elem_length_gt 0x03 (unused :: (elem 0x30 (elem 0x02 n ++ elem 0x02 e ++ more) ++ tail))
  have l4 := elem_length_gt 0x30 (elem 0x02 n ++ elem 0x02 e ++ more)
  have l5 := elem_length_gt 0x02 n
  simp only [List.length_append, List.length_cons] at l1 l2 l3 l4 hl
  refine ⟨elem 0x30 (elem 0x02 n ++ elem 0x02 e ++ more) ++ tail, ?_, ?_⟩
  · unfold unmarshalSPKI
    rw [parseSeq_elem _ _ (by simp only [List.length_append, List.length_cons]; omega)]
    simp only [Go.ok_bind]
    rw [List.append_assoc, parseSeq_elem _ _ (by simp only [List.length_append]; omega)]
    simp only [Go.ok_bind]
    rw [parseOID_elem _ _ rsaOID_ok (by decide), Go.ok_bind,
      parseBits_elem _ _ (by simp only [List.length_append, List.length_cons]; omega), Go.ok_bind]
    have hne : elem 0x30 (elem 0x02 n ++ elem 0x02 e ++ more) ++ tail ≠ [] := by simp [elem]
    simp only []
    generalize elem 0x30 (elem 0x02 n ++ elem 0x02 e ++ more) ++ tail = bs at *
    have hlast : (unused :: bs).getLast? = bs.getLast? := by
      cases bs with
      | nil => exact absurd rfl hne
      | cons a t => rfl
    have h7 : ¬ unused > 7 := by
      intro hgt
      have := UInt8.lt_iff_toNat_lt.mp hgt
      have e7 : (7 : UInt8).toNat = 7 := rfl
      omega
    have hb : bitStringOf (unused :: bs) = .ok ⟨bs, bs.length * 8 - unused.toNat⟩ := by
      unfold bitStringOf
      simp only []
      rw [if_neg (by rw [hlast]; simp [h7, hne, hpad])]
    rw [hb]
    rfl
  · unfold unmarshalRSA
    rw [parseSeq_elem _ _ (by simp only [List.length_append]; omega), Go.ok_bind]
    simp only []
    rw [List.append_assoc, parseBigInt_elem _ hn (by omega), Go.ok_bind]
    simp only []
    obtain ⟨p1, p2⟩ := parseInt_elem more hee (content_le8 hee he.1 he.2)
    rw [p1, Go.ok_bind]
    simp [p2]

theorem parseBigInt_ok {bs rest : Bytes} {i : Int} (h : parseBigInt bs = .ok (i, rest)) :
    ∃ c, IntContent i c ∧ bs = elem 0x02 c ++ rest := by
  unfold parseBigInt at h
  obtain ⟨r, hr, h⟩ := Go.bind_eq_ok.mp h
  split at h
  · rename_i hi
    simp only [Go.pure_def, Go.ok.injEq, Prod.mk.injEq] at h
    obtain ⟨rfl, rfl⟩ := h
    exact ⟨r.1, content_of_bigIntOk hi, parseTyped_elem (by decide) hr⟩
  · simp at h

theorem lax_read {d bits : Bytes} {k : RSAKey} (h1 : unmarshalSPKI d = .ok (true, bits))
    (h2 : unmarshalRSA bits = .ok k) : LaxSpki k.n k.e d ∧ Int64 k.e := by
  unfold unmarshalSPKI at h1
  obtain ⟨s, hs, h1⟩ := Go.bind_eq_ok.mp h1
  obtain ⟨t, ht, h1⟩ := Go.bind_eq_ok.mp h1
  obtain ⟨o, ho, h1⟩ := Go.bind_eq_ok.mp h1
  obtain ⟨b, hb, h1⟩ := Go.bind_eq_ok.mp h1
  obtain ⟨bb, hbb, h1⟩ := Go.bind_eq_ok.mp h1
  simp only [Go.pure_def, Go.ok.injEq, Prod.mk.injEq, decide_eq_true_eq] at h1
  obtain ⟨hoid, hbits⟩ := h1
  unfold unmarshalRSA at h2
  obtain ⟨q, hq, h2⟩ := Go.bind_eq_ok.mp h2
  obtain ⟨n, hn, h2⟩ := Go.bind_eq_ok.mp h2
  obtain ⟨e, he, h2⟩ := Go.bind_eq_ok.mp h2
  simp only [Go.pure_def, Go.ok.injEq] at h2
  subst h2
  have es := parseTyped_elem (x := s.1) (rest := s.2) (by decide) hs
  have et := parseTyped_elem (x := t.1) (rest := t.2) (by decide) ht
  have eo := parseOID_ok (x := o.1) (rest := o.2) ho
  have eb := parseTyped_elem (x := b.1) (rest := b.2) (by decide) hb
  have eq := parseTyped_elem (x := q.1) (rest := q.2) (by decide) hq
  obtain ⟨cn, hcn, en⟩ := parseBigInt_ok (i := n.1) (rest := n.2) hn
  obtain ⟨⟨ce, hce, ece⟩, ee, -⟩ := parseInt_ok (c := e.1) (rest := e.2) he
  have hce8 : e.1 ≠ [] ∧ e.1.length ≤ 8 := by
    have : parseInt n.2 = .ok (e.1, e.2) := he
    unfold parseInt at this
    obtain ⟨r, _, h⟩ := Go.bind_eq_ok.mp this
    split at h
    · rename_i hi
      simp only [Go.pure_def, Go.ok.injEq] at h
      subst h
      exact ⟨(content_of_intOk hi).1.1, (content_of_intOk hi).2⟩
    · simp at h
  have i30 : ((if true = true then 32 else 0) + 16 : Nat).toUInt8 = 0x30 := by decide
  have i03 : ((if false = true then 32 else 0) + 3 : Nat).toUInt8 = 0x03 := by decide
  rw [i30] at es et eq
  rw [i03] at eb
  cases hb1 : b.1 with
  | nil => rw [hb1] at hbb; simp [bitStringOf] at hbb
  | cons p bs =>
    rw [hb1] at hbb eb
    unfold bitStringOf at hbb
    simp only [] at hbb
    split at hbb
    · simp at hbb
    · rename_i hc
      simp only [Go.ok.injEq] at hbb
      subst hbb
      subst hbits
      replace eq : bs = elem 0x30 q.1 ++ q.2 := eq
      have hne : bs ≠ [] := by rw [eq]; simp [elem]
      have hlast : (p :: bs).getLast? = bs.getLast? := by
        cases bs with
        | nil => exact absurd rfl hne
        | cons a t => rfl
      rw [hlast] at hc
      have hp : p.toNat ≤ 7 := by
        by_contra hgt
        exact hc (.inl (UInt8.lt_iff_toNat_lt.mpr (by have e7 : (7 : UInt8).toNat = 7 := rfl; omega)))
      have hpad : (bs.getLast?.getD 0).toNat % 2 ^ p.toNat = 0 := by
        by_contra hx
        exact hc (.inr (.inr hx))
      have hbs : bs = elem 0x30 (elem 0x02 cn ++ elem 0x02 e.1 ++ e.2) ++ q.2 := by
        rw [eq, en, ee, List.append_assoc]
      have hci : IntContent (intVal e.1) e.1 := by
        have : parseInt n.2 = .ok (e.1, e.2) := he
        unfold parseInt at this
        obtain ⟨r, _, h⟩ := Go.bind_eq_ok.mp this
        split at h
        · rename_i hi
          simp only [Go.pure_def, Go.ok.injEq] at h
          subst h
          exact (content_of_intOk hi).1
        · simp at h
      refine ⟨⟨cn, e.1, o.2, e.2, q.2, b.2, s.2, p, hcn, hci, hp, hbs ▸ hpad, ?_⟩, ?_⟩
      · rw [← hbs, es, et, eo, eb, hoid, List.append_assoc (elem 0x30 _)]
        rfl
      · rw [Int64, intVal_twos hce8.1]
        exact twos_int64 hce8.1 hce8.2

theorem spkiDer_lax {n e : Int} {d : Bytes} (h : SpkiDer n e d) : LaxSpki n e d := by
  obtain ⟨key, ⟨a, b, h1, h2, rfl⟩, rfl⟩ := h
  refine ⟨a, b, [0x05, 0x00], [], [], [], [], 0, h1, h2, by decide, ?_, by simp⟩
  have : (0 : UInt8).toNat = 0 := rfl
  rw [this, pow_zero, Nat.mod_one]

theorem read_rsa {key : Bytes} {k : RSAKey} (h : RsaKeyDer k.n k.e key) (he : Int64 k.e) (hl : key.length < 2 ^ 31) :
    unmarshalRSA key = .ok k := by
  obtain ⟨n, e, hn, hee, rfl⟩ := h
  have l1 := elem_length_gt 0x30 (elem 0x02 n ++ elem 0x02 e)
  have l2 := elem_length_gt 0x02 n
  simp only [List.length_append] at l1
  unfold unmarshalRSA
  have hs := parseSeq_elem (elem 0x02 n ++ elem 0x02 e) [] (by simp only [List.length_append]; omega)
  rw [List.append_nil] at hs
  rw [hs, Go.ok_bind]
  simp only []
  rw [parseBigInt_elem _ hn (by omega), Go.ok_bind]
  simp only []
  obtain ⟨p1, p2⟩ := parseInt_elem [] hee (content_le8 hee he.1 he.2)
  rw [List.append_nil] at p1
  rw [p1, Go.ok_bind]
  simp [p2]

theorem usable_length {k : RSAKey} (h : Usable k.n k.e) : (marshalSPKI k).length < 2 ^ 31 ∧ (marshalRSA k).length < 2 ^ 31 := by
  obtain ⟨h1, h2, d, hd, hl⟩ := h
  have e := spkiDer_unique hd (marshalSPKI_der k ⟨h1, h2⟩)
  rw [← e]
  refine ⟨hl, ?_⟩
  obtain ⟨key, hk, rfl⟩ := hd
  rw [← rsaKeyDer_unique hk (marshalRSA_der k ⟨h1, h2⟩)]
  have l1 := elem_length_gt 0x30 (elem 0x30 (elem 0x06 rsaEncryption ++ [0x05, 0x00]) ++ elem 0x03 (0x00 :: key))
  have l2 := elem_length_gt 0x03 (0x00 :: key)
  simp only [List.length_append, List.length_cons] at l1 l2
  omega

/-! ### No panic -/

theorem safe_bitStringOf (b : Bytes) : Safe (bitStringOf b) := by
  cases b with
  | nil => exact .err _
  | cons p bs => unfold bitStringOf; exact .ite (.err _) (.ok _)

theorem safe_unmarshalSPKI (d : Bytes) : Safe (unmarshalSPKI d) :=
  .bind (safe_parseTyped _ _ _) fun _ _ => .bind (safe_parseTyped _ _ _) fun _ _ => .bind (safe_parseOID _) fun _ _ =>
    .bind (safe_parseTyped _ _ _) fun _ _ => .bind (safe_bitStringOf _) fun _ _ => .ok _

theorem safe_parseBigInt (d : Bytes) : Safe (parseBigInt d) :=
  .bind (safe_parseTyped _ _ _) fun _ _ => .ite (.ok _) (.err _)

theorem safe_unmarshalRSA (d : Bytes) : Safe (unmarshalRSA d) :=
  .bind (safe_parseTyped _ _ _) fun _ _ => .bind (safe_parseBigInt _) fun _ _ => .bind (safe_parseInt _) fun _ _ => .ok _

theorem safe_decodeTAL (data : Bytes) : Safe (decodeTAL derAsn data) := by
  unfold decodeTAL decodeKey
  refine .bind ?_ fun d _ => .bind (safe_unmarshalSPKI d) fun i _ => .ite (.bind (safe_unmarshalRSA _) fun _ _ => .ok _) (.ok _)
  unfold b64DecodeStd
  split
  · exact .ok _
  · exact .err _

/-! ### Lengths -/

/-- A positive number of `8 * m` bits, the highest one set, takes `m + 1` octets. -/
theorem int_length {i : Int} {c : Bytes} (h : IntContent i c) {m : Nat} (h1 : 128 * 256 ^ m ≤ i) (h2 : i < 256 * 256 ^ m) :
    c.length = m + 2 := by
  obtain ⟨r1, r2⟩ := twos_range h.1
  rw [h.2.1] at r1 r2
  have h0 := List.length_pos_iff.mpr h.1
  have hge : m + 2 ≤ c.length := by
    by_contra hlt
    have : (256 : Int) ^ (c.length - 1) ≤ 256 ^ m := pow_le_pow_right₀ (by norm_num) (by omega)
    generalize (256 : Int) ^ (c.length - 1) = p at *
    generalize (256 : Int) ^ m = q at *
    omega
  refine Nat.le_antisymm ?_ hge
  by_contra hlt
  have hp : (0 : Int) < 256 ^ m := by positivity
  obtain ⟨⟨a1, a2, a3⟩, -⟩ := intOctetsFuel_spec (m + 1) i (by rw [pow_succ]; omega) (by rw [pow_succ]; omega)
  have := h.2.2 _ a1 a2
  omega

/-- Length of an element of 256 to 65535 octets. -/
theorem elem_length_mid (id : UInt8) (c : Bytes) (h1 : 256 ≤ c.length) (h2 : c.length < 65536) :
    (elem id c).length = c.length + 4 := by
  rw [elem_length]
  have : (derLength c.length).length = 3 := by
    unfold derLength
    rw [if_neg (by omega)]
    have e1 : digits c.length = digits (c.length / 256) ++ [(c.length % 256).toUInt8] := by
      rw [digits, if_neg (by omega)]
    have e2 : digits (c.length / 256) = digits (c.length / 256 / 256) ++ [(c.length / 256 % 256).toUInt8] := by
      rw [digits, if_neg (by omega)]
    have e3 : c.length / 256 / 256 = 0 := by omega
    have e4 : digits 0 = [] := by rw [digits, if_pos rfl]
    rw [e1, e2, e3, e4]
    simp
  omega

/-- Length of a short element. -/
theorem elem_length_short (id : UInt8) (c : Bytes) (h : c.length < 128) : (elem id c).length = c.length + 2 := by
  rw [elem_length]
  have : (derLength c.length).length = 1 := by
    unfold derLength
    rw [if_pos h]
    rfl
  omega

/-- The length of the info of a key whose modulus takes `w` octets and exponent three. -/
theorem spki_length {n : Int} {d : Bytes} (h : SpkiDer n 65537 d) {m : Nat} (h1 : 128 * 256 ^ m ≤ n) (h2 : n < 256 * 256 ^ m)
    (hm : 254 ≤ m) (hm2 : m < 60000) : d.length = m + 39 := by
  obtain ⟨key, ⟨a, b, ha, hb, rfl⟩, rfl⟩ := h
  have la := int_length ha h1 h2
  have lb : b.length = 3 := by
    rw [content_unique hb (intOctets_content (by norm_num) (by norm_num)).1]
    decide
  have l1 := elem_length_mid 0x02 a (by omega) (by omega)
  have l2 := elem_length_short 0x02 b (by omega)
  have l3 := elem_length_mid 0x30 (elem 0x02 a ++ elem 0x02 b) (by rw [List.length_append]; omega) (by rw [List.length_append]; omega)
  rw [List.length_append] at l3
  have l4 := elem_length_mid 0x03 (0x00 :: elem 0x30 (elem 0x02 a ++ elem 0x02 b)) (by rw [List.length_cons]; omega)
    (by rw [List.length_cons]; omega)
  rw [List.length_cons] at l4
  have l5 : (elem 0x30 (elem 0x06 rsaEncryption ++ [0x05, 0x00])).length = 15 := by decide
  rw [elem_length_mid _ _ (by rw [List.length_append]; omega) (by rw [List.length_append]; omega), List.length_append]
  omega

end Verif.Tal
