import Verif.Spec.Xml
import Verif.Lemmas.RrdpXml
import Verif.Lemmas.Json
import Verif.Lemmas.JsonPrint
/-
  The scanner of encoding/xml: what every function reads, exactly.
-/
set_option autoImplicit false

namespace Verif.XmlScan
open RrdpXml (Tok)
open RrdpXmlSpec (Xml)
open XmlSpec JsonSpec

/-! ### White space and names -/

theorem isWs_iff (c : UInt8) : isWs c = true ↔ c = 32 ∨ c = 9 ∨ c = 10 ∨ c = 13 := by
  simp only [isWs, Bool.or_eq_true, beq_iff_eq]
  constructor
  · rintro (((h | h) | h) | h) <;> simp [h]
  · rintro (h | h | h | h) <;> simp [h]

theorem space_white : ∀ (w r : Bytes), White w → (∀ c, r.head? = some c → isWs c = false) → space (w ++ r) = r := by
  intro w
  induction w with
  | nil =>
    intro r _ h
    cases r with
    | nil => rfl
    | cons c r => simp [space, List.dropWhile_cons, h c rfl]
  | cons c w ih =>
    intro r hw h
    have hc : isWs c = true := (isWs_iff c).mpr (hw c List.mem_cons_self)
    have := ih r (fun d hd => hw d (List.mem_cons_of_mem _ hd)) h
    simp only [space] at this ⊢
    rw [List.cons_append, List.dropWhile_cons, if_pos hc, this]

theorem space_split (bs : Bytes) : ∃ w, bs = w ++ space bs ∧ White w ∧ ∀ c, (space bs).head? = some c → isWs c = false := by
  induction bs with
  | nil => exact ⟨[], rfl, by simp [White], by simp [space]⟩
  | cons c bs ih =>
    by_cases hc : isWs c = true
    · obtain ⟨w, h1, h2, h3⟩ := ih
      have e : space (c :: bs) = space bs := by simp [space, List.dropWhile_cons, hc]
      refine ⟨c :: w, by rw [e, List.cons_append, ← h1], ?_, by rw [e]; exact h3⟩
      intro d hd
      rcases List.mem_cons.mp hd with rfl | hd
      · exact (isWs_iff _).mp hc
      · exact h2 d hd
    · have e : space (c :: bs) = c :: bs := by simp [space, List.dropWhile_cons, hc]
      refine ⟨[], by rw [e]; rfl, by simp [White], ?_⟩
      rw [e]
      intro d hd
      cases hd
      simpa using hc

theorem isNameByte_iff (c : UInt8) : isNameByte c = true ↔ NameByte c := by
  simp only [isNameByte, NameByte, Bool.or_eq_true, Bool.and_eq_true, decide_eq_true_eq, beq_iff_eq]
  constructor
  · intro h
    rcases h with (((((h | h) | h) | h) | h) | h) | h <;> simp [h]
  · intro h
    rcases h with h | h | h | h | h | h | h <;> simp [h]

/-- An octet of a name. -/
def InName (c : UInt8) : Prop := 0x80 ≤ c ∨ NameByte c

theorem inName_iff (c : UInt8) : (c < 0x80 && !isNameByte c) = true ↔ ¬ InName c := by
  simp only [Bool.and_eq_true, decide_eq_true_eq, Bool.not_eq_true', InName, not_or, ← isNameByte_iff, Bool.not_eq_true]
  exact and_congr_left fun _ => ⟨fun h => UInt8.not_le.mpr h, fun h => UInt8.not_le.mp h⟩

theorem nameRun_iff : ∀ (bs n r : Bytes), nameRun bs = some (n, r) ↔ bs = n ++ r ∧ (∀ c ∈ n, InName c) ∧ ∃ b r', r = b :: r' ∧ ¬ InName b := by
  intro bs
  induction bs with
  | nil => intro n r; simp only [nameRun]; constructor
           · intro h; cases h
           · rintro ⟨h, -, b, r', rfl, -⟩; simp at h
  | cons b bs ih =>
    intro n r
    unfold nameRun
    by_cases hb : (b < 0x80 && !isNameByte b) = true
    · rw [if_pos hb]
      have hb' := (inName_iff b).mp hb
      constructor
      · intro h
        simp only [Option.some.injEq, Prod.mk.injEq] at h
        obtain ⟨rfl, rfl⟩ := h
        exact ⟨rfl, by simp, b, bs, rfl, hb'⟩
      · rintro ⟨h, hn, b', r', rfl, hr⟩
        cases n with
        | nil => rw [h]; rfl
        | cons a n =>
          obtain ⟨rfl, -⟩ := List.cons.inj h
          exact absurd (hn _ List.mem_cons_self) hb'
    · rw [if_neg hb]
      have hb' : InName b := by
        by_contra hc
        exact hb ((inName_iff b).mpr hc)
      rw [Option.map_eq_some_iff]
      constructor
      · rintro ⟨⟨n', r1⟩, h1, h2⟩
        simp only [Prod.mk.injEq] at h2
        obtain ⟨rfl, rfl⟩ := h2
        obtain ⟨rfl, h3, h4⟩ := (ih _ _).mp h1
        refine ⟨rfl, ?_, h4⟩
        intro c hc
        rcases List.mem_cons.mp hc with rfl | hc
        · exact hb'
        · exact h3 c hc
      · rintro ⟨h, hn, b', r', rfl, hr⟩
        cases n with
        | nil =>
          obtain ⟨rfl, -⟩ := List.cons.inj h
          exact absurd hb' hr
        | cons a n =>
          rw [List.cons_append] at h
          obtain ⟨rfl, h'⟩ := List.cons.inj h
          exact ⟨(n, b' :: r'), (ih _ _).mpr ⟨h', fun c hc => hn c (List.mem_cons_of_mem _ hc), b', r', rfl, hr⟩, rfl⟩

theorem isName_iff (lib : Lib) (n : Bytes) (h : ∀ c ∈ n, InName c) : isName lib n = true ↔ NameText lib n := by
  unfold isName
  by_cases ha : n.all (· < 0x80) = true
  · rw [if_pos ha]
    have ha' : ∀ c ∈ n, c < 0x80 := by simpa using ha
    cases n with
    | nil => simp; intro hc; exact hc.ne rfl
    | cons a n =>
      simp only [Bool.or_eq_true, Bool.and_eq_true, decide_eq_true_eq, beq_iff_eq]
      constructor
      · intro hh
        refine ⟨by simp, h, ?_, ?_⟩
        · intro _ a' ha'
          cases ha'
          rcases hh with ((hh | hh) | hh) | hh <;> simp [hh]
        · rintro ⟨c, hc, hc2⟩
          exact absurd (ha' c hc) (UInt8.not_lt.mpr hc2)
      · intro hh
        rcases hh.ascii ha' a rfl with hh | hh | hh | hh <;> simp [hh]
  · rw [if_neg ha]
    have hex : ∃ c ∈ n, 0x80 ≤ c := by
      simpa using ha
    constructor
    · intro hh
      refine ⟨?_, h, ?_, fun _ => hh⟩
      · rintro rfl; simp at ha
      · intro hh2; exact absurd (by simpa using hh2) ha
    · intro hh; exact hh.other hex

theorem name_iff (lib : Lib) (bs n r : Bytes) : name lib bs = some (n, r) ↔ bs = n ++ r ∧ NameText lib n ∧ ∃ b r', r = b :: r' ∧ ¬ InName b := by
  unfold name
  cases hx : nameRun bs with
  | none =>
    constructor
    · intro h; cases h
    · rintro ⟨h1, h2, h3⟩
      rw [(nameRun_iff bs n r).mpr ⟨h1, h2.octets, h3⟩] at hx; cases hx
  | some x =>
    obtain ⟨n', r'⟩ := x
    obtain ⟨h1, h2, h3⟩ := (nameRun_iff bs n' r').mp hx
    constructor
    · intro h
      simp only at h
      split at h
      · rename_i hi
        cases h
        exact ⟨h1, (isName_iff lib n h2).mp hi, h3⟩
      · cases h
    · rintro ⟨g1, g2, g3⟩
      have := (nameRun_iff bs n r).mpr ⟨g1, g2.octets, g3⟩
      rw [hx] at this
      cases this
      simp only
      rw [if_pos ((isName_iff lib n h2).mpr g2)]

theorem split_iff (n : Bytes) (q : QName) : split n = q ↔ QNameIs n q := by
  have pre : ∀ p l, Prefixed n p l → split n = ⟨p, l⟩ := by
    rintro p l ⟨rfl, hp, hl, h1, h2⟩
    have hc : (p ++ 58 :: l).count 58 = 1 := by
      rw [List.count_append, List.count_eq_zero_of_not_mem h1, List.count_cons_self, List.count_eq_zero_of_not_mem h2]
    have ht : (p ++ 58 :: l).takeWhile (fun x => decide (x ≠ 58)) = p := by
      rw [List.takeWhile_append_of_pos (by intro a ha; simp; rintro rfl; exact h1 ha)]
      simp
    have hd : ((p ++ 58 :: l).dropWhile (fun x => decide (x ≠ 58))) = 58 :: l := by
      rw [List.dropWhile_append_of_pos (by intro a ha; simp; rintro rfl; exact h1 ha)]
      simp
    unfold split
    rw [if_neg (by omega), ht, hd, if_neg (by simp [hp, hl])]
    rfl
  have non : (∀ p l, ¬ Prefixed n p l) → split n = ⟨[], n⟩ := by
    intro h
    unfold split
    split
    · rfl
    · rename_i hc
      split
      · rfl
      · rename_i hc2
        exfalso
        simp only [not_or] at hc2
        obtain ⟨c1, c2⟩ := hc2
        have e := List.takeWhile_append_dropWhile (p := fun x : UInt8 => decide (x ≠ 58)) (l := n)
        cases hd : n.dropWhile (fun x => decide (x ≠ 58)) with
        | nil => rw [hd] at c2; simp at c2
        | cons a l =>
          have ha : a = 58 := by
            have := List.head?_dropWhile_not (fun x : UInt8 => decide (x ≠ 58)) n
            rw [hd] at this
            simpa using this
          subst ha
          rw [hd] at c2 e
          have h1 : 58 ∉ n.takeWhile (fun x => decide (x ≠ 58)) := by
            intro hm
            have hall := List.all_takeWhile (p := fun x : UInt8 => decide (x ≠ 58)) (l := n)
            have := List.all_eq_true.mp hall _ hm
            simp at this
          refine h _ _ ⟨e.symm, c1, c2, h1, ?_⟩
          intro hm
          rw [← e, List.count_append, List.count_cons_self] at hc
          have : 0 < List.count 58 l := List.count_pos_iff.mpr hm
          omega
  constructor
  · rintro rfl
    by_cases h : ∃ p l, Prefixed n p l
    · obtain ⟨p, l, h⟩ := h
      rw [pre p l h]; exact .inl h
    · simp only [not_exists] at h
      rw [non h]; exact .inr ⟨rfl, h⟩
  · rintro (h | ⟨rfl, h⟩)
    · rw [pre _ _ h]
    · exact non h

/-! ### References -/

theorem charIs_iff (n : Nat) (u : Bytes) : CharIs n u ↔ n ≤ 0x10ffff ∧ u = Json.encodeRune n := by
  constructor
  · rintro (h | ⟨h1, h2, rfl⟩)
    · refine ⟨?_, (Json.encodeRune_utf8 h).symm⟩
      cases h with
      | one h => omega
      | two h => omega
      | three h _ => omega
      | four h => omega
    · refine ⟨by omega, ?_⟩
      unfold Json.encodeRune
      rw [if_neg (by omega), if_neg (by omega), if_pos (by omega)]; rfl
  · rintro ⟨h, rfl⟩
    by_cases hs : 0xd800 ≤ n ∧ n ≤ 0xdfff
    · refine .inr ⟨hs.1, hs.2, ?_⟩
      unfold Json.encodeRune
      rw [if_neg (by omega), if_neg (by omega), if_pos (by omega)]; rfl
    · left
      unfold Json.encodeRune
      split
      · exact .one _ (by assumption)
      · split
        · exact .two _ (by omega)
        · rw [if_neg (by omega)]
          split
          · exact .three _ (by omega) (by unfold Scalar; omega)
          · exact .four _ (by omega)

/-- Octets that are digits. -/
def Digit (base : Nat) (c : UInt8) : Prop := ∃ d, digitVal base c = some d

theorem digitRun_run (base : Nat) : ∀ (ds : Bytes) (acc : Nat) (r : Bytes), (∀ c ∈ ds, Digit base c) → (∀ c, r.head? = some c → digitVal base c = none) →
    digitRun base acc (ds ++ r) = (ds.foldl (fun n c => n * base + (digitVal base c).getD 0) acc, ds.length, r) := by
  intro ds
  induction ds with
  | nil =>
    intro acc r _ hr
    cases r with
    | nil => rfl
    | cons c r => simp [digitRun, hr c rfl]
  | cons c ds ih =>
    intro acc r hd hr
    obtain ⟨d, hc⟩ := hd c List.mem_cons_self
    have := ih (acc * base + d) r (fun x hx => hd x (List.mem_cons_of_mem _ hx)) hr
    simp only [List.cons_append, digitRun, hc, this, List.foldl_cons, Option.getD_some, List.length_cons]

theorem digitRun_split (base : Nat) : ∀ (bs : Bytes), ∃ ds r, bs = ds ++ r ∧ (∀ c ∈ ds, Digit base c) ∧ (∀ c, r.head? = some c → digitVal base c = none) := by
  intro bs
  induction bs with
  | nil => exact ⟨[], [], rfl, by simp, by simp⟩
  | cons c bs ih =>
    cases hc : digitVal base c with
    | none => exact ⟨[], c :: bs, rfl, by simp, by intro d hd; cases hd; exact hc⟩
    | some d =>
      obtain ⟨ds, r, rfl, h1, h2⟩ := ih
      refine ⟨c :: ds, r, rfl, ?_, h2⟩
      intro x hx
      rcases List.mem_cons.mp hx with rfl | hx
      · exact ⟨d, hc⟩
      · exact h1 x hx

theorem digit10 : ∀ c : UInt8, (Digit 10 c ↔ 48 ≤ c ∧ c ≤ 57) ∧ (Digit 10 c → digitVal 10 c = some (c.toNat - 48)) := by
  intro c
  unfold Digit digitVal
  by_cases h : (48 ≤ c && c ≤ 57) = true
  · rw [if_pos h]; simp only [Bool.and_eq_true, decide_eq_true_eq] at h; simp [h]
  · rw [if_neg h]
    simp only [Bool.and_eq_true, decide_eq_true_eq] at h
    simp [h]

theorem digit16 : ∀ c : UInt8, (Digit 16 c ↔ (48 ≤ c ∧ c ≤ 57) ∨ (65 ≤ c ∧ c ≤ 70) ∨ (97 ≤ c ∧ c ≤ 102)) ∧
    (Digit 16 c → digitVal 16 c = some (if c ≤ 57 then c.toNat - 48 else if c ≤ 70 then c.toNat - 55 else c.toNat - 87)) := by
  have key : ∀ n : Fin 256, (digitVal 16 (UInt8.ofNat n)).isSome = decide ((48 ≤ UInt8.ofNat n ∧ UInt8.ofNat n ≤ 57) ∨ (65 ≤ UInt8.ofNat n ∧ UInt8.ofNat n ≤ 70) ∨ (97 ≤ UInt8.ofNat n ∧ UInt8.ofNat n ≤ 102)) ∧
      ((digitVal 16 (UInt8.ofNat n)).isSome = true → digitVal 16 (UInt8.ofNat n) = some (if UInt8.ofNat n ≤ 57 then (UInt8.ofNat n).toNat - 48 else if UInt8.ofNat n ≤ 70 then (UInt8.ofNat n).toNat - 55 else (UInt8.ofNat n).toNat - 87)) := by
    decide +kernel
  intro c
  have hk := key ⟨c.toNat, c.toNat_lt⟩
  simp only [UInt8.ofNat_toNat] at hk
  have hd : Digit 16 c ↔ (digitVal 16 c).isSome = true := by rw [Option.isSome_iff_exists]; rfl
  rw [hd]
  refine ⟨?_, hk.2⟩
  rw [hk.1, decide_eq_true_eq]

theorem fold_place {base : Nat} {pl : Bytes → Nat} (h0 : pl [] = 0) (h1 : ∀ c r, Digit base c → pl (c :: r) = (digitVal base c).getD 0 * base ^ r.length + pl r) :
    ∀ (ds : Bytes) (acc : Nat), (∀ c ∈ ds, Digit base c) → ds.foldl (fun n c => n * base + (digitVal base c).getD 0) acc = acc * base ^ ds.length + pl ds := by
  intro ds
  induction ds with
  | nil => intro acc _; simp [h0]
  | cons c ds ih =>
    intro acc hd
    rw [List.foldl_cons, ih _ (fun x hx => hd x (List.mem_cons_of_mem _ hx)), h1 c ds (hd c List.mem_cons_self), List.length_cons, Nat.pow_succ, Nat.add_mul, Nat.mul_assoc, Nat.mul_comm base]
    omega

theorem fold10 (ds : Bytes) (h : ∀ c ∈ ds, Digit 10 c) : ds.foldl (fun n c => n * 10 + (digitVal 10 c).getD 0) 0 = RrdpXmlSpec.place ds := by
  rw [fold_place (pl := RrdpXmlSpec.place) rfl (fun c r hc => by rw [(digit10 c).2 hc]; rfl) ds 0 h]; omega

theorem fold16 (ds : Bytes) (h : ∀ c ∈ ds, Digit 16 c) : ds.foldl (fun n c => n * 16 + (digitVal 16 c).getD 0) 0 = hexPlace ds := by
  rw [fold_place (pl := hexPlace) rfl (fun c r hc => by rw [(digit16 c).2 hc]; rfl) ds 0 h]; omega

theorem charRef_iff (base k : Nat) (hb : digitVal base 59 = none) (r u : Bytes) (m : Nat) : charRef base k r = some (u, m) ↔
    ∃ ds t, r = ds ++ 59 :: t ∧ ds ≠ [] ∧ (∀ c ∈ ds, Digit base c) ∧ m = k + ds.length + 1 ∧ CharIs (ds.foldl (fun n c => n * base + (digitVal base c).getD 0) 0) u := by
  unfold charRef
  constructor
  · intro h
    obtain ⟨ds, t, rfl, h1, h2⟩ := digitRun_split base r
    simp only [digitRun_run base ds 0 t h1 h2] at h
    split at h
    · rename_i hc
      obtain ⟨c1, c2, c3⟩ := hc
      cases t with
      | nil => simp at c1
      | cons a t =>
        cases c1
        cases h
        exact ⟨ds, t, rfl, by rintro rfl; simp at c2, h1, rfl, (charIs_iff _ _).mpr ⟨c3, rfl⟩⟩
    · cases h
  · rintro ⟨ds, t, rfl, h1, h2, rfl, h3⟩
    obtain ⟨h4, rfl⟩ := (charIs_iff _ _).mp h3
    simp only [digitRun_run base ds 0 (59 :: t) h2 (by intro c hc; cases hc; exact hb)]
    rw [if_pos ⟨rfl, by simpa using h1, h4⟩]

theorem namedRef_iff (r u : Bytes) (m : Nat) : namedRef r = some (u, m) ↔
    ∃ n t c, r = n ++ 59 :: t ∧ (n, c) ∈ entities ∧ u = [c] ∧ m = n.length + 1 := by
  have ent : ∀ n c, entities.lookup n = some c ↔ (n, c) ∈ entities := by
    intro n c
    simp only [entities, List.lookup_cons, List.lookup_nil, List.mem_cons, List.not_mem_nil, or_false, Prod.mk.injEq]
    by_cases h1 : n = asc "lt".toList
    · subst h1; simp [asc]; constructor <;> exact fun h => h.symm
    · by_cases h2 : n = asc "gt".toList
      · subst h2; simp [asc]; constructor <;> exact fun h => h.symm
      · by_cases h3 : n = asc "amp".toList
        · subst h3; simp [asc]; constructor <;> exact fun h => h.symm
        · by_cases h4 : n = asc "apos".toList
          · subst h4; simp [asc]; constructor <;> exact fun h => h.symm
          · by_cases h5 : n = asc "quot".toList
            · subst h5; simp [asc]; constructor <;> exact fun h => h.symm
            · rw [beq_false_of_ne h1, beq_false_of_ne h2, beq_false_of_ne h3, beq_false_of_ne h4, beq_false_of_ne h5]
              refine ⟨fun h => (by cases h), ?_⟩
              rintro (⟨h, -⟩ | ⟨h, -⟩ | ⟨h, -⟩ | ⟨h, -⟩ | ⟨h, -⟩)
              · exact absurd h h1
              · exact absurd h h2
              · exact absurd h h3
              · exact absurd h h4
              · exact absurd h h5
  have nm : ∀ n c, (n, c) ∈ entities → ∀ x ∈ n, InName x := by
    have : ∀ y ∈ entities, ∀ x ∈ y.1, isNameByte x = true := by decide +kernel
    intro n c h x hx
    exact .inr ((isNameByte_iff x).mp (this _ h x hx))
  have h59 : ¬ InName 59 := by rw [← inName_iff]; decide
  unfold namedRef
  constructor
  · intro h
    cases hx : nameRun r with
    | none => rw [hx] at h; cases h
    | some x =>
      obtain ⟨n, r'⟩ := x
      rw [hx] at h
      simp only at h
      obtain ⟨rfl, h1, b, r2, rfl, h3⟩ := (nameRun_iff _ _ _).mp hx
      split at h
      · rename_i hc
        cases hc
        rw [Option.map_eq_some_iff] at h
        obtain ⟨c, h4, h5⟩ := h
        cases h5
        exact ⟨n, r2, c, rfl, (ent n c).mp h4, rfl, rfl⟩
      · cases h
  · rintro ⟨n, t, c, rfl, h1, rfl, rfl⟩
    rw [(nameRun_iff _ _ _).mpr ⟨rfl, nm n c h1, 59, t, rfl, h59⟩]
    simp [(ent n c).mpr h1]

theorem reference_iff (r u : Bytes) (m : Nat) : reference r = some (u, m) ↔ ∃ body t, r = body ++ t ∧ Ref u body ∧ m = body.length := by
  unfold reference
  by_cases h2 : r.take 2 = [35, 120]
  · obtain ⟨r, rfl⟩ : ∃ r', r = 35 :: 120 :: r' := by
      match r with
      | [] => simp at h2
      | [a] => simp at h2
      | a :: b :: r => simp at h2; obtain ⟨rfl, rfl⟩ := h2; exact ⟨r, rfl⟩
    rw [if_pos h2, List.drop_succ_cons, List.drop_succ_cons, List.drop_zero, charRef_iff 16 2 (by decide)]
    constructor
    · rintro ⟨ds, t, rfl, g1, g2, rfl, g3⟩
      rw [fold16 ds g2] at g3
      exact ⟨35 :: 120 :: ds ++ [59], t, by simp, .hex ds u g1 (fun c hc => ((digit16 c).1).mp (g2 c hc)) g3, by simp; omega⟩
    · rintro ⟨body, t, he, hb, rfl⟩
      cases hb with
      | lt => simp [asc] at he
      | gt => simp [asc] at he
      | amp => simp [asc] at he
      | apos => simp [asc] at he
      | quot => simp [asc] at he
      | dec ds _ hne hd hu =>
        exfalso
        cases ds with
        | nil => exact hne rfl
        | cons a ds =>
          simp at he
          have := hd a List.mem_cons_self
          rw [← he.1] at this
          exact absurd this.2 (by decide)
      | hex ds _ hne hd hu =>
        simp at he
        have hd' : ∀ c ∈ ds, Digit 16 c := fun c hc => ((digit16 c).1).mpr (hd c hc)
        exact ⟨ds, t, he, hne, hd', by simp; omega, by rw [fold16 ds hd']; exact hu⟩
  · rw [if_neg h2]
    by_cases h1 : r.take 1 = [35]
    · obtain ⟨r, rfl⟩ : ∃ r', r = 35 :: r' := by
        match r with
        | [] => simp at h1
        | a :: r => simp at h1; subst h1; exact ⟨r, rfl⟩
      rw [if_pos h1, List.drop_succ_cons, List.drop_zero, charRef_iff 10 1 (by decide)]
      constructor
      · rintro ⟨ds, t, rfl, g1, g2, rfl, g3⟩
        rw [fold10 ds g2] at g3
        exact ⟨35 :: ds ++ [59], t, by simp, .dec ds u g1 (fun c hc => ((digit10 c).1).mp (g2 c hc)) g3, by simp; omega⟩
      · rintro ⟨body, t, he, hb, rfl⟩
        cases hb with
        | lt => simp [asc] at he
        | gt => simp [asc] at he
        | amp => simp [asc] at he
        | apos => simp [asc] at he
        | quot => simp [asc] at he
        | dec ds _ hne hd hu =>
          simp at he
          have hd' : ∀ c ∈ ds, Digit 10 c := fun c hc => ((digit10 c).1).mpr (hd c hc)
          exact ⟨ds, t, he, hne, hd', by simp; omega, by rw [fold10 ds hd']; exact hu⟩
        | hex ds _ hne hd hu =>
          simp at he
          subst he
          simp at h2
    · rw [if_neg h1, namedRef_iff]
      constructor
      · rintro ⟨n, t, c, rfl, g1, rfl, rfl⟩
        refine ⟨n ++ [59], t, by simp, ?_, by simp⟩
        simp only [entities, List.mem_cons, List.not_mem_nil, or_false, Prod.mk.injEq] at g1
        rcases g1 with ⟨rfl, rfl⟩ | ⟨rfl, rfl⟩ | ⟨rfl, rfl⟩ | ⟨rfl, rfl⟩ | ⟨rfl, rfl⟩
        · exact .lt
        · exact .gt
        · exact .amp
        · exact .apos
        · exact .quot
      · rintro ⟨body, t, rfl, hb, rfl⟩
        cases hb with
        | lt => exact ⟨asc "lt".toList, t, 60, rfl, by decide, rfl, rfl⟩
        | gt => exact ⟨asc "gt".toList, t, 62, rfl, by decide, rfl, rfl⟩
        | amp => exact ⟨asc "amp".toList, t, 38, rfl, by decide, rfl, rfl⟩
        | apos => exact ⟨asc "apos".toList, t, 39, rfl, by decide, rfl, rfl⟩
        | quot => exact ⟨asc "quot".toList, t, 34, rfl, by decide, rfl, rfl⟩
        | dec ds _ hne hd hu => simp at h1
        | hex ds _ hne hd hu => simp at h1

/-! ### Text -/

theorem noEnd_step (a b c : UInt8) (w : Bytes) : NoEnd (a :: b :: c :: w) ↔ ¬ (a = 93 ∧ b = 93 ∧ c = 62) ∧ NoEnd (b :: c :: w) := by
  unfold NoEnd
  rw [List.infix_cons_iff, not_or]
  refine and_congr_left fun _ => not_congr ?_
  simp only [List.cons_prefix_cons, List.nil_prefix, and_true]
  exact ⟨fun ⟨h1, h2, h3⟩ => ⟨h1.symm, h2.symm, h3.symm⟩, fun ⟨h1, h2, h3⟩ => ⟨h1.symm, h2.symm, h3.symm⟩⟩

theorem noEnd_skip {c : UInt8} (hc : c ≠ 93) (w : Bytes) : NoEnd (c :: w) ↔ NoEnd w := by
  unfold NoEnd
  rw [List.infix_cons_iff, not_or]
  simp only [List.cons_prefix_cons]
  exact ⟨fun h => h.2, fun h => ⟨fun h2 => hc h2.1.symm, h⟩⟩

theorem noEnd_skip2 {c d : UInt8} (hd : d ≠ 93) (w : Bytes) : NoEnd (c :: d :: w) ↔ NoEnd w := by
  rw [← noEnd_skip hd w]
  unfold NoEnd
  rw [List.infix_cons_iff, not_or]
  simp only [List.cons_prefix_cons]
  exact ⟨fun h => h.2, fun h => ⟨fun h2 => hd h2.2.1.symm, h⟩⟩

theorem noEnd_pass : ∀ (u w : Bytes), (∀ c ∈ u, c ≠ 93) → (NoEnd (u ++ w) ↔ NoEnd w) := by
  intro u
  induction u with
  | nil => intro w _; rfl
  | cons c u ih =>
    intro w h
    rw [List.cons_append, noEnd_skip (h c List.mem_cons_self), ih w (fun x hx => h x (List.mem_cons_of_mem _ hx))]

theorem noEnd_two (a b : UInt8) : NoEnd [a, b] := by
  intro h
  have := h.length_le
  simp at this

theorem ref_octets {u body : Bytes} (h : Ref u body) : ∀ c ∈ body, c ≠ 93 := by
  have g : ∀ c : UInt8, c ≤ 57 ∨ (65 ≤ c ∧ c ≤ 70) ∨ (97 ≤ c ∧ c ≤ 102) → c ≠ 93 := by
    rintro c h rfl; revert h; decide
  cases h with
  | lt => decide
  | gt => decide
  | amp => decide
  | apos => decide
  | quot => decide
  | dec ds _ hne hd hu =>
    intro c hc
    rw [List.cons_append, List.mem_cons, List.mem_append, List.mem_singleton] at hc
    rcases hc with rfl | hc | rfl
    · decide
    · exact g c (.inl (hd c hc).2)
    · decide
  | hex ds _ hne hd hu =>
    intro c hc
    rw [List.cons_append, List.cons_append, List.mem_cons, List.mem_cons, List.mem_append, List.mem_singleton] at hc
    rcases hc with rfl | rfl | hc | rfl
    · decide
    · decide
    · rcases hd c hc with h | h | h
      · exact g c (.inl h.2)
      · exact g c (.inr (.inl h))
      · exact g c (.inr (.inr h))
    · decide

theorem noEnd_ref {u body : Bytes} (h : Ref u body) (a b : UInt8) (w : Bytes) : NoEnd (a :: b :: 38 :: (body ++ w)) ↔ NoEnd (0 :: 0 :: w) := by
  rw [noEnd_step, noEnd_skip2 (by decide), noEnd_pass _ _ (ref_octets h), noEnd_skip (by decide), noEnd_skip (by decide)]
  exact ⟨fun h => h.2, fun h => ⟨fun h2 => absurd h2.2.2 (by decide), h⟩⟩

theorem text_skip (q : Option UInt8) (b0 b1 : UInt8) : ∀ (u t : Bytes), text q u.length b0 b1 (u ++ t) = text q 0 b0 b1 t := by
  intro u
  induction u with
  | nil => intro t; rfl
  | cons c u ih => intro t; exact ih t

/-- Where a text ends and what is left. -/
def Stop : Option UInt8 → Bytes → Bytes → Prop
  | none, e, r => e = r ∧ (r = [] ∨ r.head? = some 60)
  | some c, e, r => e = c :: r ∨ (e = [] ∧ r = [])

def Quote (q : Option UInt8) : Prop := q = none ∨ q = some 34 ∨ q = some 39

theorem text_complete {q : Option UInt8} (hq : Quote q) {s w : Bytes} (h : Written q s w) : ∀ (b0 b1 : UInt8) (e r : Bytes), (q = none → NoEnd (b0 :: b1 :: w)) →
    (b1 = 13 → w.head? ≠ some 10) → Stop q e r → text q 0 b0 b1 (w ++ e) = some (s, r) := by
  have q13 : q ≠ some 13 := by rcases hq with rfl | rfl | rfl <;> decide
  have q10 : q ≠ some 10 := by rcases hq with rfl | rfl | rfl <;> decide
  have q38 : q ≠ some 38 := by rcases hq with rfl | rfl | rfl <;> decide
  have q60 : q ≠ some 60 := by rcases hq with rfl | rfl | rfl <;> decide
  induction h with
  | nil =>
    intro b0 b1 e r _ _ hs
    rw [List.nil_append]
    cases q with
    | none =>
      obtain ⟨rfl, rfl | hh⟩ := hs
      · rfl
      · cases e with
        | nil => cases hh
        | cons b e =>
          cases hh
          simp [text]
    | some c =>
      have hc : c ≠ 60 := fun h => q60 (by rw [h])
      rcases hs with rfl | ⟨rfl, rfl⟩
      · simp [text, hc]
      · rfl
  | oct b s t h1 h2 h3 h4 hs ih =>
    intro b0 b1 e r hn hl hst
    have := ih b1 b e r (fun hq => ((noEnd_step _ _ _ _).mp (hn hq)).2) (fun hb => absurd hb h3) hst
    have c1 : ¬ (q = none ∧ b0 = 93 ∧ b1 = 93 ∧ b = 62) := fun ⟨hq, hc⟩ => ((noEnd_step _ _ _ _).mp (hn hq)).1 hc
    have c2 : ¬ (b1 = 13 ∧ b = 10) := fun ⟨ha, hb⟩ => hl ha (by rw [hb]; rfl)
    rw [List.cons_append, text, if_neg c1, if_neg h1, if_neg h4, if_neg h2, if_neg h3, if_neg c2, this]
    rfl
  | crlf s t hs ih =>
    intro b0 b1 e r hn hl hst
    have := ih 13 10 e r (fun hq => ((noEnd_step _ _ _ _).mp ((noEnd_step _ _ _ _).mp (hn hq)).2).2) (fun hb => absurd hb (by decide)) hst
    rw [List.cons_append, text, if_neg (by rintro ⟨-, -, -, h⟩; exact absurd h (by decide)), if_neg (by decide), if_neg q13, if_neg (by decide), if_pos rfl, List.cons_append, text,
      if_neg (by rintro ⟨-, -, -, h⟩; exact absurd h (by decide)), if_neg (by decide), if_neg q10, if_neg (by decide), if_neg (by decide), if_pos ⟨rfl, rfl⟩, this]
    rfl
  | cr s t hh hs ih =>
    intro b0 b1 e r hn hl hst
    have := ih b1 13 e r (fun hq => ((noEnd_step _ _ _ _).mp (hn hq)).2) (fun _ => hh) hst
    rw [List.cons_append, text, if_neg (by rintro ⟨-, -, -, h⟩; exact absurd h (by decide)), if_neg (by decide), if_neg q13, if_neg (by decide), if_pos rfl, this]
    rfl
  | ref u body s t hr hs ih =>
    intro b0 b1 e r hn hl hst
    have := ih 0 0 e r (fun hq => (noEnd_ref hr _ _ _).mp (by simpa using hn hq)) (fun hb => absurd hb (by decide)) hst
    have href : reference (body ++ (t ++ e)) = some (u, body.length) := (reference_iff _ _ _).mpr ⟨body, t ++ e, rfl, hr, rfl⟩
    rw [List.cons_append, List.cons_append, List.append_assoc, text, if_neg (by rintro ⟨-, -, -, h⟩; exact absurd h (by decide)), if_neg (by decide), if_neg q38, if_pos rfl, href]
    simp only [text_skip, this, Option.map_some]

theorem text_sound {q : Option UInt8} (hq : Quote q) : ∀ (n : Nat) (bs : Bytes), bs.length ≤ n → ∀ (b0 b1 : UInt8) (s r : Bytes), text q 0 b0 b1 bs = some (s, r) →
    ∃ p w e, bs = p ++ e ∧ ((p = w ∧ (b1 = 13 → w.head? ≠ some 10)) ∨ (b1 = 13 ∧ p = 10 :: w)) ∧ Written q s w ∧ Stop q e r ∧ (q = none → NoEnd (b0 :: b1 :: p)) := by
  intro n
  induction n with
  | zero =>
    intro bs hl b0 b1 s r h
    have : bs = [] := List.length_eq_zero_iff.mp (by omega)
    subst this
    cases h
    refine ⟨[], [], [], rfl, .inl ⟨rfl, by simp⟩, .nil, ?_, fun _ => noEnd_two _ _⟩
    cases q with
    | none => exact ⟨rfl, .inl rfl⟩
    | some c => exact .inr ⟨rfl, rfl⟩
  | succ n ih =>
    intro bs hl b0 b1 s r h
    cases bs with
    | nil =>
      cases h
      refine ⟨[], [], [], rfl, .inl ⟨rfl, by simp⟩, .nil, ?_, fun _ => noEnd_two _ _⟩
      cases q with
      | none => exact ⟨rfl, .inl rfl⟩
      | some c => exact .inr ⟨rfl, rfl⟩
    | cons b bs =>
      rw [List.length_cons] at hl
      rw [text] at h
      split at h
      · cases h
      rename_i c1
      split at h
      · rename_i hb
        split at h
        · rename_i hqn
          cases h
          subst hqn
          exact ⟨[], [], b :: bs, rfl, .inl ⟨rfl, by simp⟩, .nil, ⟨rfl, .inr (by rw [hb]; rfl)⟩, fun _ => noEnd_two _ _⟩
        · cases h
      rename_i c2
      split at h
      · rename_i hqb
        cases h
        subst hqb
        exact ⟨[], [], b :: r, rfl, .inl ⟨rfl, by simp⟩, .nil, .inl rfl, fun h => by cases h⟩
      rename_i c3
      split at h
      · rename_i hb
        subst hb
        cases hr : reference bs with
        | none => rw [hr] at h; cases h
        | some x =>
          obtain ⟨u, m⟩ := x
          rw [hr] at h
          obtain ⟨body, t, rfl, href, rfl⟩ := (reference_iff _ _ _).mp hr
          simp only [text_skip, Option.map_eq_some_iff] at h
          obtain ⟨⟨s', r'⟩, h1, h2⟩ := h
          cases h2
          obtain ⟨p, w, e, rfl, g2, g3, g4, g5⟩ := ih t (by simp at hl; omega) _ _ _ _ h1
          obtain rfl : p = w := by
            rcases g2 with g2 | g2
            · exact g2.1
            · exact absurd g2.1 (by decide)
          exact ⟨38 :: body ++ p, 38 :: body ++ p, e, by simp, .inl ⟨rfl, fun _ => by simp⟩, .ref u body s' p href g3, g4, fun hq => by
            rw [List.cons_append]; exact (noEnd_ref href _ _ _).mpr (g5 hq)⟩
      rename_i c4
      have nop : ∀ p, (q = none → NoEnd (b1 :: b :: p)) → q = none → NoEnd (b0 :: b1 :: b :: p) := fun p hp hqn => (noEnd_step _ _ _ _).mpr ⟨fun hc => c1 ⟨hqn, hc⟩, hp hqn⟩
      split at h
      · rename_i hb
        rw [Option.map_eq_some_iff] at h
        obtain ⟨⟨s', r'⟩, h1, h2⟩ := h
        cases h2
        obtain ⟨p, w, e, rfl, g2, g3, g4, g5⟩ := ih bs (by omega) _ _ _ _ h1
        subst hb
        refine ⟨13 :: p, 13 :: p, e, rfl, .inl ⟨rfl, fun _ => by simp⟩, ?_, g4, nop p g5⟩
        rcases g2 with ⟨rfl, g2⟩ | ⟨-, rfl⟩
        · exact .cr _ _ (g2 rfl) g3
        · exact .crlf _ _ g3
      rename_i c5
      split at h
      · rename_i hb
        obtain ⟨hb1, hb⟩ := hb
        obtain ⟨p, w, e, rfl, g2, g3, g4, g5⟩ := ih bs (by omega) _ _ _ _ h
        obtain rfl : p = w := by
          rcases g2 with g2 | g2
          · exact g2.1
          · rw [hb] at g2; exact absurd g2.1 (by decide)
        exact ⟨b :: p, p, e, rfl, .inr ⟨hb1, by rw [hb]⟩, g3, g4, nop p g5⟩
      rename_i c6
      rw [Option.map_eq_some_iff] at h
      obtain ⟨⟨s', r'⟩, h1, h2⟩ := h
      cases h2
      obtain ⟨p, w, e, rfl, g2, g3, g4, g5⟩ := ih bs (by omega) _ _ _ _ h1
      obtain rfl : p = w := by
        rcases g2 with g2 | g2
        · exact g2.1
        · exact absurd g2.1 c5
      exact ⟨b :: p, b :: p, e, rfl, .inl ⟨rfl, fun hb1 hb => c6 ⟨hb1, by simpa using hb⟩⟩, .oct b s' p c2 c4 c5 c3 g3, g4, nop p g5⟩

/-! ### The characters of a text -/

theorem utf8_number {n m : Nat} {u : Bytes} (h : Utf8 n u) (h' : Utf8 m u) : n = m := by
  have e : ∀ a b : Nat, a < 256 → b < 256 → a.toUInt8 = b.toUInt8 → a = b := by
    intro a b ha hb h
    have := congrArg UInt8.toNat h
    simpa [Nat.toUInt8, UInt8.toNat_ofNat, Nat.mod_eq_of_lt ha, Nat.mod_eq_of_lt hb] using this
  cases h with
  | one h =>
    generalize hu : [n.toUInt8] = u at h'
    cases h' with
    | one h2 => simp only [List.cons.injEq, and_true] at hu; exact e _ _ (by omega) (by omega) hu
    | two h2 => simp at hu
    | three h2 => simp at hu
    | four h2 => simp at hu
  | two h =>
    generalize hu : [(0xc0 + n / 64).toUInt8, (0x80 + n % 64).toUInt8] = u at h'
    cases h' with
    | one h2 => simp at hu
    | two h2 =>
      simp only [List.cons.injEq, and_true] at hu
      have h1 := e _ _ (by omega) (by omega) hu.1
      have h2 := e _ _ (by omega) (by omega) hu.2
      omega
    | three h2 => simp at hu
    | four h2 => simp at hu
  | three h =>
    generalize hu : [(0xe0 + n / 4096).toUInt8, (0x80 + n / 64 % 64).toUInt8, (0x80 + n % 64).toUInt8] = u at h'
    cases h' with
    | one h2 => simp at hu
    | two h2 => simp at hu
    | three h2 =>
      simp only [List.cons.injEq, and_true] at hu
      have h1 := e _ _ (by omega) (by omega) hu.1
      have h2 := e _ _ (by omega) (by omega) hu.2.1
      have h3 := e _ _ (by omega) (by omega) hu.2.2
      omega
    | four h2 => simp at hu
  | four h =>
    generalize hu : [(0xf0 + n / 262144).toUInt8, (0x80 + n / 4096 % 64).toUInt8, (0x80 + n / 64 % 64).toUInt8, (0x80 + n % 64).toUInt8] = u at h'
    cases h' with
    | one h2 => simp at hu
    | two h2 => simp at hu
    | three h2 => simp at hu
    | four h2 =>
      simp only [List.cons.injEq, and_true] at hu
      have h1 := e _ _ (by omega) (by omega) hu.1
      have h2 := e _ _ (by omega) (by omega) hu.2.1
      have h3 := e _ _ (by omega) (by omega) hu.2.2.1
      have h4 := e _ _ (by omega) (by omega) hu.2.2.2
      omega

theorem utf8_fffe : Utf8 0xfffe [0xef, 0xbf, 0xbe] := Utf8.three 0xfffe (by omega) (by unfold Scalar; omega)
theorem utf8_ffff : Utf8 0xffff [0xef, 0xbf, 0xbf] := Utf8.three 0xffff (by omega) (by unfold Scalar; omega)

theorem utf8_max {n : Nat} {u : Bytes} (h : Utf8 n u) : n ≤ 0x10ffff ∧ ¬ (0xd800 ≤ n ∧ n ≤ 0xdfff) := by
  cases h with
  | one h => omega
  | two h => omega
  | three h hs => unfold Scalar at hs; omega
  | four h => omega

theorem take3_iff {n m : Nat} {u s v : Bytes} (h : Utf8 n u) (hm : Utf8 m v) (hv : v.length = 3) : (u ++ s).take 3 = v ↔ n = m := by
  constructor
  · intro ht
    have e : u ++ s = v ++ (u ++ s).drop 3 := by rw [← ht, List.take_append_drop]
    obtain ⟨rfl, -⟩ := Json.utf8_front h hm e
    exact utf8_number h hm
  · rintro rfl
    have e : u = v := by rw [← Json.encodeRune_utf8 h, Json.encodeRune_utf8 hm]
    rw [e, ← hv, List.take_left]

theorem charsOk_skip : ∀ (u t : Bytes), charsOk u.length (u ++ t) = charsOk 0 t := by
  intro u
  induction u with
  | nil => intro t; rfl
  | cons c u ih => intro t; exact ih t

/-- One character at the front. -/
theorem charsOk_char {n : Nat} {u : Bytes} (h : Utf8 n u) (s : Bytes) : charsOk 0 (u ++ s) = true ↔ XChar n ∧ charsOk 0 s = true := by
  by_cases hn : n < 0x80
  · obtain ⟨rfl, e⟩ := Json.utf8_ascii h hn
    have hlt : n.toUInt8 < 0x80 := by rw [UInt8.lt_iff_toNat_lt, e]; exact hn
    rw [List.singleton_append, charsOk, if_pos hlt, Bool.and_eq_true]
    refine and_congr_left fun _ => ?_
    have eq : ∀ k : UInt8, n.toUInt8 = k ↔ n = k.toNat := fun k => by rw [← UInt8.toNat_inj, e]
    simp only [asciiOk, Bool.or_eq_true, beq_iff_eq, decide_eq_true_eq, eq, UInt8.le_iff_toNat_le, e, XChar]
    show ((n = 9 ∨ n = 10) ∨ n = 13) ∨ 32 ≤ n ↔ _
    omega
  · obtain ⟨b, v, rfl, hb, -, hl⟩ := Json.utf8_multi h (by omega) s
    have t1 := take3_iff (s := s) h utf8_fffe rfl
    have t2 := take3_iff (s := s) h utf8_ffff rfl
    rw [List.cons_append] at hl t1 t2 ⊢
    rw [charsOk, if_neg (UInt8.not_lt.mpr hb), hl]
    simp only [List.length_cons, Nat.add_sub_cancel, charsOk_skip, Bool.and_eq_true, bne_iff_ne, ne_eq, t1, t2]
    refine and_congr_left fun _ => ?_
    have := utf8_max h
    unfold XChar
    omega

theorem charsOk_iff : ∀ (n : Nat) (s : Bytes), s.length ≤ n → (charsOk 0 s = true ↔ XText s) := by
  intro n
  induction n with
  | zero =>
    intro s hl
    have : s = [] := List.length_eq_zero_iff.mp (by omega)
    subst this
    exact ⟨fun _ => .nil, fun _ => rfl⟩
  | succ n ih =>
    intro s hl
    constructor
    · intro h
      cases s with
      | nil => exact .nil
      | cons b s =>
        obtain ⟨m, u, t, e, hu⟩ : ∃ m u t, b :: s = u ++ t ∧ Utf8 m u := by
          by_cases hb : b < 0x80
          · exact ⟨b.toNat, [b.toNat.toUInt8], s, by simp, .one _ (by rw [UInt8.lt_iff_toNat_lt] at hb; exact hb)⟩
          · rw [charsOk, if_neg hb] at h
            cases hr : Json.runeLen (b :: s) with
            | none => rw [hr] at h; cases h
            | some k =>
              obtain ⟨c, u, t, e, -, hu, -⟩ := Json.runeLen_sound hr
              exact ⟨c, u, t, e, hu⟩
        rw [e] at h ⊢
        obtain ⟨h1, h2⟩ := (charsOk_char hu t).mp h
        have hlen : t.length ≤ n := by
          have := congrArg List.length e
          have hne := List.length_pos_iff.mpr (Json.utf8_ne_nil hu)
          simp at this hl
          omega
        exact .cons m u t hu h1 ((ih t hlen).mp h2)
    · intro h
      cases h with
      | nil => rfl
      | cons m u t hu hx ht =>
        have hlen : t.length ≤ n := by
          have hne := List.length_pos_iff.mpr (Json.utf8_ne_nil hu)
          simp at hl
          omega
        exact (charsOk_char hu t).mpr ⟨hx, (ih t hlen).mpr ht⟩

theorem checked_iff (x : Option (Bytes × Bytes)) (s r : Bytes) : checked x = some (s, r) ↔ x = some (s, r) ∧ XText s := by
  unfold checked
  rw [Option.filter_eq_some_iff, charsOk_iff _ s (Nat.le_refl _)]

/-- Text outside of tags. -/
theorem plain_iff (bs s r : Bytes) : checked (text none 0 0 0 bs) = some (s, r) ↔
    ∃ w, bs = w ++ r ∧ Written none s w ∧ NoEnd w ∧ XText s ∧ (r = [] ∨ r.head? = some 60) := by
  rw [checked_iff]
  constructor
  · rintro ⟨h, hx⟩
    obtain ⟨p, w, e, rfl, h2, h3, ⟨rfl, h4⟩, h5⟩ := text_sound (.inl rfl) _ _ (Nat.le_refl _) _ _ _ _ h
    rcases h2 with ⟨rfl, -⟩ | ⟨h2, -⟩
    · have := h5 rfl
      rw [noEnd_skip (by decide), noEnd_skip (by decide)] at this
      exact ⟨p, rfl, h3, this, hx, h4⟩
    · exact absurd h2 (by decide)
  · rintro ⟨w, rfl, h1, h2, hx, h3⟩
    exact ⟨text_complete (.inl rfl) h1 0 0 r r (fun _ => by rw [noEnd_skip (by decide), noEnd_skip (by decide)]; exact h2) (fun h => absurd h (by decide)) ⟨rfl, h3⟩, hx⟩

/-- The value of an attribute; nothing can follow when its end is missing. -/
theorem attrval_iff (bs v r : Bytes) : attrval bs = some (v, r) ↔
    ∃ q t e, bs = q :: t ++ e ∧ (q = 34 ∨ q = 39) ∧ Written (some q) v t ∧ XText v ∧ (e = q :: r ∨ (e = [] ∧ r = [])) := by
  cases bs with
  | nil => simp [attrval]
  | cons q bs =>
    rw [attrval]
    constructor
    · intro h
      split at h
      · rename_i hq
        obtain ⟨h, hx⟩ := (checked_iff _ _ _).mp h
        have hQ : Quote (some q) := by rcases hq with rfl | rfl <;> simp [Quote]
        obtain ⟨p, w, e, rfl, h2, h3, h4, -⟩ := text_sound hQ _ _ (Nat.le_refl _) _ _ _ _ h
        rcases h2 with ⟨rfl, -⟩ | ⟨h2, -⟩
        · exact ⟨q, p, e, rfl, hq, h3, hx, h4⟩
        · exact absurd h2 (by decide)
      · cases h
    · rintro ⟨q', t, e, he, hq, h1, hx, h2⟩
      rw [List.cons_append] at he
      obtain ⟨rfl, rfl⟩ := List.cons.inj he
      rw [if_pos hq, checked_iff]
      have hQ : Quote (some q) := by rcases hq with rfl | rfl <;> simp [Quote]
      exact ⟨text_complete hQ h1 0 0 e r (fun h => by cases h) (fun h => absurd h (by decide)) h2, hx⟩

/-! ### Tags -/

theorem not_inName {c : UInt8} (h : (c < 0x80 && !isNameByte c) = true) : ¬ InName c := (inName_iff c).mp h

theorem ws_not_inName {c : UInt8} (h : c = 32 ∨ c = 9 ∨ c = 10 ∨ c = 13) : ¬ InName c := by
  rcases h with rfl | rfl | rfl | rfl <;> exact not_inName (by decide)

theorem inName_not_ws {c : UInt8} (h : InName c) : isWs c = false := by
  by_contra hc
  exact ws_not_inName ((isWs_iff c).mp (by simpa using hc)) h

/-- The octet behind a name, when white space and then `d` follow. -/
theorem white_behind {w : Bytes} (hw : White w) {d : UInt8} (hd : ¬ InName d) (t : Bytes) : ∃ b r, w ++ d :: t = b :: r ∧ ¬ InName b := by
  cases w with
  | nil => exact ⟨d, t, rfl, hd⟩
  | cons c w => exact ⟨c, w ++ d :: t, rfl, ws_not_inName (hw c List.mem_cons_self)⟩

theorem space_to {w : Bytes} (hw : White w) {d : UInt8} (hd : isWs d = false) (t : Bytes) : space (w ++ d :: t) = d :: t :=
  space_white w _ hw (by intro c hc; cases hc; exact hd)

theorem nameText_cons {lib : Lib} {n : Bytes} (h : NameText lib n) : ∃ a m, n = a :: m ∧ InName a := by
  cases n with
  | nil => exact absurd rfl h.ne
  | cons a m => exact ⟨a, m, rfl, h.octets a List.mem_cons_self⟩

theorem head_cons {α : Type} {l : List α} {a : α} (h : l.head? = some a) : l = a :: l.drop 1 := by
  cases l with
  | nil => cases h
  | cons b l => cases h; rfl

theorem attrOne_iff (lib : Lib) (bs : Bytes) (k : QName) (v r : Bytes) : attrOne lib bs = some ((k, v), r) ↔
    ∃ n w1 w2 qn q t e, bs = n ++ w1 ++ 61 :: w2 ++ q :: t ++ e ∧ NameText lib n ∧ QNameIs n qn ∧ k = qn ∧ White w1 ∧ White w2 ∧ (q = 34 ∨ q = 39) ∧ Written (some q) v t ∧ XText v ∧
      (e = q :: r ∨ (e = [] ∧ r = [])) := by
  unfold attrOne
  constructor
  · intro h
    cases hn : name lib bs with
    | none => rw [hn] at h; cases h
    | some x =>
      obtain ⟨n, r1⟩ := x
      rw [hn] at h
      obtain ⟨rfl, g1, -⟩ := (name_iff _ _ _ _).mp hn
      simp only at h
      split at h
      · rename_i hh
        rw [Option.map_eq_some_iff] at h
        obtain ⟨⟨v', r'⟩, h1, h2⟩ := h
        cases h2
        obtain ⟨q, t, e, g2, g3, g4, g5, g6⟩ := (attrval_iff _ _ _).mp h1
        obtain ⟨w1, e1, k1, -⟩ := space_split r1
        obtain ⟨w2, e2, k2, -⟩ := space_split ((space r1).drop 1)
        refine ⟨n, w1, w2, split n, q, t, e, ?_, g1, (split_iff _ _).mp rfl, rfl, k1, k2, g3, g4, g5, g6⟩
        have e3 : r1 = w1 ++ 61 :: (w2 ++ (q :: t ++ e)) := by rw [← g2, ← e2, ← head_cons hh]; exact e1
        rw [e3]
        simp
      · cases h
  · rintro ⟨n, w1, w2, qn, q, t, e, rfl, g1, g2, rfl, g3, g4, g5, g6, g7, g8⟩
    have e1 : n ++ w1 ++ 61 :: w2 ++ q :: t ++ e = n ++ (w1 ++ 61 :: (w2 ++ q :: (t ++ e))) := by simp
    obtain ⟨b, r', hb, hb2⟩ := white_behind g3 (d := 61) (not_inName (by decide)) (w2 ++ q :: (t ++ e))
    rw [e1, (name_iff _ _ _ _).mpr ⟨rfl, g1, b, r', hb, hb2⟩]
    have hq : isWs q = false := by rcases g5 with rfl | rfl <;> decide
    simp only [space_to g3 (d := 61) (by decide), List.head?_cons, if_true, List.drop_succ_cons, List.drop_zero, space_to g4 hq]
    rw [(attrval_iff (q :: (t ++ e)) v r).mpr ⟨q, t, e, rfl, g5, g6, g7, g8⟩, (split_iff n _).mpr g2]
    rfl

/-- The octets that end a start tag. -/
def tagEnd (empty : Bool) : Bytes := if empty then [47, 62] else [62]

theorem attrs_sound (lib : Lib) : ∀ (f : Nat) (bs : Bytes) (as : List (QName × Bytes)) (empty : Bool) (r : Bytes), attrs lib f bs = some (as, empty, r) →
    ∃ a, bs = a ++ tagEnd empty ++ r ∧ AttrsIs lib as a := by
  intro f
  induction f with
  | zero => intro bs as empty r h; cases h
  | succ f ih =>
    intro bs as empty r h
    obtain ⟨w, e1, hw, hws⟩ := space_split bs
    rw [attrs] at h
    split at h
    · split at h
      · rename_i h47 ht
        cases h
        refine ⟨w, ?_, .nil w hw⟩
        rw [e1, tagEnd, if_pos rfl, List.append_assoc]
        congr 1
        rw [← ht]
        simp [space_white w _ hw hws]
      · cases h
    · split at h
      · rename_i h62
        cases h
        refine ⟨w, ?_, .nil w hw⟩
        rw [tagEnd, if_neg (by decide), List.append_assoc, List.singleton_append, ← head_cons h62]; exact e1
      · cases ho : attrOne lib (space bs) with
        | none => rw [ho] at h; cases h
        | some x =>
          obtain ⟨⟨k, v⟩, r1⟩ := x
          rw [ho] at h
          simp only [Option.map_eq_some_iff] at h
          obtain ⟨⟨as', em, r2⟩, h1, h2⟩ := h
          cases h2
          obtain ⟨n, w1, w2, qn, q, t, e, g0, g1, g2, rfl, g3, g4, g5, g6, g7, g8⟩ := (attrOne_iff _ _ _ _ _).mp ho
          obtain ⟨a, rfl, ha⟩ := ih _ _ _ _ h1
          rcases g8 with rfl | ⟨-, hnil⟩
          · refine ⟨w ++ n ++ w1 ++ 61 :: w2 ++ q :: t ++ q :: a, ?_, .cons w n w1 w2 _ q v t as' a hw g1 g2 g3 g4 g5 g6 g7 ha⟩
            rw [e1, g0]
            simp
          · exfalso
            have : tagEnd empty ≠ [] := by unfold tagEnd; split <;> simp
            simp at hnil
            exact this hnil.2.1

theorem attrs_complete (lib : Lib) {as : List (QName × Bytes)} {a : Bytes} (h : AttrsIs lib as a) : ∀ (f : Nat) (empty : Bool) (r : Bytes), as.length < f →
    attrs lib f (a ++ tagEnd empty ++ r) = some (as, empty, r) := by
  induction h with
  | nil w hw =>
    intro f empty r hf
    obtain ⟨f, rfl⟩ : ∃ g, f = g + 1 := ⟨f - 1, by simp at hf; omega⟩
    rw [attrs, List.append_assoc]
    cases empty with
    | true =>
      have : space (w ++ (tagEnd true ++ r)) = 47 :: 62 :: r := space_to hw (by decide) _
      rw [this]
      simp
    | false =>
      have : space (w ++ (tagEnd false ++ r)) = 62 :: r := space_to hw (by decide) _
      rw [this]
      simp
  | cons w n w1 w2 qn q v t as' r' hw hn hqn h1 h2 hq hv hx hr ih =>
    intro f empty r hf
    rw [List.length_cons] at hf
    obtain ⟨f, rfl⟩ : ∃ g, f = g + 1 := ⟨f - 1, by omega⟩
    obtain ⟨c, m, rfl, hc⟩ := nameText_cons hn
    have e1 : w ++ (c :: m) ++ w1 ++ 61 :: w2 ++ q :: t ++ q :: r' ++ tagEnd empty ++ r = w ++ c :: (m ++ w1 ++ 61 :: w2 ++ q :: t ++ q :: (r' ++ tagEnd empty ++ r)) := by simp
    have c47 : c ≠ 47 := by rintro rfl; exact not_inName (by decide) hc
    have c62 : c ≠ 62 := by rintro rfl; exact not_inName (by decide) hc
    rw [attrs, e1, space_to hw (inName_not_ws hc), List.head?_cons, if_neg (by simpa using c47), if_neg (by simpa using c62)]
    have e2 : c :: (m ++ w1 ++ 61 :: w2 ++ q :: t ++ q :: (r' ++ tagEnd empty ++ r)) = (c :: m) ++ w1 ++ 61 :: w2 ++ q :: t ++ q :: (r' ++ tagEnd empty ++ r) := by simp
    rw [(attrOne_iff lib _ qn v (r' ++ tagEnd empty ++ r)).mpr ⟨c :: m, w1, w2, qn, q, t, _, e2, hn, hqn, rfl, h1, h2, hq, hv, hx, .inl rfl⟩]
    simp only [ih f empty r (by omega), Option.map_some]

theorem attrs_length {lib : Lib} {as : List (QName × Bytes)} {a : Bytes} (h : AttrsIs lib as a) : as.length ≤ a.length := by
  induction h with
  | nil w _ => simp
  | cons w n w1 w2 qn q v t as' r' hw hn hqn h1 h2 hq hv hx hr ih =>
    simp only [List.length_cons, List.length_append]
    omega

/-- What follows a name in a start tag is not of the name. -/
theorem apart_behind {a : Bytes} (h : Apart a) (empty : Bool) (r : Bytes) : ∃ b r', a ++ tagEnd empty ++ r = b :: r' ∧ ¬ InName b := by
  cases a with
  | nil => cases empty
           · exact ⟨62, r, rfl, not_inName (by decide)⟩
           · exact ⟨47, 62 :: r, rfl, not_inName (by decide)⟩
  | cons c a => exact ⟨c, a ++ tagEnd empty ++ r, rfl, ws_not_inName (h c rfl)⟩

theorem apart_of {lib : Lib} {as : List (QName × Bytes)} {a : Bytes} (ha : AttrsIs lib as a) (e r : Bytes) (h : ∃ b r', a ++ e ++ r = b :: r' ∧ ¬ InName b) : Apart a := by
  intro c hc
  have wh : ∀ w : Bytes, White w → w.head? = some c → c = 32 ∨ c = 9 ∨ c = 10 ∨ c = 13 := by
    intro w hw h
    cases w with
    | nil => cases h
    | cons d w => cases h; exact hw _ List.mem_cons_self
  cases ha with
  | nil w hw => exact wh a hw hc
  | cons w n w1 w2 qn q v t as' r' hw hn hqn h1 h2 hq hv hx hr =>
    cases w with
    | cons d w => exact wh (d :: w) hw (by simpa using hc)
    | nil =>
      exfalso
      obtain ⟨d, m, rfl, hd⟩ := nameText_cons hn
      obtain ⟨b, r2, hb, hb2⟩ := h
      simp only [List.nil_append, List.cons_append, List.cons.injEq] at hb
      exact hb2 (hb.1 ▸ hd)

theorem rawStart_iff (lib : Lib) (bs r : Bytes) (t : Raw) : rawStart lib bs = some (t, r) ↔
    ∃ n a qn as empty, bs = n ++ a ++ tagEnd empty ++ r ∧ NameText lib n ∧ QNameIs n qn ∧ AttrsIs lib as a ∧ Apart a ∧ t = .start qn as empty := by
  unfold rawStart
  constructor
  · intro h
    cases hn : name lib bs with
    | none => rw [hn] at h; cases h
    | some x =>
      obtain ⟨n, r1⟩ := x
      rw [hn] at h
      simp only [Option.map_eq_some_iff] at h
      obtain ⟨⟨as, em, r2⟩, h1, h2⟩ := h
      cases h2
      obtain ⟨rfl, g1, g2⟩ := (name_iff _ _ _ _).mp hn
      obtain ⟨a, rfl, ha⟩ := attrs_sound lib _ _ _ _ _ h1
      exact ⟨n, a, split n, as, em, by simp, g1, (split_iff _ _).mp rfl, ha, apart_of ha _ _ g2, rfl⟩
  · rintro ⟨n, a, qn, as, em, rfl, h1, h2, h3, h4, rfl⟩
    have e : n ++ a ++ tagEnd em ++ r = n ++ (a ++ tagEnd em ++ r) := by simp
    rw [e, (name_iff _ _ _ _).mpr ⟨rfl, h1, apart_behind h4 em r⟩]
    have hl : as.length < (a ++ tagEnd em ++ r).length + 1 := by
      have := attrs_length h3
      simp only [List.length_append]; omega
    simp only [attrs_complete lib h3 _ em r hl, Option.map_some, (split_iff n qn).mpr h2]

theorem rawStop_iff (lib : Lib) (bs r : Bytes) (t : Raw) : rawStop lib bs = some (t, r) ↔
    ∃ n w qn, bs = n ++ w ++ [62] ++ r ∧ NameText lib n ∧ QNameIs n qn ∧ White w ∧ t = .stop qn := by
  unfold rawStop
  constructor
  · intro h
    cases hn : name lib bs with
    | none => rw [hn] at h; cases h
    | some x =>
      obtain ⟨n, r1⟩ := x
      rw [hn] at h
      simp only at h
      split at h
      · rename_i hh
        cases h
        obtain ⟨rfl, g1, g2⟩ := (name_iff _ _ _ _).mp hn
        obtain ⟨w, e1, hw, -⟩ := space_split r1
        refine ⟨n, w, split n, ?_, g1, (split_iff _ _).mp rfl, hw, rfl⟩
        have e3 : r1 = w ++ 62 :: (space r1).drop 1 := by rw [← head_cons hh]; exact e1
        rw [List.append_assoc, List.append_assoc, List.singleton_append, ← e3]
      · cases h
  · rintro ⟨n, w, qn, rfl, h1, h2, h3, rfl⟩
    have e : n ++ w ++ [62] ++ r = n ++ (w ++ 62 :: r) := by simp
    obtain ⟨b, r', hb, hb2⟩ := white_behind h3 (d := 62) (not_inName (by decide)) r
    rw [e, (name_iff _ _ _ _).mpr ⟨rfl, h1, b, r', hb, hb2⟩]
    simp only [space_to h3 (d := 62) (by decide), List.head?_cons, if_true, List.drop_succ_cons, List.drop_zero, (split_iff n qn).mpr h2]

end Verif.XmlScan
