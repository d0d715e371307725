import Verif.Model.NetText
import Verif.Lemmas.Net
/-
  Reading what was printed: numbers, addresses, prefixes.
-/
set_option autoImplicit false

namespace Verif.Net

theorem digitVal_char {b d : Nat} (hb : b = 10 ∨ b = 16) (hd : d < b) : digitVal b (digitChar d) = some d := by
  have h : ∀ d, d < 16 → digitVal 16 (digitChar d) = some d := by decide +kernel
  have h' : ∀ d, d < 10 → digitVal 10 (digitChar d) = some d := by decide +kernel
  rcases hb with rfl | rfl
  · exact h' d hd
  · exact h d hd

theorem digitsFuel_ne_nil {b f n : Nat} : digitsFuel b (f + 1) n ≠ [] := by
  simp only [digitsFuel]
  split <;> simp

theorem readLoop_digits {b : Nat} (hb : b = 10 ∨ b = 16) : ∀ (f n : Nat) (tail : Bytes), n < b ^ f → n < 0xffffff →
    f ≠ 0 → readLoop b 0 (digitsFuel b f n ++ tail) = readLoop b n tail := by
  have hb0 : 1 < b := by rcases hb with rfl | rfl <;> omega
  have step : ∀ (acc d : Nat) (tail : Bytes), d < b → acc * b + d < 0xffffff →
      readLoop b acc (digitChar d :: tail) = readLoop b (acc * b + d) tail := by
    intro acc d tail hd h
    simp only [readLoop, digitVal_char hb hd]
    rw [if_neg (by omega)]
  intro f
  induction f with
  | zero => intro n tail _ _ h; exact absurd rfl h
  | succ f ih =>
    intro n tail hn hl _
    simp only [digitsFuel]
    split
    · rename_i h
      simp only [List.cons_append, List.nil_append]
      rw [step 0 n tail h (by omega)]
      congr 1
      omega
    · rename_i h
      have hdiv : n / b < b ^ f := by
        rw [Nat.div_lt_iff_lt_mul (by omega)]
        rwa [Nat.pow_succ] at hn
      have hf : f ≠ 0 := by
        rintro rfl
        simp at hdiv
        omega
      have hle : n / b ≤ n := Nat.div_le_self n b
      rw [List.append_assoc, ih (n / b) _ hdiv (by omega) hf]
      have hm : n % b < b := Nat.mod_lt _ (by omega)
      have he : n / b * b + n % b = n := by rw [Nat.mul_comm]; exact Nat.div_add_mod n b
      rw [List.cons_append, List.nil_append, step _ _ _ hm (by omega), he]

theorem lt_pow_log2 {b : Nat} (hb : b = 10 ∨ b = 16) (n : Nat) : n < b ^ (n.log2 + 1) := by
  have h := Nat.lt_log2_self (n := n)
  refine Nat.lt_of_lt_of_le h (Nat.pow_le_pow_left ?_ _)
  rcases hb with rfl | rfl <;> omega

/-- The text does not go on with a digit. -/
def NoDigit (b : Nat) (s : Bytes) : Prop := ∀ c r, s = c :: r → digitVal b c = none

theorem readLoop_end {b n : Nat} {tail : Bytes} (h : NoDigit b tail) : readLoop b n tail = some (n, tail) := by
  cases tail with
  | nil => rfl
  | cons c r => simp only [readLoop, h c r rfl]

/-- All characters are digits. -/
theorem digits_all {b : Nat} (hb : b = 10 ∨ b = 16) : ∀ (f n : Nat), ∀ c ∈ digitsFuel b f n, ∃ d, d < b ∧ c = digitChar d := by
  have hb0 : 0 < b := by rcases hb with rfl | rfl <;> omega
  intro f
  induction f with
  | zero => intro n c hc; simp [digitsFuel] at hc
  | succ f ih =>
    intro n c hc
    simp only [digitsFuel] at hc
    split at hc
    · rename_i h
      simp at hc
      exact ⟨n, h, hc⟩
    · simp at hc
      rcases hc with hc | hc
      · exact ih _ c hc
      · exact ⟨_, Nat.mod_lt _ hb0, hc⟩

theorem numText_ne_nil {b n : Nat} : numText b n ≠ [] := digitsFuel_ne_nil

theorem readNum_numText {b n : Nat} {tail : Bytes} (hb : b = 10 ∨ b = 16) (hn : n < 0xffffff) (ht : NoDigit b tail) :
    readNum b (numText b n ++ tail) = some (n, tail) := by
  cases hs : numText b n with
  | nil => exact absurd hs numText_ne_nil
  | cons c s =>
    have hc : digitVal b c ≠ none := by
      obtain ⟨d, hd, rfl⟩ := digits_all hb (n.log2 + 1) n c (by unfold numText at hs; rw [hs]; simp)
      rw [digitVal_char hb hd]
      simp
    rw [List.cons_append, readNum, if_neg hc, ← List.cons_append, ← hs]
    unfold numText
    rw [readLoop_digits hb _ _ _ (lt_pow_log2 hb n) hn (by omega), readLoop_end ht]

theorem digitsFuel_head {b : Nat} (hb : b = 10 ∨ b = 16) : ∀ (f n : Nat), n < b ^ f → (digitsFuel b f n).head? = some 48 → n = 0 := by
  have hz : ∀ d, d < 16 → digitChar d = 48 → d = 0 := by decide +kernel
  have hb0 : 1 < b ∧ b ≤ 16 := by rcases hb with rfl | rfl <;> omega
  intro f
  induction f with
  | zero => intro n _ h; simp [digitsFuel] at h
  | succ f ih =>
    intro n hn h
    simp only [digitsFuel] at h
    split at h
    · rename_i hlt
      simp at h
      exact hz n (by omega) h
    · rename_i hge
      have hdiv : n / b < b ^ f := by
        rw [Nat.div_lt_iff_lt_mul (by omega)]
        rwa [Nat.pow_succ] at hn
      have hpos : 0 < n / b := Nat.div_pos (by omega) (by omega)
      have : (digitsFuel b f (n / b)).head? = some 48 := by
        cases hd : digitsFuel b f (n / b) with
        | nil =>
          cases f with
          | zero => simp at hdiv; omega
          | succ f => exact absurd hd digitsFuel_ne_nil
        | cons c r => rw [hd] at h; simpa using h
      have := ih _ hdiv this
      omega

theorem numText_zero {b : Nat} (hb : b = 10 ∨ b = 16) : numText b 0 = [48] := by
  rcases hb with rfl | rfl <;> decide +kernel

/-- A printed decimal number has a leading zero only when it is zero. -/
theorem numText_leading {n : Nat} (h : (numText 10 n).length > 1) (tail : Bytes) : (numText 10 n ++ tail).head? ≠ some 48 := by
  intro hh
  have hne : numText 10 n ≠ [] := numText_ne_nil
  have : (numText 10 n).head? = some 48 := by
    cases hd : numText 10 n with
    | nil => exact absurd hd hne
    | cons c r => rw [hd] at hh; simpa using hh
  have h0 := digitsFuel_head (.inl rfl) _ _ (lt_pow_log2 (.inl rfl) n) this
  subst h0
  rw [numText_zero (.inl rfl)] at h
  simp at h

theorem noDigit_nil {b : Nat} : NoDigit b [] := by intro c r h; simp at h

theorem noDigit_cons {b : Nat} {c : UInt8} {r : Bytes} (h : digitVal b c = none) : NoDigit b (c :: r) := by
  intro c' r' h'; simp at h'; rw [← h'.1]; exact h

/-! ### IPv4 -/

/-- Numbers each after a dot. -/
def dotted (p : Bytes) : Bytes := p.flatMap fun x => 46 :: numText 10 x.toNat

theorem parseDotted_dotted : ∀ (p : Bytes) (tail : Bytes), NoDigit 10 tail →
    parseDotted p.length (dotted p ++ tail) = some (p, tail) := by
  intro p
  induction p with
  | nil => intro tail _; rfl
  | cons a p ih =>
    intro tail ht
    have hnd : NoDigit 10 (dotted p ++ tail) := by
      cases p with
      | nil => simpa [dotted] using ht
      | cons b p => simp [dotted]; exact noDigit_cons (by decide)
    have hlt := a.toNat_lt
    have hr := readNum_numText (b := 10) (n := a.toNat) (tail := dotted p ++ tail) (.inl rfl) (by omega) hnd
    have he : dotted (a :: p) ++ tail = 46 :: (numText 10 a.toNat ++ (dotted p ++ tail)) := by
      simp [dotted]
    rw [he]
    simp only [List.length_cons, parseDotted]
    rw [hr]
    simp only
    rw [if_neg, ih tail ht]
    · simp
    · rintro (h | ⟨h1, h2⟩)
      · omega
      · simp only [List.length_append] at h1
        exact numText_leading (by omega) _ h2

theorem joinWith_dotted : ∀ (a : UInt8) (p : Bytes),
    46 :: joinWith [46] ((a :: p).map fun x => numText 10 x.toNat) = dotted (a :: p) := by
  intro a p
  induction p generalizing a with
  | nil => simp [joinWith, dotted]
  | cons b p ih =>
    have := ih b
    simp only [List.map_cons, joinWith] at this ⊢
    simp only [dotted, List.flatMap_cons] at this ⊢
    rw [← this]
    simp

theorem parseIPv4_print (p : Bytes) (h : p.length = 4) :
    parseIPv4 (joinWith [46] (p.map fun x => numText 10 x.toNat)) = some p := by
  cases p with
  | nil => simp at h
  | cons a p =>
    unfold parseIPv4
    rw [joinWith_dotted, ← List.append_nil (dotted _), ← h, parseDotted_dotted _ _ noDigit_nil]

/-- An IPv4 address has only digits and dots. -/
theorem readLoop_suffix {b : Nat} : ∀ (s : Bytes) (acc n : Nat) (r : Bytes), readLoop b acc s = some (n, r) →
    ∃ p, s = p ++ r ∧ ∀ c ∈ p, digitVal b c ≠ none := by
  intro s
  induction s with
  | nil => intro acc n r h; simp [readLoop] at h; exact ⟨[], by simp [h.2], by simp⟩
  | cons c s ih =>
    intro acc n r h
    simp only [readLoop] at h
    split at h
    · simp at h; exact ⟨[], by simp [h.2], by simp⟩
    · rename_i d hd
      split at h
      · simp at h
      · obtain ⟨p, h1, h2⟩ := ih _ _ _ h
        refine ⟨c :: p, by simp [h1], ?_⟩
        intro x hx
        rcases List.mem_cons.mp hx with rfl | hx
        · rw [hd]; simp
        · exact h2 x hx

theorem readNum_suffix {b : Nat} {s r : Bytes} {n : Nat} (h : readNum b s = some (n, r)) :
    ∃ p, s = p ++ r ∧ ∀ c ∈ p, digitVal b c ≠ none := by
  cases s with
  | nil => simp [readNum] at h
  | cons c s =>
    simp only [readNum] at h
    split at h
    · simp at h
    · exact readLoop_suffix _ _ _ _ h

theorem parseDotted_chars : ∀ (n : Nat) (s p r : Bytes), parseDotted n s = some (p, r) →
    ∃ q, s = q ++ r ∧ ∀ c ∈ q, c = 46 ∨ digitVal 10 c ≠ none := by
  intro n
  induction n with
  | zero => intro s p r h; simp [parseDotted] at h; exact ⟨[], by simp [h.2], by simp⟩
  | succ n ih =>
    intro s p r h
    unfold parseDotted at h
    split at h
    · rename_i s'
      split at h
      · simp at h
      · rename_i v r' hr
        split at h
        · simp at h
        · cases hp : parseDotted n r' with
          | none => rw [hp] at h; simp at h
          | some x =>
            rw [hp] at h
            simp at h
            obtain ⟨q, h1, h2⟩ := ih r' x.1 x.2 hp
            obtain ⟨d, h3, h4⟩ := readNum_suffix hr
            refine ⟨46 :: d ++ q, by simp [h3, h1, h.2], ?_⟩
            intro c hc
            simp at hc
            rcases hc with rfl | hc | hc
            · exact .inl rfl
            · exact .inr (h4 c hc)
            · exact h2 c hc
    · simp at h

theorem parseIPv4_chars {s p : Bytes} (h : parseIPv4 s = some p) : ∀ c ∈ s, c = 46 ∨ digitVal 10 c ≠ none := by
  unfold parseIPv4 at h
  split at h
  · rename_i q hq
    obtain ⟨t, h1, h2⟩ := parseDotted_chars _ _ _ _ hq
    rw [List.append_nil] at h1
    intro c hc
    exact h2 c (by rw [← h1]; exact List.mem_cons_of_mem _ hc)
  · simp at h

/-! ### IPv6 -/

/-- The bytes of groups. -/
def groupBytes (gs : List Nat) : Bytes := gs.flatMap fun g => [(g / 256).toUInt8, g.toUInt8]

theorem groupBytes_length (gs : List Nat) : (groupBytes gs).length = 2 * gs.length := by
  induction gs with
  | nil => rfl
  | cons g gs ih => simp [groupBytes] at ih ⊢; omega

theorem groups_bytes : ∀ (n : Nat) (ip : Bytes), ip.length = 2 * n → groupBytes (groups ip) = ip := by
  intro n
  induction n with
  | zero => intro ip h; simp at h; subst h; rfl
  | succ n ih =>
    intro ip h
    match ip with
    | [] => simp at h
    | [_] => simp at h; omega
    | a :: b :: rest =>
      have hr := ih rest (by simp at h; omega)
      have ha := a.toNat_lt
      have hb := b.toNat_lt
      have e1 : ((a.toNat * 256 + b.toNat) / 256).toUInt8 = a := by
        rw [show (a.toNat * 256 + b.toNat) / 256 = a.toNat by omega]; simp
      have e2 : (a.toNat * 256 + b.toNat).toUInt8 = b := by
        apply UInt8.toNat_inj.mp
        simp
      simp only [groups, groupBytes, List.flatMap_cons]
      rw [e1, e2]
      show a :: b :: groupBytes (groups rest) = _
      rw [hr]

theorem groups_length : ∀ (n : Nat) (ip : Bytes), ip.length = 2 * n → (groups ip).length = n := by
  intro n
  induction n with
  | zero => intro ip h; simp at h; subst h; rfl
  | succ n ih =>
    intro ip h
    match ip with
    | [] => simp at h
    | [_] => simp at h; omega
    | a :: b :: rest => simp only [groups, List.length_cons]; rw [ih rest (by simp at h; omega)]

theorem groups_lt : ∀ (ip : Bytes), ∀ g ∈ groups ip, g < 65536 := by
  intro ip
  induction ip using groups.induct with
  | case1 a b rest ih =>
    intro g hg
    simp only [groups, List.mem_cons] at hg
    have ha := a.toNat_lt
    have hb := b.toNat_lt
    rcases hg with rfl | hg
    · omega
    · exact ih g hg
  | case2 l h =>
    intro g hg
    unfold groups at hg
    split at hg
    · rename_i a b rest
      exact absurd rfl (h a b rest)
    · simp at hg

theorem zeroRun_spec : ∀ gs : List Nat, zeroRun gs ≤ gs.length ∧ gs.take (zeroRun gs) = List.replicate (zeroRun gs) 0 := by
  intro gs
  induction gs with
  | nil => simp [zeroRun]
  | cons g gs ih =>
    cases g with
    | zero => simp only [zeroRun, List.length_cons, List.take_succ_cons, List.replicate_succ]; exact ⟨by omega, by rw [ih.2]⟩
    | succ g => simp [zeroRun]

/-- The run is inside the address and has only zeros. -/
def RunOk (gs : List Nat) (e : Nat × Nat) : Prop :=
  e.1 ≤ e.2 ∧ e.2 ≤ gs.length ∧ (gs.drop e.1).take (e.2 - e.1) = List.replicate (e.2 - e.1) 0

theorem findRun_ok (all : List Nat) : ∀ (f i : Nat) (gs : List Nat) (best : Nat × Nat), gs = all.drop i → RunOk all best →
    RunOk all (findRun f i gs best) := by
  intro f
  induction f with
  | zero => intro i gs best _ h; exact h
  | succ f ih =>
    intro i gs best hg h
    cases gs with
    | nil => exact h
    | cons g gs =>
      simp only [findRun]
      have hlen : (g :: gs).length + i = all.length := by
        have := congrArg List.length hg
        simp only [List.length_drop, List.length_cons] at this ⊢
        omega
      split
      · have hz := zeroRun_spec (g :: gs)
        refine ih _ _ _ ?_ ⟨by omega, by omega, ?_⟩
        · rw [hg, List.drop_drop]; congr 1
        · rw [show i + zeroRun (g :: gs) - i = zeroRun (g :: gs) by omega, ← hg, hz.2]
      · refine ih _ _ _ ?_ h
        rw [← List.drop_drop, ← hg]
        rfl

theorem findRun_all (gs : List Nat) : RunOk gs (findRun 8 0 gs (0, 0)) :=
  findRun_ok gs 8 0 gs (0, 0) rfl ⟨Nat.le_refl _, Nat.zero_le _, rfl⟩

theorem runOk_split {gs : List Nat} {e : Nat × Nat} (h : RunOk gs e) :
    gs = gs.take e.1 ++ List.replicate (e.2 - e.1) 0 ++ gs.drop e.2 := by
  obtain ⟨h1, h2, h3⟩ := h
  rw [← h3, List.append_assoc]
  have : gs.drop e.2 = (gs.drop e.1).drop (e.2 - e.1) := by rw [List.drop_drop]; congr 1; omega
  rw [this, List.take_append_drop, List.take_append_drop]

/-- The groups in hexadecimal with colons between them. -/
def colons (gs : List Nat) : Bytes := joinWith [58] (gs.map (numText 16))

theorem colons_cons {g : Nat} {gs : List Nat} (h : gs ≠ []) : colons (g :: gs) = numText 16 g ++ 58 :: colons gs := by
  cases gs with
  | nil => exact absurd rfl h
  | cons a gs => simp [colons, joinWith]

theorem colons_head {g : Nat} {gs : List Nat} : ∃ c r, colons (g :: gs) = c :: r ∧ c ≠ 58 ∧ digitVal 16 c ≠ none := by
  have : ∃ t, colons (g :: gs) = numText 16 g ++ t := by
    cases gs with
    | nil => exact ⟨[], by simp [colons, joinWith]⟩
    | cons a gs => exact ⟨_, colons_cons (by simp)⟩
  obtain ⟨t, ht⟩ := this
  cases hn : numText 16 g with
  | nil => exact absurd hn numText_ne_nil
  | cons c r =>
    refine ⟨c, r ++ t, by rw [ht, hn]; rfl, ?_⟩
    obtain ⟨d, hd, rfl⟩ := digits_all (.inr rfl) _ g c (by unfold numText at hn; rw [hn]; simp)
    have hc : ∀ d, d < 16 → digitChar d ≠ 58 := by decide +kernel
    exact ⟨hc d hd, by rw [digitVal_char (.inr rfl) hd]; simp⟩

theorem parseGroups_last {f g : Nat} {acc : Bytes} {ell : Option Nat} (hg : g < 65536) (ha : acc.length < 16) :
    parseGroups (f + 1) acc ell (numText 16 g) = some (acc ++ [(g / 256).toUInt8, g.toUInt8], ell, []) := by
  have h := readNum_numText (b := 16) (n := g) (tail := []) (.inr rfl) (by omega) noDigit_nil
  rw [List.append_nil] at h
  unfold parseGroups
  rw [if_neg (by omega), h]
  simp only
  rw [if_neg (by omega)]

theorem parseGroups_dbl {f g : Nat} {acc r : Bytes} (hg : g < 65536) (ha : acc.length < 16) :
    parseGroups (f + 1) acc none (numText 16 g ++ 58 :: 58 :: r) =
      (if r = [] then some (acc ++ [(g / 256).toUInt8, g.toUInt8], some (acc.length + 2), [])
        else parseGroups f (acc ++ [(g / 256).toUInt8, g.toUInt8]) (some (acc.length + 2)) r) := by
  have h := readNum_numText (b := 16) (n := g) (tail := 58 :: 58 :: r) (.inr rfl) (by omega) (noDigit_cons (by decide))
  conv_lhs => unfold parseGroups
  rw [if_neg (by omega), h]
  simp only
  rw [if_neg (by omega)]
  simp

theorem parseGroups_one {f g : Nat} {acc r : Bytes} {c : UInt8} {ell : Option Nat} (hg : g < 65536) (ha : acc.length < 16)
    (hc : c ≠ 58) :
    parseGroups (f + 1) acc ell (numText 16 g ++ 58 :: c :: r) =
      parseGroups f (acc ++ [(g / 256).toUInt8, g.toUInt8]) ell (c :: r) := by
  have h := readNum_numText (b := 16) (n := g) (tail := 58 :: c :: r) (.inr rfl) (by omega) (noDigit_cons (by decide))
  conv_lhs => unfold parseGroups
  rw [if_neg (by omega), h]
  simp only
  rw [if_neg (by omega)]

/-- The groups up to the end of the text. -/
theorem parseGroups_end : ∀ (gs : List Nat) (f : Nat) (acc : Bytes) (ell : Option Nat), gs ≠ [] → (∀ g ∈ gs, g < 65536) →
    gs.length ≤ f → acc.length + 2 * gs.length ≤ 16 →
    parseGroups f acc ell (colons gs) = some (acc ++ groupBytes gs, ell, []) := by
  intro gs
  induction gs with
  | nil => intro _ _ _ h; exact absurd rfl h
  | cons g gs ih =>
    intro f acc ell _ hg hf ha
    simp only [List.length_cons] at hf ha
    obtain ⟨f, rfl⟩ : ∃ k, f = k + 1 := ⟨f - 1, by omega⟩
    cases gs with
    | nil =>
      have : colons [g] = numText 16 g ++ [] := by simp [colons, joinWith]
      rw [this, List.append_nil, parseGroups_last (hg g (by simp)) (by omega)]
      simp [groupBytes]
    | cons a gs =>
      obtain ⟨c, r, hc, hne, _⟩ := colons_head (g := a) (gs := gs)
      have := ih f (acc ++ [(g / 256).toUInt8, g.toUInt8]) ell (by simp) (fun x hx => hg x (by simp [hx])) (by omega)
        (by simp only [List.length_append, List.length_cons, List.length_nil] at ha ⊢; omega)
      rw [hc] at this
      rw [colons_cons (by simp), hc, parseGroups_one (hg g (by simp)) (by omega) hne, this]
      simp [groupBytes]

/-- The groups before "::". -/
theorem parseGroups_before : ∀ (gs : List Nat) (f : Nat) (acc : Bytes) (after : List Nat), gs ≠ [] → (∀ g ∈ gs, g < 65536) →
    (∀ g ∈ after, g < 65536) →
    gs.length + after.length ≤ f → acc.length + 2 * (gs.length + after.length) ≤ 16 →
    parseGroups f acc none (colons gs ++ [58, 58] ++ colons after) =
      some (acc ++ groupBytes gs ++ groupBytes after, some (acc.length + 2 * gs.length), []) := by
  intro gs
  induction gs with
  | nil => intro _ _ _ h; exact absurd rfl h
  | cons g gs ih =>
    intro f acc after _ hg hga hf ha
    simp only [List.length_cons] at hf ha
    obtain ⟨f, rfl⟩ : ∃ k, f = k + 1 := ⟨f - 1, by omega⟩
    cases gs with
    | nil =>
      have : colons [g] ++ [58, 58] ++ colons after = numText 16 g ++ (58 :: 58 :: colons after) := by
        simp [colons, joinWith]
      rw [this, parseGroups_dbl (hg g (by simp)) (by omega)]
      cases after with
      | nil =>
        rw [if_pos (by simp [colons, joinWith])]
        simp [groupBytes]
      | cons b after =>
        obtain ⟨c, r, hc, _⟩ := colons_head (g := b) (gs := after)
        rw [if_neg (by rw [hc]; simp), parseGroups_end _ _ _ _ (by simp) hga (by simp at hf ⊢; omega) (by
          simp only [List.length_append, List.length_cons, List.length_nil] at ha ⊢; omega)]
        simp [groupBytes]
    | cons a gs =>
      have he : colons (g :: a :: gs) ++ [58, 58] ++ colons after =
          numText 16 g ++ (58 :: (colons (a :: gs) ++ [58, 58] ++ colons after)) := by
        rw [colons_cons (by simp)]; simp
      obtain ⟨c, r, hc, hne, _⟩ := colons_head (g := a) (gs := gs)
      have := ih f (acc ++ [(g / 256).toUInt8, g.toUInt8]) after (by simp) (fun x hx => hg x (by simp [hx])) hga
        (by simp at hf ⊢; omega)
        (by simp only [List.length_append, List.length_cons, List.length_nil] at ha ⊢; omega)
      rw [he]
      rw [hc] at this ⊢
      simp only [List.cons_append] at this ⊢
      rw [parseGroups_one (hg g (by simp)) (by omega) hne, this]
      simp [groupBytes]
      omega

/-! ### IPv6, whole addresses -/

theorem groupBytes_append (a b : List Nat) : groupBytes (a ++ b) = groupBytes a ++ groupBytes b := by
  simp [groupBytes]

theorem groupBytes_zeros (k : Nat) : groupBytes (List.replicate k 0) = List.replicate (2 * k) 0 := by
  induction k with
  | zero => rfl
  | succ k ih =>
    rw [List.replicate_succ, show 2 * (k + 1) = 2 * k + 1 + 1 by omega, List.replicate_succ, List.replicate_succ, ← ih]
    rfl

theorem parseIPv6_print (gs : List Nat) (hl : gs.length = 8) (hg : ∀ g ∈ gs, g < 65536) :
    parseIPv6 (ipv6Text gs) = some (groupBytes gs) := by
  unfold ipv6Text
  have hrun := findRun_all gs
  have hsplit := runOk_split hrun
  obtain ⟨h1, h2, -⟩ := hrun
  generalize findRun 8 0 gs (0, 0) = e at *
  simp only
  split
  · show parseIPv6 (colons gs) = _
    have hp := parseGroups_end gs 8 [] none (by rintro rfl; simp at hl) hg (by omega) (by simp; omega)
    match gs, hl with
    | g :: gs, hl =>
      obtain ⟨c, r, hc, hne, _⟩ := colons_head (g := g) (gs := gs)
      rw [hc] at hp ⊢
      have : parseIPv6 (c :: r) = (parseGroups 8 [] none (c :: r)).bind expandEllipsis := by
        unfold parseIPv6
        split
        · rename_i h; exact absurd (List.cons.inj h).1 hne
        · rename_i h; exact absurd (List.cons.inj h).1 hne
        · rfl
      rw [this, hp]
      have hlen := groupBytes_length (g :: gs)
      simp only [Option.bind_some, expandEllipsis, List.nil_append]
      rw [if_neg (by simp), if_neg (by omega), if_neg (by simp)]
  · rename_i hgt
    show parseIPv6 (colons (gs.take e.1) ++ [58, 58] ++ colons (gs.drop e.2)) = _
    have hga : ∀ g ∈ gs.drop e.2, g < 65536 := fun g h => hg g (List.mem_of_mem_drop h)
    have hgb : ∀ g ∈ gs.take e.1, g < 65536 := fun g h => hg g (List.mem_of_mem_take h)
    have hla : (gs.take e.1).length = e.1 := by rw [List.length_take]; omega
    have hlb : (gs.drop e.2).length = 8 - e.2 := by rw [List.length_drop]; omega
    have hbytes : groupBytes gs = groupBytes (gs.take e.1) ++ List.replicate (2 * (e.2 - e.1)) 0 ++ groupBytes (gs.drop e.2) := by
      conv_lhs => rw [hsplit]
      rw [groupBytes_append, groupBytes_append, groupBytes_zeros]
    rw [hbytes]
    clear hbytes hsplit
    generalize gs.take e.1 = x at *
    generalize gs.drop e.2 = y at *
    have hlx := groupBytes_length x
    have hly := groupBytes_length y
    cases x with
    | nil =>
      have he1 : e.1 = 0 := by simpa using hla.symm
      cases y with
      | nil =>
        have : e.2 = 8 := by simp at hlb; omega
        rw [he1, this]
        decide
      | cons a y =>
        obtain ⟨c, r, hc, hne, _⟩ := colons_head (g := a) (gs := y)
        have hp := parseGroups_end (a :: y) 8 [] (some 0) (by simp) hga (by omega) (by simp only [List.length_nil]; omega)
        have : parseIPv6 (colons [] ++ [58, 58] ++ colons (a :: y)) =
            (parseGroups 8 [] (some 0) (colons (a :: y))).bind expandEllipsis := by
          rw [hc]
          show parseIPv6 (58 :: 58 :: c :: r) = _
          rfl
        rw [this, hp]
        simp only [Option.bind_some, expandEllipsis, List.nil_append]
        rw [if_neg (by simp), if_pos (by omega)]
        simp only [List.take_zero, List.drop_zero, List.nil_append]
        rw [show 16 - (groupBytes (a :: y)).length = 2 * (e.2 - e.1) by omega]
        rfl
    | cons b x =>
      obtain ⟨c, r, hc, hne, _⟩ := colons_head (g := b) (gs := x)
      have hp := parseGroups_before (b :: x) 8 [] y (by simp) hgb hga (by omega) (by simp only [List.length_nil]; omega)
      have : parseIPv6 (colons (b :: x) ++ [58, 58] ++ colons y) =
          (parseGroups 8 [] none (colons (b :: x) ++ [58, 58] ++ colons y)).bind expandEllipsis := by
        rw [hc]
        simp only [List.cons_append]
        unfold parseIPv6
        split
        · rename_i h; exact absurd (List.cons.inj h).1 hne
        · rename_i h; exact absurd (List.cons.inj h).1 hne
        · rfl
      rw [this, hp]
      simp only [Option.bind_some, expandEllipsis, List.nil_append, List.length_nil, Nat.zero_add]
      have hlt : (groupBytes (b :: x) ++ groupBytes y).length < 16 := by rw [List.length_append]; omega
      rw [if_neg (by simp), if_pos hlt]
      rw [List.take_left' hlx, List.drop_left' hlx]
      rw [show 16 - (groupBytes (b :: x) ++ groupBytes y).length = 2 * (e.2 - e.1) by rw [List.length_append]; omega]

/-! ### Characters of the texts -/

theorem joinWith_all {P : UInt8 → Prop} {sep : Bytes} (hs : ∀ c ∈ sep, P c) : ∀ (l : List Bytes), (∀ x ∈ l, ∀ c ∈ x, P c) →
    ∀ c ∈ joinWith sep l, P c := by
  intro l
  induction l with
  | nil => intro _ c hc; simp [joinWith] at hc
  | cons x l ih =>
    intro hl c hc
    cases l with
    | nil => exact hl x (by simp) c (by simpa [joinWith] using hc)
    | cons y l =>
      simp only [joinWith, List.mem_append] at hc
      rcases hc with (hc | hc) | hc
      · exact hl x (by simp) c hc
      · exact hs c hc
      · exact ih (fun z hz => hl z (by simp [hz])) c hc

theorem digitChar_ne : ∀ d, d < 16 → digitChar d ≠ 47 ∧ digitChar d ≠ 58 ∧ digitChar d ≠ 46 := by decide +kernel

theorem numText_chars {b n : Nat} (hb : b = 10 ∨ b = 16) : ∀ c ∈ numText b n, c ≠ 47 ∧ c ≠ 58 ∧ c ≠ 46 := by
  intro c hc
  obtain ⟨d, hd, rfl⟩ := digits_all hb _ _ c hc
  exact digitChar_ne d (by rcases hb with rfl | rfl <;> omega)

theorem colons_chars (gs : List Nat) : ∀ c ∈ colons gs, c ≠ 47 := by
  refine joinWith_all (P := fun c => c ≠ 47) (by intro c hc; simp at hc; subst hc; decide) _ ?_
  intro x hx c hc
  simp at hx
  obtain ⟨g, _, rfl⟩ := hx
  exact (numText_chars (.inr rfl) c hc).1

theorem ipv6Text_chars (gs : List Nat) : ∀ c ∈ ipv6Text gs, c ≠ 47 := by
  unfold ipv6Text
  simp only
  split
  · exact colons_chars gs
  · intro c hc
    simp only [List.mem_append] at hc
    rcases hc with (hc | hc) | hc
    · exact colons_chars _ c hc
    · simp at hc; subst hc; decide
    · exact colons_chars _ c hc

theorem ipv6Text_colon {gs : List Nat} (h : gs.length = 8) : (58 : UInt8) ∈ ipv6Text gs := by
  unfold ipv6Text
  simp only
  split
  · show _ ∈ colons gs
    match gs, h with
    | a :: b :: gs, _ =>
      rw [colons_cons (by simp)]
      simp
  · simp

theorem parseIPv4_ipv6Text {gs : List Nat} (h : gs.length = 8) : parseIPv4 (ipv6Text gs) = none := by
  cases hp : parseIPv4 (ipv6Text gs) with
  | none => rfl
  | some p =>
    have := parseIPv4_chars hp 58 (ipv6Text_colon h)
    exact absurd this (by decide)

theorem cutSlash_append : ∀ (s r : Bytes), (∀ c ∈ s, c ≠ 47) → cutSlash (s ++ 47 :: r) = some (s, r) := by
  intro s r
  induction s with
  | nil => intro _; simp [cutSlash]
  | cons c s ih =>
    intro h
    simp only [List.cons_append, cutSlash]
    rw [if_neg (h c (by simp)), ih (fun x hx => h x (by simp [hx]))]
    rfl

/-! ### Prefixes -/

theorem nm_length {n : IPNet} : (networkNumberAndMask n).1.length = (networkNumberAndMask n).2.length := by
  have h4 : ∀ ip p, to4 ip = some p → p.length = 4 := by
    intro ip p h
    unfold to4 at h
    split at h
    · simp at h; subst h; assumption
    · split at h
      · rename_i h'; simp at h; subst h; simp; omega
      · simp at h
  unfold networkNumberAndMask
  cases h : to4 n.ip with
  | some p =>
    simp only
    have := h4 _ _ h
    split
    · rename_i hm
      simp [this, hm]
    · split
      · rename_i hm
        simp [this, hm]
      · rfl
  | none =>
    simp only
    split
    · rfl
    · rename_i ip hip
      split at hip
      · simp at hip
        subst hip
        split
        · rw [if_pos (by omega)]
        · split
          · rw [if_neg (by omega)]; simp; omega
          · rfl
      · simp at hip

/-- The address of a prefix is four bytes, or sixteen that are not an IPv4-mapped address, or absent. -/
theorem nm_cases {n : IPNet} : (networkNumberAndMask n).1 = [] ∨ (networkNumberAndMask n).1.length = 4 ∨
    ((networkNumberAndMask n).1.length = 16 ∧ to4 (networkNumberAndMask n).1 = none) := by
  have h4 : ∀ ip p, to4 ip = some p → p.length = 4 := by
    intro ip p h
    unfold to4 at h
    split at h
    · simp at h; subst h; assumption
    · split at h
      · rename_i h'; simp at h; subst h; simp; omega
      · simp at h
  unfold networkNumberAndMask
  cases h : to4 n.ip with
  | some p =>
    simp only
    have := h4 _ _ h
    split
    · simp [this]
    · split
      · simp [this]
      · simp
  | none =>
    simp only
    split
    · simp
    · rename_i ip hip
      split at hip
      · simp at hip
        subst hip
        split
        · rw [if_pos (by omega)]; simp
        · split
          · rw [if_neg (by omega)]; exact .inr (.inr ⟨by assumption, h⟩)
          · simp
      · simp at hip

/-- What is printed for a prefix with a canonical mask is read back as the prefix with its host bits
    cleared. -/
theorem parseCIDR_ipNetString (n : IPNet) (l : Nat) (hne : (networkNumberAndMask n).1 ≠ [])
    (hl : l ≤ 8 * (networkNumberAndMask n).2.length)
    (hm : (networkNumberAndMask n).2 = maskBytes (networkNumberAndMask n).2.length l) :
    parseCIDR (ipNetString n) =
      some ⟨maskIP (networkNumberAndMask n).1 (networkNumberAndMask n).2, (networkNumberAndMask n).2⟩ := by
  have hlen := nm_length (n := n)
  have hc := nm_cases (n := n)
  unfold ipNetString
  generalize networkNumberAndMask n = nm at *
  obtain ⟨ip, m⟩ := nm
  simp only at *
  have hsm : simpleMaskLength m = some l := by rw [hm]; exact simpleMaskLength_maskBytes _ _ hl
  have hmne : m ≠ [] := by
    intro h; subst h
    exact hne (List.length_eq_zero_iff.mp hlen)
  rw [if_neg (by simp [hne, hmne]), hsm]
  simp only
  have hl128 : l ≤ 128 := by rcases hc with h | h | h <;> first | exact absurd h hne | omega
  have hnum : readNum 10 (numText 10 l) = some (l, []) := by
    have := readNum_numText (b := 10) (n := l) (tail := []) (.inl rfl) (by omega) noDigit_nil
    rwa [List.append_nil] at this
  rcases hc with h | h | ⟨h, h6⟩
  · exact absurd h hne
  · have hs : ipString ip = joinWith [46] (ip.map fun x => numText 10 x.toNat) := by
      unfold ipString
      rw [if_neg hne]
      simp [to4, h]
    have hslash : ∀ c ∈ ipString ip, c ≠ 47 := by
      rw [hs]
      refine joinWith_all (P := fun c => c ≠ 47) (by intro c hc; simp at hc; subst hc; decide) _ ?_
      intro x hx c hc
      simp at hx
      obtain ⟨g, _, rfl⟩ := hx
      exact (numText_chars (.inl rfl) c hc).1
    unfold parseCIDR
    rw [List.append_assoc, show [47] ++ numText 10 l = 47 :: numText 10 l from rfl, cutSlash_append _ _ hslash]
    simp only
    rw [hnum, hs, parseIPv4_print ip h]
    simp only
    have hm' : cidrMask l 32 = m := by
      unfold cidrMask
      rw [if_neg (by simp), if_neg (by omega), hm, ← hlen, h]
    rw [if_neg (by omega), hm']
  · have hs : ipString ip = ipv6Text (groups ip) := by
      unfold ipString
      rw [if_neg hne, h6]
      simp [h]
    have hg8 := groups_length 8 ip (by omega)
    unfold parseCIDR
    rw [List.append_assoc, show [47] ++ numText 10 l = 47 :: numText 10 l from rfl, hs, cutSlash_append _ _ (ipv6Text_chars _)]
    simp only
    rw [hnum, parseIPv4_ipv6Text hg8]
    simp only
    rw [parseIPv6_print _ hg8 (groups_lt ip), groups_bytes 8 ip (by omega)]
    simp only
    have hm' : cidrMask l 128 = m := by
      unfold cidrMask
      rw [if_neg (by simp), if_neg (by omega), hm, ← hlen, h]
    rw [if_neg (by omega), hm']

end Verif.Net
