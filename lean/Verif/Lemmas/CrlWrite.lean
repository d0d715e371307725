import Verif.Lemmas.Crl
import Verif.Lemmas.CmsSafe
/-
  What `CreateCRL` writes, and safety of reading a revocation list.
-/
set_option autoImplicit false

namespace Verif.Crl
open Der Cms CmsSpec BerSpec CrlSpec

/-- The moment of a time, to the second. -/
def Civil.moment (t : Civil) : Moment := ⟨t.year.toNat, t.month, t.day, t.hour, t.minute, t.second⟩
/-- The time of a moment. -/
def ofMoment (m : Moment) : Civil := ⟨m.year, m.month, m.day, m.hour, m.minute, m.second, 0⟩

theorem ofMoment_moment (t : Civil) (h : 0 ≤ t.year) : ofMoment t.moment = { t with nsec := 0 } := by
  simp only [ofMoment, Civil.moment]
  rw [Int.toNat_of_nonneg h]

theorem two_decimal (n m : Nat) (h : n % 100 = m % 100) : two n = decimal 2 m := by
  have e : decimal 2 m = [(48 + m / 10 ^ 1 % 10).toUInt8, (48 + m / 10 ^ 0 % 10).toUInt8] := rfl
  rw [e]
  unfold two digit
  have h1 : n / 10 % 10 = m / 10 ^ 1 % 10 := by omega
  have h2 : n % 10 = m / 10 ^ 0 % 10 := by omega
  rw [h1, h2]

theorem four_decimal (n : Nat) : four n = decimal 4 n := by
  have e : decimal 4 n = [(48 + n / 10 ^ 3 % 10).toUInt8, (48 + n / 10 ^ 2 % 10).toUInt8, (48 + n / 10 ^ 1 % 10).toUInt8,
    (48 + n / 10 ^ 0 % 10).toUInt8] := rfl
  rw [e]
  unfold four digit
  norm_num

theorem timeCommon_text (t : Civil) : timeCommon t = t.moment.text := by
  simp only [timeCommon, Moment.text, Civil.moment, two_decimal _ _ rfl]

theorem marshalTime_der {t : Civil} {out : Bytes} (h : marshalTime t = .ok out) :
    0 ≤ t.year ∧ t.year ≤ 9999 ∧ out = timeDer t.moment := by
  unfold marshalTime at h
  unfold timeDer
  have hy : t.moment.year = t.year.toNat := rfl
  split at h
  · rename_i hc
    refine ⟨by omega, by omega, ?_⟩
    rw [if_pos (by rw [hy]; omega)]
    have := Go.ok.inj h
    rw [← this, tlv_elem, utcText, timeCommon_text, two_decimal _ t.moment.year (by rw [hy]; omega)]
  · split at h
    · rename_i hc
      refine ⟨by omega, by omega, ?_⟩
      rw [if_pos (by rw [hy]; omega)]
      have := Go.ok.inj h
      rw [← this, tlv_elem, utcText, timeCommon_text, two_decimal _ t.moment.year (by rw [hy]; omega)]
    · split at h
      · cases h
      · refine ⟨by omega, by omega, ?_⟩
        rw [if_neg (by rw [hy]; omega)]
        have := Go.ok.inj h
        rw [← this, tlv_elem, generalizedText, timeCommon_text, four_decimal]
        rfl

theorem marshalTime_ok {t : Civil} (h0 : 0 ≤ t.year) (h1 : t.year ≤ 9999) : ∃ out, marshalTime t = .ok out := by
  unfold marshalTime
  split
  · exact ⟨_, rfl⟩
  · split
    · exact ⟨_, rfl⟩
    · rw [if_neg (by omega)]
      exact ⟨_, rfl⟩

/-- Reading gives back the times that are written. -/
def ReadsTimes (env : Env) : Prop :=
  ∀ m : Moment, m.Valid → (1950 ≤ m.year → m.year ≤ 2049 → env.mft.time false (utcText m) = .ok (ofMoment m)) ∧
    env.mft.time true (generalizedText m) = .ok (ofMoment m)

theorem timeDer_form {env : Env} (he : ReadsTimes env) {m : Moment} (hm : m.Valid) :
    TimeForm env (ofMoment m) (timeDer m) := by
  unfold timeDer
  split
  · rename_i h
    exact ⟨_, .inl ⟨rfl, (he m hm).1 h.1 h.2⟩⟩
  · exact ⟨_, .inr ⟨rfl, (he m hm).2⟩⟩

theorem marshalTime_form {env : Env} (he : ReadsTimes env) {t : Civil} {out : Bytes} (h : marshalTime t = .ok out)
    (hm : t.moment.Valid) : TimeForm env { t with nsec := 0 } out := by
  obtain ⟨h0, _, rfl⟩ := marshalTime_der h
  rw [← ofMoment_moment t h0]
  exact timeDer_form he hm

theorem marshalRevoked_ok {r : Revoked} {out : Bytes} (h : marshalRevoked r = .ok out) :
    ∃ n t, r.serial = some n ∧ marshalTime r.time = .ok t ∧
      out = elem 0x30 (elem 0x02 (bigIntOctets n) ++ t ++ optExtsForm r.exts) := by
  unfold marshalRevoked at h
  cases hs : r.serial with
  | none => rw [hs] at h; cases h
  | some n =>
    rw [hs] at h
    simp only at h
    obtain ⟨t, h1, h2⟩ := Go.bind_eq_ok.mp h
    simp only [Go.pure_def, Go.ok.injEq, tlv_elem, marshalOptExts_form] at h2
    exact ⟨n, t, rfl, h1, h2.symm⟩

theorem marshalRevokeds_ok {l : List Revoked} {out : Bytes} (h : marshalRevokeds l = .ok out) :
    ∃ encs, List.Forall₂ (fun r e => marshalRevoked r = .ok e) l encs ∧ out = encs.flatten := by
  induction l generalizing out with
  | nil =>
    simp only [marshalRevokeds, Go.ok.injEq] at h
    exact ⟨[], .nil, by simp [h.symm]⟩
  | cons r l ih =>
    simp only [marshalRevokeds] at h
    obtain ⟨a, h1, h2⟩ := Go.bind_eq_ok.mp h
    obtain ⟨b, h3, h4⟩ := Go.bind_eq_ok.mp h2
    obtain ⟨encs, h5, rfl⟩ := ih h3
    simp only [Go.pure_def, Go.ok.injEq] at h4
    exact ⟨a :: encs, .cons h1 h5, by simp [h4.symm]⟩

theorem marshalRevokeds_of {l : List Revoked} (h : ∀ r ∈ l, ∃ e, marshalRevoked r = .ok e) : ∃ out, marshalRevokeds l = .ok out := by
  induction l with
  | nil => exact ⟨_, rfl⟩
  | cons r l ih =>
    obtain ⟨a, h1⟩ := h r (by simp)
    obtain ⟨b, h2⟩ := ih fun x hx => h x (by simp [hx])
    refine ⟨a ++ b, ?_⟩
    simp [marshalRevokeds, h1, h2]

theorem forall₂_mem_left {α β : Type} {R : α → β → Prop} {l : List α} {m : List β} (h : List.Forall₂ R l m) :
    ∀ a ∈ l, ∃ b, R a b := by
  induction h with
  | nil => simp
  | cons h _ ih =>
    intro a ha
    rcases List.mem_cons.mp ha with rfl | ha
    · exact ⟨_, h⟩
    · exact ih a ha

/-- The extensions that are written. -/
def written (ski : Bytes) (n : Int) : List Ext := akiExt ski ++ [⟨crlNumberOID, false, elem 0x02 (bigIntOctets n)⟩]

/-- The octets that are signed, and the pieces they are made of. -/
theorem marshalTBS_ok {ski : Bytes} {issuer : Go Bytes} {revoked : List Revoked} {now expiry : Civil} {sn : Option Int}
    {out : Bytes} (h : marshalTBS ski issuer revoked now expiry sn = .ok out) :
    ∃ n name t u encs, sn = some n ∧ issuer = .ok name ∧ marshalTime now = .ok t ∧ marshalOptTime expiry = .ok u ∧
      List.Forall₂ (fun r e => marshalRevoked r = .ok e) revoked encs ∧
      out = tbsOf name t u (elem 0x30 encs.flatten) (written ski n) := by
  unfold marshalTBS at h
  obtain ⟨number, h1, h⟩ := Go.bind_eq_ok.mp h
  obtain ⟨name, h2, h⟩ := Go.bind_eq_ok.mp h
  obtain ⟨t, h3, h⟩ := Go.bind_eq_ok.mp h
  obtain ⟨u, h4, h⟩ := Go.bind_eq_ok.mp h
  obtain ⟨rs, h5, h⟩ := Go.bind_eq_ok.mp h
  obtain ⟨encs, h6, rfl⟩ := marshalRevokeds_ok h5
  cases sn with
  | none => cases h1
  | some n =>
    simp only [numberExt, Go.ok.injEq] at h1
    subst h1
    refine ⟨n, name, t, u, encs, rfl, h2, h3, h4, h6, ?_⟩
    have hm : ∀ l : List Ext, l.map marshalExt = l.map extForm := fun l => List.map_congr_left fun e _ => marshalExt_form e
    simp only [Go.pure_def, Go.ok.injEq, tlv_elem, signatureAlgorithm_form, hm] at h
    rw [← h]
    rfl

theorem createCRL_ok {sha256 : Bytes → Bytes} {signer : Option (Bytes → Go Bytes)} {ski : Bytes} {issuer : Go Bytes}
    {revoked : List Revoked} {now expiry : Civil} {sn : Option Int} {out : Bytes}
    (h : createCRL sha256 signer ski issuer revoked now expiry sn = .ok out) :
    ∃ sign tbs sig, signer = some sign ∧ marshalTBS ski issuer revoked now expiry sn = .ok tbs ∧ sign (sha256 tbs) = .ok sig ∧
      out = elem 0x30 (tbs ++ algForm ++ elem 0x03 (0x00 :: sig)) := by
  unfold createCRL at h
  cases signer with
  | none => cases h
  | some sign =>
    simp only at h
    obtain ⟨tbs, h1, h⟩ := Go.bind_eq_ok.mp h
    obtain ⟨sig, h2, h⟩ := Go.bind_eq_ok.mp h
    refine ⟨sign, tbs, sig, rfl, h1, h2, ?_⟩
    simp only [Go.pure_def, Go.ok.injEq, tlv_elem, signatureAlgorithm_form] at h
    rw [← h]
    have : bitStringOctets ⟨sig, sig.length * 8⟩ = 0x00 :: sig := by
      simp [bitStringOctets]
    rw [this]

theorem written_oids (ski : Bytes) (n : Int) : ∀ e ∈ written ski n, OidOk e.id := by
  have h1 : OidOk akiOID := by decide +kernel
  have h2 : OidOk crlNumberOID := by decide +kernel
  intro e he
  unfold written akiExt at he
  split at he
  · simp only [List.cons_append, List.nil_append, List.mem_cons, List.not_mem_nil, or_false] at he
    rcases he with rfl | rfl
    · exact h1
    · exact h2
  · simp only [List.nil_append, List.mem_cons, List.not_mem_nil, or_false] at he
    subst he
    exact h2

theorem forall₂_revoked {env : Env} (he : ReadsTimes env) {l : List Revoked} {encs : List Bytes}
    (h : List.Forall₂ (fun r e => marshalRevoked r = .ok e) l encs) (hv : ∀ r ∈ l, r.time.moment.Valid)
    (ho : ∀ r ∈ l, ∀ x, r.exts = some x → ∀ e ∈ x, OidOk e.id) :
    List.Forall₂ (RevokedForm env) (l.map fun r => { r with time := { r.time with nsec := 0 } }) encs := by
  induction h with
  | nil => exact .nil
  | @cons r e l encs h _ ih =>
    refine .cons ?_ (ih (fun x hx => hv x (by simp [hx])) fun x hx => ho x (by simp [hx]))
    obtain ⟨n, t, h1, h2, h3⟩ := marshalRevoked_ok h
    exact ⟨n, bigIntOctets n, t, h1, bigIntOctets_content n, marshalTime_form he h2 (hv r (by simp)), ho r (by simp), h3⟩

/-! ### Safety -/

theorem parseTyped_lt {t : Nat} {c : Bool} {bs : Bytes} {r : Bytes × Bytes} (h : parseTyped t c bs = .ok r) :
    r.2.length < bs.length :=
  consumes_of_typed (t := t) (c := c) (f := fun x => .ok x) bs r (by simp [h])

theorem safe_parseBigInt (bs : Bytes) : Safe (parseBigInt bs) := by
  unfold parseBigInt
  exact .bind (safe_parseTyped _ _ _) fun s _ => .ite (.ok _) (.err _)

theorem safe_parseTimeField {T : Type} (env : MftEnv T) (ht : ∀ g b, Safe (env.time g b)) (bs : Bytes) :
    Safe (parseTimeField env bs) := by
  unfold parseTimeField
  exact .ite (.err _) (.bind (safe_parseHeader _) fun h _ => .ite (.err _) (.ite (.err _) (.bind (ht _ _) fun _ _ => .ok _)))

theorem safe_parseOptUni (tag : Nat) (c : Bool) (bs : Bytes) : Safe (parseOptUni tag c bs) := by
  unfold parseOptUni
  refine .ite (.ok _) (.bind (safe_parseHeader _) fun h _ => .ite (.ok _) (.ite (.err _) (.ok _)))

theorem safe_parseBool (bs : Bytes) : Safe (parseBool bs) := by
  unfold parseBool
  split
  · exact .ok _
  · exact .ok _
  · exact .err _

theorem safe_parseExt (bs : Bytes) : Safe (parseExt bs) := by
  unfold parseExt
  refine .bind (safe_parseTyped _ _ _) fun s _ => .bind (safe_parseOID _) fun i _ => .bind (safe_parseOptUni _ _ _) fun c _ => ?_
  refine .bind ?_ fun b _ => .bind (safe_parseOctets _) fun v _ => .ok _
  unfold optBool
  split
  · exact .ok _
  · exact safe_parseBool _

theorem consumes_parseExt : Consumes parseExt := by
  intro bs r h
  unfold parseExt at h
  obtain ⟨s, h1, h⟩ := Go.bind_eq_ok.mp h
  obtain ⟨i, h2, h⟩ := Go.bind_eq_ok.mp h
  obtain ⟨c, h3, h⟩ := Go.bind_eq_ok.mp h
  obtain ⟨b, h4, h⟩ := Go.bind_eq_ok.mp h
  obtain ⟨v, h5, h⟩ := Go.bind_eq_ok.mp h
  simp only [Go.pure_def, Go.ok.injEq] at h
  rw [← h]
  exact parseTyped_lt h1

theorem safe_parseOptExts (bs : Bytes) : Safe (parseOptExts bs) := by
  unfold parseOptExts
  refine .bind (safe_parseOptUni _ _ _) fun s _ => ?_
  split
  · exact .ok _
  · exact .bind (safe_parseAll _ safe_parseExt consumes_parseExt _) fun _ _ => .ok _

theorem safe_parseRevoked (env : Env) (ht : ∀ g b, Safe (env.mft.time g b)) (bs : Bytes) : Safe (parseRevoked env bs) := by
  unfold parseRevoked
  exact .bind (safe_parseTyped _ _ _) fun s _ => .bind (safe_parseBigInt _) fun n _ =>
    .bind (safe_parseTimeField env.mft ht _) fun t _ => .bind (safe_parseOptExts _) fun e _ => .ok _

theorem consumes_parseRevoked (env : Env) : Consumes (parseRevoked env) := by
  intro bs r h
  unfold parseRevoked at h
  obtain ⟨s, h1, h⟩ := Go.bind_eq_ok.mp h
  obtain ⟨i, h2, h⟩ := Go.bind_eq_ok.mp h
  obtain ⟨c, h3, h⟩ := Go.bind_eq_ok.mp h
  obtain ⟨b, h4, h⟩ := Go.bind_eq_ok.mp h
  simp only [Go.pure_def, Go.ok.injEq] at h
  rw [← h]
  exact parseTyped_lt h1

theorem safe_parseAlg (bs : Bytes) : Safe (parseAlg bs) := by
  unfold parseAlg
  exact .bind (safe_parseTyped _ _ _) fun s _ => .bind (safe_parseOID _) fun i _ =>
    .ite (.ok _) (.bind (safe_parseAny _) fun _ _ => .ok _)

theorem safe_parseVersion (bs : Bytes) : Safe (parseVersion bs) := by
  unfold parseVersion
  refine .bind (safe_parseOptUni _ _ _) fun s _ => ?_
  split
  · exact .ok _
  · exact .ite (.ok _) (.err _)

theorem safe_parseOptTime (env : Env) (ht : ∀ g b, Safe (env.mft.time g b)) (bs : Bytes) : Safe (parseOptTime env bs) := by
  unfold parseOptTime
  exact .ite (.ok _) (.bind (safe_parseHeader _) fun h _ => .ite (.ok _) (.ite (.err _) (.bind (ht _ _) fun _ _ => .ok _)))

theorem safe_parseRevokeds (env : Env) (ht : ∀ g b, Safe (env.mft.time g b)) (bs : Bytes) : Safe (parseRevokeds env bs) := by
  unfold parseRevokeds
  refine .bind (safe_parseOptUni _ _ _) fun s _ => ?_
  split
  · exact .ok _
  · exact .bind (safe_parseAll _ (safe_parseRevoked env ht) (consumes_parseRevoked env) _) fun _ _ => .ok _

theorem safe_parseCRLExts (bs : Bytes) : Safe (parseCRLExts bs) := by
  unfold parseCRLExts
  refine .ite (.ok _) (.bind (safe_parseExplicit _ _) fun x _ => ?_)
  split
  · exact .ok _
  · exact .bind (safe_parseHeader _) fun h _ => .ite (.ok _) (.ite (.err _)
      (.bind (safe_parseAll _ safe_parseExt consumes_parseExt _) fun _ _ => .ok _))

theorem safe_parseTBS (env : Env) (ht : ∀ g b, Safe (env.mft.time g b)) (hn : ∀ b, Safe (env.name b)) (bs : Bytes) :
    Safe (parseTBS env bs) := by
  unfold parseTBS
  exact .bind (safe_parseTyped _ _ _) fun s _ => .bind (safe_parseVersion _) fun v _ => .bind (safe_parseAlg _) fun a _ =>
    .bind (safe_parseTyped _ _ _) fun n _ => .bind (hn _) fun _ _ => .bind (safe_parseTimeField env.mft ht _) fun t _ =>
    .bind (safe_parseOptTime env ht _) fun u _ => .bind (safe_parseRevokeds env ht _) fun r _ =>
    .bind (safe_parseCRLExts _) fun e _ => .ok _

theorem safe_parseDERCRL (env : Env) (ht : ∀ g b, Safe (env.mft.time g b)) (hn : ∀ b, Safe (env.name b)) (bs : Bytes) :
    Safe (parseDERCRL env bs) := by
  unfold parseDERCRL
  exact .bind (safe_parseTyped _ _ _) fun s _ => .bind (safe_parseTBS env ht hn _) fun t _ => .bind (safe_parseAlg _) fun a _ =>
    .bind (safe_parseTyped _ _ _) fun b _ => .bind (safe_bitStringOf _) fun g _ => .ite (.err _) (.ok _)

end Verif.Crl
