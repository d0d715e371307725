import Verif.Spec.ResJson
import Verif.Props.EndToEnd
/-
  Property theorems for resources.json: C84.
-/
set_option autoImplicit false

namespace Verif.Props
open Pki PkiSpec Manager ManagerSpec EndSpec EndToEnd Out OutSpec Roa Net ResSpec Cert ResJson

/-! ### Values -/

theorem unixNano_id {t : Int} (h1 : -2 ^ 63 ≤ t) (h2 : t < 2 ^ 63) : unixNano t = t := by
  unfold unixNano; omega

theorem unixNano_range (t : Int) : -2 ^ 63 ≤ unixNano t ∧ unixNano t < 2 ^ 63 := by
  unfold unixNano; omega

theorem seconds_range (t : Int) : -9223372036 ≤ seconds t ∧ seconds t ≤ 9223372036 := by
  obtain ⟨h1, h2⟩ := unixNano_range t
  unfold seconds
  generalize unixNano t = x at h1 h2
  by_cases hx : 0 ≤ x
  · rw [Int.tdiv_eq_ediv_of_nonneg hx]; omega
  · obtain ⟨y, rfl⟩ : ∃ y, x = -y := ⟨-x, by omega⟩
    rw [Int.neg_tdiv, Int.tdiv_eq_ediv_of_nonneg (by omega)]; omega

theorem seconds_at {t s : Int} (h : AtSecond t s) : seconds t = s := by
  obtain ⟨rfl, h1, h2⟩ := h
  unfold seconds
  rw [unixNano_id (by omega) (by omega)]
  exact Int.mul_tdiv_cancel s (by decide)

/-- **C84, dates (partial: years 1678 to 2262).** A date of whole seconds is shown right exactly if it lies in this period. -/
theorem C84_dates_partial (s : Int) : seconds (s * 1000000000) = s ↔ -9223372036 ≤ s ∧ s ≤ 9223372036 := by
  constructor
  · intro h
    have := seconds_range (s * 1000000000)
    rw [h] at this
    exact this
  · intro h
    exact seconds_at ⟨rfl, h⟩

theorem toUint32_val {n : Int} (h : InU32 n) : ((toUint32 n).toNat : Int) = n := by
  obtain ⟨h1, h2⟩ := h
  unfold toUint32
  rw [UInt32.toNat_ofNat']
  omega

theorem toUint32_lt (n : Int) : InU32 ((toUint32 n).toNat : Int) := by
  have := (toUint32 n).toNat_lt
  constructor <;> omega

theorem toUint32_zero {n : Int} (h : InU32 n) : toUint32 n = 0 ↔ n = 0 := by
  constructor
  · intro hz
    have := toUint32_val h
    rw [hz] at this
    simpa using this.symm
  · rintro rfl; rfl

theorem keys_ne : (asc "asn-range".toList == asc "asn".toList) = false ∧ (asc "asn-range".toList == asc "inherit".toList) = false ∧
    (asc "asn".toList == asc "asn-range".toList) = false ∧ (asc "asn".toList == asc "inherit".toList) = false ∧
    (asc "inherit".toList == asc "asn-range".toList) = false ∧ (asc "inherit".toList == asc "asn".toList) = false := by decide +kernel

theorem readAS_range (a b : UInt32) : readAS (OutASN.json ⟨0, [a, b], false⟩) = some (.range a.toNat b.toNat) := by
  obtain ⟨h1, h2, h3, h4, h5, h6⟩ := keys_ne
  simp [OutASN.json, readAS]

theorem readAS_asn (a : UInt32) (h : a ≠ 0) : readAS (OutASN.json ⟨a, [], false⟩) = some (.asn a.toNat) := by
  obtain ⟨h1, h2, h3, h4, h5, h6⟩ := keys_ne
  simp only [OutASN.json, h, readAS, if_true, if_false, List.append_nil, List.lookup, h1, beq_self_eq_true]
  rfl

theorem readAS_null : readAS (OutASN.json ⟨0, [], true⟩) = some .null := by decide +kernel
theorem readAS_zero : readAS (OutASN.json ⟨0, [], false⟩) = none := by decide +kernel

/-- **C84, AS resources (partial: see `C84_violated_as0`).** An AS resource of a certificate can be read from resources.json
    exactly if it is an AS number between 1 and 2^32-1, a range of 32-bit numbers, or the mark for inherited resources. -/
theorem C84_as_read_partial (a : ASInfo) : readAS (outASN a).json = some a ↔
    (match a with | .asn n => InU32 n ∧ n ≠ 0 | .range x y => InU32 x ∧ InU32 y | .null => True) := by
  cases a with
  | null => simp [outASN, readAS_null]
  | range x y =>
    simp only [outASN, readAS_range, Option.some.injEq, ASInfo.range.injEq]
    constructor
    · rintro ⟨h1, h2⟩
      exact ⟨h1 ▸ toUint32_lt x, h2 ▸ toUint32_lt y⟩
    · rintro ⟨h1, h2⟩
      exact ⟨toUint32_val h1, toUint32_val h2⟩
  | asn n =>
    simp only [outASN]
    by_cases hz : toUint32 n = 0
    · rw [hz, readAS_zero]
      simp only [reduceCtorEq, false_iff, not_and, not_not]
      intro h
      exact (toUint32_zero h).mp hz
    · rw [readAS_asn _ hz]
      simp only [Option.some.injEq, ASInfo.asn.injEq]
      constructor
      · intro h
        refine ⟨h ▸ toUint32_lt n, ?_⟩
        rintro rfl
        exact hz rfl
      · rintro ⟨h, _⟩
        exact toUint32_val h

/-- **C84, AS numbers of more than 32 bits** are shown by their remainder modulo 2^32. -/
theorem C84_as_remainder (n : Int) : ((toUint32 n).toNat : Int) = n % 2 ^ 32 := by
  unfold toUint32
  rw [UInt32.toNat_ofNat']
  omega

example : ((toUint32 (2 ^ 32 + 7)).toNat : Int) = 7 ∧ ((toUint32 (-1)).toNat : Int) = 2 ^ 32 - 1 := by decide +kernel

theorem outIPs_ok {nilNet : Go Bytes} : ∀ {l : List IPInfo} {os : List OutIP}, outIPs nilNet l = .ok os →
    os.length = l.length ∧ ∀ (i : Nat) (x : IPInfo) (o : OutIP), l[i]? = some x → os[i]? = some o → ShowsIP x o
  | [], os, h => by simp [outIPs] at h; subst h; simp
  | y :: l, os, h => by
    unfold outIPs at h
    obtain ⟨o', ho, h⟩ := Go.bind_eq_ok.mp h
    obtain ⟨os', hos, h⟩ := Go.bind_eq_ok.mp h
    simp only [Go.pure_def, Go.ok.injEq] at h
    subst h
    obtain ⟨h1, h2⟩ := outIPs_ok hos
    refine ⟨by simp [h1], ?_⟩
    intro i x o hx ho'
    cases i with
    | succ i => exact h2 i x o (by simpa using hx) (by simpa using ho')
    | zero =>
      simp at hx ho'
      subst hx; subst ho'
      unfold outIP at ho
      split at ho
      · simp at ho; subst ho; rfl
      · simp at ho; subst ho; rfl
      · obtain ⟨s, _, ho⟩ := Go.bind_eq_ok.mp ho
        simp at ho; subst ho; exact ⟨rfl, rfl⟩
      · simp at ho; subst ho; rfl

/-! ### The loops -/

theorem walkKeys_ok {f : Bytes → Go (List OutRes)} : ∀ {ks : List Bytes} {l : List OutRes}, walkKeys f ks = .ok l →
    ∀ e, e ∈ l ↔ ∃ k ∈ ks, ∃ a, f k = .ok a ∧ e ∈ a
  | [], l, h, e => by simp [walkKeys] at h; subst h; simp
  | k :: ks, l, h, e => by
    unfold walkKeys at h
    obtain ⟨a, ha, h⟩ := Go.bind_eq_ok.mp h
    obtain ⟨l', hl, h⟩ := Go.bind_eq_ok.mp h
    simp only [Go.pure_def, Go.ok.injEq] at h
    subst h
    simp only [List.mem_append, walkKeys_ok hl e, List.mem_cons]
    constructor
    · rintro (he | ⟨k', hk', q⟩)
      · exact ⟨k, .inl rfl, a, ha, he⟩
      · exact ⟨k', .inr hk', q⟩
    · rintro ⟨k', rfl | hk', a', ha', he⟩
      · rw [ha] at ha'
        simp at ha'; subst ha'
        exact .inl he
      · exact .inr ⟨k', hk', a', ha', he⟩

theorem walkKeys_all {f : Bytes → Go (List OutRes)} : ∀ {ks : List Bytes} {l : List OutRes}, walkKeys f ks = .ok l →
    ∀ k ∈ ks, ∃ a, f k = .ok a
  | [], l, h, k, hk => by simp at hk
  | k0 :: ks, l, h, k, hk => by
    unfold walkKeys at h
    obtain ⟨a, ha, h⟩ := Go.bind_eq_ok.mp h
    obtain ⟨l', hl, h⟩ := Go.bind_eq_ok.mp h
    rcases List.mem_cons.mp hk with rfl | hk
    · exact ⟨a, ha⟩
    · exact walkKeys_all hl k hk

theorem allRes_ok {sha : Bytes → Bytes} {nilNet : Go Bytes} {names : List Bytes} {n : Nat} {w : Nat → Walk} :
    ∀ {ms : List (TalRun × M)} {i : Nat} {rs : List OutRes}, allRes sha nilNet names n w i ms = .ok rs →
    (∀ e, e ∈ rs ↔ ∃ a r m l, ms[a]? = some (r, m) ∧ talRes sha nilNet (talName names n (i + a) r.path) (w (i + a)) r m = .ok l ∧ e ∈ l) ∧
    ∀ a r m, ms[a]? = some (r, m) → ∃ l, talRes sha nilNet (talName names n (i + a) r.path) (w (i + a)) r m = .ok l
  | [], i, rs, h => by simp [allRes] at h; subst h; simp
  | (r0, m0) :: ms, i, rs, h => by
    unfold allRes at h
    obtain ⟨x, hx, h⟩ := Go.bind_eq_ok.mp h
    obtain ⟨y, hy, h⟩ := Go.bind_eq_ok.mp h
    simp only [Go.pure_def, Go.ok.injEq] at h
    subst h
    obtain ⟨h1, h2⟩ := allRes_ok hy
    constructor
    · intro e
      rw [List.mem_append, h1 e]
      constructor
      · rintro (he | ⟨a, r, m, l, e1, e2, e3⟩)
        · exact ⟨0, r0, m0, x, by simp, hx, he⟩
        · exact ⟨a + 1, r, m, l, by simpa using e1, by rw [show i + (a + 1) = i + 1 + a by omega]; exact e2, e3⟩
      · rintro ⟨a, r, m, l, e1, e2, e3⟩
        cases a with
        | zero =>
          simp at e1
          obtain ⟨rfl, rfl⟩ := e1
          simp only [Nat.add_zero] at e2
          rw [hx] at e2
          simp at e2; subst e2
          exact .inl e3
        | succ a =>
          exact .inr ⟨a, r, m, l, by simpa using e1, by rw [show i + 1 + a = i + (a + 1) by omega]; exact e2, e3⟩
    · intro a r m e1
      cases a with
      | zero =>
        simp at e1
        obtain ⟨rfl, rfl⟩ := e1
        exact ⟨x, hx⟩
      | succ a =>
        obtain ⟨l, hl⟩ := h2 a r m (by simpa using e1)
        exact ⟨l, by rw [show i + (a + 1) = i + 1 + a by omega]; exact hl⟩

/-! ### Where objects come from -/

/-- Each object but CRLs has the file that it was decoded from, and the type that goes with it. -/
theorem origin {W : World} {f0 : PKIFile} {m : M} (h : EInv W f0 m) {j : Nat} {res : Res} (hj : m.v.heap[j]? = some res)
    (hc : ∀ l, res.data ≠ .crl l) : ∃ fid f n data s, res.file = some fid ∧ m.files[fid]? = some f ∧ Event.added fid data s ∈ m.trace ∧
      W.getFile n (m.pathOf fid) f = .found data s ∧ FromFile W.env data f.type res.data ∧ res.type = typeFor f.type res.data := by
  obtain ⟨fid, data, s, h1, f, h2, h3, h4, h5⟩ := h.typed j (res.data, res.type, res.file) (by unfold V.core; rw [hj]; rfl)
  obtain ⟨g, n, e1, e2⟩ := h.fetch fid data s h1
  rw [h2] at e1
  simp at e1; subst e1
  rcases h5 with ⟨l, hl⟩ | h5
  · exact (hc l hl).elim
  · exact ⟨fid, f, n, data, s, h5, h2, h1, e2, h3, h4⟩

/-- How a certificate or a ROA became known. -/
theorem came_known {W : World} {f0 : PKIFile} (h00 : f0.parent = none) (h0 : f0.type = .tal) {m : M} (h : EInv W f0 m) {strict : Bool} {cfg : Cfg}
    (hc : cfg.notMFT = false) (hs : cfg.strictHash = strict) (hl : Life W (fun _ => True) (· = cfg) m) {fid : Nat} {f : PKIFile}
    {data : Bytes} {s : Option Bytes} (hf : m.files[fid]? = some f) (ha : Event.added fid data s ∈ m.trace) (ht : f.type = .cer ∨ f.type = .roa) :
    (f.type = .cer ∧ AtAnchor W f0 f) ∨ ∃ hash, ListedWith W m f hash ∧ (strict = true → ∀ x, s = some x → x = hash) := by
  rcases h.known fid f hf with rfl | ⟨p, pf, data', sha', _, q1, q2, q3⟩
  · have := h.file0
    rw [hf] at this
    simp at this
    rw [this, h0] at ht
    simp at ht
  · obtain ⟨g, n', r1, r2⟩ := h.fetch p data' sha' q2
    rw [q1] at r1
    simp at r1; subst r1
    generalize hpt : pf.type = ty at q3
    cases q3 with
    | anchor t _ hd hp hu hty _ _ =>
      left
      refine ⟨hty, n', data', sha', t, ?_, hd, hu⟩
      have hp0 := h.tal p pf q1 hpt
      subst hp0
      have hfile := h.file0
      rw [q1] at hfile
      simp at hfile; subst hfile
      have : m.pathOf 0 = pf.path := by
        unfold M.pathOf
        rw [q1]
        simp [PKIFile.computePath, h00]
      rw [← this]; exact r2
    | pointer c _ _ _ hty _ _ => rcases hty with ⟨hty, _⟩ | ⟨hty, _⟩ <;> rw [hty] at ht <;> simp at ht
    | listed mft _ hash hd hi hp hmem _ hh _ =>
      right
      refine ⟨hash, ⟨p, pf, n', data', sha', mft, hp, q1, hpt, r2, hd, hi, hmem⟩, ?_⟩
      intro hst x hx
      obtain ⟨f', _, w1, _, w3⟩ := C28_hash_enforced W (fun _ => True) (· = cfg)
        (by rintro _ rfl; exact ⟨hc, by rw [hs]; exact hst⟩) m hl fid data s ha
      rw [hf] at w1
      simp at w1; subst w1
      exact w3 x hash hx hh

theorem fileInfo_ok {sha : Bytes → Bytes} {r : TalRun} {m : M} {fid : Nat} {f : PKIFile} (hf : m.files[fid]? = some f) {x : Bytes × Bytes}
    (h : fileInfo sha r m (some fid) = .ok x) : x.1 = m.pathOf fid ∧ ∀ d s, r.reread f = .found d s → x.2 = hexString (sha d) := by
  unfold fileInfo at h
  simp only [hf] at h
  split at h
  · simp at h
  · rename_i hr
    simp at h; subst h
    exact ⟨rfl, by simp [hr]⟩
  · rename_i d s hr
    simp at h; subst h
    refine ⟨rfl, ?_⟩
    intro d' s' he
    rw [hr] at he
    simp at he
    rw [he.1]

theorem named {names : List Bytes} {n i : Nat} {run : TalRun} {e : OutRes} (hi : i < n) (h : e.ta = talName names n i run.path) :
    NamedAs names n i run e := by
  unfold NamedAs talName at *
  constructor
  · intro hn
    rw [if_pos hn] at h
    rw [List.getElem?_eq_getElem (by omega)] at h ⊢
    simp at h
    rw [h]
  · intro hn
    rw [if_neg hn] at h
    exact h

theorem cerRes_ok {sha : Bytes → Bytes} {nilNet : Go Bytes} {ta : Bytes} {r : TalRun} {m : M} {k : Bytes} {a : List OutRes}
    (h : cerRes sha nilNet ta r m k = .ok a) : ∃ j res, m.v.validObjects.get k = some j ∧ m.v.heap[j]? = some res ∧
      ((res.type ≠ .cer ∧ a = []) ∨ (res.type = .cer ∧ ∃ c info ips, res.data = .cert c ∧ fileInfo sha r m res.file = .ok info ∧
        outIPs nilNet c.ips = .ok ips ∧ a = [{ baseRes .certificate ta c info with
            sias := c.sia.map (·.2), ips := ips, asns := c.asns.map outASN }])) := by
  unfold cerRes at h
  split at h
  · simp at h
  · rename_i j hj
    split at h
    · simp at h
    · rename_i res hres
      refine ⟨j, res, hj, hres, ?_⟩
      split at h
      · rename_i ht
        split at h
        · rename_i c hc
          obtain ⟨info, h1, h⟩ := Go.bind_eq_ok.mp h
          obtain ⟨ips, h2, h⟩ := Go.bind_eq_ok.mp h
          simp only [Go.pure_def, Go.ok.injEq] at h
          exact .inr ⟨ht, c, info, ips, hc, h1, h2, h.symm⟩
        · simp at h
      · rename_i ht
        simp at h
        exact .inl ⟨ht, h⟩

theorem roaRes_ok {sha : Bytes → Bytes} {ta : Bytes} {r : TalRun} {m : M} {k : Bytes} {a : List OutRes}
    (h : roaRes sha ta r m k = .ok a) : ∃ j res roa info, m.v.validROA.get k = some j ∧ m.v.heap[j]? = some res ∧
      res.data = .roa roa ∧ fileInfo sha r m res.file = .ok info ∧ a = [{ baseRes .roa ta roa.cert info with
          asn := toUint32 roa.asn, roas := roa.valids.map fun e => (ipNetString e.ipnet, e.maxLength) }] := by
  unfold roaRes at h
  split at h
  · simp at h
  · rename_i j hj
    split at h
    · simp at h
    · rename_i res hres
      split at h
      · rename_i roa hc
        obtain ⟨info, h1, h⟩ := Go.bind_eq_ok.mp h
        simp only [Go.pure_def, Go.ok.injEq] at h
        exact ⟨j, res, roa, info, hj, hres, hc, h1, h.symm⟩
      · simp at h

theorem mftRes_ok {sha : Bytes → Bytes} {ta : Bytes} {r : TalRun} {m : M} {k : Bytes} {a : List OutRes}
    (h : mftRes sha ta r m k = .ok a) : ∃ j res mft info, m.v.validManifest.get k = some j ∧ m.v.heap[j]? = some res ∧
      res.data = .mft mft ∧ fileInfo sha r m res.file = .ok info ∧ a = [{ baseRes .manifest ta mft.cert info with
          files := mft.fileList.map (·.1), thisUpdate := seconds mft.thisUpdate, nextUpdate := seconds mft.nextUpdate }] := by
  unfold mftRes at h
  split at h
  · simp at h
  · rename_i j hj
    split at h
    · simp at h
    · rename_i res hres
      split at h
      · rename_i mft hc
        obtain ⟨info, h1, h⟩ := Go.bind_eq_ok.mp h
        simp only [Go.pure_def, Go.ok.injEq] at h
        exact ⟨j, res, mft, info, hj, hres, hc, h1, h.symm⟩
      · simp at h

/-- The entries of one TAL, by their kinds. -/
theorem talRes_kinds {sha : Bytes → Bytes} {nilNet : Go Bytes} {ta : Bytes} {w : Walk} {r : TalRun} {m : M} {l : List OutRes}
    (h : talRes sha nilNet ta w r m = .ok l) (e : OutRes) :
    (e ∈ l ∧ e.kind = .certificate ↔ ∃ k a, (m.v.validObjects.get k).isSome = true ∧ cerRes sha nilNet ta r m k = .ok a ∧ e ∈ a) ∧
    (e ∈ l ∧ e.kind = .roa ↔ ∃ k a, (m.v.validROA.get k).isSome = true ∧ roaRes sha ta r m k = .ok a ∧ e ∈ a) ∧
    (e ∈ l ∧ e.kind = .manifest ↔ ∃ k a, (m.v.validManifest.get k).isSome = true ∧ mftRes sha ta r m k = .ok a ∧ e ∈ a) := by
  unfold talRes at h
  obtain ⟨a, ha, h⟩ := Go.bind_eq_ok.mp h
  obtain ⟨b, hb, h⟩ := Go.bind_eq_ok.mp h
  obtain ⟨c, hc, h⟩ := Go.bind_eq_ok.mp h
  simp only [Go.pure_def, Go.ok.injEq] at h
  subst h
  have ka : e ∈ a → e.kind = .certificate := by
    intro he
    obtain ⟨k, _, x, hx, he⟩ := (walkKeys_ok ha e).mp he
    obtain ⟨_, _, _, _, ⟨_, rfl⟩ | ⟨_, _, _, _, _, _, _, rfl⟩⟩ := cerRes_ok hx
    · simp at he
    · simp at he; subst he; rfl
  have kb : e ∈ b → e.kind = .roa := by
    intro he
    obtain ⟨k, _, x, hx, he⟩ := (walkKeys_ok hb e).mp he
    obtain ⟨_, _, _, _, _, _, _, _, rfl⟩ := roaRes_ok hx
    simp at he; subst he; rfl
  have kc : e ∈ c → e.kind = .manifest := by
    intro he
    obtain ⟨k, _, x, hx, he⟩ := (walkKeys_ok hc e).mp he
    obtain ⟨_, _, _, _, _, _, _, _, rfl⟩ := mftRes_ok hx
    simp at he; subst he; rfl
  have ma : e ∈ a ↔ ∃ k x, (m.v.validObjects.get k).isSome = true ∧ cerRes sha nilNet ta r m k = .ok x ∧ e ∈ x := by
    rw [walkKeys_ok ha e]
    constructor
    · rintro ⟨k, hk, x, q⟩
      exact ⟨k, x, mem_keysOf.mp ((w.permCer _).mem_iff.mp hk), q⟩
    · rintro ⟨k, x, hk, q⟩
      exact ⟨k, (w.permCer _).mem_iff.mpr (mem_keysOf.mpr hk), x, q⟩
  have mb : e ∈ b ↔ ∃ k x, (m.v.validROA.get k).isSome = true ∧ roaRes sha ta r m k = .ok x ∧ e ∈ x := by
    rw [walkKeys_ok hb e]
    constructor
    · rintro ⟨k, hk, x, q⟩
      exact ⟨k, x, mem_keysOf.mp ((r.perm _).mem_iff.mp hk), q⟩
    · rintro ⟨k, x, hk, q⟩
      exact ⟨k, (r.perm _).mem_iff.mpr (mem_keysOf.mpr hk), x, q⟩
  have mc : e ∈ c ↔ ∃ k x, (m.v.validManifest.get k).isSome = true ∧ mftRes sha ta r m k = .ok x ∧ e ∈ x := by
    rw [walkKeys_ok hc e]
    constructor
    · rintro ⟨k, hk, x, q⟩
      exact ⟨k, x, mem_keysOf.mp ((w.permMft _).mem_iff.mp hk), q⟩
    · rintro ⟨k, x, hk, q⟩
      exact ⟨k, (w.permMft _).mem_iff.mpr (mem_keysOf.mpr hk), x, q⟩
  refine ⟨?_, ?_, ?_⟩
  · rw [← ma]
    constructor
    · rintro ⟨he, hk⟩
      simp only [List.mem_append] at he
      rcases he with (he | he) | he
      · exact he
      · rw [kb he] at hk; simp at hk
      · rw [kc he] at hk; simp at hk
    · intro he
      exact ⟨by simp [he], ka he⟩
  · rw [← mb]
    constructor
    · rintro ⟨he, hk⟩
      simp only [List.mem_append] at he
      rcases he with (he | he) | he
      · rw [ka he] at hk; simp at hk
      · exact he
      · rw [kc he] at hk; simp at hk
    · intro he
      exact ⟨by simp [he], kb he⟩
  · rw [← mc]
    constructor
    · rintro ⟨he, hk⟩
      simp only [List.mem_append] at he
      rcases he with (he | he) | he
      · rw [ka he] at hk; simp at hk
      · rw [kb he] at hk; simp at hk
      · exact he
    · intro he
      exact ⟨by simp [he], kc he⟩

/-! ### The file -/

theorem resources_parts {sha : Bytes → Bytes} {nilNet : Go Bytes} {w : Nat → Walk} {fl : Flags} {names : List Bytes} {now : Int}
    {runs : List TalRun} {ms : List (TalRun × M)} {L : ROAList} {rs : List OutRes}
    (h : mainResources sha nilNet w fl names now runs = .ok (ms, L, rs)) :
    mainValidation fl names now runs = .ok (ms, L) ∧ allRes sha nilNet names runs.length w 0 ms = .ok rs := by
  unfold mainResources at h
  obtain ⟨⟨x1, x2⟩, hx, h⟩ := Go.bind_eq_ok.mp h
  obtain ⟨y, hy, h⟩ := Go.bind_eq_ok.mp h
  simp at h
  obtain ⟨rfl, rfl, rfl⟩ := h
  exact ⟨hx, hy⟩

/-- The setting of the theorems on one TAL. -/
theorem resources_tal {sha : Bytes → Bytes} {nilNet : Go Bytes} {w : Nat → Walk} {fl : Flags} (hm : fl.useManifest = true)
    {names : List Bytes} {now : Int} {runs : List TalRun}
    (hk : ∀ run ∈ runs, ∀ d c, run.world.env.parseCert d = .ok c → TalSpec.CertKey c.isRSA c.pubKey)
    {ms : List (TalRun × M)} {L : ROAList} {rs : List OutRes} (h : mainResources sha nilNet w fl names now runs = .ok (ms, L, rs))
    {i : Nat} {run : TalRun} {m : M} (hi : ms[i]? = some (run, m)) :
    runs[i]? = some run ∧ i < runs.length ∧ EInv run.world run.file m ∧ Life run.world (fun _ => True) (· = fl.cfg) m ∧
      ∃ l, talRes sha nilNet (talName names runs.length i run.path) (w i) run m = .ok l ∧ ∀ e ∈ l, e ∈ rs := by
  obtain ⟨h1, h2⟩ := resources_parts h
  obtain ⟨hx, _⟩ := main_parts h1
  obtain ⟨hruns, hexp⟩ := exploreTals_ok hx
  have hrun : runs[i]? = some run := by rw [← hruns]; simp [hi]
  obtain ⟨hinv, hlife⟩ := explore_einv fl hm run (hk run (List.mem_of_getElem? hrun)) m (hexp _ (List.mem_of_getElem? hi))
  obtain ⟨g1, g2⟩ := allRes_ok h2
  obtain ⟨l, hl⟩ := g2 i run m hi
  rw [Nat.zero_add] at hl
  refine ⟨hrun, (List.getElem?_eq_some_iff.mp hrun).1, hinv, hlife, l, hl, ?_⟩
  intro e he
  exact (g1 e).mpr ⟨i, run, m, l, hi, by rw [Nat.zero_add]; exact hl, he⟩

theorem resources_mem {sha : Bytes → Bytes} {nilNet : Go Bytes} {w : Nat → Walk} {fl : Flags} {names : List Bytes} {now : Int}
    {runs : List TalRun} {ms : List (TalRun × M)} {L : ROAList} {rs : List OutRes}
    (h : mainResources sha nilNet w fl names now runs = .ok (ms, L, rs)) {e : OutRes} (he : e ∈ rs) :
    ∃ i run m l, ms[i]? = some (run, m) ∧ talRes sha nilNet (talName names runs.length i run.path) (w i) run m = .ok l ∧ e ∈ l := by
  obtain ⟨i, run, m, l, h1, h2, h3⟩ := ((allRes_ok (resources_parts h).2).1 e).mp he
  exact ⟨i, run, m, l, h1, by rw [Nat.zero_add] at h2; exact h2, h3⟩

theorem shows_base {sha : Bytes → Bytes} {run : TalRun} {m : M} {c : Pki.Cert} {fid : Nat} {f : PKIFile} {e : OutRes} {kind : Kind} {ta : Bytes}
    {info : Bytes × Bytes} (hf : m.files[fid]? = some f) (hi : fileInfo sha run m (some fid) = .ok info)
    (h1 : e.ski = (baseRes kind ta c info).ski) (h2 : e.aki = (baseRes kind ta c info).aki) (h3 : e.serial = (baseRes kind ta c info).serial)
    (h4 : e.validFrom = (baseRes kind ta c info).validFrom) (h5 : e.validTo = (baseRes kind ta c info).validTo)
    (h6 : e.path = (baseRes kind ta c info).path) (h7 : e.hash = (baseRes kind ta c info).hash) : Shows sha run m c fid f e := by
  obtain ⟨g1, g2⟩ := fileInfo_ok hf hi
  refine ⟨h1, h2, h3, ?_, ?_, h6.trans g1, ?_⟩
  · intro s hs; rw [h4]; exact seconds_at hs
  · intro s hs; rw [h5]; exact seconds_at hs
  · intro d s hd; rw [h7]; exact g2 d s hd

theorem showsRes_cer {nilNet : Go Bytes} {c : Pki.Cert} {ips : List OutIP} {e : OutRes} (hi : outIPs nilNet c.ips = .ok ips)
    (h1 : e.sias = c.sia.map (·.2)) (h2 : e.ips = ips) (h3 : e.asns = c.asns.map outASN) : ShowsRes c e := by
  obtain ⟨g1, g2⟩ := outIPs_ok hi
  refine ⟨h1, by rw [h2, g1], by rw [h2]; exact g2, by rw [h3]; simp, ?_⟩
  intro i a o ha ho hok
  rw [h3] at ho
  simp [ha] at ho
  subst ho
  exact (C84_as_read_partial a).mpr hok

/-- **C84, certificates.** Each certificate in resources.json is valid at the end of the validation for the TAL it names: a chain of
    valid certificates leads from it to one with the key of the TAL. It was read from a certificate file with the path that is
    shown, the hash that is shown is that of the file as it is stored, and the file is where the TAL says or is listed by
    a manifest with a good signature (with strict hashes, with the hash that is shown). -/
theorem C84_certificate_backed (sha : Bytes → Bytes) (nilNet : Go Bytes) (w : Nat → Walk) (fl : Flags) (hm : fl.useManifest = true)
    (names : List Bytes) (now : Int) (runs : List TalRun)
    (hk : ∀ run ∈ runs, ∀ d c, run.world.env.parseCert d = .ok c → TalSpec.CertKey c.isRSA c.pubKey)
    (ms : List (TalRun × M)) (L : ROAList) (rs : List OutRes) (h : mainResources sha nilNet w fl names now runs = .ok (ms, L, rs))
    (e : OutRes) (he : e ∈ rs) (hkind : e.kind = .certificate) :
    ∃ (i : Nat) (run : TalRun) (m : M) (c : Pki.Cert) (fid : Nat) (f : PKIFile) (n : Nat) (data : Bytes) (s : Option Bytes),
      runs[i]? = some run ∧ ms[i]? = some (run, m) ∧ NamedAs names runs.length i run e ∧
      IsValid m.v c.ski c ∧ Chain run.world.env (AnchorOf run.world run.file) m.v c.ski ∧
      m.files[fid]? = some f ∧ f.type = .cer ∧ run.world.getFile n (m.pathOf fid) f = .found data s ∧ run.world.env.parseCert data = .ok c ∧
      Shows sha run m c fid f e ∧ ShowsRes c e ∧
      (AtAnchor run.world run.file f ∨ ∃ hash, ListedWith run.world m f hash ∧
        (fl.strictHash = true → Steady sha run m → e.hash = hexString hash)) := by
  obtain ⟨i, run, m, l, h1, h2, h3⟩ := resources_mem h he
  obtain ⟨hrun, hlt, hinv, hlife, _⟩ := resources_tal hm hk h h1
  obtain ⟨k, a, _, ha, hea⟩ := (talRes_kinds h2 e).1.mp ⟨h3, hkind⟩
  obtain ⟨j, res, hj, hres, ⟨_, rfl⟩ | ⟨hty, c, info, ips, hd, hinfo, hips, rfl⟩⟩ := cerRes_ok ha
  · simp at hea
  simp only [List.mem_singleton] at hea
  obtain ⟨fid, f, n, data, s, o1, o2, o3, o4, o5, o6⟩ := origin hinv hres (by rw [hd]; simp)
  rw [hd] at o5 o6
  rw [hty] at o6
  have hft : f.type = .cer ∧ run.world.env.parseCert data = .ok c := by
    generalize f.type = ty at o5 o6
    cases o5 with
    | cer _ hc => exact ⟨rfl, hc⟩
    | roaCert _ _ => simp [typeFor] at o6
    | mftCert _ _ => simp [typeFor] at o6
  rw [o1] at hinfo
  have hvalid : IsValid m.v k c := ⟨j, hj, by unfold V.certOf; rw [hres]; simp [hd]⟩
  obtain ⟨ops, p1, p2, p3⟩ := hinv.run
  have hr : Reachable run.world.env (AnchorOf run.world run.file) m.v := ⟨ops, p1, p3⟩
  have hski := (isValid_inv (reachable_inv hr) hvalid).1
  have hshows : Shows sha run m c fid f e := by
    subst hea
    exact shows_base (kind := .certificate) (ta := talName names runs.length i run.path) o2 hinfo rfl rfl rfl rfl rfl rfl rfl
  refine ⟨i, run, m, c, fid, f, n, data, s, hrun, h1, named hlt (by rw [hea]; rfl), hski ▸ hvalid,
    hski ▸ C15_chain_of_trust _ _ _ hr k c hvalid, o2, hft.1, o4, hft.2, hshows, ?_, ?_⟩
  · subst hea; exact showsRes_cer hips rfl rfl rfl
  · rcases came_known rfl rfl hinv (cfg := fl.cfg) (by simp [Flags.cfg, hm]) rfl hlife o2 o3 (.inl hft.1) with ⟨_, q⟩ | ⟨hash, q1, q2⟩
    · exact .inl q
    · refine .inr ⟨hash, q1, ?_⟩
      intro hst hsteady
      obtain ⟨d', s', r1, r2⟩ := hsteady fid f n data s o2 (by rw [hft.1]; simp) o4
      rw [hshows.hash d' s' r1, q2 hst _ r2]

/-- **C84, completeness for certificates.** Each certificate that is valid at the end of the validation for a TAL is in
    resources.json, or it is the EE certificate of a ROA or of a manifest that was read. -/
theorem C84_certificate_complete (sha : Bytes → Bytes) (nilNet : Go Bytes) (w : Nat → Walk) (fl : Flags) (hm : fl.useManifest = true)
    (names : List Bytes) (now : Int) (runs : List TalRun)
    (hk : ∀ run ∈ runs, ∀ d c, run.world.env.parseCert d = .ok c → TalSpec.CertKey c.isRSA c.pubKey)
    (ms : List (TalRun × M)) (L : ROAList) (rs : List OutRes) (h : mainResources sha nilNet w fl names now runs = .ok (ms, L, rs))
    (i : Nat) (run : TalRun) (m : M) (hi : ms[i]? = some (run, m)) (k : Bytes) (c : Pki.Cert) (hv : IsValid m.v k c) :
    (∃ e ∈ rs, ∃ fid f, e.kind = .certificate ∧ NamedAs names runs.length i run e ∧ m.files[fid]? = some f ∧
      Shows sha run m c fid f e ∧ ShowsRes c e) ∨
    ∃ fid f n data s, m.files[fid]? = some f ∧ run.world.getFile n (m.pathOf fid) f = .found data s ∧
      ((f.type = .roa ∧ ∃ roa, decodeROA run.world.env data = .ok roa ∧ roa.cert = c) ∨
       (f.type = .mft ∧ ∃ mft, run.world.env.parseMft data = .ok mft ∧ mft.cert = c)) := by
  obtain ⟨hrun, hlt, hinv, hlife, l, hl, hsub⟩ := resources_tal hm hk h hi
  obtain ⟨j, hj, hc⟩ := hv
  obtain ⟨res, hres, hd⟩ : ∃ res, m.v.heap[j]? = some res ∧ res.data = .cert c := by
    unfold V.certOf at hc
    split at hc
    · rename_i r hr
      split at hc
      · rename_i c' hc'
        simp at hc; subst hc
        exact ⟨r, hr, hc'⟩
      · simp at hc
    · simp at hc
  obtain ⟨fid, f, n, data, s, o1, o2, o3, o4, o5, o6⟩ := origin hinv hres (by rw [hd]; simp)
  rw [hd] at o5 o6
  have hcases : res.type = .cer ∨ ((f.type = .roa ∧ ∃ roa, decodeROA run.world.env data = .ok roa ∧ roa.cert = c) ∨
       (f.type = .mft ∧ ∃ mft, run.world.env.parseMft data = .ok mft ∧ mft.cert = c)) := by
    generalize f.type = ty at o5 o6
    cases o5 with
    | cer _ hc => left; rw [o6]; rfl
    | roaCert r hr => exact .inr (.inl ⟨rfl, r, hr, rfl⟩)
    | mftCert r hr => exact .inr (.inr ⟨rfl, r, hr, rfl⟩)
  rcases hcases with ht | ht
  · left
    have hl' := hl
    unfold talRes at hl'
    obtain ⟨a, ha, _⟩ := Go.bind_eq_ok.mp hl'
    obtain ⟨x, hx⟩ := walkKeys_all ha k (((w i).permCer _).mem_iff.mpr (mem_keysOf.mpr (by simp [hj])))
    obtain ⟨j', res', q1, q2, ⟨q3, _⟩ | ⟨_, c', info, ips, r1, r2, r3, r4⟩⟩ := cerRes_ok hx
    · rw [hj] at q1; simp at q1; subst q1
      rw [hres] at q2; simp at q2; subst q2
      exact (q3 ht).elim
    · rw [hj] at q1; simp at q1; subst q1
      rw [hres] at q2; simp at q2; subst q2
      rw [hd] at r1; simp at r1; subst r1
      have hmem := (talRes_kinds hl _).1.mpr ⟨k, x, by simp [hj], hx, by rw [r4]; exact List.mem_singleton_self _⟩
      rw [o1] at r2
      exact ⟨_, hsub _ hmem.1, fid, f, hmem.2, named hlt rfl, o2, shows_base (kind := .certificate) (ta := talName names runs.length i run.path) o2 r2 rfl rfl rfl rfl rfl rfl rfl,
        showsRes_cer r3 rfl rfl rfl⟩
  · exact .inr ⟨fid, f, n, data, s, o2, o4, ht⟩

/-- **C84, ROAs.** Each ROA in resources.json is a valid one of the TAL it names, with a good signature and an EE certificate that is
    valid and has a chain to the TAL; it was read from the file with the path and the hash that are shown, and a manifest with a good
    signature lists the file (with strict hashes, with the hash that is shown); the prefixes and max lengths are those that were found authorised. -/
theorem C84_roa_backed (sha : Bytes → Bytes) (nilNet : Go Bytes) (w : Nat → Walk) (fl : Flags) (hm : fl.useManifest = true)
    (names : List Bytes) (now : Int) (runs : List TalRun)
    (hk : ∀ run ∈ runs, ∀ d c, run.world.env.parseCert d = .ok c → TalSpec.CertKey c.isRSA c.pubKey)
    (ms : List (TalRun × M)) (L : ROAList) (rs : List OutRes) (h : mainResources sha nilNet w fl names now runs = .ok (ms, L, rs))
    (e : OutRes) (he : e ∈ rs) (hkind : e.kind = .roa) :
    ∃ (i : Nat) (run : TalRun) (m : M) (roa : ROA) (fid : Nat) (f : PKIFile) (n : Nat) (data : Bytes) (s : Option Bytes),
      runs[i]? = some run ∧ ms[i]? = some (run, m) ∧ NamedAs names runs.length i run e ∧
      roa.innerValid = true ∧ IsValid m.v roa.cert.ski roa.cert ∧ Chain run.world.env (AnchorOf run.world run.file) m.v roa.cert.ski ∧
      m.files[fid]? = some f ∧ f.type = .roa ∧ run.world.getFile n (m.pathOf fid) f = .found data s ∧ decodeROA run.world.env data = .ok roa ∧
      Shows sha run m roa.cert fid f e ∧ (InU32 roa.asn → (e.asn.toNat : Int) = roa.asn) ∧ (e.asn.toNat : Int) = roa.asn % 2 ^ 32 ∧
      e.roas = roa.valids.map (fun x => (ipNetString x.ipnet, x.maxLength)) ∧
      ∃ hash, ListedWith run.world m f hash ∧ (fl.strictHash = true → Steady sha run m → e.hash = hexString hash) := by
  obtain ⟨i, run, m, l, h1, h2, h3⟩ := resources_mem h he
  obtain ⟨hrun, hlt, hinv, hlife, _⟩ := resources_tal hm hk h h1
  obtain ⟨k, a, _, ha, hea⟩ := (talRes_kinds h2 e).2.1.mp ⟨h3, hkind⟩
  obtain ⟨j, res, roa, info, hj, hres, hd, hinfo, rfl⟩ := roaRes_ok ha
  simp only [List.mem_singleton] at hea
  obtain ⟨fid, f, n, data, s, o1, o2, o3, o4, o5, o6⟩ := origin hinv hres (by rw [hd]; simp)
  rw [hd] at o5
  have hft : f.type = .roa ∧ decodeROA run.world.env data = .ok roa := by
    generalize f.type = ty at o5
    cases o5 with
    | roa _ hc => exact ⟨rfl, hc⟩
  rw [o1] at hinfo
  obtain ⟨ops, p1, p2, p3⟩ := hinv.run
  have hr : Reachable run.world.env (AnchorOf run.world run.file) m.v := ⟨ops, p1, p3⟩
  obtain ⟨roa', ⟨res', c0, c1⟩, c2, c3, _⟩ := C23_exported_authorised run.world.env (AnchorOf run.world run.file) ops p1 p2 m.v p3 k j hj
  rw [hres] at c0; simp at c0; subst c0
  rw [hd] at c1; simp at c1; subst c1
  have hski := (isValid_inv (reachable_inv hr) c3).1
  have hshows : Shows sha run m roa.cert fid f e := by
    subst hea
    exact shows_base (kind := .roa) (ta := talName names runs.length i run.path) o2 hinfo rfl rfl rfl rfl rfl rfl rfl
  refine ⟨i, run, m, roa, fid, f, n, data, s, hrun, h1, named hlt (by rw [hea]; rfl), c2, hski ▸ c3,
    hski ▸ C15_chain_of_trust _ _ _ hr k roa.cert c3, o2, hft.1, o4, hft.2, hshows, ?_, ?_, ?_, ?_⟩
  · intro hu; subst hea; exact toUint32_val hu
  · subst hea; exact C84_as_remainder _
  · subst hea; rfl
  · rcases came_known rfl rfl hinv (cfg := fl.cfg) (by simp [Flags.cfg, hm]) rfl hlife o2 o3 (.inr hft.1) with ⟨q, _⟩ | ⟨hash, q1, q2⟩
    · rw [hft.1] at q; simp at q
    · refine ⟨hash, q1, ?_⟩
      intro hst hsteady
      obtain ⟨d', s', r1, r2⟩ := hsteady fid f n data s o2 (by rw [hft.1]; simp) o4
      rw [hshows.hash d' s' r1, q2 hst _ r2]

/-- **C84, the two outputs agree.** Every line of the list of VRPs is an entry of a ROA of the same TAL in resources.json. Without the
    filters of the list the converse holds, except for the name of the TAL: of lines that two TALs share only one is kept (C51). -/
theorem C84_outputs_agree (sha : Bytes → Bytes) (nilNet : Go Bytes) (w : Nat → Walk) (fl : Flags) (hm : fl.useManifest = true)
    (names : List Bytes) (now : Int) (runs : List TalRun)
    (hk : ∀ run ∈ runs, ∀ d c, run.world.env.parseCert d = .ok c → TalSpec.CertKey c.isRSA c.pubKey)
    (ms : List (TalRun × M)) (L : ROAList) (rs : List OutRes) (h : mainResources sha nilNet w fl names now runs = .ok (ms, L, rs)) :
    (∀ r ∈ L.data, ∃ e ∈ rs, e.kind = .roa ∧ e.ta = r.ta ∧ ∃ ml : Int, (r.prefixText, ml) ∈ e.roas ∧ ml % 256 = r.length.toNat ∧
      ∃ asn : Int, e.asn = toUint32 asn ∧ r.asn = tx "AS" ++ intText asn) ∧
    (fl.filter = false → ∀ e ∈ rs, e.kind = .roa → ∀ p ml, (p, ml) ∈ e.roas → ∃ r ∈ L.data, r.prefixText = p ∧
      (r.length.toNat : Int) = ml % 256 ∧ ∃ asn : Int, e.asn = toUint32 asn ∧ r.asn = tx "AS" ++ intText asn) := by
  have hlen : ∀ ml : Int, (((ml % 256).toNat.toUInt8).toNat : Int) = ml % 256 := by
    intro ml
    have h1 : 0 ≤ ml % 256 := by omega
    have h2 : ml % 256 < 256 := by omega
    simp only [Nat.toUInt8, UInt8.toNat_ofNat']
    omega
  obtain ⟨hv, hres⟩ := resources_parts h
  obtain ⟨hx, ts, hts, hL⟩ := main_parts hv
  obtain ⟨hl, hex⟩ := exportTals_ok hts
  constructor
  · intro r hr
    obtain ⟨t, ht, roa, hroa, e, he, rfl⟩ := mem_exportAll.mp ((generate_sub hL).subset hr)
    obtain ⟨i, hi⟩ := List.mem_iff_getElem?.mp ht
    obtain ⟨run, m, h1, h2, h3⟩ := hex i t hi
    obtain ⟨_, _, hinv, _, l, hl, hsub⟩ := resources_tal hm hk h h1
    obtain ⟨k, hkm, hk'⟩ := (roasOf_ok h3).1 roa hroa
    obtain ⟨j, hj, hd⟩ := roaOf_ok hk'
    have hl' := hl
    unfold talRes at hl'
    obtain ⟨_, _, hl'⟩ := Go.bind_eq_ok.mp hl'
    obtain ⟨_, hb, _⟩ := Go.bind_eq_ok.mp hl'
    obtain ⟨x, hx⟩ := walkKeys_all hb k hkm
    obtain ⟨j', res', roa', info, q1, q2, q3, q4, q5⟩ := roaRes_ok hx
    rw [hj] at q1; simp at q1; subst q1
    have := data_of_get hd q2
    rw [q3] at this; simp at this; subst this
    have hmem := (talRes_kinds hl _).2.1.mpr ⟨k, x, by simp [hj], hx, by rw [q5]; exact List.mem_singleton_self _⟩
    refine ⟨_, hsub _ hmem.1, hmem.2, ?_, e.maxLength, ?_, ?_, roa'.asn, rfl, rfl⟩
    · simp [baseRes, exportEntry, h2]
    · simp only [exportEntry]
      exact List.mem_map.mpr ⟨e, he, rfl⟩
    · simp only [exportEntry]
      exact (hlen _).symm
  · intro hf e he hkind p ml hp
    obtain ⟨i, run, m, l, h1, h2, h3⟩ := resources_mem h he
    obtain ⟨k, a, hks, ha, hea⟩ := (talRes_kinds h2 e).2.1.mp ⟨h3, hkind⟩
    obtain ⟨j, res, roa, info, hj, hres, hd, hinfo, rfl⟩ := roaRes_ok ha
    simp only [List.mem_singleton] at hea
    subst hea
    obtain ⟨x, hxv, hxe⟩ := List.mem_map.mp hp
    simp at hxe
    obtain ⟨rfl, rfl⟩ := hxe
    have hlt : i < ts.length := by rw [hl]; exact (List.getElem?_eq_some_iff.mp h1).1
    obtain ⟨run', m', e1, e2, e3⟩ := hex i ts[i] (List.getElem?_eq_getElem hlt)
    rw [h1] at e1; simp at e1; obtain ⟨rfl, rfl⟩ := e1
    obtain ⟨roa', hr1, hr2⟩ := (roasOf_ok e3).2 k ((run.perm _).mem_iff.mpr (mem_keysOf.mpr hks))
    obtain ⟨j', hj', hd'⟩ := roaOf_ok hr2
    rw [hj] at hj'; simp at hj'; subst hj'
    have := data_of_get hd' hres
    rw [hd] at this; simp at this; subst this
    -- the line, or the first with the same text
    have hin : exportEntry ts[i].name roa.asn x ∈ exportAll ts := mem_exportAll.mpr ⟨ts[i], List.getElem_mem hlt, roa, hr1, x, hxv, rfl⟩
    have hL' : L.data = filterDuplicates (exportAll ts) := by
      unfold generateROAList filterData filterOpt at hL
      rw [hf] at hL
      simp at hL
      rw [← hL]
    obtain ⟨_, _, _, hall⟩ := C51_dedup (exportAll ts) (by
      intro r hr
      obtain ⟨t, _, roa, _, e, _, rfl⟩ := mem_exportAll.mp hr
      exact exportEntry_free _ _ _)
    obtain ⟨r, hr, hrt⟩ := List.mem_map.mp ((hall (triple (exportEntry ts[i].name roa.asn x))).mpr (List.mem_map_of_mem hin))
    simp only [triple, Prod.mk.injEq] at hrt
    obtain ⟨t1, t2, t3⟩ := hrt
    refine ⟨r, by rw [hL']; exact hr, t1, ?_, roa.asn, rfl, t3⟩
    rw [t2]
    exact hlen _

/-- **C84, manifests (partial: its EE certificate need no longer be valid, see `C84_violated_manifest`).** Each manifest in resources.json was
    read from the file with the path and the hash that are shown, its signature is good, its EE certificate is stored, and the names and
    dates shown are those in it. -/
theorem C84_manifest_partial (sha : Bytes → Bytes) (nilNet : Go Bytes) (w : Nat → Walk) (fl : Flags) (hm : fl.useManifest = true)
    (names : List Bytes) (now : Int) (runs : List TalRun)
    (hk : ∀ run ∈ runs, ∀ d c, run.world.env.parseCert d = .ok c → TalSpec.CertKey c.isRSA c.pubKey)
    (ms : List (TalRun × M)) (L : ROAList) (rs : List OutRes) (h : mainResources sha nilNet w fl names now runs = .ok (ms, L, rs))
    (e : OutRes) (he : e ∈ rs) (hkind : e.kind = .manifest) :
    ∃ (i : Nat) (run : TalRun) (m : M) (mft : Mft) (fid : Nat) (f : PKIFile) (n : Nat) (data : Bytes) (s : Option Bytes),
      runs[i]? = some run ∧ ms[i]? = some (run, m) ∧ NamedAs names runs.length i run e ∧
      mft.innerValid = true ∧ Stored m.v mft.cert.ski mft.cert ∧
      m.files[fid]? = some f ∧ f.type = .mft ∧ run.world.getFile n (m.pathOf fid) f = .found data s ∧ run.world.env.parseMft data = .ok mft ∧
      Shows sha run m mft.cert fid f e ∧ e.files = mft.fileList.map (·.1) ∧
      (∀ s, AtSecond mft.thisUpdate s → e.thisUpdate = s) ∧ (∀ s, AtSecond mft.nextUpdate s → e.nextUpdate = s) := by
  obtain ⟨i, run, m, l, h1, h2, h3⟩ := resources_mem h he
  obtain ⟨hrun, hlt, hinv, hlife, _⟩ := resources_tal hm hk h h1
  obtain ⟨k, a, _, ha, hea⟩ := (talRes_kinds h2 e).2.2.mp ⟨h3, hkind⟩
  obtain ⟨j, res, mft, info, hj, hres, hd, hinfo, rfl⟩ := mftRes_ok ha
  simp only [List.mem_singleton] at hea
  obtain ⟨fid, f, n, data, s, o1, o2, o3, o4, o5, o6⟩ := origin hinv hres (by rw [hd]; simp)
  rw [hd] at o5
  have hft : f.type = .mft ∧ run.world.env.parseMft data = .ok mft := by
    generalize f.type = ty at o5
    cases o5 with
    | mft _ hc => exact ⟨rfl, hc⟩
  rw [o1] at hinfo
  obtain ⟨ops, p1, p2, p3⟩ := hinv.run
  have hr : Reachable run.world.env (AnchorOf run.world run.file) m.v := ⟨ops, p1, p3⟩
  obtain ⟨mft', ⟨res', c0, c1⟩, c2, c3, c4⟩ := C22_manifest_partial run.world.env (AnchorOf run.world run.file) m.v hr k j hj
  rw [hres] at c0; simp at c0; subst c0
  rw [hd] at c1; simp at c1; subst c1
  refine ⟨i, run, m, mft, fid, f, n, data, s, hrun, h1, named hlt (by rw [hea]; rfl), c3, c2 ▸ c4, o2, hft.1, o4, hft.2, ?_, ?_, ?_, ?_⟩
  · subst hea
    exact shows_base (kind := .manifest) (ta := talName names runs.length i run.path) o2 hinfo rfl rfl rfl rfl rfl rfl rfl
  · subst hea; rfl
  · intro s hs; subst hea; exact seconds_at hs
  · intro s hs; subst hea; exact seconds_at hs

/-- **C84, fields of other kinds.** Only ROAs have an AS number and prefixes, only manifests have files and update times, and only certificates have
    access locations and resources; elsewhere these are empty or 0 (and so left out of the file). -/
theorem C84_own_fields (sha : Bytes → Bytes) (nilNet : Go Bytes) (w : Nat → Walk) (fl : Flags) (names : List Bytes) (now : Int) (runs : List TalRun)
    (ms : List (TalRun × M)) (L : ROAList) (rs : List OutRes) (h : mainResources sha nilNet w fl names now runs = .ok (ms, L, rs))
    (e : OutRes) (he : e ∈ rs) :
    (e.kind ≠ .roa → e.asn = 0 ∧ e.roas = []) ∧ (e.kind ≠ .manifest → e.files = [] ∧ e.thisUpdate = 0 ∧ e.nextUpdate = 0) ∧
    (e.kind ≠ .certificate → e.sias = [] ∧ e.ips = [] ∧ e.asns = []) := by
  obtain ⟨i, run, m, l, h1, h2, h3⟩ := resources_mem h he
  cases hk : e.kind with
  | certificate =>
    obtain ⟨k, a, _, ha, hea⟩ := (talRes_kinds h2 e).1.mp ⟨h3, hk⟩
    obtain ⟨j, res, hj, hres, ⟨_, rfl⟩ | ⟨hty, c, info, ips, hd, hinfo, hips, rfl⟩⟩ := cerRes_ok ha
    · simp at hea
    · simp only [List.mem_singleton] at hea; subst hea
      exact ⟨fun _ => ⟨rfl, rfl⟩, fun _ => ⟨rfl, rfl, rfl⟩, fun h => (h rfl).elim⟩
  | roa =>
    obtain ⟨k, a, _, ha, hea⟩ := (talRes_kinds h2 e).2.1.mp ⟨h3, hk⟩
    obtain ⟨j, res, roa, info, hj, hres, hd, hinfo, rfl⟩ := roaRes_ok ha
    simp only [List.mem_singleton] at hea; subst hea
    exact ⟨fun h => (h rfl).elim, fun _ => ⟨rfl, rfl, rfl⟩, fun _ => ⟨rfl, rfl, rfl⟩⟩
  | manifest =>
    obtain ⟨k, a, _, ha, hea⟩ := (talRes_kinds h2 e).2.2.mp ⟨h3, hk⟩
    obtain ⟨j, res, mft, info, hj, hres, hd, hinfo, rfl⟩ := mftRes_ok ha
    simp only [List.mem_singleton] at hea; subst hea
    exact ⟨fun _ => ⟨rfl, rfl⟩, fun h => (h rfl).elim, fun _ => ⟨rfl, rfl, rfl⟩⟩

/-- **C84, completeness for ROAs and manifests.** The valid ROAs and manifests of all TALs are in resources.json. -/
theorem C84_signed_complete (sha : Bytes → Bytes) (nilNet : Go Bytes) (w : Nat → Walk) (fl : Flags) (hm : fl.useManifest = true)
    (names : List Bytes) (now : Int) (runs : List TalRun)
    (hk : ∀ run ∈ runs, ∀ d c, run.world.env.parseCert d = .ok c → TalSpec.CertKey c.isRSA c.pubKey)
    (ms : List (TalRun × M)) (L : ROAList) (rs : List OutRes) (h : mainResources sha nilNet w fl names now runs = .ok (ms, L, rs))
    (i : Nat) (run : TalRun) (m : M) (hi : ms[i]? = some (run, m)) (k : Bytes) (j : Nat) :
    (∀ roa, m.v.validROA.get k = some j → At m.v j (.roa roa) → ∃ e ∈ rs, ∃ fid f, e.kind = .roa ∧ NamedAs names runs.length i run e ∧
      m.files[fid]? = some f ∧ Shows sha run m roa.cert fid f e ∧ e.roas = roa.valids.map (fun x => (ipNetString x.ipnet, x.maxLength))) ∧
    (∀ mft, m.v.validManifest.get k = some j → At m.v j (.mft mft) → ∃ e ∈ rs, ∃ fid f, e.kind = .manifest ∧ NamedAs names runs.length i run e ∧
      m.files[fid]? = some f ∧ Shows sha run m mft.cert fid f e ∧ e.files = mft.fileList.map (·.1)) := by
  obtain ⟨hrun, hlt, hinv, hlife, l, hl, hsub⟩ := resources_tal hm hk h hi
  have hl' := hl
  unfold talRes at hl'
  obtain ⟨a, ha, hl'⟩ := Go.bind_eq_ok.mp hl'
  obtain ⟨b, hb, hl'⟩ := Go.bind_eq_ok.mp hl'
  obtain ⟨c, hc, _⟩ := Go.bind_eq_ok.mp hl'
  constructor
  · rintro roa hj ⟨res, hres, hd⟩
    obtain ⟨fid, f, n, data, s, o1, o2, o3, o4, o5, o6⟩ := origin hinv hres (by rw [hd]; simp)
    obtain ⟨x, hx⟩ := walkKeys_all hb k ((run.perm _).mem_iff.mpr (mem_keysOf.mpr (by simp [hj])))
    obtain ⟨j', res', roa', info, q1, q2, q3, q4, q5⟩ := roaRes_ok hx
    rw [hj] at q1; simp at q1; subst q1
    rw [hres] at q2; simp at q2; subst q2
    rw [hd] at q3; simp at q3; subst q3
    rw [o1] at q4
    have hmem := (talRes_kinds hl _).2.1.mpr ⟨k, x, by simp [hj], hx, by rw [q5]; exact List.mem_singleton_self _⟩
    exact ⟨_, hsub _ hmem.1, fid, f, hmem.2, named hlt rfl, o2,
      shows_base (kind := .roa) (ta := talName names runs.length i run.path) o2 q4 rfl rfl rfl rfl rfl rfl rfl, rfl⟩
  · rintro mft hj ⟨res, hres, hd⟩
    obtain ⟨fid, f, n, data, s, o1, o2, o3, o4, o5, o6⟩ := origin hinv hres (by rw [hd]; simp)
    obtain ⟨x, hx⟩ := walkKeys_all hc k (((w i).permMft _).mem_iff.mpr (mem_keysOf.mpr (by simp [hj])))
    obtain ⟨j', res', mft', info, q1, q2, q3, q4, q5⟩ := mftRes_ok hx
    rw [hj] at q1; simp at q1; subst q1
    rw [hres] at q2; simp at q2; subst q2
    rw [hd] at q3; simp at q3; subst q3
    rw [o1] at q4
    have hmem := (talRes_kinds hl _).2.2.mpr ⟨k, x, by simp [hj], hx, by rw [q5]; exact List.mem_singleton_self _⟩
    exact ⟨_, hsub _ hmem.1, fid, f, hmem.2, named hlt rfl, o2,
      shows_base (kind := .manifest) (ta := talName names runs.length i run.path) o2 q4 rfl rfl rfl rfl rfl rfl rfl, rfl⟩

/-! ### Examples -/

def walkId : Walk := ⟨id, id, fun _ => .refl _, fun _ => .refl _⟩

/-- The repository of C78; when the list is made the files are read again. -/
def rereadJ (f : PKIFile) : Fetch :=
  match f.type with
  | .cer => .found [1] none
  | .mft => .found [10] none
  | .roa => .found [7] none
  | _ => .fail
def runJ : TalRun := ⟨[65], worldE, 10, id, fun _ => .refl _, rereadJ⟩

/-- resources.json of this validation: the trust anchor, the ROA, the manifest. -/
def resJ : List OutRes := match mainResources id .panic (fun _ => walkId) flE [tx "T"] 1000 [runJ] with
  | .ok (_, _, rs) => rs
  | _ => []
example : resJ.map (fun e => (e.kind, e.ski, e.path, e.hash)) = [(.certificate, tx "01", tx "rsync://h/a.cer", tx "01"),
    (.roa, tx "05", tx "r/x.roa", tx "07"), (.manifest, tx "0a", tx "0.mft", tx "0a")] := by decide +kernel
example : resJ.map (fun e => (e.ta, e.roas, e.files)) = [(tx "T", [], []), (tx "T", [(tx "10.1.0.0/16", 24)], []), (tx "T", [], [nX])] := by
  decide +kernel

/-- The hypotheses of the theorems on this validation: it ends, and the files are steady (the hash of a file is its data). -/
example : isOk (mainResources id .panic (fun _ => walkId) flE [tx "T"] 1000 [runJ]) = true := by decide +kernel
example : ∃ m, exploreTal flE runJ = .ok m ∧ m.files.length = 4 ∧ Steady id runJ m := by
  have h : (match exploreTal flE runJ with
     | .ok m => decide (m.files.length = 4) && (List.range m.files.length).all fun i => (match m.files[i]? with
       | some f => (match worldE.getFile 0 (m.pathOf i) f with
         | .found _ s => f.type == .tal || (match rereadJ f with | .found d' _ => s == some d' | _ => false)
         | _ => true)
       | none => true)
     | _ => false) = true := by decide +kernel
  cases hm : exploreTal flE runJ with
  | err _ => rw [hm] at h; simp at h
  | panic => rw [hm] at h; simp at h
  | diverge => rw [hm] at h; simp at h
  | ok m =>
    rw [hm] at h
    simp only [Bool.and_eq_true, decide_eq_true_eq, List.all_eq_true, List.mem_range] at h
    obtain ⟨h1, h2⟩ := h
    refine ⟨m, rfl, h1, ?_⟩
    intro fid f n d s hf ht hg
    have := h2 fid (List.getElem?_eq_some_iff.mp hf).1
    rw [hf] at this
    have hg' : worldE.getFile 0 (m.pathOf fid) f = .found d s := hg
    simp only [hg'] at this
    simp [ht] at this
    show ∃ d' s', rereadJ f = _ ∧ _
    split at this
    · rename_i d' s' hr
      exact ⟨d', s', hr, by simpa using this⟩
    · simp at this

/-- The trust anchor, with AS 0 and a certificate that never expires (RFC 5280: 99991231235959Z); a manifest with a CRL that revokes the
    manifest's own EE certificate. -/
def taJ : Pki.Cert := { taE with notAfter := 253402300799 * 1000000000, asns := [.asn 0] }
def nCrl : Bytes := tx "c.crl"
def envJ : Env := { env2 with
  asn := toyAsn
  parseCert := fun d => if d = [1] then .ok taJ else .err ""
  parseCRL := fun d => if d = [8] then .ok (mkCRL [1] [1]) else .err ""
  parseMft := fun d => if d = [10] then .ok (mkMft [10] [1] [(nCrl, [8])]) else .err "" }
def worldJ : World :=
  ⟨envJ, fun _ p _ =>
    if p = [65] then .found tal3 none
    else if p = tx "rsync://h/a.cer" then .found [1] (some [1])
    else if p = nM0 then .found [10] (some [10])
    else if p = dirR ++ 47 :: nCrl then .found [8] (some [8])
    else .absent, fun _ _ => ([], true), fun _ => 50, fun _ => 50⟩
def runK : TalRun := ⟨[65], worldJ, 10, id, fun _ => .refl _, fun _ => .fail⟩

theorem mainK : ∃ m L rs, mainResources id .panic (fun _ => walkId) flE [] 1000 [runK] = .ok ([(runK, m)], L, rs) ∧
    exploreTal flE runK = .ok m := by
  have hok : isOk (mainResources id .panic (fun _ => walkId) flE [] 1000 [runK]) = true := by decide +kernel
  cases hh : mainResources id .panic (fun _ => walkId) flE [] 1000 [runK] with
  | err _ => rw [hh] at hok; simp [isOk] at hok
  | panic => rw [hh] at hok; simp [isOk] at hok
  | diverge => rw [hh] at hok; simp [isOk] at hok
  | ok x =>
    obtain ⟨ms, L, rs⟩ := x
    obtain ⟨h1, h2⟩ := exploreTals_ok (main_parts (resources_parts hh).1).1
    match ms, h1, h2 with
    | [(r, m)], h1, h2 =>
      simp at h1; subst h1
      exact ⟨m, L, rs, rfl, h2 (runK, m) (by simp)⟩

/-- **C84 is violated: a revoked manifest.** There is a validation after which resources.json lists a manifest whose EE certificate is not
    valid. -/
theorem C84_violated_manifest : ∃ m L rs e, mainResources id .panic (fun _ => walkId) flE [] 1000 [runK] = .ok ([(runK, m)], L, rs) ∧ e ∈ rs ∧
    e.kind = .manifest ∧ e.ski = tx "0a" ∧ ∀ c, ¬ IsValid m.v [10] c := by
  obtain ⟨m, L, rs, h, hm⟩ := mainK
  have h1 : (match mainResources id .panic (fun _ => walkId) flE [] 1000 [runK] with
    | .ok (_, _, rs) => rs.map (fun e => (e.kind, e.ski)) | _ => []) = [(.certificate, tx "01"), (.manifest, tx "0a")] := by decide +kernel
  have h2 : (match exploreTal flE runK with | .ok m => m.v.validObjects.get [10] | _ => some 0) = none := by decide +kernel
  rw [h] at h1
  rw [hm] at h2
  simp only at h1 h2
  match rs, h1 with
  | [a, b], h1 =>
    simp at h1
    refine ⟨m, L, [a, b], b, h, by simp, h1.2.1, h1.2.2, ?_⟩
    rintro c ⟨i, hi, _⟩
    rw [h2] at hi; simp at hi

/-- **C84 is violated: dates after 2262 and AS 0.** There is a validation after which resources.json shows a certificate that is valid until the
    end of the year 9999, with AS 0 as its only AS resource, as valid until March 1816 (the number -4852116232), and with one AS resource without any contents. -/
theorem C84_violated_values : ∃ m L rs e, mainResources id .panic (fun _ => walkId) flE [] 1000 [runK] = .ok ([(runK, m)], L, rs) ∧ e ∈ rs ∧
    e.kind = .certificate ∧ e.ski = tx "01" ∧ IsValid m.v [1] taJ ∧ taJ.notAfter = 253402300799 * 1000000000 ∧ taJ.asns = [.asn 0] ∧
    e.validTo = -4852116232 ∧ e.asns.map OutASN.json = [[]] := by
  obtain ⟨m, L, rs, h, hm⟩ := mainK
  have h1 : (match mainResources id .panic (fun _ => walkId) flE [] 1000 [runK] with
    | .ok (_, _, rs) => rs.map (fun e => (e.kind, e.ski)) | _ => []) = [(.certificate, tx "01"), (.manifest, tx "0a")] := by decide +kernel
  have h3 : (match mainResources id .panic (fun _ => walkId) flE [] 1000 [runK] with
    | .ok (_, _, rs) => (rs.map (fun e => (e.validTo, e.asns.map OutASN.json))).head? | _ => none) = some (-4852116232, [[]]) := by decide +kernel
  have h2 : (match exploreTal flE runK with | .ok m => (m.v.validObjects.get [1]).map m.v.certOf | _ => none) = some (some taJ) := by decide +kernel
  rw [h] at h1 h3
  rw [hm] at h2
  simp only at h1 h2 h3
  match rs, h1, h3 with
  | [a, b], h1, h3 =>
    simp at h1 h3
    obtain ⟨i, hi, hc⟩ := Option.map_eq_some_iff.mp h2
    exact ⟨m, L, [a, b], a, h, by simp, h1.1.1, h1.1.2, ⟨i, hi, hc⟩, rfl, rfl, h3.1, by
      obtain ⟨o, h4, h5⟩ := h3.2
      rw [h4]; simp [h5]⟩

end Verif.Props
