import Verif.Lemmas.LocalRpki
import Verif.Spec.LocalRpki
import Verif.Props.EndToEnd
/-
  Property theorems for the command localrpki: C100.
-/
set_option autoImplicit false

namespace Verif.Props
open Pki PkiSpec Manager ManagerSpec EndSpec EndToEnd Out OutSpec Roa Net ResSpec LocalRpki LocalRpkiSpec

/-- The state after an exploration, in both modes. -/
theorem explore_pinv {fl : Flags} {run : TalRun} {m : M} (h : exploreTal fl run = .ok m) :
    PInv m ∧ MInv m ∧ Reachable run.world.env (fun _ => True) m.v := by
  unfold exploreTal at h
  obtain ⟨⟨m', n⟩, h1, h2⟩ := Go.bind_eq_ok.mp h
  simp only [Go.pure_def, Go.ok.injEq] at h2
  subst h2
  have hlife : Life run.world (fun _ => True) (· = fl.cfg) ((M.new V.new).putFiles [run.file]) :=
    ⟨V.new, ⟨[], by simp, rfl⟩, .initial _ _ .here (by simp [TalRun.file])⟩
  obtain ⟨hl, _, _, hlater⟩ := explore_life (T := fun _ => True) (ok := (· = fl.cfg)) rfl hlife h1
  obtain ⟨g1, g2⟩ := putFiles_keeps [run.file] (M.new V.new)
  refine ⟨pinv_later (pinv_new.other g1 g2) hlater, minv_life hl, ?_⟩
  obtain ⟨v, hv, hl⟩ := hl
  exact (later_vrun (wtrust_all _) (minv_new v) hl).reachable hv

theorem filePath_ok {m : M} (hp : PInv m) (hi : MInv m) {k : Bytes} {j : Nat} (hj : m.v.validROA.get k = some j) :
    ∃ fid f d t, m.files[fid]? = some f ∧ m.v.core j = some (d, t, some fid) ∧ filePath m j = .ok (m.pathOf fid) := by
  obtain ⟨fid, hf⟩ := hp.roa k j hj
  have : (m.resOf.find? (fun e => e.2 == some j)).isSome = true := by
    rw [List.find?_isSome]; exact ⟨_, hf, by simp⟩
  obtain ⟨⟨g, r⟩, hg⟩ := Option.isSome_iff_exists.mp this
  have h1 := List.mem_of_find?_eq_some hg
  have h2 := List.find?_some hg
  simp at h2
  subst h2
  obtain ⟨d, t, hc⟩ := hp.file g j h1
  have hlt := (hi.res _ h1).2
  simp only at hlt
  refine ⟨g, m.files[g], d, t, List.getElem?_eq_getElem hlt, hc, ?_⟩
  unfold filePath pathOfResource M.pathOf
  simp [hg, List.getElem?_eq_getElem hlt]

theorem linesOf_ok {m : M} {j : Nat} {asn : Int} {p : Bytes} (hp : filePath m j = .ok p) : ∀ (es : List ROAEntry),
    linesOf m j asn es = .ok (es.map fun e => ⟨asc "AS".toList ++ intText asn, ipNetString e.ipnet, e.maxLength, p⟩)
  | [] => rfl
  | e :: es => by simp [linesOf, entryLine, hp, linesOf_ok hp es]

/-- The lines of one valid ROA. -/
theorem roaLines_ok {fl : Flags} {run : TalRun} {m : M} (h : exploreTal fl run = .ok m) {k : Bytes}
    (hk : (m.v.validROA.get k).isSome = true) : ∃ j roa fid f t, m.v.validROA.get k = some j ∧ At m.v j (.roa roa) ∧
      m.files[fid]? = some f ∧ m.v.core j = some (.roa roa, t, some fid) ∧
      roaLines m k = .ok (roa.valids.map fun e => ⟨asc "AS".toList ++ intText roa.asn, ipNetString e.ipnet, e.maxLength, m.pathOf fid⟩) := by
  obtain ⟨hp, hi, hr⟩ := explore_pinv h
  obtain ⟨j, hj⟩ := Option.isSome_iff_exists.mp hk
  obtain ⟨roa, ⟨res, hres, hdata⟩, _⟩ := C22_roa_backed run.world.env (fun _ => True) m.v hr k j hj
  obtain ⟨fid, f, d, t, h1, h2, h3⟩ := filePath_ok hp hi hj
  have hd : d = .roa roa := by
    unfold V.core at h2
    rw [hres] at h2
    simp [hdata] at h2
    exact h2.1.symm
  subst hd
  refine ⟨j, roa, fid, f, t, hj, ⟨res, hres, hdata⟩, h1, h2, ?_⟩
  unfold roaLines
  simp only [hj, hres, hdata]
  exact linesOf_ok h3 _

theorem valid_iff {m : M} {k : Bytes} {roa : ROA} : ValidRoa m k roa ↔ ∃ j, m.v.validROA.get k = some j ∧ At m.v j (.roa roa) :=
  ⟨fun ⟨j, res, h1, h2, h3⟩ => ⟨j, h1, res, h2, h3⟩, fun ⟨j, h1, res, h2, h3⟩ => ⟨j, res, h1, h2, h3⟩⟩

theorem validRoa_unique {m : M} {k : Bytes} {r r' : ROA} (h : ValidRoa m k r) (h' : ValidRoa m k r') : r = r' := by
  obtain ⟨j, res, h1, h2, h3⟩ := h
  obtain ⟨j', res', g1, g2, g3⟩ := h'
  rw [h1] at g1
  simp at g1; subst g1
  rw [h2] at g2
  simp at g2; subst g2
  rw [h3] at g3
  simpa using g3

/-- The texts of the entries of a ROA. -/
def texts (roa : ROA) : List (Bytes × Bytes × Int) :=
  roa.valids.map fun e => (asc "AS".toList ++ intText roa.asn, ipNetString e.ipnet, e.maxLength)

/-- The lines of one TAL. -/
theorem talLines_ok {fl : Flags} {run : TalRun} {m : M} (h : exploreTal fl run = .ok m) : ∀ (ks : List Bytes),
    (∀ k ∈ ks, (m.v.validROA.get k).isSome = true) → ∃ (l : List OutputROA) (b : List (Bytes × ROA)), talLines m ks = .ok l ∧
      b.map (·.1) = ks ∧ (∀ p ∈ b, ValidRoa m p.1 p.2) ∧ l.map said = b.flatMap (fun p => texts p.2) ∧
      ∀ x ∈ l, ∃ k j roa fid f t e, m.v.validROA.get k = some j ∧ At m.v j (.roa roa) ∧ m.files[fid]? = some f ∧
        m.v.core j = some (.roa roa, t, some fid) ∧ e ∈ roa.valids ∧
        x = ⟨asc "AS".toList ++ intText roa.asn, ipNetString e.ipnet, e.maxLength, m.pathOf fid⟩
  | [], _ => ⟨[], [], rfl, rfl, by simp, rfl, by simp⟩
  | k :: ks, hk => by
    obtain ⟨l, b, h1, h2, h3, h4, h5⟩ := talLines_ok h ks (fun k hm => hk k (by simp [hm]))
    obtain ⟨j, roa, fid, f, t, q1, q2, q3, q4, q5⟩ := roaLines_ok h (hk k (by simp))
    refine ⟨roa.valids.map (fun e => ⟨asc "AS".toList ++ intText roa.asn, ipNetString e.ipnet, e.maxLength, m.pathOf fid⟩) ++ l,
      (k, roa) :: b, by simp only [talLines, q5, h1, Go.ok_bind, Go.pure_def], by simp [h2], ?_, ?_, ?_⟩
    · intro p hp
      rcases List.mem_cons.mp hp with rfl | hp
      · exact valid_iff.mpr ⟨j, q1, q2⟩
      · exact h3 p hp
    · simp [h4, texts, said, Function.comp_def]
    · intro x hx
      rcases List.mem_append.mp hx with hx | hx
      · obtain ⟨e, he, rfl⟩ := List.mem_map.mp hx
        exact ⟨k, j, roa, fid, f, t, e, q1, q2, q3, q4, he, rfl⟩
      · exact h5 x hx

theorem order_ok (run : TalRun) (m : M) : (run.order (keysOf m.v.validROA)).Nodup ∧
    ∀ k, k ∈ run.order (keysOf m.v.validROA) ↔ (m.v.validROA.get k).isSome = true :=
  ⟨(run.perm _).nodup_iff.mpr (oncePer_nodup _), fun _ => ((run.perm _).mem_iff).trans mem_keysOf⟩

theorem runTals_ok {fl : Flags} : ∀ {runs : List TalRun} {ms : List (TalRun × M)}, exploreTals fl runs = .ok ms →
    ∃ (l : List OutputROA) (bs : List (List (Bytes × ROA))), runTals fl runs = .ok (ms, l) ∧
      List.Forall₂ (fun x b => Enumerates x.2 b) ms bs ∧ l.map said = bs.flatMap (fun b => b.flatMap (fun p => texts p.2)) ∧
      ∀ x ∈ l, ∃ run m, (run, m) ∈ ms ∧ exploreTal fl run = .ok m ∧ ∃ k j roa fid f t e, m.v.validROA.get k = some j ∧
        At m.v j (.roa roa) ∧ m.files[fid]? = some f ∧ m.v.core j = some (.roa roa, t, some fid) ∧ e ∈ roa.valids ∧
        x = ⟨asc "AS".toList ++ intText roa.asn, ipNetString e.ipnet, e.maxLength, m.pathOf fid⟩
  | [], ms, h => by
    simp [exploreTals] at h; subst h
    exact ⟨[], [], rfl, .nil, rfl, by simp⟩
  | r :: runs, ms, h => by
    unfold exploreTals at h
    obtain ⟨m, hx, h⟩ := Go.bind_eq_ok.mp h
    obtain ⟨y, hy, h⟩ := Go.bind_eq_ok.mp h
    simp only [Go.pure_def, Go.ok.injEq] at h
    subst h
    obtain ⟨l, bs, h1, h2, h3, h4⟩ := runTals_ok hy
    obtain ⟨o1, o2⟩ := order_ok r m
    obtain ⟨l', b, t1, t2, t3, t4, t5⟩ := talLines_ok hx _ (fun k hk => (o2 k).mp hk)
    refine ⟨l' ++ l, b :: bs, by simp only [runTals, hx, t1, h1, Go.ok_bind, Go.pure_def], .cons ⟨by rw [t2]; exact o1, ?_⟩ h2,
      by simp [t4, h3], ?_⟩
    · intro k roa
      refine ⟨t3 (k, roa), fun hv => ?_⟩
      have hk : k ∈ b.map (·.1) := by
        rw [t2, o2]
        obtain ⟨j, _, hj, _⟩ := hv
        simp only at hj
        simp [hj]
      obtain ⟨⟨k', roa'⟩, hm, rfl⟩ := List.mem_map.mp hk
      have := validRoa_unique hv (t3 _ hm)
      subst this
      exact hm
    · intro x hx'
      rcases List.mem_append.mp hx' with hx' | hx'
      · exact ⟨r, m, by simp, hx, t5 x hx'⟩
      · obtain ⟨run, m', hm, rest⟩ := h4 x hx'
        exact ⟨run, m', by simp [hm], rest⟩

/-- The output of localrpki for the repository of C78: one line, with the path of the file. -/
example : (match runTals flE [runE] with | .ok (_, l) => l | _ => []) =
    [⟨tx "AS7", tx "10.1.0.0/16", 24, dirR ++ 47 :: nX⟩] := by decide +kernel

/-- The hypotheses of the theorems below hold of it. -/
example : isOk (exploreTals flE [runE]) = true ∧ isOk (runTals flE [runE]) = true ∧ flE.useManifest = true ∧
    isOk (mainValidation { flE with filter := false } [] 0 [runE]) = true ∧
    GoodVrp ⟨⟨[10, 1, 0, 0], [255, 255, 0, 0]⟩, 24, 7⟩ := by
  refine ⟨by decide +kernel, by decide +kernel, rfl, by decide +kernel, ?_⟩
  have hm : IsMask 16 [255, 255, 0, 0] ∧ 2 ^ (8 * [255, 255, (0 : UInt8), 0].length - 16) ∣ BerSpec.beVal [10, 1, 0, 0] := by
    unfold IsMask; decide +kernel
  exact ⟨⟨rfl, .inl rfl, 16, hm.1⟩, ⟨16, hm⟩, by rintro ⟨d, _, hd⟩; simp [List.replicate] at hd, by decide, by decide, by decide, by decide⟩

/-- **C100, exactness.** With manifests or without, when the explorations of all TALs end, localrpki writes its output: for each TAL
    and each ROA that is valid for it, taken once, one line for each entry, with the AS number, the prefix and the full max length. -/
theorem C100_lines_exact (fl : Flags) (runs : List TalRun) (ms : List (TalRun × M)) (h : exploreTals fl runs = .ok ms) :
    ∃ l, runTals fl runs = .ok (ms, l) ∧ ∃ bs : List (List (Bytes × ROA)), List.Forall₂ (fun x b => Enumerates x.2 b) ms bs ∧
      l.map said = bs.flatMap fun b => b.flatMap fun p => p.2.valids.map fun e =>
        (asc "AS".toList ++ intText p.2.asn, ipNetString e.ipnet, e.maxLength) := by
  obtain ⟨l, bs, h1, h2, h3, _⟩ := runTals_ok h
  exact ⟨l, h1, bs, h2, h3⟩

/-- **C100, soundness.** With manifests, each line of the output is an entry of a ROA that is valid for one of the TALs, with all that
    stands behind such an entry (C78); its path is the one for which the file of this ROA was fetched; and a reader of a
    well-formed entry understands it. -/
theorem C100_line_backed (fl : Flags) (hm : fl.useManifest = true) (runs : List TalRun)
    (hk : ∀ run ∈ runs, ∀ d c, run.world.env.parseCert d = .ok c → TalSpec.CertKey c.isRSA c.pubKey)
    (ms : List (TalRun × M)) (l : List OutputROA) (h : runTals fl runs = .ok (ms, l)) (x : OutputROA) (hx : x ∈ l) :
    ∃ (run : TalRun) (m : M) (roa : ROA) (e : ROAEntry), run ∈ runs ∧ (run, m) ∈ ms ∧ Backed fl.strictHash run m roa e ∧
      FoundAt run.world m roa x.path ∧ said x = (asc "AS".toList ++ intText roa.asn, ipNetString e.ipnet, e.maxLength) ∧
      (GoodVrp ⟨e.ipnet, e.maxLength, roa.asn⟩ → Understood x ⟨e.ipnet, e.maxLength, roa.asn⟩) := by
  have hms : exploreTals fl runs = .ok ms := by
    clear hk hx
    induction runs generalizing ms l with
    | nil => simp [runTals] at h; simp [exploreTals, h.1]
    | cons r runs ih =>
      unfold runTals at h
      obtain ⟨m, h1, h⟩ := Go.bind_eq_ok.mp h
      obtain ⟨a, _, h⟩ := Go.bind_eq_ok.mp h
      obtain ⟨⟨y1, y2⟩, h3, h⟩ := Go.bind_eq_ok.mp h
      simp only [Go.pure_def, Go.ok.injEq, Prod.mk.injEq] at h
      obtain ⟨rfl, rfl⟩ := h
      simp [exploreTals, h1, ih _ _ h3]
  obtain ⟨l', bs, h1, _, _, h4⟩ := runTals_ok hms
  rw [h1] at h
  simp at h; subst h
  obtain ⟨run, m, hmem, hexp, k, j, roa, fid, f, t, e, q1, q2, q3, q4, q5, rfl⟩ := h4 x hx
  have hrun : run ∈ runs := by
    rw [← (exploreTals_ok hms).1]; exact List.mem_map_of_mem (f := Prod.fst) hmem
  have hd : m.v.dataOf j = some (.roa roa) := by
    obtain ⟨res, hres, hdata⟩ := q2
    unfold V.dataOf; simp [hres, hdata]
  refine ⟨run, m, roa, e, hrun, hmem, valid_backed hm (hk run hrun) hexp q1 hd q5, ?_, rfl, ?_⟩
  · obtain ⟨hinv, _⟩ := explore_einv fl hm run (hk run hrun) m hexp
    obtain ⟨fid', data, sha, e1, g, e2, e3, _, e5⟩ := hinv.typed j _ q4
    have : fid' = fid := by
      rcases e5 with ⟨l, e5⟩ | e5
      · simp at e5
      · simpa using e5.symm
    subst this
    obtain ⟨g', n, r1, r2⟩ := hinv.fetch fid' data sha e1
    refine ⟨fid', g', n, data, sha, r1, rfl, r2, ?_⟩
    generalize g.type = ty at e3
    cases e3 with
    | roa _ hd => exact hd
  · intro hg
    refine ⟨?_, rfl⟩
    have := (C53_line_lossless [] roa.asn e hg).1
    have h0 := hg.2.2.2.1
    have h1 := hg.2.2.2.2.1
    simp only at h0 h1
    have hmod : e.maxLength % 256 = e.maxLength := Int.emod_eq_of_lt h0 (by omega)
    unfold exportEntry at this
    rw [hmod] at this
    exact this

theorem same_lines {r : TalRun} {m : M} {ta : Bytes} : ∀ {ks : List Bytes} {roas : List ROA} {l : List OutputROA},
    roasOf r m ks = .ok roas → talLines m ks = .ok l →
    (exportTal ⟨ta, roas⟩).map triple = l.map fun x => (x.prefixText, (x.maxLength % 256).toNat.toUInt8.toNat, x.asn)
  | [], roas, l, h1, h2 => by
    simp [roasOf] at h1; simp [talLines] at h2
    subst h1; subst h2; rfl
  | k :: ks, roas, l, h1, h2 => by
    unfold roasOf at h1
    obtain ⟨roa, a1, h1⟩ := Go.bind_eq_ok.mp h1
    obtain ⟨rs, a2, h1⟩ := Go.bind_eq_ok.mp h1
    simp only [Go.pure_def, Go.ok.injEq] at h1
    subst h1
    unfold talLines at h2
    obtain ⟨x, b1, h2⟩ := Go.bind_eq_ok.mp h2
    obtain ⟨y, b2, h2⟩ := Go.bind_eq_ok.mp h2
    simp only [Go.pure_def, Go.ok.injEq] at h2
    subst h2
    have ih := same_lines (ta := ta) a2 b2
    obtain ⟨j, hj, hd⟩ := roaOf_ok a1
    have hx : ∃ p, x = roa.valids.map (fun e => (⟨asc "AS".toList ++ intText roa.asn, ipNetString e.ipnet, e.maxLength, p⟩ : OutputROA)) := by
      unfold roaLines at b1
      rw [hj] at b1
      simp only at b1
      unfold V.dataOf at hd
      cases hh : m.v.heap[j]? with
      | none => simp [hh] at hd
      | some res =>
        rw [hh] at hd b1
        simp at hd
        simp only [hd] at b1
        cases hp : filePath m j with
        | ok p => rw [linesOf_ok hp] at b1; simp only [Go.ok.injEq] at b1; exact ⟨p, b1.symm⟩
        | err e => cases hv : roa.valids with
          | nil => simp [hv, linesOf] at b1; exact ⟨[], by simp [← b1]⟩
          | cons a as => simp [hv, linesOf, entryLine, hp] at b1
        | panic => cases hv : roa.valids with
          | nil => simp [hv, linesOf] at b1; exact ⟨[], by simp [← b1]⟩
          | cons a as => simp [hv, linesOf, entryLine, hp] at b1
        | diverge => cases hv : roa.valids with
          | nil => simp [hv, linesOf] at b1; exact ⟨[], by simp [← b1]⟩
          | cons a as => simp [hv, linesOf, entryLine, hp] at b1
    obtain ⟨p, rfl⟩ := hx
    unfold exportTal at ih ⊢
    simp only [List.flatMap_cons, List.map_append, ih]
    congr 1
    simp [triple, exportEntry, Function.comp_def]

theorem same_all {fl : Flags} {names : List Bytes} {n : Nat} : ∀ {runs : List TalRun} {ms : List (TalRun × M)} {l : List OutputROA}
    {i : Nat} {ts : List TalResult}, runTals fl runs = .ok (ms, l) → exportTals names n i ms = .ok ts →
    (exportAll ts).map triple = l.map fun x => (x.prefixText, (x.maxLength % 256).toNat.toUInt8.toNat, x.asn)
  | [], ms, l, i, ts, h1, h2 => by
    simp [runTals] at h1
    obtain ⟨rfl, rfl⟩ := h1
    simp [exportTals] at h2
    subst h2; rfl
  | r :: runs, ms, l, i, ts, h1, h2 => by
    unfold runTals at h1
    obtain ⟨m, a1, h1⟩ := Go.bind_eq_ok.mp h1
    obtain ⟨x, a2, h1⟩ := Go.bind_eq_ok.mp h1
    obtain ⟨⟨y1, y2⟩, a3, h1⟩ := Go.bind_eq_ok.mp h1
    simp only [Go.pure_def, Go.ok.injEq, Prod.mk.injEq] at h1
    obtain ⟨rfl, rfl⟩ := h1
    unfold exportTals at h2
    obtain ⟨roas, b1, h2⟩ := Go.bind_eq_ok.mp h2
    obtain ⟨ts', b2, h2⟩ := Go.bind_eq_ok.mp h2
    simp only [Go.pure_def, Go.ok.injEq] at h2
    subst h2
    have ih := same_all a3 b2
    have := same_lines (ta := talName names n i r.path) b1 a2
    unfold exportAll at ih ⊢
    simp only [List.flatMap_cons, List.map_append, ih, this]

/-- **C100, agreement.** On the same repositories and without its filter of long prefixes, octorpki publishes the same set of
    prefix, AS number and max length (of which octorpki keeps one octet) as localrpki. -/
theorem C100_same_as_octorpki (fl : Flags) (hf : fl.filter = false) (names : List Bytes) (now : Int) (runs : List TalRun)
    (ms : List (TalRun × M)) (L : ROAList) (h : mainValidation fl names now runs = .ok (ms, L)) :
    ∃ l, runTals fl runs = .ok (ms, l) ∧ ∀ p n a, (p, n, a) ∈ L.data.map triple ↔
      ∃ x ∈ l, x.prefixText = p ∧ x.asn = a ∧ (x.maxLength % 256).toNat = n := by
  obtain ⟨hx, ts, hts, hL⟩ := main_parts h
  obtain ⟨l, _, h1, _⟩ := runTals_ok hx
  refine ⟨l, h1, ?_⟩
  have hall := same_all h1 hts
  unfold generateROAList filterData filterOpt at hL
  rw [hf] at hL
  simp at hL
  subst hL
  have hfree : ∀ r ∈ exportAll ts, Free 47 r.asn := by
    intro r hr
    obtain ⟨t, ht, roa, hroa, e, he, rfl⟩ := mem_exportAll.mp hr
    exact exportEntry_free _ _ _
  intro p n a
  rw [(C51_dedup _ hfree).2.2.2, hall]
  simp only [List.mem_map, Prod.mk.injEq]
  have hm : ∀ z : Int, (z % 256).toNat.toUInt8.toNat = (z % 256).toNat := by
    intro z
    have := Int.emod_lt_of_pos z (show (0 : Int) < 256 by omega)
    simp only [Nat.toUInt8, UInt8.toNat_ofNat']
    omega
  constructor
  · rintro ⟨x, hx, e1, e2, e3⟩
    exact ⟨x, hx, e1, e3, by rw [← e2, hm]⟩
  · rintro ⟨x, hx, e1, e2, e3⟩
    exact ⟨x, hx, e1, by rw [hm, e3], e2⟩

end Verif.Props
