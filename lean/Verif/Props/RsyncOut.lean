import Verif.Lemmas.RsyncOut
import Verif.Props.Sync
/-
  Property theorems for what is made of rsync's output and of sets of rsync URLs: C98, C99; for the host of an rsync
  URL (C65) and for local paths (C71).
-/
set_option autoImplicit false

namespace Verif.Props
open Path RsyncOut RsyncSpec
open Tal (hasPrefix rsyncScheme)

/-! ## C99 — the directories of a set of URLs -/

/-- An order of iteration: Go may visit the entries of a map in any order, another one each time. -/
def AnyOrder (ord : Nat → List (Bytes × Nat) → List (Bytes × Nat)) : Prop := ∀ n l, (ord n l).Perm l

theorem reduced {items : List Bytes} {ord : Nat → List (Bytes × Nat) → List (Bytes × Nat)} (ho : AnyOrder ord) :
    let t := items.foldl addInMap []
    let L := (items.filter (fun u => decide (Taken u))).map parts
    Inv t L ∧ ∃ R : List (List Bytes), reduceMap t ord = .ok (R.map text) ∧ R.Pairwise Apart ∧ (∀ p, p ∈ R ↔ Stop t p) ∧
      ∀ p ∈ R, Plain p := by
  intro t L
  have hi : Inv t L := by simpa using inv_fold items inv_nil
  obtain ⟨R, h1, h2, h3⟩ := reduce_ok hi ord ho
  refine ⟨hi, R, h1, h2, h3, ?_⟩
  intro p hp
  obtain ⟨hne, q, hq, hpq⟩ := (hi.mem p).mp ((h3 p).mp hp).1
  obtain ⟨u, _, rfl⟩ := List.mem_map.mp hq
  exact ⟨hne, fun c hc => (parts_plain u).2 c (hpq.subset hc)⟩

theorem mem_items {items : List Bytes} {q : List Bytes}
    (h : q ∈ (items.filter (fun u => decide (Taken u))).map parts) : ∃ u ∈ items, Taken u ∧ parts u = q := by
  obtain ⟨u, hu, rfl⟩ := List.mem_map.mp h
  have := List.mem_filter.mp hu
  exact ⟨u, this.1, by simpa using this.2, rfl⟩

/-- **C99, the directories.** For every list of URLs added one after the other and every order of iteration, the
    reduction ends and gives each directory once, none below another; each names a host and something on it and one of
    the URLs lies at or below it. -/
theorem C99_directories (items : List Bytes) (ord : Nat → List (Bytes × Nat) → List (Bytes × Nat)) (ho : AnyOrder ord) :
    ∃ out, reduceMap (items.foldl addInMap []) ord = .ok out ∧ out.Nodup ∧
      (∀ d ∈ out, ∀ d' ∈ out, Under d d' → d = d') ∧ ∀ d ∈ out, Named d ∧ ∃ u ∈ items, Under d u := by
  obtain ⟨hi, R, h1, h2, h3, hpl⟩ := reduced (items := items) ho
  have hself : ∀ {a b}, a ∈ R → b ∈ R → a <+: b → a = b := by
    intro a b ha hb hab
    by_contra hne
    have hane : a ≠ [] := (hpl a ha).1
    exact ((h3 a).mp ha).2.1 (((h3 b).mp hb).2.2 a hane hab hne)
  refine ⟨_, h1, ?_, ?_, ?_⟩
  · have hn : R.Nodup := List.Pairwise.imp_of_mem (fun ha hb hab => by
      rintro rfl; exact hab.1 (List.prefix_refl _)) h2
    refine List.Nodup.map_on ?_ hn
    intro a ha b hb hab
    exact text_inj (hpl a ha) (hpl b hb) hab
  · intro d hd d' hd' hu
    obtain ⟨a, ha, rfl⟩ := List.mem_map.mp hd
    obtain ⟨b, hb, rfl⟩ := List.mem_map.mp hd'
    rw [hself ha hb ((under_text (hpl a ha) (hpl b hb)).mp hu)]
  · intro d hd
    obtain ⟨a, ha, rfl⟩ := List.mem_map.mp hd
    have hst := (h3 a).mp ha
    obtain ⟨hne, q, hq, hpq⟩ := (hi.mem a).mp hst.1
    obtain ⟨u, hu, hut, rfl⟩ := mem_items hq
    refine ⟨named_iff.mpr ⟨?_, ?_⟩, u, hu, ?_⟩
    · rw [text_eq hne]; exact List.prefix_append _ _
    · rw [parts_text (hpl a ha)]
      have hl : a.length ≠ 1 := fun h => hst.2.1 (.inl h)
      have : a.length ≠ 0 := fun h => hne (List.eq_nil_of_length_eq_zero h)
      omega
    · have := (under_text (hpl a ha) (parts_plain u)).mpr hpq
      rwa [text_parts hut.2] at this

/-- **C99, one per module.** Two directories of one module of a host are the same, and every module that a URL is of has
    one. -/
theorem C99_one_per_module (items : List Bytes) (ord : Nat → List (Bytes × Nat) → List (Bytes × Nat)) (ho : AnyOrder ord)
    (out : List Bytes) (h : reduceMap (items.foldl addInMap []) ord = .ok out) (host module : Bytes) (hh : (47 : UInt8) ∉ host)
    (hm : (47 : UInt8) ∉ module) :
    (∀ d ∈ out, ∀ d' ∈ out, OfModule host module d → OfModule host module d' → d = d') ∧
    ((∃ u ∈ items, OfModule host module u) ↔ ∃ d ∈ out, OfModule host module d) := by
  obtain ⟨hi, R, h1, h2, h3, hpl⟩ := reduced (items := items) ho
  rw [h1] at h
  simp only [Go.ok.injEq] at h
  subst h
  have hxp : Plain [host, module] := ⟨by simp, by simp [hh, hm]⟩
  have hx : rsyncScheme ++ host ++ 47 :: module = text [host, module] := by
    simp [text, show rsyncScheme = asc "rsync:/".toList ++ [47] from rfl]
  unfold OfModule
  rw [hx]
  refine ⟨?_, ?_, ?_⟩
  · intro d hd d' hd' hu hu'
    obtain ⟨a, ha, rfl⟩ := List.mem_map.mp hd
    obtain ⟨b, hb, rfl⟩ := List.mem_map.mp hd'
    rw [stop_unique hi (x := [host, module]) (by simp) ((h3 a).mp ha) ((h3 b).mp hb)
      ((under_text hxp (hpl a ha)).mp hu) ((under_text hxp (hpl b hb)).mp hu')]
  · rintro ⟨u, hu, hm'⟩
    obtain ⟨q, hq, rfl, hpre⟩ := under_of_text hxp hm'
    have htak : Taken (text q) := by
      apply named_taken
      rw [named_iff, parts_text hq]
      refine ⟨by rw [text_eq hq.1]; exact List.prefix_append _ _, ?_⟩
      simpa using hpre.length_le
    have hqL : q ∈ (items.filter (fun u => decide (Taken u))).map parts :=
      List.mem_map.mpr ⟨_, List.mem_filter.mpr ⟨hu, by simpa using htak⟩, parts_text hq⟩
    obtain ⟨n, hn⟩ := (hi.mem [host, module]).mpr ⟨by simp, q, hqL, hpre⟩
    obtain ⟨p, hp, hpx⟩ := stop_near hi _ rfl hn (by simp)
    have hpR := (h3 p).mpr hp
    have hne : p ≠ [] := (hpl p hpR).1
    refine ⟨text p, List.mem_map.mpr ⟨p, hpR, rfl⟩, (under_text hxp (hpl p hpR)).mpr ?_⟩
    rcases hpx with h4 | h4
    · have hl : p.length ≠ 1 := fun h => hp.2.1 (.inl h)
      have h0 : p.length ≠ 0 := fun h => hne (List.eq_nil_of_length_eq_zero h)
      have h2' := h4.length_le
      rw [h4.eq_of_length (by simp at h2' ⊢; omega)]
      exact List.prefix_refl _
    · exact h4
  · rintro ⟨d, hd, hm'⟩
    obtain ⟨a, ha, rfl⟩ := List.mem_map.mp hd
    obtain ⟨hne, q, hq, hpq⟩ := (hi.mem a).mp ((h3 a).mp ha).1
    obtain ⟨u, hu, hut, rfl⟩ := mem_items hq
    refine ⟨u, hu, ?_⟩
    have := (under_text hxp (parts_plain u)).mpr (((under_text hxp (hpl a ha)).mp hm').trans hpq)
    rwa [text_parts hut.2] at this

/-- **C99, as long as possible.** No directory further down contains all the URLs that a result contains. -/
theorem C99_longest (items : List Bytes) (ord : Nat → List (Bytes × Nat) → List (Bytes × Nat)) (ho : AnyOrder ord)
    (out : List Bytes) (h : reduceMap (items.foldl addInMap []) ord = .ok out) (d d' : Bytes) (hd : d ∈ out) (hdd : Under d d')
    (hall : ∀ u ∈ items, Under d u → Under d' u) : d' = d := by
  obtain ⟨hi, R, h1, h2, h3, hpl⟩ := reduced (items := items) ho
  rw [h1] at h
  simp only [Go.ok.injEq] at h
  subst h
  obtain ⟨a, ha, rfl⟩ := List.mem_map.mp hd
  obtain ⟨b, hb, rfl, hab⟩ := under_of_text (hpl a ha) hdd
  rw [stop_longest hi ((h3 a).mp ha) hab]
  intro q hq haq
  obtain ⟨u, hu, hut, rfl⟩ := mem_items hq
  have := hall u hu (by
    have := (under_text (hpl a ha) (parts_plain u)).mpr haq
    rwa [text_parts hut.2] at this)
  rw [← text_parts hut.2] at this
  exact (under_text hb (parts_plain u)).mp this

/-- **C99, nothing is left out (partial: for URLs that are added before the URLs below them).** Such a URL lies at or below
    a result. Missing: URLs added after one that lies below them, see the violation. -/
theorem C99_covered_partial (items : List Bytes) (ord : Nat → List (Bytes × Nat) → List (Bytes × Nat)) (ho : AnyOrder ord)
    (out : List Bytes) (h : reduceMap (items.foldl addInMap []) ord = .ok out) (pre post : List Bytes) (u : Bytes)
    (hi : items = pre ++ u :: post) (hn : Named u) (hb : ∀ v ∈ pre, ¬ Under u v) : ∃ d ∈ out, Under d u := by
  obtain ⟨hinv, R, h1, h2, h3, hpl⟩ := reduced (items := items) ho
  rw [h1] at h
  simp only [Go.ok.injEq] at h
  subst h
  have htak := named_taken hn
  have hL : (items.filter (fun u => decide (Taken u))).map parts =
      (pre.filter (fun u => decide (Taken u))).map parts ++ parts u :: (post.filter (fun u => decide (Taken u))).map parts := by
    rw [hi, List.filter_append, List.filter_cons_of_pos (by simpa using htak), List.map_append, List.map_cons]
  obtain ⟨n, hmem⟩ := (hinv.mem (parts u)).mpr ⟨(parts_plain u).1, parts u, by rw [hL]; simp, List.prefix_refl _⟩
  have h1' := hinv.first _ _ hmem _ _ hL (by
    intro q hq hpq
    obtain ⟨v, hv, hvt, rfl⟩ := mem_items hq
    apply hb v hv
    have := (under_text (parts_plain u) (parts_plain v)).mpr hpq
    rwa [text_parts htak.2, text_parts hvt.2] at this)
  subst h1'
  have hnd : ¬ Desc (items.foldl addInMap []) (parts u) := by
    rintro (hl | ⟨_, h0⟩)
    · have := (named_iff.mp hn).2
      omega
    · have := key_unique hinv.keys hmem h0
      simp at this
  obtain ⟨p, hp, hpu⟩ := stop_above hinv hmem hnd
  have hpR := (h3 p).mpr hp
  refine ⟨text p, List.mem_map.mpr ⟨p, hpR, rfl⟩, ?_⟩
  have := (under_text (hpl p hpR) (parts_plain u)).mpr hpu
  rwa [text_parts htak.2] at this

/-- **C99, any order of iteration.** The order in which Go visits the maps changes only the order of the results. -/
theorem C99_iteration (items : List Bytes) (ord ord' : Nat → List (Bytes × Nat) → List (Bytes × Nat)) (ho : AnyOrder ord)
    (ho' : AnyOrder ord') (out out' : List Bytes) (h : reduceMap (items.foldl addInMap []) ord = .ok out)
    (h' : reduceMap (items.foldl addInMap []) ord' = .ok out') : out.Perm out' := by
  obtain ⟨_, R, h1, h2, h3, _⟩ := reduced (items := items) ho
  obtain ⟨_, R', h1', h2', h3', _⟩ := reduced (items := items) ho'
  rw [h1] at h; rw [h1'] at h'
  simp only [Go.ok.injEq] at h h'
  subst h; subst h'
  apply List.Perm.map
  have hn : ∀ {l : List (List Bytes)}, l.Pairwise Apart → l.Nodup := fun h =>
    List.Pairwise.imp (fun hab => by rintro rfl; exact hab.1 (List.prefix_refl _)) h
  rw [List.perm_ext_iff_of_nodup (hn h2) (hn h2')]
  intro p
  rw [h3, h3']

theorem as_given : AnyOrder fun _ l => l := fun _ _ => List.Perm.refl _

/-- Example: two repositories of one module and one of another host. -/
example : reduceMap ([tx "rsync://h/m/a/x", tx "rsync://h/m/a/y", tx "rsync://g/n/b"].foldl addInMap []) (fun _ l => l) =
    .ok [tx "rsync://h/m/a", tx "rsync://g/n/b"] := by decide +kernel
example : Named (tx "rsync://h/m/a/x") := ⟨tx "h", tx "m/a/x", by decide +kernel, by decide +kernel⟩
example : OfModule (tx "h") (tx "m") (tx "rsync://h/m/a/x") := .inr ⟨tx "a/x", by decide +kernel⟩

/-- **C99 is violated: a URL added after one below it.** The count of an entry that is there already is added to a copy:
    of `rsync://h/m/a/b` and `rsync://h/m/a`, added in this order, only `rsync://h/m/a/b` is kept; in the other order
    `rsync://h/m/a` is. -/
theorem C99_violated_order :
    reduceMap ([tx "rsync://h/m/a/b", tx "rsync://h/m/a"].foldl addInMap []) (fun _ l => l) = .ok [tx "rsync://h/m/a/b"] ∧
    reduceMap ([tx "rsync://h/m/a", tx "rsync://h/m/a/b"].foldl addInMap []) (fun _ l => l) = .ok [tx "rsync://h/m/a"] ∧
    ¬ Under (tx "rsync://h/m/a/b") (tx "rsync://h/m/a") := by
  refine ⟨by decide +kernel, by decide +kernel, ?_⟩
  rintro (h | ⟨r, h⟩)
  · exact absurd h (by decide +kernel)
  · have := congrArg List.length h
    have e1 : (tx "rsync://h/m/a").length = 13 := by decide +kernel
    have e2 : (tx "rsync://h/m/a/b").length = 15 := by decide +kernel
    rw [List.length_append, e1, e2] at this
    omega

/-- **C99 is violated: a URL of a host.** A URL without a module is dropped silently. -/
theorem C99_violated_host (ord : Nat → List (Bytes × Nat) → List (Bytes × Nat)) (ho : AnyOrder ord) :
    reduceMap (addInMap [] (tx "rsync://h")) ord = .ok [] := by
  have e : addInMap [] (tx "rsync://h") = [([tx "h"], 1)] := by decide +kernel
  obtain ⟨out, h1, _, _, h2⟩ := C99_directories [tx "rsync://h"] ord ho
  rw [show [tx "rsync://h"].foldl addInMap [] = addInMap [] (tx "rsync://h") from rfl] at h1
  rw [h1]
  cases out with
  | nil => rfl
  | cons d out =>
    exfalso
    obtain ⟨hn, u, hu, hdu⟩ := h2 d (by simp)
    simp at hu
    subst hu
    obtain ⟨host, rest, hh, rfl⟩ := hn
    rcases hdu with h | ⟨r, h⟩
    · have : (47 : UInt8) ∈ (tx "rsync://h").drop 8 := by
        rw [h, show List.drop 8 (rsyncScheme ++ host ++ 47 :: rest) = host ++ 47 :: rest from rfl]; simp
      exact absurd this (by decide +kernel)
    · have : (47 : UInt8) ∈ (tx "rsync://h").drop 8 := by
        rw [h, show List.drop 8 (rsyncScheme ++ host ++ 47 :: rest ++ 47 :: r) = host ++ 47 :: rest ++ 47 :: r from rfl]; simp
      exact absurd this (by decide +kernel)

/-! ## C98 — the list of fetched files -/

theorem splitNL_line : ∀ (l r : Bytes), (10 : UInt8) ∉ l → splitNL (l ++ 10 :: r) = l :: splitNL r
  | [], r, _ => by simp [splitNL]
  | b :: l, r, h => by
    simp at h
    have ih := splitNL_line l r h.2
    simp [splitNL, Ne.symm h.1, ih]

theorem splitNL_output (front : Bytes) : ∀ (ps : List Printed), (∀ p ∈ ps, (10 : UInt8) ∉ p.line front) →
    splitNL (output front ps) = ps.map (·.line front) ++ [[]]
  | [], _ => by simp [output, splitNL]
  | p :: ps, h => by
    have ih := splitNL_output front ps (fun q hq => h q (by simp [hq]))
    have : output front (p :: ps) = p.line front ++ 10 :: output front ps := by simp [output]
    rw [this, splitNL_line _ _ (h p (by simp)), ih]
    rfl

theorem scan_output (front : Bytes) (ps : List Printed) (h : ∀ p ∈ ps, (10 : UInt8) ∉ p.line front) :
    scanLines (output front ps) = ((ps.map (·.line front)).takeWhile (fun x => x.length < maxToken)).map dropCR := by
  rw [scanLines, splitNL_output front ps h]
  simp

theorem wanted_iff (l : Bytes) : wanted l = true ↔ Wanted l := by
  simp [wanted, Wanted, List.isSuffixOf_iff_suffix]

/-- Extensions contain no slash, so what stands before a slash does not matter. -/
theorem wanted_front (a n : Bytes) : Wanted (a ++ [47] ++ n) ↔ Wanted n := by
  unfold Wanted
  constructor
  · rintro ⟨e, he, h⟩
    refine ⟨e, he, ?_⟩
    rcases Nat.lt_or_ge n.length (asc e.toList).length with hl | hl
    · exfalso
      have : [47] ++ n <:+ asc e.toList :=
        List.suffix_of_suffix_length_le ⟨a, by simp⟩ h (by simp; omega)
      have hm : (47 : UInt8) ∈ asc e.toList := this.subset (by simp)
      have hno : ∀ e ∈ [".cer", ".mft", ".crl", ".roa", ".gbr"], (47 : UInt8) ∉ asc e.toList := by decide +kernel
      exact hno e he hm
    · exact List.suffix_of_suffix_length_le h ⟨a ++ [47], by simp⟩ hl
  · rintro ⟨e, he, h⟩
    exact ⟨e, he, h.trans (List.suffix_append _ _)⟩

theorem newURI_prefixed {dir uri front : Bytes} (h : Prefixed dir uri front) :
    ∃ base, newURI uri = .ok base ∧ ((front = [] ∧ base = dir) ∨ ∃ last, front = last ++ [47] ∧ dir = base ++ 47 :: last) := by
  have h8 : rsyncScheme.length = 8 := rfl
  cases h with
  | contents s =>
    refine ⟨dir, ?_, .inl ⟨rfl, rfl⟩⟩
    have := s.length_le
    simp [newURI]
    omega
  | module host module hh hm ne e =>
    refine ⟨dir, ?_, .inl ⟨rfl, rfl⟩⟩
    have hl : dir.getLast? ≠ some 47 := by
      rw [e, List.getLast?_append]
      cases hx : (47 :: module).getLast? with
      | none => simp at hx
      | some x =>
        have h2 : module.getLast? = some x := by
          rw [List.getLast?_cons_of_ne_nil ne] at hx; exact hx
        have := List.mem_of_getLast? h2
        simp
        rintro rfl
        exact hm this
    have hp : splitSlash (dir.drop 8) = [host, module] := by
      rw [e, show List.drop 8 (rsyncScheme ++ host ++ 47 :: module) = host ++ 47 :: module from rfl, splitSlash_append,
        splitSlash_plain host hh, splitSlash_plain module hm]
      rfl
    unfold newURI
    rw [if_neg (show ¬ dir.length < 8 by rw [e]; simp [h8])]
    simp only [hp]
    rw [if_neg (by simp), if_neg hl]
  | directory host above last hh hl ne e =>
    refine ⟨rsyncScheme ++ host ++ 47 :: above, ?_, .inr ⟨last, rfl, e⟩⟩
    have hg : dir.getLast? ≠ some 47 := by
      rw [e, List.getLast?_append]
      cases hx : (47 :: last).getLast? with
      | none => simp at hx
      | some x =>
        have h2 : last.getLast? = some x := by
          rw [List.getLast?_cons_of_ne_nil ne] at hx; exact hx
        have := List.mem_of_getLast? h2
        simp
        rintro rfl
        exact hl this
    have hp : splitSlash (dir.drop 8) = host :: splitSlash above ++ [last] := by
      rw [e, show List.drop 8 (rsyncScheme ++ host ++ 47 :: above ++ 47 :: last) = host ++ 47 :: above ++ 47 :: last from rfl,
        splitSlash_append, splitSlash_append, splitSlash_plain host hh, splitSlash_plain last hl]
      rfl
    have hne := splitSlash_ne above
    unfold newURI
    rw [if_neg (show ¬ dir.length < 8 by rw [e]; simp [h8])]
    simp only [hp]
    rw [if_pos ⟨hg, by cases h : splitSlash above with
      | nil => exact (hne h).elim
      | cons a b => simp⟩]
    rw [List.dropLast_concat]
    have : joinSlash (host :: splitSlash above) = host ++ 47 :: above := by
      cases h : splitSlash above with
      | nil => exact (hne h).elim
      | cons a b =>
        have hj := join_split above
        rw [h] at hj
        simp [joinSlash, Tal.join] at hj ⊢
        rw [← hj]
    rw [this]
    simp

/-- **C98, the list (partial: for names that do not begin with "deleting ").** For every URL that is fetched, everything
    rsync prints besides and all files: the list names exactly the RPKI objects among the files, each once, in order, by
    its URL and as present. Missing: names that begin with "deleting ", lines of 64 KiB and more, and lines besides that
    look like files, see the violations. -/
theorem C98_listed_partial (dir uri front : Bytes) (hp : Prefixed dir uri front) (ps : List Printed)
    (hf : ∀ p ∈ ps, Fits (p.line front)) (hc : ∀ l, Printed.chatter l ∈ ps → ¬ Wanted l)
    (hd : ∀ n, Printed.file n ∈ ps → ¬ asc "deleting ".toList <+: front ++ n) :
    rsyncFiles uri (output front ps) = .ok ((urls dir ps).map fun u => ⟨u, false⟩) := by
  obtain ⟨base, hb, hfr⟩ := newURI_prefixed hp
  unfold rsyncFiles
  rw [hb, Go.ok_bind, Go.pure_def]
  rw [scan_output front ps (fun p h => (hf p h).1)]
  rw [Go.ok.injEq]
  clear hb hp
  induction ps with
  | nil => simp [urls]
  | cons p ps ih =>
    have ih' := ih (fun q hq => hf q (by simp [hq])) (fun l hl => hc l (by simp [hl])) (fun n hn => hd n (by simp [hn]))
    have h1 := hf p (by simp)
    have hlen : decide (List.length (p.line front) < maxToken) = true := decide_eq_true h1.2.1
    have hcr : dropCR (p.line front) = p.line front := by rw [dropCR, if_neg h1.2.2]
    rw [List.map_cons, List.takeWhile_cons, if_pos hlen, List.map_cons, hcr]
    cases p with
    | chatter l =>
      have : ¬ wanted l = true := fun h => hc l (by simp) ((wanted_iff l).mp h)
      rw [show Printed.line front (.chatter l) = l from rfl, List.filter_cons_of_neg this, ih']
      rfl
    | file n =>
      rw [show Printed.line front (.file n) = front ++ n from rfl]
      have hw : wanted (front ++ n) = true ↔ Wanted n := by
        rw [wanted_iff]
        rcases hfr with ⟨rfl, _⟩ | ⟨last, rfl, _⟩
        · simp
        · exact wanted_front last n
      have hfm : filterMatch (front ++ n) = (front ++ n, false) := by
        rw [filterMatch, if_neg (fun h => hd n (by simp) ((hasPrefix_iff _ _).mp h))]
      by_cases h : Wanted n
      · rw [List.filter_cons_of_pos (hw.mpr h), List.map_cons, ih', hfm]
        have hu : urls dir (.file n :: ps) = (dir ++ 47 :: n) :: urls dir ps := by simp [urls, h]
        rw [hu, List.map_cons]
        rcases hfr with ⟨rfl, rfl⟩ | ⟨last, rfl, rfl⟩
        · simp
        · simp
      · rw [List.filter_cons_of_neg (fun h' => h (hw.mp h')), ih']
        simp [urls, h]

/-- Example: a directory, with a line of rsync's own. -/
example : rsyncFiles (tx "rsync://h/m/a") (tx "receiving file list ... done\na/\na/x.cer\na/b/y.roa\na/z.txt\n") =
    .ok [⟨tx "rsync://h/m/a/x.cer", false⟩, ⟨tx "rsync://h/m/a/b/y.roa", false⟩] := by decide +kernel
example : Prefixed (tx "rsync://h/m/a") (tx "rsync://h/m/a") (tx "a" ++ [47]) :=
  .directory (tx "h") (tx "m") (tx "a") (by decide +kernel) (by decide +kernel) (by decide +kernel) (by decide +kernel)
example : Prefixed (tx "rsync://h/m") (tx "rsync://h/m") [] :=
  .module (tx "h") (tx "m") (by decide +kernel) (by decide +kernel) (by decide +kernel) (by decide +kernel)
example : Fits (tx "a/x.cer") ∧ Wanted (tx "x.cer") ∧ ¬ Wanted (tx "receiving file list ... done") := by
  refine ⟨⟨by decide +kernel, by decide +kernel, by decide +kernel⟩, by decide +kernel, by decide +kernel⟩

theorem splitNL_plain : ∀ (l : Bytes), (10 : UInt8) ∉ l → splitNL l = [l]
  | [], _ => rfl
  | b :: l, h => by
    simp at h
    simp [splitNL, Ne.symm h.1, splitNL_plain l h.2]

/-- **C98, last line.** A last line without a line feed counts like the others, as after a crash of the tool. -/
theorem C98_last_line (uri front : Bytes) (ps : List Printed) (l : Bytes) (hl : l ≠ []) (h10 : (10 : UInt8) ∉ l)
    (hn : ∀ p ∈ ps, (10 : UInt8) ∉ p.line front) :
    rsyncFiles uri (output front ps ++ l) = rsyncFiles uri (output front (ps ++ [.chatter l])) := by
  have hs : splitNL (output front ps ++ l) = ps.map (·.line front) ++ [l] := by
    induction ps with
    | nil => simpa [output] using splitNL_plain l h10
    | cons p ps ih =>
      have : output front (p :: ps) ++ l = p.line front ++ 10 :: (output front ps ++ l) := by simp [output]
      rw [this, splitNL_line _ _ (hn p (by simp)), ih (fun q hq => hn q (by simp [hq]))]
      rfl
  have : scanLines (output front ps ++ l) = scanLines (output front (ps ++ [.chatter l])) := by
    rw [scan_output front (ps ++ [Printed.chatter l]) (by
      intro p hp
      simp only [List.mem_append, List.mem_singleton] at hp
      rcases hp with hp | rfl
      · exact hn p hp
      · exact h10)]
    rw [scanLines, hs]
    simp [hl, Printed.line]
  unfold rsyncFiles
  rw [this]

example : rsyncFiles (tx "rsync://h/m") (tx "x.cer\r\na/y.roa") =
    .ok [⟨tx "rsync://h/m/x.cer", false⟩, ⟨tx "rsync://h/m/a/y.roa", false⟩] := by decide +kernel

/-- **C98, no crash.** rsync URLs never crash, whatever is printed. -/
theorem C98_no_crash (uri out : Bytes) (h : rsyncScheme <+: uri) : ∃ fs, rsyncFiles uri out = .ok fs := by
  have : ¬ uri.length < 8 := by have := h.length_le; simp [show rsyncScheme.length = 8 from rfl] at this; omega
  have hb : ∃ b, newURI uri = .ok b := by
    unfold newURI
    rw [if_neg this]
    dsimp only
    split <;> exact ⟨_, rfl⟩
  obtain ⟨b, hb⟩ := hb
  exact ⟨_, by rw [rsyncFiles, hb, Go.ok_bind, Go.pure_def]⟩

/-- **C98 is violated: short URLs.** A text of less than eight bytes crashes, after the tool has been started. -/
theorem C98_violated_short (uri out : Bytes) (h : uri.length < 8) : rsyncFiles uri out = .panic := by
  unfold rsyncFiles newURI
  rw [if_pos h]; rfl

/-- **C98 is violated: long lines.** Nothing from a line of 64 KiB on is listed, and no error is given. rsync prints the
    server's message of the day, so a server can do this. -/
theorem C98_violated_long_line (uri front : Bytes) (before after : List Printed) (l : Bytes) (hl : 65536 ≤ l.length)
    (hn : ∀ p ∈ before ++ .chatter l :: after, (10 : UInt8) ∉ p.line front) :
    rsyncFiles uri (output front (before ++ .chatter l :: after)) = rsyncFiles uri (output front before) := by
  have hs : scanLines (output front (before ++ .chatter l :: after)) = scanLines (output front before) := by
    rw [scan_output _ _ hn, scan_output _ _ (fun p hp => hn p (by simp [hp]))]
    congr 1
    rw [List.map_append, List.map_cons]
    have hneg : ¬ (decide (List.length (Printed.line front (.chatter l)) < maxToken) = true) := by
      rw [decide_eq_true_eq]
      exact Nat.not_lt.mpr hl
    have key : ∀ (a b : List Bytes) (x : Bytes), ¬ (decide (List.length x < maxToken) = true) →
        (a ++ x :: b).takeWhile (fun x => decide (x.length < maxToken)) = a.takeWhile (fun x => decide (x.length < maxToken)) := by
      intro a b x hx
      induction a with
      | nil => rw [List.nil_append, List.takeWhile_cons, if_neg hx]; rfl
      | cons y a ih =>
        rw [List.cons_append, List.takeWhile_cons, List.takeWhile_cons, ih]
    exact key _ _ _ hneg
  unfold rsyncFiles
  rw [hs]

/-- **C98 is violated: names that begin with "deleting ".** Such a file is listed under another name, as deleted. -/
theorem C98_violated_deleting : rsyncFiles (tx "rsync://h/m") (output [] [.file (tx "deleting x.cer")]) =
    .ok [⟨tx "rsync://h/m/x.cer", true⟩] := by decide +kernel

/-- **C98 is violated: lines that look like files.** A line of a message that ends like an object is listed. -/
theorem C98_violated_chatter : rsyncFiles (tx "rsync://h/m") (output [] [.chatter (tx "welcome to x.cer")]) =
    .ok [⟨tx "rsync://h/m/welcome to x.cer", false⟩] := by decide +kernel

/-! ## C65 — the host of an rsync URL -/

/-- **C65, host.** Exactly the rsync URLs have a host: what stands between the scheme and the next slash or the end. -/
theorem C65_host (url host : Bytes) : extractRsyncDomain url = .ok host ↔
    (47 : UInt8) ∉ host ∧ (url = rsyncScheme ++ host ∨ ∃ rest, url = rsyncScheme ++ host ++ 47 :: rest) := by
  unfold extractRsyncDomain
  constructor
  · intro h
    split at h
    · rename_i hs
      obtain ⟨x, rfl⟩ := (hasPrefix_iff _ _).mp hs
      have ht : trimPrefix (rsyncScheme ++ x) rsyncScheme = x := by rw [trimPrefix, if_pos hs]; rfl
      rw [ht] at h
      split at h
      · rename_i a l hsp
        simp at h
        subst h
        refine ⟨split_no_slash x a (by rw [hsp]; simp), ?_⟩
        have hj := join_split x
        rw [hsp] at hj
        cases l with
        | nil => left; rw [← hj]; simp [joinSlash, Tal.join]
        | cons b l => right; exact ⟨joinSlash (b :: l), by rw [← hj]; simp [joinSlash, Tal.join]⟩
      · simp at h
    · simp at h
  · rintro ⟨hh, h⟩
    have key : ∀ x, splitSlash x = host :: (splitSlash x).tail → hasPrefix (rsyncScheme ++ x) rsyncScheme = true →
        (if hasPrefix (rsyncScheme ++ x) rsyncScheme = true then
          (match splitSlash (trimPrefix (rsyncScheme ++ x) rsyncScheme) with
            | a :: _ => Go.ok a
            | [] => Go.panic) else .err "not an rsync URL") = Go.ok host := by
      intro x hx hs
      rw [if_pos hs, trimPrefix, if_pos hs, show List.drop (List.length rsyncScheme) (rsyncScheme ++ x) = x from rfl, hx]
    have hpre : ∀ x, hasPrefix (rsyncScheme ++ x) rsyncScheme = true := fun x => (hasPrefix_iff _ _).mpr (List.prefix_append _ _)
    rcases h with rfl | ⟨rest, rfl⟩
    · exact key host (by rw [splitSlash_plain host hh]; rfl) (hpre _)
    · rw [List.append_assoc]
      exact key (host ++ 47 :: rest) (by rw [splitSlash_append, splitSlash_plain host hh]; rfl) (hpre _)

example : extractRsyncDomain (tx "rsync://h.example/m/x.cer") = .ok (tx "h.example") := by decide +kernel

/-! ## C71 — local paths -/

/-- What is kept of a path is made of names: no empty ones, no `.`, no slashes. -/
def CleanNames (acc : List Bytes) : Prop := ∀ c ∈ acc, c ≠ [] ∧ c ≠ dot ∧ (47 : UInt8) ∉ c

theorem cleanNames_step {rooted : Bool} {acc : List Bytes} (h : CleanNames acc) (c : Bytes) (hc : (47 : UInt8) ∉ c) :
    CleanNames (cleanStep rooted acc c) := by
  have hdd : CleanNames [dotdot] := by
    intro x hx
    simp at hx
    subst hx
    decide +kernel
  unfold cleanStep
  split
  · exact h
  · rename_i h1
    split
    · split
      · split
        · exact h
        · exact hdd
      · rename_i a t
        split
        · intro x hx
          simp only [List.mem_cons] at hx
          rcases hx with rfl | hx
          · exact hdd _ (by simp)
          · exact h x (by simpa using hx)
        · intro x hx
          exact h x (by simp [hx])
    · intro x hx
      simp only [List.mem_cons] at hx
      rcases hx with rfl | hx
      · exact ⟨fun e => h1 (.inl e), fun e => h1 (.inr e), hc⟩
      · exact h x hx

theorem cleanNames_foldl {rooted : Bool} : ∀ (l acc : List Bytes), (∀ c ∈ l, (47 : UInt8) ∉ c) → CleanNames acc →
    CleanNames (l.foldl (cleanStep rooted) acc)
  | [], _, _, h => h
  | c :: l, acc, hl, h =>
    cleanNames_foldl l _ (fun c hc => hl c (by simp [hc])) (cleanNames_step h c (hl c (by simp)))

theorem clean_names (s : Bytes) : CleanNames (clean s).comps := by
  intro c hc
  simp only [clean, List.mem_reverse] at hc
  exact cleanNames_foldl _ _ (split_no_slash s) (by intro c hc; simp at hc) c hc

/-- Going over what is clean already changes nothing. -/
theorem foldl_again (rooted : Bool) : ∀ (names ups : List Bytes), (∀ u ∈ ups, u = dotdot) → (rooted = true → ups = []) →
    dotdot ∉ names → CleanNames names → (ups ++ names).foldl (cleanStep rooted) [] = (ups ++ names).reverse := by
  intro names ups hu hr hd hn
  have hups : ∀ (us acc : List Bytes), (∀ u ∈ us, u = dotdot) → (rooted = true → us = []) → (∀ u ∈ acc, u = dotdot) →
      us.foldl (cleanStep rooted) acc = us.reverse ++ acc := by
    intro us
    induction us with
    | nil => intro acc _ _ _; rfl
    | cons u us ih =>
      intro acc h1 h2 h3
      have hrf : rooted = false := by
        cases rooted with
        | false => rfl
        | true => have := h2 rfl; simp at this
      have hu' : u = dotdot := h1 u (by simp)
      have hstep : cleanStep rooted acc u = u :: acc := by
        rw [hu']
        unfold cleanStep
        rw [if_neg (by decide +kernel), if_pos rfl]
        cases acc with
        | nil => simp [hrf]
        | cons a t => rw [h3 a (by simp)]; simp
      rw [List.foldl_cons, hstep, ih (u :: acc) (fun x hx => h1 x (by simp [hx])) (by simp [hrf]) (by
        intro x hx
        simp only [List.mem_cons] at hx
        rcases hx with rfl | hx
        · exact hu'
        · exact h3 x hx)]
      simp
  rw [List.foldl_append, hups ups [] hu hr (by simp), foldl_clean rooted names _ (fun c hc e => hd (e ▸ hc))]
  have hk : keep names = names := by
    unfold keep
    rw [List.filter_eq_self]
    intro c hc
    have := hn c hc
    simp [this.1, this.2.1]
  rw [hk]
  simp

/-- **C71, paths are their texts.** Writing a cleaned path out and cleaning it again gives the same path: paths are the
    same iff their texts are. So it does not matter that the model compares paths by their elements. -/
theorem C71_path_text (s s' : Bytes) : clean (clean s).text = clean s ∧ ((clean s).text = (clean s').text ↔ clean s = clean s') := by
  have key : ∀ s, clean (clean s).text = clean s := by
    intro s
    obtain ⟨ups, names, hc, hu, hd, hr⟩ := clean_shape s
    have hn := clean_names s
    generalize hp : clean s = p at *
    obtain ⟨rooted, comps⟩ := p
    simp only at hc hr hn
    subst hc
    have hnn : CleanNames names := fun c h => hn c (by simp [h])
    have hag := foldl_again rooted names ups hu hr hd hnn
    unfold P.text
    simp only
    by_cases hroot : rooted = true
    · subst hroot
      rw [if_pos rfl]
      have h0 := hr rfl
      subst h0
      simp only [List.nil_append] at hag hn ⊢
      by_cases hne : names = []
      · subst hne; decide +kernel
      · have hs : splitSlash (47 :: joinSlash names) = [] :: names := by
          rw [splitSlash, if_pos rfl, Cache.split_join names hne (fun c hc => (hn c hc).2.2)]
        simp only [clean, List.head?_cons, decide_true, hs, List.foldl_cons]
        rw [show cleanStep true [] [] = [] from rfl, hag]
        simp
    · have hrf : rooted = false := by simpa using hroot
      subst hrf
      rw [if_neg (by simp)]
      by_cases hne : ups ++ names = []
      · rw [if_pos hne, hne]; decide +kernel
      · rw [if_neg hne]
        have hs := Cache.split_join (ups ++ names) hne (fun c hc => (hn c hc).2.2)
        have hh : (joinSlash (ups ++ names)).head? ≠ some 47 := by
          cases hx : ups ++ names with
          | nil => exact (hne hx).elim
          | cons a l =>
            have ha := hn a (by rw [hx]; simp)
            cases a with
            | nil => exact (ha.1 rfl).elim
            | cons b a =>
              have hb : b ≠ 47 := by rintro rfl; exact ha.2.2 (by simp)
              cases l with
              | nil => simpa [joinSlash, Tal.join] using hb
              | cons c l => simpa [joinSlash, Tal.join] using hb
        simp only [clean, hs, hh, decide_false, hag]
        simp
  refine ⟨key s, fun h => ?_, fun h => by rw [h]⟩
  rw [← key s, h, key s']

example : (clean (tx "/a/./b//../c/")).text = tx "/a/c" ∧ (clean (tx "../a/..")).text = tx ".." ∧ (clean []).text = tx "." := by
  decide +kernel

end Verif.Props
