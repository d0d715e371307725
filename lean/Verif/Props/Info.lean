import Mathlib.Data.List.Nodup
import Verif.Lemmas.Info
import Verif.Spec.Fetch
/-
  C93: the info page of octorpki.
-/
set_option autoImplicit false

namespace Verif.Props

open Verif.Info
open Verif.Fetch (CertNames Bindings bindCert)

/-- **C93.** Noting the repositories of a round never panics, gives one list for each trust anchor, and does not change what
    the certificates bind and schedule (C64). -/
theorem C93_round_ends (grow : Nat → Nat) (b : Bindings) (tals : List (List CertNames)) :
    ∃ ia, authorities grow b tals = .ok (Fetch.bindAll b tals.flatten, ia) ∧ ia.length = tals.length := by
  obtain ⟨s, h1, h2⟩ := authorities_inv grow b tals
  exact ⟨s.lists, h1, lists_length h2⟩

/-- **C93.** The page lists, under each trust anchor, exactly the rsync modules that this trust anchor is the first to
    name, each once. -/
theorem C93_modules_partial (grow : Nat → Nat) (b b' : Bindings) (tals : List (List CertNames)) (ia : List (List SIA))
    (h : authorities grow b tals = .ok (b', ia)) (i : Nat) (l : List SIA) (hl : ia[i]? = some l) :
    (∀ m, (∃ x ∈ l, x.rsync = m) ↔ FirstNamed (namings b (numbered 0 tals)) i m) ∧ (l.map (·.rsync)).Nodup := by
  obtain ⟨s, h1, h2⟩ := authorities_inv grow b tals
  rw [h1] at h
  cases h
  obtain ⟨a, arr, g1, g2, rfl⟩ := lists_get h2 i l hl
  refine ⟨fun m => ?_, h2.nodup _ _ _ g1 g2⟩
  rw [← h2.cells _ _ _ g1 g2 m, List.mem_map]

/-- **C93.** Every module that a certificate which counts names is on the page. -/
theorem C93_every_module (grow : Nat → Nat) (b b' : Bindings) (tals : List (List CertNames)) (ia : List (List SIA))
    (h : authorities grow b tals = .ok (b', ia)) (n : Naming) (hn : n ∈ namings b (numbered 0 tals)) :
    ∃ (i : Nat) (l : List SIA) (x : SIA), ia[i]? = some l ∧ x ∈ l ∧ x.rsync = n.module := by
  have hfirst : ∀ (ns : List Naming), n ∈ ns → ∃ y ∈ ns, FirstNamed ns y.tal n.module := by
    intro ns
    induction ns with
    | nil => simp
    | cons y ns ih =>
      intro hy
      by_cases e : y.module = n.module
      · exact ⟨y, by simp, [], y, ns, rfl, rfl, e, by simp⟩
      · rcases List.mem_cons.1 hy with rfl | hy
        · exact absurd rfl e
        · obtain ⟨z, hz, b, x, a, rfl, h1, h2, h3⟩ := ih hy
          refine ⟨z, by simp [hz], y :: b, x, a, rfl, h1, h2, ?_⟩
          intro w hw
          rcases List.mem_cons.1 hw with rfl | hw
          · exact e
          · exact h3 w hw
  obtain ⟨y, hy, hf⟩ := hfirst _ hn
  have hlt : y.tal < tals.length := by
    have key : ∀ (tals : List (List CertNames)) (k : Nat) (b : Bindings), ∀ y ∈ namings b (numbered k tals),
        y.tal < k + tals.length := by
      have one : ∀ (cs : List CertNames) (k : Nat) (b : Bindings), ∀ y ∈ namings b (cs.map fun c => (k, c)), y.tal = k := by
        intro cs
        induction cs with
        | nil => simp [namings]
        | cons c cs ih =>
          intro k b y hy
          simp only [List.map_cons, namings, List.mem_append, Option.mem_toList] at hy
          rcases hy with hy | hy
          · unfold naming at hy
            split at hy
            · split at hy
              · cases hy; rfl
              · split at hy
                · cases hy; rfl
                · cases hy
            · cases hy
          · exact ih k _ y hy
      intro tals
      induction tals with
      | nil => simp [namings, numbered]
      | cons cs rest ih =>
        intro k b y hy
        simp only [numbered, namings_append, List.mem_append] at hy
        rcases hy with hy | hy
        · rw [one cs k b y hy]; simp
        · have := ih (k + 1) _ y hy
          simp only [List.length_cons]; omega
    simpa using key tals 0 b y hy
  obtain ⟨s, h1, h2⟩ := authorities_inv grow b tals
  have hlen := lists_length h2
  rw [h1] at h
  cases h
  have hg : s.lists[y.tal]? = some (s.lists[y.tal]'(by rw [hlen]; exact hlt)) := List.getElem?_eq_getElem _
  obtain ⟨x, hx, e⟩ := ((C93_modules_partial grow b _ tals _ h1 _ _ hg).1 n.module).2 hf
  exact ⟨_, _, x, hg, hx, e⟩

/-- **C93.** No module is on the page twice. -/
theorem C93_module_once (grow : Nat → Nat) (b b' : Bindings) (tals : List (List CertNames)) (ia : List (List SIA))
    (h : authorities grow b tals = .ok (b', ia)) (i j : Nat) (l l' : List SIA) (hl : ia[i]? = some l)
    (hl' : ia[j]? = some l') (x y : SIA) (hx : x ∈ l) (hy : y ∈ l') (e : x.rsync = y.rsync) : i = j ∧ x = y := by
  obtain ⟨h1, -⟩ := C93_modules_partial grow b b' tals ia h i l hl
  obtain ⟨h2, hd⟩ := C93_modules_partial grow b b' tals ia h j l' hl'
  have hij : i = j := firstNamed_unique ((h1 _).1 ⟨x, hx, rfl⟩) (e ▸ (h2 _).1 ⟨y, hy, rfl⟩)
  subst hij
  rw [hl] at hl'
  cases hl'
  exact ⟨rfl, List.inj_on_of_nodup_map hd hx hy e⟩

/-- **C93.** The RRDP URL beside a module was named together with that module by a valid certificate of this round; so
    a module for which all certificates give the same URL is shown with it. -/
theorem C93_url_named_partial (grow : Nat → Nat) (b b' : Bindings) (tals : List (List CertNames)) (ia : List (List SIA))
    (h : authorities grow b tals = .ok (b', ia)) (l : List SIA) (hl : l ∈ ia) (x : SIA) (hx : x ∈ l) :
    ∃ n ∈ namings b (numbered 0 tals), n.module = x.rsync ∧ n.rrdp = x.rrdp := by
  obtain ⟨s, h1, h2⟩ := authorities_inv grow b tals
  rw [h1] at h
  cases h
  obtain ⟨i, hi⟩ := List.getElem?_of_mem hl
  obtain ⟨a, arr, g1, g2, rfl⟩ := lists_get h2 i l hi
  exact h2.named _ _ g2 x hx

/-- **C93.** The last module listed under a trust anchor is shown with the URL of the last certificate that names it
    (which is the URL scheduled for it, see C64). -/
theorem C93_last_url_partial (grow : Nat → Nat) (b b' : Bindings) (tals : List (List CertNames)) (ia : List (List SIA))
    (h : authorities grow b tals = .ok (b', ia)) (l : List SIA) (hl : l ∈ ia) (x : SIA) (hx : l.getLast? = some x) :
    LastUrl (namings b (numbered 0 tals)) x.rsync x.rrdp := by
  obtain ⟨s, h1, h2⟩ := authorities_inv grow b tals
  rw [h1] at h
  cases h
  obtain ⟨i, hi⟩ := List.getElem?_of_mem hl
  obtain ⟨a, arr, g1, g2, rfl⟩ := lists_get h2 i l hi
  exact (h2.last _ _ _ x g1 g2 hx).2

/-- **C93.** The page shows the trust anchors in order, each with the list of the last round, under the names of the command
    line if there are as many as trust anchors, otherwise under their files. It never panics. Before the first round it
    shows none. -/
theorem C93_page (paths names : List Bytes) (ia : List (List SIA)) :
    serveInfo paths names ia = .ok ((if names.length = paths.length then names else paths).zip ia) := by
  have key : ∀ (rest : List Bytes) (i : Nat), paths.drop i = rest →
      infoLoop paths names ia i rest =
        .ok (((if names.length = paths.length then names else paths).drop i).zip (ia.drop i)) := by
    intro rest
    induction rest with
    | nil =>
      intro i h
      have : paths.length ≤ i := by simpa using h
      simp only [infoLoop]
      split <;> rw [List.drop_eq_nil_of_le (by omega)] <;> simp
    | cons p rest ih =>
      intro i h
      have hi : i < paths.length := by
        by_contra hc
        rw [List.drop_eq_nil_of_le (by omega)] at h
        cases h
      have hp : paths[i]? = some p := by
        have := congrArg List.head? h
        simpa using this
      have hr : paths.drop (i + 1) = rest := by
        have := congrArg List.tail h
        simpa using this
      simp only [infoLoop]
      split
      · next hc => rw [List.drop_eq_nil_of_le hc]; simp
      · next hc =>
        have hia : ia[i]? = some (ia[i]'(by omega)) := List.getElem?_eq_getElem _
        rw [ih (i + 1) hr]
        split
        · next hn =>
          have hni : names[i]? = some (names[i]'(by omega)) := List.getElem?_eq_getElem _
          simp only [idx, hni, hia, Go.ok_bind, Go.pure_def]
          rw [List.drop_eq_getElem_cons (l := names) (i := i) (by omega), List.drop_eq_getElem_cons (l := ia) (i := i) (by omega)]
          rfl
        · simp only [idx, hia, Go.ok_bind, Go.pure_def]
          rw [List.drop_eq_getElem_cons (l := paths) (i := i) (by omega), List.drop_eq_getElem_cons (l := ia) (i := i) (by omega)]
          have : paths[i] = p := by
            rw [List.getElem?_eq_getElem hi] at hp
            exact Option.some.inj hp
          rw [this]
          rfl
  simpa [serveInfo] using key paths 0 rfl

namespace InfoEx

/-- Certificates: two modules of one host, the first with an old and a new URL. -/
def aOld : CertNames := ⟨asc "rsync://host/a/x".toList, some (asc "https://host/1.xml".toList)⟩
def bOne : CertNames := ⟨asc "rsync://host/b/y".toList, none⟩
def aNew : CertNames := ⟨asc "rsync://host/a/z".toList, some (asc "https://host/2.xml".toList)⟩
/-- A certificate that does not count: its URL belongs to another host. -/
def foreign : CertNames := ⟨asc "rsync://other/c/x".toList, some (asc "https://host/1.xml".toList)⟩

def sia (r u : String) : SIA := ⟨asc r.toList, asc u.toList⟩

end InfoEx

/-- Two trust anchors with three modules and one certificate that does not count: the hypotheses of the theorems above are
    met, and the page is this. -/
example : (match authorities goGrow Bindings.empty [[InfoEx.aOld, InfoEx.foreign], [InfoEx.bOne, InfoEx.aOld]] with
      | .ok (_, ia) => serveInfo [asc "a.tal".toList, asc "b.tal".toList] [asc "A".toList, asc "B".toList] ia
      | _ => .panic) =
    .ok [(asc "A".toList, [InfoEx.sia "rsync://host/a" "https://host/1.xml"]),
         (asc "B".toList, [InfoEx.sia "rsync://host/b" ""])] := by decide +kernel

/-- **C93.** Full property: a module is shown with the URL of the last certificate that names it. This is false: once another
    module is listed, the pointer kept for the first may lead to an abandoned array, and the page shows a URL that is no
    longer the one scheduled. -/
theorem C93_violated_stale_url : ∃ (tals : List (List CertNames)) (b' : Bindings) (ia : List (List SIA)) (l : List SIA)
    (x : SIA), authorities goGrow Bindings.empty tals = .ok (b', ia) ∧ l ∈ ia ∧ x ∈ l ∧
      b'.jobs.get x.rsync ≠ some x.rrdp ∧ ¬ LastUrl (namings Bindings.empty (numbered 0 tals)) x.rsync x.rrdp := by
  refine ⟨[[InfoEx.aOld, InfoEx.bOne, InfoEx.aNew]],
    Fetch.bindAll Bindings.empty [InfoEx.aOld, InfoEx.bOne, InfoEx.aNew],
    [[InfoEx.sia "rsync://host/a" "https://host/1.xml", InfoEx.sia "rsync://host/b" ""]], _,
    InfoEx.sia "rsync://host/a" "https://host/1.xml", ?_, List.mem_singleton.2 rfl, by simp, ?_, ?_⟩
  · have h := C93_round_ends goGrow Bindings.empty [[InfoEx.aOld, InfoEx.bOne, InfoEx.aNew]]
    obtain ⟨ia, h, -⟩ := h
    have : (match authorities goGrow Bindings.empty [[InfoEx.aOld, InfoEx.bOne, InfoEx.aNew]] with
      | .ok (_, ia) => some ia | _ => none) =
      some [[InfoEx.sia "rsync://host/a" "https://host/1.xml", InfoEx.sia "rsync://host/b" ""]] := by decide +kernel
    rw [h] at this ⊢
    simp only [Option.some.injEq] at this
    rw [this]
    rfl
  · decide +kernel
  · have e : namings Bindings.empty (numbered 0 [[InfoEx.aOld, InfoEx.bOne, InfoEx.aNew]]) =
      [⟨0, asc "rsync://host/a".toList, asc "https://host/1.xml".toList⟩, ⟨0, asc "rsync://host/b".toList, []⟩] ++
        [⟨0, asc "rsync://host/a".toList, asc "https://host/2.xml".toList⟩] := by decide +kernel
    rw [e, lastUrl_snoc]
    rintro (⟨-, h⟩ | ⟨h, -⟩)
    · exact absurd h (by decide +kernel)
    · exact h rfl

/-- **C93.** Full property: every trust anchor is shown with all modules that its certificates name. This is false: a module
    that an earlier trust anchor names too is shown there only, with a URL that only the later trust anchor names. -/
theorem C93_violated_shared_module : ∃ (tals : List (List CertNames)) (b' : Bindings) (l : List SIA) (x : SIA),
    authorities goGrow Bindings.empty tals = .ok (b', [l, []]) ∧ x ∈ l ∧
    (∃ n ∈ namings Bindings.empty (numbered 0 tals), n.tal = 1 ∧ n.module = x.rsync) ∧
    (∀ n ∈ namings Bindings.empty (numbered 0 tals), n.tal = 0 → n.rrdp ≠ x.rrdp) := by
  refine ⟨[[InfoEx.aOld], [InfoEx.aNew]], Fetch.bindAll Bindings.empty [InfoEx.aOld, InfoEx.aNew],
    [InfoEx.sia "rsync://host/a" "https://host/2.xml"], InfoEx.sia "rsync://host/a" "https://host/2.xml", ?_, by simp, ?_, ?_⟩
  · obtain ⟨ia, h, -⟩ := C93_round_ends goGrow Bindings.empty [[InfoEx.aOld], [InfoEx.aNew]]
    have : (match authorities goGrow Bindings.empty [[InfoEx.aOld], [InfoEx.aNew]] with
      | .ok (_, ia) => some ia | _ => none) =
      some [[InfoEx.sia "rsync://host/a" "https://host/2.xml"], []] := by decide +kernel
    rw [h] at this ⊢
    simp only [Option.some.injEq] at this
    rw [this]
    rfl
  · decide +kernel
  · decide +kernel

end Verif.Props
