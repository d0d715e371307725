import Verif.Lemmas.Routes
/-
  C110: which request gets which document, and which pages of other origins may read it.
-/
set_option autoImplicit false

namespace Verif.Props
open Routes RoutesSpec

instance (c : Cfg) : Decidable (Rooted c) := inferInstanceAs (Decidable (_ ∧ _ ∧ _ ∧ _))

/-- C110: the server starts if and only if no path is empty and no two are the same; otherwise the program crashes. -/
theorem C110_start (c : Cfg) : ((∃ mux, start c = .ok mux) ∨ start c = .panic) ∧
    ((∃ mux, start c = .ok mux) ↔ (∀ e ∈ registered c, e.1 ≠ []) ∧ ((registered c).map (·.1)).Nodup) := by
  obtain ⟨h1, h2⟩ := handleAll_iff (registered c) ⟨[], [], false⟩ [] holds_nil
  refine ⟨h1, h2.trans ?_⟩
  simp

theorem rooted_hosts {c : Cfg} (hr : Rooted c) : ∀ e ∈ registered c, e.1.head? = some 47 := by
  obtain ⟨h1, h2, h3, h4⟩ := hr
  have hf : (fullPath c.roaPath).head? = some 47 := by
    unfold fullPath
    split
    · rename_i h; exact absurd h h4
    · split
      · rfl
      · rename_i h
        simpa using h
  intro e he
  unfold registered at he
  rcases List.mem_append.mp he with he | he
  · simp only [List.mem_cons, List.not_mem_nil, or_false] at he
    rcases he with rfl | rfl | rfl | rfl | rfl
    · exact hf
    · rfl
    · exact h1
    · exact h2
    · exact h3
  · split at he
    · simp only [List.mem_cons, List.not_mem_nil, or_false] at he
      rcases he with rfl | rfl | rfl | rfl | rfl <;> rfl
    · simp at he

/-- A pattern is registered. -/
def HasPattern (c : Cfg) (p : Bytes) : Prop := ∃ d, (p, d) ∈ registered c

/-- A request for the path is sent on to the path with a slash: only that one is registered. -/
def SentOn (c : Cfg) (p : Bytes) : Prop := ¬ HasPattern c p ∧ HasPattern c (p ++ [47]) ∧ p.getLast? ≠ some 47

theorem lookup_isSome {c : Cfg} {mux : Mux} (hh : Holds mux (registered c)) (p : Bytes) : (mux.m.lookup p).isSome = true ↔ HasPattern c p := by
  rw [Option.isSome_iff_exists]
  exact exists_congr fun d => hh.look p d

theorem shouldRedirect_iff {c : Cfg} (hr : Rooted c) {mux : Mux} (hh : Holds mux (registered c)) (host path : Bytes) (hhost : host.head? ≠ some 47) (hp : path.head? = some 47) :
    mux.shouldRedirect host path = true ↔ SentOn c path := by
  have hno : ∀ p, p ≠ [] → HasPattern c (host ++ p) → HasPattern c p := by
    intro p hp0 ⟨d, hd⟩
    cases host with
    | nil => exact ⟨d, hd⟩
    | cons b t => exact absurd (rooted_hosts hr _ hd) (by simpa using hhost)
  have hne : path ≠ [] := by rintro rfl; cases hp
  unfold Mux.shouldRedirect SentOn
  have hl := lookup_isSome hh
  by_cases h1 : HasPattern c path
  · rw [if_pos (.inl ((hl _).mpr h1))]; simp [h1]
  · rw [if_neg (by rintro (h | h); exact h1 ((hl _).mp h); exact h1 (hno _ hne ((hl _).mp h))), if_neg hne]
    by_cases h2 : HasPattern c (path ++ [47])
    · rw [if_pos (.inl ((hl _).mpr h2))]; simp [h1, h2]
    · rw [if_neg (by
        rintro (h | h)
        · exact h2 ((hl _).mp h)
        · rw [List.append_assoc] at h; exact h2 (hno _ (by simp) ((hl _).mp h)))]
      simp [h2]

theorem answer_unfold {c : Cfg} (hr : Rooted c) {mux : Mux} (hs : start c = .ok mux) (r : Req) (hm : r.method ≠ asc "CONNECT".toList) (hh : r.hostName.head? ≠ some 47) :
    mux.answer r = if mux.shouldRedirect r.hostName (cleanPath r.path) then .redirect (cleanPath r.path ++ [47])
      else if cleanPath r.path ≠ r.path then .redirect (cleanPath r.path) else .ofDoc (mux.find r.path) := by
  have hold := start_holds hs
  have : mux.hosts = false := hold.hosts.mpr (rooted_hosts hr)
  unfold Mux.answer Mux.handler
  rw [if_neg hm, this]
  simp

/-- C110: a request gets a document if and only if its path is in simple form, the document is the one of the longest pattern that fits, and the request is not
    sent on to the path with a slash; it is answered with 404 if and only if no pattern fits such a path. -/
theorem C110_document (c : Cfg) (hr : Rooted c) (mux : Mux) (hs : start c = .ok mux) (r : Req) (hm : r.method ≠ asc "CONNECT".toList) (hh : r.hostName.head? ≠ some 47) :
    (∀ d, mux.answer r = .doc d ↔ Simple r.path ∧ ¬ SentOn c r.path ∧ Best (registered c) r.path d) ∧
    (mux.answer r = .notFound ↔ Simple r.path ∧ ¬ SentOn c r.path ∧ ∀ p d, (p, d) ∈ registered c → ¬ Fits p r.path) := by
  have hold := start_holds hs
  have hsr := shouldRedirect_iff hr hold r.hostName (cleanPath r.path) hh (cleanPath_simple r.path).1
  rw [answer_unfold hr hs r hm hh]
  by_cases hsp : Simple r.path
  · have hcl := cleanPath_of_simple hsp
    rw [hcl] at hsr ⊢
    by_cases hrd : mux.shouldRedirect r.hostName r.path = true
    · rw [if_pos hrd]
      refine ⟨fun d => ⟨(fun h => by cases h), fun h => absurd (hsr.mp hrd) h.2.1⟩, ⟨(fun h => by cases h), fun h => absurd (hsr.mp hrd) h.2.1⟩⟩
    · rw [if_neg hrd, if_neg (by simp)]
      have hn : ¬ SentOn c r.path := fun h => hrd (hsr.mpr h)
      refine ⟨fun d => ?_, ?_⟩
      · rw [← find_best hold]
        cases mux.find r.path with
        | none => exact ⟨(fun h => by cases h), (fun h => by cases h.2.2)⟩
        | some e => exact ⟨fun h => by cases h; exact ⟨hsp, hn, rfl⟩, fun h => by cases h.2.2; rfl⟩
      · rw [← find_none hold]
        cases mux.find r.path with
        | none => exact ⟨fun _ => ⟨hsp, hn, rfl⟩, fun _ => rfl⟩
        | some e => exact ⟨(fun h => by cases h), (fun h => by cases h.2.2)⟩
  · have hcl : cleanPath r.path ≠ r.path := fun h => hsp ((cleanPath_eq_iff _).mp h)
    rw [if_pos hcl]
    refine ⟨fun d => ⟨fun h => ?_, fun h => absurd h.1 hsp⟩, fun h => ?_, fun h => absurd h.1 hsp⟩
    · split at h <;> cases h
    · split at h <;> cases h

theorem simple_slash {p : Bytes} (h : Simple p) (hl : p.getLast? ≠ some 47) : Simple (p ++ [47]) := by
  have hc := cleanPath_of_simple h
  obtain ⟨h0, h1, h2⟩ := h
  cases p with
  | nil => simp at h0
  | cons b s =>
    simp only [List.head?_cons, Option.some.injEq] at h0
    subst h0
    have e : Path.splitSlash (47 :: s ++ [47]) = Path.splitSlash (47 :: s) ++ [[]] := Path.splitSlash_append (47 :: s) []
    refine ⟨rfl, ?_, ?_⟩
    · rw [e, splitSlash_cons47, List.cons_append, List.tail_cons, List.dropLast_concat]
      rw [splitSlash_cons47, List.tail_cons] at h1
      intro c hc hce
      subst hce
      -- the last element is not empty, since the path does not end in a slash
      have hne := Path.splitSlash_ne s
      rw [← List.dropLast_concat_getLast hne] at hc
      rcases List.mem_append.mp hc with hc | hc
      · exact h1 _ hc rfl
      · simp only [List.mem_singleton] at hc
        have hj := Path.join_split s
        rw [← List.dropLast_concat_getLast hne, ← hc, getLast_join] at hj
        split at hj
        · subst hj; exact hl rfl
        · apply hl
          rw [← hj, ← List.cons_append, List.getLast?_append]
          simp
    · rw [e]
      intro c hc
      rcases List.mem_append.mp hc with hc | hc
      · exact h2 c hc
      · simp only [List.mem_singleton] at hc
        subst hc
        decide

/-- C110: a redirection leads to another path, in simple form, and it is the only one: the request for that path is not redirected again. -/
theorem C110_redirect (c : Cfg) (hr : Rooted c) (mux : Mux) (hs : start c = .ok mux) (r : Req) (hm : r.method ≠ asc "CONNECT".toList) (hh : r.hostName.head? ≠ some 47)
    (t : Bytes) (h : mux.answer r = .redirect t) :
    t ≠ r.path ∧ Simple t ∧ (t = cleanPath r.path ∨ (t = cleanPath r.path ++ [47] ∧ HasPattern c t)) ∧ ∀ u, mux.answer { r with path := t } ≠ .redirect u := by
  have hold := start_holds hs
  have hcs := cleanPath_simple r.path
  have hsr := shouldRedirect_iff hr hold r.hostName (cleanPath r.path) hh hcs.1
  rw [answer_unfold hr hs r hm hh] at h
  have hagain : ∀ t, Simple t → ¬ SentOn c t → ∀ u, mux.answer { r with path := t } ≠ .redirect u := by
    intro t ht hn u hu
    rw [answer_unfold hr hs { r with path := t } hm hh] at hu
    dsimp only at hu
    rw [cleanPath_of_simple ht, if_neg (fun hx => hn ((shouldRedirect_iff hr hold r.hostName t hh ht.1).mp hx)), if_neg (by simp)] at hu
    cases hf : mux.find t <;> rw [hf] at hu <;> cases hu
  split at h
  · rename_i hrd
    obtain ⟨a, b, e⟩ := hsr.mp hrd
    cases h
    have hst := simple_slash hcs e
    refine ⟨?_, hst, .inr ⟨rfl, b⟩, hagain _ hst fun hx => hx.1 b⟩
    intro he
    have hp : Simple r.path := he ▸ hst
    have := cleanPath_of_simple hp
    rw [this] at he
    exact absurd (congrArg List.length he) (by simp)
  · rename_i hrd
    split at h
    · rename_i hne
      cases h
      exact ⟨hne, hcs, .inl rfl, hagain _ hcs fun hx => hrd (hsr.mpr hx)⟩
    · cases hf : mux.find r.path <;> rw [hf] at h <;> cases h

/-- C110: every path of the configuration in simple form gets its document, from every host. -/
theorem C110_served (c : Cfg) (hr : Rooted c) (mux : Mux) (hs : start c = .ok mux) (r : Req) (hm : r.method ≠ asc "CONNECT".toList) (hh : r.hostName.head? ≠ some 47)
    (d : Doc) (hd : (r.path, d) ∈ registered c) (hp : Simple r.path) : mux.answer r = .doc d :=
  ((C110_document c hr mux hs r hm hh).1 d).mpr ⟨hp, fun h => h.1 ⟨d, hd⟩, r.path, hd, .inl rfl, fun _ _ _ hf => fits_length hf⟩

/-- C110: which path gets which document; the ROAs are at their path, with a slash put before it if it has none. -/
theorem C110_pages (c : Cfg) (hr : Rooted c) (mux : Mux) (hs : start c = .ok mux) (r : Req) (hm : r.method ≠ asc "CONNECT".toList) (hh : r.hostName.head? ≠ some 47)
    (hp : Simple r.path) :
    (r.path = c.roaPath ∨ (c.roaPath.head? ≠ some 47 ∧ r.path = 47 :: c.roaPath) → mux.answer r = .doc .roas) ∧
    (r.path = asc "/resources.json".toList → mux.answer r = .doc .resources) ∧
    (r.path = c.infoPath → mux.answer r = .doc .info) ∧
    (r.path = c.healthPath → mux.answer r = .doc .health) ∧
    (r.path = c.metricsPath → mux.answer r = .doc .metrics) := by
  have key : ∀ d, (r.path, d) ∈ registered c → mux.answer r = .doc d := fun d hd => C110_served c hr mux hs r hm hh d hd hp
  refine ⟨fun h => key _ ?_, fun h => key _ ?_, fun h => key _ ?_, fun h => key _ ?_, fun h => key _ ?_⟩
  · have : r.path = fullPath c.roaPath := by
      unfold fullPath
      have h0 := hp.1
      cases hx : c.roaPath with
      | nil => exact absurd hx hr.2.2.2
      | cons b t =>
        rw [hx] at h
        dsimp only
        rcases h with h | ⟨h1, h⟩
        · rw [h] at h0 ⊢
          rw [if_neg (by simpa using h0)]
        · rw [h, if_pos (by simpa using h1)]
    rw [this]
    exact List.mem_append_left _ List.mem_cons_self
  · rw [h]; exact List.mem_append_left _ (List.mem_cons_of_mem _ List.mem_cons_self)
  · rw [h]; exact List.mem_append_left _ (List.mem_cons_of_mem _ (List.mem_cons_of_mem _ List.mem_cons_self))
  · rw [h]; exact List.mem_append_left _ (List.mem_cons_of_mem _ (List.mem_cons_of_mem _ (List.mem_cons_of_mem _ List.mem_cons_self)))
  · rw [h]; exact List.mem_append_left _ (List.mem_cons_of_mem _ (List.mem_cons_of_mem _ (List.mem_cons_of_mem _ (List.mem_cons_of_mem _ List.mem_cons_self))))

/-- The options as they are by default (octorpki.go:75-85). -/
def cfgD : Cfg := ⟨asc "output.json".toList, asc "/metrics".toList, asc "/infos".toList, asc "/health".toList, asc "*".toList, false, false⟩

/-- The server starts with the default options; what a few requests get. -/
example : Rooted cfgD ∧ (∃ mux, start cfgD = .ok mux ∧
    ["/output.json", "/resources.json", "/infos", "/health", "/metrics", "/", "/a/../infos", "/infos/"].map (fun p =>
      mux.answer ⟨asc "GET".toList, asc "h:80".toList, asc "h".toList, asc p.toList, [], [], []⟩) =
    [.doc .roas, .doc .resources, .doc .info, .doc .health, .doc .metrics, .notFound, .redirect (asc "/infos".toList), .notFound]) ∧
    start { cfgD with infoPath := asc "/health".toList } = .panic := by
  refine ⟨by decide +kernel, ?_, by decide +kernel⟩
  have : (match start cfgD with
    | .ok mux => ["/output.json", "/resources.json", "/infos", "/health", "/metrics", "/", "/a/../infos", "/infos/"].map (fun p =>
      mux.answer ⟨asc "GET".toList, asc "h:80".toList, asc "h".toList, asc p.toList, [], [], []⟩)
    | _ => []) = [.doc .roas, .doc .resources, .doc .info, .doc .health, .doc .metrics, .notFound, .redirect (asc "/infos".toList), .notFound] := by decide +kernel
  cases h : start cfgD with
  | ok mux => rw [h] at this; exact ⟨mux, rfl, this⟩
  | _ => rw [h] at this; cases this

/-- With a pattern that ends in a slash: what is below it, the longest pattern, the redirection to it. -/
example : (match start { cfgD with pprof := true, infoPath := asc "/".toList } with
    | .ok mux => ["/x", "/debug/pprof", "/debug/pprof/heap", "/debug/pprof/trace", "/debug"].map (fun p =>
      mux.answer ⟨asc "GET".toList, asc "h".toList, asc "h".toList, asc p.toList, [], [], []⟩)
    | _ => []) = [.doc .info, .redirect (asc "/debug/pprof/".toList), .doc (.pprof 4), .doc (.pprof 3), .doc .info] := by decide +kernel

theorem snd_unique {α β : Type} : ∀ (l : List (α × β)), (l.map (·.2)).Nodup → ∀ p q d, (p, d) ∈ l → (q, d) ∈ l → p = q
  | [], _, _, _, _, h, _ => by cases h
  | (x, y) :: r, hn, p, q, d, h1, h2 => by
    rw [List.map_cons, List.nodup_cons] at hn
    rcases List.mem_cons.mp h1 with h1 | h1 <;> rcases List.mem_cons.mp h2 with h2 | h2
    · cases h1; cases h2; rfl
    · cases h1; exact absurd (List.mem_map.mpr ⟨_, h2, rfl⟩) hn.1
    · cases h2; exact absurd (List.mem_map.mpr ⟨_, h1, rfl⟩) hn.1
    · exact snd_unique r hn.2 p q d h1 h2

theorem registered_docs (c : Cfg) : (registered c).map (·.2) = [.roas, .resources, .info, .health, .metrics] ++ if c.pprof then [.pprof 0, .pprof 1, .pprof 2, .pprof 3, .pprof 4] else [] := by
  unfold registered
  rw [List.map_append]
  cases c.pprof <;> rfl

theorem registered_unique {c : Cfg} {p q : Bytes} {d : Doc} (h1 : (p, d) ∈ registered c) (h2 : (q, d) ∈ registered c) : p = q := by
  refine snd_unique (registered c) ?_ p q d h1 h2
  rw [registered_docs]
  cases c.pprof <;> decide

theorem roas_registered (c : Cfg) : (fullPath c.roaPath, Doc.roas) ∈ registered c := List.mem_append_left _ List.mem_cons_self

/-- **C110 is violated: no path for the ROAs.** With an empty path for the output, which means the standard output elsewhere, the server does not start: the program crashes. -/
theorem C110_violated_empty (c : Cfg) (h : c.roaPath = []) : start c = .panic := by
  obtain ⟨h1, h2⟩ := C110_start c
  rcases h1 with h1 | h1
  · have := (h2.mp h1).1 _ (roas_registered c)
    rw [h] at this
    exact absurd rfl this
  · exact h1

/-- **C110 is violated: paths of the ROAs that are not in simple form.** A path like "./output.json" or "../output.json" names a file when the program writes one, but no request
    ever gets the ROAs. -/
theorem C110_violated_form (c : Cfg) (hr : Rooted c) (mux : Mux) (hs : start c = .ok mux) (hf : ¬ Simple (fullPath c.roaPath)) (hl : c.roaPath.getLast? ≠ some 47)
    (r : Req) (hm : r.method ≠ asc "CONNECT".toList) (hh : r.hostName.head? ≠ some 47) : mux.answer r ≠ .doc .roas := by
  intro h
  obtain ⟨h1, -, p, hp, hfit, -⟩ := ((C110_document c hr mux hs r hm hh).1 .roas).mp h
  have hpe : p = fullPath c.roaPath := registered_unique hp (roas_registered c)
  subst hpe
  rcases hfit with h | ⟨h, -⟩
  · exact hf (h ▸ h1)
  · apply hl
    rw [← h]
    unfold fullPath
    cases hx : c.roaPath with
    | nil => exact absurd hx hr.2.2.2
    | cons b t =>
      dsimp only
      split
      · rw [List.getLast?_cons_cons]
      · rfl

example : ∃ mux, Rooted { cfgD with roaPath := asc "./output.json".toList } ∧ start { cfgD with roaPath := asc "./output.json".toList } = .ok mux ∧
    ¬ Simple (fullPath (asc "./output.json".toList)) := by
  have h1 : Rooted { cfgD with roaPath := asc "./output.json".toList } := by decide +kernel
  obtain ⟨mux, h2⟩ := (C110_start { cfgD with roaPath := asc "./output.json".toList }).2.mpr (by decide +kernel)
  refine ⟨mux, h1, h2, fun h => ?_⟩
  exact (h.2.2 Path.dot (by decide +kernel)).1 rfl

/-- **C110 is violated: paths without a slash.** A page whose path is given without a slash, like "infos" or "health", is never served (for the ROAs a slash is put before). -/
theorem C110_violated_no_slash (c : Cfg) (mux : Mux) (hs : start c = .ok mux) (p : Bytes) (d : Doc) (hd : (p, d) ∈ registered c) (hp : 47 ∉ p)
    (r : Req) (hm : r.method ≠ asc "CONNECT".toList) : mux.answer r ≠ .doc d := by
  have hold := start_holds hs
  have key : ∀ path, (47 : UInt8) ∈ path → mux.find path ≠ some d := by
    intro path hpath h
    obtain ⟨q, hq, hf, -⟩ := (find_best hold path d).mp h
    obtain rfl := registered_unique hq hd
    rcases hf with rfl | ⟨h, -⟩
    · exact hp hpath
    · exact hp (List.mem_of_getLast? h)
  intro h
  unfold Mux.answer at h
  rw [if_neg hm] at h
  dsimp only at h
  split at h
  · cases h
  · split at h
    · cases h
    · rename_i hne
      have hsim : Simple r.path := (cleanPath_eq_iff _).mp (by simpa using hne)
      have hin : (47 : UInt8) ∈ r.path := List.mem_of_mem_head? hsim.1
      have : mux.handler r.hostName r.path = some d := by
        cases hx : mux.handler r.hostName r.path <;> rw [hx] at h <;> cases h
        rfl
      unfold Mux.handler at this
      split at this
      · rename_i e he
        cases this
        split at he
        · exact key _ (by simp [hin]) he
        · cases he
      · exact key _ hin this

example : ∃ mux, start { cfgD with healthPath := asc "health".toList } = .ok mux := (C110_start _).2.mpr (by decide +kernel)

/-! ### Other origins -/

theorem originAllowed_iff (c : Cfg) (o : Bytes) : (newCors c).originAllowed o = true ↔ ∃ e ∈ Cache.splitOn 44 c.corsOrigin, Names e o := by
  obtain ⟨h1, h2⟩ := addOrigins_spec (Cache.splitOn 44 c.corsOrigin) ⟨[], [], false, c.corsCreds⟩ rfl
  unfold Cors.originAllowed newCors
  by_cases hs : [42] ∈ Cache.splitOn 44 c.corsOrigin
  · rw [if_pos (h1.mpr hs)]
    exact ⟨fun _ => ⟨_, hs, .inl rfl⟩, fun _ => rfl⟩
  · obtain ⟨g1, g2⟩ := h2 hs
    rw [if_neg (fun h => hs (h1.mp h)), Bool.or_eq_true, List.any_eq_true, List.any_eq_true]
    simp only [beq_iff_eq, g1, g2, List.not_mem_nil, false_or]
    constructor
    · rintro (⟨x, ⟨e, he, hn, rfl⟩, hx⟩ | ⟨w, ⟨e, he, hw⟩, hx⟩)
      · exact ⟨e, he, .inr (.inl ⟨hn, hx⟩)⟩
      · obtain ⟨mid, hmid⟩ := (wildMatch_iff _ _).mp hx
        obtain ⟨hw1, hw2⟩ := (cutStar_some _ _).mp hw
        have h42 : 42 ∈ e := by rw [← lower_star, hw1]; simp
        obtain ⟨⟨a, b⟩, hab⟩ : ∃ w, cutStar e = some w := by
          cases hc : cutStar e with
          | none => exact absurd h42 ((cutStar_none e).mp hc)
          | some w => exact ⟨w, rfl⟩
        obtain ⟨ha, hb⟩ := (cutStar_some _ _).mp hab
        have hlow : lower e = lower a ++ 42 :: lower b := by rw [ha, lower_append]; rfl
        have : cutStar (lower e) = some (lower a, lower b) := (cutStar_some _ _).mpr ⟨hlow, fun h => hb ((lower_star a).mp h)⟩
        rw [hw] at this
        cases this
        exact ⟨e, he, .inr (.inr ⟨a, mid, b, ha, hb, hmid⟩)⟩
    · rintro ⟨e, he, rfl | ⟨hn, hx⟩ | ⟨a, mid, b, rfl, ha, hmid⟩⟩
      · exact absurd he hs
      · exact .inl ⟨lower e, ⟨e, he, hn, rfl⟩, hx⟩
      · refine .inr ⟨(lower a, lower b), ⟨_, he, (cutStar_some _ _).mpr ⟨?_, fun h => ha ((lower_star a).mp h)⟩⟩, (wildMatch_iff _ _).mpr ⟨mid, hmid⟩⟩
        rw [lower_append]; rfl

theorem methodAllowed_iff (m : Bytes) : methodAllowed m = true ↔ Method m := by
  unfold methodAllowed Method allowedMethods
  split
  · rename_i h; simp [h]
  · rename_i h
    simp only [List.any_cons, List.any_nil, Bool.or_false, Bool.or_eq_true, beq_iff_eq]
    constructor
    · rintro (h | h | h)
      · exact .inl h.symm
      · exact .inr (.inl h.symm)
      · exact .inr (.inr h.symm)
    · rintro (h | h | h)
      · exact .inl h.symm
      · exact .inr (.inl h.symm)
      · exact .inr (.inr h.symm)

/-- C110: a page of another origin may read what it asked for if and only if the origin is named by the list and the method is one of the three; with credentials only
    if that is enabled and the list has no star alone. -/
theorem C110_origin (c : Cfg) (mux : Mux) (r : Req) (ho : r.origin ≠ []) (ho' : r.origin ≠ [42]) (hp : ¬ (r.method = asc "OPTIONS".toList ∧ r.askMethod ≠ [])) :
    (Readable false r.origin (respond mux (newCors c) r).headers ↔ Method r.method ∧ ∃ e ∈ Cache.splitOn 44 c.corsOrigin, Names e r.origin) ∧
    (Readable true r.origin (respond mux (newCors c) r).headers ↔
      c.corsCreds = true ∧ [42] ∉ Cache.splitOn 44 c.corsOrigin ∧ Method r.method ∧ ∃ e ∈ Cache.splitOn 44 c.corsOrigin, Names e r.origin) ∧
    (respond mux (newCors c) r).answer = some (mux.answer r) := by
  have hall : (newCors c).all = true ↔ [42] ∈ Cache.splitOn 44 c.corsOrigin := (addOrigins_spec _ _ rfl).1
  have hcr : (newCors c).creds = c.corsCreds := addOrigins_creds _ _
  unfold respond
  rw [if_neg hp]
  unfold Cors.actual Readable
  rw [if_neg ho, ← originAllowed_iff c, ← methodAllowed_iff]
  cases h1 : (newCors c).originAllowed r.origin with
  | false => simp [Headers.none]
  | true =>
    cases h2 : methodAllowed r.method with
    | false => simp [Headers.none]
    | true =>
      cases h3 : (newCors c).all with
      | true => simp [hall.mp h3, hcr, Ne.symm ho']
      | false =>
        have : [42] ∉ Cache.splitOn 44 c.corsOrigin := fun h => by rw [hall.mpr h] at h3; cases h3
        simp [this, hcr]

/-- C110: a preflight never gets a document; it allows the method and the headers it asks for if and only if the origin is named, the method is one of the three, and
    the headers are among the four that are allowed. -/
theorem C110_preflight (c : Cfg) (mux : Mux) (r : Req) (ho : r.origin ≠ []) (hp : r.method = asc "OPTIONS".toList ∧ r.askMethod ≠ []) :
    (respond mux (newCors c) r).answer = none ∧
    ((Readable false r.origin (respond mux (newCors c) r).headers ∧ (respond mux (newCors c) r).headers.allowMethods = some (upper r.askMethod) ∧
        (respond mux (newCors c) r).headers.allowHeaders = r.askHeaders) ↔
      (∃ e ∈ Cache.splitOn 44 c.corsOrigin, Names e r.origin) ∧ Method r.askMethod ∧
        ∀ h ∈ r.askHeaders, h ∈ [asc "Origin".toList, asc "Accept".toList, asc "Content-Type".toList, asc "X-Requested-With".toList]) := by
  have hh : headersAllowed r.askHeaders = true ↔ ∀ h ∈ r.askHeaders, h ∈ [asc "Origin".toList, asc "Accept".toList, asc "Content-Type".toList, asc "X-Requested-With".toList] := by
    unfold headersAllowed
    rw [List.all_eq_true]
    refine forall_congr' fun h => forall_congr' fun _ => ?_
    rw [List.any_eq_true]
    simp only [beq_iff_eq, exists_eq_right]
    exact Iff.rfl
  unfold respond
  rw [if_pos hp]
  refine ⟨rfl, ?_⟩
  unfold Cors.preflight Readable
  rw [if_neg ho, ← originAllowed_iff c, ← methodAllowed_iff, ← hh]
  cases h1 : (newCors c).originAllowed r.origin with
  | false => simp [Headers.none]
  | true =>
    cases h2 : methodAllowed r.askMethod with
    | false => simp [Headers.none]
    | true =>
      cases h3 : headersAllowed r.askHeaders with
      | false => simp [Headers.none]
      | true => cases h4 : (newCors c).all <;> simp

/-- A list with a star in a name, and the default. -/
example : Names (asc "https://*.example.org".toList) (asc "https://A.example.org".toList) ∧
    (respond ⟨[], [], false⟩ (newCors { cfgD with corsOrigin := asc "https://x.test,https://*.example.org".toList, corsCreds := true })
      ⟨asc "GET".toList, [], [], asc "/".toList, asc "https://A.example.org".toList, [], []⟩).headers = ⟨some (asc "https://A.example.org".toList), true, none, []⟩ ∧
    (respond ⟨[], [], false⟩ (newCors cfgD) ⟨asc "OPTIONS".toList, [], [], asc "/".toList, asc "https://a".toList, asc "GET".toList, [asc "Accept".toList]⟩).headers =
      ⟨some [42], false, some (asc "GET".toList), [asc "Accept".toList]⟩ :=
  ⟨.inr (.inr ⟨asc "https://".toList, asc "a".toList, asc ".example.org".toList, by decide +kernel, by decide +kernel, by decide +kernel⟩), by decide +kernel, by decide +kernel⟩

/-- **C110 is violated: spaces in the list of origins.** A space after the comma becomes part of the origin, which is then never allowed. -/
theorem C110_violated_spaces : ∃ (c : Cfg) (o : Bytes), c.corsOrigin = asc "https://a.test, https://b.test".toList ∧ o = asc "https://b.test".toList ∧
    (newCors c).originAllowed o = false ∧ (newCors c).originAllowed (asc "https://a.test".toList) = true :=
  ⟨{ cfgD with corsOrigin := asc "https://a.test, https://b.test".toList }, _, rfl, rfl, by decide +kernel, by decide +kernel⟩

end Verif.Props
