import Verif.Lemmas.CachePath
/-
  Lemmas for the mirror: C35, C36.
-/
set_option autoImplicit false

namespace Verif.Cache
open Path Rrdp SyncSpec

theorem callsOf_mem {mk : Bytes → Bytes → Call} : ∀ {l : List Item} {cs : List Call}, callsOf mk l = some cs →
    cs.length = l.length ∧ ∀ c ∈ cs, ∃ i ∈ l, ∃ d, decodeBase64 i.value = some d ∧ c = mk i.uri d
  | [], cs, h => by simp [callsOf] at h; subst h; simp
  | i :: l, cs, h => by
    simp only [callsOf] at h
    split at h
    · rename_i d t h1 h2
      simp at h
      subst h
      obtain ⟨g1, g2⟩ := callsOf_mem h2
      refine ⟨by simp [g1], ?_⟩
      intro c hc
      simp at hc
      rcases hc with rfl | hc
      · exact ⟨i, by simp, d, h1, rfl⟩
      · obtain ⟨j, hj, d', q⟩ := g2 c hc; exact ⟨j, by simp [hj], d', q⟩
    · simp at h

/-- The call for one element, and the calls before and after. -/
theorem callsOf_split {mk : Bytes → Bytes → Call} : ∀ {a b : List Item} {i : Item} {cs : List Call},
    callsOf mk (a ++ i :: b) = some cs → ∃ ca d cb, callsOf mk a = some ca ∧ decodeBase64 i.value = some d ∧
      callsOf mk b = some cb ∧ cs = ca ++ mk i.uri d :: cb
  | [], b, i, cs, h => by
    simp only [List.nil_append, callsOf] at h
    split at h
    · rename_i d t h1 h2
      simp at h
      exact ⟨[], d, t, rfl, h1, h2, by simp [h]⟩
    · simp at h
  | j :: a, b, i, cs, h => by
    simp only [List.cons_append, callsOf] at h
    split at h
    · rename_i d t h1 h2
      simp at h
      obtain ⟨ca, d', cb, g1, g2, g3, g4⟩ := callsOf_split h2
      exact ⟨mk j.uri d :: ca, d', cb, by simp [callsOf, h1, g1], g2, g3, by simp [← h, g4]⟩
    · simp at h

/-- Calls of one snapshot or delta bring the mirror from `c` to `c'`. -/
theorem mirror_node {os : OS} {base domain : Bytes} {fs fs' : FS} {s : Sys} {n : Notification} {snap : Bool} {serial : Int}
    {pub wd : List Item} {done : List (Call × Bool)} {c c' : Bytes → Option Bytes} {U : Bytes → Prop}
    (hx : Exec (callback os base domain) fs done fs') (hn : nodeCalls s n snap serial (pub, wd) = some (done.map (·.1)))
    (hok : ∀ x ∈ done, x.2 = false → x.1.withdraw = true)
    (hinj : ∀ u v, U u → U v → target base u = target base v → u = v)
    (hU : ∀ u, c' u ≠ none → U u ∧ domain <:+: u)
    (hwU : ∀ i ∈ wd, U i.uri) (hnd : (pub.map (·.uri)).Nodup) (hdis : ∀ i ∈ pub, ∀ j ∈ wd, i.uri ≠ j.uri)
    (hpub : ∀ i ∈ pub, c' i.uri = decodeBase64 i.value)
    (hold : ∀ u d, c' u = some d → (∀ i ∈ pub, i.uri ≠ u) → (∀ i ∈ wd, i.uri ≠ u) ∧ fs.file (target base u) = some d) :
    Mirrors base fs' c' := by
  intro u d hu
  unfold nodeCalls at hn
  split at hn
  rotate_left
  · simp at hn
  rename_i a b ha hb
  simp only [Option.some.injEq] at hn
  have hpU : ∀ i ∈ pub, ∀ d, decodeBase64 i.value = some d → U i.uri := by
    intro i hi d hd
    exact (hU i.uri (by rw [hpub i hi, hd]; simp)).1
  by_cases hp : ∃ i ∈ pub, i.uri = u
  · obtain ⟨i, hi, rfl⟩ := hp
    obtain ⟨p1, p2, rfl⟩ := List.append_of_mem hi
    obtain ⟨ca, d', cb, g1, g2, g3, g4⟩ := callsOf_split ha
    have hdd : d' = d := by
      have := hpub i hi
      rw [hu, g2] at this
      simpa using this.symm
    subst hdd
    rw [g4] at hn
    -- split the executed calls in the same way
    rw [List.append_assoc] at hn
    obtain ⟨d1, d2, rfl, hd1, hd2⟩ := List.map_eq_append_iff.mp hn.symm
    obtain ⟨x, d3, rfl, hx1, hx2⟩ := List.map_eq_cons_iff.mp hd2
    have hxo : x.2 = true := by
      cases ho : x.2 with
      | true => rfl
      | false => have := hok x (by simp) ho; rw [hx1] at this; simp at this
    obtain ⟨xc, xo⟩ := x
    simp only at hx1 hxo
    subst hx1 hxo
    apply exec_last hx (hU i.uri (by rw [hu]; simp)).2
    intro y hy hyd heq
    have hx3 : d3.map (·.1) = cb ++ b := hx2
    have hy1 : y.1 ∈ cb ++ b := by rw [← hx3]; exact List.mem_map_of_mem hy
    rcases List.mem_append.mp hy1 with hy1 | hy1
    · obtain ⟨j, hj, dj, hdj, hyj⟩ := (callsOf_mem g3).2 _ hy1
      rw [hyj] at heq
      have := hinj _ _ (hpU j (by simp [hj]) dj hdj) (hU i.uri (by rw [hu]; simp)).1 heq
      simp only [List.map_append, List.map_cons, List.nodup_append, List.nodup_cons] at hnd
      exact hnd.2.1.1 (by rw [← this]; exact List.mem_map_of_mem hj)
    · obtain ⟨j, hj, dj, hdj, hyj⟩ := (callsOf_mem hb).2 _ hy1
      rw [hyj] at heq
      have := hinj _ _ (hwU j hj) (hU i.uri (by rw [hu]; simp)).1 heq
      exact hdis i hi j hj this.symm
  · have hp' : ∀ i ∈ pub, i.uri ≠ u := fun i hi e => hp ⟨i, hi, e⟩
    obtain ⟨hw, hf⟩ := hold u d hu hp'
    rw [exec_other hx, hf]
    intro y hy hyd heq
    have hy1 : y.1 ∈ a ++ b := by rw [hn]; exact List.mem_map_of_mem hy
    rcases List.mem_append.mp hy1 with hy1 | hy1
    · obtain ⟨j, hj, dj, hdj, hyj⟩ := (callsOf_mem ha).2 _ hy1
      rw [hyj] at heq
      exact hp' j hj (hinj _ _ (hpU j hj dj hdj) (hU u (by rw [hu]; simp)).1 heq)
    · obtain ⟨j, hj, dj, hdj, hyj⟩ := (callsOf_mem hb).2 _ hy1
      rw [hyj] at heq
      exact hw j hj (hinj _ _ (hwU j hj) (hU u (by rw [hu]; simp)).1 heq)

/-- A run of deltas keeps the mirror in step with the server. -/
theorem mirror_deltas {W : World} {os : OS} {base domain : Bytes} {s : Sys} {n : Notification}
    {content : Int → Bytes → Option Bytes} (hc : Consistent W content n)
    (hU : ∀ k u, content k u ≠ none → domain <:+: u)
    (hinj : ∀ u v, (∃ k, content k u ≠ none) → (∃ k, content k v ≠ none) → target base u = target base v → u = v) :
    ∀ (es : List El) (k : Int) (g : Nat) (fs fs' : FS) (done : List (Call × Bool)), InOrder n (k + 1) es →
      DeltaCalls W s n g es (done.map (·.1)) → Exec (callback os base domain) fs done fs' →
      (∀ x ∈ done, x.2 = false → x.1.withdraw = true) → Mirrors base fs (content k) →
      Mirrors base fs' (content (k + es.length))
  | [], k, g, fs, fs', done, _, h2, h3, _, h5 => by
    have : done = [] := by simpa [DeltaCalls] using h2
    subst this
    cases h3
    simpa using h5
  | e :: es, k, g, fs, fs', done, h1, h2, h3, h4, h5 => by
    obtain ⟨d, node, a, rest, q1, q2, q3, q4, q5⟩ := h2
    obtain ⟨d1, d2, rfl, hd1, hd2⟩ := List.map_eq_append_iff.mp q4
    obtain ⟨s1, x1, x2⟩ := exec_split h3
    obtain ⟨a', b', hm, hser, _⟩ := h1.1
    obtain ⟨pub, wd, r1, r2⟩ := hc.delta e (by rw [hm]; simp) g d q1
    rw [q2] at r1
    simp at r1
    subst r1
    rw [← hd1] at q3
    rw [← hd2] at q5
    rw [hser] at r2
    have hkk : k + 1 - 1 = k := by omega
    rw [hkk] at r2
    have m1 : Mirrors base s1 (content (k + 1)) := by
      refine mirror_node (c := content k) (U := fun u => ∃ k, content k u ≠ none) x1 q3 (fun x hx => h4 x (by simp [hx])) hinj
        (fun u hu => ⟨⟨_, hu⟩, hU _ u hu⟩) (fun i hi => ⟨k, (r2.withdrawn i hi).1⟩) r2.once r2.disjoint r2.published ?_
      intro u d hu hp
      have hw : ∀ i ∈ wd, i.uri ≠ u := by
        intro i hi e
        have := (r2.withdrawn i hi).2
        rw [e, hu] at this
        simp at this
      refine ⟨hw, h5 u d ?_⟩
      rw [← r2.unchanged u hp hw]
      exact hu
    have := mirror_deltas hc hU hinj es (k + 1) (g + 1) s1 fs' d2 h1.2 q5 x2 (fun x hx => h4 x (by simp [hx])) m1
    have e2 : k + 1 + (es.length : Int) = k + ((e :: es).length : Int) := by simp; omega
    rw [e2] at this
    exact this

/-- The calls of any run are the first ones of a successful run against the same server. -/
theorem calls_prefix {σ τ : Type} {W1 W0 : World} {srv : Bytes → Option Bytes} (ha1 : Answers W1 srv) (ha0 : Answers W0 srv)
    (hr : W1.parseRoot = W0.parseRoot) (hp : W1.parseNode = W0.parseNode) {cb1 : Callback σ} {cb0 : Callback τ} {s s1 s0 : Sys}
    {st1 : σ} {st0 : τ} {r1 : R σ} {r0 : R τ} {b : Bool}
    (h1 : Rrdp.fetchRRDP W1 cb1 s ⟨st1, [], []⟩ = .ok (s1, r1, b))
    (h0 : Rrdp.fetchRRDP W0 cb0 s ⟨st0, [], []⟩ = .ok (s0, r0, true)) :
    r1.calls.map (·.1) <+: r0.calls.map (·.1) ∧ (b = true → s1 = s0) := by
  have same : ∀ {k k' u x y}, W1.getXML k u = some x → W0.getXML k' u = some y → x = y := by
    intro k k' u x y hx hy
    rcases ha1 k u with h | h
    · rw [h] at hx; simp at hx
    · rcases ha0 k' u with h' | h'
      · rw [h'] at hy; simp at hy
      · rw [hx] at h; rw [hy, ← h] at h'; simpa using h'.symm
  obtain ⟨_, g⟩ := fetch_spec W1 cb1 s s1 _ r1 b h1
  obtain ⟨_, g0⟩ := fetch_spec W0 cb0 s s0 _ r0 true h0
  rcases g0 with ⟨⟨_, _, _, _, hb, _⟩, _⟩ | ⟨n0, hn0, g0⟩
  · simp at hb
  rcases g with ⟨⟨_, _, hcalls, _, hb, _⟩, _⟩ | ⟨n, hn, g⟩
  · rw [hcalls, hb]; simp
  have hnn : n = n0 := by
    simp only [Option.bind_eq_some_iff] at hn hn0
    obtain ⟨x, hx, hx'⟩ := hn
    obtain ⟨y, hy, hy'⟩ := hn0
    have := same hx hy
    subst this
    rw [hr, hy'] at hx'
    simpa using hx'.symm
  subst hnn
  rcases g with ⟨hs, done, d1, _, _, d3, d4⟩ | ⟨hs, es, done, d1, d2, d3, d4, _, _, d5, d6⟩
  · rcases g0 with ⟨_, done0, e1, _, _, _, e4⟩ | ⟨hs0, _⟩
    rotate_left
    · exact (hs0 hs).elim
    obtain ⟨es0, d0, node0, q1, q2, q3⟩ := e4 rfl
    constructor
    · rw [d1.calls, e1.calls]
      simp only [List.nil_append]
      rcases d3 with rfl | ⟨d, node, p1, p2, p3⟩
      · simp
      · have := same p1 q1
        subst this
        rw [hp, q2] at p2
        simp at p2
        subst p2
        exact p3 _ q3
    · intro hb; rw [(d4 hb).1, es0]
  · rcases g0 with ⟨hs0, _⟩ | ⟨_, es0, done0, e1, e2, _, e4, _, _, e5, _⟩
    · exact (hs hs0).elim
    obtain ⟨hs0', hdc⟩ := e5 rfl
    constructor
    · rw [d1.calls, e1.calls]
      simp only [List.nil_append]
      exact d6 W0 srv _ es0 _ ha1 ha0 hp.symm e2 (e4 rfl) hdc
    · intro hb; rw [(d5 hb).1, hs0']

theorem prefix_antisymm {α : Type} {a b : List α} (h1 : a <+: b) (h2 : b <+: a) : a = b :=
  h1.eq_of_length (Nat.le_antisymm h1.length_le h2.length_le)

/-- Two successful runs against the same server, from caches that differ only in files that the run writes. -/
theorem runs_same {W0 W2 : World} {srv : Bytes → Option Bytes} (ha0 : Answers W0 srv) (ha2 : Answers W2 srv)
    (hr : W2.parseRoot = W0.parseRoot) (hp : W2.parseNode = W0.parseNode) {os0 os2 : OS} {base domain : Bytes} {s s0 s2 : Sys}
    {fs0 fs2 : FS} {r0 r2 : R FS}
    (h0 : Rrdp.fetchRRDP W0 (callback os0 base domain) s ⟨fs0, [], []⟩ = .ok (s0, r0, true))
    (h2 : Rrdp.fetchRRDP W2 (callback os2 base domain) s ⟨fs2, [], []⟩ = .ok (s2, r2, true))
    (ok0 : ∀ x ∈ r0.calls, x.2 = true) (ok2 : ∀ x ∈ r2.calls, x.2 = true)
    (hd : ∀ p, fs2.file p ≠ fs0.file p → ∃ c ∈ r0.calls, domain <:+: c.1.path ∧ target base c.1.path = p) :
    s2 = s0 ∧ ∀ p, r2.st.file p = r0.st.file p := by
  obtain ⟨p1, p2⟩ := calls_prefix ha2 ha0 hr hp h2 h0
  obtain ⟨p3, _⟩ := calls_prefix ha0 ha2 hr.symm hp.symm h0 h2
  have hcalls := prefix_antisymm p1 p3
  have ex : ∀ {W : World} {os : OS} {s' : Sys} {fs : FS} {r : R FS} {b : Bool},
      Rrdp.fetchRRDP W (callback os base domain) s ⟨fs, [], []⟩ = .ok (s', r, b) → Exec (callback os base domain) fs r.calls r.st := by
    intro W os s' fs r b h
    obtain ⟨_, g⟩ := fetch_spec W _ s s' _ r b h
    rcases g with ⟨⟨_, _, hc, hst, _, _⟩, _⟩ | ⟨n, _, ⟨_, done, d1, _⟩ | ⟨_, es, done, d1, _⟩⟩
    · rw [hc, hst]; exact .nil _
    · have := d1.exec; rw [show r.calls = done by simpa using d1.calls]; exact this
    · have := d1.exec; rw [show r.calls = done by simpa using d1.calls]; exact this
  refine ⟨p2 rfl, ?_⟩
  apply exec_same (ex h0) (ex h2) hcalls.symm ok0 ok2
  intro p hp
  obtain ⟨c, h1, h2⟩ := hd p hp
  exact ⟨c.1, List.mem_map_of_mem h1, h2⟩

/-- A run is the execution of its calls. -/
theorem fetch_exec {σ : Type} {W : World} {cb : Callback σ} {s s' : Sys} {st : σ} {r : R σ} {b : Bool}
    (h : Rrdp.fetchRRDP W cb s ⟨st, [], []⟩ = .ok (s', r, b)) : Exec cb st r.calls r.st := by
  obtain ⟨_, g⟩ := fetch_spec W _ s s' _ r b h
  rcases g with ⟨⟨_, _, hc, hst, _, _⟩, _⟩ | ⟨n, _, ⟨_, done, d1, _⟩ | ⟨_, es, done, d1, _⟩⟩
  · rw [hc, hst]; exact .nil _
  · have := d1.exec; rw [show r.calls = done by simpa using d1.calls]; exact this
  · have := d1.exec; rw [show r.calls = done by simpa using d1.calls]; exact this

theorem exec_changed {os : OS} {base domain : Bytes} {fs fs' : FS} {l : List (Call × Bool)}
    (h : Exec (callback os base domain) fs l fs') (p : P) (hp : fs'.file p ≠ fs.file p) :
    ∃ c ∈ l, domain <:+: c.1.path ∧ target base c.1.path = p := by
  by_cases hx : ∃ c ∈ l, domain <:+: c.1.path ∧ target base c.1.path = p
  · exact hx
  · exact (hp (exec_other h p (fun c hc hd e => hx ⟨c, hc, hd, e⟩))).elim

end Verif.Cache
