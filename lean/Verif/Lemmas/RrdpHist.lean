import Verif.Lemmas.Mirror
import Verif.Spec.RrdpHist
/-
  Lemmas for C90: the cache over a history of runs.
-/
set_option autoImplicit false

namespace Verif.Cache
open Path Rrdp SyncSpec

section Calls
variable {σ : Type}

/-- Where the calls of one delta come from. -/
theorem doDelta_from {W : World} {cb : Callback σ} {s : Sys} {n : Notification} {e : El} {r r' : R σ} {b : Bool}
    (h : doDelta W cb s n e r = .ok (r', b)) : ∀ x ∈ r'.calls, x ∈ r.calls ∨
      ∃ k d pub wd, W.getXML k e.uri = some d ∧ W.parseNode d = some (pub, wd) ∧
        ∃ i, (i ∈ pub ∨ i ∈ wd) ∧ (∃ y, decodeBase64 i.value = some y) ∧ x.1.path = i.uri := by
  unfold doDelta at h
  have hbind : (download W r e.uri).2 = W.getXML r.gets.length e.uri := rfl
  simp only [hbind] at h
  split at h
  · simp at h
    obtain ⟨rfl, rfl⟩ := h
    intro x hx
    exact .inl hx
  · rename_i pub wd hn
    obtain ⟨d, hd1, hd2⟩ := Option.bind_eq_some_iff.mp hn
    obtain ⟨y, hy, h⟩ := Go.bind_eq_ok.mp h
    obtain ⟨done1, g1, ⟨p1, q1, q1'⟩, -, -⟩ := applyItems_spec cb _ true pub _ y.1 y.2 hy
    have c1 : ∀ x ∈ y.1.calls, x ∈ r.calls ∨ ∃ i, (i ∈ pub ∨ i ∈ wd) ∧ (∃ y, decodeBase64 i.value = some y) ∧ x.1.path = i.uri := by
      intro x hx
      rw [g1.calls] at hx
      rcases List.mem_append.mp hx with hx | hx
      · exact .inl hx
      · obtain ⟨i, i1, v, i2, i3⟩ := (callsOf_mem q1').2 x.1 (List.mem_map.mpr ⟨x, hx, rfl⟩)
        exact .inr ⟨i, .inl (q1.subset i1), ⟨v, i2⟩, by rw [i3]⟩
    split at h
    · obtain ⟨done2, k1, ⟨p2, q2, q2'⟩, -, -⟩ := applyItems_spec cb _ false wd y.1 r' b h
      intro x hx
      rw [k1.calls] at hx
      rcases List.mem_append.mp hx with hx | hx
      · rcases c1 x hx with h | h
        · exact .inl h
        · exact .inr ⟨_, d, pub, wd, hd1, hd2, h⟩
      · obtain ⟨i, i1, v, i2, i3⟩ := (callsOf_mem q2').2 x.1 (List.mem_map.mpr ⟨x, hx, rfl⟩)
        exact .inr ⟨_, d, pub, wd, hd1, hd2, i, .inr (q2.subset i1), ⟨v, i2⟩, by rw [i3]⟩
    · simp at h
      intro x hx
      have : r' = y.1 := by rw [h]
      rw [this] at hx
      rcases c1 x hx with h | h
      · exact .inl h
      · exact .inr ⟨_, d, pub, wd, hd1, hd2, h⟩

/-- Where the calls of a run of deltas come from. -/
theorem doDeltas_from {W : World} {cb : Callback σ} {s : Sys} {n : Notification} : ∀ (k : Nat) (a : Int) (r r' : R σ) (b : Bool),
    doDeltas W cb s n k a r = .ok (r', b) → ∀ x ∈ r'.calls, x ∈ r.calls ∨
      ∃ e ∈ n.deltas, a ≤ e.serial ∧ e.serial < a + k ∧
      ∃ g d pub wd, W.getXML g e.uri = some d ∧ W.parseNode d = some (pub, wd) ∧
        ∃ i, (i ∈ pub ∨ i ∈ wd) ∧ (∃ y, decodeBase64 i.value = some y) ∧ x.1.path = i.uri
  | 0, a, r, r', b, h => by
    simp [doDeltas] at h
    obtain ⟨rfl, rfl⟩ := h
    intro x hx
    exact .inl hx
  | k + 1, a, r, r', b, h => by
    unfold doDeltas at h
    split at h
    · simp at h
      obtain ⟨rfl, rfl⟩ := h
      intro x hx
      exact .inl hx
    · rename_i e he
      obtain ⟨he1, he2⟩ := (delta_some.mp he).mem
      obtain ⟨y, hy, h⟩ := Go.bind_eq_ok.mp h
      have c1 := doDelta_from (r' := y.1) (b := y.2) hy
      have c2 : ∀ x ∈ y.1.calls, x ∈ r.calls ∨
          ∃ e ∈ n.deltas, a ≤ e.serial ∧ e.serial < a + ((k + 1 : Nat) : Int) ∧
          ∃ g d pub wd, W.getXML g e.uri = some d ∧ W.parseNode d = some (pub, wd) ∧
            ∃ i, (i ∈ pub ∨ i ∈ wd) ∧ (∃ y, decodeBase64 i.value = some y) ∧ x.1.path = i.uri := by
        intro x hx
        rcases c1 x hx with h | h
        · exact .inl h
        · exact .inr ⟨e, he1, by omega, by omega, h⟩
      split at h
      · intro x hx
        rcases doDeltas_from k (a + 1) y.1 r' b h x hx with h | ⟨e', h1, h2, h3, h4⟩
        · exact c2 x h
        · exact .inr ⟨e', h1, by omega, by omega, h4⟩
      · simp at h
        have : r' = y.1 := by rw [h]
        rw [this]
        exact c2

/-- The calls of a run that does not take the snapshot name URIs of deltas after the client's serial. -/
theorem run_from {W : World} {cb : Callback σ} {s s' : Sys} {st : σ} {r : R σ} {b : Bool} {n : Notification}
    (h : Rrdp.fetchRRDP W cb s ⟨st, [], []⟩ = .ok (s', r, b)) (hn : (W.getXML 0 s.path).bind W.parseRoot = some n)
    (hs : ¬ SnapshotNeeded s n) : ∀ x ∈ r.calls, ∃ e ∈ n.deltas, s.serial < e.serial ∧ e.serial ≤ n.serial ∧
      ∃ g d pub wd, W.getXML g e.uri = some d ∧ W.parseNode d = some (pub, wd) ∧
        ∃ i, (i ∈ pub ∨ i ∈ wd) ∧ (∃ y, decodeBase64 i.value = some y) ∧ x.1.path = i.uri := by
  have hs' : needSnapshot s n = false := by
    cases hc : needSnapshot s n with
    | false => rfl
    | true => exact (hs ((needSnapshot_iff s n).mp hc)).elim
  unfold Rrdp.fetchRRDP at h
  have hbind : (download W ⟨st, [], []⟩ s.path).2 = W.getXML 0 s.path := rfl
  simp only [hbind, hn, hs', Bool.false_eq_true, if_false] at h
  obtain ⟨y, hy, h⟩ := Go.bind_eq_ok.mp h
  have hr : r = y.1 := by
    split at h <;> simp at h <;> exact h.2.1.symm
  intro x hx
  rw [hr] at hx
  rcases doDeltas_from _ _ _ y.1 y.2 hy x hx with h | ⟨e, h1, h2, h3, h4⟩
  · simp [download] at h
  · exact ⟨e, h1, by omega, by omega, h4⟩

end Calls

/-- `mirror_node` for one URI. -/
theorem mirror_node_at {os : OS} {base domain : Bytes} {fs fs' : FS} {s : Sys} {n : Notification} {snap : Bool} {serial : Int}
    {pub wd : List Item} {done : List (Call × Bool)} {c' : Bytes → Option Bytes} {U : Bytes → Prop}
    (hx : Exec (callback os base domain) fs done fs') (hn : nodeCalls s n snap serial (pub, wd) = some (done.map (·.1)))
    (hok : ∀ x ∈ done, x.2 = false → x.1.withdraw = true)
    (hinj : ∀ u v, U u → U v → target base u = target base v → u = v)
    (hU : ∀ u, c' u ≠ none → U u ∧ domain <:+: u)
    (hwU : ∀ i ∈ wd, U i.uri) (hnd : (pub.map (·.uri)).Nodup) (hdis : ∀ i ∈ pub, ∀ j ∈ wd, i.uri ≠ j.uri)
    (hpub : ∀ i ∈ pub, c' i.uri = decodeBase64 i.value) (u d : Bytes) (hu : c' u = some d)
    (hold : (∀ i ∈ pub, i.uri ≠ u) → (∀ i ∈ wd, i.uri ≠ u) ∧ fs.file (target base u) = some d) :
    fs'.file (target base u) = some d := by
  unfold nodeCalls at hn
  split at hn
  rotate_left
  · simp at hn
  rename_i a b ha hb
  simp only [Option.some.injEq] at hn
  have hpU : ∀ i ∈ pub, ∀ d, decodeBase64 i.value = some d → U i.uri := by
    intro i hi d hd
    exact (hU i.uri (by rw [hpub i hi, hd]; simp)).1
  by_cases hp : ∃ i ∈ pub, i.uri = u
  · obtain ⟨i, hi, rfl⟩ := hp
    obtain ⟨p1, p2, rfl⟩ := List.append_of_mem hi
    obtain ⟨ca, d', cb, g1, g2, g3, g4⟩ := callsOf_split ha
    have hdd : d' = d := by
      have := hpub i hi
      rw [hu, g2] at this
      simpa using this.symm
    subst hdd
    rw [g4] at hn
    rw [List.append_assoc] at hn
    obtain ⟨d1, d2, rfl, hd1, hd2⟩ := List.map_eq_append_iff.mp hn.symm
    obtain ⟨x, d3, rfl, hx1, hx2⟩ := List.map_eq_cons_iff.mp hd2
    have hxo : x.2 = true := by
      cases ho : x.2 with
      | true => rfl
      | false => have := hok x (by simp) ho; rw [hx1] at this; simp at this
    obtain ⟨xc, xo⟩ := x
    simp only at hx1 hxo
    subst hx1 hxo
    apply exec_last hx (hU i.uri (by rw [hu]; simp)).2
    intro y hy hyd heq
    have hx3 : d3.map (·.1) = cb ++ b := hx2
    have hy1 : y.1 ∈ cb ++ b := by rw [← hx3]; exact List.mem_map_of_mem hy
    rcases List.mem_append.mp hy1 with hy1 | hy1
    · obtain ⟨j, hj, dj, hdj, hyj⟩ := (callsOf_mem g3).2 _ hy1
      rw [hyj] at heq
      have := hinj _ _ (hpU j (by simp [hj]) dj hdj) (hU i.uri (by rw [hu]; simp)).1 heq
      simp only [List.map_append, List.map_cons, List.nodup_append, List.nodup_cons] at hnd
      exact hnd.2.1.1 (by rw [← this]; exact List.mem_map_of_mem hj)
    · obtain ⟨j, hj, dj, hdj, hyj⟩ := (callsOf_mem hb).2 _ hy1
      rw [hyj] at heq
      have := hinj _ _ (hwU j hj) (hU i.uri (by rw [hu]; simp)).1 heq
      exact hdis i hi j hj this.symm
  · have hp' : ∀ i ∈ pub, i.uri ≠ u := fun i hi e => hp ⟨i, hi, e⟩
    obtain ⟨hw, hf⟩ := hold hp'
    rw [exec_other hx, hf]
    intro y hy hyd heq
    have hy1 : y.1 ∈ a ++ b := by rw [hn]; exact List.mem_map_of_mem hy
    rcases List.mem_append.mp hy1 with hy1 | hy1
    · obtain ⟨j, hj, dj, hdj, hyj⟩ := (callsOf_mem ha).2 _ hy1
      rw [hyj] at heq
      exact hp' j hj (hinj _ _ (hpU j hj dj hdj) (hU u (by rw [hu]; simp)).1 heq)
    · obtain ⟨j, hj, dj, hdj, hyj⟩ := (callsOf_mem hb).2 _ hy1
      rw [hyj] at heq
      exact hw j hj (hinj _ _ (hwU j hj) (hU u (by rw [hu]; simp)).1 heq)

/-- The cache holds the content of serial `k`, except for URIs that a later delta up to `K` names. -/
def Nearly (srv : Server) (base : Bytes) (S : Bytes) (k K : Int) (fs : FS) : Prop :=
  ∀ u d, srv.content S k u = some d → (∀ i, k < i → i ≤ K → ¬ srv.named S i u) → fs.file (target base u) = some d

/-- A complete run of deltas repairs what an unfinished one left. -/
theorem nearly_deltas {srv : Server} {W : World} {os : OS} {base domain : Bytes} {s : Sys} {n : Notification} {K : Int}
    (hh : Honest srv W n) (hp : Placed srv base domain) :
    ∀ (es : List El) (k : Int) (g : Nat) (fs fs' : FS) (done : List (Call × Bool)), InOrder n (k + 1) es →
      k + (es.length : Int) ≤ K →
      DeltaCalls W s n g es (done.map (·.1)) → Exec (callback os base domain) fs done fs' →
      (∀ x ∈ done, x.2 = false → x.1.withdraw = true) → Nearly srv base n.sessionID k K fs →
      Nearly srv base n.sessionID (k + es.length) K fs'
  | [], k, g, fs, fs', done, _, _, h2, h3, _, h5 => by
    have : done = [] := by simpa [DeltaCalls] using h2
    subst this
    cases h3
    simpa using h5
  | e :: es, k, g, fs, fs', done, h1, hK, h2, h3, h4, h5 => by
    obtain ⟨d, node, a, rest, q1, q2, q3, q4, q5⟩ := h2
    obtain ⟨d1, d2, rfl, hd1, hd2⟩ := List.map_eq_append_iff.mp q4
    obtain ⟨s1, x1, x2⟩ := exec_split h3
    obtain ⟨a', b', hm, hser, _⟩ := h1.1
    obtain ⟨pub, wd, r1, r2, r3⟩ := hh.delta e (by rw [hm]; simp) g d q1
    rw [q2] at r1
    simp at r1
    subst r1
    rw [← hd1] at q3
    rw [← hd2] at q5
    rw [hser] at r2 r3
    have hkk : k + 1 - 1 = k := by omega
    rw [hkk] at r2
    have hlen : ((e :: es).length : Int) = es.length + 1 := by simp
    rw [hlen] at hK
    have m1 : Nearly srv base n.sessionID (k + 1) K s1 := by
      intro u v hu hun
      refine mirror_node_at (U := fun u => ∃ S k, srv.content S k u ≠ none) x1 q3 (fun x hx => h4 x (by simp [hx])) hp.apart
        (fun u hu => ⟨⟨_, _, hu⟩, hp.domain _ _ u hu⟩) (fun i hi => ⟨_, k, (r2.withdrawn i hi).1⟩) r2.once r2.disjoint
        r2.published u v hu ?_
      intro hnp
      have hw : ∀ i ∈ wd, i.uri ≠ u := by
        intro i hi e
        have := (r2.withdrawn i hi).2
        rw [e, hu] at this
        simp at this
      refine ⟨hw, h5 u v ?_ ?_⟩
      · rw [← r2.unchanged u hnp hw]; exact hu
      · intro i hi1 hi2 hnm
        by_cases hik : i = k + 1
        · subst hik
          rcases (r3 u).mp hnm with ⟨j, hj, e⟩ | ⟨j, hj, e⟩
          · exact hnp j hj e
          · exact hw j hj e
        · exact hun i (by omega) hi2 hnm
    have := nearly_deltas hh hp es (k + 1) (g + 1) s1 fs' d2 h1.2 (by omega) q5 x2 (fun x hx => h4 x (by simp [hx])) m1
    have e2 : k + 1 + (es.length : Int) = k + ((e :: es).length : Int) := by rw [hlen]; omega
    rw [e2] at this
    exact this

/-- A file of the server that no call of the run names is not changed by it. -/
theorem nearly_keep {srv : Server} {W : World} {base domain : Bytes} {n : Notification} {k : Int} {fs fs' : FS}
    {calls : List (Call × Bool)} (hh : Honest srv W n) (hp : Placed srv base domain)
    (hc : ∀ x ∈ calls, ∃ e ∈ n.deltas, k < e.serial ∧ e.serial ≤ n.serial ∧
      ∃ g d pub wd, W.getXML g e.uri = some d ∧ W.parseNode d = some (pub, wd) ∧
        ∃ i, (i ∈ pub ∨ i ∈ wd) ∧ (∃ y, decodeBase64 i.value = some y) ∧ x.1.path = i.uri)
    (hch : ∀ p, fs'.file p ≠ fs.file p → ∃ c ∈ calls, target base c.1.path = p)
    (h : Nearly srv base n.sessionID k n.serial fs) : Nearly srv base n.sessionID k n.serial fs' := by
  intro u d hu hun
  by_cases he : fs'.file (target base u) = fs.file (target base u)
  · rw [he]; exact h u d hu hun
  · exfalso
    obtain ⟨c, hc1, hc2⟩ := hch _ he
    obtain ⟨e, e1, e2, e3, g, d', pub, wd, e4, e5, i, e6, ⟨y, e7⟩, e8⟩ := hc c hc1
    obtain ⟨pub', wd', r1, r2, r3⟩ := hh.delta e e1 g d' e4
    rw [e5] at r1
    simp at r1
    obtain ⟨rfl, rfl⟩ := r1
    have hU : ∃ S k, srv.content S k i.uri ≠ none := by
      rcases e6 with hi | hi
      · exact ⟨n.sessionID, e.serial, by rw [r2.published i hi, e7]; simp⟩
      · exact ⟨n.sessionID, e.serial - 1, (r2.withdrawn i hi).1⟩
    have : i.uri = u := hp.apart i.uri u hU ⟨_, _, by rw [hu]; simp⟩ (by rw [← e8]; exact hc2)
    apply hun e.serial e2 e3
    rw [r3]
    rcases e6 with hi | hi
    · exact .inl ⟨i, hi, this⟩
    · exact .inr ⟨i, hi, this⟩

end Verif.Cache
