import Verif.Lemmas.Path
/-
  Lemmas about FetchRRDP.
-/
set_option autoImplicit false

namespace Verif.Rrdp
open SyncSpec

variable {σ : Type}

theorem _root_.Verif.SyncSpec.Exec.append {cb : Callback σ} {s s1 s2 : σ} {a b : List (Call × Bool)} (h : Exec cb s a s1)
    (g : Exec cb s1 b s2) : Exec cb s (a ++ b) s2 := by
  induction h with
  | nil => exact g
  | cons s s1 s2 c ok l h _ ih => exact .cons _ _ _ _ _ _ h (ih g)

/-- What a part of a run did: `done` are its calls, `gets` its downloads. -/
structure Did (cb : Callback σ) (r r' : R σ) (gets : List Bytes) (done : List (Call × Bool)) : Prop where
  gets : r'.gets = r.gets ++ gets
  calls : r'.calls = r.calls ++ done
  exec : Exec cb r.st done r'.st

theorem Did.refl (cb : Callback σ) (r : R σ) : Did cb r r [] [] := ⟨by simp, by simp, .nil _⟩

theorem Did.trans {cb : Callback σ} {r r1 r2 : R σ} {g1 g2 : List Bytes} {d1 d2 : List (Call × Bool)}
    (h : Did cb r r1 g1 d1) (k : Did cb r1 r2 g2 d2) : Did cb r r2 (g1 ++ g2) (d1 ++ d2) :=
  ⟨by rw [k.gets, h.gets]; simp, by rw [k.calls, h.calls]; simp, h.exec.append k.exec⟩

theorem callsOf_append (mk : Bytes → Bytes → Call) : ∀ (a b : List Item) (x : List Call),
    callsOf mk (a ++ b) = some x → ∃ y, callsOf mk a = some y ∧ y <+: x
  | [], b, x, _ => ⟨[], rfl, by simp⟩
  | i :: a, b, x, h => by
    simp only [List.cons_append, callsOf] at h
    split at h
    · rename_i d l h1 h2
      simp at h
      obtain ⟨y, h3, h4⟩ := callsOf_append mk a b l h2
      exact ⟨mk i.uri d :: y, by simp [callsOf, h1, h3], by rw [← h]; simpa using h4⟩
    · simp at h

theorem applyItems_spec (cb : Callback σ) (mk : Bytes → Bytes → Call) (strict : Bool) :
    ∀ (l : List Item) (r r' : R σ) (b : Bool), applyItems cb mk strict l r = .ok (r', b) →
      ∃ done, Did cb r r' [] done ∧ (∃ p, p <+: l ∧ callsOf mk p = some (done.map (·.1))) ∧
        (b = true → callsOf mk l = some (done.map (·.1))) ∧ (strict = true → b = true → ∀ x ∈ done, x.2 = true)
  | [], r, r', b, h => by
    simp [applyItems] at h
    obtain ⟨rfl, rfl⟩ := h
    exact ⟨[], Did.refl _ _, ⟨[], by simp, rfl⟩, fun _ => rfl, by simp⟩
  | i :: rest, r, r', b, h => by
    unfold applyItems at h
    split at h
    · simp at h
      obtain ⟨rfl, rfl⟩ := h
      exact ⟨[], Did.refl _ _, ⟨[], by simp, rfl⟩, by simp, by simp⟩
    · rename_i d hd
      obtain ⟨x, hx, hr⟩ := Go.bind_eq_ok.mp h
      unfold callOne at hx
      split at hx
      · rename_i st ok hcb
        simp only [Go.ok.injEq] at hx
        have h1 : Did cb r x.1 [] [(mk i.uri d, ok)] := by
          rw [← hx]; exact ⟨by simp, rfl, .cons _ _ _ _ _ _ hcb (.nil _)⟩
        have hok : x.2 = ok := by rw [← hx]
        split at hr
        · rename_i hgo
          obtain ⟨done, h2, ⟨p, hp1, hp2⟩, h3, h4⟩ := applyItems_spec cb mk strict rest x.1 r' b hr
          refine ⟨(mk i.uri d, ok) :: done, h1.trans h2, ⟨i :: p, by simpa using hp1, ?_⟩, ?_, ?_⟩
          · simp [callsOf, hd, hp2]
          · intro hb; simp [callsOf, hd, h3 hb]
          · intro hs hb y hy
            simp at hy
            rcases hy with rfl | hy
            · rw [hs, hok] at hgo; simpa using hgo
            · exact h4 hs hb y hy
        · simp at hr
          obtain ⟨rfl, rfl⟩ := hr
          refine ⟨[(mk i.uri d, ok)], h1, ⟨[i], by simp, by simp [callsOf, hd]⟩, by simp, by simp⟩
      all_goals simp at hx

/-- What a node did. -/
theorem node_spec (W : World) (cb : Callback σ) (s : Sys) (n : Notification) (snap : Bool) (serial : Int) (strict : Bool)
    (uri : Bytes) (r r' : R σ) (b : Bool)
    (h : (match (download W r uri).2.bind W.parseNode with
      | none => (.ok ((download W r uri).1, false) : Go (R σ × Bool))
      | some (pub, wd) => do
        let y ← applyItems cb (fun u d => ⟨s.path, n.snapshot.uri, u, d, false, snap, serial⟩) true pub (download W r uri).1
        if y.2 then applyItems cb (fun u d => ⟨s.path, n.snapshot.uri, u, d, true, snap, serial⟩) strict wd y.1
        else return y) = .ok (r', b)) :
    ∃ done, Did cb r r' [uri] done ∧ (∀ x ∈ done, x.1.snapshot = snap ∧ x.1.serial = serial) ∧
      (done = [] ∨ ∃ d node, W.getXML r.gets.length uri = some d ∧ W.parseNode d = some node ∧
        ∀ all, nodeCalls s n snap serial node = some all → done.map (·.1) <+: all) ∧
      (∀ x ∈ done, x.2 = false → b = true → strict = false ∧ x.1.withdraw = true) ∧
      (b = true → ∃ d node, W.getXML r.gets.length uri = some d ∧ W.parseNode d = some node ∧
        nodeCalls s n snap serial node = some (done.map (·.1))) := by
  have hdl : Did cb r (download W r uri).1 [uri] [] := ⟨rfl, by simp [download], .nil _⟩
  have hbind : (download W r uri).2 = W.getXML r.gets.length uri := rfl
  rw [hbind] at h
  have hmem : ∀ (mk : Bytes → Bytes → Call) (p : List Item) (l : List Call), callsOf mk p = some l → ∀ c ∈ l,
      ∃ i ∈ p, ∃ d, decodeBase64 i.value = some d ∧ c = mk i.uri d := by
    intro mk p
    induction p with
    | nil => intro l h; simp [callsOf] at h; subst h; simp
    | cons i p ih =>
      intro l h c hc
      simp only [callsOf] at h
      split at h
      · rename_i d l' h1 h2
        simp at h
        subst h
        simp at hc
        rcases hc with rfl | hc
        · exact ⟨i, by simp, d, h1, rfl⟩
        · obtain ⟨j, j1, d', j2, j3⟩ := ih l' h2 c hc
          exact ⟨j, by simp [j1], d', j2, j3⟩
      · simp at h
  split at h
  · simp at h
    obtain ⟨rfl, rfl⟩ := h
    exact ⟨[], hdl, by simp, .inl rfl, by simp, by simp⟩
  · rename_i pub wd hn
    obtain ⟨d, hd1, hd2⟩ := Option.bind_eq_some_iff.mp hn
    obtain ⟨y, hy, h⟩ := Go.bind_eq_ok.mp h
    obtain ⟨done1, g1, ⟨p1, q1, q1'⟩, g2, g3⟩ := applyItems_spec cb _ true pub _ y.1 y.2 hy
    have a1 : ∀ x ∈ done1, ∃ i ∈ pub, ∃ d, decodeBase64 i.value = some d ∧
        x.1 = ⟨s.path, n.snapshot.uri, i.uri, d, false, snap, serial⟩ := by
      intro x hx
      obtain ⟨i, i1, d, i2, i3⟩ := hmem _ _ _ q1' x.1 (List.mem_map.mpr ⟨x, hx, rfl⟩)
      exact ⟨i, q1.subset i1, d, i2, i3⟩
    split at h
    · rename_i hy2
      obtain ⟨done2, k1, ⟨p2, q2, q2'⟩, k2, k3⟩ := applyItems_spec cb _ strict wd y.1 r' b h
      have a2 : ∀ x ∈ done2, ∃ i ∈ wd, ∃ d, decodeBase64 i.value = some d ∧
          x.1 = ⟨s.path, n.snapshot.uri, i.uri, d, true, snap, serial⟩ := by
        intro x hx
        obtain ⟨i, i1, d, i2, i3⟩ := hmem _ _ _ q2' x.1 (List.mem_map.mpr ⟨x, hx, rfl⟩)
        exact ⟨i, q2.subset i1, d, i2, i3⟩
      refine ⟨done1 ++ done2, by simpa using (hdl.trans g1).trans k1, ?_, ?_, ?_, ?_⟩
      · intro x hx
        rcases List.mem_append.mp hx with hx | hx
        · obtain ⟨i, _, d, _, e⟩ := a1 x hx; rw [e]; simp
        · obtain ⟨i, _, d, _, e⟩ := a2 x hx; rw [e]; simp
      · refine .inr ⟨d, (pub, wd), hd1, hd2, ?_⟩
        intro all hall
        unfold nodeCalls at hall
        rw [g2 hy2] at hall
        split at hall
        · rename_i a' b' e1 e2
          simp at e1 hall
          subst e1
          obtain ⟨t, ht⟩ := q2
          have := callsOf_append (fun u d => ⟨s.path, n.snapshot.uri, u, d, true, snap, serial⟩) p2 t b' (by rw [ht]; exact e2)
          obtain ⟨y', y1, y2⟩ := this
          rw [q2'] at y1
          simp at y1
          rw [← hall, List.map_append, List.prefix_append_right_inj, y1]
          exact y2
        · simp at hall
      · intro x hx hf hb
        rcases List.mem_append.mp hx with hx | hx
        · have := g3 rfl hy2 x hx; rw [hf] at this; simp at this
        · obtain ⟨i, i1, d, i2, e⟩ := a2 x hx
          refine ⟨?_, by rw [e]⟩
          cases strict with
          | false => rfl
          | true => have := k3 rfl hb x hx; rw [hf] at this; simp at this
      · intro hb
        exact ⟨d, (pub, wd), hd1, hd2, by simp [nodeCalls, g2 hy2, k2 hb]⟩
    · rename_i hy2
      simp at h
      have hb : b = false := by rw [h] at hy2; simpa using hy2
      have hr : y.1 = r' := by rw [h]
      subst hr
      refine ⟨done1, by simpa using hdl.trans g1, ?_, ?_, by simp [hb], by simp [hb]⟩
      · intro x hx
        obtain ⟨i, _, d, _, e⟩ := a1 x hx; rw [e]; simp
      · refine .inr ⟨d, (pub, wd), hd1, hd2, ?_⟩
        intro all hall
        unfold nodeCalls at hall
        split at hall
        · rename_i a' b' e1 e2
          simp at e1 hall
          obtain ⟨t, ht⟩ := q1
          have := callsOf_append (fun u d => ⟨s.path, n.snapshot.uri, u, d, false, snap, serial⟩) p1 t a' (by rw [ht]; exact e1)
          obtain ⟨y', y1, y2⟩ := this
          rw [q1'] at y1
          simp at y1
          rw [← hall, y1]
          exact y2.trans (List.prefix_append _ _)
        · simp at hall

theorem delta_some {n : Notification} {k : Int} {e : El} : n.delta k = some e ↔ Listed n k e := by
  unfold Notification.delta Listed
  rw [List.find?_eq_some_iff_append]
  constructor
  · rintro ⟨h1, as, bs, h2, h3⟩
    have := congrArg List.reverse h2
    simp at this h1
    exact ⟨bs.reverse, as.reverse, by simp [this], h1, by intro x hx; simpa using h3 x (by simpa using hx)⟩
  · rintro ⟨a, b, h1, h2, h3⟩
    exact ⟨by simp [h2], b.reverse, a.reverse, by simp [h1], by intro x hx; simpa using h3 x (by simpa using hx)⟩

theorem _root_.Verif.SyncSpec.Listed.mem {n : Notification} {k : Int} {e : El} (h : Listed n k e) :
    e ∈ n.deltas ∧ e.serial = k := by
  obtain ⟨a, b, h1, h2, _⟩ := h
  exact ⟨by rw [h1]; simp, h2⟩

theorem inOrder_unique {n : Notification} : ∀ (es es' : List El) (k : Int), InOrder n k es → InOrder n k es' →
    es.length = es'.length → es = es'
  | [], [], _, _, _, _ => rfl
  | [], _ :: _, _, _, _, h => by simp at h
  | _ :: _, [], _, _, _, h => by simp at h
  | e :: es, e' :: es', k, h1, h2, h => by
    have h3 := delta_some.mpr h1.1
    have h4 := delta_some.mpr h2.1
    rw [h3] at h4
    simp at h4 h
    rw [h4, inOrder_unique es es' (k + 1) h1.2 h2.2 h]

theorem delta_none {n : Notification} {k : Int} : n.delta k = none ↔ Missing n k := by
  unfold Notification.delta Missing
  rw [List.find?_eq_none]
  simp

theorem missingFrom_iff (n : Notification) : ∀ (k : Nat) (a : Int), missingFrom n k a = true ↔
    ∃ x, a ≤ x ∧ x < a + k ∧ Missing n x
  | 0, a => by simp [missingFrom]; intro x h1 h2; omega
  | k + 1, a => by
    unfold missingFrom
    split
    · rename_i h
      simp only [Option.isNone_iff_eq_none, delta_none] at h
      simp only [true_iff]
      exact ⟨a, by omega, by omega, h⟩
    · rename_i h
      simp only [Option.isNone_iff_eq_none, delta_none] at h
      rw [missingFrom_iff n k (a + 1)]
      constructor
      · rintro ⟨x, h1, h2, h3⟩; exact ⟨x, by omega, by omega, h3⟩
      · rintro ⟨x, h1, h2, h3⟩
        refine ⟨x, ?_, by omega, h3⟩
        rcases Int.lt_or_le a x with hl | hl
        · omega
        · have : x = a := by omega
          subst this; exact (h h3).elim

theorem needSnapshot_iff (s : Sys) (n : Notification) : needSnapshot s n = true ↔ SnapshotNeeded s n := by
  unfold needSnapshot SnapshotNeeded
  simp only [Bool.or_eq_true, decide_eq_true_eq, missingFrom_iff]
  rw [or_assoc]
  apply or_congr Iff.rfl
  apply or_congr Iff.rfl
  constructor
  · rintro ⟨x, h1, h2, h3⟩; exact ⟨x, h1, by omega, h3⟩
  · rintro ⟨x, h1, h2, h3⟩; exact ⟨x, h1, by omega, h3⟩

theorem doDeltas_spec (W : World) (cb : Callback σ) (s : Sys) (n : Notification) :
    ∀ (k : Nat) (a : Int) (r r' : R σ) (b : Bool), doDeltas W cb s n k a r = .ok (r', b) →
      ∃ es done, Did cb r r' (es.map (·.uri)) done ∧ InOrder n a es ∧ es.length ≤ k ∧ (b = true → es.length = k) ∧
        (∀ x ∈ done, x.1.snapshot = false ∧ ∃ e ∈ es, x.1.serial = e.serial) ∧
        (∀ x ∈ done, x.2 = false → b = true → x.1.withdraw = true) ∧
        (b = true → DeltaCalls W s n r.gets.length es (done.map (·.1))) ∧
        (∀ W' srv g' es' all, Answers W srv → Answers W' srv → W'.parseNode = W.parseNode → InOrder n a es' →
          es'.length = k → DeltaCalls W' s n g' es' all → done.map (·.1) <+: all)
  | 0, a, r, r', b, h => by
    simp [doDeltas] at h
    obtain ⟨rfl, rfl⟩ := h
    exact ⟨[], [], Did.refl _ _, trivial, by simp, by simp, by simp, by simp, fun _ => rfl, by simp⟩
  | k + 1, a, r, r', b, h => by
    unfold doDeltas at h
    split at h
    · simp at h
      obtain ⟨rfl, rfl⟩ := h
      exact ⟨[], [], Did.refl _ _, trivial, by simp, by simp, by simp, by simp, by simp, by simp⟩
    · rename_i e he
      have he1 := delta_some.mp he
      obtain ⟨x, hx, h⟩ := Go.bind_eq_ok.mp h
      obtain ⟨done1, g1, g2, g3, g4, g5⟩ := node_spec W cb s n false e.serial false e.uri r x.1 x.2 hx
      split at h
      · rename_i hx2
        obtain ⟨es, done, h1, h2, h3, h4, h5, h6, h7, h8⟩ := doDeltas_spec W cb s n k (a + 1) x.1 r' b h
        refine ⟨e :: es, done1 ++ done, by simpa using g1.trans h1, ⟨he1, h2⟩, by simpa using h3,
          fun hb => by simp [h4 hb], ?_, ?_, ?_, ?_⟩
        · intro y hy
          rcases List.mem_append.mp hy with hy | hy
          · exact ⟨(g2 y hy).1, e, by simp, (g2 y hy).2⟩
          · obtain ⟨q1, e', q2, q3⟩ := h5 y hy; exact ⟨q1, e', by simp [q2], q3⟩
        · intro y hy hf hb
          rcases List.mem_append.mp hy with hy | hy
          · exact (g4 y hy hf hx2).2
          · exact h6 y hy hf hb
        · intro hb
          obtain ⟨d, node, q1, q2, q3⟩ := g5 hx2
          refine ⟨d, node, _, done.map (·.1), q1, q2, q3, by simp, ?_⟩
          have := h7 hb
          rw [g1.gets] at this
          simpa using this
        · intro W' srv g' es' all hW hW' hpn hio hlen hdc
          cases es' with
          | nil => simp at hlen
          | cons e' es' =>
            have hee : e' = e := by have := delta_some.mpr hio.1; rw [he] at this; simpa using this.symm
            subst hee
            obtain ⟨d', node', a', rest, c1, c2, c3, c4, c5⟩ := hdc
            obtain ⟨d, node, q1, q2, q3⟩ := g5 hx2
            have hd : d = d' := by
              have h1 := hW r.gets.length e'.uri
              have h2 := hW' g' e'.uri
              rw [q1] at h1; rw [c1] at h2
              simp at h1 h2
              rw [← h1] at h2
              simpa using h2.symm
            subst hd
            rw [hpn, q2] at c2
            simp at c2; subst c2
            rw [q3] at c3
            simp at c3
            rw [c4, ← c3, List.map_append, List.prefix_append_right_inj]
            exact h8 W' srv (g' + 1) es' rest hW hW' hpn hio.2 (by simpa using hlen) c5
      · rename_i hx2
        simp at h
        have hb : b = false := by rw [h] at hx2; simpa using hx2
        have hr : x.1 = r' := by rw [h]
        subst hr
        refine ⟨[e], done1, g1, ⟨he1, trivial⟩, by simp, by simp [hb], ?_, by simp [hb], by simp [hb], ?_⟩
        · intro y hy
          exact ⟨(g2 y hy).1, e, by simp, (g2 y hy).2⟩
        · intro W' srv g' es' all hW hW' hpn hio hlen hdc
          cases es' with
          | nil => simp at hlen
          | cons e' es' =>
            have hee : e' = e := by have := delta_some.mpr hio.1; rw [he] at this; simpa using this.symm
            subst hee
            obtain ⟨d', node', a', rest, c1, c2, c3, c4, c5⟩ := hdc
            rcases g3 with rfl | ⟨d, node, q1, q2, q3⟩
            · simp
            · have hd : d = d' := by
                have h1 := hW r.gets.length e'.uri
                have h2 := hW' g' e'.uri
                rw [q1] at h1; rw [c1] at h2
                simp at h1 h2
                rw [← h1] at h2
                simpa using h2.symm
              subst hd
              rw [hpn, q2] at c2
              simp at c2; subst c2
              rw [c4]
              exact (q3 a' c3).trans (List.prefix_append _ _)

end Verif.Rrdp
