import Verif.Lemmas.RrdpHist
import Verif.Props.Sync
/-
  C90: whatever went wrong before, a synchronisation that succeeds gives the server's content.
-/
set_option autoImplicit false

namespace Verif.Props
open Path Rrdp Cache SyncSpec

structure HistInv (srv : Server) (base : Bytes) (st : Between) : Prop where
  known : st.serial = 0 ∨ st.session ∈ st.seen
  first : st.last = none → st.serial = 0
  lastSeen : ∀ m, st.last = some m → m.sessionID ∈ st.seen
  near : ∀ m, st.last = some m → st.session = m.sessionID → st.serial ≠ 0 → st.serial ≤ m.serial ∧
    ((∃ k, st.serial ≤ k ∧ k ≤ m.serial ∧ Missing m k) ∨ Nearly srv base st.session st.serial m.serial st.fs)

theorem histInv_zero {srv : Server} {base : Bytes} {st : Between} (h : ∀ m, st.last = some m → m.sessionID ∈ st.seen)
    (h0 : st.serial = 0) : HistInv srv base st :=
  ⟨.inl h0, fun _ => h0, h, fun _ _ _ h1 => (h1 h0).elim⟩

/-- What a run finds: if it does not need the snapshot, the cache holds the content of its serial but for what the deltas
    name. -/
theorem hist_ready {srv : Server} {base path : Bytes} {st : Between} (hi : HistInv srv base st) {n : Notification}
    (hf : Follows st n) : (st.serial ≠ 0 → st.session = n.sessionID → st.serial ≤ n.serial) ∧
    (¬ SnapshotNeeded ⟨path, st.session, st.serial⟩ n → Nearly srv base n.sessionID st.serial n.serial st.fs) := by
  have step : st.serial ≠ 0 → st.session = n.sessionID → ∃ m, st.last = some m ∧ n.sessionID = m.sessionID ∧ m.serial ≤ n.serial ∧
      ∀ k, k ≤ m.serial → Missing m k → Missing n k := by
    intro h0 hs
    rcases hf with h | h
    · exact h
    · rcases hi.known with h' | h'
      · exact (h0 h').elim
      · rw [hs] at h'; exact (h h').elim
  constructor
  · intro h0 hs
    obtain ⟨m, h1, h2, h3, _⟩ := step h0 hs
    have := (hi.near m h1 (by rw [hs, h2]) h0).1
    omega
  · intro hsn
    have h0 : st.serial ≠ 0 := fun h => hsn (.inl h)
    have hs : st.session = n.sessionID := by
      by_cases e : st.session = n.sessionID
      · exact e
      · exact (hsn (.inr (.inl e))).elim
    obtain ⟨m, h1, h2, h3, h4⟩ := step h0 hs
    obtain ⟨g1, g2⟩ := hi.near m h1 (by rw [hs, h2]) h0
    rcases g2 with ⟨k, k1, k2, k3⟩ | g2
    · exact (hsn (.inr (.inr ⟨k, k1, Int.le_trans k2 h3, h4 k k2 k3⟩))).elim
    · rw [← hs]
      intro u d hu hun
      exact g2 u d hu (fun i hi1 hi2 => hun i hi1 (Int.le_trans hi2 h3))

/-- A run that succeeds. -/
theorem hist_success {srv : Server} {base domain path : Bytes} (hp : Placed srv base domain) {st : Between}
    (hi : HistInv srv base st) {W : World} {os : OS} {n : Notification} {s' : Sys} {r : R FS}
    (hn : (W.getXML 0 path).bind W.parseRoot = some n) (hh : Honest srv W n) (hf : Follows st n)
    (hr : Rrdp.fetchRRDP W (callback os base domain) ⟨path, st.session, st.serial⟩ ⟨st.fs, [], []⟩ = .ok (s', r, true)) :
    s'.sessionID = n.sessionID ∧ s'.serial = n.serial ∧ Mirrors base r.st (srv.content n.sessionID n.serial) := by
  obtain ⟨hle, hready⟩ := hist_ready (path := path) hi hf
  by_cases hs : SnapshotNeeded ⟨path, st.session, st.serial⟩ n
  · obtain ⟨n', e1, _, e2, e3⟩ := C34_success W _ _ _ _ _ hr
    rw [hn] at e1
    obtain rfl := Option.some.inj e1
    have hser : s'.serial = n.serial := by
      obtain ⟨_, g⟩ := fetch_spec W _ _ s' _ r true hr
      rcases g with ⟨⟨_, _, _, _, hb, _⟩, _⟩ | ⟨n', hn', g⟩
      · simp at hb
      simp only [List.length_nil] at hn'
      rw [hn] at hn'
      obtain rfl := Option.some.inj hn'
      rcases g with ⟨_, _, _, _, _, _, d4⟩ | ⟨hs', _⟩
      · rw [(d4 rfl).1]
      · exact (hs' hs).elim
    obtain ⟨_, hex, h3⟩ := C33_snapshot W _ _ s' st.fs r true n hr hn hs
    obtain ⟨hok, d, node, h4, h5, h6⟩ := h3 rfl
    obtain ⟨pub, h7, h8⟩ := hh.snapshot 1 d h4
    rw [h5] at h7
    obtain rfl := Option.some.inj h7
    refine ⟨e2, hser, ?_⟩
    refine mirror_node (c := fun _ => none) (U := fun u => ∃ S k, srv.content S k u ≠ none) hex h6 ?_ hp.apart
      (fun u hu => ⟨⟨_, _, hu⟩, hp.domain _ _ u hu⟩) (by simp) h8.once (by simp) ?_ ?_
    · intro x hx hf; rw [hok x hx] at hf; simp at hf
    · intro i hi
      cases hd : decodeBase64 i.value with
      | some d => exact (h8.exact' i.uri d).mpr ⟨i, hi, rfl, hd⟩
      | none =>
        exfalso
        unfold nodeCalls at h6
        split at h6
        · rename_i a b ha hb
          obtain ⟨p1, p2, rfl⟩ := List.append_of_mem hi
          obtain ⟨_, d', _, _, g2, _⟩ := callsOf_split ha
          rw [hd] at g2; simp at g2
        · simp at h6
    · intro u d hu hp
      obtain ⟨i, hi, hiu, _⟩ := (h8.exact' u d).mp hu
      exact (hp i hi hiu).elim
  · have h0 : st.serial ≠ 0 := fun h => hs (.inl h)
    have hss : st.session = n.sessionID := by
      by_cases e : st.session = n.sessionID
      · exact e
      · exact (hs (.inr (.inl e))).elim
    obtain ⟨es, _, h2, h3, _, h5⟩ := C33_deltas W _ _ s' st.fs r true n hr hn hs
    obtain ⟨h6, h7, h8⟩ := h5 rfl
    obtain ⟨n', e1, _, e2, e3⟩ := C34_success W _ _ _ _ _ hr
    rw [hn] at e1
    obtain rfl := Option.some.inj e1
    simp only at h2 h6 e3
    have hl := hle h0 hss
    have hser : s'.serial = n.serial := by
      rcases e3 with e | ⟨_, e, _⟩
      · exact e
      · omega
    have hlen : st.serial + (es.length : Int) = n.serial := by omega
    refine ⟨e2, hser, ?_⟩
    have := nearly_deltas (K := n.serial) hh hp es st.serial 1 st.fs r.st r.calls h2 (by omega) h7 h3 h8 (hready hs)
    rw [hlen] at this
    intro u d hu
    exact this u d hu (fun i h1 h2 => by omega)

/-- After a run that is not remembered: the position before is still good. -/
theorem hist_keep {srv : Server} {base domain path : Bytes} (hp : Placed srv base domain) {st : Between}
    (hi : HistInv srv base st) {W : World} {cb : Callback FS} {n : Notification} {s' : Sys} {r : R FS} {b : Bool} {fs' : FS}
    (hn : (W.getXML 0 path).bind W.parseRoot = some n) (hh : Honest srv W n) (hf : Follows st n)
    (hr : Rrdp.fetchRRDP W cb ⟨path, st.session, st.serial⟩ ⟨st.fs, [], []⟩ = .ok (s', r, b))
    (hch : ∀ p, fs'.file p ≠ st.fs.file p → ∃ c ∈ r.calls, target base c.1.path = p) :
    HistInv srv base ⟨st.session, st.serial, fs', some n, n.sessionID :: st.seen⟩ := by
  obtain ⟨hle, hready⟩ := hist_ready (path := path) hi hf
  refine ⟨?_, by simp, ?_, ?_⟩
  · rcases hi.known with h | h
    · exact .inl h
    · exact .inr (List.mem_cons_of_mem _ h)
  · intro m hm
    obtain rfl := Option.some.inj hm
    exact List.mem_cons_self
  · intro m hm hs h0
    obtain rfl := Option.some.inj hm
    simp only at hs h0 ⊢
    refine ⟨hle h0 hs, ?_⟩
    by_cases hsn : SnapshotNeeded ⟨path, st.session, st.serial⟩ n
    · rcases hsn with h | h | h
      · exact (h0 h).elim
      · exact (h hs).elim
      · exact .inl h
    · right
      rw [hs]
      exact nearly_keep hh hp (run_from hr hn hsn) hch (hready hsn)

theorem histInv_hist {srv : Server} {base domain path : Bytes} (hp : Placed srv base domain) {st : Between}
    (h : Hist srv base domain path st) : HistInv srv base st := by
  induction h with
  | start fs => exact histInv_zero (by simp) rfl
  | unread st h session serial hk ih =>
    rcases hk with ⟨rfl, rfl⟩ | ⟨rfl, rfl⟩
    · exact ih
    · exact histInv_zero ih.lastSeen rfl
  | run st h W os n s' r b hn hh hf hr session serial hk ih =>
    rcases hk with ⟨rfl, rfl⟩ | ⟨rfl, rfl, rfl⟩ | ⟨rfl, rfl⟩
    · refine hist_keep hp ih hn hh hf hr ?_
      intro p hp
      obtain ⟨c, c1, _, c2⟩ := exec_changed (fetch_exec hr) p hp
      exact ⟨c, c1, c2⟩
    · obtain ⟨h1, h2, h3⟩ := hist_success hp ih hn hh hf hr
      refine ⟨.inr (by simp only [h1]; exact List.mem_cons_self), by simp, ?_, ?_⟩
      · intro m hm
        obtain rfl := Option.some.inj hm
        exact List.mem_cons_self
      · intro m hm hs h0
        obtain rfl := Option.some.inj hm
        simp only at hs h0 ⊢
        refine ⟨by omega, .inr ?_⟩
        rw [h1, h2]
        intro u d hu _
        exact h3 u d hu
    · refine histInv_zero ?_ rfl
      intro m hm
      obtain rfl := Option.some.inj hm
      exact List.mem_cons_self
  | killed st h W os n s' r b hn hh hf hr fs' hkill ih =>
    refine hist_keep hp ih hn hh hf hr ?_
    intro p hp
    obtain ⟨pre, c, post, fs1, k1, k2, k3, k4⟩ := hkill
    by_cases hq : fs1.file p = st.fs.file p
    · refine ⟨c, by rw [k1]; simp, ?_⟩
      by_cases hd : p = target base c.1.path
      · exact hd.symm
      · rw [k3 p hd] at hp; exact (hp hq).elim
    · obtain ⟨x, x1, _, x2⟩ := exec_changed k2 p hq
      exact ⟨x, by rw [k1]; simp [x1], x2⟩
  | elsewhere st h fs' hf ih =>
    refine ⟨ih.known, ih.first, ih.lastSeen, ?_⟩
    intro m hm hs h0
    obtain ⟨g1, g2⟩ := ih.near m hm hs h0
    refine ⟨g1, ?_⟩
    rcases g2 with g | g
    · exact .inl g
    · right
      intro u d hu hun
      rw [hf u ⟨_, _, by rw [hu]; simp⟩]
      exact g u d hu hun

/-- **C90** (partial: what was withdrawn stays, C35; and the server keeps the rules of `Follows`). Take any history of runs
    against a server that publishes new serials and new sessions meanwhile: runs that succeeded, that failed at any
    point, that were killed with a half-written file, whose position was saved, not saved or lost. The next run that
    succeeds ends at the announced session and serial, with every URI of the server holding exactly the server's bytes. -/
theorem C90_heals_partial (srv : Server) (base domain path : Bytes) (hp : Placed srv base domain) (st : Between)
    (h : Hist srv base domain path st) (W : World) (os : OS) (n : Notification) (s' : Sys) (r : R FS)
    (hn : (W.getXML 0 path).bind W.parseRoot = some n) (hh : Honest srv W n) (hf : Follows st n)
    (hr : Rrdp.fetchRRDP W (callback os base domain) ⟨path, st.session, st.serial⟩ ⟨st.fs, [], []⟩ = .ok (s', r, true)) :
    s'.sessionID = n.sessionID ∧ s'.serial = n.serial ∧ Mirrors base r.st (srv.content n.sessionID n.serial) :=
  hist_success hp (histInv_hist hp h) hn hh hf hr

/-! ### A concrete server with two sessions -/

namespace HistEx

/-- Session S: serial 1 has `x`, serial 2 also `y`. Session T: serial 1 has another `x` and another `y`. -/
def table (S : Bytes) (k : Int) : List (Bytes × Bytes × Bytes) :=
  if S = tx "S" ∧ k = 1 then [(uX, tx "AQ==", [1])]
  else if S = tx "S" ∧ k = 2 then [(uX, tx "AQ==", [1]), (uY, tx "BQ==", [5])]
  else if S = tx "T" ∧ k = 1 then [(uX, tx "CQ==", [9]), (uY, tx "CA==", [8])]
  else []

def content (S : Bytes) (k : Int) (u : Bytes) : Option Bytes := ((table S k).map fun t => (t.1, t.2.2)).lookup u
def named (S : Bytes) (k : Int) (u : Bytes) : Prop := S = tx "S" ∧ ((k = 1 ∧ u = uX) ∨ (k = 2 ∧ u = uY))
def srv : Server := ⟨content, named⟩

def noteA : Notification := ⟨tx "S", 1, ⟨0, tx "sa", []⟩, [⟨1, tx "d1", []⟩]⟩
def noteB : Notification := ⟨tx "S", 2, ⟨0, tx "sb", []⟩, [⟨1, tx "d1", []⟩, ⟨2, tx "d2", []⟩]⟩
def noteT : Notification := ⟨tx "T", 1, ⟨0, tx "st", []⟩, []⟩

def parse (d : Bytes) : Option (List Item × List Item) :=
  [(tx "sa", ([⟨uX, tx "AQ=="⟩], [])), (tx "sb", ([⟨uX, tx "AQ=="⟩, ⟨uY, tx "BQ=="⟩], [])),
   (tx "st", ([⟨uX, tx "CQ=="⟩, ⟨uY, tx "CA=="⟩], [])), (tx "d1", ([⟨uX, tx "AQ=="⟩], [])),
   (tx "d2", ([⟨uY, tx "BQ=="⟩], ([] : List Item)))].lookup d

def world (n : Notification) : World := ⟨fun _ u => some u, fun d => if d = pathS then some n else none, parse⟩

theorem lookup_table {l : List (Bytes × Bytes × Bytes)} (h : (l.map (·.1)).Nodup) (u d : Bytes) :
    (l.map fun t => (t.1, t.2.2)).lookup u = some d ↔ ∃ t ∈ l, t.1 = u ∧ t.2.2 = d := by
  induction l with
  | nil => simp
  | cons t l ih =>
    simp only [List.map_cons, List.nodup_cons] at h
    simp only [List.map_cons, List.lookup_cons]
    by_cases hu : u = t.1
    · subst hu
      simp only [beq_self_eq_true, Option.some.injEq, List.mem_cons]
      constructor
      · intro e; exact ⟨t, .inl rfl, rfl, e⟩
      · rintro ⟨t', rfl | ht, e1, e2⟩
        · exact e2
        · exact (h.1 (by rw [← e1]; exact List.mem_map_of_mem ht)).elim
    · have : (u == t.1) = false := by simpa using hu
      simp only [this, ih h.2, List.mem_cons]
      constructor
      · rintro ⟨t', h1, h2⟩; exact ⟨t', .inr h1, h2⟩
      · rintro ⟨t', rfl | h1, h2⟩
        · exact (hu h2.1.symm).elim
        · exact ⟨t', h1, h2⟩

theorem isSnapshot {l : List (Bytes × Bytes × Bytes)} (h : (l.map (·.1)).Nodup) (hd : ∀ t ∈ l, decodeBase64 t.2.1 = some t.2.2) :
    IsSnapshot (fun u => (l.map fun t => (t.1, t.2.2)).lookup u) (l.map fun t => ⟨t.1, t.2.1⟩) := by
  refine ⟨by rw [List.map_map]; exact h, ?_⟩
  intro u d
  simp only [lookup_table h, List.mem_map]
  constructor
  · rintro ⟨t, h1, h2, h3⟩
    exact ⟨_, ⟨t, h1, rfl⟩, h2, by rw [hd t h1, h3]⟩
  · rintro ⟨i, ⟨t, h1, rfl⟩, h2, h3⟩
    rw [hd t h1] at h3
    exact ⟨t, h1, h2, Option.some.inj h3⟩

theorem xy : uX ≠ uY := by decide +kernel

theorem content_uris {S : Bytes} {k : Int} {u : Bytes} (h : srv.content S k u ≠ none) : u = uX ∨ u = uY := by
  obtain ⟨d, hd⟩ := Option.ne_none_iff_exists'.mp h
  have hx : ∀ t ∈ table S k, t.1 = uX ∨ t.1 = uY := by
    unfold table
    intro t ht
    split at ht
    · simp at ht; subst ht; exact .inl rfl
    · split at ht
      · simp at ht; rcases ht with rfl | rfl
        · exact .inl rfl
        · exact .inr rfl
      · split at ht
        · simp at ht; rcases ht with rfl | rfl
          · exact .inl rfl
          · exact .inr rfl
        · simp at ht
  have hnd : ((table S k).map (·.1)).Nodup := by
    unfold table
    split
    · simp
    · split
      · simp [xy]
      · split
        · simp [xy]
        · simp
  obtain ⟨t, h1, h2, -⟩ := (lookup_table hnd u d).mp hd
  rw [← h2]
  exact hx t h1

theorem placed : Placed srv baseS domS := by
  refine ⟨?_, ?_⟩
  · intro S k u h
    rcases content_uris h with rfl | rfl <;> decide +kernel
  · rintro u v ⟨_, _, hu⟩ ⟨_, _, hv⟩ ht
    have hne : target baseS uX ≠ target baseS uY := by decide +kernel
    rcases content_uris hu with rfl | rfl <;> rcases content_uris hv with rfl | rfl
    · rfl
    · exact (hne ht).elim
    · exact (hne ht.symm).elim
    · rfl

theorem delta1 : IsDelta (content (tx "S") 0) (content (tx "S") 1) [⟨uX, tx "AQ=="⟩] [] := by
  refine ⟨by simp, by simp, ?_, by simp, ?_⟩
  · intro i hi; simp at hi; subst hi; decide +kernel
  · intro u hu _
    have h1 : u ≠ uX := fun e => hu ⟨uX, tx "AQ=="⟩ (by simp) e.symm
    have b1 : (u == uX) = false := by simpa using h1
    show [(uX, ([1] : Bytes))].lookup u = none
    simp [List.lookup_cons, b1]

theorem delta2 : IsDelta (content (tx "S") 1) (content (tx "S") 2) [⟨uY, tx "BQ=="⟩] [] := by
  refine ⟨by simp, by simp, ?_, by simp, ?_⟩
  · intro i hi; simp at hi; subst hi; decide +kernel
  · intro u hu _
    have h1 : u ≠ uY := fun e => hu ⟨uY, tx "BQ=="⟩ (by simp) e.symm
    have b1 : (u == uY) = false := by simpa using h1
    show [(uX, ([1] : Bytes)), (uY, [5])].lookup u = [(uX, ([1] : Bytes))].lookup u
    simp [List.lookup_cons, b1]

theorem named1 (u : Bytes) : srv.named (tx "S") 1 u ↔ (∃ i ∈ [(⟨uX, tx "AQ=="⟩ : Item)], i.uri = u) ∨ (∃ i ∈ ([] : List Item), i.uri = u) := by
  simp [srv, named, eq_comm]

theorem named2 (u : Bytes) : srv.named (tx "S") 2 u ↔ (∃ i ∈ [(⟨uY, tx "BQ=="⟩ : Item)], i.uri = u) ∨ (∃ i ∈ ([] : List Item), i.uri = u) := by
  simp [srv, named, eq_comm]

theorem honestA : Honest srv (world noteA) noteA := by
  refine ⟨?_, ?_⟩
  · intro k d hd
    obtain rfl : tx "sa" = d := Option.some.inj hd
    exact ⟨[⟨uX, tx "AQ=="⟩], by decide +kernel, isSnapshot (l := [(uX, tx "AQ==", [1])]) (by simp) (by decide +kernel)⟩
  · intro e he k d hd
    obtain rfl : e.uri = d := Option.some.inj hd
    simp only [noteA, List.mem_singleton] at he
    subst he
    exact ⟨_, [], by decide +kernel, delta1, named1⟩

theorem honestB : Honest srv (world noteB) noteB := by
  refine ⟨?_, ?_⟩
  · intro k d hd
    obtain rfl : tx "sb" = d := Option.some.inj hd
    exact ⟨[⟨uX, tx "AQ=="⟩, ⟨uY, tx "BQ=="⟩], by decide +kernel,
      isSnapshot (l := [(uX, tx "AQ==", [1]), (uY, tx "BQ==", [5])]) (by simp [xy]) (by decide +kernel)⟩
  · intro e he k d hd
    obtain rfl : e.uri = d := Option.some.inj hd
    simp only [noteB, List.mem_cons, List.not_mem_nil, or_false] at he
    rcases he with rfl | rfl
    · exact ⟨_, [], by decide +kernel, delta1, named1⟩
    · exact ⟨_, [], by decide +kernel, delta2, named2⟩

theorem honestT : Honest srv (world noteT) noteT := by
  refine ⟨?_, by simp [noteT]⟩
  intro k d hd
  obtain rfl : tx "st" = d := Option.some.inj hd
  exact ⟨[⟨uX, tx "CQ=="⟩, ⟨uY, tx "CA=="⟩], by decide +kernel,
    isSnapshot (l := [(uX, tx "CQ==", [9]), (uY, tx "CA==", [8])]) (by simp [xy]) (by decide +kernel)⟩

/-- A full disk: `y` can not be written; or `x` is written half. -/
def osNoY : OS := ⟨fun _ _ => true, fun _ p _ => if p = target baseS uY then (false, none) else (true, none)⟩
def osTornX : OS := ⟨fun _ _ => true, fun _ p _ => if p = target baseS uX then (false, some [77]) else (true, none)⟩

def isOk (x : Go (Sys × R FS × Bool)) : Bool := match x with | .ok _ => true | _ => false
def got (x : Go (Sys × R FS × Bool)) : Sys × R FS × Bool := match x with | .ok y => y | _ => (⟨[], [], 0⟩, ⟨⟨[], []⟩, [], []⟩, false)
theorem ok_got {x : Go (Sys × R FS × Bool)} {b : Bool} (h : isOk x = true) (hb : (got x).2.2 = b) :
    x = .ok ((got x).1, (got x).2.1, b) := by
  subst hb
  cases x with
  | ok y => rfl
  | _ => simp [isOk] at h

/-- The run from the empty cache at S, 1; then the one at T that fails at `y`; then the one at S, 2. -/
def fs0 : FS := ⟨[], []⟩
def run1 : Go (Sys × R FS × Bool) := Rrdp.fetchRRDP (world noteA) (callback osFine baseS domS) ⟨pathS, [], 0⟩ ⟨fs0, [], []⟩
def fs1 : FS := (got run1).2.1.st
def run2 : Go (Sys × R FS × Bool) := Rrdp.fetchRRDP (world noteT) (callback osNoY baseS domS) ⟨pathS, tx "S", 1⟩ ⟨fs1, [], []⟩
def fs2 : FS := (got run2).2.1.st
def run3 : Go (Sys × R FS × Bool) := Rrdp.fetchRRDP (world noteB) (callback osFine baseS domS) ⟨pathS, tx "S", 1⟩ ⟨fs2, [], []⟩

/-- The state after the first run. -/
theorem hist1 : Hist srv baseS domS pathS ⟨tx "S", 1, fs1, some noteA, [tx "S"]⟩ := by
  have e : run1 = .ok ((got run1).1, (got run1).2.1, true) := ok_got (by decide +kernel) (by decide +kernel)
  have e1 : (got run1).1 = ⟨pathS, tx "S", 1⟩ := by decide +kernel
  refine Hist.run ⟨[], 0, fs0, none, []⟩ (.start fs0) (world noteA) osFine noteA (got run1).1 (got run1).2.1 true (by decide +kernel)
    honestA (.inr (by simp)) e (tx "S") 1 (.inr (.inl ⟨rfl, by rw [e1], by rw [e1]⟩))

theorem hist2 : Hist srv baseS domS pathS ⟨tx "S", 1, fs2, some noteT, [tx "T", tx "S"]⟩ := by
  have e : run2 = .ok ((got run2).1, (got run2).2.1, false) := ok_got (by decide +kernel) (by decide +kernel)
  exact Hist.run ⟨tx "S", 1, fs1, some noteA, [tx "S"]⟩ hist1 (world noteT) osNoY noteT (got run2).1 (got run2).2.1 false
    (by decide +kernel) honestT (.inr (by decide +kernel)) e (tx "S") 1 (.inl ⟨rfl, rfl⟩)

end HistEx

/-- The hypotheses are met: after a successful run at S, 1 and one at T that failed half-way, the next one may find T again
    (it takes the snapshot and puts everything right). -/
example : Hist HistEx.srv baseS domS pathS ⟨tx "S", 1, HistEx.fs2, some HistEx.noteT, [tx "T", tx "S"]⟩ ∧
    Placed HistEx.srv baseS domS ∧ Honest HistEx.srv (HistEx.world HistEx.noteT) HistEx.noteT ∧
    Follows ⟨tx "S", 1, HistEx.fs2, some HistEx.noteT, [tx "T", tx "S"]⟩ HistEx.noteT ∧
    HistEx.isOk (Rrdp.fetchRRDP (HistEx.world HistEx.noteT) (callback osFine baseS domS) ⟨pathS, tx "S", 1⟩ ⟨HistEx.fs2, [], []⟩) = true ∧
    (HistEx.got (Rrdp.fetchRRDP (HistEx.world HistEx.noteT) (callback osFine baseS domS) ⟨pathS, tx "S", 1⟩
      ⟨HistEx.fs2, [], []⟩)).2.2 = true :=
  ⟨HistEx.hist2, HistEx.placed, HistEx.honestT, .inl ⟨HistEx.noteT, rfl, rfl, Int.le_refl _, fun _ _ h => h⟩,
    by decide +kernel, by decide +kernel⟩

/-- **C90 is violated when a session comes back** (servers behind one name that are not in step). The client was at serial 1
    of session S; a snapshot of session T failed half-way; the next notification is that of S with serial 2. The run
    succeeds with its one delta, but `x` holds the bytes of session T: a part of the failed snapshot stays in the
    cache under the position of S. -/
theorem C90_violated_session_returns : ∃ (srv : Server) (base domain path : Bytes) (st : Between) (W : World) (os : OS) (n : Notification)
    (s' : Sys) (r : R FS) (u : Bytes), Hist srv base domain path st ∧ Placed srv base domain ∧
      (W.getXML 0 path).bind W.parseRoot = some n ∧ Honest srv W n ∧
      Rrdp.fetchRRDP W (callback os base domain) ⟨path, st.session, st.serial⟩ ⟨st.fs, [], []⟩ = .ok (s', r, true) ∧
      s'.sessionID = n.sessionID ∧ s'.serial = n.serial ∧
      srv.content n.sessionID n.serial u = some [1] ∧ r.st.file (target base u) = some [9] := by
  have e : HistEx.run3 = .ok ((HistEx.got HistEx.run3).1, (HistEx.got HistEx.run3).2.1, true) :=
    HistEx.ok_got (by decide +kernel) (by decide +kernel)
  exact ⟨HistEx.srv, baseS, domS, pathS, _, HistEx.world HistEx.noteB, osFine, HistEx.noteB, (HistEx.got HistEx.run3).1,
    (HistEx.got HistEx.run3).2.1, uX, HistEx.hist2, HistEx.placed, by decide +kernel, HistEx.honestB, e, by decide +kernel,
    by decide +kernel, by decide +kernel, by decide +kernel⟩

/-- **C90 is violated when the position is lost and found again** (the file could not be read at one start of the process, and
    could at the next). The client is at serial 1; a run from nothing is broken off in the middle of the file of `x`;
    the next run starts from serial 1 again, succeeds with the delta to serial 2, and `x` stays half-written. -/
theorem C90_violated_position_returns : ∃ (srv : Server) (base domain path : Bytes) (st : Between) (W : World) (os os' : OS) (n : Notification)
    (s1 s' : Sys) (r1 r : R FS) (u : Bytes), Hist srv base domain path st ∧ Placed srv base domain ∧
      (W.getXML 0 path).bind W.parseRoot = some n ∧ Honest srv W n ∧ Follows st n ∧
      Rrdp.fetchRRDP W (callback os base domain) ⟨path, [], 0⟩ ⟨st.fs, [], []⟩ = .ok (s1, r1, false) ∧
      Rrdp.fetchRRDP W (callback os' base domain) ⟨path, st.session, st.serial⟩ ⟨r1.st, [], []⟩ = .ok (s', r, true) ∧
      s'.sessionID = n.sessionID ∧ s'.serial = n.serial ∧
      srv.content n.sessionID n.serial u = some [1] ∧ r.st.file (target base u) = some [77] := by
  let a := Rrdp.fetchRRDP (HistEx.world HistEx.noteB) (callback HistEx.osTornX baseS domS) ⟨pathS, [], 0⟩ ⟨HistEx.fs1, [], []⟩
  let b := Rrdp.fetchRRDP (HistEx.world HistEx.noteB) (callback osFine baseS domS) ⟨pathS, tx "S", 1⟩ ⟨(HistEx.got a).2.1.st, [], []⟩
  have ea : a = .ok ((HistEx.got a).1, (HistEx.got a).2.1, false) := HistEx.ok_got (by decide +kernel) (by decide +kernel)
  have eb : b = .ok ((HistEx.got b).1, (HistEx.got b).2.1, true) := HistEx.ok_got (by decide +kernel) (by decide +kernel)
  exact ⟨HistEx.srv, baseS, domS, pathS, _, HistEx.world HistEx.noteB, HistEx.osTornX, osFine, HistEx.noteB, (HistEx.got a).1,
    (HistEx.got b).1, (HistEx.got a).2.1, (HistEx.got b).2.1, uX, HistEx.hist1, HistEx.placed, by decide +kernel, HistEx.honestB,
    .inl ⟨HistEx.noteA, rfl, rfl, by decide, by
      intro k hk hm e he
      simp only [HistEx.noteB, List.mem_cons, List.not_mem_nil, or_false] at he
      rcases he with rfl | rfl
      · exact hm ⟨1, tx "d1", []⟩ (by simp [HistEx.noteA])
      · intro h; simp only [HistEx.noteA] at hk h; omega⟩, ea, eb, by decide +kernel, by decide +kernel,
    by decide +kernel, by decide +kernel⟩

end Verif.Props
