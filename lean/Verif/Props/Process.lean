import Verif.Lemmas.Process
import Verif.Props.Loop
import Verif.Props.Refresh
/-
  Property theorems for the rounds of the whole program octorpki: C101.
-/
set_option autoImplicit false

namespace Verif.Props
open Pki Manager EndToEnd Process ProcessSpec Fetch LocalSpec Cache EndSpec

/-! ### A round -/

theorem settled_iff {failover : Bool} {s : Process.St} {m : Bytes} :
    SettledByRrdp failover s m ↔ ∃ x ∈ s.rrdps, x.1.rsync = m ∧ removes failover x.2 = true := by
  constructor
  · rintro ⟨j, o, h1, h2, h3⟩
    exact ⟨(j, o), h1, h2, (removes_iff _ _).mpr h3⟩
  · rintro ⟨⟨j, o⟩, h1, h2, h3⟩
    exact ⟨j, o, h1, h2, (removes_iff _ _).mp h3⟩

theorem validCA_withReread {S : Process.Setup} {fs : FS} {known : List Bytes} {ms : List (TalRun × M)} {c : Pki.Cert} :
    ValidIn (withReread S fs known ms) c ↔ ValidIn ms c := by
  unfold ValidIn withReread
  constructor
  · rintro ⟨run, m, key, i, r, h1, h2⟩
    obtain ⟨x, hx, e⟩ := List.mem_map.mp h1
    cases e
    exact ⟨x.1, x.2, key, i, r, hx, h2⟩
  · rintro ⟨run, m, key, i, r, h1, h2⟩
    exact ⟨_, m, key, i, r, List.mem_map.mpr ⟨_, h1, rfl⟩, h2⟩

theorem validCA_iff {s : Process.St} {c : Pki.Cert} : ValidCA s c ↔ ValidIn s.ms c := Iff.rfl

/-- What a round does, as far as C101 needs it. -/
structure RoundFacts (S : Process.Setup) (k : Process.Tick) (s s' : Process.St) : Prop where
  tried : ∀ m, (s.b.jobs.get m).isSome = true → m ∈ s'.rsyncs ∨ SettledByRrdp S.failover s' m
  rsyncs : ∀ m ∈ s'.rsyncs, (s.b.jobs.get m).isSome = true ∨
    ∃ p t, s.fetch.get p = some t ∧ S.failover = true ∧ t.hasRsync = true ∧ m = t.getRsyncURI S.env.sha1
  anchor : ∀ p t, s.fetch.get p = some t → (∀ u ∈ t.uri, IsHttp u → k.http u = none) → S.failover = true → t.hasRsync = true →
    t.getRsyncURI S.env.sha1 ∈ s'.rsyncs
  rrdps : ∀ j, (∃ o, (j, o) ∈ s'.rrdps) ↔ S.rrdpOn = true ∧ s.b.fetch.get j.path = some j.rsync
  domain : ∀ u d, s.b.domain.get u = some d → s'.b.domain.get u = some d
  repos : ∀ m ∈ s.b.repos, m ∈ s'.b.repos
  stay : ∀ m ∈ s'.rsyncs, (s'.b.jobs.get m).isSome = true
  taken : ∀ c host name, ValidCA s' c → NamesModule c host name → Fits s' c host →
    (s'.b.jobs.get (moduleURI host name)).isSome = true ∧ moduleURI host name ∈ s'.b.repos
  jobs : ∀ m, (s'.b.jobs.get m).isSome = true → m ∈ s'.rsyncs ∨ ∃ c host name, ValidCA s' c ∧ NamesModule c host name ∧ m = moduleURI host name
  reposFrom : ∀ m ∈ s'.b.repos, m ∈ s.b.repos ∨ ∃ c host name, ValidCA s' c ∧ NamesModule c host name ∧ m = moduleURI host name
  reposJobs : ∀ m ∈ s'.b.repos, m ∈ s.b.repos ∨ (s'.b.jobs.get m).isSome = true
  fetchFrom : ∀ u m, s'.b.fetch.get u = some m → s.b.fetch.get u = some m ∨
    ∃ c host name, ValidCA s' c ∧ NamesModule c host name ∧ m = moduleURI host name ∧ FirstOf .rrdp c u ∧ s'.b.domain.get u = some (hostURI host)
  tals : ∀ p t, s'.fetch.get p = some t → ReadTal s' t
  validation : mainValidation S.fl S.names k.now (s'.ms.map (·.1)) = .ok (s'.ms, s'.list)
  runs : s'.ms.map (·.1.path) = S.tals
  planned : Refresh.collectAll (s'.ms.map (·.2)) [] = .ok s'.fetch
  worlds : ∀ x ∈ s'.ms, ∃ known, x.1.world = Refresh.worldOf S.toSetup known k.now s'.fs

theorem roundFacts {S : Process.Setup} {k : Process.Tick} {s s' : Process.St} (h : Process.round S k s = .ok s') : RoundFacts S k s s' := by
  unfold Process.round at h
  obtain ⟨x, hx, h⟩ := Go.bind_eq_ok.mp h
  obtain ⟨⟨fs1, jobs⟩, ht, h⟩ := Go.bind_eq_ok.mp h
  obtain ⟨fs, hfs, h⟩ := Go.bind_eq_ok.mp h
  obtain ⟨⟨ms, acc, b⟩, hv, h⟩ := Go.bind_eq_ok.mp h
  obtain ⟨ts, hts, h⟩ := Go.bind_eq_ok.mp h
  obtain ⟨L, hL, h⟩ := Go.bind_eq_ok.mp h
  simp only [Go.pure_def, Go.ok.injEq] at h
  subst h
  obtain ⟨d1, d2⟩ := doRRDP_spec hx
  obtain ⟨t1, t2, t3⟩ := mainTAL_jobs _ _ _ _ _ ht
  obtain ⟨v1, v2, v3, v4, v5, v6, v7⟩ := talLoop_spec hv
  have mem : ∀ m, m ∈ k.order 1 (keysOf jobs) ↔ (jobs.get m).isSome = true := fun m => by
    rw [(k.perm _ _).mem_iff, mem_keysOf]
  obtain ⟨r1, r2⟩ := talLoop_runs hv
  have hvalid : mainValidation S.fl S.names k.now ((withReread S fs (if s.handed = true then b.repos else []) ms).map (·.1)) =
      .ok (withReread S fs (if s.handed = true then b.repos else []) ms, L) := by
    unfold mainValidation
    rw [exploreTals_reread v7]
    have hlen : ((withReread S fs (if s.handed = true then b.repos else []) ms).map (·.1)).length = S.tals.length := by
      rw [← r1]; simp [withReread]
    rw [hlen]
    simp only [Go.ok_bind]
    simp only at hts
    rw [hts]
    simp only [Go.ok_bind]
    rw [hL]
    rfl
  refine ⟨?_, ?_, ?_, d2, v1.domain, v1.repos, ?_, ?_, ?_, ?_, v1.both, ?_, ?_, hvalid, ?_, ?_, ?_⟩
  · intro m hm
    rw [settled_iff]
    simp only
    by_cases hs : ∃ y ∈ x.2.2.2.2, y.1.rsync = m ∧ removes S.failover y.2 = true
    · exact .inr hs
    · left
      rw [mem]
      exact t1 m (by rw [d1 m, if_neg hs]; exact hm)
  · intro m hm
    rcases t2 m ((mem m).mp hm) with h | ⟨p, _, t, h1, h2⟩
    · rw [d1 m] at h
      split at h
      · simp at h
      · exact .inl h
    · exact .inr ⟨p, t, h1, h2⟩
  · intro p t ht hn hf hr
    exact (mem _).mpr (t3 p (by rw [(k.perm _ _).mem_iff, mem_keysOf, ht]; rfl) t ht hn hf hr)
  · intro m hm
    exact v1.jobs m ((mem m).mp hm)
  · intro c host name hc hn hf
    exact v2 c host name (validCA_withReread.mp hc) hn hf
  · intro m hm
    rcases v3 m hm with h | ⟨c, host, name, h1, h2⟩
    · exact .inl ((mem m).mpr h)
    · exact .inr ⟨c, host, name, validCA_withReread.mpr h1, h2⟩
  · intro m hm
    rcases v4 m hm with h | ⟨c, host, name, h1, h2⟩
    · exact .inl h
    · exact .inr ⟨c, host, name, validCA_withReread.mpr h1, h2⟩
  · intro u m hm
    rcases v5 u m hm with h | ⟨c, host, name, h1, h2⟩
    · exact .inl h
    · exact .inr ⟨c, host, name, validCA_withReread.mpr h1, h2⟩
  · intro p t hp
    rcases v6 p t hp with h | ⟨run, m, key, i, r, h1, h2⟩
    · simp [Map.get] at h
    · exact ⟨_, m, key, i, r, List.mem_map.mpr ⟨_, h1, rfl⟩, h2⟩
  · simp only [withReread, List.map_map]
    exact r1
  · have e : (withReread S fs (if s.handed = true then b.repos else []) ms).map (·.2) = ms.map (·.2) := by simp [withReread]
    rw [e]
    exact talLoop_collect hv
  · intro y hy
    obtain ⟨z, hz, rfl⟩ := List.mem_map.mp hy
    exact r2 z hz

theorem after_succ {S : Process.Setup} {ticks : Nat → Process.Tick} {s0 s' : Process.St} {n : Nat}
    (h : Process.after S ticks s0 (n + 1) = .ok s') :
    ∃ s, Process.after S ticks s0 n = .ok s ∧ RoundFacts S (ticks n) s s' := by
  unfold Process.after at h
  obtain ⟨s, hs, h⟩ := Go.bind_eq_ok.mp h
  exact ⟨s, hs, roundFacts h⟩

/-! ### What is fetched -/

/-- **C101, nothing named is left out.** Let a round hold valid a certificate whose repository lies in the module `name` of `host`, and
    whose RRDP URL, if it has one, belongs to that host. Then the next round asks rsync for this module, unless an RRDP fetch
    on its behalf succeeds in that round or fails in a way that rules out rsync. -/
theorem C101_fetched_next (S : Process.Setup) (ticks : Nat → Process.Tick) (s0 s1 s2 : Process.St) (n : Nat)
    (h1 : Process.after S ticks s0 (n + 1) = .ok s1) (h2 : Process.after S ticks s0 (n + 2) = .ok s2)
    (c : Pki.Cert) (host name : Bytes) (hc : ValidCA s1 c) (hn : NamesModule c host name) (hf : Fits s1 c host) :
    moduleURI host name ∈ s2.rsyncs ∨ SettledByRrdp S.failover s2 (moduleURI host name) := by
  obtain ⟨_, _, f1⟩ := after_succ h1
  obtain ⟨s, hs, f2⟩ := after_succ h2
  rw [h1] at hs
  cases hs
  exact f2.tried _ (f1.taken c host name hc hn hf).1

/-- **C101.** Without RRDP (-rrdp=false) rsync is asked for the module in that round and in all later ones. -/
theorem C101_fetched_rsync (S : Process.Setup) (ticks : Nat → Process.Tick) (s0 s1 s2 : Process.St) (n d : Nat) (hoff : S.rrdpOn = false)
    (h1 : Process.after S ticks s0 (n + 1) = .ok s1) (h2 : Process.after S ticks s0 (n + 2 + d) = .ok s2)
    (c : Pki.Cert) (host name : Bytes) (hc : ValidCA s1 c) (hn : NamesModule c host name) (hf : Fits s1 c host) :
    moduleURI host name ∈ s2.rsyncs := by
  have unsettled : ∀ {s : Process.St} {m k s'}, RoundFacts S k s' s → ¬ SettledByRrdp S.failover s m := by
    rintro s m k s' f ⟨j, o, h, _⟩
    have := ((f.rrdps j).mp ⟨o, h⟩).1
    rw [hoff] at this
    cases this
  induction d generalizing s2 with
  | zero =>
    obtain ⟨_, _, f2⟩ := after_succ h2
    rcases C101_fetched_next S ticks s0 s1 s2 n h1 h2 c host name hc hn hf with h | h
    · exact h
    · exact absurd h (unsettled f2)
  | succ d ih =>
    obtain ⟨s, hs, f⟩ := after_succ (n := n + 2 + d) h2
    have hm := ih s hs
    obtain ⟨s', hs', f'⟩ := after_succ (n := n + 1 + d) (by rw [← hs]; congr 1; omega)
    rcases f.tried _ (f'.stay _ hm) with h | h
    · exact h
    · exact absurd h (unsettled f)

/-- **C101.** Let a round end without a certificate with the key of a TAL in the cache, where the validator looks for it. If no HTTP server that the TAL names
    answers in the next round, rsync is asked for the certificate in it (with failover on). -/
theorem C101_anchor_fetched (S : Process.Setup) (hm : S.fl.useManifest = true)
    (hk : ∀ d c, S.env.parseCert d = .ok c → TalSpec.CertKey c.isRSA c.pubKey) (ticks : Nat → Process.Tick) (s0 s1 s2 : Process.St) (n : Nat)
    (h1 : Process.after S ticks s0 (n + 1) = .ok s1) (h2 : Process.after S ticks s0 (n + 2) = .ok s2) (path : Bytes) (hp : path ∈ S.tals)
    (t : Tal.RPKITAL) (ht : RefreshSpec.ReadsTal S.toSetup s1.fs path t) (ha : ¬ RefreshSpec.HasAnchor S.toSetup s1.fs t)
    (hh : ∀ u ∈ t.uri, IsHttp u → (ticks (n + 1)).http u = none) (hf : S.failover = true) (hr : t.hasRsync = true) :
    t.getRsyncURI S.env.sha1 ∈ s2.rsyncs := by
  obtain ⟨_, _, f1⟩ := after_succ h1
  obtain ⟨s, hs, f⟩ := after_succ h2
  rw [h1] at hs
  cases hs
  have hx := (main_parts f1.validation).1
  obtain ⟨_, hexp⟩ := exploreTals_ok hx
  have := planned_core S.toSetup hm hk s1.fs s1.ms hexp (fun x hx => (f1.worlds x hx).imp fun _ h => ⟨_, h⟩) s1.fetch f1.planned path
    (by rw [← f1.runs] at hp; obtain ⟨x, hx, e⟩ := List.mem_map.mp hp; exact ⟨x, hx, e⟩) t ht
  exact f.anchor path t (this.2.mpr ha) hh hf hr

/-- A certificate that was valid after round `i` names the module. -/
def NamedBy (S : Process.Setup) (ticks : Nat → Process.Tick) (s0 : Process.St) (i : Nat) (host name : Bytes) (c : Pki.Cert) : Prop :=
  ∃ s, Process.after S ticks s0 i = .ok s ∧ ValidCA s c ∧ NamesModule c host name

structure SourceInv (S : Process.Setup) (ticks : Nat → Process.Tick) (s0 : Process.St) (n : Nat) (s : Process.St) : Prop where
  jobs : ∀ m, (s.b.jobs.get m).isSome = true → (∃ i ≤ n, ∃ c host name, NamedBy S ticks s0 i host name c ∧ m = moduleURI host name) ∨
    (S.failover = true ∧ ∃ i < n, ∃ s' t, Process.after S ticks s0 i = .ok s' ∧ ReadTal s' t ∧ t.hasRsync = true ∧ m = t.getRsyncURI S.env.sha1)
  fetch : ∀ u m, s.b.fetch.get u = some m → ∃ i ≤ n, ∃ c host name, NamedBy S ticks s0 i host name c ∧ m = moduleURI host name ∧
    FirstOf .rrdp c u ∧ s.b.domain.get u = some (hostURI host)
  tals : ∀ p t, s.fetch.get p = some t → ReadTal s t

theorem sourceInv (S : Process.Setup) (ticks : Nat → Process.Tick) (fs : FS) (file : Option Bytes) : ∀ (n : Nat) (s : Process.St),
    Process.after S ticks (.boot fs file) n = .ok s → SourceInv S ticks (.boot fs file) n s ∧
    ∀ m ∈ s.rsyncs, (∃ i < n, ∃ c host name, NamedBy S ticks (.boot fs file) i host name c ∧ m = moduleURI host name) ∨
      (S.failover = true ∧ ∃ i < n, ∃ s' t, Process.after S ticks (.boot fs file) i = .ok s' ∧ ReadTal s' t ∧ t.hasRsync = true ∧
        m = t.getRsyncURI S.env.sha1) := by
  intro n
  induction n with
  | zero =>
    intro s h
    simp [Process.after] at h
    subst h
    refine ⟨⟨?_, ?_, ?_⟩, ?_⟩ <;> simp [Process.St.boot, Bindings.empty, Map.get]
  | succ n ih =>
    intro s h
    obtain ⟨s1, hs1, f⟩ := after_succ h
    obtain ⟨i, _⟩ := ih s1 hs1
    have hr : ∀ m ∈ s.rsyncs, (∃ i < n + 1, ∃ c host name, NamedBy S ticks (.boot fs file) i host name c ∧ m = moduleURI host name) ∨
      (S.failover = true ∧ ∃ i < n + 1, ∃ s' t, Process.after S ticks (.boot fs file) i = .ok s' ∧ ReadTal s' t ∧ t.hasRsync = true ∧
        m = t.getRsyncURI S.env.sha1) := by
      intro m hm
      rcases f.rsyncs m hm with h | ⟨p, t, h1, h2, h3, h4⟩
      · rcases i.jobs m h with ⟨i, hi, h⟩ | ⟨hf, i, hi, h⟩
        · exact .inl ⟨i, by omega, h⟩
        · exact .inr ⟨hf, i, by omega, h⟩
      · exact .inr ⟨h2, n, by omega, s1, t, hs1, i.tals p t h1, h3, h4⟩
    refine ⟨⟨?_, ?_, f.tals⟩, hr⟩
    · intro m hm
      rcases f.jobs m hm with h | ⟨c, host, name, h1, h2, h3⟩
      · rcases hr m h with ⟨i, hi, h⟩ | h
        · exact .inl ⟨i, by omega, h⟩
        · exact .inr h
      · exact .inl ⟨n + 1, le_refl _, c, host, name, ⟨s, h, h1, h2⟩, h3⟩
    · intro u m hm
      rcases f.fetchFrom u m hm with h | ⟨c, host, name, h1, h2, h3, h4, h5⟩
      · obtain ⟨j, hj, c, host, name, h1, h2, h3, h4⟩ := i.fetch u m h
        exact ⟨j, by omega, c, host, name, h1, h2, h3, f.domain u _ h4⟩
      · exact ⟨n + 1, le_refl _, c, host, name, ⟨s, h, h1, h2⟩, h3, h4, h5⟩

/-- **C101, nothing else is fetched by rsync.** From a start of the program with any cache: each URL that a round gives to rsync
    is a module named by a certificate that was valid in an earlier round, or (with failover on) the rsync URI of a TAL that an earlier
    round read. -/
theorem C101_rsync_only_named (S : Process.Setup) (ticks : Nat → Process.Tick) (fs : FS) (file : Option Bytes) (n : Nat) (s : Process.St)
    (h : Process.after S ticks (.boot fs file) n = .ok s) (url : Bytes) (hu : url ∈ s.rsyncs) :
    (∃ i < n, ∃ s' c host name, Process.after S ticks (.boot fs file) i = .ok s' ∧ ValidCA s' c ∧ NamesModule c host name ∧
      url = moduleURI host name) ∨
    (S.failover = true ∧ ∃ i < n, ∃ s' t, Process.after S ticks (.boot fs file) i = .ok s' ∧ ReadTal s' t ∧ t.hasRsync = true ∧
      url = t.getRsyncURI S.env.sha1) := by
  rcases (sourceInv S ticks fs file n s h).2 url hu with ⟨i, hi, c, host, name, ⟨s', h1, h2, h3⟩, h4⟩ | h
  · exact .inl ⟨i, hi, s', c, host, name, h1, h2, h3, h4⟩
  · exact .inr h

/-- **C101, nothing else is fetched by RRDP, and no server writes for two hosts.** Each RRDP fetch is at a URL that a certificate valid in an
    earlier round names together with the module on whose behalf it is made. All fetches at one URL, in all rounds, are
    for modules of one host. -/
theorem C101_rrdp_only_named (S : Process.Setup) (ticks : Nat → Process.Tick) (fs : FS) (file : Option Bytes) (n : Nat) (s : Process.St)
    (h : Process.after S ticks (.boot fs file) (n + 1) = .ok s) (j : RrdpJob) (o : Option Bytes) (hj : (j, o) ∈ s.rrdps) :
    S.rrdpOn = true ∧ ∃ i ≤ n, ∃ s' c host name, Process.after S ticks (.boot fs file) i = .ok s' ∧ ValidCA s' c ∧ NamesModule c host name ∧
      FirstOf .rrdp c j.path ∧ j.rsync = moduleURI host name ∧ s.b.domain.get j.path = some (hostURI host) := by
  obtain ⟨s1, hs1, f⟩ := after_succ h
  obtain ⟨h1, h2⟩ := (f.rrdps j).mp ⟨o, hj⟩
  obtain ⟨i, hi, c, host, name, ⟨s', g1, g2, g3⟩, g4, g5, g6⟩ := (sourceInv S ticks fs file n s1 hs1).1.fetch _ _ h2
  exact ⟨h1, i, hi, s', c, host, name, g1, g2, g3, g5, g4, f.domain _ _ g6⟩

theorem domain_stays {S : Process.Setup} {ticks : Nat → Process.Tick} {s0 s s' : Process.St} {n : Nat} : ∀ {d : Nat},
    Process.after S ticks s0 n = .ok s → Process.after S ticks s0 (n + d) = .ok s' → ∀ u x, s.b.domain.get u = some x → s'.b.domain.get u = some x := by
  intro d
  induction d generalizing s' with
  | zero => intro h h'; rw [Nat.add_zero, h] at h'; cases h'; exact fun _ _ h => h
  | succ d ih =>
    intro h h' u x hx
    obtain ⟨s1, h1, f⟩ := after_succ (n := n + d) h'
    exact f.domain u x (ih h h1 u x hx)

theorem C101_rrdp_one_host (S : Process.Setup) (ticks : Nat → Process.Tick) (fs : FS) (file : Option Bytes) (n n' : Nat) (s s' : Process.St)
    (h : Process.after S ticks (.boot fs file) (n + 1) = .ok s) (h' : Process.after S ticks (.boot fs file) (n' + 1) = .ok s')
    (j j' : RrdpJob) (o o' : Option Bytes) (hj : (j, o) ∈ s.rrdps) (hj' : (j', o') ∈ s'.rrdps) (hp : j.path = j'.path) :
    ∃ host name name', (47 : UInt8) ∉ host ∧ j.rsync = moduleURI host name ∧ j'.rsync = moduleURI host name' := by
  have wlog' : ∀ {n n' : Nat} {s s' : Process.St} {j j' : RrdpJob} {o o' : Option Bytes}, n ≤ n' →
      Process.after S ticks (.boot fs file) (n + 1) = .ok s → Process.after S ticks (.boot fs file) (n' + 1) = .ok s' →
      (j, o) ∈ s.rrdps → (j', o') ∈ s'.rrdps → j.path = j'.path →
      ∃ host name name', (47 : UInt8) ∉ host ∧ j.rsync = moduleURI host name ∧ j'.rsync = moduleURI host name' := by
    intro n n' s s' j j' o o' hn h h' hj hj' hp
    obtain ⟨_, _, _, _, c, host, name, _, _, g3, _, g5, g6⟩ := C101_rrdp_only_named S ticks fs file n s h j o hj
    obtain ⟨_, _, _, _, c', host', name', _, _, _, _, g5', g6'⟩ := C101_rrdp_only_named S ticks fs file n' s' h' j' o' hj'
    obtain ⟨d, rfl⟩ := Nat.exists_eq_add_of_le hn
    have := domain_stays (d := d) h (by rw [← h']; congr 1; omega) _ _ g6
    rw [hp, g6'] at this
    simp only [Option.some.injEq, hostURI] at this
    have : host' = host := List.append_cancel_left (List.append_cancel_right this)
    subst this
    exact ⟨host', name, name', g3.1, g5, g5'⟩
  rcases Nat.le_total n n' with hn | hn
  · exact wlog' hn h h' hj hj' hp
  · obtain ⟨host, name, name', g1, g2, g3⟩ := wlog' hn h' h hj' hj hp.symm
    exact ⟨host, name', name, g1, g3, g2⟩

/-! ### Stability -/

theorem repos_stay {S : Process.Setup} {ticks : Nat → Process.Tick} {s0 s s' : Process.St} {n : Nat} : ∀ {d : Nat},
    Process.after S ticks s0 n = .ok s → Process.after S ticks s0 (n + d) = .ok s' → ∀ m ∈ s.b.repos, m ∈ s'.b.repos := by
  intro d
  induction d generalizing s' with
  | zero => intro h h'; rw [Nat.add_zero, h] at h'; cases h'; exact fun _ h => h
  | succ d ih =>
    intro h h' m hm
    obtain ⟨s1, h1, f⟩ := after_succ (n := n + d) h'
    exact f.repos m (ih h h1 m hm)

theorem repos_tried {S : Process.Setup} {ticks : Nat → Process.Tick} {fs : FS} {file : Option Bytes} : ∀ {n : Nat} {s : Process.St},
    Process.after S ticks (.boot fs file) n = .ok s → ∀ m ∈ s.b.repos, (s.b.jobs.get m).isSome = true ∨
      ∃ i ≤ n, ∃ s', Process.after S ticks (.boot fs file) i = .ok s' ∧ Tried s' m := by
  intro n
  induction n with
  | zero =>
    intro s h
    simp [Process.after] at h
    subst h
    simp [Process.St.boot, Bindings.empty]
  | succ n ih =>
    intro s h m hm
    obtain ⟨s1, h1, f⟩ := after_succ h
    rcases f.reposJobs m hm with h2 | h2
    · right
      rcases ih h1 m h2 with h3 | ⟨i, hi, h3⟩
      · refine ⟨n + 1, le_refl _, s, h, ?_⟩
        rcases f.tried m h3 with h4 | ⟨j, o, h4, h5, _⟩
        · exact .inl h4
        · exact .inr ⟨j, o, h4, h5⟩
      · exact ⟨i, by omega, h3⟩
    · exact .inl h2

/-- **C101, stable means fetched.** Let the loop, with the rounds of the program, be declared stable other than at the limit of iterations. Then every module
    that a certificate valid in the last round names (with an RRDP URL, if any, of that host) was tried by RRDP or rsync, in that
    round (before its validation) or an earlier one. -/
theorem C101_stable_tried (S : Process.Setup) (ticks : Nat → Process.Tick) (fs : FS) (file : Option Bytes) (cfg : Loop.Config) (l : Out.ROAList)
    (k : Nat) (r : Nat) (hr : (Loop.run cfg (found S ticks (.boot fs file)) l k).iterations = r)
    (hst : (Loop.run cfg (found S ticks (.boot fs file)) l k).stable = true)
    (hlim : ¬ LoopSpec.AtLimit (found S ticks (.boot fs file)) cfg.maxIterations.toNat (Loop.run cfg (found S ticks (.boot fs file)) l k))
    (s : Process.St) (hs : Process.after S ticks (.boot fs file) r = .ok s)
    (c : Pki.Cert) (host name : Bytes) (hc : ValidCA s c) (hn : NamesModule c host name) (hf : Fits s c host) :
    ∃ i ≤ r, ∃ s', Process.after S ticks (.boot fs file) i = .ok s' ∧ Tried s' (moduleURI host name) := by
  rcases C56_stable_sound cfg _ l k hst with hq | hl
  · rw [hr] at hq
    obtain ⟨r, rfl⟩ : ∃ q, r = q + 1 := ⟨r - 1, by have := hq.1; omega⟩
    obtain ⟨s1, h1, f⟩ := after_succ hs
    have hm := (f.taken c host name hc hn hf).2
    obtain ⟨j, hj, hk⟩ := hq.2 (moduleURI host name) (by
      simp only [Nat.add_sub_cancel, Process.found]; rw [hs]; exact hm)
    simp only [Nat.add_sub_cancel] at hj
    unfold Process.found at hk
    cases ha : Process.after S ticks (.boot fs file) (j + 1) with
    | ok s2 =>
      rw [ha] at hk
      have hm1 := repos_stay (d := r - (j + 1)) ha (by rw [← h1]; congr 1; omega) _ hk
      rcases repos_tried h1 _ hm1 with h3 | ⟨i, hi, h3⟩
      · refine ⟨r + 1, le_refl _, s, hs, ?_⟩
        rcases f.tried _ h3 with h4 | ⟨j, o, h4, h5, _⟩
        · exact .inl h4
        · exact .inr ⟨j, o, h4, h5⟩
      · exact ⟨i, by omega, h3⟩
    | err e => rw [ha] at hk; simp at hk
    | panic => rw [ha] at hk; simp at hk
    | diverge => rw [ha] at hk; simp at hk
  · exact absurd hl hlim

/-! ### What is published -/

/-- **C101, what is published.** In manifest mode each line of the list of a round is an entry of a ROA that was valid for one of the TALs,
    found by an exploration of the cache as the fetches of that round left it, at the time of the round (`Backed`: signature, chain of
    certificates up to the key of the TAL, prefix, manifest and hash; see C78). -/
theorem C101_line_backed_partial (S : Process.Setup) (hm : S.fl.useManifest = true)
    (hk : ∀ d c, S.env.parseCert d = .ok c → TalSpec.CertKey c.isRSA c.pubKey) (ticks : Nat → Process.Tick) (s0 s : Process.St) (n : Nat)
    (h : Process.after S ticks s0 (n + 1) = .ok s) (r : Out.ROAJson) (hr : r ∈ s.list.data) :
    ∃ (i : Nat) (run : TalRun) (m : M) (roa : Pki.ROA) (e : Roa.ROAEntry) (known : List Bytes), s.ms[i]? = some (run, m) ∧
      S.tals[i]? = some run.path ∧ run.world = Refresh.worldOf S.toSetup known (ticks n).now s.fs ∧
      Backed S.fl.strictHash run m roa e ∧ r = Out.exportEntry r.ta roa.asn e ∧
      (S.names.length = S.tals.length → S.names[i]? = some r.ta) ∧ (S.names.length ≠ S.tals.length → r.ta = run.path) := by
  obtain ⟨s1, h1, f⟩ := after_succ h
  have hlen : (s.ms.map (·.1)).length = S.tals.length := by rw [← f.runs]; simp
  have hkey : ∀ run ∈ s.ms.map (·.1), ∀ d c, run.world.env.parseCert d = .ok c → TalSpec.CertKey c.isRSA c.pubKey := by
    intro run hrun d c hd
    obtain ⟨x, hx, rfl⟩ := List.mem_map.mp hrun
    obtain ⟨known, hw⟩ := f.worlds x hx
    rw [hw] at hd
    exact hk d c hd
  obtain ⟨i, run, m, roa, e, g1, g2, g3, g4, g5, g6⟩ := C78_line_backed_partial S.fl hm S.names (ticks n).now _ hkey s.ms s.list f.validation r hr
  obtain ⟨known, hw⟩ := f.worlds (run, m) (List.mem_of_getElem? g2)
  rw [hlen] at g5 g6
  refine ⟨i, run, m, roa, e, known, g2, ?_, hw, g3, g4, g5, g6⟩
  rw [← f.runs]
  simp [g2]

/-- **C101, what is served.** Each line of a list that a client gets, whenever it asks, is a line of the list of some round (and so
    `C101_line_backed_partial` says what stands behind it). -/
theorem C101_served (S : Process.Setup) (ticks : Nat → Process.Tick) (s0 : Process.St) (cfg : Loop.Config) (l L : Out.ROAList) (hl : l.data = [])
    (i j k : Nat) (h : Loop.serveROAs cfg (Process.found S ticks s0) l i j k = some L) (r : Out.ROAJson) (hr : r ∈ L.data) :
    ∃ n s, n < (Loop.run cfg (Process.found S ticks s0) l k).iterations ∧ Process.after S ticks s0 (n + 1) = .ok s ∧ L = s.list := by
  have hL : (Loop.run cfg (Process.found S ticks s0) l k).list = L := by
    unfold Loop.serveROAs at h
    split at h
    · simp at h
    · simpa using h
  have hi := Loop.inv_run cfg (Process.found S ticks s0) l k
  cases hv : LoopSpec.validatedRounds (Loop.run cfg (Process.found S ticks s0) l k) with
  | zero =>
    rw [hi.list0 hv] at hL
    rw [← hL, hl] at hr
    simp at hr
  | succ n =>
    have h1 := hi.list1 n hv
    rw [hL] at h1
    have hn : n < (Loop.run cfg (Process.found S ticks s0) l k).iterations := by
      unfold LoopSpec.validatedRounds at hv
      split at hv <;> omega
    unfold Process.found at h1
    cases ha : Process.after S ticks s0 (n + 1) with
    | ok s => rw [ha] at h1; exact ⟨n, s, hn, ha, h1⟩
    | err e => rw [ha] at h1; rw [h1] at hr; simp at hr
    | panic => rw [ha] at h1; rw [h1] at hr; simp at hr
    | diverge => rw [ha] at h1; rw [h1] at hr; simp at hr

/-! ### An example

  The TAL at `/tal` names `https://h/a.cer`, where there is a certificate with 10.0.0.0/8 and the repository `rsync://h/r/`. There rsync finds a manifest
  and a ROA. The hash of a file is its data. -/

def taP : Pki.Cert := { taE with sia := [(.caRepository, tx "rsync://h/r/"), (.manifest, tx "rsync://h/r/0.mft")] }
def envP (ta : Pki.Cert) : Env := { envE with
  parseCert := fun d => if d = [4, 1, 1] then .ok ta else .err ""
  parseMft := fun d => if d = [4, 1, 10] then .ok (mkMft [10] [1] [(nX, [4, 1, 7])]) else .err ""
  parseROA := fun d => if d = [4, 1, 7] then envE.parseROA [7] else .err "" }
def setupP (ta : Pki.Cert) : Process.Setup :=
  ⟨⟨flE, true, envP ta, fun b => b, osFine, baseS, [tx "/tal"]⟩, [tx "T"], true, false, ⟨fun _ => [], fun _ => (none, false)⟩⟩
def toolP (fs : FS) (u : Bytes) (_ : Path.P) : FS :=
  if u = tx "rsync://h/r" then
    { fs with files := (Path.clean (tx "/cache/h/r/0.mft"), [4, 1, 10]) :: (Path.clean (tx "/cache/h/r/x.roa"), [4, 1, 7]) :: fs.files }
  else fs
def tickP : Process.Tick :=
  ⟨fun _ => ⟨fun _ _ => none, fun _ => none, fun _ => none⟩, fun _ => tx "timeout", id, fun _ => .refl _, false, .nothing,
    fun u => if u = tx "https://h/a.cer" then some [4, 1, 1] else none, fun _ => id, fun _ _ => .refl _, toolP, 50, 10⟩
def bootP : Process.St := .boot ⟨[], [(Path.clean (tx "/tal"), talR)]⟩ none

/-- What an observer sees after `n` rounds: the rsync fetches of the round, the RRDP fetches, the keys of valid objects, and the list. -/
def seenP (S : Process.Setup) (n : Nat) : List Bytes × List (Bytes × Bytes) × List Bytes × List (Bytes × Bytes) :=
  match Process.after S (fun _ => tickP) bootP n with
  | .ok s => (s.rsyncs, s.rrdps.map (fun x => (x.1.path, x.1.rsync)), s.ms.flatMap (fun x => keysOf x.2.v.validObjects),
      s.list.data.map (fun r => (r.prefixText, r.ta)))
  | _ => ([], [], [[0]], [])

example : seenP (setupP taP) 1 = ([], [], [], []) := by decide +kernel
example : seenP (setupP taP) 2 = ([], [], [[1]], []) := by decide +kernel
example : seenP (setupP taP) 3 = ([tx "rsync://h/r"], [], [[5], [10], [1]], [(tx "10.1.0.0/16", tx "T")]) := by decide +kernel

/-- A certificate that round `n` holds valid under the key [1], if any. -/
def certP (S : Process.Setup) (n : Nat) : Option Pki.Cert :=
  match Process.after S (fun _ => tickP) bootP n with
  | .ok s => s.ms.findSome? fun x => match (x.2.v.validObjects.get [1]).bind (fun i => x.2.v.heap[i]?) with
    | some r => if r.type = .cer then (match r.data with | .cert c => some c | _ => none) else none
    | none => none
  | _ => none

theorem certP_valid {S : Process.Setup} {n : Nat} {c : Pki.Cert} (h : certP S n = some c) :
    ∃ s, Process.after S (fun _ => tickP) bootP n = .ok s ∧ ValidCA s c := by
  unfold certP at h
  cases ha : Process.after S (fun _ => tickP) bootP n with
  | ok s =>
    rw [ha] at h
    obtain ⟨x, hx, h⟩ := List.exists_of_findSome?_eq_some h
    cases hr : (x.2.v.validObjects.get [1]).bind (fun i => x.2.v.heap[i]?) with
    | none => rw [hr] at h; simp at h
    | some r =>
      obtain ⟨i, h1, h2⟩ := Option.bind_eq_some_iff.mp hr
      rw [hr] at h
      simp only at h
      split at h
      · next ht =>
        split at h
        · next c' hc =>
          cases h
          exact ⟨s, rfl, x.1, x.2, [1], i, r, hx, h1, h2, ht, hc⟩
        · simp at h
      · simp at h
  | err e => rw [ha] at h; simp at h
  | panic => rw [ha] at h; simp at h
  | diverge => rw [ha] at h; simp at h

/-- A certificate with these access descriptions. -/
theorem names_example {c : Pki.Cert} {x : Bytes} {rest : List (SIAKind × Bytes)} (hx : (47 : UInt8) ∉ x)
    (h : c.sia = (.caRepository, tx "rsync://h/" ++ x ++ [47]) :: rest) (hr : ∀ e ∈ rest, e.1 ≠ .rrdp) :
    NamesModule c (tx "h") x ∧ ∀ s, Fits s c (tx "h") := by
  refine ⟨⟨by decide, hx, _, tx "rsync://", [47], ⟨[], rest, by simpa using h, by simp⟩, by decide +kernel, ?_, .inr rfl⟩, ?_⟩
  · have : tx "rsync://h/" = tx "rsync://" ++ tx "h" ++ [47] := by decide +kernel
    rw [this]; simp
  · rintro s u ⟨before, after, e, hb⟩
    exfalso
    rw [h] at e
    have : (SIAKind.rrdp, u) ∈ (SIAKind.caRepository, tx "rsync://h/" ++ x ++ [47]) :: rest := by rw [e]; simp
    rcases List.mem_cons.mp this with h1 | h1
    · cases h1
    · exact hr _ h1 rfl

/-- The hypotheses of the theorems above are met: the second round holds the trust anchor valid, it names the module `r` of `h`, and there is a
    third round. -/
example : ∃ s1 s2 c, Process.after (setupP taP) (fun _ => tickP) bootP 2 = .ok s1 ∧ Process.after (setupP taP) (fun _ => tickP) bootP 3 = .ok s2 ∧
    ValidCA s1 c ∧ NamesModule c (tx "h") (tx "r") ∧ Fits s1 c (tx "h") ∧ tx "rsync://h/r" = moduleURI (tx "h") (tx "r") ∧ tx "rsync://h/r" ∈ s2.rsyncs := by
  have h1 : (certP (setupP taP) 2).map (·.sia) = some taP.sia := by decide +kernel
  obtain ⟨c, hc, hs⟩ := Option.map_eq_some_iff.mp h1
  obtain ⟨s1, ha, hv⟩ := certP_valid hc
  obtain ⟨n1, n2⟩ := names_example (c := c) (x := tx "r") (rest := [(.manifest, tx "rsync://h/r/0.mft")]) (by decide +kernel) (by rw [hs]; decide +kernel) (by simp)
  have h3 : (seenP (setupP taP) 3).1 = [tx "rsync://h/r"] := by decide +kernel
  unfold seenP at h3
  cases hb : Process.after (setupP taP) (fun _ => tickP) bootP 3 with
  | ok s2 =>
    rw [hb] at h3
    simp only at h3
    exact ⟨s1, s2, c, ha, rfl, hv, n1, n2 _, by decide +kernel, by rw [h3]; simp⟩
  | err e => rw [hb] at h3; simp at h3
  | panic => rw [hb] at h3; simp at h3
  | diverge => rw [hb] at h3; simp at h3

/-- With these rounds the loop is declared stable in round 3, and serves the line. -/
example : (Loop.run LoopEx.server (Process.found (setupP taP) (fun _ => tickP) bootP) ⟨⟨0, 0, 0, [], []⟩, []⟩ 18).stable = true ∧
    (Loop.run LoopEx.server (Process.found (setupP taP) (fun _ => tickP) bootP) ⟨⟨0, 0, 0, [], []⟩, []⟩ 18).iterations = 3 := by
  decide +kernel

/-- Without HTTP, the second round asks rsync for the certificate of the trust anchor. -/
example : (match Process.after (setupP taP) (fun _ => { tickP with http := fun _ => none }) bootP 1 with
      | .ok s => decide (s.fs.read (RefreshSpec.anchorPath (setupP taP).toSetup talRv) = none) | _ => false) = true ∧
    (match Process.after (setupP taP) (fun _ => { tickP with http := fun _ => none }) bootP 2 with | .ok s => s.rsyncs | _ => []) =
      [talRv.getRsyncURI (setupP taP).env.sha1] := by decide +kernel

/-- With an RRDP URL in the certificate, each round asks its server first, and, as that fails, rsync. -/
def taRrdp : Pki.Cert := { taP with sia := taP.sia ++ [(.rrdp, tx "https://h/n.xml")] }
example : seenP (setupP taRrdp) 3 = ([tx "rsync://h/r"], [(tx "https://h/n.xml", tx "rsync://h/r")], [[5], [10], [1]], [(tx "10.1.0.0/16", tx "T")]) := by
  decide +kernel

/-- A certificate with two repositories; the manifest lies in the second. -/
def taTwo : Pki.Cert := { taP with sia := (.caRepository, tx "rsync://h/x/") :: taP.sia }

def untriedP (S : Process.Setup) (m : Bytes) (n : Nat) : Bool :=
  match Process.after S (fun _ => tickP) bootP n with
  | .ok s => decide (m ∉ s.rsyncs) && s.rrdps.all (fun x => decide (x.1.rsync ≠ m))
  | _ => true

/-- **C101 is violated for manifests outside of the first repository.** What is fetched is the module of the first repository that a certificate names.
    Here the certificate of the trust anchor names a second one and has its manifest there, where rsync would find it with its ROA (compare the example above).
    The loop is declared stable in round 3, not at the limit, and nobody was ever asked for the module of the manifest: the list is
    empty. -/
theorem C101_violated_manifest_module :
    ∃ s c, Process.after (setupP taTwo) (fun _ => tickP) bootP 3 = .ok s ∧ ValidCA s c ∧
      (.caRepository, moduleURI (tx "h") (tx "r") ++ [47]) ∈ c.sia ∧ (.manifest, moduleURI (tx "h") (tx "r") ++ tx "/0.mft") ∈ c.sia ∧
      (∀ i ≤ 3, ∀ s', Process.after (setupP taTwo) (fun _ => tickP) bootP i = .ok s' → ¬ Tried s' (moduleURI (tx "h") (tx "r"))) ∧
      s.list.data = [] ∧
      (Loop.run LoopEx.server (Process.found (setupP taTwo) (fun _ => tickP) bootP) ⟨⟨0, 0, 0, [], []⟩, []⟩ 18).stable = true ∧
      (Loop.run LoopEx.server (Process.found (setupP taTwo) (fun _ => tickP) bootP) ⟨⟨0, 0, 0, [], []⟩, []⟩ 18).iterations = 3 := by
  have h1 : (certP (setupP taTwo) 3).map (·.sia) = some taTwo.sia := by decide +kernel
  obtain ⟨c, hc, hs⟩ := Option.map_eq_some_iff.mp h1
  obtain ⟨s, ha, hv⟩ := certP_valid hc
  have h3 : seenP (setupP taTwo) 3 = ([tx "rsync://h/x"], [], [[1]], []) := by decide +kernel
  unfold seenP at h3
  rw [ha] at h3
  simp only [Prod.mk.injEq, List.map_eq_nil_iff] at h3
  refine ⟨s, c, ha, hv, by rw [hs]; decide +kernel, by rw [hs]; decide +kernel, ?_, h3.2.2.2, by decide +kernel, by decide +kernel⟩
  have hu : ∀ i ≤ 3, untriedP (setupP taTwo) (moduleURI (tx "h") (tx "r")) i = true := by decide +kernel
  intro i hi s' h' ht
  have := hu i hi
  unfold untriedP at this
  rw [h'] at this
  simp at this
  rcases ht with h | ⟨j, o, h, e⟩
  · exact this.1 h
  · exact this.2 j o h e

end Verif.Props
