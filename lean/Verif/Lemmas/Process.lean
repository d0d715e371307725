import Verif.Spec.Process
import Verif.Props.Fetch
import Verif.Props.Sync
import Verif.Props.EndToEnd
import Verif.Props.Refresh
/-
  Lemmas for the rounds of the whole program.
-/
set_option autoImplicit false

namespace Verif.Props
open Pki Manager EndToEnd Process ProcessSpec Fetch LocalSpec Cache Path
open Tal (rsyncScheme)

theorem firstSia_iff {kind : SIAKind} {c : Cert} {u : Bytes} : firstSia kind c = some u ↔ FirstOf kind c u := by
  unfold firstSia FirstOf
  induction c.sia with
  | nil => simp
  | cons e l ih =>
    obtain ⟨k, n⟩ := e
    rw [List.find?_cons]
    by_cases hk : k = kind
    · subst hk
      simp
      constructor
      · rintro rfl; exact ⟨[], ⟨l, rfl⟩, by simp⟩
      · rintro ⟨b, ⟨a, h1⟩, h2⟩
        cases b with
        | nil => simp at h1; exact h1.1
        | cons x b => simp at h1; exact absurd (by rw [← h1.1]) (h2 x.1 x.2 (by simp))
    · simp [hk] at ih ⊢
      rw [ih]
      constructor
      · rintro ⟨b, ⟨a, h1⟩, h2⟩
        exact ⟨(k, n) :: b, ⟨a, by simp [h1]⟩, by
          intro a' b' h
          rcases List.mem_cons.mp h with h | h
          · cases h; exact hk
          · exact h2 _ _ h⟩
      · rintro ⟨b, ⟨a, h1⟩, h2⟩
        cases b with
        | nil => simp at h1; exact absurd h1.1.1 hk
        | cons x b =>
          simp at h1
          exact ⟨b, ⟨a, h1.2⟩, fun a' b' h => h2 a' b' (by simp [h])⟩

theorem extract_drop {url : Bytes} (h : 8 ≤ url.length) : extractDomainModule url = extractDomainModule (rsyncScheme ++ url.drop 8) := by
  unfold extractDomainModule
  have : (rsyncScheme ++ url.drop 8).drop 8 = url.drop 8 := by simp [rsyncScheme, asc]
  rw [this]
  have h2 : (rsyncScheme ++ url.drop 8).length = url.length := by simp [rsyncScheme, asc]; omega
  rw [h2]

theorem extract_any {url m d : Bytes} : extractDomainModule url = .ok (m, d) ↔
    ∃ host name, (47 : UInt8) ∉ host ∧ (47 : UInt8) ∉ name ∧ m = moduleURI host name ∧ d = hostURI host ∧
      ∃ scheme rest, scheme.length = 8 ∧ url = scheme ++ host ++ 47 :: name ++ rest ∧ (rest = [] ∨ rest.head? = some 47) := by
  constructor
  · intro h
    have hl : 8 ≤ url.length := by
      unfold extractDomainModule at h
      split at h
      · omega
      · simp at h
    rw [extract_drop hl] at h
    obtain ⟨host, name, rest, h1, h2, h3, h4, h5, h6⟩ := (C65_module_partial _ m d ⟨_, rfl⟩).mp h
    refine ⟨host, name, h1, h2, h5, h6, url.take 8, rest, by simp; omega, ?_, h3⟩
    have h4' : url.drop 8 = host ++ 47 :: name ++ rest := by
      simp only [List.append_assoc] at h4
      simpa using List.append_cancel_left h4
    conv => lhs; rw [← List.take_append_drop 8 url, h4']
    simp
  · rintro ⟨host, name, h1, h2, rfl, rfl, scheme, rest, h3, rfl, h5⟩
    have hl : 8 ≤ (scheme ++ host ++ 47 :: name ++ rest).length := by simp; omega
    rw [extract_drop hl]
    refine (C65_module_partial _ _ _ ⟨_, rfl⟩).mpr ⟨host, name, rest, h1, h2, h5, ?_, rfl, rfl⟩
    have : (scheme ++ host ++ 47 :: name ++ rest).drop 8 = host ++ 47 :: name ++ rest := by
      rw [List.append_assoc, List.append_assoc, List.drop_append, h3]
      simp [h3]
    rw [this]
    simp

theorem moduleURI_inj {host name host' name' : Bytes} (h1 : (47 : UInt8) ∉ host) (h2 : (47 : UInt8) ∉ host')
    (h : moduleURI host name = moduleURI host' name') : host = host' ∧ name = name' := by
  unfold moduleURI at h
  simp only [List.append_assoc] at h
  replace h := List.append_cancel_left h
  induction host generalizing host' with
  | nil =>
    cases host' with
    | nil => simpa using h
    | cons b l => simp at h; exact absurd h.1 (by intro e; exact h2 (by simp [← e]))
  | cons a l ih =>
    cases host' with
    | nil => simp at h; exact absurd h.1 (by intro e; exact h1 (by simp [e]))
    | cons b l' =>
      simp at h
      obtain ⟨rfl, h⟩ := h
      simp at h1 h2
      obtain ⟨rfl, e⟩ := ih (by simpa using h1.2) (by simpa using h2.2) h
      exact ⟨rfl, e⟩

theorem names_iff {c : Cert} {m d : Bytes} : extractDomainModule (certNames c).rsync = .ok (m, d) ↔
    ∃ host name, m = moduleURI host name ∧ d = hostURI host ∧ NamesModule c host name := by
  unfold certNames
  cases hf : firstSia .caRepository c with
  | none =>
    simp only [Option.getD_none]
    constructor
    · intro h; simp [extractDomainModule] at h
    · rintro ⟨host, name, _, _, _, _, url, scheme, rest, h, _⟩
      rw [firstSia_iff.mpr h] at hf
      simp at hf
  | some url =>
    simp only [Option.getD_some]
    rw [extract_any]
    constructor
    · rintro ⟨host, name, h1, h2, h3, h4, scheme, rest, h5, h6, h7⟩
      exact ⟨host, name, h3, h4, h1, h2, url, scheme, rest, firstSia_iff.mp hf, h5, h6, h7⟩
    · rintro ⟨host, name, h3, h4, h1, h2, url', scheme, rest, h, h5, h6, h7⟩
      rw [firstSia_iff.mpr h] at hf
      cases hf
      exact ⟨host, name, h1, h2, h3, h4, scheme, rest, h5, h6, h7⟩

/-! ### Bindings -/

/-- What certificates leave of the maps: nothing is lost. -/
structure Grows (b b' : Bindings) : Prop where
  domain : ∀ u d, b.domain.get u = some d → b'.domain.get u = some d
  jobs : ∀ m, (b.jobs.get m).isSome = true → (b'.jobs.get m).isSome = true
  repos : ∀ m, m ∈ b.repos → m ∈ b'.repos
  both : ∀ m, m ∈ b'.repos → m ∈ b.repos ∨ (b'.jobs.get m).isSome = true

theorem Grows.rfl' (b : Bindings) : Grows b b := ⟨fun _ _ h => h, fun _ h => h, fun _ h => h, fun _ h => .inl h⟩

theorem Grows.trans {a b c : Bindings} (h : Grows a b) (h' : Grows b c) : Grows a c :=
  ⟨fun u d x => h'.domain u d (h.domain u d x), fun m x => h'.jobs m (h.jobs m x), fun m x => h'.repos m (h.repos m x),
    fun m x => (h'.both m x).elim (fun x => (h.both m x).imp_right (h'.jobs m)) .inr⟩

/-- What one certificate adds, if anything. -/
theorem bindCert_cases (b : Bindings) (c : CertNames) : bindCert b c = b ∨
    ∃ m d, extractDomainModule c.rsync = .ok (m, d) ∧ (∀ u, c.rrdp = some u → b.domain.get u = none ∨ b.domain.get u = some d) ∧
      (bindCert b c).jobs = b.jobs.set m (c.rrdp.getD []) ∧ (bindCert b c).repos = m :: b.repos ∧
      (∀ u, c.rrdp = some u → (bindCert b c).fetch = b.fetch.set u m) ∧ (c.rrdp = none → (bindCert b c).fetch = b.fetch) := by
  unfold bindCert
  cases he : extractDomainModule c.rsync with
  | err e => exact .inl rfl
  | panic => exact .inl rfl
  | diverge => exact .inl rfl
  | ok md =>
    obtain ⟨m, d⟩ := md
    simp only
    unfold bindRrdp
    cases hc : c.rrdp with
    | none => right; exact ⟨m, d, rfl, by simp, rfl, rfl, by simp, fun _ => rfl⟩
    | some u =>
      simp only
      cases hd : b.domain.get u with
      | none => right; refine ⟨m, d, rfl, ?_, rfl, rfl, ?_, by simp⟩
                · rintro u' h; cases h; exact .inl hd
                · rintro u' h; cases h; rfl
      | some d' =>
        simp only
        by_cases hdd : d' ≠ d
        · rw [if_pos hdd]; exact .inl rfl
        · rw [if_neg hdd]
          rw [ne_eq, not_not] at hdd
          subst hdd
          right; refine ⟨m, d', rfl, ?_, rfl, rfl, ?_, by simp⟩
          · rintro u' h; cases h; exact .inr hd
          · rintro u' h; cases h; rfl

theorem grows_bindCert (b : Bindings) (c : CertNames) : Grows b (bindCert b c) := by
  refine ⟨?_, ?_, ?_, ?_⟩
  · intro u d h; rw [bindCert_domain, h]
  · intro m h
    rcases bindCert_cases b c with e | ⟨m', d, _, _, e, _⟩
    · rw [e]; exact h
    · rw [e, Map.get_set]; split
      · rfl
      · exact h
  · intro m h
    rcases bindCert_cases b c with e | ⟨m', d, _, _, _, e, _⟩
    · rw [e]; exact h
    · rw [e]; simp [h]
  · intro m h
    rcases bindCert_cases b c with e | ⟨m', d, _, _, e1, e, _⟩
    · rw [e] at h; exact .inl h
    · rw [e] at h
      rcases List.mem_cons.mp h with rfl | h
      · right; rw [e1, Map.get_set, if_pos rfl]; rfl
      · exact .inl h

theorem grows_bindAll (cs : List CertNames) : ∀ (b : Bindings), Grows b (bindAll b cs) := by
  induction cs with
  | nil => intro b; exact .rfl' b
  | cons c cs ih => intro b; exact (grows_bindCert b c).trans (ih (bindCert b c))

/-- A certificate whose RRDP URL belongs to its host at the end was taken. -/
theorem bindAll_takes {cs : List CertNames} {c : CertNames} (hc : c ∈ cs) {m d : Bytes} (hm : extractDomainModule c.rsync = .ok (m, d)) :
    ∀ (b : Bindings), (∀ u, c.rrdp = some u → (bindAll b cs).domain.get u = some d) →
      ((bindAll b cs).jobs.get m).isSome = true ∧ m ∈ (bindAll b cs).repos := by
  induction cs with
  | nil => simp at hc
  | cons x cs ih =>
    intro b h
    have e : bindAll b (x :: cs) = bindAll (bindCert b x) cs := rfl
    rw [e] at h ⊢
    rcases List.mem_cons.mp hc with rfl | hc
    · have g := grows_bindAll cs (bindCert b c)
      have hs := C64_certificate_scheduled b c m d hm (by
        intro u hu
        cases hb : b.domain.get u with
        | none => exact .inl rfl
        | some d' =>
          right
          have h1 := g.domain u d' (by rw [bindCert_domain, hb])
          rw [h u hu] at h1
          exact h1.symm ▸ rfl)
      exact ⟨g.jobs m (by rw [hs.1]; rfl), g.repos m hs.2.1⟩
    · exact ih hc _ h

/-- Where the entries of the maps come from. -/
theorem bindAll_from (cs : List CertNames) : ∀ (b : Bindings),
    (∀ m, ((bindAll b cs).jobs.get m).isSome = true → (b.jobs.get m).isSome = true ∨ ∃ c ∈ cs, ∃ d, extractDomainModule c.rsync = .ok (m, d)) ∧
    (∀ m ∈ (bindAll b cs).repos, m ∈ b.repos ∨ ∃ c ∈ cs, ∃ d, extractDomainModule c.rsync = .ok (m, d)) ∧
    (∀ u m, (bindAll b cs).fetch.get u = some m → b.fetch.get u = some m ∨
      ∃ c ∈ cs, ∃ d, c.rrdp = some u ∧ extractDomainModule c.rsync = .ok (m, d) ∧ (bindAll b cs).domain.get u = some d) := by
  induction cs with
  | nil => intro b; exact ⟨fun _ h => .inl h, fun _ h => .inl h, fun _ _ h => .inl h⟩
  | cons x cs ih =>
    intro b
    have e : bindAll b (x :: cs) = bindAll (bindCert b x) cs := rfl
    rw [e]
    obtain ⟨i1, i2, i3⟩ := ih (bindCert b x)
    have hg := grows_bindAll cs (bindCert b x)
    refine ⟨?_, ?_, ?_⟩
    · intro m h
      rcases i1 m h with h | ⟨c, hc, h⟩
      · rcases bindCert_cases b x with e | ⟨m', d, he, _, e, _⟩
        · rw [e] at h; exact .inl h
        · rw [e, Map.get_set] at h
          by_cases hm : m = m'
          · subst hm; exact .inr ⟨x, by simp, d, he⟩
          · rw [if_neg hm] at h; exact .inl h
      · exact .inr ⟨c, by simp [hc], h⟩
    · intro m h
      rcases i2 m h with h | ⟨c, hc, h⟩
      · rcases bindCert_cases b x with e | ⟨m', d, he, _, _, e, _⟩
        · rw [e] at h; exact .inl h
        · rw [e] at h
          rcases List.mem_cons.mp h with rfl | h
          · exact .inr ⟨x, by simp, d, he⟩
          · exact .inl h
      · exact .inr ⟨c, by simp [hc], h⟩
    · intro u m h
      rcases i3 u m h with h | ⟨c, hc, h⟩
      · rcases bindCert_cases b x with e | ⟨m', d, he, hd, _, _, e1, e2⟩
        · rw [e] at h; exact .inl h
        · cases hr : x.rrdp with
          | none => rw [e2 hr] at h; exact .inl h
          | some u' =>
            rw [e1 u' hr, Map.get_set] at h
            by_cases hu : u = u'
            · subst hu
              simp at h
              subst h
              refine .inr ⟨x, by simp, d, hr, he, hg.domain u d ?_⟩
              rw [bindCert_domain]
              rcases hd u hr with h | h <;> simp [h, he, hr]
            · rw [if_neg hu] at h; exact .inl h
      · exact .inr ⟨c, by simp [hc], h⟩

/-! ### The parts of a round -/

theorem rrdpPhase_spec {S : Setup} {k : Tick} {domain : Map Bytes} : ∀ {js : List RrdpJob} {fs fs' : FS} {mem mem' : Option Info}
    {jobs jobs' : Map Bytes} {l : List (RrdpJob × Option Bytes)},
    rrdpPhase S k domain js fs mem jobs = .ok (fs', mem', jobs', l) → l.map (·.1) = js ∧
      ∀ m, jobs'.get m = if ∃ x ∈ l, x.1.rsync = m ∧ removes S.failover x.2 = true then none else jobs.get m := by
  intro js
  induction js with
  | nil =>
    intro fs fs' mem mem' jobs jobs' l h
    simp [rrdpPhase] at h
    obtain ⟨_, _, rfl, rfl⟩ := h
    simp
  | cons j js ih =>
    intro fs fs' mem mem' jobs jobs' l h
    unfold rrdpPhase at h
    obtain ⟨x, _, h⟩ := Go.bind_eq_ok.mp h
    obtain ⟨y, hy, h⟩ := Go.bind_eq_ok.mp h
    obtain ⟨y1, y2, y3, y4⟩ := y
    simp only [Go.pure_def, Go.ok.injEq, Prod.mk.injEq] at h
    obtain ⟨_, _, rfl, rfl⟩ := h
    obtain ⟨h1, h2⟩ := ih hy
    refine ⟨by simp [h1], fun m => ?_⟩
    rw [h2 m]
    generalize (if x.2.2 = true then none else some (k.why j)) = o
    by_cases hex : ∃ x ∈ y4, x.1.rsync = m ∧ removes S.failover x.2 = true
    · rw [if_pos hex, if_pos]
      obtain ⟨x, hx, h⟩ := hex
      exact ⟨x, by simp [hx], h⟩
    · rw [if_neg hex]
      by_cases hj : j.rsync = m ∧ removes S.failover o = true
      · have h3 : ∃ x ∈ (j, o) :: y4, x.1.rsync = m ∧ removes S.failover x.2 = true := ⟨(j, o), by simp, hj⟩
        rw [if_pos h3, if_pos hj.2, Map.get_del, if_pos hj.1.symm]
      · rw [if_neg (show ¬ ∃ x ∈ (j, o) :: y4, x.1.rsync = m ∧ removes S.failover x.2 = true by
          rintro ⟨x, hx, h⟩
          rcases List.mem_cons.mp hx with rfl | hx
          · exact hj h
          · exact hex ⟨x, hx, h⟩)]
        by_cases hr : removes S.failover o = true
        · rw [if_pos hr, Map.get_del, if_neg]
          intro e
          exact hj ⟨e.symm, hr⟩
        · rw [if_neg hr]

theorem mem_rrdpJobs {fetch : Map Bytes} {j : RrdpJob} : j ∈ rrdpJobs fetch ↔ fetch.get j.path = some j.rsync := by
  unfold rrdpJobs
  rw [List.mem_filterMap]
  constructor
  · rintro ⟨u, _, h⟩
    cases hf : fetch.get u with
    | none => rw [hf] at h; simp at h
    | some m => rw [hf] at h; simp at h; subst h; exact hf
  · intro h
    exact ⟨j.path, mem_keysOf.mpr (by rw [h]; rfl), by rw [h]; rfl⟩

theorem doRRDP_spec {S : Setup} {k : Tick} {s : St} {x : FS × Option Info × Option Bytes × Map Bytes × List (RrdpJob × Option Bytes)}
    (h : doRRDP S k s = .ok x) :
    (∀ m, x.2.2.2.1.get m = if ∃ y ∈ x.2.2.2.2, y.1.rsync = m ∧ removes S.failover y.2 = true then none else s.b.jobs.get m) ∧
    (∀ j, (∃ o, (j, o) ∈ x.2.2.2.2) ↔ S.rrdpOn = true ∧ s.b.fetch.get j.path = some j.rsync) := by
  unfold doRRDP at h
  split at h
  · next hon =>
    obtain ⟨y, hy, h⟩ := Go.bind_eq_ok.mp h
    simp only [Go.pure_def, Go.ok.injEq] at h
    subst h
    obtain ⟨h1, h2⟩ := rrdpPhase_spec (jobs' := y.2.2.1) (l := y.2.2.2) hy
    refine ⟨h2, fun j => ?_⟩
    rw [← mem_rrdpJobs, ← (k.endedPerm (rrdpJobs s.b.fetch)).mem_iff, ← h1]
    simp [hon]
  · next hoff =>
    simp at h
    subst h
    exact ⟨by simp, by simp at hoff; simp [hoff]⟩

theorem namesOf_spec {v : V} : ∀ {ks : List Bytes} {l : List CertNames}, namesOf v ks = .ok l →
    (∀ key ∈ ks, ∀ i r c, v.validObjects.get key = some i → v.heap[i]? = some r → r.type = .cer → r.data = .cert c → certNames c ∈ l) ∧
    (∀ x ∈ l, ∃ key i r c, v.validObjects.get key = some i ∧ v.heap[i]? = some r ∧ r.type = .cer ∧ r.data = .cert c ∧ x = certNames c) := by
  intro ks
  induction ks with
  | nil => intro l h; simp [namesOf] at h; subst h; simp
  | cons key ks ih =>
    intro l h
    unfold namesOf at h
    cases hg : (v.validObjects.get key).bind (fun i => v.heap[i]?) with
    | none => rw [hg] at h; simp at h
    | some r =>
      rw [hg] at h
      simp only at h
      obtain ⟨i, hi, hr⟩ := Option.bind_eq_some_iff.mp hg
      split at h
      · next ht =>
        split at h
        · next c hc =>
          obtain ⟨l', hl, h⟩ := Go.bind_eq_ok.mp h
          simp at h
          subst h
          obtain ⟨h1, h2⟩ := ih hl
          refine ⟨?_, ?_⟩
          · intro key' hk i' r' c' g1 g2 g3 g4
            rcases List.mem_cons.mp hk with rfl | hk
            · rw [hi] at g1; cases g1
              rw [hr] at g2; cases g2
              rw [hc] at g4; cases g4
              simp
            · exact List.mem_cons_of_mem _ (h1 key' hk i' r' c' g1 g2 g3 g4)
          · intro x hx
            rcases List.mem_cons.mp hx with rfl | hx
            · exact ⟨key, i, r, c, hi, hr, ht, hc, rfl⟩
            · exact h2 x hx
        · simp at h
      · next ht =>
        obtain ⟨h1, h2⟩ := ih h
        refine ⟨?_, h2⟩
        intro key' hk i' r' c' g1 g2 g3 g4
        rcases List.mem_cons.mp hk with rfl | hk
        · rw [hi] at g1; cases g1
          rw [hr] at g2; cases g2
          exact absurd g3 ht
        · exact h1 key' hk i' r' c' g1 g2 g3 g4

theorem collect_from {m : M} : ∀ {ks : List Bytes} {acc acc' : Map Tal.RPKITAL}, Refresh.collectKeys m ks acc = .ok acc' →
    ∀ p t, acc'.get p = some t → acc.get p = some t ∨ ∃ key i r, m.v.tals.get key = some i ∧ m.v.heap[i]? = some r ∧ r.data = .tal t := by
  intro ks
  induction ks with
  | nil => intro acc acc' h p t hp; simp [Refresh.collectKeys] at h; subst h; exact .inl hp
  | cons key ks ih =>
    intro acc acc' h p t hp
    unfold Refresh.collectKeys at h
    cases hg : (m.v.tals.get key).bind (fun i => m.v.heap[i]?) with
    | none => rw [hg] at h; simp at h
    | some r =>
      rw [hg] at h
      simp only at h
      obtain ⟨i, hi, hr⟩ := Option.bind_eq_some_iff.mp hg
      split at h
      · next t0 ht0 =>
        split at h
        · exact ih h p t hp
        · split at h
          · simp at h
          · rcases ih h p t hp with g | g
            · rw [Map.get_set] at g
              split at g
              · cases g; exact .inr ⟨key, i, r, hi, hr, ht0⟩
              · exact .inl g
            · exact .inr g
      · simp at h

/-- The certificates that the explorations hold valid. -/
def ValidIn (ms : List (TalRun × M)) (c : Cert) : Prop :=
  ∃ run m key i r, (run, m) ∈ ms ∧ m.v.validObjects.get key = some i ∧ m.v.heap[i]? = some r ∧ r.type = .cer ∧ r.data = .cert c

theorem ValidIn.cons {x : TalRun × M} {ms : List (TalRun × M)} {c : Cert} (h : ValidIn ms c) : ValidIn (x :: ms) c := by
  obtain ⟨run, m, key, i, r, h1, h2⟩ := h
  exact ⟨run, m, key, i, r, by simp [h1], h2⟩

theorem talLoop_spec {S : Setup} {k : Tick} {fs : FS} {handed : Bool} : ∀ {tals : List Bytes} {i : Nat} {acc acc' : Map Tal.RPKITAL}
    {b b' : Bindings} {ms : List (TalRun × M)}, talLoop S k fs handed i tals acc b = .ok (ms, acc', b') →
    Grows b b' ∧
    (∀ c host name, ValidIn ms c → NamesModule c host name → (∀ u, FirstOf .rrdp c u → b'.domain.get u = some (hostURI host)) →
      (b'.jobs.get (moduleURI host name)).isSome = true ∧ moduleURI host name ∈ b'.repos) ∧
    (∀ m, (b'.jobs.get m).isSome = true → (b.jobs.get m).isSome = true ∨
      ∃ c host name, ValidIn ms c ∧ NamesModule c host name ∧ m = moduleURI host name) ∧
    (∀ m ∈ b'.repos, m ∈ b.repos ∨ ∃ c host name, ValidIn ms c ∧ NamesModule c host name ∧ m = moduleURI host name) ∧
    (∀ u m, b'.fetch.get u = some m → b.fetch.get u = some m ∨
      ∃ c host name, ValidIn ms c ∧ NamesModule c host name ∧ m = moduleURI host name ∧ FirstOf .rrdp c u ∧ b'.domain.get u = some (hostURI host)) ∧
    (∀ p t, acc'.get p = some t → acc.get p = some t ∨ ∃ run m key i r, (run, m) ∈ ms ∧ m.v.tals.get key = some i ∧ m.v.heap[i]? = some r ∧
      r.data = .tal t) ∧
    exploreTals S.fl (ms.map (·.1)) = .ok ms := by
  intro tals
  induction tals with
  | nil =>
    intro i acc acc' b b' ms h
    simp [talLoop] at h
    obtain ⟨rfl, rfl, rfl⟩ := h
    refine ⟨.rfl' _, ?_, fun _ h => .inl h, fun _ h => .inl h, fun _ _ h => .inl h, fun _ _ h => .inl h, rfl⟩
    rintro c host name ⟨run, m, _, _, _, h, _⟩
    simp at h
  | cons path tals ih =>
    intro i acc acc' b b' ms h
    unfold talLoop at h
    obtain ⟨m, hm, h⟩ := Go.bind_eq_ok.mp h
    obtain ⟨acc1, ha, h⟩ := Go.bind_eq_ok.mp h
    obtain ⟨names, hn, h⟩ := Go.bind_eq_ok.mp h
    obtain ⟨⟨y1, y2, y3⟩, hy, h⟩ := Go.bind_eq_ok.mp h
    simp only [Go.pure_def, Go.ok.injEq, Prod.mk.injEq] at h
    obtain ⟨rfl, rfl, rfl⟩ := h
    obtain ⟨i1, i2, i3, i4, i5, i6, i7⟩ := ih hy
    obtain ⟨n1, n2⟩ := namesOf_spec hn
    obtain ⟨f1, f2, f3⟩ := bindAll_from names b
    have hg := grows_bindAll names b
    have src : ∀ x ∈ names, ∃ c, ValidIn ((talRun S k fs (if handed = true then b.repos else []) i path, m) :: y1) c ∧ x = certNames c := by
      intro x hx
      obtain ⟨key, j, r, c, g1, g2, g3, g4, g5⟩ := n2 x hx
      exact ⟨c, ⟨_, m, key, j, r, List.mem_cons_self, g1, g2, g3, g4⟩, g5⟩
    have named : ∀ mo, (∃ x ∈ names, ∃ d, extractDomainModule x.rsync = .ok (mo, d)) → ∃ c host name,
        ValidIn ((talRun S k fs (if handed = true then b.repos else []) i path, m) :: y1) c ∧ NamesModule c host name ∧ mo = moduleURI host name := by
      rintro mo ⟨x, hx, d, he⟩
      obtain ⟨c, hc, rfl⟩ := src x hx
      obtain ⟨host, name, e1, _, e3⟩ := names_iff.mp he
      exact ⟨c, host, name, hc, e3, e1⟩
    refine ⟨hg.trans i1, ?_, ?_, ?_, ?_, ?_, ?_⟩
    · rintro c host name ⟨run, m', key, j, r, g1, g2, g3, g4, g5⟩ hnm hfit
      rcases List.mem_cons.mp g1 with e | g1
      · cases e
        have hc := n1 key ((k.perm _ _).mem_iff.mpr (mem_keysOf.mpr (by rw [g2]; rfl))) j r c g2 g3 g4 g5
        have he := names_iff.mpr ⟨host, name, rfl, rfl, hnm⟩
        have hfit' : ∀ u, (certNames c).rrdp = some u → (bindAll b names).domain.get u = some (hostURI host) := by
          intro u hu
          have h1 := hfit u (firstSia_iff.mp hu)
          obtain ⟨x, y, hxy⟩ := List.append_of_mem hc
          have : ∃ d, (bindAll b names).domain.get u = some d := by
            rw [hxy]
            have e : bindAll b (x ++ certNames c :: y) = bindAll (bindCert (bindAll b x) (certNames c)) y := by
              simp [bindAll, List.foldl_append]
            rw [e]
            have : ∃ d, (bindCert (bindAll b x) (certNames c)).domain.get u = some d := by
              rw [bindCert_domain]
              cases (bindAll b x).domain.get u with
              | some d => exact ⟨d, rfl⟩
              | none => simp [he, hu]
            obtain ⟨d, hd⟩ := this
            exact ⟨d, (grows_bindAll y _).domain u d hd⟩
          obtain ⟨d, hd⟩ := this
          have h2 := i1.domain u d hd
          rw [h1] at h2
          rw [hd, ← h2]
        obtain ⟨t1, t2⟩ := bindAll_takes hc he b hfit'
        exact ⟨i1.jobs _ t1, i1.repos _ t2⟩
      · exact i2 c host name ⟨run, m', key, j, r, g1, g2, g3, g4, g5⟩ hnm hfit
    · intro mo h
      rcases i3 mo h with h | ⟨c, host, name, h1, h2⟩
      · rcases f1 mo h with h | h
        · exact .inl h
        · exact .inr (named mo h)
      · exact .inr ⟨c, host, name, h1.cons, h2⟩
    · intro mo h
      rcases i4 mo h with h | ⟨c, host, name, h1, h2⟩
      · rcases f2 mo h with h | h
        · exact .inl h
        · exact .inr (named mo h)
      · exact .inr ⟨c, host, name, h1.cons, h2⟩
    · intro u mo h
      rcases i5 u mo h with h | ⟨c, host, name, h1, h2⟩
      · rcases f3 u mo h with h | ⟨x, hx, d, e1, e2, e3⟩
        · exact .inl h
        · obtain ⟨c, hc, rfl⟩ := src x hx
          obtain ⟨host, name, e4, rfl, e5⟩ := names_iff.mp e2
          exact .inr ⟨c, host, name, hc, e5, e4, firstSia_iff.mp e1, i1.domain u _ e3⟩
      · exact .inr ⟨c, host, name, h1.cons, h2⟩
    · intro p t h
      rcases i6 p t h with h | ⟨run, m', key, j, r, h1, h2⟩
      · rcases collect_from ha p t h with h | ⟨key, j, r, h1⟩
        · exact .inl h
        · exact .inr ⟨_, m, key, j, r, List.mem_cons_self, h1⟩
      · exact .inr ⟨run, m', key, j, r, by simp [h1], h2⟩
    · simp only [List.map_cons]
      unfold exploreTals
      rw [hm, i7]
      rfl

theorem exploreTal_reread {fl : Flags} {r : TalRun} {f : PKIFile → Manager.Fetch} : exploreTal fl { r with reread := f } = exploreTal fl r := rfl

theorem exploreTals_reread {S : Setup} {fs : FS} {known : List Bytes} {fl : Flags} : ∀ {ms : List (TalRun × M)},
    exploreTals fl (ms.map (·.1)) = .ok ms →
    exploreTals fl ((withReread S fs known ms).map (·.1)) = .ok (withReread S fs known ms) := by
  intro ms
  induction ms with
  | nil => intro _; rfl
  | cons x ms ih =>
    intro h
    obtain ⟨r, m⟩ := x
    simp only [List.map_cons] at h
    unfold exploreTals at h
    obtain ⟨m', hm, h⟩ := Go.bind_eq_ok.mp h
    obtain ⟨l, hl, h⟩ := Go.bind_eq_ok.mp h
    simp at h
    obtain ⟨rfl, rfl⟩ := h
    have := ih hl
    simp only [withReread, List.map_cons] at this ⊢
    unfold exploreTals
    rw [exploreTal_reread, hm]
    simp only [Go.ok_bind]
    rw [this]
    rfl

theorem talLoop_runs {S : Setup} {k : Tick} {fs : FS} {handed : Bool} : ∀ {tals : List Bytes} {i : Nat} {acc acc' : Map Tal.RPKITAL}
    {b b' : Bindings} {ms : List (TalRun × M)}, talLoop S k fs handed i tals acc b = .ok (ms, acc', b') →
    ms.map (·.1.path) = tals ∧ ∀ x ∈ ms, ∃ known, x.1.world = Refresh.worldOf S.toSetup known k.now fs := by
  intro tals
  induction tals with
  | nil => intro i acc acc' b b' ms h; simp [talLoop] at h; obtain ⟨rfl, _⟩ := h; simp
  | cons path tals ih =>
    intro i acc acc' b b' ms h
    unfold talLoop at h
    obtain ⟨m, hm, h⟩ := Go.bind_eq_ok.mp h
    obtain ⟨acc1, ha, h⟩ := Go.bind_eq_ok.mp h
    obtain ⟨names, hn, h⟩ := Go.bind_eq_ok.mp h
    obtain ⟨⟨y1, y2, y3⟩, hy, h⟩ := Go.bind_eq_ok.mp h
    simp only [Go.pure_def, Go.ok.injEq, Prod.mk.injEq] at h
    obtain ⟨rfl, rfl, rfl⟩ := h
    obtain ⟨h1, h2⟩ := ih hy
    refine ⟨by simp [h1, talRun], ?_⟩
    intro x hx
    rcases List.mem_cons.mp hx with rfl | hx
    · exact ⟨_, rfl⟩
    · exact h2 x hx

theorem talLoop_collect {S : Setup} {k : Tick} {fs : FS} {handed : Bool} : ∀ {tals : List Bytes} {i : Nat} {acc acc' : Map Tal.RPKITAL}
    {b b' : Bindings} {ms : List (TalRun × M)}, talLoop S k fs handed i tals acc b = .ok (ms, acc', b') →
    Refresh.collectAll (ms.map (·.2)) acc = .ok acc' := by
  intro tals
  induction tals with
  | nil => intro i acc acc' b b' ms h; simp [talLoop] at h; obtain ⟨rfl, rfl, _⟩ := h; rfl
  | cons path tals ih =>
    intro i acc acc' b b' ms h
    unfold talLoop at h
    obtain ⟨m, hm, h⟩ := Go.bind_eq_ok.mp h
    obtain ⟨acc1, ha, h⟩ := Go.bind_eq_ok.mp h
    obtain ⟨names, hn, h⟩ := Go.bind_eq_ok.mp h
    obtain ⟨⟨y1, y2, y3⟩, hy, h⟩ := Go.bind_eq_ok.mp h
    simp only [Go.pure_def, Go.ok.injEq, Prod.mk.injEq] at h
    obtain ⟨rfl, rfl, rfl⟩ := h
    simp only [List.map_cons]
    unfold Refresh.collectAll
    rw [ha]
    exact ih hy

theorem talLoop_from {S : Setup} {k : Tick} {fs : FS} {handed : Bool} : ∀ {tals : List Bytes} {i : Nat} {acc acc' : Map Tal.RPKITAL}
    {b b' : Bindings} {ms : List (TalRun × M)}, talLoop S k fs handed i tals acc b = .ok (ms, acc', b') →
    ∀ x ∈ ms, ∃ n known path, tals[n]? = some path ∧ (handed = false → known = []) ∧ x.1 = talRun S k fs known (i + n) path ∧ exploreTal S.fl x.1 = .ok x.2 := by
  intro tals
  induction tals with
  | nil => intro i acc acc' b b' ms h; simp [talLoop] at h; obtain ⟨rfl, _⟩ := h; simp
  | cons path tals ih =>
    intro i acc acc' b b' ms h
    unfold talLoop at h
    obtain ⟨m, hm, h⟩ := Go.bind_eq_ok.mp h
    obtain ⟨acc1, ha, h⟩ := Go.bind_eq_ok.mp h
    obtain ⟨names, hn, h⟩ := Go.bind_eq_ok.mp h
    obtain ⟨⟨y1, y2, y3⟩, hy, h⟩ := Go.bind_eq_ok.mp h
    simp only [Go.pure_def, Go.ok.injEq, Prod.mk.injEq] at h
    obtain ⟨rfl, rfl, rfl⟩ := h
    intro x hx
    rcases List.mem_cons.mp hx with rfl | hx
    · exact ⟨0, _, path, by simp, by intro e; simp [e], rfl, hm⟩
    · obtain ⟨n, known, p, h1, h2, h3, h4⟩ := ih hy x hx
      exact ⟨n + 1, known, p, by simpa using h1, h2, by rw [h3, show i + 1 + n = i + (n + 1) by omega], h4⟩

end Verif.Props
