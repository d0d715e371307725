import Verif.Lemmas.Refresh
import Verif.Spec.Refresh
/-
  Property theorems for the renewal of trust anchor certificates: C83.
-/
set_option autoImplicit false

namespace Verif.Props
open Pki PkiSpec Manager ManagerSpec EndSpec EndToEnd Refresh RefreshSpec LocalSpec Cache Path

/-- What the program notes of one TAL, once the marks are known. -/
theorem collect_settled {uri path : Bytes} {t : Tal.RPKITAL} {b : Bool} {m : M} (h : Settled uri t b m) {f0 : PKIFile}
    (h0 : m.files[0]? = some f0) (hp : f0.path = path) (acc : Map Tal.RPKITAL) :
    collect m acc = .ok (if b then acc else acc.set path t) := by
  have hd := h.data
  unfold V.dataOf at hd
  simp only [Option.map_eq_some_iff] at hd
  obtain ⟨r, hr, hrd⟩ := hd
  have hfile := h.file 0 r hr t hrd
  have hfl := h.flag
  unfold V.flag at hfl
  rw [hr] at hfl
  simp at hfl
  have hk : keysOf m.v.tals = [uri] := by rw [h.tals]; simp [keysOf, oncePer]
  unfold collect
  rw [hk]
  have hg : (m.v.tals.get uri).bind (fun i => m.v.heap[i]?) = some r := by rw [h.tals]; simp [Map.get, hr]
  unfold collectKeys
  rw [hg]
  simp only [hrd, hfl, hfile, Option.bind_some, h0, hp, collectKeys]
  cases b <;> simp

/-- Whatever the exploration met, only the TAL of its own file is noted. -/
theorem collect_other {W : World} {f0 : PKIFile} {m : M} (he : EInv W f0 m) : ∀ (ks : List Bytes) (acc acc' : Map Tal.RPKITAL),
    collectKeys m ks acc = .ok acc' → ∀ p, p ≠ f0.path → acc'.get p = acc.get p := by
  intro ks
  induction ks with
  | nil => intro acc acc' h p _; simp [collectKeys] at h; rw [h]
  | cons k ks ih =>
    intro acc acc' h p hp
    unfold collectKeys at h
    split at h
    · simp at h
    · rename_i r hr
      split at h
      · rename_i t ht
        split at h
        · exact ih _ _ h p hp
        · split at h
          · simp at h
          · rename_i f hf
            rw [ih _ _ h p hp, Map.get_set, if_neg]
            obtain ⟨i, hi, hi2⟩ := Option.bind_eq_some_iff.mp hr
            obtain ⟨fid, hfid, hf2⟩ := Option.bind_eq_some_iff.mp hf
            obtain ⟨g, data, sha, g1, _, g3, _⟩ := (he.res i r hi2).1 fid hfid
            rw [ht] at g3
            have hty : g.type = .tal := by
              generalize g.type = ty at g3
              cases g3; rfl
            have := he.tal fid g g1 hty
            subst this
            rw [he.file0] at hf2
            simp at hf2
            rw [← hf2]
            exact hp
      · simp at h

theorem seek_found {S : Setup} {repos : List Bytes} {fs : FS} {path : Bytes} {f : PKIFile} {data : Bytes} {sha : Option Bytes} :
    seek S repos fs path f = .found data sha ↔ ∃ raw, fs.read (getLocalPath path (LocalSpec.rsyncMap S.base)) = some raw ∧ sha = some (S.sha256 raw) ∧
      (if f.type = .tal then data = raw else Ber.BER2DER raw = .ok data) := by
  unfold seek getFileConv fetchFile
  show (match (match (match fs.read (getLocalPath path (LocalSpec.rsyncMap S.base)) with
      | none => _ | some fc => _ : Go (Bytes × Bytes)) with | .ok r => _ | .err _ => _ | .panic => _ | .diverge => _ : Go Answer) with
      | .ok (.found s) => _ | .ok .absent => _ | _ => _) = _ ↔ _
  cases hr : fs.read (getLocalPath path (LocalSpec.rsyncMap S.base)) with
  | none => by_cases hq : moduleOf f.path ∈ repos <;> simp [hq]
  | some raw =>
    by_cases ht : f.type = .tal
    · simp [ht]
      constructor
      · rintro ⟨h1, h2⟩; exact ⟨h2.symm, h1.symm⟩
      · rintro ⟨h1, h2⟩; exact ⟨h2.symm, h1.symm⟩
    · simp only [ht, ne_eq, not_false_eq_true, decide_true, if_true, if_false]
      cases hb : Ber.BER2DER raw with
      | ok d =>
        simp
        constructor
        · rintro ⟨h1, h2⟩; exact ⟨h2.symm, by rw [hb, h1]⟩
        · rintro ⟨h2, h3⟩
          rw [hb] at h3
          simp at h3
          exact ⟨h3, h2.symm⟩
      | err e => by_cases hq : moduleOf f.path ∈ repos <;> simp [hq, hb]
      | panic => simp [hb]
      | diverge => simp [hb]

theorem collectAll_exact : ∀ (xs : List (TalRun × M)) (acc acc' : Map Tal.RPKITAL), collectAll (xs.map (·.2)) acc = .ok acc' →
    ∀ (path : Bytes) (o : Option Tal.RPKITAL) (ho : acc.get path = none ∨ acc.get path = o),
    (∀ x ∈ xs, EInv x.1.world x.1.file x.2) →
    (∀ x ∈ xs, x.1.path = path → ∃ uri t b, Settled uri t b x.2 ∧ o = if b then none else some t) →
    (acc'.get path = acc.get path ∨ acc'.get path = o) ∧ ((∃ x ∈ xs, x.1.path = path) → acc'.get path = o) := by
  intro xs
  induction xs with
  | nil =>
    intro acc acc' h path o ho _ _
    simp [collectAll] at h
    subst h
    exact ⟨.inl rfl, by simp⟩
  | cons x xs ih =>
    intro acc acc' h path o ho he hs
    simp only [List.map_cons, collectAll] at h
    obtain ⟨acc1, h1, h⟩ := Go.bind_eq_ok.mp h
    have hstep : (acc1.get path = acc.get path ∨ acc1.get path = o) ∧ (x.1.path = path → acc1.get path = o) := by
      by_cases hp : x.1.path = path
      · obtain ⟨uri, t, b, hst, hb⟩ := hs x (by simp) hp
        rw [collect_settled hst (he x (by simp)).file0 (path := path) hp] at h1
        simp at h1
        cases b with
        | true =>
          simp at h1 hb
          subst h1
          refine ⟨.inl rfl, fun _ => ?_⟩
          rcases ho with ho | ho
          · rw [ho, hb]
          · exact ho
        | false =>
          simp at h1 hb
          subst h1
          have : (acc.set path t).get path = o := by rw [Map.get_set, if_pos rfl, hb]
          exact ⟨.inr this, fun _ => this⟩
      · have := collect_other (he x (by simp)) _ _ _ h1 path (fun h => hp h.symm)
        exact ⟨.inl this, fun h => (hp h).elim⟩
    obtain ⟨g1, g2⟩ := ih acc1 acc' h path o (by rcases hstep.1 with h | h <;> rw [h]; exact ho; exact .inr rfl)
      (fun y hy => he y (by simp [hy])) (fun y hy => hs y (by simp [hy]))
    refine ⟨?_, ?_⟩
    · rcases g1 with g1 | g1
      · rw [g1]; exact hstep.1
      · exact .inr g1
    · rintro ⟨y, hy, hyp⟩
      rcases List.mem_cons.mp hy with rfl | hy
      · have := hstep.2 hyp
        rcases g1 with g1 | g1
        · rw [g1]; exact this
        · exact g1
      · exact g2 ⟨y, hy, hyp⟩

theorem round_parts {S : Setup} {k : Tick} {s s' : St} (h : round S k s = .ok s') :
    ∃ fs1 jobs ms, mainTAL S k.http s.fetch (k.order (keysOf s.fetch)) (k.rrdp s.fs) s.jobs = .ok (fs1, jobs) ∧ s'.fs = k.rsync jobs fs1 ∧
      s'.jobs = jobs ∧ exploreTals S.fl (S.tals.map (talRun S k s'.fs)) = .ok ms ∧ collectAll (ms.map (·.2)) [] = .ok s'.fetch := by
  unfold round at h
  simp only at h
  obtain ⟨x, h1, h⟩ := Go.bind_eq_ok.mp h
  obtain ⟨ms, h2, h⟩ := Go.bind_eq_ok.mp h
  obtain ⟨acc, h3, h⟩ := Go.bind_eq_ok.mp h
  simp only [Go.pure_def, Go.ok.injEq] at h
  subst h
  exact ⟨x.1, x.2, ms, h1, rfl, rfl, h2, h3⟩

/-- What the explorations of a cache leave planned. -/
theorem planned_core (S : Setup) (hm : S.fl.useManifest = true)
    (hk : ∀ d c, S.env.parseCert d = .ok c → TalSpec.CertKey c.isRSA c.pubKey) (fs : FS) (ms : List (TalRun × M))
    (hexp : ∀ x ∈ ms, exploreTal S.fl x.1 = .ok x.2) (hw : ∀ x ∈ ms, ∃ known now, x.1.world = worldOf S known now fs)
    (acc : Map Tal.RPKITAL) (h3 : collectAll (ms.map (·.2)) [] = .ok acc)
    (path : Bytes) (hp : ∃ x ∈ ms, x.1.path = path) (t : Tal.RPKITAL) (ht : ReadsTal S fs path t) :
    (acc.get path = none ↔ HasAnchor S fs t) ∧ (acc.get path = some t ↔ ¬ HasAnchor S fs t) := by
  obtain ⟨td, t1, t2, t3⟩ := ht
  classical
  have key := collectAll_exact ms [] acc h3 path (if HasAnchor S fs t then none else some t) (.inl rfl)
  have hkey : ∀ x ∈ ms, ∀ d c, x.1.world.env.parseCert d = .ok c → TalSpec.CertKey c.isRSA c.pubKey := by
    intro x hx
    obtain ⟨known, now, e⟩ := hw x hx
    rw [e]; exact hk
  have hmain := (key ?_ ?_).2 hp
  · rw [hmain]
    by_cases hx : HasAnchor S fs t <;> simp [hx]
  · intro x hx
    exact (explore_einv S.fl hm x.1 (hkey x hx) x.2 (hexp x hx)).1
  · intro x hx hxp
    obtain ⟨known, now, e⟩ := hw x hx
    have hg : x.1.world.getFile 0 x.1.path x.1.file = .found td (some (S.sha256 td)) := by
      rw [e, hxp]
      exact seek_found.mpr ⟨td, t1, rfl, rfl⟩
    obtain ⟨_, b, hst, hb⟩ := explore_settled S.fl hm x.1 (hkey x hx) hg (by rw [e]; exact t2) (by rw [e, hxp]; exact t3) x.2 (hexp x hx)
    refine ⟨_, t, b, hst, ?_⟩
    have hiff : b = true ↔ HasAnchor S fs t := by
      rw [hb, e]
      constructor
      · rintro ⟨data, sha, c, q1, q2, q3⟩
        obtain ⟨raw, r1, _, r3⟩ := seek_found.mp q1
        exact ⟨raw, data, c, r1, r3, q2, q3⟩
      · rintro ⟨raw, d, c, r1, r2, r3, r4⟩
        exact ⟨d, some (S.sha256 raw), c, seek_found.mpr ⟨raw, r1, rfl, r2⟩, r3, r4⟩
    by_cases hx : HasAnchor S fs t
    · rw [if_pos hx, hiff.mpr hx]; rfl
    · have : b = false := by rw [Bool.eq_false_iff]; exact fun h => hx (hiff.mp h)
      rw [if_neg hx, this]; rfl

/-- **C83, what is planned.** After each round, the certificate of a TAL is planned for download exactly if the cache does not hold, where
    the validator looks for it, a certificate with the key of the TAL. -/
theorem C83_planned_exact (S : Setup) (hm : S.fl.useManifest = true)
    (hk : ∀ d c, S.env.parseCert d = .ok c → TalSpec.CertKey c.isRSA c.pubKey) (k : Tick) (s s' : St) (h : round S k s = .ok s')
    (path : Bytes) (hp : path ∈ S.tals) (t : Tal.RPKITAL) (ht : ReadsTal S s'.fs path t) :
    (s'.fetch.get path = none ↔ HasAnchor S s'.fs t) ∧ (s'.fetch.get path = some t ↔ ¬ HasAnchor S s'.fs t) := by
  obtain ⟨fs1, jobs, ms, _, _, _, h2, h3⟩ := round_parts h
  obtain ⟨hruns, hexp⟩ := exploreTals_ok h2
  refine planned_core S hm hk s'.fs ms hexp ?_ s'.fetch h3 path ?_ t ht
  · intro x hx
    have : x.1 ∈ S.tals.map (talRun S k s'.fs) := by rw [← hruns]; exact List.mem_map_of_mem hx
    obtain ⟨p, _, e⟩ := List.mem_map.mp this
    exact ⟨_, _, by rw [← e]; rfl⟩
  · have : talRun S k s'.fs path ∈ ms.map (·.1) := by rw [hruns]; exact List.mem_map_of_mem hp
    obtain ⟨x, hx, e⟩ := List.mem_map.mp this
    exact ⟨x, hx, by rw [e]; rfl⟩

theorem keysOf_none {α : Type} {m : Map α} (h : ∀ p, m.get p = none) : keysOf m = [] := by
  refine List.eq_nil_iff_forall_not_mem.mpr (fun k hk => ?_)
  rw [mem_keysOf, h] at hk
  simp at hk

theorem order_nil (k : Tick) : k.order [] = [] := List.Perm.eq_nil (k.perm [])

/-- **C83 is violated: no renewal.** Once the cache holds a certificate with the key of the TAL for each TAL, no certificate is downloaded
    any more, over any number of rounds, whatever the HTTP servers offer, whether the certificate has expired or not: files that RRDP
    and rsync leave alone stay as they are. -/
theorem C83_violated_no_renewal (S : Setup) (hm : S.fl.useManifest = true)
    (hk : ∀ d c, S.env.parseCert d = .ok c → TalSpec.CertKey c.isRSA c.pubKey) (ks : List Tick) (s s' : St)
    (h0 : ∀ p, s.fetch.get p = none)
    (hall : ∀ path ∈ S.tals, ∃ t, ReadsTal S s.fs path t ∧ HasAnchor S s.fs t ∧
      ∀ k ∈ ks, LeavesAlone k (anchorPath S t) ∧ LeavesAlone k (getLocalPath path (LocalSpec.rsyncMap S.base)))
    (h : rounds S ks s = .ok s') :
    (∀ p, s'.fetch.get p = none) ∧ s'.jobs = s.jobs ∧ ∀ q, (∀ k ∈ ks, LeavesAlone k q) → s'.fs.read q = s.fs.read q := by
  induction ks generalizing s with
  | nil => simp [rounds] at h; subst h; exact ⟨h0, rfl, fun _ _ => rfl⟩
  | cons k ks ih =>
    unfold rounds at h
    obtain ⟨s1, h1, h⟩ := Go.bind_eq_ok.mp h
    obtain ⟨fs1, jobs, ms, g1, g2, g3, g4, g5⟩ := round_parts h1
    rw [keysOf_none h0, order_nil] at g1
    simp [mainTAL] at g1
    obtain ⟨rfl, rfl⟩ := g1
    have hread : ∀ q, LeavesAlone k q → s1.fs.read q = s.fs.read q := by
      intro q hq
      rw [g2, (hq _ _).2, (hq s.fs []).1]
    have hall1 : ∀ path ∈ S.tals, ∃ t, ReadsTal S s1.fs path t ∧ HasAnchor S s1.fs t ∧
        ∀ k ∈ ks, LeavesAlone k (anchorPath S t) ∧ LeavesAlone k (getLocalPath path (LocalSpec.rsyncMap S.base)) := by
      intro path hp
      obtain ⟨t, a1, a2, a3⟩ := hall path hp
      obtain ⟨l1, l2⟩ := a3 k (by simp)
      refine ⟨t, ?_, ?_, fun k' hk' => a3 k' (by simp [hk'])⟩
      · unfold ReadsTal at a1 ⊢; rw [hread _ l2]; exact a1
      · unfold HasAnchor at a2 ⊢; rw [hread _ l1]; exact a2
    have hnone : ∀ p, s1.fetch.get p = none := by
      intro p
      by_cases hp : p ∈ S.tals
      · obtain ⟨t, a1, a2, _⟩ := hall1 p hp
        exact (C83_planned_exact S hm hk k s s1 h1 p hp t a1).1.mpr a2
      · obtain ⟨hruns, hexp⟩ := exploreTals_ok g4
        have hrun : ∀ x ∈ ms, ∃ p ∈ S.tals, x.1 = talRun S k s1.fs p := by
          intro x hx
          have : x.1 ∈ S.tals.map (talRun S k s1.fs) := by rw [← hruns]; exact List.mem_map_of_mem hx
          obtain ⟨p, hp, e⟩ := List.mem_map.mp this
          exact ⟨p, hp, e.symm⟩
        have := (collectAll_exact ms [] s1.fetch g5 p none (.inl rfl) (by
          intro x hx
          obtain ⟨p, _, e⟩ := hrun x hx
          refine (explore_einv S.fl hm x.1 ?_ x.2 (hexp x hx)).1
          rw [e]; exact hk) (by
          intro x hx hxp
          obtain ⟨p', hp', e⟩ := hrun x hx
          rw [e] at hxp
          exact (hp (by rw [← hxp]; exact hp')).elim)).1
        rcases this with h | h <;> rw [h]
        rfl
    obtain ⟨e1, e2, e3⟩ := ih s1 hnone hall1 h
    refine ⟨e1, e2.trans g3, fun q hq => ?_⟩
    rw [e3 q (fun k' hk' => hq k' (by simp [hk']))]
    exact hread q (hq k (by simp))

theorem talLoop_first {sha1 : Bytes → Bytes} {http : Bytes → Option Bytes} {os : OS} {base : Bytes} {t : Tal.RPKITAL} {fs fs' : FS} {u d : Bytes}
    {after : List Bytes} (hu : IsHttp u) (hd : http u = some d) (hw : writeRsyncFile os base fs (t.getRsyncURI sha1) d = .ok (fs', true)) :
    ∀ before : List Bytes, (∀ v ∈ before, IsHttp v → http v = none) →
      fetchTALLoop sha1 http os base t (before ++ u :: after) fs = .ok (fs', some u) := by
  have hpre : ∀ v, (Tal.hasPrefix v httpScheme || Tal.hasPrefix v httpsScheme) = true ↔ IsHttp v := by
    intro v
    rw [Bool.or_eq_true, hasPrefix_iff, hasPrefix_iff]
    rfl
  intro before
  induction before with
  | nil =>
    intro _
    simp only [List.nil_append, fetchTALLoop, fetchTALurl, (hpre u).mpr hu, if_true, hd, hw]
  | cons v before ih =>
    intro hb
    have : fetchTALurl sha1 http os base t fs v = .ok (fs, false) := by
      unfold fetchTALurl
      by_cases hv : IsHttp v
      · rw [if_pos ((hpre v).mpr hv), hb v (by simp) hv]
      · rw [if_neg (fun h => hv ((hpre v).mp h))]
    simp only [List.cons_append, fetchTALLoop, this]
    exact ih (fun w hw => hb w (by simp [hw]))

/-- **C83, a missing certificate is fetched (partial: one TAL; its rsync URI has one scheme; the disk takes the file; RRDP and rsync leave the
    files alone; no renewal, see the violation).** If the certificate is planned for download and one of the HTTP URIs of the TAL answers, then after the
    round the cache holds the answer of the first one that does, and the validation of this round has used it. -/
theorem C83_missing_fetched_partial (S : Setup) (hm : S.fl.useManifest = true) (hb : S.base ≠ [])
    (hk : ∀ d c, S.env.parseCert d = .ok c → TalSpec.CertKey c.isRSA c.pubKey) (k : Tick) (s s' : St) (h : round S k s = .ok s')
    (path : Bytes) (hp : path ∈ S.tals) (t : Tal.RPKITAL) (hs : s.fetch = [(path, t)]) (hone : OneScheme (t.getRsyncURI S.env.sha1))
    (before after : List Bytes) (u d : Bytes) (hu : t.uri = before ++ u :: after) (hh : IsHttp u) (hd : k.http u = some d)
    (hbef : ∀ v ∈ before, IsHttp v → k.http v = none)
    (hw : ∃ fs1, writeRsyncFile S.os S.base (k.rrdp s.fs) (t.getRsyncURI S.env.sha1) d = .ok (fs1, true))
    (hl : LeavesAlone k (anchorPath S t)) :
    s'.fs.read (anchorPath S t) = some d ∧
    (ReadsTal S s'.fs path t → (s'.fetch.get path = none ↔ ∃ der c, Ber.BER2DER d = .ok der ∧ S.env.parseCert der = .ok c ∧ HasKeyOf t c)) := by
  obtain ⟨fs1, jobs, ms, g1, g2, _, _, _⟩ := round_parts h
  obtain ⟨fs2, hw⟩ := hw
  have hkeys : keysOf s.fetch = [path] := by rw [hs]; simp [keysOf, oncePer]
  have hord : k.order [path] = [path] := List.Perm.eq_singleton (k.perm [path])
  rw [hkeys, hord] at g1
  have hget : s.fetch.get path = some t := by rw [hs]; simp [Map.get]
  simp only [mainTAL, hget, fetchTAL, hu, talLoop_first hh hd hw before hbef, Go.ok_bind, Go.ok.injEq, Prod.mk.injEq] at g1
  obtain ⟨rfl, rfl⟩ := g1
  have hread : s'.fs.read (anchorPath S t) = some d := by
    rw [g2, (hl _ _).2]
    exact write_read hb hw hone
  refine ⟨hread, fun ht => ?_⟩
  rw [(C83_planned_exact S hm hk k s s' h path hp t ht).1]
  unfold HasAnchor
  rw [hread]
  constructor
  · rintro ⟨raw, der, c, e, r1, r2, r3⟩
    simp at e; subst e
    exact ⟨der, c, r1, r2, r3⟩
  · rintro ⟨der, c, r1, r2, r3⟩
    exact ⟨d, der, c, rfl, r1, r2, r3⟩

theorem fetchTAL_jobs {S : Setup} {http : Bytes → Option Bytes} {t : Tal.RPKITAL} {fs : FS} {jobs : Map Bytes} {x : FS × Map Bytes × Option Bytes}
    (h : fetchTAL S.failover S.env.sha1 http S.os S.base t fs jobs = .ok x) :
    ∀ j, (x.2.1.get j).isSome = true ↔ (jobs.get j).isSome = true ∨
      (x.2.2 = none ∧ S.failover = true ∧ t.hasRsync = true ∧ j = t.getRsyncURI S.env.sha1) := by
  intro j
  unfold fetchTAL at h
  split at h
  · simp at h; subst h; simp
  · split at h
    · rename_i hf
      simp at h; subst h
      simp at hf
      simp only [Map.get_set, hf]
      split <;> simp_all
    · rename_i hf
      simp at h; subst h
      simp at hf
      simp only [true_and]
      constructor
      · exact .inl
      · rintro (h | ⟨h1, h2, _⟩)
        · exact h
        · rw [hf h1] at h2; simp at h2
  · simp at h
  · simp at h
  · simp at h

theorem mainTAL_jobs {S : Setup} {http : Bytes → Option Bytes} {tals : Map Tal.RPKITAL} : ∀ (ps : List Bytes) (fs fs' : FS) (jobs jobs' : Map Bytes),
    mainTAL S http tals ps fs jobs = .ok (fs', jobs') →
    (∀ j, (jobs.get j).isSome = true → (jobs'.get j).isSome = true) ∧
    (∀ j, (jobs'.get j).isSome = true → (jobs.get j).isSome = true ∨ ∃ p ∈ ps, ∃ t, tals.get p = some t ∧ S.failover = true ∧
      t.hasRsync = true ∧ j = t.getRsyncURI S.env.sha1) ∧
    (∀ p ∈ ps, ∀ t, tals.get p = some t → (∀ u ∈ t.uri, IsHttp u → http u = none) → S.failover = true → t.hasRsync = true →
      (jobs'.get (t.getRsyncURI S.env.sha1)).isSome = true) := by
  intro ps
  induction ps with
  | nil => intro fs fs' jobs jobs' h; simp [mainTAL] at h; obtain ⟨rfl, rfl⟩ := h; exact ⟨fun _ h => h, fun _ h => .inl h, by simp⟩
  | cons p ps ih =>
    intro fs fs' jobs jobs' h
    unfold mainTAL at h
    split at h
    · simp at h
    · rename_i t ht
      obtain ⟨x, hx, h⟩ := Go.bind_eq_ok.mp h
      obtain ⟨i1, i2, i3⟩ := ih _ _ _ _ h
      have hj := fetchTAL_jobs hx
      refine ⟨fun j hj' => i1 j ((hj j).mpr (.inl hj')), ?_, ?_⟩
      · intro j hj'
        rcases i2 j hj' with h | ⟨q, hq, t', h1, h2⟩
        · rcases (hj j).mp h with h | ⟨_, h1, h2, h3⟩
          · exact .inl h
          · exact .inr ⟨p, by simp, t, ht, h1, h2, h3⟩
        · exact .inr ⟨q, by simp [hq], t', h1, h2⟩
      · intro q hq t' ht' hnone hfo hrs
        rcases List.mem_cons.mp hq with rfl | hq
        · rw [ht] at ht'; simp at ht'; subst ht'
          refine i1 _ ((hj _).mpr (.inr ⟨?_, hfo, hrs, rfl⟩))
          unfold fetchTAL at hx
          split at hx
          · rename_i fs1 u hl
            obtain ⟨before, after, d, _, e, h2, h3, _⟩ := talLoop_some hl
            rw [hnone u (by rw [e]; simp) h2] at h3
            simp at h3
          · split at hx <;> simp at hx <;> rw [← hx]
          · simp at hx
          · simp at hx
          · simp at hx
        · exact i3 q hq t' ht' hnone hfo hrs

/-- **C83, failover.** If no HTTP URI of a planned TAL answers, its certificate is among the rsync jobs of this round and stays there in all later rounds; jobs for trust
    anchors come from nowhere else. -/
theorem C83_failover (S : Setup) (k : Tick) (s s' : St) (h : round S k s = .ok s') :
    (∀ j, (s.jobs.get j).isSome = true → (s'.jobs.get j).isSome = true) ∧
    (∀ j, (s'.jobs.get j).isSome = true → (s.jobs.get j).isSome = true ∨ ∃ path t, s.fetch.get path = some t ∧ S.failover = true ∧
      t.hasRsync = true ∧ j = t.getRsyncURI S.env.sha1) ∧
    (∀ path t, s.fetch.get path = some t → (∀ u ∈ t.uri, IsHttp u → k.http u = none) → S.failover = true → t.hasRsync = true →
      (s'.jobs.get (t.getRsyncURI S.env.sha1)).isSome = true ∧ ∃ fs, s'.fs = k.rsync s'.jobs fs) := by
  obtain ⟨fs1, jobs, ms, g1, g2, g3, _, _⟩ := round_parts h
  obtain ⟨h1, h2, h3⟩ := mainTAL_jobs _ _ _ _ _ g1
  rw [g3]
  refine ⟨h1, ?_, ?_⟩
  · intro j hj
    rcases h2 j hj with h | ⟨p, _, t, e1, e2⟩
    · exact .inl h
    · exact .inr ⟨p, t, e1, e2⟩
  · intro path t ht hn hf hr
    refine ⟨h3 path ?_ t ht hn hf hr, fs1, by rw [g2]⟩
    rw [(k.perm _).mem_iff, mem_keysOf, ht]; rfl

/-! An example: the TAL at `/tal` names `rsync://h/a.cer` and `https://h/a.cer`. The files [4, 1, 1] and [4, 1, 2] are certificates with its key, valid
    until 100 and until 1000000. -/

def talR : Bytes := tx "rsync://h/a.cer\nhttps://h/a.cer\n\nMAUD\n"
def oldR : Bytes := [4, 1, 1]
def newR : Bytes := [4, 1, 2]
def envR : Env := { envE with
  parseCert := fun d => if d = oldR then .ok taE else if d = newR then .ok { taE with notAfter := 1000000 } else .err "" }
def setupR : Setup := ⟨flE, true, envR, fun b => b, osFine, baseS, [tx "/tal"]⟩
/-- Time 1000; the server has the new certificate. -/
def tickR : Tick := ⟨id, fun u => if u = tx "https://h/a.cer" then some newR else none, id, fun _ => .refl _, fun _ fs => fs, [], 1000, 10⟩
/-- The TAL, and nothing in the cache. -/
def emptyR : St := ⟨⟨[], [(clean (tx "/tal"), talR)]⟩, [], []⟩
/-- The TAL, and the old certificate in the cache. -/
def oldS : St := ⟨⟨ancestors (clean (tx "/cache/h")), [(clean (tx "/cache/h/a.cer"), oldR), (clean (tx "/tal"), talR)]⟩, [], []⟩

theorem keyR : ∀ d c, setupR.env.parseCert d = .ok c → TalSpec.CertKey c.isRSA c.pubKey := by
  intro d c h
  simp only [setupR, envR] at h
  split at h
  · simp at h; subst h
    simp [TalSpec.CertKey, taE, mkCert]
  · split at h
    · simp at h; subst h
      simp [TalSpec.CertKey, taE, mkCert]
    · simp at h

/-- **C83 is violated: an expired trust anchor stays for ever.** The cached certificate of the TAL expired at 100, it is 1000, and the server has
    a new one with the same key. Over any number of rounds the program does not ask for it, and nothing is valid. From an empty cache
    the second round has the new certificate. -/
theorem C83_violated_expired :
    (∀ n, rounds setupR (List.replicate n tickR) oldS = .ok oldS) ∧
    setupR.env.parseCert oldR = .ok taE ∧ taE.notAfter < tickR.now ∧
    (match exploreTal setupR.fl (talRun setupR tickR oldS.fs (tx "/tal")) with | .ok m => m.v.validObjects | _ => [([], 0)]) = [] ∧
    (match rounds setupR [tickR, tickR] emptyR with
     | .ok s => (s.fs.read (tx "/cache/h/a.cer"), s.fetch) | _ => (none, [])) = (some newR, []) := by
  have h1 : round setupR tickR oldS = .ok oldS := by decide +kernel
  refine ⟨?_, by decide +kernel, by decide +kernel, by decide +kernel, by decide +kernel⟩
  intro n
  induction n with
  | zero => rfl
  | succ n ih => rw [List.replicate_succ]; simp [rounds, h1, ih]

/-- Failover: the server is down, and the second round asks rsync. -/
example : (match rounds setupR [{ tickR with http := fun _ => none }, { tickR with http := fun _ => none }] emptyR with
    | .ok s => keysOf s.jobs | _ => []) = [tx "rsync://h/a.cer"] := by decide +kernel

/-- The TAL of the example. -/
def talRv : Tal.RPKITAL := match Tal.decodeTAL envR.asn talR with | .ok t => t | _ => ⟨[], false, false, .other⟩

/-- The hypotheses of the theorems above are met: with the old certificate in the cache; and with an empty one, where the first round plans the
    download and the second makes it. -/
example : ReadsTal setupR oldS.fs (tx "/tal") talRv ∧ HasAnchor setupR oldS.fs talRv ∧ LeavesAlone tickR (anchorPath setupR talRv) ∧
    LeavesAlone tickR (getLocalPath (tx "/tal") (LocalSpec.rsyncMap setupR.base)) ∧
    (match round setupR tickR emptyR with | .ok s => s.fetch | _ => []) = [(tx "/tal", talRv)] ∧
    talRv.uri = [tx "rsync://h/a.cer"] ++ tx "https://h/a.cer" :: [] ∧ IsHttp (tx "https://h/a.cer") ∧ tickR.http (tx "https://h/a.cer") = some newR ∧
    OneScheme (talRv.getRsyncURI setupR.env.sha1) ∧
    (match writeRsyncFile setupR.os setupR.base emptyR.fs (talRv.getRsyncURI setupR.env.sha1) newR with | .ok (_, b) => b | _ => false) = true := by
  refine ⟨⟨talR, by decide +kernel, by decide +kernel, by decide +kernel⟩, ⟨oldR, oldR, taE, by decide +kernel, by decide +kernel, by decide +kernel, ⟨5, 3⟩, by decide +kernel, rfl⟩,
    fun _ _ => ⟨rfl, rfl⟩, fun _ _ => ⟨rfl, rfl⟩, by decide +kernel, by decide +kernel, .inr ⟨tx "h/a.cer", by decide +kernel⟩, by decide +kernel, ?_, by decide +kernel⟩
  have : talRv.getRsyncURI setupR.env.sha1 = tx "rsync://h/a.cer" := by decide +kernel
  rw [this]
  exact ⟨tx "h/a.cer", by decide +kernel, by rw [← contains_iff]; decide +kernel⟩

end Verif.Props
