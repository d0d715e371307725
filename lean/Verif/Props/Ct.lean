import Verif.Lemmas.Ct
import Verif.Props.Fetch
/-
  C105: every chain of certificates is submitted to the Certificate Transparency log, once.
-/
set_option autoImplicit false

namespace Verif.Props
open Ct CtSpec Cache Pki

/-- C105, octorpki with at least one thread: whatever the order of events, no chain is lost or doubled; at most one chain per thread is still being posted when the call returns; the
    threads are done after at most two steps per chain, and then each chain has been posted exactly once. -/
theorem C105_octorpki {α : Type} (n : Nat) (hn : 0 < n) (chains : List α) (k : Nat) (s : Outbox α) (h : Steps OctoStep (Outbox.start n chains) k s) :
    (s.sent ++ posting s.workers ++ s.todo).Perm chains ∧ (posting s.workers).length ≤ n ∧ k ≤ 2 * chains.length ∧
    ((∃ s', OctoStep s s') ∨ s.sent.Perm chains) := by
  obtain ⟨p, l, g, m⟩ := octo_inv h
  refine ⟨p, ?_, by omega, ?_⟩
  · rw [← l]; exact List.length_filterMap_le _ _
  by_cases hb : posting s.workers = []
  · cases ht : s.todo with
    | nil => right; simpa [hb, ht] using p
    | cons c rest =>
      left
      have hl : 0 < s.workers.length := by omega
      cases hw : s.workers[0] with
      | idle => exact ⟨_, .hand s c rest 0 ht (by rw [List.getElem?_eq_getElem hl, hw])⟩
      | busy c' => exact ⟨_, .post s c' 0 (by rw [List.getElem?_eq_getElem hl, hw])⟩
      | gone => exact (g _ (List.getElem_mem hl) hw).elim
  · obtain ⟨i, c, hi⟩ := posting_ne hb
    exact .inl ⟨_, .post s c i hi⟩

/-- C105 fails for octorpki without threads (`-ct.threads 0`): the call never returns, and validation stops. -/
theorem C105_violated_no_threads {α : Type} (chains : List α) (hc : chains ≠ []) (k : Nat) (s : Outbox α) (h : Steps OctoStep (Outbox.start 0 chains) k s) :
    s.todo = chains ∧ ¬ ∃ s', OctoStep s s' := by
  obtain ⟨p, l, g, m⟩ := octo_inv h
  have hw : s.workers = [] := List.length_eq_zero_iff.mp l
  cases h with
  | here =>
    refine ⟨rfl, ?_⟩
    rintro ⟨s', hs⟩
    cases hs <;> simp_all
  | step k b _ h' hs =>
    exfalso
    obtain ⟨_, l', _⟩ := octo_inv h'
    have hw' : b.workers = [] := List.length_eq_zero_iff.mp l'
    cases hs <;> simp_all

/-- C105, ctrpki with threads: no chain is submitted twice; the program ends, after at most three steps per chain and one per thread; and then all chains but at most as many as there are threads
    have been submitted. Missing: those, see below. -/
theorem C105_ctrpki_partial {α : Type} (n : Nat) (hn : 0 < n) (chains : List α) (k : Nat) (s : Outbox α) (h : Steps (CtrStep n) (Outbox.start n chains) k s) :
    (∃ rest, (s.sent ++ rest).Perm chains) ∧ k ≤ 3 * chains.length + n ∧ (s.told < n → ∃ s', CtrStep n s s') ∧
    (s.told = n → ∃ lost, (s.sent ++ lost).Perm chains ∧ lost.length ≤ n) := by
  obtain ⟨p, l, r, g, z, t, m⟩ := ctr_inv h
  refine ⟨⟨posting s.workers ++ s.buf ++ s.todo, by simpa [List.append_assoc] using p⟩, by omega, ?_, ?_⟩
  · intro ht
    have hl : s.told < s.workers.length := by omega
    have hng : s.workers[s.told]? ≠ some .gone := fun e => by have := (g _).mp e; omega
    cases htd : s.todo with
    | nil =>
      cases hw : s.workers[s.told] with
      | idle => exact ⟨_, .tell s htd (by rw [List.getElem?_eq_getElem hl, hw])⟩
      | busy c => exact ⟨_, .post s c s.told (by rw [List.getElem?_eq_getElem hl, hw])⟩
      | gone => exact (hng (by rw [List.getElem?_eq_getElem hl, hw])).elim
    | cons c rest =>
      by_cases hr : s.buf.length < n
      · exact ⟨_, .put s c rest htd hr⟩
      · cases hb : s.buf with
        | nil => rw [hb] at hr; simp at hr; omega
        | cons c' rest' =>
          cases hw : s.workers[s.told] with
          | idle => exact ⟨_, .take s c' rest' s.told hb (by rw [List.getElem?_eq_getElem hl, hw])⟩
          | busy c => exact ⟨_, .post s c s.told (by rw [List.getElem?_eq_getElem hl, hw])⟩
          | gone => exact (hng (by rw [List.getElem?_eq_getElem hl, hw])).elim
  · intro ht
    refine ⟨s.buf, ?_, r⟩
    have hp : posting s.workers = [] := by
      by_contra hne
      obtain ⟨i, c, hi⟩ := posting_ne hne
      have hlt := (List.getElem?_eq_some_iff.mp hi).1
      have := (g i).mpr (by omega)
      rw [hi] at this; cases this
    have hz : s.todo = [] := z (by omega)
    simpa [hp, hz] using p

/-- C105 fails for ctrpki: with `n` threads and at least `2 * n` chains, the program can end without submitting the last `n` of them (they are in the channel when `select` chooses to stop). -/
theorem C105_violated_lost {α : Type} (n : Nat) (hn : 0 < n) (pre a b : List α) (ha : a.length = n) (hb : b.length = n) :
    ∃ k s, Steps (CtrStep n) (Outbox.start n (pre ++ a ++ b)) k s ∧ s.told = n ∧ s.sent = pre ++ a := by
  -- the first chains, one after the other, by the first thread
  have s1 := family (R := CtrStep n) (fun i => (⟨pre.drop i ++ a ++ b, [], List.replicate n .idle, pre.take i, 0⟩ : Outbox α)) 3 pre.length (by
    intro i hi
    have e : pre.drop i ++ a ++ b = pre[i] :: (pre.drop (i + 1) ++ a ++ b) := by
      rw [List.drop_eq_getElem_cons hi]; rfl
    have w0 : (List.replicate n (Worker.idle : Worker α))[0]? = some .idle := by simp [List.getElem?_replicate, hn]
    have w1 : ((List.replicate n (Worker.idle : Worker α)).set 0 (.busy pre[i]))[0]? = some (.busy pre[i]) := by
      rw [List.getElem?_set_self (by simpa using hn)]
    have w2 : ((List.replicate n (Worker.idle : Worker α)).set 0 (.busy pre[i])).set 0 .idle = List.replicate n .idle := by
      rw [List.set_set]
      apply List.ext_getElem (by simp)
      intro j h1 h2
      rw [List.getElem_set]
      split <;> simp
    have := Steps.step _ _ _ _ (Steps.step _ _ _ _ (Steps.step _ _ _ _ (Steps.here (R := CtrStep n) (⟨pre.drop i ++ a ++ b, [], List.replicate n .idle, pre.take i, 0⟩ : Outbox α))
      (.put _ _ _ e (by simpa using hn))) (.take _ _ _ 0 (by rfl) w0)) (.post _ _ 0 w1)
    simp only [w2] at this
    rw [List.take_succ_eq_append_getElem hi]
    exact this)
  -- each thread takes one
  have s2 := family (R := CtrStep n) (fun i => (⟨a.drop i ++ b, [], (a.take i).map .busy ++ List.replicate (n - i) .idle, pre, 0⟩ : Outbox α)) 2 n (by
    intro i hi
    have hi' : i < a.length := by omega
    have e : a.drop i ++ b = a[i] :: (a.drop (i + 1) ++ b) := by
      rw [List.drop_eq_getElem_cons hi']; rfl
    have er : List.replicate (n - i) (Worker.idle : Worker α) = .idle :: List.replicate (n - (i + 1)) .idle := by
      rw [show n - i = (n - (i + 1)) + 1 by omega, List.replicate_succ]
    have hl : ((a.take i).map Worker.busy).length = i := by simp; omega
    have w0 : ((a.take i).map Worker.busy ++ List.replicate (n - i) (Worker.idle : Worker α))[i]? = some .idle := by
      rw [er, List.getElem?_append_right (by omega), hl]; simp
    have w2 : ((a.take i).map Worker.busy ++ List.replicate (n - i) (Worker.idle : Worker α)).set i (.busy a[i]) =
        (a.take (i + 1)).map Worker.busy ++ List.replicate (n - (i + 1)) .idle := by
      rw [er, List.set_append_right _ _ (by omega), hl, List.take_succ_eq_append_getElem hi', List.map_append, List.append_assoc]; simp
    have := Steps.step _ _ _ _ (Steps.step _ _ _ _ (Steps.here (R := CtrStep n)
      (⟨a.drop i ++ b, [], (a.take i).map .busy ++ List.replicate (n - i) .idle, pre, 0⟩ : Outbox α))
      (.put _ _ _ e (by simpa using hn))) (.take _ _ _ i (by rfl) w0)
    simp only [w2] at this
    exact this)
  -- the channel is filled
  have s3 := family (R := CtrStep n) (fun i => (⟨b.drop i, b.take i, a.map .busy, pre, 0⟩ : Outbox α)) 1 n (by
    intro i hi
    have hi' : i < b.length := by omega
    have := Steps.step _ _ _ _ (Steps.here (R := CtrStep n) (⟨b.drop i, b.take i, a.map .busy, pre, 0⟩ : Outbox α))
      (.put _ _ _ (List.drop_eq_getElem_cons hi') (by simp; omega))
    simp only at this
    rw [List.take_succ_eq_append_getElem hi']
    exact this)
  -- each thread ends its post and is told to stop
  have s4 := family (R := CtrStep n) (fun i => (⟨[], b, List.replicate i .gone ++ (a.drop i).map .busy, pre ++ a.take i, i⟩ : Outbox α)) 2 n (by
    intro i hi
    have hi' : i < a.length := by omega
    have er : (a.drop i).map (Worker.busy (α := α)) = .busy a[i] :: (a.drop (i + 1)).map .busy := by
      rw [List.drop_eq_getElem_cons hi']; rfl
    have w0 : (List.replicate i (Worker.gone : Worker α) ++ (a.drop i).map Worker.busy)[i]? = some (.busy a[i]) := by
      rw [er, List.getElem?_append_right (by simp)]; simp
    have w1 : (List.replicate i (Worker.gone : Worker α) ++ (a.drop i).map Worker.busy).set i Worker.idle =
        List.replicate i Worker.gone ++ Worker.idle :: (a.drop (i + 1)).map Worker.busy := by
      rw [er, List.set_append_right _ _ (by simp)]; simp
    have w2 : (List.replicate i (Worker.gone : Worker α) ++ Worker.idle :: (a.drop (i + 1)).map Worker.busy)[i]? = some Worker.idle := by
      rw [List.getElem?_append_right (by simp)]; simp
    have w3 : (List.replicate i (Worker.gone : Worker α) ++ Worker.idle :: (a.drop (i + 1)).map Worker.busy).set i Worker.gone =
        List.replicate (i + 1) Worker.gone ++ (a.drop (i + 1)).map Worker.busy := by
      rw [List.set_append_right _ _ (by simp), List.replicate_succ', List.append_assoc]; simp
    have h1 : CtrStep n (⟨[], b, List.replicate i .gone ++ (a.drop i).map .busy, pre ++ a.take i, i⟩ : Outbox α)
        ⟨[], b, List.replicate i .gone ++ .idle :: (a.drop (i + 1)).map .busy, pre ++ a.take (i + 1), i⟩ := by
      have := CtrStep.post (n := n) (⟨[], b, List.replicate i .gone ++ (a.drop i).map .busy, pre ++ a.take i, i⟩ : Outbox α) _ i w0
      rw [← w1, List.take_succ_eq_append_getElem hi', ← List.append_assoc]
      exact this
    have h2 := CtrStep.tell (n := n) (⟨[], b, List.replicate i .gone ++ .idle :: (a.drop (i + 1)).map .busy, pre ++ a.take (i + 1), i⟩ : Outbox α) rfl w2
    rw [show (2 : Nat) = 0 + 1 + 1 from rfl]
    refine Steps.step _ _ _ _ (Steps.step _ _ _ _ (Steps.here _) h1) ?_
    rw [← w3]
    exact h2)
  have t1 : Steps (CtrStep n) (Outbox.start n (pre ++ a ++ b)) (pre.length * 3) ⟨a ++ b, [], List.replicate n .idle, pre, 0⟩ := by simpa [Outbox.start] using s1
  have t2 : Steps (CtrStep n) (⟨a ++ b, [], List.replicate n .idle, pre, 0⟩ : Outbox α) (n * 2) ⟨b, [], a.map .busy, pre, 0⟩ := by
    have e1 : a.drop n = [] := by rw [← ha]; simp
    have e2 : a.take n = a := by rw [← ha]; simp
    simpa [e1, e2] using s2
  have t3 : Steps (CtrStep n) (⟨b, [], a.map .busy, pre, 0⟩ : Outbox α) n ⟨[], b, a.map .busy, pre, 0⟩ := by
    have e1 : b.drop n = [] := by rw [← hb]; simp
    have e2 : b.take n = b := by rw [← hb]; simp
    simpa [e1, e2] using s3
  have t4 : Steps (CtrStep n) (⟨[], b, a.map .busy, pre, 0⟩ : Outbox α) (n * 2) ⟨[], b, List.replicate n .gone, pre ++ a, n⟩ := by
    have e1 : a.drop n = [] := by rw [← ha]; simp
    have e2 : a.take n = a := by rw [← ha]; simp
    simpa [e1, e2] using s4
  exact ⟨_, _, ((t1.trans t2).trans t3).trans t4, rfl, rfl⟩

/-- C105, ctrpki without threads: every chain is submitted once, in order. -/
theorem C105_alone {α : Type} (chains : List α) : ctrAlone chains = chains := by
  have : ∀ l s : List α, l.foldl (fun sent c => sent ++ [c]) s = s ++ l := by
    intro l
    induction l with
    | nil => simp
    | cons c l ih => intro s; simp [ih]
  simp [ctrAlone, this]

/-- With one thread and three chains, one is submitted and the last may be lost; the hypotheses of the theorems on runs hold of this run. -/
example : ∃ k s, Steps (CtrStep 1) (Outbox.start 1 [1, 2, 3]) k s ∧ s.told = 1 ∧ s.sent = [1, 2] := C105_violated_lost 1 (by omega) [1] [2] [3] rfl rfl
example : ∃ s, Steps OctoStep (Outbox.start 2 [1, 2, 3]) 3 s ∧ s.sent = [2] ∧ posting s.workers = [1] ∧ s.todo = [3] :=
  ⟨_, .step _ _ _ _ (.step _ _ _ _ (.step _ _ _ _ (.here _) (.hand _ 1 [2, 3] 0 rfl rfl)) (.hand _ 2 [3] 1 rfl rfl)) (.post _ 2 1 rfl), rfl, rfl, rfl⟩

/-! ### What is submitted -/

/-- C105: if all files of a path can be read, the chain is the list of their certificates, in order. -/
theorem C105_chain (get : PKIFile → Go Answer) (files : List PKIFile) (path : List (Option Nat)) (certs : List Bytes)
    (h : List.Forall₂ (fun o cert => ∃ j f sk, o = some j ∧ files[j]? = some f ∧ get f = .ok (.found sk) ∧ Holds f sk.data cert) path certs) :
    chainOf get files path = .ok certs := by
  induction h with
  | nil => rfl
  | cons h _ ih =>
    obtain ⟨j, f, sk, rfl, hf, hg, hh⟩ := h
    unfold Holds at hh
    split at hh
    · rename_i ht
      obtain ⟨c, hc, rfl⟩ := hh
      simp [chainOf, hf, hg, certBytes, ht, hc, ih]
    · rename_i ht
      subst hh
      simp [chainOf, hf, hg, certBytes, ht, ih]

/-- C105: the certificate submitted for a ROA is the one the ROA was validated with. -/
theorem C105_roa {T M : Type} (env : Cms.Env T M) (strict : Bool) (data : Bytes) (r : Cms.RPKIROA T) (h : Cms.decodeROA env strict data = .ok r) (f : PKIFile) (hf : f.type = .roa) :
    ∃ cert, Holds f data cert ∧ env.decodeCert cert = .ok r.certificate := by
  unfold Cms.decodeROA at h
  obtain ⟨c, h0, h⟩ := Go.bind_eq_ok.mp h
  obtain ⟨_, -, h⟩ := Go.bind_eq_ok.mp h
  obtain ⟨_, -, h⟩ := Go.bind_eq_ok.mp h
  obtain ⟨_, -, h⟩ := Go.bind_eq_ok.mp h
  obtain ⟨_, -, h⟩ := Go.bind_eq_ok.mp h
  obtain ⟨_, -, h⟩ := Go.bind_eq_ok.mp h
  obtain ⟨_, -, h⟩ := Go.bind_eq_ok.mp h
  obtain ⟨cert, h1, h⟩ := Go.bind_eq_ok.mp h
  obtain ⟨_, -, h⟩ := Go.bind_eq_ok.mp h
  obtain ⟨_, -, h⟩ := Go.bind_eq_ok.mp h
  obtain rfl := Go.ok.inj h
  exact ⟨_, by simp [Holds, hf, h0], h1⟩

/-- C105: the certificate submitted for a manifest is the one the manifest was validated with. -/
theorem C105_manifest {T M : Type} (env : Cms.Env T M) (strict : Bool) (data : Bytes) (r : Cms.RPKIManifest M) (h : Cms.decodeManifest env strict data = .ok r) (f : PKIFile)
    (hf : f.type = .mft) : ∃ cert, Holds f data cert ∧ env.decodeCert cert = .ok r.certificate := by
  unfold Cms.decodeManifest at h
  obtain ⟨c, h0, h⟩ := Go.bind_eq_ok.mp h
  obtain ⟨_, -, h⟩ := Go.bind_eq_ok.mp h
  obtain ⟨_, -, h⟩ := Go.bind_eq_ok.mp h
  obtain ⟨_, -, h⟩ := Go.bind_eq_ok.mp h
  obtain ⟨_, -, h⟩ := Go.bind_eq_ok.mp h
  obtain ⟨_, -, h⟩ := Go.bind_eq_ok.mp h
  obtain ⟨_, -, h⟩ := Go.bind_eq_ok.mp h
  obtain ⟨cert, h1, h⟩ := Go.bind_eq_ok.mp h
  obtain ⟨_, -, h⟩ := Go.bind_eq_ok.mp h
  obtain rfl := Go.ok.inj h
  exact ⟨_, by simp [Holds, hf, h0], h1⟩

/-- C105: a file of a repository the fetcher knows that cannot be read any more is left out of the chain, without a hole. -/
theorem C105_unreadable (get : PKIFile → Go Answer) (files : List PKIFile) (j : Nat) (f : PKIFile) (rest : List (Option Nat)) (hf : files[j]? = some f) (hg : get f = .ok .fail) :
    chainOf get files (some j :: rest) = chainOf get files rest := by
  have : certBytes f .fail = .ok none := by
    have e : ∃ m, Cms.decodeCMS [] = .err m := ⟨_, rfl⟩
    obtain ⟨m, e⟩ := e
    simp [certBytes, e]
  rw [chainOf, hf]
  simp only [hg, Go.ok_bind, this]
  cases chainOf get files rest <;> rfl

/-- C105 fails for ctrpki when a file of a valid object cannot be read any more: the program crashes (it hands no list of repositories to the fetcher, so that there is neither a file nor an
    error). -/
theorem C105_violated_unreadable (sha256 : Bytes → Bytes) (fs : FS) (map : List (Bytes × Bytes)) (files : List PKIFile) (j : Nat) (f : PKIFile) (rest : List (Option Nat))
    (hf : files[j]? = some f) (hr : fs.read (Path.getLocalPath (f.computePath files) map) = none) :
    chainOf (getFile sha256 fs map [] files) files (some j :: rest) = .panic := by
  simp [chainOf, hf, getFile, getFileConv, fetchFile, hr, certBytes]

/-- C105: the messages on progress do not crash. -/
theorem C105_progress (n i : Nat) : ∃ b, progress n i = .ok b := by
  unfold progress
  split
  · rw [if_neg (by omega)]; exact ⟨_, rfl⟩
  · exact ⟨_, rfl⟩

/-- C105 fails for ctrpki with two TALs: the validator is shared, so the chains of the first TAL are submitted again with those of the second. -/
theorem C105_violated_twice (objs : List Fetch.CtObj) (order : List Bytes) (ps : List (List (Option Nat))) (h : pathsOf objs order = .ok ps) :
    ctData [(objs, order), (objs, order)] = .ok (ps ++ ps) := by
  simp [ctData, h]

/-! ### When -/

/-- C105, server: each time octorpki goes to wait for the next refresh, it has submitted the chains of the round. -/
theorem C105_server {L : Type} (c : Loop.Config) (hc : c.oneoff = false) (rounds : Nat → Loop.Round L) (l : L) (n : Nat) (hw : (Loop.run c rounds l (n + 1)).pc = .waiting) :
    submits c (Loop.run c rounds l n) = true := by
  have e : Loop.run c rounds l (n + 1) = Loop.step c rounds (Loop.run c rounds l n) := rfl
  rw [e] at hw
  generalize Loop.run c rounds l n = s at hw
  unfold Loop.step at hw
  cases hp : s.pc <;> rw [hp] at hw <;> simp [hc, hp] at hw
  cases hs : s.stable <;> simp [hs] at hw
  simp [submits, hp, hc, hs]

/-- C105 fails for one run of octorpki (`-mode oneoff`) that waits for the stable state, as it does by default: nothing is ever submitted, as the program ends before. -/
theorem C105_violated_oneoff {L : Type} (c : Loop.Config) (hc : c.oneoff = true) (hw : c.waitStable = true) (rounds : Nat → Loop.Round L) (l : L) (n : Nat) :
    submits c (Loop.run c rounds l n) = false := by
  cases hs : (Loop.run c rounds l n).stable <;> simp [submits, hc, hw, hs]

/-- A loop in server mode that waits after its second round. -/
example : (Loop.run ⟨false, true, 10⟩ (fun _ => ⟨[[1]], ()⟩) () 14).pc = .waiting := by decide +kernel

/-- A path with a certificate and a ROA of which the chain is given by C105_chain. -/
example : List.Forall₂ (fun o cert => ∃ j f sk, o = some j ∧ [(⟨none, [], [1], .cer, false, none⟩ : PKIFile)][j]? = some f ∧
    (fun _ => Go.ok (.found ⟨[1], [9], []⟩)) f = Go.ok (Answer.found sk) ∧ Holds f sk.data cert) [some 0] [[9]] := by
  refine .cons ⟨0, _, _, rfl, rfl, rfl, ?_⟩ .nil
  simp [Holds]

end Verif.Props
