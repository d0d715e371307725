import Verif.Lemmas.Revoked
import Verif.Props.Revoke
import Verif.Props.EndToEnd
import Verif.Props.Crash
import Verif.Props.CrashOctets
/-
  Property theorems about revocation lists in force, up to the published lines: C19, C118.
-/
set_option autoImplicit false

namespace Verif.Props
open Net Cert ResSpec Roa Pki PkiSpec RevokedSpec Manager EndToEnd EndSpec Out

/-- **C19, lists in force.** After any history, a valid certificate whose serial is on the list in force of its issuer was offered as
    a trust anchor, or another certificate with the same issuer key id and serial was stored after it. -/
theorem C19_in_force (env : Env) (A : Pki.Cert → Prop) (ops : List Op) (v : V) (ha : ∀ op ∈ ops, OffersOnly env A op)
    (h : V.run env V.new ops = .ok v) (k : Bytes) (c : Pki.Cert) (hv : IsValid v k c) (hA : ¬ A c) : Cleared v c := by
  rintro l ⟨j, r, h1, h2, h3⟩ he hs
  have hd : v.dataOf j = some (.crl l) := by unfold V.dataOf; rw [h2, ← h3]; rfl
  obtain ⟨pre, op, post, l', v0, v1, a, rfl, hpre, hoff, hadd, hacc, hl', hs'⟩ :=
    inForce_revokedIn c.serial hs _ ops v rfl h j h1 hd
  rw [he] at hl'
  obtain ⟨v0', e1, e2⟩ := (run_append pre (op :: post) V.new v).mp h
  rw [hpre] at e1; simp only [Go.ok.injEq] at e1; subst e1
  unfold V.run at e2
  obtain ⟨w, hop, hpost⟩ := Go.bind_eq_ok.mp e2
  obtain ⟨x, hx, hrev, hval⟩ := step_offersCRL hoff hop
  rw [hadd] at hx; simp only [Go.ok.injEq] at hx; subst hx
  have i0 := (good_run (T := fun _ => True) (P := fun _ => True) pre V.new v0 (fun o _ => all_trust env o)
    (fun o _ => all_roas env o) hpre (inv_new _ _ _)).1
  have g1 := good_step (T := fun _ => True) (P := fun _ => True) (all_trust env op) (all_roas env op) hop i0
  have g2 := good_run (T := fun _ => True) (P := fun _ => True) post w v (fun o _ => all_trust env o) (fun o _ => all_roas env o)
    hpost g1.1
  have f0 : Frame (fun _ => True) v0 v := g1.2.trans g2.2
  have hi := (anchored_run (A := A) pre V.new v0 (fun o ho => ha o (by simp [ho])) hpre f0 (inv_new _ _ _) (inv_new _ _ _)).1
  have hiw := (anchored_run (A := A) [op] v0 w (fun o ho => ha o (by simp at ho; simp [ho])) (by simp [V.run, hop]) g2.2 i0 hi).1
  obtain ⟨hiv, hf⟩ := anchored_run (A := A) post w v (fun o ho => ha o (by simp [ho])) hpost (Frame.refl _ _) g1.1 hiw
  obtain ⟨hrec, hsh, hrm, _⟩ := addCRL_accepted hi hadd hacc
  obtain ⟨i, q1, q2⟩ := hv
  have hT : ¬ AnchorKey env A v k := fun hh => hA (hh c ⟨i, hiv.val _ _ q1, q2⟩).1
  rcases hf.new k i q1 with hh | ⟨c', hc', hh | hh⟩
  · rw [hval] at hh
    have hv0 := hsh _ _ hh
    obtain ⟨c0, hc0, hk0⟩ := hi.obj _ _ (hi.val _ _ hv0)
    have hcc : c0 = c := by
      have := f0.cert hc0
      rw [q2] at this; simpa using this.symm
    subst hcc
    rcases hi.chain k i c0 hv0 hc0 with hh | ⟨p, pc, _, _, _, _, _, _, hser, _⟩
    · exact (hT hh).elim
    · obtain ⟨n, hn, hle⟩ := hser
      obtain ⟨cn, t1, t2, t3⟩ := hi.serial _ _ hn
      rcases Nat.lt_or_eq_of_le hle with hlt | hni
      · exact ⟨i, n, cn, by rw [hk0]; exact f0.obj _ _ (hi.val _ _ hv0), f0.obj _ _ t3, hlt, f0.cert t1, t2.symm⟩
      subst hni
      exfalso
      have hcn : cn = c0 := by rw [hc0] at t1; simpa using t1.symm
      subst hcn
      have := hrm cn.serial hs' i cn (by rw [hl']; exact hn) t1 rfl
      rw [hk0, hh] at this; simp at this
  · exact (hT hh).elim
  · rw [q2] at hc'; simp only [Option.some.injEq] at hc'; subst hc'
    have := hrec c.serial hs'
    rw [hrev, hl', ] at *
    rw [hh] at this; simp at this

theorem unrevoked_of {v : V} (hu : SerialsApart v) {c : Pki.Cert} (hc : Stored v c.ski c) (h : Cleared v c) : Unrevoked v c := by
  intro l h1 h2 h3
  obtain ⟨i, j, c', g1, g2, g3, g4, g5⟩ := h l h1 h2 h3
  have := hu c'.ski c' c.ski c ⟨j, g2, g4⟩ hc g5
  rw [this, g1] at g2; simp at g2; omega

/-- **C19, lists in force, partial.** After any history, if the stored certificates have different serials, no valid certificate is
    on the list in force of its issuer, except a certificate that was offered as a trust anchor. (Missing: several stored
    certificates of one issuer with one serial, where the property is false, see `C19_violated`.) -/
theorem C19_in_force_partial (env : Env) (A : Pki.Cert → Prop) (ops : List Op) (v : V) (ha : ∀ op ∈ ops, OffersOnly env A op)
    (h : V.run env V.new ops = .ok v) (hu : SerialsApart v) (k : Bytes) (c : Pki.Cert) (hv : IsValid v k c) (hA : ¬ A c) :
    Unrevoked v c := by
  have hi := anchored_inv ha h
  obtain ⟨i, h1, h2⟩ := hv
  have hk := hi.obj_certOf (hi.val _ _ h1) h2
  exact unrevoked_of hu ⟨i, by rw [hk]; exact hi.val _ _ h1, h2⟩ (C19_in_force env A ops v ha h k c ⟨i, h1, h2⟩ hA)

/-- The trust anchor, its child (serial 2) and grandchild, and a list of the trust anchor that revokes serial 7. -/
example : isOk (V.run env0 V.new (opsAB ++ [.addCRL (mkCRL [1] [7])])) = true ∧
    (∀ op ∈ opsAB ++ [.addCRL (mkCRL [1] [7])], OffersOnly env0 (· = taC) op) ∧ ¬ aC = taC ∧
    ((after env0 (opsAB ++ [.addCRL (mkCRL [1] [7])])).validCRL.get [1]).isSome = true ∧
    ((after env0 (opsAB ++ [.addCRL (mkCRL [1] [7])])).validObjects.get [2]) = some 1 := by
  refine ⟨by decide +kernel, ?_, by decide +kernel, by decide +kernel, by decide +kernel⟩
  intro op h
  simp [opsAB] at h
  rcases h with rfl | rfl | rfl | rfl <;> simp [OffersOnly]

/-- The chain of a valid certificate has no revoked certificate. -/
theorem clear_path {env : Env} {A : Pki.Cert → Prop} {ops : List Op} {v : V} (ha : ∀ op ∈ ops, OffersOnly env A op)
    (h : V.run env V.new ops = .ok v) {c : Pki.Cert} (hc : Ascends env A v c) : ClearPath env A (Cleared v) v c := by
  induction hc with
  | anchor c hv ht hA => exact .anchor c hv ht hA
  | step c p hv ht hk hs _ ih =>
    by_cases hA : A c
    · exact .anchor c hv ht hA
    · exact .step c p hv ht hk hs (C19_in_force env A ops v ha h c.ski c hv hA) ih

theorem clear_path_mono {env : Env} {A U U' : Pki.Cert → Prop} {v : V} {c : Pki.Cert} (h : ClearPath env A U v c)
    (hu : ∀ c, IsValid v c.ski c → U c → U' c) : ClearPath env A U' v c := by
  induction h with
  | anchor c hv ht hA => exact .anchor c hv ht hA
  | step c p hv ht hk hs hc _ ih => exact .step c p hv ht hk hs (hu c hv hc) ih

/-! ## C118 — what is published rests on no revoked certificate -/

/-- **C118, the lines.** Each line of the published list comes from an entry of a ROA for which C78 holds, and from its certificate a
    chain of valid certificates leads to the certificate of the TAL. A certificate of the chain, except the last, is on the list in
    force of its issuer only if another certificate with the same issuer key id and serial was stored after it. -/
theorem C118_line (fl : Flags) (hm : fl.useManifest = true) (names : List Bytes) (now : Int) (runs : List TalRun)
    (hk : ∀ run ∈ runs, ∀ d c, run.world.env.parseCert d = .ok c → TalSpec.CertKey c.isRSA c.pubKey)
    (ms : List (TalRun × M)) (L : ROAList) (h : mainValidation fl names now runs = .ok (ms, L)) (r : ROAJson) (hr : r ∈ L.data) :
    ∃ (i : Nat) (run : TalRun) (m : M) (roa : ROA) (e : ROAEntry), runs[i]? = some run ∧ ms[i]? = some (run, m) ∧
      EndSpec.Backed fl.strictHash run m roa e ∧ r = exportEntry r.ta roa.asn e ∧
      ClearPath run.world.env (AnchorCert run.world run.file) (Cleared m.v) m.v roa.cert := by
  obtain ⟨i, run, m, roa, e, h1, h2, hb, h3, -, -⟩ := C78_line_backed_partial fl hm names now runs hk ms L h r hr
  have hexp := (exploreTals_ok (main_parts h).1).2 _ (List.mem_of_getElem? h2)
  obtain ⟨hinv, -⟩ := explore_einv fl hm run (hk run (List.mem_of_getElem? h1)) m hexp
  obtain ⟨ops, o1, -, o3⟩ := hinv.hist
  exact ⟨i, run, m, roa, e, h1, h2, hb, h3, clear_path o1 o3 hb.ascends⟩

/-- **C118, the lines, partial.** If the certificates that were stored have different serials, no certificate of the chain, except the
    last, is on the list in force of its issuer. (Missing: several certificates of one issuer with one serial, where it is false, see
    `C118_violated`.) -/
theorem C118_line_partial (fl : Flags) (hm : fl.useManifest = true) (names : List Bytes) (now : Int) (runs : List TalRun)
    (hk : ∀ run ∈ runs, ∀ d c, run.world.env.parseCert d = .ok c → TalSpec.CertKey c.isRSA c.pubKey)
    (ms : List (TalRun × M)) (L : ROAList) (h : mainValidation fl names now runs = .ok (ms, L))
    (hu : ∀ x ∈ ms, SerialsApart x.2.v) (r : ROAJson) (hr : r ∈ L.data) :
    ∃ (i : Nat) (run : TalRun) (m : M) (roa : ROA) (e : ROAEntry), runs[i]? = some run ∧ ms[i]? = some (run, m) ∧
      EndSpec.Backed fl.strictHash run m roa e ∧ r = exportEntry r.ta roa.asn e ∧
      ClearPath run.world.env (AnchorCert run.world run.file) (Unrevoked m.v) m.v roa.cert := by
  obtain ⟨i, run, m, roa, e, h1, h2, hb, h3, hp⟩ := C118_line fl hm names now runs hk ms L h r hr
  have hexp := (exploreTals_ok (main_parts h).1).2 _ (List.mem_of_getElem? h2)
  obtain ⟨hinv, -⟩ := explore_einv fl hm run (hk run (List.mem_of_getElem? h1)) m hexp
  obtain ⟨ops, o1, -, o3⟩ := hinv.hist
  have hi := anchored_inv o1 o3
  refine ⟨i, run, m, roa, e, h1, h2, hb, h3, clear_path_mono hp (fun c ⟨n, g1, g2⟩ hc => ?_)⟩
  exact unrevoked_of (hu _ (List.mem_of_getElem? h2)) ⟨n, hi.val _ _ g1, g2⟩ hc

/-- **C118, the lists.** After the exploration for a TAL, each list in force was delivered as a file, was decoded from the octets of
    that file, and is signed by the valid certificate that has the key id which the list names. There is one list in force for a key
    id at most. -/
theorem C118_lists (fl : Flags) (hm : fl.useManifest = true) (run : TalRun)
    (hk : ∀ d c, run.world.env.parseCert d = .ok c → TalSpec.CertKey c.isRSA c.pubKey) (m : M) (h : exploreTal fl run = .ok m)
    (l : Pki.CRL) (hl : InForce m.v l) :
    (∃ n path f data sha, run.world.getFile n path f = .found data sha ∧ f.type = .crl ∧ run.world.env.parseCRL data = .ok l) ∧
    (∃ c, IsValid m.v l.aki c ∧ c.ski = l.aki ∧ run.world.env.checkCRLSig c l = true) ∧
    ∀ l', InForce m.v l' → l'.aki = l.aki → l' = l := by
  obtain ⟨hinv, -⟩ := explore_einv fl hm run hk m h
  obtain ⟨ops, o1, -, o3⟩ := hinv.hist
  have hi := anchored_inv o1 o3
  obtain ⟨j, r, h1, h2, h3⟩ := hl
  have hd : m.v.dataOf j = some (.crl l) := by unfold V.dataOf; rw [h2, ← h3]; rfl
  refine ⟨?_, ?_, ?_⟩
  · obtain ⟨i, f, data, sha, g1, g2, g3⟩ := hinv.data j _ hd
    obtain ⟨f', n, q1, q2⟩ := hinv.fetch i data sha g2
    rw [g1] at q1; simp only [Option.some.injEq] at q1; subst q1
    generalize hty : f.type = ty at g3
    cases g3 with
    | crl _ hp => exact ⟨n, _, f, data, sha, q2, hty, hp⟩
  · obtain ⟨l', i, c, g1, g2, g3, g4, g5⟩ := hi.vcrl _ _ h1
    rw [hd] at g1; simp only [Option.some.injEq, ResData.crl.injEq] at g1; subst g1
    exact ⟨c, ⟨i, g3, g4⟩, hi.obj_certOf (hi.val _ _ g3) g4, g5⟩
  · rintro l' ⟨j', r', g1, g2, g3⟩ he
    rw [he, h1] at g1; simp only [Option.some.injEq] at g1; subst g1
    rw [h2] at g2; simp only [Option.some.injEq] at g2; subst g2
    rw [h3] at g3; simp only [ResData.crl.injEq] at g3; exact g3.symm

/-! The repository of C78 with a revocation list of the trust anchor beside the ROA, whose certificate has serial 5, and, if wanted, a
    second ROA (AS 8), whose certificate has the same serial. -/

namespace RevEx

def nY : Bytes := tx "y.roa"

def env (two : Bool) (revoked : List Int) : Env := { envE with
  parseROA := fun d => if d = [8] then .ok (⟨8, [⟨[0, 1], [(⟨[10, 1], 16⟩, 24)]⟩]⟩, mkCert [6] [1] 5 [net10_1] [], true) else envE.parseROA d
  parseMft := fun d => if d = [10] then .ok (mkMft [10] [1] ((nX, [7]) :: (if two then [(nY, [8])] else []) ++ [(nL, [9])])) else .err ""
  parseCRL := fun d => if d = [9] then .ok (mkCRL [1] revoked) else .err "" }

def world (two : Bool) (revoked : List Int) : World := { worldE with
  env := env two revoked
  getFile := fun n p f => if p = dirR ++ 47 :: nL then .found [9] (some [9]) else
    if p = dirR ++ 47 :: nY then .found [8] (some [8]) else worldE.getFile n p f }

def run (two : Bool) (revoked : List Int) : TalRun := ⟨[65], world two revoked, 10, id, fun _ => .refl _, fun _ => .fail⟩

def done (two : Bool) (revoked : List Int) : M := match exploreTal flE (run two revoked) with | .ok m => m | _ => M.new V.new

def lines (two : Bool) (revoked : List Int) : List (Bytes × Bytes) := match mainValidation flE [tx "T"] 1000 [run two revoked] with
  | .ok (_, L) => L.data.map (fun r => (r.prefixText, r.asn))
  | _ => []

theorem keys (two : Bool) (revoked : List Int) : ∀ d c, (world two revoked).env.parseCert d = .ok c → TalSpec.CertKey c.isRSA c.pubKey := by
  intro d c h
  simp only [world, env, envE] at h
  split at h
  · simp at h; subst h
    simp [TalSpec.CertKey, taE, mkCert]
  · simp at h

end RevEx

/-- The list in force revokes serial 4: the line is there. It revokes serial 5: the line is gone. -/
example : RevEx.lines false [4] = [(tx "10.1.0.0/16", tx "AS7")] ∧ RevEx.lines false [5] = [] := by
  constructor <;> decide +kernel

theorem mem_of_map_get {α : Type} {m : Map α} {k : Bytes} {x : α} (h : m.get k = some x) : (k, x) ∈ m := by
  induction m with
  | nil => simp [Map.get_nil] at h
  | cons p rest ih =>
    obtain ⟨a, b⟩ := p
    rw [Map.get_cons] at h
    split at h
    · rename_i he; simp at h; subst h; subst he; simp
    · exact List.mem_cons_of_mem _ (ih h)

/-- The serials are apart, by looking at them. -/
def apartB (v : V) : Bool := v.objects.all (fun p => v.objects.all (fun q =>
  match v.certOf p.2, v.certOf q.2 with
  | some c1, some c2 => decide (c1.aki ++ dec c1.serial = c2.aki ++ dec c2.serial → p.1 = q.1)
  | _, _ => true))

theorem apart_of {v : V} (h : apartB v = true) : SerialsApart v := by
  rintro k1 c1 k2 c2 ⟨i, h1, h2⟩ ⟨j, h3, h4⟩ he
  have := List.all_eq_true.mp (List.all_eq_true.mp h _ (mem_of_map_get h1)) _ (mem_of_map_get h3)
  simp only [h2, h4, decide_eq_true_eq] at this
  exact this he

/-- With the list that revokes serial 4 the hypotheses hold, the list is in force, and the certificate of the ROA is valid. -/
example : isOk (exploreTal flE (RevEx.run false [4])) = true ∧ isOk (mainValidation flE [] 0 [RevEx.run false [4]]) = true ∧
    SerialsApart (RevEx.done false [4]).v ∧ InForce (RevEx.done false [4]).v (mkCRL [1] [4]) ∧
    IsValid (RevEx.done false [4]).v [5] (mkCert [5] [1] 5 [net10_1] []) := by
  refine ⟨by decide +kernel, by decide +kernel, apart_of (by decide +kernel), ?_, ?_⟩
  · have h : ((RevEx.done false [4]).v.validCRL.get [1]).any (fun j =>
      ((RevEx.done false [4]).v.heap[j]?).any (fun r => match r.data with | .crl l => decide (l = mkCRL [1] [4]) | _ => false)) = true := by
      decide +kernel
    obtain ⟨j, h1, h⟩ := Option.any_eq_true _ _ |>.mp h
    obtain ⟨r, h2, h⟩ := Option.any_eq_true _ _ |>.mp h
    refine ⟨j, r, h1, h2, ?_⟩
    split at h
    · rename_i l hl; rw [hl]; simp at h; rw [h]
    · simp at h
  · have h : ((RevEx.done false [4]).v.validObjects.get [5]).any (fun j =>
      decide ((RevEx.done false [4]).v.certOf j = some (mkCert [5] [1] 5 [net10_1] []))) = true := by decide +kernel
    obtain ⟨j, h1, h⟩ := Option.any_eq_true _ _ |>.mp h
    exact ⟨j, h1, by simpa using h⟩

/-- **C118 is violated** by two certificates of one issuer with one serial: the list in force revokes serial 5, both ROAs have
    certificates with serial 5, and the line of the first is published. -/
theorem C118_violated : ∃ (ms : List (TalRun × M)) (L : ROAList) (m : M) (r : ROAJson) (c : Pki.Cert) (l : Pki.CRL),
    mainValidation flE [tx "T"] 1000 [RevEx.run true [5]] = .ok (ms, L) ∧ ms = [(RevEx.run true [5], m)] ∧
    L.data = [r] ∧ (r.prefixText, r.asn) = (tx "10.1.0.0/16", tx "AS7") ∧ IsValid m.v [5] c ∧ InForce m.v l ∧ l.aki = c.aki ∧
    c.serial ∈ l.revoked := by
  have h : (match mainValidation flE [tx "T"] 1000 [RevEx.run true [5]] with
    | .ok ([(_, m)], L) => decide (L.data.map (fun r => (r.prefixText, r.asn)) = [(tx "10.1.0.0/16", tx "AS7")]) &&
      (m.v.validObjects.get [5]).any (fun j => decide (m.v.certOf j = some (mkCert [5] [1] 5 [net10_1] []))) &&
      (m.v.validCRL.get [1]).any (fun j =>
        (m.v.heap[j]?).any (fun r => match r.data with | .crl l => decide (l = mkCRL [1] [5]) | _ => false))
    | _ => false) = true := by decide +kernel
  split at h
  · rename_i run m L he
    simp only [Bool.and_eq_true, decide_eq_true_eq] at h
    obtain ⟨⟨h1, h2⟩, h3⟩ := h
    obtain ⟨r, hr⟩ : ∃ r, L.data = [r] := by
      cases hd : L.data with
      | nil => rw [hd] at h1; simp at h1
      | cons r rest =>
        cases rest with
        | nil => exact ⟨r, rfl⟩
        | cons a b => rw [hd] at h1; simp at h1
    obtain ⟨j, g1, g2⟩ := (Option.any_eq_true _ _).mp h2
    obtain ⟨j', g3, h3⟩ := (Option.any_eq_true _ _).mp h3
    obtain ⟨res, g4, h3⟩ := (Option.any_eq_true _ _).mp h3
    have hrun : run = RevEx.run true [5] := by
      have := (exploreTals_ok (main_parts he).1).1
      simpa using this
    subst hrun
    refine ⟨_, L, m, r, mkCert [5] [1] 5 [net10_1] [], mkCRL [1] [5], he, rfl, hr, ?_, ⟨j, g1, by simpa using g2⟩, ⟨j', res, g3, g4, ?_⟩,
      by decide +kernel, by decide +kernel⟩
    · rw [hr] at h1; simpa using h1
    · split at h3
      · rename_i l hl; rw [hl]; simp at h3; rw [h3]
      · simp at h3
  · simp at h

/-- **C118, the octets of the lists.** With the decoders of the code: the octets of a delivered file are a revocation list, these are
    the serials in it, and its signature is good under the key of a certificate that is valid at the end and has the key id that the
    list names. -/
theorem C118_list_octets (P : Octets.Prims) (strict : Bool) (t : Int) (fl : Flags) (hm : fl.useManifest = true) (run : TalRun)
    (henv : run.world.env = Octets.octetEnv P strict t) (m : M) (h : exploreTal fl run = .ok m) (l : Pki.CRL) (hl : InForce m.v l) :
    ∃ n path f data sha x c, run.world.getFile n path f = .found data sha ∧ f.type = .crl ∧
      Crl.parseDERCRL ⟨P.civils, P.crlName⟩ data = .ok x ∧ l = x.toPki data ∧ IsValid m.v l.aki c ∧ c.ski = l.aki ∧
      P.verify true (x.alg.1, x.alg.2.full) x.tbs.raw (Crl.rightAlign x.sig) c.pubKey = true := by
  obtain ⟨⟨n, path, f, data, sha, h1, h2, h3⟩, ⟨c, h4, h5, h6⟩, -⟩ := C118_lists fl hm run (fun d c hc => by
    rw [henv] at hc; exact octet_key d c hc) m h l hl
  rw [henv] at h3 h6
  obtain ⟨x, g1, g2, g3⟩ := C116_crl P strict t data l c h3
  exact ⟨n, path, f, data, sha, x, c, h1, h2, g1, g2, h4, h5, g3.mp h6⟩

open X509 X509Spec CmsSpec in
/-- A revocation list of the trust anchor with the serial 9. -/
def OctetEx.listOfAnchor : Bytes :=
  elem 0x30 (elem 0x30 (elem 0x02 [1] ++ xAlg ++ xName [0x41] ++ elem 0x17 (asc "200101000000Z".toList) ++
    elem 0x30 (elem 0x30 (elem 0x02 [9] ++ elem 0x17 (asc "200101000000Z".toList))) ++
    elem 0xa0 (elem 0x30 (xExt (idCe 35) false (elem 0x30 (elem 0x80 [1]))))) ++ xAlg ++ elem 0x03 [0, 0x77])

def OctetEx.anchorListWorld : World := { OctetEx.world with
  getFile := fun n p f =>
    if p = asc "rsync://a/m".toList then .found OctetEx.mftOfList none
    else if p = asc "rsync://a/x.crl".toList then .found OctetEx.listOfAnchor (some [7])
    else OctetEx.world.getFile n p f }

/-- A repository of octets with a list in force. -/
example : OctetEx.anchorListWorld.env = Octets.octetEnv OctetEx.prims false OctetEx.now ∧
    (match exploreTal flE { OctetEx.run with world := OctetEx.anchorListWorld } with
     | .ok m => (m.v.validCRL.get [1]).any (fun j => (m.v.heap[j]?).any (fun r => match r.data with
        | .crl l => decide (l.aki = [1] ∧ l.revoked = [9]) | _ => false))
     | _ => false) = true := by
  exact ⟨rfl, by decide +kernel⟩

end Verif.Props
