import Verif.Props.Pki
/-
  Property theorems about revocation: C19, C20, C25.
-/
set_option autoImplicit false

namespace Verif.Props
open Net Cert ResSpec Roa Pki PkiSpec

/-! ## C19 — revocation is effective -/

/-- At most one certificate is stored under the authority key id followed by the serial in decimal
    (the form in which the code keeps them). -/
def SerialUnique (v : V) (aki : Bytes) (s : Int) : Prop :=
  ∀ k1 c1 k2 c2, Stored v k1 c1 → Stored v k2 c2 →
    c1.aki ++ dec c1.serial = aki ++ dec s → c2.aki ++ dec c2.serial = aki ++ dec s → k1 = k2

theorem trusts_all (env : Env) (op : Op) : TrustsOnly env (fun _ => True) op := by
  cases op <;> simp [TrustsOnly]
theorem roas_all (env : Env) (op : Op) : ROAsOnly env (fun _ => True) op := by
  cases op <;> simp [ROAsOnly]

/-- What an accepted CRL leaves behind. -/
theorem addCRL_accepted {env : Env} {T : Bytes → Prop} {P : ROA → Prop} {v v1 : V} {l : Pki.CRL} {a : Added}
    (hi : Inv env T P v) (h : v.addCRL env l = .ok (v1, a)) (ha : a.valid = true) :
    (∀ s ∈ l.revoked, (v1.revoked.get (serialKey l.aki s)).isSome = true) ∧
    (∀ x j, v1.validObjects.get x = some j → v.validObjects.get x = some j) ∧
    (∀ s ∈ l.revoked, ∀ i c, v.certsSerial.get (serialKey l.aki s) = some i → v.certOf i = some c → c.serial = s →
      v1.validObjects.get c.ski = none) ∧
    (∀ x j, v.validObjects.get x = some j → v1.validObjects.get x = none → ∃ s ∈ l.revoked, ∃ i c,
      v.certsSerial.get (serialKey l.aki s) = some i ∧ v.certOf i = some c ∧ c.serial = s ∧ Below v c.ski x) := by
  obtain ⟨_, _, _, ⟨_, hf, _⟩ | ⟨i, p, pc, v2, _, hob, hpc, hsig, _, hloop, rfl⟩⟩ := addCRL_ok h
  · rw [hf] at ha; simp at ha
  · rename_i hval
    let w : V := { v.alloc { objectToResource (.crl l) with type := .crl, parent := v.objects.get l.aki } with
      validCRL := v.validCRL.set l.aki v.heap.length }
    change revokeLoop l.aki l.revoked w = .ok v2 at hloop
    have hcert : ∀ i c, v.certOf i = some c → w.certOf i = some c := by
      intro i c hc
      rw [certOf_eq] at hc ⊢
      exact (heapExt_alloc v { objectToResource (.crl l) with type := .crl, parent := v.objects.get l.aki }).data i _ hc
    refine ⟨(good_revokeLoop (env := env) (T := fun _ => True) (P := fun _ => True) _ _ _ _ hloop).2.2.2.2, ?_, ?_, ?_⟩
    · exact fun x j hj => revokeLoop_shrinks _ _ _ _ hloop x j hj
    · intro s hs i c h1 h2 h3
      exact revokeLoop_removes _ _ _ _ hloop s hs i c h1 (hcert _ _ h2) h3
    · intro x j hj hn
      obtain ⟨s, hs, i, c, h1, h2, h3, h4⟩ := revokeLoop_isolated _ _ _ _ hloop x j hj hn
      obtain ⟨c', g1, g2, g3⟩ := hi.serial _ _ h1
      have : c' = c := by rw [hcert _ _ g1] at h2; simpa using h2
      subst this
      refine ⟨s, hs, i, c', h1, g1, h3, ?_⟩
      refine reach_below hi ?_
      have hch : ∀ a b, b ∈ w.childIds a → b ∈ v.childIds a := by
        intro a b hb
        rw [childIds_eq] at hb ⊢
        change b ∈ (match v.objects.get a with | none => [] | some i => _) at hb
        cases ho : v.objects.get a with
        | none => rw [ho] at hb; exact hb
        | some n =>
          rw [ho] at hb
          simp only [List.mem_filterMap] at hb ⊢
          obtain ⟨ch, hc1, hc2⟩ := hb
          have hlt := hi.obj_lt ho
          have hcs : w.childsOf n = v.childsOf n := by
            show V.childsOf (v.alloc _) n = _
            rw [childsOf_alloc, if_neg (by omega)]
          rw [hcs] at hc1
          refine ⟨ch, hc1, ?_⟩
          have hk : ∃ d, v.dataOf ch = some d := by
            rcases hi.kids a n ho ch hc1 with ⟨c, h1, _⟩ | ⟨r, h1, _⟩ | ⟨m, h1, _⟩ | ⟨l, h1⟩
            · exact ⟨_, h1⟩
            · exact ⟨_, h1⟩
            · exact ⟨_, h1⟩
            · exact ⟨_, h1⟩
          obtain ⟨d, hd⟩ := hk
          have hdw : w.dataOf ch = some d :=
            (heapExt_alloc v { objectToResource (.crl l) with type := .crl, parent := v.objects.get l.aki }).data ch _ hd
          rw [getIdentifier_dataOf] at hc2 ⊢
          rw [hdw] at hc2
          rw [hd]; exact hc2
      clear h2 h1 hn hj
      induction h4 with
      | self => exact .self
      | step a b _ hb ih => exact .step a b ih (hch a b hb)

/-- **C19, later certificates.** After an accepted CRL of issuer `l.aki` that lists `s`, for the rest of
    the history, no certificate of that issuer with that serial that was not stored yet becomes valid
    (trust anchors apart, which have no issuer). -/
theorem C19_later_rejected (env : Env) (T : Bytes → Prop) (v v1 v2 : V) (hr : Reachable env T v)
    (l : Pki.CRL) (a : Added) (hadd : v.addCRL env l = .ok (v1, a)) (ha : a.valid = true)
    (s : Int) (hs : s ∈ l.revoked) (ops : List Op) (ht : ∀ op ∈ ops, TrustsOnly env T op)
    (h : V.run env v1 ops = .ok v2) (k : Bytes) (c : Pki.Cert) (hv : IsValid v2 k c) (hT : ¬ T k)
    (hnew : v.objects.get k = none) : ¬ (c.aki = l.aki ∧ c.serial = s) := by
  rintro ⟨he, hse⟩
  have hi := reachable_inv hr
  obtain ⟨hrec, hsh, _⟩ := addCRL_accepted hi hadd ha
  have hi1 := (good_addCRL (T := T) (P := fun _ => True) hadd hi).1
  obtain ⟨hi2, hf⟩ := good_run ops v1 v2 ht (fun o _ => roas_all env o) h hi1
  obtain ⟨i, h1, h2⟩ := hv
  rcases hf.new k i h1 with hh | ⟨c', hc', hh | hh⟩
  · have := hi.val _ _ (hsh _ _ hh)
    rw [hnew] at this; simp at this
  · exact hT hh
  · rw [h2] at hc'; simp at hc'; subst hc'
    have := hrec s hs
    rw [he, hse] at hh
    rw [hh] at this; simp at this

/-- **C19, partial.** After an accepted CRL of issuer `l.aki` that lists `s`, for the rest of the history,
    no certificate of that issuer with serial `s` is valid, if at most one such certificate was stored
    when the CRL came. (Missing: two stored certificates of one issuer with the same serial, where the
    property is false, see `C19_violated`.) -/
theorem C19_revoked_partial (env : Env) (T : Bytes → Prop) (v v1 v2 : V) (hr : Reachable env T v)
    (l : Pki.CRL) (a : Added) (hadd : v.addCRL env l = .ok (v1, a)) (ha : a.valid = true)
    (s : Int) (hs : s ∈ l.revoked) (hu : SerialUnique v l.aki s) (ops : List Op)
    (ht : ∀ op ∈ ops, TrustsOnly env T op) (h : V.run env v1 ops = .ok v2)
    (k : Bytes) (c : Pki.Cert) (hv : IsValid v2 k c) (hT : ¬ T k) : ¬ (c.aki = l.aki ∧ c.serial = s) := by
  rintro ⟨he, hse⟩
  have hi := reachable_inv hr
  obtain ⟨hrec, hsh, hrm, _⟩ := addCRL_accepted hi hadd ha
  have hg1 := good_addCRL (T := T) (P := fun _ => True) hadd hi
  obtain ⟨hi2, hf⟩ := good_run ops v1 v2 ht (fun o _ => roas_all env o) h hg1.1
  obtain ⟨i, h1, h2⟩ := hv
  rcases hf.new k i h1 with hh | ⟨c', hc', hh | hh⟩
  · have hv0 := hsh _ _ hh
    obtain ⟨c0, hc0, hk0⟩ := hi.obj _ _ (hi.val _ _ hv0)
    have hcc : c0 = c := by
      have := hf.cert (hg1.2.cert hc0)
      rw [h2] at this; simpa using this.symm
    subst hcc
    rcases hi.chain k i c0 hv0 hc0 with hh | ⟨p, pc, _, _, _, _, _, _, hser, _⟩
    · exact hT hh
    · obtain ⟨j, hj, _⟩ := hser
      obtain ⟨cj, q1, q2, q3⟩ := hi.serial _ _ hj
      have hkk := hu cj.ski cj k c0 ⟨j, q3, q1⟩ ⟨i, hi.val _ _ hv0, hc0⟩
        (by rw [← he, ← hse]; exact q2.symm) (by rw [he, hse])
      have hji : j = i := by rw [hkk, hi.val _ _ hv0] at q3; simpa using q3.symm
      subst hji
      have hcj : cj = c0 := by rw [hc0] at q1; simpa using q1.symm
      subst hcj
      have := hrm s hs j cj (by rw [← he, ← hse]; exact hj) q1 hse
      rw [hkk, hh] at this; simp at this
  · exact hT hh
  · rw [h2] at hc'; simp at hc'; subst hc'
    have := hrec s hs
    rw [he, hse] at hh
    rw [hh] at this; simp at this

/-- A CRL that revokes the child of the trust anchor is accepted, and removes the grandchild too. -/
example : SerialUnique (after env0 opsAB) (mkCRL [1] [2]).aki 2 ∧
    (match (after env0 opsAB).addCRL env0 (mkCRL [1] [2]) with
     | .ok (v, a) => decide (a.valid = true ∧ v.validObjects = [([1], 0)])
     | _ => false) = true := by
  constructor
  · have key : ∀ k1 c1, Stored (after env0 opsAB) k1 c1 → c1.aki ++ dec c1.serial = [1] ++ dec 2 → k1 = [2] := by
      rintro k1 c1 ⟨i, h1, h2⟩ h3
      have hob : (after env0 opsAB).objects = [([3], 2), ([2], 1), ([1], 0)] := by decide +kernel
      have c0 : (after env0 opsAB).certOf 0 = some taC := by decide +kernel
      have c1' : (after env0 opsAB).certOf 1 = some aC := by decide +kernel
      have c2 : (after env0 opsAB).certOf 2 = some bC := by decide +kernel
      rw [hob] at h1
      simp only [Map.get_cons, Map.get_nil] at h1
      split at h1
      · simp at h1; subst h1; rw [c2] at h2; simp at h2; subst h2
        exact absurd h3 (by decide +kernel)
      · split at h1
        · rename_i h; exact h
        · split at h1
          · simp at h1; subst h1; rw [c0] at h2; simp at h2; subst h2
            exact absurd h3 (by decide +kernel)
          · simp at h1
    intro k1 c1 k2 c2 h1 h2 e1 e2
    rw [key k1 c1 h1 e1, key k2 c2 h2 e2]
  · decide +kernel

/-- Two certificates of the trust anchor with the same serial. -/
def dupA : Pki.Cert := mkCert [2] [1] 5 [] []
def dupB : Pki.Cert := mkCert [3] [1] 5 [] []
def opsDup : List Op := [.addCert taC true, .addCert dupA false, .addCert dupB false]

/-- **C19 is false.** If an issuer has issued two certificates with one serial, its CRL removes only the
    one added last: the other one stays valid, although the CRL that lists its serial is accepted. -/
theorem C19_violated : ∃ (env : Env) (T : Bytes → Prop) (ops : List Op) (l : Pki.CRL) (v v1 : V) (a : Added)
    (k : Bytes) (c : Pki.Cert),
    (∀ op ∈ ops, TrustsOnly env T op) ∧ V.run env V.new ops = .ok v ∧ v.addCRL env l = .ok (v1, a) ∧
    a.valid = true ∧ IsValid v1 k c ∧ ¬ T k ∧ c.aki = l.aki ∧ c.serial ∈ l.revoked := by
  have h2 : isOk ((after env0 opsDup).addCRL env0 (mkCRL [1] [5])) = true := by decide +kernel
  obtain ⟨⟨v1, a⟩, h3⟩ : ∃ x, (after env0 opsDup).addCRL env0 (mkCRL [1] [5]) = .ok x := by
    cases h : (after env0 opsDup).addCRL env0 (mkCRL [1] [5]) <;> rw [h] at h2 <;> simp [isOk] at h2 ⊢
  have h4 : (match (after env0 opsDup).addCRL env0 (mkCRL [1] [5]) with
     | .ok (v, a) => decide (a.valid = true ∧ v.validObjects.get [2] = some 1 ∧ v.certOf 1 = some dupA)
     | _ => false) = true := by decide +kernel
  rw [h3] at h4
  simp only [decide_eq_true_eq] at h4
  refine ⟨env0, T1, opsDup, mkCRL [1] [5], after env0 opsDup, v1, a, [2], dupA, ?_, run_after (by decide +kernel),
    h3, h4.1, ⟨1, h4.2⟩, by simp [T1], by decide +kernel, by decide +kernel⟩
  intro op h
  simp [opsDup] at h
  rcases h with rfl | rfl | rfl <;> simp [TrustsOnly, T1, taC, mkCert]

/-! ## C20 — revocation is isolated -/

/-- **C20, nothing else is removed.** Adding a CRL takes validity only from objects below a stored
    certificate of the CRL's own issuer whose serial it lists, and gives validity to nothing. -/
theorem C20_removes_only_revoked (env : Env) (T : Bytes → Prop) (v v1 : V) (hr : Reachable env T v)
    (l : Pki.CRL) (a : Added) (hadd : v.addCRL env l = .ok (v1, a)) (x : Bytes) (c : Pki.Cert) :
    (IsValid v1 x c → IsValid v x c) ∧
    (IsValid v x c → IsValid v1 x c ∨ (a.valid = true ∧
      ∃ d, Stored v d.ski d ∧ d.aki = l.aki ∧ d.serial ∈ l.revoked ∧ Below v d.ski x)) := by
  have hi := reachable_inv hr
  have hg := good_addCRL (T := T) (P := fun _ => True) hadd hi
  by_cases ha : a.valid = true
  · obtain ⟨_, hsh, _, his⟩ := addCRL_accepted hi hadd ha
    constructor
    · rintro ⟨i, h1, h2⟩
      obtain ⟨c', hc', _⟩ := hi.obj _ _ (hi.val _ _ (hsh _ _ h1))
      have := hg.2.cert hc'
      rw [h2] at this
      simp at this
      subst this
      exact ⟨i, hsh _ _ h1, hc'⟩
    · rintro ⟨i, h1, h2⟩
      cases hv : v1.validObjects.get x with
      | none =>
        right
        obtain ⟨s, hs, j, d, g1, g2, g3, g4⟩ := his x i h1 hv
        obtain ⟨d', q1, q2, q3⟩ := hi.serial _ _ g1
        have : d' = d := by rw [g2] at q1; simpa using q1.symm
        subst this
        refine ⟨ha, d', ⟨j, q3, q1⟩, ?_, g3 ▸ hs, g4⟩
        rw [g3] at q2
        exact (serialKey_same_serial q2).symm
      | some j =>
        have := hsh x j hv
        rw [h1] at this
        simp at this
        subst this
        exact .inl ⟨i, hv, hg.2.cert h2⟩
  · obtain ⟨_, _, _, ⟨_, _, rfl⟩ | ⟨_, _, _, _, _, _, _, _, hh, _⟩⟩ := addCRL_ok hadd
    · constructor
      · rintro ⟨i, h1, h2⟩
        obtain ⟨c', hc', _⟩ := hi.obj _ _ (hi.val _ _ h1)
        have := hg.2.cert hc'
        rw [h2] at this
        simp at this
        subst this
        exact ⟨i, h1, hc'⟩
      · rintro ⟨i, h1, h2⟩
        exact .inl ⟨i, h1, hg.2.cert h2⟩
    · exact (ha hh).elim

/-- **C20, partial.** If all key ids have one length, a certificate is rejected as revoked only if an
    accepted CRL of its own issuer lists its serial. (Missing: key ids of different lengths, where the
    property is false, see `C20_violated`.) -/
theorem C20_isolated_partial (env : Env) (ops : List Op) (v : V) (hr : V.run env V.new ops = .ok v)
    (c : Pki.Cert) (hlen : ∀ aki s, RevokedIn env ops aki s → aki.length = c.aki.length)
    (v' : V) (a : Added) (h : v.addCert env c false = .ok (v', a)) (he : a.error = some "revocation") :
    RevokedIn env ops c.aki c.serial := by
  obtain ⟨_, ⟨_, _, _, _, _, hc⟩ | ⟨_, _, herr, _, _⟩⟩ := addCert_ok h
  · rw [hc] at he; simp at he
  · rw [he] at herr
    have hv : v.validateCertificate env c false = .err "revocation" := by
      cases hx : v.validateCertificate env c false with
      | ok u => rw [hx] at herr; simp [errOf] at herr
      | err m => rw [hx] at herr; simp [errOf] at herr; rw [herr]
      | panic => rw [hx] at herr; simp [errOf] at herr
      | diverge => rw [hx] at herr; simp [errOf] at herr
    have hrev := revocation_error hv
    obtain ⟨aki, s, h1, h2⟩ := revoked_from _ _ ops v rfl hr hrev
    obtain ⟨e1, e2⟩ := serialKey_same_length h2 (hlen aki s h1).symm
    rw [e1, e2]; exact h1

/-- A certificate whose own issuer has revoked it meets the hypotheses. -/
example : RevokedIn env0 [.addCert taC true, .addCRL (mkCRL [1] [2])] [1] 2 := by
  refine ⟨[.addCert taC true], .addCRL (mkCRL [1] [2]), [], mkCRL [1] [2], after env0 [.addCert taC true],
    ?_, ?_, rfl, run_after (by decide +kernel), rfl, ?_, ?_, by decide +kernel, by simp [mkCRL]⟩
  · exact (match (after env0 [.addCert taC true]).addCRL env0 (mkCRL [1] [2]) with | .ok x => x.1 | _ => V.new)
  · exact (match (after env0 [.addCert taC true]).addCRL env0 (mkCRL [1] [2]) with | .ok x => x.2 | _ => failed "")
  · decide +kernel
  · decide +kernel

/-- The trust anchors `[1]` and `[1, '1']`; the first revokes serial 12. -/
def opsCollide : List Op :=
  [.addCert taC true, .addCert (mkCert [1, 0x31] [] 1 [] []) true, .addCRL (mkCRL [1] [12])]

/-- **C20 is false.** The key id and the serial are glued together without a separator: a CRL of issuer
    `[1]` for serial 12 has the certificate with serial 2 of the issuer `[1, '1']` rejected as revoked,
    although no CRL of that issuer was ever accepted. -/
theorem C20_violated : ∃ (env : Env) (ops : List Op) (v v' : V) (c : Pki.Cert) (a : Added),
    V.run env V.new ops = .ok v ∧ v.addCert env c false = .ok (v', a) ∧ a.valid = false ∧
    a.error = some "revocation" ∧ (∀ op ∈ ops, ∀ l, OffersCRL env l op → l.aki ≠ c.aki) := by
  let c := mkCert [3] [1, 0x31] 2 [] []
  have h2 : isOk ((after env0 opsCollide).addCert env0 c false) = true := by decide +kernel
  obtain ⟨⟨v1, a⟩, h3⟩ : ∃ x, (after env0 opsCollide).addCert env0 c false = .ok x := by
    cases h : (after env0 opsCollide).addCert env0 c false <;> rw [h] at h2 <;> simp [isOk] at h2 ⊢
  have h4 : (match (after env0 opsCollide).addCert env0 c false with
     | .ok (_, a) => decide (a.valid = false ∧ a.error = some "revocation")
     | _ => false) = true := by decide +kernel
  rw [h3] at h4
  simp only [decide_eq_true_eq] at h4
  refine ⟨env0, opsCollide, after env0 opsCollide, v1, c, a, run_after (by decide +kernel), h3, h4.1, h4.2, ?_⟩
  intro op hop l hl
  simp [opsCollide] at hop
  rcases hop with rfl | rfl | rfl <;> simp [OffersCRL] at hl
  subst hl
  decide +kernel

/-! ## C25 — a misplaced CRL is harmless -/

/-- The issuer is unknown, is not valid, or did not sign the CRL. -/
def Unissued (env : Env) (v : V) (l : Pki.CRL) : Prop :=
  ∀ p, IsValid v l.aki p → env.checkCRLSig p l = false

/-- **C25, partial.** Adding a CRL whose issuer is unknown or not valid, or whose signature is wrong,
    does not crash, reports it invalid, and changes neither the valid objects, ROAs, CRLs and manifests
    nor the revocations. (Missing: the error, and `AddResource`, see the two theorems below.) -/
theorem C25_unissued_partial (env : Env) (T : Bytes → Prop) (v : V) (hr : Reachable env T v) (l : Pki.CRL)
    (hu : Unissued env v l) : ∃ v1 a, v.addCRL env l = .ok (v1, a) ∧ a.valid = false ∧
      v1.validObjects = v.validObjects ∧ v1.validROA = v.validROA ∧ v1.validCRL = v.validCRL ∧
      v1.validManifest = v.validManifest ∧ v1.revoked = v.revoked ∧ v1.objects = v.objects ∧
      (∀ k c, IsValid v1 k c ↔ IsValid v k c) := by
  have hi := reachable_inv hr
  have hnone : v.crlIssuer env l = .ok none := by
    unfold V.crlIssuer
    cases h1 : v.validObjects.get l.aki with
    | none => rfl
    | some i =>
      have ho := hi.val _ _ h1
      obtain ⟨c, hc, _⟩ := hi.obj _ _ ho
      simp [ho, hc, hu c ⟨i, h1, hc⟩]
  obtain ⟨⟨v1, a⟩, h3⟩ : ∃ x, v.addCRL env l = .ok x := by
    unfold V.addCRL
    rw [hnone]
    exact ⟨_, rfl⟩
  have hg := good_addCRL (T := T) (P := fun _ => True) h3 hi
  obtain ⟨_, _, _, ⟨_, hf, rfl⟩ | ⟨i, p, c, _, h1, h2, h4, h5, _⟩⟩ := addCRL_ok h3
  · refine ⟨_, a, h3, hf, rfl, rfl, rfl, rfl, rfl, rfl, fun k c => ⟨?_, ?_⟩⟩
    · rintro ⟨i, h1, h2⟩
      obtain ⟨c', hc', _⟩ := hi.obj _ _ (hi.val _ _ h1)
      have := hg.2.cert hc'
      rw [h2] at this
      simp at this
      subst this
      exact ⟨i, h1, hc'⟩
    · rintro ⟨i, h1, h2⟩
      exact ⟨i, h1, hg.2.cert h2⟩
  · have := hi.val _ _ h1
    rw [h2] at this
    simp at this
    subst this
    rw [hu c ⟨p, h1, h4⟩] at h5; simp at h5

example : Unissued env0 (after env0 opsAB) (mkCRL [9] [2]) := by
  rintro p ⟨i, h, _⟩
  have : (after env0 opsAB).validObjects.get (mkCRL [9] [2]).aki = none := by decide +kernel
  rw [this] at h; simp at h

/-- **C25 is false: crash.** `AddResource` with a CRL file whose issuer is not stored crashes, in every
    reachable state, whatever the file's parents are. -/
theorem C25_violated_unknown_issuer (env : Env) (T : Bytes → Prop) (v : V) (hr : Reachable env T v)
    (files : List PKIFile) (fid : Nat) (f : PKIFile) (hf : files[fid]? = some f) (hft : f.type = .crl)
    (data : Bytes) (l : Pki.CRL) (hp : env.parseCRL data = .ok l) (hn : v.objects.get l.aki = none) :
    v.addResource env files fid data = .panic := by
  have hi := reachable_inv hr
  have hu : Unissued env v l := by
    rintro p ⟨i, h1, _⟩
    have := hi.val _ _ h1
    rw [hn] at this; simp at this
  unfold V.addResource
  rw [hf]
  simp only [hft, hp]
  unfold V.addResourceCRL
  have hv : v.validObjects.get l.aki = none := by
    cases h : v.validObjects.get l.aki with
    | none => rfl
    | some i => have := hi.val _ _ h; rw [hn] at this; simp at this
  have hadd : v.addCRL env l = .ok ({ v.alloc { objectToResource (.crl l) with type := .crl, parent := none } with
      crl := v.crl.set l.aki v.heap.length }, ⟨false, [], some v.heap.length, none⟩) := by
    unfold V.addCRL V.crlIssuer
    rw [hv, hn]
    rfl
  generalize hw : ({ v.alloc { objectToResource (.crl l) with type := .crl, parent := none } with
      crl := v.crl.set l.aki v.heap.length } : V) = w at hadd
  rw [hadd]
  simp only [Go.ok_bind]
  unfold V.crlMismatch
  have hpar : w.parentOf v.heap.length = none := by
    rw [← hw]
    show V.parentOf (v.alloc _) _ = none
    rw [parentOf_alloc]; simp
  split
  · rfl
  · split
    · rfl
    · rw [hpar]; rfl

/-- The bytes `[1]` are the trust anchor, `[2]` its child, `[9]` a CRL of the trust anchor for that child. -/
def env1 : Env := { env0 with
  parseCert := fun d => if d = [1] then .ok taC else if d = [2] then .ok aC else .err ""
  parseCRL := fun d => if d = [9] then .ok (mkCRL [1] [2]) else .err "" }

/-- The trust anchor's file; its child's file; a manifest below the child; a CRL below that manifest. -/
def files1 : List PKIFile :=
  [⟨none, [], [65], .cer, true, none⟩, ⟨none, [], [66], .cer, false, none⟩,
   ⟨some 1, [], [67], .mft, false, none⟩, ⟨some 2, [], [68], .crl, false, none⟩,
   ⟨none, [], [69], .crl, false, none⟩]
def ops1 : List Op := [.addResource files1 0 [1], .addResource files1 1 [2]]

example : (after env1 ops1).objects.get (mkCRL [9] []).aki = none := by decide +kernel

/-- **C25 is false: applied although rejected.** A CRL of the trust anchor that is published by its child
    is reported as misplaced, but its revocations have been applied: the child is no longer valid. -/
theorem C25_violated_misplaced : ∃ (env : Env) (T : Bytes → Prop) (ops : List Op) (v v1 : V)
    (files : List PKIFile) (fid : Nat) (data : Bytes) (a : Added) (k : Bytes) (c : Pki.Cert),
    (∀ op ∈ ops, TrustsOnly env T op) ∧ V.run env V.new ops = .ok v ∧
    v.addResource env files fid data = .ok (v1, a) ∧ a.valid = false ∧
    a.error = some "CRL does not match with the parent" ∧ IsValid v k c ∧ ∀ c', ¬ IsValid v1 k c' := by
  have h2 : isOk ((after env1 ops1).addResource env1 files1 3 [9]) = true := by decide +kernel
  obtain ⟨⟨v1, a⟩, h3⟩ : ∃ x, (after env1 ops1).addResource env1 files1 3 [9] = .ok x := by
    cases h : (after env1 ops1).addResource env1 files1 3 [9] <;> rw [h] at h2 <;> simp [isOk] at h2 ⊢
  have h4 : (match (after env1 ops1).addResource env1 files1 3 [9] with
     | .ok (v, a) => decide (a.valid = false ∧ a.error = some "CRL does not match with the parent" ∧
        v.validObjects.get [2] = none)
     | _ => false) = true := by decide +kernel
  rw [h3] at h4
  simp only [decide_eq_true_eq] at h4
  refine ⟨env1, T1, ops1, after env1 ops1, v1, files1, 3, [9], a, [2], aC, ?_, run_after (by decide +kernel),
    h3, h4.1, h4.2.1, ⟨1, by decide +kernel⟩, ?_⟩
  · intro op h
    simp [ops1] at h
    rcases h with rfl | rfl
    · intro f c hf ht hp
      simp [env1] at hp
      subst hp
      simp [T1, taC, mkCert]
    · intro f c hf ht hp
      simp [files1] at hf
      subst hf
      simp at ht
  · rintro c' ⟨i, h5, _⟩
    rw [h4.2.2] at h5; simp at h5

end Verif.Props
