import Verif.Lemmas.PkiRevoke
import Verif.Lemmas.PkiAnchor
import Verif.Props.Roa
import Verif.Props.Tal
/-
  Property theorems for the Validator: C15 to C25, C30, C66.
-/
set_option autoImplicit false

namespace Verif.Props
open Net Cert ResSpec Roa Pki PkiSpec

/-! ### Concrete certificates for the examples -/

/-- All signatures verify; nothing is parsed. -/
def env0 : Env where
  now := 50
  checkSig := fun _ _ => true
  checkCRLSig := fun _ _ => true
  asn := ⟨fun _ => .err "", fun _ => .err "", fun _ => .err ""⟩
  sha1 := id
  parseCert := fun _ => .err ""
  parseROA := fun _ => .err ""
  parseMft := fun _ => .err ""
  parseCRL := fun _ => .err ""

/-- A certificate valid from 0 to 100. -/
def mkCert (ski aki : Bytes) (serial : Int) (ips : List IPInfo) (asns : List ASInfo) : Pki.Cert :=
  ⟨ski, aki, serial, 0, 100, ips, asns, [], [], true, .other, []⟩

/-- A CRL of an issuer. -/
def mkCRL (aki : Bytes) (revoked : List Int) : Pki.CRL := ⟨[(true, [0, 0, 0, 0] ++ aki)], revoked, []⟩

def isOk {α : Type} : Go α → Bool
  | .ok _ => true
  | _ => false

/-- The state after a history. -/
def after (env : Env) (ops : List Op) : V :=
  match V.run env V.new ops with
  | .ok v => v
  | _ => V.new

theorem run_after {env : Env} {ops : List Op} (h : isOk (V.run env V.new ops) = true) :
    V.run env V.new ops = .ok (after env ops) := by
  unfold after
  cases hr : V.run env V.new ops <;> rw [hr] at h <;> simp [isOk] at h ⊢

/-- Trust anchor, a CA below it, a CA below that. -/
def taC : Pki.Cert := mkCert [1] [] 1 [net10] [.range 1 100]
def aC : Pki.Cert := mkCert [2] [1] 2 [net10_1] [.asn 7]
def bC : Pki.Cert := mkCert [3] [2] 3 [.null 1] [.null]
def opsAB : List Op := [.addCert taC true, .addCert aC false, .addCert bC false]
/-- The only trust anchor. -/
def T1 : Bytes → Prop := fun k => k = [1]

theorem opsAB_trust : ∀ op ∈ opsAB, TrustsOnly env0 T1 op := by
  intro op h
  simp [opsAB] at h
  rcases h with rfl | rfl | rfl <;> simp [TrustsOnly, T1, taC, mkCert]

theorem opsAB_reachable : Reachable env0 T1 (after env0 opsAB) :=
  ⟨opsAB, opsAB_trust, run_after (by decide +kernel)⟩

/-! ## C15 — the chain of trust is closed -/

theorem isValid_inv {env : Env} {T : Bytes → Prop} {P : ROA → Prop} {v : V} (hi : Inv env T P v)
    {k : Bytes} {c : Pki.Cert} (h : IsValid v k c) : c.ski = k ∧ Stored v k c := by
  obtain ⟨i, h1, h2⟩ := h
  exact ⟨hi.obj_certOf (hi.val _ _ h1) h2, i, hi.val _ _ h1, h2⟩

/-- **C15.** After any history, every valid object heads a finite chain of valid certificates, each
    signed by the next one and in its validity window, that ends at a trust anchor. -/
theorem C15_chain_of_trust (env : Env) (T : Bytes → Prop) (v : V) (hr : Reachable env T v)
    (k : Bytes) (c : Pki.Cert) (h : IsValid v k c) : Chain env T v k := by
  have hi := reachable_inv hr
  obtain ⟨i, h1, h2⟩ := h
  have key : ∀ n i k c, i ≤ n → v.validObjects.get k = some i → v.certOf i = some c → Chain env T v k := by
    intro n
    induction n with
    | zero =>
      intro i k c hle h1 h2
      rcases hi.chain k i c h1 h2 with ht | ⟨p, pc, _, _, hlt, _⟩
      · exact .anchor k c ⟨i, h1, h2⟩ ht
      · omega
    | succ n ih =>
      intro i k c hle h1 h2
      rcases hi.chain k i c h1 h2 with ht | ⟨p, pc, g1, g2, hlt, _, g3, g4, _⟩
      · exact .anchor k c ⟨i, h1, h2⟩ ht
      · exact .step k c pc ⟨i, h1, h2⟩ ⟨p, g1, g2⟩ g3 g4 (ih p c.aki pc (by omega) g1 g2)
  exact key i i k c (Nat.le_refl _) h1 h2

/-- **C15, certificate by certificate.** After any history in which only certificates that satisfy `A` were offered as trust
    anchors, every valid object heads a chain that ends at one of these certificates (not just at a certificate with the same key
    id); all certificates of the chain are in their validity windows, the last one too. -/
theorem C15_to_anchor (env : Env) (A : Pki.Cert → Prop) (ops : List Op) (ha : ∀ op ∈ ops, OffersOnly env A op) (v : V)
    (hr : V.run env V.new ops = .ok v) (k : Bytes) (c : Pki.Cert) (h : IsValid v k c) : Ascends env A v c :=
  ascends ha hr h

example : (∀ op ∈ opsAB, OffersOnly env0 (· = taC) op) ∧ IsValid (after env0 opsAB) [3] bC := by
  refine ⟨?_, 2, by decide +kernel⟩
  intro op h
  simp only [opsAB, List.mem_cons, List.not_mem_nil, or_false] at h
  rcases h with rfl | rfl | rfl <;> simp [OffersOnly]

/-- **C15, as in the list.** A valid object that is not a trust anchor has a valid issuer. -/
theorem C15_issuer_valid (env : Env) (T : Bytes → Prop) (v : V) (hr : Reachable env T v)
    (k : Bytes) (c : Pki.Cert) (h : IsValid v k c) (ht : ¬ T k) : ∃ p, IsValid v c.aki p := by
  have hi := reachable_inv hr
  obtain ⟨i, h1, h2⟩ := h
  rcases hi.chain k i c h1 h2 with hh | ⟨p, pc, g1, g2, _⟩
  · exact (ht hh).elim
  · exact ⟨pc, p, g1, g2⟩

example : IsValid (after env0 opsAB) [3] bC ∧ ¬ T1 [3] := ⟨⟨2, by decide +kernel⟩, by simp [T1]⟩
/-- After invalidation of the middle certificate only the anchor is left. -/
example : (after env0 (opsAB ++ [.invalidate [2]])).validObjects = [([1], 0)] := by decide +kernel

/-! ## C16 — acceptance is justified -/

theorem verdictIP_valid {p : Pki.Cert} {e : IPInfo} (hw : ∀ e ∈ p.ips, WfEntry e) (hp : ProperEntry e)
    (h : clIP p e = .ok .valid) : CoversIP p e := by
  have hs : validateIPCertificateList [e] p.ips = .ok ⟨[e], [], []⟩ := by
    unfold clIP at h
    simp [validateIPCertificateList, splitFrom, h, Split.add]
  exact C05_validated_sound _ _ hw _ hs e (by simp) hp

theorem verdictIP_check {p : Pki.Cert} {e : IPInfo} (hw : ∀ e ∈ p.ips, WfEntry e) (hp : ProperEntry e)
    (h : clIP p e = .ok .checkParent) : InheritsIP p := by
  have hs : validateIPCertificateList [e] p.ips = .ok ⟨[], [], [e]⟩ := by
    unfold clIP at h
    simp [validateIPCertificateList, splitFrom, h, Split.add]
  obtain ⟨f, hf, _⟩ := (C07_ip_verdicts _ _ hw _ hs e hp).2 (by simp)
  exact ⟨f, hf⟩

theorem properAS_range {e : ASInfo} (hp : ProperAS e) : e ≠ .null ∧ e.getRange.1 ≤ e.getRange.2.1 ∧
    ∀ a, ASDenotes e a ↔ e.getRange.1 ≤ a ∧ a ≤ e.getRange.2.1 := by
  obtain ⟨a, ha⟩ := hp
  cases ha with
  | asn =>
    refine ⟨by simp, by simp [ASInfo.getRange], fun b => ?_⟩
    simp only [ASInfo.getRange]
    constructor
    · intro h; cases h; omega
    · intro h
      have : b = a := by omega
      rw [this]; exact .asn a
  | range min max _ h1 h2 =>
    refine ⟨by simp, by simp [ASInfo.getRange]; omega, fun b => ?_⟩
    simp only [ASInfo.getRange]
    constructor
    · intro h; cases h; omega
    · rintro ⟨h1, h2⟩; exact .range _ _ _ h1 h2

theorem verdictAS_valid {p : Pki.Cert} {e : ASInfo} (hp : ProperAS e)
    (h : clAS p e = .ok .valid) : CoversAS p e := by
  obtain ⟨hn, hle, hd⟩ := properAS_range hp
  have hs : validateASNCertificateList [e] p.asns = .ok ⟨[e], [], []⟩ := by
    unfold clAS at h
    simp at h
    simp [validateASNCertificateList, splitFrom, h, Split.add]
  have := ((C07_as_verdicts _ _ _ hs e (by simp)).1.mp (by simp)).resolve_left hn
  obtain ⟨pre, f, post, he, _, hf⟩ := (C06_as_exact _ _ _ hle).1.mp this
  refine ⟨f, by rw [he]; simp, fun x hx => ?_⟩
  exact hf x ((hd x).mp hx).1 ((hd x).mp hx).2

theorem verdictAS_check {p : Pki.Cert} {e : ASInfo}
    (h : clAS p e = .ok .checkParent) : InheritsAS p := by
  have hs : validateASNCertificateList [e] p.asns = .ok ⟨[], [], [e]⟩ := by
    unfold clAS at h
    simp at h
    simp [validateASNCertificateList, splitFrom, h, Split.add]
  exact ((C07_as_verdicts _ _ _ hs e (by simp)).2.1 (by simp)).1

/-- Every accepted CRL of the history has its serials recorded. -/
theorem revokedIn_recorded {env : Env} {ops : List Op} {v : V} (hr : V.run env V.new ops = .ok v)
    {aki : Bytes} {s : Int} (h : RevokedIn env ops aki s) : (v.revoked.get (serialKey aki s)).isSome = true := by
  obtain ⟨pre, op, post, l, v0, v1, a, rfl, h0, hop, hadd, hval, rfl, hs⟩ := h
  have htr : ∀ op : Op, TrustsOnly env (fun _ => True) op := by intro op; cases op <;> simp [TrustsOnly]
  have hro : ∀ op : Op, ROAsOnly env (fun _ => True) op := by intro op; cases op <;> simp [ROAsOnly]
  have hi0 := (good_run pre V.new v0 (fun o _ => htr o) (fun o _ => hro o) h0 (inv_new _ _ _)).1
  obtain ⟨w, hw, hrest⟩ := (run_append pre (op :: post) V.new v).mp hr
  rw [h0] at hw
  simp at hw
  subst hw
  have hrec : (v1.revoked.get (serialKey l.aki s)).isSome = true := by
    obtain ⟨_, _, _, ⟨_, hf, _⟩ | ⟨i, p, c, v2, _, _, _, _, _, hloop, rfl⟩⟩ := addCRL_ok hadd
    · rw [hf] at hval; simp at hval
    · exact (good_revokeLoop (env := env) (T := fun _ => True) (P := fun _ => True) _ _ _ _ hloop).2.2.2.2 s hs
  have hi1 := (good_addCRL (T := fun _ => True) (P := fun _ => True) hadd hi0).1
  unfold V.run at hrest
  obtain ⟨w, hw, hrest⟩ := Go.bind_eq_ok.mp hrest
  have hg := (good_step (htr op) (hro op) hw hi0).1
  have hfin : ∀ w, Inv env (fun _ => True) (fun _ => True) w → (w.revoked.get (serialKey l.aki s)).isSome = true →
      V.run env w post = .ok v → (v.revoked.get (serialKey l.aki s)).isSome = true := by
    intro w hiw hrw hrun
    exact (good_run post w v (fun o _ => htr o) (fun o _ => hro o) hrun hiw).2.rev _ hrw
  refine hfin w hg ?_ hrest
  obtain ⟨b, hs1, hs2, _⟩ := step_offersCRL hop hw
  rw [hs1] at hadd
  simp only [Go.ok.injEq] at hadd
  rw [hs2, hadd]; exact hrec

/-- The issuer `p` holds the resource; or `p` inherits, and then `p` is a trust anchor, or the issuer of
    `p` holds it or inherits. This is as far up as the code looks. -/
def IPJustified (T : Bytes → Prop) (v : V) (p : Pki.Cert) (e : IPInfo) : Prop :=
  CoversIP p e ∨ (InheritsIP p ∧ (T p.ski ∨ ∃ g, IsValid v p.aki g ∧ (CoversIP g e ∨ InheritsIP g)))
def ASJustified (T : Bytes → Prop) (v : V) (p : Pki.Cert) (e : ASInfo) : Prop :=
  CoversAS p e ∨ (InheritsAS p ∧ (T p.ski ∨ ∃ g, IsValid v p.aki g ∧ (CoversAS g e ∨ InheritsAS g)))

/-- Every stored certificate has well-formed resource lists, as the decoder makes them (C05). -/
def WellFormed (v : V) : Prop := ∀ k c, Stored v k c → ∀ e ∈ c.ips, WfEntry e

theorem stored_of_valid {env : Env} {T : Bytes → Prop} {P : ROA → Prop} {v : V} (hi : Inv env T P v)
    {k : Bytes} {i : Nat} {c : Pki.Cert} (h1 : v.validObjects.get k = some i) (h2 : v.certOf i = some c) :
    Stored v k c := ⟨i, hi.val _ _ h1, h2⟩

/-- **C16.** A certificate that is not a trust anchor is reported valid only if at that moment its
    issuer was valid, its signature verifies under the issuer's key, the time is in its window, no
    accepted CRL of that issuer listed its serial, and none of its resources is outside of what the
    issuer, or above an inheriting issuer the next one, holds. -/
theorem C16_acceptance_justified (env : Env) (T : Bytes → Prop) (ops : List Op)
    (ht : ∀ op ∈ ops, TrustsOnly env T op) (v : V) (hr : V.run env V.new ops = .ok v) (hw : WellFormed v)
    (c : Pki.Cert) (v' : V) (a : Added) (h : v.addCert env c false = .ok (v', a)) (ha : a.valid = true) :
    ∃ p, IsValid v c.aki p ∧ env.checkSig c p = true ∧ (c.notBefore ≤ env.now ∧ env.now ≤ c.notAfter) ∧
      ¬ RevokedIn env ops c.aki c.serial ∧
      (∀ e ∈ c.ips, ProperEntry e → IPJustified T v p e) ∧
      (∀ e ∈ c.asns, ProperAS e → ASJustified T v p e) ∧
      a.error = none ∧ IsValid v' c.ski c := by
  have hi := reachable_inv ⟨ops, ht, hr⟩
  obtain ⟨_, hcert', hval'⟩ := frame_addCert (T := T) hi.val (by simp) h
  obtain ⟨_, ⟨_, _, _, hf, _⟩ | ⟨_, _, he, hva, _⟩⟩ := addCert_ok h
  · rw [hf] at ha; simp at ha
  · have hev : a.error = none := by rw [ha] at hva; simp at hva; exact hva.2
    rw [hev] at he
    obtain ⟨p, pc, g1, g2, g3, g4, g5, g6, g7⟩ := validate_ok (errOf_none he)
    have hwp := hw _ _ (stored_of_valid hi g1 g2)
    have hsk := hi.obj_certOf (hi.val _ _ g1) g2
    have hta : v.parentOf p = none → T pc.ski := by
      intro hnp
      rcases hi.chain _ _ _ g1 g2 with hh | ⟨_, _, _, _, _, _, _, _, _, hh, _⟩
      · rw [hsk]; exact hh
      · rw [hnp] at hh; simp at hh
    refine ⟨pc, ⟨p, g1, g2⟩, g3, g4, ?_, ?_, ?_, hev, ⟨_, (hval' ha).1, hcert'⟩⟩
    · intro hrev
      have := revokedIn_recorded hr hrev
      rw [g5] at this; simp at this
    · intro e hem hp
      rcases g6 e hem with hh | ⟨hh, hh'⟩
      · exact .inl (verdictIP_valid hwp hp hh)
      · refine .inr ⟨verdictIP_check hwp hp hh, ?_⟩
        rcases hh' with hh' | ⟨u, gc, k1, k2, k3⟩
        · exact .inl (hta hh')
        · have hwg := hw _ _ (stored_of_valid hi k1 k2)
          exact .inr ⟨gc, ⟨u, k1, k2⟩, k3.imp (verdictIP_valid hwg hp) (verdictIP_check hwg hp)⟩
    · intro e hem hp
      rcases g7 e hem with hh | ⟨hh, hh'⟩
      · exact .inl (verdictAS_valid hp hh)
      · refine .inr ⟨verdictAS_check hh, ?_⟩
        rcases hh' with hh' | ⟨u, gc, k1, k2, k3⟩
        · exact .inl (hta hh')
        · exact .inr ⟨gc, ⟨u, k1, k2⟩, k3.imp (verdictAS_valid hp) verdictAS_check⟩

/-- **C16, converse.** A certificate with a new key id, a valid issuer that holds all its resources, a
    good signature, a current validity window and a serial that is not revoked is reported valid, and
    is valid afterwards. -/
theorem C16_complete (env : Env) (v : V) (c p : Pki.Cert) (hn : v.objects.get c.ski = none)
    (hp : IsValid v c.aki p) (hs : env.checkSig c p = true) (ht : c.notBefore ≤ env.now ∧ env.now ≤ c.notAfter)
    (hrev : v.revoked.get (serialKey c.aki c.serial) = none)
    (hips : validateIPCertificateList c.ips p.ips = .ok ⟨c.ips, [], []⟩)
    (hasn : validateASNCertificateList c.asns p.asns = .ok ⟨c.asns, [], []⟩) :
    ∃ v' a, v.addCert env c false = .ok (v', a) ∧ a.valid = true ∧ a.error = none ∧ IsValid v' c.ski c := by
  obtain ⟨i, h1, h2⟩ := hp
  have htime : Cert.validateTime c.notBefore c.notAfter env.now = .ok () := by
    unfold Cert.validateTime
    rw [if_neg (by omega), if_neg (by omega)]
  have hloop : ∀ {α : Type} (split : List α → Pki.Cert → Go (Split α)) (n : Nat) (ch : Option Nat) (l : List α),
      chainLoop v p split (n + 1) ch ⟨l, [], []⟩ = .ok ⟨l, [], []⟩ := by
    intro α split n ch l
    cases ch <;> simp [chainLoop]
  have hval : v.validateCertificate env c false = .ok () := by
    unfold V.validateCertificate
    rw [htime]
    simp [h1, h2, hs, hrev, hips, hasn, hloop]
  have hadd : ∃ v' a, v.addCert env c false = .ok (v', a) ∧ a.valid = true ∧ a.error = none ∧
      v'.certOf v.heap.length = some c ∧ v'.validObjects.get c.ski = some v.heap.length := by
    refine ⟨((v.alloc { objectToResource (.cert c) with parent := v.objects.get c.aki }).link c
          v.heap.length true).store c.ski v.heap.length true,
      ⟨true, extractPathCert c, some v.heap.length, none⟩, ?_, rfl, rfl, ?_, ?_⟩
    · unfold V.addCert
      rw [hn]
      simp [hval, errOf, h1]
    · have hd : (v.alloc { objectToResource (.cert c) with parent := v.objects.get c.aki }).dataOf v.heap.length
          = some (.cert c) := by rw [dataOf_alloc]; simp [objectToResource]
      generalize v.alloc { objectToResource (.cert c) with parent := v.objects.get c.aki } = w at hd
      rw [certOf_eq]
      show (w.link c v.heap.length true).dataOf v.heap.length = _
      unfold V.link
      split
      · simp only [if_true]
        show V.dataOf (V.modify _ _ _) _ = _
        rw [dataOf_modify]
        · exact hd
        · intro r; rfl
      · exact hd
    · simp [V.store, Map.get_set]
  obtain ⟨v', a, g1, g2, g3, g4, g5⟩ := hadd
  exact ⟨v', a, g1, g2, g3, ⟨_, g5, g4⟩⟩

example : validateIPCertificateList aC.ips taC.ips = .ok ⟨aC.ips, [], []⟩ ∧
    validateASNCertificateList aC.asns taC.asns = .ok ⟨aC.asns, [], []⟩ ∧
    IsValid (after env0 [.addCert taC true]) aC.aki taC := by
  exact ⟨by decide +kernel, by decide +kernel, 0, by decide +kernel⟩

example : WellFormed (after env0 opsAB) := by
  rintro k c ⟨i, _, h⟩ e he
  have key : ∀ r ∈ (after env0 opsAB).heap, r.data = .cert taC ∨ r.data = .cert aC ∨ r.data = .cert bC := by
    decide +kernel
  unfold V.certOf at h
  split at h
  · rename_i r hr
    rcases key r (List.mem_of_getElem? hr) with hd | hd | hd <;>
      simp only [hd, Option.some.injEq] at h <;> subst h <;>
      simp [taC, aC, bC, mkCert] at he <;> subst he
    · exact .inl proper_net10
    · exact .inl proper_net10_1
    · trivial
  · simp at h

/-! ## C17 — no over-claim through inheritance -/

/-- What the code guarantees in every reachable state: every resource of a valid certificate is held
    by its issuer, or its issuer inherits and (unless it is a trust anchor) the next one holds the
    resource or inherits. -/
theorem C17_two_levels_partial (env : Env) (T : Bytes → Prop) (v : V) (hr : Reachable env T v)
    (hw : WellFormed v) (k : Bytes) (c : Pki.Cert) (h : IsValid v k c) (ht : ¬ T k) :
    ∃ p, IsValid v c.aki p ∧ (∀ e ∈ c.ips, ProperEntry e → IPJustified T v p e) ∧
      (∀ e ∈ c.asns, ProperAS e → ASJustified T v p e) := by
  have hi := reachable_inv hr
  obtain ⟨i, h1, h2⟩ := h
  rcases hi.chain k i c h1 h2 with hh | ⟨p, pc, g1, g2, _, _, _, _, _, _, g9, g10⟩
  · exact (ht hh).elim
  · have hwp := hw _ _ (stored_of_valid hi g1 g2)
    have hsk := hi.obj_certOf (hi.val _ _ g1) g2
    have hval : ∀ g gc, v.objects.get pc.aki = some g → v.certOf g = some gc → T pc.ski ∨ IsValid v pc.aki gc := by
      intro g gc k1 k2
      rcases hi.chain _ _ _ g1 g2 with hh | ⟨q, qc, q1, q2, _⟩
      · exact .inl (by rw [hsk]; exact hh)
      · right
        have := hi.val _ _ q1
        rw [k1] at this
        simp at this
        subst this
        exact ⟨g, q1, k2⟩
    refine ⟨pc, ⟨p, g1, g2⟩, ?_, ?_⟩
    · intro e hem hp
      rcases g9 e hem with hh | ⟨hh, hh'⟩
      · exact .inl (verdictIP_valid hwp hp hh)
      · refine .inr ⟨verdictIP_check hwp hp hh, ?_⟩
        rcases hh' with hh' | ⟨u, gc, k1, k2, k3⟩
        · exact .inl hh'
        · have hwg := hw _ _ ⟨u, k1, k2⟩
          rcases hval u gc k1 k2 with hv | hv
          · exact .inl hv
          · exact .inr ⟨gc, hv, k3.imp (verdictIP_valid hwg hp) (verdictIP_check hwg hp)⟩
    · intro e hem hp
      rcases g10 e hem with hh | ⟨hh, hh'⟩
      · exact .inl (verdictAS_valid hp hh)
      · refine .inr ⟨verdictAS_check hh, ?_⟩
        rcases hh' with hh' | ⟨u, gc, k1, k2, k3⟩
        · exact .inl hh'
        · rcases hval u gc k1 k2 with hv | hv
          · exact .inl hv
          · exact .inr ⟨gc, hv, k3.imp (verdictAS_valid hp) verdictAS_check⟩

/-- **C17, partial.** If trust anchors do not inherit, and no valid certificate inherits from an issuer
    that inherits itself, then every resource of every valid certificate is held by an ancestor with
    only inheriting certificates in between. (Missing: chains of two or more inheriting certificates,
    where the property is false, see `C17_violated`.) -/
theorem C17_no_overclaim_partial (env : Env) (T : Bytes → Prop) (v : V) (hr : Reachable env T v)
    (hw : WellFormed v)
    (hta : ∀ k p, IsValid v k p → T k → ¬ InheritsIP p ∧ ¬ InheritsAS p)
    (h2 : ∀ k p g, IsValid v k p → IsValid v p.aki g → (InheritsIP p → ¬ InheritsIP g) ∧ (InheritsAS p → ¬ InheritsAS g))
    (k : Bytes) (c : Pki.Cert) (h : IsValid v k c) (ht : ¬ T k) :
    (∀ e ∈ c.ips, ProperEntry e → AuthIP v e c) ∧ (∀ e ∈ c.asns, ProperAS e → AuthAS v e c) := by
  obtain ⟨p, hp, h4, h5⟩ := C17_two_levels_partial env T v hr hw k c h ht
  have hsk := (isValid_inv (reachable_inv hr) hp).1
  refine ⟨fun e he hpe => ?_, fun e he hpe => ?_⟩
  · rcases h4 e he hpe with hc | ⟨hinh, hh | ⟨g, hg, hh⟩⟩
    · exact .here c p hp hc
    · exact ((hta _ _ hp (hsk ▸ hh)).1 hinh).elim
    · rcases hh with hh | hh
      · exact .up c p hp hinh (.here p g hg hh)
      · exact ((h2 _ _ _ hp hg).1 hinh hh).elim
  · rcases h5 e he hpe with hc | ⟨hinh, hh | ⟨g, hg, hh⟩⟩
    · exact .here c p hp hc
    · exact ((hta _ _ hp (hsk ▸ hh)).2 hinh).elim
    · rcases hh with hh | hh
      · exact .up c p hp hinh (.here p g hg hh)
      · exact ((h2 _ _ _ hp hg).2 hinh hh).elim

/-- The chain of the counterexample: a trust anchor with 10.0.0.0/8, two certificates that inherit, and
    one that claims 11.0.0.0/8. -/
def net11 : IPInfo := .net (some ⟨[11, 0, 0, 0], [255, 0, 0, 0]⟩)
def opsOver : List Op :=
  [.addCert (mkCert [1] [] 1 [net10] []) true, .addCert (mkCert [2] [1] 2 [.null 1] []) false,
   .addCert (mkCert [3] [2] 3 [.null 1] []) false, .addCert (mkCert [4] [3] 4 [net11] []) false]

theorem net10_not_11 : ¬ Denotes net10 (addrNum [11, 0, 0, 0]) := by
  obtain ⟨b, e, h1, _, _, h4⟩ := getRangeIP_proper proper_net10
  have h5 : getRangeIP (some ⟨[10, 0, 0, 0], [255, 0, 0, 0]⟩) = .ok ([10, 0, 0, 0], [10, 255, 255, 255]) := by
    decide +kernel
  rw [h5] at h1
  simp at h1
  obtain ⟨rfl, rfl⟩ := h1
  intro h
  have := ((h4 _).mp h).2
  revert this
  decide

/-- **C17 fails with two inheriting certificates in a row.** The climb consults the same certificate
    again and again, so what it cannot settle is never settled: the certificate that claims
    11.0.0.0/8 is accepted although no other certificate of the store holds any of it. -/
theorem C17_violated :
    ∃ ops v, (∀ op ∈ ops, TrustsOnly env0 T1 op) ∧ V.run env0 V.new ops = .ok v ∧
      IsValid v [4] (mkCert [4] [3] 4 [net11] []) ∧ Denotes net11 (addrNum [11, 0, 0, 0]) ∧
      (∀ k p, Stored v k p → k ≠ [4] → ∀ f ∈ p.ips, ¬ Denotes f (addrNum [11, 0, 0, 0])) ∧
      ¬ AuthIP v net11 (mkCert [4] [3] 4 [net11] []) := by
  have htr : ∀ op ∈ opsOver, TrustsOnly env0 T1 op := by
    intro op h
    simp [opsOver] at h
    rcases h with rfl | rfl | rfl | rfl <;> simp [TrustsOnly, T1, mkCert]
  have hrun : V.run env0 V.new opsOver = .ok (after env0 opsOver) := run_after (by decide +kernel)
  have hden : Denotes net11 (addrNum [11, 0, 0, 0]) :=
    .net4 _ _ 8 (0x0b000000) rfl rfl (by simp [IsMask, BerSpec.beVal]) (by omega) (by simp [BerSpec.beVal])
  have hi := reachable_inv (T := T1) ⟨opsOver, htr, hrun⟩
  have hno : ∀ k p, Stored (after env0 opsOver) k p → k ≠ [4] → ∀ f ∈ p.ips, ¬ Denotes f (addrNum [11, 0, 0, 0]) := by
    rintro k p ⟨i, h1, h2⟩ hk f hf
    have hsk := hi.obj_certOf h1 h2
    have key : ∀ r ∈ (after env0 opsOver).heap, r.data = .cert (mkCert [1] [] 1 [net10] []) ∨
        r.data = .cert (mkCert [2] [1] 2 [.null 1] []) ∨ r.data = .cert (mkCert [3] [2] 3 [.null 1] []) ∨
        r.data = .cert (mkCert [4] [3] 4 [net11] []) := by decide +kernel
    unfold V.certOf at h2
    split at h2
    · rename_i r hr
      rcases key r (List.mem_of_getElem? hr) with hd | hd | hd | hd <;>
        simp only [hd, Option.some.injEq] at h2 <;> subst h2 <;> simp [mkCert] at hf hsk
      · subst hf; exact net10_not_11
      · subst hf; intro hh; cases hh
      · subst hf; intro hh; cases hh
      · exact (hk hsk.symm).elim
    · simp at h2
  refine ⟨opsOver, after env0 opsOver, htr, hrun, ⟨3, by decide +kernel⟩, hden, hno, ?_⟩
  have hnc : ∀ k p, IsValid (after env0 opsOver) k p → k ≠ [4] → ¬ CoversIP p net11 := by
    rintro k p hp hk ⟨f, hf, hall⟩
    exact hno k p (isValid_inv hi hp).2 hk f hf (hall _ hden)
  have hakis : ∀ r ∈ (after env0 opsOver).heap, ∀ c, r.data = .cert c → c.aki ≠ [4] := by
    have key : ∀ r ∈ (after env0 opsOver).heap,
        (match r.data with | .cert c => decide (c.aki ≠ [4]) | _ => true) = true := by
      decide +kernel
    intro r hr c hc
    have := key r hr
    rw [hc] at this
    simpa using this
  have hgen : ∀ c, AuthIP (after env0 opsOver) net11 c → c.aki ≠ [4] → False := by
    intro c h
    induction h with
    | here c p hp hcov => intro hne; exact hnc _ _ hp hne hcov
    | up c p hp _ _ ih =>
      intro _
      apply ih
      obtain ⟨i, _, h2⟩ := hp
      unfold V.certOf at h2
      split at h2
      · rename_i r hr
        split at h2
        · rename_i c' hc'
          simp at h2; subst h2
          exact hakis r (List.mem_of_getElem? hr) _ hc'
        · simp at h2
      · simp at h2
  intro h
  exact hgen _ h (by simp [mkCert])

/-! ## C18 — invalidation removes exactly the subtree, for ever -/

/-- What is reached through children is below. -/
theorem reach_below {env : Env} {T : Bytes → Prop} {P : ROA → Prop} {v : V} (hi : Inv env T P v)
    {k x : Bytes} (h : Reach v k x) : Below v k x := by
  induction h with
  | self => exact .self
  | step a b _ hb ih =>
    rw [childIds_eq] at hb
    split at hb
    · simp at hb
    · rename_i i ho
      simp only [List.mem_filterMap] at hb
      obtain ⟨ch, hch, hid⟩ := hb
      rw [getIdentifier_dataOf] at hid
      rcases hi.kids a i ho ch hch with ⟨c, h1, h2, h3⟩ | ⟨r, h1, h2⟩ | ⟨m, h1, h2⟩ | ⟨l, h1⟩
      · rw [h1] at hid; simp at hid; subst hid
        exact .step _ c ⟨ch, h3, (certOf_eq _ _ _).mpr h1⟩ (h2 ▸ ih)
      · rw [h1] at hid; simp at hid; subst hid; rw [h2]; exact ih
      · rw [h1] at hid; simp at hid; subst hid; rw [h2]; exact ih
      · rw [h1] at hid; simp at hid

/-- Valid objects that depend on `k` are reached. -/
theorem depends_reach {env : Env} {T : Bytes → Prop} {P : ROA → Prop} {v : V} (hi : Inv env T P v)
    {k x : Bytes} (h : Depends T v k x) : Reach v k x := by
  induction h with
  | self => exact .self
  | step x c hv ht _ ih =>
    obtain ⟨i, h1, h2⟩ := hv
    rcases hi.chain x i c h1 h2 with hh | ⟨p, pc, g1, g2, _, g4, _⟩
    · exact (ht hh).elim
    · have := mem_childIds (hi.val _ _ g1) g4 h2
      rw [hi.obj_certOf (hi.val _ _ h1) h2] at this
      exact .step _ _ ih this

/-- **C18, it ends.** Invalidating any object in any state ends without a crash. -/
theorem C18_terminates (v : V) (k : Bytes) : ∃ v', v.invalidateObject k = .ok v' := invalidateObject_total v k

/-- **C18, everything below is removed.** After the invalidation of `k`, neither `k` nor any object that
    depended on it is valid, and no valid ROA or CRL hangs on one of them. -/
theorem C18_removes_subtree (env : Env) (T : Bytes → Prop) (v v' : V) (hr : Reachable env T v) (k : Bytes)
    (h : v.invalidateObject k = .ok v') (x : Bytes) (hx : Depends T v k x) :
    (∀ c, ¬ IsValid v' x c) ∧ v'.validObjects.get x = none ∧ v'.validROA.get x = none ∧ v'.validCRL.get x = none := by
  obtain ⟨h1, h2, h3⟩ := (invalidateObject_spec h).2.1 x (depends_reach (reachable_inv hr) hx)
  refine ⟨?_, h1, h2, h3⟩
  rintro c ⟨i, hi, _⟩
  rw [h1] at hi; simp at hi

/-- **C18, nothing else is removed.** An object that is not below `k` stays as it was: valid or not,
    with its valid ROA and CRL; and nothing becomes valid. -/
theorem C18_removes_nothing_else (env : Env) (T : Bytes → Prop) (v v' : V) (hr : Reachable env T v) (k : Bytes)
    (h : v.invalidateObject k = .ok v') (x : Bytes) :
    (¬ Below v k x → (∀ c, IsValid v' x c ↔ IsValid v x c) ∧ v'.validROA.get x = v.validROA.get x ∧
      v'.validCRL.get x = v.validCRL.get x) ∧
    (∀ c, IsValid v' x c → IsValid v x c) := by
  obtain ⟨hs, hr1, hn⟩ := invalidateObject_spec h
  have hc : ∀ i, v'.certOf i = v.certOf i := hs.certOf
  constructor
  · intro hb
    obtain ⟨g1, g2, g3⟩ := hn x (fun hh => hb (reach_below (reachable_inv hr) hh))
    refine ⟨fun c => ?_, g2, g3⟩
    simp only [IsValid, g1, hc]
  · rintro c ⟨i, h1, h2⟩
    by_cases hx : Reach v k x
    · rw [(hr1 x hx).1] at h1; simp at h1
    · rw [(hn x hx).1] at h1
      rw [hc] at h2
      exact ⟨i, h1, h2⟩

/-- **C18, for ever.** An object that is stored and not valid is never valid again, whatever happens. -/
theorem C18_for_ever (env : Env) (T : Bytes → Prop) (v v' : V) (hr : Reachable env T v) (ops : List Op)
    (ht : ∀ op ∈ ops, TrustsOnly env T op) (h : V.run env v ops = .ok v') (x : Bytes)
    (hst : (v.objects.get x).isSome = true) (hx : v.validObjects.get x = none) :
    (∀ c, ¬ IsValid v' x c) ∧ v'.validROA.get x = none ∧ v'.validCRL.get x = none := by
  have hP : ∀ op ∈ ops, ROAsOnly env (fun _ => True) op := by intro op _; cases op <;> simp [ROAsOnly]
  obtain ⟨hi', hf⟩ := good_run ops v v' ht hP h (reachable_inv hr)
  obtain ⟨i, hi⟩ := Option.isSome_iff_exists.mp hst
  have key : v'.validObjects.get x = none := by
    cases hv : v'.validObjects.get x with
    | none => rfl
    | some j => have := hf.val x i j hi hv; rw [hx] at this; simp at this
  refine ⟨?_, ?_, ?_⟩
  · rintro c ⟨j, hj, _⟩
    rw [key] at hj; simp at hj
  · cases hv : v'.validROA.get x with
    | none => rfl
    | some j =>
      obtain ⟨_, _, _, _, _, _, h5, _⟩ := hi'.vroa x j hv
      rw [key] at h5; simp at h5
  · cases hv : v'.validCRL.get x with
    | none => rfl
    | some j =>
      obtain ⟨_, _, _, _, _, h5, _⟩ := hi'.vcrl x j hv
      rw [key] at h5; simp at h5

/-- `bC` depends on the trust anchor's child, and the trust anchor is not below it. -/
example : Depends T1 (after env0 opsAB) [2] [3] :=
  .step [3] bC ⟨2, by decide +kernel⟩ (by simp [T1]) .self
example : ¬ Below (after env0 opsAB) [2] [1] := by
  intro h
  cases h with
  | step _ c hs hb =>
    obtain ⟨i, h1, h2⟩ := hs
    have h3 : (after env0 opsAB).objects.get [1] = some 0 := by decide +kernel
    have h4 : (after env0 opsAB).certOf 0 = some taC := by decide +kernel
    rw [h3] at h1
    simp at h1
    subst h1
    rw [h4] at h2
    simp at h2
    subst h2
    cases hb with
    | step _ c hs _ =>
      obtain ⟨i, h1, _⟩ := hs
      have h5 : (after env0 opsAB).objects.get [] = none := by decide +kernel
      simp [taC, mkCert, h5] at h1
/-- Adding the invalidated certificates again does not bring them back. -/
example : (after env0 (opsAB ++ [.invalidate [2], .addCert aC false, .addCert bC false])).validObjects
    = [([1], 0)] := by decide +kernel

end Verif.Props
