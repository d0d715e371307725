import Verif.Lemmas.Complete
import Verif.Props.Tables
/-
  Property theorems for C119: a ROA that is in order is published.
-/
set_option autoImplicit false

namespace Verif.Props
open Net Cert ResSpec Roa Pki PkiSpec CompleteSpec

/-! ## C119 — a ROA that is in order is published -/

theorem listed_of {v : V} {r : ROA} {j : Nat} (h1 : v.validROA.get r.cert.ski = some j) (h2 : v.dataOf j = some (.roa r)) : Listed v r := by
  unfold V.dataOf at h2
  cases hh : v.heap[j]? with
  | none => rw [hh] at h2; simp at h2
  | some res => rw [hh] at h2; exact ⟨j, res, h1, hh, by simpa using h2⟩

/-- What the operation does with the ROA. -/
theorem step_offersROA {env : Env} {v w : V} {op : Op} {r : ROA} (hop : OffersROA env r op) (h : v.step env op = .ok w) :
    ∃ file x, v.addROA env file r = .ok x ∧ w.validROA = x.1.validROA ∧ ∀ i d, x.1.dataOf i = some d → w.dataOf i = some d := by
  cases op with
  | addROA file r' =>
    simp only [OffersROA] at hop
    subst hop
    unfold V.step at h
    rw [Go.bind_eq_ok] at h
    obtain ⟨x, hx, h⟩ := h
    simp only [Go.pure_def, Go.ok.injEq] at h
    subst h
    exact ⟨file, x, hx, rfl, fun _ _ h => h⟩
  | addResource files fid data =>
    obtain ⟨⟨f, hf, ht⟩, hp⟩ := hop
    unfold V.step V.addResource at h
    simp only [hf, ht, hp] at h
    rw [Go.bind_eq_ok] at h
    obtain ⟨y, hy, h⟩ := h
    simp only [Go.pure_def, Go.ok.injEq] at h
    subst h
    rw [Go.bind_eq_ok] at hy
    obtain ⟨x, hx, hy⟩ := hy
    simp only [Go.pure_def, Go.ok.injEq] at hy
    subst hy
    refine ⟨some fid, x, hx, vroa_finish _ _ _ _ _, ?_⟩
    intro i d hd
    unfold V.finish V.setFile
    split
    · exact hd
    · show (x.1.modify _ _).dataOf _ = _
      rw [dataOf_modify _ _ _ (by intro r; rfl)]; exact hd
  | _ => simp [OffersROA] at hop

/-- **C119 (partial: no object with its key id came before it, it is not invalidated by name, and its issuer holds the resources by
    itself).** A ROA that is in order, delivered when its issuer is valid, is listed at the end if its issuer is still valid and no accepted
    revocation list has its serial number: nothing else that is delivered, before or after it, takes it away. -/
theorem C119_published_partial (env : Env) (pre post : List Op) (op : Op) (u v : V) (roa : ROA) (p p' : Pki.Cert)
    (hu : V.run env V.new pre = .ok u) (hop : OffersROA env roa op) (hv : V.run env u (op :: post) = .ok v)
    (ho : InOrder env roa) (hp : IsValid u roa.cert.aki p) (hs : Issued env p roa.cert)
    (hn : ∀ c, ¬ Stored u roa.cert.ski c)
    (he : IsValid v roa.cert.aki p') (hr : ¬ Withdrawn env (pre ++ op :: post) roa.cert) (hi : Op.invalidate roa.cert.ski ∉ post) :
    Listed v roa ∧ IsValid v roa.cert.ski roa.cert := by
  have hall : V.run env V.new (pre ++ op :: post) = .ok v := (run_append pre (op :: post) _ _).mpr ⟨u, hu, hv⟩
  obtain ⟨hiu, _⟩ := good_run (T := fun _ => True) (P := fun _ => True) pre V.new u (fun o _ => all_trust env o) (fun o _ => all_roas env o) hu
    (inv_new _ _ _)
  obtain ⟨hiv, hfuv⟩ := good_run (T := fun _ => True) (P := fun _ => True) (op :: post) u v (fun o _ => all_trust env o)
    (fun o _ => all_roas env o) hv hiu
  have hrev : v.revoked.get (serialKey roa.cert.aki roa.cert.serial) = none := by
    cases hh : v.revoked.get (serialKey roa.cert.aki roa.cert.serial) with
    | none => rfl
    | some b =>
      obtain ⟨aki, s, h1, h2⟩ := revoked_from _ _ _ v rfl hall (by rw [hh]; rfl)
      exact (hr ⟨aki, s, h1, h2.symm⟩).elim
  have hrevu : u.revoked.get (serialKey roa.cert.aki roa.cert.serial) = none := by
    cases hh : u.revoked.get (serialKey roa.cert.aki roa.cert.serial) with
    | none => rfl
    | some b =>
      have := hfuv.rev _ (by rw [hh]; rfl)
      rw [hrev] at this; simp at this
  have hnone : u.objects.get roa.cert.ski = none := by
    cases hh : u.objects.get roa.cert.ski with
    | none => rfl
    | some i =>
      obtain ⟨c, h1, _⟩ := hiu.obj _ _ hh
      exact (hn c ⟨i, hh, h1⟩).elim
  obtain ⟨w', b, hb, hbv, _, hbval⟩ := C16_complete env u roa.cert p hnone hp hs.1 ⟨ho.2.2.1, ho.2.2.2⟩ hrevu hs.2.1 hs.2.2
  have herr : roaError roa none = none := by simp [roaError, ho.1, ho.2.1]
  unfold V.run at hv
  obtain ⟨w, hw, hpost⟩ := Go.bind_eq_ok.mp hv
  obtain ⟨hiw, hfw⟩ := good_step (all_trust env op) (all_roas env op) hw hiu
  obtain ⟨file, x, hx, hx1, hx2⟩ := step_offersROA hop hw
  obtain ⟨j, hj1, hj2⟩ := addROA_listed (a := x.2) (v' := x.1) hx hb hbv herr
  have hjw : w.validROA.get roa.cert.ski = some j := by rw [hx1]; exact hj1
  have hdw := hx2 _ _ hj2
  obtain ⟨r', i, q1, q2, _, _, q3, q4⟩ := hiw.vroa _ _ hjw
  rw [hdw] at q1
  simp only [Option.some.injEq, ResData.roa.injEq] at q1
  subst q1
  obtain ⟨ip, hp1, _⟩ := hp
  obtain ⟨je, he1, _⟩ := he
  have hend := vroa_run post w v hpost hiw ⟨i, hiw.val _ _ q3, q4⟩ ⟨ip, hfw.obj _ _ (hiu.val _ _ hp1)⟩ hi (by rw [hrev]; rfl) ⟨je, he1⟩
  obtain ⟨_, hfv⟩ := good_run (T := fun _ => True) (P := fun _ => True) post w v (fun o _ => all_trust env o)
    (fun o _ => all_roas env o) hpost hiw
  rw [hjw] at hend
  refine ⟨listed_of hend (hfv.data _ _ hdw), ?_⟩
  obtain ⟨r2, i2, t1, t2, _, _, t3, t4⟩ := hiv.vroa _ _ hend
  rw [hfv.data _ _ hdw] at t1
  simp only [Option.some.injEq, ResData.roa.injEq] at t1
  subst t1
  exact ⟨i2, t3, t4⟩

/-! ### Whole chains -/

/-- What the operation does with the certificate. -/
theorem step_offersCert {env : Env} {v w : V} {op : Op} {c : Pki.Cert} (hop : OffersCert env c op) (h : v.step env op = .ok w) :
    ∃ x, v.addCert env c false = .ok x ∧ w.validObjects = x.1.validObjects ∧ ∀ i d, x.1.dataOf i = some d → w.dataOf i = some d := by
  cases op with
  | addCert c' trust =>
    obtain ⟨rfl, rfl⟩ := hop
    unfold V.step at h
    rw [Go.bind_eq_ok] at h
    obtain ⟨x, hx, h⟩ := h
    simp only [Go.pure_def, Go.ok.injEq] at h
    subst h
    exact ⟨x, hx, rfl, fun _ _ h => h⟩
  | addResource files fid data =>
    obtain ⟨⟨f, hf, ht, htr, htal⟩, hp⟩ := hop
    unfold V.step V.addResource at h
    simp only [hf, ht, hp] at h
    rw [Go.bind_eq_ok] at h
    obtain ⟨y, hy, h⟩ := h
    simp only [Go.pure_def, Go.ok.injEq] at h
    subst h
    have htc : v.talCheck files f c = .ok (v, true) := by
      unfold V.talCheck
      split
      · rename_i pf hpf
        cases hq : f.parent with
        | none => rw [hq] at hpf; simp at hpf
        | some q =>
          rw [hq] at hpf
          rw [if_neg (htal q pf hq (by simpa using hpf))]
      · rfl
    unfold V.addResourceCer at hy
    rw [htc] at hy
    simp only [Go.ok_bind, if_true, htr] at hy
    rw [Go.bind_eq_ok] at hy
    obtain ⟨x, hx, hy⟩ := hy
    refine ⟨x, hx, ?_, ?_⟩
    · split at hy
      · simp only [Go.ok.injEq] at hy; subst hy; exact vobj_setFile _ _ _ _
      · simp only [Go.ok.injEq] at hy; subst hy; exact vobj_setFile _ _ _ _
    · intro i d hd
      have hsf : ∀ (r : Option Nat) (t : Option FType), (x.1.setFile r fid t).dataOf i = some d := by
        intro r t
        unfold V.setFile
        split
        · rw [dataOf_modify _ _ _ (by intro r; rfl)]; exact hd
        · exact hd
      split at hy
      · simp only [Go.ok.injEq] at hy; subst hy; exact hsf _ _
      · simp only [Go.ok.injEq] at hy; subst hy; exact hsf _ _
  | _ => simp [OffersCert] at hop

theorem state_split {env : Env} {ops : List Op} {n k : Nat} {v w : V} (hnk : n ≤ k) (hv : StateAt env ops n v) (hw : StateAt env ops k w) :
    V.run env v ((ops.drop n).take (k - n)) = .ok w := by
  unfold StateAt at hv hw
  have he : ops.take k = ops.take n ++ (ops.drop n).take (k - n) := by
    rw [← List.take_add]; congr 1; omega
  rw [he, run_append] at hw
  obtain ⟨v', h1, h2⟩ := hw
  rw [hv] at h1
  simp only [Go.ok.injEq] at h1
  subst h1
  exact h2

theorem state_inv {env : Env} {ops : List Op} {v : V} (h : V.run env V.new ops = .ok v) : Inv env (fun _ => True) (fun _ => True) v :=
  (good_run (T := fun _ => True) (P := fun _ => True) ops V.new v (fun o _ => all_trust env o) (fun o _ => all_roas env o) h
    (inv_new _ _ _)).1

theorem run_fr {env : Env} {ops : List Op} {u v : V} (h : V.run env u ops = .ok v) (hi : Inv env (fun _ => True) (fun _ => True) u) :
    Frame (fun _ => True) u v :=
  (good_run (T := fun _ => True) (P := fun _ => True) ops u v (fun o _ => all_trust env o) (fun o _ => all_roas env o) h hi).2

theorem state_end {env : Env} {ops : List Op} {k : Nat} {w e : V} (hw : StateAt env ops k w) (he : V.run env V.new ops = .ok e) :
    Frame (fun _ => True) w e := by
  have h : V.run env V.new (ops.take k ++ ops.drop k) = .ok e := by rw [List.take_append_drop]; exact he
  rw [run_append] at h
  obtain ⟨w', h1, h2⟩ := h
  unfold StateAt at hw
  rw [hw] at h1
  simp only [Go.ok.injEq] at h1
  subst h1
  exact run_fr h2 (state_inv hw)

theorem not_withdrawn {env : Env} {ops : List Op} {e : V} {c : Pki.Cert} (he : V.run env V.new ops = .ok e) (h : ¬ Withdrawn env ops c)
    {w : V} (hf : Frame (fun _ => True) w e) : w.revoked.get (serialKey c.aki c.serial) = none := by
  cases hh : w.revoked.get (serialKey c.aki c.serial) with
  | none => rfl
  | some b =>
    obtain ⟨aki, s, h1, h2⟩ := revoked_from _ _ _ e rfl he (hf.rev _ (by rw [hh]; rfl))
    exact (h ⟨aki, s, h1, h2.symm⟩).elim

/-- **C119, chains (partial, as `C119_published_partial`).** A certificate that came in good course is valid at every later moment. -/
theorem C119_chain_partial (env : Env) (ops : List Op) (e : V) (he : V.run env V.new ops = .ok e) (n : Nat) (c : Pki.Cert)
    (h : Course env ops n c) : ∀ k w, n ≤ k → StateAt env ops k w → IsValid w c.ski c := by
  have keep : ∀ (n : Nat) (c : Pki.Cert) (v : V), StateAt env ops n v → IsValid v c.ski c → ¬ Withdrawn env ops c →
      Op.invalidate c.ski ∉ ops.drop n → ∀ k w, n ≤ k → StateAt env ops k w →
      (Topmost e c ∨ ((∃ i, v.objects.get c.aki = some i) ∧ ∃ j, w.validObjects.get c.aki = some j)) → IsValid w c.ski c := by
    intro n c v hv hc hw hi k w hnk hk ht
    obtain ⟨i, h1, h2⟩ := hc
    have hrun := state_split hnk hv hk
    have hfe := state_end hk he
    have hiv := state_inv hv
    have hr := not_withdrawn he hw hfe
    have := vobj_run _ v w hrun hiv ⟨i, hiv.val _ _ h1, h2⟩ (fun hm => hi (List.mem_of_mem_take hm)) (by rw [hr]; rfl)
      (ht.imp (fun ht => ht.imp id (fun hn => by
        cases ho : w.objects.get c.aki with
        | none => rfl
        | some q => rw [hfe.obj _ _ ho] at hn; simp at hn)) id)
    exact ⟨i, by rw [this]; exact h1, (run_fr hrun hiv).cert h2⟩
  induction h with
  | top n c v e' hv hc he' ht hw hi =>
    intro k w hnk hk
    rw [he] at he'
    simp only [Go.ok.injEq] at he'
    subst he'
    refine keep n c v hv hc hw hi k w hnk hk (.inl (ht.imp id (fun hn => ?_)))
    cases ho : e.objects.get c.aki with
    | none => rfl
    | some q =>
      obtain ⟨d, h1, _⟩ := (state_inv he).obj _ _ ho
      exact (hn d ⟨q, ho, h1⟩).elim
  | child m n p c op u _ hmn hop ho hu hn hk ht hs hw hi ih =>
    intro k w hnk hkw
    have hlt : n < ops.length := (List.getElem?_eq_some_iff.mp hop).1
    have hpu := ih n u hmn hu
    rw [← hk] at hpu
    have hiu := state_inv hu
    have hnone : u.objects.get c.ski = none := by
      cases hh : u.objects.get c.ski with
      | none => rfl
      | some i =>
        obtain ⟨d, h1, _⟩ := hiu.obj _ _ hh
        exact (hn d ⟨i, hh, h1⟩).elim
    obtain ⟨w', b, hb, _, _, i, hb1, hb2⟩ := C16_complete env u c p hnone hpu hs.1 ht (not_withdrawn he hw (state_end hu he)) hs.2.1 hs.2.2
    have hsplit := state_split (n := n) (by omega) hu hkw
    have hd : (ops.drop n).take (k - n) = op :: ((ops.drop (n + 1)).take (k - (n + 1))) := by
      rw [List.drop_eq_getElem_cons hlt]
      have : k - n = (k - (n + 1)) + 1 := by omega
      rw [this, List.take_succ_cons]
      rw [List.getElem?_eq_getElem hlt] at hop
      simp only [Option.some.injEq] at hop
      rw [hop]
    rw [hd] at hsplit
    unfold V.run at hsplit
    rw [Go.bind_eq_ok] at hsplit
    obtain ⟨u1, hu1, _⟩ := hsplit
    have hst : StateAt env ops (n + 1) u1 := by
      unfold StateAt
      have : ops.take (n + 1) = ops.take n ++ [op] := by
        rw [List.take_add_one, hop]; rfl
      rw [this, run_append]
      exact ⟨u, hu, by simp [V.run, hu1]⟩
    obtain ⟨x, hx, hx1, hx2⟩ := step_offersCert ho hu1
    rw [hb] at hx
    simp only [Go.ok.injEq] at hx
    subst hx
    have hcu1 : IsValid u1 c.ski c := ⟨i, by rw [hx1]; exact hb1, (certOf_eq _ _ _).mpr (hx2 _ _ ((certOf_eq _ _ _).mp hb2))⟩
    obtain ⟨ip, hp1, _⟩ := hpu
    obtain ⟨jw, hw1, _⟩ := ih k w (by omega) hkw
    exact keep (n + 1) c u1 hst hcu1 hw hi k w hnk hkw (.inr ⟨⟨ip, (good_step (all_trust env op) (all_roas env op) hu1 hiu).2.obj _ _
      (hiu.val _ _ hp1)⟩, jw, by rw [hk]; exact hw1⟩)

/-- **C119, ROAs with their chains (partial, as `C119_published_partial`).** A ROA that is in order, delivered after an issuer that came
    in good course, with a key id that was not in use, not withdrawn and not invalidated by name, is listed at the end. -/
theorem C119_roa_partial (env : Env) (ops : List Op) (e : V) (he : V.run env V.new ops = .ok e) (m n : Nat) (p : Pki.Cert) (roa : ROA)
    (op : Op) (u : V) (h : Course env ops m p) (hmn : m ≤ n) (hop : ops[n]? = some op) (ho : OffersROA env roa op)
    (hu : StateAt env ops n u) (hn : ∀ d, ¬ Stored u roa.cert.ski d) (hk : roa.cert.aki = p.ski) (hr : InOrder env roa)
    (hs : Issued env p roa.cert) (hw : ¬ Withdrawn env ops roa.cert) (hi : Op.invalidate roa.cert.ski ∉ ops.drop (n + 1)) :
    Listed e roa ∧ IsValid e roa.cert.ski roa.cert := by
  have hlt : n < ops.length := (List.getElem?_eq_some_iff.mp hop).1
  have hops : ops = ops.take n ++ op :: ops.drop (n + 1) := by
    rw [List.getElem?_eq_getElem hlt] at hop
    simp only [Option.some.injEq] at hop
    rw [← hop, ← List.drop_eq_getElem_cons hlt, List.take_append_drop]
  have hv : V.run env u (op :: ops.drop (n + 1)) = .ok e := by
    rw [hops, run_append] at he
    obtain ⟨u', h1, h2⟩ := he
    unfold StateAt at hu
    rw [hu] at h1
    simp only [Go.ok.injEq] at h1
    subst h1
    exact h2
  have hpu := C119_chain_partial env ops e he m p h n u hmn hu
  have hpe := C119_chain_partial env ops e he m p h ops.length e (by omega) (by unfold StateAt; rw [List.take_length]; exact he)
  exact C119_published_partial env (ops.take n) (ops.drop (n + 1)) op u e roa p p hu ho hv hr (hk ▸ hpu) hs hn (hk ▸ hpe)
    (by rw [← hops]; exact hw) hi

/-! ### Issued, by the resources that the certificates stand for -/

/-- The addresses ::ffff:0:0/96. -/
def InMapped (x : Nat) : Prop := 0xffff00000000 ≤ x ∧ x ≤ 0xffffffffffff

theorem mapped_num {a : Bytes} (h : Mapped a) : InMapped (addrNum a) := by
  obtain ⟨d, hd, rfl⟩ := h
  match d, hd with
  | [x, y, z, t], _ =>
    have h1 := x.toNat_lt
    have h2 := y.toNat_lt
    have h3 := z.toNat_lt
    have h4 := t.toNat_lt
    simp [InMapped, addrNum, BerSpec.beVal, List.replicate]
    omega

theorem split_all {α : Type} {cl : α → Go Verdict} : ∀ (l : List α) (s : List α), (∀ e ∈ l, cl e = .ok .valid) →
    splitFrom cl ⟨s, [], []⟩ l = .ok ⟨s ++ l, [], []⟩ := by
  intro l
  induction l with
  | nil => intro s _; simp [splitFrom]
  | cons a rest ih =>
    intro s h
    unfold splitFrom
    rw [h a (by simp)]
    simp only [Go.ok_bind, Split.add]
    rw [ih _ (fun e he => h e (by simp [he]))]
    simp

theorem range_len {e : IPInfo} (h : ProperEntry e) {lo hi : Bytes} (hr : e.getRange = .ok (lo, hi, false)) : lo.length = entryLen e := by
  cases e with
  | net o =>
    cases o with
    | none => exact absurd h (by simp [ProperEntry])
    | some n =>
      obtain ⟨b, e, hr', hb, he, hx⟩ := getRangeIP_proper h
      simp [IPInfo.getRange, hr'] at hr
      rw [← hr.1]
      simp only [entryLen]
      omega
  | range min max =>
    simp [IPInfo.getRange] at hr
    rw [← hr.1]; rfl
  | null f => exact absurd h (by simp [ProperEntry])

/-- **C119, what "issued" asks for.** It is enough that the signature is good, that the issuer inherits nothing, and that each resource of
    the certificate is a proper one that stands only for what one entry of the issuer, of the same family, stands for (IPv6 resources must
    not reach into the IPv4-mapped block). -/
theorem C119_issued (env : Env) (p c : Pki.Cert) (hsig : env.checkSig c p = true)
    (hp1 : ∀ e ∈ p.ips, e ≠ .net none) (hp2 : ¬ InheritsIP p) (hp3 : ¬ InheritsAS p)
    (hip : ∀ e ∈ c.ips, ProperEntry e ∧ (∃ x, Denotes e x) ∧ (entryLen e = 16 → ∀ x, Denotes e x → ¬ InMapped x) ∧
      ∃ f ∈ p.ips, ProperEntry f ∧ PlainEntry f ∧ entryLen f = entryLen e ∧ ∀ x, Denotes e x → Denotes f x)
    (has : ∀ e ∈ c.asns, ProperAS e ∧ CoversAS p e) : Issued env p c := by
  refine ⟨hsig, ?_, ?_⟩
  · unfold validateIPCertificateList
    refine split_all c.ips [] ?_
    intro e he
    obtain ⟨h1, ⟨x, hx⟩, h3, f, hf, h4, h5, h6, h7⟩ := hip e he
    obtain ⟨lo, hi, hr, hl, hlen, hd⟩ := getRange_proper h1
    have hle : lo.length = entryLen e := range_len h1 hr
    have hb := (hd x).mp hx
    have d1 : Denotes e (addrNum lo) := (hd _).mpr ⟨Nat.le_refl _, by omega⟩
    have d2 : Denotes e (addrNum hi) := (hd _).mpr ⟨by omega, Nat.le_refl _⟩
    have hm : ∀ a : Bytes, a.length = entryLen e → Denotes e (addrNum a) → ¬ Mapped a := by
      intro a ha hda hma
      have h16 : a.length = 16 := by obtain ⟨d, hd, rfl⟩ := hma; simp [hd]
      exact h3 (by omega) _ hda (mapped_num hma)
    have := C05_range_complete p.ips hp1 (fun g hg => hp2 ⟨g, hg⟩) f hf h4 h5 lo hi (by omega) (by omega) (hm lo hle d1)
      (hm hi (by omega) d2) (by omega) (fun y h8 h9 => h7 y ((hd y).mpr ⟨h8, h9⟩))
    unfold classifyIP
    simp [hr, this]
  · unfold validateASNCertificateList
    refine split_all c.asns [] ?_
    intro e he
    obtain ⟨h1, f, hf, h2⟩ := has e he
    obtain ⟨hn, hle, hd⟩ := properAS_range h1
    have := (C06_as_exact_no_inherit p.asns hp3 e.getRange.1 e.getRange.2.1 hle).mpr
      ⟨f, hf, fun a h3 h4 => h2 a ((hd a).mpr ⟨h3, h4⟩)⟩
    have hnn : e.getRange.2.2 = false := by cases e <;> simp [ASInfo.getRange] at hn ⊢
    simp [classifyAS, hnn, this]

/-! ### A history that meets the hypotheses, and one in which the key id is taken -/

theorem not_withdrawn_of {env : Env} {ops : List Op} {e : V} {c : Pki.Cert} (he : V.run env V.new ops = .ok e)
    (h : e.revoked.get (c.aki ++ dec c.serial) = none) : ¬ Withdrawn env ops c := by
  rintro ⟨aki, s, h1, h2⟩
  have := revokedIn_recorded he h1
  unfold serialKey at this
  rw [h2, h] at this
  simp at this

theorem not_stored_of {v : V} {k : Bytes} (h : v.objects.get k = none) (d : Pki.Cert) : ¬ Stored v k d := by
  rintro ⟨i, h1, _⟩
  rw [h] at h1; simp at h1

namespace CompleteEx

/-- A ROA of the CA `aC`, which is below the trust anchor `taC`. -/
def roaC : ROA := ⟨7, [⟨⟨[10, 1, 0, 0], [255, 255, 0, 0]⟩, 24⟩], mkCert [5] [2] 5 [net10_1] [], true,
  [⟨⟨[10, 1, 0, 0], [255, 255, 0, 0]⟩, 24⟩], [], []⟩
/-- Later a list of the trust anchor revokes another certificate, another CA comes and is invalidated, and the ROA comes again. -/
def opsC : List Op := [.addCert taC true, .addCert aC false, .addROA none roaC, .addCRL (mkCRL [1] [99]), .addCert bC false,
  .invalidate [3], .addROA none roaC]

theorem runC : V.run env0 V.new opsC = .ok (after env0 opsC) := run_after (by decide +kernel)
theorem stateC (n : Nat) (h : isOk (V.run env0 V.new (opsC.take n)) = true) : StateAt env0 opsC n (after env0 (opsC.take n)) := run_after h

theorem courseTa : Course env0 opsC 1 taC :=
  .top 1 taC _ _ (stateC 1 (by decide +kernel)) ⟨0, by decide +kernel⟩ runC (.inr (not_stored_of (by decide +kernel)))
    (not_withdrawn_of runC (by decide +kernel)) (by decide +kernel)

theorem courseA : Course env0 opsC 2 aC :=
  .child 1 1 taC aC (.addCert aC false) _ courseTa (Nat.le_refl _) rfl ⟨rfl, rfl⟩ (stateC 1 (by decide +kernel))
    (not_stored_of (by decide +kernel)) (by decide +kernel) (by decide +kernel)
    ⟨rfl, by decide +kernel, by decide +kernel⟩ (not_withdrawn_of runC (by decide +kernel)) (by decide +kernel)

/-- Non-vacuity of C119. -/
example : Listed (after env0 opsC) roaC ∧ IsValid (after env0 opsC) [5] roaC.cert :=
  C119_roa_partial env0 opsC _ runC 2 2 aC roaC (.addROA none roaC) _ courseA (Nat.le_refl _) rfl rfl (stateC 2 (by decide +kernel))
    (not_stored_of (by decide +kernel)) (by decide +kernel) ⟨by decide +kernel, by decide +kernel, by decide +kernel, by decide +kernel⟩
    ⟨rfl, by decide +kernel, by decide +kernel⟩ (not_withdrawn_of runC (by decide +kernel)) (by decide +kernel)

/-- Non-vacuity of `C119_issued`: the two certificates of the example. -/
example : Issued env0 taC aC := by
  refine C119_issued env0 taC aC rfl (by decide +kernel) ?_ ?_ ?_ ?_
  · rintro ⟨f, hf⟩; simp [taC, mkCert, net10] at hf
  · unfold InheritsAS; simp [taC, mkCert]
  · intro e he
    simp [aC, mkCert] at he
    subst he
    have hs : validateIPCertificateList [net10_1] [net10] = .ok ⟨[net10_1], [], []⟩ := by decide +kernel
    obtain ⟨f, hf, hd⟩ := C05_validated_sound [net10_1] [net10] (by intro e he; simp at he; subst he; exact .inl proper_net10) _ hs net10_1
      (by simp) proper_net10_1
    simp at hf
    subst hf
    refine ⟨proper_net10_1, ⟨0xffff0a010203, .net4 _ _ 16 (0x0a010203) rfl rfl (by simp [IsMask, BerSpec.beVal]) (by omega)
      (by simp [BerSpec.beVal])⟩, by simp [entryLen, net10_1], net10, by simp [taC, mkCert], proper_net10, ?_, rfl, hd⟩
    simp only [PlainEntry, net10]
    rintro ⟨d, hd, h⟩
    have := congrArg List.length h
    simp [hd] at this
  · intro e he
    simp [aC, mkCert] at he
    subst he
    refine ⟨⟨7, .asn 7⟩, .range 1 100, by simp [taC, mkCert], ?_⟩
    intro x hx
    cases hx
    exact .range 1 100 7 (by omega) (by omega)

/-- A certificate that nobody issued, with the key id of the certificate of the ROA. -/
def squatC : Pki.Cert := mkCert [5] [9] 1 [] []
def opsS : List Op := [.addCert taC true, .addCert aC false, .addCert squatC false, .addROA none roaC]

end CompleteEx

open CompleteEx in
/-- **C119 is false when the key id is in use**, even if only by a certificate that was refused: the ROA is in order, came after its issuer,
    which is valid to the end, and is not withdrawn or invalidated, and is not listed. The certificate that is in the way is not valid, and
    was not signed by any certificate that the validator has. -/
theorem C119_violated : ∃ (env : Env) (pre : List Op) (op : Op) (u v : V) (roa : ROA) (p d : Pki.Cert),
    V.run env V.new pre = .ok u ∧ OffersROA env roa op ∧ V.run env u [op] = .ok v ∧ InOrder env roa ∧ IsValid u roa.cert.aki p ∧
    Issued env p roa.cert ∧ IsValid v roa.cert.aki p ∧ ¬ Withdrawn env (pre ++ [op]) roa.cert ∧
    Stored u roa.cert.ski d ∧ (∀ c, ¬ IsValid u d.ski c) ∧ (∀ c, ¬ Stored u d.aki c) ∧ ¬ Listed v roa := by
  have hu : V.run env0 V.new (opsS.take 3) = .ok (after env0 (opsS.take 3)) := run_after (by decide +kernel)
  have he : V.run env0 V.new opsS = .ok (after env0 opsS) := run_after (by decide +kernel)
  have hv : V.run env0 (after env0 (opsS.take 3)) [.addROA none roaC] = .ok (after env0 opsS) := by
    have h : V.run env0 V.new (opsS.take 3 ++ [.addROA none roaC]) = .ok (after env0 opsS) := he
    rw [run_append] at h
    obtain ⟨w, h1, h2⟩ := h
    rw [hu] at h1
    simp only [Go.ok.injEq] at h1
    subst h1
    exact h2
  refine ⟨env0, opsS.take 3, .addROA none roaC, _, _, roaC, aC, squatC, hu, rfl, hv,
    ⟨by decide +kernel, by decide +kernel, by decide +kernel, by decide +kernel⟩, ⟨1, by decide +kernel⟩,
    ⟨rfl, by decide +kernel, by decide +kernel⟩, ⟨1, by decide +kernel⟩, not_withdrawn_of he (by decide +kernel), ⟨2, by decide +kernel⟩,
    ?_, not_stored_of (by decide +kernel), ?_⟩
  · rintro c ⟨i, h, _⟩
    have : (after env0 (opsS.take 3)).validObjects.get squatC.ski = none := by decide +kernel
    rw [this] at h; simp at h
  · rintro ⟨j, _, h, _⟩
    have : (after env0 opsS).validROA.get roaC.cert.ski = none := by decide +kernel
    rw [this] at h; simp at h

end Verif.Props
