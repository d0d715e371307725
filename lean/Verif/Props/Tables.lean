import Verif.Props.Revoke
import Verif.Lemmas.PkiTal
/-
  Property theorems about the tables of the Validator: C21 to C24, C30, C66.
-/
set_option autoImplicit false

namespace Verif.Props
open Net Cert ResSpec Roa Pki PkiSpec

/-! ## C21 — the first object wins -/

/-- **C21, never replaced.** What is stored under a key id stays stored there, whatever happens later. -/
theorem C21_never_replaced (env : Env) (T : Bytes → Prop) (v v' : V) (hr : Reachable env T v) (ops : List Op)
    (h : V.run env v ops = .ok v') (k : Bytes) (c : Pki.Cert) (hs : Stored v k c) :
    Stored v' k c ∧ ∀ c', Stored v' k c' → c' = c := by
  have htr : ∀ op ∈ ops, TrustsOnly env (fun _ => True) op := fun o _ => trusts_all env o
  obtain ⟨ops0, _, hr0⟩ := hr
  have hi := reachable_inv (T := fun _ => True) ⟨ops0, fun o _ => trusts_all env o, hr0⟩
  obtain ⟨_, hf⟩ := good_run ops v v' htr (fun o _ => roas_all env o) h hi
  obtain ⟨i, h1, h2⟩ := hs
  refine ⟨⟨i, hf.obj _ _ h1, hf.cert h2⟩, ?_⟩
  rintro c' ⟨j, g1, g2⟩
  rw [hf.obj _ _ h1] at g1
  simp at g1
  subst g1
  rw [hf.cert h2] at g2
  simpa using g2.symm

/-- **C21, conflict.** A certificate whose key id is taken is reported invalid, with an error, and changes
    none of the tables. In every state, also for trust anchors. -/
theorem C21_conflict (env : Env) (v : V) (c : Pki.Cert) (trust : Bool) (hs : (v.objects.get c.ski).isSome = true) :
    ∃ v' a, v.addCert env c trust = .ok (v', a) ∧ a.valid = false ∧ a.error = some "conflict" ∧ a.files = [] ∧
      v'.validObjects = v.validObjects ∧ v'.objects = v.objects ∧ v'.validROA = v.validROA ∧
      v'.validCRL = v.validCRL ∧ v'.validManifest = v.validManifest ∧ v'.certsSerial = v.certsSerial ∧
      v'.revoked = v.revoked := by
  obtain ⟨i, hi⟩ := Option.isSome_iff_exists.mp hs
  refine ⟨v.alloc (objectToResource (.cert c)), ⟨false, [], some v.heap.length, some "conflict"⟩, ?_,
    rfl, rfl, rfl, rfl, rfl, rfl, rfl, rfl, rfl, rfl⟩
  unfold V.addCert
  rw [hi]

/-- **C21, conflict through a ROA or a manifest.** The same for the EE certificates of ROAs and manifests. -/
theorem C21_conflict_signed (env : Env) (v : V) (file : Option Nat) :
    (∀ (r : ROA), (v.objects.get r.cert.ski).isSome = true → ∃ v' a, v.addROA env file r = .ok (v', a) ∧
      a.valid = false ∧ a.error.isSome = true ∧ v'.validObjects = v.validObjects ∧ v'.objects = v.objects ∧
      v'.validROA = v.validROA ∧ v'.validManifest = v.validManifest) ∧
    (∀ (m : Mft), (v.objects.get m.cert.ski).isSome = true → ∃ v' a, v.addManifest env file m = .ok (v', a) ∧
      a.valid = false ∧ a.error.isSome = true ∧ v'.validObjects = v.validObjects ∧ v'.objects = v.objects ∧
      v'.validROA = v.validROA ∧ v'.validManifest = v.validManifest) := by
  constructor
  · intro r hs
    obtain ⟨i, hi⟩ := Option.isSome_iff_exists.mp hs
    have h1 : v.addCert env r.cert false = .ok (v.alloc (objectToResource (.cert r.cert)),
        ⟨false, [], some v.heap.length, some "conflict"⟩) := by
      unfold V.addCert; rw [hi]
    unfold V.addROA
    rw [h1]
    refine ⟨_, _, rfl, rfl, ?_, rfl, rfl, ?_, rfl⟩
    · simp only [roaError]
      split
      · rfl
      · split <;> rfl
    · simp [V.storeROA, V.attach, V.modify, V.alloc]
  · intro m hs
    obtain ⟨i, hi⟩ := Option.isSome_iff_exists.mp hs
    have h1 : v.addCert env m.cert false = .ok (v.alloc (objectToResource (.cert m.cert)),
        ⟨false, [], some v.heap.length, some "conflict"⟩) := by
      unfold V.addCert; rw [hi]
    unfold V.addManifest
    cases extractPathManifest m.fileList with
    | ok files =>
      simp only [h1, Go.ok_bind]
      refine ⟨_, _, rfl, rfl, ?_, rfl, rfl, rfl, ?_⟩
      · simp only; split <;> rfl
      · simp [V.storeMft, V.attach, V.modify, V.alloc]
    | err e => exact ⟨_, _, rfl, rfl, rfl, rfl, rfl, rfl, rfl⟩
    | panic => exact ⟨_, _, rfl, rfl, rfl, rfl, rfl, rfl, rfl⟩
    | diverge => exact ⟨_, _, rfl, rfl, rfl, rfl, rfl, rfl, rfl⟩

example : Stored (after env0 opsAB) [3] bC := ⟨2, by decide +kernel⟩
example : (after env0 (opsAB ++ [.addCert (mkCert [3] [1] 9 [] []) false])).validObjects
    = (after env0 opsAB).validObjects := by decide +kernel

/-! ## C22 — valid ROAs, manifests and CRLs are backed by valid certificates -/

/-- The object at a pointer. -/
def At (v : V) (j : Nat) (d : ResData) : Prop := ∃ r, v.heap[j]? = some r ∧ r.data = d

theorem at_of_dataOf {v : V} {j : Nat} {d : ResData} (h : v.dataOf j = some d) : At v j d := by
  unfold V.dataOf at h
  cases hr : v.heap[j]? with
  | none => rw [hr] at h; simp at h
  | some r => rw [hr] at h; simp at h; exact ⟨r, hr, h⟩

/-- **C22, ROAs.** In every reachable state each entry of the table of valid ROAs is a ROA whose EE
    certificate is valid at that moment, under the same key id. -/
theorem C22_roa_backed (env : Env) (T : Bytes → Prop) (v : V) (hr : Reachable env T v) (k : Bytes) (j : Nat)
    (h : v.validROA.get k = some j) : ∃ r, At v j (.roa r) ∧ r.cert.ski = k ∧ IsValid v k r.cert := by
  obtain ⟨r, i, h1, h2, _, _, h5, h6⟩ := (reachable_inv hr).vroa k j h
  exact ⟨r, at_of_dataOf h1, h2, i, h5, h6⟩

/-- **C22, CRLs.** Each entry of the table of valid CRLs is a CRL that was signed with the key of a
    certificate that is valid at that moment, and that is its issuer. -/
theorem C22_crl_backed (env : Env) (T : Bytes → Prop) (v : V) (hr : Reachable env T v) (k : Bytes) (j : Nat)
    (h : v.validCRL.get k = some j) :
    ∃ l p, At v j (.crl l) ∧ l.aki = k ∧ IsValid v k p ∧ env.checkCRLSig p l = true := by
  obtain ⟨l, i, c, h1, h2, h3, h4, h5⟩ := (reachable_inv hr).vcrl k j h
  exact ⟨l, c, at_of_dataOf h1, h2, ⟨i, h3, h4⟩, h5⟩

/-- **C22, manifests, partial.** Each entry of the table of valid manifests is a manifest whose signature
    was good and whose EE certificate is stored. (Missing: that it is still valid, which is false, see
    `C22_violated_manifest`.) -/
theorem C22_manifest_partial (env : Env) (T : Bytes → Prop) (v : V) (hr : Reachable env T v) (k : Bytes) (j : Nat)
    (h : v.validManifest.get k = some j) : ∃ m, At v j (.mft m) ∧ m.cert.ski = k ∧ m.innerValid = true ∧
      Stored v k m.cert := by
  obtain ⟨m, i, h1, h2, h3, h4, h5⟩ := (reachable_inv hr).vmft k j h
  exact ⟨m, at_of_dataOf h1, h2, h3, i, h4, h5⟩

/-- A manifest and a ROA of the trust anchor. -/
def mft1 : Mft := ⟨mkCert [4] [1] 4 [] [], 0, 100, [(asc ['a', '.', 'r', 'o', 'a'], [])], true⟩
def roa1 : ROA := ⟨7, [⟨⟨[10, 1, 0, 0], [255, 255, 0, 0]⟩, 24⟩], mkCert [5] [1] 5 [net10_1] [], true,
  [⟨⟨[10, 1, 0, 0], [255, 255, 0, 0]⟩, 24⟩], [], []⟩
def opsRM : List Op := opsAB ++ [.addManifest none mft1, .addROA none roa1, .addCRL (mkCRL [1] [99])]

/-- All three tables are filled after this history. -/
example : (after env0 opsRM).validManifest = [([4], 4)] ∧ (after env0 opsRM).validROA = [([5], 6)] ∧
    (after env0 opsRM).validCRL = [([1], 7)] := by decide +kernel

/-- **C22 is false for manifests.** Invalidating the issuer takes the manifest's EE certificate from the
    valid objects and leaves the manifest in the table of valid manifests. -/
theorem C22_violated_manifest : ∃ (env : Env) (T : Bytes → Prop) (ops : List Op) (v : V) (k : Bytes) (j : Nat),
    (∀ op ∈ ops, TrustsOnly env T op) ∧ V.run env V.new ops = .ok v ∧ v.validManifest.get k = some j ∧
    ∀ c, ¬ IsValid v k c := by
  refine ⟨env0, T1, opsRM ++ [.invalidate [1]], after env0 (opsRM ++ [.invalidate [1]]), [4], 4, ?_,
    run_after (by decide +kernel), by decide +kernel, ?_⟩
  · intro op h
    simp only [opsRM, List.append_assoc, List.mem_append] at h
    rcases h with h | h | h
    · exact opsAB_trust op h
    · simp at h
      rcases h with rfl | rfl | rfl <;> simp [TrustsOnly]
    · simp at h
      subst h
      simp [TrustsOnly]
  · rintro c ⟨i, h, _⟩
    have : (after env0 (opsRM ++ [.invalidate [1]])).validObjects.get [4] = none := by decide +kernel
    rw [this] at h; simp at h

/-! ## C23 — exported ROA entries are authorised -/

/-- Every ROA of the operation comes from the decoder. -/
def ROAsDecoded (env : Env) (op : Op) : Prop := ROAsOnly env (fun r => ∃ data, decodeROA env data = .ok r) op

/-- **C23.** In every reachable state, a ROA in the table of valid ROAs has a good CMS signature and a
    currently valid EE certificate; each of its entries has a max length between its prefix length and
    the size of its family; and every entry with a proper prefix that it exports (lists as valid) is one
    of its entries and stands only for addresses that a single resource of the EE certificate stands for. -/
theorem C23_exported_authorised (env : Env) (T : Bytes → Prop) (ops : List Op)
    (ht : ∀ op ∈ ops, TrustsOnly env T op) (hd : ∀ op ∈ ops, ROAsDecoded env op) (v : V)
    (hr : V.run env V.new ops = .ok v) (k : Bytes) (j : Nat) (h : v.validROA.get k = some j) :
    ∃ r, At v j (.roa r) ∧ r.innerValid = true ∧ IsValid v k r.cert ∧
      (∀ e ∈ r.entries, (maskSize e.ipnet.mask : Int) ≤ e.maxLength ∧ 0 ≤ e.maxLength ∧ e.maxLength ≤ 128 ∧
        (e.ipnet.ip.length = 4 → e.maxLength ≤ 32)) ∧
      ((∀ x ∈ r.cert.ips, WfEntry x) → ∀ e ∈ r.valids, ProperNet e.ipnet →
        e ∈ r.entries ∧ ∃ x ∈ r.cert.ips, ∀ y, Denotes (.net (some e.ipnet)) y → Denotes x y) := by
  have hi := (good_run ops V.new v ht hd hr (inv_new _ _ _)).1
  obtain ⟨r, i, h1, h2, h3, ⟨data, h4⟩, h5, h6⟩ := hi.vroa k j h
  have hinner : r.innerValid = true := by
    cases hb : r.innerValid with
    | true => rfl
    | false => simp [roaError, hb] at h3
  have hent : validateEntries r.entries = .ok () := by
    cases hb : validateEntries r.entries with
    | ok u => rfl
    | err m => unfold roaError at h3; rw [hb, hinner] at h3; simp at h3
    | panic => unfold roaError at h3; rw [hb, hinner] at h3; simp at h3
    | diverge => unfold roaError at h3; rw [hb, hinner] at h3; simp at h3
  refine ⟨r, at_of_dataOf h1, hinner, ⟨i, h5, h6⟩, ?_, ?_⟩
  · intro e he
    exact C41_max_length_bound e ((C41_entries_exact _).mp hent e he)
  · intro hw e he hp
    unfold decodeROA at h4
    obtain ⟨p, _, h4⟩ := Go.bind_eq_ok.mp h4
    obtain ⟨q, _, h4⟩ := Go.bind_eq_ok.mp h4
    obtain ⟨s, hs, h4⟩ := Go.bind_eq_ok.mp h4
    simp only [Go.pure_def, Go.ok.injEq] at h4
    subst h4
    exact C23_valid_entries_covered _ _ hw s hs e he hp

/-- An environment whose ROA bytes `[7]` are a ROA for 10.1.0.0/16-24 and AS 7, by an EE certificate. -/
def env2 : Env := { env0 with
  parseROA := fun d => if d = [7] then
    .ok (⟨7, [⟨[0, 1], [(⟨[10, 1], 16⟩, 24)]⟩]⟩, mkCert [5] [1] 5 [net10_1] [], true) else .err "" }
def opsROA : List Op := [.addCert taC true, .addResource [⟨none, [], [65], .roa, false, none⟩] 0 [7]]
example : (∀ op ∈ opsROA, TrustsOnly env2 T1 op) ∧ (∀ op ∈ opsROA, ROAsDecoded env2 op) ∧
    isOk (V.run env2 V.new opsROA) = true ∧ (after env2 opsROA).validROA.get [5] = some 2 := by
  refine ⟨?_, ?_, by decide +kernel, by decide +kernel⟩
  · intro op h
    simp [opsROA] at h
    rcases h with rfl | rfl
    · simp [TrustsOnly, T1, taC, mkCert]
    · intro f c hf ht
      simp at hf; subst hf; simp at ht
  · intro op h
    simp [opsROA] at h
    rcases h with rfl | rfl
    · simp [ROAsDecoded, ROAsOnly]
    · intro r hr
      exact ⟨_, hr⟩

/-! ## C24 — trust anchor key pinning -/

/-- The file was found through a TAL and is to be read as a certificate. -/
def FetchedForTAL (files : List PKIFile) (fid : Nat) (f : PKIFile) : Prop :=
  files[fid]? = some f ∧ f.type = .cer ∧ ∃ p pf, f.parent = some p ∧ files[p]? = some pf ∧ pf.type = .tal

/-- The certificate has the RSA key of the TAL. -/
def SameKey (t : Tal.RPKITAL) (c : Pki.Cert) : Prop := ∃ k, t.publicKey = .rsaPtr k ∧ c.pubKey = .rsaPtr k

/-- **C24, one step.** In any state in which the path of the file is registered for a TAL that was read
    from a file: a certificate with another key is rejected with an error and changes nothing; a
    certificate with the same key is passed on. -/
theorem C24_pinned (env : Env) (v : V) (files : List PKIFile) (fid : Nat) (f : PKIFile)
    (hf : FetchedForTAL files fid f) (i : Nat) (t : Tal.RPKITAL) (ht : v.tals.get f.path = some i)
    (hi : At v i (.tal t)) (talData : Bytes) (hdec : Tal.decodeTAL env.asn talData = .ok t)
    (data : Bytes) (c : Pki.Cert) (hc : env.parseCert data = .ok c) (hk : TalSpec.CertKey c.isRSA c.pubKey) :
    (¬ SameKey t c → ∃ a, v.addResource env files fid data = .ok (v, a) ∧ a.valid = false ∧ a.error.isSome = true ∧
      a.res = none ∧ a.files = []) ∧
    (SameKey t c → f.trust = true → v.objects.get c.ski = none → c.notBefore ≤ env.now → env.now ≤ c.notAfter →
      ∃ v' a, v.addResource env files fid data = .ok (v', a) ∧ a.valid = true ∧ IsValid v' c.ski c) := by
  obtain ⟨h1, h2, p, pf, h3, h4, h5⟩ := hf
  obtain ⟨r, hr, hd⟩ := hi
  obtain ⟨b, hb, hiff⟩ := C50_decoded_exact_partial env.asn talData t hdec c.isRSA c.pubKey hk
  have hchk : v.talCheck files f c = if b then
      .ok (v.modify i (fun r => { r with certTALValid := true }), true) else .ok (v, false) := by
    unfold V.talCheck
    simp only [h3, Option.bind_some, h4, h5, if_true, ht, hr, hd, hb, Go.ok_bind, Go.pure_def]
  have hadd : v.addResource env files fid data = v.addResourceCer env files fid f c := by
    unfold V.addResource
    simp only [h1, h2, hc]
  rw [hadd]
  unfold V.addResourceCer
  constructor
  · intro hn
    have : b = false := by
      cases b with
      | false => rfl
      | true => exact (hn (hiff.mp rfl)).elim
    subst this
    rw [hchk]
    exact ⟨_, rfl, rfl, rfl, rfl, rfl⟩
  · intro hs htr hn ht1 ht2
    have : b = true := hiff.mpr hs
    subst this
    rw [hchk]
    simp only [if_true, Go.ok_bind]
    have htime : Cert.validateTime c.notBefore c.notAfter env.now = .ok () := by
      unfold Cert.validateTime
      rw [if_neg (by omega), if_neg (by omega)]
    generalize hw : v.modify i (fun r => { r with certTALValid := true }) = w
    have hwn : w.objects.get c.ski = none := by rw [← hw]; exact hn
    have hval : w.validateCertificate env c true = .ok () := by
      unfold V.validateCertificate
      rw [htime]; rfl
    obtain ⟨⟨x, a⟩, hx⟩ : ∃ x, w.addCert env c true = .ok x := by
      unfold V.addCert
      rw [hwn]
      simp only [hval, errOf, Go.ok_bind]
      exact ⟨_, rfl⟩
    obtain ⟨hres, ⟨_, hh, _⟩ | ⟨_, _, he, hva, hx'⟩⟩ := addCert_ok hx
    · rw [hwn] at hh; simp at hh
    · rw [hval] at he
      simp only [errOf, Go.ok.injEq] at he
      have hvt : a.valid = true := by rw [hva, ← he]; simp
      rw [htr, hx]
      simp only [Go.ok_bind, hres]
      refine ⟨_, _, rfl, hvt, w.heap.length, ?_, ?_⟩
      · show x.validObjects.get c.ski = _
        rw [hx', hvt]
        simp [V.store, Map.get_set]
      · rw [certOf_eq]
        show V.dataOf (V.modify x _ _) _ = _
        rw [dataOf_modify]
        · rw [hx', hvt]
          show V.dataOf (V.link _ _ _ _) _ = _
          have hd : (w.alloc { objectToResource (.cert c) with parent := w.objects.get c.aki }).dataOf w.heap.length
              = some (.cert c) := by rw [dataOf_alloc]; simp [objectToResource]
          generalize w.alloc { objectToResource (.cert c) with parent := w.objects.get c.aki } = u at hd
          unfold V.link
          split
          · simp only [if_true]
            show V.dataOf (V.modify _ _ _) _ = _
            rw [dataOf_modify]
            · exact hd
            · intro r; rfl
          · exact hd
        · intro r; rfl

/-- **C24, TALs that are not registered.** If the path of the file is not registered for any TAL, the certificate is dealt with as if it had not
    been found through a TAL: no key is checked. -/
theorem C24_unregistered (env : Env) (v : V) (files : List PKIFile) (fid : Nat) (f : PKIFile)
    (hf : FetchedForTAL files fid f) (ht : v.tals.get f.path = none) (data : Bytes) :
    v.addResource env files fid data = v.addResource env (files.set fid { f with parent := none }) fid data := by
  obtain ⟨h1, h2, p, pf, h3, h4, h5⟩ := hf
  have hlt := (List.getElem?_eq_some_iff.mp h1).1
  have h6 : (files.set fid { f with parent := none })[fid]? = some { f with parent := none } := by simp [hlt]
  unfold V.addResource
  rw [h1, h6]
  simp only [h2]
  have e1 : ∀ c, v.talCheck files f c = .ok (v, true) := by
    intro c; unfold V.talCheck; simp only [h3, Option.bind_some, h4, h5, if_true, ht]
  have e2 : ∀ c, v.talCheck (files.set fid { f with parent := none }) { f with parent := none } c = .ok (v, true) := by
    intro c; rfl
  cases env.parseCert data with
  | ok c =>
    show V.addResourceCer env files v fid f c =
      V.addResourceCer env (files.set fid { f with parent := none }) v fid { f with parent := none } c
    unfold V.addResourceCer
    rw [e1 c, e2 c]
  | err e => rfl
  | panic => rfl
  | diverge => rfl

/-- **C24, over histories.** After a TAL file was read, and as long as no other TAL with the same URI is
    read: a certificate fetched for it from its URI is reported valid, or stored as an object, only if it
    has the modulus and exponent of the TAL. -/
theorem C24_history (env : Env) (pre post : List Op) (files0 : List PKIFile) (fid0 : Nat) (f0 : PKIFile)
    (talData : Bytes) (t : Tal.RPKITAL) (h0 : files0[fid0]? = some f0) (h0t : f0.type = .tal)
    (hdec : Tal.decodeTAL env.asn talData = .ok t) (v : V)
    (hr : V.run env V.new (pre ++ .addResource files0 fid0 talData :: post) = .ok v)
    (hpost : ∀ op ∈ post, ∀ t', OffersTAL env t' op → t'.getRsyncURI env.sha1 ≠ t.getRsyncURI env.sha1)
    (files : List PKIFile) (fid : Nat) (f : PKIFile) (hf : FetchedForTAL files fid f)
    (hpath : f.path = t.getRsyncURI env.sha1) (data : Bytes) (c : Pki.Cert) (hc : env.parseCert data = .ok c)
    (hk : TalSpec.CertKey c.isRSA c.pubKey) (v' : V) (a : Added)
    (h : v.addResource env files fid data = .ok (v', a)) (hacc : a.valid = true ∨ v'.objects ≠ v.objects ∨
      v'.validObjects ≠ v.validObjects) : SameKey t c := by
  obtain ⟨w, hw, hrest⟩ := (run_append pre _ V.new v).mp hr
  unfold V.run at hrest
  obtain ⟨w1, hw1, hrest⟩ := Go.bind_eq_ok.mp hrest
  have hi := (good_run (T := fun _ => True) (P := fun _ => True) pre V.new w (fun o _ => trusts_all env o)
    (fun o _ => roas_all env o) hw (inv_new _ _ _)).1
  have hi1 := (good_step (trusts_all env _) (roas_all env _) hw1 hi).1
  have hoff : OffersTAL env t (.addResource files0 fid0 talData) := ⟨⟨f0, h0, h0t⟩, hdec⟩
  rcases step_tals hw1 with ⟨_, hno⟩ | ⟨t', ho, htals, hdata⟩
  · exact (hno t hoff).elim
  · have : t' = t := by
      have := ho.2
      rw [hdec] at this
      simpa using this.symm
    subst this
    obtain ⟨g1, g2⟩ := tals_after post w1 v hi1 hrest t' w.heap.length (by rw [htals, Map.get_set]; simp) hdata hpost
    apply Classical.byContradiction
    intro hn
    obtain ⟨b, q1, q2, _⟩ := (C24_pinned env v files fid f hf w.heap.length t' (by rw [hpath]; exact g1)
      (at_of_dataOf g2) talData hdec data c hc hk).1 hn
    rw [q1] at h
    simp at h
    obtain ⟨rfl, rfl⟩ := h
    rw [q2] at hacc
    simp at hacc

/-- The files that a TAL leads to: one certificate file, at the TAL's URI, below the TAL, trusted. -/
theorem C24_tal_file (env : Env) (v : V) (files : List PKIFile) (fid : Nat) (f : PKIFile) (hf : files[fid]? = some f)
    (hft : f.type = .tal) (data : Bytes) (t : Tal.RPKITAL) (hdec : Tal.decodeTAL env.asn data = .ok t) :
    ∃ v' a, v.addResource env files fid data = .ok (v', a) ∧
      a.files = [⟨some fid, [], t.getRsyncURI env.sha1, .cer, true, none⟩] := by
  unfold V.addResource
  simp only [hf, hft, hdec]
  exact ⟨_, _, rfl, rfl⟩

/-- A TAL file `[3]` for the key (5, 3), and two certificates, of which one has that key. -/
def env3 : Env := { env0 with
  asn := toyAsn
  parseCert := fun d => if d = [1] then .ok { taC with pubKey := .rsaPtr ⟨5, 3⟩ }
    else if d = [2] then .ok { taC with pubKey := .rsaPtr ⟨7, 3⟩ } else .err "" }
/-- The text of the TAL: the URI "rsync://h/a.cer", an empty line, and the base64 form of the key. -/
def tal3 : Bytes := asc ['r', 's', 'y', 'n', 'c', ':', '/', '/', 'h', '/', 'a', '.', 'c', 'e', 'r', '\n', '\n',
  'M', 'A', 'U', 'D', '\n']
def files3 : List PKIFile :=
  [⟨none, [], [65], .tal, true, none⟩,
   ⟨some 0, [], asc ['r', 's', 'y', 'n', 'c', ':', '/', '/', 'h', '/', 'a', '.', 'c', 'e', 'r'], .cer, true, none⟩]

/-- The hypotheses of `C24_unregistered` hold at the start, and such a certificate is accepted. -/
example : FetchedForTAL files3 1 files3[1] ∧ V.new.tals.get files3[1].path = none ∧
    (match V.new.addResource env3 files3 1 [2] with | .ok (_, a) => a.valid | _ => false) = true :=
  ⟨⟨rfl, rfl, 0, files3[0], rfl, rfl, rfl⟩, rfl, by decide +kernel⟩

example : FetchedForTAL files3 1 files3[1] := ⟨rfl, rfl, 0, files3[0], rfl, rfl, rfl⟩
example : isOk (Tal.decodeTAL toyAsn tal3) = true ∧
    (match (after env3 [.addResource files3 0 tal3]).addResource env3 files3 1 [1] with
      | .ok (_, a) => a.valid | _ => false) = true ∧
    (match (after env3 [.addResource files3 0 tal3]).addResource env3 files3 1 [2] with
      | .ok (_, a) => a.valid | _ => true) = false := by decide +kernel

/-! ## C30 — manifests cannot name paths outside their repository -/

theorem contains3_iff (a b c : UInt8) (l : Bytes) : contains3 a b c l = true ↔ ∃ p q, l = p ++ [a, b, c] ++ q := by
  induction l with
  | nil =>
    simp only [contains3, Bool.false_eq_true, false_iff]
    rintro ⟨p, q, h⟩
    simp at h
  | cons x t ih =>
    have hr : (∃ p q, x :: t = p ++ [a, b, c] ++ q) ↔
        (∃ q, x :: t = [a, b, c] ++ q) ∨ ∃ p q, t = p ++ [a, b, c] ++ q := by
      constructor
      · rintro ⟨p, q, h⟩
        cases p with
        | nil => exact .inl ⟨q, by simpa using h⟩
        | cons y p => simp at h; exact .inr ⟨p, q, by simpa using h.2⟩
      · rintro (⟨q, h⟩ | ⟨p, q, h⟩)
        · exact ⟨[], q, by simpa using h⟩
        · exact ⟨x :: p, q, by simp [h]⟩
    rw [hr, ← ih]
    match t with
    | [] => simp [contains3]
    | [y] => simp [contains3]
    | y :: z :: rest =>
      simp only [contains3, Bool.or_eq_true, Bool.and_eq_true, beq_iff_eq, List.cons_append, List.nil_append,
        List.cons.injEq, and_assoc, exists_and_left, exists_eq']
      simp

/-- The name contains a parent-directory step that is followed by a separator. -/
def StepsUp (name : Bytes) : Prop :=
  ∃ p q, name = p ++ asc ['.', '.', '/'] ++ q ∨ name = p ++ asc ['.', '.', '\\'] ++ q

theorem illegalName_iff (n : Bytes) : illegalName n = true ↔ StepsUp n := by
  unfold illegalName StepsUp
  rw [Bool.or_eq_true, contains3_iff, contains3_iff]
  constructor
  · rintro (⟨p, q, h⟩ | ⟨p, q, h⟩)
    · exact ⟨p, q, .inl h⟩
    · exact ⟨p, q, .inr h⟩
  · rintro ⟨p, q, h | h⟩
    · exact .inl ⟨p, q, h⟩
    · exact .inr ⟨p, q, h⟩

/-- **C30, expansion.** A manifest is expanded exactly when no name in it steps up; and then it gives one
    file per entry, in order, with that name and hash. Otherwise it gives nothing. -/
theorem C30_expansion (l : List (Bytes × Bytes)) :
    ((∃ fs, extractPathManifest l = .ok fs) ↔ ∀ e ∈ l, ¬ StepsUp e.1) ∧
    (∀ fs, extractPathManifest l = .ok fs →
      fs = l.map (fun e => ⟨none, [], e.1, determineType e.1, false, some e.2⟩)) := by
  induction l with
  | nil => simp [extractPathManifest]
  | cons e rest ih =>
    obtain ⟨name, hash⟩ := e
    by_cases hn : illegalName name = true
    · constructor
      · simp only [extractPathManifest, hn, if_true, List.mem_cons, forall_eq_or_imp]
        constructor
        · rintro ⟨_, h⟩; simp at h
        · rintro ⟨h, _⟩; exact (h ((illegalName_iff _).mp hn)).elim
      · intro fs h; simp [extractPathManifest, hn] at h
    · have hs : ¬ StepsUp name := fun h => hn ((illegalName_iff _).mpr h)
      simp only [extractPathManifest, hn]
      constructor
      · simp only [List.mem_cons, forall_eq_or_imp, hs, not_false_eq_true, true_and, ← ih.1]
        constructor
        · rintro ⟨fs, h⟩
          obtain ⟨r, hr, _⟩ := Go.bind_eq_ok.mp h
          exact ⟨r, hr⟩
        · rintro ⟨fs, h⟩; simp [h]
      · intro fs h
        obtain ⟨r, hr, h⟩ := Go.bind_eq_ok.mp h
        simp at h
        rw [← h, ih.2 r hr]; rfl

/-- **C30, rejected as a whole.** A manifest with a name that steps up is rejected with an error, nothing is
    found through it, and nothing changes in the store. -/
theorem C30_rejected (env : Env) (v : V) (file : Option Nat) (m : Mft) (e : Bytes × Bytes) (he : e ∈ m.fileList)
    (hs : StepsUp e.1) : ∃ a, v.addManifest env file m = .ok (v, a) ∧ a.valid = false ∧ a.files = [] ∧
      a.error.isSome = true := by
  unfold V.addManifest
  cases h : extractPathManifest m.fileList with
  | ok fs => exact ((C30_expansion m.fileList).1.mp ⟨fs, h⟩ e he hs).elim
  | err _ => exact ⟨_, rfl, rfl, rfl, rfl⟩
  | panic => exact ⟨_, rfl, rfl, rfl, rfl⟩
  | diverge => exact ⟨_, rfl, rfl, rfl, rfl⟩

/-- **C30, paths.** The path of a file found through a manifest is the manifest's repository, a slash if
    it does not end with one, and the listed name; so the repository is a prefix of it. -/
theorem C30_path (files : List PKIFile) (f pf : PKIFile) (p : Nat) (h1 : f.parent = some p)
    (h2 : files[p]? = some pf) (h3 : pf.type = .mft) :
    (∀ r, pf.repo = r ++ [47] → f.computePath files = r ++ [47] ++ f.path) ∧
    ((¬ ∃ r, pf.repo = r ++ [47]) → f.computePath files = pf.repo ++ [47] ++ f.path) := by
  unfold PKIFile.computePath
  simp only [h1, Option.bind_some, h2, h3, if_true]
  constructor
  · intro r hr
    rw [hr]; simp
  · intro hn
    rw [if_neg]
    · simp
    · intro hl
      apply hn
      obtain ⟨r, hr⟩ := List.getLast?_eq_some_iff.mp hl
      exact ⟨r, hr⟩

/-- A file without a manifest above keeps its own path. -/
theorem C30_path_other (files : List PKIFile) (f : PKIFile)
    (h : ∀ p pf, f.parent = some p → files[p]? = some pf → pf.type ≠ .mft) : f.computePath files = f.path := by
  unfold PKIFile.computePath
  split
  · rename_i pf hpf
    cases hp : f.parent with
    | none => rw [hp] at hpf; simp at hpf
    | some p =>
      rw [hp] at hpf
      simp at hpf
      rw [if_neg (h p pf hp hpf)]
  · rfl

/-- **C30 is false for a trailing step.** The name `..` itself (and every name that ends in `/..`) has no
    separator after the dots and is accepted: the path is the repository followed by `/..`. -/
theorem C30_violated_trailing :
    extractPathManifest [(asc ['.', '.'], [])] = .ok [⟨none, [], asc ['.', '.'], .unknown, false, some []⟩] ∧
    (⟨some 0, [], asc ['.', '.'], .unknown, false, some []⟩ : PKIFile).computePath
      [⟨none, asc ['r'], asc ['m'], .mft, false, none⟩] = asc ['r', '/', '.', '.'] := by decide +kernel

example : ∀ e ∈ mft1.fileList, ¬ StepsUp e.1 := by
  intro e he
  simp only [mft1, List.mem_singleton] at he
  subst he
  rw [← illegalName_iff]
  decide +kernel
example : StepsUp (asc ['a', '.', '.', '/', 'b']) := ⟨asc ['a'], asc ['b'], .inl (by decide)⟩

/-! ## C66 — the type of an object -/

/-- The four known extensions. -/
def extOf : FType → Option Bytes
  | .cer => some (asc ['.', 'c', 'e', 'r'])
  | .mft => some (asc ['.', 'm', 'f', 't'])
  | .crl => some (asc ['.', 'c', 'r', 'l'])
  | .roa => some (asc ['.', 'r', 'o', 'a'])
  | _ => none

/-- **C66.** A name has a known type exactly when it is a non-empty name followed by the extension of
    that type; every other name is of unknown type. -/
theorem C66_type_by_extension (path : Bytes) :
    (∀ t x, extOf t = some x → (determineType path = t ↔ ∃ base, base ≠ [] ∧ path = base ++ x)) ∧
    (determineType path = .unknown ↔ ∀ t x, extOf t = some x → ¬ ∃ base, base ≠ [] ∧ path = base ++ x) := by
  have key : ∀ x : Bytes, x.length = 4 → ((∃ base, base ≠ [] ∧ path = base ++ x) ↔
      path.length > 4 ∧ path.drop (path.length - 4) = x) := by
    intro x hx
    constructor
    · rintro ⟨base, hb, rfl⟩
      have := List.length_pos_iff.mpr hb
      refine ⟨by simp; omega, ?_⟩
      have e : (base ++ x).length - 4 = base.length := by simp; omega
      rw [e, List.drop_left]
    · rintro ⟨hl, hd⟩
      refine ⟨path.take (path.length - 4), ?_, ?_⟩
      · intro h
        have := congrArg List.length h
        simp at this
        omega
      · conv => lhs; rw [← List.take_append_drop (path.length - 4) path]
        rw [hd]
  have hlen : ∀ t x, extOf t = some x → x.length = 4 := by
    intro t x h
    cases t <;> simp [extOf] at h <;> subst h <;> decide
  have main : ∀ t x, extOf t = some x → (determineType path = t ↔ ∃ base, base ≠ [] ∧ path = base ++ x) := by
    intro t x h
    rw [key x (hlen t x h)]
    unfold determineType
    by_cases hl : path.length > 4
    · rw [if_pos hl]
      simp only [hl, true_and]
      generalize path.drop (path.length - 4) = d
      cases t <;> simp [extOf] at h <;> subst h
      · constructor
        · intro h
          split at h
          · assumption
          · split at h
            · simp at h
            · split at h
              · simp at h
              · split at h <;> simp at h
        · intro h; rw [if_pos h]
      · constructor
        · intro h
          split at h
          · simp at h
          · split at h
            · assumption
            · split at h
              · simp at h
              · split at h <;> simp at h
        · intro h; subst h; decide
      · constructor
        · intro h
          split at h
          · simp at h
          · split at h
            · simp at h
            · split at h
              · simp at h
              · split at h
                · assumption
                · simp at h
        · intro h; subst h; decide
      · constructor
        · intro h
          split at h
          · simp at h
          · split at h
            · simp at h
            · split at h
              · assumption
              · split at h <;> simp at h
        · intro h; subst h; decide
    · rw [if_neg hl]
      simp only [hl, false_and, iff_false]
      intro hu
      subst hu
      simp [extOf] at h
  refine ⟨main, ?_⟩
  constructor
  · intro hu t x h hb
    rw [(main t x h).mpr hb] at hu
    subst hu
    simp [extOf] at h
  · intro h
    have g1 := fun hb => h .cer _ rfl ((main .cer _ rfl).mp hb)
    have g2 := fun hb => h .mft _ rfl ((main .mft _ rfl).mp hb)
    have g3 := fun hb => h .crl _ rfl ((main .crl _ rfl).mp hb)
    have g4 := fun hb => h .roa _ rfl ((main .roa _ rfl).mp hb)
    have : determineType path = .cer ∨ determineType path = .mft ∨ determineType path = .crl ∨
        determineType path = .roa ∨ determineType path = .unknown := by
      unfold determineType
      simp only []
      split
      · split
        · simp
        · split
          · simp
          · split
            · simp
            · split <;> simp
      · simp
    rcases this with hh | hh | hh | hh | hh
    · exact (g1 hh).elim
    · exact (g2 hh).elim
    · exact (g3 hh).elim
    · exact (g4 hh).elim
    · exact hh

example : determineType (asc ['a', '.', 'c', 'e', 'r']) = .cer ∧ determineType (asc ['.', 'c', 'e', 'r']) = .unknown ∧
    determineType (asc ['a', '.', 'C', 'E', 'R']) = .unknown := by decide +kernel

end Verif.Props
