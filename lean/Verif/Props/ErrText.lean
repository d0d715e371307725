import Verif.Spec.ErrText
import Verif.Lemmas.ErrText
import Verif.Props.Output
import Verif.Props.Pki
/-
  C109: the reports about rejected objects: the log line identifies the kind of error, the certificate and the resources; the tags of the
  report identify the file; what an error says is true.
-/
set_option autoImplicit false

namespace Verif.Props
open Net Cert Roa Pki Manager ErrText ErrTextSpec ResSpec

/-- C109: the error of a certificate is of the kind that the Validator's decision has. -/
theorem C109_same (tx : Texts) (env : Env) (v : V) (c : Pki.Cert) (trust : Bool) :
    (do let a ← v.addCert env c trust; return a.2.error.map kindOfText) = (do let e ← V.addCertE tx env v c trust; return e.map CertErr.etype : Go (Option Kind)) := by
  unfold V.addCert V.addCertE
  cases h : v.objects.get c.ski with
  | some o => rfl
  | none =>
    have := validateCertificate_same tx env v c trust
    unfold marked typed at this
    dsimp only
    rw [← this]
    cases v.validateCertificate env c trust with
    | ok u => cases u; rfl
    | err m => rfl
    | panic => rfl
    | diverge => rfl

theorem justified_made (tx : Texts) (env : Env) (v : V) (c : Pki.Cert) (trust : Bool) (e : CertErr) (h : V.addCertE tx env v c trust = .ok (some e)) :
    (∃ k, Made k c e) ∧ Justified env v c trust e := by
  unfold V.addCertE at h
  split at h
  · rename_i o ho
    simp only [Go.ok.injEq, Option.some.injEq] at h
    subst h
    exact ⟨⟨_, .conflict _ _⟩, o, ho, rfl⟩
  · unfold V.validateCertificateE at h
    split at h
    · rename_i t ht
      simp only [Go.ok.injEq, Option.some.injEq] at h
      subst h
      refine ⟨⟨_, .validity _ _⟩, ?_⟩
      unfold timeText at ht
      split at ht
      · exact .inl (by omega)
      · split at ht
        · exact .inr (by omega)
        · cases ht
    · split at h
      · cases h
      · rename_i htr
        have htr : trust = false := by simpa using htr
        split at h
        · rename_i hp
          simp only [Go.ok.injEq, Option.some.injEq] at h
          subst h
          exact ⟨⟨_, .parent _ _ _⟩, htr, .inl fun ⟨p, pc, h, _⟩ => by rw [hp] at h; cases h⟩
        · rename_i p hp
          split at h
          · rename_i hc
            simp only [Go.ok.injEq, Option.some.injEq] at h
            subst h
            exact ⟨⟨_, .parent _ _ _⟩, htr, .inl fun ⟨q, pc, h, h'⟩ => by rw [hp] at h; cases h; rw [hc] at h'; cases h'⟩
          · rename_i pc hc
            split at h
            · rename_i hs
              simp only [Go.ok.injEq, Option.some.injEq] at h
              subst h
              exact ⟨⟨_, .parent _ _ _⟩, htr, .inr ⟨p, pc, ⟨hp, hc⟩, rfl, .inl hs⟩⟩
            · split at h
              · rename_i hr
                simp only [Go.ok.injEq, Option.some.injEq] at h
                subst h
                exact ⟨⟨_, .revocation _⟩, htr, fun hn => by rw [hn] at hr; cases hr⟩
              · unfold V.resourcesE at h
                obtain ⟨s, hs, h⟩ := Go.bind_eq_ok.mp h
                obtain ⟨x, hx, h⟩ := Go.bind_eq_ok.mp h
                have amb : ∀ {t : Bytes} {e : CertErr}, e = newParent c (some pc) t → (∀ u, v.validObjects.get pc.aki = some u → v.certOf u = none) →
                    (∃ k, Made k c e) ∧ Justified env v c trust e := by
                  intro t e he hu
                  subst he
                  exact ⟨⟨_, .parent _ _ _⟩, htr, .inr ⟨p, pc, ⟨hp, hc⟩, rfl, .inr fun ⟨g, gc, hg, hg'⟩ => by rw [hu g hg] at hg'; cases hg'⟩⟩
                cases x with
                | error e' =>
                  obtain rfl := Option.some.inj (Go.ok.inj h)
                  obtain ⟨t, he, hu⟩ := chainLoopE_parent _ _ _ _ hx
                  exact amb he hu
                | ok ips =>
                  obtain ⟨s', hs', h⟩ := Go.bind_eq_ok.mp h
                  obtain ⟨y, hy, h⟩ := Go.bind_eq_ok.mp h
                  cases y with
                  | error e' =>
                    obtain rfl := Option.some.inj (Go.ok.inj h)
                    obtain ⟨t, he, hu⟩ := chainLoopE_parent _ _ _ _ hy
                    exact amb he hu
                  | ok asns =>
                    have h := Go.ok.inj h
                    split at h
                    · rename_i hne
                      obtain rfl := Option.some.inj h
                      refine ⟨⟨_, .resource _ _ _⟩, htr, ?_, p, pc, ⟨hp, hc⟩, ?_, ?_⟩
                      · rcases hne with h1 | h1
                        · exact .inl fun h0 => by have h0 : ips.invalids = [] := h0; rw [h0] at h1; simp at h1
                        · exact .inr fun h0 => by have h0 : asns.invalids = [] := h0; rw [h0] at h1; simp at h1
                      · intro r
                        obtain ⟨-, -, g2, g3⟩ := splitFrom_filter hs
                        simp only [List.nil_append] at g2 g3
                        refine (chainLoopE_lists (cl := fun g r => classifyIP g.ips r) _ _ _ _ hx r).trans ?_
                        rw [g2, g3]
                        simp only [List.mem_filter, decide_eq_true_eq, Outside, Issuer]
                        constructor
                        · rintro (h | ⟨h, hn, u, g, h1, h2, h3⟩)
                          · exact ⟨h.1, .inl h.2⟩
                          · exact ⟨h.1, .inr ⟨h.2, hn, u, g, ⟨h1, h2⟩, h3⟩⟩
                        · rintro ⟨h, h' | ⟨h', hn, u, g, ⟨h1, h2⟩, h3⟩⟩
                          · exact .inl ⟨h, h'⟩
                          · exact .inr ⟨⟨h, h'⟩, hn, u, g, h1, h2, h3⟩
                      · intro r
                        obtain ⟨-, -, g2, g3⟩ := splitFrom_filter hs'
                        simp only [List.nil_append] at g2 g3
                        refine (chainLoopE_lists (cl := fun g r => .ok (classifyAS g.asns r)) _ _ _ _ hy r).trans ?_
                        rw [g2, g3]
                        simp only [List.mem_filter, decide_eq_true_eq, Outside, Issuer]
                        constructor
                        · rintro (h | ⟨h, hn, u, g, h1, h2, h3⟩)
                          · exact ⟨h.1, .inl h.2⟩
                          · exact ⟨h.1, .inr ⟨h.2, hn, u, g, ⟨h1, h2⟩, h3⟩⟩
                        · rintro ⟨h, h' | ⟨h', hn, u, g, ⟨h1, h2⟩, h3⟩⟩
                          · exact .inl ⟨h, h'⟩
                          · exact .inr ⟨⟨h, h'⟩, hn, u, g, h1, h2, h3⟩
                    · cases h

/-- C109: what an error says about a certificate is true, and a resource error lists exactly the resources that are outside of what the issuer holds. -/
theorem C109_justified (tx : Texts) (env : Env) (v : V) (c : Pki.Cert) (trust : Bool) (e : CertErr) (h : V.addCertE tx env v c trust = .ok (some e)) :
    (∃ k, Made k c e) ∧ Justified env v c trust e := justified_made tx env v c trust e h

/-- Texts for the examples. -/
def txE : Texts := ⟨fun t => dec t, fun _ _ => asc "bad signature".toList⟩

/-- Every kind of error is made: key in use, after the end, without an issuer, revoked, resources that the issuer does not have, also when the issuer inherits. -/
example : (V.addCertE txE env0 (after env0 opsAB) (mkCert [3] [1] 9 [] []) false = .ok (some (newConflict (mkCert [3] [1] 9 [] []) (some bC)))) ∧
    (V.addCertE txE { env0 with now := 101 } (after env0 opsAB) (mkCert [4] [1] 9 [] []) false =
      .ok (some (newValidity (mkCert [4] [1] 9 [] []) (asc "Certificate end of validity: 0 is before: 101".toList)))) ∧
    (V.addCertE txE env0 (after env0 opsAB) (mkCert [4] [9] 9 [] []) false = .ok (some (newParent (mkCert [4] [9] 9 [] []) none (asc "missing parent".toList)))) ∧
    (V.addCertE txE { env0 with checkSig := fun _ _ => false } (after env0 opsAB) (mkCert [4] [1] 9 [] []) false =
      .ok (some (newParent (mkCert [4] [1] 9 [] []) (some taC) (asc "bad signature".toList)))) ∧
    (V.addCertE txE env0 (after env0 (opsAB ++ [.addCRL (mkCRL [1] [9])])) (mkCert [4] [1] 9 [] []) false = .ok (some (newRevocation (mkCert [4] [1] 9 [] [])))) ∧
    (V.addCertE txE env0 (after env0 opsAB) (mkCert [4] [2] 9 [net10, net10_1] [.asn 7, .asn 8]) false =
      .ok (some (newResource (mkCert [4] [2] 9 [net10, net10_1] [.asn 7, .asn 8]) [net10] [.asn 8]))) ∧
    (V.addCertE txE env0 (after env0 opsAB) (mkCert [4] [3] 9 [net10, net10_1] [.asn 7, .asn 8]) false =
      .ok (some (newResource (mkCert [4] [3] 9 [net10, net10_1] [.asn 7, .asn 8]) [net10] [.asn 8]))) ∧
    (V.addCertE txE env0 (after env0 opsAB) (mkCert [4] [3] 9 [net10_1] [.asn 7]) false = .ok none) := by decide +kernel

/-- C109: every constructor of an error sets the kind and the certificate. -/
theorem C109_made {k : Kind} {c : Pki.Cert} {e : CertErr} (h : Made k c e) : e.etype = k ∧ e.cert = some c := by
  induction h with
  | about k c e f s h ih => exact ih
  | _ => exact ⟨rfl, rfl⟩

/-! ### The line in the log -/

/-- The text of an error up to the key identifier. -/
def lead : Kind → Bytes
  | .expiration => asc "expiration issue for certificate ski:".toList
  | .parent => asc "parent issue for certificate ski:".toList
  | .revocation => asc "revocation by issuer for certificate ski:".toList
  | .resource => asc "resource issue for certificate ski:".toList
  | .conflict => asc "certificate conflict for certificate ski:".toList
  | .manifest => asc "revocation due to manifest issue for certificate ski:".toList
  | .crl => asc "revocation due to crl issue for certificate ski:".toList
  | _ => asc "no certificate at all; these kinds are no such errors".toList

/-- The kind, read off four characters. -/
def readKind (l : Bytes) : Kind :=
  if l[0]? = some 101 then .expiration else if l[0]? = some 112 then .parent else if l[0]? = some 99 then .conflict
  else if l[2]? = some 115 then .resource else if l[11]? = some 98 then .revocation else if l[18]? = some 109 then .manifest else .crl

theorem readKind_lead (k : Kind) (hk : k ≠ .unknown ∧ k ≠ .file ∧ k ≠ .hash) (a : Bytes) : readKind (lead k ++ a) = k := by
  have : readKind (lead k ++ a) = readKind (lead k) := by
    unfold readKind
    have hl : 33 ≤ (lead k).length := by cases k <;> decide +kernel
    rw [List.getElem?_append_left (by omega), List.getElem?_append_left (by omega), List.getElem?_append_left (by omega), List.getElem?_append_left (by omega)]
  rw [this]
  revert hk
  cases k <;> decide +kernel

theorem lead_inj (j k : Kind) (a b : Bytes) (hj : j ≠ .unknown ∧ j ≠ .file ∧ j ≠ .hash) (hk : k ≠ .unknown ∧ k ≠ .file ∧ k ≠ .hash) (h : lead j ++ a = lead k ++ b) : j = k := by
  rw [← readKind_lead j hj a, h, readKind_lead k hk b]

theorem made_text {k : Kind} {c : Pki.Cert} {e : CertErr} (h : Made k c e) :
    (k ≠ .unknown ∧ k ≠ .file ∧ k ≠ .hash) ∧ ∃ tail, e.text = lead k ++ (hexString c.ski ++ (asc " aki:".toList ++ (hexString c.aki ++ tail))) ∧
      ∀ x, tail.head? = some x → x = 58 ∨ x = 32 := by
  have hin : ∀ (m : Bytes) (t : Option Bytes), (m = [] ∨ m.head? = some 32) → ∀ x, (innerPart t ++ m).head? = some x → x = 58 ∨ x = 32 := by
    intro m t hm x hx
    cases t with
    | some t => exact .inl (by simpa [innerPart, asc] using hx.symm)
    | none =>
      rcases hm with rfl | hm
      · simp [innerPart] at hx
      · rw [show innerPart none ++ m = m from rfl, hm] at hx
        exact .inr (Option.some.inj hx).symm
  have key : ∀ (k : Kind) (e : CertErr), e.cert = some c → e.message ++ asc " for certificate ski:".toList = lead k →
      ∃ tail, e.text = lead k ++ (hexString c.ski ++ (asc " aki:".toList ++ (hexString c.aki ++ tail))) ∧ ∀ x, tail.head? = some x → x = 58 ∨ x = 32 := by
    intro k e hc hm
    refine ⟨innerPart e.inner ++ (listPart (asc " invalid IP resources (".toList) (e.ips.map ipInfoText) ++
      listPart (asc " invalid ASN resources (".toList) (e.asns.map asInfoText)), ?_, hin _ _ ?_⟩
    · rw [← hm]
      unfold CertErr.text
      rw [hc]
      unfold certInfo
      simp only [List.append_assoc]
      congr 1
    · unfold listPart
      split
      · exact .inr rfl
      · split
        · exact .inr rfl
        · exact .inl rfl
  induction h with
  | validity c t => exact ⟨by decide, key .expiration (newValidity c t) rfl rfl⟩
  | parent c p t => exact ⟨by decide, key .parent (newParent c p t) rfl rfl⟩
  | revocation c => exact ⟨by decide, key .revocation (newRevocation c) rfl rfl⟩
  | resource c i a => exact ⟨by decide, key .resource (newResource c i a) rfl rfl⟩
  | conflict c o => exact ⟨by decide, key .conflict (newConflict c o) rfl rfl⟩
  | manifest c t m f => exact ⟨by decide, key .manifest (newManifestRevocation c t m f) rfl rfl⟩
  | crl c t m f => exact ⟨by decide, key .crl (newCRLRevocation c t m f) rfl rfl⟩
  | about k c e f s h ih => exact ih key

/-- C109: the line in the log identifies the kind of error and the key identifiers of the certificate and of its issuer. -/
theorem C109_text (k1 k2 : Kind) (c1 c2 : Pki.Cert) (e1 e2 : CertErr) (h1 : Made k1 c1 e1) (h2 : Made k2 c2 e2) (h : e1.text = e2.text) :
    k1 = k2 ∧ c1.ski = c2.ski ∧ c1.aki = c2.aki := by
  obtain ⟨n1, t1, e1, a1⟩ := made_text h1
  obtain ⟨n2, t2, e2, a2⟩ := made_text h2
  rw [e1, e2] at h
  obtain rfl := lead_inj _ _ _ _ n1 n2 h
  have h := List.append_cancel_left h
  have hx : ∀ b, ∀ c ∈ hexString b, c ≠ 32 ∧ c ≠ 58 := hexString_all fun d hd => ⟨(digitChar_hex d hd).1, (digitChar_hex d hd).2.1⟩
  obtain ⟨hs, h⟩ := cut_at (p := fun c => c ≠ 32 ∧ c ≠ 58) (hx _) (hx _) (fun c hc hl => hl.1 (by simpa [asc] using hc.symm))
    (fun c hc hl => hl.1 (by simpa [asc] using hc.symm)) h
  obtain ⟨ha, -⟩ := cut_at (p := fun c => c ≠ 32 ∧ c ≠ 58) (hx _) (hx _) (fun c hc hl => (a1 c hc).elim hl.2 hl.1)
    (fun c hc hl => (a2 c hc).elim hl.2 hl.1) (List.append_cancel_left h)
  exact ⟨rfl, hexString_inj hs, hexString_inj ha⟩


theorem ip_text_inj {a b : Bytes} (ha : a.length = 4 ∨ a.length = 16) (hb : b.length = 4 ∨ b.length = 16) (ma : ¬ Mapped a) (mb : ¬ Mapped b)
    (h : ipString a = ipString b) : a = b := by
  have h4 : ∀ x : Bytes, x.length = 4 → ipString x = joinWith [46] (x.map fun y => numText 10 y.toNat) := by
    intro x hx
    unfold ipString
    rw [if_neg (by intro e; simp [e] at hx)]
    simp [to4, hx]
  have h6 : ∀ x : Bytes, x.length = 16 → ¬ Mapped x → ipString x = ipv6Text (groups x) := by
    intro x hx hm
    have : to4 x = none := not_mapped hx hm
    unfold ipString
    rw [if_neg (by intro e; simp [e] at hx), this]
    simp [hx]
  rcases ha with la | la <;> rcases hb with lb | lb
  · rw [h4 a la, h4 b lb] at h
    have := parseIPv4_print a la
    rw [h, parseIPv4_print b lb] at this
    exact (Option.some.inj this).symm
  · rw [h4 a la, h6 b lb mb] at h
    have := parseIPv4_print a la
    rw [h, parseIPv4_ipv6Text (groups_length 8 b (by omega))] at this
    cases this
  · rw [h6 a la ma, h4 b lb] at h
    have := parseIPv4_print b lb
    rw [← h, parseIPv4_ipv6Text (groups_length 8 a (by omega))] at this
    cases this
  · rw [h6 a la ma, h6 b lb mb] at h
    have := parseIPv6_print _ (groups_length 8 a (by omega)) (groups_lt a)
    rw [h, parseIPv6_print _ (groups_length 8 b (by omega)) (groups_lt b)] at this
    have := Option.some.inj this
    rw [groups_bytes 8 a (by omega), groups_bytes 8 b (by omega)] at this
    exact this.symm

theorem ip_info_inj {a b : IPInfo} (ha : Listed a) (hb : Listed b) (h : ipInfoText a = ipInfoText b) : a = b := by
  have hM : ∀ (n : IPNet) (r : Bytes), ipNetString n ≠ 77 :: r := fun n r e => (ipNetString_plain n 77 (by rw [e]; simp)).2.2.2.2.1 rfl
  have hN : ∀ (n : IPNet) (r : Bytes), ipNetString n ≠ 78 :: r := fun n r e => (ipNetString_plain n 78 (by rw [e]; simp)).2.2.2.2.2 rfl
  cases a with
  | net n =>
    cases n with
    | none => exact absurd ha id
    | some n =>
      cases b with
      | net m =>
        cases m with
        | none => exact absurd hb id
        | some m => rw [C77_prefix_text_injective n m ha.1 ha.2.1 ha.2.2 hb.1 hb.2.1 hb.2.2 h]
      | range x y => exact absurd h (hM _ _)
      | null f => exact absurd h (hN _ _)
  | range x x' =>
    cases b with
    | net m =>
      cases m with
      | none => exact absurd hb id
      | some m => exact absurd h.symm (hM _ _)
    | null f => simp [ipInfoText, asc] at h
    | range y y' =>
      simp only [ipInfoText, List.append_assoc] at h
      have h := List.append_cancel_left h
      obtain ⟨e1, h⟩ := cut_at (p := Plain) (ipString_plain x) (ipString_plain y) (fun c hc hl => hl.1 (by simpa [asc] using hc.symm))
        (fun c hc hl => hl.1 (by simpa [asc] using hc.symm)) h
      rw [ip_text_inj ha.1 hb.1 ha.2.2.1 hb.2.2.1 e1, ip_text_inj ha.2.1 hb.2.1 ha.2.2.2 hb.2.2.2 (List.append_cancel_left h)]
  | null f =>
    cases b with
    | net m =>
      cases m with
      | none => exact absurd hb id
      | some m => exact absurd h.symm (hN _ _)
    | range x y => simp [ipInfoText, asc] at h
    | null g =>
      simp only [ipInfoText] at h
      rw [UInt8.toNat_inj.mp (natDec_inj (List.append_cancel_left h))]

/-- C109: the line about a resource error also identifies every resource that is listed. -/
theorem C109_text_resources (c1 c2 : Pki.Cert) (i1 i2 : List IPInfo) (a1 a2 : List ASInfo) (h1 : ∀ r ∈ i1, Listed r) (h2 : ∀ r ∈ i2, Listed r)
    (h : (newResource c1 i1 a1).text = (newResource c2 i2 a2).text) : i1 = i2 ∧ a1 = a2 := by
  obtain ⟨-, hs, ha⟩ := C109_text _ _ _ _ _ _ (.resource c1 i1 a1) (.resource c2 i2 a2) h
  simp only [newResource, CertErr.text, certInfo, innerPart, hs, ha, List.append_assoc] at h
  have h := List.append_cancel_left (List.append_cancel_left (List.append_cancel_left (List.append_cancel_left (List.append_cancel_left (List.append_cancel_left (List.append_cancel_left h))))))
  have hne : ∀ (l : List Bytes) (x : Bytes), listPart (asc " invalid ASN resources (".toList) l ≠ asc " invalid IP resources (".toList ++ x := by
    intro l x e
    unfold listPart at e
    split at e <;> simp [asc] at e
  obtain ⟨e1, e2⟩ := listPart_inj (hd := asc " invalid IP resources (".toList)
    (fun t ht => by obtain ⟨r, -, rfl⟩ := List.mem_map.mp ht; exact ipInfoText_loose r)
    (fun t ht => by obtain ⟨r, -, rfl⟩ := List.mem_map.mp ht; exact ipInfoText_loose r) (hne _) (hne _) h
  obtain ⟨e3, -⟩ := listPart_inj (hd := asc " invalid ASN resources (".toList) (a := a1.map asInfoText) (b := a2.map asInfoText) (ra := []) (rb := [])
    (fun t ht => by obtain ⟨r, -, rfl⟩ := List.mem_map.mp ht; exact asInfoText_loose r)
    (fun t ht => by obtain ⟨r, -, rfl⟩ := List.mem_map.mp ht; exact asInfoText_loose r) (by intro x e; simp [asc] at e) (by intro x e; simp [asc] at e)
    (by rw [List.append_nil, List.append_nil]; exact e2)
  exact ⟨map_inj_of (fun x hx y hy => ip_info_inj (h1 x hx) (h2 y hy)) e1, map_inj_of (fun x _ y _ => asInfoText_inj) e3⟩

/-- The line of a resource error. -/
example : (newResource (mkCert [4] [2] 9 [] []) [net10, .null 1] [.asn 8]).text =
    asc "resource issue for certificate ski:04 aki:02 invalid IP resources (2): [10.0.0.0/8, Null IP 1] invalid ASN resources (1): [8]".toList ∧
    (∀ r ∈ [net10, .range [10, 0, 0, 1] [10, 0, 0, 9], .null 1], Listed r) := by
  refine ⟨by decide +kernel, ?_⟩
  intro r h
  simp only [List.mem_cons, List.not_mem_nil, or_false] at h
  rcases h with rfl | rfl | rfl
  · exact OutEx.good10
  · have h4 : ∀ a : Bytes, a.length = 4 → ¬ Mapped a := by
      rintro a h ⟨d, hd, rfl⟩
      simp at h
    exact ⟨.inl rfl, .inl rfl, h4 _ rfl, h4 _ rfl⟩
  · trivial

/-- C109: the line about a wrong hash identifies both hashes. -/
theorem C109_text_hash (a b c d : Bytes) (h : (newResourceHash a b).text = (newResourceHash c d).text) : a = c ∧ b = d := by
  have h := Go.ok.inj h
  simp only [List.append_assoc] at h
  have h := List.append_cancel_left h
  have hx : ∀ b, ∀ c ∈ hexString b, c ≠ 32 ∧ c ≠ 44 := hexString_all fun d hd => ⟨(digitChar_hex d hd).1, (digitChar_hex d hd).2.2.1⟩
  obtain ⟨e1, h⟩ := cut_at (p := fun c => c ≠ 32 ∧ c ≠ 44) (hx _) (hx _) (fun c hc hl => hl.2 (by simpa [asc] using hc.symm))
    (fun c hc hl => hl.2 (by simpa [asc] using hc.symm)) h
  obtain ⟨e2, -⟩ := cut_at (p := fun c => c ≠ 32 ∧ c ≠ 44) (hx _) (hx _) (fun c hc hl => hl.1 (by simpa [asc] using hc.symm))
    (fun c hc hl => hl.1 (by simpa [asc] using hc.symm)) (List.append_cancel_left h)
  exact ⟨hexString_inj e1, hexString_inj e2⟩

/-- C109: a ROA or manifest that is rejected because of its certificate has the line, the kind and the certificate of that error; no error about a ROA or
    a manifest makes the log crash. -/
theorem C109_wrapped (entry inner : Bytes) (roa : ROA) (m : Mft) (e : CertErr) :
    (roa.innerValid = true → validateEntries roa.entries = .ok () → ∃ r, roaErr entry inner roa (some e) = some r ∧ r.text = .ok e.text ∧ r.etype = e.etype ∧ certOfErr (.res r) = e.cert) ∧
    (m.innerValid = true → ∃ r, mftErr inner m (some e) = some r ∧ r.text = .ok e.text ∧ r.etype = e.etype ∧ certOfErr (.res r) = e.cert) ∧
    (∀ x r, roaErr entry inner roa x = some r → ∃ t, r.text = .ok t) ∧ (∀ x r, mftErr inner m x = some r → ∃ t, r.text = .ok t) := by
  refine ⟨?_, ?_, ?_, ?_⟩
  · intro h1 h2
    refine ⟨newResourceWrap (.cert e), ?_, rfl, rfl, rfl⟩
    unfold roaErr
    simp [h1, h2]
  · intro h1
    refine ⟨newResourceWrap (.cert e), ?_, rfl, rfl, rfl⟩
    unfold mftErr
    simp [h1]
  · intro x r h
    unfold roaErr at h
    dsimp only at h
    split at h
    · obtain rfl := Option.some.inj h; exact ⟨_, rfl⟩
    · split at h
      · cases x with
        | none => cases h
        | some e => obtain rfl := Option.some.inj h; exact ⟨_, rfl⟩
      · obtain rfl := Option.some.inj h; exact ⟨_, rfl⟩
  · intro x r h
    unfold mftErr at h
    dsimp only at h
    split at h
    · cases x with
      | none => cases h
      | some e => obtain rfl := Option.some.inj h; exact ⟨_, rfl⟩
    · obtain rfl := Option.some.inj h; exact ⟨_, rfl⟩


/-! ### The tags of the report -/

theorem getTag_tag (s : Scope) (k k' : String) (v : Bytes) : (s.tag k v).getTag k' = if k' = k then some v else s.getTag k' := by
  unfold Scope.tag Scope.getTag
  rw [List.lookup_cons]
  by_cases h : k' = k
  · simp [h]
  · rw [if_neg h, show (k' == k) = false from by simpa using h]

theorem getTag_extra (s : Scope) (k k' : String) (v : Val) : (s.extra k v).getTag k' = s.getTag k' := rfl

theorem getExtra_tag (s : Scope) (k k' : String) (v : Bytes) : (s.tag k v).getExtra k' = s.getExtra k' := rfl

theorem getExtra_extra (s : Scope) (k k' : String) (v : Val) : (s.extra k v).getExtra k' = if k' = k then some v else s.getExtra k' := by
  unfold Scope.extra Scope.getExtra
  rw [List.lookup_cons]
  by_cases h : k' = k
  · simp [h]
  · rw [if_neg h, show (k' == k) = false from by simpa using h]

theorem getTag_cert_other (s : Scope) (pre : String) (c : Option Pki.Cert) (k : String) (h1 : k ≠ pre ++ "SubjectKeyId") (h2 : k ≠ pre ++ "AuthorityKeyId")
    (h3 : k ≠ pre ++ "SerialNumber") : (s.cert pre c).getTag k = s.getTag k := by
  unfold Scope.cert
  split
  · rfl
  · rw [getTag_tag, if_neg h3, getTag_extra, getTag_extra, getTag_tag, if_neg h2, getTag_tag, if_neg h1]

theorem getTag_file_other (s : Scope) (files : List PKIFile) (pre : String) (f : Option Nat) (k : String) (h1 : k ≠ pre ++ "Repository") (h2 : k ≠ pre ++ "Path")
    (h3 : k ≠ pre ++ "Type") : (s.file files pre f).getTag k = s.getTag k := by
  unfold Scope.file
  split
  · rfl
  · rw [getTag_extra, getTag_tag, if_neg h3, getTag_tag, if_neg h2]
    unfold Scope.repo
    split
    · rw [getTag_tag, if_neg h1]
    · split
      · split
        · rw [getTag_tag, if_neg h1]
        · rfl
      · rfl

theorem getTag_seek (s : Scope) (k : Option Seek) (n : String) : (s.seek k).getTag n = s.getTag n := by
  unfold Scope.seek; split <;> rfl

theorem getTag_file (s : Scope) (files : List PKIFile) (i : Nat) (f : PKIFile) (hf : files[i]? = some f) :
    (s.file files "File." (some i)).getTag "File.Path" = some f.path ∧ (s.file files "File." (some i)).getTag "File.Type" = some (typeName f.type) ∧
      (s.file files "File." (some i)).getTag "File.Repository" = (repoOf files f).or (s.getTag "File.Repository") := by
  unfold Scope.file
  simp only [Option.bind_some, hf]
  refine ⟨?_, ?_, ?_⟩
  · rw [getTag_extra, getTag_tag, if_neg (by decide), getTag_tag, if_pos (by decide)]
  · rw [getTag_extra, getTag_tag, if_pos (by decide)]
  · rw [getTag_extra, getTag_tag, if_neg (by decide), getTag_tag, if_neg (by decide)]
    unfold Scope.repo repoOf
    split
    · rw [getTag_tag, if_pos (by decide)]; rfl
    · cases h : f.parent.bind fun p => files[p]? with
      | none => simp
      | some p =>
        simp only [Option.bind_some]
        split
        · rw [getTag_tag, if_pos (by decide)]; rfl
        · simp

theorem getTag_certErr (files : List PKIFile) (e : CertErr) (s : Scope) (n : String) (h : n ∉ ["InnerFile.Repository", "InnerFile.Path", "InnerFile.Type"]) :
    (e.scope files s).getTag n = ((((s.tag "Type" (kindName e.etype)).cert "Certificate." e.cert).cert "Conflict." e.conflict).file files "File." e.file).getTag n := by
  unfold CertErr.scope
  dsimp only
  have hx : ∀ (s : Scope) (b : Prop) [Decidable b] (k : String) (v : Val), (if b then s.extra k v else s).getTag n = s.getTag n := by
    intro s b _ k v; split <;> rfl
  simp only [List.mem_cons, List.not_mem_nil, or_false, not_or] at h
  rw [hx, hx, getTag_seek, getTag_file_other _ _ _ _ _ h.1 h.2.1 h.2.2]

/-- An error as the Validator made it: nothing is said yet about the file. -/
def Fresh : Err → Prop
  | .cert e => e.file = none ∧ e.seek = none
  | .file e => e.file = none ∧ e.seek = none
  | .res r => r.file = none ∧ r.seek = none ∧ ∀ e, r.inner = .cert e → e.file = none ∧ e.seek = none
  | .plain _ => True

/-- C109: the tags of a report name the file, its type and its repository, the kind of error, the trust anchor, and the certificate if the error is about one. -/
theorem C109_tags (files : List PKIFile) (tal : Bytes) (e : Err) (hfr : Fresh e) (hk : kindOfErr e ≠ none) (i : Nat) (f : PKIFile) (hf : files[i]? = some f) (sk : Option Seek)
    (t : Bytes) (s : Scope) (h : collect files tal (e.addFile i sk) = .ok (t, s)) :
    s.getTag "File.Path" = some f.path ∧ s.getTag "File.Type" = some (typeName f.type) ∧ s.getTag "File.Repository" = repoOf files f ∧
      s.getTag "Type" = (kindOfErr e).map kindName ∧ s.getTag "TrustAnchor" = some tal ∧
      s.getTag "Certificate.SubjectKeyId" = (certOfErr e).map (fun c => hexString c.ski) ∧ s.getTag "Certificate.AuthorityKeyId" = (certOfErr e).map (fun c => hexString c.aki) ∧
      s.getTag "Certificate.SerialNumber" = (certOfErr e).map (fun c => dec c.serial) := by
  have key : ∀ c : CertErr, c.file = some i →
      (c.scope files ⟨[], []⟩).getTag "File.Path" = some f.path ∧ (c.scope files ⟨[], []⟩).getTag "File.Type" = some (typeName f.type) ∧
      (c.scope files ⟨[], []⟩).getTag "File.Repository" = repoOf files f ∧ (c.scope files ⟨[], []⟩).getTag "Type" = some (kindName c.etype) := by
    intro c hc
    rw [getTag_certErr _ _ _ _ (by decide), getTag_certErr _ _ _ _ (by decide), getTag_certErr _ _ _ _ (by decide), getTag_certErr _ _ _ _ (by decide), hc]
    obtain ⟨g1, g2, g3⟩ := getTag_file (((Scope.tag ⟨[], []⟩ "Type" (kindName c.etype)).cert "Certificate." c.cert).cert "Conflict." c.conflict) files i f hf
    refine ⟨g1, g2, ?_, ?_⟩
    · rw [g3, getTag_cert_other _ _ _ _ (by decide) (by decide) (by decide), getTag_cert_other _ _ _ _ (by decide) (by decide) (by decide), getTag_tag, if_neg (by decide)]
      exact Option.or_none
    · rw [getTag_file_other _ _ _ _ _ (by decide) (by decide) (by decide), getTag_cert_other _ _ _ _ (by decide) (by decide) (by decide),
        getTag_cert_other _ _ _ _ (by decide) (by decide) (by decide), getTag_tag, if_pos rfl]
  have keyc : ∀ c : CertErr, (c.scope files ⟨[], []⟩).getTag "Certificate.SubjectKeyId" = c.cert.map (fun c => hexString c.ski) ∧
      (c.scope files ⟨[], []⟩).getTag "Certificate.AuthorityKeyId" = c.cert.map (fun c => hexString c.aki) ∧
      (c.scope files ⟨[], []⟩).getTag "Certificate.SerialNumber" = c.cert.map (fun c => dec c.serial) := by
    intro c
    rw [getTag_certErr _ _ _ _ (by decide), getTag_certErr _ _ _ _ (by decide), getTag_certErr _ _ _ _ (by decide)]
    rw [getTag_file_other _ _ _ _ _ (by decide) (by decide) (by decide), getTag_file_other _ _ _ _ _ (by decide) (by decide) (by decide),
      getTag_file_other _ _ _ _ _ (by decide) (by decide) (by decide), getTag_cert_other _ "Conflict." _ "Certificate.SubjectKeyId" (by decide) (by decide) (by decide),
      getTag_cert_other _ "Conflict." _ "Certificate.AuthorityKeyId" (by decide) (by decide) (by decide),
      getTag_cert_other _ "Conflict." _ "Certificate.SerialNumber" (by decide) (by decide) (by decide)]
    cases c.cert with
    | none => exact ⟨rfl, rfl, rfl⟩
    | some d => exact ⟨rfl, rfl, rfl⟩
  unfold collect at h
  obtain ⟨t', -, h⟩ := Go.bind_eq_ok.mp h
  have h := Go.ok.inj h
  simp only [Prod.mk.injEq] at h
  obtain ⟨-, rfl⟩ := h
  have hta : ∀ (s : Scope) (n : String), n ≠ "TrustAnchor" → (s.tag "TrustAnchor" tal).getTag n = s.getTag n := by
    intro s n hn; rw [getTag_tag, if_neg hn]
  rw [hta _ "File.Path" (by decide), hta _ "File.Type" (by decide), hta _ "File.Repository" (by decide), hta _ "Type" (by decide), hta _ "Certificate.SubjectKeyId" (by decide),
    hta _ "Certificate.AuthorityKeyId" (by decide), hta _ "Certificate.SerialNumber" (by decide), getTag_tag _ "TrustAnchor", if_pos rfl]
  cases e with
  | cert c =>
    obtain ⟨k1, k2, k3, k4⟩ := key { c with file := some i, seek := sk } rfl
    obtain ⟨k5, k6, k7⟩ := keyc { c with file := some i, seek := sk }
    exact ⟨k1, k2, k3, k4, rfl, k5, k6, k7⟩
  | file c =>
    obtain ⟨k1, k2, k3, k4⟩ := key { c with file := some i, seek := sk } rfl
    obtain ⟨k5, k6, k7⟩ := keyc { c with file := some i, seek := sk }
    exact ⟨k1, k2, k3, k4, rfl, k5, k6, k7⟩
  | plain t => exact absurd rfl hk
  | res r =>
    obtain ⟨et, inner, rf, rs⟩ := r
    simp only [Err.addFile]
    unfold ResErr.scope
    dsimp only
    simp only [getTag_seek]
    have hrepo : (inner.scope files ⟨[], []⟩).getTag "File.Repository" = none := by
      cases inner with
      | cert c =>
        show (c.scope files ⟨[], []⟩).getTag "File.Repository" = none
        rw [getTag_certErr _ _ _ _ (by decide), (hfr.2.2 c rfl).1]
        unfold Scope.file
        simp only [Option.bind_none]
        rw [getTag_cert_other _ _ _ _ (by decide) (by decide) (by decide), getTag_cert_other _ _ _ _ (by decide) (by decide) (by decide), getTag_tag, if_neg (by decide)]
        rfl
      | missing => rfl
      | plain t => rfl
    obtain ⟨g1, g2, g3⟩ := getTag_file ((inner.scope files ⟨[], []⟩).tag "Type" (kindName et)) files i f hf
    refine ⟨g1, g2, ?_, ?_, trivial, ?_⟩
    · rw [g3, getTag_tag, if_neg (by decide), hrepo]
      exact Option.or_none
    · rw [getTag_file_other _ _ _ _ _ (by decide) (by decide) (by decide), getTag_tag, if_pos rfl]; rfl
    · rw [getTag_file_other _ _ _ _ _ (by decide) (by decide) (by decide), getTag_file_other _ _ _ _ _ (by decide) (by decide) (by decide),
        getTag_file_other _ _ _ _ _ (by decide) (by decide) (by decide), getTag_tag, getTag_tag, getTag_tag, if_neg (by decide), if_neg (by decide), if_neg (by decide)]
      cases inner with
      | missing => exact ⟨rfl, rfl, rfl⟩
      | plain t => exact ⟨rfl, rfl, rfl⟩
      | cert c => exact keyc c

/-- C109: a report also tells the length and the hash of the file that was read, and the resources of a resource error. -/
theorem C109_extras (files : List PKIFile) (tal : Bytes) (e : Err) (hk : kindOfErr e ≠ none) (i : Nat) (k : Seek) (t : Bytes) (s : Scope)
    (h : collect files tal (e.addFile i (some k)) = .ok (t, s)) :
    s.getExtra "File.Length" = some (.num k.data.length) ∧ s.getExtra "File.Sha256" = some (.text (hexString k.sha256)) ∧
    (∀ c ips asns, e = .cert (newResource c ips asns) → (ips ≠ [] → s.getExtra "IPs" = some (.ips ips)) ∧ (asns ≠ [] → s.getExtra "ASNs" = some (.asns asns))) := by
  have hs : ∀ (s : Scope), (s.seek (some k)).getExtra "File.Length" = some (.num k.data.length) ∧ (s.seek (some k)).getExtra "File.Sha256" = some (.text (hexString k.sha256)) := by
    intro s
    unfold Scope.seek
    dsimp only
    rw [getExtra_extra, if_neg (by decide), getExtra_extra, if_pos rfl, getExtra_extra, if_pos rfl]
    exact ⟨rfl, rfl⟩
  have hx : ∀ (s : Scope) (b : Prop) [Decidable b] (n : String) (v : Val) (m : String), m ≠ n → (if b then s.extra n v else s).getExtra m = s.getExtra m := by
    intro s b _ n v m hm
    split
    · rw [getExtra_extra, if_neg hm]
    · rfl
  have hc : ∀ c : CertErr, c.seek = some k → (c.scope files ⟨[], []⟩).getExtra "File.Length" = some (.num k.data.length) ∧
      (c.scope files ⟨[], []⟩).getExtra "File.Sha256" = some (.text (hexString k.sha256)) := by
    intro c hck
    unfold CertErr.scope
    dsimp only
    rw [hx _ _ _ _ _ (by decide), hx _ _ _ _ _ (by decide), hx _ _ _ _ _ (by decide), hx _ _ _ _ _ (by decide), hck]
    exact hs _
  unfold collect at h
  obtain ⟨t', -, h⟩ := Go.bind_eq_ok.mp h
  have h := Go.ok.inj h
  simp only [Prod.mk.injEq] at h
  obtain ⟨-, rfl⟩ := h
  simp only [getExtra_tag]
  cases e with
  | cert c =>
    refine ⟨(hc _ rfl).1, (hc _ rfl).2, ?_⟩
    intro d ips asns he
    cases he
    simp only [Err.addFile, CertErr.scope, newResource]
    refine ⟨fun hi => ?_, fun ha => ?_⟩
    · rw [hx _ _ _ _ _ (by decide), if_pos (List.length_pos_iff.mpr hi), getExtra_extra, if_pos rfl]
    · rw [if_pos (List.length_pos_iff.mpr ha), getExtra_extra, if_pos rfl]
  | file c => exact ⟨(hc _ rfl).1, (hc _ rfl).2, fun _ _ _ he => by cases he⟩
  | plain t => exact absurd rfl hk
  | res r => exact ⟨(hs _).1, (hs _).2, fun _ _ _ he => by cases he⟩

/-- The report about a ROA that is rejected for its certificate; the file is found through a manifest, whose parent has the repository. -/
example : ((collect [⟨none, [114], [97], .cer, true, none⟩, ⟨some 0, [], [98], .roa, false, none⟩] [116]
    ((Err.res (newResourceWrap (.cert (newRevocation (mkCert [4] [1] 9 [] []))))).addFile 1 (some ⟨[1, 2, 3], [255]⟩))).bind fun r => .ok
      (r.1, ["File.Path", "File.Type", "File.Repository", "Type", "TrustAnchor", "Certificate.SubjectKeyId"].map r.2.getTag, r.2.getExtra "File.Length")) =
    .ok (asc "revocation by issuer for certificate ski:04 aki:01".toList,
      [some [98], some (asc "roa".toList), some [114], some (asc "revocation".toList), some [116], some (asc "04".toList)], some (.num 3)) ∧
    Fresh (.res (newResourceWrap (.cert (newRevocation (mkCert [4] [1] 9 [] []))))) := by
  refine ⟨by decide +kernel, rfl, rfl, ?_⟩
  intro e h
  cases h
  exact ⟨rfl, rfl⟩

/-- C109: the names of the kinds and of the types of files are different. -/
theorem C109_names : (∀ j k, kindName j = kindName k → j = k) ∧ (∀ s t, typeName s = typeName t → s = t) := by
  refine ⟨?_, ?_⟩
  · intro j k
    have : ∀ k, (kindName k).drop 0 = kindName k := fun k => rfl
    cases j <;> cases k <;> first | exact fun _ => rfl | (intro h; exact absurd h (by decide +kernel))
  · intro j k
    cases j <;> cases k <;> first | exact fun _ => rfl | (intro h; exact absurd h (by decide +kernel))

/-! ### What the reports do not say -/

/-- C109 fails: the line in the log never depends on the file, so an operator with only the log cannot tell which file was rejected. -/
theorem C109_violated_file (e : Err) (f g : Nat) (s t : Option Seek) : (e.addFile f s).text = (e.addFile g t).text := by
  cases e with
  | cert c => rfl
  | file c => rfl
  | res r => rfl
  | plain t => rfl

/-- C109 fails: the message about a certificate that has ended shows the beginning of its validity in place of the end; certificates with different ends have the same message. -/
theorem C109_violated_end (tx : Texts) (env : Env) (v : V) (c : Pki.Cert) (trust : Bool) (hn : v.objects.get c.ski = none) (h1 : c.notBefore ≤ env.now) (na : Int) (h2 : c.notAfter < env.now)
    (h3 : na < env.now) : ∃ e e', V.addCertE tx env v c trust = .ok (some e) ∧ V.addCertE tx env v { c with notAfter := na } trust = .ok (some e') ∧ e.text = e'.text ∧
      e.inner = some (asc "Certificate end of validity: ".toList ++ tx.time c.notBefore ++ asc " is before: ".toList ++ tx.time env.now) := by
  unfold V.addCertE
  rw [hn]
  have t1 : timeText tx c.notBefore c.notAfter env.now = some (asc "Certificate end of validity: ".toList ++ tx.time c.notBefore ++ asc " is before: ".toList ++ tx.time env.now) := by
    unfold timeText; rw [if_neg (by omega), if_pos h2]
  have t2 : timeText tx c.notBefore na env.now = some (asc "Certificate end of validity: ".toList ++ tx.time c.notBefore ++ asc " is before: ".toList ++ tx.time env.now) := by
    unfold timeText; rw [if_neg (by omega), if_pos h3]
  dsimp only
  unfold V.validateCertificateE
  simp only [t1, t2]
  exact ⟨_, _, rfl, rfl, rfl, rfl⟩

/-- C109 fails: the text of a certificate shows its AS numbers where it announces its routing domain identifiers; these are never shown. -/
theorem C109_violated_rdi (c : Pki.Cert) (sias : List Bytes) (r1 r2 : List ASInfo) : certString c sias r1 = certString c sias r2 ∧
    ∃ a, certString c sias r1 = a ++ asc "] ASNs RDI: [ ".toList ++ commaList (c.asns.map asInfoText) ++ asc "]".toList := ⟨rfl, _, rfl⟩

end Verif.Props
