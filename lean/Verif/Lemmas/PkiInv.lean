import Verif.Lemmas.PkiBase
import Verif.Lemmas.Cert
/-
  The invariant of the Validator and its preservation by every operation.
-/
set_option autoImplicit false

namespace Verif.Pki
open Net _root_.Verif.Cert Roa PkiSpec

/-- What may be listed as a child of the object stored under `k`. -/
def Kid (v : V) (k : Bytes) (ch : Nat) : Prop :=
  (∃ c, v.dataOf ch = some (.cert c) ∧ c.aki = k ∧ v.objects.get c.ski = some ch) ∨
  (∃ r, v.dataOf ch = some (.roa r) ∧ r.cert.ski = k) ∨
  (∃ m, v.dataOf ch = some (.mft m) ∧ m.cert.ski = k) ∨
  (∃ l, v.dataOf ch = some (.crl l))

/-- What was found out about one resource: the issuer `pc` has it, or inherits, and then, unless it
    is a trust anchor, its own issuer has it or inherits. -/
def Settled {α : Type} (T : Bytes → Prop) (v : V) (cl : Cert → α → Go Verdict) (pc : Cert) (e : α) : Prop :=
  cl pc e = .ok .valid ∨ (cl pc e = .ok .checkParent ∧ (T pc.ski ∨ ∃ g gc, v.objects.get pc.aki = some g ∧
    v.certOf g = some gc ∧ (cl gc e = .ok .valid ∨ cl gc e = .ok .checkParent)))

/-- The verdicts on IP and AS resources against one certificate. -/
def clIP (c : Cert) (e : IPInfo) : Go Verdict := classifyIP c.ips e
def clAS (c : Cert) (e : ASInfo) : Go Verdict := .ok (classifyAS c.asns e)

/-- The reason a valid object that is not a trust anchor has for being valid. -/
def Backed (env : Env) (T : Bytes → Prop) (v : V) (i : Nat) (c : Cert) : Prop :=
  ∃ p pc, v.validObjects.get c.aki = some p ∧ v.certOf p = some pc ∧ p < i ∧ i ∈ v.childsOf p ∧
    env.checkSig c pc = true ∧ (c.notBefore ≤ env.now ∧ env.now ≤ c.notAfter) ∧
    (∃ j, v.certsSerial.get (serialKey c.aki c.serial) = some j ∧ i ≤ j) ∧ v.parentOf i = some p ∧
    (∀ e ∈ c.ips, Settled T v clIP pc e) ∧ (∀ e ∈ c.asns, Settled T v clAS pc e)

theorem Settled.mono {α : Type} {T : Bytes → Prop} {v v' : V} {cl : Cert → α → Go Verdict} {pc : Cert} {e : α}
    (ho : ∀ k i, v.objects.get k = some i → v'.objects.get k = some i)
    (hd : ∀ i c, v.certOf i = some c → v'.certOf i = some c)
    (h : Settled T v cl pc e) : Settled T v' cl pc e := by
  rcases h with h | ⟨h, h' | ⟨g, gc, h1, h2, h3⟩⟩
  · exact .inl h
  · exact .inr ⟨h, .inl h'⟩
  · exact .inr ⟨h, .inr ⟨g, gc, ho _ _ h1, hd _ _ h2, h3⟩⟩

structure Inv (env : Env) (T : Bytes → Prop) (P : ROA → Prop) (v : V) : Prop where
  obj : ∀ k i, v.objects.get k = some i → ∃ c, v.certOf i = some c ∧ c.ski = k
  val : ∀ k i, v.validObjects.get k = some i → v.objects.get k = some i
  chain : ∀ k i c, v.validObjects.get k = some i → v.certOf i = some c → T k ∨ Backed env T v i c
  kids : ∀ k i, v.objects.get k = some i → ∀ ch ∈ v.childsOf i, Kid v k ch
  par : ∀ i p, v.parentOf i = some p → p < i
  serial : ∀ key i, v.certsSerial.get key = some i →
    ∃ c, v.certOf i = some c ∧ key = serialKey c.aki c.serial ∧ v.objects.get c.ski = some i
  vroa : ∀ k j, v.validROA.get k = some j → ∃ r i, v.dataOf j = some (.roa r) ∧ r.cert.ski = k ∧
    roaError r none = none ∧ P r ∧ v.validObjects.get k = some i ∧ v.certOf i = some r.cert
  vcrl : ∀ k j, v.validCRL.get k = some j → ∃ l i c, v.dataOf j = some (.crl l) ∧ l.aki = k ∧
    v.validObjects.get k = some i ∧ v.certOf i = some c ∧ env.checkCRLSig c l = true
  vmft : ∀ k j, v.validManifest.get k = some j → ∃ m i, v.dataOf j = some (.mft m) ∧ m.cert.ski = k ∧
    m.innerValid = true ∧ v.objects.get k = some i ∧ v.certOf i = some m.cert

theorem inv_new (env : Env) (T : Bytes → Prop) (P : ROA → Prop) : Inv env T P V.new := by
  constructor
  all_goals simp [V.new, Map.get_nil, parentOf_eq]

theorem Kid.mono {v v' : V} {k : Bytes} {ch : Nat} (ho : v'.objects = v.objects)
    (hd : ∀ i d, v.dataOf i = some d → v'.dataOf i = some d) (h : Kid v k ch) : Kid v' k ch := by
  rcases h with ⟨c, h1, h2, h3⟩ | ⟨r, h1, h2⟩ | ⟨m, h1, h2⟩ | ⟨l, h1⟩
  · exact .inl ⟨c, hd _ _ h1, h2, by rw [ho]; exact h3⟩
  · exact .inr (.inl ⟨r, hd _ _ h1, h2⟩)
  · exact .inr (.inr (.inl ⟨m, hd _ _ h1, h2⟩))
  · exact .inr (.inr (.inr ⟨l, hd _ _ h1⟩))

/-- A change of the heap that keeps payloads and maps. -/
structure HeapExt (v v' : V) : Prop where
  objects : v'.objects = v.objects
  validObjects : v'.validObjects = v.validObjects
  certsSerial : v'.certsSerial = v.certsSerial
  validROA : v'.validROA = v.validROA
  validCRL : v'.validCRL = v.validCRL
  validManifest : v'.validManifest = v.validManifest
  revoked : v'.revoked = v.revoked
  data : ∀ i d, v.dataOf i = some d → v'.dataOf i = some d
  childs : ∀ i ch, ch ∈ v.childsOf i → ch ∈ v'.childsOf i
  parent : ∀ i p, v.parentOf i = some p → v'.parentOf i = some p

theorem HeapExt.cert {v v' : V} (h : HeapExt v v') {i : Nat} {c : Cert} (hc : v.certOf i = some c) :
    v'.certOf i = some c := (certOf_eq _ _ _).mpr (h.data _ _ ((certOf_eq _ _ _).mp hc))

theorem HeapExt.trans {a b c : V} (h : HeapExt a b) (h' : HeapExt b c) : HeapExt a c :=
  ⟨h'.1.trans h.1, h'.2.trans h.2, h'.3.trans h.3, h'.4.trans h.4, h'.5.trans h.5, h'.6.trans h.6,
   h'.7.trans h.7, fun i d hd => h'.8 i d (h.8 i d hd), fun i ch hc => h'.9 i ch (h.9 i ch hc),
   fun i p hp => h'.10 i p (h.10 i p hp)⟩

theorem Inv.heapExt {env : Env} {T : Bytes → Prop} {P : ROA → Prop} {v v' : V} (hi : Inv env T P v)
    (h : HeapExt v v') (hpar : ∀ i p, v'.parentOf i = some p → p < i)
    (hk : ∀ k i, v.objects.get k = some i → ∀ ch ∈ v'.childsOf i, ch ∈ v.childsOf i ∨ Kid v' k ch) :
    Inv env T P v' := by
  have hcert : ∀ {i c c'}, v.certOf i = some c → v'.certOf i = some c' → v.certOf i = some c' := by
    intro i c c' h1 h2
    rw [h.cert h1] at h2
    rw [h1]; exact h2
  constructor
  · intro k i hg
    rw [h.objects] at hg
    obtain ⟨c, h1, h2⟩ := hi.obj k i hg
    exact ⟨c, h.cert h1, h2⟩
  · intro k i hg
    rw [h.validObjects] at hg
    rw [h.objects]
    exact hi.val k i hg
  · intro k i c hg hc
    rw [h.validObjects] at hg
    obtain ⟨c0, h0, _⟩ := hi.obj k i (hi.val k i hg)
    have hmono : ∀ k i, v.objects.get k = some i → v'.objects.get k = some i := by
      intro k i hk; rw [h.objects]; exact hk
    rcases hi.chain k i c hg (hcert h0 hc) with ht | ⟨p, pc, h1, h2, h3, h4, h5, h6, h7, h8, h9, h10⟩
    · exact .inl ht
    · exact .inr ⟨p, pc, by rw [h.validObjects]; exact h1, h.cert h2, h3, h.childs _ _ h4, h5, h6,
        by rw [h.certsSerial]; exact h7, h.parent _ _ h8,
        fun e he => (h9 e he).mono hmono (fun _ _ => h.cert), fun e he => (h10 e he).mono hmono (fun _ _ => h.cert)⟩
  · intro k i hg ch hch
    rw [h.objects] at hg
    rcases hk k i hg ch hch with hc | hc
    · exact (hi.kids k i hg ch hc).mono h.objects h.data
    · exact hc
  · exact hpar
  · intro key i hg
    rw [h.certsSerial] at hg
    obtain ⟨c, h1, h2, h3⟩ := hi.serial key i hg
    exact ⟨c, h.cert h1, h2, by rw [h.objects]; exact h3⟩
  · intro k j hg
    rw [h.validROA] at hg
    obtain ⟨r, i, h1, h2, h3, h4, h5, h6⟩ := hi.vroa k j hg
    exact ⟨r, i, h.data _ _ h1, h2, h3, h4, by rw [h.validObjects]; exact h5, h.cert h6⟩
  · intro k j hg
    rw [h.validCRL] at hg
    obtain ⟨l, i, c, h1, h2, h3, h4, h5⟩ := hi.vcrl k j hg
    exact ⟨l, i, c, h.data _ _ h1, h2, by rw [h.validObjects]; exact h3, h.cert h4, h5⟩
  · intro k j hg
    rw [h.validManifest] at hg
    obtain ⟨m, i, h1, h2, h3, h4, h5⟩ := hi.vmft k j hg
    exact ⟨m, i, h.data _ _ h1, h2, h3, by rw [h.objects]; exact h4, h.cert h5⟩

/-! ### Small steps -/

theorem heapExt_alloc (v : V) (r : Res) : HeapExt v (v.alloc r) := by
  refine ⟨rfl, rfl, rfl, rfl, rfl, rfl, rfl, ?_, ?_, ?_⟩
  · intro i d hd
    have := dataOf_lt hd
    rw [dataOf_alloc, if_neg (by omega)]; exact hd
  · intro i ch hc
    have := childsOf_lt hc
    rw [childsOf_alloc, if_neg (by omega)]; exact hc
  · intro i p hp
    have : i < v.heap.length := by
      rw [parentOf_eq] at hp
      cases h' : v.heap[i]? with
      | none => simp [h'] at hp
      | some r => exact (List.getElem?_eq_some_iff.mp h').1
    rw [parentOf_alloc, if_neg (by omega)]; exact hp

theorem Inv.alloc {env : Env} {T : Bytes → Prop} {P : ROA → Prop} {v : V} (hi : Inv env T P v) (r : Res)
    (hc : r.childs = []) (hp : ∀ p, r.parent = some p → p < v.heap.length) : Inv env T P (v.alloc r) := by
  refine hi.heapExt (heapExt_alloc v r) ?_ ?_
  · intro i p h
    rw [parentOf_alloc] at h
    split at h
    · rename_i he; rw [he]; exact hp p h
    · exact hi.par i p h
  · intro k i _ ch hch
    rw [childsOf_alloc] at hch
    split at hch
    · rw [hc] at hch; simp at hch
    · exact .inl hch

theorem heapExt_touch (v : V) (j : Nat) (f : Res → Res) (hd : ∀ r, (f r).data = r.data)
    (hp : ∀ r, (f r).parent = r.parent) (hc : ∀ r, (f r).childs = r.childs) : HeapExt v (v.modify j f) := by
  refine ⟨rfl, rfl, rfl, rfl, rfl, rfl, rfl, ?_, ?_, ?_⟩
  · intro i d h; rw [dataOf_modify v j f hd]; exact h
  · intro i ch h; rw [childsOf_modify v j f id hc]; simp; exact h
  · intro i p h; rw [parentOf_modify v j f hp]; exact h

theorem Inv.touch {env : Env} {T : Bytes → Prop} {P : ROA → Prop} {v : V} (hi : Inv env T P v) (j : Nat)
    (f : Res → Res) (hd : ∀ r, (f r).data = r.data) (hp : ∀ r, (f r).parent = r.parent)
    (hc : ∀ r, (f r).childs = r.childs) : Inv env T P (v.modify j f) := by
  refine hi.heapExt (heapExt_touch v j f hd hp hc) ?_ ?_
  · intro i p h; rw [parentOf_modify v j f hp] at h; exact hi.par i p h
  · intro k i _ ch hch
    rw [childsOf_modify v j f id hc] at hch
    simp at hch
    exact .inl hch

theorem heapExt_addChild (v : V) (j ch : Nat) :
    HeapExt v (v.modify j (fun r => { r with childs := r.childs ++ [ch] })) := by
  refine ⟨rfl, rfl, rfl, rfl, rfl, rfl, rfl, ?_, ?_, ?_⟩
  · intro i d h; rw [dataOf_modify]; exact h; intro r; rfl
  · intro i c h
    rw [childsOf_modify v j _ (fun l => l ++ [ch]) (fun r => rfl)]
    split
    · simp [h]
    · exact h
  · intro i p h; rw [parentOf_modify]; exact h; intro r; rfl

theorem Inv.addChild {env : Env} {T : Bytes → Prop} {P : ROA → Prop} {v : V} (hi : Inv env T P v)
    (j ch : Nat) (hk : ∀ k, v.objects.get k = some j → Kid v k ch) :
    Inv env T P (v.modify j (fun r => { r with childs := r.childs ++ [ch] })) := by
  refine hi.heapExt (heapExt_addChild v j ch) ?_ ?_
  · intro i p h; rw [parentOf_modify] at h; exact hi.par i p h; intro r; rfl
  · intro k i hg c hc
    rw [childsOf_modify v j _ (fun l => l ++ [ch]) (fun r => rfl)] at hc
    split at hc
    · rename_i hij
      rcases List.mem_append.mp hc with hc | hc
      · exact .inl hc
      · simp at hc
        subst hc
        exact .inr (Kid.mono (v := v) rfl (heapExt_addChild v j c).data (hk k (by rw [← hij.1]; exact hg)))
    · exact .inl hc

/-- Maps that the invariant does not mention. -/
theorem Inv.other {env : Env} {T : Bytes → Prop} {P : ROA → Prop} {v v' : V} (hi : Inv env T P v)
    (h1 : v'.heap = v.heap) (h2 : v'.objects = v.objects) (h3 : v'.validObjects = v.validObjects)
    (h4 : v'.certsSerial = v.certsSerial) (h5 : v'.validROA = v.validROA) (h6 : v'.validCRL = v.validCRL)
    (h7 : v'.validManifest = v.validManifest) : Inv env T P v' := by
  have hd : ∀ i, v'.dataOf i = v.dataOf i := by intro i; unfold V.dataOf; rw [h1]
  have hc : ∀ i, v'.childsOf i = v.childsOf i := by intro i; unfold V.childsOf; rw [h1]
  have hp : ∀ i, v'.parentOf i = v.parentOf i := by intro i; unfold V.parentOf; rw [h1]
  have ho : ∀ i, v'.certOf i = v.certOf i := fun i => certOf_congr (hd i)
  obtain ⟨a, b, c, d, e, f, g, h, k⟩ := hi
  constructor
  · simpa only [h2, ho] using a
  · simpa only [h2, h3] using b
  · simpa only [h3, ho, Backed, hc, h4, hp, Settled, h2] using c
  · simpa only [h2, hc, Kid, hd] using d
  · simpa only [hp] using e
  · simpa only [h4, ho, h2] using f
  · simpa only [h5, hd, h3, ho] using g
  · simpa only [h6, hd, h3, ho] using h
  · simpa only [h7, hd, h2, ho] using k

/-! ### Invalidation -/

theorem Inv.obj_certOf {env : Env} {T : Bytes → Prop} {P : ROA → Prop} {v : V} (hi : Inv env T P v)
    {k : Bytes} {i : Nat} {c : Cert} (h : v.objects.get k = some i) (hc : v.certOf i = some c) : c.ski = k := by
  obtain ⟨c', h1, h2⟩ := hi.obj k i h
  rw [hc] at h1; simp at h1; rw [h1]; exact h2

/-- A child certificate of a stored object is reached. -/
theorem mem_childIds {v : V} {k : Bytes} {p i : Nat} {c : Cert} (ho : v.objects.get k = some p)
    (hc : i ∈ v.childsOf p) (hcert : v.certOf i = some c) : c.ski ∈ v.childIds k := by
  rw [childIds_eq, ho]
  simp only [List.mem_filterMap]
  refine ⟨i, hc, ?_⟩
  rw [getIdentifier_dataOf, (certOf_eq _ _ _).mp hcert]
  rfl

theorem Inv.invalidated {env : Env} {T : Bytes → Prop} {P : ROA → Prop} {v v' : V} (hi : Inv env T P v)
    {k : Bytes} (h : v.invalidateObject k = .ok v') : Inv env T P v' := by
  obtain ⟨hs, hr, hn⟩ := invalidateObject_spec h
  have hd : ∀ i, v'.dataOf i = v.dataOf i := by intro i; unfold V.dataOf; rw [hs.heap]
  have hc : ∀ i, v'.childsOf i = v.childsOf i := by intro i; unfold V.childsOf; rw [hs.heap]
  have hp : ∀ i, v'.parentOf i = v.parentOf i := by intro i; unfold V.parentOf; rw [hs.heap]
  have ho : ∀ i, v'.certOf i = v.certOf i := fun i => certOf_congr (hd i)
  have hval : ∀ x i, v'.validObjects.get x = some i → ¬ Reach v k x ∧ v.validObjects.get x = some i := by
    intro x i hx
    by_cases hxr : Reach v k x
    · rw [(hr x hxr).1] at hx; simp at hx
    · rw [(hn x hxr).1] at hx; exact ⟨hxr, hx⟩
  constructor
  · intro x i hx
    rw [hs.objects] at hx
    simpa only [ho] using hi.obj x i hx
  · intro x i hx
    rw [hs.objects]
    exact hi.val x i (hval x i hx).2
  · intro x i c hx hxc
    rw [ho] at hxc
    obtain ⟨hnr, hx'⟩ := hval x i hx
    have hmono : ∀ k i, v.objects.get k = some i → v'.objects.get k = some i := by
      intro k i hk; rw [hs.objects]; exact hk
    have hcm : ∀ i c, v.certOf i = some c → v'.certOf i = some c := by
      intro i c hh; rw [ho]; exact hh
    rcases hi.chain x i c hx' hxc with ht | ⟨p, pc, h1, h2, h3, h4, h5, h6, h7, h8, h9, h10⟩
    · exact .inl ht
    · refine .inr ⟨p, pc, ?_, by rw [ho]; exact h2, h3, by rw [hc]; exact h4, h5, h6,
        by rw [hs.certsSerial]; exact h7, by rw [hp]; exact h8, fun e he => (h9 e he).mono hmono hcm,
        fun e he => (h10 e he).mono hmono hcm⟩
      have : ¬ Reach v k c.aki := by
        intro hr'
        apply hnr
        have := mem_childIds (hi.val _ _ h1) h4 hxc
        rw [hi.obj_certOf (hi.val _ _ hx') hxc] at this
        exact .step _ _ hr' this
      rw [(hn _ this).1]; exact h1
  · intro x i hx ch hch
    rw [hs.objects] at hx
    rw [hc] at hch
    exact (hi.kids x i hx ch hch).mono hs.objects (fun i d hh => by rw [hd]; exact hh)
  · intro i p hh
    rw [hp] at hh
    exact hi.par i p hh
  · intro key i hh
    rw [hs.certsSerial] at hh
    simpa only [ho, hs.objects] using hi.serial key i hh
  · intro x j hx
    have hxr : ¬ Reach v k x := by
      intro hxr
      rw [(hr x hxr).2.1] at hx; simp at hx
    rw [(hn x hxr).2.1] at hx
    obtain ⟨r, i, h1, h2, h3, h4, h5, h6⟩ := hi.vroa x j hx
    exact ⟨r, i, by rw [hd]; exact h1, h2, h3, h4, by rw [(hn x hxr).1]; exact h5, by rw [ho]; exact h6⟩
  · intro x j hx
    have hxr : ¬ Reach v k x := by
      intro hxr
      rw [(hr x hxr).2.2] at hx; simp at hx
    rw [(hn x hxr).2.2] at hx
    obtain ⟨l, i, c, h1, h2, h3, h4, h5⟩ := hi.vcrl x j hx
    exact ⟨l, i, c, by rw [hd]; exact h1, h2, by rw [(hn x hxr).1]; exact h3, by rw [ho]; exact h4, h5⟩
  · intro x j hx
    rw [hs.validManifest] at hx
    simpa only [hd, ho, hs.objects] using hi.vmft x j hx

/-! ### Certificates -/

theorem validateTime_ok {nb na now : Int} (h : Cert.validateTime nb na now = .ok ()) : nb ≤ now ∧ now ≤ na := by
  unfold Cert.validateTime at h
  split at h
  · simp at h
  · split at h
    · simp at h
    · omega

/-- The climb through inheriting issuers: nothing was found outside. -/
theorem chainLoop_ok {α : Type} {v : V} {pc : Cert} {cl : Cert → α → Go Verdict} :
    ∀ (n : Nat) (chain : Option Nat) (s t : Split α),
    chainLoop v pc (fun l c => splitFrom (cl c) ⟨[], [], []⟩ l) n chain s = .ok t → t.invalids = [] →
    s.invalids = [] ∧ ∀ e ∈ s.checkParents, chain = none ∨ ∃ u gc, v.validObjects.get pc.aki = some u ∧
      v.certOf u = some gc ∧ (cl gc e = .ok .valid ∨ cl gc e = .ok .checkParent) := by
  intro n
  induction n with
  | zero => intro chain s t h; simp [chainLoop] at h
  | succ n ih =>
    intro chain s t h ht
    cases chain with
    | none => simp [chainLoop] at h; subst h; exact ⟨ht, fun _ _ => .inl rfl⟩
    | some c =>
      unfold chainLoop at h
      split at h
      · rename_i he
        simp at h; subst h
        refine ⟨ht, fun e hm => ?_⟩
        rw [List.isEmpty_iff] at he
        rw [he] at hm; simp at hm
      · split at h
        · simp at h
        · rename_i u hu
          split at h
          · simp at h
          · rename_i gc hgc
            obtain ⟨r, hr, h⟩ := Go.bind_eq_ok.mp h
            obtain ⟨h1, _⟩ := ih _ _ _ h ht
            simp only [List.append_eq_nil_iff] at h1
            refine ⟨h1.1, fun e hm => .inr ⟨u, gc, hu, hgc, ?_⟩⟩
            obtain ⟨g0, _, g2, _⟩ := splitFrom_filter hr
            obtain ⟨w, hw⟩ := g0 e hm
            cases w with
            | valid => exact .inl hw
            | checkParent => exact .inr hw
            | invalid =>
              rw [h1.2] at g2
              have : e ∈ (([] : List α)) := by
                rw [g2]; simp [hm, hw]
              simp at this

theorem split_settled {α : Type} {v : V} {pc : Cert} {cl : Cert → α → Go Verdict} {l : List α} {s : Split α}
    (hs : splitFrom (cl pc) ⟨[], [], []⟩ l = .ok s) (hi : s.invalids = []) (e : α) (he : e ∈ l) :
    cl pc e = .ok .valid ∨ (cl pc e = .ok .checkParent ∧ e ∈ s.checkParents) := by
  obtain ⟨g0, _, g2, g3⟩ := splitFrom_filter hs
  obtain ⟨w, hw⟩ := g0 e he
  cases w with
  | valid => exact .inl hw
  | checkParent => refine .inr ⟨hw, ?_⟩; rw [g3]; simp [he, hw]
  | invalid =>
    rw [hi] at g2
    have : e ∈ (([] : List α)) := by rw [g2]; simp [he, hw]
    simp at this

/-- What a successful check of a certificate that is not trusted means. -/
theorem validate_ok {env : Env} {v : V} {cert : Cert} (h : v.validateCertificate env cert false = .ok ()) :
    ∃ p pc, v.validObjects.get cert.aki = some p ∧ v.certOf p = some pc ∧ env.checkSig cert pc = true ∧
      (cert.notBefore ≤ env.now ∧ env.now ≤ cert.notAfter) ∧
      v.revoked.get (serialKey cert.aki cert.serial) = none ∧
      (∀ e ∈ cert.ips, clIP pc e = .ok .valid ∨ (clIP pc e = .ok .checkParent ∧ (v.parentOf p = none ∨
        ∃ u gc, v.validObjects.get pc.aki = some u ∧ v.certOf u = some gc ∧
          (clIP gc e = .ok .valid ∨ clIP gc e = .ok .checkParent)))) ∧
      (∀ e ∈ cert.asns, clAS pc e = .ok .valid ∨ (clAS pc e = .ok .checkParent ∧ (v.parentOf p = none ∨
        ∃ u gc, v.validObjects.get pc.aki = some u ∧ v.certOf u = some gc ∧
          (clAS gc e = .ok .valid ∨ clAS gc e = .ok .checkParent)))) := by
  unfold V.validateCertificate at h
  split at h
  · rename_i ht
    simp only [Bool.false_eq_true, if_false] at h
    split at h
    · simp at h
    · rename_i p hp
      split at h
      · simp at h
      · rename_i pc hpc
        split at h
        · simp at h
        · rename_i hsig
          split at h
          · simp at h
          · rename_i hrev
            obtain ⟨s1, hs1, h⟩ := Go.bind_eq_ok.mp h
            obtain ⟨t1, ht1, h⟩ := Go.bind_eq_ok.mp h
            obtain ⟨s2, hs2, h⟩ := Go.bind_eq_ok.mp h
            obtain ⟨t2, ht2, h⟩ := Go.bind_eq_ok.mp h
            split at h
            · simp at h
            · rename_i hne
              have e1 : t1.invalids = [] := by
                apply List.eq_nil_of_length_eq_zero; omega
              have e2 : t2.invalids = [] := by
                apply List.eq_nil_of_length_eq_zero; omega
              obtain ⟨a1, b1⟩ := chainLoop_ok (cl := clIP) _ _ _ _ ht1 e1
              obtain ⟨a2, b2⟩ := chainLoop_ok (cl := clAS) _ _ _ _ ht2 e2
              refine ⟨p, pc, hp, hpc, by simpa using hsig, validateTime_ok ht, by simpa using hrev, ?_, ?_⟩
              · intro e he
                rcases split_settled (v := v) (pc := pc) (cl := clIP) hs1 a1 e he with hh | ⟨hh, hm⟩
                · exact .inl hh
                · exact .inr ⟨hh, b1 e hm⟩
              · intro e he
                rcases split_settled (v := v) (pc := pc) (cl := clAS) hs2 a2 e he with hh | ⟨hh, hm⟩
                · exact .inl hh
                · exact .inr ⟨hh, b2 e hm⟩
  · simp at h

/-- `AddCert` in one formula. -/
theorem addCert_ok {env : Env} {v v' : V} {c : Cert} {trust : Bool} {a : Added}
    (h : v.addCert env c trust = .ok (v', a)) :
    a.res = some v.heap.length ∧
    ((∃ i, v.objects.get c.ski = some i ∧ v' = v.alloc (objectToResource (.cert c)) ∧ a.valid = false ∧
        a.files = [] ∧ a.error = some "conflict") ∨
     (v.objects.get c.ski = none ∧ a.files = extractPathCert c ∧
        errOf (v.validateCertificate env c trust) = .ok a.error ∧
        a.valid = (((v.validObjects.get c.aki).isSome || trust) && a.error.isNone) ∧
        v' = ((v.alloc { objectToResource (.cert c) with parent := v.objects.get c.aki }).link c
          v.heap.length a.valid).store c.ski v.heap.length a.valid)) := by
  unfold V.addCert at h
  split at h
  · rename_i i hi
    simp only [Go.ok.injEq, Prod.mk.injEq] at h
    obtain ⟨rfl, rfl⟩ := h
    exact ⟨rfl, .inl ⟨i, hi, rfl, rfl, rfl, rfl⟩⟩
  · rename_i hn
    obtain ⟨e, he, h⟩ := Go.bind_eq_ok.mp h
    simp only [Go.pure_def, Go.ok.injEq, Prod.mk.injEq] at h
    obtain ⟨rfl, rfl⟩ := h
    exact ⟨rfl, .inr ⟨hn, rfl, he, rfl, rfl⟩⟩

theorem errOf_none {x : Go Unit} (h : errOf x = .ok none) : x = .ok () := by
  unfold errOf at h
  split at h <;> simp_all

/-- Storing a certificate that is not valid. -/
theorem Inv.storeInvalid {env : Env} {T : Bytes → Prop} {P : ROA → Prop} {v : V} (hi : Inv env T P v)
    {k : Bytes} {i : Nat} {c : Cert} (hn : v.objects.get k = none) (hc : v.certOf i = some c) (hk : c.ski = k)
    (hch : v.childsOf i = []) (hs : ∀ k', v.objects.get k' ≠ some i) :
    Inv env T P { v with objects := v.objects.set k i } := by
  have hmono : ∀ x j, v.objects.get x = some j → (v.objects.set k i).get x = some j := by
    intro x j hx
    rw [Map.get_set, if_neg]
    · exact hx
    · rintro rfl; rw [hn] at hx; simp at hx
  constructor
  · intro x j hx
    simp only [Map.get_set] at hx
    split at hx
    · rename_i hxk; simp at hx; subst hx; exact ⟨c, hc, by rw [hk, hxk]⟩
    · exact hi.obj x j hx
  · intro x j hx
    exact hmono x j (hi.val x j hx)
  · intro x j d hx hd
    rcases hi.chain x j d hx hd with hh | ⟨p, pc, h1, h2, h3, h4, h5, h6, h7, h8, h9, h10⟩
    · exact .inl hh
    · exact .inr ⟨p, pc, h1, h2, h3, h4, h5, h6, h7, h8, fun e he => (h9 e he).mono hmono (fun _ _ hh => hh),
        fun e he => (h10 e he).mono hmono (fun _ _ hh => hh)⟩
  · intro x j hx ch hcc
    simp only [Map.get_set] at hx
    split at hx
    · simp at hx; subst hx; change ch ∈ v.childsOf i at hcc; rw [hch] at hcc; simp at hcc
    · rcases hi.kids x j hx ch hcc with ⟨c', h1, h2, h3⟩ | hh
      · exact .inl ⟨c', h1, h2, hmono _ _ h3⟩
      · exact .inr hh
  · exact hi.par
  · intro key j hj
    obtain ⟨c', h1, h2, h3⟩ := hi.serial key j hj
    exact ⟨c', h1, h2, hmono _ _ h3⟩
  · exact hi.vroa
  · exact hi.vcrl
  · intro x j hx
    obtain ⟨m, i', h1, h2, h3, h4, h5⟩ := hi.vmft x j hx
    exact ⟨m, i', h1, h2, h3, hmono _ _ h4, h5⟩

/-- A stored certificate becomes valid. -/
theorem Inv.setValid {env : Env} {T : Bytes → Prop} {P : ROA → Prop} {v : V} (hi : Inv env T P v)
    {k : Bytes} {i : Nat} {c : Cert} (ho : v.objects.get k = some i) (hn : v.validObjects.get k = none)
    (hc : v.certOf i = some c) (hb : T k ∨ Backed env T v i c) :
    Inv env T P { v with validObjects := v.validObjects.set k i } := by
  have hmono : ∀ x j, v.validObjects.get x = some j → (v.validObjects.set k i).get x = some j := by
    intro x j hx
    rw [Map.get_set, if_neg]
    · exact hx
    · rintro rfl; rw [hn] at hx; simp at hx
  have hback : ∀ {j d}, Backed env T v j d → Backed env T { v with validObjects := v.validObjects.set k i } j d := by
    rintro j d ⟨p, pc, h1, h2⟩
    exact ⟨p, pc, hmono _ _ h1, h2⟩
  constructor
  · exact hi.obj
  · intro x j hx
    simp only [Map.get_set] at hx
    split at hx
    · rename_i hxk; simp at hx; subst hx; rw [hxk]; exact ho
    · exact hi.val x j hx
  · intro x j d hx hd
    simp only [Map.get_set] at hx
    change v.certOf j = some d at hd
    split at hx
    · rename_i hxk
      simp at hx; subst hx
      rw [hc] at hd; simp at hd; subst hd
      rcases hb with hb | hb
      · exact .inl (by rw [hxk]; exact hb)
      · exact .inr (hback hb)
    · rcases hi.chain x j d hx hd with hh | hh
      · exact .inl hh
      · exact .inr (hback hh)
  · exact hi.kids
  · exact hi.par
  · exact hi.serial
  · intro x j hx
    obtain ⟨r, i', h1, h2, h3, h4, h5, h6⟩ := hi.vroa x j hx
    exact ⟨r, i', h1, h2, h3, h4, hmono _ _ h5, h6⟩
  · intro x j hx
    obtain ⟨l, i', c', h1, h2, h3, h4, h5⟩ := hi.vcrl x j hx
    exact ⟨l, i', c', h1, h2, hmono _ _ h3, h4, h5⟩
  · exact hi.vmft

/-- A serial number is recorded. -/
theorem Inv.setSerial {env : Env} {T : Bytes → Prop} {P : ROA → Prop} {v : V} (hi : Inv env T P v)
    {i : Nat} {c : Cert} (hc : v.certOf i = some c) (ho : v.objects.get c.ski = some i)
    (hm : ∀ k j, v.validObjects.get k = some j → j ≤ i) :
    Inv env T P { v with certsSerial := v.certsSerial.set (serialKey c.aki c.serial) i } := by
  constructor
  · exact hi.obj
  · exact hi.val
  · intro k j d hk hd
    rcases hi.chain k j d hk hd with hh | ⟨p, pc, h1, h2, h3, h4, h5, h6, h7, h8⟩
    · exact .inl hh
    · refine .inr ⟨p, pc, h1, h2, h3, h4, h5, h6, ?_, h8⟩
      simp only [Map.get_set]
      split
      · exact ⟨i, rfl, hm _ _ hk⟩
      · exact h7
  · exact hi.kids
  · exact hi.par
  · intro key j hj
    simp only [Map.get_set] at hj
    split at hj
    · rename_i hk; simp at hj; subst hj; exact ⟨c, hc, hk, ho⟩
    · exact hi.serial key j hj
  · exact hi.vroa
  · exact hi.vcrl
  · exact hi.vmft

/-- Stored pointers are allocated. -/
theorem Inv.obj_lt {env : Env} {T : Bytes → Prop} {P : ROA → Prop} {v : V} (hi : Inv env T P v)
    {k : Bytes} {i : Nat} (h : v.objects.get k = some i) : i < v.heap.length := by
  obtain ⟨c, hc, _⟩ := hi.obj k i h
  exact dataOf_lt ((certOf_eq _ _ _).mp hc)

/-- A certificate that passed is in its window. -/
theorem validate_window {env : Env} {v : V} {c : Cert} {trust : Bool} (h : v.validateCertificate env c trust = .ok ()) :
    c.notBefore ≤ env.now ∧ env.now ≤ c.notAfter := by
  unfold V.validateCertificate at h
  split at h
  · rename_i ht
    unfold validateTime at ht
    split at ht
    · simp at ht
    · split at ht
      · simp at ht
      · omega
  · simp at h

/-- `AddCert` keeps the invariant. -/
theorem Inv.addCert {env : Env} {T : Bytes → Prop} {P : ROA → Prop} {v v' : V} (hi : Inv env T P v)
    {c : Cert} {trust : Bool} {a : Added} (ht : trust = true → v.objects.get c.ski = none →
      (c.notBefore ≤ env.now ∧ env.now ≤ c.notAfter) → T c.ski)
    (h : v.addCert env c trust = .ok (v', a)) : Inv env T P v' := by
  obtain ⟨_, ⟨i, _, rfl, _⟩ | ⟨hn, _, he, hv, rfl⟩⟩ := addCert_ok h
  · exact hi.alloc _ rfl (by intro p hp; simp [objectToResource] at hp)
  · have h1 : Inv env T P (v.alloc { objectToResource (.cert c) with parent := v.objects.get c.aki }) :=
      hi.alloc _ rfl (fun p hp => hi.obj_lt hp)
    generalize hv1 : v.alloc { objectToResource (.cert c) with parent := v.objects.get c.aki } = v1 at h1
    have hlen : v1.heap.length = v.heap.length + 1 := by rw [← hv1, length_alloc]
    have hext : HeapExt v v1 := by rw [← hv1]; exact heapExt_alloc _ _
    have hcert : v1.certOf v.heap.length = some c := by
      rw [certOf_eq, ← hv1, dataOf_alloc]; simp [objectToResource]
    have hchs : v1.childsOf v.heap.length = [] := by
      rw [← hv1, childsOf_alloc]; simp [objectToResource]
    have hfresh : ∀ k, v1.objects.get k ≠ some v.heap.length := by
      intro k hk
      rw [hext.objects] at hk
      have := hi.obj_lt hk
      omega
    have h2 := h1.storeInvalid (k := c.ski) (by rw [hext.objects]; exact hn) hcert rfl hchs hfresh
    have hvn : v.validObjects.get c.ski = none := by
      cases hvv : v.validObjects.get c.ski with
      | none => rfl
      | some j => have := hi.val _ _ hvv; rw [hn] at this; simp at this
    cases hva : a.valid with
    | false =>
      have : (v1.link c v.heap.length false).store c.ski v.heap.length false =
          { v1 with objects := v1.objects.set c.ski v.heap.length } := by
        unfold V.link V.store
        split <;> simp
      rw [this]
      exact h2
    | true =>
      have hev : a.error = none := by
        rw [hva] at hv
        simp at hv
        exact hv.2
      rw [hev] at he
      have he := errOf_none he
      cases hp : v.objects.get c.aki with
      | none =>
        have : (v1.link c v.heap.length true).store c.ski v.heap.length true =
            { { v1 with objects := v1.objects.set c.ski v.heap.length } with
              validObjects := v1.validObjects.set c.ski v.heap.length } := by
          have hp1 : v1.objects.get c.aki = none := by rw [hext.objects]; exact hp
          unfold V.link V.store
          rw [hp1]
          rfl
        rw [this]
        refine h2.setValid (c := c) ?_ ?_ hcert ?_
        · simp [Map.get_set]
        · show v1.validObjects.get c.ski = none
          rw [hext.validObjects]; exact hvn
        · left
          cases trust with
          | true => exact ht rfl hn (validate_window he)
          | false =>
            obtain ⟨p, pc, hh, _⟩ := validate_ok he
            rw [hi.val _ _ hh] at hp; simp at hp
      | some p =>
        have : (v1.link c v.heap.length true).store c.ski v.heap.length true =
            { { ({ v1 with objects := v1.objects.set c.ski v.heap.length } : V).modify p
                (fun r => { r with childs := r.childs ++ [v.heap.length] }) with
                certsSerial := v1.certsSerial.set (serialKey c.aki c.serial) v.heap.length } with
              validObjects := v1.validObjects.set c.ski v.heap.length } := by
          have hp1 : v1.objects.get c.aki = some p := by rw [hext.objects]; exact hp
          unfold V.link V.store
          rw [hp1]
          rfl
        rw [this]
        have hpl := hi.obj_lt hp
        have hka : c.aki ≠ c.ski := by
          intro hh; rw [hh, hn] at hp; simp at hp
        have h3 := h2.addChild p v.heap.length (by
          intro k hk
          left
          refine ⟨c, (certOf_eq _ _ _).mp hcert, ?_, by simp [Map.get_set]⟩
          have hk' : ({ v1 with objects := v1.objects.set c.ski v.heap.length } : V).objects.get c.aki = some p := by
            show (v1.objects.set c.ski v.heap.length).get c.aki = some p
            rw [Map.get_set, if_neg hka, hext.objects]; exact hp
          obtain ⟨d, hd1, hd2⟩ := h2.obj _ _ hk
          obtain ⟨d', hd1', hd2'⟩ := h2.obj _ _ hk'
          rw [hd1] at hd1'
          simp at hd1'
          rw [← hd2, ← hd2', hd1'])
        have hcert3 : (({ v1 with objects := v1.objects.set c.ski v.heap.length } : V).modify p
              (fun r => { r with childs := r.childs ++ [v.heap.length] })).certOf v.heap.length = some c := by
          rw [certOf_eq, dataOf_modify]
          · exact (certOf_eq _ _ _).mp hcert
          · intro r; rfl
        have h4 := h3.setSerial hcert3 (by
          show (v1.objects.set c.ski v.heap.length).get c.ski = _
          simp [Map.get_set]) (by
          intro k j hj
          change v1.validObjects.get k = some j at hj
          rw [hext.validObjects] at hj
          exact Nat.le_of_lt (hi.obj_lt (hi.val _ _ hj)))
        refine h4.setValid (c := c) ?_ ?_ hcert3 ?_
        · show (v1.objects.set c.ski v.heap.length).get c.ski = _
          simp [Map.get_set]
        · show v1.validObjects.get c.ski = none
          rw [hext.validObjects]; exact hvn
        · cases htr : trust with
          | true => exact .inl (ht htr hn (validate_window he))
          | false =>
            rw [htr] at he
            obtain ⟨p', pc, g1, g2, g3, g4, _, g6, g7⟩ := validate_ok he
            have hpp : p' = p := by
              have := hi.val _ _ g1
              rw [hp] at this; simp at this; exact this.symm
            subst hpp
            have hsk := hi.obj_certOf hp g2
            have hta : v.parentOf p' = none → T pc.ski := by
              intro hnp
              rcases hi.chain _ _ _ g1 g2 with hh | ⟨_, _, _, _, _, _, _, _, _, hh, _⟩
              · rw [hsk]; exact hh
              · rw [hnp] at hh; simp at hh
            have hset : ∀ {α : Type} (cl : Cert → α → Go Verdict) (e : α),
                (cl pc e = .ok .valid ∨ (cl pc e = .ok .checkParent ∧ (v.parentOf p' = none ∨
                  ∃ u gc, v.validObjects.get pc.aki = some u ∧ v.certOf u = some gc ∧
                    (cl gc e = .ok .valid ∨ cl gc e = .ok .checkParent)))) → Settled T v cl pc e := by
              intro α cl e hh
              rcases hh with hh | ⟨hh, h' | ⟨u, gc, k1, k2, k3⟩⟩
              · exact .inl hh
              · exact .inr ⟨hh, .inl (hta h')⟩
              · exact .inr ⟨hh, .inr ⟨u, gc, hi.val _ _ k1, k2, k3⟩⟩
            have hmono : ∀ k i, v.objects.get k = some i → (v1.objects.set c.ski v.heap.length).get k = some i := by
              intro k i hk
              rw [Map.get_set, if_neg, hext.objects]
              · exact hk
              · rintro rfl; rw [hn] at hk; simp at hk
            have hdm : ∀ i d, v.certOf i = some d →
                (({ v1 with objects := v1.objects.set c.ski v.heap.length } : V).modify p'
                  (fun r => { r with childs := r.childs ++ [v.heap.length] })).certOf i = some d := by
              intro i d hd
              rw [certOf_eq, dataOf_modify]
              · exact (certOf_eq _ _ _).mp (hext.cert hd)
              · intro r; rfl
            refine .inr ⟨p', pc, ?_, ?_, hpl, ?_, g3, g4, ?_, ?_, fun e he => (hset clIP e (g6 e he)).mono hmono hdm,
              fun e he => (hset clAS e (g7 e he)).mono hmono hdm⟩
            · show v1.validObjects.get c.aki = some p'
              rw [hext.validObjects]; exact g1
            · rw [certOf_eq]
              show V.dataOf (V.modify _ _ _) p' = _
              rw [dataOf_modify]
              · exact (certOf_eq _ _ _).mp (hext.cert g2)
              · intro r; rfl
            · show v.heap.length ∈ V.childsOf (V.modify _ _ _) p'
              rw [childsOf_modify _ _ _ (fun l => l ++ [v.heap.length]) (fun r => rfl)]
              rw [if_pos ⟨rfl, by show p' < v1.heap.length; omega⟩]
              simp
            · simp [Map.get_set]
            · show V.parentOf (V.modify _ _ _) v.heap.length = _
              rw [parentOf_modify]
              · show v1.parentOf v.heap.length = _
                rw [← hv1, parentOf_alloc]; simp [hp]
              · intro r; rfl

end Verif.Pki
