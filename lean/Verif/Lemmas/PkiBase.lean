import Verif.Spec.Pki
/-
  Maps, heap, decimal numbers and the work-list of the Validator.
-/
set_option autoImplicit false

namespace Verif.Pki
open Net _root_.Verif.Cert Roa PkiSpec

/-! ### Maps -/

theorem Map.get_cons {α : Type} (k k' : Bytes) (a : α) (m : Map α) :
    Map.get ((k', a) :: m) k = if k = k' then some a else Map.get m k := by
  unfold Map.get
  rw [List.lookup_cons]
  by_cases h : k = k'
  · simp [h]
  · have : (k == k') = false := by simp [h]
    simp [h, this]

theorem Map.get_del {α : Type} (m : Map α) (k k' : Bytes) :
    (m.del k).get k' = if k' = k then none else m.get k' := by
  induction m with
  | nil => simp [Map.del, Map.get]
  | cons e m ih =>
    obtain ⟨a, b⟩ := e
    rw [Map.get_cons]
    unfold Map.del at ih ⊢
    rw [List.filter_cons]
    by_cases h : a = k
    · simp only [h, ne_eq, not_true, decide_false, Bool.false_eq_true, if_false]
      rw [ih]
      by_cases h' : k' = k <;> simp [h']
    · simp only [ne_eq, h, not_false_eq_true, decide_true, if_true]
      rw [Map.get_cons, ih]
      by_cases h' : k' = a
      · subst h'; simp [h]
      · simp [h']

theorem Map.get_set {α : Type} (m : Map α) (k : Bytes) (a : α) (k' : Bytes) :
    (m.set k a).get k' = if k' = k then some a else m.get k' := by
  unfold Map.set
  rw [Map.get_cons, Map.get_del]
  by_cases h : k' = k <;> simp [h]

theorem Map.get_nil {α : Type} (k : Bytes) : Map.get ([] : Map α) k = none := rfl

/-! ### Heap -/

def V.dataOf (v : V) (i : Nat) : Option ResData := v.heap[i]?.map Res.data
def V.childsOf (v : V) (i : Nat) : List Nat := (v.heap[i]?.map Res.childs).getD []

theorem certOf_eq (v : V) (i : Nat) (c : Cert) : v.certOf i = some c ↔ v.dataOf i = some (.cert c) := by
  unfold V.certOf V.dataOf
  cases h : v.heap[i]? with
  | none => simp
  | some r =>
    cases hd : r.data <;> simp [hd]

theorem certOf_congr {v v' : V} {i : Nat} (h : v.dataOf i = v'.dataOf i) : v.certOf i = v'.certOf i := by
  cases h1 : v.certOf i with
  | some c => rw [certOf_eq] at h1; rw [h] at h1; rw [(certOf_eq v' i c).mpr h1]
  | none =>
    cases h2 : v'.certOf i with
    | none => rfl
    | some c => rw [certOf_eq, ← h, ← certOf_eq, h1] at h2; simp at h2

theorem parentOf_eq (v : V) (i : Nat) : v.parentOf i = v.heap[i]?.bind Res.parent := by
  unfold V.parentOf; cases v.heap[i]? <;> rfl

theorem childIds_eq (v : V) (k : Bytes) :
    v.childIds k = match v.objects.get k with
      | none => []
      | some i => (v.childsOf i).filterMap (fun c => v.heap[c]?.bind Res.getIdentifier) := by
  unfold V.childIds V.childsOf
  cases v.objects.get k with
  | none => rfl
  | some i => cases h : v.heap[i]? <;> simp [h]

/-- Allocation. -/
theorem dataOf_alloc (v : V) (r : Res) (i : Nat) :
    (v.alloc r).dataOf i = if i = v.heap.length then some r.data else v.dataOf i := by
  unfold V.dataOf V.alloc
  simp only
  by_cases h : i = v.heap.length
  · subst h; simp
  · by_cases h' : i < v.heap.length
    · rw [List.getElem?_append_left h']; simp [h]
    · have : v.heap.length < i := by omega
      rw [List.getElem?_eq_none (by simp; omega), List.getElem?_eq_none (by omega)]; simp [h]

theorem childsOf_alloc (v : V) (r : Res) (i : Nat) :
    (v.alloc r).childsOf i = if i = v.heap.length then r.childs else v.childsOf i := by
  unfold V.childsOf V.alloc
  simp only
  by_cases h : i = v.heap.length
  · subst h; simp
  · by_cases h' : i < v.heap.length
    · rw [List.getElem?_append_left h']; simp [h]
    · have : v.heap.length < i := by omega
      rw [List.getElem?_eq_none (by simp; omega), List.getElem?_eq_none (by omega)]; simp [h]

theorem parentOf_alloc (v : V) (r : Res) (i : Nat) :
    (v.alloc r).parentOf i = if i = v.heap.length then r.parent else v.parentOf i := by
  rw [parentOf_eq, parentOf_eq]
  unfold V.alloc
  simp only
  by_cases h : i = v.heap.length
  · subst h; simp
  · by_cases h' : i < v.heap.length
    · rw [List.getElem?_append_left h']; simp [h]
    · have : v.heap.length < i := by omega
      rw [List.getElem?_eq_none (by simp; omega), List.getElem?_eq_none (by omega)]; simp [h]

theorem dataOf_lt {v : V} {i : Nat} {d : ResData} (h : v.dataOf i = some d) : i < v.heap.length := by
  unfold V.dataOf at h
  cases h' : v.heap[i]? with
  | none => simp [h'] at h
  | some r => exact (List.getElem?_eq_some_iff.mp h').1

theorem childsOf_lt {v : V} {i j : Nat} (h : j ∈ v.childsOf i) : i < v.heap.length := by
  unfold V.childsOf at h
  cases h' : v.heap[i]? with
  | none => simp [h'] at h
  | some r => exact (List.getElem?_eq_some_iff.mp h').1

/-- Assignment through a pointer that keeps the payload. -/
theorem dataOf_modify (v : V) (j : Nat) (f : Res → Res) (hf : ∀ r, (f r).data = r.data) (i : Nat) :
    (v.modify j f).dataOf i = v.dataOf i := by
  unfold V.dataOf V.modify
  simp only [List.getElem?_modify]
  cases v.heap[i]? with
  | none => rfl
  | some r => by_cases h : j = i <;> simp [h, hf]

theorem parentOf_modify (v : V) (j : Nat) (f : Res → Res) (hf : ∀ r, (f r).parent = r.parent) (i : Nat) :
    (v.modify j f).parentOf i = v.parentOf i := by
  rw [parentOf_eq, parentOf_eq]
  unfold V.modify
  simp only [List.getElem?_modify]
  cases v.heap[i]? with
  | none => rfl
  | some r => by_cases h : j = i <;> simp [h, hf]

theorem childsOf_modify (v : V) (j : Nat) (f : Res → Res) (g : List Nat → List Nat)
    (hf : ∀ r, (f r).childs = g r.childs) (i : Nat) :
    (v.modify j f).childsOf i = if i = j ∧ i < v.heap.length then g (v.childsOf i) else v.childsOf i := by
  unfold V.childsOf V.modify
  simp only [List.getElem?_modify]
  by_cases h' : i < v.heap.length
  · rw [List.getElem?_eq_getElem h']
    by_cases h : j = i
    · subst h; simp [hf, h']
    · have : ¬ i = j := fun hc => h hc.symm
      simp [h, this]
  · rw [List.getElem?_eq_none (by omega)]
    simp [h']

theorem length_modify (v : V) (j : Nat) (f : Res → Res) : (v.modify j f).heap.length = v.heap.length := by
  simp [V.modify]

theorem length_alloc (v : V) (r : Res) : (v.alloc r).heap.length = v.heap.length + 1 := by
  simp [V.alloc]

theorem getIdentifier_dataOf (v : V) (i : Nat) :
    v.heap[i]?.bind Res.getIdentifier = (v.dataOf i).bind (fun d => match d with
      | .cert c => some c.ski
      | .roa r => some r.cert.ski
      | .mft m => some m.cert.ski
      | _ => none) := by
  unfold V.dataOf
  cases v.heap[i]? with
  | none => rfl
  | some r => rfl

/-! ### Decimal numbers -/

def decVal (l : Bytes) : Nat := l.foldl (fun a b => 10 * a + (b.toNat - 48)) 0

theorem digit_val (n : Nat) (h : n < 10) : (digit n).toNat - 48 = n ∧ (digit n).toNat = 48 + n := by
  have : (digit n).toNat = 48 + n := by
    unfold digit
    simp
    omega
  omega

theorem decVal_aux : ∀ (f n : Nat), n < f → decVal (natDecAux f n) = n := by
  intro f
  induction f with
  | zero => intro n h; omega
  | succ f ih =>
    intro n h
    unfold natDecAux
    split
    · rename_i h10
      simp [decVal, (digit_val n h10).1]
    · rename_i h10
      unfold decVal
      rw [List.foldl_append]
      have := ih (n / 10) (by omega)
      unfold decVal at this
      rw [this]
      have hd := digit_val (n % 10) (Nat.mod_lt _ (by omega))
      simp only [List.foldl_cons, List.foldl_nil, hd.1]
      omega

theorem natDec_inj {a b : Nat} (h : natDec a = natDec b) : a = b := by
  have h1 := decVal_aux (a + 1) a (by omega)
  have h2 := decVal_aux (b + 1) b (by omega)
  unfold natDec at h
  rw [h] at h1
  omega

theorem natDecAux_chars : ∀ (f n : Nat), ∀ c ∈ natDecAux f n, c ≠ 45 := by
  intro f
  induction f with
  | zero => intro n c h; simp [natDecAux] at h
  | succ f ih =>
    intro n c h
    have key : ∀ m, m < 10 → digit m ≠ 45 := by
      intro m hm hc
      have := (digit_val m hm).2
      rw [hc] at this
      simp at this
      omega
    unfold natDecAux at h
    split at h
    · simp at h; subst h; exact key n (by assumption)
    · rcases List.mem_append.mp h with h | h
      · exact ih _ c h
      · simp at h; subst h; exact key _ (Nat.mod_lt _ (by omega))

theorem dec_inj {a b : Int} (h : dec a = dec b) : a = b := by
  unfold dec at h
  split at h <;> split at h
  · simp at h; have := natDec_inj h; omega
  · have := natDecAux_chars (b.natAbs + 1) b.natAbs 45 (by rw [← natDec, ← h]; simp)
    exact (this rfl).elim
  · have := natDecAux_chars (a.natAbs + 1) a.natAbs 45 (by rw [← natDec, h]; simp)
    exact (this rfl).elim
  · have := natDec_inj h; omega

/-- Equal keys with equal serials have equal issuers. -/
theorem serialKey_same_serial {a b : Bytes} {s : Int} (h : serialKey a s = serialKey b s) : a = b := by
  unfold serialKey at h
  exact List.append_cancel_right h

/-- Equal keys with issuers of equal length are equal. -/
theorem serialKey_same_length {a b : Bytes} {s t : Int} (h : serialKey a s = serialKey b t)
    (hl : a.length = b.length) : a = b ∧ s = t := by
  unfold serialKey at h
  have := List.append_inj h hl
  exact ⟨this.1, dec_inj this.2⟩

/-! ### The work-list of `InvalidateObject` -/

/-- Reachable through the lists of children. -/
inductive Reach (v : V) (k : Bytes) : Bytes → Prop where
  | self : Reach v k k
  | step (a b : Bytes) (h : Reach v k a) (hb : b ∈ v.childIds a) : Reach v k b

theorem childIds_drop (v : V) (s k : Bytes) : (v.drop s).childIds k = v.childIds k := rfl

/-- Same state except for the three maps that `InvalidateObject` changes. -/
structure SameBut (v v' : V) : Prop where
  heap : v'.heap = v.heap
  tals : v'.tals = v.tals
  objects : v'.objects = v.objects
  objectsPath : v'.objectsPath = v.objectsPath
  certsSerial : v'.certsSerial = v.certsSerial
  revoked : v'.revoked = v.revoked
  crl : v'.crl = v.crl
  roa : v'.roa = v.roa
  validManifest : v'.validManifest = v.validManifest
  manifest : v'.manifest = v.manifest

theorem SameBut.refl (v : V) : SameBut v v := ⟨rfl, rfl, rfl, rfl, rfl, rfl, rfl, rfl, rfl, rfl⟩
theorem SameBut.trans {a b c : V} (h : SameBut a b) (h' : SameBut b c) : SameBut a c :=
  ⟨h'.1.trans h.1, h'.2.trans h.2, h'.3.trans h.3, h'.4.trans h.4, h'.5.trans h.5, h'.6.trans h.6,
   h'.7.trans h.7, h'.8.trans h.8, h'.9.trans h.9, h'.10.trans h.10⟩
theorem SameBut.drop (v : V) (k : Bytes) : SameBut v (v.drop k) := ⟨rfl, rfl, rfl, rfl, rfl, rfl, rfl, rfl, rfl, rfl⟩

theorem SameBut.childIds {a b : V} (h : SameBut a b) (k : Bytes) : b.childIds k = a.childIds k := by
  unfold V.childIds; rw [h.objects, h.heap]

theorem SameBut.certOf {a b : V} (h : SameBut a b) (i : Nat) : b.certOf i = a.certOf i := by
  unfold V.certOf; rw [h.heap]

/-- The loop: the final set of invalidated keys is closed under children. -/
theorem invalidateLoop_spec : ∀ (fuel : Nat) (v : V) (inv todo : List Bytes) (v' : V),
    invalidateLoop fuel v inv todo = .ok v' →
    (∀ a ∈ inv, ∀ b ∈ v.childIds a, b ∈ inv ∨ b ∈ todo) →
    ∃ fin : List Bytes, (∀ a, a ∈ inv → a ∈ fin) ∧ (∀ a, a ∈ todo → a ∈ fin) ∧
      (∀ a ∈ fin, ∀ b ∈ v.childIds a, b ∈ fin) ∧
      (∀ a ∈ fin, a ∈ inv ∨ ∃ t ∈ todo, Reach v t a) ∧ SameBut v v' ∧
      (∀ k, k ∈ fin → k ∉ inv → v'.validObjects.get k = none ∧ v'.validROA.get k = none ∧
        v'.validCRL.get k = none) ∧
      (∀ k, k ∉ fin ∨ k ∈ inv → v'.validObjects.get k = v.validObjects.get k ∧
        v'.validROA.get k = v.validROA.get k ∧ v'.validCRL.get k = v.validCRL.get k) := by
  intro fuel
  induction fuel with
  | zero => intro v inv todo v' h; simp [invalidateLoop] at h
  | succ n ih =>
    intro v inv todo v' h hinv
    cases todo with
    | nil =>
      simp [invalidateLoop] at h
      subst h
      refine ⟨inv, fun a h => h, by simp, fun a ha b hb => (hinv a ha b hb).elim id (by simp),
        fun a ha => .inl ha, .refl v, fun k h1 h2 => (h2 h1).elim, fun k _ => ⟨rfl, rfl, rfl⟩⟩
    | cons s rest =>
      unfold invalidateLoop at h
      split at h
      · rename_i hs
        obtain ⟨fin, h1, h2, h3, h4, h5, h6, h7⟩ := ih v inv rest v' h (by
          intro a ha b hb
          rcases hinv a ha b hb with hh | hh
          · exact .inl hh
          · rcases List.mem_cons.mp hh with rfl | hh
            · exact .inl hs
            · exact .inr hh)
        refine ⟨fin, h1, ?_, h3, ?_, h5, h6, h7⟩
        · intro a ha
          rcases List.mem_cons.mp ha with rfl | ha
          · exact h1 _ hs
          · exact h2 a ha
        · intro a ha
          rcases h4 a ha with hh | ⟨t, ht, hr⟩
          · exact .inl hh
          · exact .inr ⟨t, by simp [ht], hr⟩
      · rename_i hs
        obtain ⟨fin, h1, h2, h3, h4, h5, h6, h7⟩ := ih (v.drop s) (s :: inv) (rest ++ v.childIds s) v' h (by
          intro a ha b hb
          rw [childIds_drop] at hb
          rcases List.mem_cons.mp ha with rfl | ha
          · exact .inr (by simp [hb])
          · rcases hinv a ha b hb with hh | hh
            · exact .inl (by simp [hh])
            · rcases List.mem_cons.mp hh with rfl | hh
              · exact .inl (by simp)
              · exact .inr (by simp [hh]))
        refine ⟨fin, fun a ha => h1 a (by simp [ha]), ?_, ?_, ?_, (SameBut.drop v s).trans h5, ?_, ?_⟩
        · intro a ha
          rcases List.mem_cons.mp ha with rfl | ha
          · exact h1 _ (by simp)
          · exact h2 a (by simp [ha])
        · intro a ha b hb
          exact h3 a ha b hb
        · have hreach : ∀ t a, Reach (v.drop s) t a → Reach v t a := by
            intro t a hr
            induction hr with
            | self => exact .self
            | step a b _ hb ih' => exact .step a b ih' hb
          have htrans : ∀ a, ∀ t ∈ v.childIds s, Reach v t a → Reach v s a := by
            intro a t ht hr
            induction hr with
            | self => exact .step s t .self ht
            | step a b _ hb ih' => exact .step a b ih' hb
          intro a ha
          rcases h4 a ha with hh | ⟨t, ht, hr⟩
          · rcases List.mem_cons.mp hh with rfl | hh
            · exact .inr ⟨a, by simp, .self⟩
            · exact .inl hh
          · rcases List.mem_append.mp ht with ht | ht
            · exact .inr ⟨t, by simp [ht], hreach t a hr⟩
            · exact .inr ⟨s, by simp, htrans a t ht (hreach t a hr)⟩
        · intro k hk hni
          by_cases hks : k = s
          · subst hks
            have := h7 k (.inr (by simp))
            rw [this.1, this.2.1, this.2.2]
            simp [V.drop, Map.get_del]
          · exact h6 k hk (by simp [hks, hni])
        · intro k hk
          have hks : k ≠ s := by
            rintro rfl
            rcases hk with hk | hk
            · exact hk (h1 k (by simp))
            · exact hs hk
          have := h7 k (by
            rcases hk with hk | hk
            · exact .inl hk
            · exact .inr (by simp [hk]))
          rw [this.1, this.2.1, this.2.2]
          simp [V.drop, Map.get_del, hks]

/-- What `InvalidateObject` does. -/
theorem invalidateObject_spec {v v' : V} {k : Bytes} (h : v.invalidateObject k = .ok v') :
    SameBut v v' ∧
    (∀ x, Reach v k x → v'.validObjects.get x = none ∧ v'.validROA.get x = none ∧ v'.validCRL.get x = none) ∧
    (∀ x, ¬ Reach v k x → v'.validObjects.get x = v.validObjects.get x ∧
      v'.validROA.get x = v.validROA.get x ∧ v'.validCRL.get x = v.validCRL.get x) := by
  obtain ⟨fin, _, h2, h3, h4, h5, h6, h7⟩ := invalidateLoop_spec _ v [] [k] v' h (by simp)
  refine ⟨h5, ?_, ?_⟩
  · intro x hr
    apply h6 x ?_ (by simp)
    induction hr with
    | self => exact h2 k (by simp)
    | step a b _ hb ih => exact h3 a ih b hb
  · intro x hr
    apply h7 x
    refine .inl ?_
    intro hx
    rcases h4 x hx with hh | ⟨t, ht, hh⟩
    · simp at hh
    · simp at ht; subst ht; exact hr hh

/-- Fuel is never short. -/
theorem invalidateLoop_total : ∀ (fuel : Nat) (v : V) (inv todo : List Bytes),
    todo.length + ((v.objects.filter (fun e => decide (e.1 ∉ inv))).map
      (fun e => (v.childIds e.1).length)).sum < fuel →
    ∃ v', invalidateLoop fuel v inv todo = .ok v' := by
  intro fuel
  induction fuel with
  | zero => intro v inv todo h; omega
  | succ n ih =>
    intro v inv todo h
    cases todo with
    | nil => exact ⟨v, rfl⟩
    | cons s rest =>
      unfold invalidateLoop
      simp only [List.length_cons] at h
      split
      · exact ih v inv rest (by omega)
      · rename_i hs
        refine ih (v.drop s) (s :: inv) (rest ++ v.childIds s) ?_
        have hc : (fun e : Bytes × Nat => ((v.drop s).childIds e.1).length) =
            (fun e => (v.childIds e.1).length) := by funext e; rfl
        have ho : (v.drop s).objects = v.objects := rfl
        rw [hc, ho]
        have key : ∀ l : List (Bytes × Nat),
            ((l.filter (fun e => decide (e.1 ∉ s :: inv))).map (fun e => (v.childIds e.1).length)).sum
              + (if s ∈ l.map (·.1) then (v.childIds s).length else 0)
              ≤ ((l.filter (fun e => decide (e.1 ∉ inv))).map (fun e => (v.childIds e.1).length)).sum := by
          intro l
          induction l with
          | nil => simp
          | cons e l ihl =>
            by_cases he : e.1 = s
            · have h1 : e.1 ∉ inv := by rw [he]; exact hs
              simp only [List.filter_cons, he, List.mem_cons, true_or, not_true, decide_false,
                Bool.false_eq_true, if_false, hs, not_false_eq_true, decide_true, if_true,
                List.map_cons, List.sum_cons]
              simp only [List.mem_cons] at ihl
              split at ihl <;> omega
            · have hse : ¬ s = e.1 := fun hcc => he hcc.symm
              by_cases h1 : e.1 ∈ inv
              · simp only [List.filter_cons, List.mem_cons, h1, or_true, not_true, decide_false,
                  Bool.false_eq_true, if_false, List.map_cons, hse, false_or]
                simpa using ihl
              · simp only [List.filter_cons, List.mem_cons, h1, he, or_false, not_false_eq_true,
                  decide_true, if_true, List.map_cons, List.sum_cons, hse, false_or]
                simp only [List.mem_cons] at ihl
                omega
        have hk := key v.objects
        simp only [List.length_append]
        have hmem : (v.childIds s).length ≤
            (if s ∈ v.objects.map (·.1) then (v.childIds s).length else 0) := by
          split
          · exact Nat.le_refl _
          · rename_i hn
            have : v.objects.get s = none := by
              unfold Map.get
              rw [List.lookup_eq_none_iff]
              intro p hp
              simp only [bne_iff_ne, ne_eq]
              rintro rfl
              exact hn (List.mem_map.mpr ⟨p, hp, rfl⟩)
            unfold V.childIds
            rw [this]; simp
        omega

theorem invalidateObject_total (v : V) (k : Bytes) : ∃ v', v.invalidateObject k = .ok v' := by
  apply invalidateLoop_total
  unfold V.fuel
  have : v.objects.filter (fun e => decide (e.1 ∉ ([] : List Bytes))) = v.objects := by
    rw [List.filter_eq_self]; simp
  rw [this]
  simp only [List.length_cons, List.length_nil]
  omega

end Verif.Pki
