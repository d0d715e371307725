import Verif.Lemmas.JsonPrint
import Verif.Lemmas.Cms
import Verif.Spec.RrdpState
/-
  Lemmas about the file of RRDP positions as JSON.
-/
set_option autoImplicit false

namespace Verif.Json
open JsonSpec Out Net Cache

theorem keysOnce_mem (m : Info) (k : Bytes) : k ∈ keysOnce m ↔ ∃ x, m.lookup k = some x := by
  induction m with
  | nil => simp [keysOnce]
  | cons e m ih =>
    obtain ⟨a, x⟩ := e
    simp only [keysOnce, List.mem_cons, List.mem_filter, ih, List.lookup_cons]
    by_cases h : k = a
    · subst h; simp
    · have : (k == a) = false := beq_false_of_ne h
      simp [h, this]

theorem sortedKeys_mem (m : Info) (k : Bytes) : k ∈ sortedKeys m ↔ ∃ x, m.lookup k = some x := by
  unfold sortedKeys
  rw [(Der.sortSet_perm _).mem_iff, keysOnce_mem]

/-- The names of the fields are ASCII. -/
theorem field_utf8 : IsUtf8 fRsync ∧ IsUtf8 fPath ∧ IsUtf8 fSession ∧ IsUtf8 fSerial :=
  ⟨isUtf8_ascii _ (by decide +kernel), isUtf8_ascii _ (by decide +kernel), isUtf8_ascii _ (by decide +kernel), isUtf8_ascii _ (by decide +kernel)⟩

/-- An entry as it is written. -/
theorem val_entry (e : Entry) : ∃ e', Val Chars 1 (Entry.json e') (print (Entry.json e)) ∧ Replaced e.rsync e'.rsync ∧
    Replaced e.path e'.path ∧ Replaced e.session e'.session ∧ e'.serial = e.serial := by
  obtain ⟨r, r1, r2⟩ := esc_chars e.rsync
  obtain ⟨p, p1, p2⟩ := esc_chars e.path
  obtain ⟨s, s1, s2⟩ := esc_chars e.session
  obtain ⟨f1, f2, f3, f4⟩ := field_utf8
  exact ⟨⟨r, p, s, e.serial⟩, val_obj (.cons ⟨esc_utf8 f1, val_str r1⟩ (.cons ⟨esc_utf8 f2, val_str p1⟩
    (.cons ⟨esc_utf8 f3, val_str s1⟩ (.cons ⟨esc_utf8 f4, val_int _⟩ .nil)))), r2, p2, s2, rfl⟩

theorem storeEntry_json (e : Entry) (h1 : -(2 ^ 63) ≤ e.serial) (h2 : e.serial < 2 ^ 63) : storeEntry (Entry.json e) = (e, true) := by
  have a1 : fieldOf [fRsync, fPath, fSession, fSerial] fRsync = some fRsync := by decide +kernel
  have a2 : fieldOf [fRsync, fPath, fSession, fSerial] fPath = some fPath := by decide +kernel
  have a3 : fieldOf [fRsync, fPath, fSession, fSerial] fSession = some fSession := by decide +kernel
  have a4 : fieldOf [fRsync, fPath, fSession, fSerial] fSerial = some fSerial := by decide +kernel
  have b1 : fPath ≠ fRsync := by decide +kernel
  have b2 : fSession ≠ fRsync := by decide +kernel
  have b3 : fSession ≠ fPath := by decide +kernel
  have b4 : fSerial ≠ fRsync := by decide +kernel
  have b5 : fSerial ≠ fPath := by decide +kernel
  have b6 : fSerial ≠ fSession := by decide +kernel
  simp only [storeEntry, Entry.json, List.foldl_cons, List.foldl_nil, storeField, a1, a2, a3, a4, if_true, if_neg b1, if_neg b2, if_neg b3,
    if_neg b4, if_neg b5, if_neg b6, storeString, storeInt, parseInt64_text h1 h2, Bool.and_self]

/-- The members of the object, one for each key. -/
theorem store_keys (g : Bytes → Entry) (hg : ∀ k, -(2 ^ 63) ≤ (g k).serial ∧ (g k).serial < 2 ^ 63) (ks : List Bytes) (acc : Info) :
    ∃ m, (ks.map fun k => (k, Entry.json (g k))).foldl storeMember (acc, true) = (m, true) ∧
      ∀ k, m.lookup k = if k ∈ ks then some ((g k).session, (g k).serial) else acc.lookup k := by
  induction ks generalizing acc with
  | nil => exact ⟨acc, rfl, fun k => by simp⟩
  | cons a ks ih =>
    obtain ⟨m, h1, h2⟩ := ih ((a, (g a).session, (g a).serial) :: acc)
    refine ⟨m, ?_, ?_⟩
    · rw [List.map_cons, List.foldl_cons]
      have : storeMember (acc, true) (a, Entry.json (g a)) = ((a, (g a).session, (g a).serial) :: acc, true) := by
        unfold storeMember
        rw [storeEntry_json _ (hg a).1 (hg a).2]
        rfl
      rw [this, h1]
    · intro k
      rw [h2 k, List.lookup_cons]
      by_cases hk : k = a
      · subst hk; simp
      · have : (k == a) = false := beq_false_of_ne hk
        simp [hk, this]

/-- The text of the positions is always JSON, two brackets deep. -/
theorem marshalInfo_val (pathOf : Bytes → Bytes) (m : Info) : ∃ l, Val Chars 2 (.obj l) (marshalInfo pathOf m) := by
  unfold marshalInfo
  suffices h : ∀ ks : List Bytes, ∃ l', List.Forall₂ (MemberPrint 1) (ks.map fun k =>
      (k, Entry.json ⟨k, pathOf k, ((m.lookup k).getD ([], 0)).1, ((m.lookup k).getD ([], 0)).2⟩)) l' by
    obtain ⟨l', hl⟩ := h (sortedKeys m)
    exact ⟨_, val_obj hl⟩
  intro ks
  induction ks with
  | nil => exact ⟨[], .nil⟩
  | cons k ks ih =>
    obtain ⟨l', hl⟩ := ih
    obtain ⟨k', k1, -⟩ := esc_chars k
    obtain ⟨e', e1, -⟩ := val_entry ⟨k, pathOf k, ((m.lookup k).getD ([], 0)).1, ((m.lookup k).getD ([], 0)).2⟩
    exact ⟨(k', _) :: l', .cons ⟨k1, e1⟩ hl⟩

/-- An object begins and ends with its brackets. -/
theorem members_last {n : Nat} {l : List (Bytes × Json)} {t : Bytes} (h : Members Chars n l t) : ∃ m, t = m ++ [125] := by
  refine Members.rec (motive_1 := fun _ _ _ _ => True) (motive_2 := fun _ _ _ _ => True) (motive_3 := fun _ _ t _ => ∃ m, t = m ++ [125])
    ?_ ?_ ?_ ?_ ?_ ?_ ?_ ?_ ?_ ?_ ?_ ?_ ?_ h
  all_goals intros
  all_goals first | trivial | skip
  · exact ⟨_, rfl⟩
  · rename_i ih
    obtain ⟨m, rfl⟩ := ih
    exact ⟨_, by rw [← List.cons_append, ← List.append_assoc]⟩

theorem obj_ends {n : Nat} {l : List (Bytes × Json)} {t : Bytes} (h : Val Chars n (.obj l) t) : ∃ m, t = 123 :: m ++ [125] := by
  cases h with
  | obj0 n w h => exact ⟨w, rfl⟩
  | obj n l t h =>
    obtain ⟨m, rfl⟩ := members_last h
    exact ⟨m, rfl⟩

/-- An object whose text is cut off is refused. -/
theorem obj_cut {n : Nat} {l : List (Bytes × Json)} {t : Bytes} (h : Val Chars n (.obj l) t) (hn : n ≤ maxDepth) (k : Nat) (hk : k < t.length) :
    parse (t.take k) = none := by
  have hv := text_valid (t := t) ⟨[], t, [], (List.append_nil t).symm, ws_nil, h, ws_nil⟩ hn
  obtain ⟨m, rfl⟩ := obj_ends h
  unfold parse
  rw [cut_invalid (.inl rfl) (by decide) hv k hk]
  rfl

/-- encoding/json on the map of positions does what C89 assumed of it. -/
theorem lawful_codec (pathOf : Bytes → Bytes) : RrdpState.Lawful (codec pathOf) FitJson where
  round m hf := by
    let f : Bytes → Entry := fun k => ⟨k, pathOf k, ((m.lookup k).getD ([], 0)).1, ((m.lookup k).getD ([], 0)).2⟩
    let g : Bytes → Entry := fun k => ⟨k, Classical.choose (esc_chars (pathOf k)), ((m.lookup k).getD ([], 0)).1, ((m.lookup k).getD ([], 0)).2⟩
    have hg : ∀ k, -(2 ^ 63) ≤ (g k).serial ∧ (g k).serial < 2 ^ 63 := by
      intro k
      show -(2 ^ 63) ≤ ((m.lookup k).getD ([], 0)).2 ∧ ((m.lookup k).getD ([], 0)).2 < 2 ^ 63
      cases h : m.lookup k with
      | none => simp
      | some x => exact (hf k x.1 x.2 (by rw [h])).2.2
    have hval : Val Chars 2 (.obj ((sortedKeys m).map fun k => (k, Entry.json (g k)))) (marshalInfo pathOf m) := by
      refine val_obj ?_
      have : ∀ ks : List Bytes, (∀ k ∈ ks, ∃ x, m.lookup k = some x) →
          List.Forall₂ (MemberPrint 1) (ks.map fun k => (k, Entry.json (f k))) (ks.map fun k => (k, Entry.json (g k))) := by
        intro ks
        induction ks with
        | nil => exact fun _ => .nil
        | cons k ks ih =>
          intro h
          obtain ⟨x, hx⟩ := h k List.mem_cons_self
          obtain ⟨f1, f2, -⟩ := hf k x.1 x.2 (by rw [hx])
          refine .cons ⟨esc_utf8 f1, ?_⟩ (ih fun j hj => h j (List.mem_cons_of_mem _ hj))
          obtain ⟨e', e1, e2, e3, e4, e5⟩ := val_entry (f k)
          have hs : (f k).session = x.1 := by simp [f, hx]
          have : e' = g k := by
            obtain ⟨a, b, c, d⟩ := e'
            simp only at e2 e3 e4 e5
            rw [replaced_utf8 f1 e2, replaced_unique e3 (Classical.choose_spec (esc_chars (pathOf k))).2, replaced_utf8 (by rw [hs]; exact f2) e4, e5]
          rwa [this] at e1
      exact this _ fun k hk => (sortedKeys_mem m k).mp hk
    have hparse : parse (marshalInfo pathOf m) = some (.obj ((sortedKeys m).map fun k => (k, Entry.json (g k)))) :=
      text_read ⟨[], _, [], by simp, ws_nil, hval, ws_nil⟩ (by decide)
    obtain ⟨m', h1, h2⟩ := store_keys g hg (sortedKeys m) []
    refine ⟨m', ?_, ?_⟩
    · show unmarshalInfo (marshalInfo pathOf m) = _
      unfold unmarshalInfo
      simp only [hparse, h1]
      rfl
    · intro k
      rw [h2 k]
      by_cases hk : k ∈ sortedKeys m
      · rw [if_pos hk]
        obtain ⟨x, hx⟩ := (sortedKeys_mem m k).mp hk
        simp [g, hx]
      · rw [if_neg hk]
        cases h : m.lookup k with
        | none => rfl
        | some x => exact absurd ((sortedKeys_mem m k).mpr ⟨x, h⟩) hk
  cut m n hn := by
    have hn' : n < (marshalInfo pathOf m).length := hn
    show unmarshalInfo ((marshalInfo pathOf m).take n) = _
    obtain ⟨l', hv⟩ := marshalInfo_val pathOf m
    unfold unmarshalInfo
    rw [obj_cut hv (by decide) n hn']

end Verif.Json
