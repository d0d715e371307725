import Verif.Lemmas.XmlMore
import Verif.Props.RrdpXml
/-
  C113: RRDP documents octet by octet.
-/
set_option autoImplicit false

namespace Verif.Props
open Rrdp RrdpXml RrdpXmlSpec XmlScan
open XmlSpec (locals Piece Ends Content XText NameText QNameIs AttrsIs Apart Written tokSize tokTexts)

/-- C113: the next token is exactly the piece of the document that stands there: tags with their attributes, text and sections with references resolved and ends of lines made one, comments,
    instructions and directives; and where no piece stands, nothing is read. -/
theorem C113_token (lib : Lib) (bs : Bytes) (t : Raw) (r : Bytes) : rawToken lib bs = some (t, r) ↔ ∃ w, bs = w ++ r ∧ Piece lib t w ∧ Ends w r := rawToken_iff lib bs r t

/-- The library of the examples knows no names beyond ASCII. -/
def noLib : Lib := fun _ => false

example : rawToken noLib (asc "<a x='1&lt;2'/>b".toList) = some (.start ⟨[], asc "a".toList⟩ [(⟨[], asc "x".toList⟩, asc "1<2".toList)] true, asc "b".toList) := by decide +kernel

/-- C113: of a document that is written as XML demands, exactly its pieces are read, in order. -/
theorem C113_scan (lib : Lib) (cs : List Xml) (d : Bytes) (h : Content lib cs d) : scan lib d = Xml.toksL cs := scan_content h

/-! The document of the examples: `<delta session_id="s1" serial="5"><publish uri="a">QQ==</publish></delta>`. -/

theorem name_ok {n r : Bytes} (h : name noLib (n ++ r) = some (n, r)) : NameText noLib n := ((name_iff _ _ _ _).mp h).2.1

theorem white_nil : XmlSpec.White [] := by simp [XmlSpec.White]

theorem white_one : XmlSpec.White [32] := by simp [XmlSpec.White]

theorem content_cast {cs : List Xml} {d d' : Bytes} (e : Content noLib cs d) (h : d = d') : Content noLib cs d' := h ▸ e

theorem attr_ok {n v r : Bytes} {as : List (QName × Bytes)} (h1 : name noLib (n ++ [32]) = some (n, [32])) (h2 : XmlScan.split n = ⟨[], n⟩) (h3 : ∀ b ∈ v, b ≠ 60 ∧ b ≠ 38 ∧ b ≠ 13 ∧ some (34 : UInt8) ≠ some b)
    (h4 : charsOk 0 v = true) (hr : AttrsIs noLib as r) : AttrsIs noLib ((⟨[], n⟩, v) :: as) ([32] ++ n ++ [] ++ 61 :: [] ++ 34 :: v ++ 34 :: r) :=
  AttrsIs.cons [32] n [] [] ⟨[], n⟩ 34 v v as r white_one (name_ok h1) ((split_iff _ _).mp h2) (by simp [XmlSpec.White]) (by simp [XmlSpec.White]) (.inl rfl) (written_plain _ _ h3)
    ((charsOk_iff _ _ (Nat.le_refl _)).mp h4) hr

def exDelta : Bytes := asc "<delta session_id=\"s1\" serial=\"5\"><publish uri=\"a\">QQ==</publish></delta>".toList

def exTree : List Xml := [.elem (asc "publish".toList) [(asc "uri".toList, asc "a".toList)] [.text (asc "QQ==".toList)]]

theorem exTree_proper : ∀ n as inside, Xml.elem n as inside ∈ exTree → Proper as := by
  intro n as inside h
  simp only [exTree, List.mem_singleton, Xml.elem.injEq] at h
  rw [h.2.1]
  unfold Proper
  decide

theorem exDelta_content : Content noLib ([] ++ [.elem (asc "delta".toList) [(asc "session_id".toList, asc "s1".toList), (asc "serial".toList, asc "5".toList)] exTree]) exDelta := by
  have t : Content noLib [.text (asc "QQ==".toList)] (asc "QQ==".toList ++ []) :=
    .chars _ _ _ _ (.text _ _ (by decide) (written_plain _ _ (by decide)) (by unfold XmlSpec.NoEnd; decide) ((charsOk_iff _ _ (Nat.le_refl _)).mp (by decide))) (fun _ => .inl rfl) .nil
  have p := Content.elem (asc "publish".toList) _ [] ⟨[], asc "publish".toList⟩ _ _ [] _ [] (name_ok (r := [32]) (by decide)) ((split_iff _ _).mp (by decide))
    (attr_ok (n := asc "uri".toList) (v := asc "a".toList) (by decide) (by decide) (by decide) (by decide) (.nil [] white_nil)) (by intro c hc; cases hc; exact .inl rfl) white_nil t .nil
  have e := Content.elem (asc "delta".toList) _ [] ⟨[], asc "delta".toList⟩ _ _ [] _ [] (name_ok (r := [32]) (by decide)) ((split_iff _ _).mp (by decide))
    (attr_ok (n := asc "session_id".toList) (v := asc "s1".toList) (by decide) (by decide) (by decide) (by decide)
      (attr_ok (n := asc "serial".toList) (v := asc "5".toList) (by decide) (by decide) (by decide) (by decide) (.nil [] white_nil))) (by intro c hc; cases hc; exact .inl rfl) white_nil p .nil
  exact content_cast e (by decide +kernel)

example : scan noLib exDelta = Xml.toksL ([] ++ [.elem (asc "delta".toList) [(asc "session_id".toList, asc "s1".toList), (asc "serial".toList, asc "5".toList)] exTree]) := C113_scan _ _ _ exDelta_content

/-- C113: from the octets of a snapshot or a delta exactly the objects published and withdrawn are read, in order, each with its URI and its text. -/
theorem C113_node (lib : Lib) (pre post : List Xml) (hpre : Around pre) (hpost : Around post) (name : Bytes) (hname : name = asc "snapshot".toList ∨ name = asc "delta".toList)
    (as : List (Bytes × Bytes)) (hp : Proper as) (n : Int) (hs : SerialIs as n) (cs : List Xml) (hc : ∀ n as inside, Xml.elem n as inside ∈ cs → Proper as)
    (d : Bytes) (h : Content lib (pre ++ [.elem name as cs] ++ post) d) :
    parseNode (scan lib d) = .ok (items (asc "publish".toList) cs, items (asc "withdraw".toList) cs) := by
  rw [scan_content h]
  exact C106_node pre post hpre hpost name hname as hp n hs cs hc

example : parseNode (scan noLib exDelta) = .ok ([⟨asc "a".toList, asc "QQ==".toList⟩], []) :=
  C113_node noLib [] [] (by simp [Around]) (by simp [Around]) _ (.inr rfl) _ (by unfold Proper; decide) 5 serial_five exTree exTree_proper exDelta (by rw [List.append_nil]; exact exDelta_content)

/-- C113: from the octets of a notification the session, the serial, the place of the snapshot and those of all deltas are read, in order. -/
theorem C113_root (lib : Lib) (pre post : List Xml) (hpre : Around pre) (hpost : Around post) (as : List (Bytes × Bytes)) (hp : Proper as) (n : Int) (hs : SerialIs as n) (cs : List Xml)
    (snap : List (Bytes × Bytes)) (hsnap : attrsOf (asc "snapshot".toList) cs = [snap]) (hsp : Proper snap) (hss : snap.lookup (asc "serial".toList) = none)
    (hd : ∀ as ∈ attrsOf (asc "delta".toList) cs, Proper as ∧ ∃ k, SerialIs as k)
    (d : Bytes) (h : Content lib (pre ++ [.elem (asc "notification".toList) as cs] ++ post) d) :
    ∃ ds, parseRoot (scan lib d) = .ok ⟨attr (asc "session_id".toList) as, n, ⟨0, attr (asc "uri".toList) snap, attr (asc "hash".toList) snap⟩, ds⟩ ∧
      List.Forall₂ DeltaIs (attrsOf (asc "delta".toList) cs) ds := by
  rw [scan_content h]
  exact C106_root pre post hpre hpost as hp n hs cs snap hsnap hsp hss hd

/-- `<notification session_id="s1" serial="5"><snapshot uri="b"/></notification>` -/
def exNote : Bytes := asc "<notification session_id=\"s1\" serial=\"5\"><snapshot uri=\"b\"/></notification>".toList

theorem exNote_content : Content noLib ([] ++ [.elem (asc "notification".toList) [(asc "session_id".toList, asc "s1".toList), (asc "serial".toList, asc "5".toList)]
    [.elem (asc "snapshot".toList) [(asc "uri".toList, asc "b".toList)] []]]) exNote := by
  have p := Content.empty (asc "snapshot".toList) _ ⟨[], asc "snapshot".toList⟩ _ [] [] (name_ok (r := [32]) (by decide)) ((split_iff _ _).mp (by decide))
    (attr_ok (n := asc "uri".toList) (v := asc "b".toList) (by decide) (by decide) (by decide) (by decide) (.nil [] white_nil)) (by intro c hc; cases hc; exact .inl rfl) .nil
  have e := Content.elem (asc "notification".toList) _ [] ⟨[], asc "notification".toList⟩ _ _ [] _ [] (name_ok (r := [32]) (by decide)) ((split_iff _ _).mp (by decide))
    (attr_ok (n := asc "session_id".toList) (v := asc "s1".toList) (by decide) (by decide) (by decide) (by decide)
      (attr_ok (n := asc "serial".toList) (v := asc "5".toList) (by decide) (by decide) (by decide) (by decide) (.nil [] white_nil))) (by intro c hc; cases hc; exact .inl rfl) white_nil p .nil
  exact content_cast e (by decide +kernel)

example : ∃ ds, parseRoot (scan noLib exNote) = .ok ⟨asc "s1".toList, 5, ⟨0, asc "b".toList, []⟩, ds⟩ ∧ List.Forall₂ DeltaIs [] ds :=
  C113_root noLib [] [] (by simp [Around]) (by simp [Around]) _ (by unfold Proper; decide) 5 serial_five [.elem (asc "snapshot".toList) [(asc "uri".toList, asc "b".toList)] []] [(asc "uri".toList, asc "b".toList)] (by decide) (by unfold Proper; decide) (by decide)
    (by intro as h; cases (show as ∈ [] from h)) exNote (by rw [List.append_nil]; exact exNote_content)

/-- C113, downloads that break off: a snapshot or delta cut at any octet after its start tag is rejected, also within a reference, a name or a letter. Cut before that, no tag of it has been
    read, and it is taken for one without objects (C106). -/
theorem C113_cut (lib : Lib) (pre : List Xml) (hpre : Around pre) (name : Bytes) (hname : name = asc "snapshot".toList ∨ name = asc "delta".toList)
    (as : List (Bytes × Bytes)) (hp : Proper as) (n : Int) (hs : SerialIs as n) (cs : List Xml) (hc : ∀ n as inside, Xml.elem n as inside ∈ cs → Proper as)
    (p q : Bytes) (hq : q ≠ []) (h : Content lib (pre ++ [.elem name as cs]) (p ++ q)) :
    (∃ m, parseNode (scan lib p) = .err m) ∨
      (parseNode (scan lib p) = .ok ([], []) ∧ ∀ before w t qn as' e, Content lib before w → Piece lib (.start qn as' e) t → ¬ (w ++ t <+: p)) := by
  obtain ⟨us, vs, ws, h1, h2, h3, h4⟩ := scan_cut h hq
  have nostart : (∀ t ∈ us, (∃ b, t = .chars b) ∨ t = .misc) → parseNode (scan lib p) = .ok ([], []) ∧
      ∀ before w t qn as' e, Content lib before w → Piece lib (.start qn as' e) t → ¬ (w ++ t <+: p) := by
    intro hu
    have no : ∀ k a, Tok.start k a ∉ scan lib p := by
      intro k a hm
      rw [h1, List.mem_append] at hm
      rcases hm with hm | hm
      · rcases hu _ hm with ⟨b, hb⟩ | hb <;> cases hb
      · rcases h2 with rfl | ⟨b, rfl⟩
        · cases hm
        · cases List.mem_singleton.mp hm
    refine ⟨parseNode_mute _ fun k a hm => absurd hm (no k a), ?_⟩
    rintro before w t qn as' e hb ht ⟨r, hr⟩
    exact no _ _ (hr ▸ start_front hb ht)
  rcases C106_cut pre hpre name hname as hp n hs cs hc us ws h4 h3 with he | ⟨-, hu⟩
  · left
    rcases h2 with rfl | ⟨b, rfl⟩
    · rw [h1, List.append_nil]; exact he
    · rw [h1]; exact parseNode_snoc b he
  · exact .inr (nostart fun t ht => around_toks hpre t (hu.subset ht))

/-- Cut within the reference to the object, and cut within the start tag. -/
example : (∃ m, parseNode (scan noLib (exDelta.take 60)) = .err m) ∧ parseNode (scan noLib (exDelta.take 20)) = .ok ([], []) :=
  ⟨⟨_, rfl⟩, by decide +kernel⟩

example := C113_cut noLib [] (by simp [Around]) _ (.inr rfl) _ (by unfold Proper; decide) 5 serial_five exTree exTree_proper (exDelta.take 60) (exDelta.drop 60) (by decide)
  (by rw [List.take_append_drop]; exact exDelta_content)

/-- C113: the same for notifications. -/
theorem C113_root_cut (lib : Lib) (pre : List Xml) (hpre : Around pre) (as : List (Bytes × Bytes)) (hp : Proper as) (n : Int) (hs : SerialIs as n) (cs : List Xml)
    (hd : ∀ k as inside, Xml.elem k as inside ∈ cs → k = asc "snapshot".toList ∨ k = asc "delta".toList → Proper as ∧ (as.lookup (asc "serial".toList) = none ∨ ∃ k, SerialIs as k))
    (p q : Bytes) (hq : q ≠ []) (h : Content lib (pre ++ [.elem (asc "notification".toList) as cs]) (p ++ q)) :
    (∃ m, parseRoot (scan lib p) = .err m) ∨
      (parseRoot (scan lib p) = .ok ⟨[], 0, ⟨0, [], []⟩, []⟩ ∧ ∀ before w t qn as' e, Content lib before w → Piece lib (.start qn as' e) t → ¬ (w ++ t <+: p)) := by
  obtain ⟨us, vs, ws, h1, h2, h3, h4⟩ := scan_cut h hq
  rcases C106_root_cut pre hpre as hp n hs cs hd us ws h4 h3 with he | ⟨-, hu⟩
  · left
    rcases h2 with rfl | ⟨b, rfl⟩
    · rw [h1, List.append_nil]; exact he
    · rw [h1]; exact parseRoot_snoc b he
  · right
    have no : ∀ k a, Tok.start k a ∉ scan lib p := by
      intro k a hm
      rw [h1, List.mem_append] at hm
      rcases hm with hm | hm
      · rcases around_toks hpre _ (hu.subset hm) with ⟨b, hb⟩ | hb <;> cases hb
      · rcases h2 with rfl | ⟨b, rfl⟩
        · cases hm
        · cases List.mem_singleton.mp hm
    refine ⟨?_, ?_⟩
    · have := rootLoop_mute (scan lib p) 1 ⟨[], 0, ⟨0, [], []⟩, []⟩ [] fun k a hm => absurd hm (no k a)
      rw [List.append_nil] at this
      unfold parseRoot
      rw [Nat.add_comm, this]; rfl
    · rintro before w t qn as' e hb ht ⟨r, hr⟩
      exact no _ _ (hr ▸ start_front hb ht)

example := C113_root_cut noLib [] (by simp [Around]) _ (by unfold Proper; decide) 5 serial_five [.elem (asc "snapshot".toList) [(asc "uri".toList, asc "b".toList)] []]
  (by
    intro k as inside h _
    simp only [List.mem_singleton, Xml.elem.injEq] at h
    rw [h.2.1]
    exact ⟨by unfold Proper; decide, .inl (by decide)⟩) (exNote.take 50) (exNote.drop 50) (by decide) (by rw [List.take_append_drop]; exact exNote_content)

/-- C113: an end tag of another name, prefix included, ends the reading there; a snapshot or delta with such a tag directly in it is rejected, whatever comes behind. -/
theorem C113_mismatch (lib : Lib) (pre cs : List Xml) (w t c u r : Bytes) (qn m : QName) (as : List (QName × Bytes)) (hw : Content lib pre w) (ht : Piece lib (.start qn as false) t)
    (hcs : Content lib cs c) (hu : Piece lib (.stop m) u) (hne : m ≠ qn) :
    scan lib (w ++ (t ++ (c ++ (u ++ r)))) = Xml.toksL pre ++ .start qn.loc (locals as) :: Xml.toksL cs ∧
      (Around pre → qn.loc = asc "snapshot".toList ∨ qn.loc = asc "delta".toList → Proper (locals as) → (∃ n, SerialIs (locals as) n) → (∀ n as inside, Xml.elem n as inside ∈ cs → Proper as) →
        ∃ e, parseNode (scan lib (w ++ (t ++ (c ++ (u ++ r))))) = .err e) := by
  obtain ⟨t0, rfl⟩ : ∃ x, t = 60 :: x := by cases ht; exact ⟨_, rfl⟩
  obtain ⟨u0, rfl⟩ : ∃ x, u = 60 :: x := by cases hu; exact ⟨_, rfl⟩
  have h1 := content_reads hw [] ((60 :: t0) ++ (c ++ ((60 :: u0) ++ r))) (.inr rfl)
  have h2 : token lib ⟨none, [], (60 :: t0) ++ (c ++ ((60 :: u0) ++ r))⟩ = some (.start qn.loc (locals as), ⟨none, [qn], c ++ ((60 :: u0) ++ r)⟩) := by
    unfold token
    simp only
    rw [token_piece ht [] _ (fun h => absurd rfl h)]
    rfl
  have h3 := content_reads hcs [qn] ((60 :: u0) ++ r) (.inr rfl)
  have h4 : token lib ⟨none, [qn], (60 :: u0) ++ r⟩ = none := by
    unfold token
    simp only
    rw [token_piece hu [] _ (fun h => absurd rfl h)]
    simp only
    rw [if_neg (fun h => hne h.symm)]
  have hs := scan_eq ((h1.append (Reads.one h2)).append h3) h4
  have e : Xml.toksL pre ++ [Tok.start qn.loc (locals as)] ++ Xml.toksL cs = Xml.toksL pre ++ .start qn.loc (locals as) :: Xml.toksL cs := by simp
  rw [e] at hs
  refine ⟨hs, fun hpre hname hp ⟨n, hn⟩ hc => ?_⟩
  rw [hs]
  rcases C106_cut pre hpre qn.loc hname (locals as) hp n hn cs hc (Xml.toksL pre ++ .start qn.loc (locals as) :: Xml.toksL cs) [.stop qn.loc] (by simp)
    (by simp [toksL_append, Xml.toksL, Xml.toks]) with h | ⟨-, h⟩
  · exact h
  · have := h.length_le
    simp at this

example : parseNode (scan noLib (asc "<delta serial=\"5\"></x:delta>".toList)) = .err "XML does not conform to schema" := by decide +kernel

example := C113_mismatch noLib [] [] [] (60 :: asc "delta".toList ++ [] ++ [62]) [] (60 :: 47 :: asc "x:delta".toList ++ [] ++ [62]) [] ⟨[], asc "delta".toList⟩ ⟨asc "x".toList, asc "delta".toList⟩ [] .nil
  (.start _ _ _ _ (name_ok (r := [32]) (by decide)) ((split_iff _ _).mp (by decide)) (.nil [] white_nil) (by intro c hc; cases hc)) .nil
  (.stop _ _ _ (name_ok (r := [32]) (by decide)) ((split_iff _ _).mp (by decide)) white_nil) (by decide)

/-- C113: what is read from a document, well-formed or not, is never larger than the document: no reference stands for more than it takes, so no document unfolds in memory. -/
theorem C113_size (lib : Lib) (d : Bytes) : ((scan lib d).map tokSize).sum ≤ d.length := scan_size lib d

example : ((scan noLib exDelta).map tokSize).sum = 39 ∧ exDelta.length = 73 := by decide +kernel

/-- C113: every text and every attribute value that is read from a document, well-formed or not, is UTF-8 of characters that XML allows. So there is no NUL and no control character in a URI. -/
theorem C113_chars (lib : Lib) (d : Bytes) : ∀ t ∈ scan lib d, ∀ v ∈ tokTexts t, XText v := by
  obtain ⟨s1, h, -⟩ := scan_reads lib d
  exact reads_chars h

example : scan noLib (asc "<a x=\"&#0;\">".toList) = [] ∧ scan noLib (asc "<a x=\"&#233;\">".toList) = [.start (asc "a".toList) [(asc "x".toList, [0xc3, 0xa9])]] := by decide +kernel

/-- C113: an entity that a document defines itself is not known: the reference ends the reading, whatever the definition says. -/
theorem C113_no_entities (lib : Lib) (n t : Bytes) (hn : ∀ c ∈ n, XmlSpec.NameByte c) (h : n ∉ [asc "lt".toList, asc "gt".toList, asc "amp".toList, asc "apos".toList, asc "quot".toList]) :
    scan lib (38 :: n ++ 59 :: t) = [] := by
  have hr : rawToken lib (38 :: n ++ 59 :: t) = none := by
    cases hx : rawToken lib (38 :: n ++ 59 :: t) with
    | none => rfl
    | some x =>
      exfalso
      obtain ⟨raw, r⟩ := x
      have hx' : checked (text none 0 0 0 (38 :: (n ++ 59 :: t))) ≠ none := by
        intro hn'
        rw [List.cons_append, rawToken, if_neg (by decide), hn'] at hx
        cases hx
      apply hx'
      have href : reference (n ++ 59 :: t) = none := by
        cases hy : reference (n ++ 59 :: t) with
        | none => rfl
        | some y =>
          exfalso
          obtain ⟨u, m⟩ := y
          obtain ⟨body, t', e, hb, -⟩ := (reference_iff _ _ _).mp hy
          have no59 : ∀ c : UInt8, XmlSpec.NameByte c → c ≠ 59 ∧ c ≠ 35 := by
            rintro c hc
            constructor <;> (rintro rfl; revert hc; unfold XmlSpec.NameByte; decide)
          have cut : ∀ m : Bytes, (∀ c ∈ m, c ≠ 59) → n ++ 59 :: t = m ++ [59] ++ t' → n = m := by
            intro m hm he
            have h1 : (n ++ 59 :: t).takeWhile (· ≠ 59) = n := by
              rw [List.takeWhile_append_of_pos (by intro c hc; simpa using (no59 c (hn c hc)).1)]; simp
            have h2 : (m ++ [59] ++ t').takeWhile (· ≠ 59) = m := by
              rw [List.append_assoc, List.takeWhile_append_of_pos (by intro c hc; simpa using hm c hc)]; simp
            rw [← h1, he, h2]
          have hash : ∀ z : Bytes, n ++ 59 :: t ≠ 35 :: z := by
            intro z hz
            cases n with
            | nil => cases hz
            | cons c n =>
              rw [List.cons_append] at hz
              exact (no59 c (hn c List.mem_cons_self)).2 (List.cons.inj hz).1
          cases hb with
          | lt => exact h (by rw [cut (asc "lt".toList) (by decide) e]; simp)
          | gt => exact h (by rw [cut (asc "gt".toList) (by decide) e]; simp)
          | amp => exact h (by rw [cut (asc "amp".toList) (by decide) e]; simp)
          | apos => exact h (by rw [cut (asc "apos".toList) (by decide) e]; simp)
          | quot => exact h (by rw [cut (asc "quot".toList) (by decide) e]; simp)
          | dec => exact hash _ e
          | hex => exact hash _ e
      have : text none 0 0 0 (38 :: (n ++ 59 :: t)) = none := by
        unfold text
        simp [href]
      rw [this]; rfl
  unfold scan
  cases hl : 2 * (38 :: n ++ 59 :: t).length + 1 with
  | zero => rfl
  | succ f => rw [tokens]; simp only [token, hr]

example : scan noLib (asc "&lol;".toList) = [] := C113_no_entities noLib (asc "lol".toList) [] (by
  intro c hc
  have : c ∈ [108, 111, 108] := hc
  simp only [List.mem_cons, List.not_mem_nil, or_false] at this
  rcases this with rfl | rfl | rfl <;> (unfold XmlSpec.NameByte; decide)) (by decide)

/-- C113 fails for names with a prefix: tags and attributes are told apart by their local parts only. An attribute of another vocabulary, `x:serial`, is taken for the serial and, standing
    behind it, replaces it; so two readers may see different serials in one document. -/
theorem C113_violated_prefix : ∃ d : Bytes, (∃ as cs, Content noLib [.elem (asc "notification".toList) as cs] d) ∧
    d = asc "<notification serial=\"5\" x:serial=\"7\"></notification>".toList ∧ parseRoot (scan noLib d) = .ok ⟨[], 7, ⟨0, [], []⟩, []⟩ := by
  refine ⟨_, ⟨[(asc "serial".toList, asc "5".toList), (asc "serial".toList, asc "7".toList)], [], ?_⟩, rfl, by decide +kernel⟩
  have a2 : AttrsIs noLib [(⟨asc "x".toList, asc "serial".toList⟩, asc "7".toList)] ([32] ++ asc "x:serial".toList ++ [] ++ 61 :: [] ++ 34 :: asc "7".toList ++ 34 :: []) :=
    AttrsIs.cons [32] (asc "x:serial".toList) [] [] ⟨asc "x".toList, asc "serial".toList⟩ 34 (asc "7".toList) (asc "7".toList) [] [] white_one (name_ok (r := [32]) (by decide))
      ((split_iff _ _).mp (by decide)) white_nil white_nil (.inl rfl) (written_plain _ _ (by decide)) ((charsOk_iff _ _ (Nat.le_refl _)).mp (by decide)) (.nil [] white_nil)
  have e := Content.elem (asc "notification".toList) _ [] ⟨[], asc "notification".toList⟩ _ [] [] [] [] (name_ok (r := [32]) (by decide)) ((split_iff _ _).mp (by decide))
    (attr_ok (n := asc "serial".toList) (v := asc "5".toList) (by decide) (by decide) (by decide) (by decide) a2) (by intro c hc; cases hc; exact .inl rfl) white_nil .nil .nil
  exact content_cast e (by decide +kernel)

end Verif.Props
