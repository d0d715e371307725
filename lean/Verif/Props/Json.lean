import Verif.Lemmas.JsonInfo
import Verif.Lemmas.JsonExact
import Verif.Lemmas.ErrText
import Verif.Props.Output
import Verif.Props.RrdpState
import Verif.Props.ProcessCrash
/-
  C111: the published list as a JSON text. C89, C102: the file of RRDP positions as a JSON text.
-/
set_option autoImplicit false

namespace Verif.Props
open Net Out Json JsonSpec Cache RrdpState

/-! ### The text of a list -/

theorem replaced_empty {s s' : Bytes} (h : Replaced s s') : s = [] ↔ s' = [] := by
  cases h with
  | nil => exact Iff.rfl
  | char n u s t hu hs =>
    have := utf8_ne_nil hu
    simp [this]
  | bad b s t hb hs => simp

theorem name_chars (s : String) (h : ∀ c ∈ asc s.toList, c < 0x80) : Chars (asc s.toList) (escLoop 0 (asc s.toList)) := esc_utf8 (isUtf8_ascii _ h)

theorem forall₂_append {α β : Type} {R : α → β → Prop} {a c : List α} {b d : List β} (h : List.Forall₂ R a b) (h' : List.Forall₂ R c d) :
    List.Forall₂ R (a ++ c) (b ++ d) := by
  induction h with
  | nil => exact h'
  | cons h1 _ ih => exact .cons h1 ih

theorem member_opt {n : Nat} {k s s' : Bytes} (hk : Chars k (escLoop 0 k)) (hc : Chars s' (escLoop 0 s)) (hr : Replaced s s') :
    List.Forall₂ (MemberPrint n) (if s = [] then [] else [(k, Json.str s)]) (if s' = [] then [] else [(k, Json.str s')]) := by
  by_cases h : s = []
  · rw [if_pos h, if_pos ((replaced_empty hr).mp h)]
    exact .nil
  · rw [if_neg h, if_neg fun e => h ((replaced_empty hr).mpr e)]
    exact .cons ⟨hk, val_str hc⟩ .nil

theorem val_roa (r : ROAJson) : ∃ r', Val Chars 1 (roaJson r') (print (roaJson r)) ∧ Replaced r.prefixText r'.prefixText ∧ r'.length = r.length ∧
    Replaced r.asn r'.asn ∧ Replaced r.ta r'.ta := by
  obtain ⟨p, p1, p2⟩ := esc_chars r.prefixText
  obtain ⟨a, a1, a2⟩ := esc_chars r.asn
  obtain ⟨t, t1, t2⟩ := esc_chars r.ta
  refine ⟨⟨p, r.length, a, t⟩, ?_, p2, rfl, a2, t2⟩
  unfold roaJson
  exact val_obj (forall₂_append (.cons ⟨name_chars "prefix" (by decide +kernel), val_str p1⟩ (.cons ⟨name_chars "maxLength" (by decide +kernel), val_int _⟩
    (.cons ⟨name_chars "asn" (by decide +kernel), val_str a1⟩ .nil))) (member_opt (name_chars "ta" (by decide +kernel)) t1 t2))

theorem val_meta (n : Nat) (m : MetaData) : ∃ m', Val Chars (n + 1) (metaJson m') (print (metaJson m)) ∧ m'.counts = m.counts ∧ m'.generated = m.generated ∧
    m'.valid = m.valid ∧ Replaced m.signature m'.signature ∧ Replaced m.signatureDate m'.signatureDate := by
  obtain ⟨s, s1, s2⟩ := esc_chars m.signature
  obtain ⟨d, d1, d2⟩ := esc_chars m.signatureDate
  refine ⟨⟨m.counts, m.generated, m.valid, s, d⟩, ?_, rfl, rfl, rfl, s2, d2⟩
  unfold metaJson
  refine val_obj (forall₂_append (forall₂_append (forall₂_append (.cons ⟨name_chars "counts" (by decide +kernel), val_int _⟩
    (.cons ⟨name_chars "generated" (by decide +kernel), val_int _⟩ .nil)) ?_) (member_opt (name_chars "signature" (by decide +kernel)) s1 s2))
    (member_opt (name_chars "signatureDate" (by decide +kernel)) d1 d2))
  simp only
  split
  · exact .nil
  · exact .cons ⟨name_chars "valid" (by decide +kernel), val_int _⟩ .nil

theorem val_list (l : ROAList) : ∃ l', Val Chars 3 (listJson l') (listText l) ∧ Cleaned l l' := by
  obtain ⟨m', m0, m1, m2, m3, m4, m5⟩ := val_meta 1 l.metadata
  have hd : ∀ d : List ROAJson, ∃ d', List.Forall₂ (fun v v' => Val Chars 1 v' (print v)) (d.map roaJson) (d'.map roaJson) ∧
      List.Forall₂ (fun r r' => Replaced r.prefixText r'.prefixText ∧ r'.length = r.length ∧ Replaced r.asn r'.asn ∧ Replaced r.ta r'.ta) d d' := by
    intro d
    induction d with
    | nil => exact ⟨[], .nil, .nil⟩
    | cons r d ih =>
      obtain ⟨d', h1, h2⟩ := ih
      obtain ⟨r', g1, g2⟩ := val_roa r
      exact ⟨r' :: d', .cons g1 h1, .cons g2 h2⟩
  obtain ⟨d', h1, h2⟩ := hd l.data
  exact ⟨⟨m', d'⟩, val_obj (.cons ⟨name_chars "metadata" (by decide +kernel), m0⟩
    (.cons ⟨name_chars "roas" (by decide +kernel), val_arr h1⟩ .nil)), m1, m2, m3, m4, m5, h2⟩

theorem cleaned_utf8 {l l' : ROAList} (hu : ListUtf8 l) (h : Cleaned l l') : l' = l := by
  obtain ⟨h1, h2, h3, h4, h5, h6⟩ := h
  obtain ⟨u1, u2, u3⟩ := hu
  obtain ⟨⟨c, g, v, s, sd⟩, d⟩ := l
  obtain ⟨⟨c', g', v', s', sd'⟩, d'⟩ := l'
  simp only at *
  subst h1 h2 h3
  rw [replaced_utf8 u1 h4, replaced_utf8 u2 h5]
  congr 1
  clear u1 u2 h4 h5
  induction h6 with
  | nil => rfl
  | @cons r r' d d' hr hd ih =>
    obtain ⟨q1, q2, q3⟩ := u3 r List.mem_cons_self
    obtain ⟨p1, p2, p3, p4⟩ := hr
    rw [ih fun x hx => u3 x (List.mem_cons_of_mem _ hx)]
    congr 1
    obtain ⟨a, b, c, e⟩ := r
    obtain ⟨a', b', c', e'⟩ := r'
    simp only at *
    rw [replaced_utf8 q1 p1, p2, replaced_utf8 q2 p3, replaced_utf8 q3 p4]

theorem listText_text (l : ROAList) : ∃ l', Cleaned l l' ∧ Text Chars 3 (listJson l') (listText l) ∧ Text Chars 3 (listJson l') (servedText l) := by
  obtain ⟨l', h1, h2⟩ := val_list l
  exact ⟨l', h2, ⟨[], _, [], (List.append_nil _).symm, ws_nil, h1, ws_nil⟩, ⟨[], _, [10], rfl, ws_nil, h1, by intro c hc; simp at hc; subst hc; decide⟩⟩

/-! ### C111 -/

/-- **C111.** Whatever the list holds, the document that is served and the file that is written are JSON texts (RFC 8259) of the list,
    with U+FFFD in place of every octet that is not UTF-8. -/
theorem C111_document (l : ROAList) : ∃ l', Cleaned l l' ∧ Text Chars 3 (listJson l') (listText l) ∧ Text Chars 3 (listJson l') (servedText l) :=
  listText_text l

/-- **C111.** If the strings are in UTF-8, they are JSON texts of the list itself. -/
theorem C111_document_exact (l : ROAList) (hu : ListUtf8 l) : Text Chars 3 (listJson l) (listText l) ∧ Text Chars 3 (listJson l) (servedText l) := by
  obtain ⟨l', h1, h2⟩ := listText_text l
  rwa [cleaned_utf8 hu h1] at h2

/-- **C111.** JSON is not ambiguous: two readings of a text, at most 10000 brackets deep, are the same. So every reader that follows
    RFC 8259 reads the same list. -/
theorem C111_unambiguous (n n' : Nat) (v v' : Json) (t : Bytes) (h : Text Chars n v t) (h' : Text Chars n' v' t) (hn : n ≤ 10000) (hn' : n' ≤ 10000) :
    v = v' := by
  have h1 := text_read h hn
  have h2 := text_read h' hn'
  exact Option.some.inj (h1.symm.trans h2)

/-- **C111.** encoding/json reads every JSON text that is at most 10000 brackets deep, and gets its value. -/
theorem C111_reads (n : Nat) (v : Json) (t : Bytes) (h : Text Chars n v t) (hn : n ≤ 10000) : parse t = some v := text_read h hn

/-- **C111.** encoding/json reads nothing else, but for one thing: a string may contain octets that are not UTF-8, and escaped surrogates
    that are not a pair. They are read as U+FFFD. -/
theorem C111_exact (t : Bytes) (v : Json) : parse t = some v ↔ Text LaxChars 10000 v t := parse_exact t v

/-- **C111.** What is not such a text is refused. -/
theorem C111_refuses (t : Bytes) : parse t = none ↔ ¬ ∃ v, Text LaxChars 10000 v t := by
  constructor
  · rintro h ⟨v, hv⟩
    rw [(C111_exact t v).mpr hv] at h
    cases h
  · intro h
    cases hp : parse t with
    | none => rfl
    | some v => exact absurd ⟨v, (C111_exact t v).mp hp⟩ h

/-- A text with two bad octets in a string and a bad escape: it is read, with U+FFFD three times. -/
example : ∃ v, print v = asc "{\"a\":[1,\"".toList ++ [0xef, 0xbf, 0xbd, 0xef, 0xbf, 0xbd, 0xef, 0xbf, 0xbd] ++ asc "\"]}".toList ∧
    Text LaxChars 10000 v (asc "{\"a\": [1, \"".toList ++ [0xff, 0xc0] ++ asc "\\uD800\"]}".toList) := by
  have h : (parse (asc "{\"a\": [1, \"".toList ++ [0xff, 0xc0] ++ asc "\\uD800\"]}".toList)).map print =
    some (asc "{\"a\":[1,\"".toList ++ [0xef, 0xbf, 0xbd, 0xef, 0xbf, 0xbd, 0xef, 0xbf, 0xbd] ++ asc "\"]}".toList) := by decide +kernel
  obtain ⟨v, h1, h2⟩ := Option.map_eq_some_iff.mp h
  exact ⟨v, h2, (C111_exact _ _).mp h1⟩

/-- Texts that are refused: a comma too many, a number with a leading zero, a key without quotation marks, a second value. -/
example : (∀ t ∈ ["[1,]", "{\"a\":01}", "{a:1}", "{} {}", "\"\t\"", "[1 2]", "1.", "+1", "nul", ""], ¬ ∃ v, Text LaxChars 10000 v (asc t.toList)) := by
  intro t ht
  rw [← C111_refuses]
  revert t
  decide +kernel

/-- Two values of one key. -/
theorem opt_member {k s s' : Bytes} {a b : List (Bytes × Json)} (ha : ∀ m ∈ a, m.1 ≠ k) (hb : ∀ m ∈ b, m.1 ≠ k)
    (h : (if s = [] then [] else [(k, Json.str s)]) ++ a = (if s' = [] then [] else [(k, Json.str s')]) ++ b) : s = s' ∧ a = b := by
  by_cases h1 : s = [] <;> by_cases h2 : s' = []
  · simp only [h1, h2, if_true, List.nil_append] at h
    exact ⟨h1.trans h2.symm, h⟩
  · simp only [h1, h2, if_true, if_false, List.nil_append, List.cons_append] at h
    exact absurd rfl (ha _ (by rw [h]; exact List.mem_cons_self))
  · simp only [h1, h2, if_true, if_false, List.nil_append, List.cons_append] at h
    exact absurd rfl (hb _ (by rw [← h]; exact List.mem_cons_self))
  · simp only [h1, h2, if_false, List.cons_append, List.nil_append, List.cons.injEq, Prod.mk.injEq, Json.str.injEq] at h
    exact ⟨h.1.2, h.2⟩

theorem roaJson_inj {r r' : ROAJson} (h : roaJson r = roaJson r') : r = r' := by
  obtain ⟨p, n, a, t⟩ := r
  obtain ⟨p', n', a', t'⟩ := r'
  unfold roaJson at h
  simp only [Json.obj.injEq, List.cons_append, List.nil_append, List.cons.injEq, Prod.mk.injEq, Json.str.injEq, Json.num.injEq, true_and] at h
  obtain ⟨h1, h2, h3, h4⟩ := h
  have h5 := opt_member (a := []) (b := []) (fun _ h => by cases h) (fun _ h => by cases h) (by simpa using h4)
  have h6 := intText_inj h2
  have h7 : n = n' := UInt8.toNat_inj.mp (by omega)
  rw [h1, h7, h3, h5.1]

theorem metaJson_inj {m m' : MetaData} (h : metaJson m = metaJson m') : m = m' := by
  obtain ⟨c, g, v, s, d⟩ := m
  obtain ⟨c', g', v', s', d'⟩ := m'
  unfold metaJson at h
  simp only [Json.obj.injEq, List.cons_append, List.nil_append, List.append_assoc, List.cons.injEq, Prod.mk.injEq, Json.num.injEq, true_and] at h
  obtain ⟨h1, h2, h3⟩ := h
  have n1 : fSignature ≠ fValid := by decide +kernel
  have n2 : fSignatureDate ≠ fValid := by decide +kernel
  have n3 : fSignatureDate ≠ fSignature := by decide +kernel
  have hv : ∀ (s d : Bytes), ∀ m ∈ (if s = [] then [] else [(fSignature, Json.str s)]) ++ (if d = [] then [] else [(fSignatureDate, Json.str d)]),
      m.1 ≠ fValid := by
    intro s d m hm
    rcases List.mem_append.mp hm with hm | hm
    · split at hm
      · cases hm
      · simp only [List.mem_cons, List.not_mem_nil, or_false] at hm; subst hm; exact n1
    · split at hm
      · cases hm
      · simp only [List.mem_cons, List.not_mem_nil, or_false] at hm; subst hm; exact n2
  have hs : ∀ (d : Bytes), ∀ m ∈ (if d = [] then [] else [(fSignatureDate, Json.str d)]), m.1 ≠ fSignature := by
    intro d m hm
    split at hm
    · cases hm
    · simp only [List.mem_cons, List.not_mem_nil, or_false] at hm; subst hm; exact n3
  have hval : v = v' ∧ (if s = [] then [] else [(fSignature, Json.str s)]) ++ (if d = [] then [] else [(fSignatureDate, Json.str d)]) =
      (if s' = [] then [] else [(fSignature, Json.str s')]) ++ (if d' = [] then [] else [(fSignatureDate, Json.str d')]) := by
    by_cases e1 : v = 0 <;> by_cases e2 : v' = 0
    · simp only [e1, e2, if_true, List.nil_append] at h3
      exact ⟨e1.trans e2.symm, h3⟩
    · simp only [e1, e2, if_true, if_false, List.nil_append, List.cons_append] at h3
      exact absurd rfl (hv s d _ (by rw [h3]; exact List.mem_cons_self))
    · simp only [e1, e2, if_true, if_false, List.nil_append, List.cons_append] at h3
      exact absurd rfl (hv s' d' _ (by rw [← h3]; exact List.mem_cons_self))
    · simp only [e1, e2, if_false, List.cons_append, List.nil_append, List.cons.injEq, Prod.mk.injEq, Json.num.injEq] at h3
      exact ⟨intText_inj h3.1.2, h3.2⟩
  obtain ⟨hv1, hv2⟩ := hval
  obtain ⟨hs1, hs2⟩ := opt_member (hs d) (hs d') hv2
  have hd := opt_member (k := fSignatureDate) (s := d) (s' := d') (a := []) (b := []) (fun _ h => by cases h) (fun _ h => by cases h) (by simpa using hs2)
  rw [intText_inj h1, intText_inj h2, hv1, hs1, hd.1]

theorem listJson_inj {l l' : ROAList} (h : listJson l = listJson l') : l = l' := by
  obtain ⟨m, d⟩ := l
  obtain ⟨m', d'⟩ := l'
  unfold listJson at h
  simp only [Json.obj.injEq, List.cons.injEq, Prod.mk.injEq, true_and, Json.arr.injEq, and_true] at h
  rw [metaJson_inj h.1, List.map_injective_iff.mpr (fun _ _ => roaJson_inj) h.2]

/-- **C111.** The document determines the list: whatever reads it as JSON, can tell every prefix, AS number, maximum length, name of a
    trust anchor, count, time and signature. -/
theorem C111_determines (l l' : ROAList) (hu : ListUtf8 l) (hu' : ListUtf8 l') (h : servedText l = servedText l' ∨ listText l = listText l') : l = l' := by
  apply listJson_inj
  rcases h with h | h
  · exact C111_unambiguous 3 3 _ _ _ (C111_document_exact l hu).2 (h ▸ (C111_document_exact l' hu').2) (by omega) (by omega)
  · exact C111_unambiguous 3 3 _ _ _ (C111_document_exact l hu).1 (h ▸ (C111_document_exact l' hu').1) (by omega) (by omega)

/-- **C111.** A file that was cut off is refused: no beginning of the text is JSON. -/
theorem C111_cut (l : ROAList) (n : Nat) (hn : n < (listText l).length) : parse ((listText l).take n) = none := by
  obtain ⟨l', h, -⟩ := val_list l
  exact obj_cut h (by decide) n hn

/-- **C111.** An answer that was cut off is refused too, unless only the newline at its end is missing. -/
theorem C111_answer_cut (l : ROAList) (n : Nat) (hn : n < (listText l).length) : parse ((servedText l).take n) = none := by
  unfold servedText
  rw [List.take_append_of_le_length (by omega)]
  exact C111_cut l n hn

/-- **C111.** A process that dies at any point of the writing of the output file leaves the old file, the new list, or a file that is
    refused. It never leaves a part of a list that reads as a list. -/
theorem C111_crash (old : Bytes) (l : ROAList) (hu : ListUtf8 l) (at_ : Option Nat) :
    fileAfter old (listText l) at_ = old ∨ parse (fileAfter old (listText l) at_) = some (listJson l) ∨
      parse (fileAfter old (listText l) at_) = none := by
  cases at_ with
  | none => exact .inl rfl
  | some n =>
    right
    by_cases h : n < (listText l).length
    · exact .inr (C111_cut l n h)
    · left
      show parse ((listText l).take n) = _
      rw [List.take_of_length_le (by omega)]
      exact text_read (C111_document_exact l hu).1 (by decide)

/-- **C111 is violated by a crash: the file is not replaced at once.** For all lists there is a point where a crash leaves neither the
    old list nor the new one. -/
theorem C111_violated_crash (l l' : ROAList) : ∃ at_, parse (fileAfter (listText l) (listText l') at_) = none := by
  refine ⟨some 0, ?_⟩
  show parse [] = none
  decide

/-! ### What the strings are made of -/

/-- An ASCII octet. -/
def Ascii (c : UInt8) : Prop := c < 0x80

theorem digitChar_ascii : ∀ d, d < 16 → Ascii (digitChar d) := by unfold Ascii; decide +kernel

theorem numText_ascii {b n : Nat} (hb : b = 10 ∨ b = 16) : ∀ c ∈ numText b n, Ascii c := by
  intro c hc
  obtain ⟨d, hd, rfl⟩ := digits_all hb _ _ c hc
  exact digitChar_ascii d (by rcases hb with rfl | rfl <;> omega)

theorem hexGroups_ascii (gs : List Nat) : ∀ c ∈ joinWith [58] (gs.map (numText 16)), Ascii c := by
  refine Net.joinWith_all (P := Ascii) (by unfold Ascii; decide) _ ?_
  intro x hx c hc
  obtain ⟨g, _, rfl⟩ := List.mem_map.mp hx
  exact numText_ascii (.inr rfl) c hc

theorem ipString_ascii (ip : Bytes) : ∀ c ∈ ipString ip, Ascii c := by
  unfold ipString
  split
  · unfold Ascii; decide
  · split
    · refine Net.joinWith_all (P := Ascii) (by unfold Ascii; decide) _ ?_
      intro x hx c hc
      obtain ⟨g, _, rfl⟩ := List.mem_map.mp hx
      exact numText_ascii (.inl rfl) c hc
    · split
      · intro c hc
        rcases List.mem_cons.mp hc with rfl | hc
        · unfold Ascii; decide
        · exact ErrText.hexString_all digitChar_ascii _ c hc
      · unfold ipv6Text
        dsimp only
        split
        · exact hexGroups_ascii _
        · intro c hc
          simp only [List.mem_append] at hc
          rcases hc with (hc | hc) | hc
          · exact hexGroups_ascii _ c hc
          · exact (by unfold Ascii; decide : ∀ c ∈ ([58, 58] : Bytes), Ascii c) c hc
          · exact hexGroups_ascii _ c hc

theorem ipNetString_ascii (n : IPNet) : ∀ c ∈ ipNetString n, Ascii c := by
  have hnil : ∀ c ∈ nilText, Ascii c := by unfold Ascii; decide
  have hslash : ∀ c ∈ ([47] : Bytes), Ascii c := by unfold Ascii; decide
  unfold ipNetString
  dsimp only
  split
  · exact hnil
  · split <;> intro c hc <;> simp only [List.mem_append] at hc <;> rcases hc with (hc | hc) | hc
    · exact ipString_ascii _ c hc
    · exact hslash c hc
    · unfold maskString at hc
      split at hc
      · exact hnil c hc
      · exact ErrText.hexString_all digitChar_ascii _ c hc
    · exact ipString_ascii _ c hc
    · exact hslash c hc
    · exact numText_ascii (.inl rfl) c hc

theorem filterInvalid_mem : ∀ (l d : List ROAJson), filterInvalidPrefixLen l = .ok d → ∀ r ∈ d, r ∈ l := by
  intro l
  induction l with
  | nil => intro d h r hr; cases h; exact hr
  | cons a l ih =>
    intro d h r hr
    unfold filterInvalidPrefixLen at h
    obtain ⟨k, -, h⟩ := Go.bind_eq_ok.mp h
    obtain ⟨d', h1, h⟩ := Go.bind_eq_ok.mp h
    have h := Go.ok.inj h
    subst h
    split at hr
    · rcases List.mem_cons.mp hr with rfl | hr
      · exact List.mem_cons_self
      · exact List.mem_cons_of_mem _ (ih d' h1 r hr)
    · exact List.mem_cons_of_mem _ (ih d' h1 r hr)

theorem generate_mem {filter : Bool} {now validity : Int} {tals : List TalResult} {l : ROAList} (h : generateROAList filter now validity tals = .ok l) :
    (∀ r ∈ l.data, r ∈ exportAll tals) ∧ l.metadata.signature = [] ∧ l.metadata.signatureDate = [] := by
  unfold generateROAList at h
  obtain ⟨d, h1, h⟩ := Go.bind_eq_ok.mp h
  have h := Go.ok.inj h
  subst h
  refine ⟨fun r hr => ?_, rfl, rfl⟩
  unfold filterData at h1
  obtain ⟨d', h2, h1⟩ := Go.bind_eq_ok.mp h1
  have h1 := Go.ok.inj h1
  subst h1
  have hr' := (dedupLoop_sublist d' []).subset hr
  unfold filterOpt at h2
  split at h2
  · exact (dedupLoop_sublist _ []).subset (filterInvalid_mem _ _ h2 r hr')
  · have h2 := Go.ok.inj h2
    subst h2
    exact hr'

/-- **C111.** Every list that octorpki makes, signed or not, has all its strings in UTF-8 if the configured names of the trust anchors
    are in UTF-8. -/
theorem C111_made_lists (filter : Bool) (now validity : Int) (tals : List TalResult) (l : ROAList)
    (h : generateROAList filter now validity tals = .ok l) (hn : ∀ t ∈ tals, IsUtf8 t.name) :
    ListUtf8 l ∧ ∀ (sha : Bytes → Bytes) (ec : Ecdsa) (a b : Nat), ListUtf8 (signROAList sha ec a b l) := by
  obtain ⟨h1, h2, h3⟩ := generate_mem h
  have hd : ∀ r ∈ l.data, IsUtf8 r.prefixText ∧ IsUtf8 r.asn ∧ IsUtf8 r.ta := by
    intro r hr
    obtain ⟨t, ht, roa, -, e, -, rfl⟩ := mem_exportAll.mp (h1 r hr)
    refine ⟨isUtf8_ascii _ (ipNetString_ascii _), isUtf8_ascii _ ?_, hn t ht⟩
    intro c hc
    rcases List.mem_append.mp hc with hc | hc
    · exact (by decide +kernel : ∀ c ∈ asc "AS".toList, c < 0x80) c hc
    · unfold intText at hc
      split at hc
      · rcases List.mem_cons.mp hc with rfl | hc
        · decide
        · exact numText_ascii (.inl rfl) c hc
      · exact numText_ascii (.inl rfl) c hc
  refine ⟨⟨by rw [h2]; exact .nil, by rw [h3]; exact .nil, hd⟩, fun sha ec a b => ?_⟩
  unfold signROAList
  split
  · rename_i s hs
    unfold ROAList.sign at hs
    simp only at hs
    split at hs
    · have hs := Go.ok.inj hs
      subst hs
      exact ⟨isUtf8_ascii _ (ErrText.hexString_all digitChar_ascii _), isUtf8_ascii _ (ErrText.hexString_all digitChar_ascii _), hd⟩
    · cases hs
  · exact ⟨.nil, .nil, hd⟩

/-! ### Safe text -/

/-- An octet that may stand in a web page: no control character, no angle bracket, no ampersand. -/
def Safe (c : UInt8) : Prop := 0x20 ≤ c ∧ c ≠ 60 ∧ c ≠ 62 ∧ c ≠ 38

theorem safe_high {c : UInt8} (h : 0x80 ≤ c) : Safe c := by
  have key : ∀ n : Fin 256, 0x80 ≤ UInt8.ofNat n.1 → Safe (UInt8.ofNat n.1) := by unfold Safe; decide +kernel
  have := key ⟨c.toNat, c.toNat_lt⟩
  simp only [UInt8.ofNat_toNat] at this
  exact this h

theorem digitChar_safe : ∀ d, d < 16 → Safe (digitChar d) := by unfold Safe; decide +kernel

theorem escByte_safe (b : UInt8) : ∀ c ∈ escByte b, Safe c := by
  have key : ∀ n : Fin 256, ∀ c ∈ escByte (UInt8.ofNat n.1), 0x20 ≤ c ∧ c ≠ 60 ∧ c ≠ 62 ∧ c ≠ 38 := by decide +kernel
  have := key ⟨b.toNat, b.toNat_lt⟩
  simp only [UInt8.ofNat_toNat] at this
  exact this

theorem escLoop_safe (s : Bytes) : ∀ k, ∀ c ∈ escLoop k s, Safe c := by
  induction s with
  | nil => intro k c hc; cases k <;> cases hc
  | cons b r ih =>
    intro k c hc
    cases k with
    | succ k => exact ih k c hc
    | zero =>
      rw [escLoop] at hc
      split at hc
      · rcases List.mem_append.mp hc with hc | hc
        · exact escByte_safe b c hc
        · exact ih 0 c hc
      · rename_i hb
        split at hc
        · rcases List.mem_append.mp hc with hc | hc
          · exact (by unfold Safe; decide : ∀ c ∈ ([92, 117, 102, 102, 102, 100] : Bytes), Safe c) c hc
          · exact ih 0 c hc
        · rename_i n hl
          rcases List.mem_append.mp hc with hc | hc
          · split at hc
            · exact (by unfold Safe; decide : ∀ c ∈ ([92, 117, 50, 48, 50, 56] : Bytes), Safe c) c hc
            · split at hc
              · exact (by unfold Safe; decide : ∀ c ∈ ([92, 117, 50, 48, 50, 57] : Bytes), Safe c) c hc
              · obtain ⟨m, u, t, hut, hlen, hu, hm⟩ := runeLen_sound hl
                rw [hut, ← hlen, List.take_left] at hc
                obtain ⟨-, -, -, -, hall, -⟩ := utf8_multi hu hm []
                exact safe_high (hall c hc)
          · exact ih _ c hc

theorem quote_safe (s : Bytes) : ∀ c ∈ quote s, Safe c := by
  intro c hc
  simp only [quote, List.cons_append, List.mem_cons, List.mem_append, List.not_mem_nil, or_false] at hc
  rcases hc with rfl | hc | rfl
  · unfold Safe; decide
  · exact escLoop_safe s 0 c hc
  · unfold Safe; decide

theorem intText_safe (i : Int) : ∀ c ∈ intText i, Safe c := by
  intro c hc
  have hn : ∀ c ∈ numText 10 i.natAbs, Safe c := by
    intro c hc
    obtain ⟨d, hd, rfl⟩ := digits_all (.inl rfl) _ _ c hc
    exact digitChar_safe d (by omega)
  unfold intText at hc
  split at hc
  · rcases List.mem_cons.mp hc with rfl | hc
    · unfold Safe; decide
    · exact hn c hc
  · exact hn c hc

theorem printMembers_safe : ∀ (l : List (Bytes × Json)), (∀ m ∈ l, ∀ c ∈ print m.2, Safe c) → ∀ c ∈ printMembers l, Safe c := by
  intro l
  induction l with
  | nil => intro _ c hc; simp [printMembers] at hc; subst hc; unfold Safe; decide
  | cons m l ih =>
    intro h c hc
    obtain ⟨k, v⟩ := m
    simp only [printMembers, printMember, List.cons_append, List.mem_cons, List.mem_append] at hc
    rcases hc with rfl | (hc | rfl | hc) | hc
    · unfold Safe; decide
    · exact quote_safe k c hc
    · unfold Safe; decide
    · exact h (k, v) List.mem_cons_self c hc
    · exact ih (fun x hx => h x (List.mem_cons_of_mem _ hx)) c hc

theorem obj_safe (l : List (Bytes × Json)) (h : ∀ m ∈ l, ∀ c ∈ print m.2, Safe c) : ∀ c ∈ print (.obj l), Safe c := by
  intro c hc
  cases l with
  | nil => simp [print] at hc; rcases hc with rfl | rfl <;> (unfold Safe; decide)
  | cons m l =>
    have := printMembers_safe (m :: l) h
    simp only [print, List.cons_append, List.mem_cons] at hc
    rcases hc with rfl | hc
    · unfold Safe; decide
    · exact this c (by simp only [printMembers, List.cons_append, List.mem_cons]; exact .inr hc)

theorem printElems_safe : ∀ (l : List Json), (∀ m ∈ l, ∀ c ∈ print m, Safe c) → ∀ c ∈ printElems l, Safe c := by
  intro l
  induction l with
  | nil => intro _ c hc; simp [printElems] at hc; subst hc; unfold Safe; decide
  | cons v l ih =>
    intro h c hc
    simp only [printElems, List.cons_append, List.mem_cons, List.mem_append] at hc
    rcases hc with rfl | hc | hc
    · unfold Safe; decide
    · exact h v List.mem_cons_self c hc
    · exact ih (fun x hx => h x (List.mem_cons_of_mem _ hx)) c hc

theorem arr_safe (l : List Json) (h : ∀ m ∈ l, ∀ c ∈ print m, Safe c) : ∀ c ∈ print (.arr l), Safe c := by
  intro c hc
  cases l with
  | nil => simp [print] at hc; rcases hc with rfl | rfl <;> (unfold Safe; decide)
  | cons m l =>
    have := printElems_safe (m :: l) h
    simp only [print, List.cons_append, List.mem_cons] at hc
    rcases hc with rfl | hc
    · unfold Safe; decide
    · exact this c (by simp only [printElems, List.cons_append, List.mem_cons]; exact .inr hc)

theorem str_safe (s : Bytes) : ∀ c ∈ print (.str s), Safe c := by rw [print]; exact quote_safe s

theorem int_safe (i : Int) : ∀ c ∈ print (.num (intText i)), Safe c := by rw [print]; exact intText_safe i

theorem opt_str_safe {k s : Bytes} : ∀ m ∈ (if s = [] then [] else [(k, Json.str s)]), ∀ c ∈ print m.2, Safe c := by
  intro m hm
  split at hm
  · cases hm
  · simp only [List.mem_cons, List.not_mem_nil, or_false] at hm
    subst hm
    exact str_safe s

/-- **C111.** Whatever the names of the trust anchors are, the text of a list has no control character, angle bracket or ampersand: shown
    in a web page or on a terminal it is only text. -/
theorem C111_safe (l : ROAList) : ∀ c ∈ listText l, Safe c := by
  unfold listText listJson
  refine obj_safe _ fun m hm => ?_
  simp only [List.mem_cons, List.not_mem_nil, or_false] at hm
  rcases hm with rfl | rfl
  · refine obj_safe _ fun m hm => ?_
    rcases List.mem_append.mp hm with hm | hm
    · rcases List.mem_append.mp hm with hm | hm
      · rcases List.mem_append.mp hm with hm | hm
        · simp only [List.mem_cons, List.not_mem_nil, or_false] at hm
          rcases hm with rfl | rfl <;> exact int_safe _
        · split at hm
          · cases hm
          · simp only [List.mem_cons, List.not_mem_nil, or_false] at hm
            subst hm
            exact int_safe _
      · exact opt_str_safe m hm
    · exact opt_str_safe m hm
  · refine arr_safe _ fun v hv => ?_
    obtain ⟨r, -, rfl⟩ := List.mem_map.mp hv
    refine obj_safe _ fun m hm => ?_
    rcases List.mem_append.mp hm with hm | hm
    · simp only [List.mem_cons, List.not_mem_nil, or_false] at hm
      rcases hm with rfl | rfl | rfl
      · exact str_safe _
      · exact int_safe _
      · exact str_safe _
    · exact opt_str_safe m hm

/-! ### Examples and violations of C111 -/

namespace JsonEx

def roaA : ROAJson := ⟨asc "10.0.0.0/8".toList, 24, asc "AS64496".toList, asc "ripe".toList⟩
def roaB : ROAJson := ⟨asc "2001:db8::/32".toList, 48, asc "AS64497".toList, []⟩
def listA : ROAList := ⟨⟨2, 1600000000, 1600003600, asc "ab".toList, []⟩, [roaA, roaB]⟩
def named (ta : Bytes) : ROAList := ⟨⟨1, 5, 0, [], []⟩, [{ roaA with ta := ta }]⟩

theorem utf8A : ListUtf8 listA :=
  ⟨isUtf8_ascii _ (by decide +kernel), .nil, by
    intro r hr
    have : ∀ r ∈ listA.data, (∀ c ∈ r.prefixText, c < 0x80) ∧ (∀ c ∈ r.asn, c < 0x80) ∧ ∀ c ∈ r.ta, c < 0x80 := by decide +kernel
    obtain ⟨a, b, c⟩ := this r hr
    exact ⟨isUtf8_ascii _ a, isUtf8_ascii _ b, isUtf8_ascii _ c⟩⟩

/-- The text of the example. -/
example : listText listA = asc ("{\"metadata\":{\"counts\":2,\"generated\":1600000000,\"valid\":1600003600,\"signature\":\"ab\"},\"roas\":[" ++
    "{\"prefix\":\"10.0.0.0/8\",\"maxLength\":24,\"asn\":\"AS64496\",\"ta\":\"ripe\"}," ++
    "{\"prefix\":\"2001:db8::/32\",\"maxLength\":48,\"asn\":\"AS64497\"}]}").toList := by decide +kernel

example : parse (servedText listA) = some (listJson listA) := C111_reads 3 _ _ (C111_document_exact _ utf8A).2 (by omega)

/-- A list that octorpki makes, with a name beyond ASCII. -/
example : ∃ l, generateROAList false 5 10 [⟨[0xc3, 0xa9], []⟩] = .ok l ∧ IsUtf8 [0xc3, 0xa9] :=
  ⟨_, rfl, IsUtf8.cons 0xe9 [0xc3, 0xa9] [] (Utf8.two 0xe9 (by omega)) .nil⟩

/-- Characters that need care: quotation mark, backslash, newline, angle bracket, U+2028, an octet that is not UTF-8. -/
example : print (.str ([34, 92, 10, 60] ++ [0xe2, 0x80, 0xa8] ++ [0xc3, 0xa9] ++ [0xff])) =
    asc "\"\\\"\\\\\\n\\u003c\\u2028".toList ++ [0xc3, 0xa9] ++ asc "\\ufffd\"".toList := by decide +kernel

end JsonEx

/-- **C111 is violated for names that are not UTF-8.** Two trust anchors whose names differ in an octet that is not UTF-8 have the same
    document: it does not determine the list. -/
theorem C111_violated_names : ∃ l l' : ROAList, l ≠ l' ∧ servedText l = servedText l' ∧ l.data.length = 1 :=
  ⟨JsonEx.named [0xff], JsonEx.named [0xfe], by decide +kernel, by decide +kernel, rfl⟩

/-! ### C89: the file of positions -/

/-- **C89.** encoding/json, as octorpki uses it, has the two properties that the theorems on the kept positions assume of it: positions
    that fit are read back as they were written, and a text that was cut short is refused and leaves no positions. -/
theorem C89_json (pathOf : Bytes → Bytes) : Lawful (Json.codec pathOf) FitJson := lawful_codec pathOf

/-- **C89** (partial: as `C89_position_was_reached_partial`), with encoding/json and no assumption on it. -/
theorem C89_json_position_partial (pathOf : Bytes → Bytes) (s : St) (h : Steps (Json.codec pathOf) (St.boot none) s)
    (hf : AllFit FitJson s.log) (before after : List Ev) (j : Fetch.RrdpJob) (S : Bytes) (n : Int)
    (hs : s.log = before ++ .started j S n :: after) :
    (S = [] ∧ n = 0) ∨ ∃ j', j'.rsync = j.rsync ∧ Ev.reached j' S n ∈ before :=
  C89_position_was_reached_partial _ _ (lawful_codec pathOf) s h hf before after j S n hs

/-- **C89.** In these histories the end of a successful fetch never panics, with encoding/json and no assumption on it. -/
theorem C89_json_no_panic (pathOf : Bytes → Bytes) (s : St) (h : Steps (Json.codec pathOf) (St.boot none) s)
    (hf : AllFit FitJson s.log) (rsync session : Bytes) (serial : Int) : ∃ m, setInfo s.mem rsync session serial = .ok m :=
  C89_no_panic _ _ (lawful_codec pathOf) s h hf rsync session serial

/-- A file of positions, and the positions read from it. -/
example : (Json.codec id).marshal [(asc "rsync://h/m".toList, asc "S1".toList, 7)] =
    asc "{\"rsync://h/m\":{\"rsync\":\"rsync://h/m\",\"path\":\"rsync://h/m\",\"sessionid\":\"S1\",\"serial\":7}}".toList := by decide +kernel

example : (Json.codec id).unmarshal (asc " { \"rsync://h/m\" : {\"Serial\":7,\"sessionid\":\"S\\u0031\", \"x\":[1,{}] } } ".toList) =
    (some [(asc "rsync://h/m".toList, asc "S1".toList, 7)], true) := by decide +kernel

/-- **C89 is violated for modules whose names are not UTF-8.** The position of a module whose name has an octet that is not UTF-8 is
    read back as the position of the module with U+FFFD in its place, which never reached it. -/
theorem C89_violated_not_utf8 : ∃ (m : Info) (k k' : Bytes), k ≠ k' ∧ m.lookup k' = none ∧ m.lookup k = some (asc "S1".toList, 7) ∧
    ((Json.codec id).unmarshal ((Json.codec id).marshal m)).1.bind (·.lookup k') = some (asc "S1".toList, 7) ∧
    ((Json.codec id).unmarshal ((Json.codec id).marshal m)).1.bind (·.lookup k) = none :=
  ⟨[(asc "rsync://h/".toList ++ [0xff], asc "S1".toList, 7)], asc "rsync://h/".toList ++ [0xff], asc "rsync://h/".toList ++ [0xef, 0xbf, 0xbd],
    by decide +kernel, by decide +kernel, by decide +kernel, by decide +kernel, by decide +kernel⟩

/-- **C102 is violated by the file of RRDP positions**, with encoding/json itself: the text `null` is read without an error, and the
    program ends at the first RRDP fetch that succeeds. With the text `{}` it goes on. -/
theorem C102_violated_null_text :
    isOk (Process.after { setupNull with codec := Json.codec id }
      (fun _ => { tickRrdp ⟨tx "rsync://h/r/x.roa", tx "AQ=="⟩ with readable := true, wrote := .nothing }) (.boot bootP.fs (some (tx "{}"))) 3) = true ∧
    Process.after { setupNull with codec := Json.codec id }
      (fun _ => { tickRrdp ⟨tx "rsync://h/r/x.roa", tx "AQ=="⟩ with readable := true, wrote := .nothing }) (.boot bootP.fs (some (tx "null"))) 3 =
      .panic :=
  ⟨by decide +kernel, panic_of_isPanic (by decide +kernel)⟩

end Verif.Props
