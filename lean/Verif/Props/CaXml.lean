import Verif.Lemmas.CaXml
import Verif.Props.Xml
/-
  C114: messages of the publication protocol and of the setup protocol.
-/
set_option autoImplicit false

namespace Verif.Props
open XmlScan XmlSpec CaXml CaXmlSpec

/-- C114: a publication message is accepted exactly if its octets are some text, then an element of the name and name space of messages whose version is a number; and then version, type
    and the octets between its tags are given as they stand there. -/
theorem C114_message (lib : Lib) (bs : Bytes) (m : XMLMessage) : decodeXML lib bs = .ok m ↔
    ∃ as, MsgIs lib ⟨asc "http://www.hactrn.net/uris/rpki/publication-spec/".toList, asc "msg".toList⟩ bs as m.version m.inner ∧ StrIs (asc "type".toList) as m.type := by
  unfold decodeXML
  constructor
  · intro h
    obtain ⟨x, h1, h2⟩ := Go.bind_eq_ok.mp h
    have h2 := Go.ok.inj h2
    subst h2
    exact ⟨x.attrs, (decodeMsg_iff _ _ _ _).mp h1, (strField_iff _ _ _).mp rfl⟩
  · rintro ⟨as, h1, h2⟩
    rw [show decodeMsg lib msgName bs = .ok ⟨m.version, as, m.inner⟩ from (decodeMsg_iff _ _ _ ⟨m.version, as, m.inner⟩).mpr h1, Go.ok_bind, (strField_iff _ _ _).mpr h2]
    rfl

/-- A query for the list of objects, and a reply with two objects. -/
def exQuery : Bytes := asc "<msg xmlns=\"http://www.hactrn.net/uris/rpki/publication-spec/\" version=\"4\" type=\"query\"><list/></msg>".toList

def exReply : Bytes := asc "<?xml version='1.0'?>\n<p:msg type='reply' version='4' xmlns:p='http://www.hactrn.net/uris/rpki/publication-spec/'> <p:list uri='rsync://h/a' hash='01'/>\n<p:list uri='rsync://h/b' hash='02'/> </p:msg>".toList

example : decodeXML noLib exQuery = .ok ⟨4, asc "query".toList, asc "<list/>".toList⟩ := by decide +kernel

example : ∃ m, decodeXML noLib exReply = .ok m ∧ m.type = asc "reply".toList := ⟨⟨4, asc "reply".toList, asc " <p:list uri='rsync://h/a' hash='01'/>\n<p:list uri='rsync://h/b' hash='02'/> ".toList⟩, by decide +kernel, rfl⟩

/-- C114: the octets inside a message are read without an error exactly if they are a sequence of elements, with text and comments around them; and then exactly these elements are given, in
    order, each with its name, its attributes and the octets between its tags. -/
theorem C114_inner (lib : Lib) (i : Bytes) (es : List Elem) : decodeInner lib i = .ok (es, none) ↔ Elems lib es i := decodeInner_iff lib i es

example : decodeInner noLib (asc "<publish tag='t' uri='rsync://h/a'>QQ==</publish><withdraw uri='rsync://h/b' hash='02'/>".toList) =
    .ok ([⟨[], asc "publish".toList, [], [], asc "t".toList, asc "rsync://h/a".toList, asc "QQ==".toList⟩,
      ⟨[], asc "withdraw".toList, asc "02".toList, [], [], asc "rsync://h/b".toList, []⟩], none) := by decide +kernel

/-- C114: reading what is inside always ends; also with an error, every element given stands in the text, in order from its beginning, and an error is given exactly if the text is no sequence of
    elements. -/
theorem C114_inner_error (lib : Lib) (i : Bytes) : ∃ es o p q, decodeInner lib i = .ok (es, o) ∧ i = p ++ q ∧ Elems lib es p ∧ (o = none ↔ ∃ es', Elems lib es' i) := by
  obtain ⟨es, o, p, q, h1, h2, h3⟩ := decodeInner_total lib i
  refine ⟨es, o, p, q, h1, h2, h3, ?_⟩
  constructor
  · rintro rfl
    exact ⟨es, (decodeInner_iff _ _ _).mp h1⟩
  · rintro ⟨es', h⟩
    rw [(decodeInner_iff _ _ _).mpr h] at h1
    exact (Prod.mk.inj (Go.ok.inj h1)).2.symm

/-- The first element is given though the second one is not closed. -/
example : decodeInner noLib (asc "<list uri='a'/><list>".toList) = .ok ([⟨[], asc "list".toList, [], [], [], asc "a".toList, []⟩], some syntaxErr) := by decide +kernel

/-- C114: a publication message with its elements. -/
theorem C114_full (lib : Lib) (bs : Bytes) (m : XMLMessage) (es : List Elem) : decodeXMLFull lib bs = .ok (m, es, none) ↔
    (∃ as, MsgIs lib ⟨asc "http://www.hactrn.net/uris/rpki/publication-spec/".toList, asc "msg".toList⟩ bs as m.version m.inner ∧ StrIs (asc "type".toList) as m.type) ∧ Elems lib es m.inner := by
  rw [← C114_message, ← decodeInner_iff]
  unfold decodeXMLFull
  constructor
  · intro h
    obtain ⟨x, h1, h2⟩ := Go.bind_eq_ok.mp h
    obtain ⟨y, h3, h4⟩ := Go.bind_eq_ok.mp h2
    have h4 := Prod.mk.inj (Go.ok.inj h4)
    obtain ⟨rfl, rfl⟩ := h4
    exact ⟨h1, h3⟩
  · rintro ⟨h1, h2⟩
    rw [h1, Go.ok_bind, h2]
    rfl

example : ∃ m es, decodeXMLFull noLib exReply = .ok (m, es, none) ∧ es.map (·.uri) = [asc "rsync://h/a".toList, asc "rsync://h/b".toList] :=
  ⟨⟨4, asc "reply".toList, asc " <p:list uri='rsync://h/a' hash='01'/>\n<p:list uri='rsync://h/b' hash='02'/> ".toList⟩,
    [⟨asc "p".toList, asc "list".toList, asc "01".toList, [], [], asc "rsync://h/a".toList, []⟩, ⟨asc "p".toList, asc "list".toList, asc "02".toList, [], [], asc "rsync://h/b".toList, []⟩],
    by decide +kernel, rfl⟩

/-- C114: a request of a child for the setup of its parent. -/
theorem C114_child_request (lib : Lib) (bs : Bytes) (m : ChildRequest) (es : List Elem) : decodeXMLCRFull lib bs = .ok (m, es, none) ↔
    (∃ as, MsgIs lib ⟨asc "http://www.hactrn.net/uris/rpki/rpki-setup/".toList, asc "child_request".toList⟩ bs as m.version m.inner ∧ StrIs (asc "child_handle".toList) as m.childHandle ∧
      StrIs (asc "tag".toList) as m.tag) ∧ Elems lib es m.inner := by
  rw [← decodeInner_iff]
  unfold decodeXMLCRFull
  constructor
  · intro h
    obtain ⟨x, h1, h2⟩ := Go.bind_eq_ok.mp h
    obtain ⟨y, h3, h4⟩ := Go.bind_eq_ok.mp h2
    have h4 := Prod.mk.inj (Go.ok.inj h4)
    obtain ⟨rfl, rfl⟩ := h4
    exact ⟨⟨x.attrs, (decodeMsg_iff _ _ _ _).mp h1, (strField_iff _ _ _).mp rfl, (strField_iff _ _ _).mp rfl⟩, h3⟩
  · rintro ⟨⟨as, h1, h2, h3⟩, h4⟩
    rw [show decodeMsg lib childRequestName bs = .ok ⟨m.version, as, m.inner⟩ from (decodeMsg_iff _ _ _ ⟨m.version, as, m.inner⟩).mpr h1, Go.ok_bind, h4, Go.ok_bind, (strField_iff _ _ _).mpr h2, (strField_iff _ _ _).mpr h3]
    rfl

example : decodeXMLCRFull noLib (asc "<child_request xmlns=\"http://www.hactrn.net/uris/rpki/rpki-setup/\" version=\"1\" child_handle=\"Bob\"><child_bpki_ta>QQ==</child_bpki_ta></child_request>".toList) =
    .ok (⟨1, asc "Bob".toList, [], asc "<child_bpki_ta>QQ==</child_bpki_ta>".toList⟩, [⟨[], asc "child_bpki_ta".toList, [], [], [], [], asc "QQ==".toList⟩], none) := by decide +kernel

/-- C114: a response of a parent. -/
theorem C114_parent_response (lib : Lib) (bs : Bytes) (m : ParentResponse) (es : List Elem) : decodeXMLPRFull lib bs = .ok (m, es, none) ↔
    (∃ as, MsgIs lib ⟨asc "http://www.hactrn.net/uris/rpki/rpki-setup/".toList, asc "parent_response".toList⟩ bs as m.version m.inner ∧ StrIs (asc "tag".toList) as m.tag ∧
      StrIs (asc "service_uri".toList) as m.serviceURI ∧ StrIs (asc "child_handle".toList) as m.childHandle ∧ StrIs (asc "parent_handle".toList) as m.parentHandle) ∧ Elems lib es m.inner := by
  rw [← decodeInner_iff]
  unfold decodeXMLPRFull
  constructor
  · intro h
    obtain ⟨x, h1, h2⟩ := Go.bind_eq_ok.mp h
    obtain ⟨y, h3, h4⟩ := Go.bind_eq_ok.mp h2
    have h4 := Prod.mk.inj (Go.ok.inj h4)
    obtain ⟨rfl, rfl⟩ := h4
    exact ⟨⟨x.attrs, (decodeMsg_iff _ _ _ _).mp h1, (strField_iff _ _ _).mp rfl, (strField_iff _ _ _).mp rfl, (strField_iff _ _ _).mp rfl, (strField_iff _ _ _).mp rfl⟩, h3⟩
  · rintro ⟨⟨as, h1, h2, h3, h5, h6⟩, h4⟩
    rw [show decodeMsg lib parentResponseName bs = .ok ⟨m.version, as, m.inner⟩ from (decodeMsg_iff _ _ _ ⟨m.version, as, m.inner⟩).mpr h1, Go.ok_bind, h4, Go.ok_bind, (strField_iff _ _ _).mpr h2,
      (strField_iff _ _ _).mpr h3, (strField_iff _ _ _).mpr h5, (strField_iff _ _ _).mpr h6]
    rfl

example : decodeXMLPRFull noLib (asc "<parent_response xmlns=\"http://www.hactrn.net/uris/rpki/rpki-setup/\" version=\"1\" service_uri=\"http://a/\" child_handle=\"Bob\" parent_handle=\"Alice\"/>".toList) =
    .ok (⟨1, [], asc "http://a/".toList, asc "Bob".toList, asc "Alice".toList, []⟩, [], none) := by decide +kernel

/-- C114: no octets make a decoder crash or run for ever. -/
theorem C114_ends (lib : Lib) (bs : Bytes) :
    (decodeXML lib bs ≠ .panic ∧ decodeXML lib bs ≠ .diverge) ∧ (decodeXMLFull lib bs ≠ .panic ∧ decodeXMLFull lib bs ≠ .diverge) ∧
    (decodeXMLCRFull lib bs ≠ .panic ∧ decodeXMLCRFull lib bs ≠ .diverge) ∧ (decodeXMLPRFull lib bs ≠ .panic ∧ decodeXMLPRFull lib bs ≠ .diverge) ∧
    (decodeInner lib bs ≠ .panic ∧ decodeInner lib bs ≠ .diverge) := by
  have hi : ∀ i, decodeInner lib i ≠ .panic ∧ decodeInner lib i ≠ .diverge := by
    intro i
    obtain ⟨es, o, p, q, h, -⟩ := decodeInner_total lib i
    rw [h]
    exact ⟨nofun, nofun⟩
  have hx : decodeXML lib bs ≠ .panic ∧ decodeXML lib bs ≠ .diverge := bind_runs (decodeMsg_safe lib _ bs) fun x => ⟨nofun, nofun⟩
  exact ⟨hx, bind_runs hx fun m => bind_runs (hi m.inner) fun x => ⟨nofun, nofun⟩,
    bind_runs (decodeMsg_safe lib _ bs) fun m => bind_runs (hi m.inner) fun x => ⟨nofun, nofun⟩,
    bind_runs (decodeMsg_safe lib _ bs) fun m => bind_runs (hi m.inner) fun x => ⟨nofun, nofun⟩, hi bs⟩

/-- C114, messages that break off: a text that ends with the element of a message, cut anywhere, is accepted by no decoder. -/
theorem C114_cut (lib : Lib) (b w : Bytes) (hb : Between lib b) (qn : QName) (as : List (QName × Bytes)) (i : Bytes) (hw : Tagged lib qn as i w) (p q : Bytes) (hq : q ≠ []) (e : b ++ w = p ++ q) :
    (∃ m, decodeXML lib p = .err m) ∧ (∃ m, decodeXMLFull lib p = .err m) ∧ (∃ m, decodeXMLCRFull lib p = .err m) ∧ ∃ m, decodeXMLPRFull lib p = .err m := by
  have no : ∀ nm, ∃ m, decodeMsg lib nm p = .err m := by
    intro nm
    cases h : decodeMsg lib nm p with
    | err m => exact ⟨m, rfl⟩
    | panic => exact absurd h (decodeMsg_safe lib nm p).1
    | diverge => exact absurd h (decodeMsg_safe lib nm p).2
    | ok x =>
      obtain ⟨b', w', r', qn', rfl, hb', hw', -⟩ := (decodeMsg_iff _ _ _ _).mp h
      obtain ⟨s, h1, h2⟩ := (element_iff lib (b' ++ w' ++ r' ++ q) qn' x.attrs x.inner (r' ++ q)).mpr ⟨b', w', by simp, hb', hw'⟩
      obtain ⟨s', h3, h4⟩ := (element_iff lib (b' ++ w' ++ r' ++ q) qn as i []).mpr ⟨b, w, by rw [← e]; simp, hb, hw⟩
      rw [h1] at h3
      have h3 := Go.ok.inj h3
      simp only [Prod.mk.injEq] at h3
      obtain ⟨-, -, rfl⟩ := h3
      rw [h2] at h4
      have h4 := (Prod.mk.inj (Go.ok.inj h4)).2
      exact absurd (List.append_eq_nil_iff.mp h4).2 hq
  obtain ⟨m1, h1⟩ := no msgName
  obtain ⟨m2, h2⟩ := no childRequestName
  obtain ⟨m3, h3⟩ := no parentResponseName
  have hx : decodeXML lib p = .err m1 := by unfold decodeXML; rw [h1]; rfl
  exact ⟨⟨m1, hx⟩, ⟨m1, by unfold decodeXMLFull; rw [hx]; rfl⟩, ⟨m2, by unfold decodeXMLCRFull; rw [h2]; rfl⟩, ⟨m3, by unfold decodeXMLPRFull; rw [h3]; rfl⟩⟩

/-- The query without its last octets. -/
example : ∃ m, decodeXML noLib (exQuery.take 99) = .err m := by
  obtain ⟨s, h⟩ : ∃ s, findStart noLib (exQuery.length + 1) exQuery = .ok (⟨[], asc "msg".toList⟩, [(⟨[], asc "xmlns".toList⟩, nsPublication), (⟨[], asc "version".toList⟩, asc "4".toList),
      (⟨[], asc "type".toList⟩, asc "query".toList)], s) ∧ inner noLib s = .ok (asc "<list/>".toList, []) :=
    ⟨⟨none, [⟨[], asc "msg".toList⟩], asc "<list/></msg>".toList⟩, by decide +kernel, by decide +kernel⟩
  obtain ⟨b, x, e, hb, ht⟩ := (element_iff _ _ _ _ _ _).mp ⟨s, h⟩
  exact (C114_cut noLib b x hb _ _ _ ht (exQuery.take 99) (exQuery.drop 99) (by decide +kernel) (by rw [List.take_append_drop, e, List.append_nil])).1

/-- C114: no text is a message of two kinds. -/
theorem C114_one_kind (lib : Lib) (bs : Bytes) (x : XMLMessage × List Elem × Option String) (h : decodeXMLFull lib bs = .ok x) :
    (∃ m, decodeXMLCRFull lib bs = .err m) ∧ ∃ m, decodeXMLPRFull lib bs = .err m := by
  obtain ⟨m, h1, -⟩ := Go.bind_eq_ok.mp h
  obtain ⟨y, h2, -⟩ := Go.bind_eq_ok.mp h1
  have no : ∀ nm, nm.loc ≠ msgName.loc → ∃ m, decodeMsg lib nm bs = .err m := by
    intro nm hne
    cases h : decodeMsg lib nm bs with
    | err m => exact ⟨m, rfl⟩
    | panic => exact absurd h (decodeMsg_safe lib nm bs).1
    | diverge => exact absurd h (decodeMsg_safe lib nm bs).2
    | ok z =>
      exfalso
      obtain ⟨b1, w1, r1, q1, e1, hb1, hw1, hl1, -⟩ := (decodeMsg_iff _ _ _ _).mp h
      obtain ⟨b2, w2, r2, q2, e2, hb2, hw2, hl2, -⟩ := (decodeMsg_iff _ _ _ _).mp h2
      obtain ⟨s, k1, -⟩ := (element_iff lib bs _ _ _ _).mpr ⟨b1, w1, e1, hb1, hw1⟩
      obtain ⟨s', k2, -⟩ := (element_iff lib bs _ _ _ _).mpr ⟨b2, w2, e2, hb2, hw2⟩
      rw [k1] at k2
      have k2 := (Prod.mk.inj (Go.ok.inj k2)).1
      rw [← hl1, ← hl2, k2] at hne
      exact hne rfl
  obtain ⟨m2, h5⟩ := no childRequestName (by decide +kernel)
  obtain ⟨m3, h6⟩ := no parentResponseName (by decide +kernel)
  exact ⟨⟨m2, by unfold decodeXMLCRFull; rw [h5]; rfl⟩, ⟨m3, by unfold decodeXMLPRFull; rw [h6]; rfl⟩⟩

example : ∃ x, decodeXMLFull noLib exQuery = .ok x := ⟨(⟨4, asc "query".toList, asc "<list/>".toList⟩, [⟨[], asc "list".toList, [], [], [], [], []⟩], none), by decide +kernel⟩

/-- C114: what the query for the list of objects holds is one element `list`, whatever the message that carries it. -/
theorem C114_list (lib : Lib) : newXMLList.version = 4 ∧ newXMLList.type = asc "query".toList ∧ decodeInner lib newXMLList.inner = .ok ([⟨[], asc "list".toList, [], [], [], [], []⟩], none) :=
  ⟨rfl, rfl, by with_unfolding_all rfl⟩

/-- C114 violated: a text may hold more than the message. What stands behind it is not looked at, be it a second message or no XML at all. -/
theorem C114_violated_behind (lib : Lib) (bs r : Bytes) (m : XMLMessage) (h : decodeXML lib bs = .ok m) : decodeXML lib (bs ++ r) = .ok m := by
  obtain ⟨as, ⟨b, w, r', qn, rfl, hb, hw, h1, h2, h3⟩, ht⟩ := (C114_message _ _ _).mp h
  exact (C114_message _ _ _).mpr ⟨as, ⟨b, w, r' ++ r, qn, by simp, hb, hw, h1, h2, h3⟩, ht⟩

example : decodeXML noLib (exQuery ++ asc "<msg></wrong>".toList) = .ok ⟨4, asc "query".toList, asc "<list/>".toList⟩ := C114_violated_behind _ _ _ _ (by decide +kernel)

/-- C114 violated: the elements inside a message lose its name space. In both texts the element `list` is in the name space of the message; it is given without one, or in one that is its prefix. -/
theorem C114_violated_space : (∃ m es, decodeXMLFull noLib exQuery = .ok (m, es, none) ∧ es.map (·.space) = [[]]) ∧
    ∃ m es, decodeXMLFull noLib exReply = .ok (m, es, none) ∧ es.map (·.space) = [asc "p".toList, asc "p".toList] :=
  ⟨⟨⟨4, asc "query".toList, asc "<list/>".toList⟩, [⟨[], asc "list".toList, [], [], [], [], []⟩], by decide +kernel, rfl⟩,
    ⟨⟨4, asc "reply".toList, asc " <p:list uri='rsync://h/a' hash='01'/>\n<p:list uri='rsync://h/b' hash='02'/> ".toList⟩,
    [⟨asc "p".toList, asc "list".toList, asc "01".toList, [], [], asc "rsync://h/a".toList, []⟩, ⟨asc "p".toList, asc "list".toList, asc "02".toList, [], [], asc "rsync://h/b".toList, []⟩],
    by decide +kernel, rfl⟩⟩

end Verif.Props
