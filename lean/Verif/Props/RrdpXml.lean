import Verif.Lemmas.RrdpXml
import Mathlib.Data.List.Forall2
/-
  C106: an RRDP document is read completely and exactly, or rejected.
-/
set_option autoImplicit false

namespace Verif.Props
open Rrdp RrdpXml RrdpXmlSpec

/-- C106: of a snapshot or a delta exactly the objects published and withdrawn are read, in order, each with its URI and its text; comments, white space, other elements and what stands around
    the element make no difference. -/
theorem C106_node (pre post : List Xml) (hpre : Around pre) (hpost : Around post) (name : Bytes) (hname : name = asc "snapshot".toList ∨ name = asc "delta".toList)
    (as : List (Bytes × Bytes)) (hp : Proper as) (n : Int) (hs : SerialIs as n) (cs : List Xml) (hc : ∀ n as inside, Xml.elem n as inside ∈ cs → Proper as) :
    parseNode (Xml.toksL (pre ++ [.elem name as cs] ++ post)) = .ok (items (asc "publish".toList) cs, items (asc "withdraw".toList) cs) := by
  have hnum : Numbered as := by
    obtain ⟨b, hb, hd⟩ := hs
    intro b' hb'
    have : b = b' := by rw [show nSerial = asc "serial".toList from rfl, hb] at hb'; exact Option.some.inj hb'
    exact ⟨n, this ▸ hd⟩
  unfold parseNode
  simp only [toksL_append, Xml.toksL, Xml.toks, List.append_nil]
  generalize hF : (Xml.toksL pre ++ Tok.start name as :: (Xml.toksL cs ++ [Tok.stop name]) ++ Xml.toksL post).length + 1 = F
  obtain ⟨G, hG, hl1, hl2⟩ : ∃ G, F = (G + 1) + (Xml.toksL pre).length ∧ cs.length < G + 1 ∧ G = 1 + (Xml.toksL post).length + ((Xml.toksL cs).length + 1) := by
    have := length_toksL cs
    refine ⟨1 + (Xml.toksL post).length + ((Xml.toksL cs).length + 1), ?_, by omega, rfl⟩
    rw [← hF]; simp; omega
  rw [hG, List.append_assoc, loop_mute _ _ _ _ _ _ (around_mute hpre)]
  have hb := nodeBody_pieces cs (G + 1) ([], []) name (Xml.toksL post) hl1 hc
  have e : (Tok.start name as :: (Xml.toksL cs ++ [Tok.stop name])) ++ Xml.toksL post = Tok.start name as :: (Xml.toksL cs ++ Tok.stop name :: Xml.toksL post) := by simp
  rw [e]
  obtain ⟨d, s, h⟩ := (loop_enter name hname.symm as hp hnum G _).2 _ _ hb
  rw [h]
  have h2 := loop_mute (Xml.toksL post) (1 + ((Xml.toksL cs).length + 1)) d s ([] ++ items nPublish cs, [] ++ items nWithdraw cs) [] (around_mute hpost)
  rw [List.append_nil] at h2
  have e3 : G = 1 + ((Xml.toksL cs).length + 1) + (Xml.toksL post).length := by omega
  rw [e3, h2, Nat.add_comm 1]
  rfl

/-- A number of the examples. -/
theorem serial_five : SerialIs [(asc "session_id".toList, asc "s1".toList), (asc "serial".toList, asc "5".toList)] 5 :=
  ⟨asc "5".toList, by decide, 5, rfl, by decide, by decide⟩

/-- The content of the examples: white space, an object with its text in two parts and an element of another name in it, a withdrawal, an element of another name. -/
def exInside : List Xml :=
  [.text (asc " ".toList), .elem (asc "publish".toList) [(asc "uri".toList, asc "rsync://a/x.cer".toList)] [.text (asc "AA".toList), .elem (asc "b".toList) [] [.text (asc "zz".toList)], .text (asc "==".toList)],
   .misc, .elem (asc "withdraw".toList) [(asc "uri".toList, asc "rsync://a/y.roa".toList), (asc "hash".toList, asc "00".toList)] [], .elem (asc "other".toList) [] [.elem (asc "publish".toList) [] []]]

theorem exInside_proper : ∀ n as inside, Xml.elem n as inside ∈ exInside → Proper as := by
  intro n as inside h
  simp only [exInside, List.mem_cons, List.not_mem_nil, or_false, reduceCtorEq, false_or, Xml.elem.injEq] at h
  rcases h with ⟨-, rfl, -⟩ | ⟨-, rfl, -⟩ | ⟨-, rfl, -⟩ <;> (unfold Proper; decide)

example : items (asc "publish".toList) exInside = [⟨asc "rsync://a/x.cer".toList, asc "AA==".toList⟩] ∧ items (asc "withdraw".toList) exInside = [⟨asc "rsync://a/y.roa".toList, []⟩] := by decide

example := C106_node [.misc, .text (asc " ".toList)] [.text (asc " ".toList)] (by simp [Around]) (by simp [Around]) _ (.inl rfl) _ (by unfold Proper; decide) 5 serial_five exInside exInside_proper

/-- C106, documents that are cut off: if the element has begun, the document is rejected; if not, it is taken for one without objects (see the violation below). -/
theorem C106_cut (pre : List Xml) (hpre : Around pre) (name : Bytes) (hname : name = asc "snapshot".toList ∨ name = asc "delta".toList)
    (as : List (Bytes × Bytes)) (hp : Proper as) (n : Int) (hs : SerialIs as n) (cs : List Xml) (hc : ∀ n as inside, Xml.elem n as inside ∈ cs → Proper as)
    (p q : List Tok) (hq : q ≠ []) (h : Xml.toksL (pre ++ [.elem name as cs]) = p ++ q) :
    (∃ m, parseNode p = .err m) ∨ (parseNode p = .ok ([], []) ∧ p <+: Xml.toksL pre) := by
  have hnum : Numbered as := by
    obtain ⟨b, hb, hd⟩ := hs
    intro b' hb'
    have : b = b' := by rw [show nSerial = asc "serial".toList from rfl, hb] at hb'; exact Option.some.inj hb'
    exact ⟨n, this ▸ hd⟩
  simp only [toksL_append, Xml.toksL, Xml.toks, List.append_nil] at h
  rcases List.append_eq_append_iff.mp h with ⟨a, hpa, hb⟩ | ⟨c, hb, hc2⟩
  · -- the cut is after the beginning
    cases a with
    | nil =>
      right
      rw [List.append_nil] at hpa
      rw [hpa]
      exact ⟨parseNode_mute _ (around_mute hpre), List.prefix_refl _⟩
    | cons t a =>
      left
      rw [List.cons_append] at hb
      obtain ⟨rfl, hb2⟩ := List.cons.inj hb
      rw [hpa]
      unfold parseNode
      have e : (Xml.toksL pre ++ Tok.start name as :: a).length + 1 = (a.length + 1 + 1) + (Xml.toksL pre).length := by simp; omega
      rw [e, loop_mute _ _ _ _ _ _ (around_mute hpre)]
      rcases nodeBody_result (a.length + 1 + 1) a ([], []) (by omega) with ⟨m, hm⟩ | ⟨st, r, hr, -⟩
      · exact ⟨m, (loop_enter name hname.symm as hp hnum _ a).1 m hm⟩
      · exfalso
        have h1 := nodeBody_append _ a q _ _ _ (a.length + 1 + 1 + cs.length) (by omega) hr
        rw [← hb2] at h1
        have h2 := nodeBody_pieces cs (a.length + 1 + 1 + cs.length) ([], []) name [] (by omega) hc
        rw [h1] at h2
        simp only [Go.ok.injEq, Prod.mk.injEq, List.append_eq_nil_iff] at h2
        exact hq h2.2.2
  · right
    have hmute : Mute p := fun n as hm => around_mute hpre n as (by rw [hb]; exact List.mem_append_left _ hm)
    exact ⟨parseNode_mute _ hmute, ⟨c, hb.symm⟩⟩

example : ∃ p q, q ≠ [] ∧ p ≠ [] ∧ Xml.toksL ([.misc] ++ [.elem (asc "delta".toList) [(asc "session_id".toList, asc "s1".toList), (asc "serial".toList, asc "5".toList)] exInside]) = p ++ q ∧ ¬ p <+: Xml.toksL [.misc] :=
  ⟨_, _, by decide, by decide, (List.take_append_drop 4 _).symm, by decide⟩

/-- C106: of a notification the session, the serial, the place of the snapshot and those of all deltas are read, in order. -/
theorem C106_root (pre post : List Xml) (hpre : Around pre) (hpost : Around post) (as : List (Bytes × Bytes)) (hp : Proper as) (n : Int) (hs : SerialIs as n) (cs : List Xml)
    (snap : List (Bytes × Bytes)) (hsnap : attrsOf (asc "snapshot".toList) cs = [snap]) (hsp : Proper snap) (hss : snap.lookup (asc "serial".toList) = none)
    (hd : ∀ as ∈ attrsOf (asc "delta".toList) cs, Proper as ∧ ∃ k, SerialIs as k) :
    ∃ ds, parseRoot (Xml.toksL (pre ++ [.elem (asc "notification".toList) as cs] ++ post)) =
        .ok ⟨attr (asc "session_id".toList) as, n, ⟨0, attr (asc "uri".toList) snap, attr (asc "hash".toList) snap⟩, ds⟩ ∧
      List.Forall₂ DeltaIs (attrsOf (asc "delta".toList) cs) ds := by
  have num : ∀ as k, SerialIs as k → Numbered as := by
    rintro as k ⟨b, hb, hd⟩ b' hb'
    have : b = b' := by rw [show nSerial = asc "serial".toList from rfl, hb] at hb'; exact Option.some.inj hb'
    exact ⟨k, this ▸ hd⟩
  have mem : ∀ (k : Bytes) (a : List (Bytes × Bytes)) (inside : List Xml), Xml.elem k a inside ∈ cs → a ∈ attrsOf k cs := by
    intro k a inside h
    exact List.mem_filterMap.mpr ⟨_, h, by simp⟩
  have hr : ReadableIn cs := by
    rintro k a inside h (rfl | rfl)
    · have := mem _ _ _ h
      rw [show nSnapshot = asc "snapshot".toList from rfl, hsnap, List.mem_singleton] at this
      subst this
      exact ⟨hsp, fun b hb => by rw [show nSerial = asc "serial".toList from rfl, hss] at hb; cases hb⟩
    · obtain ⟨h1, k, h2⟩ := hd a (mem _ _ _ h)
      exact ⟨h1, num a k h2⟩
  obtain ⟨a, ha, ha1, ha2, -⟩ := rootAttrs_eq as ⟨[], 0⟩ hp (num as n hs)
  have hser : a.serial = n := by
    obtain ⟨b, hb, hdec⟩ := hs
    have h1 := ha2 b hb
    rw [parseInt64_decimal hdec] at h1
    exact (Option.some.inj h1).symm
  unfold parseRoot
  simp only [toksL_append, Xml.toksL, Xml.toks, List.append_nil]
  generalize hF : (Xml.toksL pre ++ Tok.start (asc "notification".toList) as :: (Xml.toksL cs ++ [Tok.stop (asc "notification".toList)]) ++ Xml.toksL post).length + 1 = F
  obtain ⟨G, hG, hl1, hl2⟩ : ∃ G, F = (G + 1) + (Xml.toksL pre).length ∧ cs.length < G + 1 ∧ G = 1 + ((Xml.toksL cs).length + 1) + (Xml.toksL post).length := by
    have := length_toksL cs
    refine ⟨1 + ((Xml.toksL cs).length + 1) + (Xml.toksL post).length, ?_, by omega, rfl⟩
    rw [← hF]; simp; omega
  rw [hG, List.append_assoc, rootLoop_mute _ _ _ _ (around_muteRoot hpre)]
  have e : (Tok.start (asc "notification".toList) as :: (Xml.toksL cs ++ [Tok.stop (asc "notification".toList)])) ++ Xml.toksL post =
      Tok.start nNotification as :: (Xml.toksL cs ++ Tok.stop nNotification :: Xml.toksL post) := by simp [nNotification]
  rw [e]
  obtain ⟨n1, ds, g1, g2, g3, g4, g5, -, g7⟩ := rootBody_pieces cs (G + 1) ⟨a.session, a.serial, ⟨0, [], []⟩, []⟩ nNotification (Xml.toksL post) hl1 hr
  have h2 := rootLoop_mute (Xml.toksL post) (1 + ((Xml.toksL cs).length + 1)) n1 [] (around_muteRoot hpost)
  rw [List.append_nil] at h2
  refine ⟨ds, ?_, ?_⟩
  · simp only [parseRootLoop, if_pos, ha, Go.ok_bind, g1]
    rw [hl2, h2, Nat.add_comm 1]
    have hsn := g7 snap hsnap
    obtain ⟨e1, he1, u1, u2, -, u4⟩ := elAttrs_eq snap ⟨0, [], []⟩ hsp (fun b hb => by rw [show nSerial = asc "serial".toList from rfl, hss] at hb; cases hb)
    rw [he1] at hsn
    have hsn := Go.ok.inj hsn
    show Go.ok n1 = _
    congr 1
    cases n1 with
    | mk se sr sn dl =>
      simp only at g2 g3 g4 hsn
      rw [g2, g3, g4, ← hsn, ha1, hser]
      cases e1 with
      | mk x y z =>
        simp only at u1 u2 u4
        rw [u1, u2, u4 hss]
        rfl
  · refine List.Forall₂.imp ?_ ((List.forall₂_and_left (p := fun as => Proper as ∧ ∃ k, SerialIs as k) _ _).mpr ⟨fun a ha => hd a ha, g5⟩)
    rintro as' e' ⟨⟨hp', k, hk⟩, he⟩
    obtain ⟨e1, he1, u1, u2, u3, -⟩ := elAttrs_eq as' ⟨0, [], []⟩ hp' (num as' k hk)
    rw [he1] at he
    obtain rfl := Go.ok.inj he
    obtain ⟨b, hb, hdec⟩ := hk
    have := u3 b hb
    rw [parseInt64_decimal hdec] at this
    obtain rfl := Option.some.inj this
    exact ⟨hp', ⟨b, hb, hdec⟩, u1, u2⟩

example : ∃ ds, parseRoot (Xml.toksL ([] ++ [.elem (asc "notification".toList) [(asc "session_id".toList, asc "s1".toList), (asc "serial".toList, asc "5".toList)]
      [.elem (asc "snapshot".toList) [(asc "uri".toList, asc "https://a/s".toList)] [], .text (asc " ".toList),
       .elem (asc "delta".toList) [(asc "session_id".toList, asc "s1".toList), (asc "serial".toList, asc "5".toList)] []]] ++ [])) = .ok ⟨asc "s1".toList, 5, ⟨0, asc "https://a/s".toList, []⟩, ds⟩ ∧ ds.length = 1 := by
  obtain ⟨ds, h1, h2⟩ := C106_root [] [] (by simp [Around]) (by simp [Around]) _ (by unfold Proper; decide) 5 serial_five
    [.elem (asc "snapshot".toList) [(asc "uri".toList, asc "https://a/s".toList)] [], .text (asc " ".toList),
      .elem (asc "delta".toList) [(asc "session_id".toList, asc "s1".toList), (asc "serial".toList, asc "5".toList)] []]
    [(asc "uri".toList, asc "https://a/s".toList)] (by decide) (by unfold Proper; decide) (by decide)
    (by
      intro as h
      have h' : as ∈ [[(asc "session_id".toList, asc "s1".toList), (asc "serial".toList, asc "5".toList)]] := h
      rw [List.mem_singleton] at h'
      subst h'
      exact ⟨by unfold Proper; decide, 5, serial_five⟩)
  exact ⟨ds, h1, h2.length_eq.symm⟩

/-- C106, notifications that are cut off: rejected if the element has begun; if not, taken for one that says nothing (which does no harm, see `C106_root_nothing`). -/
theorem C106_root_cut (pre : List Xml) (hpre : Around pre) (as : List (Bytes × Bytes)) (hp : Proper as) (n : Int) (hs : SerialIs as n) (cs : List Xml)
    (hd : ∀ k as inside, Xml.elem k as inside ∈ cs → k = asc "snapshot".toList ∨ k = asc "delta".toList → Proper as ∧ (as.lookup (asc "serial".toList) = none ∨ ∃ k, SerialIs as k))
    (p q : List Tok) (hq : q ≠ []) (h : Xml.toksL (pre ++ [.elem (asc "notification".toList) as cs]) = p ++ q) :
    (∃ m, parseRoot p = .err m) ∨ (parseRoot p = .ok ⟨[], 0, ⟨0, [], []⟩, []⟩ ∧ p <+: Xml.toksL pre) := by
  have num : ∀ as k, SerialIs as k → Numbered as := by
    rintro as k ⟨b, hb, hd⟩ b' hb'
    have : b = b' := by rw [show nSerial = asc "serial".toList from rfl, hb] at hb'; exact Option.some.inj hb'
    exact ⟨k, this ▸ hd⟩
  have hr : ReadableIn cs := by
    intro k a inside hm hk
    obtain ⟨h1, h2⟩ := hd k a inside hm hk
    refine ⟨h1, ?_⟩
    rcases h2 with h2 | ⟨k, h2⟩
    · intro b hb
      rw [show nSerial = asc "serial".toList from rfl, h2] at hb; cases hb
    · exact num a k h2
  obtain ⟨a0, ha, -⟩ := rootAttrs_eq as ⟨[], 0⟩ hp (num as n hs)
  have hmute : ∀ p : List Tok, MuteRoot p → parseRoot p = .ok ⟨[], 0, ⟨0, [], []⟩, []⟩ := by
    intro p hm
    have := rootLoop_mute p 1 ⟨[], 0, ⟨0, [], []⟩, []⟩ [] hm
    rw [List.append_nil] at this
    unfold parseRoot
    rw [Nat.add_comm, this]; rfl
  simp only [toksL_append, Xml.toksL, Xml.toks, List.append_nil] at h
  rcases List.append_eq_append_iff.mp h with ⟨a, hpa, hb⟩ | ⟨c, hb, -⟩
  · cases a with
    | nil =>
      right
      rw [List.append_nil] at hpa
      rw [hpa]
      exact ⟨hmute _ (around_muteRoot hpre), List.prefix_refl _⟩
    | cons t a =>
      left
      rw [List.cons_append] at hb
      obtain ⟨rfl, hb2⟩ := List.cons.inj hb
      rw [hpa]
      unfold parseRoot
      have e : (Xml.toksL pre ++ Tok.start (asc "notification".toList) as :: a).length + 1 = (a.length + 1 + 1) + (Xml.toksL pre).length := by simp; omega
      rw [e, rootLoop_mute _ _ _ _ (around_muteRoot hpre)]
      have hen : parseRootLoop (a.length + 1 + 1) ⟨[], 0, ⟨0, [], []⟩, []⟩ (Tok.start (asc "notification".toList) as :: a) =
          (rootBody (a.length + 1 + 1) ⟨a0.session, a0.serial, ⟨0, [], []⟩, []⟩ a).bind fun x => parseRootLoop (a.length + 1) x.1 x.2 := by
        rw [parseRootLoop, if_pos (show asc "notification".toList = nNotification from rfl)]
        simp only [ha, Go.ok_bind]
        rfl
      rcases rootBody_result (a.length + 1 + 1) a ⟨a0.session, a0.serial, ⟨0, [], []⟩, []⟩ (by omega) with ⟨m, hm⟩ | ⟨st, r, hr2, -⟩
      · exact ⟨m, by rw [hen, hm]; rfl⟩
      · exfalso
        have h1 := rootBody_append _ a q _ _ _ (a.length + 1 + 1 + cs.length) (by omega) hr2
        rw [← hb2] at h1
        obtain ⟨n1, ds, h2, -⟩ := rootBody_pieces cs (a.length + 1 + 1 + cs.length) ⟨a0.session, a0.serial, ⟨0, [], []⟩, []⟩ (asc "notification".toList) [] (by omega) hr
        rw [h1] at h2
        simp only [Go.ok.injEq, Prod.mk.injEq, List.append_eq_nil_iff] at h2
        exact hq h2.2.2
  · right
    have hm : MuteRoot p := fun n as hm => around_muteRoot hpre n as (by rw [hb]; exact List.mem_append_left _ hm)
    exact ⟨hmute _ hm, ⟨c, hb.symm⟩⟩

example := C106_root_cut [.misc] (by simp [Around]) _ (by unfold Proper; decide) 5 serial_five [] (by simp) [.misc, .start _ _] [.stop _] (by simp) rfl

/-- C106: which texts are taken for a serial, and for which number: digits with or without a sign, white space around them, within 64 bits; and no text at all, for zero. -/
theorem C106_number (b : Bytes) (n : Int) : parseInt64 b = some n ↔ (b = [] ∧ n = 0) ∨ NumberText b n := parseInt64_iff b n

example : NumberText (asc " +12 ".toList) 12 := ⟨asc " ".toList, [43], asc "12".toList, asc " ".toList, by decide, by unfold White; decide, by unfold White; decide, by decide, by decide, by decide, by decide⟩

/-! ### Where it fails -/

/-- C106 fails: a document that is no RRDP document at all (empty, a web page, one cut off before its element) is taken for one without objects. So a run whose downloads answer so after the
    notification succeeds without a single change, and the client records the announced session and serial: what was published is missed, and is not asked for again. -/
theorem C106_violated_nothing {σ : Type} (get : Nat → Bytes → Option Bytes) (scan : Bytes → List Tok) (cb : Callback σ) (s : Sys) (st : σ) (d0 : Bytes) (n : Notification)
    (h0 : get 0 s.path = some d0) (hn : parseRoot (scan d0) = .ok n) (hle : s.serial ≤ n.serial)
    (hm : ∀ i u, i ≠ 0 → ∃ d, get i u = some d ∧ ∀ k as, Tok.start k as ∈ scan d → k ≠ asc "delta".toList ∧ k ≠ asc "snapshot".toList) :
    ∃ r, fetchRRDP (xmlWorld get scan) cb s ⟨st, [], []⟩ = .ok (⟨s.path, n.sessionID, n.serial⟩, r, true) ∧ r.calls = [] ∧ r.st = st := by
  have hr : (xmlWorld get scan).getXML 0 s.path = some d0 := h0
  have hp : (xmlWorld get scan).parseRoot d0 = some n := by simp [xmlWorld, hn]
  unfold fetchRRDP
  simp only [download, List.length_nil, hr, Option.bind_some, hp]
  by_cases hs : needSnapshot s n
  · obtain ⟨d, hd, hmu⟩ := hm 1 n.snapshot.uri (by omega)
    simp only [if_pos hs]
    refine ⟨⟨st, [s.path, n.snapshot.uri], []⟩, ?_, rfl, rfl⟩
    simp [doSnapshot, download, xmlWorld, hd, parseNode_mute _ hmu, applyItems]
  · simp only [if_neg hs]
    have hmf : missingFrom n (n.serial - s.serial + 1).toNat s.serial = false := by
      simp only [needSnapshot, Bool.or_eq_true, not_or, Bool.not_eq_true] at hs
      exact hs.2
    obtain ⟨r', h1, h2, h3⟩ := deltas_mute (cb := cb) (s := s) (n := n) hm (n.serial - s.serial).toNat (s.serial + 1) ⟨st, [] ++ [s.path], []⟩ (by simp) (by
      intro j hj
      obtain ⟨e, he⟩ := missing_false _ _ hmf (j + 1) (by omega)
      exact ⟨e, by rw [← he]; congr 1; push_cast; omega⟩)
    refine ⟨r', ?_, h2, h3⟩
    have he : s.serial + ((n.serial - s.serial).toNat : Int) = n.serial := by omega
    rw [h1]
    simp only [Go.ok_bind, if_true, he]
    rfl

/-- A run of a client at serial 4 of a session, told of serial 5, whose download of the delta gives an empty body: it succeeds and is at serial 5. -/
example : ∃ (get : Nat → Bytes → Option Bytes) (scan : Bytes → List Tok) (d0 : Bytes) (n : Notification), get 0 (asc "u".toList) = some d0 ∧ parseRoot (scan d0) = .ok n ∧ (4 : Int) ≤ n.serial ∧
    n.deltas ≠ [] ∧ needSnapshot ⟨asc "u".toList, asc "s1".toList, 4⟩ n = false ∧
    ∀ i u, i ≠ 0 → ∃ d, get i u = some d ∧ ∀ k as, Tok.start k as ∈ scan d → k ≠ asc "delta".toList ∧ k ≠ asc "snapshot".toList := by
  let A (k : String) : List (Bytes × Bytes) := [(asc "session_id".toList, asc "s1".toList), (asc "serial".toList, asc k.toList)]
  refine ⟨fun i _ => some (if i = 0 then [1] else []), fun b => if b = [1] then
      Xml.toks (.elem (asc "notification".toList) (A "5") [.elem (asc "snapshot".toList) [] [], .elem (asc "delta".toList) (A "4") [], .elem (asc "delta".toList) (A "5") []]) else [],
    [1], ⟨asc "s1".toList, 5, ⟨0, [], []⟩, [⟨4, [], []⟩, ⟨5, [], []⟩]⟩, rfl, by decide +kernel, by decide, by decide, by decide +kernel, ?_⟩
  intro i u hi
  exact ⟨[], by simp [hi], by simp⟩

/-- C106 fails: the kind of a document, its session and its serial are not looked at. An old delta of another session in place of the announced snapshot is taken for the snapshot. -/
theorem C106_violated_unchecked (as as' : List (Bytes × Bytes)) (hp : Proper as) (hp' : Proper as') (n n' : Int) (hs : SerialIs as n) (hs' : SerialIs as' n') (cs : List Xml)
    (hc : ∀ n as inside, Xml.elem n as inside ∈ cs → Proper as) :
    parseNode (Xml.elem (asc "delta".toList) as cs).toks = parseNode (Xml.elem (asc "snapshot".toList) as' cs).toks := by
  have h1 := C106_node [] [] (by simp [Around]) (by simp [Around]) _ (.inr rfl) as hp n hs cs hc
  have h2 := C106_node [] [] (by simp [Around]) (by simp [Around]) _ (.inl rfl) as' hp' n' hs' cs hc
  simp only [List.nil_append, List.append_nil, Xml.toksL] at h1 h2
  rw [h1, h2]

example : Proper [(asc "session_id".toList, asc "s1".toList), (asc "serial".toList, asc "5".toList)] := by unfold Proper; decide

/-- C106 fails: of a document with two delta elements the objects of the first are read twice. -/
theorem C106_violated_twice (as as' : List (Bytes × Bytes)) (hp : Proper as) (hp' : Proper as') (n n' : Int) (hs : SerialIs as n) (hs' : SerialIs as' n') (cs cs' : List Xml)
    (hc : ∀ n as inside, Xml.elem n as inside ∈ cs → Proper as) (hc' : ∀ n as inside, Xml.elem n as inside ∈ cs' → Proper as) :
    parseNode (Xml.toksL [.elem (asc "delta".toList) as cs, .elem (asc "delta".toList) as' cs']) =
      .ok (items (asc "publish".toList) cs ++ (items (asc "publish".toList) cs ++ items (asc "publish".toList) cs'),
           items (asc "withdraw".toList) cs ++ (items (asc "withdraw".toList) cs ++ items (asc "withdraw".toList) cs')) := by
  have num : ∀ as k, SerialIs as k → Numbered as := by
    rintro as k ⟨b, hb, hd⟩ b' hb'
    have : b = b' := by rw [show nSerial = asc "serial".toList from rfl, hb] at hb'; exact Option.some.inj hb'
    exact ⟨k, this ▸ hd⟩
  obtain ⟨a, ha, -⟩ := rootAttrs_eq as ⟨[], 0⟩ hp (num as n hs)
  obtain ⟨a', ha', -⟩ := rootAttrs_eq as' ⟨[], 0⟩ hp' (num as' n' hs')
  have e : Xml.toksL [.elem (asc "delta".toList) as cs, .elem (asc "delta".toList) as' cs'] =
      .start nDelta as :: (Xml.toksL cs ++ .stop nDelta :: (.start nDelta as' :: (Xml.toksL cs' ++ .stop nDelta :: []))) := by simp [Xml.toksL, Xml.toks, nDelta]
  have l1 := length_toksL cs
  have l2 := length_toksL cs'
  rw [e]
  unfold parseNode
  obtain ⟨f, hf⟩ : ∃ f, (Tok.start nDelta as :: (Xml.toksL cs ++ .stop nDelta :: (.start nDelta as' :: (Xml.toksL cs' ++ .stop nDelta :: [])))).length + 1 = f + 1 + 1 + 1 :=
    ⟨(Xml.toksL cs).length + (Xml.toksL cs').length + 2, by simp; omega⟩
  rw [hf]
  simp only [List.length_cons, List.length_append, List.length_nil] at hf
  have b1 := nodeBody_pieces cs (f + 1 + 1 + 1) ([], []) nDelta (.start nDelta as' :: (Xml.toksL cs' ++ .stop nDelta :: [])) (by omega) hc
  have b2 := nodeBody_pieces cs' (f + 1 + 1) ([] ++ items nPublish cs, [] ++ items nWithdraw cs) nDelta [] (by omega) hc'
  rw [parseNodeLoop, if_pos rfl, ha, Go.ok_bind, b1, Go.ok_bind]
  show parseNodeLoop (f + 1 + 1) _ _ _ (.start nDelta as' :: _) = _
  rw [parseNodeLoop, if_pos rfl, ha', Go.ok_bind, b2, Go.ok_bind]
  simp [parseNodeLoop, nPublish, nWithdraw]

example := C106_violated_twice _ _ (by unfold Proper; decide) (by unfold Proper; decide) 5 5 serial_five serial_five exInside exInside exInside_proper exInside_proper

/-- An answer that is no notification does no harm: if the empty URL cannot be downloaded, the run fails and nothing changes. -/
theorem C106_root_nothing {σ : Type} (get : Nat → Bytes → Option Bytes) (scan : Bytes → List Tok) (cb : Callback σ) (s : Sys) (st : σ) (d0 : Bytes)
    (h0 : get 0 s.path = some d0) (hm : ∀ k as, Tok.start k as ∈ scan d0 → k ≠ asc "notification".toList) (hs : s.serial = 0 ∨ s.sessionID ≠ []) (he : get 1 [] = none) :
    fetchRRDP (xmlWorld get scan) cb s ⟨st, [], []⟩ = .ok (s, ⟨st, [s.path, []], []⟩, false) := by
  have hn : parseRoot (scan d0) = .ok ⟨[], 0, ⟨0, [], []⟩, []⟩ := by
    have := rootLoop_mute (scan d0) 1 ⟨[], 0, ⟨0, [], []⟩, []⟩ [] hm
    rw [List.append_nil] at this
    unfold parseRoot
    rw [Nat.add_comm, this]; rfl
  have hr : (xmlWorld get scan).getXML 0 s.path = some d0 := h0
  have hp : (xmlWorld get scan).parseRoot d0 = some ⟨[], 0, ⟨0, [], []⟩, []⟩ := by simp [xmlWorld, hn]
  unfold fetchRRDP
  simp only [download, List.length_nil, hr, Option.bind_some, hp]
  have hns : needSnapshot s ⟨[], 0, ⟨0, [], []⟩, []⟩ = true := by
    rcases hs with hs | hs <;> simp [needSnapshot, hs]
  simp [hns, doSnapshot, download, xmlWorld, he]

example : (4 : Int) = 0 ∨ asc "s1".toList ≠ [] := by decide

end Verif.Props
