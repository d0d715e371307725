import Verif.Lemmas.ExtWrite
import Verif.Lemmas.ExtAs
import Verif.Props.Resources
/-
  C85, C86: the resource extensions of certificates, as octets.  `ExtSpec` (Spec/Ext) is the independent
  specification of the grammar of RFC 3779 and of its meaning.
-/
set_option autoImplicit false

namespace Verif.Props
open Der Cms CmsSpec BerSpec ResSpec Cert Ext ExtSpec

/-! ### C85: IP address blocks -/

/-- C85. The DER encoding of an IP address block, whatever follows it, is read as exactly what it says, in
    order: an entry for each prefix and range that holds the same addresses, and an inherit entry of the
    right family for each inherit. No entry is added, dropped, widened or narrowed.
    Bit strings no longer than an address; no SAFI on inherit (see `C85_violated_safi_inherit`). -/
theorem C85_ip_read (fams : List Family) (out rest : Bytes) (h : BlockDer fams out) (hl : out.length < 2 ^ 31)
    (hf : ∀ f ∈ fams, ∀ a ∈ f.choice.addrs, a.Fits (8 * f.afi.size))
    (hs : ∀ f ∈ fams, f.choice = .inherit → f.safi = none) :
    ∃ l, decodeIPExt (out ++ rest) = .ok l ∧ List.Forall₂ Stands (fams.flatMap Family.entries) l := by
  obtain ⟨blk, h1, h2⟩ := decodeIPExt_der h hl rest
  refine ⟨_, h1, ?_⟩
  clear h h1 hl
  unfold decodeIPAddressBlock
  rw [List.forall₂_map_left_iff] at h2
  induction h2 with
  | nil => exact .nil
  | @cons f g fams blk hfg _ ih =>
    simp only [List.flatMap_cons]
    exact List.rel_append (decodeFamily_stands hfg (hf f (by simp)) (hs f (by simp)))
      (ih (fun x hx => hf x (by simp [hx])) (fun x hx => hs x (by simp [hx])))

/-- C85. Whatever octets are accepted have the outer form of an IP address block, with possibly octets after
    the fields of a structure, elements of an unknown kind, and any element of tag number 5 in place of NULL
    (`LaxBlock`), and the entries are those of the prefixes and ranges in it, in order.  So an entry of an
    accepted extension always comes from a prefix or range written there. -/
theorem C85_ip_sound_partial (data : Bytes) (l : List IPInfo) (h : decodeIPExt data = .ok l) :
    ∃ fams, LaxBlock fams data ∧ List.Forall₂ LaxStands (fams.flatMap laxEntries) l := by
  obtain ⟨fams, blk, h1, rfl, h3⟩ := decodeIPExt_ok h
  refine ⟨fams, h1, ?_⟩
  have hk : fams.flatMap laxEntries = (kept fams).flatMap (fun f => laxEntries (f.1, some f.2)) := by
    clear h1 h3 h
    induction fams with
    | nil => rfl
    | cons f fams ih =>
      obtain ⟨n, o⟩ := f
      cases o with
      | none => simpa [kept, laxEntries] using ih
      | some c => simp only [List.flatMap_cons, ih]; simp [kept]
  rw [hk]
  clear hk h h1
  generalize kept fams = ks at h3
  unfold decodeIPAddressBlock
  induction h3 with
  | nil => exact .nil
  | @cons f g ks blk hfg _ ih =>
    simp only [List.flatMap_cons]
    exact List.rel_append (decodeFamily_lax hfg) ih

/-- C85. What is written for a list of resources is DER, with at most one family of each kind, IPv4 first,
    no SAFI, and stands for the list: the entries of each family in order, or inherit if it is among them. -/
theorem C85_ip_write (ips : List IPInfo) (h : ∀ e ∈ ips, Encodable e) :
    ∃ fams out, encodeIPExt ips = .ok out ∧ BlockDer fams out ∧ (fams.map Family.afi).Sublist [.v4, .v6] ∧
      (∀ f ∈ fams, f.safi = none ∧ ∀ a ∈ f.choice.addrs, a.Fits (8 * f.afi.size)) ∧
      List.Forall₂ Stands (fams.flatMap Family.entries)
        (collapse 1 (ips.filter (fun e => famOf e = 1)) ++ collapse 2 (ips.filter (fun e => famOf e = 2))) :=
  encodeIPExt_der h

/-- C85. Read back, the octets written give the same resources: the same number of entries, family by
    family, each holding the same addresses. -/
theorem C85_ip_round_trip (ips : List IPInfo) (h : ∀ e ∈ ips, Encodable e) :
    ∃ out, encodeIPExt ips = .ok out ∧ (out.length < 2 ^ 31 → ∀ rest, ∃ l, decodeIPExt (out ++ rest) = .ok l ∧
      List.Forall₂ (fun e e' => famOf e = famOf e' ∧ ∀ v, Denotes e v ↔ Denotes e' v)
        (collapse 1 (ips.filter (fun e => famOf e = 1)) ++ collapse 2 (ips.filter (fun e => famOf e = 2))) l) := by
  obtain ⟨fams, out, h1, h2, -, h4, h5⟩ := encodeIPExt_der h
  refine ⟨out, h1, fun hl rest => ?_⟩
  obtain ⟨l, k1, k2⟩ := C85_ip_read fams out rest h2 hl (fun f hf => (h4 f hf).2) (fun f hf _ => (h4 f hf).1)
  refine ⟨l, k1, ?_⟩
  generalize fams.flatMap Family.entries = es at h5 k2
  generalize collapse 1 _ ++ collapse 2 _ = ms at h5
  clear h1 h2 h4 k1 hl
  induction h5 generalizing l with
  | nil => cases k2; exact .nil
  | @cons e m es ms hem _ ih =>
    cases k2 with
    | @cons _ x _ xs hx hxs =>
      refine .cons ?_ (ih xs hxs)
      obtain ⟨afi, o⟩ := e
      cases o with
      | none =>
        have e1 : m = .null afi.number := hem
        have e2 : x = .null afi.number := hx
        rw [e1, e2]; simp
      | some a => exact ⟨hem.1.trans hx.1.symm, fun v => (hem.2 v).trans (hx.2 v).symm⟩

/-- 10.0.0.0/8, 10.1.0.0 - 10.2.255.255 and inherit for IPv6. -/
def blockExample : Bytes :=
  elem 0x30 (elem 0x30 (elem 0x04 [0, 1] ++ elem 0x30 (elem 0x03 [0, 10] ++
      elem 0x30 (elem 0x03 [0, 10, 1] ++ elem 0x03 [0, 10, 2]))) ++
    elem 0x30 (elem 0x04 [0, 2] ++ elem 0x05 []))

/-- Non-vacuity of `C85_ip_read`. -/
example : BlockDer [⟨.v4, none, .list [.prefix ⟨8, 10⟩, .range ⟨16, 0xa01⟩ ⟨16, 0xa02⟩]⟩, ⟨.v6, none, .inherit⟩]
    blockExample ∧ blockExample.length < 2 ^ 31 ∧
    decodeIPExt blockExample = .ok [.net (some ⟨[10, 0, 0, 0], [255, 0, 0, 0]⟩),
      .range [10, 1, 0, 0] [10, 2, 255, 255], .null 2] := by
  have b1 : BitsDer ⟨8, 10⟩ (elem 0x03 [0, 10]) := ⟨_, ⟨[10], by decide, by decide, by decide⟩, rfl⟩
  have b2 : BitsDer ⟨16, 0xa01⟩ (elem 0x03 [0, 10, 1]) := ⟨_, ⟨[10, 1], by decide, by decide, by decide⟩, rfl⟩
  have b3 : BitsDer ⟨16, 0xa02⟩ (elem 0x03 [0, 10, 2]) := ⟨_, ⟨[10, 2], by decide, by decide, by decide⟩, rfl⟩
  refine ⟨⟨_, .cons ⟨_, ⟨_, .cons b1 (.cons ⟨_, _, b2, b3, rfl⟩ .nil), rfl⟩, rfl⟩ (.cons ⟨_, rfl, rfl⟩ .nil),
    ?_⟩, by decide +kernel, by decide +kernel⟩
  simp [blockExample, Family.octets, Afi.number]

/-- Non-vacuity of `C85_ip_write` and `C85_ip_round_trip`: a list with both families, not in order. -/
example : (∀ e ∈ [.null 2, net10], Encodable e) ∧
    encodeIPExt [.null 2, net10] =
      .ok (elem 0x30 (elem 0x30 (elem 0x04 [0, 1] ++ elem 0x30 (elem 0x03 [0, 10])) ++
        elem 0x30 (elem 0x04 [0, 2] ++ elem 0x05 []))) := by
  refine ⟨?_, by decide +kernel⟩
  intro e he
  rcases List.mem_cons.mp he with rfl | he
  · exact .inr rfl
  · rw [List.mem_singleton.mp he]
    exact canonical_net10

/-- C85 fails for the SAFI of inherit: inherit for IPv4 unicast (00 01 01) is read as inherit of family 0,
    which is no family, so nothing is inherited. -/
theorem C85_violated_safi_inherit :
    ∃ fams out, BlockDer fams out ∧ fams = [⟨.v4, some 1, .inherit⟩] ∧ decodeIPExt out = .ok [.null 0] :=
  ⟨[⟨.v4, some 1, .inherit⟩], elem 0x30 (elem 0x30 (elem 0x04 [0, 1, 1] ++ elem 0x05 [])),
    ⟨[elem 0x30 (elem 0x04 [0, 1, 1] ++ elem 0x05 [])], .cons ⟨elem 0x05 [], rfl, rfl⟩ .nil, by simp⟩, rfl,
    by decide +kernel⟩

/-- C85 fails for octets outside the grammar: an element `[5]` of context class with contents is read as
    inherit, although no block has this encoding. -/
theorem C85_violated_not_null :
    ∃ out, decodeIPExt out = .ok [.null 1] ∧ ¬ ∃ fams, BlockDer fams out := by
  refine ⟨elem 0x30 (elem 0x30 (elem 0x04 [0, 1] ++ elem 0x85 [7])), by decide +kernel, ?_⟩
  rintro ⟨fams, encs, h1, h2⟩
  obtain ⟨-, h3⟩ := elem_eq h2 (by decide +kernel)
  cases h1 with
  | nil => exact absurd h3.symm (by decide +kernel)
  | @cons f enc fams encs hf hr =>
    obtain ⟨c, hc, rfl⟩ := hf
    rw [List.flatten_cons] at h3
    obtain ⟨-, h4, -⟩ := elem_head h3.symm (by decide +kernel)
    obtain ⟨-, -, h5⟩ := elem_app_inj (by decide +kernel) h4.symm
    rw [h5] at hc
    cases hch : f.choice with
    | inherit => rw [hch] at hc; exact absurd (show elem 0x85 [7] = elem 0x05 [] from hc) (by decide +kernel)
    | list l =>
      rw [hch] at hc
      obtain ⟨encs, -, hc⟩ := hc
      have := congrArg List.head? hc
      exact absurd this (by simp [elem])

/-- C85 fails for unknown elements: an IPv4 family whose choice is a SET is dropped, and so is a SET among
    the prefixes; both extensions are accepted. -/
theorem C85_violated_dropped :
    decodeIPExt (elem 0x30 (elem 0x30 (elem 0x04 [0, 1] ++ elem 0x31 (elem 0x03 [0, 10])))) = .ok [] ∧
    decodeIPExt (elem 0x30 (elem 0x30 (elem 0x04 [0, 1] ++ elem 0x30 (elem 0x31 [] ++ elem 0x03 [0, 10])))) =
      .ok [.net (some ⟨[10, 0, 0, 0], [255, 0, 0, 0]⟩)] := by decide +kernel

/-- C85 fails for bit strings longer than an address: a range of IPv4 addresses whose upper end has 39 bits
    is accepted, with the upper end cut to 32 bits. -/
theorem C85_violated_long :
    ∃ out, BlockDer [⟨.v4, none, .list [.range ⟨8, 10⟩ ⟨39, 0x50a0a0a0a / 2⟩]⟩] out ∧
      decodeIPExt out = .ok [.range [10, 0, 0, 0] [0x05, 0x0a, 0x0a, 0x0a]] := by
  refine ⟨elem 0x30 (elem 0x30 (elem 0x04 [0, 1] ++ elem 0x30 (elem 0x30 (elem 0x03 [0, 10] ++
    elem 0x03 [1, 0x05, 0x0a, 0x0a, 0x0a, 0x0a])))), ?_, by decide +kernel⟩
  have b1 : BitsDer ⟨8, 10⟩ (elem 0x03 [0, 10]) := ⟨_, ⟨[10], by decide, by decide, by decide⟩, rfl⟩
  have b2 : BitsDer ⟨39, 0x50a0a0a0a / 2⟩ (elem 0x03 [1, 0x05, 0x0a, 0x0a, 0x0a, 0x0a]) :=
    ⟨_, ⟨[0x05, 0x0a, 0x0a, 0x0a, 0x0a], by decide, by decide, by decide⟩, rfl⟩
  refine ⟨_, .cons ⟨_, ⟨_, .cons ⟨_, _, b1, b2, rfl⟩ .nil, rfl⟩, rfl⟩ .nil, ?_⟩
  simp [Family.octets, Afi.number]

/-! ### C86: AS identifiers -/

/-- C86. The DER encoding of the AS identifiers, whatever follows it, is read as exactly the numbers, ranges
    and inherit marks it holds, in order, the AS numbers and the routing domain identifiers apart. -/
theorem C86_as_read (asnum rdi : Option ASChoice) (out rest : Bytes) (h : ASDer asnum rdi out)
    (hl : out.length < 2 ^ 31) (h1 : ∀ c, asnum = some c → ∀ a ∈ c.items, a.Fits)
    (h2 : ∀ c, rdi = some c → ∀ a ∈ c.items, a.Fits) :
    decodeASExt (out ++ rest) = .ok (asEntries asnum, asEntries rdi) :=
  decodeASExt_der h hl h1 h2 rest

/-- C86. Whatever octets are accepted have the outer form of the AS identifiers, up to octets after the
    fields, elements of an unknown kind and any element of tag number 5 in place of NULL (`LaxAS`), and the
    entries are those written there; a field that is said to be absent does not stand at its place. -/
theorem C86_as_sound_partial (data : Bytes) (nums rdi : List ASInfo) (h : decodeASExt data = .ok (nums, rdi)) :
    ∃ a d, LaxAS a d data ∧ nums = asEntries a ∧ rdi = asEntries d :=
  decodeASExt_ok h

/-- C86. What is written for lists of AS numbers and routing domain identifiers without inherit, or with
    inherit alone, is DER for these lists.
    Missing: inherit together with numbers (next theorem). -/
theorem C86_as_write_partial (nums rdi : List ASInfo)
    (hn : .null ∉ nums ∨ nums = [.null]) (hr : .null ∉ rdi ∨ rdi = [.null])
    (fn : ∀ a ∈ nums, FitsAS a) (fr : ∀ a ∈ rdi, FitsAS a) :
    ∃ a d, ASDer a d (encodeASExt nums rdi) ∧ asEntries a = nums ∧ asEntries d = rdi := by
  obtain ⟨h1, h2, -⟩ := fieldSpec_der hn fn 0xa0
  obtain ⟨k1, k2, -⟩ := fieldSpec_der hr fr 0xa1
  exact ⟨_, _, ⟨_, _, h1, k1, tlv_elem _ _⟩, h2, k2⟩

/-- C86. These octets are read back as the same lists. -/
theorem C86_as_round_trip_partial (nums rdi : List ASInfo)
    (hn : .null ∉ nums ∨ nums = [.null]) (hr : .null ∉ rdi ∨ rdi = [.null])
    (fn : ∀ a ∈ nums, FitsAS a) (fr : ∀ a ∈ rdi, FitsAS a) (hl : (encodeASExt nums rdi).length < 2 ^ 31)
    (rest : Bytes) : decodeASExt (encodeASExt nums rdi ++ rest) = .ok (nums, rdi) := by
  obtain ⟨h1, h2, h3⟩ := fieldSpec_der hn fn 0xa0
  obtain ⟨k1, k2, k3⟩ := fieldSpec_der hr fr 0xa1
  have := decodeASExt_der ⟨_, _, h1, k1, tlv_elem _ _⟩ hl h3 k3 rest
  rwa [h2, k2] at this

/-- C86 fails for inherit after a number: the octets written are not DER for any AS identifiers, and they
    are read as no AS number at all. -/
theorem C86_violated_inherit_last :
    (¬ ∃ a d, ASDer a d (encodeASExt [.asn 5, .null] [])) ∧
      decodeASExt (encodeASExt [.asn 5, .null] []) = .ok ([], []) := by
  refine ⟨?_, by decide +kernel⟩
  rintro ⟨a, d, x, y, hx, hy, h⟩
  rw [show encodeASExt [.asn 5, .null] [] = elem 0x30 (elem 0xa0 (elem 0x02 [5] ++ elem 0x05 [])) by decide +kernel] at h
  obtain ⟨-, h1⟩ := elem_eq h (by decide +kernel)
  cases a with
  | none =>
    rw [show x = [] from hx, List.nil_append] at h1
    cases d with
    | none => rw [show y = [] from hy] at h1; exact absurd h1.symm (by decide +kernel)
    | some c =>
      obtain ⟨z, -, rfl⟩ := hy
      exact absurd (congrArg List.head? h1) (by simp [elem])
  | some c =>
    obtain ⟨z, hz, rfl⟩ := hx
    obtain ⟨-, h2, -⟩ := elem_head h1.symm (by decide +kernel)
    cases c with
    | inherit => rw [show z = elem 0x05 [] from hz] at h2; exact absurd h2 (by decide +kernel)
    | list l =>
      obtain ⟨encs, -, rfl⟩ := hz
      exact absurd (congrArg List.head? h2) (by simp [elem])

/-- C86 fails for fields in the wrong order: the AS numbers after the routing domain identifiers are not
    read, and the extension is accepted. -/
theorem C86_violated_order :
    decodeASExt (elem 0x30 (elem 0xa1 (elem 0x05 []) ++ elem 0xa0 (elem 0x30 (elem 0x02 [7])))) =
      .ok ([], [.null]) := by decide +kernel

/-- AS 64496 and AS 64500 - AS 64510, routing domain identifiers inherited. -/
example : ASDer (some (.list [.id 64496, .range 64500 64510])) (some .inherit)
      (encodeASExt [.asn 64496, .range 64500 64510] [.null]) ∧
    encodeASExt [.asn 64496, .range 64500 64510] [.null] = elem 0x30 (elem 0xa0 (elem 0x30 (
      elem 0x02 [0, 0xfb, 0xf0] ++ elem 0x30 (elem 0x02 [0, 0xfb, 0xf4] ++ elem 0x02 [0, 0xfb, 0xfe]))) ++
      elem 0xa1 (elem 0x05 [])) := by
  have h1 := (fieldSpec_der (l := [.asn 64496, .range 64500 64510]) (.inl (by decide)) (by simp [FitsAS]) 0xa0).1
  have h2 := (fieldSpec_der (l := [.null]) (.inr rfl) (by simp [FitsAS]) 0xa1).1
  exact ⟨⟨_, _, h1, h2, tlv_elem _ _⟩, by decide +kernel⟩

end Verif.Props
