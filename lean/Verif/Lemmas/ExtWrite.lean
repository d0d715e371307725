import Verif.Lemmas.Ext
/-
  Writing of the IP extension.
-/
set_option autoImplicit false

namespace Verif.Ext
open Der Cms CmsSpec BerSpec ResSpec ExtSpec Net Cert

/-- Bit strings as DER wants them, of at most `n` bits. -/
def Good (n : Nat) : AddrOrRange → Prop
  | .prefix b => BitsOk b ∧ b.bitLength ≤ n
  | .range a b => (BitsOk a ∧ a.bitLength ≤ n) ∧ BitsOk b ∧ b.bitLength ≤ n

/-- Bits of an address of a family. -/
def famBits (k : UInt8) : Nat := if k = 1 then 32 else 128

theorem full_bits {a : Bytes} (h : a.length = 16) : BitsOk ⟨a, 128⟩ := by
  constructor
  · simp [h]
  · simp [h]

theorem encodeAddr_good {e : IPInfo} (h : Encodable e) {a : AddrOrRange} (ha : encodeAddrOrRange e = .ok a) :
    Good (famBits (famOf e)) a := by
  cases e with
  | null _ => simp [encodeAddrOrRange] at ha
  | range min max =>
    obtain ⟨h1, h2, h3, h4⟩ := h
    simp only [encodeAddrOrRange, ipToBitString, not_mapped h1 h3, not_mapped h2 h4, Go.ok_bind, Go.pure_def,
      Go.ok.injEq] at ha
    subst ha
    simp only [Good, famOf, h1, famBits]
    exact ⟨⟨full_bits h1, by simp⟩, full_bits h2, by simp⟩
  | net o =>
    cases o with
    | none => exact h.elim
    | some n =>
      obtain ⟨hp, -, -⟩ := h
      simp only [encodeAddrOrRange, Go.ok.injEq] at ha
      subst ha
      have hf : ∃ fam, IsFamily fam n.ip.length := by
        rcases hp.2.1 with h4 | h4
        · exact ⟨[0, 1], 0, [], .inl ⟨rfl, h4⟩⟩
        · exact ⟨[0, 2], 0, [], .inr ⟨rfl, h4⟩⟩
      obtain ⟨fam, hf⟩ := hf
      obtain ⟨-, -, -, hb, -⟩ := decodeIP_encode hp hf
      refine ⟨hb, ?_⟩
      obtain ⟨p, hm⟩ := hp.2.2
      have : (ipNetToBitString n).bitLength = p := maskSize_of_isMask hm
      rw [this]
      have hle := hm.1
      rw [← hp.1] at hle
      rcases hp.2.1 with h4 | h4
      · simp [famOf, famBits, h4] at hle ⊢; omega
      · simp [famOf, famBits, h4] at hle ⊢; omega

/-- A family as it is written: name `[0, k]`, good bit strings. -/
def GoodFam (k : UInt8) (f : AddrFamily) : Prop :=
  f.addressFamily = [0, k] ∧ ∀ l, f.choice = .addresses l → ∀ a ∈ l, Good (famBits k) a

theorem encodeVersion_good {k : UInt8} : ∀ {g : List IPInfo} {acc : List AddrOrRange} {f : AddrFamily},
    (∀ e ∈ g, Encodable e ∧ famOf e = k) → (∀ a ∈ acc, Good (famBits k) a) →
    encodeVersion k g acc = .ok f → GoodFam k f := by
  intro g
  induction g with
  | nil =>
    intro acc f _ hacc hf
    simp only [encodeVersion, Go.ok.injEq] at hf
    subst hf
    refine ⟨rfl, ?_⟩
    intro l hl
    simp only [AddrChoice.addresses.injEq] at hl
    subst hl
    exact hacc
  | cons e g ih =>
    intro acc f hg hacc hf
    have step : ∀ (a : AddrOrRange), encodeAddrOrRange e = .ok a → encodeVersion k g (acc ++ [a]) = .ok f → GoodFam k f := by
      intro a ha hf
      refine ih (fun x hx => hg x (by simp [hx])) ?_ hf
      intro x hx
      rcases List.mem_append.mp hx with hx | hx
      · exact hacc x hx
      · rw [List.mem_singleton.mp hx]
        obtain ⟨h1, h2⟩ := hg e (by simp)
        rw [← h2]; exact encodeAddr_good h1 ha
    cases e with
    | null x =>
      simp only [encodeVersion, Go.ok.injEq] at hf
      subst hf
      exact ⟨rfl, by simp⟩
    | net o =>
      simp only [encodeVersion] at hf
      obtain ⟨a, ha, hf⟩ := Go.bind_eq_ok.mp hf
      exact step a ha hf
    | range a b =>
      simp only [encodeVersion] at hf
      obtain ⟨a, ha, hf⟩ := Go.bind_eq_ok.mp hf
      exact step a ha hf

theorem encodeGroups_good {ips : List IPInfo} (h : ∀ e ∈ ips, Encodable e) :
    ∀ {keys : List UInt8} {blk : List AddrFamily}, encodeGroups ips keys = .ok blk → ∀ f ∈ blk, ∃ k, GoodFam k f := by
  intro keys
  induction keys with
  | nil => intro blk hb; simp only [encodeGroups, Go.ok.injEq] at hb; subst hb; simp
  | cons k ks ih =>
    intro blk hb
    simp only [encodeGroups, groupOf_eq h k, Go.ok_bind] at hb
    split at hb
    · exact ih hb
    · obtain ⟨f, hf, hb⟩ := Go.bind_eq_ok.mp hb
      obtain ⟨r, hr, hb⟩ := Go.bind_eq_ok.mp hb
      simp only [Go.pure_def, Go.ok.injEq] at hb
      subst hb
      intro x hx
      rcases List.mem_cons.mp hx with rfl | hx
      · exact ⟨k, encodeVersion_good (by intro e he; simp at he; exact ⟨h e he.1, he.2⟩) (by simp) hf⟩
      · exact ih hr x hx

/-- The bit string as the specification has it. -/
def bitsSpec (b : BitString) : Bits := ⟨b.bitLength, bitsNum b⟩

def addrSpec : AddrOrRange → Addr
  | .prefix b => .prefix (bitsSpec b)
  | .range a b => .range (bitsSpec a) (bitsSpec b)

def choiceSpec : AddrChoice → Choice
  | .inherit => .inherit
  | .addresses l => .list (l.map addrSpec)

def famSpec (f : AddrFamily) : Family :=
  ⟨if f.addressFamily = [0, 1] then .v4 else .v6, none, choiceSpec f.choice⟩

theorem bitsSpec_der {b : BitString} (h : BitsOk b) : BitsDer (bitsSpec b) (tlv 0x03 (bitStringOctets b)) :=
  ⟨bitStringOctets b, bitStringOctets_content h, tlv_elem _ _⟩

theorem addrSpec_der {n : Nat} {a : AddrOrRange} (h : Good n a) :
    AddrDer (addrSpec a) (marshalAddr a) ∧ AddrRead (addrSpec a) a ∧ (addrSpec a).Fits n := by
  cases a with
  | «prefix» b => exact ⟨bitsSpec_der h.1, ⟨h.1, rfl, rfl⟩, h.2⟩
  | range a b =>
    exact ⟨⟨_, _, bitsSpec_der h.1.1, bitsSpec_der h.2.1, tlv_elem _ _⟩,
      ⟨⟨h.1.1, rfl, rfl⟩, ⟨h.2.1, rfl, rfl⟩⟩, h.1.2, h.2.2⟩

theorem famSpec_der {f : AddrFamily} {k : UInt8} (hk : k = 1 ∨ k = 2) (h : GoodFam k f) :
    FamilyDer (famSpec f) (marshalFamily f) ∧ FamRead ((famSpec f).octets, (famSpec f).choice) f ∧
      (∀ a ∈ (famSpec f).choice.addrs, a.Fits (8 * (famSpec f).afi.size)) := by
  obtain ⟨name, ch⟩ := f
  obtain ⟨h1, h2⟩ := h
  simp only at h1 h2
  subst h1
  have hoct : (famSpec ⟨[0, k], ch⟩).octets = [0, k] ∧ 8 * (famSpec ⟨[0, k], ch⟩).afi.size = famBits k := by
    rcases hk with rfl | rfl <;> simp [famSpec, Family.octets, Afi.number, Afi.size, famBits]
  refine ⟨?_, ⟨hoct.1.symm, ?_⟩, ?_⟩
  · cases ch with
    | inherit => exact ⟨_, rfl, by rw [marshalFamily, hoct.1]; simp only [tlv_elem]⟩
    | addresses l =>
      refine ⟨elem 0x30 (l.map marshalAddr).flatten, ⟨l.map marshalAddr, ?_, rfl⟩, by rw [marshalFamily, hoct.1]; simp only [tlv_elem]⟩
      exact forall₂_map_right addrSpec marshalAddr l (fun a ha => (addrSpec_der (h2 l rfl a ha)).1)
  · cases ch with
    | inherit => trivial
    | addresses l => exact forall₂_map_self addrSpec l (fun a ha => (addrSpec_der (h2 l rfl a ha)).2.1)
  · rw [hoct.2]
    cases ch with
    | inherit => simp [famSpec, choiceSpec, Choice.addrs]
    | addresses l =>
      simp only [famSpec, choiceSpec, Choice.addrs, List.mem_map]
      rintro a ⟨x, hx, rfl⟩
      exact (addrSpec_der (h2 l rfl x hx)).2.2

theorem encodeIPExt_der {ips : List IPInfo} (h : ∀ e ∈ ips, Encodable e) :
    ∃ fams out, encodeIPExt ips = .ok out ∧ BlockDer fams out ∧ (fams.map Family.afi).Sublist [.v4, .v6] ∧
      (∀ f ∈ fams, f.safi = none ∧ ∀ a ∈ f.choice.addrs, a.Fits (8 * f.afi.size)) ∧
      List.Forall₂ Stands (fams.flatMap Family.entries)
        (collapse 1 (ips.filter (fun e => famOf e = 1)) ++ collapse 2 (ips.filter (fun e => famOf e = 2))) := by
  obtain ⟨blk, h1, h2, h3⟩ := encodeBlock_spec h
  have hgood := encodeGroups_good h h1
  have hk : ∀ f ∈ blk, ∃ k, (k = 1 ∨ k = 2) ∧ GoodFam k f := by
    intro f hf
    obtain ⟨k, hg⟩ := hgood f hf
    have hm : f.addressFamily ∈ blk.map AddrFamily.addressFamily := List.mem_map_of_mem hf
    have := h2.subset hm
    rw [hg.1] at this
    exact ⟨k, by simpa using this, hg⟩
  refine ⟨blk.map famSpec, tlv 0x30 (blk.map marshalFamily).flatten, ?_, ?_, ?_, ?_, ?_⟩
  · simp [encodeIPExt, h1]
  · refine ⟨blk.map marshalFamily, ?_, tlv_elem _ _⟩
    refine forall₂_map_right famSpec marshalFamily blk ?_
    intro f hf
    obtain ⟨k, hk1, hk2⟩ := hk f hf
    exact (famSpec_der hk1 hk2).1
  · have : (blk.map famSpec).map Family.afi = (blk.map AddrFamily.addressFamily).map (fun n => if n = [0, 1] then Afi.v4 else .v6) := by
      simp [famSpec]
    rw [this]
    exact h2.map _
  · intro f hf
    obtain ⟨x, hx, rfl⟩ := List.mem_map.mp hf
    obtain ⟨k, hk1, hk2⟩ := hk x hx
    exact ⟨rfl, (famSpec_der hk1 hk2).2.2⟩
  · rw [← h3]
    clear h1 h2 h3 hgood
    unfold decodeIPAddressBlock
    induction blk with
    | nil => exact .nil
    | cons f blk ih =>
      simp only [List.map_cons, List.flatMap_cons]
      obtain ⟨k, hk1, hk2⟩ := hk f (by simp)
      obtain ⟨-, k2, k3⟩ := famSpec_der hk1 hk2
      exact List.rel_append (decodeFamily_stands k2 k3 (fun _ => rfl)) (ih (fun x hx => hk x (by simp [hx])))

end Verif.Ext
