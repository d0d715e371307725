import Verif.Model.ResJson
import Verif.Spec.Published
/-
  Specification for C84: what an entry of resources.json says, and what stands behind it.
-/
set_option autoImplicit false

namespace Verif.EndSpec
open Pki PkiSpec Manager EndToEnd Net Cert ResJson

/-- A time that is `s` seconds after 1970, between the years 1677 and 2262. -/
def AtSecond (t s : Int) : Prop := t = s * 1000000000 ∧ -9223372036 ≤ s ∧ s ≤ 9223372036

/-- The entry names the key ids, the serial number and the validity period of the certificate, and the file. -/
structure Shows (sha : Bytes → Bytes) (run : TalRun) (m : M) (c : Cert) (fid : Nat) (f : PKIFile) (e : OutRes) : Prop where
  ski : e.ski = hexString c.ski
  aki : e.aki = hexString c.aki
  serial : e.serial = Out.intText c.serial
  notBefore : ∀ s, AtSecond c.notBefore s → e.validFrom = s
  notAfter : ∀ s, AtSecond c.notAfter s → e.validTo = s
  path : e.path = m.pathOf fid
  hash : ∀ d s, run.reread f = .found d s → e.hash = hexString (sha d)

/-- A 32-bit number. -/
def InU32 (n : Int) : Prop := 0 ≤ n ∧ n < 2 ^ 32

/-- What a reader of resources.json understands of one AS resource. -/
def readAS (j : List (Bytes × JVal)) : Option ASInfo :=
  match j.lookup (asc "asn-range".toList), j.lookup (asc "asn".toList), j.lookup (asc "inherit".toList) with
  | some (.nums [a, b]), _, _ => some (.range a.toNat b.toNat)
  | _, some (.num a), _ => some (.asn a.toNat)
  | _, _, some (.bool true) => some .null
  | _, _, _ => none

/-- What the text of one IP resource says: a prefix, the two ends of a range, or the family that is inherited. -/
def ShowsIP : IPInfo → OutIP → Prop
  | .net (some n), o => o = ⟨ipNetString n, [], 0⟩
  | .net none, o => o.range = [] ∧ o.inherit = 0
  | .range a b, o => o = ⟨[], [ipString a, ipString b], 0⟩
  | .null fam, o => o = ⟨[], [], fam.toNat⟩

/-- The entry shows the resources of the certificate, one by one. -/
structure ShowsRes (c : Cert) (e : OutRes) : Prop where
  sias : e.sias = c.sia.map (·.2)
  numIPs : e.ips.length = c.ips.length
  ips : ∀ (i : Nat) (x : IPInfo) (o : OutIP), c.ips[i]? = some x → e.ips[i]? = some o → ShowsIP x o
  numASs : e.asns.length = c.asns.length
  /-- An AS resource can be read from the file. (Not so AS 0: `C84_violated_values`.) -/
  asns : ∀ (i : Nat) (a : ASInfo) (o : OutASN), c.asns[i]? = some a → e.asns[i]? = some o →
    (match a with | .asn n => InU32 n ∧ n ≠ 0 | .range x y => InU32 x ∧ InU32 y | .null => True) → readAS o.json = some a

/-- The file is where the TAL says that the trust anchor is. -/
def AtAnchor (W : World) (f0 f : PKIFile) : Prop :=
  ∃ n0 d0 s0 t, W.getFile n0 f0.path f0 = .found d0 s0 ∧ Tal.decodeTAL W.env.asn d0 = .ok t ∧ f.path = t.getRsyncURI W.env.sha1

/-- A manifest with a good signature that the FileSeeker gave lists the file with this hash. -/
def ListedWith (W : World) (m : M) (f : PKIFile) (hash : Bytes) : Prop :=
  ∃ p pf n data sha mft, f.parent = some p ∧ m.files[p]? = some pf ∧ pf.type = .mft ∧ W.getFile n (m.pathOf p) pf = .found data sha ∧
    W.env.parseMft data = .ok mft ∧ mft.innerValid = true ∧ (f.path, hash) ∈ mft.fileList

/-- The files but the TAL can be read again, and the hash that came with a file is that of what is read again. -/
def Steady (sha : Bytes → Bytes) (run : TalRun) (m : M) : Prop :=
  ∀ (fid : Nat) (f : PKIFile) (n : Nat) (d : Bytes) (s : Option Bytes), m.files[fid]? = some f → f.type ≠ .tal →
    run.world.getFile n (m.pathOf fid) f = .found d s → ∃ d' s', run.reread f = .found d' s' ∧ s = some (sha d')

/-- The entry has the name of TAL number `i`. -/
def NamedAs (names : List Bytes) (n i : Nat) (run : TalRun) (e : OutRes) : Prop :=
  (names.length = n → names[i]? = some e.ta) ∧ (names.length ≠ n → e.ta = run.path)

end Verif.EndSpec
