import Verif.Model.EndToEnd
/-
  The file resources.json of the command octorpki: the certificates, ROAs and manifests found valid.
  Files cmd/octorpki/octorpki.go and api/schemas/schemas.go.
-/
set_option autoImplicit false

namespace Verif.ResJson
open Pki Manager Out EndToEnd Net Cert Roa

/-- `time.Time.UnixNano`: the nanoseconds since 1970 in an int64, silently wrapped. -/
def unixNano (t : Int) : Int := (t + 2 ^ 63) % 2 ^ 64 - 2 ^ 63

/-- octorpki.go:809-810: `int(t.UnixNano() / 1000000000)`; Go divides towards zero. -/
def seconds (t : Int) : Int := (unixNano t).tdiv 1000000000

/-- `uint32(x)` of an int. -/
def toUint32 (n : Int) : UInt32 := UInt32.ofNat (n % 2 ^ 32).toNat

/-- schemas.go:8-12 `OutputASN`. -/
structure OutASN where
  asn : UInt32
  range : List UInt32
  inherit : Bool
  deriving Repr, DecidableEq

/-- octorpki.go:833-850. -/
def outASN : ASInfo → OutASN
  | .range min max => ⟨0, [toUint32 min, toUint32 max], false⟩
  | .null => ⟨0, [], true⟩
  | .asn a => ⟨toUint32 a, [], false⟩

/-- A value of the JSON object of an AS resource. -/
inductive JVal where
  | num (n : UInt32)
  | nums (l : List UInt32)
  | bool (b : Bool)
  deriving Repr, DecidableEq

/-- schemas.go:8-12: the members of the JSON object; those with empty values are left out (`omitempty`). -/
def OutASN.json (o : OutASN) : List (Bytes × JVal) :=
  (if o.asn = 0 then [] else [(asc "asn".toList, .num o.asn)]) ++
  (if o.range = [] then [] else [(asc "asn-range".toList, .nums o.range)]) ++
  (if o.inherit then [(asc "inherit".toList, .bool true)] else [])

/-- schemas.go:14-18 `OutputIP`. -/
structure OutIP where
  prefixText : Bytes
  range : List Bytes
  inherit : Int
  deriving Repr, DecidableEq

/-- octorpki.go:856-873. `nilNet` is what `String` of a nil `*net.IPNet` does: it depends on the version of Go
    whether it is a nil dereference or the text "<nil>". -/
def outIP (nilNet : Go Bytes) : IPInfo → Go OutIP
  | .range min max => .ok ⟨[], [ipString min, ipString max], 0⟩
  | .net (some n) => .ok ⟨ipNetString n, [], 0⟩
  | .net none => do
    let s ← nilNet
    return ⟨s, [], 0⟩
  | .null family => .ok ⟨[], [], family.toNat⟩

/-- octorpki.go:855: one after the other. -/
def outIPs (nilNet : Go Bytes) : List IPInfo → Go (List OutIP)
  | [] => .ok []
  | i :: rest => do
    let o ← outIP nilNet i
    let l ← outIPs nilNet rest
    return o :: l

/-- The three kinds of entries (`Type`). -/
inductive Kind where
  | certificate
  | roa
  | manifest
  deriving Repr, DecidableEq

/-- schemas.go:21-52 `OutputRes`. Not modelled: `Name` (the common name of the certificate), `Emitted` (the signing
    time of a ROA), `ManifestNumber`, and `State` and `Visible`, which octorpki never sets. -/
structure OutRes where
  kind : Kind
  ski : Bytes
  aki : Bytes
  path : Bytes
  hash : Bytes
  ta : Bytes
  sias : List Bytes
  ips : List OutIP
  asns : List OutASN
  roas : List (Bytes × Int)
  asn : UInt32
  validFrom : Int
  validTo : Int
  serial : Bytes
  files : List Bytes
  thisUpdate : Int
  nextUpdate : Int
  deriving Repr, DecidableEq

/-- octorpki.go:798-807, 886-895, 951-960: path and hash. The file is read again, as it is stored; when that fails
    the hash is empty; `nil, nil` is a nil dereference. -/
def fileInfo (sha : Bytes → Bytes) (r : TalRun) (m : M) (file : Option Nat) : Go (Bytes × Bytes) :=
  match file with
  | none => .ok ([], [])
  | some i =>
    match m.files[i]? with
    | none => .panic
    | some f =>
      match r.reread f with
      | .absent => .panic
      | .fail => .ok (m.pathOf i, [])
      | .found d _ => .ok (m.pathOf i, hexString (sha d))

/-- octorpki.go:795-796, 809-825: the fields that come from the certificate, the EE certificate for ROAs and manifests. -/
def baseRes (kind : Kind) (ta : Bytes) (c : Cert) (info : Bytes × Bytes) : OutRes :=
  { kind := kind, ski := hexString c.ski, aki := hexString c.aki, path := info.1, hash := info.2, ta := ta,
    sias := [], ips := [], asns := [], roas := [], asn := 0, validFrom := seconds c.notBefore, validTo := seconds c.notAfter,
    serial := intText c.serial, files := [], thisUpdate := 0, nextUpdate := 0 }

/-- octorpki.go:791-878: the entry of a valid object, if its type is TYPE_CER. -/
def cerRes (sha : Bytes → Bytes) (nilNet : Go Bytes) (ta : Bytes) (r : TalRun) (m : M) (k : Bytes) : Go (List OutRes) :=
  match m.v.validObjects.get k with
  | none => .panic
  | some j =>
    match m.v.heap[j]? with
    | none => .panic
    | some res =>
      if res.type = .cer then
        match res.data with
        | .cert c => do
          let info ← fileInfo sha r m res.file
          let ips ← outIPs nilNet c.ips
          return [{ baseRes .certificate ta c info with
            sias := c.sia.map (·.2), ips := ips, asns := c.asns.map outASN }]
        | _ => .panic
      else .ok []

/-- octorpki.go:884-941: the entry of a valid ROA. -/
def roaRes (sha : Bytes → Bytes) (ta : Bytes) (r : TalRun) (m : M) (k : Bytes) : Go (List OutRes) :=
  match m.v.validROA.get k with
  | none => .panic
  | some j =>
    match m.v.heap[j]? with
    | none => .panic
    | some res =>
      match res.data with
      | .roa roa => do
        let info ← fileInfo sha r m res.file
        return [{ baseRes .roa ta roa.cert info with
          asn := toUint32 roa.asn, roas := roa.valids.map fun e => (ipNetString e.ipnet, e.maxLength) }]
      | _ => .panic

/-- octorpki.go:949-994: the entry of a valid manifest. -/
def mftRes (sha : Bytes → Bytes) (ta : Bytes) (r : TalRun) (m : M) (k : Bytes) : Go (List OutRes) :=
  match m.v.validManifest.get k with
  | none => .panic
  | some j =>
    match m.v.heap[j]? with
    | none => .panic
    | some res =>
      match res.data with
      | .mft mft => do
        let info ← fileInfo sha r m res.file
        return [{ baseRes .manifest ta mft.cert info with
          files := mft.fileList.map (·.1), thisUpdate := seconds mft.thisUpdate, nextUpdate := seconds mft.nextUpdate }]
      | _ => .panic

/-- A loop over the keys of a map, in some order. -/
def walkKeys (f : Bytes → Go (List OutRes)) : List Bytes → Go (List OutRes)
  | [] => .ok []
  | k :: rest => do
    let a ← f k
    let l ← walkKeys f rest
    return a ++ l

/-- The orders in which the maps of valid objects and of valid manifests are walked (Go leaves them open; the one for
    ROAs is in `TalRun`, as it is the same loop that makes the list). -/
structure Walk where
  cer : List Bytes → List Bytes
  mft : List Bytes → List Bytes
  permCer : ∀ l, (cer l).Perm l
  permMft : ∀ l, (mft l).Perm l

/-- octorpki.go:783-998: the entries of one TAL. -/
def talRes (sha : Bytes → Bytes) (nilNet : Go Bytes) (ta : Bytes) (w : Walk) (r : TalRun) (m : M) : Go (List OutRes) := do
  let a ← walkKeys (cerRes sha nilNet ta r m) (w.cer (keysOf m.v.validObjects))
  let b ← walkKeys (roaRes sha ta r m) (r.order (keysOf m.v.validROA))
  let c ← walkKeys (mftRes sha ta r m) (w.mft (keysOf m.v.validManifest))
  return a ++ b ++ c

/-- octorpki.go:782-998: the entries of all TALs; `n` is the number of TALs, `i` the number of the first of the list. -/
def allRes (sha : Bytes → Bytes) (nilNet : Go Bytes) (names : List Bytes) (n : Nat) (w : Nat → Walk) :
    Nat → List (TalRun × M) → Go (List OutRes)
  | _, [] => .ok []
  | i, (r, m) :: rest => do
    let a ← talRes sha nilNet (talName names n i r.path) (w i) r m
    let l ← allRes sha nilNet names n w (i + 1) rest
    return a ++ l

/-- octorpki.go:1037-1142 `mainValidation` with 771-1022 `generateROAList`, resources.json included. -/
def mainResources (sha : Bytes → Bytes) (nilNet : Go Bytes) (w : Nat → Walk) (fl : Flags) (names : List Bytes) (now : Int)
    (runs : List TalRun) : Go (List (TalRun × M) × ROAList × List OutRes) := do
  let x ← mainValidation fl names now runs
  let rs ← allRes sha nilNet names runs.length w 0 x.1
  return (x.1, x.2, rs)

end Verif.ResJson
