import Verif.Model.Cert
/-
  Model of validator/lib/roa.go: entries, their checks, and the ROA content.
-/
set_option autoImplicit false

namespace Verif.Roa
open Net Cert

/-- roa.go:36-39 `ROAEntry`. `IPNet` is a pointer; the decoder always sets it (roa.go:224-227
    returns when DecodeIP fails), so it is never nil here. -/
structure ROAEntry where
  ipnet : IPNet
  maxLength : Int
  deriving Repr, DecidableEq

/-- roa.go:156-173 `ROAEntry.Validate`. -/
def ROAEntry.validate (e : ROAEntry) : Go Unit :=
  let s := maskSize e.ipnet.mask
  if e.maxLength < s then .err "Max length is smaller than prefix length"
  else if e.maxLength < 0 then .err "max length is less than 0"
  else if (to4 e.ipnet.ip).isSome ∧ e.maxLength > 32 then .err "max length too small for IPv4 prefix"
  else if e.maxLength > 128 then .err "max length too small for IPv6 prefix"
  else .ok ()

/-- roa.go:183-191 `ValidateEntries`. -/
def validateEntries : List ROAEntry → Go Unit
  | [] => .ok ()
  | e :: rest => do
    e.validate
    validateEntries rest

/-- roa.go:197-210: one round of the loop. An entry whose range cannot be computed is put in the
    invalid list, and then the check goes on with nil addresses. -/
def roaStep (cert : List IPInfo) (s : Split ROAEntry) (e : ROAEntry) : Go (Split ROAEntry) := do
  let r := match getRangeIP (some e.ipnet) with
    | .ok (b, x) => (s, b, x)
    | _ => ({ s with invalids := s.invalids ++ [e] }, [], [])
  let v ← isIPRangeInCertificate cert r.2.1 r.2.2
  if v.1 then return { r.1 with valids := r.1.valids ++ [e] }
  else if v.2 then return { r.1 with checkParents := r.1.checkParents ++ [e] }
  else return { r.1 with invalids := r.1.invalids ++ [e] }

/-- roa.go:193-212 `ValidateIPRoaCertificateList`, from the lists built so far. -/
def roaSplitFrom (cert : List IPInfo) : Split ROAEntry → List ROAEntry → Go (Split ROAEntry)
  | s, [] => .ok s
  | s, e :: rest => do
    let s' ← roaStep cert s e
    roaSplitFrom cert s' rest

/-- roa.go:193-212 `ValidateIPRoaCertificateList`. -/
def validateIPRoaCertificateList (entries : List ROAEntry) (cert : List IPInfo) : Go (Split ROAEntry) :=
  roaSplitFrom cert ⟨[], [], []⟩ entries

/-- roa.go:16-24 `ROAAddressFamily` with its `ROAIPAddresses` (address, max length; an absent max
    length is -1). -/
structure ROAFamily where
  addressFamily : Bytes
  addresses : List (BitString × Int)
  deriving Repr, DecidableEq

/-- roa.go:26-29 `ROAContent`. -/
structure ROAContent where
  asid : Int
  blocks : List ROAFamily
  deriving Repr, DecidableEq

/-- roa.go:223-239: the inner loop of `ConvertROAEntries`. -/
def convertAddrs (fam : Bytes) : List (BitString × Int) → Go (List ROAEntry)
  | [] => .ok []
  | a :: rest => do
    let n ← decodeIP fam a.1
    let r ← convertAddrs fam rest
    return ⟨n, if a.2 < 0 then (maskSize n.mask : Int) else a.2⟩ :: r

/-- roa.go:222-240: the outer loop. -/
def convertBlocks : List ROAFamily → Go (List ROAEntry)
  | [] => .ok []
  | f :: rest => do
    let a ← convertAddrs f.addressFamily f.addresses
    let r ← convertBlocks rest
    return a ++ r

/-- roa.go:218-242 `ConvertROAEntries`. (On error Go also returns the entries read so far;
    DecodeROA, the only caller, drops them.) -/
def convertROAEntries (c : ROAContent) : Go (List ROAEntry × Int) := do
  let e ← convertBlocks c.blocks
  return (e, c.asid)

/-- roa.go:62-65: the group of an entry. -/
def roaAfi (e : ROAEntry) : UInt8 := if (to4 e.ipnet.ip).isSome then 1 else 2

/-- roa.go:94-111: one address family of the content. -/
def encodeROAFamily (version : UInt8) (entries : List ROAEntry) : ROAFamily :=
  ⟨[0, version], entries.map (fun e => (ipNetToBitString e.ipnet, e.maxLength))⟩

/-- roa.go:79-118 `EncodeROAEntries` up to the content that is marshalled: non-empty groups in
    increasing order of family (the only keys are 1 and 2). -/
def encodeROAEntries (asn : Int) (entries : List ROAEntry) : ROAContent :=
  let g1 := entries.filter (fun e => roaAfi e = 1)
  let g2 := entries.filter (fun e => roaAfi e = 2)
  ⟨asn, (if g1 = [] then [] else [encodeROAFamily 1 g1]) ++ (if g2 = [] then [] else [encodeROAFamily 2 g2])⟩

end Verif.Roa
