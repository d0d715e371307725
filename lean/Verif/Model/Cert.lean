import Verif.Model.Net
/-
  Model of the resource part of validator/lib/cert.go and of GetRangeIP in roa.go.
-/
set_option autoImplicit false

namespace Verif.Cert
open Net

/-- roa.go:136-151 `GetRangeIP`, on a non-nil argument: `begin = ip & mask`, `end = ip | ^mask`,
    error if the mask is shorter than the address. -/
def rangeBytes : (ip mask : Bytes) → Option (Bytes × Bytes)
  | [], _ => some ([], [])
  | _ :: _, [] => none
  | a :: as, m :: ms =>
    match rangeBytes as ms with
    | none => none
    | some (b, e) => some ((a &&& m) :: b, (a ||| ~~~m) :: e)

/-- roa.go:136-151 `GetRangeIP`. The argument is a pointer: nil panics at `ipnet.IP`. -/
def getRangeIP (ipnet : Option IPNet) : Go (Bytes × Bytes) :=
  match ipnet with
  | none => .panic
  | some n =>
    match rangeBytes n.ip n.mask with
    | some r => .ok r
    | none => .err "Invalid IP address mask"

/-- cert.go:43, 76, 143: the three implementations of `IPCertificateInformation`.
    `net` holds a pointer that may be nil (cert.go:331 ignores DecodeIP's error). -/
inductive IPInfo where
  | net (n : Option IPNet)
  | range (min max : Bytes)
  | null (family : UInt8)
  deriving Repr, DecidableEq

/-- cert.go:51-53, 85-92, 151-158 `IsIPInRange`: (in range, check parent). -/
def IPInfo.isIPInRange (i : IPInfo) (ip : Bytes) : Go (Bool × Bool) :=
  match i with
  | .net none => .panic
  | .net (some n) => .ok (contains n ip, false)
  | .range min max =>
    if ip.length ≠ min.length ∨ ip.length ≠ max.length then .ok (false, false)
    else .ok (bytesLe min ip && bytesLe ip max, false)
  | .null family =>
    if family = 1 ∧ (to4 ip).isSome then .ok (false, true)
    else if family = 2 ∧ (to4 ip).isNone ∧ to16IsSome ip then .ok (false, true)
    else .ok (false, false)

/-- cert.go:64-70, 103-105, 164-166 `GetRange`: (min, max, check parent). -/
def IPInfo.getRange (i : IPInfo) : Go (Bytes × Bytes × Bool) :=
  match i with
  | .net n =>
    match getRangeIP n with
    | .ok (b, e) => .ok (b, e, false)
    | .err _ => .ok ([], [], false)
    | .panic => .panic
    | .diverge => .diverge
  | .range min max => .ok (min, max, false)
  | .null _ => .ok ([], [], true)

/-- `To4() != nil → 1, To16() != nil → 2, else 0` (cert.go:56-61 and 95-100). -/
def afiOf (ip : Bytes) : UInt8 :=
  if (to4 ip).isSome then 1 else if to16IsSome ip then 2 else 0

/-- cert.go:55-62, 94-101, 160-162 `GetAfi`. -/
def IPInfo.getAfi (i : IPInfo) : Go UInt8 :=
  match i with
  | .net none => .panic
  | .net (some n) => .ok (afiOf n.ip)
  | .range min _ => .ok (afiOf min)
  | .null family => .ok family

/-- cert.go:467-480 `IsIPRangeInCertificate`, on the certificate's `IPAddresses`. -/
def isIPRangeInCertificate : (ips : List IPInfo) → (min max : Bytes) → Go (Bool × Bool)
  | [], _, _ => .ok (false, false)
  | ip :: rest, min, max => do
    let a ← ip.isIPInRange min
    let b ← ip.isIPInRange max
    if a.1 && b.1 then return (true, false)
    else if a.2 || b.2 then return (false, true)
    else isIPRangeInCertificate rest min max

/-- The three result lists of the `Validate…List` functions. -/
structure Split (α : Type) where
  valids : List α
  invalids : List α
  checkParents : List α
  deriving Repr, DecidableEq

/-- cert.go:501-515: the verdict for one resource. -/
inductive Verdict where
  | valid | invalid | checkParent
  deriving Repr, DecidableEq

/-- cert.go:502-514: one round of the loop of `ValidateIPCertificateList`. -/
def classifyIP (parent : List IPInfo) (ip : IPInfo) : Go Verdict := do
  let r ← ip.getRange
  if r.2.2 then return .valid
  else
    let v ← isIPRangeInCertificate parent r.1 r.2.1
    if v.1 then return .valid
    else if v.2 then return .checkParent
    else return .invalid

/-- `append` to the list chosen by the verdict. -/
def Split.add {α : Type} (s : Split α) (v : Verdict) (a : α) : Split α :=
  match v with
  | .valid => { s with valids := s.valids ++ [a] }
  | .invalid => { s with invalids := s.invalids ++ [a] }
  | .checkParent => { s with checkParents := s.checkParents ++ [a] }

/-- The loop shared by the `Validate…List` functions, from the lists built so far. -/
def splitFrom {α : Type} (classify : α → Go Verdict) : Split α → List α → Go (Split α)
  | s, [] => .ok s
  | s, a :: rest => do
    let v ← classify a
    splitFrom classify (s.add v a) rest

/-- cert.go:497-517 `ValidateIPCertificateList`. -/
def validateIPCertificateList (list parent : List IPInfo) : Go (Split IPInfo) :=
  splitFrom (classifyIP parent) ⟨[], [], []⟩ list

/-- cert.go:189, 210, 230: the three implementations of `ASNCertificateInformation`. -/
inductive ASInfo where
  | range (min max : Int)
  | asn (a : Int)
  | null
  deriving Repr, DecidableEq

/-- cert.go:198-200, 218-220, 237-239 `IsASNInRange`. -/
def ASInfo.isASNInRange (i : ASInfo) (a : Int) : Bool × Bool :=
  match i with
  | .range min max => (decide (a ≥ min) && decide (a ≤ max), false)
  | .asn b => (decide (a = b), false)
  | .null => (false, true)

/-- cert.go:202-204, 222-224, 241-243 `GetRange`. -/
def ASInfo.getRange (i : ASInfo) : Int × Int × Bool :=
  match i with
  | .range min max => (min, max, false)
  | .asn a => (a, a, false)
  | .null => (0, 0, true)

/-- cert.go:482-494 `IsASRangeInCertificate`. -/
def isASRangeInCertificate : (asns : List ASInfo) → (min max : Int) → Bool × Bool
  | [], _, _ => (false, false)
  | a :: rest, min, max =>
    let x := a.isASNInRange min
    let y := a.isASNInRange max
    if x.1 && y.1 then (true, false)
    else if x.2 || y.2 then (false, true)
    else isASRangeInCertificate rest min max

/-- cert.go:528-540: one round of the loop of `ValidateASNCertificateList`. -/
def classifyAS (parent : List ASInfo) (a : ASInfo) : Verdict :=
  let r := a.getRange
  if r.2.2 then .valid
  else
    let v := isASRangeInCertificate parent r.1 r.2.1
    if v.1 then .valid else if v.2 then .checkParent else .invalid

/-- cert.go:523-543 `ValidateASNCertificateList` (never panics). -/
def validateASNCertificateList (list parent : List ASInfo) : Go (Split ASInfo) :=
  splitFrom (fun a => .ok (classifyAS parent a)) ⟨[], [], []⟩ list

/-- cert.go:563-574 `ValidateTime` on a certificate that is present; times are instants
    (nanoseconds as integers). -/
def validateTime (notBefore notAfter comp : Int) : Go Unit :=
  if notBefore > comp then .err "Certificate beginning of validity is after"
  else if comp > notAfter then .err "Certificate end of validity is before"
  else .ok ()

/-! ### Decoding and encoding of IP resources (values of the ASN.1 types) -/

/-- `asn1.BitString`. -/
structure BitString where
  bytes : Bytes
  bitLength : Nat
  deriving Repr, DecidableEq

/-- `copy(make([]byte, size), src)` -/
def copyInto (size : Nat) (src : Bytes) : Bytes :=
  src.take size ++ List.replicate (size - src.length) 0

/-- cert.go:250-254 and 269-273: the size chosen from the address family, `none` if rejected. -/
def familySize (addrfamily : Bytes) : Option Nat :=
  match addrfamily with
  | _ :: b :: _ => if b = 1 then some 4 else if b = 2 then some 16 else none
  | _ => none

/-- cert.go:249-266 `DecodeIP`. -/
def decodeIP (addrfamily : Bytes) (addr : BitString) : Go IPNet :=
  match familySize addrfamily with
  | some size => .ok ⟨copyInto size addr.bytes, cidrMask addr.bitLength (size * 8)⟩
  | none => .err "Not an IP address"

/-- cert.go:277-279 and 283-285: the bytes after the one holding bit `bitLength` become 0xFF and
    that byte's low bits become ones. -/
def fillOnes (bitLength : Nat) (ip : Bytes) : Bytes :=
  let k := bitLength / 8
  let ip := ip.take (k + 1) ++ List.replicate (ip.length - (k + 1)) 0xff
  if k < ip.length then
    ip.modify k (fun b => b ||| ((0xff : UInt8) >>> (8 - (8 * (k + 1) - bitLength)).toUInt8))
  else ip

/-- cert.go:268-291 `DecodeIPMinMax`. -/
def decodeIPMinMax (addrfamily : Bytes) (addr : BitString) (max : Bool) : Go Bytes :=
  match familySize addrfamily with
  | some size =>
    let ip := copyInto size addr.bytes
    if max then
      if addr.bitLength / 8 > ip.length then .err "Error converting ip address"
      else .ok (fillOnes addr.bitLength ip)
    else .ok ip
  | none => .err "Not an IP address"

/-- One element of `SEQUENCE OF IPAddressOrRange` (cert.go:323-353). -/
inductive AddrOrRange where
  | prefix (b : BitString)
  | range (min max : BitString)
  deriving Repr, DecidableEq

/-- `IPAddressChoice` (cert.go:307, 316). -/
inductive AddrChoice where
  | inherit
  | addresses (l : List AddrOrRange)
  deriving Repr, DecidableEq

/-- cert.go:294-297 `IPAddressFamily`. -/
structure AddrFamily where
  addressFamily : Bytes
  choice : AddrChoice
  deriving Repr, DecidableEq

/-- Go code of the form `a, _ := f()`: the value on success, the zero value (nil) on error. -/
def orNil (x : Go Bytes) : Bytes :=
  match x with
  | .ok b => b
  | _ => []

/-- cert.go:323-353: one address or range. -/
def decodeAddrOrRange (fam : Bytes) : AddrOrRange → IPInfo
  | .prefix b =>
    match decodeIP fam b with
    | .ok n => .net (some n)
    | _ => .net none
  | .range min max =>
    .range (orNil (decodeIPMinMax fam min false)) (orNil (decodeIPMinMax fam max true))

/-- cert.go:306-356: one address family of the extension. -/
def decodeFamily (f : AddrFamily) : List IPInfo :=
  match f.choice with
  | .inherit =>
    match f.addressFamily with
    | [_, b] => [.null (if b = 1 then 1 else if b = 2 then 2 else 0)]
    | _ => [.null 0]
  | .addresses l => l.map (decodeAddrOrRange f.addressFamily)

/-- cert.go:293-358 `DecodeIPAddressBlock`, after `asn1.Unmarshal` has produced the list of
    families (ASN.1 parsing errors and elements of other tags, which are skipped, are left out). -/
def decodeIPAddressBlock (blk : List AddrFamily) : List IPInfo := blk.flatMap decodeFamily

/-- cert.go:107-118 `IPToBitString`; `[]byte(ip)[12:]` panics for a 4-byte address. -/
def ipToBitString (ip : Bytes) : Go BitString :=
  match to4 ip with
  | none => .ok ⟨ip, 128⟩
  | some _ => if ip.length < 12 then .panic else .ok ⟨ip.drop 12, 32⟩

/-- cert.go:126-129: `prefixBytes[i] = IP[i] & Mask[i]` for `i < len(IP)` and `i < sizeBytes`,
    zero elsewhere. (`sizeBytes` never exceeds the length of the mask.) -/
def prefixBytes : (sizeBytes : Nat) → (ip mask : Bytes) → Bytes
  | 0, _, _ => []
  | n + 1, a :: as, m :: ms => (a &&& m) :: prefixBytes n as ms
  | n + 1, _, _ => 0 :: prefixBytes n [] []

/-- cert.go:120-135 `IPNetToBitString`. -/
def ipNetToBitString (n : IPNet) : BitString :=
  let size := maskSize n.mask
  let sizeBytes := if size % 8 > 0 then size / 8 + 1 else size / 8
  ⟨prefixBytes sizeBytes n.ip n.mask, size⟩

/-- cert.go:72-74, 137-139: `ASN1()` of a prefix or a range, as an ASN.1 value. -/
def encodeAddrOrRange : IPInfo → Go AddrOrRange
  | .net none => .panic
  | .net (some n) => .ok (.prefix (ipNetToBitString n))
  | .range min max => do
    let a ← ipToBitString min
    let b ← ipToBitString max
    return .range a b
  | .null _ => .err "handled by the caller"

/-- cert.go:781-798: the loop of `EncodeIPAddressBlockVersion` (`addSafi` is always false). -/
def encodeVersion (version : UInt8) : (ips : List IPInfo) → (acc : List AddrOrRange) → Go AddrFamily
  | [], acc => .ok ⟨[0, version], .addresses acc⟩
  | .null _ :: _, _ => .ok ⟨[0, version], .inherit⟩
  | ip :: rest, acc => do
    let a ← encodeAddrOrRange ip
    encodeVersion version rest (acc ++ [a])

/-- cert.go:651-664 `GroupIPAddressBlock`: the list stored under key `afi`. -/
def groupOf (afi : UInt8) : List IPInfo → Go (List IPInfo)
  | [] => .ok []
  | ip :: rest => do
    let a ← ip.getAfi
    let g ← groupOf afi rest
    return if a = afi then ip :: g else g

/-- cert.go:731-760 `EncodeIPAddressBlock`: the non-empty groups in increasing order of family.
    The key is a byte, so the sorted key list is the sublist of 0..255 with a non-empty group. -/
def encodeGroups (ips : List IPInfo) : (keys : List UInt8) → Go (List AddrFamily)
  | [] => .ok []
  | k :: ks => do
    let g ← groupOf k ips
    if g = [] then encodeGroups ips ks
    else
      let f ← encodeVersion k g []
      let r ← encodeGroups ips ks
      return f :: r

def allKeys : List UInt8 := (List.range 256).map (fun n => n.toUInt8)

/-- cert.go:731-760 `EncodeIPAddressBlock`, as an ASN.1 value. -/
def encodeIPAddressBlock (ips : List IPInfo) : Go (List AddrFamily) := encodeGroups ips allKeys

/-! ### AS resources -/

/-- An ASN.1 value, as far as the AS extension distinguishes them. -/
inductive AsnVal where
  | null
  | int (n : Int)
  | seq (l : List AsnVal)
  | other
  deriving Repr

/-- cert.go:206-208, 226-228, 245-247 `ASN1()`. -/
def ASInfo.asn1 : ASInfo → AsnVal
  | .range min max => .seq [.int min, .int max]
  | .asn a => .int a
  | .null => .null

/-- cert.go:808-821: the loop of `EncodeASNSeq`; `true` when it returned at an inherit entry. -/
def asnSeqLoop : List ASInfo → List AsnVal → List AsnVal × Bool
  | [], acc => (acc, false)
  | .null :: _, acc => (acc ++ [.null], true)
  | a :: rest, acc => asnSeqLoop rest (acc ++ [a.asn1])

/-- cert.go:802-830 `EncodeASNSeq`: the list of values placed in the [0] or [1] field. -/
def encodeASNSeq (asns : List ASInfo) : List AsnVal :=
  if asns = [] then []
  else
    let r := asnSeqLoop asns []
    if r.2 then r.1 else [.seq r.1]

/-- cert.go:843-850: one optional field. -/
def encodeASField (l : List ASInfo) : Option (List AsnVal) :=
  if l = [] then none else some (encodeASNSeq l)

/-- cert.go:832-863 `EncodeASN`: contents of the fields [0] and [1]; an empty one is omitted
    (`omitempty`). -/
def encodeASN (nums rdi : List ASInfo) : Option (List AsnVal) × Option (List AsnVal) :=
  (encodeASField nums, encodeASField rdi)

/-- The values of Go's `int` (64 bits); `asn1.Unmarshal` fails on larger integers. -/
def fitsInt (n : Int) : Bool := decide (-2 ^ 63 ≤ n) && decide (n < 2 ^ 63)

/-- cert.go:379-395: one element of the sequence of ids and ranges; other tags are skipped. -/
def decodeASElem : AsnVal → Go (List ASInfo)
  | .seq (.int a :: .int b :: _) =>
    if fitsInt a && fitsInt b then .ok [.range a b] else .err "integer too large"
  | .seq _ => .err "structure error"
  | .int a => if fitsInt a then .ok [.asn a] else .err "integer too large"
  | _ => .ok []

/-- cert.go:378-396: the loop. -/
def decodeASElems : List AsnVal → Go (List ASInfo)
  | [] => .ok []
  | v :: rest => do
    let a ← decodeASElem v
    let r ← decodeASElems rest
    return a ++ r

/-- cert.go:360-399 `DecodeASIdentifier` on the contents of the field: only the first value is
    looked at. -/
def decodeASIdentifier : List AsnVal → Go (List ASInfo)
  | [] => .err "syntax error"
  | .null :: _ => .ok [.null]
  | .seq l :: _ => decodeASElems l
  | _ :: _ => .ok []

/-- cert.go:413-424: one optional field. -/
def decodeASField : Option (List AsnVal) → Go (List ASInfo)
  | none => .ok []
  | some l => decodeASIdentifier l

/-- cert.go:401-426 `DecodeASN`. -/
def decodeASN (e : Option (List AsnVal) × Option (List AsnVal)) : Go (List ASInfo × List ASInfo) := do
  let a ← decodeASField e.1
  let b ← decodeASField e.2
  return (a, b)

end Verif.Cert
