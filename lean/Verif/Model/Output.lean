import Verif.Model.NetText
import Verif.Model.Pki
import Verif.Model.CmsEncode
/-
  What the command octorpki publishes: the list of VRPs (validated ROA payloads), its filters, its
  signature, its entity tag.  Files cmd/octorpki/filter.go, cmd/octorpki/octorpki.go and the vendored
  package github.com/cloudflare/gortr/prefixfile.
-/
set_option autoImplicit false

namespace Verif.Out
open Net Roa

/-- prefixfile.go:81-86 `ROAJson`. The field `ASN` is an `interface{}`; octorpki always puts a string
    there (octorpki.go:926), and only strings are modelled. -/
structure ROAJson where
  prefixText : Bytes
  length : UInt8
  asn : Bytes
  ta : Bytes
  deriving Repr, DecidableEq

/-- prefixfile.go:88-95 `MetaData` (without the serial, which octorpki leaves at zero). -/
structure MetaData where
  counts : Int
  generated : Int
  valid : Int
  signature : Bytes
  signatureDate : Bytes
  deriving Repr, DecidableEq

/-- prefixfile.go:97-100 `ROAList`. -/
structure ROAList where
  metadata : MetaData
  data : List ROAJson
  deriving Repr, DecidableEq

/-- `%v` of an `int`. -/
def intText (i : Int) : Bytes := if i < 0 then 45 :: numText 10 i.natAbs else numText 10 i.natAbs

/-- prefixfile.go:145-147 `String`: `"%v/%v/%v"` of the prefix, the max length and the ASN. -/
def ROAJson.str (r : ROAJson) : Bytes := r.prefixText ++ 47 :: numText 10 r.length.toNat ++ 47 :: r.asn

/-- prefixfile.go:129-140 `GetPrefix2`, `GetPrefix`: nil (`none`) when the text is not a prefix. -/
def ROAJson.getPrefix (r : ROAJson) : Option IPNet := parseCIDR r.prefixText

/-- strconv.ParseUint(s, 10, 32): digits only, at least one, at most 2^32-1. -/
def decLoop : (acc : Nat) → Bytes → Option Nat
  | acc, [] => some acc
  | acc, c :: s =>
    match digitVal 10 c with
    | none => none
    | some d => if acc * 10 + d > 0xffffffff then none else decLoop (acc * 10 + d) s

/-- The same, with the check that there is something to read. -/
def parseUint32 (s : Bytes) : Option Nat := if s = [] then none else decLoop 0 s

/-- strings.TrimLeft(s, "aAsS"). -/
def trimAS : Bytes → Bytes
  | [] => []
  | c :: s => if c = 97 ∨ c = 65 ∨ c = 115 ∨ c = 83 then trimAS s else c :: s

/-- prefixfile.go:102-118 `GetASN2`, `GetASN` of a text: 0 when it cannot be read. -/
def ROAJson.getASN (r : ROAJson) : Nat := (parseUint32 (trimAS r.asn)).getD 0

/-! ### Filters -/

/-- filter.go:28-36 and octorpki.go:600-607: the loop of both functions that remove duplicates; `seen`
    are the keys of the map. -/
def dedupLoop : (seen : List Bytes) → List ROAJson → List ROAJson
  | _, [] => []
  | seen, r :: rest => if r.str ∈ seen then dedupLoop seen rest else r :: dedupLoop (r.str :: seen) rest

/-- filter.go:25-39 `FilterDuplicates`; octorpki.go:597-609 `filterDuplicates` is the same loop. -/
def filterDuplicates (l : List ROAJson) : List ROAJson := dedupLoop [] l

/-- filter.go:8-19: is the VRP kept? `prefix.Mask` on a nil prefix is a nil dereference. -/
def keepLen (r : ROAJson) : Go Bool :=
  match r.getPrefix with
  | none => .panic
  | some p =>
    if (to4 p.ip).isSome then .ok (maskSize p.mask ≤ 24)
    else .ok (maskSize p.mask ≤ 48)

/-- filter.go:5-23 `FilterInvalidPrefixLen`. -/
def filterInvalidPrefixLen : List ROAJson → Go (List ROAJson)
  | [] => .ok []
  | r :: rest => do
    let k ← keepLen r
    let l ← filterInvalidPrefixLen rest
    return if k then r :: l else l

/-! ### List generation -/

/-- octorpki.go:925-930: the VRP of an authorised entry. `uint8(entry.MaxLength)` keeps the low octet. -/
def exportEntry (ta : Bytes) (asn : Int) (e : ROAEntry) : ROAJson :=
  ⟨ipNetString e.ipnet, (e.maxLength % 256).toNat.toUInt8, asc "AS".toList ++ intText asn, ta⟩

/-- What `generateROAList` reads of one trust anchor locator: its name and its valid ROAs, in the
    order in which the map is walked. -/
structure TalResult where
  name : Bytes
  roas : List Pki.ROA

/-- octorpki.go:878-941: the VRPs of one trust anchor locator. -/
def exportTal (t : TalResult) : List ROAJson :=
  t.roas.flatMap fun roa => roa.valids.map (exportEntry t.name roa.asn)

/-- octorpki.go:781-982: the VRPs of all trust anchor locators (`roalist.Data` before the filters). -/
def exportAll (tals : List TalResult) : List ROAJson := tals.flatMap exportTal

/-- octorpki.go:1003-1005: the optional filter. -/
def filterOpt (filter : Bool) (data : List ROAJson) : Go (List ROAJson) :=
  if filter then filterInvalidPrefixLen (filterDuplicates data) else .ok data

/-- octorpki.go:1003-1007: the filters. -/
def filterData (filter : Bool) (data : List ROAJson) : Go (List ROAJson) := do
  let d ← filterOpt filter data
  return filterDuplicates d

/-- octorpki.go:771-1022 `generateROAList` up to the signature: `now` and `validity` in seconds.
    The count is the number of VRPs before the filters. The other outputs (resources.json, metrics)
    are not part of it. -/
def generateROAList (filter : Bool) (now validity : Int) (tals : List TalResult) : Go ROAList := do
  let d ← filterData filter (exportAll tals)
  return ⟨⟨(exportAll tals).length, now, now + validity, [], []⟩, d⟩

/-! ### Signature -/

/-- prefixfile.go:21: `"%v,%v,%v,"` of the prefix, the max length and the ASN. -/
def ROAJson.signText (r : ROAJson) : Bytes :=
  r.prefixText ++ 44 :: numText 10 r.length.toNat ++ 44 :: r.asn ++ [44]

/-- prefixfile.go:19-24: the sorted texts, joined. `sort.Strings` sorts by bytes, as `Der.sortSet`. -/
def ROAList.sorted (l : ROAList) : Bytes := (Der.sortSet (l.data.map ROAJson.signText)).flatten

/-- prefixfile.go:26: what the second digest is made of. -/
def ROAList.datedText (l : ROAList) : Bytes :=
  intText l.metadata.generated ++ 44 :: l.sorted ++ intText l.metadata.valid

/-- prefixfile.go:18-29 `GenerateDigest`; `sha` is SHA-256. -/
def ROAList.generateDigest (sha : Bytes → Bytes) (l : ROAList) : Bytes × Bytes := (sha l.sorted, sha l.datedText)

/-- The ECDSA operations used: `sign seed digest` for the private key, with its randomness, and
    `verify digest r s` for the public key. -/
structure Ecdsa where
  sign : Nat → Bytes → Option (Nat × Nat)
  verify : Bytes → Int → Int → Bool

/-- `ecdsa.PrivateKey.Sign`: the signature as SEQUENCE { r INTEGER, s INTEGER }. -/
def derSig (r s : Nat) : Bytes := Der.tlv 0x30 (Der.tlv 0x02 (Cms.bigIntOctets r) ++ Der.tlv 0x02 (Cms.bigIntOctets s))

/-- prefixfile.go:41-42, 50-51: `asn1.Unmarshal` into `ecdsaSignature`; bytes after the two numbers
    and after the sequence are ignored. -/
def readSig (b : Bytes) : Go (Int × Int) := do
  let q ← Der.parseTyped 16 true b
  let r ← Cms.parseBigInt q.1
  let s ← Cms.parseBigInt r.2
  return (r.1, s.1)

/-- `hex.DecodeString`. -/
def hexDecode : Bytes → Go Bytes
  | [] => .ok []
  | [_] => .err "odd length hex string"
  | a :: b :: rest =>
    match digitVal 16 a, digitVal 16 b with
    | some x, some y => do
      let r ← hexDecode rest
      return (x * 16 + y).toUInt8 :: r
    | _, _ => .err "invalid byte"

/-- prefixfile.go:62-77 `Sign`: both signatures in hexadecimal. -/
def ROAList.sign (sha : Bytes → Bytes) (ec : Ecdsa) (seed1 seed2 : Nat) (l : ROAList) : Go (Bytes × Bytes) :=
  let d := l.generateDigest sha
  match ec.sign seed1 d.1, ec.sign seed2 d.2 with
  | some s1, some s2 => .ok (hexString (derSig s1.1 s1.2), hexString (derSig s2.1 s2.2))
  | _, _ => .err "signature"

/-- octorpki.go:1024-1036 `signROAList`: when signing fails both signatures are empty. -/
def signROAList (sha : Bytes → Bytes) (ec : Ecdsa) (seed1 seed2 : Nat) (l : ROAList) : ROAList :=
  match l.sign sha ec seed1 seed2 with
  | .ok s => { l with metadata := { l.metadata with signature := s.2, signatureDate := s.1 } }
  | _ => { l with metadata := { l.metadata with signature := [], signatureDate := [] } }

/-- prefixfile.go:36-60 `CheckFile`. -/
def ROAList.checkFile (sha : Bytes → Bytes) (ec : Ecdsa) (l : ROAList) : Go (Bool × Bool) := do
  let d := l.generateDigest sha
  let b1 ← hexDecode l.metadata.signatureDate
  let s1 ← readSig b1
  let b2 ← hexDecode l.metadata.signature
  let s2 ← readSig b2
  return (ec.verify d.1 s1.1 s1.2, ec.verify d.2 s2.1 s2.2)

/-! ### Entity tag -/

/-- octorpki.go:1222: what the entity tag is made of. -/
def etagText (l : ROAList) : Bytes := intText l.metadata.generated ++ 47 :: intText l.metadata.counts

/-- octorpki.go:1221-1224: the entity tag. -/
def etag (sha : Bytes → Bytes) (l : ROAList) : Bytes := hexString (sha (etagText l))

/-- octorpki.go:1226-1231: does a request with this If-None-Match header get "304 Not Modified"? -/
def notModified (sha : Bytes → Bytes) (l : ROAList) (ifNoneMatch : Bytes) : Bool :=
  ifNoneMatch ≠ [] ∧ ifNoneMatch = etag sha l

end Verif.Out
