import Verif.Model.Cert
import Verif.Model.Roa
import Verif.Model.Tal
/-
  Model of validator/pki/pki.go: the Validator.

  `*Resource` pointers are shared and mutated (`Childs` grows), so resources live in a heap
  (a list that only grows) and a pointer is an index into it. `*PKIFile` pointers are indices into
  a list of files. Go maps are association lists with at most one entry per key.
-/
set_option autoImplicit false

namespace Verif.Pki
open Net Cert Roa

/-! ### Maps -/

/-- A Go map with string keys. -/
abbrev Map (α : Type) := List (Bytes × α)
/-- `m[k]` -/
def Map.get {α : Type} (m : Map α) (k : Bytes) : Option α := List.lookup k m
/-- `delete(m, k)` -/
def Map.del {α : Type} (m : Map α) (k : Bytes) : Map α := m.filter (fun e => decide (e.1 ≠ k))
/-- `m[k] = a` -/
def Map.set {α : Type} (m : Map α) (k : Bytes) (a : α) : Map α := (k, a) :: Map.del m k

/-! ### Data -/

/-- pki.go:17-27: the file and resource types. -/
inductive FType where
  | unknown | cer | mft | roa | crl | roacer | mftcer | carepo | tal
  deriving Repr, DecidableEq

/-- The access methods that the code tells apart (pki.go:723, 726, octorpki.go:1088-1089). -/
inductive SIAKind where
  | manifest | caRepository | rrdp | other
  deriving Repr, DecidableEq

/-- cert.go:426-436 `RPKICertificate` with the fields of the x509 certificate that the code reads.
    `der` stands for everything else (among it the signature). Times are nanoseconds. -/
structure Cert where
  ski : Bytes
  aki : Bytes
  serial : Int
  notBefore : Int
  notAfter : Int
  ips : List IPInfo
  asns : List ASInfo
  sia : List (SIAKind × Bytes)
  crlDPs : List Bytes
  isRSA : Bool
  pubKey : Tal.PubKey
  der : Bytes
  deriving Repr, DecidableEq

/-- roa.go:41-54 `RPKIROA` (without the signing time and the bad-format flag). -/
structure ROA where
  asn : Int
  entries : List ROAEntry
  cert : Cert
  innerValid : Bool
  valids : List ROAEntry
  invalids : List ROAEntry
  checkParent : List ROAEntry
  deriving Repr, DecidableEq

/-- manifest.go:24-43 `RPKIManifest`: window, list of (name, hash), EE certificate. -/
structure Mft where
  cert : Cert
  thisUpdate : Int
  nextUpdate : Int
  fileList : List (Bytes × Bytes)
  innerValid : Bool
  deriving Repr, DecidableEq

/-- `pkix.CertificateList`: extensions as (is it the authority key identifier, value), the revoked
    serial numbers, and `der` for everything else. -/
structure CRL where
  exts : List (Bool × Bytes)
  revoked : List Int
  der : Bytes
  deriving Repr, DecidableEq

/-- The dynamic type of `Resource.Resource`. -/
inductive ResData where
  | tal (t : Tal.RPKITAL)
  | cert (c : Cert)
  | roa (r : ROA)
  | mft (m : Mft)
  | crl (l : CRL)
  deriving Repr, DecidableEq

/-- pki.go:45-53 `Resource`. -/
structure Res where
  type : FType
  parent : Option Nat
  file : Option Nat
  data : ResData
  childs : List Nat
  certTALValid : Bool
  deriving Repr, DecidableEq

/-- pki.go:269-275 `ObjectToResource`. -/
def objectToResource (d : ResData) : Res := ⟨.unknown, none, none, d, [], false⟩

/-- pki.go:55-65 `GetIdentifier`. -/
def Res.getIdentifier (r : Res) : Option Bytes :=
  match r.data with
  | .cert c => some c.ski
  | .roa r => some r.cert.ski
  | .mft m => some m.cert.ski
  | _ => none

/-- pki.go:247-255 `PKIFile`; `parent` is an index into the list of files. A nil hash is `none`. -/
structure PKIFile where
  parent : Option Nat
  repo : Bytes
  path : Bytes
  type : FType
  trust : Bool
  manifestHash : Option Bytes
  deriving Repr, DecidableEq

/-- pki.go:190-218 `Validator`. (`DecoderConfig` and `Time` are in the environment.) -/
structure V where
  heap : List Res
  tals : Map Nat
  validObjects : Map Nat
  objects : Map Nat
  objectsPath : Map Nat
  certsSerial : Map Nat
  revoked : Map Bool
  validCRL : Map Nat
  crl : Map Nat
  validROA : Map Nat
  roa : Map Nat
  validManifest : Map Nat
  manifest : Map Nat
  deriving Repr, DecidableEq

/-- pki.go:220-245 `NewValidator`. -/
def V.new : V := ⟨[], [], [], [], [], [], [], [], [], [], [], [], []⟩

/-- What the Validator takes from other packages. `checkSig child parent` is
    `child.CheckSignatureFrom(parent) == nil` (cert.go:555), `checkCRLSig` is
    `parent.CheckCRLSignature(crl) == nil` (pki.go:666), the `parse` functions are the decoders
    (for ROAs: the content, the EE certificate and whether the CMS check succeeded, roa.go:258-320),
    `now` is `Validator.Time`. -/
structure Env where
  now : Int
  checkSig : Cert → Cert → Bool
  checkCRLSig : Cert → CRL → Bool
  asn : Tal.Asn
  sha1 : Bytes → Bytes
  parseCert : Bytes → Go Cert
  parseROA : Bytes → Go (ROAContent × Cert × Bool)
  parseMft : Bytes → Go Mft
  parseCRL : Bytes → Go CRL

/-! ### Decimal numbers -/

def digit (n : Nat) : UInt8 := (48 + n).toUInt8
def natDecAux : (fuel n : Nat) → Bytes
  | 0, _ => []
  | f + 1, n => if n < 10 then [digit n] else natDecAux f (n / 10) ++ [digit (n % 10)]
/-- A natural number in decimal. -/
def natDec (n : Nat) : Bytes := natDecAux (n + 1) n
/-- `(*big.Int).String()` -/
def dec (i : Int) : Bytes := if i < 0 then 45 :: natDec i.natAbs else natDec i.natAbs

/-- pki.go:455, 494, 672: the key `aki + serial` of the serial and revocation maps. -/
def serialKey (aki : Bytes) (serial : Int) : Bytes := aki ++ dec serial

/-! ### Heap -/

/-- Allocation: the new pointer is the old length of the heap. -/
def V.alloc (v : V) (r : Res) : V := { v with heap := v.heap ++ [r] }
/-- Assignment through a pointer. -/
def V.modify (v : V) (i : Nat) (f : Res → Res) : V := { v with heap := v.heap.modify i f }
/-- `Resource.(*librpki.RPKICertificate)` of a pointer: `none` if the type is another one. -/
def V.certOf (v : V) (i : Nat) : Option Cert :=
  match v.heap[i]? with
  | some r =>
    match r.data with
    | .cert c => some c
    | _ => none
  | none => none
/-- `.Parent` of a pointer. -/
def V.parentOf (v : V) (i : Nat) : Option Nat :=
  match v.heap[i]? with
  | some r => r.parent
  | none => none

/-! ### Invalidation -/

/-- pki.go:389-391: the key is deleted from the three maps. -/
def V.drop (v : V) (ski : Bytes) : V :=
  { v with
    validObjects := v.validObjects.del ski
    validROA := v.validROA.del ski
    validCRL := v.validCRL.del ski }

/-- pki.go:394-402: the identifiers of the children of the object stored under the key. -/
def V.childIds (v : V) (ski : Bytes) : List Bytes :=
  match v.objects.get ski with
  | none => []
  | some i =>
    match v.heap[i]? with
    | none => []
    | some r => r.childs.filterMap (fun c => v.heap[c]?.bind Res.getIdentifier)

/-- pki.go:378-403: the work-list loop. Out of fuel is `diverge`. -/
def invalidateLoop : (fuel : Nat) → V → (invalidated : List Bytes) → (todo : List Bytes) → Go V
  | 0, _, _, _ => .diverge
  | _ + 1, v, _, [] => .ok v
  | n + 1, v, invalidated, ski :: rest =>
    if ski ∈ invalidated then invalidateLoop n v invalidated rest
    else invalidateLoop n (v.drop ski) (ski :: invalidated) (rest ++ v.childIds ski)

/-- Enough fuel for the loop: every stored object is expanded at most once. -/
def V.fuel (v : V) : Nat := 2 + ((v.objects.map (fun e => (v.childIds e.1).length)).sum)

/-- pki.go:373-405 `InvalidateObject`. -/
def V.invalidateObject (v : V) (keyid : Bytes) : Go V := invalidateLoop v.fuel v [] [keyid]

/-! ### Certificates -/

/-- pki.go:699-712 `DetermineType`. -/
def determineType (path : Bytes) : FType :=
  if path.length > 4 then
    let ext := path.drop (path.length - 4)
    if ext = asc ['.', 'c', 'e', 'r'] then .cer
    else if ext = asc ['.', 'm', 'f', 't'] then .mft
    else if ext = asc ['.', 'c', 'r', 'l'] then .crl
    else if ext = asc ['.', 'r', 'o', 'a'] then .roa
    else .unknown
  else .unknown

/-- pki.go:722-730: the loop over the access descriptions; (manifest path if any, repository). -/
def siaLoop : List (SIAKind × Bytes) → Option Bytes × Bytes → Option Bytes × Bytes
  | [], s => s
  | (.manifest, n) :: rest, s => siaLoop rest (some n, s.2)
  | (.caRepository, n) :: rest, s => siaLoop rest (s.1, n)
  | (_, _) :: rest, s => siaLoop rest s

/-- pki.go:714-745 `ExtractPathCert`. -/
def extractPathCert (c : Cert) : List PKIFile :=
  let s := siaLoop c.sia (none, [])
  c.crlDPs.map (fun p => ⟨none, s.2, p, .crl, false, none⟩) ++
    (match s.1 with
     | some p => [⟨none, s.2, p, .mft, false, none⟩]
     | none => [])

/-- strings.Contains for a needle of three bytes -/
def contains3 (a b c : UInt8) : Bytes → Bool
  | x :: y :: z :: rest => (x == a && y == b && z == c) || contains3 a b c (y :: z :: rest)
  | _ => false

/-- pki.go:755: the name contains "../" or "..\\". -/
def illegalName (path : Bytes) : Bool := contains3 46 46 47 path || contains3 46 46 92 path

/-- pki.go:748-766 `ExtractPathManifest`, the loop over the file list. -/
def extractPathManifest : List (Bytes × Bytes) → Go (List PKIFile)
  | [] => .ok []
  | (name, hash) :: rest =>
    if illegalName name then .err "Path contains illegal path element"
    else do
      let r ← extractPathManifest rest
      return ⟨none, [], name, determineType name, false, some hash⟩ :: r

/-- pki.go:257-267 `ComputePath`. A parent index is a pointer into the list of files. -/
def PKIFile.computePath (files : List PKIFile) (f : PKIFile) : Bytes :=
  match f.parent.bind (fun p => files[p]?) with
  | some pf =>
    if pf.type = .mft then
      if pf.repo.getLast? = some 47 then pf.repo ++ f.path else pf.repo ++ 47 :: f.path
    else f.path
  | none => f.path

/-- pki.go:502-519 and 524-539: resources that the issuer inherits are looked up further up.
    `chain` walks up the parents, but the certificate consulted is always the one with key
    `parentCert.AuthorityKeyId`. Out of fuel is `diverge`. -/
def chainLoop {α : Type} (v : V) (parentCert : Cert) (split : List α → Cert → Go (Split α)) :
    (fuel : Nat) → (chain : Option Nat) → Split α → Go (Split α)
  | 0, _, _ => .diverge
  | _ + 1, none, s => .ok s
  | n + 1, some c, s =>
    if s.checkParents.isEmpty then .ok s
    else
      match v.validObjects.get parentCert.aki with
      | none => .err "parent: ancestor is missing"
      | some u =>
        match v.certOf u with
        | none => .err "parent: ancestor is not a rpki certificate"
        | some upper => do
          let t ← split s.checkParents upper
          chainLoop v parentCert split n (v.parentOf c)
            ⟨s.valids ++ t.valids, s.invalids ++ t.invalids, t.checkParents⟩

/-- pki.go:466-548 `ValidateCertificate`. -/
def V.validateCertificate (env : Env) (v : V) (cert : Cert) (trust : Bool) : Go Unit := do
  match validateTime cert.notBefore cert.notAfter env.now with
  | .ok () =>
    if trust then .ok ()
    else
      match v.validObjects.get cert.aki with
      | none => .err "parent: missing parent"
      | some p =>
        match v.certOf p with
        | none => .err "parent: parent is not a rpki certificate"
        | some parentCert =>
          if env.checkSig cert parentCert = false then .err "parent: signature"
          else if (v.revoked.get (serialKey cert.aki cert.serial)).isSome then .err "revocation"
          else do
            let ips ← validateIPCertificateList cert.ips parentCert.ips
            let ips ← chainLoop v parentCert (fun l c => validateIPCertificateList l c.ips)
              (v.heap.length + 1) (v.parentOf p) ips
            let asns ← validateASNCertificateList cert.asns parentCert.asns
            let asns ← chainLoop v parentCert (fun l c => validateASNCertificateList l c.asns)
              (v.heap.length + 1) (v.parentOf p) asns
            if ips.invalids.length > 0 ∨ asns.invalids.length > 0 then .err "resource"
            else .ok ()
  | _ => .err "validity"

/-- The results of the `Add…` functions: valid, files found, resource, error. -/
structure Added where
  valid : Bool
  files : List PKIFile
  res : Option Nat
  error : Option String
  deriving Repr, DecidableEq

/-- The error of a call, if it returned one; a panic is passed on. -/
def errOf (x : Go Unit) : Go (Option String) :=
  match x with
  | .ok () => .ok none
  | .err m => .ok (some m)
  | .panic => .panic
  | .diverge => .diverge

/-- pki.go:452-456: the child is recorded with its parent, and under its serial. -/
def V.link (v : V) (cert : Cert) (i : Nat) (valid : Bool) : V :=
  match v.objects.get cert.aki with
  | some p =>
    if valid then
      { v.modify p (fun r => { r with childs := r.childs ++ [i] }) with
        certsSerial := v.certsSerial.set (serialKey cert.aki cert.serial) i }
    else v
  | none => v

/-- pki.go:458-461: the maps of objects. -/
def V.store (v : V) (ski : Bytes) (i : Nat) (valid : Bool) : V :=
  { v with
    validObjects := if valid then v.validObjects.set ski i else v.validObjects
    objects := v.objects.set ski i }

/-- pki.go:424-464 `AddCert`. -/
def V.addCert (env : Env) (v : V) (cert : Cert) (trust : Bool) : Go (V × Added) :=
  let i := v.heap.length
  let res : Res := objectToResource (.cert cert)
  match v.objects.get cert.ski with
  | some _ => .ok (v.alloc res, ⟨false, [], some i, some "conflict"⟩)
  | none => do
    let e ← errOf (v.validateCertificate env cert trust)
    let valid := ((v.validObjects.get cert.aki).isSome || trust) && e.isNone
    let v1 := v.alloc { res with parent := v.objects.get cert.aki }
    return ((v1.link cert i valid).store cert.ski i valid, ⟨valid, extractPathCert cert, some i, e⟩)

/-! ### TALs -/

/-- pki.go:407-422 `AddTAL`. -/
def V.addTAL (env : Env) (v : V) (t : Tal.RPKITAL) : V × Added :=
  let uri := t.getRsyncURI env.sha1
  let i := v.heap.length
  ({ v.alloc { objectToResource (.tal t) with type := .tal } with tals := v.tals.set uri i },
    ⟨true, [⟨none, [], uri, .cer, true, none⟩], some i, none⟩)

/-! ### ROAs -/

/-- roa.go:258-328 `DecodeROA` from the parsed content on. -/
def decodeROA (env : Env) (data : Bytes) : Go ROA := do
  let p ← env.parseROA data
  let e ← convertROAEntries p.1
  let s ← validateIPRoaCertificateList e.1 p.2.1.ips
  return ⟨e.2, e.1, p.2.1, p.2.2, s.valids, s.invalids, s.checkParents⟩

/-- pki.go:569-573, 616-620: the object is allocated and becomes a child of its EE certificate. -/
def V.attach (v : V) (i : Nat) (eeType type : FType) (file : Option Nat) (d : ResData) : V :=
  ((v.modify i (fun r => { r with file := file, type := eeType })).alloc
      { objectToResource d with type := type, file := file, parent := some i }).modify i
    (fun r => { r with childs := r.childs ++ [v.heap.length] })

/-- pki.go:576-579: the maps of ROAs. -/
def V.storeROA (v : V) (ski : Bytes) (j : Nat) (valid : Bool) : V :=
  { v with
    validROA := if valid then v.validROA.set ski j else v.validROA
    roa := v.roa.set ski j }

/-- pki.go:558-567: the error of a ROA, given the one of its EE certificate. -/
def roaError (roa : ROA) (e : Option String) : Option String :=
  if roa.innerValid = false then some "ROA inner validity error"
  else
    match validateEntries roa.entries with
    | .ok () => e
    | _ => some "Could not validate certificate due to wrong entry"

/-- pki.go:550-588 `AddROA`. -/
def V.addROA (env : Env) (v : V) (file : Option Nat) (roa : ROA) : Go (V × Added) := do
  let a ← v.addCert env roa.cert false
  match a.2.res with
  | none => .ok (a.1, ⟨a.2.valid, [], none, some "Resource is empty"⟩)
  | some i =>
    let e := roaError roa a.2.error
    let valid := a.2.valid && (roaError roa none).isNone
    let j := a.1.heap.length
    let v1 := a.1.attach i .roacer .roa file (.roa roa)
    .ok (v1.storeROA roa.cert.ski j valid, ⟨valid, [], some j, e⟩)

/-! ### Manifests -/

/-- pki.go:622-625: the maps of manifests. -/
def V.storeMft (v : V) (ski : Bytes) (j : Nat) (valid : Bool) : V :=
  { v with
    validManifest := if valid then v.validManifest.set ski j else v.validManifest
    manifest := v.manifest.set ski j }

/-- pki.go:598-634 `AddManifest`. -/
def V.addManifest (env : Env) (v : V) (file : Option Nat) (m : Mft) : Go (V × Added) :=
  match extractPathManifest m.fileList with
  | .ok files => do
    let a ← v.addCert env m.cert false
    match a.2.res with
    | none => .ok (a.1, ⟨a.2.valid, files, none, some "Resource is empty"⟩)
    | some i =>
      let e := if m.innerValid then a.2.error else some "Manifest inner validity error"
      let valid := a.2.valid && m.innerValid
      let j := a.1.heap.length
      let v1 := a.1.attach i .mftcer .mft file (.mft m)
      .ok (v1.storeMft m.cert.ski j valid, ⟨valid, files, some j, e⟩)
  | _ => .ok (v, ⟨false, [], none, some "ExtractPathManifest failed"⟩)

/-! ### CRLs -/

/-- pki.go:637-644: the authority key identifier of a CRL, empty if there is none. -/
def CRL.aki (l : CRL) : Bytes :=
  l.exts.foldl (fun a e => if e.1 && decide (e.2.length > 4) then e.2.drop 4 else a) []

/-- pki.go:673-680: the certificate stored with that key, if it has that serial, is invalidated. -/
def V.revokeOne (v : V) (aki : Bytes) (s : Int) : Go V :=
  match v.certsSerial.get (serialKey aki s) with
  | none => .ok v
  | some i =>
    match v.certOf i with
    | none => .panic
    | some c => if c.serial = s then v.invalidateObject c.ski else .ok v

/-- pki.go:671-682: the revoked serials, one by one. -/
def revokeLoop (aki : Bytes) : List Int → V → Go V
  | [], v => .ok v
  | s :: rest, v => do
    let v1 ← v.revokeOne aki s
    revokeLoop aki rest { v1 with revoked := v1.revoked.set (serialKey aki s) true }

/-- pki.go:652-668: the issuer's certificate, if the CRL is valid. `hasParentValid` without
    `hasParent` dereferences nil (line 666). -/
def V.crlIssuer (env : Env) (v : V) (l : CRL) : Go (Option Nat) :=
  match v.validObjects.get l.aki with
  | none => .ok none
  | some _ =>
    match v.objects.get l.aki with
    | none => .panic
    | some p =>
      match v.certOf p with
      | none => .ok none
      | some c => if env.checkCRLSig c l then .ok (some p) else .ok none

/-- pki.go:636-689 `AddCRL`. -/
def V.addCRL (env : Env) (v : V) (l : CRL) : Go (V × Added) := do
  let i := v.heap.length
  let issuer ← v.crlIssuer env l
  let v1 := v.alloc { objectToResource (.crl l) with type := .crl, parent := v.objects.get l.aki }
  match issuer with
  | none => .ok ({ v1 with crl := v1.crl.set l.aki i }, ⟨false, [], some i, none⟩)
  | some p => do
    let v2 ← revokeLoop l.aki l.revoked { v1 with validCRL := v1.validCRL.set l.aki i }
    let v3 := v2.modify p (fun r => { r with childs := r.childs ++ [i] })
    return ({ v3 with crl := v3.crl.set l.aki i }, ⟨true, [], some i, none⟩)

/-! ### AddResource -/

/-- `res.File = pkifile` (and `res.Type = t` if given). -/
def V.setFile (v : V) (res : Option Nat) (fid : Nat) (t : Option FType) : V :=
  match res with
  | some i => v.modify i (fun r => { r with file := some fid, type := t.getD r.type })
  | none => v

/-- pki.go:299-308: the check of a certificate fetched for a TAL. False means rejected. -/
def V.talCheck (v : V) (files : List PKIFile) (f : PKIFile) (cert : Cert) : Go (V × Bool) :=
  match f.parent.bind (fun p => files[p]?) with
  | some pf =>
    if pf.type = .tal then
      match v.tals.get f.path with
      | some i =>
        match v.heap[i]? with
        | some r =>
          match r.data with
          | .tal t => do
            let ok ← t.checkCertificate cert.isRSA cert.pubKey
            if ok then return (v.modify i (fun r => { r with certTALValid := true }), true)
            else return (v, false)
          | _ => .panic
        | none => .panic
      | none => .ok (v, true)
    else .ok (v, true)
  | none => .ok (v, true)

/-- `pc.Parent = pkifile` for every file found. -/
def withParent (fid : Nat) (l : List PKIFile) : List PKIFile := l.map (fun f => { f with parent := some fid })

/-- pki.go:359: `pkifile.Parent.Parent.Path != res.Parent.File.Path`; nil pointers panic. -/
def V.crlMismatch (v : V) (files : List PKIFile) (f : PKIFile) (res : Nat) : Go Bool :=
  match f.parent.bind (fun p => files[p]?) with
  | none => .panic
  | some pf =>
    match pf.parent.bind (fun p => files[p]?) with
    | none => .panic
    | some gf =>
      match v.parentOf res with
      | none => .panic
      | some p =>
        match (v.heap[p]?.bind Res.file).bind (fun q => files[q]?) with
        | none => .panic
        | some cf => .ok (decide (gf.path ≠ cf.path))

/-- The failure results `false, nil, nil, err`. -/
def failed (m : String) : Added := ⟨false, [], none, some m⟩

/-- pki.go:294-321: the branch for certificates. -/
def V.addResourceCer (env : Env) (files : List PKIFile) (v : V) (fid : Nat) (f : PKIFile) (cert : Cert) :
    Go (V × Added) := do
  let t ← v.talCheck files f cert
  if t.2 then do
    let a ← t.1.addCert env cert f.trust
    let v1 := a.1.setFile a.2.res fid (some .cer)
    match a.2.res with
    | none => .ok (v1, { a.2 with error := some "Resource is empty" })
    | some i => .ok ({ v1 with objectsPath := v1.objectsPath.set f.path i },
        { a.2 with files := withParent fid a.2.files })
  else .ok (t.1, failed "Certificate was not validated against TAL")

/-- pki.go:327-334, 340-351: what is left to do for ROAs and manifests. -/
def V.finish (v : V) (fid : Nat) (f : PKIFile) (a : Added) (files : List PKIFile) : V × Added :=
  match a.res with
  | none => (v, { a with files := [], error := some "Resource is empty" })
  | some i =>
    let v1 := v.setFile (some i) fid none
    ({ v1 with objectsPath := v1.objectsPath.set f.path i }, { a with files := files })

/-- pki.go:352-368: the branch for CRLs. -/
def V.addResourceCRL (env : Env) (files : List PKIFile) (v : V) (fid : Nat) (f : PKIFile) (l : CRL) :
    Go (V × Added) := do
  let a ← v.addCRL env l
  match a.2.res with
  | none => .panic
  | some i => do
    let mismatch ← a.1.crlMismatch files f i
    if mismatch then return (a.1, failed "CRL does not match with the parent")
    else return a.1.finish fid f a.2 []

/-- pki.go:277-371 `AddResource`. `files[fid]` is the file; a nil file panics (line 278). -/
def V.addResource (env : Env) (files : List PKIFile) (v : V) (fid : Nat) (data : Bytes) : Go (V × Added) :=
  match files[fid]? with
  | none => .panic
  | some f =>
    match f.type with
    | .tal =>
      match Tal.decodeTAL env.asn data with
      | .ok t =>
        let a := v.addTAL env t
        .ok (a.1.setFile a.2.res fid none, { a.2 with files := withParent fid a.2.files })
      | .err m => .ok (v, failed m)
      | .panic => .panic
      | .diverge => .diverge
    | .cer =>
      match env.parseCert data with
      | .ok cert => v.addResourceCer env files fid f cert
      | .err m => .ok (v, failed m)
      | .panic => .panic
      | .diverge => .diverge
    | .roa =>
      match decodeROA env data with
      | .ok roa => do
        let a ← v.addROA env (some fid) roa
        return a.1.finish fid f a.2 []
      | .err m => .ok (v, failed m)
      | .panic => .panic
      | .diverge => .diverge
    | .mft =>
      match env.parseMft data with
      | .ok m => do
        let a ← v.addManifest env (some fid) m
        return a.1.finish fid f a.2 (withParent fid a.2.files)
      | .err m => .ok (v, failed m)
      | .panic => .panic
      | .diverge => .diverge
    | .crl =>
      match env.parseCRL data with
      | .ok l => v.addResourceCRL env files fid f l
      | .err m => .ok (v, failed m)
      | .panic => .panic
      | .diverge => .diverge
    | _ => .ok (v, failed "Unknown file type")

/-! ### Histories -/

/-- The exported operations of the Validator. -/
inductive Op where
  | addTAL (t : Tal.RPKITAL)
  | addCert (c : Cert) (trust : Bool)
  | addROA (file : Option Nat) (r : ROA)
  | addManifest (file : Option Nat) (m : Mft)
  | addCRL (l : CRL)
  | invalidate (keyid : Bytes)
  | addResource (files : List PKIFile) (fid : Nat) (data : Bytes)
  deriving DecidableEq

/-- One operation. -/
def V.step (env : Env) (v : V) : Op → Go V
  | .addTAL t => .ok (v.addTAL env t).1
  | .addCert c trust => do return (← v.addCert env c trust).1
  | .addROA file r => do return (← v.addROA env file r).1
  | .addManifest file m => do return (← v.addManifest env file m).1
  | .addCRL l => do return (← v.addCRL env l).1
  | .invalidate k => v.invalidateObject k
  | .addResource files fid data => do return (← v.addResource env files fid data).1

/-- A history of operations. -/
def V.run (env : Env) (v : V) : List Op → Go V
  | [] => .ok v
  | op :: rest => do
    let v ← v.step env op
    V.run env v rest

end Verif.Pki
