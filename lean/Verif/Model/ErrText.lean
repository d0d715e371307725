import Verif.Model.Report
import Verif.Model.NetText
/-
  Model of validator/pki/errors.go with the texts of the errors and the tags they set in a report to Sentry, of the `String` methods of
  validator/lib/cert.go, and of `ValidateCertificate` and the `Add…` functions of validator/pki/pki.go with the errors they make.
  `Model/Pki` has the same functions with a mark in place of the error; that both agree is proved (C109_same).

  Left out: the stack traces, and the extras of a report that hold whole structures (access descriptions and the resources of the
  certificate).
-/
set_option autoImplicit false

namespace Verif.ErrText
open Net Cert Roa Pki Manager

/-! ### Resources as text -/

/-- cert.go:47-49, 81-83, 147-149 `String` of the three kinds of IP resources (`IPNet.String` of a nil pointer is "<nil>"). -/
def ipInfoText : IPInfo → Bytes
  | .net none => nilText
  | .net (some n) => ipNetString n
  | .range min max => asc "Min: ".toList ++ ipString min ++ asc " max: ".toList ++ ipString max
  | .null family => asc "Null IP ".toList ++ natDec family.toNat

/-- cert.go:194-196, 214-216, 233-235 `String` of the three kinds of AS resources. -/
def asInfoText : ASInfo → Bytes
  | .range min max => asc "Min: ".toList ++ dec min ++ asc " max: ".toList ++ dec max
  | .asn a => dec a
  | .null => asc "Null ASN".toList

/-- cert.go:581-606: every element followed by a comma. -/
def commaList (l : List Bytes) : Bytes := l.flatMap fun t => t ++ asc ", ".toList

/-- cert.go:576-607 `RPKICertificate.String`; the access descriptions are given as texts (cert.go:614-616 `SIA.String`). The list of the
    routing domain identifiers is not read: the last loop runs over `ASNums` once more. -/
def certString (c : Pki.Cert) (sias : List Bytes) (_rdi : List ASInfo) : Bytes :=
  asc "RPKI Certificate: KeyIdentifier: ".toList ++ hexString c.ski ++ asc " / Emitter: ".toList ++ hexString c.aki ++
    asc " SIA: [ ".toList ++ commaList sias ++ asc "] IP Addresses: [ ".toList ++ commaList (c.ips.map ipInfoText) ++
    asc "] ASNs: [ ".toList ++ commaList (c.asns.map asInfoText) ++
    asc "] ASNs RDI: [ ".toList ++ commaList (c.asns.map asInfoText) ++ asc "]".toList

/-! ### Errors -/

/-- pki.go:67-72 `SeekFile`: the bytes and their SHA-256. -/
structure Seek where
  data : Bytes
  sha256 : Bytes
  deriving Repr, DecidableEq

/-- errors.go:43-64 `CertificateError` (and `FileError`, errors.go:273); of the inner error its text. Files are indices. -/
structure CertErr where
  etype : Kind
  inner : Option Bytes
  message : Bytes
  cert : Option Pki.Cert
  conflict : Option Pki.Cert
  parent : Option Pki.Cert
  ips : List IPInfo
  asns : List ASInfo
  file : Option Nat
  seek : Option Seek
  innerFile : Option Nat
  deriving Repr, DecidableEq

/-- errors.go:93-100: "for certificate", with the key identifiers if there is a certificate. -/
def certInfo (c : Option Pki.Cert) : Bytes :=
  match c with
  | none => asc "for certificate".toList
  | some c => asc "for certificate ski:".toList ++ hexString c.ski ++ asc " aki:".toList ++ hexString c.aki

/-- errors.go:102-105 -/
def innerPart (t : Option Bytes) : Bytes :=
  match t with
  | none => []
  | some t => asc ": ".toList ++ t

/-- errors.go:107-122: the list of resources that are not covered. -/
def listPart (head : Bytes) (l : List Bytes) : Bytes :=
  if l.length > 0 then head ++ natDec l.length ++ asc "): [".toList ++ joinWith (asc ", ".toList) l ++ asc "]".toList else []

/-- errors.go:92-125 `CertificateError.Error`. -/
def CertErr.text (e : CertErr) : Bytes :=
  e.message ++ asc " ".toList ++ certInfo e.cert ++ innerPart e.inner ++ listPart (asc " invalid IP resources (".toList) (e.ips.map ipInfoText) ++
    listPart (asc " invalid ASN resources (".toList) (e.asns.map asInfoText)

/-- An error of which nothing is set (a composite literal without fields). -/
def CertErr.zero : CertErr := ⟨.unknown, none, [], none, none, none, [], [], none, none, none⟩

/-- errors.go:200-208 `NewCertificateErrorValidity`. -/
def newValidity (c : Pki.Cert) (t : Bytes) : CertErr :=
  { CertErr.zero with etype := .expiration, cert := some c, inner := some t, message := asc "expiration issue".toList }

/-- errors.go:210-219 `NewCertificateErrorParent`. -/
def newParent (c : Pki.Cert) (p : Option Pki.Cert) (t : Bytes) : CertErr :=
  { CertErr.zero with etype := .parent, cert := some c, parent := p, inner := some t, message := asc "parent issue".toList }

/-- errors.go:221-228 `NewCertificateErrorRevocation`. -/
def newRevocation (c : Pki.Cert) : CertErr :=
  { CertErr.zero with etype := .revocation, cert := some c, message := asc "revocation by issuer".toList }

/-- errors.go:230-239 `NewCertificateErrorResource`. -/
def newResource (c : Pki.Cert) (ips : List IPInfo) (asns : List ASInfo) : CertErr :=
  { CertErr.zero with etype := .resource, cert := some c, message := asc "resource issue".toList, ips := ips, asns := asns }

/-- errors.go:241-249 `NewCertificateErrorConflict`; the other certificate is missing if the other object is none (pki.go:434). -/
def newConflict (c : Pki.Cert) (other : Option Pki.Cert) : CertErr :=
  { CertErr.zero with etype := .conflict, cert := some c, conflict := other, message := asc "certificate conflict".toList }

/-- errors.go:251-260 `NewCertificateErrorManifestRevocation`; the manifest itself (`fileMft`) is not kept. -/
def newManifestRevocation (c : Pki.Cert) (t : Option Bytes) (_fileMft affected : Option Nat) : CertErr :=
  { CertErr.zero with etype := .manifest, cert := some c, inner := t, innerFile := affected, message := asc "revocation due to manifest issue".toList }

/-- errors.go:262-271 `NewCertificateErrorCRLRevocation`; the CRL itself (`fileCrl`) is not kept. -/
def newCRLRevocation (c : Pki.Cert) (t : Option Bytes) (_fileCrl affected : Option Nat) : CertErr :=
  { CertErr.zero with etype := .crl, cert := some c, inner := t, innerFile := affected, message := asc "revocation due to crl issue".toList }

/-- errors.go:288-295 `NewFileError`. -/
def newFileError (t : Bytes) : CertErr := { CertErr.zero with etype := .file, message := asc "file error".toList, inner := some t }

/-- The inner error of a `ResourceError`: nil, a `*CertificateError`, or another one with its text. -/
inductive Inner where
  | missing
  | cert (e : CertErr)
  | plain (t : Bytes)
  deriving Repr, DecidableEq

/-- errors.go:297-309 `ResourceError`. -/
structure ResErr where
  etype : Kind
  inner : Inner
  file : Option Nat
  seek : Option Seek
  deriving Repr, DecidableEq

/-- The errors that are reported: `*CertificateError`, `*FileError`, `*ResourceError`, others. -/
inductive Err where
  | cert (e : CertErr)
  | file (e : CertErr)
  | res (r : ResErr)
  | plain (t : Bytes)
  deriving Repr, DecidableEq

/-- errors.go:320-322 `ResourceError.Error`: a nil inner error panics. -/
def ResErr.text (r : ResErr) : Go Bytes :=
  match r.inner with
  | .missing => .panic
  | .cert e => .ok e.text
  | .plain t => .ok t

/-- The text of an error (errors.go:92-125, 275-277 `FileError.Error`, 320-322). -/
def Err.text : Err → Go Bytes
  | .cert e => .ok e.text
  | .file e => .ok e.text
  | .res r => r.text
  | .plain t => .ok t

/-- errors.go:356-370 `NewResourceErrorWrap`: the type of a `*CertificateError` is taken over. -/
def newResourceWrap (e : Inner) : ResErr :=
  match e with
  | .cert c => ⟨c.etype, .cert c, none, none⟩
  | e => ⟨.unknown, e, none, none⟩

/-- errors.go:372-379 `NewResourceErrorHash`. -/
def newResourceHash (file expected : Bytes) : ResErr :=
  ⟨.hash, .plain (asc "file hash is ".toList ++ hexString file ++ asc ", expected ".toList ++ hexString expected ++ asc " from manifest".toList), none, none⟩

/-- errors.go:87-90, 284-286, 351-354 `AddFileErrorInfo`, and pki.go:124-129 `reportErrorFile` for errors without that method. -/
def Err.addFile (e : Err) (file : Nat) (seek : Option Seek) : Err :=
  match e with
  | .cert c => .cert { c with file := some file, seek := seek }
  | .file c => .file { c with file := some file, seek := seek }
  | .res r => .res { r with file := some file, seek := seek }
  | .plain t => .plain t

/-! ### Reports to Sentry -/

/-- An extra of a report. -/
inductive Val where
  | time (t : Int)
  | flag (b : Bool)
  | num (n : Nat)
  | text (t : Bytes)
  | ips (l : List IPInfo)
  | asns (l : List ASInfo)
  deriving Repr, DecidableEq

/-- The tags and extras of a `sentry.Scope`; the newest value of a name counts. -/
structure Scope where
  tags : List (String × Bytes)
  extras : List (String × Val)
  deriving Repr, DecidableEq

/-- `scope.SetTag` -/
def Scope.tag (s : Scope) (k : String) (v : Bytes) : Scope := { s with tags := (k, v) :: s.tags }

/-- `scope.SetExtra` -/
def Scope.extra (s : Scope) (k : String) (v : Val) : Scope := { s with extras := (k, v) :: s.extras }

/-- The value of a tag in the report that is sent. -/
def Scope.getTag (s : Scope) (k : String) : Option Bytes := s.tags.lookup k

/-- The value of an extra in the report that is sent. -/
def Scope.getExtra (s : Scope) (k : String) : Option Val := s.extras.lookup k

/-- errors.go:29-40 `ErrorTypeToName`. -/
def kindName : Kind → Bytes
  | .unknown => asc "unknown".toList
  | .expiration => asc "expiration".toList
  | .parent => asc "parent".toList
  | .revocation => asc "revocation".toList
  | .resource => asc "resource".toList
  | .conflict => asc "conflict".toList
  | .file => asc "file".toList
  | .manifest => asc "manifest".toList
  | .hash => asc "hash".toList
  | .crl => asc "crl".toList

/-- pki.go:32-42 `TypeToName`. -/
def typeName : FType → Bytes
  | .unknown => asc "unknown".toList
  | .cer => asc "certificate".toList
  | .mft => asc "manifest".toList
  | .roa => asc "roa".toList
  | .crl => asc "crl".toList
  | .roacer => asc "roa-ee".toList
  | .mftcer => asc "manifest-ee".toList
  | .carepo => asc "ca-repo".toList
  | .tal => asc "tal".toList

/-- errors.go:130-146, 147-163: what is said about a certificate, under a prefix for the names. -/
def Scope.cert (s : Scope) (pre : String) (c : Option Pki.Cert) : Scope :=
  match c with
  | none => s
  | some c => ((((s.tag (pre ++ "SubjectKeyId") (hexString c.ski)).tag (pre ++ "AuthorityKeyId") (hexString c.aki)).extra
      (pre ++ "NotBefore") (.time c.notBefore)).extra (pre ++ "NotAfter") (.time c.notAfter)).tag (pre ++ "SerialNumber") (dec c.serial)

/-- errors.go:165-171, 177-183, 332-338: the repository of the file, else the one of its parent. -/
def Scope.repo (s : Scope) (files : List PKIFile) (pre : String) (f : PKIFile) : Scope :=
  if f.repo ≠ [] then s.tag (pre ++ "Repository") f.repo
  else
    match f.parent.bind fun p => files[p]? with
    | some p => if p.repo ≠ [] then s.tag (pre ++ "Repository") p.repo else s
    | none => s

/-- errors.go:164-175, 176-187, 331-342: what is said about a file. -/
def Scope.file (s : Scope) (files : List PKIFile) (pre : String) (f : Option Nat) : Scope :=
  match f.bind fun i => files[i]? with
  | none => s
  | some f => (((s.repo files pre f).tag (pre ++ "Path") f.path).tag (pre ++ "Type") (typeName f.type)).extra (pre ++ "Trust") (.flag f.trust)

/-- errors.go:188-193, 343-348: the length and the hash of the content. -/
def Scope.seek (s : Scope) (k : Option Seek) : Scope :=
  match k with
  | none => s
  | some k => (s.extra "File.Length" (.num k.data.length)).extra "File.Sha256" (.text (hexString k.sha256))

/-- errors.go:127-198 `CertificateError.SetSentryScope` (and errors.go:281-283 for `FileError`). -/
def CertErr.scope (files : List PKIFile) (e : CertErr) (s : Scope) : Scope :=
  let s := s.tag "Type" (kindName e.etype)
  let s := s.cert "Certificate." e.cert
  let s := s.cert "Conflict." e.conflict
  let s := s.file files "File." e.file
  let s := s.file files "InnerFile." e.innerFile
  let s := s.seek e.seek
  let s := if e.ips.length > 0 then s.extra "IPs" (.ips e.ips) else s
  if e.asns.length > 0 then s.extra "ASNs" (.asns e.asns) else s

/-- errors.go:325-329: the inner error, if it can tell something. -/
def Inner.scope (files : List PKIFile) (i : Inner) (s : Scope) : Scope :=
  match i with
  | .cert e => e.scope files s
  | _ => s

/-- errors.go:324-349 `ResourceError.SetSentryScope`: the inner error first. -/
def ResErr.scope (files : List PKIFile) (r : ResErr) (s : Scope) : Scope :=
  let s := r.inner.scope files s
  let s := s.tag "Type" (kindName r.etype)
  let s := s.file files "File." r.file
  s.seek r.seek

/-- octorpki.go:756-769 `logCollector`: the line in the log and the report, for one error. -/
def collect (files : List PKIFile) (tal : Bytes) (e : Err) : Go (Bytes × Scope) := do
  let t ← e.text
  let s : Scope := ⟨[], []⟩
  let s := match e with
    | .cert c => c.scope files s
    | .file c => c.scope files s
    | .res r => r.scope files s
    | .plain _ => s
  return (t, s.tag "TrustAnchor" tal)

/-! ### The Validator with its errors -/

/-- The texts made outside of the repository: of instants (`%v` of a `time.Time`), and of the error of `CheckSignatureFrom`. -/
structure Texts where
  time : Int → Bytes
  signature : Pki.Cert → Pki.Cert → Bytes

/-- cert.go:563-574 `ValidateTime`, its error as text. The second message also shows the beginning. -/
def timeText (tx : Texts) (notBefore notAfter comp : Int) : Option Bytes :=
  if notBefore > comp then some (asc "Certificate beginning of validity: ".toList ++ tx.time notBefore ++ asc " is after: ".toList ++ tx.time comp)
  else if comp > notAfter then some (asc "Certificate end of validity: ".toList ++ tx.time notBefore ++ asc " is before: ".toList ++ tx.time comp)
  else none

/-- pki.go:502-519 and 524-539, with the errors; `missing` is the text after the key of an ancestor that is not there. -/
def chainLoopE {α : Type} (v : V) (cert parentCert : Pki.Cert) (missing : Bytes) (split : List α → Pki.Cert → Go (Split α)) :
    (fuel : Nat) → (chain : Option Nat) → Split α → Go (Except CertErr (Split α))
  | 0, _, _ => .diverge
  | _ + 1, none, s => .ok (.ok s)
  | n + 1, some c, s =>
    if s.checkParents.isEmpty then .ok (.ok s)
    else
      match v.validObjects.get parentCert.aki with
      | none => .ok (.error (newParent cert (some parentCert) (asc "ancestor ".toList ++ hexString parentCert.aki ++ missing)))
      | some u =>
        match v.certOf u with
        | none => .ok (.error (newParent cert (some parentCert) (asc "ancestor ".toList ++ hexString parentCert.aki ++ asc " is not a rpki certificate".toList)))
        | some upper => do
          let t ← split s.checkParents upper
          chainLoopE v cert parentCert missing split n (v.parentOf c) ⟨s.valids ++ t.valids, s.invalids ++ t.invalids, t.checkParents⟩

/-- pki.go:498-547: the resources (cert.go:519-521 `ValidateIPCertificate`, 545-547 `ValidateASNCertificate`). -/
def V.resourcesE (v : V) (cert parentCert : Pki.Cert) (p : Nat) : Go (Option CertErr) := do
  let ips ← validateIPCertificateList cert.ips parentCert.ips
  let ips ← chainLoopE v cert parentCert (asc " is missing".toList) (fun l c => validateIPCertificateList l c.ips) (v.heap.length + 1) (v.parentOf p) ips
  match ips with
  | .error e => return some e
  | .ok ips =>
    let asns ← validateASNCertificateList cert.asns parentCert.asns
    let asns ← chainLoopE v cert parentCert (asc " is not valid".toList) (fun l c => validateASNCertificateList l c.asns) (v.heap.length + 1) (v.parentOf p) asns
    match asns with
    | .error e => return some e
    | .ok asns => return if ips.invalids.length > 0 ∨ asns.invalids.length > 0 then some (newResource cert ips.invalids asns.invalids) else none

/-- pki.go:466-548 `ValidateCertificate`. -/
def V.validateCertificateE (tx : Texts) (env : Env) (v : V) (cert : Pki.Cert) (trust : Bool) : Go (Option CertErr) :=
  match timeText tx cert.notBefore cert.notAfter env.now with
  | some t => .ok (some (newValidity cert t))
  | none =>
    if trust then .ok none
    else
      match v.validObjects.get cert.aki with
      | none => .ok (some (newParent cert none (asc "missing parent".toList)))
      | some p =>
        match v.certOf p with
        | none => .ok (some (newParent cert none (asc "parent is not a rpki certificate".toList)))
        | some parentCert =>
          if env.checkSig cert parentCert = false then .ok (some (newParent cert (some parentCert) (tx.signature cert parentCert)))
          else if (v.revoked.get (serialKey cert.aki cert.serial)).isSome then .ok (some (newRevocation cert))
          else V.resourcesE v cert parentCert p

/-- pki.go:424-464 `AddCert`: its error. -/
def V.addCertE (tx : Texts) (env : Env) (v : V) (cert : Pki.Cert) (trust : Bool) : Go (Option CertErr) :=
  match v.objects.get cert.ski with
  | some o => .ok (some (newConflict cert (v.certOf o)))
  | none => V.validateCertificateE tx env v cert trust

/-- pki.go:550-588 `AddROA` (590-596 `ValidateROA`): its error, given the one of its EE certificate; `entry` and `inner` are the texts
    of what is wrong with the entries and with the envelope. -/
def roaErr (entry inner : Bytes) (roa : ROA) (e : Option CertErr) : Option ResErr :=
  let x : Option Inner := if roa.innerValid = false then some (.plain (asc "ROA inner validity error: ".toList ++ inner))
    else
      match validateEntries roa.entries with
      | .ok () => e.map .cert
      | _ => some (.plain (asc "Could not validate certificate due to wrong entry: ".toList ++ entry))
  x.map newResourceWrap

/-- pki.go:598-634 `AddManifest` from the EE certificate on: its error. -/
def mftErr (inner : Bytes) (m : Mft) (e : Option CertErr) : Option ResErr :=
  let x : Option Inner := if m.innerValid then e.map .cert else some (.plain (asc "Manifest inner validity error: ".toList ++ inner))
  x.map newResourceWrap

end Verif.ErrText
