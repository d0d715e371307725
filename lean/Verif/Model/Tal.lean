import Verif.Model.Base
/-
  Model of validator/lib/tal.go: trust anchor locators.
-/
set_option autoImplicit false

namespace Verif.Tal

/-- An RSA public key: modulus and exponent. -/
structure RSAKey where
  n : Int
  e : Int
  deriving Repr, DecidableEq

/-- The dynamic types that the `interface{}` field `PublicKey` takes in this code:
    `*rsa.PublicKey` (tal.go:258, crypto/x509), `rsa.PublicKey` (tal.go:90, 92), `[]byte`
    (tal.go:260) or any other key type of crypto/x509. -/
inductive PubKey where
  | rsaPtr (k : RSAKey)
  | rsaVal (k : RSAKey)
  | raw (b : Bytes)
  | other
  deriving Repr, DecidableEq

/-- tal.go:20-25 `RPKITAL`. `isRSAAlg` is `Algorithm == x509.RSA` (the only other value given to the
    field is zero, unknown); `isRSAOID` is `OID.Equal(RSA)`. -/
structure RPKITAL where
  uri : List Bytes
  isRSAAlg : Bool
  isRSAOID : Bool
  publicKey : PubKey
  deriving Repr, DecidableEq

/-- strings.HasPrefix -/
def hasPrefix : (s pre : Bytes) → Bool
  | _, [] => true
  | [], _ :: _ => false
  | a :: s, b :: p => a == b && hasPrefix s p

def rsyncScheme : Bytes := asc ['r', 's', 'y', 'n', 'c', ':', '/', '/']

/-- tal.go:27-34 `HasRsync`. -/
def RPKITAL.hasRsync (t : RPKITAL) : Bool := t.uri.any (fun u => hasPrefix u rsyncScheme)

/-- tal.go:41-47: the loop of `GetRsyncURI`; the values of `rsync` and `other`. -/
def rsyncLoop : (uris : List Bytes) → (other : Bytes) → Bytes × Bytes
  | [], other => ([], other)
  | u :: rest, other => if hasPrefix u rsyncScheme then (u, other) else rsyncLoop rest u

/-- one digit of `%x` -/
def hexDigit (n : Nat) : UInt8 := (if n < 10 then 48 + n else 87 + n).toUInt8
/-- `fmt.Sprintf("%x", b)` -/
def hex : Bytes → Bytes
  | [] => []
  | b :: r => hexDigit (b.toNat / 16) :: hexDigit (b.toNat % 16) :: hex r

/-- tal.go:38-52 `GetRsyncURI`; SHA-1 is a parameter. -/
def RPKITAL.getRsyncURI (sha1 : Bytes → Bytes) (t : RPKITAL) : Bytes :=
  let r := rsyncLoop t.uri []
  if r.1 = [] then
    asc ['r', 's', 'y', 'n', 'c', ':', '/', '/', 'r', 'f', 'c', '8', '6', '3', '0', '/', 'c', 'e',
      'r', 't', 's', '/'] ++ hex (sha1 r.2) ++ asc ['.', 'c', 'e', 'r']
  else r.1

/-- tal.go:62-74 `CheckCertificate`. The certificate enters through its algorithm and its key
    (`cert.PublicKeyAlgorithm == x509.RSA`, `cert.PublicKey`). A failed type assertion panics.
    Simplification: of the algorithms only "RSA or not" is kept; for equal non-RSA algorithms the
    switch has no case, so the answer is false either way. -/
def RPKITAL.checkCertificate (t : RPKITAL) (certIsRSA : Bool) (certKey : PubKey) : Go Bool :=
  if t.isRSAAlg && certIsRSA then
    match t.publicKey with
    | .rsaPtr a =>
      match certKey with
      | .rsaPtr b => .ok (decide (a.n = b.n) && decide (a.e = b.e))
      | _ => .panic
    | _ => .panic
  else .ok false

/-- tal.go:77-79: drop the last two bytes if the last but one is CR. -/
def dropCRLF (line : Bytes) : Bytes :=
  if line.length > 1 ∧ line[line.length - 2]? = some 0x0d then line.take (line.length - 2) else line

/-- tal.go:80-82: drop a final newline. -/
def dropLF (line : Bytes) : Bytes :=
  if line.length > 0 ∧ line[line.length - 1]? = some 0x0a then line.take (line.length - 1) else line

/-- tal.go:76-84 `DeleteLineEnd`. -/
def deleteLineEnd (line : Bytes) : Bytes := dropLF (dropCRLF line)

/-- tal.go:86-102 `CreateTAL`. -/
def createTAL (uri : List Bytes) (pubkey : PubKey) : Go RPKITAL :=
  match pubkey with
  | .rsaPtr k => .ok ⟨uri, true, true, .rsaVal k⟩
  | .rsaVal k => .ok ⟨uri, true, true, .rsaVal k⟩
  | _ => .err "Public key is not RSA"

/-! ### base64 (package encoding/base64) -/

/-- the standard alphabet -/
def b64Char (i : Nat) : UInt8 :=
  (if i < 26 then 65 + i else if i < 52 then 71 + i else if i < 62 then i - 4
   else if i = 62 then 43 else 47).toUInt8

/-- its inverse -/
def b64Val (c : UInt8) : Option Nat :=
  let n := c.toNat
  if 65 ≤ n ∧ n ≤ 90 then some (n - 65)
  else if 97 ≤ n ∧ n ≤ 122 then some (n - 71)
  else if 48 ≤ n ∧ n ≤ 57 then some (n + 4)
  else if n = 43 then some 62
  else if n = 47 then some 63
  else none

/-- `base64.RawStdEncoding.EncodeToString` (no padding). -/
def b64EncodeRaw : Bytes → Bytes
  | a :: b :: c :: rest =>
    b64Char (a.toNat / 4) :: b64Char (a.toNat % 4 * 16 + b.toNat / 16) ::
    b64Char (b.toNat % 16 * 4 + c.toNat / 64) :: b64Char (c.toNat % 64) :: b64EncodeRaw rest
  | [a, b] =>
    [b64Char (a.toNat / 4), b64Char (a.toNat % 4 * 16 + b.toNat / 16), b64Char (b.toNat % 16 * 4)]
  | [a] => [b64Char (a.toNat / 4), b64Char (a.toNat % 4 * 16)]
  | [] => []

/-- `base64.StdEncoding` on input without line ends: groups of four characters; '=' (61) only as
    padding of the last group; unused bits are ignored (the encoding is not strict). -/
def b64DecodeGroups : Bytes → Option Bytes
  | [] => some []
  | a :: b :: c :: d :: rest =>
    match b64Val a, b64Val b with
    | some x, some y =>
      if c = 61 then
        if d = 61 ∧ rest = [] then some [(x * 4 + y / 16).toUInt8] else none
      else
        match b64Val c with
        | none => none
        | some z =>
          if d = 61 then
            if rest = [] then some [(x * 4 + y / 16).toUInt8, (y % 16 * 16 + z / 4).toUInt8] else none
          else
            match b64Val d, b64DecodeGroups rest with
            | some w, some r =>
              some ((x * 4 + y / 16).toUInt8 :: (y % 16 * 16 + z / 4).toUInt8 ::
                (z % 4 * 64 + w).toUInt8 :: r)
            | _, _ => none
    | _, _ => none
  | _ => none

/-- `base64.StdEncoding.DecodeString`: CR and LF are skipped wherever they are. -/
def b64DecodeStd (s : Bytes) : Go Bytes :=
  match b64DecodeGroups (s.filter (fun c => !(c == 0x0a || c == 0x0d))) with
  | some d => .ok d
  | none => .err "illegal base64 data"

/-! ### Encoding and decoding of the file -/

/-- The ASN.1 layer (encoding/asn1), as parameters: `asn1.Marshal(spki)` of an RSA key
    (tal.go:129-172), and `asn1.Unmarshal` of the outer structure (is it the RSA OID, the bits;
    tal.go:238-242) and of the inner RSA key (tal.go:252-257). -/
structure Asn where
  marshalSPKI : RSAKey → Go Bytes
  unmarshalSPKI : Bytes → Go (Bool × Bytes)
  unmarshalRSA : Bytes → Go RSAKey

/-- tal.go:176-182: the pieces `key[i*split : min((i+1)*split, len(key))]` for `i` from `i` on. -/
def keySplit (key : Bytes) (split : Nat) : (n i : Nat) → List Bytes
  | 0, _ => []
  | n + 1, i => (key.drop (i * split)).take (min ((i + 1) * split) key.length - i * split)
      :: keySplit key split n (i + 1)

/-- strings.Join -/
def join (sep : Bytes) : List Bytes → Bytes
  | [] => []
  | [a] => a
  | a :: rest => a ++ sep ++ join sep rest

/-- tal.go:174-184: the base64 text, wrapped if `split > 0`. -/
def wrap (key : Bytes) (split : Int) : Bytes :=
  if split > 0 then
    join [0x0a] (keySplit key split.toNat (key.length / split.toNat + 1) 0)
  else key

/-- tal.go:138-187 `EncodeTALSize`; the type assertion on line 142 panics for a `*rsa.PublicKey`. -/
def encodeTALSize (asn : Asn) (t : RPKITAL) (split : Int) : Go Bytes :=
  if t.isRSAOID then
    match t.publicKey with
    | .rsaVal k => do
      let d ← asn.marshalSPKI k
      return join [0x0a] t.uri ++ [0x0a, 0x0a] ++ wrap (b64EncodeRaw d) split
    | _ => .panic
  else .err "TAL does not contain a RSA key"

/-- `buf.ReadString('\n')` repeated: the lines that end in a newline (newline included) and what
    follows the last one. -/
def lines : Bytes → List Bytes × Bytes
  | [] => ([], [])
  | b :: rest =>
    let r := lines rest
    if b = 0x0a then ([0x0a] :: r.1, r.2)
    else
      match r.1 with
      | [] => ([], b :: r.2)
      | l :: ls => ((b :: l) :: ls, r.2)

/-- Variables of the loop of `DecodeTAL`. -/
structure LoopState where
  passedUrl : Bool
  urls : List Bytes
  b64 : Bytes
  deriving Repr, DecidableEq

/-- tal.go:206-210: strip the line end and a leading CR. -/
def cleanLine (line : Bytes) : Bytes :=
  match deleteLineEnd line with
  | [] => []
  | b :: r => if b = 0x0d then r else b :: r

/-- tal.go:212-222: one line. -/
def lineStep (s : LoopState) (raw : Bytes) : LoopState :=
  let line := cleanLine raw
  let urls := if line ≠ [] ∧ line.head? ≠ some 35 ∧ s.passedUrl = false then s.urls ++ [line] else s.urls
  let passed := if line = [] then true else s.passedUrl
  let b64 := if line ≠ [] ∧ passed = true then s.b64 ++ line else s.b64
  ⟨passed, urls, b64⟩

/-- tal.go:190-224: the text is read into the URLs and the base64 text. -/
def readText (data : Bytes) : List Bytes × Bytes :=
  let r := lines data
  let s := r.1.foldl lineStep ⟨false, [], []⟩
  (s.urls, s.b64 ++ r.2)

/-- tal.go:226-262: the key from the base64 text. -/
def decodeKey (asn : Asn) (urls : List Bytes) (b64 : Bytes) : Go RPKITAL := do
  let d ← b64DecodeStd b64
  let inner ← asn.unmarshalSPKI d
  if inner.1 then do
    let k ← asn.unmarshalRSA inner.2
    return ⟨urls, true, true, .rsaPtr k⟩
  else return ⟨urls, false, false, .raw inner.2⟩

/-- tal.go:189-263 `DecodeTAL`. -/
def decodeTAL (asn : Asn) (data : Bytes) : Go RPKITAL :=
  decodeKey asn (readText data).1 (readText data).2

end Verif.Tal
