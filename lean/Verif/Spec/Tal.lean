import Verif.Model.Tal
/-
  Independent specification of trust anchor locator files (RFC 8630) and of base64 (RFC 4648).
-/
set_option autoImplicit false

namespace Verif.TalSpec

/-- RFC 4648 table 1. -/
def alphabet : List Char :=
  ['A','B','C','D','E','F','G','H','I','J','K','L','M','N','O','P','Q','R','S','T','U','V','W','X',
   'Y','Z','a','b','c','d','e','f','g','h','i','j','k','l','m','n','o','p','q','r','s','t','u','v',
   'w','x','y','z','0','1','2','3','4','5','6','7','8','9','+','/']

/-- The character of a 6-bit value. -/
def char64 (i : Nat) : UInt8 := ((alphabet[i]?).getD '=').toNat.toUInt8

/-- RFC 4648 section 4: groups of 24 bits, most significant bits first; a short last group is filled
    with zero bits on the right and padded with '='. -/
def base64 : Bytes → Bytes
  | a :: b :: c :: rest =>
    let n := a.toNat * 65536 + b.toNat * 256 + c.toNat
    char64 (n / 262144) :: char64 (n / 4096 % 64) :: char64 (n / 64 % 64) :: char64 (n % 64) ::
      base64 rest
  | [a, b] =>
    let n := a.toNat * 65536 + b.toNat * 256
    [char64 (n / 262144), char64 (n / 4096 % 64), char64 (n / 64 % 64), 61]
  | [a] =>
    let n := a.toNat * 65536
    [char64 (n / 262144), char64 (n / 4096 % 64), 61, 61]
  | [] => []

/-- A line end: LF or CRLF. -/
def IsEol (e : Bytes) : Prop := e = [0x0a] ∨ e = [0x0d, 0x0a]

/-- A URI line: not empty, no line-end characters, not a comment. -/
def UriLine (u : Bytes) : Prop := u ≠ [] ∧ 0x0a ∉ u ∧ 0x0d ∉ u ∧ u.head? ≠ some 35

/-- The first section: comment lines (starting with '#') and URI lines. -/
inductive Head : (uris : List Bytes) → (text : Bytes) → Prop where
  | nil : Head [] []
  | comment (c eol text : Bytes) (uris : List Bytes) (hc : 0x0a ∉ c) (he : IsEol eol)
      (h : Head uris text) : Head uris (35 :: c ++ eol ++ text)
  | uri (u eol text : Bytes) (uris : List Bytes) (hu : UriLine u) (he : IsEol eol)
      (h : Head uris text) : Head (u :: uris) (u ++ eol ++ text)

/-- The last section: the body, broken into lines anywhere. -/
inductive Body : (body : Bytes) → (text : Bytes) → Prop where
  | last (s : Bytes) (h1 : 0x0a ∉ s) (h2 : 0x0d ∉ s) : Body s s
  | line (s eol body text : Bytes) (h1 : 0x0a ∉ s) (h2 : 0x0d ∉ s) (he : IsEol eol)
      (h : Body body text) : Body (s ++ body) (s ++ eol ++ text)

/-- A TAL file with these URIs and this base64 body. -/
def TalText (uris : List Bytes) (body text : Bytes) : Prop :=
  ∃ h eol b, Head uris h ∧ IsEol eol ∧ Body body b ∧ text = h ++ eol ++ b

/-- A certificate's key as crypto/x509 presents it: the algorithm is RSA exactly when the key is a
    `*rsa.PublicKey`. -/
def CertKey (isRSA : Bool) (k : Tal.PubKey) : Prop := isRSA = true ↔ ∃ r, k = .rsaPtr r

end Verif.TalSpec
