import Verif.Model.Cms
/-
  Model of validator/lib/cms.go `PrivateEncrypt`: an RSA signature with PKCS#1 v1.5 padding, by the private exponent or by the Chinese remainder theorem.
-/
set_option autoImplicit false

namespace Verif.RsaEncrypt
open Cms

/-- crypto/rsa `CRTValue`: for the third and later primes. -/
structure CrtValue where
  exp : Nat
  coeff : Nat
  r : Nat
  deriving DecidableEq, Repr

/-- crypto/rsa `PrecomputedValues`. -/
structure Precomputed where
  dp : Nat
  dq : Nat
  qinv : Nat
  crt : List CrtValue
  deriving DecidableEq, Repr

/-- crypto/rsa `PrivateKey`; `pre` is `none` if `Precomputed.Dp` is nil. Simplification: the numbers are not negative. -/
structure RsaPriv where
  n : Nat
  e : Nat
  d : Nat
  primes : List Nat
  pre : Option Precomputed
  deriving DecidableEq, Repr

/-- cms.go:103-106 and 111-123: the loop over the later primes; index out of range if there are too few. -/
def crtLoop (c : Nat) : List CrtValue → List Nat → Int → Go Int
  | [], _, m => .ok m
  | _ :: _, [], _ => .panic
  | v :: vs, prime :: ps, m =>
    let m2 : Int := ((c ^ v.exp % prime : Nat) : Int) - m
    let m2 := m2 * v.coeff % prime
    let m2 := if m2 < 0 then m2 + prime else m2
    crtLoop c vs ps (m + m2 * v.r)

/-- cms.go:97-125: the private operation. (The unblinding of 127-131 is never reached: `ir` is nil.) -/
def privateOp (priv : RsaPriv) (c : Nat) : Go Int :=
  match priv.pre with
  | none => .ok ((c ^ priv.d % priv.n : Nat) : Int)
  | some v =>
    match priv.primes with
    | p :: q :: ps =>
      let m2 : Int := ((c ^ v.dq % q : Nat) : Int)
      let m : Int := ((c ^ v.dp % p : Nat) : Int) - m2
      let m := if m < 0 then m + p else m
      let m := m * v.qinv % p
      crtLoop c v.crt ps (m * q + m2)
    | _ => .panic

/-- cms.go:86-91: the padded block of `k` octets. -/
def padBlock (k : Nat) (data : Bytes) : Bytes := [0x00, 0x01] ++ List.replicate (k - data.length - 3) 0xff ++ [0x00] ++ data

/-- cms.go:78-134 `PrivateEncrypt`. -/
def privateEncrypt (priv : RsaPriv) (data : Bytes) : Go Bytes :=
  let k := keySize priv.n
  if k < data.length + 11 then .err "Input error"
  else
    let c := bytesVal (padBlock k data)
    if priv.n < c then .err "Encryption error"
    else do
      let m ← privateOp priv c
      return natBytes m.natAbs

end Verif.RsaEncrypt
