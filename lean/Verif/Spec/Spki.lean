import Verif.Spec.Content
/-
  Independent specification of RSA public keys as octets: RFC 8017 A.1.1 (RSAPublicKey), RFC 5280
  4.1 and RFC 3279 2.3.1 (SubjectPublicKeyInfo), RFC 5280 4.2.1.2 (key identifier, method 1).
-/
set_option autoImplicit false

namespace Verif.SpkiSpec
open BerSpec CmsSpec

/-- RFC 8017 A.1.1: the DER form of an RSA public key: modulus and exponent. -/
def RsaKeyDer (modulus exponent : Int) (out : Bytes) : Prop :=
  ∃ n e, IntContent modulus n ∧ IntContent exponent e ∧ out = elem 0x30 (elem 0x02 n ++ elem 0x02 e)

/-- rsaEncryption, 1.2.840.113549.1.1.1 -/
def rsaEncryption : Bytes := [0x2a, 0x86, 0x48, 0x86, 0xf7, 0x0d, 0x01, 0x01, 0x01]

/-- RFC 5280 4.1, RFC 3279 2.3.1: the DER form of the subject public key info of an RSA key: the algorithm
    with NULL parameters and the key as a bit string without unused bits. -/
def SpkiDer (modulus exponent : Int) (out : Bytes) : Prop :=
  ∃ key, RsaKeyDer modulus exponent key ∧
    out = elem 0x30 (elem 0x30 (elem 0x06 rsaEncryption ++ [0x05, 0x00]) ++ elem 0x03 (0x00 :: key))

/-- A key that can be written and read: its exponent is an `int` and its info is shorter than 2 GiB, the
    longest element that encoding/asn1 reads. -/
def Usable (modulus exponent : Int) : Prop :=
  -2 ^ 63 ≤ exponent ∧ exponent < 2 ^ 63 ∧ ∃ d, SpkiDer modulus exponent d ∧ d.length < 2 ^ 31

/-- What the decoder of locators takes for the info of an RSA key: like `SpkiDer`, with anything
    after the algorithm's name, after the bit string, after the key's two numbers, and after either
    structure; the bit string may have up to seven unused bits, which must be zero. -/
def LaxSpki (modulus exponent : Int) (d : Bytes) : Prop :=
  ∃ n e params more tail junk after : Bytes, ∃ unused : UInt8,
    IntContent modulus n ∧ IntContent exponent e ∧ unused.toNat ≤ 7 ∧
    ((elem 0x30 (elem 0x02 n ++ elem 0x02 e ++ more) ++ tail).getLast?.getD 0).toNat % 2 ^ unused.toNat = 0 ∧
    d = elem 0x30 (elem 0x30 (elem 0x06 rsaEncryption ++ params) ++
          elem 0x03 (unused :: (elem 0x30 (elem 0x02 n ++ elem 0x02 e ++ more) ++ tail)) ++ junk) ++ after

end Verif.SpkiSpec
