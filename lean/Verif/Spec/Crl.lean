import Verif.Spec.Content
/-
  Independent specification of certificate revocation lists: RFC 5280 sections 4.1.2.5 (times) and 5, as DER octets.
-/
set_option autoImplicit false

namespace Verif.CrlSpec
open CmsSpec

/-- The `k` last decimal digits of a number, in ASCII. -/
def decimal (k n : Nat) : Bytes := (List.range k).map fun i => (48 + n / 10 ^ (k - 1 - i) % 10).toUInt8

/-- A moment in UTC, to the second. -/
structure Moment where
  year : Nat
  month : Nat
  day : Nat
  hour : Nat
  minute : Nat
  second : Nat

/-- Days of a month of the Gregorian calendar. -/
def daysIn (year month : Nat) : Nat :=
  if month = 2 then (if year % 4 = 0 ∧ (year % 100 ≠ 0 ∨ year % 400 = 0) then 29 else 28)
  else if month = 4 ∨ month = 6 ∨ month = 9 ∨ month = 11 then 30 else 31

/-- A date of the calendar and a time of the day, in a year of at most four digits. -/
def Moment.Valid (m : Moment) : Prop :=
  m.year ≤ 9999 ∧ 1 ≤ m.month ∧ m.month ≤ 12 ∧ 1 ≤ m.day ∧ m.day ≤ daysIn m.year m.month ∧ m.hour ≤ 23 ∧ m.minute ≤ 59 ∧
    m.second ≤ 59

/-- Month to second, and the letter Z. -/
def Moment.text (m : Moment) : Bytes :=
  decimal 2 m.month ++ decimal 2 m.day ++ decimal 2 m.hour ++ decimal 2 m.minute ++ decimal 2 m.second ++ [0x5a]

/-- RFC 5280 4.1.2.5.1: UTCTime, two digits of the year. -/
def utcText (m : Moment) : Bytes := decimal 2 m.year ++ m.text
/-- RFC 5280 4.1.2.5.2: GeneralizedTime, four digits of the year. -/
def generalizedText (m : Moment) : Bytes := decimal 4 m.year ++ m.text

/-- RFC 5280 4.1.2.5: dates through 2049 as UTCTime, later ones as GeneralizedTime. UTCTime begins in 1950; before that
    only GeneralizedTime is left. -/
def timeDer (m : Moment) : Bytes :=
  if 1950 ≤ m.year ∧ m.year ≤ 2049 then elem 0x17 (utcText m) else elem 0x18 (generalizedText m)

/-- An extension: object identifier (contents octets), critical or not, value. -/
structure Extn where
  id : Bytes
  critical : Bool
  value : Bytes

/-- RFC 5280 4.1: Extension; the default FALSE is not encoded. -/
def extDer (e : Extn) : Bytes :=
  elem 0x30 (elem 0x06 e.id ++ (if e.critical then elem 0x01 [0xff] else []) ++ elem 0x04 e.value)

/-- A list that is absent when it is empty (Extensions has SIZE (1..MAX); RFC 5280 5.1.2.6 for revoked certificates). -/
def nonEmptySeq (l : List Bytes) : Bytes := if l = [] then [] else elem 0x30 l.flatten

/-- An entry: serial number, date, extensions. -/
structure Entry where
  serial : Int
  date : Moment
  exts : List Extn

/-- RFC 5280 5.1: an entry of revokedCertificates. -/
def EntryDer (r : Entry) (out : Bytes) : Prop :=
  ∃ i, IntContent r.serial i ∧ out = elem 0x30 (elem 0x02 i ++ timeDer r.date ++ nonEmptySeq (r.exts.map extDer))

/-- RFC 4055 5: sha256WithRSAEncryption with NULL parameters. -/
def sha256WithRSA : Bytes :=
  elem 0x30 (elem 0x06 [0x2a, 0x86, 0x48, 0x86, 0xf7, 0x0d, 0x01, 0x01, 0x0b] ++ elem 0x05 [])

/-- The contents of a list. `issuer` are the contents octets of the Name. -/
structure Crl where
  issuer : Bytes
  thisUpdate : Moment
  nextUpdate : Moment
  entries : List Entry
  exts : List Extn

/-- RFC 5280 5.1: TBSCertList, version 2. -/
def TbsDer (c : Crl) (out : Bytes) : Prop :=
  ∃ encs, List.Forall₂ EntryDer c.entries encs ∧
    out = elem 0x30 (elem 0x02 [1] ++ sha256WithRSA ++ elem 0x30 c.issuer ++ timeDer c.thisUpdate ++ timeDer c.nextUpdate ++
      nonEmptySeq encs ++ elem 0xa0 (elem 0x30 (c.exts.map extDer).flatten))

/-- RFC 5280 5.1: CertificateList. -/
def CrlDer (c : Crl) (tbs sig out : Bytes) : Prop :=
  TbsDer c tbs ∧ out = elem 0x30 (tbs ++ sha256WithRSA ++ elem 0x03 (0x00 :: sig))

/-- RFC 6487 5: the two extensions of a list of the RPKI: authority key identifier and CRL number. -/
def rpkiExts (ski number : Bytes) : List Extn :=
  [⟨[0x55, 0x1d, 0x23], false, elem 0x30 (elem 0x80 ski)⟩, ⟨[0x55, 0x1d, 0x14], false, elem 0x02 number⟩]

end Verif.CrlSpec
