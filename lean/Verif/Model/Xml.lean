import Verif.Model.RrdpXml
import Verif.Model.Json
/-
  Model of the scanner of encoding/xml, `Decoder.Token` in strict mode, as sync/lib/rrdp.go:71-79, 102-109 uses it: from the
  octets of a document to the tokens of Model/RrdpXml.

  encoding/xml is not in /repo; its functions are cited by name (xml.go of Go 1.17 to 1.19; later releases reject names with
  two colons). A parameter tells whether a name with characters beyond ASCII is a name (tables of Unicode).

  Simplified: an error is `none`, as the callers do not look at it; it is sticky, so no token follows. Names of elements are
  kept with their prefix for the comparison of start and end tag, and given out without it; name spaces are resolved in
  Model/CaXml, as no struct tag of the callers here has one.
-/
set_option autoImplicit false

namespace Verif.XmlScan
open RrdpXml (Tok)

/-- What is taken from outside: `isName` for names with octets beyond ASCII. -/
abbrev Lib := Bytes → Bool

/-- A name: the part before the colon and the part behind it. -/
structure QName where
  space : Bytes
  loc : Bytes
  deriving Repr, DecidableEq

/-- `Decoder.space`: which octets are passed over. -/
def isWs (b : UInt8) : Bool := b == 32 || b == 13 || b == 10 || b == 9

/-- `Decoder.space` -/
def space (bs : Bytes) : Bytes := bs.dropWhile isWs

/-- `isNameByte` -/
def isNameByte (c : UInt8) : Bool :=
  (65 ≤ c && c ≤ 90) || (97 ≤ c && c ≤ 122) || (48 ≤ c && c ≤ 57) || c == 95 || c == 58 || c == 46 || c == 45

/-- `Decoder.readName`: octets up to the first one in ASCII that is not of a name; that one must be there. -/
def nameRun : Bytes → Option (Bytes × Bytes)
  | [] => none
  | b :: r =>
    if b < 0x80 && !isNameByte b then some ([], b :: r)
    else (nameRun r).map fun x => (b :: x.1, x.2)

/-- `isName` -/
def isName (lib : Lib) (n : Bytes) : Bool :=
  if n.all (· < 0x80) then
    match n with
    | [] => false
    | a :: _ => (65 ≤ a && a ≤ 90) || (97 ≤ a && a ≤ 122) || a == 95 || a == 58
  else lib n

/-- `Decoder.name` -/
def name (lib : Lib) (bs : Bytes) : Option (Bytes × Bytes) :=
  match nameRun bs with
  | some x => if isName lib x.1 then some x else none
  | none => none

/-- `Decoder.nsname`: a name with one colon, not at its ends, has two parts. -/
def split (n : Bytes) : QName :=
  if n.count 58 > 1 then ⟨[], n⟩
  else if n.takeWhile (· ≠ 58) = [] ∨ (n.dropWhile (· ≠ 58)).drop 1 = [] then ⟨[], n⟩
  else ⟨n.takeWhile (· ≠ 58), (n.dropWhile (· ≠ 58)).drop 1⟩

/-- The five entities that every document has. -/
def entities : List (Bytes × UInt8) :=
  [(asc "lt".toList, 60), (asc "gt".toList, 62), (asc "amp".toList, 38), (asc "apos".toList, 39), (asc "quot".toList, 34)]

/-- `strconv.ParseUint` on one digit in base 10 or 16 -/
def digitVal (base : Nat) (c : UInt8) : Option Nat :=
  if 48 ≤ c && c ≤ 57 then some (c.toNat - 48)
  else if base = 16 && 97 ≤ c && c ≤ 102 then some (c.toNat - 87)
  else if base = 16 && 65 ≤ c && c ≤ 70 then some (c.toNat - 55)
  else none

/-- The digits at the front, how many they are and what is behind. -/
def digitRun (base : Nat) : (acc : Nat) → Bytes → Nat × Nat × Bytes
  | acc, [] => (acc, 0, [])
  | acc, c :: r =>
    match digitVal base c with
    | some d => let x := digitRun base (acc * base + d) r; (x.1, x.2.1 + 1, x.2.2)
    | none => (acc, 0, c :: r)

/-- A character by number: the digits, at least one, and the semicolon; `k` octets are before the digits. `string(rune(n))` makes
    U+FFFD of a surrogate. (A number of more than 64 bits is an error as well, so the sum may be unbounded here.) -/
def charRef (base k : Nat) (r : Bytes) : Option (Bytes × Nat) :=
  let x := digitRun base 0 r
  if x.2.2.head? = some 59 ∧ x.2.1 ≠ 0 ∧ x.1 ≤ 0x10ffff then some (Json.encodeRune x.1, k + x.2.1 + 1) else none

/-- A character by name. -/
def namedRef (r : Bytes) : Option (Bytes × Nat) :=
  match nameRun r with
  | some x => if x.2.head? = some 59 then (entities.lookup x.1).map fun c => ([c], x.1.length + 1) else none
  | none => none

/-- `Decoder.text`, after an ampersand: the text for the reference, and the number of octets it takes. -/
def reference (r : Bytes) : Option (Bytes × Nat) :=
  if r.take 2 = [35, 120] then charRef 16 2 (r.drop 2)
  else if r.take 1 = [35] then charRef 10 1 (r.drop 1)
  else namedRef r

/-- `Decoder.text` without `cdata`: `q` is the quotation mark, if any; `skip` octets belong to a reference that has been read;
    `b0` and `b1` are the two octets before. -/
def text (q : Option UInt8) : (skip : Nat) → (b0 b1 : UInt8) → Bytes → Option (Bytes × Bytes)
  | _, _, _, [] => some ([], [])
  | k + 1, b0, b1, _ :: r => text q k b0 b1 r
  | 0, b0, b1, b :: r =>
    if q = none ∧ b0 = 93 ∧ b1 = 93 ∧ b = 62 then none
    else if b = 60 then if q = none then some ([], b :: r) else none
    else if q = some b then some ([], r)
    else if b = 38 then
      match reference r with
      | some x => (text q x.2 0 0 r).map fun y => (x.1 ++ y.1, y.2)
      | none => none
    else if b = 13 then (text q 0 b1 b r).map fun y => (10 :: y.1, y.2)
    else if b1 = 13 ∧ b = 10 then text q 0 b1 b r
    else (text q 0 b1 b r).map fun y => (b :: y.1, y.2)

/-- `Decoder.text` with `cdata`, as far as the octets `]]>`; `prev` is the octet before. -/
def cdata (prev : UInt8) : Bytes → Option (Bytes × Bytes)
  | [] => none
  | b :: r =>
    if (b :: r).take 3 = [93, 93, 62] then some ([], r.drop 2)
    else if b = 13 then (cdata b r).map fun y => (10 :: y.1, y.2)
    else if prev = 13 ∧ b = 10 then cdata b r
    else (cdata b r).map fun y => (b :: y.1, y.2)

/-- `isInCharacterRange` for the characters of one octet. -/
def asciiOk (b : UInt8) : Bool := b == 9 || b == 10 || b == 13 || 0x20 ≤ b

/-- `Decoder.text`, the check at its end: UTF-8, and of the characters those that XML allows. -/
def charsOk : (skip : Nat) → Bytes → Bool
  | _, [] => true
  | k + 1, _ :: r => charsOk k r
  | 0, b :: r =>
    if b < 0x80 then asciiOk b && charsOk 0 r
    else match Json.runeLen (b :: r) with
      | some n => (b :: r).take 3 != [0xef, 0xbf, 0xbe] && (b :: r).take 3 != [0xef, 0xbf, 0xbf] && charsOk (n - 1) r
      | none => false

/-- The text, if its characters are allowed. -/
def checked (x : Option (Bytes × Bytes)) : Option (Bytes × Bytes) := x.filter fun y => charsOk 0 y.1

/-- `Decoder.rawToken`: a processing instruction, up to `?>`. -/
def untilPI : Bytes → Option (Bytes × Bytes)
  | [] => none
  | b :: r => if (b :: r).take 2 = [63, 62] then some ([], r.drop 1) else (untilPI r).map fun x => (b :: x.1, x.2)

/-- `strings.Index`: what is behind the first place where the text stands. -/
def after (p : Bytes) : Bytes → Option Bytes
  | [] => if p = [] then some [] else none
  | b :: r => if p.isPrefixOf (b :: r) then some ((b :: r).drop p.length) else after p r

/-- `procInst`: the value of a parameter of the declaration, nothing if there is none. -/
def procInst (param s : Bytes) : Bytes :=
  match after (param ++ [61]) s with
  | some (q :: v) => if (q = 39 ∨ q = 34) ∧ q ∈ v then v.takeWhile (· ≠ q) else []
  | _ => []

/-- Lower case in ASCII (`strings.EqualFold` with a text of the letters u, t and f, which have no other forms). -/
def fold (b : Bytes) : Bytes := b.map fun c => if 65 ≤ c && c ≤ 90 then c + 32 else c

/-- `Decoder.rawToken`: whether the declaration `<?xml …?>` is accepted; no `CharsetReader` is set. -/
def declOk (c : Bytes) : Bool :=
  (procInst (asc "version".toList) c == [] || procInst (asc "version".toList) c == asc "1.0".toList) &&
  (procInst (asc "encoding".toList) c == [] || fold (procInst (asc "encoding".toList) c) == asc "utf-8".toList)

/-- `Decoder.rawToken`: a comment, up to `-->`; two hyphens are not allowed before. -/
def comment : Bytes → Option Bytes
  | [] => none
  | b :: r =>
    if (b :: r).take 2 = [45, 45] then if (r.drop 1).head? = some 62 then some (r.drop 2) else none
    else comment r

/-- `Decoder.rawToken`: a directive, up to the `>` that is outside of quotes and brackets; `cm` holds the two octets before when
    inside of a comment. -/
def directive : (skip : Nat) → (inq : Option UInt8) → (depth : Nat) → (cm : Option (UInt8 × UInt8)) → Bytes → Option Bytes
  | _, _, _, _, [] => none
  | k + 1, inq, depth, cm, _ :: r => directive k inq depth cm r
  | 0, inq, depth, some (b0, b1), b :: r =>
    if b0 = 45 ∧ b1 = 45 ∧ b = 62 then directive 0 inq depth none r else directive 0 inq depth (some (b1, b)) r
  | 0, inq, depth, none, b :: r =>
    if inq = none ∧ b = 62 ∧ depth = 0 then some r
    else if inq = some b then directive 0 none depth none r
    else if inq ≠ none then directive 0 inq depth none r
    else if b = 39 ∨ b = 34 then directive 0 (some b) depth none r
    else if b = 62 then directive 0 none (depth - 1) none r
    else if b = 60 then
      if r.take 3 = [33, 45, 45] then directive 3 none depth (some (0, 0)) r else directive 0 none (depth + 1) none r
    else directive 0 none depth none r

/-- `Decoder.attrval` in strict mode. -/
def attrval : Bytes → Option (Bytes × Bytes)
  | b :: r => if b = 34 ∨ b = 39 then checked (text (some b) 0 0 0 r) else none
  | [] => none

/-- `Decoder.rawToken`: one attribute: its name, the equals sign, the value. -/
def attrOne (lib : Lib) (bs : Bytes) : Option ((QName × Bytes) × Bytes) :=
  match name lib bs with
  | some x => if (space x.2).head? = some 61 then (attrval (space ((space x.2).drop 1))).map fun v => ((split x.1, v.1), v.2) else none
  | none => none

/-- `Decoder.rawToken`: the attributes, and whether the element is closed at once. The number bounds the rounds. -/
def attrs (lib : Lib) : (fuel : Nat) → Bytes → Option (List (QName × Bytes) × Bool × Bytes)
  | 0, _ => none
  | f + 1, bs =>
    if (space bs).head? = some 47 then
      if (space bs).take 2 = [47, 62] then some ([], true, (space bs).drop 2) else none
    else if (space bs).head? = some 62 then some ([], false, (space bs).drop 1)
    else match attrOne lib (space bs) with
      | some x => (attrs lib f x.2).map fun y => (x.1 :: y.1, y.2)
      | none => none

/-- A token as `rawToken` gives it. -/
inductive Raw where
  | start (n : QName) (as : List (QName × Bytes)) (empty : Bool)
  | stop (n : QName)
  | chars (b : Bytes)
  | misc
  deriving Repr, DecidableEq

/-- `Decoder.rawToken`, after `</`. -/
def rawStop (lib : Lib) (bs : Bytes) : Option (Raw × Bytes) :=
  match name lib bs with
  | some x => if (space x.2).head? = some 62 then some (.stop (split x.1), (space x.2).drop 1) else none
  | none => none

/-- `Decoder.rawToken`, after `<?`. -/
def rawPI (lib : Lib) (bs : Bytes) : Option (Raw × Bytes) :=
  match name lib bs with
  | some x =>
    match untilPI (space x.2) with
    | some y => if x.1 = asc "xml".toList ∧ declOk y.1 = false then none else some (.misc, y.2)
    | none => none
  | none => none

/-- `Decoder.rawToken`, after `<!`. -/
def rawBang : Bytes → Option (Raw × Bytes)
  | [] => none
  | b :: r =>
    if b = 45 then if r.head? = some 45 then (comment (r.drop 1)).map fun x => (.misc, x) else none
    else if b = 91 then
      if r.take 6 = asc "CDATA[".toList then (checked (cdata 0 (r.drop 6))).map fun y => (.chars y.1, y.2) else none
    else (directive 0 none 0 none r).map fun x => (.misc, x)

/-- `Decoder.rawToken`, after `<` and before the name of an element. -/
def rawStart (lib : Lib) (bs : Bytes) : Option (Raw × Bytes) :=
  match name lib bs with
  | some x => (attrs lib (x.2.length + 1) x.2).map fun y => (.start (split x.1) y.1 y.2.1, y.2.2)
  | none => none

/-- `Decoder.rawToken`; nothing at the end and for an error. -/
def rawToken (lib : Lib) : Bytes → Option (Raw × Bytes)
  | [] => none
  | b :: r =>
    if b = 60 then
      if r.head? = some 47 then rawStop lib (r.drop 1)
      else if r.head? = some 63 then rawPI lib (r.drop 1)
      else if r.head? = some 33 then rawBang (r.drop 1)
      else rawStart lib r
    else (checked (text none 0 0 0 (b :: r))).map fun y => (.chars y.1, y.2)

/-- The decoder between two tokens: the element to be closed at once, the open elements, the octets left. -/
structure State where
  close : Option QName
  stack : List QName
  rest : Bytes
  deriving Repr, DecidableEq

/-- `Decoder.Token`: the next token, with `pushElement` and `popElement`. -/
def token (lib : Lib) (s : State) : Option (Tok × State) :=
  match s.close with
  | some n =>
    match s.stack with
    | m :: st => if m = n then some (.stop n.loc, ⟨none, st, s.rest⟩) else none
    | [] => none
  | none =>
    match rawToken lib s.rest with
    | none => none
    | some (.start n as empty, r) => some (.start n.loc (as.map fun kv => (kv.1.loc, kv.2)), ⟨if empty then some n else none, n :: s.stack, r⟩)
    | some (.stop n, r) =>
      match s.stack with
      | m :: st => if m = n then some (.stop n.loc, ⟨none, st, r⟩) else none
      | [] => none
    | some (.chars b, r) => some (.chars b, ⟨none, s.stack, r⟩)
    | some (.misc, r) => some (.misc, ⟨none, s.stack, r⟩)

/-- `Decoder.Token` again and again, to the first nil token. The number bounds the rounds. -/
def tokens (lib : Lib) : (fuel : Nat) → State → List Tok
  | 0, _ => []
  | f + 1, s =>
    match token lib s with
    | none => []
    | some (t, s') => t :: tokens lib f s'

/-- The tokens of a document. Every octet begins at most two tokens. -/
def scan (lib : Lib) (d : Bytes) : List Tok := tokens lib (2 * d.length + 1) ⟨none, [], d⟩

end Verif.XmlScan
