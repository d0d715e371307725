import Verif.Model.Output
import Verif.Model.RrdpState
/-
  encoding/json as octorpki uses it: the text of the documents it publishes (cmd/octorpki/octorpki.go:1233-1235, 1629-1645), and the file of
  RRDP positions that it writes and reads (octorpki.go:370-400). The functions of the standard library are cited by file and name.
-/
set_option autoImplicit false

namespace Verif.Json
open Out Net

/-- A JSON value. A number is kept as its text. -/
inductive Json where
  | null
  | bool (b : Bool)
  | num (text : Bytes)
  | str (s : Bytes)
  | arr (l : List Json)
  | obj (l : List (Bytes × Json))

/-! ### UTF-8 -/

/-- unicode/utf8: a continuation octet. -/
def isCont (b : UInt8) : Bool := 0x80 ≤ b && b ≤ 0xbf

/-- unicode/utf8 `DecodeRune` on octets that do not begin with ASCII: the length of the character at the front, `none` for octets that
    are no character (RuneError with width 1). -/
def runeLen : Bytes → Option Nat
  | a :: b :: r =>
    if 0xc2 ≤ a && a ≤ 0xdf then if isCont b then some 2 else none
    else if 0xe0 ≤ a && a ≤ 0xef then
      match r with
      | c :: _ =>
        if isCont b && (a != 0xe0 || 0xa0 ≤ b) && (a != 0xed || b ≤ 0x9f) && isCont c then some 3 else none
      | [] => none
    else if 0xf0 ≤ a && a ≤ 0xf4 then
      match r with
      | c :: d :: _ =>
        if isCont b && (a != 0xf0 || 0x90 ≤ b) && (a != 0xf4 || b ≤ 0x8f) && isCont c && isCont d then some 4 else none
      | _ => none
    else none
  | _ => none

/-- unicode/utf8 `RuneError` as octets. -/
def replacement : Bytes := [0xef, 0xbf, 0xbd]

/-- unicode/utf8 `EncodeRune`. -/
def encodeRune (n : Nat) : Bytes :=
  if n < 0x80 then [n.toUInt8]
  else if n < 0x800 then [(0xc0 + n / 64).toUInt8, (0x80 + n % 64).toUInt8]
  else if (0xd800 ≤ n ∧ n < 0xe000) ∨ 0x10ffff < n then replacement
  else if n < 0x10000 then [(0xe0 + n / 4096).toUInt8, (0x80 + n / 64 % 64).toUInt8, (0x80 + n % 64).toUInt8]
  else [(0xf0 + n / 262144).toUInt8, (0x80 + n / 4096 % 64).toUInt8, (0x80 + n / 64 % 64).toUInt8, (0x80 + n % 64).toUInt8]

/-! ### Writing -/

/-- encode.go `encodeState.string`: one ASCII octet; `htmlSafeSet` are the octets that need no escape. -/
def escByte (b : UInt8) : Bytes :=
  if b = 34 ∨ b = 92 then [92, b]
  else if b = 10 then [92, 110]
  else if b = 13 then [92, 114]
  else if b = 9 then [92, 116]
  else if b < 0x20 ∨ b = 38 ∨ b = 60 ∨ b = 62 then [92, 117, 48, 48, digitChar (b.toNat / 16), digitChar (b.toNat % 16)]
  else [b]

/-- encode.go `encodeState.string`: the loop. The first argument counts the octets that were already dealt with. -/
def escLoop : Nat → Bytes → Bytes
  | _, [] => []
  | k + 1, _ :: r => escLoop k r
  | 0, b :: r =>
    if b < 0x80 then escByte b ++ escLoop 0 r
    else
      match runeLen (b :: r) with
      | none => [92, 117, 102, 102, 102, 100] ++ escLoop 0 r
      | some n =>
        (if (b :: r).take 3 = [0xe2, 0x80, 0xa8] then [92, 117, 50, 48, 50, 56]
         else if (b :: r).take 3 = [0xe2, 0x80, 0xa9] then [92, 117, 50, 48, 50, 57]
         else (b :: r).take n) ++ escLoop (n - 1) r

/-- encode.go `encodeState.string`. -/
def quote (s : Bytes) : Bytes := 34 :: escLoop 0 s ++ [34]

mutual
/-- encode.go: the text of a value: the encoders of structs, maps, slices, strings and integers write its parts one after the other.
    (Simplified: the encoders walk over Go values by reflection; here the value is made first.) -/
def print : Json → Bytes
  | .null => asc "null".toList
  | .bool true => asc "true".toList
  | .bool false => asc "false".toList
  | .num t => t
  | .str s => quote s
  | .arr [] => [91, 93]
  | .arr (v :: l) => 91 :: print v ++ printElems l
  | .obj [] => [123, 125]
  | .obj (m :: l) => 123 :: printMember m ++ printMembers l
/-- The elements after the first. -/
def printElems : List Json → Bytes
  | [] => [93]
  | v :: l => 44 :: print v ++ printElems l
/-- A key and its value. -/
def printMember : Bytes × Json → Bytes
  | (k, v) => quote k ++ 58 :: print v
/-- The members after the first. -/
def printMembers : List (Bytes × Json) → Bytes
  | [] => [125]
  | m :: l => 44 :: printMember m ++ printMembers l
end

/-! ### Checking the syntax -/

/-- scanner.go: the kinds of open brackets, `parseState`. -/
inductive Open where
  | key
  | value
  | elem
  deriving Repr, DecidableEq

/-- scanner.go: the functions that `scanner.step` can be. `lit` stands for the functions stateT, stateTr, … stateNul: the letters to
    come; `escU` for stateInStringEscU, … stateInStringEscU123: the hexadecimal digits to come, less one. -/
inductive Step where
  | beginValue
  | beginValueOrEmpty
  | beginString
  | beginStringOrEmpty
  | endValue
  | endTop
  | inString
  | esc
  | escU (n : Nat)
  | neg
  | one
  | zero
  | dot
  | dot0
  | e
  | eSign
  | e0
  | lit (l : Bytes)
  | error
  deriving Repr, DecidableEq

/-- scanner.go `scanner`: the step function and the stack, the top first. (`endTop` is true exactly when the step function is
    stateEndTop, or an error came after that.) -/
structure Scan where
  step : Step
  stack : List Open
  deriving Repr, DecidableEq

/-- scanner.go `isSpace`. -/
def isSpace (c : UInt8) : Bool := c == 32 || c == 9 || c == 13 || c == 10

/-- A digit. -/
def isDigit (c : UInt8) : Bool := 48 ≤ c && c ≤ 57

/-- A hexadecimal digit. -/
def isHex (c : UInt8) : Bool := isDigit c || (97 ≤ c && c ≤ 102) || (65 ≤ c && c ≤ 70)

/-- scanner.go `maxNestingDepth`. -/
def maxDepth : Nat := 10000

/-- scanner.go `pushParseState`. -/
def push (stack : List Open) (o : Open) (next : Step) : Scan :=
  if stack.length + 1 ≤ maxDepth then ⟨next, o :: stack⟩ else ⟨.error, o :: stack⟩

/-- scanner.go `popParseState`. -/
def pop (stack : List Open) : Scan :=
  match stack.tail with
  | [] => ⟨.endTop, []⟩
  | s => ⟨.endValue, s⟩

/-- scanner.go `stateEndTop`. -/
def stepEndTop (stack : List Open) (c : UInt8) : Scan := if isSpace c then ⟨.endTop, stack⟩ else ⟨.error, stack⟩

/-- scanner.go `stateEndValue`. -/
def stepEndValue (stack : List Open) (c : UInt8) : Scan :=
  match stack with
  | [] => stepEndTop [] c
  | o :: s =>
    if isSpace c then ⟨.endValue, o :: s⟩
    else
      match o with
      | .key => if c = 58 then ⟨.beginValue, .value :: s⟩ else ⟨.error, o :: s⟩
      | .value => if c = 44 then ⟨.beginString, .key :: s⟩ else if c = 125 then pop (o :: s) else ⟨.error, o :: s⟩
      | .elem => if c = 44 then ⟨.beginValue, o :: s⟩ else if c = 93 then pop (o :: s) else ⟨.error, o :: s⟩

/-- scanner.go `stateBeginValue`. -/
def stepBeginValue (stack : List Open) (c : UInt8) : Scan :=
  if isSpace c then ⟨.beginValue, stack⟩
  else if c = 123 then push stack .key .beginStringOrEmpty
  else if c = 91 then push stack .elem .beginValueOrEmpty
  else if c = 34 then ⟨.inString, stack⟩
  else if c = 45 then ⟨.neg, stack⟩
  else if c = 48 then ⟨.zero, stack⟩
  else if c = 116 then ⟨.lit (asc ['r', 'u', 'e']), stack⟩
  else if c = 102 then ⟨.lit (asc ['a', 'l', 's', 'e']), stack⟩
  else if c = 110 then ⟨.lit (asc ['u', 'l', 'l']), stack⟩
  else if 49 ≤ c && c ≤ 57 then ⟨.one, stack⟩
  else ⟨.error, stack⟩

/-- scanner.go `stateBeginString`. -/
def stepBeginString (stack : List Open) (c : UInt8) : Scan :=
  if isSpace c then ⟨.beginString, stack⟩ else if c = 34 then ⟨.inString, stack⟩ else ⟨.error, stack⟩

/-- scanner.go `state0`. -/
def stepZero (stack : List Open) (c : UInt8) : Scan :=
  if c = 46 then ⟨.dot, stack⟩ else if c = 101 ∨ c = 69 then ⟨.e, stack⟩ else stepEndValue stack c

/-- scanner.go `stateESign`. -/
def stepESign (stack : List Open) (c : UInt8) : Scan := if isDigit c then ⟨.e0, stack⟩ else ⟨.error, stack⟩

/-- scanner.go: one octet is given to the step function. -/
def Scan.next (s : Scan) (c : UInt8) : Scan :=
  match s.step with
  | .beginValue => stepBeginValue s.stack c
  | .beginValueOrEmpty =>
    if isSpace c then s else if c = 93 then stepEndValue s.stack c else stepBeginValue s.stack c
  | .beginString => stepBeginString s.stack c
  | .beginStringOrEmpty =>
    if isSpace c then s else if c = 125 then stepEndValue (.value :: s.stack.tail) c else stepBeginString s.stack c
  | .endValue => stepEndValue s.stack c
  | .endTop => stepEndTop s.stack c
  | .inString =>
    if c = 34 then ⟨.endValue, s.stack⟩
    else if c = 92 then ⟨.esc, s.stack⟩
    else if c < 0x20 then ⟨.error, s.stack⟩
    else s
  | .esc =>
    if c ∈ [98, 102, 110, 114, 116, 92, 47, 34] then ⟨.inString, s.stack⟩
    else if c = 117 then ⟨.escU 3, s.stack⟩
    else ⟨.error, s.stack⟩
  | .escU n => if isHex c then (if n = 0 then ⟨.inString, s.stack⟩ else ⟨.escU (n - 1), s.stack⟩) else ⟨.error, s.stack⟩
  | .neg => if c = 48 then ⟨.zero, s.stack⟩ else if 49 ≤ c && c ≤ 57 then ⟨.one, s.stack⟩ else ⟨.error, s.stack⟩
  | .one => if isDigit c then s else stepZero s.stack c
  | .zero => stepZero s.stack c
  | .dot => if isDigit c then ⟨.dot0, s.stack⟩ else ⟨.error, s.stack⟩
  | .dot0 => if isDigit c then s else if c = 101 ∨ c = 69 then ⟨.e, s.stack⟩ else stepEndValue s.stack c
  | .e => if c = 43 ∨ c = 45 then ⟨.eSign, s.stack⟩ else stepESign s.stack c
  | .eSign => stepESign s.stack c
  | .e0 => if isDigit c then s else stepEndValue s.stack c
  | .lit [] => ⟨.error, s.stack⟩
  | .lit [a] => if c = a then ⟨.endValue, s.stack⟩ else ⟨.error, s.stack⟩
  | .lit (a :: l) => if c = a then ⟨.lit l, s.stack⟩ else ⟨.error, s.stack⟩
  | .error => s

/-- scanner.go `reset`. -/
def start : Scan := ⟨.beginValue, []⟩

/-- scanner.go `eof`: no error. -/
def Scan.eof (s : Scan) : Bool :=
  if s.step = .error then false else if s.step = .endTop then true else decide ((s.next 32).step = .endTop)

/-- scanner.go `checkValid`: no error. -/
def checkValid (data : Bytes) : Bool := (data.foldl Scan.next start).eof

/-! ### Reading -/

/-- decode.go `getu4`, after the letter u. -/
def getu4 (s : Bytes) : Option Nat :=
  match s with
  | a :: b :: c :: d :: _ =>
    match hexVal a, hexVal b, hexVal c, hexVal d with
    | some w, some x, some y, some z => some (4096 * w + 256 * x + 16 * y + z)
    | _, _, _, _ => none
  | _ => none
where
  /-- The value of a hexadecimal digit. -/
  hexVal (c : UInt8) : Option Nat :=
    if isDigit c then some (c.toNat - 48)
    else if 97 ≤ c && c ≤ 102 then some (c.toNat - 87)
    else if 65 ≤ c && c ≤ 70 then some (c.toNat - 55)
    else none

/-- decode.go `unquoteBytes`: the octet that a short escape stands for. -/
def escOf (e : UInt8) : Option UInt8 :=
  if e = 34 ∨ e = 92 ∨ e = 47 ∨ e = 39 then some e
  else if e = 98 then some 8
  else if e = 102 then some 12
  else if e = 110 then some 10
  else if e = 114 then some 13
  else if e = 116 then some 9
  else none

/-- decode.go `unquoteBytes` with unicode/utf16 `DecodeRune`: the second half of a surrogate pair is looked for at `s`. -/
def secondHalf (hi : Nat) (s : Bytes) : Option Nat :=
  match s with
  | 92 :: 117 :: t =>
    match getu4 t with
    | some lo => if hi < 0xdc00 ∧ 0xdc00 ≤ lo ∧ lo < 0xe000 then some ((hi - 0xd800) * 1024 + (lo - 0xdc00) + 0x10000) else none
    | none => none
  | _ => none

/-- decode.go `unquoteBytes`: what the octet `b` and the octets `r` after it begin with: the octets it stands for, and how many of `r`
    belong to it. -/
def unquoteUnit (b : UInt8) (r : Bytes) : Option (Bytes × Nat) :=
  if b = 92 then
    match r with
    | [] => none
    | e :: t =>
      if e = 117 then
        match getu4 t with
        | none => none
        | some n =>
          if 0xd800 ≤ n ∧ n < 0xe000 then
            match secondHalf n (t.drop 4) with
            | some m => some (encodeRune m, 11)
            | none => some (replacement, 5)
          else some (encodeRune n, 5)
      else (escOf e).map fun c => ([c], 1)
  else if b = 34 ∨ b < 0x20 then none
  else if b < 0x80 then some ([b], 0)
  else
    match runeLen (b :: r) with
    | none => some (replacement, 0)
    | some n => some ((b :: r).take n, n - 1)

/-- decode.go `unquoteBytes`: the loop, on what is between the quotation marks. The first argument counts the octets that were already
    dealt with. -/
def unquoteLoop : Nat → Bytes → Option Bytes
  | _, [] => some []
  | k + 1, _ :: r => unquoteLoop k r
  | 0, b :: r =>
    match unquoteUnit b r with
    | none => none
    | some x => (unquoteLoop x.2 r).map (x.1 ++ ·)

/-- decode.go `rescanLiteral` on a string, after the quotation mark: what is before the next one that is not escaped, and what comes
    after it. -/
def scanString : Bytes → Option (Bytes × Bytes)
  | [] => none
  | 34 :: r => some ([], r)
  | 92 :: c :: r => (scanString r).map fun x => (92 :: c :: x.1, x.2)
  | c :: r => (scanString r).map fun x => (c :: x.1, x.2)

/-- decode.go: a string, after the quotation mark. -/
def readString (t : Bytes) : Option (Bytes × Bytes) :=
  match scanString t with
  | none => none
  | some x => (unquoteLoop 0 x.1).map fun s => (s, x.2)

/-- decode.go `rescanLiteral` on a number. -/
def isNumChar (c : UInt8) : Bool := isDigit c || c == 46 || c == 101 || c == 69 || c == 43 || c == 45

/-- decode.go: `scanWhile(scanSkipSpace)`. -/
def skipSpace : Bytes → Bytes
  | [] => []
  | c :: r => if isSpace c then skipSpace r else c :: r

mutual
/-- decode.go `value`, on a text that `checkValid` accepted; `none` on texts that it does not accept. (Simplified: the decoder works on
    the scanner's tokens and stores into the Go value at once; here the value is read first. `fuel` bounds the depth of the calls.) -/
def readValue : (fuel : Nat) → Bytes → Option (Json × Bytes)
  | 0, _ => none
  | _ + 1, [] => none
  | fuel + 1, c :: r =>
    if c = 123 then (readMembers fuel r).map fun x => (.obj x.1, x.2)
    else if c = 91 then (readElems fuel r).map fun x => (.arr x.1, x.2)
    else if c = 34 then (readString r).map fun x => (.str x.1, x.2)
    else if c = 116 then some (.bool true, r.drop 3)
    else if c = 102 then some (.bool false, r.drop 4)
    else if c = 110 then some (.null, r.drop 3)
    else some (.num (c :: r.takeWhile isNumChar), r.dropWhile isNumChar)
/-- decode.go `array`: the elements from here to the bracket. -/
def readElems : (fuel : Nat) → Bytes → Option (List Json × Bytes)
  | 0, _ => none
  | fuel + 1, t =>
    match skipSpace t with
    | 93 :: r => some ([], r)
    | t' =>
      match readValue fuel t' with
      | none => none
      | some (v, r) =>
        match skipSpace r with
        | 93 :: r' => some ([v], r')
        | 44 :: r' => (readElems fuel r').map fun x => (v :: x.1, x.2)
        | _ => none
/-- decode.go `object`: the members from here to the bracket. -/
def readMembers : (fuel : Nat) → Bytes → Option (List (Bytes × Json) × Bytes)
  | 0, _ => none
  | fuel + 1, t =>
    match skipSpace t with
    | 125 :: r => some ([], r)
    | 34 :: t' =>
      match readString t' with
      | none => none
      | some (k, r) =>
        match skipSpace r with
        | 58 :: r1 =>
          match readValue fuel (skipSpace r1) with
          | none => none
          | some (v, r2) =>
            match skipSpace r2 with
            | 125 :: r' => some ([(k, v)], r')
            | 44 :: r' => (readMembers fuel r').map fun x => ((k, v) :: x.1, x.2)
            | _ => none
        | _ => none
    | _ => none
end

/-- decode.go `Unmarshal` up to the storing: the syntax is checked first. -/
def parse (data : Bytes) : Option Json :=
  if checkValid data then (readValue (data.length + 1) (skipSpace data)).map (·.1) else none

/-! ### The file of RRDP positions -/

/-- strconv `ParseInt(s, 10, 64)`. -/
def parseInt64 (s : Bytes) : Option Int :=
  let go (d : Bytes) : Option Nat := if d ≠ [] ∧ d.all isDigit then some (d.foldl (fun a c => 10 * a + (c.toNat - 48)) 0) else none
  match s with
  | 45 :: d =>
    match go d with
    | some n => if n ≤ 2 ^ 63 then some (-(n : Int)) else none
    | none => none
  | 43 :: d =>
    match go d with
    | some n => if n < 2 ^ 63 then some (n : Int) else none
    | none => none
  | d =>
    match go d with
    | some n => if n < 2 ^ 63 then some (n : Int) else none
    | none => none

/-- fold.go: the comparison of the name of a field with a key. (Simplified: upper and lower case of ASCII only; the Kelvin sign and the
    long s, which Go takes for k and s, are left out.) -/
def foldEq (name key : Bytes) : Bool := name.map low == key.map low
where
  /-- Lower case. -/
  low (b : UInt8) : UInt8 := if 65 ≤ b ∧ b ≤ 90 then b + 32 else b

/-- decode.go `object`: the field with that name, else the first one with that name in other cases. -/
def fieldOf (names : List Bytes) (key : Bytes) : Option Bytes :=
  if key ∈ names then some key else names.find? fun n => foldEq n key

/-- octorpki.go:179-184 `RRDPInfo`. -/
structure Entry where
  rsync : Bytes
  path : Bytes
  session : Bytes
  serial : Int
  deriving Repr, DecidableEq

/-- The names of the fields. -/
def fRsync : Bytes := asc "rsync".toList
def fPath : Bytes := asc "path".toList
def fSession : Bytes := asc "sessionid".toList
def fSerial : Bytes := asc "serial".toList

/-- octorpki.go:179-184: what `json.Marshal` makes of an entry. -/
def Entry.json (e : Entry) : Json :=
  .obj [(fRsync, .str e.rsync), (fPath, .str e.path), (fSession, .str e.session), (fSerial, .num (intText e.serial))]

/-- decode.go `literalStore` into a string: the new value, and whether there was no error. -/
def storeString (old : Bytes) : Json → Bytes × Bool
  | .str s => (s, true)
  | .null => (old, true)
  | _ => (old, false)

/-- decode.go `literalStore` into an int64. -/
def storeInt (old : Int) : Json → Int × Bool
  | .num t => match parseInt64 t with
    | some n => (n, true)
    | none => (old, false)
  | .null => (old, true)
  | _ => (old, false)

/-- decode.go `object` into an `RRDPInfo`: one member. -/
def storeField (x : Entry × Bool) (m : Bytes × Json) : Entry × Bool :=
  match fieldOf [fRsync, fPath, fSession, fSerial] m.1 with
  | none => x
  | some f =>
    if f = fRsync then ({ x.1 with rsync := (storeString x.1.rsync m.2).1 }, x.2 && (storeString x.1.rsync m.2).2)
    else if f = fPath then ({ x.1 with path := (storeString x.1.path m.2).1 }, x.2 && (storeString x.1.path m.2).2)
    else if f = fSession then ({ x.1 with session := (storeString x.1.session m.2).1 }, x.2 && (storeString x.1.session m.2).2)
    else ({ x.1 with serial := (storeInt x.1.serial m.2).1 }, x.2 && (storeInt x.1.serial m.2).2)

/-- decode.go `object` into a fresh `RRDPInfo`. -/
def storeEntry : Json → Entry × Bool
  | .obj l => l.foldl storeField (⟨[], [], [], 0⟩, true)
  | .null => (⟨[], [], [], 0⟩, true)
  | _ => (⟨[], [], [], 0⟩, false)

/-- decode.go `object` into the map: one member; a later member replaces an earlier one with the same key. -/
def storeMember (x : Cache.Info × Bool) (m : Bytes × Json) : Cache.Info × Bool :=
  ((m.1, (storeEntry m.2).1.session, (storeEntry m.2).1.serial) :: x.1, x.2 && (storeEntry m.2).2)

/-- octorpki.go:380: `json.Unmarshal` into the empty map. -/
def unmarshalInfo (data : Bytes) : Option Cache.Info × Bool :=
  match parse data with
  | none => (some [], false)
  | some .null => (none, true)
  | some (.obj l) => ((l.foldl storeMember ([], true)).map some id)
  | some _ => (some [], false)

/-- The keys of a map, each once. -/
def keysOnce : Cache.Info → List Bytes
  | [] => []
  | e :: m => e.1 :: (keysOnce m).filter (· ≠ e.1)

/-- encode.go `mapEncoder.encode`: the keys are sorted. -/
def sortedKeys (m : Cache.Info) : List Bytes := Der.sortSet (keysOnce m)

/-- octorpki.go:389: `json.Marshal` of the map. The field `path`, which octorpki writes and never uses, is a parameter. -/
def marshalInfo (pathOf : Bytes → Bytes) (m : Cache.Info) : Bytes :=
  print (.obj ((sortedKeys m).map fun k =>
    (k, Entry.json ⟨k, pathOf k, ((m.lookup k).getD ([], 0)).1, ((m.lookup k).getD ([], 0)).2⟩)))

/-- octorpki.go:370-400: encoding/json on the map of positions. -/
def codec (pathOf : Bytes → Bytes) : RrdpState.Codec := ⟨marshalInfo pathOf, unmarshalInfo⟩

/-! ### The published list -/

/-- prefixfile.go:81-86: the names of the fields, in order. -/
def fPrefix : Bytes := asc "prefix".toList
def fMaxLength : Bytes := asc "maxLength".toList
def fAsn : Bytes := asc "asn".toList
def fTa : Bytes := asc "ta".toList

/-- prefixfile.go:81-86: what `json.Marshal` makes of an entry (`ta` is left out when it is empty). -/
def roaJson (r : ROAJson) : Json :=
  .obj ([(fPrefix, .str r.prefixText), (fMaxLength, .num (intText r.length.toNat)), (fAsn, .str r.asn)] ++
    if r.ta = [] then [] else [(fTa, .str r.ta)])

/-- prefixfile.go:88-95, 97-100: the names of the fields. -/
def fCounts : Bytes := asc "counts".toList
def fGenerated : Bytes := asc "generated".toList
def fValid : Bytes := asc "valid".toList
def fSignature : Bytes := asc "signature".toList
def fSignatureDate : Bytes := asc "signatureDate".toList
def fMetadata : Bytes := asc "metadata".toList
def fRoas : Bytes := asc "roas".toList

/-- prefixfile.go:88-95: what `json.Marshal` makes of the metadata. -/
def metaJson (m : MetaData) : Json :=
  .obj ([(fCounts, .num (intText m.counts)), (fGenerated, .num (intText m.generated))] ++
    (if m.valid = 0 then [] else [(fValid, .num (intText m.valid))]) ++
    (if m.signature = [] then [] else [(fSignature, .str m.signature)]) ++
    (if m.signatureDate = [] then [] else [(fSignatureDate, .str m.signatureDate)]))

/-- prefixfile.go:97-100: what `json.Marshal` makes of the list. -/
def listJson (l : ROAList) : Json := .obj [(fMetadata, metaJson l.metadata), (fRoas, .arr (l.data.map roaJson))]

/-- octorpki.go:1630 `json.Marshal(s.ROAList)`. -/
def listText (l : ROAList) : Bytes := print (listJson l)

/-- octorpki.go:1234-1235, encoding/json stream.go `Encode`: the text and a newline. -/
def servedText (l : ROAList) : Bytes := listText l ++ [10]

/-- octorpki.go:1636-1642, `ioutil.WriteFile`: what is in the file when the process dies on the way: the file is cut to length zero
    when it is opened, then the octets are written; `none` for a process that dies before the file is opened. -/
def fileAfter (old new : Bytes) : Option Nat → Bytes
  | none => old
  | some n => new.take n

end Verif.Json
