import Verif.Model.Xml
/-
  Messages of the publication and setup protocols: ca/xml.go, with `Decoder.Decode` of encoding/xml for its structs.

  The structs have attributes, the octets between the tags (`innerxml`) and for a message a name with a name space. An element of
  a list has any name. encoding/xml is not in /repo; its functions are cited by name.

  Simplified: of errors only the end of the document is told apart from the others; with an error no message is given
  (`DecodeXML` gives one that is filled in part).
-/
set_option autoImplicit false

namespace Verif.CaXml
open XmlScan
open RrdpXml (Tok parseInt64)

def syntaxErr : String := "XML syntax error"

/-- `Decoder.unmarshal`: the first start tag, with what is open and left behind it. `io.EOF` comes at the end of the octets only. -/
def findStart (lib : Lib) : (fuel : Nat) → Bytes → Go (QName × List (QName × Bytes) × State)
  | 0, _ => .diverge
  | f + 1, bs =>
    if bs = [] then .err "EOF"
    else match rawToken lib bs with
      | none => .err syntaxErr
      | some (.start n as empty, r) => .ok (n, as, ⟨if empty then some n else none, [n], r⟩)
      | some (.stop _, _) => .err syntaxErr
      | some (.chars _, r) => findStart lib f r
      | some (.misc, r) => findStart lib f r

/-- `Decoder.unmarshal` and `Decoder.Skip`: to the end tag of the element; the number counts the elements open inside it. Given are
    the octets from the end tag on, and those behind it. -/
def innerEnd (lib : Lib) : (fuel : Nat) → (depth : Nat) → State → Go (Bytes × Bytes)
  | 0, _, _ => .diverge
  | f + 1, d, s =>
    match token lib s with
    | none => .err syntaxErr
    | some (.start _ _, s') => innerEnd lib f (d + 1) s'
    | some (.stop _, s') => if d = 0 then .ok (s.rest, s'.rest) else innerEnd lib f (d - 1) s'
    | some (.chars _, s') => innerEnd lib f d s'
    | some (.misc, s') => innerEnd lib f d s'

/-- `innerxml`: the octets between the tags, and those behind the end tag. -/
def inner (lib : Lib) (s : State) : Go (Bytes × Bytes) := do
  let e ← innerEnd lib (2 * s.rest.length + 2) 0 s
  return (s.rest.take (s.rest.length - e.1.length), e.2)

/-- The attribute that declares the name space of a prefix; no prefix is the empty one. -/
def declares (p : Bytes) (k : QName) : Bool :=
  if p = [] then k = ⟨[], asc "xmlns".toList⟩ else k = ⟨asc "xmlns".toList, p⟩

/-- `Decoder.translate` for the name of an element that is the first one: the name space by the element's own attributes. -/
def translate (as : List (QName × Bytes)) (n : QName) : Bytes :=
  if n.space = asc "xmlns".toList then n.space
  else if n.space = asc "xml".toList then asc "http://www.w3.org/XML/1998/namespace".toList
  else if n.space = [] ∧ n.loc = asc "xmlns".toList then []
  else as.foldl (fun u kv => if declares n.space kv.1 then kv.2 else u) n.space

/-- A string field: the attribute of the name, the last one of several; nothing if there is none. -/
def strField (k : Bytes) (as : List (QName × Bytes)) : Bytes := as.foldl (fun u kv => if kv.1.loc = k then kv.2 else u) []

/-- A field of type int. -/
def intField (k : Bytes) : List (QName × Bytes) → Int → Go Int
  | [], v => .ok v
  | kv :: as, v =>
    if kv.1.loc = k then
      match parseInt64 kv.2 with
      | some n => intField k as n
      | none => .err syntaxErr
    else intField k as v

/-- ca/xml.go:66-73 `Content` -/
structure Elem where
  space : Bytes
  loc : Bytes
  hash : Bytes
  errorCode : Bytes
  tag : Bytes
  uri : Bytes
  inner : Bytes
  deriving Repr, DecidableEq

/-- The fields of a `Content`. -/
def elemOf (n : QName) (as : List (QName × Bytes)) (i : Bytes) : Elem :=
  ⟨translate as n, n.loc, strField (asc "hash".toList) as, strField (asc "error_code".toList) as, strField (asc "tag".toList) as, strField (asc "uri".toList) as, i⟩

/-- `Decoder.Decode` into a list of `Content`: the next element, and the octets behind it. -/
def decodeElem (lib : Lib) (bs : Bytes) : Go (Elem × Bytes) := do
  let x ← findStart lib (bs.length + 1) bs
  let i ← inner lib x.2.2
  return (elemOf x.1 x.2.1 i.1, i.2)

/-- ca/xml.go:81-86: the loop of `DecodeInner`. Elements read before an error are given with it. -/
def decodeLoop (lib : Lib) : (fuel : Nat) → List Elem → Bytes → Go (List Elem × Option String)
  | 0, _, _ => .diverge
  | f + 1, acc, bs =>
    match decodeElem lib bs with
    | .ok x => decodeLoop lib f (acc ++ [x.1]) x.2
    | .err m => .ok (acc, if m = "EOF" then none else some m)
    | .panic => .panic
    | .diverge => .diverge

/-- ca/xml.go:75-90 `DecodeInner` -/
def decodeInner (lib : Lib) (i : Bytes) : Go (List Elem × Option String) :=
  if i = [] then .ok ([], none) else decodeLoop lib (i.length + 1) [] i

/-- The name of a message: name space and local part (the tags of `XMLName` in ca/xml.go:15, 22, 30, 40, 48). -/
structure MsgName where
  space : Bytes
  loc : Bytes
  deriving Repr, DecidableEq

def nsPublication : Bytes := asc "http://www.hactrn.net/uris/rpki/publication-spec/".toList
def nsSetup : Bytes := asc "http://www.hactrn.net/uris/rpki/rpki-setup/".toList

def msgName : MsgName := ⟨nsPublication, asc "msg".toList⟩
def childRequestName : MsgName := ⟨nsSetup, asc "child_request".toList⟩
def parentResponseName : MsgName := ⟨nsSetup, asc "parent_response".toList⟩

/-- A message: its version, its other attributes as they are written, the octets between its tags. -/
structure Msg where
  version : Int
  attrs : List (QName × Bytes)
  inner : Bytes
  deriving Repr, DecidableEq

/-- `Decoder.Decode` into a message: the first element, whose name must be the one of the struct. -/
def decodeMsg (lib : Lib) (nm : MsgName) (bs : Bytes) : Go Msg := do
  let x ← findStart lib (bs.length + 1) bs
  if x.1.loc ≠ nm.loc then .err "expected element type"
  else if translate x.2.1 x.1 ≠ nm.space then .err "expected element in name space"
  else do
    let v ← intField (asc "version".toList) x.2.1 0
    let i ← inner lib x.2.2
    return ⟨v, x.2.1, i.1⟩

/-- ca/xml.go:14-19 `XMLMessage` -/
structure XMLMessage where
  version : Int
  type : Bytes
  inner : Bytes
  deriving Repr, DecidableEq

/-- ca/xml.go:21-27 `XMLMessageChildRequest` -/
structure ChildRequest where
  version : Int
  childHandle : Bytes
  tag : Bytes
  inner : Bytes
  deriving Repr, DecidableEq

/-- ca/xml.go:29-37 `XMLMessageParentResponse` -/
structure ParentResponse where
  version : Int
  tag : Bytes
  serviceURI : Bytes
  childHandle : Bytes
  parentHandle : Bytes
  inner : Bytes
  deriving Repr, DecidableEq

/-- ca/xml.go:58-64 `NewXMLList` -/
def newXMLList : XMLMessage := ⟨4, asc "query".toList, asc "<list/>".toList⟩

/-- ca/xml.go:91-97 `DecodeXML` -/
def decodeXML (lib : Lib) (bs : Bytes) : Go XMLMessage := do
  let m ← decodeMsg lib msgName bs
  return ⟨m.version, strField (asc "type".toList) m.attrs, m.inner⟩

/-- ca/xml.go:99-109 `DecodeXMLFull` -/
def decodeXMLFull (lib : Lib) (bs : Bytes) : Go (XMLMessage × List Elem × Option String) := do
  let m ← decodeXML lib bs
  let es ← decodeInner lib m.inner
  return (m, es)

/-- ca/xml.go:111-121 `DecodeXMLCRFull` -/
def decodeXMLCRFull (lib : Lib) (bs : Bytes) : Go (ChildRequest × List Elem × Option String) := do
  let m ← decodeMsg lib childRequestName bs
  let es ← decodeInner lib m.inner
  return (⟨m.version, strField (asc "child_handle".toList) m.attrs, strField (asc "tag".toList) m.attrs, m.inner⟩, es)

/-- ca/xml.go:123-133 `DecodeXMLPRFull` -/
def decodeXMLPRFull (lib : Lib) (bs : Bytes) : Go (ParentResponse × List Elem × Option String) := do
  let m ← decodeMsg lib parentResponseName bs
  let es ← decodeInner lib m.inner
  return (⟨m.version, strField (asc "tag".toList) m.attrs, strField (asc "service_uri".toList) m.attrs, strField (asc "child_handle".toList) m.attrs,
    strField (asc "parent_handle".toList) m.attrs, m.inner⟩, es)

end Verif.CaXml
