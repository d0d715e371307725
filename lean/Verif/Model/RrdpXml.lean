import Verif.Model.Rrdp
/-
  Reading of RRDP documents: sync/lib/rrdp.go `ParseRoot` and `ParseNode` with the structs of rrdp_struct.go.

  The scanner of encoding/xml is a parameter: it makes of a document the tokens that `Decoder.Token` gives before the first nil
  one. A nil token stands for the end of the document and for a syntax error alike, as the code does not look at the error; both
  come as the end of the list. (In its strict mode the scanner gives only end tags that match.) Of names only the local part is kept,
  which is all that is compared when a struct tag has no namespace. `DecodeElement` is modelled for these structs.

  Simplified: white space around a number is ASCII only; the limit on the depth of elements is left out.
-/
set_option autoImplicit false

namespace Verif.RrdpXml
open Rrdp

/-- encoding/xml `Token`: start and end tags, character data, and comments, directives and processing instructions. -/
inductive Tok where
  | start (name : Bytes) (attrs : List (Bytes × Bytes))
  | stop (name : Bytes)
  | chars (b : Bytes)
  | misc
  deriving Repr, DecidableEq

def nNotification : Bytes := asc "notification".toList
def nSnapshot : Bytes := asc "snapshot".toList
def nDelta : Bytes := asc "delta".toList
def nPublish : Bytes := asc "publish".toList
def nWithdraw : Bytes := asc "withdraw".toList
def nSession : Bytes := asc "session_id".toList
def nSerial : Bytes := asc "serial".toList
def nUri : Bytes := asc "uri".toList
def nHash : Bytes := asc "hash".toList

/-- White space in ASCII (`strings.TrimSpace`). -/
def isSpace (c : UInt8) : Bool := c = 32 || (9 ≤ c && c ≤ 13)

def trim (b : Bytes) : Bytes := ((b.dropWhile isSpace).reverse.dropWhile isSpace).reverse

def digits (b : Bytes) : Option Nat :=
  if b ≠ [] ∧ b.all (fun c => 48 ≤ c && c ≤ 57) then some (b.foldl (fun n c => n * 10 + (c.toNat - 48)) 0) else none

/-- encoding/xml `copyValue` for an int64: no text is zero, otherwise `strconv.ParseInt(strings.TrimSpace(text), 10, 64)`. -/
def parseInt64 (b : Bytes) : Option Int :=
  if b = [] then some 0
  else
    let r : Option Int := match trim b with
      | 45 :: t => (digits t).map fun (n : Nat) => -(n : Int)
      | 43 :: t => (digits t).map fun (n : Nat) => (n : Int)
      | t => (digits t).map fun (n : Nat) => (n : Int)
    r.bind fun n => if -(2 ^ 63) ≤ n ∧ n < 2 ^ 63 then some n else none

/-- rrdp_struct.go:7-12 `RootNode`, of which session and serial are used. -/
structure Root where
  session : Bytes
  serial : Int
  deriving Repr, DecidableEq

/-- The attributes of a document's element, one after the other. -/
def rootAttrs : List (Bytes × Bytes) → Root → Go Root
  | [], r => .ok r
  | (k, v) :: rest, r =>
    if k = nSession then rootAttrs rest { r with session := v }
    else if k = nSerial then
      match parseInt64 v with
      | some n => rootAttrs rest { r with serial := n }
      | none => .err "XML does not conform to schema"
    else rootAttrs rest r

/-- rrdp_struct.go:14-18 `ElNode`. -/
def elAttrs : List (Bytes × Bytes) → El → Go El
  | [], e => .ok e
  | (k, v) :: rest, e =>
    if k = nSerial then
      match parseInt64 v with
      | some n => elAttrs rest { e with serial := n }
      | none => .err "XML does not conform to schema"
    else if k = nUri then elAttrs rest { e with uri := v }
    else if k = nHash then elAttrs rest { e with hash := v }
    else elAttrs rest e

/-- rrdp_struct.go:20-23 `Cert`: the attribute. -/
def certAttrs (attrs : List (Bytes × Bytes)) : Bytes := attrs.foldl (fun u kv => if kv.1 = nUri then kv.2 else u) []

/-- encoding/xml `Skip`: to the end of the element; the number counts the elements open inside it. -/
def skip : Nat → List Tok → Go (List Tok)
  | _, [] => .err "XML does not conform to schema"
  | d, .start _ _ :: r => skip (d + 1) r
  | 0, .stop _ :: r => .ok r
  | d + 1, .stop _ :: r => skip d r
  | d, .chars _ :: r => skip d r
  | d, .misc :: r => skip d r

/-- rrdp_struct.go:20-23 `Cert`: the character data of the element, without that of elements inside it. -/
def certBody : Bytes → Nat → List Tok → Go (Bytes × List Tok)
  | _, _, [] => .err "XML does not conform to schema"
  | acc, d, .start _ _ :: r => certBody acc (d + 1) r
  | acc, 0, .stop _ :: r => .ok (acc, r)
  | acc, d + 1, .stop _ :: r => certBody acc d r
  | acc, 0, .chars b :: r => certBody (acc ++ b) 0 r
  | acc, d + 1, .chars _ :: r => certBody acc (d + 1) r
  | acc, d, .misc :: r => certBody acc d r

/-- rrdp_struct.go:32-44 `Delta` and `Snapshot`: what is inside the element is appended to the lists there are. -/
def nodeBody : (fuel : Nat) → List Item × List Item → List Tok → Go ((List Item × List Item) × List Tok)
  | 0, _, _ => .diverge
  | _ + 1, _, [] => .err "XML does not conform to schema"
  | f + 1, st, .start k as :: r =>
    if k = nPublish then do
      let x ← certBody [] 0 r
      nodeBody f (st.1 ++ [⟨certAttrs as, x.1⟩], st.2) x.2
    else if k = nWithdraw then do
      let x ← certBody [] 0 r
      nodeBody f (st.1, st.2 ++ [⟨certAttrs as, x.1⟩]) x.2
    else do
      let r' ← skip 0 r
      nodeBody f st r'
  | _ + 1, st, .stop _ :: r => .ok (st, r)
  | f + 1, st, .chars _ :: r => nodeBody f st r
  | f + 1, st, .misc :: r => nodeBody f st r

/-- rrdp.go:105-150: the loop of `ParseNode`. `d` and `s` (99-100) are the one `Delta` and the one `Snapshot` that all elements are decoded into. -/
def parseNodeLoop : (fuel : Nat) → (d s : List Item × List Item) → (out : List Item × List Item) → List Tok → Go (List Item × List Item)
  | 0, _, _, _, _ => .diverge
  | _ + 1, _, _, out, [] => .ok out
  | f + 1, d, s, out, .start k as :: r =>
    if k = nDelta then do
      let _ ← rootAttrs as ⟨[], 0⟩
      let x ← nodeBody (f + 1) d r
      parseNodeLoop f x.1 s (out.1 ++ x.1.1, out.2 ++ x.1.2) x.2
    else if k = nSnapshot then do
      let _ ← rootAttrs as ⟨[], 0⟩
      let x ← nodeBody (f + 1) s r
      parseNodeLoop f d x.1 (out.1 ++ x.1.1, out.2 ++ x.1.2) x.2
    else parseNodeLoop f d s out r
  | f + 1, d, s, out, _ :: r => parseNodeLoop f d s out r

/-- rrdp.go:96-151 `ParseNode`. -/
def parseNode (toks : List Tok) : Go (List Item × List Item) := parseNodeLoop (toks.length + 1) ([], []) ([], []) ([], []) toks

/-- rrdp_struct.go:25-30 `Notification`: what is inside the element. -/
def rootBody : (fuel : Nat) → Notification → List Tok → Go (Notification × List Tok)
  | 0, _, _ => .diverge
  | _ + 1, _, [] => .err "XML does not conform to schema"
  | f + 1, n, .start k as :: r =>
    if k = nSnapshot then do
      let e ← elAttrs as n.snapshot
      let r' ← skip 0 r
      rootBody f { n with snapshot := e } r'
    else if k = nDelta then do
      let e ← elAttrs as ⟨0, [], []⟩
      let r' ← skip 0 r
      rootBody f { n with deltas := n.deltas ++ [e] } r'
    else do
      let r' ← skip 0 r
      rootBody f n r'
  | _ + 1, n, .stop _ :: r => .ok (n, r)
  | f + 1, n, .chars _ :: r => rootBody f n r
  | f + 1, n, .misc :: r => rootBody f n r

/-- rrdp.go:74-93: the loop of `ParseRoot`. -/
def parseRootLoop : (fuel : Nat) → Notification → List Tok → Go Notification
  | 0, _, _ => .diverge
  | _ + 1, n, [] => .ok n
  | f + 1, n, .start k as :: r =>
    if k = nNotification then do
      let a ← rootAttrs as ⟨n.sessionID, n.serial⟩
      let x ← rootBody (f + 1) { n with sessionID := a.session, serial := a.serial } r
      parseRootLoop f x.1 x.2
    else parseRootLoop f n r
  | f + 1, n, _ :: r => parseRootLoop f n r

/-- rrdp.go:68-94 `ParseRoot`. -/
def parseRoot (toks : List Tok) : Go Notification := parseRootLoop (toks.length + 1) ⟨[], 0, ⟨0, [], []⟩, []⟩ toks

/-- What `FetchRRDP` (Model/Rrdp) takes from outside, with the documents read by these functions. -/
def xmlWorld (get : Nat → Bytes → Option Bytes) (scan : Bytes → List Tok) : World where
  getXML := get
  parseRoot := fun d => match parseRoot (scan d) with | .ok n => some n | _ => none
  parseNode := fun d => match parseNode (scan d) with | .ok x => some x | _ => none

end Verif.RrdpXml
