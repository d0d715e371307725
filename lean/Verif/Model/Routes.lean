import Verif.Model.Local
/-
  Model of `Serve` of cmd/octorpki/octorpki.go: which request gets which document, with the multiplexer of net/http as it behaves for
  a module that asks for Go 1.19 (the patterns of Go 1.22 are then off), and with the cross-origin headers of
  vendor/github.com/rs/cors. What the documents hold is modelled elsewhere (C59, C60, C84, C93).

  Left out: queries, "OPTIONS *", the header Vary. `strings.ToLower` is modelled for ASCII (origins sent by browsers are ASCII).
-/
set_option autoImplicit false

namespace Verif.Routes
open Path Cache Tal

/-- What answers a request. -/
inductive Doc where
  | roas
  | resources
  | info
  | health
  | metrics
  | pprof (n : Nat)
  deriving Repr, DecidableEq

/-- The options `Serve` is called with (octorpki.go:75-85, 1458); `pprof` is the option of the same name. -/
structure Cfg where
  roaPath : Bytes
  metricsPath : Bytes
  infoPath : Bytes
  healthPath : Bytes
  corsOrigin : Bytes
  corsCreds : Bool
  pprof : Bool
  deriving Repr, DecidableEq

/-- octorpki.go:1330-1333: a slash is put before the path of the ROAs. -/
def fullPath (roaPath : Bytes) : Bytes :=
  match roaPath with
  | [] => []
  | b :: r => if b ≠ 47 then 47 :: b :: r else b :: r

/-- octorpki.go:1338-1350: what is registered, in this order. -/
def registered (c : Cfg) : List (Bytes × Doc) :=
  [(fullPath c.roaPath, .roas), (asc "/resources.json".toList, .resources), (c.infoPath, .info), (c.healthPath, .health), (c.metricsPath, .metrics)] ++
    if c.pprof then [(asc "/debug/pprof/cmdline".toList, .pprof 0), (asc "/debug/pprof/profile".toList, .pprof 1), (asc "/debug/pprof/symbol".toList, .pprof 2),
      (asc "/debug/pprof/trace".toList, .pprof 3), (asc "/debug/pprof/".toList, .pprof 4)] else []

/-! ### net/http -/

/-- `http.ServeMux`: the map of patterns, the patterns that end in a slash, longest first, and whether a pattern has a host. -/
structure Mux where
  m : List (Bytes × Doc)
  es : List (Bytes × Doc)
  hosts : Bool
  deriving Repr, DecidableEq

/-- `appendSorted`: before the first pattern that is shorter. -/
def appendSorted : List (Bytes × Doc) → Bytes × Doc → List (Bytes × Doc)
  | [], e => [e]
  | x :: r, e => if x.1.length < e.1.length then e :: x :: r else x :: appendSorted r e

/-- `ServeMux.Handle`: an empty pattern and one that is registered already panic. -/
def Mux.handle (mux : Mux) (pattern : Bytes) (d : Doc) : Go Mux :=
  if pattern = [] then .panic
  else if (mux.m.lookup pattern).isSome then .panic
  else .ok ⟨(pattern, d) :: mux.m, if pattern.getLast? = some 47 then appendSorted mux.es (pattern, d) else mux.es, mux.hosts || decide (pattern.head? ≠ some 47)⟩

/-- Registering one after the other. -/
def Mux.handleAll (mux : Mux) : List (Bytes × Doc) → Go Mux
  | [] => .ok mux
  | (p, d) :: r => do
    let mux ← mux.handle p d
    mux.handleAll r

/-- octorpki.go:1336-1350: the multiplexer; a panic ends the whole program (`Serve` runs in a goroutine, octorpki.go:1458). -/
def start (c : Cfg) : Go Mux := Mux.handleAll ⟨[], [], false⟩ (registered c)

/-- `cleanPath` of net/http: `path.Clean` of the rooted path, which keeps a slash at the end. -/
def cleanPath (p : Bytes) : Bytes :=
  if p = [] then [47]
  else
    let p := if p.head? ≠ some 47 then 47 :: p else p
    let np := (clean p).text
    if p.getLast? = some 47 ∧ np ≠ [47] then np ++ [47] else np

/-- `ServeMux.match` -/
def Mux.find (mux : Mux) (path : Bytes) : Option Doc :=
  match mux.m.lookup path with
  | some d => some d
  | none => (mux.es.find? fun e => hasPrefix path e.1).map (·.2)

/-- `ServeMux.shouldRedirectRLocked` -/
def Mux.shouldRedirect (mux : Mux) (host path : Bytes) : Bool :=
  if (mux.m.lookup path).isSome ∨ (mux.m.lookup (host ++ path)).isSome then false
  else if path = [] then false
  else if (mux.m.lookup (path ++ [47])).isSome ∨ (mux.m.lookup (host ++ path ++ [47])).isSome then decide (path.getLast? ≠ some 47)
  else false

/-- `ServeMux.handler` -/
def Mux.handler (mux : Mux) (host path : Bytes) : Option Doc :=
  match if mux.hosts then mux.find (host ++ path) else none with
  | some d => some d
  | none => mux.find path

/-- A request: the method, the header Host with and without a port, the path of the URL, the header Origin (empty if there is none),
    and what a preflight asks for (`Access-Control-Request-Method`, empty if there is none; `Access-Control-Request-Headers` as a list of
    canonical names). -/
structure Req where
  method : Bytes
  host : Bytes
  hostName : Bytes
  path : Bytes
  origin : Bytes
  askMethod : Bytes
  askHeaders : List Bytes
  deriving Repr, DecidableEq

/-- What the multiplexer answers: a document, a permanent redirection (301), or 404. -/
inductive Answer where
  | doc (d : Doc)
  | redirect (path : Bytes)
  | notFound
  deriving Repr, DecidableEq

/-- A document or 404. -/
def Answer.ofDoc : Option Doc → Answer
  | some d => .doc d
  | none => .notFound

/-- `ServeMux.Handler`: CONNECT takes the path as it is; for all other methods the path is cleaned. -/
def Mux.answer (mux : Mux) (r : Req) : Answer :=
  if r.method = asc "CONNECT".toList then
    if mux.shouldRedirect r.host r.path then .redirect (r.path ++ [47]) else .ofDoc (mux.handler r.host r.path)
  else
    let path := cleanPath r.path
    if mux.shouldRedirect r.hostName path then .redirect (path ++ [47])
    else if path ≠ r.path then .redirect path
    else .ofDoc (mux.handler r.hostName r.path)

/-! ### rs/cors -/

/-- A letter in lower case (ASCII). -/
def lowerByte (b : UInt8) : UInt8 := if 65 ≤ b ∧ b ≤ 90 then b + 32 else b

/-- strings.ToLower, for ASCII. -/
def lower (s : Bytes) : Bytes := s.map lowerByte

/-- A letter in upper case (ASCII). -/
def upperByte (b : UInt8) : UInt8 := if 97 ≤ b ∧ b ≤ 122 then b - 32 else b

/-- strings.ToUpper, for ASCII. -/
def upper (s : Bytes) : Bytes := s.map upperByte

/-- vendor/github.com/rs/cors/cors.go:83-112 `Cors`: the fields that `Serve` uses. -/
structure Cors where
  origins : List Bytes
  wild : List (Bytes × Bytes)
  all : Bool
  creds : Bool
  deriving Repr, DecidableEq

/-- strings.IndexByte for '*', and the two parts (cors.go:151-154). -/
def cutStar : Bytes → Option (Bytes × Bytes)
  | [] => none
  | b :: r => if b = 42 then some ([], r) else (cutStar r).map fun w => (b :: w.1, w.2)

/-- cors.go:142-159: the loop over the origins. -/
def addOrigins (c : Cors) : List Bytes → Cors
  | [] => c
  | o :: r =>
    let o := lower o
    if o = [42] then ⟨[], [], true, c.creds⟩
    else
      match cutStar o with
      | some w => addOrigins { c with wild := c.wild ++ [w] } r
      | none => addOrigins { c with origins := c.origins ++ [o] } r

/-- cors.go:115-194 `New`, with the options of octorpki.go:1352-1356. -/
def newCors (c : Cfg) : Cors := addOrigins ⟨[], [], false, c.corsCreds⟩ (splitOn 44 c.corsOrigin)

/-- cors/utils.go:14-16 `wildcard.match`. -/
def wildMatch (w : Bytes × Bytes) (s : Bytes) : Bool :=
  decide (w.1.length + w.2.length ≤ s.length) && hasPrefix s w.1 && hasPrefix s.reverse w.2.reverse

/-- cors.go:388-410 `isOriginAllowed`. -/
def Cors.originAllowed (c : Cors) (origin : Bytes) : Bool :=
  if c.all then true
  else c.origins.any (fun o => o == lower origin) || c.wild.any (fun w => wildMatch w (lower origin))

/-- octorpki.go:1354 `AllowedMethods`. -/
def allowedMethods : List Bytes := [asc "GET".toList, asc "POST".toList, asc "OPTIONS".toList]

/-- cors.go:414-431 `isMethodAllowed`. -/
def methodAllowed (method : Bytes) : Bool :=
  if upper method = asc "OPTIONS".toList then true else allowedMethods.any (fun m => m == upper method)

/-- cors.go:165 `allowedHeaders`, as `Serve` names none. -/
def allowedHeaders : List Bytes := [asc "Origin".toList, asc "Accept".toList, asc "Content-Type".toList, asc "X-Requested-With".toList]

/-- cors.go:435-457 `areHeadersAllowed`. -/
def headersAllowed (l : List Bytes) : Bool := l.all fun h => allowedHeaders.any fun a => a == h

/-- The headers of an answer that browsers look at; `methods` and `headers` only in the answer to a preflight. -/
structure Headers where
  allowOrigin : Option Bytes
  allowCreds : Bool
  allowMethods : Option Bytes
  allowHeaders : List Bytes
  deriving Repr, DecidableEq

/-- No header at all. -/
def Headers.none : Headers := ⟨Option.none, false, Option.none, []⟩

/-- cors.go:271-334 `handlePreflight`. -/
def Cors.preflight (c : Cors) (r : Req) : Headers :=
  if r.origin = [] then .none
  else if c.originAllowed r.origin = false then .none
  else if methodAllowed r.askMethod = false then .none
  else if headersAllowed r.askHeaders = false then .none
  else ⟨some (if c.all then [42] else r.origin), c.creds, some (upper r.askMethod), r.askHeaders⟩

/-- cors.go:337-373 `handleActualRequest`. -/
def Cors.actual (c : Cors) (r : Req) : Headers :=
  if r.origin = [] then .none
  else if c.originAllowed r.origin = false then .none
  else if methodAllowed r.method = false then .none
  else ⟨some (if c.all then [42] else r.origin), c.creds, Option.none, []⟩

/-- A whole answer: the headers, and what the multiplexer answers; nothing (204) for a preflight. -/
structure Resp where
  headers : Headers
  answer : Option Answer
  deriving Repr, DecidableEq

/-- cors.go:216-237 `Handler` around the multiplexer: octorpki.go:1352-1358. -/
def respond (mux : Mux) (c : Cors) (r : Req) : Resp :=
  if r.method = asc "OPTIONS".toList ∧ r.askMethod ≠ [] then ⟨c.preflight r, none⟩
  else ⟨c.actual r, some (mux.answer r)⟩

/-- The server as `Serve` starts it. -/
def serve (c : Cfg) (r : Req) : Go Resp := do
  let mux ← start c
  return respond mux (newCors c) r

end Verif.Routes
