import Mathlib.Data.List.Basic
/-
  Model of what the goroutines of octorpki share: the fields of `OctoRPKI` (cmd/octorpki/octorpki.go:204-243), the locks around
  them, and in which order each goroutine uses them. Everything else a goroutine does is one step `outside`.

  Goroutines: the validation loop (number 0), the HTTP server, one per request, and the workers of the two fetch phases.
  Not modelled: the collectors of reports (C97) and the senders of Certificate Transparency, which share channels only; the
  channels of jobs (a worker gets any list of jobs); files.
-/
set_option autoImplicit false

namespace Verif.Conc

/-- Things that are built, then published by storing a pointer to them: the list of VRPs, the resources, the authorities. -/
inductive Obj where
  | list | resources | authorities
  deriving DecidableEq, Repr

/-- octorpki.go:204-243 and 280-284: fields of `OctoRPKI` and `octoRPKIStats` that more than one function uses. `ptr` are `ROAList`, `Resources` and
    `InfoAuthorities`; `body o n` is what the pointer number `n` of this kind points to (0: what `NewOctoRPKI` made). -/
inductive Var where
  | ptr (o : Obj) | body (o : Obj) (n : Nat)
  | rrdpFetch | rrdpDomain | rsyncJobs | rrdpInfo
  | lastComputed | duration | talsCount
  | talsFetch | currentRepos | prevRepos
  deriving DecidableEq, Repr

/-- The locks: octorpki.go:220, 222, 227, 1495, 230, 239, 233. -/
inductive Mu where
  | fetchMu | domainMu | infoMu | jobsMu | ptrMu (o : Obj)
  deriving DecidableEq, Repr

/-- Atomic fields: octorpki.go:211, 212, 282. -/
inductive Flag where
  | stable | previous | iterations
  deriving DecidableEq, Repr

/-- `client` writes an answer to the client of a request, `outside` is network, disk or computing, `wait` waits for the workers
    (`sync.WaitGroup`). -/
inductive Act where
  | write (x : Var) (v : Nat)
  | lock (m : Mu) | unlock (m : Mu) | rlock (m : Mu) | runlock (m : Mu)
  | load (f : Flag) | store (f : Flag)
  | client | outside | wait
  deriving DecidableEq, Repr

/-- What a goroutine does. `get` reads a field and goes on with its value; `fork` starts a goroutine (a worker or another one). -/
inductive Code where
  | done
  | act (a : Act) (k : Code)
  | get (x : Var) (k : Nat → Code)
  | fork (worker : Bool) (c : Code) (k : Code)

/-! ### How goroutines run -/

inductive Op where
  | act (a : Act) | read (x : Var) (v : Nat) | fork (child : Nat) (worker : Bool)
  deriving DecidableEq, Repr

/-- Goroutine number `tid` did `op`. -/
structure Ev where
  tid : Nat
  op : Op
  deriving DecidableEq, Repr

structure Thread where
  worker : Bool
  code : Code

def Code.isDone : Code → Bool
  | .done => true
  | _ => false

/-- `pending` is the writer that waits for a lock, `trace` is all that happened so far, in order. -/
structure Cfg where
  threads : List Thread
  writer : Mu → Option Nat
  pending : Mu → Option Nat
  readers : Mu → List Nat
  mem : Var → Nat
  trace : List Ev

def upd {α β : Type} [DecidableEq α] (f : α → β) (a : α) (b : β) : α → β := fun x => if x = a then b else f x

/-- sync.RWMutex and sync.WaitGroup: when goroutine `t` can go on. A writer first announces itself, which keeps other writers and new readers out, then waits for
    the readers to leave. -/
def Cfg.allows (c : Cfg) (t : Nat) : Act → Bool
  | .lock m => (c.writer m).isNone && decide (c.pending m = some t) && (c.readers m).isEmpty
  | .rlock m => (c.writer m).isNone && (c.pending m).isNone
  | .unlock m => decide (c.writer m = some t)
  | .runlock m => decide (t ∈ c.readers m)
  | .wait => c.threads.all fun th => !th.worker || th.code.isDone
  | _ => true

def Cfg.effect (c : Cfg) (t : Nat) : Act → Cfg
  | .lock m => { c with writer := upd c.writer m (some t), pending := upd c.pending m none }
  | .unlock m => { c with writer := upd c.writer m none }
  | .rlock m => { c with readers := upd c.readers m (t :: c.readers m) }
  | .runlock m => { c with readers := upd c.readers m ((c.readers m).erase t) }
  | .write x v => { c with mem := upd c.mem x v }
  | _ => c

/-- sync.RWMutex: goroutine `t` announces that it wants to write. -/
def Cfg.announce (c : Cfg) (t : Nat) : Act → Option Cfg
  | .lock m => if (c.writer m).isNone && (c.pending m).isNone then some { c with pending := upd c.pending m (some t) } else none
  | _ => none

/-- One step of goroutine `t`; `none` if it has ended or has to wait. -/
def Cfg.step (c : Cfg) (t : Nat) : Option Cfg :=
  match c.threads[t]? with
  | none => none
  | some th =>
    match th.code with
    | .done => none
    | .act a k =>
      if c.allows t a then
        some { c.effect t a with threads := c.threads.set t ⟨th.worker, k⟩, trace := c.trace ++ [⟨t, .act a⟩] }
      else c.announce t a
    | .get x k => some { c with threads := c.threads.set t ⟨th.worker, k (c.mem x)⟩, trace := c.trace ++ [⟨t, .read x (c.mem x)⟩] }
    | .fork w d k =>
      some { c with
        threads := c.threads.set t ⟨th.worker, k⟩ ++ [⟨w, d⟩], trace := c.trace ++ [⟨t, .fork c.threads.length w⟩] }

/-- The steps of the goroutines in the order of a schedule. -/
def Cfg.run : Cfg → List Nat → Option Cfg
  | c, [] => some c
  | c, t :: ts =>
    match c.step t with
    | none => none
    | some c' => c'.run ts

/-! ### The code -/

def acts (l : List Act) (k : Code) : Code := l.foldr .act k

/-- A change under a lock, as in octorpki.go:258-263. -/
def locked (m : Mu) (l : List Act) (k : Code) : Code := .act (.lock m) (acts l (.act (.unlock m) k))

/-- A read under a read lock, as in octorpki.go:246-256. -/
def rlocked (m : Mu) (x : Var) (k : Nat → Code) : Code := .act (.rlock m) (.get x fun v => .act (.runlock m) (k v))

/-- How an RRDP fetch ends: octorpki.go:438-445, 502-510. -/
inductive RrdpEnd where
  | success | failover | dropped
  deriving DecidableEq, Repr

/-- octorpki.go:427-471 `fetchRRDP` with 473-485 `newRRDPSystem`, 265-271 `getRRDPDomain`, 487-513 `rrdpError` and 1504-1509 `delete`. -/
def fetchRRDP (e : RrdpEnd) (k : Code) : Code :=
  rlocked .infoMu .rrdpInfo fun _ => rlocked .domainMu .rrdpDomain fun _ => .act .outside
    (match e with
      | .success => locked .jobsMu [.write .rsyncJobs 0] (locked .infoMu [.write .rrdpInfo 0] k)
      | .failover => k
      | .dropped => locked .jobsMu [.write .rsyncJobs 0] k)

/-- rrdp_fetcher.go:36-42: a worker, with the jobs it gets. -/
def rrdpWorker (jobs : List RrdpEnd) : Code := jobs.foldr fetchRRDP .done

/-- rsync_fetcher.go:31-37 with octorpki.go:550-577 `fetchRsync`: nothing shared. -/
def rsyncWorker (jobs : Nat) : Code := acts (List.replicate jobs .outside) .done

/-- rrdp_fetcher.go:21-34: workers are started. -/
def forks (ws : List Code) (k : Code) : Code := ws.foldr (fun w k => .fork true w k) k

/-- What differs from round to round. -/
structure Round where
  rrdp : Bool
  rrdpFile : Bool
  readable : Bool
  rrdpJobs : List (List RrdpEnd)
  /-- Certificates of trust anchors to download, and whether the download fails over to rsync. -/
  tals : List Bool
  rsyncJobs : List Nat
  /-- Per TAL: the number of TALs without certificate, and, for each certificate with a repository, what it says: no RRDP, RRDP, or RRDP bound to
      another host. -/
  found : List (Nat × List (Option Bool))
  /-- Whether the loop pauses after the round. -/
  pause : Bool

/-- octorpki.go:1647-1671 `doRRDP` with 370-412 and 414-425. -/
def doRRDP (r : Round) (k : Code) : Code :=
  let save := if r.rrdpFile then rlocked .infoMu .rrdpInfo fun _ => .act .outside k else k
  let fetch := rlocked .fetchMu .rrdpFetch fun _ => forks (r.rrdpJobs.map rrdpWorker) (.act .wait save)
  if r.rrdpFile && r.readable then .act .outside (locked .infoMu [.write .rrdpInfo 0] fetch) else fetch

/-- octorpki.go:616-663 `mainTAL`, `fetchTAL`. -/
def mainTAL (tals : List Bool) (k : Code) : Code :=
  .get .talsFetch fun _ => tals.foldr
    (fun failover k => .act .outside (if failover then locked .jobsMu [.write .rsyncJobs 0] k else k)) (.act (.write .talsFetch 0) k)

/-- octorpki.go:515-530 `mainRsync` with 1511-1521. -/
def mainRsync (jobs : List Nat) (k : Code) : Code :=
  rlocked .jobsMu .rsyncJobs fun _ => forks (jobs.map rsyncWorker) (.act .wait k)

/-- octorpki.go:1096-1125: a certificate; `n` is the number of the authorities that are built. -/
def oneCert (n : Nat) (rrdp : Option Bool) (k : Code) : Code :=
  let rest := locked .jobsMu [.write .rsyncJobs 0] (acts [.write .currentRepos 0, .write (.body .authorities n) 0] k)
  match rrdp with
  | none => rest
  | some false => rlocked .domainMu .rrdpDomain fun _ => k
  | some true => rlocked .domainMu .rrdpDomain fun _ => locked .domainMu [.write .rrdpDomain 0] (locked .fetchMu [.write .rrdpFetch 0] rest)

/-- octorpki.go:1050-1127: the exploration of a TAL reads `CurrentRepos` through the fetcher (line 309), then the results are collected. -/
def oneTal (n : Nat) (found : Nat × List (Option Bool)) (k : Code) : Code :=
  .act .outside (.get .currentRepos fun _ => acts (List.replicate found.1 (.write .talsFetch 0)) (found.2.foldr (oneCert n) k))

/-- octorpki.go:771-1022 `generateROAList`: object number `n` of each kind is built, the resources are published. -/
def generateROAList (n : Nat) (k : Code) : Code :=
  acts [.write .talsCount 0, .write (.body .resources n) 0, .write (.body .list n) 0, .write .lastComputed 0, .write (.body .list n) 0]
    (locked (.ptrMu .resources) [.write (.ptr .resources) n] k)

/-- octorpki.go:1037-1142 `mainValidation` with 1182-1194. -/
def mainValidation (n : Nat) (r : Round) (k : Code) : Code :=
  .act (.write (.body .authorities n) 0) (r.found.foldr (oneTal n)
    (locked (.ptrMu .authorities) [.write (.ptr .authorities) n]
      (generateROAList n (locked (.ptrMu .list) [.write (.ptr .list) n]
        (.act (.write .duration 0) (.get .duration fun _ => .get .lastComputed fun _ => k))))))

/-- octorpki.go:292-316 `MainReduce`. -/
def mainReduce (k : Code) : Code :=
  .get .currentRepos fun _ => .get .prevRepos fun _ => .act (.write .prevRepos 0) (.get .prevRepos fun _ => k)

/-- octorpki.go:1536-1620 `validationLoop`: round number `n` (from 1) in server mode, without Certificate Transparency. -/
def round (n : Nat) (r : Round) (k : Code) : Code :=
  let rest := mainTAL r.tals (mainRsync r.rsyncJobs (mainValidation n r (mainReduce
    (acts [.load .iterations, .store .stable, .load .stable, .store .previous, .load .stable, .load .stable]
      (if r.pause then .get .lastComputed fun _ => acts [.outside, .store .stable] k else k)))))
  acts [.store .iterations, .load .iterations] (if r.rrdp then doRRDP r rest else rest)

/-- The rounds from number `n`. -/
def rounds : Nat → List Round → Code
  | _, [] => .done
  | n, r :: rs => round n r (rounds (n + 1) rs)

/-! ### Requests -/

/-- A request, and what it meets: `ready` says how the test of the flags comes out. -/
inductive Request where
  | roas (ready modified : Bool) | resources (ready : Bool) | info | health
  deriving DecidableEq, Repr

/-- octorpki.go:1203-1326: the four handlers. (`json.Encoder` encodes into memory first and writes after that.) -/
def handler : Request → Code
  | .roas false _ => acts [.load .stable, .load .previous, .client] .done
  | .roas true modified => acts [.load .stable, .load .previous] (.get .lastComputed fun _ =>
      rlocked (.ptrMu .list) (.ptr .list) fun n => .get (.body .list n) fun _ =>
        if modified then .get (.body .list n) fun _ => .act .client .done else .act .client .done)
  | .resources false => acts [.load .stable, .load .previous, .client] .done
  | .resources true => acts [.load .stable, .load .previous, .rlock (.ptrMu .resources)] (.get (.ptr .resources) fun n =>
      .get (.body .resources n) fun _ => acts [.client, .runlock (.ptrMu .resources)] .done)
  | .info => rlocked (.ptrMu .authorities) (.ptr .authorities) fun n => .get (.body .authorities n) fun _ =>
      .get (.ptr .list) fun l => .get (.body .list l) fun _ => .get .talsCount fun _ => .act (.load .stable)
        (.get .lastComputed fun _ => .get .duration fun _ => acts [.load .iterations, .client] .done)
  | .health => acts [.load .stable, .load .previous, .client] .done

/-- net/http: a goroutine for each request (requests of one connection, one after the other, are a special case of it). -/
def serve (reqs : List Request) : Code := reqs.foldr (fun q k => .fork false (handler q) k) .done

/-- octorpki.go:1457-1467: the server is started, then the loop runs. -/
def program (rs : List Round) (reqs : List Request) : Code := .fork false (serve reqs) (rounds 1 rs)

/-- The start: goroutine 0 is `main`. -/
def Cfg.start (rs : List Round) (reqs : List Request) : Cfg :=
  ⟨[⟨false, program rs reqs⟩], fun _ => none, fun _ => none, fun _ => [], fun _ => 0, []⟩

end Verif.Conc
