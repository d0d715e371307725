import Verif.Model.Fetch
import Verif.Model.Local
import Verif.Model.Cms
import Verif.Model.Loop
/-
  Submission of certificates to a Certificate Transparency log: cmd/octorpki/ct.go, cmd/ctrpki/ctrpki.go and the place of the
  loop of octorpki where it is done. The path of files of each valid object is in Model/Fetch (`ctPath`).

  Simplified: a post to the log has no answer (both programs go on whatever it is); all chains of a call are built before the
  first is handed over (in the code one after the other, so that a crash comes after some are handed over).
-/
set_option autoImplicit false

namespace Verif.Ct
open Cache Pki

/-- ct.go:73-93, ctrpki.go:155-172: the certificate in one file of a path, `none` if it is left out. Without a file and without an
    error `data` is nil, and `data.Data` panics; with an error there is a `SeekFile` without data (fetch.go:111-115). -/
def certBytes (f : PKIFile) : Answer → Go (Option Bytes)
  | .absent => .panic
  | .fail =>
    if f.type = .roa ∨ f.type = .mft then
      match Cms.decodeCMS [] with
      | .err _ => .ok none
      | .ok _ => .ok none
      | .panic => .panic
      | .diverge => .diverge
    else .ok none
  | .found s =>
    if f.type = .roa ∨ f.type = .mft then
      match Cms.decodeCMS s.data with
      | .ok c => .ok (some c.signedData.certificates.bytes)
      | .err _ => .ok none
      | .panic => .panic
      | .diverge => .diverge
    else .ok (some s.data)

/-- ct.go:70-94, ctrpki.go:152-173: the chain of a path. `get` is `GetFile`; a nil file panics. -/
def chainOf (get : PKIFile → Go Answer) (files : List PKIFile) : List (Option Nat) → Go (List Bytes)
  | [] => .ok []
  | none :: _ => .panic
  | some i :: rest =>
    match files[i]? with
    | none => .panic
    | some f => do
      let a ← get f
      let b ← certBytes f a
      let t ← chainOf get files rest
      return b.toList ++ t

/-- octorpki.go:1156-1179 `ct`, ctrpki.go:119-142: the path of every object; `order` is the order in which the keys of the map come. -/
def pathsOf (objs : List Fetch.CtObj) : List Bytes → Go (List (List (Option Nat)))
  | [] => .ok []
  | k :: rest => do
    let p ← Fetch.ctPath objs k
    let t ← pathsOf objs rest
    return p :: t

/-- octorpki.go:1128-1131, ctrpki.go:94-145: the paths of TAL after TAL. In ctrpki the objects of a TAL are those of the one validator that
    all TALs share (98), in octorpki those of its own. -/
def ctData : List (List Fetch.CtObj × List Bytes) → Go (List (List (Option Nat)))
  | [] => .ok []
  | (objs, order) :: rest => do
    let p ← pathsOf objs order
    let t ← ctData rest
    return p ++ t

/-- ct.go:100-103, ctrpki.go:184-187: whether progress is logged after chain number `i` of `n`; a division by zero panics. -/
def progress (n i : Nat) : Go Bool :=
  if 20 ≤ n then (if n / 20 = 0 then .panic else .ok (decide (i % (n / 20) = 0))) else .ok false

/-! ### The threads -/

/-- A thread that posts chains: between two, in a post, or ended. -/
inductive Worker (α : Type) where
  | idle
  | busy (c : α)
  | gone
  deriving Repr, DecidableEq

/-- The main goroutine has `todo` still to hand over; `buf` is in the channel; `told` threads have been told to stop (ctrpki). -/
structure Outbox (α : Type) where
  todo : List α
  buf : List α
  workers : List (Worker α)
  sent : List α
  told : Nat
  deriving Repr, DecidableEq

def Outbox.start {α : Type} (n : Nat) (chains : List α) : Outbox α := ⟨chains, [], List.replicate n .idle, [], 0⟩

/-- octorpki, ct.go:42-51 `BatchCertificateTransparency` and 53-107 `SendCertificateTransparency`: the channel has no room, so a chain goes from hand to hand
    (96-98); a thread posts it (28-40). The call returns when `todo` is empty; the channel is closed then (67), which ends the threads that have
    nothing to post. -/
inductive OctoStep {α : Type} : Outbox α → Outbox α → Prop where
  | hand (s : Outbox α) (c : α) (rest : List α) (i : Nat) (ht : s.todo = c :: rest) (hw : s.workers[i]? = some .idle) :
      OctoStep s { s with todo := rest, workers := s.workers.set i (.busy c) }
  | post (s : Outbox α) (c : α) (i : Nat) (hw : s.workers[i]? = some (.busy c)) :
      OctoStep s { s with workers := s.workers.set i .idle, sent := s.sent ++ [c] }

/-- ctrpki with `n` > 0 threads, ctrpki.go:32-46 and 76-92, 175-176: the channel has room for `n`; the thread takes from it or is told to stop, whichever `select` chooses; after
    the last chain `main` tells the threads to stop, one after the other (86-92), and the program ends. -/
inductive CtrStep {α : Type} (n : Nat) : Outbox α → Outbox α → Prop where
  | put (s : Outbox α) (c : α) (rest : List α) (ht : s.todo = c :: rest) (hr : s.buf.length < n) :
      CtrStep n s { s with todo := rest, buf := s.buf ++ [c] }
  | take (s : Outbox α) (c : α) (rest : List α) (i : Nat) (hb : s.buf = c :: rest) (hw : s.workers[i]? = some .idle) :
      CtrStep n s { s with buf := rest, workers := s.workers.set i (.busy c) }
  | post (s : Outbox α) (c : α) (i : Nat) (hw : s.workers[i]? = some (.busy c)) :
      CtrStep n s { s with workers := s.workers.set i .idle, sent := s.sent ++ [c] }
  | tell (s : Outbox α) (ht : s.todo = []) (hw : s.workers[s.told]? = some .idle) :
      CtrStep n s { s with workers := s.workers.set s.told .gone, told := s.told + 1 }

/-- ctrpki.go:175-182 without threads: `main` posts each chain itself. -/
def ctrAlone {α : Type} (chains : List α) : List α := chains.foldl (fun sent c => sent ++ [c]) []

/-- The number of threads is an int: `make` panics on a negative one (ctrpki.go:76-77). -/
def ctrThreads (threads : Int) : Go Nat := if threads < 0 then .panic else .ok threads.toNat

/-! ### When -/

/-- octorpki.go:1584-1593: the place of the loop between the test for the end and the waiting; whether this round is submitted. -/
def submits {L : Type} (c : Loop.Config) (s : Loop.State L) : Bool :=
  decide (s.pc = .limited) && !(c.oneoff && s.stable) && (s.stable || !c.waitStable)

end Verif.Ct
