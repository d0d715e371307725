import Verif.Model.Fetch
import Verif.Model.Cache
/-
  The positions (session and serial) that octorpki keeps for RRDP: in memory, and in the file of the option
  -rrdp.file between rounds and between runs of the process (cmd/octorpki/octorpki.go:370-485, 1647-1671).
-/
set_option autoImplicit false

namespace Verif.RrdpState
open Rrdp Cache Fetch

/-- encoding/json on the map `RRDPInfo` (octorpki.go:179-184): `json.Marshal` of a map, and `json.Unmarshal` into the empty
    map that line 379 made: the map afterwards (`none`: nil, which the text `null` gives) and whether there was no
    error. Here they are a parameter; `Json.codec` is the model of the two functions. -/
structure Codec where
  marshal : Info → Bytes
  unmarshal : Bytes → Option Info × Bool

/-- octorpki.go:370-386 `LoadRRDPInfo`: `file` is what `ioutil.ReadFile` gives (`none`: error), `mem` the map before (`none`:
    a nil map). After a read error the map is as before; after an error of JSON it is what `Unmarshal` left. -/
def load (C : Codec) (file : Option Bytes) (mem : Option Info) : Option Info :=
  match file with
  | none => mem
  | some b => (C.unmarshal b).1

/-- octorpki.go:402-412 `getRRDPInfo`: a copy, never nil. -/
def getInfo (mem : Option Info) : Info := mem.getD []

/-- How `ioutil.WriteFile` ends: the text was written, the file was not touched, or the file was cut and only the
    first `n` octets were written. -/
inductive Wrote where
  | all
  | nothing
  | cut (n : Nat)

/-- octorpki.go:388-400 `saveRRDPInfo`: the file afterwards. -/
def save (C : Codec) (w : Wrote) (mem : Option Info) (file : Option Bytes) : Option Bytes :=
  match w with
  | .all => some (C.marshal (getInfo mem))
  | .nothing => file
  | .cut n => some ((C.marshal (getInfo mem)).take n)

/-- octorpki.go:465-470: an assignment to an entry of the map; on a nil map it panics. -/
def setInfo (mem : Option Info) (rsync session : Bytes) (serial : Int) : Go (Option Info) :=
  match mem with
  | none => .panic
  | some m => .ok (some ((rsync, session, serial) :: m))

/-- octorpki.go:427-471 `fetchRRDP` on the map in memory, which may be nil (reading a nil map gives the zero entry). -/
def fetchJob (W : World) (os : OS) (base : Bytes) (domainOf : Bytes → Option Bytes) (j : RrdpJob)
    (fs : FS) (mem : Option Info) : Go (FS × Option Info × Bool) := do
  let x ← Rrdp.fetchRRDP W (callback os base ((domainOf j.path).getD [])) (newSys (getInfo mem) j.path j.rsync) ⟨fs, [], []⟩
  if x.2.2 then
    let m ← setInfo mem j.rsync x.1.sessionID x.1.serial
    return (x.2.1.st, m, true)
  else return (x.2.1.st, mem, false)

/-- octorpki.go:414-425 `mainRRDP`, for fetches that end in the order of the list. (Simplified: here each fetch ends before
    the next begins; fetches that overlap are in `Step` below.) -/
def mainRRDP (W : RrdpJob → World) (os : OS) (base : Bytes) (domainOf : Bytes → Option Bytes) :
    List RrdpJob → FS → Option Info → Go (FS × Option Info)
  | [], fs, mem => .ok (fs, mem)
  | j :: js, fs, mem => do
    let x ← fetchJob (W j) os base domainOf j fs mem
    mainRRDP W os base domainOf js x.1 x.2.1

/-- octorpki.go:1647-1671 `doRRDP`: `configured` says whether -rrdp.file is not empty, `readable` whether the file could be
    read, `w` how writing it ended. Errors are only reported. -/
def doRRDP (C : Codec) (configured readable : Bool) (w : Wrote) (W : RrdpJob → World) (os : OS) (base : Bytes)
    (domainOf : Bytes → Option Bytes) (jobs : List RrdpJob) (fs : FS) (mem : Option Info) (file : Option Bytes) :
    Go (FS × Option Info × Option Bytes) := do
  let mem1 := if configured then load C (if readable then file else none) mem else mem
  let x ← mainRRDP W os base domainOf jobs fs mem1
  return (x.1, x.2, if configured then save C w x.2 file else file)

/-! ### Overlapping fetches, crashes and restarts -/

/-- What an observer sees of the fetches: the position a fetch started from, and the one it reached. -/
inductive Ev where
  | started (j : RrdpJob) (session : Bytes) (serial : Int)
  | reached (j : RrdpJob) (session : Bytes) (serial : Int)

/-- The process, its file and the fetches under way. -/
structure St where
  mem : Option Info
  file : Option Bytes
  running : List (RrdpJob × Sys)
  log : List Ev

/-- octorpki.go:1475: the process starts with an empty map, with whatever file there is. -/
def St.boot (file : Option Bytes) : St := ⟨some [], file, [], []⟩

/-- A run of `FetchRRDP` that returned no error (against some server, with some callback). -/
def Fetched (s s' : Sys) : Prop :=
  ∃ (σ : Type) (W : World) (cb : Callback σ) (st : σ) (r : R σ), Rrdp.fetchRRDP W cb s ⟨st, [], []⟩ = .ok (s', r, true)

/-- The steps of the process. A fetch reads its position when it begins (473-485) and writes it when it has ended without
    error (462-470); between the two other fetches may do the same. The file may be read and written at any time, reading may fail
    (more than the code does: it reads before and writes after the fetches), and the process may be killed and
    started again at any time. -/
inductive Step (C : Codec) : St → St → Prop
  | load (s : St) (seen : Option Bytes) (h : seen = s.file ∨ seen = none) :
      Step C s { s with mem := RrdpState.load C seen s.mem }
  | begin (s : St) (j : RrdpJob) : Step C s { s with
      running := s.running ++ [(j, newSys (getInfo s.mem) j.path j.rsync)],
      log := s.log ++ [.started j (newSys (getInfo s.mem) j.path j.rsync).sessionID (newSys (getInfo s.mem) j.path j.rsync).serial] }
  | fail (s : St) (i : Nat) : Step C s { s with running := s.running.eraseIdx i }
  | succeed (s : St) (i : Nat) (j : RrdpJob) (sys sys' : Sys) (m : Option Info) (h : s.running[i]? = some (j, sys))
      (hf : Fetched sys sys') (hm : setInfo s.mem j.rsync sys'.sessionID sys'.serial = .ok m) : Step C s { s with
        mem := m, running := s.running.eraseIdx i, log := s.log ++ [.reached j sys'.sessionID sys'.serial] }
  | save (s : St) (w : Wrote) : Step C s { s with file := RrdpState.save C w s.mem s.file }
  | kill (s : St) : Step C s { s with mem := some [], running := [] }

/-- Any number of steps. -/
inductive Steps (C : Codec) : St → St → Prop
  | refl (s : St) : Steps C s s
  | tail {s t u : St} : Steps C s t → Step C t u → Steps C s u

end Verif.RrdpState
