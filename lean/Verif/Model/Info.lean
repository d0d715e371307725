import Verif.Model.Fetch
/-
  The info page of the command octorpki: the part of `mainValidation` that notes which repositories the valid
  certificates of each trust anchor name (cmd/octorpki/octorpki.go:1037-1133), and `ServeInfo` (1287-1326).

  The list of each trust anchor is a Go slice that grows by `append`, and the code keeps pointers to its elements, so the
  backing arrays are modelled: an `append` that does not fit copies the elements to a new array, and pointers to the old
  array no longer reach the list.  The new capacity (`growslice` of the Go runtime) is a parameter `grow`.

  Simplified: the counters, dates and durations of the page are left out.
-/
set_option autoImplicit false

namespace Verif.Info

open Verif.Fetch (CertNames Bindings bindCert bindRrdp)

/-- octorpki.go:1262-1265. -/
structure SIA where
  rsync : Bytes
  rrdp : Bytes
  deriving DecidableEq, Repr

/-- A backing array: the elements in use, and how many fit. -/
structure Arr where
  cells : List SIA
  cap : Nat

/-- `ia` and `iatmp`: each trust anchor has the number of its array (its slice always covers all elements in use); a
    pointer is the number of an array and an index. -/
structure Notes where
  mem : List Arr
  ia : List Nat
  tmp : Pki.Map (Nat × Nat)

/-- octorpki.go:1039-1043: one empty slice for each of `n` trust anchors. -/
def Notes.start (n : Nat) : Notes := ⟨List.replicate n ⟨[], 0⟩, List.range n, []⟩

/-- octorpki.go:1117-1119: `ia[i] = append(ia[i], x)`, the pointer to the new element, and its entry in `iatmp`. An index out
    of range panics. -/
def Notes.add (grow : Nat → Nat) (s : Notes) (i : Nat) (x : SIA) : Go (Notes × Nat × Nat) :=
  match s.ia[i]? with
  | none => .panic
  | some a =>
    match s.mem[a]? with
    | none => .panic
    | some arr =>
      if arr.cells.length < arr.cap then
        .ok (⟨s.mem.set a ⟨arr.cells ++ [x], arr.cap⟩, s.ia, s.tmp.set x.rsync (a, arr.cells.length)⟩, a, arr.cells.length)
      else
        .ok (⟨s.mem ++ [⟨arr.cells ++ [x], grow arr.cells.length⟩], s.ia.set i s.mem.length,
          s.tmp.set x.rsync (s.mem.length, arr.cells.length)⟩, s.mem.length, arr.cells.length)

/-- octorpki.go:1121-1122: the element behind the pointer is overwritten. -/
def Notes.write (s : Notes) (p : Nat × Nat) (x : SIA) : Notes :=
  match s.mem[p.1]? with
  | none => s
  | some arr => { s with mem := s.mem.set p.1 ⟨arr.cells.set p.2 x, arr.cap⟩ }

/-- octorpki.go:1111-1122. -/
def Notes.note (grow : Nat → Nat) (s : Notes) (i : Nat) (x : SIA) : Go Notes :=
  match s.tmp.get x.rsync with
  | some p => .ok (s.write p x)
  | none => do
    let (s', p) ← s.add grow i x
    return s'.write p x

/-- octorpki.go:1087-1122: one valid certificate of trust anchor `i`; the maps are those of `bindCert`. -/
def infoCert (grow : Nat → Nat) (i : Nat) (st : Bindings × Notes) (c : CertNames) : Go (Bindings × Notes) :=
  match Path.extractDomainModule c.rsync with
  | .ok (module, domain) =>
    match bindRrdp st.1 module domain c.rrdp with
    | none => .ok st
    | some _ => do
      let s ← st.2.note grow i ⟨module, c.rrdp.getD []⟩
      return (bindCert st.1 c, s)
  | _ => .ok st

/-- octorpki.go:1082-1123: the certificates of one trust anchor, in the order of the map. -/
def infoCerts (grow : Nat → Nat) (i : Nat) : List CertNames → Bindings × Notes → Go (Bindings × Notes)
  | [], st => .ok st
  | c :: cs, st => do
    let st ← infoCert grow i st c
    infoCerts grow i cs st

/-- octorpki.go:1051-1131: the trust anchors from number `i` on. -/
def infoTals (grow : Nat → Nat) : Nat → List (List CertNames) → Bindings × Notes → Go (Bindings × Notes)
  | _, [], st => .ok st
  | i, cs :: rest, st => do
    let st ← infoCerts grow i cs st
    infoTals grow (i + 1) rest st

/-- The lists that the page shows: the slices read through their arrays. -/
def Notes.lists (s : Notes) : List (List SIA) :=
  s.ia.map fun a => match s.mem[a]? with | some arr => arr.cells | none => []

/-- octorpki.go:1037-1133: the authorities of one round, from the maps of the rounds before. -/
def authorities (grow : Nat → Nat) (b : Bindings) (tals : List (List CertNames)) : Go (Bindings × List (List SIA)) := do
  let st ← infoTals grow 0 tals (b, Notes.start tals.length)
  return (st.1, st.2.lists)

/-- octorpki.go:1295-1313: the loop over the trust anchors, from number `i` on. -/
def infoLoop (paths names : List Bytes) (ia : List (List SIA)) : Nat → List Bytes → Go (List (Bytes × List SIA))
  | _, [] => .ok []
  | i, path :: rest =>
    if ia.length ≤ i then .ok []
    else do
      let name ← if names.length = paths.length then idx names i else .ok path
      let sia ← idx ia i
      let t ← infoLoop paths names ia (i + 1) rest
      return (name, sia) :: t

/-- octorpki.go:1294-1313: the trust anchors of the page: their names and lists. `paths` are the files of the trust anchors,
    `names` the names given on the command line, `ia` the authorities of the last round (none before the first; the lists
    of a round are never nil). -/
def serveInfo (paths names : List Bytes) (ia : List (List SIA)) : Go (List (Bytes × List SIA)) :=
  infoLoop paths names ia 0 paths

/-- How Go grows a slice of elements of this size (32 octets) while it is small: double, from one. Used in examples only. -/
def goGrow (n : Nat) : Nat := if n = 0 then 1 else 2 * n

end Verif.Info
