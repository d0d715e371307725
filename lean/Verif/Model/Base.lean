/-
  Common vocabulary of the model.

  `Go α` is the observable outcome of a Go call: a value, an `error`, or a
  run-time panic (index out of range, nil dereference, failed type assertion,
  explicit `panic`, or `log.Fatal`, which all end the process).  `diverge` is
  used only by functions whose Go loop is unbounded and which are written here
  with a fuel argument; the theorems show that it is never produced.
-/
set_option autoImplicit false

namespace Verif

/-- A Go `[]byte` or `string`. -/
abbrev Bytes := List UInt8

/-- Observable outcome of a Go call. -/
inductive Go (α : Type) where
  | ok (a : α)
  | err (msg : String)
  | panic
  | diverge
  deriving Repr, DecidableEq

namespace Go

def bind {α β : Type} (x : Go α) (f : α → Go β) : Go β :=
  match x with
  | ok a => f a
  | err m => err m
  | panic => panic
  | diverge => diverge

instance : Monad Go where
  pure := Go.ok
  bind := Go.bind

@[simp] theorem pure_def {α : Type} (a : α) : (pure a : Go α) = Go.ok a := rfl
@[simp] theorem ok_bind {α β : Type} (a : α) (f : α → Go β) : (Go.ok a >>= f) = f a := rfl
@[simp] theorem err_bind {α β : Type} (m : String) (f : α → Go β) :
    ((Go.err m : Go α) >>= f) = Go.err m := rfl
@[simp] theorem panic_bind {α β : Type} (f : α → Go β) :
    ((Go.panic : Go α) >>= f) = Go.panic := rfl
@[simp] theorem diverge_bind {α β : Type} (f : α → Go β) :
    ((Go.diverge : Go α) >>= f) = Go.diverge := rfl

theorem bind_eq_ok {α β : Type} {x : Go α} {f : α → Go β} {b : β} :
    (x >>= f) = Go.ok b ↔ ∃ a, x = Go.ok a ∧ f a = Go.ok b := by
  cases x <;> simp

theorem bind_eq_panic {α β : Type} {x : Go α} {f : α → Go β} :
    (x >>= f) = Go.panic ↔ x = Go.panic ∨ ∃ a, x = Go.ok a ∧ f a = Go.panic := by
  cases x <;> simp

theorem bind_eq_diverge {α β : Type} {x : Go α} {f : α → Go β} :
    (x >>= f) = Go.diverge ↔ x = Go.diverge ∨ ∃ a, x = Go.ok a ∧ f a = Go.diverge := by
  cases x <;> simp

end Go

/-- Go slice indexing `s[i]`: out of range panics. -/
def idx {α : Type} (s : List α) (i : Nat) : Go α :=
  match s[i]? with
  | some x => .ok x
  | none => .panic

/-- Go slice expression `s[a:b]` on a slice whose capacity is its length:
    out of range panics. -/
def slice {α : Type} (s : List α) (a b : Nat) : Go (List α) :=
  if a ≤ b ∧ b ≤ s.length then .ok ((s.drop a).take (b - a)) else .panic

/-- ASCII literal as bytes (all string literals of the code are ASCII). -/
def asc (s : List Char) : Bytes := s.map (fun c => c.toNat.toUInt8)

end Verif
