import Verif.Model.Base
/- General helper lemmas (no model content). -/
set_option autoImplicit false

namespace Verif

theorem u8_forall {P : UInt8 → Prop} (h : ∀ n : Fin 256, P (UInt8.ofFin n)) (b : UInt8) : P b := by
  have := h b.toFin
  simpa using this

theorem u8_lt (b : UInt8) : b.toNat < 256 := UInt8.toNat_lt_size b

theorem idx_add_of_drop {α : Type} {s x : List α} {o : Nat} (h : s.drop o = x) (i : Nat) :
    idx s (o + i) = idx x i := by
  subst h; simp [idx, List.getElem?_drop]

theorem idx_of_drop {α : Type} {s x : List α} {o : Nat} (h : s.drop o = x) :
    idx s o = idx x 0 := idx_add_of_drop h 0

@[simp] theorem idx_cons_zero {α : Type} (a : α) (s : List α) : idx (a :: s) 0 = .ok a := rfl
@[simp] theorem idx_nil {α : Type} (i : Nat) : idx ([] : List α) i = .panic := by simp [idx]

theorem idx_eq_ok {α : Type} {s : List α} {i : Nat} {a : α} :
    idx s i = .ok a ↔ s[i]? = some a := by
  unfold idx; split <;> simp_all

theorem idx_lt {α : Type} {s : List α} {i : Nat} {a : α} (h : idx s i = .ok a) : i < s.length := by
  rw [idx_eq_ok] at h
  exact (List.getElem?_eq_some_iff.mp h).1

theorem drop_of_append {α : Type} {s x y : List α} {o : Nat} (h : s.drop o = x ++ y) :
    s.drop (o + x.length) = y := by
  rw [← List.drop_drop, h]; simp

theorem length_of_drop {α : Type} {s x : List α} {o : Nat} (h : s.drop o = x) (hx : x ≠ []) :
    s.length = o + x.length := by
  have h1 := congrArg List.length h
  rw [List.length_drop] at h1
  have := List.length_pos_iff.mpr hx
  omega

end Verif
