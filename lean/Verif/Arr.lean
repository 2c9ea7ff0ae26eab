import Verif.Outcome
import Mathlib.Logic.Function.Basic

/-!
# Fixed-size C arrays

An array of `n` elements is a function on `Fin n`; an access with an index out of range is `ub`.
-/

namespace Verif.Arr

variable {α : Type*} {n : Nat}

/-- `a[i]` -/
def rd (a : Fin n → α) (i : Nat) : Outcome α := if h : i < n then .ok (a ⟨i, h⟩) else .ub

/-- `a[i] = x` -/
def wr (a : Fin n → α) (i : Nat) (x : α) : Outcome (Fin n → α) :=
  if h : i < n then .ok (Function.update a ⟨i, h⟩ x) else .ub

theorem rd_ok (a : Fin n → α) {i : Nat} (h : i < n) : rd a i = .ok (a ⟨i, h⟩) := dif_pos h
theorem wr_ok (a : Fin n → α) {i : Nat} (h : i < n) (x : α) :
    wr a i x = .ok (Function.update a ⟨i, h⟩ x) := dif_pos h

/-- Writing through an out-of-range index is never harmless. -/
theorem rd_ub (a : Fin n → α) {i : Nat} (h : n ≤ i) : rd a i = .ub := dif_neg (by omega)
theorem wr_ub (a : Fin n → α) {i : Nat} (h : n ≤ i) (x : α) : wr a i x = .ub := dif_neg (by omega)

end Verif.Arr
