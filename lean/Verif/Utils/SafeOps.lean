import Verif.Outcome
import Mathlib.Tactic.Common
import Mathlib.Tactic.Linarith
import Mathlib.Tactic.Ring
import Mathlib.Tactic.Positivity
import Mathlib.Algebra.Order.Ring.Int

/-!
# Model of utils/safeops.hpp

The signed type has the values `-M .. M-1` and the unsigned type `0 .. U-1` (at least as wide as
`int`, so that no integral promotion happens).  A thrown `BadFlow` is `fatal`; signed overflow and
division by zero are `ub`.
-/

namespace Verif.SafeOps

/-- Value of the type. -/
abbrev InS (M a : Int) : Prop := -M ≤ a ∧ a < M

/-- Result of a built-in signed operation: undefined if it does not fit. -/
def arith (M z : Int) : Outcome Int := if InS M z then .ok z else .ub

/-- Built-in signed division. -/
def sdiv (M a b : Int) : Outcome Int := if b = 0 then .ub else arith M (a.tdiv b)

/-- safeops.hpp:31-37 signed `add`. -/
def addS (M a b : Int) : Outcome Int :=
  if a > 0 ∧ b > 0 ∧ (M - 1) - b < a then .fatal
  else if a < 0 ∧ b < 0 ∧ -M - b > a then .fatal
  else arith M (a + b)

/-- safeops.hpp:39-45 signed `sub`. -/
def subS (M a b : Int) : Outcome Int :=
  if a > 0 ∧ b < 0 ∧ (M - 1) + b < a then .fatal
  else if a < 0 ∧ b > 0 ∧ -M + b > a then .fatal
  else arith M (a - b)

/-- safeops.hpp:47-61 signed `mul`. -/
def mulS (M a b : Int) : Outcome Int :=
  if a > 0 ∧ b > 0 then
    (sdiv M (M - 1) b).bind fun q => if q < a then .fatal else arith M (a * b)
  else if a < 0 ∧ b > 0 then
    (sdiv M (-M) a).bind fun q => if q < b then .fatal else arith M (a * b)
  else if a > 0 ∧ b < 0 then
    (sdiv M (-M) b).bind fun q => if q < a then .fatal else arith M (a * b)
  else if a < 0 ∧ b < 0 then
    if a = -M ∨ b = -M then .fatal
    else (sdiv M (-M) b).bind fun q => (arith M (-q)).bind fun r =>
      if r > a then .fatal else arith M (a * b)
  else arith M (a * b)

/-- safeops.hpp:63-67 signed `div`. -/
def divS (M a b : Int) : Outcome Int :=
  if b = 0 ∨ (a = -M ∧ b = -1) then .fatal else sdiv M a b

/-- safeops.hpp:75-79 unsigned `add`. -/
def addU (U a b : Nat) : Outcome Nat :=
  if (U - 1) - b < a then .fatal else .ok ((a + b) % U)

/-- safeops.hpp:81-85 unsigned `sub` (modulo `U`). -/
def subU (U a b : Nat) : Outcome Nat :=
  if (U - 1) - b < a then .fatal else .ok ((a + (U - b)) % U)

/-- safeops.hpp:87-91 unsigned `mul`. -/
def mulU (U a b : Nat) : Outcome Nat :=
  if a > 0 ∧ b > 0 ∧ (U - 1) / b < a then .fatal else .ok (a * b % U)

/-- safeops.hpp:93-97 unsigned `div`. -/
def divU (a b : Nat) : Outcome Nat := if b = 0 then .fatal else .ok (a / b)

/-- safeops.hpp:115-123 `can_mul`, unsigned. -/
def canMulU (U a b : Nat) : Bool := mulU U a b ≠ .fatal

theorem tdiv_pos (M x : Int) (hM : 0 ≤ M) : M.tdiv x = M / x := by
  rw [Int.tdiv_eq_ediv_of_nonneg hM]

theorem tdiv_neg_neg (M x : Int) (hM : 0 ≤ M) : (-M).tdiv (-x) = M / x := by
  rw [Int.neg_tdiv_neg, tdiv_pos _ _ hM]

end Verif.SafeOps
