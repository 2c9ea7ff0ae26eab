import Verif.Outcome
import Mathlib.Data.Real.Basic
import Mathlib.Algebra.BigOperators.Group.Finset.Basic
import Mathlib.Algebra.BigOperators.Ring.Finset
import Mathlib.Tactic.Ring
import Mathlib.Tactic.Linarith
import Mathlib.Tactic.Positivity

/-!
# Model of search/learnh/hlms.cc and search/learnh/leastsquares.cc: a heuristic from a linear regression

* The lines of the data files are those of `Datafile`; a line is the list of its words, `num` is `strtod` of a word.
* The numbers of `randgen.integer(0, t)` are given; each is one of `0, ..., t`.
* `dgels` of LAPACK is a parameter (`Solver`): it gets a matrix by columns and gives a vector, or `none` for `info > 0`.
* Exact arithmetic; the indices of arrays are not bounded (`int` in leastsquares.cc: at most 2^31 numbers).
* The drawing (hlms.cc:144-177) is left out.

Specification side: `error`, `samples`, `Has`; what it means for the solver to be right (`Right`).
-/

namespace Verif.Lms

open Finset

/-! ## The sample -/

/-- hlms.cc:124-129: the row for the record with number `t` (after `t++`); `r` is `randgen.integer(0, t)`. -/
def slot (sz t r : Nat) : Nat := if t - 1 < sz then t - 1 else r

/-- hlms.cc:130-141: the rows when the record number `t` has been put in. -/
def put {α : Type} (sz t r : Nat) (x : α) (rows : Nat → Option α) : Nat → Option α :=
  if slot sz t r ≥ sz then rows else Function.update rows (slot sz t r) (some x)

/-- hlms.cc:79-87, 124-141: the rows when records have been read; `t` were read before.  A record comes with its random
number. -/
def fill {α : Type} (sz : Nat) : Nat → List (α × Nat) → (Nat → Option α) → Nat → Option α
  | _, [], rows => rows
  | t, (x, r) :: xs, rows => fill sz (t + 1) xs (put sz (t + 1) r x rows)

/-- A record: g, h, D, d, h*, d*. -/
structure Rec where
  g : ℝ
  h : ℝ
  D : ℝ
  d : ℝ
  hs : ℝ
  ds : ℝ

/-- hlms.cc:120-142 `dfline`: the record of a line, `none` for other lines.  The words that are looked at must exist. -/
def record (num : List Char → ℝ) (l : List (List Char)) : Outcome (Option Rec) :=
  match l with
  | [] => .ub
  | w0 :: ws =>
    if w0 ≠ "#altrow".toList then .ok none
    else match ws with
      | [] => .ub
      | w1 :: ws =>
        if w1 ≠ "path".toList then .ok none
        else match ws with
          | g :: h :: D :: d :: hs :: ds :: _ => .ok (some ⟨num g, num h, num D, num d, num hs, num ds⟩)
          | _ => .ub

/-! ## The matrix -/

/-- hlms.cc:133-136: the features of a row. -/
def feature (x : Rec) : Nat → ℝ
  | 0 => x.h
  | 1 => x.g
  | 2 => x.d
  | _ => x.D

/-- hlms.cc:137-140: what is to be learnt; `forh` if the argument is `h`. -/
def target (forh : Bool) (x : Rec) : ℝ := if forh then x.hs else x.ds

/-- leastsquares.cc:15-16: the columns of row `i` from `j` on. -/
def copyRow (nrows ncols : Nat) (src : Nat → ℝ) (i : Nat) : Nat → Nat → (Nat → ℝ) → Nat → ℝ
  | 0, _, dst => dst
  | n + 1, j, dst => copyRow nrows ncols src i n (j + 1) (Function.update dst (j * nrows + i) (src (i * ncols + j)))

/-- leastsquares.cc:14-16: the rows from `i` on. -/
def copyRows (nrows ncols : Nat) (src : Nat → ℝ) : Nat → Nat → (Nat → ℝ) → Nat → ℝ
  | 0, _, dst => dst
  | n + 1, i, dst => copyRows nrows ncols src n (i + 1) (copyRow nrows ncols src i ncols 0 dst)

/-- `dgels`: rows, columns, the matrix by columns, the right side. -/
abbrev Solver := Nat → Nat → (Nat → ℝ) → (Nat → ℝ) → Option (Nat → ℝ)

/-- leastsquares.cc:8-55.  `junk` is what new memory holds. -/
def leastsquares (L : Solver) (junk : Nat → ℝ) (nrows ncols : Nat) (A b : Nat → ℝ) : Option (Nat → ℝ) :=
  L nrows ncols (copyRows nrows ncols A nrows 0 junk) b

/-- hlms.cc:91-113: the coefficients that are printed, `none` for an error.  Rows of `A` and `b` that were not set hold
`junk`.  The result of `leastsquares` is ignored, and `x` is global: it is 0 if there was no solution. -/
def coeffs (L : Solver) (junk : Nat → ℝ) (sz t : Nat) (forh : Bool) (rows : Nat → Option Rec) : Option (Nat → ℝ) :=
  let m := if t < sz then t else sz
  if ∃ i < m, rows i = none then none
  else if m < 4 then none
  else
    let A := fun k => match rows (k / 4) with
      | some x => feature x (k % 4)
      | none => junk k
    let b := fun i => match rows i with
      | some x => target forh x
      | none => junk i
    some ((leastsquares L junk m 4 A b).getD fun _ => 0)

/-! ## Specification -/

/-- The squared error of a linear combination of features over the sample. -/
noncomputable def error (forh : Bool) (xs : List Rec) (c : Nat → ℝ) : ℝ :=
  (xs.map fun x => (x.h * c 0 + x.g * c 1 + x.d * c 2 + x.D * c 3 - (match forh with | true => x.hs | false => x.ds)) ^ 2).sum

/-- The solver is right, for a matrix `B` with at least as many rows as columns: the answer minimises the squares, and there is no
answer if the columns are linearly dependent. -/
def Right (L : Solver) : Prop :=
  ∀ (m n : Nat) (B b : Nat → ℝ), n ≤ m →
    (∀ x, L m n B b = some x → ∀ y : Nat → ℝ,
      ∑ i ∈ range m, (∑ j ∈ range n, B (j * m + i) * x j - b i) ^ 2 ≤ ∑ i ∈ range m, (∑ j ∈ range n, B (j * m + i) * y j - b i) ^ 2) ∧
    ((∃ y : Nat → ℝ, (∃ j < n, y j ≠ 0) ∧ ∀ i < m, ∑ j ∈ range n, B (j * m + i) * y j = 0) → L m n B b = none)

/-! ## All samples -/

/-- The random numbers for the record with number `t`: none is drawn while the sample is not full. -/
def choices (sz t : Nat) : List Nat := if t - 1 < sz then [0] else List.range (t + 1)

/-- The samples of the records with the numbers 1 to `t`, one for every sequence of random numbers. -/
def samples (sz : Nat) : Nat → List (Nat → Option Nat)
  | 0 => [fun _ => none]
  | t + 1 => (samples sz t).flatMap fun s => (choices sz (t + 1)).map fun r => put sz (t + 1) r (t + 1) s

/-- The record with number `k` is in the sample. -/
def Has (sz : Nat) (s : Nat → Option Nat) (k : Nat) : Prop := ∃ i < sz, s i = some k

instance (sz : Nat) (s : Nat → Option Nat) (k : Nat) : Decidable (Has sz s k) := by unfold Has; infer_instance

end Verif.Lms
