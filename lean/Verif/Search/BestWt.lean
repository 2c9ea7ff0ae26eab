import Verif.Outcome
import Mathlib.Algebra.Order.Field.Basic
import Mathlib.Data.Rat.Defs
import Mathlib.Algebra.Order.Ring.Rat
import Mathlib.Tactic.Ring
import Mathlib.Tactic.FieldSimp
import Mathlib.Tactic.Linarith

/-!
# bestwt: the weight with the best mean utility

search/anyprof/bestwt.cc.  The files of an RDB (C31) are read; each has a weight, the cost of the final solution and a time; the
weight with the least mean of `wf * cost + wt * time` is printed.

Simplifications: numbers are elements of an ordered field, and there is no NaN; `num` is `strtod`, with `none` for a text
that is no number and `some none` for an infinity.  The two maps `nsols` and `avg` have the same keys at all times, and
are one list here, sorted by key like a `std::map`.  A file is the list of its lines split into words, as `dfread` hands them out
(C37), or `none` if it cannot be opened.  The messages to stderr are left out.
-/

namespace Verif.BestWt

open Verif

/-- bestwt.cc:16-19 `Fields`: `none` is infinity, as it is at the beginning (:45-48). -/
structure Fields (K : Type) where
  weight : Option K
  cost : Option K
  time : Option K
deriving DecidableEq

variable {K : Type}

/-- bestwt.cc:86-89, 91-94, 96-99: the value of a pair, which is the third word of the line. -/
def value (num : String → Option (Option K)) (vs : List String) (set : Option K → Fields K) : Outcome (Fields K) :=
  match vs with
  | [] => .ub
  | v :: _ => match num v with
    | none => .fatal
    | some x => .ok (set x)

/-- bestwt.cc:79-101 `dfline`.  The first two words of the line are looked at, the second only if the first is `#pair`. -/
def line (num : String → Option (Option K)) (f : Fields K) (l : List String) : Outcome (Fields K) :=
  match l with
  | [] => .ub
  | w :: ws =>
    if w ≠ "#pair" then .ok f
    else match ws with
      | [] => .ub
      | k :: vs =>
        if k = "weight" then value num vs fun x => { f with weight := x }
        else if k = "final sol cost" then value num vs fun x => { f with cost := x }
        else if k = "total wall time" then value num vs fun x => { f with time := x }
        else .ok f

/-- bestwt.cc:50: `dfread` with `dfline`. -/
def lines (num : String → Option (Option K)) : Fields K → List (List String) → Outcome (Fields K)
  | f, [] => .ok f
  | f, l :: ls => (line num f l).bind fun f => lines num f ls

/-- bestwt.cc:45-59: the weight, the cost and the time of a file. -/
def file (num : String → Option (Option K)) (ls : List (List String)) : Outcome (K × K × K) :=
  (lines num ⟨none, none, none⟩ ls).bind fun f =>
    match f.weight with
    | none => .fatal
    | some w => match f.cost with
      | none => .fatal
      | some c => match f.time with
        | none => .fatal
        | some t => .ok (w, c, t)

variable [Field K] [LinearOrder K]

/-- bestwt.cc:61-64: the count and the mean of weight `w` get the value `v`; an entry that is new starts with 0 and 0. -/
def add (w v : K) : List (K × Nat × K) → List (K × Nat × K)
  | [] => [(w, 0 + 1, 0 + (v - 0) / ((0 + 1 : Nat) : K))]
  | (w', n, a) :: l =>
    if w < w' then (w, 0 + 1, 0 + (v - 0) / ((0 + 1 : Nat) : K)) :: (w', n, a) :: l
    else if w' < w then (w', n, a) :: add w v l
    else (w', n + 1, a + (v - a) / ((n + 1 : Nat) : K)) :: l

/-- bestwt.cc:37-67: all files. -/
def files (num : String → Option (Option K)) (wf wt : K) : List (Option (List (List String))) → List (K × Nat × K) → Outcome (List (K × Nat × K))
  | [], m => .ok m
  | none :: fs, m => files num wf wt fs m
  | some ls :: fs, m => (file num ls).bind fun (w, c, t) => files num wf wt fs (add w (wf * c + wt * t) m)

/-- bestwt.cc:70-73: the loop over the map; `a` is `avg[weight]`. -/
def pick (weight a : K) : List (K × Nat × K) → K
  | [] => weight
  | (w', _, a') :: l => if a' < a then pick w' a' l else pick weight a l

/-- bestwt.cc:69-75: the weight that is printed.  `avg.begin()` of an empty map is not dereferenceable. -/
def best (m : List (K × Nat × K)) : Outcome K :=
  match m with
  | [] => .ub
  | (w, n, a) :: l => .ok (pick w a ((w, n, a) :: l))

/-- bestwt.cc:21-76, after the arguments. -/
def main (num : String → Option (Option K)) (wf wt : K) (fs : List (Option (List (List String)))) : Outcome K :=
  (files num wf wt fs []).bind best

/-! ## Specification -/

/-- The values of a weight. -/
def valuesOf (rs : List (K × K)) (w : K) : List K := (rs.filter fun r => decide (r.1 = w)).map (·.2)

/-- Their mean. -/
def mean (rs : List (K × K)) (w : K) : K := (valuesOf rs w).sum / ((valuesOf rs w).length : K)

/-- The value of a line that is a pair with the key. -/
def pairOf (key : String) : List String → Option String
  | p :: k :: v :: _ => if p = "#pair" ∧ k = key then some v else none
  | _ => none

/-- The value of the last pair with a key, in lines as `dfread` hands them out. -/
def lastPair (key : String) : List (List String) → Option String
  | [] => none
  | l :: ls => match lastPair key ls with
    | some v => some v
    | none => pairOf key l

/-- What a file says: weight and value, if all three values are finite numbers. -/
def Says (num : String → Option (Option K)) (wf wt : K) (ls : List (List String)) (r : K × K) : Prop :=
  ∃ sw sc st c t, lastPair "weight" ls = some sw ∧ lastPair "final sol cost" ls = some sc ∧ lastPair "total wall time" ls = some st ∧
    num sw = some (some r.1) ∧ num sc = some (some c) ∧ num st = some (some t) ∧ r.2 = wf * c + wt * t

/-- A line that can be read: not empty; a pair has a key, and if it is one of the three keys a value that is a number. -/
def Fine (num : String → Option (Option K)) : List String → Prop
  | [] => False
  | p :: ws => p = "#pair" → ∃ k vs, ws = k :: vs ∧
    (k = "weight" ∨ k = "final sol cost" ∨ k = "total wall time" → ∃ v vs', vs = v :: vs' ∧ num v ≠ none)

end Verif.BestWt
