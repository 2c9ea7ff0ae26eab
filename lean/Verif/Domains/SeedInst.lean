import Verif.Domains.GridFile
import Verif.Search.Concrete
import Verif.Search.Algs
import Verif.Domains.VisFile

/-!
# Model of gridnav/mkseedinst.cc: instances that are made from a seed

* The random numbers are given by `draw`, as in `GridFile`: `draw seed prob k` says whether the `k`-th number of the generator
  with that seed is below the probability.  `%f` is the writing half of a format `Fmt`.
* Every round has a new map and a new search object.  `Solves` is the result of the search with its binary heap and hash
  table (`csearch`), without limits.
* The arguments are given (`Cfg`); what is written on the standard error is left out.

Specification side: `Props/SeedInst` (`Good`).
-/

namespace Verif.SeedInst

open Verif.GridFile Verif.GridNav Verif.Search Verif.Str

variable {D : Type}

/-- mkseedinst.cc:9-15, 69-103: the arguments. -/
structure Cfg (D : Type) where
  w : Nat
  h : Nat
  prob : D
  seed : Nat
  life : Bool
  eight : Bool

variable (draw : Nat → D → Nat → Bool) (c : Cfg D)

/-- mkseedinst.cc:32-34: the map of round `i`, with gridmap.cc:14-22, 38-58; `seed + i` is computed modulo 2^64. -/
def made (i : Nat) : GMap :=
  ⟨c.w + 2, c.h + 2, uniform (draw ((c.seed + i) % 2 ^ 64) c.prob) c.w c.h, if c.eight then eightway else fourway, false⟩

/-- gridnav.hpp:143-146 `d`. -/
def dval (m : GMap) (finish loc : Nat) : ℝ := ((computeh m finish loc).2 : ℝ)

/-- mkseedinst.cc:61-67 `solvable`, with gridnav.cc:9-14 (start and finish) and greedy.hpp:52-60, 130 (the size of the table,
the distance for the heuristic, no option): the search returns, and `b` says whether its path is not empty.  `nxt` is what
the fields `nxt` of new nodes hold.  The assertion that the distance is not negative is left out; see `dval_nonneg`. -/
def Solves (m : GMap) (start finish : Nat) (b : Bool) : Prop :=
  ∃ nxt F s p, (∀ fuel ≥ F, csearch (dom m finish) (greedy (dval m finish) false) (heapImpl (greedy (dval m finish) false).pred) id
      (newLists (heapImpl (greedy (dval m finish) false).pred) 30000001 nxt) ⟨0, 0⟩ (fun _ => false) fuel start = .ok (s, p)) ∧
    b = decide (0 < p.1.length)

/-- mkseedinst.cc:36: the condition, evaluated from left to right. -/
def Try (i : Nat) (b : Bool) : Prop :=
  let m := made draw c i
  (blkdAt m 1 1 = .ok true ∧ b = false) ∨
  (blkdAt m 1 1 = .ok false ∧ blkdAt m (c.w - 1 + 1) 1 = .ok true ∧ b = false) ∨
  (blkdAt m 1 1 = .ok false ∧ blkdAt m (c.w - 1 + 1) 1 = .ok false ∧ Solves m (index m 1 1) (index m (c.w - 1 + 1) 1) b)

/-- mkseedinst.cc:31-41: the rounds from `i` on end with round `j`.  `i` is an `unsigned int`. -/
inductive Rounds : Nat → Nat → Prop
  | stop {i : Nat} : Try draw c i true → Rounds i i
  | next {i j : Nat} : Try draw c i false → Rounds ((i + 1) % 2 ^ 32) j → Rounds i j

/-- mkseedinst.cc:45-56. -/
def out (pr : D → Str) (i : Nat) : Str :=
  "seed ".toList ++ (Nat.toDigits 10 ((c.seed + i) % 2 ^ 64) ++ ' ' :: (Nat.toDigits 10 c.w ++ ' ' :: (Nat.toDigits 10 c.h ++ ' ' ::
    (pr c.prob ++ '\n' :: ((if c.eight then "Eightway\n".toList else "Fourway\n".toList) ++
    ((if c.life then "Life\n".toList else "Unit\n".toList) ++
    (Nat.toDigits 10 0 ++ ' ' :: (Nat.toDigits 10 0 ++ '\n' :: (Nat.toDigits 10 (c.w - 1) ++ ' ' :: (Nat.toDigits 10 0 ++ ['\n']))))))))))

/-- mkseedinst.cc:97-102, 25-58: the program prints the text.  `zero`: the probability is 0. -/
inductive Prints (zero : Prop) (pr : D → Str) : Str → Prop
  | mk {i : Nat} : ¬ zero → c.w ≠ 0 → c.h ≠ 0 → size c.w c.h = .ok () → Rounds draw c 0 i → Prints zero pr (out c pr i)

end Verif.SeedInst
