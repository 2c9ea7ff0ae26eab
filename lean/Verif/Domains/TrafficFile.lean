import Verif.Domains.Traffic
import Verif.Domains.Scenario
import Verif.Search.Algs

/-!
# Model of the files of traffic instances: `Traffic(FILE*)`, `Traffic::output` (traffic/traffic.hpp), `GridMap::load`,
`GridMap::output`, `Obstacle::output` (traffic/gridmap.{hpp,cc}), and of traffic/randinst.cc

* `fscanf` as in `GridFile`.  White space at the end of a format is left out, the next conversion skips it.
* The coordinates of start and goal are `int`s read with `%u`: values from 2^31 on are undefined behaviour.
* Instances are those of `Traffic`; `sz`, which is `w * h` modulo 2^32, is given beside the instance.
* randinst.cc: the values of `rand()` are given (their order within an obstacle is unspecified in C++).  Every round of its loop has a new map
  and a new search object, so that only the last round is modelled.
-/

namespace Verif.TrafficFile

open Verif.Str Verif.GridFile Verif.Scenario Verif.Traffic

deriving instance DecidableEq for Obstacle, Inst

/-! ## Reading -/

/-- `%d`; `none` if there is no number. -/
def sint (s : Str) : Outcome (Option (Int × Str)) :=
  let s := skip s
  let neg := s.head? == some '-'
  let t := if neg || s.head? == some '+' then s.tail else s
  if t.takeWhile Char.isDigit = [] then .ok none
  else
    let n := Nat.ofDigitChars 10 (t.takeWhile Char.isDigit) 0
    let z : Int := if neg then -n else n
    if -2 ^ 31 ≤ z ∧ z < 2 ^ 31 then .ok (some (z, t.dropWhile Char.isDigit)) else .ub

/-- The next conversion is tried only if this one succeeded. -/
def andThen {α β : Type} (o : Outcome (Option (α × Str))) (k : α → Str → Outcome (Option β)) : Outcome (Option β) :=
  o.bind fun
    | none => .ok none
    | some (a, s) => k a s

/-- gridmap.cc:21: `fscanf(in, "%d %d %d %d\n", ...)`; `none` if the result is not 4. -/
def obs (s : Str) : Outcome (Option (Obstacle × Str)) :=
  andThen (sint s) fun x s => andThen (sint s) fun y s => andThen (sint s) fun dx s => andThen (sint s) fun dy s =>
    .ok (some (⟨x, y, dx, dy⟩, s))

/-- gridmap.cc:20-23: the obstacles. -/
def obsLoop : Nat → Str → Outcome (List Obstacle)
  | 0, _ => .nofuel
  | fuel + 1, s =>
    (obs s).bind fun
      | none => .ok []
      | some (o, s) => (obsLoop fuel s).map (o :: ·)

/-- traffic.hpp:98-109 `Traffic(FILE*)` with gridmap.cc:14-25 `load`: the instance and `sz`. -/
def read (s : Str) : Outcome (Inst × Nat) :=
  (num (2 ^ 31) s).bind fun (sx, s) => (num (2 ^ 31) s).bind fun (sy, s) =>
  (num (2 ^ 31) s).bind fun (gx, s) => (num (2 ^ 31) s).bind fun (gy, s) =>
  (num (2 ^ 32) s).bind fun (w, s) => (num (2 ^ 32) s).bind fun (h, s) =>
  (obsLoop (s.length + 1) s).map fun os =>
    (⟨w, h, os, (sy * w + sx) % 2 ^ 32, (gy * w + gx) % 2 ^ 32⟩, w * h % 2 ^ 32)

/-! ## Writing -/

/-- `%d`. -/
def shows (z : Int) : Str := if z < 0 then '-' :: Nat.toDigits 10 z.natAbs else Nat.toDigits 10 z.natAbs

/-- The value of an `int` that is made of an `unsigned int`. -/
def asInt (n : Nat) : Int := if n < 2 ^ 31 then n else n - 2 ^ 32

/-- gridmap.hpp:129-131 `Obstacle::output`. -/
def writeObs : List Obstacle → Str
  | [] => []
  | o :: os => shows o.x ++ ' ' :: (shows o.y ++ ' ' :: (shows o.dx ++ ' ' :: (shows o.dy ++ '\n' :: writeObs os)))

/-- traffic.hpp:111-117 `Traffic::output` and gridmap.hpp:20-24 `GridMap::output`; `loc % 0` is undefined. -/
def write (I : Inst) : Outcome Str :=
  if I.w = 0 then .ub
  else .ok (shows (asInt (I.start % I.w)) ++ ' ' :: (shows (asInt (I.start / I.w)) ++ ' ' ::
    (shows (asInt (I.finish % I.w)) ++ ' ' :: (shows (asInt (I.finish / I.w)) ++ '\n' ::
    (shows (asInt I.w) ++ ' ' :: (shows (asInt I.h) ++ '\n' :: writeObs I.obstacles))))))

/-! ## randinst.cc -/

/-- randinst.cc:10-18: the arguments that are used; `argv[argc]` is a null pointer, which `strtol` must not get. -/
def randArgs (argv : List Str) : Outcome (Option (Str × Str × Str × Str)) :=
  if argv.length < 4 then .ok none
  else match argv with
    | _ :: w :: h :: n :: seed :: _ => .ok (some (w, h, n, seed))
    | _ => .ub

/-- randinst.cc:25-30: an obstacle from four random numbers. -/
def randObs (w h : Nat) : List (Nat × Nat × Nat × Nat) → Outcome (List Obstacle)
  | [] => .ok []
  | (a, b, c, d) :: r =>
    if w = 1 ∨ h = 1 then .ub
    else (randObs w h r).map (⟨((a % (w - 1) : Nat) : Int) + 1, ((b % (h - 1) : Nat) : Int) + 1, ((c % 3 : Nat) : Int) - 1, ((d % 3 : Nat) : Int) - 1⟩ :: ·)

/-- randinst.cc:23, 32: the map and the locations. -/
def randInst (w h : Nat) (os : List Obstacle) : Inst := ⟨w, h, os, 0, (h - 1) * w + (w - 1)⟩

/-- randinst.cc:22-52: a text that can be printed, for `n` obstacles. -/
inductive Randinst (w h n : Nat) : Str → Prop
  | mk {ds : List (Nat × Nat × Nat × Nat)} {os : List Obstacle} {l : Search.Limit} {st : Search.St State Int Int Int}
      {r : List State × List Int} {out : Str} : ds.length = n → randObs w h ds = .ok os →
      Search.Run (dom (randInst w h os)) (Search.greedy (Traffic.h (randInst w h os)) false) (initialstate (randInst w h os)) l st r →
      0 < r.2.length → write (randInst w h os) = .ok out → Randinst w h n out

end Verif.TrafficFile
