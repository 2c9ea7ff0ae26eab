import Verif.Outcome
import Verif.Search.Heuristic
import Mathlib.Analysis.Real.Sqrt
import Mathlib.Algebra.BigOperators.Group.Finset.Basic
import Mathlib.Algebra.Order.BigOperators.Group.Finset
import Mathlib.Tactic.Linarith
import Mathlib.Tactic.Ring
import Mathlib.Data.List.FinRange

/-!
# Model of the segments domain (segments/segments.hpp, segments/segments.cc)

Line segments lie in a bounded area; a gripper carries one at a time to its goal pose.

* `unsigned int` values are natural numbers, with reduction modulo 2^32 where the code computes with them.
* `double` values are real numbers (no rounding).
* The geometry (utils/geom2d) is a parameter `Geo`: what a line is, what a sweep is, whether a sweep hits a line.  The
  theorems hold for every geometry.
* Indexing `angles`, `poses`, `lines` or `segs` out of bounds is undefined behaviour, and so is `% 0` and overflow of
  `int`.
-/

namespace Verif.Segments

open Verif.Search

/-- segments.hpp:13-28 -/
structure Pose where
  x : Nat
  y : Nat
  rot : Nat
deriving DecidableEq

/-- The geometry of utils/geom2d, as it is used by the domain. -/
structure Geo where
  /-- `LineSg` -/
  L : Type
  /-- `Sweep` -/
  Sw : Type
  /-- the computations of `line` (segments.cc:131-133): radius, position, the indices of the two angles -/
  mkl : ℝ → Nat → Nat → Nat → Nat → L
  /-- the computations of `rotatesweep`: radius, old pose, delta, the line after the rotation -/
  rsweep : ℝ → Pose → Int → L → Sw
  /-- the computations of `movesweep`: the line before and after the move -/
  msweep : L → L → Sw
  /-- `Sweep::hits` -/
  hits : Sw → L → Bool

/-- segments.hpp:59-63 -/
structure Seg where
  radius : ℝ
  goal : Pose
  start : Pose

/-- An instance with `n` segments (segments.hpp:268-302). `angles` has `nangles` elements. -/
structure Inst (n : Nat) (G : Geo) where
  nangles : Nat
  bounds : Fin 4 → G.L
  segs : Fin n → Seg

/-- segments.hpp:71-129 -/
structure State (n : Nat) (G : Geo) where
  x : Nat
  y : Nat
  poses : Fin n → Pose
  lines : Fin n → G.L
  nleft : Nat

/-- segments.hpp:164 -/
inductive Kind where
  | none | rotate | move
deriving DecidableEq

/-- segments.hpp:163-212 -/
structure Oper where
  op : Kind
  seg : Nat
  delta : Int
  dy : Int
deriving DecidableEq

/-- segments.cc:13 -/
def Nop : Oper := ⟨.none, 0, 0, 0⟩

section Model
variable {n : Nat} {G : Geo}

/-- The value of an integer converted to `unsigned int`. -/
def toU (z : Int) : Nat := (z % 2 ^ 32).toNat

/-- The value of an integer converted to `int`. -/
def toI (z : Int) : Int := if z % 2 ^ 32 < 2 ^ 31 then z % 2 ^ 32 else z % 2 ^ 32 - 2 ^ 32

/-- segments.cc:525-530 `wrapind` -/
def wrapind (i n : Int) : Outcome Int :=
  if n = 0 ∨ (i = -2 ^ 31 ∧ n = -1) then .ub
  else
    let r := i.tmod n
    .ok (if r < 0 then r + n else r)

/-- segments.cc:128-134 `line` -/
def line (I : Inst n G) (sg : Seg) (p : Pose) : Outcome G.L :=
  if p.rot < I.nangles then
    (wrapind (toI (p.rot + I.nangles / 2)) (toI I.nangles)).bind fun a1 =>
    if 0 ≤ a1 ∧ a1 < I.nangles then .ok (G.mkl sg.radius p.x p.y p.rot a1.toNat) else .ub
  else .ub

/-- segments.cc:114-126 `State::init`, the loop; `ps` are the poses. -/
def initLoop (I : Inst n G) (ps : Fin n → Pose) : List (Fin n) → (Fin n → Option G.L) → Nat →
    Outcome ((Fin n → Option G.L) × Nat)
  | [], ls, k => .ok (ls, k)
  | i :: is, ls, k =>
    (line I (I.segs i) (ps i)).bind fun l =>
    initLoop I ps is (Function.update ls i (some l)) (if ps i ≠ (I.segs i).goal then k + 1 else k)

open Classical in
/-- segments.cc:114-126 `State::init`: all elements of `lines` are assigned. -/
noncomputable def mkState (I : Inst n G) (ps : Fin n → Pose) (x y : Nat) : Outcome (State n G) :=
  (initLoop I ps (List.finRange n) (fun _ => none) 0).bind fun (ls, k) =>
  if h : ∀ i, (ls i).isSome then .ok ⟨x, y, ps, fun i => (ls i).get (h i), k⟩ else .ub

/-- segments.cc:327-332 -/
noncomputable def initialstate (I : Inst n G) : Outcome (State n G) := mkState I (fun i => (I.segs i).start) 0 0

/-- segments.cc:334-339 -/
noncomputable def goalstate (I : Inst n G) : Outcome (State n G) := mkState I (fun i => (I.segs i).goal) 0 0

/-- segments.hpp:131-159 -/
structure Packed (n : Nat) where
  poses : Fin n → Pose
  x : Nat
  y : Nat

/-- segments.hpp:253-255 -/
def pack (s : State n G) : Packed n := ⟨s.poses, s.x, s.y⟩

/-- segments.hpp:257-260 -/
noncomputable def unpack (I : Inst n G) (p : Packed n) : Outcome (State n G) := mkState I p.poses p.x p.y

/-- segments.hpp:147-153 -/
def Packed.eq (p q : Packed n) : Bool :=
  (List.finRange n).all (fun i => decide (p.poses i = q.poses i)) && decide (p.x = q.x) && decide (p.y = q.y)

/-- segments.cc:341-352 `hash`: the numbers that are hashed. -/
def Packed.key (p : Packed n) : List Nat :=
  [p.x, p.y] ++ (List.finRange n).flatMap fun i => [(p.poses i).rot, (p.poses i).x, (p.poses i).y]

/-- segments.cc:144-152 -/
def Oper.eq (a b : Oper) : Bool :=
  if b.op ≠ a.op then false
  else if a.op = .none then true
  else if a.op = .rotate then decide (a.seg = b.seg) && decide (a.delta = b.delta)
  else decide (a.seg = b.seg) && decide (a.delta = b.delta) && decide (a.dy = b.dy)

/-- segments.cc:154-158 -/
def Oper.reverse (o : Oper) : Oper := if o.op = .none then Nop else ⟨o.op, o.seg, -o.delta, -o.dy⟩

/-- segments.cc:168-170: the distance between the gripper and a position. -/
noncomputable def dist (x y px py : Nat) : ℝ :=
  Real.sqrt (((x : ℝ) - px) * ((x : ℝ) - px) + ((y : ℝ) - py) * ((y : ℝ) - py))

/-- segments.cc:173-177 -/
noncomputable def opcost (o : Oper) : ℝ :=
  match o.op with
  | .none => 0
  | .rotate => 1
  | .move => if o.delta = 0 ∨ o.dy = 0 then 1 else Real.sqrt 2

/-- segments.cc:160-180 `cost` -/
noncomputable def cost (s : State n G) (o : Oper) : Outcome ℝ :=
  if o.op = .none then .ok 0
  else if h : o.seg < n then
    let p := s.poses ⟨o.seg, h⟩
    .ok ((if s.x ≠ p.x ∨ s.y ≠ p.y then dist s.x s.y p.x p.y else 0) + opcost o)
  else .ub

/-- segments.cc:304 and 308-309: the pose after an operator. -/
def newpose (I : Inst n G) (p : Pose) (o : Oper) : Outcome Pose :=
  match o.op with
  | .none => .ok p
  | .rotate => (wrapind (toI (p.rot + o.delta)) (toI I.nangles)).map fun r => { p with rot := toU r }
  | .move => .ok { p with x := toU (p.x + o.delta), y := toU (p.y + o.dy) }

/-- segments.cc:182-249: the sweep of segment `i` (`sweep`, `rotatesweep`, `movesweep`). -/
def sweep (I : Inst n G) (s : State n G) (i : Fin n) (o : Oper) : Outcome G.Sw :=
  if o.op = .rotate then
    if (s.poses i).rot < I.nangles then
      (newpose I (s.poses i) o).bind fun p =>
      (line I (I.segs i) p).map fun l => G.rsweep (I.segs i).radius (s.poses i) o.delta l
    else .ub
  else
    (newpose I (s.poses i) o).bind fun p =>
    (line I (I.segs i) p).map fun l => G.msweep (s.lines i) l

/-- segments.cc:251-269 `ok` -/
def isok (I : Inst n G) (s : State n G) (o : Oper) : Outcome Bool :=
  if o.op = .none then .ok true
  else if h : o.seg < n then
    (sweep I s ⟨o.seg, h⟩ o).map fun w =>
      (List.finRange 4).all (fun k => !G.hits w (I.bounds k)) &&
      (List.finRange n).all fun j => decide (j.val = o.seg) || !G.hits w (s.lines j)
  else .ub

/-- segments.cc:273-288: the operators that are tried for segment `i`. -/
def cands (i : Nat) : List Oper :=
  [⟨.rotate, i, -1, 0⟩, ⟨.rotate, i, 1, 0⟩,
   ⟨.move, i, -1, -1⟩, ⟨.move, i, -1, 0⟩, ⟨.move, i, -1, 1⟩, ⟨.move, i, 0, -1⟩, ⟨.move, i, 0, 1⟩,
   ⟨.move, i, 1, -1⟩, ⟨.move, i, 1, 0⟩, ⟨.move, i, 1, 1⟩]

/-- The elements for which `p` is true, in order. -/
def filt (p : Oper → Outcome Bool) : List Oper → Outcome (List Oper)
  | [] => .ok []
  | o :: os => (p o).bind fun b => (filt p os).map fun r => if b then o :: r else r

/-- segments.cc:271-291 `Operators` -/
def operators (I : Inst n G) (s : State n G) : Outcome (List Oper) :=
  filt (isok I s) ((List.range n).flatMap cands)

/-- segments.hpp:230-239; `revcost` is not set for the operator `None`. -/
structure Edge (n : Nat) (G : Geo) where
  cost : ℝ
  revop : Oper
  revcost : Option ℝ
  state : State n G

/-- segments.cc:301-322: the state after an operator other than `None`.  `nleft` is unsigned. -/
def move (I : Inst n G) (s : State n G) (i : Fin n) (o : Oper) : Outcome (State n G) :=
  (newpose I (s.poses i) o).bind fun p =>
  (line I (I.segs i) p).bind fun l =>
  let wasgoal := decide (s.poses i = (I.segs i).goal)
  let isgoal := decide (p = (I.segs i).goal)
  .ok ⟨p.x, p.y, Function.update s.poses i p, Function.update s.lines i l,
    if wasgoal && !isgoal then toU (s.nleft + 1) else if !wasgoal && isgoal then toU (s.nleft - 1) else s.nleft⟩

/-- segments.cc:293-325 -/
noncomputable def edge (I : Inst n G) (s : State n G) (o : Oper) : Outcome (Edge n G) :=
  (cost s o).bind fun c =>
  if o.op = .none then .ok ⟨c, o.reverse, none, s⟩
  else if h : o.seg < n then
    (move I s ⟨o.seg, h⟩ o).bind fun t =>
    (cost t o.reverse).map fun rc => ⟨c, o.reverse, some rc, t⟩
  else .ub

/-- segments.cc:364-372: the estimate for a segment, without the gripper. -/
noncomputable def segh (I : Inst n G) (goal p : Pose) : Outcome ℝ :=
  let dx := toI goal.x - toI p.x
  let dy := toI goal.y - toI p.y
  if dx < -2 ^ 31 ∨ 2 ^ 31 ≤ dx ∨ dx = -2 ^ 31 ∨ dy < -2 ^ 31 ∨ 2 ^ 31 ≤ dy ∨ dy = -2 ^ 31 then .ub
  else
    let dx : Int := |dx|
    let dy : Int := |dy|
    let shorter := if dx < dy then dx else dy
    let longer := if dx > dy then dx else dy
    (wrapind (toI ((goal.rot : Int) - p.rot)) (toI I.nangles)).bind fun a =>
    (wrapind (toI ((p.rot : Int) - goal.rot)) (toI I.nangles)).bind fun b =>
    .ok (((longer : ℝ) - shorter) + shorter * Real.sqrt 2 + ((if a < b then a else b : Int) : ℝ))

/-- segments.cc:360-379, the loop of `h`: the sum, and the least square of a distance (`none` is infinity). -/
noncomputable def hloop (I : Inst n G) (s : State n G) : List (Fin n) → ℝ → Option ℝ → Outcome (ℝ × Option ℝ)
  | [], h, g => .ok (h, g)
  | i :: is, h, g =>
    if s.poses i = (I.segs i).goal then hloop I s is h g
    else
      (segh I (I.segs i).goal (s.poses i)).bind fun v =>
      let dx := (s.x : ℝ) - (s.poses i).x
      let dy := (s.y : ℝ) - (s.poses i).y
      let d := dx * dx + dy * dy
      open Classical in
      hloop I s is (h + v) (match g with
        | none => some d
        | some e => if d < e then some d else some e)

/-- segments.cc:354-382 `h`; `none` is infinity. -/
noncomputable def h (I : Inst n G) (s : State n G) : Outcome (Option ℝ) :=
  if s.nleft = 0 then .ok (some 0)
  else (hloop I s (List.finRange n) 0 none).map fun (v, g) => g.map fun d => v + Real.sqrt d

/-- The value of a computation, with a default. -/
def val {α : Type*} (o : Outcome α) (x : α) : α :=
  match o with
  | .ok a => a
  | _ => x

/-- The domain, as the searches see it. -/
noncomputable def dom (I : Inst n G) : Dom (State n G) Oper ℝ where
  ops s := val (operators I s) []
  app s o := (val (edge I s o) ⟨0, Nop, none, s⟩).state
  cost s o := (val (edge I s o) ⟨0, Nop, none, s⟩).cost
  rev s o := (val (edge I s o) ⟨0, Nop, none, s⟩).revop
  nop := Nop
  goal s := decide (s.nleft = 0)

/-- The heuristic, as the searches see it. -/
noncomputable def hfun (I : Inst n G) (s : State n G) : ℝ :=
  match h I s with
  | .ok (some v) => v
  | _ => 0

end Model

/-! ## Specification -/

section Spec
variable {n : Nat} {G : Geo}

/-- What the instance must satisfy: segments and angles exist, rotations are indices of angles, numbers fit `int`. -/
structure InstOk (I : Inst n G) : Prop where
  pos : 0 < I.nangles
  small : I.nangles < 2 ^ 30
  num : n < 2 ^ 32
  start : ∀ i, (I.segs i).start.rot < I.nangles
  goal : ∀ i, (I.segs i).goal.rot < I.nangles ∧ (I.segs i).goal.x < 2 ^ 31 ∧ (I.segs i).goal.y < 2 ^ 31

/-- The line of a segment in a pose. -/
def lineOf (I : Inst n G) (i : Fin n) (p : Pose) : G.L :=
  G.mkl (I.segs i).radius p.x p.y p.rot ((p.rot + I.nangles / 2) % I.nangles)

/-- The segments that are not in their goal pose. -/
def todo (I : Inst n G) (s : State n G) : Finset (Fin n) := Finset.univ.filter fun i => s.poses i ≠ (I.segs i).goal

/-- Consistency of a state: rotations are indices of angles, coordinates are unsigned ints, and the redundant fields
are what they should be. -/
structure StOk (I : Inst n G) (s : State n G) : Prop where
  rot : ∀ i, (s.poses i).rot < I.nangles
  lines : ∀ i, s.lines i = lineOf I i (s.poses i)
  nleft : s.nleft = (todo I s).card
  u32 : ∀ i, (s.poses i).x < 2 ^ 32 ∧ (s.poses i).y < 2 ^ 32

/-- The pose after an operator, without machine arithmetic: rotations are modulo the number of angles, coordinates
modulo 2^32. -/
def posed (I : Inst n G) (p : Pose) (o : Oper) : Pose :=
  match o.op with
  | .none => p
  | .rotate => { p with rot := (((p.rot : Int) + o.delta) % I.nangles).toNat }
  | .move => { p with x := toU (p.x + o.delta), y := toU (p.y + o.dy) }

/-- An operator of one of the ten kinds on an existing segment. -/
def Legal (n : Nat) (o : Oper) : Prop := ∃ i < n, o ∈ cands i

/-- Octile distance. -/
noncomputable def oct (a b : Int) : ℝ := ((max |a| |b| - min |a| |b| : Int) : ℝ) + ((min |a| |b| : Int) : ℝ) * Real.sqrt 2

/-- Distance on the circle of angles. -/
def circ (m : Nat) (a b : Nat) : Int := min (((a : Int) - b) % m) (((b : Int) - a) % m)

/-- How far a segment is from its goal, without the gripper. -/
noncomputable def base (I : Inst n G) (i : Fin n) (p : Pose) : ℝ :=
  oct ((I.segs i).goal.x - p.x) ((I.segs i).goal.y - p.y) + ((circ I.nangles (I.segs i).goal.rot p.rot : Int) : ℝ)

end Spec

end Verif.Segments
