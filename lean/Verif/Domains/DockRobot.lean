import Verif.Outcome
import Verif.Search.Heuristic
import Mathlib.Data.List.Perm.Basic
import Mathlib.Data.List.Sort
import Mathlib.Data.List.Nodup
import Mathlib.Tactic.Ring
import Mathlib.Tactic.Linarith
import Mathlib.Algebra.Order.Ring.Rat

/-!
# The dock robot domain (drobot/drobot.hpp, drobot/drobot.cc)

A robot moves boxes between locations.  A location holds boxes on cranes and in piles.  Cranes and piles are
kept sorted, piles by their bottom box.

Simplifications:
* costs (`float`, `double`) are exact rationals, and the entries of the adjacency matrix are finite;
* the memoised fields `h` and `d` of a state (set to −1 by `Edge`) are left out: `hd` is evaluated directly;
* `std::sort` is an insertion sort.  Whenever all keys differ every sorting function gives the same result;
* the `d` estimate, printing and reading instance files are not modelled.
-/

namespace Verif.DockRobot

open Verif

/-! ## Locations -/

/-- `Loc` (drobot.hpp:13-75) with `Pile` (drobot.hpp:77-97): a pile is the list of its boxes, bottom first. -/
structure Loc where
  cranes : List Nat
  piles : List (List Nat)
deriving DecidableEq, Repr

/-- The bottom box of a pile, `stack[0]`. -/
def bot (p : List Nat) : Nat := p.headD 0

/-- `std::sort` on box numbers (drobot.cc:40, 47). -/
def sortN (l : List Nat) : List Nat := l.insertionSort fun a b => a ≤ b

/-- `std::sort` on piles with `Pile::operator<` (drobot.hpp:87-89; drobot.cc:18, 27). -/
def sortP (l : List (List Nat)) : List (List Nat) := l.insertionSort fun a b => bot a ≤ bot b

/-- `v[i] = v.back(); v.pop_back();` with the first part only if `v` has more than one element
(drobot.cc:15-17, 37-39). -/
def swapRemove {α : Type} [Inhabited α] (v : List α) (i : Nat) : List α :=
  (if 1 < v.length then v.set i (v.getLastD default) else v).dropLast

/-- `Loc::pop` (drobot.cc:7-22).  `back()` of an empty stack is undefined. -/
def Loc.pop (l : Loc) (p : Nat) : Outcome (Nat × Loc) :=
  if p < l.piles.length then
    let st := l.piles.getD p []
    match st.getLast? with
    | none => .ub
    | some box =>
      if st.dropLast = [] then
        .ok (box, { l with piles := sortP (swapRemove l.piles p) })
      else
        .ok (box, { l with piles := l.piles.set p st.dropLast })
  else .fatal

/-- `Loc::push` (drobot.cc:24-31). -/
def Loc.push (l : Loc) (box p : Nat) : Loc :=
  if l.piles.length ≤ p then { l with piles := sortP (l.piles ++ [[box]]) }
  else { l with piles := l.piles.set p (l.piles.getD p [] ++ [box]) }

/-- `Loc::rmcrane` (drobot.cc:33-43). -/
def Loc.rmcrane (l : Loc) (c : Nat) : Outcome (Nat × Loc) :=
  if c < l.cranes.length then
    .ok (l.cranes.getD c 0, { l with cranes := sortN (swapRemove l.cranes c) })
  else .fatal

/-- `Loc::addcrane` (drobot.cc:45-48). -/
def Loc.addcrane (l : Loc) (box : Nat) : Loc :=
  { l with cranes := sortN (l.cranes ++ [box]) }

/-- The loop of the two binary searches (drobot.hpp:46-52, 63-69); `key m` is the element compared. -/
def bsearch (key : Nat → Nat) (x l u : Nat) : Nat :=
  if l < u then
    if key ((u - l) / 2 + l) < x then bsearch key x ((u - l) / 2 + l + 1) u
    else bsearch key x l ((u - l) / 2 + l)
  else l
termination_by u - l
decreasing_by all_goals omega

/-- A binary search over `n` keys; `none` is the result −1. -/
def find (key : Nat → Nat) (n x : Nat) : Option Nat :=
  if n = 0 then none
  else if bsearch key x 0 n < n ∧ key (bsearch key x 0 n) = x then some (bsearch key x 0 n) else none

/-- `Loc::findpile` (drobot.hpp:39-54). -/
def Loc.findpile (l : Loc) (box : Nat) : Option Nat :=
  find (fun m => bot (l.piles.getD m [])) l.piles.length box

/-- `Loc::findcrane` (drobot.hpp:58-71). -/
def Loc.findcrane (l : Loc) (box : Nat) : Option Nat :=
  find (fun m => l.cranes.getD m 0) l.cranes.length box

/-! ## States -/

/-- The parts of `DockRobot` that are used after the instance is read (drobot.hpp:312-332).
`goal b = none` is the code's −1. -/
structure Inst where
  nlocs : Nat
  nboxes : Nat
  maxpiles : Nat → Nat
  maxcranes : Nat → Nat
  adj : Nat → Nat → ℚ
  goal : Nat → Option Nat

/-- What a packed state records: the contents of the locations and of the robot and the robot's location. -/
structure Core where
  locs : List Loc
  rbox : Option Nat
  rloc : Nat
deriving DecidableEq, Repr

/-- `State` (drobot.hpp:122-197). -/
structure State extends Core where
  boxlocs : Nat → Nat
  nleft : Nat

/-- The boxes at a location in the order in which the constructor of `State` visits them. -/
def Loc.boxes (l : Loc) : List Nat := l.cranes ++ l.piles.flatten

/-- All boxes with their locations, in the order in which the constructor of `State` visits them
(drobot.cc:177-198). -/
def Core.pairs (c : Core) : List (Nat × Nat) :=
  (c.locs.zipIdx.flatMap fun x => x.1.boxes.map fun b => (b, x.2)) ++ (c.rbox.toList.map fun b => (b, c.rloc))

/-- `dr.goal[box] >= 0 && dr.goal[box] != l`. -/
def Inst.out (I : Inst) (b l : Nat) : Bool :=
  match I.goal b with
  | some g => g != l
  | none => false

/-- The constructor of `State` (drobot.cc:167-199).  A box number that is not below `nboxes` indexes out of
bounds. -/
def mk (I : Inst) (c : Core) : Outcome State :=
  if c.pairs.all fun x => x.1 < I.nboxes then
    .ok { c with
      boxlocs := c.pairs.foldl (fun f x => Function.update f x.1 x.2) fun _ => I.nlocs + 1
      nleft := c.pairs.foldl (fun n x => if I.out x.1 x.2 then n + 1 else n) 0 }
  else .ub

/-! ## Operators and edges -/

/-- `Oper` (drobot.hpp:101-113). -/
inductive Op where
  | none
  | push (c p : Nat)
  | pop (p : Nat)
  | load (c : Nat)
  | unload
  | move (l : Nat)
deriving DecidableEq, Repr

/-- `LoadCost` (drobot.cc:202). -/
def loadCost : ℚ := 1 / 100

/-- `PopCostFact` (drobot.cc:206). -/
def popFact : ℚ := 1 / 20

/-- The result of applying an operator: the new state and the fields of `Edge` (drobot.hpp:265-267). -/
structure Eff where
  state : State
  revop : Op
  cost : ℚ
  revcost : ℚ

/-- Decrement of an `unsigned int`. -/
def dec32 (n : Nat) : Nat := if n = 0 then 2 ^ 32 - 1 else n - 1

/-- The state after replacing the contents of the robot's location. -/
def State.setLoc (s : State) (l : Loc) : State := { s with locs := s.locs.set s.rloc l }

/-- `Edge::apply`, case `Push` (drobot.cc:210-231). -/
def applyPush (s : State) (c p : Nat) : Outcome Eff :=
  match s.locs[s.rloc]? with
  | .none => .fatal
  | some l => (l.rmcrane c).bind fun (box, l1) =>
    if p < l1.piles.length ∧ l1.piles.getD p [] = [] then .ub else
    let bottom := if p < l1.piles.length then bot (l1.piles.getD p []) else box
    let sz := if p < l1.piles.length then (l1.piles.getD p []).length else 0
    let l2 := l1.push box p
    match l2.findpile bottom with
    | .none => .fatal
    | some p' => .ok
      { state := s.setLoc l2
        revop := .pop p'
        cost := popFact * (sz + 1)
        revcost := popFact * (sz + 2) }

/-- `Edge::apply`, case `Pop` (drobot.cc:232-252).  The result of `findpile` is not checked: −1 becomes the
largest `unsigned int`. -/
def applyPop (s : State) (p : Nat) : Outcome Eff :=
  match s.locs[s.rloc]? with
  | .none => .ub
  | some l =>
    if l.piles.length ≤ p then .fatal else
    let sz := (l.piles.getD p []).length
    let bottom := bot (l.piles.getD p [])
    (l.pop p).bind fun (box, l1) =>
    let l2 := l1.addcrane box
    match l2.findcrane box with
    | .none => .fatal
    | some c => .ok
      { state := s.setLoc l2
        revop := .push c (if sz = 1 then l2.piles.length else (l2.findpile bottom).getD (2 ^ 32 - 1))
        cost := popFact * (sz + 1)
        revcost := popFact * sz }

/-- `Edge::apply`, case `Load` (drobot.cc:253-264). -/
def applyLoad (s : State) (c : Nat) : Outcome Eff :=
  match s.rbox with
  | some _ => .fatal
  | .none =>
    match s.locs[s.rloc]? with
    | .none => .ub
    | some l => (l.rmcrane c).bind fun (box, l1) => .ok
      { state := { s.setLoc l1 with rbox := some box }
        revop := .unload
        cost := loadCost
        revcost := loadCost }

/-- `Edge::apply`, case `Unload` (drobot.cc:265-280). -/
def applyUnload (I : Inst) (s : State) : Outcome Eff :=
  match s.rbox with
  | .none => .fatal
  | some box =>
    match s.locs[s.rloc]? with
    | .none => .ub
    | some l =>
      let l1 := l.addcrane box
      if I.maxcranes s.rloc < l1.cranes.length then .fatal else
      match l1.findcrane box with
      | .none => .fatal
      | some c => .ok
        { state := { s.setLoc l1 with rbox := .none }
          revop := .load c
          cost := loadCost
          revcost := loadCost }

/-- `Edge::apply`, case `Move` (drobot.cc:281-301). -/
def applyMove (I : Inst) (s : State) (dst : Nat) : Outcome Eff :=
  if I.nlocs ≤ s.rloc ∨ I.nlocs ≤ dst then .ub else
  let s1 : State :=
    match s.rbox with
    | .none => s
    | some b =>
      match I.goal b with
      | .none => s
      | some g =>
        { s with
          nleft := if g = s.rloc then s.nleft + 1 else if g = dst then dec32 s.nleft else s.nleft
          boxlocs := Function.update s.boxlocs b dst }
  .ok
    { state := { s1 with rloc := dst }
      revop := .move s.rloc
      cost := I.adj s.rloc dst
      revcost := I.adj dst s.rloc }

/-- `Edge::apply` (drobot.cc:208-306). -/
def apply (I : Inst) (s : State) : Op → Outcome Eff
  | .none => .fatal
  | .push c p => applyPush s c p
  | .pop p => applyPop s p
  | .load c => applyLoad s c
  | .unload => applyUnload I s
  | .move l => applyMove I s l

/-- The number of piles that `Operators` tries to push on, `lastpile + 1` (drobot.cc:312-314). -/
def npush (I : Inst) (l : Loc) (rloc : Nat) : Nat :=
  if I.maxpiles rloc ≤ l.piles.length then I.maxpiles rloc else l.piles.length + 1

/-- `Operators` (drobot.cc:308-343). -/
def ops (I : Inst) (s : Core) : List Op :=
  let l := s.locs.getD s.rloc ⟨[], []⟩
  ((List.range l.cranes.length).flatMap fun c => (List.range (npush I l s.rloc)).map fun p => Op.push c p) ++
  (if l.cranes.length < I.maxcranes s.rloc then
    ((List.range l.piles.length).map Op.pop) ++ (if s.rbox.isSome then [Op.unload] else [])
  else []) ++
  (if s.rbox.isNone then (List.range l.cranes.length).map Op.load else []) ++
  ((List.range I.nlocs).filter fun i => i != s.rloc).map Op.move

/-! ## Packing -/

/-- The assignments `pack` makes for a location whose first slot is `cur` (drobot.cc:377-385). -/
def packLoc (I : Inst) (i cur : Nat) (l : Loc) : List (Nat × Nat) :=
  (l.cranes.zipIdx.map fun x => (x.1, cur + x.2)) ++
  l.piles.zipIdx.flatMap fun p => p.1.zipIdx.map fun x => (x.1, cur + I.maxcranes i + x.2 + p.2 * I.nboxes)

/-- The number of slots of location `i` (drobot.cc:379, 385). -/
def slots (I : Inst) (i : Nat) : Nat := I.maxcranes i + I.maxpiles i * I.nboxes

/-- The assignments of the loop of `pack` over the locations (drobot.cc:375-386). -/
def packLocs (I : Inst) : Nat → Nat → List Loc → List (Nat × Nat)
  | _, _, [] => []
  | i, cur, l :: ls => packLoc I i cur l ++ packLocs I (i + 1) (cur + slots I i) ls

/-- `pack` (drobot.cc:365-390): the array `pos` of `nboxes + 1` numbers.  `unsigned` arithmetic is taken to not
wrap: the number of slots is below 2³². -/
def pack (I : Inst) (s : Core) : Outcome (Nat → Nat) :=
  let as := (s.rbox.toList.map fun b => (b, 0)) ++ packLocs I 0 1 s.locs
  if as.all fun x => x.1 < I.nboxes + 1 then
    .ok (Function.update (as.foldl (fun f x => Function.update f x.1 x.2) fun _ => 0) I.nboxes s.rloc)
  else .ub

/-- `if (v.size() <= i) v.resize(i+1, fill); v[i] = x`. -/
def place {α : Type} (fill : α) (v : List α) (i : Nat) (x : α) : List α :=
  (if v.length ≤ i then v ++ List.replicate (i + 1 - v.length) fill else v).set i x

/-- Placing a box in the pile `pid` at height `ht` (drobot.cc:420-425). -/
def placePile (fill : Nat) (v : List (List Nat)) (pid ht b : Nat) : List (List Nat) :=
  place [] v pid (place fill (v.getD pid []) ht b)

/-- The inner loop of `unpack` (drobot.cc:405-430): put box `b`, whose remaining position is `p`, in its place.
`i` is the number of the first location of the list. -/
def unpackBox (I : Inst) (b : Nat) : Nat → Nat → List Loc → Outcome (List Loc)
  | _, _, [] => .fatal
  | i, p, l :: ls =>
    if p < I.maxcranes i then .ok ({ l with cranes := place (I.nboxes + 1) l.cranes p b } :: ls)
    else if p - I.maxcranes i < I.maxpiles i * I.nboxes then
      let pid := (p - I.maxcranes i) / I.nboxes
      let ht := (p - I.maxcranes i) % I.nboxes
      .ok ({ l with piles := placePile (I.nboxes + 1) l.piles pid ht b } :: ls)
    else (unpackBox I b (i + 1) (p - I.maxcranes i - I.maxpiles i * I.nboxes) ls).map (l :: ·)

/-- The outer loop of `unpack` (drobot.cc:397-432) over the boxes below `n`. -/
def unpackTo (I : Inst) (pos : Nat → Nat) : Nat → Outcome (List Loc × Option Nat)
  | 0 => .ok (List.replicate I.nlocs ⟨[], []⟩, .none)
  | n + 1 => (unpackTo I pos n).bind fun (ls, rb) =>
    if pos n = 0 then .ok (ls, some n)
    else (unpackBox I n 0 (pos n - 1) ls).map fun ls' => (ls', rb)

/-- `unpack` (drobot.cc:392-436). -/
def unpack (I : Inst) (pos : Nat → Nat) : Outcome State :=
  (unpackTo I pos I.nboxes).bind fun (ls, rb) => mk I ⟨ls, rb, pos I.nboxes⟩

/-! ## The heuristic -/

/-- One relaxation of `initheuristic` (drobot.cc:476-478). -/
def relax (k i : Nat) (m : Nat → Nat → ℚ) (j : Nat) : Nat → Nat → ℚ :=
  if m i k + m k j < m i j then Function.update m i (Function.update (m i) j (m i k + m k j)) else m

/-- `initheuristic` (drobot.cc:459-486), the first components. -/
def shortest (I : Inst) : Nat → Nat → ℚ :=
  (List.range I.nlocs).foldl (fun m k =>
    (List.range I.nlocs).foldl (fun m i => (List.range I.nlocs).foldl (relax k i) m) m)
    fun i j => if i = j then 0 else I.adj i j

/-- The boxes of a location that must be loaded and popped (drobot.cc:511-532). -/
def locH (I : Inst) (l : Nat) (loc : Loc) : ℚ :=
  (loc.cranes.map fun b => if I.out b l then loadCost else 0).sum +
  (loc.piles.map fun p => (p.zipIdx.map fun x =>
    if I.out x.1 l then popFact * (x.2 + 2) + loadCost else 0).sum).sum

/-- `hd` (drobot.cc:488-536), the first component. -/
def h (I : Inst) (s : State) : ℚ :=
  if s.nleft = 0 then 0
  else
    ((List.range I.nboxes).map fun b =>
      match I.goal b with
      | some g => shortest I (s.boxlocs b) g
      | .none => 0).sum +
    (s.nleft - 1) * loadCost +
    (s.locs.zipIdx.map fun x => locH I x.2 x.1).sum

end Verif.DockRobot
