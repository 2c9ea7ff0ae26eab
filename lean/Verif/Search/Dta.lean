import Verif.Search.DtaTable
import Verif.Search.LssInv

/-!
# Model of search/dtastar.hpp (DTA*, decision theoretic A*)

The search does a step at a time.  For each operator of the current state there is an A* search from the successor
(`class Lss`).  The one with the least `f` is advanced, until `keepGoing` (`Search/DtaTable`) or a limit says that it is
enough, and then the operator of the search with the least `f` is applied.

* The conventions of `Search/Lss` hold: a node is named by its state, tables are finite maps, there is no rounding, times are
  not modelled.  Costs and heuristic values are rational numbers.
* The limits (`this->limit()`) and the bound of the local search (`lsslim->stop()`) are given functions: of the number of
  expansions, generations and tests so far, and of the number of the step and of the test in it.  `spg` gives `secpergen`,
  which comes from the clock (573), by the number of tests so far.
* An `assert` that does not hold is `fatal`; the program is compiled with assertions.
* `avgmeta` (580) has no value unless `reset` was called: `fresh` is that it was not.  Reading it is undefined.
* `search` reads `cur->state` (543) after `graph.clear()` (533) has destroyed the node: `stale` is what comes of it; `none`,
  undefined behaviour; `some b`, the test has result `b`.
* Nodes with equal `f` and `g` are in any order after `std::sort` (615); here, in that of an insertion sort.  By
  `c99_no_h` it does not matter.
-/

namespace Verif.Dta

open Verif.Search
open Verif.Lss (pushupd hlt)

variable {S O : Type*}

/-- The parameters of a search. -/
structure Par (S O : Type*) where
  d : Dom S O ℚ
  h : S → ℚ
  lim : Nat → Nat → Nat → Bool
  stop : Nat → Nat → Bool
  grain : Nat
  T : Table
  wt : ℚ
  wf : ℚ
  br : ℚ
  spg : Nat → ℚ
  full : Bool
  thr : ℚ
  fresh : Bool
  stale : Option Bool

/-- dtastar.hpp:76-183 `Graph`, the statistics, and the number of limit tests done. -/
structure Graph (S : Type*) where
  h : S → ℚ
  expd : S → Bool
  preds : S → List (S × ℚ)
  nexpd : Nat
  gend : Nat
  calls : Nat

/-- dtastar.hpp:191-208 `Lss::Node`; `openind` and `learnind` are in the heaps. -/
structure Node (S O : Type*) where
  st : S
  par : Option Nat
  g : ℚ
  f : ℚ
  op : O
  closed : Bool
  updated : Bool

/-- dtastar.hpp:186-391 `Lss` -/
structure Tree (S O : Type*) where
  root : S
  op : O
  g0 : ℚ
  nd : Nat → Node S O
  next : Nat
  tab : S → Option Nat
  q : BinHeap.Heap Nat
  nclosed : Nat
  goal : Option Nat

section Model
variable [DecidableEq S]

/-- The limit test. -/
def Graph.lim (P : Par S O) (m : Graph S) : Bool := P.lim m.nexpd m.gend m.calls

/-- A limit test has been done. -/
def Graph.call (m : Graph S) : Graph S := { m with calls := m.calls + 1 }

/-- dtastar.hpp:158-165: the loop body of `succs`. -/
def succsOp (P : Par S O) (s : S) (m : Graph S) (o : O) : Graph S :=
  { m with
    gend := m.gend + 1
    preds := Function.update m.preds (P.d.app s o) (m.preds (P.d.app s o) ++ [(s, P.d.cost s o)]) }

/-- dtastar.hpp:150-169 `succs`; what it returns is given by `P.d.ops s`. -/
def succs (P : Par S O) (s : S) (m : Graph S) : Graph S :=
  if m.expd s = true then m
  else
    let m' := (P.d.ops s).foldl (succsOp P s) { m with nexpd := m.nexpd + 1 }
    { m' with expd := Function.update m'.expd s true }

/-! ### `Lss` -/

/-- dtastar.hpp:225-229 `F::pred` -/
def flt (x y : ℚ × ℚ) : Bool := if x.1 = y.1 then decide (x.2 > y.2) else decide (x.1 < y.1)

/-- What the order reads of a node. -/
def keyF (nd : Nat → Node S O) (n : Nat) : ℚ × ℚ := ((nd n).f, (nd n).g)

/-- geom2d.hpp:25-27 `doubleeq` of finite numbers -/
def eqThr (P : Par S O) (a b : ℚ) : Bool := decide (|a - b| < P.thr)

/-- dtastar.hpp:232-245: the constructor.  The root is not in the table `nodes`. -/
def Tree.make (P : Par S O) (cur root : S) (c : ℚ) (o : O) (m : Graph S) : Outcome (Tree S O) :=
  let nd : Nat → Node S O := fun _ => ⟨root, none, c, c + m.h root, o, false, false⟩
  if c + m.h root + P.thr < m.h cur then .fatal
  else .ok
    { root := root, op := o, g0 := c, nd := nd, next := 1, tab := fun _ => none
      q := BinHeap.push (BinHeap.predOf flt (keyF nd)) ⟨[], fun _ => -1⟩ 0, nclosed := 0
      goal := if P.d.goal root = true then some 0 else none }

/-- dtastar.hpp:270: the edge leads to the current state, or back to the parent. -/
def skip (cur : S) (x : Tree S O) (s : Nat) (k : S) : Bool :=
  decide (k = cur) || match (x.nd s).par with
    | none => false
    | some p => decide ((x.nd p).st = k)

/-- dtastar.hpp:300-301: the cheapest goal that was generated. -/
def setGoal (P : Par S O) (i : Nat) (x : Tree S O) : Tree S O :=
  match x.goal with
  | none => if P.d.goal (x.nd i).st = true then { x with goal := some i } else x
  | some j => if P.d.goal (x.nd i).st = true ∧ (x.nd i).g < (x.nd j).g then { x with goal := some i } else x

/-- dtastar.hpp:288-301: node `i` is reached through node `s`; `cl` and `up` are its flags. -/
def improve (P : Par S O) (cur : S) (s i : Nat) (o : O) (k : S) (c : ℚ) (cl up : Bool) (x : Tree S O) (m : Graph S) : Outcome (Tree S O) :=
  let g := (x.nd s).g + c
  let h := max (m.h k) (m.h (x.nd s).st - c)
  if m.h k < 0 ∨ h < 0 ∨ g < 0 ∨ g + h + P.thr < (x.nd s).f ∨ g + h + P.thr < m.h cur then .fatal
  else
    let nd := Function.update x.nd i ⟨k, some s, g, g + h, o, cl, up⟩
    (pushupd flt (keyF nd) x.q i).map fun q => setGoal P i { x with nd := nd, q := q }

/-- dtastar.hpp:269-302: the loop body over the edges. -/
def relax (P : Par S O) (cur : S) (s : Nat) (o : O) (y : Tree S O × Graph S) : Outcome (Tree S O × Graph S) :=
  let k := P.d.app (y.1.nd s).st o
  let c := P.d.cost (y.1.nd s).st o
  if skip cur y.1 s k = true then .ok y
  else
    let m := { y.2 with h := Function.update y.2.h k (max (y.2.h k) (y.2.h (y.1.nd s).st - c)) }
    if m.h k < 0 then .fatal
    else
      match y.1.tab k with
      | none =>
        (improve P cur s y.1.next o k c false false
          { y.1 with next := y.1.next + 1, tab := Function.update y.1.tab k (some y.1.next) } m).map fun x => (x, m)
      | some i =>
        if (y.1.nd i).g ≤ (y.1.nd s).g + c then .ok (y.1, m)
        else (improve P cur s i o k c (y.1.nd i).closed (y.1.nd i).updated y.1 m).map fun x => (x, m)

/-- The loop dtastar.hpp:269-302. -/
def relaxAll (P : Par S O) (cur : S) (s : Nat) : List O → Tree S O × Graph S → Outcome (Tree S O × Graph S)
  | [], y => .ok y
  | o :: os, y => (relax P cur s o y).bind (relaxAll P cur s os)

/-- dtastar.hpp:259-260: the popped node is closed. -/
def close (s : Nat) (x : Tree S O) : Tree S O :=
  { x with
    nclosed := if (x.nd s).closed then x.nclosed else x.nclosed + 1
    nd := Function.update x.nd s { x.nd s with closed := true } }

/-- `goal && goal->closed` -/
def goalClosed (x : Tree S O) : Bool :=
  match x.goal with
  | none => false
  | some j => (x.nd j).closed

/-- dtastar.hpp:263-264: the two assertions when a goal is popped. -/
def goalOk (P : Par S O) (s : Nat) (x : Tree S O) : Bool :=
  match x.goal with
  | none => false
  | some j => decide (j = s) || eqThr P (x.nd j).g (x.nd s).g

/-- The loop dtastar.hpp:256-303; the first argument is how many more nodes may be expanded. -/
def expandLoop (P : Par S O) (cur : S) : Nat → Tree S O × Graph S → Outcome (Tree S O × Graph S)
  | 0, y => .ok y
  | k + 1, y =>
    if y.1.q.data.isEmpty = true then .ok y
    else if y.2.lim P = true then .ok (y.1, y.2.call)
    else
      match BinHeap.pop (BinHeap.predOf flt (keyF y.1.nd)) y.1.q with
      | (none, _) => .ub
      | (some s, q) =>
        let x := close s { y.1 with q := q }
        if P.d.goal (x.nd s).st = true then if goalOk P s x = true then .ok (x, y.2.call) else .fatal
        else (relaxAll P cur s (P.d.ops (x.nd s).st) (x, succs P (x.nd s).st y.2.call)).bind (expandLoop P cur k)

/-- dtastar.hpp:251-306 `expand`; the search does not use what it returns. -/
def expand (P : Par S O) (cur : S) (N : Nat) (y : Tree S O × Graph S) : Outcome (Tree S O × Graph S) :=
  if y.1.q.data.isEmpty = true ∨ goalClosed y.1 = true then .ok y else expandLoop P cur N y

/-- dtastar.hpp:357-364 `fg` -/
def fg (x : Tree S O) : WithTop ℚ × WithTop ℚ :=
  match x.q.data with
  | n :: _ => (((x.nd n).f : WithTop ℚ), ((x.nd n).g : WithTop ℚ))
  | [] =>
    match x.goal with
    | none => (⊤, ⊤)
    | some j => (((x.nd j).g : WithTop ℚ), ((x.nd j).g : WithTop ℚ))

/-- dtastar.hpp:337-341: predecessor `e` of node `s` gets a value. -/
def learnEdge (s : Nat) (e : S × ℚ) (z : Tree S O × (S → ℚ) × BinHeap.Heap Nat) : Outcome (Tree S O × (S → ℚ) × BinHeap.Heap Nat) :=
  match z.1.tab e.1 with
  | none => .ok z
  | some p =>
    if (z.1.nd p).closed = false then .ok z
    else
      let v := z.2.1 (z.1.nd s).st + e.2
      if (z.1.nd p).updated = false ∨ v < z.2.1 e.1 then
        let h := Function.update z.2.1 e.1 v
        let nd := Function.update z.1.nd p { z.1.nd p with updated := true }
        (pushupd hlt (fun n => h (nd n).st) z.2.2 p).map fun q => ({ z.1 with nd := nd }, h, q)
      else .ok z

/-- The loop dtastar.hpp:333-342. -/
def learnEdges (s : Nat) : List (S × ℚ) → Tree S O × (S → ℚ) × BinHeap.Heap Nat → Outcome (Tree S O × (S → ℚ) × BinHeap.Heap Nat)
  | [], z => .ok z
  | e :: es, z => (learnEdge s e z).bind (learnEdges s es)

/-- The loop dtastar.hpp:326-343. -/
def learnLoop (preds : S → List (S × ℚ)) : Nat → Tree S O × (S → ℚ) × BinHeap.Heap Nat → Outcome (Tree S O × (S → ℚ))
  | 0, _ => .nofuel
  | fuel + 1, z =>
    if z.1.nclosed = 0 ∨ z.2.2.data.isEmpty = true then .ok (z.1, z.2.1)
    else
      match BinHeap.pop (BinHeap.predOf hlt fun n => z.2.1 (z.1.nd n).st) z.2.2 with
      | (none, _) => .ub
      | (some s, q) =>
        let x : Tree S O :=
          { z.1 with
            nclosed := if (z.1.nd s).closed then z.1.nclosed - 1 else z.1.nclosed
            nd := Function.update z.1.nd s { z.1.nd s with closed := false } }
        (learnEdges s (preds (x.nd s).st) (x, z.2.1, q)).bind (learnLoop preds fuel)

/-- dtastar.hpp:321-344 `learn`.  No node is popped twice: a node that is not closed is not pushed. -/
def learn (x : Tree S O) (m : Graph S) : Outcome (Tree S O × Graph S) :=
  (learnLoop m.preds (x.next + 1)
    (x, m.h, BinHeap.append (BinHeap.predOf hlt fun n => m.h (x.nd n).st) ⟨[], fun _ => -1⟩ x.q.data)).map
    fun r => (r.1, { m with h := r.2 })

/-! ### `step` -/

/-- The state of a step: the searches, the heap of them, and the graph. -/
structure Step (S O : Type*) where
  xs : List (Tree S O)
  hq : BinHeap.Heap Nat
  m : Graph S

/-- dtastar.hpp:349-355 `Lss::pred` -/
def lssLt (a b : WithTop ℚ × WithTop ℚ) : Bool := if a.1 = b.1 then decide (b.2 < a.2) else decide (a.1 < b.1)

/-- What the order reads of a search. -/
def keyL (xs : List (Tree S O)) (i : Nat) : WithTop ℚ × WithTop ℚ := (xs[i]?).elim (⊤, ⊤) fg

/-- dtastar.hpp:554-558: a search for every operator. -/
def begin (P : Par S O) (cur : S) : List O → Step S O → Outcome (Step S O)
  | [], t => .ok t
  | o :: os, t =>
    let k := P.d.app cur o
    let c := P.d.cost cur o
    let m := { t.m with h := Function.update t.m.h k (max (t.m.h k) (t.m.h cur - c)) }
    if m.h k + c + P.thr < m.h cur then .fatal
    else
      (Tree.make P cur k c o m).bind fun x =>
      begin P cur os ⟨t.xs ++ [x], BinHeap.push (BinHeap.predOf lssLt (keyL (t.xs ++ [x]))) t.hq t.xs.length, m⟩

/-- dtastar.hpp:564-572: up to `grainsize` expansions; `n` is the number of the step, `i` that of the test of `lsslim`.
It returns `lssstop` too, and the number of the next test. -/
def grainLoop (P : Par S O) (cur : S) (n : Nat) : Nat → Nat → Step S O → Outcome (Step S O × Bool × Nat)
  | 0, i, t => .ok (t, false, i)
  | e + 1, i, t =>
    if P.stop n i = true then .ok (t, true, i + 1)
    else if t.m.lim P = true then .ok ({ t with m := t.m.call }, false, i + 1)
    else
      match BinHeap.front t.hq with
      | none => .ub
      | some j =>
        match t.xs[j]? with
        | none => .ub
        | some l =>
          if goalClosed l = true then .ok ({ t with m := t.m.call }, false, i + 1)
          else
            (expand P cur 1 (l, t.m.call)).bind fun y =>
            let xs := t.xs.set j y.1
            (BinHeap.update (BinHeap.predOf lssLt (keyL xs)) t.hq 0).bind fun hq => grainLoop P cur n e (i + 1) ⟨xs, hq, y.2⟩

/-- What `keepGoing` reads of the open nodes. -/
def onodes (x : Tree S O) (h : S → ℚ) : List ONode := x.q.data.map fun n => ⟨(x.nd n).f, (x.nd n).g, h (x.nd n).st⟩

/-- `!F::pred(b, a)`: `a` may come before `b`. -/
def ole (a b : ONode) : Prop := fpred b a = false

instance : DecidableRel ole := fun a b => inferInstanceAs (Decidable (fpred b a = false))

/-- dtastar.hpp:600-686 `keepGoing`: the decision, and the heap of the searches. -/
def keepGoing (P : Par S O) (t : Step S O) : Outcome (Bool × BinHeap.Heap Nat) :=
  if t.hq.data.length = 1 then .ok (false, t.hq)
  else
    let pr := BinHeap.predOf lssLt (keyL t.xs)
    match BinHeap.pop pr t.hq with
    | (none, _) => .ub
    | (some b, q) =>
      match BinHeap.pop pr q with
      | (none, _) => .ub
      | (some c, q) =>
        match t.xs[b]? with
        | none => .ub
        | some best =>
          (decideGo ⟨P.T, P.wt * P.spg t.m.calls / P.wf, P.br, P.thr⟩ ((onodes best t.m.h).insertionSort ole)
            (keyL t.xs c).1).map fun go => (go, BinHeap.push pr (BinHeap.push pr q b) c)

/-- dtastar.hpp:562-578: the loop over the grains. -/
def grains (P : Par S O) (cur : S) (n : Nat) : Nat → Nat → Step S O → Outcome (Step S O)
  | 0, _, _ => .nofuel
  | fuel + 1, i, t =>
    (grainLoop P cur n P.grain i t).bind fun r =>
    if r.1.m.lim P = true then .ok { r.1 with m := r.1.m.call }
    else
      match BinHeap.front r.1.hq with
      | none => .ub
      | some j =>
        match r.1.xs[j]? with
        | none => .ub
        | some l =>
          if l.goal.isSome = true then .ok { r.1 with m := r.1.m.call }
          else if r.2.1 = true then .ok { r.1 with m := r.1.m.call }
          else
            (keepGoing P { r.1 with m := r.1.m.call }).bind fun k =>
            if k.1 = true then grains P cur n fuel r.2.2 { r.1 with hq := k.2, m := r.1.m.call }
            else .ok { r.1 with hq := k.2, m := r.1.m.call }

/-- dtastar.hpp:583-584: the searches learn, in the order of the heap. -/
def learnAll : List Nat → Step S O → Outcome (Step S O)
  | [], t => .ok t
  | j :: js, t =>
    match t.xs[j]? with
    | none => .ub
    | some x => (learn x t.m).bind fun r => learnAll js { t with xs := t.xs.set j r.1, m := r.2 }

/-- dtastar.hpp:582-586 -/
def learnStep (P : Par S O) (t : Step S O) : Outcome (Step S O) :=
  if P.full = true then
    (learnAll t.hq.data t).map fun t => { t with hq := BinHeap.reinit (BinHeap.predOf lssLt (keyL t.xs)) t.hq }
  else .ok t

/-- dtastar.hpp:588-592: the move, and the new value of the current state.  A run in which the
value of the current state becomes infinite (the best search has no open nodes and no goal) is not followed any further:
`nofuel`. -/
def finish (P : Par S O) (cur : S) (t : Step S O) : Outcome (S × O × Graph S) :=
  match BinHeap.front t.hq with
  | none => .ub
  | some j =>
    match t.xs[j]? with
    | none => .ub
    | some l =>
      match (fg l).1 with
      | ⊤ => .nofuel
      | (v : ℚ) => .ok (l.root, l.op, { t.m with h := Function.update t.m.h cur (v * if P.full = true then 1 else 11 / 10) })

/-- dtastar.hpp:552-598 `step`, the `n`-th. -/
def step (P : Par S O) (fuel : Nat) (n : Nat) (cur : S) (m : Graph S) : Outcome (S × O × Graph S) :=
  (begin P cur (P.d.ops cur) ⟨[], ⟨[], fun _ => -1⟩, succs P cur m⟩).bind fun t =>
  (grains P cur n fuel 0 t).bind fun t =>
  if P.fresh = true then .ub
  else (learnStep P t).bind (finish P cur)

/-! ### `search` -/

/-- The loop dtastar.hpp:518-524: the last state, the graph, the operators. -/
def loop (P : Par S O) (sf : Nat) : Nat → Nat → S → Graph S → List O → Outcome (S × Graph S × List O)
  | 0, _, _, _, _ => .nofuel
  | fuel + 1, n, cur, m, ops =>
    if P.d.goal cur = true then .ok (cur, m, ops)
    else if m.lim P = true then .ok (cur, m.call, ops)
    else (step P sf n cur m.call).bind fun r => loop P sf fuel (n + 1) r.1 r.2.2 (ops ++ [r.2.1])

/-- The graph before a search. -/
def graph0 (P : Par S O) : Graph S := ⟨P.h, fun _ => false, fun _ => [], 0, 0, 0⟩

/-- The result of a search: path and operators, goal first, and what was learned, with the statistics. -/
structure Res (S O : Type*) where
  path : List S
  ops : List O
  m : Graph S

/-- dtastar.hpp:511-548 `search`; `sf` and `fuel` bound the grains in a step and the steps. -/
def search (P : Par S O) (sf fuel : Nat) (s0 : S) : Outcome (Res S O) :=
  (loop P sf fuel 0 s0 (graph0 P) []).bind fun r =>
  if P.d.goal r.1 = false then .ok ⟨[], [], r.2.1⟩
  else
    match P.stale with
    | none => .ub
    | some false => .fatal
    | some true =>
      if P.d.goal ((s0 :: Lss.rebuild P.d s0 r.2.2).getLast (List.cons_ne_nil _ _)) = true then
        .ok ⟨(s0 :: Lss.rebuild P.d s0 r.2.2).reverse, r.2.2.reverse, r.2.1⟩
      else .fatal

end Model

end Verif.Dta
