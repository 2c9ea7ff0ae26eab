import Verif.Search.OpenImpl

/-!
# Model of search/lsslrtastar.hpp (local search space learning real-time A*)

* Costs and heuristic values, `double` in the nodes, are elements of a linearly ordered group: no rounding, and
  `geom2d::doubleeq` (a comparison up to 1.5e-8, lsslrtastar.hpp:143) is equality.  No cost is -1, which `outedge` reads
  as infinity (45-46).
* A `Node` is named by its state, because `Nodes::get` (97-112) returns one node per state: its fields `h`, `expd` and
  `preds` are functions of the state; `horig` is the heuristic; `succs` are the operators again.  The tables `nodes` and
  `lssNodes` are finite maps, which is what a hash table is (C06).  The tables are never told the domain (`init` of
  closedlist.hpp:40 is not called): the model is about domains that do not need it for `hash` and `eq`.
* `LssNode`s are numbered in the order of allocation.
* `lim` is the limit test: any function of the statistics and of the number of calls of `limit()` so far.
  `look k` is how many nodes the `k`-th local search may expand: a constant for `ExpansionLimit` (514-537), any
  sequence for `MaxTimeLimit`.
* `order n` is the order in which `n` nodes are found in the table `lssNodes`.
* Times are not modelled.
* `bonus s` is added to `f` when two nodes are compared.  It is 0 in LSS-LRTA*: then the order is `FSort::pred`
  (`flt_fsort`).  `Search/Fhat`, where the same local searches are done in another order, makes use of it.
-/

namespace Verif.Lss

open Verif.Search

variable {S O C : Type*}

/-- The parameters of a search; `wt c` is `weight * c`. -/
structure Par (S O C : Type*) where
  d : Dom S O C
  h : S → C
  lim : Nat → Nat → Nat → Bool
  look : Nat → Nat
  wt : C → C
  onestep : Bool
  complete : Bool
  order : Nat → List Nat
  bonus : S → C

/-- What is kept from one local search to the next: the fields of the nodes (58-81), the statistics, and the number of
limit tests done. -/
structure Mem (S C : Type*) where
  h : S → C
  expd : S → Bool
  preds : S → List (S × C)
  nexpd : Nat
  gend : Nat
  dups : Nat
  calls : Nat

/-- lsslrtastar.hpp:118-172 `LssNode`; `openind` is in the heap, `updated` in `Learn`. -/
structure LNode (S O C : Type*) where
  st : S
  par : Option Nat
  g : C
  f : C
  op : O
  closed : Bool

/-- The state of a local search. -/
structure L (S O C : Type*) where
  m : Mem S C
  nd : Nat → LNode S O C
  next : Nat
  tab : S → Option Nat
  q : BinHeap.Heap Nat
  nclosed : Nat
  goal : Option Nat

section Model
variable [DecidableEq S] [AddCommGroup C] [LinearOrder C]

/-- The limit test. -/
def Mem.lim (P : Par S O C) (m : Mem S C) : Bool := P.lim m.nexpd m.gend m.calls

/-- A limit test has been done. -/
def Mem.call (m : Mem S C) : Mem S C := { m with calls := m.calls + 1 }

/-! ### `expand` (475-498) -/

/-- lsslrtastar.hpp:487-493: the loop body of `expand`. -/
def expandOp (P : Par S O C) (s : S) (m : Mem S C) (o : O) : Mem S C :=
  let k := P.d.app s o
  { m with
    gend := m.gend + 1
    preds := Function.update m.preds k (m.preds k ++ [(s, P.d.cost s o)])
    h := Function.update m.h k (max (m.h k) (m.h s - P.d.cost s o)) }

/-- lsslrtastar.hpp:475-498 `expand`; the edges returned are those of `P.d.ops s`. -/
def expandNode (P : Par S O C) (s : S) (m : Mem S C) : Mem S C :=
  if m.expd s = true then m
  else
    let m' := (P.d.ops s).foldl (expandOp P s) { m with nexpd := m.nexpd + 1 }
    { m' with expd := Function.update m'.expd s true }

/-! ### `expandLss` (303-362) -/

/-- lsslrtastar.hpp:142-146 `FSort::pred` on `f` and `g`, after a comparison of `f` with the bonus. -/
def flt (x y : C × C × C) : Bool :=
  if x.1 = y.1 then if x.2.1 = y.2.1 then decide (x.2.2 > y.2.2) else decide (x.2.1 < y.2.1) else decide (x.1 < y.1)

/-- What the order reads of a node. -/
def keyF (P : Par S O C) (nd : Nat → LNode S O C) (n : Nat) : C × C × C :=
  ((nd n).f + P.bonus (nd n).st, (nd n).f, (nd n).g)

/-- Without a bonus this is `FSort::pred`: by `f`, and by greater `g` if they are equal. -/
theorem flt_fsort {P : Par S O C} (hb : ∀ s, P.bonus s = 0) (nd : Nat → LNode S O C) (i j : Nat) :
    flt (keyF P nd i) (keyF P nd j) =
      if (nd i).f = (nd j).f then decide ((nd i).g > (nd j).g) else decide ((nd i).f < (nd j).f) := by
  simp only [flt, keyF, hb, add_zero]
  split <;> rfl

/-- binheap.hpp:65-70 `pushupdate`, with the recorded index. -/
def pushupd {κ : Type*} (lt : κ → κ → Bool) (key : Nat → κ) (q : BinHeap.Heap Nat) (n : Nat) :
    Outcome (BinHeap.Heap Nat) := BinHeap.pushupdate (BinHeap.predOf lt key) q n (q.ind n)

/-- lsslrtastar.hpp:350-351: the cheapest goal generated. -/
def setGoal (P : Par S O C) (i : Nat) (x : L S O C) : L S O C :=
  if P.d.goal (x.nd i).st = true ∧ (∀ j, x.goal = some j → (x.nd i).g < (x.nd j).g) then { x with goal := some i } else x

instance decGoal (x : L S O C) (i : Nat) : Decidable (∀ j, x.goal = some j → (x.nd i).g < (x.nd j).g) :=
  match h : x.goal with
  | none => .isTrue (by simp)
  | some j => decidable_of_iff ((x.nd i).g < (x.nd j).g) (by simp)

/-- lsslrtastar.hpp:342-349: node `i` is now reached through node `s`. -/
def setNode (x : L S O C) (s i : Nat) (k : S) (c : C) (o : O) (cl : Bool) : Nat → LNode S O C :=
  Function.update x.nd i ⟨k, some s, (x.nd s).g + c, (x.nd s).g + c + x.m.h k, o, cl⟩

/-- The node `s` is not expanded towards its parent (329-330). -/
def toParent (x : L S O C) (s : Nat) (k : S) : Bool :=
  match (x.nd s).par with
  | none => false
  | some p => decide ((x.nd p).st = k)

/-- lsslrtastar.hpp:327-352: the loop body over the edges.  A new node has `g = Infinity`, so it is always improved. -/
def relax (P : Par S O C) (s : Nat) (o : O) (x : L S O C) : Outcome (L S O C) :=
  let k := P.d.app (x.nd s).st o
  let c := P.d.cost (x.nd s).st o
  if toParent x s k = true then .ok x
  else
    match x.tab k with
    | none =>
      let nd := setNode x s x.next k c o false
      (pushupd flt (keyF P nd) x.q x.next).map fun q =>
        setGoal P x.next { x with nd := nd, next := x.next + 1, tab := Function.update x.tab k (some x.next), q := q }
    | some i =>
      if (x.nd s).g + c < (x.nd i).g then
        let nd := setNode x s i k c o (x.nd i).closed
        (pushupd flt (keyF P nd) x.q i).map fun q =>
          setGoal P i { x with
            nd := nd, q := q
            m := { x.m with dups := if (x.nd i).par.isSome then x.m.dups + 1 else x.m.dups } }
      else .ok (setGoal P i x)

/-- The loop lsslrtastar.hpp:327-352. -/
def relaxAll (P : Par S O C) (s : Nat) : List O → L S O C → Outcome (L S O C)
  | [], x => .ok x
  | o :: os, x => (relax P s o x).bind (relaxAll P s os)

/-- lsslrtastar.hpp:324-325: the popped node is closed. -/
def closeNode (s : Nat) (x : L S O C) : L S O C :=
  { x with
    nclosed := if (x.nd s).closed then x.nclosed else x.nclosed + 1
    nd := Function.update x.nd s { x.nd s with closed := true } }

/-- lsslrtastar.hpp:324-352: a popped node is expanded. -/
def lssExpand (P : Par S O C) (s : Nat) (x : L S O C) : Outcome (L S O C) :=
  let x := closeNode s x
  relaxAll P s (P.d.ops (x.nd s).st) { x with m := expandNode P (x.nd s).st x.m }

/-- The loop lsslrtastar.hpp:320-360; the argument is how many more nodes may be expanded. -/
def lssLoop (P : Par S O C) : Nat → L S O C → Outcome (L S O C)
  | 0, x => .ok x
  | k + 1, x =>
    if x.q.data.isEmpty = true then .ok x
    else if x.m.lim P = true then .ok { x with m := x.m.call }
    else
      match BinHeap.pop (BinHeap.predOf flt (keyF P x.nd)) x.q with
      | (none, _) => .ub
      | (some s, q) =>
        (lssExpand P s { x with m := x.m.call, q := q }).bind fun y =>
        if P.d.goal (y.nd s).st = true then
          .ok { y with q := BinHeap.push (BinHeap.predOf flt (keyF P y.nd)) y.q s, goal := some s }
        else lssLoop P k y

/-- lsslrtastar.hpp:304-318: the start of a local search. -/
def lssInit (P : Par S O C) (r : S) (m : Mem S C) : L S O C :=
  let nd : Nat → LNode S O C := fun _ => ⟨r, none, 0, m.h r, P.d.nop, false⟩
  { m := m, nd := nd, next := 1, tab := Function.update (fun _ => none) r (some 0)
    q := BinHeap.push (BinHeap.predOf flt (keyF P nd)) ⟨[], fun _ => -1⟩ 0, nclosed := 0, goal := none }

/-- lsslrtastar.hpp:303-362 `expandLss`. -/
def expandLss (P : Par S O C) (k : Nat) (r : S) (m : Mem S C) : Outcome (L S O C) :=
  lssLoop P (P.look k) (lssInit P r m)

/-! ### `hCostLearning` (364-397) -/

/-- The local variables of `hCostLearning`, the heuristic values, and the flags `updated` of the nodes. -/
structure Learn (S C : Type*) where
  h : S → C
  upd : Nat → Bool
  q : BinHeap.Heap Nat
  nclosed : Nat
  updated : List S

/-- lsslrtastar.hpp:155-157 `HSort::pred` -/
def hlt (x y : C) : Bool := decide (x < y)

/-- lsslrtastar.hpp:377-391: one predecessor of node `s`. -/
def learnEdge (P : Par S O C) (x : L S O C) (s : Nat) (e : S × C) (y : Learn S C) : Outcome (Learn S C) :=
  match x.tab e.1 with
  | none => .ok y
  | some sp =>
    if (x.nd sp).closed = false then .ok y
    else
      let backup := P.wt e.2 + y.h (x.nd s).st
      if y.upd sp = false ∨ backup < y.h e.1 then
        let h := Function.update y.h e.1 backup
        (pushupd hlt (fun n => h (x.nd n).st) y.q sp).map fun q =>
          { y with
            h := h, q := q, upd := Function.update y.upd sp true
            updated := if y.upd sp = false then y.updated ++ [e.1] else y.updated }
      else .ok y

/-- The loop lsslrtastar.hpp:376-392. -/
def learnEdges (P : Par S O C) (x : L S O C) (s : Nat) : List (S × C) → Learn S C → Outcome (Learn S C)
  | [], y => .ok y
  | e :: es, y => (learnEdge P x s e y).bind (learnEdges P x s es)

/-- The loop lsslrtastar.hpp:371-393. -/
def learnLoop (P : Par S O C) (x : L S O C) : Nat → Learn S C → Outcome (Learn S C)
  | 0, _ => .nofuel
  | fuel + 1, y =>
    if y.nclosed = 0 ∨ y.q.data.isEmpty = true then .ok y
    else
      match BinHeap.pop (BinHeap.predOf hlt fun n => y.h (x.nd n).st) y.q with
      | (none, _) => .ub
      | (some s, q) =>
        (learnEdges P x s (x.m.preds (x.nd s).st)
          { y with q := q, nclosed := if (x.nd s).closed then y.nclosed - 1 else y.nclosed }).bind (learnLoop P x fuel)

/-- lsslrtastar.hpp:365-369: the second heap has the nodes of the first; both write the same index fields. -/
def learnInit (x : L S O C) : Learn S C :=
  { h := x.m.h, upd := fun _ => false
    q := BinHeap.append (BinHeap.predOf hlt fun n => x.m.h (x.nd n).st) ⟨[], x.q.ind⟩ x.q.data
    nclosed := x.nclosed, updated := [] }

/-- lsslrtastar.hpp:395-396 -/
def learnMax (P : Par S O C) (y : Learn S C) : S → C :=
  y.updated.foldl (fun h s => Function.update h s (max (h s) (P.h s))) y.h

/-- lsslrtastar.hpp:364-397 `hCostLearning`.  There are no more iterations than nodes. -/
def learn (P : Par S O C) (x : L S O C) : Outcome (S → C) :=
  (learnLoop P x (x.next + 1) (learnInit x)).map (learnMax P)

/-! ### `move` (399-473) -/

/-- lsslrtastar.hpp:444-449: one node of the open list. -/
def bestOpen (P : Par S O C) (x : L S O C) (cur : S) (best : Option Nat) (n : Nat) : Option Nat :=
  if (x.nd n).st = cur then best
  else
    match best with
    | none => some n
    | some b => if flt (keyF P x.nd n) (keyF P x.nd b) = true then some n else some b

/-- lsslrtastar.hpp:427-438: one node of the table; `layer` and `best`. -/
def bestLayer (P : Par S O C) (x : L S O C) (cur : S) (minf : C) (lb : C × Option Nat) (n : Nat) : C × Option Nat :=
  if (x.nd n).st = cur ∨ (x.nd n).closed = false ∨ (x.nd n).f = minf ∨ (x.nd n).f < lb.1 then lb
  else
    let lb := if lb.1 < (x.nd n).f then ((x.nd n).f, some n) else lb
    if (x.nd n).f = lb.1 then
      match lb.2 with
      | none => (lb.1, some n)
      | some b => if flt (keyF P x.nd n) (keyF P x.nd b) = true then (lb.1, some n) else lb
    else lb

/-- lsslrtastar.hpp:402-450: the node to move to. -/
def bestNode (P : Par S O C) (x : L S O C) (cur : S) : Outcome (Option Nat) :=
  match x.goal with
  | some g => .ok (some g)
  | none =>
    let rest := x.q.data.foldl (bestOpen P x cur) none
    if P.complete = true then
      match x.q.data with
      | [] => .ub
      | b :: _ =>
        match ((P.order x.next).foldl (bestLayer P x cur (x.nd b).f) (0, none)).2 with
        | some n => .ok (some n)
        | none => .ok rest
    else .ok rest

/-- lsslrtastar.hpp:453-459: the nodes from `p` up to the one below the node of `cur`. -/
def follow (nd : Nat → LNode S O C) (cur : S) (best : Nat) : Nat → Nat → Outcome (List Nat)
  | 0, _ => .nofuel
  | fuel + 1, p =>
    if (nd p).st = cur then .ok []
    else if (nd p).par = some best then .fatal
    else
      match (nd p).par with
      | none => .ub
      | some p' => (follow nd cur best fuel p').map (p :: ·)

/-- lsslrtastar.hpp:399-473 `move`: the next state and the operators that lead to it. -/
def move (P : Par S O C) (x : L S O C) (cur : S) : Outcome (S × List O) :=
  (bestNode P x cur).bind fun best =>
  match best with
  | none => .fatal
  | some b =>
    if (x.nd b).st = cur then .fatal
    else
      (follow x.nd cur b (x.next + 1) b).bind fun ns =>
      match ns.getLast? with
      | none => .fatal
      | some q =>
        if P.onestep = true then .ok ((x.nd q).st, [(x.nd q).op])
        else .ok ((x.nd b).st, (ns.map fun n => (x.nd n).op).reverse)

/-! ### `search` (218-257) -/

/-- lsslrtastar.hpp:226-234: one iteration.  The state, the heuristic values and the operators; no operator if the limit
is reached. -/
def iter (P : Par S O C) (k : Nat) (cur : S) (m : Mem S C) : Outcome (S × Mem S C × Option (List O)) :=
  (expandLss P k cur m).bind fun x =>
  if x.m.lim P = true then .ok (cur, x.m.call, none)
  else
    (if x.goal = none then learn P x else .ok x.m.h).bind fun h =>
    (move P x cur).map fun r => (r.1, { x.m.call with h := h }, some r.2)

/-- The loop lsslrtastar.hpp:225-239: the last state, the operators, and their numbers per step (`lengths`). -/
def loop (P : Par S O C) : Nat → Nat → S → Mem S C → List O → List Nat → Outcome (S × Mem S C × List O × List Nat)
  | 0, _, _, _, _, _ => .nofuel
  | fuel + 1, k, cur, m, ops, lens =>
    if P.d.goal cur = true then .ok (cur, m, ops, lens)
    else if m.lim P = true then .ok (cur, m.call, ops, lens)
    else
      (iter P k cur m.call).bind fun r =>
      match r.2.2 with
      | none => .ok (r.1, r.2.1, ops, lens)
      | some os => loop P fuel (k + 1) r.1 r.2.1 (ops ++ os) (lens ++ [os.length])

/-- lsslrtastar.hpp:250-254: the states on the way. -/
def rebuild (d : Dom S O C) : S → List O → List S
  | _, [] => []
  | s, o :: os => d.app s o :: rebuild d (d.app s o) os

/-- The nodes before a search. -/
def mem0 (P : Par S O C) : Mem S C := ⟨P.h, fun _ => false, fun _ => [], 0, 0, 0, 0⟩

/-- The result of a search: path and operators, goal first; the learned values and statistics; the lengths of the steps. -/
structure Res (S O C : Type*) where
  path : List S
  ops : List O
  m : Mem S C
  lens : List Nat

/-- lsslrtastar.hpp:218-257 `search`. -/
def search (P : Par S O C) (fuel : Nat) (s0 : S) : Outcome (Res S O C) :=
  (loop P fuel 0 s0 (mem0 P) [] []).map fun r =>
    if P.d.goal r.1 = false then ⟨[], [], r.2.1, r.2.2.2⟩
    else ⟨(s0 :: rebuild P.d s0 r.2.2.1).reverse, r.2.2.1.reverse, r.2.1, r.2.2.2⟩

end Model

end Verif.Lss
