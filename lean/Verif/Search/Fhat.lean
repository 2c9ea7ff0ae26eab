import Verif.Search.LssInv
import Mathlib.Algebra.Order.Field.Basic
import Mathlib.Tactic.Linarith
import Mathlib.Tactic.FieldSimp
import Mathlib.Tactic.Ring

/-!
# Model of search/fhatlrtastar.hpp (f̂-LRTA*)

The search is LSS-LRTA* (`Search/Lss`) with another order of the open list: `fhat` is `f` plus a correction that is made up of
the error of one step of the heuristic, as it was in the last local search, and an estimate of how many steps there are to
a goal.

* The conventions of `Search/Lss` hold: a node is named by its state, there is no rounding, `geom2d::doubleeq` is equality,
  tables are finite maps, times are not modelled.  Costs are elements of a linearly ordered field.
* Functions that are line for line those of lsslrtastar.hpp are not repeated: `expand` (453-474) is `Lss.expandNode`, the
  selection of a node and the way to it in `move` (416-450) are `Lss.move` without the option `complete`.
* `kid->fhat` (339-341) is `g + h + herror * (derr / (1 - derror))`, that is, `f` plus `bonus`; `derr` of a node and the two
  errors change only between local searches, so that the order of one local search is that of `Lss.flt` with this bonus.  The
  root has no `fhat`; it is never compared with another node, because it is alone in the heap when it is popped, and it is
  never pushed again.
* A new `LssNode` has no parent: its constructor (113-114) does not set one, and line 333 reads it.  `junk` is what is read:
  `none`, reading it is undefined behaviour; `some J`, the `i`-th node has a parent that is not 0 if `J i`.
-/

namespace Verif.Fhat

open Verif.Search Verif.Lss

variable {S O C : Type*}

/-- The parameters of a search.  `dist` is the domain's `d`, `thr` is `geom2d::Threshold`. -/
structure FPar (S O C : Type*) where
  d : Dom S O C
  h : S → C
  dist : S → C
  lim : Nat → Nat → Nat → Bool
  look : Nat → Nat
  onestep : Bool
  thr : C
  junk : Option (Nat → Bool)

/-- The parameters of the local searches: weight 1, no option `complete`, and the order of a table does not matter. -/
def FPar.par (P : FPar S O C) (b : S → C) : Lss.Par S O C :=
  ⟨P.d, P.h, P.lim, P.look, id, P.onestep, false, List.range, b⟩

/-- What is kept from one local search to the next: fhatlrtastar.hpp:55-61 (`derr` and `d` are new), 481-482, and
the statistics.  `xdups` are the duplicates that were counted because of what was read from a new node, `made` the
number of new nodes so far. -/
structure FMem (S C : Type*) where
  m : Mem S C
  derr : S → C
  dd : S → C
  herror : C
  derror : C
  made : Nat
  xdups : Nat

/-- The state of a local search, with `herrnext`, `derrnext` and `exp`. -/
structure T (S O C : Type*) where
  x : L S O C
  hn : C
  dn : C
  exp : Nat
  made : Nat
  xdups : Nat

section Model
variable [DecidableEq S] [Field C] [LinearOrder C]

/-- fhatlrtastar.hpp:339-341: what is added to `f`. -/
def FMem.bonus (F : FMem S C) (s : S) : C := F.herror * (F.derr s / (1 - F.derror))

/-! ### `expandLss` (288-379) -/

/-- fhatlrtastar.hpp:333-334 for a node that was not in the table. -/
def readParent (P : FPar S O C) (t : T S O C) (k : S) : Outcome (T S O C) :=
  match t.x.tab k with
  | some _ => .ok t
  | none =>
    match P.junk with
    | none => .ub
    | some J => .ok { t with made := t.made + 1, xdups := if J t.made = true then t.xdups + 1 else t.xdups }

/-- fhatlrtastar.hpp:349-350: the child with the least `f`, the first one if there are several. -/
def better (y : L S O C) (best kid : Option Nat) : Option Nat :=
  match best, kid with
  | best, none => best
  | none, some i => some i
  | some j, some i => if (y.nd i).f < (y.nd j).f then some i else some j

/-- fhatlrtastar.hpp:319-350: the loop body over the edges. -/
def relaxT (P : FPar S O C) (b : S → C) (s : Nat) (o : O) (r : T S O C × Option Nat) : Outcome (T S O C × Option Nat) :=
  let k := P.d.app (r.1.x.nd s).st o
  if toParent r.1.x s k = true then .ok r
  else
    (readParent P r.1 k).bind fun t =>
    (relax (P.par b) s o t.x).map fun y => ({ t with x := y }, better y r.2 (y.tab k))

/-- The loop fhatlrtastar.hpp:318-351. -/
def relaxAllT (P : FPar S O C) (b : S → C) (s : Nat) : List O → T S O C × Option Nat → Outcome (T S O C × Option Nat)
  | [], r => .ok r
  | o :: os, r => (relaxT P b s o r).bind (relaxAllT P b s os)

/-- fhatlrtastar.hpp:360-364: the error of `d` in one step. -/
def stepErr (thr e : C) : C := if e < 0 then 0 else if 1 ≤ e then 1 - thr else e

/-- fhatlrtastar.hpp:353-366: the mean errors are brought up to date. -/
def errors (P : FPar S O C) (dd : S → C) (s : Nat) (r : T S O C × Option Nat) : T S O C :=
  match r.2 with
  | none => r.1
  | some k =>
    let herr := (r.1.x.nd k).f - (r.1.x.nd s).f
    let herr := if herr < 0 then 0 else herr
    let derr := stepErr P.thr (dd (r.1.x.nd k).st + 1 - dd (r.1.x.nd s).st)
    { r.1 with
      hn := r.1.hn + (herr - r.1.hn) / (r.1.exp + 1 : Nat)
      dn := r.1.dn + (derr - r.1.dn) / (r.1.exp + 1 : Nat) }

/-- fhatlrtastar.hpp:313-366: a popped node is expanded. -/
def expandT (P : FPar S O C) (b dd : S → C) (s : Nat) (t : T S O C) : Outcome (T S O C) :=
  let x := closeNode s t.x
  (relaxAllT P b s (P.d.ops (x.nd s).st)
    ({ t with x := { x with m := expandNode (P.par b) (x.nd s).st x.m }, exp := t.exp + 1 }, none)).map (errors P dd s)

/-- The loop fhatlrtastar.hpp:310-373; the argument is how many more nodes may be expanded. -/
def loopT (P : FPar S O C) (b dd : S → C) : Nat → T S O C → Outcome (T S O C)
  | 0, t => .ok t
  | k + 1, t =>
    if t.x.q.data.isEmpty = true then .ok t
    else if t.x.m.lim (P.par b) = true then .ok { t with x := { t.x with m := t.x.m.call } }
    else
      match BinHeap.pop (BinHeap.predOf flt (keyF (P.par b) t.x.nd)) t.x.q with
      | (none, _) => .ub
      | (some s, q) =>
        (expandT P b dd s { t with x := { t.x with m := t.x.m.call, q := q } }).bind fun t =>
        if P.d.goal (t.x.nd s).st = true then
          .ok { t with x := { t.x with q := BinHeap.push (BinHeap.predOf flt (keyF (P.par b) t.x.nd)) t.x.q s, goal := some s } }
        else loopT P b dd k t

/-- fhatlrtastar.hpp:288-379 `expandLss`. -/
def expandF (P : FPar S O C) (k : Nat) (r : S) (F : FMem S C) : Outcome (T S O C) :=
  loopT P F.bonus F.dd (P.look k) ⟨lssInit (P.par F.bonus) r F.m, 0, 0, 0, F.made, F.xdups⟩

/-! ### `hCostLearning` (381-414) -/

/-- The state of the learning, with `derr` and `d` of the nodes. -/
structure FLearn (S C : Type*) where
  y : Learn S C
  derr : S → C
  dd : S → C

/-- fhatlrtastar.hpp:396-400: does predecessor `e` get a new value? -/
def learnTest (x : L S O C) (s : Nat) (e : S × C) (y : Learn S C) : Bool :=
  match x.tab e.1 with
  | none => false
  | some sp => (x.nd sp).closed && (!(y.upd sp) || decide (e.2 + y.h (x.nd s).st < y.h e.1))

/-- fhatlrtastar.hpp:394-408: one predecessor of node `s`. -/
def learnEdgeF (P : FPar S O C) (b : S → C) (x : L S O C) (s : Nat) (e : S × C) (r : FLearn S C) : Outcome (FLearn S C) :=
  (learnEdge (P.par b) x s e r.y).map fun y =>
    if learnTest x s e r.y = true then
      ⟨y, Function.update r.derr e.1 (r.derr (x.nd s).st), Function.update r.dd e.1 (r.dd (x.nd s).st + 1)⟩
    else { r with y := y }

/-- The loop fhatlrtastar.hpp:393-409. -/
def learnEdgesF (P : FPar S O C) (b : S → C) (x : L S O C) (s : Nat) : List (S × C) → FLearn S C → Outcome (FLearn S C)
  | [], r => .ok r
  | e :: es, r => (learnEdgeF P b x s e r).bind (learnEdgesF P b x s es)

/-- The loop fhatlrtastar.hpp:388-410. -/
def learnLoopF (P : FPar S O C) (b : S → C) (x : L S O C) : Nat → FLearn S C → Outcome (FLearn S C)
  | 0, _ => .nofuel
  | fuel + 1, r =>
    if r.y.nclosed = 0 ∨ r.y.q.data.isEmpty = true then .ok r
    else
      match BinHeap.pop (BinHeap.predOf hlt fun n => r.y.h (x.nd n).st) r.y.q with
      | (none, _) => .ub
      | (some s, q) =>
        (learnEdgesF P b x s (x.m.preds (x.nd s).st)
          { r with y := { r.y with q := q, nclosed := if (x.nd s).closed then r.y.nclosed - 1 else r.y.nclosed } }).bind
          (learnLoopF P b x fuel)

/-- fhatlrtastar.hpp:381-414 `hCostLearning`: `h`, `derr` and `d` of the nodes.  There are no more iterations than nodes: a
node that is not closed is popped at most once, and no more closed nodes are popped than there are. -/
def learnF (P : FPar S O C) (b : S → C) (x : L S O C) (derr dd : S → C) : Outcome ((S → C) × (S → C) × (S → C)) :=
  (learnLoopF P b x (x.next + 1) ⟨learnInit x, derr, dd⟩).map fun r => (learnMax (P.par b) r.y, r.derr, r.dd)

/-! ### `search` (198-235) -/

/-- fhatlrtastar.hpp:206-213: one iteration. -/
def iterF (P : FPar S O C) (k : Nat) (cur : S) (F : FMem S C) : Outcome (S × FMem S C × Option (List O)) :=
  (expandF P k cur F).bind fun t =>
  let F' : FMem S C := ⟨t.x.m.call, F.derr, F.dd, t.hn, t.dn, t.made, t.xdups⟩
  if t.x.m.lim (P.par F.bonus) = true then .ok (cur, F', none)
  else
    (if t.x.goal = none then learnF P F.bonus t.x F.derr F.dd else .ok (t.x.m.h, F.derr, F.dd)).bind fun l =>
    (move (P.par F.bonus) t.x cur).map fun r =>
      (r.1, { F' with m := { t.x.m.call with h := l.1 }, derr := l.2.1, dd := l.2.2 }, some r.2)

/-- The loop fhatlrtastar.hpp:205-216: the last state, the operators, and their numbers per step (`lengths`). -/
def loopF (P : FPar S O C) : Nat → Nat → S → FMem S C → List O → List Nat → Outcome (S × FMem S C × List O × List Nat)
  | 0, _, _, _, _, _ => .nofuel
  | fuel + 1, k, cur, F, ops, lens =>
    if P.d.goal cur = true then .ok (cur, F, ops, lens)
    else if F.m.lim (P.par F.bonus) = true then .ok (cur, { F with m := F.m.call }, ops, lens)
    else
      (iterF P k cur { F with m := F.m.call }).bind fun r =>
      match r.2.2 with
      | none => .ok (r.1, r.2.1, ops, lens)
      | some os => loopF P fuel (k + 1) r.1 r.2.1 (ops ++ os) (lens ++ [os.length])

/-- The nodes before a search; fhatlrtastar.hpp:98-100, 171-172. -/
def fmem0 (P : FPar S O C) : FMem S C :=
  ⟨⟨P.h, fun _ => false, fun _ => [], 0, 0, 0, 0⟩, P.dist, P.dist, 0, 0, 0, 0⟩

/-- The result of a search: path and operators, goal first; what was learned and the statistics; the lengths of the steps. -/
structure FRes (S O C : Type*) where
  path : List S
  ops : List O
  F : FMem S C
  lens : List Nat

/-- fhatlrtastar.hpp:198-235 `search`. -/
def search (P : FPar S O C) (fuel : Nat) (s0 : S) : Outcome (FRes S O C) :=
  (loopF P fuel 0 s0 (fmem0 P) [] []).map fun r =>
    if P.d.goal r.1 = false then ⟨[], [], r.2.1, r.2.2.2⟩
    else ⟨(s0 :: rebuild P.d s0 r.2.2.1).reverse, r.2.2.1.reverse, r.2.1, r.2.2.2⟩

end Model

/-! ## One local search is one of LSS-LRTA* in another order -/

section Proj
variable [DecidableEq S] [Field C] [LinearOrder C] {P : FPar S O C} {b dd : S → C} {J : Nat → Bool}

theorem readParent_x (hJ : P.junk = some J) (t : T S O C) (k : S) : ∃ t', readParent P t k = .ok t' ∧ t'.x = t.x := by
  unfold readParent
  cases t.x.tab k with
  | some _ => exact ⟨t, rfl, rfl⟩
  | none => simp only [hJ]; exact ⟨_, rfl, rfl⟩

theorem relaxT_proj (hJ : P.junk = some J) (s : Nat) (o : O) (r : T S O C × Option Nat) :
    (relaxT P b s o r).map (fun r => r.1.x) = relax (P.par b) s o r.1.x := by
  unfold relaxT
  dsimp only
  split
  · rename_i h
    unfold relax
    have h' : toParent r.1.x s ((P.par b).d.app (r.1.x.nd s).st o) = true := h
    simp only [h', if_true, Outcome.map_ok]
  · obtain ⟨t', e, ex⟩ := readParent_x hJ r.1 (P.d.app (r.1.x.nd s).st o)
    rw [e, Outcome.bind_ok, ex]
    cases relax (P.par b) s o r.1.x <;> rfl

theorem relaxAllT_proj (hJ : P.junk = some J) (s : Nat) : ∀ (os : List O) (r : T S O C × Option Nat),
    (relaxAllT P b s os r).map (fun r => r.1.x) = relaxAll (P.par b) s os r.1.x
  | [], _ => rfl
  | o :: os, r => by
    rw [relaxAllT, relaxAll, ← relaxT_proj hJ]
    cases relaxT P b s o r with
    | ok r' => exact relaxAllT_proj hJ s os r'
    | _ => rfl

theorem errors_x (s : Nat) (r : T S O C × Option Nat) : (errors P dd s r).x = r.1.x := by
  unfold errors
  split <;> rfl

theorem expandT_proj (hJ : P.junk = some J) (s : Nat) (t : T S O C) :
    (expandT P b dd s t).map (fun t => t.x) = lssExpand (P.par b) s t.x := by
  unfold expandT lssExpand
  dsimp only
  rw [← relaxAllT_proj hJ s _ ({ t with x := { closeNode s t.x with m := expandNode (P.par b) ((closeNode s t.x).nd s).st (closeNode s t.x).m }, exp := t.exp + 1 }, none)]
  have e : (P.par b).d = P.d := rfl
  rw [e]
  cases relaxAllT P b s (P.d.ops ((closeNode s t.x).nd s).st) ({ t with x := { closeNode s t.x with m := expandNode (P.par b) ((closeNode s t.x).nd s).st (closeNode s t.x).m }, exp := t.exp + 1 }, none) with
  | ok r => exact congrArg Outcome.ok (errors_x s r)
  | _ => rfl

theorem loopT_proj (hJ : P.junk = some J) : ∀ (k : Nat) (t : T S O C),
    (loopT P b dd k t).map (fun t => t.x) = lssLoop (P.par b) k t.x
  | 0, _ => rfl
  | k + 1, t => by
    rw [loopT, lssLoop]
    split
    · rfl
    split
    · rfl
    cases hp : BinHeap.pop (BinHeap.predOf flt (keyF (P.par b) t.x.nd)) t.x.q with
    | mk o q =>
      cases o with
      | none => rfl
      | some s =>
        dsimp only
        have e := expandT_proj (b := b) (dd := dd) hJ s { t with x := { t.x with m := t.x.m.call, q := q } }
        dsimp only at e
        rw [← e]
        cases expandT P b dd s { t with x := { t.x with m := t.x.m.call, q := q } } with
        | ok t' =>
          rw [Outcome.bind_ok, Outcome.map_ok, Outcome.bind_ok]
          have eg : (P.par b).d = P.d := rfl
          rw [eg]
          split
          · rfl
          · exact loopT_proj hJ k t'
        | _ => rfl

theorem expandF_proj (hJ : P.junk = some J) (k : Nat) (r : S) (F : FMem S C) :
    (expandF P k r F).map (fun t => t.x) = expandLss (P.par F.bonus) k r F.m := loopT_proj hJ _ _

theorem learnEdgeF_proj (x : L S O C) (s : Nat) (e : S × C) (r : FLearn S C) :
    (learnEdgeF P b x s e r).map (fun r => r.y) = learnEdge (P.par b) x s e r.y := by
  unfold learnEdgeF
  cases learnEdge (P.par b) x s e r.y with
  | ok y => simp only [Outcome.map_ok]; split <;> rfl
  | _ => rfl

theorem learnEdgesF_proj (x : L S O C) (s : Nat) : ∀ (es : List (S × C)) (r : FLearn S C),
    (learnEdgesF P b x s es r).map (fun r => r.y) = learnEdges (P.par b) x s es r.y
  | [], _ => rfl
  | e :: es, r => by
    rw [learnEdgesF, learnEdges, ← learnEdgeF_proj]
    cases learnEdgeF P b x s e r with
    | ok r' => exact learnEdgesF_proj x s es r'
    | _ => rfl

theorem learnLoopF_proj (x : L S O C) : ∀ (fuel : Nat) (r : FLearn S C),
    (learnLoopF P b x fuel r).map (fun r => r.y) = learnLoop (P.par b) x fuel r.y
  | 0, _ => rfl
  | fuel + 1, r => by
    rw [learnLoopF, learnLoop]
    split
    · rfl
    cases hp : BinHeap.pop (BinHeap.predOf hlt fun n => r.y.h (x.nd n).st) r.y.q with
    | mk o q =>
      cases o with
      | none => rfl
      | some s =>
        dsimp only
        have e := learnEdgesF_proj (P := P) (b := b) x s (x.m.preds (x.nd s).st)
          { r with y := { r.y with q := q, nclosed := if (x.nd s).closed then r.y.nclosed - 1 else r.y.nclosed } }
        dsimp only at e
        rw [← e]
        cases learnEdgesF P b x s (x.m.preds (x.nd s).st)
          { r with y := { r.y with q := q, nclosed := if (x.nd s).closed then r.y.nclosed - 1 else r.y.nclosed } } with
        | ok r' => exact learnLoopF_proj x fuel r'
        | _ => rfl

theorem learnF_proj (x : L S O C) (derr dd : S → C) : (learnF P b x derr dd).map (fun l => l.1) = learn (P.par b) x := by
  unfold learnF learn
  have e := learnLoopF_proj (P := P) (b := b) x (x.next + 1) ⟨learnInit x, derr, dd⟩
  dsimp only at e
  rw [← e]
  cases learnLoopF P b x (x.next + 1) ⟨learnInit x, derr, dd⟩ <;> rfl

/-- One iteration is one of LSS-LRTA* with the bonus. -/
theorem iterF_proj (hJ : P.junk = some J) (k : Nat) (cur : S) (F : FMem S C) :
    (iterF P k cur F).map (fun r => (r.1, r.2.1.m, r.2.2)) = iter (P.par F.bonus) k cur F.m := by
  unfold iterF iter
  rw [← expandF_proj hJ]
  cases expandF P k cur F with
  | ok t =>
    simp only [Outcome.bind_ok, Outcome.map_ok]
    split
    · rfl
    · by_cases hg : t.x.goal = none
      · rw [if_pos hg, if_pos hg, ← learnF_proj t.x F.derr F.dd]
        cases learnF P F.bonus t.x F.derr F.dd with
        | ok l =>
          simp only [Outcome.bind_ok, Outcome.map_ok]
          cases move (P.par F.bonus) t.x cur <;> rfl
        | _ => rfl
      · rw [if_neg hg, if_neg hg]
        simp only [Outcome.bind_ok]
        cases move (P.par F.bonus) t.x cur <;> rfl
  | _ => rfl

end Proj

end Verif.Fhat
