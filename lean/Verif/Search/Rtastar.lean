import Verif.Search.BestFirst
import Mathlib.Tactic.Linarith
import Mathlib.Order.WithBot

/-!
# Model of search/rtastar.hpp (real-time A*)

`m1` is the sentinel `Cost(-1)`, which stands for infinity.  `l` is the limit test: any function of the statistics and of
the number of calls of `limit()` so far (which stands for the timer).  `pick` is the random generator: any function of the
number of the draw and of the number of alternatives.

`search` keeps one pointer `curh` to the heuristic value in the node of the initial state, and `bestkids` gets this value
by reference as its local variable `sndf`.  So the value in the node of the initial state is a field `snd` of its own
(rtastar.hpp:57, 60, 112); `seen` has the other nodes.
-/

namespace Verif.Rta

open Verif.Search

variable {S O C : Type*}

/-- `res.expd`, `res.gend`, and the number of limit tests done. -/
structure Stats where
  expd : Nat
  gend : Nat
  calls : Nat
  deriving DecidableEq

/-- `limit()` as a function of expansions, generations, and calls. -/
abbrev Lim := Nat → Nat → Nat → Bool

/-- The limit test. -/
def Stats.lim (l : Lim) (st : Stats) : Bool := l st.expd st.gend st.calls

/-- rtastar.hpp:39-51 `Current` -/
structure Cur (S O C : Type*) where
  state : S
  op : O
  pop : O
  cost : C
  f : C

section Model
variable [DecidableEq S] [DecidableEq O] [Add C] [Zero C] [LinearOrder C]

/-- rtastar.hpp:207-210 `better` -/
def better (m1 a b : C) : Bool := b = m1 ∨ (a ≠ m1 ∧ a < b)

/-- rtastar.hpp:172-183: the loop over the operators in `look`; the value, `alpha` and the statistics. -/
def lookOps (m1 : C) (pop : O) (rec : O → C → Stats → C × C × Stats) : List O → C → C → Stats → C × C × Stats
  | [], bestf, alpha, st => (bestf, alpha, st)
  | o :: os, bestf, alpha, st =>
    if o = pop then lookOps m1 pop rec os bestf alpha st
    else
      let r := rec o alpha { st with gend := st.gend + 1 }
      lookOps m1 pop rec os (if better m1 r.1 bestf then r.1 else bestf) r.2.1 r.2.2

/-- rtastar.hpp:163-167: the case without recursion. -/
def stop (m1 f alpha : C) (st : Stats) : C × C × Stats := (f, if better m1 f alpha then f else alpha, st)

/-- rtastar.hpp:159-184 `look` -/
def look (d : Dom S O C) (h : S → C) (l : Lim) (m1 : C) : Nat → S → C → O → C → Stats → C × C × Stats
  | 0, s, alpha, _, g, st => stop m1 (h s + g) alpha { st with calls := st.calls + 1 }
  | left + 1, s, alpha, pop, g, st =>
    if st.lim l ∨ better m1 (h s + g) alpha = false ∨ d.goal s = true then
      stop m1 (h s + g) alpha { st with calls := st.calls + 1 }
    else
      lookOps m1 pop (fun o alpha st => look d h l m1 left (d.app s o) alpha (d.rev s o) (g + d.cost s o) st) (d.ops s)
        m1 alpha { st with expd := st.expd + 1, calls := st.calls + 1 }

/-- The parameters of a search. -/
structure Par (S O C : Type*) where
  d : Dom S O C
  h : S → C
  l : Lim
  m1 : C
  nlook : Nat
  s0 : S

/-- `seen.find`: the node of the initial state, or another one. -/
def find (P : Par S O C) (snd : C) (seen : S → Option C) (t : S) : Option C := if t = P.s0 then some snd else seen t

/-- rtastar.hpp:144-157 `heuristic` -/
def heuristic (P : Par S O C) (snd : C) (seen : S → Option C) (t : S) (pop : O) (st : Stats) : C × Stats :=
  match find P snd seen t with
  | some v => (v, st)
  | none =>
    let r := look P.d P.h P.l P.m1 P.nlook t P.m1 pop 0 st
    (r.1, r.2.2)

/-- rtastar.hpp:120-123, 129: one successor, with its value. -/
def kid (P : Par S O C) (snd : C) (seen : S → Option C) (s : S) (o : O) (st : Stats) : Cur S O C × Stats :=
  let r := heuristic P snd seen (P.d.app s o) (P.d.rev s o) { st with gend := st.gend + 1 }
  (⟨P.d.app s o, o, P.d.rev s o, P.d.cost s o, if r.1 = P.m1 then r.1 else r.1 + P.d.cost s o⟩, r.2)

/-- rtastar.hpp:118-136: the loop over the operators in `bestkids`. -/
def bestLoop (P : Par S O C) (seen : S → Option C) (s : S) : List O → List (Cur S O C) → C → Stats →
    List (Cur S O C) × C × Stats
  | [], bests, snd, st => (bests, snd, st)
  | o :: os, [], snd, st =>
    let r := kid P snd seen s o st
    bestLoop P seen s os [r.1] snd r.2
  | o :: os, b :: bs, snd, st =>
    let r := kid P snd seen s o st
    if better P.m1 r.1.f b.f then bestLoop P seen s os [r.1] b.f r.2
    else if b.f = r.1.f then bestLoop P seen s os (b :: bs ++ [r.1]) snd r.2
    else bestLoop P seen s os (b :: bs) (if better P.m1 r.1.f snd then r.1.f else snd) r.2

/-- rtastar.hpp:110-139 `bestkids` -/
def bestkids (P : Par S O C) (seen : S → Option C) (s : S) (st : Stats) : List (Cur S O C) × C × Stats :=
  bestLoop P seen s (P.d.ops s) [] P.m1 { st with expd := st.expd + 1 }

/-- rtastar.hpp:186-205 `storenode` -/
def storenode (P : Par S O C) (seen : S → Option C) (s : S) (v : C) : S → Option C :=
  if s = P.s0 then seen else Function.update seen s (some v)

/-- rtastar.hpp:59-68: the loop of `search`; the last state and the operators.  `bests.at` throws if the index is not in
range. -/
def loop (P : Par S O C) (pick : Nat → Nat → Nat) : Nat → Nat → S → C → (S → Option C) → List O → Stats →
    Outcome (S × List O × Stats)
  | 0, _, _, _, _, _, _ => .nofuel
  | fuel + 1, k, s, snd, seen, ops, st =>
    if P.d.goal s then .ok (s, ops, st)
    else if st.lim P.l then .ok (s, ops, { st with calls := st.calls + 1 })
    else
      let r := bestkids P seen s { st with calls := st.calls + 1 }
      if r.1 = [] then .ok (s, [], r.2.2)
      else
        match r.1[pick k r.1.length]? with
        | none => .fatal
        | some c => loop P pick fuel (k + 1) c.state r.2.1 (storenode P seen s r.2.1) (ops ++ [c.op]) r.2.2

/-- rtastar.hpp:81-85: the states on the way. -/
def rebuild (d : Dom S O C) : S → List O → List S
  | _, [] => []
  | s, o :: os => d.app s o :: rebuild d (d.app s o) os

/-- rtastar.hpp:53-88 `search`; `res` is the result that is there before: path and operators. -/
def search (P : Par S O C) (pick : Nat → Nat → Nat) (fuel : Nat) (res : List S × List O) :
    Outcome ((List S × List O) × Stats) :=
  (loop P pick fuel 0 P.s0 (P.h P.s0) (fun _ => none) res.2 ⟨0, 0, 0⟩).map fun r =>
    if P.d.goal r.1 = false then ((res.1, []), r.2.2)
    else
      let path := res.1 ++ [P.s0]
      ((((path ++ rebuild P.d (path.getLast (by simp [path])) r.2.1)).reverse, r.2.1.reverse), r.2.2)

end Model
end Verif.Rta
