import Verif.Search.Tight
import Verif.Props.Wastar

/-!
# C103: the costs A* and weighted A* work with are those of their paths

When a better path to a state is found, the values of the nodes below it are not brought up to date before it is
expanded again.  So the `g` of a node may be larger than the cost of the path its parent pointers describe (C29, C35
only say it is at least that).  For A* and weighted A* this never shows: whatever the heuristic, a node that is taken
out of the open list has the cost of its path as its `g`.
-/

namespace Verif.Search

variable {S O C P : Type*} [DecidableEq S] [DecidableEq O] [AddCommGroup C] [LinearOrder C] [IsOrderedAddMonoid C]
  {d : Dom S O C} {a : Alg S C P} {s0 : S}

/-- What the search returns for a node whose links are exact. -/
theorem found_exact (hd : CostOk d s0) (ha : AlgOk a) {l : Limit} {st : St S O C P} {r : List S × List O}
    (hex : ∀ n, Reach d a s0 st → Least a st n → ∀ j i, Par st.nd j i → Sub st.nd i n → Exact d st.nd j i)
    (hr : Run d a s0 l st r) (hne : r ≠ ([], [])) :
    ∃ n, Least a st n ∧ d.goal (st.nd n).state = true ∧ Solution d s0 r (st.nd n).g := by
  cases hr with
  | empty => exact absurd rfl hne
  | cut => exact absurd rfl hne
  | @found n fuel r tr hlim hl hg hs =>
    rw [solpath_pop] at hs
    obtain ⟨ss, h2, h3, h5⟩ := solpath_exact (inv_reach hd ha tr.reach) hl.1 (hex n tr.reach hl) hs
    exact ⟨n, hl, hg, ss, h2, h3, _, h5, hg⟩

/-- **C103 (every expansion).** Let a search without `-dropdups` be ordered by `g + H(state)`, for any `H` at all.
Whenever a node is taken out of the open list, the plan along its parent pointers costs exactly its `g`. -/
theorem c103_popped (hd : DomOk d s0) (ha : AlgOk a) {H : S → C} (hb : ByF a H) {st : St S O C P}
    (hr : Reach d a s0 st) {n : Nat} (hl : Least a st n) :
    ∃ fuel r, (∀ fuel' ≥ fuel, solpath st.nd fuel' n = .ok r) ∧ r.1.head? = some (st.nd n).state ∧
      ∃ ss, r.1.reverse = s0 :: ss ∧ Plan d s0 r.2.reverse ss (st.nd n).g := by
  have hi := inv_reach hd.cost ha hr
  obtain ⟨fuel, r, h1, -⟩ := solpath_spec hi hl.1
  obtain ⟨ss, h2, h3, h4⟩ := solpath_exact hi hl.1 (fun j i hp hs => least_exact hd ha hb hr hl hp hs) h1
  exact ⟨fuel, r, fun f hf => solpath_mono h1 hf, h4, ss, h2, h3⟩

/-- **C103 (A\*).** The path A* returns costs exactly the `g` of the goal node, whatever the heuristic. -/
theorem c103_astar (hd : DomOk d s0) (h : S → C) {l : Limit} {st : St S O C C} {r : List S × List O}
    (hr : Run d (astar h) s0 l st r) (hne : r ≠ ([], [])) :
    ∃ n, Least (astar h) st n ∧ d.goal (st.nd n).state = true ∧ Solution d s0 r (st.nd n).g :=
  found_exact hd.cost (astar_ok h) (fun _ hre hl _ _ hp hs => least_exact hd (astar_ok h) (astar_byF h) hre hl hp hs)
    hr hne

/-- **C103 (weighted A\*).** The same for weighted A*, for any weight (even a negative one), with and without
`-dropdups`. -/
theorem c103_wastar {K : Type*} [Field K] [LinearOrder K] [IsStrictOrderedRing K] {d : Dom S O K} (hd : DomOk d s0)
    (wt : K) (h : S → K) (dd : Bool) {l : Limit} {st : St S O K (K × K)} {r : List S × List O}
    (hr : Run d (wastar wt h dd) s0 l st r) (hne : r ≠ ([], [])) :
    ∃ n, Least (wastar wt h dd) st n ∧ d.goal (st.nd n).state = true ∧ Solution d s0 r (st.nd n).g := by
  cases dd with
  | false =>
    exact found_exact hd.cost (wastar_ok wt h false)
      (fun _ hre hl _ _ hp hs => least_exact hd (wastar_ok wt h false) (wastar_byF wt h) hre hl hp hs) hr hne
  | true =>
    refine found_exact hd.cost (wastar_ok wt h true) (fun n hre hl j i hp hs => ?_) hr hne
    have hi := inv_reach hd.cost (wastar_ok wt h true) hre
    refine allExact_reach hd.cost (wastar_ok wt h true) rfl hre i ?_ j hp
    rcases hs with e | hs
    · rw [e]; exact hl.1
    · exact hi.anc_lt hl.1 hs

/-- **C103 (greedy search).** With `-dropdups` greedy search has exact values as well. -/
theorem c103_greedy_dropdups (hd : CostOk d s0) (h : S → C) {l : Limit} {st : St S O C C} {r : List S × List O}
    (hr : Run d (greedy h true) s0 l st r) (hne : r ≠ ([], [])) :
    ∃ n, Least (greedy h true) st n ∧ d.goal (st.nd n).state = true ∧ Solution d s0 r (st.nd n).g := by
  refine found_exact hd (greedy_ok h true) (fun n hre hl j i hp hs => ?_) hr hne
  have hi := inv_reach hd (greedy_ok h true) hre
  refine allExact_reach hd (greedy_ok h true) rfl hre i ?_ j hp
  rcases hs with e | hs
  · rw [e]; exact hl.1
  · exact hi.anc_lt hl.1 hs

/-- Without `-dropdups`, greedy search may return a path that costs less than the `g` of the goal node: when the
heuristic does not tell nodes apart, the goal is taken out before its ancestor, to which a better path has been found,
is expanded again.  Here the path costs 3, the goal's `g` is 11. -/
theorem c103_greedy_violated : ∃ (st : St (Fin 4) (Option (Fin 4)) Rat Rat) (n : Nat)
    (r : List (Fin 4) × List (Option (Fin 4))),
    Run g2 (greedy (fun _ => 0) false) 0 ⟨0, 0⟩ st r ∧ Least (greedy (fun _ => 0) false) st n ∧
      r.1.head? = some (st.nd n).state ∧ Solution g2 0 r 3 ∧ (st.nd n).g = 11 := by
  let al : Alg (Fin 4) Rat Rat := greedy (fun _ => 0) false
  let s1 := expand g2 al 0 (pop 0 (init g2 al 0))
  let s2 := expand g2 al 1 (pop 1 s1)
  let s3 := expand g2 al 2 (pop 2 s2)
  have hlim : ∀ st : St (Fin 4) (Option (Fin 4)) Rat Rat, ¬ (⟨0, 0⟩ : Limit).reached st := fun st => by
    simp [Limit.reached]
  have h1 : ReachL g2 al 0 ⟨0, 0⟩ s1 := .step .init (hlim _) (.mk (by decide +kernel) (by decide +kernel))
  have h2 : ReachL g2 al 0 ⟨0, 0⟩ s2 := .step h1 (hlim _) (.mk (by decide +kernel) (by decide +kernel))
  have h3 : ReachL g2 al 0 ⟨0, 0⟩ s3 := .step h2 (hlim _) (.mk (by decide +kernel) (by decide +kernel))
  refine ⟨s3, 3, ([3, 1, 2, 0], [some 3, some 1, some 2]),
    .found h3 (hlim _) (n := 3) (fuel := 10) (by decide +kernel) (by decide +kernel) (by decide +kernel),
    by decide +kernel, by decide +kernel, ?_, by decide +kernel⟩
  refine ⟨[2, 1, 3], rfl, ?_, 3, rfl, by decide⟩
  have := Plan.cons (d := g2) (s := 0) (o := some 2) (by decide +kernel) (.cons (o := some 1) (by decide +kernel)
    (.cons (o := some 3) (by decide +kernel) (.nil _)))
  have e : g2.cost 0 (some 2) + (g2.cost (g2.app 0 (some 2)) (some 1) +
    (g2.cost (g2.app (g2.app 0 (some 2)) (some 1)) (some 3) + 0)) = 3 := by decide +kernel
  rw [e] at this
  exact this

/-! ### Examples -/

/-- A heuristic for the graph `g1` that over-estimates and is not consistent. -/
def h1over : Fin 6 → Int := ![3, 0, 9, 4, 1, 0]

-- The hypotheses hold, there is a moment of the search at which a node that is not taken out has a `g` larger than the
-- cost of its path, and the search ends with a path.
example : DomOk g1 0 ∧ ByF (astar h1over) h1over := ⟨DomOk.of_forall 0 (by decide +kernel), astar_byF _⟩

/-- A* on `g1` with `h1`, after five expansions: node 3 (state 2) has just got a better parent, node 4 (state 4) below
it keeps its old value. -/
def midway : St (Fin 6) (Option (Fin 6)) Int Int := (run g1 (astar h1) 5 (init g1 (astar h1) 0)).1

example : ∃ i j, i < midway.next ∧ (midway.nd i).parent = some j ∧
    (midway.nd j).g + g1.cost (midway.nd j).state (midway.nd i).op < (midway.nd i).g := by
  refine ⟨4, 3, ?_⟩
  decide +kernel

example : ((run g1 (astar h1over) 20 (init g1 (astar h1over) 0)).2.map fun n =>
    ((run g1 (astar h1over) 20 (init g1 (astar h1over) 0)).1.nd n).g) = some 9 := by decide +kernel

end Verif.Search
