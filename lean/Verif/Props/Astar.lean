import Verif.Search.Algs
import Mathlib.Data.Fin.VecNotation
import Mathlib.Tactic.FinCases

/-!
# C29-C32, C37: A*

`Run d a s0 l st r`: a run of the algorithm `a` on domain `d` from `s0` under the limits `l` ends, in internal state
`st`, with `res.path`, `res.ops` = `r`, for some way of breaking ties and some moment of the timer.
`Plan d s0 ops states c` says that applying `ops` in turn from `s0` is legal, visits `states` and costs `c`.

`UndoOk` collects what the searches assume of a domain; `DomOk` is the special case in which the reverse operator leads
back to the same state.
-/

namespace Verif.Search

variable {S O C P : Type*} [DecidableEq S] [DecidableEq O] [AddCommGroup C] [LinearOrder C] [IsOrderedAddMonoid C]
  {d : Dom S O C} {a : Alg S C P} {s0 : S}

/-- `r` (path and operators, goal first) is a solution of cost `c`. -/
def Solution (d : Dom S O C) (s0 : S) (r : List S × List O) (c : C) : Prop :=
  ∃ ss, r.1.reverse = s0 :: ss ∧ Plan d s0 r.2.reverse ss c ∧ ∃ t, r.1.head? = some t ∧ d.goal t = true

/-- The heuristic never over-estimates; `k` is the least value of `h` on goals (0 for a usual heuristic; a
heuristic that is uniformly shifted behaves in the same way). -/
def Admissible (d : Dom S O C) (s0 : S) (h : S → C) (k : C) : Prop :=
  (∀ t c, Walk d s0 t c → d.goal t = true → k ≤ h t) ∧
  ∀ s c0, Walk d s0 s c0 → ∀ t c, Walk d s t c → d.goal t = true → h s ≤ c + k

theorem pop_nd {st : St S O C P} {n : Nat} (i : Nat) :
    ((pop n st).nd i).state = (st.nd i).state ∧ ((pop n st).nd i).parent = (st.nd i).parent ∧
    ((pop n st).nd i).op = (st.nd i).op := by
  unfold pop
  dsimp only
  by_cases e : i = n
  · rw [e, Function.update_self]; exact ⟨rfl, rfl, rfl⟩
  · rw [Function.update_of_ne e]; exact ⟨rfl, rfl, rfl⟩

theorem solpath_pop {st : St S O C P} {n : Nat} (fuel i : Nat) :
    solpath (pop n st).nd fuel i = solpath st.nd fuel i := by
  induction fuel generalizing i with
  | zero => rfl
  | succ fuel ih =>
    unfold solpath
    obtain ⟨e1, e2, e3⟩ := pop_nd (st := st) (n := n) i
    rw [e1, e2, e3]
    cases (st.nd i).parent with
    | none => rfl
    | some m => dsimp only; rw [ih]

/-- **C37.** Solution reconstruction is faithful and terminates: for every node of every state of the search the
walk along the parent pointers ends, and gives, goal first, the states of a legal plan from the initial state to the
node's state, with one operator less than states, of cost at most the node's `g`. -/
theorem c37_solpath (hd : CostOk d s0) (ha : AlgOk a) {st : St S O C P} (h : Reach d a s0 st) {n : Nat}
    (hn : n < st.next) :
    ∃ fuel r, (∀ fuel' ≥ fuel, solpath st.nd fuel' n = .ok r) ∧ r.1.length = r.2.length + 1 ∧
      r.1.head? = some (st.nd n).state ∧ r.1.getLast? = some s0 ∧
      ∃ ss c, r.1.reverse = s0 :: ss ∧ Plan d s0 r.2.reverse ss c ∧ c ≤ (st.nd n).g := by
  obtain ⟨fuel, r, h1, ss, c, h2, h3, h4, h5⟩ := solpath_spec (inv_reach hd ha h) hn
  refine ⟨fuel, r, fun f hf => solpath_mono h1 hf, ?_, h5, ?_, ss, c, h2, h3, h4⟩
  · have e1 := h3.length
    have e2 := congrArg List.length h2
    rw [List.length_reverse] at e1 e2
    rw [List.length_cons] at e2
    omega
  · rw [← List.head?_reverse, h2]; rfl

/-- What a run returns is nothing, or a solution whose cost is at most the `g` of an expanded-next goal node. -/
theorem run_solution (hd : CostOk d s0) (ha : AlgOk a) {l : Limit} {st : St S O C P} {r : List S × List O}
    (h : Run d a s0 l st r) :
    r = ([], []) ∨ ∃ n c, Least a st n ∧ d.goal (st.nd n).state = true ∧ Solution d s0 r c ∧ c ≤ (st.nd n).g := by
  cases h with
  | empty => exact Or.inl rfl
  | cut => exact Or.inl rfl
  | found tr hlim hl hg hs =>
    right
    rw [solpath_pop] at hs
    obtain ⟨ss, c, h2, h3, h4, h5⟩ := solpath_ok (inv_reach hd ha tr.reach) hl.1 hs
    exact ⟨_, c, hl, hg, ⟨ss, h2, h3, _, h5, hg⟩, h4⟩

/-- **C29.** If A* returns a path, it starts in the given initial state, every step is an applicable operator of the
domain leading to the next state, it ends in a goal, and its cost is at most the `g` value of the goal node. -/
theorem c29_solution (hd : CostOk d s0) (h : S → C) {l : Limit} {st : St S O C C} {r : List S × List O}
    (hr : Run d (astar h) s0 l st r) (hne : r ≠ ([], [])) :
    ∃ n c, Least (astar h) st n ∧ d.goal (st.nd n).state = true ∧ Solution d s0 r c ∧ c ≤ (st.nd n).g := by
  rcases run_solution hd (astar_ok h) hr with h1 | h1
  · exact absurd h1 hne
  · exact h1

/-- Whenever a goal node is popped, the path can be reconstructed, so the run returns it. -/
theorem c29_returns (hd : CostOk d s0) (ha : AlgOk a) {l : Limit} {st : St S O C P} {n : Nat}
    (hr : ReachL d a s0 l st) (hl : ¬ l.reached st) (hm : Least a st n) (hg : d.goal (st.nd n).state = true) :
    ∃ r, Run d a s0 l st r ∧ r ≠ ([], []) := by
  obtain ⟨fuel, r, h1, h2, -⟩ := c37_solpath hd ha hr.reach hm.1
  refine ⟨r, .found hr hl hm hg (fuel := fuel) (by rw [solpath_pop]; exact h1 fuel le_rfl), ?_⟩
  rintro rfl
  exact absurd h2 (by simp)

/-- The node popped from a goal has `g` at most the cost of every walk to a goal. -/
theorem astar_goal_le (hd : UndoOk d s0) {h : S → C} {k : C} (hadm : Admissible d s0 h k) {st : St S O C C}
    (hr : Reach d (astar h) s0 st) {n : Nat} (hl : Least (astar h) st n) (hg : d.goal (st.nd n).state = true)
    {t : S} {c : C} (hw : Walk d s0 t c) (ht : d.goal t = true) : (st.nd n).g ≤ c := by
  have hi := inv_reach hd.cost (astar_ok h) hr
  obtain ⟨m, e0, e1, t', c2, e2, e3, e4⟩ := frontier hd hi hw ht
  have hp := hl.2.2 m e0 e1
  have hle : (st.nd n).p ≤ (st.nd m).p := by
    by_contra hc
    rw [not_le] at hc
    simp only [astar] at hp
    rw [if_neg (ne_of_lt hc), decide_eq_false_iff_not] at hp
    exact hp hc
  rw [hi.prio n hl.1, hi.prio m e0] at hle
  have hle' : (st.nd n).g + h (st.nd n).state ≤ (st.nd m).g + h (st.nd m).state := hle
  have h1 := hadm.1 _ _ (hi.walk n hl.1) hg
  have h2 := hadm.2 _ _ (hi.walk m e0) _ _ e2 e3
  have h3 : (st.nd n).g + k ≤ c + k := by
    calc (st.nd n).g + k ≤ (st.nd n).g + h (st.nd n).state := by gcongr
      _ ≤ (st.nd m).g + h (st.nd m).state := hle'
      _ ≤ (st.nd m).g + (c2 + k) := by gcongr
      _ = (st.nd m).g + c2 + k := by rw [add_assoc]
      _ ≤ c + k := by gcongr; exact e4 rfl
  exact le_of_add_le_add_right h3

/-- **C30.** If `h` never over-estimates and costs are not negative, the path returned by A* costs no more than any
path to any goal.  `h` need not be consistent.  The operator that undoes the one that led to a node is skipped; it
suffices that doing and undoing an operator is never worth it (`UndoOk`). -/
theorem c30_optimal (hd : UndoOk d s0) {h : S → C} {k : C} (hadm : Admissible d s0 h k) {l : Limit} {st : St S O C C}
    {r : List S × List O} (hr : Run d (astar h) s0 l st r) (hne : r ≠ ([], [])) :
    ∃ c, Solution d s0 r c ∧ ∀ ops ss t c', Plan d s0 ops ss c' → (s0 :: ss).getLast? = some t →
      d.goal t = true → c ≤ c' := by
  cases hr with
  | empty => exact absurd rfl hne
  | cut => exact absurd rfl hne
  | found tr hlim hl hg hs =>
    rw [solpath_pop] at hs
    obtain ⟨ss, c, h2, h3, h4, h5⟩ := solpath_ok (inv_reach hd.cost (astar_ok h) tr.reach) hl.1 hs
    refine ⟨c, ⟨ss, h2, h3, _, h5, hg⟩, fun ops ss' t c' hp ht htg => h4.trans ?_⟩
    have hw := hp.walk
    rw [List.getLast?_eq_some_getLast (by simp)] at ht
    rw [Option.some.inj ht] at hw
    exact astar_goal_le hd hadm tr.reach hl hg hw htg

/-- **C31 (soundness of failure).** If the open list runs empty, no goal is reachable. -/
theorem c31_failure (hd : UndoOk d s0) (h : S → C) {st : St S O C C} (hr : Reach d (astar h) s0 st) (he : Empty st)
    {ops : List O} {ss : List S} {t : S} {c : C} (hp : Plan d s0 ops ss c) (ht : (s0 :: ss).getLast? = some t) :
    d.goal t = false := by
  have hw := hp.walk
  rw [List.getLast?_eq_some_getLast (by simp)] at ht
  rw [Option.some.inj ht] at hw
  exact empty_no_goal hd (inv_reach hd.cost (astar_ok h) hr) he hw

/-- **C31 (termination).** If only finitely many states are reachable, the loop of A* cannot run for ever, for
arbitrary non-negative costs (zero-cost operators and real costs included) and an arbitrary heuristic. -/
theorem c31_terminates (hd : CostOk d s0) (h : S → C) (hf : (Reachable d s0).Finite) :
    ¬ ∃ f : Nat → St S O C C, f 0 = init d (astar h) s0 ∧ ∀ k, Step d (astar h) (f k) (f (k + 1)) :=
  terminates hd (astar_ok h) hf

/-- **C31 (progress).** The loop stops only with an empty open list or at a goal. -/
theorem c31_progress (h : S → C) (st : St S O C C) :
    Empty st ∨ (∃ n, Least (astar h) st n ∧ d.goal (st.nd n).state = true) ∨ ∃ st', Step d (astar h) st st' := by
  rcases progress (astar_pred h) st with h1 | ⟨n, h1⟩
  · exact Or.inl h1
  · by_cases hg : d.goal (st.nd n).state = true
    · exact Or.inr (Or.inl ⟨n, h1, hg⟩)
    · exact Or.inr (Or.inr ⟨_, .mk h1 (by simpa using hg)⟩)

/-- **C32 (limits).** With an expansion limit no more than that many expansions happen; the number of generated nodes
exceeds its limit by less than the branching factor. -/
theorem c32_limits (hd : CostOk d s0) (ha : AlgOk a) {l : Limit} {st : St S O C P} (hr : ReachL d a s0 l st) {b : Nat}
    (hb : ∀ s ∈ Reachable d s0, (d.ops s).length ≤ b) :
    (0 < l.expd → st.expd ≤ l.expd) ∧ (0 < l.gend → st.gend < l.gend + b ∨ st.gend = 0) := by
  induction hr with
  | init => exact ⟨fun h => h.le, fun _ => Or.inr rfl⟩
  | @step st st' hr hlim hs ih =>
    obtain ⟨n, hn, e1, e2, e3⟩ := step_stats hs
    have := hb _ ⟨_, (inv_reach hd ha hr.reach).walk n hn⟩
    unfold Limit.reached at hlim
    rw [not_or] at hlim
    exact ⟨fun h0 => by
      have := hlim.1
      by_contra hc
      exact this ⟨h0, by omega⟩, fun h0 => Or.inl (by
      have := hlim.2
      by_contra hc
      exact this ⟨h0, by omega⟩)⟩

/-- **C32 (cut off).** A run that ends because a limit has been reached returns the empty path. -/
theorem c32_cut {l : Limit} {st : St S O C P} {r : List S × List O} (hr : Run d a s0 l st r) (hlim : l.reached st)
    : r = ([], []) := by
  cases hr with
  | found _ h => exact absurd hlim h
  | empty => rfl
  | cut => rfl

/-! ### Examples

State 2 is first reached through 1 at cost 4, then through 3 at cost 3: the heuristic is admissible but not
consistent, and state 2 is expanded twice. -/

/-- A graph with an inconsistent heuristic. -/
def g1 : Dom (Fin 6) (Option (Fin 6)) Int :=
  graph 6 [(0, 1, 1), (0, 3, 2), (1, 2, 3), (3, 2, 1), (2, 4, 1), (4, 5, 5), (2, 1, 3)] (fun s => s = 5)

/-- Its heuristic. -/
def h1 : Fin 6 → Int := ![0, 0, 0, 7, 0, 0]

example : DomOk g1 0 := DomOk.of_forall 0 (by decide +kernel)

theorem h1_admissible : Admissible g1 0 h1 0 := by
  refine ⟨fun t c _ _ => ?_, fun s c0 _ => ?_⟩
  · fin_cases t <;> decide
  · -- distance to the goal as a potential
    have key : ∀ s t c, Walk g1 s t c → (![9, 9, 6, 7, 5, 0] : Fin 6 → Int) s ≤ c + (![9, 9, 6, 7, 5, 0] : Fin 6 → Int) t := by
      intro s t c hw
      induction hw with
      | nil => simp
      | @snoc t c o _ ho ih =>
        have : ∀ t : Fin 6, ∀ o ∈ g1.ops t,
            (![9, 9, 6, 7, 5, 0] : Fin 6 → Int) t ≤ g1.cost t o + (![9, 9, 6, 7, 5, 0] : Fin 6 → Int) (g1.app t o) := by
          decide +kernel
        have := this t o ho
        omega
    intro t c hw hg
    have h1' := key s t c hw
    have ht : t = 5 := by simpa [g1, graph] using hg
    subst ht
    have : ∀ s : Fin 6, h1 s ≤ (![9, 9, 6, 7, 5, 0] : Fin 6 → Int) s := by decide +kernel
    have h2 := this s
    have : (![9, 9, 6, 7, 5, 0] : Fin 6 → Int) 5 = 0 := rfl
    omega

-- the run finds the optimal solution 0-3-2-4-5 of cost 9, after reopening two nodes
example : ((run g1 (astar h1) 20 (init g1 (astar h1) 0)).2.map fun n =>
    solpath (run g1 (astar h1) 20 (init g1 (astar h1) 0)).1.nd 10 n) =
    some (.ok ([5, 4, 2, 3, 0], [some 5, some 4, some 2, some 3])) := by decide +kernel
example : (run g1 (astar h1) 20 (init g1 (astar h1) 0)).1.reopnd = 2 := by decide +kernel

-- a run that fails: the goal is unreachable
example : Empty (run (graph 3 [(0, 1, 1), (1, 0, 1)] (fun s => s = 2)) (astar fun _ => 0) 20
    (init (graph 3 [(0, 1, 1), (1, 0, 1)] (fun s => s = 2)) (astar fun _ => 0) 0)).1 := by decide +kernel

end Verif.Search
