import Verif.Search.DtaStep
import Verif.Search.DtaCount
import Verif.Props.Dta
import Verif.Props.Wastar

/-!
# C100: the search of DTA*

`P` has the domain, the heuristic, the limit test, the bound of the local search, the table, the weights, the option `-learnfull`
and the threshold of equality.  `search P sf fuel s0` is a search from `s0`; `nofuel` means that it is still running after `fuel` steps,
that a step is after `sf` grains, or that the value of a state became infinite.  `Plan`, `Walk`, `Solution` are those of
`Props/Astar`.
-/

namespace Verif.Dta

open Verif.Search

variable {S O : Type*} [DecidableEq S] {P : Par S O}

/-- C100: a search reports nothing at all or a solution, for any heuristic, table, options, bounds and limits. -/
theorem c100_solution {sf fuel : Nat} {s0 : S} {r : Res S O} (h : search P sf fuel s0 = .ok r) :
    (r.path, r.ops) = ([], []) ∨ ∃ c, Solution P.d s0 (r.path, r.ops) c := by
  unfold search at h
  obtain ⟨⟨t, m, ops⟩, h1, h2⟩ := Outcome.bind_eq_ok.1 h
  obtain ⟨ss, c, p1, p2⟩ := loop_sound _ _ _ _ _ ⟨[], 0, .nil _, rfl⟩ h1
  dsimp only at h2 p1 p2
  split at h2
  · cases h2
    exact Or.inl rfl
  rename_i hg
  split at h2
  · exact absurd h2 (by simp)
  · exact absurd h2 (by simp)
  · split at h2
    · cases h2
      refine Or.inr ⟨c, ss, ?_, ?_, t, ?_, by simpa using hg⟩
      · simp [Lss.rebuild_plan p1]
      · simpa using p1
      · dsimp only
        rw [Lss.rebuild_plan p1, List.head?_reverse, p2]
    · exact absurd h2 (by simp)

/-- C100: before a solution is reported, the state of the last node is compared, after the memory of all nodes was given back.  If that
counts as undefined behaviour then no search ever reports a solution. -/
theorem c100_dangling (hst : P.stale = none) {sf fuel : Nat} {s0 : S} {r : Res S O} (h : search P sf fuel s0 = .ok r) :
    (r.path, r.ops) = ([], []) := by
  unfold search at h
  obtain ⟨⟨t, m, ops⟩, h1, h2⟩ := Outcome.bind_eq_ok.1 h
  dsimp only at h2
  split at h2
  · cases h2
    rfl
  · rw [hst] at h2
    exact absurd h2 (by simp)

/-- C100: the mean number of decisions is updated in every step, but has no first value unless the search was reset.  If reading it
counts as undefined behaviour then a first search from a state that is no goal does not end, unless the limit was reached at once. -/
theorem c100_uninit (hfr : P.fresh = true) {s0 : S} (hg : P.d.goal s0 = false) (hl : P.lim 0 0 0 = false) (sf fuel : Nat) (r : Res S O) :
    search P sf fuel s0 ≠ .ok r := by
  intro h
  unfold search at h
  obtain ⟨x, h1, -⟩ := Outcome.bind_eq_ok.1 h
  cases fuel with
  | zero => exact absurd h1 (by simp [loop])
  | succ fuel =>
    rw [loop, if_neg (by rw [hg]; simp), if_neg (by unfold Graph.lim; show ¬ P.lim 0 0 0 = true; rw [hl]; simp)] at h1
    obtain ⟨y, h2, -⟩ := Outcome.bind_eq_ok.1 h1
    unfold step at h2
    obtain ⟨t, -, h2⟩ := Outcome.bind_eq_ok.1 h2
    obtain ⟨u, -, h2⟩ := Outcome.bind_eq_ok.1 h2
    rw [if_pos hfr] at h2
    exact absurd h2 (by simp)

/-- C100: a search from a state without operators that is no goal takes the first element of an empty heap. -/
theorem c100_dead_end {s0 : S} (hg : P.d.goal s0 = false) (ho : P.d.ops s0 = []) (hl : P.lim 0 0 0 = false) (sf fuel : Nat) :
    search P (sf + 1) (fuel + 1) s0 = .ub := by
  have key : ∀ (n e i : Nat) (u : Step S O), u.hq.data = [] → grainLoop P s0 n e i u = .ub ∨
      ∃ r, grainLoop P s0 n e i u = .ok r ∧ r.1.hq.data = [] := by
    intro n e i u hu
    have hf : BinHeap.front u.hq = none := by unfold BinHeap.front; rw [hu]; rfl
    cases e with
    | zero => exact Or.inr ⟨_, rfl, hu⟩
    | succ e =>
      rw [grainLoop]
      split
      · exact Or.inr ⟨_, rfl, hu⟩
      split
      · exact Or.inr ⟨_, rfl, hu⟩
      rw [hf]
      exact Or.inl rfl
  have hfin : ∀ u : Step S O, u.hq.data = [] → (learnStep P u).bind (finish P s0) = .ub := by
    intro u hu
    have hf : BinHeap.front u.hq = none := by unfold BinHeap.front; rw [hu]; rfl
    unfold learnStep
    split
    · rw [hu, learnAll, Outcome.map_ok, Outcome.bind_ok]
      have : BinHeap.front (BinHeap.reinit (BinHeap.predOf lssLt (keyL u.xs)) u.hq) = none := by
        unfold BinHeap.reinit
        rw [dif_pos (by rw [hu]; rfl)]
        exact hf
      unfold finish
      dsimp only
      rw [this]
    · rw [Outcome.bind_ok]
      unfold finish
      rw [hf]
  unfold search
  rw [loop, if_neg (by rw [hg]; simp), if_neg (by unfold Graph.lim; show ¬ P.lim 0 0 0 = true; rw [hl]; simp)]
  have hs : step P (sf + 1) 0 s0 (graph0 P).call = .ub := by
    unfold step
    rw [ho, begin, Outcome.bind_ok, grains]
    rcases key 0 P.grain 0 (⟨[], ⟨[], fun _ => -1⟩, succs P s0 (graph0 P).call⟩ : Step S O) rfl with h | ⟨r, h, h'⟩
    · rw [h]; rfl
    · rw [h, Outcome.bind_ok]
      have hf : BinHeap.front r.1.hq = none := by unfold BinHeap.front; rw [h']; rfl
      split
      · rw [Outcome.bind_ok]
        split
        · rfl
        · exact hfin _ h'
      · rw [hf]
        rfl
  rw [hs]
  rfl

/-- C100: with costs and a heuristic that are not negative, at most one goal state and an operator in every state, a search in which the bound of
the local search comes within the first grain never fails an assertion and has no undefined behaviour but that of
`c100_dangling` and `c100_uninit`: it ends with a solution or because of the limit, or it is still running.

Partial: with two goals, assertions fail (`c100_goal_assert`); if the bound comes later, a decision has to be made, and
that can go wrong (`c99_dead_end`, `c99_negative`, `c99_infinite`). -/
theorem c100_safe_partial {s0 : S} (hu : ∀ s t, P.d.goal s = true → P.d.goal t = true → s = t) (hd : CostOk P.d s0) (hh : ∀ s, 0 ≤ P.h s)
    (hthr : 0 ≤ P.thr) (hops : ∀ s c, Walk P.d s0 s c → P.d.goal s = false → P.d.ops s ≠ [])
    (hl : ∀ a b c, P.lim a b c = true → P.lim a b (c + 1) = true) (hs : ∀ n, ∃ i < P.grain, P.stop n i = true)
    (hfr : P.fresh = false) (hst : P.stale = some true) (sf fuel : Nat) :
    search P (sf + 1) fuel s0 = .nofuel ∨ ∃ r, search P (sf + 1) fuel s0 = .ok r := by
  rcases loop_safe hu hthr hd hfr hl hs sf hops fuel 0 s0 (graph0 P) [] ⟨0, .nil _⟩ hh (by simp [graph0]) with h | ⟨⟨t, m, ops⟩, h⟩
  · left
    unfold search
    rw [h]
    rfl
  · right
    unfold search
    rw [h, Outcome.bind_ok]
    obtain ⟨ss, c, p1, p2⟩ := loop_sound _ _ _ _ _ ⟨[], 0, .nil _, rfl⟩ h
    dsimp only at p1 p2 ⊢
    by_cases hg : P.d.goal t = false
    · rw [if_pos hg]; exact ⟨_, rfl⟩
    · rw [if_neg hg, hst]
      dsimp only
      rw [if_pos]
      · exact ⟨_, rfl⟩
      · rw [List.getLast?_eq_some_getLast (List.cons_ne_nil _ _)] at p2
        simp only [Lss.rebuild_plan p1]
        rw [Option.some.inj p2]
        simpa using hg

/-- C100: a limit on the number of expansions is kept exactly. -/
theorem c100_expansions {N : Nat} (hN : ∀ a b c, N ≤ a → P.lim a b c = true) {sf fuel : Nat} {s0 : S} {r : Res S O}
    (h : search P sf fuel s0 = .ok r) : r.m.nexpd ≤ N := by
  unfold search at h
  obtain ⟨⟨t, m, ops⟩, h1, h2⟩ := Outcome.bind_eq_ok.1 h
  have hm : m.nexpd ≤ N := loop_nexpd hN _ _ _ _ _ (Nat.zero_le _) h1
  dsimp only at h2
  split at h2
  · cases h2
    exact hm
  split at h2
  · exact absurd h2 (by simp)
  · exact absurd h2 (by simp)
  · split at h2
    · cases h2
      exact hm
    · exact absurd h2 (by simp)

/-- C100: the number of expansions reported is the number of different states expanded, and the number of generated nodes that of their
operators. -/
theorem c100_counts {sf fuel : Nat} {s0 : S} {r : Res S O} (h : search P sf fuel s0 = .ok r) :
    ∃ L : List S, L.Nodup ∧ L.length = r.m.nexpd ∧ (L.map fun s => (P.d.ops s).length).sum = r.m.gend ∧
      ∀ s, r.m.expd s = true ↔ s ∈ L := by
  unfold search at h
  obtain ⟨⟨t, m, ops⟩, h1, h2⟩ := Outcome.bind_eq_ok.1 h
  have hm : Cnt P m := loop_cnt _ _ _ _ _ ⟨[], List.nodup_nil, rfl, rfl, by simp [graph0]⟩ h1
  dsimp only at h2
  split at h2
  · cases h2
    exact hm
  split at h2
  · exact absurd h2 (by simp)
  · exact absurd h2 (by simp)
  · split at h2
    · cases h2
      exact hm
    · exact absurd h2 (by simp)

/-- C100: without `-learnfull` the only value that a step can lower is that of the state where it begins.  That one is multiplied by 11/10 at
least, or it becomes 11/10 of the cost of a walk to a goal; so the values are not kept below the true costs. -/
theorem c100_values {cur : S} (hu : ∀ s t, P.d.goal s = true → P.d.goal t = true → s = t) (hd : CostOk P.d cur) (hthr : 0 ≤ P.thr)
    (hfull : P.full = false) {fuel n : Nat} {m : Graph S} (hm : ∀ s, 0 ≤ m.h s) (hp : ∀ k, ∀ e ∈ m.preds k, 0 ≤ e.2) {t : S} {o : O}
    {m' : Graph S} (e : step P fuel n cur m = .ok (t, o, m')) :
    o ∈ P.d.ops cur ∧ P.d.app cur o = t ∧ (∀ s ≠ cur, m.h s ≤ m'.h s) ∧
      (m.h cur * (11 / 10) ≤ m'.h cur ∨ ∃ u c, Walk P.d cur u c ∧ P.d.goal u = true ∧ m'.h cur = c * (11 / 10)) := by
  obtain ⟨a, b⟩ := step_move e
  obtain ⟨h1, w, h2, h3⟩ := step_values hu hthr hd hfull hm hp e
  refine ⟨a, b, h1, ?_⟩
  dsimp only at h2
  rcases h3 with h3 | ⟨u, h3, h4⟩
  · left
    rw [h2]
    linarith
  · exact Or.inr ⟨u, w, h3, h4, h2⟩

/-! ## What goes wrong -/

/-- A table of probabilities. -/
def tab0 : Table :=
  match build [⟨2, 1, 5⟩] with
  | .ok T => T
  | _ => ⟨⟨0, 0, 0, 0⟩, cells0⟩

/-- `0 -1-> 1 -1-> 3`, the goal; `1 -1-> 4 -1-> 0`; `0 -1-> 2 -1-> 5 -1-> 0`. -/
def awayD : Dom (Fin 6) (Option (Fin 6)) ℚ := graphQ 6 [(0, 1, 1), (0, 2, 1), (1, 3, 1), (1, 4, 1), (2, 5, 1), (5, 0, 1), (4, 0, 1)] (· == 3)

/-- The search of `awayD`, with two expansions in a grain, and a consistent heuristic. -/
def away (full : Bool) : Par (Fin 6) (Option (Fin 6)) :=
  { d := awayD, h := ![0, 1, 2, 0, 3, 2], lim := fun _ _ _ => false, stop := fun _ _ => false, grain := 2, T := tab0, wt := 1, wf := 1, br := 2
    spg := fun _ => 1, full := full, thr := 1 / 10 ^ 8, fresh := false, stale := some true }

/-- C100: a goal that the search of the best successor has taken from its open list is forgotten as long as there are open nodes.  In the
first step the goal 3 is found behind 1, with the least cost 2; but the step goes to 2. -/
theorem c100_walks_away (full : Bool) : ∃ m, step (away full) 10 0 0 (graph0 (away full)) = .ok (2, some 2, m) := by
  have h : (step (away full) 10 0 0 (graph0 (away full))).map (fun r => (r.1, r.2.1)) = .ok (2, some 2) := by
    cases full <;> decide +kernel
  obtain ⟨⟨t, o, m⟩, h1, h2⟩ := Outcome.map_eq_ok.1 h
  cases h2
  exact ⟨m, h1⟩

/-- C100: the solution that is found in this way costs 5, and not 2. -/
theorem c100_detour (full : Bool) : ∃ r, search (away full) 10 20 0 = .ok r ∧ r.path = [3, 1, 0, 5, 2, 0] := by
  have h : (search (away full) 10 20 0).map (fun r => r.path) = .ok [3, 1, 0, 5, 2, 0] := by
    cases full <;> decide +kernel
  obtain ⟨r, h1, h2⟩ := Outcome.map_eq_ok.1 h
  exact ⟨r, h1, h2⟩

/-- C100: and the value of 0 is more than the cost of a walk to the goal, with `-learnfull` too. -/
theorem c100_overestimate (full : Bool) : ∃ r c, search (away full) 10 20 0 = .ok r ∧ Walk awayD 0 3 c ∧ c < r.m.h 0 := by
  have h : (search (away full) 10 20 0).map (fun r => decide (2 < r.m.h 0)) = .ok true := by
    cases full <;> decide +kernel
  obtain ⟨r, h1, h2⟩ := Outcome.map_eq_ok.1 h
  refine ⟨r, _, h1, ((Walk.nil (d := awayD) 0).snoc (o := some 1) (by decide)).snoc (o := some 3) (by decide), ?_⟩
  have e : (0 : ℚ) + awayD.cost 0 (some 1) + awayD.cost (awayD.app 0 (some 1)) (some 3) = 2 := by decide +kernel
  rw [e]
  simpa using h2

/-- `0 -10-> 1`, `0 -10.2-> 2`, both goals; `0 <-1-> 3 <-1-> 4`. -/
def twoGoals : Par (Fin 5) (Option (Fin 5)) :=
  { d := graphQ 5 [(0, 1, 10), (0, 2, 51 / 5), (0, 3, 1), (3, 0, 1), (3, 4, 1), (4, 3, 1)] (fun s => s == 1 || s == 2)
    h := ![9, 0, 0, 17 / 2, 38 / 5], lim := fun _ _ _ => false, stop := fun n i => n == 0 && i == 1, grain := 10, T := tab0, wt := 1, wf := 1
    br := 2, spg := fun _ => 1, full := false, thr := 1 / 10 ^ 8, fresh := false, stale := some true }

/-- C100: with two goals an assertion can fail: after one step the value of 0 is above the cost of the better goal, so that both
look the same. -/
theorem c100_goal_assert : search twoGoals 10 20 0 = .fatal := by
  have h : (search twoGoals 10 20 0).map (fun _ => ()) = .fatal := by decide +kernel
  revert h
  cases search twoGoals 10 20 0 <;> simp [Outcome.map]

/-! ## Examples -/

/-- `away`, with a bound of one expansion in each step. -/
def awayOne (full : Bool) : Par (Fin 6) (Option (Fin 6)) := { away full with stop := fun _ i => i == 1 }

-- the hypotheses of `c100_safe_partial`, and how the search ends
example (full : Bool) (sf fuel : Nat) : search (awayOne full) (sf + 1) fuel 0 = .nofuel ∨ ∃ r, search (awayOne full) (sf + 1) fuel 0 = .ok r :=
  c100_safe_partial (P := awayOne full) (s0 := 0)
    (fun s t h h' => by
      have h1 : s = 3 := by simpa [awayOne, away, awayD, graphQ] using h
      have h2 : t = 3 := by simpa [awayOne, away, awayD, graphQ] using h'
      rw [h1, h2])
    (fun t _ _ o ho => (by decide +kernel : ∀ t, ∀ o ∈ awayD.ops t, 0 ≤ awayD.cost t o) t o ho)
    (by show ∀ s : Fin 6, (0 : ℚ) ≤ (![0, 1, 2, 0, 3, 2] : Fin 6 → ℚ) s; decide +kernel) (by show (0 : ℚ) ≤ 1 / 10 ^ 8; norm_num)
    (fun s _ _ => (by decide +kernel : ∀ s, awayD.goal s = false → awayD.ops s ≠ []) s)
    (fun _ _ _ h => h) (fun _ => ⟨1, by show 1 < 2; decide, rfl⟩) rfl rfl sf fuel
example : (search (awayOne false) 5 20 0).map (fun r => r.path) = .ok [3, 1, 0] := by decide +kernel
-- a memory that is given back, and the mean that has no value
example : (search { away false with stale := none } 10 20 0).map (fun _ => ()) = .ub := by decide +kernel
example : (search { away false with fresh := true } 10 20 0).map (fun _ => ()) = .ub := by decide +kernel
example (r : Res _ _) : search { away false with fresh := true } 10 20 0 ≠ .ok r := c100_uninit rfl (by decide) rfl _ _ r
-- a state without operators
example : search { away false with d := graphQ 6 [] (· == 3) } 1 1 0 = .ub := c100_dead_end (by decide) (by decide) rfl 0 0
-- a step that `c100_values` is about
example : (step (awayOne false) 5 0 0 (graph0 (awayOne false))).map (fun r => (r.1, r.2.2.h 0)) = .ok (1, 11 / 5) := by decide +kernel

end Verif.Dta
