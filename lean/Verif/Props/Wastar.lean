import Verif.Props.Astar
import Mathlib.Algebra.Order.Field.Rat

/-!
# C35, C36: weighted A* and greedy search

Same vocabulary as `Props/Astar`.
-/

namespace Verif.Search

section Wastar
variable {S O K : Type*} [DecidableEq S] [DecidableEq O] [Field K] [LinearOrder K] [IsStrictOrderedRing K]
  {d : Dom S O K} {s0 : S}

/-- A goal popped by weighted A* has `g` at most `wt` times the cost of every walk to a goal. -/
theorem wastar_goal_le (hd : UndoOk d s0) {h : S → K} (hadm : Admissible d s0 h 0) {wt : K} (hwt : 1 ≤ wt)
    {st : St S O K (K × K)} (hr : Reach d (wastar wt h false) s0 st) {n : Nat} (hl : Least (wastar wt h false) st n)
    (hg : d.goal (st.nd n).state = true) {t : S} {c' : K} (hw : Walk d s0 t c') (ht : d.goal t = true) :
    (st.nd n).g ≤ wt * c' := by
  have hi := inv_reach hd.cost (wastar_ok wt h false) hr
  obtain ⟨m, e0, e1, t', c2, e2, e3, e4⟩ := frontier hd hi hw ht
  have hp := hl.2.2 m e0 e1
  have hle : (st.nd n).p.2 ≤ (st.nd m).p.2 := by
    by_contra hc
    rw [not_le] at hc
    simp only [wastar] at hp
    rw [if_neg (ne_of_lt hc), decide_eq_false_iff_not] at hp
    exact hp hc
  rw [hi.prio n hl.1, hi.prio m e0] at hle
  have hle' : (st.nd n).g + wt * h (st.nd n).state ≤ (st.nd m).g + wt * h (st.nd m).state := hle
  have f1 := hadm.1 _ _ (hi.walk n hl.1) hg
  have f2 := hadm.2 _ _ (hi.walk m e0) _ _ e2 e3
  rw [add_zero] at f2
  have hw0 : (0 : K) ≤ wt := le_trans zero_le_one hwt
  have f3 : 0 ≤ (st.nd m).g := (hi.walk m e0).nonneg hd.cost
  calc (st.nd n).g ≤ (st.nd n).g + wt * h (st.nd n).state := le_add_of_nonneg_right (mul_nonneg hw0 f1)
    _ ≤ (st.nd m).g + wt * h (st.nd m).state := hle'
    _ ≤ wt * (st.nd m).g + wt * c2 := by
        have a1 : (st.nd m).g ≤ wt * (st.nd m).g := le_mul_of_one_le_left f3 hwt
        have a2 : wt * h (st.nd m).state ≤ wt * c2 := mul_le_mul_of_nonneg_left f2 hw0
        exact add_le_add a1 a2
    _ = wt * ((st.nd m).g + c2) := by rw [← mul_add]
    _ ≤ wt * c' := mul_le_mul_of_nonneg_left (e4 rfl) hw0

/-- **C35.** With weight `wt >= 1` and an admissible heuristic (that is not negative on goals), without `-dropdups`,
the path returned by weighted A* costs at most `wt` times as much as any path to any goal. -/
theorem c35_bounded (hd : UndoOk d s0) {h : S → K} (hadm : Admissible d s0 h 0) {wt : K} (hwt : 1 ≤ wt)
    {l : Limit} {st : St S O K (K × K)} {r : List S × List O} (hr : Run d (wastar wt h false) s0 l st r)
    (hne : r ≠ ([], [])) :
    ∃ c, Solution d s0 r c ∧ ∀ ops ss t c', Plan d s0 ops ss c' → (s0 :: ss).getLast? = some t →
      d.goal t = true → c ≤ wt * c' := by
  cases hr with
  | empty => exact absurd rfl hne
  | cut => exact absurd rfl hne
  | found tr hlim hl hg hs =>
    rw [solpath_pop] at hs
    have hi := inv_reach hd.cost (wastar_ok wt h false) tr.reach
    obtain ⟨ss, c, h2, h3, h4, h5⟩ := solpath_ok hi hl.1 hs
    refine ⟨c, ⟨ss, h2, h3, _, h5, hg⟩, fun ops ss' t c' hp ht htg => h4.trans ?_⟩
    have hw := hp.walk
    rw [List.getLast?_eq_some_getLast (by simp)] at ht
    rw [Option.some.inj ht] at hw
    exact wastar_goal_le hd hadm hwt tr.reach hl hg hw htg

/-- What weighted A* returns is a genuine solution, with or without `-dropdups`. -/
theorem c35_solution (hd : CostOk d s0) (h : S → K) (wt : K) (dd : Bool) {l : Limit} {st : St S O K (K × K)}
    {r : List S × List O} (hr : Run d (wastar wt h dd) s0 l st r) (hne : r ≠ ([], [])) :
    ∃ c, Solution d s0 r c := by
  rcases run_solution hd (wastar_ok wt h dd) hr with h1 | ⟨_, c, _, _, h2, _⟩
  · exact absurd h1 hne
  · exact ⟨c, h2⟩

theorem c35_failure (hd : UndoOk d s0) (h : S → K) (wt : K) (dd : Bool) {st : St S O K (K × K)}
    (hr : Reach d (wastar wt h dd) s0 st) (he : Empty st) {t : S} {c : K} (hw : Walk d s0 t c) : d.goal t = false :=
  empty_no_goal hd (inv_reach hd.cost (wastar_ok wt h dd) hr) he hw

theorem c35_terminates (hd : CostOk d s0) (h : S → K) (wt : K) (dd : Bool) (hf : (Reachable d s0).Finite) :
    ¬ ∃ f : Nat → St S O K (K × K), f 0 = init d (wastar wt h dd) s0 ∧ ∀ k, Step d (wastar wt h dd) (f k) (f (k + 1)) :=
  terminates hd (wastar_ok wt h dd) hf

end Wastar

section Greedy
variable {S O C : Type*} [DecidableEq S] [DecidableEq O] [AddCommGroup C] [LinearOrder C] [IsOrderedAddMonoid C]
  {d : Dom S O C} {s0 : S}

/-- **C36 (soundness).** A path returned by greedy or speediest search is genuine. -/
theorem c36_solution (hd : CostOk d s0) (h : S → C) (dd : Bool) {l : Limit} {st : St S O C C}
    {r : List S × List O} (hr : Run d (greedy h dd) s0 l st r) (hne : r ≠ ([], [])) : ∃ c, Solution d s0 r c := by
  rcases run_solution hd (greedy_ok h dd) hr with h1 | ⟨_, c, _, _, h2, _⟩
  · exact absurd h1 hne
  · exact ⟨c, h2⟩

/-- **C36 (failure).** It runs out of open nodes only if no goal is reachable. -/
theorem c36_failure (hd : UndoOk d s0) (h : S → C) (dd : Bool) {st : St S O C C}
    (hr : Reach d (greedy h dd) s0 st) (he : Empty st) {ops : List O} {ss : List S} {t : S} {c : C}
    (hp : Plan d s0 ops ss c) (ht : (s0 :: ss).getLast? = some t) : d.goal t = false := by
  have hw := hp.walk
  rw [List.getLast?_eq_some_getLast (by simp)] at ht
  rw [Option.some.inj ht] at hw
  exact empty_no_goal hd (inv_reach hd.cost (greedy_ok h dd) hr) he hw

/-- **C36 (termination).** On a finite reachable state space it stops, whatever the heuristic, with and without
`-dropdups`. -/
theorem c36_terminates (hd : CostOk d s0) (h : S → C) (dd : Bool) (hf : (Reachable d s0).Finite) :
    ¬ ∃ f : Nat → St S O C C, f 0 = init d (greedy h dd) s0 ∧ ∀ k, Step d (greedy h dd) (f k) (f (k + 1)) :=
  terminates hd (greedy_ok h dd) hf

/-- **C36 (progress).** -/
theorem c36_progress (h : S → C) (dd : Bool) (st : St S O C C) :
    Empty st ∨ (∃ n, Least (greedy h dd) st n ∧ d.goal (st.nd n).state = true) ∨
      ∃ st', Step d (greedy h dd) st st' := by
  rcases progress (greedy_pred h dd) st with h1 | ⟨n, h1⟩
  · exact Or.inl h1
  · by_cases hg : d.goal (st.nd n).state = true
    · exact Or.inr (Or.inl ⟨n, h1, hg⟩)
    · exact Or.inr (Or.inr ⟨_, .mk h1 (by simpa using hg)⟩)

end Greedy

/-! ### `-dropdups` and examples -/

/-- A graph with rational costs. -/
def graphQ (n : Nat) [NeZero n] (es : List (Fin n × Fin n × Rat)) (goal : Fin n → Bool) :
    Dom (Fin n) (Option (Fin n)) Rat where
  ops s := (es.filter fun e => e.1 = s).map fun e => some e.2.1
  app _ o := o.getD 0
  cost s o := ((es.find? fun e => e.1 = s ∧ some e.2.1 = o).map fun e => e.2.2).getD 0
  rev s _ := some s
  nop := none
  goal := goal

/-- `s -10-> a`, `s -1-> b`, `b -1-> a`, `a -1-> goal`: states 0, 1, 2, 3. -/
def g2 : Dom (Fin 4) (Option (Fin 4)) Rat :=
  graphQ 4 [(0, 1, 10), (0, 2, 1), (2, 1, 1), (1, 3, 1)] (fun s => s = 3)

theorem g2_ok : DomOk g2 0 := DomOk.of_forall 0 (by decide +kernel)

/-- With `-dropdups` the bound is lost, even for the zero heuristic and weight 1: the better path to a state that is
already *open* is dropped as well.  Here the path found costs 11 while the best costs 3. -/
theorem c35_dropdups_unbounded :
    ∃ (st : St (Fin 4) (Option (Fin 4)) Rat (Rat × Rat)) (n : Nat) (r : List (Fin 4) × List (Option (Fin 4))),
      Run g2 (wastar 1 (fun _ => 0) true) 0 ⟨0, 0⟩ st r ∧ Solution g2 0 r 11 ∧
      Plan g2 0 [some 2, some 1, some 3] [2, 1, 3] 3 ∧ g2.goal 3 = true ∧ Admissible g2 0 (fun _ => 0) 0 ∧
      (st.nd n).g = 11 := by
  let st := (run g2 (wastar 1 (fun _ => 0) true) 20 (init g2 (wastar 1 (fun _ => 0) true) 0)).1
  refine ⟨st, 3, ([3, 1, 0], [some 3, some 1]), ?_, ?_, ?_, by decide, ?_, by decide +kernel⟩
  · have hr : ReachL g2 (wastar 1 (fun _ => 0) true) 0 ⟨0, 0⟩ st := by
      have := run_reach (d := g2) (a := wastar 1 (fun _ => 0) true) 20 (s0 := 0) .init
      have lift : ∀ st, Reach g2 (wastar 1 (fun _ => 0) true) 0 st → ReachL g2 (wastar 1 (fun _ => 0) true) 0 ⟨0, 0⟩ st := by
        intro st h
        induction h with
        | init => exact .init
        | step _ hs ih => exact .step ih (by simp [Limit.reached]) hs
      exact lift _ this
    exact .found hr (by simp [Limit.reached]) (n := 3) (fuel := 10) (by decide +kernel) (by decide +kernel)
      (by decide +kernel)
  · refine ⟨[1, 3], rfl, ?_, 3, rfl, by decide⟩
    have := Plan.cons (d := g2) (s := 0) (o := some 1) (by decide +kernel) (.cons (o := some 3) (by decide +kernel) (.nil _))
    have e : g2.cost 0 (some 1) + (g2.cost (g2.app 0 (some 1)) (some 3) + 0) = 11 := by decide +kernel
    rw [e] at this
    exact this
  · have := Plan.cons (d := g2) (s := 0) (o := some 2) (by decide +kernel) (.cons (o := some 1) (by decide +kernel)
      (.cons (o := some 3) (by decide +kernel) (.nil _)))
    have e : g2.cost 0 (some 2) + (g2.cost (g2.app 0 (some 2)) (some 1) +
      (g2.cost (g2.app (g2.app 0 (some 2)) (some 1)) (some 3) + 0)) = 3 := by decide +kernel
    rw [e] at this
    exact this
  · refine ⟨fun _ _ _ _ => le_rfl, fun s c0 hs t c hw _ => ?_⟩
    rw [add_zero]
    exact hw.nonneg (DomOk.of_forall s (by decide +kernel)).cost

-- without dropdups the same search returns the path of cost 3
example : ((run g2 (wastar 1 (fun _ => 0) false) 20 (init g2 (wastar 1 (fun _ => 0) false) 0)).2.map fun n =>
    solpath (run g2 (wastar 1 (fun _ => 0) false) 20 (init g2 (wastar 1 (fun _ => 0) false) 0)).1.nd 10 n) =
    some (.ok ([3, 1, 2, 0], [some 3, some 1, some 2])) := by decide +kernel

-- greedy search finds a solution, not the best one
example : ((run g2 (greedy ![5, 1, 2, 0] false) 20 (init g2 (greedy ![5, 1, 2, 0] false) 0)).2.map fun n =>
    solpath (run g2 (greedy ![5, 1, 2, 0] false) 20 (init g2 (greedy ![5, 1, 2, 0] false) 0)).1.nd 10 n) =
    some (.ok ([3, 1, 0], [some 3, some 1])) := by decide +kernel

end Verif.Search
