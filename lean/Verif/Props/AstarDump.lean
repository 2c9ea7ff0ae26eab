import Verif.Search.AstarDump
import Verif.Props.Wastar

/-!
# C104: the rows printed by A* for learning heuristics

`DRun d h dist s0 l x r rs`: a run of `astar-dump` ends with `res.path`, `res.ops` = `r` (goal first) and has printed
the rows `rs`.
-/

namespace Verif.Search

variable {S O C P : Type*} [DecidableEq S] [DecidableEq O] [AddCommGroup C] [LinearOrder C] [IsOrderedAddMonoid C]
  {d : Dom S O C} {h dist : S → C} {s0 : S}

theorem dumpgoal_pop {x : DSt S O C} {n : Nat} (fuel i : Nat) (c : C) (k : Nat) :
    dumpgoal (dpop n x) fuel i c k = dumpgoal x fuel i c k := by
  have e : ∀ i, ((dpop n x).st.nd i).g = (x.st.nd i).g ∧ ((dpop n x).st.nd i).p = (x.st.nd i).p ∧
      ((dpop n x).st.nd i).parent = (x.st.nd i).parent := fun i => by
    unfold dpop pop
    dsimp only
    by_cases e : i = n
    · rw [e, Function.update_self]; exact ⟨rfl, rfl, rfl⟩
    · rw [Function.update_of_ne e]; exact ⟨rfl, rfl, rfl⟩
  induction fuel generalizing i c k with
  | zero => rfl
  | succ fuel ih =>
    unfold dumpgoal
    dsimp only
    rw [(e i).1, (e i).2.1, (e i).2.2]
    cases (x.st.nd i).parent with
    | none => rfl
    | some m => dsimp only; rw [ih]; rfl

/-- The rows of a found goal. -/
theorem found_rows (hd : DomOk d s0) {l : Limit} {x : DSt S O C} {n fuel : Nat} {r : List S × List O}
    {rs : List (Row C)} (h1 : DReach d h dist s0 l x) (h3 : Least (astar h) x.st n)
    (h5 : solpath (pop n x.st).nd fuel n = .ok r) (h6 : dumpgoal (dpop n x) fuel n 0 0 = .ok rs) :
    rs.length = r.1.length ∧
      ∀ i s row, r.1[i]? = some s → rs[i]? = some row → RowOk d h dist s0 r [] [] i s row := by
  rw [solpath_pop] at h5
  rw [dumpgoal_pop] at h6
  have hre := h1.reachL.reach
  obtain ⟨f1, -, f3⟩ := dumpgoal_ok (inv_reach hd.cost (astar_ok h) hre) (xinv_reach hd.cost h1) h3.1
    (fun j i hp hs => least_exact hd (astar_ok h) (astar_byF h) hre h3 hp hs) (.nil _) h5 h6
  exact ⟨f1, f3⟩

/-- **C104 (the search).** The search itself is A*. -/
theorem c104_astar {l : Limit} {x : DSt S O C} {r : List S × List O} {rs : List (Row C)}
    (hr : DRun d h dist s0 l x r rs) : ∃ st, Run d (astar h) s0 l st r := by
  cases hr with
  | empty h1 h2 => exact ⟨_, .empty h1.reachL h2⟩
  | cut h1 => exact ⟨_, .cut True h1.reachL (.inl trivial)⟩
  | found h1 h2 h3 h4 h5 _ => exact ⟨_, .found h1.reachL h2 h3 h4 h5⟩

/-- When a goal is taken out the loop of `dumpgoal` ends. -/
theorem c104_printed (hd : CostOk d s0) {l : Limit} {x : DSt S O C} {n : Nat} (hr : DReach d h dist s0 l x)
    (hl : ¬ l.reached x.st) (hm : Least (astar h) x.st n) (hg : d.goal (x.st.nd n).state = true) :
    ∃ r rs, DRun d h dist s0 l (dpop n x) r rs ∧ r ≠ ([], []) := by
  obtain ⟨fuel, r, h1, h2, -⟩ := c37_solpath hd (astar_ok h) hr.reachL.reach hm.1
  have h3 := h1 fuel le_rfl
  obtain ⟨rs, h4⟩ := dumpgoal_ends h3 (0 : C) 0
  refine ⟨r, rs, .found hr hl hm hg (fuel := fuel) (by rw [solpath_pop]; exact h3) (by rw [dumpgoal_pop]; exact h4), ?_⟩
  rintro rfl
  exact absurd h2 (by simp)

/-- **C104 (one row for each state of the path).** None if no path is returned. -/
theorem c104_length (hd : DomOk d s0) {l : Limit} {x : DSt S O C} {r : List S × List O} {rs : List (Row C)}
    (hr : DRun d h dist s0 l x r rs) : rs.length = r.1.length := by
  cases hr with
  | empty => rfl
  | cut => rfl
  | found h1 h2 h3 h4 h5 h6 => exact (found_rows hd h1 h3 h5 h6).1

/-- **C104 (what the rows say).** For whatever heuristic: the `i`th row belongs to the `i`th state of the path, goal
first.  `h` and `d` are the estimates of that state, `D` is the number of operators before it, `g` their cost, `d*` the
number of operators after it up to the goal, `h*` their cost. -/
theorem c104_rows (hd : DomOk d s0) {l : Limit} {x : DSt S O C} {r : List S × List O} {rs : List (Row C)}
    (hr : DRun d h dist s0 l x r rs) {i : Nat} {s : S} {row : Row C} (hs : r.1[i]? = some s) (hrow : rs[i]? = some row) :
    row.h = h s ∧ row.d = dist s ∧ row.dstar = i ∧ row.D = r.2.length - i ∧
      Plan d s (r.2.take i).reverse (r.1.take i).reverse row.hstar ∧
      ∃ ss, (r.1.drop i).reverse = s0 :: ss ∧ Plan d s0 (r.2.drop i).reverse ss row.g := by
  cases hr with
  | empty => exact absurd hs (by simp)
  | cut => exact absurd hs (by simp)
  | found h1 h2 h3 h4 h5 h6 =>
    have hok := (found_rows hd h1 h3 h5 h6).2 i s row hs hrow
    refine ⟨hok.hval, hok.dval, by simpa using hok.dstar, ?_, by simpa using hok.hstar, hok.g⟩
    obtain ⟨ss, e1, e2⟩ := hok.g
    have e3 := e2.length
    have e4 := congrArg List.length e1
    simp only [List.length_reverse, List.length_drop, List.length_cons] at e3 e4
    have e5 := hok.depth
    omega

/-- **C104 (training values).** If the heuristic never over-estimates, `h*` is the cost of a cheapest way from the
state to a goal, for every row; so `h ≤ h*` (for `k = 0`, a heuristic that is 0 on goals). -/
theorem c104_optimal (hd : DomOk d s0) {k : C} (hadm : Admissible d s0 h k) {l : Limit} {x : DSt S O C}
    {r : List S × List O} {rs : List (Row C)} (hr : DRun d h dist s0 l x r rs) {i : Nat} {s : S} {row : Row C}
    (hs : r.1[i]? = some s) (hrow : rs[i]? = some row) :
    (∀ t c, Walk d s t c → d.goal t = true → row.hstar ≤ c) ∧ (∃ t, Walk d s t row.hstar ∧ d.goal t = true) ∧
      row.h ≤ row.hstar + k := by
  obtain ⟨e1, -, -, -, e5, ss, e6, e7⟩ := c104_rows hd hr hs hrow
  have hlast : (s :: (r.1.take i).reverse).getLast (by simp) = r.1.head? := by
    cases hr1 : r.1 with
    | nil => rw [hr1] at hs; exact absurd hs (by simp)
    | cons a tl =>
      cases i with
      | zero =>
        rw [hr1, List.getElem?_cons_zero] at hs
        simp at hs ⊢
        exact hs.symm
      | succ i => simp
  have hws := e5.walk
  have hwg : Walk d s0 s row.g := by
    have h1 := e7.walk
    have h2 : (s0 :: ss).getLast (by simp) = s := by
      have h3 : (s0 :: ss).getLast? = some s := by
        rw [← e6, List.getLast?_reverse, List.head?_drop]
        exact hs
      rw [List.getLast?_eq_some_getLast (by simp)] at h3
      exact Option.some.inj h3
    rw [h2] at h1
    exact h1
  have hgoal : ∃ t, r.1.head? = some t ∧ d.goal t = true ∧ ∀ t' c, Walk d s0 t' c → d.goal t' = true →
      row.g + row.hstar ≤ c := by
    cases hr with
    | empty => exact absurd hs (by simp)
    | cut => exact absurd hs (by simp)
    | @found x n fuel r rs h1 h2 h3 h4 h5 h6 =>
      rw [solpath_pop] at h5
      have hre := h1.reachL.reach
      have hi := inv_reach hd.cost (astar_ok h) hre
      obtain ⟨ss', f1, f2, f3⟩ := solpath_exact hi h3.1
        (fun j i hp hs => least_exact hd (astar_ok h) (astar_byF h) hre h3 hp hs) h5
      refine ⟨_, f3, h4, fun t' c hw hg => ?_⟩
      have hle := astar_goal_le hd.undo hadm hre h3 h4 hw hg
      refine le_trans (le_of_eq ?_) hle
      -- the whole plan is that of the prefix and that of the suffix
      have hcat := plan_append e7 (by
        have h3 : (s0 :: ss).getLast? = some s := by
          rw [← e6, List.getLast?_reverse, List.head?_drop]
          exact hs
        exact h3) e5
      have hops : (r.2.drop i).reverse ++ (r.2.take i).reverse = r.2.reverse := by
        rw [← List.reverse_append, List.take_append_drop]
      rw [hops] at hcat
      exact plan_cost hcat f2
  obtain ⟨t, g1, g2, g3⟩ := hgoal
  rw [← hlast] at g1
  have g1' : (s :: (r.1.take i).reverse).getLast (by simp) = t := by
    exact Option.some.inj g1
  rw [g1'] at hws
  refine ⟨fun t' c hw hg => ?_, ⟨t, hws, g2⟩, ?_⟩
  · exact (add_le_add_iff_left _).1 (g3 t' _ (hwg.trans hw) hg)
  · rw [e1]
    exact hadm.2 s _ hwg t _ hws g2
where
  plan_append {d : Dom S O C} {s s' : S} {os os' : List O} {ss ss' : List S} {c c' : C} (hp : Plan d s os ss c)
      (hl : (s :: ss).getLast? = some s') (hp' : Plan d s' os' ss' c') :
      Plan d s (os ++ os') (ss ++ ss') (c + c') := by
    induction hp with
    | nil s =>
      rw [List.getLast?_singleton, Option.some.injEq] at hl
      subst hl
      rw [zero_add]
      exact hp'
    | cons ho _ ih =>
      rw [List.getLast?_cons_cons] at hl
      rw [add_assoc]
      exact .cons ho (ih hl)
  plan_cost {d : Dom S O C} {s : S} {os : List O} {ss ss' : List S} {c c' : C} (hp : Plan d s os ss c)
      (hp' : Plan d s os ss' c') : c = c' := by
    induction hp generalizing ss' c' with
    | nil s => cases hp'; rfl
    | cons ho _ ih =>
      cases hp' with
      | cons _ h2 => rw [ih h2]

/-! ### What the rows do not say -/

/-- `0 -10-> 2`, `0 -1-> 1`, `1 -1-> 2`. -/
def g3 : Dom (Fin 3) (Option (Fin 3)) Int := graph 3 [(0, 2, 10), (0, 1, 1), (1, 2, 1)] (fun s => s = 2)

theorem g3_ok : DomOk g3 0 := DomOk.of_forall 0 (by decide +kernel)

/-- The search popping the nodes `ns` in turn. -/
def dsteps (d : Dom S O C) (h dist : S → C) : List Nat → DSt S O C → DSt S O C
  | [], x => x
  | n :: ns, x => dsteps d h dist ns (dexpand d h dist n (dpop n x))

theorem g3_admissible : Admissible g3 0 (fun _ => 0) 0 := by
  refine ⟨fun _ _ _ _ => le_rfl, fun s c0 hs t c hw _ => ?_⟩
  rw [add_zero]
  exact hw.nonneg (DomOk.of_forall s (by decide +kernel)).cost

theorem g3_run {h : Fin 3 → Int} {n : Nat} {ns : List Nat} {r : List (Fin 3) × List (Option (Fin 3))}
    {rs : List (Row Int)} (hr : DReach g3 h (fun _ => 0) 0 ⟨0, 0⟩ (dsteps g3 h (fun _ => 0) ns (dinit g3 h (fun _ => 0) 0)))
    (h1 : Least (astar h) (dsteps g3 h (fun _ => 0) ns (dinit g3 h (fun _ => 0) 0)).st n)
    (h2 : g3.goal ((dsteps g3 h (fun _ => 0) ns (dinit g3 h (fun _ => 0) 0)).st.nd n).state = true)
    (h3 : solpath (pop n (dsteps g3 h (fun _ => 0) ns (dinit g3 h (fun _ => 0) 0)).st).nd 5 n = .ok r)
    (h4 : dumpgoal (dpop n (dsteps g3 h (fun _ => 0) ns (dinit g3 h (fun _ => 0) 0))) 5 n 0 0 = .ok rs) :
    ∃ x, DRun g3 h (fun _ => 0) 0 ⟨0, 0⟩ x r rs :=
  ⟨_, .found hr (by simp [Limit.reached]) h1 h2 h3 h4⟩

/-- `d*` is not the least number of operators to a goal, even with an admissible heuristic: from the initial state 0
the goal is one operator away, the row says 2. -/
theorem c104_dstar_not_least : ∃ x r rs row, DRun g3 (fun _ => 0) (fun _ => 0) 0 ⟨0, 0⟩ x r rs ∧
    r.1[2]? = some 0 ∧ rs[2]? = some row ∧ row.dstar = 2 ∧ row.hstar = 2 ∧ Plan g3 0 [some 2] [2] 10 ∧
    g3.goal 2 = true := by
  have hlim : ∀ x : DSt (Fin 3) (Option (Fin 3)) Int, ¬ (⟨0, 0⟩ : Limit).reached x.st := fun x => by
    simp [Limit.reached]
  have hr : DReach g3 (fun _ => 0) (fun _ => 0) 0 ⟨0, 0⟩
      (dsteps g3 (fun _ => 0) (fun _ => 0) [0, 2] (dinit g3 (fun _ => 0) (fun _ => 0) 0)) :=
    .step (.step .init (hlim _) (by decide +kernel) (by decide +kernel)) (hlim _) (by decide +kernel)
      (by decide +kernel)
  obtain ⟨x, hx⟩ := g3_run (n := 1) (r := ([2, 1, 0], [some 2, some 1]))
    (rs := [⟨2, 0, 2, 0, 0, 0⟩, ⟨1, 0, 1, 0, 1, 1⟩, ⟨0, 0, 0, 0, 2, 2⟩]) hr (by decide +kernel) (by decide +kernel)
    (by decide +kernel) (by decide +kernel)
  refine ⟨x, _, _, _, hx, rfl, rfl, rfl, rfl, ?_, by decide⟩
  have := Plan.cons (d := g3) (s := 0) (o := some 2) (by decide +kernel) (.nil _)
  exact this

/-- With a heuristic that over-estimates, `h*` is not the cost of a cheapest way: the row of state 0 says 10, where 2
suffices. -/
theorem c104_hstar_over : ∃ (h : Fin 3 → Int) (x : _) (r : _) (rs : List (Row Int)) (row : Row Int),
    DRun g3 h (fun _ => 0) 0 ⟨0, 0⟩ x r rs ∧ r.1[1]? = some 0 ∧ rs[1]? = some row ∧ row.hstar = 10 ∧
      Plan g3 0 [some 1, some 2] [1, 2] 2 := by
  have hlim : ∀ x : DSt (Fin 3) (Option (Fin 3)) Int, ¬ (⟨0, 0⟩ : Limit).reached x.st := fun x => by
    simp [Limit.reached]
  have hr : DReach g3 ![0, 20, 0] (fun _ => 0) 0 ⟨0, 0⟩
      (dsteps g3 ![0, 20, 0] (fun _ => 0) [0] (dinit g3 ![0, 20, 0] (fun _ => 0) 0)) :=
    .step .init (hlim _) (by decide +kernel) (by decide +kernel)
  obtain ⟨x, hx⟩ := g3_run (n := 1) (r := ([2, 0], [some 2]))
    (rs := [⟨10, 0, 1, 0, 0, 0⟩, ⟨0, 0, 0, 0, 10, 1⟩]) hr (by decide +kernel) (by decide +kernel)
    (by decide +kernel) (by decide +kernel)
  refine ⟨_, x, _, _, _, hx, rfl, rfl, rfl, ?_⟩
  have := Plan.cons (d := g3) (s := 0) (o := some 1) (by decide +kernel) (.cons (o := some 2) (by decide +kernel) (.nil _))
  exact this

-- The hypotheses of `c104_optimal` hold for the run of `c104_dstar_not_least`.
example : DomOk g3 0 ∧ Admissible g3 0 (fun _ => 0) 0 := ⟨g3_ok, g3_admissible⟩

end Verif.Search
