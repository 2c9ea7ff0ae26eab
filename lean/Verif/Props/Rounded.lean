import Verif.Search.Rounded
import Mathlib.Data.Fin.VecNotation

/-!
# C107: best-first search when costs are added with rounding

The theorems C29 to C38 compute with costs exactly.  The costs of three domains are `float` or `double`.  What remains
true when every sum is rounded, and what does not.
-/

namespace Verif.Rounded

open Verif.Search

variable {S O C P : Type*}

section
variable [DecidableEq S] [DecidableEq O] [Add C] [Zero C] [LinearOrder C] [RoundedAdd C]
  {d : Dom S O C} {a : Alg S C P} {s0 : S}

/-- **C107 (what is returned is a solution).** Whatever the order of the open list, and however the priorities have
drifted: when a goal node is taken from the open list its parent pointers lead back to the initial state in finitely
many steps, and what is reconstructed is a path of the domain from the initial state to that goal, whose cost, added up
in order with rounding, is at most the `g` of the node. -/
theorem c107_solution (hd : CostOk d s0) {st : St S O C P} (h : Reach d a s0 st) {n : Nat} (hl : Least a st n) :
    ∃ fuel r, (∀ fuel' ≥ fuel, solpath (pop n st).nd fuel' n = .ok r) ∧ r.1.head? = some (st.nd n).state ∧
      r.1.length = r.2.length + 1 ∧ IsSol d s0 (st.nd n).state (st.nd n).g r := by
  have hpop : ∀ fuel i, solpath (pop n st).nd fuel i = solpath st.nd fuel i := by
    intro fuel
    induction fuel with
    | zero => intro i; rfl
    | succ fuel ih =>
      intro i
      have e : ((pop n st).nd i).state = (st.nd i).state ∧ ((pop n st).nd i).parent = (st.nd i).parent ∧
          ((pop n st).nd i).op = (st.nd i).op := by
        unfold pop
        dsimp only
        by_cases e : i = n
        · rw [e, Function.update_self]; exact ⟨rfl, rfl, rfl⟩
        · rw [Function.update_of_ne e]; exact ⟨rfl, rfl, rfl⟩
      unfold solpath
      rw [e.1, e.2.1, e.2.2]
      cases (st.nd i).parent with
      | none => rfl
      | some m => dsimp only; rw [ih]
  obtain ⟨fuel, r, h1, h2⟩ := solpath_spec (inv_reach hd h) hl.1
  refine ⟨fuel, r, fun f hf => by rw [hpop]; exact solpath_mono' h1 hf, ?_, ?_, h2⟩
  · cases fuel with
    | zero => exact absurd h1 (by simp [solpath])
    | succ fuel =>
      unfold solpath at h1
      cases hp : (st.nd n).parent with
      | none => rw [hp] at h1; injection h1 with h1; rw [← h1]; rfl
      | some m =>
        rw [hp] at h1
        dsimp only at h1
        obtain ⟨r', -, e⟩ := Outcome.map_eq_ok.1 h1
        rw [← e]; rfl
  · obtain ⟨ss, cs, e1, e2, -⟩ := h2
    have e3 : ∀ {ss os t cs}, Path d s0 ss os t cs → ss.length = os.length := by
      intro ss os t cs hp
      induction hp with
      | nil => rfl
      | snoc _ _ ih => simp [ih]
    have := e3 e2
    have e4 := congrArg List.length e1
    rw [List.length_reverse] at this e4
    rw [List.length_cons] at e4
    omega

/-- **C107 (no solution is missed).** If the open list runs empty no goal is reachable: rounding never makes the search
give up early, with any priorities and with dropping of duplicates. -/
theorem c107_complete (hd : DomOk d s0) {st : St S O C P} (h : Reach d a s0 st) (he : Empty st) {t : S} {c : C}
    (hw : Walk d s0 t c) : d.goal t = false := by
  by_contra hg
  obtain ⟨k, e1, e2, -⟩ := frontier hd (inv_reach hd.cost h) hw (by simpa using hg)
  rw [he k e1] at e2
  exact absurd e2 (by simp)

/-- **C107 (the search ends).** If finitely many states are reachable the loop does not go on forever, although sums are
rounded and nodes are reopened: there is no infinite sequence of costs each less than the one before, all not negative,
among numbers of a fixed number of digits and a least exponent. -/
theorem c107_terminates [WellFoundedLT (Nonneg C)] (hd : CostOk d s0) (hf : (Reachable d s0).Finite) :
    ¬ ∃ f : Nat → St S O C P, f 0 = init d a s0 ∧ ∀ k, Step d a (f k) (f (k + 1)) :=
  terminates hd hf

/-- **C107 (bound, priorities computed afresh).** If the priorities of the open nodes are those one would compute
afresh, `f = g + h` rounded: when A* takes a goal from the open list its `g` is at most any bound that the `f` values
along a path to a goal keep, the running sum and `f` being rounded. -/
theorem c107_bound [Sub C] (hd : DomOk d s0) {h : S → C} {st : St S O C C} (hr : Reach d (rastar h) s0 st)
    (hp : ∀ i < st.next, (st.nd i).isopen = true → (st.nd i).p = (st.nd i).g + h (st.nd i).state) {n : Nat}
    (hl : Least (rastar h) st n) (hh : 0 ≤ h (st.nd n).state) {t : S} {c B : C}
    (hw : Walk d s0 t c) (hg : d.goal t = true)
    (hB : ∀ s cs, Walk d s0 s cs → Ext d s cs t c → cs + h s ≤ B) : (st.nd n).g ≤ B := by
  obtain ⟨k, e1, e2, ck, e3, e4, e5⟩ := frontier hd (inv_reach hd.cost hr) hw hg
  have hle : (st.nd n).p ≤ (st.nd k).p := by
    by_contra hc
    rw [not_le] at hc
    have := hl.2.2 k e1 e2
    unfold rastar at this
    dsimp only at this
    rw [if_neg (ne_of_lt hc), decide_eq_false_iff_not] at this
    exact this hc
  rw [hp n hl.1 hl.2.1, hp k e1 e2] at hle
  calc (st.nd n).g ≤ (st.nd n).g + h (st.nd n).state := RoundedAdd.up _ hh
    _ ≤ (st.nd k).g + h (st.nd k).state := hle
    _ ≤ ck + h (st.nd k).state := RoundedAdd.mono _ (e5 rfl)
    _ ≤ B := hB _ _ e3 e4

/-- The running sum does not decrease. -/
theorem Ext.le (hd : CostOk d s0) {s t : S} {c c' : C} (hw : Walk d s0 s c) (h : Ext d s c t c') :
    c ≤ c' ∧ Walk d s0 t c' := by
  induction h with
  | nil => exact ⟨le_rfl, hw⟩
  | snoc _ ho ih => exact ⟨ih.1.trans (RoundedAdd.up _ (hd _ _ ih.2 _ ho)), ih.2.snoc ho⟩

/-- Without a heuristic the update `f - g + g'` does no harm. -/
theorem algOk_zero [Sub C] [RoundedSub C] : AlgOk (rastar fun _ : S => (0 : C)) := by
  intro g g' s
  show g + 0 - g + g' = g' + 0
  rw [RoundedSub.add_zero, RoundedSub.add_zero, RoundedSub.sub_self, RoundedSub.zero_add]

/-- **C107 (A* without heuristic).** A* with the heuristic that is 0 everywhere returns a path whose rounded cost is
least among the rounded costs of all paths to goals, even with the incremental update of `f`. -/
theorem c107_uniform_rounded [Sub C] [RoundedSub C] (hd : DomOk d s0) {st : St S O C C}
    (hr : Reach d (rastar fun _ => 0) s0 st) {n : Nat} (hl : Least (rastar fun _ => 0) st n) {fuel : Nat}
    {r : List S × List O} (hs : solpath (pop n st).nd fuel n = .ok r) {ss : List S} {os : List O} {t : S} {cs : List C}
    (hw : Path d s0 ss os t cs) (hg : d.goal t = true) :
    ∃ ss' cs', r.1.reverse = s0 :: ss' ∧ Path d s0 ss' r.2.reverse (st.nd n).state cs' ∧ total cs' ≤ total cs := by
  obtain ⟨fuel', r', h1, -, -, ss', cs', e1, e2, e3⟩ := c107_solution hd.cost hr hl
  have h2 := solpath_mono' hs (Nat.le_max_left fuel fuel')
  rw [h1 _ (Nat.le_max_right fuel fuel')] at h2
  injection h2 with h2
  subst h2
  refine ⟨ss', cs', e1, e2, e3.trans ?_⟩
  refine c107_bound hd hr (fun i hi _ => prio_reach hd.cost algOk_zero hr i hi) hl le_rfl hw.walk hg (fun s c hsw hext => ?_)
  rw [RoundedSub.add_zero]
  exact (hext.le hd.cost hsw).1

end

section Double
variable [DecidableEq S] [DecidableEq O] {p : ℕ} {d : Dom S O (Dbl.Num p)} {s0 : S}

theorem path_nonneg (hd : CostOk d s0) {ss : List S} {os : List O} {t : S} {cs : List (Dbl.Num p)}
    (h : Path d s0 ss os t cs) : (∀ c ∈ cs, 0 ≤ c) ∧ cs.length = os.length := by
  induction h with
  | nil => exact ⟨by simp, rfl⟩
  | @snoc ss os s cs o hp ho ih =>
    refine ⟨fun c hc => ?_, by simp [ih.2]⟩
    rcases List.mem_append.1 hc with hc | hc
    · exact ih.1 c hc
    · rw [List.mem_singleton] at hc
      rw [hc]
      exact hd _ _ hp.walk _ ho

/-- **C107 (how far from the best).** With costs of `p + 1` binary digits, A* without heuristic returns a path of `m`
steps whose exact cost is at most `((1 + u)^k / (1 - u)^m)` times the exact cost of any path of `k` steps to a goal,
`u = 2^-(p+1)` being the unit of rounding (`2^-53` for `double`, `2^-24` for `float`).  In integers, with
`Q = 2^(p+1)`. -/
theorem c107_uniform_exact (hd : DomOk d s0) {st : St S O (Dbl.Num p) (Dbl.Num p)}
    (hr : Reach d (rastar fun _ => 0) s0 st) {n : Nat} (hl : Least (rastar fun _ => 0) st n) {fuel : Nat}
    {r : List S × List O} (hs : solpath (pop n st).nd fuel n = .ok r) {ss : List S} {os : List O} {t : S}
    {cs : List (Dbl.Num p)} (hw : Path d s0 ss os t cs) (hg : d.goal t = true) :
    ∃ ss' cs', r.1.reverse = s0 :: ss' ∧ Path d s0 ss' r.2.reverse (st.nd n).state cs' ∧
      (2 ^ (p + 1) - 1) ^ r.2.length * (2 ^ (p + 1)) ^ os.length * (cs'.map (·.1)).sum ≤
        (2 ^ (p + 1)) ^ r.2.length * (2 ^ (p + 1) + 1) ^ os.length * (cs.map (·.1)).sum := by
  obtain ⟨ss', cs', e1, e2, e3⟩ := c107_uniform_rounded hd hr hl hs hw hg
  refine ⟨ss', cs', e1, e2, ?_⟩
  obtain ⟨f1, f2⟩ := path_nonneg hd.cost hw
  obtain ⟨f1', f2'⟩ := path_nonneg hd.cost e2
  rw [List.length_reverse] at f2'
  obtain ⟨i0, i1, i2, i3⟩ := total_err cs f1
  obtain ⟨j0, j1, j2, j3⟩ := total_err cs' f1'
  rw [f2] at i2 i3
  rw [f2'] at j2 j3
  have e3' : (total cs').1 ≤ (total cs).1 := e3
  generalize hQ : (2 : ℤ) ^ (p + 1) = Q at *
  have hQ0 : 0 ≤ Q := by rw [← hQ]; positivity
  calc (Q - 1) ^ r.2.length * Q ^ os.length * (cs'.map (·.1)).sum
      = Q ^ os.length * ((Q - 1) ^ r.2.length * (cs'.map (·.1)).sum) := by ring
    _ ≤ Q ^ os.length * (Q ^ r.2.length * (total cs').1) := mul_le_mul_of_nonneg_left j2 (by positivity)
    _ = Q ^ r.2.length * (Q ^ os.length * (total cs').1) := by ring
    _ ≤ Q ^ r.2.length * (Q ^ os.length * (total cs).1) := by gcongr
    _ ≤ Q ^ r.2.length * ((Q + 1) ^ os.length * (cs.map (·.1)).sum) := mul_le_mul_of_nonneg_left i3 (by positivity)
    _ = Q ^ r.2.length * (Q + 1) ^ os.length * (cs.map (·.1)).sum := by ring

end Double

/-! ## What goes wrong -/

/-- A graph with costs of `p + 1` digits; operators are named by the state they lead to. -/
def graphN (p n : Nat) [NeZero n] (es : List (Fin n × Fin n × Int)) (goal : Fin n → Bool) :
    Dom (Fin n) (Option (Fin n)) (Dbl.Num p) where
  ops s := (es.filter fun e => e.1 = s).map fun e => some e.2.1
  app _ o := o.getD 0
  cost s o := Dbl.Num.of p (((es.find? fun e => e.1 = s ∧ some e.2.1 = o).map fun e => e.2.2).getD 0)
  rev s _ := some s
  nop := none
  goal := goal

/-- 0 start, 1 a detour, 2 the last state before the goal, 3 the goal: a path of cost 8 by way of 1 and 2, one of cost 9
directly, and a very expensive edge from 0 to 2. -/
def drift : Dom (Fin 4) (Option (Fin 4)) (Dbl.Num 52) :=
  graphN 52 4 [(0, 2, 2 ^ 54), (0, 1, 1), (0, 3, 9), (1, 2, 1), (2, 3, 6)] (· == 3)

/-- The exact distances to the goal. -/
def driftH : Fin 4 → Dbl.Num 52 := fun s => Dbl.Num.of 52 (![8, 7, 6, 0] s)

theorem drift_ok : DomOk drift 0 := DomOk.of_forall 0 (by decide +kernel)

/-- **C107 (what goes wrong: f drifts).** astar.hpp:133 updates `f` of a node that is reached more cheaply by
`f = f - g + g'`.  If the node was first reached very expensively, `f = g + h` was rounded to a multiple of a large
power of two, and the difference `f - g` is not `h` any more but up to twice as large.  With doubles, costs that are all
exact and a heuristic that is the exact distance, A* takes the goal of cost 9 although there is a path of cost 8 (all sums
on which are exact). -/
theorem c107_drift : ∃ (st : St (Fin 4) (Option (Fin 4)) (Dbl.Num 52) (Dbl.Num 52)) (n : Nat),
    Reach drift (rastar driftH) 0 st ∧ Least (rastar driftH) st n ∧ drift.goal (st.nd n).state = true ∧
    (st.nd n).g = Dbl.Num.of 52 9 ∧
    (∃ ss os cs, Path drift 0 ss os 3 cs ∧ cs.map (·.1) = [1, 1, 6] ∧ total cs = Dbl.Num.of 52 8) ∧
    (∀ s o, o ∈ drift.ops s → (driftH s).1 ≤ (drift.cost s o).1 + (driftH (drift.app s o)).1) := by
  refine ⟨(run drift (rastar driftH) 10 (init drift (rastar driftH) 0)).1, 3, run_reach _ .init, ?_, ?_, ?_,
    ⟨[1, 2, 3], [some 1, some 2, some 3], [Dbl.Num.of 52 1, Dbl.Num.of 52 1, Dbl.Num.of 52 6], ?_, ?_, ?_⟩, ?_⟩
  · decide +kernel
  · decide +kernel
  · decide +kernel
  · exact ((Path.nil (d := drift) (s0 := 0)).snoc (o := some 1) (by decide +kernel)).snoc (o := some 2) (by decide +kernel)
      |>.snoc (o := some 3) (by decide +kernel)
  · decide +kernel
  · decide +kernel
  · decide +kernel

/-! ## The hypotheses can be met -/

/-- Adding up is not associative: with 53 digits `1 + 1 + 2^54` is not `2^54 + 1 + 1`. -/
example : total [Dbl.Num.of 52 1, Dbl.Num.of 52 2, Dbl.Num.of 52 (2 ^ 54)] ≠
    total [Dbl.Num.of 52 (2 ^ 54), Dbl.Num.of 52 1, Dbl.Num.of 52 2] := by decide +kernel

/-- A case in which sums are rounded. -/
def far : Dom (Fin 4) (Option (Fin 4)) (Dbl.Num 2) :=
  graphN 2 4 [(0, 1, 7), (1, 2, 1), (2, 3, 1), (1, 3, 3)] (· == 3)

theorem far_ok : DomOk far 0 := DomOk.of_forall 0 (by decide +kernel)

/-- With three digits `7 + 1 + 1 = 8` (the last 1 is lost) and `7 + 3 = 10`. -/
example : ∃ st : St (Fin 4) (Option (Fin 4)) (Dbl.Num 2) (Dbl.Num 2), ∃ n,
    Reach far (rastar fun _ => 0) 0 st ∧ Least (rastar fun _ => 0) st n ∧ far.goal (st.nd n).state = true ∧
    ((st.nd n).g).1 = 8 ∧ solpath (pop n st).nd 5 n = .ok ([3, 2, 1, 0], [some 3, some 2, some 1]) :=
  ⟨(run far (rastar fun _ => 0) 10 (init far (rastar fun _ => 0) 0)).1, 3, run_reach _ .init, by decide +kernel,
    by decide +kernel, by decide +kernel, by decide +kernel⟩

/-- A case of `c107_bound` with a heuristic: the graph of `c107_drift` without the expensive edge; the `f` values on the
way by 1 and 2 are all 8. -/
def near : Dom (Fin 4) (Option (Fin 4)) (Dbl.Num 52) :=
  graphN 52 4 [(0, 2, 4), (0, 1, 1), (0, 3, 9), (1, 2, 1), (2, 3, 6)] (· == 3)

theorem near_ok : DomOk near 0 := DomOk.of_forall 0 (by decide +kernel)

example : ∃ st : St (Fin 4) (Option (Fin 4)) (Dbl.Num 52) (Dbl.Num 52), ∃ n,
    Reach near (rastar driftH) 0 st ∧ Least (rastar driftH) st n ∧ near.goal (st.nd n).state = true ∧
    (∀ i < st.next, (st.nd i).isopen = true → (st.nd i).p = (st.nd i).g + driftH (st.nd i).state) ∧
    ((st.nd n).g).1 = 8 :=
  ⟨(run near (rastar driftH) 10 (init near (rastar driftH) 0)).1, 3, run_reach _ .init, by decide +kernel,
    by decide +kernel, by decide +kernel, by decide +kernel⟩

example : CostOk far 0 := far_ok.cost
example : (Reachable far 0).Finite := Set.toFinite _
example : WellFoundedLT (Nonneg (Dbl.Num 52)) := inferInstance
example : AlgOk (rastar fun _ : Fin 4 => (0 : Dbl.Num 52)) := algOk_zero

end Verif.Rounded
