import Verif.Search.BestFirstThms
import Mathlib.Algebra.Order.Field.Basic
import Mathlib.Tactic.Ring

/-!
# A*, weighted A* and greedy search as instances, and an executable run for examples
-/

namespace Verif.Search

variable {S O C P : Type*}

/-- search/astar.hpp: `f = g + h` (lines 146, 159), updated by `f = f - g + g'` (133), ordered by smaller `f`, then
larger `g` (40-44; the bucketed open list orders by `prio`/`tieprio`, 46-52, in the same way). -/
def astar [AddCommGroup C] [LinearOrder C] (h : S → C) : Alg S C C where
  initp g s := g + h s
  updp f g g' := f - g + g'
  pred x y := if x.1 = y.1 then decide (x.2 > y.2) else decide (x.1 < y.1)
  dropdups := false

/-- search/wastar.hpp: fields `f = g + h` and `fprime = g + wt * h` (151-152), updated by the difference of the `g`
values (141-142), ordered by `fprime`, then `f`, then larger `g` (43-50). -/
def wastar {K : Type*} [Field K] [LinearOrder K] (wt : K) (h : S → K) (dropdups : Bool) : Alg S K (K × K) where
  initp g s := (g + h s, g + wt * h s)
  updp p g g' := (p.1 - g + g', p.2 - g + g')
  pred x y :=
    if x.1.2 = y.1.2 then
      if x.1.1 = y.1.1 then decide (x.2 > y.2) else decide (x.1.1 < y.1.1)
    else decide (x.1.2 < y.1.2)
  dropdups := dropdups

/-- search/greedy.hpp: the only field is `h` (or the distance estimate, when `speedy`; 146), which an update leaves
alone; ordered by `h` (39-41). -/
def greedy [AddCommGroup C] [LinearOrder C] (h : S → C) (dropdups : Bool) : Alg S C C where
  initp _ s := h s
  updp p _ _ := p
  pred x y := decide (x.1 < y.1)
  dropdups := dropdups

section
variable [AddCommGroup C] [LinearOrder C]

theorem astar_ok (h : S → C) : AlgOk (astar h) := by
  intro g g' s
  show g + h s - g + g' = g' + h s
  abel

theorem greedy_ok (h : S → C) (dd : Bool) : AlgOk (greedy h dd) := fun _ _ _ => rfl

theorem astar_pred (h : S → C) : PredOk (astar h) where
  irrefl x := by simp [astar]
  trans x y z := by
    simp only [astar]
    intro h1 h2
    by_cases e1 : x.1 = y.1
    · rw [if_pos e1, decide_eq_true_eq] at h1
      by_cases e2 : y.1 = z.1
      · rw [if_pos e2, decide_eq_true_eq] at h2
        rw [if_pos (e1.trans e2), decide_eq_true_eq]
        exact lt_trans h2 h1
      · rw [if_neg e2, decide_eq_true_eq] at h2
        rw [if_neg (by rw [e1]; exact e2), decide_eq_true_eq, e1]
        exact h2
    · rw [if_neg e1, decide_eq_true_eq] at h1
      by_cases e2 : y.1 = z.1
      · rw [if_neg (by rw [← e2]; exact e1), decide_eq_true_eq, ← e2]
        exact h1
      · rw [if_neg e2, decide_eq_true_eq] at h2
        have := lt_trans h1 h2
        rw [if_neg (ne_of_lt this), decide_eq_true_eq]
        exact this

theorem greedy_pred (h : S → C) (dd : Bool) : PredOk (greedy h dd) where
  irrefl x := by simp [greedy]
  trans x y z := by
    simp only [greedy, decide_eq_true_eq]
    exact lt_trans
end

section
variable {K : Type*} [Field K] [LinearOrder K]

theorem wastar_ok (wt : K) (h : S → K) (dd : Bool) : AlgOk (wastar wt h dd) := by
  intro g g' s
  show (g + h s - g + g', g + wt * h s - g + g') = (g' + h s, g' + wt * h s)
  rw [Prod.mk.injEq]
  exact ⟨by ring, by ring⟩

theorem wastar_pred (wt : K) (h : S → K) (dd : Bool) : PredOk (wastar wt h dd) where
  irrefl x := by simp [wastar]
  trans x y z := by
    have key : ∀ x y : (K × K) × K, (wastar wt h dd).pred x y = true ↔
        x.1.2 < y.1.2 ∨ (x.1.2 = y.1.2 ∧ (x.1.1 < y.1.1 ∨ (x.1.1 = y.1.1 ∧ x.2 > y.2))) := by
      intro x y
      simp only [wastar]
      by_cases e1 : x.1.2 = y.1.2
      · by_cases e2 : x.1.1 = y.1.1
        · rw [if_pos e1, if_pos e2]; simp [e1, e2]
        · rw [if_pos e1, if_neg e2]; simp [e1, e2]
      · rw [if_neg e1]; simp [e1]
    rw [key, key, key]
    rintro (h1 | ⟨h1, h1'⟩) (h2 | ⟨h2, h2'⟩)
    · exact Or.inl (lt_trans h1 h2)
    · exact Or.inl (h2 ▸ h1)
    · exact Or.inl (h1 ▸ h2)
    · refine Or.inr ⟨h1.trans h2, ?_⟩
      rcases h1' with h1' | ⟨h1', h1''⟩ <;> rcases h2' with h2' | ⟨h2', h2''⟩
      · exact Or.inl (lt_trans h1' h2')
      · exact Or.inl (h2' ▸ h1')
      · exact Or.inl (h1' ▸ h2')
      · exact Or.inr ⟨h1'.trans h2', lt_trans h2'' h1''⟩
end

/-! ## An executable run -/

section Exec
variable [DecidableEq S] [DecidableEq O] [Add C] [Zero C] [LE C] [DecidableLE C]

instance (a : Alg S C P) (st : St S O C P) (n : Nat) : Decidable (Least a st n) := by
  unfold Least; infer_instance

instance (st : St S O C P) : Decidable (Empty st) := by unfold Empty; infer_instance

/-- The loop with the first least node popped; stops at a goal, or when nothing is open. -/
def run (d : Dom S O C) (a : Alg S C P) : Nat → St S O C P → St S O C P × Option Nat
  | 0, st => (st, none)
  | fuel + 1, st =>
    match (List.range st.next).find? fun n => decide (Least a st n) with
    | none => (st, none)
    | some n => if d.goal (st.nd n).state then (st, some n) else run d a fuel (expand d a n (pop n st))

theorem run_reach {d : Dom S O C} {a : Alg S C P} {s0 : S} (fuel : Nat) {st : St S O C P}
    (h : Reach d a s0 st) : Reach d a s0 (run d a fuel st).1 := by
  induction fuel generalizing st with
  | zero => exact h
  | succ fuel ih =>
    unfold run
    cases hf : (List.range st.next).find? fun n => decide (Least a st n) with
    | none => exact h
    | some n =>
      dsimp only
      have hl : Least a st n := by
        have := List.find?_some hf
        simpa using this
      by_cases hg : d.goal (st.nd n).state = true
      · rw [if_pos hg]; exact h
      · rw [if_neg hg]
        exact ih (.step h (.mk hl (by simpa using hg)))

end Exec

/-- A way to establish `DomOk`. -/
theorem DomOk.of_forall [Add C] [Zero C] [LE C] {d : Dom S O C} (s0 : S)
    (h : ∀ s, d.nop ∉ d.ops s ∧ ∀ o ∈ d.ops s, 0 ≤ d.cost s o ∧
      (d.rev s o ∈ d.ops (d.app s o) → d.app (d.app s o) (d.rev s o) = s)) : DomOk d s0 :=
  ⟨fun s _ _ o ho => ((h s).2 o ho).1, fun s _ _ o ho => ((h s).2 o ho).2, fun s _ _ => (h s).1⟩

/-- A graph given by a list of edges `(from, to, cost)`, as a domain: the operators are the edges, named by the
state they lead to. -/
def graph (n : Nat) [NeZero n] (es : List (Fin n × Fin n × Int)) (goal : Fin n → Bool) :
    Dom (Fin n) (Option (Fin n)) Int where
  ops s := (es.filter fun e => e.1 = s).map fun e => some e.2.1
  app _ o := o.getD 0
  cost s o := ((es.find? fun e => e.1 = s ∧ some e.2.1 = o).map fun e => e.2.2).getD 0
  rev s _ := some s
  nop := none
  goal := goal

end Verif.Search
