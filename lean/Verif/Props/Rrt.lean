import Verif.Search.Rrt
import Verif.Props.KdTree
import Verif.Search.Algs
import Mathlib.Algebra.Order.Ring.Int
import Mathlib.Algebra.Order.Field.Rat
import Mathlib.Data.Fin.VecNotation

/-!
# C105: rapidly exploring random trees

The samples are an arbitrary list of points.  `search … qs fresh` is what a new search object has done when it has used the
samples `qs`: `.on x` if it is still searching, `.found x r` if it has stopped with the states `r.1` and the operators
`r.2`, last first.
-/

namespace Verif.Rrt

open Verif.Search (Dom Walk Plan graph)
open Verif.KdTree (Pt dist2)

variable {S O C F : Type*} {k : Nat} [DecidableEq O] [Field F] [LinearOrder F] [IsStrictOrderedRing F]
  [AddCommGroup C] [LinearOrder C] [IsOrderedAddMonoid C] {d : Dom S O C} {vec : S → Pt F k} {s0 : S}

/-- A line of four states; the last is a goal. -/
def line : Dom (Fin 4) (Option (Fin 4)) Int :=
  graph 4 [(0, 1, 1), (1, 0, 1), (1, 2, 1), (2, 1, 1), (2, 3, 1)] (· = 3)

/-- The state as a point. -/
def num {n : Nat} (s : Fin n) : Pt ℚ 0 := fun _ => (s.val : ℚ)

/-- The point `a`. -/
def pt (a : ℚ) : Pt ℚ 0 := fun _ => a

/-- Whether the search goes on. -/
def goesOn : Outcome (Res S O F k) → Bool
  | .ok (.on _) => true
  | _ => false

/-- The path found. -/
def path : Outcome (Res S O F k) → Option (List S × List (Option O))
  | .ok (.found _ r) => some r
  | _ => none

/-- Whether an entry of an earlier search has been used. -/
def isStale : Outcome (Res S O F k) → Bool
  | .ok .stale => true
  | _ => false

/-- **C105.** For every domain and all samples, a new search object goes on or finds something: `nearest` never gives
`NULL`, and no destroyed node is used. -/
theorem c105_safe (qs : List (Pt F k)) :
    ∃ x, search d vec s0 qs fresh = .ok (.on x) ∨ ∃ r, search d vec s0 qs fresh = .ok (.found x r) := by
  rcases loop_inv (inv_begin (d := d) (vec := vec) s0) qs with ⟨y, r, h, -⟩ | ⟨y, h, -⟩
  · exact ⟨y, .inr ⟨r, h⟩⟩
  · exact ⟨y, .inl h⟩

/-- **C105.** Whatever the samples, what has been found is a plan from the start state to a goal, with all its states; it
has at least one operator. -/
theorem c105_solution {qs : List (Pt F k)} {x : St S O F k} {r : List S × List (Option O)}
    (h : search d vec s0 qs fresh = .ok (.found x r)) :
    ∃ os ss c, r.2.reverse = os.map some ∧ r.1.reverse = s0 :: ss ∧ Plan d s0 os ss c ∧ os ≠ [] ∧
      ∃ g, (s0 :: ss).getLast? = some g ∧ d.goal g = true := by
  rcases loop_inv (inv_begin (d := d) (vec := vec) s0) qs with ⟨y, r', h1, h2, -⟩ | ⟨y, h1, -⟩
  · have e := h1.symm.trans h
    simp only [Outcome.ok.injEq, Res.found.injEq] at e
    obtain ⟨-, rfl⟩ := e
    exact h2
  · have e := h1.symm.trans h
    simp at e

example : path (search line num 0 [pt 3, pt 3, pt 3] fresh) = some ([3, 2, 1, 0], [some (some 3), some (some 2), some (some 1)]) := by
  decide +kernel

/-- **C105.** While the search goes on: every sample is an expansion; there is at most one more node than samples; node 0
is the start state, every other node comes from an earlier one by an applicable operator, is no goal, and no two nodes come
from the same one by the same operator. -/
theorem c105_tree {qs : List (Pt F k)} {x : St S O F k} (h : search d vec s0 qs fresh = .ok (.on x)) :
    x.expd = qs.length ∧ x.nodes.length ≤ qs.length + 1 ∧
    (∃ v, x.nodes[0]? = some v ∧ v.parent = none ∧ v.state = s0) ∧
    (∀ (i : Nat) (v : Node S O), x.nodes[i]? = some v → i ≠ 0 → d.goal v.state = false ∧
      ∃ j o u, v.parent = some j ∧ j < i ∧ x.nodes[j]? = some u ∧ v.op = some o ∧ o ∈ d.ops u.state ∧
        v.state = d.app u.state o) ∧
    ∀ (i j : Nat) (v u : Node S O), x.nodes[i]? = some v → x.nodes[j]? = some u → i ≠ 0 → v.parent = u.parent →
      v.op = u.op → i = j := by
  rcases loop_inv (inv_begin (d := d) (vec := vec) s0) qs with ⟨y, r', h1, -⟩ | ⟨y, h1, h2, h3, h4⟩
  · have e := h1.symm.trans h
    simp at e
  · have e := h1.symm.trans h
    simp only [Outcome.ok.injEq, Res.on.injEq] at e
    subst e
    refine ⟨by simpa [begin, fresh] using h3, by simpa [begin, fresh, Nat.add_comm] using h4, h2.root, fun i v hv hi => ?_,
      h2.uniq⟩
    obtain ⟨j, o, u, f1, f2, f3, f4, f5, f6, -⟩ := h2.hang i v hv hi
    exact ⟨h2.ng i v hv hi, j, o, u, f1, f2, f3, f4, f5, f6⟩

example : goesOn (search line num 0 [pt 3, pt 0, pt 3] fresh) = true ∧
    goesOn (search line num 0 [pt 3, pt 0, pt 3, pt 3] fresh) = false := by
  decide +kernel

/-- **C105.** What the next sample does.  The expanded node is a nearest one.  If an operator of it that has not been used
leads to a goal, the search stops with such a goal.  Otherwise, if all have been used nothing is added, and else one node,
by an unused operator whose successor is nearest to the sample among those of the unused operators. -/
theorem c105_step {qs : List (Pt F k)} {x : St S O F k} (h : search d vec s0 qs fresh = .ok (.on x)) (q : Pt F k) :
    ∃ (n : Nat) (v : Node S O), x.nodes[n]? = some v ∧
      (∀ (j : Nat) (u : Node S O), x.nodes[j]? = some u → dist2 (vec v.state) q ≤ dist2 (vec u.state) q) ∧
      ∀ used : O → Prop, (∀ o, used o ↔ ∃ (i : Nat) (u : Node S O), x.nodes[i]? = some u ∧ u.parent = some n ∧ u.op = some o) →
      ((∃ o ∈ d.ops v.state, ¬ used o ∧ d.goal (d.app v.state o) = true) →
        ∃ y r, search d vec s0 (qs ++ [q]) fresh = .ok (.found y r) ∧ ∃ o ∈ d.ops v.state, ¬ used o ∧
          r.1.head? = some (d.app v.state o) ∧ d.goal (d.app v.state o) = true) ∧
      ((∀ o ∈ d.ops v.state, ¬ used o → d.goal (d.app v.state o) = false) →
        ∃ y, search d vec s0 (qs ++ [q]) fresh = .ok (.on y) ∧ y.gend = x.gend + (d.ops v.state).length ∧
          ((∀ o ∈ d.ops v.state, used o) → y.nodes = x.nodes) ∧
          ((∃ o ∈ d.ops v.state, ¬ used o) → y.nodes.length = x.nodes.length + 1 ∧
            ∃ o ∈ d.ops v.state, ¬ used o ∧ y.nodes[x.nodes.length]? = some ⟨some n, d.app v.state o, some o, []⟩ ∧
              ∀ o' ∈ d.ops v.state, ¬ used o' → dist2 q (vec (d.app v.state o)) ≤ dist2 q (vec (d.app v.state o')))) := by
  rcases loop_inv (inv_begin (d := d) (vec := vec) s0) qs with ⟨y, r', h1, -⟩ | ⟨y, h1, h2, -⟩
  · have e := h1.symm.trans h
    simp at e
  have e := h1.symm.trans h
  simp only [Outcome.ok.injEq, Res.on.injEq] at e
  subst e
  have hsr : ∀ z, step d vec q y = .ok z → search d vec s0 (qs ++ [q]) fresh = .ok z := by
    intro z hz
    have : search d vec s0 (qs ++ [q]) fresh = loop d vec (qs ++ [q]) (begin vec s0 fresh) := rfl
    rw [this, loop_append, h1]
    simp only [Outcome.bind, loop, hz]
    cases z <;> rfl
  obtain ⟨n, v, e1, e2, e3⟩ := step_spec h2 q
  refine ⟨n, v, e1, fun j u hu => ?_, fun used hused => ?_⟩
  · have := e2 j u hu
    rwa [KdTree.sqdist_eq, KdTree.sqdist_eq] at this
  -- the used operators
  have hu : ∀ o, used o ↔ o ∈ v.ops := by
    intro o
    rw [hused]
    constructor
    · rintro ⟨i, u, f1, f2, f3⟩
      have hi : i ≠ 0 := by
        rintro rfl
        obtain ⟨w, g1, g2, -⟩ := h2.root
        rw [f1] at g1
        obtain rfl := Option.some.inj g1
        rw [f2] at g2
        exact absurd g2 (by simp)
      obtain ⟨j, o', w, k1, k2, k3, k4, -, -, k7⟩ := h2.hang i u f1 hi
      rw [f2] at k1
      obtain rfl := Option.some.inj k1
      rw [e1] at k3
      obtain rfl := Option.some.inj k3
      rw [f3] at k4
      obtain rfl := Option.some.inj k4
      exact k7
    · intro ho
      exact h2.ops n v o e1 ho
  simp only [hu]
  rcases e3 with ⟨z, r, f1, f2, f3, o, o1, o2, o3, o4, -⟩ | ⟨hg, hr⟩
  · exact ⟨fun _ => ⟨z, r, hsr _ f1, o, o1, o2, o4, o3⟩, fun hn => by
      rw [hn o o1 o2] at o3; exact absurd o3 (by simp)⟩
  · refine ⟨fun ⟨o, o1, o2, o3⟩ => by rw [hg o o1 o2] at o3; exact absurd o3 (by simp), fun _ => ?_⟩
    rcases hr with ⟨f1, f2⟩ | ⟨o, o1, o2, o3, o4⟩
    · exact ⟨_, hsr _ f1, rfl, fun _ => rfl, fun ⟨o, o1, o2⟩ => absurd (f2 o o1) o2⟩
    · refine ⟨_, hsr _ o4, rfl, fun ha => absurd (ha o o1) o2, fun _ => ⟨by simp, o, o1, o2, ?_, fun o' h1' h2' => ?_⟩⟩
      · rw [List.getElem?_append_right (by simp)]
        simp
      · have := o3 o' h1' h2'
        rwa [KdTree.sqdist_eq, KdTree.sqdist_eq] at this

/-- **C105.** If a goal can be reached by at least one operator, different reachable states have different points and no
operator leads from a reachable state to itself, then some samples, all of them points of reachable states, make a new search
object find a goal. -/
theorem c105_complete (hinj : ∀ s t, (∃ c, Walk d s0 s c) → (∃ c, Walk d s0 t c) → vec t = vec s → t = s)
    (hloop : ∀ s, (∃ c, Walk d s0 s c) → ∀ o ∈ d.ops s, d.app s o ≠ s)
    (hg : ∃ os ss c g, Plan d s0 os ss c ∧ os ≠ [] ∧ (s0 :: ss).getLast? = some g ∧ d.goal g = true) :
    ∃ qs : List (Pt F k), (∀ q ∈ qs, ∃ t, (∃ c, Walk d s0 t c) ∧ q = vec t) ∧
      ∃ x r, search d vec s0 qs fresh = .ok (.found x r) := by
  obtain ⟨os, ss, c, g, h1, h2, h3, h4⟩ := hg
  exact samples hinj hloop h1 h2 ⟨g, h3, h4⟩ ⟨0, .nil _⟩ _ (inv_begin s0) ⟨0, _, rfl, rfl⟩

example : (∀ s t : Fin 4, (∃ c, Walk line 0 s c) → (∃ c, Walk line 0 t c) → num t = num s → t = s) ∧
    (∀ s, (∃ c, Walk line 0 s c) → ∀ o ∈ line.ops s, line.app s o ≠ s) ∧
    ∃ os ss c g, Plan line 0 os ss c ∧ os ≠ [] ∧ ((0 : Fin 4) :: ss).getLast? = some g ∧ line.goal g = true := by
  have hl : ∀ s, ∀ o ∈ line.ops s, line.app s o ≠ s := by decide +kernel
  refine ⟨fun s t _ _ h => ?_, fun s _ => hl s, ?_⟩
  · have := congrFun h 0
    simp only [num] at this
    exact Fin.ext (by exact_mod_cast this)
  · exact ⟨_, _, _, 3, .cons (o := some 1) (by decide +kernel) (.cons (o := some 2) (by decide +kernel)
      (.cons (o := some 3) (by decide +kernel) (.nil _))), by simp, rfl, by decide +kernel⟩

/-- **C105, what goes wrong.** The limits on expansions, generated nodes, time and memory are never looked at, and the search
does not give up: if no goal can be reached by at least one operator, it goes on after any number of samples, which all count
as expansions. -/
theorem c105_endless (hn : ∀ s, (∃ c, Walk d s0 s c) → ∀ o ∈ d.ops s, d.goal (d.app s o) = false) (qs : List (Pt F k)) :
    ∃ x, search d vec s0 qs fresh = .ok (.on x) ∧ x.expd = qs.length := by
  rcases loop_inv (inv_begin (d := d) (vec := vec) s0) qs with ⟨y, r', h1, ⟨os, ss, c, -, -, h4, h5, g, h6, h7⟩, -⟩ |
    ⟨y, h1, h2, h3, -⟩
  · exfalso
    -- the last operator of the plan leads to a goal
    have : ∀ (s : S) (os : List O) (ss : List S) (c : C), Plan d s os ss c → (∃ c, Walk d s0 s c) → os ≠ [] →
        (s :: ss).getLast? = some g → False := by
      intro s os ss c hp
      induction hp with
      | nil => intro _ h; exact absurd rfl h
      | @cons s o os ss c ho hp ih =>
        rintro ⟨c', hw⟩ - hl
        rw [List.getLast?_cons_cons] at hl
        by_cases hos : os = []
        · subst hos
          cases hp
          simp only [List.getLast?_singleton, Option.some.injEq] at hl
          subst hl
          rw [hn s ⟨c', hw⟩ o ho] at h7
          exact absurd h7 (by simp)
        · exact ih ⟨_, hw.snoc ho⟩ hos hl
    exact this s0 os ss c h4 ⟨0, .nil _⟩ h5 h6
  · exact ⟨y, h1, by simpa [begin, fresh] using h3⟩

/-- **C105, what goes wrong.** The start state is not tested: if it is a goal the search does not stop there, here never. -/
theorem c105_start_goal (qs : List (Pt ℚ 0)) :
    let d := graph 1 [] (fun _ => true)
    d.goal 0 = true ∧ ∃ x, search d num 0 qs fresh = .ok (.on x) :=
  ⟨rfl, by
    obtain ⟨x, h, -⟩ := c105_endless (d := graph 1 [] (fun _ => true)) (vec := num) (s0 := 0)
      (fun s _ o ho => by simp [graph] at ho) qs
    exact ⟨x, h⟩⟩

/-- **C105, what goes wrong.** With `-s` and a number the seed is 0, whatever the number: the option itself is read as the
number. -/
theorem c105_seed (bits : Nat) (before : List Str.Str) (n : Str.Str) (h : ∀ w ∈ before, w ≠ "-s".toList)
    (after : List Str.Str) (ha : ∀ w ∈ after, w ≠ "-s".toList) :
    seed bits (before ++ "-s".toList :: n :: after) = 0 ∧ seed bits before = bits := by
  have hno : ∀ (l : List Str.Str) (b : Nat), (∀ w ∈ l, w ≠ "-s".toList) → seed b l = b := by
    intro l
    induction l with
    | nil => intro b _; rfl
    | cons w l ih =>
      intro b hl
      cases l with
      | nil => rfl
      | cons v l =>
        rw [seed, if_neg (hl w List.mem_cons_self)]
        exact ih b fun w hw => hl w (List.mem_cons_of_mem _ hw)
  refine ⟨?_, hno _ _ h⟩
  induction before with
  | nil =>
    rw [List.nil_append, seed, if_pos rfl, hno _ _ ha]
    decide +kernel
  | cons w l ih =>
    have e : ∃ v r, l ++ "-s".toList :: n :: after = v :: r := by
      cases l with
      | nil => exact ⟨_, _, rfl⟩
      | cons v l => exact ⟨_, _, rfl⟩
    obtain ⟨v, r, e⟩ := e
    rw [List.cons_append, e, seed, if_neg (h w List.mem_cons_self), ← e]
    exact ih fun w hw => h w (List.mem_cons_of_mem _ hw)

example : (∀ w ∈ ["plat2d".toList, "rrt".toList], w ≠ "-s".toList) ∧ (∀ w ∈ ["x".toList], w ≠ "-s".toList) := by
  decide +kernel

/-- **C105, what goes wrong.** `reset` does not empty the tree: a second search with the same object, here from state 1 with
the point of state 0 as the sample, uses a node that has been destroyed. -/
theorem c105_reset : ∃ x r, search line num 0 [pt 3, pt 3, pt 3] fresh = .ok (.found x r) ∧
    isStale (search line num 1 [pt 0] (reset x)) = true := by
  have h : ((search line num 0 [pt 3, pt 3, pt 3] fresh).bind fun
    | .found x _ => .ok (isStale (search line num 1 [pt 0] (reset x)))
    | _ => .fatal) = .ok true := by decide +kernel
  cases e : search line num 0 [pt 3, pt 3, pt 3] (fresh : St _ _ ℚ 0) with
  | ok z => cases z with
    | found x r =>
      rw [e] at h
      exact ⟨x, r, rfl, by simpa [Outcome.bind] using h⟩
    | on x => rw [e] at h; simp [Outcome.bind] at h
    | stale => rw [e] at h; simp [Outcome.bind] at h
  | fatal => rw [e] at h; simp [Outcome.bind] at h
  | ub => rw [e] at h; simp [Outcome.bind] at h
  | nofuel => rw [e] at h; simp [Outcome.bind] at h

end Verif.Rrt
