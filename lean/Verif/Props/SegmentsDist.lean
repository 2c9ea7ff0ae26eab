import Verif.Domains.SegmentsDist
import Verif.Props.Segments
import Mathlib.Algebra.BigOperators.Fin

/-!
# C113: the estimate of the number of operators of the segments domain

All theorems hold for every geometry `G`.
-/

namespace Verif.Segments

open Verif.Search

variable {n : Nat} {G : Geo} {I : Inst n G}

/-- **C113 (value).** On every consistent state the estimate is defined: the king's moves and turns that the segments
are away from their goals, added up.  It is an integer, not negative, and 0 exactly on goals. -/
theorem c113_value (hI : InstOk I) {s : State n G} (hs : StOk I s) :
    ∃ k : Nat, d I s = .ok (k : ℝ) ∧ (k : Int) = ∑ i, steps I.nangles (I.segs i).goal (s.poses i) ∧
      (k = 0 ↔ (dom I).goal s = true) := by
  have hn : 0 ≤ ∑ i, steps I.nangles (I.segs i).goal (s.poses i) := Finset.sum_nonneg fun i _ => steps_nonneg hI.pos _ _
  have hz : (∑ i, steps I.nangles (I.segs i).goal (s.poses i)).toNat = 0 ↔ (dom I).goal s = true := by
    rw [goal_iff hs]
    constructor
    · intro h i
      have h0 := (Finset.sum_eq_zero_iff_of_nonneg fun i _ => steps_nonneg hI.pos (I.segs i).goal (s.poses i)).1
        (show ∑ i, steps I.nangles (I.segs i).goal (s.poses i) = 0 by omega)
      exact steps_eq_zero (hI.goal i).1 (hs.rot i) (h0 i (Finset.mem_univ i))
    · intro h
      rw [Finset.sum_eq_zero fun i _ => by rw [h i, steps_self]]
      rfl
  refine ⟨(∑ i, steps I.nangles (I.segs i).goal (s.poses i)).toNat, ?_, Int.toNat_of_nonneg hn, hz⟩
  unfold d
  by_cases h : s.nleft = 0
  · rw [if_pos h, hz.2 (show decide (s.nleft = 0) = true by simpa using h)]
    simp
  · rw [if_neg h]
    have := dloop_ok hI hs (List.finRange n) 0
    rw [Int.cast_zero] at this
    rw [this, zero_add, ← List.ofFn_eq_map, List.sum_ofFn]
    congr 1
    rw [← Int.cast_natCast, Int.toNat_of_nonneg hn]

/-- **C113 (a bound).** The estimate is no more than the number of operators of any plan to a goal, whatever is in the
way, if no coordinate is more than 2^31 away from that of the goal. -/
theorem c113_bound (hI : InstOk I) {s t : State n G} (hs : StOk I s) (hnear : ∀ i, Near (I.segs i).goal (s.poses i))
    {os : List Oper} {ss : List (State n G)} {c : ℝ} (hp : Plan (dom I) s os ss c)
    (hl : (s :: ss).getLast? = some t) (hg : (dom I).goal t = true) : ∃ v, d I s = .ok v ∧ v ≤ os.length := by
  obtain ⟨k, h1, h2, -⟩ := c113_value hI hs
  refine ⟨_, h1, ?_⟩
  have := tors_le hI hp hl hg hs
  rw [tors_near hnear, ← h2] at this
  exact_mod_cast this

/-- **C113 (consistent).** An operator changes the estimate by at most one, between states whose coordinates are no more
than 2^31 away from those of the goals. -/
theorem c113_step (hI : InstOk I) {s : State n G} (hs : StOk I s) {o : Oper} (ho : o ∈ (dom I).ops s)
    (h1 : ∀ i, Near (I.segs i).goal (s.poses i)) (h2 : ∀ i, Near (I.segs i).goal (((dom I).app s o).poses i)) :
    ∃ v w, d I s = .ok v ∧ d I ((dom I).app s o) = .ok w ∧ v ≤ 1 + w ∧ w ≤ 1 + v := by
  have hs' := app_stOk hI _ hs _ ho
  have hl := ((mem_ops hI hs).1 ho).1
  obtain ⟨a, a1, a2, -⟩ := c113_value hI hs
  obtain ⟨b, b1, b2, -⟩ := c113_value hI hs'
  refine ⟨_, _, a1, b1, ?_, ?_⟩
  · have := (tors_step hI hs ho).1
    rw [tors_near h1, tors_near h2, ← a2, ← b2] at this
    exact_mod_cast this
  · have := (tors_step hI hs ho).2
    rw [tors_near h1, tors_near h2, ← a2, ← b2] at this
    exact_mod_cast this

/-- **C113 (exact).** If nothing is in the way and the coordinates are below 2^31, there is a plan to a goal with exactly
as many operators as the estimate says; by `c113_bound` no plan has fewer. -/
theorem c113_exact (hI : InstOk I) (hG : ∀ w l, G.hits w l = false) {s : State n G} (hs : StOk I s)
    (hsm : ∀ i, (s.poses i).x < 2 ^ 31 ∧ (s.poses i).y < 2 ^ 31) :
    ∃ os ss c t, Plan (dom I) s os ss c ∧ (s :: ss).getLast? = some t ∧ (dom I).goal t = true ∧
      d I s = .ok (os.length : ℝ) := by
  obtain ⟨k, h1, h2, -⟩ := c113_value hI hs
  obtain ⟨os, ss, c, t, p1, p2, p3, p4⟩ := steps_plan hI hG k s hs hsm h2.symm
  exact ⟨os, ss, c, t, p1, p2, p3, by rw [h1, p4]⟩

/-- **C113 (below `h`).** The estimate is never more than the heuristic. -/
theorem c113_le_h (hI : InstOk I) {s : State n G} (hs : StOk I s)
    (hsm : ∀ i, (s.poses i).x < 2 ^ 31 ∧ (s.poses i).y < 2 ^ 31) :
    ∃ v w, d I s = .ok v ∧ h I s = .ok (some w) ∧ v ≤ w := by
  obtain ⟨k, h1, h2, h3⟩ := c113_value hI hs
  rcases c52_value hI hs hsm with ⟨hg, hv⟩ | ⟨j, -, hv, -⟩
  · refine ⟨_, _, h1, hv, ?_⟩
    rw [h3.2 hg]; simp
  · refine ⟨_, _, h1, hv, ?_⟩
    have e : (k : ℝ) = ∑ i, ((steps I.nangles (I.segs i).goal (s.poses i) : Int) : ℝ) := by
      rw [← Int.cast_sum, ← h2, Int.cast_natCast]
    have e2 : ∑ i ∈ todo I s, ((steps I.nangles (I.segs i).goal (s.poses i) : Int) : ℝ) =
        ∑ i, ((steps I.nangles (I.segs i).goal (s.poses i) : Int) : ℝ) := by
      refine Finset.sum_subset (Finset.subset_univ _) fun i _ hi => ?_
      have : s.poses i = (I.segs i).goal := by
        by_contra hc
        exact hi (by unfold todo; rw [Finset.mem_filter]; exact ⟨Finset.mem_univ i, hc⟩)
      rw [this, steps_self, Int.cast_zero]
    rw [e, ← e2]
    refine le_add_of_le_of_nonneg (Finset.sum_le_sum fun i _ => ?_) (dist_nonneg _ _ _ _)
    unfold steps base
    rw [oct_eq, Int.cast_add]
    have b2 : (0 : ℝ) ≤ ((min |((I.segs i).goal.x : Int) - (s.poses i).x| |((I.segs i).goal.y : Int) - (s.poses i).y| : Int) : ℝ) := by
      exact_mod_cast le_min (abs_nonneg _) (abs_nonneg _)
    have b3 := one_le_sqrt2
    nlinarith

/-! ## Instances -/

/-- A geometry in which nothing is in the way. -/
def openG : Geo where
  L := Unit
  Sw := Unit
  mkl _ _ _ _ _ := ()
  rsweep _ _ _ _ := ()
  msweep _ _ := ()
  hits _ _ := false

/-- One segment, four angles, to be moved one to the right. -/
noncomputable def demoD : Inst 1 openG where
  nangles := 4
  bounds _ := ()
  segs _ := ⟨1, ⟨1, 0, 0⟩, ⟨0, 0, 0⟩⟩

theorem demoD_ok : InstOk demoD := by
  refine ⟨by decide, by decide, by decide, fun i => ?_, fun i => ?_⟩ <;> simp [demoD]

theorem demoD_free {s : State 1 openG} (hs : StOk demoD s) {o : Oper} (ho : Legal 1 o) : o ∈ (dom demoD).ops s := by
  rw [mem_ops demoD_ok hs]
  refine ⟨ho, ?_⟩
  unfold free
  rw [dif_pos ho.lt]
  simp [openG]

/-- The hypotheses of the theorems can be met: in the example of `c52_inconsistent` one segment is two columns, one row and
one turn away from its goal, and the estimate is 3. -/
example : ∃ s : State 2 box, initialstate demo = .ok s ∧ StOk demo s ∧ (∀ i, Near (demo.segs i).goal (s.poses i)) ∧
    d demo s = .ok 3 := by
  obtain ⟨s, h1, h2, h3, h4, h5⟩ := c52_make demo_ok (ps := fun i => (demo.segs i).start)
    (fun i => by fin_cases i <;> simp [demo]) (fun i => by fin_cases i <;> simp [demo]) 0 0
  refine ⟨s, h1, h5, fun i => ?_, ?_⟩
  · rw [h4]
    fin_cases i
    · simp [Near, demo, abs]
    · simp [Near, demo]
  · obtain ⟨k, e1, e2, -⟩ := c113_value demo_ok h5
    rw [h4] at e2
    have : (k : Int) = 3 := by rw [e2]; simp [Fin.sum_univ_two, demo, steps, circ, abs]
    rw [e1, show k = 3 by omega]; norm_num

/-- **C113 (finding).** Without a bound on the left a segment can be moved from column 0 to column 2^32 - 1, and the
estimate counts all columns from there: it jumps from 1 to 2^32 - 2, although two moves lead to the goal. -/
theorem c113_wrap : ∃ (s t : State 1 openG) (o o2 : Oper), InstOk demoD ∧ StOk demoD s ∧ o ∈ (dom demoD).ops s ∧
    d demoD s = .ok 1 ∧ d demoD ((dom demoD).app s o) = .ok (2 ^ 32 - 2) ∧
    (∃ ss c, Plan (dom demoD) ((dom demoD).app s o) [o2, o2] ss c ∧ (((dom demoD).app s o) :: ss).getLast? = some t ∧
      (dom demoD).goal t = true) := by
  obtain ⟨s, -, -, -, h4, h5⟩ := c52_make demoD_ok (ps := fun _ => ⟨0, 0, 0⟩) (fun i => by simp [demoD]) (fun i => by simp) 0 0
  have l1 : Legal 1 ⟨.move, 0, -1, 0⟩ := legal_iff.2 ⟨by decide, Or.inr ⟨rfl, by decide, by decide, by decide⟩⟩
  have l2 : Legal 1 ⟨.move, 0, 1, 0⟩ := legal_iff.2 ⟨by decide, Or.inr ⟨rfl, by decide, by decide, by decide⟩⟩
  have o1 := demoD_free h5 l1
  have s1 := app_stOk demoD_ok _ h5 _ o1
  have p1 : ((dom demoD).app s ⟨.move, 0, -1, 0⟩).poses = fun _ => ⟨2 ^ 32 - 1, 0, 0⟩ := by
    rw [app_eq demoD_ok h5 l1, succ_poses, h4]
    funext i
    rw [Subsingleton.elim i 0]
    simp [posed, toU]
  have o2 := demoD_free s1 l2
  have s2 := app_stOk demoD_ok _ s1 _ o2
  have p2 : ((dom demoD).app ((dom demoD).app s ⟨.move, 0, -1, 0⟩) ⟨.move, 0, 1, 0⟩).poses = fun _ => ⟨0, 0, 0⟩ := by
    rw [app_eq demoD_ok s1 l2, succ_poses, p1]
    funext i
    rw [Subsingleton.elim i 0]
    simp [posed, toU]
  have o3 := demoD_free s2 l2
  have s3 := app_stOk demoD_ok _ s2 _ o3
  have p3 : ((dom demoD).app ((dom demoD).app ((dom demoD).app s ⟨.move, 0, -1, 0⟩) ⟨.move, 0, 1, 0⟩) ⟨.move, 0, 1, 0⟩).poses =
      fun _ => ⟨1, 0, 0⟩ := by
    rw [app_eq demoD_ok s2 l2, succ_poses, p2]
    funext i
    rw [Subsingleton.elim i 0]
    simp [posed, toU]
  refine ⟨s, _, ⟨.move, 0, -1, 0⟩, ⟨.move, 0, 1, 0⟩, demoD_ok, h5, o1, ?_, ?_, _, _, .cons o2 (.cons o3 (.nil _)), rfl, ?_⟩
  · obtain ⟨k, e1, e2, -⟩ := c113_value demoD_ok h5
    rw [h4] at e2
    have : (k : Int) = 1 := by rw [e2]; simp [demoD, steps, circ]
    rw [e1, show k = 1 by omega]; norm_num
  · obtain ⟨k, e1, e2, -⟩ := c113_value demoD_ok s1
    rw [p1] at e2
    have : (k : Int) = 2 ^ 32 - 2 := by rw [e2]; simp [demoD, steps, circ, abs]
    rw [e1, show k = 2 ^ 32 - 2 by omega]; norm_num
  · refine (goal_iff s3).2 ?_
    rw [p3]
    intro i; rfl

/-- `c113_exact` applies to the example: nothing is in the way. -/
example : ∀ w l, openG.hits w l = false := fun _ _ => rfl

end Verif.Segments
