import Verif.Domains.SegmentsThms
import Mathlib.Data.Set.Finite.Basic
import Mathlib.Data.Set.Finite.Range
import Mathlib.Data.Fintype.Pi
import Mathlib.Data.Fintype.Prod
import Mathlib.Data.Int.ModEq

/-!
# C52: the segments domain

`InstOk` is what the instance must satisfy, `StOk` that the redundant fields of a state are right.  All theorems hold
for every geometry `G`.
-/

namespace Verif.Segments

open Verif.Search

variable {n : Nat} {G : Geo} {I : Inst n G}

/-- **C52 (states).** Making a state from poses with valid rotations is defined, and the state is consistent: the count
is the number of segments that are not in their goal pose. -/
theorem c52_make (hI : InstOk I) {ps : Fin n → Pose} (hp : ∀ i, (ps i).rot < I.nangles)
    (hu : ∀ i, (ps i).x < 2 ^ 32 ∧ (ps i).y < 2 ^ 32) (x y : Nat) :
    ∃ s, mkState I ps x y = .ok s ∧ s.x = x ∧ s.y = y ∧ s.poses = ps ∧ StOk I s := by
  obtain ⟨s, h, -⟩ := mkState_ok hI hp x y
  obtain ⟨h1, h2, h3, h4⟩ := mkState_stOk hI hp hu h
  exact ⟨s, h, h2, h3, h4, h1⟩

/-- **C52 (rotations).** From a consistent state neither listing the operators nor applying one of them is ever
undefined, and every state that can be reached is consistent; in particular all rotations are indices of angles. -/
theorem c52_defined (hI : InstOk I) {s0 s : State n G} (h0 : StOk I s0) {c : ℝ} (hw : Walk (dom I) s0 s c) :
    StOk I s ∧ ∃ os, operators I s = .ok os ∧ ∀ o ∈ os, ∃ e, edge I s o = .ok e ∧ ∀ i, (e.state.poses i).rot < I.nangles := by
  have hs := hw.inv (app_stOk hI) h0
  refine ⟨hs, _, operators_ok hI hs, fun o ho => ?_⟩
  have hl := mem_allcands.1 (List.mem_filter.1 ho).1
  exact ⟨_, edge_ok hI hs hl, (succ_stOk hI hs _).rot⟩

/-- **C52 (count).** After any sequence of operators the count is the number of segments that are not in their goal
pose; the goal test holds exactly if there is no such segment. -/
theorem c52_count (hI : InstOk I) {s0 s : State n G} (h0 : StOk I s0) {c : ℝ} (hw : Walk (dom I) s0 s c) :
    s.nleft = (Finset.univ.filter fun i => s.poses i ≠ (I.segs i).goal).card ∧
    ((dom I).goal s = true ↔ ∀ i, s.poses i = (I.segs i).goal) := by
  have hs := hw.inv (app_stOk hI) h0
  exact ⟨hs.nleft, goal_iff hs⟩

/-- The pose that an operator is meant to produce, as a relation. -/
def Turned (I : Inst n G) (o : Oper) (p q : Pose) : Prop :=
  (o.op = .rotate ∧ q.x = p.x ∧ q.y = p.y ∧ (q.rot : Int) ≡ p.rot + o.delta [ZMOD I.nangles]) ∨
  (o.op = .move ∧ q.rot = p.rot ∧ (q.x : Int) ≡ p.x + o.delta [ZMOD 2 ^ 32] ∧ (q.y : Int) ≡ p.y + o.dy [ZMOD 2 ^ 32])

theorem posed_turned (hI : InstOk I) {o : Oper} (ho : Legal n o) (p : Pose) : Turned I o p (posed I p o) := by
  have h1 := hI.pos
  unfold Turned posed
  rcases (legal_iff.1 ho).2 with h | h
  · left
    rw [h.1]
    refine ⟨rfl, rfl, rfl, ?_⟩
    dsimp only
    rw [Int.toNat_of_nonneg (Int.emod_nonneg _ (by omega))]
    exact Int.mod_modEq _ _
  · right
    rw [h.1]
    refine ⟨rfl, rfl, ?_, ?_⟩ <;> unfold toU <;> dsimp only <;>
      rw [Int.toNat_of_nonneg (Int.emod_nonneg _ (by norm_num))] <;> exact Int.mod_modEq _ _

/-- The way of an operator is free: the sweep of the segment from its line to the new one hits no bound and no other
segment. -/
def Clear (I : Inst n G) (s : State n G) (i : Fin n) (o : Oper) (w : G.Sw) : Prop :=
  ∃ q, Turned I o (s.poses i) q ∧ q.rot < I.nangles ∧ (q.x < 2 ^ 32 ∧ q.y < 2 ^ 32) ∧
    w = (if o.op = .rotate then G.rsweep (I.segs i).radius (s.poses i) o.delta (lineOf I i q)
      else G.msweep (lineOf I i (s.poses i)) (lineOf I i q)) ∧
    (∀ k, G.hits w (I.bounds k) = false) ∧ ∀ j, j ≠ i → G.hits w (lineOf I j (s.poses j)) = false

/-- **C52 (operators of a state).** The operators are the rotations by one angle and the moves to the eight neighbours,
for each segment, whose way is free. -/
theorem c52_ops (hI : InstOk I) {s : State n G} (hs : StOk I s) {os : List Oper} (hos : operators I s = .ok os) (o : Oper) :
    o ∈ os ↔ ∃ (i : Fin n) (w : G.Sw), o.seg = i ∧ Clear I s i o w ∧
      ((o.op = .rotate ∧ |o.delta| = 1 ∧ o.dy = 0) ∨ (o.op = .move ∧ max |o.delta| |o.dy| = 1)) := by
  have hm : o ∈ os ↔ Legal n o ∧ free I s.poses o = true := by
    rw [← mem_ops hI hs]
    show _ ↔ o ∈ val (operators I s) []
    rw [hos]; rfl
  have hk : Legal n o ↔ o.seg < n ∧ ((o.op = .rotate ∧ |o.delta| = 1 ∧ o.dy = 0) ∨ (o.op = .move ∧ max |o.delta| |o.dy| = 1)) := by
    rw [legal_iff]
    have h1 : (o.delta = -1 ∨ o.delta = 1) ↔ |o.delta| = 1 := by
      have := abs_cases o.delta; omega
    have h2 : ((-1 ≤ o.delta ∧ o.delta ≤ 1) ∧ (-1 ≤ o.dy ∧ o.dy ≤ 1) ∧ ¬ (o.delta = 0 ∧ o.dy = 0)) ↔
        max |o.delta| |o.dy| = 1 := by
      have := abs_cases o.delta
      have := abs_cases o.dy
      omega
    rw [h1, h2]
  have hfree : ∀ (hl : Legal n o), free I s.poses o = true ↔ ∃ w, Clear I s ⟨o.seg, hl.lt⟩ o w := by
    intro hl
    have huniq : ∀ q, Turned I o (s.poses ⟨o.seg, hl.lt⟩) q → q.rot < I.nangles → q.x < 2 ^ 32 ∧ q.y < 2 ^ 32 →
        q = posed I (s.poses ⟨o.seg, hl.lt⟩) o := by
      intro q hq h1 h2
      have hp := posed_turned hI hl (s.poses ⟨o.seg, hl.lt⟩)
      have h3 := posed_rot (o := o) hI _ (hs.rot ⟨o.seg, hl.lt⟩)
      have h4 := posed_u32 (I := I) (o := o) _ (hs.u32 ⟨o.seg, hl.lt⟩)
      generalize posed I (s.poses ⟨o.seg, hl.lt⟩) o = q' at *
      have hmod : ∀ (m a b : Nat) (z : Int), a < m → b < m → (a : Int) ≡ z [ZMOD m] → (b : Int) ≡ z [ZMOD m] → a = b := by
        intro m a b z ha hb e1 e2
        have e := e1.trans e2.symm
        unfold Int.ModEq at e
        rw [Int.emod_eq_of_lt (by omega) (by omega), Int.emod_eq_of_lt (by omega) (by omega)] at e
        omega
      obtain ⟨x, y, r⟩ := q
      obtain ⟨x', y', r'⟩ := q'
      dsimp only at *
      rcases hq with ⟨e, a1, a2, a3⟩ | ⟨e, a1, a2, a3⟩ <;> rcases hp with ⟨e', b1, b2, b3⟩ | ⟨e', b1, b2, b3⟩ <;> dsimp only at *
      · rw [a1, a2, b1, b2, hmod _ _ _ _ h1 h3 a3 b3]
      · rw [e] at e'; cases e'
      · rw [e] at e'; cases e'
      · rw [a1, b1, hmod (2 ^ 32) _ _ _ h2.1 h4.1 (by exact_mod_cast a2) (by exact_mod_cast b2),
          hmod (2 ^ 32) _ _ _ h2.2 h4.2 (by exact_mod_cast a3) (by exact_mod_cast b3)]
    unfold free Clear
    rw [dif_pos hl.lt]
    simp only [Bool.and_eq_true, List.all_eq_true, List.mem_finRange, forall_const, Bool.or_eq_true, Bool.not_eq_true',
      decide_eq_true_eq]
    constructor
    · rintro ⟨h1, h2⟩
      refine ⟨_, _, posed_turned hI hl _, posed_rot hI _ (hs.rot _), posed_u32 _ (hs.u32 _), rfl, h1, fun j hj => ?_⟩
      exact (h2 j).resolve_left fun e => hj (Fin.ext e)
    · rintro ⟨w, q, hq, h1, h2, rfl, h3, h4⟩
      rw [huniq q hq h1 h2] at h3 h4
      refine ⟨h3, fun j => ?_⟩
      by_cases e : j = ⟨o.seg, hl.lt⟩
      · left; rw [e]
      · exact Or.inr (h4 j e)
  rw [hm]
  constructor
  · rintro ⟨hl, hf⟩
    obtain ⟨w, hw⟩ := (hfree hl).1 hf
    exact ⟨⟨o.seg, hl.lt⟩, w, rfl, hw, (hk.1 hl).2⟩
  · rintro ⟨i, w, hi, hw, ho⟩
    have hl : Legal n o := hk.2 ⟨by rw [hi]; exact i.2, ho⟩
    refine ⟨hl, (hfree hl).2 ⟨w, ?_⟩⟩
    have : (⟨o.seg, hl.lt⟩ : Fin n) = i := Fin.ext hi
    rw [this]; exact hw

/-- **C52 (effect).** An operator turns or moves exactly the segment that it names and takes the gripper there; it costs
the way of the gripper to the segment and 1 for a turn or a straight move, √2 for a diagonal one. -/
theorem c52_edge (hI : InstOk I) {s : State n G} (hs : StOk I s) {o : Oper} (ho : o ∈ (dom I).ops s) :
    ∃ (i : Fin n) (e : Edge n G), o.seg = i ∧ edge I s o = .ok e ∧ Turned I o (s.poses i) (e.state.poses i) ∧
      (∀ j, j ≠ i → e.state.poses j = s.poses j) ∧ e.state.x = (e.state.poses i).x ∧ e.state.y = (e.state.poses i).y ∧
      e.cost = Real.sqrt (((s.x : ℝ) - (s.poses i).x) ^ 2 + ((s.y : ℝ) - (s.poses i).y) ^ 2) +
        (if o.op = .rotate ∨ o.delta = 0 ∨ o.dy = 0 then 1 else Real.sqrt 2) := by
  obtain ⟨hl, -⟩ := (mem_ops hI hs).1 ho
  refine ⟨⟨o.seg, hl.lt⟩, _, rfl, edge_ok hI hs hl, ?_, fun j hj => ?_, ?_, ?_, ?_⟩
  · show Turned I o _ ((succ I s ⟨o.seg, hl.lt⟩ o).poses _)
    rw [succ_poses, Function.update_self]
    exact posed_turned hI hl _
  · show (succ I s ⟨o.seg, hl.lt⟩ o).poses j = _
    rw [succ_poses, Function.update_of_ne hj]
  · show _ = ((succ I s ⟨o.seg, hl.lt⟩ o).poses _).x
    rw [succ_poses, Function.update_self]; rfl
  · show _ = ((succ I s ⟨o.seg, hl.lt⟩ o).poses _).y
    rw [succ_poses, Function.update_self]; rfl
  · unfold dist opcost
    rw [pow_two, pow_two]
    congr 1
    rcases (legal_iff.1 hl).2 with h | h
    · simp [h.1]
    · simp [h.1]

/-- **C52 (undo).** The reverse of an operator, applied to the result, restores all poses, lines and the count; the
gripper stays at the segment.  The reverse cost of the edge is the cost of doing that. -/
theorem c52_undo (hI : InstOk I) {s : State n G} (hs : StOk I s) {o : Oper} (ho : o ∈ (dom I).ops s) :
    ∃ (i : Fin n) (e e' : Edge n G), o.seg = i ∧ edge I s o = .ok e ∧ edge I e.state e.revop = .ok e' ∧
      e'.state = ⟨(s.poses i).x, (s.poses i).y, s.poses, s.lines, s.nleft⟩ ∧ e.revcost = some e'.cost := by
  obtain ⟨hl, -⟩ := (mem_ops hI hs).1 ho
  have hr := hl.reverse
  have hs' := succ_stOk hI hs (o := o) ⟨o.seg, hl.lt⟩
  have e1 := edge_ok hI hs hl
  have e2 := edge_ok hI hs' hr.1
  have ei : (⟨o.reverse.seg, hr.1.lt⟩ : Fin n) = ⟨o.seg, hl.lt⟩ := Fin.ext hr.2.1
  refine ⟨⟨o.seg, hl.lt⟩, _, _, rfl, e1, e2, ?_, ?_⟩
  · have hp : (succ I (succ I s ⟨o.seg, hl.lt⟩ o) ⟨o.reverse.seg, hr.1.lt⟩ o.reverse).poses = s.poses := by
      rw [ei, succ_poses, succ_poses, Function.update_self, posed_reverse hI hl (hs.rot _) (hs.u32 _)]
      funext j
      by_cases h : j = ⟨o.seg, hl.lt⟩
      · rw [h, Function.update_self]
      · rw [Function.update_of_ne h, Function.update_of_ne h]
    refine StOk.ext (I := I) (succ_stOk hI hs' _) ⟨hs.rot, hs.lines, hs.nleft, hs.u32⟩ ?_ ?_ hp
    · have : ∀ t : State n G, (succ I t ⟨o.reverse.seg, hr.1.lt⟩ o.reverse).x =
          ((succ I t ⟨o.reverse.seg, hr.1.lt⟩ o.reverse).poses ⟨o.reverse.seg, hr.1.lt⟩).x := fun t => by
        rw [succ_poses, Function.update_self]; rfl
      rw [this, hp, ei]
    · have : ∀ t : State n G, (succ I t ⟨o.reverse.seg, hr.1.lt⟩ o.reverse).y =
          ((succ I t ⟨o.reverse.seg, hr.1.lt⟩ o.reverse).poses ⟨o.reverse.seg, hr.1.lt⟩).y := fun t => by
        rw [succ_poses, Function.update_self]; rfl
      rw [this, hp, ei]
  · have e3 : opcost o.reverse = opcost o := by
      unfold opcost
      rw [hr.2.2.1]
      have : o.reverse.delta = -o.delta ∧ o.reverse.dy = -o.dy := by
        unfold Oper.reverse; rw [if_neg hl.ne_none]; exact ⟨rfl, rfl⟩
      simp only [this.1, this.2, neg_eq_zero]
    dsimp only
    rw [ei, e3, succ_poses, Function.update_self]
    show _ = some (dist (posed I (s.poses ⟨o.seg, hl.lt⟩) o).x (posed I (s.poses ⟨o.seg, hl.lt⟩) o).y _ _ + _)
    rw [dist_self, zero_add]

/-- **C52 (undo, exactly).** The state before an operator is restored exactly iff the gripper was at the segment. -/
theorem c52_undo_exact (hI : InstOk I) {s : State n G} (hs : StOk I s) {o : Oper} (ho : o ∈ (dom I).ops s) {i : Fin n}
    (hi : o.seg = i) :
    (dom I).app ((dom I).app s o) ((dom I).rev s o) = s ↔ (s.x = (s.poses i).x ∧ s.y = (s.poses i).y) := by
  obtain ⟨j, e, e', hj, h1, h2, h3, -⟩ := c52_undo hI hs ho
  have : i = j := Fin.ext (by rw [← hi, hj])
  subst this
  have e1 : (dom I).app s o = e.state := by show (val (edge I s o) _).state = _; rw [h1]; rfl
  have e2 : (dom I).rev s o = e.revop := by show (val (edge I s o) _).revop = _; rw [h1]; rfl
  have e3 : (dom I).app e.state e.revop = e'.state := by show (val (edge I e.state e.revop) _).state = _; rw [h2]; rfl
  rw [e1, e2, e3, h3]
  cases s
  simp only [State.mk.injEq, and_true]
  constructor
  · rintro ⟨a, b⟩; exact ⟨a.symm, b.symm⟩
  · rintro ⟨a, b⟩; exact ⟨a.symm, b.symm⟩

/-- **C52 (operators).** On the operators of a state, equality of operators is equality of all fields; the reverse of
the reverse is the operator. -/
theorem c52_oper_eq {a b : Oper} (ha : Legal n a) (hb : Legal n b) :
    (Oper.eq a b = true ↔ a = b) ∧ a.reverse.reverse = a := by
  refine ⟨?_, ha.reverse.2.2.2⟩
  unfold Oper.eq
  by_cases h : b.op = a.op
  · rw [if_neg (not_not.2 h), if_neg ha.ne_none]
    have h2 := (legal_iff.1 ha).2
    have h3 := (legal_iff.1 hb).2
    obtain ⟨k, sg, d, y⟩ := a
    obtain ⟨k', sg', d', y'⟩ := b
    dsimp only at h h2 h3 ⊢
    subst h
    by_cases hk : k' = .rotate
    · subst hk
      simp only [reduceCtorEq, true_and, false_and, or_false] at h2 h3
      simp [h2.2, h3.2]
    · rw [if_neg hk]
      simp [and_assoc]
  · rw [if_pos h]
    constructor
    · intro h'; cases h'
    · rintro rfl; exact absurd rfl h

/-- **C52 (packing).** Unpacking a packed state gives the state; packed states compare equal, and hash the same
numbers, exactly if the states are equal. -/
theorem c52_pack (hI : InstOk I) {s t : State n G} (hs : StOk I s) (ht : StOk I t) :
    unpack I (pack s) = .ok s ∧ (Packed.eq (pack s) (pack t) = true ↔ s = t) ∧
      ((pack s).key = (pack t).key ↔ s = t) := by
  have hex : s.poses = t.poses → s.x = t.x → s.y = t.y → s = t := fun h1 h2 h3 => hs.ext ht h2 h3 h1
  refine ⟨?_, ?_, ?_⟩
  · obtain ⟨u, h1, -⟩ := mkState_ok hI hs.rot s.x s.y
    obtain ⟨h2, h3, h4, h5⟩ := mkState_stOk hI hs.rot hs.u32 h1
    show mkState I s.poses s.x s.y = _
    rw [h1, h2.ext hs h3 h4 h5]
  · unfold Packed.eq pack
    simp only [Bool.and_eq_true, List.all_eq_true, List.mem_finRange, forall_const, decide_eq_true_eq]
    constructor
    · rintro ⟨⟨h1, h2⟩, h3⟩; exact hex (funext h1) h2 h3
    · rintro rfl; exact ⟨⟨fun _ => rfl, rfl⟩, rfl⟩
  · constructor
    · intro h
      unfold Packed.key pack at h
      simp only [List.cons_append, List.nil_append, List.cons.injEq] at h
      obtain ⟨hx, hy, h⟩ := h
      refine hex (funext fun i => ?_) hx hy
      have key : ∀ l : List (Fin n), (l.flatMap fun i => [(s.poses i).rot, (s.poses i).x, (s.poses i).y]) =
          (l.flatMap fun i => [(t.poses i).rot, (t.poses i).x, (t.poses i).y]) → ∀ i ∈ l, s.poses i = t.poses i := by
        intro l
        induction l with
        | nil => intro _ i hi; cases hi
        | cons j l ih =>
          intro hl i hi
          simp only [List.flatMap_cons, List.cons_append, List.nil_append, List.cons.injEq] at hl
          rcases List.mem_cons.1 hi with rfl | hi
          · cases hp : s.poses i; cases hq : t.poses i
            rw [hp, hq] at hl
            dsimp only at hl
            rw [hl.1, hl.2.1, hl.2.2.1]
          · exact ih hl.2.2.2 i hi
      exact key _ h i (List.mem_finRange i)
    · rintro rfl; rfl

/-- **C52 (heuristic).** The heuristic is defined on states with coordinates that fit `int`: it is 0 on goals, and
otherwise the octile distances and turns of the segments that are away from their goals plus the distance of the gripper
to the nearest of them. -/
theorem c52_value (hI : InstOk I) {s : State n G} (hs : StOk I s) (hsm : ∀ i, (s.poses i).x < 2 ^ 31 ∧ (s.poses i).y < 2 ^ 31) :
    ((dom I).goal s = true ∧ h I s = .ok (some 0)) ∨
    ∃ j ∈ todo I s, h I s = .ok (some (∑ i ∈ todo I s, base I i (s.poses i) +
        dist s.x s.y (s.poses j).x (s.poses j).y)) ∧
      ∀ k ∈ todo I s, dist s.x s.y (s.poses j).x (s.poses j).y ≤ dist s.x s.y (s.poses k).x (s.poses k).y := by
  rcases (todo I s).eq_empty_or_nonempty with h | h
  · left
    have hg : (dom I).goal s = true := by
      show decide (s.nleft = 0) = true
      rw [hs.nleft, h]; rfl
    exact ⟨hg, h_goal s hg⟩
  · right
    exact h_ok hI hs hsm h

/-- **C52 (admissible).** If the bounds keep the segments below 2^31, the heuristic is defined on all states that can
be reached and never more than the cost of a way to a goal. -/
theorem c52_admissible (hI : InstOk I) {s0 : State n G} (h0 : StOk I s0) (hf : Fenced I s0) {s t : State n G}
    {c0 c : ℝ} (hw0 : Walk (dom I) s0 s c0) (hw : Walk (dom I) s t c) (hg : (dom I).goal t = true) :
    ∃ v, h I s = .ok (some v) ∧ hfun I s = v ∧ 0 ≤ v ∧ v ≤ c := by
  classical
  have hs : Reach I s0 s := ⟨hw0.inv (app_stOk hI) h0, c0, hw0⟩
  have hwk := work_le hI hf ∅ hs hw hg
  rcases c52_value hI hs.1 (hf _ _ hw0) with ⟨-, h1⟩ | ⟨j, hj, h1, h2⟩
  · refine ⟨0, h1, by unfold hfun; rw [h1], le_refl _, ?_⟩
    simpa [work] using hwk
  · refine ⟨_, h1, by unfold hfun; rw [h1], ?_, ?_⟩
    · have : ∀ i ∈ todo I s, 0 ≤ base I i (s.poses i) := fun i _ => by
        unfold base
        have a1 : (0 : ℝ) ≤ oct ((I.segs i).goal.x - (s.poses i).x) ((I.segs i).goal.y - (s.poses i).y) := by
          rw [oct_eq]
          have b1 : (0 : ℝ) ≤ ((max |((I.segs i).goal.x : Int) - (s.poses i).x| |((I.segs i).goal.y : Int) - (s.poses i).y| : Int) : ℝ) := by
            exact_mod_cast le_max_of_le_left (abs_nonneg _)
          have b2 : (0 : ℝ) ≤ ((min |((I.segs i).goal.x : Int) - (s.poses i).x| |((I.segs i).goal.y : Int) - (s.poses i).y| : Int) : ℝ) := by
            exact_mod_cast le_min (abs_nonneg _) (abs_nonneg _)
          have b3 := one_le_sqrt2
          nlinarith
        have a2 : (0 : ℝ) ≤ ((circ I.nangles (I.segs i).goal.rot (s.poses i).rot : Int) : ℝ) := by
          have h5 := hI.pos
          unfold circ
          exact_mod_cast le_min (Int.emod_nonneg _ (by omega)) (Int.emod_nonneg _ (by omega))
        linarith
      exact add_nonneg (Finset.sum_nonneg this) (dist_nonneg _ _ _ _)
    · obtain ⟨os, ss, hp, hl⟩ := hw.last_plan
      obtain ⟨k, hk, h3⟩ := plan_ge hI hf ⟨j, hj⟩ hp hl hg hs
        (fun i hi => by unfold todo at hi; exact (Finset.mem_filter.1 hi).2)
      have := h2 k hk
      unfold work at h3
      linarith

noncomputable instance : DecidableEq (State n G) := Classical.decEq _

/-- **C52 (what A\* needs).** Although reverse operators do not lead back exactly, doing an operator and then its reverse
is never worth it: states that differ in the gripper only have the same operators with the same results, and costs that
differ by no more than the way of the gripper. -/
theorem c52_undo_ok (hI : InstOk I) {s0 : State n G} (h0 : StOk I s0) : UndoOk (dom I) s0 := by
  refine ⟨fun s c hw o ho => ?_, fun s c hw o ho hr os ss t c2 hp hl hg => ?_, fun s c hw ho => ?_⟩
  · have hs := hw.inv (app_stOk hI) h0
    have hle := ((mem_ops hI hs).1 ho).1
    linarith [cost_ge hI hs hle, opcost_pos hle]
  · have hs := hw.inv (app_stOk hI) h0
    have hle := ((mem_ops hI hs).1 ho).1
    obtain ⟨i, e, e', hi, h1, h2, h3, -⟩ := c52_undo hI hs ho
    have e1 : (dom I).app s o = e.state := by show (val (edge I s o) _).state = _; rw [h1]; rfl
    have e2 : (dom I).rev s o = e.revop := by show (val (edge I s o) _).revop = _; rw [h1]; rfl
    have e3 : (dom I).app e.state e.revop = e'.state := by show (val (edge I e.state e.revop) _).state = _; rw [h2]; rfl
    have hrc : 0 ≤ (dom I).cost ((dom I).app s o) ((dom I).rev s o) := by
      have hs1 := app_stOk hI _ hs _ ho
      have := ((mem_ops hI hs1).1 hr).1
      linarith [cost_ge hI hs1 this, opcost_pos this]
    have hu : StOk I e'.state := by
      have := app_stOk hI _ (app_stOk hI _ hs _ ho) _ hr
      rwa [e1, e2, e3] at this
    rw [e1, e2, e3] at hp hl
    rw [e1, e2] at hrc
    have hpo : e'.state.poses = s.poses := by rw [h3]
    have hli : e'.state.lines = s.lines := by rw [h3]
    have hx : e'.state.x = (s.poses i).x := by rw [h3]
    have hy : e'.state.y = (s.poses i).y := by rw [h3]
    have hc := cost_eq hI hs hle
    have hii : (⟨o.seg, hle.lt⟩ : Fin n) = i := Fin.ext hi
    rw [hii] at hc
    have ho1 := opcost_pos hle
    generalize e'.state = u at *
    clear h3
    cases hp with
    | nil =>
      rw [List.getLast?_singleton] at hl
      obtain rfl := Option.some.inj hl
      refine ⟨[], [], s, 0, .nil s, rfl, ?_, Nat.le_refl _, ?_⟩
      · rw [goal_iff hs, ← hpo]; exact (goal_iff hu).1 hg
      · rw [e1, e2, hc]
        linarith [dist_nonneg s.x s.y (s.poses i).x (s.poses i).y]
    | @cons _ o1 os ss c' ho' hp' =>
      obtain ⟨hm1, hm2⟩ := (mem_ops hI hu).1 ho'
      have ho'' : o1 ∈ (dom I).ops s := (mem_ops hI hs).2 ⟨hm1, by rw [← hpo]; exact hm2⟩
      have hap : (dom I).app u o1 = (dom I).app s o1 := by
        rw [app_eq hI hu hm1, app_eq hI hs hm1]
        unfold succ
        rw [hpo, hli]
      rw [List.getLast?_cons_cons] at hl
      rw [hap] at hp' hl
      refine ⟨o1 :: os, _ :: ss, t, _, .cons ho'' hp', by rw [List.getLast?_cons_cons]; exact hl, hg, Nat.le_refl _, ?_⟩
      rw [e1, e2, hc, cost_eq hI hs hm1, cost_eq hI hu hm1, hpo, hx, hy]
      have := dist_triangle s.x s.y (s.poses i).x (s.poses i).y (s.poses ⟨o1.seg, hm1.lt⟩).x (s.poses ⟨o1.seg, hm1.lt⟩).y
      linarith
  · have hs := hw.inv (app_stOk hI) h0
    exact ((mem_ops hI hs).1 ho).1.ne_none rfl

/-- **C52 (A\*).** With this heuristic A\* returns cheapest solutions. -/
theorem c52_astar (hI : InstOk I) {s0 : State n G} (h0 : StOk I s0) (hf : Fenced I s0) {l : Limit}
    {st : St (State n G) Oper ℝ ℝ} {r : List (State n G) × List Oper}
    (hr : Run (dom I) (astar (hfun I)) s0 l st r) (hne : r ≠ ([], [])) :
    ∃ c, Solution (dom I) s0 r c ∧ ∀ ops ss t c', Plan (dom I) s0 ops ss c' → (s0 :: ss).getLast? = some t →
      (∀ i, t.poses i = (I.segs i).goal) → c ≤ c' := by
  have hadm : Admissible (dom I) s0 (hfun I) 0 := by
    refine ⟨fun t c hw hg => ?_, fun s c0 hw0 t c hw hg => ?_⟩
    · obtain ⟨v, -, h1, h2, -⟩ := c52_admissible hI h0 hf hw (.nil t) hg
      rw [h1]; exact h2
    · obtain ⟨v, -, h1, -, h2⟩ := c52_admissible hI h0 hf hw0 hw hg
      rw [h1, add_zero]; exact h2
  obtain ⟨c, h1, h2⟩ := c30_optimal (c52_undo_ok hI h0) hadm hr hne
  exact ⟨c, h1, fun ops ss t c' hp ht hg => h2 ops ss t c' hp ht
    ((goal_iff ((hp.last_walk ht).inv (app_stOk hI) h0)).2 hg)⟩

/-- **C52 (finitely many states).** Only finitely many states can be reached, so A\* stops whatever the bounds are. -/
theorem c52_terminates (hI : InstOk I) {s0 : State n G} (h0 : StOk I s0) :
    ¬ ∃ f : Nat → St (State n G) Oper ℝ ℝ, f 0 = init (dom I) (astar (hfun I)) s0 ∧
      ∀ k, Step (dom I) (astar (hfun I)) (f k) (f (k + 1)) := by
  refine c31_terminates (c52_undo_ok hI h0).cost _ ?_
  -- a state is determined by the poses and the gripper, which has not moved or is at a segment
  have inv : ∀ s, (StOk I s ∧ ((s.x = s0.x ∧ s.y = s0.y) ∨ (s.x < 2 ^ 32 ∧ s.y < 2 ^ 32))) → ∀ o ∈ (dom I).ops s,
      (StOk I ((dom I).app s o) ∧ ((((dom I).app s o).x = s0.x ∧ ((dom I).app s o).y = s0.y) ∨
        (((dom I).app s o).x < 2 ^ 32 ∧ ((dom I).app s o).y < 2 ^ 32))) := by
    rintro s ⟨hs, -⟩ o ho
    have hle := ((mem_ops hI hs).1 ho).1
    refine ⟨app_stOk hI _ hs _ ho, Or.inr ?_⟩
    rw [app_eq hI hs hle]
    exact posed_u32 _ (hs.u32 _)
  have hsub : Reachable (dom I) s0 ⊆ {s | StOk I s ∧ ((s.x = s0.x ∧ s.y = s0.y) ∨ (s.x < 2 ^ 32 ∧ s.y < 2 ^ 32))} := by
    rintro s ⟨c, hw⟩
    exact hw.inv inv ⟨h0, Or.inl ⟨rfl, rfl⟩⟩
  refine Set.Finite.subset ?_ hsub
  let F : State n G → (Fin n → Nat × Nat × Nat) × Nat × Nat := fun s => (fun i => ((s.poses i).x, (s.poses i).y, (s.poses i).rot), s.x, s.y)
  refine Set.Finite.of_finite_image (f := F) ?_ ?_
  · refine Set.Finite.subset (Set.Finite.prod (Set.Finite.pi' (fun _ : Fin n => Set.Finite.prod (Set.finite_lt_nat (2 ^ 32))
      (Set.Finite.prod (Set.finite_lt_nat (2 ^ 32)) (Set.finite_lt_nat I.nangles))))
      (Set.Finite.prod (Set.finite_lt_nat (2 ^ 32 + s0.x + 1)) (Set.finite_lt_nat (2 ^ 32 + s0.y + 1)))) ?_
    rintro _ ⟨s, ⟨hs, hg⟩, rfl⟩
    refine ⟨fun i => ⟨(hs.u32 i).1, (hs.u32 i).2, hs.rot i⟩, ?_, ?_⟩
    · show s.x < _; omega
    · show s.y < _; omega
  · rintro s ⟨hs, -⟩ t ⟨ht, -⟩ h
    simp only [F, Prod.mk.injEq] at h
    refine hs.ext ht h.2.1 h.2.2 (funext fun i => ?_)
    have := congrFun h.1 i
    simp only [Prod.mk.injEq] at this
    cases hp : s.poses i; cases hq : t.poses i
    rw [hp, hq] at this
    dsimp only at this
    rw [this.1, this.2.1, this.2.2]

/-! ## Findings -/

/-- segments.cc:76-79: the corners of the bounds, as the constructor that reads a file makes them. -/
def bounds1 (w h : Nat) : List ((Nat × Nat) × (Nat × Nat)) :=
  [((0, 0), (0, w)), ((0, w), (h, w)), ((h, w), (h, 0)), ((h, 0), (0, 0))]

/-- segments.cc:108-111: the corners of the bounds, as the other constructor makes them. -/
def bounds2 (w h : Nat) : List ((Nat × Nat) × (Nat × Nat)) :=
  [((0, 0), (w, 0)), ((w, 0), (w, h)), ((w, h), (0, h)), ((0, h), (w, 0))]

/-- The four sides of the rectangle with `w` columns and `h` rows, in either direction. -/
def Side (w h : Nat) (a b : Nat × Nat) : Prop :=
  ∃ p q, ((p = (0, 0) ∧ q = (w, 0)) ∨ (p = (w, 0) ∧ q = (w, h)) ∨ (p = (w, h) ∧ q = (0, h)) ∨ (p = (0, h) ∧ q = (0, 0))) ∧
    ((a = p ∧ b = q) ∨ (a = q ∧ b = p))

/-- **C52 (finding).** An instance read from a file is bounded by the rectangle with width and height exchanged: all
bounds are sides of the rectangle `h` × `w`, and unless it is a square some are not sides of `w` × `h`. -/
theorem c52_bounds_swapped (w h : Nat) :
    (∀ b ∈ bounds1 w h, Side h w b.1 b.2) ∧ (w ≠ h → 0 < w → 0 < h → ∃ b ∈ bounds1 w h, ¬ Side w h b.1 b.2) := by
  refine ⟨fun b hb => ?_, fun hne hw hh => ⟨((0, 0), (0, w)), by simp [bounds1], ?_⟩⟩
  · simp only [bounds1, List.mem_cons, List.not_mem_nil, or_false] at hb
    rcases hb with rfl | rfl | rfl | rfl
    · exact ⟨(0, w), (0, 0), by simp, Or.inr ⟨rfl, rfl⟩⟩
    · exact ⟨(h, w), (0, w), by simp, Or.inr ⟨rfl, rfl⟩⟩
    · exact ⟨(h, 0), (h, w), by simp, Or.inr ⟨rfl, rfl⟩⟩
    · exact ⟨(0, 0), (h, 0), by simp, Or.inr ⟨rfl, rfl⟩⟩
  · rintro ⟨p, q, h1, h2⟩
    rcases h1 with ⟨rfl, rfl⟩ | ⟨rfl, rfl⟩ | ⟨rfl, rfl⟩ | ⟨rfl, rfl⟩ <;>
      simp only [Prod.mk.injEq] at h2 <;> omega

/-- **C52 (finding).** An instance made from values has no left side among its bounds, but a diagonal. -/
theorem c52_bounds_diagonal (w h : Nat) (hw : 0 < w) (hh : 0 < h) :
    ((0, h), (w, 0)) ∈ bounds2 w h ∧ ¬ Side w h (0, h) (w, 0) ∧ ((0, h), (0, 0)) ∉ bounds2 w h ∧ ((0, 0), (0, h)) ∉ bounds2 w h := by
  refine ⟨by simp [bounds2], ?_, ?_, ?_⟩
  · rintro ⟨p, q, h1, h2⟩
    rcases h1 with ⟨rfl, rfl⟩ | ⟨rfl, rfl⟩ | ⟨rfl, rfl⟩ | ⟨rfl, rfl⟩ <;>
      simp only [Prod.mk.injEq] at h2 <;> omega
  · simp only [bounds2, List.mem_cons, List.not_mem_nil, or_false, Prod.mk.injEq]; omega
  · simp only [bounds2, List.mem_cons, List.not_mem_nil, or_false, Prod.mk.injEq]; omega

/-- **C52 (finding).** The rotations of an instance are not checked: making the initial state is undefined if one of
them is no index of an angle. -/
theorem c52_unvalidated {i : Fin n} (hi : I.nangles ≤ (I.segs i).start.rot) : ∀ s, initialstate I ≠ .ok s := by
  have key : ∀ (l : List (Fin n)) ls k, i ∈ l → ∀ r, initLoop I (fun i => (I.segs i).start) l ls k ≠ .ok r := by
    intro l
    induction l with
    | nil => intro _ _ h; cases h
    | cons j l ih =>
      intro ls k hm r hr
      rw [initLoop, Outcome.bind_eq_ok] at hr
      obtain ⟨a, h1, h2⟩ := hr
      rcases List.mem_cons.1 hm with rfl | hm
      · unfold line at h1
        rw [if_neg (by omega)] at h1
        cases h1
      · exact ih _ _ hm _ h2
  intro s hs
  unfold initialstate mkState at hs
  rw [Outcome.bind_eq_ok] at hs
  obtain ⟨a, h1, -⟩ := hs
  exact key _ _ _ (List.mem_finRange i) _ h1

/-- **C52 (finding).** The reverse cost of the edge of "no operator" is not set. -/
theorem c52_nop_revcost (s : State n G) : edge I s Nop = .ok ⟨0, Nop, none, s⟩ := rfl

/-! ## An instance -/

/-- A geometry with walls around the square of side 10. -/
def box : Geo where
  L := Nat × Nat
  Sw := Nat × Nat
  mkl _ x y _ _ := (x, y)
  rsweep _ _ _ l := l
  msweep _ l := l
  hits w l := if l = (100, 100) then decide (10 < w.1 ∨ 10 < w.2) else decide (w = l)

/-- Two segments, eight angles. -/
noncomputable def demo : Inst 2 box where
  nangles := 8
  bounds _ := (100, 100)
  segs i := if i = 0 then ⟨1, ⟨3, 4, 7⟩, ⟨5, 5, 0⟩⟩ else ⟨2, ⟨9, 0, 1⟩, ⟨9, 0, 1⟩⟩

theorem demo_ok : InstOk demo := by
  refine ⟨by decide, by decide, by decide, fun i => ?_, fun i => ?_⟩ <;> fin_cases i <;> simp [demo]

/-- Every state of the example that is made from poses in the square keeps the segments in it. -/
theorem demo_fenced {s0 : State 2 box} (h0 : StOk demo s0) (hb : ∀ i, (s0.poses i).x ≤ 10 ∧ (s0.poses i).y ≤ 10) :
    Fenced demo s0 := by
  intro t c hw i
  have : StOk demo t ∧ ∀ i, (t.poses i).x ≤ 10 ∧ (t.poses i).y ≤ 10 := by
    refine hw.inv (I := fun t => StOk demo t ∧ ∀ i, (t.poses i).x ≤ 10 ∧ (t.poses i).y ≤ 10) ?_ ⟨h0, hb⟩
    rintro s ⟨hs, hb⟩ o ho
    refine ⟨app_stOk demo_ok _ hs _ ho, fun j => ?_⟩
    obtain ⟨hl, hf⟩ := (mem_ops demo_ok hs).1 ho
    rw [app_eq demo_ok hs hl, succ_poses]
    by_cases h : j = ⟨o.seg, hl.lt⟩
    · subst h
      rw [Function.update_self]
      unfold free at hf
      rw [dif_pos hl.lt] at hf
      simp only [Bool.and_eq_true, List.all_eq_true] at hf
      have h1 := hf.1 0 (List.mem_finRange 0)
      have h2 : (if o.op = .rotate then
            box.rsweep (demo.segs ⟨o.seg, hl.lt⟩).radius (s.poses ⟨o.seg, hl.lt⟩) o.delta
              (lineOf demo ⟨o.seg, hl.lt⟩ (posed demo (s.poses ⟨o.seg, hl.lt⟩) o))
          else box.msweep (lineOf demo ⟨o.seg, hl.lt⟩ (s.poses ⟨o.seg, hl.lt⟩))
              (lineOf demo ⟨o.seg, hl.lt⟩ (posed demo (s.poses ⟨o.seg, hl.lt⟩) o))) =
          ((posed demo (s.poses ⟨o.seg, hl.lt⟩) o).x, (posed demo (s.poses ⟨o.seg, hl.lt⟩) o).y) := by
        split <;> rfl
      rw [h2] at h1
      have h3 : (!decide (10 < (posed demo (s.poses ⟨o.seg, hl.lt⟩) o).x ∨ 10 < (posed demo (s.poses ⟨o.seg, hl.lt⟩) o).y)) = true :=
        h1
      rw [Bool.not_eq_true', decide_eq_false_iff_not] at h3
      omega
    · rw [Function.update_of_ne h]; exact hb j
  have := this.2 i
  unfold small
  omega

/-- The hypotheses of `c52_astar` can be met, with a state that is not a goal. -/
example : ∃ s0 : State 2 box, initialstate demo = .ok s0 ∧ StOk demo s0 ∧ Fenced demo s0 ∧ s0.nleft = 1 := by
  obtain ⟨s, h1, h2, h3, h4, h5⟩ := c52_make demo_ok (ps := fun i => (demo.segs i).start)
    (fun i => by fin_cases i <;> simp [demo]) (fun i => by fin_cases i <;> simp [demo]) 0 0
  refine ⟨s, h1, h5, demo_fenced h5 fun i => ?_, ?_⟩
  · rw [h4]; fin_cases i <;> simp [demo]
  · rw [h5.nleft]
    unfold todo
    rw [h4]
    have : (Finset.univ.filter fun i : Fin 2 => (fun i => (demo.segs i).start) i ≠ (demo.segs i).goal) = {0} := by
      ext i; rw [Finset.mem_filter]; fin_cases i <;> simp [demo]
    rw [this]; rfl

/-- **C52 (finding).** The heuristic is not consistent: picking up a segment that is in its goal pose, right at the
gripper, lowers the estimate by more than the operator costs when the other segment is far away. -/
theorem c52_inconsistent : ∃ (I : Inst 2 box) (s : State 2 box) (o : Oper) (v w : ℝ), InstOk I ∧ StOk I s ∧ Fenced I s ∧
    o ∈ (dom I).ops s ∧ h I s = .ok (some v) ∧ h I ((dom I).app s o) = .ok (some w) ∧ (dom I).cost s o + w < v := by
  -- segment 1 is parked, with the gripper, at (9, 0); segment 0 is at (5, 5)
  obtain ⟨s, h1, h2, h3, h4, h5⟩ := c52_make demo_ok (ps := fun i => (demo.segs i).start)
    (fun i => by fin_cases i <;> simp [demo]) (fun i => by fin_cases i <;> simp [demo]) 9 0
  have hf : Fenced demo s := demo_fenced h5 fun i => by rw [h4]; fin_cases i <;> simp [demo]
  have ht : todo demo s = {0} := by
    unfold todo
    rw [h4]
    ext i; rw [Finset.mem_filter]; fin_cases i <;> simp [demo]
  have hl : Legal 2 ⟨.rotate, 1, 1, 0⟩ := legal_iff.2 ⟨by decide, Or.inl ⟨rfl, Or.inr rfl, rfl⟩⟩
  have ho : (⟨.rotate, 1, 1, 0⟩ : Oper) ∈ (dom demo).ops s := by
    rw [mem_ops demo_ok h5, h4]
    refine ⟨hl, ?_⟩
    simp [free, demo, box, lineOf, posed]
  have hs' := app_stOk demo_ok _ h5 _ ho
  have hap := app_eq demo_ok h5 hl
  have hpo : ((dom demo).app s ⟨.rotate, 1, 1, 0⟩).poses = fun i => if i = 0 then ⟨5, 5, 0⟩ else ⟨9, 0, 2⟩ := by
    rw [hap, succ_poses, h4]
    funext i
    fin_cases i <;> simp [demo, posed]
  have hxy : ((dom demo).app s ⟨.rotate, 1, 1, 0⟩).x = 9 ∧ ((dom demo).app s ⟨.rotate, 1, 1, 0⟩).y = 0 := by
    rw [hap]
    unfold succ
    rw [h4]
    simp [demo, posed]
  have ht' : todo demo ((dom demo).app s ⟨.rotate, 1, 1, 0⟩) = {0, 1} := by
    unfold todo
    rw [hpo]
    ext i; rw [Finset.mem_filter]; fin_cases i <;> simp [demo]
  rcases c52_value demo_ok h5 (hf _ _ (.nil s)) with ⟨hg, -⟩ | ⟨j, hj, e1, -⟩
  · have := (goal_iff h5).1 hg 0
    rw [h4] at this
    simp [demo] at this
  rcases c52_value demo_ok hs' (hf _ _ ((Walk.nil s).snoc ho)) with ⟨hg, -⟩ | ⟨k, hk, e2, hmin⟩
  · have := (goal_iff hs').1 hg 0
    rw [hpo] at this
    simp [demo] at this
  refine ⟨demo, s, _, _, _, demo_ok, h5, hf, ho, e1, e2, ?_⟩
  have hk1 := hmin 1 (by rw [ht']; simp)
  rw [ht] at hj
  obtain rfl := Finset.mem_singleton.1 hj
  rw [ht, ht', Finset.sum_singleton, Finset.sum_pair (by decide), cost_eq demo_ok h5 hl]
  rw [hpo, hxy.1, hxy.2] at hk1
  rw [hpo, hxy.1, hxy.2, h4, h2, h3]
  have d1 : dist 9 0 9 0 = 0 := dist_self _ _
  have c1 : base demo 1 ⟨9, 0, 2⟩ = 1 := by
    simp [base, demo, oct, circ]
  have d2 : (6 : ℝ) < dist 9 0 5 5 := by
    unfold dist
    rw [Real.lt_sqrt (by norm_num)]
    norm_num
  simp only [demo, if_pos, opcost] at *
  simp at hk1 ⊢
  rw [d1] at *
  rw [c1]
  linarith

end Verif.Segments
