import Verif.Utils.Geom2dMake
import Mathlib.Algebra.Order.Field.Rat
import Mathlib.Analysis.Real.Sqrt
import Mathlib.Tactic.NormNum

/-!
# C81, C82, C83: plane geometry
-/

namespace Verif.Geom

variable {K : Type} [Field K] [LinearOrder K] [IsStrictOrderedRing K]

/-- `Epsilon` and `Threshold` of the code: 2^-52 and 2^-26. -/
def tq : Tol ℚ where
  eps := 1 / 2 ^ 52
  th := 1 / 2 ^ 26
  eps_pos := by norm_num
  eps_le := by norm_num
  th_le := by norm_num

/-! ## C81: boxes, segments, quadratic equations -/

/-- Two boxes hit each other iff they share a point. -/
theorem c81_box {a b : Bbox K} (ha : a.min.x ≤ a.max.x ∧ a.min.y ≤ a.max.y) (hb : b.min.x ≤ b.max.x ∧ b.min.y ≤ b.max.y) :
    a.hits b = true ↔ ∃ p : Pt K, (a.min.x ≤ p.x ∧ p.x ≤ a.max.x ∧ a.min.y ≤ p.y ∧ p.y ≤ a.max.y) ∧
      (b.min.x ≤ p.x ∧ p.x ≤ b.max.x ∧ b.min.y ≤ p.y ∧ p.y ≤ b.max.y) := by
  constructor
  · intro h
    rw [bbox_hits_iff] at h
    obtain ⟨h1, h2, h3, h4⟩ := h
    exact ⟨⟨max a.min.x b.min.x, max a.min.y b.min.y⟩,
      ⟨le_max_left _ _, max_le ha.1 h2, le_max_left _ _, max_le ha.2 h4⟩,
      ⟨le_max_right _ _, max_le h1 hb.1, le_max_right _ _, max_le h3 hb.2⟩⟩
  · rintro ⟨p, h1, h2⟩
    exact hits_of_mem h1 h2

example : (Bbox.mk2 (⟨3, 0⟩ : Pt ℚ) ⟨0, 2⟩).hits (Bbox.mk2 ⟨3, 2⟩ ⟨5, 9⟩) = true ∧
    (Bbox.mk2 (⟨3, 0⟩ : Pt ℚ) ⟨0, 2⟩).hits (Bbox.mk2 ⟨4, 2⟩ ⟨5, 9⟩) = false := by decide +kernel

/-- The constructor from two corners takes them in any order: the box is the smallest one with both corners. -/
theorem c81_box_corners (p q : Pt K) :
    (Bbox.mk2 p q).min.x = min p.x q.x ∧ (Bbox.mk2 p q).min.y = min p.y q.y ∧
      (Bbox.mk2 p q).max.x = max p.x q.x ∧ (Bbox.mk2 p q).max.y = max p.y q.y := by
  simp

/-- The box of a set of points: all of them are in it, and in every box that contains them all it is contained. -/
theorem c81_box_points {ps : List (Pt K)} {b : Bbox K} (h : Bbox.ofPts ps = some b) :
    (∀ p ∈ ps, b.min.x ≤ p.x ∧ p.x ≤ b.max.x ∧ b.min.y ≤ p.y ∧ p.y ≤ b.max.y) ∧
      (∀ c : Bbox K, (∀ p ∈ ps, c.min.x ≤ p.x ∧ p.x ≤ c.max.x ∧ c.min.y ≤ p.y ∧ p.y ≤ c.max.y) →
        c.min.x ≤ b.min.x ∧ c.min.y ≤ b.min.y ∧ b.max.x ≤ c.max.x ∧ b.max.y ≤ c.max.y) :=
  ofPts_spec h

example : Bbox.ofPts ([⟨1, 5⟩, ⟨-2, 3⟩, ⟨4, 4⟩] : List (Pt ℚ)) = some ⟨⟨-2, 3⟩, ⟨4, 5⟩⟩ := by decide +kernel

/-- Segments that are not parallel and share a point: `isect` returns this point, and `hits` says so, in both
directions. -/
theorem c81_isect_point {T : Tol K} {s o : Seg K} (hs : Clean T s) (ho : Clean T o) (hm : Sep T s o) (hp : ¬ Par s o)
    {q : Pt K} (h1 : OnSeg s.p0 s.p1 q) (h2 : OnSeg o.p0 o.p1 q) :
    s.isect T o = some q ∧ o.isect T s = some q ∧ s.hits T o = true ∧ o.hits T s = true := by
  have e1 := isect_complete hs ho hm hp h1 h2
  have e2 := isect_complete ho hs hm.symm (fun h => hp h.symm) h2 h1
  exact ⟨e1, e2, hits_of_isect ⟨q, h1, h2⟩ (by rw [e1]; rfl), hits_of_isect ⟨q, h2, h1⟩ (by rw [e2]; rfl)⟩

example : Seg.isect tq ⟨⟨0, 0⟩, ⟨4, 2⟩⟩ ⟨⟨0, 2⟩, ⟨4, 0⟩⟩ = some ⟨2, 1⟩ ∧
    Seg.hits tq ⟨⟨0, 0⟩, ⟨4, 2⟩⟩ ⟨⟨0, 2⟩, ⟨4, 0⟩⟩ = true ∧
    Seg.isect tq ⟨⟨0, 0⟩, ⟨4, 2⟩⟩ ⟨⟨3, -5⟩, ⟨3, 5⟩⟩ = some ⟨3, 3 / 2⟩ ∧
    Seg.isect tq ⟨⟨0, 0⟩, ⟨4, 2⟩⟩ ⟨⟨3, 2⟩, ⟨3, 5⟩⟩ = none := by decide +kernel

theorem line_through {T : Tol K} {s : Seg K} (hs : s.p0.x = s.p1.x ∨ T.eps ≤ |s.p1.x - s.p0.x|) :
    ((s.line T).m = none ∧ (s.line T).b = s.p0.x ∧ s.p1.x = s.p0.x) ∨
      ∃ m, (s.line T).m = some m ∧ m * (s.p1.x - s.p0.x) = s.p1.y - s.p0.y ∧ m * s.p0.x + (s.line T).b = s.p0.y := by
  unfold Seg.line Line.mk2
  simp only
  rcases hs with h | h
  · left
    rw [if_pos (by rw [h, sub_self, abs_zero]; exact T.eps_pos)]
    exact ⟨rfl, h.symm, h.symm⟩
  · right
    rw [if_neg (not_lt.2 h)]
    have h0 : s.p1.x - s.p0.x ≠ 0 := by
      intro e
      rw [e, abs_zero] at h
      exact absurd T.eps_pos (not_lt.2 h)
    exact ⟨_, rfl, div_mul_cancel₀ _ h0, by ring⟩

/-- The intersection of two lines is on both of them, and lines without intersection have nearly the same slope. -/
theorem c81_lines {T : Tol K} {s o : Seg K} (hs : s.p0.x = s.p1.x ∨ T.eps ≤ |s.p1.x - s.p0.x|)
    (ho : o.p0.x = o.p1.x ∨ T.eps ≤ |o.p1.x - o.p0.x|) :
    (∀ z, (s.line T).isect T (o.line T) = some z →
      (z.x - s.p0.x) * (s.p1.y - s.p0.y) = (z.y - s.p0.y) * (s.p1.x - s.p0.x) ∧
      (z.x - o.p0.x) * (o.p1.y - o.p0.y) = (z.y - o.p0.y) * (o.p1.x - o.p0.x)) ∧
    ((s.line T).isect T (o.line T) = none ↔ deqm T (s.line T).m (o.line T).m = true) := by
  rcases line_through (T := T) hs with ⟨h1, h2, h3⟩ | ⟨m, h1, h2, h3⟩ <;>
    rcases line_through (T := T) ho with ⟨k1, k2, k3⟩ | ⟨om, k1, k2, k3⟩
  · unfold Line.isect
    rw [h1, k1]
    simp [deqm]
  · unfold Line.isect
    rw [h1, k1]
    simp only [deqm, Bool.false_eq_true, if_false, Option.some.injEq, reduceCtorEq, and_true]
    rintro z rfl
    constructor
    · simp only [h2, h3]; ring
    · simp only
      rw [← k2, ← k3]; ring
  · unfold Line.isect
    rw [h1, k1]
    simp only [deqm, Bool.false_eq_true, if_false, Option.some.injEq, reduceCtorEq, and_true]
    rintro z rfl
    constructor
    · simp only
      rw [← h2, ← h3]; ring
    · simp only [k2, k3]; ring
  · unfold Line.isect
    rw [h1, k1]
    by_cases hd : deqm T (some m) (some om) = true
    · simp [hd]
    · have hne : m - om ≠ 0 := by
        intro e
        apply hd
        have : T.th > 0 := lt_of_lt_of_le T.eps_pos T.eps_le
        simp [deqm, deq, e, this]
      simp only [hd, if_false, Option.some.injEq, reduceCtorEq, and_true, Bool.false_eq_true]
      rintro z rfl
      have hx : (m - om) * (((o.line T).b - (s.line T).b) / (m - om)) = (o.line T).b - (s.line T).b := by
        rw [mul_comm]; exact div_mul_cancel₀ _ hne
      generalize ((o.line T).b - (s.line T).b) / (m - om) = x at hx
      constructor
      · simp only
        rw [← h2, ← h3]; ring
      · simp only
        rw [← k2, ← k3]
        linear_combination (o.p1.x - o.p0.x) * (-hx)

example : (Seg.line tq ⟨⟨0, 0⟩, ⟨4, 2⟩⟩).isect tq (Seg.line tq ⟨⟨6, 1⟩, ⟨6, 2⟩⟩) = some ⟨6, 3⟩ ∧
    (Seg.line tq ⟨⟨0, 0⟩, ⟨4, 2⟩⟩).isect tq (Seg.line tq ⟨⟨0, 9⟩, ⟨1, 8⟩⟩) = some ⟨6, 3⟩ := by decide +kernel

/-- Segments that share a point are reported as hitting, unless they are parallel and the receiver lies inside the
argument.  What is missing: the exception (`c81_overlap_missed`), and inputs that are only nearly vertical or nearly
parallel (`c81_crossing_missed`). -/
theorem c81_hits_partial {T : Tol K} {s o : Seg K} (hs : Clean T s) (ho : Clean T o) (hm : Sep T s o) (h : Meet s o)
    (hp : Par s o → OnSeg s.p0 s.p1 o.p0 ∨ OnSeg s.p0 s.p1 o.p1) : s.hits T o = true := by
  by_cases hpar : Par s o
  · exact hits_of_isect h (isect_complete_par hs ho hpar (hp hpar))
  · obtain ⟨q, h1, h2⟩ := h
    exact (c81_isect_point hs ho hm hpar h1 h2).2.2.1

/-- What `isect` returns lies within twice the tolerance of both segments; so does anything reported by `hits`. -/
theorem c81_sound {T : Tol K} {s o : Seg K} (hs : Clean T s) (ho : Clean T o) (hm : Sep T s o) (h : s.hits T o = true) :
    ∃ p, s.isect T o = some p ∧
      (∃ q, OnSeg s.p0 s.p1 q ∧ |p.x - q.x| ≤ 2 * T.th ∧ |p.y - q.y| ≤ 2 * T.th) ∧
      (∃ q, OnSeg o.p0 o.p1 q ∧ |p.x - q.x| ≤ 2 * T.th ∧ |p.y - q.y| ≤ 2 * T.th) := by
  obtain ⟨p, hp⟩ := Option.isSome_iff_exists.1 (isect_of_hits h)
  exact ⟨p, hp, isect_sound hs ho hm hp⟩

/-- The hypotheses of the theorems above hold for ordinary input. -/
example : Clean tq ⟨⟨0, 0⟩, ⟨4, 2⟩⟩ ∧ Clean tq ⟨⟨3, -5⟩, ⟨3, 5⟩⟩ ∧ Clean tq ⟨⟨0, 2⟩, ⟨4, 0⟩⟩ ∧
    Sep tq ⟨⟨0, 0⟩, ⟨4, 2⟩⟩ ⟨⟨0, 2⟩, ⟨4, 0⟩⟩ ∧ Sep tq ⟨⟨0, 0⟩, ⟨4, 2⟩⟩ ⟨⟨1, 1⟩, ⟨3, 2⟩⟩ ∧
    ¬ Par (⟨⟨0, 0⟩, ⟨4, 2⟩⟩ : Seg ℚ) ⟨⟨0, 2⟩, ⟨4, 0⟩⟩ := by
  unfold Clean Sep Par Seg.slope tq
  refine ⟨?_, ?_, ?_, ?_, ?_, ?_⟩ <;> norm_num

/-- The test is not symmetric and misses a segment that lies inside another one: (1,0)-(2,0) does not hit (0,0)-(3,0),
although it is a part of it; asked the other way round the answer is yes. -/
theorem c81_overlap_missed : ∃ s o : Seg ℚ, Clean tq s ∧ Clean tq o ∧ Sep tq s o ∧ Meet s o ∧
    s.hits tq o = false ∧ o.hits tq s = true := by
  refine ⟨⟨⟨1, 0⟩, ⟨2, 0⟩⟩, ⟨⟨0, 0⟩, ⟨3, 0⟩⟩, ?_, ?_, ?_, ⟨⟨1, 0⟩, ⟨0, ?_⟩, ⟨1 / 3, ?_⟩⟩, ?_, ?_⟩
  · unfold Clean tq; norm_num
  · unfold Clean tq; norm_num
  · unfold Sep Seg.slope tq; norm_num
  · norm_num
  · norm_num
  · decide +kernel
  · decide +kernel

/-- Two long segments with nearly the same slope that cross at the origin: neither direction reports it, although they are
2 apart at their ends. -/
theorem c81_crossing_missed : ∃ s o : Seg ℚ, OnSeg s.p0 s.p1 ⟨0, 0⟩ ∧ OnSeg o.p0 o.p1 ⟨0, 0⟩ ∧
    s.hits tq o = false ∧ o.hits tq s = false ∧ s.p0.x = o.p0.x ∧ |s.p0.y - o.p0.y| = 2 := by
  refine ⟨⟨⟨-10 ^ 9, -1⟩, ⟨10 ^ 9, 1⟩⟩, ⟨⟨-10 ^ 9, 1⟩, ⟨10 ^ 9, -1⟩⟩, ⟨1 / 2, ?_⟩, ⟨1 / 2, ?_⟩, ?_, ?_, rfl, ?_⟩
  · norm_num
  · norm_num
  · decide +kernel
  · decide +kernel
  · norm_num

/-- The solutions of a quadratic equation: all of them and nothing else, provided the leading coefficient is not zero
(otherwise the code divides by zero) and `sqrt` is the square root. -/
theorem c81_quadratic {sqrt : K → K} (hs : ∀ d, 0 ≤ d → sqrt d * sqrt d = d) {a b c : K} (ha : a ≠ 0) (x : K) :
    x ∈ solutions sqrt a b c ↔ a * x * x + b * x + c = 0 := by
  have h2 : (2 : K) * a ≠ 0 := mul_ne_zero two_ne_zero ha
  have key : a * x * x + b * x + c = 0 ↔ (2 * a * x + b) * (2 * a * x + b) = b * b - 4 * a * c := by
    constructor
    · intro h; linear_combination 4 * a * h
    · intro h
      have : 4 * a * (a * x * x + b * x + c) = 0 := by linear_combination h
      rcases mul_eq_zero.1 this with h | h
      · exact absurd h (mul_ne_zero four_ne_zero ha)
      · exact h
  rw [key]
  unfold solutions
  simp only
  split
  · rename_i hd
    simp only [List.not_mem_nil, false_iff]
    intro h
    have := mul_self_nonneg (2 * a * x + b)
    linarith
  · rename_i hd
    split
    · rename_i hz
      rw [List.mem_singleton, hz, mul_self_eq_zero, eq_div_iff h2]
      constructor
      · intro h; linear_combination h
      · intro h; linear_combination h
    · have hsq := hs _ (not_lt.1 hd)
      simp only [List.mem_cons, List.not_mem_nil, or_false]
      generalize sqrt (b * b - 4 * a * c) = r at hsq ⊢
      rw [← hsq, mul_self_eq_mul_self_iff, eq_div_iff h2, eq_div_iff h2]
      refine or_congr ⟨?_, ?_⟩ ⟨?_, ?_⟩ <;> intro h <;> linear_combination h

/-- The hypothesis on `sqrt` holds for the real square root. -/
example : ∀ x : ℝ, x ∈ solutions Real.sqrt 1 (-3) 2 ↔ 1 * x * x + -3 * x + 2 = 0 :=
  c81_quadratic (fun _ h => Real.mul_self_sqrt h) one_ne_zero

example : solutions (fun d : ℚ => d) 1 (-3) 2 = [2, 1] := by decide +kernel

/-! ## C82: the interior of a polygon -/

/-- The polygon and the point are away from the tolerances: every side is vertical or not by the tolerance, horizontal or
not by the tolerance, and the height of the point is the one of a vertex or not by the tolerance. -/
def CleanFor (T : Tol K) (P : Poly K) (p : Pt K) : Prop := ∀ s ∈ P.sides, CleanSide T s ∧ CleanY T p s

open Classical in
/-- `contains` counts the sides that the rightward ray from the point crosses, and says whether the number is odd. -/
theorem c82_parity {T : Tol K} {P : Poly K} {p : Pt K} (h : CleanFor T P p) :
    P.contains T p = true ↔ P.sides.countP (fun s => decide (RayX p s.p0 s.p1)) % 2 = 1 := by
  rw [contains_iff h, countP_odd]
  exact xsum_congr fun s _ => by simp

/-- A polygonal path that meets no side. -/
def Free (ss : List (Seg K)) : List (Pt K) → Prop
  | a :: b :: r => (∀ s ∈ ss, ¬ Meet ⟨a, b⟩ s) ∧ Free ss (b :: r)
  | _ => True

theorem odd_free {vs : List (Pt K)} {ss : List (Seg K)} (h : initsides vs = .ok ss) :
    ∀ (p : Pt K) (r : List (Pt K)), Free ss (p :: r) → (Odd ss p ↔ Odd ss ((p :: r).getLast (by simp)))
  | p, [], _ => by simp
  | p, b :: r, hf => by
    rw [odd_const h hf.1, odd_free h b r hf.2]
    simp

/-- Inside and outside are separated by the sides: a path from a point that is contained to a point that is not meets a
side. -/
theorem c82_enclosed {T : Tol K} {vs : List (Pt K)} {P : Poly K} (hP : Poly.make vs = .ok P) {p : Pt K} {r : List (Pt K)}
    (hp : CleanFor T P p) (hq : CleanFor T P ((p :: r).getLast (by simp))) (hf : Free P.sides (p :: r)) :
    P.contains T p = P.contains T ((p :: r).getLast (by simp)) := by
  obtain ⟨hne, rfl⟩ := make_ok hP
  have := odd_free (initsides_eq hne) p r hf
  rw [Bool.eq_iff_iff, contains_iff hp, contains_iff hq]
  exact this

/-- Crossing one side, at a point that is not a vertex, changes the answer. -/
theorem c82_crossing {T : Tol K} {vs : List (Pt K)} {P : Poly K} (hP : Poly.make vs = .ok P) {p q : Pt K}
    (hp : CleanFor T P p) (hq : CleanFor T P q) {l r : List (Seg K)} {s : Seg K} (hs : P.sides = l ++ s :: r)
    (hx : Proper ⟨p, q⟩ s) (hm : ∀ o ∈ l ++ r, ¬ Meet ⟨p, q⟩ o) : P.contains T p = !P.contains T q := by
  obtain ⟨hne, rfl⟩ := make_ok hP
  have h1 := contains_iff hp
  have h2 := contains_iff hq
  simp only at hs
  have := odd_flip (by rw [initsides_eq hne, hs]) hx hm
  have h1' := h1.trans (by rw [hs])
  have h2' := h2.trans (by rw [hs])
  rw [Bool.eq_iff_iff, h1', this, ← h2']
  simp

/-- Nothing outside the box of the vertices is contained. -/
theorem c82_outside {T : Tol K} {vs : List (Pt K)} {P : Poly K} (hP : Poly.make vs = .ok P) {p : Pt K}
    (hp : CleanFor T P p) {b : Bbox K} (hb : P.bbox = some b)
    (ho : p.x < b.min.x ∨ b.max.x < p.x ∨ p.y < b.min.y ∨ b.max.y < p.y) : P.contains T p = false := by
  obtain ⟨hne, rfl⟩ := make_ok hP
  simp only at hb
  have hmem := (ofPts_spec hb).1
  have hv : ∀ s ∈ cyc (rmcol vs 0) hne, b.Mem s.p0 ∧ b.Mem s.p1 := by
    intro s hs
    obtain ⟨h1, h2⟩ := cyc_mem hne hs
    exact ⟨hmem _ ((rmcol_sub vs 0).subset h1), hmem _ ((rmcol_sub vs 0).subset h2)⟩
  rw [Bool.eq_false_iff, Ne, contains_iff hp]
  refine not_odd_outside (initsides_eq hne) ?_
  rcases ho with ho | ho | ho | ho
  · exact Or.inr (Or.inl fun s hs => ⟨ho.trans_le (hv s hs).1.1, ho.trans_le (hv s hs).2.1⟩)
  · exact Or.inl fun s hs => ⟨(hv s hs).1.2.1.trans ho.le, (hv s hs).2.2.1.trans ho.le⟩
  · exact Or.inr (Or.inr (Or.inr fun s hs => ⟨ho.le.trans (hv s hs).1.2.2.1, ho.le.trans (hv s hs).2.2.2.1⟩))
  · exact Or.inr (Or.inr (Or.inl fun s hs => ⟨(hv s hs).1.2.2.2.trans_lt ho, (hv s hs).2.2.2.2.trans_lt ho⟩))

/-- A polygon that is not convex: a square with a notch. -/
def notch : List (Pt ℚ) := [⟨0, 0⟩, ⟨0, 4⟩, ⟨2, 1⟩, ⟨4, 4⟩, ⟨4, 0⟩]

/-- The polygon built from `notch`. -/
def notchP : Poly ℚ :=
  ⟨notch, [⟨⟨0, 0⟩, ⟨0, 4⟩⟩, ⟨⟨0, 4⟩, ⟨2, 1⟩⟩, ⟨⟨2, 1⟩, ⟨4, 4⟩⟩, ⟨⟨4, 4⟩, ⟨4, 0⟩⟩, ⟨⟨4, 0⟩, ⟨0, 0⟩⟩],
    some ⟨⟨0, 0⟩, ⟨4, 4⟩⟩⟩

theorem notch_bent : rmcol notch 0 = notch := by
  have s : ∀ i (h : i < notch.length), straight (nbrs notch i h).1 (nbrs notch i h).2.1 (nbrs notch i h).2.2 = false := by
    decide +kernel
  have h : notch.length = 5 := rfl
  have step : ∀ i, i < 5 → rmcol notch i = rmcol notch (i + 1) := by
    intro i hi
    rw [rmcol, dif_pos (by omega)]
    simp only [s i (by omega), Bool.false_eq_true, if_false]
  rw [step 0 (by omega), step 1 (by omega), step 2 (by omega), step 3 (by omega), step 4 (by omega), rmcol,
    dif_neg (by omega)]

theorem notch_make : Poly.make notch = .ok notchP := by
  unfold Poly.make
  rw [notch_bent]
  decide +kernel

theorem notch_clean (p : Pt ℚ) (h : ∀ y ∈ ([0, 1, 4] : List ℚ), y = p.y ∨ tq.th ≤ |y - p.y|) : CleanFor tq notchP p := by
  have h0 := h 0 (by simp)
  have h1 := h 1 (by simp)
  have h4 := h 4 (by simp)
  intro s hs
  simp only [notchP, List.mem_cons, List.not_mem_nil, or_false] at hs
  rcases hs with rfl | rfl | rfl | rfl | rfl
  · exact ⟨⟨by unfold Clean tq; norm_num, by unfold Seg.slope tq; norm_num⟩, ⟨h0, h4⟩⟩
  · exact ⟨⟨by unfold Clean tq; norm_num, by unfold Seg.slope tq; norm_num⟩, ⟨h4, h1⟩⟩
  · exact ⟨⟨by unfold Clean tq; norm_num, by unfold Seg.slope tq; norm_num⟩, ⟨h1, h4⟩⟩
  · exact ⟨⟨by unfold Clean tq; norm_num, by unfold Seg.slope tq; norm_num⟩, ⟨h4, h0⟩⟩
  · exact ⟨⟨by unfold Clean tq; norm_num, by unfold Seg.slope tq; norm_num⟩, ⟨h0, h0⟩⟩

/-- In the left and in the right horn, in the notch, at the height of a vertex, outside. -/
example : notchP.contains tq ⟨1 / 2, 2⟩ = true ∧ notchP.contains tq ⟨7 / 2, 2⟩ = true ∧ notchP.contains tq ⟨2, 2⟩ = false ∧
    notchP.contains tq ⟨1, 1⟩ = true ∧ notchP.contains tq ⟨-1, 1⟩ = false ∧ notchP.contains tq ⟨-1, 0⟩ = false := by
  decide +kernel

example : CleanFor tq notchP ⟨1 / 2, 2⟩ ∧ CleanFor tq notchP ⟨2, 2⟩ ∧ CleanFor tq notchP ⟨1, 1⟩ := by
  refine ⟨notch_clean _ ?_, notch_clean _ ?_, notch_clean _ ?_⟩ <;> (unfold tq; norm_num [abs_of_neg, abs_of_pos])

/-- The horn and the notch are separated by one side. -/
example : notchP.sides = [⟨⟨0, 0⟩, ⟨0, 4⟩⟩] ++ ⟨⟨0, 4⟩, ⟨2, 1⟩⟩ :: [⟨⟨2, 1⟩, ⟨4, 4⟩⟩, ⟨⟨4, 4⟩, ⟨4, 0⟩⟩, ⟨⟨4, 0⟩, ⟨0, 0⟩⟩] ∧
    Proper (⟨⟨1 / 2, 2⟩, ⟨2, 2⟩⟩ : Seg ℚ) ⟨⟨0, 4⟩, ⟨2, 1⟩⟩ := by
  refine ⟨rfl, ?_⟩
  unfold Proper cr; norm_num

/-- The tolerance makes `contains` wrong for a flat polygon: sides with a slope below the tolerance are skipped, and a
point to the left of a long thin triangle, outside its box, is said to be inside. -/
theorem c82_flat_wrong : ∃ (vs : List (Pt ℚ)) (P : Poly ℚ) (b : Bbox ℚ) (p : Pt ℚ), Poly.ofVerts vs = .ok P ∧
    P.bbox = some b ∧ p.x < b.min.x ∧ P.contains tq p = true := by
  have hm : Poly.ofVerts ([⟨0, -1⟩, ⟨0, 1⟩, ⟨10 ^ 9, 0⟩] : List (Pt ℚ)) =
      .ok ⟨[⟨0, -1⟩, ⟨0, 1⟩, ⟨10 ^ 9, 0⟩], [⟨⟨0, -1⟩, ⟨0, 1⟩⟩, ⟨⟨0, 1⟩, ⟨10 ^ 9, 0⟩⟩, ⟨⟨10 ^ 9, 0⟩, ⟨0, -1⟩⟩],
        some ⟨⟨0, -1⟩, ⟨10 ^ 9, 1⟩⟩⟩ := by
    have s : ∀ i (h : i < 3), straight (nbrs ([⟨0, -1⟩, ⟨0, 1⟩, ⟨10 ^ 9, 0⟩] : List (Pt ℚ)) i h).1
        (nbrs ([⟨0, -1⟩, ⟨0, 1⟩, ⟨10 ^ 9, 0⟩] : List (Pt ℚ)) i h).2.1
        (nbrs ([⟨0, -1⟩, ⟨0, 1⟩, ⟨10 ^ 9, 0⟩] : List (Pt ℚ)) i h).2.2 = false := by decide +kernel
    have step : ∀ i, i < 3 → rmcol ([⟨0, -1⟩, ⟨0, 1⟩, ⟨10 ^ 9, 0⟩] : List (Pt ℚ)) i =
        rmcol [⟨0, -1⟩, ⟨0, 1⟩, ⟨10 ^ 9, 0⟩] (i + 1) := by
      intro i hi
      rw [rmcol, dif_pos (by simpa using hi)]
      simp only [s i hi, Bool.false_eq_true, if_false]
    have hr : rmcol ([⟨0, -1⟩, ⟨0, 1⟩, ⟨10 ^ 9, 0⟩] : List (Pt ℚ)) 0 = [⟨0, -1⟩, ⟨0, 1⟩, ⟨10 ^ 9, 0⟩] := by
      rw [step 0 (by omega), step 1 (by omega), step 2 (by omega), rmcol, dif_neg (by simp)]
    unfold Poly.ofVerts Poly.make
    rw [hr]
    decide +kernel
  exact ⟨_, _, ⟨⟨0, -1⟩, ⟨10 ^ 9, 1⟩⟩, ⟨-1, 1 / 2⟩, hm, rfl, by norm_num, by decide +kernel⟩

/-- A segment that meets a side hits the polygon, with the exception of `c81_hits_partial`: the segment is parallel to the
side and lies inside it.  What is missing: the exception, and inputs within the tolerances. -/
theorem c82_hits_partial {T : Tol K} {vs : List (Pt K)} {P : Poly K} (hP : Poly.make vs = .ok P) {l s : Seg K}
    (hs : s ∈ P.sides) (hm : Meet l s) (hl : Clean T l) (hc : Clean T s) (hsep : Sep T l s)
    (hp : Par l s → OnSeg l.p0 l.p1 s.p0 ∨ OnSeg l.p0 l.p1 s.p1) : P.hits T l = true := by
  obtain ⟨hne, rfl⟩ := make_ok hP
  simp only at hs
  have hvs : vs ≠ [] := by
    intro h; subst h
    exact hne (by rw [rmcol]; simp)
  obtain ⟨b, hb⟩ : ∃ b, Bbox.ofPts vs = some b := by
    cases vs with
    | nil => exact absurd rfl hvs
    | cons a r => exact ⟨_, rfl⟩
  have hmem := (ofPts_spec hb).1
  obtain ⟨h1, h2⟩ := cyc_mem hne hs
  obtain ⟨q, q1, q2⟩ := hm
  have bq : b.Mem q := Bbox.mem_onSeg (hmem _ ((rmcol_sub vs 0).subset h1)) (hmem _ ((rmcol_sub vs 0).subset h2)) q2
  have hbox : b.hits l.bbox = true := hits_of_mem bq q1.mem
  have hh := c81_hits_partial hl hc hsep ⟨q, q1, q2⟩ hp
  unfold Poly.hits
  simp only [hb, hbox, Bool.not_true, Bool.false_eq_true, if_false, List.any_eq_true]
  exact ⟨s, hs, hh⟩

example : notchP.hits tq ⟨⟨1, 1⟩, ⟨3, 3⟩⟩ = true ∧ notchP.hits tq ⟨⟨1, 1⟩, ⟨3, 1 / 2⟩⟩ = false ∧
    notchP.hits tq ⟨⟨0, 1⟩, ⟨0, 3⟩⟩ = false := by decide +kernel

theorem minStep_spec (T : Tol K) (l : Seg K) : ∀ (ss : List (Seg K)) (b : Option (Pt K)),
    (ss.foldl (minStep T l) b = none ↔ b = none ∧ ss.filterMap (fun s => l.isect T s) = []) ∧
      ∀ p, ss.foldl (minStep T l) b = some p →
        (b = some p ∨ p ∈ ss.filterMap fun s => l.isect T s) ∧ (∀ q, b = some q → dist2 p l.p0 ≤ dist2 q l.p0) ∧
        ∀ q ∈ ss.filterMap (fun s => l.isect T s), dist2 p l.p0 ≤ dist2 q l.p0
  | [], b => by
    refine ⟨by simp, fun p hp => ?_⟩
    simp only [List.foldl_nil] at hp
    refine ⟨Or.inl hp, fun q hq => ?_, fun q hq => by simp at hq⟩
    rw [hp] at hq; cases hq; exact le_refl _
  | s :: ss, b => by
    obtain ⟨i1, i2⟩ := minStep_spec T l ss (minStep T l b s)
    rw [List.foldl_cons]
    cases hi : l.isect T s with
    | none =>
      have e : minStep T l b s = b := by simp [minStep, hi]
      rw [e] at i1 i2 ⊢
      simp only [List.filterMap_cons, hi]
      exact ⟨i1, i2⟩
    | some x =>
      simp only [List.filterMap_cons, hi]
      cases hb : b with
      | none =>
        have e : minStep T l none s = some x := by simp [minStep, hi]
        rw [hb, e] at i1 i2
        rw [e]
        refine ⟨by simp [i1], fun p hp => ?_⟩
        obtain ⟨j1, j2, j3⟩ := i2 p hp
        refine ⟨Or.inr ?_, fun q hq => by simp at hq, fun q hq => ?_⟩
        · rcases j1 with j | j
          · cases j; exact List.mem_cons_self
          · exact List.mem_cons_of_mem _ j
        · rcases List.mem_cons.1 hq with e | e
          · subst e; exact j2 q rfl
          · exact j3 q e
      | some y =>
        have e : minStep T l (some y) s = if dist2 x l.p0 < dist2 y l.p0 then some x else some y := by simp [minStep, hi]
        rw [hb, e] at i1 i2
        rw [e]
        split at i1
        · rename_i hlt
          simp only [hlt, if_true] at i2 ⊢
          refine ⟨by simp [i1], fun p hp => ?_⟩
          obtain ⟨j1, j2, j3⟩ := i2 p hp
          refine ⟨Or.inr ?_, fun q hq => ?_, fun q hq => ?_⟩
          · rcases j1 with j | j
            · cases j; exact List.mem_cons_self
            · exact List.mem_cons_of_mem _ j
          · cases hq; exact (j2 x rfl).trans hlt.le
          · rcases List.mem_cons.1 hq with e | e
            · subst e; exact j2 q rfl
            · exact j3 q e
        · rename_i hlt
          simp only [hlt, if_false] at i2 ⊢
          refine ⟨by simp [i1], fun p hp => ?_⟩
          obtain ⟨j1, j2, j3⟩ := i2 p hp
          refine ⟨?_, fun q hq => j2 q hq, fun q hq => ?_⟩
          · rcases j1 with j | j
            · exact Or.inl j
            · exact Or.inr (List.mem_cons_of_mem _ j)
          · rcases List.mem_cons.1 hq with e | e
            · subst e; exact (j2 y rfl).trans (not_lt.1 hlt)
            · exact j3 q e

/-- `minisect` returns one of the intersection points with the sides, a nearest one to the start of the segment, and
nothing iff there is none. -/
theorem c82_minisect (T : Tol K) (P : Poly K) (l : Seg K) :
    (P.minisect T l = none ↔ ∀ s ∈ P.sides, l.isect T s = none) ∧
      ∀ p, P.minisect T l = some p → (∃ s ∈ P.sides, l.isect T s = some p) ∧
        ∀ s ∈ P.sides, ∀ q, l.isect T s = some q → dist2 p l.p0 ≤ dist2 q l.p0 := by
  obtain ⟨h1, h2⟩ := minStep_spec T l P.sides none
  refine ⟨?_, fun p hp => ?_⟩
  · unfold Poly.minisect
    rw [h1]
    simp
  · obtain ⟨j1, _, j3⟩ := h2 p hp
    refine ⟨?_, fun s hs q hq => j3 q (List.mem_filterMap.2 ⟨s, hs, hq⟩)⟩
    rcases j1 with j | j
    · cases j
    · obtain ⟨s, hs, e⟩ := List.mem_filterMap.1 j
      exact ⟨s, hs, e⟩

example : notchP.minisect tq ⟨⟨-1, 3⟩, ⟨5, 3⟩⟩ = some ⟨0, 3⟩ ∧ notchP.minisect tq ⟨⟨5, 3⟩, ⟨-1, 3⟩⟩ = some ⟨4, 3⟩ ∧
    (notchP.isects tq ⟨⟨-1, 3⟩, ⟨5, 3⟩⟩).length = 4 ∧ notchP.minisect tq ⟨⟨-1, 3⟩, ⟨-5, 3⟩⟩ = none := by decide +kernel

/-! ## C83: construction -/

theorem eq_replicate {vs : List (Pt K)} (h : ∀ a ∈ vs, ∀ b ∈ vs, a = b) : ∃ n z, vs = List.replicate n z := by
  cases vs with
  | nil => exact ⟨0, ⟨0, 0⟩, rfl⟩
  | cons a r => exact ⟨(a :: r).length, a, List.eq_replicate_iff.2 ⟨rfl, fun b hb => h b hb a List.mem_cons_self⟩⟩

/-- Building a polygon is defined iff two of the given vertices differ: otherwise all of them are removed as colinear, and
the code reads the last element of an empty vector.  (The constructor from a file has no lower bound on the number of
vertices.) -/
theorem c83_defined (vs : List (Pt K)) :
    (Poly.make vs = .ub ↔ ∀ a ∈ vs, ∀ b ∈ vs, a = b) ∧ ((∃ a ∈ vs, ∃ b ∈ vs, a ≠ b) ↔ ∃ P, Poly.make vs = .ok P) := by
  by_cases h : ∃ a ∈ vs, ∃ b ∈ vs, a ≠ b
  · obtain ⟨a, ha, b, hb, hab⟩ := h
    obtain ⟨c, hc, _⟩ := rmcol_distinct vs 0 ⟨a, ha, b, hb, hab⟩
    have hne : rmcol vs 0 ≠ [] := List.ne_nil_of_mem hc
    have hok : Poly.make vs = .ok ⟨rmcol vs 0, cyc (rmcol vs 0) hne, Bbox.ofPts vs⟩ := by
      unfold Poly.make
      simp only [initsides_eq hne, Outcome.map_ok]
    rw [hok]
    refine ⟨⟨fun h => by simp at h, fun h => absurd (h a ha b hb) hab⟩, ⟨fun _ => ⟨_, rfl⟩, fun _ => ⟨a, ha, b, hb, hab⟩⟩⟩
  · have h' := h
    push Not at h'
    obtain ⟨n, z, e⟩ := eq_replicate h'
    have hub : Poly.make vs = .ub := by
      unfold Poly.make
      simp only [e, rmcol_same, initsides, dif_pos, Outcome.map_ub]
    rw [hub]
    refine ⟨⟨fun _ => h', fun _ => rfl⟩, ⟨fun g => absurd g h, fun ⟨P, hP⟩ => by cases hP⟩⟩

/-- Three times the same point passes the check for three vertices and is undefined behaviour; so is an empty list read
from a file. -/
theorem c83_undefined : Poly.ofVerts ([⟨1, 1⟩, ⟨1, 1⟩, ⟨1, 1⟩] : List (Pt ℚ)) = .ub ∧ Poly.make ([] : List (Pt ℚ)) = .ub := by
  refine ⟨?_, ((c83_defined _).1).2 (by simp)⟩
  unfold Poly.ofVerts
  rw [if_neg (by simp)]
  exact ((c83_defined _).1).2 (by simp)

/-- Removing the colinear vertices keeps the shape: the sides cover the same points as the closed polygon through all given
vertices, and the ray test has the same parity everywhere; the vertices are a part of the given ones, in order; and the box
is the one of all given vertices. -/
theorem c83_shape {vs : List (Pt K)} {P : Poly K} (h : Poly.make vs = .ok P) (hne : vs ≠ []) {ss : List (Seg K)}
    (hss : ss = chain vs ++ [⟨vs.getLast hne, vs.head hne⟩]) :
    (∀ q, (∃ s ∈ P.sides, OnSeg s.p0 s.p1 q) ↔ ∃ s ∈ ss, OnSeg s.p0 s.p1 q) ∧
      (∀ p, Odd P.sides p ↔ Odd ss p) ∧ P.verts.Sublist vs ∧ P.bbox = Bbox.ofPts vs := by
  have hd := ((c83_defined vs).2).2 ⟨P, h⟩
  obtain ⟨hn, rfl⟩ := make_ok h
  obtain ⟨h1, h2⟩ := rmcol_spec vs 0 hd hne hn
  subst hss
  exact ⟨h1, h2, rmcol_sub vs 0, rfl⟩

/-- No vertex of a polygon lies on the way between its neighbours; in particular neighbours differ, and there are at least
two vertices. -/
theorem c83_no_colinear {vs : List (Pt K)} {P : Poly K} (h : Poly.make vs = .ok P) :
    2 ≤ P.verts.length ∧ ∀ i (hi : i < P.verts.length),
      ¬ ((P.verts[if i + 1 = P.verts.length then 0 else i + 1]'(by split <;> omega)).x - P.verts[i].x) *
            (P.verts[i].y - (P.verts[if i = 0 then P.verts.length - 1 else i - 1]'(by split <;> omega)).y) -
          (P.verts[i].x - (P.verts[if i = 0 then P.verts.length - 1 else i - 1]'(by split <;> omega)).x) *
            ((P.verts[if i + 1 = P.verts.length then 0 else i + 1]'(by split <;> omega)).y - P.verts[i].y) = 0 ∨
      ((P.verts[if i + 1 = P.verts.length then 0 else i + 1]'(by split <;> omega)).x - P.verts[i].x) *
            (P.verts[i].x - (P.verts[if i = 0 then P.verts.length - 1 else i - 1]'(by split <;> omega)).x) +
          ((P.verts[if i + 1 = P.verts.length then 0 else i + 1]'(by split <;> omega)).y - P.verts[i].y) *
            (P.verts[i].y - (P.verts[if i = 0 then P.verts.length - 1 else i - 1]'(by split <;> omega)).y) < 0 := by
  have hd := ((c83_defined vs).2).2 ⟨P, h⟩
  obtain ⟨hn, rfl⟩ := make_ok h
  obtain ⟨a, ha, b, hb, hab⟩ := rmcol_distinct vs 0 hd
  refine ⟨two_le ha hb hab, fun i hi => ?_⟩
  have hbent := rmcol_bent vs 0 (fun j _ hj => absurd hj (Nat.not_lt_zero _)) (i + 1) i hi (by omega)
  simp only at hi ⊢
  have hlast : (nbrs (rmcol vs 0) i hi).2.2 =
      (rmcol vs 0)[if i + 1 = (rmcol vs 0).length then 0 else i + 1]'(by split <;> omega) := by
    simp only [nbrs]
    by_cases e : i = (rmcol vs 0).length - 1
    · have e' : i + 1 = (rmcol vs 0).length := by omega
      rw [dif_pos e]; simp only [e', if_true]
    · have e' : i + 1 ≠ (rmcol vs 0).length := by omega
      rw [dif_neg e]; simp only [e', if_false]
  have hprev : (nbrs (rmcol vs 0) i hi).1 =
      (rmcol vs 0)[if i = 0 then (rmcol vs 0).length - 1 else i - 1]'(by split <;> omega) := by
    simp only [nbrs]
    by_cases e : i = 0
    · simp only [e, if_true]
    · simp only [e, if_false]
  rw [Bool.eq_false_iff, Ne, straight_iff, not_and_or, not_le, hlast, hprev] at hbent
  exact hbent

/-- The constructor from a list insists on three vertices, but its result need not have three: a flat triangle becomes a
polygon with two vertices. -/
theorem c83_two_vertices : ∃ P, Poly.ofVerts ([⟨0, 0⟩, ⟨2, 0⟩, ⟨1, 0⟩] : List (Pt ℚ)) = .ok P ∧ P.verts.length = 2 := by
  have e : rmcol ([⟨0, 0⟩, ⟨2, 0⟩, ⟨1, 0⟩] : List (Pt ℚ)) 0 = [⟨0, 0⟩, ⟨2, 0⟩] := by
    have s0 : ∀ h, straight (nbrs ([⟨0, 0⟩, ⟨2, 0⟩, ⟨1, 0⟩] : List (Pt ℚ)) 0 h).1
        (nbrs ([⟨0, 0⟩, ⟨2, 0⟩, ⟨1, 0⟩] : List (Pt ℚ)) 0 h).2.1
        (nbrs ([⟨0, 0⟩, ⟨2, 0⟩, ⟨1, 0⟩] : List (Pt ℚ)) 0 h).2.2 = false := by decide +kernel
    have s1 : ∀ h, straight (nbrs ([⟨0, 0⟩, ⟨2, 0⟩, ⟨1, 0⟩] : List (Pt ℚ)) 1 h).1
        (nbrs ([⟨0, 0⟩, ⟨2, 0⟩, ⟨1, 0⟩] : List (Pt ℚ)) 1 h).2.1
        (nbrs ([⟨0, 0⟩, ⟨2, 0⟩, ⟨1, 0⟩] : List (Pt ℚ)) 1 h).2.2 = false := by decide +kernel
    have s2 : ∀ h, straight (nbrs ([⟨0, 0⟩, ⟨2, 0⟩, ⟨1, 0⟩] : List (Pt ℚ)) 2 h).1
        (nbrs ([⟨0, 0⟩, ⟨2, 0⟩, ⟨1, 0⟩] : List (Pt ℚ)) 2 h).2.1
        (nbrs ([⟨0, 0⟩, ⟨2, 0⟩, ⟨1, 0⟩] : List (Pt ℚ)) 2 h).2.2 = true := by decide +kernel
    rw [rmcol, dif_pos (by simp)]
    simp only [s0, Bool.false_eq_true, if_false]
    rw [rmcol, dif_pos (by simp)]
    simp only [s1, Bool.false_eq_true, if_false]
    rw [rmcol, dif_pos (by simp)]
    simp only [s2, if_true]
    rw [rmcol, dif_neg (by simp)]
    simp
  unfold Poly.ofVerts Poly.make
  rw [if_neg (by simp), e]
  exact ⟨_, rfl, rfl⟩

end Verif.Geom
