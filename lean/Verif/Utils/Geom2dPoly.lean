import Verif.Utils.Geom2dThms
import Mathlib.Data.List.Basic

/-!
# Lemmas about polygons: the ray test, parity along a segment, construction
-/

namespace Verif.Geom

variable {K : Type} [Field K] [LinearOrder K] [IsStrictOrderedRing K]

/-! ## The ray test -/

/-- One end point at or above the horizontal through `p`, the other one below. -/
def Strad (p a b : Pt K) : Prop := (p.y ≤ a.y ∧ b.y < p.y) ∨ (p.y ≤ b.y ∧ a.y < p.y)

theorem Strad.ne {p a b : Pt K} (h : Strad p a b) : a.y ≠ b.y := by
  rcases h with ⟨h1, h2⟩ | ⟨h1, h2⟩
  · exact (h2.trans_le h1).ne'
  · exact (h2.trans_le h1).ne

theorem strad_iff (p a b : Pt K) : Strad p a b ↔ ¬ (p.y ≤ a.y ↔ p.y ≤ b.y) := by
  unfold Strad
  by_cases h1 : p.y ≤ a.y <;> by_cases h2 : p.y ≤ b.y <;> simp [h1, h2, not_lt.2, not_le.1]

theorem at_y_unique {a b q q' : Pt K} (h : a.y ≠ b.y) (h1 : OnSeg a b q) (h2 : OnSeg a b q') (e : q.y = q'.y) :
    q = q' := by
  obtain ⟨t, _, _, hx, hy⟩ := h1
  obtain ⟨t', _, _, hx', hy'⟩ := h2
  have hne : b.y - a.y ≠ 0 := sub_ne_zero.2 (Ne.symm h)
  have ht : t = t' := by
    have : t * (b.y - a.y) = t' * (b.y - a.y) := by rw [hy, hy'] at e; linarith
    exact mul_right_cancel₀ hne this
  cases q; cases q'
  simp only at hx hy hx' hy'
  rw [hx, hy, hx', hy', ht]

theorem exists_at_y {a b : Pt K} {y : K} (h1 : min a.y b.y ≤ y) (h2 : y ≤ max a.y b.y) :
    ∃ q, OnSeg a b q ∧ q.y = y := by
  obtain ⟨t, t0, t1, e⟩ := affine_of_mem h1 h2
  exact ⟨⟨a.x + t * (b.x - a.x), a.y + t * (b.y - a.y)⟩, ⟨t, t0, t1, rfl, rfl⟩, e.symm⟩

theorem Strad.range {p a b : Pt K} (h : Strad p a b) : min a.y b.y ≤ p.y ∧ p.y ≤ max a.y b.y := by
  rcases h with ⟨h1, h2⟩ | ⟨h1, h2⟩
  · exact ⟨(min_le_right _ _).trans h2.le, h1.trans (le_max_left _ _)⟩
  · exact ⟨(min_le_left _ _).trans h2.le, h1.trans (le_max_right _ _)⟩

theorem rayX_iff {p a b q : Pt K} (h : OnSeg a b q) (hy : q.y = p.y) : RayX p a b ↔ Strad p a b ∧ p.x < q.x := by
  constructor
  · rintro ⟨hs, q', h', hy', hx'⟩
    have hs' : Strad p a b := hs
    refine ⟨hs', ?_⟩
    rw [at_y_unique hs'.ne h h' (hy.trans hy'.symm)]
    exact hx'
  · rintro ⟨hs, hx⟩
    exact ⟨hs, q, h, hy, hx⟩

theorem RayX.strad {p a b : Pt K} (h : RayX p a b) : Strad p a b := h.1

theorem RayX.symm {p a b : Pt K} (h : RayX p a b) : RayX p b a := by
  obtain ⟨hs, q, h1, h2⟩ := h
  exact ⟨hs.symm, q, h1.symm, h2⟩

/-- A side on which the tests of `contains` are exact: vertical or not by the tolerance, horizontal or not by the
tolerance. -/
def CleanSide (T : Tol K) (s : Seg K) : Prop :=
  Clean T s ∧ (s.p0.x ≠ s.p1.x → s.slope = 0 ∨ T.th ≤ |s.slope|)

/-- The height of `p` is the one of an end point, or differs from it by the tolerance. -/
def CleanY (T : Tol K) (p : Pt K) (s : Seg K) : Prop :=
  (s.p0.y = p.y ∨ T.th ≤ |s.p0.y - p.y|) ∧ (s.p1.y = p.y ∨ T.th ≤ |s.p1.y - p.y|)

theorem ray_line (T : Tol K) (p : Pt K) : Line.mk2 T p ⟨p.x + 1, p.y⟩ = ⟨some 0, p.y⟩ := by
  have : ¬ (1 : K) < T.eps := not_lt.2 (T.eps_le.trans T.th_le)
  simp [Line.mk2, this]

/-- Where the ray meets the line of a side that is not horizontal. -/
theorem ray_isect {T : Tol K} {p q : Pt K} {s : Seg K} (hs : CleanSide T s) (hne : s.p0.y ≠ s.p1.y)
    (h : OnSeg s.p0 s.p1 q) (hy : q.y = p.y) : (⟨some 0, p.y⟩ : Line K).isect T (s.line T) = some q := by
  by_cases vs : s.p0.x = s.p1.x
  · rw [line_vert T vs]
    have hx := h.vert_x vs
    simp only [Line.isect, deqm, Bool.false_eq_true, if_false, zero_mul, zero_add]
    rw [← vs, ← hx, ← hy]
  · rw [hs.1.line vs]
    have hD : s.p1.x - s.p0.x ≠ 0 := sub_ne_zero.2 (Ne.symm vs)
    have hm : s.slope ≠ 0 := by
      rw [Seg.slope]
      exact div_ne_zero (sub_ne_zero.2 (Ne.symm hne)) hD
    have hth := (hs.2 vs).resolve_left hm
    have hd : deq T 0 s.slope = false := deq_of_ge (by rwa [zero_sub, abs_neg])
    have hl := h.on_line vs
    have hx : (s.p0.y - s.slope * s.p0.x - p.y) / (0 - s.slope) = q.x := by
      rw [div_eq_iff (by rw [zero_sub]; exact neg_ne_zero.2 hm), ← hy]
      linear_combination -hl
    simp only [Line.isect, deqm, hd, Bool.false_eq_true, if_false]
    rw [hx, ← hy, zero_mul, zero_add]

theorem ray_isect_flat {T : Tol K} {p : Pt K} {s : Seg K} (hs : CleanSide T s) (he : s.p0.y = s.p1.y)
    (vs : s.p0.x ≠ s.p1.x) : (⟨some 0, p.y⟩ : Line K).isect T (s.line T) = none := by
  rw [hs.1.line vs]
  have : s.slope = 0 := by rw [Seg.slope, he]; simp
  simp [Line.isect, deqm, this, deq_self]

theorem eq_of_clean {T : Tol K} {a q : Pt K} (hc : a.y = q.y ∨ T.th ≤ |a.y - q.y|) (h : a.eq T q = true) : a.y = q.y := by
  rcases hc with h' | h'
  · exact h'
  · rw [Pt.eq, Bool.and_eq_true] at h
    rw [deq_of_ge h'] at h
    exact absurd h.2 (by simp)

/-- On clean sides the test of the code is the half-open ray test. -/
theorem crosses_iff {T : Tol K} {p : Pt K} {s : Seg K} (hs : CleanSide T s) (hc : CleanY T p s) :
    crosses T p s = true ↔ RayX p s.p0 s.p1 := by
  unfold crosses
  rw [ray_line]
  simp only [Seg.bbox, mk2_min_y, mk2_max_x, mk2_max_y]
  by_cases hr : max s.p0.x s.p1.x < p.x ∨ max s.p0.y s.p1.y < p.y ∨ min s.p0.y s.p1.y > p.y
  · rw [if_pos hr]
    simp only [Bool.false_eq_true, false_iff]
    intro h
    obtain ⟨hst, q, hq, hqy, hqx⟩ := h
    obtain ⟨m1, m2, m3, m4⟩ := hq.mem
    simp only [mk2_min_x, mk2_max_x, mk2_min_y, mk2_max_y] at m1 m2 m3 m4
    rcases hr with h | h | h <;> linarith
  · rw [if_neg hr]
    simp only [not_or, not_lt] at hr
    obtain ⟨hr1, hr2, hr3⟩ := hr
    by_cases he : s.p0.y = s.p1.y
    · have hR : ¬ RayX p s.p0 s.p1 := fun h => h.strad.ne he
      simp only [hR, iff_false]
      by_cases vs : s.p0.x = s.p1.x
      · have hpy : s.p0.y = p.y := by
          rw [he, max_self] at hr2
          rw [he, min_self] at hr3
          rw [he]; exact le_antisymm hr3 hr2
        have hi : (⟨some 0, p.y⟩ : Line K).isect T (s.line T) = some s.p0 := by
          rw [line_vert T vs]
          simp only [Line.isect, deqm, Bool.false_eq_true, if_false, zero_mul, zero_add]
          rw [← vs, ← hpy]
        rw [hi]
        have heq : s.p0.eq T s.p0 = true := by simp [Pt.eq, deq_self]
        simp [heq, he]
      · rw [ray_isect_flat hs he vs]
        simp
    · obtain ⟨q, hq, hqy⟩ := exists_at_y hr3 hr2
      rw [ray_isect hs he hq hqy, rayX_iff hq hqy]
      simp only [within_of_onSeg T hq, Bool.true_eq_false, or_false]
      have e0 : s.p0.eq T q = true ↔ s.p0.y = p.y := by
        constructor
        · intro h
          have := eq_of_clean (by rw [hqy]; exact hc.1) h
          rw [this, hqy]
        · intro h
          have : q = s.p0 := at_y_unique he hq (OnSeg.left _ _) (hqy.trans h.symm)
          rw [this]; simp [Pt.eq, deq_self]
      have e1 : s.p1.eq T q = true ↔ s.p1.y = p.y := by
        constructor
        · intro h
          have := eq_of_clean (by rw [hqy]; exact hc.2) h
          rw [this, hqy]
        · intro h
          have : q = s.p1 := at_y_unique he hq (OnSeg.right _ _) (hqy.trans h.symm)
          rw [this]; simp [Pt.eq, deq_self]
      simp only [e0, e1, hqy]
      by_cases hx : q.x ≤ p.x
      · simp [hx]
      · rw [if_neg hx]
        simp only [not_le.1 hx, and_true]
        unfold Strad
        rcases lt_trichotomy s.p0.y s.p1.y with h | h | h
        · rw [max_eq_right h.le] at hr2
          rw [min_eq_left h.le] at hr3
          have n1 : ¬ s.p1.y < p.y := not_lt.2 hr2
          rcases eq_or_lt_of_le hr3 with g | g
          · simp [g, n1, hr2]
          · have g' := g.ne
            by_cases f : s.p1.y = p.y
            · simp [g, g', f, not_le.2 g]
            · simp [g, g', f, hr2]
        · exact absurd h he
        · rw [max_eq_left h.le] at hr2
          rw [min_eq_right h.le] at hr3
          have n1 : ¬ s.p0.y < p.y := not_lt.2 hr2
          rcases eq_or_lt_of_le hr3 with g | g
          · simp [g, n1, hr2]
          · have g' := g.ne
            by_cases f : s.p0.y = p.y
            · simp [g, g', f, not_le.2 g]
            · simp [g, g', f, hr2]

/-! ## Parity -/

theorem fold_contains (T : Tol K) (p : Pt K) (ss : List (Seg K)) (e i : Bool) :
    ss.foldl (containsStep T p) (e, i) =
      (e ^^ decide (ss.countP (crosses T p) % 2 = 1), i || decide (0 < ss.countP (crosses T p))) := by
  induction ss generalizing e i with
  | nil => simp
  | cons s r ih =>
    simp only [List.foldl_cons, containsStep]
    split
    · rename_i h
      rw [ih, List.countP_cons, if_pos h]
      rcases Nat.mod_two_eq_zero_or_one (r.countP (crosses T p)) with g | g
      · have : (r.countP (crosses T p) + 1) % 2 = 1 := by omega
        cases e <;> cases i <;> simp [g, this]
      · have : (r.countP (crosses T p) + 1) % 2 = 0 := by omega
        cases e <;> cases i <;> simp [g, this]
    · rename_i h
      rw [ih, List.countP_cons, if_neg h, Nat.add_zero]

/-- `contains` says that the number of crossings is odd. -/
theorem contains_iff_odd (T : Tol K) (P : Poly K) (p : Pt K) :
    P.contains T p = decide (P.sides.countP (crosses T p) % 2 = 1) := by
  unfold Poly.contains
  rw [fold_contains]
  rcases Nat.mod_two_eq_zero_or_one (P.sides.countP (crosses T p)) with g | g
  · simp [g]
  · have : 0 < P.sides.countP (crosses T p) := by omega
    simp [g, this]

/-- The sum modulo two of a predicate over a list. -/
noncomputable def xsum {α : Type} (f : α → Prop) (l : List α) : Prop :=
  l.foldr (fun a b => ¬ (f a ↔ b)) False

@[simp] theorem xsum_nil {α : Type} (f : α → Prop) : xsum f [] = False := rfl
@[simp] theorem xsum_cons {α : Type} (f : α → Prop) (a : α) (l : List α) : xsum f (a :: l) = ¬ (f a ↔ xsum f l) := rfl

theorem xsum_append {α : Type} (f : α → Prop) (l r : List α) : xsum f (l ++ r) ↔ ¬ (xsum f l ↔ xsum f r) := by
  induction l with
  | nil => simp
  | cons a l ih => simp only [List.cons_append, xsum_cons, ih]; tauto

theorem xsum_congr {α : Type} {f g : α → Prop} {l : List α} (h : ∀ a ∈ l, (f a ↔ g a)) : xsum f l ↔ xsum g l := by
  induction l with
  | nil => rfl
  | cons a l ih =>
    have := ih fun b hb => h b (List.mem_cons_of_mem _ hb)
    have := h a List.mem_cons_self
    simp only [xsum_cons]
    tauto

theorem xsum_xor {α : Type} (f g : α → Prop) (l : List α) :
    xsum (fun a => ¬ (f a ↔ g a)) l ↔ ¬ (xsum f l ↔ xsum g l) := by
  induction l with
  | nil => simp
  | cons a l ih => simp only [xsum_cons, ih]; tauto

theorem countP_odd {α : Type} (f : α → Bool) (l : List α) : l.countP f % 2 = 1 ↔ xsum (fun a => f a = true) l := by
  induction l with
  | nil => simp
  | cons a l ih =>
    rw [xsum_cons, ← ih, List.countP_cons]
    by_cases h : f a = true
    · simp only [h, if_true, true_iff]; omega
    · simp only [h, if_false, Bool.false_eq_true]; simp

/-- The parity of the sides that the ray from `p` crosses. -/
def Odd (ss : List (Seg K)) (p : Pt K) : Prop := xsum (fun s => RayX p s.p0 s.p1) ss

theorem contains_iff {T : Tol K} {P : Poly K} {p : Pt K} (h : ∀ s ∈ P.sides, CleanSide T s ∧ CleanY T p s) :
    P.contains T p = true ↔ Odd P.sides p := by
  rw [contains_iff_odd, decide_eq_true_eq, countP_odd]
  exact xsum_congr fun s hs => crosses_iff (h s hs).1 (h s hs).2

/-! ### Closed polygons -/

theorem xsum_chain (S : Pt K → Prop) : ∀ (vs : List (Pt K)) (h : vs ≠ []),
    xsum (fun s : Seg K => ¬ (S s.p0 ↔ S s.p1)) (chain vs) ↔ ¬ (S (vs.head h) ↔ S (vs.getLast h))
  | [a], _ => by simp [chain]
  | a :: b :: r, _ => by
    have ih := xsum_chain S (b :: r) (by simp)
    simp only [chain, xsum_cons, ih, List.head_cons, List.getLast_cons_cons]
    tauto

/-- Around a closed polygon every vertex counts twice. -/
theorem xsum_closed (S : Pt K → Prop) {vs : List (Pt K)} {ss : List (Seg K)} (h : initsides vs = .ok ss) :
    ¬ xsum (fun s : Seg K => ¬ (S s.p0 ↔ S s.p1)) ss := by
  unfold initsides at h
  split at h
  · cases h
  · rename_i hne
    cases h
    rw [xsum_append, xsum_chain S vs hne]
    simp only [xsum_cons, xsum_nil]
    tauto

/-! ### Moving a point along a segment -/

/-- Twice the signed area: positive to the right of the way from `p` up to `q`. -/
def cr (p q v : Pt K) : K := (v.x - p.x) * (q.y - p.y) - (v.y - p.y) * (q.x - p.x)

theorem OnSeg.convex {a b v w u : Pt K} (hv : OnSeg a b v) (hw : OnSeg a b w) (hu : OnSeg v w u) : OnSeg a b u := by
  obtain ⟨t1, a1, b1, c1, d1⟩ := hv
  obtain ⟨t2, a2, b2, c2, d2⟩ := hw
  obtain ⟨t, a3, b3, c3, d3⟩ := hu
  refine ⟨t1 + t * (t2 - t1), ?_, ?_, ?_, ?_⟩
  · nlinarith
  · nlinarith
  · rw [c3, c1, c2]; ring
  · rw [d3, d1, d2]; ring

theorem cr_affine (p q v w : Pt K) (t : K) :
    cr p q ⟨v.x + t * (w.x - v.x), v.y + t * (w.y - v.y)⟩ = cr p q v + t * (cr p q w - cr p q v) := by
  unfold cr; ring

theorem exists_zero {p q v w : Pt K} (hv : cr p q v ≤ 0) (hw : 0 < cr p q w) :
    ∃ u, OnSeg v w u ∧ cr p q u = 0 := by
  have hd : 0 < cr p q w - cr p q v := by linarith
  refine ⟨⟨v.x + (-cr p q v / (cr p q w - cr p q v)) * (w.x - v.x),
    v.y + (-cr p q v / (cr p q w - cr p q v)) * (w.y - v.y)⟩, ⟨_, div_nonneg (by linarith) hd.le, ?_, rfl, rfl⟩, ?_⟩
  · rw [div_le_one hd]; linarith
  · rw [cr_affine]; field_simp; ring

theorem onSeg_of_cr {p q u : Pt K} (hpq : p.y < q.y) (h : cr p q u = 0) (h1 : p.y ≤ u.y) (h2 : u.y ≤ q.y) :
    OnSeg p q u := by
  have hd : 0 < q.y - p.y := by linarith
  refine ⟨(u.y - p.y) / (q.y - p.y), div_nonneg (by linarith) hd.le, ?_, ?_, ?_⟩
  · rw [div_le_one hd]; linarith
  · unfold cr at h
    field_simp
    linear_combination h
  · field_simp; ring

/-- The points of a side in the strip between two heights all lie on one side of a segment the side does not meet. -/
theorem strip_sign {p q a b : Pt K} (hpq : p.y < q.y) (hm : ¬ Meet ⟨p, q⟩ ⟨a, b⟩) :
    ∃ c : Prop, ∀ v, OnSeg a b v → p.y ≤ v.y → v.y ≤ q.y → (0 < cr p q v ↔ c) := by
  by_cases hex : ∃ v, OnSeg a b v ∧ p.y ≤ v.y ∧ v.y ≤ q.y ∧ 0 < cr p q v
  · obtain ⟨v, h1, h2, h3, h4⟩ := hex
    refine ⟨True, fun w g1 g2 g3 => ?_⟩
    rw [iff_true]
    by_contra hn
    obtain ⟨u, hu, hz⟩ := exists_zero (not_lt.1 hn) h4
    have hmem := hu.mem
    obtain ⟨_, _, m3, m4⟩ := hmem
    simp only [mk2_min_y, mk2_max_y] at m3 m4
    have l1 : p.y ≤ u.y := (le_min g2 h2).trans m3
    have l2 : u.y ≤ q.y := m4.trans (max_le g3 h3)
    exact hm ⟨u, onSeg_of_cr hpq hz l1 l2, g1.convex h1 hu⟩
  · refine ⟨False, fun v h1 h2 h3 => ?_⟩
    rw [iff_false]
    intro h4
    exact hex ⟨v, h1, h2, h3, h4⟩

/-- The strip between the two rays. -/
def Swept (p q v : Pt K) : Prop := p.y ≤ v.y ∧ v.y < q.y ∧ 0 < cr p q v

theorem rayX_low {p q a b : Pt K} (hpq : p.y < q.y) {c : Prop}
    (hc : ∀ v, OnSeg a b v → p.y ≤ v.y → v.y ≤ q.y → (0 < cr p q v ↔ c)) :
    RayX p a b ↔ c ∧ Strad p a b := by
  by_cases hs : Strad p a b
  · obtain ⟨v, hv, hy⟩ := exists_at_y hs.range.1 hs.range.2
    rw [rayX_iff hv hy, ← hc v hv hy.ge (by rw [hy]; exact hpq.le)]
    have : cr p q v = (v.x - p.x) * (q.y - p.y) := by unfold cr; rw [hy]; ring
    rw [this, mul_pos_iff_of_pos_right (by linarith), sub_pos]
    tauto
  · have : ¬ RayX p a b := fun h => hs h.strad
    tauto

theorem rayX_high {p q a b : Pt K} (hpq : p.y < q.y) {c : Prop}
    (hc : ∀ v, OnSeg a b v → p.y ≤ v.y → v.y ≤ q.y → (0 < cr p q v ↔ c)) :
    RayX q a b ↔ c ∧ Strad q a b := by
  by_cases hs : Strad q a b
  · obtain ⟨v, hv, hy⟩ := exists_at_y hs.range.1 hs.range.2
    rw [rayX_iff hv hy, ← hc v hv (by rw [hy]; exact hpq.le) hy.le]
    have : cr p q v = (v.x - q.x) * (q.y - p.y) := by unfold cr; rw [hy]; ring
    rw [this, mul_pos_iff_of_pos_right (by linarith), sub_pos]
    tauto
  · have : ¬ RayX q a b := fun h => hs h.strad
    tauto

theorem side_parity_lt {p q a b : Pt K} (hpq : p.y < q.y) (hm : ¬ Meet ⟨p, q⟩ ⟨a, b⟩) :
    ¬ (RayX p a b ↔ RayX q a b) ↔ ¬ (Swept p q a ↔ Swept p q b) := by
  obtain ⟨c, hc⟩ := strip_sign hpq hm
  have sw : ∀ v, OnSeg a b v → (Swept p q v ↔ c ∧ p.y ≤ v.y ∧ ¬ q.y ≤ v.y) := by
    intro v hv
    unfold Swept
    rw [not_le]
    constructor
    · rintro ⟨h1, h2, h3⟩; exact ⟨(hc v hv h1 h2.le).1 h3, h1, h2⟩
    · rintro ⟨h1, h2, h3⟩; exact ⟨h2, h3, (hc v hv h2 h3.le).2 h1⟩
  rw [rayX_low hpq hc, rayX_high hpq hc, sw a (OnSeg.left _ _), sw b (OnSeg.right _ _), strad_iff, strad_iff]
  have ia : q.y ≤ a.y → p.y ≤ a.y := fun h => hpq.le.trans h
  have ib : q.y ≤ b.y → p.y ≤ b.y := fun h => hpq.le.trans h
  tauto

theorem onSeg_of_flat {p q v : Pt K} (h : p.y = q.y) (hy : v.y = p.y) (h1 : min p.x q.x ≤ v.x) (h2 : v.x ≤ max p.x q.x) :
    OnSeg p q v := by
  obtain ⟨t, t0, t1, e⟩ := affine_of_mem h1 h2
  exact ⟨t, t0, t1, e, by rw [hy, h]; ring⟩

theorem side_parity_eq {p q a b : Pt K} (hpq : p.y = q.y) (hm : ¬ Meet ⟨p, q⟩ ⟨a, b⟩) : RayX p a b ↔ RayX q a b := by
  by_cases hs : Strad p a b
  · obtain ⟨v, hv, hy⟩ := exists_at_y hs.range.1 hs.range.2
    have hs' : Strad q a b := by unfold Strad at hs ⊢; rw [← hpq]; exact hs
    rw [rayX_iff hv hy, rayX_iff hv (hy.trans hpq)]
    simp only [hs, hs', true_and]
    by_contra hne
    refine hm ⟨v, ?_, hv⟩
    rcases lt_or_ge p.x v.x with h | h <;> rcases lt_or_ge q.x v.x with g | g
    · exact absurd (by simp [h, g]) hne
    · exact onSeg_of_flat hpq hy ((min_le_left _ _).trans h.le) (g.trans (le_max_right _ _))
    · exact onSeg_of_flat hpq hy ((min_le_right _ _).trans g.le) (h.trans (le_max_left _ _))
    · exact absurd (by simp [not_lt.2 h, not_lt.2 g]) hne
  · have hs' : ¬ Strad q a b := by unfold Strad at hs ⊢; rw [← hpq]; exact hs
    have h1 : ¬ RayX p a b := fun h => hs h.strad
    have h2 : ¬ RayX q a b := fun h => hs' h.strad
    tauto

/-- The parity does not change along a segment that meets no side of the closed polygon. -/
theorem odd_const {vs : List (Pt K)} {ss : List (Seg K)} (h : initsides vs = .ok ss) {p q : Pt K}
    (hm : ∀ s ∈ ss, ¬ Meet ⟨p, q⟩ s) : Odd ss p ↔ Odd ss q := by
  have main : ∀ p q : Pt K, p.y < q.y → (∀ s ∈ ss, ¬ Meet ⟨p, q⟩ s) → (Odd ss p ↔ Odd ss q) := by
    intro p q hpq hm
    have h1 := xsum_closed (Swept p q) h
    have h2 : xsum (fun s : Seg K => ¬ (RayX p s.p0 s.p1 ↔ RayX q s.p0 s.p1)) ss ↔
        xsum (fun s : Seg K => ¬ (Swept p q s.p0 ↔ Swept p q s.p1)) ss :=
      xsum_congr fun s hs => side_parity_lt hpq (hm s hs)
    rw [xsum_xor] at h2
    unfold Odd
    tauto
  rcases lt_trichotomy p.y q.y with hpq | hpq | hpq
  · exact main p q hpq hm
  · exact xsum_congr fun s hs => side_parity_eq hpq (hm s hs)
  · refine (main q p hpq fun s hs hms => hm s hs ?_).symm
    obtain ⟨v, g1, g2⟩ := hms
    exact ⟨v, g1.symm, g2⟩

/-- Points outside the box of the polygon have even parity. -/
theorem not_odd_outside {vs : List (Pt K)} {ss : List (Seg K)} (h : initsides vs = .ok ss) {p : Pt K}
    (ho : (∀ s ∈ ss, s.p0.x ≤ p.x ∧ s.p1.x ≤ p.x) ∨ (∀ s ∈ ss, p.x < s.p0.x ∧ p.x < s.p1.x) ∨
      (∀ s ∈ ss, s.p0.y < p.y ∧ s.p1.y < p.y) ∨ (∀ s ∈ ss, p.y ≤ s.p0.y ∧ p.y ≤ s.p1.y)) : ¬ Odd ss p := by
  have zero : (∀ s ∈ ss, ¬ RayX p s.p0 s.p1) → ¬ Odd ss p := by
    intro hz ho
    have : Odd ss p ↔ xsum (fun _ => False) ss := xsum_congr fun s hs => by simp [hz s hs]
    rw [this] at ho
    clear this hz h
    rename_i hh; clear hh
    induction ss with
    | nil => exact ho
    | cons a l ih => exact ih (by simpa using ho)
  rcases ho with ho | ho | ho | ho
  · refine zero fun s hs hr => ?_
    obtain ⟨_, v, hv, _, hx⟩ := hr
    have := hv.mem.2.1
    simp only [mk2_max_x] at this
    have := max_le (ho s hs).1 (ho s hs).2
    linarith
  · have : Odd ss p ↔ xsum (fun s : Seg K => ¬ (p.y ≤ s.p0.y ↔ p.y ≤ s.p1.y)) ss := by
      refine xsum_congr fun s hs => ?_
      rw [← strad_iff]
      refine ⟨fun h => h.strad, fun hst => ?_⟩
      obtain ⟨v, hv, hy⟩ := exists_at_y hst.range.1 hst.range.2
      refine (rayX_iff hv hy).2 ⟨hst, ?_⟩
      have := hv.mem.1
      simp only [mk2_min_x] at this
      exact (lt_min (ho s hs).1 (ho s hs).2).trans_le this
    rw [this]
    exact xsum_closed (fun v => p.y ≤ v.y) h
  · refine zero fun s hs hr => ?_
    rcases hr.strad with g | g
    · exact absurd (ho s hs).1 (not_lt.2 g.1)
    · exact absurd (ho s hs).2 (not_lt.2 g.1)
  · refine zero fun s hs hr => ?_
    rcases hr.strad with g | g
    · exact absurd (ho s hs).2 (not_le.2 g.2)
    · exact absurd (ho s hs).1 (not_le.2 g.2)

/-! ### Crossing a side -/

/-- The segments cross at a point inside both: the end points of each lie strictly on different sides of the other. -/
def Proper (s o : Seg K) : Prop := cr s.p0 s.p1 o.p0 * cr s.p0 s.p1 o.p1 < 0 ∧ cr o.p0 o.p1 s.p0 * cr o.p0 o.p1 s.p1 < 0

theorem cr_swap (p q v : Pt K) : cr q p v = - cr p q v := by unfold cr; ring

/-- The crossing point. -/
theorem Proper.point {p q a b : Pt K} (h : Proper ⟨p, q⟩ ⟨a, b⟩) :
    ∃ t r : K, 0 < t ∧ t < 1 ∧ 0 < r ∧ r < 1 ∧ a.x + t * (b.x - a.x) = p.x + r * (q.x - p.x) ∧
      a.y + t * (b.y - a.y) = p.y + r * (q.y - p.y) ∧ cr p q a + t * (cr p q b - cr p q a) = 0 := by
  obtain ⟨h1, h2⟩ := h
  simp only at h1 h2
  have frac : ∀ {u v : K}, u * v < 0 → u - v ≠ 0 ∧ 0 < u / (u - v) ∧ u / (u - v) < 1 := by
    intro u v huv
    rcases lt_trichotomy u 0 with hu | hu | hu
    · have hv : 0 < v := by by_contra hn; nlinarith
      have hd : u - v < 0 := by linarith
      exact ⟨hd.ne, div_pos_of_neg_of_neg hu hd, by rw [div_lt_one_of_neg hd]; linarith⟩
    · rw [hu, zero_mul] at huv; exact absurd huv (lt_irrefl _)
    · have hv : v < 0 := by by_contra hn; nlinarith
      have hd : 0 < u - v := by linarith
      exact ⟨hd.ne', div_pos hu hd, by rw [div_lt_one hd]; linarith⟩
  obtain ⟨n1, t0, t1⟩ := frac h1
  obtain ⟨n2, r0, r1⟩ := frac h2
  have hD : cr a b p - cr a b q = - (cr p q a - cr p q b) := by unfold cr; ring
  refine ⟨_, _, t0, t1, r0, r1, ?_, ?_, ?_⟩
  · rw [hD]
    field_simp
    unfold cr; ring
  · rw [hD]
    field_simp
    unfold cr; ring
  · field_simp; ring

theorem Proper.swap {p q a b : Pt K} (h : Proper ⟨p, q⟩ ⟨a, b⟩) : Proper ⟨p, q⟩ ⟨b, a⟩ := by
  obtain ⟨h1, h2⟩ := h
  simp only at h1 h2
  refine ⟨by rw [mul_comm]; exact h1, ?_⟩
  simp only [cr_swap a b]; linarith

theorem Proper.swap' {p q a b : Pt K} (h : Proper ⟨p, q⟩ ⟨a, b⟩) : Proper ⟨q, p⟩ ⟨a, b⟩ := by
  obtain ⟨h1, h2⟩ := h
  simp only at h1 h2
  refine ⟨?_, by rw [mul_comm]; exact h2⟩
  simp only [cr_swap p q]; linarith

theorem flip_aux {p q a b : Pt K} (hpq : p.y < q.y) (h : Proper ⟨p, q⟩ ⟨a, b⟩) (ha : cr p q a < 0) (hb : 0 < cr p q b) :
    (RayX p a b ↔ ¬ p.y ≤ b.y) ∧ (RayX q a b ↔ q.y ≤ b.y) := by
  obtain ⟨t, r, t0, t1, r0, r1, -, hy, hz⟩ := h.point
  have cy1 : p.y < a.y + t * (b.y - a.y) := by rw [hy]; nlinarith
  have cy2 : a.y + t * (b.y - a.y) < q.y := by rw [hy]; nlinarith
  have hD : 0 < cr p q b - cr p q a := by linarith
  -- the side of a point with a given parameter
  have sgn : ∀ v : Pt K, ∀ t' : K, v.x = a.x + t' * (b.x - a.x) → v.y = a.y + t' * (b.y - a.y) →
      (0 < cr p q v ↔ t < t') := by
    intro v t' hx hy
    have e : cr p q v = (t' - t) * (cr p q b - cr p q a) := by
      have := cr_affine p q a b t'
      have hv : v = ⟨a.x + t' * (b.x - a.x), a.y + t' * (b.y - a.y)⟩ := by cases v; simp_all
      rw [hv, this]; linear_combination hz
    rw [e, mul_pos_iff_of_pos_right hD, sub_pos]
  have atp : ∀ v : Pt K, v.y = p.y → (0 < cr p q v ↔ p.x < v.x) := by
    intro v hv
    have : cr p q v = (v.x - p.x) * (q.y - p.y) := by unfold cr; rw [hv]; ring
    rw [this, mul_pos_iff_of_pos_right (by linarith), sub_pos]
  have atq : ∀ v : Pt K, v.y = q.y → (0 < cr p q v ↔ q.x < v.x) := by
    intro v hv
    have : cr p q v = (v.x - q.x) * (q.y - p.y) := by unfold cr; rw [hv]; ring
    rw [this, mul_pos_iff_of_pos_right (by linarith), sub_pos]
  constructor
  · constructor
    · rintro ⟨hs, v, ⟨t', s0, s1, hvx, hvy⟩, hv, hx⟩ hup
      have hlt := (sgn v t' hvx hvy).1 ((atp v hv).2 hx)
      have hay : a.y < p.y := by
        rcases hs with g | g
        · exact absurd hup (not_le.2 g.2)
        · exact g.2
      have : 0 < (t' - t) * (b.y - a.y) := mul_pos (by linarith) (by linarith)
      linarith
    · intro hup
      rw [not_le] at hup
      have hdec : b.y < a.y := by
        by_contra hn
        rw [not_lt] at hn
        have : 0 ≤ (1 - t) * (b.y - a.y) := mul_nonneg (by linarith) (by linarith)
        linarith
      have hay : p.y ≤ a.y := by
        have : t * (b.y - a.y) < 0 := mul_neg_of_pos_of_neg t0 (by linarith)
        linarith
      have hs : Strad p a b := Or.inl ⟨hay, hup⟩
      obtain ⟨v, hv, hvy⟩ := exists_at_y hs.range.1 hs.range.2
      refine (rayX_iff hv hvy).2 ⟨hs, ?_⟩
      obtain ⟨t', s0, s1, ex, ey⟩ := hv
      refine (atp v hvy).1 ((sgn v t' ex ey).2 ?_)
      by_contra hn
      rw [not_lt] at hn
      have : 0 ≤ (t' - t) * (b.y - a.y) := mul_nonneg_of_nonpos_of_nonpos (by linarith) (by linarith)
      linarith
  · constructor
    · rintro ⟨hs, v, ⟨t', s0, s1, hvx, hvy⟩, hv, hx⟩
      have hlt := (sgn v t' hvx hvy).1 ((atq v hv).2 hx)
      by_contra hup
      rw [not_le] at hup
      have hay : q.y ≤ a.y := by
        rcases hs with g | g
        · exact g.1
        · exact absurd g.1 (not_le.2 hup)
      have : (t' - t) * (b.y - a.y) < 0 := mul_neg_of_pos_of_neg (by linarith) (by linarith)
      linarith
    · intro hup
      have hinc : a.y < b.y := by
        by_contra hn
        rw [not_lt] at hn
        have : (1 - t) * (b.y - a.y) ≤ 0 := mul_nonpos_of_nonneg_of_nonpos (by linarith) (by linarith)
        linarith
      have hay : a.y < q.y := by
        have : 0 < t * (b.y - a.y) := mul_pos t0 (by linarith)
        linarith
      have hs : Strad q a b := Or.inr ⟨hup, hay⟩
      obtain ⟨v, hv, hvy⟩ := exists_at_y hs.range.1 hs.range.2
      refine (rayX_iff hv hvy).2 ⟨hs, ?_⟩
      obtain ⟨t', s0, s1, ex, ey⟩ := hv
      refine (atq v hvy).1 ((sgn v t' ex ey).2 ?_)
      by_contra hn
      rw [not_lt] at hn
      have : (t' - t) * (b.y - a.y) ≤ 0 := mul_nonpos_of_nonpos_of_nonneg (by linarith) (by linarith)
      linarith

theorem side_flip_lt {p q a b : Pt K} (hpq : p.y < q.y) (h : Proper ⟨p, q⟩ ⟨a, b⟩) :
    ¬ (RayX p a b ↔ RayX q a b) ↔ (Swept p q a ↔ Swept p q b) := by
  have main : ∀ a b : Pt K, Proper ⟨p, q⟩ ⟨a, b⟩ → cr p q a < 0 → 0 < cr p q b →
      (¬ (RayX p a b ↔ RayX q a b) ↔ (Swept p q a ↔ Swept p q b)) := by
    intro a b h ha hb
    obtain ⟨h1, h2⟩ := flip_aux hpq h ha hb
    have sa : ¬ Swept p q a := fun g => absurd g.2.2 (not_lt.2 ha.le)
    have sb : Swept p q b ↔ p.y ≤ b.y ∧ ¬ q.y ≤ b.y := by
      unfold Swept; rw [not_le]; tauto
    have i : q.y ≤ b.y → p.y ≤ b.y := fun h => hpq.le.trans h
    rw [h1, h2, sb]
    tauto
  have hprod := h.1
  simp only at hprod
  rcases lt_trichotomy (cr p q a) 0 with ha | ha | ha
  · exact main a b h ha (by by_contra hn; nlinarith)
  · rw [ha, zero_mul] at hprod; exact absurd hprod (lt_irrefl _)
  · have := main b a h.swap (by by_contra hn; nlinarith) ha
    have e1 : RayX p b a ↔ RayX p a b := ⟨RayX.symm, RayX.symm⟩
    have e2 : RayX q b a ↔ RayX q a b := ⟨RayX.symm, RayX.symm⟩
    rw [e1, e2] at this
    tauto

theorem side_flip_eq {p q a b : Pt K} (hpq : p.y = q.y) (h : Proper ⟨p, q⟩ ⟨a, b⟩) : ¬ (RayX p a b ↔ RayX q a b) := by
  obtain ⟨t, r, t0, t1, r0, r1, hx, hy, -⟩ := h.point
  have hprod := h.1
  have hc : ∀ v : Pt K, cr p q v = (p.y - v.y) * (q.x - p.x) := by intro v; unfold cr; rw [hpq]; ring
  simp only [hc] at hprod
  have hne : q.x - p.x ≠ 0 := by
    intro h0; rw [h0] at hprod; simp at hprod
  have hab : (p.y - a.y) * (p.y - b.y) < 0 := by
    have : 0 < (q.x - p.x) * (q.x - p.x) := mul_self_pos.2 hne
    by_contra hn
    rw [not_lt] at hn
    have := mul_nonneg hn this.le
    nlinarith
  have hs : Strad p a b := by
    rcases lt_or_ge a.y p.y with g | g
    · exact Or.inr ⟨by by_contra hn; nlinarith, g⟩
    · exact Or.inl ⟨g, by by_contra hn; nlinarith⟩
  have hs' : Strad q a b := by unfold Strad at hs ⊢; rw [← hpq]; exact hs
  have hon : OnSeg a b ⟨a.x + t * (b.x - a.x), a.y + t * (b.y - a.y)⟩ := ⟨t, t0.le, t1.le, rfl, rfl⟩
  have hvy : a.y + t * (b.y - a.y) = p.y := by rw [hy, hpq]; ring
  rw [rayX_iff hon hvy, rayX_iff hon (hvy.trans hpq)]
  simp only [hs, hs', true_and, hx]
  rcases lt_or_gt_of_ne hne with g | g
  · have n1 : ¬ p.x < p.x + r * (q.x - p.x) := by
      have := mul_neg_of_pos_of_neg r0 g; linarith
    have n2 : q.x < p.x + r * (q.x - p.x) := by nlinarith
    simp [n1, n2]
  · have n1 : p.x < p.x + r * (q.x - p.x) := by
      have := mul_pos r0 g; linarith
    have n2 : ¬ q.x < p.x + r * (q.x - p.x) := by
      rw [not_lt]; nlinarith
    simp [n1, n2]

theorem comb3 {L S R L' S' R' : Prop} (hL : L ↔ L') (hR : R ↔ R') (hS : S ↔ ¬ S') :
    ¬ (L ↔ ¬ (S ↔ R)) ↔ (L' ↔ ¬ (S' ↔ R')) := by
  rw [hL, hR, hS]
  by_cases a : L' <;> by_cases b : S' <;> by_cases c : R' <;> simp [a, b, c]

/-- The parity changes when the segment crosses one side. -/
theorem odd_flip {vs : List (Pt K)} {l r : List (Seg K)} {s : Seg K} (h : initsides vs = .ok (l ++ s :: r)) {p q : Pt K}
    (hp : Proper ⟨p, q⟩ s) (hm : ∀ o ∈ l ++ r, ¬ Meet ⟨p, q⟩ o) : Odd (l ++ s :: r) p ↔ ¬ Odd (l ++ s :: r) q := by
  have main : ∀ p q : Pt K, p.y < q.y → Proper ⟨p, q⟩ s → (∀ o ∈ l ++ r, ¬ Meet ⟨p, q⟩ o) →
      (Odd (l ++ s :: r) p ↔ ¬ Odd (l ++ s :: r) q) := by
    intro p q hpq hp hm
    have h1 := xsum_closed (Swept p q) h
    have h2 : ∀ k : List (Seg K), (∀ o ∈ k, o ∈ l ++ r) →
        (xsum (fun s : Seg K => ¬ (RayX p s.p0 s.p1 ↔ RayX q s.p0 s.p1)) k ↔
          xsum (fun s : Seg K => ¬ (Swept p q s.p0 ↔ Swept p q s.p1)) k) :=
      fun k hk => xsum_congr fun s hs => side_parity_lt hpq (hm s (hk s hs))
    have hl := h2 l fun o ho => List.mem_append_left _ ho
    have hr := h2 r fun o ho => List.mem_append_right _ ho
    have hs := side_flip_lt hpq hp
    have hx := xsum_xor (fun s : Seg K => RayX p s.p0 s.p1) (fun s : Seg K => RayX q s.p0 s.p1) (l ++ s :: r)
    have hx' : ¬ (Odd (l ++ s :: r) p ↔ Odd (l ++ s :: r) q) := by
      refine hx.1 ?_
      rw [xsum_append, xsum_cons] at h1 ⊢
      refine (comb3 hl hr ?_).2 (not_not.1 h1)
      rw [hs, not_not]
    exact (not_iff_comm.1 (not_iff.1 hx')).symm
  rcases lt_trichotomy p.y q.y with hpq | hpq | hpq
  · exact main p q hpq hp hm
  · have hs := side_flip_eq hpq hp
    have h2 : ∀ k : List (Seg K), (∀ o ∈ k, o ∈ l ++ r) → (Odd k p ↔ Odd k q) :=
      fun k hk => xsum_congr fun s hs => side_parity_eq hpq (hm s (hk s hs))
    have hl := h2 l fun o ho => List.mem_append_left _ ho
    have hr := h2 r fun o ho => List.mem_append_right _ ho
    unfold Odd at hl hr ⊢
    rw [xsum_append, xsum_cons, xsum_append, xsum_cons]
    have hs' : RayX q s.p0 s.p1 ↔ ¬ RayX p s.p0 s.p1 := (not_iff.1 hs).symm
    have := comb3 hl.symm hr.symm hs'
    exact not_congr this.symm
  · have := main q p hpq hp.swap' fun o ho hms => hm o ho (by
      obtain ⟨v, g1, g2⟩ := hms
      exact ⟨v, g1.symm, g2⟩)
    exact (not_iff_comm.1 this.symm).symm

end Verif.Geom
