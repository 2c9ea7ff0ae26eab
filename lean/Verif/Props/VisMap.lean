import Verif.Domains.VisGraphThms
import Verif.Props.Geom2d

/-!
# C84: maps of polygonal obstacles; C85: visibility graphs

The specification is in terms of points on segments (`OnSeg`, `Meet`), of the sides of the polygons, and of which vertices
of a graph are linked (`Linked`).
-/

namespace Verif.Vis

open Verif.Geom

variable {K : Type} [Field K] [LinearOrder K] [IsStrictOrderedRing K]

/-! ## C84: visibility -/

/-- The segment and the sides of the polygon are away from the tolerances. -/
def SegClean (T : Tol K) (P : Poly K) (l : Seg K) : Prop := Clean T l ∧ ∀ s ∈ P.sides, Clean T s ∧ Sep T l s

theorem hits_off {T : Tol K} {m : PMap K} {a b : Pt K} (hv : m.isvisible T a b = true) {vs : List (Pt K)} {P : Poly K}
    (hP : m.Has P) (hmk : Poly.make vs = .ok P) : P.hits T ⟨a, b⟩ = false := by
  unfold PMap.isvisible at hv
  split at hv
  · cases hv
  · rename_i h
    rcases hP with hP | hP
    · by_contra hc
      rw [Bool.not_eq_false] at hc
      refine h (List.any_eq_true.2 ⟨P, hP, ?_⟩)
      rw [Bool.and_eq_true]
      refine ⟨?_, hc⟩
      unfold Poly.hits at hc
      unfold boxhit
      cases hb : P.bbox with
      | none => simp [hb] at hc
      | some bb =>
        simp only [hb] at hc ⊢
        split at hc
        · cases hc
        · rename_i h2
          simp only [Bool.not_eq_true', Bool.not_eq_false] at h2
          rw [bbox_hits_iff] at h2 ⊢
          exact ⟨h2.2.1, h2.1, h2.2.2.2, h2.2.2.1⟩
    · simp only [hP, Bool.and_eq_true, Bool.not_eq_true'] at hv
      exact hv.2

/-- **C84 (visible).** If `b` is said to be visible from `a`, the segment between them shares no point with a side of a
polygon of the map or of its bound, except for sides that it runs along without reaching their ends.  What is missing: the
exception (`c84_inside_wall`), and inputs near the tolerances of `Clean` and `Sep`. -/
theorem c84_visible_partial {T : Tol K} {m : PMap K} {a b : Pt K} (hv : m.isvisible T a b = true) {vs : List (Pt K)}
    {P : Poly K} (hP : m.Has P) (hmk : Poly.make vs = .ok P) (hc : SegClean T P ⟨a, b⟩) {s : Seg K} (hs : s ∈ P.sides)
    (hm : Meet ⟨a, b⟩ s) : Par ⟨a, b⟩ s ∧ ¬ OnSeg a b s.p0 ∧ ¬ OnSeg a b s.p1 := by
  have h := hits_off hv hP hmk
  by_contra hn
  have : P.hits T ⟨a, b⟩ = true := c82_hits_partial hmk hs hm hc.1 (hc.2 s hs).1 (hc.2 s hs).2 (by
    intro hp
    by_contra h2
    rw [not_or] at h2
    exact hn ⟨hp, h2.1, h2.2⟩)
  rw [h] at this
  cases this

theorem onSeg_sub {a b q r : Pt K} (h1 : OnSeg a b q) (h2 : OnSeg a q r) : OnSeg a b r := by
  obtain ⟨t, t0, t1, hx, hy⟩ := h1
  obtain ⟨u, u0, u1, kx, ky⟩ := h2
  refine ⟨u * t, mul_nonneg u0 t0, mul_le_one₀ u1 t0 t1, ?_, ?_⟩
  · rw [kx, hx]; ring
  · rw [ky, hy]; ring

/-- A point is obstructed iff it is inside of one of the polygons or outside of the bound. -/
theorem c84_obstructed (T : Tol K) (m : PMap K) (p : Pt K) :
    m.obstructed T p = true ↔ (∃ P ∈ m.polys, P.contains T p = true) ∨ ∃ B, m.bound = some B ∧ B.contains T p = false := by
  unfold PMap.obstructed
  cases hb : m.bound with
  | none => simp
  | some B =>
    cases h : B.contains T p <;> simp [h]

/-- **C84 (a straight line of sight is free).** If `b` is said to be visible from `a`, and the segment does not run along a
side, then all its points are obstructed, or all are not. -/
theorem c84_clear {T : Tol K} {m : PMap K} {a b : Pt K} (hv : m.isvisible T a b = true)
    (hmk : ∀ P, m.Has P → ∃ vs, Poly.make vs = .ok P) (hc : ∀ P, m.Has P → SegClean T P ⟨a, b⟩)
    (hn : ∀ P, m.Has P → ∀ s ∈ P.sides, Par ⟨a, b⟩ s → ¬ Meet ⟨a, b⟩ s)
    (ha : ∀ P, m.Has P → CleanFor T P a) {q : Pt K} (hq : OnSeg a b q) (hqc : ∀ P, m.Has P → CleanFor T P q) :
    m.obstructed T q = m.obstructed T a := by
  have key : ∀ P, m.Has P → P.contains T q = P.contains T a := by
    intro P hP
    obtain ⟨vs, hvs⟩ := hmk P hP
    refine (c82_enclosed (p := a) (r := [q]) hvs (ha P hP) (hqc P hP) ⟨fun s hs hm => ?_, trivial⟩).symm
    have hm' : Meet ⟨a, b⟩ s := by
      obtain ⟨z, h1, h2⟩ := hm
      exact ⟨z, onSeg_sub hq h1, h2⟩
    exact hn P hP s hs (c84_visible_partial hv hP hvs (hc P hP) hs hm').1 hm'
  rw [Bool.eq_iff_iff, c84_obstructed, c84_obstructed]
  constructor
  · rintro (⟨P, h1, h2⟩ | ⟨B, h1, h2⟩)
    · exact Or.inl ⟨P, h1, (key P (Or.inl h1)) ▸ h2⟩
    · exact Or.inr ⟨B, h1, (key B (Or.inr h1)) ▸ h2⟩
  · rintro (⟨P, h1, h2⟩ | ⟨B, h1, h2⟩)
    · exact Or.inl ⟨P, h1, (key P (Or.inl h1)).trans h2⟩
    · exact Or.inr ⟨B, h1, (key B (Or.inr h1)).trans h2⟩

/-- On a map with a bound, a point from which something is visible is inside the bound. -/
theorem c84_in_bound {T : Tol K} {m : PMap K} {a b : Pt K} (hv : m.isvisible T a b = true) {B : Poly K}
    (hB : m.bound = some B) : B.contains T a = true := by
  unfold PMap.isvisible at hv
  split at hv
  · cases hv
  · simp only [hB, Bool.and_eq_true] at hv
    exact hv.1

/-- **C84 (hidden).** If `b` is said to be hidden from `a`, there is a reason: a point near the segment that is near a side
of a polygon or of the bound, or `a` is not inside the bound. -/
theorem c84_hidden {T : Tol K} {m : PMap K} {a b : Pt K} (hv : m.isvisible T a b = false)
    (hc : ∀ P, m.Has P → SegClean T P ⟨a, b⟩) :
    (∃ B, m.bound = some B ∧ B.contains T a = false) ∨
      ∃ P, m.Has P ∧ ∃ s ∈ P.sides, ∃ p : Pt K,
        (∃ q, OnSeg a b q ∧ |p.x - q.x| ≤ 2 * T.th ∧ |p.y - q.y| ≤ 2 * T.th) ∧
        (∃ q, OnSeg s.p0 s.p1 q ∧ |p.x - q.x| ≤ 2 * T.th ∧ |p.y - q.y| ≤ 2 * T.th) := by
  have key : ∀ P, m.Has P → P.hits T ⟨a, b⟩ = true → ∃ s ∈ P.sides, ∃ p : Pt K,
        (∃ q, OnSeg a b q ∧ |p.x - q.x| ≤ 2 * T.th ∧ |p.y - q.y| ≤ 2 * T.th) ∧
        (∃ q, OnSeg s.p0 s.p1 q ∧ |p.x - q.x| ≤ 2 * T.th ∧ |p.y - q.y| ≤ 2 * T.th) := by
    intro P hP h
    unfold Poly.hits at h
    cases hb : P.bbox with
    | none => simp [hb] at h
    | some bb =>
      simp only [hb] at h
      split at h
      · cases h
      · obtain ⟨s, hs, h⟩ := List.any_eq_true.1 h
        obtain ⟨p, -, h1, h2⟩ := c81_sound (hc P hP).1 ((hc P hP).2 s hs).1 ((hc P hP).2 s hs).2 h
        exact ⟨s, hs, p, h1, h2⟩
  unfold PMap.isvisible at hv
  split at hv
  · rename_i h
    obtain ⟨P, hP, h⟩ := List.any_eq_true.1 h
    rw [Bool.and_eq_true] at h
    exact Or.inr ⟨P, Or.inl hP, key P (Or.inl hP) h.2⟩
  · cases hB : m.bound with
    | none => simp [hB] at hv
    | some B =>
      simp only [hB, Bool.and_eq_false_iff, Bool.not_eq_false'] at hv
      rcases hv with hv | hv
      · exact Or.inl ⟨B, rfl, hv⟩
      · exact Or.inr ⟨B, Or.inr hB, key B (Or.inr hB) hv⟩

/-- The map with the polygon of `Props/Geom2d`. -/
def notchM : PMap ℚ := ⟨[notchP], none⟩

theorem notch_sides (l : Seg ℚ) (hl : Clean tq l) (h : ∀ s ∈ notchP.sides, Sep tq l s) : SegClean tq notchP l := by
  refine ⟨hl, fun s hs => ⟨?_, h s hs⟩⟩
  simp only [notchP, List.mem_cons, List.not_mem_nil, or_false] at hs
  rcases hs with rfl | rfl | rfl | rfl | rfl <;> (unfold Clean tq; norm_num)

example : notchM.isvisible tq ⟨1, 1⟩ ⟨3, 1 / 2⟩ = true ∧ notchM.isvisible tq ⟨1, 1⟩ ⟨3, 3⟩ = false ∧
    notchM.isvisible tq ⟨2, 2⟩ ⟨2, 7⟩ = true ∧ notchM.obstructed tq ⟨2, 2⟩ = false ∧ notchM.obstructed tq ⟨1, 1⟩ = true ∧
    (⟨[], some notchP⟩ : PMap ℚ).obstructed tq ⟨2, 2⟩ = true ∧
    (⟨[], some notchP⟩ : PMap ℚ).isvisible tq ⟨2, 2⟩ ⟨2, 7⟩ = false := by decide +kernel

/-- Hypotheses of `c84_clear`, for a segment in the notch. -/
example : SegClean tq notchP ⟨⟨2, 2⟩, ⟨2, 7⟩⟩ ∧ CleanFor tq notchP ⟨2, 2⟩ ∧ CleanFor tq notchP ⟨2, 5⟩ := by
  refine ⟨notch_sides _ (by unfold Clean tq; norm_num) ?_, notch_clean _ ?_, notch_clean _ ?_⟩
  · intro s hs
    simp only [notchP, List.mem_cons, List.not_mem_nil, or_false] at hs
    rcases hs with rfl | rfl | rfl | rfl | rfl <;> (unfold Geom.Sep Seg.slope tq; norm_num)
  · unfold tq; norm_num [abs_of_neg, abs_of_pos]
  · unfold tq; norm_num [abs_of_neg, abs_of_pos]

/-- The converse of `c84_visible_partial` without its exception is false: part of a wall, from a point of it to another, is
said to be visible. -/
theorem c84_inside_wall : ∃ (a b : Pt ℚ) (s : Seg ℚ), s ∈ notchP.sides ∧ Meet ⟨a, b⟩ s ∧
    notchM.isvisible tq a b = true := by
  refine ⟨⟨0, 1⟩, ⟨0, 3⟩, ⟨⟨0, 0⟩, ⟨0, 4⟩⟩, by simp [notchP], ⟨⟨0, 1⟩, ⟨0, ?_⟩, ⟨1 / 4, ?_⟩⟩, by decide +kernel⟩
  · norm_num
  · norm_num

/-- Visibility alone says nothing about being outside: two points inside of the same obstacle see each other. -/
theorem c84_inside_polygon : notchM.isvisible tq ⟨1, 1 / 2⟩ ⟨3, 1 / 2⟩ = true ∧ notchM.obstructed tq ⟨1, 1 / 2⟩ = true ∧
    notchM.obstructed tq ⟨3, 1 / 2⟩ = true := by decide +kernel

/-! ### The extent of a map -/

theorem minBox_spec : ∀ (ps : List (Poly K)) (acc : Option K × Option K) (r : Option K × Option K),
    ps.foldl minBox acc = r →
      (∀ v, acc.1 = some v → ∃ x, r.1 = some x ∧ x ≤ v) ∧ (∀ v, acc.2 = some v → ∃ y, r.2 = some y ∧ y ≤ v) ∧
      (∀ P ∈ ps, ∀ b, P.bbox = some b → (∃ x, r.1 = some x ∧ x ≤ b.min.x) ∧ ∃ y, r.2 = some y ∧ y ≤ b.min.y) ∧
      (∀ x, r.1 = some x → acc.1 = some x ∨ ∃ P ∈ ps, ∃ b, P.bbox = some b ∧ x = b.min.x) ∧
      (∀ y, r.2 = some y → acc.2 = some y ∨ ∃ P ∈ ps, ∃ b, P.bbox = some b ∧ y = b.min.y)
  | [], acc, r, h => by
    subst h
    exact ⟨fun v h => ⟨v, h, le_rfl⟩, fun v h => ⟨v, h, le_rfl⟩, by simp, fun x h => Or.inl h, fun x h => Or.inl h⟩
  | P :: ps, acc, r, h => by
    rw [List.foldl_cons] at h
    obtain ⟨h1, h2, h3, h4, h5⟩ := minBox_spec ps (minBox acc P) r h
    cases hb : P.bbox with
    | none =>
      have e : minBox acc P = acc := by simp [minBox, hb]
      rw [e] at h1 h2 h4 h5
      refine ⟨h1, h2, ?_, fun x hx => ?_, fun x hx => ?_⟩
      · intro Q hQ b hQb
        rcases List.mem_cons.1 hQ with rfl | hQ
        · rw [hb] at hQb; cases hQb
        · exact h3 Q hQ b hQb
      · rcases h4 x hx with h | ⟨Q, hQ, h⟩
        · exact Or.inl h
        · exact Or.inr ⟨Q, List.mem_cons_of_mem _ hQ, h⟩
      · rcases h5 x hx with h | ⟨Q, hQ, h⟩
        · exact Or.inl h
        · exact Or.inr ⟨Q, List.mem_cons_of_mem _ hQ, h⟩
    | some b =>
      have e : minBox acc P = (lower acc.1 b.min.x, lower acc.2 b.min.y) := by simp [minBox, hb]
      rw [e] at h1 h2 h4 h5
      have lo : ∀ (o : Option K) (v : K), ∃ w, lower o v = some w ∧ w ≤ v ∧ (∀ u, o = some u → w ≤ u) ∧
          (o = some w ∨ w = v) := by
        intro o v
        cases o with
        | none => exact ⟨v, rfl, le_rfl, by simp, Or.inr rfl⟩
        | some a =>
          unfold lower
          by_cases hlt : v < a
          · exact ⟨v, by simp [hlt], le_rfl, by rintro u ⟨⟩; exact hlt.le, Or.inr rfl⟩
          · exact ⟨a, by simp [hlt], not_lt.1 hlt, by rintro u ⟨⟩; exact le_rfl, Or.inl rfl⟩
      obtain ⟨w1, a1, a2, a3, a4⟩ := lo acc.1 b.min.x
      obtain ⟨w2, b1, b2, b3, b4⟩ := lo acc.2 b.min.y
      obtain ⟨x, k1, k2⟩ := h1 w1 a1
      obtain ⟨y, k3, k4⟩ := h2 w2 b1
      refine ⟨fun v hv => ⟨x, k1, k2.trans (a3 v hv)⟩, fun v hv => ⟨y, k3, k4.trans (b3 v hv)⟩, ?_, fun z hz => ?_,
        fun z hz => ?_⟩
      · intro Q hQ c hQc
        rcases List.mem_cons.1 hQ with rfl | hQ
        · rw [hb] at hQc
          cases hQc
          exact ⟨⟨x, k1, k2.trans a2⟩, ⟨y, k3, k4.trans b2⟩⟩
        · exact h3 Q hQ c hQc
      · rcases h4 z hz with h | ⟨Q, hQ, h⟩
        · simp only [a1, Option.some.injEq] at h
          subst h
          rcases a4 with h | h
          · exact Or.inl h
          · exact Or.inr ⟨P, List.mem_cons_self, b, hb, h⟩
        · exact Or.inr ⟨Q, List.mem_cons_of_mem _ hQ, h⟩
      · rcases h5 z hz with h | ⟨Q, hQ, h⟩
        · simp only [b1, Option.some.injEq] at h
          subst h
          rcases b4 with h | h
          · exact Or.inl h
          · exact Or.inr ⟨P, List.mem_cons_self, b, hb, h⟩
        · exact Or.inr ⟨Q, List.mem_cons_of_mem _ hQ, h⟩

/-- **C84 (extent).** With a bound, the corners of the map are those of its box. -/
theorem c84_extent {m : PMap K} {B : Poly K} {b : Bbox K} (hb : m.bound = some B) (hB : B.bbox = some b) :
    m.min = (some b.min.x, some b.min.y) ∧ m.max = (some b.max.x, some b.max.y) := by
  simp [PMap.min, PMap.max, hb, hB]

/-- **C84 (lower corner).** The lower corner of a map without bound: the least `x` and the least `y` of the boxes of the
polygons. -/
theorem c84_min {m : PMap K} (hb : m.bound = none) :
    (∀ x, m.min.1 = some x ↔ (∃ P ∈ m.polys, ∃ b, P.bbox = some b ∧ x = b.min.x) ∧
      ∀ P ∈ m.polys, ∀ b, P.bbox = some b → x ≤ b.min.x) ∧
    (∀ y, m.min.2 = some y ↔ (∃ P ∈ m.polys, ∃ b, P.bbox = some b ∧ y = b.min.y) ∧
      ∀ P ∈ m.polys, ∀ b, P.bbox = some b → y ≤ b.min.y) := by
  obtain ⟨-, -, h3, h4, h5⟩ := minBox_spec m.polys (none, none) m.min (by simp [PMap.min, hb])
  constructor
  · intro x
    constructor
    · intro hx
      refine ⟨(h4 x hx).resolve_left (by simp), fun P hP b hPb => ?_⟩
      obtain ⟨x', e, hle⟩ := (h3 P hP b hPb).1
      rw [hx] at e; cases e; exact hle
    · rintro ⟨⟨P, hP, b, hPb, rfl⟩, hmin⟩
      obtain ⟨x', e, hle⟩ := (h3 P hP b hPb).1
      obtain ⟨Q, hQ, c, hQc, rfl⟩ := (h4 x' e).resolve_left (by simp)
      rw [e, le_antisymm hle (hmin Q hQ c hQc)]
  · intro x
    constructor
    · intro hx
      refine ⟨(h5 x hx).resolve_left (by simp), fun P hP b hPb => ?_⟩
      obtain ⟨x', e, hle⟩ := (h3 P hP b hPb).2
      rw [hx] at e; cases e; exact hle
    · rintro ⟨⟨P, hP, b, hPb, rfl⟩, hmin⟩
      obtain ⟨x', e, hle⟩ := (h3 P hP b hPb).2
      obtain ⟨Q, hQ, c, hQc, rfl⟩ := (h5 x' e).resolve_left (by simp)
      rw [e, le_antisymm hle (hmin Q hQ c hQc)]

theorem maxBox_spec : ∀ (ps : List (Poly K)) (acc : Option K × Option K) (r : Option K × Option K),
    ps.foldl maxBox acc = r →
      (∀ v, acc.1 = some v → ∃ x, r.1 = some x ∧ v ≤ x) ∧
      (∀ P ∈ ps, ∀ b, P.bbox = some b → ∃ x, r.1 = some x ∧ b.max.x ≤ x) ∧
      (∀ x, r.1 = some x → acc.1 = some x ∨ ∃ P ∈ ps, ∃ b, P.bbox = some b ∧ x = b.max.x)
  | [], acc, r, h => by
    subst h
    exact ⟨fun v h => ⟨v, h, le_rfl⟩, by simp, fun x h => Or.inl h⟩
  | P :: ps, acc, r, h => by
    rw [List.foldl_cons] at h
    obtain ⟨h1, h3, h4⟩ := maxBox_spec ps (maxBox acc P) r h
    cases hb : P.bbox with
    | none =>
      have e : maxBox acc P = acc := by simp [maxBox, hb]
      rw [e] at h1 h4
      refine ⟨h1, ?_, fun x hx => ?_⟩
      · intro Q hQ b hQb
        rcases List.mem_cons.1 hQ with rfl | hQ
        · rw [hb] at hQb; cases hQb
        · exact h3 Q hQ b hQb
      · rcases h4 x hx with h | ⟨Q, hQ, h⟩
        · exact Or.inl h
        · exact Or.inr ⟨Q, List.mem_cons_of_mem _ hQ, h⟩
    | some b =>
      have e : (maxBox acc P).1 = raise acc.1 b.max.x b.max.x := by simp [maxBox, hb]
      rw [e] at h1 h4
      have lo : ∀ (o : Option K) (v : K), ∃ w, raise o v v = some w ∧ v ≤ w ∧ (∀ u, o = some u → u ≤ w) ∧
          (o = some w ∨ w = v) := by
        intro o v
        cases o with
        | none => exact ⟨v, rfl, le_rfl, by simp, Or.inr rfl⟩
        | some a =>
          unfold raise
          by_cases hlt : a < v
          · exact ⟨v, by simp [hlt], le_rfl, by rintro u ⟨⟩; exact hlt.le, Or.inr rfl⟩
          · exact ⟨a, by simp [hlt], not_lt.1 hlt, by rintro u ⟨⟩; exact le_rfl, Or.inl rfl⟩
      obtain ⟨w1, a1, a2, a3, a4⟩ := lo acc.1 b.max.x
      obtain ⟨x, k1, k2⟩ := h1 w1 a1
      refine ⟨fun v hv => ⟨x, k1, (a3 v hv).trans k2⟩, ?_, fun z hz => ?_⟩
      · intro Q hQ c hQc
        rcases List.mem_cons.1 hQ with rfl | hQ
        · rw [hb] at hQc
          cases hQc
          exact ⟨x, k1, a2.trans k2⟩
        · exact h3 Q hQ c hQc
      · rcases h4 z hz with h | ⟨Q, hQ, h⟩
        · rw [a1, Option.some.injEq] at h
          subst h
          rcases a4 with h | h
          · exact Or.inl h
          · exact Or.inr ⟨P, List.mem_cons_self, b, hb, h⟩
        · exact Or.inr ⟨Q, List.mem_cons_of_mem _ hQ, h⟩

/-- **C84 (upper corner).** The `x` of the upper corner of a map without bound is the greatest one of the boxes.  What is
missing: the `y` (`c84_max_wrong`). -/
theorem c84_max_partial {m : PMap K} (hb : m.bound = none) (x : K) :
    m.max.1 = some x ↔ (∃ P ∈ m.polys, ∃ b, P.bbox = some b ∧ x = b.max.x) ∧
      ∀ P ∈ m.polys, ∀ b, P.bbox = some b → b.max.x ≤ x := by
  obtain ⟨-, h3, h4⟩ := maxBox_spec m.polys (none, none) m.max (by simp [PMap.max, hb])
  constructor
  · intro hx
    refine ⟨(h4 x hx).resolve_left (by simp), fun P hP b hPb => ?_⟩
    obtain ⟨x', e, hle⟩ := h3 P hP b hPb
    rw [hx] at e; cases e; exact hle
  · rintro ⟨⟨P, hP, b, hPb, rfl⟩, hmin⟩
    obtain ⟨x', e, hle⟩ := h3 P hP b hPb
    obtain ⟨Q, hQ, c, hQc, rfl⟩ := (h4 x' e).resolve_left (by simp)
    rw [e, le_antisymm (hmin Q hQ c hQc) hle]

/-- A polygon without colinear vertices. -/
theorem make_bent {vs : List (Pt K)} (hne : vs ≠ [])
    (s : ∀ i (h : i < vs.length), straight (nbrs vs i h).1 (nbrs vs i h).2.1 (nbrs vs i h).2.2 = false) :
    Poly.make vs = .ok ⟨vs, cyc vs hne, Bbox.ofPts vs⟩ := by
  have key : ∀ k i, i + k = vs.length → rmcol vs i = vs := by
    intro k
    induction k with
    | zero =>
      intro i hi
      rw [rmcol, dif_neg (by omega)]
    | succ k ih =>
      intro i hi
      rw [rmcol, dif_pos (by omega)]
      simp only [s i (by omega), Bool.false_eq_true, if_false]
      exact ih (i + 1) (by omega)
  unfold Poly.make
  simp only [key vs.length 0 (by omega), initsides_eq hne, Outcome.map_ok]

/-- A rectangle, clockwise. -/
def rect (x0 y0 x1 y1 : ℚ) : Poly ℚ :=
  ⟨[⟨x0, y0⟩, ⟨x0, y1⟩, ⟨x1, y1⟩, ⟨x1, y0⟩],
    [⟨⟨x0, y0⟩, ⟨x0, y1⟩⟩, ⟨⟨x0, y1⟩, ⟨x1, y1⟩⟩, ⟨⟨x1, y1⟩, ⟨x1, y0⟩⟩, ⟨⟨x1, y0⟩, ⟨x0, y0⟩⟩],
    some ⟨⟨x0, y0⟩, ⟨x1, y1⟩⟩⟩

theorem rect_make {x0 y0 x1 y1 : ℚ}
    (h : Bbox.ofPts [(⟨x0, y0⟩ : Pt ℚ), ⟨x0, y1⟩, ⟨x1, y1⟩, ⟨x1, y0⟩] = some ⟨⟨x0, y0⟩, ⟨x1, y1⟩⟩)
    (s : ∀ i (h : i < 4), straight (nbrs [(⟨x0, y0⟩ : Pt ℚ), ⟨x0, y1⟩, ⟨x1, y1⟩, ⟨x1, y0⟩] i h).1
      (nbrs [(⟨x0, y0⟩ : Pt ℚ), ⟨x0, y1⟩, ⟨x1, y1⟩, ⟨x1, y0⟩] i h).2.1
      (nbrs [(⟨x0, y0⟩ : Pt ℚ), ⟨x0, y1⟩, ⟨x1, y1⟩, ⟨x1, y0⟩] i h).2.2 = false) :
    Poly.make [(⟨x0, y0⟩ : Pt ℚ), ⟨x0, y1⟩, ⟨x1, y1⟩, ⟨x1, y0⟩] = .ok (rect x0 y0 x1 y1) := by
  rw [make_bent (vs := [(⟨x0, y0⟩ : Pt ℚ), ⟨x0, y1⟩, ⟨x1, y1⟩, ⟨x1, y0⟩]) (by simp) s, h]
  rfl

theorem rect1 : Poly.make [(⟨0, 0⟩ : Pt ℚ), ⟨0, 1⟩, ⟨1, 1⟩, ⟨1, 0⟩] = .ok (rect 0 0 1 1) :=
  rect_make (by decide +kernel) (by decide +kernel)

theorem rect2 : Poly.make [(⟨2, 0⟩ : Pt ℚ), ⟨2, 5⟩, ⟨3, 5⟩, ⟨3, 0⟩] = .ok (rect 2 0 3 5) :=
  rect_make (by decide +kernel) (by decide +kernel)

/-- The `y` of the upper corner is wrong: with a rectangle up to 1 and another one up to 5, both from 0, it is 1.  (The code
compares the lower end of a box with the maximum so far.)  What is drawn of the map is cut off. -/
theorem c84_max_wrong : ∃ P Q : Poly ℚ, ∃ vs ws, Poly.make vs = .ok P ∧ Poly.make ws = .ok Q ∧
    (⟨[P, Q], none⟩ : PMap ℚ).max = (some 3, some 1) ∧ ∃ b, Q.bbox = some b ∧ b.max.y = 5 :=
  ⟨_, _, _, _, rect1, rect2, by decide +kernel, _, rfl, rfl⟩

example : (⟨[rect 0 0 1 1, rect 2 (-1) 3 5], none⟩ : PMap ℚ).min = (some 0, some (-1)) := by decide +kernel

/-! ## C85: the graph -/

section Graph
variable {T : Tol K} {dist : Pt K → Pt K → K} (hsym : ∀ p q, dist p q = dist q p)
include hsym

/-- **C85 (construction).** Building the graph of a map is always defined.  In the graph, vertices are numbered by position,
edges are between different vertices, in both directions and as long as the distance (`Wf`).  The vertices are corners of
the map; every corner of every polygon at which it bends around the obstacle is a vertex; corners at both ends of a side are
linked; two vertices are linked iff they see each other, or are at both ends of a side. -/
theorem c85_build (m : PMap K) :
    ∃ g, build T dist m = .ok g ∧ Wf dist g ∧ g.map = m ∧
      (∀ P, m.Has P → ∀ k, isreflex P k = true → ∃ a, g.pt a = P.verts[k]?) ∧
      (∀ P, m.Has P → ∀ k, isreflex P k = true → isreflex P ((k + 1) % P.verts.length) = true → 1 < P.verts.length →
        ∃ a b, Linked g a b ∧ g.pt a = P.verts[k]? ∧ g.pt b = P.verts[(k + 1) % P.verts.length]?) ∧
      (∀ a p, g.pt a = some p → ∃ P, m.Has P ∧ p ∈ P.verts) ∧
      (∀ a b, a < b → Linked g a b → sees T g a b = .ok true ∨
        ∃ P, m.Has P ∧ ∃ u v, g.pt a = some u ∧ g.pt b = some v ∧ (Nbr P u v ∨ Nbr P v u)) ∧
      ∀ a b, a < b → sees T g a b = .ok true → Linked g a b := by
  obtain ⟨g, h1, h2, h3, h4, h5, h6, h7⟩ := build_spec (T := T) hsym m
  exact ⟨g, h1, h2, h3, fun P hP => (h4 P hP).corner, fun P hP k e1 e2 e3 => (h4 P hP).wall k ⟨e1, e2, e3⟩, h5, h6, h7⟩

/-- **C85 (adding a place).** Adding a point to a well-formed graph is defined, keeps the graph well-formed, keeps the other
vertices and the links between them, returns the number of the new vertex, and links it to those that see it. -/
theorem c85_add {g : VGraph K} (hg : Wf dist g) (p : Pt K) :
    ∃ g', add T dist g p = .ok (g', g.verts.length) ∧ Wf dist g' ∧ g'.map = g.map ∧
      g'.verts.length = g.verts.length + 1 ∧ (∀ i < g.verts.length, g'.pt i = g.pt i) ∧ g'.pt g.verts.length = some p ∧
      (∀ a b, b < g.verts.length → a < g.verts.length → (Linked g' a b ↔ Linked g a b)) ∧
      ∀ a < g.verts.length, Linked g' a g.verts.length ↔ sees T g' a g.verts.length = .ok true :=
  add_spec hsym hg p

omit hsym in
/-- **C85 (links).** Links go both ways. -/
theorem c85_symm {g : VGraph K} (hg : Wf dist g) {a b : Nat} : Linked g a b ↔ Linked g b a :=
  ⟨Linked.symm hg, Linked.symm hg⟩

omit hsym in
theorem scale_ok {sx sy : K} {P : Poly K} (h : P.verts ≠ []) :
    ∃ Q, Poly.scale sx sy P = .ok Q ∧ Q.verts = P.verts.map (Pt.scale sx sy) := by
  unfold Poly.scale
  simp only [initsides_eq (show P.verts.map (Pt.scale sx sy) ≠ [] by simpa using h), Outcome.map_ok]
  exact ⟨_, rfl, rfl⟩

omit hsym in
theorem translate_ok {dx dy : K} {P : Poly K} (h : P.verts ≠ []) :
    ∃ Q, Poly.translate dx dy P = .ok Q ∧ Q.verts = P.verts.map (Pt.translate dx dy) := by
  unfold Poly.translate
  simp only [initsides_eq (show P.verts.map (Pt.translate dx dy) ≠ [] by simpa using h), Outcome.map_ok]
  exact ⟨_, rfl, rfl⟩

/-- **C85 (scaling).** Scaling a well-formed graph scales its points, keeps the links, and makes the lengths right again. -/
theorem c85_scale {g : VGraph K} (hg : Wf dist g) (hP : ∀ P, g.map.Has P → P.verts ≠ []) (sx sy : K) :
    ∃ g', scale dist sx sy g = .ok g' ∧ Wf dist g' ∧ (∀ i, g'.pt i = (g.pt i).map (Pt.scale sx sy)) ∧
      (∀ a b, Linked g' a b ↔ Linked g a b) ∧
      g'.map.polys.map (·.verts) = g.map.polys.map fun P => P.verts.map (Pt.scale sx sy) := by
  classical
  let FP : Poly K → Poly K := fun P => if h : P.verts ≠ [] then (scale_ok (sx := sx) (sy := sy) h).choose else P
  have hFP : ∀ P, P.verts ≠ [] → Poly.scale sx sy P = .ok (FP P) ∧ (FP P).verts = P.verts.map (Pt.scale sx sy) := by
    intro P h
    simp only [FP, dif_pos h]
    exact (scale_ok (sx := sx) (sy := sy) h).choose_spec
  have hF : ∀ P p, p ∈ P.verts → Pt.scale sx sy p ∈ (FP P).verts := by
    intro P p hp
    rw [(hFP P (List.ne_nil_of_mem hp)).2]
    exact List.mem_map_of_mem hp
  obtain ⟨h1, h2, h3⟩ := moved_wf hsym hF hg
  refine ⟨moved dist (Pt.scale sx sy) FP g, ?_, h1, h2, h3, ?_⟩
  · unfold scale
    rw [mapPolys_ok fun P hP' => (hFP P (hP P hP')).1]
    simp only [Outcome.bind_ok]
    rw [redist_ok (D := fun v e => match g.verts[e.dst]? with
      | none => 0
      | some w => dist v.pt (Pt.scale sx sy w.pt))]
    · simp only [Outcome.map_ok, moved, List.map_map, Function.comp_def]
      rfl
    · intro v hv e he
      obtain ⟨v0, hv0, rfl⟩ := List.mem_map.1 hv
      obtain ⟨i, hi, rfl⟩ := List.getElem_of_mem hv0
      obtain ⟨-, -, w, h5, -⟩ := hg.edge i _ (List.getElem?_eq_getElem hi) e he
      exact ⟨{ w with pt := w.pt.scale sx sy }, by simp [h5], by simp only [h5]⟩
  · simp only [moved, List.map_map, Function.comp_def]
    exact List.map_congr_left fun P hP' => (hFP P (hP P (Or.inl hP'))).2

/-- **C85 (moving).** The same for moving; the lengths stay as they are. -/
theorem c85_translate {g : VGraph K} (hg : Wf dist g) (hP : ∀ P, g.map.Has P → P.verts ≠ []) (dx dy : K)
    (hinv : ∀ p q, dist (p.translate dx dy) (q.translate dx dy) = dist p q) :
    ∃ g', translate dx dy g = .ok g' ∧ Wf dist g' ∧ (∀ i, g'.pt i = (g.pt i).map (Pt.translate dx dy)) ∧
      (∀ a b, Linked g' a b ↔ Linked g a b) ∧
      g'.map.polys.map (·.verts) = g.map.polys.map fun P => P.verts.map (Pt.translate dx dy) := by
  classical
  let FP : Poly K → Poly K := fun P => if h : P.verts ≠ [] then (translate_ok (dx := dx) (dy := dy) h).choose else P
  have hFP : ∀ P, P.verts ≠ [] → Poly.translate dx dy P = .ok (FP P) ∧ (FP P).verts = P.verts.map (Pt.translate dx dy) := by
    intro P h
    simp only [FP, dif_pos h]
    exact (translate_ok (dx := dx) (dy := dy) h).choose_spec
  have hF : ∀ P p, p ∈ P.verts → Pt.translate dx dy p ∈ (FP P).verts := by
    intro P p hp
    rw [(hFP P (List.ne_nil_of_mem hp)).2]
    exact List.mem_map_of_mem hp
  obtain ⟨h1, h2, h3⟩ := moved_wf hsym hF hg
  refine ⟨moved dist (Pt.translate dx dy) FP g, ?_, h1, h2, h3, ?_⟩
  · unfold translate
    rw [mapPolys_ok fun P hP' => (hFP P (hP P hP')).1]
    simp only [Outcome.map_ok, moved, Outcome.ok.injEq, VGraph.mk.injEq, and_true]
    apply List.map_congr_left
    intro v hv
    obtain ⟨i, hi, rfl⟩ := List.getElem_of_mem hv
    simp only [Vert.mk.injEq, true_and]
    symm
    conv_rhs => rw [← List.map_id (g.verts[i].edges)]
    apply List.map_congr_left
    intro e he
    obtain ⟨-, -, w, h5, h6, -⟩ := hg.edge i _ (List.getElem?_eq_getElem hi) e he
    simp only [h5, hinv, ← h6, id]
  · simp only [moved, List.map_map, Function.comp_def]
    exact List.map_congr_left fun P hP' => (hFP P (hP P (Or.inl hP'))).2

omit hsym in
/-- **C85 (lines of sight).** When two vertices see each other, the part of the segment between them from the thousandth to
the last thousandth of its length is free: all of its points are obstructed or none, and its ends are not in the polygons
of the two vertices. -/
theorem c85_clear_partial {g : VGraph K} {i j : Nat} {u v : Pt K} (hu : g.pt i = some u) (hv : g.pt j = some v)
    (h : sees T g i j = .ok true) (hmk : ∀ P, g.map.Has P → ∃ vs, Poly.make vs = .ok P) {a b : Pt K}
    (ha : a = ⟨u.x + (v.x - u.x) / 1000, u.y + (v.y - u.y) / 1000⟩)
    (hb : b = ⟨v.x - (v.x - u.x) / 1000, v.y - (v.y - u.y) / 1000⟩)
    (hc : ∀ P, g.map.Has P → SegClean T P ⟨a, b⟩)
    (hn : ∀ P, g.map.Has P → ∀ s ∈ P.sides, Par ⟨a, b⟩ s → ¬ Meet ⟨a, b⟩ s)
    (hac : ∀ P, g.map.Has P → CleanFor T P a) :
    (∀ q, OnSeg a b q → (∀ P, g.map.Has P → CleanFor T P q) → g.map.obstructed T q = g.map.obstructed T a) ∧
      (∀ k P, g.polyno[i]? = some k → g.map.polys[k]? = some P → P.contains T a = false) ∧
      (∀ k P, g.polyno[j]? = some k → g.map.polys[k]? = some P → P.contains T b = false) := by
  obtain ⟨u', v', h1, h2, h3, h4, h5⟩ := sees_true h
  rw [hu] at h1; rw [hv] at h2
  cases h1; cases h2
  replace ha : a = along u v (1 / 1000) := by
    rw [ha, along, Pt.mk.injEq]
    constructor <;> ring
  replace hb : b = along u v (1 - 1 / 1000) := by
    rw [hb, along, Pt.mk.injEq]
    constructor <;> ring
  rw [← ha] at h3 h4
  rw [← hb] at h3 h5
  refine ⟨fun q hq hqc => c84_clear h3 hmk hc hn hac hq hqc, fun k P e1 e2 => ?_, fun k P e1 e2 => ?_⟩
  · simp only [inown, e1, e2, Outcome.ok.injEq] at h4
    exact h4
  · simp only [inown, e1, e2, Outcome.ok.injEq] at h5
    exact h5

end Graph

/-- A distance that can be computed, for the examples. -/
def l1 (p q : Pt ℚ) : ℚ := |q.x - p.x| + |q.y - p.y|

theorem l1_symm (p q : Pt ℚ) : l1 p q = l1 q p := by
  unfold l1; rw [abs_sub_comm, abs_sub_comm q.y]

/-- The points and the links of a graph. -/
def shape (g : VGraph ℚ) : List (Pt ℚ × List Nat) := g.verts.map fun v => (v.pt, v.edges.map (·.dst))

/-- The graph of a square, and of the square with a place left of it and one right of it. -/
example : (build tq l1 ⟨[rect 0 0 1 1], none⟩).map shape =
      .ok [(⟨0, 0⟩, [1, 3, 3]), (⟨0, 1⟩, [0, 2]), (⟨1, 1⟩, [1, 3, 3]), (⟨1, 0⟩, [0, 2, 0, 2])] ∧
    ((build tq l1 ⟨[rect 0 0 1 1], none⟩).bind fun g => (mkNav tq l1 g ⟨-1, 1 / 2⟩ ⟨2, 1 / 2⟩).map fun n => shape n.g) =
      .ok [(⟨0, 0⟩, [1, 3, 3, 4]), (⟨0, 1⟩, [0, 2, 4]), (⟨1, 1⟩, [1, 3, 3, 5]), (⟨1, 0⟩, [0, 2, 0, 2, 5]),
        (⟨-1, 1 / 2⟩, [0, 1]), (⟨2, 1 / 2⟩, [2, 3])] := by decide +kernel

/-- Some links are there twice: a side that was linked as a side is linked again as a line of sight (here the side from
(1,0) to (0,0)), because the points just inside its ends count as outside the polygon. -/
theorem c85_twice : ∃ P g v, (∃ vs, Poly.make vs = .ok P) ∧ build tq l1 ⟨[P], none⟩ = .ok g ∧ g.verts[0]? = some v ∧
    ∃ e e', v.edges = e :: e' :: e' :: [] ∧ e'.dst = 3 := by
  obtain ⟨g, h1, -⟩ := c85_build (T := tq) l1_symm (⟨[rect 0 0 1 1], none⟩ : PMap ℚ)
  have h2 : (build tq l1 ⟨[rect 0 0 1 1], none⟩).map (fun g => g.verts[0]?) =
    .ok (some ⟨0, ⟨0, 0⟩, [⟨0, 1, 1⟩, ⟨0, 3, 1⟩, ⟨0, 3, 1⟩]⟩) := by decide +kernel
  rw [h1, Outcome.map_ok, Outcome.ok.injEq] at h2
  exact ⟨rect 0 0 1 1, g, _, ⟨_, rect1⟩, h1, h2, _, _, rfl, rfl⟩

theorem thinwall : Poly.make [(⟨1 / 10, -1⟩ : Pt ℚ), ⟨1 / 10, 1⟩, ⟨2 / 10, 1⟩, ⟨2 / 10, -1⟩] =
    .ok (rect (1 / 10) (-1) (2 / 10) 1) :=
  rect_make (by decide +kernel) (by decide +kernel)

/-- The first and the last thousandth of a line of sight are not looked at: from (0,0) to (1000,0) there is a link, although
a rectangle from x = 0.1 to x = 0.2 and from y = -1 to y = 1 is in between. -/
theorem c85_wall_missed : ∃ P : Poly ℚ, (∃ vs, Poly.make vs = .ok P) ∧ P.contains tq ⟨15 / 100, 0⟩ = true ∧
    OnSeg ⟨0, 0⟩ ⟨1000, 0⟩ (⟨15 / 100, 0⟩ : Pt ℚ) ∧
    ∃ g n, build tq l1 ⟨[P], none⟩ = .ok g ∧ mkNav tq l1 g ⟨0, 0⟩ ⟨1000, 0⟩ = .ok n ∧
      n.g.pt n.start = some ⟨0, 0⟩ ∧ n.g.pt n.finish = some ⟨1000, 0⟩ ∧ Linked n.g n.start n.finish := by
  refine ⟨rect (1 / 10) (-1) (2 / 10) 1, ⟨_, thinwall⟩, by decide +kernel, ⟨15 / 100000, by norm_num⟩, ?_⟩
  have h2 : ((build tq l1 ⟨[rect (1 / 10) (-1) (2 / 10) 1], none⟩).bind fun g => (mkNav tq l1 g ⟨0, 0⟩ ⟨1000, 0⟩).map fun n =>
      (n.start, n.finish, n.g.verts[n.start]?, n.g.verts[n.finish]?.map (·.pt))) =
    .ok (4, 5, some ⟨4, ⟨0, 0⟩, [⟨4, 0, 11 / 10⟩, ⟨4, 1, 11 / 10⟩, ⟨4, 5, 1000⟩]⟩, some ⟨1000, 0⟩) := by decide +kernel
  obtain ⟨g, h3, h4⟩ := Outcome.bind_eq_ok.1 h2
  obtain ⟨n, h5, h6⟩ := Outcome.map_eq_ok.1 h4
  simp only [Prod.mk.injEq] at h6
  obtain ⟨e1, e2, e3, e4⟩ := h6
  refine ⟨g, n, h3, h5, by simp [VGraph.pt, e3], by simpa [VGraph.pt] using e4, _, e3, ⟨4, 5, 1000⟩, by simp, e2.symm⟩

end Verif.Vis
