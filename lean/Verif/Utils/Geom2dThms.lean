import Verif.Utils.Geom2d

/-!
# Lemmas about the plane geometry: boxes and segments
-/

namespace Verif.Geom

variable {K : Type} [Field K] [LinearOrder K] [IsStrictOrderedRing K]

/-! ## Boxes -/

@[simp] theorem mk2_min_x (p q : Pt K) : (Bbox.mk2 p q).min.x = min p.x q.x := by
  unfold Bbox.mk2
  by_cases h : p.x > q.x
  · simp [h, min_eq_right h.le]
  · simp [h, min_eq_left (not_lt.1 h)]

@[simp] theorem mk2_max_x (p q : Pt K) : (Bbox.mk2 p q).max.x = max p.x q.x := by
  unfold Bbox.mk2
  by_cases h : p.x > q.x
  · simp [h, max_eq_left h.le]
  · simp [h, max_eq_right (not_lt.1 h)]

@[simp] theorem mk2_min_y (p q : Pt K) : (Bbox.mk2 p q).min.y = min p.y q.y := by
  unfold Bbox.mk2
  by_cases h : p.y > q.y
  · simp [h, min_eq_right h.le]
  · simp [h, min_eq_left (not_lt.1 h)]

@[simp] theorem mk2_max_y (p q : Pt K) : (Bbox.mk2 p q).max.y = max p.y q.y := by
  unfold Bbox.mk2
  by_cases h : p.y > q.y
  · simp [h, max_eq_left h.le]
  · simp [h, max_eq_right (not_lt.1 h)]

/-- The point lies in the closed box. -/
def Bbox.Mem (b : Bbox K) (p : Pt K) : Prop :=
  b.min.x ≤ p.x ∧ p.x ≤ b.max.x ∧ b.min.y ≤ p.y ∧ p.y ≤ b.max.y

theorem bbox_hits_iff (a b : Bbox K) : a.hits b = true ↔
    a.min.x ≤ b.max.x ∧ b.min.x ≤ a.max.x ∧ a.min.y ≤ b.max.y ∧ b.min.y ≤ a.max.y := by
  simp [Bbox.hits, and_assoc]

theorem hits_of_mem {a b : Bbox K} {p : Pt K} (ha : a.Mem p) (hb : b.Mem p) : a.hits b = true := by
  rw [bbox_hits_iff]
  obtain ⟨h1, h2, h3, h4⟩ := ha
  obtain ⟨h5, h6, h7, h8⟩ := hb
  exact ⟨h1.trans h6, h5.trans h2, h3.trans h8, h7.trans h4⟩

theorem between_of (T : Tol K) {lo hi x : K} (h1 : lo ≤ x) (h2 : x ≤ hi) : between T lo hi x = true := by
  have := T.th_pos
  simp only [between, decide_eq_true_eq]
  constructor <;> linarith

theorem affine_mem {a b t : K} (h0 : 0 ≤ t) (h1 : t ≤ 1) :
    min a b ≤ a + t * (b - a) ∧ a + t * (b - a) ≤ max a b := by
  rcases le_total a b with h | h
  · rw [min_eq_left h, max_eq_right h]
    constructor <;> nlinarith
  · rw [min_eq_right h, max_eq_left h]
    constructor <;> nlinarith

theorem affine_of_mem {a b y : K} (h0 : min a b ≤ y) (h1 : y ≤ max a b) :
    ∃ t : K, 0 ≤ t ∧ t ≤ 1 ∧ y = a + t * (b - a) := by
  rcases lt_trichotomy a b with h | h | h
  · rw [min_eq_left h.le] at h0
    rw [max_eq_right h.le] at h1
    have hb : 0 < b - a := by linarith
    refine ⟨(y - a) / (b - a), div_nonneg (by linarith) hb.le, ?_, ?_⟩
    · rw [div_le_one hb]; linarith
    · field_simp; ring
  · subst h
    simp only [min_self, max_self] at h0 h1
    exact ⟨0, le_refl _, zero_le_one, by linarith⟩
  · rw [min_eq_right h.le] at h0
    rw [max_eq_left h.le] at h1
    have hb : 0 < a - b := by linarith
    have hne : b - a ≠ 0 := by linarith
    refine ⟨(a - y) / (a - b), div_nonneg (by linarith) hb.le, ?_, ?_⟩
    · rw [div_le_one hb]; linarith
    · have : a - b ≠ 0 := hb.ne'
      field_simp; ring

theorem OnSeg.mem {a b q : Pt K} (h : OnSeg a b q) : (Bbox.mk2 a b).Mem q := by
  obtain ⟨t, h0, h1, hx, hy⟩ := h
  unfold Bbox.Mem
  simp only [mk2_min_x, mk2_max_x, mk2_min_y, mk2_max_y]
  rw [hx, hy]
  have hx := affine_mem (a := a.x) (b := b.x) h0 h1
  have hy := affine_mem (a := a.y) (b := b.y) h0 h1
  exact ⟨hx.1, hx.2, hy.1, hy.2⟩

theorem OnSeg.left (a b : Pt K) : OnSeg a b a := ⟨0, le_refl _, zero_le_one, by ring, by ring⟩

theorem OnSeg.right (a b : Pt K) : OnSeg a b b := ⟨1, zero_le_one, le_refl _, by ring, by ring⟩

theorem OnSeg.symm {a b q : Pt K} (h : OnSeg a b q) : OnSeg b a q := by
  obtain ⟨t, h0, h1, hx, hy⟩ := h
  exact ⟨1 - t, by linarith, by linarith, by rw [hx]; ring, by rw [hy]; ring⟩

theorem Meet.symm {s o : Seg K} (h : Meet s o) : Meet o s := by
  obtain ⟨q, h1, h2⟩ := h
  exact ⟨q, h2, h1⟩

theorem within_of_onSeg (T : Tol K) {s : Seg K} {q : Pt K} (h : OnSeg s.p0 s.p1 q) : s.within T q = true := by
  obtain ⟨h1, h2, h3, h4⟩ := h.mem
  unfold Seg.within
  split
  · exact between_of T h1 h2
  · exact between_of T h3 h4

/-! ## Segments -/

/-- The slope of a segment that is not vertical. -/
def Seg.slope (s : Seg K) : K := (s.p1.y - s.p0.y) / (s.p1.x - s.p0.x)

/-- Exactly vertical (or a point), or not vertical by the tolerance of the code. -/
def Clean (T : Tol K) (s : Seg K) : Prop := s.p0.x = s.p1.x ∨ T.th ≤ |s.p0.x - s.p1.x|

/-- Equal slopes, or slopes that differ by the tolerance of the code. -/
def Sep (T : Tol K) (s o : Seg K) : Prop :=
  s.p0.x ≠ s.p1.x → o.p0.x ≠ o.p1.x → s.slope = o.slope ∨ T.th ≤ |s.slope - o.slope|

/-- Parallel segments: both vertical, or the same slope. -/
def Par (s o : Seg K) : Prop :=
  (s.p0.x = s.p1.x ∧ o.p0.x = o.p1.x) ∨ (s.p0.x ≠ s.p1.x ∧ o.p0.x ≠ o.p1.x ∧ s.slope = o.slope)

theorem Sep.symm {T : Tol K} {s o : Seg K} (h : Sep T s o) : Sep T o s := by
  intro h1 h2
  rcases h h2 h1 with h | h
  · exact Or.inl h.symm
  · rw [abs_sub_comm] at h; exact Or.inr h

theorem Par.symm {s o : Seg K} (h : Par s o) : Par o s := by
  rcases h with ⟨h1, h2⟩ | ⟨h1, h2, h3⟩
  · exact Or.inl ⟨h2, h1⟩
  · exact Or.inr ⟨h2, h1, h3.symm⟩

theorem line_vert (T : Tol K) {s : Seg K} (h : s.p0.x = s.p1.x) : s.line T = ⟨none, s.p1.x⟩ := by
  have := T.eps_pos
  simp [Seg.line, Line.mk2, h, this]

theorem vert_of_eq (T : Tol K) {s : Seg K} (h : s.p0.x = s.p1.x) : s.vert T = true := by
  have := T.th_pos
  simp [Seg.vert, deq, h, this]

theorem Clean.not_vert {T : Tol K} {s : Seg K} (hs : Clean T s) (h : s.p0.x ≠ s.p1.x) : s.vert T = false := by
  rcases hs with hs | hs
  · exact absurd hs h
  · simp only [Seg.vert, deq, decide_eq_false_iff_not, not_lt]; exact hs

theorem Clean.line {T : Tol K} {s : Seg K} (hs : Clean T s) (h : s.p0.x ≠ s.p1.x) :
    s.line T = ⟨some s.slope, s.p0.y - s.slope * s.p0.x⟩ := by
  rcases hs with hs | hs
  · exact absurd hs h
  · have : ¬ |s.p1.x - s.p0.x| < T.eps := by
      rw [abs_sub_comm, not_lt]; exact T.eps_le.trans hs
    simp [Seg.line, Line.mk2, this, Seg.slope]

/-- A segment that does not count as vertical has a finite slope: `Line.at` never fails in `Seg.isect`. -/
theorem Seg.at_some (T : Tol K) {s : Seg K} (h : s.vert T = false) (x : K) : ((s.line T).at x).isSome := by
  simp only [Seg.vert, deq, decide_eq_false_iff_not, not_lt] at h
  have : ¬ |s.p1.x - s.p0.x| < T.eps := by
    rw [abs_sub_comm, not_lt]; exact T.eps_le.trans h
  simp [Seg.line, Line.mk2, this, Line.at]

theorem OnSeg.on_line {s : Seg K} {q : Pt K} (h : OnSeg s.p0 s.p1 q) (hv : s.p0.x ≠ s.p1.x) :
    q.y = s.slope * q.x + (s.p0.y - s.slope * s.p0.x) := by
  obtain ⟨t, _, _, hx, hy⟩ := h
  have : s.p1.x - s.p0.x ≠ 0 := sub_ne_zero.2 (Ne.symm hv)
  rw [hx, hy, Seg.slope]
  field_simp
  ring

theorem OnSeg.vert_x {s : Seg K} {q : Pt K} (h : OnSeg s.p0 s.p1 q) (hv : s.p0.x = s.p1.x) : q.x = s.p0.x := by
  obtain ⟨t, _, _, hx, _⟩ := h
  rw [hx, hv]; ring

theorem deq_of_ge {T : Tol K} {a b : K} (h : T.th ≤ |a - b|) : deq T a b = false := by
  simp [deq, h]

theorem deq_self (T : Tol K) (a : K) : deq T a a = true := by simp [deq, T.th_pos]

theorem pick_isSome (T : Tol K) {s o : Seg K} (h : OnSeg s.p0 s.p1 o.p0 ∨ OnSeg s.p0 s.p1 o.p1) :
    (s.pick T o).isSome := by
  unfold Seg.pick
  split
  · rfl
  · split
    · rfl
    · rename_i h1 h2
      rcases h with h | h
      · exact absurd (within_of_onSeg T h) h1
      · exact absurd (within_of_onSeg T h) h2

/-- `isect` finds a common point of segments that are not parallel, and returns just that point. -/
theorem isect_complete {T : Tol K} {s o : Seg K} (hs : Clean T s) (ho : Clean T o) (hm : Sep T s o)
    (hp : ¬ Par s o) {q : Pt K} (h1 : OnSeg s.p0 s.p1 q) (h2 : OnSeg o.p0 o.p1 q) : s.isect T o = some q := by
  have w1 := within_of_onSeg T h1
  have w2 := within_of_onSeg T h2
  by_cases vs : s.p0.x = s.p1.x
  · by_cases vo : o.p0.x = o.p1.x
    · exact absurd (Or.inl ⟨vs, vo⟩) hp
    · have e1 := vert_of_eq T vs
      have e2 := ho.not_vert vo
      have hq : (⟨s.p0.x, o.slope * s.p0.x + (o.p0.y - o.slope * o.p0.x)⟩ : Pt K) = q := by
        have hx := h1.vert_x vs
        have hy := h2.on_line vo
        rw [← hx]
        cases q; simp_all
      unfold Seg.isect
      rw [e1, e2, line_vert T vs, ho.line vo]
      simp only [deqm, Line.at, Option.map_some, hq, Bool.and_false, Bool.false_eq_true, if_false, if_true,
        Option.bind_some, w1, w2, Bool.and_self]
  · by_cases vo : o.p0.x = o.p1.x
    · have e1 := hs.not_vert vs
      have e2 := vert_of_eq T vo
      have hq : (⟨o.p0.x, s.slope * o.p0.x + (s.p0.y - s.slope * s.p0.x)⟩ : Pt K) = q := by
        have hx := h2.vert_x vo
        have hy := h1.on_line vs
        rw [← hx]
        cases q; simp_all
      unfold Seg.isect
      rw [e1, e2, line_vert T vo, hs.line vs]
      simp only [deqm, Line.at, Option.map_some, hq, Bool.and_true, Bool.false_eq_true, if_false, if_true,
        Option.bind_some, w1, w2, Bool.and_self]
    · have e1 := hs.not_vert vs
      have e2 := ho.not_vert vo
      have hne : s.slope ≠ o.slope := fun e => hp (Or.inr ⟨vs, vo, e⟩)
      have hth : T.th ≤ |s.slope - o.slope| := (hm vs vo).resolve_left hne
      have hd := deq_of_ge hth
      have hx : (o.p0.y - o.slope * o.p0.x - (s.p0.y - s.slope * s.p0.x)) / (s.slope - o.slope) = q.x := by
        have hy1 := h1.on_line vs
        have hy2 := h2.on_line vo
        have : s.slope - o.slope ≠ 0 := sub_ne_zero.2 hne
        rw [div_eq_iff this]
        linear_combination hy1 - hy2
      have hq : (⟨q.x, s.slope * q.x + (s.p0.y - s.slope * s.p0.x)⟩ : Pt K) = q := by
        have hy := h1.on_line vs
        cases q; simp_all
      unfold Seg.isect
      rw [e1, e2, hs.line vs, ho.line vo]
      simp only [deqm, hd, Line.isect, hx, hq, Bool.and_self, Bool.false_eq_true, if_false,
        Option.bind_some, w1, w2, if_true]

/-- Parallel segments: a common point is found if an end point of the argument lies on the receiver. -/
theorem isect_complete_par {T : Tol K} {s o : Seg K} (hs : Clean T s) (ho : Clean T o)
    (hp : Par s o) (h : OnSeg s.p0 s.p1 o.p0 ∨ OnSeg s.p0 s.p1 o.p1) : (s.isect T o).isSome := by
  have hpick := pick_isSome T h
  rcases hp with ⟨vs, vo⟩ | ⟨vs, vo, e⟩
  · have hx : s.p0.x = o.p0.x := by
      rcases h with h | h
      · exact (h.vert_x vs).symm
      · rw [vo]; exact (h.vert_x vs).symm
    unfold Seg.isect
    rw [vert_of_eq T vs, vert_of_eq T vo, hx, deq_self]
    simpa using hpick
  · unfold Seg.isect
    rw [hs.not_vert vs, ho.not_vert vo, hs.line vs, ho.line vo, e]
    simp only [deqm, deq_self, Bool.and_self, Bool.false_eq_true, if_false, if_true, Line.contains]
    have : deq T o.p0.y (o.p0.x * o.slope + (s.p0.y - o.slope * s.p0.x)) = true ∨
        deq T o.p1.y (o.p1.x * o.slope + (s.p0.y - o.slope * s.p0.x)) = true := by
      rcases h with h | h
      · left
        have := h.on_line vs
        rw [this, e, mul_comm]; exact deq_self T _
      · right
        have := h.on_line vs
        rw [this, e, mul_comm]; exact deq_self T _
    rcases this with h | h <;> simp [h, hpick]

/-! ## What `isect` returns is close to both segments -/

/-- Within `δ` of the segment, in both coordinates. -/
def Near (δ : K) (s : Seg K) (p : Pt K) : Prop :=
  ∃ q, OnSeg s.p0 s.p1 q ∧ |p.x - q.x| ≤ δ ∧ |p.y - q.y| ≤ δ

theorem Near.mono {δ δ' : K} (h : δ ≤ δ') {s : Seg K} {p : Pt K} (hn : Near δ s p) : Near δ' s p := by
  obtain ⟨q, h1, h2, h3⟩ := hn
  exact ⟨q, h1, h2.trans h, h3.trans h⟩

theorem Near.shift {δ δ' : K} {s : Seg K} {p p' : Pt K} (hn : Near δ s p) (hx : |p'.x - p.x| ≤ δ')
    (hy : |p'.y - p.y| ≤ δ') : Near (δ' + δ) s p' := by
  obtain ⟨q, h1, h2, h3⟩ := hn
  refine ⟨q, h1, ?_, ?_⟩
  · have := abs_sub_le p'.x p.x q.x; linarith
  · have := abs_sub_le p'.y p.y q.y; linarith

/-- Clamping the parameter of a point of the line. -/
theorem clamp {δ a D t : K} (hd : 0 ≤ δ) (h1 : min a (a + D) - δ ≤ a + t * D) (h2 : a + t * D ≤ max a (a + D) + δ) :
    ∃ t', 0 ≤ t' ∧ t' ≤ 1 ∧ |t - t'| * |D| ≤ δ := by
  rcases lt_or_ge t 0 with ht | ht
  · refine ⟨0, le_refl _, zero_le_one, ?_⟩
    rw [sub_zero, ← abs_mul, abs_le]
    rcases le_total 0 D with h | h
    · rw [min_eq_left (by linarith)] at h1
      have := mul_nonpos_of_nonpos_of_nonneg ht.le h
      constructor <;> linarith
    · rw [max_eq_left (by linarith)] at h2
      have := mul_nonneg_of_nonpos_of_nonpos ht.le h
      constructor <;> linarith
  · rcases lt_or_ge 1 t with ht' | ht'
    · refine ⟨1, zero_le_one, le_refl _, ?_⟩
      rw [← abs_mul, abs_le]
      rcases le_total 0 D with h | h
      · rw [max_eq_right (by linarith)] at h2
        have : 0 ≤ (t - 1) * D := mul_nonneg (by linarith) h
        constructor <;> linarith
      · rw [min_eq_right (by linarith)] at h1
        have : (t - 1) * D ≤ 0 := mul_nonpos_of_nonneg_of_nonpos (by linarith) h
        constructor <;> linarith
    · exact ⟨t, ht, ht', by simpa using hd⟩

theorem max_sub_min (a b : K) : max a b - min a b = |b - a| := by
  rcases le_total a b with h | h
  · rw [max_eq_right h, min_eq_left h, abs_of_nonneg (by linarith)]
  · rw [max_eq_left h, min_eq_right h, abs_of_nonpos (by linarith)]; ring

/-- A point of the line that is `within` the segment is near the segment. -/
theorem near_of_within {T : Tol K} {s : Seg K} {p : Pt K} (t : K) (hx : p.x = s.p0.x + t * (s.p1.x - s.p0.x))
    (hy : p.y = s.p0.y + t * (s.p1.y - s.p0.y)) (hw : s.within T p = true) : Near T.th s p := by
  have key : ∀ D : K, |s.p1.x - s.p0.x| ≤ |D| → |s.p1.y - s.p0.y| ≤ |D| →
      (∃ t', 0 ≤ t' ∧ t' ≤ 1 ∧ |t - t'| * |D| ≤ T.th) → Near T.th s p := by
    rintro D h1 h2 ⟨t', g0, g1, g⟩
    refine ⟨⟨s.p0.x + t' * (s.p1.x - s.p0.x), s.p0.y + t' * (s.p1.y - s.p0.y)⟩, ⟨t', g0, g1, rfl, rfl⟩, ?_, ?_⟩
    · have : p.x - (s.p0.x + t' * (s.p1.x - s.p0.x)) = (t - t') * (s.p1.x - s.p0.x) := by rw [hx]; ring
      simp only [this, abs_mul]
      exact (mul_le_mul_of_nonneg_left h1 (abs_nonneg _)).trans g
    · have : p.y - (s.p0.y + t' * (s.p1.y - s.p0.y)) = (t - t') * (s.p1.y - s.p0.y) := by rw [hy]; ring
      simp only [this, abs_mul]
      exact (mul_le_mul_of_nonneg_left h2 (abs_nonneg _)).trans g
  unfold Seg.within Seg.bbox at hw
  simp only [mk2_min_x, mk2_max_x, mk2_min_y, mk2_max_y, max_sub_min] at hw
  split at hw
  · rename_i hl
    simp only [between, decide_eq_true_eq] at hw
    refine key (s.p1.x - s.p0.x) (le_refl _) (le_of_lt hl) (clamp (a := s.p0.x) T.th_pos.le ?_ ?_)
    · rw [← hx]; simpa using hw.1
    · rw [← hx]; simpa using hw.2
  · rename_i hl
    simp only [between, decide_eq_true_eq] at hw
    refine key (s.p1.y - s.p0.y) (not_lt.1 hl) (le_refl _) (clamp (a := s.p0.y) T.th_pos.le ?_ ?_)
    · rw [← hy]; simpa using hw.1
    · rw [← hy]; simpa using hw.2

/-- The same for a vertical segment. -/
theorem near_of_within_vert {T : Tol K} {s : Seg K} {p : Pt K} (hv : s.p0.x = s.p1.x) (hx : |p.x - s.p0.x| ≤ T.th)
    (hw : s.within T p = true) : Near T.th s p := by
  unfold Seg.within Seg.bbox at hw
  simp only [mk2_min_x, mk2_max_x, mk2_min_y, mk2_max_y, max_sub_min, hv, sub_self, abs_zero] at hw
  rw [if_neg (by simp)] at hw
  simp only [between, decide_eq_true_eq] at hw
  have hle : min s.p0.y s.p1.y ≤ max s.p0.y s.p1.y := min_le_max
  obtain ⟨y, g1, g2, g3⟩ : ∃ y, min s.p0.y s.p1.y ≤ y ∧ y ≤ max s.p0.y s.p1.y ∧ |p.y - y| ≤ T.th := by
    have := T.th_pos
    rcases lt_or_ge p.y (min s.p0.y s.p1.y) with h | h
    · refine ⟨_, le_refl _, hle, ?_⟩
      rw [abs_le]; constructor <;> linarith
    · rcases lt_or_ge (max s.p0.y s.p1.y) p.y with h' | h'
      · refine ⟨_, hle, le_refl _, ?_⟩
        rw [abs_le]; constructor <;> linarith
      · exact ⟨p.y, h, h', by simpa using this.le⟩
  obtain ⟨t, t0, t1, e⟩ := affine_of_mem g1 g2
  refine ⟨⟨s.p0.x, y⟩, ⟨t, t0, t1, by simp [hv], e⟩, hx, g3⟩

/-- A point of the line through a segment that is not vertical. -/
theorem param_of_line {s : Seg K} {p : Pt K} (hv : s.p0.x ≠ s.p1.x)
    (h : p.y = s.slope * p.x + (s.p0.y - s.slope * s.p0.x)) :
    ∃ t, p.x = s.p0.x + t * (s.p1.x - s.p0.x) ∧ p.y = s.p0.y + t * (s.p1.y - s.p0.y) := by
  have hne : s.p1.x - s.p0.x ≠ 0 := sub_ne_zero.2 (Ne.symm hv)
  refine ⟨(p.x - s.p0.x) / (s.p1.x - s.p0.x), ?_, ?_⟩
  · field_simp; ring
  · rw [h, Seg.slope]; field_simp; ring

theorem pick_within {T : Tol K} {s o : Seg K} {p : Pt K} (h : s.pick T o = some p) :
    s.within T p = true ∧ (p = o.p0 ∨ p = o.p1) := by
  unfold Seg.pick at h
  split at h
  · cases h; exact ⟨by assumption, Or.inl rfl⟩
  · split at h
    · cases h; exact ⟨by assumption, Or.inr rfl⟩
    · cases h

/-- What `isect` returns is near both segments. -/
theorem isect_sound {T : Tol K} {s o : Seg K} (hs : Clean T s) (ho : Clean T o) (hm : Sep T s o) {p : Pt K}
    (h : s.isect T o = some p) : Near (2 * T.th) s p ∧ Near (2 * T.th) o p := by
  have hth := T.th_pos
  have h2 : T.th ≤ 2 * T.th := by linarith
  by_cases vs : s.p0.x = s.p1.x <;> by_cases vo : o.p0.x = o.p1.x
  · unfold Seg.isect at h
    rw [vert_of_eq T vs, vert_of_eq T vo] at h
    simp only [Bool.and_self, if_true] at h
    split at h
    · cases h
    · rename_i hd
      simp only [Bool.not_eq_eq_eq_not, Bool.not_true, Bool.not_eq_false, deq, decide_eq_true_eq] at hd
      obtain ⟨hw, he⟩ := pick_within h
      have hx : p.x = o.p0.x := by
        rcases he with e | e
        · rw [e]
        · rw [e, vo]
      have ho' : OnSeg o.p0 o.p1 p := by
        rcases he with e | e
        · rw [e]; exact OnSeg.left _ _
        · rw [e]; exact OnSeg.right _ _
      refine ⟨(near_of_within_vert vs ?_ hw).mono h2, ⟨p, ho', by simp; exact hth.le, by simp; exact hth.le⟩⟩
      rw [hx, abs_sub_comm]; exact hd.le
  · have e1 := vert_of_eq T vs
    have e2 := ho.not_vert vo
    unfold Seg.isect at h
    rw [e1, e2, line_vert T vs, ho.line vo] at h
    simp only [deqm, Line.at, Option.map_some, Bool.and_false, Bool.false_eq_true, if_false, if_true,
      Option.bind_some] at h
    split at h
    · rename_i hw
      rw [Bool.and_eq_true] at hw
      cases h
      obtain ⟨t, g1, g2⟩ := param_of_line (s := o)
        (p := ⟨s.p0.x, o.slope * s.p0.x + (o.p0.y - o.slope * o.p0.x)⟩) vo rfl
      exact ⟨(near_of_within_vert vs (by simp; exact hth.le) hw.1).mono h2, (near_of_within t g1 g2 hw.2).mono h2⟩
    · cases h
  · have e1 := hs.not_vert vs
    have e2 := vert_of_eq T vo
    unfold Seg.isect at h
    rw [e1, e2, line_vert T vo, hs.line vs] at h
    simp only [deqm, Line.at, Option.map_some, Bool.and_true, Bool.false_eq_true, if_false, if_true,
      Option.bind_some] at h
    split at h
    · rename_i hw
      rw [Bool.and_eq_true] at hw
      cases h
      obtain ⟨t, g1, g2⟩ := param_of_line (s := s)
        (p := ⟨o.p0.x, s.slope * o.p0.x + (s.p0.y - s.slope * s.p0.x)⟩) vs rfl
      exact ⟨(near_of_within t g1 g2 hw.1).mono h2, (near_of_within_vert vo (by simp; exact hth.le) hw.2).mono h2⟩
    · cases h
  · have e1 := hs.not_vert vs
    have e2 := ho.not_vert vo
    unfold Seg.isect at h
    rw [e1, e2, hs.line vs, ho.line vo] at h
    rcases hm vs vo with e | hne
    · simp only [deqm, e, deq_self, Bool.and_self, Bool.false_eq_true, if_false, if_true] at h
      split at h
      · cases h
      · rename_i hc
        obtain ⟨hw, he⟩ := pick_within h
        have ho' : OnSeg o.p0 o.p1 p := by
          rcases he with e | e
          · rw [e]; exact OnSeg.left _ _
          · rw [e]; exact OnSeg.right _ _
        refine ⟨?_, ⟨p, ho', by simp; exact hth.le, by simp; exact hth.le⟩⟩
        -- the vertical offset of the two lines
        set c := s.p0.y - o.slope * s.p0.x with hcdef
        have l0 : o.p0.y = o.slope * o.p0.x + (o.p0.y - o.slope * o.p0.x) := by ring
        have l1 : o.p1.y = o.slope * o.p1.x + (o.p0.y - o.slope * o.p0.x) := (OnSeg.right o.p0 o.p1).on_line vo
        have hoff : |o.p0.y - o.slope * o.p0.x - c| < T.th := by
          simp only [Line.contains, deq, Bool.and_eq_true, Bool.not_eq_eq_eq_not, Bool.not_true, decide_eq_false_iff_not,
            not_and_or, not_not] at hc
          rcases hc with h | h
          · have : o.p0.y - (o.p0.x * o.slope + c) = o.p0.y - o.slope * o.p0.x - c := by ring
            rwa [this] at h
          · have : o.p1.y - (o.p1.x * o.slope + c) = o.p0.y - o.slope * o.p0.x - c := by rw [l1]; ring
            rwa [this] at h
        set δ := o.p0.y - o.slope * o.p0.x - c with hδ
        have hp : p.y = o.slope * p.x + c + δ := by
          have := ho'.on_line vo
          rw [this, hδ]; ring
        have hD : s.p1.x - s.p0.x ≠ 0 := sub_ne_zero.2 (Ne.symm vs)
        have hsl : s.p1.y - s.p0.y = o.slope * (s.p1.x - s.p0.x) := by
          rw [← e, Seg.slope]; field_simp
        -- move `p` onto the line of `s`, leaving the coordinate that `within` looks at
        have hw' := hw
        unfold Seg.within Seg.bbox at hw'
        simp only [mk2_min_x, mk2_max_x, mk2_min_y, mk2_max_y, max_sub_min] at hw'
        have e2th : 2 * T.th = T.th + T.th := by ring
        rw [e2th]
        by_cases hl : |s.p1.x - s.p0.x| > |s.p1.y - s.p0.y|
        · obtain ⟨t, g1, g2⟩ := param_of_line (s := s) (p := ⟨p.x, s.slope * p.x + (s.p0.y - s.slope * s.p0.x)⟩) vs rfl
          refine Near.shift (near_of_within t g1 g2 ?_) (by simp; exact hth.le) ?_
          · unfold Seg.within Seg.bbox
            simp only [mk2_min_x, mk2_max_x, mk2_min_y, mk2_max_y, max_sub_min]
            rw [if_pos hl] at hw' ⊢
            exact hw'
          · have : p.y - (s.slope * p.x + (s.p0.y - s.slope * s.p0.x)) = δ := by rw [hp, e, hcdef]; ring
            simp only [this]; exact hoff.le
        · have hm1 : 1 ≤ |o.slope| := by
            rw [not_lt, hsl, abs_mul] at hl
            have : 0 < |s.p1.x - s.p0.x| := abs_pos.2 hD
            by_contra hlt
            rw [not_le] at hlt
            nlinarith
          have hm0 : o.slope ≠ 0 := by
            intro h0; rw [h0, abs_zero] at hm1; linarith
          obtain ⟨t, g1, g2⟩ := param_of_line (s := s) (p := ⟨p.x + δ / o.slope, p.y⟩) vs (by
            show p.y = s.slope * (p.x + δ / o.slope) + (s.p0.y - s.slope * s.p0.x)
            rw [hp, e, hcdef]; field_simp; ring)
          refine Near.shift (near_of_within t g1 g2 ?_) ?_ (by simp; exact hth.le)
          · unfold Seg.within Seg.bbox
            simp only [mk2_min_x, mk2_max_x, mk2_min_y, mk2_max_y, max_sub_min]
            rw [if_neg hl] at hw' ⊢
            exact hw'
          · have : p.x - (p.x + δ / o.slope) = -(δ / o.slope) := by ring
            simp only [this, abs_neg, abs_div]
            rw [div_le_iff₀ (by linarith)]
            nlinarith
    · have hd := deq_of_ge hne
      simp only [deqm, hd, Line.isect, Bool.and_self, Bool.false_eq_true, if_false, Option.bind_some] at h
      split at h
      · rename_i hw
        rw [Bool.and_eq_true] at hw
        cases h
        have hne' : s.slope - o.slope ≠ 0 := by
          intro h0; rw [h0, abs_zero] at hne; linarith
        obtain ⟨t, g1, g2⟩ := param_of_line (s := s)
          (p := ⟨(o.p0.y - o.slope * o.p0.x - (s.p0.y - s.slope * s.p0.x)) / (s.slope - o.slope),
            s.slope * ((o.p0.y - o.slope * o.p0.x - (s.p0.y - s.slope * s.p0.x)) / (s.slope - o.slope)) +
              (s.p0.y - s.slope * s.p0.x)⟩) vs rfl
        obtain ⟨t', g1', g2'⟩ := param_of_line (s := o)
          (p := ⟨(o.p0.y - o.slope * o.p0.x - (s.p0.y - s.slope * s.p0.x)) / (s.slope - o.slope),
            s.slope * ((o.p0.y - o.slope * o.p0.x - (s.p0.y - s.slope * s.p0.x)) / (s.slope - o.slope)) +
              (s.p0.y - s.slope * s.p0.x)⟩) vo (by simp only []; field_simp; ring)
        exact ⟨(near_of_within t g1 g2 hw.1).mono h2, (near_of_within t' g1' g2' hw.2).mono h2⟩
      · cases h

/-- `hits` is `isect` for segments that touch. -/
theorem hits_of_isect {T : Tol K} {s o : Seg K} (hm : Meet s o) (h : (s.isect T o).isSome) : s.hits T o = true := by
  obtain ⟨q, h1, h2⟩ := hm
  unfold Seg.hits
  split
  · exact h
  · rw [h, Bool.and_true]
    exact hits_of_mem h1.mem h2.mem

theorem isect_of_hits {T : Tol K} {s o : Seg K} (h : s.hits T o = true) : (s.isect T o).isSome := by
  unfold Seg.hits at h
  split at h
  · exact h
  · rw [Bool.and_eq_true] at h; exact h.2

end Verif.Geom
