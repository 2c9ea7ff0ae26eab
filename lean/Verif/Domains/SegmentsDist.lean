import Verif.Domains.SegmentsThms
import Mathlib.Algebra.BigOperators.Group.List.Basic

/-!
# Model of the estimate of the number of operators of the segments domain (segments/segments.cc)

As in `Segments`: `double` values are real numbers, and the geometry is a parameter.
-/

namespace Verif.Segments

open Verif.Search

variable {n : Nat} {G : Geo} {I : Inst n G}

/-- segments.cc:391-400: the estimate for a segment; the coordinates are converted to `double`, the difference of the
rotations is an `unsigned int` that is converted to `int`. -/
noncomputable def segd (I : Inst n G) (goal p : Pose) : Outcome ℝ :=
  let dx : ℝ := |(goal.x : ℝ) - p.x|
  let dy : ℝ := |(goal.y : ℝ) - p.y|
  open Classical in
  let m : ℝ := if dx > dy then dx else dy
  (wrapind (toI ((goal.rot : Int) - p.rot)) (toI I.nangles)).bind fun a =>
  (wrapind (toI ((p.rot : Int) - goal.rot)) (toI I.nangles)).bind fun b =>
  .ok (m + ((if a < b then a else b : Int) : ℝ))

/-- segments.cc:388-401, the loop of `d`. -/
noncomputable def dloop (I : Inst n G) (s : State n G) : List (Fin n) → ℝ → Outcome ℝ
  | [], d => .ok d
  | i :: is, d =>
    if s.poses i = (I.segs i).goal then dloop I s is d
    else (segd I (I.segs i).goal (s.poses i)).bind fun v => dloop I s is (d + v)

/-- segments.cc:384-404 `d` -/
noncomputable def d (I : Inst n G) (s : State n G) : Outcome ℝ :=
  if s.nleft = 0 then .ok 0 else dloop I s (List.finRange n) 0

/-! ## Specification -/

/-- How many steps a pose is from another one: king's moves and turns. -/
def steps (m : Nat) (g p : Pose) : Int := max |(g.x : Int) - p.x| |(g.y : Int) - p.y| + circ m g.rot p.rot

/-! ## Lemmas -/

theorem circ_nonneg {m : Nat} (hm : 0 < m) (a b : Nat) : 0 ≤ circ m a b := by
  unfold circ
  exact le_min (Int.emod_nonneg _ (by omega)) (Int.emod_nonneg _ (by omega))

theorem circ_eq_zero {m a b : Nat} (ha : a < m) (hb : b < m) (h : circ m a b = 0) : a = b := by
  unfold circ at h
  have h1 : ((a : Int) - b) % m = 0 ∨ ((b : Int) - a) % m = 0 := by omega
  rcases h1 with h1 | h1
  · obtain ⟨k, hk⟩ := Int.dvd_of_emod_eq_zero h1
    have : k = 0 := by
      by_contra hne
      rcases lt_or_gt_of_ne hne with h | h <;> nlinarith
    subst this; omega
  · obtain ⟨k, hk⟩ := Int.dvd_of_emod_eq_zero h1
    have : k = 0 := by
      by_contra hne
      rcases lt_or_gt_of_ne hne with h | h <;> nlinarith
    subst this; omega

theorem steps_nonneg {m : Nat} (hm : 0 < m) (g p : Pose) : 0 ≤ steps m g p := by
  have := circ_nonneg hm g.rot p.rot
  have h := abs_nonneg ((g.x : Int) - p.x)
  unfold steps
  omega

theorem steps_self {m : Nat} (g : Pose) : steps m g g = 0 := by
  unfold steps; rw [circ_self]; simp

theorem steps_eq_zero {m : Nat} {g p : Pose} (hg : g.rot < m) (hp : p.rot < m) (h : steps m g p = 0) : p = g := by
  have h1 := circ_nonneg (show 0 < m by omega) g.rot p.rot
  unfold steps at h
  have c1 := abs_cases ((g.x : Int) - p.x)
  have c2 := abs_cases ((g.y : Int) - p.y)
  have e := circ_eq_zero hg hp (by omega)
  cases g; cases p
  simp only [Pose.mk.injEq] at *
  omega

theorem segd_ok (hI : InstOk I) (i : Fin n) {p : Pose} (hr : p.rot < I.nangles) :
    segd I (I.segs i).goal p = .ok ((steps I.nangles (I.segs i).goal p : Int) : ℝ) := by
  obtain ⟨h1, -, -⟩ := hI.goal i
  have h4 := hI.small
  have h5 := hI.pos
  unfold segd steps circ
  dsimp only
  rw [toI_small (by omega) (by omega), toI_small (z := (I.nangles : Int)) (by omega) (by omega),
    toI_small (by omega) (by omega), wrapind_pos (by omega), wrapind_pos (by omega), Outcome.bind_ok, Outcome.bind_ok]
  congr 1
  have e3 : ∀ a b : Int, (if a < b then a else b) = min a b := by intro a b; split <;> omega
  rw [e3]
  push_cast
  congr 1
  split
  · rename_i h; rw [max_eq_left (le_of_lt h)]
  · rename_i h; rw [max_eq_right (not_lt.1 h)]

theorem dloop_ok (hI : InstOk I) {s : State n G} (hs : StOk I s) : ∀ (l : List (Fin n)) (v : Int),
    dloop I s l (v : ℝ) = .ok ((v + (l.map fun i => steps I.nangles (I.segs i).goal (s.poses i)).sum : Int) : ℝ)
  | [], v => by simp [dloop]
  | i :: is, v => by
    rw [dloop]
    by_cases h : s.poses i = (I.segs i).goal
    · rw [if_pos h, dloop_ok hI hs is v, List.map_cons, List.sum_cons, h, steps_self, zero_add]
    · rw [if_neg h, segd_ok hI i (hs.rot i), Outcome.bind_ok, ← Int.cast_add, dloop_ok hI hs is, List.map_cons,
        List.sum_cons, add_assoc]

/-! ## How an operator changes the distances

Coordinates are numbers modulo 2^32: the distance on the circle never changes by more than one. -/

theorem circ_step0 {m g r : Nat} (hm : 0 < m) {d : Int} (hd : -1 ≤ d ∧ d ≤ 1) (hr : r < m) :
    circ m g r ≤ 1 + circ m g (((r : Int) + d) % m).toNat := by
  by_cases h : d = 0
  · subst h
    rw [add_zero, Int.emod_eq_of_lt (by omega) (by omega), Int.toNat_natCast]
    omega
  · exact circ_step hm (by omega)

theorem circ_near {a b : Nat} (h : |(a : Int) - b| ≤ 2 ^ 31) : circ (2 ^ 32) a b = |(a : Int) - b| := by
  unfold circ
  have c := abs_cases ((a : Int) - b)
  push_cast
  omega

/-- The distance with coordinates modulo 2^32. -/
def tor (m : Nat) (g p : Pose) : Int := max (circ (2 ^ 32) g.x p.x) (circ (2 ^ 32) g.y p.y) + circ m g.rot p.rot

/-- The coordinates of two poses are no more than 2^31 apart. -/
def Near (g p : Pose) : Prop := |(g.x : Int) - p.x| ≤ 2 ^ 31 ∧ |(g.y : Int) - p.y| ≤ 2 ^ 31

theorem tor_near {m : Nat} {g p : Pose} (h : Near g p) : tor m g p = steps m g p := by
  unfold tor steps
  rw [circ_near h.1, circ_near h.2]

theorem tor_step (hI : InstOk I) {o : Oper} (ho : Legal n o) (g : Pose) {p : Pose} (hr : p.rot < I.nangles)
    (hx : p.x < 2 ^ 32) (hy : p.y < 2 ^ 32) : tor I.nangles g p ≤ 1 + tor I.nangles g (posed I p o) := by
  rcases (legal_iff.1 ho).2 with hl | hl
  · have := circ_step0 (g := g.rot) hI.pos (d := o.delta) (by omega) hr
    unfold tor posed
    rw [hl.1]
    dsimp only
    omega
  · have h1 := circ_step0 (m := 2 ^ 32) (g := g.x) (by norm_num) hl.2.1 hx
    have h2 := circ_step0 (m := 2 ^ 32) (g := g.y) (by norm_num) hl.2.2.1 hy
    unfold tor posed
    rw [hl.1]
    dsimp only
    have e : ∀ z : Int, (z % ((2 ^ 32 : Nat) : Int)).toNat = toU z := fun z => by unfold toU; norm_num
    rw [e] at h1 h2
    omega

/-- The sum of the distances with coordinates modulo 2^32. -/
def tors (I : Inst n G) (s : State n G) : Int := ∑ i, tor I.nangles (I.segs i).goal (s.poses i)

theorem tors_step (hI : InstOk I) {s : State n G} (hs : StOk I s) {o : Oper} (ho : o ∈ (dom I).ops s) :
    tors I s ≤ 1 + tors I ((dom I).app s o) ∧ tors I ((dom I).app s o) ≤ 1 + tors I s := by
  have hl := ((mem_ops hI hs).1 ho).1
  rw [app_eq hI hs hl]
  unfold tors
  rw [succ_poses, ← Finset.add_sum_erase _ _ (Finset.mem_univ (⟨o.seg, hl.lt⟩ : Fin n)),
    ← Finset.add_sum_erase Finset.univ (fun i => tor I.nangles (I.segs i).goal (Function.update s.poses _ _ i))
      (Finset.mem_univ (⟨o.seg, hl.lt⟩ : Fin n)), Function.update_self]
  have h1 := tor_step hI hl (I.segs ⟨o.seg, hl.lt⟩).goal (hs.rot ⟨o.seg, hl.lt⟩) (hs.u32 _).1 (hs.u32 _).2
  have h3 := (succ_stOk (o := o) hI hs ⟨o.seg, hl.lt⟩).u32 ⟨o.seg, hl.lt⟩
  rw [succ_poses, Function.update_self] at h3
  have h2 := tor_step hI hl.reverse.1 (I.segs ⟨o.seg, hl.lt⟩).goal (posed_rot hI (o := o) _ (hs.rot ⟨o.seg, hl.lt⟩)) h3.1 h3.2
  rw [posed_reverse hI hl (hs.rot _) (hs.u32 _)] at h2
  have e : ∑ x ∈ Finset.univ.erase (⟨o.seg, hl.lt⟩ : Fin n), tor I.nangles (I.segs x).goal
      (Function.update s.poses ⟨o.seg, hl.lt⟩ (posed I (s.poses ⟨o.seg, hl.lt⟩) o) x) =
      ∑ x ∈ Finset.univ.erase (⟨o.seg, hl.lt⟩ : Fin n), tor I.nangles (I.segs x).goal (s.poses x) := by
    refine Finset.sum_congr rfl fun j hj => ?_
    rw [Function.update_of_ne (Finset.ne_of_mem_erase hj)]
  rw [e]
  omega

theorem tors_goal {s : State n G} (h : ∀ i, s.poses i = (I.segs i).goal) : tors I s = 0 := by
  unfold tors
  refine Finset.sum_eq_zero fun i _ => ?_
  rw [h i]
  unfold tor
  rw [circ_self, circ_self, circ_self]
  rfl

theorem tors_near {s : State n G} (h : ∀ i, Near (I.segs i).goal (s.poses i)) :
    tors I s = ∑ i, steps I.nangles (I.segs i).goal (s.poses i) :=
  Finset.sum_congr rfl fun i _ => tor_near (h i)

/-- No plan has fewer operators than the sum of the distances. -/
theorem tors_le (hI : InstOk I) {s : State n G} {os : List Oper} {ss : List (State n G)} {c : ℝ}
    (hp : Plan (dom I) s os ss c) {t : State n G} (hl : (s :: ss).getLast? = some t) (hg : (dom I).goal t = true)
    (hs : StOk I s) : tors I s ≤ os.length := by
  induction hp with
  | nil s =>
    rw [List.getLast?_singleton] at hl
    obtain rfl := Option.some.inj hl
    rw [tors_goal ((goal_iff hs).1 hg)]
    simp
  | @cons s o os ss c ho hp ih =>
    rw [List.getLast?_cons_cons] at hl
    have h1 := ih hl (app_stOk hI _ hs _ ho)
    have h2 := (tors_step hI hs ho).1
    rw [List.length_cons]
    push_cast
    omega

/-! ## Without obstacles -/

theorem circ_toward {m g r : Nat} (hg : g < m) (hr : r < m) (h : g ≠ r) :
    ∃ d : Int, (d = -1 ∨ d = 1) ∧ circ m g (((r : Int) + d) % m).toNat = circ m g r - 1 := by
  have hm' : (0 : Int) < m := by omega
  have c : ∀ z : Int, -(m : Int) ≤ z → z < 2 * m →
      (0 ≤ z ∧ z < m ∧ z % m = z) ∨ (z < 0 ∧ z % m = z + m) ∨ (m ≤ z ∧ z % m = z - m) := by
    intro z h1 h2
    by_cases ha : z < 0
    · exact Or.inr (Or.inl ⟨ha, by rw [← Int.add_emod_right, Int.emod_eq_of_lt (by omega) (by omega)]⟩)
    · by_cases hb : z < m
      · exact Or.inl ⟨by omega, hb, Int.emod_eq_of_lt (by omega) hb⟩
      · exact Or.inr (Or.inr ⟨by omega, by rw [← Int.sub_emod_right, Int.emod_eq_of_lt (by omega) (by omega)]⟩)
  unfold circ
  have a1 := c ((g : Int) - r) (by omega) (by omega)
  have a2 := c ((r : Int) - g) (by omega) (by omega)
  by_cases hle : ((g : Int) - r) % m ≤ ((r : Int) - g) % m
  · refine ⟨1, Or.inr rfl, ?_⟩
    rw [Int.toNat_of_nonneg (Int.emod_nonneg _ (by omega)), Int.sub_emod_emod, Int.emod_sub_emod]
    have a3 := c ((g : Int) - ((r : Int) + 1)) (by omega) (by omega)
    have a4 := c ((r : Int) + 1 - g) (by omega) (by omega)
    omega
  · refine ⟨-1, Or.inl rfl, ?_⟩
    rw [Int.toNat_of_nonneg (Int.emod_nonneg _ (by omega)), Int.sub_emod_emod, Int.emod_sub_emod]
    have a3 := c ((g : Int) - ((r : Int) + -1)) (by omega) (by omega)
    have a4 := c ((r : Int) + -1 - g) (by omega) (by omega)
    omega

/-- A segment that is away from its goal can be brought one step closer, if nothing is in the way. -/
theorem steps_toward (hI : InstOk I) (i : Fin n) {p : Pose} (hr : p.rot < I.nangles) (hp : small p)
    (hne : p ≠ (I.segs i).goal) : ∃ o, Legal n o ∧ o.seg = i.val ∧ small (posed I p o) ∧
      steps I.nangles (I.segs i).goal (posed I p o) = steps I.nangles (I.segs i).goal p - 1 := by
  obtain ⟨g1, g2, g3⟩ := hI.goal i
  unfold small at hp ⊢
  generalize (I.segs i).goal = g at *
  by_cases hxy : g.x = p.x ∧ g.y = p.y
  · have hrot : g.rot ≠ p.rot := by
      intro h
      apply hne
      cases p; cases g
      simp only [Pose.mk.injEq] at *
      omega
    obtain ⟨d, hd, e⟩ := circ_toward g1 hr hrot
    refine ⟨⟨.rotate, i, d, 0⟩, legal_iff.2 ⟨i.isLt, Or.inl ⟨rfl, hd, rfl⟩⟩, rfl, hp, ?_⟩
    unfold steps posed
    dsimp only
    rw [e]
    omega
  · have sgn : ∀ a b : Nat, ∃ z : Int, (a < b ∧ z = -1) ∨ (a = b ∧ z = 0) ∨ (b < a ∧ z = 1) := fun a b => by
      rcases lt_trichotomy a b with h | h | h
      · exact ⟨-1, Or.inl ⟨h, rfl⟩⟩
      · exact ⟨0, Or.inr (Or.inl ⟨h, rfl⟩)⟩
      · exact ⟨1, Or.inr (Or.inr ⟨h, rfl⟩)⟩
    obtain ⟨dx, hdx⟩ := sgn g.x p.x
    obtain ⟨dy, hdy⟩ := sgn g.y p.y
    have ex : (toU ((p.x : Int) + dx) : Int) = p.x + dx := by unfold toU; omega
    have ey : (toU ((p.y : Int) + dy) : Int) = p.y + dy := by unfold toU; omega
    refine ⟨⟨.move, i, dx, dy⟩, legal_iff.2 ⟨i.isLt, Or.inr ⟨rfl, ?_, ?_, ?_⟩⟩, rfl, ?_, ?_⟩
    · dsimp only; omega
    · dsimp only; omega
    · dsimp only; omega
    · unfold posed; dsimp only; omega
    · unfold steps posed
      dsimp only
      rw [ex, ey]
      have c1 := abs_cases ((g.x : Int) - p.x)
      have c2 := abs_cases ((g.y : Int) - p.y)
      have c3 := abs_cases ((g.x : Int) - (p.x + dx))
      have c4 := abs_cases ((g.y : Int) - (p.y + dy))
      omega

/-- If no sweep hits anything, there is a plan with as many operators as the sum of the distances. -/
theorem steps_plan (hI : InstOk I) (hG : ∀ w l, G.hits w l = false) : ∀ (k : Nat) (s : State n G), StOk I s →
    (∀ i, small (s.poses i)) → ∑ i, steps I.nangles (I.segs i).goal (s.poses i) = (k : Int) →
    ∃ os ss c t, Plan (dom I) s os ss c ∧ (s :: ss).getLast? = some t ∧ (dom I).goal t = true ∧ os.length = k
  | 0, s, hs, _, h => by
    have h0 := (Finset.sum_eq_zero_iff_of_nonneg fun i _ => steps_nonneg hI.pos _ _).1 h
    refine ⟨[], [], 0, s, .nil s, rfl, (goal_iff hs).2 fun i => ?_, rfl⟩
    exact steps_eq_zero (hI.goal i).1 (hs.rot i) (h0 i (Finset.mem_univ i))
  | k + 1, s, hs, hsm, h => by
    have hne : ∃ i, s.poses i ≠ (I.segs i).goal := by
      by_contra hc
      push Not at hc
      rw [Finset.sum_eq_zero fun i _ => by rw [hc i, steps_self]] at h
      omega
    obtain ⟨i, hi⟩ := hne
    obtain ⟨o, hl, hseg, hsm', hst⟩ := steps_toward hI i (hs.rot i) (hsm i) hi
    have hei : (⟨o.seg, hl.lt⟩ : Fin n) = i := Fin.ext hseg
    have ho : o ∈ (dom I).ops s := by
      rw [mem_ops hI hs]
      refine ⟨hl, ?_⟩
      unfold free
      rw [dif_pos hl.lt]
      simp [hG]
    have hap := app_eq hI hs hl
    rw [hei] at hap
    have hs' := app_stOk hI _ hs _ ho
    obtain ⟨os, ss, c, t, h1, h2, h3, h4⟩ := steps_plan hI hG k ((dom I).app s o) hs' (fun j => by
      rw [hap, succ_poses]
      by_cases e : j = i
      · subst e; rw [Function.update_self]; exact hsm'
      · rw [Function.update_of_ne e]; exact hsm j) (by
      rw [hap, succ_poses, ← Finset.add_sum_erase _ _ (Finset.mem_univ i), Function.update_self, hst]
      rw [← Finset.add_sum_erase _ _ (Finset.mem_univ i)] at h
      have e : ∑ x ∈ Finset.univ.erase i, steps I.nangles (I.segs x).goal
          (Function.update s.poses i (posed I (s.poses i) o) x) =
          ∑ x ∈ Finset.univ.erase i, steps I.nangles (I.segs x).goal (s.poses x) := by
        refine Finset.sum_congr rfl fun j hj => ?_
        rw [Function.update_of_ne (Finset.ne_of_mem_erase hj)]
      rw [e]
      push_cast at h
      omega)
    refine ⟨o :: os, (dom I).app s o :: ss, _, t, .cons ho h1, ?_, h3, by rw [List.length_cons, h4]⟩
    rw [List.getLast?_cons_cons]; exact h2

end Verif.Segments
