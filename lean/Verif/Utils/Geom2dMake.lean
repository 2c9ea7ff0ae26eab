import Verif.Utils.Geom2dPoly
import Mathlib.Data.List.Perm.Basic

/-!
# Lemmas about the construction of polygons
-/

namespace Verif.Geom

variable {K : Type} [Field K] [LinearOrder K] [IsStrictOrderedRing K]

/-! ## Straight vertices -/

theorem straight_iff (u v w : Pt K) : straight u v w = true ↔
    (w.x - v.x) * (v.y - u.y) - (v.x - u.x) * (w.y - v.y) = 0 ∧
      0 ≤ (w.x - v.x) * (v.x - u.x) + (w.y - v.y) * (v.y - u.y) := by
  simp [straight]

/-- A straight vertex lies between its neighbours. -/
theorem straight_onSeg {u v w : Pt K} (h : straight u v w = true) : OnSeg u w v := by
  rw [straight_iff] at h
  obtain ⟨hc, hd⟩ := h
  set a := v.x - u.x with ha
  set b := v.y - u.y with hb
  set c := w.x - v.x with hc'
  set d := w.y - v.y with hd'
  have ex : w.x - u.x = a + c := by rw [ha, hc']; ring
  have ey : w.y - u.y = b + d := by rw [hb, hd']; ring
  by_cases hz : (a + c) * (a + c) + (b + d) * (b + d) = 0
  · have z1 : a + c = 0 := by
      have := mul_self_nonneg (a + c); have := mul_self_nonneg (b + d)
      exact mul_self_eq_zero.1 (by linarith)
    have z2 : b + d = 0 := by
      have := mul_self_nonneg (a + c); have := mul_self_nonneg (b + d)
      exact mul_self_eq_zero.1 (by linarith)
    have ec : c = -a := by linarith
    have ed : d = -b := by linarith
    rw [ec, ed] at hd
    have a0 : a = 0 := by
      have := mul_self_nonneg a; have := mul_self_nonneg b
      exact mul_self_eq_zero.1 (by linarith)
    have b0 : b = 0 := by
      have := mul_self_nonneg a; have := mul_self_nonneg b
      exact mul_self_eq_zero.1 (by linarith)
    exact ⟨0, le_refl _, zero_le_one, by linarith, by linarith⟩
  · have hpos : 0 < (a + c) * (a + c) + (b + d) * (b + d) := by
      have := mul_self_nonneg (a + c); have := mul_self_nonneg (b + d)
      exact lt_of_le_of_ne (by linarith) (Ne.symm hz)
    refine ⟨(a * (a + c) + b * (b + d)) / ((a + c) * (a + c) + (b + d) * (b + d)), ?_, ?_, ?_, ?_⟩
    · refine div_nonneg ?_ hpos.le
      have := mul_self_nonneg a; have := mul_self_nonneg b
      linarith
    · rw [div_le_one hpos]
      have := mul_self_nonneg c; have := mul_self_nonneg d
      linarith
    · rw [ex]
      have : v.x = u.x + a := by rw [ha]; ring
      have e : (a * (a + c) + b * (b + d)) * (a + c) = a * ((a + c) * (a + c) + (b + d) * (b + d)) := by
        linear_combination (b + d) * hc
      rw [this, div_mul_eq_mul_div, e, mul_div_assoc, div_self hz, mul_one]
    · rw [ey]
      have : v.y = u.y + b := by rw [hb]; ring
      have e : (a * (a + c) + b * (b + d)) * (b + d) = b * ((a + c) * (a + c) + (b + d) * (b + d)) := by
        linear_combination (-(a + c)) * hc
      rw [this, div_mul_eq_mul_div, e, mul_div_assoc, div_self hz, mul_one]

theorem straight_self (z : Pt K) : straight z z z = true := by simp [straight]

theorem onSeg_self {z v : Pt K} (h : OnSeg z z v) : v = z := by
  obtain ⟨t, _, _, hx, hy⟩ := h
  cases v; cases z
  simp_all

theorem straight_left_eq (u w : Pt K) : straight u u w = true := by simp [straight]
theorem straight_right_eq (u w : Pt K) : straight u w w = true := by simp [straight]

/-- Removing a straight vertex does not make the vertex before it straight. -/
theorem straight_prev {x u v w : Pt K} (h : straight x u v = false) (hv : straight u v w = true) :
    straight x u w = false := by
  by_contra hn
  rw [Bool.not_eq_false] at hn
  obtain ⟨t, t0, t1, ex, ey⟩ := straight_onSeg hv
  rw [Bool.eq_false_iff] at h
  apply h
  rw [straight_iff] at hn ⊢
  obtain ⟨h1, h2⟩ := hn
  rw [ex, ey]
  constructor
  · linear_combination t * h1
  · have := mul_nonneg t0 h2
    linarith

/-- Nor the one after it. -/
theorem straight_next {u v w y : Pt K} (h : straight v w y = false) (hv : straight u v w = true) :
    straight u w y = false := by
  by_contra hn
  rw [Bool.not_eq_false] at hn
  obtain ⟨t, t0, t1, ex, ey⟩ := straight_onSeg hv
  rw [Bool.eq_false_iff] at h
  apply h
  rw [straight_iff] at hn ⊢
  obtain ⟨h1, h2⟩ := hn
  rw [ex, ey]
  constructor
  · linear_combination (1 - t) * h1
  · have := mul_nonneg (sub_nonneg.2 t1) h2
    linarith

/-! ## Splitting a side at a vertex -/

theorem onSeg_split {u v w q : Pt K} (h : OnSeg u w v) : OnSeg u w q ↔ OnSeg u v q ∨ OnSeg v w q := by
  constructor
  · intro hq
    obtain ⟨t, t0, t1, ex, ey⟩ := h
    obtain ⟨r, r0, r1, qx, qy⟩ := hq
    rcases le_total r t with hrt | hrt
    · left
      rcases eq_or_lt_of_le t0 with g | g
      · have : r = 0 := by linarith
        exact ⟨0, le_refl _, zero_le_one, by rw [qx, this]; ring, by rw [qy, this]; ring⟩
      · refine ⟨r / t, div_nonneg r0 g.le, by rw [div_le_one g]; exact hrt, ?_, ?_⟩
        · rw [qx, ex]; field_simp; ring
        · rw [qy, ey]; field_simp; ring
    · right
      rcases eq_or_lt_of_le t1 with g | g
      · have : r = 1 := by linarith
        exact ⟨1, zero_le_one, le_refl _, by rw [qx, this]; ring, by rw [qy, this]; ring⟩
      · have hp : 0 < 1 - t := by linarith
        have hp' := hp.ne'
        refine ⟨(r - t) / (1 - t), div_nonneg (by linarith) hp.le, by rw [div_le_one hp]; linarith, ?_, ?_⟩
        · rw [qx, ex]; field_simp; ring
        · rw [qy, ey]; field_simp; ring
  · rintro (hq | hq)
    · exact (OnSeg.left u w).convex h hq
    · exact h.convex (OnSeg.right u w) hq

theorem rayX_split {p u v w : Pt K} (h : OnSeg u w v) : RayX p u w ↔ ¬ (RayX p u v ↔ RayX p v w) := by
  by_cases hs : Strad p u w
  · obtain ⟨q, hq, hy⟩ := exists_at_y hs.range.1 hs.range.2
    have r1 : RayX p u v ↔ Strad p u v ∧ p.x < q.x := by
      constructor
      · rintro ⟨g, q', h', hy', hx'⟩
        have := at_y_unique hs.ne hq ((onSeg_split h).2 (Or.inl h')) (hy.trans hy'.symm)
        exact ⟨g, by rw [this]; exact hx'⟩
      · rintro ⟨g, hx⟩
        obtain ⟨q', h', hy'⟩ := exists_at_y g.range.1 g.range.2
        have := at_y_unique hs.ne hq ((onSeg_split h).2 (Or.inl h')) (hy.trans hy'.symm)
        exact ⟨g, q', h', hy', by rw [← this]; exact hx⟩
    have r2 : RayX p v w ↔ Strad p v w ∧ p.x < q.x := by
      constructor
      · rintro ⟨g, q', h', hy', hx'⟩
        have := at_y_unique hs.ne hq ((onSeg_split h).2 (Or.inr h')) (hy.trans hy'.symm)
        exact ⟨g, by rw [this]; exact hx'⟩
      · rintro ⟨g, hx⟩
        obtain ⟨q', h', hy'⟩ := exists_at_y g.range.1 g.range.2
        have := at_y_unique hs.ne hq ((onSeg_split h).2 (Or.inr h')) (hy.trans hy'.symm)
        exact ⟨g, q', h', hy', by rw [← this]; exact hx⟩
    rw [rayX_iff hq hy, r1, r2]
    clear r1 r2
    simp only [strad_iff] at hs ⊢
    clear hq hy h
    generalize (p.y ≤ u.y) = A at hs ⊢
    generalize (p.y ≤ v.y) = B at hs ⊢
    generalize (p.y ≤ w.y) = C at hs ⊢
    generalize (p.x < q.x) = D at hs ⊢
    by_cases a : A <;> by_cases b : B <;> by_cases c : C <;> by_cases d : D <;> simp_all
  · have hm := h.mem
    obtain ⟨_, _, m3, m4⟩ := hm
    simp only [mk2_min_y, mk2_max_y] at m3 m4
    have h0 : ¬ RayX p u w := fun g => hs g.strad
    have hs1 : ¬ Strad p u v := by
      rw [strad_iff, not_not] at hs ⊢
      by_cases g : p.y ≤ u.y
      · have : p.y ≤ v.y := (le_min g (hs.1 g)).trans m3
        simp [g, this]
      · have g' : ¬ p.y ≤ w.y := fun e => g (hs.2 e)
        have : ¬ p.y ≤ v.y := by
          rw [not_le] at g g' ⊢
          exact m4.trans_lt (max_lt g g')
        simp [g, this]
    have hs2 : ¬ Strad p v w := by
      rw [strad_iff, not_not] at hs hs1 ⊢
      exact hs1.symm.trans hs
    have h1 : ¬ RayX p u v := fun g => hs1 g.strad
    have h2 : ¬ RayX p v w := fun g => hs2 g.strad
    simp [h0, h1, h2]

/-! ## Removing a vertex -/

theorem chain_append (l : List (Pt K)) (u : Pt K) (r : List (Pt K)) :
    chain (l ++ u :: r) = chain (l ++ [u]) ++ chain (u :: r) := by
  induction l with
  | nil => simp [chain]
  | cons a l ih =>
    cases l with
    | nil => simp [chain]
    | cons b l => simp only [List.cons_append, chain] at ih ⊢; rw [ih]

/-- The closed chain of sides. -/
def cyc (vs : List (Pt K)) (h : vs ≠ []) : List (Seg K) := chain vs ++ [⟨vs.getLast h, vs.head h⟩]

theorem initsides_eq {vs : List (Pt K)} (h : vs ≠ []) : initsides vs = .ok (cyc vs h) := by
  simp [initsides, h, cyc]

/-- Removing a vertex replaces its two sides by one. -/
theorem erase_sides {vs : List (Pt K)} {i : Nat} (hi : i < vs.length) (h2 : 2 ≤ vs.length)
    (hne : vs ≠ []) (hne' : vs.eraseIdx i ≠ []) :
    ∃ rest, (cyc vs hne).Perm (⟨(nbrs vs i hi).1, (nbrs vs i hi).2.1⟩ :: ⟨(nbrs vs i hi).2.1, (nbrs vs i hi).2.2⟩ :: rest) ∧
      (cyc (vs.eraseIdx i) hne').Perm (⟨(nbrs vs i hi).1, (nbrs vs i hi).2.2⟩ :: rest) := by
  by_cases h0 : i = 0
  · subst h0
    match vs, hi, h2, hne, hne' with
    | v :: w :: r, hi, h2, hne, hne' =>
      have e1 : (nbrs (v :: w :: r) 0 hi).1 = (w :: r).getLast (by simp) := by
        simp only [nbrs, if_true]
        rw [List.getLast_eq_getElem]
        simp
      have e2 : (nbrs (v :: w :: r) 0 hi).2.1 = v := by simp [nbrs]
      have e3 : (nbrs (v :: w :: r) 0 hi).2.2 = w := by simp [nbrs]
      refine ⟨chain (w :: r), ?_, ?_⟩
      · rw [e1, e2, e3]
        simp only [cyc, chain, List.getLast_cons_cons, List.head_cons]
        refine (List.perm_append_comm (l₁ := ⟨v, w⟩ :: chain (w :: r))).trans ?_
        simp
      · rw [e1, e3]
        simp only [cyc, List.eraseIdx_zero, List.tail_cons, List.head_cons]
        refine (List.perm_append_comm (l₁ := chain (w :: r))).trans ?_
        simp
  · obtain ⟨l, u, v, r, hvs, hl⟩ : ∃ l u v r, vs = l ++ u :: v :: r ∧ l.length + 1 = i := by
      refine ⟨vs.take (i - 1), vs[i - 1], vs[i], vs.drop (i + 1), ?_, ?_⟩
      · have h1 : vs.drop (i - 1) = vs[i - 1] :: vs.drop i := by
          have := List.drop_eq_getElem_cons (l := vs) (i := i - 1) (by omega)
          rw [this]; congr 2; omega
        have h2 : vs.drop i = vs[i] :: vs.drop (i + 1) := List.drop_eq_getElem_cons hi
        rw [← h2, ← h1, List.take_append_drop]
      · rw [List.length_take]; omega
    subst hvs
    have ev : (l ++ u :: v :: r).eraseIdx i = l ++ u :: r := by
      rw [List.eraseIdx_append_of_length_le (by omega)]
      have : i - l.length = 1 := by omega
      rw [this]; simp
    have e1 : (nbrs (l ++ u :: v :: r) i hi).1 = u := by
      simp only [nbrs, h0, if_false]
      rw [List.getElem_append_right (by omega)]
      have : i - 1 - l.length = 0 := by omega
      simp [this]
    have e2 : (nbrs (l ++ u :: v :: r) i hi).2.1 = v := by
      simp only [nbrs]
      rw [List.getElem_append_right (by omega)]
      have : i - l.length = 1 := by omega
      simp [this]
    have hh : ∀ h, (l ++ u :: v :: r).head h = (l ++ u :: r).head (by simp) := by
      intro h; cases l <;> simp
    have e3 : (nbrs (l ++ u :: v :: r) i hi).2.2 = (r ++ [(l ++ u :: r).head (by simp)]).head (by simp) := by
      simp only [nbrs]
      cases r with
      | nil =>
        have : i = (l ++ [u, v]).length - 1 := by simp; omega
        rw [dif_pos this]
        simp only [List.nil_append, List.head_cons]
        rw [← hh (by simp), List.head_eq_getElem]
      | cons w r =>
        have : i ≠ (l ++ u :: v :: w :: r).length - 1 := by simp; omega
        rw [dif_neg this, List.getElem_append_right (by omega)]
        have : i + 1 - l.length = 2 := by omega
        simp [this]
    rw [e1, e2, e3]
    have step : ∀ (hd : Pt K) (u v : Pt K) (r : List (Pt K)),
        ∃ rest : List (Seg K), chain (u :: v :: r) ++ [⟨(u :: v :: r).getLast (by simp), hd⟩] =
          ⟨u, v⟩ :: ⟨v, (r ++ [hd]).head (by simp)⟩ :: rest ∧
          chain (u :: r) ++ [⟨(u :: r).getLast (by simp), hd⟩] = ⟨u, (r ++ [hd]).head (by simp)⟩ :: rest := by
      intro hd u v r
      cases r with
      | nil => exact ⟨[], by simp [chain], by simp [chain]⟩
      | cons w r => exact ⟨chain (w :: r) ++ [⟨(w :: r).getLast (by simp), hd⟩], by simp [chain], by simp [chain]⟩
    obtain ⟨rest, s1, s2⟩ := step ((l ++ u :: r).head (by simp)) u v r
    have gl1 : ∀ h, (l ++ u :: v :: r).getLast h = (u :: v :: r).getLast (by simp) := fun h =>
      List.getLast_append_of_ne_nil _ (by simp)
    have gl2 : ∀ h, (l ++ u :: r).getLast h = (u :: r).getLast (by simp) := fun h =>
      List.getLast_append_of_ne_nil _ (by simp)
    refine ⟨chain (l ++ [u]) ++ rest, ?_, ?_⟩
    · unfold cyc
      rw [gl1, hh, chain_append, List.append_assoc, s1]
      exact (List.perm_append_comm_assoc _ [_, _] rest).trans (by simp)
    · unfold cyc
      simp only [ev]
      rw [gl2, chain_append, List.append_assoc, s2]
      exact (List.perm_append_comm_assoc _ [_] rest).trans (by simp)

theorem xsum_perm {α : Type} (f : α → Prop) {l r : List α} (h : l.Perm r) : xsum f l ↔ xsum f r := by
  induction h with
  | nil => rfl
  | cons a _ ih => simp only [xsum_cons, ih]
  | swap a b l => simp only [xsum_cons]; tauto
  | trans _ _ ih1 ih2 => exact ih1.trans ih2

/-- The points on the sides. -/
def Bd (ss : List (Seg K)) (q : Pt K) : Prop := ∃ s ∈ ss, OnSeg s.p0 s.p1 q

theorem bd_perm {l r : List (Seg K)} (h : l.Perm r) (q : Pt K) : Bd l q ↔ Bd r q := by
  unfold Bd
  constructor
  · rintro ⟨s, hs, g⟩; exact ⟨s, h.mem_iff.1 hs, g⟩
  · rintro ⟨s, hs, g⟩; exact ⟨s, h.mem_iff.2 hs, g⟩

/-! ## `removecolinear` -/

theorem mem_eraseIdx_nbrs {vs : List (Pt K)} {i : Nat} (hi : i < vs.length) (h2 : 2 ≤ vs.length) :
    (nbrs vs i hi).1 ∈ vs.eraseIdx i ∧ (nbrs vs i hi).2.2 ∈ vs.eraseIdx i := by
  constructor
  · rw [List.mem_eraseIdx_iff_getElem]
    by_cases h : i = 0
    · refine ⟨vs.length - 1, by omega, by omega, ?_⟩
      simp [nbrs, h]
    · refine ⟨i - 1, by omega, by omega, ?_⟩
      simp [nbrs, h]
  · rw [List.mem_eraseIdx_iff_getElem]
    by_cases h : i = vs.length - 1
    · refine ⟨0, by omega, by omega, ?_⟩
      simp only [nbrs, h, dif_pos]
    · refine ⟨i + 1, by omega, by omega, ?_⟩
      simp only [nbrs, h, dif_neg, not_false_eq_true]

theorem mem_iff_eraseIdx {vs : List (Pt K)} {i : Nat} (hi : i < vs.length) {v : Pt K} :
    v ∈ vs ↔ v = vs[i] ∨ v ∈ vs.eraseIdx i := by
  constructor
  · intro h
    obtain ⟨j, hj, e⟩ := List.mem_iff_getElem.1 h
    by_cases hji : j = i
    · subst hji; exact Or.inl e.symm
    · exact Or.inr (List.mem_eraseIdx_iff_getElem.2 ⟨j, hj, hji, e⟩)
  · rintro (h | h)
    · rw [h]; exact List.getElem_mem hi
    · exact List.mem_of_mem_eraseIdx h

theorem two_le {α : Type} {vs : List α} {a b : α} (ha : a ∈ vs) (hb : b ∈ vs) (hab : a ≠ b) : 2 ≤ vs.length := by
  rcases vs with _ | ⟨x, _ | ⟨y, r⟩⟩
  · simp at ha
  · exact absurd ((List.mem_singleton.1 ha).trans (List.mem_singleton.1 hb).symm) hab
  · simp

/-- Two different vertices remain two different vertices. -/
theorem rmcol_distinct (vs : List (Pt K)) (i : Nat) (h : ∃ a ∈ vs, ∃ b ∈ vs, a ≠ b) :
    ∃ a ∈ rmcol vs i, ∃ b ∈ rmcol vs i, a ≠ b := by
  fun_induction rmcol vs i with
  | case1 vs i hi n hst ih =>
    refine ih ?_
    by_contra hn
    push Not at hn
    obtain ⟨a, ha, b, hb, hab⟩ := h
    have h2 : 2 ≤ vs.length := two_le ha hb hab
    obtain ⟨m1, m2⟩ := mem_eraseIdx_nbrs hi h2
    have huw := hn _ m1 _ m2
    have hv : vs[i] = (nbrs vs i hi).1 := by
      have := straight_onSeg hst
      have h3 : OnSeg (nbrs vs i hi).1 (nbrs vs i hi).2.2 vs[i] := this
      rw [← huw] at h3
      exact onSeg_self h3
    have all : ∀ x ∈ vs, x = (nbrs vs i hi).1 := by
      intro x hx
      rcases (mem_iff_eraseIdx hi).1 hx with e | e
      · rw [e, hv]
      · exact hn _ e _ m1
    exact hab ((all a ha).trans (all b hb).symm)
  | case2 vs i hi n hst ih => exact ih h
  | case3 vs i hi => exact h

theorem rmcol_sub (vs : List (Pt K)) (i : Nat) : (rmcol vs i).Sublist vs := by
  fun_induction rmcol vs i with
  | case1 vs i hi n hst ih => exact ih.trans (List.eraseIdx_sublist _ _)
  | case2 vs i hi n hst ih => exact ih
  | case3 vs i hi => exact List.Sublist.refl _

/-- If all vertices are the same point they are all removed. -/
theorem rmcol_same (z : Pt K) : ∀ n : Nat, rmcol (List.replicate n z) 0 = []
  | 0 => by rw [rmcol]; simp
  | n + 1 => by
    have hn : ∀ h, nbrs (List.replicate (n + 1) z) 0 h = (z, z, z) := by
      intro h
      simp [nbrs]
    rw [rmcol, dif_pos (by simp)]
    simp only [hn, straight_self, if_true]
    have : (List.replicate (n + 1) z).eraseIdx 0 = List.replicate n z := by simp [List.replicate_succ]
    rw [this, rmcol_same z n]

/-- Removing straight vertices changes neither the points on the sides nor the parity. -/
theorem rmcol_spec (vs : List (Pt K)) (i : Nat) (h : ∃ a ∈ vs, ∃ b ∈ vs, a ≠ b) (hne : vs ≠ []) (hne' : rmcol vs i ≠ []) :
    (∀ q, Bd (cyc (rmcol vs i) hne') q ↔ Bd (cyc vs hne) q) ∧ (∀ p, Odd (cyc (rmcol vs i) hne') p ↔ Odd (cyc vs hne) p) := by
  fun_induction rmcol vs i with
  | case1 vs i hi n hst ih =>
    have h2 : 2 ≤ vs.length := by
      obtain ⟨a, ha, b, hb, hab⟩ := h
      exact two_le ha hb hab
    have hd : ∃ a ∈ vs.eraseIdx i, ∃ b ∈ vs.eraseIdx i, a ≠ b := by
      by_contra hn
      push Not at hn
      obtain ⟨a, ha, b, hb, hab⟩ := h
      obtain ⟨m1, m2⟩ := mem_eraseIdx_nbrs hi h2
      have huw := hn _ m1 _ m2
      have hv : vs[i] = (nbrs vs i hi).1 := by
        have h3 : OnSeg (nbrs vs i hi).1 (nbrs vs i hi).2.2 vs[i] := straight_onSeg hst
        rw [← huw] at h3
        exact onSeg_self h3
      have all : ∀ x ∈ vs, x = (nbrs vs i hi).1 := by
        intro x hx
        rcases (mem_iff_eraseIdx hi).1 hx with e | e
        · rw [e, hv]
        · exact hn _ e _ m1
      exact hab ((all a ha).trans (all b hb).symm)
    have hne1 : vs.eraseIdx i ≠ [] := by
      obtain ⟨a, ha, _⟩ := hd
      exact List.ne_nil_of_mem ha
    obtain ⟨i1, i2⟩ := ih hd hne1 hne'
    obtain ⟨rest, p1, p2⟩ := erase_sides hi h2 hne hne1
    have hon : OnSeg (nbrs vs i hi).1 (nbrs vs i hi).2.2 (nbrs vs i hi).2.1 := straight_onSeg hst
    constructor
    · intro q
      rw [i1 q, bd_perm p2, bd_perm p1]
      unfold Bd
      simp only [List.mem_cons, exists_eq_or_imp, onSeg_split hon, or_assoc]
    · intro p
      rw [i2 p]
      unfold Odd
      rw [xsum_perm _ p2, xsum_perm _ p1, xsum_cons, xsum_cons, xsum_cons]
      have := rayX_split (p := p) hon
      simp only [this]
      generalize RayX p (nbrs vs i hi).1 (nbrs vs i hi).2.1 = A
      generalize RayX p (nbrs vs i hi).2.1 (nbrs vs i hi).2.2 = B
      generalize xsum _ rest = C
      by_cases a : A <;> by_cases b : B <;> by_cases c : C <;> simp [a, b, c]
  | case2 vs i hi n hst ih => exact ih h hne hne'
  | case3 vs i hi => exact ⟨fun _ => Iff.rfl, fun _ => Iff.rfl⟩

/-- No vertex before index `k` is straight. -/
def Bent (vs : List (Pt K)) (k : Nat) : Prop :=
  ∀ j (h : j < vs.length), j < k → straight (nbrs vs j h).1 (nbrs vs j h).2.1 (nbrs vs j h).2.2 = false

theorem bent_erase {vs : List (Pt K)} {i : Nat} (hi : i < vs.length)
    (hst : straight (nbrs vs i hi).1 (nbrs vs i hi).2.1 (nbrs vs i hi).2.2 = true) (hb : Bent vs i) :
    Bent (vs.eraseIdx i) i := by
  intro j hj hji
  have hlen : (vs.eraseIdx i).length = vs.length - 1 := List.length_eraseIdx_of_lt hi
  have hold := hb j (by omega) hji
  have i0 : i ≠ 0 := by omega
  have jl : j ≠ vs.length - 1 := by omega
  simp only [nbrs, i0, if_false] at hst
  simp only [nbrs, jl, dif_neg, not_false_eq_true] at hold
  simp only [nbrs, List.getElem_eraseIdx, hlen]
  have e0 : j < i := hji
  have e1 : 0 < i := by omega
  have e2 : j - 1 < i := by omega
  simp only [e0, e1, e2, dif_pos]
  by_cases hlast : i = vs.length - 1
  · rw [dif_pos hlast] at hst
    by_cases hj2 : j = vs.length - 1 - 1
    · have g : j + 1 = i := by omega
      have g' : i - 1 = j := by omega
      simp only [g] at hold
      simp only [g'] at hst
      rw [dif_pos hj2]
      by_cases j0 : j = 0
      · have g3 : vs.length - 1 = i := hlast.symm
        simp only [j0, if_true, g3] at hold hst ⊢
        exfalso
        have := onSeg_self (straight_onSeg hst)
        rw [this, straight_self] at hold
        cases hold
      · rw [if_neg j0] at hold ⊢
        exact straight_prev hold hst
    · rw [dif_neg hj2]
      have g : j + 1 < i := by omega
      simp only [g, dif_pos]
      by_cases j0 : j = 0
      · have g3 : vs.length - 1 = i := hlast.symm
        have g4 : i - 1 < i := by omega
        simp only [j0, if_true, g3, g4, dif_pos] at hold hst ⊢
        exact straight_next hold hst
      · rw [if_neg j0] at hold ⊢
        exact hold
  · rw [dif_neg hlast] at hst
    have hj2 : j ≠ vs.length - 1 - 1 := by omega
    rw [dif_neg hj2]
    have g5 : ¬ vs.length - 1 - 1 < i := by omega
    have g6 : vs.length - 1 - 1 + 1 = vs.length - 1 := by omega
    simp only [g5, dif_neg, not_false_eq_true, g6]
    by_cases g : j + 1 < i
    · simp only [g, dif_pos]
      exact hold
    · have g1 : j + 1 = i := by omega
      have g' : i - 1 = j := by omega
      simp only [g1, lt_irrefl, dif_neg, not_false_eq_true]
      simp only [g1] at hold
      simp only [g'] at hst
      exact straight_prev hold hst

/-- After `removecolinear` no vertex is straight. -/
theorem rmcol_bent (vs : List (Pt K)) (i : Nat) (h : Bent vs i) : ∀ k, Bent (rmcol vs i) k := by
  fun_induction rmcol vs i with
  | case1 vs i hi n hst ih => exact ih (bent_erase hi hst h)
  | case2 vs i hi n hst ih =>
    refine ih fun j hj hji => ?_
    rcases Nat.lt_succ_iff_lt_or_eq.1 hji with g | g
    · exact h j hj g
    · subst g; exact Bool.eq_false_iff.2 hst
  | case3 vs i hi => exact fun k j hj _ => h j hj (by omega)

/-! ## The box of a set of points -/

theorem grow_fold_mem (ps : List (Pt K)) (b : Bbox K) :
    (∀ p, b.Mem p → (ps.foldl Bbox.grow b).Mem p) ∧ (∀ p ∈ ps, (ps.foldl Bbox.grow b).Mem p) ∧
      (∀ c : Bbox K, c.min.x ≤ b.min.x → c.min.y ≤ b.min.y → b.max.x ≤ c.max.x → b.max.y ≤ c.max.y → (∀ p ∈ ps, c.Mem p) →
        c.min.x ≤ (ps.foldl Bbox.grow b).min.x ∧ c.min.y ≤ (ps.foldl Bbox.grow b).min.y ∧
          (ps.foldl Bbox.grow b).max.x ≤ c.max.x ∧ (ps.foldl Bbox.grow b).max.y ≤ c.max.y) := by
  induction ps generalizing b with
  | nil => exact ⟨fun _ h => h, fun p hp => by simp at hp, fun c h1 h2 h3 h4 _ => ⟨h1, h2, h3, h4⟩⟩
  | cons a ps ih =>
    obtain ⟨i1, i2, i3⟩ := ih (b.grow a)
    have gx : (b.grow a).min.x ≤ b.min.x ∧ (b.grow a).min.x ≤ a.x := by
      simp only [Bbox.grow]; split
      · exact ⟨le_of_lt (by assumption), le_refl _⟩
      · exact ⟨le_refl _, not_lt.1 (by assumption)⟩
    have gy : (b.grow a).min.y ≤ b.min.y ∧ (b.grow a).min.y ≤ a.y := by
      simp only [Bbox.grow]; split
      · exact ⟨le_of_lt (by assumption), le_refl _⟩
      · exact ⟨le_refl _, not_lt.1 (by assumption)⟩
    have gX : b.max.x ≤ (b.grow a).max.x ∧ a.x ≤ (b.grow a).max.x := by
      simp only [Bbox.grow]; split
      · exact ⟨le_of_lt (by assumption), le_refl _⟩
      · exact ⟨le_refl _, not_lt.1 (by assumption)⟩
    have gY : b.max.y ≤ (b.grow a).max.y ∧ a.y ≤ (b.grow a).max.y := by
      simp only [Bbox.grow]; split
      · exact ⟨le_of_lt (by assumption), le_refl _⟩
      · exact ⟨le_refl _, not_lt.1 (by assumption)⟩
    refine ⟨fun p hp => ?_, fun p hp => ?_, fun c h1 h2 h3 h4 h5 => ?_⟩
    · exact i1 p ⟨gx.1.trans hp.1, hp.2.1.trans gX.1, gy.1.trans hp.2.2.1, hp.2.2.2.trans gY.1⟩
    · rcases List.mem_cons.1 hp with e | e
      · subst e; exact i1 p ⟨gx.2, gX.2, gy.2, gY.2⟩
      · exact i2 p e
    · have ha := h5 a List.mem_cons_self
      refine i3 c ?_ ?_ ?_ ?_ fun p hp => h5 p (List.mem_cons_of_mem _ hp)
      · simp only [Bbox.grow]; split
        · exact ha.1
        · exact h1
      · simp only [Bbox.grow]; split
        · exact ha.2.2.1
        · exact h2
      · simp only [Bbox.grow]; split
        · exact ha.2.1
        · exact h3
      · simp only [Bbox.grow]; split
        · exact ha.2.2.2
        · exact h4

/-- The box of a set of points contains them, and is contained in every box that does. -/
theorem ofPts_spec {ps : List (Pt K)} {b : Bbox K} (h : Bbox.ofPts ps = some b) :
    (∀ p ∈ ps, b.Mem p) ∧ (∀ c : Bbox K, (∀ p ∈ ps, c.Mem p) →
      c.min.x ≤ b.min.x ∧ c.min.y ≤ b.min.y ∧ b.max.x ≤ c.max.x ∧ b.max.y ≤ c.max.y) := by
  cases ps with
  | nil => simp [Bbox.ofPts] at h
  | cons a ps =>
    simp only [Bbox.ofPts, Option.some.injEq] at h
    subst h
    obtain ⟨h1, h2, h3⟩ := grow_fold_mem ps ⟨a, a⟩
    refine ⟨fun p hp => ?_, fun c hc => ?_⟩
    · rcases List.mem_cons.1 hp with e | e
      · subst e; exact h1 p ⟨le_refl _, le_refl _, le_refl _, le_refl _⟩
      · exact h2 p e
    · have ha := hc a List.mem_cons_self
      exact h3 c ha.1 ha.2.2.1 ha.2.1 ha.2.2.2 fun p hp => hc p (List.mem_cons_of_mem _ hp)

theorem Bbox.mem_onSeg {b : Bbox K} {u v q : Pt K} (hu : b.Mem u) (hv : b.Mem v) (h : OnSeg u v q) : b.Mem q := by
  obtain ⟨m1, m2, m3, m4⟩ := h.mem
  simp only [mk2_min_x, mk2_max_x, mk2_min_y, mk2_max_y] at m1 m2 m3 m4
  exact ⟨(le_min hu.1 hv.1).trans m1, m2.trans (max_le hu.2.1 hv.2.1), (le_min hu.2.2.1 hv.2.2.1).trans m3,
    m4.trans (max_le hu.2.2.2 hv.2.2.2)⟩

theorem chain_mem {vs : List (Pt K)} {s : Seg K} (h : s ∈ chain vs) : s.p0 ∈ vs ∧ s.p1 ∈ vs := by
  induction vs with
  | nil => simp [chain] at h
  | cons a r ih =>
    cases r with
    | nil => simp [chain] at h
    | cons b r =>
      simp only [chain, List.mem_cons] at h ih ⊢
      rcases h with h | h
      · subst h; simp
      · have := ih (by simpa using h)
        tauto

theorem cyc_mem {vs : List (Pt K)} (hne : vs ≠ []) {s : Seg K} (h : s ∈ cyc vs hne) : s.p0 ∈ vs ∧ s.p1 ∈ vs := by
  unfold cyc at h
  rw [List.mem_append] at h
  rcases h with h | h
  · exact chain_mem h
  · rw [List.mem_singleton] at h
    subst h
    exact ⟨List.getLast_mem hne, List.head_mem hne⟩

/-- What a constructor produces. -/
theorem make_ok {vs : List (Pt K)} {P : Poly K} (h : Poly.make vs = .ok P) :
    ∃ hne : rmcol vs 0 ≠ [], P = ⟨rmcol vs 0, cyc (rmcol vs 0) hne, Bbox.ofPts vs⟩ := by
  unfold Poly.make at h
  simp only at h
  by_cases hne : rmcol vs 0 = []
  · rw [hne] at h; simp [initsides] at h
  · rw [initsides_eq hne] at h
    simp only [Outcome.map_ok, Outcome.ok.injEq] at h
    exact ⟨hne, h.symm⟩

end Verif.Geom
