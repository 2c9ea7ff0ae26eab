import Verif.Utils.RandPolyThms
import Verif.Props.Rand
import Verif.Props.Geom2d
import Mathlib.Algebra.Order.Field.Rat
import Mathlib.Tactic.NormNum

/-!
# C112: random polygons and random maps

`random T sorted`: the polygon that is made of points sorted by x.  `Placed T o ps`: the generator can have placed the polygons `ps`.
`Simple`, `area2` are defined in `Utils/RandPolyThms`.
-/

namespace Verif.RandPoly

open Verif.Geom Verif.Str

variable {K : Type} [Field K] [LinearOrder K] [IsStrictOrderedRing K]

/-- Where the point is with respect to the line from `a` to `b`: positive on the left, zero on the line. -/
def side (a b p : Pt K) : K := (b.x - a.x) * (p.y - a.y) - (b.y - a.y) * (p.x - a.x)

theorem side_line {a b : Pt K} (h : a.x < b.x) (p : Pt K) :
    side a b p = (b.x - a.x) * (p.y - ((b.y - a.y) / (b.x - a.x) * p.x + (a.y - (b.y - a.y) / (b.x - a.x) * a.x))) := by
  have : b.x - a.x ≠ 0 := by linarith
  unfold side
  field_simp
  ring

/-- The vertices, if the points are in general position. -/
theorem arrange_spec {T : Tol K} {a b : Pt K} {ms : List (Pt K)} (hx : (a :: ms ++ [b]).Pairwise fun p q => p.x < q.x)
    (hT : T.eps ≤ b.x - a.x) (hl : ∀ p ∈ ms, side a b p ≠ 0) (hm : ms ≠ []) :
    ∃ U L, arrange T a ms b = .ok (a :: U ++ b :: L) ∧ Simple (cyc (a :: U ++ b :: L) (by simp)) ∧
      0 < area2 (cyc (a :: U ++ b :: L) (by simp)) := by
  have hab : a.x < b.x := by have := T.eps_pos; linarith
  set m := (b.y - a.y) / (b.x - a.x) with hmdef
  set c := a.y - m * a.x with hcdef
  have hline : Line.mk2 T a b = ⟨some m, c⟩ := by
    unfold Line.mk2
    dsimp only
    rw [abs_of_pos (by linarith), if_neg (by linarith)]
  have hpa : (a :: ms).Pairwise (fun p q => p.x < q.x) := hx.sublist (List.sublist_append_left _ _)
  have hU : ∀ p ∈ ms.filter (isabove ⟨some m, c⟩), m * p.x + c < p.y := fun p hp => by
    simpa [isabove] using (List.mem_filter.1 hp).2
  have hL : ∀ p ∈ (ms.filter fun p => !isabove ⟨some m, c⟩ p).reverse, p.y < m * p.x + c := fun p hp => by
    obtain ⟨h1, h2⟩ := List.mem_filter.1 (List.mem_reverse.1 hp)
    have h3 : p.y ≤ m * p.x + c := by simpa [isabove] using h2
    refine lt_of_le_of_ne h3 fun e => hl p h1 ?_
    rw [side_line hab, ← hmdef, ← hcdef, e, sub_self, mul_zero]
  have incU : Inc 1 (a :: ms.filter (isabove ⟨some m, c⟩) ++ [b]) := by
    have h1 : (a :: ms.filter (isabove ⟨some m, c⟩) ++ [b]).Sublist (a :: ms ++ [b]) :=
      (List.filter_sublist.cons_cons a).append (List.Sublist.refl _)
    exact (hx.sublist h1).imp fun h => by simpa using h
  have decL : (b :: ((ms.filter fun p => !isabove ⟨some m, c⟩ p).reverse ++ [a])).Pairwise (fun p q => q.x < p.x) := by
    have h1 : (a :: (ms.filter fun p => !isabove ⟨some m, c⟩ p) ++ [b]).Sublist (a :: ms ++ [b]) :=
      (List.filter_sublist.cons_cons a).append (List.Sublist.refl _)
    have h2 := List.pairwise_reverse.2 (hx.sublist h1)
    simpa using h2
  have incL : Inc (-1) (b :: (ms.filter fun p => !isabove ⟨some m, c⟩ p).reverse ++ [a]) :=
    decL.imp fun h => by simpa using h
  generalize hUd : ms.filter (isabove ⟨some m, c⟩) = U at *
  generalize hLd : (ms.filter fun p => !isabove ⟨some m, c⟩ p).reverse = L at *
  have hne : U ≠ [] ∨ L ≠ [] := by
    obtain ⟨p, hp⟩ := List.exists_mem_of_ne_nil _ hm
    by_cases h : isabove ⟨some m, c⟩ p = true
    · exact .inl (List.ne_nil_of_mem (a := p) (by rw [← hUd]; exact List.mem_filter.2 ⟨hp, h⟩))
    · exact .inr (List.ne_nil_of_mem (a := p) (by
        rw [← hLd]; exact List.mem_reverse.2 (List.mem_filter.2 ⟨hp, by simpa using h⟩)))
  have ea : a.y = m * a.x + c := by rw [hcdef]; ring
  have eb : b.y = m * b.x + c := by
    have : b.x - a.x ≠ 0 := by linarith
    rw [hcdef, hmdef]
    field_simp
    ring
  have ecyc : cyc (a :: U ++ b :: L) (by simp) = chain (a :: U ++ [b]) ++ chain (b :: L ++ [a]) := by
    have h1 := cyc_eq a (U ++ b :: L)
    have h2 := chain_append (a :: U) b (L ++ [a])
    simp only [List.cons_append, List.append_assoc] at h1 h2 ⊢
    rw [h1, h2]
  refine ⟨U, L, ?_, ?_, ?_⟩
  · unfold arrange
    rw [hline, split_inc hpa, Outcome.bind_ok, hUd]
    dsimp only
    rw [hLd, backward_dec (decL.sublist (by simp))]
    rfl
  · rw [ecyc]
    refine List.pairwise_append.2 ⟨chain_simple incU, chain_simple incL, fun s hs t ht => ?_⟩
    exact chains_touch ea eb (fun h => by rw [h] at hab; exact lt_irrefl _ hab) hU hL hne hs ht
  · obtain ⟨A, hA, e1, p1⟩ := chain_area (σ := 1) (m := m) (c := c) (by ring) (U ++ [b]) a incU (fun p hp => by
      simp only [List.mem_cons, List.mem_append, List.not_mem_nil, or_false] at hp
      rcases hp with rfl | hp | rfl
      · rw [ea]; simp
      · have := hU p hp; linarith
      · rw [eb]; simp) (by simp)
    obtain ⟨B, hB, e2, p2⟩ := chain_area (σ := -1) (m := m) (c := c) (by ring) (L ++ [a]) b incL (fun p hp => by
      simp only [List.mem_cons, List.mem_append, List.not_mem_nil, or_false] at hp
      rcases hp with rfl | hp | rfl
      · rw [eb]; simp
      · have := hL p hp; linarith
      · rw [ea]; simp) (by simp)
    rw [ecyc, area2_append, List.cons_append, List.cons_append, e1, e2]
    simp only [List.getLast_cons (List.append_ne_nil_of_right_ne_nil _ (List.cons_ne_nil _ _)), List.getLast_append_singleton]
    have : 0 < A + B := by
      rcases hne with h | h
      · obtain ⟨p, hp⟩ := List.exists_mem_of_ne_nil _ h
        have := p1 (by simp) ⟨p, by simp [hp], by have := hU p hp; linarith⟩
        linarith
      · obtain ⟨p, hp⟩ := List.exists_mem_of_ne_nil _ h
        have := p2 (by simp) ⟨p, by simp [hp], by have := hL p hp; linarith⟩
        linarith
    linarith

theorem random_eq {T : Tol K} {a b : Pt K} {ms : List (Pt K)} (hm : ms ≠ []) :
    random T (a :: ms ++ [b]) = (arrange T a ms b).bind Poly.ofVerts := by
  have h1 : 0 < ms.length := List.length_pos_iff.2 hm
  rw [List.cons_append, random]
  simp only [List.getLast?_append, List.getLast?_singleton, Option.some_or, List.dropLast_concat]
  rw [if_neg (by simp; omega)]

/-- **C112.** Points with different x coordinates, none of them on the line through the first and the last, give a polygon whose sides
do not cross or touch each other and go round clockwise; its corners are points that were given, and all points are on its sides. -/
theorem c112_simple {T : Tol K} {a b : Pt K} {ms : List (Pt K)} (hx : (a :: ms ++ [b]).Pairwise fun p q => p.x < q.x)
    (hT : T.eps ≤ b.x - a.x) (hl : ∀ p ∈ ms, side a b p ≠ 0) (hm : ms ≠ []) :
    ∃ P, random T (a :: ms ++ [b]) = .ok P ∧ Simple P.sides ∧ 0 < area2 P.sides ∧ 3 ≤ P.verts.length ∧ (∀ v ∈ P.verts, v ∈ a :: ms ++ [b]) ∧
      (∀ v ∈ a :: ms ++ [b], Bd P.sides v) := by
  obtain ⟨U, L, e, h1, h2⟩ := arrange_spec hx hT hl hm
  have hp := arrange_perm e
  have hnd : (a :: U ++ b :: L).Nodup := hp.nodup_iff.2 (hx.imp fun h e => by rw [e] at h; exact lt_irrefl _ h)
  have hlen : 3 ≤ (a :: U ++ b :: L).length := by
    rw [hp.length_eq]
    have : 0 < ms.length := List.length_pos_iff.2 hm
    simp; omega
  obtain ⟨hne, r1, r2, r3, r4⟩ := rmcol_simple (a :: U ++ b :: L) 0 (by simp) (by omega) hnd h1
  have hbd := (rmcol_spec (a :: U ++ b :: L) 0 ⟨a, by simp, b, by simp, fun e => by
    have := (List.nodup_cons.1 hnd).1; simp [e] at this⟩ (by simp) hne).1
  refine ⟨⟨rmcol (a :: U ++ b :: L) 0, cyc _ hne, Bbox.ofPts (a :: U ++ b :: L)⟩, ?_, r3, by rw [r4]; exact h2, ?_, fun v hv => ?_, fun v hv => ?_⟩
  · rw [random_eq hm, e, Outcome.bind_ok, Poly.ofVerts, if_neg (by omega), Poly.make, initsides_eq hne]
    rfl
  · by_contra hlt
    obtain ⟨u, v, huv⟩ : ∃ u v, rmcol (a :: U ++ b :: L) 0 = [u, v] := List.length_eq_two.1 (by
      dsimp only at hlt; omega)
    have : area2 (cyc _ hne) = 0 := by
      simp only [huv, area2, cyc, chain]
      simp
      ring
    rw [r4] at this
    exact h2.ne' this
  · exact hp.mem_iff.1 ((rmcol_sub _ _).subset hv)
  · rw [hbd]
    have h3 : v ∈ (cyc (a :: U ++ b :: L) (by simp)).map Seg.p0 := by rw [cyc_p0]; exact hp.mem_iff.2 hv
    obtain ⟨s, hs, rfl⟩ := List.mem_map.1 h3
    exact ⟨s, hs, onSeg_left _ _⟩

/-- Points for `double`s would be 2^-52 and 2^-26; any tolerances will do. -/
def tol : Tol ℚ := ⟨1 / 1000, 1 / 100, by norm_num, by norm_num, by norm_num⟩

/-- The hypotheses hold for five points. -/
example : ([(⟨0, 0⟩ : Pt ℚ), ⟨1, 2⟩, ⟨2, -1⟩, ⟨3, 1⟩, ⟨4, 0⟩].Pairwise fun p q => p.x < q.x) ∧
    (∀ p ∈ [(⟨1, 2⟩ : Pt ℚ), ⟨2, -1⟩, ⟨3, 1⟩], side ⟨0, 0⟩ ⟨4, 0⟩ p ≠ 0) ∧
    arrange tol ⟨0, 0⟩ [⟨1, 2⟩, ⟨2, -1⟩, ⟨3, 1⟩] ⟨4, 0⟩ = .ok [⟨0, 0⟩, ⟨1, 2⟩, ⟨3, 1⟩, ⟨4, 0⟩, ⟨2, -1⟩] := by
  refine ⟨by norm_num, by simp [side], by decide +kernel⟩

/-! ## Points that are not in general position -/

/-- **C112, violation.** Two points with the same x coordinate, other than the last two, are an assertion failure. -/
theorem c112_same_x {T : Tol K} {a b : Pt K} {ms : List (Pt K)} (hm : ms ≠ []) (h : ¬ (a :: ms).Pairwise fun p q => p.x < q.x) :
    random T (a :: ms ++ [b]) = .fatal := by
  rw [random_eq hm, arrange, split_fatal h]
  rfl

example : ¬ [(⟨0, 0⟩ : Pt ℚ), ⟨1, 2⟩, ⟨1, -1⟩].Pairwise fun p q => p.x < q.x := by norm_num

/-- **C112, violation.** With a point on the line through the first and the last, two sides of the polygon can lie on each other. -/
theorem c112_spike : ∃ P, random tol [⟨0, 0⟩, ⟨1, 0⟩, ⟨2, -1⟩, ⟨3, 0⟩] = .ok P ∧ ¬ Simple P.sides := by
  have h1 : arrange tol ⟨0, 0⟩ [⟨1, 0⟩, ⟨2, -1⟩] ⟨3, 0⟩ = .ok [⟨0, 0⟩, ⟨3, 0⟩, ⟨2, -1⟩, ⟨1, 0⟩] := by decide +kernel
  have h2 : rmcol [(⟨0, 0⟩ : Pt ℚ), ⟨3, 0⟩, ⟨2, -1⟩, ⟨1, 0⟩] 0 = [⟨0, 0⟩, ⟨3, 0⟩, ⟨2, -1⟩, ⟨1, 0⟩] := by
    rw [rmcol, dif_pos (by decide), if_neg (by decide +kernel), rmcol, dif_pos (by decide), if_neg (by decide +kernel),
      rmcol, dif_pos (by decide), if_neg (by decide +kernel), rmcol, dif_pos (by decide), if_neg (by decide +kernel),
      rmcol, dif_neg (by decide)]
  refine ⟨⟨[⟨0, 0⟩, ⟨3, 0⟩, ⟨2, -1⟩, ⟨1, 0⟩], cyc [⟨0, 0⟩, ⟨3, 0⟩, ⟨2, -1⟩, ⟨1, 0⟩] (by simp),
    Bbox.ofPts [⟨0, 0⟩, ⟨3, 0⟩, ⟨2, -1⟩, ⟨1, 0⟩]⟩, ?_, fun hs => ?_⟩
  · rw [show [(⟨0, 0⟩ : Pt ℚ), ⟨1, 0⟩, ⟨2, -1⟩, ⟨3, 0⟩] = ⟨0, 0⟩ :: [⟨1, 0⟩, ⟨2, -1⟩] ++ [⟨3, 0⟩] from rfl, random_eq (by simp), h1,
      Outcome.bind_ok, Poly.ofVerts, if_neg (by simp), Poly.make, h2, initsides_eq (by simp)]
    rfl
  · simp only [Simple, cyc, chain, List.cons_append, List.nil_append, List.pairwise_cons] at hs
    have := hs.1 ⟨⟨1, 0⟩, ⟨0, 0⟩⟩ (by simp) ⟨1 / 2, 0⟩ ⟨1 / 6, by norm_num, by norm_num, by norm_num, by norm_num⟩
      ⟨1 / 2, by norm_num, by norm_num, by norm_num, by norm_num⟩
    simp at this

/-! ## Maps -/

theorem random_ok {T : Tol K} {sorted : List (Pt K)} {P : Poly K} (h : random T sorted = .ok P) :
    ∃ vs, vs.Perm sorted ∧ Poly.make vs = .ok P := by
  cases sorted with
  | nil => cases h
  | cons a rest =>
    rw [random] at h
    cases hb : rest.getLast? with
    | none => rw [hb] at h; cases h
    | some b =>
      rw [hb] at h
      dsimp only at h
      split at h
      · cases h
      · obtain ⟨vs, e, h⟩ := Outcome.bind_eq_ok.1 h
        rw [Poly.ofVerts] at h
        split at h
        · cases h
        · refine ⟨vs, (arrange_perm e).trans (List.Perm.of_eq ?_), h⟩
          rw [List.cons_append, List.dropLast_append_getLast? b hb]

/-- What a polygon of the generator is like: its sides lie in its box, which lies in the unit square. -/
theorem made_spec {T : Tol K} {o : Cfg K} {P : Poly K} (h : Made T o P) :
    ∃ b, P.bbox = some b ∧ (∀ q, Bd P.sides q → b.Mem q) ∧ 0 ≤ b.min.x ∧ 0 ≤ b.min.y ∧ b.max.x ≤ 1 ∧ b.max.y ≤ 1 := by
  obtain ⟨hur, hux, huy, er, ex, ey, hx0, hy0, hr0, en, hn, hus, hsort, hP⟩ := h
  rename_i ur ux uy r x y v v' n us sorted
  obtain ⟨vs, hperm, hmk⟩ := random_ok hP
  obtain ⟨hne, rfl⟩ := make_ok hmk
  have hv0 : vs ≠ [] := fun e => hne (by rw [e]; rw [rmcol, dif_neg (by simp)])
  obtain ⟨b, hb⟩ : ∃ b, Bbox.ofPts vs = some b := by
    cases vs with
    | nil => exact absurd rfl hv0
    | cons a vs => exact ⟨_, rfl⟩
  obtain ⟨m1, m2⟩ := ofPts_spec hb
  have bx : r ≤ x ∧ x ≤ 1 - r := by
    unfold rnddbl at ex
    split at ex
    · rename_i hlt
      cases ex
      constructor <;> nlinarith
    · cases ex
  have bY : r ≤ y ∧ y ≤ 1 - r := by
    unfold rnddbl at ey
    split at ey
    · rename_i hlt
      cases ey
      constructor <;> nlinarith
    · cases ey
  have hin : ∀ p ∈ vs, (⟨⟨0, 0⟩, ⟨1, 1⟩⟩ : Bbox K).Mem p := by
    intro p hp
    have : p ∈ points ⟨x, y⟩ r us := hsort.1.mem_iff.1 (hperm.mem_iff.1 hp)
    obtain ⟨u, hu, rfl⟩ := List.mem_map.1 this
    obtain ⟨⟨u1, u2⟩, u3, u4⟩ := hus u hu
    refine ⟨?_, ?_, ?_, ?_⟩ <;> dsimp only <;> nlinarith
  obtain ⟨c1, c2, c3, c4⟩ := m2 _ hin
  refine ⟨b, hb, fun q hq => ?_, c1, c2, c3, c4⟩
  obtain ⟨s, hs, hon⟩ := hq
  obtain ⟨k1, k2⟩ := cyc_mem hne hs
  exact Bbox.mem_onSeg (m1 _ ((rmcol_sub _ _).subset k1)) (m1 _ ((rmcol_sub _ _).subset k2)) hon

/-- **C112.** The polygons of a random map are in the unit square, and no two of them have a point in common, nor have boxes around them. -/
theorem c112_map {T : Tol K} {o : Cfg K} {ps : List (Poly K)} (h : Placed T o ps) :
    (∀ P ∈ ps, ∀ q, Bd P.sides q → 0 ≤ q.x ∧ q.x ≤ 1 ∧ 0 ≤ q.y ∧ q.y ≤ 1) ∧
      ps.Pairwise fun P Q => ∃ b c : Bbox K, (∀ q, Bd P.sides q → b.Mem q) ∧ (∀ q, Bd Q.sides q → c.Mem q) ∧ ∀ q, ¬ (b.Mem q ∧ c.Mem q) := by
  have made : ∀ P ∈ ps, Made T o P := by
    induction h with
    | nil => simp
    | add _ h1 _ ih =>
      intro Q hQ
      rcases List.mem_append.1 hQ with hQ | hQ
      · exact ih Q hQ
      · rw [List.mem_singleton.1 hQ]; exact h1
  refine ⟨fun P hP q hq => ?_, ?_⟩
  · obtain ⟨b, -, h1, h2, h3, h4, h5⟩ := made_spec (made P hP)
    obtain ⟨k1, k2, k3, k4⟩ := h1 q hq
    exact ⟨h2.trans k1, k2.trans h4, h3.trans k3, k4.trans h5⟩
  · induction h with
    | nil => exact List.Pairwise.nil
    | @add ps P h0 h1 h2 ih =>
      refine List.pairwise_append.2 ⟨ih fun Q hQ => made Q (by simp [hQ]), List.pairwise_singleton _ _, fun Q hQ P' hP' => ?_⟩
      rw [List.mem_singleton.1 hP']
      obtain ⟨b, eb, b1, -⟩ := made_spec (made Q (by simp [hQ]))
      obtain ⟨c, ec, c1, -⟩ := made_spec h1
      refine ⟨b, c, b1, c1, fun q hq => ?_⟩
      have := h2 Q hQ
      rw [boxesHit, eb, ec] at this
      obtain ⟨⟨k1, k2, k3, k4⟩, l1, l2, l3, l4⟩ := hq
      simp only [Bbox.hits, Bool.not_eq_false', Bool.or_eq_true, decide_eq_true_eq] at this
      rcases this with ((h | h) | h) | h <;> linarith

/-- The generator can place a polygon. -/
example : ∃ P, Placed tol ⟨3, 1 / 10, 1 / 5⟩ [P] := by
  obtain ⟨P, hP, -⟩ := c112_simple (T := tol) (a := ⟨0, 0⟩) (b := ⟨1 / 5, 0⟩) (ms := [⟨1 / 10, 1 / 5⟩]) (by norm_num) (by norm_num [tol])
    (by simp [side]) (by simp)
  refine ⟨P, .add .nil ?_ (by simp)⟩
  exact .mk (ur := 0) (ux := 0) (uy := 0) (r := 1 / 10) (x := 1 / 10) (y := 1 / 10) (v := 1) (v' := 1) (n := 3)
    (us := [(0, 0), (1 / 2, 1), (1, 0)]) (by norm_num) (by norm_num) (by norm_num) (by norm_num [rnddbl]) (by norm_num [rnddbl])
    (by norm_num [rnddbl]) (by norm_num) (by norm_num) (by norm_num) (by simp [Rand.integer]) (by simp) (by norm_num)
    (by norm_num [SortedX, points]) hP

/-- **C112, violation.** With radii of a half or more, or without a range of radii, the first polygon is an assertion failure. -/
theorem c112_radius {T : Tol K} {o : Cfg K} (h : 1 / 2 ≤ o.minrad ∨ o.maxrad ≤ o.minrad) {ps : List (Poly K)} (hp : Placed T o ps) : ps = [] := by
  cases hp with
  | nil => rfl
  | add _ h1 _ =>
    obtain ⟨hur, -, -, er, ex, -⟩ := h1
    unfold rnddbl at er
    split at er
    · rename_i hlt
      cases er
      rcases h with h | h
      · unfold rnddbl at ex
        split at ex
        · rename_i hlt'
          nlinarith [mul_nonneg hur.1 (sub_nonneg.2 hlt.le)]
        · cases ex
      · exact absurd hlt (not_lt.2 h)
    · cases er

/-- **C112, violation.** At most two vertices: a division by zero. -/
theorem c112_nverts (v : BitVec 64) : Rand.integer v 3 2 = .ub := by
  unfold Rand.integer
  simp [Rand.InL]

/-- **C112, violation.** The map does not get to the file that was asked for: it is printed, and the file stays empty. -/
theorem c112_outfile (f map : Str) : output (some f) map = (map, some (f, [])) := rfl

end Verif.RandPoly
