import Verif.Domains.Grid2Poly
import Verif.Utils.Geom2dMake
import Verif.Props.Geom2d
import Verif.Props.Djset

/-!
# Lemmas about the polygon map made from a bitmap
-/

namespace Verif.Grid2Poly

open Verif.Geom Verif.Contour

variable {K : Type} [Field K] [LinearOrder K] [IsStrictOrderedRing K]

/-! ## Corners of a walk -/

/-- The way from `a` to `b` has the direction. -/
def Go (d : Dir) (a b : ℤ × ℤ) : Prop := ∃ k : ℤ, 0 < k ∧ b = (a.1 + k * (ahead d).1, a.2 + k * (ahead d).2)

def Perp (d d' : Dir) : Prop := d' = turnL d ∨ d' = turnR d

/-- The corners at which the walk turns. -/
noncomputable def corners (B : Cell → Prop) : Nat → Edge → List (ℤ × ℤ)
  | 0, _ => []
  | m + 1, e => if (next B e).d = e.d then corners B m (next B e) else e.fin :: corners B m (next B e)

theorem fin_eq (e : Edge) : e.fin = e.beg + ahead e.d := by
  obtain ⟨⟨x, y⟩, d⟩ := e
  cases d <;> simp [Edge.fin, Edge.beg, ahead]

theorem next_perp (B : Cell → Prop) (e : Edge) : (next B e).d = e.d ∨ Perp e.d (next B e).d := by
  rcases next_cases B e with ⟨a, b⟩ | ⟨a, a', b⟩ | ⟨a, a', b⟩ <;> rw [b]
  · exact .inr (.inl rfl)
  · exact .inl rfl
  · exact .inr (.inr rfl)

/-- A sequence of points such that the way turns at each of them; with the first and the last direction. -/
inductive Zig : Dir → List (ℤ × ℤ) → Dir → Prop
  | two {d a b} (h : Go d a b) : Zig d [a, b] d
  | cons {d a b l d' d''} (h : Go d a b) (hp : Perp d d') (hz : Zig d' (b :: l) d'') : Zig d (a :: b :: l) d''

theorem Go.fin {e : Edge} {q : ℤ × ℤ} (h : q = e.beg ∨ Go e.d q e.beg) : Go e.d q e.fin := by
  rw [fin_eq]
  rcases h with rfl | ⟨k, hk, hb⟩
  · exact ⟨1, by norm_num, by rw [one_mul, one_mul]; rfl⟩
  · rw [hb]
    exact ⟨k + 1, by omega, by ext <;> simp <;> ring⟩

theorem corners_zig (B : Cell → Prop) : ∀ (m : Nat) (e : Edge) (q : ℤ × ℤ), (q = e.beg ∨ Go e.d q e.beg) →
    Zig e.d (q :: corners B m e ++ [((next B)^[m] e).fin]) ((next B)^[m] e).d
  | 0, e, q, h => .two (Go.fin h)
  | m + 1, e, q, h => by
    rw [corners, Function.iterate_succ_apply]
    by_cases hd : (next B e).d = e.d
    · rw [if_pos hd]
      have := corners_zig B m (next B e) q (by rw [fin_next, hd]; exact .inr (Go.fin h))
      rwa [hd] at this
    · rw [if_neg hd]
      have := corners_zig B m (next B e) e.fin (by rw [fin_next]; exact .inl rfl)
      exact .cons (Go.fin h) ((next_perp B e).resolve_left hd) this

theorem Zig.snoc {d d' d'' : Dir} {l : List (ℤ × ℤ)} {a b : ℤ × ℤ} (h : Zig d (l ++ [a]) d') (hp : Perp d' d'')
    (hg : Go d'' a b) : Zig d (l ++ [a, b]) d'' := by
  generalize hL : l ++ [a] = L at h
  induction h generalizing l with
  | @two d x y h =>
    match l, hL with
    | [z], hL =>
      simp only [List.cons_append, List.nil_append, List.cons.injEq, and_true] at hL
      obtain ⟨rfl, rfl⟩ := hL
      exact .cons h hp (.two hg)
    | z :: z' :: z'' :: l, hL => simp at hL
    | [z, z'], hL => simp at hL
  | @cons d x y l' d' d'' h hp' hz ih =>
    match l, hL with
    | [], hL => simp at hL
    | [z], hL =>
      exfalso
      simp only [List.cons_append, List.nil_append, List.cons.injEq] at hL
      obtain ⟨-, -, rfl⟩ := hL
      cases hz
    | z :: z' :: l, hL =>
      simp only [List.cons_append, List.cons.injEq] at hL
      obtain ⟨rfl, rfl, rfl⟩ := hL
      exact .cons h hp' (ih (l := z' :: l) hp rfl)

theorem Zig.get {d d' : Dir} {L : List (ℤ × ℤ)} (h : Zig d L d') : ∀ j (hj : j + 2 < L.length),
    ∃ u v, Perp u v ∧ Go u L[j] L[j + 1] ∧ Go v L[j + 1] L[j + 2] := by
  induction h with
  | two h => intro j hj; simp at hj
  | cons h hp hz ih =>
    intro j hj
    cases j with
    | zero =>
      cases hz with
      | two h' => exact ⟨_, _, hp, h, h'⟩
      | cons h' _ _ => exact ⟨_, _, hp, h, h'⟩
    | succ j => exact ih j (by simp only [List.length_cons] at hj ⊢; omega)

/-- A corner as a point of the plane -/
def ptK (K : Type) [Field K] (z : ℤ × ℤ) : Pt K := ⟨(z.1 : K), (z.2 : K)⟩

theorem ptK_inj {a b : ℤ × ℤ} (h : ptK K a = ptK K b) : a = b := by
  unfold ptK at h
  simp only [Pt.mk.injEq, Int.cast_inj] at h
  exact Prod.ext h.1 h.2

theorem Zig.sides {d d' : Dir} {L : List (ℤ × ℤ)} (h : Zig d L d') :
    ∀ s ∈ chain (L.map (ptK K)), ∃ u a b, Go u a b ∧ s = ⟨ptK K a, ptK K b⟩ := by
  induction h with
  | two h => intro s hs; simp [chain] at hs; subst hs; exact ⟨_, _, _, h, rfl⟩
  | cons h hp hz ih =>
    intro s hs
    simp only [List.map_cons, chain, List.mem_cons] at hs ih
    rcases hs with rfl | hs
    · exact ⟨_, _, _, h, rfl⟩
    · exact ih s hs

theorem go_not_straight {u v : Dir} {a b c : ℤ × ℤ} (hp : Perp u v) (h1 : Go u a b) (h2 : Go v b c) :
    straight (ptK K a) (ptK K b) (ptK K c) = false := by
  rw [Bool.eq_false_iff]
  intro hs
  rw [straight_iff] at hs
  obtain ⟨k, hk, rfl⟩ := h1
  obtain ⟨j, hj, rfl⟩ := h2
  have hkj : (k : K) * (j : K) ≠ 0 := by
    have h1 : (k : K) ≠ 0 := by exact_mod_cast hk.ne'
    have h2 : (j : K) ≠ 0 := by exact_mod_cast hj.ne'
    exact mul_ne_zero h1 h2
  apply hkj
  have hs1 := hs.1
  rcases hp with rfl | rfl <;> cases u <;> simp [ptK, ahead, turnL, turnR] at hs1 hkj ⊢ <;> tauto

/-! ## The polygon of a walk -/

theorem ray_self (p a : Pt K) : ¬ RayX p a a := by
  rintro ⟨h, -⟩
  rcases h with ⟨h1, h2⟩ | ⟨h1, h2⟩ <;> exact absurd h1 (not_le.2 h2)

theorem ray_go {p : Pt K} {e : Edge} {q : ℤ × ℤ} (h : q = e.beg ∨ Go e.d q e.beg) :
    RayX p (ptK K q) (ptK K e.fin) ↔ ¬ (RayX p (ptK K q) (ptK K e.beg) ↔ RayX p (ptK K e.beg) (ptK K e.fin)) := by
  apply rayX_split
  rw [fin_eq]
  rcases h with rfl | ⟨k, hk, hb⟩
  · exact ⟨0, le_rfl, zero_le_one, by simp, by simp⟩
  · have hk' : (0 : K) < (k : K) := by exact_mod_cast hk
    refine ⟨(k : K) / (k + 1), by positivity, by rw [div_le_one (by positivity)]; linarith, ?_, ?_⟩ <;>
      rw [hb] <;> simp only [ptK, Prod.fst_add, Prod.snd_add] <;> push_cast <;> field_simp <;> ring

theorem corners_odd (B : Cell → Prop) (p : Pt K) : ∀ (m : Nat) (e : Edge) (q : ℤ × ℤ), (q = e.beg ∨ Go e.d q e.beg) →
    (Geom.Odd (chain ((q :: corners B m e ++ [((next B)^[m] e).beg]).map (ptK K))) p ↔
      ¬ (RayX p (ptK K q) (ptK K e.beg) ↔ xsum (fun o => RayX p (ptK K o.beg) (ptK K o.fin)) (walk B m e)))
  | 0, e, q, h => by
    simp [corners, walk, chain, Geom.Odd]
  | m + 1, e, q, h => by
    rw [corners, Function.iterate_succ_apply, walk, xsum_cons]
    have hr := ray_go (p := p) h
    by_cases hd : (next B e).d = e.d
    · rw [if_pos hd, corners_odd B p m (next B e) q (by rw [fin_next, hd]; exact .inr (Go.fin h)), fin_next, hr]
      generalize RayX p (ptK K q) (ptK K e.beg) = X
      generalize RayX p (ptK K e.beg) (ptK K e.fin) = Y
      generalize xsum _ _ = Z
      by_cases X <;> by_cases Y <;> by_cases Z <;> simp [*]
    · rw [if_neg hd]
      have := corners_odd B p m (next B e) e.fin (by rw [fin_next]; exact .inl rfl)
      have hs := ray_self p (ptK K e.fin)
      rw [fin_next] at this
      simp only [List.cons_append, List.map_cons, chain, Geom.Odd, xsum_cons] at this ⊢
      rw [this, hr]
      generalize RayX p (ptK K q) (ptK K e.beg) = X
      generalize RayX p (ptK K e.beg) (ptK K e.fin) = Y
      generalize xsum _ _ = Z
      generalize RayX p (ptK K e.fin) (ptK K e.fin) = W at *
      by_cases X <;> by_cases Y <;> by_cases Z <;> simp [*]

/-- A point inside a cell, not too close to its lower and upper side. -/
def Within (T : Tol K) (p : Pt K) (c : ℤ × ℤ) : Prop :=
  (c.1 : K) < p.x ∧ p.x < c.1 + 1 ∧ c.2 + T.th ≤ p.y ∧ p.y ≤ c.2 + 1 - T.th

theorem ray_hit {T : Tol K} {p : Pt K} {c : Cell} (hp : Within T p c) (o : Edge) :
    RayX p (ptK K o.beg) (ptK K o.fin) ↔ hit c o := by
  obtain ⟨h1, h2, h3, h4⟩ := hp
  have ht := T.th_pos
  have h3' : (c.2 : K) < p.y := by linarith
  have h4' : p.y < c.2 + 1 := by linarith
  have hx : ∀ a : ℤ, p.x < (a : K) ↔ c.1 < a := by
    intro a
    constructor
    · intro h
      have : (c.1 : K) < (a : K) := h1.trans h
      exact_mod_cast this
    · intro h
      have h5 : c.1 + 1 ≤ a := h
      have : ((c.1 + 1 : ℤ) : K) ≤ (a : K) := by exact_mod_cast h5
      push_cast at this
      linarith
  have hy : ∀ b : ℤ, (p.y ≤ (b : K) + 1 ∧ (b : K) < p.y) ↔ b = c.2 := by
    intro b
    constructor
    · rintro ⟨h5, h6⟩
      have a1 : (b : K) < ((c.2 + 1 : ℤ) : K) := by push_cast; linarith
      have a2 : (c.2 : K) < ((b + 1 : ℤ) : K) := by push_cast; linarith
      have a3 : b < c.2 + 1 := by exact_mod_cast a1
      have a4 : c.2 < b + 1 := by exact_mod_cast a2
      omega
    · rintro rfl
      exact ⟨h4'.le, h3'⟩
  -- a vertical edge
  have vert : ∀ a b : ℤ, RayX p (ptK K (a, b)) (ptK K (a, b + 1)) ↔ b = c.2 ∧ c.1 < a := by
    intro a b
    rw [← hy b, ← hx a]
    constructor
    · rintro ⟨hs, q, hq, q1, q2⟩
      have hqx : q.x = (a : K) := by
        obtain ⟨t, _, _, hx, _⟩ := hq
        rw [hx]; simp [ptK]
      rw [hqx] at q2
      refine ⟨?_, q2⟩
      simp only [ptK] at hs
      push_cast at hs
      rcases hs with ⟨s1, s2⟩ | ⟨s1, s2⟩
      · linarith
      · exact ⟨s1, s2⟩
    · rintro ⟨⟨s1, s2⟩, s3⟩
      refine ⟨.inr ⟨by simp only [ptK]; push_cast; exact s1, s2⟩, ⟨(a : K), p.y⟩, ?_, rfl, s3⟩
      refine ⟨p.y - b, by linarith, by linarith, by simp [ptK], by simp [ptK]⟩
  obtain ⟨⟨a, b⟩, d⟩ := o
  cases d
  · have := vert a b
    simp only [Edge.beg, Edge.fin, Prod.mk_add_mk, add_zero, hit] at this ⊢
    rw [this]
    simp
  · have := vert (a + 1) b
    simp only [Edge.beg, Edge.fin, Prod.mk_add_mk, add_zero, hit] at this ⊢
    rw [show RayX p (ptK K (a + 1, b + 1)) (ptK K (a + 1, b)) ↔ RayX p (ptK K (a + 1, b)) (ptK K (a + 1, b + 1)) from
      ⟨RayX.symm, RayX.symm⟩, this]
    simp
    intro _
    omega
  · simp only [Edge.beg, Edge.fin, Prod.mk_add_mk, add_zero, hit]
    simp only [reduceCtorEq, false_and, or_self, iff_false]
    rintro ⟨hs, -⟩
    simp only [ptK] at hs
    rcases hs with ⟨s1, s2⟩ | ⟨s1, s2⟩ <;> exact absurd s1 (not_le.2 s2)
  · simp only [Edge.beg, Edge.fin, Prod.mk_add_mk, add_zero, zero_add, hit]
    simp only [reduceCtorEq, false_and, or_self, iff_false]
    rintro ⟨hs, -⟩
    simp only [ptK] at hs
    rcases hs with ⟨s1, s2⟩ | ⟨s1, s2⟩ <;> exact absurd s1 (not_le.2 s2)

theorem rmcol_bent_eq (vs : List (Pt K)) (i : Nat) (h : ∀ k, Bent vs k) : rmcol vs i = vs := by
  induction hn : vs.length - i generalizing i with
  | zero =>
    rw [rmcol, dif_neg (by omega)]
  | succ n ih =>
    have hi : i < vs.length := by omega
    rw [rmcol, dif_pos hi]
    have := h (i + 1) i hi (by omega)
    simp only [this, Bool.false_eq_true, if_false]
    exact ih (i + 1) (by omega)

theorem go_clean {T : Tol K} {u : Dir} {a b : ℤ × ℤ} (h : Go u a b) : CleanSide T ⟨ptK K a, ptK K b⟩ := by
  obtain ⟨k, hk, rfl⟩ := h
  have hk' : (1 : K) ≤ (k : K) := by exact_mod_cast hk
  have hk0 : (0 : K) ≤ (k : K) := by linarith
  have ht := T.th_le
  have hd : u = .up ∨ u = .down ∨ u = .left ∨ u = .right := by cases u <;> simp
  have ha : T.th ≤ |(k : K)| := by rw [abs_of_nonneg hk0]; linarith
  rcases hd with rfl | rfl | rfl | rfl
  · exact ⟨.inl (by simp [ptK, ahead]), fun h => absurd (by simp [ptK, ahead]) h⟩
  · exact ⟨.inl (by simp [ptK, ahead]), fun h => absurd (by simp [ptK, ahead]) h⟩
  · exact ⟨.inr (by simpa [ptK, ahead] using ha), fun _ => .inl (by simp [ptK, ahead, Seg.slope])⟩
  · exact ⟨.inr (by simpa [ptK, ahead] using ha), fun _ => .inl (by simp [ptK, ahead, Seg.slope])⟩

theorem int_cleanY {T : Tol K} {p : Pt K} {c : ℤ × ℤ} (hp : Within T p c) (a b : ℤ × ℤ) :
    CleanY T p ⟨ptK K a, ptK K b⟩ := by
  obtain ⟨-, -, h3, h4⟩ := hp
  have key : ∀ y : ℤ, T.th ≤ |(y : K) - p.y| := by
    intro y
    by_cases hy : y ≤ c.2
    · have : (y : K) ≤ (c.2 : K) := by exact_mod_cast hy
      rw [abs_sub_comm]
      exact le_trans (by linarith) (le_abs_self _)
    · have h5 : c.2 + 1 ≤ y := by omega
      have : ((c.2 + 1 : ℤ) : K) ≤ (y : K) := by exact_mod_cast h5
      push_cast at this
      exact le_trans (by linarith) (le_abs_self _)
  exact ⟨.inr (key _), .inr (key _)⟩

theorem corners_snoc (B : Cell → Prop) : ∀ (m : Nat) (e : Edge), corners B (m + 1) e =
    corners B m e ++ if (next B ((next B)^[m] e)).d = ((next B)^[m] e).d then [] else [((next B)^[m] e).fin]
  | 0, e => by
    rw [corners, corners, corners]
    rfl
  | m + 1, e => by
    rw [corners, corners_snoc B m (next B e)]
    conv_rhs => rw [corners]
    rw [Function.iterate_succ_apply]
    split_ifs <;> simp

theorem chain_snoc (vs : List (Pt K)) (hne : vs ≠ []) (b : Pt K) : chain (vs ++ [b]) = chain vs ++ [⟨vs.getLast hne, b⟩] := by
  have h := List.dropLast_append_getLast hne
  conv_lhs => rw [← h]
  rw [List.append_assoc, List.singleton_append, chain_append, h]
  simp [chain]

/-- The polygon through the corners of a closed walk contains what the walk encircles. -/
theorem loop_poly (T : Tol K) {B : Cell → Prop} {n : Nat} {e : Edge} (hl : Loop B n e) (hd : e.d = .up)
    (hturn : ((next B)^[n - 1] e).d ≠ .up) :
    ∃ P, Poly.ofVerts ((e.beg :: corners B (n - 1) e).map (ptK K)) = .ok P ∧
      P.verts = (e.beg :: corners B (n - 1) e).map (ptK K) ∧
      (∀ s ∈ P.sides, ∃ u a b, Go u a b ∧ s = ⟨ptK K a, ptK K b⟩) ∧
      ∀ c p, Within T p c → (P.contains T p = true ↔ Enc B n e c) := by
  have hn : n - 1 + 1 = n := by have := hl.pos; omega
  have hnext : next B ((next B)^[n - 1] e) = e := by
    rw [← Function.iterate_succ_apply' (next B), show (n - 1).succ = n from hn, hl.closed]
  have hfin : ((next B)^[n - 1] e).fin = e.beg := by rw [← fin_next B, hnext]
  have hperp : Perp ((next B)^[n - 1] e).d .up := by
    have := next_perp B ((next B)^[n - 1] e)
    rw [hnext, hd] at this
    exact this.resolve_left fun h => hturn h.symm
  have hz := corners_zig B (n - 1) e e.beg (.inl rfl)
  rw [hfin, hd] at hz
  have hcs : corners B n e = corners B (n - 1) e ++ [e.beg] := by
    conv_lhs => rw [← hn]
    rw [corners_snoc, hnext, hd, if_neg (fun h => hturn h.symm), hfin]
  generalize hdl : ((next B)^[n - 1] e).d = dl at hz hperp
  -- at least three points
  obtain ⟨b, b', l, hcl⟩ : ∃ b b' l, corners B (n - 1) e = b :: b' :: l := by
    match hc : corners B (n - 1) e with
    | [] =>
      rw [hc] at hz
      exfalso
      generalize e.beg = a at hz
      cases hz with
      | two h =>
        obtain ⟨k, hk, h⟩ := h
        have := congrArg Prod.snd h
        simp [ahead] at this
        omega
      | cons _ _ hz => cases hz
    | [b] =>
      rw [hc] at hz
      exfalso
      generalize e.beg = a at hz
      simp only [List.cons_append, List.nil_append] at hz
      cases hz with
      | @cons _ _ _ _ d' _ h hp hz =>
        have h' : Go d' b a := by
          cases hz with
          | two h => exact h
          | cons _ _ hz => cases hz
        obtain ⟨k, hk, rfl⟩ := h
        obtain ⟨j, hj, h⟩ := h'
        have h1 := congrArg Prod.fst h
        have h2 := congrArg Prod.snd h
        rcases hp with rfl | rfl <;> simp [ahead, turnL, turnR] at h1 h2 <;> omega
    | b :: b' :: l => exact ⟨b, b', l, rfl⟩
  rw [hcl] at hz ⊢
  have hgo : Go .up e.beg b := by
    cases hz with
    | cons h _ _ => exact h
  have hz2 : Zig .up ((e.beg :: b :: b' :: l) ++ [e.beg, b]) .up := hz.snoc hperp hgo
  set pts : List (ℤ × ℤ) := e.beg :: b :: b' :: l with hpts
  have hlen : 3 ≤ pts.length := by simp [hpts]
  have hmk : (pts.map (ptK K)).length = pts.length := List.length_map ..
  have hbent : ∀ k, Bent (pts.map (ptK K)) k := by
    intro k j hj _
    rw [hmk] at hj
    have hget : ∀ (i : Nat) (hi : i < (pts ++ [e.beg, b]).length) (h : i < pts.length), (pts ++ [e.beg, b])[i] = pts[i] :=
      fun i hi h => List.getElem_append_left h
    have hl2 : (pts ++ [e.beg, b]).length = pts.length + 2 := by simp
    have h0 : pts[0] = e.beg := rfl
    have h1 : pts[1] = b := rfl
    have g0 : (pts ++ [e.beg, b])[pts.length]'(by omega) = e.beg := by
      rw [List.getElem_append_right (le_refl _)]; simp
    have g1 : (pts ++ [e.beg, b])[pts.length + 1]'(by omega) = b := by
      rw [List.getElem_append_right (by omega)]; simp
    by_cases hj0 : j = 0
    · subst hj0
      obtain ⟨u, v, hp, a1, a2⟩ := hz2.get (pts.length - 1) (by omega)
      have e1 : pts.length - 1 + 1 = pts.length := by omega
      have e2 : pts.length - 1 + 2 = pts.length + 1 := by omega
      simp only [e1, e2, g0, g1] at a1 a2
      rw [hget _ _ (by omega)] at a1
      have := go_not_straight (K := K) hp a1 a2
      simp only [nbrs, List.getElem_map, if_true, h0]
      rw [dif_neg (by rw [hmk]; omega)]
      simp only [hmk, zero_add, h1]
      exact this
    · obtain ⟨u, v, hp, a1, a2⟩ := hz2.get (j - 1) (by omega)
      have e1 : j - 1 + 1 = j := by omega
      have e2 : j - 1 + 2 = j + 1 := by omega
      simp only [e1, e2] at a1 a2
      rw [hget _ _ (by omega), hget _ _ (by omega)] at a1
      rw [hget j _ (by omega)] at a2
      have hs := go_not_straight (K := K) hp a1 a2
      simp only [nbrs, List.getElem_map, if_neg hj0]
      by_cases hjl : j = (pts.map (ptK K)).length - 1
      · rw [dif_pos hjl]
        have e3 : j + 1 = pts.length := by rw [hmk] at hjl; omega
        simp only [e3, g0] at hs
        rw [h0]
        exact hs
      · rw [dif_neg hjl]
        rw [hmk] at hjl
        rw [hget (j + 1) _ (by omega)] at hs
        exact hs
  have hne : pts.map (ptK K) ≠ [] := by simp [hpts]
  have hrm := rmcol_bent_eq (pts.map (ptK K)) 0 hbent
  refine ⟨⟨pts.map (ptK K), cyc (pts.map (ptK K)) hne, Bbox.ofPts (pts.map (ptK K))⟩, ?_, rfl, ?_, ?_⟩
  · unfold Poly.ofVerts
    rw [if_neg (by rw [hmk]; omega)]
    unfold Poly.make
    simp only [hrm, initsides_eq hne, Outcome.map_ok]
  all_goals
    have hcyc : cyc (pts.map (ptK K)) hne = chain ((pts ++ [e.beg]).map (ptK K)) := by
      rw [List.map_append, List.map_singleton, chain_snoc _ hne]
      rfl
    have hsides : ∀ s ∈ cyc (pts.map (ptK K)) hne, ∃ u a b, Go u a b ∧ s = ⟨ptK K a, ptK K b⟩ := by
      rw [hcyc]
      exact hz.sides
  · exact hsides
  · intro c p hp
    rw [contains_iff (by
      intro s hs
      obtain ⟨u, a, b, h1, rfl⟩ := hsides s hs
      exact ⟨go_clean h1, int_cleanY hp a b⟩)]
    have hodd := corners_odd (K := K) B p n e e.beg (.inl rfl)
    rw [hl.closed, hcs, hcl] at hodd
    have hsplit : (e.beg :: ((b :: b' :: l) ++ [e.beg]) ++ [e.beg]).map (ptK K) =
        pts.map (ptK K) ++ ptK K e.beg :: [ptK K e.beg] := by simp [hpts]
    rw [hsplit, chain_append] at hodd
    have hs := ray_self p (ptK K e.beg)
    simp only
    rw [hcyc, List.map_append, List.map_singleton]
    unfold Geom.Odd at hodd ⊢
    rw [xsum_append] at hodd
    simp only [chain, xsum_cons, xsum_nil] at hodd
    have hw : xsum (fun o : Edge => RayX p (ptK K o.beg) (ptK K o.fin)) (walk B n e) ↔ Enc B n e c :=
      xsum_congr fun o _ => ray_hit hp o
    rw [hw] at hodd
    generalize RayX p (ptK K e.beg) (ptK K e.beg) = W at hodd hs
    generalize xsum (fun s : Seg K => RayX p s.p0 s.p1) _ = X at hodd ⊢
    generalize Enc B n e c = E at hodd ⊢
    clear hw hsplit hsides hcyc hz hz2
    by_cases X <;> by_cases E <;> simp_all

/-! ## The walk of the code -/

/-- The component has the cells `B`. -/
structure Rep (c : Comp) (w h : Nat) (B : Cell → Prop) : Prop where
  w_eq : c.w = w
  h_eq : c.h = h
  blk : ∀ x y : Nat, c.blocked x y = true ↔ B ((x : ℤ), (y : ℤ))
  sub : ∀ z, B z → InG w h z

def absP (p : Pose) : Edge := ⟨((p.x : ℤ), (p.y : ℤ)), p.dir⟩

theorem absP_inj {p q : Pose} (h : absP p = absP q) : p = q := by
  obtain ⟨x, y, d⟩ := p
  obtain ⟨x', y', d'⟩ := q
  simp only [absP, Edge.mk.injEq, Prod.mk.injEq, Nat.cast_inj] at h
  obtain ⟨⟨rfl, rfl⟩, rfl⟩ := h
  rfl

/-- The `unsigned int` stands for the coordinate. -/
def Co (u : Nat) (z : ℤ) : Prop := z = u ∨ (z = -1 ∧ u = 2 ^ 32 - 1)

theorem co_dec {x : Nat} (h : x < 2 ^ 32) : Co (dec x) ((x : ℤ) + -1) := by
  unfold Co dec
  by_cases h0 : x = 0
  · subst h0; right; simp
  · left; omega

theorem co_inc {x : Nat} (h : x + 1 < 2 ^ 32) : Co (inc x) ((x : ℤ) + 1) := by
  unfold Co inc
  left; omega

section
variable {c : Comp} {w h : Nat} {B : Cell → Prop} (hr : Rep c w h B) (hw : w < 2 ^ 32) (hh : h < 2 ^ 32)
include hr hw hh

theorem blk_co {u v : Nat} {a b : ℤ} (hu : Co u a) (hv : Co v b) :
    (c.blocked u v = true ↔ B (a, b)) ∧ (B (a, b) → (a, b) = ((u : ℤ), (v : ℤ))) := by
  rcases hu with rfl | ⟨rfl, rfl⟩
  · rcases hv with rfl | ⟨rfl, rfl⟩
    · exact ⟨hr.blk _ _, fun _ => rfl⟩
    · have h1 : ¬ B ((u : ℤ), -1) := fun hb => by have := (hr.sub _ hb).2.1; simp at this
      refine ⟨⟨fun hb => ?_, fun hb => absurd hb h1⟩, fun hb => absurd hb h1⟩
      exfalso
      have := (hr.sub _ ((hr.blk _ _).1 hb)).2.2
      simp only at this
      omega
  · have h1 : ¬ B (-1, b) := fun hb => by have := (hr.sub _ hb).1.1; simp at this
    refine ⟨⟨fun hb => ?_, fun hb => absurd hb h1⟩, fun hb => absurd hb h1⟩
    exfalso
    have := (hr.sub _ ((hr.blk _ _).1 hb)).1.2
    simp only at this
    omega

theorem clockwise_abs {p : Pose} (hp : B (absP p).c) : absP (c.clockwise p) = next B (absP p) := by
  obtain ⟨⟨h1, h2⟩, h3, h4⟩ := hr.sub _ hp
  obtain ⟨x, y, d⟩ := p
  simp only [absP] at h1 h2 h3 h4
  have hx : x < w := by omega
  have hy : y < h := by omega
  have X1 := co_dec (x := x) (by omega)
  have X2 := co_inc (x := x) (by omega)
  have X0 : Co x ((x : ℤ) + 0) := .inl (by omega)
  have Y1 := co_dec (x := y) (by omega)
  have Y2 := co_inc (x := y) (by omega)
  have Y0 : Co y ((y : ℤ) + 0) := .inl (by omega)
  have key : ∀ {u v u' v' : Nat} {a b a' b' : ℤ}, Co u a → Co v b → Co u' a' → Co v' b' →
      ((x : ℤ), (y : ℤ)) + ahead d + side d = (a, b) → ((x : ℤ), (y : ℤ)) + ahead d = (a', b') →
      absP (if c.blocked u v = true then ⟨u, v, turnL d⟩ else if c.blocked u' v' = true then ⟨u', v', d⟩
        else ⟨x, y, turnR d⟩) = next B ⟨((x : ℤ), (y : ℤ)), d⟩ := by
    intro u v u' v' a b a' b' hu hv hu' hv' e1 e2
    obtain ⟨k1, k2⟩ := blk_co hr hw hh hu hv
    obtain ⟨k3, k4⟩ := blk_co hr hw hh hu' hv'
    have hnc := next_cases B ⟨((x : ℤ), (y : ℤ)), d⟩
    simp only at hnc
    rw [e1, e2] at hnc
    rcases hnc with ⟨b1, hn⟩ | ⟨b1, b2, hn⟩ | ⟨b1, b2, hn⟩ <;> rw [hn]
    · rw [if_pos (k1.2 b1), k2 b1]; rfl
    · rw [if_neg (fun hb => b1 (k1.1 hb)), if_pos (k3.2 b2), k4 b2]; rfl
    · rw [if_neg (fun hb => b1 (k1.1 hb)), if_neg (fun hb => b2 (k3.1 hb))]; rfl
  cases d
  · exact key X1 Y2 X0 Y2 (by simp [ahead, side]) rfl
  · exact key X2 Y1 X0 Y1 (by simp [ahead, side]) rfl
  · exact key X1 Y1 X1 Y0 (by simp [ahead, side]) rfl
  · exact key X2 Y2 X2 Y0 (by simp [ahead, side]) rfl

theorem corner_abs {p : Pose} (hp : B (absP p).c) : corner K p = ptK K (absP p).fin := by
  obtain ⟨⟨h1, h2⟩, h3, h4⟩ := hr.sub _ hp
  obtain ⟨x, y, d⟩ := p
  simp only [absP] at h1 h2 h3 h4
  have hx : inc x = x + 1 := by unfold inc; omega
  have hy : inc y = y + 1 := by unfold inc; omega
  cases d <;> simp [corner, ptK, absP, Edge.fin, hx, hy]

theorem trace_spec {n : Nat} (hl : Loop B n (absP ⟨c.minx, c.miny, .up⟩))
    (hturn : ((next B)^[n - 1] (absP ⟨c.minx, c.miny, .up⟩)).d ≠ .up) :
    ∀ (m i : Nat) (cur : Pose) (pts : List (Pt K)) (f : Nat), i + m + 1 = n →
      absP cur = (next B)^[i] (absP ⟨c.minx, c.miny, .up⟩) → m + 1 ≤ f →
      c.trace K f cur pts = .ok (pts ++ (corners B m (absP cur)).map (ptK K)) := by
  intro m
  induction m with
  | zero =>
    intro i cur pts f hn hcur hf
    obtain ⟨f, rfl⟩ : ∃ g, f = g + 1 := ⟨f - 1, by omega⟩
    have hb : Bd B (absP cur) := by rw [hcur]; exact iter_bd hl.bd i
    have hnx := clockwise_abs hr hw hh hb.1
    have hi : i = n - 1 := by omega
    have hlast : next B (absP cur) = absP ⟨c.minx, c.miny, .up⟩ := by
      rw [hcur, ← Function.iterate_succ_apply' (next B), show i.succ = n by omega, hl.closed]
    rw [hlast] at hnx
    have hnx' := absP_inj hnx
    rw [Comp.trace]
    simp only [hnx']
    have hdir : cur.dir ≠ .up := by
      intro hd
      apply hturn
      rw [← hi, ← hcur]
      exact hd
    rw [if_neg hdir]
    simp [corners]
  | succ m ih =>
    intro i cur pts f hn hcur hf
    obtain ⟨f, rfl⟩ : ∃ g, f = g + 1 := ⟨f - 1, by omega⟩
    have hb : Bd B (absP cur) := by rw [hcur]; exact iter_bd hl.bd i
    have hnx := clockwise_abs hr hw hh hb.1
    have hcur' : absP (c.clockwise cur) = (next B)^[i + 1] (absP ⟨c.minx, c.miny, .up⟩) := by
      rw [hnx, hcur, ← Function.iterate_succ_apply' (next B)]
    have hdn : (next B (absP cur)).d = (c.clockwise cur).dir := by rw [← hnx]; rfl
    have hdc : (absP cur).d = cur.dir := rfl
    rw [Comp.trace, corners, hdn, hdc]
    by_cases hd : cur.dir = (c.clockwise cur).dir
    · rw [if_pos hd, if_pos hd.symm, ih (i + 1) _ pts f (by omega) hcur' (by omega), hnx]
    · have hne : ¬ ((c.clockwise cur).x = c.minx ∧ (c.clockwise cur).y = c.miny ∧ (c.clockwise cur).dir = .up) := by
        rintro ⟨e1, e2, e3⟩
        apply hl.first (i + 1) (by omega) (by omega)
        rw [← hcur']
        unfold absP
        rw [e1, e2, e3]
      rw [if_neg hd, if_neg hne, if_neg (fun h => hd h.symm), ih (i + 1) _ _ f (by omega) hcur' (by omega), hnx, corner_abs hr hw hh hb.1]
      simp

/-- `Comp::poly` returns the polygon of the border, if the walk does not come back to the first edge straight on. -/
theorem comp_poly (T : Tol K) (hb : Bd B (absP ⟨c.minx, c.miny, .up⟩))
    (hs : ¬ (B ((c.minx : ℤ), (c.miny : ℤ) - 1) ∧ ¬ B ((c.minx : ℤ) - 1, (c.miny : ℤ) - 1))) :
    ∃ n P, Loop B n (absP ⟨c.minx, c.miny, .up⟩) ∧ (∀ f, n ≤ f → c.poly K f = .ok P) ∧
      (∀ s ∈ P.sides, ∃ u a b, Go u a b ∧ s = ⟨ptK K a, ptK K b⟩) ∧
      ∀ z p, Within T p z → (P.contains T p = true ↔ Enc B n (absP ⟨c.minx, c.miny, .up⟩) z) := by
  obtain ⟨n, n1, n2, n3⟩ := exists_loop (finite_of_inG hr.sub) hb
  have hl : Loop B n (absP ⟨c.minx, c.miny, .up⟩) := ⟨hb, n1, n2, n3⟩
  have hturn : ((next B)^[n - 1] (absP ⟨c.minx, c.miny, .up⟩)).d ≠ .up := by
    intro hd
    have hnext : next B ((next B)^[n - 1] (absP ⟨c.minx, c.miny, .up⟩)) = absP ⟨c.minx, c.miny, .up⟩ := by
      rw [← Function.iterate_succ_apply' (next B), show (n - 1).succ = n by omega, hl.closed]
    have := straight_pred (iter_bd hb (n - 1)) (by rw [hnext, hd]; rfl)
    rw [hnext, hd] at this
    apply hs
    simpa [absP, ahead, side, sub_eq_add_neg] using this
  obtain ⟨P, h1, -, h3, h4⟩ := loop_poly T hl rfl hturn
  refine ⟨n, P, hl, fun f hf => ?_, h3, h4⟩
  unfold Comp.poly
  have := trace_spec (K := K) hr hw hh hl hturn (n - 1) 0 ⟨c.minx, c.miny, .up⟩ [⟨(c.minx : K), (c.miny : K)⟩] f (by omega) rfl
    (by omega)
  rw [this, Outcome.bind_ok, ← h1]
  simp [ptK, absP, Edge.beg]

end

end Verif.Grid2Poly
