import Verif.Domains.Grid2PolyMap
import Mathlib.Tactic.IntervalCases
import Mathlib.Tactic.FinCases

/-!
# C92: polygon maps made from bitmaps

The bitmap has `w` columns of `h` cells; `blkd (x * h + y)` tells whether cell `(x, y)`, the unit square from `(x, y)` to
`(x + 1, y + 1)`, is blocked.
-/

namespace Verif.Grid2Poly

open Verif.Geom Verif.Contour

variable {K : Type} [Field K] [LinearOrder K] [IsStrictOrderedRing K]

/-! ## What a map should be -/

/-- A cell of the bitmap that is not blocked. -/
def FreeCell (blkd : Nat → Bool) (w h : Nat) (c : Nat × Nat) : Prop := c.1 < w ∧ c.2 < h ∧ blkd (c.1 * h + c.2) = false

/-- Cells with a common side. -/
inductive Beside : Nat × Nat → Nat × Nat → Prop
  | east (x y : Nat) : Beside (x, y) (x + 1, y)
  | west (x y : Nat) : Beside (x + 1, y) (x, y)
  | north (x y : Nat) : Beside (x, y) (x, y + 1)
  | south (x y : Nat) : Beside (x, y + 1) (x, y)

/-- One can walk from `s` to `c` across the sides of free cells. -/
def CanWalk (blkd : Nat → Bool) (w h : Nat) (s c : Nat × Nat) : Prop :=
  FreeCell blkd w h s ∧ Relation.ReflTransGen (fun a b => Beside a b ∧ FreeCell blkd w h b) s c

/-- The cells at the four edges of the bitmap are blocked. -/
def Walled (blkd : Nat → Bool) (w h : Nat) : Prop :=
  ∀ x y, x < w → y < h → x = 0 ∨ x + 1 = w ∨ y = 0 ∨ y + 1 = h → blkd (x * h + y) = true

/-- The point lies in the open cell, at least the threshold away from its lower and upper sides. -/
def InCell (T : Tol K) (x y : ℤ) (p : Pt K) : Prop := (x : K) < p.x ∧ p.x < x + 1 ∧ y + T.th ≤ p.y ∧ p.y ≤ y + 1 - T.th

/-! ## The two notions of a way -/

theorem free_zc {blkd : Nat → Bool} {w h : Nat} {c : Nat × Nat} :
    FreeCell blkd w h c ↔ InG w h (zc c) ∧ ¬ KB blkd w h (zc c) := by
  rw [kb_zc]
  unfold FreeCell ix InG zc
  cases hb : blkd (c.1 * h + c.2) <;> simp [and_assoc]
  intros; omega

theorem beside_adj {a b : Nat × Nat} (hb : Beside a b) : Adj4 (zc a) (zc b) := by
  cases hb with
  | east x y => exact ⟨.down, by simp [zc, side]⟩
  | west x y => exact ⟨.up, by simp [zc, side]⟩
  | north x y => exact ⟨.right, by simp [zc, side]⟩
  | south x y => exact ⟨.left, by simp [zc, side]⟩

theorem adj_beside {a b : Nat × Nat} (hb : Adj4 (zc a) (zc b)) : Beside a b := by
  obtain ⟨d, hd⟩ := hb
  obtain ⟨x, y⟩ := a
  obtain ⟨x', y'⟩ := b
  cases d <;> simp only [zc, side, Prod.mk_add_mk, Prod.mk.injEq] at hd
  · obtain rfl : x = x' + 1 := by omega
    obtain rfl : y = y' := by omega
    exact .west _ _
  · obtain rfl : x' = x + 1 := by omega
    obtain rfl : y = y' := by omega
    exact .east _ _
  · obtain rfl : y = y' + 1 := by omega
    obtain rfl : x = x' := by omega
    exact .south _ _
  · obtain rfl : y' = y + 1 := by omega
    obtain rfl : x = x' := by omega
    exact .north _ _

theorem way_walk {blkd : Nat → Bool} {w h : Nat} (hM : Closed w h (KB blkd w h)) {s : Nat × Nat} (hs : FreeCell blkd w h s)
    {z : Cell} (hw : Way (fun c => ¬ KB blkd w h c) (zc s) z) : ∃ c, z = zc c ∧ CanWalk blkd w h s c := by
  have hgo : ∀ z, Way (fun c => ¬ KB blkd w h c) (zc s) z → InG w h z := fun z hz =>
    way_inG hM (free_zc.1 hs).1 (hz.mono fun v hv hc => hv (cls_sub hc))
  induction hw with
  | refl => exact ⟨s, rfl, hs, .refl⟩
  | tail h1 h2 ih =>
    rename_i u v
    obtain ⟨c, rfl, -, hc⟩ := ih
    have hv := hgo v (Relation.ReflTransGen.tail h1 h2)
    have ev : v = zc (v.1.toNat, v.2.toNat) := by
      obtain ⟨⟨v1, -⟩, v2, -⟩ := hv
      ext <;> simp [zc, v1, v2]
    refine ⟨(v.1.toNat, v.2.toNat), ev, hs, hc.tail ⟨adj_beside (ev ▸ h2.1), ?_⟩⟩
    rw [free_zc, ← ev]
    exact ⟨hv, h2.2.2⟩

theorem walk_way {blkd : Nat → Bool} {w h : Nat} {s c : Nat × Nat} (hc : CanWalk blkd w h s c) :
    FreeCell blkd w h c ∧ Way (fun c => ¬ KB blkd w h c) (zc s) (zc c) := by
  obtain ⟨hs, hc⟩ := hc
  induction hc with
  | refl => exact ⟨hs, .refl⟩
  | tail _ h2 ih => exact ⟨h2.2, ih.2.tail ⟨beside_adj h2.1, (free_zc.1 ih.1).2, (free_zc.1 h2.2).2⟩⟩

/-! ## The theorems -/

/-- **C92.**  A bitmap with a blocked edge and at least one free cell becomes, in finitely many steps, a map whose polygons
have horizontal and vertical sides between integer points.  A point in a cell is not obstructed in that map if and only if
one can walk, in the bitmap, to that cell from the right-most free cell of the lowest row that has one; points beyond the
bitmap are obstructed. -/
theorem c92_map_partial (T : Tol K) {blkd : Nat → Bool} {w h : Nat} (hwh : w * h < 2 ^ 32) (hwall : Walled blkd w h)
    (hfree : ∃ c, FreeCell blkd w h c) :
    ∃ N m s, (∀ f, N ≤ f → polyMap K f blkd w h = .ok m) ∧
      (∀ P, (m.bound = some P ∨ P ∈ m.polys) → ∀ l ∈ P.sides, ∃ x0 y0 x1 y1 : ℤ, (x0 = x1 ∧ y0 ≠ y1 ∨ x0 ≠ x1 ∧ y0 = y1) ∧
        l = ⟨⟨(x0 : K), (y0 : K)⟩, ⟨(x1 : K), (y1 : K)⟩⟩) ∧
      FreeCell blkd w h s ∧ (∀ c, FreeCell blkd w h c → s.2 < c.2 ∨ (s.2 = c.2 ∧ c.1 ≤ s.1)) ∧
      (∀ (x y : Nat) (p : Pt K), InCell T x y p → (m.obstructed T p = false ↔ CanWalk blkd w h s (x, y))) ∧
      ∀ (x y : ℤ) (p : Pt K), InCell T x y p → (x < 0 ∨ w ≤ x ∨ y < 0 ∨ h ≤ y) → m.obstructed T p = true := by
  obtain ⟨c, hc⟩ := hfree
  have hM : Closed w h (KB blkd w h) := by
    refine ⟨fun c hc => hc.1, fun z hz hb => ⟨hz, ?_⟩, ?_, ?_⟩
    · obtain ⟨⟨z1, z2⟩, z3, z4⟩ := hz
      exact hwall _ _ (by omega) (by omega) (by omega)
    · have := hc.1; omega
    · have := hc.2.1; omega
  obtain ⟨N, m, s, h1, h2, h3, h4, h5, h6⟩ := map_spec T hwh hM (free_zc.1 hc).1 (free_zc.1 hc).2
  have es : s = zc (s.1.toNat, s.2.toNat) := by
    obtain ⟨⟨v1, -⟩, v2, -⟩ := h3
    ext <;> simp [zc, v1, v2]
  have hsf : FreeCell blkd w h (s.1.toNat, s.2.toNat) := by
    rw [free_zc, ← es]
    exact ⟨h3, h4⟩
  refine ⟨N, m, (s.1.toNat, s.2.toNat), h1, ?_, hsf, ?_, ?_, ?_⟩
  · intro P hP l hl
    obtain ⟨u, a, b, ⟨k, k0, rfl⟩, rfl⟩ := h2 P hP l hl
    refine ⟨a.1, a.2, _, _, ?_, rfl⟩
    cases u <;> simp [ahead] <;> omega
  · intro d hd
    have := h5 (zc d) (free_zc.1 hd).1 (free_zc.1 hd).2
    obtain ⟨⟨v1, -⟩, v2, -⟩ := h3
    simp only [zc] at this
    simp only
    omega
  · intro x y p hp
    rw [h6 (zc (x, y)) p hp]
    constructor
    · rintro ⟨g1, g2, g3⟩
      rw [es] at g3
      obtain ⟨d, e, hd⟩ := way_walk hM hsf g3
      have : d = (x, y) := by
        unfold zc at e
        simp only [Prod.mk.injEq, Nat.cast_inj] at e
        ext
        · exact e.1.symm
        · exact e.2.symm
      rwa [this] at hd
    · intro hd
      obtain ⟨g1, g2⟩ := walk_way hd
      rw [← es] at g2
      exact ⟨(free_zc.1 g1).1, (free_zc.1 g1).2, g2⟩
  · intro x y p hp hout
    by_contra hne
    rw [Bool.not_eq_true] at hne
    obtain ⟨⟨⟨g1, g2⟩, g3, g4⟩, -⟩ := (h6 (x, y) p hp).1 hne
    simp only at g1 g2 g3 g4
    omega

/-- **C92.**  When the free cells hang together, the map obstructs exactly the blocked cells. -/
theorem c92_connected (T : Tol K) {blkd : Nat → Bool} {w h : Nat} (hwh : w * h < 2 ^ 32) (hwall : Walled blkd w h)
    (hfree : ∃ c, FreeCell blkd w h c)
    (hconn : ∀ a b, FreeCell blkd w h a → FreeCell blkd w h b → CanWalk blkd w h a b) :
    ∃ N m, (∀ f, N ≤ f → polyMap K f blkd w h = .ok m) ∧
      ∀ (x y : Nat) (p : Pt K), x < w → y < h → InCell T x y p → m.obstructed T p = blkd (x * h + y) := by
  obtain ⟨N, m, s, h1, -, h3, -, h5, -⟩ := c92_map_partial T hwh hwall hfree
  refine ⟨N, m, h1, fun x y p hx hy hp => ?_⟩
  have := h5 x y p hp
  cases hb : blkd (x * h + y) with
  | false => exact this.2 (hconn _ _ h3 ⟨hx, hy, hb⟩)
  | true =>
    by_contra hne
    rw [Bool.not_eq_true] at hne
    obtain ⟨-, -, hf⟩ := (walk_way (this.1 hne)).1
    simp only [hb] at hf
    cases hf

/-! ## A bitmap to look at -/

def exT : Tol ℚ := ⟨1 / 10 ^ 9, 1 / 10 ^ 6, by norm_num, by norm_num, by norm_num⟩

/-- The bitmap of the picture, whose lines are the columns. -/
def pict (cols : List String) : Nat → Bool := fun i => ((cols.map String.toList).flatten.getD i '.') == '#'

/-- A ring of free cells around a pillar. -/
def ring : Nat → Bool := pict ["#####", "#...#", "#.#.#", "#...#", "#####"]

theorem ring_walled : Walled ring 5 5 := by
  intro x y hx hy
  interval_cases x <;> interval_cases y <;> simp <;> decide

theorem ring_free (c : Nat × Nat) : FreeCell ring 5 5 c ↔ c ∈ [(1, 1), (1, 2), (1, 3), (2, 3), (3, 3), (3, 2), (3, 1), (2, 1)] := by
  constructor
  · rintro ⟨h1, h2, h3⟩
    obtain ⟨x, y⟩ := c
    simp only at h1 h2 h3
    interval_cases x <;> interval_cases y <;> first | decide | (exfalso; revert h3; decide)
  · intro hc
    fin_cases hc <;> exact ⟨by decide, by decide, by decide⟩

example : ∃ N m, (∀ f, N ≤ f → polyMap ℚ f ring 5 5 = .ok m) ∧
    m.obstructed exT ⟨3 / 2, 3 / 2⟩ = false ∧ m.obstructed exT ⟨5 / 2, 5 / 2⟩ = true := by
  have hst : ∀ a ∈ [(1, 1), (1, 2), (1, 3), (2, 3), (3, 3), (3, 2), (3, 1), (2, 1)], CanWalk ring 5 5 (1, 1) a ∧ CanWalk ring 5 5 a (1, 1) := by
    have f : ∀ c ∈ [(1, 1), (1, 2), (1, 3), (2, 3), (3, 3), (3, 2), (3, 1), (2, 1)], FreeCell ring 5 5 c := fun c hc => (ring_free c).2 hc
    have st : ∀ {a b c : Nat × Nat}, CanWalk ring 5 5 a b ∧ CanWalk ring 5 5 b a → Beside b c → Beside c b → FreeCell ring 5 5 c →
        CanWalk ring 5 5 a c ∧ CanWalk ring 5 5 c a := fun h h1 h2 hc =>
      ⟨⟨h.1.1, h.1.2.tail ⟨h1, hc⟩⟩, hc, (Relation.ReflTransGen.single ⟨h2, h.2.1⟩).trans h.2.2⟩
    have p0 : CanWalk ring 5 5 (1, 1) (1, 1) ∧ CanWalk ring 5 5 (1, 1) (1, 1) :=
      ⟨⟨f _ (by simp), .refl⟩, f _ (by simp), .refl⟩
    have p1 := st p0 (.north 1 1) (.south 1 1) (f _ (by simp))
    have p2 := st p1 (.north 1 2) (.south 1 2) (f _ (by simp))
    have p3 := st p2 (.east 1 3) (.west 1 3) (f _ (by simp))
    have p4 := st p3 (.east 2 3) (.west 2 3) (f _ (by simp))
    have p5 := st p4 (.south 3 2) (.north 3 2) (f _ (by simp))
    have p6 := st p5 (.south 3 1) (.north 3 1) (f _ (by simp))
    have p7 := st p6 (.west 2 1) (.east 2 1) (f _ (by simp))
    intro a ha
    fin_cases ha
    exacts [p0, p1, p2, p3, p4, p5, p6, p7]
  obtain ⟨N, m, h1, h2⟩ := c92_connected exT (w := 5) (h := 5) (by norm_num) ring_walled ⟨(1, 1), (ring_free _).2 (by decide)⟩
    (fun a b ha hb => by
      have h1 := hst a ((ring_free a).1 ha)
      have h2 := hst b ((ring_free b).1 hb)
      exact ⟨ha, h1.2.2.trans h2.1.2⟩)
  refine ⟨N, m, h1, ?_, ?_⟩
  · rw [h2 1 1 _ (by norm_num) (by norm_num) (by norm_num [InCell, exT])]
    decide
  · rw [h2 2 2 _ (by norm_num) (by norm_num) (by norm_num [InCell, exT])]
    decide

/-! ## What the code does not do -/

/-- Two rooms with a wall between them. -/
def rooms : Nat → Bool := pict ["###", "#.#", "###", "#.#", "###"]

/-- A free cell that does not hang together with the chosen room is obstructed. -/
theorem c92_room_lost : Walled rooms 5 3 ∧ FreeCell rooms 5 3 (1, 1) ∧
    (polyMap ℚ 200 rooms 5 3).map (fun m => m.obstructed exT ⟨3 / 2, 3 / 2⟩) = .ok true := by
  refine ⟨?_, ⟨by decide, by decide, by decide⟩, by decide +kernel⟩
  intro x y hx hy
  interval_cases x <;> interval_cases y <;> simp <;> decide

/-- In a bitmap without free cells the whole area becomes free. -/
theorem c92_full : (polyMap ℚ 200 (fun _ => true) 3 3).map (fun m => m.obstructed exT ⟨3 / 2, 3 / 2⟩) = .ok false := by
  decide +kernel

/-- A free cell in a bitmap whose edge is not blocked: all is obstructed, and the bound is a square outside of the bitmap. -/
theorem c92_open : FreeCell (pict ["...", ".#.", "..."]) 3 3 (0, 0) ∧
    (polyMap ℚ 200 (pict ["...", ".#.", "..."]) 3 3).map (fun m => (m.obstructed exT ⟨1 / 2, 1 / 2⟩,
      m.bound.map fun P => P.verts.map fun v => (v.x, v.y))) = .ok (true, some [(3, 2), (3, 3), (4, 3), (4, 2)]) := by
  refine ⟨⟨by decide, by decide, by decide⟩, by decide +kernel⟩

/-! ### A bitmap for which the construction does not end -/

theorem foldO_mono {σ α : Type} {g : Nat → σ → α → Outcome σ} (hg : ∀ f k s a r, g f s a = .ok r → g (f + k) s a = .ok r)
    (f k : Nat) : ∀ (l : List α) (s r : σ), Vis.foldO (g f) s l = .ok r → Vis.foldO (g (f + k)) s l = .ok r
  | [], _, _, h => h
  | a :: l, s, r, h => by
    rw [Vis.foldO, Outcome.bind_eq_ok] at h ⊢
    obtain ⟨s', h1, h2⟩ := h
    exact ⟨s', hg f k s a s' h1, foldO_mono hg f k l s' r h2⟩

theorem joinIf_mono {f : Nat} {blkd : Nat → Bool} {c : Bool} {i j : Nat} {m r : Djset.Mem Nat}
    (h : joinIf f blkd c i j m = .ok r) (k : Nat) : joinIf (f + k) blkd c i j m = .ok r := by
  unfold joinIf at *
  split_ifs at h ⊢
  · exact Djset.join_mono h k
  · exact h

theorem comps_mono {f : Nat} {blkd : Nat → Bool} {w h : Nat} {cs : List Comp} (hc : comps f blkd w h = .ok cs) (k : Nat) :
    comps (f + k) blkd w h = .ok cs := by
  unfold comps at *
  rw [Outcome.bind_eq_ok] at hc ⊢
  obtain ⟨m, h1, h2⟩ := hc
  refine ⟨m, foldO_mono (g := fun f => joinCell f blkd w h) ?_ f k _ _ _ h1, ?_⟩
  · intro f k s a r hr
    unfold joinCell at *
    dsimp only at *
    split_ifs at hr ⊢
    · exact hr
    · simp only [Outcome.bind_eq_ok] at hr ⊢
      obtain ⟨m1, e1, m2, e2, m3, e3, e4⟩ := hr
      exact ⟨m1, joinIf_mono e1 k, m2, joinIf_mono e2 k, m3, joinIf_mono e3 k, joinIf_mono e4 k⟩
  · rw [Outcome.map_eq_ok] at h2 ⊢
    obtain ⟨s, h3, h4⟩ := h2
    refine ⟨s, foldO_mono (g := fun f => collCell f blkd w h) ?_ f k _ _ _ h3, h4⟩
    intro f k s a r hr
    unfold collCell at *
    dsimp only at *
    split_ifs at hr ⊢ with hb
    · exact hr
    · rw [Outcome.bind_eq_ok] at hr ⊢
      obtain ⟨r', e1, e2⟩ := hr
      exact ⟨r', Djset.find_mono e1 k, e2⟩

/-- The bitmap of the theorem. -/
def hook : Nat → Bool := pict [".#.", "..#", "##."]

/-- Its only component after `invert`. -/
def hookComp : Comp := ⟨2, 1, 3, 3, 4, hook⟩

/-- The places of the endless walk. -/
def hookPoses : List Pose := (List.range 16).map fun n => (hookComp.clockwise)^[n] ⟨2, 1, .up⟩

theorem hook_step : ∀ q ∈ hookPoses, hookComp.clockwise q ∈ hookPoses ∧
    (q.dir = (hookComp.clockwise q).dir ∨ ¬ ((hookComp.clockwise q).x = 2 ∧ (hookComp.clockwise q).y = 1 ∧ (hookComp.clockwise q).dir = .up)) := by
  decide +kernel

theorem hook_trace {c : Comp} (hx : c.minx = 2) (hy : c.miny = 1) (hb : ∀ x y, c.blocked x y = hookComp.blocked x y) :
    ∀ (f : Nat) (q : Pose) (pts : List (Pt ℚ)), q ∈ hookPoses → c.trace ℚ f q pts = .nofuel
  | 0, _, _, _ => rfl
  | f + 1, q, pts, hq => by
    have hcw : c.clockwise q = hookComp.clockwise q := by
      unfold Comp.clockwise
      simp only [hb]
    obtain ⟨h1, h2⟩ := hook_step q hq
    rw [Comp.trace, hcw, hx, hy]
    by_cases hd : q.dir = (hookComp.clockwise q).dir
    · simp only [if_pos hd]
      exact hook_trace hx hy hb f _ _ h1
    · simp only [if_neg hd, if_neg (h2.resolve_left hd)]
      exact hook_trace hx hy hb f _ _ h1

theorem hook_comps : (comps 5 hook 3 3).map (fun cs => cs.map fun c => ([c.invert.minx, c.invert.miny, c.invert.w, c.invert.h],
    (List.range 9).map c.invert.blkd)) = .ok [([2, 1, 3, 3], (List.range 9).map hook)] := by
  decide +kernel

/-- With an edge that is not blocked the construction need not end: it goes round the first component for ever, adding
vertices. -/
theorem c92_endless (f : Nat) : polyMap ℚ f hook 3 3 = .nofuel := by
  by_cases hf : f < 5
  · interval_cases f <;> decide +kernel
  · have h5 := hook_comps
    rw [Outcome.map_eq_ok] at h5
    obtain ⟨cs, h1, h2⟩ := h5
    have hcs : comps f hook 3 3 = .ok cs := by
      have := comps_mono h1 (f - 5)
      rwa [show 5 + (f - 5) = f by omega] at this
    unfold polyMap
    rw [if_neg (by norm_num), if_neg (by norm_num), hcs, Outcome.bind_ok]
    match cs, h2 with
    | [], h2 => simp at h2
    | c :: cs, h2 =>
      simp only [List.map_cons, List.cons.injEq, Prod.mk.injEq] at h2
      obtain ⟨⟨⟨e1, e2, e3, e4, -⟩, e5⟩, -⟩ := h2
      have hb : ∀ x y, c.invert.blocked x y = hookComp.blocked x y := by
        intro x y
        unfold Comp.blocked
        rw [e3, e4]
        have hw : hookComp.w = 3 := rfl
        have hh : hookComp.h = 3 := rfl
        rw [hw, hh]
        by_cases hx : x < 3
        · by_cases hy : y < 3
          · have := List.map_inj_left.1 e5 (x * 3 + y) (by rw [List.mem_range]; omega)
            rw [this]
            rfl
          · simp [hy]
        · simp [hx]
      simp only [Comp.poly]
      rw [e1, e2, hook_trace e1 e2 hb f _ _ (by decide +kernel)]
      rfl

/-- Without rows the test of the dimensions divides by zero. -/
theorem c92_no_rows (f w : Nat) (blkd : Nat → Bool) : polyMap ℚ f blkd w 0 = .ub := rfl

/-- A bitmap that is too large is refused. -/
theorem c92_too_large {f w h : Nat} {blkd : Nat → Bool} (hh : 0 < h) (hwh : 2 ^ 32 ≤ w * h) :
    polyMap ℚ f blkd w h = .fatal := by
  unfold polyMap
  rw [if_neg (by omega), if_pos]
  rw [Nat.div_lt_iff_lt_mul hh]
  omega

end Verif.Grid2Poly
