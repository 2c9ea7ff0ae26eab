import Verif.Domains.Pbm
import Verif.Props.Grid2Poly

/-!
# C93: bitmap files
-/

namespace Verif.Pbm

open Verif.Geom Verif.Grid2Poly

/-- **C93.**  The text of `w * h` cells, row after row, with spaces, line breaks and comments, is read as the bitmap with
these cells, whatever follows it. -/
theorem c93_read {w h : Nat} (hw : 0 < w) (hwh : w * h < 2 ^ 32) {vs : List Bool} {cs : List Char} (hb : Body true vs cs)
    (hl : vs.length = w * h) (rest : List Char) :
    ∃ a, readpbm w h (cs ++ rest) = .ok a ∧ ∀ x y, x < w → y < h → some (a (x * h + y)) = vs[y * w + x]? := by
  obtain ⟨a, h1, h2, -⟩ := rd_accepts hw rest hb 0 0 (fun _ => false) .bol hw (Nat.zero_le _) (fun _ => rfl) rfl
    (by rw [hl, Nat.mul_comm h w]; omega)
  refine ⟨a, ?_, fun x y hx hy => ?_⟩
  · unfold readpbm
    rw [if_neg (by omega), if_neg, h1]
    rw [not_lt, Nat.le_div_iff_mul_le hw, Nat.mul_comm]
    omega
  · have := h2 x y hx hy (by omega)
    rwa [show y * w + x - (0 * w + 0) = y * w + x by omega] at this

/-- **C93.**  Nothing else is accepted. -/
theorem c93_only {w h : Nat} {s : List Char} {a : Nat → Bool} (hr : readpbm w h s = .ok a) :
    0 < w ∧ w * h < 2 ^ 32 ∧ ∃ vs cs rest, s = cs ++ rest ∧ Body true vs cs ∧ vs.length = w * h := by
  unfold readpbm at hr
  split_ifs at hr with h1 h2
  have hw : 0 < w := by omega
  rw [not_lt, Nat.le_div_iff_mul_le hw, Nat.mul_comm] at h2
  obtain ⟨t, vs, cs, rest, e1, e2, -, e4, e5⟩ := rd_only hw s 0 0 _ a .bol hw (Nat.zero_le _) (fun _ => rfl) hr
  have ht := e4 (.inl (by simp))
  subst ht
  exact ⟨hw, by omega, vs, cs, rest, by simpa using e1, by simpa using e5, by rw [Nat.mul_comm w h]; omega⟩

/-- **C93.**  Outcomes: with width zero the program divides by zero, otherwise it reads a bitmap or stops with a message. -/
theorem c93_total (w h : Nat) (s : List Char) : (readpbm w h s = .ub ↔ w = 0) ∧ readpbm w h s ≠ .nofuel := by
  have key : ∀ (s : List Char) (md : Mode) (x y : Nat) (a : Nat → Bool), rd w h s md x y a ≠ .ub ∧ rd w h s md x y a ≠ .nofuel := by
    intro s
    induction s with
    | nil => intro md x y a; rw [rd]; split_ifs <;> simp
    | cons c s ih =>
      intro md x y a
      rw [rd]
      split_ifs <;> first | exact ih _ _ _ _ | simp
  unfold readpbm
  split_ifs with h1 h2
  · simp [h1]
  · simp [h1]
  · exact ⟨⟨fun e => absurd e (key ..).1, fun e => absurd e h1⟩, (key ..).2⟩

/-- **C93.**  From the file to the map: if the cells at the edges are `1` and the `0` cells hang together, the map made of
the file obstructs exactly the points in cells that are `1`. -/
theorem c93_map {K : Type} [Field K] [LinearOrder K] [IsStrictOrderedRing K] (T : Tol K) {w h : Nat} (hw : 0 < w)
    (hwh : w * h < 2 ^ 32) {vs : List Bool} {cs : List Char} (hb : Body true vs cs) (hl : vs.length = w * h) (rest : List Char)
    {bit : Nat → Nat → Bool} (hbit : ∀ x y, x < w → y < h → vs[y * w + x]? = some (bit x y))
    (hwall : ∀ x y, x < w → y < h → x = 0 ∨ x + 1 = w ∨ y = 0 ∨ y + 1 = h → bit x y = true)
    (hfree : ∃ x y, x < w ∧ y < h ∧ bit x y = false)
    (hconn : ∀ x y x' y', x < w → y < h → x' < w → y' < h → bit x y = false → bit x' y' = false →
      Relation.ReflTransGen (fun a b => Beside a b ∧ b.1 < w ∧ b.2 < h ∧ bit b.1 b.2 = false) (x, y) (x', y')) :
    ∃ a N m, readpbm w h (cs ++ rest) = .ok a ∧ (∀ f, N ≤ f → polyMap K f a w h = .ok m) ∧
      ∀ (x y : Nat) (p : Pt K), x < w → y < h → InCell T x y p → m.obstructed T p = bit x y := by
  obtain ⟨a, h1, h2⟩ := c93_read hw hwh hb hl rest
  have ha : ∀ x y, x < w → y < h → a (x * h + y) = bit x y := fun x y hx hy => by
    have := h2 x y hx hy
    rw [hbit x y hx hy] at this
    exact Option.some.inj this
  have hf : ∀ c, FreeCell a w h c ↔ c.1 < w ∧ c.2 < h ∧ bit c.1 c.2 = false := fun c => by
    unfold FreeCell
    constructor
    · rintro ⟨g1, g2, g3⟩; exact ⟨g1, g2, by rw [← ha _ _ g1 g2]; exact g3⟩
    · rintro ⟨g1, g2, g3⟩; exact ⟨g1, g2, by rw [ha _ _ g1 g2]; exact g3⟩
  obtain ⟨N, m, h3, h4⟩ := c92_connected (blkd := a) T hwh
    (fun x y hx hy he => by rw [ha x y hx hy]; exact hwall x y hx hy he)
    (by obtain ⟨x, y, g⟩ := hfree; exact ⟨(x, y), (hf _).2 g⟩)
    (fun c d hc hd => ⟨hc, by
      simp only [hf]
      obtain ⟨c1, c2, c3⟩ := (hf c).1 hc
      obtain ⟨d1, d2, d3⟩ := (hf d).1 hd
      exact hconn c.1 c.2 d.1 d.2 c1 c2 d1 d2 c3 d3⟩)
  exact ⟨a, N, m, h1, h3, fun x y p hx hy hp => by rw [h4 x y p hx hy hp, ha x y hx hy]⟩

/-! ## A file -/

/-- Two rows with a comment between them. -/
example : (readpbm 2 2 "10\n# the rest\n0 1".toList).map (fun a => (List.range 4).map a) = .ok [true, false, false, true] := by
  decide +kernel

example : Body true [true, false, false, true] "10\n# the rest\n0 1".toList := by
  refine .cell _ true (.cell _ false (.line _ ?_))
  exact Body.comment " the rest".toList (by decide) (.cell _ false (.space _ (.cell _ true (.nil _))))

example : (readpbm 2 2 "10\n# the rest\n0 2".toList).map (fun a => (List.range 4).map a) = .fatal := by decide +kernel
example : (readpbm 2 2 "10\n0 # the rest\n 1".toList).map (fun a => (List.range 4).map a) = .fatal := by decide +kernel

/-- The hypotheses of `c93_map` can be met: one free cell with walls around it. -/
example : ∃ a N m, readpbm 3 3 "111\n101\n111\n".toList = .ok a ∧ (∀ f, N ≤ f → polyMap ℚ f a 3 3 = .ok m) ∧
    m.obstructed exT ⟨3 / 2, 3 / 2⟩ = false ∧ m.obstructed exT ⟨1 / 2, 3 / 2⟩ = true := by
  have hb : Body true [true, true, true, true, false, true, true, true, true] "111\n101\n111\n".toList :=
    .cell _ true (.cell _ true (.cell _ true (.line _ (.cell _ true (.cell _ false (.cell _ true (.line _
      (.cell _ true (.cell _ true (.cell _ true (.line _ (.nil _))))))))))))
  obtain ⟨a, N, m, h1, h2, h3⟩ := c93_map exT (w := 3) (h := 3) (by norm_num) (by norm_num) hb rfl []
    (bit := fun x y => decide ((x, y) ≠ (1, 1)))
    (by intro x y hx hy; interval_cases x <;> interval_cases y <;> rfl)
    (by intro x y hx hy; interval_cases x <;> interval_cases y <;> simp)
    ⟨1, 1, by norm_num, by norm_num, rfl⟩
    (by
      intro x y x' y' _ _ _ _ e1 e2
      simp only [ne_eq, Prod.mk.injEq, decide_not, Bool.not_eq_false', decide_eq_true_eq] at e1 e2
      obtain ⟨rfl, rfl⟩ := e1
      obtain ⟨rfl, rfl⟩ := e2
      exact .refl)
  rw [List.append_nil] at h1
  refine ⟨a, N, m, h1, h2, ?_, ?_⟩
  · rw [h3 1 1 _ (by norm_num) (by norm_num) (by norm_num [InCell, exT])]; decide
  · rw [h3 0 1 _ (by norm_num) (by norm_num) (by norm_num [InCell, exT])]; decide

end Verif.Pbm
