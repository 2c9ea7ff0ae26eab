import Verif.Domains.Plat
import Mathlib.Tactic.NormNum
import Mathlib.Algebra.Order.Archimedean.Basic

/-!
# The platform game: what a move does

Specification side: levels (`Lvl.Ok`, `Closed`), when a box is clear of the solid tiles (`Overlap`, `Clear`, `In`), and
the invariant of a player (`Good`).  The main results are `isect_spec` (one pixel step), `moveLoop_spec` (one frame) and
`act_spec`.
-/

namespace Verif.Plat

open Verif.Geom

/-! ## One dimension -/

/-- An interval of length `n` at `a` and one of length 32 at `o` have more than a boundary in common. -/
def Ov (a n o : ℚ) : Prop := a < o + 32 ∧ o < a + n

theorem line1_pos (T : Tol ℚ) {a n o : ℚ} (hn : 1 < n) :
    0 < line1 T a (a + n) o (o + 32) ↔ Ov a n o := by
  have h1 := T.th_pos
  have h2 := T.th_le
  unfold line1 between Ov
  simp only [decide_eq_true_eq]
  split_ifs with c1 c2
  · constructor
    · intro h; exact ⟨by linarith [c1.2], by linarith⟩
    · intro h; linarith [h.2]
  · constructor
    · intro h
      refine ⟨by linarith, ?_⟩
      by_contra hc
      push Not at hc c1
      have := c2.2
      linarith
    · intro h; linarith [h.1]
  · constructor
    · intro h; norm_num at h
    · rintro ⟨h3, h4⟩
      exfalso
      push Not at c1 c2
      have h5 := c1 (by linarith)
      have h6 := c2 (by linarith)
      linarith

/-- The sign with which `Body::move` takes a depth back. -/
def sgn (t : ℚ) : ℚ := if t > 0 then 1 else -1

/-- The depth of a collision is how far to go back. -/
theorem line1_depth (T : Tol ℚ) {a n o t : ℚ} (hn : 20 < n) (ht : |t| ≤ 1) (h0 : ¬ Ov a n o) (h1 : Ov (a + t) n o) :
    (0 < t → line1 T (a + t) (a + t + n) o (o + 32) = a + t + n - o ∧ a + n ≤ o) ∧
    (t < 0 → line1 T (a + t) (a + t + n) o (o + 32) = o + 32 - (a + t) ∧ o + 32 ≤ a) := by
  have h2 := T.th_pos
  have h3 := T.th_le
  obtain ⟨h4, h5⟩ := abs_le.1 ht
  obtain ⟨h6, h7⟩ := h1
  constructor
  · intro h
    have h8 : a + n ≤ o := by
      by_contra hc
      exact h0 ⟨by linarith, by linarith⟩
    refine ⟨?_, h8⟩
    unfold line1 between
    simp only [decide_eq_true_eq]
    rw [if_pos ⟨by linarith, by linarith⟩]
  · intro h
    have h8 : o + 32 ≤ a := by
      by_contra hc
      exact h0 ⟨by linarith, by linarith⟩
    refine ⟨?_, h8⟩
    unfold line1 between
    simp only [decide_eq_true_eq]
    rw [if_neg (by rintro ⟨_, h⟩; linarith), if_pos ⟨by linarith, by linarith⟩]

/-- Moving by `t`, at most one pixel, and taking the greatest depth of a collision back: no tile of the set `S` is
entered, and the way is not reversed. -/
theorem slide (T : Tol ℚ) {S : ℚ → Prop} {a n t m : ℚ} (hn : 20 < n) (ht : |t| ≤ 1) (ht0 : t ≠ 0)
    (h0 : ∀ o, S o → ¬ Ov a n o)
    (hm : ∀ o, S o → 0 < line1 T (a + t) (a + t + n) o (o + 32) → line1 T (a + t) (a + t + n) o (o + 32) ≤ m)
    (hm' : m = 0 ∨ ∃ o, S o ∧ 0 < line1 T (a + t) (a + t + n) o (o + 32) ∧ line1 T (a + t) (a + t + n) o (o + 32) = m) :
    0 ≤ m ∧ m ≤ |t| ∧ (∀ o, S o → ¬ Ov (a + (t - sgn t * m)) n o) ∧
    (0 < m → ∃ o, S o ∧ (a + (t - sgn t * m) = o - n ∨ a + (t - sgn t * m) = o + 32)) := by
  obtain ⟨h4, h5⟩ := abs_le.1 ht
  rcases lt_or_gt_of_ne ht0 with hneg | hpos
  · have hs : sgn t = -1 := by unfold sgn; rw [if_neg (by linarith)]
    rw [hs, abs_of_neg hneg]
    have hmm : 0 ≤ m ∧ m ≤ -t := by
      rcases hm' with h | ⟨o, h6, h7, h8⟩
      · rw [h]; constructor <;> linarith
      · obtain ⟨h9, h10⟩ := (line1_depth T hn ht (h0 o h6) ((line1_pos T (by linarith)).1 h7)).2 hneg
        rw [h9] at h8 h7
        constructor <;> linarith
    refine ⟨hmm.1, hmm.2, ?_, ?_⟩
    · intro o ho hov
      by_cases h6 : Ov (a + t) n o
      · have h7 := hm o ho ((line1_pos T (by linarith)).2 h6)
        rw [((line1_depth T hn ht (h0 o ho) h6).2 hneg).1] at h7
        have := hov.1
        linarith
      · have h7 := h0 o ho
        unfold Ov at h6 h7 hov
        obtain ⟨k1, k2⟩ := hov
        by_cases h8 : a < o + 32
        · exact h7 ⟨h8, by linarith⟩
        · exact h6 ⟨by linarith, by linarith⟩
    · intro h
      rcases hm' with h6 | ⟨o, h6, h7, h8⟩
      · linarith
      · obtain ⟨h9, h10⟩ := (line1_depth T hn ht (h0 o h6) ((line1_pos T (by linarith)).1 h7)).2 hneg
        rw [h9] at h8
        exact ⟨o, h6, .inr (by linarith)⟩
  · have hs : sgn t = 1 := by unfold sgn; rw [if_pos (by linarith)]
    rw [hs, abs_of_pos hpos]
    have hmm : 0 ≤ m ∧ m ≤ t := by
      rcases hm' with h | ⟨o, h6, h7, h8⟩
      · rw [h]; constructor <;> linarith
      · obtain ⟨h9, h10⟩ := (line1_depth T hn ht (h0 o h6) ((line1_pos T (by linarith)).1 h7)).1 hpos
        rw [h9] at h8 h7
        constructor <;> linarith
    refine ⟨hmm.1, hmm.2, ?_, ?_⟩
    · intro o ho hov
      by_cases h6 : Ov (a + t) n o
      · have h7 := hm o ho ((line1_pos T (by linarith)).2 h6)
        rw [((line1_depth T hn ht (h0 o ho) h6).1 hpos).1] at h7
        have := hov.2
        linarith
      · have h7 := h0 o ho
        unfold Ov at h6 h7 hov
        obtain ⟨k1, k2⟩ := hov
        by_cases h8 : o < a + n
        · exact h7 ⟨by linarith, h8⟩
        · exact h6 ⟨by linarith, by linarith⟩
    · intro h
      rcases hm' with h6 | ⟨o, h6, h7, h8⟩
      · linarith
      · obtain ⟨h9, h10⟩ := (line1_depth T hn ht (h0 o h6) ((line1_pos T (by linarith)).1 h7)).1 hpos
        rw [h9] at h8
        exact ⟨o, h6, .inl (by linarith)⟩

/-- A whole number. -/
def Whole (q : ℚ) : Prop := ∃ k : ℤ, q = k

/-- What `Body::step` does in one direction. -/
theorem step1_spec (loc v : ℚ) :
    |step1 loc v| ≤ 1 ∧ |step1 loc v| ≤ |v| ∧ 0 ≤ step1 loc v * v ∧ (step1 loc v = 0 ↔ v = 0) ∧
    loc + step1 loc v ≤ ⌊loc⌋ + 1 ∧
    (step1 loc v = v ∨ (Whole (loc + step1 loc v) ∧ (Whole loc → |step1 loc v| = 1))) := by
  have e1 := Int.floor_le loc
  have e2 := Int.lt_floor_add_one loc
  have e3 := Int.le_ceil loc
  have e4 := Int.ceil_lt_add_one loc
  have hc : (⌈loc⌉ : ℚ) ≤ ⌊loc⌋ + 1 := by exact_mod_cast Int.ceil_le_floor_add_one loc
  have hw : Whole loc → (⌈loc⌉ : ℚ) = loc ∧ (⌊loc⌋ : ℚ) = loc := by
    rintro ⟨k, rfl⟩; simp
  rcases lt_trichotomy v 0 with hv | hv | hv
  · -- negative
    have hst : step1 loc v = if |if (⌊loc⌋ : ℚ) - loc = 0 then -1 else (⌊loc⌋ : ℚ) - loc| > |v| then v
        else if (⌊loc⌋ : ℚ) - loc = 0 then -1 else (⌊loc⌋ : ℚ) - loc := by
      unfold step1 tillwhole
      simp only [gt_iff_lt, hv.not_gt, if_false, hv, hv.ne, ne_eq, not_false_iff, and_true, if_true]
    have hd : ∃ d : ℚ, (if (⌊loc⌋ : ℚ) - loc = 0 then -1 else (⌊loc⌋ : ℚ) - loc) = d ∧ d < 0 ∧ -1 ≤ d ∧
        Whole (loc + d) ∧ (Whole loc → d = -1) := by
      refine ⟨_, rfl, ?_⟩
      split_ifs with h
      · refine ⟨by norm_num, le_rfl, ⟨⌊loc⌋ - 1, by push_cast; linarith⟩, fun _ => rfl⟩
      · refine ⟨lt_of_le_of_ne (by linarith) h, by linarith, ⟨⌊loc⌋, by ring⟩, fun k => ?_⟩
        exact absurd (by rw [(hw k).2, sub_self]) h
    obtain ⟨d, hd1, hd2, hd3, hd4, hd5⟩ := hd
    rw [hd1] at hst
    rw [hst, abs_of_neg hd2, abs_of_neg hv]
    by_cases hgt : -d > -v
    · rw [if_pos hgt]
      refine ⟨by rw [abs_of_neg hv]; linarith, by rw [abs_of_neg hv], by nlinarith, by simp, by linarith, .inl rfl⟩
    · rw [if_neg hgt]
      refine ⟨by rw [abs_of_neg hd2]; linarith, by rw [abs_of_neg hd2]; linarith, by nlinarith,
        ⟨fun h => by linarith, fun h => by linarith⟩, by linarith, .inr ⟨hd4, fun k => ?_⟩⟩
      rw [hd5 k]; norm_num
  · subst hv
    have hst : step1 loc 0 = 0 := by
      unfold step1 tillwhole
      simp only [gt_iff_lt, lt_irrefl, if_false, ne_eq, not_true, and_false, abs_zero, abs_pos]
      split_ifs with h
      · exact h
      · rfl
    rw [hst]
    simp
    linarith
  · have hst : step1 loc v = if |if (⌈loc⌉ : ℚ) - loc = 0 then 1 else (⌈loc⌉ : ℚ) - loc| > |v| then v
        else if (⌈loc⌉ : ℚ) - loc = 0 then 1 else (⌈loc⌉ : ℚ) - loc := by
      unfold step1 tillwhole
      simp only [gt_iff_lt, hv.not_gt, if_false, hv, hv.ne', ne_eq, not_false_iff, and_true, if_true]
    have hd : ∃ d : ℚ, (if (⌈loc⌉ : ℚ) - loc = 0 then 1 else (⌈loc⌉ : ℚ) - loc) = d ∧ 0 < d ∧ d ≤ 1 ∧
        Whole (loc + d) ∧ (Whole loc → d = 1) ∧ loc + d ≤ ⌊loc⌋ + 1 := by
      refine ⟨_, rfl, ?_⟩
      split_ifs with h
      · have hl : (⌊loc⌋ : ℚ) = loc := (hw ⟨⌈loc⌉, by linarith⟩).2
        refine ⟨by norm_num, le_rfl, ⟨⌈loc⌉ + 1, by push_cast; linarith⟩, fun _ => rfl, by linarith⟩
      · refine ⟨lt_of_le_of_ne (by linarith) (Ne.symm h), by linarith, ⟨⌈loc⌉, by ring⟩, fun k => ?_, by linarith⟩
        exact absurd (by rw [(hw k).1, sub_self]) h
    obtain ⟨d, hd1, hd2, hd3, hd4, hd5, hd6⟩ := hd
    rw [hd1] at hst
    rw [hst, abs_of_pos hd2, abs_of_pos hv]
    by_cases hgt : d > v
    · rw [if_pos hgt]
      refine ⟨by rw [abs_of_pos hv]; linarith, by rw [abs_of_pos hv], by nlinarith, by simp, by linarith, .inl rfl⟩
    · rw [if_neg hgt]
      refine ⟨by rw [abs_of_pos hd2]; linarith, by rw [abs_of_pos hd2]; linarith, by nlinarith,
        ⟨fun h => by linarith, fun h => by linarith⟩, by linarith, .inr ⟨hd4, fun k => ?_⟩⟩
      rw [hd5 k]; norm_num

/-! ## Levels -/

/-- A level as `Lvl::read` leaves it. -/
structure Lvl.Ok (L : Lvl) : Prop where
  len : L.blks.length = L.w * L.h
  valid : ∀ c ∈ L.blks, (tileOf c).isSome

/-- The tile at a place of the level is solid. -/
def Solid (L : Lvl) (i j : Nat) : Prop := i < L.w ∧ j < L.h ∧ ∃ t, L.at i j = .ok t ∧ t.collide = true

/-- The level is surrounded by solid tiles (and has fewer than 2^32 pixels in each direction). -/
structure Closed (L : Lvl) : Prop extends L.Ok where
  left : ∀ j, j < L.h → Solid L 0 j
  right : ∀ j, j < L.h → Solid L (L.w - 1) j
  top : ∀ i, i < L.w → Solid L i 0
  bottom : ∀ i, i < L.w → Solid L i (L.h - 1)
  small : 32 * L.w < 2 ^ 32 ∧ 32 * L.h < 2 ^ 32

/-- The box and the tile have more than a boundary in common. -/
def Overlap (b : Bbox ℚ) (i j : Nat) : Prop :=
  b.min.x < 32 * (i + 1) ∧ 32 * (i : ℚ) < b.max.x ∧ b.min.y < 32 * (j + 1) ∧ 32 * (j : ℚ) < b.max.y

/-- No part of the box is in a solid tile. -/
def Clear (L : Lvl) (b : Bbox ℚ) : Prop := ∀ i j, Solid L i j → ¬ Overlap b i j

/-- The box has the size of the player. -/
def Sized (b : Bbox ℚ) : Prop := b.max.x = b.min.x + 21 ∧ b.max.y = b.min.y + 29

/-- The box is within the level. -/
def Inside (L : Lvl) (b : Bbox ℚ) : Prop := 0 ≤ b.min.x ∧ b.max.x ≤ 32 * L.w ∧ 0 ≤ b.min.y ∧ b.max.y ≤ 32 * L.h

/-- A place where the player can be. -/
structure In (L : Lvl) (b : Bbox ℚ) : Prop where
  sized : Sized b
  inside : Inside L b
  clear : Clear L b

theorem tiles_of {c : Nat} (h : (tileOf c).isSome) : ∃ t, tileOf c = some t ∧ tiles c = .ok t := by
  obtain ⟨t, ht⟩ := Option.isSome_iff_exists.1 h
  refine ⟨t, ht, ?_⟩
  have : c < 256 := by
    unfold tileOf at ht
    by_contra hc
    simp only [show c ≠ 32 by omega, show c ≠ 35 by omega, show c ≠ 119 by omega, show c ≠ 100 by omega,
      show c ≠ 68 by omega, show c ≠ 117 by omega, show c ≠ 85 by omega, if_false] at ht
    exact absurd ht (by simp)
  simp [tiles, this, ht]

theorem Lvl.Ok.at {L : Lvl} (hL : L.Ok) {x y : Nat} (hx : x < L.w) (hy : y < L.h) : ∃ t, L.at x y = .ok t := by
  have h1 : x * L.h + y < L.blks.length := by
    rw [hL.len]
    calc x * L.h + y < x * L.h + L.h := by omega
      _ = (x + 1) * L.h := by ring
      _ ≤ L.w * L.h := Nat.mul_le_mul_right _ hx
  obtain ⟨t, _, ht⟩ := tiles_of (hL.valid _ (List.getElem_mem h1))
  exact ⟨t, by simp [Lvl.at, List.getElem?_eq_getElem h1, ht]⟩

/-- The row or column of a coordinate within the level. -/
theorem tile_at {q : ℚ} {n : Nat} (h0 : 0 ≤ q) (h1 : q < 32 * n) :
    ∃ j : Nat, j < n ∧ 32 * (j : ℚ) ≤ q ∧ q < 32 * (j + 1) ∧ toUns (q / 32) = .ok j ∨ ¬ (32 * n < 2 ^ 32) := by
  by_cases hs : 32 * n < 2 ^ 32
  · refine ⟨⌊q / 32⌋.toNat, .inl ?_⟩
    have h2 : 0 ≤ q / 32 := by positivity
    have h3 : (0 : ℤ) ≤ ⌊q / 32⌋ := Int.floor_nonneg.2 h2
    have h4 : ((⌊q / 32⌋.toNat : ℕ) : ℚ) = (⌊q / 32⌋ : ℤ) := by
      rw [← Int.cast_natCast, Int.toNat_of_nonneg h3]
    have h5 := Int.floor_le (q / 32)
    have h6 := Int.lt_floor_add_one (q / 32)
    have h7 : q = 32 * (q / 32) := by ring
    refine ⟨?_, by rw [h4]; linarith, by rw [h4]; linarith, ?_⟩
    · have : ((⌊q / 32⌋.toNat : ℕ) : ℚ) < n := by rw [h4]; linarith
      exact_mod_cast this
    · have h8 : (32 * n : ℚ) < 2 ^ 32 := by exact_mod_cast hs
      rw [toUns, if_pos ⟨by linarith, by linarith⟩]
  · exact ⟨0, .inr hs⟩

theorem tile_at' {q : ℚ} {n : Nat} (hs : 32 * n < 2 ^ 32) (h0 : 0 ≤ q) (h1 : q < 32 * n) :
    ∃ j : Nat, j < n ∧ 32 * (j : ℚ) ≤ q ∧ q < 32 * (j + 1) ∧ toUns (q / 32) = .ok j := by
  obtain ⟨j, h | h⟩ := tile_at h0 h1
  · exact ⟨j, h⟩
  · exact absurd hs h

/-- In a closed level the player is at least a tile away from the boundary. -/
theorem In.away {L : Lvl} (hL : Closed L) {b : Bbox ℚ} (h : In L b) :
    32 ≤ b.min.x ∧ b.max.x + 32 ≤ 32 * L.w ∧ 32 ≤ b.min.y ∧ b.max.y + 32 ≤ 32 * L.h := by
  obtain ⟨⟨s1, s2⟩, ⟨i1, i2, i3, i4⟩, hc⟩ := h
  obtain ⟨i, hi, hi1, hi2, -⟩ := tile_at' hL.small.1 i1 (show b.min.x < 32 * L.w by linarith)
  obtain ⟨j, hj, hj1, hj2, -⟩ := tile_at' hL.small.2 i3 (show b.min.y < 32 * L.h by linarith)
  have w1 : ((L.w - 1 : ℕ) : ℚ) = L.w - 1 := by
    rw [Nat.cast_sub (by omega)]; norm_num
  have h1 : ((L.h - 1 : ℕ) : ℚ) = L.h - 1 := by
    rw [Nat.cast_sub (by omega)]; norm_num
  refine ⟨?_, ?_, ?_, ?_⟩ <;> by_contra hn <;> push Not at hn
  · exact hc 0 j (hL.left j hj) ⟨by push_cast; linarith, by push_cast; linarith, hj2, by linarith⟩
  · exact hc _ j (hL.right j hj) ⟨by rw [w1]; linarith, by rw [w1]; linarith, hj2, by linarith⟩
  · exact hc i 0 (hL.top i hi) ⟨hi2, by linarith, by push_cast; linarith, by push_cast; linarith⟩
  · exact hc i _ (hL.bottom i hi) ⟨hi2, by linarith, by rw [h1]; linarith, by rw [h1]; linarith⟩

/-- The middle of the player is in a tile of the level. -/
theorem In.major {L : Lvl} (hL : Closed L) {b : Bbox ℚ} (h : In L b) : ∃ bi, L.majorblk b = .ok bi := by
  obtain ⟨⟨s1, s2⟩, ⟨i1, i2, i3, i4⟩, hc⟩ := h
  obtain ⟨i, hi, -, -, hi2⟩ := tile_at' (q := (center b).x) hL.small.1 (by simp only [center]; linarith)
    (by simp only [center]; linarith)
  obtain ⟨j, hj, -, -, hj2⟩ := tile_at' (q := (center b).y) hL.small.2 (by simp only [center]; linarith)
    (by simp only [center]; linarith)
  obtain ⟨t, ht⟩ := hL.toOk.at hi hj
  exact ⟨(i, j, t), by simp [Lvl.majorblk, hi2, hj2, ht]⟩

theorem mem_places {x0 y0 x1 y1 : Nat} {p : Nat × Nat} :
    p ∈ places x0 y0 x1 y1 ↔ (x0 ≤ p.1 ∧ p.1 ≤ x1) ∧ (y0 ≤ p.2 ∧ p.2 ≤ y1) := by
  obtain ⟨x, y⟩ := p
  simp only [places, List.mem_flatMap, List.mem_map, List.mem_range', Prod.mk.injEq]
  constructor
  · rintro ⟨a, ⟨i, hi, rfl⟩, b, ⟨j, hj, rfl⟩, rfl, rfl⟩
    omega
  · rintro ⟨⟨h1, h2⟩, h3, h4⟩
    exact ⟨x, ⟨x - x0, by omega, by omega⟩, y, ⟨y - y0, by omega, by omega⟩, rfl, rfl⟩

/-- One direction of `Hitzone`: the last row or column visited. -/
theorem ceil_tile {q : ℚ} {n : Nat} (hs : 32 * n < 2 ^ 32) (h0 : 0 ≤ q) (h1 : q + 32 ≤ 32 * n) :
    ∃ j : Nat, j < n ∧ toUns (⌈q⌉ / 32) = .ok j ∧ ∀ i : Nat, 32 * (i : ℚ) < ⌊q⌋ + 1 → i ≤ j := by
  have hc0 : (0 : ℚ) ≤ ⌈q⌉ := by exact_mod_cast Int.ceil_nonneg h0
  have hc1 : (⌈q⌉ : ℚ) ≤ 32 * n - 32 := by
    have : ⌈q⌉ ≤ (32 * n - 32 : ℤ) := Int.ceil_le.2 (by push_cast; linarith)
    exact_mod_cast this
  obtain ⟨j, hj, hj1, hj2, hj3⟩ := tile_at' hs hc0 (show (⌈q⌉ : ℚ) < 32 * n by linarith)
  refine ⟨j, hj, hj3, fun i hi => ?_⟩
  have e1 : (32 * i : ℤ) < ⌊q⌋ + 1 := by exact_mod_cast hi
  have e2 : ⌊q⌋ ≤ ⌈q⌉ := Int.floor_le_ceil q
  have e3 : ⌈q⌉ < 32 * (j + 1 : ℤ) := by exact_mod_cast hj2
  omega

/-- `Hitzone` visits only tiles of the level, and all those that a step of at most one pixel can reach. -/
theorem hitzone_spec {L : Lvl} (hL : Closed L) {b : Bbox ℚ} (h : In L b) :
    ∃ ps, hitzone b = .ok ps ∧ (∀ p ∈ ps, p.1 < L.w ∧ p.2 < L.h) ∧
      ∀ i j : Nat, b.min.x - 1 < 32 * (i + 1) → 32 * (i : ℚ) < ⌊b.max.x⌋ + 1 →
        b.min.y - 1 < 32 * (j + 1) → 32 * (j : ℚ) < ⌊b.max.y⌋ + 1 → (i, j) ∈ ps := by
  obtain ⟨a1, a2, a3, a4⟩ := h.away hL
  obtain ⟨⟨s1, s2⟩, -, -⟩ := h
  obtain ⟨x0, hx, hx1, hx2, hx3⟩ := tile_at' hL.small.1 (show 0 ≤ b.min.x by linarith)
    (show b.min.x < 32 * L.w by linarith)
  obtain ⟨y0, hy, hy1, hy2, hy3⟩ := tile_at' hL.small.2 (show 0 ≤ b.min.y by linarith)
    (show b.min.y < 32 * L.h by linarith)
  obtain ⟨x1, hX, hX1, hX2⟩ := ceil_tile hL.small.1 (show 0 ≤ b.max.x by linarith) a2
  obtain ⟨y1, hY, hY1, hY2⟩ := ceil_tile hL.small.2 (show 0 ≤ b.max.y by linarith) a4
  refine ⟨places (x0 - 1) (y0 - 1) x1 y1, by simp [hitzone, hx3, hy3, hX1, hY1], ?_, ?_⟩
  · intro p hp
    obtain ⟨⟨-, h1⟩, -, h2⟩ := mem_places.1 hp
    omega
  · intro i j h1 h2 h3 h4
    refine mem_places.2 ⟨⟨?_, hX2 i h2⟩, ?_, hY2 j h4⟩
    · have : (x0 : ℚ) < i + 2 := by linarith
      have : x0 < i + 2 := by exact_mod_cast this
      show x0 - 1 ≤ i
      omega
    · have : (y0 : ℚ) < j + 2 := by linarith
      have : y0 < j + 2 := by exact_mod_cast this
      show y0 - 1 ≤ j
      omega

/-! ## The two passes over the tiles -/

/-- What the collision of the box with the tile at a place contributes. -/
theorem bisect_is (T : Tol ℚ) {b : Bbox ℚ} (hs : Sized b) (i j : Nat) :
    ((bisect T b (tbox i j)).is = true ↔ Overlap b i j) ∧
    ((bisect T b (tbox i j)).is = true →
      (bisect T b (tbox i j)).dx = line1 T b.min.x (b.min.x + 21) (32 * i) (32 * i + 32) ∧
      (bisect T b (tbox i j)).dy = line1 T b.min.y (b.min.y + 29) (32 * j) (32 * j + 32)) := by
  obtain ⟨s1, s2⟩ := hs
  have e1 : (32 * ((i : ℚ) + 1)) = 32 * i + 32 := by ring
  have e2 : (32 * ((j : ℚ) + 1)) = 32 * j + 32 := by ring
  have p1 := line1_pos T (a := b.min.x) (n := 21) (o := 32 * i) (by norm_num)
  have p2 := line1_pos T (a := b.min.y) (n := 29) (o := 32 * j) (by norm_num)
  unfold bisect Overlap
  simp only [tbox, s1, s2, e1, e2, gt_iff_lt]
  unfold Ov at p1 p2
  split_ifs with h1 h2
  · refine ⟨⟨fun _ => ⟨(p1.1 h1).1, (p1.1 h1).2, (p2.1 h2).1, (p2.1 h2).2⟩, fun _ => rfl⟩, fun _ => ⟨rfl, rfl⟩⟩
  · refine ⟨⟨fun h => by simp [Isect.none] at h, fun h => absurd (p2.2 ⟨h.2.2.1, h.2.2.2⟩) h2⟩, fun h => by
      simp [Isect.none] at h⟩
  · refine ⟨⟨fun h => by simp [Isect.none] at h, fun h => absurd (p1.2 ⟨h.1, h.2.1⟩) h1⟩, fun h => by
      simp [Isect.none] at h⟩

theorem scan_ind (T : Tol ℚ) {L : Lvl} (hL : L.Ok) (upd : Isect → Isect → Isect) (mv : Bbox ℚ)
    {ps : List (Nat × Nat)} (hps : ∀ p ∈ ps, p.1 < L.w ∧ p.2 < L.h) (P : List (Nat × Nat) → Isect → Prop)
    (hstep : ∀ qs p t i, p ∈ ps → L.at p.1 p.2 = .ok t → P qs i → P (qs ++ [p]) (upd i (t.isect T p.1 p.2 mv)))
    (i : Isect) (h0 : P [] i) : ∃ i', scan T L upd mv ps i = .ok i' ∧ P ps i' := by
  have : ∀ (rs qs : List (Nat × Nat)) (i : Isect), qs ++ rs = ps → P qs i →
      ∃ i', scan T L upd mv rs i = .ok i' ∧ P ps i' := by
    intro rs
    induction rs with
    | nil => intro qs i h1 h2; exact ⟨i, rfl, by rw [← h1, List.append_nil]; exact h2⟩
    | cons p rs ih =>
      intro qs i h1 h2
      have hp : p ∈ ps := by rw [← h1]; simp
      obtain ⟨t, ht⟩ := hL.at (hps p hp).1 (hps p hp).2
      obtain ⟨i', h3, h4⟩ := ih (qs ++ [p]) (upd i (t.isect T p.1 p.2 mv)) (by rw [← h1]; simp) (hstep qs p t i hp ht h2)
      exact ⟨i', by rw [scan, ht]; exact h3, h4⟩
  exact this ps [] i rfl h0

theorem isect_tile (T : Tol ℚ) {b : Bbox ℚ} (hs : Sized b) {L : Lvl} {i j : Nat} {t : Tile} (hi : i < L.w)
    (hj : j < L.h) (ht : L.at i j = .ok t) :
    ((t.isect T i j b).is = true ↔ Solid L i j ∧ Overlap b i j) ∧
    ((t.isect T i j b).is = true →
      (t.isect T i j b).dx = line1 T b.min.x (b.min.x + 21) (32 * i) (32 * i + 32) ∧
      (t.isect T i j b).dy = line1 T b.min.y (b.min.y + 29) (32 * j) (32 * j + 32)) := by
  obtain ⟨h1, h2⟩ := bisect_is T hs i j
  unfold Tile.isect
  by_cases hc : t.collide = true
  · rw [if_pos hc]
    exact ⟨⟨fun h => ⟨⟨hi, hj, t, ht, hc⟩, h1.1 h⟩, fun h => h1.2 h.2⟩, h2⟩
  · rw [if_neg hc]
    refine ⟨⟨fun h => by simp [Isect.none] at h, ?_⟩, fun h => by simp [Isect.none] at h⟩
    rintro ⟨⟨-, -, t', ht', hc'⟩, -⟩
    rw [ht] at ht'
    injection ht' with e
    subst e
    exact absurd hc' hc

/-- The vertical pass finds the greatest depth. -/
theorem scanY_spec (T : Tol ℚ) {L : Lvl} (hL : L.Ok) {mv : Bbox ℚ} (hs : Sized mv) {ps : List (Nat × Nat)}
    (hps : ∀ p ∈ ps, p.1 < L.w ∧ p.2 < L.h) :
    ∃ i, scan T L stepY mv ps .none = .ok i ∧ i.dx = 0 ∧ 0 ≤ i.dy ∧ (i.is = true ↔ 0 < i.dy) ∧
      (∀ p ∈ ps, Solid L p.1 p.2 → Overlap mv p.1 p.2 →
        line1 T mv.min.y (mv.min.y + 29) (32 * p.2) (32 * p.2 + 32) ≤ i.dy) ∧
      (i.dy = 0 ∨ ∃ p ∈ ps, Solid L p.1 p.2 ∧ Overlap mv p.1 p.2 ∧
        line1 T mv.min.y (mv.min.y + 29) (32 * p.2) (32 * p.2 + 32) = i.dy) := by
  have := scan_ind T hL stepY mv hps (fun qs i => i.dx = 0 ∧ 0 ≤ i.dy ∧ (i.is = true ↔ 0 < i.dy) ∧
      (∀ p ∈ qs, Solid L p.1 p.2 → Overlap mv p.1 p.2 →
        line1 T mv.min.y (mv.min.y + 29) (32 * p.2) (32 * p.2 + 32) ≤ i.dy) ∧
      (i.dy = 0 ∨ ∃ p ∈ ps, Solid L p.1 p.2 ∧ Overlap mv p.1 p.2 ∧
        line1 T mv.min.y (mv.min.y + 29) (32 * p.2) (32 * p.2 + 32) = i.dy)) ?_ .none ?_
  · exact this
  · rintro qs p t i hp ht ⟨h1, h2, h3, h4, h5⟩
    obtain ⟨e1, e2⟩ := isect_tile T hs (hps p hp).1 (hps p hp).2 ht
    unfold stepY
    by_cases hc : (t.isect T p.1 p.2 mv).is = true
    · obtain ⟨-, e3⟩ := e2 hc
      obtain ⟨e4, e5⟩ := e1.1 hc
      by_cases hd : (t.isect T p.1 p.2 mv).dy > i.dy
      · rw [if_pos (by rw [hc, decide_eq_true hd]; rfl)]
        refine ⟨h1, by show 0 ≤ _; linarith, ⟨fun _ => by show 0 < _; linarith, fun _ => rfl⟩, ?_, .inr ⟨p, hp, e4, e5, e3.symm⟩⟩
        intro q hq q1 q2
        rcases List.mem_append.1 hq with h | h
        · exact (h4 q h q1 q2).trans hd.le
        · rw [List.mem_singleton.1 h, ← e3]
      · rw [if_neg (by rw [decide_eq_false hd]; simp)]
        refine ⟨h1, h2, h3, ?_, h5⟩
        intro q hq q1 q2
        rcases List.mem_append.1 hq with h | h
        · exact h4 q h q1 q2
        · rw [List.mem_singleton.1 h, ← e3]; linarith
    · rw [if_neg (by simp [hc])]
      refine ⟨h1, h2, h3, ?_, h5⟩
      intro q hq q1 q2
      rcases List.mem_append.1 hq with h | h
      · exact h4 q h q1 q2
      · rw [List.mem_singleton.1 h] at q1 q2
        exact absurd (e1.2 ⟨q1, q2⟩) hc
  · exact ⟨rfl, le_rfl, by simp [Isect.none], by simp, .inl rfl⟩

/-- The horizontal pass finds the greatest depth. -/
theorem scanX_spec (T : Tol ℚ) {L : Lvl} (hL : L.Ok) {mv : Bbox ℚ} (hs : Sized mv) {ps : List (Nat × Nat)}
    (hps : ∀ p ∈ ps, p.1 < L.w ∧ p.2 < L.h) {i0 : Isect} (h0 : i0.dx = 0) (h0' : i0.is = true ↔ 0 < i0.dy) :
    ∃ i, scan T L stepX mv ps i0 = .ok i ∧ i.dy = i0.dy ∧ 0 ≤ i.dx ∧ (i.is = true ↔ 0 < i.dx ∨ 0 < i.dy) ∧
      (∀ p ∈ ps, Solid L p.1 p.2 → Overlap mv p.1 p.2 →
        line1 T mv.min.x (mv.min.x + 21) (32 * p.1) (32 * p.1 + 32) ≤ i.dx) ∧
      (i.dx = 0 ∨ ∃ p ∈ ps, Solid L p.1 p.2 ∧ Overlap mv p.1 p.2 ∧
        line1 T mv.min.x (mv.min.x + 21) (32 * p.1) (32 * p.1 + 32) = i.dx) := by
  have := scan_ind T hL stepX mv hps (fun qs i => i.dy = i0.dy ∧ 0 ≤ i.dx ∧ (i.is = true ↔ 0 < i.dx ∨ 0 < i.dy) ∧
      (∀ p ∈ qs, Solid L p.1 p.2 → Overlap mv p.1 p.2 →
        line1 T mv.min.x (mv.min.x + 21) (32 * p.1) (32 * p.1 + 32) ≤ i.dx) ∧
      (i.dx = 0 ∨ ∃ p ∈ ps, Solid L p.1 p.2 ∧ Overlap mv p.1 p.2 ∧
        line1 T mv.min.x (mv.min.x + 21) (32 * p.1) (32 * p.1 + 32) = i.dx)) ?_ i0 ?_
  · exact this
  · rintro qs p t i hp ht ⟨h1, h2, h3, h4, h5⟩
    obtain ⟨e1, e2⟩ := isect_tile T hs (hps p hp).1 (hps p hp).2 ht
    unfold stepX
    by_cases hc : (t.isect T p.1 p.2 mv).is = true
    · obtain ⟨e3, -⟩ := e2 hc
      obtain ⟨e4, e5⟩ := e1.1 hc
      by_cases hd : (t.isect T p.1 p.2 mv).dx > i.dx
      · rw [if_pos (by rw [hc, decide_eq_true hd]; rfl)]
        refine ⟨h1, by show 0 ≤ _; linarith, ⟨fun _ => .inl (by show 0 < _; linarith), fun _ => rfl⟩, ?_,
          .inr ⟨p, hp, e4, e5, e3.symm⟩⟩
        intro q hq q1 q2
        rcases List.mem_append.1 hq with h | h
        · exact (h4 q h q1 q2).trans hd.le
        · rw [List.mem_singleton.1 h, ← e3]
      · rw [if_neg (by rw [decide_eq_false hd]; simp)]
        refine ⟨h1, h2, h3, ?_, h5⟩
        intro q hq q1 q2
        rcases List.mem_append.1 hq with h | h
        · exact h4 q h q1 q2
        · rw [List.mem_singleton.1 h, ← e3]; linarith
    · rw [if_neg (by simp [hc])]
      refine ⟨h1, h2, h3, ?_, h5⟩
      intro q hq q1 q2
      rcases List.mem_append.1 hq with h | h
      · exact h4 q h q1 q2
      · rw [List.mem_singleton.1 h] at q1 q2
        exact absurd (e1.2 ⟨q1, q2⟩) hc
  · exact ⟨rfl, h0.ge, by rw [h0']; simp [h0], by simp, .inl h0⟩

theorem Sized.shift {b : Bbox ℚ} (h : Sized b) (x y : ℚ) : Sized (shift b x y) := by
  obtain ⟨h1, h2⟩ := h
  exact ⟨by simp only [Plat.shift]; rw [h1]; ring, by simp only [Plat.shift]; rw [h2]; ring⟩

theorem overlap_iff {b : Bbox ℚ} (hs : Sized b) (i j : Nat) :
    Overlap b i j ↔ Ov b.min.x 21 (32 * i) ∧ Ov b.min.y 29 (32 * j) := by
  unfold Overlap Ov
  rw [hs.1, hs.2, show (32 * ((i : ℚ) + 1)) = 32 * i + 32 by ring, show (32 * ((j : ℚ) + 1)) = 32 * j + 32 by ring]
  tauto

/-- A step of the player is small enough for `Lvl::isect`. -/
def Small (b : Bbox ℚ) (d : Pt ℚ) : Prop :=
  |d.x| ≤ 1 ∧ |d.y| ≤ 1 ∧ b.max.x + d.x ≤ ⌊b.max.x⌋ + 1 ∧ b.max.y + d.y ≤ ⌊b.max.y⌋ + 1

/-- The vertical pass. -/
theorem passY (T : Tol ℚ) {L : Lvl} (hL : Closed L) {b : Bbox ℚ} (h : In L b) {ps : List (Nat × Nat)}
    (hp1 : ∀ p ∈ ps, p.1 < L.w ∧ p.2 < L.h)
    (hp2 : ∀ i j : Nat, b.min.x - 1 < 32 * (i + 1) → 32 * (i : ℚ) < ⌊b.max.x⌋ + 1 →
        b.min.y - 1 < 32 * (j + 1) → 32 * (j : ℚ) < ⌊b.max.y⌋ + 1 → (i, j) ∈ ps)
    {t : ℚ} (ht : |t| ≤ 1) (ht' : b.max.y + t ≤ ⌊b.max.y⌋ + 1) :
    ∃ i : Isect, (if t = 0 then Outcome.ok Isect.none else scan T L stepY (shift b 0 t) ps .none) = .ok i ∧
      i.dx = 0 ∧ 0 ≤ i.dy ∧ i.dy ≤ |t| ∧ (i.is = true ↔ 0 < i.dy) ∧ Clear L (shift b 0 (t - sgn t * i.dy)) ∧
      (0 < i.dy → Whole (b.min.y + (t - sgn t * i.dy))) := by
  by_cases h0 : t = 0
  · subst h0
    refine ⟨.none, by simp, rfl, le_rfl, by simp [Isect.none], by simp [Isect.none], ?_, fun h => by simp [Isect.none] at h⟩
    have : shift b 0 (0 - sgn 0 * Isect.none.dy) = b := by simp [shift, Isect.none]
    rw [this]
    exact h.clear
  · obtain ⟨i, h1, h2, h3, h4, h5, h6⟩ := scanY_spec T hL.toOk (h.sized.shift 0 t) hp1
    have hmin : (shift b 0 t).min.y = b.min.y + t := rfl
    have hov : ∀ p q : Nat, Overlap (shift b 0 t) p q ↔ Ov b.min.x 21 (32 * p) ∧ Ov (b.min.y + t) 29 (32 * q) := by
      intro p q
      rw [overlap_iff (h.sized.shift 0 t)]
      simp only [shift, add_zero]
    obtain ⟨k1, k2⟩ := abs_le.1 ht
    have key := slide T (S := fun o => ∃ p q : Nat, Solid L p q ∧ Ov b.min.x 21 (32 * p) ∧ o = 32 * q)
      (a := b.min.y) (n := 29) (t := t) (m := i.dy) (by norm_num) ht h0 ?_ ?_ ?_
    · obtain ⟨m1, m2, m3, m4⟩ := key
      refine ⟨i, by rw [if_neg h0]; exact h1, h2, m1, m2, h4, ?_, ?_⟩
      · intro p q hpq hover
        rw [overlap_iff (h.sized.shift _ _)] at hover
        obtain ⟨g1, g2⟩ := hover
        simp only [shift, add_zero] at g1 g2
        exact m3 _ ⟨p, q, hpq, g1, rfl⟩ g2
      · intro hpos
        obtain ⟨o, ⟨p, q, -, -, rfl⟩, g | g⟩ := m4 hpos
        · exact ⟨32 * q - 29, by push_cast; exact g⟩
        · exact ⟨32 * q + 32, by push_cast; exact g⟩
    · rintro o ⟨p, q, g1, g2, rfl⟩ g3
      exact h.clear p q g1 ((overlap_iff h.sized p q).2 ⟨g2, g3⟩)
    · rintro o ⟨p, q, g1, g2, rfl⟩ g3
      have g4 := (line1_pos T (by norm_num)).1 g3
      have := h5 (p, q) (hp2 p q ?_ ?_ ?_ ?_) g1 ((hov p q).2 ⟨g2, g4⟩)
      · rw [hmin] at this; exact this
      · linarith [g2.1]
      · have := Int.lt_floor_add_one b.max.x
        have := g2.2
        rw [← h.sized.1] at this
        linarith
      · linarith [g4.1]
      · have := g4.2
        linarith [h.sized.2]
    · rcases h6 with h6 | ⟨p, -, g1, g2, g3⟩
      · exact .inl h6
      · rw [hmin] at g3
        obtain ⟨g4, g5⟩ := (hov _ _).1 g2
        exact .inr ⟨32 * p.2, ⟨p.1, p.2, g1, g4, rfl⟩, (line1_pos T (by norm_num)).2 g5, g3⟩

theorem between_step {t m : ℚ} (h0 : 0 ≤ m) (h1 : m ≤ |t|) : |t - sgn t * m| ≤ |t| ∧ t - sgn t * m ≤ max t 0 := by
  unfold sgn
  split_ifs with h
  · rw [abs_of_pos h] at *
    refine ⟨abs_le.2 ⟨by linarith, by linarith⟩, ?_⟩
    exact le_max_of_le_left (by linarith)
  · push Not at h
    rw [abs_of_nonpos h] at *
    exact ⟨abs_le.2 ⟨by linarith, by linarith⟩, le_max_of_le_right (by linarith)⟩

/-- `Lvl::isect` for one step of a player: no undefined behaviour, and after taking the depths back the player is in no
solid tile. -/
theorem isect_spec (T : Tol ℚ) {L : Lvl} (hL : Closed L) {b : Bbox ℚ} (h : In L b) {d : Pt ℚ} (hd : Small b d) :
    ∃ is, L.isect T b d = .ok is ∧ 0 ≤ is.dx ∧ is.dx ≤ |d.x| ∧ 0 ≤ is.dy ∧ is.dy ≤ |d.y| ∧
      (is.is = true ↔ 0 < is.dx ∨ 0 < is.dy) ∧
      In L (shift b (d.x - sgn d.x * is.dx) (d.y - sgn d.y * is.dy)) ∧
      (0 < is.dx → Whole (b.min.x + (d.x - sgn d.x * is.dx))) ∧
      (0 < is.dy → Whole (b.min.y + (d.y - sgn d.y * is.dy))) := by
  obtain ⟨d1, d2, d3, d4⟩ := hd
  obtain ⟨ps, z1, z2, z3⟩ := hitzone_spec hL h
  obtain ⟨i, y1, y2, y3, y4, y5, y6, y7⟩ := passY T hL h z2 z3 d2 d4
  obtain ⟨a1, a2, a3, a4⟩ := h.away hL
  obtain ⟨b1, b2⟩ := between_step y3 y4
  have hins : ∀ x : ℚ, |x| ≤ 1 → Inside L (shift b x (d.y - sgn d.y * i.dy)) := by
    intro x hx
    have hy := b1.trans d2
    obtain ⟨e1, e2⟩ := abs_le.1 hx
    obtain ⟨e3, e4⟩ := abs_le.1 hy
    refine ⟨?_, ?_, ?_, ?_⟩ <;> simp only [shift] <;> linarith
  have hy : d.y + (if d.y < 0 then i.dy else -i.dy) = d.y - sgn d.y * i.dy := by
    unfold sgn
    by_cases g1 : d.y < 0
    · rw [if_pos g1, if_neg (by linarith)]; ring
    · rw [if_neg g1]
      by_cases g2 : d.y > 0
      · rw [if_pos g2]; ring
      · have : d.y = 0 := by linarith
        rw [this] at y4
        rw [show i.dy = 0 by rw [abs_zero] at y4; linarith]; simp
  by_cases h0 : d.x = 0
  · have e0 : d.x - sgn d.x * i.dx = 0 := by rw [h0, y2]; ring
    refine ⟨i, ?_, y2.ge, by rw [y2]; positivity, y3, y4, by rw [y5, y2]; simp, ?_, ?_, y7⟩
    · rw [Lvl.isect, z1, Outcome.bind_ok, y1, Outcome.bind_ok, if_pos h0]
    · rw [e0]
      exact ⟨h.sized.shift _ _, hins 0 (by simp), y6⟩
    · rw [y2]; intro k; exact absurd k (lt_irrefl _)
  · obtain ⟨i', x1, x2, x3, x4, x5, x6⟩ := scanX_spec T hL.toOk (h.sized.shift d.x (d.y - sgn d.y * i.dy)) z2 y2 y5
    set sy := d.y - sgn d.y * i.dy with hsy
    have hmin : (shift b d.x sy).min.x = b.min.x + d.x := rfl
    have hov : ∀ p q : Nat, Overlap (shift b d.x sy) p q ↔
        Ov (b.min.x + d.x) 21 (32 * p) ∧ Ov (b.min.y + sy) 29 (32 * q) := by
      intro p q
      rw [overlap_iff (h.sized.shift _ _)]
      rfl
    obtain ⟨k1, k2⟩ := abs_le.1 d1
    obtain ⟨k3, k4⟩ := abs_le.1 (b1.trans d2)
    have fl := Int.lt_floor_add_one b.max.y
    have key := slide T (S := fun o => ∃ p q : Nat, Solid L p q ∧ Ov (b.min.y + sy) 29 (32 * q) ∧ o = 32 * p)
      (a := b.min.x) (n := 21) (t := d.x) (m := i'.dx) (by norm_num) d1 h0 ?_ ?_ ?_
    · obtain ⟨m1, m2, m3, m4⟩ := key
      refine ⟨i', ?_, m1, m2, by rw [x2]; exact y3, by rw [x2]; exact y4, x4, ?_, ?_, by rw [x2]; exact y7⟩
      · rw [Lvl.isect, z1, Outcome.bind_ok, y1, Outcome.bind_ok, if_neg h0, hy]
        exact x1
      · rw [x2, ← hsy]
        refine ⟨h.sized.shift _ _, hins _ ((between_step m1 m2).1.trans d1), ?_⟩
        intro p q hpq hover
        rw [overlap_iff (h.sized.shift _ _)] at hover
        obtain ⟨g1, g2⟩ := hover
        exact m3 _ ⟨p, q, hpq, g2, rfl⟩ g1
      · intro hpos
        obtain ⟨o, ⟨p, q, -, -, rfl⟩, g | g⟩ := m4 hpos
        · exact ⟨32 * p - 21, by push_cast; exact g⟩
        · exact ⟨32 * p + 32, by push_cast; exact g⟩
    · rintro o ⟨p, q, g1, g2, rfl⟩ g3
      refine y6 p q g1 ((overlap_iff (h.sized.shift _ _) p q).2 ⟨?_, g2⟩)
      simpa only [shift, add_zero] using g3
    · rintro o ⟨p, q, g1, g2, rfl⟩ g3
      have g4 := (line1_pos T (by norm_num)).1 g3
      have := x5 (p, q) (z3 p q ?_ ?_ ?_ ?_) g1 ((hov p q).2 ⟨g4, g2⟩)
      · rw [hmin] at this; exact this
      · linarith [g4.1]
      · linarith [g4.2, h.sized.1]
      · linarith [g2.1]
      · have := g2.2
        have e : b.max.y + sy ≤ ⌊b.max.y⌋ + 1 := by
          rcases le_total d.y 0 with g | g
          · rw [max_eq_right g] at b2; linarith
          · rw [max_eq_left g] at b2; linarith
        linarith [h.sized.2]
    · rcases x6 with x6 | ⟨p, -, g1, g2, g3⟩
      · exact .inl x6
      · rw [hmin] at g3
        obtain ⟨g4, g5⟩ := (hov _ _).1 g2
        exact .inr ⟨32 * p.1, ⟨p.1, p.2, g1, g5, rfl⟩, (line1_pos T (by norm_num)).2 g4, g3⟩

/-! ## One frame -/

theorem sgn_cases (t : ℚ) : (sgn t = 1 ∧ 0 < t) ∨ (sgn t = -1 ∧ t ≤ 0) := by
  unfold sgn
  split_ifs with h
  · exact .inl ⟨rfl, h⟩
  · exact .inr ⟨rfl, not_lt.1 h⟩

/-- One coordinate of an iteration: `v` is the way still to go, `d` the step and `m` the depth taken back. -/
theorem adv {e v d m : ℚ} (he : e = 1 ∨ e = -1) (h1 : 0 ≤ e * v) (h2 : 0 ≤ d * v) (h3 : d = 0 ↔ v = 0)
    (h4 : |d| ≤ |v|) (h5 : 0 ≤ m) (h6 : m ≤ |d|) :
    e * m = sgn d * m ∧ 0 ≤ e * (v - (d - e * m)) ∧ e * (v - (d - e * m)) ≤ e * v ∧
      |v| - |d| ≤ |v - (d - e * m)| := by
  by_cases hd : d = 0
  · have hm : m = 0 := by rw [hd, abs_zero] at h6; linarith
    subst hd hm
    simp [h1]
  · have hv : v ≠ 0 := fun h => hd (h3.2 h)
    rcases he with rfl | rfl
    · have hv' : 0 < v := lt_of_le_of_ne (by linarith) (Ne.symm hv)
      have hd' : 0 < d := lt_of_le_of_ne (by nlinarith) (Ne.symm hd)
      rw [abs_of_pos hd'] at *
      rw [abs_of_pos hv'] at *
      have : sgn d = 1 := by unfold sgn; rw [if_pos hd']
      rw [this]
      refine ⟨rfl, by linarith, by linarith, ?_⟩
      rw [abs_of_nonneg (by linarith)]; linarith
    · have hv' : v < 0 := lt_of_le_of_ne (by linarith) hv
      have hd' : d < 0 := lt_of_le_of_ne (by nlinarith) hd
      rw [abs_of_neg hd'] at *
      rw [abs_of_neg hv'] at *
      have : sgn d = -1 := by unfold sgn; rw [if_neg (by linarith)]
      rw [this]
      refine ⟨rfl, by linarith, by linarith, ?_⟩
      rw [abs_of_nonpos (by linarith)]; linarith

/-- A bound on the iterations still needed in one direction. -/
def mu (loc left : ℚ) : Nat := if left ≤ 0 then 0 else ⌈left⌉.toNat + (if (⌊loc⌋ : ℚ) = loc then 0 else 1)

theorem whole_floor {q : ℚ} : Whole q ↔ (⌊q⌋ : ℚ) = q := by
  constructor
  · rintro ⟨k, rfl⟩; simp
  · intro h; exact ⟨⌊q⌋, h.symm⟩

theorem mu_dec {loc loc' v left : ℚ} (hl : left ≤ |v|)
    (hw : Whole (loc + step1 loc v) → Whole loc') (hpos : 0 < left) :
    mu loc' (left - |step1 loc v|) < mu loc left := by
  obtain ⟨s1, s2, s3, s4, s5, s6⟩ := step1_spec loc v
  have c1 : 1 ≤ ⌈left⌉ := Int.one_le_ceil_iff.2 hpos
  have hmu : mu loc left = ⌈left⌉.toNat + (if (⌊loc⌋ : ℚ) = loc then 0 else 1) := by
    unfold mu; rw [if_neg (not_le.2 hpos)]
  rw [hmu]
  by_cases hle : left - |step1 loc v| ≤ 0
  · have : mu loc' (left - |step1 loc v|) = 0 := by unfold mu; rw [if_pos hle]
    rw [this]
    omega
  · rcases s6 with h | ⟨h, h'⟩
    · exfalso; rw [h] at hle; exact hle (by linarith)
    · have e1 : mu loc' (left - |step1 loc v|) = ⌈left - |step1 loc v|⌉.toNat := by
        unfold mu
        rw [if_neg hle, if_pos (whole_floor.1 (hw h)), add_zero]
      rw [e1]
      have hd0 : 0 ≤ |step1 loc v| := abs_nonneg _
      by_cases hwl : Whole loc
      · rw [h' hwl, if_pos (whole_floor.1 hwl), Int.ceil_sub_one]
        omega
      · rw [if_neg (fun k => hwl (whole_floor.2 k))]
        have : ⌈left - |step1 loc v|⌉ ≤ ⌈left⌉ := Int.ceil_mono (by linarith)
        omega

theorem mu_zero {loc left : ℚ} (h : left ≤ 0) : mu loc left = 0 := by unfold mu; rw [if_pos h]

/-- A multiple of `1/n`. -/
def Lat (n : ℚ) (q : ℚ) : Prop := Whole (n * q)

theorem Whole.add {a b : ℚ} (ha : Whole a) (hb : Whole b) : Whole (a + b) := by
  obtain ⟨i, rfl⟩ := ha; obtain ⟨j, rfl⟩ := hb; exact ⟨i + j, by push_cast; ring⟩

theorem Whole.sub {a b : ℚ} (ha : Whole a) (hb : Whole b) : Whole (a - b) := by
  obtain ⟨i, rfl⟩ := ha; obtain ⟨j, rfl⟩ := hb; exact ⟨i - j, by push_cast; ring⟩

theorem Whole.mul {a b : ℚ} (ha : Whole a) (hb : Whole b) : Whole (a * b) := by
  obtain ⟨i, rfl⟩ := ha; obtain ⟨j, rfl⟩ := hb; exact ⟨i * j, by push_cast; ring⟩

theorem Lat.add {n a b : ℚ} (ha : Lat n a) (hb : Lat n b) : Lat n (a + b) := by
  unfold Lat at *; rw [mul_add]; exact ha.add hb

theorem Lat.sub {n a b : ℚ} (ha : Lat n a) (hb : Lat n b) : Lat n (a - b) := by
  unfold Lat at *; rw [mul_sub]; exact ha.sub hb

theorem Whole.lat {n a : ℚ} (hn : Whole n) (ha : Whole a) : Lat n a := hn.mul ha

/-- The invariant of the loop of `Body::move`; `n` and `m` are the grids of the horizontal and vertical coordinates. -/
structure MInv (L : Lvl) (n m : ℚ) (b0 : Bbox ℚ) (dx dy : ℚ) (s : Mv) : Prop where
  inn : In L s.bbox
  vx : 0 ≤ sgn dx * s.v.x ∧ sgn dx * s.v.x ≤ |dx|
  vy : 0 ≤ sgn dy * s.v.y ∧ sgn dy * s.v.y ≤ |dy|
  px : s.bbox.min.x + s.v.x = b0.min.x + dx
  py : s.bbox.min.y + s.v.y = b0.min.y + dy
  lx : s.left.x ≤ |s.v.x|
  ly : s.left.y ≤ |s.v.y|
  hit : 0 ≤ s.fallis.dy ∧ (s.fallis.is = true ↔ 0 < s.fallis.dy)
  gx : Lat n s.bbox.min.x
  gy : Lat m s.bbox.min.y

theorem floor_add_21 (q : ℚ) : (⌊q + 21⌋ : ℚ) = ⌊q⌋ + 21 := by
  have : ⌊q + 21⌋ = ⌊q⌋ + 21 := by exact_mod_cast Int.floor_add_intCast q 21
  rw [this]; push_cast; ring

theorem floor_add_29 (q : ℚ) : (⌊q + 29⌋ : ℚ) = ⌊q⌋ + 29 := by
  have : ⌊q + 29⌋ = ⌊q⌋ + 29 := by exact_mod_cast Int.floor_add_intCast q 29
  rw [this]; push_cast; ring

/-- The new position in one direction is on the grid. -/
theorem lat_step {n loc v d' m : ℚ} (hn : Whole n) (hl : Lat n loc) (hv : Lat n v) (hm : 0 ≤ m)
    (h0 : m = 0 → d' = step1 loc v) (h1 : 0 < m → Whole (loc + d')) : Lat n (loc + d') := by
  rcases hm.eq_or_lt with h | h
  · rw [h0 h.symm]
    obtain ⟨-, -, -, -, -, k | k⟩ := step1_spec loc v
    · rw [k]; exact hl.add hv
    · exact hn.lat k.1
  · exact hn.lat (h1 h)

theorem next_spec (T : Tol ℚ) {L : Lvl} (hL : Closed L) {n m : ℚ} (hn : Whole n) (hm : Whole m) {b0 : Bbox ℚ}
    {dx dy : ℚ} (hgx : Lat n (b0.min.x + dx)) (hgy : Lat m (b0.min.y + dy)) {s : Mv} (h : MInv L n m b0 dx dy s) :
    ∃ s', s.next T L (sgn dx) (sgn dy) = .ok s' ∧ MInv L n m b0 dx dy s' ∧
      (0 < s.left.x → mu s'.bbox.min.x s'.left.x < mu s.bbox.min.x s.left.x) ∧
      (0 < s.left.y → mu s'.bbox.min.y s'.left.y < mu s.bbox.min.y s.left.y) ∧
      s'.left.x ≤ s.left.x ∧ s'.left.y ≤ s.left.y := by
  obtain ⟨x1, x2, x3, x4, x5, x6⟩ := step1_spec s.bbox.min.x s.v.x
  obtain ⟨y1, y2, y3, y4, y5, y6⟩ := step1_spec s.bbox.min.y s.v.y
  obtain ⟨z1, z2⟩ := h.inn.sized
  have hsm : Small s.bbox (step s.bbox s.v) := by
    refine ⟨x1, y1, ?_, ?_⟩ <;> simp only [step]
    · rw [z1, floor_add_21]; linarith
    · rw [z2, floor_add_29]; linarith
  obtain ⟨is, i1, i2, i3, i4, i5, i6, i7, i8, i9⟩ := isect_spec T hL h.inn hsm
  simp only [step] at i3 i5 i7 i8 i9
  have hex : sgn dx = 1 ∨ sgn dx = -1 := by rcases sgn_cases dx with k | k <;> simp [k.1]
  have hey : sgn dy = 1 ∨ sgn dy = -1 := by rcases sgn_cases dy with k | k <;> simp [k.1]
  obtain ⟨p1, p2, p3, p4⟩ := adv hex h.vx.1 x3 x4 x2 i2 i3
  obtain ⟨q1, q2, q3, q4⟩ := adv hey h.vy.1 y3 y4 y2 i4 i5
  have lvx : Lat n s.v.x := by
    have : s.v.x = (b0.min.x + dx) - s.bbox.min.x := by linarith [h.px]
    rw [this]; exact hgx.sub h.gx
  have lvy : Lat m s.v.y := by
    have : s.v.y = (b0.min.y + dy) - s.bbox.min.y := by linarith [h.py]
    rw [this]; exact hgy.sub h.gy
  have wx : Whole (s.bbox.min.x + step1 s.bbox.min.x s.v.x) →
      Whole (s.bbox.min.x + (step1 s.bbox.min.x s.v.x - sgn dx * is.dx)) := by
    intro k
    rcases i2.eq_or_lt with k' | k'
    · rw [← k', mul_zero, sub_zero]; exact k
    · rw [p1]; exact i8 k'
  have wy : Whole (s.bbox.min.y + step1 s.bbox.min.y s.v.y) →
      Whole (s.bbox.min.y + (step1 s.bbox.min.y s.v.y - sgn dy * is.dy)) := by
    intro k
    rcases i4.eq_or_lt with k' | k'
    · rw [← k', mul_zero, sub_zero]; exact k
    · rw [q1]; exact i9 k'
  refine ⟨_, by rw [Mv.next, i1, Outcome.map_ok], ⟨?_, ⟨p2, p3.trans h.vx.2⟩, ⟨q2, q3.trans h.vy.2⟩, ?_, ?_, ?_, ?_, ?_, ?_, ?_⟩,
    ?_, ?_, ?_, ?_⟩
  · show In L (shift s.bbox _ _)
    simp only [step]
    rw [p1, q1]; exact i7
  · show s.bbox.min.x + (step1 s.bbox.min.x s.v.x - sgn dx * is.dx) +
      (s.v.x - (step1 s.bbox.min.x s.v.x - sgn dx * is.dx)) = _
    linarith [h.px]
  · show s.bbox.min.y + (step1 s.bbox.min.y s.v.y - sgn dy * is.dy) +
      (s.v.y - (step1 s.bbox.min.y s.v.y - sgn dy * is.dy)) = _
    linarith [h.py]
  · show s.left.x - |step1 s.bbox.min.x s.v.x| ≤ |s.v.x - (step1 s.bbox.min.x s.v.x - sgn dx * is.dx)|
    linarith [h.lx]
  · show s.left.y - |step1 s.bbox.min.y s.v.y| ≤ |s.v.y - (step1 s.bbox.min.y s.v.y - sgn dy * is.dy)|
    linarith [h.ly]
  · show 0 ≤ (if is.is && decide (is.dy ≠ 0) then is else s.fallis).dy ∧
      ((if is.is && decide (is.dy ≠ 0) then is else s.fallis).is = true ↔
        0 < (if is.is && decide (is.dy ≠ 0) then is else s.fallis).dy)
    split_ifs with k
    · simp only [Bool.and_eq_true, decide_eq_true_eq] at k
      have : 0 < is.dy := lt_of_le_of_ne i4 (Ne.symm k.2)
      exact ⟨i4, ⟨fun _ => this, fun _ => k.1⟩⟩
    · exact h.hit
  · refine lat_step hn h.gx lvx i2 (fun k => ?_) (fun k => ?_)
    · show step1 s.bbox.min.x s.v.x - sgn dx * is.dx = _
      rw [k]; ring
    · show Whole (s.bbox.min.x + (step1 s.bbox.min.x s.v.x - sgn dx * is.dx))
      rw [p1]; exact i8 k
  · refine lat_step hm h.gy lvy i4 (fun k => ?_) (fun k => ?_)
    · show step1 s.bbox.min.y s.v.y - sgn dy * is.dy = _
      rw [k]; ring
    · show Whole (s.bbox.min.y + (step1 s.bbox.min.y s.v.y - sgn dy * is.dy))
      rw [q1]; exact i9 k
  · exact fun k => mu_dec h.lx wx k
  · exact fun k => mu_dec h.ly wy k
  · show s.left.x - |step1 s.bbox.min.x s.v.x| ≤ _
    linarith [abs_nonneg (step1 s.bbox.min.x s.v.x)]
  · show s.left.y - |step1 s.bbox.min.y s.v.y| ≤ _
    linarith [abs_nonneg (step1 s.bbox.min.y s.v.y)]

theorem moveLoop_spec (T : Tol ℚ) {L : Lvl} (hL : Closed L) {n m : ℚ} (hn : Whole n) (hm : Whole m) {b0 : Bbox ℚ}
    {dx dy : ℚ} (hgx : Lat n (b0.min.x + dx)) (hgy : Lat m (b0.min.y + dy)) :
    ∀ (fuel : Nat) (s : Mv), MInv L n m b0 dx dy s → mu s.bbox.min.x s.left.x < fuel →
      mu s.bbox.min.y s.left.y < fuel →
      ∃ s', moveLoop T L (sgn dx) (sgn dy) fuel s = .ok s' ∧ MInv L n m b0 dx dy s' := by
  intro fuel
  induction fuel with
  | zero => intro s _ h; omega
  | succ f ih =>
    intro s h h1 h2
    by_cases hc : s.left.x > 0 ∨ s.left.y > 0
    · obtain ⟨s', e1, e2, e3, e4, e5, e6⟩ := next_spec T hL hn hm hgx hgy h
      have g1 : mu s'.bbox.min.x s'.left.x < f := by
        by_cases k : 0 < s.left.x
        · have := e3 k; omega
        · rw [mu_zero (by linarith)]
          rcases hc with k' | k'
          · exact absurd k' k
          · have := e4 k'; omega
      have g2 : mu s'.bbox.min.y s'.left.y < f := by
        by_cases k : 0 < s.left.y
        · have := e4 k; omega
        · rw [mu_zero (by linarith)]
          rcases hc with k' | k'
          · have := e3 k'; omega
          · exact absurd k' k
      obtain ⟨s'', k1, k2⟩ := ih s' e2 g1 g2
      exact ⟨s'', by rw [moveLoop, if_pos hc, e1, Outcome.bind_ok, k1], k2⟩
    · exact ⟨s, by rw [moveLoop, if_neg hc], h⟩

/-- The invariant of a player: a free place, bounded speed and jump counter; the coordinates are multiples of 1/40 of a
pixel and the vertical ones and the speed multiples of `1/m`. -/
structure Good (L : Lvl) (m : ℚ) (top : ℚ) (p : Player) : Prop where
  inn : In L p.body.bbox
  jf : p.jframes ≤ 8
  lo : -8 ≤ p.body.dy
  hi : p.body.dy ≤ top
  gx : Lat 40 p.body.bbox.min.x
  gy : Lat m p.body.bbox.min.y
  gv : Lat m p.body.dy

/-- The level has no water. -/
def Dry (L : Lvl) : Prop := ∀ i j t, L.at i j = .ok t → t.water = false

/-- Where the grid and the speed limit come from: `m` = 2 and 12 without water, `m` = 4 and 12 1/4 with it. -/
structure Grid (L : Lvl) (m top : ℚ) : Prop where
  whole : Whole m
  pos : 0 < m
  grav : ∀ b bi, L.majorblk b = .ok bi → Lat m bi.2.2.gravity
  le : ∀ b bi, L.majorblk b = .ok bi → ∀ v, Lat m v → v < 12 → v + bi.2.2.gravity ≤ top
  top : 12 ≤ top

theorem lat_int (m : ℚ) (hm : Whole m) (k : ℤ) : Lat m k := hm.lat ⟨k, rfl⟩

theorem grid_dry {L : Lvl} (h : Dry L) : Grid L 2 12 := by
  have hg : ∀ b bi, L.majorblk b = .ok bi → bi.2.2.gravity = 1 / 2 := by
    intro b bi hb
    simp only [Lvl.majorblk, Outcome.bind_eq_ok, Outcome.map_eq_ok] at hb
    obtain ⟨x, -, y, -, t, ht, rfl⟩ := hb
    simp [Tile.gravity, h x y t ht]
  refine ⟨⟨2, by norm_num⟩, by norm_num, ?_, ?_, by norm_num⟩
  · intro b bi hb
    rw [hg b bi hb]; exact ⟨1, by norm_num⟩
  · intro b bi hb v hv hlt
    rw [hg b bi hb]
    obtain ⟨k, hk⟩ := hv
    have : (k : ℚ) < 24 := by linarith
    have : k < 24 := by exact_mod_cast this
    have : (k : ℚ) ≤ 23 := by exact_mod_cast (show k ≤ 23 by omega)
    linarith

theorem grid_wet (L : Lvl) : Grid L 4 (49 / 4) := by
  refine ⟨⟨4, by norm_num⟩, by norm_num, ?_, ?_, by norm_num⟩
  · intro b bi hb
    unfold Tile.gravity
    split_ifs
    · exact ⟨1, by norm_num⟩
    · exact ⟨2, by norm_num⟩
  · intro b bi hb v hv hlt
    have hg : bi.2.2.gravity ≤ 1 / 2 := by unfold Tile.gravity; split_ifs <;> norm_num
    obtain ⟨k, hk⟩ := hv
    have : (k : ℚ) < 48 := by linarith
    have : k < 48 := by exact_mod_cast this
    have : (k : ℚ) ≤ 47 := by exact_mod_cast (show k ≤ 47 by omega)
    linarith

theorem chngjmp_spec {L : Lvl} {m top : ℚ} (hg : Grid L m top) {p : Player} (h : Good L m top p) (a : Nat) :
    Good L m top (chngjmp p a) ∧ (chngjmp p a).body.bbox = p.body.bbox := by
  have ht : 0 ≤ top := by linarith [hg.top]
  unfold chngjmp
  split_ifs with h1 h2 h3 h4
  · exact ⟨⟨h.inn, by simp, by norm_num, ht, h.gx, h.gy, by simpa using lat_int m hg.whole 0⟩, rfl⟩
  · have hj : ((p.jframes : ℕ) : ℚ) ≤ 8 := by exact_mod_cast h.jf
    refine ⟨⟨h.inn, by simp, by show -8 ≤ p.body.dy + (8 - (p.jframes : ℚ)); linarith [h.lo], ?_, h.gx, h.gy, ?_⟩, rfl⟩
    · show p.body.dy + (8 - (p.jframes : ℚ)) ≤ top
      push Not at h3; linarith
    · show Lat m (p.body.dy + (8 - (p.jframes : ℚ)))
      refine h.gv.add ?_
      have := lat_int m hg.whole (8 - (p.jframes : ℤ))
      push_cast at this; exact this
  · exact ⟨⟨h.inn, by simp, h.lo, h.hi, h.gx, h.gy, h.gv⟩, rfl⟩
  · exact ⟨⟨h.inn, le_rfl, le_rfl, by show (-8 : ℚ) ≤ top; linarith, h.gx, h.gy, by
      have := lat_int m hg.whole (-8); push_cast at this; exact this⟩, rfl⟩
  · exact ⟨h, rfl⟩

/-- The horizontal speed. -/
theorem xvel_spec {L : Lvl} (hL : Closed L) {p : Player} (h : In L p.body.bbox) (a : Nat) :
    ∃ dx, xvel L p a = .ok dx ∧ |dx| ≤ 13 / 4 ∧ Lat 40 dx := by
  obtain ⟨bi, hb⟩ := h.major hL
  refine ⟨_, by unfold xvel; rw [hb]; rfl, ?_, ?_⟩
  · have e : bi.2.2.drag = 7 / 10 ∨ bi.2.2.drag = 1 := by unfold Tile.drag; split_ifs <;> simp
    split_ifs with h1 h2 <;> rcases e with e | e <;> simp [e, runspeed] <;> norm_num [abs_le]
  · have e : bi.2.2.drag = 7 / 10 ∨ bi.2.2.drag = 1 := by unfold Tile.drag; split_ifs <;> simp
    unfold Lat runspeed
    rcases e with e | e <;> simp only [e] <;> split_ifs
    all_goals first
      | (refine ⟨0, ?_⟩; norm_num; done)
      | (refine ⟨-91, ?_⟩; norm_num; done)
      | (refine ⟨91, ?_⟩; norm_num; done)
      | (refine ⟨-130, ?_⟩; norm_num; done)
      | (refine ⟨130, ?_⟩; norm_num; done)

theorem hitfall_bbox (b : Body) (is : Isect) : (hitfall b is).bbox = b.bbox := by
  unfold hitfall
  dsimp only
  split_ifs <;> rfl

theorem hitfall_dy (b : Body) (is : Isect) : (hitfall b is).dy = b.dy ∨ (hitfall b is).dy = 0 := by
  unfold hitfall
  dsimp only
  split_ifs <;> simp

theorem mu_le {loc left : ℚ} {k : ℤ} (h : left ≤ k) (hk : 0 ≤ k) : mu loc left ≤ k.toNat + 1 := by
  unfold mu
  have : ⌈left⌉ ≤ k := Int.ceil_le.2 h
  split_ifs <;> omega

/-- One frame of the game in a closed level. -/
theorem act_spec (T : Tol ℚ) {L : Lvl} (hL : Closed L) {m top : ℚ} (hg : Grid L m top) (htop : top ≤ 13) {p : Player}
    (h : Good L m top p) {fuel : Nat} (hf : 15 ≤ fuel) (a : Nat) :
    ∃ q, act T L fuel p a = .ok q ∧ Good L m top q ∧
      |q.body.bbox.min.x - p.body.bbox.min.x| ≤ 13 / 4 ∧
      |q.body.bbox.min.y - p.body.bbox.min.y| ≤ |(chngjmp p a).body.dy| := by
  obtain ⟨h1, h1'⟩ := chngjmp_spec hg h a
  obtain ⟨dx, x1, x2, x3⟩ := xvel_spec hL h1.inn a
  set p1 := chngjmp p a with hp1
  have hdy : |p1.body.dy| ≤ 13 := abs_le.2 ⟨by linarith [h1.lo], by linarith [h1.hi]⟩
  have hinv : MInv L 40 m p1.body.bbox dx p1.body.dy
      ⟨p1.body.bbox, ⟨dx, p1.body.dy⟩, ⟨|dx|, |p1.body.dy|⟩, .none⟩ := by
    have hsg : ∀ t : ℚ, sgn t * t = |t| := by
      intro t
      rcases sgn_cases t with ⟨k, k'⟩ | ⟨k, k'⟩
      · rw [k, abs_of_pos k', one_mul]
      · rw [k, abs_of_nonpos k']; ring
    exact ⟨h1.inn, ⟨by rw [hsg]; exact abs_nonneg _, (hsg _).le⟩, ⟨by rw [hsg]; exact abs_nonneg _, (hsg _).le⟩, rfl, rfl,
      le_rfl, le_rfl, by simp [Isect.none], h1.gx, h1.gy⟩
  obtain ⟨s, s1, s2⟩ := moveLoop_spec T hL (⟨40, by norm_num⟩ : Whole (40 : ℚ)) hg.whole (h1.gx.add x3) (h1.gy.add h1.gv)
    fuel _ hinv
    (lt_of_le_of_lt (mu_le (k := 4) (by push_cast; show |dx| ≤ 4; linarith) (by norm_num)) (by norm_num; omega))
    (lt_of_le_of_lt (mu_le (k := 13) (by push_cast; exact hdy) (by norm_num)) (by norm_num; omega))
  have hbb := hitfall_bbox { p1.body with bbox := s.bbox } s.fallis
  have hdv := hitfall_dy { p1.body with bbox := s.bbox } s.fallis
  set hb := hitfall { p1.body with bbox := s.bbox } s.fallis with hhb
  have hv1 : -8 ≤ hb.dy ∧ hb.dy ≤ top ∧ Lat m hb.dy := by
    rcases hdv with e | e <;> rw [e]
    · exact ⟨h1.lo, h1.hi, h1.gv⟩
    · exact ⟨by norm_num, by linarith [hg.top], by simpa using lat_int m hg.whole 0⟩
  have hdo : ∃ b, dofall L { p1.body with bbox := s.bbox } s.fallis = .ok b ∧ b.bbox = s.bbox ∧ -8 ≤ b.dy ∧
      b.dy ≤ top ∧ Lat m b.dy := by
    unfold dofall
    rw [← hhb]
    by_cases hc : hb.fall = true ∧ hb.dy < 12
    · obtain ⟨bi, hbi⟩ := (show In L hb.bbox by rw [hbb]; exact s2.inn).major hL
      refine ⟨{ hb with dy := hb.dy + bi.2.2.gravity }, by rw [if_pos hc, hbi]; rfl, hbb, ?_, hg.le _ _ hbi _ hv1.2.2 hc.2, hv1.2.2.add (hg.grav _ _ hbi)⟩
      show -8 ≤ hb.dy + bi.2.2.gravity
      have : 0 ≤ bi.2.2.gravity := by unfold Tile.gravity; split_ifs <;> norm_num
      linarith [hv1.1]
    · exact ⟨hb, by rw [if_neg hc], hbb, hv1⟩
  obtain ⟨b, b1, b2, b3, b4, b5⟩ := hdo
  have hmv : p1.body.move T L fuel dx = .ok b := by
    unfold Body.move
    have : moveLoop T L (if dx > 0 then 1 else -1) (if p1.body.dy > 0 then 1 else -1) fuel
        ⟨p1.body.bbox, ⟨dx, p1.body.dy⟩, ⟨|dx|, |p1.body.dy|⟩, .none⟩ = .ok s := s1
    rw [this, Outcome.bind_ok, b1]
  refine ⟨⟨b, p1.jframes - 1⟩, ?_, ⟨by rw [b2]; exact s2.inn, by show p1.jframes - 1 ≤ 8; have := h1.jf; omega, b3, b4,
    by rw [b2]; exact s2.gx, by rw [b2]; exact s2.gy, b5⟩, ?_, ?_⟩
  · unfold act
    simp only [← hp1, x1, Outcome.bind_ok, hmv, Outcome.map_ok]
  · show |b.bbox.min.x - p.body.bbox.min.x| ≤ 13 / 4
    rw [b2, ← h1']
    have e1 := s2.px
    obtain ⟨e2, e3⟩ := s2.vx
    have : s.bbox.min.x - p1.body.bbox.min.x = dx - s.v.x := by linarith
    rw [this]
    rcases sgn_cases dx with ⟨k, k'⟩ | ⟨k, k'⟩
    · rw [k] at e2 e3; rw [abs_of_pos k'] at *
      exact abs_le.2 ⟨by linarith, by linarith⟩
    · rw [k] at e2 e3; rw [abs_of_nonpos k'] at *
      exact abs_le.2 ⟨by linarith, by linarith⟩
  · show |b.bbox.min.y - p.body.bbox.min.y| ≤ |p1.body.dy|
    rw [b2, ← h1']
    have e1 := s2.py
    obtain ⟨e2, e3⟩ := s2.vy
    have : s.bbox.min.y - p1.body.bbox.min.y = p1.body.dy - s.v.y := by linarith
    rw [this]
    rcases sgn_cases p1.body.dy with ⟨k, k'⟩ | ⟨k, k'⟩
    · rw [k] at e2 e3; rw [abs_of_pos k'] at *
      exact abs_le.2 ⟨by linarith, by linarith⟩
    · rw [k] at e2 e3; rw [abs_of_nonpos k'] at *
      exact abs_le.2 ⟨by linarith, by linarith⟩

end Verif.Plat
