import Verif.Domains.TilesGen
import Verif.Props.TilesSolve

/-!
# C75: the generator of tile puzzles

`solvable ts w h` is the test in tiles/generator.cc (0: accepted), `writeruml ts` the numbers it writes, `generate w h`
the loop over the shuffled boards; `dom goalpos`, `initialstate`, `readruml` are the domain that reads the file.
-/

namespace Verif.Tiles.Gen

open Verif.Search Verif.Arr

variable {W H : Nat} {ts : Fin (W * H) → Nat}

/-- The goal in the files written by the generator: tile `t` in cell `t`. -/
def goal (n : Nat) : Fin n → Nat := fun t => t.val

theorem inversions_goal (n : Nat) : inversions (goal n) = 0 := by
  unfold inversions goal
  refine Finset.sum_eq_zero fun j _ => ?_
  rw [Finset.card_eq_zero, Finset.filter_eq_empty_iff]
  rintro i - ⟨h1, h2⟩
  exact absurd h2 (by have := Fin.lt_def.1 h1; omega)

/-- Solvable instances in terms of the inversions of the tiles. -/
theorem solvable_iff (hW : 2 ≤ W) (hH : 2 ≤ H) (hi : Function.Injective ts) (hl : ∀ i, ts i < W * H) {b : Fin (W * H)}
    (hb : ts b = 0) {s0 : State (W * H)} (h0 : initialstate (goal (W * H)) ts = .ok s0) :
    Solvable (dom (goal (W * H))) s0 ↔ (tileInversions ts + b.val + (b.val / W + b.val % W)) % 2 = 0 := by
  have hpos : 0 < W * H := Nat.mul_pos (by omega) (by omega)
  have hu : ∀ i, ts i = 0 → i = b := fun i h => hi (h.trans hb.symm)
  rw [c74_solvable (goalpos := goal (W * H)) hW hH hi hl (fun a b h => Fin.ext h) (fun i => i.isLt) hb (z := ⟨0, hpos⟩) rfl h0]
  unfold parity
  rw [inversions_goal]
  have : inversions ts = tileInversions ts + b.val := inversions_eq ts hb hu
  rw [this]
  show _ = (0 + (0 / W + 0 % W)) % 2 ↔ _
  simp

/-- **C75 (odd width).** On boards of odd width, from 3 x 2 cells, the generator accepts exactly the instances that the
domain can solve.  Missing: even width with a height that differs, see `c75_even`, and boards with a single column. -/
theorem c75_odd_partial (hW : 2 ≤ W) (hH : 2 ≤ H) (hodd : W % 2 = 1) (hi : Function.Injective ts) (hl : ∀ i, ts i < W * H)
    {s0 : State (W * H)} (h0 : initialstate (goal (W * H)) ts = .ok s0) :
    ∃ r, solvable ts W H = .ok r ∧ (r = 0 ↔ Solvable (dom (goal (W * H))) s0) := by
  have hpos : 0 < W * H := Nat.mul_pos (by omega) (by omega)
  obtain ⟨f, hf⟩ := exists_perm hi hl
  have hb : ts (f⁻¹ ⟨0, hpos⟩) = 0 := by rw [← hf]; simp
  generalize f⁻¹ ⟨0, hpos⟩ = b at hb
  refine ⟨_, solvable_ok ts (by omega) hb fun i h => hi (h.trans hb.symm), ?_⟩
  rw [solvable_iff hW hH hi hl hb h0, if_neg (by omega)]
  have e := Nat.div_add_mod b.val W
  have hm : W * (b.val / W) % 2 = b.val / W % 2 := by rw [Nat.mul_mod, hodd]; omega
  generalize W * (b.val / W) = x at *
  omega

/-- **C75 (square boards).** The same on square boards. -/
theorem c75_square_partial {W : Nat} {ts : Fin (W * W) → Nat} (hW : 2 ≤ W) (hi : Function.Injective ts) (hl : ∀ i, ts i < W * W)
    {s0 : State (W * W)} (h0 : initialstate (goal (W * W)) ts = .ok s0) :
    ∃ r, solvable ts W W = .ok r ∧ (r = 0 ↔ Solvable (dom (goal (W * W))) s0) := by
  rcases Nat.mod_two_eq_zero_or_one W with he | ho
  · have hpos : 0 < W * W := Nat.mul_pos (by omega) (by omega)
    obtain ⟨f, hf⟩ := exists_perm hi hl
    have hb : ts (f⁻¹ ⟨0, hpos⟩) = 0 := by rw [← hf]; simp
    generalize f⁻¹ ⟨0, hpos⟩ = b at hb
    refine ⟨_, solvable_ok ts (by omega) hb fun i h => hi (h.trans hb.symm), ?_⟩
    rw [solvable_iff hW hW hi hl hb h0]
    have e := Nat.div_add_mod b.val W
    have hm : W * (b.val / W) % 2 = 0 := by rw [Nat.mul_mod, he]; omega
    generalize W * (b.val / W) = x at *
    split_ifs <;> omega
  · exact c75_odd_partial hW hW ho hi hl h0

/-- **C75 (even width, exactly when the answer is right).** The test divides the cell of the blank by the height where the
row needs the width, and takes the goal for one with the blank in the last row: with the blank in cell `b` its answer is
right exactly if `height + b / height` and `b / width` are both even or both odd. -/
theorem c75_even (hW : 2 ≤ W) (hH : 2 ≤ H) (heven : W % 2 = 0) (hi : Function.Injective ts) (hl : ∀ i, ts i < W * H)
    {b : Fin (W * H)} (hb : ts b = 0) {s0 : State (W * H)} (h0 : initialstate (goal (W * H)) ts = .ok s0) :
    ∃ r, solvable ts W H = .ok r ∧
      ((r = 0 ↔ Solvable (dom (goal (W * H))) s0) ↔ (H + b.val / H) % 2 = b.val / W % 2) := by
  refine ⟨_, solvable_ok ts (by omega) hb fun i h => hi (h.trans hb.symm), ?_⟩
  rw [solvable_iff hW hH hi hl hb h0]
  have e := Nat.div_add_mod b.val W
  have hm : W * (b.val / W) % 2 = 0 := by rw [Nat.mul_mod, heven]; omega
  generalize W * (b.val / W) = x at *
  by_cases h1 : (H + b.val / H) % 2 = 1
  · rw [if_pos ⟨heven, h1⟩]; omega
  · rw [if_neg (fun h => h1 h.2)]; omega

/-- **C75, negation (the goal is refused).** For every even width and odd height the solved board itself is taken for
unsolvable. -/
theorem c75_goal_refused (heven : W % 2 = 0) (hodd : H % 2 = 1) (hpos : 0 < W * H) :
    solvable (goal (W * H)) W H = .ok 1 := by
  have hb : goal (W * H) ⟨0, hpos⟩ = 0 := rfl
  rw [solvable_ok (goal (W * H)) (by omega) hb fun i h => Fin.ext h, if_pos ⟨heven, by simp [hodd]⟩]
  have : inversions (goal (W * H)) = tileInversions (goal (W * H)) + 0 :=
    inversions_eq (b := ⟨0, hpos⟩) (goal (W * H)) hb fun i h => Fin.ext h
  rw [inversions_goal] at this
  rw [← show 0 = tileInversions (goal (W * H)) by omega]

/-- **C75, negation (exactly the unsolvable ones are accepted).** For every even width and odd height and every board with
the blank in the first cell the answer is the opposite of the right one. -/
theorem c75_opposite (hW : 2 ≤ W) (hH : 2 ≤ H) (heven : W % 2 = 0) (hodd : H % 2 = 1) (hi : Function.Injective ts)
    (hl : ∀ i, ts i < W * H) {b : Fin (W * H)} (hb : ts b = 0) (hb0 : b.val = 0) {s0 : State (W * H)}
    (h0 : initialstate (goal (W * H)) ts = .ok s0) :
    ∃ r, solvable ts W H = .ok r ∧ (r = 0 ↔ ¬ Solvable (dom (goal (W * H))) s0) := by
  obtain ⟨r, h1, h2⟩ := c75_even hW hH heven hi hl hb h0
  refine ⟨r, h1, ?_⟩
  rw [hb0] at h2
  have : ¬ (r = 0 ↔ Solvable (dom (goal (W * H))) s0) := fun h => by
    have := h2.1 h
    simp only [Nat.zero_div] at this
    omega
  tauto

theorem writeruml_ok {n : Nat} {ts : Fin n → Nat} (hi : Function.Injective ts) (hl : ∀ i, ts i < n) :
    ∃ starts, writeruml ts = .ok (starts, List.range n) ∧ starts.length = n ∧
      ∀ i : Fin n, starts[ts i]? = some i.val := by
  obtain ⟨f, hf⟩ := exists_perm hi hl
  obtain ⟨out, h1, h2⟩ := fill_ok ts hi hl n 0 (by omega) (fun _ => none) (fun i h => by omega)
  have h3 : ∀ t : Fin n, out t = some (f⁻¹ t).val := by
    intro t
    have := h2 (f⁻¹ t)
    have e : (⟨ts (f⁻¹ t), hl _⟩ : Fin n) = t := Fin.ext (by show ts _ = _; rw [← hf]; simp)
    rwa [e] at this
  refine ⟨List.ofFn fun t => (f⁻¹ t).val, ?_, by simp, fun i => ?_⟩
  · unfold writeruml
    rw [List.range_eq_range', h1, Outcome.bind_ok, readOut_ok _ (List.ofFn fun t => (f⁻¹ t).val), Outcome.map_ok]
    rw [List.map_ofFn]
    congr 1
    funext t
    exact h3 t
  · rw [List.getElem?_eq_getElem (by simp [hl i]), List.getElem_ofFn]
    have e : (⟨ts i, by simpa using hl i⟩ : Fin n) = f i := Fin.ext (hf i).symm
    rw [e]
    simp

/-- **C75 (the file).** What the generator writes for a board is read back by the domain as this board, with tile `t` to go
to cell `t`. -/
theorem c75_file (hm : W * H < 2 ^ 32) (hi : Function.Injective ts) (hl : ∀ i, ts i < W * H) :
    ∃ starts goals, writeruml ts = .ok (starts, goals) ∧
      readruml W H W H starts goals = .ok (fun i => some (ts i), goal (W * H)) := by
  obtain ⟨starts, h1, h2, h3⟩ := writeruml_ok hi hl
  refine ⟨starts, List.range (W * H), h1, ?_⟩
  obtain ⟨f, hf⟩ := exists_perm hi hl
  have hget : ∀ t, ∀ ht : t < W * H, starts[t]? = some (f⁻¹ ⟨t, ht⟩).val := by
    intro t ht
    have := h3 (f⁻¹ ⟨t, ht⟩)
    rwa [← hf, show (f (f⁻¹ ⟨t, ht⟩)).val = t by simp] at this
  have hp : ∀ p ∈ starts, p < W * H := by
    intro p hp
    obtain ⟨t, ht, rfl⟩ := List.getElem_of_mem hp
    have := hget t (by omega)
    rw [List.getElem?_eq_getElem ht] at this
    rw [Option.some.inj this]
    exact Fin.isLt _
  have hnd : starts.Nodup := by
    rw [List.nodup_iff_injective_getElem]
    intro a b h
    have ea := hget a.val (by omega)
    have eb := hget b.val (by omega)
    rw [List.getElem?_eq_getElem a.isLt] at ea
    rw [List.getElem?_eq_getElem b.isLt] at eb
    have : (f⁻¹ ⟨a.val, by omega⟩).val = (f⁻¹ ⟨b.val, by omega⟩).val :=
      (Option.some.inj ea).symm.trans (h.trans (Option.some.inj eb))
    have := congrArg Fin.val (f⁻¹.injective (Fin.ext this))
    exact Fin.ext this
  obtain ⟨init, e1, e2⟩ := c57_read_partial (W := W) (H := H) (goals := List.range (W * H)) hm h2 (by simp) hp hnd
  rw [e1]
  congr 2
  · funext i
    exact e2 (ts i) i (h3 i)
  · funext t
    simp [goal]

/-- **C75 (generated instances).** On square boards and boards of odd width every instance the generator writes, whatever
the shuffles, is read back as an instance that can be solved.  Missing: the other boards, for which this is false. -/
theorem c75_generate_partial (hW : 2 ≤ W) (hH : 2 ≤ H) (hm : W * H < 2 ^ 32) (hshape : W % 2 = 1 ∨ W = H)
    (shuffles : List (Fin (W * H) → Nat))
    (hs : ∀ ts ∈ shuffles, Function.Injective ts ∧ ∀ i, ts i < W * H) {starts goals : List Nat}
    (hg : generate W H shuffles = .ok (starts, goals)) :
    ∃ (ts : Fin (W * H) → Nat) (goalpos : Fin (W * H) → Nat) (s0 : State (W * H)), ts ∈ shuffles ∧
      readruml W H W H starts goals = .ok (fun i => some (ts i), goalpos) ∧ initialstate goalpos ts = .ok s0 ∧
      Solvable (dom goalpos) s0 := by
  induction shuffles with
  | nil => cases hg
  | cons ts rest ih =>
    obtain ⟨hi, hl⟩ := hs ts (by simp)
    have hpos : 0 < W * H := Nat.mul_pos (by omega) (by omega)
    obtain ⟨f, hf⟩ := exists_perm hi hl
    obtain ⟨-, h0⟩ := initialstate_perm (goalpos := goal (W * H)) hf (z := ⟨0, hpos⟩) rfl
    have hr : ∃ r, solvable ts W H = .ok r ∧ (r = 0 ↔ Solvable (dom (goal (W * H))) (ofPerm (goal (W * H)) f ⟨0, hpos⟩)) := by
      rcases hshape with h | h
      · exact c75_odd_partial hW hH h hi hl h0
      · subst h; exact c75_square_partial hW hi hl h0
    obtain ⟨r, e1, e2⟩ := hr
    rw [generate, e1, Outcome.bind_ok] at hg
    by_cases hr0 : r = 0
    · rw [if_pos hr0] at hg
      obtain ⟨st, gl, e3, e4⟩ := c75_file hm hi hl
      rw [hg] at e3
      injection e3 with e3
      injection e3 with e5 e6
      subst e5 e6
      exact ⟨ts, _, _, by simp, e4, h0, e2.1 hr0⟩
    · rw [if_neg hr0] at hg
      obtain ⟨ts', gp, s0, h1, h2⟩ := ih (fun t ht => hs t (by simp [ht])) hg
      exact ⟨ts', gp, s0, by simp [h1], h2⟩

/-- A board of 2 columns and 3 rows with two tiles exchanged. -/
def swapped : Fin (2 * 3) → Nat := fun i => if i.val = 4 then 5 else if i.val = 5 then 4 else i.val

/-- **C75, negation (witness).** For width 2 and height 3 the generator writes an instance that cannot be solved. -/
theorem c75_unsolvable_written : ∃ starts goals s0, generate 2 3 [swapped] = .ok (starts, goals) ∧
    readruml 2 3 2 3 starts goals = .ok (fun i => some (swapped i), goal (2 * 3)) ∧
    initialstate (goal (2 * 3)) swapped = .ok s0 ∧ ¬ Solvable (dom (goal (2 * 3))) s0 := by
  have hi : Function.Injective swapped := by unfold Function.Injective; decide
  have hl : ∀ i, swapped i < 2 * 3 := by decide
  obtain ⟨f, hf⟩ := exists_perm hi hl
  obtain ⟨-, h0⟩ := initialstate_perm (goalpos := goal (2 * 3)) hf (z := ⟨0, by decide⟩) rfl
  obtain ⟨st, gl, e1, e2⟩ := c75_file (W := 2) (H := 3) (by norm_num) hi hl
  refine ⟨st, gl, _, ?_, e2, h0, ?_⟩
  · have : solvable swapped 2 3 = .ok 0 := by decide +kernel
    rw [generate, this, Outcome.bind_ok, if_pos rfl, e1]
  · rw [solvable_iff (by norm_num) (by norm_num) hi hl (b := ⟨0, by decide⟩) rfl h0]
    decide

/-- A board of 4 columns and 2 rows, the blank in the third cell of the first row. -/
def wide : Fin (4 * 2) → Nat := fun i => [1, 2, 0, 3, 4, 5, 6, 7].getD i.val 0

/-- **C75, negation (even height).** For width 4 and height 2, both even, a board two moves from the goal is refused. -/
theorem c75_wide_refused : solvable wide 4 2 = .ok 1 ∧
    ∀ s0, initialstate (goal (4 * 2)) wide = .ok s0 → Solvable (dom (goal (4 * 2))) s0 := by
  refine ⟨by decide +kernel, fun s0 h0 => ?_⟩
  rw [solvable_iff (by norm_num) (by norm_num) (by unfold Function.Injective; decide) (by decide) (b := ⟨2, by decide⟩) rfl h0]
  decide

/-- A single column. -/
def column : Fin (1 * 4) → Nat := fun i => [0, 2, 3, 1].getD i.val 0

/-- The boards that can be reached from it. -/
def columns : List (State (1 * 4)) :=
  [[0, 2, 3, 1], [2, 0, 3, 1], [2, 3, 0, 1], [2, 3, 1, 0]].map fun l =>
    ⟨fun i => l.getD i.val 0, l.idxOf 0, manhattan (goal (1 * 4)) (fun i => l.getD i.val 0) (l.idxOf 0)⟩

/-- A state as a list, for comparing. -/
def summary (s : State (1 * 4)) : List Nat × Nat × Int := (List.ofFn s.ts, s.b, s.h)

theorem mem_columns {s : State (1 * 4)} (h : summary s ∈ columns.map summary) : s ∈ columns := by
  obtain ⟨t, ht, e⟩ := List.mem_map.1 h
  have : t = s := by
    cases t; cases s
    simp only [summary, Prod.mk.injEq, List.ofFn_inj] at e
    rw [e.1, e.2.1, e.2.2]
  exact this ▸ ht

/-- **C75, negation (single column).** For width 1 the generator accepts a board that cannot be solved. -/
theorem c75_column_accepted : solvable column 1 4 = .ok 0 ∧
    ∀ s0, initialstate (goal (1 * 4)) column = .ok s0 → ¬ Solvable (dom (goal (1 * 4))) s0 := by
  refine ⟨by decide +kernel, ?_⟩
  rintro s0 h0 ⟨ops, ss, t, c, h1, h2, h3⟩
  have e0 : s0 ∈ columns := by
    have : initialstate (goal (1 * 4)) column = .ok (columns.head (by decide)) := by decide +kernel
    rw [this] at h0
    injection h0 with h0
    rw [← h0]
    exact List.head_mem _
  have key : ∀ s ∈ columns, ∀ o ∈ (dom (goal (1 * 4))).ops s, (dom (goal (1 * 4))).app s o ∈ columns := by
    have : ∀ s ∈ columns, ∀ o ∈ (dom (goal (1 * 4))).ops s, summary ((dom (goal (1 * 4))).app s o) ∈ columns.map summary := by
      decide +kernel
    exact fun s hs o ho => mem_columns (this s hs o ho)
  have ht := (h1.last_walk h2).inv (I := fun s => s ∈ columns) key e0
  have : ∀ s ∈ columns, (dom (goal (1 * 4))).goal s = false := by decide +kernel
  rw [this t ht] at h3
  cases h3

/-! ### Examples -/

-- boards of the fifteen puzzle: accepted, refused, written
example : solvable (fun i : Fin (4 * 4) => [1, 0, 2, 3, 4, 5, 6, 7, 8, 9, 10, 11, 12, 13, 14, 15].getD i.val 0) 4 4 = .ok 0 := by
  decide +kernel
example : solvable loyd 4 4 = .ok 1 := by decide +kernel
example : writeruml (fun i : Fin (2 * 2) => [1, 0, 3, 2].getD i.val 0) = .ok ([1, 0, 3, 2], [0, 1, 2, 3]) := by decide
-- the second shuffle is taken
example : generate 3 2 [fun i : Fin (3 * 2) => [0, 2, 1, 3, 4, 5].getD i.val 0, fun i => [3, 1, 2, 0, 4, 5].getD i.val 0] =
    .ok ([3, 1, 2, 0, 4, 5], [0, 1, 2, 3, 4, 5]) := by decide +kernel

end Verif.Tiles.Gen
