import Verif.Arr
import Verif.Domains.Tiles

/-!
# Model of tiles/generator.cc

The shuffle (`random_shuffle` of the standard library) is any sequence of arrays; writing the file is modelled by the
numbers written.  `n` is the size of the vector `ts`.
-/

namespace Verif.Tiles.Gen

open Verif.Arr

variable {n : Nat}

/-- generator.cc:41-44: the body of the inner loop; `parity` is an `unsigned int`. -/
def innerStep (ts : Fin n → Nat) (i : Nat) (parity : Outcome Nat) (j : Nat) : Outcome Nat :=
  parity.bind fun p => (rd ts j).bind fun a => (rd ts i).map fun b => if a > b ∧ b ≠ 0 then (p + 1) % 2 ^ 32 else p

/-- generator.cc:37-45: the body of the outer loop on `(parity, blankrow)`; division by a height of 0 is undefined. -/
def outerStep (h : Nat) (ts : Fin n → Nat) (st : Outcome (Nat × Nat)) (i : Nat) : Outcome (Nat × Nat) :=
  st.bind fun st => (rd ts i).bind fun t =>
    (if t = 0 then (if h = 0 then Outcome.ub else Outcome.ok ((i / h + 1) % 2 ^ 32)) else Outcome.ok st.2).bind fun row =>
      ((List.range i).foldl (innerStep ts i) (.ok st.1)).map fun p => (p, row)

/-- generator.cc:31-55 `solvable`: 0 means solvable. -/
def solvable (ts : Fin n → Nat) (w h : Nat) : Outcome Nat :=
  ((List.range n).foldl (outerStep h ts) (.ok (0, 0))).map fun st =>
    (if w % 2 = 0 then (if (h + 2 ^ 32 - st.2) % 2 ^ 32 % 2 = 0 then (st.1 + 1) % 2 ^ 32 else st.1) else st.1) % 2

/-- generator.cc:72-74: the loop that fills `output`; entries not written are indeterminate. -/
def fill (ts : Fin n → Nat) : List Nat → (Fin n → Option Nat) → Outcome (Fin n → Option Nat)
  | [], out => .ok out
  | i :: is, out => (rd ts i).bind fun t => (wr out t (some i)).bind (fill ts is)

/-- generator.cc:78-79: the numbers written; an entry that was not set is indeterminate. -/
def readOut : List (Option Nat) → Outcome (List Nat)
  | [] => .ok []
  | none :: _ => .ub
  | some p :: ps => (readOut ps).map fun l => p :: l

/-- generator.cc:57-84 `writeruml`: the starting positions and the goal positions in the file. -/
def writeruml (ts : Fin n → Nat) : Outcome (List Nat × List Nat) :=
  (fill ts (List.range n) fun _ => none).bind fun out => (readOut (List.ofFn out)).map fun l => (l, List.range n)

/-- generator.cc:126-137: the loop in `main` that shuffles until an instance is accepted; `shuffles` are the successive
contents of `puzzle`. -/
def generate (w h : Nat) : List (Fin n → Nat) → Outcome (List Nat × List Nat)
  | [] => .nofuel
  | ts :: rest => (solvable ts w h).bind fun r => if r = 0 then writeruml ts else generate w h rest

/-! ## Lemmas -/

/-- Pairs of tiles in the wrong order. -/
def tileInversions (f : Fin n → Nat) : Nat :=
  ∑ j : Fin n, (Finset.univ.filter fun i : Fin n => i < j ∧ f j < f i ∧ f j ≠ 0).card

/-- The same for the first `k` cells as the second one. -/
def below (f : Fin n → Nat) (j : Fin n) (k : Nat) : Nat :=
  (Finset.univ.filter fun i : Fin n => i.val < k ∧ f j < f i ∧ f j ≠ 0).card

theorem below_succ (f : Fin n → Nat) (j : Fin n) {k : Nat} (hk : k < n) :
    below f j (k + 1) = below f j k + if f j < f ⟨k, hk⟩ ∧ f j ≠ 0 then 1 else 0 := by
  unfold below
  by_cases h : f j < f ⟨k, hk⟩ ∧ f j ≠ 0
  · rw [if_pos h]
    have : (Finset.univ.filter fun i : Fin n => i.val < k + 1 ∧ f j < f i ∧ f j ≠ 0) =
        insert ⟨k, hk⟩ (Finset.univ.filter fun i : Fin n => i.val < k ∧ f j < f i ∧ f j ≠ 0) := by
      ext i
      simp only [Finset.mem_filter, Finset.mem_univ, true_and, Finset.mem_insert]
      constructor
      · rintro ⟨h1, h2⟩
        by_cases e : i = ⟨k, hk⟩
        · exact Or.inl e
        · exact Or.inr ⟨by have : i.val ≠ k := fun h => e (Fin.ext h)
                           omega, h2⟩
      · rintro (rfl | ⟨h1, h2⟩)
        · exact ⟨by dsimp only; omega, h⟩
        · exact ⟨by omega, h2⟩
    rw [this, Finset.card_insert_of_notMem (by simp)]
  · rw [if_neg h, add_zero]
    congr 1
    ext i
    simp only [Finset.mem_filter, Finset.mem_univ, true_and]
    constructor
    · rintro ⟨h1, h2⟩
      refine ⟨?_, h2⟩
      have : i.val ≠ k := by
        rintro e
        have ei : i = ⟨k, hk⟩ := Fin.ext e
        exact h (ei ▸ h2)
      omega
    · rintro ⟨h1, h2⟩; exact ⟨by omega, h2⟩

theorem inner_ok (ts : Fin n → Nat) {i : Nat} (hi : i < n) (k : Nat) (hk : k ≤ i) (p : Nat) :
    ∃ q, (List.range k).foldl (innerStep ts i) (.ok p) = .ok q ∧ q % 2 = (p + below ts ⟨i, hi⟩ k) % 2 := by
  induction k with
  | zero => exact ⟨p, rfl, by simp [below]⟩
  | succ k ih =>
    obtain ⟨q, h1, h2⟩ := ih (by omega)
    rw [List.range_succ, List.foldl_append, h1, List.foldl_cons, List.foldl_nil, innerStep, Outcome.bind_ok,
      rd_ok _ (show k < n by omega), Outcome.bind_ok, rd_ok _ hi, Outcome.map_ok, below_succ _ _ (show k < n by omega)]
    refine ⟨_, rfl, ?_⟩
    by_cases h : ts ⟨i, hi⟩ < ts ⟨k, by omega⟩ ∧ ts ⟨i, hi⟩ ≠ 0
    · rw [if_pos h, if_pos h]; omega
    · rw [if_neg h, if_neg h]; omega

/-- The row the code computes: with the height in place of the width. -/
def rowOf (h b : Nat) : Nat := (b / h + 1) % 2 ^ 32

theorem outer_ok (ts : Fin n → Nat) {h : Nat} (hh : h ≠ 0) {b : Fin n} (hb : ts b = 0) (hu : ∀ i, ts i = 0 → i = b) (k : Nat)
    (hk : k ≤ n) :
    ∃ q, (List.range k).foldl (outerStep h ts) (.ok (0, 0)) = .ok (q, if b.val < k then rowOf h b.val else 0) ∧
      q % 2 = (∑ j : Fin n, if j.val < k then below ts j j.val else 0) % 2 := by
  induction k with
  | zero => exact ⟨0, rfl, by simp⟩
  | succ k ih =>
    obtain ⟨q, h1, h2⟩ := ih (by omega)
    have hk' : k < n := by omega
    obtain ⟨q', h3, h4⟩ := inner_ok ts hk' k le_rfl q
    have hsum : (∑ j : Fin n, if j.val < k + 1 then below ts j j.val else 0) =
        below ts ⟨k, hk'⟩ k + ∑ j : Fin n, if j.val < k then below ts j j.val else 0 := by
      rw [← Finset.add_sum_erase Finset.univ _ (Finset.mem_univ (⟨k, hk'⟩ : Fin n)),
        ← Finset.add_sum_erase Finset.univ (fun j : Fin n => if j.val < k then _ else 0) (Finset.mem_univ (⟨k, hk'⟩ : Fin n))]
      rw [if_pos (show k < k + 1 by omega), if_neg (show ¬ k < k by omega), zero_add]
      congr 1
      refine Finset.sum_congr rfl fun i hi => ?_
      have e' : i.val ≠ k := fun h => (Finset.ne_of_mem_erase hi) (Fin.ext h)
      by_cases h1 : i.val < k
      · rw [if_pos h1, if_pos (by omega)]
      · rw [if_neg h1, if_neg (by omega)]
    rw [List.range_succ, List.foldl_append, h1, List.foldl_cons, List.foldl_nil, outerStep, Outcome.bind_ok, rd_ok _ hk',
      Outcome.bind_ok, h3]
    refine ⟨q', ?_, by rw [hsum, h4]; omega⟩
    by_cases h0 : ts ⟨k, hk'⟩ = 0
    · have e := hu _ h0
      rw [if_pos h0, if_neg hh, Outcome.bind_ok, Outcome.map_ok, if_pos (by rw [← e]; dsimp only; omega), ← e]
      rfl
    · rw [if_neg h0, Outcome.bind_ok, Outcome.map_ok]
      have : b.val ≠ k := fun e => h0 (by rw [← show b = ⟨k, hk'⟩ from Fin.ext e]; exact hb)
      by_cases h5 : b.val < k
      · rw [if_pos h5, if_pos (by omega)]
      · rw [if_neg h5, if_neg (by omega)]

theorem sum_below (ts : Fin n → Nat) : (∑ j : Fin n, if j.val < n then below ts j j.val else 0) = tileInversions ts := by
  unfold tileInversions below
  refine Finset.sum_congr rfl fun j _ => ?_
  rw [if_pos j.isLt]
  rfl

theorem solvable_ok (ts : Fin n → Nat) {w h : Nat} (hh : h ≠ 0) {b : Fin n} (hb : ts b = 0) (hu : ∀ i, ts i = 0 → i = b) :
    solvable ts w h = .ok ((tileInversions ts + if w % 2 = 0 ∧ (h + b.val / h) % 2 = 1 then 1 else 0) % 2) := by
  obtain ⟨q, h1, h2⟩ := outer_ok ts hh hb hu n le_rfl
  unfold solvable
  rw [h1, Outcome.map_ok, if_pos b.isLt]
  rw [sum_below] at h2
  congr 1
  dsimp only
  unfold rowOf
  generalize b.val / h = r
  by_cases hw : w % 2 = 0
  · rw [if_pos hw]
    have e : (h + 2 ^ 32 - (r + 1) % 2 ^ 32) % 2 ^ 32 % 2 = 0 ↔ (h + r) % 2 = 1 := by omega
    by_cases h5 : (h + r) % 2 = 1
    · rw [if_pos (e.2 h5), if_pos ⟨hw, h5⟩]; omega
    · rw [if_neg (fun h => h5 (e.1 h)), if_neg (fun h => h5 h.2)]; omega
  · rw [if_neg hw, if_neg (fun h => hw h.1)]; omega

/-- The inversions with the blank counted as 0 are the inversions of the tiles and the cells before the blank. -/
theorem inversions_eq (ts : Fin n → Nat) {b : Fin n} (hb : ts b = 0) (hu : ∀ i, ts i = 0 → i = b) :
    (∑ j : Fin n, (Finset.univ.filter fun i : Fin n => i < j ∧ ts j < ts i).card) = tileInversions ts + b.val := by
  unfold tileInversions
  rw [← Finset.add_sum_erase Finset.univ _ (Finset.mem_univ b),
    ← Finset.add_sum_erase Finset.univ (fun j : Fin n => (Finset.univ.filter fun i : Fin n => i < j ∧ ts j < ts i ∧ ts j ≠ 0).card)
      (Finset.mem_univ b)]
  have e1 : (Finset.univ.filter fun i : Fin n => i < b ∧ ts b < ts i).card = b.val := by
    have : (Finset.univ.filter fun i : Fin n => i < b ∧ ts b < ts i) = Finset.Iio b := by
      ext i
      simp only [Finset.mem_filter, Finset.mem_univ, true_and, Finset.mem_Iio, hb]
      refine ⟨fun h => h.1, fun h => ⟨h, ?_⟩⟩
      rcases Nat.eq_zero_or_pos (ts i) with h0 | h0
      · exact absurd (hu i h0) h.ne
      · exact h0
    rw [this, Fin.card_Iio]
  have e2 : (Finset.univ.filter fun i : Fin n => i < b ∧ ts b < ts i ∧ ts b ≠ 0).card = 0 := by
    rw [Finset.card_eq_zero, Finset.filter_eq_empty_iff]
    rintro i - ⟨-, -, h⟩
    exact h hb
  rw [e1, e2, zero_add, add_comm]
  congr 1
  refine Finset.sum_congr rfl fun j hj => ?_
  congr 1
  ext i
  simp only [Finset.mem_filter, Finset.mem_univ, true_and]
  refine ⟨fun h => ⟨h.1, h.2, fun h0 => (Finset.ne_of_mem_erase hj) (hu j h0)⟩, fun h => ⟨h.1, h.2.1⟩⟩

/-! ### Writing the file -/

theorem fill_ok (ts : Fin n → Nat) (hi : Function.Injective ts) (hl : ∀ i, ts i < n) (m k : Nat) (hk : k + m = n)
    (out : Fin n → Option Nat) (ho : ∀ i : Fin n, i.val < k → out ⟨ts i, hl i⟩ = some i.val) :
    ∃ out', fill ts (List.range' k m) out = .ok out' ∧ ∀ i : Fin n, out' ⟨ts i, hl i⟩ = some i.val := by
  induction m generalizing k out with
  | zero => exact ⟨out, rfl, fun i => ho i (by omega)⟩
  | succ m ih =>
    have hkn : k < n := by omega
    rw [List.range'_succ, fill, rd_ok _ hkn, Outcome.bind_ok, wr_ok _ (hl _), Outcome.bind_ok]
    refine ih (k + 1) (by omega) _ fun i hi' => ?_
    by_cases e : i = ⟨k, hkn⟩
    · subst e; rw [Function.update_self]
    · have hne : (⟨ts i, hl i⟩ : Fin n) ≠ ⟨ts ⟨k, hkn⟩, hl _⟩ := fun h => e (hi (congrArg Fin.val h))
      rw [Function.update_of_ne hne]
      exact ho i (by have : i.val ≠ k := fun h => e (Fin.ext h)
                     omega)

theorem readOut_ok (l : List (Option Nat)) (ps : List Nat) (h : l = ps.map some) : readOut l = .ok ps := by
  induction ps generalizing l with
  | nil => rw [h]; rfl
  | cons p ps ih => rw [h, List.map_cons, readOut, ih _ rfl]; rfl

end Verif.Tiles.Gen
