import Verif.Utils.Math

/-!
# C23: integer math helpers
-/

namespace Verif.MathFns

/-- C23: `ilog2(v)` is the number of bits of `v`, that is `floor(log2 v) + 1` for positive `v` and 0
for 0. -/
theorem c23_ilog2 {v : Nat} (hv : v < 2 ^ 32) :
    v < 2 ^ ilog2 v ∧ (0 < v → 2 ^ (ilog2 v - 1) ≤ v) ∧ ilog2 v ≤ 32 := by
  rcases Nat.eq_zero_or_pos v with rfl | h0
  · decide
  · obtain ⟨lg, e, h⟩ := ilog2_inv h0 hv
    rw [e, Nat.add_sub_cancel]
    have hp : 0 < 2 ^ lg := by positivity
    have hle : 2 ^ lg ≤ v := by
      by_contra hc
      rw [Nat.div_eq_of_lt (by omega)] at h
      omega
    refine ⟨?_, fun _ => hle, ?_⟩
    · have := Nat.lt_mul_div_succ v hp
      rw [h] at this
      rw [pow_succ]
      omega
    · by_contra hc
      have : 2 ^ 32 ≤ 2 ^ lg := Nat.pow_le_pow_right (by omega) (by omega)
      omega

/-- C23 fails for `ilog2` read as the integer logarithm: the result is one too large. -/
theorem c23_ilog2_off_by_one {v : Nat} (h0 : 0 < v) (hv : v < 2 ^ 32) : ilog2 v = Nat.log2 v + 1 := by
  obtain ⟨h1, h2, -⟩ := c23_ilog2 hv
  have h2 := h2 h0
  obtain ⟨lg, e, -⟩ := ilog2_inv h0 hv
  rw [e, Nat.add_sub_cancel] at h2
  rw [e] at h1 ⊢
  congr 1
  exact ((Nat.log2_eq_iff (by omega)).2 ⟨h2, h1⟩).symm

theorem ipow_mod (b e : Nat) : ipow b e = b ^ e % 2 ^ 64 := by
  unfold ipow
  induction e with
  | zero => rfl
  | succ e ih =>
    rw [List.range_succ, List.foldl_append, ih, List.foldl_cons, List.foldl_nil, Nat.mod_mul_mod, pow_succ b e]

/-- C23: `ipow` returns the power if it fits in 64 bits (and otherwise the power modulo 2^64). -/
theorem c23_ipow (b e : Nat) : ipow b e = b ^ e % 2 ^ 64 ∧ (b ^ e < 2 ^ 64 → ipow b e = b ^ e) :=
  ⟨ipow_mod b e, fun h => by rw [ipow_mod, Nat.mod_eq_of_lt h]⟩

theorem fallfact_mod (x n : Nat) (hx : x < 2 ^ 32) (hn : n + 1 < 2 ^ 32) :
    fallfact x (n + 1) = x.descFactorial (n + 1) % 2 ^ 64 := by
  unfold fallfact
  rw [Nat.add_sub_cancel]
  induction n with
  | zero => simp [Nat.descFactorial]; omega
  | succ n ih =>
    rw [List.range'_concat, List.foldl_append, ih (by omega), List.foldl_cons, List.foldl_nil, Nat.one_mul]
    rw [Nat.descFactorial_succ x (n + 1), Nat.mod_mul_mod]
    rcases Nat.lt_or_ge x (n + 1) with h | h
    · rw [Nat.descFactorial_of_lt h]; simp
    · have : (x + (2 ^ 32 - (1 + n) % 2 ^ 32)) % 2 ^ 32 = x - (n + 1) := by omega
      rw [this, Nat.mul_comm]

/-- C23 for `n ≥ 1`: `fallfact(x, n)` is `x` to the `n` falling, if that fits in 64 bits.
Missing: `n = 0`, see `c23_fallfact_zero`. -/
theorem c23_fallfact_partial (x n : Nat) (hx : x < 2 ^ 32) (hn : n < 2 ^ 32) (h0 : 0 < n)
    (hfit : x.descFactorial n < 2 ^ 64) : fallfact x n = x.descFactorial n := by
  obtain ⟨m, rfl⟩ : ∃ m, n = m + 1 := ⟨n - 1, by omega⟩
  rw [fallfact_mod x m hx hn, Nat.mod_eq_of_lt hfit]

/-- C23 fails: `x` to the 0 falling is 1, but the code returns `x`. -/
theorem c23_fallfact_zero (x : Nat) : fallfact x 0 = x ∧ x.descFactorial 0 = 1 := ⟨rfl, rfl⟩

example : ilog2 1 = 1 ∧ ilog2 255 = 8 ∧ ilog2 256 = 9 ∧ ilog2 4294967295 = 32 := by decide
example : ipow 16 15 = 16 ^ 15 ∧ ipow 2 64 = 0 := by decide
example : fallfact 16 6 = 5765760 ∧ fallfact 3 5 = 0 := by decide
example : (16 : Nat).descFactorial 6 = 5765760 := by decide

end Verif.MathFns
