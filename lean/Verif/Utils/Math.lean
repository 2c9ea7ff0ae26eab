import Verif.Outcome
import Mathlib.Tactic.Common
import Mathlib.Data.Nat.Factorial.Basic
import Mathlib.Data.Nat.Bitwise
import Mathlib.Tactic.Ring
import Mathlib.Tactic.Positivity
import Mathlib.Algebra.Order.Ring.Nat

/-!
# Model of the integer helpers of utils/math.cc
-/

namespace Verif.MathFns

/-- One test of math.cc:18-37: if any bit of `mask` is set, add `k` and shift. -/
def halve (mask k : Nat) (p : Nat × Nat) : Nat × Nat :=
  if p.2 &&& mask ≠ 0 then (p.1 + k, p.2 >>> k) else p

/-- math.cc:12-39 `ilog2` for a 32 bit argument. -/
def ilog2 (v : Nat) : Nat :=
  if v = 0 then 0
  else
    let p := halve 0x2 1 (halve 0xC 2 (halve 0xF0 4 (halve 0xFF00 8 (halve 0xFFFF0000 16 (0, v)))))
    p.1 + 1

/-- math.cc:41-46 `ipow`, 64 bit unsigned arithmetic. -/
def ipow (b e : Nat) : Nat := (List.range e).foldl (fun r _ => r * b % 2 ^ 64) 1

/-- math.cc:48-53 `fallfact`; `x - i` is 32 bit and the product 64 bit unsigned arithmetic. -/
def fallfact (x n : Nat) : Nat :=
  (List.range' 1 (n - 1)).foldl (fun f i => f * ((x + (2 ^ 32 - i % 2 ^ 32)) % 2 ^ 32) % 2 ^ 64) x

/-! ## Lemmas -/

theorem and_high {v k : Nat} (hv : v < 2 ^ (2 * k)) : v &&& ((2 ^ k - 1) <<< k) ≠ 0 ↔ 2 ^ k ≤ v := by
  have e : v &&& ((2 ^ k - 1) <<< k) = (v / 2 ^ k) <<< k := by
    have : v / 2 ^ k < 2 ^ k := by
      rw [Nat.div_lt_iff_lt_mul (by positivity), ← pow_add]
      have : k + k = 2 * k := by ring
      rwa [this]
    apply Nat.eq_of_testBit_eq
    intro i
    rw [Nat.testBit_and, Nat.testBit_shiftLeft, Nat.testBit_shiftLeft, Nat.testBit_two_pow_sub_one,
      Nat.testBit_div_two_pow]
    by_cases h : k ≤ i
    · simp only [ge_iff_le, h, decide_true, Bool.true_and]
      rw [show i - k + k = i by omega]
      by_cases h2 : i - k < k
      · simp [h2]
      · have : v.testBit i = false := Nat.testBit_lt_two_pow (lt_of_lt_of_le hv (Nat.pow_le_pow_right (by omega) (by omega)))
        simp [this]
    · simp [h]
  rw [e, Nat.shiftLeft_eq]
  have hp : 0 < 2 ^ k := by positivity
  constructor
  · intro h
    by_contra hc
    rw [Nat.div_eq_of_lt (by omega)] at h
    simp at h
  · intro h hz
    have : 0 < v / 2 ^ k := Nat.div_pos h hp
    rcases Nat.mul_eq_zero.1 hz with h0 | h0 <;> omega

/-- Invariant of the bisection: what is left is the argument shifted by `p.1`. -/
def HInv (v : Nat) (k : Nat) (p : Nat × Nat) : Prop := p.2 = v / 2 ^ p.1 ∧ 0 < p.2 ∧ p.2 < 2 ^ k

theorem halve_inv {v mask k : Nat} {p : Nat × Nat} (hm : mask = (2 ^ k - 1) <<< k)
    (h : HInv v (2 * k) p) : HInv v k (halve mask k p) := by
  obtain ⟨h1, h2, h3⟩ := h
  unfold halve
  by_cases hc : 2 ^ k ≤ p.2
  · rw [if_pos (by rw [hm, and_high h3]; exact hc)]
    refine ⟨?_, ?_, ?_⟩
    · dsimp only
      rw [Nat.shiftRight_eq_div_pow, h1, Nat.div_div_eq_div_mul, ← pow_add]
    · dsimp only
      rw [Nat.shiftRight_eq_div_pow]
      exact Nat.div_pos hc (by positivity)
    · dsimp only
      rw [Nat.shiftRight_eq_div_pow, Nat.div_lt_iff_lt_mul (by positivity), ← pow_add]
      rwa [show k + k = 2 * k by ring]
  · rw [if_neg (by rw [hm, and_high h3]; exact hc)]
    exact ⟨h1, h2, by omega⟩

theorem ilog2_inv {v : Nat} (h0 : 0 < v) (hv : v < 2 ^ 32) :
    ∃ lg, ilog2 v = lg + 1 ∧ v / 2 ^ lg = 1 := by
  unfold ilog2
  rw [if_neg (by omega)]
  dsimp only
  have i0 : HInv v 32 (0, v) := ⟨by simp, h0, hv⟩
  have i1 := halve_inv (mask := 0xFFFF0000) (k := 16) (by decide) i0
  have i2 := halve_inv (mask := 0xFF00) (k := 8) (by decide) i1
  have i3 := halve_inv (mask := 0xF0) (k := 4) (by decide) i2
  have i4 := halve_inv (mask := 0xC) (k := 2) (by decide) i3
  have i5 := halve_inv (mask := 0x2) (k := 1) (by decide) i4
  refine ⟨_, rfl, ?_⟩
  obtain ⟨a, b, c⟩ := i5
  rw [← a]
  omega

end Verif.MathFns
