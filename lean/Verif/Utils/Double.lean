import Mathlib.Data.Int.Order.Basic
import Mathlib.Algebra.Order.Ring.Abs
import Mathlib.Algebra.Order.Ring.Int
import Mathlib.Algebra.Order.Ring.Rat
import Mathlib.Algebra.Order.Field.Basic
import Mathlib.Data.Nat.Log
import Mathlib.Tactic.Linarith
import Mathlib.Tactic.Ring
import Mathlib.Tactic.Positivity
import Mathlib.Tactic.NormNum
import Mathlib.Tactic.GCongr

/-!
# Rounded addition

The costs of the visibility-graph and segments domains are `double` (visnav/visnav.hpp:7, segments/segments.hpp:161),
those of the dock-worker domain are `float` (drobot/drobot.hpp:99), and the searches add and subtract such costs.
Every finite `double` is a whole multiple of the least positive one, 2^-1074, and those multiples which have at most
53 significant binary digits are the finite doubles (for `float`: 2^-149 and 24 digits).  So the finite doubles,
measured in units of 2^-1074, are the integers with at most `p = 53` significant digits, and addition is the exact sum
rounded to the nearest such integer, to the even one of two equally near (IEEE 754-2008 section 4.3.1, the default
rounding mode; the repository never changes it).

Simplified: the exponent is not bounded above, so there is no overflow to infinity; NaN, infinities and the sign of
zero are left out.
-/

namespace Verif.Dbl

/-- Round to `p` significant binary digits, ties to even: natural numbers. -/
def rndN (p n : ℕ) : ℕ :=
  if n < 2 ^ p then n
  else
    let k := n.log2 + 1 - p
    let q := n / 2 ^ k
    let r := n % 2 ^ k
    if 2 ^ k < 2 * r ∨ (2 ^ k = 2 * r ∧ q % 2 = 1) then (q + 1) * 2 ^ k else q * 2 ^ k

/-- Round to `p` significant binary digits, ties to even (IEEE 754-2008, roundTiesToEven). -/
def rnd (p : ℕ) (z : ℤ) : ℤ := z.sign * rndN p z.natAbs

/-- Spec: the numbers with at most `p` significant binary digits. -/
def Rep (p : ℕ) (z : ℤ) : Prop := ∃ (a : ℤ) (k : ℕ), |a| < 2 ^ p ∧ z = a * 2 ^ k

theorem rep_small {p : ℕ} {z : ℤ} (h : |z| < 2 ^ p) : Rep p z := ⟨z, 0, h, by simp⟩

theorem rep_neg {p : ℕ} {z : ℤ} (h : Rep p z) : Rep p (-z) := by
  obtain ⟨a, k, h1, h2⟩ := h
  exact ⟨-a, k, by rwa [abs_neg], by rw [h2]; ring⟩

/-- `n` lies in the binade that determines the spacing of the numbers around it. -/
theorem binade {p n : ℕ} (hp : 0 < p) (h : ¬ n < 2 ^ p) :
    ∃ k, 0 < k ∧ n.log2 + 1 - p = k ∧ 2 ^ (p - 1) * 2 ^ k ≤ n ∧ n < 2 ^ p * 2 ^ k := by
  rw [not_lt] at h
  have hn : n ≠ 0 := by have := Nat.two_pow_pos p; omega
  have h1 : p ≤ n.log2 := (Nat.le_log2 hn).2 h
  refine ⟨n.log2 + 1 - p, by omega, rfl, ?_, ?_⟩
  · rw [← pow_add, show p - 1 + (n.log2 + 1 - p) = n.log2 by omega]
    exact Nat.log2_self_le hn
  · rw [← pow_add, show p + (n.log2 + 1 - p) = n.log2 + 1 by omega]
    exact Nat.lt_log2_self

/-- What rounding does, without the arithmetic: it leaves short numbers alone, and sends the others to a neighbour on
the grid of their binade, at most half a step away. -/
theorem rndN_spec {p : ℕ} (hp : 0 < p) (n : ℕ) :
    (n < 2 ^ p ∧ rndN p n = n) ∨
    ∃ k q m, 0 < k ∧ 2 ^ p ≤ n ∧ 2 ^ (p - 1) ≤ q ∧ q < 2 ^ p ∧ q * 2 ^ k ≤ n ∧ n < (q + 1) * 2 ^ k ∧
      rndN p n = m * 2 ^ k ∧
      ((m = q ∧ 2 * n ≤ (2 * q + 1) * 2 ^ k) ∨ (m = q + 1 ∧ (2 * q + 1) * 2 ^ k ≤ 2 * n)) := by
  by_cases h : n < 2 ^ p
  · left; exact ⟨h, by unfold rndN; rw [if_pos h]⟩
  right
  obtain ⟨k, hk, e, h1, h2⟩ := binade hp h
  have hpos : 0 < 2 ^ k := Nat.two_pow_pos k
  have hdm := Nat.div_add_mod n (2 ^ k)
  have hlt := Nat.mod_lt n hpos
  unfold rndN
  rw [if_neg h]
  dsimp only
  rw [e]
  generalize hq : n / 2 ^ k = q at *
  generalize hr : n % 2 ^ k = r at *
  have hq1 : 2 ^ (p - 1) ≤ q := by rw [← hq]; exact (Nat.le_div_iff_mul_le hpos).2 h1
  have hq2 : q < 2 ^ p := by rw [← hq]; exact (Nat.div_lt_iff_lt_mul hpos).2 h2
  have hqn : q * 2 ^ k ≤ n := by nlinarith
  have hqn' : n < (q + 1) * 2 ^ k := by nlinarith
  by_cases hc : 2 ^ k < 2 * r ∨ (2 ^ k = 2 * r ∧ q % 2 = 1)
  · rw [if_pos hc]
    refine ⟨k, q, q + 1, hk, not_lt.1 h, hq1, hq2, hqn, hqn', rfl, .inr ⟨rfl, ?_⟩⟩
    have : 2 ^ k ≤ 2 * r := by rcases hc with hc | hc <;> omega
    nlinarith
  · rw [if_neg hc]
    refine ⟨k, q, q, hk, not_lt.1 h, hq1, hq2, hqn, hqn', rfl, .inl ⟨rfl, ?_⟩⟩
    have : 2 * r ≤ 2 ^ k := by rw [not_or] at hc; omega
    nlinarith

theorem rep_rndN {p : ℕ} (hp : 0 < p) (n : ℕ) : Rep p (rndN p n : ℤ) := by
  rcases rndN_spec hp n with ⟨h1, h2⟩ | ⟨k, q, m, -, -, -, h1, -, -, h2, h3⟩
  · rw [h2]
    refine rep_small ?_
    rw [abs_of_nonneg (by positivity)]
    exact_mod_cast h1
  · rw [h2]
    by_cases hm : m < 2 ^ p
    · refine ⟨m, k, ?_, by push_cast; ring⟩
      rw [abs_of_nonneg (by positivity)]
      exact_mod_cast hm
    · have : m = 2 ^ p := by rcases h3 with ⟨h3, -⟩ | ⟨h3, -⟩ <;> omega
      subst this
      refine ⟨1, p + k, ?_, by push_cast; ring⟩
      rw [abs_one]
      exact_mod_cast Nat.one_lt_two_pow (by omega)

/-- No other number of the format is nearer. -/
theorem near_rndN {p : ℕ} (hp : 0 < p) (n : ℕ) {y : ℤ} (hy : Rep p y) :
    |(n : ℤ) - rndN p n| ≤ |(n : ℤ) - y| := by
  rcases rndN_spec hp n with ⟨h1, h2⟩ | ⟨k, q, m, hk, hpn, h1, h2, h3, h4, h5, h6⟩
  · rw [h2, sub_self, abs_zero]; exact abs_nonneg _
  · -- `y` is not strictly between the neighbours of `n`
    have key : y ≤ (q * 2 ^ k : ℕ) ∨ ((q + 1) * 2 ^ k : ℕ) ≤ y := by
      by_contra hc
      rw [not_or, not_le, not_le] at hc
      obtain ⟨a, j, ha, rfl⟩ := hy
      obtain ⟨hc1, hc2⟩ := hc
      push_cast at hc1 hc2
      have hqk : (0 : ℤ) ≤ q * 2 ^ k := by positivity
      have ha0 : 0 < a := by
        by_contra hneg
        have : a * 2 ^ j ≤ 0 := mul_nonpos_of_nonpos_of_nonneg (not_lt.1 hneg) (by positivity)
        linarith
      rw [abs_of_pos ha0] at ha
      have hkj : k ≤ j := by
        by_contra hjk
        have hj : j ≤ k - 1 := by omega
        have e1 : a * 2 ^ j < 2 ^ p * 2 ^ (k - 1) := by
          calc a * 2 ^ j < 2 ^ p * 2 ^ j := by gcongr
            _ ≤ 2 ^ p * 2 ^ (k - 1) := by gcongr; norm_num
        have e2 : (2 : ℤ) ^ p * 2 ^ (k - 1) = 2 ^ (p - 1) * 2 ^ k := by
          rw [← pow_add, ← pow_add]; congr 1; omega
        have e3 : (2 : ℤ) ^ (p - 1) * 2 ^ k ≤ q * 2 ^ k := by
          gcongr
          exact_mod_cast h1
        linarith
      obtain ⟨i, rfl⟩ := Nat.exists_eq_add_of_le hkj
      have hk0 : (0 : ℤ) < 2 ^ k := by positivity
      have e : a * 2 ^ (k + i) = (a * 2 ^ i) * 2 ^ k := by rw [pow_add]; ring
      rw [e] at hc1 hc2
      have f1 := lt_of_mul_lt_mul_right hc1 hk0.le
      have f2 := lt_of_mul_lt_mul_right hc2 hk0.le
      omega
    have h3' : ((q * 2 ^ k : ℕ) : ℤ) ≤ n := by exact_mod_cast h3
    have h4' : (n : ℤ) < (((q + 1) * 2 ^ k : ℕ) : ℤ) := by exact_mod_cast h4
    rw [h5]
    have hs : (((q + 1) * 2 ^ k : ℕ) : ℤ) = ((q * 2 ^ k : ℕ) : ℤ) + 2 ^ k := by push_cast; ring
    have hd : ((2 * q + 1) * 2 ^ k : ℕ) = 2 * (q * 2 ^ k) + 2 ^ k := by ring
    rw [hs] at h4' key
    rcases h6 with ⟨rfl, h6⟩ | ⟨rfl, h6⟩
    · rw [hd] at h6
      have h6' : 2 * (n : ℤ) ≤ 2 * ((m * 2 ^ k : ℕ) : ℤ) + 2 ^ k := by exact_mod_cast h6
      rw [abs_of_nonneg (by linarith)]
      rcases key with key | key
      · rw [abs_of_nonneg (by linarith)]; linarith
      · rw [abs_of_nonpos (by linarith)]; linarith
    · rw [hd] at h6
      have h6' : 2 * ((q * 2 ^ k : ℕ) : ℤ) + 2 ^ k ≤ 2 * (n : ℤ) := by exact_mod_cast h6
      rw [hs, abs_of_nonpos (by linarith)]
      rcases key with key | key
      · rw [abs_of_nonneg (by linarith)]; linarith
      · rw [abs_of_nonpos (by linarith)]; linarith

/-- The relative error is at most 2^-p. -/
theorem err_rndN {p : ℕ} (hp : 0 < p) (n : ℕ) : |(rndN p n : ℤ) - n| * 2 ^ p ≤ n := by
  rcases rndN_spec hp n with ⟨h1, h2⟩ | ⟨k, q, m, hk, hpn, h1, h2, h3, h4, h5, h6⟩
  · rw [h2, sub_self, abs_zero, zero_mul]; positivity
  · have h3' : ((q * 2 ^ k : ℕ) : ℤ) ≤ n := by exact_mod_cast h3
    have h4' : (n : ℤ) < (((q + 1) * 2 ^ k : ℕ) : ℤ) := by exact_mod_cast h4
    have hs : (((q + 1) * 2 ^ k : ℕ) : ℤ) = ((q * 2 ^ k : ℕ) : ℤ) + 2 ^ k := by push_cast; ring
    have hd : ((2 * q + 1) * 2 ^ k : ℕ) = 2 * (q * 2 ^ k) + 2 ^ k := by ring
    rw [hs] at h4'
    have hh : 2 * |(rndN p n : ℤ) - n| ≤ 2 ^ k := by
      rw [h5]
      rcases h6 with ⟨rfl, h6⟩ | ⟨rfl, h6⟩
      · rw [hd] at h6
        have h6' : 2 * (n : ℤ) ≤ 2 * ((m * 2 ^ k : ℕ) : ℤ) + 2 ^ k := by exact_mod_cast h6
        rw [abs_of_nonpos (by linarith)]; linarith
      · rw [hd] at h6
        have h6' : 2 * ((q * 2 ^ k : ℕ) : ℤ) + 2 ^ k ≤ 2 * (n : ℤ) := by exact_mod_cast h6
        rw [hs, abs_of_nonneg (by linarith)]; linarith
    have e : (2 : ℤ) ^ p = 2 * 2 ^ (p - 1) := by
      rw [← pow_succ']; congr 1; omega
    have h1' : (2 : ℤ) ^ (p - 1) ≤ q := by exact_mod_cast h1
    calc |(rndN p n : ℤ) - n| * 2 ^ p = (2 * |(rndN p n : ℤ) - n|) * 2 ^ (p - 1) := by rw [e]; ring
      _ ≤ 2 ^ k * 2 ^ (p - 1) := by gcongr
      _ ≤ 2 ^ k * q := by gcongr
      _ ≤ n := by push_cast at h3'; linarith

theorem rnd_nonneg {p : ℕ} (n : ℕ) : rnd p (n : ℤ) = rndN p n := by
  unfold rnd
  rw [Int.natAbs_natCast]
  rcases Nat.eq_zero_or_pos n with rfl | h
  · simp [rndN, Nat.two_pow_pos]
  · rw [Int.sign_eq_one_of_pos (by exact_mod_cast h), one_mul]

theorem rnd_neg {p : ℕ} (z : ℤ) : rnd p (-z) = - rnd p z := by
  unfold rnd
  rw [Int.sign_neg, Int.natAbs_neg, neg_mul]

/-- The rounded number has the format. -/
theorem rep_rnd {p : ℕ} (hp : 0 < p) (z : ℤ) : Rep p (rnd p z) := by
  obtain ⟨n, rfl | rfl⟩ := z.eq_nat_or_neg
  · rw [rnd_nonneg]; exact rep_rndN hp n
  · rw [rnd_neg, rnd_nonneg]; exact rep_neg (rep_rndN hp n)

/-- No number of the format is nearer than the rounded one. -/
theorem rnd_near {p : ℕ} (hp : 0 < p) (z : ℤ) {y : ℤ} (hy : Rep p y) : |z - rnd p z| ≤ |z - y| := by
  obtain ⟨n, rfl | rfl⟩ := z.eq_nat_or_neg
  · rw [rnd_nonneg]; exact near_rndN hp n hy
  · rw [rnd_neg, rnd_nonneg]
    have := near_rndN hp n (rep_neg hy)
    rw [show -(n : ℤ) - -(rndN p n : ℤ) = -((n : ℤ) - rndN p n) by ring, abs_neg]
    rw [show -(n : ℤ) - y = -((n : ℤ) - -y) by ring, abs_neg]
    exact this

theorem rnd_of_rep {p : ℕ} (hp : 0 < p) {z : ℤ} (h : Rep p z) : rnd p z = z := by
  have := rnd_near hp z h
  rw [sub_self, abs_zero] at this
  have := abs_eq_zero.1 (le_antisymm this (abs_nonneg _))
  linarith

theorem rnd_eq_iff {p : ℕ} (hp : 0 < p) {z : ℤ} : rnd p z = z ↔ Rep p z :=
  ⟨fun h => h ▸ rep_rnd hp z, rnd_of_rep hp⟩

/-- Rounding is monotonic. -/
theorem rnd_mono {p : ℕ} (hp : 0 < p) {x y : ℤ} (h : x ≤ y) : rnd p x ≤ rnd p y := by
  by_contra hc
  rw [not_le] at hc
  have h1 := rnd_near hp x (rep_rnd hp y)
  have h2 := rnd_near hp y (rep_rnd hp x)
  rcases eq_or_lt_of_le h with rfl | hlt
  · exact lt_irrefl _ hc
  rcases abs_cases (x - rnd p x) with ⟨e1, f1⟩ | ⟨e1, f1⟩ <;> rcases abs_cases (x - rnd p y) with ⟨e2, f2⟩ | ⟨e2, f2⟩ <;>
    rcases abs_cases (y - rnd p x) with ⟨e3, f3⟩ | ⟨e3, f3⟩ <;> rcases abs_cases (y - rnd p y) with ⟨e4, f4⟩ | ⟨e4, f4⟩ <;>
    rw [e1, e2] at h1 <;> rw [e3, e4] at h2 <;> linarith

/-- The relative error of rounding. -/
theorem rnd_err {p : ℕ} (hp : 0 < p) (z : ℤ) : |rnd p z - z| * 2 ^ p ≤ |z| := by
  obtain ⟨n, rfl | rfl⟩ := z.eq_nat_or_neg
  · rw [rnd_nonneg, abs_of_nonneg (show (0 : ℤ) ≤ n by positivity)]; exact err_rndN hp n
  · rw [rnd_neg, rnd_nonneg, show -(rndN p n : ℤ) - -(n : ℤ) = -((rndN p n : ℤ) - n) by ring, abs_neg, abs_neg,
      abs_of_nonneg (show (0 : ℤ) ≤ n by positivity)]
    exact err_rndN hp n

theorem rnd_idem {p : ℕ} (hp : 0 < p) (z : ℤ) : rnd p (rnd p z) = rnd p z := rnd_of_rep hp (rep_rnd hp z)

theorem rnd_zero (p : ℕ) : rnd p 0 = 0 := by unfold rnd; simp

/-! ## The numbers -/

/-- The finite doubles in units of 2^-1074, with `p` for 53 (and one digit more than `p` says, so that there is at
least one). -/
def Num (p : ℕ) : Type := {z : ℤ // rnd (p + 1) z = z}

namespace Num
variable {p : ℕ}

instance : LinearOrder (Num p) := inferInstanceAs (LinearOrder {z : ℤ // rnd (p + 1) z = z})

instance : Zero (Num p) := ⟨⟨0, rnd_zero _⟩⟩

/-- `a + b` -/
instance : Add (Num p) := ⟨fun a b => ⟨rnd (p + 1) (a.1 + b.1), rnd_idem (Nat.succ_pos p) _⟩⟩

/-- `a - b` -/
instance : Sub (Num p) := ⟨fun a b => ⟨rnd (p + 1) (a.1 - b.1), rnd_idem (Nat.succ_pos p) _⟩⟩

/-- The number nearest to `z`. -/
def of (p : ℕ) (z : ℤ) : Num p := ⟨rnd (p + 1) z, rnd_idem (Nat.succ_pos p) z⟩

theorem le_iff {a b : Num p} : a ≤ b ↔ a.1 ≤ b.1 := Iff.rfl
theorem lt_iff {a b : Num p} : a < b ↔ a.1 < b.1 := Iff.rfl
theorem val_zero : (0 : Num p).1 = 0 := rfl
theorem val_add (a b : Num p) : (a + b).1 = rnd (p + 1) (a.1 + b.1) := rfl
theorem val_sub (a b : Num p) : (a - b).1 = rnd (p + 1) (a.1 - b.1) := rfl

end Num

end Verif.Dbl
