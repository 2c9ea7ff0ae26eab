import Verif.Utils.SafeOps

/-!
# C24: checked arithmetic

A call is right if it returns the exact result when it is representable and reports an overflow
otherwise.
-/

namespace Verif.SafeOps

/-- Spec: the exact result `z` or a report. -/
def Exact (M z : Int) (r : Outcome Int) : Prop := (InS M z → r = .ok z) ∧ (¬ InS M z → r = .fatal)

/-- Spec, unsigned. -/
def ExactU (U : Nat) (z : Int) (r : Outcome Nat) : Prop :=
  (0 ≤ z ∧ z < U → r = .ok z.toNat) ∧ (¬ (0 ≤ z ∧ z < U) → r = .fatal)

/-! ## Signed types -/

/-- C24: signed addition is right. -/
theorem c24_add {M a b : Int} (ha : InS M a) (hb : InS M b) : Exact M (a + b) (addS M a b) := by
  unfold Exact addS arith
  unfold InS at *
  constructor <;> intro h
  · rw [if_neg (by omega), if_neg (by omega), if_pos h]
  · by_cases h1 : a > 0 ∧ b > 0 ∧ (M - 1) - b < a
    · rw [if_pos h1]
    · rw [if_neg h1, if_pos (by omega)]

/-- C24: signed subtraction is right except for `0 - MIN`. -/
theorem c24_sub_partial {M a b : Int} (ha : InS M a) (hb : InS M b) (h0 : ¬ (a = 0 ∧ b = -M)) :
    Exact M (a - b) (subS M a b) := by
  unfold Exact subS arith
  unfold InS at *
  constructor <;> intro h
  · rw [if_neg (by omega), if_neg (by omega), if_pos h]
  · by_cases h1 : a > 0 ∧ b < 0 ∧ (M - 1) + b < a
    · rw [if_pos h1]
    · rw [if_neg h1, if_pos (by omega)]

/-- C24 fails: `sub(0, MIN)` is not reported but overflows. -/
theorem c24_sub_ub {M : Int} (hM : 0 < M) : subS M 0 (-M) = .ub := by
  unfold subS arith InS
  rw [if_neg (by omega), if_neg (by omega), if_neg (by omega)]

/-- The argument pairs on which signed `mul` misbehaves. -/
def MulBad (M a b : Int) : Prop :=
  (a = -1 ∧ 0 < b) ∨ (b = -1 ∧ a ≠ 0 ∧ a ≠ -M) ∨ (a < 0 ∧ b < 0 ∧ a ≠ -M ∧ b ≠ -M ∧ a * b = M)

theorem sdiv_neg {M x : Int} (hM : 1 < M) (hx : x < -1) (hx' : -M ≤ x) :
    sdiv M (-M) x = .ok (M / (-x)) ∧ 0 ≤ M / (-x) ∧ M / (-x) < M := by
  have e : (-M).tdiv x = M / (-x) := by
    rw [← tdiv_neg_neg M (-x) (by omega), neg_neg]
  have h1 : 0 ≤ M / (-x) := Int.ediv_nonneg (by omega) (by omega)
  have h2 : M / (-x) < M := Int.ediv_lt_of_lt_mul (by omega) (by nlinarith)
  refine ⟨?_, h1, h2⟩
  unfold sdiv arith InS
  rw [if_neg (by omega), e, if_pos ⟨by omega, h2⟩]

theorem ediv_lt_iff {M x y : Int} (hx : 0 < x) : M / x < y ↔ M < y * x :=
  Int.ediv_lt_iff_lt_mul hx

/-- C24: signed multiplication is right outside `MulBad`. -/
theorem c24_mul_partial {M a b : Int} (hM : 1 < M) (ha : InS M a) (hb : InS M b)
    (hbad : ¬ MulBad M a b) : Exact M (a * b) (mulS M a b) := by
  unfold MulBad at hbad
  push Not at hbad
  obtain ⟨hb1, hb2, hb3⟩ := hbad
  obtain ⟨ha1, ha2⟩ := ha
  obtain ⟨hb1', hb2'⟩ := hb
  unfold mulS
  by_cases c1 : a > 0 ∧ b > 0
  · rw [if_pos c1]
    obtain ⟨p, q⟩ := c1
    have e : sdiv M (M - 1) b = .ok ((M - 1) / b) := by
      have h1 : 0 ≤ (M - 1) / b := Int.ediv_nonneg (by omega) (by omega)
      have h2 : (M - 1) / b < M := Int.ediv_lt_of_lt_mul (by omega) (by nlinarith)
      unfold sdiv arith InS
      rw [if_neg (by omega), tdiv_pos _ _ (by omega), if_pos ⟨by omega, h2⟩]
    have hp : 0 < a * b := mul_pos p q
    rw [e, Outcome.bind_ok]
    by_cases h : (M - 1) / b < a
    · rw [if_pos h]
      rw [ediv_lt_iff q] at h
      unfold Exact InS
      exact ⟨fun h2 => by omega, fun _ => rfl⟩
    · rw [if_neg h]
      rw [ediv_lt_iff q] at h
      unfold Exact arith InS
      exact ⟨fun h2 => if_pos h2, fun h2 => absurd ⟨by omega, by omega⟩ h2⟩
  rw [if_neg c1]
  by_cases c2 : a < 0 ∧ b > 0
  · rw [if_pos c2]
    obtain ⟨p, q⟩ := c2
    have ha' : a < -1 := by
      have : a ≠ -1 := fun h => by have := hb1 h; omega
      omega
    obtain ⟨e, -, -⟩ := sdiv_neg hM ha' ha1
    have hp : a * b < 0 := mul_neg_of_neg_of_pos p q
    have hcomm : b * -a = -(a * b) := by ring
    rw [e, Outcome.bind_ok]
    by_cases h : M / -a < b
    · rw [if_pos h]
      rw [ediv_lt_iff (by omega)] at h
      unfold Exact InS
      exact ⟨fun h2 => by omega, fun _ => rfl⟩
    · rw [if_neg h]
      rw [ediv_lt_iff (by omega)] at h
      unfold Exact arith InS
      exact ⟨fun h2 => if_pos h2, fun h2 => absurd ⟨by omega, by omega⟩ h2⟩
  rw [if_neg c2]
  by_cases c3 : a > 0 ∧ b < 0
  · rw [if_pos c3]
    obtain ⟨p, q⟩ := c3
    have hb' : b < -1 := by
      have : b ≠ -1 := fun h => by have := hb2 h (by omega); omega
      omega
    obtain ⟨e, -, -⟩ := sdiv_neg hM hb' hb1'
    have hp : a * b < 0 := mul_neg_of_pos_of_neg p q
    have hcomm : a * -b = -(a * b) := by ring
    rw [e, Outcome.bind_ok]
    by_cases h : M / -b < a
    · rw [if_pos h]
      rw [ediv_lt_iff (by omega)] at h
      unfold Exact InS
      exact ⟨fun h2 => by omega, fun _ => rfl⟩
    · rw [if_neg h]
      rw [ediv_lt_iff (by omega)] at h
      unfold Exact arith InS
      exact ⟨fun h2 => if_pos h2, fun h2 => absurd ⟨by omega, by omega⟩ h2⟩
  rw [if_neg c3]
  by_cases c4 : a < 0 ∧ b < 0
  · rw [if_pos c4]
    obtain ⟨p, q⟩ := c4
    have hp : 0 < a * b := mul_pos_of_neg_of_neg p q
    by_cases hm : a = -M ∨ b = -M
    · rw [if_pos hm]
      have hge : M ≤ a * b := by
        rcases hm with rfl | rfl
        · nlinarith
        · nlinarith
      unfold Exact InS
      exact ⟨fun h2 => by omega, fun _ => rfl⟩
    · rw [if_neg hm]
      push Not at hm
      have hb' : b < -1 := by
        have : b ≠ -1 := fun h => by have := hb2 h (by omega); exact hm.1 this
        omega
      obtain ⟨e, e1, e2⟩ := sdiv_neg hM hb' hb1'
      rw [e, Outcome.bind_ok]
      have e3 : arith M (-(M / -b)) = .ok (-(M / -b)) := by
        unfold arith InS; rw [if_pos ⟨by omega, by omega⟩]
      rw [e3, Outcome.bind_ok]
      have hne := hb3 p q hm.1 hm.2
      have key : -(M / -b) > a ↔ M < a * b := by
        have : -(M / -b) > a ↔ M / -b < -a := by omega
        rw [this, ediv_lt_iff (by omega)]
        have : -a * -b = a * b := by ring
        rw [this]
      by_cases h : -(M / -b) > a
      · rw [if_pos h]
        rw [key] at h
        unfold Exact InS
        exact ⟨fun h2 => by omega, fun _ => rfl⟩
      · rw [if_neg h]
        rw [key] at h
        unfold Exact arith InS
        exact ⟨fun h2 => if_pos h2, fun h2 => absurd ⟨by omega, by omega⟩ h2⟩
  rw [if_neg c4]
  have hz : a = 0 ∨ b = 0 := by omega
  have hz' : a * b = 0 := by rcases hz with rfl | rfl <;> simp
  rw [hz']
  unfold Exact arith InS
  exact ⟨fun h2 => if_pos h2, fun h2 => absurd ⟨by omega, by omega⟩ h2⟩

/-- C24 fails: on every pair in `MulBad` signed `mul` executes undefined behaviour, although the
product is representable in the first two cases (such as `mul(-1, 5)` and `mul(5, -1)`). -/
theorem c24_mul_ub {M a b : Int} (hM : 1 < M) (ha : InS M a) (hb : InS M b) (hbad : MulBad M a b) :
    mulS M a b = .ub := by
  have m1 : sdiv M (-M) (-1) = .ub := by
    unfold sdiv arith InS
    rw [if_neg (by omega), tdiv_neg_neg _ _ (by omega), Int.ediv_one, if_neg (by omega)]
  obtain ⟨ha1, ha2⟩ := ha
  obtain ⟨hb1, hb2⟩ := hb
  rcases hbad with ⟨rfl, h⟩ | ⟨rfl, h1, h2⟩ | ⟨h1, h2, h3, h4, h5⟩
  · unfold mulS
    rw [if_neg (by omega), if_pos (by omega), m1, Outcome.bind_ub]
  · unfold mulS
    by_cases hp : a > 0
    · rw [if_neg (by omega), if_neg (by omega), if_pos (by omega), m1, Outcome.bind_ub]
    · rw [if_neg (by omega), if_neg (by omega), if_neg (by omega), if_pos (by omega),
        if_neg (by omega), m1, Outcome.bind_ub]
  · unfold mulS
    rw [if_neg (by omega), if_neg (by omega), if_neg (by omega), if_pos ⟨h1, h2⟩, if_neg (by omega)]
    by_cases hb' : b = -1
    · subst hb'; omega
    · obtain ⟨e, e1, e2⟩ := sdiv_neg hM (by omega : b < -1) hb1
      rw [e, Outcome.bind_ok]
      have e3 : arith M (-(M / -b)) = .ok (-(M / -b)) := by
        unfold arith InS; rw [if_pos ⟨by omega, by omega⟩]
      rw [e3, Outcome.bind_ok, if_neg, h5]
      · unfold arith InS; rw [if_neg (by omega)]
      · have : -(M / -b) > a ↔ M / -b < -a := by omega
        rw [this, ediv_lt_iff (by omega)]
        have : -a * -b = a * b := by ring
        omega

/-- C24: signed division is right. -/
theorem c24_div {M a b : Int} (hM : 0 < M) (ha : InS M a) (hb : InS M b) :
    (b = 0 → divS M a b = .fatal) ∧ (b ≠ 0 → Exact M (a.tdiv b) (divS M a b)) := by
  constructor
  · rintro rfl
    unfold divS
    rw [if_pos (Or.inl rfl)]
  · intro h
    obtain ⟨ha1, ha2⟩ := ha
    obtain ⟨hb1, hb2⟩ := hb
    unfold divS
    by_cases h2 : a = -M ∧ b = -1
    · rw [if_pos (Or.inr h2)]
      obtain ⟨rfl, rfl⟩ := h2
      rw [tdiv_neg_neg _ _ (by omega), Int.ediv_one]
      unfold Exact InS
      exact ⟨fun h => by omega, fun _ => rfl⟩
    · rw [if_neg (by tauto)]
      have hr : InS M (a.tdiv b) := by
        have h3 : (a.tdiv b).natAbs ≤ a.natAbs := by
          rw [Int.natAbs_tdiv]; exact Nat.div_le_self _ _
        unfold InS
        by_cases h4 : a = -M
        · subst h4
          have hb3 : b ≠ -1 := fun h => h2 ⟨rfl, h⟩
          by_cases hb4 : b > 0
          · have : (-M).tdiv b ≤ 0 := by
              rw [Int.neg_tdiv, tdiv_pos _ _ (by omega)]
              have := Int.ediv_nonneg (a := M) (b := b) (by omega) (by omega)
              omega
            omega
          · have : (-M).tdiv b = M / (-b) := by rw [← tdiv_neg_neg M (-b) (by omega), neg_neg]
            rw [this]
            have h5 : 0 ≤ M / (-b) := Int.ediv_nonneg (by omega) (by omega)
            have hb5 : b ≤ -2 := by omega
            have h6 : M / (-b) < M := Int.ediv_lt_of_lt_mul (by omega) (by nlinarith)
            omega
        · omega
      unfold Exact sdiv arith
      rw [if_neg h, if_pos hr]
      exact ⟨fun _ => rfl, fun h => absurd hr h⟩

/-! ## Unsigned types -/

/-- C24: unsigned addition is right. -/
theorem c24_addU {U a b : Nat} (ha : a < U) (hb : b < U) : ExactU U (a + b) (addU U a b) := by
  unfold ExactU addU
  constructor <;> intro h
  · rw [if_neg (by omega), Nat.mod_eq_of_lt (by omega)]; congr 1
  · rw [if_pos (by omega)]

/-- C24: unsigned subtraction is right only if `b ≤ a` and `a + b` does not overflow. -/
theorem c24_subU_partial {U a b : Nat} (ha : a < U) (hb : b < U) (h1 : b ≤ a) (h2 : a + b < U) :
    ExactU U (a - b) (subU U a b) := by
  unfold ExactU subU
  constructor <;> intro h
  · rw [if_neg (by omega)]
    have : (a + (U - b)) % U = a - b := by
      rw [show a + (U - b) = (a - b) + U by omega, Nat.add_mod_right, Nat.mod_eq_of_lt (by omega)]
    rw [this]; congr 1; omega
  · omega

/-- C24 fails for unsigned subtraction in both directions: a negative difference wraps unreported
when `a + b` fits, and a correct difference is reported as overflow when `a + b` does not fit. -/
theorem c24_subU_wrong {U a b : Nat} (ha : a < U) (hb : b < U) :
    (a < b → a + b < U → subU U a b = .ok (U - (b - a))) ∧ (U ≤ a + b → subU U a b = .fatal) := by
  unfold subU
  constructor
  · intro h1 h2
    rw [if_neg (by omega), Nat.mod_eq_of_lt (by omega)]; congr 1; omega
  · intro h; rw [if_pos (by omega)]

/-- C24: unsigned multiplication is right. -/
theorem c24_mulU {U a b : Nat} (ha : a < U) (hb : b < U) : ExactU U (a * b) (mulU U a b) := by
  have key : a > 0 ∧ b > 0 ∧ (U - 1) / b < a ↔ U ≤ a * b := by
    rcases Nat.eq_zero_or_pos b with rfl | hb0
    · simp; omega
    · rw [Nat.div_lt_iff_lt_mul hb0]
      constructor
      · rintro ⟨_, _, h⟩; omega
      · intro h
        refine ⟨?_, hb0, by omega⟩
        rcases Nat.eq_zero_or_pos a with rfl | h0
        · simp at h; omega
        · exact h0
  unfold ExactU mulU
  constructor
  · rintro ⟨_, h⟩
    have h' : a * b < U := by exact_mod_cast h
    rw [if_neg (by rw [key]; omega), Nat.mod_eq_of_lt h']
    congr 1
  · intro h
    rw [if_pos]
    rw [key]
    by_contra hc
    apply h
    exact ⟨by positivity, by push Not at hc; exact_mod_cast hc⟩

/-- C24: `can_mul` tells exactly whether the product fits. -/
theorem c24_can_mul {U a b : Nat} (ha : a < U) (hb : b < U) : canMulU U a b = true ↔ a * b < U := by
  obtain ⟨h1, h2⟩ := c24_mulU ha hb
  unfold canMulU
  rw [decide_eq_true_eq]
  constructor
  · intro h
    by_contra hc
    exact h (h2 (by push Not at hc ⊢; intro _; exact_mod_cast hc))
  · intro h hf
    rw [h1 ⟨by positivity, by exact_mod_cast h⟩] at hf
    simp at hf

/-- C24: unsigned division is right. -/
theorem c24_divU (a b : Nat) : (b = 0 → divU a b = .fatal) ∧ (b ≠ 0 → divU a b = .ok (a / b)) := by
  unfold divU
  exact ⟨fun h => if_pos h, fun h => if_neg h⟩

/-! ## Concrete 32 bit cases -/

example : addS (2 ^ 31) 2147483647 1 = .fatal ∧ addS (2 ^ 31) 2147483646 1 = .ok 2147483647 ∧
    addS (2 ^ 31) (-2147483648) (-1) = .fatal := by decide
example : subS (2 ^ 31) 0 (-2147483648) = .ub ∧ subS (2 ^ 31) (-1) (-2147483648) = .ok 2147483647 := by decide
example : mulS (2 ^ 31) (-1) 5 = .ub ∧ mulS (2 ^ 31) 5 (-1) = .ub ∧ mulS (2 ^ 31) (-65536) (-32768) = .ub ∧
    mulS (2 ^ 31) (-65536) 32768 = .ok (-2147483648) ∧ mulS (2 ^ 31) 65536 32768 = .fatal := by decide
example : MulBad (2 ^ 31) (-65536) (-32768) ∧ ¬ MulBad (2 ^ 31) (-65536) 32768 := by
  unfold MulBad; decide
example : divS (2 ^ 31) (-2147483648) (-1) = .fatal ∧ divS (2 ^ 31) (-7) 2 = .ok (-3) := by decide
example : subU (2 ^ 32) 3 5 = .ok 4294967294 ∧ subU (2 ^ 32) 4294967295 1 = .fatal := by decide

end Verif.SafeOps
