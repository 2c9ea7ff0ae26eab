import Verif.Outcome
import Mathlib.Tactic.Common
import Mathlib.Data.Fintype.Card
import Mathlib.Data.Finite.Defs

/-!
# Model of utils/rand.cc
-/

namespace Verif.Rand

/-- rand.cc:12 -/
def mul : BitVec 64 := 2685821657736338717#64
/-- rand.cc:13 -/
def vini : BitVec 64 := 4101842887655102017#64

/-- rand.cc:21-27 `bits`: the new state, which is also the result. -/
def bits (v : BitVec 64) : BitVec 64 :=
  let v := v ^^^ (v >>> 21)
  let v := v ^^^ (v <<< 35)
  let v := v ^^^ (v >>> 4)
  v * mul

/-- rand.cc:16-19 constructor. -/
def init (seed : BitVec 64) : BitVec 64 := bits (vini ^^^ seed)

/-- `long`. -/
def InL (z : Int) : Prop := -2 ^ 63 ≤ z ∧ z < 2 ^ 63

instance (z : Int) : Decidable (InL z) := by unfold InL; infer_instance

/-- rand.cc:29-34 `integer`: result and new state.  `(max+1) - min` is `long` arithmetic; then
everything is converted to `uint64_t`, and the result to `int64_t`. -/
def integer (v : BitVec 64) (min max : Int) : Outcome (Int × BitVec 64) :=
  if min = max then .ok (min, v)
  else if InL (max + 1) ∧ InL (max + 1 - min) then
    let m : BitVec 64 := BitVec.ofInt 64 (max + 1 - min)
    if m = 0#64 then .ub
    else .ok ((bits v % m + BitVec.ofInt 64 min).toInt, bits v)
  else .ub

/-! ## `bits` is a permutation -/

theorem xor_shr_inj {k : Nat} (hk : 0 < k) {x y : BitVec 64}
    (h : x ^^^ (x >>> k) = y ^^^ (y >>> k)) : x = y := by
  have h1 : x ^^^ y = (x ^^^ y) >>> k := by
    rw [BitVec.ushiftRight_xor_distrib]
    have := congrArg (fun z => z ^^^ (y ^^^ (x >>> k))) h
    calc x ^^^ y = x ^^^ (x >>> k) ^^^ (y ^^^ (x >>> k)) := by
            apply BitVec.eq_of_getLsbD_eq; intro i _; simp only [BitVec.getLsbD_xor]
            cases x.getLsbD i <;> cases y.getLsbD i <;> cases (x >>> k).getLsbD i <;> rfl
      _ = y ^^^ (y >>> k) ^^^ (y ^^^ (x >>> k)) := this
      _ = _ := by
            apply BitVec.eq_of_getLsbD_eq; intro i _; simp only [BitVec.getLsbD_xor]
            cases (y >>> k).getLsbD i <;> cases y.getLsbD i <;> cases (x >>> k).getLsbD i <;> rfl
  have h2 : (x ^^^ y).toNat = (x ^^^ y).toNat / 2 ^ k := by
    conv_lhs => rw [h1]
    rw [BitVec.toNat_ushiftRight, Nat.shiftRight_eq_div_pow]
  have h3 : (x ^^^ y).toNat = 0 := by
    by_contra hc
    have : (x ^^^ y).toNat / 2 ^ k < (x ^^^ y).toNat :=
      Nat.div_lt_self (by omega) (Nat.one_lt_two_pow (by omega))
    omega
  have h4 : x ^^^ y = 0#64 := BitVec.eq_of_toNat_eq (by simpa using h3)
  exact BitVec.xor_eq_zero_iff.1 h4

theorem xor_shl_inj {x y : BitVec 64}
    (h : x ^^^ (x <<< 35) = y ^^^ (y <<< 35)) : x = y := by
  have h1 : x ^^^ y = (x ^^^ y) <<< 35 := by
    rw [BitVec.shiftLeft_xor_distrib]
    have := congrArg (fun z => z ^^^ (y ^^^ (x <<< 35))) h
    calc x ^^^ y = x ^^^ (x <<< 35) ^^^ (y ^^^ (x <<< 35)) := by
            apply BitVec.eq_of_getLsbD_eq; intro i _; simp only [BitVec.getLsbD_xor]
            cases x.getLsbD i <;> cases y.getLsbD i <;> cases (x <<< 35).getLsbD i <;> rfl
      _ = y ^^^ (y <<< 35) ^^^ (y ^^^ (x <<< 35)) := this
      _ = _ := by
            apply BitVec.eq_of_getLsbD_eq; intro i _; simp only [BitVec.getLsbD_xor]
            cases (y <<< 35).getLsbD i <;> cases y.getLsbD i <;> cases (x <<< 35).getLsbD i <;> rfl
  have h2 : x ^^^ y = (x ^^^ y) <<< 70 := by
    conv_lhs => rw [h1, h1]
    rw [← BitVec.shiftLeft_add]
  rw [BitVec.shiftLeft_eq_zero (by omega)] at h2
  exact BitVec.xor_eq_zero_iff.1 h2

/-- Inverse of the multiplier modulo 2^64. -/
def mulInv : BitVec 64 := 6415128727920758069#64

theorem mul_mulInv : mul * mulInv = 1#64 := by decide

theorem bits_injective : Function.Injective bits := by
  intro x y h
  unfold bits at h
  dsimp only at h
  have h1 := congrArg (fun z => z * mulInv) h
  simp only [BitVec.mul_assoc, mul_mulInv, BitVec.mul_one] at h1
  exact xor_shr_inj (by omega) (xor_shl_inj (xor_shr_inj (by omega) h1))

end Verif.Rand
