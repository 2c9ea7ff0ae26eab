import Verif.Utils.Rand
import Mathlib.Data.Fintype.EquivFin
import Mathlib.Data.Fintype.Basic

/-!
# C25: the random number generator
-/

namespace Verif.Rand

/-- C25: the state transition is a permutation of the 64 bit states. -/
theorem c25_permutation : Function.Bijective bits := by
  haveI : Finite (BitVec 64) := Finite.of_injective (fun v => v.toFin) (fun a b h => by
    cases a; cases b; simpa using h)
  exact Finite.injective_iff_bijective.1 bits_injective

/-- C25: the generator never enters the all-zero state from a non-zero state. -/
theorem c25_nonzero {v : BitVec 64} (h : v ≠ 0#64) (n : Nat) : bits^[n] v ≠ 0#64 := by
  induction n generalizing v with
  | zero => exact h
  | succ n ih =>
    rw [Function.iterate_succ_apply]
    apply ih
    intro h0
    apply h
    apply bits_injective
    rw [h0]
    decide

/-- C25 on seeds: different seeds give different states, and exactly one seed gives the dead all-zero
state, from which every number drawn is 0. -/
theorem c25_seed : Function.Injective init ∧ (∀ s, init s = 0#64 ↔ s = vini) ∧
    ∀ n, bits^[n] (init vini) = 0#64 := by
  have hinj : Function.Injective init := by
    intro a b h
    have := bits_injective h
    have h2 := congrArg (fun z => vini ^^^ z) this
    simpa [← BitVec.xor_assoc] using h2
  have hz : init vini = 0#64 := by decide
  refine ⟨hinj, fun s => ⟨fun h => hinj (h.trans hz.symm), fun h => h ▸ hz⟩, fun n => ?_⟩
  rw [hz]
  induction n with
  | zero => rfl
  | succ n ih => rw [Function.iterate_succ_apply, show bits 0#64 = 0#64 by decide, ih]

/-- The arithmetic of `integer` when the range is representable. -/
theorem integer_eq {v : BitVec 64} {min max : Int} (h : min < max) (hmin : InL min) (hmax : InL (max + 1))
    (hr : InL (max + 1 - min)) :
    integer v min max = .ok (((bits v).toNat % (max + 1 - min).toNat : Nat) + min, bits v) := by
  unfold InL at *
  have hm : (BitVec.ofInt 64 (max + 1 - min)).toNat = (max + 1 - min).toNat := by
    rw [BitVec.toNat_ofInt]; congr 1; omega
  have hm0 : BitVec.ofInt 64 (max + 1 - min) ≠ 0#64 := by
    intro h0
    have := congrArg BitVec.toNat h0
    rw [hm] at this
    simp at this
    omega
  unfold integer InL
  rw [if_neg (by omega), if_pos ⟨hmax, hr⟩]
  dsimp only
  rw [if_neg hm0]
  congr 2
  rw [BitVec.toInt_add, BitVec.toInt_ofInt]
  have h2 : (bits v).toNat % (max + 1 - min).toNat < (max + 1 - min).toNat := Nat.mod_lt _ (by omega)
  have e : (bits v % BitVec.ofInt 64 (max + 1 - min)).toInt =
      ((bits v).toNat % (max + 1 - min).toNat : Nat) := by
    rw [BitVec.toInt_eq_toNat_of_lt] <;> rw [BitVec.toNat_umod, hm]
    omega
  rw [e]
  generalize (bits v).toNat % (max + 1 - min).toNat = r at *
  simp only [Int.bmod_add_bmod, Int.add_bmod_bmod]
  apply Int.bmod_eq_of_le <;> omega

/-- C25: `integer(min, max)` lies in `[min, max]`, for every state and every range of representable
size. -/
theorem c25_integer_range {v : BitVec 64} {min max : Int} (h : min ≤ max) (hmin : InL min)
    (hmax : InL (max + 1)) (hr : InL (max + 1 - min)) :
    ∃ r v', integer v min max = .ok (r, v') ∧ min ≤ r ∧ r ≤ max := by
  rcases lt_or_eq_of_le h with h | rfl
  · refine ⟨_, _, integer_eq h hmin hmax hr, ?_, ?_⟩
    · omega
    · have : (bits v).toNat % (max + 1 - min).toNat < (max + 1 - min).toNat := Nat.mod_lt _ (by omega)
      omega
  · exact ⟨min, v, by simp [integer], le_refl _, le_refl _⟩

/-- C25: every number of the range is drawn from some state. -/
theorem c25_integer_onto {min max r : Int} (h : min < max) (hmin : InL min)
    (hmax : InL (max + 1)) (hr : InL (max + 1 - min)) (h1 : min ≤ r) (h2 : r ≤ max) :
    ∃ v v', integer v min max = .ok (r, v') := by
  obtain ⟨v, hv⟩ := c25_permutation.2 (BitVec.ofNat 64 (r - min).toNat)
  refine ⟨v, bits v, ?_⟩
  rw [integer_eq h hmin hmax hr, hv, BitVec.toNat_ofNat]
  unfold InL at *
  congr 2
  rw [Nat.mod_eq_of_lt (b := 2 ^ 64) (by omega), Nat.mod_eq_of_lt (by omega)]
  omega

/-- Ranges that overflow are undefined: `integer(0, LONG_MAX)`, and `integer(min, min - 1)` divides
by zero. -/
theorem c25_integer_ub (v : BitVec 64) :
    integer v 0 (2 ^ 63 - 1) = .ub ∧ integer v 5 4 = .ub := by
  constructor <;> · unfold integer; simp [InL]

/-- Seed 1, the range -5..5. -/
example : (integer (init 1#64) (-5) 5).map Prod.fst = .ok 2 := by decide +kernel

end Verif.Rand
