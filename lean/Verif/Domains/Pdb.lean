import Verif.Outcome
import Mathlib.Tactic.Common
import Mathlib.Tactic.Ring
import Mathlib.Tactic.Linarith
import Mathlib.Data.List.Nodup

/-!
# Model of the sparse pattern database index, tiles/pdb.hpp:44-58

`n` is `Tiles::Ntiles`.  `unsigned int` has 32 bits, `unsigned long` 64.
-/

namespace Verif.Pdb

/-- pdb.hpp:51-54: the loop over the remaining positions. -/
def posLoop (n : Nat) : List Nat → Nat → Nat → Nat
  | [], ind, _ => ind
  | p :: ps, ind, mul => posLoop n ps ((ind + p * mul % 2 ^ 32) % 2 ^ 64) (mul * n % 2 ^ 32)

/-- pdb.hpp:47-57 `SparsePdb::posind` for the positions `ps[0 .. patsz-1]`. -/
def posind (n : Nat) : List Nat → Outcome Nat
  | [] => .ub
  | p :: ps => .ok (posLoop n ps p (n % 2 ^ 32))

/-- pdb.cc:15-16: the size of the table. -/
def tablesize (n patsz : Nat) : Nat := n ^ patsz

/-- Positions as the digits of a number, least significant first. -/
def value (n : Nat) : List Nat → Nat
  | [] => 0
  | p :: ps => p + n * value n ps

theorem value_lt {n : Nat} {ps : List Nat} (h : ∀ p ∈ ps, p < n) : value n ps < n ^ ps.length := by
  induction ps with
  | nil => simp [value]
  | cons p ps ih =>
    have h1 := ih fun q hq => h q (List.mem_cons_of_mem _ hq)
    have h2 := h p (List.mem_cons_self ..)
    rw [value, List.length_cons, pow_succ]
    calc p + n * value n ps < n + n * value n ps := by omega
      _ = n * (value n ps + 1) := by ring
      _ ≤ n * n ^ ps.length := Nat.mul_le_mul_left _ h1
      _ = _ := Nat.mul_comm _ _

theorem value_inj {n : Nat} {ps qs : List Nat} (hp : ∀ p ∈ ps, p < n) (hq : ∀ p ∈ qs, p < n)
    (hl : ps.length = qs.length) (h : value n ps = value n qs) : ps = qs := by
  induction ps generalizing qs with
  | nil => cases qs with
    | nil => rfl
    | cons => simp at hl
  | cons p ps ih =>
    cases qs with
    | nil => simp at hl
    | cons q qs =>
      have h1 := hp p (List.mem_cons_self ..)
      have h2 := hq q (List.mem_cons_self ..)
      rw [value, value] at h
      have hpq : p = q := by
        have := congrArg (· % n) h
        simpa [Nat.add_mul_mod_self_left, Nat.mod_eq_of_lt h1, Nat.mod_eq_of_lt h2] using this
      subst hpq
      have hv : value n ps = value n qs := Nat.eq_of_mul_eq_mul_left (by omega : 0 < n) (by omega)
      rw [ih (fun q hq => hp q (List.mem_cons_of_mem _ hq)) (fun r hr => hq r (List.mem_cons_of_mem _ hr))
        (by simpa using hl) hv]

theorem posLoop_ok {n : Nat} (hn : 1 < n) (ps : List Nat) (ind k : Nat) (hp : ∀ p ∈ ps, p < n)
    (hi : ind < n ^ k) (hb : n ^ (k + ps.length) ≤ 2 ^ 32) :
    posLoop n ps ind (n ^ k % 2 ^ 32) = ind + n ^ k * value n ps := by
  induction ps generalizing ind k with
  | nil => simp [posLoop, value]
  | cons p ps ih =>
    have h0 := hp p (List.mem_cons_self ..)
    rw [List.length_cons] at hb
    have hk1 : n ^ (k + 1) ≤ 2 ^ 32 := le_trans (Nat.pow_le_pow_right (by omega) (by omega)) hb
    have hlt : n ^ k < n ^ (k + 1) := Nat.pow_lt_pow_right hn (by omega)
    have hkm : n ^ k % 2 ^ 32 = n ^ k := Nat.mod_eq_of_lt (by omega)
    have hpk : ind + p * n ^ k < n ^ (k + 1) := by
      calc ind + p * n ^ k < n ^ k + p * n ^ k := by omega
        _ = (p + 1) * n ^ k := by ring
        _ ≤ n * n ^ k := Nat.mul_le_mul_right _ h0
        _ = n ^ (k + 1) := by rw [pow_succ]; ring
    have e1 : p * n ^ k % 2 ^ 32 = p * n ^ k := Nat.mod_eq_of_lt (by omega)
    have e2 : (ind + p * n ^ k) % 2 ^ 64 = ind + p * n ^ k := Nat.mod_eq_of_lt (by
      have : (2 : Nat) ^ 32 < 2 ^ 64 := by norm_num
      omega)
    unfold posLoop
    rw [hkm, e1, e2, ← pow_succ, ih _ (k + 1) (fun q hq => hp q (List.mem_cons_of_mem _ hq)) hpk
      (by rw [Nat.add_right_comm]; exact hb), value, pow_succ]
    ring

end Verif.Pdb
