import Verif.Domains.Pdb

/-!
# C58: the sparse pattern database gives every placement its own entry
-/

namespace Verif.Pdb

/-- **C58 (range), partial: small tables only.** If the table has at most `2^32` entries, every placement of a non-empty pattern has an index inside
the table. -/
theorem c58_range_partial {n : Nat} (hn : 1 < n) {ps : List Nat} (hne : ps ≠ []) (hp : ∀ p ∈ ps, p < n)
    (hb : tablesize n ps.length ≤ 2 ^ 32) : ∃ i, posind n ps = .ok i ∧ i < tablesize n ps.length := by
  cases ps with
  | nil => exact absurd rfl hne
  | cons p ps =>
    have h0 := hp p (List.mem_cons_self ..)
    have h1 := posLoop_ok hn ps p 1 (fun q hq => hp q (List.mem_cons_of_mem _ hq)) (by rw [pow_one]; exact h0)
      (by rw [Nat.add_comm]; exact hb)
    rw [pow_one] at h1
    refine ⟨_, rfl, ?_⟩
    rw [h1]
    exact value_lt hp

/-- **C58 (no sharing), partial: small tables only.** Under the same condition different placements have different indices. -/
theorem c58_injective_partial {n : Nat} (hn : 1 < n) {ps qs : List Nat} (hne : ps ≠ []) (hl : ps.length = qs.length)
    (hp : ∀ p ∈ ps, p < n) (hq : ∀ p ∈ qs, p < n) (hb : tablesize n ps.length ≤ 2 ^ 32) (h : posind n ps = posind n qs) :
    ps = qs := by
  cases ps with
  | nil => exact absurd rfl hne
  | cons p ps =>
    cases qs with
    | nil => simp at hl
    | cons q qs =>
      have h1 := posLoop_ok hn ps p 1 (fun r hr => hp r (List.mem_cons_of_mem _ hr))
        (by rw [pow_one]; exact hp p (List.mem_cons_self ..)) (by rw [Nat.add_comm]; exact hb)
      have h2 := posLoop_ok hn qs q 1 (fun r hr => hq r (List.mem_cons_of_mem _ hr))
        (by rw [pow_one]; exact hq q (List.mem_cons_self ..)) (by
          rw [Nat.add_comm]
          rw [hl] at hb
          exact hb)
      rw [pow_one] at h1 h2
      simp only [posind] at h
      rw [h1, h2] at h
      injection h with h
      exact value_inj hp hq hl h

/-- **C58, negation for larger patterns.** With nine pattern tiles of the 15-puzzle the 32-bit multiplier wraps to 0, and
the position of the ninth tile is ignored. -/
theorem c58_collision : ∃ ps qs : List Nat, ps.length = 9 ∧ qs.length = 9 ∧ ps.Nodup ∧ qs.Nodup ∧
    (∀ p ∈ ps, p < 16) ∧ (∀ p ∈ qs, p < 16) ∧ ps ≠ qs ∧ posind 16 ps = posind 16 qs :=
  ⟨[0, 1, 2, 3, 4, 5, 6, 7, 8], [0, 1, 2, 3, 4, 5, 6, 7, 9], by decide +kernel⟩

/-! ### Examples: the usual 5-tile pattern fits -/

example : tablesize 16 5 ≤ 2 ^ 32 := by decide
example : posind 16 [1, 2, 3, 4, 5] = .ok 0x54321 := by decide +kernel

end Verif.Pdb
