import Verif.Utils.Rank
import Verif.Props.Math

/-!
# C22: the permutation rank is a perfect, order preserving index

`Arr sz n p`: `p` is a sequence of `n` different numbers below `sz`.  There are
`sz * (sz-1) * ... * (sz-n+1)` of them (`Nat.descFactorial sz n`).  The hypothesis that this number fits in
64 bits is what the `unsigned long` result needs.
-/

namespace Verif.Rank

/-- A duplicate free sequence of length `n` over `0..sz-1`. -/
def Arr (sz n : Nat) (p : List Nat) : Prop := p.length = n ∧ p.Nodup ∧ ∀ q ∈ p, q < sz

instance (sz n : Nat) (p : List Nat) : Decidable (Arr sz n p) := by unfold Arr; infer_instance

theorem rank_eq {sz n : Nat} (hsz : sz < 2 ^ 29) (hfit : sz.descFactorial n ≤ 2 ^ 64) {p : List Nat}
    (hp : Arr sz n p) : rank sz p = .ok (rk sz [] 0 p) := by
  obtain ⟨hl, hn, hlt⟩ := hp
  have hb := MathFns.c23_ilog2 (v := sz) (by omega)
  have hb29 : MathFns.ilog2 sz ≤ 29 := by
    by_contra hc
    rcases Nat.eq_zero_or_pos sz with rfl | h0
    · exact absurd hc (by decide)
    have h1 := hb.2.1 h0
    have h2 : 2 ^ 29 ≤ 2 ^ (MathFns.ilog2 sz - 1) := Nat.pow_le_pow_right (by omega) (by omega)
    omega
  unfold rank
  dsimp only
  rw [if_pos (by omega)]
  have := rankLoop_eq (sz := sz) (bits := MathFns.ilog2 sz) hb.1.le (by omega) p [] (fun _ => 0) 0
    (fun i _ x _ => by simp) (by simpa using hn) (by simpa using hlt) (by simpa [hl] using hfit)
  simpa using this

/-- **C22 (range).** Ranking never leaves the tree, and gives a number below `sz!/(sz-n)!`. -/
theorem c22_range {sz n : Nat} (hsz : sz < 2 ^ 29) (hfit : sz.descFactorial n ≤ 2 ^ 64) {p : List Nat}
    (hp : Arr sz n p) : ∃ r, rank sz p = .ok r ∧ r < sz.descFactorial n := by
  refine ⟨_, rank_eq hsz hfit hp, ?_⟩
  have := rk_lt (sz := sz) p [] 0 (by simpa using hp.2.1) (by simpa using hp.2.2)
  simpa [hp.1] using this

/-- **C22 (order).** The rank follows the lexicographic order. -/
theorem c22_order {sz n : Nat} (hsz : sz < 2 ^ 29) (hfit : sz.descFactorial n ≤ 2 ^ 64) {p q : List Nat}
    (hp : Arr sz n p) (hq : Arr sz n q) {r r' : Nat} (hr : rank sz p = .ok r) (hr' : rank sz q = .ok r') :
    List.Lex (· < ·) p q ↔ r < r' := by
  have key : ∀ {p q : List Nat}, Arr sz n p → Arr sz n q → List.Lex (· < ·) p q → rk sz [] 0 p < rk sz [] 0 q :=
    fun hp hq h => rk_lex (by rw [hp.1, hq.1]) h [] 0 (by simpa using hp.2.1) (by simpa using hp.2.2)
  rw [rank_eq hsz hfit hp] at hr
  rw [rank_eq hsz hfit hq] at hr'
  injection hr with hr
  injection hr' with hr'
  subst hr; subst hr'
  refine ⟨key hp hq, fun h => ?_⟩
  rcases trichotomous_of (List.Lex (· < ·)) p q with h' | h' | h'
  · exact h'
  · subst h'; exact absurd h (lt_irrefl _)
  · exact absurd (key hq hp h') (by omega)

/-- **C22 (one to one).** Different sequences get different ranks. -/
theorem c22_injective {sz n : Nat} (hsz : sz < 2 ^ 29) (hfit : sz.descFactorial n ≤ 2 ^ 64) {p q : List Nat}
    (hp : Arr sz n p) (hq : Arr sz n q) (h : rank sz p = rank sz q) : p = q := by
  have hr := rank_eq hsz hfit hp
  have hr' := rank_eq hsz hfit hq
  rcases trichotomous_of (List.Lex (· < ·)) p q with h' | h' | h'
  · have := (c22_order hsz hfit hp hq hr (h.symm.trans hr)).1 h'; omega
  · exact h'
  · have := (c22_order hsz hfit hq hp (h.symm.trans hr) hr).1 h'; omega

/-- **C22 (onto).** Every number below `sz!/(sz-n)!` is a rank, so no table entry is wasted. -/
theorem c22_onto {sz n : Nat} (hn : n ≤ sz) (hsz : sz < 2 ^ 29) (hfit : sz.descFactorial n ≤ 2 ^ 64) {r : Nat}
    (hr : r < sz.descFactorial n) : ∃ p, Arr sz n p ∧ rank sz p = .ok r := by
  obtain ⟨ps, h1, h2, h3, h4⟩ := rk_surj (sz := sz) n [] 0 r List.nodup_nil (by simp) (by simpa using hn)
    (by simp) (by simpa using hr)
  have ha : Arr sz n ps := ⟨h1, by simpa using h2, by simpa using h3⟩
  exact ⟨ps, ha, by rw [rank_eq hsz hfit ha, h4]⟩

/-- A value outside the declared range makes the walk start outside the tree. -/
theorem c22_out_of_range_ub : rank 3 [9] = .ub := by decide

/-! ### Examples -/

example : Arr 5 3 [4, 0, 2] ∧ rank 5 [4, 0, 2] = .ok 49 ∧ Nat.descFactorial 5 3 = 60 := by decide
example : rank 5 [4, 3, 2] = .ok 59 ∧ rank 5 [0, 1, 2] = .ok 0 := by decide
example : Nat.descFactorial 16 8 ≤ 2 ^ 64 ∧ Nat.descFactorial 20 20 ≤ 2 ^ 64 := by decide +kernel

end Verif.Rank
