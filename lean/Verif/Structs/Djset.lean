import Verif.Outcome
import Mathlib.Logic.Function.Basic
import Mathlib.Logic.Relation
import Mathlib.Tactic.Common

/-!
# Model of `Djset` (structs/djset.hpp)

`par` and `rank` are the memories of the `parent` and `rank` fields of all `Djset` objects.
`rank` is a mathematical natural number (the code's 32-bit counter only influences the shape
of the forest).  `find` recurses; the model takes fuel.
-/

namespace Verif.Djset

variable {α : Type*} [DecidableEq α]

structure Mem (α : Type*) where
  par : α → α
  rank : α → Nat

/-- djset.hpp:6: fresh objects are their own parents, with rank 0. -/
def init : Mem α := ⟨id, fun _ => 0⟩

/-- djset.hpp:10-13 `clear`. -/
def clear (m : Mem α) (x : α) : Mem α := ⟨Function.update m.par x x, Function.update m.rank x 0⟩

/-- djset.hpp:16-21 `find`, with path compression. -/
def find : Nat → (α → α) → α → Outcome (α × (α → α))
  | 0, _, _ => .nofuel
  | f + 1, par, x =>
    if par x = x then .ok (x, par)
    else (find f par (par x)).map fun r => (r.1, Function.update r.2 x r.1)

/-- djset.hpp:25-37 `join`.  Note line 35: it is the rank of `*this`, not of the root, that is
incremented. -/
def join (f : Nat) (m : Mem α) (x o : α) : Outcome (Mem α) :=
  (find f m.par x).bind fun r1 =>
  (find f r1.2 o).map fun r2 =>
    let root := r1.1
    let oroot := r2.1
    if root = oroot then ⟨r2.2, m.rank⟩
    else if m.rank root < m.rank oroot then ⟨Function.update r2.2 root oroot, m.rank⟩
    else ⟨Function.update r2.2 oroot root,
      if m.rank root = m.rank oroot then Function.update m.rank x (m.rank x + 1) else m.rank⟩

/-! ## Helper lemmas -/

/-- Following parents from `x` ends in `r`. -/
inductive Root (par : α → α) : α → α → Prop where
  | base {x} (h : par x = x) : Root par x x
  | step {x r} (h : par x ≠ x) (rest : Root par (par x) r) : Root par x r

theorem Root.unique {par : α → α} {x r s : α} (h1 : Root par x r) (h2 : Root par x s) : r = s := by
  induction h1 with
  | base h =>
    cases h2 with
    | base _ => rfl
    | step h' _ => exact absurd h h'
  | step h rest ih =>
    cases h2 with
    | base h' => exact absurd h' h
    | step h' rest' => exact ih rest'

theorem Root.fix {par : α → α} {x r : α} (h : Root par x r) : par r = r := by
  induction h with
  | base h => exact h
  | step _ _ ih => exact ih

/-- Redirecting `x` to its own root changes nobody's root. -/
theorem root_compress {par : α → α} {x r : α} (h : Root par x r) (hx : par x ≠ x) {y s : α}
    (hy : Root par y s) : Root (Function.update par x r) y s := by
  have hrx : r ≠ x := by
    rintro rfl
    exact hx h.fix
  have hr : Root (Function.update par x r) r r := .base (by rw [Function.update_of_ne hrx]; exact h.fix)
  induction hy with
  | @base y hy' =>
    have : y ≠ x := by rintro rfl; exact hx hy'
    exact .base (by rw [Function.update_of_ne this]; exact hy')
  | @step y s hy' rest ih =>
    by_cases e : y = x
    · subst e
      have := h.unique (Root.step hy' rest)
      subst this
      exact .step (by rw [Function.update_self]; exact hrx) (by rw [Function.update_self]; exact hr)
    · exact .step (by rw [Function.update_of_ne e]; exact hy') (by rw [Function.update_of_ne e]; exact ih)

/-- `find` returns the root, leaves all roots alone and ends. -/
theorem find_spec {par : α → α} {x r : α} (h : Root par x r) :
    ∃ N par', (∀ f, N ≤ f → find f par x = .ok (r, par')) ∧
      ∀ y s, Root par y s → Root par' y s := by
  induction h with
  | base h =>
    refine ⟨1, par, fun f hf => ?_, fun _ _ h => h⟩
    obtain ⟨f, rfl⟩ : ∃ g, f = g + 1 := ⟨f - 1, by omega⟩
    simp [find, h]
  | @step x r h rest ih =>
    obtain ⟨N, par', h1, h2⟩ := ih
    refine ⟨N + 1, if par' x = x then Function.update par' x r else Function.update par' x r,
      fun f hf => ?_, fun y s hy => ?_⟩
    · obtain ⟨f, rfl⟩ : ∃ g, f = g + 1 := ⟨f - 1, by omega⟩
      simp only [find, h, if_false, h1 f (by omega), Outcome.map_ok, ite_self]
    · rw [ite_self]
      apply root_compress (h2 x r (.step h rest)) _ (h2 y s hy)
      intro e
      have := (h2 x r (.step h rest)).unique (.base e)
      subst this
      exact h (Root.fix (Root.step h rest))

theorem find_mono {f : Nat} {par : α → α} {x : α} {r} (h : find f par x = .ok r) (k : Nat) :
    find (f + k) par x = .ok r := by
  induction f generalizing x r with
  | zero => simp [find] at h
  | succ f ih =>
    rw [show f + 1 + k = f + k + 1 by omega]
    simp only [find] at h ⊢
    split_ifs at h ⊢
    · exact h
    · rw [Outcome.map_eq_ok] at h ⊢
      obtain ⟨a, h1, h2⟩ := h
      exact ⟨a, ih h1, h2⟩

theorem join_mono {f : Nat} {m : Mem α} {x o : α} {r} (h : join f m x o = .ok r) (k : Nat) :
    join (f + k) m x o = .ok r := by
  unfold join at *
  rw [Outcome.bind_eq_ok] at h ⊢
  obtain ⟨a, h1, h2⟩ := h
  rw [Outcome.map_eq_ok] at h2
  obtain ⟨b, h3, h4⟩ := h2
  exact ⟨a, find_mono h1 k, by rw [Outcome.map_eq_ok]; exact ⟨b, find_mono h3 k, h4⟩⟩

/-- Hanging one root below another. -/
theorem root_link {par : α → α} {a b : α} (ha : par a = a) (hb : par b = b) (hab : a ≠ b) {y s : α}
    (hy : Root par y s) : Root (Function.update par a b) y (if s = a then b else s) := by
  have hbb : Root (Function.update par a b) b b :=
    .base (by rw [Function.update_of_ne (Ne.symm hab)]; exact hb)
  induction hy with
  | @base y h =>
    by_cases e : y = a
    · subst e
      rw [if_pos rfl]
      exact .step (by rw [Function.update_self]; exact Ne.symm hab)
        (by rw [Function.update_self]; exact hbb)
    · rw [if_neg e]
      exact .base (by rw [Function.update_of_ne e]; exact h)
  | @step y s h rest ih =>
    have e : y ≠ a := by rintro rfl; exact h ha
    exact .step (by rw [Function.update_of_ne e]; exact h) (by rw [Function.update_of_ne e]; exact ih)

/-- The effect of `join` on roots. -/
theorem join_spec {m : Mem α} {x o rx ro : α} (hx : Root m.par x rx) (ho : Root m.par o ro) :
    ∃ N m' a b, (∀ f, N ≤ f → join f m x o = .ok m') ∧
      ((a = rx ∧ b = ro) ∨ (a = ro ∧ b = rx)) ∧
      ∀ y s, Root m.par y s → Root m'.par y (if s = a then b else s) := by
  obtain ⟨N1, p1, h1, k1⟩ := find_spec hx
  obtain ⟨N2, p2, h2, k2⟩ := find_spec (k1 _ _ ho)
  have K : ∀ y s, Root m.par y s → Root p2 y s := fun y s h => k2 _ _ (k1 _ _ h)
  by_cases e : rx = ro
  · subst e
    refine ⟨max N1 N2, ⟨p2, m.rank⟩, rx, rx, fun f hf => ?_, Or.inl ⟨rfl, rfl⟩, fun y s hy => ?_⟩
    · simp [join, h1 f (by omega), h2 f (by omega)]
    · have := K y s hy
      split_ifs with h
      · rw [← h]; exact this
      · exact this
  · have frx := (K _ _ hx).fix
    have fro := (K _ _ ho).fix
    by_cases hr : m.rank rx < m.rank ro
    · refine ⟨max N1 N2, ⟨Function.update p2 rx ro, m.rank⟩, rx, ro, fun f hf => ?_,
        Or.inl ⟨rfl, rfl⟩, fun y s hy => root_link frx fro e (K y s hy)⟩
      simp [join, h1 f (by omega), h2 f (by omega), e, hr]
    · refine ⟨max N1 N2, ⟨Function.update p2 ro rx, if m.rank rx = m.rank ro then
          Function.update m.rank x (m.rank x + 1) else m.rank⟩, ro, rx, fun f hf => ?_,
        Or.inr ⟨rfl, rfl⟩, fun y s hy => root_link fro frx (Ne.symm e) (K y s hy)⟩
      simp [join, h1 f (by omega), h2 f (by omega), e, hr]

end Verif.Djset
