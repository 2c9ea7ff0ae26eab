import Verif.Structs.KdTree
import Mathlib.Algebra.Field.Rat
import Mathlib.Algebra.Order.Ring.Rat
import Mathlib.Tactic.NormNum

/-!
# C12, C13: the k-d tree

The specification is the list of inserted bindings and the squared Euclidean distance.
-/

namespace Verif.KdTree

variable {F : Type*} [Field F] [LinearOrder F] [IsStrictOrderedRing F] {k : Nat} {D : Type*}

/-- The tree after inserting the bindings in order. -/
def build (ins : List (Pt F k × D)) : Kd F k D := ins.foldl (fun t x => insert t x.1 x.2) init

/-- Specification: squared Euclidean distance. -/
def dist2 (p q : Pt F k) : F := ∑ i, (p i - q i) ^ 2

theorem build_spec (ins : List (Pt F k × D)) : (toList (build ins).root).Perm ins ∧
    Ordered (build ins).root ∧ (build ins).num = ins.length := by
  induction ins using List.reverseRecOn with
  | nil => simp [build, init, toList, Ordered]
  | append_singleton l x ih =>
    obtain ⟨h1, h2, h3⟩ := ih
    have e : build (l ++ [x]) = insert (build l) x.1 x.2 := by simp [build]
    rw [e]
    refine ⟨?_, insertAt_ordered h2 _ _ _, by simp [insert, h3]⟩
    refine (insertAt_perm _ _ _ _).trans ?_
    refine (h1.cons _).trans ?_
    exact (List.perm_append_singleton x l).symm

/-- **C12.** `nearest` returns NULL exactly on the empty tree, and otherwise an inserted binding
whose point is at minimal distance over all inserted points. -/
theorem c12_nearest (ins : List (Pt F k × D)) (q : Pt F k) :
    (nearest (build ins) q = none ↔ ins = []) ∧
      ∀ x, nearest (build ins) q = some x → x ∈ ins ∧ ∀ y ∈ ins, dist2 x.1 q ≤ dist2 y.1 q := by
  obtain ⟨h1, h2, -⟩ := build_spec ins
  have h := nearestAt_spec h2 q ⊤
  refine ⟨⟨fun hn => ?_, fun e => ?_⟩, fun x hx => ?_⟩
  · obtain ⟨-, h⟩ := h.1 hn
    rcases ins with _ | ⟨y, l⟩
    · rfl
    · have := h y (h1.mem_iff.2 List.mem_cons_self)
      exact absurd le_top (not_le.2 this)
  · subst e; rfl
  · obtain ⟨a, b, -, d⟩ := h.2 x hx
    refine ⟨h1.mem_iff.1 a, fun y hy => ?_⟩
    have := d y (h1.mem_iff.2 hy)
    rw [b, WithTop.coe_le_coe, sqdist_eq, sqdist_eq] at this
    exact this

/-- **C13.** `size` is the number of insertions. -/
theorem c13_size (ins : List (Pt F k × D)) : (build ins).num = ins.length :=
  (build_spec ins).2.2

/-- **C13.** Iterating from `begin()` to `end()` ends, is never undefined, and visits every
inserted binding exactly as often as it was inserted. -/
theorem c13_iterate (ins : List (Pt F k × D)) :
    ∃ xs : List (Pt F k × D), xs.Perm ins ∧
      ∀ f, ins.length < f → iterAll f (iterBegin (build ins)) = .ok xs := by
  obtain ⟨h1, -, -⟩ := build_spec ins
  refine ⟨toList (build ins).root, h1, fun f hf => ?_⟩
  have e : ((iterBegin (build ins)).map toList).flatten = toList (build ins).root := by
    unfold iterBegin
    split <;> simp_all [toList]
  rw [← e]
  apply iterAll_spec
  · unfold iterBegin
    split
    · simp
    · rename_i t hne
      intro t ht
      simp only [List.mem_singleton] at ht
      subst ht
      cases hr : (build ins).root with
      | nil => exact absurd hr hne
      | node => simp [IsNode]
  · rw [e, h1.length_eq]; exact hf

/-- **C13.** `depth` is at most the number of points and at least its logarithm. -/
theorem c13_depth (ins : List (Pt F k × D)) :
    depthAt (build ins).root ≤ ins.length ∧ ins.length < 2 ^ depthAt (build ins).root := by
  have := depthAt_le (build ins).root
  rw [(build_spec ins).1.length_eq] at this
  exact this

/-! ### Concrete cases -/

/-- Points in the plane; the nearest to (6,5) is (7,5). -/
def sample : List (Pt ℚ 1 × Nat) :=
  [(![3, 3], 0), (![7, 5], 1), (![1, 9], 2), (![8, 1], 3), (![3, 8], 4)]

example : nearest (build sample) ![6, 5] = some (![7, 5], 1) := by
  decide +kernel

example : ∃ x, nearest (build sample) ![6, 5] = some x ∧ x ∈ sample := by
  rcases h : nearest (build sample) ![6, 5] with _ | x
  · exact absurd ((c12_nearest _ _).1.1 h) (by simp [sample])
  · exact ⟨x, rfl, ((c12_nearest _ _).2 x h).1⟩

end Verif.KdTree
