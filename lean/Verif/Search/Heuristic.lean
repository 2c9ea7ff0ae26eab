import Verif.Props.Astar

/-!
# Establishing what the search theorems assume of a domain

`I` is an invariant of the states reached from the initial state.
-/

namespace Verif.Search

variable {S O C : Type*} [AddCommGroup C] [LinearOrder C] [IsOrderedAddMonoid C] {d : Dom S O C} {s0 : S}

theorem Walk.inv {I : S → Prop} (hI : ∀ s, I s → ∀ o ∈ d.ops s, I (d.app s o)) {s t : S} {c : C}
    (h : Walk d s t c) (hs : I s) : I t := by
  induction h with
  | nil => exact hs
  | snoc _ ho ih => exact hI _ ih _ ho

/-- A consistent function drops along a walk by at most the cost of the walk. -/
theorem Walk.consistent {I : S → Prop} (hI : ∀ s, I s → ∀ o ∈ d.ops s, I (d.app s o)) {h : S → C}
    (hc : ∀ s, I s → ∀ o ∈ d.ops s, h s ≤ d.cost s o + h (d.app s o)) {s t : S} {c : C}
    (hw : Walk d s t c) (hs : I s) : h s ≤ c + h t := by
  induction hw with
  | nil => rw [zero_add]
  | @snoc t c o hw ho ih =>
    have := hc _ (hw.inv hI hs) _ ho
    calc h s ≤ c + h t := ih
      _ ≤ c + (d.cost t o + h (d.app t o)) := by gcongr
      _ = _ := by rw [add_assoc]

/-- A consistent heuristic that is constant on goals is admissible. -/
theorem Admissible.of_consistent {I : S → Prop} (h0 : I s0) (hI : ∀ s, I s → ∀ o ∈ d.ops s, I (d.app s o))
    {h : S → C} {k : C} (hc : ∀ s, I s → ∀ o ∈ d.ops s, h s ≤ d.cost s o + h (d.app s o))
    (hg : ∀ s, I s → d.goal s = true → h s = k) : Admissible d s0 h k := by
  refine ⟨fun t c hw ht => (hg t (hw.inv hI h0) ht).ge, fun s c0 hs t c hw ht => ?_⟩
  have h1 := hs.inv hI h0
  rw [← hg t (hw.inv hI h1) ht]
  exact hw.consistent hI hc h1

theorem DomOk.of_inv {I : S → Prop} (h0 : I s0) (hI : ∀ s, I s → ∀ o ∈ d.ops s, I (d.app s o))
    (hcost : ∀ s, I s → ∀ o ∈ d.ops s, 0 ≤ d.cost s o)
    (hrev : ∀ s, I s → ∀ o ∈ d.ops s, d.rev s o ∈ d.ops (d.app s o) → d.app (d.app s o) (d.rev s o) = s)
    (hnop : ∀ s, I s → d.nop ∉ d.ops s) : DomOk d s0 :=
  ⟨fun s _ hw => hcost s (hw.inv hI h0), fun s _ hw => hrev s (hw.inv hI h0), fun s _ hw => hnop s (hw.inv hI h0)⟩

end Verif.Search
