import Verif.Domains.DockRobot

/-!
# The distance table of the dock robot

`shortest` is the Floyd–Warshall algorithm.  The specification is the cost of routes through the locations.
-/

namespace Verif.DockRobot

open Verif

/-- A route of the robot between two locations and its cost. -/
inductive Route (I : Inst) : Nat → Nat → ℚ → Prop
  | nil {i : Nat} : i < I.nlocs → Route I i i 0
  | cons {i j k : Nat} {c : ℚ} : i < I.nlocs → Route I j k c → Route I i k (I.adj i j + c)

/-- The entries of the adjacency matrix are not negative. -/
def AdjOk (I : Inst) : Prop := ∀ i j, i < I.nlocs → j < I.nlocs → 0 ≤ I.adj i j

theorem Route.left {I : Inst} {i j : Nat} {c : ℚ} (h : Route I i j c) : i < I.nlocs := by
  cases h <;> assumption

theorem Route.right {I : Inst} {i j : Nat} {c : ℚ} (h : Route I i j c) : j < I.nlocs := by
  induction h <;> assumption

theorem Route.append {I : Inst} {i j k : Nat} {c c' : ℚ} (h : Route I i j c) (h' : Route I j k c') :
    Route I i k (c + c') := by
  induction h with
  | nil => rwa [zero_add]
  | cons hi _ ih =>
    rw [add_assoc]
    exact .cons hi (ih h')

/-! ## The loops -/

theorem relax_apply {k i : Nat} {m : Nat → Nat → ℚ} {j a b : Nat} :
    relax k i m j a b = if a = i ∧ b = j then min (m i j) (m i k + m k j) else m a b := by
  rw [relax]
  by_cases h : m i k + m k j < m i j
  · rw [if_pos h, min_eq_right h.le]
    by_cases ha : a = i
    · subst ha
      rw [Function.update_self]
      by_cases hb : b = j
      · subst hb
        rw [Function.update_self, if_pos ⟨rfl, rfl⟩]
      · rw [Function.update_of_ne hb, if_neg (fun e => hb e.2)]
    · rw [Function.update_of_ne ha, if_neg (fun e => ha e.1)]
  · rw [if_neg h, min_eq_left (not_lt.1 h)]
    split
    · rename_i e
      rw [e.1, e.2]
    · rfl

/-- The loop over `j`. -/
theorem fold_j {k i : Nat} (L : List Nat) (m : Nat → Nat → ℚ) (hk : m k k = 0) (a b : Nat) :
    L.foldl (relax k i) m a b = if a = i ∧ b ∈ L then min (m i b) (m i k + m k b) else m a b := by
  induction L generalizing m with
  | nil => simp
  | cons j L ih =>
    have e1 : relax k i m j k k = 0 := by
      rw [relax_apply]
      split
      · rename_i e
        rw [← e.1, ← e.2, hk]
        simp
      · exact hk
    have e2 : relax k i m j i k = m i k := by
      rw [relax_apply]
      split
      · rename_i e
        rw [← e.2, hk, add_zero, min_self]
      · rfl
    have e3 : ∀ b, relax k i m j k b = m k b := by
      intro b
      rw [relax_apply]
      split
      · rename_i e
        rw [← e.1, ← e.2, hk, zero_add, min_self]
      · rfl
    rw [List.foldl_cons, ih _ e1, e2, e3, relax_apply, relax_apply]
    by_cases ha : a = i
    · subst ha
      by_cases hb : b = j
      · subst hb
        simp only [true_and, List.mem_cons, true_or, if_true]
        split
        · rw [min_assoc, min_self]
        · rfl
      · simp only [true_and, hb, List.mem_cons, false_or, if_false]
    · simp [ha]

/-- The loop over `i`. -/
theorem fold_i {k : Nat} (R L : List Nat) (m : Nat → Nat → ℚ) (hk : m k k = 0) (a b : Nat) :
    L.foldl (fun m i => R.foldl (relax k i) m) m a b =
      if a ∈ L ∧ b ∈ R then min (m a b) (m a k + m k b) else m a b := by
  induction L generalizing m with
  | nil => simp
  | cons i L ih =>
    have e : ∀ a b, R.foldl (relax k i) m a b = if a = i ∧ b ∈ R then min (m i b) (m i k + m k b) else m a b :=
      fold_j R m hk
    have e2 : ∀ a, R.foldl (relax k i) m a k = m a k := by
      intro a
      rw [e]
      split
      · rename_i h
        rw [h.1, hk, add_zero, min_self]
      · rfl
    have e3 : ∀ b, R.foldl (relax k i) m k b = m k b := by
      intro b
      rw [e]
      split
      · rename_i h
        rw [← h.1, hk, zero_add, min_self]
      · rfl
    rw [List.foldl_cons, ih _ (by rw [e2, hk]), e2, e3, e]
    by_cases ha : a = i
    · subst ha
      by_cases hb : b ∈ R
      · simp only [hb, and_true, true_and, List.mem_cons, true_or, if_true]
        split
        · rw [min_assoc, min_self]
        · rfl
      · simp [hb]
    · simp [ha]

/-- The loop body for `k`. -/
def stage (n : Nat) (m : Nat → Nat → ℚ) (k : Nat) : Nat → Nat → ℚ :=
  (List.range n).foldl (fun m i => (List.range n).foldl (relax k i) m) m

theorem stage_eq {n k : Nat} {m : Nat → Nat → ℚ} (hk : m k k = 0) {a b : Nat} (ha : a < n) (hb : b < n) :
    stage n m k a b = min (m a b) (m a k + m k b) := by
  rw [stage, fold_i _ _ _ hk, if_pos ⟨List.mem_range.2 ha, List.mem_range.2 hb⟩]

theorem shortest_eq (I : Inst) : shortest I =
    (List.range I.nlocs).foldl (stage I.nlocs) fun i j => if i = j then 0 else I.adj i j := rfl

/-- What holds of the table after the locations in `K` have been used as intermediate locations. -/
structure Dist (I : Inst) (K : Nat → Prop) (m : Nat → Nat → ℚ) : Prop where
  diag : ∀ i, i < I.nlocs → m i i = 0
  edge : ∀ i j, i < I.nlocs → j < I.nlocs → i ≠ j → m i j ≤ I.adj i j
  tri : ∀ k, K k → ∀ i j, i < I.nlocs → j < I.nlocs → m i j ≤ m i k + m k j
  route : ∀ i j, i < I.nlocs → j < I.nlocs → Route I i j (m i j)
  nonneg : ∀ i j, i < I.nlocs → j < I.nlocs → 0 ≤ m i j

theorem Dist.stage {I : Inst} {K : Nat → Prop} {m : Nat → Nat → ℚ} (h : Dist I K m) (hK : ∀ k, K k → k < I.nlocs)
    {k : Nat} (hk : k < I.nlocs) : Dist I (fun x => K x ∨ x = k) (stage I.nlocs m k) := by
  have hkk := h.diag k hk
  have e : ∀ {a b}, a < I.nlocs → b < I.nlocs → DockRobot.stage I.nlocs m k a b = min (m a b) (m a k + m k b) :=
    fun ha hb => stage_eq hkk ha hb
  refine ⟨fun i hi => ?_, fun i j hi hj hn => ?_, fun k' hk' i j hi hj => ?_, fun i j hi hj => ?_, fun i j hi hj => ?_⟩
  · rw [e hi hi, h.diag i hi]
    have := h.nonneg i k hi hk
    have := h.nonneg k i hk hi
    exact min_eq_left (by linarith)
  · rw [e hi hj]
    exact (min_le_left _ _).trans (h.edge i j hi hj hn)
  · rcases hk' with hk' | rfl
    · have hk1 := hK k' hk'
      rw [e hi hj, e hi hk1, e hk1 hj]
      have t1 := h.tri k' hk' i j hi hj
      have t2 := h.tri k' hk' k j hk hj
      have t3 := h.tri k' hk' i k hi hk
      have n1 := h.nonneg k k' hk hk1
      have n2 := h.nonneg k' k hk1 hk
      rcases min_choice (m i k') (m i k + m k k') with e1 | e1 <;>
        rcases min_choice (m k' j) (m k' k + m k j) with e2 | e2 <;> rw [e1, e2]
      · exact (min_le_left _ _).trans t1
      · exact (min_le_right _ _).trans (by linarith)
      · exact (min_le_right _ _).trans (by linarith)
      · exact (min_le_right _ _).trans (by linarith)
    · rw [e hi hj, e hi hk, e hk hj, hkk]
      simp
  · rw [e hi hj]
    rcases min_choice (m i j) (m i k + m k j) with e1 | e1 <;> rw [e1]
    · exact h.route i j hi hj
    · exact (h.route i k hi hk).append (h.route k j hk hj)
  · rw [e hi hj]
    exact le_min (h.nonneg i j hi hj) (add_nonneg (h.nonneg i k hi hk) (h.nonneg k j hk hj))

theorem dist_shortest {I : Inst} (hA : AdjOk I) : Dist I (fun k => k < I.nlocs) (shortest I) := by
  rw [shortest_eq]
  have h0 : Dist I (fun _ => False) fun i j => if i = j then 0 else I.adj i j := by
    refine ⟨fun i _ => by simp, fun i j _ _ hn => by simp [hn], fun k hk => hk.elim, fun i j hi hj => ?_,
      fun i j hi hj => ?_⟩
    · split
      · rename_i e
        rw [← e]
        exact .nil hi
      · have := Route.cons hi (.nil hj) (I := I)
        rwa [add_zero] at this
    · split
      · exact le_refl _
      · exact hA i j hi hj
  have : ∀ (L : List Nat) (K : Nat → Prop) (m : Nat → Nat → ℚ), (∀ k ∈ L, k < I.nlocs) → (∀ k, K k → k < I.nlocs) →
      Dist I K m → Dist I (fun k => K k ∨ k ∈ L) (L.foldl (stage I.nlocs) m) := by
    intro L
    induction L with
    | nil =>
      intro K m _ _ h
      simpa using h
    | cons k L ih =>
      intro K m hL hK h
      have := ih (fun x => K x ∨ x = k) (DockRobot.stage I.nlocs m k) (fun x hx => hL x (by simp [hx]))
        (fun x hx => hx.elim (hK x) fun e => e ▸ hL k (by simp)) (h.stage hK (hL k (by simp)))
      rw [List.foldl_cons]
      simpa only [List.mem_cons, or_assoc] using this
  have := this (List.range I.nlocs) (fun _ => False) _ (fun k hk => List.mem_range.1 hk) (fun k hk => hk.elim) h0
  simpa only [false_or, List.mem_range] using this

/-- The table holds the costs of the cheapest routes. -/
theorem shortest_le {I : Inst} (hA : AdjOk I) {i j : Nat} {c : ℚ} (h : Route I i j c) : shortest I i j ≤ c := by
  have hd := dist_shortest hA
  induction h with
  | nil hi => rw [hd.diag _ hi]
  | @cons i j k c hi hr ih =>
    have h1 := hd.tri j hr.left i k hi hr.right
    have h2 : shortest I i j ≤ I.adj i j := by
      by_cases e : i = j
      · subst e
        rw [hd.diag _ hi]
        exact hA i i hi hi
      · exact hd.edge i j hi hr.left e
    linarith

end Verif.DockRobot
