import Verif.Structs.BinHeap

/-!
# Frame lemmas of the binary heap: only contained elements are told an index
-/

namespace Verif.BinHeap

variable {α : Type*} [DecidableEq α] {n : Nat}

theorem swap_frame (m : Mem α n) (i j : Nat) (hi : i < n) (hj : j < n) (x : α)
    (hx : x ∉ m.v.toList) : (m.swap i j hi hj).ind x = m.ind x := by
  have h1 : x ≠ m.v[i] := fun e => hx (by rw [e]; exact Vector.mem_toList_iff.2 (Vector.getElem_mem hi))
  have h2 : x ≠ m.v[j] := fun e => hx (by rw [e]; exact Vector.mem_toList_iff.2 (Vector.getElem_mem hj))
  simp only [Mem.swap]
  rw [Function.update_of_ne h2, Function.update_of_ne h1]

theorem swap_notMem (m : Mem α n) (i j : Nat) (hi : i < n) (hj : j < n) (x : α)
    (hx : x ∉ m.v.toList) : x ∉ (m.swap i j hi hj).v.toList := by
  have := Vector.perm_iff_toList_perm.1 (Vector.swap_perm (xs := m.v) hi hj)
  exact fun h => hx (this.mem_iff.1 h)

theorem pushdown_frame (pred : α → α → Bool) (m : Mem α n) (i : Nat) (hi : i < n) (x : α)
    (hx : x ∉ m.v.toList) : (pushdown pred m i hi).1.ind x = m.ind x := by
  induction m, i, hi using pushdown.induct (pred := pred) with
  | case1 m i hi s h =>
    unfold pushdown
    simp only [s] at h
    simp only [h, dif_pos]
  | case2 m i hi s h ih =>
    unfold pushdown
    simp only [s] at h
    simp only [h, dif_neg, not_false_eq_true]
    rw [ih (swap_notMem m _ _ _ _ x hx), swap_frame m _ _ _ _ x hx]

theorem pullup_frame (pred : α → α → Bool) (m : Mem α n) (i : Nat) (hi : i < n) (x : α)
    (hx : x ∉ m.v.toList) : (pullup pred m i hi).1.ind x = m.ind x := by
  induction m, i, hi using pullup.induct (pred := pred) with
  | case1 m hi => unfold pullup; simp
  | case2 m i hi h0 hp h ih =>
    unfold pullup
    simp only [h0, h, dif_neg, not_false_eq_true, if_true]
    rw [ih (swap_notMem m _ _ _ _ x hx), swap_frame m _ _ _ _ x hx]
  | case3 m i hi h0 hp h =>
    unfold pullup
    simp only [h0, h, dif_neg, not_false_eq_true]
    rfl

theorem heapify_frame (pred : α → α → Bool) (m : Mem α n) (i : Nat) (hi : i < n) (x : α)
    (hx : x ∉ m.v.toList) : (heapify pred m i hi).ind x = m.ind x := by
  induction i generalizing m with
  | zero => unfold heapify; exact pushdown_frame pred m 0 hi x hx
  | succ i ih =>
    unfold heapify
    rw [ih, pushdown_frame pred m _ hi x hx]
    exact fun h => hx ((pushdown_perm pred m _ hi).mem_iff.1 h)

theorem push_frame (pred : α → α → Bool) (h : Heap α) (e x : α) (hx : x ∉ h.data) (hxe : x ≠ e) :
    (push pred h e).ind x = h.ind x := by
  unfold push
  have : x ∉ (Heap.mem (⟨h.data ++ [e], Function.update h.ind e (h.data.length : Int)⟩ : Heap α)).v.toList := by
    rw [mem_toList]; simp [hx, hxe]
  refine (pullup_frame pred _ _ _ x this).trans ?_
  simp only [Heap.mem]
  rw [Function.update_of_ne hxe]

theorem pop_frame (pred : α → α → Bool) (h : Heap α) (x : α) (hx : x ∉ h.data) :
    (pop pred h).2.ind x = h.ind x := by
  unfold pop
  split
  · rfl
  · rename_i y hd
    rw [hd, List.mem_singleton] at hx
    exact Function.update_of_ne hx _ _
  · rename_i a b rest hd
    rw [hd, List.mem_cons, not_or] at hx
    have hl : (b :: rest).getLast (by simp) ∈ b :: rest := List.getLast_mem _
    have hxl : x ≠ (b :: rest).getLast (by simp) := fun e => hx.2 (e ▸ hl)
    dsimp only
    rw [Function.update_of_ne hx.1]
    refine (pushdown_frame pred _ _ _ x ?_).trans ?_
    · rw [mem_toList, List.mem_cons, not_or]
      exact ⟨hxl, fun h => hx.2 (List.dropLast_subset _ h)⟩
    · simp only [Heap.mem]
      rw [Function.update_of_ne hxl]

theorem update_frame (pred : α → α → Bool) (h h' : Heap α) (i : Int) (x : α) (hx : x ∉ h.data)
    (e : update pred h i = .ok h') : h'.ind x = h.ind x := by
  unfold update at e
  split_ifs at e
  simp only [Outcome.ok.injEq] at e
  subst e
  have hm : x ∉ h.mem.v.toList := by rw [mem_toList]; exact hx
  refine (pushdown_frame pred _ _ _ x ?_).trans (pullup_frame pred _ _ _ x hm)
  exact fun h => hm ((pullup_perm pred _ _ _).mem_iff.1 h)

theorem reinit_frame (pred : α → α → Bool) (h : Heap α) (x : α) (hx : x ∉ h.data) :
    (reinit pred h).ind x = h.ind x := by
  unfold reinit
  split_ifs
  · rfl
  · refine (heapify_frame pred _ _ _ x ?_).trans ?_
    · rw [mem_toList]; exact hx
    · simp only [Heap.mem]
      exact setinds_notMem _ _ _ _ hx

end Verif.BinHeap
