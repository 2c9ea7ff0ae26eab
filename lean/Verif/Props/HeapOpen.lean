import Verif.Structs.BinHeapFrame
import Verif.Props.BinHeap

/-!
# C10 for the heap based open list (search/search.hpp:96-143), and C02 for absent elements

`OpenList::mem(n)` is `Ops::getind(n) != -1`; nodes are created with index -1.
-/

namespace Verif.BinHeap

variable {α κ : Type*} [DecidableEq α]

/-- search.hpp:128-130 `mem`. -/
def openMem (h : Heap α) (n : α) : Bool := h.ind n != -1

/-- search.hpp:117-122 `post_update` (the caller has already changed the priority of `n`). -/
def openPostUpdate (pred : α → α → Bool) (h : Heap α) (n : α) : Outcome (Heap α) :=
  if h.ind n < 0 then .ok (push pred h n) else update pred h (h.ind n)

theorem step_absent {lt : κ → κ → Bool} {s s' : St α κ} {op : Op α κ} {r}
    (hop : op ≠ .clear) (step : exec lt s op = .ok (s', r))
    (habs : ∀ x, x ∉ s.heap.data → s.heap.ind x = -1) : ∀ x, x ∉ s'.heap.data → s'.heap.ind x = -1 := by
  intro x hx
  have upd : ∀ (pred : α → α → Bool) (i : Int) (h' : Heap α), BinHeap.update pred s.heap i = .ok h' →
      x ∉ h'.data → h'.ind x = -1 := by
    intro pred i h' e hx'
    have hx0 : x ∉ s.heap.data := by
      have e' := e
      unfold BinHeap.update at e'
      split_ifs at e'
      simp only [Outcome.ok.injEq] at e'
      subst e'
      intro hc
      refine hx' ((pushdown_perm _ _ _ _).mem_iff.2 ((pullup_perm _ _ _ _).mem_iff.2 ?_))
      rw [mem_toList]; exact hc
    rw [update_frame pred _ _ _ x hx0 e]
    exact habs x hx0
  cases op with
  | push y k =>
    simp only [exec, Outcome.ok.injEq, Prod.mk.injEq] at step
    obtain ⟨rfl, -⟩ := step
    dsimp only at hx ⊢
    rw [(push_perm _ _ _).mem_iff, List.mem_cons, not_or] at hx
    rw [push_frame _ _ _ _ hx.2 hx.1]
    exact habs x hx.2
  | pop =>
    simp only [exec, Outcome.ok.injEq, Prod.mk.injEq] at step
    obtain ⟨rfl, hr⟩ := step
    dsimp only at hx ⊢
    by_cases hx0 : x ∈ s.heap.data
    · rcases hp : (BinHeap.pop (predOf lt s.key) s.heap).1 with _ | y
      · have hd := (pop_none _ _).1 hp
        rw [hd] at hx0
        simp at hx0
      · have := (pop_perm _ _ _ hp).mem_iff.1 hx0
        rcases List.mem_cons.1 this with rfl | h
        · exact pop_ind_popped _ _ _ hp
        · exact absurd h hx
    · rw [pop_frame _ _ _ hx0]; exact habs x hx0
  | update y k =>
    simp only [exec, Outcome.map_eq_ok, Prod.mk.injEq] at step
    obtain ⟨h', e, rfl, -⟩ := step
    exact upd _ _ h' e hx
  | pushupdate y k =>
    simp only [exec, Outcome.map_eq_ok, Prod.mk.injEq] at step
    obtain ⟨h', e, rfl, -⟩ := step
    unfold BinHeap.pushupdate at e
    split_ifs at e with hneg
    · simp only [Outcome.ok.injEq] at e
      subst e
      dsimp only at hx ⊢
      rw [(push_perm _ _ _).mem_iff, List.mem_cons, not_or] at hx
      rw [push_frame _ _ _ _ hx.2 hx.1]
      exact habs x hx.2
    · exact upd _ _ h' e hx
  | clear => exact absurd rfl hop
  | append xs f =>
    simp only [exec, Outcome.ok.injEq, Prod.mk.injEq] at step
    obtain ⟨rfl, -⟩ := step
    dsimp only at hx ⊢
    unfold BinHeap.append at hx ⊢
    rw [(reinit_perm _ _).mem_iff] at hx
    rw [reinit_frame _ _ _ hx]
    exact habs x fun h => hx (List.mem_append_left _ h)
  | rekey f =>
    simp only [exec, Outcome.ok.injEq, Prod.mk.injEq] at step
    obtain ⟨rfl, -⟩ := step
    dsimp only at hx ⊢
    rw [(reinit_perm _ _).mem_iff] at hx
    rw [reinit_frame _ _ _ hx]
    exact habs x hx

theorem run_absent {lt : κ → κ → Bool} {s s' : St α κ} {l} (run : Run lt s l s')
    (hc : ∀ e ∈ l, e.1 ≠ .clear) (habs : ∀ x, x ∉ s.heap.data → s.heap.ind x = -1) :
    ∀ x, x ∉ s'.heap.data → s'.heap.ind x = -1 := by
  induction run with
  | nil s => exact habs
  | cons legal step rest ih =>
    exact ih (fun e he => hc e (List.mem_cons_of_mem _ he))
      (step_absent (hc _ List.mem_cons_self) step habs)

/-- **C10, partial (heap based list) / C02.** In every history without `clear`, starting with
nodes whose index is -1, `mem` is exact: contained elements carry their position, all others -1.
(Missing: histories with `clear`; there it is false, see `c10_heap_clear_stale`.) -/
theorem c10_heap_mem_partial {lt : κ → κ → Bool} (sw : StrictWeak lt) (key : α → κ) {l}
    {s : St α κ} (run : Run lt ⟨⟨[], fun _ => -1⟩, key⟩ l s) (hc : ∀ e ∈ l, e.1 ≠ .clear) (x : α) :
    openMem s.heap x = true ↔ x ∈ s.heap.data := by
  constructor
  · intro h
    by_contra hx
    have := run_absent run hc (fun _ _ => rfl) x hx
    simp [openMem, this] at h
  · intro hx
    obtain ⟨i, hi, -⟩ := c02_index_exact sw _ key run x hx
    simp only [openMem, hi, bne_iff_ne, ne_eq]
    omega

/-- **C10 is false for the heap based list too**: after `clear` every formerly contained node is
still reported as a member of the (empty) list. -/
theorem c10_heap_clear_stale {lt : κ → κ → Bool} (sw : StrictWeak lt) (ind : α → Int) (key : α → κ) {l}
    {s : St α κ} (run : Run lt ⟨⟨[], ind⟩, key⟩ l s) (x : α) (hx : x ∈ s.heap.data) :
    (clear s.heap).data = [] ∧ openMem (clear s.heap) x = true := by
  obtain ⟨i, hi, -⟩ := c02_index_exact sw _ key run x hx
  refine ⟨rfl, ?_⟩
  simp only [openMem, clear, hi, bne_iff_ne, ne_eq]
  omega

/-- The consequence for a search that clears its open list and keeps its nodes (as beam search
does): `post_update` on a node that was open before stops the program. -/
theorem c10_heap_post_update_after_clear {lt : κ → κ → Bool} (sw : StrictWeak lt) (ind : α → Int)
    (key : α → κ) {l} {s : St α κ} (run : Run lt ⟨⟨[], ind⟩, key⟩ l s) (x : α)
    (hx : x ∈ s.heap.data) (pred : α → α → Bool) : openPostUpdate pred (clear s.heap) x = .fatal := by
  obtain ⟨i, hi, -⟩ := c02_index_exact sw _ key run x hx
  have h1 : (clear s.heap).ind x = i := hi
  unfold openPostUpdate
  rw [h1, if_neg (by omega)]
  unfold BinHeap.update
  simp [clear]

/-- A concrete case: pushing one node, clearing; the node is still reported. -/
example : ∃ s : St Nat Nat, Run (fun a b => decide (a < b)) ⟨⟨[], fun _ => -1⟩, fun _ => 0⟩
    [(.push 10 5, none)] s ∧ s.heap.data = [10] ∧ openMem (clear s.heap) 10 = true := by
  refine ⟨_, .cons (by simp [Legal]) rfl (.nil _), ?_, ?_⟩
  · simp [BinHeap.push, pullup, Mem.toHeap, Heap.mem]
  · simp [BinHeap.push, pullup, Mem.toHeap, Heap.mem, openMem, clear]

end Verif.BinHeap
