import Verif.Props.GridNav
import Verif.Props.Concrete

/-!
# C77: A\*, weighted A\* and greedy search on grid maps, end to end

`Step`, `Path` and `Cheapest` say what a path on a map is without reference to operators or tables of moves.
-/

namespace Verif.GridNav

open Verif.Search

/-- Displacement from `a` to `b`. -/
def disp (m : GMap) (a b : Nat) : Int × Int := ((coord m b).1 - (coord m a).1, (coord m b).2 - (coord m a).2)

/-- A step from `a` to a neighbour `b` that may be entered; sideways or straight only on four-way maps; past corners that
may be entered on octile maps.  It costs 1, or the square root of 2 on a diagonal; with life costs times the number of
rows below the row of `a`. -/
structure Step (m : GMap) (a b : Nat) (c : ℝ) : Prop where
  king : King (disp m a b)
  moves : disp m a b ≠ (0, 0)
  four : m.mvs = fourway → (disp m a b).1 = 0 ∨ (disp m a b).2 = 0
  enter : Enter (m.flags a) (m.flags b)
  corner : m.mvs = octile → (disp m a b).1 ≠ 0 → (disp m a b).2 ≠ 0 →
    Enter (m.flags a) (m.flags ((a : Int) + (disp m a b).1).toNat) ∧
    Enter (m.flags a) (m.flags ((a : Int) + m.w * (disp m a b).2).toNat)
  cost : c = (if (disp m a b).1 ≠ 0 ∧ (disp m a b).2 ≠ 0 then Real.sqrt 2 else 1) *
    (if m.lifecost = true then (m.h : ℝ) - 2 - (a / m.w : Nat) else 1)

/-- A path: the cells after the first one, and the cost. -/
inductive Path (m : GMap) : Nat → List Nat → ℝ → Prop
  | nil (a : Nat) : Path m a [] 0
  | cons {a b : Nat} {c c' : ℝ} {ss : List Nat} : Step m a b c → Path m b ss c' → Path m a (b :: ss) (c + c')

/-- The cells `p`, last one first, are a path from `start` to `finish` of cost `c`. -/
def IsPath (m : GMap) (start finish : Nat) (p : List Nat) (c : ℝ) : Prop :=
  ∃ ss, p.reverse = start :: ss ∧ Path m start ss c ∧ p.head? = some finish

variable {m : GMap}

theorem step_of_op (hm : MapOk m) {finish a : Nat} (hi : Interior m a) {op : Int} (ho : op ∈ (dom m finish).ops a) :
    Step m a ((dom m finish).app a op) ((dom m finish).cost a op) := by
  obtain ⟨mv, h1, h2, -, h4, h5, h6⟩ := app_ok hm hi ho
  obtain ⟨mv', g1, -, -, g4⟩ := c45_app hm hi ho
  have hd : disp m a ((dom m finish).app a op) = (mv.dx, mv.dy) := by
    unfold disp
    rw [h5]
    ext <;> dsimp only <;> ring
  refine ⟨by rw [hd]; exact (mvs_king hm h2).2.2, ?_, ?_, g4, ?_, ?_⟩
  · rw [hd]
    rcases hm.mvs with e | e | e <;> rw [e] at h2 <;>
      simp only [octile, eightway, fourway, Move.mk', List.mem_cons, List.not_mem_nil, or_false] at h2 <;>
      rcases h2 with rfl | rfl | rfl | rfl | rfl | rfl | rfl | rfl <;> decide
  · rw [hd]
    intro e
    rw [e] at h2
    simp only [fourway, Move.mk', List.mem_cons, List.not_mem_nil, or_false] at h2
    rcases h2 with rfl | rfl | rfl | rfl <;> decide
  · rw [hd]
    intro e k1 k2
    exact c45_corner e hm hi ho h1 ⟨k1, k2⟩
  · rw [hd, h6]
    unfold edgecost Cost.val Move.diag
    have hy : (((coord m a).2 : Int) : ℝ) = ((a / m.w : Nat) : ℝ) := by unfold coord; push_cast; rfl
    by_cases hl : m.lifecost = true <;> by_cases hg : mv.dx ≠ 0 ∧ mv.dy ≠ 0
    · simp only [hl, hg, if_true, decide_true, ne_eq, not_false_eq_true, and_self]
      push_cast
      rw [hy]; ring
    · simp only [hl, hg, if_true, decide_false, if_false, Bool.false_eq_true]
      push_cast
      rw [hy]; ring
    · simp only [hl, hg, if_false, if_true, decide_true, ne_eq, not_false_eq_true, and_self, Bool.false_eq_true]
      push_cast; ring
    · simp only [hl, hg, decide_false, if_false, Bool.false_eq_true]
      push_cast; ring

theorem op_of_step (hm : MapOk m) {finish a b : Nat} (hi : Interior m a) {c : ℝ} (h : Step m a b c) :
    ∃ op ∈ (dom m finish).ops a, (dom m finish).app a op = b := by
  have hk := h.king
  have h0 := h.moves
  have h4 := h.four
  have hcn := h.corner
  have hb : ((a : Int) + delta m (disp m a b)).toNat = b := by
    obtain ⟨-, -, g⟩ := step_coord hi hk
    apply coord_inj (m := m)
    rw [g]
    unfold disp
    ext <;> dsimp only <;> ring
  generalize disp m a b = d at *
  obtain ⟨dx, dy⟩ := d
  have key : ∃ (i : Nat) (mv : Move), m.mvs[i]? = some mv ∧ mv.dx = dx ∧ mv.dy = dy ∧ ∀ e ∈ mv.chk, e = (dx, dy) ∨
      (m.mvs = octile ∧ dx ≠ 0 ∧ dy ≠ 0 ∧ (e = (dx, 0) ∨ e = (0, dy))) := by
    obtain ⟨k1, k2, k3, k4⟩ := hk
    dsimp only at k1 k2 k3 k4
    have e1 : dx = -1 ∨ dx = 0 ∨ dx = 1 := by omega
    have e2 : dy = -1 ∨ dy = 0 ∨ dy = 1 := by omega
    rcases hm.mvs with e | e | e <;> rw [e] at h4 ⊢
    · have : ∃ i < 8, ∃ mv : Move, octile[i]? = some mv ∧ mv.dx = dx ∧ mv.dy = dy := by
        rcases e1 with rfl | rfl | rfl <;> rcases e2 with rfl | rfl | rfl
        · exact ⟨3, by decide, _, rfl, rfl, rfl⟩
        · exact ⟨0, by decide, _, rfl, rfl, rfl⟩
        · exact ⟨6, by decide, _, rfl, rfl, rfl⟩
        · exact ⟨2, by decide, _, rfl, rfl, rfl⟩
        · exact absurd rfl h0
        · exact ⟨5, by decide, _, rfl, rfl, rfl⟩
        · exact ⟨4, by decide, _, rfl, rfl, rfl⟩
        · exact ⟨1, by decide, _, rfl, rfl, rfl⟩
        · exact ⟨7, by decide, _, rfl, rfl, rfl⟩
      obtain ⟨i, -, mv, q1, q2, q3⟩ := this
      refine ⟨i, mv, q1, q2, q3, ?_⟩
      have hmem := List.mem_of_getElem? q1
      subst q2 q3
      simp only [octile, Move.mk', List.mem_cons, List.not_mem_nil, or_false] at hmem
      rcases hmem with rfl | rfl | rfl | rfl | rfl | rfl | rfl | rfl <;> simp
    · rcases e1 with rfl | rfl | rfl <;> rcases e2 with rfl | rfl | rfl
      · exact ⟨3, _, rfl, rfl, rfl, by simp [Move.mk']⟩
      · exact ⟨6, _, rfl, rfl, rfl, by simp [Move.mk']⟩
      · exact ⟨2, _, rfl, rfl, rfl, by simp [Move.mk']⟩
      · exact ⟨5, _, rfl, rfl, rfl, by simp [Move.mk']⟩
      · exact absurd rfl h0
      · exact ⟨4, _, rfl, rfl, rfl, by simp [Move.mk']⟩
      · exact ⟨1, _, rfl, rfl, rfl, by simp [Move.mk']⟩
      · exact ⟨7, _, rfl, rfl, rfl, by simp [Move.mk']⟩
      · exact ⟨0, _, rfl, rfl, rfl, by simp [Move.mk']⟩
    · have h4' := h4 rfl
      dsimp only at h4'
      rcases e1 with rfl | rfl | rfl <;> rcases e2 with rfl | rfl | rfl
      · omega
      · exact ⟨2, _, rfl, rfl, rfl, by simp [Move.mk']⟩
      · omega
      · exact ⟨1, _, rfl, rfl, rfl, by simp [Move.mk']⟩
      · exact absurd rfl h0
      · exact ⟨0, _, rfl, rfl, rfl, by simp [Move.mk']⟩
      · omega
      · exact ⟨3, _, rfl, rfl, rfl, by simp [Move.mk']⟩
      · omega
  obtain ⟨i, mv, q1, q2, q3, q4⟩ := key
  refine ⟨i, (c45_ops hm hi _).2 ⟨by omega, mv, by rwa [Int.toNat_natCast], fun e he => ?_⟩, ?_⟩
  · rcases q4 e he with rfl | ⟨w1, w2, w3, rfl | rfl⟩
    · rw [hb]; exact h.enter
    · have := (hcn w1 w2 w3).1
      simpa only [delta, mul_zero, add_zero] using this
    · have := (hcn w1 w2 w3).2
      simpa only [delta, zero_add] using this
  · have : (dom m finish).app a i = ((a : Int) + delta m (mv.dx, mv.dy)).toNat := by
      simp only [dom, Int.toNat_natCast, q1]
    rw [this, q2, q3, hb]

theorem path_of_plan (hm : MapOk m) {finish a : Nat} (hi : Interior m a) {ops : List Int} {ss : List Nat} {c : ℝ}
    (h : Plan (dom m finish) a ops ss c) : Path m a ss c := by
  induction h with
  | nil => exact .nil _
  | cons ho _ ih =>
    obtain ⟨_, _, h1, _⟩ := c45_app hm hi ho
    exact .cons (step_of_op hm hi ho) (ih h1)

theorem plan_of_path (hm : MapOk m) (finish : Nat) {a : Nat} (hi : Interior m a) {ss : List Nat} {c : ℝ}
    (h : Path m a ss c) : ∃ ops, Plan (dom m finish) a ops ss c := by
  induction h with
  | nil => exact ⟨[], .nil _⟩
  | @cons a b c c' ss hs _ ih =>
    obtain ⟨op, h1, rfl⟩ := op_of_step (finish := finish) hm hi hs
    obtain ⟨_, _, h2, _⟩ := c45_app hm hi h1
    obtain ⟨ops, h3⟩ := ih h2
    have e : c = (dom m finish).cost a op := hs.cost.trans (step_of_op hm hi h1).cost.symm
    rw [e]
    exact ⟨op :: ops, .cons h1 h3⟩

theorem solution_iff (hm : MapOk m) {start finish : Nat} (hs : Interior m start) {p : List Nat × List Int} {c : ℝ}
    (h : Solution (dom m finish) start p c) : IsPath m start finish p.1 c := by
  obtain ⟨ss, h1, h2, t, h3, h4⟩ := h
  refine ⟨ss, h1, path_of_plan hm hs h2, ?_⟩
  rw [h3, of_decide_eq_true h4]

theorem solvable_iff (hm : MapOk m) {start finish : Nat} (hs : Interior m start) :
    Solvable (dom m finish) start ↔ ∃ p c, IsPath m start finish p c := by
  constructor
  · rintro ⟨ops, ss, t, c, h1, h2, h3⟩
    refine ⟨(start :: ss).reverse, c, ss, by simp, path_of_plan hm hs h1, ?_⟩
    rw [List.head?_reverse, h2, of_decide_eq_true h3]
  · rintro ⟨p, c, ss, h1, h2, h3⟩
    obtain ⟨ops, h4⟩ := plan_of_path hm finish hs h2
    refine ⟨ops, ss, finish, c, h4, ?_, by simp [dom]⟩
    rw [← h1, List.getLast?_reverse, h3]

/-- The reachable cells are on the map. -/
theorem reachable_cells (hm : MapOk m) {start finish : Nat} (hs : Interior m start) :
    ∀ s g, Walk (dom m finish) start s g → s ∈ Finset.range (m.w * m.h) := fun s g hw =>
  Finset.mem_range.2 (coord_lt (c45_walk hm hs hw))

/-- **C77 (A\*).** On every map of at most 2^29 cells, for all interior cells `start` and `finish`, A* on the binary heap and
the hash table returns: a path from `start` to `finish` that no other path undercuts if there is a path, the empty path if
there is none. -/
theorem c77_astar (hm : MapOk m) (hsize : m.w * m.h ≤ 2 ^ 29) {start finish : Nat} (hs : Interior m start)
    (hf : Interior m finish) {hash : Nat → Nat} {x : Lists (BinHeap.Heap Nat)}
    (hx : HeapObj Nat Int (astar (hval m finish)).pred x) :
    ∃ F c p, (∀ fuel ≥ F, csearch (dom m finish) (astar (hval m finish)) (heapImpl (astar (hval m finish)).pred) hash x
        ⟨0, 0⟩ (fun _ => false) fuel start = .ok (c, p)) ∧
      ((∃ q c, IsPath m start finish q c) →
        ∃ c, IsPath m start finish p.1 c ∧ ∀ q c', IsPath m start finish q c' → c ≤ c') ∧
      ((¬ ∃ q c, IsPath m start finish q c) → p = ([], [])) := by
  obtain ⟨F, c, p, h1, h2, h3⟩ := c67_astar_heap (hash := hash) (domOk (finish := finish) hm hs).undo (admissible hm hf hs) hx
    (reachable_cells hm hs) (by rwa [Finset.card_range])
  rw [solvable_iff hm hs] at h2 h3
  refine ⟨F, c, p, h1, fun h => ?_, h3⟩
  obtain ⟨c, k1, k2⟩ := h2 h
  refine ⟨c, solution_iff hm hs k1, ?_⟩
  rintro q c' ⟨ss, j1, j2, j3⟩
  obtain ⟨ops, j4⟩ := plan_of_path hm finish hs j2
  exact k2 ops ss finish c' j4 (by rw [← j1, List.getLast?_reverse, j3]) (by simp [dom])

/-- **C77 (weighted A\*).** The same for weighted A* with a weight from 1: the path costs at most the weight times any
other.  On four-way maps with life costs the goal must not be in the last row (there the heuristic is -1 at the goal). -/
theorem c77_wastar (hm : MapOk m) (hsize : m.w * m.h ≤ 2 ^ 29) {start finish : Nat} (hs : Interior m start)
    (hf : Interior m finish) (hg : ¬ (m.mvs = fourway ∧ m.lifecost = true ∧ finish / m.w + 2 = m.h)) {wt : ℝ} (hwt : 1 ≤ wt)
    {hash : Nat → Nat} {x : Lists (BinHeap.Heap Nat)}
    (hx : HeapObj Nat Int (wastar wt (hval m finish) false).pred x) :
    ∃ F c p, (∀ fuel ≥ F, csearch (dom m finish) (wastar wt (hval m finish) false)
        (heapImpl (wastar wt (hval m finish) false).pred) hash x ⟨0, 0⟩ (fun _ => false) fuel start = .ok (c, p)) ∧
      ((∃ q c, IsPath m start finish q c) →
        ∃ c, IsPath m start finish p.1 c ∧ ∀ q c', IsPath m start finish q c' → c ≤ wt * c') ∧
      ((¬ ∃ q c, IsPath m start finish q c) → p = ([], [])) := by
  have h0 : hval m finish finish = 0 := by
    rw [c46_goal hf, if_neg]
    rintro ⟨k1, k2, k3⟩
    refine hg ⟨?_, k2, k3⟩
    rcases hm.mvs with e | e | e
    · rw [e] at k1; exact absurd k1 (by decide)
    · rw [e] at k1; exact absurd k1 (by decide)
    · exact e
  have hadm := admissible hm hf hs
  rw [h0] at hadm
  obtain ⟨F, c, p, h1, h2, h3⟩ := c67_wastar (hash := hash) (domOk (finish := finish) hm hs).undo hadm hwt hx
    (reachable_cells hm hs) (by rwa [Finset.card_range])
  rw [solvable_iff hm hs] at h2 h3
  refine ⟨F, c, p, h1, fun h => ?_, h3⟩
  obtain ⟨c, k1, k2⟩ := h2 h
  refine ⟨c, solution_iff hm hs k1, ?_⟩
  rintro q c' ⟨ss, j1, j2, j3⟩
  obtain ⟨ops, j4⟩ := plan_of_path hm finish hs j2
  exact k2 ops ss finish c' j4 (by rw [← j1, List.getLast?_reverse, j3]) (by simp [dom])

/-- **C77 (greedy search).** The same for greedy search, without a bound on the cost. -/
theorem c77_greedy (hm : MapOk m) (hsize : m.w * m.h ≤ 2 ^ 29) {start finish : Nat} (hs : Interior m start)
    {dd : Bool} {hash : Nat → Nat} {x : Lists (BinHeap.Heap Nat)}
    (hx : HeapObj Nat Int (greedy (hval m finish) dd).pred x) :
    ∃ F c p, (∀ fuel ≥ F, csearch (dom m finish) (greedy (hval m finish) dd) (heapImpl (greedy (hval m finish) dd).pred) hash
        x ⟨0, 0⟩ (fun _ => false) fuel start = .ok (c, p)) ∧
      ((∃ q c, IsPath m start finish q c) → ∃ c, IsPath m start finish p.1 c) ∧
      ((¬ ∃ q c, IsPath m start finish q c) → p = ([], [])) := by
  obtain ⟨F, c, p, h1, h2, h3⟩ := c67_greedy_heap (hash := hash) (domOk (finish := finish) hm hs).undo hx
    (reachable_cells hm hs) (by rwa [Finset.card_range])
  rw [solvable_iff hm hs] at h2 h3
  refine ⟨F, c, p, h1, fun h => ?_, h3⟩
  obtain ⟨c, k1⟩ := h2 h
  exact ⟨c, solution_iff hm hs k1⟩

/-! ### Examples -/

/-- Around the tree on the octile map: four straight steps. -/
example : ∃ p c, IsPath (ex octile false) 6 8 p c := by
  have hm := ex_ok octile false (Or.inl rfl)
  have i : ∀ a ∈ [6, 11, 12, 13, 8], Interior (ex octile false) a := by simp [Interior, ex]
  refine (solvable_iff hm (i 6 (by simp))).1 ?_
  have st : ∀ a ∈ [6, 11, 12, 13, 8], ∀ (op : Nat) (mv : Move), (ex octile false).mvs[op]? = some mv → ok (ex octile false) a mv = .ok true →
      (op : Int) ∈ (dom (ex octile false) 8).ops a := fun a ha op mv h1 h2 =>
    mem_ops.2 ⟨by omega, mv, by rwa [Int.toNat_natCast], h2⟩
  have h := Plan.cons (st 6 (by simp) 5 _ rfl (by decide)) (Plan.cons (st 11 (by simp) 1 _ rfl (by decide))
    (Plan.cons (st 12 (by simp) 1 _ rfl (by decide)) (Plan.cons (st 13 (by simp) 2 _ rfl (by decide)) (Plan.nil 8))))
  exact ⟨_, _, 8, _, h, rfl, by simp [dom]⟩

end Verif.GridNav
