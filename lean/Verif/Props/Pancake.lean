import Verif.Domains.Pancake
import Verif.Props.Idastar

/-!
# C43, C44: the pancake domain

`flipped k c` is the stack `c` with positions `0..k` upside down, `gaps c` the number of neighbours (the plate being
the last one) that are not adjacent in size.
-/

namespace Verif.Pancake

open Verif.Search

variable {N : Nat}

/-- **C43 (flip).** Every operator of a state can be applied without an assertion failing and without an access out of
bounds; it turns the stack above and including position `op` upside down; and the destructor of the edge restores
cakes and heuristic. -/
theorem c43_flip (s : State N) {op : Int} (ho : op ∈ (dom N).ops s) :
    ∃ t, edge s op = .ok t ∧ (dom N).app s op = t ∧ undo t s.h op = .ok s ∧
      (∀ i : Fin N, ∀ j : Fin N, i.val + j.val = op → t.cakes i = s.cakes j) ∧
      ∀ i : Fin N, op < i.val → t.cakes i = s.cakes i := by
  have ho' := mem_ops.1 ho
  have hk : op.toNat < N := by omega
  have he : ∃ t, edge s op = .ok t ∧ t.cakes = flipped op.toNat s.cakes := by
    unfold edge
    rw [gap_ok _ hk, Outcome.bind_ok, flip_ok ho'.1 ho'.2, Outcome.bind_ok, gap_ok _ hk, Outcome.map_ok]
    exact ⟨_, rfl, rfl⟩
  obtain ⟨t, h1, h2⟩ := he
  refine ⟨t, h1, by show val (edge s op) s = t; rw [h1]; rfl, ?_, ?_, ?_⟩
  · unfold undo
    rw [h2, flip_ok ho'.1 ho'.2, flipped_flipped hk]
    rfl
  · rintro ⟨i, hi⟩ ⟨j, hj⟩ hij
    dsimp only at hij
    rw [h2, flipped_le _ hi (by omega) hk]
    congr 2
    omega
  · rintro ⟨i, hi⟩ hop
    dsimp only at hop
    rw [h2, flipped_gt _ hi (by omega)]

/-- **C43 (gaps).** The heuristic value carried along is the number of gaps: for the initial state computed from any
input, and after any sequence of operators. -/
theorem c43_gaps (init : Fin N → Int) :
    ∃ s0, initialstate init = .ok s0 ∧ s0.cakes = init ∧
      ∀ s c, Walk (dom N) s0 s c → s.h = gaps s.cakes := by
  refine ⟨⟨init, gaps init⟩, ?_, rfl, fun s c hw => ?_⟩
  · unfold initialstate
    rw [ngaps_ok]
    rfl
  · exact hw.inv (I := HOk) hok_app rfl

/-- **C43 (involution).** The reverse operator of an edge leads back, with the same cost. -/
theorem c43_reverse (s : State N) (hs : s.h = gaps s.cakes) {op : Int} (ho : op ∈ (dom N).ops s) :
    (dom N).rev s op ∈ (dom N).ops ((dom N).app s op) ∧ (dom N).app ((dom N).app s op) ((dom N).rev s op) = s ∧
    (dom N).cost ((dom N).app s op) ((dom N).rev s op) = (dom N).cost s op := by
  have ho' := mem_ops.1 ho
  have ho2 : op ∈ (dom N).ops ((dom N).app s op) := mem_ops.2 ho'
  refine ⟨ho2, ?_, rfl⟩
  show (dom N).app ((dom N).app s op) op = s
  rw [app_ok ho2 (hok_app s hs op ho), app_ok ho hs]
  dsimp only
  rw [flipped_flipped (by omega), ← hs]

/-- **C43 (equality).** The equality test, which ignores the heuristic field, identifies exactly equal states. -/
theorem c43_eq {s t : State N} (hs : s.h = gaps s.cakes) (ht : t.h = gaps t.cakes) : s.eq t = true ↔ s = t := by
  unfold State.eq
  rw [decide_eq_true_eq]
  constructor
  · intro h
    have hc : s.cakes = t.cakes := funext h
    cases s; cases t
    simp only [State.mk.injEq]
    dsimp only at hs ht hc
    exact ⟨hc, by rw [hs, ht, hc]⟩
  · rintro rfl i; rfl

theorem domOk {s0 : State N} (hs : s0.h = gaps s0.cakes) : DomOk (dom N) s0 :=
  DomOk.of_inv (I := HOk) hs hok_app (fun _ _ _ _ => Int.one_nonneg)
    (fun s hs op ho _ => (c43_reverse s hs ho).2.1) (fun s _ h => by
      have := mem_ops.1 h
      simp only [dom] at this
      omega)

/-- **C44 (goal).** On a stack of `N` different cakes `0..N-1` the goal test `h == 0` recognises exactly the sorted
stack. -/
theorem c44_goal {s : State N} (hs : s.h = gaps s.cakes) (hp : IsPerm s.cakes) :
    (dom N).goal s = true ↔ ∀ i : Fin N, s.cakes i = i.val := by
  have : (dom N).goal s = true ↔ gaps s.cakes = 0 := by
    simp only [dom, decide_eq_true_eq, hs]
    omega
  rw [this, gaps_zero_iff hp]
  rfl

/-- The stack stays a stack of the same cakes. -/
theorem c44_perm {s0 s : State N} {c : Int} (hs : s0.h = gaps s0.cakes) (hp : IsPerm s0.cakes)
    (hw : Walk (dom N) s0 s c) : IsPerm s.cakes := by
  refine (hw.inv (I := fun s => HOk s ∧ IsPerm s.cakes) ?_ ⟨hs, hp⟩).2
  rintro s ⟨h1, h2⟩ op ho
  refine ⟨hok_app s h1 op ho, ?_⟩
  rw [app_ok ho h1]
  have := mem_ops.1 ho
  exact isPerm_flipped (by omega) h2

/-- **C44 (consistency).** One flip lowers the heuristic by at most one, its cost, and raises it by at most one. -/
theorem c44_consistent {s : State N} (hs : s.h = gaps s.cakes) {op : Int} (ho : op ∈ (dom N).ops s) :
    s.h ≤ (dom N).cost s op + ((dom N).app s op).h ∧ ((dom N).app s op).h ≤ (dom N).cost s op + s.h := by
  have ho' := mem_ops.1 ho
  have hk : op.toNat < N := by omega
  rw [app_ok ho hs, hs]
  have h1 := gaps_flipped_le hk s.cakes
  have h2 := gaps_flipped_le hk (flipped op.toNat s.cakes)
  rw [flipped_flipped hk] at h2
  simp only [dom]
  omega

theorem admissible {s0 : State N} (hs : s0.h = gaps s0.cakes) : Admissible (dom N) s0 State.h 0 :=
  Admissible.of_consistent (I := HOk) hs hok_app (fun _ hs _ ho => (c44_consistent hs ho).1)
    (fun s _ hg => by simpa [dom] using hg)

/-- **C44 (admissibility).** The heuristic never exceeds the number of flips of any plan that sorts the stack. -/
theorem c44_admissible {s0 : State N} (hs : s0.h = gaps s0.cakes) (hp : IsPerm s0.cakes) {ops : List Int}
    {ss : List (State N)} {c : Int} (hpl : Plan (dom N) s0 ops ss c) {t : State N}
    (ht : (s0 :: ss).getLast? = some t) (hsorted : ∀ i : Fin N, t.cakes i = i.val) : s0.h ≤ ops.length := by
  have hlen : c = ops.length := by
    clear ht hs hp
    induction hpl with
    | nil => rfl
    | cons _ _ ih => rw [ih]; simp only [dom, List.length_cons]; push_cast; ring
  have hw := hpl.last_walk ht
  have hg : (dom N).goal t = true := (c44_goal (hw.inv hok_app hs) (c44_perm hs hp hw)).2 hsorted
  have := (admissible hs).2 s0 0 (.nil s0) t c hw hg
  omega

/-- **C44 (A* end to end).** If A* with this heuristic returns a path from the initial state of a stack of `N` different
cakes, then the path sorts the stack, and no shorter sequence of flips does. -/
theorem c44_astar {init : Fin N → Int} (hp : IsPerm init) {s0 : State N} (h0 : initialstate init = .ok s0) {l : Limit}
    {st : St (State N) Int Int Int} {r : List (State N) × List Int}
    (hr : Run (dom N) (astar State.h) s0 l st r) (hne : r ≠ ([], [])) :
    (∃ ss c, r.1.reverse = s0 :: ss ∧ Plan (dom N) s0 r.2.reverse ss c ∧
      ∃ t, r.1.head? = some t ∧ ∀ i : Fin N, t.cakes i = i.val) ∧
    ∀ ops ss c t, Plan (dom N) s0 ops ss c → (s0 :: ss).getLast? = some t → (∀ i : Fin N, t.cakes i = i.val) →
      r.2.length ≤ ops.length := by
  obtain ⟨s1, e1, e2, e3⟩ := c43_gaps init
  rw [h0] at e1
  injection e1 with e1
  subst e1
  have hs : s0.h = gaps s0.cakes := e3 s0 0 (.nil s0)
  have hp0 : IsPerm s0.cakes := by rw [e2]; exact hp
  have hlen : ∀ (s : State N) (os : List Int) (ss : List (State N)) (c : Int), Plan (dom N) s os ss c → c = os.length := by
    intro s os ss c h
    induction h with
    | nil => rfl
    | cons _ _ ih => rw [ih]; simp only [dom, List.length_cons]; push_cast; ring
  obtain ⟨c, ⟨ss, h1, h2, t, h3, h4⟩, hopt⟩ := c30_optimal (domOk hs).undo (admissible hs) hr hne
  have hlast : (s0 :: ss).getLast? = some t := by rw [← h1, List.getLast?_reverse, h3]
  have hw := h2.last_walk hlast
  refine ⟨⟨ss, c, h1, h2, t, h3, (c44_goal (e3 t c hw) (c44_perm hs hp0 hw)).1 h4⟩, ?_⟩
  intro ops ss' c' t' hpl ht' hsorted
  have hw' := hpl.last_walk ht'
  have := hopt ops ss' t' c' hpl ht' ((c44_goal (e3 t' c' hw') (c44_perm hs hp0 hw')).2 hsorted)
  rw [hlen _ _ _ _ h2, hlen _ _ _ _ hpl, List.length_reverse] at this
  omega

/-- Specification: turning over the `k + 1` topmost cakes of a stack. -/
def turn (l : List Int) (k : Int) : List Int := (l.take (k.toNat + 1)).reverse ++ l.drop (k.toNat + 1)

/-- Specification: the sorted stack. -/
def sorted (N : Nat) : List Int := (List.range N).map fun i : Nat => (i : Int)

theorem turn_ofFn {k : Int} (hk : k.toNat < N) (c : Fin N → Int) :
    turn (List.ofFn c) k = List.ofFn (flipped k.toNat c) := by
  unfold turn
  generalize k.toNat = m at hk
  refine List.ext_getElem (by simp; omega) (fun i h1 h2 => ?_)
  rw [List.length_ofFn] at h2
  rw [List.getElem_ofFn]
  by_cases h : i ≤ m
  · rw [flipped_le c h2 h hk, List.getElem_append_left (by simp; omega), List.getElem_reverse, List.getElem_take,
      List.getElem_ofFn]
    congr 2
    rw [List.length_take, List.length_ofFn]
    omega
  · rw [flipped_gt c h2 (by omega), List.getElem_append_right (by simp; omega), List.getElem_drop, List.getElem_ofFn]
    congr 2
    rw [List.length_reverse, List.length_take, List.length_ofFn]
    omega

theorem sorted_iff {c : Fin N → Int} : List.ofFn c = sorted N ↔ ∀ i : Fin N, c i = i.val := by
  have : sorted N = List.ofFn (fun i : Fin N => (i.val : Int)) := by
    refine List.ext_getElem (by simp [sorted]) (fun i h1 h2 => ?_)
    simp [sorted]
  rw [this, List.ofFn_inj, funext_iff]

/-- Plans and sequences of flips are the same. -/
theorem plan_turns {s : State N} {ops : List Int} {ss : List (State N)} {c : Int} (hs : s.h = gaps s.cakes)
    (h : Plan (dom N) s ops ss c) {t : State N} (ht : (s :: ss).getLast? = some t) :
    (∀ k ∈ ops, 0 < k ∧ k < N) ∧ ops.foldl turn (List.ofFn s.cakes) = List.ofFn t.cakes := by
  induction h with
  | nil =>
    rw [List.getLast?_singleton, Option.some.injEq] at ht
    rw [ht]
    exact ⟨by simp, rfl⟩
  | @cons s o os ss c ho h ih =>
    rw [List.getLast?_cons_cons] at ht
    have ho' := mem_ops.1 ho
    obtain ⟨h1, h2⟩ := ih (hok_app s hs o ho) ht
    refine ⟨by simpa using ⟨ho', h1⟩, ?_⟩
    rw [List.foldl_cons, turn_ofFn (by omega), ← h2, app_ok ho hs]

theorem turns_plan {s : State N} (hs : s.h = gaps s.cakes) (ks : List Int) (hk : ∀ k ∈ ks, 0 < k ∧ k < N) :
    ∃ ss c t, Plan (dom N) s ks ss c ∧ (s :: ss).getLast? = some t ∧
      List.ofFn t.cakes = ks.foldl turn (List.ofFn s.cakes) := by
  induction ks generalizing s with
  | nil => exact ⟨[], 0, s, .nil s, rfl, rfl⟩
  | cons k ks ih =>
    have h0 := hk k (by simp)
    have ho : k ∈ (dom N).ops s := mem_ops.2 h0
    obtain ⟨ss, c, t, h1, h2, h3⟩ := ih (hok_app s hs k ho) (fun k' h' => hk k' (by simp [h']))
    refine ⟨_, _, t, .cons ho h1, by rw [List.getLast?_cons_cons]; exact h2, ?_⟩
    rw [h3, List.foldl_cons, turn_ofFn (by omega), app_ok ho hs]

/-- **C44 (shortest solutions, in terms of stacks only).** The operators returned by A* sort the given stack when the
cakes are turned over accordingly, and no sequence of flips of at least two cakes that sorts it is shorter. -/
theorem c44_shortest {init : Fin N → Int} (hp : IsPerm init) {s0 : State N} (h0 : initialstate init = .ok s0) {l : Limit}
    {st : St (State N) Int Int Int} {r : List (State N) × List Int}
    (hr : Run (dom N) (astar State.h) s0 l st r) (hne : r ≠ ([], [])) :
    (∀ k ∈ r.2, 0 < k ∧ k < N) ∧ r.2.reverse.foldl turn (List.ofFn init) = sorted N ∧
    ∀ ks : List Int, (∀ k ∈ ks, 0 < k ∧ k < N) → ks.foldl turn (List.ofFn init) = sorted N →
      r.2.length ≤ ks.length := by
  obtain ⟨s1, e1, e2, e3⟩ := c43_gaps init
  rw [h0] at e1
  injection e1 with e1
  subst e1
  have hs : s0.h = gaps s0.cakes := e3 s0 0 (.nil s0)
  obtain ⟨⟨ss, c, h1, h2, t, h3, h4⟩, h5⟩ := c44_astar hp h0 hr hne
  have hlast : (s0 :: ss).getLast? = some t := by rw [← h1, List.getLast?_reverse, h3]
  obtain ⟨g1, g2⟩ := plan_turns hs h2 hlast
  rw [e2] at g2
  refine ⟨fun k hk => g1 k (by simpa using hk), by rw [g2]; exact sorted_iff.2 h4, fun ks hks hsort => ?_⟩
  obtain ⟨ss', c', t', f1, f2, f3⟩ := turns_plan hs ks hks
  rw [e2, hsort] at f3
  exact h5 ks ss' c' t' f1 f2 (sorted_iff.1 f3)

/-- **C43 (the operators).** A stack of `N` cakes offers exactly the flips of 2 to `N` cakes. -/
theorem c43_ops (s : State N) (op : Int) : op ∈ (dom N).ops s ↔ 0 < op ∧ op < N := mem_ops

/-- **C44 (input is not validated).** The constructor accepts any numbers; for a stack that is not a permutation the
goal test can succeed although the stack is not sorted. -/
theorem c44_unvalidated : ∃ s0 : State 3, initialstate ![2, 1, 2] = .ok s0 ∧ (dom 3).goal s0 = true ∧
    ¬ ∀ i : Fin 3, s0.cakes i = i.val :=
  ⟨⟨![2, 1, 2], 0⟩, by decide +kernel, by decide, by decide⟩

/-! ### Examples -/

-- flipping the first three cakes of 3 1 2 0
example : (edge (⟨![3, 1, 2, 0], 3⟩ : State 4) 2).map (fun s => (List.ofFn s.cakes, s.h)) = .ok ([2, 1, 3, 0], 3) := by
  decide +kernel
example : initialstate (![3, 1, 2, 0] : Fin 4 → Int) = .ok ⟨![3, 1, 2, 0], 3⟩ := by decide +kernel
example : IsPerm (![3, 1, 2, 0] : Fin 4 → Int) := by
  refine ⟨?_, by decide⟩
  unfold Function.Injective
  decide
-- turning over three cakes of 2 0 1 3 and then two
example : [(2 : Int), 1].foldl turn [2, 0, 1, 3] = sorted 4 := by decide
-- a run of A* that sorts a stack of four
example : (run (dom 4) (astar State.h) 50 (init (dom 4) (astar State.h) ⟨![2, 0, 1, 3], 2⟩)).2.isSome = true := by
  decide +kernel

end Verif.Pancake
