import Verif.Search.Lss

/-!
# The nodes of a local search of LSS-LRTA*

Invariants that hold whatever the heuristic is: the parent pointers form a tree of walks from the root, and the table
has exactly the nodes.  They are enough to show that `move` makes legal steps.
-/

namespace Verif.Lss

open Verif.Search

variable {S O C : Type*} [DecidableEq S] [AddCommGroup C] [LinearOrder C]

/-! ## Heap facts -/

theorem pushupd_el {κ : Type*} {lt : κ → κ → Bool} {key : Nat → κ} {q q' : BinHeap.Heap Nat} {n : Nat}
    (h : pushupd lt key q n = .ok q') {m : Nat} (hm : m ∈ q'.data) : m = n ∨ m ∈ q.data := by
  rw [pushupd, BinHeap.pushupdate] at h
  split at h
  · injection h with h
    subst h
    exact List.mem_cons.1 ((BinHeap.push_perm _ _ _).mem_iff.1 hm)
  · rw [BinHeap.update] at h
    split at h
    · exact absurd h (by simp)
    · split at h
      · injection h with h
        subst h
        right
        have h1 := (BinHeap.pushdown_perm _ _ _ _).mem_iff.1 hm
        have h2 := (BinHeap.pullup_perm _ _ _ _).mem_iff.1 h1
        rw [BinHeap.mem_toList] at h2
        exact h2
      · exact absurd h (by simp)

theorem pop_el {pred : Nat → Nat → Bool} {q q' : BinHeap.Heap Nat} {n : Nat} (h : BinHeap.pop pred q = (some n, q')) :
    n ∈ q.data ∧ ∀ m ∈ q'.data, m ∈ q.data := by
  have hp := BinHeap.pop_perm pred q n (by rw [h])
  rw [h] at hp
  exact ⟨hp.mem_iff.2 List.mem_cons_self, fun m hm => hp.mem_iff.2 (List.mem_cons_of_mem _ hm)⟩

/-! ## The tree -/

/-- Following the parents from `i` ends. -/
inductive Rooted (nd : Nat → LNode S O C) : Nat → Prop
  | root {i : Nat} : (nd i).par = none → Rooted nd i
  | step {i j : Nat} : (nd i).par = some j → Rooted nd j → Rooted nd i

/-- How node `i` hangs below its parent. -/
def ParOk (d : Dom S O C) (nd : Nat → LNode S O C) (next i : Nat) : Prop :=
  ∃ j, (nd i).par = some j ∧ j < next ∧ (nd i).op ∈ d.ops (nd j).st ∧ (nd i).st = d.app (nd j).st (nd i).op ∧
    (nd j).g + d.cost (nd j).st (nd i).op ≤ (nd i).g

structure Tree (d : Dom S O C) (r : S) (nd : Nat → LNode S O C) (next : Nat) : Prop where
  pos : 0 < next
  root : (nd 0).st = r ∧ (nd 0).par = none ∧ (nd 0).g = 0
  par : ∀ i < next, i ≠ 0 → ParOk d nd next i
  rooted : ∀ i < next, Rooted nd i
  walk : ∀ i < next, Walk d r (nd i).st (nd i).g

variable [IsOrderedAddMonoid C] {d : Dom S O C} {r : S}

omit [DecidableEq S] [IsOrderedAddMonoid C] in
/-- Only states, parents, operators and costs matter. -/
theorem Tree.congr {nd nd' : Nat → LNode S O C} {next : Nat} (h : Tree d r nd next)
    (e : ∀ i < next, (nd' i).st = (nd i).st ∧ (nd' i).par = (nd i).par ∧ (nd' i).g = (nd i).g ∧ (nd' i).op = (nd i).op) :
    Tree d r nd' next := by
  have hpar : ∀ i < next, ∀ j, (nd i).par = some j → j < next := by
    intro i hi j hj
    by_cases h0 : i = 0
    · rw [h0, h.root.2.1] at hj; exact absurd hj (by simp)
    · obtain ⟨j', e1, e2, -⟩ := h.par i hi h0
      rw [hj] at e1; injection e1 with e1; rw [e1]; exact e2
  refine ⟨h.pos, ?_, ?_, ?_, ?_⟩
  · obtain ⟨e1, e2, e3, -⟩ := e 0 h.pos
    rw [e1, e2, e3]; exact h.root
  · intro i hi h0
    obtain ⟨j, e1, e2, e3, e4, e6⟩ := h.par i hi h0
    obtain ⟨a1, a2, a3, a4⟩ := e i hi
    obtain ⟨b1, b2, b3, b4⟩ := e j e2
    exact ⟨j, by rw [a2, e1], e2, by rw [a4, b1]; exact e3, by rw [a1, a4, b1]; exact e4,
      by rw [a3, a4, b1, b3]; exact e6⟩
  · intro i hi
    have := h.rooted i hi
    induction this with
    | @root i hr => exact .root (by rw [(e i hi).2.1]; exact hr)
    | @step i j hj _ ih => exact .step (by rw [(e i hi).2.1]; exact hj) (ih (hpar i hi j hj))
  · intro i hi
    rw [(e i hi).1, (e i hi).2.2.1]; exact h.walk i hi

omit [DecidableEq S] in
theorem Tree.par_le {nd : Nat → LNode S O C} {next : Nat} (hd : CostOk d r) (h : Tree d r nd next) :
    ∀ i < next, ∀ j, (nd i).par = some j → j < next ∧ (nd j).g ≤ (nd i).g := by
  intro i hi j hj
  rcases Nat.eq_zero_or_pos i with rfl | h0
  · rw [h.root.2.1] at hj; exact absurd hj (by simp)
  obtain ⟨j', e1, e2, e3, -, e6⟩ := h.par i hi (by omega)
  rw [hj] at e1
  injection e1 with e1
  subst e1
  exact ⟨e2, le_trans (le_add_of_nonneg_right (hd _ _ (h.walk j e2) _ e3)) e6⟩

omit [DecidableEq S] [IsOrderedAddMonoid C] [AddCommGroup C] in
/-- Nodes that are cheaper than `k` do not hang below `k`. -/
theorem Rooted.cheaper {nd nd' : Nat → LNode S O C} {next k : Nat}
    (hlt : ∀ i < next, ∀ j, (nd i).par = some j → j < next ∧ (nd j).g ≤ (nd i).g)
    (heq : ∀ i, i ≠ k → (nd' i).par = (nd i).par) {i : Nat} (hi : i < next) (h : Rooted nd i)
    (hg : (nd i).g < (nd k).g) : Rooted nd' i := by
  induction h with
  | @root i h => exact .root (by rw [heq _ (fun e => by subst e; exact lt_irrefl _ hg), h])
  | @step i j h _ ih =>
    have := hlt i hi j h
    exact .step (by rw [heq _ (fun e => by subst e; exact lt_irrefl _ hg), h])
      (ih this.1 (lt_of_le_of_lt this.2 hg))

omit [DecidableEq S] [IsOrderedAddMonoid C] [AddCommGroup C] [LinearOrder C] in
theorem Rooted.update {nd nd' : Nat → LNode S O C} {k : Nat}
    (heq : ∀ i, i ≠ k → (nd' i).par = (nd i).par) (hk : Rooted nd' k) {i : Nat} (h : Rooted nd i) :
    Rooted nd' i := by
  induction h with
  | @root i h =>
    by_cases e : i = k
    · rw [e]; exact hk
    · exact .root (by rw [heq _ e, h])
  | @step i j h _ ih =>
    by_cases e : i = k
    · rw [e]; exact hk
    · exact .step (by rw [heq _ e, h]) ih

omit [DecidableEq S] in
/-- A node is given a cheaper parent. -/
theorem Tree.improve {nd nd' : Nat → LNode S O C} {next : Nat} (hd : CostOk d r) (h : Tree d r nd next) {n k : Nat}
    {o : O} (hn : n < next) (ho : o ∈ d.ops (nd n).st) (hks : (nd k).st = d.app (nd n).st o)
    (hlt : (nd n).g + d.cost (nd n).st o < (nd k).g) (hne : ∀ i, i ≠ k → nd' i = nd i)
    (h1 : (nd' k).st = (nd k).st) (h2 : (nd' k).g = (nd n).g + d.cost (nd n).st o)
    (h3 : (nd' k).par = some n) (h4 : (nd' k).op = o) :
    Tree d r nd' next ∧ k ≠ n ∧ k ≠ 0 := by
  have hcost := hd _ _ (h.walk n hn) _ ho
  have hkn : k ≠ n := by
    rintro rfl
    exact absurd hlt (not_lt.2 (le_add_of_nonneg_right hcost))
  have hnn : 0 ≤ (nd n).g := (h.walk n hn).nonneg hd
  have hk0 : k ≠ 0 := by
    rintro rfl
    rw [h.root.2.2] at hlt
    exact absurd hlt (not_lt.2 (add_nonneg hnn hcost))
  have hstate : ∀ i, (nd' i).st = (nd i).st := fun i => by
    by_cases e : i = k
    · rw [e, h1]
    · rw [hne i e]
  have hgle : ∀ i, (nd' i).g ≤ (nd i).g := fun i => by
    by_cases e : i = k
    · rw [e, h2]; exact hlt.le
    · rw [hne i e]
  have hparent : ∀ i, i ≠ k → (nd' i).par = (nd i).par := fun i hi => by rw [hne i hi]
  refine ⟨⟨h.pos, ?_, ?_, ?_, ?_⟩, hkn, hk0⟩
  · rw [hne 0 (Ne.symm hk0)]; exact h.root
  · intro i hi hi0
    by_cases e : i = k
    · subst e
      refine ⟨n, h3, hn, ?_, ?_, ?_⟩
      · rw [h4, hstate]; exact ho
      · rw [h1, h4, hstate, hks]
      · rw [h2, h4, hne n (Ne.symm hkn)]
    · obtain ⟨j, e1, e2, e3, e4, e6⟩ := h.par i hi hi0
      refine ⟨j, ?_, e2, ?_, ?_, ?_⟩
      · rw [hne i e]; exact e1
      · rw [hne i e, hstate]; exact e3
      · rw [hne i e, hstate]; exact e4
      · rw [hne i e, hstate]
        exact le_trans (by gcongr; exact hgle j) e6
  · have hn' : Rooted nd' n := (h.rooted n hn).cheaper (h.par_le hd) hparent hn
      (lt_of_le_of_lt (le_add_of_nonneg_right hcost) hlt)
    intro i hi
    exact Rooted.update hparent (.step (j := n) h3 hn') (h.rooted i hi)
  · intro i hi
    by_cases e : i = k
    · rw [e, h1, h2, hks]; exact (h.walk n hn).snoc ho
    · rw [hne i e]; exact h.walk i hi

omit [DecidableEq S] in
/-- A node is added. -/
theorem Tree.add {nd nd' : Nat → LNode S O C} {next : Nat} (hd : CostOk d r) (h : Tree d r nd next) {n : Nat} {o : O}
    (hn : n < next) (ho : o ∈ d.ops (nd n).st) (hne : ∀ i < next, nd' i = nd i)
    (h1 : (nd' next).st = d.app (nd n).st o) (h2 : (nd' next).g = (nd n).g + d.cost (nd n).st o)
    (h3 : (nd' next).par = some n) (h4 : (nd' next).op = o) : Tree d r nd' (next + 1) := by
  refine ⟨Nat.succ_pos _, ?_, ?_, ?_, ?_⟩
  · rw [hne 0 h.pos]; exact h.root
  · intro i hi hi0
    by_cases e : i = next
    · subst e
      refine ⟨n, h3, by omega, ?_, ?_, ?_⟩
      · rw [h4, hne n hn]; exact ho
      · rw [h1, h4, hne n hn]
      · rw [h2, h4, hne n hn]
    · have hi' : i < next := by omega
      obtain ⟨j, e1, e2, e3, e4, e6⟩ := h.par i hi' hi0
      refine ⟨j, ?_, by omega, ?_, ?_, ?_⟩ <;> rw [hne i hi'] <;>
        first | exact e1 | (rw [hne j e2]; first | exact e3 | exact e4 | exact e6)
  · have hroot : ∀ i < next, Rooted nd' i := by
      intro i hi
      have := h.rooted i hi
      induction this with
      | @root i hr => exact .root (by rw [hne i hi]; exact hr)
      | @step i j hj _ ih => exact .step (by rw [hne i hi]; exact hj) (ih (h.par_le hd i hi j hj).1)
    intro i hi
    by_cases e : i = next
    · exact .step (j := n) (by rw [e]; exact h3) (hroot n hn)
    · exact hroot i (by omega)
  · intro i hi
    by_cases e : i = next
    · rw [e, h1, h2]; exact (h.walk n hn).snoc ho
    · rw [hne i (by omega)]; exact h.walk i (by omega)

/-! ## The invariant of a local search -/

variable {P : Par S O C}

/-- The invariant. -/
structure Inv (P : Par S O C) (r : S) (x : L S O C) : Prop where
  tree : Tree P.d r x.nd x.next
  tab1 : ∀ i < x.next, x.tab (x.nd i).st = some i
  tab2 : ∀ s i, x.tab s = some i → i < x.next ∧ (x.nd i).st = s
  sub : ∀ i ∈ x.q.data, i < x.next
  goal : ∀ i, x.goal = some i → i < x.next ∧ P.d.goal (x.nd i).st = true

omit [IsOrderedAddMonoid C] in
theorem inv_init (r : S) (m : Mem S C) : Inv P r (lssInit P r m) := by
  have e : ∀ i, i < (lssInit P r m).next → i = 0 := fun i h => by
    have : i < 1 := h
    omega
  refine ⟨⟨Nat.zero_lt_one, ⟨rfl, rfl, rfl⟩, ?_, ?_, ?_⟩, ?_, ?_, ?_, ?_⟩
  · intro i hi h0
    exact absurd (e i hi) h0
  · intro i hi
    exact .root rfl
  · intro i hi
    exact .nil r
  · intro i hi
    rw [e i hi]
    show Function.update (fun _ => none) r (some 0) r = some 0
    rw [Function.update_self]
  · intro s i h
    unfold lssInit at h ⊢
    dsimp only at h ⊢
    by_cases hs : s = r
    · subst hs
      rw [Function.update_self] at h
      injection h with h
      exact ⟨by omega, rfl⟩
    · rw [Function.update_of_ne hs] at h
      exact absurd h (by simp)
  · intro i hi
    have : i = 0 ∨ i ∈ [] := List.mem_cons.1 ((BinHeap.push_perm _ _ _).mem_iff.1 hi)
    rcases this with rfl | h
    · exact Nat.zero_lt_one
    · exact absurd h (by simp)
  · intro i h
    exact absurd h (by simp [lssInit])

omit [IsOrderedAddMonoid C] in
theorem setGoal_goal {x : L S O C} {i j : Nat} (h : (setGoal P i x).goal = some j) :
    x.goal = some j ∨ j = i ∧ P.d.goal (x.nd i).st = true := by
  unfold setGoal at h
  split at h
  · rename_i hc
    injection h with h
    exact Or.inr ⟨h.symm, hc.1⟩
  · exact Or.inl h

omit [IsOrderedAddMonoid C] in
theorem setGoal_eq (P : Par S O C) (i : Nat) (x : L S O C) :
    (setGoal P i x).nd = x.nd ∧ (setGoal P i x).next = x.next ∧ (setGoal P i x).tab = x.tab ∧
      (setGoal P i x).q = x.q ∧ (setGoal P i x).m = x.m ∧ (setGoal P i x).nclosed = x.nclosed := by
  unfold setGoal
  split <;> exact ⟨rfl, rfl, rfl, rfl, rfl, rfl⟩

omit [IsOrderedAddMonoid C] in
theorem Inv.setGoal {x : L S O C} (h : Inv P r x) {i : Nat} (hi : i < x.next) : Inv P r (setGoal P i x) := by
  obtain ⟨e1, e2, e3, e4, -, -⟩ := setGoal_eq P i x
  refine ⟨by rw [e1, e2]; exact h.tree, by rw [e1, e2, e3]; exact h.tab1, by rw [e1, e2, e3]; exact h.tab2,
    by rw [e4, e2]; exact h.sub, fun j hj => ?_⟩
  rw [e1, e2]
  rcases setGoal_goal hj with h1 | ⟨rfl, h1⟩
  · exact h.goal j h1
  · exact ⟨hi, h1⟩

omit [IsOrderedAddMonoid C] in
/-- Memory and counters do not matter. -/
theorem Inv.mem {x : L S O C} (h : Inv P r x) (m : Mem S C) (c : Nat) : Inv P r { x with m := m, nclosed := c } :=
  ⟨h.tree, h.tab1, h.tab2, h.sub, h.goal⟩

theorem Inv.relax (hd : CostOk P.d r) {x y : L S O C} (h : Inv P r x) {s : Nat} {o : O} (hs : s < x.next)
    (ho : o ∈ P.d.ops (x.nd s).st) (e : relax P s o x = .ok y) :
    Inv P r y ∧ x.next ≤ y.next ∧ ∀ i < x.next, (y.nd i).st = (x.nd i).st := by
  unfold Lss.relax at e
  dsimp only at e
  split at e
  · injection e with e
    subst e
    exact ⟨h, le_rfl, fun _ _ => rfl⟩
  cases ht : x.tab (P.d.app (x.nd s).st o) with
  | none =>
    rw [ht] at e
    dsimp only at e
    obtain ⟨q, hq, rfl⟩ := Outcome.map_eq_ok.1 e
    set nd := setNode x s x.next (P.d.app (x.nd s).st o) (P.d.cost (x.nd s).st o) o false with hnd
    have hself : nd x.next = ⟨P.d.app (x.nd s).st o, some s, (x.nd s).g + P.d.cost (x.nd s).st o,
        (x.nd s).g + P.d.cost (x.nd s).st o + x.m.h (P.d.app (x.nd s).st o), o, false⟩ := Function.update_self _ _ _
    have hne : ∀ i < x.next, nd i = x.nd i := fun i hi => Function.update_of_ne (by omega) _ _
    have inv : Inv P r { x with
        nd := nd, next := x.next + 1, tab := Function.update x.tab (P.d.app (x.nd s).st o) (some x.next), q := q } := by
      refine ⟨h.tree.add hd hs ho hne ?_ ?_ ?_ ?_, ?_, ?_, ?_, ?_⟩
      · exact congrArg LNode.st hself
      · exact congrArg LNode.g hself
      · exact congrArg LNode.par hself
      · exact congrArg LNode.op hself
      · intro i hi
        dsimp only at hi ⊢
        by_cases hin : i = x.next
        · rw [hin, hself, Function.update_self]
        · have hi' : i < x.next := by omega
          rw [hne i hi', Function.update_of_ne, h.tab1 i hi']
          intro hc
          have := h.tab1 i hi'
          rw [hc, ht] at this
          exact absurd this (by simp)
      · intro t i hi
        dsimp only at hi ⊢
        by_cases htk : t = P.d.app (x.nd s).st o
        · rw [htk, Function.update_self] at hi
          injection hi with hi
          rw [← hi, hself, htk]
          exact ⟨by omega, rfl⟩
        · rw [Function.update_of_ne htk] at hi
          obtain ⟨h1, h2⟩ := h.tab2 t i hi
          exact ⟨by omega, by rw [hne i h1]; exact h2⟩
      · intro i hi
        rcases pushupd_el hq hi with rfl | hi
        · exact Nat.lt_succ_self _
        · exact Nat.lt_succ_of_lt (h.sub i hi)
      · intro i hi
        obtain ⟨h1, h2⟩ := h.goal i hi
        exact ⟨Nat.lt_succ_of_lt h1, by show P.d.goal (nd i).st = true; rw [hne i h1]; exact h2⟩
    refine ⟨inv.setGoal (Nat.lt_succ_self _), ?_, ?_⟩
    · rw [(setGoal_eq P _ _).2.1]; exact Nat.le_succ _
    · intro i hi
      rw [(setGoal_eq P _ _).1]
      show (nd i).st = _
      rw [hne i hi]
  | some i =>
    rw [ht] at e
    dsimp only at e
    obtain ⟨hi, his⟩ := h.tab2 _ _ ht
    split at e
    · rename_i hlt
      obtain ⟨q, hq, rfl⟩ := Outcome.map_eq_ok.1 e
      set nd := setNode x s i (P.d.app (x.nd s).st o) (P.d.cost (x.nd s).st o) o (x.nd i).closed with hnd
      have hself : nd i = ⟨P.d.app (x.nd s).st o, some s, (x.nd s).g + P.d.cost (x.nd s).st o,
        (x.nd s).g + P.d.cost (x.nd s).st o + x.m.h (P.d.app (x.nd s).st o), o, (x.nd i).closed⟩ :=
        Function.update_self _ _ _
      have hne : ∀ j, j ≠ i → nd j = x.nd j := fun j hj => Function.update_of_ne hj _ _
      have hst : ∀ j, (nd j).st = (x.nd j).st := fun j => by
        by_cases hj : j = i
        · rw [hj, hself, his]
        · rw [hne j hj]
      have htree := (h.tree.improve (nd' := nd) hd hs ho his hlt hne (by rw [hself, his]) (by rw [hself])
        (by rw [hself]) (by rw [hself])).1
      have inv : Inv P r { x with
            nd := nd, q := q
            m := { x.m with dups := if (x.nd i).par.isSome then x.m.dups + 1 else x.m.dups } } := by
        refine ⟨htree, ?_, ?_, ?_, ?_⟩
        · intro j hj
          show x.tab (nd j).st = _
          rw [hst]; exact h.tab1 j hj
        · intro t j hj
          show _ ∧ (nd j).st = _
          rw [hst]; exact h.tab2 t j hj
        · intro j hj
          rcases pushupd_el hq hj with rfl | hj
          · exact hi
          · exact h.sub j hj
        · intro j hj
          show _ ∧ P.d.goal (nd j).st = _
          rw [hst]; exact h.goal j hj
      refine ⟨inv.setGoal hi, ?_, ?_⟩
      · rw [(setGoal_eq P _ _).2.1]
      · intro j hj
        rw [(setGoal_eq P _ _).1]
        exact hst j
    · injection e with e
      subst e
      refine ⟨h.setGoal hi, ?_, ?_⟩
      · rw [(setGoal_eq P _ _).2.1]
      · intro j hj
        rw [(setGoal_eq P _ _).1]

theorem Inv.relaxAll (hd : CostOk P.d r) {s : Nat} : ∀ (os : List O) {x y : L S O C}, Inv P r x → s < x.next →
    (∀ o ∈ os, o ∈ P.d.ops (x.nd s).st) → relaxAll P s os x = .ok y →
    Inv P r y ∧ x.next ≤ y.next ∧ ∀ i < x.next, (y.nd i).st = (x.nd i).st
  | [], x, y, h, _, _, e => by
    injection e with e
    subst e
    exact ⟨h, le_rfl, fun _ _ => rfl⟩
  | o :: os, x, y, h, hs, ho, e => by
    rw [Lss.relaxAll] at e
    obtain ⟨z, hz, e⟩ := Outcome.bind_eq_ok.1 e
    obtain ⟨h1, h2, h3⟩ := h.relax hd hs (ho o List.mem_cons_self) hz
    obtain ⟨h4, h5, h6⟩ := Inv.relaxAll hd os h1 (by omega)
      (fun o' ho' => by rw [h3 s hs]; exact ho o' (List.mem_cons_of_mem _ ho')) e
    exact ⟨h4, by omega, fun i hi => by rw [h6 i (by omega), h3 i hi]⟩

omit [IsOrderedAddMonoid C] in
theorem closeNode_nd (s : Nat) (x : L S O C) (i : Nat) :
    ((closeNode s x).nd i).st = (x.nd i).st ∧ ((closeNode s x).nd i).par = (x.nd i).par ∧
      ((closeNode s x).nd i).g = (x.nd i).g ∧ ((closeNode s x).nd i).op = (x.nd i).op ∧
      ((closeNode s x).nd i).f = (x.nd i).f := by
  unfold closeNode
  dsimp only
  by_cases h : i = s
  · rw [h, Function.update_self]; exact ⟨rfl, rfl, rfl, rfl, rfl⟩
  · rw [Function.update_of_ne h]; exact ⟨rfl, rfl, rfl, rfl, rfl⟩

omit [IsOrderedAddMonoid C] in
theorem Inv.close {x : L S O C} (h : Inv P r x) (s : Nat) : Inv P r (closeNode s x) := by
  have e := closeNode_nd s x
  refine ⟨h.tree.congr fun i _ => ⟨(e i).1, (e i).2.1, (e i).2.2.1, (e i).2.2.2.1⟩, ?_, ?_, h.sub, ?_⟩
  · intro i hi
    rw [(e i).1]; exact h.tab1 i hi
  · intro t i hi
    rw [(e i).1]; exact h.tab2 t i hi
  · intro i hi
    rw [(e i).1]; exact h.goal i hi

theorem Inv.lssExpand (hd : CostOk P.d r) {x y : L S O C} (h : Inv P r x) {s : Nat} (hs : s < x.next)
    (e : lssExpand P s x = .ok y) : Inv P r y ∧ x.next ≤ y.next ∧ ∀ i < x.next, (y.nd i).st = (x.nd i).st := by
  unfold Lss.lssExpand at e
  dsimp only at e
  obtain ⟨h1, h2, h3⟩ := Inv.relaxAll hd _
    ((h.close s).mem (expandNode P ((closeNode s x).nd s).st (closeNode s x).m) (closeNode s x).nclosed) hs
    (fun o ho => ho) e
  exact ⟨h1, h2, fun i hi => by rw [h3 i hi]; exact (closeNode_nd s x i).1⟩

theorem Inv.lssLoop (hd : CostOk P.d r) : ∀ (k : Nat) {x y : L S O C}, Inv P r x → lssLoop P k x = .ok y → Inv P r y
  | 0, x, y, h, e => by
    injection e with e
    exact e ▸ h
  | k + 1, x, y, h, e => by
    rw [Lss.lssLoop] at e
    split at e
    · injection e with e
      exact e ▸ h
    split at e
    · injection e with e
      exact e ▸ h.mem _ _
    split at e
    · exact absurd e (by simp)
    rename_i s q hp
    obtain ⟨hs, hsub⟩ := pop_el hp
    have h0 : Inv P r { x with m := x.m.call, q := q } :=
      ⟨h.tree, h.tab1, h.tab2, fun i hi => h.sub i (hsub i hi), h.goal⟩
    obtain ⟨z, hz, e⟩ := Outcome.bind_eq_ok.1 e
    obtain ⟨h1, h2, h3⟩ := h0.lssExpand hd (h.sub s hs) hz
    split at e
    · rename_i hg
      injection e with e
      subst e
      refine ⟨h1.tree, h1.tab1, h1.tab2, fun i hi => ?_, fun i hi => ?_⟩
      · rcases List.mem_cons.1 ((BinHeap.push_perm _ _ _).mem_iff.1 hi) with rfl | hi
        · exact lt_of_lt_of_le (h.sub i hs) h2
        · exact h1.sub i hi
      · injection hi with hi
        subst hi
        exact ⟨lt_of_lt_of_le (h.sub s hs) h2, hg⟩
    · exact Inv.lssLoop hd k h1 e

theorem inv_expandLss (hd : CostOk P.d r) {k : Nat} {m : Mem S C} {x : L S O C} (e : expandLss P k r m = .ok x) :
    Inv P r x := (inv_init r m).lssLoop hd _ e

/-! ## `move` -/

omit [IsOrderedAddMonoid C] in
theorem bestOpen_mem (P : Par S O C) (x : L S O C) (cur : S) : ∀ (l : List Nat) (b : Option Nat) (n : Nat),
    l.foldl (bestOpen P x cur) b = some n → b = some n ∨ n ∈ l
  | [], b, n, h => Or.inl h
  | a :: l, b, n, h => by
    rcases bestOpen_mem P x cur l _ n h with h1 | h1
    · have : bestOpen P x cur b a = b ∨ bestOpen P x cur b a = some a := by
        unfold bestOpen
        split
        · exact Or.inl rfl
        · split
          · exact Or.inr rfl
          · split
            · exact Or.inr rfl
            · exact Or.inl rfl
      rcases this with e | e
      · exact Or.inl (e ▸ h1)
      · rw [e] at h1
        injection h1 with h1
        exact Or.inr (by rw [h1]; exact List.mem_cons_self)
    · exact Or.inr (List.mem_cons_of_mem _ h1)

omit [IsOrderedAddMonoid C] in
theorem bestLayer_mem (P : Par S O C) (x : L S O C) (cur : S) (minf : C) : ∀ (l : List Nat) (b : C × Option Nat) (n : Nat),
    (l.foldl (bestLayer P x cur minf) b).2 = some n →
      b.2 = some n ∨ n ∈ l ∧ (x.nd n).st ≠ cur ∧ (x.nd n).closed = true ∧ (x.nd n).f ≠ minf
  | [], b, n, h => Or.inl h
  | a :: l, b, n, h => by
    rcases bestLayer_mem P x cur minf l _ n h with h1 | ⟨h1, h2⟩
    · have : (bestLayer P x cur minf b a).2 = b.2 ∨ (bestLayer P x cur minf b a).2 = some a ∧ (x.nd a).st ≠ cur ∧
          (x.nd a).closed = true ∧ (x.nd a).f ≠ minf := by
        unfold bestLayer
        split
        · exact Or.inl rfl
        · rename_i hc
          push Not at hc
          have hc' : (x.nd a).st ≠ cur ∧ (x.nd a).closed = true ∧ (x.nd a).f ≠ minf :=
            ⟨hc.1, by simpa using hc.2.1, hc.2.2.1⟩
          dsimp only
          by_cases hl : b.1 < (x.nd a).f
          · rw [if_pos hl]
            right
            refine ⟨?_, hc'⟩
            dsimp only
            rw [if_pos rfl]
            split <;> rfl
          · rw [if_neg hl]
            split
            · split
              · exact Or.inr ⟨rfl, hc'⟩
              · split
                · exact Or.inr ⟨rfl, hc'⟩
                · exact Or.inl rfl
            · exact Or.inl rfl
      rcases this with e | ⟨e, h2⟩
      · exact Or.inl (e ▸ h1)
      · rw [e] at h1
        injection h1 with h1
        exact Or.inr (by rw [← h1]; exact ⟨List.mem_cons_self, h2⟩)
    · exact Or.inr ⟨List.mem_cons_of_mem _ h1, h2⟩

/-- The table enumerates existing nodes. -/
def OrderOk (P : Par S O C) : Prop := ∀ n i, i ∈ P.order n ↔ i < n

omit [IsOrderedAddMonoid C] in
theorem bestNode_lt (ho : OrderOk P) {x : L S O C} (h : Inv P r x) {cur : S} {b : Nat}
    (e : bestNode P x cur = .ok (some b)) : b < x.next := by
  unfold bestNode at e
  split at e
  · rename_i g hg
    injection e with e
    injection e with e
    exact e ▸ (h.goal g hg).1
  dsimp only at e
  have hrest : ∀ n, x.q.data.foldl (bestOpen P x cur) none = some n → n < x.next := fun n hn => by
    rcases bestOpen_mem P x cur _ _ n hn with h1 | h1
    · exact absurd h1 (by simp)
    · exact h.sub n h1
  split at e
  · split at e
    · exact absurd e (by simp)
    · split at e
      · rename_i n hn
        injection e with e
        injection e with e
        subst e
        rcases bestLayer_mem P x cur _ _ _ n hn with h1 | ⟨h1, -⟩
        · exact absurd h1 (by simp)
        · exact (ho _ _).1 h1
      · injection e with e
        exact hrest b e
  · injection e with e
    exact hrest b e

omit [DecidableEq S] [IsOrderedAddMonoid C] in
/-- A plan can be extended at its end. -/
theorem plan_snoc {s t : S} {os : List O} {ss : List S} {c : C} (h : Plan d s os ss c) (ht : (s :: ss).getLast? = some t)
    {o : O} (ho : o ∈ d.ops t) : Plan d s (os ++ [o]) (ss ++ [d.app t o]) (c + d.cost t o) := by
  induction h with
  | nil s =>
    simp only [List.getLast?_singleton, Option.some.injEq] at ht
    subst ht
    have := Plan.cons ho (.nil (d.app s o))
    rw [add_zero] at this
    rw [zero_add]
    exact this
  | @cons s o' os' ss' c' ho' h' ih =>
    rw [List.getLast?_cons_cons] at ht
    rw [add_assoc]
    exact .cons ho' (ih ht)

/-- What `follow` returns: the nodes of a path from the root to `p`, last node first. -/
theorem follow_spec {x : L S O C} (h : Inv P r x) {best : Nat} : ∀ (fuel p : Nat) {ns : List Nat}, p < x.next →
    follow x.nd r best fuel p = .ok ns →
    (∀ n ∈ ns, n < x.next) ∧ (∀ n, ns.head? = some n → n = p) ∧ (ns = [] → (x.nd p).st = r) ∧
    ∃ c, Plan P.d r (ns.map fun n => (x.nd n).op).reverse (ns.map fun n => (x.nd n).st).reverse c ∧ c ≤ (x.nd p).g ∧
      (r :: (ns.map fun n => (x.nd n).st).reverse).getLast? = some (x.nd p).st
  | 0, p, ns, _, e => absurd e (by simp [follow])
  | fuel + 1, p, ns, hp, e => by
    rw [follow] at e
    by_cases hr : (x.nd p).st = r
    · rw [if_pos hr] at e
      injection e with e
      subst e
      have hp0 : p = 0 := by
        have h1 := h.tab1 p hp
        have h2 := h.tab1 0 h.tree.pos
        rw [hr] at h1
        rw [h.tree.root.1] at h2
        rw [h1] at h2
        exact Option.some.inj h2
      refine ⟨by simp, by simp, fun _ => hr, 0, .nil _, ?_, ?_⟩
      · rw [hp0, h.tree.root.2.2]
      · simp [hr]
    · rw [if_neg hr] at e
      split at e
      · exact absurd e (by simp)
      split at e
      · exact absurd e (by simp)
      rename_i p' hp'
      obtain ⟨ns', hns', rfl⟩ := Outcome.map_eq_ok.1 e
      have hp0 : p ≠ 0 := by
        rintro rfl
        exact hr h.tree.root.1
      obtain ⟨j, e1, e2, e3, e4, e6⟩ := h.tree.par p hp hp0
      rw [hp'] at e1
      injection e1 with e1
      subst e1
      obtain ⟨f1, f2, f3, c, f4, f5, f6⟩ := follow_spec h fuel p' e2 hns'
      refine ⟨?_, ?_, ?_, c + P.d.cost (x.nd p').st (x.nd p).op, ?_, ?_, ?_⟩
      · intro n hn
        rcases List.mem_cons.1 hn with rfl | hn
        · exact hp
        · exact f1 n hn
      · intro n hn
        simp only [List.head?_cons, Option.some.injEq] at hn
        exact hn.symm
      · intro hc
        exact absurd hc (by simp)
      · rw [List.map_cons, List.map_cons, List.reverse_cons, List.reverse_cons]
        have := plan_snoc f4 f6 e3
        rw [← e4] at this
        exact this
      · exact le_trans (by gcongr) e6
      · rw [List.map_cons, List.reverse_cons, ← List.cons_append, List.getLast?_append]
        simp

omit [IsOrderedAddMonoid C] [LinearOrder C] [DecidableEq S] in
theorem rebuild_plan {s : S} {os : List O} {ss : List S} {c : C} (h : Plan d s os ss c) : rebuild d s os = ss := by
  induction h with
  | nil s => rfl
  | cons ho h ih => rw [rebuild, ih]

/-- `move` makes legal steps. -/
theorem move_plan (ho : OrderOk P) {x : L S O C} (h : Inv P r x) {t : S} {os : List O} (e : move P x r = .ok (t, os)) :
    os ≠ [] ∧ ∃ ss c, Plan P.d r os ss c ∧ (r :: ss).getLast? = some t := by
  unfold move at e
  obtain ⟨best, hb, e⟩ := Outcome.bind_eq_ok.1 e
  cases best with
  | none => exact absurd e (by simp)
  | some b =>
    dsimp only at e
    split at e
    · exact absurd e (by simp)
    obtain ⟨ns, hns, e⟩ := Outcome.bind_eq_ok.1 e
    have hbl := bestNode_lt ho h hb
    obtain ⟨f1, f2, f3, c, f4, f5, f6⟩ := follow_spec h _ b hbl hns
    cases hl : ns.getLast? with
    | none => rw [hl] at e; exact absurd e (by simp)
    | some q =>
      rw [hl] at e
      dsimp only at e
      have hne : ns ≠ [] := by rintro rfl; exact absurd hl (by simp)
      split at e
      · injection e with e
        rw [Prod.mk.injEq] at e
        obtain ⟨rfl, rfl⟩ := e
        have hns' : ns = ns.dropLast ++ [q] := by
          rw [List.getLast?_eq_some_getLast hne] at hl
          injection hl with hl
          rw [← hl, List.dropLast_append_getLast]
        rw [hns', List.map_append, List.reverse_append, List.map_append, List.reverse_append] at f4
        simp only [List.map_cons, List.map_nil, List.reverse_cons, List.reverse_nil, List.nil_append,
          List.singleton_append] at f4
        generalize (x.nd q).st = u at f4
        cases f4 with
        | cons ho hrest =>
          refine ⟨by simp, [_], _, .cons ho (.nil _), by simp⟩
      · injection e with e
        rw [Prod.mk.injEq] at e
        obtain ⟨rfl, rfl⟩ := e
        exact ⟨by simpa using hne, _, c, f4, f6⟩

/-! ## The whole search -/

omit [DecidableEq S] [IsOrderedAddMonoid C] [LinearOrder C] in
theorem plan_append {s t : S} {os os' : List O} {ss ss' : List S} {c c' : C} (h : Plan d s os ss c)
    (ht : (s :: ss).getLast? = some t) (h' : Plan d t os' ss' c') : Plan d s (os ++ os') (ss ++ ss') (c + c') := by
  induction h with
  | nil s =>
    simp only [List.getLast?_singleton, Option.some.injEq] at ht
    subst ht
    rw [zero_add]
    exact h'
  | @cons s o' os' ss' c' ho' h1 ih =>
    rw [List.getLast?_cons_cons] at ht
    rw [add_assoc]
    exact .cons ho' (ih ht)

omit [DecidableEq S] [IsOrderedAddMonoid C] [LinearOrder C] [AddCommGroup C] in
theorem last_append {s t u : S} {ss ss' : List S} (ht : (s :: ss).getLast? = some t)
    (hu : (t :: ss').getLast? = some u) : (s :: (ss ++ ss')).getLast? = some u := by
  rw [← List.cons_append, List.getLast?_append]
  cases ss' with
  | nil => simp only [List.getLast?_singleton, Option.some.injEq] at hu; subst hu; simpa using ht
  | cons a l => rw [List.getLast?_cons_cons] at hu; rw [hu]; rfl

omit [DecidableEq S] in
theorem plan_walk {s t : S} {os : List O} {ss : List S} {c : C} (h : Plan d s os ss c)
    (ht : (s :: ss).getLast? = some t) : Walk d s t c := by
  have hw := h.walk
  rw [List.getLast?_eq_some_getLast (by simp)] at ht
  rwa [Option.some.inj ht] at hw

omit [DecidableEq S] in
theorem costOk_of_walk {s0 s : S} {c : C} (hd : CostOk d s0) (h : Walk d s0 s c) : CostOk d s :=
  fun t c' hw o ho => hd t _ (h.trans hw) o ho

theorem iter_sound (ho : OrderOk P) {k : Nat} {cur t : S} {m m' : Mem S C} {os : Option (List O)} (hd : CostOk P.d cur)
    (e : iter P k cur m = .ok (t, m', os)) :
    (os = none ∧ t = cur) ∨ ∃ os', os = some os' ∧ os' ≠ [] ∧ ∃ ss c, Plan P.d cur os' ss c ∧ (cur :: ss).getLast? = some t := by
  unfold iter at e
  obtain ⟨x, hx, e⟩ := Outcome.bind_eq_ok.1 e
  have inv := inv_expandLss hd hx
  split at e
  · injection e with e
    simp only [Prod.mk.injEq] at e
    exact Or.inl ⟨e.2.2.symm, e.1.symm⟩
  · obtain ⟨h, -, e⟩ := Outcome.bind_eq_ok.1 e
    obtain ⟨⟨t', os'⟩, hm, e⟩ := Outcome.map_eq_ok.1 e
    simp only [Prod.mk.injEq] at e
    obtain ⟨rfl, -, rfl⟩ := e
    exact Or.inr ⟨os', rfl, move_plan ho inv hm⟩

theorem loop_sound (ho : OrderOk P) {s0 : S} (hd : CostOk P.d s0) : ∀ (fuel k : Nat) (cur : S) (m : Mem S C) (ops : List O)
    (lens : List Nat) {t : S} {m' : Mem S C} {ops' : List O} {lens' : List Nat},
    (∃ ss c, Plan P.d s0 ops ss c ∧ (s0 :: ss).getLast? = some cur) → lens.sum = ops.length → (∀ n ∈ lens, 0 < n) →
    loop P fuel k cur m ops lens = .ok (t, m', ops', lens') →
    (∃ ss c, Plan P.d s0 ops' ss c ∧ (s0 :: ss).getLast? = some t) ∧ lens'.sum = ops'.length ∧ ∀ n ∈ lens', 0 < n
  | 0, _, _, _, _, _, _, _, _, _, _, _, _, e => absurd e (by simp [loop])
  | fuel + 1, k, cur, m, ops, lens, t, m', ops', lens', hp, hl, hl', e => by
    rw [loop] at e
    split at e
    · injection e with e
      simp only [Prod.mk.injEq] at e
      obtain ⟨rfl, rfl, rfl, rfl⟩ := e
      exact ⟨hp, hl, hl'⟩
    split at e
    · injection e with e
      simp only [Prod.mk.injEq] at e
      obtain ⟨rfl, rfl, rfl, rfl⟩ := e
      exact ⟨hp, hl, hl'⟩
    obtain ⟨⟨t1, m1, os⟩, hi, e2⟩ := Outcome.bind_eq_ok.1 e
    clear e
    obtain ⟨ss, c, h1, h2⟩ := hp
    rcases iter_sound ho (costOk_of_walk hd (plan_walk h1 h2)) hi with ⟨rfl, rfl⟩ | ⟨os', rfl, hne, ss', c', h3, h4⟩
    · have e : Outcome.ok (t1, m1, ops, lens) = .ok (t, m', ops', lens') := e2
      injection e with e
      simp only [Prod.mk.injEq] at e
      obtain ⟨rfl, rfl, rfl, rfl⟩ := e
      exact ⟨⟨ss, c, h1, h2⟩, hl, hl'⟩
    · refine loop_sound ho hd fuel (k + 1) _ _ _ _ ⟨ss ++ ss', c + c', plan_append h1 h2 h3, last_append h2 h4⟩ ?_ ?_ e2
      · simp [hl]
      · intro n hn
        rcases List.mem_append.1 hn with hn | hn
        · exact hl' n hn
        · rw [List.mem_singleton.1 hn]
          exact List.length_pos_iff.2 hne

omit [IsOrderedAddMonoid C] in
/-- With `onestep` all steps have length 1. -/
theorem loop_onestep (hos : P.onestep = true) : ∀ (fuel k : Nat) (cur : S) (m : Mem S C) (ops : List O)
    (lens : List Nat) {t : S} {m' : Mem S C} {ops' : List O} {lens' : List Nat}, (∀ n ∈ lens, n = 1) →
    loop P fuel k cur m ops lens = .ok (t, m', ops', lens') → ∀ n ∈ lens', n = 1
  | 0, _, _, _, _, _, _, _, _, _, _, e => absurd e (by simp [loop])
  | fuel + 1, k, cur, m, ops, lens, t, m', ops', lens', hl, e => by
    rw [loop] at e
    split at e
    · injection e with e
      simp only [Prod.mk.injEq] at e
      obtain ⟨rfl, rfl, rfl, rfl⟩ := e
      exact hl
    split at e
    · injection e with e
      simp only [Prod.mk.injEq] at e
      obtain ⟨rfl, rfl, rfl, rfl⟩ := e
      exact hl
    obtain ⟨⟨t1, m1, os⟩, hi, e2⟩ := Outcome.bind_eq_ok.1 e
    clear e
    cases os with
    | none =>
      have e : Outcome.ok (t1, m1, ops, lens) = .ok (t, m', ops', lens') := e2
      injection e with e
      simp only [Prod.mk.injEq] at e
      obtain ⟨rfl, rfl, rfl, rfl⟩ := e
      exact hl
    | some os =>
      refine loop_onestep hos fuel (k + 1) _ _ _ _ ?_ e2
      intro n hn
      rcases List.mem_append.1 hn with hn | hn
      · exact hl n hn
      · rw [List.mem_singleton.1 hn]
        unfold iter at hi
        obtain ⟨x, -, hi⟩ := Outcome.bind_eq_ok.1 hi
        split at hi
        · exact absurd hi (by simp)
        obtain ⟨h, -, hi⟩ := Outcome.bind_eq_ok.1 hi
        obtain ⟨⟨t', os'⟩, hm, hi⟩ := Outcome.map_eq_ok.1 hi
        simp only [Prod.mk.injEq, Option.some.injEq] at hi
        obtain ⟨-, -, rfl⟩ := hi
        unfold move at hm
        obtain ⟨best, -, hm⟩ := Outcome.bind_eq_ok.1 hm
        cases best with
        | none => exact absurd hm (by simp)
        | some b =>
          dsimp only at hm
          split at hm
          · exact absurd hm (by simp)
          obtain ⟨ns, -, hm⟩ := Outcome.bind_eq_ok.1 hm
          split at hm
          · exact absurd hm (by simp)
          · injection hm with hm
            rw [Prod.mk.injEq] at hm
            rw [← hm.2]
            rfl

omit [IsOrderedAddMonoid C] in
/-- The loop ends in a goal or at the limit. -/
theorem loop_end : ∀ (fuel k : Nat) (cur : S) (m : Mem S C) (ops : List O)
    (lens : List Nat) {t : S} {m' : Mem S C} {ops' : List O} {lens' : List Nat},
    loop P fuel k cur m ops lens = .ok (t, m', ops', lens') →
    P.d.goal t = true ∨ ∃ c, P.lim m'.nexpd m'.gend c = true
  | 0, _, _, _, _, _, _, _, _, _, e => absurd e (by simp [loop])
  | fuel + 1, k, cur, m, ops, lens, t, m', ops', lens', e => by
    rw [loop] at e
    split at e
    · rename_i hg
      injection e with e
      simp only [Prod.mk.injEq] at e
      obtain ⟨rfl, rfl, rfl, rfl⟩ := e
      exact Or.inl hg
    split at e
    · rename_i hl
      injection e with e
      simp only [Prod.mk.injEq] at e
      obtain ⟨rfl, rfl, rfl, rfl⟩ := e
      exact Or.inr ⟨_, hl⟩
    obtain ⟨⟨t1, m1, os⟩, hi, e2⟩ := Outcome.bind_eq_ok.1 e
    clear e
    cases os with
    | none =>
      have e : Outcome.ok (t1, m1, ops, lens) = .ok (t, m', ops', lens') := e2
      injection e with e
      simp only [Prod.mk.injEq] at e
      obtain ⟨rfl, rfl, rfl, rfl⟩ := e
      unfold iter at hi
      obtain ⟨x, -, hi⟩ := Outcome.bind_eq_ok.1 hi
      split at hi
      · rename_i hl
        injection hi with hi
        simp only [Prod.mk.injEq] at hi
        obtain ⟨-, rfl, -⟩ := hi
        exact Or.inr ⟨_, hl⟩
      · obtain ⟨h, -, hi⟩ := Outcome.bind_eq_ok.1 hi
        obtain ⟨⟨t', os'⟩, -, hi⟩ := Outcome.map_eq_ok.1 hi
        simp at hi
    | some os => exact loop_end fuel (k + 1) _ _ _ _ e2

omit [IsOrderedAddMonoid C] in
theorem foldl_expandOp (s : S) : ∀ (os : List O) (m : Mem S C), (os.foldl (expandOp P s) m).nexpd = m.nexpd ∧
    (os.foldl (expandOp P s) m).calls = m.calls
  | [], _ => ⟨rfl, rfl⟩
  | _ :: os, _ => foldl_expandOp s os _

omit [IsOrderedAddMonoid C] in
theorem expandNode_nexpd (s : S) (m : Mem S C) : (expandNode P s m).nexpd ≤ m.nexpd + 1 := by
  unfold expandNode
  split
  · exact Nat.le_succ _
  · exact le_of_eq (foldl_expandOp s _ _).1

omit [IsOrderedAddMonoid C] in
theorem relax_nexpd {s : Nat} {o : O} {x y : L S O C} (e : relax P s o x = .ok y) : y.m.nexpd = x.m.nexpd := by
  unfold relax at e
  dsimp only at e
  split at e
  · injection e with e; rw [← e]
  split at e
  · obtain ⟨q, -, rfl⟩ := Outcome.map_eq_ok.1 e
    rw [(setGoal_eq P _ _).2.2.2.2.1]
  · split at e
    · obtain ⟨q, -, rfl⟩ := Outcome.map_eq_ok.1 e
      rw [(setGoal_eq P _ _).2.2.2.2.1]
    · injection e with e
      rw [← e, (setGoal_eq P _ _).2.2.2.2.1]

omit [IsOrderedAddMonoid C] in
theorem relaxAll_nexpd {s : Nat} : ∀ (os : List O) {x y : L S O C}, relaxAll P s os x = .ok y → y.m.nexpd = x.m.nexpd
  | [], x, y, e => by injection e with e; rw [← e]
  | o :: os, x, y, e => by
    rw [relaxAll] at e
    obtain ⟨z, hz, e⟩ := Outcome.bind_eq_ok.1 e
    rw [relaxAll_nexpd os e, relax_nexpd hz]

omit [IsOrderedAddMonoid C] in
theorem lssLoop_nexpd : ∀ (k : Nat) {x y : L S O C}, lssLoop P k x = .ok y → y.m.nexpd ≤ x.m.nexpd + k ∧
    ∀ N, (∀ a b c, N ≤ a → P.lim a b c = true) → x.m.nexpd ≤ N → y.m.nexpd ≤ N
  | 0, x, y, e => by injection e with e; rw [← e]; exact ⟨le_rfl, fun _ _ h => h⟩
  | k + 1, x, y, e => by
    rw [lssLoop] at e
    split at e
    · injection e with e; rw [← e]; exact ⟨by omega, fun _ _ h => h⟩
    split at e
    · injection e with e
      rw [← e]
      exact ⟨Nat.le_add_right _ _, fun _ _ h => h⟩
    rename_i hlim
    split at e
    · exact absurd e (by simp)
    obtain ⟨z, hz, e⟩ := Outcome.bind_eq_ok.1 e
    have hz' : z.m.nexpd ≤ x.m.nexpd + 1 := by
      unfold lssExpand at hz
      rw [relaxAll_nexpd _ hz]
      exact expandNode_nexpd _ _
    have hN : ∀ N, (∀ a b c, N ≤ a → P.lim a b c = true) → x.m.nexpd ≤ N → z.m.nexpd ≤ N := by
      intro N hl h
      have : ¬ N ≤ x.m.nexpd := fun hc => hlim (hl _ _ _ hc)
      omega
    split at e
    · injection e with e
      subst e
      exact ⟨by show z.m.nexpd ≤ _; omega, hN⟩
    · obtain ⟨h1, h2⟩ := lssLoop_nexpd k e
      exact ⟨by omega, fun N hl h => h2 N hl (hN N hl h)⟩

omit [IsOrderedAddMonoid C] in
theorem iter_nexpd {k : Nat} {cur t : S} {m m' : Mem S C} {os : Option (List O)} (e : iter P k cur m = .ok (t, m', os)) :
    m'.nexpd ≤ m.nexpd + P.look k ∧
    ∀ N, (∀ a b c, N ≤ a → P.lim a b c = true) → m.nexpd ≤ N → m'.nexpd ≤ N := by
  unfold iter at e
  obtain ⟨x, hx, e⟩ := Outcome.bind_eq_ok.1 e
  have h1 := lssLoop_nexpd _ hx
  split at e
  · injection e with e
    simp only [Prod.mk.injEq] at e
    obtain ⟨-, rfl, -⟩ := e
    exact h1
  · obtain ⟨h, -, e⟩ := Outcome.bind_eq_ok.1 e
    obtain ⟨r, hm, e⟩ := Outcome.map_eq_ok.1 e
    simp only [Prod.mk.injEq] at e
    obtain ⟨-, rfl, -⟩ := e
    exact h1

omit [IsOrderedAddMonoid C] in
theorem loop_nexpd : ∀ (fuel k : Nat) (cur : S) (m : Mem S C) (ops : List O) (lens : List Nat) {t : S} {m' : Mem S C}
    {ops' : List O} {lens' : List Nat}, loop P fuel k cur m ops lens = .ok (t, m', ops', lens') →
    (∀ b, (∀ i, P.look i ≤ b) → m'.nexpd + b * lens.length ≤ m.nexpd + b * (lens'.length + 1)) ∧
    ∀ N, (∀ a b c, N ≤ a → P.lim a b c = true) → m.nexpd ≤ N → m'.nexpd ≤ N
  | 0, _, _, _, _, _, _, _, _, _, e => absurd e (by simp [loop])
  | fuel + 1, k, cur, m, ops, lens, t, m', ops', lens', e => by
    rw [loop] at e
    split at e
    · injection e with e
      simp only [Prod.mk.injEq] at e
      obtain ⟨rfl, rfl, rfl, rfl⟩ := e
      exact ⟨fun b _ => by rw [Nat.mul_succ]; omega, fun _ _ h => h⟩
    split at e
    · injection e with e
      simp only [Prod.mk.injEq] at e
      obtain ⟨rfl, rfl, rfl, rfl⟩ := e
      exact ⟨fun b _ => by rw [Nat.mul_succ]; show m.nexpd + _ ≤ _; omega, fun _ _ h => h⟩
    obtain ⟨⟨t1, m1, os⟩, hi, e⟩ := Outcome.bind_eq_ok.1 e
    obtain ⟨h1, h2⟩ := iter_nexpd hi
    have h1' : m1.nexpd ≤ m.nexpd + P.look k := h1
    cases os with
    | none =>
      dsimp only at e
      injection e with e
      simp only [Prod.mk.injEq] at e
      obtain ⟨rfl, rfl, rfl, rfl⟩ := e
      exact ⟨fun b hb => by rw [Nat.mul_succ]; have := hb k; omega, h2⟩
    | some os =>
      obtain ⟨h3, h4⟩ := loop_nexpd fuel (k + 1) _ _ _ _ e
      refine ⟨fun b hb => ?_, fun N hl h => h4 N hl (h2 N hl h)⟩
      have a1 : m'.nexpd + b * (lens ++ [os.length]).length ≤ m1.nexpd + b * (lens'.length + 1) := h3 b hb
      have a2 := hb k
      rw [List.length_append, List.length_singleton, Nat.mul_succ] at a1
      omega

end Verif.Lss
