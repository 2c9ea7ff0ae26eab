import Verif.Search.BestFirstThms

/-!
# The tree of nodes of a search

Facts about parent pointers that do not depend on the closed list: used for the searches that forget closed nodes
(ARA*, beam search).
-/

namespace Verif.Search

variable {S O C P : Type*} [DecidableEq S] [DecidableEq O] [AddCommGroup C] [LinearOrder C] [IsOrderedAddMonoid C] {d : Dom S O C} {s0 : S}

/-- Nodes that agree on everything but priority and membership of the open list. -/
structure SameCore (a b : Node S O C P) : Prop where
  state : a.state = b.state
  g : a.g = b.g
  parent : a.parent = b.parent
  op : a.op = b.op
  pop : a.pop = b.pop

/-- How node `i` hangs below its parent. -/
def ParentOk (d : Dom S O C) (nd : Nat → Node S O C P) (next i : Nat) : Prop :=
  ∃ j, (nd i).parent = some j ∧ j < next ∧ (nd i).op ∈ d.ops (nd j).state ∧
    (nd i).state = d.app (nd j).state (nd i).op ∧ (nd i).pop = d.rev (nd j).state (nd i).op ∧
    (nd j).g + d.cost (nd j).state (nd i).op ≤ (nd i).g

structure Tree (d : Dom S O C) (s0 : S) (nd : Nat → Node S O C P) (next : Nat) : Prop where
  pos : 0 < next
  root : (nd 0).state = s0 ∧ (nd 0).parent = none ∧ (nd 0).g = 0 ∧ (nd 0).pop = d.nop
  par : ∀ i < next, i ≠ 0 → ParentOk d nd next i
  rooted : ∀ i < next, Rooted nd i
  walk : ∀ i < next, Walk d s0 (nd i).state (nd i).g

theorem Tree.congr {nd nd' : Nat → Node S O C P} {next : Nat} (h : Tree d s0 nd next)
    (e : ∀ i < next, SameCore (nd' i) (nd i)) : Tree d s0 nd' next := by
  refine ⟨h.pos, ?_, ?_, ?_, ?_⟩
  · have := e 0 h.pos
    rw [this.state, this.parent, this.g, this.pop]; exact h.root
  · intro i hi h0
    obtain ⟨j, e1, e2, e3, e4, e5, e6⟩ := h.par i hi h0
    have a := e i hi
    have b := e j e2
    exact ⟨j, by rw [a.parent, e1], e2, by rw [a.op, b.state]; exact e3, by rw [a.state, a.op, b.state]; exact e4,
      by rw [a.pop, a.op, b.state]; exact e5, by rw [a.g, a.op, b.state, b.g]; exact e6⟩
  · intro i hi
    refine (h.rooted i hi).congr (fun i hi j hj => ?_) (fun i hi => (e i hi).parent) hi
    by_cases h0 : i = 0
    · rw [h0, h.root.2.1] at hj; exact absurd hj (by simp)
    · obtain ⟨j', e1, e2, -⟩ := h.par i hi h0
      rw [hj] at e1; injection e1 with e1; rw [e1]; exact e2
  · intro i hi
    rw [(e i hi).state, (e i hi).g]; exact h.walk i hi

theorem Tree.par_le {nd : Nat → Node S O C P} {next : Nat} (hd : DomOk d s0) (h : Tree d s0 nd next) :
    ∀ i < next, ∀ j, (nd i).parent = some j → j < next ∧ (nd j).g ≤ (nd i).g := by
  intro i hi j hj
  rcases Nat.eq_zero_or_pos i with rfl | h0
  · rw [h.root.2.1] at hj; exact absurd hj (by simp)
  obtain ⟨j', e1, e2, e3, -, -, e6⟩ := h.par i hi (by omega)
  rw [hj] at e1
  injection e1 with e1
  subst e1
  exact ⟨e2, le_trans (le_add_of_nonneg_right (hd.cost _ _ (h.walk j e2) _ e3)) e6⟩

/-- The successor along the pruned operator is the parent. -/
theorem Tree.pruned {nd : Nat → Node S O C P} {next : Nat} (hd : DomOk d s0) (h : Tree d s0 nd next) {n : Nat} {o : O}
    (hn : n < next) (ho : o ∈ d.ops (nd n).state) (hp : o = (nd n).pop) :
    ∃ j < next, (nd j).state = d.app (nd n).state o ∧ (nd j).g ≤ (nd n).g + d.cost (nd n).state o := by
  rcases Nat.eq_zero_or_pos n with rfl | h0
  · rw [h.root.2.2.2] at hp
    exact absurd (hp ▸ ho) (hd.nop _ _ (h.walk 0 h.pos))
  obtain ⟨j, e1, e2, e3, e4, e5, e6⟩ := h.par n hn (by omega)
  have hr : d.app (nd n).state o = (nd j).state := by
    rw [hp, e5, e4]
    rw [hp, e5, e4] at ho
    exact hd.rev _ _ (h.walk j e2) _ e3 ho
  refine ⟨j, e2, hr.symm, ?_⟩
  have h1 := hd.cost _ _ (h.walk j e2) _ e3
  have h2 := hd.cost _ _ (h.walk n hn) _ ho
  calc (nd j).g ≤ (nd j).g + d.cost (nd j).state (nd n).op := le_add_of_nonneg_right h1
    _ ≤ (nd n).g := e6
    _ ≤ _ := le_add_of_nonneg_right h2

/-- A node is given a cheaper parent. -/
theorem Tree.improve {nd nd' : Nat → Node S O C P} {next : Nat} (hd : DomOk d s0) (h : Tree d s0 nd next) {n k : Nat}
    {o : O} (hn : n < next) (ho : o ∈ d.ops (nd n).state) (hks : (nd k).state = d.app (nd n).state o)
    (hlt : (nd n).g + d.cost (nd n).state o < (nd k).g) (hne : ∀ i, i ≠ k → nd' i = nd i)
    (h1 : (nd' k).state = (nd k).state) (h2 : (nd' k).g = (nd n).g + d.cost (nd n).state o)
    (h3 : (nd' k).parent = some n) (h4 : (nd' k).op = o) (h5 : (nd' k).pop = d.rev (nd n).state o) :
    Tree d s0 nd' next ∧ k ≠ n ∧ k ≠ 0 := by
  have hcost := hd.cost _ _ (h.walk n hn) _ ho
  have hkn : k ≠ n := by
    rintro rfl
    exact absurd hlt (not_lt.2 (le_add_of_nonneg_right hcost))
  have hnn : 0 ≤ (nd n).g := (h.walk n hn).nonneg hd.cost
  have hk0 : k ≠ 0 := by
    rintro rfl
    rw [h.root.2.2.1] at hlt
    exact absurd hlt (not_lt.2 (add_nonneg hnn hcost))
  have hstate : ∀ i, (nd' i).state = (nd i).state := fun i => by
    by_cases e : i = k
    · rw [e, h1]
    · rw [hne i e]
  have hgle : ∀ i, (nd' i).g ≤ (nd i).g := fun i => by
    by_cases e : i = k
    · rw [e, h2]; exact hlt.le
    · rw [hne i e]
  have hparent : ∀ i, i ≠ k → (nd' i).parent = (nd i).parent := fun i hi => by rw [hne i hi]
  refine ⟨⟨h.pos, ?_, ?_, ?_, ?_⟩, hkn, hk0⟩
  · rw [hne 0 (Ne.symm hk0)]; exact h.root
  · intro i hi hi0
    by_cases e : i = k
    · subst e
      refine ⟨n, h3, hn, ?_, ?_, ?_, ?_⟩
      · rw [h4, hstate]; exact ho
      · rw [h1, h4, hstate, hks]
      · rw [h5, h4, hstate]
      · rw [h2, h4, hne n (Ne.symm hkn)]
    · obtain ⟨j, e1, e2, e3, e4, e5, e6⟩ := h.par i hi hi0
      refine ⟨j, ?_, e2, ?_, ?_, ?_, ?_⟩
      · rw [hne i e]; exact e1
      · rw [hne i e, hstate]; exact e3
      · rw [hne i e, hstate]; exact e4
      · rw [hne i e, hstate]; exact e5
      · rw [hne i e, hstate]
        exact le_trans (by gcongr; exact hgle j) e6
  · have hn' : Rooted nd' n := (h.rooted n hn).cheaper (h.par_le hd) hparent hn
      (lt_of_le_of_lt (le_add_of_nonneg_right hcost) hlt)
    intro i hi
    exact Rooted.update hparent (.step (j := n) h3 hn') (h.rooted i hi)
  · intro i hi
    by_cases e : i = k
    · rw [e, h1, h2, hks]; exact (h.walk n hn).snoc ho
    · rw [hne i e]; exact h.walk i hi

/-- A node is added. -/
theorem Tree.add {nd nd' : Nat → Node S O C P} {next : Nat} (hd : DomOk d s0) (h : Tree d s0 nd next) {n : Nat} {o : O}
    (hn : n < next) (ho : o ∈ d.ops (nd n).state) (hne : ∀ i < next, nd' i = nd i)
    (h1 : (nd' next).state = d.app (nd n).state o) (h2 : (nd' next).g = (nd n).g + d.cost (nd n).state o)
    (h3 : (nd' next).parent = some n) (h4 : (nd' next).op = o) (h5 : (nd' next).pop = d.rev (nd n).state o) :
    Tree d s0 nd' (next + 1) := by
  refine ⟨Nat.succ_pos _, ?_, ?_, ?_, ?_⟩
  · rw [hne 0 h.pos]; exact h.root
  · intro i hi hi0
    by_cases e : i = next
    · subst e
      refine ⟨n, h3, by omega, ?_, ?_, ?_, ?_⟩
      · rw [h4, hne n hn]; exact ho
      · rw [h1, h4, hne n hn]
      · rw [h5, h4, hne n hn]
      · rw [h2, h4, hne n hn]
    · have hi' : i < next := by omega
      obtain ⟨j, e1, e2, e3, e4, e5, e6⟩ := h.par i hi' hi0
      refine ⟨j, ?_, by omega, ?_, ?_, ?_, ?_⟩ <;> rw [hne i hi'] <;>
        first | exact e1 | (rw [hne j e2]; first | exact e3 | exact e4 | exact e5 | exact e6)
  · have hroot : ∀ i < next, Rooted nd' i := fun i hi =>
      (h.rooted i hi).congr (fun i hi j hj => (h.par_le hd i hi j hj).1) (fun i hi => by rw [hne i hi]) hi
    intro i hi
    by_cases e : i = next
    · exact .step (j := n) (by rw [e]; exact h3) (hroot n hn)
    · exact hroot i (by omega)
  · intro i hi
    by_cases e : i = next
    · rw [e, h1, h2]; exact (h.walk n hn).snoc ho
    · rw [hne i (by omega)]; exact h.walk i (by omega)

theorem Tree.solpath_spec {nd : Nat → Node S O C P} {next : Nat} (h : Tree d s0 nd next) {n : Nat} (hn : n < next) :
    ∃ fuel r, solpath nd fuel n = .ok r ∧ IsSol d s0 (nd n).state (nd n).g r := by
  have hr := h.rooted n hn
  induction hr with
  | @root i hp =>
    have h0 : i = 0 := by
      by_contra hc
      obtain ⟨j, e, -⟩ := h.par i hn hc
      rw [hp] at e; exact absurd e (by simp)
    subst h0
    refine ⟨1, ([(nd 0).state], []), ?_, [], 0, ?_, .nil _, ?_, rfl⟩
    · unfold solpath; rw [hp]
    · rw [h.root.1]; rfl
    · rw [h.root.2.2.1]
  | @step i j hp hj ih =>
    have h0 : i ≠ 0 := by rintro rfl; rw [h.root.2.1] at hp; exact absurd hp (by simp)
    obtain ⟨j', e1, e2, e3, e4, e5, e6⟩ := h.par i hn h0
    rw [hp] at e1; injection e1 with e1; subst e1
    obtain ⟨fuel, r, f1, ss, c, f2, f3, f4, f5⟩ := ih e2
    refine ⟨fuel + 1, ((nd i).state :: r.1, (nd i).op :: r.2), ?_,
      ss ++ [(nd i).state], c + d.cost (nd j).state (nd i).op, ?_, ?_, ?_, rfl⟩
    · unfold solpath; rw [hp]; dsimp only; rw [f1]; rfl
    · rw [List.reverse_cons, f2]; rfl
    · have hl : (s0 :: ss).getLast (by simp) = (nd j).state := by
        have h1 : (s0 :: ss).getLast? = some (nd j).state := by
          rw [← f2, List.getLast?_reverse, f5]
        rw [List.getLast?_eq_some_getLast (by simp)] at h1
        exact Option.some.inj h1
      have := f3.snoc (o := (nd i).op) (by rw [hl]; exact e3)
      rw [hl, ← e4] at this
      rw [List.reverse_cons]
      exact this
    · exact le_trans (by gcongr) e6

theorem Tree.solpath_ok {nd : Nat → Node S O C P} {next : Nat} (h : Tree d s0 nd next) {n : Nat} (hn : n < next)
    {fuel : Nat} {r : List S × List O} (hr : solpath nd fuel n = .ok r) : IsSol d s0 (nd n).state (nd n).g r := by
  obtain ⟨fuel', r', h1, h2⟩ := h.solpath_spec hn
  have e1 := solpath_mono hr (Nat.le_max_left fuel fuel')
  have e2 := solpath_mono h1 (Nat.le_max_right fuel fuel')
  rw [e1] at e2
  injection e2 with e2
  rw [e2]
  exact h2

end Verif.Search
