import Verif.Search.LssRun

/-!
# Local searches in any order and with any heuristic

Nothing is asked of the heuristic or of the order of the open list: a closed node may be opened again.  What remains is
enough to show that a step never goes wrong.
-/

namespace Verif.Lss

open Verif.Search

variable {S O C : Type*} [DecidableEq S] [AddCommGroup C] [LinearOrder C] [IsOrderedAddMonoid C]
variable {P : Par S O C} {r : S}

/-! ## `expand` -/

omit [IsOrderedAddMonoid C] in
theorem foldl_expandOp_preds {s : S} : ∀ (os : List O) (m : Mem S C),
    (os.foldl (expandOp P s) m).expd = m.expd ∧
    ∀ k e, e ∈ (os.foldl (expandOp P s) m).preds k ↔ e ∈ m.preds k ∨ ∃ o ∈ os, P.d.app s o = k ∧ e = (s, P.d.cost s o)
  | [], m => ⟨rfl, fun k e => by simp⟩
  | o :: os, m => by
    obtain ⟨h2, h3⟩ := foldl_expandOp_preds os (expandOp P s m o)
    rw [List.foldl_cons]
    refine ⟨h2, fun k e => ?_⟩
    rw [h3]
    have hp : e ∈ (expandOp P s m o).preds k ↔ e ∈ m.preds k ∨ P.d.app s o = k ∧ e = (s, P.d.cost s o) := by
      show e ∈ Function.update m.preds (P.d.app s o) (m.preds (P.d.app s o) ++ [(s, P.d.cost s o)]) k ↔ _
      by_cases hk : k = P.d.app s o
      · rw [hk, Function.update_self, List.mem_append, List.mem_singleton]
        simp
      · rw [Function.update_of_ne hk]
        constructor
        · exact Or.inl
        · rintro (h | ⟨rfl, -⟩)
          · exact h
          · exact absurd rfl hk
    rw [hp]
    constructor
    · rintro ((h | h) | ⟨o', h, h'⟩)
      · exact Or.inl h
      · exact Or.inr ⟨o, List.mem_cons_self, h⟩
      · exact Or.inr ⟨o', List.mem_cons_of_mem _ h, h'⟩
    · rintro (h | ⟨o', h, h'⟩)
      · exact Or.inl (Or.inl h)
      · rcases List.mem_cons.1 h with rfl | h
        · exact Or.inl (Or.inr h')
        · exact Or.inr ⟨o', h, h'⟩

omit [IsOrderedAddMonoid C] in
/-- The lists of predecessors stay right, whatever the heuristic is. -/
theorem expandNode_memOk {m : Mem S C} (hm : MemOk P m) (s : S) :
    MemOk P (expandNode P s m) ∧ (expandNode P s m).expd s = true ∧
      ∀ t, m.expd t = true → (expandNode P s m).expd t = true := by
  unfold expandNode
  split
  · rename_i h
    exact ⟨hm, h, fun _ h => h⟩
  obtain ⟨h2, h3⟩ := foldl_expandOp_preds (P := P) (s := s) (P.d.ops s) { m with nexpd := m.nexpd + 1 }
  dsimp only at h2 h3 ⊢
  have hmono : ∀ t, m.expd t = true →
      Function.update ((P.d.ops s).foldl (expandOp P s) { m with nexpd := m.nexpd + 1 }).expd s true t = true := by
    intro t ht
    by_cases e : t = s
    · rw [e, Function.update_self]
    · rw [Function.update_of_ne e, h2]; exact ht
  refine ⟨⟨?_, ?_⟩, Function.update_self _ _ _, hmono⟩
  · intro t ht o ho
    dsimp only at ht ⊢
    rw [h3]
    by_cases e : t = s
    · subst e
      exact Or.inr ⟨o, ho, rfl, rfl⟩
    · rw [Function.update_of_ne e, h2] at ht
      exact Or.inl (hm.pred1 t ht o ho)
  · intro k t c he
    dsimp only at he ⊢
    rcases (h3 k (t, c)).1 he with he | ⟨o, ho, hk, e⟩
    · obtain ⟨a1, a2⟩ := hm.pred2 k t c he
      exact ⟨hmono t a1, a2⟩
    · rw [Prod.mk.injEq] at e
      obtain ⟨rfl, rfl⟩ := e
      exact ⟨Function.update_self _ _ _, o, ho, hk, rfl⟩

/-! ## The invariant -/

/-- What holds in any order: a node is in the open list or closed (or both, except for the root). -/
structure Base (P : Par S O C) (r : S) (x : L S O C) : Prop where
  inv : Inv P r x
  mem : MemOk P x.m
  rep : HeapRep flt (keyF P x.nd) x.q x.q.data.toFinset
  stat : ∀ i < x.next, i ∈ x.q.data ∨ (x.nd i).closed = true
  root : (x.nd 0).closed = true → 0 ∉ x.q.data
  expd : ∀ i < x.next, (x.nd i).closed = true → x.m.expd (x.nd i).st = true
  ncl : x.nclosed = (closeds x).card
  nogoal : x.goal = none → ∀ i < x.next, P.d.goal (x.nd i).st = false

/-- All successors of node `i` are known. -/
def Known (P : Par S O C) (x : L S O C) (i : Nat) : Prop :=
  ∀ o ∈ P.d.ops (x.nd i).st, ∃ j < x.next, (x.nd j).st = P.d.app (x.nd i).st o

/-- Nodes stay; no node is closed or is not any more. -/
structure Ext (x y : L S O C) : Prop where
  next : x.next ≤ y.next
  same : ∀ i < x.next, (y.nd i).st = (x.nd i).st ∧ (y.nd i).closed = (x.nd i).closed
  fresh : ∀ i, x.next ≤ i → i < y.next → (y.nd i).closed = false
  mh : y.m.h = x.m.h

omit [DecidableEq S] [AddCommGroup C] [LinearOrder C] [IsOrderedAddMonoid C] in
theorem Ext.refl (x : L S O C) : Ext x x := ⟨le_rfl, fun _ _ => ⟨rfl, rfl⟩, fun i h1 h2 => absurd h2 (by omega), rfl⟩

omit [DecidableEq S] [AddCommGroup C] [LinearOrder C] [IsOrderedAddMonoid C] in
theorem Ext.trans {x y z : L S O C} (h : Ext x y) (h' : Ext y z) : Ext x z := by
  refine ⟨h.next.trans h'.next, fun i hi => ?_, fun i h1 h2 => ?_, h'.mh.trans h.mh⟩
  · have a := h.same i hi
    have b := h'.same i (lt_of_lt_of_le hi h.next)
    exact ⟨b.1.trans a.1, b.2.trans a.2⟩
  · by_cases hy : i < y.next
    · rw [(h'.same i hy).2]; exact h.fresh i h1 hy
    · exact h'.fresh i (not_lt.1 hy) h2

omit [IsOrderedAddMonoid C] in
theorem ext_setGoal {x y : L S O C} (h : Ext x y) (i : Nat) : Ext x (setGoal P i y) := by
  obtain ⟨e1, e2, -, -, e5, -⟩ := setGoal_eq P i y
  exact ⟨by rw [e2]; exact h.next, by rw [e1]; exact h.same, by rw [e1, e2]; exact h.fresh, by rw [e5]; exact h.mh⟩

omit [DecidableEq S] [AddCommGroup C] [LinearOrder C] [IsOrderedAddMonoid C] in
theorem Known.ext {x y : L S O C} (h : Ext x y) {i : Nat} (hi : i < x.next) (hr : Known P x i) : Known P y i := by
  unfold Known
  rw [(h.same i hi).1]
  intro o ho
  obtain ⟨j, hj, h1⟩ := hr o ho
  exact ⟨j, lt_of_lt_of_le hj h.next, (h.same j hj).1.trans h1⟩

/-- Another goal may be noted. -/
theorem Base.setGoal {x : L S O C} (hx : Base P r x) {i : Nat} (hi : i < x.next) : Base P r (setGoal P i x) := by
  have hg := @setGoal_none S O C _ _ _ P x i
  obtain ⟨e1, e2, e3, e4, e5, e6⟩ := setGoal_eq P i x
  have ec : closeds (Lss.setGoal P i x) = closeds x := by unfold closeds; rw [e1, e2]
  refine ⟨hx.inv.setGoal hi, e5 ▸ hx.mem, ?_, ?_, ?_, ?_, ?_, ?_⟩
  · rw [e4, e1]; exact hx.rep
  · rw [e1, e2, e4]; exact hx.stat
  · rw [e1, e4]; exact hx.root
  · rw [e1, e2, e5]; exact hx.expd
  · rw [e6, ec]; exact hx.ncl
  · intro hn
    rw [e1, e2]
    exact hx.nogoal (hg hn).1

theorem Base.relax (hd : CostOk P.d r) {x : L S O C} (hx : Base P r x) {s : Nat} {o : O} (hs : s < x.next)
    (ho : o ∈ P.d.ops (x.nd s).st) :
    ∃ y, relax P s o x = .ok y ∧ Base P r y ∧ Ext x y ∧ ∃ j < y.next, (y.nd j).st = P.d.app (x.nd s).st o := by
  have hcost := hd _ _ (hx.inv.tree.walk s hs) _ ho
  by_cases htp : toParent x s (P.d.app (x.nd s).st o) = true
  · refine ⟨x, ?_, hx, .refl x, ?_⟩
    · unfold Lss.relax; dsimp only; rw [if_pos htp]
    · unfold toParent at htp
      split at htp
      · exact absurd htp (by simp)
      · rename_i p hp
        exact ⟨p, (hx.inv.tree.par_le hd s hs p hp).1, by simpa using htp⟩
  · cases ht : x.tab (P.d.app (x.nd s).st o) with
    | none =>
      set nd := setNode x s x.next (P.d.app (x.nd s).st o) (P.d.cost (x.nd s).st o) o false with hnd
      have hself : nd x.next = ⟨P.d.app (x.nd s).st o, some s, (x.nd s).g + P.d.cost (x.nd s).st o,
          (x.nd s).g + P.d.cost (x.nd s).st o + x.m.h (P.d.app (x.nd s).st o), o, false⟩ := Function.update_self _ _ _
      have hne : ∀ i < x.next, nd i = x.nd i := fun i hi => Function.update_of_ne (by omega) _ _
      have hcase : ∀ i < x.next + 1, i = x.next ∨ i < x.next := fun i hi => by omega
      obtain ⟨q, hq, hrep⟩ := pushupd_rep flt_strictWeak (key' := keyF P nd) (n := x.next) hx.rep (fun m hm _ => by
        unfold keyF
        rw [hne m (hx.inv.sub m (List.mem_toFinset.1 hm))])
      have hqm : ∀ m, m ∈ q.data ↔ m = x.next ∨ m ∈ x.q.data := fun m => by
        rw [hrep.mem, Finset.mem_insert, List.mem_toFinset]
      set y : L S O C := { x with
        nd := nd, next := x.next + 1, tab := Function.update x.tab (P.d.app (x.nd s).st o) (some x.next), q := q } with hy
      have hrel : Lss.relax P s o x = .ok (Lss.setGoal P x.next y) := by
        unfold Lss.relax; dsimp only; rw [if_neg htp, ht]; dsimp only
        rw [← hnd, hq]
        rfl
      have hinv : Inv P r (Lss.setGoal P x.next y) := (hx.inv.relax hd hs ho hrel).1
      have hext : Ext x y := ⟨Nat.le_succ _, fun i hi => by
          show (nd i).st = _ ∧ (nd i).closed = _
          rw [hne i hi]; exact ⟨rfl, rfl⟩, fun i h1 h2 => by
          have : i = x.next := Nat.le_antisymm (Nat.le_of_lt_succ h2) h1
          show (nd i).closed = false
          rw [this, hself], rfl⟩
      have hbase : Base P r (Lss.setGoal P x.next y) := by
        obtain ⟨e1, e2, e3, e4, e5, e6⟩ := setGoal_eq P x.next y
        refine ⟨hinv, e5 ▸ hx.mem, ?_, ?_, ?_, ?_, ?_, ?_⟩
        · rw [e1, e4]
          exact ⟨hrep.inv, rfl, hrep.absent⟩
        · rw [e1, e2, e4]
          intro i hi
          show i ∈ q.data ∨ (nd i).closed = true
          rw [hqm]
          rcases hcase i hi with hin | hi'
          · exact Or.inl (Or.inl hin)
          · rw [hne i hi']
            exact (hx.stat i hi').imp Or.inr id
        · rw [e1, e4]
          show (nd 0).closed = true → 0 ∉ q.data
          rw [hne 0 hx.inv.tree.pos, hqm]
          intro h1 h2
          rcases h2 with h2 | h2
          · exact absurd h2 (Nat.ne_of_lt hx.inv.tree.pos)
          · exact hx.root h1 h2
        · rw [e1, e2, e5]
          intro i hi
          show (nd i).closed = true → x.m.expd (nd i).st = true
          rcases hcase i hi with hin | hi'
          · rw [hin, hself]; intro hc; exact absurd hc (by simp)
          · rw [hne i hi']; exact hx.expd i hi'
        · rw [e6]
          show x.nclosed = _
          rw [hx.ncl]
          congr 1
          ext i
          rw [mem_closeds, mem_closeds, e1, e2]
          show _ ↔ i < x.next + 1 ∧ (nd i).closed = true
          by_cases hin : i = x.next
          · rw [hin, hself]; simp
          · constructor
            · rintro ⟨h1, h2⟩
              exact ⟨by omega, by rw [hne i h1]; exact h2⟩
            · rintro ⟨h1, h2⟩
              have hi' : i < x.next := by omega
              exact ⟨hi', by rw [← hne i hi']; exact h2⟩
        · intro hn
          obtain ⟨g1, g2⟩ := setGoal_none hn
          rw [e1, e2]
          intro i hi
          rcases hcase i hi with hin | hi'
          · rw [hin]; exact g2
          · show P.d.goal (nd i).st = false
            rw [hne i hi']; exact hx.nogoal g1 i hi'
      refine ⟨_, hrel, hbase, ext_setGoal hext _, x.next, ?_, ?_⟩
      · rw [(setGoal_eq P _ _).2.1]; exact Nat.lt_succ_self _
      · rw [(setGoal_eq P _ _).1]
        show (nd x.next).st = _
        rw [hself]
    | some i =>
      obtain ⟨hi, his⟩ := hx.inv.tab2 _ _ ht
      by_cases hlt : (x.nd s).g + P.d.cost (x.nd s).st o < (x.nd i).g
      · have hi0 : 0 ≠ i := by
          rintro rfl
          rw [hx.inv.tree.root.2.2] at hlt
          exact absurd hlt (not_lt.2 (add_nonneg ((hx.inv.tree.walk s hs).nonneg hd) hcost))
        set nd := setNode x s i (P.d.app (x.nd s).st o) (P.d.cost (x.nd s).st o) o (x.nd i).closed with hnd
        have hself : nd i = ⟨P.d.app (x.nd s).st o, some s, (x.nd s).g + P.d.cost (x.nd s).st o,
          (x.nd s).g + P.d.cost (x.nd s).st o + x.m.h (P.d.app (x.nd s).st o), o, (x.nd i).closed⟩ :=
          Function.update_self _ _ _
        have hne : ∀ j, j ≠ i → nd j = x.nd j := fun j hj => Function.update_of_ne hj _ _
        have hst : ∀ j, (nd j).st = (x.nd j).st := fun j => by
          by_cases hj : j = i
          · rw [hj, hself, his]
          · rw [hne j hj]
        have hcl' : ∀ j, (nd j).closed = (x.nd j).closed := fun j => by
          by_cases hj : j = i
          · rw [hj, hself]
          · rw [hne j hj]
        obtain ⟨q, hq, hrep⟩ := pushupd_rep flt_strictWeak (key' := keyF P nd) (n := i) hx.rep (fun m _ hm => by
          unfold keyF
          rw [hne m hm])
        have hqm : ∀ m, m ∈ q.data ↔ m = i ∨ m ∈ x.q.data := fun m => by
          rw [hrep.mem, Finset.mem_insert, List.mem_toFinset]
        set y : L S O C := { x with
            nd := nd, q := q
            m := { x.m with dups := if (x.nd i).par.isSome then x.m.dups + 1 else x.m.dups } } with hy
        have hrel : Lss.relax P s o x = .ok (Lss.setGoal P i y) := by
          unfold Lss.relax; dsimp only; rw [if_neg htp, ht]; dsimp only
          rw [if_pos hlt, ← hnd, hq]
          rfl
        have hinv : Inv P r (Lss.setGoal P i y) := (hx.inv.relax hd hs ho hrel).1
        have hext : Ext x y :=
          ⟨le_rfl, fun j hj => ⟨hst j, hcl' j⟩, fun i h1 h2 => absurd h2 (not_lt.2 h1), rfl⟩
        have hbase : Base P r (Lss.setGoal P i y) := by
          obtain ⟨e1, e2, e3, e4, e5, e6⟩ := setGoal_eq P i y
          refine ⟨hinv, e5 ▸ ⟨hx.mem.pred1, hx.mem.pred2⟩, ?_, ?_, ?_, ?_, ?_, ?_⟩
          · rw [e1, e4]
            exact ⟨hrep.inv, rfl, hrep.absent⟩
          · rw [e1, e2, e4]
            intro j hj
            show j ∈ q.data ∨ (nd j).closed = true
            rw [hqm, hcl']; exact (hx.stat j hj).imp Or.inr id
          · rw [e1, e4]
            show (nd 0).closed = true → 0 ∉ q.data
            rw [hcl', hqm]
            intro h1 h2
            exact h2.elim hi0 (hx.root h1)
          · rw [e1, e2, e5]
            intro j hj
            show (nd j).closed = true → x.m.expd (nd j).st = true
            rw [hcl', hst]; exact hx.expd j hj
          · rw [e6]
            show x.nclosed = _
            rw [hx.ncl]
            congr 1
            ext j
            rw [mem_closeds, mem_closeds, e1, e2]
            show _ ↔ j < x.next ∧ (nd j).closed = true
            rw [hcl']
          · intro hn
            obtain ⟨g1, g2⟩ := setGoal_none hn
            rw [e1, e2]
            intro j hj
            show P.d.goal (nd j).st = false
            rw [hst]; exact hx.nogoal g1 j hj
        refine ⟨_, hrel, hbase, ext_setGoal hext _, i, ?_, ?_⟩
        · rw [(setGoal_eq P _ _).2.1]; exact hi
        · rw [(setGoal_eq P _ _).1]
          show (nd i).st = _
          rw [hself]
      · refine ⟨Lss.setGoal P i x, ?_, hx.setGoal hi, ext_setGoal (.refl x) _, i, ?_, ?_⟩
        · unfold Lss.relax; dsimp only; rw [if_neg htp, ht]; dsimp only
          rw [if_neg hlt]
        · rw [(setGoal_eq P _ _).2.1]; exact hi
        · rw [(setGoal_eq P _ _).1]; exact his

theorem Base.relaxAll (hd : CostOk P.d r) {s : Nat} : ∀ (os : List O) {x : L S O C}, Base P r x → s < x.next →
    (∀ o ∈ os, o ∈ P.d.ops (x.nd s).st) →
    ∃ y, relaxAll P s os x = .ok y ∧ Base P r y ∧ Ext x y ∧ ∀ o ∈ os, ∃ j < y.next, (y.nd j).st = P.d.app (x.nd s).st o
  | [], x, hx, _, _ => ⟨x, rfl, hx, .refl x, fun o ho => absurd ho (by simp)⟩
  | o :: os, x, hx, hs, ho => by
    obtain ⟨y, h1, h2, h3, j, h5, h6⟩ := hx.relax hd hs (ho o List.mem_cons_self)
    have es := (h3.same s hs).1
    obtain ⟨z, k1, k2, k3, k5⟩ := Base.relaxAll hd os h2 (lt_of_lt_of_le hs h3.next)
      (fun o' ho' => by rw [es]; exact ho o' (List.mem_cons_of_mem _ ho'))
    rw [es] at k5
    refine ⟨z, by rw [Lss.relaxAll, h1]; exact k1, k2, h3.trans k3, ?_⟩
    intro o' ho'
    rcases List.mem_cons.1 ho' with rfl | ho'
    · exact ⟨j, lt_of_lt_of_le h5 k3.next, (k3.same j h5).1.trans h6⟩
    · exact k5 o' ho'

/-- Between two expansions. -/
structure Quiet (P : Par S O C) (r : S) (x : L S O C) : Prop where
  base : Base P r x
  known : ∀ i < x.next, (x.nd i).closed = true → Known P x i

theorem Quiet.expand (hd : CostOk P.d r) {x : L S O C} (hx : Quiet P r x) (hne : x.q.data ≠ []) :
    ∃ s q y, BinHeap.pop (BinHeap.predOf flt (keyF P x.nd)) x.q = (some s, q) ∧ s < x.next ∧
      lssExpand P s { x with m := x.m.call, q := q } = .ok y ∧ Quiet P r y ∧ x.next ≤ y.next ∧
      ∀ i < x.next, (y.nd i).st = (x.nd i).st ∧ ((y.nd i).closed = true ↔ (x.nd i).closed = true ∨ i = s) := by
  obtain ⟨s, q, h1, h2, h3, h4⟩ := pop_rep flt_strictWeak hx.base.rep hne
  have hsq : s ∈ x.q.data := List.mem_toFinset.1 h2
  have hs : s < x.next := hx.base.inv.sub s hsq
  set x1 : L S O C := { x with m := x.m.call, q := q } with hx1
  have hqm : ∀ i, i ∈ q.data ↔ i ≠ s ∧ i ∈ x.q.data := fun i => by
    rw [h4.mem, Finset.mem_erase, List.mem_toFinset]
  have en : ∀ i, i ≠ s → (closeNode s x1).nd i = x.nd i := fun i hi => Function.update_of_ne hi _ _
  have es : (closeNode s x1).nd s = { x.nd s with closed := true } := Function.update_self _ _ _
  have ecl : ∀ i, ((closeNode s x1).nd i).closed = true ↔ (x.nd i).closed = true ∨ i = s := fun i => by
    by_cases hi : i = s
    · rw [hi, es]; exact ⟨fun _ => Or.inr rfl, fun _ => rfl⟩
    · rw [en i hi]; exact ⟨Or.inl, fun h => h.resolve_right hi⟩
  have est : ∀ i, ((closeNode s x1).nd i).st = (x.nd i).st := fun i => (closeNode_nd s x1 i).1
  have eg : ∀ i, ((closeNode s x1).nd i).g = (x.nd i).g := fun i => (closeNode_nd s x1 i).2.2.1
  have ef : ∀ i, ((closeNode s x1).nd i).f = (x.nd i).f := fun i => (closeNode_nd s x1 i).2.2.2.2
  obtain ⟨m2, m3, m4⟩ := expandNode_memOk (P := P) (m := x.m.call) ⟨hx.base.mem.pred1, hx.base.mem.pred2⟩ (x.nd s).st
  set z : L S O C := { closeNode s x1 with m := expandNode P (x.nd s).st x.m.call } with hz
  have hinv1 : Inv P r x1 :=
    ⟨hx.base.inv.tree, hx.base.inv.tab1, hx.base.inv.tab2, fun i hi => hx.base.inv.sub i ((hqm i).1 hi).2, hx.base.inv.goal⟩
  have hbase : Base P r z := by
    refine ⟨(hinv1.close s).mem _ (closeNode s x1).nclosed, m2, ?_, ?_, ?_, ?_, ?_, ?_⟩
    · have : HeapRep flt (keyF P (closeNode s x1).nd) q (x.q.data.toFinset.erase s) := h4.congr fun n _ => by
        unfold keyF; rw [ef, eg, est]
      exact ⟨this.inv, rfl, this.absent⟩
    · intro i hi
      show i ∈ q.data ∨ ((closeNode s x1).nd i).closed = true
      rw [hqm, ecl]
      by_cases his : i = s
      · exact Or.inr (Or.inr his)
      · exact (hx.base.stat i hi).imp (fun h => ⟨his, h⟩) Or.inl
    · show ((closeNode s x1).nd 0).closed = true → 0 ∉ q.data
      rw [ecl, hqm]
      rintro (h | h) ⟨a, b⟩
      · exact hx.base.root h b
      · exact a h
    · intro i hi
      show ((closeNode s x1).nd i).closed = true → (expandNode P (x.nd s).st x.m.call).expd ((closeNode s x1).nd i).st = true
      rw [ecl, est]
      rintro (h | rfl)
      · exact m4 _ (hx.base.expd i hi h)
      · exact m3
    · have hcs : closeds z = insert s (closeds x) := by
        ext i
        rw [Finset.mem_insert, mem_closeds, mem_closeds]
        show i < x.next ∧ ((closeNode s x1).nd i).closed = true ↔ _
        rw [ecl]
        constructor
        · rintro ⟨a, b | b⟩
          · exact Or.inr ⟨a, b⟩
          · exact Or.inl b
        · rintro (b | ⟨a, b⟩)
          · exact ⟨b ▸ hs, Or.inr b⟩
          · exact ⟨a, Or.inl b⟩
      show (if (x.nd s).closed then x.nclosed else x.nclosed + 1) = _
      rw [hcs, hx.base.ncl]
      by_cases hso : (x.nd s).closed = true
      · rw [if_pos hso, Finset.insert_eq_of_mem (mem_closeds.2 ⟨hs, hso⟩)]
      · rw [if_neg hso, Finset.card_insert_of_notMem]
        rw [mem_closeds]
        exact fun hc => hso hc.2
    · intro hn i hi
      show P.d.goal ((closeNode s x1).nd i).st = false
      rw [est]; exact hx.base.nogoal hn i hi
  obtain ⟨y, k1, k2, k3, k5⟩ := Base.relaxAll hd (P.d.ops (x.nd s).st) hbase (s := s) hs
    (fun o ho => by show o ∈ P.d.ops ((closeNode s x1).nd s).st; rw [est]; exact ho)
  have hzs : ∀ i < x.next, (y.nd i).st = (x.nd i).st ∧ ((y.nd i).closed = true ↔ (x.nd i).closed = true ∨ i = s) := by
    intro i hi
    obtain ⟨a1, a2⟩ := k3.same i hi
    exact ⟨a1.trans (est i), by rw [a2]; exact ecl i⟩
  have hcls : ∀ i < y.next, (y.nd i).closed = true → i < x.next ∧ ((x.nd i).closed = true ∨ i = s) := by
    intro i hi hcl
    by_cases hix : i < x.next
    · exact ⟨hix, (hzs i hix).2.1 hcl⟩
    · have := k3.fresh i (not_lt.1 hix) hi
      rw [hcl] at this
      exact absurd this (by simp)
  refine ⟨s, q, y, h1, hs, ?_, ⟨k2, ?_⟩, k3.next, hzs⟩
  · unfold Lss.lssExpand
    dsimp only
    rw [est s]
    exact k1
  · intro i hi hcl
    obtain ⟨hix, hor⟩ := hcls i hi hcl
    by_cases his : i = s
    · subst his
      intro o ho
      rw [(hzs i hix).1] at ho ⊢
      obtain ⟨j, hj, r1⟩ := k5 o ho
      have e1 : (z.nd i).st = (x.nd i).st := est i
      rw [e1] at r1
      exact ⟨j, hj, r1⟩
    · refine Known.ext k3 hix ?_
      intro o ho
      have ho' : o ∈ P.d.ops (x.nd i).st := by rw [← est i]; exact ho
      obtain ⟨j, hj, r1⟩ := hx.known i hix (hor.resolve_right his) o ho'
      refine ⟨j, hj, ?_⟩
      show ((closeNode s x1).nd j).st = P.d.app ((closeNode s x1).nd i).st o
      rw [est, est]; exact r1

theorem quiet_init {m : Mem S C} (hm : MemOk P m) (hg : P.d.goal r = false) : Quiet P r (lssInit P r m) := by
  have hf := full_init (P := P) (r := r) hm rfl hg
  refine ⟨⟨hf.core.inv, hf.core.mem, hf.core.rep, ?_, ?_, hf.core.expd, hf.core.ncl, hf.core.nogoal⟩, ?_⟩
  · intro i hi
    exact Or.inl ((hf.core.stat i hi).2 rfl)
  · intro h
    exact absurd h (by simp [lssInit])
  · intro i _ h
    exact absurd h (by simp [lssInit])

theorem quiet_lssLoop (hd : CostOk P.d r) : ∀ (k : Nat) {x : L S O C}, Quiet P r x → ∃ y, lssLoop P k x = .ok y ∧ MemOk P y.m ∧
      (y.goal = none → Quiet P r y ∧ ∀ i < x.next, (x.nd i).closed = true → (y.nd i).closed = true)
  | 0, x, hx => ⟨x, rfl, hx.base.mem, fun _ => ⟨hx, fun _ _ h => h⟩⟩
  | k + 1, x, hx => by
    rw [lssLoop]
    by_cases hq : x.q.data.isEmpty = true
    · rw [if_pos hq]
      exact ⟨x, rfl, hx.base.mem, fun _ => ⟨hx, fun _ _ h => h⟩⟩
    rw [if_neg hq]
    by_cases hl : x.m.lim P = true
    · rw [if_pos hl]
      refine ⟨_, rfl, ⟨hx.base.mem.pred1, hx.base.mem.pred2⟩, fun _ => ⟨⟨?_, hx.known⟩, fun _ _ h => h⟩⟩
      exact ⟨hx.base.inv.mem _ x.nclosed, ⟨hx.base.mem.pred1, hx.base.mem.pred2⟩, hx.base.rep, hx.base.stat, hx.base.root,
        hx.base.expd, hx.base.ncl, hx.base.nogoal⟩
    rw [if_neg hl]
    obtain ⟨s, q, y, h1, hs, h2, h3, h4, h5⟩ := hx.expand hd (by simpa using hq)
    rw [h1]
    dsimp only
    rw [h2, Outcome.bind_ok]
    by_cases hg : P.d.goal (y.nd s).st = true
    · rw [if_pos hg]
      exact ⟨_, rfl, h3.base.mem, fun hn => absurd hn (by simp)⟩
    · rw [if_neg hg]
      obtain ⟨z, k1, k2, k4⟩ := quiet_lssLoop hd k h3
      refine ⟨z, k1, k2, fun hn => ⟨(k4 hn).1, fun i hi hcl => ?_⟩⟩
      exact (k4 hn).2 i (lt_of_lt_of_le hi h4) ((h5 i hi).2.2 (Or.inl hcl))

/-- A local search from a state that is no goal. -/
theorem quiet_expandLss (hd : CostOk P.d r) (hl : Sticky P) {k : Nat} (hk : 0 < P.look k) {m : Mem S C} (hm : MemOk P m)
    (hg : P.d.goal r = false) :
    ∃ x, expandLss P k r m = .ok x ∧ Inv P r x ∧ MemOk P x.m ∧
      (x.goal = none → Quiet P r x ∧ ((x.nd 0).closed = true ∨ x.m.lim P = true)) := by
  obtain ⟨x, h1, h2, h4⟩ := quiet_lssLoop hd (P.look k) (quiet_init hm hg)
  refine ⟨x, h1, inv_expandLss hd h1, h2, fun hn => ⟨(h4 hn).1, ?_⟩⟩
  obtain ⟨k', hk'⟩ : ∃ k', P.look k = k' + 1 := ⟨P.look k - 1, by omega⟩
  rw [hk', lssLoop] at h1
  have hf := quiet_init (P := P) hm hg
  have h0 : 0 ∈ (lssInit P r m).q.data := (hf.base.stat 0 Nat.zero_lt_one).resolve_right (by simp [lssInit])
  have hne : (lssInit P r m).q.data ≠ [] := List.ne_nil_of_mem h0
  rw [if_neg (by simpa using hne)] at h1
  by_cases hlim : (lssInit P r m).m.lim P = true
  · rw [if_pos hlim] at h1
    injection h1 with h1
    right
    rw [← h1]
    exact hl _ _ _ hlim
  · left
    rw [if_neg hlim] at h1
    obtain ⟨s, q, y, a1, hs, a2, a3, a4, a5⟩ := hf.expand hd hne
    rw [a1] at h1
    dsimp only at h1
    rw [a2, Outcome.bind_ok] at h1
    have hs0 : s = 0 := by
      have : s < 1 := hs
      omega
    subst hs0
    by_cases hgo : P.d.goal (y.nd 0).st = true
    · rw [if_pos hgo] at h1
      injection h1 with h1
      rw [← h1] at hn
      exact absurd hn (by simp)
    · rw [if_neg hgo] at h1
      obtain ⟨z, k1, -, k4⟩ := quiet_lssLoop hd k' a3
      rw [k1] at h1
      injection h1 with h1
      subst h1
      exact (k4 hn).2 0 (lt_of_lt_of_le hs a4) ((a5 0 hs).2.2 (Or.inr rfl))

/-! ## Learning -/

/-- The nodes of the open list of the learning that are not closed. -/
def fringe (x : L S O C) (y : Learn S C) : Finset Nat := y.q.data.toFinset.filter fun i => (x.nd i).closed = false

/-- What holds in the learning even if closed nodes are in the open list. -/
structure SI (x : L S O C) (y : Learn S C) : Prop where
  rep : HeapRep hlt (fun n => y.h (x.nd n).st) y.q y.q.data.toFinset
  sub : ∀ i ∈ y.q.data, i < x.next
  frame : ∀ t, t ∉ y.updated → y.h t = x.m.h t
  upd : ∀ i < x.next, y.upd i = true → (x.nd i).st ∈ y.updated
  inter : ∀ t ∈ y.updated, Interior x t

theorem si_init {x : L S O C} (hx : Base P r x) : SI x (learnInit x) := by
  have hperm : (learnInit x).q.data.Perm x.q.data := by
    have := BinHeap.reinit_perm (BinHeap.predOf hlt fun n => x.m.h (x.nd n).st) ⟨[] ++ x.q.data, x.q.ind⟩
    exact this
  have hmem : ∀ i, i ∈ (learnInit x).q.data ↔ i ∈ x.q.data := fun i => hperm.mem_iff
  have hnd : x.q.data.Nodup := BinHeap.indExact_nodup hx.rep.inv.indExact
  refine ⟨⟨⟨?_, ?_⟩, rfl, ?_⟩, ?_, ?_, ?_, ?_⟩
  · exact BinHeap.reinit_ordered (BinHeap.strictWeak_predOf hlt_strictWeak _) _
  · exact BinHeap.reinit_indExact _ _ (by simpa using hnd)
  · intro n hn
    have hn' : n ∉ x.q.data := fun hc => hn ((hmem n).2 hc)
    have := BinHeap.reinit_frame (BinHeap.predOf hlt fun n => x.m.h (x.nd n).st) ⟨[] ++ x.q.data, x.q.ind⟩ n (by simpa using hn')
    exact this.trans (hx.rep.absent n hn')
  · exact fun i hi => hx.inv.sub i ((hmem i).1 hi)
  · exact fun _ _ => rfl
  · intro i _ hu
    exact absurd hu (by simp [learnInit])
  · intro t ht
    exact absurd ht (by simp [learnInit])

theorem si_edge {x : L S O C} (hx : Base P r x) {y : Learn S C} (hy : SI x y) (s : Nat) (e : S × C) :
    ∃ y', learnEdge P x s e y = .ok y' ∧ SI x y' ∧ y'.nclosed = y.nclosed ∧ fringe x y' = fringe x y := by
  unfold learnEdge
  cases ht : x.tab e.1 with
  | none => exact ⟨y, rfl, hy, rfl, rfl⟩
  | some sp =>
    obtain ⟨hsp, hst⟩ := hx.inv.tab2 _ _ ht
    dsimp only
    by_cases hcl : (x.nd sp).closed = false
    · rw [if_pos hcl]
      exact ⟨y, rfl, hy, rfl, rfl⟩
    rw [if_neg hcl]
    by_cases hcond : y.upd sp = false ∨ P.wt e.2 + y.h (x.nd s).st < y.h e.1
    swap
    · rw [if_neg hcond]
      exact ⟨y, rfl, hy, rfl, rfl⟩
    rw [if_pos hcond]
    have hcl : (x.nd sp).closed = true := by simpa using hcl
    set h' : S → C := Function.update y.h e.1 (P.wt e.2 + y.h (x.nd s).st) with hh'
    have hother : ∀ i < x.next, i ≠ sp → h' (x.nd i).st = y.h (x.nd i).st := fun i hi hne => by
      rw [hh', Function.update_of_ne]
      rw [← hst]
      intro hc
      have h1 := hx.inv.tab1 i hi
      rw [hc, hx.inv.tab1 sp hsp] at h1
      exact hne (Option.some.inj h1).symm
    obtain ⟨q, hq, hrep⟩ := pushupd_rep hlt_strictWeak (key' := fun n => h' (x.nd n).st) (n := sp) hy.rep
      (fun m hm hne => hother m (hy.sub m (List.mem_toFinset.1 hm)) hne)
    have hqm : ∀ m, m ∈ q.data ↔ m = sp ∨ m ∈ y.q.data := fun m => by
      rw [hrep.mem, Finset.mem_insert, List.mem_toFinset]
    rw [hq, Outcome.map_ok]
    have hup : ∀ t, t ∈ (if y.upd sp = false then y.updated ++ [e.1] else y.updated) ↔ t = e.1 ∨ t ∈ y.updated := by
      intro t
      by_cases hu : y.upd sp = false
      · rw [if_pos hu, List.mem_append, List.mem_singleton]
        exact Or.comm
      · rw [if_neg hu]
        refine ⟨Or.inr, ?_⟩
        rintro (rfl | h)
        · rw [← hst]; exact hy.upd sp hsp (by simpa using hu)
        · exact h
    refine ⟨_, rfl, ⟨⟨hrep.inv, rfl, hrep.absent⟩, ?_, ?_, ?_, ?_⟩, rfl, ?_⟩
    · intro i hi
      rcases (hqm i).1 hi with rfl | hi
      · exact hsp
      · exact hy.sub i hi
    · intro t ht'
      dsimp only at ht' ⊢
      rw [hup, not_or] at ht'
      rw [hh', Function.update_of_ne ht'.1]
      exact hy.frame t ht'.2
    · intro i hi hu
      dsimp only at hu ⊢
      rw [hup]
      by_cases his : i = sp
      · rw [his]; exact Or.inl hst
      · rw [Function.update_of_ne his] at hu
        exact Or.inr (hy.upd i hi hu)
    · intro t ht'
      dsimp only at ht'
      rw [hup] at ht'
      rcases ht' with rfl | h
      · exact ⟨sp, hsp, hcl, hst⟩
      · exact hy.inter t h
    · ext i
      unfold fringe
      rw [Finset.mem_filter, Finset.mem_filter, List.mem_toFinset, List.mem_toFinset]
      dsimp only
      rw [hqm]
      constructor
      · rintro ⟨rfl | h, h2⟩
        · rw [hcl] at h2; exact absurd h2 (by simp)
        · exact ⟨h, h2⟩
      · rintro ⟨h, h2⟩
        exact ⟨Or.inr h, h2⟩

theorem si_edges {x : L S O C} (hx : Base P r x) (s : Nat) : ∀ (es : List (S × C)) {y : Learn S C}, SI x y →
    ∃ y', learnEdges P x s es y = .ok y' ∧ SI x y' ∧ y'.nclosed = y.nclosed ∧ fringe x y' = fringe x y
  | [], y, hy => ⟨y, rfl, hy, rfl, rfl⟩
  | e :: es, y, hy => by
    obtain ⟨y', h1, h2, h3, h4⟩ := si_edge hx hy s e
    obtain ⟨z, k1, k2, k3, k4⟩ := si_edges hx s es h2
    exact ⟨z, by rw [learnEdges, h1]; exact k1, k2, k3.trans h3, k4.trans h4⟩

/-- The learning ends: each iteration removes a node that is not closed or counts `nclosed` down. -/
theorem si_loop {x : L S O C} (hx : Base P r x) : ∀ (fuel : Nat) {y : Learn S C}, SI x y →
    y.nclosed + (fringe x y).card < fuel → ∃ y', learnLoop P x fuel y = .ok y' ∧ SI x y'
  | 0, _, _, h => absurd h (by omega)
  | fuel + 1, y, hy, hfuel => by
    rw [learnLoop]
    by_cases hc : y.nclosed = 0 ∨ y.q.data.isEmpty = true
    · rw [if_pos hc]
      exact ⟨y, rfl, hy⟩
    rw [if_neg hc]
    push Not at hc
    obtain ⟨s, q, h1, h2, -, h4⟩ := pop_rep hlt_strictWeak hy.rep (by simpa using hc.2)
    rw [h1]
    dsimp only
    have hsq : s ∈ y.q.data := List.mem_toFinset.1 h2
    have hqm : ∀ i, i ∈ q.data ↔ i ≠ s ∧ i ∈ y.q.data := fun i => by
      rw [h4.mem, Finset.mem_erase, List.mem_toFinset]
    set y1 : Learn S C := { y with q := q, nclosed := if (x.nd s).closed then y.nclosed - 1 else y.nclosed } with hy1
    have hn1 : y1.nclosed = if (x.nd s).closed then y.nclosed - 1 else y.nclosed := rfl
    obtain ⟨z, k1, k2, k3, k4⟩ := si_edges hx s (x.m.preds (x.nd s).st)
      (y := y1)
      ⟨⟨h4.inv, rfl, h4.absent⟩, fun i hi => hy.sub i ((hqm i).1 hi).2, hy.frame, hy.upd, hy.inter⟩
    rw [k1, Outcome.bind_ok]
    refine si_loop hx fuel k2 ?_
    rw [k3, k4, hn1]
    by_cases hcl : (x.nd s).closed = true
    · rw [if_pos hcl]
      have : fringe x y1 ⊆ fringe x y := by
        intro i hi
        unfold fringe at hi ⊢
        rw [Finset.mem_filter, List.mem_toFinset] at hi ⊢
        exact ⟨((hqm i).1 hi.1).2, hi.2⟩
      have := Finset.card_le_card this
      have := hc.1
      omega
    · rw [if_neg hcl]
      have : fringe x y1 ⊂ fringe x y := by
        rw [Finset.ssubset_iff_of_subset]
        · refine ⟨s, ?_, ?_⟩
          · unfold fringe
            rw [Finset.mem_filter, List.mem_toFinset]
            exact ⟨hsq, by simpa using hcl⟩
          · unfold fringe
            rw [Finset.mem_filter, List.mem_toFinset]
            exact fun h => ((hqm s).1 h.1).1 rfl
        · intro i hi
          unfold fringe at hi ⊢
          rw [Finset.mem_filter, List.mem_toFinset] at hi ⊢
          exact ⟨((hqm i).1 hi.1).2, hi.2⟩
      have := Finset.card_lt_card this
      omega

/-- Learning always works; only values of closed states change, and none of these gets less than the heuristic. -/
theorem learn_safe {x : L S O C} (hx : Base P r x) : ∃ h', learn P x = .ok h' ∧
    ∀ s, h' s = x.m.h s ∨ Interior x s ∧ P.h s ≤ h' s := by
  have hcard : (learnInit x).nclosed + (fringe x (learnInit x)).card < x.next + 1 := by
    have h1 : (learnInit x).nclosed = (closeds x).card := hx.ncl
    have h2 : Disjoint (closeds x) (fringe x (learnInit x)) := by
      rw [Finset.disjoint_left]
      intro i hi hi'
      unfold fringe at hi'
      rw [Finset.mem_filter] at hi'
      rw [mem_closeds, hi'.2] at hi
      exact absurd hi.2 (by simp)
    have h3 : closeds x ∪ fringe x (learnInit x) ⊆ Finset.range x.next := by
      intro i hi
      rw [Finset.mem_range]
      rcases Finset.mem_union.1 hi with hi | hi
      · exact (mem_closeds.1 hi).1
      · unfold fringe at hi
        rw [Finset.mem_filter, List.mem_toFinset] at hi
        exact (si_init hx).sub i hi.1
    have h4 := Finset.card_le_card h3
    rw [Finset.card_union_of_disjoint h2, Finset.card_range] at h4
    omega
  obtain ⟨y, h1, h2⟩ := si_loop hx (x.next + 1) (si_init hx) hcard
  refine ⟨learnMax P y, by rw [learn, h1]; rfl, fun s => ?_⟩
  have e : learnMax P y s = if s ∈ y.updated then max (y.h s) (P.h s) else y.h s := foldl_max P.h y.updated y.h s
  rw [e]
  by_cases hs : s ∈ y.updated
  · rw [if_pos hs]
    exact Or.inr ⟨h2.inter s hs, le_max_right _ _⟩
  · rw [if_neg hs]
    exact Or.inl (h2.frame s hs)

/-! ## A step -/

omit [IsOrderedAddMonoid C] in
theorem expandNode_le (s : S) (m : Mem S C) (t : S) : m.h t ≤ (expandNode P s m).h t := by
  have key : ∀ (os : List O) (m : Mem S C), m.h t ≤ (os.foldl (expandOp P s) m).h t := by
    intro os
    induction os with
    | nil => exact fun _ => le_rfl
    | cons o os ih =>
      intro m
      refine le_trans ?_ (ih _)
      show m.h t ≤ Function.update m.h (P.d.app s o) (max (m.h (P.d.app s o)) (m.h s - P.d.cost s o)) t
      by_cases e : t = P.d.app s o
      · rw [e, Function.update_self]; exact le_max_left _ _
      · rw [Function.update_of_ne e]
  unfold expandNode
  split
  · exact le_rfl
  · exact key (P.d.ops s) { m with nexpd := m.nexpd + 1 }

omit [IsOrderedAddMonoid C] in
theorem relax_mh {s : Nat} {o : O} {x y : L S O C} (e : relax P s o x = .ok y) : y.m.h = x.m.h := by
  unfold relax at e
  dsimp only at e
  split at e
  · injection e with e; rw [← e]
  split at e
  · obtain ⟨q, -, rfl⟩ := Outcome.map_eq_ok.1 e
    rw [(setGoal_eq P _ _).2.2.2.2.1]
  · split at e
    · obtain ⟨q, -, rfl⟩ := Outcome.map_eq_ok.1 e
      rw [(setGoal_eq P _ _).2.2.2.2.1]
    · injection e with e
      rw [← e, (setGoal_eq P _ _).2.2.2.2.1]

omit [IsOrderedAddMonoid C] in
theorem relaxAll_mh {s : Nat} : ∀ (os : List O) {x y : L S O C}, relaxAll P s os x = .ok y → y.m.h = x.m.h
  | [], x, y, e => by injection e with e; rw [← e]
  | o :: os, x, y, e => by
    rw [relaxAll] at e
    obtain ⟨z, hz, e⟩ := Outcome.bind_eq_ok.1 e
    rw [relaxAll_mh os e, relax_mh hz]

omit [IsOrderedAddMonoid C] in
/-- During a local search the values do not decrease. -/
theorem lssLoop_mh : ∀ (k : Nat) {x y : L S O C}, lssLoop P k x = .ok y → ∀ t, x.m.h t ≤ y.m.h t
  | 0, x, y, e, t => by injection e with e; rw [← e]
  | k + 1, x, y, e, t => by
    rw [lssLoop] at e
    split at e
    · injection e with e; rw [← e]
    split at e
    · injection e with e
      rw [← e]
      exact le_rfl
    split at e
    · exact absurd e (by simp)
    obtain ⟨z, hz, e⟩ := Outcome.bind_eq_ok.1 e
    have hz' : x.m.h t ≤ z.m.h t := by
      unfold lssExpand at hz
      rw [relaxAll_mh _ hz]
      exact expandNode_le _ x.m.call t
    split at e
    · injection e with e
      subst e
      exact hz'
    · exact hz'.trans (lssLoop_mh k e t)

/-- If a goal can be reached from everywhere, and nothing else than that costs are not negative is asked, a step works. -/
theorem iter_safe {s0 : S} (hd : CostOk P.d s0) (hlive : ∀ s, Reach P.d s0 s → ∃ t c, Walk P.d s t c ∧ P.d.goal t = true)
    (hl : Sticky P) (hco : P.complete = false) {k : Nat} (hk : 0 < P.look k) {cur : S} (hr : Reach P.d s0 cur)
    (hng : P.d.goal cur = false) {m : Mem S C} (hm : MemOk P m) (hge : ∀ s, P.h s ≤ m.h s) :
    ∃ t m' os, iter P k cur m = .ok (t, m', os) ∧ MemOk P m' ∧ (∀ s, P.h s ≤ m'.h s) ∧
      (os = none → ∃ c, P.lim m'.nexpd m'.gend c = true) := by
  obtain ⟨c0, hw0⟩ := hr
  have hdc := costOk_of_walk hd hw0
  obtain ⟨x, h1, hinv, h3, h5⟩ := quiet_expandLss hdc hl hk hm hng
  have hge' : ∀ s, P.h s ≤ x.m.h s := fun s => (hge s).trans (lssLoop_mh _ h1 s)
  unfold iter
  rw [h1, Outcome.bind_ok]
  by_cases hlim : x.m.lim P = true
  · rw [if_pos hlim]
    exact ⟨_, _, _, rfl, ⟨h3.pred1, h3.pred2⟩, hge', fun _ => ⟨_, hlim⟩⟩
  rw [if_neg hlim]
  cases hgo : x.goal with
  | some g =>
    rw [if_neg (by simp), Outcome.bind_ok]
    obtain ⟨g1, g2⟩ := hinv.goal g hgo
    have hne : (x.nd g).st ≠ cur := by
      intro e
      rw [e, hng] at g2
      exact absurd g2 (by simp)
    have hb : bestNode P x cur = .ok (some g) := by
      unfold bestNode
      rw [hgo]
    obtain ⟨t, os, k1, -⟩ := move_ok hinv hb g1 hne
    rw [k1, Outcome.map_ok]
    exact ⟨_, _, _, rfl, ⟨h3.pred1, h3.pred2⟩, hge', fun h => absurd h (by simp)⟩
  | none =>
    rw [if_pos rfl]
    obtain ⟨hx, hcl⟩ := h5 hgo
    have hcl : (x.nd 0).closed = true := hcl.resolve_right hlim
    obtain ⟨h', e, l1⟩ := learn_safe hx.base
    rw [e, Outcome.bind_ok]
    have hopen : ∀ n ∈ x.q.data, (x.nd n).st ≠ cur := by
      intro n hn e
      have h1 := hinv.tab1 n (hinv.sub n hn)
      have h2 := hinv.tab1 0 hinv.tree.pos
      rw [e] at h1
      rw [hinv.tree.root.1, h1] at h2
      injection h2 with h2
      rw [h2] at hn
      exact hx.base.root hcl hn
    -- the open list is not empty
    have hq : x.q.data ≠ [] := by
      intro hq
      obtain ⟨t, c, hw, hg⟩ := hlive cur ⟨c0, hw0⟩
      have hall : ∀ i < x.next, (x.nd i).closed = true := fun i hi =>
        (hx.base.stat i hi).resolve_left (by rw [hq]; simp)
      have : ∃ i < x.next, (x.nd i).st = t := by
        clear hg
        induction hw with
        | nil => exact ⟨0, hinv.tree.pos, hinv.tree.root.1⟩
        | @snoc t c o hw ho ih =>
          obtain ⟨i, hi, rfl⟩ := ih
          exact hx.known i hi (hall i hi) o ho
      obtain ⟨i, hi, rfl⟩ := this
      rw [hx.base.nogoal hgo i hi] at hg
      exact absurd hg (by simp)
    have hex : ∀ (l : List Nat) (b : Option Nat), (∀ n ∈ l, (x.nd n).st ≠ cur) → (b ≠ none ∨ l ≠ []) →
        ∃ n, l.foldl (bestOpen P x cur) b = some n := by
      intro l
      induction l with
      | nil => exact fun b _ h => Option.ne_none_iff_exists'.1 (h.resolve_right (by simp))
      | cons a l ih =>
        intro b hl' _
        refine ih _ (fun n hn => hl' n (List.mem_cons_of_mem _ hn)) (Or.inl ?_)
        unfold bestOpen
        rw [if_neg (hl' a List.mem_cons_self)]
        split
        · simp
        · split <;> simp
    obtain ⟨b, b1⟩ := hex x.q.data none hopen (Or.inr hq)
    have b2 : b ∈ x.q.data := (bestOpen_mem P x cur _ _ b b1).resolve_left (by simp)
    have hb : bestNode P x cur = .ok (some b) := by
      unfold bestNode
      rw [hgo]
      dsimp only
      rw [hco, b1]
      rfl
    obtain ⟨t, os, k1, -⟩ := move_ok hinv hb (hinv.sub b b2) (hopen b b2)
    rw [k1, Outcome.map_ok]
    refine ⟨_, _, _, rfl, ⟨h3.pred1, h3.pred2⟩, fun s => ?_, fun h => absurd h (by simp)⟩
    rcases l1 s with h | h
    · show P.h s ≤ h' s
      rw [h]; exact hge' s
    · exact h.2

/-- If no closed node is in the open list at the end, what is learned is what LSS-LRTA* learns. -/
theorem Quiet.facts {x : L S O C} (hx : Quiet P r x) (hcl : ∀ i ∈ x.q.data, (x.nd i).closed = false)
    (hw : ∀ t c, Walk P.d r t c → ∀ o ∈ P.d.ops t, 0 ≤ P.wt (P.d.cost t o)) : Facts P x where
  tab1 := hx.base.inv.tab1
  tab2 := hx.base.inv.tab2
  sub := hx.base.inv.sub
  exact := hx.base.rep.inv.indExact
  absent := hx.base.rep.absent
  stat i hi := ⟨hcl i, fun h => (hx.base.stat i hi).resolve_right (by rw [h]; simp)⟩
  ncl := hx.base.ncl
  pred1 i hi hc o ho := hx.base.mem.pred1 _ (hx.base.expd i hi hc) o ho
  pred2 k s c hm := (hx.base.mem.pred2 k s c hm).2
  known := hx.known
  wt i hi _ o ho := hw _ _ (hx.base.inv.tree.walk i hi) o ho

end Verif.Lss
