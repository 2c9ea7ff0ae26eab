import Verif.Search.LssInv
import Mathlib.Data.Prod.Lex

/-!
# Local searches of LSS-LRTA* with a consistent heuristic

Closed nodes are never reopened, their costs are final, and every state next to a closed one is known.
-/

namespace Verif.Lss

open Verif.Search

variable {S O C : Type*} [DecidableEq S] [AddCommGroup C] [LinearOrder C]

/-! ## Heaps with exact contents -/

theorem strictWeak_lt {α β : Type*} [LinearOrder β] (f : α → β) {p : α → α → Bool}
    (h : ∀ x y, p x y = true ↔ f x < f y) : BinHeap.StrictWeak p where
  irrefl a := by
    rw [← Bool.not_eq_true, h]; exact lt_irrefl _
  trans a b c h1 h2 := (h a c).2 (((h a b).1 h1).trans ((h b c).1 h2))
  ntrans a b c h1 h2 := by
    rw [← Bool.not_eq_true, h, not_lt] at h1 h2 ⊢
    exact h2.trans h1

omit [AddCommGroup C] in
theorem flt_strictWeak : BinHeap.StrictWeak (flt : C × C × C → C × C × C → Bool) := by
  refine strictWeak_lt (β := C ×ₗ C ×ₗ Cᵒᵈ) (fun x => toLex (x.1, toLex (x.2.1, OrderDual.toDual x.2.2))) fun x y => ?_
  rw [Prod.Lex.toLex_lt_toLex, Prod.Lex.toLex_lt_toLex]
  unfold flt
  by_cases h : x.1 = y.1
  · by_cases h' : x.2.1 = y.2.1 <;> simp [h, h']
  · simp [h]

omit [AddCommGroup C] in
theorem hlt_strictWeak : BinHeap.StrictWeak (hlt : C → C → Bool) :=
  strictWeak_lt (fun x => x) fun x y => by simp [hlt]

theorem spec_pushupdate {κ : Type*} {lt : κ → κ → Bool} {a b : Multiset Nat × (Nat → κ)} {x : Nat} {k : κ} {r : Option Nat}
    (h : BinHeap.Spec lt a (.pushupdate x k) r b) : x ∈ a.1 ∧ b.1 = a.1 ∨ x ∉ a.1 ∧ b.1 = x ::ₘ a.1 := by
  cases h with
  | pushupdateIn m key x k hx => exact Or.inl ⟨hx, rfl⟩
  | pushupdateOut m key x k hx => exact Or.inr ⟨hx, rfl⟩

theorem pushupd_rep {κ : Type*} {lt : κ → κ → Bool} (sw : BinHeap.StrictWeak lt) {key key' : Nat → κ}
    {q : BinHeap.Heap Nat} {s : Finset Nat} {n : Nat} (h : HeapRep lt key q s)
    (hk : ∀ m ∈ s, m ≠ n → key' m = key m) :
    ∃ q', pushupd lt key' q n = .ok q' ∧ HeapRep lt key' q' (insert n s) := by
  have h' : HeapRep lt (Function.update key' n (key n)) q s := h.congr fun m hm => by
    by_cases e : m = n
    · rw [e, Function.update_self]
    · rw [Function.update_of_ne e, hk m hm e]
  have ek : Function.update (Function.update key' n (key n)) n (key' n) = key' := by
    rw [Function.update_idem, Function.update_eq_self]
  have legal : BinHeap.Legal ⟨q, Function.update key' n (key n)⟩ (.pushupdate n (key' n)) := by
    by_cases hn : n ∈ q.data
    · exact Or.inl hn
    · exact Or.inr ⟨hn, by show q.ind n < 0; rw [h'.absent n hn]; decide⟩
  obtain ⟨s', r, e, inv, sp⟩ := BinHeap.exec_refines sw h'.inv _ legal
  have hab := BinHeap.step_absent (by simp) e h'.absent
  simp only [BinHeap.exec, ek] at e
  obtain ⟨q', hq', e⟩ := Outcome.map_eq_ok.1 e
  simp only [Prod.mk.injEq] at e
  obtain ⟨rfl, -⟩ := e
  refine ⟨q', hq', inv, ?_, hab⟩
  have hs : ∀ m, m ∈ s ↔ m ∈ (q.data : Multiset Nat) := fun m => by rw [← h.mem]; rfl
  rcases spec_pushupdate sp with ⟨hx, e⟩ | ⟨hx, e⟩
  · dsimp only at hx e
    ext m
    rw [List.mem_toFinset, Finset.mem_insert, hs, ← Multiset.mem_coe, e]
    exact ⟨Or.inr, fun hm => hm.elim (fun hm => hm ▸ hx) id⟩
  · dsimp only at hx e
    ext m
    rw [List.mem_toFinset, Finset.mem_insert, hs, ← Multiset.mem_coe, e, Multiset.mem_cons]

theorem pop_rep {κ : Type*} {lt : κ → κ → Bool} (sw : BinHeap.StrictWeak lt) {key : Nat → κ} {q : BinHeap.Heap Nat}
    {s : Finset Nat} (h : HeapRep lt key q s) (hne : q.data ≠ []) :
    ∃ n q', BinHeap.pop (BinHeap.predOf lt key) q = (some n, q') ∧ n ∈ s ∧ (∀ m ∈ s, lt (key m) (key n) = false) ∧
      HeapRep lt key q' (s.erase n) := by
  have hs : s ≠ ∅ := by
    rintro rfl
    exact hne (List.toFinset_eq_empty_iff _ |>.1 h.set)
  obtain ⟨n, q', h1, h2, h3, h4⟩ := (heap_law sw).pop key q s h hs
  have h1' : (match BinHeap.pop (BinHeap.predOf lt key) q with
      | (none, _) => Outcome.ub
      | (some n, q') => Outcome.ok (n, q')) = .ok (n, q') := h1
  rcases hp : BinHeap.pop (BinHeap.predOf lt key) q with ⟨_ | y, q1⟩
  · rw [hp] at h1'
    exact absurd h1' (by simp)
  · rw [hp] at h1'
    injection h1' with h1'
    rw [Prod.mk.injEq] at h1'
    obtain ⟨rfl, rfl⟩ := h1'
    exact ⟨y, q1, rfl, h2, h3, h4⟩

/-! ## `expand` -/

/-- Consistency on `T`. -/
def Consis (d : Dom S O C) (T : S → Prop) (h : S → C) : Prop :=
  ∀ s, T s → ∀ o ∈ d.ops s, h s ≤ d.cost s o + h (d.app s o)

/-- The lists of predecessors are those of the expanded states. -/
structure MemOk (P : Par S O C) (m : Mem S C) : Prop where
  pred1 : ∀ s, m.expd s = true → ∀ o ∈ P.d.ops s, (s, P.d.cost s o) ∈ m.preds (P.d.app s o)
  pred2 : ∀ k s c, (s, c) ∈ m.preds k → m.expd s = true ∧ ∃ o ∈ P.d.ops s, P.d.app s o = k ∧ P.d.cost s o = c

variable [IsOrderedAddMonoid C] {P : Par S O C} {r : S} {T : S → Prop}

theorem foldl_expandOp_eq {s : S} : ∀ (os : List O) (m : Mem S C),
    (∀ o ∈ os, m.h s ≤ P.d.cost s o + m.h (P.d.app s o)) →
    (os.foldl (expandOp P s) m).h = m.h ∧ (os.foldl (expandOp P s) m).expd = m.expd ∧
    ∀ k e, e ∈ (os.foldl (expandOp P s) m).preds k ↔ e ∈ m.preds k ∨ ∃ o ∈ os, P.d.app s o = k ∧ e = (s, P.d.cost s o)
  | [], m, _ => ⟨rfl, rfl, fun k e => by simp⟩
  | o :: os, m, hc => by
    have hh : (expandOp P s m o).h = m.h := by
      show Function.update m.h (P.d.app s o) (max (m.h (P.d.app s o)) (m.h s - P.d.cost s o)) = m.h
      rw [max_eq_left, Function.update_eq_self]
      rw [sub_le_iff_le_add']
      exact hc o List.mem_cons_self
    obtain ⟨h1, h2, h3⟩ := foldl_expandOp_eq os (expandOp P s m o) (fun o' ho' => by
      rw [hh]; exact hc o' (List.mem_cons_of_mem _ ho'))
    rw [List.foldl_cons]
    refine ⟨h1.trans hh, h2, fun k e => ?_⟩
    rw [h3]
    have hp : e ∈ (expandOp P s m o).preds k ↔ e ∈ m.preds k ∨ P.d.app s o = k ∧ e = (s, P.d.cost s o) := by
      show e ∈ Function.update m.preds (P.d.app s o) (m.preds (P.d.app s o) ++ [(s, P.d.cost s o)]) k ↔ _
      by_cases hk : k = P.d.app s o
      · rw [hk, Function.update_self, List.mem_append, List.mem_singleton]
        simp
      · rw [Function.update_of_ne hk]
        constructor
        · exact Or.inl
        · rintro (h | ⟨rfl, -⟩)
          · exact h
          · exact absurd rfl hk
    rw [hp]
    constructor
    · rintro ((h | h) | ⟨o', h, h'⟩)
      · exact Or.inl h
      · exact Or.inr ⟨o, List.mem_cons_self, h⟩
      · exact Or.inr ⟨o', List.mem_cons_of_mem _ h, h'⟩
    · rintro (h | ⟨o', h, h'⟩)
      · exact Or.inl (Or.inl h)
      · rcases List.mem_cons.1 h with rfl | h
        · exact Or.inl (Or.inr h')
        · exact Or.inr ⟨o', h, h'⟩

theorem expandNode_spec {m : Mem S C} (hm : MemOk P m) (hc : Consis P.d T m.h) {s : S} (hs : T s) :
    (expandNode P s m).h = m.h ∧ MemOk P (expandNode P s m) ∧ (expandNode P s m).expd s = true ∧
      ∀ t, m.expd t = true → (expandNode P s m).expd t = true := by
  unfold expandNode
  split
  · rename_i h
    exact ⟨rfl, hm, h, fun _ h => h⟩
  rename_i hx
  obtain ⟨h1, h2, h3⟩ := foldl_expandOp_eq (P.d.ops s) { m with nexpd := m.nexpd + 1 } (fun o ho => hc s hs o ho)
  dsimp only at h1 h2 h3 ⊢
  have hmono : ∀ t, m.expd t = true →
      Function.update ((P.d.ops s).foldl (expandOp P s) { m with nexpd := m.nexpd + 1 }).expd s true t = true := by
    intro t ht
    by_cases e : t = s
    · rw [e, Function.update_self]
    · rw [Function.update_of_ne e, h2]; exact ht
  refine ⟨h1, ⟨?_, ?_⟩, Function.update_self _ _ _, hmono⟩
  · intro t ht o ho
    dsimp only at ht ⊢
    rw [h3]
    by_cases e : t = s
    · subst e
      exact Or.inr ⟨o, ho, rfl, rfl⟩
    · rw [Function.update_of_ne e, h2] at ht
      exact Or.inl (hm.pred1 t ht o ho)
  · intro k t c he
    dsimp only at he ⊢
    rcases (h3 k (t, c)).1 he with he | ⟨o, ho, hk, e⟩
    · obtain ⟨a1, a2⟩ := hm.pred2 k t c he
      exact ⟨hmono t a1, a2⟩
    · rw [Prod.mk.injEq] at e
      obtain ⟨rfl, rfl⟩ := e
      exact ⟨Function.update_self _ _ _, o, ho, hk, rfl⟩

/-! ## The invariant -/

/-- The number of closed nodes. -/
def closeds (x : L S O C) : Finset Nat := (Finset.range x.next).filter fun i => (x.nd i).closed = true

omit [DecidableEq S] [AddCommGroup C] [LinearOrder C] [IsOrderedAddMonoid C] in
theorem mem_closeds {x : L S O C} {i : Nat} : i ∈ closeds x ↔ i < x.next ∧ (x.nd i).closed = true := by
  rw [closeds, Finset.mem_filter, Finset.mem_range]

/-- What always holds. -/
structure Core (P : Par S O C) (r : S) (h : S → C) (x : L S O C) : Prop where
  inv : Inv P r x
  mh : x.m.h = h
  mem : MemOk P x.m
  rep : HeapRep flt (keyF P x.nd) x.q x.q.data.toFinset
  fval : ∀ i < x.next, (x.nd i).f = (x.nd i).g + h (x.nd i).st
  stat : ∀ i < x.next, i ∈ x.q.data ↔ (x.nd i).closed = false
  expd : ∀ i < x.next, (x.nd i).closed = true → x.m.expd (x.nd i).st = true
  parc : ∀ i < x.next, ∀ j, (x.nd i).par = some j → (x.nd j).closed = true
  ncl : x.nclosed = (closeds x).card
  nogoal : x.goal = none → ∀ i < x.next, P.d.goal (x.nd i).st = false

/-- All successors of node `i` are known, at least as cheaply as through `i`. -/
def Relaxed (P : Par S O C) (x : L S O C) (i : Nat) : Prop :=
  ∀ o ∈ P.d.ops (x.nd i).st, ∃ j < x.next, (x.nd j).st = P.d.app (x.nd i).st o ∧
    (x.nd j).g ≤ (x.nd i).g + P.d.cost (x.nd i).st o

/-- Between two expansions. -/
structure Full (P : Par S O C) (r : S) (h : S → C) (x : L S O C) : Prop where
  core : Core P r h x
  relaxed : ∀ i < x.next, (x.nd i).closed = true → Relaxed P x i
  mono : ∀ i < x.next, (x.nd i).closed = true → ∀ j ∈ x.q.data, (x.nd i).f ≤ (x.nd j).f

/-- How a state of the local search grows while node `s` is expanded. -/
structure Grow (x y : L S O C) : Prop where
  next : x.next ≤ y.next
  same : ∀ i < x.next, (y.nd i).st = (x.nd i).st ∧ (y.nd i).closed = (x.nd i).closed ∧ (y.nd i).g ≤ (x.nd i).g
  closed : ∀ i < x.next, (x.nd i).closed = true → y.nd i = x.nd i
  fresh : ∀ i, x.next ≤ i → i < y.next → (y.nd i).closed = false

omit [DecidableEq S] [AddCommGroup C] [IsOrderedAddMonoid C] in
theorem Grow.refl (x : L S O C) : Grow x x := ⟨le_rfl, fun _ _ => ⟨rfl, rfl, le_rfl⟩, fun _ _ _ => rfl, fun i h1 h2 => absurd h2 (by omega)⟩

omit [DecidableEq S] [AddCommGroup C] [IsOrderedAddMonoid C] in
theorem Grow.trans {x y z : L S O C} (h : Grow x y) (h' : Grow y z) : Grow x z := by
  refine ⟨h.next.trans h'.next, fun i hi => ?_, fun i hi hc => ?_, fun i h1 h2 => ?_⟩
  · have a := h.same i hi
    have b := h'.same i (lt_of_lt_of_le hi h.next)
    exact ⟨b.1.trans a.1, b.2.1.trans a.2.1, b.2.2.trans a.2.2⟩
  · rw [h'.closed i (lt_of_lt_of_le hi h.next) (by rw [(h.same i hi).2.1]; exact hc), h.closed i hi hc]
  · by_cases hy : i < y.next
    · rw [(h'.same i hy).2.1]; exact h.fresh i h1 hy
    · exact h'.fresh i (not_lt.1 hy) h2

omit [DecidableEq S] [IsOrderedAddMonoid C] in
theorem Relaxed.grow {x y : L S O C} (h : Grow x y) {i : Nat} (hi : i < x.next) (hc : (x.nd i).closed = true)
    (hr : Relaxed P x i) : Relaxed P y i := by
  unfold Relaxed
  rw [h.closed i hi hc]
  intro o ho
  obtain ⟨j, hj, h1, h2⟩ := hr o ho
  obtain ⟨a1, -, a3⟩ := h.same j hj
  exact ⟨j, lt_of_lt_of_le hj h.next, a1.trans h1, a3.trans h2⟩

omit [IsOrderedAddMonoid C] in
theorem setGoal_none {x : L S O C} {i : Nat} (hg : (setGoal P i x).goal = none) :
    x.goal = none ∧ P.d.goal (x.nd i).st = false := by
  unfold setGoal at hg
  split at hg
  · exact absurd hg (by simp)
  · rename_i hc
    refine ⟨hg, ?_⟩
    cases hgo : P.d.goal (x.nd i).st with
    | false => rfl
    | true => exact absurd ⟨hgo, fun j hj => absurd (hg.symm.trans hj) (by simp)⟩ hc

/-- A goal may be noted. -/
theorem Core.setGoal {h : S → C} {x : L S O C} (hx : Core P r h x) {i : Nat} (hi : i < x.next) :
    Core P r h (setGoal P i x) := by
  have hg := @setGoal_none S O C _ _ _ P x i
  obtain ⟨e1, e2, e3, e4, e5, e6⟩ := setGoal_eq P i x
  have ec : closeds (Lss.setGoal P i x) = closeds x := by unfold closeds; rw [e1, e2]
  refine ⟨hx.inv.setGoal hi, e5 ▸ hx.mh, e5 ▸ hx.mem, ?_, ?_, ?_, ?_, ?_, ?_, ?_⟩
  · rw [e4, e1]; exact hx.rep
  · rw [e1, e2]; exact hx.fval
  · rw [e1, e2, e4]; exact hx.stat
  · rw [e1, e2, e5]; exact hx.expd
  · rw [e1, e2]; exact hx.parc
  · rw [e6, ec]; exact hx.ncl
  · intro hn
    rw [e1, e2]
    exact hx.nogoal (hg hn).1

omit [IsOrderedAddMonoid C] in
theorem grow_setGoal {x y : L S O C} (h : Grow x y) (i : Nat) : Grow x (setGoal P i y) := by
  obtain ⟨e1, e2, -⟩ := setGoal_eq P i y
  exact ⟨by rw [e2]; exact h.next, by rw [e1]; exact h.same, by rw [e1]; exact h.closed,
    by rw [e1, e2]; exact h.fresh⟩

/-- `s` is the node that is expanded: closed nodes are no better, open ones no worse. -/
structure Around (s : Nat) (x : L S O C) : Prop where
  lo : ∀ i < x.next, (x.nd i).closed = true → (x.nd i).f ≤ (x.nd s).f
  hi : ∀ j ∈ x.q.data, (x.nd s).f ≤ (x.nd j).f

omit [IsOrderedAddMonoid C] in
theorem around_setGoal {s : Nat} {x : L S O C} (h : Around s x) (i : Nat) : Around s (setGoal P i x) := by
  obtain ⟨e1, e2, -, e4, -⟩ := setGoal_eq P i x
  exact ⟨by rw [e1, e2]; exact h.lo, by rw [e1, e4]; exact h.hi⟩

theorem Core.relax (hd : CostOk P.d r) {h : S → C} (hT : ∀ t c, Walk P.d r t c → T t) (hc : Consis P.d T h)
    {x : L S O C} (hx : Core P r h x) {s : Nat} {o : O} (hs : s < x.next) (hcl : (x.nd s).closed = true)
    (ho : o ∈ P.d.ops (x.nd s).st) (ha : Around s x) :
    ∃ y, relax P s o x = .ok y ∧ Core P r h y ∧ Grow x y ∧ Around s y ∧
      ∃ j < y.next, (y.nd j).st = P.d.app (x.nd s).st o ∧ (y.nd j).g ≤ (x.nd s).g + P.d.cost (x.nd s).st o := by
  have hcost := hd _ _ (hx.inv.tree.walk s hs) _ ho
  have hcons := hc _ (hT _ _ (hx.inv.tree.walk s hs)) o ho
  have hfs := hx.fval s hs
  by_cases htp : toParent x s (P.d.app (x.nd s).st o) = true
  · -- the parent
    refine ⟨x, ?_, hx, .refl x, ha, ?_⟩
    · unfold Lss.relax; dsimp only; rw [if_pos htp]
    · unfold toParent at htp
      split at htp
      · exact absurd htp (by simp)
      · rename_i p hp
        obtain ⟨hp1, hp2⟩ := hx.inv.tree.par_le hd s hs p hp
        exact ⟨p, hp1, by simpa using htp, hp2.trans (le_add_of_nonneg_right hcost)⟩
  · cases ht : x.tab (P.d.app (x.nd s).st o) with
    | none =>
      set nd := setNode x s x.next (P.d.app (x.nd s).st o) (P.d.cost (x.nd s).st o) o false with hnd
      have hself : nd x.next = ⟨P.d.app (x.nd s).st o, some s, (x.nd s).g + P.d.cost (x.nd s).st o,
          (x.nd s).g + P.d.cost (x.nd s).st o + x.m.h (P.d.app (x.nd s).st o), o, false⟩ := Function.update_self _ _ _
      have hne : ∀ i < x.next, nd i = x.nd i := fun i hi => Function.update_of_ne (by omega) _ _
      have hout : x.next ∉ x.q.data := fun hc => absurd (hx.inv.sub _ hc) (by omega)
      obtain ⟨q, hq, hrep⟩ := pushupd_rep flt_strictWeak (key' := keyF P nd) (n := x.next) hx.rep (fun m hm _ => by
        unfold keyF
        rw [hne m (hx.inv.sub m (List.mem_toFinset.1 hm))])
      have hqm : ∀ m, m ∈ q.data ↔ m = x.next ∨ m ∈ x.q.data := fun m => by
        rw [hrep.mem, Finset.mem_insert, List.mem_toFinset]
      set y : L S O C := { x with
        nd := nd, next := x.next + 1, tab := Function.update x.tab (P.d.app (x.nd s).st o) (some x.next), q := q } with hy
      have hrel : Lss.relax P s o x = .ok (Lss.setGoal P x.next y) := by
        unfold Lss.relax; dsimp only; rw [if_neg htp, ht]; dsimp only
        rw [← hnd, hq]
        rfl
      have hinv : Inv P r (Lss.setGoal P x.next y) := (hx.inv.relax hd hs ho hrel).1
      have hgrow : Grow x y := ⟨Nat.le_succ _, fun i hi => by
          show (nd i).st = _ ∧ (nd i).closed = _ ∧ (nd i).g ≤ _
          rw [hne i hi]; exact ⟨rfl, rfl, le_rfl⟩, fun i hi _ => hne i hi, fun i h1 h2 => by
          have : i = x.next := Nat.le_antisymm (Nat.le_of_lt_succ h2) h1
          show (nd i).closed = false
          rw [this, hself]⟩
      have hfn : (nd x.next).f = (nd x.next).g + h (nd x.next).st := by rw [hself, ← hx.mh]
      have hfge : (x.nd s).f ≤ (nd x.next).f := by
        rw [hfn, hself, hfs, add_assoc]
        gcongr
      have hcore : Core P r h (Lss.setGoal P x.next y) := by
        obtain ⟨e1, e2, e3, e4, e5, e6⟩ := setGoal_eq P x.next y
        refine ⟨hinv, e5 ▸ hx.mh, e5 ▸ hx.mem, ?_, ?_, ?_, ?_, ?_, ?_, ?_⟩
        · rw [e1, e4]
          refine ⟨hrep.inv, rfl, hrep.absent⟩
        · rw [e1, e2]
          intro i hi
          by_cases hin : i = x.next
          · rw [hin]; exact hfn
          · have hi' : i < x.next := Nat.lt_of_le_of_ne (Nat.le_of_lt_succ hi) hin
            show (nd i).f = (nd i).g + h (nd i).st
            rw [hne i hi']; exact hx.fval i hi'
        · rw [e1, e2, e4]
          intro i hi
          show i ∈ q.data ↔ (nd i).closed = false
          rw [hqm]
          by_cases hin : i = x.next
          · rw [hin, hself]; exact ⟨fun _ => rfl, fun _ => Or.inl rfl⟩
          · have hi' : i < x.next := Nat.lt_of_le_of_ne (Nat.le_of_lt_succ hi) hin
            rw [hne i hi', ← hx.stat i hi']
            exact ⟨fun h => h.resolve_left hin, Or.inr⟩
        · rw [e1, e2, e5]
          intro i hi
          show (nd i).closed = true → x.m.expd (nd i).st = true
          by_cases hin : i = x.next
          · rw [hin, hself]; intro hc; exact absurd hc (by simp)
          · have hi' : i < x.next := Nat.lt_of_le_of_ne (Nat.le_of_lt_succ hi) hin
            rw [hne i hi']; exact hx.expd i hi'
        · rw [e1, e2]
          intro i hi j
          show (nd i).par = some j → (nd j).closed = true
          by_cases hin : i = x.next
          · rw [hin, hself]
            intro hj
            injection hj with hj
            rw [← hj, hne s hs]; exact hcl
          · have hi' : i < x.next := Nat.lt_of_le_of_ne (Nat.le_of_lt_succ hi) hin
            rw [hne i hi']
            intro hj
            rw [hne j (hx.inv.tree.par_le hd i hi' j hj).1]
            exact hx.parc i hi' j hj
        · rw [e6]
          show x.nclosed = _
          rw [hx.ncl]
          congr 1
          ext i
          rw [mem_closeds, mem_closeds, e1, e2]
          show _ ↔ i < x.next + 1 ∧ (nd i).closed = true
          by_cases hin : i = x.next
          · rw [hin, hself]; simp
          · constructor
            · rintro ⟨h1, h2⟩
              exact ⟨by omega, by rw [hne i h1]; exact h2⟩
            · rintro ⟨h1, h2⟩
              have hi' : i < x.next := by omega
              exact ⟨hi', by rw [← hne i hi']; exact h2⟩
        · intro hn
          obtain ⟨g1, g2⟩ := setGoal_none hn
          rw [e1, e2]
          intro i hi
          by_cases hin : i = x.next
          · rw [hin]; exact g2
          · have hi' : i < x.next := Nat.lt_of_le_of_ne (Nat.le_of_lt_succ hi) hin
            show P.d.goal (nd i).st = false
            rw [hne i hi']; exact hx.nogoal g1 i hi'
      have har : Around s y := by
        refine ⟨?_, ?_⟩
        · intro i hi
          show (nd i).closed = true → (nd i).f ≤ (nd s).f
          by_cases hin : i = x.next
          · rw [hin, hself]; intro hc; exact absurd hc (by simp)
          · have hi' : i < x.next := Nat.lt_of_le_of_ne (Nat.le_of_lt_succ hi) hin
            rw [hne i hi', hne s hs]; exact ha.lo i hi'
        · intro j hj
          show (nd s).f ≤ (nd j).f
          rw [hne s hs]
          rcases (hqm j).1 hj with rfl | hj
          · exact hfge
          · rw [hne j (hx.inv.sub j hj)]; exact ha.hi j hj
      refine ⟨_, hrel, hcore, grow_setGoal hgrow _, around_setGoal har _, x.next, ?_, ?_, ?_⟩
      · rw [(setGoal_eq P _ _).2.1]; exact Nat.lt_succ_self _
      · rw [(setGoal_eq P _ _).1]
        show (nd x.next).st = _
        rw [hself]
      · rw [(setGoal_eq P _ _).1]
        show (nd x.next).g ≤ _
        rw [hself]
    | some i =>
      obtain ⟨hi, his⟩ := hx.inv.tab2 _ _ ht
      by_cases hlt : (x.nd s).g + P.d.cost (x.nd s).st o < (x.nd i).g
      · -- improved: the node is open
        have hopen : (x.nd i).closed = false := by
          by_contra hcc
          have hcc : (x.nd i).closed = true := by simpa using hcc
          have h1 := ha.lo i hi hcc
          rw [hx.fval i hi, hfs, his] at h1
          have h2 : (x.nd s).g + h (x.nd s).st ≤ (x.nd s).g + P.d.cost (x.nd s).st o + h (P.d.app (x.nd s).st o) := by
            rw [add_assoc]; gcongr
          have h3 := add_le_add_iff_right (h (P.d.app (x.nd s).st o)) |>.1 (h1.trans h2)
          exact absurd hlt (not_lt.2 h3)
        have hne_s : i ≠ s := by
          rintro rfl
          rw [hopen] at hcl
          exact absurd hcl (by simp)
        have hin : i ∈ x.q.data := (hx.stat i hi).2 hopen
        set nd := setNode x s i (P.d.app (x.nd s).st o) (P.d.cost (x.nd s).st o) o (x.nd i).closed with hnd
        have hself : nd i = ⟨P.d.app (x.nd s).st o, some s, (x.nd s).g + P.d.cost (x.nd s).st o,
          (x.nd s).g + P.d.cost (x.nd s).st o + x.m.h (P.d.app (x.nd s).st o), o, (x.nd i).closed⟩ :=
          Function.update_self _ _ _
        have hne : ∀ j, j ≠ i → nd j = x.nd j := fun j hj => Function.update_of_ne hj _ _
        have hst : ∀ j, (nd j).st = (x.nd j).st := fun j => by
          by_cases hj : j = i
          · rw [hj, hself, his]
          · rw [hne j hj]
        have hcl' : ∀ j, (nd j).closed = (x.nd j).closed := fun j => by
          by_cases hj : j = i
          · rw [hj, hself]
          · rw [hne j hj]
        obtain ⟨q, hq, hrep⟩ := pushupd_rep flt_strictWeak (key' := keyF P nd) (n := i) hx.rep (fun m _ hm => by
          unfold keyF
          rw [hne m hm])
        have hqm : ∀ m, m ∈ q.data ↔ m ∈ x.q.data := fun m => by
          rw [hrep.mem, Finset.mem_insert, List.mem_toFinset]
          exact ⟨fun h => h.elim (fun e => e ▸ hin) id, Or.inr⟩
        set y : L S O C := { x with
            nd := nd, q := q
            m := { x.m with dups := if (x.nd i).par.isSome then x.m.dups + 1 else x.m.dups } } with hy
        have hrel : Lss.relax P s o x = .ok (Lss.setGoal P i y) := by
          unfold Lss.relax; dsimp only; rw [if_neg htp, ht]; dsimp only
          rw [if_pos hlt, ← hnd, hq]
          rfl
        have hinv : Inv P r (Lss.setGoal P i y) := (hx.inv.relax hd hs ho hrel).1
        have hgrow : Grow x y := by
          refine ⟨le_rfl, fun j hj => ⟨hst j, hcl' j, ?_⟩, fun j hj hc => hne j ?_, fun i h1 h2 => absurd h2 (not_lt.2 h1)⟩
          · show (nd j).g ≤ _
            by_cases hji : j = i
            · rw [hji, hself]; exact hlt.le
            · rw [hne j hji]
          · rintro rfl
            rw [hopen] at hc
            exact absurd hc (by simp)
        have hfn : (nd i).f = (nd i).g + h (nd i).st := by rw [hself, ← hx.mh]
        have hfge : (x.nd s).f ≤ (nd i).f := by
          rw [hfn, hself, hfs, add_assoc]
          gcongr
        have hcore : Core P r h (Lss.setGoal P i y) := by
          obtain ⟨e1, e2, e3, e4, e5, e6⟩ := setGoal_eq P i y
          refine ⟨hinv, e5 ▸ hx.mh, e5 ▸ ⟨hx.mem.pred1, hx.mem.pred2⟩, ?_, ?_, ?_, ?_, ?_, ?_, ?_⟩
          · rw [e1, e4]
            exact ⟨hrep.inv, rfl, hrep.absent⟩
          · rw [e1, e2]
            intro j hj
            show (nd j).f = (nd j).g + h (nd j).st
            by_cases hji : j = i
            · rw [hji]; exact hfn
            · rw [hne j hji]; exact hx.fval j hj
          · rw [e1, e2, e4]
            intro j hj
            show j ∈ q.data ↔ (nd j).closed = false
            rw [hqm, hcl']; exact hx.stat j hj
          · rw [e1, e2, e5]
            intro j hj
            show (nd j).closed = true → x.m.expd (nd j).st = true
            rw [hcl', hst]; exact hx.expd j hj
          · rw [e1, e2]
            intro j hj k
            show (nd j).par = some k → (nd k).closed = true
            rw [hcl']
            by_cases hji : j = i
            · rw [hji, hself]
              intro hk
              injection hk with hk
              rw [← hk]; exact hcl
            · rw [hne j hji]; exact hx.parc j hj k
          · rw [e6]
            show x.nclosed = _
            rw [hx.ncl]
            congr 1
            ext j
            rw [mem_closeds, mem_closeds, e1, e2]
            show _ ↔ j < x.next ∧ (nd j).closed = true
            rw [hcl']
          · intro hn
            obtain ⟨g1, g2⟩ := setGoal_none hn
            rw [e1, e2]
            intro j hj
            show P.d.goal (nd j).st = false
            rw [hst]; exact hx.nogoal g1 j hj
        have har : Around s y := by
          refine ⟨?_, ?_⟩
          · intro j hj
            show (nd j).closed = true → (nd j).f ≤ (nd s).f
            rw [hcl', hne s (Ne.symm hne_s)]
            intro hc
            have hji : j ≠ i := by
              rintro rfl
              rw [hopen] at hc
              exact absurd hc (by simp)
            rw [hne j hji]; exact ha.lo j hj hc
          · intro j hj
            show (nd s).f ≤ (nd j).f
            rw [hne s (Ne.symm hne_s)]
            by_cases hji : j = i
            · rw [hji]; exact hfge
            · rw [hne j hji]; exact ha.hi j ((hqm j).1 hj)
        refine ⟨_, hrel, hcore, grow_setGoal hgrow _, around_setGoal har _, i, ?_, ?_, ?_⟩
        · rw [(setGoal_eq P _ _).2.1]; exact hi
        · rw [(setGoal_eq P _ _).1]
          show (nd i).st = _
          rw [hself]
        · rw [(setGoal_eq P _ _).1]
          show (nd i).g ≤ _
          rw [hself]
      · refine ⟨Lss.setGoal P i x, ?_, hx.setGoal hi, grow_setGoal (.refl x) _, around_setGoal ha _, i, ?_, ?_, ?_⟩
        · unfold Lss.relax; dsimp only; rw [if_neg htp, ht]; dsimp only
          rw [if_neg hlt]
        · rw [(setGoal_eq P _ _).2.1]; exact hi
        · rw [(setGoal_eq P _ _).1]; exact his
        · rw [(setGoal_eq P _ _).1]; exact not_lt.1 hlt

theorem Core.relaxAll (hd : CostOk P.d r) {h : S → C} (hT : ∀ t c, Walk P.d r t c → T t) (hc : Consis P.d T h)
    {s : Nat} : ∀ (os : List O) {x : L S O C}, Core P r h x → s < x.next → (x.nd s).closed = true →
    (∀ o ∈ os, o ∈ P.d.ops (x.nd s).st) → Around s x →
    ∃ y, relaxAll P s os x = .ok y ∧ Core P r h y ∧ Grow x y ∧ Around s y ∧
      ∀ o ∈ os, ∃ j < y.next, (y.nd j).st = P.d.app (x.nd s).st o ∧ (y.nd j).g ≤ (x.nd s).g + P.d.cost (x.nd s).st o
  | [], x, hx, _, _, _, ha => ⟨x, rfl, hx, .refl x, ha, fun o ho => absurd ho (by simp)⟩
  | o :: os, x, hx, hs, hcl, ho, ha => by
    obtain ⟨y, h1, h2, h3, h4, j, h5, h6, h7⟩ := hx.relax hd hT hc hs hcl (ho o List.mem_cons_self) ha
    have es := h3.closed s hs hcl
    obtain ⟨z, k1, k2, k3, k4, k5⟩ := Core.relaxAll hd hT hc os h2 (lt_of_lt_of_le hs h3.next)
      (by rw [es]; exact hcl) (fun o' ho' => by rw [es]; exact ho o' (List.mem_cons_of_mem _ ho')) h4
    rw [es] at k5
    refine ⟨z, by rw [Lss.relaxAll, h1]; exact k1, k2, h3.trans k3, k4, ?_⟩
    intro o' ho'
    rcases List.mem_cons.1 ho' with rfl | ho'
    · obtain ⟨a1, -, a3⟩ := k3.same j h5
      exact ⟨j, lt_of_lt_of_le h5 k3.next, a1.trans h6, a3.trans h7⟩
    · exact k5 o' ho'

omit [AddCommGroup C] [IsOrderedAddMonoid C] in
theorem flt_false {x y : C × C × C} (h : flt x y = false) :
    y.1 ≤ x.1 ∧ (y.1 = x.1 → y.2.1 ≤ x.2.1 ∧ (y.2.1 = x.2.1 → x.2.2 ≤ y.2.2)) := by
  unfold flt at h
  by_cases e : x.1 = y.1
  · rw [if_pos e] at h
    refine ⟨e.symm.le, fun _ => ?_⟩
    by_cases e' : x.2.1 = y.2.1
    · rw [if_pos e'] at h
      exact ⟨e'.symm.le, fun _ => not_lt.1 (of_decide_eq_false h)⟩
    · rw [if_neg e'] at h
      exact ⟨not_lt.1 (of_decide_eq_false h), fun e2 => absurd e2.symm e'⟩
  · rw [if_neg e] at h
    exact ⟨not_lt.1 (of_decide_eq_false h), fun e' => absurd e'.symm e⟩

omit [DecidableEq S] [IsOrderedAddMonoid C] in
/-- Without a bonus, a node before which there is none has the least `f`. -/
theorem keyF_false (hb : ∀ s, P.bonus s = 0) {nd : Nat → LNode S O C} {i j : Nat} (h : flt (keyF P nd i) (keyF P nd j) = false) :
    (nd j).f ≤ (nd i).f ∧ ((nd j).f = (nd i).f → (nd i).g ≤ (nd j).g) := by
  obtain ⟨h1, h2⟩ := flt_false h
  simp only [keyF, hb, add_zero] at h1 h2
  exact ⟨h1, fun e => (h2 e).2 e⟩

theorem full_init {h : S → C} {m : Mem S C} (hm : MemOk P m) (hh : m.h = h) (hg : P.d.goal r = false) :
    Full P r h (lssInit P r m) := by
  have hlt : ∀ i, i < (lssInit P r m).next → i = 0 := fun i h => by
    have : i < 1 := h
    omega
  have hst : ∀ i, ((lssInit P r m).nd i).st = r := fun _ => rfl
  have hcl : ∀ i, ((lssInit P r m).nd i).closed = false := fun _ => rfl
  obtain ⟨q, h1, h2⟩ := (heap_law (flt_strictWeak (C := C))).push (keyF P (lssInit P r m).nd) ⟨[], fun _ => -1⟩ ∅ 0
    ((heap_law flt_strictWeak).init _) (by simp) trivial
  have h1' : Outcome.ok (lssInit P r m).q = .ok q := h1
  injection h1' with h1'
  subst h1'
  refine ⟨⟨inv_init r m, hh, hm, ⟨h2.inv, rfl, h2.absent⟩, ?_, ?_, ?_, ?_, ?_, ?_⟩, ?_, ?_⟩
  · intro i _
    show m.h r = 0 + h r
    rw [zero_add, hh]
  · intro i hi
    rw [hlt i hi]
    refine ⟨fun _ => rfl, fun _ => ?_⟩
    rw [h2.mem]
    exact Finset.mem_insert_self _ _
  · intro i _ hc
    rw [hcl i] at hc
    exact absurd hc (by simp)
  · intro i _ j hj
    exact absurd hj (by simp [lssInit])
  · show 0 = _
    rw [eq_comm, Finset.card_eq_zero, closeds, Finset.filter_eq_empty_iff]
    intro i _
    rw [hcl i]
    exact Bool.false_ne_true
  · intro _ i _
    exact hg
  · intro i _ hc
    rw [hcl i] at hc
    exact absurd hc (by simp)
  · intro i _ hc
    rw [hcl i] at hc
    exact absurd hc (by simp)

theorem Full.expand (hb : ∀ s, P.bonus s = 0) (hd : CostOk P.d r) {h : S → C} (hT : ∀ t c, Walk P.d r t c → T t) (hc : Consis P.d T h)
    {x : L S O C} (hx : Full P r h x) (hne : x.q.data ≠ []) :
    ∃ s q y, BinHeap.pop (BinHeap.predOf flt (keyF P x.nd)) x.q = (some s, q) ∧ s < x.next ∧ s ∈ x.q.data ∧
      lssExpand P s { x with m := x.m.call, q := q } = .ok y ∧ Full P r h y ∧ x.next ≤ y.next ∧
      (∀ i < x.next, (y.nd i).st = (x.nd i).st ∧ ((y.nd i).closed = true ↔ (x.nd i).closed = true ∨ i = s)) ∧
      (∀ i < x.next, (x.nd i).closed = true ∨ i = s → (y.nd i).g = (x.nd i).g) ∧
      (∀ i < y.next, (y.nd i).closed = true → i < x.next) ∧ ∀ j ∈ x.q.data, (x.nd s).f ≤ (x.nd j).f := by
  obtain ⟨s, q, h1, h2, h3, h4⟩ := pop_rep flt_strictWeak hx.core.rep hne
  have hsq : s ∈ x.q.data := List.mem_toFinset.1 h2
  have hs : s < x.next := hx.core.inv.sub s hsq
  have hso : (x.nd s).closed = false := (hx.core.stat s hs).1 hsq
  set x1 : L S O C := { x with m := x.m.call, q := q } with hx1
  have hqm : ∀ i, i ∈ q.data ↔ i ≠ s ∧ i ∈ x.q.data := fun i => by
    rw [h4.mem, Finset.mem_erase, List.mem_toFinset]
  have en : ∀ i, i ≠ s → (closeNode s x1).nd i = x.nd i := fun i hi => Function.update_of_ne hi _ _
  have es : (closeNode s x1).nd s = { x.nd s with closed := true } := Function.update_self _ _ _
  have ecl : ∀ i, ((closeNode s x1).nd i).closed = true ↔ (x.nd i).closed = true ∨ i = s := fun i => by
    by_cases hi : i = s
    · rw [hi, es]; exact ⟨fun _ => Or.inr rfl, fun _ => rfl⟩
    · rw [en i hi]; exact ⟨Or.inl, fun h => h.resolve_right hi⟩
  have est : ∀ i, ((closeNode s x1).nd i).st = (x.nd i).st := fun i => (closeNode_nd s x1 i).1
  have eg : ∀ i, ((closeNode s x1).nd i).g = (x.nd i).g := fun i => (closeNode_nd s x1 i).2.2.1
  have ef : ∀ i, ((closeNode s x1).nd i).f = (x.nd i).f := fun i => (closeNode_nd s x1 i).2.2.2.2
  have ep : ∀ i, ((closeNode s x1).nd i).par = (x.nd i).par := fun i => (closeNode_nd s x1 i).2.1
  have hTs : T (x.nd s).st := hT _ _ (hx.core.inv.tree.walk s hs)
  obtain ⟨m1, m2, m3, m4⟩ := expandNode_spec (P := P) (m := x.m.call) (s := (x.nd s).st) (T := T)
    ⟨hx.core.mem.pred1, hx.core.mem.pred2⟩ (show Consis P.d T x.m.h by rw [hx.core.mh]; exact hc) hTs
  set z : L S O C := { closeNode s x1 with m := expandNode P (x.nd s).st x.m.call } with hz
  have hinv1 : Inv P r x1 :=
    ⟨hx.core.inv.tree, hx.core.inv.tab1, hx.core.inv.tab2, fun i hi => hx.core.inv.sub i ((hqm i).1 hi).2, hx.core.inv.goal⟩
  have hcore : Core P r h z := by
    refine ⟨(hinv1.close s).mem _ (closeNode s x1).nclosed, m1.trans hx.core.mh, m2, ?_, ?_, ?_, ?_, ?_, ?_, ?_⟩
    · have : HeapRep flt (keyF P (closeNode s x1).nd) q (x.q.data.toFinset.erase s) := h4.congr fun n _ => by
        unfold keyF; rw [ef, eg, est]
      exact ⟨this.inv, rfl, this.absent⟩
    · intro i hi
      show ((closeNode s x1).nd i).f = ((closeNode s x1).nd i).g + h ((closeNode s x1).nd i).st
      rw [ef, eg, est]; exact hx.core.fval i hi
    · intro i hi
      show i ∈ q.data ↔ ((closeNode s x1).nd i).closed = false
      rw [hqm, hx.core.stat i hi, ← Bool.not_eq_true, ← Bool.not_eq_true, ecl, not_or]
      exact ⟨fun h => ⟨h.2, h.1⟩, fun h => ⟨h.2, h.1⟩⟩
    · intro i hi
      show ((closeNode s x1).nd i).closed = true → (expandNode P (x.nd s).st x.m.call).expd ((closeNode s x1).nd i).st = true
      rw [ecl, est]
      rintro (h | rfl)
      · exact m4 _ (hx.core.expd i hi h)
      · exact m3
    · intro i hi j
      show ((closeNode s x1).nd i).par = some j → ((closeNode s x1).nd j).closed = true
      rw [ep, ecl]
      exact fun hj => Or.inl (hx.core.parc i hi j hj)
    · show (if (x.nd s).closed then x.nclosed else x.nclosed + 1) = _
      rw [hso]
      simp only [Bool.false_eq_true, if_false]
      rw [hx.core.ncl]
      have : closeds z = insert s (closeds x) := by
        ext i
        rw [Finset.mem_insert, mem_closeds, mem_closeds]
        show i < x.next ∧ ((closeNode s x1).nd i).closed = true ↔ _
        rw [ecl]
        constructor
        · rintro ⟨a, b | b⟩
          · exact Or.inr ⟨a, b⟩
          · exact Or.inl b
        · rintro (b | ⟨a, b⟩)
          · exact ⟨b ▸ hs, Or.inr b⟩
          · exact ⟨a, Or.inl b⟩
      rw [this, Finset.card_insert_of_notMem]
      rw [mem_closeds, hso]
      exact fun hc => absurd hc.2 (by simp)
    · intro hn i hi
      show P.d.goal ((closeNode s x1).nd i).st = false
      rw [est]; exact hx.core.nogoal hn i hi
  have har : Around s z := by
    refine ⟨?_, ?_⟩
    · intro i hi
      show ((closeNode s x1).nd i).closed = true → ((closeNode s x1).nd i).f ≤ ((closeNode s x1).nd s).f
      rw [ecl, ef, ef]
      rintro (h | rfl)
      · exact hx.mono i hi h s hsq
      · exact le_rfl
    · intro j hj
      show ((closeNode s x1).nd s).f ≤ ((closeNode s x1).nd j).f
      rw [ef, ef]
      exact (keyF_false hb (h3 j (List.mem_toFinset.2 ((hqm j).1 hj).2))).1
  obtain ⟨y, k1, k2, k3, k4, k5⟩ := Core.relaxAll hd hT hc (P.d.ops (x.nd s).st) hcore (s := s) hs
    ((ecl s).2 (Or.inr rfl)) (fun o ho => by show o ∈ P.d.ops ((closeNode s x1).nd s).st; rw [est]; exact ho) har
  have hzs : ∀ i < x.next, (y.nd i).st = (x.nd i).st ∧ ((y.nd i).closed = true ↔ (x.nd i).closed = true ∨ i = s) := by
    intro i hi
    obtain ⟨a1, a2, -⟩ := k3.same i hi
    exact ⟨a1.trans (est i), by rw [a2]; exact ecl i⟩
  have hcls : ∀ i < y.next, (y.nd i).closed = true → i < x.next ∧ ((x.nd i).closed = true ∨ i = s) := by
    intro i hi hcl
    by_cases hix : i < x.next
    · exact ⟨hix, (hzs i hix).2.1 hcl⟩
    · have := k3.fresh i (not_lt.1 hix) hi
      rw [hcl] at this
      exact absurd this (by simp)
  refine ⟨s, q, y, h1, hs, hsq, ?_, ⟨k2, ?_, ?_⟩, k3.next, hzs, ?_, fun i hi hc => (hcls i hi hc).1,
    fun j hj => (keyF_false hb (h3 j (List.mem_toFinset.2 hj))).1⟩
  · unfold Lss.lssExpand
    dsimp only
    rw [est s]
    exact k1
  · intro i hi hcl
    obtain ⟨hix, hor⟩ := hcls i hi hcl
    have hyi : y.nd i = z.nd i := k3.closed i hix ((ecl i).2 hor)
    rcases hor with h | rfl
    · by_cases his : i = s
      · rw [his, hso] at h
        exact absurd h (by simp)
      · refine Relaxed.grow k3 hix ((ecl i).2 (Or.inl h)) ?_
        intro o ho
        have ho' : o ∈ P.d.ops (x.nd i).st := by rw [← est i]; exact ho
        obtain ⟨j, hj, r1, r2⟩ := hx.relaxed i hix h o ho'
        refine ⟨j, hj, ?_, ?_⟩
        · show ((closeNode s x1).nd j).st = P.d.app ((closeNode s x1).nd i).st o
          rw [est, est]; exact r1
        · show ((closeNode s x1).nd j).g ≤ ((closeNode s x1).nd i).g + P.d.cost ((closeNode s x1).nd i).st o
          rw [eg, eg, est]; exact r2
    · intro o ho
      rw [(hzs i hix).1] at ho ⊢
      obtain ⟨j, hj, r1, r2⟩ := k5 o ho
      have e1 : (z.nd i).st = (x.nd i).st := est i
      rw [e1] at r1 r2
      exact ⟨j, hj, r1, by rw [hyi]; exact r2⟩
  · intro i hi hcl j hj
    exact (k4.lo i hi hcl).trans (k4.hi j hj)
  · intro i hi hor
    rw [k3.closed i hi ((ecl i).2 hor)]
    exact eg i

theorem full_lssLoop (hb : ∀ s, P.bonus s = 0) (hd : CostOk P.d r) {h : S → C} (hT : ∀ t c, Walk P.d r t c → T t) (hc : Consis P.d T h) :
    ∀ (k : Nat) {x : L S O C}, Full P r h x → ∃ y, lssLoop P k x = .ok y ∧ MemOk P y.m ∧ y.m.h = h ∧
      (y.goal = none → Full P r h y ∧ ∀ i < x.next, (x.nd i).closed = true → (y.nd i).closed = true)
  | 0, x, hx => ⟨x, rfl, hx.core.mem, hx.core.mh, fun _ => ⟨hx, fun _ _ h => h⟩⟩
  | k + 1, x, hx => by
    rw [lssLoop]
    by_cases hq : x.q.data.isEmpty = true
    · rw [if_pos hq]
      exact ⟨x, rfl, hx.core.mem, hx.core.mh, fun _ => ⟨hx, fun _ _ h => h⟩⟩
    rw [if_neg hq]
    by_cases hl : x.m.lim P = true
    · rw [if_pos hl]
      refine ⟨_, rfl, ⟨hx.core.mem.pred1, hx.core.mem.pred2⟩, hx.core.mh, fun _ => ⟨⟨?_, hx.relaxed, hx.mono⟩, fun _ _ h => h⟩⟩
      exact ⟨hx.core.inv.mem _ x.nclosed, hx.core.mh, ⟨hx.core.mem.pred1, hx.core.mem.pred2⟩, hx.core.rep, hx.core.fval, hx.core.stat,
        hx.core.expd, hx.core.parc, hx.core.ncl, hx.core.nogoal⟩
    rw [if_neg hl]
    obtain ⟨s, q, y, h1, hs, -, h2, h3, h4, h5, -⟩ := hx.expand hb hd hT hc (by simpa using hq)
    rw [h1]
    dsimp only
    rw [h2, Outcome.bind_ok]
    by_cases hg : P.d.goal (y.nd s).st = true
    · rw [if_pos hg]
      exact ⟨_, rfl, h3.core.mem, h3.core.mh, fun hn => absurd hn (by simp)⟩
    · rw [if_neg hg]
      obtain ⟨z, k1, k2, k3, k4⟩ := full_lssLoop hb hd hT hc k h3
      refine ⟨z, k1, k2, k3, fun hn => ⟨(k4 hn).1, fun i hi hcl => ?_⟩⟩
      exact (k4 hn).2 i (lt_of_lt_of_le hi h4) ((h5 i hi).2.2 (Or.inl hcl))

/-- The limit, once reached, stays reached as long as nothing is expanded. -/
def Sticky (P : Par S O C) : Prop := ∀ a b c, P.lim a b c = true → P.lim a b (c + 1) = true

/-- A local search from a state that is no goal. -/
theorem full_expandLss (hb : ∀ s, P.bonus s = 0) (hd : CostOk P.d r) {h : S → C} (hT : ∀ t c, Walk P.d r t c → T t) (hc : Consis P.d T h)
    (hl : Sticky P) {k : Nat} (hk : 0 < P.look k) {m : Mem S C} (hm : MemOk P m) (hh : m.h = h) (hg : P.d.goal r = false) :
    ∃ x, expandLss P k r m = .ok x ∧ Inv P r x ∧ MemOk P x.m ∧ x.m.h = h ∧
      (x.goal = none → Full P r h x ∧ ((x.nd 0).closed = true ∨ x.m.lim P = true)) := by
  obtain ⟨x, h1, h2, h3, h4⟩ := full_lssLoop hb hd hT hc (P.look k) (full_init hm hh hg)
  refine ⟨x, h1, inv_expandLss hd h1, h2, h3, fun hn => ⟨(h4 hn).1, ?_⟩⟩
  obtain ⟨k', hk'⟩ : ∃ k', P.look k = k' + 1 := ⟨P.look k - 1, by omega⟩
  rw [hk', lssLoop] at h1
  have hf := full_init (P := P) hm hh hg
  have h0 : 0 ∈ (lssInit P r m).q.data := (hf.core.stat 0 Nat.zero_lt_one).2 rfl
  have hne : (lssInit P r m).q.data ≠ [] := List.ne_nil_of_mem h0
  rw [if_neg (by simpa using hne)] at h1
  by_cases hlim : (lssInit P r m).m.lim P = true
  · rw [if_pos hlim] at h1
    injection h1 with h1
    right
    rw [← h1]
    exact hl _ _ _ hlim
  · left
    rw [if_neg hlim] at h1
    obtain ⟨s, q, y, a1, hs, -, a2, a3, a4, a5, -⟩ := hf.expand hb hd hT hc hne
    rw [a1] at h1
    dsimp only at h1
    rw [a2, Outcome.bind_ok] at h1
    have hs0 : s = 0 := by
      have : s < 1 := hs
      omega
    subst hs0
    by_cases hgo : P.d.goal (y.nd 0).st = true
    · rw [if_pos hgo] at h1
      injection h1 with h1
      rw [← h1] at hn
      exact absurd hn (by simp)
    · rw [if_neg hgo] at h1
      obtain ⟨z, k1, -, -, k4⟩ := full_lssLoop hb hd hT hc k' a3
      rw [k1] at h1
      injection h1 with h1
      subst h1
      exact (k4 hn).2 0 (lt_of_lt_of_le hs a4) ((a5 0 hs).2.2 (Or.inr rfl))

end Verif.Lss
