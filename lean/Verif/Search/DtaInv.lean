import Verif.Search.DtaThms

/-!
# Invariants of a step of DTA*
-/

namespace Verif.Dta

open Verif.Search
open Verif.Lss (pushupd hlt)

variable {S O : Type*} [DecidableEq S] {P : Par S O} {cur : S} {v : ℚ}

theorem flt_strictWeak : BinHeap.StrictWeak flt := by
  refine Lss.strictWeak_lt (β := ℚ ×ₗ ℚᵒᵈ) (fun x => toLex (x.1, OrderDual.toDual x.2)) fun x y => ?_
  rw [Prod.Lex.toLex_lt_toLex]
  unfold flt
  by_cases h : x.1 = y.1 <;> simp [h]

theorem lssLt_strictWeak : BinHeap.StrictWeak lssLt := by
  refine Lss.strictWeak_lt (β := WithTop ℚ ×ₗ (WithTop ℚ)ᵒᵈ) (fun x => toLex (x.1, OrderDual.toDual x.2)) fun x y => ?_
  rw [Prod.Lex.toLex_lt_toLex]
  unfold lssLt
  by_cases h : x.1 = y.1 <;> simp [h]

/-- At most one state is a goal. -/
def OneGoal (P : Par S O) : Prop := ∀ s t, P.d.goal s = true → P.d.goal t = true → s = t

/-- The invariant of a search from a successor; `v` is the value of the current state. -/
structure TI (P : Par S O) (cur : S) (v : ℚ) (x : Tree S O) : Prop where
  rep : HeapRep flt (keyF x.nd) x.q x.q.data.toFinset
  sub : ∀ i ∈ x.q.data, i < x.next
  pos : 0 < x.next
  zero : 0 ∈ x.q.data → x.next = 1
  walk : ∀ i < x.next, Walk P.d cur (x.nd i).st (x.nd i).g
  f2 : ∀ i < x.next, v ≤ (x.nd i).f
  tab1 : ∀ i < x.next, i ≠ 0 → x.tab (x.nd i).st = some i
  tab2 : ∀ k i, x.tab k = some i → i < x.next ∧ i ≠ 0 ∧ (x.nd i).st = k
  rootg : P.d.goal (x.nd 0).st = true → x.next = 1
  goal1 : ∀ j, x.goal = some j → j < x.next ∧ P.d.goal (x.nd j).st = true
  goal2 : ∀ i < x.next, P.d.goal (x.nd i).st = true → x.goal = some i

/-- The `f` of a node is at most what it would be now. -/
def F1 (h : S → ℚ) (x : Tree S O) : Prop := ∀ i < x.next, (x.nd i).f ≤ (x.nd i).g + h (x.nd i).st

omit [DecidableEq S] in
theorem F1.mono {h h' : S → ℚ} {x : Tree S O} (hx : F1 h x) (hh : ∀ s, h s ≤ h' s) : F1 h' x :=
  fun i hi => (hx i hi).trans (by have := hh (x.nd i).st; linarith)

/-- The invariant of the graph. -/
structure GI (cur : S) (v : ℚ) (m : Graph S) : Prop where
  pos : ∀ s, 0 ≤ m.h s
  cur : m.h cur = v
  preds : ∀ k, ∀ e ∈ m.preds k, 0 ≤ e.2

omit [DecidableEq S] in
theorem setGoal_goal (hu : OneGoal P) {x : Tree S O} {n i : Nat} (hin : i < n) (hn : ∀ j < n, j ≠ i → P.d.goal (x.nd j).st = true → x.goal = some j)
    (hg : ∀ j, x.goal = some j → j < n ∧ P.d.goal (x.nd j).st = true)
    (hj : P.d.goal (x.nd i).st = true → ∀ j, x.goal = some j → j = i) :
    (setGoal P i x).nd = x.nd ∧ (setGoal P i x).next = x.next ∧ (setGoal P i x).tab = x.tab ∧ (setGoal P i x).q = x.q ∧
    (∀ j, (setGoal P i x).goal = some j → j < n ∧ P.d.goal (x.nd j).st = true) ∧
    ∀ j < n, P.d.goal (x.nd j).st = true → (setGoal P i x).goal = some j := by
  unfold setGoal
  cases h : x.goal with
  | none =>
    dsimp only
    split
    · rename_i hi
      refine ⟨rfl, rfl, rfl, rfl, ?_, ?_⟩
      · intro j e
        cases e
        exact ⟨hin, hi⟩
      · intro j hjn hjg
        by_cases e : j = i
        · rw [e]
        · have := hn j hjn e hjg
          rw [h] at this
          exact absurd this (by simp)
    · rename_i hi
      refine ⟨rfl, rfl, rfl, rfl, hg, ?_⟩
      intro j hjn hjg
      exact hn j hjn (fun e => hi (e ▸ hjg)) hjg
  | some j0 =>
    dsimp only
    rw [if_neg]
    · refine ⟨rfl, rfl, rfl, rfl, hg, ?_⟩
      intro j hjn hjg
      by_cases e : j = i
      · subst e
        rw [h, hj hjg j0 h]
      · exact hn j hjn e hjg
    · rintro ⟨h1, h2⟩
      rw [hj h1 j0 h] at h2
      exact lt_irrefl _ h2

theorem improve_ok (hu : OneGoal P) (hthr : 0 ≤ P.thr) {x x1 : Tree S O} {m : Graph S} (hx : TI P cur v x) (hf : F1 m.h x) (hm : GI cur v m)
    (hd : CostOk P.d cur) {s i : Nat} {o : O} (hs : s < x.next) (hsg : P.d.goal (x.nd s).st = false) (h0 : 0 ∉ x.q.data)
    (ho : o ∈ P.d.ops (x.nd s).st) {k : S} {c : ℚ} (hk : P.d.app (x.nd s).st o = k) (hc : P.d.cost (x.nd s).st o = c) (cl up : Bool)
    (hp : m.h (x.nd s).st - c ≤ m.h k)
    (hi : (x.tab k = none ∧ i = x.next ∧ x1 = { x with next := x.next + 1, tab := Function.update x.tab k (some x.next) }) ∨
      (x.tab k = some i ∧ x1 = x)) :
    ∃ x', improve P cur s i o k c cl up x1 m = .ok x' ∧ TI P cur v x' ∧ F1 m.h x' ∧ 0 ∉ x'.q.data ∧ x.next ≤ x'.next ∧
      ∀ n < x.next, (x'.nd n).st = (x.nd n).st := by
  have e1 : x1.nd = x.nd ∧ x1.q = x.q ∧ x1.goal = x.goal := by
    rcases hi with ⟨-, -, rfl⟩ | ⟨-, rfl⟩ <;> exact ⟨rfl, rfl, rfl⟩
  have hin : i < x1.next ∧ i ≠ 0 ∧ x.next ≤ x1.next ∧ x1.tab k = some i ∧ (∀ n < x1.next, n ≠ i → n < x.next) ∧
      (i < x.next → (x.nd i).st = k) := by
    rcases hi with ⟨-, rfl, rfl⟩ | ⟨ht, rfl⟩
    · refine ⟨Nat.lt_succ_self _, hx.pos.ne', Nat.le_succ _, Function.update_self _ _ _, ?_, fun h => absurd h (lt_irrefl _)⟩
      intro n h1 h2
      have : n < x.next + 1 := h1
      omega
    · obtain ⟨a, b, c⟩ := hx.tab2 k i ht
      exact ⟨a, b, le_rfl, ht, fun n h _ => h, fun _ => c⟩
  obtain ⟨hin, hi0, hle, htk, hlt, hst⟩ := hin
  have htab : ∀ k' ≠ k, x1.tab k' = x.tab k' := by
    intro k' hk'
    rcases hi with ⟨-, rfl, rfl⟩ | ⟨ht, rfl⟩
    · exact Function.update_of_ne hk' _ _
    · rfl
  have hother : ∀ n < x.next, n ≠ i → n ≠ 0 → (x.nd n).st ≠ k := by
    intro n hn hni hn0 e
    have := hx.tab1 n hn hn0
    rw [e] at this
    rcases hi with ⟨ht, rfl, rfl⟩ | ⟨ht, rfl⟩
    · rw [ht] at this; exact absurd this (by simp)
    · rw [ht] at this; exact hni (Option.some.inj this).symm
  have hroot : ¬ P.d.goal (x.nd 0).st = true := by
    intro h
    have := hx.rootg h
    have : s = 0 := by omega
    rw [this, h] at hsg
    exact absurd hsg (by simp)
  have hsw : Walk P.d cur k ((x.nd s).g + c) := by
    rw [← hk, ← hc]
    exact (hx.walk s hs).snoc ho
  have hg : 0 ≤ (x.nd s).g + c := hsw.nonneg hd
  have hfs := hf s hs
  have hvs := hx.f2 s hs
  have hmax : max (m.h k) (m.h (x.nd s).st - c) = m.h k := max_eq_left hp
  have hk0 := hm.pos k
  set nd := Function.update x.nd i (⟨k, some s, (x.nd s).g + c, (x.nd s).g + c + m.h k, o, cl, up⟩ : Node S O) with hnd
  obtain ⟨q', hq, hq'⟩ := Lss.pushupd_rep flt_strictWeak (key' := keyF nd) (n := i) hx.rep (fun n _ hn => by
    unfold keyF; rw [hnd, Function.update_of_ne hn])
  have hndi : (nd i).st = k := by rw [hnd, Function.update_self]
  have hndn : ∀ n ≠ i, nd n = x.nd n := fun n hn => by rw [hnd, Function.update_of_ne hn]
  have hmem : ∀ n, n ∈ q'.data ↔ n = i ∨ n ∈ x.q.data := fun n => by
    rw [hq'.mem, Finset.mem_insert, List.mem_toFinset]
  have hsg' : ∀ n < x1.next, n ≠ i → P.d.goal (nd n).st = true → x.goal = some n := by
    intro n hn hni h
    rw [hndn n hni] at h
    exact hx.goal2 n (hlt n hn hni) h
  have hgo : ∀ j, x.goal = some j → j < x1.next ∧ P.d.goal (nd j).st = true := by
    intro j hj
    obtain ⟨a, b⟩ := hx.goal1 j hj
    refine ⟨lt_of_lt_of_le a hle, ?_⟩
    by_cases e : j = i
    · subst e
      rw [hndi, ← hst a]
      exact b
    · rw [hndn j e]
      exact b
  have huni : P.d.goal (nd i).st = true → ∀ j, x.goal = some j → j = i := by
    intro h j hj
    by_contra hne
    obtain ⟨a, b⟩ := hx.goal1 j hj
    rw [hndi] at h
    have h0 : j ≠ 0 := by
      rintro rfl
      exact hroot b
    exact hother j a hne h0 (hu _ _ b h)
  obtain ⟨s1, s2, s3, s4, s5, s6⟩ := setGoal_goal (P := P) hu (x := { x1 with nd := nd, q := q' }) (n := x1.next) (i := i) hin
    (fun j a b c => by dsimp only; rw [e1.2.2]; exact hsg' j a b c)
    (fun j a => by dsimp only at a ⊢; rw [e1.2.2] at a; exact hgo j a)
    (fun a j b => by dsimp only at b; rw [e1.2.2] at b; exact huni a j b)
  refine ⟨setGoal P i { x1 with nd := nd, q := q' }, ?_, ⟨?_, ?_, ?_, ?_, ?_, ?_, ?_, ?_, ?_, ?_, ?_⟩, ?_, ?_, ?_, ?_⟩
  · unfold improve
    dsimp only
    rw [e1.1, e1.2.1, hmax, if_neg, hq, Outcome.map_ok]
    have hcur := hm.cur
    rintro (h | h | h | h | h) <;> linarith
  · rw [s1, s4]
    refine ⟨hq'.inv, rfl, hq'.absent⟩
  · rw [s4, s2]
    intro n hn
    rcases (hmem n).1 hn with rfl | hn
    · exact hin
    · exact lt_of_lt_of_le (hx.sub n hn) hle
  · rw [s2]
    exact lt_of_lt_of_le hx.pos hle
  · rw [s4]
    intro h
    rcases (hmem 0).1 h with h | h
    · exact absurd h.symm hi0
    · exact absurd h h0
  · rw [s2, s1]
    intro n hn
    by_cases e : n = i
    · subst e
      dsimp only
      rw [hnd, Function.update_self]
      exact hsw
    · dsimp only
      rw [hndn n e]
      exact hx.walk n (hlt n hn e)
  · rw [s2, s1]
    intro n hn
    by_cases e : n = i
    · subst e
      dsimp only
      rw [hnd, Function.update_self]
      dsimp only
      linarith
    · dsimp only
      rw [hndn n e]
      exact hx.f2 n (hlt n hn e)
  · rw [s2, s1, s3]
    intro n hn hn0
    by_cases e : n = i
    · subst e
      dsimp only
      rw [hndi]
      exact htk
    · dsimp only
      rw [hndn n e, htab _ (hother n (hlt n hn e) e hn0)]
      exact hx.tab1 n (hlt n hn e) hn0
  · rw [s2, s1, s3]
    intro k' n h
    dsimp only at h ⊢
    by_cases e : k' = k
    · subst e
      rw [htk] at h
      cases h
      exact ⟨hin, hi0, hndi⟩
    · rw [htab k' e] at h
      obtain ⟨a, b, c⟩ := hx.tab2 k' n h
      refine ⟨lt_of_lt_of_le a hle, b, ?_⟩
      by_cases e' : n = i
      · subst e'
        rw [hst a] at c
        exact absurd c.symm e
      · rw [hndn n e']
        exact c
  · rw [s1]
    intro h
    dsimp only at h
    rw [hndn 0 hi0.symm] at h
    exact absurd h hroot
  · rw [s1, s2]
    exact s5
  · rw [s1, s2]
    exact s6
  · unfold F1
    rw [s1, s2]
    intro n hn
    by_cases e : n = i
    · subst e
      dsimp only
      rw [hnd, Function.update_self]
    · dsimp only
      rw [hndn n e]
      exact hf n (hlt n hn e)
  · rw [s4]
    intro h
    rcases (hmem 0).1 h with h | h
    · exact hi0 h.symm
    · exact h0 h
  · rw [s2]
    exact hle
  · rw [s1]
    intro n hn
    dsimp only
    by_cases e : n = i
    · subst e
      rw [hndi, hst hn]
    · rw [hndn n e]

theorem relax_ok (hu : OneGoal P) (hthr : 0 ≤ P.thr) (hd : CostOk P.d cur) {s : Nat} {o : O} {y : Tree S O × Graph S} (hx : TI P cur v y.1)
    (hf : F1 y.2.h y.1) (hm : GI cur v y.2) (hs : s < y.1.next) (hsg : P.d.goal (y.1.nd s).st = false) (h0 : 0 ∉ y.1.q.data)
    (ho : o ∈ P.d.ops (y.1.nd s).st) :
    ∃ y', relax P cur s o y = .ok y' ∧ TI P cur v y'.1 ∧ F1 y'.2.h y'.1 ∧ GI cur v y'.2 ∧ 0 ∉ y'.1.q.data ∧ y.1.next ≤ y'.1.next ∧
      (∀ n < y.1.next, (y'.1.nd n).st = (y.1.nd n).st) ∧ ∀ t, y.2.h t ≤ y'.2.h t := by
  unfold relax
  dsimp only
  split
  · exact ⟨y, rfl, hx, hf, hm, h0, le_rfl, fun _ _ => rfl, fun _ => le_rfl⟩
  rename_i hsk
  set k := P.d.app (y.1.nd s).st o with hk
  set c := P.d.cost (y.1.nd s).st o with hc
  have hkc : k ≠ cur := by
    intro e
    exact hsk (by unfold skip; simp [e])
  have hle : ∀ t, y.2.h t ≤ Function.update y.2.h k (max (y.2.h k) (y.2.h (y.1.nd s).st - c)) t := by
    intro t
    by_cases e : t = k
    · rw [e, Function.update_self]; exact le_max_left _ _
    · rw [Function.update_of_ne e]
  have hm' : GI cur v { y.2 with h := Function.update y.2.h k (max (y.2.h k) (y.2.h (y.1.nd s).st - c)) } := by
    refine ⟨fun t => (hm.pos t).trans (hle t), ?_, hm.preds⟩
    dsimp only
    rw [Function.update_of_ne hkc.symm]
    exact hm.cur
  have hc0 : 0 ≤ c := hd _ _ (hx.walk s hs) o ho
  have hp : Function.update y.2.h k (max (y.2.h k) (y.2.h (y.1.nd s).st - c)) (y.1.nd s).st - c ≤
      Function.update y.2.h k (max (y.2.h k) (y.2.h (y.1.nd s).st - c)) k := by
    rw [Function.update_self]
    by_cases e : (y.1.nd s).st = k
    · rw [e, Function.update_self]
      have := le_max_left (y.2.h k) (y.2.h k - c)
      linarith
    · rw [Function.update_of_ne e]
      exact le_max_right _ _
  rw [if_neg (not_lt.2 (hm'.pos k))]
  cases ht : y.1.tab k with
  | none =>
    dsimp only
    obtain ⟨x', e1, e2, e3, e4, e5, e6⟩ := improve_ok (i := y.1.next) hu hthr hx (hf.mono hle) hm' hd hs hsg h0 ho hk.symm hc.symm false false hp
      (Or.inl ⟨ht, rfl, rfl⟩)
    rw [e1, Outcome.map_ok]
    exact ⟨_, rfl, e2, e3, hm', e4, e5, e6, hle⟩
  | some i =>
    dsimp only
    split
    · exact ⟨_, rfl, hx, hf.mono hle, hm', h0, le_rfl, fun _ _ => rfl, hle⟩
    · obtain ⟨x', e1, e2, e3, e4, e5, e6⟩ := improve_ok (i := i) hu hthr hx (hf.mono hle) hm' hd hs hsg h0 ho hk.symm hc.symm
        (y.1.nd i).closed (y.1.nd i).updated hp (Or.inr ⟨ht, rfl⟩)
      rw [e1, Outcome.map_ok]
      exact ⟨_, rfl, e2, e3, hm', e4, e5, e6, hle⟩

theorem relaxAll_ok (hu : OneGoal P) (hthr : 0 ≤ P.thr) (hd : CostOk P.d cur) {s : Nat} : ∀ (os : List O) {y : Tree S O × Graph S},
    TI P cur v y.1 → F1 y.2.h y.1 → GI cur v y.2 → s < y.1.next → P.d.goal (y.1.nd s).st = false → 0 ∉ y.1.q.data →
    (∀ o ∈ os, o ∈ P.d.ops (y.1.nd s).st) →
    ∃ y', relaxAll P cur s os y = .ok y' ∧ TI P cur v y'.1 ∧ F1 y'.2.h y'.1 ∧ GI cur v y'.2 ∧ ∀ t, y.2.h t ≤ y'.2.h t
  | [], y, hx, hf, hm, _, _, _, _ => ⟨y, rfl, hx, hf, hm, fun _ => le_rfl⟩
  | o :: os, y, hx, hf, hm, hs, hsg, h0, ho => by
    obtain ⟨z, e, h1, h2, h3, h4, h5, h6, h7⟩ := relax_ok hu hthr hd hx hf hm hs hsg h0 (ho o List.mem_cons_self)
    obtain ⟨y', e', g1, g2, g3, g4⟩ := relaxAll_ok hu hthr hd os h1 h2 h3 (lt_of_lt_of_le hs h5) (by rw [h6 s hs]; exact hsg) h4
      (fun o' h' => by rw [h6 s hs]; exact ho o' (List.mem_cons_of_mem _ h'))
    refine ⟨y', ?_, g1, g2, g3, fun t => (h7 t).trans (g4 t)⟩
    rw [relaxAll, e, Outcome.bind_ok, e']

theorem foldl_succsOp (s : S) : ∀ (os : List O) (m : Graph S), (os.foldl (succsOp P s) m).h = m.h ∧
    ((∀ o ∈ os, 0 ≤ P.d.cost s o) → (∀ k, ∀ e ∈ m.preds k, 0 ≤ e.2) → ∀ k, ∀ e ∈ (os.foldl (succsOp P s) m).preds k, 0 ≤ e.2)
  | [], m => ⟨rfl, fun _ h => h⟩
  | o :: os, m => by
    obtain ⟨h1, h2⟩ := foldl_succsOp s os (succsOp P s m o)
    rw [List.foldl_cons]
    refine ⟨h1, fun hc hp => h2 (fun o' h => hc o' (List.mem_cons_of_mem _ h)) ?_⟩
    intro k e he
    unfold succsOp at he
    dsimp only at he
    by_cases hk : k = P.d.app s o
    · rw [hk, Function.update_self] at he
      rcases List.mem_append.1 he with he | he
      · exact hp _ e he
      · rw [List.mem_singleton.1 he]
        exact hc o List.mem_cons_self
    · rw [Function.update_of_ne hk] at he
      exact hp k e he

theorem succs_h (s : S) (m : Graph S) : (succs P s m).h = m.h := by
  unfold succs
  split
  · rfl
  · exact (foldl_succsOp s _ _).1

theorem succs_ok {s : S} {m : Graph S} (hm : GI cur v m) (hc : ∀ o ∈ P.d.ops s, 0 ≤ P.d.cost s o) : GI cur v (succs P s m) := by
  refine ⟨?_, ?_, ?_⟩
  · rw [succs_h]; exact hm.pos
  · rw [succs_h]; exact hm.cur
  · unfold succs
    split
    · exact hm.preds
    · exact (foldl_succsOp s _ _).2 hc hm.preds

omit [DecidableEq S] in
theorem close_nd (s n : Nat) (x : Tree S O) : ((close s x).nd n).st = (x.nd n).st ∧ ((close s x).nd n).g = (x.nd n).g ∧
    ((close s x).nd n).f = (x.nd n).f := by
  unfold close
  dsimp only
  by_cases e : n = s
  · subst e
    rw [Function.update_self]
    exact ⟨rfl, rfl, rfl⟩
  · rw [Function.update_of_ne e]
    exact ⟨rfl, rfl, rfl⟩

theorem expandLoop_ok (hu : OneGoal P) (hthr : 0 ≤ P.thr) (hd : CostOk P.d cur) : ∀ (k : Nat) {y : Tree S O × Graph S}, TI P cur v y.1 →
    F1 y.2.h y.1 → GI cur v y.2 →
    ∃ y', expandLoop P cur k y = .ok y' ∧ TI P cur v y'.1 ∧ F1 y'.2.h y'.1 ∧ GI cur v y'.2 ∧ ∀ t, y.2.h t ≤ y'.2.h t
  | 0, y, hx, hf, hm => ⟨y, rfl, hx, hf, hm, fun _ => le_rfl⟩
  | k + 1, y, hx, hf, hm => by
    have hm1 : GI cur v y.2.call := ⟨hm.pos, hm.cur, hm.preds⟩
    rw [expandLoop]
    split
    · exact ⟨y, rfl, hx, hf, hm, fun _ => le_rfl⟩
    rename_i hq
    split
    · exact ⟨_, rfl, hx, hf, hm1, fun _ => le_rfl⟩
    obtain ⟨s, q, e1, e2, -, e4⟩ := Lss.pop_rep flt_strictWeak hx.rep (by simpa using hq)
    rw [List.mem_toFinset] at e2
    have hs := hx.sub s e2
    rw [e1]
    dsimp only
    set x := close s { y.1 with q := q } with hxd
    have hst : ∀ n, (x.nd n).st = (y.1.nd n).st ∧ (x.nd n).g = (y.1.nd n).g ∧ (x.nd n).f = (y.1.nd n).f := fun n => close_nd s n _
    have hmem : ∀ n, n ∈ q.data ↔ n ≠ s ∧ n ∈ y.1.q.data := fun n => by
      rw [e4.mem, Finset.mem_erase, List.mem_toFinset]
    have h0 : 0 ∉ q.data := by
      intro h
      obtain ⟨a, b⟩ := (hmem 0).1 h
      have := hx.zero b
      omega
    have hx' : TI P cur v x := by
      refine ⟨?_, fun n h => hx.sub n ((hmem n).1 h).2, hx.pos, fun h => absurd h h0, ?_, ?_, ?_, ?_, ?_, ?_, ?_⟩
      · have : HeapRep flt (keyF x.nd) q (y.1.q.data.toFinset.erase s) := e4.congr fun n _ => by
          unfold keyF; rw [(hst n).2.1, (hst n).2.2]
        exact ⟨this.inv, rfl, this.absent⟩
      · intro n hn
        rw [(hst n).1, (hst n).2.1]
        exact hx.walk n hn
      · intro n hn
        rw [(hst n).2.2]
        exact hx.f2 n hn
      · intro n hn h
        rw [(hst n).1]
        exact hx.tab1 n hn h
      · intro k' n h
        rw [(hst n).1]
        exact hx.tab2 k' n h
      · rw [(hst 0).1]
        exact hx.rootg
      · intro j h
        rw [(hst j).1]
        exact hx.goal1 j h
      · intro n hn
        rw [(hst n).1]
        exact hx.goal2 n hn
    have hf' : F1 y.2.h x := by
      intro n hn
      rw [(hst n).1, (hst n).2.1, (hst n).2.2]
      exact hf n hn
    split
    · rename_i hg
      rw [if_pos]
      · exact ⟨_, rfl, hx', hf', hm1, fun _ => le_rfl⟩
      · have := hx'.goal2 s hs hg
        unfold goalOk
        rw [this]
        simp
    · rename_i hg
      have hcost : ∀ o ∈ P.d.ops (x.nd s).st, 0 ≤ P.d.cost (x.nd s).st o := fun o ho => hd _ _ (hx'.walk s hs) o ho
      obtain ⟨z, g1, g2, g3, g4, g5⟩ := relaxAll_ok hu hthr hd (P.d.ops (x.nd s).st) (y := (x, succs P (x.nd s).st y.2.call)) hx'
        (by dsimp only; rw [succs_h]; exact hf') (succs_ok hm1 hcost) hs (by simpa using hg) h0 (fun _ h => h)
      obtain ⟨y', k1, k2, k3, k4, k5⟩ := expandLoop_ok hu hthr hd k g2 g3 g4
      refine ⟨y', by rw [g1, Outcome.bind_ok, k1], k2, k3, k4, fun t => le_trans ?_ (k5 t)⟩
      have := g5 t
      dsimp only at this
      rw [succs_h] at this
      exact this

theorem expand_ok (hu : OneGoal P) (hthr : 0 ≤ P.thr) (hd : CostOk P.d cur) (N : Nat) {y : Tree S O × Graph S} (hx : TI P cur v y.1)
    (hf : F1 y.2.h y.1) (hm : GI cur v y.2) :
    ∃ y', expand P cur N y = .ok y' ∧ TI P cur v y'.1 ∧ F1 y'.2.h y'.1 ∧ GI cur v y'.2 ∧ ∀ t, y.2.h t ≤ y'.2.h t := by
  unfold expand
  split
  · exact ⟨y, rfl, hx, hf, hm, fun _ => le_rfl⟩
  · exact expandLoop_ok hu hthr hd N hx hf hm

end Verif.Dta
