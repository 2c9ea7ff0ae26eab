import Verif.Search.LssLearn
import Verif.Search.Heuristic
import Mathlib.Algebra.Order.Archimedean.Basic
import Mathlib.Data.Finset.Order
import Mathlib.Algebra.Order.BigOperators.Group.Finset

/-!
# Runs of LSS-LRTA* with a consistent heuristic

Learning keeps the heuristic consistent and never lowers it; every step that does not end in a goal either raises a
value or goes to a state with a smaller one.
-/

namespace Verif.Lss

open Verif.Search

variable {S O C : Type*} [DecidableEq S] [AddCommGroup C] [LinearOrder C] [IsOrderedAddMonoid C]
variable {P : Par S O C} {r : S}

/-! ## `move` cannot fail -/

/-- Node `i` is `k` edges below the root. -/
inductive Deep (nd : Nat → LNode S O C) : Nat → Nat → Prop
  | root {i : Nat} : (nd i).par = none → Deep nd i 0
  | step {i j k : Nat} : (nd i).par = some j → Deep nd j k → Deep nd i (k + 1)

omit [DecidableEq S] [AddCommGroup C] [LinearOrder C] [IsOrderedAddMonoid C] in
theorem Rooted.deep {nd : Nat → LNode S O C} {i : Nat} (h : Rooted nd i) : ∃ k, Deep nd i k := by
  induction h with
  | root h => exact ⟨0, .root h⟩
  | step h _ ih => exact ⟨_, .step h ih.choose_spec⟩

omit [DecidableEq S] [AddCommGroup C] [LinearOrder C] [IsOrderedAddMonoid C] in
theorem Deep.unique {nd : Nat → LNode S O C} {i k k' : Nat} (h : Deep nd i k) (h' : Deep nd i k') : k = k' := by
  induction h generalizing k' with
  | root h =>
    cases h' with
    | root _ => rfl
    | step h2 _ => rw [h] at h2; exact absurd h2 (by simp)
  | step h _ ih =>
    cases h' with
    | root h2 => rw [h] at h2; exact absurd h2 (by simp)
    | step h2 h3 =>
      rw [h] at h2
      injection h2 with h2
      subst h2
      rw [ih h3]

omit [DecidableEq S] in
theorem Tree.par_lt {nd : Nat → LNode S O C} {next : Nat} (h : Tree P.d r nd next) {i j : Nat} (hi : i < next)
    (hj : (nd i).par = some j) : j < next := by
  by_cases h0 : i = 0
  · rw [h0, h.root.2.1] at hj; exact absurd hj (by simp)
  · obtain ⟨j', e1, e2, -⟩ := h.par i hi h0
    rw [hj] at e1; injection e1 with e1; rw [e1]; exact e2

omit [DecidableEq S] in
theorem Deep.all {nd : Nat → LNode S O C} {next : Nat} (h : Tree P.d r nd next) {i k : Nat} (hd : Deep nd i k) (hi : i < next) :
    ∀ k' ≤ k, ∃ i' < next, Deep nd i' k' := by
  induction hd with
  | root h0 =>
    intro k' hk
    obtain rfl : k' = 0 := by omega
    exact ⟨_, hi, .root h0⟩
  | @step i j k hj hd ih =>
    intro k' hk
    rcases Nat.lt_or_eq_of_le hk with hk | rfl
    · exact ih (h.par_lt hi hj) k' (by omega)
    · exact ⟨i, hi, .step hj hd⟩

omit [DecidableEq S] in
theorem Deep.lt {nd : Nat → LNode S O C} {next : Nat} (h : Tree P.d r nd next) {i k : Nat} (hd : Deep nd i k) (hi : i < next) :
    k < next := by
  have hall := hd.all h hi
  have : ∀ k', ∃ i', k' ≤ k → i' < next ∧ Deep nd i' k' := fun k' => by
    by_cases hk : k' ≤ k
    · obtain ⟨i', h1, h2⟩ := hall k' hk
      exact ⟨i', fun _ => ⟨h1, h2⟩⟩
    · exact ⟨0, fun h => absurd h hk⟩
  choose f hf using this
  have hle := Finset.card_le_card_of_injOn (s := Finset.range (k + 1)) (t := Finset.range next) f
    (fun k' hk => by
      have hk : k' < k + 1 := by simpa using hk
      simpa using (hf k' (by omega)).1)
    (fun a ha b hb e => by
      have ha : a < k + 1 := by simpa using ha
      have hb : b < k + 1 := by simpa using hb
      have h1 := (hf a (by omega)).2
      have h2 := (hf b (by omega)).2
      rw [e] at h1
      exact h1.unique h2)
  rw [Finset.card_range, Finset.card_range] at hle
  omega

theorem follow_ok {x : L S O C} (h : Inv P r x) {best : Nat} : ∀ (fuel p k : Nat), p < x.next → Deep x.nd p k → k < fuel →
    (∀ K, Deep x.nd best K → k ≤ K) → ∃ ns, follow x.nd r best fuel p = .ok ns
  | 0, _, _, _, _, h, _ => absurd h (Nat.not_lt_zero _)
  | fuel + 1, p, k, hp, hd, hk, hb => by
    rw [follow]
    by_cases hr : (x.nd p).st = r
    · exact ⟨[], if_pos hr⟩
    rw [if_neg hr]
    have hp0 : p ≠ 0 := by rintro rfl; exact hr h.tree.root.1
    obtain ⟨j, hj, hjn, -⟩ := h.tree.par p hp hp0
    cases hd with
    | root h0 => rw [hj] at h0; exact absurd h0 (by simp)
    | @step _ j' k' h1 h2 =>
      rw [hj] at h1
      injection h1 with h1
      subst h1
      have hne : (x.nd p).par ≠ some best := by
        rw [hj]
        intro he
        injection he with he
        subst he
        have := hb _ h2
        omega
      rw [if_neg hne, hj]
      dsimp only
      obtain ⟨ns, hns⟩ := follow_ok h fuel j k' hjn h2 (by omega) (fun K hK => (Nat.le_succ _).trans (hb K hK))
      exact ⟨p :: ns, by rw [hns, Outcome.map_ok]⟩

theorem move_ok {x : L S O C} (h : Inv P r x) {b : Nat} (hb : bestNode P x r = .ok (some b)) (hbn : b < x.next)
    (hne : (x.nd b).st ≠ r) : ∃ t os, move P x r = .ok (t, os) ∧ (P.onestep = false → t = (x.nd b).st) := by
  obtain ⟨k, hk⟩ := (h.tree.rooted b hbn).deep
  obtain ⟨ns, hns⟩ := follow_ok h (x.next + 1) b k hbn hk (by have := hk.lt h.tree hbn; omega)
    (fun K hK => (hk.unique hK).le)
  have hnil : ns ≠ [] := by
    rintro rfl
    exact hne ((follow_spec h _ b hbn hns).2.2.1 rfl)
  obtain ⟨q, hq⟩ : ∃ q, ns.getLast? = some q := ⟨_, List.getLast?_eq_some_getLast hnil⟩
  unfold move
  rw [hb, Outcome.bind_ok]
  dsimp only
  rw [if_neg hne, hns, Outcome.bind_ok, hq]
  dsimp only
  by_cases ho : P.onestep = true
  · rw [if_pos ho]
    exact ⟨_, _, rfl, fun h => by rw [ho] at h; exact absurd h (by simp)⟩
  · rw [if_neg ho]
    exact ⟨_, _, rfl, fun _ => rfl⟩

omit [IsOrderedAddMonoid C] in
/-- The node of the open list that is chosen. -/
theorem bestOpen_best (hb : ∀ s, P.bonus s = 0) (x : L S O C) (cur : S) : ∀ (l : List Nat) (b : Option Nat), (∀ n ∈ l, (x.nd n).st ≠ cur) →
    (b ≠ none ∨ l ≠ []) → ∃ n, l.foldl (bestOpen P x cur) b = some n ∧ (b = some n ∨ n ∈ l) ∧
      (∀ m ∈ l, (x.nd n).f ≤ (x.nd m).f) ∧ ∀ m, b = some m → (x.nd n).f ≤ (x.nd m).f
  | [], b, _, h => by
    obtain ⟨n, hn⟩ := Option.ne_none_iff_exists'.1 (h.resolve_right (by simp))
    exact ⟨n, hn, Or.inl hn, by simp, fun m hm => by rw [hn] at hm; injection hm with hm; rw [hm]⟩
  | a :: l, b, hl, _ => by
    have ha := hl a List.mem_cons_self
    have key : ∃ n, bestOpen P x cur b a = some n ∧ (b = some n ∨ n = a) ∧ (x.nd n).f ≤ (x.nd a).f ∧
        ∀ m, b = some m → (x.nd n).f ≤ (x.nd m).f := by
      unfold bestOpen
      rw [if_neg ha]
      cases b with
      | none => exact ⟨a, rfl, Or.inr rfl, le_rfl, fun m hm => absurd hm (by simp)⟩
      | some b =>
        dsimp only
        by_cases hf : flt (keyF P x.nd a) (keyF P x.nd b) = true
        · rw [if_pos hf]
          refine ⟨a, rfl, Or.inr rfl, le_rfl, fun m hm => ?_⟩
          injection hm with hm
          subst hm
          rw [flt_fsort hb] at hf
          split at hf
          · rename_i e; exact e.le
          · exact (of_decide_eq_true hf).le
        · rw [if_neg hf]
          refine ⟨b, rfl, Or.inl rfl, (keyF_false hb (by simpa using hf)).1, fun m hm => ?_⟩
          injection hm with hm
          rw [hm]
    obtain ⟨n, k1, k2, k3, k4⟩ := key
    rw [List.foldl_cons, k1]
    obtain ⟨n', h1, h2, h3, h4⟩ := bestOpen_best hb x cur l (some n) (fun m hm => hl m (List.mem_cons_of_mem _ hm)) (Or.inl (by simp))
    have h4' := h4 n rfl
    refine ⟨n', h1, ?_, ?_, fun m hm => h4'.trans (k4 m hm)⟩
    · rcases h2 with h2 | h2
      · injection h2 with h2
        subst h2
        rcases k2 with k2 | k2
        · exact Or.inl k2
        · exact Or.inr (by rw [k2]; exact List.mem_cons_self)
      · exact Or.inr (List.mem_cons_of_mem _ h2)
    · intro m hm
      rcases List.mem_cons.1 hm with rfl | hm
      · exact h4'.trans k3
      · exact h3 m hm

/-! ## What is learned -/

/-- The states that can be reached. -/
def Reach (d : Dom S O C) (s0 s : S) : Prop := ∃ c, Walk d s0 s c

/-- Every reachable state leads to a goal, costs are positive, the heuristic is consistent and 0 (or less) at goals; the
weight is 1, and nodes are compared by `f`. -/
structure Fair (P : Par S O C) (s0 : S) : Prop where
  cost : ∀ s, Reach P.d s0 s → ∀ o ∈ P.d.ops s, 0 < P.d.cost s o
  cons : Consis P.d (Reach P.d s0) P.h
  goal : ∀ s, Reach P.d s0 s → P.d.goal s = true → P.h s ≤ 0
  live : ∀ s, Reach P.d s0 s → ∃ t c, Walk P.d s t c ∧ P.d.goal t = true
  wt : ∀ c, P.wt c = c
  bonus : ∀ s, P.bonus s = 0

/-- What remains true of the learned values. -/
structure Good (P : Par S O C) (s0 : S) (h : S → C) : Prop where
  cons : Consis P.d (Reach P.d s0) h
  ge : ∀ s, Reach P.d s0 s → P.h s ≤ h s
  goal : ∀ s, Reach P.d s0 s → P.d.goal s = true → h s = P.h s
  val : ∀ s, Reach P.d s0 s → ∃ t c, Walk P.d s t c ∧ h s = c + P.h t

variable {s0 : S}

omit [DecidableEq S] [LinearOrder C] [IsOrderedAddMonoid C] in
theorem Reach.step {s : S} (h : Reach P.d s0 s) {o : O} (ho : o ∈ P.d.ops s) : Reach P.d s0 (P.d.app s o) :=
  let ⟨_, hc⟩ := h; ⟨_, hc.snoc ho⟩

omit [DecidableEq S] in
theorem Reach.walk {s t : S} {c : C} (h : Reach P.d s0 s) (hw : Walk P.d s t c) : Reach P.d s0 t :=
  let ⟨_, hc⟩ := h; ⟨_, hc.trans hw⟩

omit [DecidableEq S] in
theorem Fair.costOk (hf : Fair P s0) {s : S} (hs : Reach P.d s0 s) : CostOk P.d s :=
  fun _ _ hw o ho => (hf.cost _ (hs.walk hw) o ho).le

omit [DecidableEq S] in
theorem Exit.walk {X : S → Prop} {s t : S} {c : C} (hw : ∀ c, P.wt c = c) (h : Exit P.d P.wt X s t c) : Walk P.d s t c := by
  induction h with
  | @out s o hX ho hn =>
    have := (Walk.nil (d := P.d) s).snoc ho
    rw [zero_add] at this
    rw [hw]; exact this
  | @step s t o c hX ho hX' h ih =>
    have := (Walk.nil (d := P.d) s).snoc ho
    rw [zero_add] at this
    rw [hw]; exact this.trans ih

omit [DecidableEq S] [LinearOrder C] [IsOrderedAddMonoid C] in
theorem Exit.notin {wt : C → C} {X : S → Prop} {s t : S} {c : C} (h : Exit P.d wt X s t c) : ¬ X t := by
  induction h with
  | out _ _ h => exact h
  | step _ _ _ _ ih => exact ih

omit [DecidableEq S] [LinearOrder C] [IsOrderedAddMonoid C] in
theorem exists_exit {wt : C → C} {X : S → Prop} {s t : S} {c : C} (h : Walk P.d s t c) (hs : X s) :
    (∃ t c, Exit P.d wt X s t c) ∨ X t ∧ ∀ u c, Exit P.d wt X t u c → ∃ c', Exit P.d wt X s u c' := by
  induction h with
  | nil => exact Or.inr ⟨hs, fun u c h => ⟨c, h⟩⟩
  | @snoc t c o hw ho ih =>
    rcases ih with h | ⟨h1, h2⟩
    · exact Or.inl h
    · by_cases hX : X (P.d.app t o)
      · exact Or.inr ⟨hX, fun u c he => h2 u _ (.step h1 ho hX he)⟩
      · left
        obtain ⟨c', hc'⟩ := h2 _ _ (.out h1 ho hX)
        exact ⟨_, c', hc'⟩

theorem Full.facts {h : S → C} {x : L S O C} (hx : Full P r h x) (hf : Fair P s0) (hr : Reach P.d s0 r) : Facts P x where
  tab1 := hx.core.inv.tab1
  tab2 := hx.core.inv.tab2
  sub := hx.core.inv.sub
  exact := hx.core.rep.inv.indExact
  absent := hx.core.rep.absent
  stat := hx.core.stat
  ncl := hx.core.ncl
  pred1 i hi hc o ho := hx.core.mem.pred1 _ (hx.core.expd i hi hc) o ho
  pred2 k s c hm := (hx.core.mem.pred2 k s c hm).2
  known i hi hc o ho := let ⟨j, h1, h2, _⟩ := hx.relaxed i hi hc o ho; ⟨j, h1, h2⟩
  wt i hi _ o ho := by rw [hf.wt]; exact (hf.cost _ (hr.walk (hx.core.inv.tree.walk i hi)) o ho).le

/-- The state where an exit ends is a node of the open list. -/
theorem Full.exit {h : S → C} {x : L S O C} (hx : Full P r h x) (hw : ∀ c, P.wt c = c) {s t : S} {c : C}
    (he : Exit P.d P.wt (Interior x) s t c) : ∀ i < x.next, (x.nd i).closed = true → (x.nd i).st = s →
    ∃ j ∈ x.q.data, (x.nd j).st = t ∧ (x.nd j).g ≤ (x.nd i).g + c := by
  induction he with
  | @out s o hX ho hn =>
    rintro i hi hc rfl
    obtain ⟨j, h1, h2, h3⟩ := hx.relaxed i hi hc o ho
    refine ⟨j, (hx.core.stat j h1).2 ?_, h2, by rw [hw]; exact h3⟩
    cases hcj : (x.nd j).closed with
    | false => rfl
    | true => exact absurd ⟨j, h1, hcj, h2⟩ hn
  | @step s t o c hX ho hX' he ih =>
    rintro i hi hc rfl
    obtain ⟨j, h1, h2, h3⟩ := hx.relaxed i hi hc o ho
    have hcj : (x.nd j).closed = true := by
      rw [← interior_node hx.core.inv.tab1 h1, h2]; exact hX'
    obtain ⟨k, k1, k2, k3⟩ := ih j h1 hcj h2
    refine ⟨k, k1, k2, k3.trans ?_⟩
    rw [hw, ← add_assoc]
    gcongr

theorem Full.learn (hf : Fair P s0) (hr : Reach P.d s0 r) {h : S → C} (hg : Good P s0 h) {x : L S O C} (hx : Full P r h x)
    (hng : x.goal = none) : ∃ h', learn P x = .ok h' ∧ Good P s0 h' ∧ (∀ s, Reach P.d s0 s → h s ≤ h' s) ∧
      (∀ s, ¬ Interior x s → h' s = h s) ∧
      (∀ i < x.next, (x.nd i).closed = true → x.q.data ≠ []) ∧
      ∀ i < x.next, (x.nd i).closed = true → ∀ v, (∀ j ∈ x.q.data, v ≤ (x.nd j).f) → v ≤ (x.nd i).g + h' (x.nd i).st := by
  obtain ⟨h', e, e1, e2⟩ := learn_spec (hx.facts hf hr)
  rw [hx.core.mh] at e1 e2
  have hreach : ∀ s, Interior x s → Reach P.d s0 s := by
    rintro s ⟨i, hi, -, rfl⟩
    exact hr.walk (hx.core.inv.tree.walk i hi)
  have hgoal : ∀ s, Interior x s → P.d.goal s = false := by
    rintro s ⟨i, hi, -, rfl⟩
    exact hx.core.nogoal hng i hi
  have hex : ∀ s, Interior x s → ∃ t c, Exit P.d P.wt (Interior x) s t c := by
    intro s hs
    obtain ⟨t, c, hw, ht⟩ := hf.live s (hreach s hs)
    rcases exists_exit (wt := P.wt) hw hs with h | ⟨h, -⟩
    · exact h
    · rw [hgoal t h] at ht; exact absurd ht (by simp)
  have hin : ∀ s, Interior x s → ∃ t c, Exit P.d P.wt (Interior x) s t c ∧
      (∀ t' c', Exit P.d P.wt (Interior x) s t' c' → c + h t ≤ c' + h t') ∧ h' s = max (c + h t) (P.h s) :=
    fun s hs => (e2 s hs).1 (hex s hs)
  have hcons : ∀ s t c, Reach P.d s0 s → Walk P.d s t c → h s ≤ c + h t := fun s t c hs hw =>
    hw.consistent (I := Reach P.d s0) (fun s hs o ho => hs.step ho) hg.cons hs
  have hcons0 : ∀ s t c, Reach P.d s0 s → Walk P.d s t c → P.h s ≤ c + P.h t := fun s t c hs hw =>
    hw.consistent (I := Reach P.d s0) (fun s hs o ho => hs.step ho) hf.cons hs
  have hge : ∀ s, Reach P.d s0 s → h s ≤ h' s := by
    intro s hs
    by_cases hi : Interior x s
    · obtain ⟨t, c, h1, -, h3⟩ := hin s hi
      rw [h3]
      exact (hcons s t c hs (h1.walk hf.wt)).trans (le_max_left _ _)
    · rw [e1 s hi]
  refine ⟨h', e, ⟨?_, fun s hs => (hg.ge s hs).trans (hge s hs), ?_, ?_⟩, hge, e1, ?_, ?_⟩
  · intro s hs o ho
    by_cases hi : Interior x s
    · obtain ⟨t, c, h1, h2, h3⟩ := hin s hi
      have hP : P.h s ≤ P.d.cost s o + h' (P.d.app s o) :=
        (hf.cons s hs o ho).trans (by
          have := (hg.ge _ (hs.step ho)).trans (hge _ (hs.step ho))
          gcongr)
      rw [h3]
      refine max_le ?_ hP
      by_cases hi' : Interior x (P.d.app s o)
      · obtain ⟨t', c', k1, -, k3⟩ := hin _ hi'
        have := h2 _ _ (.step hi ho hi' k1)
        rw [hf.wt, add_assoc] at this
        refine this.trans ?_
        rw [k3]
        gcongr
        exact le_max_left _ _
      · have := h2 _ _ (.out hi ho hi')
        rw [hf.wt] at this
        rw [e1 _ hi']
        exact this
    · rw [e1 s hi]
      refine (hg.cons s hs o ho).trans ?_
      have := hge _ (hs.step ho)
      gcongr
  · intro s hs hgo
    rw [e1 s, hg.goal s hs hgo]
    intro hi
    rw [hgoal s hi] at hgo
    exact absurd hgo (by simp)
  · intro s hs
    by_cases hi : Interior x s
    · obtain ⟨t, c, h1, -, h3⟩ := hin s hi
      have hw := h1.walk hf.wt
      obtain ⟨t', c', k1, k2⟩ := hg.val t (hs.walk hw)
      refine ⟨t', c + c', hw.trans k1, ?_⟩
      rw [h3, max_eq_left]
      · rw [k2, add_assoc]
      · exact (hg.ge s hs).trans (hcons s t c hs hw)
    · rw [e1 s hi]
      exact hg.val s hs
  · intro i hi hc hnil
    obtain ⟨t, c, h1⟩ := hex _ ⟨i, hi, hc, rfl⟩
    obtain ⟨j, h2, -⟩ := hx.exit hf.wt h1 i hi hc rfl
    rw [hnil] at h2
    exact absurd h2 (by simp)
  · intro i hi hc v hv
    obtain ⟨t, c, h1, -, h3⟩ := hin _ ⟨i, hi, hc, rfl⟩
    obtain ⟨j, k1, k2, k3⟩ := hx.exit hf.wt h1 i hi hc rfl
    refine (hv j k1).trans ?_
    rw [hx.core.fval j (hx.core.inv.sub j k1), k2, h3]
    calc (x.nd j).g + h t ≤ (x.nd i).g + c + h t := by gcongr
      _ = (x.nd i).g + (c + h t) := add_assoc _ _ _
      _ ≤ _ := by gcongr; exact le_max_left _ _

/-- One iteration. -/
theorem iter_ok (hf : Fair P s0) (hl : Sticky P) (ho : OrderOk P) {k : Nat} (hk : 0 < P.look k) {cur : S}
    (hr : Reach P.d s0 cur) (hng : P.d.goal cur = false) {m : Mem S C} (hm : MemOk P m) (hg : Good P s0 m.h) :
    ∃ t m' os, iter P k cur m = .ok (t, m', os) ∧ MemOk P m' ∧ Good P s0 m'.h ∧ (∀ s, Reach P.d s0 s → m.h s ≤ m'.h s) ∧
      ((os = none ∧ ∃ c, P.lim m'.nexpd m'.gend c = true) ∨
        ∃ os', os = some os' ∧ (P.onestep = false → P.d.goal t = true ∨ (∃ s, Reach P.d s0 s ∧ m.h s < m'.h s) ∨ m'.h t < m'.h cur)) := by
  obtain ⟨x, h1, hinv, h3, h4, h5⟩ := full_expandLss (T := Reach P.d s0) hf.bonus (hf.costOk hr) (fun t c hw => hr.walk hw) hg.cons hl hk hm rfl hng
  unfold iter
  rw [h1, Outcome.bind_ok]
  by_cases hlim : x.m.lim P = true
  · rw [if_pos hlim]
    exact ⟨_, _, _, rfl, ⟨h3.pred1, h3.pred2⟩, by show Good P s0 x.m.h; rw [h4]; exact hg,
      fun s _ => by show m.h s ≤ x.m.h s; rw [h4], Or.inl ⟨rfl, _, hlim⟩⟩
  rw [if_neg hlim]
  cases hgo : x.goal with
  | some g =>
    rw [if_neg (by simp), Outcome.bind_ok]
    obtain ⟨g1, g2⟩ := hinv.goal g hgo
    have hne : (x.nd g).st ≠ cur := by
      intro e
      rw [e, hng] at g2
      exact absurd g2 (by simp)
    have hb : bestNode P x cur = .ok (some g) := by
      unfold bestNode
      rw [hgo]
    obtain ⟨t, os, k1, k2⟩ := move_ok hinv hb g1 hne
    rw [k1, Outcome.map_ok]
    refine ⟨_, _, _, rfl, ⟨h3.pred1, h3.pred2⟩, by show Good P s0 x.m.h; rw [h4]; exact hg,
      fun s _ => by show m.h s ≤ x.m.h s; rw [h4], Or.inr ⟨os, rfl, fun hos => Or.inl ?_⟩⟩
    show P.d.goal t = true
    rw [k2 hos]; exact g2
  | none =>
    rw [if_pos rfl]
    obtain ⟨hx, hcl⟩ := h5 hgo
    have hcl : (x.nd 0).closed = true := hcl.resolve_right hlim
    obtain ⟨h', e, l1, l2, l3, l4, l5⟩ := hx.learn hf hr hg hgo
    have hq := l4 0 hinv.tree.pos hcl
    rw [e, Outcome.bind_ok]
    have hopen : ∀ n ∈ x.q.data, (x.nd n).st ≠ cur := by
      intro n hn e
      have h1 := hinv.tab1 n (hinv.sub n hn)
      have h2 := hinv.tab1 0 hinv.tree.pos
      rw [e] at h1
      rw [hinv.tree.root.1, h1] at h2
      injection h2 with h2
      have := (hx.core.stat n (hinv.sub n hn)).1 hn
      rw [h2, hcl] at this
      exact absurd this (by simp)
    obtain ⟨b, b1, b2, b3, -⟩ := bestOpen_best hf.bonus x cur x.q.data none hopen (Or.inr hq)
    have b2 : b ∈ x.q.data := b2.resolve_left (by simp)
    have hbn := hinv.sub b b2
    -- the node chosen
    have hbest : ∃ n < x.next, bestNode P x cur = .ok (some n) ∧ (x.nd n).st ≠ cur ∧
        ((∃ s, Reach P.d s0 s ∧ m.h s < h' s) ∨ h' (x.nd n).st < h' cur) := by
      have hfront : h' (x.nd b).st < h' cur := by
        have hb0 : b ≠ 0 := by
          rintro rfl
          have := (hx.core.stat 0 hinv.tree.pos).1 b2
          rw [hcl] at this
          exact absurd this (by simp)
        have h6 := l5 0 hinv.tree.pos hcl (x.nd b).f b3
        rw [hinv.tree.root.2.2, zero_add, hinv.tree.root.1, hx.core.fval b hbn] at h6
        have hbi : ¬ Interior x (x.nd b).st := by
          rw [interior_node hinv.tab1 hbn, (hx.core.stat b hbn).1 b2]; simp
        rw [l3 _ hbi]
        refine lt_of_lt_of_le ?_ h6
        obtain ⟨j, -, j2, j3, -, j5⟩ := hinv.tree.par b hbn hb0
        have hw := hinv.tree.walk j j2
        have hpos := hf.cost _ (hr.walk hw) _ j3
        have hnn := hw.nonneg (hf.costOk hr)
        have : 0 < (x.nd b).g := lt_of_lt_of_le (add_pos_of_nonneg_of_pos hnn hpos) j5
        exact lt_add_of_pos_left _ this
      have hrest : (b < x.next ∧ (Outcome.ok (x.q.data.foldl (bestOpen P x cur) none) = Outcome.ok (some b)) ∧ (x.nd b).st ≠ cur) :=
        ⟨hbn, by rw [b1], hopen b b2⟩
      unfold bestNode
      rw [hgo]
      dsimp only
      by_cases hco : P.complete = true
      · rw [if_pos hco]
        cases hqd : x.q.data with
        | nil => exact absurd hqd hq
        | cons f qs =>
          dsimp only
          cases hly : ((P.order x.next).foldl (bestLayer P x cur (x.nd f).f) (0, none)).2 with
          | none =>
            dsimp only
            rw [← hqd]
            exact ⟨b, hrest.1, hrest.2.1, hrest.2.2, Or.inr hfront⟩
          | some n =>
            dsimp only
            rcases bestLayer_mem P x cur (x.nd f).f _ _ n hly with h | ⟨n1, n2, n3, n4⟩
            · exact absurd h (by simp)
            have hn := (ho _ _).1 n1
            have hfq : f ∈ x.q.data := by rw [hqd]; exact List.mem_cons_self
            have hnf : (x.nd n).f < (x.nd f).f := lt_of_le_of_ne (hx.mono n hn n3 f hfq) n4
            -- the first element of the heap is the best
            have hroot : ∀ j ∈ x.q.data, (x.nd f).f ≤ (x.nd j).f := by
              intro j hj
              obtain ⟨i, hi, rfl⟩ := List.getElem_of_mem hj
              have := BinHeap.ordered_root (BinHeap.strictWeak_predOf flt_strictWeak (keyF P x.nd)) hx.core.rep.inv.ordered i hi
              have h0 : x.q.data[0]'(by omega) = f := by simp only [hqd]; rfl
              dsimp only at this
              rw [h0] at this
              exact (keyF_false hf.bonus this).1
            refine ⟨n, hn, rfl, n2, Or.inl ⟨_, hr.walk (hinv.tree.walk n hn), ?_⟩⟩
            have h7 := l5 n hn n3 _ hroot
            rw [hx.core.fval n hn] at hnf
            exact lt_of_add_lt_add_left (lt_of_lt_of_le hnf h7)
      · rw [if_neg hco]
        exact ⟨b, hrest.1, hrest.2.1, hrest.2.2, Or.inr hfront⟩
    obtain ⟨n, n1, n2, n3, n4⟩ := hbest
    obtain ⟨t, os, k1, k2⟩ := move_ok hinv n2 n1 n3
    rw [k1, Outcome.map_ok]
    refine ⟨_, _, _, rfl, ⟨h3.pred1, h3.pred2⟩, l1, l2, Or.inr ⟨os, rfl, fun hos => Or.inr ?_⟩⟩
    show _ ∨ h' t < h' cur
    rw [k2 hos]
    exact n4

/-! ## Termination -/

/-- The costs of walks of at most `n` steps. -/
def costs (d : Dom S O C) (F : Finset S) : Nat → Finset C
  | 0 => {0}
  | n + 1 => costs d F n ∪ (costs d F n).biUnion fun c => F.biUnion fun s => ((d.ops s).map fun o => c + d.cost s o).toFinset

omit [DecidableEq S] [IsOrderedAddMonoid C] in
theorem costs_mono (d : Dom S O C) (F : Finset S) {n m : Nat} (h : n ≤ m) : costs d F n ⊆ costs d F m := by
  induction h with
  | refl => exact Finset.Subset.refl _
  | step _ ih => exact ih.trans Finset.subset_union_left

theorem walk_costs {F : Finset S} (hF : ∀ s, Reach P.d s0 s → s ∈ F) {ε : C}
    (hε : ∀ s, Reach P.d s0 s → ∀ o ∈ P.d.ops s, ε ≤ P.d.cost s o) {s t : S} {c : C} (hw : Walk P.d s t c)
    (hs : Reach P.d s0 s) : ∃ n : Nat, c ∈ costs P.d F n ∧ n • ε ≤ c := by
  induction hw with
  | nil => exact ⟨0, by simp [costs], by simp⟩
  | @snoc t c o hw ho ih =>
    obtain ⟨n, h1, h2⟩ := ih
    have ht := hs.walk hw
    refine ⟨n + 1, ?_, ?_⟩
    · rw [costs, Finset.mem_union, Finset.mem_biUnion]
      right
      refine ⟨c, h1, ?_⟩
      rw [Finset.mem_biUnion]
      exact ⟨t, hF t ht, by rw [List.mem_toFinset]; exact List.mem_map.2 ⟨o, ho, rfl⟩⟩
    · rw [succ_nsmul]
      exact add_le_add h2 (hε t ht o ho)

/-- How much all values can still grow. -/
def slack (F : Finset S) (V : Finset C) (h : S → C) : Nat := ∑ s ∈ F, (V.filter (h s < ·)).card

omit [DecidableEq S] [AddCommGroup C] [IsOrderedAddMonoid C] in
theorem slack_le {F : Finset S} {V : Finset C} {h h' : S → C} (hle : ∀ s ∈ F, h s ≤ h' s) : slack F V h' ≤ slack F V h := by
  refine Finset.sum_le_sum fun s hs => Finset.card_le_card fun v hv => ?_
  rw [Finset.mem_filter] at hv ⊢
  exact ⟨hv.1, lt_of_le_of_lt (hle s hs) hv.2⟩

omit [DecidableEq S] [AddCommGroup C] [IsOrderedAddMonoid C] in
theorem slack_lt {F : Finset S} {V : Finset C} {h h' : S → C} (hle : ∀ s ∈ F, h s ≤ h' s) {s : S} (hs : s ∈ F)
    (hlt : h s < h' s) (hV : h' s ∈ V) : slack F V h' < slack F V h := by
  refine Finset.sum_lt_sum (fun s hs => Finset.card_le_card fun v hv => ?_) ⟨s, hs, Finset.card_lt_card ?_⟩
  · rw [Finset.mem_filter] at hv ⊢
    exact ⟨hv.1, lt_of_le_of_lt (hle s hs) hv.2⟩
  · rw [Finset.ssubset_iff_of_subset]
    · exact ⟨h' s, by rw [Finset.mem_filter]; exact ⟨hV, hlt⟩, by rw [Finset.mem_filter]; exact fun h => lt_irrefl _ h.2⟩
    · intro v hv
      rw [Finset.mem_filter] at hv ⊢
      exact ⟨hv.1, lt_of_le_of_lt (hle s hs) hv.2⟩

/-- The number of values below `v`. -/
def below (V : Finset C) (v : C) : Nat := (V.filter (· < v)).card

omit [AddCommGroup C] [IsOrderedAddMonoid C] in
theorem below_lt {V : Finset C} {v w : C} (h : v < w) (hV : v ∈ V) : below V v < below V w := by
  refine Finset.card_lt_card ?_
  rw [Finset.ssubset_iff_of_subset]
  · exact ⟨v, by rw [Finset.mem_filter]; exact ⟨hV, h⟩, by rw [Finset.mem_filter]; exact fun h => lt_irrefl _ h.2⟩
  · intro u hu
    rw [Finset.mem_filter] at hu ⊢
    exact ⟨hu.1, hu.2.trans h⟩

theorem loop_ok (hf : Fair P s0) (hl : Sticky P) (ho : OrderOk P) (hk : ∀ k, 0 < P.look k) (hos : P.onestep = false)
    {F : Finset S} (hF : ∀ s, s ∈ F ↔ Reach P.d s0 s) {V : Finset C}
    (hV : ∀ h, Good P s0 h → ∀ s, Reach P.d s0 s → h s ∈ V) : ∀ (fuel k : Nat) (cur : S) (m : Mem S C) (ops : List O)
    (lens : List Nat), Reach P.d s0 cur → MemOk P m → Good P s0 m.h →
    slack F V m.h * (V.card + 1) + below V (m.h cur) + 1 < fuel →
    ∃ r, loop P fuel k cur m ops lens = .ok r ∧ (P.d.goal r.1 = true ∨ ∃ c, P.lim r.2.1.nexpd r.2.1.gend c = true)
  | 0, _, _, _, _, _, _, _, _, h => absurd h (Nat.not_lt_zero _)
  | fuel + 1, k, cur, m, ops, lens, hr, hm, hg, hfuel => by
    rw [loop]
    by_cases hgo : P.d.goal cur = true
    · rw [if_pos hgo]
      exact ⟨_, rfl, Or.inl hgo⟩
    rw [if_neg hgo]
    by_cases hlim : m.lim P = true
    · rw [if_pos hlim]
      exact ⟨_, rfl, Or.inr ⟨_, hlim⟩⟩
    rw [if_neg hlim]
    obtain ⟨t, m', os, e, h1, h2, h3, h4⟩ := iter_ok hf hl ho (hk k) hr (by simpa using hgo) (m := m.call)
      ⟨hm.pred1, hm.pred2⟩ hg
    have h3 : ∀ s, Reach P.d s0 s → m.h s ≤ m'.h s := h3
    rw [e, Outcome.bind_ok]
    rcases h4 with ⟨rfl, c, hc⟩ | ⟨os', rfl, h4⟩
    · exact ⟨_, rfl, Or.inr ⟨c, hc⟩⟩
    dsimp only
    have ht : Reach P.d s0 t := by
      rcases iter_sound ho (hf.costOk hr) e with ⟨h, -⟩ | ⟨os2, -, -, ss, c, p1, p2⟩
      · exact absurd h (by simp)
      · exact hr.walk (plan_walk p1 p2)
    have hle : ∀ s ∈ F, m.h s ≤ m'.h s := fun s hs => h3 s ((hF s).1 hs)
    have hb : below V (m'.h t) ≤ V.card := Finset.card_filter_le _ _
    rcases h4 hos with h4 | h4 | h4
    · cases fuel with
      | zero => omega
      | succ fuel =>
        rw [loop, if_pos h4]
        exact ⟨_, rfl, Or.inl h4⟩
    · obtain ⟨s, hs, hlt⟩ := h4
      have := slack_lt hle ((hF s).2 hs) hlt (hV _ h2 s hs)
      refine loop_ok hf hl ho hk hos hF hV fuel _ _ _ _ _ ht h1 h2 ?_
      have h5 : (slack F V m'.h + 1) * (V.card + 1) ≤ slack F V m.h * (V.card + 1) := Nat.mul_le_mul_right _ this
      rw [Nat.add_mul] at h5
      omega
    · refine loop_ok hf hl ho hk hos hF hV fuel _ _ _ _ _ ht h1 h2 ?_
      by_cases hex : ∃ s, Reach P.d s0 s ∧ m.h s < m'.h s
      · obtain ⟨s, hs, hlt⟩ := hex
        have := slack_lt hle ((hF s).2 hs) hlt (hV _ h2 s hs)
        have h5 : (slack F V m'.h + 1) * (V.card + 1) ≤ slack F V m.h * (V.card + 1) := Nat.mul_le_mul_right _ this
        rw [Nat.add_mul] at h5
        omega
      · push Not at hex
        have hcur : m'.h cur = m.h cur := le_antisymm (hex cur hr) (h3 cur hr)
        have h5 := below_lt h4 (hV _ h2 t ht)
        rw [hcur] at h5
        have h6 := Nat.mul_le_mul_right (V.card + 1) (slack_le (V := V) hle)
        omega

omit [DecidableEq S] in
theorem good_init (hf : Fair P s0) : Good P s0 P.h :=
  ⟨hf.cons, fun _ _ => le_rfl, fun _ _ _ => rfl, fun s _ => ⟨s, 0, .nil s, by rw [zero_add]⟩⟩

omit [DecidableEq S] [IsOrderedAddMonoid C] in
theorem memOk_init : MemOk P (mem0 P) :=
  ⟨fun s h => absurd h (by simp [mem0]), fun k s c h => absurd h (by simp [mem0])⟩

variable [Archimedean C]

/-- The values that can be learned are finitely many. -/
theorem finite_values (hf : Fair P s0) {F : Finset S} (hF : ∀ s, s ∈ F ↔ Reach P.d s0 s) {ε : C} (hpos : 0 < ε)
    (hε : ∀ s, Reach P.d s0 s → ∀ o ∈ P.d.ops s, ε ≤ P.d.cost s o) :
    ∃ V : Finset C, ∀ h, Good P s0 h → ∀ s, Reach P.d s0 s → h s ∈ V := by
  have hD : ∀ s, ∃ D, Reach P.d s0 s → ∀ h, Good P s0 h → h s ≤ D := by
    intro s
    by_cases hs : Reach P.d s0 s
    · obtain ⟨t, c, hw, ht⟩ := hf.live s hs
      refine ⟨c, fun _ h hg => ?_⟩
      have h1 := hw.consistent (I := Reach P.d s0) (fun s hs o ho => hs.step ho) hg.cons hs
      have h2 : h t ≤ 0 := by
        rw [hg.goal t (hs.walk hw) ht]
        exact hf.goal t (hs.walk hw) ht
      exact h1.trans (by simpa using h2)
    · exact ⟨0, fun h => absurd h hs⟩
  choose D hD using hD
  obtain ⟨B, hB⟩ := (F.image D).exists_le
  obtain ⟨lo, hlo⟩ := (F.image fun s => - P.h s).exists_le
  obtain ⟨N, hN⟩ := Archimedean.arch (B + lo) hpos
  refine ⟨(costs P.d F N).biUnion fun c => F.image fun t => c + P.h t, fun h hg s hs => ?_⟩
  obtain ⟨t, c, hw, hv⟩ := hg.val s hs
  have ht := hs.walk hw
  obtain ⟨n, h1, h2⟩ := walk_costs (fun s hs => (hF s).2 hs) hε hw hs
  have h3 : h s ≤ B := (hD s hs h hg).trans (hB _ (Finset.mem_image_of_mem _ ((hF s).2 hs)))
  have h4 : - P.h t ≤ lo := hlo _ (Finset.mem_image_of_mem (fun s => - P.h s) ((hF t).2 ht))
  have h5 : c ≤ B + lo := by
    have : c = h s + - P.h t := by rw [hv, add_neg_cancel_right]
    rw [this]
    exact add_le_add h3 h4
  have h6 : n ≤ N := by
    have := (h2.trans h5).trans hN
    by_contra hc
    have := nsmul_lt_nsmul_left hpos (not_le.1 hc)
    exact absurd this (not_lt.2 ‹_›)
  rw [hv, Finset.mem_biUnion]
  exact ⟨c, costs_mono _ _ h6 h1, Finset.mem_image_of_mem (fun t => c + P.h t) ((hF t).2 ht)⟩

theorem loop_complete (hf : Fair P s0) (hl : Sticky P) (ho : OrderOk P) (hk : ∀ k, 0 < P.look k) (hos : P.onestep = false)
    (hfin : {s | Reach P.d s0 s}.Finite) : ∃ N, ∀ fuel ≥ N, ∃ r, loop P fuel 0 s0 (mem0 P) [] [] = .ok r ∧
      (P.d.goal r.1 = true ∨ ∃ c, P.lim r.2.1.nexpd r.2.1.gend c = true) := by
  have hr : Reach P.d s0 s0 := ⟨0, .nil _⟩
  by_cases hg : P.d.goal s0 = true
  · refine ⟨1, fun fuel hfuel => ?_⟩
    obtain ⟨n, rfl⟩ : ∃ n, fuel = n + 1 := ⟨fuel - 1, by omega⟩
    rw [loop, if_pos hg]
    exact ⟨_, rfl, Or.inl hg⟩
  have hF : ∀ s, s ∈ hfin.toFinset ↔ Reach P.d s0 s := fun s => hfin.mem_toFinset
  set F := hfin.toFinset with hFd
  have hK : ∃ s o, Reach P.d s0 s ∧ o ∈ P.d.ops s := by
    obtain ⟨t, c, hw, ht⟩ := hf.live s0 hr
    cases hw with
    | nil => exact absurd ht hg
    | snoc hw ho => exact ⟨_, _, ⟨_, hw⟩, ho⟩
  obtain ⟨s1, o1, hs1, ho1⟩ := hK
  set K : Finset C := F.biUnion fun s => ((P.d.ops s).map (P.d.cost s)).toFinset with hKd
  have hmem : ∀ s, Reach P.d s0 s → ∀ o ∈ P.d.ops s, P.d.cost s o ∈ K := by
    intro s hs o ho
    rw [hKd, Finset.mem_biUnion]
    exact ⟨s, (hF s).2 hs, by rw [List.mem_toFinset]; exact List.mem_map_of_mem ho⟩
  have hne : K.Nonempty := ⟨_, hmem s1 hs1 o1 ho1⟩
  have hpos : 0 < K.min' hne := by
    obtain ⟨s, hs, h1⟩ := Finset.mem_biUnion.1 (K.min'_mem hne)
    rw [List.mem_toFinset] at h1
    obtain ⟨o, ho, h2⟩ := List.mem_map.1 h1
    rw [← h2]
    exact hf.cost s ((hF s).1 hs) o ho
  obtain ⟨V, hV⟩ := finite_values hf hF hpos (fun s hs o ho => K.min'_le _ (hmem s hs o ho))
  refine ⟨slack F V P.h * (V.card + 1) + below V (P.h s0) + 2, fun fuel hfuel => ?_⟩
  exact loop_ok hf hl ho hk hos hF hV fuel 0 s0 (mem0 P) [] [] hr memOk_init (good_init hf)
    (by show slack F V P.h * (V.card + 1) + below V (P.h s0) + 1 < fuel; omega)

end Verif.Lss
