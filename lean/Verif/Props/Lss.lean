import Verif.Search.LssOpt
import Verif.Props.Wastar
import Mathlib.Data.Set.Finite.Basic

/-!
# C69–C72: LSS-LRTA*

`P` has the domain, the heuristic, the limit test (any function of the counters), the lookahead of each local search (any
sequence), the weight, the options `onestep` and `complete`, and the order in which a table is walked through.  Its `bonus` is
0 for LSS-LRTA*.
`search P fuel s0` is a search from `s0`; `nofuel` means that it is still running after `fuel` steps.  `Plan`, `Walk`,
`Solution` are those of `Props/Astar`; `Exit` (`Search/LssLearn`) says how one can leave a set of states.
-/

namespace Verif.Lss

open Verif.Search

variable {S O C : Type*} [DecidableEq S] [AddCommGroup C] [LinearOrder C] [IsOrderedAddMonoid C]

/-! ## C69 -/

/-- C69: a search reports nothing at all or a solution, whatever the heuristic, the weight, the options, the lookahead and
the limit are. -/
theorem c69_solution {P : Par S O C} {s0 : S} (hd : CostOk P.d s0) (ho : OrderOk P) {fuel : Nat} {r : Res S O C}
    (h : search P fuel s0 = .ok r) : (r.path, r.ops) = ([], []) ∨ ∃ c, Solution P.d s0 (r.path, r.ops) c := by
  unfold search at h
  obtain ⟨⟨t, m, ops, lens⟩, h1, h2⟩ := Outcome.map_eq_ok.1 h
  obtain ⟨⟨ss, c, p1, p2⟩, -⟩ := loop_sound ho hd _ _ _ _ _ _ ⟨[], 0, .nil _, rfl⟩ rfl (by simp) h1
  dsimp only at h2
  by_cases hg : P.d.goal t = false
  · rw [if_pos hg] at h2
    subst h2
    exact Or.inl rfl
  · rw [if_neg hg] at h2
    subst h2
    refine Or.inr ⟨c, ss, ?_, ?_, t, ?_, by simpa using hg⟩
    · simp [rebuild_plan p1]
    · simpa using p1
    · dsimp only
      rw [rebuild_plan p1, List.head?_reverse, p2]

/-- C69: the recorded lengths of the steps are positive and add up to the length of the solution. -/
theorem c69_lengths {P : Par S O C} {s0 : S} (hd : CostOk P.d s0) (ho : OrderOk P) {fuel : Nat} {r : Res S O C}
    (h : search P fuel s0 = .ok r) (hr : r.path ≠ []) : r.lens.sum = r.ops.length ∧ (∀ n ∈ r.lens, 0 < n) ∧
      (P.onestep = true → ∀ n ∈ r.lens, n = 1) := by
  unfold search at h
  obtain ⟨⟨t, m, ops, lens⟩, h1, h2⟩ := Outcome.map_eq_ok.1 h
  obtain ⟨-, l1, l2⟩ := loop_sound ho hd _ _ _ _ _ _ ⟨[], 0, .nil _, rfl⟩ rfl (by simp) h1
  have l3 := fun hos : P.onestep = true => loop_onestep hos _ _ _ _ _ _ (by simp) h1
  dsimp only at h2
  by_cases hg : P.d.goal t = false
  · rw [if_pos hg] at h2
    subst h2
    exact absurd rfl hr
  · rw [if_neg hg] at h2
    subst h2
    exact ⟨by simpa using l1, l2, l3⟩

/-- C69: no local search expands more nodes than its lookahead allows (so that a search with `n` steps expands at most
`b * (n + 1)` nodes), and a limit on the number of expansions is kept exactly. -/
theorem c69_expansions {P : Par S O C} {s0 : S} {fuel : Nat} {r : Res S O C} (h : search P fuel s0 = .ok r) :
    (∀ b, (∀ k, P.look k ≤ b) → r.m.nexpd ≤ b * (r.lens.length + 1)) ∧
    ∀ N, (∀ a b c, N ≤ a → P.lim a b c = true) → r.m.nexpd ≤ N := by
  unfold search at h
  obtain ⟨⟨t, m, ops, lens⟩, h1, h2⟩ := Outcome.map_eq_ok.1 h
  obtain ⟨l1, l2⟩ := loop_nexpd _ _ _ _ _ _ h1
  have e : r.m = m ∧ r.lens = lens := by
    dsimp only at h2
    split at h2 <;> (subst h2; exact ⟨rfl, rfl⟩)
  rw [e.1, e.2]
  refine ⟨fun b hb => ?_, fun N hN => l2 N hN (Nat.zero_le _)⟩
  have a1 := l1 b hb
  have a2 : (mem0 P).nexpd = 0 := rfl
  rw [a2, List.length_nil, Nat.mul_zero, Nat.zero_add, Nat.add_zero] at a1
  exact a1

/-! ## C70 -/

/-- C70: what is learned after a local search that found no goal.  The search closes (a subset of) the states; a closed state
from which one can get out gets the least cost of getting out plus the value outside, or the value of the heuristic if that
is greater; all other values stay.  The weight may be any function that is not negative on the costs. -/
theorem c70_learn {P : Par S O C} (hb : ∀ s, P.bonus s = 0) {r : S} {h : S → C} (hd : CostOk P.d r)
    (hc : ∀ t c, Walk P.d r t c → ∀ o ∈ P.d.ops t, h t ≤ P.d.cost t o + h (P.d.app t o))
    (hw : ∀ t c, Walk P.d r t c → ∀ o ∈ P.d.ops t, 0 ≤ P.wt (P.d.cost t o)) (hl : Sticky P) {k : Nat} (hk : 0 < P.look k)
    {m : Mem S C} (hm : MemOk P m) (hh : m.h = h) (hg : P.d.goal r = false) :
    ∃ x, expandLss P k r m = .ok x ∧ (x.goal = none → x.m.lim P = false → ∃ h', learn P x = .ok h' ∧ Interior x r ∧
      (∀ s, Interior x s → P.d.goal s = false ∧ ∃ c, Walk P.d r s c) ∧
      (∀ s, ¬ Interior x s → h' s = h s) ∧
      ∀ s, Interior x s →
        ((∃ t c, Exit P.d P.wt (Interior x) s t c) → ∃ t c, Exit P.d P.wt (Interior x) s t c ∧
          (∀ t' c', Exit P.d P.wt (Interior x) s t' c' → c + h t ≤ c' + h t') ∧ h' s = max (c + h t) (P.h s)) ∧
        ((¬ ∃ t c, Exit P.d P.wt (Interior x) s t c) → h' s = h s)) := by
  obtain ⟨x, e, hinv, -, hxh, hx⟩ := full_expandLss (T := fun t => ∃ c, Walk P.d r t c) hb hd (fun t c hw => ⟨c, hw⟩)
    (fun s hs o ho => let ⟨c, hw⟩ := hs; hc s c hw o ho) hl hk hm hh hg
  refine ⟨x, e, fun hgo hlim => ?_⟩
  obtain ⟨hx, hcl⟩ := hx hgo
  have hcl : (x.nd 0).closed = true := hcl.resolve_right (by rw [hlim]; simp)
  have hf : Facts P x := ⟨hx.core.inv.tab1, hx.core.inv.tab2, hx.core.inv.sub, hx.core.rep.inv.indExact, hx.core.rep.absent, hx.core.stat, hx.core.ncl,
    fun i hi hc o ho => hx.core.mem.pred1 _ (hx.core.expd i hi hc) o ho, fun k s c hm => (hx.core.mem.pred2 k s c hm).2,
    fun i hi hc o ho => let ⟨j, h1, h2, _⟩ := hx.relaxed i hi hc o ho; ⟨j, h1, h2⟩,
    fun i hi _ o ho => hw _ _ (hx.core.inv.tree.walk i hi) o ho⟩
  obtain ⟨h', e1, e2, e3⟩ := learn_spec hf
  rw [hx.core.mh] at e2 e3
  refine ⟨h', e1, ⟨0, hinv.tree.pos, hcl, hinv.tree.root.1⟩, ?_, e2, e3⟩
  rintro s ⟨i, hi, -, rfl⟩
  exact ⟨hx.core.nogoal hgo i hi, _, hinv.tree.walk i hi⟩

/-- C70: with a consistent heuristic, positive costs, weight 1 and a way to a goal from everywhere, a step of the search
succeeds (or the limit is reached); the values stay consistent and above the heuristic, they never decrease, and they never
exceed the cost of a way to a goal. -/
theorem c70_step {P : Par S O C} {s0 : S} (hf : Fair P s0) (hl : Sticky P) (ho : OrderOk P) {k : Nat} (hk : 0 < P.look k) {cur : S}
    (hr : Reach P.d s0 cur) (hng : P.d.goal cur = false) {m : Mem S C} (hm : MemOk P m) (hg : Good P s0 m.h) :
    ∃ t m' os, iter P k cur m = .ok (t, m', os) ∧ MemOk P m' ∧ Good P s0 m'.h ∧ (∀ s, Reach P.d s0 s → m.h s ≤ m'.h s) ∧
      ∀ s, Reach P.d s0 s → ∀ g c, Walk P.d s g c → P.d.goal g = true → m'.h s ≤ c := by
  obtain ⟨t, m', os, h1, h2, h3, h4, -⟩ := iter_ok hf hl ho hk hr hng hm hg
  refine ⟨t, m', os, h1, h2, h3, h4, fun s hs g c hw hgo => ?_⟩
  have h5 := hw.consistent (I := Reach P.d s0) (fun s hs o ho => hs.step ho) h3.cons hs
  have h6 : m'.h g ≤ 0 := by
    rw [h3.goal g (hs.walk hw) hgo]
    exact hf.goal g (hs.walk hw) hgo
  exact h5.trans (by simpa using h6)

/-! ## C71 -/

/-- C71: on a finite problem with positive costs where a goal can be reached from everywhere, with a consistent heuristic,
weight 1, and any lookahead of at least 1, a search ends: with a solution, or because the limit was reached.  It never fails an
assertion.  Partial: without the option `onestep`
(`c71_onestep_endless`). -/
theorem c71_complete_partial [Archimedean C] {P : Par S O C} {s0 : S} (hf : Fair P s0) (hl : Sticky P) (ho : OrderOk P)
    (hk : ∀ k, 0 < P.look k) (hos : P.onestep = false) (hfin : {s | Reach P.d s0 s}.Finite) :
    ∃ N, ∀ fuel ≥ N, ∃ r, search P fuel s0 = .ok r ∧
      ((∃ c, Solution P.d s0 (r.path, r.ops) c) ∨ ∃ n, P.lim r.m.nexpd r.m.gend n = true) := by
  obtain ⟨N, hN⟩ := loop_complete hf hl ho hk hos hfin
  refine ⟨N, fun fuel hfuel => ?_⟩
  obtain ⟨⟨t, m, ops, lens⟩, h1, h2⟩ := hN fuel hfuel
  have hs : search P fuel s0 = .ok (if P.d.goal t = false then ⟨[], [], m, lens⟩
      else ⟨(s0 :: rebuild P.d s0 ops).reverse, ops.reverse, m, lens⟩) := by
    unfold search
    rw [h1, Outcome.map_ok]
  refine ⟨_, hs, ?_⟩
  rcases h2 with h2 | h2
  · left
    rcases c69_solution (hf.costOk ⟨0, .nil _⟩) ho hs with h | h
    · rw [if_neg (by rw [show P.d.goal t = true from h2]; simp)] at h
      exact absurd (congrArg Prod.fst h) (by simp)
    · exact h
  · right
    obtain ⟨n, hn⟩ := h2
    refine ⟨n, ?_⟩
    split <;> exact hn

/-- C71: without a limit, it ends with a solution. -/
theorem c71_finds_partial [Archimedean C] {P : Par S O C} {s0 : S} (hf : Fair P s0) (hl : ∀ a b c, P.lim a b c = false)
    (ho : OrderOk P) (hk : ∀ k, 0 < P.look k) (hos : P.onestep = false) (hfin : {s | Reach P.d s0 s}.Finite) :
    ∃ N, ∀ fuel ≥ N, ∃ r c, search P fuel s0 = .ok r ∧ Solution P.d s0 (r.path, r.ops) c := by
  obtain ⟨N, hN⟩ := c71_complete_partial hf (fun a b c h => by rw [hl] at h; exact absurd h (by simp)) ho hk hos hfin
  refine ⟨N, fun fuel hfuel => ?_⟩
  obtain ⟨r, h1, h2⟩ := hN fuel hfuel
  rcases h2 with ⟨c, h2⟩ | ⟨n, h2⟩
  · exact ⟨r, c, h1, h2⟩
  · rw [hl] at h2
    exact absurd h2 (by simp)

/-- C71: on a problem without a reachable goal a search without a limit never ends by saying so: it runs on or fails an
assertion. -/
theorem c71_unsolvable {P : Par S O C} {s0 : S} (hd : CostOk P.d s0) (ho : OrderOk P) (hl : ∀ a b c, P.lim a b c = false)
    (hg : ∀ t c, Walk P.d s0 t c → P.d.goal t = false) (fuel : Nat) : ∀ r, search P fuel s0 ≠ .ok r := by
  intro r h
  unfold search at h
  obtain ⟨⟨t, m, ops, lens⟩, h1, -⟩ := Outcome.map_eq_ok.1 h
  rcases loop_end _ _ _ _ _ _ h1 with h2 | ⟨c, h2⟩
  · obtain ⟨⟨ss, c, p1, p2⟩, -⟩ := loop_sound ho hd _ _ _ _ _ _ ⟨[], 0, .nil _, rfl⟩ rfl (by simp) h1
    rw [hg t c (plan_walk p1 p2)] at h2
    exact absurd h2 (by simp)
  · rw [hl] at h2
    exact absurd h2 (by simp)

/-! ## C72 -/

/-- C72: with a lookahead of at least the number of states, a consistent heuristic that is 0 at goals and costs that are not
negative, the search is A*: it ends after one step with a cheapest solution. -/
theorem c72_optimal {P : Par S O C} (hb : ∀ s, P.bonus s = 0) {s0 : S} (hd : CostOk P.d s0) (ho : OrderOk P)
    (hc : ∀ t c, Walk P.d s0 t c → ∀ o ∈ P.d.ops t, P.h t ≤ P.d.cost t o + P.h (P.d.app t o))
    (h0 : ∀ t c, Walk P.d s0 t c → P.d.goal t = true → P.h t = 0) (hl : ∀ a b c, P.lim a b c = false) (hos : P.onestep = false)
    {F : Finset S} (hF : ∀ t c, Walk P.d s0 t c → t ∈ F) (hk : F.card ≤ P.look 0)
    (hs : ∃ t c, Walk P.d s0 t c ∧ P.d.goal t = true) {fuel : Nat} (hfuel : 2 ≤ fuel) :
    ∃ r c, search P fuel s0 = .ok r ∧ Solution P.d s0 (r.path, r.ops) c ∧ r.lens.length ≤ 1 ∧
      ∀ t c', Walk P.d s0 t c' → P.d.goal t = true → c ≤ c' := by
  obtain ⟨f, rfl⟩ : ∃ f, fuel = f + 2 := ⟨fuel - 2, by omega⟩
  obtain ⟨t0, c0, hw0, ht0⟩ := hs
  by_cases hg : P.d.goal s0 = true
  · refine ⟨⟨[s0], [], mem0 P, []⟩, 0, ?_, ⟨[], rfl, .nil _, s0, rfl, hg⟩, by simp, fun t c' hw _ => hw.nonneg hd⟩
    unfold search
    rw [loop, if_pos hg, Outcome.map_ok]
    dsimp only
    rw [if_neg (by rw [hg]; simp)]
    rfl
  · have hg : P.d.goal s0 = false := by simpa using hg
    obtain ⟨t, m', os, ss, c, e, e1, e2, e3, e4⟩ := iter_opt hb hd (fun s hs o ho => let ⟨c, hw⟩ := hs; hc s c hw o ho) hl hos hF hk hw0 ht0 hg
      (m := (mem0 P).call) ⟨memOk_init.pred1, memOk_init.pred2⟩ rfl
    have hlp : loop P (f + 2) 0 s0 (mem0 P) [] [] = .ok (t, m', os, [os.length]) := by
      rw [loop, if_neg (by rw [hg]; simp), if_neg (by unfold Mem.lim; rw [hl]; simp), e, Outcome.bind_ok]
      dsimp only
      rw [loop, if_pos e1]
      rfl
    refine ⟨⟨(s0 :: rebuild P.d s0 os).reverse, os.reverse, m', [os.length]⟩, c, ?_, ⟨ss, ?_, ?_, t, ?_, e1⟩, by simp, ?_⟩
    · unfold search
      rw [hlp, Outcome.map_ok]
      dsimp only
      rw [if_neg (by rw [e1]; simp)]
    · simp [rebuild_plan e2]
    · simpa using e2
    · dsimp only
      rw [rebuild_plan e2, List.head?_reverse, e3]
    · intro t' c' hw' ht'
      have := e4 t' c' hw' ht'
      rwa [h0 t c (plan_walk e2 e3) e1, h0 t' c' hw' ht', add_zero, add_zero] at this

/-! ## Examples -/

/-- A search without limit on a graph with four states. -/
def gPar (es : List (Fin 4 × Fin 4 × Int)) (h : Fin 4 → Int) (look : Nat) (onestep complete : Bool) :
    Par (Fin 4) (Option (Fin 4)) Int :=
  ⟨graph 4 es (· == 3), h, fun _ _ _ => false, fun _ => look, id, onestep, complete, List.range, fun _ => 0⟩

/-- What can be compared of a result: path, operators, lengths of the steps, expansions, learned values. -/
def shown (r : Outcome (Res (Fin 4) (Option (Fin 4)) Int)) : Outcome (List (Fin 4) × List (Option (Fin 4)) × List Nat × Nat × List Int) :=
  r.map fun r => (r.path, r.ops, r.lens, r.m.nexpd, List.ofFn r.m.h)

/-- Two ways from 0 to 3: through 1 and 2 (cost 8), and directly (cost 9). -/
def ring : List (Fin 4 × Fin 4 × Int) := [(0, 1, 1), (1, 0, 1), (1, 2, 1), (2, 1, 1), (2, 3, 6), (3, 2, 6), (0, 3, 9), (3, 0, 9)]

theorem order_range {S O C : Type*} {P : Par S O C} (h : P.order = List.range) : OrderOk P := fun n i => by
  rw [h, List.mem_range]

theorem ring_walk (s : Fin 4) : ∃ c, Walk (graph 4 ring (· == 3)) s 3 c := by
  have h2 : ∀ t, some (3 : Fin 4) ∈ (graph 4 ring (· == 3)).ops t → ∃ c, Walk (graph 4 ring (· == 3)) t 3 c := fun t ht =>
    ⟨_, (Walk.nil (d := graph 4 ring (· == 3)) t).snoc ht⟩
  have h1 : ∃ c, Walk (graph 4 ring (· == 3)) 1 3 c := by
    obtain ⟨c, hc⟩ := h2 2 (by decide)
    exact ⟨_, ((Walk.nil (d := graph 4 ring (· == 3)) 1).snoc (o := some 2) (by decide)).trans hc⟩
  fin_cases s
  · exact h2 0 (by decide)
  · exact h1
  · exact h2 2 (by decide)
  · exact ⟨0, .nil _⟩

theorem ring_fair (look : Nat) (one comp : Bool) : Fair (gPar ring ![2, 1, 0, 0] look one comp) 0 where
  cost s _ := (by decide : ∀ s, ∀ o ∈ (graph 4 ring (· == 3)).ops s, 0 < (graph 4 ring (· == 3)).cost s o) s
  cons s _ := (by decide : ∀ s, ∀ o ∈ (graph 4 ring (· == 3)).ops s, (![2, 1, 0, 0] : Fin 4 → Int) s ≤
    (graph 4 ring (· == 3)).cost s o + (![2, 1, 0, 0] : Fin 4 → Int) ((graph 4 ring (· == 3)).app s o)) s
  goal s _ := (by decide : ∀ s, (graph 4 ring (· == 3)).goal s = true → (![2, 1, 0, 0] : Fin 4 → Int) s ≤ 0) s
  live s _ := let ⟨c, hc⟩ := ring_walk s; ⟨3, c, hc, rfl⟩
  wt _ := rfl
  bonus _ := rfl

-- the hypotheses of `c71_finds_partial`
example : ∃ N, ∀ fuel ≥ N, ∃ r c, search (gPar ring ![2, 1, 0, 0] 1 false true) fuel 0 = .ok r ∧
    Solution (graph 4 ring (· == 3)) 0 (r.path, r.ops) c :=
  c71_finds_partial (ring_fair 1 false true) (fun _ _ _ => rfl) (order_range rfl) (fun _ => Nat.one_pos) rfl (Set.toFinite _)
-- one node of lookahead: the first goal that is seen
example : shown (search (gPar ring ![2, 1, 0, 0] 1 false false) 20 0) = .ok ([3, 0], [some 3], [1], 1, [2, 1, 0, 0]) := by decide +kernel
-- from state 1, three steps; the value of 1 and 2 is learned
example : shown (search (gPar ring ![2, 1, 0, 0] 1 false false) 20 1) = .ok ([3, 2, 1], [some 3, some 2], [1, 1], 2, [2, 1, 0, 0]) := by
  decide +kernel
-- the whole state space as lookahead: a cheapest solution in one step (`c72_optimal`)
example : shown (search (gPar ring ![2, 1, 0, 0] 4 false false) 20 0) =
    .ok ([3, 2, 1, 0], [some 3, some 2, some 1], [3], 4, [2, 1, 0, 0]) := by decide +kernel
-- with `onestep`
example : shown (search (gPar ring ![2, 1, 0, 0] 4 true false) 20 0) =
    .ok ([3, 2, 1, 0], [some 3, some 2, some 1], [1, 1, 1], 4, [2, 1, 0, 0]) := by decide +kernel

/-- A valley: the heuristic leads away from 0, behind which the goal is. -/
def valley : List (Fin 4 × Fin 4 × Int) := [(0, 1, 1), (1, 0, 1), (1, 2, 1), (2, 1, 1), (0, 3, 9), (3, 0, 9)]

-- the search goes back and forth between 1 and 2 until the learned values make 0 look better
example : shown (search (gPar valley ![9, 2, 1, 0] 1 false false) 40 2) =
    .ok ([3, 0, 1, 2, 1, 2, 1, 2, 1, 2], [some 3, some 0, some 1, some 2, some 1, some 2, some 1, some 2, some 1],
      [1, 1, 1, 1, 1, 1, 1, 1, 1], 3, [9, 10, 9, 0]) := by decide +kernel
-- two nodes of lookahead
example : shown (search (gPar valley ![1, 0, 0, 0] 2 false false) 40 2) =
    .ok ([3, 0, 1, 2], [some 3, some 0, some 1], [2, 1], 3, [1, 2, 3, 0]) := by decide +kernel

-- the hypotheses of `c70_step` and of `c70_learn`, at the start
example : ∃ t m' os, iter (gPar ring ![2, 1, 0, 0] 1 false false) 0 0 (mem0 (gPar ring ![2, 1, 0, 0] 1 false false)) = .ok (t, m', os) ∧
    ∀ s, Reach (graph 4 ring (· == 3)) 0 s → ∀ g c, Walk (graph 4 ring (· == 3)) s g c → (graph 4 ring (· == 3)).goal g = true →
      m'.h s ≤ c := by
  obtain ⟨t, m', os, h1, -, -, -, h2⟩ := c70_step (ring_fair 1 false false) (fun _ _ _ h => absurd h (by simp [gPar])) (order_range rfl)
    (k := 0) Nat.one_pos (cur := 0) ⟨0, .nil _⟩ rfl memOk_init (good_init (ring_fair 1 false false))
  exact ⟨t, m', os, h1, h2⟩
example : ∃ x, expandLss (gPar ring ![2, 1, 0, 0] 2 false false) 0 1 (mem0 (gPar ring ![2, 1, 0, 0] 2 false false)) = .ok x := by
  have hf := ring_fair 2 false false
  obtain ⟨x, h, -⟩ := c70_learn (P := gPar ring ![2, 1, 0, 0] 2 false false) (fun _ => rfl) (r := 1) (h := ![2, 1, 0, 0])
    (fun s _ _ => (by decide : ∀ s, ∀ o ∈ (graph 4 ring (· == 3)).ops s, 0 ≤ (graph 4 ring (· == 3)).cost s o) s)
    (fun s _ _ => (by decide : ∀ s, ∀ o ∈ (graph 4 ring (· == 3)).ops s, (![2, 1, 0, 0] : Fin 4 → Int) s ≤
      (graph 4 ring (· == 3)).cost s o + (![2, 1, 0, 0] : Fin 4 → Int) ((graph 4 ring (· == 3)).app s o)) s)
    (fun s _ _ => (by decide : ∀ s, ∀ o ∈ (graph 4 ring (· == 3)).ops s, 0 ≤ (graph 4 ring (· == 3)).cost s o) s)
    (fun _ _ _ h => absurd h (by simp [gPar])) (k := 0) (by decide) memOk_init rfl rfl
  exact ⟨x, h⟩
-- the hypotheses of `c72_optimal`
example : ∃ r c, search (gPar ring ![2, 1, 0, 0] 4 false false) 2 0 = .ok r ∧ Solution (graph 4 ring (· == 3)) 0 (r.path, r.ops) c ∧
    ∀ t c', Walk (graph 4 ring (· == 3)) 0 t c' → (graph 4 ring (· == 3)).goal t = true → c ≤ c' := by
  obtain ⟨c0, hc0⟩ := ring_walk 0
  obtain ⟨r, c, h1, h2, -, h3⟩ := c72_optimal (P := gPar ring ![2, 1, 0, 0] 4 false false) (fun _ => rfl) (s0 := 0)
    (fun s _ _ => (by decide : ∀ s, ∀ o ∈ (graph 4 ring (· == 3)).ops s, 0 ≤ (graph 4 ring (· == 3)).cost s o) s)
    (order_range rfl)
    (fun s _ _ => (by decide : ∀ s, ∀ o ∈ (graph 4 ring (· == 3)).ops s, (![2, 1, 0, 0] : Fin 4 → Int) s ≤
      (graph 4 ring (· == 3)).cost s o + (![2, 1, 0, 0] : Fin 4 → Int) ((graph 4 ring (· == 3)).app s o)) s)
    (fun s _ _ => (by decide : ∀ s, (graph 4 ring (· == 3)).goal s = true → (![2, 1, 0, 0] : Fin 4 → Int) s = 0) s)
    (fun _ _ _ => rfl) rfl (F := Finset.univ) (fun _ _ _ => Finset.mem_univ _) (by decide) ⟨3, c0, hc0, rfl⟩ (le_refl 2)
  exact ⟨r, c, h1, h2, h3⟩

/-! ### `onestep` -/

/-- Two neighbours, 0 and 1.  The goal 4 is next to 0, at cost 10, and reached from 1 through 2, at cost 2; 3 is a dead end. -/
def pace : List (Fin 5 × Fin 5 × Rat) := [(0, 1, 1), (0, 4, 10), (1, 0, 1), (1, 2, 1), (1, 3, 1), (2, 1, 1), (2, 4, 1), (3, 1, 1),
  (4, 0, 10), (4, 2, 1)]

/-- A search on it without limit; three nodes of lookahead. -/
def pPar (onestep complete : Bool) : Par (Fin 5) (Option (Fin 5)) Rat :=
  ⟨graphQ 5 pace (· == 4), ![0, 0, 1, 1, 0], fun _ _ _ => false, fun _ => 3, id, onestep, complete, List.range, fun _ => 0⟩

theorem pace_fair (one comp : Bool) : Fair (pPar one comp) 0 where
  cost s _ := (by decide +kernel : ∀ s, ∀ o ∈ (graphQ 5 pace (· == 4)).ops s, 0 < (graphQ 5 pace (· == 4)).cost s o) s
  cons s _ := (by decide +kernel : ∀ s, ∀ o ∈ (graphQ 5 pace (· == 4)).ops s, (![0, 0, 1, 1, 0] : Fin 5 → Rat) s ≤
    (graphQ 5 pace (· == 4)).cost s o + (![0, 0, 1, 1, 0] : Fin 5 → Rat) ((graphQ 5 pace (· == 4)).app s o)) s
  goal s _ := (by decide +kernel : ∀ s, (graphQ 5 pace (· == 4)).goal s = true → (![0, 0, 1, 1, 0] : Fin 5 → Rat) s ≤ 0) s
  live s _ := by
    have h2 : ∀ t, some (4 : Fin 5) ∈ (graphQ 5 pace (· == 4)).ops t → ∃ c, Walk (graphQ 5 pace (· == 4)) t 4 c := fun t ht =>
      ⟨_, (Walk.nil (d := graphQ 5 pace (· == 4)) t).snoc ht⟩
    have h1 : ∃ c, Walk (graphQ 5 pace (· == 4)) 1 4 c := by
      obtain ⟨c, hc⟩ := h2 2 (by decide)
      exact ⟨_, ((Walk.nil (d := graphQ 5 pace (· == 4)) 1).snoc (o := some 2) (by decide)).trans hc⟩
    have h3 : ∃ c, Walk (graphQ 5 pace (· == 4)) 3 4 c := by
      obtain ⟨c, hc⟩ := h1
      exact ⟨_, ((Walk.nil (d := graphQ 5 pace (· == 4)) 3).snoc (o := some 1) (by decide)).trans hc⟩
    have : ∃ c, Walk (graphQ 5 pace (· == 4)) s 4 c := by
      fin_cases s
      · exact h2 0 (by decide)
      · exact h1
      · exact h2 2 (by decide)
      · exact h3
      · exact ⟨0, .nil _⟩
    exact ⟨4, this.choose, this.choose_spec, rfl⟩
  wt _ := rfl
  bonus _ := rfl

/-- The nodes after the first two steps, with any statistics. -/
def paceMem (a b c d : Nat) : Mem (Fin 5) Rat where
  h := ![0, 0, 1, 1, 0]
  expd := ![true, true, true, true, false]
  preds := ![[(1, 1)], [(0, 1), (2, 1), (3, 1)], [(1, 1)], [(1, 1)], [(0, 10), (2, 1)]]
  nexpd := a
  gend := b
  dups := c
  calls := d

/-- From 0 it steps to 1, towards the goal through 2 ... -/
theorem pace_there (comp : Bool) (k a b c d : Nat) :
    iter (pPar true comp) k 0 (paceMem a b c d) = .ok (1, paceMem a b (c + 1) (d + 4), some [some 1]) := by
  run_tac do
    let g ← Lean.Elab.Tactic.getMainGoal
    let some (_, a, _) := (← g.getType).eq? | failure
    g.assign (← Lean.Meta.mkEqRefl a)

/-- ... and from 1 to 0, towards the goal next to 0. -/
theorem pace_back (comp : Bool) (k a b c d : Nat) :
    iter (pPar true comp) k 1 (paceMem a b c d) = .ok (0, paceMem a b c (d + 4), some [some 0]) := by
  run_tac do
    let g ← Lean.Elab.Tactic.getMainGoal
    let some (_, a, _) := (← g.getType).eq? | failure
    g.assign (← Lean.Meta.mkEqRefl a)

/-- The first two steps. -/
theorem pace_start (comp : Bool) : ∃ m, iter (pPar true comp) 0 0 (mem0 (pPar true comp)).call = .ok (1, m, some [some 1]) ∧
    ∃ a b c d, iter (pPar true comp) 1 1 m.call = .ok (0, paceMem a b c d, some [some 0]) := by
  have h1 : (iter (pPar true comp) 0 0 (mem0 (pPar true comp)).call).map (fun r => (r.1, r.2.2)) = .ok (1, some [some 1]) := by
    cases comp <;> decide +kernel
  obtain ⟨⟨t, m, os⟩, e1, e2⟩ := Outcome.map_eq_ok.1 h1
  rw [Prod.mk.injEq] at e2
  obtain ⟨rfl, rfl⟩ := e2
  refine ⟨m, e1, ?_⟩
  have h2 : (iter (pPar true comp) 1 1 m.call).map (fun r => (r.1, r.2.2)) = .ok (0, some [some 0]) ∧
      (iter (pPar true comp) 1 1 m.call).map (fun r => List.ofFn r.2.1.h) = .ok (List.ofFn (paceMem 0 0 0 0).h) ∧
      (iter (pPar true comp) 1 1 m.call).map (fun r => List.ofFn r.2.1.expd) = .ok (List.ofFn (paceMem 0 0 0 0).expd) ∧
      (iter (pPar true comp) 1 1 m.call).map (fun r => List.ofFn r.2.1.preds) = .ok (List.ofFn (paceMem 0 0 0 0).preds) := by
    have e : iter (pPar true comp) 1 1 m.call =
        (iter (pPar true comp) 0 0 (mem0 (pPar true comp)).call).bind fun r => iter (pPar true comp) 1 1 r.2.1.call := by
      rw [e1, Outcome.bind_ok]
    rw [e]
    clear e e1 h1
    cases comp <;> refine ⟨?_, ?_, ?_, ?_⟩ <;> decide +kernel
  obtain ⟨h2, h3, h4, h5⟩ := h2
  obtain ⟨⟨t, ⟨h, ex, pr, a, b, c, d⟩, os⟩, e1, e2⟩ := Outcome.map_eq_ok.1 h2
  rw [e1, Outcome.map_ok] at h3 h4 h5
  injection h3 with h3
  injection h4 with h4
  injection h5 with h5
  have k3 := List.ofFn_injective h3
  have k4 := List.ofFn_injective h4
  have k5 := List.ofFn_injective h5
  dsimp only at e2 k3 k4 k5
  rw [Prod.mk.injEq] at e2
  obtain ⟨rfl, rfl⟩ := e2
  subst k3 k4 k5
  exact ⟨a, b, c, d, e1⟩

theorem pace_goal (comp : Bool) : (pPar true comp).d.goal 0 = false ∧ (pPar true comp).d.goal 1 = false := by
  cases comp <;> decide

theorem pace_loop (comp : Bool) : ∀ (fuel k a b c d : Nat) (ops : List (Option (Fin 5))) (lens : List Nat),
    loop (pPar true comp) fuel k 0 (paceMem a b c d) ops lens = .nofuel ∧
      loop (pPar true comp) fuel k 1 (paceMem a b c d) ops lens = .nofuel
  | 0, _, _, _, _, _, _, _ => ⟨rfl, rfl⟩
  | fuel + 1, k, a, b, c, d, ops, lens => by
    have e : (paceMem a b c d).call = paceMem a b c (d + 1) := rfl
    constructor
    · rw [loop, if_neg (by rw [(pace_goal comp).1]; simp), if_neg (by simp [Mem.lim, pPar]), e, pace_there, Outcome.bind_ok]
      exact (pace_loop comp fuel _ _ _ _ _ _ _).2
    · rw [loop, if_neg (by rw [(pace_goal comp).2]; simp), if_neg (by simp [Mem.lim, pPar]), e, pace_back, Outcome.bind_ok]
      exact (pace_loop comp fuel _ _ _ _ _ _ _).1

/-- C71: with `onestep` a search can go on for ever, although costs are positive, the heuristic is consistent, and a goal can be
reached from everywhere (`pace_fair`).  Whenever a goal has been seen it takes a step towards the cheapest one and learns
nothing.  From 0, the goal is seen through 2; from 1, the lookahead is spent on 3 and the goal is seen through 0. -/
theorem c71_onestep_endless (comp : Bool) : Fair (pPar true comp) 0 ∧ ∀ fuel, search (pPar true comp) fuel 0 = .nofuel := by
  refine ⟨pace_fair true comp, fun fuel => ?_⟩
  obtain ⟨m, h1, a, b, c, d, h2⟩ := pace_start comp
  have : loop (pPar true comp) fuel 0 0 (mem0 (pPar true comp)) [] [] = .nofuel := by
    match fuel with
    | 0 => rfl
    | 1 =>
      rw [loop, if_neg (by rw [(pace_goal comp).1]; simp), if_neg (by simp [Mem.lim, pPar]), h1, Outcome.bind_ok]
      rfl
    | fuel + 2 =>
      rw [loop, if_neg (by rw [(pace_goal comp).1]; simp), if_neg (by simp [Mem.lim, pPar]), h1, Outcome.bind_ok]
      dsimp only
      rw [loop, if_neg (by rw [(pace_goal comp).2]; simp), if_neg (by simp [Mem.lim, pPar]), h2, Outcome.bind_ok]
      exact (pace_loop comp fuel _ _ _ _ _ _ _).1
  unfold search
  rw [this]
  rfl

-- without `onestep` it ends at once
example : (search (pPar false false) 20 0).map (fun r => (r.path, r.lens)) = .ok ([4, 2, 1, 0], [3]) := by decide +kernel

/-- A dead end that looks good. -/
def trap : List (Fin 4 × Fin 4 × Int) := [(0, 1, 1), (0, 2, 3), (2, 3, 1)]

theorem map_fatal {α β : Type*} {f : α → β} {o : Outcome α} (h : o.map f = .fatal) : o = .fatal := by
  cases o <;> simp_all [Outcome.map]

theorem map_ub {α β : Type*} {f : α → β} {o : Outcome α} (h : o.map f = .ub) : o = .ub := by
  cases o <;> simp_all [Outcome.map]

/-- C71: that a goal can be reached from everywhere is needed.  With positive costs, a consistent heuristic and a goal that can
be reached from the start, the search walks into a state without operators and then fails an assertion
(lsslrtastar.hpp:451); with `complete` it reads the front of an empty heap (lsslrtastar.hpp:414). -/
theorem c71_dead_end : (∀ s, ∀ o ∈ (graph 4 trap (· == 3)).ops s, 0 < (graph 4 trap (· == 3)).cost s o) ∧
    (∃ c, Walk (graph 4 trap (· == 3)) 0 3 c) ∧
    search (gPar trap (fun _ => 0) 1 false false) 20 0 = .fatal ∧ search (gPar trap (fun _ => 0) 2 false true) 20 0 = .ub := by
  refine ⟨by decide, ⟨_, ((Walk.nil (d := graph 4 trap (· == 3)) 0).snoc (o := some 2) (by decide)).snoc (o := some 3) (by decide)⟩,
    map_fatal (f := fun r => r.path) (by decide +kernel), map_ub (f := fun r => r.path) (by decide +kernel)⟩

/-- C71: an unsolvable problem with two states: the assertion fails. -/
theorem c71_unsolvable_fails : search (gPar [(0, 1, 1), (1, 0, 1)] (fun _ => 0) 2 false false) 20 0 = .fatal :=
  map_fatal (f := fun r => r.path) (by decide +kernel)

/-- C70: with a weight above 1 the learned values can exceed the cost of a way to a goal. -/
theorem c70_weight : ∃ r, search { gPar valley ![3, 2, 1, 0] 1 false false with wt := (30 * ·) } 40 2 = .ok r ∧
    ∃ s c, Walk (graph 4 valley (· == 3)) s 3 c ∧ c < r.m.h s := by
  have h : (search { gPar valley ![3, 2, 1, 0] 1 false false with wt := (30 * ·) } 40 2).map (fun r => r.m.h 1) = .ok 33 := by
    decide +kernel
  obtain ⟨r, h1, h2⟩ := Outcome.map_eq_ok.1 h
  refine ⟨r, h1, 1, _, ((Walk.nil (d := graph 4 valley (· == 3)) 1).snoc (o := some 0) (by decide)).snoc (o := some 3) (by decide), ?_⟩
  rw [h2]
  decide

/-- C72: with less lookahead the solution need not be a cheapest one. -/
theorem c72_short : ∃ r c, search (gPar ring ![2, 1, 0, 0] 1 false false) 20 0 = .ok r ∧
    Solution (graph 4 ring (· == 3)) 0 (r.path, r.ops) c ∧ ∃ c', Walk (graph 4 ring (· == 3)) 0 3 c' ∧ c' < c := by
  have h : (search (gPar ring ![2, 1, 0, 0] 1 false false) 20 0).map (fun r => (r.path, r.ops)) = .ok ([3, 0], [some 3]) := by
    decide +kernel
  obtain ⟨r, h1, h2⟩ := Outcome.map_eq_ok.1 h
  refine ⟨r, 9, h1, ?_, _, (((Walk.nil (d := graph 4 ring (· == 3)) 0).snoc (o := some 1) (by decide)).snoc (o := some 2)
    (by decide)).snoc (o := some 3) (by decide), by decide⟩
  rw [h2]
  exact ⟨[3], rfl, Plan.cons (c := 0) (by decide) (Plan.nil _), 3, rfl, rfl⟩

end Verif.Lss
