import Verif.Search.DtaDump
import Verif.Props.Lss

/-!
# C106: the search that dumps look-ahead values

`search (par d h lim look) smp horizon fuel s0` is a search from `s0`.  `smp k` says whether step `k` is sampled.  A sample has
one value for each depth 1, …, `horizon`.  `LPlan d n s t c`: some `n` operators lead from `s` to `t` and cost `c`.
`Walk d s t c`: some operators do.  `Fair`: costs are positive, the heuristic is consistent and 0 or less at goals, and
a goal can be reached from everywhere.
-/

namespace Verif.DtaDump

open Verif.Search Verif.Lss
open Verif.Ida (LPlan)

section General
variable {S O C : Type*} [DecidableEq S] [AddCommGroup C] [LinearOrder C] [IsOrderedAddMonoid C]
  {d : Dom S O C} {h : S → C} {lim : Nat → Nat → Nat → Bool} {look : Nat → Nat} {smp : Nat → Bool} {horizon fuel : Nat} {s0 : S}

omit [DecidableEq S] [LinearOrder C] [IsOrderedAddMonoid C] in
theorem order_par : OrderOk (par d h lim look) := fun _ _ => List.mem_range

/-- C106: a search reports nothing at all or a solution. -/
theorem c106_solution (hd : CostOk d s0) {r : Res S O C} (e : search (par d h lim look) smp horizon fuel s0 = .ok r) :
    (r.path, r.ops) = ([], []) ∨ ∃ c, Solution d s0 (r.path, r.ops) c := by
  unfold search at e
  obtain ⟨⟨t, m, ops, out⟩, h1, h2⟩ := Outcome.map_eq_ok.1 e
  obtain ⟨ss, c, p1, p2⟩ := loop_sound (P := par d h lim look) order_par hd _ _ _ _ _ _ ⟨[], 0, .nil _, rfl⟩ h1
  dsimp only at h2
  by_cases hg : (par d h lim look).d.goal t = false
  · rw [if_pos hg] at h2
    subst h2
    exact Or.inl rfl
  · rw [if_neg hg] at h2
    subst h2
    refine Or.inr ⟨c, ss, ?_, ?_, t, ?_, by simpa [par] using hg⟩
    · simp [rebuild_plan p1]
    · rw [List.reverse_reverse]; exact p1
    · dsimp only
      rw [rebuild_plan p1, List.head?_reverse, p2]

/-- C106: on a fair problem no assertion fails, the search ends in a goal or at the limit if it ends, and each sample is about a
state that can be reached; it has one value per depth; each of them is no less than the heuristic of that state; and it is
infinite or the cost of a walk of as many operators, plus the heuristic of its end. -/
theorem c106_samples (hf : Fair (par d h lim look) s0) (hl : ∀ a b c, lim a b c = true → lim a b (c + 1) = true)
    (hk : ∀ k, 0 < look k) :
    search (par d h lim look) smp horizon fuel s0 = .nofuel ∨
    ∃ r, search (par d h lim look) smp horizon fuel s0 = .ok r ∧
      ((∃ c, Solution d s0 (r.path, r.ops) c) ∨ ∃ n, lim r.m.nexpd r.m.gend n = true) ∧
      ∀ e ∈ r.out, (∃ c, Walk d s0 e.root c) ∧ e.nkids = (d.ops e.root).length ∧ e.rows.length = horizon ∧
        ∀ i (hi : i < e.rows.length), (h e.root : WithTop C) ≤ e.rows[i] ∧
          (e.rows[i] = ⊤ ∨ ∃ t c, LPlan d (i + 1) e.root t c ∧ e.rows[i] = ((c + h t : C) : WithTop C)) := by
  rcases loop_safe hf hl order_par hk (smp := smp) (horizon := horizon) fuel 0 s0 (mem0 _) [] [] ⟨0, .nil _⟩ memOk_init
    (good_init hf) (by simp) with e | ⟨t, m, ops, out, e, e1, e2⟩
  · exact Or.inl (by rw [search, e]; rfl)
  · right
    have hs : search (par d h lim look) smp horizon fuel s0 = .ok (if d.goal t = false then ⟨[], [], m, out⟩
        else ⟨(s0 :: rebuild d s0 ops).reverse, ops.reverse, m, out⟩) := by
      unfold search
      rw [e, Outcome.map_ok]
      rfl
    refine ⟨_, hs, ?_, ?_⟩
    · rcases e2 with e2 | ⟨n, hn⟩
      · left
        rcases c106_solution (hf.costOk ⟨0, .nil _⟩) hs with h | h
        · rw [if_neg (by rw [show d.goal t = true from e2]; simp)] at h
          exact absurd (congrArg Prod.fst h) (by simp)
        · exact h
      · right
        refine ⟨n, ?_⟩
        split <;> exact hn
    · intro x hx
      have hx : x ∈ out := by
        split at hx <;> exact hx
      obtain ⟨a1, a2, a3, a4⟩ := e1 x hx
      exact ⟨a1, a2, a3, fun i hi => ⟨(a4 i hi).1, (a4 i hi).2.1⟩⟩

/-- C106: if a cheapest solution from the state of a sample has at least as many operators as the depth, the value of that depth
is not greater than the cost of the solution. -/
theorem c106_lower_bound_partial (hf : Fair (par d h lim look) s0) (hl : ∀ a b c, lim a b c = true → lim a b (c + 1) = true)
    (hk : ∀ k, 0 < look k) {r : Res S O C} (e : search (par d h lim look) smp horizon fuel s0 = .ok r) {x : Sample S C}
    (hx : x ∈ r.out) {t : S} {os : List O} {ss : List S} {c : C} (hp : Plan d x.root os ss c)
    (ht : (x.root :: ss).getLast? = some t) (hg : d.goal t = true)
    (hopt : ∀ t' c', Walk d x.root t' c' → d.goal t' = true → c ≤ c') (i : Nat) (hi : i < x.rows.length) (hn : i < os.length) :
    x.rows[i] ≤ (c : WithTop C) := by
  rcases loop_safe hf hl order_par hk (smp := smp) (horizon := horizon) fuel 0 s0 (mem0 _) [] [] ⟨0, .nil _⟩ memOk_init
    (good_init hf) (by simp) with e1 | ⟨t1, m, ops, out, e1, e2, -⟩
  · rw [search, e1] at e
    exact absurd e (by simp [Outcome.map])
  have hout : r.out = out := by
    rw [search, e1, Outcome.map_ok] at e
    injection e with e
    rw [← e]
    split <;> rfl
  rw [hout] at hx
  obtain ⟨a1, -, -, a4⟩ := e2 x hx
  obtain ⟨t', c1, c2, b1, b2, b3⟩ := cheap_of_plan (P := par d h lim look) (root := x.root)
    (fun s hs => hf.cost s (a1.walk hs.choose_spec)) hp ht (.nil _) le_rfl
    (fun c' hc' => by rw [zero_add]; exact hopt t c' hc' hg) (i + 1) hn
  refine ((a4 i hi).2.2 t' c1 b1).trans ?_
  rw [WithTop.coe_le_coe, b3]
  have hr' : Lss.Reach d s0 t' := a1.walk (walk_of_cheap b1)
  have hcons : h t' ≤ c2 + h t := b2.consistent (I := Lss.Reach d s0)
    (fun s (hs : Lss.Reach (par d h lim look).d s0 s) o ho => hs.step ho) hf.cons hr'
  have hgt : h t ≤ 0 := hf.goal t (hr'.walk (P := par d h lim look) b2) hg
  have : h t' ≤ c2 := hcons.trans (by simpa using add_le_add_right hgt c2)
  exact add_le_add_right this c1

/-- C106: the search without samples is LSS-LRTA* with one step per local search; and without a limit sampling does not change
the outcome. -/
theorem c106_same (hf : Fair (par d h (fun _ _ _ => false) look) s0) (hk : ∀ k, 0 < look k) :
    (search (par d h (fun _ _ _ => false) look) smp horizon fuel s0).map (fun r => (r.path, r.ops)) =
      (Lss.search (par d h (fun _ _ _ => false) look) fuel s0).map (fun r => (r.path, r.ops)) := by
  have hs := loop_sim hf (fun _ _ _ => rfl) order_par hk (smp := smp) (horizon := horizon) fuel 0 s0 (mem0 _) (mem0 _) [] [] []
    ⟨0, .nil _⟩ memOk_init memOk_init rfl (good_init hf)
  unfold search Lss.search
  obtain ⟨a, ha⟩ : ∃ a, loop (par d h (fun _ _ _ => false) look) smp horizon fuel 0 s0 (mem0 (par d h (fun _ _ _ => false) look)) [] [] = a :=
    ⟨_, rfl⟩
  obtain ⟨b, hb⟩ : ∃ b, Lss.loop (par d h (fun _ _ _ => false) look) fuel 0 s0 (mem0 (par d h (fun _ _ _ => false) look)) [] [] = b :=
    ⟨_, rfl⟩
  rw [ha, hb] at hs ⊢
  cases a <;> cases b <;> simp only [Outcome.map, Outcome.ok.injEq, Prod.mk.injEq, reduceCtorEq] at hs ⊢
  obtain ⟨h1, h2⟩ := hs
  rw [h1, h2]
  split <;> exact ⟨rfl, rfl⟩

end General

/-! ### Cases -/

set_option synthInstance.maxSize 1000

/-- What can be compared of a result: path, operators, expansions, and the samples (`none` is infinite). -/
def shown {n : Nat} (r : Outcome (Res (Fin n) (Option (Fin n)) Int)) :
    Outcome (List (Fin n) × List (Option (Fin n)) × Nat × List (Fin n × Nat × List (Option Int))) :=
  r.map fun r => (r.path, r.ops, r.m.nexpd, r.out.map fun e => (e.root, e.nkids, e.rows.map (WithTop.recTopCoe none some)))

/-- A search with an expansion limit: the graph, the heuristic, the limit, the lookahead, and whether steps are sampled. -/
def demo (n : Nat) [NeZero n] (es : List (Fin n × Fin n × Int)) (goal : Fin n) (h : Fin n → Int) (limit look : Nat) (smp : Bool) (s0 : Fin n) :
    Outcome (List (Fin n) × List (Option (Fin n)) × Nat × List (Fin n × Nat × List (Option Int))) :=
  shown (search (par (graph n es (· == goal)) h (fun a _ _ => decide (limit ≤ a)) fun _ => look) (fun _ => smp) 3 40 s0)

-- every step sampled to depth 3
example : demo 4 ring 3 ![2, 1, 0, 0] 100 4 true 0 =
    .ok ([3, 2, 1, 0], [some 3, some 2, some 1], 4, [(0, 2, [some 2, some 2, some 8]), (1, 2, [some 1, some 7, none]), (2, 2, [some 2, some 4, none])]) := by decide +kernel
example : demo 4 ring 3 ![2, 1, 0, 0] 100 4 false 0 = .ok ([3, 2, 1, 0], [some 3, some 2, some 1], 4, []) := by decide +kernel

-- the hypotheses of `c106_samples`, `c106_solution`
example (smp : Nat → Bool) (horizon fuel : Nat) :
    search (par (graph 4 ring (· == 3)) ![2, 1, 0, 0] (fun a _ _ => decide (2 ≤ a)) fun _ => 1) smp horizon fuel 0 = .nofuel ∨
    ∃ r, search (par (graph 4 ring (· == 3)) ![2, 1, 0, 0] (fun a _ _ => decide (2 ≤ a)) fun _ => 1) smp horizon fuel 0 = .ok r := by
  have hf := ring_fair 1 true false
  rcases c106_samples (smp := smp) (horizon := horizon) (fuel := fuel) (d := graph 4 ring (· == 3)) (h := ![2, 1, 0, 0])
    (lim := fun a _ _ => decide (2 ≤ a)) (look := fun _ => 1) (s0 := 0) ⟨hf.cost, hf.cons, hf.goal, hf.live, hf.wt, hf.bonus⟩
    (fun _ _ _ h => h) (fun _ => Nat.one_pos) with h | ⟨r, h, -⟩
  · exact Or.inl h
  · exact Or.inr ⟨r, h⟩

-- the conclusion of `c106_lower_bound_partial`, with its hypotheses: from 0 the cheapest solution costs 8 and has three operators
example {r : Res (Fin 4) (Option (Fin 4)) Int} {smp : Nat → Bool} {fuel : Nat}
    (e : search (par (graph 4 ring (· == 3)) ![2, 1, 0, 0] (fun _ _ _ => false) fun _ => 1) smp 3 fuel 0 = .ok r)
    {x : Sample (Fin 4) Int} (hx : x ∈ r.out) (h0 : x.root = 0) (hl : 2 < x.rows.length) : x.rows[2] ≤ 8 := by
  have hf := ring_fair 1 true false
  have hcons : ∀ s t c, Walk (graph 4 ring (· == 3)) s t c → (![8, 7, 6, 0] : Fin 4 → Int) s ≤ c + (![8, 7, 6, 0] : Fin 4 → Int) t :=
    fun s t c hw => hw.consistent (I := fun _ => True) (fun _ _ _ _ => trivial)
      (fun s _ => (by decide : ∀ s, ∀ o ∈ (graph 4 ring (· == 3)).ops s, (![8, 7, 6, 0] : Fin 4 → Int) s ≤
        (graph 4 ring (· == 3)).cost s o + (![8, 7, 6, 0] : Fin 4 → Int) ((graph 4 ring (· == 3)).app s o)) s) trivial
  have hp : Plan (graph 4 ring (· == 3)) x.root [some 1, some 2, some 3] [1, 2, 3] 8 := by
    rw [h0]
    exact .cons (d := graph 4 ring (· == 3)) (s := 0) (o := some 1) (c := 7) (by decide) (.cons (d := graph 4 ring (· == 3)) (s := 1) (o := some 2) (c := 6) (by decide)
      (.cons (d := graph 4 ring (· == 3)) (s := 2) (o := some 3) (c := 0) (by decide) (.nil 3)))
  exact c106_lower_bound_partial (lim := fun _ _ _ => false) ⟨hf.cost, hf.cons, hf.goal, hf.live, hf.wt, hf.bonus⟩
    (fun _ _ _ h => h) (fun _ => Nat.one_pos) e hx hp (t := 3) (by simp) rfl
    (fun t' c' hw hg => by
      rw [h0] at hw
      have := hcons 0 t' c' hw
      have ht : t' = 3 := by simpa [graph] using hg
      subst ht
      simpa using this) 2 hl (by simp)

/-- C106: a goal that is nearer than the depth gives an infinite value, although the solution costs 1. -/
theorem c106_near_goal : demo 2 [(0, 1, 1), (1, 0, 1)] 1 ![1, 0] 100 1 true 0 = .ok ([1, 0], [some 1], 2, [(0, 1, [some 1, none, none])]) := by
  decide +kernel

/-- C106: first operators without cost are not looked at: the value is infinite although the solution costs 2 and has
three operators. -/
theorem c106_zero_cost : demo 4 [(0, 1, 0), (1, 2, 1), (2, 3, 1)] 3 ![0, 0, 0, 0] 100 1 true 0 =
    .ok ([3, 2, 1, 0], [some 3, some 2, some 1], 4, [(0, 1, [none, none, none]), (1, 1, [some 1, some 2, none]), (2, 1, [some 1, none, none])]) := by decide +kernel

/-- C106: what the samples expand counts for the limit: with the same limit the search that samples finds nothing. -/
theorem c106_sampling_counts :
    (demo 4 valley 3 ![9, 2, 1, 0] 4 1 false 2).map (fun r => (r.1, r.2.2.1)) = .ok ([3, 0, 1, 2, 1, 2, 1, 2, 1, 2], 3) ∧
    (demo 4 valley 3 ![9, 2, 1, 0] 4 1 true 2).map (fun r => (r.1, r.2.2.1)) = .ok ([], 4) := by decide +kernel

/-- C106: the search can be endless on a fair problem, whatever is sampled. -/
theorem c106_endless : Fair (par (graphQ 5 pace (· == 4)) ![0, 0, 1, 1, 0] (fun _ _ _ => false) fun _ => 3) 0 ∧
    ∀ smp horizon fuel, search (par (graphQ 5 pace (· == 4)) ![0, 0, 1, 1, 0] (fun _ _ _ => false) fun _ => 3) smp horizon fuel 0 = .nofuel := by
  obtain ⟨hf, he⟩ := c71_onestep_endless false
  refine ⟨hf, fun smp horizon fuel => ?_⟩
  have h1 := c106_same (d := graphQ 5 pace (· == 4)) (h := ![0, 0, 1, 1, 0]) (look := fun _ => 3) (s0 := 0) (smp := smp) (horizon := horizon)
    (fuel := fuel) hf (fun _ => by decide)
  have h2 : Lss.search (par (graphQ 5 pace (· == 4)) ![0, 0, 1, 1, 0] (fun _ _ _ => false) fun _ => 3) fuel 0 = .nofuel := he fuel
  rw [h2] at h1
  cases e : search (par (graphQ 5 pace (· == 4)) ![0, 0, 1, 1, 0] (fun _ _ _ => false) fun _ => 3) smp horizon fuel 0 with
  | nofuel => rfl
  | ok r => rw [e] at h1; exact absurd h1 (by simp)
  | fatal => rw [e] at h1; exact absurd h1 (by simp)
  | ub => rw [e] at h1; exact absurd h1 (by simp)

end Verif.DtaDump
