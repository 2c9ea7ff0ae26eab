import Verif.Search.FhatThms
import Verif.Props.Lss

/-!
# C94: f̂-LRTA*

`P` has the domain, the heuristic `h`, the distance estimate `dist`, the limit test, the lookahead of each local search, the option
`onestep`, the threshold `geom2d::Threshold`, and what is read from a node that was never written (`junk`).
`search P fuel s0` is a search from `s0`; `nofuel` means that it is still running after `fuel` steps.  `Plan`, `Walk`, `Solution` are
those of `Props/Astar`, `Exit` is that of `Search/LssLearn`.
-/

namespace Verif.Fhat

open Verif.Search Verif.Lss

variable {S O C : Type*} [DecidableEq S] [Field C] [LinearOrder C] [IsStrictOrderedRing C] {P : FPar S O C} {J : Nat → Bool}

/-- C94: a local search reads the parent of a new node before it is written.  If that counts as undefined behaviour then
no search gets past its first expansion: all that is needed is a start that is not a goal and has a neighbour. -/
theorem c94_uninit (hJ : P.junk = none) {s0 : S} (hg : P.d.goal s0 = false) (hc : ∀ o ∈ P.d.ops s0, 0 ≤ P.d.cost s0 o)
    (ho : ∃ o ∈ P.d.ops s0, P.d.app s0 o ≠ s0) (hl : ∀ a b c, P.lim a b c = false) (hk : 0 < P.look 0) (fuel : Nat) :
    search P (fuel + 1) s0 = .ub := by
  unfold search
  rw [loopF, if_neg (by rw [hg]; simp), if_neg (by unfold Mem.lim; show ¬ P.lim _ _ _ = true; rw [hl]; simp),
    iterF_ub hJ hg hc ho hk ⟨fun s h => absurd h (by simp [fmem0, Mem.call]), fun k s c h => absurd h (by simp [fmem0, Mem.call])⟩ (hl _ _ _)]
  rfl

/-- C94: whatever is read there, a search reports nothing at all or a solution, for any heuristic, distances, options, lookahead
and limit. -/
theorem c94_solution (hJ : P.junk = some J) {s0 : S} (hd : CostOk P.d s0) {fuel : Nat} {r : FRes S O C}
    (h : search P fuel s0 = .ok r) : (r.path, r.ops) = ([], []) ∨ ∃ c, Solution P.d s0 (r.path, r.ops) c := by
  unfold search at h
  obtain ⟨⟨t, F, ops, lens⟩, h1, h2⟩ := Outcome.map_eq_ok.1 h
  obtain ⟨⟨ss, c, p1, p2⟩, -⟩ := loopF_sound hJ hd _ _ _ _ _ _ ⟨[], 0, .nil _, rfl⟩ rfl (by simp) h1
  dsimp only at h2
  by_cases hg : P.d.goal t = false
  · rw [if_pos hg] at h2
    subst h2
    exact Or.inl rfl
  · rw [if_neg hg] at h2
    subst h2
    refine Or.inr ⟨c, ss, ?_, ?_, t, ?_, by simpa using hg⟩
    · simp [rebuild_plan p1]
    · simpa using p1
    · dsimp only
      rw [rebuild_plan p1, List.head?_reverse, p2]

/-- C94: the recorded lengths of the steps are positive and add up to the length of the solution; with `onestep` they are 1. -/
theorem c94_lengths (hJ : P.junk = some J) {s0 : S} (hd : CostOk P.d s0) {fuel : Nat} {r : FRes S O C}
    (h : search P fuel s0 = .ok r) (hr : r.path ≠ []) : r.lens.sum = r.ops.length ∧ (∀ n ∈ r.lens, 0 < n) ∧
      (P.onestep = true → ∀ n ∈ r.lens, n = 1) := by
  unfold search at h
  obtain ⟨⟨t, F, ops, lens⟩, h1, h2⟩ := Outcome.map_eq_ok.1 h
  obtain ⟨-, l1, l2⟩ := loopF_sound hJ hd _ _ _ _ _ _ ⟨[], 0, .nil _, rfl⟩ rfl (by simp) h1
  have l3 := fun hos : P.onestep = true => loopF_onestep hJ hos _ _ _ _ _ _ (by simp) h1
  dsimp only at h2
  by_cases hg : P.d.goal t = false
  · rw [if_pos hg] at h2
    subst h2
    exact absurd rfl hr
  · rw [if_neg hg] at h2
    subst h2
    exact ⟨by simpa using l1, l2, l3⟩

/-- C94: no local search expands more nodes for the first time than its lookahead allows, and a limit on the number of expansions
is kept exactly. -/
theorem c94_expansions (hJ : P.junk = some J) {s0 : S} {fuel : Nat} {r : FRes S O C} (h : search P fuel s0 = .ok r) :
    (∀ b, (∀ k, P.look k ≤ b) → r.F.m.nexpd ≤ b * (r.lens.length + 1)) ∧
    ∀ N, (∀ a b c, N ≤ a → P.lim a b c = true) → r.F.m.nexpd ≤ N := by
  unfold search at h
  obtain ⟨⟨t, F, ops, lens⟩, h1, h2⟩ := Outcome.map_eq_ok.1 h
  obtain ⟨l1, l2⟩ := loopF_nexpd hJ _ _ _ _ _ _ h1
  have e : r.F = F ∧ r.lens = lens := by
    dsimp only at h2
    split at h2 <;> (subst h2; exact ⟨rfl, rfl⟩)
  rw [e.1, e.2]
  refine ⟨fun b hb => ?_, fun N hN => l2 N hN (Nat.zero_le _)⟩
  have a1 := l1 b hb
  have a2 : (fmem0 P).m.nexpd = 0 := rfl
  rw [a2, List.length_nil, Nat.mul_zero, Nat.zero_add, Nat.add_zero] at a1
  exact a1

/-- C94: if costs are not negative and a goal can be reached from everywhere, a search never fails an assertion and never takes
from an empty open list, whatever the heuristic and the distances are.  It ends with a solution or because the limit was reached (or
it is still running), and no learned value is below the heuristic. -/
theorem c94_safe_partial (hJ : P.junk = some J) {s0 : S} (hd : CostOk P.d s0)
    (hlive : ∀ s, Reach P.d s0 s → ∃ t c, Walk P.d s t c ∧ P.d.goal t = true)
    (hl : ∀ a b c, P.lim a b c = true → P.lim a b (c + 1) = true) (hk : ∀ k, 0 < P.look k) (fuel : Nat) :
    search P fuel s0 = .nofuel ∨ ∃ r, search P fuel s0 = .ok r ∧ (∀ s, P.h s ≤ r.F.m.h s) ∧
      ((∃ c, Solution P.d s0 (r.path, r.ops) c) ∨ ∃ n, P.lim r.F.m.nexpd r.F.m.gend n = true) := by
  rcases loopF_safe hJ hd hlive hl hk fuel 0 s0 (fmem0 P) [] [] ⟨0, .nil _⟩
    ⟨fun s h => absurd h (by simp [fmem0]), fun k s c h => absurd h (by simp [fmem0])⟩ (fun _ => le_rfl) with h | ⟨t, F, ops, lens, h1, h2, h3⟩
  · left
    unfold search
    rw [h]
    rfl
  · right
    have hs : search P fuel s0 = .ok (if P.d.goal t = false then ⟨[], [], F, lens⟩
        else ⟨(s0 :: rebuild P.d s0 ops).reverse, ops.reverse, F, lens⟩) := by
      unfold search
      rw [h1, Outcome.map_ok]
    refine ⟨_, hs, by split <;> exact h2, ?_⟩
    rcases h3 with h3 | h3
    · left
      rcases c94_solution hJ hd hs with h | h
      · rw [if_neg (by rw [show P.d.goal t = true from h3]; simp)] at h
        exact absurd (congrArg Prod.fst h) (by simp)
      · exact h
    · right
      obtain ⟨n, hn⟩ := h3
      refine ⟨n, ?_⟩
      split <;> exact hn

/-- C94: the reported error of `h` is never negative, and that of `d` is at least 0 and below 1: the distances are never divided by 0. -/
theorem c94_errors (h0 : 0 < P.thr) (h1 : P.thr ≤ 1) {s0 : S} {fuel : Nat} {r : FRes S O C} (h : search P fuel s0 = .ok r) :
    0 ≤ r.F.herror ∧ 0 ≤ r.F.derror ∧ r.F.derror < 1 := by
  unfold search at h
  obtain ⟨⟨t, F, ops, lens⟩, h2, h3⟩ := Outcome.map_eq_ok.1 h
  have e : r.F = F := by
    dsimp only at h3
    split at h3 <;> (subst h3; rfl)
  rw [e]
  exact loopF_err h0 h1 _ _ _ _ _ _ h2 ⟨le_rfl, le_rfl, one_pos⟩

/-- C94: what is learned after a local search that found no goal, if it did not reopen a node without expanding it again.  A closed
state from which one can get out gets the least cost of getting out plus the value outside, or the value of the heuristic if that is
greater; all other values stay.  Partial: `c94_overestimate` is what happens with a reopened node. -/
theorem c94_learn_partial (hJ : P.junk = some J) {r : S} (hd : CostOk P.d r) (hl : ∀ a b c, P.lim a b c = true → P.lim a b (c + 1) = true)
    {k : Nat} (hk : 0 < P.look k) {F : FMem S C} (hm : MemOk (P.par F.bonus) F.m) (hg : P.d.goal r = false) :
    ∃ t, expandF P k r F = .ok t ∧ (t.x.goal = none → t.x.m.lim (P.par F.bonus) = false →
      (∀ i ∈ t.x.q.data, (t.x.nd i).closed = false) → ∃ l, learnF P F.bonus t.x F.derr F.dd = .ok l ∧ Interior t.x r ∧
      (∀ s, Interior t.x s → P.d.goal s = false ∧ ∃ c, Walk P.d r s c) ∧
      (∀ s, ¬ Interior t.x s → l.1 s = t.x.m.h s) ∧
      ∀ s, Interior t.x s →
        ((∃ u c, Exit P.d id (Interior t.x) s u c) → ∃ u c, Exit P.d id (Interior t.x) s u c ∧
          (∀ u' c', Exit P.d id (Interior t.x) s u' c' → c + t.x.m.h u ≤ c' + t.x.m.h u') ∧ l.1 s = max (c + t.x.m.h u) (P.h s)) ∧
        ((¬ ∃ u c, Exit P.d id (Interior t.x) s u c) → l.1 s = t.x.m.h s)) := by
  obtain ⟨x, e, hinv, -, hx⟩ := quiet_expandLss (P := P.par F.bonus) hd hl hk hm hg
  rw [← expandF_proj hJ] at e
  obtain ⟨t, et, rfl⟩ := Outcome.map_eq_ok.1 e
  refine ⟨t, et, fun hgo hlim hcl => ?_⟩
  obtain ⟨hx, h0⟩ := hx hgo
  have h0 : (t.x.nd 0).closed = true := h0.resolve_right (by rw [hlim]; simp)
  obtain ⟨h', e1, e2, e3⟩ := learn_spec (hx.facts hcl fun t c hw o ho => hd t c hw o ho)
  rw [← learnF_proj t.x F.derr F.dd] at e1
  obtain ⟨l, el, rfl⟩ := Outcome.map_eq_ok.1 e1
  refine ⟨l, el, ⟨0, hinv.tree.pos, h0, hinv.tree.root.1⟩, ?_, e2, e3⟩
  rintro s ⟨i, hi, -, rfl⟩
  exact ⟨hx.base.nogoal hgo i hi, _, hinv.tree.walk i hi⟩

/-! ## Without distances -/

/-- C94: if the distance estimate is 0 everywhere the search is LSS-LRTA*: it makes the same steps and learns the same values. -/
theorem c94_is_lss (hJ : P.junk = some J) (h0 : ∀ s, P.dist s = 0) (fuel : Nat) (s0 : S) :
    (search P fuel s0).map (fun r => (⟨r.path, r.ops, r.F.m, r.lens⟩ : Res S O C)) = Lss.search (P.par fun _ => 0) fuel s0 := by
  have e := loopF_lss hJ fuel 0 s0 (fmem0 P) [] [] h0
  unfold search Lss.search
  have em : mem0 (P.par fun _ => 0) = (fmem0 P).m := rfl
  rw [em, ← e]
  have ed : (P.par fun _ => 0).d = P.d := rfl
  cases loopF P fuel 0 s0 (fmem0 P) [] [] with
  | ok r =>
    simp only [Outcome.map_ok, ed]
    split <;> rfl
  | _ => rfl

/-- C94: then, on a finite problem with positive costs where a goal can be reached from everywhere, with a consistent heuristic, any
lookahead of at least 1, without `onestep` and without a limit, a search ends with a solution.  Partial: for a distance estimate
that is 0. -/
theorem c94_finds_partial [Archimedean C] (hJ : P.junk = some J) (h0 : ∀ s, P.dist s = 0) {s0 : S}
    (hf : Fair (P.par fun _ => 0) s0) (hl : ∀ a b c, P.lim a b c = false) (hk : ∀ k, 0 < P.look k) (hos : P.onestep = false)
    (hfin : {s | Reach P.d s0 s}.Finite) :
    ∃ N, ∀ fuel ≥ N, ∃ r c, search P fuel s0 = .ok r ∧ Solution P.d s0 (r.path, r.ops) c := by
  obtain ⟨N, hN⟩ := c71_finds_partial hf hl (orderOk _) hk hos hfin
  refine ⟨N, fun fuel hfuel => ?_⟩
  obtain ⟨r, c, h1, h2⟩ := hN fuel hfuel
  rw [← c94_is_lss hJ h0] at h1
  obtain ⟨r', h3, rfl⟩ := Outcome.map_eq_ok.1 h1
  exact ⟨r', c, h3, h2⟩

/-- The two neighbours of `Props/Lss`, with distances 0. -/
def paceF : FPar (Fin 5) (Option (Fin 5)) Rat :=
  ⟨graphQ 5 pace (· == 4), ![0, 0, 1, 1, 0], fun _ => 0, fun _ _ _ => false, fun _ => 3, true, 1 / 100000000, some fun _ => false⟩

/-- C94: with `onestep` a search can go on for ever, although costs are positive, the heuristic is consistent, and a goal can be
reached from everywhere. -/
theorem c94_onestep_endless : Fair (paceF.par fun _ => 0) 0 ∧ ∀ fuel, search paceF fuel 0 = .nofuel := by
  have h := c71_onestep_endless false
  refine ⟨h.1, fun fuel => ?_⟩
  have e := c94_is_lss (P := paceF) (J := fun _ => false) rfl (fun _ => rfl) fuel 0
  have e' : Lss.search (paceF.par fun _ => 0) fuel 0 = .nofuel := h.2 fuel
  rw [e'] at e
  cases hs : search paceF fuel 0 with
  | nofuel => rfl
  | _ => rw [hs] at e; exact absurd e (by simp [Outcome.map])

/-! ## What goes wrong when nodes are reopened -/

/-- A chain 0, 1, 2 that ends in 3; from 3 to the goal 7 through 6 at cost 9.  On the other side of 3 are 4 and 5: 4 is next to 3, at
cost 20, and cheaper through 5, at cost 10. -/
def back : List (Fin 8 × Fin 8 × Rat) := [(0, 1, 40), (1, 2, 40), (2, 3, 40), (3, 4, 20), (4, 3, 20), (3, 5, 9), (5, 3, 9), (5, 4, 1),
  (4, 5, 1), (3, 6, 1), (6, 3, 1), (6, 7, 8), (7, 6, 8)]

/-- A search with three nodes of lookahead that is stopped at the `n`-th limit test. -/
def backF (n : Nat) : FPar (Fin 8) (Option (Fin 8)) Rat :=
  ⟨graphQ 8 back (· == 7), ![0, 0, 0, 7, 0, 0, 8, 0], ![4, 3, 2, 1, 0, 1, 1, 0], fun _ _ c => decide (n ≤ c), fun _ => 3, false, 1 / 100000000,
    some fun _ => false⟩

theorem back_fair (n : Nat) : Fair ((backF n).par fun _ => 0) 0 where
  cost s _ := (by decide +kernel : ∀ s, ∀ o ∈ (graphQ 8 back (· == 7)).ops s, 0 < (graphQ 8 back (· == 7)).cost s o) s
  cons s _ := (by decide +kernel : ∀ s, ∀ o ∈ (graphQ 8 back (· == 7)).ops s, (![0, 0, 0, 7, 0, 0, 8, 0] : Fin 8 → Rat) s ≤
    (graphQ 8 back (· == 7)).cost s o + (![0, 0, 0, 7, 0, 0, 8, 0] : Fin 8 → Rat) ((graphQ 8 back (· == 7)).app s o)) s
  goal s _ := (by decide +kernel : ∀ s, (graphQ 8 back (· == 7)).goal s = true → (![0, 0, 0, 7, 0, 0, 8, 0] : Fin 8 → Rat) s ≤ 0) s
  live s _ := by
    have st : ∀ t u : Fin 8, some u ∈ (graphQ 8 back (· == 7)).ops t → (∃ c, Walk (graphQ 8 back (· == 7)) u 7 c) →
        ∃ c, Walk (graphQ 8 back (· == 7)) t 7 c := fun t u ht ⟨c, hc⟩ =>
      ⟨_, ((Walk.nil (d := graphQ 8 back (· == 7)) t).snoc ht).trans hc⟩
    have h6 := st 6 7 (by decide) ⟨0, .nil _⟩
    have h3 := st 3 6 (by decide) h6
    have h2 := st 2 3 (by decide) h3
    have h1 := st 1 2 (by decide) h2
    have : ∃ c, Walk (graphQ 8 back (· == 7)) s 7 c := by
      fin_cases s
      · exact st 0 1 (by decide) h1
      · exact h1
      · exact h2
      · exact h3
      · exact st 4 3 (by decide) h3
      · exact st 5 3 (by decide) h3
      · exact h6
      · exact ⟨0, .nil _⟩
    exact ⟨7, this.choose, this.choose_spec, rfl⟩
  wt _ := rfl
  bonus _ := rfl

/-- C94: learned values can exceed the cost of a way to a goal, although costs are positive and the heuristic is consistent, so that
those of LSS-LRTA* never do (`c70_step`).  In the second local search 4 is expanded at cost 20, then reached from 5 at cost 10 and
put back into the open list; the learning, which counts the nodes that it takes out, counts 4 twice and stops before
6 is looked at. -/
theorem c94_overestimate : ∃ r c, search (backF 10) 20 0 = .ok r ∧ Walk (graphQ 8 back (· == 7)) 3 7 c ∧ c < r.F.m.h 3 := by
  have h : (search (backF 10) 20 0).map (fun r => r.F.m.h 3) = .ok 10 := by decide +kernel
  obtain ⟨r, h1, h2⟩ := Outcome.map_eq_ok.1 h
  refine ⟨r, _, h1, ((Walk.nil (d := graphQ 8 back (· == 7)) 3).snoc (o := some 6) (by decide)).snoc (o := some 7) (by decide), ?_⟩
  rw [h2]
  decide +kernel

/-- C94: and learned values can decrease: the same search, stopped later. -/
theorem c94_decrease : ∃ r r', search (backF 10) 20 0 = .ok r ∧ search (backF 100) 20 0 = .ok r' ∧ r'.F.m.h 3 < r.F.m.h 3 := by
  have h : (search (backF 10) 20 0).map (fun r => r.F.m.h 3) = .ok 10 := by decide +kernel
  have h' : (search (backF 100) 20 0).map (fun r => r.F.m.h 3) = .ok 9 := by decide +kernel
  obtain ⟨r, h1, h2⟩ := Outcome.map_eq_ok.1 h
  obtain ⟨r', h1', h2'⟩ := Outcome.map_eq_ok.1 h'
  refine ⟨r, r', h1, h1', ?_⟩
  rw [h2, h2']
  decide +kernel

/-- C94: the errors that are reported are not means: three expansions with the errors 40, 40 and 47 give 127/4. -/
theorem c94_mean : ∃ r, search (backF 5) 20 0 = .ok r ∧ r.F.herror = 127 / 4 := by
  have h : (search (backF 5) 20 0).map (fun r => r.F.herror) = .ok (127 / 4) := by decide +kernel
  obtain ⟨r, h1, h2⟩ := Outcome.map_eq_ok.1 h
  exact ⟨r, h1, h2⟩

/-! ## Examples -/

-- the whole search
example : (search (backF 100) 20 0).map (fun r => (r.path, r.lens)) = .ok ([7, 6, 3, 5, 4, 5, 3, 2, 1, 0], [3, 2, 3, 1]) := by decide +kernel
-- the hypotheses of `c94_safe_partial`, and of `c94_errors`
example (fuel : Nat) : search (backF 100) fuel 0 = .nofuel ∨ ∃ r, search (backF 100) fuel 0 = .ok r ∧ (∀ s, (backF 100).h s ≤ r.F.m.h s) ∧
    ((∃ c, Solution (graphQ 8 back (· == 7)) 0 (r.path, r.ops) c) ∨ ∃ n, (backF 100).lim r.F.m.nexpd r.F.m.gend n = true) :=
  c94_safe_partial (J := fun _ => false) rfl
    (fun s _ _ => (by decide +kernel : ∀ s, ∀ o ∈ (graphQ 8 back (· == 7)).ops s, 0 ≤ (graphQ 8 back (· == 7)).cost s o) s)
    (back_fair 100).live (fun _ _ c h => by simp only [backF, decide_eq_true_eq] at h ⊢; omega) (fun _ => Nat.succ_pos 2) fuel
example : (0 : Rat) < (backF 100).thr ∧ (backF 100).thr ≤ 1 := by decide +kernel
-- the hypotheses of `c94_uninit`
example (fuel : Nat) : search { paceF with junk := none } (fuel + 1) 0 = .ub :=
  c94_uninit rfl rfl (by decide +kernel) ⟨some 1, by decide, by decide⟩ (fun _ _ _ => rfl) (Nat.succ_pos 2) fuel
-- the hypotheses of `c94_finds_partial`
example : ∃ N, ∀ fuel ≥ N, ∃ r c, search { paceF with onestep := false } fuel 0 = .ok r ∧ Solution (graphQ 5 pace (· == 4)) 0 (r.path, r.ops) c :=
  c94_finds_partial (P := { paceF with onestep := false }) (J := fun _ => false) rfl (fun _ => rfl) (pace_fair false false) (fun _ _ _ => rfl)
    (fun _ => Nat.succ_pos 2) rfl (Set.toFinite _)
-- the hypotheses of `c94_learn_partial`, at the start
example : ∃ t, expandF (backF 100) 0 0 (fmem0 (backF 100)) = .ok t := by
  obtain ⟨t, h, -⟩ := c94_learn_partial (P := backF 100) (J := fun _ => false) rfl (r := 0)
    (fun s _ _ => (by decide +kernel : ∀ s, ∀ o ∈ (graphQ 8 back (· == 7)).ops s, 0 ≤ (graphQ 8 back (· == 7)).cost s o) s)
    (fun _ _ c h => by simp only [backF, decide_eq_true_eq] at h ⊢; omega) (k := 0) (Nat.succ_pos 2) (F := fmem0 (backF 100))
    ⟨fun s h => absurd h (by simp [fmem0]), fun k s c h => absurd h (by simp [fmem0])⟩ rfl
  exact ⟨t, h⟩
-- there, no node is reopened
example : (expandF (backF 100) 0 0 (fmem0 (backF 100))).map (fun t => (t.x.goal.isNone, t.x.m.lim ((backF 100).par fun _ => 0),
    t.x.q.data.all fun i => !(t.x.nd i).closed, t.x.q.data.length)) = .ok (true, false, true, 1) := by decide +kernel

end Verif.Fhat
