import Verif.Search.Idastar
import Verif.Props.Astar

/-!
# C33, C34: iterative deepening A*

`search d h l m1 s0 iters fuel` is `Idastar::search` with at most `iters` iterations and recursion depth `fuel`; `m1` is
the sentinel `Cost(-1)`; `l` the limit test.
-/

namespace Verif.Ida

open Verif.Search

variable {S O C : Type*} [DecidableEq S] [DecidableEq O] [AddCommGroup C] [LinearOrder C] [IsOrderedAddMonoid C]
  {d : Dom S O C} {h : S → C} {l : Lim} {m1 : C} {s0 : S}

/-- **C33 (soundness).** A path returned by IDA* is a genuine solution: any domain, any heuristic, any limit. -/
theorem c33_solution {iters fuel : Nat} {p : List S × List O} {st : ISt C}
    (hr : search d h l m1 s0 iters fuel = .ok (some p, st)) : ∃ c, Solution d s0 p c := by
  obtain ⟨b, ss, c, t, h1, h2, h3, h4, -⟩ := iter_sound iters hr
  exact ⟨c, ss, h1, h2, t, h3, h4⟩

/-- **C33 (optimality).** With an admissible heuristic and non-negative costs it is of least cost, whatever the limit
and although the operator leading back to the parent is skipped. -/
theorem c33_optimal (hd : DomOk d s0) (hlm : LimMono l) {k : C} (hadm : Admissible d s0 h k) (hm : m1 ≤ h s0)
    {iters fuel : Nat} {p : List S × List O} {st : ISt C}
    (hr : search d h l m1 s0 iters fuel = .ok (some p, st)) :
    ∃ c, Solution d s0 p c ∧ ∀ ops ss t c', Plan d s0 ops ss c' → (s0 :: ss).getLast? = some t →
      d.goal t = true → c ≤ c' := by
  obtain ⟨b, ⟨ss, c, t, h1, h2, h3, h4, h5⟩, hb⟩ := iter_optimal hd hlm hadm.2 iters hm
    (fun n t c hp ht => hadm.2 s0 0 (.nil s0) t c hp.walk ht) hr
  refine ⟨c, ⟨ss, h1, h2, t, h3, h4⟩, fun ops ss' t' c' hp ht htg => ?_⟩
  have hl := Plan.lplan hp
  rw [List.getLast?_eq_some_getLast (by simp)] at ht
  rw [Option.some.inj ht] at hl
  have e1 := hb _ _ _ hl htg
  have hw : Walk d s0 t c := by
    have := h2.walk
    have e : (s0 :: ss).getLast (by simp) = t := by
      have h' : (s0 :: ss).getLast? = some t := by rw [← h1, List.getLast?_reverse, h3]
      rw [List.getLast?_eq_some_getLast (by simp)] at h'
      exact Option.some.inj h'
    rwa [e] at this
  have e2 := hadm.1 t c hw h4
  rw [zero_add] at h5
  have : c + k ≤ c' + k := le_trans (by gcongr) (h5.trans e1)
  exact le_of_add_le_add_right this

/-- **C33 (completeness).** For integer costs of at least 1 and a non-negative admissible heuristic IDA* (without a
limit) finds a solution if there is one, within the stated number of iterations and recursion depth. -/
theorem c33_complete {d : Dom S O Int} {h : S → Int} {l : Lim} {m1 : Int} {s0 : S} (hd : DomOk d s0)
    (hl : ∀ a b c, l a b c = false) (hcost : ∀ s c0, Walk d s0 s c0 → ∀ o ∈ d.ops s, 1 ≤ d.cost s o)
    (hh : ∀ s c0, Walk d s0 s c0 → 0 ≤ h s) (hadm : Admissible d s0 h 0) (hm : m1 < 0)
    {ops : List O} {ss : List S} {t : S} {c : Int} (hp : Plan d s0 ops ss c)
    (ht : (s0 :: ss).getLast? = some t) (htg : d.goal t = true) :
    ∃ p st, search d h l m1 s0 (c.toNat + 1) (c.toNat + 2) = .ok (some p, st) := by
  have hl' := Plan.lplan hp
  rw [List.getLast?_eq_some_getLast (by simp)] at ht
  rw [Option.some.inj ht] at hl'
  have h0 := hh s0 0 (.nil s0)
  have h1 := hadm.2 s0 0 (.nil s0) t c hl'.walk htg
  exact iter_complete_int hd hl hcost hh hadm.2 hl' htg _ _ (by omega) (by omega) (by omega) (by omega)

/-- **C34, negation.** Without a limit IDA* never reports that there is no solution: if no goal is reachable it does
not return at all, however many iterations are allowed. -/
theorem c34_never_reports {iters fuel : Nat} (hl : ∀ a b c, l a b c = false)
    (hno : ∀ t c, Walk d s0 t c → d.goal t = false) (r : Res S O C) :
    search d h l m1 s0 iters fuel ≠ .ok r := by
  obtain ⟨p, st⟩ := r
  cases p with
  | none => exact iter_no_none hl iters
  | some p =>
    intro hr
    obtain ⟨c, ss, h1, h2, t, h3, h4⟩ := c33_solution hr
    have hw := h2.walk
    have e : (s0 :: ss).getLast (by simp) = t := by
      have h' : (s0 :: ss).getLast? = some t := by rw [← h1, List.getLast?_reverse, h3]
      rw [List.getLast?_eq_some_getLast (by simp)] at h'
      exact Option.some.inj h'
    rw [e] at hw
    rw [hno t c hw] at h4
    exact absurd h4 (by simp)

/-- Two states, one operator, no goal. -/
def g3 : Dom (Fin 2) (Option (Fin 2)) Int := graph 2 [(0, 1, 1)] (fun _ => false)

/-- **C34, witness.** On a domain with a search tree of two nodes every single depth-first search finishes at once, but
the bound alternates between `-1` and `h(s0)` and the loop goes on for ever. -/
theorem c34_witness (iters : Nat) :
    search g3 (fun _ => 0) (fun _ _ _ => false) (-1) 0 iters 5 = .nofuel ∧
    (∀ st, ∃ st', dfs g3 (fun _ => 0) (fun _ _ _ => false) (-1) 0 5 0 none 0 st = .ok (none, st')) := by
  have step : ∀ b : Int, b = -1 ∨ 0 ≤ b → ∀ st : ISt Int, ∃ st', dfs g3 (fun _ => 0) (fun _ _ _ => false) (-1) b 5 0 none 0 st =
      .ok (none, st') ∧ (st.minoob = -1 → st'.minoob = -1 ∨ 0 ≤ st'.minoob) := by
    have hops : g3.ops 0 = [some 1] := by decide
    have hops1 : g3.ops 1 = [] := by decide
    have happ : g3.app 0 (some 1) = 1 := by decide
    have hcost : g3.cost 0 (some 1) = 1 := by decide
    intro b hb st
    rcases hb with rfl | hb
    · refine ⟨{ st with minoob := if st.minoob = -1 ∨ 0 < st.minoob then 0 else st.minoob }, ?_, ?_⟩
      · simp [dfs, g3, graph]
      · intro h1; right; dsimp only; rw [if_pos (Or.inl h1)]
    · by_cases hb1 : b < 1
      · refine ⟨{ st with
          minoob := if st.minoob = -1 ∨ 1 < st.minoob then 1 else st.minoob
          expd := st.expd + 1
          gend := st.gend + 1
          calls := st.calls + 1 }, ?_, ?_⟩
        · have hg : ∀ s, g3.goal s = false := fun _ => rfl
          simp [dfs, dfsOps, hops, happ, hcost, hg, ISt.lim, not_lt.2 hb, hb1, Outcome.bind]
        · intro h1; right; dsimp only; rw [if_pos (Or.inl h1)]; omega
      · refine ⟨{ st with
          expd := st.expd + 2
          gend := st.gend + 1
          calls := st.calls + 1 }, ?_, fun h1 => Or.inl h1⟩
        have hg : ∀ s, g3.goal s = false := fun _ => rfl
        simp [dfs, dfsOps, hops, hops1, happ, hcost, hg, ISt.lim, not_lt.2 hb, hb1, Outcome.bind]
  refine ⟨?_, fun st => ?_⟩
  · unfold search
    have : ∀ b : Int, b = -1 ∨ 0 ≤ b → ∀ st : ISt Int,
        iter g3 (fun _ => 0) (fun _ _ _ => false) (-1) 0 5 iters b st = .nofuel := by
      induction iters with
      | zero => intro b hb st; rfl
      | succ i ih =>
        intro b hb st
        unfold iter
        rw [if_neg (by simp [ISt.lim])]
        obtain ⟨st', h1, h2⟩ := step b hb { st with calls := st.calls + 1, minoob := -1 }
        have hn : g3.nop = none := rfl
        rw [hn, h1]
        exact ih _ (h2 rfl) _
    exact this 0 (Or.inr le_rfl) _
  · obtain ⟨st', h1, -⟩ := step 0 (Or.inr le_rfl) st
    exact ⟨st', h1⟩

/-- **C34, what does hold.** With an expansion limit `L > 0` IDA* always returns, on every domain, and on an unsolvable
one it returns no path.  Missing: returning without a limit, which the code does not do. -/
theorem c34_limited_partial {L : Nat} (hL : ∀ a b c, l a b c = decide (L ≤ a)) (hm : m1 ≤ h s0) :
    (∃ r, search d h l m1 s0 (2 * L + 1) (L + 1) = .ok r) ∧
    ((∀ t c, Walk d s0 t c → d.goal t = false) → ∃ st, search d h l m1 s0 (2 * L + 1) (L + 1) = .ok (none, st)) := by
  have h1 : ∃ r, search d h l m1 s0 (2 * L + 1) (L + 1) = .ok r :=
    iter_fine_limit hL _ hm (Or.inl le_rfl) (by rw [if_pos le_rfl]; dsimp only; omega)
  refine ⟨h1, fun hno => ?_⟩
  obtain ⟨⟨p, st⟩, h1⟩ := h1
  cases p with
  | none => exact ⟨st, h1⟩
  | some p =>
    obtain ⟨c, ss, h1, h2, t, h3, h4⟩ := c33_solution h1
    have hw := h2.walk
    have e : (s0 :: ss).getLast (by simp) = t := by
      have h' : (s0 :: ss).getLast? = some t := by rw [← h1, List.getLast?_reverse, h3]
      rw [List.getLast?_eq_some_getLast (by simp)] at h'
      exact Option.some.inj h'
    rw [e] at hw
    rw [hno t c hw] at h4
    exact absurd h4 (by simp)

/-! ### Examples -/

-- the inconsistent graph of `Props/Astar`
example : (search g1 h1 (fun _ _ _ => false) (-1) 0 20 20).map (fun r => r.1) =
    .ok (some ([5, 4, 2, 3, 0], [some 5, some 4, some 2, some 3])) := by decide +kernel
example : LimMono (fun a _ _ => decide (3 ≤ a)) := fun a b c a' b' c' h1 h2 h3 h => by
  rw [decide_eq_true_eq] at h ⊢; omega
example : (search g3 (fun _ => 0) (fun a _ _ => decide (3 ≤ a)) (-1) 0 7 4).map (fun r => r.1) = .ok none := by decide +kernel

end Verif.Ida
