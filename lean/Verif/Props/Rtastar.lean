import Verif.Search.RtastarThms
import Verif.Props.Astar

/-!
# C64, C65, C66: real-time A*

`P` has the domain, the heuristic, the limit test (any function), the sentinel `Cost(-1)`, the lookahead depth and the
initial state.  `pick` is the random generator, an arbitrary function; `search P pick fuel res` is a search with the result
record `res` before it, `nofuel` meaning that the loop is still running after `fuel` rounds.  `Plan`, `Walk`, `Solution` are
those of `Props/Astar`.
-/

namespace Verif.Rta

open Verif.Search

variable {S O C : Type*} [DecidableEq S] [DecidableEq O] [AddCommGroup C] [LinearOrder C] [IsOrderedAddMonoid C]

/-! ## C64 -/

/-- C64: whatever the random generator and the limits do, a search reports nothing at all or a solution: a path from the
initial state to a goal state, with the operators that lead along it. -/
theorem c64_solution (P : Par S O C) (pick : Nat → Nat → Nat) (fuel : Nat) {r : List S × List O} {st : Stats}
    (h : search P pick fuel ([], []) = .ok (r, st)) : r = ([], []) ∨ ∃ c, Solution P.d P.s0 r c := by
  unfold search at h
  rw [Outcome.map_eq_ok] at h
  obtain ⟨⟨t, ops, st'⟩, h1, h2⟩ := h
  dsimp only at h2
  by_cases hg : P.d.goal t = false
  · rw [if_pos hg] at h2
    cases h2
    exact Or.inl rfl
  · rw [if_neg hg] at h2
    have hg' : P.d.goal t = true := by simpa using hg
    obtain ⟨os, ss, c, e1, e2, e3⟩ := loop_sound P pick _ _ _ _ _ _ _ _ _ _ h1 hg'
    rw [List.nil_append] at e1
    subst e1
    cases h2
    refine Or.inr ⟨c, ss, ?_, ?_, t, ?_, hg'⟩
    · simp [rebuild_plan e2]
    · simpa using e2
    · simp only [List.nil_append, List.getLast_singleton, rebuild_plan e2]
      rw [List.singleton_append, List.head?_reverse, List.getLast?_eq_getLast_of_ne_nil (by simp), e3]

/-- C64: without a limit, a search that ends and reports nothing has come to a state without operators. -/
theorem c64_failure (P : Par S O C) (hl : ∀ a b c, P.l a b c = false) (pick : Nat → Nat → Nat) (fuel : Nat)
    {r : List S × List O} {st : Stats} (h : search P pick fuel ([], []) = .ok (r, st)) (hr : r.1 = []) :
    ∃ t c, Walk P.d P.s0 t c ∧ P.d.ops t = [] := by
  unfold search at h
  rw [Outcome.map_eq_ok] at h
  obtain ⟨⟨t, ops, st'⟩, h1, h2⟩ := h
  dsimp only at h2
  by_cases hg : P.d.goal t = false
  · obtain ⟨⟨c, hw⟩, ho⟩ := loop_fail P hl pick _ _ _ _ _ _ _ _ _ _ h1 hg
    exact ⟨t, c, hw, ho⟩
  · rw [if_neg hg] at h2
    cases h2
    simp at hr

/-- C64: with a random generator that stays in its range nothing goes wrong: the search is still running or has ended. -/
theorem c64_safe (P : Par S O C) {pick : Nat → Nat → Nat} (hp : ∀ k n, 0 < n → pick k n < n) (fuel : Nat)
    (res : List S × List O) :
    search P pick fuel res = .nofuel ∨ ∃ r, search P pick fuel res = .ok r := by
  unfold search
  rcases loop_ok P hp fuel 0 P.s0 (P.h P.s0) (fun _ => none) res.2 ⟨0, 0, 0⟩ with h | ⟨r, h⟩
  · rw [h]; exact Or.inl rfl
  · rw [h]; exact Or.inr ⟨_, rfl⟩

/-- C64: a limit on the number of expansions is kept exactly, lookahead included. -/
theorem c64_expansions (P : Par S O C) {N : Nat} (hl : ∀ a b c, N ≤ a → P.l a b c = true) (pick : Nat → Nat → Nat)
    (fuel : Nat) {res r : List S × List O} {st : Stats} (h : search P pick fuel res = .ok (r, st)) : st.expd ≤ N := by
  unfold search at h
  rw [Outcome.map_eq_ok] at h
  obtain ⟨⟨t, ops, st'⟩, h1, h2⟩ := h
  have := loop_expd hl pick _ _ _ _ _ _ _ _ (Nat.zero_le N) h1
  dsimp only at h2
  split at h2 <;> (cases h2; exact this)

/-- C64: no more than one node per operator is generated for each expansion that is counted, lookahead included; so the
counter of expansions misses none. -/
theorem c64_generated (P : Par S O C) {b : Nat} (hb : ∀ s, (P.d.ops s).length ≤ b) (pick : Nat → Nat → Nat)
    (fuel : Nat) {res r : List S × List O} {st : Stats} (h : search P pick fuel res = .ok (r, st)) :
    st.gend ≤ b * st.expd := by
  unfold search at h
  rw [Outcome.map_eq_ok] at h
  obtain ⟨⟨t, ops, st'⟩, h1, h2⟩ := h
  have := loop_gend hb pick _ _ _ _ _ _ _ _ (Nat.zero_le _) h1
  dsimp only at h2
  split at h2 <;> (cases h2; exact this)

/-! ## C65 -/

/-- C65: with a heuristic that is consistent and not negative, and without a limit, the value that the lookahead gives to a
state is the least `c + h t` over all ways down (no immediate return, down to the depth or to the first goal); it is the
sentinel just if there is no such way.  So pruning loses nothing. -/
theorem c65_look {d : Dom S O C} {h : S → C} {l : Lim} {m1 : C} (hl : ∀ a b c, l a b c = false) (hm : m1 < 0) {s : S}
    (hc : Cons d h s) (depth : Nat) (pop : O) (st : Stats) :
    (∀ t c, Leaf d depth s pop t c →
      (look d h l m1 depth s m1 pop 0 st).1 ≠ m1 ∧ (look d h l m1 depth s m1 pop 0 st).1 ≤ h t + c) ∧
    ((look d h l m1 depth s m1 pop 0 st).1 ≠ m1 →
      ∃ t c, Leaf d depth s pop t c ∧ (look d h l m1 depth s m1 pop 0 st).1 = h t + c) := by
  have h1 := (look_minval hl hm depth s m1 pop 0 st hc le_rfl).1
  rw [val_m1, min_eq_left le_top, min_eq_left le_top] at h1
  generalize (look d h l m1 depth s m1 pop 0 st).1 = v at h1
  refine ⟨fun t c hL => ?_, fun hv => ?_⟩
  · have := minval_leaf (h := h) hL 0
    rw [← h1, zero_add] at this
    have hv : v ≠ m1 := by
      intro e
      rw [e, val_m1] at this
      exact absurd this (by simp)
    rw [val_ne hv, WithTop.coe_le_coe] at this
    exact ⟨hv, this⟩
  · rw [val_ne hv] at h1
    obtain ⟨t, c, h2, h3⟩ := minval_attained _ _ _ _ _ h1.symm
    exact ⟨t, c, h2, by rw [h3, zero_add]⟩

/-- The value of the successor by an operator: the stored value or that of the lookahead, and the cost of the step; the
sentinel stays as it is. -/
def value (P : Par S O C) (seen : S → Option C) (s : S) (o : O) : C :=
  let v := (seen (P.d.app s o)).getD (look P.d P.h P.l P.m1 P.nlook (P.d.app s o) P.m1 (P.d.rev s o) 0 ⟨0, 0, 0⟩).1
  if v = P.m1 then P.m1 else v + P.d.cost s o

/-- `a` is at least as good as `b`, the sentinel being infinity. -/
def NoWorse (m1 a b : C) : Prop := b = m1 ∨ (a ≠ m1 ∧ a ≤ b)

theorem noWorse_of_val {m1 a b : C} (h : val m1 a ≤ val m1 b) : NoWorse m1 a b := by
  unfold NoWorse
  by_cases hb : b = m1
  · exact Or.inl hb
  · by_cases ha : a = m1
    · rw [ha, val_m1, val_ne hb] at h
      exact absurd h (by simp)
    · rw [val_ne ha, val_ne hb, WithTop.coe_le_coe] at h
      exact Or.inr ⟨ha, h⟩

/-- C65: the alternatives among which a step chooses.  Without a limit, and if no successor is the initial state: if some
successor has a value at all, these are the successors whose value is least, all of them, in their order; and what is stored
for the state that is left is the least of the other values, or the sentinel.  Missing: states next to the initial state, for
which it does not hold (`c65_alias`). -/
theorem c65_choice_partial (P : Par S O C) (hl : ∀ a b c, P.l a b c = false) (seen : S → Option C) (s : S) (st : Stats)
    (hs : ∀ o ∈ P.d.ops s, P.d.app s o ≠ P.s0) (hv : ∃ o ∈ P.d.ops s, value P seen s o ≠ P.m1) :
    ∃ m, m ≠ P.m1 ∧ (∀ o ∈ P.d.ops s, NoWorse P.m1 m (value P seen s o)) ∧
      (bestkids P seen s st).1.map Cur.op = (P.d.ops s).filter (fun o => value P seen s o = m) ∧
      (∀ o ∈ P.d.ops s, value P seen s o ≠ m → NoWorse P.m1 (bestkids P seen s st).2.1 (value P seen s o)) ∧
      ((bestkids P seen s st).2.1 ≠ P.m1 →
        ∃ o ∈ P.d.ops s, value P seen s o = (bestkids P seen s st).2.1 ∧ m < value P seen s o) := by
  have hF : ∀ snd st, ∀ o ∈ P.d.ops s, (kid P snd seen s o st).1.f = value P seen s o := by
    intro snd st o ho
    unfold kid value heuristic find
    dsimp only
    rw [if_neg (hs o ho)]
    cases seen (P.d.app s o) with
    | some v =>
      simp only [Option.getD_some]
      split <;> rename_i e
      · rw [e]
      · rfl
    | none =>
      simp only [Option.getD_none]
      rw [(look_stats hl P.nlook (P.d.app s o) P.m1 (P.d.rev s o) 0 { st with gend := st.gend + 1 } ⟨0, 0, 0⟩).1]
      split <;> rename_i e
      · rw [e]
      · rfl
  have key : Seen P.m1 (value P seen s) (P.d.ops s) (bestkids P seen s st).1 (bestkids P seen s st).2.1 := by
    unfold bestkids
    cases e : P.d.ops s with
    | nil => rw [e] at hv; obtain ⟨o, ho, _⟩ := hv; cases ho
    | cons o os =>
      rw [bestLoop]
      have h1 : Seen P.m1 (value P seen s) ([] ++ [(kid P P.m1 seen s o { st with expd := st.expd + 1 }).1.op])
          [(kid P P.m1 seen s o { st with expd := st.expd + 1 }).1] P.m1 :=
        seen_one (hF _ _ o (by rw [e]; simp)) (by simp)
      exact bestLoop_seen hF os _ _ _ _ (fun o ho => by rw [e]; exact List.mem_cons_of_mem _ ho) (by simp) h1
  obtain ⟨-, ⟨m, hm, -, -, hf, hle, h1, h2⟩ | ⟨hD, -⟩⟩ := key
  · refine ⟨m, hm, fun o ho => noWorse_of_val (hle o ho), hf, fun o ho hne => noWorse_of_val (h2 o ho hne), fun h => ?_⟩
    obtain ⟨o, ho, e, hlt⟩ := h1 h
    exact ⟨o, ho, e, by rw [e]; exact hlt⟩
  · obtain ⟨o, ho, h⟩ := hv
    exact absurd (hD o ho) h

/-! ## C66 -/

/-- C66 is violated: a corridor of five states, all moves cost 1 and can be undone, the heuristic is consistent; the search
starts in state 2, the goal is state 4. -/
def corridor : Dom (Fin 5) (Fin 6) Int where
  ops s := (![[1], [2, 0], [1, 3], [2, 4], [3]] : Fin 5 → List (Fin 6)) s
  app _ o := if h : o.val < 5 then ⟨o.val, h⟩ else 0
  cost _ _ := 1
  rev s _ := ⟨s.val, by omega⟩
  nop := 5
  goal s := s = 4

/-- It is consistent, and 1 or 0 everywhere. -/
def corridorH : Fin 5 → Int := ![0, 0, 0, 1, 0]

/-- RTA* without lookahead and limits. -/
def corridorP : Par (Fin 5) (Fin 6) Int := ⟨corridor, corridorH, fun _ _ _ => false, -1, 0, 2⟩

/-- C65 is violated next to the initial state: the search has come from state 2 to state 1, and 2 is stored for the former,
so the values of the successors 2 and 0 of state 1 are 3 and 1.  But the value of state 2 is overwritten before it is used,
and not 3 is stored for state 1 but the sentinel, "no other way". -/
theorem c65_alias : (∀ st, ∃ st' st'', bestkids corridorP (fun _ => none) 2 st = ([⟨1, 1, 2, 1, 1⟩], 2, st') ∧
      bestkids corridorP (fun _ => none) 1 st' = ([⟨0, 0, 1, 1, 1⟩], -1, st'')) ∧
    value corridorP (Function.update (fun _ => none) 2 (some 2)) 1 2 = 3 ∧
    value corridorP (Function.update (fun _ => none) 2 (some 2)) 1 0 = 1 :=
  ⟨fun _ => ⟨_, _, rfl, rfl⟩, rfl, rfl⟩

/-- The stored values when the search is in state 0 for the first time, and later on. -/
def seenA : Fin 5 → Option Int := ![none, some (-1), none, none, none]
@[inherit_doc seenA] def seenB : Fin 5 → Option Int := ![some (-1), some (-1), none, none, none]

theorem corridor_step {pick : Nat → Nat → Nat} (hp : ∀ k n, 0 < n → pick k n < n) {s t : Fin 5} {o : Fin 6} {x : Cur (Fin 5) (Fin 6) Int}
    {v : Int} {seen seen' : Fin 5 → Option Int} (hg : corridor.goal s = false)
    (hk : ∀ st, ∃ st', bestkids corridorP seen s st = ([x], v, st')) (hx : x.state = t ∧ x.op = o)
    (hs : storenode corridorP seen s v = seen') (fuel k : Nat) (snd : Int) (ops : List (Fin 6)) (st : Stats) :
    ∃ st', loop corridorP pick (fuel + 1) k s snd seen ops st = loop corridorP pick fuel (k + 1) t v seen' (ops ++ [o]) st' := by
  obtain ⟨st', e⟩ := hk { st with calls := st.calls + 1 }
  refine ⟨st', ?_⟩
  rw [loop, if_neg (by rw [show corridorP.d.goal s = corridor.goal s from rfl, hg]; simp), if_neg (by unfold Stats.lim corridorP; simp)]
  rw [e]
  have h0 : pick k 1 = 0 := by have := hp k 1 (by omega); omega
  simp only [List.length_singleton, h0]
  rw [if_neg (by simp)]
  simp only [List.getElem?_cons_zero, hx.1, hx.2, hs]

theorem corridor_end {pick : Nat → Nat → Nat} (hp : ∀ k n, 0 < n → pick k n < n) (fuel : Nat) : ∀ (k : Nat) (snd : Int)
    (ops : List (Fin 6)) (st : Stats), loop corridorP pick fuel k 1 snd seenB ops st = .nofuel ∧
      loop corridorP pick fuel k 0 snd seenB ops st = .nofuel := by
  induction fuel with
  | zero => intro k snd ops st; exact ⟨rfl, rfl⟩
  | succ fuel ih =>
    intro k snd ops st
    have u1 : storenode corridorP seenB 1 (-1) = seenB := by funext i; fin_cases i <;> rfl
    have u0 : storenode corridorP seenB 0 (-1) = seenB := by funext i; fin_cases i <;> rfl
    obtain ⟨st1, e1⟩ := corridor_step hp (t := 0) (o := 0) (x := ⟨0, 0, 1, 1, -1⟩) (by decide) (fun st => ⟨_, rfl⟩)
      ⟨rfl, rfl⟩ u1 fuel k snd ops st
    obtain ⟨st2, e2⟩ := corridor_step hp (t := 1) (o := 1) (x := ⟨1, 1, 0, 1, -1⟩) (by decide) (fun st => ⟨_, rfl⟩)
      ⟨rfl, rfl⟩ u0 fuel k snd ops st
    rw [e1, e2]
    exact ⟨(ih _ _ _ _).2, (ih _ _ _ _).1⟩

/-- C66: in a finite domain in which the goal can be reached from every state, with positive costs and a consistent
heuristic, RTA* does not always find a goal: here it goes to and fro for ever, between two states on the wrong side of the
initial state.  (While the successors of a state are evaluated, the value of the initial state is overwritten with the
sentinel, so the way back over the initial state is never taken.) -/
theorem c66_incomplete : DomOk corridor 2 ∧ Cons corridor corridorH 2 ∧ (∀ s o, 0 < corridor.cost s o) ∧
    (∀ s, ∃ c, Walk corridor s 4 c) ∧ corridor.goal 4 = true ∧
    ∀ pick : Nat → Nat → Nat, (∀ k n, 0 < n → pick k n < n) → ∀ fuel, search corridorP pick fuel ([], []) = .nofuel := by
  have k1 : ∀ s o, 0 < corridor.cost s o := fun s o => one_pos
  refine ⟨⟨fun s c _ o _ => (k1 s o).le, fun s c h => ?_, fun s c h => ?_⟩,
    ⟨fun s c h => ?_, fun s c _ o _ => (k1 s o).le, fun s c h => ?_⟩, k1, fun s => ?_, rfl, fun pick hp fuel => ?_⟩
  · clear h; revert s; decide
  · clear h; revert s; decide
  · clear h; revert s; decide
  · clear h; revert s; decide
  · have step : ∀ (s : Fin 5) (o : Fin 6), o ∈ corridor.ops s → (∃ c, Walk corridor (corridor.app s o) 4 c) →
        ∃ c, Walk corridor s 4 c := fun s o ho ⟨c, h⟩ => ⟨_, ((Walk.nil s).snoc ho).trans h⟩
    have h3 := step 3 4 (by decide) ⟨0, .nil _⟩
    have h2 := step 2 3 (by decide) h3
    have h1 := step 1 2 (by decide) h2
    have h0 := step 0 1 (by decide) h1
    fin_cases s
    · exact h0
    · exact h1
    · exact h2
    · exact h3
    · exact ⟨0, .nil _⟩
  · unfold search
    have : loop corridorP pick fuel 0 2 (corridorH 2) (fun _ => none) [] ⟨0, 0, 0⟩ = .nofuel := by
      cases fuel with
      | zero => rfl
      | succ fuel =>
        obtain ⟨st1, e1⟩ := corridor_step hp (s := 2) (t := 1) (o := 1) (x := ⟨1, 1, 2, 1, 1⟩) (v := 2) (seen := fun _ => none)
          (seen' := fun _ => none) (by decide) (fun st => ⟨_, rfl⟩) ⟨rfl, rfl⟩ (by rfl) fuel 0 (corridorH 2) [] ⟨0, 0, 0⟩
        rw [e1]
        cases fuel with
        | zero => rfl
        | succ fuel =>
          obtain ⟨st2, e2⟩ := corridor_step hp (s := 1) (t := 0) (o := 0) (x := ⟨0, 0, 1, 1, 1⟩) (v := -1) (seen := fun _ => none)
            (seen' := seenA) (by decide) (fun st => ⟨_, rfl⟩) ⟨rfl, rfl⟩ (by funext i; fin_cases i <;> rfl) fuel 1 2 ([] ++ [1]) st1
          rw [e2]
          cases fuel with
          | zero => rfl
          | succ fuel =>
            obtain ⟨st3, e3⟩ := corridor_step hp (s := 0) (t := 1) (o := 1) (x := ⟨1, 1, 0, 1, -1⟩) (v := -1) (seen := seenA)
              (seen' := seenB) (by decide) (fun st => ⟨_, rfl⟩) ⟨rfl, rfl⟩ (by funext i; fin_cases i <;> rfl) fuel 2 (-1)
              ([] ++ [1] ++ [0]) st2
            rw [e3]
            exact (corridor_end hp fuel _ _ _ _).1
    rw [show loop corridorP pick fuel 0 corridorP.s0 (corridorP.h corridorP.s0) (fun _ => none) ([] : List (Fin 6)) ⟨0, 0, 0⟩ =
      .nofuel from this]
    rfl

/-- The heuristic is exact on what can be reached from a state: costs are positive, a goal has value 0, no step promises too
much, and each state that is no goal has an operator that keeps the promise. -/
structure Exact (d : Dom S O Int) (h : S → Int) (s0 : S) : Prop where
  pos : ∀ s c, Walk d s0 s c → ∀ o ∈ d.ops s, 0 < d.cost s o
  nonneg : ∀ s c, Walk d s0 s c → 0 ≤ h s
  goal : ∀ s c, Walk d s0 s c → d.goal s = true → h s = 0
  step : ∀ s c, Walk d s0 s c → ∀ o ∈ d.ops s, h s ≤ d.cost s o + h (d.app s o)
  best : ∀ s c, Walk d s0 s c → d.goal s = false → ∃ o ∈ d.ops s, h s = d.cost s o + h (d.app s o)

section Exact
variable {P : Par S O Int}

theorem exact_leaf {d : Dom S O Int} {h : S → Int} {s0 : S} (hd : DomOk d s0) (he : Exact d h s0) : ∀ (n : Nat) (t : S) (c : Int) (pop : O),
    Walk d s0 t c → (pop ∈ d.ops t → h t < h (d.app t pop)) → ∃ u c', Leaf d n t pop u c' ∧ h u + c' = h t := by
  intro n
  induction n with
  | zero => intro t c pop _ _; exact ⟨t, 0, .deep _ _, add_zero _⟩
  | succ n ih =>
    intro t c pop hw hp
    by_cases hg : d.goal t = true
    · exact ⟨t, 0, .goal hg, add_zero _⟩
    · have hg' : d.goal t = false := by simpa using hg
      obtain ⟨o, ho, e⟩ := he.best t c hw hg'
      have hpos := he.pos t c hw o ho
      have hne : o ≠ pop := by
        rintro rfl
        have := hp ho
        omega
      obtain ⟨u, c', hL, e2⟩ := ih (d.app t o) _ (d.rev t o) (hw.snoc ho) (fun hr => by
        rw [hd.rev t c hw o ho hr]; omega)
      exact ⟨u, _, .step hg' ho hne hL, by omega⟩

theorem exact_leaf_ge {d : Dom S O Int} {h : S → Int} {s0 : S} (he : Exact d h s0) {n : Nat} {t u : S} {pop : O} {c' : Int}
    (hL : Leaf d n t pop u c') : ∀ c, Walk d s0 t c → h t ≤ h u + c' := by
  induction hL with
  | deep => intro c _; omega
  | goal _ => intro c _; omega
  | step _ ho _ _ ih =>
    intro c hw
    have := ih _ (hw.snoc ho)
    have := he.step _ c hw _ ho
    omega

theorem exact_cons {d : Dom S O Int} {h : S → Int} {s0 s : S} {c : Int} (he : Exact d h s0) (hw : Walk d s0 s c) : Cons d h s :=
  ⟨fun t _ h => he.nonneg t _ (hw.trans h), fun t _ h o ho => (he.pos t _ (hw.trans h) o ho).le,
    fun t _ h => he.step t _ (hw.trans h)⟩

/-- What is known of the alternatives in the middle of the loop. -/
structure Mid (P : Par S O Int) (s : S) (B : List (Cur S O Int)) (snd : Int) : Prop where
  all : ∀ c ∈ B, c.op ∈ P.d.ops s ∧ c.state = P.d.app s c.op ∧ c.cost = P.d.cost s c.op
  same : ∀ b ∈ B, ∀ c ∈ B, b.f = c.f
  ge : ∀ c ∈ B, c.f = P.m1 ∨ P.h s ≤ c.f
  eq : ∀ c ∈ B, c.f = P.h s → P.h s = P.d.cost s c.op + P.h c.state
  snd : snd = P.m1 ∨ P.h s ≤ snd

/-- What is known of the stored values when the search is in the state `s`. -/
structure Store (P : Par S O Int) (s : S) (seen : S → Option Int) : Prop where
  init : P.h s ≤ P.h P.s0
  val : ∀ v x, seen v = some x → (x = P.m1 ∨ P.h v ≤ x)
  up : ∀ v x, seen v = some x → P.h s ≤ P.h v

theorem exact_kid (hl : ∀ a b c, P.l a b c = false) (hm : P.m1 < 0) (hd : DomOk P.d P.s0) (he : Exact P.d P.h P.s0) {s : S} {c : Int}
    (hw : Walk P.d P.s0 s c) {seen : S → Option Int} (hs : Store P s seen) {snd : Int} (hsnd : snd = P.m1 ∨ P.h s ≤ snd)
    {o : O} (ho : o ∈ P.d.ops s) (st : Stats) :
    ((kid P snd seen s o st).1.f = P.m1 ∨ P.h s ≤ (kid P snd seen s o st).1.f) ∧
    ((kid P snd seen s o st).1.f = P.h s → P.h s = P.d.cost s o + P.h (P.d.app s o)) ∧
    (P.h s = P.d.cost s o + P.h (P.d.app s o) → (kid P snd seen s o st).1.f = P.h s) := by
  have hpos := he.pos s c hw o ho
  have hst := he.step s c hw o ho
  have hn := he.nonneg _ _ (hw.snoc ho)
  unfold kid heuristic find
  dsimp only
  by_cases h0 : P.d.app s o = P.s0
  · rw [if_pos h0]
    dsimp only
    have := hs.init
    rw [h0] at hst ⊢
    refine ⟨?_, ?_, fun h => by omega⟩
    · split
      · exact Or.inl (by assumption)
      · right; omega
    · intro h
      have := he.nonneg s c hw
      split at h
      · omega
      · omega
  · rw [if_neg h0]
    cases hx : seen (P.d.app s o) with
    | some x =>
      dsimp only
      have h1 := hs.val _ _ hx
      have h2 := hs.up _ _ hx
      refine ⟨?_, ?_, fun h => by omega⟩
      · split
        · exact Or.inl (by assumption)
        · right; omega
      · intro h
        split at h
        · have := he.nonneg s c hw; omega
        · omega
    | none =>
      dsimp only
      obtain ⟨k1, k2⟩ := c65_look hl hm (exact_cons he (hw.snoc ho)) P.nlook (P.d.rev s o) { st with gend := st.gend + 1 }
      have hge : ∀ v, (v ≠ P.m1 → ∃ t c, Leaf P.d P.nlook (P.d.app s o) (P.d.rev s o) t c ∧ v = P.h t + c) → v ≠ P.m1 →
          P.h (P.d.app s o) ≤ v := by
        intro v hv hne
        obtain ⟨t, c', hL, e⟩ := hv hne
        rw [e]
        exact exact_leaf_ge he hL _ (hw.snoc ho)
      have hge := hge _ k2
      generalize (look P.d P.h P.l P.m1 P.nlook (P.d.app s o) P.m1 (P.d.rev s o) 0 { st with gend := st.gend + 1 }).1 = v at k1 hge
      refine ⟨?_, ?_, fun h => ?_⟩
      · split
        · exact Or.inl (by assumption)
        · right; have := hge (by assumption); omega
      · intro h
        split at h
        · have := he.nonneg s c hw; omega
        · have := hge (by assumption); omega
      · obtain ⟨u, c', hL, e⟩ := exact_leaf hd he P.nlook (P.d.app s o) _ (P.d.rev s o) (hw.snoc ho) (fun hr => by
          rw [hd.rev s c hw o ho hr]; omega)
        obtain ⟨hv, hle⟩ := k1 _ _ hL
        rw [if_neg hv]
        have := hge hv
        omega

theorem exact_loop (hl : ∀ a b c, P.l a b c = false) (hm : P.m1 < 0) (hd : DomOk P.d P.s0) (he : Exact P.d P.h P.s0) {s : S} {c : Int}
    (hw : Walk P.d P.s0 s c) {seen : S → Option Int} (hs : Store P s seen) (os : List O) :
    ∀ (B : List (Cur S O Int)) (snd : Int) (st : Stats), (∀ o ∈ os, o ∈ P.d.ops s) → Mid P s B snd →
      Mid P s (bestLoop P seen s os B snd st).1 (bestLoop P seen s os B snd st).2.1 ∧
      (((∃ b ∈ B, b.f = P.h s) ∨ ∃ o ∈ os, P.h s = P.d.cost s o + P.h (P.d.app s o)) →
        ∃ b ∈ (bestLoop P seen s os B snd st).1, b.f = P.h s) := by
  have hnn := he.nonneg s c hw
  induction os with
  | nil =>
    intro B snd st _ h
    refine ⟨h, fun hb => ?_⟩
    rcases hb with hb | ⟨o, ho, _⟩
    · exact hb
    · cases ho
  | cons o os ih =>
    intro B snd st ho h
    have hoo := ho o (by simp)
    have ho' : ∀ o ∈ os, o ∈ P.d.ops s := fun o h => ho o (List.mem_cons_of_mem _ h)
    obtain ⟨k1, k2, k3⟩ := exact_kid hl hm hd he hw hs h.snd hoo st
    have kk : (kid P snd seen s o st).1.op = o ∧ (kid P snd seen s o st).1.state = P.d.app s o ∧
        (kid P snd seen s o st).1.cost = P.d.cost s o := ⟨rfl, rfl, rfl⟩
    have one : ∀ x : Int, (x = P.m1 ∨ P.h s ≤ x) → Mid P s [(kid P snd seen s o st).1] x := by
      intro x hx
      refine ⟨?_, ?_, ?_, ?_, hx⟩
      · intro c hc
        rw [List.mem_singleton] at hc
        rw [hc, kk.1]; exact ⟨hoo, kk.2.1, kk.2.2⟩
      · intro b hb c hc
        rw [List.mem_singleton] at hb hc
        rw [hb, hc]
      · intro c hc
        rw [List.mem_singleton] at hc
        rw [hc]; exact k1
      · intro c hc
        rw [List.mem_singleton] at hc
        rw [hc, kk.1, kk.2.1]; exact k2
    cases B with
    | nil =>
      rw [bestLoop]
      obtain ⟨i1, i2⟩ := ih [(kid P snd seen s o st).1] snd (kid P snd seen s o st).2 ho' (one _ h.snd)
      refine ⟨i1, fun hb => i2 ?_⟩
      rcases hb with ⟨b, hb, _⟩ | ⟨o', ho'', e⟩
      · cases hb
      · rcases List.mem_cons.1 ho'' with rfl | hmem
        · exact Or.inl ⟨_, by simp, k3 e⟩
        · exact Or.inr ⟨o', hmem, e⟩
    | cons b bs =>
      have hbge := h.ge b (by simp)
      have hbh : ∀ b' ∈ b :: bs, b'.f = P.h s → b.f = P.h s := fun b' hb' e => by rw [h.same b (by simp) b' hb', e]
      rw [bestLoop]
      by_cases hb : better P.m1 (kid P snd seen s o st).1.f b.f = true
      · rw [if_pos hb]
        obtain ⟨i1, i2⟩ := ih [(kid P snd seen s o st).1] b.f (kid P snd seen s o st).2 ho' (one _ hbge)
        refine ⟨i1, fun hbb => i2 ?_⟩
        rcases hbb with ⟨b', hb', e⟩ | ⟨o', ho'', e⟩
        · have := hbh b' hb' e
          unfold better at hb
          simp only [ne_eq, decide_eq_true_eq] at hb
          omega
        · rcases List.mem_cons.1 ho'' with rfl | hmem
          · exact Or.inl ⟨_, by simp, k3 e⟩
          · exact Or.inr ⟨o', hmem, e⟩
      · rw [if_neg hb]
        unfold better at hb
        simp only [ne_eq, decide_eq_true_eq] at hb
        have hbk : (kid P snd seen s o st).1.f = P.h s → b.f = P.h s := by omega
        by_cases heq : b.f = (kid P snd seen s o st).1.f
        · rw [if_pos heq]
          obtain ⟨i1, i2⟩ := ih (b :: bs ++ [(kid P snd seen s o st).1]) snd (kid P snd seen s o st).2 ho'
            ⟨fun c hc => (List.mem_append.1 hc).elim (h.all c) ((one _ h.snd).all c), fun x hx y hy => by
              have key : ∀ z ∈ b :: bs ++ [(kid P snd seen s o st).1], z.f = b.f := by
                intro z hz
                rcases List.mem_append.1 hz with hz | hz
                · exact h.same z hz b (by simp)
                · rw [List.mem_singleton] at hz; rw [hz, heq]
              rw [key x hx, key y hy],
             fun c hc => (List.mem_append.1 hc).elim (h.ge c) ((one _ h.snd).ge c),
             fun c hc => (List.mem_append.1 hc).elim (h.eq c) ((one _ h.snd).eq c), h.snd⟩
          refine ⟨i1, fun hbb => i2 ?_⟩
          rcases hbb with ⟨b', hb', e⟩ | ⟨o', ho'', e⟩
          · exact Or.inl ⟨b', List.mem_append_left _ hb', e⟩
          · rcases List.mem_cons.1 ho'' with rfl | hmem
            · exact Or.inl ⟨_, by simp, hbk (k3 e)⟩
            · exact Or.inr ⟨o', hmem, e⟩
        · rw [if_neg heq]
          obtain ⟨i1, i2⟩ := ih (b :: bs) (if better P.m1 (kid P snd seen s o st).1.f snd then (kid P snd seen s o st).1.f else snd)
            (kid P snd seen s o st).2 ho' ⟨h.all, h.same, h.ge, h.eq, by split; exacts [k1, h.snd]⟩
          refine ⟨i1, fun hbb => i2 ?_⟩
          rcases hbb with ⟨b', hb', e⟩ | ⟨o', ho'', e⟩
          · exact Or.inl ⟨b', hb', e⟩
          · rcases List.mem_cons.1 ho'' with rfl | hmem
            · exact Or.inl ⟨_, by simp, hbk (k3 e)⟩
            · exact Or.inr ⟨o', hmem, e⟩

theorem exact_run (hl : ∀ a b c, P.l a b c = false) (hm : P.m1 < 0) (hd : DomOk P.d P.s0) (he : Exact P.d P.h P.s0)
    {pick : Nat → Nat → Nat} (hp : ∀ k n, 0 < n → pick k n < n) : ∀ (fuel k : Nat) (s : S) (c snd : Int) (seen : S → Option Int)
    (ops : List O) (st : Stats), Walk P.d P.s0 s c → Store P s seen → P.h s < fuel →
    ∃ t os ss st', loop P pick fuel k s snd seen ops st = .ok (t, ops ++ os, st') ∧ P.d.goal t = true ∧
      Plan P.d s os ss (P.h s) ∧ (s :: ss).getLast (by simp) = t := by
  intro fuel
  induction fuel with
  | zero =>
    intro k s c snd seen ops st hw _ hlt
    have := he.nonneg s c hw
    omega
  | succ fuel ih =>
    intro k s c snd seen ops st hw hs hlt
    rw [loop]
    by_cases hg : P.d.goal s = true
    · rw [if_pos hg]
      exact ⟨s, [], [], st, by simp, hg, by rw [he.goal s c hw hg]; exact .nil _, rfl⟩
    rw [if_neg hg, if_neg (by unfold Stats.lim; rw [hl]; simp)]
    obtain ⟨o, ho, eo⟩ := he.best s c hw (by simpa using hg)
    obtain ⟨mid, hb⟩ := exact_loop hl hm hd he hw hs (P.d.ops s) [] P.m1
      { { st with calls := st.calls + 1 } with expd := st.expd + 1 } (fun o ho => ho)
      ⟨fun c hc => (by cases hc), fun c hc => (by cases hc), fun c hc => (by cases hc), fun c hc => (by cases hc), Or.inl rfl⟩
    change Mid P s (bestkids P seen s { st with calls := st.calls + 1 }).1 (bestkids P seen s { st with calls := st.calls + 1 }).2.1 at mid
    change _ → ∃ b ∈ (bestkids P seen s { st with calls := st.calls + 1 }).1, _ at hb
    obtain ⟨b, hbm, hbf⟩ := hb (Or.inr ⟨o, ho, eo⟩)
    generalize bestkids P seen s { st with calls := st.calls + 1 } = r at mid hbm
    dsimp only
    have hne : r.1 ≠ [] := List.ne_nil_of_mem hbm
    rw [if_neg hne]
    have hlt' := hp k _ (List.length_pos_iff.2 hne)
    rw [List.getElem?_eq_getElem hlt']
    have hcm := List.getElem_mem hlt'
    generalize r.1[pick k r.1.length] = x at hcm
    obtain ⟨x1, x2, -⟩ := mid.all x hcm
    have hxf := mid.eq x hcm (by rw [mid.same x hcm b hbm, hbf])
    rw [x2] at hxf
    have hpos := he.pos s c hw _ x1
    have hw' := hw.snoc x1
    have hs' : Store P (P.d.app s x.op) (storenode P seen s r.2.1) := by
      refine ⟨by have := hs.init; omega, ?_, ?_⟩
      · intro v y hv
        unfold storenode at hv
        split at hv
        · exact hs.val v y hv
        · by_cases e : v = s
          · subst e
            rw [Function.update_self] at hv
            cases hv
            exact mid.snd
          · rw [Function.update_of_ne e] at hv
            exact hs.val v y hv
      · intro v y hv
        unfold storenode at hv
        split at hv
        · have := hs.up v y hv; omega
        · by_cases e : v = s
          · subst e
            omega
          · rw [Function.update_of_ne e] at hv
            have := hs.up v y hv; omega
    dsimp only
    rw [x2]
    obtain ⟨t, os, ss, st', e1, e2, e3, e4⟩ := ih (k + 1) (P.d.app s x.op) _ r.2.1 (storenode P seen s r.2.1) (ops ++ [x.op]) r.2.2 hw' hs'
      (by omega)
    refine ⟨t, x.op :: os, P.d.app s x.op :: ss, st', by rw [e1]; simp, e2, by rw [hxf]; exact .cons x1 e3, ?_⟩
    rw [List.getLast_cons (by simp)]
    exact e4

/-- C66, what holds: with an exact heuristic RTA* goes straight to a goal, along a cheapest path, whatever the lookahead and
the random generator.  Missing: heuristics that are only consistent, for which the search may run for ever
(`c66_incomplete`). -/
theorem c66_exact_partial (hl : ∀ a b c, P.l a b c = false) (hm : P.m1 < 0) (hd : DomOk P.d P.s0) (he : Exact P.d P.h P.s0)
    {pick : Nat → Nat → Nat} (hp : ∀ k n, 0 < n → pick k n < n) {fuel : Nat} (hf : P.h P.s0 < fuel) :
    ∃ r st, search P pick fuel ([], []) = .ok (r, st) ∧ Solution P.d P.s0 r (P.h P.s0) ∧
      ∀ t c, Walk P.d P.s0 t c → P.d.goal t = true → P.h P.s0 ≤ c := by
  obtain ⟨t, os, ss, st', e1, e2, e3, e4⟩ := exact_run hl hm hd he hp fuel 0 P.s0 0 (P.h P.s0) (fun _ => none) [] ⟨0, 0, 0⟩ (.nil _)
    ⟨le_rfl, fun v x h => (by cases h), fun v x h => (by cases h)⟩ hf
  have e : search P pick fuel ([], []) = .ok (((P.s0 :: ss).reverse, os.reverse), st') := by
    unfold search
    dsimp only
    rw [e1, Outcome.map_ok]
    dsimp only
    rw [if_neg (by simp [e2])]
    simp [rebuild_plan e3]
  refine ⟨_, _, e, ?_, ?_⟩
  · refine ⟨ss, ?_, ?_, t, ?_, e2⟩
    · simp
    · simpa using e3
    · rw [List.head?_reverse, List.getLast?_eq_getLast_of_ne_nil (by simp), e4]
  · intro t c hw hg
    have key : ∀ t c, Walk P.d P.s0 t c → P.h P.s0 ≤ c + P.h t := by
      intro t c hw
      induction hw with
      | nil => omega
      | snoc hw ho ih =>
        have := he.step _ _ hw _ ho
        omega
    have := key t c hw
    rw [he.goal t c hw hg] at this
    omega

end Exact

/-! ## Examples -/

/-- A graph with a detour: state 0 has the neighbours 1 (dead end) and 2, which leads to 3, the goal. -/
def small : Dom (Fin 4) (Fin 5) Int where
  ops s := (![[1, 2], [0], [0, 3], [2]] : Fin 4 → List (Fin 5)) s
  app _ o := if h : o.val < 4 then ⟨o.val, h⟩ else 0
  cost s o := if s = 0 ∧ o = 2 then 2 else 1
  rev s _ := ⟨s.val, by omega⟩
  nop := 4
  goal s := s = 3

def smallP (n : Nat) (l : Lim) : Par (Fin 4) (Fin 5) Int := ⟨small, fun _ => 0, l, -1, n, 0⟩

-- a search that first goes the wrong way, and finds the goal
example : (search (smallP 0 fun _ _ _ => false) (fun _ _ => 0) 9 ([], [])).map Prod.fst =
    .ok ([3, 2, 0, 1, 0], [3, 2, 0, 1]) := by decide +kernel
-- with lookahead it goes straight
example : (search (smallP 2 fun _ _ _ => false) (fun _ _ => 0) 9 ([], [])).map Prod.fst = .ok ([3, 2, 0], [3, 2]) := by
  decide +kernel
-- a search that is stopped by a limit
example : search (smallP 2 fun a _ _ => 2 ≤ a) (fun _ _ => 0) 9 ([], []) = .ok (([], []), ⟨2, 2, 4⟩) := by decide +kernel
-- the hypotheses of `c65_look`; ways down of two steps from state 0 (coming from nowhere): 0-2-3 costs 3
example : ∀ s, (small.ops s).length ≤ 4 := by decide

example : Cons small (fun _ => 0) 0 := by
  refine ⟨fun s c _ => le_rfl, fun s c h => ?_, fun s c h => ?_⟩ <;> (clear h; revert s; decide)
example : Leaf small 2 0 4 3 (2 + (1 + 0)) :=
  .step (o := 2) (by decide) (by decide) (by decide) (.step (o := 3) (by decide) (by decide) (by decide) (.deep _ _))
example : (look small (fun _ => 0) (fun _ _ _ => false) (-1 : Int) 2 0 (-1) 4 0 ⟨0, 0, 0⟩).1 = 3 := by decide +kernel
-- a state from which there is no way down: 1, coming from 0
example : (look small (fun _ => 0) (fun _ _ _ => false) (-1 : Int) 2 1 (-1) 0 0 ⟨0, 0, 0⟩).1 = -1 := by decide +kernel
-- the hypotheses of `c65_choice_partial`, and two alternatives of the same value
example : (∀ o ∈ (smallP 1 fun _ _ _ => false).d.ops 0, (smallP 1 fun _ _ _ => false).d.app 0 o ≠ 0) ∧
    ∃ o ∈ (smallP 1 fun _ _ _ => false).d.ops 0, value (smallP 1 fun _ _ _ => false) (fun _ => none) 0 o ≠ -1 := by
  decide +kernel
example : ((bestkids (smallP 0 fun _ _ _ => false) (Function.update (fun _ => none) 1 (some 1)) 0 ⟨0, 0, 0⟩).1.map Cur.op) =
    [1, 2] := by decide +kernel

/-- `reset` forgets the stored values but not the result: a second search with the same object reports something that is not
a solution (rtastar.hpp:90-94 lacks `SearchAlgorithm<D>::reset()`). -/
theorem c64_second_search : ∃ r st r' st', search (smallP 2 fun _ _ _ => false) (fun _ _ => 0) 9 ([], []) = .ok (r, st) ∧
    search (smallP 2 fun _ _ _ => false) (fun _ _ => 0) 9 r = .ok (r', st') ∧ r' ≠ ([], []) ∧ ¬ ∃ c, Solution small 0 r' c := by
  refine ⟨([3, 2, 0], [3, 2]), _, ([3, 2, 2, 3, 0, 0, 2, 3], [3, 2, 2, 3]), _, rfl, rfl, by simp, ?_⟩
  rintro ⟨c, ss, h1, h2, -⟩
  simp at h1

-- the hypotheses of `c66_exact_partial`
example : Exact small ![3, 4, 1, 0] 0 := by
  refine ⟨fun s c h => ?_, fun s c h => ?_, fun s c h => ?_, fun s c h => ?_, fun s c h => ?_⟩ <;> (clear h; revert s; decide)
example : DomOk small 0 := by
  refine ⟨fun s c h => ?_, fun s c h => ?_, fun s c h => ?_⟩ <;> (clear h; revert s; decide)

end Verif.Rta
