import Verif.Domains.Traffic
import Verif.Props.Astar

/-!
# C49, C50: traffic

`At I o t p` says that a ball running back and forth between the walls of the grid, at the obstacle's speed, is at `p` at time
`t`; `Hit I t p` that some obstacle is there; `Swap I t p q` that some obstacle moves from `q` to `p` before `t`.
-/

namespace Verif.Traffic

open Verif.Search

variable {I : Inst}

/-- **C49 (positions).** On grids with at least two rows and columns every obstacle, wherever it starts and however fast it
moves, has at every time a position on the grid: the one of a ball that bounces off the walls. -/
theorem c49_position {w h : Int} (hw : 2 ≤ w) (hh : 2 ≤ h) (o : Obstacle) (t : Int) :
    ∃ p, positionAt o w h t = .ok p ∧ 0 ≤ p.1 ∧ p.1 < w ∧ 0 ≤ p.2 ∧ p.2 < h ∧
      Bounce (w - 1) (o.x + o.dx * t) p.1 ∧ Bounce (h - 1) (o.y + o.dy * t) p.2 := by
  obtain ⟨px, h1, h2⟩ := reflect_ok hw (o.x + o.dx * t)
  obtain ⟨py, h3, h4⟩ := reflect_ok hh (o.y + o.dy * t)
  refine ⟨(px, py), ?_, h2.1, ?_, h4.1, ?_, h2, h4⟩
  · unfold positionAt
    rw [h1, Outcome.bind_ok, h3]
    rfl
  · have := h2.2.1; dsimp only; omega
  · have := h4.2.1; dsimp only; omega

/-- **C49 (determined).** The description of the position by bouncing is unambiguous. -/
theorem c49_unique {n a p q : Int} (hn : 0 < n) (h : Bounce n a p) (h' : Bounce n a q) : p = q := h.unique hn h'

/-- **C49 (start).** An obstacle placed on the grid is where it was placed at time 0. -/
theorem c49_start {w h : Int} (hw : 2 ≤ w) (hh : 2 ≤ h) (o : Obstacle) (hx : 0 ≤ o.x ∧ o.x < w) (hy : 0 ≤ o.y ∧ o.y < h) :
    positionAt o w h 0 = .ok (o.x, o.y) := by
  obtain ⟨p, e, -, -, -, -, h1, h2⟩ := c49_position hw hh o 0
  rw [mul_zero, add_zero] at h1 h2
  rw [e]
  congr 1
  refine Prod.ext (h1.unique (by omega) ⟨hx.1, by omega, .inl (by simp)⟩)
    (h2.unique (by omega) ⟨hy.1, by omega, .inl (by simp)⟩)

/-- **C49 (speed).** Between two times an obstacle moves no further than its speed allows. -/
theorem c49_speed {w h : Int} (hw : 2 ≤ w) (hh : 2 ≤ h) (o : Obstacle) (t t' : Int) {p q : Int × Int}
    (hp : positionAt o w h t = .ok p) (hq : positionAt o w h t' = .ok q) :
    |p.1 - q.1| ≤ |o.dx| * |t - t'| ∧ |p.2 - q.2| ≤ |o.dy| * |t - t'| := by
  obtain ⟨p', e, -, -, -, -, h1, h2⟩ := c49_position hw hh o t
  obtain ⟨q', e', -, -, -, -, h3, h4⟩ := c49_position hw hh o t'
  obtain rfl : p = p' := by rw [hp] at e; exact Outcome.ok.inj e
  obtain rfl : q = q' := by rw [hq] at e'; exact Outcome.ok.inj e'
  have g1 := h1.lipschitz (by omega) h3
  have g2 := h2.lipschitz (by omega) h4
  rw [show o.x + o.dx * t - (o.x + o.dx * t') = o.dx * (t - t') by ring, abs_mul] at g1
  rw [show o.y + o.dy * t - (o.y + o.dy * t') = o.dy * (t - t') by ring, abs_mul] at g2
  exact ⟨g1, g2⟩

/-- **C49 (free running).** Away from the walls an obstacle runs straight: as long as `x + dx t` and `y + dy t` are on the grid,
that is where it is. -/
theorem c49_straight {w h : Int} (hw : 2 ≤ w) (hh : 2 ≤ h) (o : Obstacle) (t : Int)
    (hx : 0 ≤ o.x + o.dx * t ∧ o.x + o.dx * t < w) (hy : 0 ≤ o.y + o.dy * t ∧ o.y + o.dy * t < h) :
    positionAt o w h t = .ok (o.x + o.dx * t, o.y + o.dy * t) := by
  obtain ⟨p, e, -, -, -, -, h1, h2⟩ := c49_position hw hh o t
  rw [e]
  congr 1
  exact Prod.ext (h1.unique (by omega) ⟨hx.1, by omega, .inl (by simp)⟩)
    (h2.unique (by omega) ⟨hy.1, by omega, .inl (by simp)⟩)

/-- **C49 (negation for grids one cell wide or high).** There the computation divides by zero. -/
theorem c49_one_wide_ub (o : Obstacle) (h t : Int) : positionAt o 1 h t = .ub := by
  unfold positionAt reflect
  rfl

theorem c49_one_high_ub (o : Obstacle) {w : Int} (hw : 2 ≤ w) (t : Int) : positionAt o w 1 t = .ub := by
  unfold positionAt
  obtain ⟨px, h1, -⟩ := reflect_ok hw (o.x + o.dx * t)
  rw [h1, Outcome.bind_ok]
  rfl

/-- What taking a step to the point `q` must lead to: back to the start, at time 0, if an obstacle gets there at the same time;
otherwise to `q`, one time step later. -/
def StepTo (I : Inst) (s : State) (q : Int × Int) (s' : State) : Prop :=
  (Hit I (s.t + 1) q ∧ s' = ⟨I.start, 0⟩) ∨ (¬ Hit I (s.t + 1) q ∧ coord I s'.loc = q ∧ s'.t = s.t + 1)

theorem dest_stepTo (hI : InstOk I) {s : State} {m : Move} (hg : OnGrid I (target I s.loc m)) :
    StepTo I s (target I s.loc m) (dest I s m) := by
  unfold dest StepTo
  by_cases hh : Hit I (s.t + 1) (target I s.loc m)
  · rw [if_pos hh]; exact .inl ⟨hh, rfl⟩
  · rw [if_neg hh]; exact .inr ⟨hh, (coord_index_of hI _ hg.1 hg.2.1 hg.2.2.1 hg.2.2.2).2.2, rfl⟩

/-- **C49 (collisions, soundness).** An operator that is offered leads to a point of the grid at distance at most one,
never against an obstacle coming the other way, and goes back to the start exactly if it runs into an obstacle. -/
theorem c49_ops (hI : InstOk I) {s : State} (hs : s.loc < I.w * I.h) {op : Int} (ho : op ∈ (dom I).ops s) :
    ∃ q, OnGrid I q ∧ |q.1 - (coord I s.loc).1| + |q.2 - (coord I s.loc).2| ≤ 1 ∧ ¬ Swap I (s.t + 1) (coord I s.loc) q ∧
      ∃ s', edge I s op = .ok s' ∧ s'.loc < I.w * I.h ∧ StepTo I s q s' := by
  obtain ⟨i, m, rfl, hm, hg, hsw, e, h'⟩ := app_ok hI hs ho
  refine ⟨_, hg, ?_, hsw, _, (edge_spec hI hs hm hg).1, h', dest_stepTo hI hg⟩
  have := (mvs_mem (List.mem_of_getElem? hm)).2
  unfold target
  dsimp only
  rwa [add_sub_cancel_left, add_sub_cancel_left]

theorem mvs_all {dx dy : Int} (h : |dx| + |dy| ≤ 1) : ∃ (i : Nat) (m : Move), mvs[i]? = some m ∧ m.dx = dx ∧ m.dy = dy := by
  have h1 := abs_nonneg dx
  have h2 := abs_nonneg dy
  rcases abs_cases dx with ⟨e, g⟩ | ⟨e, g⟩ <;> rcases abs_cases dy with ⟨e', g'⟩ | ⟨e', g'⟩ <;> rw [e] at h h1 <;> rw [e'] at h h2
  · have : dx = 0 ∧ dy = 0 ∨ dx = 1 ∧ dy = 0 ∨ dx = 0 ∧ dy = 1 := by omega
    rcases this with ⟨rfl, rfl⟩ | ⟨rfl, rfl⟩ | ⟨rfl, rfl⟩
    · exact ⟨4, _, rfl, rfl, rfl⟩
    · exact ⟨3, _, rfl, rfl, rfl⟩
    · exact ⟨0, _, rfl, rfl, rfl⟩
  · have : dx = 0 ∧ dy = -1 := by omega
    rcases this with ⟨rfl, rfl⟩
    exact ⟨1, _, rfl, rfl, rfl⟩
  · have : dx = -1 ∧ dy = 0 := by omega
    rcases this with ⟨rfl, rfl⟩
    exact ⟨2, _, rfl, rfl, rfl⟩
  · omega

/-- **C49 (collisions, completeness).** Every step of length at most one that stays on the grid and does not go against an obstacle
coming the other way is offered. -/
theorem c49_all (hI : InstOk I) {s : State} (hs : s.loc < I.w * I.h) {q : Int × Int} (hq : OnGrid I q)
    (hd : |q.1 - (coord I s.loc).1| + |q.2 - (coord I s.loc).2| ≤ 1) (hsw : ¬ Swap I (s.t + 1) (coord I s.loc) q) :
    ∃ op ∈ (dom I).ops s, ∃ s', edge I s op = .ok s' ∧ StepTo I s q s' := by
  obtain ⟨i, m, hm, h1, h2⟩ := mvs_all hd
  have e : target I s.loc m = q := by
    unfold target
    rw [h1, h2]
    exact Prod.ext (by dsimp only; omega) (by dsimp only; omega)
  have hg : OnGrid I (target I s.loc m) := by rw [e]; exact hq
  refine ⟨i, (mem_ops hI hs _).2 ⟨i, m, rfl, hm, hg, by rw [e]; exact hsw⟩, _, (edge_spec hI hs hm hg).1, ?_⟩
  have := dest_stepTo hI (s := s) hg
  rwa [e] at this

/-- **C49 (the identity operator, negation).** `ident` offers the operator 8, but building its edge reads outside the table
of moves. -/
theorem c49_ident_ub {s : State} (hs : s.loc < I.w * I.h) : edge I s 8 = .ub := by
  unfold edge
  rw [if_neg (by omega), if_neg (by omega)]
  rfl

/-! ## C50 -/

/-- **C50 (partial: from the initial state).** The heuristic of the initial state never exceeds the cost of a plan. -/
theorem c50_initial_partial (hI : InstOk I) {ops : List Int} {ss : List State} {t : State} {c : Int}
    (hp : Plan (dom I) (initialstate I) ops ss c) (ht : (initialstate I :: ss).getLast? = some t)
    (hg : (dom I).goal t = true) : h I (initialstate I) ≤ c := by
  obtain ⟨c', h1, h2⟩ := shorten hI (hp.last_walk ht)
  have := safe_consistent hI (show SOk I (initialstate I) from hI.start) h2
  rw [h_goal hg] at this
  omega

/-- **C50 (partial: plans that never run into an obstacle).** Missing: plans that use the way back to the start as a
shortcut, for which the claim is false (`c50_not_admissible`). -/
theorem c50_safe_partial (hI : InstOk I) {s : State} (hs : s.loc < I.w * I.h) {ops : List Int} {ss : List State} {t : State}
    {c : Int} (hp : Plan ((dom I).restrict (safe I)) s ops ss c) (ht : (s :: ss).getLast? = some t)
    (hg : (dom I).goal t = true) : h I s ≤ c := by
  have := safe_consistent hI hs (hp.last_walk ht)
  rw [h_goal hg] at this
  omega

/-- **C50 (A\*).** Although the heuristic is not admissible, A\* from the initial state returns a cheapest path. -/
theorem c50_astar (hI : InstOk I) {l : Limit} {st : St State Int Int Int} {r : List State × List Int}
    (hr : Run (dom I) (astar (h I)) (initialstate I) l st r) (hne : r ≠ ([], [])) :
    ∃ c, Solution (dom I) (initialstate I) r c ∧ ∀ ops ss t c', Plan (dom I) (initialstate I) ops ss c' →
      (initialstate I :: ss).getLast? = some t → (dom I).goal t = true → c ≤ c' := by
  obtain ⟨c, h1, h2⟩ := c30_restrict (R := safe I) (h := h I) (k := 0) (domOk hI) (fun t c _ _ => h_nonneg t)
    (fun s c0 hw t c hw' hg => by
      have := safe_consistent hI (hw.inv (app_sok hI) hI.start) hw'
      rw [h_goal hg] at this
      exact this) hr hne
  refine ⟨c, h1, fun ops ss t c' hp ht hg => ?_⟩
  obtain ⟨c'', h3, h4⟩ := shorten hI (hp.last_walk ht)
  obtain ⟨os, ss', h5, h6⟩ := h4.plan
  exact (h2 os ss' t c'' h5 (by rw [List.getLast?_eq_some_getLast (by simp), h6]) hg).trans h3

/-! ## Concrete cases -/

/-- The start is next to the goal; a standing obstacle is at the other end of the row. -/
def ex : Inst := ⟨6, 2, [⟨5, 0, 0, 0⟩], 1, 0⟩

theorem exOk : InstOk ex := ⟨by decide, by decide, by decide, by decide⟩

example : positionAt ⟨3, 1, -2, 1⟩ 6 4 7 = .ok (1, 2) := by decide
example : positionAt ⟨3, 1, -2, 1⟩ 6 4 8 = .ok (3, 3) := by decide
example : (dom ex).ops ⟨4, 3⟩ = [0, 2, 3, 4] := by decide
example : edge ex ⟨4, 3⟩ 3 = .ok ⟨1, 0⟩ := by decide
example : edge ex ⟨4, 3⟩ 2 = .ok ⟨3, 4⟩ := by decide

/-- An obstacle coming the other way. -/
def ex2 : Inst := ⟨4, 2, [⟨2, 0, -1, 0⟩], 1, 3⟩

example : (dom ex2).ops (initialstate ex2) = [0, 2, 4] := by decide
example : Swap ex2 1 (1, 0) (2, 0) := ⟨_, List.mem_singleton.2 rfl,
  ⟨⟨by decide, by decide, .inl (by decide)⟩, by decide, by decide, .inl (by decide)⟩,
  ⟨by decide, by decide, .inl (by decide)⟩, by decide, by decide, .inl (by decide)⟩

theorem step {J : Inst} {s t u : State} {c : Int} (hw : Walk (dom J) s t c) (o : Int) (ho : o ∈ (dom J).ops t)
    (e : (dom J).app t o = u) : Walk (dom J) s u (c + 1) := e ▸ hw.snoc ho

theorem ex_walk : Walk (dom ex) (initialstate ex) ⟨4, 3⟩ 3 :=
  step (t := ⟨3, 2⟩) (step (t := ⟨2, 1⟩) (step (.nil _) 3 (by decide) (by decide)) 3 (by decide) (by decide)) 3 (by decide)
    (by decide)

/-- **C50 (negation).** The heuristic is not admissible: four steps from the goal, running into the obstacle and being
taken back to the start, next to the goal, is cheaper. -/
theorem c50_not_admissible : ¬ Admissible (dom ex) (initialstate ex) (h ex) 0 := by
  intro ha
  have hw : Walk (dom ex) ⟨4, 3⟩ ⟨0, 1⟩ 2 :=
    step (t := initialstate ex) (step (.nil _) 3 (by decide) (by decide)) 2 (by decide) (by decide)
  exact absurd (ha.2 ⟨4, 3⟩ 3 ex_walk ⟨0, 1⟩ 2 hw (by decide)) (by decide)

example : ∃ c, Plan (dom ex) (initialstate ex) [2] [⟨0, 1⟩] c :=
  ⟨_, .cons (by decide) (.nil _)⟩

end Verif.Traffic
