import Verif.Structs.Stn

/-!
# Properties of the simple temporal network: C14, C15, C16, C17, C56
-/

namespace Verif.Stn

/-! ## Specification -/

/-- Spec: the meaning of a constraint `a ≤ x_j - x_i ≤ b`, where `inf`/`neginf` mean no bound. -/
def Satisfies (x : Nat → Int) (c : Constraint) : Prop :=
  (c.b = tmax ∨ x c.j - x c.i ≤ c.b) ∧ (c.a = tmin ∨ c.a ≤ x c.j - x c.i)

instance (x : Nat → Int) (c : Constraint) : Decidable (Satisfies x c) := by
  unfold Satisfies; infer_instance

/-- Spec: `x` assigns representable times to nodes `0..num`, puts the origin at 0 and satisfies all
constraints. -/
structure Schedule (num : Nat) (cs : List Constraint) (x : Nat → Int) : Prop where
  rep : ∀ v ≤ num, InR (x v)
  origin : x 0 = 0
  sat : ∀ c ∈ cs, Satisfies x c

/-! ## Bridging lemmas -/

/-- Restrict a schedule to the nodes of the network. -/
def clip (num : Nat) (x : Nat → Int) (v : Nat) : Int := if v ≤ num then x v else 0

theorem clip_arcs {num : Nat} {cs : List Constraint} {x : Nat → Int} (S : Schedule num cs x)
    (hc : ∀ c ∈ cs, ConstrOk (num + 1) c) :
    (∀ v, InR (clip num x v)) ∧ ∀ p q w, ArcOf cs p q w → clip num x q - clip num x p ≤ w := by
  constructor
  · intro v
    unfold clip
    split_ifs with h
    · exact S.rep v h
    · unfold InR; obtain ⟨t1, t2⟩ := tmin_tmax; omega
  · intro p q w ha
    obtain ⟨hp, hq, -⟩ := arc_ok hc ha
    unfold clip
    rw [if_pos (by omega), if_pos (by omega)]
    obtain ⟨c, hm, h⟩ := ha
    obtain ⟨s1, s2⟩ := S.sat c hm
    rcases h with ⟨h, rfl, rfl, rfl⟩ | ⟨h, rfl, rfl, rfl⟩ <;> omega

theorem sol_mk {num : Nat} {cs : List Constraint} {x : Nat → Int} (S : Schedule num cs x)
    (hc : ∀ c ∈ cs, ConstrOk (num + 1) c) : Sol (mk num) cs (clip num x) := by
  obtain ⟨h1, h2⟩ := clip_arcs S hc
  refine ⟨h1, h2, fun v => ?_, fun v => ?_⟩
  · simp only [mk, Function.update_apply]
    split_ifs with e
    · subst e; simp [clip, S.origin]
    · exact (h1 v).1
  · simp only [mk, Function.update_apply]
    split_ifs with e
    · subst e; simp [clip, S.origin]
    · exact (h1 v).2

theorem good_sol {num : Nat} {cs : List Constraint} {net : Net} (g : Good num cs net)
    {x : Nat → Int} (hl : ∀ v, (mk num).lo v ≤ x v) (hh : ∀ v, x v ≤ (mk num).hi v)
    (hr : ∀ v, InR (x v)) (ha : ∀ p q w, ArcOf cs p q w → x q - x p ≤ w) : Sol net cs x := by
  induction g with
  | init => exact ⟨hr, ha, hl, hh⟩
  | @add cs net c net' g hc hadd ih =>
    have S := ih (fun p q w h => ha p q w (arcOf_cons.2 (Or.inl h)))
    obtain ⟨B, C, e⟩ := good_inv g
    rcases add_spec B C (Nat.lt_succ_self _) (e ▸ hc) with ⟨h1, -⟩ | ⟨net2, h1, h2, h3, h4, h5, h6⟩
    · rw [h1] at hadd; simp at hadd
    · rw [h1] at hadd
      simp only [Outcome.ok.injEq, Prod.mk.injEq, true_and] at hadd
      subst hadd
      exact h6 x ⟨S.rep, ha, S.lo, S.hi⟩

/-! ## Calls return -/

/-- Every legal call on a reachable network returns normally: the recursive propagation ends and
no assertion of `undo` fails. -/
theorem c14_calls_return {num : Nat} {h : List (Op × Bool)} {net : Net} (r : Reach num h net)
    {op : Op} (hl : Legal num h op) : ∃ b net', exec net op = .ok (b, net') := by
  have g := reach_good r
  obtain ⟨B, C, e⟩ := good_inv g
  cases op with
  | add c =>
    rcases add_spec B C (Nat.lt_succ_self _) (e ▸ hl : ConstrOk net.n c) with ⟨h1, -⟩ | ⟨net2, h1, -⟩
    · exact ⟨_, _, h1⟩
    · exact ⟨_, _, h1⟩
  | undo =>
    simp only [Legal] at hl
    cases hcs : active h with
    | nil => exact absurd hcs hl
    | cons c cs =>
      rw [hcs] at g
      obtain ⟨net0, h3, -⟩ := good_undo g
      exact ⟨true, net0, by simp [exec, h3]⟩

/-! ## C14 -/

/-- C14: a rejected constraint leaves the network exactly as it was (all arcs, all bounds and the
undo stack). -/
theorem c14_rejected_unchanged {num : Nat} {h : List (Op × Bool)} {net net' : Net}
    (r : Reach num h net) {c : Constraint} (hl : Legal num h (.add c))
    (he : exec net (.add c) = .ok (false, net')) : net' = net := by
  obtain ⟨B, C, e⟩ := good_inv (reach_good r)
  rcases add_spec B C (Nat.lt_succ_self _) (e ▸ hl : ConstrOk net.n c) with ⟨h1, -⟩ | ⟨net2, h1, -⟩
  · simp only [exec] at he
    rw [h1] at he
    simp only [Outcome.ok.injEq, Prod.mk.injEq, true_and] at he
    exact he.symm
  · simp only [exec] at he
    rw [h1] at he
    simp at he

/-- C14: `undo` after an accepted constraint restores exactly the previous network. -/
theorem c14_undo_restores {num : Nat} {h : List (Op × Bool)} {net net' : Net}
    (r : Reach num h net) {c : Constraint} (hl : Legal num h (.add c))
    (he : exec net (.add c) = .ok (true, net')) : exec net' .undo = .ok (true, net) := by
  obtain ⟨B, C, e⟩ := good_inv (reach_good r)
  rcases add_spec B C (Nat.lt_succ_self _) (e ▸ hl : ConstrOk net.n c) with
    ⟨h1, -⟩ | ⟨net2, h1, -, -, -, h2, -⟩
  · simp only [exec] at he
    rw [h1] at he
    simp at he
  · simp only [exec] at he
    rw [h1] at he
    simp only [Outcome.ok.injEq, Prod.mk.injEq, true_and] at he
    subst he
    simp [exec, h2]

/-- C14, nested: however additions and undos were interleaved, the network is determined by the
constraints in force. -/
theorem c14_state_of_active {num : Nat} {h1 h2 : List (Op × Bool)} {net1 net2 : Net}
    (r1 : Reach num h1 net1) (r2 : Reach num h2 net2) (e : active h1 = active h2) : net1 = net2 :=
  good_unique (reach_good r1) (e ▸ reach_good r2)

/-- C14: `undo` with nothing to undo is undefined. -/
theorem c14_undo_empty_ub {num : Nat} {h : List (Op × Bool)} {net : Net} (r : Reach num h net)
    (he : active h = []) : exec net .undo = .ub := by
  have g := reach_good r
  rw [he] at g
  cases g
  rfl

/-! ## C15 -/

/-- In a reachable network the clamping of the bounds never hides a violated constraint: an arc
whose lower bound saturates would push an upper bound below the lower bound. -/
theorem arcs_hold {cs : List Constraint} {net : Net} (B : Base cs net) (C : Closed net) {p q : Nat}
    {w : Int} (ha : ArcOf cs p q w) : net.lo q - net.lo p ≤ w ∧ net.hi q - net.hi p ≤ w := by
  have hl := C.lo q (p, w) ((B.inns q p w).2 ha)
  have hh := C.hi p (q, w) ((B.outs p q w).2 ha)
  obtain ⟨-, -, hw⟩ := arc_ok B.cok ha
  simp only [Relaxed] at hl hh
  rw [subclamp_eq (B.loR q) hw] at hl
  rw [addclamp_eq (B.hiR p) hw] at hh
  simp only [btLo, btHi, decide_eq_false_iff_not] at hl hh
  have h1 := B.loR q
  have h2 := B.loR p
  have h3 := B.hiR q
  have h4 := B.hiR p
  have h5 := B.le p
  have h6 := B.le q
  unfold InR at *
  obtain ⟨t1, t2⟩ := tmin_tmax
  omega

theorem schedule_of_arcs {num : Nat} {cs : List Constraint} {x : Nat → Int}
    (hr : ∀ v, InR (x v)) (h0 : x 0 = 0) (hc : ∀ c ∈ cs, ConstrOk (num + 1) c)
    (arcs : ∀ p q w, ArcOf cs p q w → x q - x p ≤ w) : Schedule num cs x := by
  refine ⟨fun v _ => hr v, h0, fun c hm => ⟨?_, ?_⟩⟩
  · by_cases hb : c.b = tmax
    · exact Or.inl hb
    · right
      have := (hc c hm).2.2.2
      unfold InR at this
      exact arcs _ _ _ ⟨c, hm, Or.inl ⟨by omega, rfl, rfl, rfl⟩⟩
  · by_cases ha : c.a = tmin
    · exact Or.inl ha
    · right
      have := (hc c hm).2.2.1
      unfold InR at this
      have := arcs c.j c.i (-c.a) ⟨c, hm, Or.inr ⟨by omega, rfl, rfl, rfl⟩⟩
      omega

/-- C15: the reported lower bounds satisfy all constraints in force. -/
theorem c15_lower_is_schedule {num : Nat} {h : List (Op × Bool)} {net : Net} (r : Reach num h net) :
    Schedule num (active h) net.lo := by
  obtain ⟨B, C, e⟩ := good_inv (reach_good r)
  exact schedule_of_arcs B.loR B.lo0 (e ▸ B.cok) fun _ _ _ ha => (arcs_hold B C ha).1

/-- C15 for the latest times. -/
theorem c15_upper_is_schedule {num : Nat} {h : List (Op × Bool)} {net : Net} (r : Reach num h net) :
    Schedule num (active h) net.hi := by
  obtain ⟨B, C, e⟩ := good_inv (reach_good r)
  exact schedule_of_arcs B.hiR B.hi0 (e ▸ B.cok) fun _ _ _ ha => (arcs_hold B C ha).2

/-! ## C16 -/

/-- C16: a rejected constraint has no schedule together with the constraints in force. -/
theorem c16_rejected_inconsistent {num : Nat} {h : List (Op × Bool)} {net net' : Net}
    (r : Reach num h net) {c : Constraint} (hl : Legal num h (.add c))
    (he : exec net (.add c) = .ok (false, net')) : ¬ ∃ x, Schedule num (c :: active h) x := by
  rintro ⟨x, S⟩
  have g := reach_good r
  obtain ⟨B, C, e⟩ := good_inv g
  have hcs : ∀ d ∈ c :: active h, ConstrOk (num + 1) d := by
    intro d hd
    rcases List.mem_cons.1 hd with rfl | hd
    · exact hl
    · exact e ▸ B.cok d hd
  have S0 := sol_mk S hcs
  have S1 := good_sol g S0.lo S0.hi S0.rep (fun p q w h => S0.arcs p q w (arcOf_cons.2 (Or.inl h)))
  rcases add_spec B C (Nat.lt_succ_self _) (e ▸ hl : ConstrOk net.n c) with ⟨-, h1⟩ | ⟨net2, h1, -⟩
  · exact h1 ⟨_, S1.rep, S0.arcs, S1.lo, S1.hi⟩
  · simp only [exec] at he
    rw [h1] at he
    simp at he

/-! ## C17 -/

/-- C17: every schedule lies between the reported bounds. -/
theorem c17_bounds {num : Nat} {h : List (Op × Bool)} {net : Net} (r : Reach num h net)
    {x : Nat → Int} (S : Schedule num (active h) x) :
    ∀ v ≤ num, net.lo v ≤ x v ∧ x v ≤ net.hi v := by
  have g := reach_good r
  obtain ⟨B, C, e⟩ := good_inv g
  have S0 := sol_mk S (fun d hd => e ▸ B.cok d hd)
  have S1 := good_sol g S0.lo S0.hi S0.rep S0.arcs
  intro v hv
  have h1 := S1.lo v
  have h2 := S1.hi v
  simp only [clip, if_pos hv] at h1 h2
  exact ⟨h1, h2⟩

/-- C17: the bounds are ordered, and those of the origin are 0. -/
theorem c17_bounds_ordered {num : Nat} {h : List (Op × Bool)} {net : Net} (r : Reach num h net) :
    (∀ v, net.lo v ≤ net.hi v) ∧ net.lo 0 = 0 ∧ net.hi 0 = 0 := by
  obtain ⟨B, -, -⟩ := good_inv (reach_good r)
  exact ⟨B.le, B.lo0, B.hi0⟩

/-- C15 and C16: a constraint is accepted exactly when it has a schedule together with the
constraints in force. -/
theorem c16_accept_iff {num : Nat} {h : List (Op × Bool)} {net : Net} (r : Reach num h net)
    {c : Constraint} (hl : Legal num h (.add c)) {b : Bool} {net' : Net}
    (he : exec net (.add c) = .ok (b, net')) :
    b = true ↔ ∃ x, Schedule num (c :: active h) x := by
  constructor
  · rintro rfl
    exact ⟨_, c15_lower_is_schedule (.step r hl he)⟩
  · intro hx
    cases b with
    | true => rfl
    | false => exact absurd hx (c16_rejected_inconsistent r hl he)

/-- C17: the bounds are tight: each is the time of the node in some schedule. -/
theorem c17_tight {num : Nat} {h : List (Op × Bool)} {net : Net} (r : Reach num h net) (v : Nat) :
    (∃ x, Schedule num (active h) x ∧ x v = net.lo v) ∧
    ∃ x, Schedule num (active h) x ∧ x v = net.hi v :=
  ⟨⟨_, c15_lower_is_schedule r, rfl⟩, _, c15_upper_is_schedule r, rfl⟩

/-! ## C56: the named constraints -/

/-- stn.hpp:35-38 `Before`. -/
def before (i j : Nat) (a : Int) : Constraint := ⟨i, j, a, tmax⟩
/-- stn.hpp:40-43 `After`. -/
def after (i j : Nat) (a : Int) : Constraint := ⟨i, j, a, tmax⟩
/-- stn.hpp:45-48 `NoEarlier`. -/
def noEarlier (i : Nat) (t : Int) : Constraint := ⟨0, i, t, tmax⟩
/-- stn.hpp:50-53 `NoLater`. -/
def noLater (i : Nat) (t : Int) : Constraint := ⟨0, i, tmin, t⟩
/-- stn.hpp:55-58 `InWindow`. -/
def inWindow (i : Nat) (s e : Int) : Constraint := ⟨0, i, s, e⟩

/-- C56, for all but `After`: each named constraint means what its name says, for a schedule with
the origin at 0 and finite bounds. -/
theorem c56_named_partial {x : Nat → Int} (h0 : x 0 = 0) {i j : Nat} {a s e : Int}
    (ha : a ≠ tmin) (hs : s ≠ tmin) (he : e ≠ tmax) :
    (Satisfies x (before i j a) ↔ x i + a ≤ x j) ∧
    (Satisfies x (noEarlier i s) ↔ s ≤ x i) ∧
    (Satisfies x (noLater i e) ↔ x i ≤ e) ∧
    (Satisfies x (inWindow i s e) ↔ s ≤ x i ∧ x i ≤ e) := by
  simp only [Satisfies, before, noEarlier, noLater, inWindow, ha, hs, he, h0]
  refine ⟨?_, ?_, ?_, ?_⟩ <;> simp <;> omega

/-- C56: `After(i, j, a)` does not say that `i` is at least `a` after `j`; it is the same
constraint as `Before(i, j, a)`. -/
theorem c56_after_is_before (i j : Nat) (a : Int) : after i j a = before i j a ∧
    ∃ x : Nat → Int, x 0 = 0 ∧ Satisfies x (after 1 2 5) ∧ ¬ x 2 + 5 ≤ x 1 :=
  ⟨rfl, fun v => if v = 2 then 5 else 0, by decide, by decide, by decide⟩

/-! ## Examples -/

def demoOps : List Op :=
  [.add (inWindow 1 10 20), .add (before 1 2 5), .add (noLater 2 30), .add ⟨2, 1, 0, 100⟩,
   .add ⟨1, 2, tmin, 8⟩, .add (noEarlier 2 40), .undo]

/-- A history with accepted and rejected constraints and an undo. -/
example : ∃ h net, Reach 2 h net ∧ active h = [noLater 2 30, before 1 2 5, inWindow 1 10 20] ∧
    h.map Prod.snd = [true, false, true, false, true, true, true] ∧
    (net.lo 1, net.hi 1, net.lo 2, net.hi 2) = (10, 20, 15, 30) := by
  have key : ((runOps 2 demoOps [] (mk 2)).map fun p =>
      (active p.1, p.1.map Prod.snd, ((p.2.lo 1, p.2.hi 1, p.2.lo 2, p.2.hi 2) : Int × Int × Int × Int))) =
      some ([noLater 2 30, before 1 2 5, inWindow 1 10 20],
        [true, false, true, false, true, true, true], (10, 20, 15, 30)) := by decide +kernel
  cases hr : runOps 2 demoOps [] (mk 2) with
  | none => rw [hr] at key; simp at key
  | some p =>
    rw [hr] at key
    simp only [Option.map_some, Option.some.injEq, Prod.mk.injEq] at key
    exact ⟨p.1, p.2, reach_of_runOps .init hr, key.1, key.2.1,
      by rw [Prod.mk.injEq, Prod.mk.injEq, Prod.mk.injEq]; exact key.2.2⟩

/-- Values at the limits of the time type: the bounds of node 2 would saturate, and the constraint
is rejected. -/
example : ∃ h net net', Reach 2 h net ∧ active h = [noEarlier 1 tmax] ∧ net.lo 1 = tmax ∧
    Legal 2 h (.add (before 1 2 1)) ∧ exec net (.add (before 1 2 1)) = .ok (false, net') := by
  have key : ((runOps 2 [.add (noEarlier 1 tmax), .add (before 1 2 1)] [] (mk 2)).map fun p =>
      (p.1, p.2.lo 1)) =
      some ([(.add (before 1 2 1), false), (.add (noEarlier 1 tmax), true)], tmax) := by decide +kernel
  cases hr : runOps 2 [.add (noEarlier 1 tmax), .add (before 1 2 1)] [] (mk 2) with
  | none => rw [hr] at key; simp at key
  | some p =>
    rw [hr] at key
    simp only [Option.map_some, Option.some.injEq, Prod.mk.injEq] at key
    have hr2 := reach_of_runOps .init hr
    rw [key.1] at hr2
    cases hr2 with
    | step r hl he =>
      have := c14_rejected_unchanged r hl he
      rw [← this] at r he
      exact ⟨_, _, _, r, rfl, key.2, hl, he⟩

end Verif.Stn
