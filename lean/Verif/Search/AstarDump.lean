import Verif.Search.Tight

/-!
# search/astar-dump.hpp: A* that prints rows about the nodes of the solution

The search is A* (lines 67-88, 125-181 are astar.hpp's with three more fields of a node), so its state is that of the
model of A* together with the additional fields.  Numbers are exact: `Cost` and the `double` sums of `dumpgoal` do not
round, the `unsigned int` depth does not wrap around.
-/

namespace Verif.Search

variable {S O C P : Type*}

/-- The fields `depth`, `inedge` and `d` of a node (astar-dump.hpp:20-21). -/
structure Extra (C : Type*) where
  depth : Nat
  inedge : C
  d : C

/-- A state of the search. -/
structure DSt (S O C : Type*) where
  st : St S O C C
  ex : Nat → Extra C

/-- A row of the output (astar-dump.hpp:99): `g`, `h`, `D`, `d`, `h*`, `d*`. -/
structure Row (C : Type*) where
  g : C
  h : C
  D : Nat
  d : C
  hstar : C
  dstar : Nat
  deriving DecidableEq, Repr

section Model
variable [DecidableEq S] [DecidableEq O] [AddCommGroup C] [LinearOrder C]

/-- astar-dump.hpp:183-195 `init` and 71-73. -/
def dinit (d : Dom S O C) (h dist : S → C) (s0 : S) : DSt S O C where
  st := init d (astar h) s0
  ex := fun _ => ⟨0, 0, dist s0⟩

/-- astar-dump.hpp:137-181 `considerkid`: a better duplicate gets the depth and the edge cost (157-158) but keeps its
`d`; a new node gets all three (141, 143, 174). -/
def dkid (d : Dom S O C) (h dist : S → C) (n : Nat) (op : O) (x : DSt S O C) : DSt S O C where
  st := considerkid d (astar h) n op x.st
  ex :=
    let par := x.st.nd n
    let t := d.app par.state op
    let e := d.cost par.state op
    match x.st.closed t with
    | some k =>
      if (x.st.nd k).g ≤ par.g + e then x.ex
      else Function.update x.ex k ⟨(x.ex n).depth + 1, e, (x.ex k).d⟩
    | none => Function.update x.ex x.st.next ⟨(x.ex n).depth + 1, e, dist t⟩

/-- astar-dump.hpp:129-134: the body of the loop of `expand`. -/
def dtry (d : Dom S O C) (h dist : S → C) (n : Nat) (x : DSt S O C) (o : O) : DSt S O C :=
  if o = (x.st.nd n).pop then x
  else dkid d h dist n o { x with st := { x.st with gend := x.st.gend + 1 } }

/-- astar-dump.hpp:125-135 `expand`. -/
def dexpand (d : Dom S O C) (h dist : S → C) (n : Nat) (x : DSt S O C) : DSt S O C :=
  (d.ops (x.st.nd n).state).foldl (dtry d h dist n) { x with st := { x.st with expd := x.st.expd + 1 } }

/-- `open.pop()`. -/
def dpop (n : Nat) (x : DSt S O C) : DSt S O C := { x with st := pop n x.st }

/-- astar-dump.hpp:75-86: the states of the loop under the limits `l`. -/
inductive DReach (d : Dom S O C) (h dist : S → C) (s0 : S) (l : Limit) : DSt S O C → Prop
  | init : DReach d h dist s0 l (dinit d h dist s0)
  | step {x : DSt S O C} {n : Nat} : DReach d h dist s0 l x → ¬ l.reached x.st → Least (astar h) x.st n →
      d.goal (x.st.nd n).state = false → DReach d h dist s0 l (dexpand d h dist n (dpop n x))

/-- astar-dump.hpp:98-114 `dumpgoal`, from node `n` on with `hstar` and `dstar` summed so far; the loop follows parent
pointers, `fuel` bounds the number of iterations. -/
def dumpgoal (x : DSt S O C) : Nat → Nat → C → Nat → Outcome (List (Row C))
  | 0, _, _, _ => .nofuel
  | fuel + 1, n, hstar, dstar =>
    let v := x.st.nd n
    let row : Row C := ⟨v.g, v.p - v.g, (x.ex n).depth, (x.ex n).d, hstar, dstar⟩
    match v.parent with
    | none => .ok [row]
    | some m => (dumpgoal x fuel m (hstar + (x.ex n).inedge) (dstar + 1)).map (row :: ·)

/-- astar-dump.hpp:67-88 `search`: a run ends in state `x` with the path and operators `r` and the rows `rs`. -/
inductive DRun (d : Dom S O C) (h dist : S → C) (s0 : S) (l : Limit) :
    DSt S O C → List S × List O → List (Row C) → Prop
  | empty {x : DSt S O C} : DReach d h dist s0 l x → Empty x.st → DRun d h dist s0 l x ([], []) []
  | cut {x : DSt S O C} : DReach d h dist s0 l x → DRun d h dist s0 l x ([], []) []
  | found {x : DSt S O C} {n fuel : Nat} {r : List S × List O} {rs : List (Row C)} : DReach d h dist s0 l x →
      ¬ l.reached x.st → Least (astar h) x.st n → d.goal (x.st.nd n).state = true →
      solpath (pop n x.st).nd fuel n = .ok r → dumpgoal (dpop n x) fuel n 0 0 = .ok rs →
      DRun d h dist s0 l (dpop n x) r rs

end Model

section Proofs
variable [DecidableEq S] [DecidableEq O] [AddCommGroup C] [LinearOrder C] [IsOrderedAddMonoid C]
  {d : Dom S O C} {h dist : S → C} {s0 : S}

theorem dkid_st (n : Nat) (o : O) (x : DSt S O C) :
    (dkid d h dist n o x).st = considerkid d (astar h) n o x.st := rfl

theorem dtry_st (n : Nat) (o : O) (x : DSt S O C) : (dtry d h dist n x o).st = tryop d (astar h) n x.st o := by
  unfold dtry tryop
  split <;> rfl

theorem dfold_st (n : Nat) (os : List O) (x : DSt S O C) :
    (os.foldl (dtry d h dist n) x).st = os.foldl (tryop d (astar h) n) x.st := by
  induction os generalizing x with
  | nil => rfl
  | cons o os ih => rw [List.foldl_cons, List.foldl_cons, ih, dtry_st]

theorem dexpand_st (n : Nat) (x : DSt S O C) : (dexpand d h dist n x).st = expand d (astar h) n x.st := dfold_st n _ _

/-- The search is that of A*. -/
theorem DReach.reachL {l : Limit} {x : DSt S O C} (hr : DReach d h dist s0 l x) : ReachL d (astar h) s0 l x.st := by
  induction hr with
  | init => exact .init
  | step _ h1 h2 h3 ih =>
    rw [dexpand_st]
    exact .step ih h1 (.mk h2 h3)

/-- The additional fields. -/
structure XInv (d : Dom S O C) (dist : S → C) (x : DSt S O C) : Prop where
  root : (x.ex 0).depth = 0
  dist : ∀ i < x.st.next, (x.ex i).d = dist (x.st.nd i).state
  edge : ∀ i < x.st.next, ∀ j, Par x.st.nd j i → (x.ex i).inedge = d.cost (x.st.nd j).state (x.st.nd i).op
  depth : ∀ i < x.st.next, ∀ j, Par x.st.nd j i → Exact d x.st.nd j i → (x.ex i).depth = (x.ex j).depth + 1

/-- The fields of `k` after hanging it below `n`. -/
theorem XInv.hang {x x' : DSt S O C} {n k : Nat} {rem : List O} {o : O} (hx : InvX d (astar h) s0 x.st n rem)
    (hi : XInv d dist x) (hh : Hang x.st.nd x'.st.nd k n) (h0 : k ≠ 0)
    (hk : (k < x.st.next ∧ x'.st.next = x.st.next ∧ (x'.st.nd k).state = (x.st.nd k).state ∧
      (x'.st.nd k).g < (x.st.nd k).g) ∨ (k = x.st.next ∧ x'.st.next = x.st.next + 1))
    (hex : ∀ i, i ≠ k → x'.ex i = x.ex i) (hdep : (x'.ex k).depth = (x.ex n).depth + 1)
    (hedge : (x'.ex k).inedge = d.cost (x.st.nd n).state o) (hop : (x'.st.nd k).op = o)
    (hdist : (x'.ex k).d = dist (x'.st.nd k).state) : XInv d dist x' := by
  have hkn : n ≠ k := fun e => hh.not (.inl e.symm)
  have hlt : ∀ i < x'.st.next, i ≠ k → i < x.st.next := fun i hi hik => by
    rcases hk with ⟨_, e, _⟩ | ⟨e1, e2⟩
    · omega
    · omega
  refine ⟨by rw [hex 0 h0.symm]; exact hi.root, ?_, ?_, ?_⟩
  · intro i hi'
    by_cases e : i = k
    · rw [e]; exact hdist
    · rw [hex i e, hh.ne i e]; exact hi.dist i (hlt i hi' e)
  · intro i hi' j hp
    by_cases e : i = k
    · subst e
      rw [Par, hh.par] at hp
      injection hp with hp
      subst hp
      rw [hedge, hop, hh.ne n hkn]
    · rw [Par, hh.ne i e] at hp
      have h1 := hi.edge i (hlt i hi' e) j hp
      rw [hex i e, hh.ne i e]
      by_cases ej : j = k
      · subst ej
        rcases hk with ⟨-, -, e3, -⟩ | ⟨e1, -⟩
        · rw [e3]; exact h1
        · have := (hx.parOk (hlt i hi' e) hp).1
          omega
      · rw [hh.ne j ej]; exact h1
  · intro i hi' j hp he
    by_cases e : i = k
    · subst e
      rw [Par, hh.par] at hp
      injection hp with hp
      subst hp
      rw [hdep, hex n hkn]
    · rw [Par, hh.ne i e] at hp
      rw [hex i e]
      by_cases ej : j = k
      · subst ej
        exfalso
        have h1 := hx.parOk (hlt i hi' e) hp
        rcases hk with ⟨-, -, e3, e4⟩ | ⟨e1, -⟩
        · rw [Exact, hh.ne i e, e3] at he
          rw [← he] at h1
          have := (add_le_add_iff_right _).1 h1.2.2.2.2
          exact absurd this (not_le.2 e4)
        · have := h1.1
          omega
      · rw [Exact, hh.ne i e, hh.ne j ej] at he
        rw [hex j ej]
        exact hi.depth i (hlt i hi' e) j hp he

theorem xinv_kid (hd : CostOk d s0) {x : DSt S O C} {n : Nat} {rem : List O} {o : O}
    (hx : InvX d (astar h) s0 x.st n rem) (ho : o ∈ d.ops (x.st.nd n).state) (hi : XInv d dist x) :
    XInv d dist (dkid d h dist n o x) := by
  have hcost := hd _ _ (hx.walk n hx.lt) _ ho
  cases hc : x.st.closed (d.app (x.st.nd n).state o) with
  | some k =>
    obtain ⟨hk1, hk2⟩ := hx.cl2 _ _ hc
    by_cases hle : (x.st.nd k).g ≤ (x.st.nd n).g + d.cost (x.st.nd n).state o
    · have e1 : (dkid d h dist n o x).ex = x.ex := by
        unfold dkid
        dsimp only
        rw [hc]
        dsimp only
        rw [if_pos hle]
      have e2 : (dkid d h dist n o x).st = { x.st with dups := x.st.dups + 1 } := by
        rw [dkid_st]
        unfold considerkid
        dsimp only
        rw [hc]
        dsimp only
        rw [if_pos (.inr hle)]
      refine ⟨?_, ?_, ?_, ?_⟩
      · rw [e1]; exact hi.root
      · rw [e1, e2]; exact hi.dist
      · rw [e1, e2]; exact hi.edge
      · rw [e1, e2]; exact hi.depth
    · have e1 : (dkid d h dist n o x).ex = Function.update x.ex k
          ⟨(x.ex n).depth + 1, d.cost (x.st.nd n).state o, (x.ex k).d⟩ := by
        unfold dkid
        dsimp only
        rw [hc]
        dsimp only
        rw [if_neg hle]
      have hle' : ¬ ((astar h : Alg S C C).dropdups = true ∨
          (x.st.nd k).g ≤ (x.st.nd n).g + d.cost (x.st.nd n).state o) := by
        rw [not_or]; exact ⟨by simp [astar], hle⟩
      have hnd : ∃ p, (dkid d h dist n o x).st.nd = Function.update x.st.nd k
          ⟨(x.st.nd k).state, (x.st.nd n).g + d.cost (x.st.nd n).state o, p, some n, o,
            d.rev (x.st.nd n).state o, true⟩ ∧ (dkid d h dist n o x).st.next = x.st.next := by
        rw [dkid_st]
        unfold considerkid
        dsimp only
        rw [hc]
        dsimp only
        rw [if_neg hle']
        exact ⟨_, rfl, rfl⟩
      obtain ⟨p, e2, e3⟩ := hnd
      rw [not_le] at hle
      have hsub : ¬ Sub x.st.nd k n := by
        intro hs
        have h1 : (x.st.nd k).g ≤ (x.st.nd n).g := by
          rcases hs with rfl | hs
          · exact le_rfl
          · exact (hx.anc_le hd hx.lt hs).2
        exact absurd (lt_of_lt_of_le hle h1) (not_lt.2 (le_add_of_nonneg_right hcost))
      have hk0 : k ≠ 0 := by
        rintro rfl
        rw [hx.root.2.2.1] at hle
        have h2 := (hx.walk n hx.lt).nonneg hd
        exact absurd hle (not_lt.2 (add_nonneg h2 hcost))
      refine hi.hang (k := k) (n := n) (o := o) hx ⟨fun i hi => by rw [e2, Function.update_of_ne hi], ?_, hsub⟩ hk0
        (.inl ⟨hk1, e3, ?_, ?_⟩) (fun i hi => by rw [e1, Function.update_of_ne hi]) ?_ ?_ ?_ ?_
      · rw [e2, Function.update_self]
      · rw [e2, Function.update_self]
      · rw [e2, Function.update_self]; exact hle
      · rw [e1, Function.update_self]
      · rw [e1, Function.update_self]
      · rw [e2, Function.update_self]
      · rw [e1, e2, Function.update_self, Function.update_self]
        exact hi.dist k hk1
  | none =>
    have e1 : (dkid d h dist n o x).ex = Function.update x.ex x.st.next
        ⟨(x.ex n).depth + 1, d.cost (x.st.nd n).state o, dist (d.app (x.st.nd n).state o)⟩ := by
      unfold dkid
      dsimp only
      rw [hc]
    have hnd : ∃ p, (dkid d h dist n o x).st.nd = Function.update x.st.nd x.st.next
        ⟨d.app (x.st.nd n).state o, (x.st.nd n).g + d.cost (x.st.nd n).state o, p, some n, o,
          d.rev (x.st.nd n).state o, true⟩ ∧ (dkid d h dist n o x).st.next = x.st.next + 1 := by
      rw [dkid_st]
      unfold considerkid
      dsimp only
      rw [hc]
      exact ⟨_, rfl, rfl⟩
    obtain ⟨p, e2, e3⟩ := hnd
    have hsub : ¬ Sub x.st.nd x.st.next n := by
      rintro (e | hs)
      · have := hx.lt
        omega
      · have := (hx.anc_le hd hx.lt hs).1
        omega
    have hk0 : x.st.next ≠ 0 := fun e => by have := hx.pos; omega
    refine hi.hang (k := x.st.next) (n := n) (o := o) hx ⟨fun i hi => by rw [e2, Function.update_of_ne hi], ?_, hsub⟩
      hk0 (.inr ⟨rfl, e3⟩) (fun i hi => by rw [e1, Function.update_of_ne hi]) ?_ ?_ ?_ ?_
    · rw [e2, Function.update_self]
    · rw [e1, Function.update_self]
    · rw [e1, Function.update_self]
    · rw [e2, Function.update_self]
    · rw [e1, e2, Function.update_self, Function.update_self]

theorem xinv_fold (hd : CostOk d s0) (os : List O) {x : DSt S O C} {n : Nat} (hx : InvX d (astar h) s0 x.st n os)
    (ho : ∀ o ∈ os, o ∈ d.ops (x.st.nd n).state) (hi : XInv d dist x) :
    XInv d dist (os.foldl (dtry d h dist n) x) := by
  induction os generalizing x with
  | nil => exact hi
  | cons o os ih =>
    rw [List.foldl_cons]
    have h1 := invX_tryop hd (astar_ok h) hx (ho o (by simp))
    rw [← dtry_st (dist := dist)] at h1
    refine ih h1 (fun o' ho' => ?_) ?_
    · rw [dtry_st, tryop_state hx.lt]
      exact ho o' (by simp [ho'])
    · unfold dtry
      split
      · exact hi
      · exact xinv_kid hd (hx.stats x.st.expd (x.st.gend + 1) x.st.dups x.st.reopnd) (ho o (by simp))
          ⟨hi.root, hi.dist, hi.edge, hi.depth⟩

theorem XInv.popped {x : DSt S O C} {n : Nat} (hi : XInv d dist x) : XInv d dist (dpop n x) := by
  have e1 : ∀ i, ((pop n x.st).nd i).g = (x.st.nd i).g ∧ ((pop n x.st).nd i).state = (x.st.nd i).state ∧
      ((pop n x.st).nd i).op = (x.st.nd i).op ∧ ((pop n x.st).nd i).parent = (x.st.nd i).parent := fun i => by
    unfold pop
    dsimp only
    by_cases e : i = n
    · rw [e, Function.update_self]; exact ⟨rfl, rfl, rfl, rfl⟩
    · rw [Function.update_of_ne e]; exact ⟨rfl, rfl, rfl, rfl⟩
  refine ⟨hi.root, fun i hl => ?_, fun i hl j hp => ?_, fun i hl j hp he => ?_⟩
  · show (x.ex i).d = dist ((pop n x.st).nd i).state
    rw [(e1 i).2.1]; exact hi.dist i hl
  · have hp' : (x.st.nd i).parent = some j := (e1 i).2.2.2 ▸ hp
    show (x.ex i).inedge = d.cost ((pop n x.st).nd j).state ((pop n x.st).nd i).op
    rw [(e1 j).2.1, (e1 i).2.2.1]
    exact hi.edge i hl j hp'
  · have hp' : (x.st.nd i).parent = some j := (e1 i).2.2.2 ▸ hp
    refine hi.depth i hl j hp' ?_
    have he' : ((pop n x.st).nd j).g + d.cost ((pop n x.st).nd j).state ((pop n x.st).nd i).op =
      ((pop n x.st).nd i).g := he
    rw [(e1 j).1, (e1 j).2.1, (e1 i).1, (e1 i).2.2.1] at he'
    exact he'

theorem xinv_reach (hd : CostOk d s0) {l : Limit} {x : DSt S O C} (hr : DReach d h dist s0 l x) : XInv d dist x := by
  induction hr with
  | init =>
    refine ⟨rfl, fun _ _ => rfl, fun i _ j hp => ?_, fun i _ j hp => ?_⟩
    · exact absurd (show (none : Option Nat) = some j from hp) (by simp)
    · exact absurd (show (none : Option Nat) = some j from hp) (by simp)
  | @step x n hr h1 h2 h3 ih =>
    have hinv := inv_reach hd (astar_ok h) hr.reachL.reach
    have hst : ((pop n x.st).nd n).state = (x.st.nd n).state := by
      unfold pop
      dsimp only
      rw [Function.update_self]
    have hx := (hinv.popped h2.1 h3).stats (x.st.expd + 1) x.st.gend x.st.dups x.st.reopnd
    have ihp := ih.popped (n := n)
    have := xinv_fold (dist := dist) hd (d.ops (x.st.nd n).state)
      (x := { dpop n x with st := { pop n x.st with expd := x.st.expd + 1 } }) hx (fun o ho => by
        show o ∈ d.ops ((pop n x.st).nd n).state
        rw [hst]; exact ho) ⟨ihp.root, ihp.dist, ihp.edge, ihp.depth⟩
    unfold dexpand
    rw [show (dpop n x).st = pop n x.st from rfl, hst]
    exact this

/-- What row `i` says, when the rows are those of the path `r` from node `n` on, printed after `os`. -/
structure RowOk (d : Dom S O C) (h dist : S → C) (s0 : S) (r : List S × List O) (os : List O) (ss : List S) (i : Nat)
    (s : S) (row : Row C) : Prop where
  hval : row.h = h s
  dval : row.d = dist s
  depth : row.D + i + 1 = r.1.length
  dstar : row.dstar = i + os.length
  hstar : Plan d s ((r.2.take i).reverse ++ os) ((r.1.take i).reverse ++ ss) row.hstar
  g : ∃ ss', (r.1.drop i).reverse = s0 :: ss' ∧ Plan d s0 (r.2.drop i).reverse ss' row.g

theorem dumpgoal_ok {x : DSt S O C} (hinv : Inv d (astar h) s0 x.st) (hi : XInv d dist x) {n : Nat}
    (hn : n < x.st.next) (hex : ∀ j i, Par x.st.nd j i → Sub x.st.nd i n → Exact d x.st.nd j i) {fuel : Nat}
    {r : List S × List O} {rs : List (Row C)} {os : List O} {ss : List S} {c : C}
    (hp : Plan d (x.st.nd n).state os ss c) (hr : solpath x.st.nd fuel n = .ok r)
    (hs : dumpgoal x fuel n c os.length = .ok rs) :
    rs.length = r.1.length ∧ (x.ex n).depth + 1 = r.1.length ∧
      ∀ i s row, r.1[i]? = some s → rs[i]? = some row → RowOk d h dist s0 r os ss i s row := by
  have hrow : ∀ c : C, (⟨(x.st.nd n).g, (x.st.nd n).p - (x.st.nd n).g, (x.ex n).depth, (x.ex n).d, c, os.length⟩ :
      Row C) = ⟨(x.st.nd n).g, h (x.st.nd n).state, (x.ex n).depth, dist (x.st.nd n).state, c, os.length⟩ := fun c => by
    have h1 : (x.st.nd n).p - (x.st.nd n).g = h (x.st.nd n).state := by
      rw [hinv.prio n hn]
      show (x.st.nd n).g + h _ - (x.st.nd n).g = _
      rw [add_sub_cancel_left]
    rw [h1, hi.dist n hn]
  have hg := solpath_exact hinv hn hex hr
  induction fuel generalizing n r rs os ss c with
  | zero => exact absurd hr (by simp [solpath])
  | succ fuel ih =>
    unfold solpath at hr
    unfold dumpgoal at hs
    dsimp only at hs
    rw [hrow] at hs
    cases hpar : (x.st.nd n).parent with
    | none =>
      rw [hpar] at hr hs
      injection hr with hr
      injection hs with hs
      subst hr hs
      have h0 : n = 0 := by
        by_contra hc
        obtain ⟨j, e, -⟩ := hinv.par n hn hc
        rw [hpar] at e; exact absurd e (by simp)
      subst h0
      refine ⟨rfl, by rw [hi.root]; rfl, ?_⟩
      rintro (_ | i) s row h1 h2
      · rw [List.getElem?_cons_zero, Option.some.injEq] at h1 h2
        subst h1 h2
        refine ⟨rfl, rfl, by simp [hi.root], by simp, by simpa using hp, ?_⟩
        obtain ⟨ss', g1, g2, -⟩ := hg
        exact ⟨ss', g1, g2⟩
      · simp at h1
    | some m =>
      rw [hpar] at hr hs
      dsimp only at hr hs
      obtain ⟨r', r1, r2⟩ := Outcome.map_eq_ok.1 hr
      obtain ⟨rs', s1, s2⟩ := Outcome.map_eq_ok.1 hs
      subst r2 s2
      have h0 : n ≠ 0 := by rintro rfl; rw [hinv.root.2.1] at hpar; exact absurd hpar (by simp)
      obtain ⟨j', e1, e2, e3, e4, e5, e6⟩ := hinv.par n hn h0
      rw [hpar] at e1; injection e1 with e1; subst e1
      have hedge := hi.edge n hn m hpar
      have hx := hex m n hpar (.inl rfl)
      have hdep := hi.depth n hn m hpar hx
      have hex' : ∀ j i, Par x.st.nd j i → Sub x.st.nd i m → Exact d x.st.nd j i :=
        fun j i hj hi => hex j i hj (.inr (hi.par hpar))
      have hp' : Plan d (x.st.nd m).state ((x.st.nd n).op :: os) ((x.st.nd n).state :: ss) (c + (x.ex n).inedge) := by
        rw [hedge, add_comm c]
        have := Plan.cons (d := d) e3 (os := os) (ss := ss) (c := c) (by rw [← e4]; exact hp)
        rw [← e4] at this
        exact this
      have hrow' : ∀ c : C, (⟨(x.st.nd m).g, (x.st.nd m).p - (x.st.nd m).g, (x.ex m).depth, (x.ex m).d, c,
          ((x.st.nd n).op :: os).length⟩ : Row C) = ⟨(x.st.nd m).g, h (x.st.nd m).state, (x.ex m).depth,
            dist (x.st.nd m).state, c, ((x.st.nd n).op :: os).length⟩ := fun c => by
        have h1 : (x.st.nd m).p - (x.st.nd m).g = h (x.st.nd m).state := by
          rw [hinv.prio m e2]
          show (x.st.nd m).g + h _ - (x.st.nd m).g = _
          rw [add_sub_cancel_left]
        rw [h1, hi.dist m e2]
      obtain ⟨l1, l2, l3⟩ := ih e2 hex' hp' r1 s1 hrow' (solpath_exact hinv e2 hex' r1)
      refine ⟨by simp [l1], by simp [← l2, hdep], ?_⟩
      rintro (_ | i) s row h1 h2
      · rw [List.getElem?_cons_zero, Option.some.injEq] at h1 h2
        subst h1 h2
        refine ⟨rfl, rfl, by simp [hdep, ← l2], by simp, by simpa using hp, ?_⟩
        obtain ⟨ss', g1, g2, -⟩ := hg
        exact ⟨ss', g1, g2⟩
      · rw [List.getElem?_cons_succ] at h1 h2
        have := l3 i s row h1 h2
        refine ⟨this.hval, this.dval, by have := this.depth; simp only [List.length_cons]; omega, by simp [this.dstar]; omega, ?_, ?_⟩
        · have h3 := this.hstar
          simpa using h3
        · simpa using this.g

/-- With enough fuel the rows are printed. -/
theorem dumpgoal_ends {x : DSt S O C} {fuel n : Nat} {r : List S × List O} (hr : solpath x.st.nd fuel n = .ok r)
    (c : C) (k : Nat) : ∃ rs, dumpgoal x fuel n c k = .ok rs := by
  induction fuel generalizing n r c k with
  | zero => exact absurd hr (by simp [solpath])
  | succ fuel ih =>
    unfold solpath at hr
    unfold dumpgoal
    dsimp only
    cases hpar : (x.st.nd n).parent with
    | none => exact ⟨_, rfl⟩
    | some m =>
      rw [hpar] at hr
      obtain ⟨r', r1, -⟩ := Outcome.map_eq_ok.1 hr
      obtain ⟨rs, e⟩ := ih r1 (c + (x.ex n).inedge) (k + 1)
      dsimp only
      rw [e]
      exact ⟨_, rfl⟩

end Proofs

end Verif.Search
