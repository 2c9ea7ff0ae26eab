import Verif.Search.BugsyRef
import Verif.Props.Concrete
import Mathlib.Algebra.Order.Field.Rat
import Mathlib.Tactic.Linarith

/-!
# C78-C80: Bugsy and Bugsy_slim

Utility-guided search: nodes are ordered by a weighted sum of estimated cost and estimated time, the latter measured
with the clock, and every so often the open list is put in order anew.

C78 is about any clock and any arithmetic; C79 about exact arithmetic and no weight on time; C80 about the command line.
-/

namespace Verif.Bugsy

open Verif.Search

variable {S O C F I A : Type*} [DecidableEq S] [DecidableEq O] [AddCommGroup C] [LinearOrder C] [IsOrderedAddMonoid C]

/-! ## Any policy -/

section General
variable {p : Pol S C I A} {d : Dom S O C} {s0 : S} {J0 J : S → C → I → Prop} {x : A} {l : Limit} {timer : Nat → Bool}

theorem bsearch_safe (ok : PolOk p d s0 J0 J) (hd : CostOk d s0) (fuel : Nat) :
    bsearch p d x l timer fuel s0 = .nofuel ∨ ∃ y, bsearch p d x l timer fuel s0 = .ok y := by
  obtain ⟨c, e, r⟩ := ref_init ok x
  rw [bsearch, e, Outcome.bind_ok]
  exact brun_safe ok hd fuel r .init

theorem bsearch_refines (ok : PolOk p d s0 J0 J) (hd : CostOk d s0) {fuel : Nat} {c' : BSt S O C I A}
    {res : List S × List O} (h : bsearch p d x l timer fuel s0 = .ok (c', res)) :
    ∃ st', Run d (anyAlg S C p.dropdups) s0 l st' res ∧
      (c'.expd = st'.expd ∧ c'.gend = st'.gend ∧ c'.dups = st'.dups ∧ c'.reopnd = st'.reopnd) ∧
      ((∀ e, timer e = false) → res = ([], []) → Empty st' ∨ l.reached st') ∧
      (res ≠ ([], []) → ∃ c1 n fuel, Ref p J c1 st' ∧ ReachL d (anyAlg S C p.dropdups) s0 l st' ∧
        Least (anyAlg S C p.dropdups) st' n ∧ d.goal (st'.nd n).state = true ∧ Popped p c1 st' n ∧
        solpath st'.nd fuel n = .ok res) := by
  obtain ⟨c, e, r⟩ := ref_init ok x
  rw [bsearch, e, Outcome.bind_ok] at h
  exact brun_refines ok hd fuel r .init h

theorem bsearch_sound (ok : PolOk p d s0 J0 J) (hd : CostOk d s0) {fuel : Nat} {c' : BSt S O C I A}
    {res : List S × List O} (h : bsearch p d x l timer fuel s0 = .ok (c', res)) (hne : res ≠ ([], [])) :
    ∃ c, Solution d s0 res c := by
  obtain ⟨st, h1, -⟩ := bsearch_refines ok hd h
  rcases run_solution hd (anyAlg_ok _) h1 with h2 | ⟨n, c, -, -, h3, -⟩
  · exact absurd h2 hne
  · exact ⟨c, h3⟩

theorem bsearch_ends (ok : PolOk p d s0 J0 J) (hd : CostOk d s0) (hf : (Reachable d s0).Finite) :
    ∃ F y, ∀ fuel ≥ F, bsearch p d x l timer fuel s0 = .ok y := by
  obtain ⟨c, e, r⟩ := ref_init ok x
  obtain ⟨F, y, h⟩ := brun_ends ok hd (l := l) (timer := timer) (acc_init hd (anyAlg_ok p.dropdups) hf) r .init
  exact ⟨F, y, fun fuel hfuel => by rw [bsearch, e, Outcome.bind_ok]; exact h fuel hfuel⟩

theorem bsearch_complete (ok : PolOk p d s0 J0 J) (hd : UndoOk d s0) (hf : (Reachable d s0).Finite) :
    ∃ F c res, (∀ fuel ≥ F, bsearch p d x ⟨0, 0⟩ (fun _ => false) fuel s0 = .ok (c, res)) ∧
      (Solvable d s0 → ∃ cost, Solution d s0 res cost) ∧ (¬ Solvable d s0 → res = ([], [])) := by
  obtain ⟨F, ⟨c, res⟩, h⟩ := bsearch_ends (x := x) (l := ⟨0, 0⟩) (timer := fun _ => false) ok hd.cost hf
  refine ⟨F, c, res, h, fun hs => ?_, fun hns => ?_⟩
  · by_cases hne : res = ([], [])
    · exfalso
      obtain ⟨st, h1, -, h3, -⟩ := bsearch_refines ok hd.cost (h F le_rfl)
      have hreach : Reach d (anyAlg S C p.dropdups) s0 st := by
        cases h1 with
        | found tr => exact tr.reach
        | empty tr => exact tr.reach
        | cut _ tr => exact tr.reach
      obtain ⟨ops, ss, t, c', e1, e2, e3⟩ := hs
      have hw := e1.walk
      rw [List.getLast?_eq_some_getLast (by simp)] at e2
      rw [Option.some.inj e2] at hw
      rcases h3 (fun _ => rfl) hne with he | hl
      · have := empty_no_goal hd (inv_reach hd.cost (anyAlg_ok _) hreach) he hw
        rw [e3] at this
        exact absurd this (by simp)
      · simp [Limit.reached] at hl
    · exact bsearch_sound ok hd.cost (h F le_rfl) hne
  · by_contra hne
    obtain ⟨c', ss, s1, s2, t, s3, s4⟩ := bsearch_sound ok hd.cost (h F le_rfl) hne
    exact hns ⟨_, ss, t, c', s2, by rw [← s1, List.getLast?_reverse]; exact s3, s4⟩

end General

/-! ## C78: solutions, failure, termination -/

/-- The variables that the options at hand make `computeutil` read have been initialised. -/
def Opts.Init (o : Opts F) : Prop := o.usedlms ≠ none ∧ (o.usehhat = true → o.interph ≠ none)

theorem utilH_ok {fl : Fl C F} {o : Opts F} (ho : o.Init) (x : Aux C F) (e : F) (g : C) (i : Info C F) :
    ∃ v, utilH fl o x e g i = .ok v := by
  unfold utilH
  dsimp only
  by_cases h : o.usehhat = true
  · rw [if_pos h]
    cases hi : o.interph with
    | none => exact absurd hi (ho.2 h)
    | some b => cases b <;> exact ⟨_, rfl⟩
  · rw [if_neg h]
    exact ⟨_, rfl⟩

theorem computeutil_ok {fl : Fl C F} {o : Opts F} (ho : o.Init) (wall : Nat → F) (x : Aux C F) (e : Nat) (g : C)
    (i : Info C F) : ∃ t u x', computeutil fl o wall x e g i = .ok ({ i with t := t, u := u }, x') := by
  unfold computeutil
  cases h : o.usedlms with
  | none => exact absurd h ho.1
  | some b =>
    dsimp only
    obtain ⟨v, hv⟩ := utilH_ok (fl := fl) ho (utilPre fl o wall x e) (utilD fl o (utilPre fl o wall x e) b g i) g i
    rw [hv, Outcome.bind_ok]
    exact ⟨_, _, _, rfl⟩

theorem bugsy_ok (fl : Fl C F) {o : Opts F} (ho : o.Init) (wall : Nat → F) (h dist : S → C) (d : Dom S O C) (s0 : S) :
    PolOk (bugsy fl o wall h dist) d s0 (fun _ _ i => o.useexpdelay = true → i.expct ≠ none)
      (fun _ _ i => o.useexpdelay = true → i.expct ≠ none) where
  root := fun _ => by simp [bugsy]
  util x e s g i hi := by
    obtain ⟨t, u, x', hx⟩ := computeutil_ok (fl := fl) ho wall x e g i
    exact ⟨_, hx, hi⟩
  again _ _ _ h := h
  kid e s g i op hi _ := fun he => by
    show (if o.useexpdelay = true then some e else none) ≠ none
    rw [if_pos he]
    simp
  regrade s g i op g' i' _ _ hi' _ := hi'
  enter x e s g i hi := by
    show ∃ x', benter fl o x e i = .ok x'
    unfold benter
    split_ifs with he
    · cases hk : i.expct with
      | none => exact absurd hk (hi he)
      | some k => exact ⟨_, rfl⟩
    · exact ⟨_, rfl⟩

theorem slim_ok (fl : Fl C F) (wf wt : F) (wall : Nat → F) (h dist : S → C) (d : Dom S O C) (s0 : S) :
    PolOk (slim fl wf wt wall h dist) d s0 (fun _ _ _ => True) (fun _ _ _ => True) where
  root := trivial
  util _ _ _ _ _ _ := ⟨_, rfl, trivial⟩
  again _ _ _ h := h
  kid _ _ _ _ _ _ _ := trivial
  regrade _ _ _ _ _ _ _ _ _ _ := trivial
  enter _ _ _ _ _ _ := ⟨_, rfl⟩

section C78
variable {d : Dom S O C} {s0 : S} {l : Limit} {timer : Nat → Bool}

/-- **C78 (Bugsy, solutions).** Whatever the clock shows and however `double`s are rounded: if Bugsy returns a path, it
is a legal path from the initial state to a goal.  The options must be such that no variable is read uninitialised. -/
theorem c78_bugsy_solution_partial (hd : CostOk d s0) (fl : Fl C F) {o : Opts F} (ho : o.Init) (wall : Nat → F)
    (h dist : S → C) {x : Aux C F} {fuel : Nat} {c : BSt S O C (Info C F) (Aux C F)} {res : List S × List O}
    (hr : bsearch (bugsy fl o wall h dist) d x l timer fuel s0 = .ok (c, res)) (hne : res ≠ ([], [])) :
    ∃ cost, Solution d s0 res cost :=
  bsearch_sound (bugsy_ok fl ho wall h dist d s0) hd hr hne

/-- **C78 (Bugsy, completeness).** On a finite state space Bugsy returns: a solution if there is one, and nothing if
there is none. -/
theorem c78_bugsy_complete_partial (hd : UndoOk d s0) (hf : (Reachable d s0).Finite) (fl : Fl C F) {o : Opts F}
    (ho : o.Init) (wall : Nat → F) (h dist : S → C) (x : Aux C F) :
    ∃ F c res, (∀ fuel ≥ F, bsearch (bugsy fl o wall h dist) d x ⟨0, 0⟩ (fun _ => false) fuel s0 = .ok (c, res)) ∧
      (Solvable d s0 → ∃ cost, Solution d s0 res cost) ∧ (¬ Solvable d s0 → res = ([], [])) :=
  bsearch_complete (bugsy_ok fl ho wall h dist d s0) hd hf

/-- **C78 (Bugsy, definedness).** A search is undefined behaviour if and only if the options leave a variable that is
read uninitialised; it is never anything else than undefined, unfinished or a result. -/
theorem c78_bugsy_defined (hd : CostOk d s0) (fl : Fl C F) (o : Opts F) (wall : Nat → F) (h dist : S → C) (x : Aux C F)
    (fuel : Nat) :
    (bsearch (bugsy fl o wall h dist) d x l timer fuel s0 = .ub ↔ ¬ o.Init) ∧
    (o.Init → bsearch (bugsy fl o wall h dist) d x l timer fuel s0 = .nofuel ∨
      ∃ y, bsearch (bugsy fl o wall h dist) d x l timer fuel s0 = .ok y) := by
  have h1 : o.Init → bsearch (bugsy fl o wall h dist) d x l timer fuel s0 = .nofuel ∨
      ∃ y, bsearch (bugsy fl o wall h dist) d x l timer fuel s0 = .ok y :=
    fun ho => bsearch_safe (bugsy_ok fl ho wall h dist d s0) hd fuel
  refine ⟨⟨fun hu ho => ?_, fun ho => ?_⟩, h1⟩
  · rcases h1 ho with e | ⟨y, e⟩ <;> rw [hu] at e <;> exact absurd e (by simp)
  · have : ∀ x e g i, computeutil fl o wall x e g i = .ub := fun x e g i => by
      unfold computeutil
      cases hu : o.usedlms with
      | none => rfl
      | some b =>
        have : o.usehhat = true ∧ o.interph = none := by
          by_contra hc
          refine ho ⟨by rw [hu]; simp, fun hh hi => hc ⟨hh, hi⟩⟩
        dsimp only
        unfold utilH
        rw [if_pos this.1, this.2]
        rfl
    unfold bsearch binit
    have e : (bugsy fl o wall h dist).util = computeutil fl o wall := rfl
    rw [e, this]
    rfl

/-- **C78 (Bugsy_slim, solutions).** -/
theorem c78_slim_solution (hd : CostOk d s0) (fl : Fl C F) (wf wt : F) (wall : Nat → F) (h dist : S → C) {x : SAux F}
    {fuel : Nat} {c : BSt S O C (SInfo C F) (SAux F)} {res : List S × List O}
    (hr : bsearch (slim fl wf wt wall h dist) d x l timer fuel s0 = .ok (c, res)) (hne : res ≠ ([], [])) :
    ∃ cost, Solution d s0 res cost :=
  bsearch_sound (slim_ok fl wf wt wall h dist d s0) hd hr hne

/-- **C78 (Bugsy_slim, completeness).** -/
theorem c78_slim_complete (hd : UndoOk d s0) (hf : (Reachable d s0).Finite) (fl : Fl C F) (wf wt : F) (wall : Nat → F)
    (h dist : S → C) (x : SAux F) :
    ∃ F c res, (∀ fuel ≥ F, bsearch (slim fl wf wt wall h dist) d x ⟨0, 0⟩ (fun _ => false) fuel s0 = .ok (c, res)) ∧
      (Solvable d s0 → ∃ cost, Solution d s0 res cost) ∧ (¬ Solvable d s0 → res = ([], [])) :=
  bsearch_complete (slim_ok fl wf wt wall h dist d s0) hd hf

/-- **C78 (Bugsy_slim, definedness).** -/
theorem c78_slim_defined (hd : CostOk d s0) (fl : Fl C F) (wf wt : F) (wall : Nat → F) (h dist : S → C) (x : SAux F)
    (fuel : Nat) :
    bsearch (slim fl wf wt wall h dist) d x l timer fuel s0 = .nofuel ∨
      ∃ y, bsearch (slim fl wf wt wall h dist) d x l timer fuel s0 = .ok y :=
  bsearch_safe (slim_ok fl wf wt wall h dist d s0) hd fuel

end C78

/-! ### Resorting -/

/-- `double`s without NaNs: `lt` and `ne` are those of some linear order. -/
def Fl.Ordered (fl : Fl C F) : Prop :=
  ∃ (K : Type) (_ : LinearOrder K) (k : F → K), (∀ a b, fl.lt a b = true ↔ k a < k b) ∧ ∀ a b, fl.ne a b = true ↔ k a ≠ k b

theorem bpred_strictWeak {fl : Fl C F} (hfl : fl.Ordered) : BinHeap.StrictWeak (bpred (C := C) fl) := by
  obtain ⟨K, _, k, h1, h2⟩ := hfl
  refine strictWeak_of_lt (β := Kᵒᵈ ×ₗ K ×ₗ C ×ₗ Cᵒᵈ)
    (fun x => toLex (OrderDual.toDual (k x.1.u), toLex (k x.1.t, toLex (x.1.f, OrderDual.toDual x.2)))) fun x y => ?_
  simp only [Prod.Lex.toLex_lt_toLex, OrderDual.toDual_lt_toDual, OrderDual.toDual_inj]
  unfold bpred
  split_ifs with e1 e2 e3
  · rw [h1]; rw [h2] at e1; simp [e1]
  · rw [h1]; rw [h2] at e2; rw [h2, not_not] at e1; simp [e1, e2]
  · rw [h2, not_not] at e1 e2; simp [e1, e2, e3]
  · rw [h2, not_not] at e1 e2; rw [not_not] at e3; simp [e1, e2, e3]

theorem spred_strictWeak {fl : Fl C F} (hfl : fl.Ordered) : BinHeap.StrictWeak (spred (C := C) fl) := by
  obtain ⟨K, _, k, h1, h2⟩ := hfl
  refine strictWeak_of_lt (β := Kᵒᵈ ×ₗ K ×ₗ C ×ₗ Cᵒᵈ)
    (fun x => toLex (OrderDual.toDual (k x.1.u), toLex (k x.1.t, toLex (x.2 + x.1.h, OrderDual.toDual x.2)))) fun x y => ?_
  simp only [Prod.Lex.toLex_lt_toLex, OrderDual.toDual_lt_toDual, OrderDual.toDual_inj]
  unfold spred
  split_ifs with e1 e2 e3
  · rw [h1]; rw [h2] at e1; simp [e1]
  · rw [h1]; rw [h2] at e2; rw [h2, not_not] at e1; simp [e1, e2]
  · rw [h2, not_not] at e1 e2; simp [e1, e2, e3]
  · rw [h2, not_not] at e1 e2; rw [not_not] at e3; simp [e1, e2, e3]

/-- What resorting the open list is for: the same nodes are open; nothing but the estimates in open nodes has changed;
every open node has the utility that `computeutil` gives it now; and the heap is in order, whether or not it was
before. -/
def Resorted (p : Pol S C I A) (c c' : BSt S O C I A) : Prop :=
  c'.q.data.Perm c.q.data ∧ c'.closed = c.closed ∧ c'.next = c.next ∧
  (∀ n, (c'.nd n).state = (c.nd n).state ∧ (c'.nd n).g = (c.nd n).g ∧ (c'.nd n).parent = (c.nd n).parent ∧
    (c'.nd n).op = (c.nd n).op ∧ (c'.nd n).pop = (c.nd n).pop) ∧
  (∀ n, n ∉ c.q.data → c'.nd n = c.nd n) ∧
  (∀ n ∈ c.q.data, p.util c.aux c.expd (c.nd n).g (c.nd n).i = .ok ((c'.nd n).i, c.aux)) ∧
  BinHeap.IndExact c'.q ∧ BinHeap.Ordered (fun a b => p.pred (bkey c'.nd a) (bkey c'.nd b)) c'.q.data

theorem reinit_resorted {p : Pol S C I A} {J0 J : S → C → I → Prop} (ok : UtilOk p J0 J) (hJ : ∀ s g i, J s g i)
    (hpure : UtilPure p) (hp : BinHeap.StrictWeak p.pred) (c : BSt S O C I A)
    (hi : BinHeap.IndExact c.q) (ha : ∀ n, n ∉ c.q.data → c.q.ind n = -1) :
    ∃ c', reinitheap p c = .ok c' ∧ Resorted p c c' := by
  obtain ⟨c', h1, h2, h3, h4, h5, -, h7⟩ := reinitheap_ok (J := J) (s := c.q.data.toFinset) ok hi rfl ha fun i _ => hJ _ _ _
  obtain ⟨e1, e2⟩ := h7 hpure
  refine ⟨c', h1, ?_, ?_, ?_, h3, ?_, ?_, h5.ind, h5.ord hp⟩
  · rw [List.perm_ext_iff_of_nodup (BinHeap.indExact_nodup h5.ind) (BinHeap.indExact_nodup hi)]
    intro n
    rw [h5.mem, List.mem_toFinset]
  · rw [h2]
  · rw [h2]
  · intro n hn; exact h4 n (by rwa [List.mem_toFinset])
  · intro n hn; exact e2 n (by rwa [List.mem_toFinset])

theorem bugsy_pure (fl : Fl C F) {o : Opts F} (hres : o.resort = true) (wall : Nat → F) (h dist : S → C) :
    UtilPure (bugsy fl o wall h dist) := by
  intro x e g i r hr
  have hr : computeutil fl o wall x e g i = .ok r := hr
  unfold computeutil at hr
  have hx : utilPre fl o wall x e = x := by unfold utilPre; rw [if_pos hres]
  rw [hx] at hr
  cases hu : o.usedlms with
  | none => rw [hu] at hr; exact absurd hr (by simp)
  | some b =>
    rw [hu] at hr
    dsimp only at hr
    rw [Outcome.bind_eq_ok] at hr
    obtain ⟨v, -, hv⟩ := hr
    injection hv with hv
    rw [← hv]

/-- **C78 (resorting, Bugsy).** `updateopen` does nothing until the number of expansions reaches `nextresort`, and never
with `-noresort`; otherwise it doubles `nextresort` and resorts the open list. -/
theorem c78_bugsy_resort {fl : Fl C F} (hfl : fl.Ordered) {o : Opts F} (ho : o.Init) (wall : Nat → F) (h dist : S → C)
    (c : BSt S O C (Info C F) (Aux C F)) (hi : BinHeap.IndExact c.q) (ha : ∀ n, n ∉ c.q.data → c.q.ind n = -1) :
    ∃ c', updateopen (bugsy fl o wall h dist) c = .ok c' ∧
      ((o.resort = false ∨ c.expd < c.aux.nextresort) → c' = c) ∧
      (o.resort = true → c.aux.nextresort ≤ c.expd →
        ∃ x, x.nextresort = 2 * c.aux.nextresort ∧ x.lastnodes = c.expd ∧ x.lasttime = wall c.aux.clk ∧
          x.timeper = fl.div (fl.sub (wall c.aux.clk) c.aux.lasttime) (fl.ofNat (c.expd - c.aux.lastnodes)) ∧
          Resorted (bugsy fl o wall h dist) { c with aux := x } c') := by
  unfold updateopen
  have e : (bugsy fl o wall h dist).resort = bresort fl o wall := rfl
  rw [e]
  unfold bresort
  by_cases hc : o.resort = false ∨ c.expd < c.aux.nextresort
  · rw [if_pos hc]
    refine ⟨c, rfl, fun _ => rfl, fun h1 h2 => ?_⟩
    rcases hc with hc | hc
    · rw [hc] at h1; exact absurd h1 (by simp)
    · omega
  · rw [if_neg hc]
    dsimp only
    have hres : o.resort = true := by
      rw [not_or] at hc
      simpa using hc.1
    generalize hx : ({ c.aux with
      nextresort := c.aux.nextresort * 2, nresort := c.aux.nresort + 1, herrlast := c.aux.herror,
      derrlast := c.aux.derror, delaylast := c.aux.avgdelay,
      timeper := fl.div (fl.sub (wall c.aux.clk) c.aux.lasttime) (fl.ofNat (c.expd - c.aux.lastnodes)),
      lasttime := wall c.aux.clk, lastnodes := c.expd, clk := c.aux.clk + 1 } : Aux C F) = x
    obtain ⟨c', h1, h2⟩ := reinit_resorted (p := bugsy fl o wall h dist) (J0 := fun _ _ _ => True) (J := fun _ _ _ => True)
      ⟨fun x e s g i _ => by
        obtain ⟨t, u, x', hx⟩ := computeutil_ok (fl := fl) ho wall x e g i
        exact ⟨_, hx, trivial⟩, fun _ _ _ _ => trivial⟩ (fun _ _ _ => trivial) (bugsy_pure fl hres wall h dist)
      (bpred_strictWeak hfl) (c := { c with aux := x }) hi ha
    exact ⟨c', h1, fun h => absurd h hc, fun _ _ => ⟨x, by rw [← hx]; exact Nat.mul_comm _ _, by rw [← hx], by rw [← hx], by rw [← hx], h2⟩⟩

/-- **C78 (resorting, Bugsy_slim).** -/
theorem c78_slim_resort {fl : Fl C F} (hfl : fl.Ordered) (wf wt : F) (wall : Nat → F) (h dist : S → C)
    (c : BSt S O C (SInfo C F) (SAux F)) (hi : BinHeap.IndExact c.q) (ha : ∀ n, n ∉ c.q.data → c.q.ind n = -1) :
    ∃ c', updateopen (slim fl wf wt wall h dist) c = .ok c' ∧
      (c.expd < c.aux.nextresort → c' = c) ∧
      (c.aux.nextresort ≤ c.expd →
        ∃ x, x.nextresort = 2 * c.aux.nextresort ∧ x.lastexpd = c.expd ∧ x.lasttime = wall c.aux.clk ∧ x.delaysum = 0 ∧
          Resorted (slim fl wf wt wall h dist) { c with aux := x } c') := by
  unfold updateopen
  by_cases hc : c.expd < c.aux.nextresort
  · have : (slim fl wf wt wall h dist).resort c.aux c.expd = none := by
      unfold slim
      dsimp only
      rw [if_pos hc]
    rw [this]
    exact ⟨c, rfl, fun _ => rfl, fun h => absurd h (by omega)⟩
  · obtain ⟨x, hx, e1, e2, e3, e4⟩ : ∃ x, (slim fl wf wt wall h dist).resort c.aux c.expd = some x ∧
        x.nextresort = c.aux.nextresort * 2 ∧ x.lastexpd = c.expd ∧ x.lasttime = wall c.aux.clk ∧ x.delaysum = 0 := by
      unfold slim
      dsimp only
      rw [if_neg hc]
      exact ⟨_, rfl, rfl, rfl, rfl, rfl⟩
    rw [hx]
    dsimp only
    obtain ⟨c', h1, h2⟩ := reinit_resorted (p := slim fl wf wt wall h dist) (J0 := fun _ _ _ => True) (J := fun _ _ _ => True)
      ⟨fun _ _ _ _ _ _ => ⟨_, rfl, trivial⟩, fun _ _ _ _ => trivial⟩
      (fun _ _ _ => trivial) (fun x e g i r hr => by injection hr with hr; rw [← hr])
      (spred_strictWeak hfl) (c := { c with aux := x }) hi ha
    exact ⟨c', h1, fun h => absurd h hc, fun _ => ⟨x, e1.trans (Nat.mul_comm _ _), e2, e3, e4, h2⟩⟩

/-! ## C79: no weight on time -/

/-- Exact arithmetic. -/
def exact {K : Type*} [Field K] [LinearOrder K] (ofC : C → K) (c1 : C) : Fl C K where
  add := (· + ·)
  sub := (· - ·)
  mul := (· * ·)
  div := (· / ·)
  neg := (- ·)
  lt a b := decide (a < b)
  le a b := decide (a ≤ b)
  ne a b := decide (a ≠ b)
  ofC := ofC
  ofNat n := n
  c1 := c1

section C79
variable {K : Type} [Field K] [LinearOrder K] [IsStrictOrderedRing K] {d : Dom S O C} {s0 : S} {l : Limit}
  {timer : Nat → Bool}

theorem exact_ordered (ofC : C → K) (c1 : C) : (exact ofC c1).Ordered :=
  ⟨K, inferInstance, id, fun a b => by simp [exact], fun a b => by simp [exact]⟩

/-- What holds of the fields of a node. -/
def Adm (d : Dom S O C) (s0 : S) (k : C) (s : S) (g : C) (i : Info C K) : Prop :=
  Walk d s0 s g ∧ i.f = g + i.h ∧ (∀ t c, Walk d s t c → d.goal t = true → i.h ≤ c + k) ∧ (d.goal s = true → k ≤ i.h)

theorem bugsy_adm {h : S → C} {k : C} (hadm : Admissible d s0 h k) (ofC : C → K) (c1 : C) {o : Opts K} (ho : o.Init)
    (hwt : o.wt = 0) (hlms : o.usehlms = false) (hhat : o.usehhat = false) (wall : Nat → K) (dist : S → C) :
    PolOk (bugsy (exact ofC c1) o wall h dist) d s0
      (fun s g i => Adm d s0 k s g i ∧ (o.useexpdelay = true → i.expct ≠ none))
      (fun s g i => (Adm d s0 k s g i ∧ (o.useexpdelay = true → i.expct ≠ none)) ∧
        i.u = -(o.wf * (ofC i.h + ofC g))) where
  root := ⟨⟨.nil _, (zero_add _).symm, fun t c hw hg => hadm.2 _ _ (.nil _) t c hw hg, fun hg => hadm.1 _ _ (.nil _) hg⟩,
    fun _ => by simp [bugsy]⟩
  util x e s g i hi := by
    show ∃ r, computeutil (exact ofC c1) o wall x e g i = .ok r ∧ _
    unfold computeutil utilH
    cases hu : o.usedlms with
    | none => exact absurd hu ho.1
    | some b =>
      dsimp only
      rw [hlms, hhat, hwt]
      refine ⟨_, rfl, hi, ?_⟩
      show -(o.wf * (ofC i.h + ofC g) + 0 * _) = _
      rw [zero_mul, add_zero]
  again _ _ _ h := h.1
  kid e s g i op hi ho' := by
    obtain ⟨⟨⟨h1, h2, h3, h4⟩, -⟩, -⟩ := hi
    have hw : Walk d s0 (d.app s op) (g + d.cost s op) := .snoc h1 ho'
    refine ⟨⟨hw, rfl, fun t c hw' hg => ?_, fun hg => ?_⟩, fun he => ?_⟩
    · show (if h (d.app s op) < i.h - d.cost s op then i.h - d.cost s op else h (d.app s op)) ≤ c + k
      split_ifs
      · have h5 : Walk d s (d.app s op) (0 + d.cost s op) := .snoc (.nil _) ho'
        have h6 := h3 t _ (h5.trans hw') hg
        rw [zero_add, add_assoc] at h6
        rw [sub_le_iff_le_add']
        exact h6
      · exact hadm.2 _ _ hw t c hw' hg
    · show k ≤ if h (d.app s op) < i.h - d.cost s op then i.h - d.cost s op else h (d.app s op)
      have := hadm.1 _ _ hw hg
      split_ifs with hc
      · exact this.trans hc.le
      · exact this
    · show (if o.useexpdelay = true then some e else none) ≠ none
      rw [if_pos he]
      simp
  regrade s g i op g' i' hi ho' hi' _ := by
    obtain ⟨⟨⟨h1, -⟩, -⟩, -⟩ := hi
    obtain ⟨⟨⟨-, h2, h3, h4⟩, h5⟩, -⟩ := hi'
    refine ⟨⟨.snoc h1 ho', ?_, h3, h4⟩, h5⟩
    show i'.f - g' + (g + d.cost s op) = g + d.cost s op + i'.h
    rw [h2]
    abel
  enter x e s g i hi := by
    show ∃ x', benter (exact ofC c1) o x e i = .ok x'
    unfold benter
    split_ifs with he
    · cases hk : i.expct with
      | none => exact absurd hk (hi.1.2 he)
      | some k => exact ⟨_, rfl⟩
    · exact ⟨_, rfl⟩

/-- **C79 (Bugsy).** With no weight on time and some weight on cost, without corrections of the cost estimate and without
`-dropdups`, in exact arithmetic: if the heuristic never over-estimates, the path returned costs no more than any
other.  The path-max adjustments, the resorting, the estimates of distance and the clock do no harm. -/
theorem c79_bugsy_optimal (hd : UndoOk d s0) {h : S → C} {k : C} (hadm : Admissible d s0 h k) {ofC : C → K}
    (hmono : StrictMono ofC) (hadd : ∀ a b, ofC (a + b) = ofC a + ofC b) (c1 : C) {o : Opts K} (ho : o.Init)
    (hwf : 0 < o.wf) (hwt : o.wt = 0) (hlms : o.usehlms = false) (hhat : o.usehhat = false) (hdd : o.dropdups = false)
    (wall : Nat → K) (dist : S → C) {x : Aux C K} {fuel : Nat} {c : BSt S O C (Info C K) (Aux C K)} {res : List S × List O}
    (hr : bsearch (bugsy (exact ofC c1) o wall h dist) d x l timer fuel s0 = .ok (c, res)) (hne : res ≠ ([], [])) :
    Best d s0 res := by
  obtain ⟨st, h1, -, -, h2⟩ := bsearch_refines (bugsy_adm hadm ofC c1 ho hwt hlms hhat wall dist) hd.cost hr
  obtain ⟨c1', n, fuel', r, tr, hl, hg, hpop, hs⟩ := h2 hne
  have hi := inv_reach hd.cost (anyAlg_ok _) tr.reach
  obtain ⟨ss, c', e2, e3, e4, e5⟩ := solpath_ok hi hl.1 hs
  refine ⟨c', ⟨ss, e2, e3, _, e5, hg⟩, fun ops ss' t c2 hp ht htg => e4.trans ?_⟩
  have hw := hp.walk
  rw [List.getLast?_eq_some_getLast (by simp)] at ht
  rw [Option.some.inj ht] at hw
  obtain ⟨m, m0, m1, t', c3, m2, m3, m4⟩ := frontier hd hi hw htg
  have hpm := hpop (bpred_strictWeak (exact_ordered _ _)) m (mem_opens.2 ⟨m0, m1⟩)
  obtain ⟨⟨⟨-, -, -, hn4⟩, -⟩, hnu⟩ := r.J n hl.1
  obtain ⟨⟨⟨-, -, hm3, -⟩, -⟩, hmu⟩ := r.J m m0
  rw [(r.nd n hl.1).1] at hn4
  rw [(r.nd n hl.1).2.1] at hnu
  rw [(r.nd m m0).1] at hm3
  rw [(r.nd m m0).2.1] at hmu
  have hu : (c1'.nd m).i.u ≤ (c1'.nd n).i.u := by
    by_contra hc
    rw [not_le] at hc
    unfold bugsy bpred bkey exact at hpm
    simp [hc, ne_of_gt hc] at hpm
  rw [hnu, hmu, neg_le_neg_iff, mul_le_mul_iff_right₀ hwf, ← hadd, ← hadd, hmono.le_iff_le] at hu
  have h5 := hn4 hg
  have h6 := hm3 _ _ m2 m3
  have h7 := m4 hdd
  have : k + (st.nd n).g ≤ k + c2 := by
    calc k + (st.nd n).g ≤ (c1'.nd n).i.h + (st.nd n).g := by gcongr
      _ ≤ (c1'.nd m).i.h + (st.nd m).g := hu
      _ ≤ c3 + k + (st.nd m).g := by gcongr
      _ = k + ((st.nd m).g + c3) := by abel
      _ ≤ k + c2 := by gcongr
  exact le_of_add_le_add_left this

/-- **C79 (Bugsy, completeness).** On a finite state space it returns such a path if there is a path at all. -/
theorem c79_bugsy_total (hd : UndoOk d s0) (hf : (Reachable d s0).Finite) {h : S → C} {k : C}
    (hadm : Admissible d s0 h k) {ofC : C → K}
    (hmono : StrictMono ofC) (hadd : ∀ a b, ofC (a + b) = ofC a + ofC b) (c1 : C) {o : Opts K} (ho : o.Init)
    (hwf : 0 < o.wf) (hwt : o.wt = 0) (hlms : o.usehlms = false) (hhat : o.usehhat = false) (hdd : o.dropdups = false)
    (wall : Nat → K) (dist : S → C) (x : Aux C K) :
    ∃ F c res, (∀ fuel ≥ F, bsearch (bugsy (exact ofC c1) o wall h dist) d x ⟨0, 0⟩ (fun _ => false) fuel s0 =
        .ok (c, res)) ∧
      (Solvable d s0 → Best d s0 res) ∧ (¬ Solvable d s0 → res = ([], [])) := by
  obtain ⟨F, c, res, h1, h2, h3⟩ := c78_bugsy_complete_partial hd hf (exact ofC c1) ho wall h dist x
  refine ⟨F, c, res, h1, fun hs => ?_, h3⟩
  refine c79_bugsy_optimal hd hadm hmono hadd c1 ho hwf hwt hlms hhat hdd wall dist (h1 F le_rfl) ?_
  rintro rfl
  obtain ⟨cost, ss, e, -⟩ := h2 hs
  exact absurd e (by simp)

end C79

/-- A graph in which the goal state 1 is first reached on an expensive edge. -/
def g79 : Dom (Fin 3) (Option (Fin 3)) Int := graph 3 [(0, 1, 3), (0, 2, 1), (2, 1, 1)] (fun s => s = 1)

/-- `double`s that happen to be integers. -/
def ifl : Fl Int Int where
  add := (· + ·)
  sub := (· - ·)
  mul := (· * ·)
  div := (· / ·)
  neg := (- ·)
  lt a b := decide (a < b)
  le a b := decide (a ≤ b)
  ne a b := decide (a ≠ b)
  ofC := id
  ofNat n := n
  c1 := 1

/-- The options `-wf 1 -wt 0 -dlms 0,0,1,0`. -/
def o79 : Opts Int := ⟨1, 0, true, false, fun _ => 0, some true, fun i => if i = 2 then 1 else 0, false, false, none, false, false⟩

/-- **C79 (dropping duplicates).** With all weight on cost and a perfectly admissible heuristic, Bugsy_slim returns a path
of cost 3 although there is one of cost 2; so does Bugsy with `-dropdups`.  Bugsy without it finds the better one. -/
theorem c79_slim_not_optimal :
    (bsearch (slim ifl 1 0 (fun _ => 0) (fun _ => 0) (fun _ => 0)) g79 (saux0 ifl) ⟨0, 0⟩ (fun _ => false) 10 0).map (·.2) =
      .ok ([1, 0], [some 1]) ∧
    (bsearch (bugsy ifl { o79 with dropdups := true } (fun _ => 0) (fun _ => 0) (fun _ => 0)) g79 (aux0 ifl) ⟨0, 0⟩
      (fun _ => false) 10 0).map (·.2) = .ok ([1, 0], [some 1]) ∧
    (bsearch (bugsy ifl o79 (fun _ => 0) (fun _ => 0) (fun _ => 0)) g79 (aux0 ifl) ⟨0, 0⟩
      (fun _ => false) 10 0).map (·.2) = .ok ([1, 2, 0], [some 1, some 2]) ∧
    Plan g79 0 [some 1] [1] 3 ∧ Plan g79 0 [some 2, some 1] [2, 1] 2 ∧ ¬ Best g79 0 ([1, 0], [some 1]) := by
  refine ⟨by decide +kernel, by decide +kernel, by decide +kernel, .cons (by decide +kernel) (.nil _),
    .cons (by decide +kernel) (.cons (by decide +kernel) (.nil _)), ?_⟩
  rintro ⟨c, ⟨ss, e1, e2, -⟩, h⟩
  have h1 := h [some 2, some 1] [2, 1] 1 2 (.cons (by decide +kernel) (.cons (by decide +kernel) (.nil _))) rfl rfl
  have h2 : ∀ ss c, Plan g79 0 [some 1] ss c → c = 3 := by
    intro ss c hp
    generalize hos : [some (1 : Fin 3)] = os at hp
    generalize hs : (0 : Fin 3) = s at hp
    cases hp with
    | nil => exact absurd hos (by simp)
    | cons ho hp =>
      injection hos with a1 a2
      subst a1 hs
      generalize hx : g79.app 0 (some 1) = s at hp
      subst a2
      cases hp
      decide +kernel
  have := h2 _ _ e2
  omega

/-! ## C80: the command line -/

/-- The options that Bugsy documents by recognising them. -/
inductive Opt
  | wf (v : String)
  | wt (v : String)
  | noresort
  | expdelay
  | hhat
  | dhat
  | dropdups
  | interph
  | hlms (v : String)
  | dlms (v : String)

/-- How they are written. -/
def Opt.render : Opt → List String
  | .wf v => ["-wf", v]
  | .wt v => ["-wt", v]
  | .noresort => ["-noresort"]
  | .expdelay => ["-expdelay"]
  | .hhat => ["-hhat"]
  | .dhat => ["-dhat"]
  | .dropdups => ["-dropdups"]
  | .interph => ["-interph"]
  | .hlms v => ["-hlms", v]
  | .dlms v => ["-dlms", v]

/-- What they mean. -/
def Opt.apply (num : String → F) (coeffs : String → Outcome (Nat → F)) : Opt → Opts F → Outcome (Opts F)
  | .wf v, o => .ok { o with wf := num v }
  | .wt v, o => .ok { o with wt := num v }
  | .noresort, o => .ok { o with resort := false }
  | .expdelay, o => .ok { o with useexpdelay := true }
  | .hhat, o => .ok { o with usehhat := true }
  | .dhat, o => .ok { o with usedhat := true }
  | .dropdups, o => .ok { o with dropdups := true }
  | .interph, o => .ok { o with interph := some true, usehhat := true }
  | .hlms v, o => (coeffs v).map fun c => { o with usehlms := true, hco := c }
  | .dlms v, o => (coeffs v).map fun c => { o with usedlms := some true, dco := c }

/-- One after the other. -/
def applyAll (num : String → F) (coeffs : String → Outcome (Nat → F)) : List Opt → Opts F → Outcome (Opts F)
  | [], o => .ok o
  | a :: as, o => (a.apply num coeffs o).bind (applyAll num coeffs as)

/-- Options without a value. -/
def Opt.flag : Opt → Bool
  | .wf _ | .wt _ | .hlms _ | .dlms _ => false
  | _ => true

section C80
variable (num : String → F) (coeffs : String → Outcome (Nat → F))

omit [DecidableEq S] [DecidableEq O] [AddCommGroup C] [LinearOrder C] [IsOrderedAddMonoid C] in
/-- **C80 (options).** Options are understood, in any order and number, if at least one more argument follows them. -/
theorem c80_options_partial (opts : List Opt) (z : String) (o : Opts F) :
    parseArgs num coeffs (opts.flatMap Opt.render ++ [z]) o = applyAll num coeffs opts o := by
  induction opts generalizing o with
  | nil => rfl
  | cons a as ih =>
    obtain ⟨y, ys, e⟩ : ∃ y ys, as.flatMap Opt.render ++ [z] = y :: ys := by
      cases h : as.flatMap Opt.render ++ [z] with
      | nil => simp at h
      | cons y ys => exact ⟨y, ys, rfl⟩
    rw [List.flatMap_cons, List.append_assoc]
    cases a <;> simp only [Opt.render, List.cons_append, List.nil_append, applyAll, Opt.apply]
    all_goals
      first
      | (rw [e, parseArgs]; simp only [String.reduceEq, if_true, if_false, Outcome.bind_ok]; rw [← e, ih])
      | (rw [parseArgs]; simp only [String.reduceEq, if_true, if_false, Outcome.bind_ok]; rw [ih])
      | (rw [parseArgs]; simp only [String.reduceEq, if_true, if_false]
         rename_i v
         cases coeffs v <;> simp [Outcome.bind, Outcome.map, ih])

omit [DecidableEq S] [DecidableEq O] [AddCommGroup C] [LinearOrder C] [IsOrderedAddMonoid C] in
/-- **C80 (negation).** A flag that is the last argument is ignored. -/
theorem c80_last_flag (opts : List Opt) {a : Opt} (ha : a.flag = true) (o : Opts F) :
    parseArgs num coeffs ((opts ++ [a]).flatMap Opt.render) o = applyAll num coeffs opts o := by
  rw [List.flatMap_append]
  cases a <;> first | exact c80_options_partial num coeffs opts _ o | exact absurd ha (by simp [Opt.flag])

omit [DecidableEq S] [DecidableEq O] [AddCommGroup C] [LinearOrder C] [IsOrderedAddMonoid C] in
theorem parse_wf {args : List String} {o o' : Opts F} (h : parseArgs num coeffs args o = .ok o') (hw : "-wf" ∉ args) :
    o'.wf = o.wf := by
  fun_induction parseArgs num coeffs args o <;>
    simp_all [Outcome.bind_eq_ok] <;> obtain ⟨v, -, h⟩ := h <;> rename_i ih <;> exact ih v h

omit [DecidableEq S] [DecidableEq O] [AddCommGroup C] [LinearOrder C] [IsOrderedAddMonoid C] in
theorem parse_wt {args : List String} {o o' : Opts F} (h : parseArgs num coeffs args o = .ok o') (hw : "-wt" ∉ args) :
    o'.wt = o.wt := by
  fun_induction parseArgs num coeffs args o <;>
    simp_all [Outcome.bind_eq_ok] <;> obtain ⟨v, -, h⟩ := h <;> rename_i ih <;> exact ih v h

omit [DecidableEq S] [DecidableEq O] [AddCommGroup C] [LinearOrder C] [IsOrderedAddMonoid C] in
theorem parse_dlms {args : List String} {o o' : Opts F} (h : parseArgs num coeffs args o = .ok o') (hw : "-dlms" ∉ args) :
    o'.usedlms = o.usedlms := by
  fun_induction parseArgs num coeffs args o <;>
    simp_all [Outcome.bind_eq_ok] <;> obtain ⟨v, -, h⟩ := h <;> rename_i ih <;> exact ih v h

omit [DecidableEq S] [DecidableEq O] [AddCommGroup C] [LinearOrder C] [IsOrderedAddMonoid C] in
theorem parse_interph {args : List String} {o o' : Opts F} (h : parseArgs num coeffs args o = .ok o')
    (hw : "-interph" ∉ args) : o'.interph = o.interph := by
  fun_induction parseArgs num coeffs args o <;>
    simp_all [Outcome.bind_eq_ok] <;> obtain ⟨v, -, h⟩ := h <;> rename_i ih <;> exact ih v h

omit [DecidableEq S] [DecidableEq O] [AddCommGroup C] [LinearOrder C] [IsOrderedAddMonoid C] in
theorem construct_parse {fl : Fl C F} {co : Nat → F} {args : List String} {o : Opts F}
    (h : construct fl num coeffs co args = .ok o) :
    parseArgs num coeffs args (opts0 fl co) = .ok o ∧ fl.lt o.wf (fl.ofNat 0) = false ∧
      fl.lt o.wt (fl.ofNat 0) = false := by
  unfold construct at h
  rw [Outcome.bind_eq_ok] at h
  obtain ⟨o1, h1, h2⟩ := h
  split_ifs at h2 with e1 e2
  injection h2 with h2
  subst h2
  exact ⟨h1, by simpa using e1, by simpa using e2⟩

omit [DecidableEq S] [DecidableEq O] [AddCommGroup C] [LinearOrder C] [IsOrderedAddMonoid C] in
/-- **C80 (weights).** A Bugsy object is made only if both weights are given and neither is negative. -/
theorem c80_weights {fl : Fl C F} (hm : fl.lt (fl.neg (fl.ofNat 1)) (fl.ofNat 0) = true) {co : Nat → F} {args : List String}
    {o : Opts F} (h : construct fl num coeffs co args = .ok o) :
    "-wf" ∈ args ∧ "-wt" ∈ args ∧ fl.lt o.wf (fl.ofNat 0) = false ∧ fl.lt o.wt (fl.ofNat 0) = false := by
  obtain ⟨h1, h2, h3⟩ := construct_parse num coeffs h
  refine ⟨?_, ?_, h2, h3⟩
  · by_contra hc
    rw [parse_wf num coeffs h1 hc] at h2
    exact absurd (hm.symm.trans h2) (by simp)
  · by_contra hc
    rw [parse_wt num coeffs h1 hc] at h3
    exact absurd (hm.symm.trans h3) (by simp)

end C80

/-- **C78 (negation).** Whatever the other options: without `-dlms` every search is undefined behaviour (the constructor
does not initialise `usedlms`, and `computeutil` reads it); so is, with `-hhat`, every search without `-interph`. -/
theorem c78_uninitialised (num : String → F) (coeffs : String → Outcome (Nat → F)) (fl : Fl C F) (co : Nat → F)
    {args : List String} {o : Opts F} (h : construct fl num coeffs co args = .ok o)
    (hb : "-dlms" ∉ args ∨ (o.usehhat = true ∧ "-interph" ∉ args)) {d : Dom S O C} {s0 : S} (hd : CostOk d s0)
    (wall : Nat → F) (hh dist : S → C) (x : Aux C F) (l : Limit) (timer : Nat → Bool) (fuel : Nat) :
    bsearch (bugsy fl o wall hh dist) d x l timer fuel s0 = .ub := by
  obtain ⟨h1, -⟩ := construct_parse num coeffs h
  refine (c78_bugsy_defined hd fl o wall hh dist x fuel).1.2 fun hi => ?_
  rcases hb with hb | ⟨hb1, hb2⟩
  · exact hi.1 (parse_dlms num coeffs h1 hb)
  · exact hi.2 hb1 (parse_interph num coeffs h1 hb2)

/-! ### Examples -/

/-- `strtod` on a few arguments, and one vector of coefficients. -/
def num79 (s : String) : Int := if s = "1" then 1 else if s = "-1" then -1 else 0

/-- See `num79`. -/
def co79 (s : String) : Outcome (Nat → Int) := if s = "0,0,1,0" then .ok fun i => if i = 2 then 1 else 0 else .fatal

/-- The options as a list, to be compared. -/
def shown (o : Opts Int) : List Int × List (Option Bool) :=
  ([o.wf, o.wt, o.dco 0, o.dco 2], [some o.resort, o.usedlms, some o.usehhat, o.interph, some o.dropdups])

example : (construct ifl num79 co79 (fun _ => 9) ["-wf", "1", "-wt", "0", "-dlms", "0,0,1,0"]).map shown =
    .ok ([1, 0, 0, 1], [some true, some true, some false, none, some false]) := by decide +kernel
example : (construct ifl num79 co79 (fun _ => 9) ["-dropdups", "-wf", "1", "-noresort", "-wt", "0"]).map shown =
    .ok ([1, 0, 9, 9], [some false, none, some false, none, some true]) := by decide +kernel
-- the last argument is ignored
example : (construct ifl num79 co79 (fun _ => 9) ["-wf", "1", "-wt", "0", "-dropdups"]).map shown =
    .ok ([1, 0, 9, 9], [some true, none, some false, none, some false]) := by decide +kernel
example : (construct ifl num79 co79 (fun _ => 9) ["-wf", "-1", "-wt", "0"]).map shown = .fatal := by decide +kernel

-- the hypotheses of `c78_uninitialised` can be met
example (o : Opts Int) (h : construct ifl num79 co79 (fun _ => 9) ["-wf", "1", "-wt", "1"] = .ok o) :
    bsearch (bugsy ifl o (fun _ => 0) (fun _ => 0) (fun _ => 0)) g79 (aux0 ifl) ⟨0, 0⟩ (fun _ => false) 10 0 = .ub :=
  c78_uninitialised num79 co79 ifl (fun _ => 9) h (Or.inl (by decide)) (DomOk.of_forall 0 (by decide +kernel)).undo.cost
    _ _ _ _ _ _ _
example : (construct ifl num79 co79 (fun _ => 9) ["-wf", "1", "-wt", "1"]).map shown =
    .ok ([1, 1, 9, 9], [some true, none, some false, none, some false]) := by decide +kernel

theorem ifl_ordered : ifl.Ordered := ⟨Int, inferInstance, id, fun a b => by simp [ifl], fun a b => by simp [ifl]⟩

/-- A run that resorts after every expansion, with a clock that runs backwards, on the graph of `Props/Astar`. -/
def run79 (o : Opts Int) : Outcome (BSt (Fin 6) (Option (Fin 6)) Int (Info Int Int) (Aux Int Int) ×
    (List (Fin 6) × List (Option (Fin 6)))) :=
  bsearch (bugsy ifl o (fun k => 1000 - 7 * k) h1 h1) g1 { aux0 ifl with nextresort := 1 } ⟨0, 0⟩ (fun _ => false) 20 0

example : (run79 { o79 with wt := 1 }).map (fun r => (r.2, r.1.aux.nresort, r.1.expd, r.1.reopnd)) =
    .ok (([5, 4, 2, 3, 0], [some 5, some 4, some 2, some 3]), 3, 4, 0) := by decide +kernel
example : (run79 o79).map (fun r => (r.2, r.1.aux.nresort, r.1.expd, r.1.reopnd)) =
    .ok (([5, 4, 2, 3, 0], [some 5, some 4, some 2, some 3]), 3, 7, 2) := by decide +kernel

example : ∃ F c res, (∀ fuel ≥ F, bsearch (bugsy ifl { o79 with wt := 1, useexpdelay := true } (fun k => 1000 - 7 * k) h1 h1) g1
    (aux0 ifl) ⟨0, 0⟩ (fun _ => false) fuel 0 = .ok (c, res)) ∧
      (Solvable g1 0 → ∃ cost, Solution g1 0 res cost) ∧ (¬ Solvable g1 0 → res = ([], [])) :=
  c78_bugsy_complete_partial (DomOk.of_forall (d := g1) 0 (by decide +kernel)).undo (Set.toFinite _) ifl
    ⟨by simp [o79], by simp [o79]⟩ _ _ _ _

/-- Two open nodes in the wrong order, and one that is not open. -/
def c78 : BSt Nat Nat Int (SInfo Int Int) (SAux Int) where
  nd n := ⟨n, 0, ⟨5 - n, 1, 0, 0, 0⟩, none, 0, 0⟩
  next := 3
  q := ⟨[0, 2], fun n => if n = 0 then 0 else if n = 2 then 1 else -1⟩
  closed := fun n => if n < 3 then some n else none
  expd := 128
  gend := 200
  dups := 0
  reopnd := 0
  aux := saux0 ifl

example : ∃ c', updateopen (slim ifl 1 1 (fun k => k * 640) (fun _ => 0) (fun _ => 0)) c78 = .ok c' ∧
    ∃ x, x.nextresort = 256 ∧
      Resorted (slim ifl 1 1 (fun k => k * 640) (fun _ => 0) (fun _ => 0)) { c78 with aux := x } c' := by
  obtain ⟨c', h1, -, h2⟩ := c78_slim_resort ifl_ordered 1 1 (fun k => k * 640) (fun _ => 0) (fun _ => 0) c78
    (by unfold BinHeap.IndExact; decide +kernel) (by
      intro n hn
      have : n ≠ 0 ∧ n ≠ 2 := by simpa [c78] using hn
      simp [c78, this.1, this.2])
  obtain ⟨x, e1, -, -, -, e2⟩ := h2 (by decide)
  exact ⟨c', h1, x, e1, e2⟩
example : (updateopen (slim ifl 1 1 (fun k => (k + 1) * 640) (fun _ => 0) (fun _ => 0)) c78).map (fun c => (c.q.data,
    c.aux.timeper, [0, 1, 2].map fun n => (c.nd n).i.u)) = .ok ([2, 0], 5, [-10, 0, -8]) := by decide +kernel

-- the hypotheses of C79 can be met
example : ∃ F c res, (∀ fuel ≥ F, bsearch (bugsy (exact (fun c : Int => (c : ℚ)) 1)
      ⟨1, 0, true, false, fun _ => 0, some true, fun _ => 1, false, true, none, true, false⟩ (fun k => k / 3) h1 (fun _ => 2)) g1
      (aux0 (exact (fun c : Int => (c : ℚ)) 1)) ⟨0, 0⟩ (fun _ => false) fuel 0 = .ok (c, res)) ∧
    (Solvable g1 0 → Best g1 0 res) ∧ (¬ Solvable g1 0 → res = ([], [])) :=
  c79_bugsy_total (DomOk.of_forall (d := g1) 0 (by decide +kernel)).undo (Set.toFinite _) h1_admissible Int.cast_strictMono
    Int.cast_add 1 ⟨by simp, by simp⟩ (by norm_num) rfl rfl rfl rfl _ _ _

end Verif.Bugsy
