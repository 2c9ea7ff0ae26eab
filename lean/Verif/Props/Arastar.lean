import Verif.Search.ArastarRun
import Verif.Search.Heuristic
import Verif.Props.Wastar
import Mathlib.Algebra.Order.Archimedean.Basic

/-!
# C38: anytime repairing A*

`Run d h keep wt0 dwt l s0 st conv cut`: `search` may end in the state `st`, having printed the rows `st.rows` (latest
first), "converged" being `conv`; `cut` tells whether the limit `l` ended it.  `l` is arbitrary, so the theorems also
hold for `ArastarMon` and `ArastarNORA`.  `Plan`, `Solution` are those of `Props/Astar`.
-/

namespace Verif.Search.Arastar

variable {S O K : Type*} [DecidableEq S] [DecidableEq O] [Field K] [LinearOrder K] [IsStrictOrderedRing K]
  {d : Dom S O K} {h : S → K} {keep : Nat → S → Bool} {s0 : S} {wt0 dwt : K} {l : St S O K → Prop}

/-- What is known of the final state. -/
theorem run_rep (hd : DomOk d s0) (ha : Adm d s0 h) (hw0 : 1 ≤ wt0) (hdw : 0 < dwt) {st : St S O K} {conv cut : Bool}
    (hr : Run d h keep wt0 dwt l s0 st conv cut) : Rep d h s0 st ∧ LastRow st := by
  have key : ∀ st : St S O K, Reach d h keep wt0 dwt l s0 st →
      Rep d h s0 (report h st) ∧ (report h st).wt = st.wt ∧ LastRow (report h st) := fun st hs => by
    obtain ⟨⟨k, hi⟩, hrep⟩ := reach_inv hd ha hw0 hdw hs
    obtain ⟨a, -, b, c⟩ := rep_report hd ha hi hrep
    exact ⟨a, b, c⟩
  cases hr with
  | converged hs _ _ => exact ⟨(key _ hs).1, (key _ hs).2.2⟩
  | cut hs _ _ => exact ⟨(key _ hs).1, (key _ hs).2.2⟩
  | exhausted hs _ hw _ =>
    obtain ⟨a, b, c⟩ := key _ hs
    have := rep_advance hdw (by rw [b]; exact hw) a c
    exact ⟨this.toRep, c⟩
  | stopped hs _ hw _ =>
    obtain ⟨a, b, c⟩ := key _ hs
    have := rep_advance hdw (by rw [b]; exact hw) a c
    exact ⟨this.toRep, c⟩

/-- **C38 (decreasing).** Of any two rows the later one shows a strictly smaller cost and a strictly smaller weight. -/
theorem c38_decreasing (hd : DomOk d s0) (ha : Adm d s0 h) (hw0 : 1 ≤ wt0) (hdw : 0 < dwt) {st : St S O K}
    {conv cut : Bool} (hr : Run d h keep wt0 dwt l s0 st conv cut) :
    st.rows.Pairwise fun later earlier => later.cost < earlier.cost ∧ later.wt < earlier.wt :=
  (run_rep hd ha hw0 hdw hr).1.sorted

/-- **C38 (bounded).** If the heuristic is consistent, the cost in every row is at most the weight of the row times the
cost of any plan, and at most the bound of the row times that cost, provided that a bound of less than 1 (it is 0 if
nothing is left to search) is read as 1. -/
theorem c38_bounded (hd : DomOk d s0) (hc : Consistent d s0 h) (hw0 : 1 ≤ wt0) (hdw : 0 < dwt) {st : St S O K}
    {conv cut : Bool} (hr : Run d h keep wt0 dwt l s0 st conv cut) {r : Row K} (hrow : r ∈ st.rows) {ops : List O}
    {ss : List S} {t : S} {c : K} (hp : Plan d s0 ops ss c) (hl : (s0 :: ss).getLast? = some t)
    (ht : d.goal t = true) : r.cost ≤ r.wt * c ∧ r.bound ≤ r.wt ∧ r.cost ≤ max r.bound 1 * c := by
  have hrep := (run_rep hd hc.adm hw0 hdw hr).1
  have hok := (hrep.ok r hrow t c (hp.last_walk hl) ht).1 hc
  exact ⟨hok.1, hrep.bound r hrow, hok.2⟩

/-- **C38 (bound, admissible heuristics).** If the heuristic is only known to be admissible, the bound in a row is still
right, unless it is the weight. -/
theorem c38_bound_admissible (hd : DomOk d s0) (ha : Adm d s0 h) (hw0 : 1 ≤ wt0) (hdw : 0 < dwt) {st : St S O K}
    {conv cut : Bool} (hr : Run d h keep wt0 dwt l s0 st conv cut) {r : Row K} (hrow : r ∈ st.rows)
    (hb : r.bound < r.wt) {ops : List O} {ss : List S} {t : S} {c : K} (hp : Plan d s0 ops ss c)
    (hl : (s0 :: ss).getLast? = some t) (ht : d.goal t = true) : r.cost ≤ max r.bound 1 * c :=
  ((run_rep hd ha hw0 hdw hr).1.ok r hrow t c (hp.last_walk hl) ht).2 hb

/-- **C38 (solution).** If no row was printed there is no path in the result; otherwise the path in the result is a
solution that costs no more than the cost in the last row. -/
theorem c38_solution (hd : DomOk d s0) (ha : Adm d s0 h) (hw0 : 1 ≤ wt0) (hdw : 0 < dwt) {st : St S O K}
    {conv cut : Bool} (hr : Run d h keep wt0 dwt l s0 st conv cut) :
    (st.rows = [] ∧ st.sol = ([], [])) ∨
      ∃ r rs c, st.rows = r :: rs ∧ Solution d s0 st.sol c ∧ c ≤ r.cost := by
  obtain ⟨hrep, hlast⟩ := run_rep hd ha hw0 hdw hr
  rcases hlast with ⟨e1, e2⟩ | ⟨r, rs, e1, e2⟩
  · exact Or.inl ⟨e1, hrep.nosol e2⟩
  · right
    obtain ⟨-, c, h1, h2⟩ := hrep.sol (hrep.le r (by rw [e1]; exact List.mem_cons_self)).1
    exact ⟨r, rs, c, e1, h1, by rw [e2]; exact h2⟩

/-- **C38 (optimal).** If the heuristic is consistent and the search was not ended by a limit, whatever it prints as
"converged", the last row shows the cost of an optimal plan, and if no row was printed there is no plan. -/
theorem c38_optimal (hd : DomOk d s0) (hc : Consistent d s0 h) (hw0 : 1 ≤ wt0) (hdw : 0 < dwt) {st : St S O K}
    {conv : Bool} (hr : Run d h keep wt0 dwt l s0 st conv false) {ops : List O} {ss : List S} {t : S} {c : K}
    (hp : Plan d s0 ops ss c) (hl : (s0 :: ss).getLast? = some t) (ht : d.goal t = true) :
    ∃ r rs, st.rows = r :: rs ∧ r.cost ≤ c := by
  have hw := hp.last_walk hl
  have ha := hc.adm
  obtain ⟨hrep, hlast⟩ := run_rep hd ha hw0 hdw hr
  have hcost : st.cost ≠ -1 ∧ st.cost ≤ c := by
    cases hr with
    | @converged st hs hend hwt =>
      obtain ⟨⟨k, hi⟩, hrep'⟩ := reach_inv hd ha hw0 hdw hs
      obtain ⟨-, e, -, -⟩ := rep_report hd ha hi hrep'
      have := ended_le hd hc hi hend (fun hne => (progress st).resolve_left hne) hw ht
      rw [le_antisymm hwt hi.wt1, one_mul] at this
      rw [e]
      exact this
    | @exhausted st hs hend hwt hemp =>
      obtain ⟨⟨k, hi⟩, hrep'⟩ := reach_inv hd ha hw0 hdw hs
      have hi' := invE_advance dwt (invR_report hi.toR (fun hf => (hrep'.fnd hf).1))
      rcases fringe_le hd ha hi' hw ht with e | ⟨m, hm, hml, -⟩
      · exact e
      · unfold fringe at hm
        rw [List.mem_append, List.mem_filter] at hm
        rcases hm with e | ⟨-, e⟩
        · exact absurd e (by simp [advance])
        · rw [hemp m hml] at e; exact absurd e (by simp)
  rcases hlast with ⟨-, e2⟩ | ⟨r, rs, e1, e2⟩
  · exact absurd e2 hcost.1
  · exact ⟨r, rs, e1, by rw [e2]; exact hcost.2⟩

/-- **C38 (termination).** On a finite state space the search ends, however ties are broken, whatever the closed list
forgets and whatever the limit. -/
theorem c38_terminates [Archimedean K] (hd : DomOk d s0) (ha : Adm d s0 h) (hw0 : 1 ≤ wt0) (hdw : 0 < dwt)
    (hfin : ∃ L : List S, ∀ s c, Walk d s0 s c → s ∈ L) :
    ¬ ∃ f : Nat → St S O K, f 0 = init d h wt0 s0 ∧ ∀ i, Step d h keep dwt l (f i) (f (i + 1)) := by
  rintro ⟨f, h0, hs⟩
  obtain ⟨L, hL⟩ := hfin
  have hacc : ∀ st : St S O K, (∃ n, InvE d h s0 st n []) ∧ RepL d h s0 st →
      Acc (fun b a => Step d h keep dwt l a b) st := fun st hx => by
    obtain ⟨k, hk⟩ := Archimedean.arch (st.wt - 1) hdw
    exact acc_step hd ha hdw hL k st hx (by linarith)
  have h1 := hacc (f 0) (by rw [h0]; exact reach_inv hd ha (l := l) (keep := keep) hw0 hdw .init)
  have key : ∀ st, Acc (fun b a => Step d h keep dwt l a b) st → ∀ i, f i = st → False := by
    intro st hst
    induction hst with
    | intro st _ ih => exact fun i e => ih (f (i + 1)) (e ▸ hs i) (i + 1) rfl
  exact key _ h1 0 rfl

/-- **C38 (progress).** The search does not get stuck: in every state that it reaches it can go on or ends. -/
theorem c38_progress (hd : DomOk d s0) (ha : Adm d s0 h) (hw0 : 1 ≤ wt0) (hdw : 0 < dwt) {st : St S O K}
    (hr : Reach d h keep wt0 dwt l s0 st) :
    (∃ st', Step d h keep dwt l st st') ∨ (∃ cut, Run d h keep wt0 dwt l s0 (report h st) true cut) ∨
      ∃ cut, Run d h keep wt0 dwt l s0 (advance h dwt (report h st)) false cut := by
  obtain ⟨⟨k, hi⟩, hrep⟩ := reach_inv hd ha hw0 hdw hr
  by_cases he : Ended l st
  · by_cases hw : 1 < st.wt
    · by_cases hl : l (advance h dwt (report h st))
      · exact Or.inr (Or.inr ⟨_, .stopped hr he hw hl⟩)
      · by_cases hem : Empty (advance h dwt (report h st))
        · exact Or.inr (Or.inr ⟨_, .exhausted hr he hw hem⟩)
        · exact Or.inl ⟨_, .next he hw hl hem⟩
    · rcases he with e | e
      · exact Or.inr (Or.inl ⟨_, .cut hr e (not_lt.1 hw)⟩)
      · exact Or.inr (Or.inl ⟨_, .converged hr e (not_lt.1 hw)⟩)
  · left
    unfold Ended at he
    rw [not_or] at he
    obtain ⟨hl, he⟩ := he
    push Not at he
    obtain ⟨n, hn, hg⟩ := he
    by_cases hgl : d.goal (st.nd n).state = true
    · obtain ⟨fuel, r, e, -⟩ := hi.tree.solpath_spec hn.1
      exact ⟨_, .goal hl hn hg hgl e⟩
    · exact ⟨_, .plain hl hn hg (by simpa using hgl)⟩

/-! ## Examples, and what goes wrong otherwise -/

theorem Consistent.of_forall {d : Dom S O K} {h : S → K} (s0 : S)
    (hall : ∀ s, 0 ≤ h s ∧ (d.goal s = true → h s = 0) ∧ ∀ o ∈ d.ops s, h s ≤ d.cost s o + h (d.app s o)) :
    Consistent d s0 h :=
  ⟨fun s _ _ => (hall s).2.2, fun s _ _ => (hall s).1, fun s _ _ => (hall s).2.1⟩

/-- `0 -1-> 1 -10-> 3`, `0 -2-> 2 -2-> 3`; the goal is 3. -/
def ga : Dom (Fin 4) (Option (Fin 4)) Rat := graphQ 4 [(0, 1, 1), (1, 3, 10), (0, 2, 2), (2, 3, 2)] fun s => s = 3

def ha : Fin 4 → Rat := ![2, 1, 2, 0]

def kp : Nat → Fin 4 → Bool := fun _ _ => true

theorem ga_ok : DomOk ga 0 := .of_forall 0 (by decide +kernel)

theorem ga_cons : Consistent ga 0 ha := .of_forall 0 (by decide +kernel)

/-- With weights 5, 3 two rows are printed; the bound of the second is 0, because nothing is left to search. -/
def stA : St (Fin 4) (Option (Fin 4)) Rat := runX ga ha kp 2 100 20 (init ga ha 5 0)

example : ∃ st, Run ga ha kp 5 2 (lim 100) 0 st false false ∧
    st.rows.map (fun r => (r.wt, r.bound, r.cost)) = [(3, 0, 4), (5, 11 / 4, 11)] ∧
    st.sol = ([3, 2, 0], [some 3, some 2]) :=
  ⟨_, .exhausted (runX_reach 20 .init : Reach ga ha kp 5 2 (lim 100) 0 stA) (ended_of (by decide +kernel))
    (by decide +kernel) (by decide +kernel), by decide +kernel, by decide +kernel⟩

/-- **C38, what is not true of the bound.** The number printed as "solution bound" can be 0. -/
theorem c38_bound_zero : ∃ st r, Run ga ha kp 5 2 (lim 100) 0 st false false ∧ r ∈ st.rows ∧ r.bound = 0 ∧ 0 < r.cost :=
  ⟨_, ⟨3, 0, 4⟩, .exhausted (runX_reach 20 .init : Reach ga ha kp 5 2 (lim 100) 0 stA) (ended_of (by decide +kernel))
    (by decide +kernel) (by decide +kernel), by decide +kernel, rfl, by decide +kernel⟩

/-- Weights 5, 1 and a limit of four expansions. -/
def stB : St (Fin 4) (Option (Fin 4)) Rat := runX ga ha kp 10 4 20 (init ga ha 5 0)

/-- **C38, what is not true of "converged".** A search that is ended by a limit while the weight is 1 still says that it
has converged, although the last row shows 11 and there is a plan of cost 4. -/
theorem c38_converged_cut : ∃ st, Run ga ha kp 5 10 (lim 4) 0 st true true ∧
    (st.rows.map fun r => r.cost) = [11] ∧
    Plan ga 0 [some 2, some 3] [2, 3] 4 ∧ ga.goal 3 = true := by
  refine ⟨_, .cut (runX_reach 20 .init : Reach ga ha kp 5 10 (lim 4) 0 stB) (by decide +kernel) (by decide +kernel),
    by decide +kernel, ?_, by decide +kernel⟩
  have h2 : Plan ga 2 [some 3] [3] (2 + 0) := .cons (by decide +kernel) (.nil 3)
  have h0 : Plan ga 0 [some 2, some 3] [2, 3] (2 + (2 + 0)) := .cons (by decide +kernel) h2
  have e : (2 + (2 + 0) : Rat) = 4 := by decide +kernel
  rwa [e] at h0

/-- `0 -1-> 2 -1-> 1 -10-> 3`, `0 -3-> 1`; the goal is 3. -/
def gi : Dom (Fin 4) (Option (Fin 4)) Rat := graphQ 4 [(0, 2, 1), (2, 1, 1), (0, 1, 3), (1, 3, 10)] fun s => s = 3

/-- Admissible, not consistent. -/
def hi : Fin 4 → Rat := ![0, 0, 11, 0]

def stC : St (Fin 4) (Option (Fin 4)) Rat := runX gi hi kp 1 100 20 (init gi hi 1 0)

/-- **C38, what is not true for inconsistent heuristics.** With an admissible heuristic that is not consistent the
search may converge, with weight 1 and bound 1, on a solution that is not optimal: it never goes back to nodes found
inconsistent in its last iteration. -/
theorem c38_inconsistent : ∃ st, Run gi hi kp 1 1 (lim 100) 0 st true false ∧
    st.rows.map (fun r => (r.wt, r.bound, r.cost)) = [(1, 1, 13)] ∧
    Plan gi 0 [some 2, some 1, some 3] [2, 1, 3] 12 ∧ gi.goal 3 = true := by
  refine ⟨_, .converged (runX_reach 20 .init : Reach gi hi kp 1 1 (lim 100) 0 stC)
    (fun n hn hg => (by decide +kernel : ∀ n < stC.next, ¬ (Least stC n ∧ Good stC n)) n hn.1 ⟨hn, hg⟩)
    (by decide +kernel), by decide +kernel, ?_, by decide +kernel⟩
  have h1 : Plan gi 1 [some 3] [3] (10 + 0) := .cons (by decide +kernel) (.nil 3)
  have h2 : Plan gi 2 [some 1, some 3] [1, 3] (1 + (10 + 0)) := .cons (by decide +kernel) h1
  have h0 : Plan gi 0 [some 2, some 1, some 3] [2, 1, 3] (1 + (1 + (10 + 0))) := .cons (by decide +kernel) h2
  have e : (1 + (1 + (10 + 0)) : Rat) = 12 := by decide +kernel
  rwa [e] at h0

-- the heuristic of the last theorem is admissible
theorem gi_adm : Adm gi 0 hi := by
  have hstar : Consistent gi 0 (![12, 10, 11, 0] : Fin 4 → Rat) := .of_forall 0 (by decide +kernel)
  have hle : ∀ s, 0 ≤ hi s ∧ hi s ≤ (![12, 10, 11, 0] : Fin 4 → Rat) s := by decide +kernel
  exact ⟨fun s _ _ => (hle s).1, fun s c0 h0 t c hw ht => (hle s).2.trans (hstar.adm.adm s c0 h0 t c hw ht)⟩

-- the hypotheses of the theorems on a run with two rows
example : (advance ha 2 (report ha stA)).rows.Pairwise fun later earlier =>
    later.cost < earlier.cost ∧ later.wt < earlier.wt :=
  c38_decreasing ga_ok ga_cons.adm (by decide +kernel) (by decide +kernel)
    (.exhausted (runX_reach 20 .init : Reach ga ha kp 5 2 (lim 100) 0 stA) (ended_of (by decide +kernel))
      (by decide +kernel) (by decide +kernel))

example : ¬ ∃ f : Nat → St (Fin 4) (Option (Fin 4)) Rat, f 0 = init ga ha 5 0 ∧
    ∀ i, Step ga ha kp 2 (lim 100) (f i) (f (i + 1)) :=
  c38_terminates ga_ok ga_cons.adm (by decide +kernel) (by decide +kernel) ⟨[0, 1, 2, 3], fun s _ _ =>
    (by decide : ∀ s : Fin 4, s ∈ [0, 1, 2, 3]) s⟩

end Verif.Search.Arastar
