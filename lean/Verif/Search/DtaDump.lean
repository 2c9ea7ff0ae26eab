import Verif.Search.LssRun
import Verif.Search.LssSafe
import Verif.Search.Idastar
import Mathlib.Algebra.Order.Monoid.Unbundled.WithTop
import Mathlib.Order.WithBot

/-!
# Model of search/dtastar-dump.hpp (LSS-LRTA* that samples the values of look-ahead searches)

* The search itself (205-410) is that of search/lsslrtastar.hpp with one step per local search and weight 1: `expandLss`
  (262-318), `hCostLearning` (320-353), `move` (355-383) and `expand` (386-410) are taken over from `Search/Lss`.
* `expand` here also raises the original heuristic values (`horig`, 403).  The model reads the heuristic itself: this is
  the same if the heuristic is consistent (`horig_same`).
* Which steps are sampled (`randgen.real() < samplep`, 225) is any function of the number of the step.
* Costs as in `Search/Lss`: no rounding, so `geom2d::Threshold` (423, 461) is not needed.  `alpha` can be infinite.
* What is printed are the rows "sample" and "branching", in the order of printing.
-/

namespace Verif.DtaDump

open Verif.Search Verif.Lss
open Verif.Ida (LPlan)

variable {S O C : Type*}

/-- What `evaluate` and `dfs` change: the nodes, the table `lssNodes` (of each state the cost `g`), and `alpha`. -/
structure Ev (S C : Type*) where
  m : Mem S C
  tab : S → Option C
  alpha : WithTop C

/-- The rows one sample prints: the state it is about, the number of its successors, and `f` for the depths 1, 2, …. -/
structure Sample (S C : Type*) where
  root : S
  nkids : Nat
  rows : List (WithTop C)

section Model
variable [DecidableEq S] [AddCommGroup C] [LinearOrder C]

/-- dtastar-dump.hpp:441-463: one edge of `dfs`.  `n->g` is what the table has of the state. -/
def kid (P : Par S O C) (rec : S → C → C → Ev S C → Outcome (Ev S C)) (s : S) (f h : C) (o : O) (y : Ev S C) :
    Outcome (Ev S C) :=
  match y.tab s with
  | none => .ub
  | some gs =>
    let k := P.d.app s o
    let g := gs + P.d.cost s o
    let gk := (y.tab k).getD g
    if gk = 0 ∨ gk < g then .ok { y with tab := Function.update y.tab k (some gk) }
    else
      let kidh := max (h - P.d.cost s o) (P.h k)
      let kidf := g + kidh
      if kidf < f then .fatal
      else rec k kidf kidh { y with tab := Function.update y.tab k (some g) }

/-- dtastar-dump.hpp:441-463: the loop of `dfs`. -/
def kids (P : Par S O C) (rec : S → C → C → Ev S C → Outcome (Ev S C)) (s : S) (f h : C) : List O → Ev S C → Outcome (Ev S C)
  | [], y => .ok y
  | o :: os, y => (kid P rec s f h o y).bind (kids P rec s f h os)

/-- dtastar-dump.hpp:435-464 `dfs`. -/
def dfs (P : Par S O C) : Nat → S → C → C → Ev S C → Outcome (Ev S C)
  | 0, _, f, _, y => .ok { y with alpha := min y.alpha f }
  | left + 1, s, f, h, y =>
    if y.alpha ≤ f then .ok { y with alpha := min y.alpha f }
    else kids P (dfs P left) s f h (P.d.ops s) { y with m := expandNode P s y.m }

/-- The loop dtastar-dump.hpp:426-432: `alpha` at each depth. -/
def depths (P : Par S O C) (root : S) : List Nat → Ev S C → Outcome (Ev S C × List (WithTop C))
  | [], y => .ok (y, [])
  | n :: ns, y =>
    (dfs P n root (P.h root) (P.h root) { y with alpha := ⊤ }).bind fun y =>
    if y.alpha < P.h root then .fatal
    else (depths P root ns y).map fun r => (r.1, y.alpha :: r.2)

/-- dtastar-dump.hpp:414-433 `evaluate`. -/
def evaluate (P : Par S O C) (horizon : Nat) (root : S) (m : Mem S C) : Outcome (Mem S C × Sample S C) :=
  (depths P root (List.range' 1 horizon)
    ⟨expandNode P root m, Function.update (fun _ => none) root (some 0), ⊤⟩).map fun r =>
  (r.1.m, ⟨root, (P.d.ops root).length, r.2⟩)

/-- dtastar-dump.hpp:225-226 -/
def sample (P : Par S O C) (smp : Nat → Bool) (horizon k : Nat) (cur : S) (m : Mem S C) (out : List (Sample S C)) :
    Outcome (Mem S C × List (Sample S C)) :=
  if smp k = true then (evaluate P horizon cur m).map fun e => (e.1, out ++ [e.2]) else .ok (m, out)

/-- The loop dtastar-dump.hpp:214-230: the last state, the operators, what is printed. -/
def loop (P : Par S O C) (smp : Nat → Bool) (horizon : Nat) :
    Nat → Nat → S → Mem S C → List O → List (Sample S C) → Outcome (S × Mem S C × List O × List (Sample S C))
  | 0, _, _, _, _, _ => .nofuel
  | fuel + 1, k, cur, m, ops, out =>
    if P.d.goal cur = true then .ok (cur, m, ops, out)
    else if m.lim P = true then .ok (cur, m.call, ops, out)
    else
      (iter P k cur m.call).bind fun r =>
      match r.2.2 with
      | none => .ok (r.1, r.2.1, ops, out)
      | some os => (sample P smp horizon k cur r.2.1 out).bind fun z => loop P smp horizon fuel (k + 1) r.1 z.1 (ops ++ os) z.2

/-- The parameters of the search: one step at a time, no weight, no choice of layers. -/
def par (d : Dom S O C) (h : S → C) (lim : Nat → Nat → Nat → Bool) (look : Nat → Nat) : Par S O C :=
  ⟨d, h, lim, look, id, true, false, List.range, fun _ => 0⟩

/-- The result: path and operators, goal first; the nodes; what is printed. -/
structure Res (S O C : Type*) where
  path : List S
  ops : List O
  m : Mem S C
  out : List (Sample S C)

/-- dtastar-dump.hpp:205-248 `search`. -/
def search (P : Par S O C) (smp : Nat → Bool) (horizon fuel : Nat) (s0 : S) : Outcome (Res S O C) :=
  (loop P smp horizon fuel 0 s0 (mem0 P) [] []).map fun r =>
    if P.d.goal r.1 = false then ⟨[], [], r.2.1, r.2.2.2⟩
    else ⟨(s0 :: rebuild P.d s0 r.2.2.1).reverse, r.2.2.1.reverse, r.2.1, r.2.2.2⟩

end Model

/-! ## Specification -/

/-- `Cheap d r g n s t c`: `n` operators lead from `s`, which is reached from `r` at the cost `g`, to `t` at the cost `c`;
and every state on the way is reached as cheaply as is possible from `r`, at a cost that is not 0. -/
inductive Cheap [AddCommGroup C] [LinearOrder C] (d : Dom S O C) (r : S) : C → Nat → S → S → C → Prop
  | nil (g : C) (s : S) : Cheap d r g 0 s s 0
  | cons {g : C} {n : Nat} {s t : S} {o : O} {c : C} : o ∈ d.ops s → 0 < g + d.cost s o →
      (∀ c', Walk d r (d.app s o) c' → g + d.cost s o ≤ c') → Cheap d r (g + d.cost s o) n (d.app s o) t c →
      Cheap d r g (n + 1) s t (d.cost s o + c)

/-! ## `evaluate` -/

variable [DecidableEq S] [AddCommGroup C] [LinearOrder C] [IsOrderedAddMonoid C] {P : Par S O C} {r : S}

omit [DecidableEq S] in
/-- With a consistent heuristic `expand` does not change `horig` (403). -/
theorem horig_same {T : S → Prop} (hc : Consis P.d T P.h) {s : S} (hs : T s) {o : O} (ho : o ∈ P.d.ops s) :
    max (P.h (P.d.app s o)) (P.h s - P.d.cost s o) = P.h (P.d.app s o) :=
  max_eq_left (sub_le_iff_le_add'.2 (hc s hs o ho))

/-- What holds during `evaluate`: the table has costs of walks, and 0 of the root; the heuristic values do not change. -/
structure Inv (P : Par S O C) (r : S) (h : S → C) (y : Ev S C) : Prop where
  walk : ∀ t v, y.tab t = some v → Walk P.d r t v
  root : y.tab r = some 0
  mh : y.m.h = h
  mem : MemOk P y.m

omit [DecidableEq S] in
theorem walk_nonneg (hd : CostOk P.d r) {t : S} {c : C} (h : Walk P.d r t c) : 0 ≤ c := by
  induction h with
  | nil => exact le_rfl
  | snoc hw ho ih => exact add_nonneg ih (hd _ _ hw _ ho)

omit [DecidableEq S] in
/-- Along a walk `f` does not get smaller. -/
theorem cheap_le (hc : Consis P.d (Reach P.d r) P.h) {g : C} {n : Nat} {s t : S} {c : C} (h : Cheap P.d r g n s t c)
    (hs : Reach P.d r s) : P.h s ≤ c + P.h t := by
  induction h with
  | nil => rw [zero_add]
  | @cons g n s t o c ho _ _ _ ih =>
    have h1 := hc s hs o ho
    have h2 := ih (hs.step ho)
    calc P.h s ≤ P.d.cost s o + P.h (P.d.app s o) := h1
      _ ≤ P.d.cost s o + (c + P.h t) := by gcongr
      _ = P.d.cost s o + c + P.h t := (add_assoc _ _ _).symm

/-- The specification of `dfs`. -/
def Spec (P : Par S O C) (r : S) (h : S → C) (rec : S → C → C → Ev S C → Outcome (Ev S C)) (n : Nat) : Prop :=
  ∀ (s : S) (g : C) (y : Ev S C), Inv P r h y → y.tab s = some g →
    ∃ y', rec s (g + P.h s) (P.h s) y = .ok y' ∧ Inv P r h y' ∧
      (∀ t v, y.tab t = some v → v ≤ g → y'.tab t = some v) ∧ y'.alpha ≤ y.alpha ∧
      (y'.alpha = y.alpha ∨ ∃ t c, LPlan P.d n s t c ∧ y'.alpha = ((g + c + P.h t : C) : WithTop C)) ∧
      ∀ t c, Cheap P.d r g n s t c → y'.alpha ≤ ((g + c + P.h t : C) : WithTop C)

/-- The loop over the edges. -/
theorem kids_spec (hd : CostOk P.d r) (hc : Consis P.d (Reach P.d r) P.h) {h : S → C}
    {n : Nat} {rec : S → C → C → Ev S C → Outcome (Ev S C)} (hrec : Spec P r h rec n) {s : S} {g : C} (hw : Walk P.d r s g) :
    ∀ (os : List O) (y : Ev S C), (∀ o ∈ os, o ∈ P.d.ops s) → Inv P r h y → y.tab s = some g →
    ∃ y', kids P rec s (g + P.h s) (P.h s) os y = .ok y' ∧ Inv P r h y' ∧
      (∀ t v, y.tab t = some v → v ≤ g → y'.tab t = some v) ∧ y'.alpha ≤ y.alpha ∧
      (y'.alpha = y.alpha ∨ ∃ t c, LPlan P.d (n + 1) s t c ∧ y'.alpha = ((g + c + P.h t : C) : WithTop C)) ∧
      ∀ o ∈ os, 0 < g + P.d.cost s o → (∀ c', Walk P.d r (P.d.app s o) c' → g + P.d.cost s o ≤ c') →
        ∀ t c, Cheap P.d r (g + P.d.cost s o) n (P.d.app s o) t c →
          y'.alpha ≤ ((g + (P.d.cost s o + c) + P.h t : C) : WithTop C)
  | [], y, _, hy, _ => ⟨y, rfl, hy, fun _ _ h _ => h, le_rfl, Or.inl rfl, fun o ho => by simp at ho⟩
  | o :: os, y, hos, hy, hs => by
    have ho := hos o List.mem_cons_self
    have hcost := hd s g hw o ho
    have hwk := hw.snoc ho
    have hg0 := walk_nonneg hd hw
    have hcon := hc s ⟨g, hw⟩ o ho
    have hkh : max (P.h s - P.d.cost s o) (P.h (P.d.app s o)) = P.h (P.d.app s o) :=
      max_eq_right (sub_le_iff_le_add'.2 hcon)
    -- one edge
    have hone : ∃ y1, kid P rec s (g + P.h s) (P.h s) o y = .ok y1 ∧ Inv P r h y1 ∧
        (∀ t v, y.tab t = some v → v ≤ g → y1.tab t = some v) ∧ y1.alpha ≤ y.alpha ∧
        (y1.alpha = y.alpha ∨ ∃ t c, LPlan P.d (n + 1) s t c ∧ y1.alpha = ((g + c + P.h t : C) : WithTop C)) ∧
        (0 < g + P.d.cost s o → (∀ c', Walk P.d r (P.d.app s o) c' → g + P.d.cost s o ≤ c') →
          ∀ t c, Cheap P.d r (g + P.d.cost s o) n (P.d.app s o) t c →
            y1.alpha ≤ ((g + (P.d.cost s o + c) + P.h t : C) : WithTop C)) := by
      unfold kid
      rw [hs]
      dsimp only
      obtain ⟨gk, hgk⟩ : ∃ gk, (y.tab (P.d.app s o)).getD (g + P.d.cost s o) = gk := ⟨_, rfl⟩
      rw [hgk]
      have hgw : Walk P.d r (P.d.app s o) gk := by
        cases e : y.tab (P.d.app s o) with
        | none => rw [e] at hgk; rw [← hgk]; exact hwk
        | some v => rw [e] at hgk; rw [← hgk]; exact hy.walk _ _ e
      have hgv : ∀ v, y.tab (P.d.app s o) = some v → v = gk := fun v e => by rw [e] at hgk; exact hgk
      by_cases hskip : gk = 0 ∨ gk < g + P.d.cost s o
      · rw [if_pos hskip]
        have htab : ∀ t v, y.tab t = some v → Function.update y.tab (P.d.app s o) (some gk) t = some v := by
          intro t v e
          by_cases ht : t = P.d.app s o
          · subst ht; rw [Function.update_self, hgv v e]
          · rw [Function.update_of_ne ht]; exact e
        refine ⟨_, rfl, ⟨?_, htab _ _ hy.root, hy.mh, hy.mem⟩, fun t v e _ => htab t v e, le_rfl, Or.inl rfl, ?_⟩
        · intro t v e
          by_cases ht : t = P.d.app s o
          · subst ht
            dsimp only at e
            rw [Function.update_self] at e
            rw [← Option.some.inj e]; exact hgw
          · dsimp only at e
            rw [Function.update_of_ne ht] at e; exact hy.walk t v e
        · intro hpos hopt
          have := hopt gk hgw
          rcases hskip with h0 | h0
          · rw [h0] at this; exact absurd hpos (not_lt.2 this)
          · exact absurd h0 (not_lt.2 this)
      · rw [if_neg hskip]
        obtain ⟨hk0, hkg⟩ := not_or.1 hskip
        have hkg := not_lt.1 hkg
        rw [hkh, if_neg (by rw [not_lt, add_assoc]; gcongr)]
        have htab : ∀ t v, y.tab t = some v → v ≤ g + P.d.cost s o →
            Function.update y.tab (P.d.app s o) (some (g + P.d.cost s o)) t = some v := by
          intro t v e hv
          by_cases ht : t = P.d.app s o
          · subst ht
            rw [Function.update_self]
            rw [hgv v e] at hv ⊢
            rw [le_antisymm hv hkg]
          · rw [Function.update_of_ne ht]; exact e
        have hinv : Inv P r h { y with tab := Function.update y.tab (P.d.app s o) (some (g + P.d.cost s o)) } := by
          refine ⟨?_, htab _ _ hy.root (add_nonneg hg0 hcost), hy.mh, hy.mem⟩
          intro t v e
          dsimp only at e
          by_cases ht : t = P.d.app s o
          · subst ht
            rw [Function.update_self] at e
            rw [← Option.some.inj e]; exact hwk
          · rw [Function.update_of_ne ht] at e; exact hy.walk t v e
        obtain ⟨y1, e1, e2, e3, e4, e5, e6⟩ := hrec (P.d.app s o) (g + P.d.cost s o) _ hinv (Function.update_self _ _ _)
        refine ⟨y1, e1, e2, fun t v e hv => ?_, e4, ?_, fun _ _ t c hch => ?_⟩
        · have hv' := hv.trans (le_add_of_nonneg_right hcost)
          exact e3 t v (htab t v e hv') hv'
        · rcases e5 with e5 | ⟨t, c, p1, p2⟩
          · exact Or.inl e5
          · exact Or.inr ⟨t, _, .cons ho p1, by rw [p2, add_assoc g]⟩
        · have := e6 t c hch
          rwa [add_assoc g] at this
    obtain ⟨y1, e1, e2, e3, e4, e5, e6⟩ := hone
    obtain ⟨y', f1, f2, f3, f4, f5, f6⟩ := kids_spec hd hc hrec hw os y1 (fun o' h' => hos o' (List.mem_cons_of_mem _ h')) e2
      (e3 s g hs le_rfl)
    refine ⟨y', by rw [kids, e1, Outcome.bind_ok]; exact f1, f2, fun t v e hv => f3 t v (e3 t v e hv) hv, f4.trans e4, ?_, ?_⟩
    · rcases f5 with f5 | f5
      · rcases e5 with e5 | e5
        · exact Or.inl (f5.trans e5)
        · rw [f5]; exact Or.inr e5
      · exact Or.inr f5
    · intro o' ho'
      rcases List.mem_cons.1 ho' with rfl | ho'
      · exact fun a b t c hch => f4.trans (e6 a b t c hch)
      · exact f6 o' ho'

theorem dfs_spec (hd : CostOk P.d r) (hc : Consis P.d (Reach P.d r) P.h) {h : S → C} (hh : Consis P.d (Reach P.d r) h) :
    ∀ n, Spec P r h (dfs P n) n
  | 0, s, g, y, hy, _ => by
    refine ⟨_, rfl, ⟨hy.walk, hy.root, hy.mh, hy.mem⟩, fun _ _ h _ => h, min_le_left _ _, ?_, ?_⟩
    · rcases min_choice y.alpha ((g + P.h s : C) : WithTop C) with e | e
      · exact Or.inl e
      · exact Or.inr ⟨s, 0, .nil s, by rw [add_zero]; exact e⟩
    · intro t c hch
      cases hch
      rw [add_zero]; exact min_le_right _ _
  | n + 1, s, g, y, hy, hs => by
    have hw := hy.walk s g hs
    rw [dfs]
    by_cases ha : y.alpha ≤ ((g + P.h s : C) : WithTop C)
    · rw [if_pos ha]
      refine ⟨_, rfl, ⟨hy.walk, hy.root, hy.mh, hy.mem⟩, fun _ _ h _ => h, min_le_left _ _, Or.inl (min_eq_left ha), ?_⟩
      intro t c hch
      refine (min_le_left _ _).trans (ha.trans ?_)
      rw [WithTop.coe_le_coe, add_assoc]
      have := cheap_le hc hch ⟨g, hw⟩
      gcongr
    · rw [if_neg ha]
      obtain ⟨m1, m2, -, -⟩ := expandNode_spec (T := Reach P.d r) hy.mem (by rw [hy.mh]; exact hh) (s := s) ⟨g, hw⟩
      obtain ⟨y', f1, f2, f3, f4, f5, f6⟩ := kids_spec hd hc (dfs_spec hd hc hh n) hw (P.d.ops s)
        { y with m := expandNode P s y.m } (fun _ h => h) ⟨hy.walk, hy.root, m1.trans hy.mh, m2⟩ hs
      refine ⟨y', f1, f2, f3, f4, f5, fun t c hch => ?_⟩
      cases hch with
      | cons ho hpos hopt hch => exact f6 _ ho hpos hopt _ _ hch

/-- What is known of the value of one depth. -/
def RowOk (P : Par S O C) (root : S) (n : Nat) (a : WithTop C) : Prop :=
  (P.h root : WithTop C) ≤ a ∧ (a = ⊤ ∨ ∃ t c, LPlan P.d n root t c ∧ a = ((c + P.h t : C) : WithTop C)) ∧
    ∀ t c, Cheap P.d root 0 n root t c → a ≤ ((c + P.h t : C) : WithTop C)

omit [DecidableEq S] in
theorem lplan_le (hc : Consis P.d (Reach P.d r) P.h) {n : Nat} {s t : S} {c : C} (h : LPlan P.d n s t c)
    (hs : Reach P.d r s) : P.h s ≤ c + P.h t := by
  induction h with
  | nil => rw [zero_add]
  | @cons n s t o c ho _ ih =>
    calc P.h s ≤ P.d.cost s o + P.h (P.d.app s o) := hc s hs o ho
      _ ≤ P.d.cost s o + (c + P.h t) := by have := ih (hs.step ho); gcongr
      _ = P.d.cost s o + c + P.h t := (add_assoc _ _ _).symm

theorem depths_spec (hd : CostOk P.d r) (hc : Consis P.d (Reach P.d r) P.h) {h : S → C} (hh : Consis P.d (Reach P.d r) h) :
    ∀ (ns : List Nat) (y : Ev S C), Inv P r h y →
    ∃ y' rows, depths P r ns y = .ok (y', rows) ∧ Inv P r h y' ∧ List.Forall₂ (RowOk P r) ns rows
  | [], y, hy => ⟨y, [], rfl, hy, .nil⟩
  | n :: ns, y, hy => by
    obtain ⟨y1, e1, e2, -, -, e5, e6⟩ := dfs_spec hd hc hh n r 0 { y with alpha := ⊤ } ⟨hy.walk, hy.root, hy.mh, hy.mem⟩ hy.root
    rw [zero_add] at e1
    have hge : (P.h r : WithTop C) ≤ y1.alpha := by
      rcases e5 with e5 | ⟨t, c, p1, p2⟩
      · rw [e5]; exact le_top
      · rw [p2, WithTop.coe_le_coe, zero_add]
        exact lplan_le hc p1 ⟨0, .nil r⟩
    obtain ⟨y', rows, f1, f2, f3⟩ := depths_spec hd hc hh ns y1 e2
    refine ⟨y', y1.alpha :: rows, ?_, f2, .cons ⟨hge, ?_, ?_⟩ f3⟩
    · rw [depths, e1, Outcome.bind_ok, if_neg (not_lt.2 hge), f1, Outcome.map_ok]
    · rcases e5 with e5 | ⟨t, c, p1, p2⟩
      · exact Or.inl e5
      · exact Or.inr ⟨t, c, p1, by rw [p2, zero_add]⟩
    · intro t c hch
      have := e6 t c hch
      rwa [zero_add] at this

/-- `evaluate` succeeds, changes no heuristic value, and prints one row per depth. -/
theorem evaluate_spec (hd : CostOk P.d r) (hc : Consis P.d (Reach P.d r) P.h) {m : Mem S C} (hm : MemOk P m)
    (hh : Consis P.d (Reach P.d r) m.h) (horizon : Nat) :
    ∃ m' rows, evaluate P horizon r m = .ok (m', ⟨r, (P.d.ops r).length, rows⟩) ∧ m'.h = m.h ∧ MemOk P m' ∧
      rows.length = horizon ∧ List.Forall₂ (RowOk P r) (List.range' 1 horizon) rows := by
  obtain ⟨m1, m2, -, -⟩ := expandNode_spec (T := Reach P.d r) hm hh (s := r) ⟨0, .nil r⟩
  obtain ⟨y', rows, f1, f2, f3⟩ := depths_spec hd hc hh (List.range' 1 horizon)
    ⟨expandNode P r m, Function.update (fun _ => none) r (some 0), ⊤⟩
    ⟨fun t v e => by
        by_cases ht : t = r
        · subst ht
          dsimp only at e
          rw [Function.update_self] at e
          rw [← Option.some.inj e]; exact .nil t
        · dsimp only at e
          rw [Function.update_of_ne ht] at e; exact absurd e (by simp),
      by dsimp only; rw [Function.update_self], m1, m2⟩
  refine ⟨y'.m, rows, ?_, f2.mh, f2.mem, ?_, f3⟩
  · rw [evaluate, f1, Outcome.map_ok]
  · rw [← f3.length_eq, List.length_range']

/-! ## The search -/

omit [IsOrderedAddMonoid C] in
/-- Without samples the search is that of LSS-LRTA*. -/
theorem loop_none {horizon : Nat} : ∀ (fuel k : Nat) (cur : S) (m : Mem S C) (ops : List O) (out : List (Sample S C)) (lens : List Nat),
    (loop P (fun _ => false) horizon fuel k cur m ops out).map (fun r => (r.1, r.2.1, r.2.2.1)) =
      (Lss.loop P fuel k cur m ops lens).map (fun r => (r.1, r.2.1, r.2.2.1))
  | 0, _, _, _, _, _, _ => rfl
  | fuel + 1, k, cur, m, ops, out, lens => by
    rw [loop, Lss.loop]
    split
    · rfl
    split
    · rfl
    cases e : iter P k cur m.call with
    | ok r =>
      obtain ⟨t, m', os⟩ := r
      cases os with
      | none => rfl
      | some os =>
        rw [Outcome.bind_ok, Outcome.bind_ok]
        dsimp only
        rw [sample, if_neg (by simp), Outcome.bind_ok]
        exact loop_none fuel _ _ _ _ _ _
    | fatal => rfl
    | ub => rfl
    | nofuel => rfl

/-- The operators are applicable one after the other, and lead to where the search is. -/
theorem loop_sound (ho : OrderOk P) {smp : Nat → Bool} {horizon : Nat} {s0 : S} (hd : CostOk P.d s0) :
    ∀ (fuel k : Nat) (cur : S) (m : Mem S C) (ops : List O) (out : List (Sample S C)) {t : S} {m' : Mem S C} {ops' : List O}
      {out' : List (Sample S C)}, (∃ ss c, Plan P.d s0 ops ss c ∧ (s0 :: ss).getLast? = some cur) →
    loop P smp horizon fuel k cur m ops out = .ok (t, m', ops', out') →
    ∃ ss c, Plan P.d s0 ops' ss c ∧ (s0 :: ss).getLast? = some t
  | 0, _, _, _, _, _, _, _, _, _, _, e => absurd e (by simp [loop])
  | fuel + 1, k, cur, m, ops, out, t, m', ops', out', hp, e => by
    rw [loop] at e
    split at e
    · injection e with e
      simp only [Prod.mk.injEq] at e
      obtain ⟨rfl, rfl, rfl, rfl⟩ := e
      exact hp
    split at e
    · injection e with e
      simp only [Prod.mk.injEq] at e
      obtain ⟨rfl, rfl, rfl, rfl⟩ := e
      exact hp
    obtain ⟨⟨t1, m1, os⟩, hi, e2⟩ := Outcome.bind_eq_ok.1 e
    clear e
    obtain ⟨ss, c, h1, h2⟩ := hp
    rcases iter_sound ho (costOk_of_walk hd (plan_walk h1 h2)) hi with ⟨rfl, rfl⟩ | ⟨os', rfl, hne, ss', c', h3, h4⟩
    · have e : Outcome.ok (t1, m1, ops, out) = .ok (t, m', ops', out') := e2
      injection e with e
      simp only [Prod.mk.injEq] at e
      obtain ⟨rfl, rfl, rfl, rfl⟩ := e
      exact ⟨ss, c, h1, h2⟩
    · dsimp only at e2
      obtain ⟨z, -, e3⟩ := Outcome.bind_eq_ok.1 e2
      exact loop_sound ho hd fuel (k + 1) _ _ _ _ ⟨ss ++ ss', c + c', plan_append h1 h2 h3, last_append h2 h4⟩ e3

/-! ## Samples do not change what the search does -/

omit [IsOrderedAddMonoid C] [AddCommGroup C] [DecidableEq S] in
theorem setGoal_m (i : Nat) (x : L S O C) (μ : Mem S C) : setGoal P i { x with m := μ } = { setGoal P i x with m := μ } := by
  unfold setGoal
  by_cases h : P.d.goal (x.nd i).st = true ∧ ∀ j, x.goal = some j → (x.nd i).g < (x.nd j).g
  · rw [if_pos h, if_pos h]
  · rw [if_neg h, if_neg h]

omit [IsOrderedAddMonoid C] in
theorem relax_sim {s : Nat} {o : O} {x y : L S O C} {μ : Mem S C} (hμ : μ.h = x.m.h) (e : relax P s o x = .ok y) :
    y.m.h = x.m.h ∧ ∃ μ' : Mem S C, relax P s o { x with m := μ } = .ok { y with m := μ' } ∧ μ'.h = μ.h ∧ μ'.preds = μ.preds ∧
      μ'.expd = μ.expd := by
  unfold relax at e ⊢
  dsimp only at e ⊢
  have htp : toParent { x with m := μ } s (P.d.app (x.nd s).st o) = toParent x s (P.d.app (x.nd s).st o) := rfl
  have hsn : ∀ i k c cl, setNode { x with m := μ } s i k c o cl = setNode x s i k c o cl := by
    intro i k c cl
    unfold setNode
    dsimp only
    rw [hμ]
  rw [htp]
  by_cases h1 : toParent x s (P.d.app (x.nd s).st o) = true
  · rw [if_pos h1] at e ⊢
    injection e with e
    subst e
    exact ⟨rfl, μ, rfl, rfl, rfl, rfl⟩
  rw [if_neg h1] at e ⊢
  cases h2 : x.tab (P.d.app (x.nd s).st o) with
  | none =>
    rw [h2] at e
    dsimp only at e ⊢
    obtain ⟨q, hq, e⟩ := Outcome.map_eq_ok.1 e
    rw [hsn, hq, Outcome.map_ok]
    subst e
    refine ⟨by rw [(setGoal_eq _ _ _).2.2.2.2.1], μ, ?_, rfl, rfl, rfl⟩
    rw [← setGoal_m]
  | some i =>
    rw [h2] at e
    dsimp only at e ⊢
    by_cases h3 : (x.nd s).g + P.d.cost (x.nd s).st o < (x.nd i).g
    · rw [if_pos h3] at e ⊢
      obtain ⟨q, hq, e⟩ := Outcome.map_eq_ok.1 e
      rw [hsn, hq, Outcome.map_ok]
      subst e
      refine ⟨by rw [(setGoal_eq _ _ _).2.2.2.2.1],
        { μ with dups := if (x.nd i).par.isSome then μ.dups + 1 else μ.dups }, ?_, rfl, rfl, rfl⟩
      rw [← setGoal_m]
    · rw [if_neg h3] at e ⊢
      injection e with e
      subst e
      exact ⟨by rw [(setGoal_eq _ _ _).2.2.2.2.1], μ, by rw [← setGoal_m], rfl, rfl, rfl⟩

omit [IsOrderedAddMonoid C] in
theorem relaxAll_sim {s : Nat} : ∀ (os : List O) {x y : L S O C} {μ : Mem S C}, μ.h = x.m.h → relaxAll P s os x = .ok y →
    y.m.h = x.m.h ∧ ∃ μ' : Mem S C, relaxAll P s os { x with m := μ } = .ok { y with m := μ' } ∧ μ'.h = μ.h ∧
      μ'.preds = μ.preds ∧ μ'.expd = μ.expd
  | [], x, y, μ, _, e => by
    injection e with e
    subst e
    exact ⟨rfl, μ, rfl, rfl, rfl, rfl⟩
  | o :: os, x, y, μ, hμ, e => by
    rw [relaxAll] at e
    obtain ⟨z, e1, e2⟩ := Outcome.bind_eq_ok.1 e
    obtain ⟨a1, μ1, a2, a3, a4, a5⟩ := relax_sim hμ e1
    obtain ⟨b1, μ2, b2, b3, b4, b5⟩ := relaxAll_sim os (μ := μ1) (by rw [a3, a1, hμ]) e2
    exact ⟨b1.trans a1, μ2, by rw [relaxAll, a2, Outcome.bind_ok]; exact b2, b3.trans a3, b4.trans a4, b5.trans a5⟩

theorem lssLoop_sim {T : S → Prop} (hd : CostOk P.d r) (hT : ∀ t c, Walk P.d r t c → T t) {h : S → C} (hc : Consis P.d T h)
    (hlim : ∀ a b c, P.lim a b c = false) : ∀ (k : Nat) {x y : L S O C} {μ : Mem S C}, Lss.Inv P r x → x.m.h = h → MemOk P x.m →
    μ.h = h → MemOk P μ → lssLoop P k x = .ok y →
    ∃ μ' : Mem S C, lssLoop P k { x with m := μ } = .ok { y with m := μ' } ∧ μ'.h = h ∧ MemOk P μ' ∧ y.m.h = h
  | 0, x, y, μ, _, hx, _, hμ, hm, e => by
    injection e with e
    subst e
    exact ⟨μ, rfl, hμ, hm, hx⟩
  | k + 1, x, y, μ, inv, hx, hxm, hμ, hm, e => by
    rw [lssLoop] at e ⊢
    by_cases h1 : x.q.data.isEmpty = true
    · rw [if_pos h1] at e ⊢
      injection e with e
      subst e
      exact ⟨μ, rfl, hμ, hm, hx⟩
    rw [if_neg h1, if_neg (by simp [Mem.lim, hlim])] at e ⊢
    dsimp only
    cases hp : BinHeap.pop (BinHeap.predOf flt (keyF P x.nd)) x.q with
    | mk s q =>
      rw [hp] at e
      cases s with
      | none => exact absurd e (by simp)
      | some s =>
        dsimp only at e ⊢
        obtain ⟨z, e1, e2⟩ := Outcome.bind_eq_ok.1 e
        clear e
        obtain ⟨hsx, hq⟩ := pop_el hp
        have hs := inv.sub s hsx
        have inv1 : Lss.Inv P r { x with m := x.m.call, q := q } := ⟨inv.tree, inv.tab1, inv.tab2, fun i hi => inv.sub i (hq i hi), inv.goal⟩
        obtain ⟨inv2, -, -⟩ := inv1.lssExpand hd hs e1
        have hst : T (x.nd s).st := by
          have hw := inv.tree.walk s hs
          exact hT _ _ hw
        have hcs := (closeNode_nd s { x with m := x.m.call, q := q } s).1
        dsimp only at hcs
        obtain ⟨m1, m2, -, -⟩ := expandNode_spec (T := T) (P := P) (m := x.m.call) ⟨hxm.pred1, hxm.pred2⟩
          (by show Consis P.d T x.m.h; rw [hx]; exact hc) hst
        obtain ⟨m3, m4, -, -⟩ := expandNode_spec (T := T) (P := P) (m := μ.call) ⟨hm.pred1, hm.pred2⟩
          (by show Consis P.d T μ.h; rw [hμ]; exact hc) hst
        have m1 : (expandNode P (x.nd s).st x.m.call).h = h := m1.trans hx
        have m3 : (expandNode P (x.nd s).st μ.call).h = h := m3.trans hμ
        have e1' := e1
        unfold lssExpand at e1
        dsimp only at e1
        obtain ⟨a1, μ1, a2, a3, a4, a5⟩ := relaxAll_sim _ (μ := expandNode P (x.nd s).st μ.call)
          (by dsimp only; rw [hcs]; show _ = (expandNode P (x.nd s).st x.m.call).h; rw [m1, m3]) e1
        have hz : z.m.h = h := by
          rw [a1]; dsimp only; rw [hcs]; exact m1
        have hzm : MemOk P z.m := by
          obtain ⟨-, ν, n2, -, n4, n5⟩ := relaxAll_sim _ (μ := expandNode P (x.nd s).st x.m.call)
            (by dsimp only; rw [hcs]; rfl) e1
          have e1'' := e1
          dsimp only at n2 e1''
          rw [hcs] at n2 e1''
          have := n2.symm.trans e1''
          injection this with this
          rw [← this]
          exact ⟨by dsimp only; rw [n5, n4]; exact m2.pred1, by dsimp only; rw [n5, n4]; exact m2.pred2⟩
        have hμ1 : MemOk P μ1 := ⟨by rw [a5, a4]; exact m4.pred1, by rw [a5, a4]; exact m4.pred2⟩
        have hexp : lssExpand P s { x with m := μ.call, q := q } = .ok { z with m := μ1 } := by
          unfold lssExpand
          dsimp only
          have hcs' : ((closeNode s { x with m := μ.call, q := q }).nd s).st = (x.nd s).st :=
            (closeNode_nd s { x with m := μ.call, q := q } s).1
          rw [hcs']
          rw [hcs] at a2
          exact a2
        have hexp' : lssExpand P s { ({ x with m := μ } : L S O C) with m := ({ x with m := μ } : L S O C).m.call, q := q } = .ok { z with m := μ1 } := hexp
        rw [hexp', Outcome.bind_ok]
        dsimp only at e2 ⊢
        by_cases hg : P.d.goal (z.nd s).st = true
        · rw [if_pos hg] at e2 ⊢
          injection e2 with e2
          subst e2
          exact ⟨μ1, rfl, a3.trans m3, hμ1, hz⟩
        · rw [if_neg hg] at e2 ⊢
          exact lssLoop_sim hd hT hc hlim k inv2 hz hzm (a3.trans m3) hμ1 e2

variable {s0 : S}

/-- What is learned depends on the heuristic values and on the tree alone. -/
theorem learn_sim (hf : Fair P s0) (hr : Reach P.d s0 r) {h : S → C} {x : L S O C} {μ : Mem S C} (hx : Full P r h x)
    (hx' : Full P r h { x with m := μ }) : learn P { x with m := μ } = learn P x := by
  obtain ⟨h1, e1, a1, b1⟩ := learn_spec (hx.facts hf hr)
  obtain ⟨h2, e2, a2, b2⟩ := learn_spec (hx'.facts hf hr)
  have hi : Interior { x with m := μ } = Interior x := rfl
  have hm : μ.h = x.m.h := hx'.core.mh.trans hx.core.mh.symm
  rw [e1, e2]
  congr 1
  funext s
  dsimp only at a2 b2
  rw [hm, hi] at b2
  rw [hm, hi] at a2
  by_cases hs : Interior x s
  · by_cases hex : ∃ t c, Exit P.d P.wt (Interior x) s t c
    · obtain ⟨t, c, p1, p2, p3⟩ := (b1 s hs).1 hex
      obtain ⟨t', c', q1, q2, q3⟩ := (b2 s hs).1 hex
      rw [p3, q3, le_antisymm (p2 _ _ q1) (q2 _ _ p1)]
    · rw [(b1 s hs).2 hex, (b2 s hs).2 hex]
  · rw [a1 s hs, a2 s hs]

omit [IsOrderedAddMonoid C] in
theorem move_m (x : L S O C) (μ : Mem S C) (cur : S) : move P { x with m := μ } cur = move P x cur := rfl

/-- One iteration does the same if the heuristic values are the same. -/
theorem iter_sim (hf : Fair P s0) (hlim : ∀ a b c, P.lim a b c = false) {k : Nat} (hk : 0 < P.look k) {cur : S}
    (hr : Reach P.d s0 cur) (hng : P.d.goal cur = false) {m μ : Mem S C} (hm : MemOk P m) (hμ : MemOk P μ) (hh : μ.h = m.h)
    (hg : Good P s0 m.h) {t : S} {m' : Mem S C} {os : Option (List O)} (e : iter P k cur m = .ok (t, m', os)) :
    ∃ μ' : Mem S C, iter P k cur μ = .ok (t, μ', os) ∧ μ'.h = m'.h ∧ MemOk P μ' := by
  have hl : Sticky P := fun a b c h => by rw [hlim] at h; exact absurd h (by simp)
  obtain ⟨x, h1, hinv, h3, h4, h5⟩ := full_expandLss (T := Reach P.d s0) hf.bonus (hf.costOk hr) (fun t c hw => hr.walk hw) hg.cons hl hk hm rfl hng
  obtain ⟨x', k1, -, k3, k4, k5⟩ := full_expandLss (T := Reach P.d s0) hf.bonus (hf.costOk hr) (fun t c hw => hr.walk hw) hg.cons hl hk hμ hh hng
  obtain ⟨μ1, j1, j2, j3, -⟩ := lssLoop_sim (T := Reach P.d s0) (μ := μ) (hf.costOk hr) (fun t c hw => hr.walk hw) hg.cons hlim
    (P.look k) (inv_init cur m) rfl hm hh hμ h1
  have hinit : { lssInit P cur m with m := μ } = lssInit P cur μ := by
    unfold lssInit
    dsimp only
    rw [hh]
  rw [hinit] at j1
  have hx' : x' = { x with m := μ1 } := by
    have := k1.symm.trans j1
    injection this
  subst hx'
  unfold iter at e ⊢
  rw [h1, Outcome.bind_ok, if_neg (by simp [Mem.lim, hlim])] at e
  rw [k1, Outcome.bind_ok, if_neg (by simp [Mem.lim, hlim])]
  dsimp only
  rw [move_m]
  by_cases hgo : x.goal = none
  · rw [if_pos hgo] at e ⊢
    rw [learn_sim hf hr (h5 hgo).1 (k5 hgo).1]
    obtain ⟨h', e1, e2⟩ := Outcome.bind_eq_ok.1 e
    obtain ⟨⟨t', os'⟩, e3, e4⟩ := Outcome.map_eq_ok.1 e2
    simp only [Prod.mk.injEq] at e4
    obtain ⟨rfl, rfl, rfl⟩ := e4
    rw [e1, Outcome.bind_ok, e3, Outcome.map_ok]
    exact ⟨_, rfl, rfl, ⟨j3.pred1, j3.pred2⟩⟩
  · rw [if_neg hgo] at e ⊢
    rw [Outcome.bind_ok] at e ⊢
    obtain ⟨⟨t', os'⟩, e3, e4⟩ := Outcome.map_eq_ok.1 e
    simp only [Prod.mk.injEq] at e4
    obtain ⟨rfl, rfl, rfl⟩ := e4
    rw [e3, Outcome.map_ok]
    exact ⟨_, rfl, by show μ1.h = x.m.h; rw [j2, h4], ⟨j3.pred1, j3.pred2⟩⟩

/-- Without limit the search goes where LSS-LRTA* goes, whatever is sampled. -/
theorem loop_sim (hf : Fair P s0) (hlim : ∀ a b c, P.lim a b c = false) (ho : OrderOk P) (hk : ∀ k, 0 < P.look k) {smp : Nat → Bool}
    {horizon : Nat} : ∀ (fuel k : Nat) (cur : S) (m μ : Mem S C) (ops : List O) (out : List (Sample S C)) (lens : List Nat),
    Reach P.d s0 cur → MemOk P m → MemOk P μ → μ.h = m.h → Good P s0 m.h →
    (loop P smp horizon fuel k cur μ ops out).map (fun r => (r.1, r.2.2.1)) =
      (Lss.loop P fuel k cur m ops lens).map (fun r => (r.1, r.2.2.1))
  | 0, _, _, _, _, _, _, _, _, _, _, _, _ => rfl
  | fuel + 1, k, cur, m, μ, ops, out, lens, hr, hm, hμ, hh, hg => by
    rw [loop, Lss.loop]
    by_cases hng : P.d.goal cur = true
    · rw [if_pos hng, if_pos hng]; rfl
    rw [if_neg hng, if_neg hng, if_neg (by simp [Mem.lim, hlim]), if_neg (by simp [Mem.lim, hlim])]
    rw [Bool.not_eq_true] at hng
    have hl : Sticky P := fun a b c h => by rw [hlim] at h; exact absurd h (by simp)
    obtain ⟨t, m', os, e, e1, e2, -, e3⟩ := iter_ok hf hl ho (hk k) hr hng (m := m.call) ⟨hm.pred1, hm.pred2⟩ hg
    obtain ⟨μ', f1, f2, f3⟩ := iter_sim hf hlim (hk k) hr hng (m := m.call) (μ := μ.call) ⟨hm.pred1, hm.pred2⟩ ⟨hμ.pred1, hμ.pred2⟩ hh hg e
    rw [e, f1, Outcome.bind_ok, Outcome.bind_ok]
    rcases e3 with ⟨-, c, hc⟩ | ⟨os', rfl, -⟩
    · rw [hlim] at hc; exact absurd hc (by simp)
    dsimp only
    have hrt : Reach P.d s0 t := by
      rcases iter_sound ho (hf.costOk hr) e with ⟨h, -⟩ | ⟨os'', -, -, ss, c, p1, p2⟩
      · exact absurd h (by simp)
      · exact hr.walk (plan_walk p1 p2)
    have hsmp : ∃ ν out', sample P smp horizon k cur μ' out = .ok (ν, out') ∧ ν.h = m'.h ∧ MemOk P ν := by
      unfold sample
      by_cases hs : smp k = true
      · rw [if_pos hs]
        obtain ⟨ν, rows, a1, a2, a3, -⟩ := evaluate_spec (P := P) (r := cur) (hf.costOk hr)
          (fun s ⟨c, hw⟩ => hf.cons s (hr.walk hw)) f3 (fun s ⟨c, hw⟩ => by rw [f2]; exact e2.cons s (hr.walk hw)) horizon
        rw [a1, Outcome.map_ok]
        exact ⟨ν, _, rfl, a2.trans f2, a3⟩
      · rw [if_neg hs]
        exact ⟨μ', out, rfl, f2, f3⟩
    obtain ⟨ν, out', a1, a2, a3⟩ := hsmp
    rw [a1, Outcome.bind_ok]
    exact loop_sim hf hlim ho hk fuel _ _ _ _ _ _ _ hrt e1 a3 a2 e2

/-! ## All samples -/

/-- A sample says what it should. -/
def SampleOk (P : Par S O C) (s0 : S) (horizon : Nat) (e : Sample S C) : Prop :=
  Reach P.d s0 e.root ∧ e.nkids = (P.d.ops e.root).length ∧ e.rows.length = horizon ∧
    ∀ i (hi : i < e.rows.length), RowOk P e.root (i + 1) e.rows[i]

theorem loop_safe (hf : Fair P s0) (hl : Sticky P) (ho : OrderOk P) (hk : ∀ k, 0 < P.look k) {smp : Nat → Bool}
    {horizon : Nat} : ∀ (fuel k : Nat) (cur : S) (m : Mem S C) (ops : List O) (out : List (Sample S C)),
    Reach P.d s0 cur → MemOk P m → Good P s0 m.h → (∀ e ∈ out, SampleOk P s0 horizon e) →
    loop P smp horizon fuel k cur m ops out = .nofuel ∨
      ∃ t m' ops' out', loop P smp horizon fuel k cur m ops out = .ok (t, m', ops', out') ∧ (∀ e ∈ out', SampleOk P s0 horizon e) ∧
        (P.d.goal t = true ∨ ∃ c, P.lim m'.nexpd m'.gend c = true)
  | 0, _, _, _, _, _, _, _, _, _ => Or.inl rfl
  | fuel + 1, k, cur, m, ops, out, hr, hm, hg, hout => by
    rw [loop]
    by_cases hng : P.d.goal cur = true
    · rw [if_pos hng]; exact Or.inr ⟨_, _, _, _, rfl, hout, Or.inl hng⟩
    rw [if_neg hng]
    by_cases hlim : m.lim P = true
    · rw [if_pos hlim]; exact Or.inr ⟨_, _, _, _, rfl, hout, Or.inr ⟨_, hlim⟩⟩
    rw [if_neg hlim]
    rw [Bool.not_eq_true] at hng
    obtain ⟨t, m', os, e, e1, e2, -, e3⟩ := iter_ok hf hl ho (hk k) hr hng (m := m.call) ⟨hm.pred1, hm.pred2⟩ hg
    rw [e, Outcome.bind_ok]
    rcases e3 with ⟨rfl, c, hc⟩ | ⟨os', rfl, -⟩
    · exact Or.inr ⟨_, _, _, _, rfl, hout, Or.inr ⟨c, hc⟩⟩
    dsimp only
    have hrt : Reach P.d s0 t := by
      rcases iter_sound ho (hf.costOk hr) e with ⟨h, -⟩ | ⟨os'', -, -, ss, c, p1, p2⟩
      · exact absurd h (by simp)
      · exact hr.walk (plan_walk p1 p2)
    have hsmp : ∃ ν out', sample P smp horizon k cur m' out = .ok (ν, out') ∧ ν.h = m'.h ∧ MemOk P ν ∧
        ∀ e ∈ out', SampleOk P s0 horizon e := by
      unfold sample
      by_cases hs : smp k = true
      · rw [if_pos hs]
        obtain ⟨ν, rows, a1, a2, a3, a4, a5⟩ := evaluate_spec (P := P) (r := cur) (hf.costOk hr)
          (fun s ⟨c, hw⟩ => hf.cons s (hr.walk hw)) e1 (fun s ⟨c, hw⟩ => e2.cons s (hr.walk hw)) horizon
        rw [a1, Outcome.map_ok]
        refine ⟨ν, _, rfl, a2, a3, fun e he => ?_⟩
        rcases List.mem_append.1 he with he | he
        · exact hout e he
        · rw [List.mem_singleton.1 he]
          refine ⟨hr, rfl, a4, fun i hi => ?_⟩
          have := List.Forall₂.get a5 (i := i) (by rw [List.length_range', ← a4]; exact hi) hi
          rw [List.get_eq_getElem, List.getElem_range', one_mul, Nat.add_comm 1 i] at this
          exact this
      · rw [if_neg hs]
        exact ⟨m', out, rfl, rfl, e1, hout⟩
    obtain ⟨ν, out', a1, a2, a3, a4⟩ := hsmp
    rw [a1, Outcome.bind_ok]
    exact loop_safe hf hl ho hk fuel _ _ _ _ _ hrt a3 (by rw [a2]; exact e2) a4

omit [DecidableEq S] in
/-- The beginnings of a cheapest solution are cheap. -/
theorem cheap_of_plan {root : S} (hpos : ∀ s, Reach P.d root s → ∀ o ∈ P.d.ops s, 0 < P.d.cost s o) {t : S} {s : S} {os : List O}
    {ss : List S} {c : C} (hp : Plan P.d s os ss c) : (s :: ss).getLast? = some t → ∀ {g : C}, Walk P.d root s g → 0 ≤ g →
    (∀ c', Walk P.d root t c' → g + c ≤ c') → ∀ n ≤ os.length,
    ∃ t' c1 c2, Cheap P.d root g n s t' c1 ∧ Walk P.d t' t c2 ∧ c = c1 + c2 := by
  induction hp with
  | nil s =>
    intro ht g hw hg hopt n hn
    obtain rfl : n = 0 := Nat.le_zero.1 hn
    simp only [List.getLast?_singleton, Option.some.injEq] at ht
    subst ht
    exact ⟨s, 0, 0, .nil g s, .nil s, (add_zero _).symm⟩
  | @cons s o os ss c ho hp ih =>
    intro ht g hw hg hopt n hn
    rw [List.getLast?_cons_cons] at ht
    have hwp := plan_walk hp ht
    have hc := hpos s ⟨g, hw⟩ o ho
    cases n with
    | zero =>
      have h1 : Walk P.d s (P.d.app s o) (P.d.cost s o) := by
        have := (Walk.nil (d := P.d) s).snoc ho
        rwa [zero_add] at this
      exact ⟨s, 0, _, .nil g s, h1.trans hwp, (zero_add _).symm⟩
    | succ n =>
      have hg' := add_pos_of_nonneg_of_pos hg hc
      obtain ⟨t', c1, c2, a1, a2, a3⟩ := ih ht (hw.snoc ho) hg'.le (fun c' hc' => by rw [add_assoc]; exact hopt c' hc') n
        (Nat.le_of_succ_le_succ hn)
      refine ⟨t', _, c2, .cons ho hg' (fun c' hc' => ?_) a1, a2, by rw [a3, add_assoc]⟩
      have := hopt _ (hc'.trans hwp)
      rw [← add_assoc] at this
      exact le_of_add_le_add_right this

omit [DecidableEq S] in
theorem walk_of_cheap {d : Dom S O C} {r s t : S} {g c : C} {n : Nat} (h : Cheap d r g n s t c) : Walk d s t c := by
  induction h with
  | nil => exact .nil _
  | @cons g n s t o c ho _ _ _ ih =>
    have h1 : Walk d s (d.app s o) (d.cost s o) := by
      have := (Walk.nil (d := d) s).snoc ho
      rwa [zero_add] at this
    exact h1.trans ih

end Verif.DtaDump
