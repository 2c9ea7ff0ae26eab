import Verif.Search.BestFirst
import Mathlib.Tactic.Linarith

/-!
# Model of search/idastar.hpp (iterative deepening A*)

The recursion of `dfs` and the loop of `search` are indexed by fuel (recursion depth, number of iterations), since both
can go on for ever.  The in-place `Edge` is modelled by passing the successor state.  `lim` is the limit test: any
function of the statistics and of the number of calls of `limit()` so far (which stands for the timer).
`m1` is the sentinel `Cost(-1)`.
-/

namespace Verif.Ida

open Verif.Search

variable {S O C : Type*}

/-- The mutable fields: `minoob`, `res.expd`, `res.gend`, and the number of limit tests done. -/
structure ISt (C : Type*) where
  minoob : C
  expd : Nat
  gend : Nat
  calls : Nat
  deriving DecidableEq

/-- `limit()` as a function of expansions, generations, and calls. -/
abbrev Lim := Nat → Nat → Nat → Bool

/-- The limit test in a state. -/
def ISt.lim (l : Lim) (st : ISt C) : Bool := l st.expd st.gend st.calls

/-- What `dfs` returns: `some (path, ops)` for `true`, together with the fields. -/
abbrev Res (S O C : Type*) := Option (List S × List O) × ISt C

section Model
variable [DecidableEq O] [Add C] [Zero C] [LinearOrder C]

/-- idastar.hpp:58-82: the loop over the operators of `s`. -/
def dfsOps (l : Lim) (s : S) (pop : O) (rec : O → ISt C → Outcome (Res S O C)) :
    List O → ISt C → Outcome (Res S O C)
  | [], st => .ok (none, st)
  | o :: os, st =>
    if st.lim l then .ok (none, { st with calls := st.calls + 1 })
    else if o = pop then dfsOps l s pop rec os { st with calls := st.calls + 1 }
    else
      (rec o { st with calls := st.calls + 1, gend := st.gend + 1 }).bind fun r =>
        match r.1 with
        | some p => .ok (some (p.1 ++ [s], p.2 ++ [o]), r.2)
        | none => dfsOps l s pop rec os r.2

/-- idastar.hpp:41-83 `dfs`. -/
def dfs (d : Dom S O C) (h : S → C) (l : Lim) (m1 bound : C) : Nat → S → O → C → ISt C → Outcome (Res S O C)
  | 0, _, _, _, _ => .nofuel
  | k + 1, s, pop, g, st =>
    if g + h s ≤ bound ∧ d.goal s = true then .ok (some ([s], []), st)
    else if bound < g + h s then
      .ok (none, { st with minoob := if st.minoob = m1 ∨ g + h s < st.minoob then g + h s else st.minoob })
    else
      dfsOps l s pop (fun o => dfs d h l m1 bound k (d.app s o) (d.rev s o) (g + d.cost s o)) (d.ops s)
        { st with expd := st.expd + 1 }

/-- idastar.hpp:25-35: the loop of `search`. -/
def iter (d : Dom S O C) (h : S → C) (l : Lim) (m1 : C) (s0 : S) (fuel : Nat) :
    Nat → C → ISt C → Outcome (Res S O C)
  | 0, _, _ => .nofuel
  | i + 1, bound, st =>
    if st.lim l then .ok (none, { st with calls := st.calls + 1 })
    else
      (dfs d h l m1 bound fuel s0 d.nop 0 { st with calls := st.calls + 1, minoob := m1 }).bind fun r =>
        match r.1 with
        | some p => .ok (some p, r.2)
        | none => iter d h l m1 s0 fuel i r.2.minoob r.2

/-- idastar.hpp:19-38 `search`, with at most `iters` iterations and recursion depth `fuel`. -/
def search (d : Dom S O C) (h : S → C) (l : Lim) (m1 : C) (s0 : S) (iters fuel : Nat) : Outcome (Res S O C) :=
  iter d h l m1 s0 fuel iters (h s0) ⟨m1, 0, 0, 0⟩

end Model

variable [DecidableEq O] [AddCommGroup C] [LinearOrder C] [IsOrderedAddMonoid C]
  {d : Dom S O C} {h : S → C} {l : Lim} {m1 bound : C} {s0 : S}

/-! ## Soundness -/

/-- A path found below `s`, reached at cost `g`. -/
def FoundOk (d : Dom S O C) (h : S → C) (bound : C) (s : S) (g : C) (r : List S × List O) : Prop :=
  ∃ ss c t, r.1.reverse = s :: ss ∧ Plan d s r.2.reverse ss c ∧ r.1.head? = some t ∧ d.goal t = true ∧
    g + c + h t ≤ bound

theorem dfsOps_some {s : S} {pop : O} {rec : O → ISt C → Outcome (Res S O C)} {os : List O} {st st' : ISt C}
    {p : List S × List O} (hr : dfsOps l s pop rec os st = .ok (some p, st')) :
    ∃ o ∈ os, ∃ st1 q, rec o st1 = .ok (some q, st') ∧ p = (q.1 ++ [s], q.2 ++ [o]) := by
  induction os generalizing st with
  | nil => simp [dfsOps] at hr
  | cons o os ih =>
    unfold dfsOps at hr
    by_cases hl : st.lim l = true
    · rw [if_pos hl] at hr; simp at hr
    rw [if_neg hl] at hr
    by_cases hp : o = pop
    · rw [if_pos hp] at hr
      obtain ⟨o', h1, h2⟩ := ih hr
      exact ⟨o', List.mem_cons_of_mem _ h1, h2⟩
    · rw [if_neg hp, Outcome.bind_eq_ok] at hr
      obtain ⟨⟨q, st1⟩, h1, h2⟩ := hr
      cases q with
      | none =>
        obtain ⟨o', h3, h4⟩ := ih h2
        exact ⟨o', List.mem_cons_of_mem _ h3, h4⟩
      | some q =>
        dsimp only at h2
        injection h2 with h2
        rw [Prod.mk.injEq] at h2
        obtain ⟨h2, rfl⟩ := h2
        injection h2 with h2
        exact ⟨o, List.mem_cons_self .., _, q, h1, h2.symm⟩

theorem dfs_sound (k : Nat) {s : S} {pop : O} {g : C} {st st' : ISt C} {p : List S × List O}
    (hr : dfs d h l m1 bound k s pop g st = .ok (some p, st')) : FoundOk d h bound s g p := by
  induction k generalizing s pop g st st' p with
  | zero => simp [dfs] at hr
  | succ k ih =>
    unfold dfs at hr
    by_cases h1 : g + h s ≤ bound ∧ d.goal s = true
    · rw [if_pos h1] at hr
      injection hr with hr
      rw [Prod.mk.injEq] at hr
      injection hr.1 with hr1
      subst hr1
      exact ⟨[], 0, s, rfl, .nil s, rfl, h1.2, by rw [add_zero]; exact h1.1⟩
    rw [if_neg h1] at hr
    by_cases h2 : bound < g + h s
    · rw [if_pos h2] at hr; simp at hr
    rw [if_neg h2] at hr
    obtain ⟨o, ho, st1, q, e1, e2⟩ := dfsOps_some hr
    obtain ⟨ss, c, t, f1, f2, f3, f4, f5⟩ := ih e1
    subst e2
    refine ⟨d.app s o :: ss, d.cost s o + c, t, ?_, ?_, ?_, f4, by rw [← add_assoc]; exact f5⟩
    · rw [List.reverse_append, f1]; rfl
    · rw [List.reverse_append]; exact .cons ho f2
    · dsimp only
      cases hq : q.1 with
      | nil => rw [hq] at f3; simp at f3
      | cons x xs => rw [hq] at f3; simpa using f3

/-! ## What a failed depth-first search has seen -/

/-- A plan that never uses the operator leading straight back; `pop` is the operator leading back from `s`. -/
inductive NRPlan (d : Dom S O C) : S → O → S → C → Prop
  | nil (s : S) (pop : O) : NRPlan d s pop s 0
  | cons {s t : S} {pop o : O} {c : C} : o ∈ d.ops s → o ≠ pop → NRPlan d (d.app s o) (d.rev s o) t c →
      NRPlan d s pop t (d.cost s o + c)

/-- Plans with their length, for the induction below. -/
inductive LPlan (d : Dom S O C) : Nat → S → S → C → Prop
  | nil (s : S) : LPlan d 0 s s 0
  | cons {n : Nat} {s t : S} {o : O} {c : C} : o ∈ d.ops s → LPlan d n (d.app s o) t c →
      LPlan d (n + 1) s t (d.cost s o + c)

theorem Plan.lplan {s : S} {os : List O} {ss : List S} {c : C} (hp : Plan d s os ss c) :
    LPlan d os.length s ((s :: ss).getLast (by simp)) c := by
  induction hp with
  | nil => exact .nil _
  | cons ho _ ih => rw [List.getLast_cons (by simp)]; exact .cons ho ih

theorem LPlan.walk {n : Nat} {s t : S} {c : C} (hp : LPlan d n s t c) : Walk d s t c := by
  induction hp with
  | nil => exact .nil _
  | @cons n s t o c ho _ ih =>
    have h1 : Walk d s (d.app s o) (d.cost s o) := by
      have := (Walk.nil (d := d) s).snoc ho
      rwa [zero_add] at this
    exact h1.trans ih

/-- Either the plan never goes straight back, or a shorter plan is not more expensive. -/
theorem LPlan.nr_or (hd : DomOk d s0) {n : Nat} {s t : S} {c : C} (hp : LPlan d n s t c) {w : C}
    (hw : Walk d s0 s w) (pop : O) :
    (∃ m, ∃ c' ≤ c, m < n ∧ LPlan d m s t c') ∨ NRPlan d s pop t c ∨
      ∃ m c1, n = m + 1 ∧ pop ∈ d.ops s ∧ c = d.cost s pop + c1 ∧ LPlan d m (d.app s pop) t c1 := by
  induction hp generalizing w pop with
  | nil s => exact Or.inr (Or.inl (.nil s pop))
  | @cons n s t o c ho hp ih =>
    have hw' := hw.snoc ho
    have hc := hd.cost _ _ hw _ ho
    rcases ih hw' (d.rev s o) with ⟨m, c', h1, h2, h3⟩ | hnr | ⟨m, c1, e1, e2, e3, e4⟩
    · exact Or.inl ⟨m + 1, _, by gcongr, by omega, .cons ho h3⟩
    · by_cases hpop : o = pop
      · subst hpop
        exact Or.inr (Or.inr ⟨n, c, rfl, ho, rfl, hp⟩)
      · exact Or.inr (Or.inl (.cons ho hpop hnr))
    · rw [hd.rev _ _ hw _ ho e2] at e4
      refine Or.inl ⟨m, c1, ?_, by omega, e4⟩
      have hc' := hd.cost _ _ hw' _ e2
      rw [e3, ← add_assoc]
      exact le_add_of_nonneg_left (add_nonneg hc hc')

/-- From the start, every plan can be replaced by one that never goes straight back. -/
theorem LPlan.nr (hd : DomOk d s0) {n : Nat} {t : S} {c : C} (hp : LPlan d n s0 t c) :
    ∃ c' ≤ c, NRPlan d s0 d.nop t c' := by
  induction n using Nat.strong_induction_on generalizing c with
  | _ n ih =>
    rcases hp.nr_or hd (.nil s0) d.nop with ⟨m, c', h1, h2, h3⟩ | hnr | ⟨m, c1, -, e2, -⟩
    · obtain ⟨c'', h4, h5⟩ := ih m h2 h3
      exact ⟨c'', h4.trans h1, h5⟩
    · exact ⟨c, le_rfl, hnr⟩
    · exact absurd e2 (hd.nop _ _ (.nil s0))

/-- The limit test never changes its mind. -/
def LimMono (l : Lim) : Prop := ∀ a b c a' b' c', a ≤ a' → b ≤ b' → c ≤ c' → l a b c = true → l a' b' c' = true

/-- The statistics grow, and `minoob` moves from the sentinel to a value above the bound, then downwards. -/
structure Ext (m1 bound : C) (st st' : ISt C) : Prop where
  expd : st.expd ≤ st'.expd
  gend : st.gend ≤ st'.gend
  calls : st.calls ≤ st'.calls
  oob : st.minoob ≠ m1 → st'.minoob ≠ m1 ∧ st'.minoob ≤ st.minoob
  gt : st'.minoob = st.minoob ∨ bound < st'.minoob

theorem Ext.refl (m1 bound : C) (st : ISt C) : Ext m1 bound st st :=
  ⟨le_rfl, le_rfl, le_rfl, fun h => ⟨h, le_rfl⟩, Or.inl rfl⟩

theorem Ext.trans {s1 s2 s3 : ISt C} (h1 : Ext m1 bound s1 s2) (h2 : Ext m1 bound s2 s3) : Ext m1 bound s1 s3 :=
  ⟨h1.expd.trans h2.expd, h1.gend.trans h2.gend, h1.calls.trans h2.calls,
    fun h => ⟨(h2.oob (h1.oob h).1).1, (h2.oob (h1.oob h).1).2.trans (h1.oob h).2⟩, by
      rcases h2.gt with h | h
      · rw [h]; exact h1.gt
      · exact Or.inr h⟩

theorem dfsOps_ext {s : S} {pop : O} {rec : O → ISt C → Outcome (Res S O C)} {os : List O} {st : ISt C}
    {r : Res S O C} (hrec : ∀ o ∈ os, ∀ st r, rec o st = .ok r → Ext m1 bound st r.2)
    (hr : dfsOps l s pop rec os st = .ok r) : Ext m1 bound st r.2 := by
  induction os generalizing st with
  | nil =>
    unfold dfsOps at hr
    injection hr with hr
    subst hr
    exact .refl _ _ _
  | cons o os ih =>
    have hcall : ∀ g, st.gend ≤ g → Ext m1 bound st { st with calls := st.calls + 1, gend := g } := fun g hg =>
      ⟨le_rfl, hg, Nat.le_succ _, fun h => ⟨h, le_rfl⟩, Or.inl rfl⟩
    unfold dfsOps at hr
    by_cases hl : st.lim l = true
    · rw [if_pos hl] at hr
      injection hr with hr
      subst hr
      exact hcall _ le_rfl
    rw [if_neg hl] at hr
    by_cases hp : o = pop
    · rw [if_pos hp] at hr
      exact (hcall _ le_rfl).trans (ih (fun o ho => hrec o (List.mem_cons_of_mem _ ho)) hr)
    · rw [if_neg hp, Outcome.bind_eq_ok] at hr
      obtain ⟨⟨q, st1⟩, h1, h2⟩ := hr
      have e1 := (hcall _ (Nat.le_succ _)).trans (hrec o (List.mem_cons_self ..) _ _ h1)
      cases q with
      | none => exact e1.trans (ih (fun o ho => hrec o (List.mem_cons_of_mem _ ho)) h2)
      | some q =>
        dsimp only at h2
        injection h2 with h2
        subst h2
        exact e1

theorem dfs_ext (hm : m1 ≤ bound) (k : Nat) {s : S} {pop : O} {g : C} {st : ISt C} {r : Res S O C}
    (hr : dfs d h l m1 bound k s pop g st = .ok r) : Ext m1 bound st r.2 := by
  induction k generalizing s pop g st r with
  | zero => simp [dfs] at hr
  | succ k ih =>
    unfold dfs at hr
    by_cases h1 : g + h s ≤ bound ∧ d.goal s = true
    · rw [if_pos h1] at hr
      injection hr with hr
      subst hr
      exact .refl _ _ _
    rw [if_neg h1] at hr
    by_cases h2 : bound < g + h s
    · rw [if_pos h2] at hr
      injection hr with hr
      subst hr
      refine ⟨le_rfl, le_rfl, le_rfl, fun hne => ?_, ?_⟩
      · dsimp only
        by_cases hc : st.minoob = m1 ∨ g + h s < st.minoob
        · rw [if_pos hc]
          exact ⟨ne_of_gt (lt_of_le_of_lt hm h2), (hc.resolve_left hne).le⟩
        · rw [if_neg hc]; exact ⟨hne, le_rfl⟩
      · dsimp only
        by_cases hc : st.minoob = m1 ∨ g + h s < st.minoob
        · rw [if_pos hc]; exact Or.inr h2
        · rw [if_neg hc]; exact Or.inl rfl
    rw [if_neg h2] at hr
    have e0 : Ext m1 bound st { st with expd := st.expd + 1 } :=
      ⟨Nat.le_succ _, le_rfl, le_rfl, fun h => ⟨h, le_rfl⟩, Or.inl rfl⟩
    exact e0.trans (dfsOps_ext (fun o _ st r hr => ih hr) hr)

/-- If the loop fails without the limit being reached, it has called `dfs` on every operator except `pop`. -/
theorem dfsOps_none {s : S} {pop : O} {rec : O → ISt C → Outcome (Res S O C)} {os : List O} {st st' : ISt C}
    (hm : LimMono l) (hrec : ∀ o ∈ os, ∀ st r, rec o st = .ok r → Ext m1 bound st r.2)
    (hr : dfsOps l s pop rec os st = .ok (none, st')) (hl : st'.lim l = false) :
    ∀ o ∈ os, o ≠ pop → ∃ st1 st2, rec o st1 = .ok (none, st2) ∧ Ext m1 bound st2 st' := by
  induction os generalizing st with
  | nil => simp
  | cons o os ih =>
    unfold dfsOps at hr
    by_cases hlim : st.lim l = true
    · rw [if_pos hlim] at hr
      injection hr with hr
      rw [Prod.mk.injEq] at hr
      rw [← hr.2] at hl
      have : ISt.lim l { st with calls := st.calls + 1 } = true :=
        hm _ _ _ _ _ _ le_rfl le_rfl (Nat.le_succ _) hlim
      rw [this] at hl
      exact absurd hl (by simp)
    rw [if_neg hlim] at hr
    by_cases hp : o = pop
    · rw [if_pos hp] at hr
      intro o' ho' hne
      rcases List.mem_cons.1 ho' with rfl | ho'
      · exact absurd hp hne
      · exact ih (fun o ho => hrec o (List.mem_cons_of_mem _ ho)) hr o' ho' hne
    · rw [if_neg hp, Outcome.bind_eq_ok] at hr
      obtain ⟨⟨q, st1⟩, h1, h2⟩ := hr
      cases q with
      | some q => simp at h2
      | none =>
        dsimp only at h2
        intro o' ho' hne
        rcases List.mem_cons.1 ho' with rfl | ho'
        · exact ⟨_, st1, h1, dfsOps_ext (fun o ho => hrec o (List.mem_cons_of_mem _ ho)) h2⟩
        · exact ih (fun o ho => hrec o (List.mem_cons_of_mem _ ho)) h2 o' ho' hne

/-- A failed search below `s` that was not cut off by the limit: every solution from `s` costs at least the new
`minoob`. -/
theorem dfs_complete (hlm : LimMono l) (hm : m1 ≤ bound) {kk : C}
    (hadm : ∀ s c0, Walk d s0 s c0 → ∀ t c, Walk d s t c → d.goal t = true → h s ≤ c + kk) (k : Nat) {s : S} {pop : O}
    {g : C} {st st' : ISt C} (hw : Walk d s0 s g) (hr : dfs d h l m1 bound k s pop g st = .ok (none, st'))
    (hl : st'.lim l = false) {t : S} {c : C} (hp : NRPlan d s pop t c) (ht : d.goal t = true) :
    st'.minoob ≠ m1 ∧ st'.minoob ≤ g + c + kk := by
  have nrwalk : ∀ {s pop t c}, NRPlan d s pop t c → Walk d s t c := by
    intro s pop t c hp
    induction hp with
    | nil => exact .nil _
    | @cons s t pop o c ho _ _ ih =>
      have h1 : Walk d s (d.app s o) (d.cost s o) := by
        have := (Walk.nil (d := d) s).snoc ho
        rwa [zero_add] at this
      exact h1.trans ih
  induction k generalizing s pop g st st' c with
  | zero => simp [dfs] at hr
  | succ k ih =>
    unfold dfs at hr
    by_cases h1 : g + h s ≤ bound ∧ d.goal s = true
    · rw [if_pos h1] at hr; simp at hr
    rw [if_neg h1] at hr
    by_cases h2 : bound < g + h s
    · rw [if_pos h2] at hr
      injection hr with hr
      rw [Prod.mk.injEq] at hr
      have hle : g + h s ≤ g + c + kk := by
        rw [add_assoc]
        gcongr
        exact hadm s g hw t c (nrwalk hp) ht
      rw [← hr.2]
      dsimp only
      by_cases hc : st.minoob = m1 ∨ g + h s < st.minoob
      · rw [if_pos hc]
        exact ⟨ne_of_gt (lt_of_le_of_lt hm h2), hle⟩
      · rw [if_neg hc]
        rw [not_or, not_lt] at hc
        exact ⟨hc.1, hc.2.trans hle⟩
    rw [if_neg h2] at hr
    cases hp with
    | nil => exact absurd ⟨not_lt.1 h2, ht⟩ h1
    | @cons _ _ _ o c' ho hne hp =>
      obtain ⟨st1, st2, e1, e2⟩ := dfsOps_none hlm (fun o _ st r hr => dfs_ext hm k hr) hr hl o ho hne
      have hl2 : st2.lim l = false := by
        by_contra hc
        have : st'.lim l = true := hlm _ _ _ _ _ _ e2.expd e2.gend e2.calls (by simpa [ISt.lim] using hc)
        rw [this] at hl
        exact absurd hl (by simp)
      obtain ⟨f1, f2⟩ := ih (hw.snoc ho) e1 hl2 hp
      obtain ⟨f3, f4⟩ := e2.oob f1
      refine ⟨f3, f4.trans ?_⟩
      rw [← add_assoc]
      exact f2

/-! ## The outer loop -/

theorem iter_optimal (hd : DomOk d s0) (hlm : LimMono l) {kk : C}
    (hadm : ∀ s c0, Walk d s0 s c0 → ∀ t c, Walk d s t c → d.goal t = true → h s ≤ c + kk) {fuel : Nat} (i : Nat)
    {st st' : ISt C} {p : List S × List O} {bound : C} (hm : m1 ≤ bound)
    (hb : ∀ n t c, LPlan d n s0 t c → d.goal t = true → bound ≤ c + kk)
    (hr : iter d h l m1 s0 fuel i bound st = .ok (some p, st')) :
    ∃ b, FoundOk d h b s0 0 p ∧ ∀ n t c, LPlan d n s0 t c → d.goal t = true → b ≤ c + kk := by
  induction i generalizing bound st with
  | zero => simp [iter] at hr
  | succ i ih =>
    unfold iter at hr
    by_cases hl : st.lim l = true
    · rw [if_pos hl] at hr; simp at hr
    rw [if_neg hl, Outcome.bind_eq_ok] at hr
    obtain ⟨⟨q, st1⟩, h1, h2⟩ := hr
    cases q with
    | some q =>
      dsimp only at h2
      injection h2 with h2
      rw [Prod.mk.injEq] at h2
      injection h2.1 with h3
      subst h3
      exact ⟨bound, dfs_sound fuel h1, hb⟩
    | none =>
      dsimp only at h2
      have hext := dfs_ext hm fuel h1
      have hm' : m1 ≤ st1.minoob := by
        rcases hext.gt with e | e
        · exact e.ge
        · exact hm.trans e.le
      by_cases hl1 : st1.lim l = true
      · -- the limit was reached, so the loop would have stopped without a path
        cases i with
        | zero => simp [iter] at h2
        | succ i => unfold iter at h2; rw [if_pos hl1] at h2; simp at h2
      · refine ih hm' (fun n t c hp ht => ?_) h2
        obtain ⟨c', hc', hnr⟩ := hp.nr hd
        have := (dfs_complete hlm hm hadm fuel (.nil s0) h1 (by simpa using hl1) hnr ht).2
        rw [zero_add] at this
        exact this.trans (by gcongr)

theorem iter_sound {fuel : Nat} (i : Nat) {st st' : ISt C} {p : List S × List O} {bound : C}
    (hr : iter d h l m1 s0 fuel i bound st = .ok (some p, st')) : ∃ b, FoundOk d h b s0 0 p := by
  induction i generalizing bound st with
  | zero => simp [iter] at hr
  | succ i ih =>
    unfold iter at hr
    by_cases hl : st.lim l = true
    · rw [if_pos hl] at hr; simp at hr
    rw [if_neg hl, Outcome.bind_eq_ok] at hr
    obtain ⟨⟨q, st1⟩, h1, h2⟩ := hr
    cases q with
    | some q =>
      dsimp only at h2
      injection h2 with h2
      rw [Prod.mk.injEq] at h2
      injection h2.1 with h3
      subst h3
      exact ⟨bound, dfs_sound fuel h1⟩
    | none => exact ih h2

/-- Without a limit the loop cannot end without a path. -/
theorem iter_no_none (hl : ∀ a b c, l a b c = false) {fuel : Nat} (i : Nat) {st st' : ISt C} {bound : C} :
    iter d h l m1 s0 fuel i bound st ≠ .ok (none, st') := by
  induction i generalizing bound st with
  | zero => simp [iter]
  | succ i ih =>
    intro hr
    unfold iter at hr
    rw [if_neg (by unfold ISt.lim; rw [hl]; simp), Outcome.bind_eq_ok] at hr
    obtain ⟨⟨q, st1⟩, h1, h2⟩ := hr
    cases q with
    | some q => simp at h2
    | none => exact ih h2

/-! ## Running out of fuel -/

/-- The models of `dfs` have only two outcomes. -/
def Fine (r : Outcome (Res S O C)) : Prop := ∃ x, r = .ok x

theorem dfsOps_fine {s : S} {pop : O} {rec : O → ISt C → Outcome (Res S O C)} (Q : ISt C → Prop)
    (hQ : ∀ st, Q st → Q { st with calls := st.calls + 1 })
    {os : List O} {st : ISt C} (h0 : Q st)
    (hrec : ∀ o ∈ os, ∀ st, Q st → st.lim l = false →
      ∃ r, rec o { st with calls := st.calls + 1, gend := st.gend + 1 } = .ok r ∧ Q r.2) :
    Fine (dfsOps l s pop rec os st) := by
  induction os generalizing st with
  | nil => exact ⟨_, rfl⟩
  | cons o os ih =>
    unfold dfsOps
    by_cases hl : st.lim l = true
    · rw [if_pos hl]; exact ⟨_, rfl⟩
    rw [if_neg hl]
    by_cases hp : o = pop
    · rw [if_pos hp]
      exact ih (hQ st h0) (fun o ho => hrec o (List.mem_cons_of_mem _ ho))
    · rw [if_neg hp]
      obtain ⟨⟨q, st1⟩, h1, h2⟩ := hrec o (List.mem_cons_self ..) st h0 (by simpa using hl)
      rw [h1]
      show Fine (match q with
        | some p => .ok (some (p.1 ++ [s], p.2 ++ [o]), st1)
        | none => dfsOps l s pop rec os st1)
      cases q with
      | some q => exact ⟨_, rfl⟩
      | none => exact ih h2 (fun o ho => hrec o (List.mem_cons_of_mem _ ho))

/-- With an expansion limit the recursion is never deeper than the limit. -/
theorem dfs_fine_limit {L : Nat} (hL : ∀ a b c, l a b c = decide (L ≤ a)) (hm : m1 ≤ bound) (k : Nat) {s : S} {pop : O}
    {g : C} {st : ISt C} (hk : 1 ≤ k) (hst : L ≤ st.expd + (k - 1)) :
    Fine (dfs d h l m1 bound k s pop g st) := by
  induction k generalizing s pop g st with
  | zero => omega
  | succ k ih =>
    unfold dfs
    split
    · exact ⟨_, rfl⟩
    split
    · exact ⟨_, rfl⟩
    refine dfsOps_fine (fun st' => st.expd + 1 ≤ st'.expd) (fun _ h => h) le_rfl (fun o _ st' hq hlim => ?_)
    have hlt : st'.expd < L := by
      unfold ISt.lim at hlim
      rw [hL] at hlim
      simpa using hlim
    obtain ⟨r, hr⟩ := ih (s := d.app s o) (pop := d.rev s o) (g := g + d.cost s o)
      (st := { st' with calls := st'.calls + 1, gend := st'.gend + 1 }) (by omega) (by dsimp only; omega)
    exact ⟨r, hr, hq.trans (dfs_ext hm k hr).expd⟩

/-- One search from the start either finds the goal, or expands a node, or has a bound below `h s0`. -/
theorem dfs_progress (hm : m1 ≤ bound) (k : Nat) {s : S} {pop : O} {st st' : ISt C}
    (hr : dfs d h l m1 bound k s pop 0 st = .ok (none, st')) (hb : h s ≤ bound) : st.expd + 1 ≤ st'.expd := by
  cases k with
  | zero => simp [dfs] at hr
  | succ k =>
    unfold dfs at hr
    by_cases h1 : 0 + h s ≤ bound ∧ d.goal s = true
    · rw [if_pos h1] at hr; simp at hr
    rw [if_neg h1] at hr
    rw [if_neg (by rw [zero_add]; exact not_lt.2 hb)] at hr
    have := dfsOps_ext (bound := bound) (m1 := m1) (fun o _ st r hr => dfs_ext hm k hr) hr
    exact this.expd

theorem dfs_low (k : Nat) {s : S} {pop : O} {st : ISt C} (hb : bound < h s) (hst : st.minoob = m1) :
    dfs d h l m1 bound (k + 1) s pop 0 st = .ok (none, { st with minoob := h s }) := by
  unfold dfs
  rw [zero_add, if_neg (fun hc => absurd hc.1 (not_le.2 hb)), if_pos hb, if_pos (Or.inl hst)]

/-- With an expansion limit the loop ends. -/
theorem iter_fine_limit {L : Nat} (hL : ∀ a b c, l a b c = decide (L ≤ a)) (i : Nat) {st : ISt C} {bound : C}
    (hm : m1 ≤ bound) (hcase : h s0 ≤ bound ∨ bound = m1)
    (hi : 2 * (L - st.expd) + 1 + (if h s0 ≤ bound then 0 else 1) ≤ i) :
    Fine (iter d h l m1 s0 (L + 1) i bound st) := by
  induction i generalizing bound st with
  | zero => omega
  | succ i ih =>
    unfold iter
    by_cases hl : st.lim l = true
    · rw [if_pos hl]; exact ⟨_, rfl⟩
    rw [if_neg hl]
    have hlt : st.expd < L := by
      unfold ISt.lim at hl
      rw [hL] at hl
      simpa using hl
    obtain ⟨⟨q, st1⟩, h1⟩ := dfs_fine_limit (d := d) (h := h) hL hm (L + 1) (s := s0) (pop := d.nop) (g := 0)
      (st := { st with calls := st.calls + 1, minoob := m1 }) (by omega) (by dsimp only; omega)
    rw [h1]
    show Fine (match q with
      | some p => .ok (some p, st1)
      | none => iter d h l m1 s0 (L + 1) i st1.minoob st1)
    cases q with
    | some q => exact ⟨_, rfl⟩
    | none =>
      have hext := dfs_ext hm _ h1
      by_cases hb : h s0 ≤ bound
      · rw [if_pos hb] at hi
        have hex := dfs_progress hm _ h1 hb
        dsimp only at hex
        refine ih ?_ ?_ ?_
        · rcases hext.gt with e | e
          · exact e.ge
          · exact hm.trans e.le
        · rcases hext.gt with e | e
          · exact Or.inr e
          · exact Or.inl (hb.trans e.le)
        · have : (if h s0 ≤ st1.minoob then 0 else 1) ≤ 1 := by split <;> omega
          omega
      · rw [if_neg hb] at hi
        rw [dfs_low (m1 := m1) L (not_le.1 hb) rfl] at h1
        injection h1 with h1
        rw [Prod.mk.injEq] at h1
        obtain ⟨-, h1⟩ := h1
        subst h1
        refine ih (hm.trans (not_le.1 hb).le) (Or.inl le_rfl) ?_
        dsimp only
        rw [if_pos le_rfl]
        omega

/-! ## Completeness for integer costs -/

section IntCost
variable {d : Dom S O Int} {h : S → Int} {l : Lim} {m1 bound : Int} {s0 : S}

theorem dfs_fine_int (hm : m1 ≤ bound) {I : S → Prop} (hI : ∀ s, I s → ∀ o ∈ d.ops s, I (d.app s o))
    (hcost : ∀ s, I s → ∀ o ∈ d.ops s, 1 ≤ d.cost s o) (hh : ∀ s, I s → 0 ≤ h s) (k : Nat) {s : S} (hs : I s)
    {pop : O} {g : Int} {st : ISt Int} (hk : 1 ≤ k) (hg : bound - g + 2 ≤ k) :
    Fine (dfs d h l m1 bound k s pop g st) := by
  induction k generalizing s pop g st with
  | zero => omega
  | succ k ih =>
    have hhs := hh s hs
    unfold dfs
    split
    · exact ⟨_, rfl⟩
    split
    · exact ⟨_, rfl⟩
    rename_i hf
    refine dfsOps_fine (fun _ => True) (fun _ _ => trivial) trivial (fun o ho st' _ _ => ?_)
    have hc := hcost s hs o ho
    obtain ⟨r, hr⟩ := ih (s := d.app s o) (hI s hs o ho) (pop := d.rev s o) (g := g + d.cost s o)
      (st := { st' with calls := st'.calls + 1, gend := st'.gend + 1 }) (by omega) (by omega)
    exact ⟨r, hr, trivial⟩

theorem iter_complete_int (hd : DomOk d s0) (hl : ∀ a b c, l a b c = false)
    (hcost : ∀ s c0, Walk d s0 s c0 → ∀ o ∈ d.ops s, 1 ≤ d.cost s o) (hh : ∀ s c0, Walk d s0 s c0 → 0 ≤ h s)
    (hadm : ∀ s c0, Walk d s0 s c0 → ∀ t c, Walk d s t c → d.goal t = true → h s ≤ c + 0)
    {n : Nat} {t : S} {c : Int} (hp : LPlan d n s0 t c) (ht : d.goal t = true) (fuel i : Nat) {st : ISt Int} {bound : Int}
    (hm : m1 ≤ bound) (hb : bound ≤ c) (hf : c + 2 ≤ fuel) (hi : c - bound + 1 ≤ i) :
    ∃ p st', iter d h l m1 s0 fuel i bound st = .ok (some p, st') := by
  induction i generalizing bound st with
  | zero => omega
  | succ i ih =>
    unfold iter
    rw [if_neg (by unfold ISt.lim; rw [hl]; simp)]
    have h0 : 0 ≤ c := by
      have h1 := hh s0 0 (.nil s0)
      have h2 := hadm s0 0 (.nil s0) t c hp.walk ht
      omega
    obtain ⟨⟨q, st1⟩, h1⟩ := dfs_fine_int (l := l) hm (I := fun s => ∃ c0, Walk d s0 s c0)
      (fun s ⟨c0, hw⟩ o ho => ⟨_, hw.snoc ho⟩) (fun s ⟨c0, hw⟩ => hcost s c0 hw) (fun s ⟨c0, hw⟩ => hh s c0 hw) fuel (s := s0) ⟨0, .nil s0⟩ (pop := d.nop) (g := 0)
      (st := { st with calls := st.calls + 1, minoob := m1 }) (by omega) (by omega)
    rw [h1]
    cases q with
    | some q => exact ⟨q, st1, rfl⟩
    | none =>
      obtain ⟨c', hc', hnr⟩ := hp.nr hd
      obtain ⟨e1, e2⟩ := dfs_complete (fun _ _ _ _ _ _ _ _ _ hc => by rw [hl] at hc; simp at hc) hm hadm fuel (.nil s0) h1
        (by unfold ISt.lim; rw [hl]) hnr ht
      have hgt : bound < st1.minoob := (dfs_ext hm fuel h1).gt.resolve_left e1
      exact ih (bound := st1.minoob) (by omega) (by omega) (by omega)

end IntCost

end Verif.Ida
