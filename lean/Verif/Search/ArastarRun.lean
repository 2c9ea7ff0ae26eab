import Verif.Search.ArastarThms

/-!
# Anytime repairing A*: termination, and an executable run for examples
-/

namespace Verif.Search.Arastar

variable {S O K : Type*}

theorem countP_lt {α : Type*} {p q : α → Bool} {l : List α} (hpq : ∀ x ∈ l, p x = true → q x = true) {a : α}
    (ha : a ∈ l) (hq : q a = true) (hp : p a = false) : l.countP p < l.countP q := by
  induction l with
  | nil => exact absurd ha (by simp)
  | cons b l ih =>
    have hle : l.countP p ≤ l.countP q := List.countP_mono_left fun x hx => hpq x (List.mem_cons_of_mem _ hx)
    rcases List.mem_cons.1 ha with e | e
    · subst e
      rw [List.countP_cons_of_pos hq, List.countP_cons_of_neg (by rw [hp]; simp)]
      omega
    · have := ih (fun x hx => hpq x (List.mem_cons_of_mem _ hx)) e
      by_cases hb : p b = true
      · rw [List.countP_cons_of_pos hb, List.countP_cons_of_pos (hpq b List.mem_cons_self hb)]
        omega
      · rw [List.countP_cons_of_neg hb]
        rw [List.countP_cons]
        omega

section Term
variable [DecidableEq S] [DecidableEq O] [Field K] [LinearOrder K] [IsStrictOrderedRing K]
  {d : Dom S O K} {h : S → K} {keep : Nat → S → Bool} {s0 : S}

/-- States of which no node is inconsistent; states that are not closed; open nodes. -/
def meas (L : List S) (st : St S O K) : ℕ ×ₗ ℕ ×ₗ ℕ :=
  toLex (L.countP fun s => decide (∀ i ∈ st.incons, (st.nd i).state ≠ s),
    toLex (L.countP fun s => (st.closed s).isNone, (List.range st.next).countP fun i => (st.nd i).isopen))

theorem meas_le {L : List S} {a b : St S O K}
    (h1 : (L.countP fun s => decide (∀ i ∈ a.incons, (a.nd i).state ≠ s)) <
        (L.countP fun s => decide (∀ i ∈ b.incons, (b.nd i).state ≠ s)) ∨
      ((L.countP fun s => decide (∀ i ∈ a.incons, (a.nd i).state ≠ s)) =
          (L.countP fun s => decide (∀ i ∈ b.incons, (b.nd i).state ≠ s)) ∧
        ((L.countP fun s => (a.closed s).isNone) < (L.countP fun s => (b.closed s).isNone) ∨
          ((L.countP fun s => (a.closed s).isNone) = (L.countP fun s => (b.closed s).isNone) ∧
            ((List.range a.next).countP fun i => (a.nd i).isopen) ≤
              (List.range b.next).countP fun i => (b.nd i).isopen)))) : meas L a ≤ meas L b := by
  unfold meas
  rw [Prod.Lex.toLex_le_toLex, Prod.Lex.toLex_le_toLex]
  exact h1

theorem meas_considerkid (hd : DomOk d s0) {L : List S} (hL : ∀ s c, Walk d s0 s c → s ∈ L) {st : St S O K} {n : Nat}
    {o : O} {rem : List O} (hi : InvE d h s0 st n (o :: rem)) (hn : n < st.next) (ho : o ∈ d.ops (st.nd n).state) :
    meas L (considerkid d h keep n o st) ≤ meas L st := by
  have htL : d.app (st.nd n).state o ∈ L := hL _ _ ((hi.tree.walk n hn).snoc ho)
  unfold considerkid
  dsimp only
  revert htL
  generalize d.app (st.nd n).state o = t
  intro htL
  cases hcl : st.closed t with
  | some k =>
    dsimp only
    split
    · exact le_rfl
    · obtain ⟨hk, hks, hko⟩ := hi.cl _ _ hcl
      have hst : ∀ g p pa o' q b i, (Function.update st.nd k ⟨(st.nd k).state, g, p, pa, o', q, b⟩ i).state =
          (st.nd i).state := fun g p pa o' q b i => by
        by_cases e : i = k
        · rw [e, Function.update_self]
        · rw [Function.update_of_ne e]
      have hop : ∀ s g p pa o' q i, (Function.update st.nd k ⟨s, g, p, pa, o', q, (st.nd k).isopen⟩ i).isopen =
          (st.nd i).isopen := fun s g p pa o' q i => by
        by_cases e : i = k
        · rw [e, Function.update_self]
        · rw [Function.update_of_ne e]
      split
      · refine le_of_eq ?_
        unfold meas
        dsimp only
        simp only [hst, hop]
      · unfold addincons
        dsimp only
        split
        · refine le_of_eq ?_
          unfold meas
          dsimp only
          simp only [hst, hop]
        · rename_i hany
          refine meas_le (Or.inl ?_)
          dsimp only
          simp only [hst] at hany ⊢
          refine countP_lt (a := t) ?_ htL ?_ ?_
          · intro s _ hs
            rw [decide_eq_true_eq] at hs ⊢
            exact fun i hi' => hs i (List.mem_cons_of_mem _ hi')
          · rw [decide_eq_true_eq]
            intro i hi' e
            refine hany (List.any_eq_true.2 ⟨i, hi', ?_⟩)
            rw [decide_eq_true_eq, e, hks]
          · rw [decide_eq_false_iff_not]
            intro hall
            exact hall k List.mem_cons_self hks
  | none =>
    dsimp only
    refine meas_le (Or.inr ⟨?_, Or.inl ?_⟩)
    · dsimp only
      refine List.countP_congr fun s _ => ?_
      rw [decide_eq_true_eq, decide_eq_true_eq]
      refine forall₂_congr fun i hii => ?_
      rw [Function.update_of_ne (by have := (hi.inc i hii).1; omega)]
    · dsimp only
      refine countP_lt (a := t) ?_ htL ?_ ?_
      · intro s _ hs
        by_cases e : s = t
        · rw [e, hcl]; rfl
        · rwa [Function.update_of_ne e] at hs
      · rw [hcl]; rfl
      · rw [Function.update_self]; rfl

theorem meas_tryop (hd : DomOk d s0) {L : List S} (hL : ∀ s c, Walk d s0 s c → s ∈ L) {st : St S O K} {n : Nat}
    {o : O} {rem : List O} (hi : InvE d h s0 st n (o :: rem)) (hn : n < st.next) (ho : o ∈ d.ops (st.nd n).state) :
    meas L (tryop d h keep n st o) ≤ meas L st := by
  unfold tryop
  split
  · exact le_rfl
  · have hi' : InvE d h s0 { st with gend := st.gend + 1 } n (o :: rem) :=
      ⟨hi.tree, hi.cl, hi.fp, hi.inc, hi.curl, hi.stat, hi.succ, hi.logw, hi.goal, hi.well, hi.wt1⟩
    exact meas_considerkid hd hL hi' hn ho

theorem meas_foldl (hd : DomOk d s0) {L : List S} (hL : ∀ s c, Walk d s0 s c → s ∈ L) {n : Nat} {os : List O}
    {st : St S O K} (hi : InvE d h s0 st n os) (hn : n < st.next) (hos : ∀ o ∈ os, o ∈ d.ops (st.nd n).state) :
    meas L (os.foldl (tryop d h keep n) st) ≤ meas L st := by
  induction os generalizing st with
  | nil => exact le_rfl
  | cons o os ih =>
    obtain ⟨h1, h2, h3⟩ := invE_tryop (keep := keep) hd hi hn (hos o List.mem_cons_self)
    rw [List.foldl_cons]
    exact (ih h1 (by omega) (fun o' ho' => by rw [h2]; exact hos o' (List.mem_cons_of_mem _ ho'))).trans
      (meas_tryop hd hL hi hn (hos o List.mem_cons_self))

theorem meas_expand (hd : DomOk d s0) {L : List S} (hL : ∀ s c, Walk d s0 s c → s ∈ L) {n : Nat} {st : St S O K}
    (hi : InvE d h s0 st n (d.ops (st.nd n).state)) (hn : n < st.next) :
    meas L (expand d h keep n st) ≤ meas L st := by
  unfold expand
  have hi' : InvE d h s0 { st with expd := st.expd + 1 } n (d.ops (st.nd n).state) :=
    ⟨hi.tree, hi.cl, hi.fp, hi.inc, hi.curl, hi.stat, hi.succ, hi.logw, hi.goal, hi.well, hi.wt1⟩
  exact meas_foldl hd hL hi' hn (fun _ h => h)

theorem meas_pop (L : List S) {st : St S O K} {n : Nat} (hl : Least st n) : meas L (pop n st) < meas L st := by
  have hst : ∀ i, ((pop n st).nd i).state = (st.nd i).state := fun i => by
    unfold pop
    dsimp only
    by_cases e : i = n
    · rw [e, Function.update_self]
    · rw [Function.update_of_ne e]
  unfold meas
  rw [Prod.Lex.toLex_lt_toLex, Prod.Lex.toLex_lt_toLex]
  refine Or.inr ⟨?_, Or.inr ⟨rfl, ?_⟩⟩
  · simp only [hst]
    rfl
  · refine countP_lt (a := n) ?_ (List.mem_range.2 hl.1) hl.2.1 ?_
    · intro i _ hc
      unfold pop at hc
      dsimp only at hc
      by_cases e : i = n
      · rw [e, Function.update_self] at hc; exact absurd hc (by simp)
      · rwa [Function.update_of_ne e] at hc
    · unfold pop
      dsimp only
      rw [Function.update_self]

theorem expand_wt (n : Nat) (st : St S O K) : (expand d h keep n st).wt = st.wt := (frame_expand n st).wt

omit [IsStrictOrderedRing K] in
theorem report_wt (st : St S O K) : (report h st).wt = st.wt := by
  unfold report
  split
  · dsimp only
    split <;> rfl
  · rfl

theorem step_meas (hd : DomOk d s0) (ha : Adm d s0 h) {dwt : K} {l : St S O K → Prop} {L : List S}
    (hL : ∀ s c, Walk d s0 s c → s ∈ L) {st st' : St S O K} (hs : Step d h keep dwt l st st')
    (hx : (∃ n, InvE d h s0 st n []) ∧ RepL d h s0 st) :
    (st'.wt = st.wt ∧ meas L st' < meas L st) ∨ (1 < st.wt ∧ st'.wt = nextwt dwt st.wt) := by
  obtain ⟨⟨j, hi⟩, hrep⟩ := hx
  cases hs with
  | @plain n hnl hl hg hng =>
    have hi' := invE_pop (sol := st.sol) (fnd := st.found) hd hi hl hg (c' := st.cost)
      (fun hc => ⟨hc, le_rfl⟩) (fun e => by rw [hng] at e; exact absurd e (by simp))
    have e : ((pop n st).nd n).state = (st.nd n).state := by
      unfold pop; dsimp only; rw [Function.update_self]
    have h1 := meas_expand (keep := keep) hd hL (n := n) (st := pop n st) (by rw [e]; exact hi') hl.1
    exact Or.inl ⟨expand_wt _ _, lt_of_le_of_lt h1 (meas_pop L hl)⟩
  | @goal n fuel r hnl hl hg hgl hsol =>
    have hg0 : 0 ≤ (st.nd n).g := (hi.tree.walk n hl.1).nonneg hd.cost
    have hgne : (st.nd n).g ≠ -1 := by
      intro e; rw [e] at hg0; linarith
    have hlt := goal_lt ha hi hl hg hgl
    have hi' := invE_pop (sol := r) (fnd := true) hd hi hl hg (c' := (st.nd n).g)
      (fun hc => ⟨hgne, (hlt.resolve_left hc).le⟩) (fun _ => ⟨hgne, le_rfl⟩)
    have e : (pop n st).nd n = { st.nd n with isopen := false } := by
      unfold pop; dsimp only; rw [Function.update_self]
    have hi'' : InvE d h s0 (setgoal n r (pop n st)) n (d.ops ((setgoal n r (pop n st)).nd n).state) := by
      unfold setgoal
      dsimp only
      rw [e]
      exact hi'
    have h1 := meas_expand (keep := keep) hd hL hi'' hl.1
    exact Or.inl ⟨expand_wt _ _, lt_of_le_of_lt h1 (meas_pop L hl)⟩
  | @next hend hw1 hnl hne =>
    refine Or.inr ⟨hw1, ?_⟩
    show nextwt dwt (report h st).wt = _
    rw [report_wt]

theorem acc_step (hd : DomOk d s0) (ha : Adm d s0 h) {dwt : K} (hdw : 0 < dwt) {l : St S O K → Prop} {L : List S}
    (hL : ∀ s c, Walk d s0 s c → s ∈ L) (k : Nat) :
    ∀ st : St S O K, (∃ n, InvE d h s0 st n []) ∧ RepL d h s0 st → st.wt ≤ 1 + k • dwt →
      Acc (fun b a => Step d h keep dwt l a b) st := by
  induction k with
  | zero =>
    intro st
    induction hm : meas L st using WellFoundedLT.induction generalizing st with
    | ind x ih =>
      intro hx hw
      refine Acc.intro _ fun st' hs => ?_
      have hx' := step_inv hd ha hdw hs hx
      rcases step_meas hd ha hL hs hx with ⟨e1, e2⟩ | ⟨e1, -⟩
      · exact ih _ (hm ▸ e2) _ rfl hx' (by rw [e1]; exact hw)
      · rw [zero_smul, add_zero] at hw
        exact absurd e1 (not_lt.2 hw)
  | succ k ihk =>
    intro st
    induction hm : meas L st using WellFoundedLT.induction generalizing st with
    | ind x ih =>
      intro hx hw
      refine Acc.intro _ fun st' hs => ?_
      have hx' := step_inv hd ha hdw hs hx
      rcases step_meas hd ha hL hs hx with ⟨e1, e2⟩ | ⟨e1, e2⟩
      · exact ih _ (hm ▸ e2) _ rfl hx' (by rw [e1]; exact hw)
      · refine ihk st' hx' ?_
        have hk : (0 : K) ≤ k • dwt := nsmul_nonneg hdw.le k
        rw [succ_nsmul] at hw
        rw [e2]
        unfold nextwt
        dsimp only
        by_cases h1 : st.wt - dwt > 1
        · rw [if_pos h1]
          split
          · linarith
          · linarith
        · rw [if_neg h1, ite_self]
          linarith

end Term

/-! ## An executable run -/

section Exec
variable [DecidableEq S] [DecidableEq O] [Field K] [LinearOrder K] {d : Dom S O K} {h : S → K}
  {keep : Nat → S → Bool} {s0 : S}

instance (st : St S O K) (n : Nat) : Decidable (Least st n) := by unfold Least; infer_instance
instance (st : St S O K) : Decidable (Empty st) := by unfold Empty; infer_instance
instance (st : St S O K) (n : Nat) : Decidable (Good st n) := by unfold Good; infer_instance

/-- A limit on the number of expansions. -/
def lim (k : Nat) (st : St S O K) : Prop := k ≤ st.expd

instance (k : Nat) (st : St S O K) : Decidable (lim k st) := by unfold lim; infer_instance

/-- The end of an iteration of the loop of `search`. -/
def nextX (h : S → K) (dwt : K) (k : Nat) (st : St S O K) : Option (St S O K) :=
  if 1 < st.wt ∧ ¬ lim k (advance h dwt (report h st)) ∧ ¬ Empty (advance h dwt (report h st)) then
    some (advance h dwt (report h st))
  else none

/-- One step, the first least node being popped. -/
def stepX (d : Dom S O K) (h : S → K) (keep : Nat → S → Bool) (dwt : K) (k : Nat) (st : St S O K) :
    Option (St S O K) :=
  if lim k st then nextX h dwt k st
  else
    match (List.range st.next).find? fun n => decide (Least st n ∧ Good st n) with
    | none => nextX h dwt k st
    | some n =>
      if d.goal (st.nd n).state then
        match solpath st.nd st.next n with
        | .ok r => some (expand d h keep n (setgoal n r (pop n st)))
        | _ => none
      else some (expand d h keep n (pop n st))

theorem stepX_step {dwt : K} {k : Nat} {st st' : St S O K} (hs : stepX d h keep dwt k st = some st') :
    Step d h keep dwt (lim k) st st' := by
  have hnext : Ended (lim k) st → nextX h dwt k st = some st' → Step d h keep dwt (lim k) st st' := by
    intro he hn
    unfold nextX at hn
    split at hn
    · rename_i hc
      injection hn with hn
      rw [← hn]
      exact .next he hc.1 hc.2.1 hc.2.2
    · exact absurd hn (by simp)
  unfold stepX at hs
  split at hs
  · rename_i hl
    exact hnext (Or.inl hl) hs
  · rename_i hl
    cases hf : (List.range st.next).find? fun n => decide (Least st n ∧ Good st n) with
    | none =>
      rw [hf] at hs
      refine hnext (Or.inr fun n hn hg => ?_) hs
      have := List.find?_eq_none.1 hf n (List.mem_range.2 hn.1)
      rw [decide_eq_true_eq] at this
      exact this ⟨hn, hg⟩
    | some n =>
      rw [hf] at hs
      dsimp only at hs
      have hn := List.find?_some hf
      rw [decide_eq_true_eq] at hn
      by_cases hg : d.goal (st.nd n).state = true
      · rw [if_pos hg] at hs
        cases hsol : solpath st.nd st.next n with
        | ok r =>
          rw [hsol] at hs
          injection hs with hs
          rw [← hs]
          exact .goal hl hn.1 hn.2 hg hsol
        | _ => rw [hsol] at hs; exact absurd hs (by simp)
      · rw [if_neg hg] at hs
        injection hs with hs
        rw [← hs]
        exact .plain hl hn.1 hn.2 (by simpa using hg)

/-- Up to `fuel` steps. -/
def runX (d : Dom S O K) (h : S → K) (keep : Nat → S → Bool) (dwt : K) (k : Nat) : Nat → St S O K → St S O K
  | 0, st => st
  | fuel + 1, st =>
    match stepX d h keep dwt k st with
    | none => st
    | some st' => runX d h keep dwt k fuel st'

theorem runX_reach {wt0 dwt : K} {k : Nat} (fuel : Nat) {st : St S O K} (hr : Reach d h keep wt0 dwt (lim k) s0 st) :
    Reach d h keep wt0 dwt (lim k) s0 (runX d h keep dwt k fuel st) := by
  induction fuel generalizing st with
  | zero => exact hr
  | succ fuel ih =>
    unfold runX
    cases hs : stepX d h keep dwt k st with
    | none => exact hr
    | some st' => exact ih (.step hr (stepX_step hs))

theorem ended_of {l : St S O K → Prop} {st : St S O K} (he : ∀ n < st.next, ¬ (Least st n ∧ Good st n)) : Ended l st :=
  Or.inr fun n hn hg => he n hn.1 ⟨hn, hg⟩

end Exec
end Verif.Search.Arastar
