import Verif.Search.Arastar

/-!
# Anytime repairing A*: the invariant holds throughout
-/

namespace Verif.Search.Arastar

variable {S O K : Type*} [DecidableEq S] [DecidableEq O] [Field K] [LinearOrder K] [IsStrictOrderedRing K]
  {d : Dom S O K} {h : S → K} {keep : Nat → S → Bool} {s0 : S}

theorem progress (st : St S O K) : Empty st ∨ ∃ n, Least st n := by
  rcases Search.progress (S := S) (O := O) (C := K) (P := K) (astar_pred (S := S) (fun _ => (0 : K)))
    ⟨st.nd, st.next, st.closed, 0, 0, 0, 0⟩ with e | ⟨n, e1, e2, e3⟩
  · exact Or.inl e
  · exact Or.inr ⟨n, e1, e2, e3⟩

theorem Adm.goal0 (ha : Adm d s0 h) {t : S} {c : K} (hw : Walk d s0 t c) (ht : d.goal t = true) : h t = 0 :=
  le_antisymm (ha.adm t c hw t 0 (.nil _) ht) (ha.nonneg t c hw)

theorem Consistent.adm (hc : Consistent d s0 h) : Adm d s0 h :=
  ⟨hc.nonneg, fun s c0 hs t c hw ht => by
    have := hc.walk hs hw
    rwa [hc.goal t _ (hs.trans hw) ht, add_zero] at this⟩

/-- Popping a node, possibly with a new incumbent. -/
theorem invE_pop (hd : DomOk d s0) {st : St S O K} {n m : Nat} (hi : InvE d h s0 st m []) (hl : Least st n)
    (hgood : Good st n) {c' : K} {sol : List S × List O} {fnd : Bool}
    (hcost : st.cost ≠ -1 → c' ≠ -1 ∧ c' ≤ st.cost)
    (hgoal : d.goal (st.nd n).state = true → c' ≠ -1 ∧ c' ≤ (st.nd n).g) :
    InvE d h s0
      { pop n st with
        cost := c'
        sol := sol
        found := fnd } n (d.ops (st.nd n).state) := by
  have hi := hi.weaken n
  have hst : ∀ i, SameCore ((pop n st).nd i) (st.nd i) := fun i => by
    unfold pop
    dsimp only
    by_cases e : i = n
    · rw [e, Function.update_self]; exact ⟨rfl, rfl, rfl, rfl, rfl⟩
    · rw [Function.update_of_ne e]; exact ⟨rfl, rfl, rfl, rfl, rfl⟩
  have hop : ∀ i, ((pop n st).nd i).isopen = true → (st.nd i).isopen = true := fun i hc => by
    unfold pop at hc
    dsimp only at hc
    by_cases e : i = n
    · rw [e, Function.update_self] at hc; exact absurd hc (by simp)
    · rwa [Function.update_of_ne e] at hc
  have hne : ∀ i, i ≠ n → (pop n st).nd i = st.nd i := fun i e => Function.update_of_ne e _ _
  have hp : ∀ i, ((pop n st).nd i).p = (st.nd i).p := fun i => by
    unfold pop
    dsimp only
    by_cases e : i = n
    · rw [e, Function.update_self]
    · rw [Function.update_of_ne e]
  refine ⟨hi.tree.congr (fun i _ => hst i), ?_, ?_, ?_, ?_, ?_, ?_, ?_, ?_, ?_, hi.wt1⟩
  · intro s i hs
    obtain ⟨b1, b2, b3⟩ := hi.cl s i hs
    refine ⟨b1, (hst i).state.trans b2, ?_⟩
    by_cases e : i = n
    · exact Or.inr (by rw [e]; exact List.mem_cons_self)
    · rcases b3 with b3 | b3
      · exact Or.inl (by dsimp only; rw [hne i e]; exact b3)
      · exact Or.inr (List.mem_cons_of_mem _ b3)
  · intro i hii hor
    dsimp only at hor ⊢
    rw [hp, (hst i).g, (hst i).state]
    rw [(hst i).state] at hor
    exact hi.fp i hii (hor.imp (hop i) id)
  · intro i hinc
    obtain ⟨b1, b2, b3, b4⟩ := hi.inc i hinc
    have e : i ≠ n := fun e => by rw [e, hl.2.1] at b2; exact absurd b2 (by simp)
    dsimp only
    rw [hne i e]
    exact ⟨b1, b2, List.mem_cons_of_mem _ b3, b4⟩
  · intro i hic
    rcases List.mem_cons.1 hic with e | e
    · rw [e]; exact hl.1
    · exact hi.curl i e
  · intro i hii
    unfold Stat fval
    dsimp only
    rw [(hst i).state, (hst i).g]
    by_cases e : i = n
    · exact Or.inr (Or.inl (by rw [e]; exact List.mem_cons_self))
    · rw [hne i e]
      rcases hi.stat i hii with b | b | b | ⟨b1, b2⟩
      · exact Or.inl b
      · exact Or.inr (Or.inl (List.mem_cons_of_mem _ b))
      · exact Or.inr (Or.inr (Or.inl b))
      · exact Or.inr (Or.inr (Or.inr ⟨(hcost b1).1, (hcost b1).2.trans b2⟩))
  · intro s ge hlg o ho hex
    dsimp only at hex ⊢
    rw [(hst n).state, (hst n).g] at hex
    have hlg' : (s, ge) ∈ st.log := by
      rcases List.mem_cons.1 hlg with e | e
      · rw [Prod.mk.injEq] at e
        exact absurd (e.1 ▸ ho) (hex e.1 e.2)
      · exact e
    obtain ⟨k, h1, h2, h3⟩ := hi.succ s ge hlg' o ho (fun _ _ => by simp)
    exact ⟨k, h1, (hst k).state.trans h2, by rw [(hst k).g]; exact h3⟩
  · intro s ge hlg
    rcases List.mem_cons.1 hlg with e | e
    · rw [Prod.mk.injEq] at e
      rw [e.1, e.2]
      exact hi.tree.walk n hl.1
    · exact hi.logw s ge e
  · intro s ge hlg hg
    rcases List.mem_cons.1 hlg with e | e
    · rw [Prod.mk.injEq] at e
      rw [e.1] at hg
      rw [e.2]
      exact hgoal hg
    · obtain ⟨b1, b2⟩ := hi.goal s ge e hg
      exact ⟨(hcost b1).1, (hcost b1).2.trans b2⟩
  · intro hc i hic c hw
    dsimp only at hw ⊢
    rw [(hst i).state] at hw ⊢
    rcases List.mem_cons.1 hic with e | e
    · rw [e] at hw ⊢
      exact pop_le hd hc hi hl hgood hw
    · obtain ⟨ge, b1, b2⟩ := hi.well hc i e c hw
      exact ⟨ge, List.mem_cons_of_mem _ b1, b2⟩

/-- A popped goal is cheaper than the incumbent. -/
theorem goal_lt (ha : Adm d s0 h) {st : St S O K} {n m : Nat} (hi : InvE d h s0 st m []) (hl : Least st n)
    (hgood : Good st n) (hg : d.goal (st.nd n).state = true) : st.cost = -1 ∨ (st.nd n).g < st.cost := by
  refine hgood.imp id fun hlt => ?_
  rwa [hi.fp n hl.1 (Or.inl hl.2.1), ha.goal0 (hi.tree.walk n hl.1) hg, mul_zero, add_zero] at hlt

/-- A popped goal is within the weight of every solution. -/
theorem goal_le (hd : DomOk d s0) (hc : Consistent d s0 h) {st : St S O K} {n m : Nat} (hi : InvE d h s0 st m [])
    (hl : Least st n) (hgood : Good st n) (hg : d.goal (st.nd n).state = true) {t : S} {c : K} (hw : Walk d s0 t c)
    (ht : d.goal t = true) : (st.nd n).g ≤ st.wt * c := by
  have hw0 : (0 : K) ≤ st.wt := le_trans zero_le_one hi.wt1
  have hlt := goal_lt hc.adm hi hl hgood hg
  rcases first_bad hd hi hi.wt1 hw with ⟨ge, h1, h2⟩ | ⟨k, hk, c1, c2, h1, h2, h3, h4, h5⟩
  · obtain ⟨g1, g2⟩ := hi.goal t ge h1 ht
    rcases hlt with e | e
    · exact absurd e g1
    · linarith
  · have hcons := hc.walk h1 h2
    rw [hc.goal _ _ hw ht, add_zero] at hcons
    have hmul : st.wt * h (st.nd k).state ≤ st.wt * c2 := mul_le_mul_of_nonneg_left hcons hw0
    have hsum : st.wt * c = st.wt * c1 + st.wt * c2 := by rw [← h3, mul_add]
    rcases hi.stat k hk with e | e | e | ⟨e1, e2⟩
    · have hp := hl.p_le hk e
      rw [hi.fp k hk (Or.inl e), hi.fp n hl.1 (Or.inl hl.2.1), hc.goal _ _ (hi.tree.walk n hl.1) hg, mul_zero,
        add_zero] at hp
      linarith
    · exact absurd ⟨_, e, h4⟩ h5
    · exact absurd (hi.well hc k (hi.inc k e).2.2.1 c1 h1) h5
    · rcases hlt with e | e
      · exact absurd e e1
      · unfold fval at e2
        have hnn := hc.nonneg _ _ h1
        have : h (st.nd k).state ≤ st.wt * h (st.nd k).state := le_mul_of_one_le_left hnn hi.wt1
        linarith

/-! ## `report` and `advance` -/

theorem minl_none {l : List K} (hm : minl l = none) : l = [] := by
  cases l with
  | nil => rfl
  | cons a l =>
    unfold minl at hm
    split at hm <;> exact absurd hm (by simp)

theorem minl_some {l : List K} {m : K} (hm : minl l = some m) : m ∈ l ∧ ∀ x ∈ l, m ≤ x := by
  induction l generalizing m with
  | nil => exact absurd hm (by simp [minl])
  | cons a l ih =>
    unfold minl at hm
    cases hl : minl l with
    | none =>
      rw [hl] at hm
      injection hm with hm
      rw [minl_none hl, hm]
      simp
    | some b =>
      rw [hl] at hm
      injection hm with hm
      obtain ⟨h1, h2⟩ := ih hl
      subst hm
      constructor
      · rcases min_choice a b with e | e <;> rw [e]
        · exact List.mem_cons_self
        · exact List.mem_cons_of_mem _ h1
      · intro x hx
        rcases List.mem_cons.1 hx with e | e
        · rw [e]; exact min_le_left _ _
        · exact (min_le_right _ _).trans (h2 x e)

/-- The part of the invariant that survives `report` and is enough for `advance`. -/
structure InvR (d : Dom S O K) (h : S → K) (s0 : S) (st : St S O K) : Prop where
  tree : Tree d s0 st.nd st.next
  incl : ∀ i ∈ st.incons, i < st.next
  stat : ∀ i < st.next, Stat h st i
  succ : ∀ s ge, (s, ge) ∈ st.log → ∀ o ∈ d.ops s,
    ∃ m < st.next, (st.nd m).state = d.app s o ∧ (st.nd m).g ≤ ge + d.cost s o
  logw : ∀ s ge, (s, ge) ∈ st.log → Walk d s0 s ge
  goal : ∀ s ge, (s, ge) ∈ st.log → d.goal s = true → st.cost ≠ -1 ∧ st.cost ≤ ge
  wt1 : 1 ≤ st.wt

theorem InvE.toR {st : St S O K} {n : Nat} (hi : InvE d h s0 st n []) : InvR d h s0 st :=
  ⟨hi.tree, fun i e => (hi.inc i e).1, hi.stat, fun s ge hl o ho => hi.succ s ge hl o ho (fun _ _ => by simp), hi.logw,
    hi.goal, hi.wt1⟩

theorem invR_prune {st : St S O K} (hi : InvR d h s0 st) (hc : st.cost ≠ -1) : InvR d h s0 (prune h st) := by
  refine ⟨hi.tree.congr (fun i _ => ⟨rfl, rfl, rfl, rfl, rfl⟩), ?_, ?_, hi.succ, hi.logw, hi.goal, hi.wt1⟩
  · intro i hinc
    exact hi.incl i (List.mem_filter.1 hinc).1
  · intro i hii
    by_cases hf : fval h st i < st.cost
    · rcases hi.stat i hii with b | b | b | b
      · exact Or.inl (by show ((st.nd i).isopen && _) = true; rw [b, decide_eq_true hf]; rfl)
      · exact Or.inr (Or.inl b)
      · exact Or.inr (Or.inr (Or.inl (List.mem_filter.2 ⟨b, decide_eq_true hf⟩)))
      · exact absurd b.2 (not_le.2 hf)
    · exact Or.inr (Or.inr (Or.inr ⟨hc, not_lt.1 hf⟩))

theorem invR_report {st : St S O K} (hi : InvR d h s0 st) (hc : st.found = true → st.cost ≠ -1) :
    InvR d h s0 (report h st) := by
  unfold report
  split
  · rename_i hf
    dsimp only
    split
    · exact ⟨hi.tree, hi.incl, hi.stat, hi.succ, hi.logw, hi.goal, hi.wt1⟩
    · have := invR_prune hi (hc hf)
      exact ⟨this.tree, this.incl, this.stat, this.succ, this.logw, this.goal, this.wt1⟩
  · exact hi

theorem nextwt_one_le (dwt wt : K) : 1 ≤ nextwt dwt wt := by
  unfold nextwt
  dsimp only
  by_cases h1 : wt - dwt > 1
  · rw [if_pos h1]
    split
    · exact le_rfl
    · exact h1.le
  · rw [if_neg h1, ite_self]

theorem nextwt_lt {dwt wt : K} (hd : 0 < dwt) (hw : 1 < wt) : nextwt dwt wt < wt := by
  unfold nextwt
  dsimp only
  by_cases h1 : wt - dwt > 1
  · rw [if_pos h1]
    split
    · exact hw
    · linarith
  · rw [if_neg h1, ite_self]
    exact hw

theorem invE_advance {st : St S O K} (dwt : K) (hi : InvR d h s0 st) : InvE d h s0 (advance h dwt st) 0 [] := by
  have hst : ∀ i, SameCore ((advance h dwt st).nd i) (st.nd i) := fun i => by
    unfold advance
    dsimp only
    split
    · exact ⟨rfl, rfl, rfl, rfl, rfl⟩
    · exact ⟨rfl, rfl, rfl, rfl, rfl⟩
  refine ⟨hi.tree.congr (fun i _ => hst i), ?_, ?_, ?_, ?_, ?_, ?_, hi.logw, hi.goal, ?_, nextwt_one_le _ _⟩
  · intro s i hs; exact absurd hs (by simp [advance])
  · intro i hii hor
    rcases hor with ho | hs
    · unfold advance at ho ⊢
      dsimp only at ho ⊢
      split
      · rfl
      · rename_i hn
        rw [if_neg hn] at ho
        exact absurd (Or.inl ho) hn
    · exact absurd hs (by simp [advance])
  · intro i hinc; exact absurd hinc (by simp [advance])
  · intro i hinc; exact absurd hinc (by simp [advance])
  · intro i hii
    by_cases ho : (st.nd i).isopen = true ∨ i ∈ st.incons
    · exact Or.inl (by unfold advance; dsimp only; rw [if_pos ho])
    · unfold Stat fval
      rw [(hst i).state, (hst i).g]
      rcases hi.stat i hii with b | b | b | b
      · exact absurd (Or.inl b) ho
      · exact Or.inr (Or.inl b)
      · exact absurd (Or.inr b) ho
      · exact Or.inr (Or.inr (Or.inr b))
  · intro s ge hlg o ho _
    obtain ⟨k, h1, h2, h3⟩ := hi.succ s ge hlg o ho
    exact ⟨k, h1, (hst k).state.trans h2, by rw [(hst k).g]; exact h3⟩
  · intro _ i hic; exact absurd hic (by simp [advance])

/-! ## What is reported -/

/-- A row tells the truth: its cost is within its weight of every solution, and within its bound, where a bound of 0
has to be read as 1.  For a heuristic that is admissible only, the bound is right if it is less than the weight. -/
def RowOk (d : Dom S O K) (h : S → K) (s0 : S) (r : Row K) : Prop :=
  ∀ t c, Walk d s0 t c → d.goal t = true →
    (Consistent d s0 h → r.cost ≤ r.wt * c ∧ r.cost ≤ max r.bound 1 * c) ∧
    (r.bound < r.wt → r.cost ≤ max r.bound 1 * c)

structure Rep (d : Dom S O K) (h : S → K) (s0 : S) (st : St S O K) : Prop where
  sol : st.cost ≠ -1 → 0 ≤ st.cost ∧ ∃ c, Solution d s0 st.sol c ∧ c ≤ st.cost
  nosol : st.cost = -1 → st.sol = ([], [])
  fnd : st.found = true → st.cost ≠ -1 ∧
    (Consistent d s0 h → ∀ t c, Walk d s0 t c → d.goal t = true → st.cost ≤ st.wt * c)
  le : ∀ r ∈ st.rows, st.cost ≠ -1 ∧ st.cost ≤ r.cost ∧ st.wt ≤ r.wt
  sorted : st.rows.Pairwise fun a b => a.cost < b.cost ∧ a.wt < b.wt
  ok : ∀ r ∈ st.rows, RowOk d h s0 r
  bound : ∀ r ∈ st.rows, r.bound ≤ r.wt

/-- The last row shows the cost of the incumbent. -/
def LastRow (st : St S O K) : Prop :=
  (st.rows = [] ∧ st.cost = -1) ∨ ∃ r rs, st.rows = r :: rs ∧ r.cost = st.cost

/-- In the loop of `improve`. -/
structure RepL (d : Dom S O K) (h : S → K) (s0 : S) (st : St S O K) : Prop extends Rep d h s0 st where
  lt : st.found = true → ∀ r ∈ st.rows, st.cost < r.cost
  wtlt : ∀ r ∈ st.rows, st.wt < r.wt
  last : st.found = false → LastRow st

theorem epsprime_le {st : St S O K} (hw : 1 ≤ st.wt) : epsprime h st ≤ st.wt := by
  unfold epsprime
  split
  · exact hw
  · split
    · split
      · exact le_rfl
      · linarith
    · split
      · exact le_rfl
      · split
        · exact le_rfl
        · rename_i hc; exact not_lt.1 hc

/-- The bound computed by `findbound` is right. -/
theorem epsprime_bound (hd : DomOk d s0) (ha : Adm d s0 h) {st : St S O K} {n : Nat} (hi : InvE d h s0 st n [])
    (hc0 : 0 ≤ st.cost) (hw1 : st.wt ≠ 1) {t : S} {c : K} (hw : Walk d s0 t c)
    (ht : d.goal t = true) :
    st.cost ≤ c ∨ (epsprime h st = st.wt ∨ (0 < c ∧ st.cost ≤ epsprime h st * c)) := by
  rcases fringe_le hd ha hi hw ht with ⟨-, h1⟩ | ⟨m, hm, hml, hf⟩
  · exact Or.inl h1
  · by_cases hlt : fval h st m < st.cost
    · right
      have hmem : fval h st m ∈ ((fringe st).map (fval h st)).filter fun f => decide (f < st.cost) := by
        rw [List.mem_filter]
        exact ⟨List.mem_map_of_mem hm, decide_eq_true hlt⟩
      unfold epsprime
      rw [if_neg hw1]
      cases hmin : minl (((fringe st).map (fval h st)).filter fun f => decide (f < st.cost)) with
      | none => rw [minl_none hmin] at hmem; exact absurd hmem (by simp)
      | some x =>
        dsimp only
        obtain ⟨x1, x2⟩ := minl_some hmin
        have hxle := x2 _ hmem
        have hx0 : 0 ≤ x := by
          rw [List.mem_filter, List.mem_map] at x1
          obtain ⟨⟨i, hi1, rfl⟩, -⟩ := x1
          have hil : i < st.next := by
            unfold fringe at hi1
            rw [List.mem_append, List.mem_filter, List.mem_range] at hi1
            rcases hi1 with e | e
            · exact (hi.inc i e).1
            · exact e.1
          unfold fval
          exact add_nonneg ((hi.tree.walk i hil).nonneg hd.cost) (ha.nonneg _ _ (hi.tree.walk i hil))
        by_cases hx : x = 0
        · rw [if_pos hx]; exact Or.inl rfl
        · rw [if_neg hx]
          have hxp : 0 < x := lt_of_le_of_ne hx0 (Ne.symm hx)
          split
          · exact Or.inl rfl
          · right
            have hxc : x ≤ c := hxle.trans hf
            refine ⟨lt_of_lt_of_le hxp hxc, ?_⟩
            rw [div_mul_eq_mul_div, le_div_iff₀ hxp]
            exact mul_le_mul_of_nonneg_left hxc hc0
    · exact Or.inl ((not_lt.1 hlt).trans hf)

theorem rowOk (hd : DomOk d s0) (ha : Adm d s0 h) {st : St S O K} {n : Nat} (hi : InvE d h s0 st n [])
    (hr : RepL d h s0 st) (hf : st.found = true) : RowOk d h s0 ⟨st.wt, epsprime h st, st.cost⟩ := by
  intro t c hw ht
  obtain ⟨f1, f2⟩ := hr.fnd hf
  have hc0 := (hr.sol f1).1
  have hcn : 0 ≤ c := hw.nonneg hd.cost
  have hmax : ∀ x : K, x * c ≤ max x 1 * c := fun x => mul_le_mul_of_nonneg_right (le_max_left _ _) hcn
  have hone : c ≤ max (epsprime h st) 1 * c := le_mul_of_one_le_left hcn (le_max_right _ _)
  have key : epsprime h st = st.wt ∨ st.cost ≤ max (epsprime h st) 1 * c := by
    by_cases hw1 : st.wt = 1
    · left
      unfold epsprime
      rw [if_pos hw1, hw1]
    · rcases epsprime_bound hd ha hi hc0 hw1 hw ht with e | e | e
      · exact Or.inr (e.trans hone)
      · exact Or.inl e
      · exact Or.inr (e.2.trans (hmax _))
  refine ⟨fun hc => ?_, fun hlt => ?_⟩
  · have := f2 hc t c hw ht
    refine ⟨this, ?_⟩
    dsimp only
    rcases key with e | e
    · rw [e]; exact this.trans (hmax _)
    · exact e
  · rcases key with e | e
    · exact absurd e (ne_of_lt hlt)
    · exact e

theorem rep_report (hd : DomOk d s0) (ha : Adm d s0 h) {st : St S O K} {n : Nat} (hi : InvE d h s0 st n [])
    (hr : RepL d h s0 st) : Rep d h s0 (report h st) ∧ (report h st).cost = st.cost ∧ (report h st).wt = st.wt ∧
      LastRow (report h st) := by
  by_cases hf : st.found = true
  · have hrow := rowOk hd ha hi hr hf
    have hb := epsprime_le (h := h) hi.wt1
    have e : ∃ nd' inc', report h st = { st with
        nd := nd'
        incons := inc'
        rows := ⟨st.wt, epsprime h st, st.cost⟩ :: st.rows } := by
      unfold report
      rw [if_pos hf]
      dsimp only
      split
      · exact ⟨st.nd, st.incons, rfl⟩
      · exact ⟨_, _, rfl⟩
    obtain ⟨nd', inc', e⟩ := e
    rw [e]
    refine ⟨⟨hr.sol, hr.nosol, hr.fnd, ?_, ?_, ?_, ?_⟩, rfl, rfl, Or.inr ⟨_, _, rfl, rfl⟩⟩
    · intro r hr'
      rcases List.mem_cons.1 hr' with e | e
      · rw [e]; exact ⟨(hr.fnd hf).1, le_rfl, le_rfl⟩
      · exact hr.le r e
    · exact List.pairwise_cons.2 ⟨fun r hr' => ⟨hr.lt hf r hr', hr.wtlt r hr'⟩, hr.sorted⟩
    · intro r hr'
      rcases List.mem_cons.1 hr' with e | e
      · rw [e]; exact hrow
      · exact hr.ok r e
    · intro r hr'
      rcases List.mem_cons.1 hr' with e | e
      · rw [e]; exact hb
      · exact hr.bound r e
  · have e : report h st = st := by
      unfold report
      rw [if_neg hf]
    rw [e]
    exact ⟨hr.toRep, rfl, rfl, hr.last (by simpa using hf)⟩

theorem rep_advance {st : St S O K} {dwt : K} (hdw : 0 < dwt) (hw : 1 < st.wt) (hr : Rep d h s0 st)
    (hlast : LastRow st) : RepL d h s0 (advance h dwt st) := by
  have hlt := nextwt_lt hdw hw
  refine ⟨⟨hr.sol, hr.nosol, fun hf => absurd hf (by simp [advance]), ?_, hr.sorted, hr.ok, hr.bound⟩,
    fun hf => absurd hf (by simp [advance]), ?_, fun _ => hlast⟩
  · intro r hr'
    obtain ⟨a, b, c⟩ := hr.le r hr'
    exact ⟨a, b, (lt_of_lt_of_le hlt c).le⟩
  · intro r hr'
    exact lt_of_lt_of_le hlt (hr.le r hr').2.2

theorem rep_frame {st st' : St S O K} (hf : Frame st st') (hr : RepL d h s0 st) : RepL d h s0 st' := by
  obtain ⟨⟨h1, h2, h3, h4, h5, h6, h7⟩, h8, h9, h10⟩ := hr
  unfold LastRow at h10
  refine ⟨⟨?_, ?_, ?_, ?_, ?_, ?_, ?_⟩, ?_, ?_, ?_⟩ <;>
    simp only [LastRow, hf.cost, hf.wt, hf.found, hf.sol, hf.rows] <;> assumption

/-- The invariant of the search. -/
theorem step_inv (hd : DomOk d s0) (ha : Adm d s0 h) {dwt : K} (hdw : 0 < dwt) {l : St S O K → Prop}
    {st st' : St S O K} (hs : Step d h keep dwt l st st') (hx : (∃ n, InvE d h s0 st n []) ∧ RepL d h s0 st) :
    (∃ n, InvE d h s0 st' n []) ∧ RepL d h s0 st' := by
  obtain ⟨⟨k, hi⟩, hrep⟩ := hx
  cases hs with
  | @plain n hnl hl hg hng =>
    have hi' := invE_pop (sol := st.sol) (fnd := st.found) hd hi hl hg (c' := st.cost) (fun hc => ⟨hc, le_rfl⟩)
      (fun e => by rw [hng] at e; exact absurd e (by simp))
    have hi'' : InvE d h s0 (pop n st) n (d.ops ((pop n st).nd n).state) := by
      have e : ((pop n st).nd n).state = (st.nd n).state := by
        unfold pop; dsimp only; rw [Function.update_self]
      rw [e]
      exact hi'
    refine ⟨⟨n, invE_expand hd hi'' hl.1⟩, rep_frame (frame_expand n (pop n st)) ?_⟩
    exact ⟨⟨hrep.sol, hrep.nosol, hrep.fnd, hrep.le, hrep.sorted, hrep.ok, hrep.bound⟩, hrep.lt, hrep.wtlt, hrep.last⟩
  | @goal n fuel r hnl hl hg hgl hsol =>
    have hg0 : 0 ≤ (st.nd n).g := (hi.tree.walk n hl.1).nonneg hd.cost
    have hgne : (st.nd n).g ≠ -1 := by
      intro e; rw [e] at hg0; linarith
    have hlt := goal_lt ha hi hl hg hgl
    have hi' := invE_pop (sol := r) (fnd := true) hd hi hl hg (c' := (st.nd n).g)
      (fun hc => ⟨hgne, (hlt.resolve_left hc).le⟩) (fun _ => ⟨hgne, le_rfl⟩)
    have e : (pop n st).nd n = { st.nd n with isopen := false } := by
      unfold pop; dsimp only; rw [Function.update_self]
    have hi'' : InvE d h s0 (setgoal n r (pop n st)) n (d.ops ((setgoal n r (pop n st)).nd n).state) := by
      unfold setgoal
      dsimp only
      rw [e]
      exact hi'
    refine ⟨⟨n, invE_expand hd hi'' hl.1⟩, rep_frame (frame_expand n (setgoal n r (pop n st))) ?_⟩
    have ec : (setgoal n r (pop n st)).cost = (st.nd n).g := by
      unfold setgoal; dsimp only; rw [e]
    have hs := hi.tree.solpath_ok hl.1 hsol
    have hlt' : ∀ r ∈ st.rows, (st.nd n).g < r.cost := fun r hr' => by
      obtain ⟨a, b, -⟩ := hrep.le r hr'
      exact lt_of_lt_of_le (hlt.resolve_left a) b
    refine ⟨⟨?_, ?_, ?_, ?_, hrep.sorted, hrep.ok, hrep.bound⟩, ?_, hrep.wtlt, fun hf => absurd hf (by simp [setgoal])⟩
    · intro _
      rw [ec]
      obtain ⟨ss, c, b1, b2, b3, b4⟩ := hs
      exact ⟨hg0, c, ⟨ss, b1, b2, _, b4, hgl⟩, b3⟩
    · intro hc; rw [ec] at hc; exact absurd hc hgne
    · intro _
      rw [ec]
      exact ⟨hgne, fun hc t c hw ht => goal_le hd hc hi hl hg hgl hw ht⟩
    · intro r hr'
      rw [ec]
      exact ⟨hgne, (hlt' r hr').le, (hrep.le r hr').2.2⟩
    · intro _ r hr'
      rw [ec]
      exact hlt' r hr'
  | @next hend hw hnl hne =>
    obtain ⟨r1, r2, r3, r4⟩ := rep_report hd ha hi hrep
    exact ⟨⟨0, invE_advance dwt (invR_report hi.toR (fun hf => (hrep.fnd hf).1))⟩,
      rep_advance hdw (by rw [r3]; exact hw) r1 r4⟩

theorem reach_inv (hd : DomOk d s0) (ha : Adm d s0 h) {wt0 dwt : K} (hw0 : 1 ≤ wt0) (hdw : 0 < dwt)
    {l : St S O K → Prop} {st : St S O K} (hr : Reach d h keep wt0 dwt l s0 st) :
    (∃ n, InvE d h s0 st n []) ∧ RepL d h s0 st := by
  induction hr with
  | init =>
    refine ⟨⟨0, invE_init hw0⟩, ⟨?_, fun _ => rfl, fun hf => absurd hf (by simp [init]), ?_, ?_, ?_, ?_⟩, ?_, ?_, ?_⟩
    · intro hc; exact absurd rfl hc
    · intro r hr'; exact absurd hr' (by simp [init])
    · exact List.Pairwise.nil
    · intro r hr'; exact absurd hr' (by simp [init])
    · intro r hr'; exact absurd hr' (by simp [init])
    · intro _ r hr'; exact absurd hr' (by simp [init])
    · intro r hr'; exact absurd hr' (by simp [init])
    · intro _; exact Or.inl ⟨rfl, rfl⟩
  | step _ hs ih => exact step_inv hd ha hdw hs ih

end Verif.Search.Arastar
