import Verif.Search.BucketOpen

/-!
# C09, C10: the integer open list

The specification is the set of open nodes and their current priorities, computed from the
history of calls and results alone.
-/

namespace Verif.BucketOpen

variable {α : Type*} [DecidableEq α]

inductive Op (α : Type*) where
  /-- the client changes the priorities of a node -/
  | set (n : α) (prio tie : Nat)
  | push (n : α)
  | pop
  | preUpdate (n : α)
  | postUpdate (n : α)
  | clear
  deriving DecidableEq

def exec (o : Open α) : Op α → Outcome (Open α × Option α)
  | .set n p t => .ok ({ o with prio := Function.update o.prio n p, tie := Function.update o.tie n t }, none)
  | .push n => (push o n).map fun o' => (o', none)
  | .pop => (pop o).map fun r => (r.2, some r.1)
  | .preUpdate n => (preUpdate o n).map fun o' => (o', none)
  | .postUpdate n => (postUpdate o n).map fun o' => (o', none)
  | .clear => .ok (clear o, none)

/-- Specification: the open nodes after a history (most recent call first). -/
def contents : List (Op α × Option α) → Finset α
  | [] => ∅
  | (.set _ _ _, _) :: h => contents h
  | (.push n, _) :: h => insert n (contents h)
  | (.pop, some x) :: h => (contents h).erase x
  | (.pop, none) :: h => contents h
  | (.preUpdate n, _) :: h => (contents h).erase n
  | (.postUpdate n, _) :: h => insert n (contents h)
  | (.clear, _) :: _ => ∅

/-- Specification: nodes that were open when the list was cleared and were not opened again. -/
def stale : List (Op α × Option α) → Finset α
  | [] => ∅
  | (.push n, _) :: h => (stale h).erase n
  | (.clear, _) :: h => stale h ∪ contents h
  | _ :: h => stale h

/-- Specification: current priority of a node. -/
def prio (p0 : α → Nat) : List (Op α × Option α) → α → Nat
  | [] => p0
  | (.set n p _, _) :: h => Function.update (prio p0 h) n p
  | _ :: h => prio p0 h

/-- Specification: current tie-break priority of a node. -/
def tie (t0 : α → Nat) : List (Op α × Option α) → α → Nat
  | [] => t0
  | (.set n _ t, _) :: h => Function.update (tie t0 h) n t
  | _ :: h => tie t0 h

/-- Client obligations: the priorities of open nodes are not changed (that is what `pre_update`
is for); nodes are not pushed twice; `pop` only when non-empty; the update calls are not used on
nodes forgotten by `clear`. -/
def Legal (h : List (Op α × Option α)) : Op α → Prop
  | .set n _ _ => n ∉ contents h
  | .push n => n ∉ contents h
  | .pop => contents h ≠ ∅
  | .preUpdate n => n ∉ stale h
  | .postUpdate n => n ∉ contents h ∧ n ∉ stale h
  | .clear => True

instance (h : List (Op α × Option α)) (op : Op α) : Decidable (Legal h op) := by
  cases op <;> unfold Legal <;> infer_instance

inductive Reach (p0 t0 : α → Nat) : List (Op α × Option α) → Open α → Prop where
  | init : Reach p0 t0 [] (init (fun n => p0 n) (fun n => t0 n))
  | step {h o op o' r} (prev : Reach p0 t0 h o) (legal : Legal h op)
      (run : exec o op = .ok (o', r)) : Reach p0 t0 ((op, r) :: h) o'

structure Inv (p0 t0 : α → Nat) (h : List (Op α × Option α)) (o : Open α) : Prop where
  rep : Rep o (contents h)
  prio : ∀ n, o.prio n = prio p0 h n
  tie : ∀ n, o.tie n = tie t0 h n
  ind : ∀ n, n ∉ contents h → n ∉ stale h → o.ind n = -1
  stale : ∀ n, n ∈ stale h → 0 ≤ o.ind n ∧ n ∉ contents h

theorem ind_nonneg {o : Open α} {C : Finset α} (r : Rep o C) {n : α} (hn : n ∈ C) : 0 ≤ o.ind n := by
  obtain ⟨p, t, i, a1, a2, a3, a4, a5⟩ := r.loc n hn
  obtain ⟨-, -, -, hi⟩ := r.bk p t i n a1 a2 a5
  omega

theorem rep_set {o : Open α} {C : Finset α} (r : Rep o C) {n : α} (hn : n ∉ C) (p t : Int) :
    Rep { o with prio := Function.update o.prio n p, tie := Function.update o.tie n t } C := by
  have hp : ∀ x ∈ C, Function.update o.prio n p x = o.prio x := fun x hx =>
    Function.update_of_ne (by rintro rfl; exact hn hx) _ _
  have ht : ∀ x ∈ C, Function.update o.tie n t x = o.tie x := fun x hx =>
    Function.update_of_ne (by rintro rfl; exact hn hx) _ _
  refine ⟨?_, ?_, ?_, r.fill, ?_, ?_, r.maxlt⟩
  · intro p' t' i x h1 h2 h3
    obtain ⟨a, b, c, d⟩ := r.bk p' t' i x h1 h2 h3
    exact ⟨a, by rw [← b]; exact hp x a, by rw [← c]; exact ht x a, d⟩
  · intro x hx
    obtain ⟨p', t', i, a1, a2, a3, a4, a5⟩ := r.loc x hx
    exact ⟨p', t', i, a1, a2, (hp x hx).trans a3, (ht x hx).trans a4, a5⟩
  · intro p' hp'
    refine (r.qfill p' hp').trans ?_
    congr 1
    apply Finset.filter_congr
    intro x hx
    dsimp only
    rw [hp x hx]
  · intro x hx
    dsimp only
    rw [hp x hx]; exact r.min x hx
  · intro x hx p' h
    dsimp only at h ⊢
    rw [hp x hx] at h
    rw [ht x hx]
    exact r.max x hx p' h

theorem exec_inv {p0 t0 : α → Nat} {h : List (Op α × Option α)} {o : Open α} (inv : Inv p0 t0 h o)
    (op : Op α) (legal : Legal h op) : ∃ o' r, exec o op = .ok (o', r) ∧ Inv p0 t0 ((op, r) :: h) o' ∧
      (op = .pop → ∃ n, r = some n ∧ n ∈ contents h ∧ (∀ x ∈ contents h, prio p0 h n ≤ prio p0 h x) ∧
        ∀ x ∈ contents h, prio p0 h x = prio p0 h n → tie t0 h x ≤ tie t0 h n) := by
  obtain ⟨rep, hp, ht, hi, hs⟩ := inv
  have hnn : ∀ n, 0 ≤ o.prio n ∧ 0 ≤ o.tie n := fun n => by rw [hp, ht]; omega
  cases op with
  | set n p t =>
    refine ⟨_, none, rfl, ⟨rep_set rep legal p t, ?_, ?_, hi, hs⟩, by simp⟩
    · intro x
      simp only [BucketOpen.prio]
      by_cases e : x = n
      · subst e; simp
      · rw [Function.update_of_ne e, Function.update_of_ne e, hp]
    · intro x
      simp only [BucketOpen.tie]
      by_cases e : x = n
      · subst e; simp
      · rw [Function.update_of_ne e, Function.update_of_ne e, ht]
  | push n =>
    obtain ⟨o', e1, r1, k1, k2, k3, k4⟩ := push_rep rep n legal (hnn n).1 (hnn n).2
    refine ⟨o', none, by simp [exec, e1], ⟨r1, by rw [k1]; exact hp, by rw [k2]; exact ht, ?_, ?_⟩, by simp⟩
    · intro x hx hx2
      simp only [contents, Finset.mem_insert, not_or] at hx
      simp only [BucketOpen.stale, Finset.mem_erase, not_and] at hx2
      rw [k4 x hx.1]
      exact hi x hx.2 (hx2 hx.1)
    · intro x hx
      simp only [BucketOpen.stale, Finset.mem_erase] at hx
      rw [k4 x hx.1]
      refine ⟨(hs x hx.2).1, ?_⟩
      simp only [contents, Finset.mem_insert, not_or]
      exact ⟨hx.1, (hs x hx.2).2⟩
  | pop =>
    obtain ⟨o', n, e1, hn, l1, l2, r1, k1, k2, k3, k4⟩ := pop_rep rep (Finset.nonempty_iff_ne_empty.2 legal)
    refine ⟨o', some n, by simp [exec, e1], ⟨r1, by rw [k3]; exact hp, by rw [k4]; exact ht, ?_, ?_⟩, fun _ => ⟨n, rfl, hn, ?_, ?_⟩⟩
    · intro x hx hx2
      simp only [contents, Finset.mem_erase, not_and] at hx
      simp only [BucketOpen.stale] at hx2
      by_cases e : x = n
      · rw [e]; exact k1
      · rw [k2 x (hx e)]; exact hi x (hx e) hx2
    · intro x hx
      simp only [BucketOpen.stale] at hx
      obtain ⟨a, b⟩ := hs x hx
      rw [k2 x b]
      exact ⟨a, by simp [contents, b]⟩
    · intro x hx
      have := l1 x hx
      rw [hp, hp] at this
      omega
    · intro x hx e
      have := l2 x hx (by rw [hp, hp, e])
      rw [ht, ht] at this
      omega
  | preUpdate n =>
    by_cases hn : n ∈ contents h
    · obtain ⟨o', e1, r1, k1, k2, k3, k4⟩ := preUpdate_rep rep hn
      refine ⟨o', none, by simp [exec, e1], ⟨r1, by rw [k3]; exact hp, by rw [k4]; exact ht, ?_, ?_⟩, by simp⟩
      · intro x hx hx2
        simp only [contents, Finset.mem_erase, not_and] at hx
        simp only [BucketOpen.stale] at hx2
        by_cases e : x = n
        · rw [e]; exact k1
        · rw [k2 x (hx e)]; exact hi x (hx e) hx2
      · intro x hx
        simp only [BucketOpen.stale] at hx
        obtain ⟨a, b⟩ := hs x hx
        rw [k2 x b]
        exact ⟨a, by simp [contents, b]⟩
    · have hneg := hi n hn legal
      refine ⟨o, none, by simp [exec, preUpdate, hneg], ⟨?_, hp, ht, ?_, ?_⟩, by simp⟩
      · simp only [contents, Finset.erase_eq_of_notMem hn]; exact rep
      · intro x hx hx2
        simp only [contents, Finset.erase_eq_of_notMem hn] at hx
        exact hi x hx hx2
      · intro x hx
        simp only [contents, Finset.erase_eq_of_notMem hn]
        exact hs x hx
  | postUpdate n =>
    obtain ⟨o', e1, r1, k1, k2, k3, k4⟩ := push_rep rep n legal.1 (hnn n).1 (hnn n).2
    have hneg := hi n legal.1 legal.2
    refine ⟨o', none, by simp [exec, postUpdate, hneg, e1], ⟨r1, by rw [k1]; exact hp, by rw [k2]; exact ht, ?_, ?_⟩, by simp⟩
    · intro x hx hx2
      simp only [contents, Finset.mem_insert, not_or] at hx
      rw [k4 x hx.1]
      exact hi x hx.2 hx2
    · intro x hx
      simp only [BucketOpen.stale] at hx
      have : x ≠ n := by rintro rfl; exact legal.2 hx
      rw [k4 x this]
      refine ⟨(hs x hx).1, ?_⟩
      simp only [contents, Finset.mem_insert, not_or]
      exact ⟨this, (hs x hx).2⟩
  | clear =>
    refine ⟨clear o, none, rfl, ⟨rep_clear o, hp, ht, ?_, ?_⟩, by simp⟩
    · intro x _ hx
      simp only [BucketOpen.stale, Finset.mem_union, not_or] at hx
      exact hi x hx.2 hx.1
    · intro x hx
      simp only [BucketOpen.stale, Finset.mem_union] at hx
      refine ⟨?_, by simp [contents]⟩
      rcases hx with hx | hx
      · exact (hs x hx).1
      · exact ind_nonneg rep hx

theorem reach_inv {p0 t0 : α → Nat} {h : List (Op α × Option α)} {o : Open α}
    (reach : Reach p0 t0 h o) : Inv p0 t0 h o := by
  induction reach with
  | init => exact ⟨rep_init _ _, fun _ => rfl, fun _ => rfl, fun _ _ _ => rfl, by simp [stale]⟩
  | step prev legal run ih =>
    obtain ⟨q1, r1, e1, i1, -⟩ := exec_inv ih _ legal
    rw [run] at e1
    simp only [Outcome.ok.injEq, Prod.mk.injEq] at e1
    obtain ⟨rfl, rfl⟩ := e1
    exact i1

/-- **C09.** `pop` on a non-empty list returns an open node of least priority and, among those,
of greatest tie-break priority; no other node leaves the list (definition of `contents`). -/
theorem c09_pop_best {p0 t0 : α → Nat} {h : List (Op α × Option α)} {o o' : Open α}
    (reach : Reach p0 t0 h o) (hne : contents h ≠ ∅) (n : α) (run : pop o = .ok (n, o')) :
    n ∈ contents h ∧ (∀ x ∈ contents h, prio p0 h n ≤ prio p0 h x) ∧
      ∀ x ∈ contents h, prio p0 h x = prio p0 h n → tie t0 h x ≤ tie t0 h n := by
  obtain ⟨q1, r1, e1, -, i2⟩ := exec_inv (reach_inv reach) .pop hne
  have : exec o .pop = .ok (o', some n) := by simp [exec, run]
  rw [this] at e1
  simp only [Outcome.ok.injEq, Prod.mk.injEq] at e1
  obtain ⟨rfl, rfl⟩ := e1
  obtain ⟨t, ht, k⟩ := i2 rfl
  simp only [Option.some.injEq] at ht
  subst ht
  exact k

/-- **C09.** Every legal call returns normally: no assertion fails and every vector access is in
range. -/
theorem c09_calls_return {p0 t0 : α → Nat} {h : List (Op α × Option α)} {o : Open α}
    (reach : Reach p0 t0 h o) (op : Op α) (legal : Legal h op) : ∃ o' r, exec o op = .ok (o', r) := by
  obtain ⟨q1, r1, e1, -⟩ := exec_inv (reach_inv reach) op legal
  exact ⟨q1, r1, e1⟩

/-- **C09.** `empty` is exact. -/
theorem c09_empty {p0 t0 : α → Nat} {h : List (Op α × Option α)} {o : Open α}
    (reach : Reach p0 t0 h o) : empty o = true ↔ contents h = ∅ := by
  simp [empty, (reach_inv reach).rep.fill]

/-- **C10, partial (integer list).** `mem` reports exactly the open nodes and the nodes that were
open at a `clear` and not opened again.  So it is exact without `clear` (`stale h = ∅`), but
after `clear` every previously open node is still reported. -/
theorem c10_mem_partial {p0 t0 : α → Nat} {h : List (Op α × Option α)} {o : Open α}
    (reach : Reach p0 t0 h o) (n : α) : mem o n = true ↔ n ∈ contents h ∨ n ∈ stale h := by
  have inv := reach_inv reach
  simp only [mem, decide_eq_true_eq]
  constructor
  · intro hm
    by_contra hc
    rw [not_or] at hc
    have := inv.ind n hc.1 hc.2
    omega
  · rintro (hn | hn)
    · exact ind_nonneg inv.rep hn
    · exact (inv.stale n hn).1

/-- Without `clear` in the history nothing is stale. -/
theorem stale_eq_empty {h : List (Op α × Option α)} (hc : ∀ e ∈ h, e.1 ≠ .clear) : stale h = ∅ := by
  induction h with
  | nil => rfl
  | cons e h ih =>
    have := ih fun e he => hc e (List.mem_cons_of_mem _ he)
    obtain ⟨op, r⟩ := e
    cases op <;> simp_all [stale]

/-- **C10 is false**: after `clear` a formerly open node is still reported as a member. -/
theorem c10_clear_stale {p0 t0 : α → Nat} {h : List (Op α × Option α)} {o : Open α}
    (reach : Reach p0 t0 h o) (n : α) (hn : n ∈ contents h) :
    Reach p0 t0 ((.clear, none) :: h) (clear o) ∧ contents ((.clear, none) :: h) = ∅ ∧
      mem (clear o) n = true := by
  have r : Reach p0 t0 ((.clear, none) :: h) (clear o) := .step reach trivial rfl
  refine ⟨r, rfl, (c10_mem_partial r n).2 (Or.inr ?_)⟩
  simp [stale, hn]

/-- `pop` on an empty list is undefined behaviour (the heap version returns NULL). -/
theorem c09_pop_empty_ub {p0 t0 : α → Nat} {h : List (Op α × Option α)} {o : Open α}
    (reach : Reach p0 t0 h o) (he : contents h = ∅) : pop o = .ub := by
  have rep := (reach_inv reach).rep
  rw [he] at rep
  have hz : ∀ p, p < o.size → (o.qs p).fill = 0 := fun p hp => by
    rw [rep.qfill p hp, Finset.filter_empty]; rfl
  have key : ∀ k m, (∀ p, m ≤ p → p < m + k → (o.qs p).fill = 0) → scanUp o.qs k m = m + k := by
    intro k
    induction k with
    | zero => intro m _; rfl
    | succ k ih =>
      intro m hm
      rw [scanUp, if_pos (hm m (le_refl _) (by omega)), ih (m + 1) (fun p h1 h2 => hm p (by omega) (by omega))]
      omega
  unfold pop
  rw [key _ _ (fun p h1 h2 => hz p (by omega))]
  rw [if_pos (by omega)]

/-- Calling `post_update` on a node forgotten by `clear` fails an assertion (so the restriction
in `Legal` is needed): a search that clears its list and keeps the nodes aborts. -/
theorem c10_post_update_after_clear {p0 t0 : α → Nat} {h : List (Op α × Option α)} {o : Open α}
    (reach : Reach p0 t0 h o) (n : α) (hn : n ∈ contents h) : postUpdate (clear o) n = .fatal := by
  have := ind_nonneg (reach_inv reach).rep hn
  unfold postUpdate
  rw [if_neg]
  show ¬ o.ind n < 0
  omega

/-- A negative priority is undefined behaviour. -/
theorem c09_negative_ub (o : Open α) (n : α) (hn : o.prio n < 0) : push o n = .ub := by
  rw [push, if_pos (Or.inl hn)]

/-! ### A concrete case -/

def runOps : List (Op α × Option α) → Open α → List (Op α) → Option (List (Op α × Option α))
  | h, _, [] => some h
  | h, q, op :: ops =>
    if Legal h op then
      match exec q op with
      | .ok (q', r) => runOps ((op, r) :: h) q' ops
      | _ => none
    else none

theorem reach_of_runOps {p0 t0 : α → Nat} {h h' q ops}
    (rc : Reach p0 t0 h q) (e : runOps h q ops = some h') : ∃ q', Reach p0 t0 h' q' := by
  induction ops generalizing h q with
  | nil => simp only [runOps, Option.some.injEq] at e; exact ⟨q, e ▸ rc⟩
  | cons op ops ih =>
    unfold runOps at e
    split_ifs at e with legal
    split at e
    · rename_i q' r hr
      exact ih (.step rc legal hr) e
    · simp at e

/-- Three nodes, ties broken by the larger tie priority, an update in the middle. -/
example : ∃ o, Reach (α := Nat) (fun _ => 5) (fun n => n)
    [(.pop, some 2), (.postUpdate 2, none), (.set 2 3 0, none), (.preUpdate 2, none), (.pop, some 3),
     (.push 3, none), (.push 2, none), (.push 1, none)] o :=
  reach_of_runOps (ops := [.push 1, .push 2, .push 3, .pop, .preUpdate 2, .set 2 3 0, .postUpdate 2, .pop])
    .init (by decide +kernel)

end Verif.BucketOpen
