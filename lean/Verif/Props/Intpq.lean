import Verif.Structs.Intpq

/-!
# C07: the integer priority queue

The specification is the set of contained elements and their priorities, computed from the
history of calls and results alone.
-/

namespace Verif.Intpq

variable {α : Type*} [DecidableEq α]

inductive Op (α : Type*) where
  | push (e : α) (prio : Nat)
  | pop
  | rm (e : α) (prio : Nat)
  | clear
  deriving DecidableEq

/-- One call on the C++ object. -/
def exec (q : Pq α) : Op α → Outcome (Pq α × Option α)
  | .push e p => (push q e p).map fun q' => (q', none)
  | .pop => (pop q).map fun r => (r.2, r.1)
  | .rm e p => (rm q e p).map fun q' => (q', none)
  | .clear => .ok (clear q, none)

/-- Specification: the contained elements after a history (most recent call first). -/
def contents : List (Op α × Option α) → Finset α
  | [] => ∅
  | (.push e _, _) :: h => insert e (contents h)
  | (.pop, some x) :: h => (contents h).erase x
  | (.pop, none) :: h => contents h
  | (.rm e _, _) :: h => (contents h).erase e
  | (.clear, _) :: _ => ∅

/-- Specification: the priority an element was last pushed with. -/
def prio : List (Op α × Option α) → α → Nat
  | [] => fun _ => 0
  | (.push e p, _) :: h => Function.update (prio h) e p
  | _ :: h => prio h

/-- Client obligations: push only elements that are not contained and with a priority below
2^31; remove only contained elements and with the priority they were pushed with. -/
def Legal (h : List (Op α × Option α)) : Op α → Prop
  | .push e p => e ∉ contents h ∧ p < 2 ^ 31
  | .rm e p => e ∈ contents h ∧ p = prio h e
  | _ => True

instance (h : List (Op α × Option α)) (op : Op α) : Decidable (Legal h op) := by
  cases op <;> unfold Legal <;> infer_instance

/-- The queue reached after a history of legal calls. -/
inductive Reach (sz : Nat) (nxt : α → Option α) : List (Op α × Option α) → Pq α → Prop where
  | init : Reach sz nxt [] (init sz nxt)
  | step {h q op q' r} (prev : Reach sz nxt h q) (legal : Legal h op)
      (run : exec q op = .ok (q', r)) : Reach sz nxt ((op, r) :: h) q'

def NoClear (h : List (Op α × Option α)) : Prop := ∀ p ∈ h, p.1 ≠ .clear

/-- Representation invariant. -/
def Inv (h : List (Op α × Option α)) (q : Pq α) : Prop :=
  (∃ M, Rep q (contents h) (prio h) M) ∧
    (NoClear h → ∀ x, x ∉ contents h → q.prev x = none)

theorem exec_inv {h : List (Op α × Option α)} {q : Pq α} (inv : Inv h q) (op : Op α)
    (legal : Legal h op) : ∃ q' r, exec q op = .ok (q', r) ∧ Inv ((op, r) :: h) q' ∧
      (op = .pop → (r = none → contents h = ∅) ∧
        ∀ x, r = some x → x ∈ contents h ∧ ∀ y ∈ contents h, prio h x ≤ prio h y) := by
  obtain ⟨⟨M, r⟩, np⟩ := inv
  have nc : ∀ {op r}, NoClear ((op, r) :: h) → NoClear h := fun hh p hp =>
    hh p (List.mem_cons_of_mem _ hp)
  cases op with
  | push e p =>
    obtain ⟨q', M', e1, r1, k1⟩ := push_rep r e legal.1 p legal.2
    refine ⟨q', none, by simp [exec, e1], ⟨⟨M', r1⟩, ?_⟩, by simp⟩
    intro hc x hx
    simp only [contents, Finset.mem_insert, not_or] at hx
    rw [k1 x hx.2 hx.1]
    exact np (nc hc) x hx.2
  | pop =>
    by_cases hne : (contents h).Nonempty
    · obtain ⟨q', x, M', e1, hx, hl, r1, k1, k2⟩ := pop_rep r hne
      refine ⟨q', some x, by simp [exec, e1], ⟨⟨M', r1⟩, ?_⟩, fun _ => ⟨by simp, ?_⟩⟩
      · intro hc y hy
        simp only [contents, Finset.mem_erase, not_and] at hy
        by_cases hyx : y = x
        · rw [hyx]; exact k1
        · rw [k2 y (hy hyx)]
          exact np (nc hc) y (hy hyx)
      · rintro y ⟨⟩
        exact ⟨hx, hl⟩
    · rw [Finset.not_nonempty_iff_eq_empty] at hne
      have hf : q.fill = 0 := by rw [r.fill, hne]; rfl
      refine ⟨q, none, by simp [exec, pop, hf], ⟨⟨M, r⟩, ?_⟩, fun _ => ⟨fun _ => hne, by simp⟩⟩
      intro hc x hx
      exact np (nc hc) x hx
  | rm e p =>
    obtain ⟨he, rfl⟩ := legal
    obtain ⟨q', M', e1, r1, k1, k2⟩ := rm_rep r he
    refine ⟨q', none, by simp [exec, e1], ⟨⟨M', r1⟩, ?_⟩, by simp⟩
    intro hc y hy
    simp only [contents, Finset.mem_erase, not_and] at hy
    by_cases hye : y = e
    · rw [hye]; exact k1
    · rw [k2 y (hy hye)]
      exact np (nc hc) y (hy hye)
  | clear =>
    refine ⟨clear q, none, rfl, ⟨⟨_, clear_rep r⟩, ?_⟩, by simp⟩
    intro hc
    exact absurd rfl (hc _ List.mem_cons_self)

theorem reach_inv {sz : Nat} {nxt : α → Option α} {h : List (Op α × Option α)} {q : Pq α}
    (reach : Reach sz nxt h q) : Inv h q := by
  induction reach with
  | init => exact ⟨⟨_, rep_init _ _ _⟩, fun _ _ _ => rfl⟩
  | step prev legal run ih =>
    obtain ⟨q1, r1, e1, i1, -⟩ := exec_inv ih _ legal
    rw [run] at e1
    simp only [Outcome.ok.injEq, Prod.mk.injEq] at e1
    obtain ⟨rfl, rfl⟩ := e1
    exact i1

/-- **C07.** After every history, `pop` returns a contained element of least priority; it
returns NULL only if nothing is contained.  (Exactly the popped element is then gone, by the
definition of `contents`.) -/
theorem c07_pop_least {sz : Nat} {nxt : α → Option α} {h : List (Op α × Option α)} {q q' : Pq α}
    (reach : Reach sz nxt h q) (r : Option α) (run : pop q = .ok (r, q')) :
    (r = none → contents h = ∅) ∧
      ∀ x, r = some x → x ∈ contents h ∧ ∀ y ∈ contents h, prio h x ≤ prio h y := by
  obtain ⟨q1, r1, e1, -, i2⟩ := exec_inv (reach_inv reach) .pop trivial
  have : exec q .pop = .ok (q', r) := by simp [exec, run]
  rw [this] at e1
  simp only [Outcome.ok.injEq, Prod.mk.injEq] at e1
  obtain ⟨rfl, rfl⟩ := e1
  exact i2 rfl

/-- **C07.** Every legal call returns normally: no assertion fails, the scan for the first
non-empty bucket stays inside the array, priorities grow the array as needed. -/
theorem c07_calls_return {sz : Nat} {nxt : α → Option α} {h : List (Op α × Option α)} {q : Pq α}
    (reach : Reach sz nxt h q) (op : Op α) (legal : Legal h op) :
    ∃ q' r, exec q op = .ok (q', r) := by
  obtain ⟨q1, r1, e1, -⟩ := exec_inv (reach_inv reach) op legal
  exact ⟨q1, r1, e1⟩

/-- **C07.** `empty` is exact. -/
theorem c07_fill {sz : Nat} {nxt : α → Option α} {h : List (Op α × Option α)} {q : Pq α}
    (reach : Reach sz nxt h q) : q.fill = (contents h).card := by
  obtain ⟨⟨M, r⟩, -⟩ := reach_inv reach
  exact r.fill

/-- **C07, partial.** Without `clear` in the history, `mem` tells exactly whether an element is
contained; in general contained elements are always reported.  (Missing: after `clear`; see
`c07_clear_stale`.) -/
theorem c07_mem_partial {sz : Nat} {nxt : α → Option α} {h : List (Op α × Option α)} {q : Pq α}
    (reach : Reach sz nxt h q) (x : α) :
    (x ∈ contents h → mem q x = true) ∧ (NoClear h → (mem q x = true ↔ x ∈ contents h)) := by
  obtain ⟨⟨M, r⟩, np⟩ := reach_inv reach
  refine ⟨fun hx => r.prev_isSome hx, fun hc => ⟨fun hm => ?_, fun hx => r.prev_isSome hx⟩⟩
  by_contra hx
  rw [mem, np hc x hx] at hm
  simp at hm

/-- `clear` does not reset the entries: **every** element contained before is still reported as a
member afterwards although the queue is empty. -/
theorem c07_clear_stale {sz : Nat} {nxt : α → Option α} {h : List (Op α × Option α)} {q : Pq α}
    (reach : Reach sz nxt h q) (x : α) (hx : x ∈ contents h) :
    Reach sz nxt ((.clear, none) :: h) (clear q) ∧ contents ((.clear, none) :: h) = ∅ ∧
      mem (clear q) x = true := by
  obtain ⟨⟨M, r⟩, np⟩ := reach_inv reach
  exact ⟨.step reach trivial rfl, rfl, r.prev_isSome hx⟩

/-- The bound on priorities is needed: pushing with the largest 32-bit priority into a queue
with few bins is undefined behaviour (`(prio + 1) * 1.5` is 0). -/
theorem c07_max_prio_ub (e : Nat) (nxt : Nat → Option Nat) :
    push (init 1024 nxt) e (2 ^ 32 - 1) = .ub := by
  have hs : newSize (2 ^ 32 - 1) = .ok 0 := by decide
  have hl : (init 1024 nxt).bins.length = 1024 := List.length_replicate
  rw [push, hl, if_pos (by decide), hs, Outcome.bind_ok, resize, hl, if_pos (by decide)]
  rfl

/-! ### A concrete case meeting the hypotheses -/

def runOps : List (Op α × Option α) → Pq α → List (Op α) → Option (List (Op α × Option α))
  | h, _, [] => some h
  | h, q, op :: ops =>
    if Legal h op then
      match exec q op with
      | .ok (q', r) => runOps ((op, r) :: h) q' ops
      | _ => none
    else none

theorem reach_of_runOps {sz : Nat} {nxt : α → Option α} {h h' q ops}
    (rc : Reach sz nxt h q) (e : runOps h q ops = some h') : ∃ q', Reach sz nxt h' q' := by
  induction ops generalizing h q with
  | nil => simp only [runOps, Option.some.injEq] at e; exact ⟨q, e ▸ rc⟩
  | cons op ops ih =>
    unfold runOps at e
    split_ifs at e with legal
    split at e
    · rename_i t' r e'
      exact ih (.step rc legal e') e
    · simp at e

/-- Growth, removal from the middle of a bucket, pop order. -/
example : ∃ q, Reach 2 (fun _ => none) [(.pop, none), (.pop, some 1), (.pop, some 3), (.pop, some 5),
    (.rm 2 4, none), (.push 5 0, none), (.push 3 4, none), (.push 2 4, none),
    (.push (1 : Nat) 4, none)] q :=
  reach_of_runOps (ops := [.push 1 4, .push 2 4, .push 3 4, .push 5 0, .rm 2 4, .pop, .pop, .pop, .pop])
    .init (by decide +kernel)

end Verif.Intpq
