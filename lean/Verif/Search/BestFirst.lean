import Verif.Outcome
import Mathlib.Logic.Function.Basic
import Mathlib.Algebra.Order.Group.Defs
import Mathlib.Algebra.Order.Monoid.Unbundled.Basic
import Mathlib.Tactic.Common
import Mathlib.Tactic.Abel

/-!
# Best-first search: the common shape of A*, weighted A* and greedy search

search/astar.hpp, search/wastar.hpp and search/greedy.hpp are the same program up to the priority fields
of a node, the ordering of the open list and the `dropdups` flag.  `Alg` collects these differences; the
instances are in `Verif/Props/Astar.lean` and so on.

Simplifications:
* `PackedState` is identified with `State` (packing is a bijection on the states in question).
* Costs are elements of an ordered abelian group (no overflow, no rounding).
* The open list is the `isopen` flag of the nodes together with the rule that `pop` removes a node that no
  open node precedes; the closed list is a finite map.  These are the specifications proved for the real
  open and closed lists in `Props/BinHeap`, `Props/HeapOpen`, `Props/BucketOpen` and `Props/Hash`.
* A node that is constructed and at once destructed (`nodes->destruct(kid)`) is not allocated at all.
-/

namespace Verif.Search

variable {S O C P : Type*}

/-- A search domain, search/domain_template: the operators of a state, the `Edge` of an operator (successor
state, cost, reverse operator), the "no operator" value and the goal test. -/
structure Dom (S O C : Type*) where
  ops : S → List O
  app : S → O → S
  cost : S → O → C
  rev : S → O → O
  nop : O
  goal : S → Bool

/-- astar.hpp:13-22, wastar.hpp:14-25, greedy.hpp:12-21: `Node`; `p` is the part of the record (`f`, `fprime`,
`h`) that only the ordering uses, `isopen` is `openind >= 0`. -/
structure Node (S O C P : Type*) where
  state : S
  g : C
  p : P
  parent : Option Nat
  op : O
  pop : O
  isopen : Bool

/-- What distinguishes the algorithms. -/
structure Alg (S C P : Type*) where
  /-- priority fields of a new node -/
  initp : C → S → P
  /-- priority fields of a node whose `g` drops from the second to the third argument -/
  updp : P → C → C → P
  /-- `Node::pred` -/
  pred : P × C → P × C → Bool
  dropdups : Bool

/-- The state of a search. -/
structure St (S O C P : Type*) where
  nd : Nat → Node S O C P
  next : Nat
  closed : S → Option Nat
  expd : Nat
  gend : Nat
  dups : Nat
  reopnd : Nat

section Model
variable [DecidableEq S] [DecidableEq O] [Add C] [Zero C] [LE C] [DecidableLE C]

/-- astar.hpp:155-163 `init` and 66-70: the initial node is closed and open. -/
def init (d : Dom S O C) (a : Alg S C P) (s0 : S) : St S O C P where
  nd := fun _ => ⟨s0, 0, a.initp 0 s0, none, d.nop, d.nop, true⟩
  next := 1
  closed := Function.update (fun _ => none) s0 (some 0)
  expd := 0
  gend := 0
  dups := 0
  reopnd := 0

/-- astar.hpp:115-153, wastar.hpp:125-159, greedy.hpp:117-154 `considerkid`. -/
def considerkid (d : Dom S O C) (a : Alg S C P) (n : Nat) (op : O) (st : St S O C P) : St S O C P :=
  let par := st.nd n
  let t := d.app par.state op
  let g := par.g + d.cost par.state op
  match st.closed t with
  | some k =>
    let dup := st.nd k
    if a.dropdups = true ∨ dup.g ≤ g then
      { st with dups := st.dups + 1 }
    else
      { st with
        dups := st.dups + 1
        reopnd := if dup.isopen then st.reopnd else st.reopnd + 1
        nd := Function.update st.nd k
          { dup with
            g := g
            p := a.updp dup.p dup.g g
            parent := some n
            op := op
            pop := d.rev par.state op
            isopen := true } }
  | none =>
    { st with
      nd := Function.update st.nd st.next ⟨t, g, a.initp g t, some n, op, d.rev par.state op, true⟩
      next := st.next + 1
      closed := Function.update st.closed t (some st.next) }

/-- The body of the loop of `expand`. -/
def tryop (d : Dom S O C) (a : Alg S C P) (n : Nat) (st : St S O C P) (o : O) : St S O C P :=
  if o = (st.nd n).pop then st
  else considerkid d a n o { st with gend := st.gend + 1 }

/-- astar.hpp:103-113 `expand`. -/
def expand (d : Dom S O C) (a : Alg S C P) (n : Nat) (st : St S O C P) : St S O C P :=
  (d.ops (st.nd n).state).foldl (tryop d a n) { st with expd := st.expd + 1 }

/-- `open.pop()` when it returns `n`. -/
def pop (n : Nat) (st : St S O C P) : St S O C P :=
  { st with nd := Function.update st.nd n { st.nd n with isopen := false } }

/-- `n` may be what `open.pop()` returns: no open node precedes it. -/
def Least (a : Alg S C P) (st : St S O C P) (n : Nat) : Prop :=
  n < st.next ∧ (st.nd n).isopen = true ∧
    ∀ m < st.next, (st.nd m).isopen = true → a.pred ((st.nd m).p, (st.nd m).g) ((st.nd n).p, (st.nd n).g) = false

/-- `open.empty()`. -/
def Empty (st : St S O C P) : Prop := ∀ m < st.next, (st.nd m).isopen = false

/-- One iteration of the loop astar.hpp:72-82 that does not find a goal. -/
inductive Step (d : Dom S O C) (a : Alg S C P) : St S O C P → St S O C P → Prop
  | mk {st : St S O C P} {n : Nat} : Least a st n → d.goal (st.nd n).state = false →
      Step d a st (expand d a n (pop n st))

/-- The states of the loop, however ties are broken. -/
inductive Reach (d : Dom S O C) (a : Alg S C P) (s0 : S) : St S O C P → Prop
  | init : Reach d a s0 (init d a s0)
  | step {st st' : St S O C P} : Reach d a s0 st → Step d a st st' → Reach d a s0 st'

/-- search.hpp:296-306 `solpath`: the states and the operators, goal first.  The loop follows parent pointers;
`fuel` bounds the number of iterations. -/
def solpath (nd : Nat → Node S O C P) : Nat → Nat → Outcome (List S × List O)
  | 0, _ => .nofuel
  | fuel + 1, n =>
    match (nd n).parent with
    | none => .ok ([(nd n).state], [])
    | some m => (solpath nd fuel m).map fun r => ((nd n).state :: r.1, (nd n).op :: r.2)

end Model

/-! ## Specification: walks and plans -/

/-- `t` is reached from `s` by applicable operators of total cost `c`. -/
inductive Walk [Add C] [Zero C] (d : Dom S O C) : S → S → C → Prop
  | nil (s : S) : Walk d s s 0
  | snoc {s t : S} {c : C} {o : O} : Walk d s t c → o ∈ d.ops t → Walk d s (d.app t o) (c + d.cost t o)

/-- `Plan d s ops states c`: applying the operators `ops` one after the other from `s` is possible, visits
exactly `states` (not counting `s`) and costs `c`. -/
inductive Plan [Add C] [Zero C] (d : Dom S O C) : S → List O → List S → C → Prop
  | nil (s : S) : Plan d s [] [] 0
  | cons {s : S} {o : O} {os : List O} {ss : List S} {c : C} : o ∈ d.ops s →
      Plan d (d.app s o) os ss c → Plan d s (o :: os) (d.app s o :: ss) (d.cost s o + c)

/-- What the search assumes of a domain, for the states reachable from `s0`: costs are not negative; the
reverse operator, if applicable, leads back; "no operator" is not an operator. -/
structure DomOk [Add C] [Zero C] [LE C] (d : Dom S O C) (s0 : S) : Prop where
  cost : ∀ s c, Walk d s0 s c → ∀ o ∈ d.ops s, 0 ≤ d.cost s o
  rev : ∀ s c, Walk d s0 s c → ∀ o ∈ d.ops s, d.rev s o ∈ d.ops (d.app s o) →
    d.app (d.app s o) (d.rev s o) = s
  nop : ∀ s c, Walk d s0 s c → d.nop ∉ d.ops s

/-- Costs are not negative. -/
abbrev CostOk [Add C] [Zero C] [LE C] (d : Dom S O C) (s0 : S) : Prop :=
  ∀ s c, Walk d s0 s c → ∀ o ∈ d.ops s, 0 ≤ d.cost s o

/-- The incremental update of the priority fields is the same as computing them afresh. -/
def AlgOk (a : Alg S C P) : Prop := ∀ g g' s, a.updp (a.initp g s) g g' = a.initp g' s

section Spec
variable [AddCommGroup C] [LinearOrder C] [IsOrderedAddMonoid C]

theorem Walk.trans {d : Dom S O C} {s t u : S} {c c' : C} (h : Walk d s t c) (h' : Walk d t u c') :
    Walk d s u (c + c') := by
  induction h' with
  | nil => rw [add_zero]; exact h
  | snoc _ ho ih => rw [← add_assoc]; exact ih.snoc ho

theorem Walk.nonneg {d : Dom S O C} {s0 t : S} (hd : CostOk d s0) {c : C} (h : Walk d s0 t c) : 0 ≤ c := by
  induction h with
  | nil => exact le_rfl
  | snoc h ho ih => exact add_nonneg ih (hd _ _ h _ ho)

theorem Plan.walk {d : Dom S O C} {s : S} {os : List O} {ss : List S} {c : C} (h : Plan d s os ss c) :
    Walk d s ((s :: ss).getLast (by simp)) c := by
  induction h with
  | nil => exact .nil _
  | @cons s o os ss c ho h ih =>
    have h1 : Walk d s (d.app s o) (d.cost s o) := by
      have := (Walk.nil (d := d) s).snoc ho
      rwa [zero_add] at this
    rw [List.getLast_cons (by simp)]
    exact h1.trans ih

theorem Plan.snoc {d : Dom S O C} {s : S} {os : List O} {ss : List S} {c : C} (h : Plan d s os ss c) {o : O}
    (ho : o ∈ d.ops ((s :: ss).getLast (by simp))) :
    Plan d s (os ++ [o]) (ss ++ [d.app ((s :: ss).getLast (by simp)) o])
      (c + d.cost ((s :: ss).getLast (by simp)) o) := by
  induction h with
  | nil s =>
    have := Plan.cons (d := d) ho (.nil _)
    simpa using this
  | @cons s p os ss c hp h ih =>
    rw [List.getLast_cons (by simp)] at ho
    have := Plan.cons hp (ih ho)
    simp only [List.getLast_cons (show d.app s p :: ss ≠ [] by simp), List.cons_append, add_assoc]
    exact this

theorem Plan.length {d : Dom S O C} {s : S} {os : List O} {ss : List S} {c : C} (h : Plan d s os ss c) :
    os.length = ss.length := by
  induction h with
  | nil => rfl
  | cons _ _ ih => simp [ih]

/-- Every walk has a plan. -/
theorem Walk.plan {d : Dom S O C} {s t : S} {c : C} (h : Walk d s t c) :
    ∃ os ss, Plan d s os ss c ∧ (s :: ss).getLast (by simp) = t := by
  induction h with
  | nil => exact ⟨[], [], .nil _, rfl⟩
  | @snoc t c o h ho ih =>
    obtain ⟨os, ss, hp, hl⟩ := ih
    have := hp.snoc (o := o) (by rw [hl]; exact ho)
    rw [hl] at this
    refine ⟨_, _, this, ?_⟩
    rw [List.getLast_cons (by simp)]
    simp

end Spec

/-! ## The invariant -/

/-- The parent pointers of `i` lead to a root. -/
inductive Rooted (nd : Nat → Node S O C P) : Nat → Prop
  | root {i : Nat} : (nd i).parent = none → Rooted nd i
  | step {i j : Nat} : (nd i).parent = some j → Rooted nd j → Rooted nd i

/-- The successor of node `i` under `o` is known, at least as cheaply as through `i`. -/
def SuccOk [Add C] [LE C] (d : Dom S O C) (a : Alg S C P) (st : St S O C P) (i : Nat) (o : O) : Prop :=
  ∃ k, st.closed (d.app (st.nd i).state o) = some k ∧
    (a.dropdups = false → (st.nd k).g ≤ (st.nd i).g + d.cost (st.nd i).state o)

/-- How node `i` hangs below its parent. -/
def ParOk [Add C] [LE C] (d : Dom S O C) (st : St S O C P) (i : Nat) : Prop :=
  ∃ j, (st.nd i).parent = some j ∧ j < st.next ∧ (st.nd i).op ∈ d.ops (st.nd j).state ∧
    (st.nd i).state = d.app (st.nd j).state (st.nd i).op ∧
    (st.nd i).pop = d.rev (st.nd j).state (st.nd i).op ∧
    (st.nd j).g + d.cost (st.nd j).state (st.nd i).op ≤ (st.nd i).g

/-- The invariant of the search. -/
structure Inv [Add C] [Zero C] [LE C] (d : Dom S O C) (a : Alg S C P) (s0 : S) (st : St S O C P) : Prop where
  pos : 0 < st.next
  root : (st.nd 0).state = s0 ∧ (st.nd 0).parent = none ∧ (st.nd 0).g = 0 ∧ (st.nd 0).pop = d.nop
  cl1 : ∀ i < st.next, st.closed (st.nd i).state = some i
  cl2 : ∀ s i, st.closed s = some i → i < st.next ∧ (st.nd i).state = s
  par : ∀ i < st.next, i ≠ 0 → ParOk d st i
  rooted : ∀ i < st.next, Rooted st.nd i
  prio : ∀ i < st.next, (st.nd i).p = a.initp (st.nd i).g (st.nd i).state
  walk : ∀ i < st.next, Walk d s0 (st.nd i).state (st.nd i).g
  exp : ∀ i < st.next, (st.nd i).isopen = false → ∀ o ∈ d.ops (st.nd i).state,
    o = (st.nd i).pop ∨ SuccOk d a st i o
  ngoal : ∀ i < st.next, (st.nd i).isopen = false → d.goal (st.nd i).state = false

/-- The invariant while `n` is being expanded and the operators `rem` are still to come. -/
structure InvX [Add C] [Zero C] [LE C] (d : Dom S O C) (a : Alg S C P) (s0 : S) (st : St S O C P) (n : Nat)
    (rem : List O) : Prop where
  pos : 0 < st.next
  root : (st.nd 0).state = s0 ∧ (st.nd 0).parent = none ∧ (st.nd 0).g = 0 ∧ (st.nd 0).pop = d.nop
  cl1 : ∀ i < st.next, st.closed (st.nd i).state = some i
  cl2 : ∀ s i, st.closed s = some i → i < st.next ∧ (st.nd i).state = s
  par : ∀ i < st.next, i ≠ 0 → ParOk d st i
  rooted : ∀ i < st.next, Rooted st.nd i
  prio : ∀ i < st.next, (st.nd i).p = a.initp (st.nd i).g (st.nd i).state
  walk : ∀ i < st.next, Walk d s0 (st.nd i).state (st.nd i).g
  exp : ∀ i < st.next, (st.nd i).isopen = false → ∀ o ∈ d.ops (st.nd i).state, (i = n → o ∉ rem) →
    o = (st.nd i).pop ∨ SuccOk d a st i o
  ngoal : ∀ i < st.next, (st.nd i).isopen = false → d.goal (st.nd i).state = false
  lt : n < st.next
  cln : (st.nd n).isopen = false

section Proofs
variable [DecidableEq S] [DecidableEq O] [AddCommGroup C] [LinearOrder C] [IsOrderedAddMonoid C]
  {d : Dom S O C} {a : Alg S C P} {s0 : S}

theorem inv_init : Inv d a s0 (init d a s0) := by
  have e : ∀ i, i < (init d a s0).next → i = 0 := fun i h => by
    have : i < 1 := h
    omega
  refine ⟨Nat.zero_lt_one, ⟨rfl, rfl, rfl, rfl⟩, ?_, ?_, ?_, ?_, ?_, ?_, ?_, ?_⟩
  · intro i hi
    rw [e i hi]
    show Function.update (fun _ => none) s0 (some 0) s0 = some 0
    exact Function.update_self _ _ _
  · intro s i h
    unfold init at h ⊢
    dsimp only at h ⊢
    by_cases hs : s = s0
    · subst hs
      rw [Function.update_self] at h
      injection h with h
      exact ⟨by omega, rfl⟩
    · rw [Function.update_of_ne hs] at h
      exact absurd h (by simp)
  · intro i hi h0
    exact absurd (e i hi) h0
  · intro i hi
    exact .root rfl
  · intro i hi; rfl
  · intro i hi; exact .nil s0
  · intro i hi h; exact absurd h (by simp [init])
  · intro i hi h; exact absurd h (by simp [init])

theorem Rooted.congr {nd nd' : Nat → Node S O C P} {next : Nat}
    (hlt : ∀ i < next, ∀ j, (nd i).parent = some j → j < next)
    (heq : ∀ i < next, (nd' i).parent = (nd i).parent) {i : Nat} (hi : i < next) (h : Rooted nd i) :
    Rooted nd' i := by
  induction h with
  | root h => exact .root (by rw [heq _ hi, h])
  | step h _ ih => exact .step (by rw [heq _ hi, h]) (ih (hlt _ hi _ h))

/-- Nodes that are cheaper than `k` do not hang below `k`. -/
theorem Rooted.cheaper {nd nd' : Nat → Node S O C P} {next k : Nat}
    (hlt : ∀ i < next, ∀ j, (nd i).parent = some j → j < next ∧ (nd j).g ≤ (nd i).g)
    (heq : ∀ i, i ≠ k → (nd' i).parent = (nd i).parent) {i : Nat} (hi : i < next) (h : Rooted nd i)
    (hg : (nd i).g < (nd k).g) : Rooted nd' i := by
  induction h with
  | @root i h => exact .root (by rw [heq _ (fun e => by subst e; exact lt_irrefl _ hg), h])
  | @step i j h _ ih =>
    have := hlt i hi j h
    exact .step (by rw [heq _ (fun e => by subst e; exact lt_irrefl _ hg), h])
      (ih this.1 (lt_of_le_of_lt this.2 hg))

theorem Rooted.update {nd nd' : Nat → Node S O C P} {k : Nat}
    (heq : ∀ i, i ≠ k → (nd' i).parent = (nd i).parent) (hk : Rooted nd' k) {i : Nat} (h : Rooted nd i) :
    Rooted nd' i := by
  induction h with
  | @root i h =>
    by_cases e : i = k
    · rw [e]; exact hk
    · exact .root (by rw [heq _ e, h])
  | @step i j h _ ih =>
    by_cases e : i = k
    · rw [e]; exact hk
    · exact .step (by rw [heq _ e, h]) ih

theorem InvX.par_le {st : St S O C P} {n : Nat} {rem : List O} (hd : CostOk d s0) (h : InvX d a s0 st n rem) :
    ∀ i < st.next, ∀ j, (st.nd i).parent = some j → j < st.next ∧ (st.nd j).g ≤ (st.nd i).g := by
  intro i hi j hj
  rcases Nat.eq_zero_or_pos i with rfl | h0
  · rw [h.root.2.1] at hj; exact absurd hj (by simp)
  obtain ⟨j', e1, e2, e3, -, -, e6⟩ := h.par i hi (by omega)
  rw [hj] at e1
  injection e1 with e1
  subst e1
  refine ⟨e2, le_trans ?_ e6⟩
  have := hd _ _ (h.walk j e2) _ e3
  exact le_add_of_nonneg_right this

/-- The successor along the pruned operator is the parent, if reversing leads back. -/
theorem Inv.succOk {st : St S O C P} {n : Nat} {o : O} (hd : DomOk d s0) (h : Inv d a s0 st) (hn : n < st.next)
    (hc : (st.nd n).isopen = false) (ho : o ∈ d.ops (st.nd n).state) : SuccOk d a st n o := by
  rcases h.exp n hn hc o ho with hp | hs
  swap
  · exact hs
  rcases Nat.eq_zero_or_pos n with rfl | h0
  · rw [h.root.2.2.2] at hp
    exact absurd (hp ▸ ho) (hd.nop _ _ (h.walk 0 h.pos))
  obtain ⟨j, e1, e2, e3, e4, e5, e6⟩ := h.par n hn (by omega)
  have hr : d.app (st.nd n).state o = (st.nd j).state := by
    rw [hp, e5, e4]
    rw [hp, e5, e4] at ho
    exact hd.rev _ _ (h.walk j e2) _ e3 ho
  refine ⟨j, by rw [hr]; exact h.cl1 j e2, fun _ => ?_⟩
  have h1 := hd.cost _ _ (h.walk j e2) _ e3
  have h2 := hd.cost _ _ (h.walk n hn) _ ho
  calc (st.nd j).g ≤ (st.nd j).g + d.cost (st.nd j).state (st.nd n).op := le_add_of_nonneg_right h1
    _ ≤ (st.nd n).g := e6
    _ ≤ _ := le_add_of_nonneg_right h2

theorem InvX.of_succOk {st : St S O C P} {n : Nat} {rem : List O} {o : O}
    (h : InvX d a s0 st n (o :: rem)) (hs : o = (st.nd n).pop ∨ SuccOk d a st n o) : InvX d a s0 st n rem := by
  refine ⟨h.pos, h.root, h.cl1, h.cl2, h.par, h.rooted, h.prio, h.walk, ?_, h.ngoal, h.lt, h.cln⟩
  intro i hi hc o' ho' hrem
  by_cases e : i = n ∧ o' = o
  · rw [e.1, e.2]; exact hs
  · refine h.exp i hi hc o' ho' (fun hin => ?_)
    rw [List.mem_cons, not_or]
    exact ⟨fun e' => e ⟨hin, e'⟩, hrem hin⟩

theorem SuccOk.stats {st : St S O C P} {i : Nat} {o : O} (e g u r : Nat) :
    SuccOk d a { st with expd := e, gend := g, dups := u, reopnd := r } i o ↔ SuccOk d a st i o := Iff.rfl

theorem InvX.stats {st : St S O C P} {n : Nat} {rem : List O} (h : InvX d a s0 st n rem) (e g u r : Nat) :
    InvX d a s0 { st with expd := e, gend := g, dups := u, reopnd := r } n rem :=
  ⟨h.pos, h.root, h.cl1, h.cl2, h.par, h.rooted, h.prio, h.walk, h.exp, h.ngoal, h.lt, h.cln⟩

theorem invX_considerkid (hd : CostOk d s0) (ha : AlgOk a) {st : St S O C P} {n : Nat} {rem : List O} {o : O}
    (h : InvX d a s0 st n (o :: rem)) (ho : o ∈ d.ops (st.nd n).state) :
    InvX d a s0 (considerkid d a n o st) n rem := by
  have hcost := hd _ _ (h.walk n h.lt) _ ho
  unfold considerkid
  dsimp only
  cases hcl : st.closed (d.app (st.nd n).state o) with
  | some k =>
    dsimp only
    obtain ⟨hk, hks⟩ := h.cl2 _ _ hcl
    by_cases hc : a.dropdups = true ∨ (st.nd k).g ≤ (st.nd n).g + d.cost (st.nd n).state o
    · rw [if_pos hc]
      refine InvX.stats (h.of_succOk (.inr ⟨k, hcl, fun hdd => ?_⟩)) st.expd st.gend (st.dups + 1) st.reopnd
      rcases hc with hc | hc
      · rw [hdd] at hc; exact absurd hc (by simp)
      · exact hc
    · rw [if_neg hc]
      rw [not_or, not_le] at hc
      obtain ⟨-, hlt⟩ := hc
      have hkn : k ≠ n := by
        rintro rfl
        exact absurd hlt (not_lt.2 (le_add_of_nonneg_right hcost))
      have hnn : 0 ≤ (st.nd n).g := (h.walk n h.lt).nonneg hd
      have hk0 : k ≠ 0 := by
        rintro rfl
        rw [h.root.2.2.1] at hlt
        exact absurd hlt (not_lt.2 (add_nonneg hnn hcost))
      generalize hnd : Function.update st.nd k _ = nd'
      have hself : nd' k = { st.nd k with
            g := (st.nd n).g + d.cost (st.nd n).state o
            p := a.updp (st.nd k).p (st.nd k).g ((st.nd n).g + d.cost (st.nd n).state o)
            parent := some n
            op := o
            pop := d.rev (st.nd n).state o
            isopen := true } := by rw [← hnd]; exact Function.update_self _ _ _
      have hne : ∀ i, i ≠ k → nd' i = st.nd i := fun i hi => by rw [← hnd]; exact Function.update_of_ne hi _ _
      have hstate : ∀ i, (nd' i).state = (st.nd i).state := fun i => by
        by_cases e : i = k
        · rw [e, hself]
        · rw [hne i e]
      have hgle : ∀ i, (nd' i).g ≤ (st.nd i).g := fun i => by
        by_cases e : i = k
        · rw [e, hself]; exact hlt.le
        · rw [hne i e]
      have hwalk : ∀ i < st.next, Walk d s0 (nd' i).state (nd' i).g := fun i hi => by
        by_cases e : i = k
        · rw [e, hstate, hself, hks]; exact (h.walk n h.lt).snoc ho
        · rw [hne i e]; exact h.walk i hi
      have hparent : ∀ i, i ≠ k → (nd' i).parent = (st.nd i).parent := fun i hi => by rw [hne i hi]
      have hsucc : ∀ i, i ≠ k → ∀ o', SuccOk d a st i o' →
          ∃ k, st.closed (d.app (nd' i).state o') = some k ∧
            (a.dropdups = false → (nd' k).g ≤ (nd' i).g + d.cost (nd' i).state o') := by
        intro i hik o' ⟨m, e1, e2⟩
        refine ⟨m, by rw [hstate]; exact e1, fun hdd => le_trans (hgle m) ?_⟩
        rw [hne i hik]
        exact e2 hdd
      refine ⟨h.pos, ?_, ?_, ?_, ?_, ?_, ?_, ?_, ?_, ?_, h.lt, ?_⟩
      · dsimp only; rw [hne 0 (Ne.symm hk0)]; exact h.root
      · intro i hi; dsimp only; rw [hstate]; exact h.cl1 i hi
      · intro s i hi; dsimp only; rw [hstate]; exact h.cl2 s i hi
      · intro i hi hi0
        by_cases e : i = k
        · subst e
          refine ⟨n, ?_, h.lt, ?_, ?_, ?_, ?_⟩
          · dsimp only; rw [hself]
          · dsimp only; rw [hself, hstate]; exact ho
          · dsimp only; rw [hstate, hself, hstate, hks]
          · dsimp only; rw [hself, hstate]
          · dsimp only; rw [hself, hne n (Ne.symm hkn)]
        · obtain ⟨j, e1, e2, e3, e4, e5, e6⟩ := h.par i hi hi0
          refine ⟨j, ?_, e2, ?_, ?_, ?_, ?_⟩
          · dsimp only; rw [hne i e]; exact e1
          · dsimp only; rw [hne i e, hstate]; exact e3
          · dsimp only; rw [hne i e, hstate]; exact e4
          · dsimp only; rw [hne i e, hstate]; exact e5
          · dsimp only; rw [hne i e, hstate]
            exact le_trans (by gcongr; exact hgle j) e6
      · have hn' : Rooted nd' n := (h.rooted n h.lt).cheaper (h.par_le hd) hparent h.lt
          (lt_of_le_of_lt (le_add_of_nonneg_right hcost) hlt)
        intro i hi
        exact Rooted.update hparent (.step (j := n) (by rw [hself]) hn') (h.rooted i hi)
      · intro i hi
        dsimp only
        by_cases e : i = k
        · subst e; rw [hself]; dsimp only; rw [h.prio i hi]; exact ha _ _ _
        · rw [hne i e]; exact h.prio i hi
      · intro i hi; exact hwalk i hi
      · intro i hi hcl' o' ho' hrem
        dsimp only at hi hcl' ho'
        have e : i ≠ k := by rintro rfl; rw [hself] at hcl'; exact absurd hcl' (by simp)
        rw [hstate] at ho'
        by_cases e2 : i = n ∧ o' = o
        · obtain ⟨rfl, rfl⟩ := e2
          refine .inr ⟨k, by dsimp only; rw [hstate]; exact hcl, fun _ => ?_⟩
          dsimp only
          rw [hself, hne i e]
        · rcases h.exp i hi (by rw [← hne i e]; exact hcl') o' ho' (fun hin => by
            rw [List.mem_cons, not_or]
            exact ⟨fun e' => e2 ⟨hin, e'⟩, hrem hin⟩) with hp | hs
          · left; dsimp only; rw [hne i e]; exact hp
          · exact .inr (hsucc i e o' hs)
      · intro i hi hcl'
        dsimp only at hi hcl' ⊢
        have e : i ≠ k := by rintro rfl; rw [hself] at hcl'; exact absurd hcl' (by simp)
        rw [hne i e] at hcl' ⊢
        exact h.ngoal i hi hcl'
      · dsimp only; rw [hne n (Ne.symm hkn)]; exact h.cln
  | none =>
    dsimp only
    generalize hnd : Function.update st.nd st.next _ = nd'
    have hself : nd' st.next = ⟨d.app (st.nd n).state o, (st.nd n).g + d.cost (st.nd n).state o,
        a.initp ((st.nd n).g + d.cost (st.nd n).state o) (d.app (st.nd n).state o), some n, o,
        d.rev (st.nd n).state o, true⟩ := by rw [← hnd]; exact Function.update_self _ _ _
    have hne : ∀ i, i < st.next → nd' i = st.nd i := fun i hi => by
      rw [← hnd]; exact Function.update_of_ne (by omega) _ _
    have hclne : ∀ s, st.closed s ≠ none → Function.update st.closed (d.app (st.nd n).state o) (some st.next) s
        = st.closed s := by
      intro s hs
      refine Function.update_of_ne (fun e => hs (by rw [e]; exact hcl)) _ _
    have hsucc : ∀ i < st.next, ∀ o', SuccOk d a st i o' →
        SuccOk d a { st with
          nd := nd'
          next := st.next + 1
          closed := Function.update st.closed (d.app (st.nd n).state o) (some st.next) } i o' := by
      intro i hi o' ⟨m, e1, e2⟩
      refine ⟨m, ?_, fun hdd => ?_⟩
      · dsimp only; rw [hne i hi, hclne _ (by rw [e1]; simp)]; exact e1
      · dsimp only; rw [hne i hi, hne m (h.cl2 _ _ e1).1]; exact e2 hdd
    refine ⟨Nat.succ_pos _, ?_, ?_, ?_, ?_, ?_, ?_, ?_, ?_, ?_, Nat.lt_succ_of_lt h.lt, ?_⟩
    · dsimp only; rw [hne 0 h.pos]; exact h.root
    · intro i hi
      dsimp only at hi ⊢
      by_cases e : i = st.next
      · rw [e, hself]; exact Function.update_self _ _ _
      · have hi' : i < st.next := by omega
        rw [hne i hi', hclne _ (by rw [h.cl1 i hi']; simp)]; exact h.cl1 i hi'
    · intro s i hs
      dsimp only at hs ⊢
      by_cases e : s = d.app (st.nd n).state o
      · rw [e, Function.update_self] at hs
        injection hs with hs
        subst hs
        exact ⟨by omega, by rw [hself]; exact e.symm⟩
      · rw [Function.update_of_ne e] at hs
        obtain ⟨h1, h2⟩ := h.cl2 s i hs
        exact ⟨by omega, by rw [hne i h1]; exact h2⟩
    · intro i hi hi0
      dsimp only at hi
      by_cases e : i = st.next
      · subst e
        refine ⟨n, ?_, ?_, ?_, ?_, ?_, ?_⟩
        · dsimp only; rw [hself]
        · exact Nat.lt_succ_of_lt h.lt
        · dsimp only; rw [hself, hne n h.lt]; exact ho
        · dsimp only; rw [hself, hne n h.lt]
        · dsimp only; rw [hself, hne n h.lt]
        · dsimp only; rw [hself, hne n h.lt]
      · have hi' : i < st.next := by omega
        obtain ⟨j, e1, e2, e3, e4, e5, e6⟩ := h.par i hi' hi0
        refine ⟨j, ?_, Nat.lt_succ_of_lt e2, ?_, ?_, ?_, ?_⟩ <;> dsimp only <;> rw [hne i hi'] <;>
          first | exact e1 | (rw [hne j e2]; first | exact e3 | exact e4 | exact e5 | exact e6)
    · have hroot : ∀ i < st.next, Rooted nd' i := fun i hi =>
        (h.rooted i hi).congr (fun i hi j hj => (h.par_le hd i hi j hj).1) (fun i hi => by rw [hne i hi]) hi
      intro i hi
      dsimp only at hi
      by_cases e : i = st.next
      · exact .step (j := n) (by rw [e]; dsimp only; rw [hself]) (hroot n h.lt)
      · exact hroot i (by omega)
    · intro i hi
      dsimp only at hi ⊢
      by_cases e : i = st.next
      · rw [e, hself]
      · rw [hne i (by omega)]; exact h.prio i (by omega)
    · intro i hi
      dsimp only at hi ⊢
      by_cases e : i = st.next
      · rw [e, hself]; exact (h.walk n h.lt).snoc ho
      · rw [hne i (by omega)]; exact h.walk i (by omega)
    · intro i hi hcl' o' ho' hrem
      dsimp only at hi hcl' ho'
      have e : i ≠ st.next := by rintro rfl; rw [hself] at hcl'; exact absurd hcl' (by simp)
      have hi' : i < st.next := by omega
      rw [hne i hi'] at ho' hcl'
      by_cases e2 : i = n ∧ o' = o
      · obtain ⟨rfl, rfl⟩ := e2
        refine .inr ⟨st.next, ?_, fun _ => ?_⟩
        · dsimp only; rw [hne i hi']; exact Function.update_self _ _ _
        · dsimp only; rw [hself, hne i hi']
      · rcases h.exp i hi' hcl' o' ho' (fun hin => by
          rw [List.mem_cons, not_or]
          exact ⟨fun e' => e2 ⟨hin, e'⟩, hrem hin⟩) with hp | hs
        · left; dsimp only; rw [hne i hi']; exact hp
        · exact .inr (hsucc i hi' o' hs)
    · intro i hi hcl'
      dsimp only at hi hcl' ⊢
      have e : i ≠ st.next := by rintro rfl; rw [hself] at hcl'; exact absurd hcl' (by simp)
      rw [hne i (by omega)] at hcl' ⊢
      exact h.ngoal i (by omega) hcl'
    · dsimp only; rw [hne n h.lt]; exact h.cln

/-- The state of a node never changes. -/
theorem considerkid_state {st : St S O C P} {n i : Nat} {o : O} (hi : i < st.next) :
    ((considerkid d a n o st).nd i).state = (st.nd i).state := by
  unfold considerkid
  dsimp only
  cases st.closed (d.app (st.nd n).state o) with
  | some k =>
    dsimp only
    by_cases hc : a.dropdups = true ∨ (st.nd k).g ≤ (st.nd n).g + d.cost (st.nd n).state o
    · rw [if_pos hc]
    · rw [if_neg hc]
      dsimp only
      by_cases e : i = k
      · rw [e, Function.update_self]
      · rw [Function.update_of_ne e]
  | none =>
    dsimp only
    rw [Function.update_of_ne (by omega)]

theorem tryop_state {st : St S O C P} {n i : Nat} {o : O} (hi : i < st.next) :
    ((tryop d a n st o).nd i).state = (st.nd i).state := by
  unfold tryop
  split
  · rfl
  · rw [considerkid_state (st := { st with gend := st.gend + 1 }) hi]

theorem invX_tryop (hd : CostOk d s0) (ha : AlgOk a) {st : St S O C P} {n : Nat} {rem : List O} {o : O}
    (h : InvX d a s0 st n (o :: rem)) (ho : o ∈ d.ops (st.nd n).state) :
    InvX d a s0 (tryop d a n st o) n rem := by
  unfold tryop
  by_cases hp : o = (st.nd n).pop
  · rw [if_pos hp]
    exact h.of_succOk (.inl hp)
  · rw [if_neg hp]
    exact invX_considerkid hd ha (h.stats st.expd (st.gend + 1) st.dups st.reopnd) ho

theorem invX_fold (hd : CostOk d s0) (ha : AlgOk a) (os : List O) {st : St S O C P} {n : Nat}
    (h : InvX d a s0 st n os) (ho : ∀ o ∈ os, o ∈ d.ops (st.nd n).state) :
    InvX d a s0 (os.foldl (tryop d a n) st) n [] := by
  induction os generalizing st with
  | nil => exact h
  | cons o os ih =>
    rw [List.foldl_cons]
    refine ih (invX_tryop hd ha h (ho o (by simp))) (fun o' ho' => ?_)
    rw [tryop_state h.lt]
    exact ho o' (by simp [ho'])

theorem Inv.popped {st : St S O C P} {n : Nat} (h : Inv d a s0 st) (hn : n < st.next)
    (hg : d.goal (st.nd n).state = false) :
    InvX d a s0 (pop n st) n (d.ops (st.nd n).state) := by
  have hself : (pop n st).nd n = { st.nd n with isopen := false } := Function.update_self _ _ _
  have hne : ∀ i, i ≠ n → (pop n st).nd i = st.nd i := fun i hi => Function.update_of_ne hi _ _
  have e1 : ∀ i, ((pop n st).nd i).state = (st.nd i).state := fun i => by
    by_cases e : i = n
    · rw [e, hself]
    · rw [hne i e]
  have e2 : ∀ i, ((pop n st).nd i).g = (st.nd i).g := fun i => by
    by_cases e : i = n
    · rw [e, hself]
    · rw [hne i e]
  have e3 : ∀ i, ((pop n st).nd i).p = (st.nd i).p := fun i => by
    by_cases e : i = n
    · rw [e, hself]
    · rw [hne i e]
  have e4 : ∀ i, ((pop n st).nd i).parent = (st.nd i).parent := fun i => by
    by_cases e : i = n
    · rw [e, hself]
    · rw [hne i e]
  have e5 : ∀ i, ((pop n st).nd i).op = (st.nd i).op := fun i => by
    by_cases e : i = n
    · rw [e, hself]
    · rw [hne i e]
  have e6 : ∀ i, ((pop n st).nd i).pop = (st.nd i).pop := fun i => by
    by_cases e : i = n
    · rw [e, hself]
    · rw [hne i e]
  refine ⟨h.pos, ?_, ?_, ?_, ?_, ?_, ?_, ?_, ?_, ?_, hn, by rw [hself]⟩
  · rw [e1, e2, e4, e6]; exact h.root
  · intro i hi; rw [e1]; exact h.cl1 i hi
  · intro s i hi; rw [e1]; exact h.cl2 s i hi
  · intro i hi h0
    obtain ⟨j, f1, f2, f3, f4, f5, f6⟩ := h.par i hi h0
    refine ⟨j, ?_, f2, ?_, ?_, ?_, ?_⟩
    · rw [e4]; exact f1
    · rw [e5, e1]; exact f3
    · rw [e1, e1, e5]; exact f4
    · rw [e6, e1, e5]; exact f5
    · rw [e2, e2, e1, e5]; exact f6
  · intro i hi
    refine (h.rooted i hi).congr (next := st.next) (fun i hi j hj => ?_) (fun i _ => e4 i) hi
    rcases Nat.eq_zero_or_pos i with rfl | h0
    · rw [h.root.2.1] at hj; exact absurd hj (by simp)
    obtain ⟨j', f1, f2, -⟩ := h.par i hi (by omega)
    rw [hj] at f1; injection f1 with f1; rw [f1]; exact f2
  · intro i hi; rw [e1, e2, e3]; exact h.prio i hi
  · intro i hi; rw [e1, e2]; exact h.walk i hi
  · intro i hi hcl o ho hrem
    by_cases e : i = n
    · subst e
      rw [e1] at ho
      exact absurd ho (hrem rfl)
    · rw [hne i e] at hcl
      rw [e1] at ho
      rcases h.exp i hi hcl o ho with hp | ⟨k, f1, f2⟩
      · left; rw [e6]; exact hp
      exact .inr ⟨k, by rw [e1]; exact f1, by rw [e2, e2, e1]; exact f2⟩
  · intro i hi hcl
    rw [e1]
    by_cases e : i = n
    · rw [e]; exact hg
    · rw [hne i e] at hcl; exact h.ngoal i hi hcl

/-- Expanding any node that is not a goal keeps the invariant. -/
theorem Inv.expand (hd : CostOk d s0) (ha : AlgOk a) {st : St S O C P} (h : Inv d a s0 st) {n : Nat} (hn : n < st.next)
    (hg : d.goal (st.nd n).state = false) : Inv d a s0 (expand d a n (pop n st)) := by
  have hx := h.popped hn hg
  have hst : ((pop n st).nd n).state = (st.nd n).state := by
    unfold pop
    dsimp only
    rw [Function.update_self]
  have := invX_fold hd ha (d.ops (st.nd n).state)
    (hx.stats (st.expd + 1) st.gend st.dups st.reopnd) (fun o ho => by
      show o ∈ d.ops ((pop n st).nd n).state
      rw [hst]; exact ho)
  have e : Search.expand d a n (pop n st) = List.foldl (tryop d a n)
      { pop n st with expd := st.expd + 1, gend := st.gend, dups := st.dups, reopnd := st.reopnd }
      (d.ops (st.nd n).state) := by
    unfold Search.expand
    rw [hst]
    rfl
  rw [← e] at this
  exact ⟨this.pos, this.root, this.cl1, this.cl2, this.par, this.rooted, this.prio, this.walk,
    fun i hi hc o ho => this.exp i hi hc o ho (fun _ => by simp), this.ngoal⟩

theorem inv_step (hd : CostOk d s0) (ha : AlgOk a) {st st' : St S O C P} (h : Inv d a s0 st)
    (hs : Step d a st st') : Inv d a s0 st' := by
  cases hs with
  | @mk n hl hg => exact h.expand hd ha hl.1 hg

theorem inv_reach (hd : CostOk d s0) (ha : AlgOk a) {st : St S O C P} (h : Reach d a s0 st) : Inv d a s0 st := by
  induction h with
  | init => exact inv_init
  | step _ hs ih => exact inv_step hd ha ih hs

end Proofs

end Verif.Search
