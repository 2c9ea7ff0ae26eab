import Verif.Search.Tree
import Verif.Props.Astar
import Mathlib.Algebra.Order.Field.Basic
import Mathlib.Tactic.Ring
import Mathlib.Tactic.Linarith

/-!
# Anytime repairing A* (search/arastar.hpp)

Model of `Arastar` and, because the search may be told to stop at any point, of `ArastarMon` and `ArastarNORA`, which
only add further reasons to stop.

* Costs, `double` values included, are elements of a linearly ordered field: no rounding.
* Nodes are numbered in the order of allocation; `p` is `fprime`, `isopen` is membership of the open list. The field
  `h` of a node is `h` of its state.
* The table `Incons::mem` and the table `closed` link their entries through the *same* field `closedent` of a node
  (arastar.hpp:36-38 is the accessor of both).  Adding a node to `mem` therefore cuts the chain of `closed` that the
  node is in: nodes behind it can no longer be found, except those of `mem`, which now follow.  What is lost depends on
  the hash function; here an oracle `keep` decides, and every theorem holds for every oracle.  (Resizing one of the
  tables, from 30000001 buckets on, is not modelled.)
* The order in which nodes stand in the vector of inconsistent nodes and in the heap is not modelled; what the heap may
  return is any least node.
* `log` and `cur` are not part of the program: all expansions so far (state and `g` at the time), and the nodes
  expanded since the last change of the weight.
-/

namespace Verif.Search.Arastar

variable {S O K : Type*}

/-- A row of the table of incumbents (arastar.hpp:185-189). -/
structure Row (K : Type*) where
  wt : K
  bound : K
  cost : K
deriving DecidableEq

structure St (S O K : Type*) where
  nd : Nat → Node S O K K
  next : Nat
  closed : S → Option Nat
  incons : List Nat
  cost : K
  wt : K
  /-- the variable `goal` of `improve` -/
  found : Bool
  /-- `res.path` and `res.ops` -/
  sol : List S × List O
  rows : List (Row K)
  expd : Nat
  gend : Nat
  log : List (S × K)
  cur : List Nat

section Model
variable [DecidableEq S] [DecidableEq O] [Field K] [LinearOrder K]

/-- arastar.hpp:88-107 (constructor), 120-122 and 311-320 (`init`). -/
def init (d : Dom S O K) (h : S → K) (wt0 : K) (s0 : S) : St S O K where
  nd := fun _ => ⟨s0, 0, wt0 * h s0, none, d.nop, d.nop, true⟩
  next := 1
  closed := Function.update (fun _ => none) s0 (some 0)
  incons := []
  cost := -1
  wt := wt0
  found := false
  sol := ([], [])
  rows := []
  expd := 0
  gend := 0
  log := []
  cur := []

/-- arastar.hpp:67-72 `Incons::add`, and its effect on `closed` (see above). -/
def addincons (keep : Nat → S → Bool) (k : Nat) (st : St S O K) : St S O K :=
  if st.incons.any fun j => decide ((st.nd j).state = (st.nd k).state) then st
  else
    { st with
      incons := k :: st.incons
      closed := fun s =>
        match st.closed s with
        | none => none
        | some i => if keep st.gend s = true ∨ i ∈ k :: st.incons then some i else none }

/-- arastar.hpp:276-309 `considerkid`. -/
def considerkid (d : Dom S O K) (h : S → K) (keep : Nat → S → Bool) (n : Nat) (op : O) (st : St S O K) : St S O K :=
  let par := st.nd n
  let t := d.app par.state op
  let g := par.g + d.cost par.state op
  match st.closed t with
  | some k =>
    let dup := st.nd k
    if dup.g ≤ g then st
    else
      let st' := { st with
        nd := Function.update st.nd k
          { dup with
            p := dup.p - dup.g + g
            g := g
            parent := some n
            op := op
            pop := d.rev par.state op } }
      if dup.isopen = true then st' else addincons keep k st'
  | none =>
    { st with
      nd := Function.update st.nd st.next ⟨t, g, g + st.wt * h t, some n, op, d.rev par.state op, true⟩
      next := st.next + 1
      closed := Function.update st.closed t (some st.next) }

/-- The body of the loop of `expand`. -/
def tryop (d : Dom S O K) (h : S → K) (keep : Nat → S → Bool) (n : Nat) (st : St S O K) (o : O) : St S O K :=
  if o = (st.nd n).pop then st
  else considerkid d h keep n o { st with gend := st.gend + 1 }

/-- arastar.hpp:263-274 `expand`. -/
def expand (d : Dom S O K) (h : S → K) (keep : Nat → S → Bool) (n : Nat) (st : St S O K) : St S O K :=
  (d.ops (st.nd n).state).foldl (tryop d h keep n) { st with expd := st.expd + 1 }

/-- `open.pop()` when it returns `n`; the node is recorded as expanded. -/
def pop (n : Nat) (st : St S O K) : St S O K :=
  { st with
    nd := Function.update st.nd n { st.nd n with isopen := false }
    log := ((st.nd n).state, (st.nd n).g) :: st.log
    cur := n :: st.cur }

/-- arastar.hpp:52-56 `Node::pred`. -/
def pred (a b : Node S O K K) : Bool := if a.p = b.p then decide (a.g > b.g) else decide (a.p < b.p)

/-- `n` may be what `open.front()` and `open.pop()` return. -/
def Least (st : St S O K) (n : Nat) : Prop :=
  n < st.next ∧ (st.nd n).isopen = true ∧
    ∀ m < st.next, (st.nd m).isopen = true → pred (st.nd m) (st.nd n) = false

def Empty (st : St S O K) : Prop := ∀ m < st.next, (st.nd m).isopen = false

/-- arastar.hpp:208-210 `goodnodes`, when the front of the open list is `n`. -/
def Good (st : St S O K) (n : Nat) : Prop := st.cost = -1 ∨ (st.nd n).p < st.cost

/-- arastar.hpp:197-201: what happens if the popped node `n` is a goal; `r` is the result of `solpath`. -/
def setgoal (n : Nat) (r : List S × List O) (st : St S O K) : St S O K :=
  { st with
    cost := (st.nd n).g
    sol := r
    found := true }

/-- The least element of a list. -/
def minl : List K → Option K
  | [] => none
  | a :: l =>
    match minl l with
    | none => some a
    | some b => some (min a b)

/-- The nodes that `findbound` looks at. -/
def fringe (st : St S O K) : List Nat :=
  st.incons ++ (List.range st.next).filter fun i => (st.nd i).isopen

def fval (h : S → K) (st : St S O K) (i : Nat) : K := (st.nd i).g + h (st.nd i).state

/-- arastar.hpp:214-245 `findbound`: nodes with `g + h >= cost` are removed from both vectors (the field `openind` of
those removed from the heap is not reset; no such node is looked at again, because `closed` is cleared next). -/
def prune (h : S → K) (st : St S O K) : St S O K :=
  { st with
    incons := st.incons.filter fun i => decide (fval h st i < st.cost)
    nd := fun i => { st.nd i with isopen := (st.nd i).isopen && decide (fval h st i < st.cost) } }

/-- The value returned by `findbound`, then limited by the weight (arastar.hpp:128-130).  The value is
`cost / infinity = 0` if no node is left, and infinite if the least value is 0. -/
def epsprime (h : S → K) (st : St S O K) : K :=
  if st.wt = 1 then 1
  else
    match minl (((fringe st).map (fval h st)).filter fun f => decide (f < st.cost)) with
    | none => if st.wt < 0 then st.wt else 0
    | some m => if m = 0 then st.wt else if st.wt < st.cost / m then st.wt else st.cost / m

/-- arastar.hpp:126-132: after `improve`. -/
def report (h : S → K) (st : St S O K) : St S O K :=
  if st.found = true then
    let b := epsprime h st
    let st' := if st.wt = 1 then st else prune h st
    { st' with rows := ⟨st.wt, b, st.cost⟩ :: st.rows }
  else st

/-- arastar.hpp:171-175 `nextwt`; `sqrt(epsilon)` is `2^-26`. -/
def nextwt (dwt wt : K) : K :=
  let w := if wt - dwt > 1 then wt - dwt else 1
  if w < 1 + (1 / 2) ^ 26 then 1 else w

/-- arastar.hpp:138-140: `nextwt`, 249-261 `updateopen`, and clearing `closed`; `goal` is false when `improve` is called
again. -/
def advance (h : S → K) (dwt : K) (st : St S O K) : St S O K :=
  let w := nextwt dwt st.wt
  { st with
    wt := w
    nd := fun i =>
      if (st.nd i).isopen = true ∨ i ∈ st.incons then
        { st.nd i with
          p := (st.nd i).g + w * h (st.nd i).state
          isopen := true }
      else st.nd i
    incons := []
    closed := fun _ => none
    found := false
    cur := [] }

/-- `improve` returns: the limit is reached, or no node is good. -/
def Ended (l : St S O K → Prop) (st : St S O K) : Prop := l st ∨ ∀ n, Least st n → ¬ Good st n

/-- One iteration of the loop of `improve` (arastar.hpp:193-204), or what lies between the last of one call of
`improve` and the first of the next call.  `l` is the limit. -/
inductive Step (d : Dom S O K) (h : S → K) (keep : Nat → S → Bool) (dwt : K) (l : St S O K → Prop) :
    St S O K → St S O K → Prop
  | plain {st : St S O K} {n : Nat} : ¬ l st → Least st n → Good st n → d.goal (st.nd n).state = false →
      Step d h keep dwt l st (expand d h keep n (pop n st))
  | goal {st : St S O K} {n fuel : Nat} {r : List S × List O} : ¬ l st → Least st n → Good st n →
      d.goal (st.nd n).state = true → solpath st.nd fuel n = .ok r →
      Step d h keep dwt l st (expand d h keep n (setgoal n r (pop n st)))
  | next {st : St S O K} : Ended l st → 1 < st.wt → ¬ l (advance h dwt (report h st)) →
      ¬ Empty (advance h dwt (report h st)) → Step d h keep dwt l st (advance h dwt (report h st))

/-- The states of the loop of `improve` over all iterations of the loop of `search`, however ties are broken. -/
inductive Reach (d : Dom S O K) (h : S → K) (keep : Nat → S → Bool) (wt0 dwt : K) (l : St S O K → Prop) (s0 : S) :
    St S O K → Prop
  | init : Reach d h keep wt0 dwt l s0 (init d h wt0 s0)
  | step {st st' : St S O K} : Reach d h keep wt0 dwt l s0 st → Step d h keep dwt l st st' →
      Reach d h keep wt0 dwt l s0 st'

/-- How `search` ends (arastar.hpp:134-145): the final state, what is printed as `converged`, and whether it was the
limit that ended it. -/
inductive Run (d : Dom S O K) (h : S → K) (keep : Nat → S → Bool) (wt0 dwt : K) (l : St S O K → Prop) (s0 : S) :
    St S O K → Bool → Bool → Prop
  | converged {st : St S O K} : Reach d h keep wt0 dwt l s0 st → (∀ n, Least st n → ¬ Good st n) → st.wt ≤ 1 →
      Run d h keep wt0 dwt l s0 (report h st) true false
  | cut {st : St S O K} : Reach d h keep wt0 dwt l s0 st → l st → st.wt ≤ 1 →
      Run d h keep wt0 dwt l s0 (report h st) true true
  | exhausted {st : St S O K} : Reach d h keep wt0 dwt l s0 st → Ended l st → 1 < st.wt →
      Empty (advance h dwt (report h st)) → Run d h keep wt0 dwt l s0 (advance h dwt (report h st)) false false
  | stopped {st : St S O K} : Reach d h keep wt0 dwt l s0 st → Ended l st → 1 < st.wt →
      l (advance h dwt (report h st)) → Run d h keep wt0 dwt l s0 (advance h dwt (report h st)) false true

end Model

/-! ## The invariant -/

section Proofs
variable [DecidableEq S] [DecidableEq O] [Field K] [LinearOrder K] [IsStrictOrderedRing K]
  {d : Dom S O K} {h : S → K} {keep : Nat → S → Bool} {s0 : S}

/-- Consistency of the heuristic and its values on goals. -/
structure Consistent (d : Dom S O K) (s0 : S) (h : S → K) : Prop where
  step : ∀ s c, Walk d s0 s c → ∀ o ∈ d.ops s, h s ≤ d.cost s o + h (d.app s o)
  nonneg : ∀ s c, Walk d s0 s c → 0 ≤ h s
  goal : ∀ s c, Walk d s0 s c → d.goal s = true → h s = 0

/-- The heuristic is never negative and never over-estimates. -/
structure Adm (d : Dom S O K) (s0 : S) (h : S → K) : Prop where
  nonneg : ∀ s c, Walk d s0 s c → 0 ≤ h s
  adm : ∀ s c0, Walk d s0 s c0 → ∀ t c, Walk d s t c → d.goal t = true → h s ≤ c

/-- A node whose expansion is still owed, or was before a better path to it was found, is somewhere. -/
def Stat (h : S → K) (st : St S O K) (i : Nat) : Prop :=
  (st.nd i).isopen = true ∨ ((st.nd i).state, (st.nd i).g) ∈ st.log ∨ i ∈ st.incons ∨
    (st.cost ≠ -1 ∧ st.cost ≤ fval h st i)

/-- The invariant, while the operators `rem` of `n` are still to be applied. -/
structure InvE (d : Dom S O K) (h : S → K) (s0 : S) (st : St S O K) (n : Nat) (rem : List O) : Prop where
  tree : Tree d s0 st.nd st.next
  cl : ∀ s i, st.closed s = some i → i < st.next ∧ (st.nd i).state = s ∧ ((st.nd i).isopen = true ∨ i ∈ st.cur)
  fp : ∀ i < st.next, ((st.nd i).isopen = true ∨ st.closed (st.nd i).state = some i) →
    (st.nd i).p = (st.nd i).g + st.wt * h (st.nd i).state
  inc : ∀ i ∈ st.incons, i < st.next ∧ (st.nd i).isopen = false ∧ i ∈ st.cur ∧ st.closed (st.nd i).state = some i
  curl : ∀ i ∈ st.cur, i < st.next
  stat : ∀ i < st.next, Stat h st i
  succ : ∀ s ge, (s, ge) ∈ st.log → ∀ o ∈ d.ops s, (s = (st.nd n).state → ge = (st.nd n).g → o ∉ rem) →
    ∃ m < st.next, (st.nd m).state = d.app s o ∧ (st.nd m).g ≤ ge + d.cost s o
  logw : ∀ s ge, (s, ge) ∈ st.log → Walk d s0 s ge
  goal : ∀ s ge, (s, ge) ∈ st.log → d.goal s = true → st.cost ≠ -1 ∧ st.cost ≤ ge
  well : Consistent d s0 h → ∀ i ∈ st.cur, ∀ c, Walk d s0 (st.nd i).state c →
    ∃ ge, ((st.nd i).state, ge) ∈ st.log ∧ ge ≤ st.wt * c
  wt1 : 1 ≤ st.wt

theorem InvE.weaken {st : St S O K} {n : Nat} (hi : InvE d h s0 st n []) (m : Nat) : InvE d h s0 st m [] :=
  ⟨hi.tree, hi.cl, hi.fp, hi.inc, hi.curl, hi.stat,
    fun s ge hl o ho _ => hi.succ s ge hl o ho (fun _ _ => by simp), hi.logw, hi.goal, hi.well, hi.wt1⟩

theorem invE_init {wt0 : K} (hw : 1 ≤ wt0) : InvE d h s0 (init d h wt0 s0) 0 [] := by
  have e : ∀ i, i < (init d h wt0 s0).next → i = 0 := fun i h => by
    have : i < 1 := h
    omega
  refine ⟨⟨Nat.one_pos, ⟨rfl, rfl, rfl, rfl⟩, ?_, ?_, ?_⟩, ?_, ?_, ?_, ?_, ?_, ?_, ?_, ?_, ?_, hw⟩
  · intro i hi h0; exact absurd (e i hi) h0
  · intro i _; exact .root rfl
  · intro i _; exact .nil _
  · intro s i hs
    by_cases hc : s = s0
    · subst hc
      have : i = 0 := by
        have h1 : Function.update (fun _ => none) s (some 0) s = some i := hs
        rw [Function.update_self] at h1
        injection h1 with h1
        exact h1.symm
      subst this
      exact ⟨Nat.one_pos, rfl, Or.inl rfl⟩
    · have h1 : Function.update (fun _ => none) s0 (some 0) s = some i := hs
      rw [Function.update_of_ne hc] at h1
      exact absurd h1 (by simp)
  · intro i _ _
    show wt0 * h s0 = 0 + wt0 * h s0
    rw [zero_add]
  · intro i hi; exact absurd hi (by simp [init])
  · intro i hi; exact absurd hi (by simp [init])
  · intro i _; exact Or.inl rfl
  · intro s ge hl; exact absurd hl (by simp [init])
  · intro s ge hl; exact absurd hl (by simp [init])
  · intro s ge hl; exact absurd hl (by simp [init])
  · intro _ i hi; exact absurd hi (by simp [init])

/-- The record of a node that has been reached more cheaply. -/
private def better (dup : Node S O K K) (n : Nat) (o : O) (pop : O) (g : K) : Node S O K K :=
  { dup with
    p := dup.p - dup.g + g
    g := g
    parent := some n
    op := o
    pop := pop }

theorem invE_considerkid (hd : DomOk d s0) {st : St S O K} {n : Nat} {o : O} {rem : List O}
    (hi : InvE d h s0 st n (o :: rem)) (hn : n < st.next) (ho : o ∈ d.ops (st.nd n).state) :
    InvE d h s0 (considerkid d h keep n o st) n rem ∧
      (considerkid d h keep n o st).nd n = st.nd n ∧ st.next ≤ (considerkid d h keep n o st).next := by
  unfold considerkid
  dsimp only
  generalize ht : d.app (st.nd n).state o = t
  generalize hg : (st.nd n).g + d.cost (st.nd n).state o = g
  cases hcl : st.closed t with
  | some k =>
    dsimp only
    obtain ⟨hk, hks, hko⟩ := hi.cl _ _ hcl
    by_cases hle : (st.nd k).g ≤ g
    · rw [if_pos hle]
      refine ⟨{ hi with succ := ?_ }, rfl, le_rfl⟩
      intro s ge hl o' ho' hex
      by_cases e : s = (st.nd n).state ∧ ge = (st.nd n).g ∧ o' = o
      · obtain ⟨e1, e2, e3⟩ := e
        subst e1 e2 e3
        exact ⟨k, hk, by rw [hks, ht], by rw [hg]; exact hle⟩
      · refine hi.succ s ge hl o' ho' (fun e1 e2 hm => ?_)
        rcases List.mem_cons.1 hm with e3 | e3
        · exact e ⟨e1, e2, e3⟩
        · exact hex e1 e2 e3
    · rw [if_neg hle]
      rw [not_le] at hle
      have hupd : ∀ i, i ≠ k → Function.update st.nd k
          (better (st.nd k) n o (d.rev (st.nd n).state o) g) i = st.nd i :=
        fun i hne => Function.update_of_ne hne _ _
      have hself : Function.update st.nd k
          (better (st.nd k) n o (d.rev (st.nd n).state o) g) k =
          better (st.nd k) n o (d.rev (st.nd n).state o) g := Function.update_self ..
      obtain ⟨htree, hkn, hk0⟩ := hi.tree.improve hd hn ho (by rw [hks, ht]) (by rw [hg]; exact hle) hupd
        (by rw [hself]; rfl) (by rw [hself, hg]; rfl) (by rw [hself]; rfl) (by rw [hself]; rfl) (by rw [hself]; rfl)
      have hst : ∀ i, (Function.update st.nd k
          (better (st.nd k) n o (d.rev (st.nd n).state o) g) i).state = (st.nd i).state := fun i => by
        by_cases e : i = k
        · rw [e, hself]; rfl
        · rw [hupd i e]
      have hop : ∀ i, (Function.update st.nd k
          (better (st.nd k) n o (d.rev (st.nd n).state o) g) i).isopen = (st.nd i).isopen := fun i => by
        by_cases e : i = k
        · rw [e, hself]; rfl
        · rw [hupd i e]
      have hgle : ∀ i, (Function.update st.nd k
          (better (st.nd k) n o (d.rev (st.nd n).state o) g) i).g ≤ (st.nd i).g := fun i => by
        by_cases e : i = k
        · rw [e, hself]; exact hle.le
        · rw [hupd i e]
      have hgk : (Function.update st.nd k
          (better (st.nd k) n o (d.rev (st.nd n).state o) g) k).g = g := by rw [hself]; rfl
      have hpk : (Function.update st.nd k
          (better (st.nd k) n o (d.rev (st.nd n).state o) g) k).p = g + st.wt * h (st.nd k).state := by
        rw [hself]
        show (st.nd k).p - (st.nd k).g + g = _
        rw [hi.fp k hk (Or.inr (by rw [hks]; exact hcl))]
        ring
      have hndn : Function.update st.nd k
          (better (st.nd k) n o (d.rev (st.nd n).state o) g) n = st.nd n := hupd n (Ne.symm hkn)
      show InvE d h s0 (if (st.nd k).isopen = true then
          { st with nd := Function.update st.nd k (better (st.nd k) n o (d.rev (st.nd n).state o) g) }
        else addincons keep k
          { st with nd := Function.update st.nd k (better (st.nd k) n o (d.rev (st.nd n).state o) g) }) n rem ∧
        (if (st.nd k).isopen = true then
          { st with nd := Function.update st.nd k (better (st.nd k) n o (d.rev (st.nd n).state o) g) }
        else addincons keep k
          { st with nd := Function.update st.nd k (better (st.nd k) n o (d.rev (st.nd n).state o) g) }).nd n
          = st.nd n ∧ st.next ≤ (if (st.nd k).isopen = true then
          { st with nd := Function.update st.nd k (better (st.nd k) n o (d.rev (st.nd n).state o) g) }
        else addincons keep k
          { st with nd := Function.update st.nd k (better (st.nd k) n o (d.rev (st.nd n).state o) g) }).next
      revert htree hupd hst hop hgle hgk hpk hndn
      clear hself
      generalize Function.update st.nd k (better (st.nd k) n o (d.rev (st.nd n).state o) g) = nd'
      intro hupd htree hst hop hgle hgk hpk hndn
      -- all fields but `inc`, `stat` and what concerns `closed`
      have hsucc : ∀ s ge, (s, ge) ∈ st.log → ∀ o' ∈ d.ops s,
          (s = (nd' n).state → ge = (nd' n).g → o' ∉ rem) →
          ∃ m < st.next, (nd' m).state = d.app s o' ∧ (nd' m).g ≤ ge + d.cost s o' := by
        intro s ge hl o' ho' hex
        rw [hndn] at hex
        by_cases e : s = (st.nd n).state ∧ ge = (st.nd n).g ∧ o' = o
        · obtain ⟨e1, e2, e3⟩ := e
          subst e1 e2 e3
          exact ⟨k, hk, by rw [hst, hks, ht], by rw [hg, hgk]⟩
        · obtain ⟨m, h1, h2, h3⟩ := hi.succ s ge hl o' ho' (fun e1 e2 hm => by
            rcases List.mem_cons.1 hm with e3 | e3
            · exact e ⟨e1, e2, e3⟩
            · exact hex e1 e2 e3)
          exact ⟨m, h1, by rw [hst]; exact h2, le_trans (hgle m) h3⟩
      have hfp : ∀ i < st.next, ((nd' i).isopen = true ∨ st.closed (nd' i).state = some i) →
          (nd' i).p = (nd' i).g + st.wt * h (nd' i).state := by
        intro i hii hor
        by_cases e : i = k
        · rw [e, hpk, hgk, hst]
        · rw [hop, hst] at hor
          rw [hupd i e]
          exact hi.fp i hii hor
      have hwell : Consistent d s0 h → ∀ i ∈ st.cur, ∀ c, Walk d s0 (nd' i).state c →
          ∃ ge, ((nd' i).state, ge) ∈ st.log ∧ ge ≤ st.wt * c := by
        intro hc i hic c hw
        rw [hst] at hw ⊢
        exact hi.well hc i hic c hw
      have hstat : ∀ i, i ≠ k → Stat h st i → Stat h { st with nd := nd' } i := by
        intro i e hs
        unfold Stat fval at hs ⊢
        dsimp only
        rw [hupd i e]
        exact hs
      have hcl' : ∀ s i, st.closed s = some i →
          i < st.next ∧ (nd' i).state = s ∧ ((nd' i).isopen = true ∨ i ∈ st.cur) := by
        intro s i hs
        rw [hst, hop]
        exact hi.cl s i hs
      by_cases ho1 : (st.nd k).isopen = true
      · rw [if_pos ho1]
        refine ⟨⟨htree, hcl', hfp, ?_, hi.curl, ?_, hsucc, hi.logw, hi.goal, hwell, hi.wt1⟩, hndn, le_rfl⟩
        · intro i hinc
          dsimp only
          rw [hop, hst]
          exact hi.inc i hinc
        · intro i hii
          by_cases e : i = k
          · subst e; exact Or.inl (by show (nd' i).isopen = true; rw [hop]; exact ho1)
          · exact hstat i e (hi.stat i hii)
      · rw [if_neg ho1]
        have hkcur : k ∈ st.cur := by
          rcases hko with e | e
          · exact absurd e ho1
          · exact e
        unfold addincons
        dsimp only
        split
        · rename_i hany
          rw [List.any_eq_true] at hany
          obtain ⟨j, hj, hje⟩ := hany
          rw [decide_eq_true_eq, hst, hst] at hje
          have hjk : j = k := by
            have h1 := (hi.inc j hj).2.2.2
            rw [hje, hks, hcl] at h1
            injection h1 with h1
            exact h1.symm
          subst hjk
          refine ⟨⟨htree, hcl', hfp, ?_, hi.curl, ?_, hsucc, hi.logw, hi.goal, hwell, hi.wt1⟩, hndn, le_rfl⟩
          · intro i hinc
            dsimp only
            rw [hop, hst]
            exact hi.inc i hinc
          · intro i hii
            by_cases e : i = j
            · subst e; exact Or.inr (Or.inr (Or.inl hj))
            · exact hstat i e (hi.stat i hii)
        · refine ⟨⟨htree, ?_, ?_, ?_, hi.curl, ?_, hsucc, hi.logw, hi.goal, hwell, hi.wt1⟩, hndn, le_rfl⟩
          · intro s i hs
            dsimp only at hs
            cases hc : st.closed s with
            | none => rw [hc] at hs; exact absurd hs (by simp)
            | some j =>
              rw [hc] at hs
              dsimp only at hs
              split at hs
              · injection hs with hs
                subst hs
                exact hcl' s j hc
              · exact absurd hs (by simp)
          · intro i hii hor
            refine hfp i hii (hor.imp id fun hs => ?_)
            dsimp only at hs
            cases hc : st.closed (nd' i).state with
            | none => rw [hc] at hs; exact absurd hs (by simp)
            | some j =>
              rw [hc] at hs
              dsimp only at hs
              split at hs
              · exact hs
              · exact absurd hs (by simp)
          · intro i hinc
            dsimp only at hinc ⊢
            rw [hop, hst]
            have hbase : i < st.next ∧ (st.nd i).isopen = false ∧ i ∈ st.cur ∧
                st.closed (st.nd i).state = some i := by
              rcases List.mem_cons.1 hinc with e | e
              · subst e
                exact ⟨hk, by simpa using ho1, hkcur, by rw [hks]; exact hcl⟩
              · exact hi.inc i e
            obtain ⟨b1, b2, b3, b4⟩ := hbase
            refine ⟨b1, b2, b3, ?_⟩
            rw [b4]
            dsimp only
            rw [if_pos (Or.inr hinc)]
          · intro i hii
            by_cases e : i = k
            · exact Or.inr (Or.inr (Or.inl (by rw [e]; exact List.mem_cons_self)))
            · rcases hstat i e (hi.stat i hii) with e1 | e1 | e1 | e1
              · exact Or.inl e1
              · exact Or.inr (Or.inl e1)
              · exact Or.inr (Or.inr (Or.inl (List.mem_cons_of_mem _ e1)))
              · exact Or.inr (Or.inr (Or.inr e1))
  | none =>
    dsimp only
    have hupd : ∀ i, i < st.next → Function.update st.nd st.next
        ⟨t, g, g + st.wt * h t, some n, o, d.rev (st.nd n).state o, true⟩ i = st.nd i :=
      fun i hlt => Function.update_of_ne (by omega) _ _
    have hself : Function.update st.nd st.next
        ⟨t, g, g + st.wt * h t, some n, o, d.rev (st.nd n).state o, true⟩ st.next =
        ⟨t, g, g + st.wt * h t, some n, o, d.rev (st.nd n).state o, true⟩ := Function.update_self ..
    have htree := hi.tree.add hd hn ho hupd (by rw [hself, ht]) (by rw [hself, hg]) (by rw [hself]) (by rw [hself])
      (by rw [hself])
    have hndn := hupd n hn
    revert hupd hself htree hndn
    generalize Function.update st.nd st.next
      ⟨t, g, g + st.wt * h t, some n, o, d.rev (st.nd n).state o, true⟩ = nd'
    intro hupd hself htree hndn
    refine ⟨⟨htree, ?_, ?_, ?_, ?_, ?_, ?_, hi.logw, hi.goal, ?_, hi.wt1⟩, hndn, Nat.le_succ _⟩
    · intro s i hs
      dsimp only at hs ⊢
      by_cases e : s = t
      · rw [e, Function.update_self] at hs
        injection hs with hs
        subst hs
        exact ⟨Nat.lt_succ_self _, by rw [hself, e], Or.inl (by rw [hself])⟩
      · rw [Function.update_of_ne e] at hs
        obtain ⟨b1, b2, b3⟩ := hi.cl s i hs
        rw [hupd i b1]
        exact ⟨by omega, b2, b3⟩
    · intro i hii hor
      dsimp only at hii hor ⊢
      by_cases e : i = st.next
      · rw [e, hself]
      · have hlt : i < st.next := by omega
        rw [hupd i hlt] at hor ⊢
        refine hi.fp i hlt (hor.imp id fun hs => ?_)
        by_cases e' : (st.nd i).state = t
        · rw [e', Function.update_self] at hs
          injection hs with hs
          omega
        · rwa [Function.update_of_ne e'] at hs
    · intro i hinc
      dsimp only at hinc ⊢
      obtain ⟨b1, b2, b3, b4⟩ := hi.inc i hinc
      rw [hupd i b1]
      refine ⟨by omega, b2, b3, ?_⟩
      rw [Function.update_of_ne (fun e => by rw [e, hcl] at b4; exact absurd b4 (by simp))]
      exact b4
    · intro i hic
      exact Nat.lt_succ_of_lt (hi.curl i hic)
    · intro i hii
      dsimp only at hii
      by_cases e : i = st.next
      · exact Or.inl (by dsimp only; rw [e, hself])
      · have hlt : i < st.next := by omega
        have := hi.stat i hlt
        unfold Stat fval at this ⊢
        dsimp only
        rw [hupd i hlt]
        exact this
    · intro s ge hl o' ho' hex
      dsimp only at hl hex ⊢
      rw [hndn] at hex
      by_cases e : s = (st.nd n).state ∧ ge = (st.nd n).g ∧ o' = o
      · obtain ⟨e1, e2, e3⟩ := e
        subst e1 e2 e3
        exact ⟨st.next, Nat.lt_succ_self _, by rw [hself, ht], by rw [hself, hg]⟩
      · obtain ⟨m, h1, h2, h3⟩ := hi.succ s ge hl o' ho' (fun e1 e2 hm => by
          rcases List.mem_cons.1 hm with e3 | e3
          · exact e ⟨e1, e2, e3⟩
          · exact hex e1 e2 e3)
        exact ⟨m, by omega, by rw [hupd m h1]; exact h2, by rw [hupd m h1]; exact h3⟩
    · intro hc i hic c hw
      dsimp only at hic hw ⊢
      rw [hupd i (hi.curl i hic)] at hw ⊢
      exact hi.well hc i hic c hw

theorem invE_tryop (hd : DomOk d s0) {st : St S O K} {n : Nat} {o : O} {rem : List O}
    (hi : InvE d h s0 st n (o :: rem)) (hn : n < st.next) (ho : o ∈ d.ops (st.nd n).state) :
    InvE d h s0 (tryop d h keep n st o) n rem ∧
      (tryop d h keep n st o).nd n = st.nd n ∧ st.next ≤ (tryop d h keep n st o).next := by
  unfold tryop
  split
  · rename_i hp
    refine ⟨{ hi with succ := ?_ }, rfl, le_rfl⟩
    intro s ge hl o' ho' hex
    by_cases e : s = (st.nd n).state ∧ ge = (st.nd n).g ∧ o' = o
    · obtain ⟨e1, e2, e3⟩ := e
      subst e1 e2 e3
      exact hi.tree.pruned hd hn ho hp
    · refine hi.succ s ge hl o' ho' (fun e1 e2 hm => ?_)
      rcases List.mem_cons.1 hm with e3 | e3
      · exact e ⟨e1, e2, e3⟩
      · exact hex e1 e2 e3
  · have hi' : InvE d h s0 { st with gend := st.gend + 1 } n (o :: rem) :=
      ⟨hi.tree, hi.cl, hi.fp, hi.inc, hi.curl, hi.stat, hi.succ, hi.logw, hi.goal, hi.well, hi.wt1⟩
    exact invE_considerkid hd hi' hn ho

/-- What expanding leaves alone. -/
structure Frame (st st' : St S O K) : Prop where
  cost : st'.cost = st.cost
  wt : st'.wt = st.wt
  found : st'.found = st.found
  sol : st'.sol = st.sol
  rows : st'.rows = st.rows
  log : st'.log = st.log
  cur : st'.cur = st.cur

omit [IsStrictOrderedRing K] in
theorem frame_tryop (n : Nat) (o : O) (st : St S O K) : Frame st (tryop d h keep n st o) := by
  unfold tryop considerkid addincons
  dsimp only
  split
  · exact ⟨rfl, rfl, rfl, rfl, rfl, rfl, rfl⟩
  · split
    · split
      · exact ⟨rfl, rfl, rfl, rfl, rfl, rfl, rfl⟩
      · split
        · exact ⟨rfl, rfl, rfl, rfl, rfl, rfl, rfl⟩
        · split <;> exact ⟨rfl, rfl, rfl, rfl, rfl, rfl, rfl⟩
    · exact ⟨rfl, rfl, rfl, rfl, rfl, rfl, rfl⟩

omit [DecidableEq S] [DecidableEq O] [IsStrictOrderedRing K] in
theorem Frame.trans {a b c : St S O K} (h1 : Frame a b) (h2 : Frame b c) : Frame a c :=
  ⟨h2.cost.trans h1.cost, h2.wt.trans h1.wt, h2.found.trans h1.found, h2.sol.trans h1.sol, h2.rows.trans h1.rows,
    h2.log.trans h1.log, h2.cur.trans h1.cur⟩

omit [IsStrictOrderedRing K] in
theorem frame_foldl (n : Nat) (os : List O) (st : St S O K) : Frame st (os.foldl (tryop d h keep n) st) := by
  induction os generalizing st with
  | nil => exact ⟨rfl, rfl, rfl, rfl, rfl, rfl, rfl⟩
  | cons o os ih => exact (frame_tryop n o st).trans (ih _)

omit [IsStrictOrderedRing K] in
theorem frame_expand (n : Nat) (st : St S O K) : Frame st (expand d h keep n st) := by
  have := frame_foldl (d := d) (h := h) (keep := keep) n (d.ops (st.nd n).state) { st with expd := st.expd + 1 }
  exact ⟨this.cost, this.wt, this.found, this.sol, this.rows, this.log, this.cur⟩

theorem invE_foldl (hd : DomOk d s0) {n : Nat} {os : List O} {st : St S O K} (hi : InvE d h s0 st n os)
    (hn : n < st.next) (hos : ∀ o ∈ os, o ∈ d.ops (st.nd n).state) :
    InvE d h s0 (os.foldl (tryop d h keep n) st) n [] := by
  induction os generalizing st with
  | nil => exact hi
  | cons o os ih =>
    obtain ⟨h1, h2, h3⟩ := invE_tryop (keep := keep) hd hi hn (hos o List.mem_cons_self)
    rw [List.foldl_cons]
    exact ih h1 (by omega) (fun o' ho' => by rw [h2]; exact hos o' (List.mem_cons_of_mem _ ho'))

theorem invE_expand (hd : DomOk d s0) {n : Nat} {st : St S O K} (hi : InvE d h s0 st n (d.ops (st.nd n).state))
    (hn : n < st.next) : InvE d h s0 (expand d h keep n st) n [] := by
  unfold expand
  refine invE_foldl hd ?_ hn (fun _ h => h)
  exact ⟨hi.tree, hi.cl, hi.fp, hi.inc, hi.curl, hi.stat, hi.succ, hi.logw, hi.goal, hi.well, hi.wt1⟩

/-! ## The frontier -/

/-- Along a walk either everything has been expanded well enough, or some node is good enough and its expansion is
still owed. -/
theorem first_bad {st : St S O K} {n : Nat} (hd : DomOk d s0) (hi : InvE d h s0 st n []) {w : K} (hw1 : 1 ≤ w)
    {t : S} {c : K} (hw : Walk d s0 t c) :
    (∃ ge, (t, ge) ∈ st.log ∧ ge ≤ w * c) ∨
    ∃ m < st.next, ∃ c1 c2, Walk d s0 (st.nd m).state c1 ∧ Walk d (st.nd m).state t c2 ∧ c1 + c2 = c ∧
      (st.nd m).g ≤ w * c1 ∧ ¬ ∃ ge, ((st.nd m).state, ge) ∈ st.log ∧ ge ≤ w * c1 := by
  induction hw with
  | nil =>
    by_cases hg : ∃ ge, (s0, ge) ∈ st.log ∧ ge ≤ w * 0
    · exact Or.inl hg
    · refine Or.inr ⟨0, hi.tree.pos, 0, 0, ?_, ?_, add_zero _, ?_, ?_⟩
      · rw [hi.tree.root.1]; exact .nil _
      · rw [hi.tree.root.1]; exact .nil _
      · rw [hi.tree.root.2.2.1, mul_zero]
      · rw [hi.tree.root.1]; exact hg
  | @snoc t c o hw ho ih =>
    rcases ih with ⟨ge, h1, h2⟩ | ⟨m, hm, c1, c2, h1, h2, h3, h4, h5⟩
    · by_cases hg : ∃ ge, (d.app t o, ge) ∈ st.log ∧ ge ≤ w * (c + d.cost t o)
      · exact Or.inl hg
      · obtain ⟨m, hm, e1, e2⟩ := hi.succ t ge h1 o ho (fun _ _ => by simp)
        refine Or.inr ⟨m, hm, c + d.cost t o, 0, ?_, ?_, add_zero _, ?_, ?_⟩
        · rw [e1]; exact hw.snoc ho
        · rw [e1]; exact .nil _
        · have hc := hd.cost _ _ hw _ ho
          have : d.cost t o ≤ w * d.cost t o := le_mul_of_one_le_left hc hw1
          rw [mul_add]
          linarith
        · rw [e1]; exact hg
    · exact Or.inr ⟨m, hm, c1, c2 + d.cost t o, h1, h2.snoc ho, by rw [← h3, add_assoc], h4, h5⟩

theorem Consistent.walk (hc : Consistent d s0 h) {s t : S} {c0 c : K} (h0 : Walk d s0 s c0) (hw : Walk d s t c) :
    h s ≤ c + h t := by
  induction hw with
  | nil => rw [zero_add]
  | @snoc t c o hw ho ih =>
    have := hc.step _ _ (h0.trans hw) o ho
    linarith

omit [IsStrictOrderedRing K] in
theorem Least.p_le {st : St S O K} {n m : Nat} (hl : Least st n) (hm : m < st.next) (ho : (st.nd m).isopen = true) :
    (st.nd n).p ≤ (st.nd m).p := by
  have hp := hl.2.2 m hm ho
  by_contra hc
  rw [not_le] at hc
  unfold pred at hp
  rw [if_neg (ne_of_lt hc), decide_eq_false_iff_not] at hp
  exact hp hc

/-- The node about to be expanded has been reached with at most `wt` times the least cost. -/
theorem pop_le (hd : DomOk d s0) (hc : Consistent d s0 h) {st : St S O K} {n : Nat} (hi : InvE d h s0 st n [])
    (hl : Least st n) (hgood : Good st n) {c : K} (hw : Walk d s0 (st.nd n).state c) :
    ∃ ge, ((st.nd n).state, ge) ∈ ((st.nd n).state, (st.nd n).g) :: st.log ∧ ge ≤ st.wt * c := by
  have hw0 : (0 : K) ≤ st.wt := le_trans zero_le_one hi.wt1
  rcases first_bad hd hi hi.wt1 hw with ⟨ge, h1, h2⟩ | ⟨m, hm, c1, c2, h1, h2, h3, h4, h5⟩
  · exact ⟨ge, List.mem_cons_of_mem _ h1, h2⟩
  · refine ⟨(st.nd n).g, List.mem_cons_self, ?_⟩
    have hcons := hc.walk h1 h2
    have hfn := hi.fp n hl.1 (Or.inl hl.2.1)
    have hmul : st.wt * h (st.nd m).state ≤ st.wt * (c2 + h (st.nd n).state) := mul_le_mul_of_nonneg_left hcons hw0
    rw [mul_add] at hmul
    have hsum : st.wt * c = st.wt * c1 + st.wt * c2 := by rw [← h3, mul_add]
    rcases hi.stat m hm with e | e | e | ⟨e1, e2⟩
    · have hp := hl.p_le hm e
      rw [hfn, hi.fp m hm (Or.inl e)] at hp
      linarith
    · exact absurd ⟨_, e, h4⟩ h5
    · exact absurd (hi.well hc m (hi.inc m e).2.2.1 c1 h1) h5
    · rcases hgood with g1 | g1
      · exact absurd g1 e1
      · rw [hfn] at g1
        unfold fval at e2
        have hnn := hc.nonneg _ _ h1
        have : h (st.nd m).state ≤ st.wt * h (st.nd m).state := le_mul_of_one_le_left hnn hi.wt1
        linarith

/-- When nothing good is left, the incumbent is within the weight of every solution. -/
theorem ended_le (hd : DomOk d s0) (hc : Consistent d s0 h) {st : St S O K} {n : Nat} (hi : InvE d h s0 st n [])
    (hend : ∀ n, Least st n → ¬ Good st n) (hex : ¬ Empty st → ∃ n, Least st n) {t : S} {c : K} (hw : Walk d s0 t c)
    (ht : d.goal t = true) : st.cost ≠ -1 ∧ st.cost ≤ st.wt * c := by
  have hw0 : (0 : K) ≤ st.wt := le_trans zero_le_one hi.wt1
  rcases first_bad hd hi hi.wt1 hw with ⟨ge, h1, h2⟩ | ⟨m, hm, c1, c2, h1, h2, h3, h4, h5⟩
  · obtain ⟨g1, g2⟩ := hi.goal t ge h1 ht
    exact ⟨g1, g2.trans h2⟩
  · have hcons := hc.walk h1 h2
    rw [hc.goal _ _ hw ht, add_zero] at hcons
    have hmul : st.wt * h (st.nd m).state ≤ st.wt * c2 := mul_le_mul_of_nonneg_left hcons hw0
    have hsum : st.wt * c = st.wt * c1 + st.wt * c2 := by rw [← h3, mul_add]
    rcases hi.stat m hm with e | e | e | ⟨e1, e2⟩
    · obtain ⟨k, hk⟩ := hex (fun he => by rw [he m hm] at e; exact absurd e (by simp))
      have hng := hend k hk
      unfold Good at hng
      rw [not_or, not_lt] at hng
      refine ⟨hng.1, ?_⟩
      have hp := hk.p_le hm e
      rw [hi.fp m hm (Or.inl e)] at hp
      linarith [hng.2]
    · exact absurd ⟨_, e, h4⟩ h5
    · exact absurd (hi.well hc m (hi.inc m e).2.2.1 c1 h1) h5
    · refine ⟨e1, ?_⟩
      unfold fval at e2
      have hnn := hc.nonneg _ _ h1
      have : h (st.nd m).state ≤ st.wt * h (st.nd m).state := le_mul_of_one_le_left hnn hi.wt1
      linarith

/-- Whatever has been done so far, a solution cheaper than the incumbent goes through the fringe. -/
theorem fringe_le (hd : DomOk d s0) (ha : Adm d s0 h) {st : St S O K} {n : Nat} (hi : InvE d h s0 st n []) {t : S}
    {c : K} (hw : Walk d s0 t c) (ht : d.goal t = true) : (st.cost ≠ -1 ∧ st.cost ≤ c) ∨ ∃ m ∈ fringe st, m < st.next ∧ fval h st m ≤ c := by
  rcases first_bad hd hi (le_refl (1 : K)) hw with ⟨ge, h1, h2⟩ | ⟨m, hm, c1, c2, h1, h2, h3, h4, h5⟩
  · obtain ⟨g1, g2⟩ := hi.goal t ge h1 ht
    rw [one_mul] at h2
    exact Or.inl ⟨g1, g2.trans h2⟩
  · have hcons := ha.adm _ _ h1 _ _ h2 ht
    rw [one_mul] at h4
    have hf : fval h st m ≤ c := by unfold fval; linarith
    rcases hi.stat m hm with e | e | e | ⟨e1, e2⟩
    · refine Or.inr ⟨m, ?_, hm, hf⟩
      unfold fringe
      rw [List.mem_append, List.mem_filter, List.mem_range]
      exact Or.inr ⟨hm, e⟩
    · exact absurd ⟨_, e, by rw [one_mul]; exact h4⟩ h5
    · exact Or.inr ⟨m, List.mem_append_left _ e, hm, hf⟩
    · exact Or.inl ⟨e1, e2.trans hf⟩

end Proofs

end Verif.Search.Arastar
