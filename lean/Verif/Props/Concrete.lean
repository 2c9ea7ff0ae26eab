import Verif.Search.Concrete
import Verif.Props.Wastar

/-!
# C67: the searches on the open and closed lists of the code

The theorems about A*, weighted A* and greedy search (C29-C37) are about a search whose open list pops any least node
and whose closed list is a finite map.  Here they are shown to hold of the program as it is: with the binary heap or the
buckets as open list (`heapImpl`, `bucketImpl`), and the hash table with its chains as closed list, for every hash
function and every initial content of the `nxt` fields.
-/

namespace Verif.Search

variable {S O C P Q : Type*} [DecidableEq S] [DecidableEq O]

/-! ## The orders are strict weak orders -/

theorem strictWeak_of_lt {α β : Type*} [LinearOrder β] (f : α → β) {p : α → α → Bool}
    (h : ∀ x y, p x y = true ↔ f x < f y) : BinHeap.StrictWeak p where
  irrefl x := by rw [← Bool.not_eq_true, h]; exact lt_irrefl _
  trans x y z := by rw [h, h, h]; exact lt_trans
  ntrans x y z := by
    rw [← Bool.not_eq_true, ← Bool.not_eq_true, ← Bool.not_eq_true, h, h, h, not_lt, not_lt, not_lt]
    exact fun h1 h2 => le_trans h2 h1

theorem astar_strictWeak [AddCommGroup C] [LinearOrder C] (h : S → C) : BinHeap.StrictWeak (astar h).pred := by
  refine strictWeak_of_lt (β := C ×ₗ Cᵒᵈ) (fun x => toLex (x.1, OrderDual.toDual x.2)) fun x y => ?_
  rw [Prod.Lex.toLex_lt_toLex]
  simp only [astar, OrderDual.toDual_lt_toDual]
  by_cases e : x.1 = y.1
  · rw [if_pos e, decide_eq_true_eq]
    simp [e]
  · rw [if_neg e, decide_eq_true_eq]
    simp [e]

theorem greedy_strictWeak [AddCommGroup C] [LinearOrder C] (h : S → C) (dd : Bool) :
    BinHeap.StrictWeak (greedy h dd).pred :=
  strictWeak_of_lt (fun x => x.1) fun x y => by simp [greedy]

theorem wastar_strictWeak {K : Type*} [Field K] [LinearOrder K] (wt : K) (h : S → K) (dd : Bool) :
    BinHeap.StrictWeak (wastar wt h dd).pred := by
  refine strictWeak_of_lt (β := K ×ₗ K ×ₗ Kᵒᵈ) (fun x => toLex (x.1.2, toLex (x.1.1, OrderDual.toDual x.2)))
    fun x y => ?_
  rw [Prod.Lex.toLex_lt_toLex]
  simp only [Prod.Lex.toLex_lt_toLex, wastar, OrderDual.toDual_lt_toDual]
  by_cases e : x.1.2 = y.1.2
  · rw [if_pos e]
    by_cases e' : x.1.1 = y.1.1
    · rw [if_pos e', decide_eq_true_eq]
      simp [e, e']
    · rw [if_neg e', decide_eq_true_eq]
      simp [e, e']
  · rw [if_neg e, decide_eq_true_eq]
    simp [e]

/-- The order of the buckets is the order of A* on `int` costs. -/
theorem astar_bucket_law (h : S → Int) :
    OpenLaw (astar h).pred (fun k => 0 ≤ k.1 ∧ 0 ≤ k.2) bucketImpl BucketRep := by
  refine bucket_law.weaken fun x y hxy => ?_
  unfold bucketLt at hxy
  show (if x.1 = y.1 then decide (x.2 > y.2) else decide (x.1 < y.1)) = false
  by_cases e : x.1 = y.1
  · rw [if_pos e] at hxy ⊢
    exact hxy
  · rw [if_neg e] at hxy ⊢
    exact hxy

/-- The order of the buckets refines the order of greedy search (greedy.hpp:43-49: `prio` is `h`, `tieprio` is `g`). -/
theorem greedy_bucket_law (h : S → Int) (dd : Bool) :
    OpenLaw (greedy h dd).pred (fun k => 0 ≤ k.1 ∧ 0 ≤ k.2) bucketImpl BucketRep := by
  refine bucket_law.weaken fun x y hxy => ?_
  unfold bucketLt at hxy
  show decide (x.1 < y.1) = false
  rw [decide_eq_false_iff_not]
  by_cases e : x.1 = y.1
  · omega
  · rw [if_neg e, decide_eq_false_iff_not] at hxy
    exact hxy

/-! ## Any open list that satisfies the laws -/

section General
variable [AddCommGroup C] [LinearOrder C] [IsOrderedAddMonoid C] {d : Dom S O C} {a : Alg S C P} {s0 : S}
  {im : OpenImpl (P × C) Q} {Good : P × C → Prop} {rep : (Nat → P × C) → Q → Finset Nat → Prop} {hash : S → Nat}
  {x : Lists Q} {l : Limit} {timer : Nat → Bool} {fuel : Nat}

theorem csearch_refines (law : OpenLaw a.pred Good im rep) (hx : Fresh rep x) (hd : CostOk d s0) (ha : AlgOk a)
    (hgood : ∀ s g, Walk d s0 s g → Good (a.initp g s, g)) {c : CSt S O C P Q} {p : List S × List O}
    (h : csearch d a im hash x l timer fuel s0 = .ok (c, p)) (hN : c.next ≤ 2 ^ 29) :
    ∃ st, Run d a s0 l st p ∧ SameStats c st ∧ (∀ nxt, Fresh rep (reset im nxt c)) ∧
      ((∀ e, timer e = false) → p = ([], []) → Empty st ∨ l.reached st) := by
  obtain ⟨c0, e, r⟩ := ref_init (d := d) (hash := hash) law hgood hx
  rw [csearch, e, Outcome.bind_ok] at h
  exact crun_refines law hd ha hgood fuel r .init h hN

theorem csearch_total (law : OpenLaw a.pred Good im rep) (hx : Fresh rep x) (hd : CostOk d s0) (ha : AlgOk a)
    (hgood : ∀ s g, Walk d s0 s g → Good (a.initp g s, g)) {T : Finset S} (hT : ∀ s g, Walk d s0 s g → s ∈ T)
    (hc : T.card ≤ 2 ^ 29) :
    (∀ fuel, csearch d a im hash x l timer fuel s0 = .nofuel ∨
      ∃ y, csearch d a im hash x l timer fuel s0 = .ok y) ∧
    ∃ F c p, c.next ≤ 2 ^ 29 ∧ ∀ fuel ≥ F, csearch d a im hash x l timer fuel s0 = .ok (c, p) := by
  obtain ⟨c0, e, r⟩ := ref_init (d := d) (hash := hash) law hgood hx
  have hb : ∀ (c : CSt S O C P Q) (st : St S O C P), Ref d a s0 rep hash c st → st.next ≤ 2 ^ 29 :=
    fun c st r => le_trans (ref_next_le hT r) hc
  refine ⟨fun fuel => ?_, ?_⟩
  · rw [csearch, e, Outcome.bind_ok]
    exact crun_safe law hd ha hgood hb fuel r .init
  · have hf : (Reachable d s0).Finite := T.finite_toSet.subset fun s ⟨g, hs⟩ => hT s g hs
    obtain ⟨F, y, hn, hy⟩ := crun_ends law hd ha hgood hb (l := l) (timer := timer) (acc_init hd ha hf) r .init
    refine ⟨F, y.1, y.2, hn, fun fuel hfuel => ?_⟩
    rw [csearch, e, Outcome.bind_ok]
    exact hy fuel hfuel

/-- A goal can be reached from `s0`. -/
def Solvable (d : Dom S O C) (s0 : S) : Prop :=
  ∃ ops ss t c, Plan d s0 ops ss c ∧ (s0 :: ss).getLast? = some t ∧ d.goal t = true

/-- Without limits the program returns, and what it returns is empty only if there is no solution. -/
theorem csearch_complete (law : OpenLaw a.pred Good im rep) (hx : Fresh rep x) (hd : UndoOk d s0) (ha : AlgOk a)
    (hgood : ∀ s g, Walk d s0 s g → Good (a.initp g s, g)) {T : Finset S} (hT : ∀ s g, Walk d s0 s g → s ∈ T)
    (hc : T.card ≤ 2 ^ 29) :
    ∃ F c p st, (∀ fuel ≥ F, csearch d a im hash x ⟨0, 0⟩ (fun _ => false) fuel s0 = .ok (c, p)) ∧
      Run d a s0 ⟨0, 0⟩ st p ∧ SameStats c st ∧ (p = ([], []) ↔ ¬ Solvable d s0) := by
  obtain ⟨-, F, c, p, hn, hy⟩ := csearch_total (hash := hash) (l := ⟨0, 0⟩) (timer := fun _ => false)
    law hx hd.cost ha hgood hT hc
  obtain ⟨st, h1, h2, -, h3⟩ := csearch_refines law hx hd.cost ha hgood (hy F le_rfl) hn
  refine ⟨F, c, p, st, hy, h1, h2, ?_⟩
  constructor
  · rintro hp ⟨ops, ss, t, c', e1, e2, e3⟩
    have hreach : Reach d a s0 st := by
      cases h1 with
      | found tr => exact tr.reach
      | empty tr => exact tr.reach
      | cut _ tr => exact tr.reach
    have hw := e1.walk
    rw [List.getLast?_eq_some_getLast (by simp)] at e2
    rw [Option.some.inj e2] at hw
    rcases h3 (fun _ => rfl) hp with he | hl
    · have := empty_no_goal hd (inv_reach hd.cost ha hreach) he hw
      rw [e3] at this
      exact absurd this (by simp)
    · simp [Limit.reached] at hl
  · intro hns
    rcases run_solution hd.cost ha h1 with h4 | ⟨n, c', -, -, ⟨ss, s1, s2, t, s3, s4⟩, -⟩
    · exact h4
    · exact absurd ⟨_, ss, t, c', s2, by rw [← s1, List.getLast?_reverse]; exact s3, s4⟩ hns
end General

/-! ## Search objects -/

section Objects
variable [AddCommGroup C] [LinearOrder C]

/-- The lists of a search object that is ready for a search: those of a new object, and those of an object on which any
number of searches, by algorithms in `A` and each followed by `reset`, have been made.  Each of the searches may have
been of another domain, with another heuristic and other limits; each has stored at most 2^29 states. -/
inductive Obj (im : OpenImpl (P × C) Q) (A : Alg S C P → Prop) (O : Type*) [DecidableEq O] (Good : P × C → Prop) :
    Lists Q → Prop
  | new (sz : Nat) (hsz : 0 < sz % 2 ^ 32) (nxt : Nat → Option Nat) : Obj im A O Good (newLists im sz nxt)
  | again (x : Lists Q) (d : Dom S O C) (a : Alg S C P) (s0 : S) (hash : S → Nat) (l : Limit) (timer : Nat → Bool)
      (fuel : Nat) (c : CSt S O C P Q) (p : List S × List O) (nxt : Nat → Option Nat) (hx : Obj im A O Good x) (ha : A a)
      (hd : CostOk d s0) (haok : AlgOk a) (hg : ∀ s g, Walk d s0 s g → Good (a.initp g s, g))
      (hs : csearch d a im hash x l timer fuel s0 = .ok (c, p)) (hn : c.next ≤ 2 ^ 29) :
      Obj im A O Good (reset im nxt c)

theorem Obj.fresh [IsOrderedAddMonoid C] {im : OpenImpl (P × C) Q} {A : Alg S C P → Prop} {Good : P × C → Prop}
    {rep : (Nat → P × C) → Q → Finset Nat → Prop} (lt : P × C → P × C → Bool) (h0 : OpenLaw lt Good im rep)
    (law : ∀ a, A a → OpenLaw a.pred Good im rep) {x : Lists Q} (h : Obj im A O Good x) : Fresh rep x := by
  induction h with
  | new sz hsz nxt => exact ⟨h0.init, sz % 2 ^ 32, nxt, hsz, rfl⟩
  | again x d a s0 hash l timer fuel c p nxt hx ha hd haok hg hs hn ih =>
    exact (csearch_refines (law a ha) ih hd haok hg hs hn).choose_spec.2.2.1 nxt

/-- Objects with the binary heap, of an algorithm that orders its nodes by `lt`. -/
abbrev HeapObj (S O : Type*) [DecidableEq S] [DecidableEq O] (lt : P × C → P × C → Bool) :
    Lists (BinHeap.Heap Nat) → Prop :=
  Obj (S := S) (heapImpl lt) (fun a => a.pred = lt) O (fun _ => True)

/-- Objects with the buckets. -/
abbrev BucketObj (S O : Type*) [DecidableEq S] [DecidableEq O] : Lists (BucketOpen.Open Nat) → Prop :=
  Obj (S := S) bucketImpl (fun a => ∃ h, a = astar h ∨ ∃ dd, a = greedy h dd) O (fun k => 0 ≤ k.1 ∧ 0 ≤ k.2)

theorem HeapObj.fresh [IsOrderedAddMonoid C] {lt : P × C → P × C → Bool} (hp : BinHeap.StrictWeak lt)
    {x : Lists (BinHeap.Heap Nat)} (h : HeapObj S O lt x) : Fresh (HeapRep lt) x :=
  Obj.fresh lt (heap_law hp) (fun a ha => by rw [ha]; exact heap_law hp) h

theorem BucketObj.fresh {x : Lists (BucketOpen.Open Nat)} (h : BucketObj S O x) : Fresh BucketRep x :=
  Obj.fresh _ bucket_law (by
    rintro a ⟨h, rfl | ⟨dd, rfl⟩⟩
    · exact astar_bucket_law h
    · exact greedy_bucket_law h dd) h
end Objects

/-! ## Refinement -/

section Refinement
variable [AddCommGroup C] [LinearOrder C] [IsOrderedAddMonoid C] {d : Dom S O C} {a : Alg S C P} {s0 : S} {hash : S → Nat}
  {x : Lists (BinHeap.Heap Nat)} {l : Limit} {timer : Nat → Bool} {fuel : Nat}

/-- **C67 (heap, refinement).** A run of the program with the heap as open list that returns is a run of the search of
C29-C37, with the same result and the same counters, as long as it has not stored more than 2^29 states.  This holds
for all three algorithms, whatever the hash function. -/
theorem c67_heap_refines (hx : HeapObj S O a.pred x) (hd : CostOk d s0) (ha : AlgOk a) (hp : BinHeap.StrictWeak a.pred)
    {c : CSt S O C P (BinHeap.Heap Nat)} {p : List S × List O}
    (h : csearch d a (heapImpl a.pred) hash x l timer fuel s0 = .ok (c, p)) (hN : c.next ≤ 2 ^ 29) :
    ∃ st, Run d a s0 l st p ∧ SameStats c st := by
  obtain ⟨st, h1, h2, -⟩ := csearch_refines (heap_law hp) (HeapObj.fresh hp hx) hd ha (fun _ _ _ => trivial) h hN
  exact ⟨st, h1, h2⟩

/-- **C67 (heap, safety).** With at most 2^29 reachable states no iteration is undefined or fails an assertion: the
program returns, unless it needs more iterations than `fuel`; and some number of iterations is enough. -/
theorem c67_heap_safe (hx : HeapObj S O a.pred x) (hd : CostOk d s0) (ha : AlgOk a) (hp : BinHeap.StrictWeak a.pred)
    {T : Finset S} (hT : ∀ s g, Walk d s0 s g → s ∈ T) (hc : T.card ≤ 2 ^ 29) :
    (∀ fuel, csearch d a (heapImpl a.pred) hash x l timer fuel s0 = .nofuel ∨
      ∃ y, csearch d a (heapImpl a.pred) hash x l timer fuel s0 = .ok y) ∧
    ∃ F y, ∀ fuel ≥ F, csearch d a (heapImpl a.pred) hash x l timer fuel s0 = .ok y := by
  obtain ⟨h1, F, c, p, -, h2⟩ := csearch_total (hash := hash) (l := l) (timer := timer) (heap_law hp) (HeapObj.fresh hp hx) hd
    ha (fun _ _ _ => trivial) hT hc
  exact ⟨h1, F, (c, p), h2⟩

end Refinement

section Buckets
variable {d : Dom S O Int} {s0 : S} {hash : S → Nat} {x : Lists (BucketOpen.Open Nat)} {l : Limit}
  {timer : Nat → Bool} {fuel : Nat}

/-- **C67 (buckets, refinement).** The same for A* and greedy search with the bucketed open list of domains with `int`
costs, if the heuristic is not negative. -/
theorem c67_bucket_refines (hx : BucketObj S O x) (hd : CostOk d s0) {h : S → Int}
    (hh : ∀ s g, Walk d s0 s g → 0 ≤ h s) {a : Alg S Int Int} (ha : a = astar h ∨ ∃ dd, a = greedy h dd)
    {c : CSt S O Int Int (BucketOpen.Open Nat)} {p : List S × List O}
    (hr : csearch d a bucketImpl hash x l timer fuel s0 = .ok (c, p)) (hN : c.next ≤ 2 ^ 29) :
    ∃ st, Run d a s0 l st p ∧ SameStats c st := by
  have hg : ∀ s g, Walk d s0 s g → 0 ≤ g := fun s g hw => hw.nonneg hd
  rcases ha with rfl | ⟨dd, rfl⟩
  · obtain ⟨st, h1, h2, -⟩ := csearch_refines (astar_bucket_law h) (BucketObj.fresh hx) hd (astar_ok h)
      (fun s g hw => ⟨add_nonneg (hg s g hw) (hh s g hw), hg s g hw⟩) hr hN
    exact ⟨st, h1, h2⟩
  · obtain ⟨st, h1, h2, -⟩ := csearch_refines (greedy_bucket_law h dd) (BucketObj.fresh hx) hd (greedy_ok h dd)
      (fun s g hw => ⟨hh s g hw, hg s g hw⟩) hr hN
    exact ⟨st, h1, h2⟩

/-- **C67 (buckets, safety).** -/
theorem c67_bucket_safe (hx : BucketObj S O x) (hd : CostOk d s0) {h : S → Int}
    (hh : ∀ s g, Walk d s0 s g → 0 ≤ h s) {a : Alg S Int Int} (ha : a = astar h ∨ ∃ dd, a = greedy h dd)
    {T : Finset S} (hT : ∀ s g, Walk d s0 s g → s ∈ T) (hc : T.card ≤ 2 ^ 29) :
    (∀ fuel, csearch d a bucketImpl hash x l timer fuel s0 = .nofuel ∨
      ∃ y, csearch d a bucketImpl hash x l timer fuel s0 = .ok y) ∧
    ∃ F y, ∀ fuel ≥ F, csearch d a bucketImpl hash x l timer fuel s0 = .ok y := by
  have hg : ∀ s g, Walk d s0 s g → 0 ≤ g := fun s g hw => hw.nonneg hd
  rcases ha with rfl | ⟨dd, rfl⟩
  · obtain ⟨h1, F, c, p, -, h2⟩ := csearch_total (hash := hash) (l := l) (timer := timer)
      (astar_bucket_law h) (BucketObj.fresh hx) hd (astar_ok h) (fun s g hw => ⟨add_nonneg (hg s g hw) (hh s g hw), hg s g hw⟩) hT hc
    exact ⟨h1, F, (c, p), h2⟩
  · obtain ⟨h1, F, c, p, -, h2⟩ := csearch_total (hash := hash) (l := l) (timer := timer)
      (greedy_bucket_law h dd) (BucketObj.fresh hx) hd (greedy_ok h dd) (fun s g hw => ⟨hh s g hw, hg s g hw⟩) hT hc
    exact ⟨h1, F, (c, p), h2⟩

/-- A negative heuristic is undefined behaviour with the buckets: the priority is converted to an enormous unsigned
number. -/
theorem c67_bucket_negative (hx : BucketObj S O x) {h : S → Int} (hneg : h s0 < 0) :
    csearch d (astar h) bucketImpl hash x l timer fuel s0 = .ub := by
  set nd : Nat → CNode S O Int Int := fun _ => ⟨s0, 0, (astar h).initp 0 s0, none, d.nop, d.nop⟩ with hnd
  obtain ⟨-, nb, nxt, hnb, ht⟩ := BucketObj.fresh hx
  have r0 : Hash.TabRep (hops hash nd) ⟨List.replicate nb none, nxt, 0⟩ ∅ := ⟨_, Hash.rep_empty (hops hash nd) nb hnb nxt⟩
  obtain ⟨tab, h1, -, -⟩ := Hash.add_rep r0 1 (by simp) 0 (by simp) (by show 0 * 3 < 2 ^ 31; norm_num)
  have h1' : Hash.add (hops hash nd) 1 x.2 0 (hash s0) = .ok tab := by rw [ht]; exact h1
  have h2 : bucketImpl.push (keyOf nd) x.1 0 = .ub := by
    show BucketOpen.push (withKey (keyOf nd) x.1) 0 = .ub
    rw [BucketOpen.push, if_pos]
    left
    show 0 + h s0 < 0
    omega
  unfold csearch cinit
  simp only
  rw [h1', Outcome.bind_ok, h2]
  rfl

end Buckets

/-! ## Total correctness of the programs -/

section Total
variable [AddCommGroup C] [LinearOrder C] [IsOrderedAddMonoid C] {d : Dom S O C} {s0 : S} {hash : S → Nat}
  {x : Lists (BinHeap.Heap Nat)}

/-- `p` is a best solution. -/
def Best (d : Dom S O C) (s0 : S) (p : List S × List O) : Prop :=
  ∃ c, Solution d s0 p c ∧ ∀ ops ss t c', Plan d s0 ops ss c' → (s0 :: ss).getLast? = some t → d.goal t = true → c ≤ c'

/-- **C67 (A* with the heap).** On a problem with at most 2^29 reachable states and an admissible heuristic, A* on the
binary heap and the hash table returns; it returns a best solution if there is a solution, and the empty path if there
is none. -/
theorem c67_astar_heap (hd : UndoOk d s0) {h : S → C} {k : C} (hadm : Admissible d s0 h k)
    (hx : HeapObj S O (astar h).pred x) {T : Finset S} (hT : ∀ s g, Walk d s0 s g → s ∈ T) (hc : T.card ≤ 2 ^ 29) :
    ∃ F c p, (∀ fuel ≥ F, csearch d (astar h) (heapImpl (astar h).pred) hash x ⟨0, 0⟩ (fun _ => false) fuel s0 =
        .ok (c, p)) ∧
      (Solvable d s0 → Best d s0 p) ∧ (¬ Solvable d s0 → p = ([], [])) := by
  obtain ⟨F, c, p, st, h1, h2, -, h4⟩ := csearch_complete (hash := hash)
    (heap_law (astar_strictWeak h)) (HeapObj.fresh (astar_strictWeak h) hx) hd (astar_ok h) (fun _ _ _ => trivial) hT hc
  exact ⟨F, c, p, h1, fun hs => c30_optimal hd hadm h2 fun e => h4.1 e hs, h4.2⟩

/-- **C67 (greedy search with the heap).** -/
theorem c67_greedy_heap (hd : UndoOk d s0) {h : S → C} {dd : Bool}
    (hx : HeapObj S O (greedy h dd).pred x) {T : Finset S} (hT : ∀ s g, Walk d s0 s g → s ∈ T) (hc : T.card ≤ 2 ^ 29) :
    ∃ F c p, (∀ fuel ≥ F, csearch d (greedy h dd) (heapImpl (greedy h dd).pred) hash x ⟨0, 0⟩ (fun _ => false) fuel
        s0 = .ok (c, p)) ∧
      (Solvable d s0 → ∃ c, Solution d s0 p c) ∧ (¬ Solvable d s0 → p = ([], [])) := by
  obtain ⟨F, c, p, st, h1, h2, -, h4⟩ := csearch_complete (hash := hash)
    (heap_law (greedy_strictWeak h dd)) (HeapObj.fresh (greedy_strictWeak h dd) hx) hd (greedy_ok h dd) (fun _ _ _ => trivial) hT hc
  exact ⟨F, c, p, h1, fun hs => c36_solution hd.cost h dd h2 fun e => h4.1 e hs, h4.2⟩

end Total

/-- **C67 (weighted A*).** Weighted A* always uses the heap (wastar.hpp:171); its solution costs at most `wt` times the
best. -/
theorem c67_wastar {K : Type*} [Field K] [LinearOrder K] [IsStrictOrderedRing K] {d : Dom S O K} {s0 : S}
    {hash : S → Nat} {x : Lists (BinHeap.Heap Nat)} (hd : UndoOk d s0) {h : S → K}
    (hadm : Admissible d s0 h 0) {wt : K} (hwt : 1 ≤ wt) (hx : HeapObj S O (wastar wt h false).pred x) {T : Finset S} (hT : ∀ s g, Walk d s0 s g → s ∈ T)
    (hc : T.card ≤ 2 ^ 29) :
    ∃ F c p, (∀ fuel ≥ F, csearch d (wastar wt h false) (heapImpl (wastar wt h false).pred) hash x ⟨0, 0⟩
        (fun _ => false) fuel s0 = .ok (c, p)) ∧
      (Solvable d s0 → ∃ c, Solution d s0 p c ∧ ∀ ops ss t c', Plan d s0 ops ss c' → (s0 :: ss).getLast? = some t →
        d.goal t = true → c ≤ wt * c') ∧
      (¬ Solvable d s0 → p = ([], [])) := by
  obtain ⟨F, c, p, st, h1, h2, -, h4⟩ := csearch_complete (hash := hash)
    (heap_law (wastar_strictWeak wt h false)) (HeapObj.fresh (wastar_strictWeak wt h false) hx) hd (wastar_ok wt h false) (fun _ _ _ => trivial) hT hc
  exact ⟨F, c, p, h1, fun hs => c35_bounded hd hadm hwt h2 fun e => h4.1 e hs, h4.2⟩

section TotalBuckets
variable {d : Dom S O Int} {s0 : S} {hash : S → Nat} {x : Lists (BucketOpen.Open Nat)}

/-- **C67 (A* with the buckets).** As `c67_astar_heap`, for `int` costs and a heuristic that is not negative. -/
theorem c67_astar_buckets (hx : BucketObj S O x) (hd : UndoOk d s0) {h : S → Int}
    (hh : ∀ s g, Walk d s0 s g → 0 ≤ h s) {k : Int} (hadm : Admissible d s0 h k)
    {T : Finset S} (hT : ∀ s g, Walk d s0 s g → s ∈ T) (hc : T.card ≤ 2 ^ 29) :
    ∃ F c p, (∀ fuel ≥ F, csearch d (astar h) bucketImpl hash x ⟨0, 0⟩ (fun _ => false) fuel s0 = .ok (c, p)) ∧
      (Solvable d s0 → Best d s0 p) ∧ (¬ Solvable d s0 → p = ([], [])) := by
  have hg : ∀ s g, Walk d s0 s g → 0 ≤ g := fun s g hw => hw.nonneg hd.cost
  obtain ⟨F, c, p, st, h1, h2, -, h4⟩ := csearch_complete (hash := hash) (astar_bucket_law h) (BucketObj.fresh hx) hd
    (astar_ok h) (fun s g hw => ⟨add_nonneg (hg s g hw) (hh s g hw), hg s g hw⟩) hT hc
  exact ⟨F, c, p, h1, fun hs => c30_optimal hd hadm h2 fun e => h4.1 e hs, h4.2⟩

/-- **C67 (greedy search with the buckets).** -/
theorem c67_greedy_buckets (hx : BucketObj S O x) (hd : UndoOk d s0) {h : S → Int}
    (hh : ∀ s g, Walk d s0 s g → 0 ≤ h s) {dd : Bool}
    {T : Finset S} (hT : ∀ s g, Walk d s0 s g → s ∈ T) (hc : T.card ≤ 2 ^ 29) :
    ∃ F c p, (∀ fuel ≥ F, csearch d (greedy h dd) bucketImpl hash x ⟨0, 0⟩ (fun _ => false) fuel s0 =
        .ok (c, p)) ∧
      (Solvable d s0 → ∃ c, Solution d s0 p c) ∧ (¬ Solvable d s0 → p = ([], [])) := by
  have hg : ∀ s g, Walk d s0 s g → 0 ≤ g := fun s g hw => hw.nonneg hd.cost
  obtain ⟨F, c, p, st, h1, h2, -, h4⟩ := csearch_complete (hash := hash) (greedy_bucket_law h dd) (BucketObj.fresh hx) hd
    (greedy_ok h dd) (fun s g hw => ⟨hh s g hw, hg s g hw⟩) hT hc
  exact ⟨F, c, p, h1, fun hs => c36_solution hd.cost h dd h2 fun e => h4.1 e hs, h4.2⟩

end TotalBuckets

/-! ### Examples

The graph of `Props/Astar`: two nodes are reopened; with two bins and a constant hash function all nodes are in one
chain and the table grows on the way. -/

/-- What a run returns, with some counters. -/
def summary {S O C P Q : Type*} (x : Outcome (CSt S O C P Q × (List S × List O))) :
    Outcome (List S × List O × Nat × Nat × Nat) := x.map fun r => (r.2.1, r.2.2, r.1.next, r.1.reopnd, r.1.tab.bins.length)

example : summary (csearch g1 (astar h1) (heapImpl (astar h1).pred) (fun _ => 7) (newLists (heapImpl (astar h1).pred) 2 fun _ => some 3) ⟨0, 0⟩
    (fun _ => false) 20 0) = .ok ([5, 4, 2, 3, 0], [some 5, some 4, some 2, some 3], 6, 2, 16) := by decide +kernel

example : summary (csearch g1 (astar h1) bucketImpl (fun s => s.val) (newLists bucketImpl 1 fun _ => none) ⟨0, 0⟩ (fun _ => false) 20 0) =
    .ok ([5, 4, 2, 3, 0], [some 5, some 4, some 2, some 3], 6, 2, 16) := by decide +kernel

/-- A second search, from another state and with another heuristic, after `reset`. -/
example : summary ((csearch g1 (astar h1) bucketImpl (fun s => s.val) (newLists bucketImpl 1 fun _ => none) ⟨0, 0⟩
    (fun _ => false) 20 0).bind fun r => csearch g1 (greedy h1 true) bucketImpl (fun _ => 9)
      (reset bucketImpl (fun _ => some 2) r.1) ⟨0, 0⟩ (fun _ => false) 20 1) =
    .ok ([5, 4, 2, 1], [some 5, some 4, some 2], 4, 0, 16) := by decide +kernel

example : ∀ s g, Walk g1 0 s g → s ∈ (Finset.univ : Finset (Fin 6)) := fun _ _ _ => Finset.mem_univ _
example : ∀ s : Fin 6, 0 ≤ h1 s := by decide

example : ∃ F c p, (∀ fuel ≥ F, csearch g1 (astar h1) bucketImpl (fun s => s.val)
    (newLists bucketImpl 30000001 fun _ => none) ⟨0, 0⟩
    (fun _ => false) fuel 0 = .ok (c, p)) ∧ Best g1 0 p := by
  obtain ⟨F, c, p, h1', h2, -⟩ := c67_astar_buckets (hash := fun s : Fin 6 => s.val)
    (.new 30000001 (by norm_num) fun _ => none) (DomOk.of_forall (d := g1) 0 (by decide +kernel)).undo (h := h1)
    (fun s _ _ => (by decide : ∀ s : Fin 6, 0 ≤ h1 s) s) h1_admissible (T := Finset.univ) (fun _ _ _ => Finset.mem_univ _) (by simp)
  refine ⟨F, c, p, h1', h2 ⟨[some 1, some 2, some 4, some 5], [1, 2, 4, 5], 5, 10, ?_, rfl, rfl⟩⟩
  exact .cons (by decide +kernel) (.cons (by decide +kernel) (.cons (by decide +kernel) (.cons (by decide +kernel) (.nil _))))

end Verif.Search
