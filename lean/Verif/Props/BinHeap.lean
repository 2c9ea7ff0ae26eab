import Verif.Structs.BinHeap
import Mathlib.Data.Multiset.AddSub

/-!
# C01, C02: the binary heap is a priority queue, for every history

The specification (`Spec`) knows nothing about heaps: it is a multiset of
elements with a current priority each.  `exec` is the C++ object; the user's
change of an element's priority is part of the operations that need it.
-/

namespace Verif.BinHeap

variable {α κ : Type*} [DecidableEq α]

/-- Operations of a client of the heap. -/
inductive Op (α κ : Type*) where
  /-- give `x` priority `k` and push it -/
  | push (x : α) (k : κ)
  | pop
  /-- change the priority of `x` to `k`, then `update(index recorded for x)` -/
  | update (x : α) (k : κ)
  /-- change the priority of `x` to `k`, then `pushupdate(x, index recorded for x)` -/
  | pushupdate (x : α) (k : κ)
  | clear
  /-- `append(xs)` after giving every element its priority according to `f` -/
  | append (xs : List α) (f : α → κ)
  /-- change all priorities to `f` and call `reinit` -/
  | rekey (f : α → κ)

/-- The program state: the heap object and the priorities stored in the elements. -/
structure St (α κ : Type*) where
  heap : Heap α
  key : α → κ

/-- `Ops::pred` reads the priorities stored in the elements. -/
def predOf (lt : κ → κ → Bool) (key : α → κ) : α → α → Bool := fun a b => lt (key a) (key b)

def exec (lt : κ → κ → Bool) (s : St α κ) : Op α κ → Outcome (St α κ × Option α)
  | .push x k =>
    let key := Function.update s.key x k
    .ok (⟨BinHeap.push (predOf lt key) s.heap x, key⟩, none)
  | .pop =>
    let r := BinHeap.pop (predOf lt s.key) s.heap
    .ok (⟨r.2, s.key⟩, r.1)
  | .update x k =>
    let key := Function.update s.key x k
    (BinHeap.update (predOf lt key) s.heap (s.heap.ind x)).map fun h => (⟨h, key⟩, none)
  | .pushupdate x k =>
    let key := Function.update s.key x k
    (BinHeap.pushupdate (predOf lt key) s.heap x (s.heap.ind x)).map fun h => (⟨h, key⟩, none)
  | .clear => .ok (⟨BinHeap.clear s.heap, s.key⟩, none)
  | .append xs f => .ok (⟨BinHeap.append (predOf lt f) s.heap xs, f⟩, none)
  | .rekey f => .ok (⟨BinHeap.reinit (predOf lt f) s.heap, f⟩, none)

/-- Client obligations: no element is contained twice; `update` only for contained
elements; `pushupdate` with a properly tracked index (binheap.hpp:61-64);
`append` also has to bring fresh elements. -/
def Legal (s : St α κ) : Op α κ → Prop
  | .push x _ => x ∉ s.heap.data
  | .pop => True
  | .update x _ => x ∈ s.heap.data
  | .pushupdate x _ =>
    x ∈ s.heap.data ∨ (x ∉ s.heap.data ∧ s.heap.ind x < 0)
  | .clear => True
  | .append xs _ => (s.heap.data ++ xs).Nodup
  | .rekey _ => True

/-- Specification of a priority queue: contents and priorities. -/
inductive Spec (lt : κ → κ → Bool) :
    Multiset α × (α → κ) → Op α κ → Option α → Multiset α × (α → κ) → Prop where
  | push (m key x k) : Spec lt (m, key) (.push x k) none (x ::ₘ m, Function.update key x k)
  | popEmpty (key) : Spec lt (0, key) .pop none (0, key)
  | pop (m : Multiset α) (key : α → κ) (x : α)
      (least : ∀ y ∈ x ::ₘ m, lt (key y) (key x) = false) :
      Spec lt (x ::ₘ m, key) .pop (some x) (m, key)
  | update (m : Multiset α) (key x k) (hx : x ∈ m) :
      Spec lt (m, key) (.update x k) none (m, Function.update key x k)
  | pushupdateIn (m : Multiset α) (key x k) (hx : x ∈ m) :
      Spec lt (m, key) (.pushupdate x k) none (m, Function.update key x k)
  | pushupdateOut (m : Multiset α) (key x k) (hx : x ∉ m) :
      Spec lt (m, key) (.pushupdate x k) none (x ::ₘ m, Function.update key x k)
  | clear (m : Multiset α) (key) : Spec lt (m, key) .clear none (0, key)
  | append (m : Multiset α) (key : α → κ) (xs : List α) (f) :
      Spec lt (m, key) (.append xs f) none (m + (xs : Multiset α), f)
  | rekey (m : Multiset α) (key f : α → κ) : Spec lt (m, key) (.rekey f) none (m, f)

/-- Histories of the C++ object, with the observed results. -/
inductive Run (lt : κ → κ → Bool) : St α κ → List (Op α κ × Option α) → St α κ → Prop where
  | nil (s) : Run lt s [] s
  | cons {s s' s'' op r l} (legal : Legal s op) (step : exec lt s op = .ok (s', r))
      (rest : Run lt s' l s'') : Run lt s ((op, r) :: l) s''

/-- Histories of the specification. -/
inductive SpecRun (lt : κ → κ → Bool) : Multiset α × (α → κ) → List (Op α κ × Option α) →
    Multiset α × (α → κ) → Prop where
  | nil (s) : SpecRun lt s [] s
  | cons {s s' s'' op r l} (step : Spec lt s op r s') (rest : SpecRun lt s' l s'') :
      SpecRun lt s ((op, r) :: l) s''

/-- The invariant of the object. -/
structure Inv (lt : κ → κ → Bool) (s : St α κ) : Prop where
  ordered : Ordered (predOf lt s.key) s.heap.data
  indExact : IndExact s.heap

omit [DecidableEq α] in
theorem strictWeak_predOf {lt : κ → κ → Bool} (sw : StrictWeak lt) (key : α → κ) :
    StrictWeak (predOf lt key) :=
  ⟨fun _ => sw.irrefl _, fun _ _ _ => sw.trans _ _ _, fun _ _ _ => sw.ntrans _ _ _⟩

theorem ordered_congr {lt : κ → κ → Bool} {key : α → κ} {l : List α} {x : α} {k : κ} (hx : x ∉ l)
    (o : Ordered (predOf lt key) l) : Ordered (predOf lt (Function.update key x k)) l := by
  intro j hj hj0
  have := o j hj hj0
  have h1 : l[j] ≠ x := fun e => hx (e ▸ List.getElem_mem hj)
  have h2 : l[parent j]'(parent_lt hj) ≠ x := fun e => hx (e ▸ List.getElem_mem (parent_lt hj))
  simpa [le, predOf, Function.update_of_ne h1, Function.update_of_ne h2] using this

theorem update_correct {lt : κ → κ → Bool} (sw : StrictWeak lt) {s : St α κ} (inv : Inv lt s) {x : α}
    (k : κ) (hx : x ∈ s.heap.data) :
    ∃ h, BinHeap.update (predOf lt (Function.update s.key x k)) s.heap (s.heap.ind x) = .ok h ∧
      h.data.Perm s.heap.data ∧ Inv lt ⟨h, Function.update s.key x k⟩ := by
  obtain ⟨i, hi, rfl⟩ := List.getElem_of_mem hx
  have nd := indExact_nodup inv.indExact
  rw [inv.indExact i hi, update_ok _ _ _ hi]
  refine ⟨_, rfl, ?_, ?_, ?_⟩
  · refine (pushdown_perm _ _ _ _).trans ((pullup_perm _ _ _ _).trans ?_)
    rw [mem_toList]
  · have sw' := strictWeak_predOf sw (Function.update s.key s.heap.data[i] k)
    apply toHeap_ordered
    have ne : ∀ j (hj : j < s.heap.data.length), j ≠ i → s.heap.data[j] ≠ s.heap.data[i] := by
      intro j hj hji e
      exact hji ((List.Nodup.getElem_inj_iff nd).1 e)
    apply update_heap sw'
    · intro j hj hj0 hji hpj
      have := inv.ordered j hj hj0
      simp only [mem_getElem, le, predOf]
      rw [Function.update_of_ne (ne j hj hji), Function.update_of_ne (ne _ (parent_lt hj) hpj)]
      exact this
    · intro j hj hj0 hpj hi0
      have sw0 := strictWeak_predOf sw s.key
      have a := inv.ordered j hj hj0
      have b := inv.ordered i hi hi0
      simp only [hpj] at a
      have c := le_trans sw0 b a
      simp only [mem_getElem, le, predOf]
      have hji : j ≠ i := by unfold parent at hpj; omega
      have hpi : parent i ≠ i := by unfold parent; omega
      rw [Function.update_of_ne (ne j hj hji), Function.update_of_ne (ne _ (parent_lt hi) hpi)]
      exact c
  · exact toHeap_indExact (pushdown_indOk _ (pullup_indOk _ (heap_mem_indOk inv.indExact) _ _) _ _)

theorem push_correct {lt : κ → κ → Bool} (sw : StrictWeak lt) {s : St α κ} (inv : Inv lt s) {x : α}
    (k : κ) (hx : x ∉ s.heap.data) :
    Inv lt ⟨BinHeap.push (predOf lt (Function.update s.key x k)) s.heap x,
      Function.update s.key x k⟩ :=
  ⟨push_ordered (strictWeak_predOf sw _) _ _ (ordered_congr hx inv.ordered),
    push_indExact _ _ _ hx inv.indExact⟩

/-- One operation of the C++ object refines one operation of the specification, keeps the
invariant, and is neither a fatal error nor undefined behaviour. -/
theorem exec_refines {lt : κ → κ → Bool} (sw : StrictWeak lt) {s : St α κ} (inv : Inv lt s)
    (op : Op α κ) (legal : Legal s op) :
    ∃ s' r, exec lt s op = .ok (s', r) ∧ Inv lt s' ∧
      Spec lt ((s.heap.data : Multiset α), s.key) op r ((s'.heap.data : Multiset α), s'.key) := by
  cases op with
  | push x k =>
    refine ⟨_, _, rfl, push_correct sw inv k legal, ?_⟩
    have : ((BinHeap.push (predOf lt (Function.update s.key x k)) s.heap x).data : Multiset α) =
        x ::ₘ (s.heap.data : Multiset α) := by
      rw [Multiset.cons_coe, Multiset.coe_eq_coe]
      exact push_perm _ _ _
    simp only [this]
    exact .push _ _ _ _
  | pop =>
    refine ⟨_, _, rfl, ⟨pop_ordered (strictWeak_predOf sw _) _ inv.ordered,
      pop_indExact _ _ inv.indExact⟩, ?_⟩
    rcases hx : (BinHeap.pop (predOf lt s.key) s.heap).1 with _ | x
    · have hd := (pop_none _ _).1 hx
      have : (BinHeap.pop (predOf lt s.key) s.heap).2 = s.heap := by
        unfold BinHeap.pop; rw [hd]
      simp only [this, hd]
      exact .popEmpty _
    · have pm := pop_perm _ _ _ hx
      have hm : (s.heap.data : Multiset α) =
          x ::ₘ ((BinHeap.pop (predOf lt s.key) s.heap).2.data : Multiset α) := by
        rw [Multiset.cons_coe, Multiset.coe_eq_coe]; exact pm
      simp only
      rw [hm]
      apply Spec.pop
      intro y hy
      rw [← hm, Multiset.mem_coe] at hy
      obtain ⟨j, hj, rfl⟩ := List.getElem_of_mem hy
      obtain ⟨h0, e⟩ := pop_head _ _ _ hx
      have := ordered_root (strictWeak_predOf sw s.key) inv.ordered j hj
      rw [e] at this
      exact this
  | update x k =>
    obtain ⟨h, e, pm, inv'⟩ := update_correct sw inv k legal
    refine ⟨⟨h, Function.update s.key x k⟩, none, by simp [exec, e], inv', ?_⟩
    have : (h.data : Multiset α) = (s.heap.data : Multiset α) := Multiset.coe_eq_coe.2 pm
    simp only [this]
    exact .update _ _ _ _ (by simpa [Legal] using legal)
  | pushupdate x k =>
    rcases legal with hx | ⟨hx, hi⟩
    · obtain ⟨h, e, pm, inv'⟩ := update_correct sw inv k hx
      refine ⟨⟨h, Function.update s.key x k⟩, none, ?_, inv', ?_⟩
      · have : ¬ s.heap.ind x < 0 := by
          obtain ⟨i, hi, rfl⟩ := List.getElem_of_mem hx
          rw [inv.indExact i hi]; omega
        simp [exec, BinHeap.pushupdate, this, e]
      · have : (h.data : Multiset α) = (s.heap.data : Multiset α) := Multiset.coe_eq_coe.2 pm
        simp only [this]
        exact .pushupdateIn _ _ _ _ (by simpa using hx)
    · refine ⟨⟨BinHeap.push (predOf lt (Function.update s.key x k)) s.heap x,
        Function.update s.key x k⟩, none, by simp [exec, BinHeap.pushupdate, hi],
        push_correct sw inv k hx, ?_⟩
      have : ((BinHeap.push (predOf lt (Function.update s.key x k)) s.heap x).data : Multiset α) =
          x ::ₘ (s.heap.data : Multiset α) := by
        rw [Multiset.cons_coe, Multiset.coe_eq_coe]
        exact push_perm _ _ _
      simp only [this]
      exact .pushupdateOut _ _ _ _ (by simpa using hx)
  | clear =>
    refine ⟨_, _, rfl, ⟨?_, ?_⟩, ?_⟩
    · intro j hj; simp [BinHeap.clear] at hj
    · intro j hj; simp [BinHeap.clear] at hj
    · exact .clear _ _
  | append xs f =>
    refine ⟨_, _, rfl, ⟨?_, ?_⟩, ?_⟩
    · exact reinit_ordered (strictWeak_predOf sw _) _
    · exact reinit_indExact _ _ legal
    · have : ((BinHeap.append (predOf lt f) s.heap xs).data : Multiset α) =
          (s.heap.data : Multiset α) + (xs : Multiset α) := by
        rw [Multiset.coe_add, Multiset.coe_eq_coe]
        exact reinit_perm _ _
      simp only [this]
      exact .append _ _ _ _
  | rekey f =>
    refine ⟨_, _, rfl, ⟨?_, ?_⟩, ?_⟩
    · exact reinit_ordered (strictWeak_predOf sw _) _
    · exact reinit_indExact _ _ (indExact_nodup inv.indExact)
    · have : ((BinHeap.reinit (predOf lt f) s.heap).data : Multiset α) =
          (s.heap.data : Multiset α) := by
        rw [Multiset.coe_eq_coe]
        exact reinit_perm _ _
      simp only [this]
      exact .rekey _ _ _

theorem inv_init (lt : κ → κ → Bool) (ind : α → Int) (key : α → κ) :
    Inv lt ⟨⟨[], ind⟩, key⟩ :=
  ⟨fun j hj => by simp at hj, fun j hj => by simp at hj⟩

theorem run_refines {lt : κ → κ → Bool} (sw : StrictWeak lt) {s s' : St α κ} {l}
    (run : Run lt s l s') (inv : Inv lt s) :
    Inv lt s' ∧ SpecRun lt ((s.heap.data : Multiset α), s.key) l
      ((s'.heap.data : Multiset α), s'.key) := by
  induction run with
  | nil s => exact ⟨inv, .nil _⟩
  | cons legal step rest ih =>
    obtain ⟨s1, r1, e, inv1, sp⟩ := exec_refines sw inv _ legal
    rw [step] at e
    simp only [Outcome.ok.injEq, Prod.mk.injEq] at e
    obtain ⟨rfl, rfl⟩ := e
    obtain ⟨a, b⟩ := ih inv1
    exact ⟨a, .cons sp b⟩

/-- **C01.** Every history of a heap that starts empty, with every strict weak order on
priorities, is a history of the priority-queue specification with the same results
(in particular every popped element is least and nothing is lost or invented), and no legal
operation ever ends in a fatal error or in undefined behaviour. -/
theorem c01_heap_is_priority_queue {lt : κ → κ → Bool} (sw : StrictWeak lt) (ind : α → Int)
    (key : α → κ) {l} {s : St α κ} (run : Run lt ⟨⟨[], ind⟩, key⟩ l s) :
    SpecRun lt (0, key) l ((s.heap.data : Multiset α), s.key) ∧
    ∀ op, Legal s op → ∃ s' r, exec lt s op = .ok (s', r) := by
  obtain ⟨inv, sp⟩ := run_refines sw run (inv_init lt ind key)
  refine ⟨sp, fun op legal => ?_⟩
  obtain ⟨s', r, e, -, -⟩ := exec_refines sw inv op legal
  exact ⟨s', r, e⟩

/-- **C01** (`front`). After every history `front` shows a least element, and shows none only
if the heap is empty. -/
theorem c01_front_least {lt : κ → κ → Bool} (sw : StrictWeak lt) (ind : α → Int)
    (key : α → κ) {l} {s : St α κ} (run : Run lt ⟨⟨[], ind⟩, key⟩ l s) :
    (front s.heap = none ↔ s.heap.data = []) ∧
    ∀ x, front s.heap = some x →
      x ∈ s.heap.data ∧ ∀ y ∈ s.heap.data, lt (s.key y) (s.key x) = false := by
  obtain ⟨inv, -⟩ := run_refines sw run (inv_init lt ind key)
  refine ⟨by simp [front], fun x hx => ?_⟩
  have hl : s.heap.data ≠ [] := by
    intro e; simp [front, e] at hx
  have h0 : 0 < s.heap.data.length := List.length_pos_iff.2 hl
  have e : s.heap.data[0] = x := by
    simp [front, List.head?_eq_getElem?, List.getElem?_eq_getElem h0] at hx
    exact hx
  refine ⟨e ▸ List.getElem_mem h0, fun y hy => ?_⟩
  obtain ⟨j, hj, rfl⟩ := List.getElem_of_mem hy
  have := ordered_root (strictWeak_predOf sw s.key) inv.ordered j hj
  rw [e] at this
  exact this

/-- **C02.** After every history the index recorded for a contained element is its position in
`data()`. -/
theorem c02_index_exact {lt : κ → κ → Bool} (sw : StrictWeak lt) (ind : α → Int)
    (key : α → κ) {l} {s : St α κ} (run : Run lt ⟨⟨[], ind⟩, key⟩ l s) :
    ∀ x ∈ s.heap.data, ∃ i : Nat, s.heap.ind x = i ∧ s.heap.data[i]? = some x := by
  obtain ⟨inv, -⟩ := run_refines sw run (inv_init lt ind key)
  intro x hx
  obtain ⟨j, hj, rfl⟩ := List.getElem_of_mem hx
  exact ⟨j, inv.indExact j hj, List.getElem?_eq_getElem hj⟩

/-- **C02.** A popped element is told index -1 and is no longer contained. -/
theorem c02_popped_index {lt : κ → κ → Bool} (sw : StrictWeak lt) (ind : α → Int)
    (key : α → κ) {l} {s s' : St α κ} {x : α} (run : Run lt ⟨⟨[], ind⟩, key⟩ l s)
    (step : exec lt s .pop = .ok (s', some x)) : s'.heap.ind x = -1 ∧ x ∉ s'.heap.data := by
  obtain ⟨inv, -⟩ := run_refines sw run (inv_init lt ind key)
  simp only [exec, Outcome.ok.injEq, Prod.mk.injEq] at step
  obtain ⟨rfl, hx⟩ := step
  refine ⟨pop_ind_popped _ _ _ hx, ?_⟩
  have nd := (pop_perm _ _ _ hx).nodup_iff.1 (indExact_nodup inv.indExact)
  exact (List.nodup_cons.1 nd).1

/-- **C02.** Calling `update` with an index that is not a position of the heap (for vectors of at
most 2^32 elements and indices below 2^32) stops with a diagnostic; it never corrupts the heap. -/
theorem c02_update_bad_index (pred : α → α → Bool) (h : Heap α) (i : Int)
    (hi : i < 0 ∨ (h.data.length : Int) ≤ i) (hb : i < 2 ^ 32) :
    BinHeap.update pred h i = .fatal := by
  unfold BinHeap.update
  rw [if_pos]
  rcases hi with hi | hi
  · exact Or.inl hi
  · right
    rw [Nat.mod_eq_of_lt (by omega)]
    omega

/-- The range check of `update` looks at the index modulo 2^32 only: an index of 2^32 into a
non-empty heap passes it and reads outside the vector (undefined behaviour). -/
theorem c02_update_cast_ub (pred : α → α → Bool) (x : α) (ind : α → Int) :
    BinHeap.update pred ⟨[x], ind⟩ (2 ^ 32 : Int) = .ub := by
  unfold BinHeap.update
  have : ((2 : Int) ^ 32).toNat = 2 ^ 32 := by decide
  simp [this]

/-! ### Concrete cases meeting the hypotheses -/

example : StrictWeak (fun a b : Nat => decide (a < b)) :=
  ⟨by simp, by simp; omega, by simp; omega⟩

instance decLegal (s : St α κ) (op : Op α κ) : Decidable (Legal s op) := by
  cases op <;> unfold Legal <;> infer_instance

/-- Runs a client program, stopping at the first illegal operation or error. -/
def runOps (lt : κ → κ → Bool) : St α κ → List (Op α κ) → Option (List (Option α))
  | _, [] => some []
  | s, op :: ops =>
    if Legal s op then
      match exec lt s op with
      | .ok (s', r) => (runOps lt s' ops).map (r :: ·)
      | _ => none
    else none

theorem run_of_runOps {lt : κ → κ → Bool} {s : St α κ} {ops rs} (h : runOps lt s ops = some rs) :
    ∃ s', Run lt s (ops.zip rs) s' := by
  induction ops generalizing s rs with
  | nil => exact ⟨s, by simpa using Run.nil s⟩
  | cons op ops ih =>
    unfold runOps at h
    split_ifs at h with legal
    split at h
    · rename_i s' r e
      simp only [Option.map_eq_some_iff] at h
      obtain ⟨rs', h', rfl⟩ := h
      obtain ⟨s'', run⟩ := ih h'
      exact ⟨s'', .cons legal e run⟩
    · simp at h

/-- A history with pushes, a decrease-key and an increase-key of inner elements, an append,
a complete change of priorities and pops. -/
example : ∃ s, Run (fun a b : Nat => decide (a < b)) (⟨⟨[], fun _ => -1⟩, fun _ => 0⟩ : St Nat Nat)
    [(.push 10 5, none), (.push 11 3, none), (.push 12 7, none), (.update 12 1, none),
     (.pop, some 12), (.update 11 9, none), (.pushupdate 12 6, none), (.pop, some 10),
     (.append [20, 21] id, none), (.rekey (100 - ·), none), (.pop, some 21), (.pop, some 20),
     (.pop, some 12), (.pop, some 11), (.pop, none)] s := by
  have h : runOps (fun a b : Nat => decide (a < b))
    (⟨⟨[], fun _ => -1⟩, fun _ => 0⟩ : St Nat Nat)
    [.push 10 5, .push 11 3, .push 12 7, .update 12 1,
     .pop, .update 11 9, .pushupdate 12 6, .pop,
     .append [20, 21] id, .rekey (100 - ·), .pop, .pop,
     .pop, .pop, .pop] = some [none, none, none, none, some 12, none, none, some 10, none, none,
      some 21, some 20, some 12, some 11, none] := by decide +kernel
  exact run_of_runOps h

/-- The restriction of `pushupdate` matters: `clear` leaves the recorded indices of the removed
elements alone, so re-inserting one of them through `pushupdate` stops the program. -/
example : ∃ s : St Nat Nat,
    Run (fun a b : Nat => decide (a < b)) ⟨⟨[], fun _ => -1⟩, fun _ => 0⟩
      [(.push 10 5, none), (.clear, none)] s ∧
    exec (fun a b : Nat => decide (a < b)) s (.pushupdate 10 5) = .fatal := by
  refine ⟨_, .cons (by simp [Legal]) rfl (.cons trivial rfl (.nil _)), ?_⟩
  have h : (push (predOf (fun a b : Nat => decide (a < b)) (Function.update (fun _ => 0) 10 5))
      ⟨[], fun _ => -1⟩ 10).ind 10 = 0 := by decide +kernel
  simp [exec, BinHeap.pushupdate, BinHeap.update, BinHeap.clear, h]

/-- The order of the statements of `pop` on a heap of one element: the popped element is -1. -/
example : (BinHeap.pop (fun a b : Nat => decide (a < b)) ⟨[3], fun _ => 0⟩).2.ind 3 = -1 := by
  decide +kernel

end Verif.BinHeap
