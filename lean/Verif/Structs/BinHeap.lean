import Verif.Outcome
import Mathlib.Logic.Function.Basic
import Mathlib.Data.List.Perm.Basic
import Mathlib.Data.List.Nodup
import Mathlib.Tactic.Common
import Mathlib.Tactic.SplitIfs

/-!
# Model of `BinHeap<Ops, Elm>` (structs/binheap.hpp)

The backing `std::vector<Elm>` is a list/`Vector`; every element access in the
model carries a proof that it is in range, so the sift procedures cannot be
undefined.  `Ops::setind` is modelled by a map `ind` from elements to the last
index passed for them.  `Ops::pred` is an arbitrary Boolean relation `pred`.
Simplification: `long`/`unsigned long` sizes are unbounded naturals, except for
the cast `(unsigned int) i` in `update`, which is modelled.
-/

namespace Verif.BinHeap

/-- A strict weak ordering (what `Ops::pred` has to be). -/
structure StrictWeak {α : Type*} (p : α → α → Bool) : Prop where
  irrefl : ∀ a, p a a = false
  trans : ∀ a b c, p a b = true → p b c = true → p a c = true
  ntrans : ∀ a b c, p a b = false → p b c = false → p a c = false

variable {α : Type*}

/-- The heap vector of fixed length `n` together with the recorded indices. -/
structure Mem (α : Type*) (n : Nat) where
  v : Vector α n
  ind : α → Int

variable [DecidableEq α] {n : Nat}

/-- binheap.hpp:139 `parent`. -/
def parent (i : Nat) : Nat := (i - 1) / 2
theorem parent_lt {n j : Nat} (h : j < n) : parent j < n := by unfold parent; omega

/-- binheap.hpp:141 `left`. -/
def left (i : Nat) : Nat := 2 * i + 1
/-- binheap.hpp:143 `right`. -/
def right (i : Nat) : Nat := 2 * i + 2

/-- binheap.hpp:156-162 `swap`. -/
def Mem.swap (m : Mem α n) (i j : Nat) (hi : i < n) (hj : j < n) : Mem α n where
  v := m.v.swap i j
  ind := Function.update (Function.update m.ind m.v[i] (j : Int)) m.v[j] (i : Int)

/-- binheap.hpp:122-123 and 124-125: `if (c < size() && pred(heap[c], heap[s])) s = c`. -/
def pick (pred : α → α → Bool) (v : Vector α n) (s : Fin n) (c : Nat) : Fin n :=
  if h : c < n then (if pred v[c] v[s] then ⟨c, h⟩ else s) else s

/-- binheap.hpp:119-125: the choice of `sml` in `pushdown`. -/
def smallest (pred : α → α → Bool) (v : Vector α n) (i : Nat) (hi : i < n) : Fin n :=
  pick pred v (pick pred v ⟨i, hi⟩ (left i)) (right i)

omit [DecidableEq α] in
theorem smallest_cases (pred : α → α → Bool) (v : Vector α n) (i : Nat) (hi : i < n) :
    (smallest pred v i hi).val = i ∨ (smallest pred v i hi).val = left i ∨
      (smallest pred v i hi).val = right i := by
  have hp : ∀ (s : Fin n) (c : Nat), pick pred v s c = s ∨ (pick pred v s c).val = c := by
    intro s c; unfold pick; split_ifs <;> simp
  unfold smallest
  rcases hp (pick pred v ⟨i, hi⟩ (left i)) (right i) with h | h
  · rw [h]
    rcases hp ⟨i, hi⟩ (left i) with h' | h' <;> simp [h']
  · exact Or.inr (Or.inr h)

/-- binheap.hpp:118-133 `pushdown`; returns the final position as well. -/
def pushdown (pred : α → α → Bool) (m : Mem α n) (i : Nat) (hi : i < n) : Mem α n × Nat :=
  let s := smallest pred m.v i hi
  if h : s.val = i then (m, i)
  else pushdown pred (m.swap s.val i s.isLt hi) s.val s.isLt
termination_by n - i
decreasing_by
  have := smallest_cases pred m.v i hi
  have := (smallest pred m.v i hi).isLt
  simp only [left, right] at *
  omega

/-- binheap.hpp:145-154 `pullup`. -/
def pullup (pred : α → α → Bool) (m : Mem α n) (i : Nat) (hi : i < n) : Mem α n × Nat :=
  if h0 : i = 0 then (m, i)
  else
    have hp : parent i < n := by unfold parent; omega
    if pred m.v[i] m.v[parent i] then
      pullup pred (m.swap i (parent i) hi hp) (parent i) hp
    else (m, i)
termination_by i
decreasing_by unfold parent; omega

theorem pullup_snd_lt (pred : α → α → Bool) (m : Mem α n) (i : Nat) (hi : i < n) :
    (pullup pred m i hi).2 < n := by
  induction m, i, hi using pullup.induct (pred := pred) with
  | case1 m hi => unfold pullup; simpa using hi
  | case2 m i hi h0 hp h ih =>
    unfold pullup
    simp only [h0, h, dif_neg, not_false_eq_true, if_true]
    exact ih
  | case3 m i hi h0 hp h =>
    unfold pullup
    simp only [h0, h, dif_neg, not_false_eq_true]
    exact hi

/-- The heap object: the vector and the recorded indices. -/
structure Heap (α : Type*) where
  data : List α
  ind : α → Int

/-- The vector viewed as a fixed-length memory (no copying in the code). -/
def Heap.mem (h : Heap α) : Mem α h.data.length := ⟨⟨h.data.toArray, by simp⟩, h.ind⟩

def Mem.toHeap (m : Mem α n) : Heap α := ⟨m.v.toList, m.ind⟩

/-- binheap.hpp:14-18 `push`. -/
def push (pred : α → α → Bool) (h : Heap α) (e : α) : Heap α :=
  let h' : Heap α := ⟨h.data ++ [e], Function.update h.ind e (h.data.length : Int)⟩
  (pullup pred h'.mem h.data.length (by simp [h'])).1.toHeap

/-- binheap.hpp:22-38 `pop`. -/
def pop (pred : α → α → Bool) (h : Heap α) : Option α × Heap α :=
  match h.data with
  | [] => (none, h)
  | [x] => (some x, ⟨[], Function.update h.ind x (-1)⟩)
  | x :: y :: rest =>
    let last := (y :: rest).getLast (by simp)
    let h' : Heap α := ⟨last :: (y :: rest).dropLast, Function.update h.ind last 0⟩
    let r := (pushdown pred h'.mem 0 (by simp [h'])).1.toHeap
    (some x, ⟨r.data, Function.update r.ind x (-1)⟩)

/-- binheap.hpp:43-47 `front`. -/
def front (h : Heap α) : Option α := h.data.head?

/-- binheap.hpp:52-57 `update`.  The range check casts the index to
`unsigned int` (mod 2^32), so an index of at least 2^32 can pass it and then
reads outside the vector. -/
def update (pred : α → α → Bool) (h : Heap α) (i : Int) : Outcome (Heap α) :=
  if i < 0 ∨ ((i.toNat % 2 ^ 32 : Nat) ≥ h.data.length) then .fatal
  else if hi : i.toNat < h.data.length then
    let r := pullup pred h.mem i.toNat hi
    .ok (pushdown pred r.1 r.2 (pullup_snd_lt pred h.mem i.toNat hi)).1.toHeap
  else .ub

/-- binheap.hpp:65-70 `pushupdate`. -/
def pushupdate (pred : α → α → Bool) (h : Heap α) (e : α) (i : Int) : Outcome (Heap α) :=
  if i < 0 then .ok (push pred h e) else update pred h i

/-- binheap.hpp:78 `clear`: the recorded indices are left alone. -/
def clear (h : Heap α) : Heap α := ⟨[], h.ind⟩

/-- binheap.hpp:101-102: the first loop of `reinit`. -/
def setinds (ind : α → Int) : List α → Nat → (α → Int)
  | [], _ => ind
  | x :: xs, i => setinds (Function.update ind x (i : Int)) xs (i + 1)

/-- binheap.hpp:104-108: the second loop of `reinit`, from `i` down to 0. -/
def heapify (pred : α → α → Bool) (m : Mem α n) : (i : Nat) → (hi : i < n) → Mem α n
  | 0, hi => (pushdown pred m 0 hi).1
  | i + 1, hi => heapify pred (pushdown pred m (i + 1) hi).1 i (by omega)

/-- binheap.hpp:97-109 `reinit`. -/
def reinit (pred : α → α → Bool) (h : Heap α) : Heap α :=
  if h0 : h.data.length = 0 then h
  else
    let h' : Heap α := ⟨h.data, setinds h.ind h.data 0⟩
    (heapify pred h'.mem (h.data.length / 2) (by simp only [h']; omega)).toHeap

/-- binheap.hpp:113-116 `append`. -/
def append (pred : α → α → Bool) (h : Heap α) (es : List α) : Heap α :=
  reinit pred ⟨h.data ++ es, h.ind⟩

/-! ## Helper lemmas -/

/-- `a` may stand above `b`. -/
def le (pred : α → α → Bool) (a b : α) : Prop := pred b a = false

/-- Heap order for all links whose parent index is at least `k`. -/
def HeapFrom (pred : α → α → Bool) (k : Nat) (v : Vector α n) : Prop :=
  ∀ j (hj : j < n), 0 < j → k ≤ parent j → le pred (v[parent j]'(parent_lt hj)) v[j]

/-- Recorded indices are exact for everything in the memory. -/
def IndOk (m : Mem α n) : Prop := ∀ j (hj : j < n), m.ind m.v[j] = (j : Int)

omit [DecidableEq α] in
theorem le_refl {pred : α → α → Bool} (sw : StrictWeak pred) (a : α) : le pred a a := sw.irrefl a

omit [DecidableEq α] in
theorem le_trans {pred : α → α → Bool} (sw : StrictWeak pred) {a b c : α}
    (h1 : le pred a b) (h2 : le pred b c) : le pred a c := sw.ntrans _ _ _ h2 h1

omit [DecidableEq α] in
theorem le_of_pred {pred : α → α → Bool} (sw : StrictWeak pred) {a b : α}
    (h1 : pred a b = true) : le pred a b := by
  unfold le
  by_contra h
  have h : pred b a = true := by simpa using h
  have := sw.trans _ _ _ h1 h
  rw [sw.irrefl] at this
  cases this

omit [DecidableEq α] in
theorem pick_le {pred : α → α → Bool} (sw : StrictWeak pred) (v : Vector α n) (s : Fin n) (c : Nat) :
    le pred v[pick pred v s c] v[s] ∧ ∀ h : c < n, le pred v[pick pred v s c] v[c] := by
  unfold pick
  split_ifs with h p
  · exact ⟨le_of_pred sw p, fun _ => le_refl sw _⟩
  · exact ⟨le_refl sw _, fun _ => by simpa [le] using p⟩
  · exact ⟨le_refl sw _, fun h' => absurd h' h⟩

omit [DecidableEq α] in
theorem smallest_le {pred : α → α → Bool} (sw : StrictWeak pred) (v : Vector α n) (i : Nat)
    (hi : i < n) :
    le pred v[smallest pred v i hi] v[i] ∧
    (∀ h : left i < n, le pred v[smallest pred v i hi] v[left i]) ∧
    (∀ h : right i < n, le pred v[smallest pred v i hi] v[right i]) := by
  have h1 := pick_le sw v ⟨i, hi⟩ (left i)
  have h2 := pick_le sw v (pick pred v ⟨i, hi⟩ (left i)) (right i)
  exact ⟨le_trans sw h2.1 h1.1, fun h => le_trans sw h2.1 (h1.2 h), h2.2⟩

theorem swap_indOk {m : Mem α n} (ok : IndOk m) (i j : Nat) (hi : i < n) (hj : j < n)
    (hij : i ≠ j) : IndOk (m.swap i j hi hj) := by
  intro k hk
  have inj : ∀ a b (ha : a < n) (hb : b < n), m.v[a] = m.v[b] → a = b := by
    intro a b ha hb e
    have h1 := ok a ha
    have h2 := ok b hb
    rw [e] at h1
    omega
  simp only [Mem.swap, Vector.getElem_swap]
  by_cases h1 : k = i
  · subst h1
    simp
  · by_cases h2 : k = j
    · subst h2
      simp only [h1, if_false, if_true]
      rw [Function.update_of_ne (fun e => hij (inj _ _ hi hk e))]
      simp
    · simp only [h1, h2, if_false]
      rw [Function.update_of_ne (fun e => h2 (inj _ _ hk hj e)),
        Function.update_of_ne (fun e => h1 (inj _ _ hk hi e))]
      exact ok k hk

theorem pushdown_indOk (pred : α → α → Bool) {m : Mem α n} (ok : IndOk m) (i : Nat) (hi : i < n) :
    IndOk (pushdown pred m i hi).1 := by
  induction m, i, hi using pushdown.induct (pred := pred) with
  | case1 m i hi s h =>
    unfold pushdown
    simp only [s] at h
    simp only [h, dif_pos]
    exact ok
  | case2 m i hi s h ih =>
    unfold pushdown
    simp only [s] at h
    simp only [h, dif_neg, not_false_eq_true]
    exact ih (swap_indOk ok _ _ _ _ h)

theorem pullup_indOk (pred : α → α → Bool) {m : Mem α n} (ok : IndOk m) (i : Nat) (hi : i < n) :
    IndOk (pullup pred m i hi).1 := by
  induction m, i, hi using pullup.induct (pred := pred) with
  | case1 m hi => unfold pullup; simpa using ok
  | case2 m i hi h0 hp h ih =>
    unfold pullup
    simp only [h0, h, dif_neg, not_false_eq_true, if_true]
    exact ih (swap_indOk ok _ _ _ _ (by unfold parent; omega))
  | case3 m i hi h0 hp h =>
    unfold pullup
    simp only [h0, h, dif_neg, not_false_eq_true]
    exact ok

theorem pushdown_perm (pred : α → α → Bool) (m : Mem α n) (i : Nat) (hi : i < n) :
    (pushdown pred m i hi).1.v.toList.Perm m.v.toList := by
  induction m, i, hi using pushdown.induct (pred := pred) with
  | case1 m i hi s h =>
    unfold pushdown
    simp only [s] at h
    simp only [h, dif_pos]
    exact List.Perm.refl _
  | case2 m i hi s h ih =>
    unfold pushdown
    simp only [s] at h
    simp only [h, dif_neg, not_false_eq_true]
    refine ih.trans ?_
    have := Vector.swap_perm (xs := m.v) s.isLt hi
    exact Vector.perm_iff_toList_perm.1 this

theorem pullup_perm (pred : α → α → Bool) (m : Mem α n) (i : Nat) (hi : i < n) :
    (pullup pred m i hi).1.v.toList.Perm m.v.toList := by
  induction m, i, hi using pullup.induct (pred := pred) with
  | case1 m hi => unfold pullup; simp
  | case2 m i hi h0 hp h ih =>
    unfold pullup
    simp only [h0, h, dif_neg, not_false_eq_true, if_true]
    refine ih.trans ?_
    have := Vector.swap_perm (xs := m.v) hi hp
    exact Vector.perm_iff_toList_perm.1 this
  | case3 m i hi h0 hp h =>
    unfold pullup
    simp only [h0, h, dif_neg, not_false_eq_true]
    exact List.Perm.refl _

/-- One step of `pushdown`: swapping the smaller child `s` up moves the defect to `s`. -/
theorem pushdown_step {pred : α → α → Bool} (k : Nat) (m : Mem α n) (i s : Nat)
    (hi : i < n) (hs : s < n) (hki : k ≤ i) (hc : s = left i ∨ s = right i)
    (h1 : ∀ j (hj : j < n), 0 < j → k ≤ parent j → parent j ≠ i →
      le pred (m.v[parent j]'(parent_lt hj)) m.v[j])
    (h2 : ∀ j (hj : j < n), 0 < j → parent j = i → 0 < i → k ≤ parent i →
      le pred (m.v[parent i]'(parent_lt hi)) m.v[j])
    (hle : le pred m.v[s] m.v[i])
    (hl : ∀ h : left i < n, le pred m.v[s] m.v[left i])
    (hr : ∀ h : right i < n, le pred m.v[s] m.v[right i]) :
    (∀ j (hj : j < n), 0 < j → k ≤ parent j → parent j ≠ s →
      le pred ((m.swap s i hs hi).v[parent j]'(parent_lt hj)) (m.swap s i hs hi).v[j]) ∧
    (∀ j (hj : j < n), 0 < j → parent j = s → 0 < s → k ≤ parent s →
      le pred ((m.swap s i hs hi).v[parent s]'(parent_lt hs))
        (m.swap s i hs hi).v[j]) := by
  have hps : parent s = i := by
    rcases hc with hc | hc <;> subst hc <;> unfold parent <;> first | unfold left | unfold right
    all_goals omega
  have hsi : i < s := by
    rcases hc with hc | hc <;> subst hc <;> first | unfold left | unfold right
    all_goals omega
  have hs0 : 0 < s := by omega
  constructor
  · intro j hj hj0 hk hp
    simp only [Mem.swap, Vector.getElem_swap]
    by_cases hji : j = i
    · -- the link above `i`
      subst hji
      have e1 : parent j ≠ s := by unfold parent; omega
      have e2 : parent j ≠ j := by unfold parent; omega
      have e3 : j ≠ s := by omega
      simp only [e1, e2, e3, if_false, if_true]
      exact h2 s hs hs0 hps hj0 hk
    · by_cases hpi : parent j = i
      · have : j = left i ∨ j = right i := by
          unfold parent at hpi; unfold left right; omega
        have e1 : i ≠ s := by omega
        simp only [hpi, e1, if_false, if_true]
        by_cases hjs : j = s
        · simp only [hjs, if_true]; exact hle
        · simp only [hjs, hji, if_false]
          rcases this with rfl | rfl
          · exact hl hj
          · exact hr hj
      · have e1 : j ≠ s := fun e => hpi (e ▸ hps)
        simp only [hp, hpi, e1, hji, if_false]
        exact h1 j hj hj0 hk hpi
  · intro j hj hj0 hp _ hk
    simp only [Mem.swap, Vector.getElem_swap, hps]
    have e1 : j ≠ s := by unfold parent at hp; omega
    have e2 : j ≠ i := by unfold parent at hp; omega
    have e3 : i ≠ s := by omega
    simp only [e1, e2, e3, if_false, if_true]
    have := h1 j hj hj0 (by omega) (by omega)
    simpa only [hp] using this

/-- `pushdown` repairs a heap that is broken only below `i`. -/
theorem pushdown_heap {pred : α → α → Bool} (sw : StrictWeak pred) (k : Nat) (m : Mem α n) (i : Nat)
    (hi : i < n) (hki : k ≤ i)
    (h1 : ∀ j (hj : j < n), 0 < j → k ≤ parent j → parent j ≠ i →
      le pred (m.v[parent j]'(parent_lt hj)) m.v[j])
    (h2 : ∀ j (hj : j < n), 0 < j → parent j = i → 0 < i → k ≤ parent i →
      le pred (m.v[parent i]'(parent_lt hi)) m.v[j]) :
    HeapFrom pred k (pushdown pred m i hi).1.v := by
  induction m, i, hi using pushdown.induct (pred := pred) with
  | case1 m i hi s h =>
    unfold pushdown
    simp only [s] at h
    simp only [h, dif_pos]
    intro j hj hj0 hk
    by_cases hp : parent j = i
    · have hs := smallest_le sw m.v i hi
      simp only [Fin.getElem_fin, h] at hs
      have : j = left i ∨ j = right i := by
        unfold parent at hp; unfold left right; omega
      simp only [hp]
      rcases this with rfl | rfl
      · exact hs.2.1 hj
      · exact hs.2.2 hj
    · exact h1 j hj hj0 hk hp
  | case2 m i hi s h ih =>
    unfold pushdown
    simp only [s] at h
    simp only [h, dif_neg, not_false_eq_true]
    have hs := smallest_le sw m.v i hi
    have hc := smallest_cases pred m.v i hi
    have hc' := hc.resolve_left h
    have st := pushdown_step k m i s.val hi s.isLt hki hc' h1 h2 hs.1 hs.2.1 hs.2.2
    have hge : k ≤ s.val := by
      simp only [s]
      rcases hc' with e | e <;> rw [e] <;> first | unfold left | unfold right
      all_goals omega
    exact ih hge st.1 st.2

/-- `pullup` repairs a heap that is broken only between `i` and its parent. -/
theorem pullup_heap {pred : α → α → Bool} (sw : StrictWeak pred) (m : Mem α n) (i : Nat)
    (hi : i < n)
    (h1 : ∀ j (hj : j < n), 0 < j → j ≠ i →
      le pred (m.v[parent j]'(parent_lt hj)) m.v[j])
    (h2 : ∀ j (hj : j < n), 0 < j → parent j = i → 0 < i →
      le pred (m.v[parent i]'(parent_lt hi)) m.v[j]) :
    HeapFrom pred 0 (pullup pred m i hi).1.v := by
  induction m, i, hi using pullup.induct (pred := pred) with
  | case1 m hi =>
    unfold pullup
    simp only [dif_pos]
    intro j hj hj0 _
    exact h1 j hj hj0 (by omega)
  | case2 m i hi h0 hp h ih =>
    unfold pullup
    simp only [h0, h, dif_neg, not_false_eq_true, if_true]
    apply ih
    · intro j hj hj0 hji
      simp only [Mem.swap, Vector.getElem_swap]
      by_cases e : j = i
      · subst e
        have e1 : parent j ≠ j := by unfold parent; omega
        simp only [e1, if_false, if_true]
        exact le_of_pred sw h
      · by_cases hpi : parent j = i
        · have e1 : j ≠ parent i := hji
          simp only [hpi, e, e1, if_true, if_false]
          exact h2 j hj hj0 hpi (by omega)
        · by_cases hpp : parent j = parent i
          · have e1 : parent i ≠ i := by unfold parent; omega
            simp only [hpp, e1, e, hji, if_true, if_false]
            have := h1 j hj hj0 e
            simp only [hpp] at this
            exact le_trans sw (le_of_pred sw h) this
          · simp only [hpi, hpp, e, hji, if_false]
            exact h1 j hj hj0 e
    · intro j hj hj0 hpj hp0
      simp only [Mem.swap, Vector.getElem_swap]
      have e1 : parent (parent i) ≠ i := by unfold parent; omega
      have e2 : parent (parent i) ≠ parent i := by unfold parent at *; omega
      have e4 : j ≠ parent i := by intro e; subst e; unfold parent at *; omega
      have hpp := h1 (parent i) hp hp0 (by unfold parent; omega)
      simp only [e1, e2, e4, if_false]
      by_cases e3 : j = i
      · simp only [e3, if_true]
        exact hpp
      · simp only [e3, if_false]
        have := h1 j hj hj0 e3
        simp only [hpj] at this
        exact le_trans sw hpp this
  | case3 m i hi h0 hp h =>
    unfold pullup
    simp only [h0, h, dif_neg, not_false_eq_true]
    intro j hj hj0 _
    by_cases e : j = i
    · subst e
      simpa [le] using h
    · exact h1 j hj hj0 e

/-- `pushdown` leaves a heap a heap. -/
theorem pushdown_of_heap {pred : α → α → Bool} (sw : StrictWeak pred) (m : Mem α n) (i : Nat)
    (hi : i < n) (h : HeapFrom pred 0 m.v) : HeapFrom pred 0 (pushdown pred m i hi).1.v := by
  apply pushdown_heap sw 0 m i hi (Nat.zero_le _)
  · intro j hj hj0 hk _
    exact h j hj hj0 hk
  · intro j hj hj0 hp hi0 _
    have a := h j hj hj0 (Nat.zero_le _)
    have b := h i hi hi0 (Nat.zero_le _)
    simp only [hp] at a
    exact le_trans sw b a

/-- `pullup` then `pushdown` (the body of `update`) repairs a heap whose only
defect is the priority of the element at `i`. -/
theorem update_heap {pred : α → α → Bool} (sw : StrictWeak pred) (m : Mem α n) (i : Nat)
    (hi : i < n)
    (h1 : ∀ j (hj : j < n), 0 < j → j ≠ i → parent j ≠ i →
      le pred (m.v[parent j]'(parent_lt hj)) m.v[j])
    (h2 : ∀ j (hj : j < n), 0 < j → parent j = i → 0 < i →
      le pred (m.v[parent i]'(parent_lt hi)) m.v[j]) :
    HeapFrom pred 0 (pushdown pred (pullup pred m i hi).1 (pullup pred m i hi).2
      (pullup_snd_lt pred m i hi)).1.v := by
  by_cases hi0 : i = 0
  · subst hi0
    have e : pullup pred m 0 hi = (m, 0) := by unfold pullup; simp
    simp only [e]
    apply pushdown_heap sw 0 m 0 hi (Nat.zero_le _)
    · intro j hj hj0 _ hp
      exact h1 j hj hj0 (by omega) hp
    · intro j hj hj0 hp hi0
      omega
  · by_cases hp : pred m.v[i] (m.v[parent i]'(parent_lt hi)) = true
    · apply pushdown_of_heap sw
      apply pullup_heap sw
      · intro j hj hj0 hji
        by_cases hpj : parent j = i
        · simp only [hpj]
          exact le_trans sw (le_of_pred sw hp) (h2 j hj hj0 hpj (by omega))
        · exact h1 j hj hj0 hji hpj
      · intro j hj hj0 hpj h0
        exact h2 j hj hj0 hpj h0
    · have e : pullup pred m i hi = (m, i) := by
        unfold pullup; simp only [hi0, hp, dif_neg, not_false_eq_true]; rfl
      simp only [e]
      apply pushdown_heap sw 0 m i hi (Nat.zero_le _)
      · intro j hj hj0 _ hpj
        by_cases hji : j = i
        · subst hji
          simpa [le] using hp
        · exact h1 j hj hj0 hji hpj
      · intro j hj hj0 hpj h0 _
        exact h2 j hj hj0 hpj h0

theorem heapify_heap {pred : α → α → Bool} (sw : StrictWeak pred) (m : Mem α n) (i : Nat)
    (hi : i < n) (h : HeapFrom pred (i + 1) m.v) : HeapFrom pred 0 (heapify pred m i hi).v := by
  induction i generalizing m with
  | zero =>
    unfold heapify
    apply pushdown_heap sw 0 m 0 hi (Nat.le_refl _)
    · intro j hj hj0 _ hp
      exact h j hj hj0 (by omega)
    · intro j hj hj0 _ h0
      omega
  | succ i ih =>
    unfold heapify
    apply ih
    apply pushdown_heap sw (i + 1) m (i + 1) hi (Nat.le_refl _)
    · intro j hj hj0 hk hp
      exact h j hj hj0 (by omega)
    · intro j hj hj0 _ _ hk
      unfold parent at hk
      omega

theorem heapify_perm (pred : α → α → Bool) (m : Mem α n) (i : Nat) (hi : i < n) :
    (heapify pred m i hi).v.toList.Perm m.v.toList := by
  induction i generalizing m with
  | zero => unfold heapify; exact pushdown_perm pred m 0 hi
  | succ i ih =>
    unfold heapify
    exact (ih _ _).trans (pushdown_perm pred m _ hi)

theorem heapify_indOk (pred : α → α → Bool) {m : Mem α n} (ok : IndOk m) (i : Nat) (hi : i < n) :
    IndOk (heapify pred m i hi) := by
  induction i generalizing m with
  | zero => unfold heapify; exact pushdown_indOk pred ok 0 hi
  | succ i ih =>
    unfold heapify
    exact ih (pushdown_indOk pred ok _ hi) _

theorem setinds_notMem (l : List α) (ind : α → Int) (i : Nat) (x : α) (hx : x ∉ l) :
    setinds ind l i x = ind x := by
  induction l generalizing ind i with
  | nil => rfl
  | cons y ys ih =>
    simp only [List.mem_cons, not_or] at hx
    simp only [setinds]
    rw [ih _ _ hx.2, Function.update_of_ne hx.1]

theorem setinds_getElem (l : List α) (nd : l.Nodup) (ind : α → Int) (i : Nat) (j : Nat)
    (hj : j < l.length) : setinds ind l i l[j] = ((i + j : Nat) : Int) := by
  induction l generalizing ind i j with
  | nil => simp at hj
  | cons y ys ih =>
    rw [List.nodup_cons] at nd
    simp only [setinds]
    cases j with
    | zero =>
      simp only [List.getElem_cons_zero, Nat.add_zero]
      rw [setinds_notMem _ _ _ _ nd.1]
      simp
    | succ j =>
      simp only [List.getElem_cons_succ]
      rw [ih nd.2]
      congr 1
      omega

/-! ## List-level invariants -/

/-- No element of the heap vector precedes its parent. -/
def Ordered (pred : α → α → Bool) (l : List α) : Prop :=
  ∀ j (hj : j < l.length), 0 < j → le pred (l[parent j]'(parent_lt hj)) l[j]

/-- Recorded indices are exact for every contained element. -/
def IndExact (h : Heap α) : Prop := ∀ j (hj : j < h.data.length), h.ind h.data[j] = (j : Int)

omit [DecidableEq α] in
theorem mem_getElem (h : Heap α) (j : Nat) (hj : j < h.data.length) : h.mem.v[j] = h.data[j] := by
  simp [Heap.mem]

omit [DecidableEq α] in
theorem mem_toList (h : Heap α) : h.mem.v.toList = h.data := by
  simp [Heap.mem, Vector.toList]

omit [DecidableEq α] in
theorem toHeap_ordered {pred : α → α → Bool} {m : Mem α n} (h : HeapFrom pred 0 m.v) :
    Ordered pred m.toHeap.data := by
  intro j hj hj0
  have hj' : j < n := by simpa [Mem.toHeap] using hj
  have := h j hj' hj0 (Nat.zero_le _)
  simpa [Mem.toHeap] using this

omit [DecidableEq α] in
theorem toHeap_indExact {m : Mem α n} (h : IndOk m) : IndExact m.toHeap := by
  intro j hj
  have hj' : j < n := by simpa [Mem.toHeap] using hj
  have := h j hj'
  simpa [Mem.toHeap] using this

omit [DecidableEq α] in
theorem heap_mem_ordered {pred : α → α → Bool} {h : Heap α} (o : Ordered pred h.data) :
    HeapFrom pred 0 h.mem.v := by
  intro j hj hj0 _
  simp only [mem_getElem]
  exact o j hj hj0

omit [DecidableEq α] in
theorem heap_mem_indOk {h : Heap α} (o : IndExact h) : IndOk h.mem := by
  intro j hj
  simp only [mem_getElem]
  exact o j hj

omit [DecidableEq α] in
theorem indExact_nodup {h : Heap α} (o : IndExact h) : h.data.Nodup := by
  rw [List.nodup_iff_injective_getElem]
  intro a b e
  have h1 := o a a.2
  have h2 := o b b.2
  simp only at e
  rw [e] at h1
  apply Fin.ext
  omega

omit [DecidableEq α] in
theorem ordered_root {pred : α → α → Bool} (sw : StrictWeak pred) {l : List α} (o : Ordered pred l)
    (j : Nat) (hj : j < l.length) : le pred (l[0]'(by omega)) l[j] := by
  induction j using Nat.strongRecOn with
  | ind j ih =>
    by_cases h0 : j = 0
    · subst h0; exact le_refl sw _
    · have hp : parent j < j := by unfold parent; omega
      exact le_trans sw (ih (parent j) hp (by omega)) (o j hj (by omega))

/-! ### `push` -/

theorem push_perm (pred : α → α → Bool) (h : Heap α) (e : α) :
    (push pred h e).data.Perm (e :: h.data) := by
  unfold push
  refine (pullup_perm pred _ _ _).trans ?_
  rw [mem_toList]
  exact (List.perm_append_comm : (h.data ++ [e]).Perm ([e] ++ h.data))

theorem push_ordered {pred : α → α → Bool} (sw : StrictWeak pred) (h : Heap α) (e : α)
    (o : Ordered pred h.data) : Ordered pred (push pred h e).data := by
  unfold push
  apply toHeap_ordered
  apply pullup_heap sw
  · intro j hj hj0 hne
    change le pred ((h.data ++ [e])[parent j]'(parent_lt hj)) ((h.data ++ [e])[j]'hj)
    have hj' : j < h.data.length := by simp at hj; omega
    have hp : parent j < h.data.length := by unfold parent; omega
    rw [List.getElem_append_left hj', List.getElem_append_left hp]
    exact o j hj' hj0
  · intro j hj hj0 hp h0
    simp at hj
    unfold parent at hp
    omega

theorem push_indExact (pred : α → α → Bool) (h : Heap α) (e : α) (he : e ∉ h.data)
    (o : IndExact h) : IndExact (push pred h e) := by
  unfold push
  apply toHeap_indExact
  apply pullup_indOk
  apply heap_mem_indOk
  intro j hj
  by_cases hj' : j < h.data.length
  · simp only [List.getElem_append_left hj']
    rw [Function.update_of_ne]
    · exact o j hj'
    · intro e'
      exact he (e' ▸ List.getElem_mem hj')
  · have : j = h.data.length := by simp at hj; omega
    subst this
    simp

/-! ### `pop` -/

theorem pop_none (pred : α → α → Bool) (h : Heap α) : (pop pred h).1 = none ↔ h.data = [] := by
  unfold pop
  split <;> simp_all

theorem pop_perm (pred : α → α → Bool) (h : Heap α) (x : α) (hx : (pop pred h).1 = some x) :
    h.data.Perm (x :: (pop pred h).2.data) := by
  unfold pop at *
  split at hx
  · simp at hx
  · rename_i y hd
    simp only [Option.some.injEq] at hx
    subst hx
    simp [hd]
  · rename_i a b rest hd
    simp only [Option.some.injEq] at hx
    subst hx
    simp only [hd]
    apply List.Perm.cons
    refine List.Perm.symm ?_
    refine (pushdown_perm pred _ _ _).trans ?_
    rw [mem_toList]
    conv_rhs => rw [← List.dropLast_append_getLast (l := b :: rest) (by simp)]
    exact (List.perm_append_comm (l₁ := [(b :: rest).getLast (by simp)]))

theorem pop_head (pred : α → α → Bool) (h : Heap α) (x : α) (hx : (pop pred h).1 = some x) :
    ∃ hl : 0 < h.data.length, h.data[0] = x := by
  unfold pop at hx
  split at hx
  · simp at hx
  · rename_i y hd
    simp only [Option.some.injEq] at hx
    simp [hd, hx]
  · rename_i a b rest hd
    simp only [Option.some.injEq] at hx
    simp [hd, hx]

omit [DecidableEq α] in
theorem popped_getElem (a b : α) (rest : List α) (j : Nat)
    (hj : j < ((b :: rest).getLast (by simp) :: (b :: rest).dropLast).length) (hj0 : 0 < j) :
    ((b :: rest).getLast (by simp) :: (b :: rest).dropLast)[j] =
      (a :: b :: rest)[j]'(by simp at hj ⊢; omega) := by
  obtain ⟨j, rfl⟩ : ∃ k, j = k + 1 := ⟨j - 1, by omega⟩
  simp only [List.getElem_cons_succ, List.getElem_dropLast]

theorem pop_ordered {pred : α → α → Bool} (sw : StrictWeak pred) (h : Heap α)
    (o : Ordered pred h.data) : Ordered pred (pop pred h).2.data := by
  unfold pop
  split
  · rename_i hd
    exact o
  · intro j hj; simp at hj
  · rename_i a b rest hd
    dsimp only
    apply toHeap_ordered
    apply pushdown_heap sw 0 _ 0 _ (Nat.le_refl _)
    · intro j hj hj0 _ hp
      change le pred (((b :: rest).getLast (by simp) :: (b :: rest).dropLast)[parent j]'(parent_lt hj))
        (((b :: rest).getLast (by simp) :: (b :: rest).dropLast)[j]'hj)
      rw [popped_getElem a b rest j hj hj0, popped_getElem a b rest (parent j) _ (by omega)]
      rw [hd] at o
      exact o j _ hj0
    · intro j hj hj0 _ h0
      omega

theorem pop_indExact (pred : α → α → Bool) (h : Heap α) (o : IndExact h) :
    IndExact (pop pred h).2 := by
  have nd := indExact_nodup o
  rcases hx : (pop pred h).1 with _ | x
  · rw [pop_none] at hx
    intro j hj
    unfold pop at hj
    rw [hx] at hj
    simp [hx] at hj
  · have pm := pop_perm pred h x hx
    have nd' := pm.nodup_iff.1 nd
    rw [List.nodup_cons] at nd'
    revert nd' hx
    unfold pop
    split
    · simp
    · intro _ _ j hj; simp at hj
    · rename_i a b rest hd
      dsimp only
      intro hx nd'
      simp only [Option.some.injEq] at hx
      subst hx
      intro j hj
      dsimp only at hj ⊢
      rw [Function.update_of_ne]
      · refine toHeap_indExact (pushdown_indOk pred (heap_mem_indOk ?_) _ _) j hj
        intro k hk
        by_cases hk0 : k = 0
        · subst hk0; simp
        · have e := popped_getElem a b rest k hk (by omega)
          dsimp only
          rw [e]
          have hk' : k < (a :: b :: rest).length := by simp at hk ⊢; omega
          rw [Function.update_of_ne]
          · have := o k (by rw [hd]; exact hk')
            simp only [hd] at this
            exact this
          · intro e'
            have hl : (b :: rest).getLast (by simp) = (a :: b :: rest)[rest.length + 1] := by
              rw [List.getLast_eq_getElem]; simp
            rw [hl] at e'
            rw [hd] at nd
            have := (List.Nodup.getElem_inj_iff nd).1 e'
            simp at hk
            omega
      · intro e
        exact nd'.1 (e ▸ List.getElem_mem hj)

theorem pop_ind_popped (pred : α → α → Bool) (h : Heap α) (x : α) (hx : (pop pred h).1 = some x) :
    (pop pred h).2.ind x = -1 := by
  unfold pop at *
  split at hx
  · simp at hx
  · simp only [Option.some.injEq] at hx; subst hx; simp
  · simp only [Option.some.injEq] at hx; subst hx; simp

/-! ### `update` -/

theorem update_ok (pred : α → α → Bool) (h : Heap α) (i : Nat) (hi : i < h.data.length) :
    update pred h (i : Int) = .ok (pushdown pred (pullup pred h.mem i hi).1
      (pullup pred h.mem i hi).2 (pullup_snd_lt pred h.mem i hi)).1.toHeap := by
  unfold update
  have h1 : ¬ ((i : Int) < 0 ∨ (((i : Int).toNat % 2 ^ 32 : Nat) ≥ h.data.length)) := by
    simp only [Int.toNat_natCast]
    have := Nat.mod_le i (2 ^ 32)
    omega
  rw [if_neg h1]
  simp only [Int.toNat_natCast, hi, dif_pos]

/-! ### `reinit` / `append` -/

theorem reinit_perm (pred : α → α → Bool) (h : Heap α) : (reinit pred h).data.Perm h.data := by
  unfold reinit
  split_ifs with h0
  · exact List.Perm.refl _
  · refine (heapify_perm pred _ _ _).trans ?_
    rw [mem_toList]

theorem reinit_ordered {pred : α → α → Bool} (sw : StrictWeak pred) (h : Heap α) :
    Ordered pred (reinit pred h).data := by
  unfold reinit
  split_ifs with h0
  · intro j hj; omega
  · apply toHeap_ordered
    apply heapify_heap sw
    intro j hj hj0 hk
    simp only at hj
    unfold parent at hk
    omega

theorem reinit_indExact (pred : α → α → Bool) (h : Heap α) (nd : h.data.Nodup) :
    IndExact (reinit pred h) := by
  unfold reinit
  split_ifs with h0
  · intro j hj; omega
  · apply toHeap_indExact
    apply heapify_indOk
    apply heap_mem_indOk
    intro j hj
    simp only
    rw [setinds_getElem _ nd]
    simp

end Verif.BinHeap
