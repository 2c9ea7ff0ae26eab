import Verif.Outcome
import Mathlib.Data.Finset.Card
import Mathlib.Data.Finset.Lattice.Basic
import Mathlib.Logic.Function.Basic
import Mathlib.Tactic.Common

/-!
# Model of the integer open list (search/search.hpp:145-260)

`OpenList<Ops, Node, IntOpenCost>`: a vector of `Maxq`s indexed by priority, each a vector of
buckets indexed by tie-break priority.  A C++ vector is a size and a function; every access
checks the size.  `ind`, `prio` and `tie` are the memories of the fields read and written through
`Ops::getind/setind/prio/tieprio`.  Sizes are unbounded (a bucket with 2^31 nodes would overflow
the `int` index).
-/

namespace Verif.BucketOpen

variable {α : Type*} [DecidableEq α]

/-- search.hpp:154-201, struct `Maxq`. -/
structure Maxq (α : Type*) where
  fill : Nat
  max : Nat
  size : Nat
  bkts : Nat → List α

/-- search.hpp:155. -/
def Maxq.fresh : Maxq α := ⟨0, 0, 100, fun _ => []⟩

/-- search.hpp:157-167 `Maxq::push`. -/
def Maxq.push (q : Maxq α) (ind : α → Int) (n : α) (p : Nat) : Maxq α × (α → Int) :=
  let q := if q.size ≤ p then
      { q with size := p + 1, bkts := fun i => if i < q.size then q.bkts i else [] } else q
  let max := if p > q.max then p else q.max
  ({ fill := q.fill + 1, max := max, size := q.size,
     bkts := Function.update q.bkts p (q.bkts p ++ [n]) },
   Function.update ind n ((q.bkts p).length : Int))

/-- search.hpp:170-171: the scan `for ( ; bkts[max].empty() && max > 0; max--)`. -/
def scanDown (bkts : Nat → List α) : Nat → Nat
  | 0 => 0
  | m + 1 => if bkts (m + 1) = [] then scanDown bkts m else m + 1

/-- search.hpp:169-177 `Maxq::pop`. -/
def Maxq.pop (q : Maxq α) (ind : α → Int) : Outcome (α × Maxq α × (α → Int)) :=
  if q.size ≤ q.max then .ub
  else
    let m := scanDown q.bkts q.max
    match (q.bkts m).getLast? with
    | none => .ub
    | some n => .ok (n, { q with max := m, fill := q.fill - 1,
                                 bkts := Function.update q.bkts m (q.bkts m).dropLast },
                     Function.update ind n (-1))

/-- search.hpp:179-194 `Maxq::rm`.  The `int` index is converted to `unsigned int`, so a negative
one fails the assertion. -/
def Maxq.rm (q : Maxq α) (ind : α → Int) (n : α) (p : Nat) : Outcome (Maxq α × (α → Int)) :=
  if q.size ≤ p then .fatal
  else
    let bkt := q.bkts p
    if ind n < 0 ∨ (bkt.length : Int) ≤ ind n then .fatal
    else
      let i := (ind n).toNat
      match bkt.getLast? with
      | none => .ub
      | some last =>
        let bkt' := if bkt.length > 1 then bkt.set i last else bkt
        let ind' := if bkt.length > 1 then Function.update ind last (i : Int) else ind
        .ok ({ q with bkts := Function.update q.bkts p bkt'.dropLast, fill := q.fill - 1 },
             Function.update ind' n (-1))

/-- search.hpp:203-205, and the node memories. -/
structure Open (α : Type*) where
  fill : Nat
  min : Nat
  size : Nat
  qs : Nat → Maxq α
  ind : α → Int
  prio : α → Int
  tie : α → Int

/-- search.hpp:208; nodes start with index -1. -/
def init (prio tie : α → Int) : Open α :=
  { fill := 0, min := 0, size := 100, qs := fun _ => .fresh, ind := fun _ => -1, prio := prio, tie := tie }

/-- search.hpp:212-223 `push`.  A negative (tie) priority converts to an enormous `unsigned long`:
`resize` throws or, for -1, the index is out of range; both are `ub` here. -/
def push (o : Open α) (n : α) : Outcome (Open α) :=
  if o.prio n < 0 ∨ o.tie n < 0 then .ub
  else
    let p := (o.prio n).toNat
    let o := if o.size ≤ p then
      { o with size := p + 1, qs := fun i => if i < o.size then o.qs i else .fresh } else o
    let min := if p < o.min then p else o.min
    let r := (o.qs p).push o.ind n (o.tie n).toNat
    .ok { o with min := min, qs := Function.update o.qs p r.1, ind := r.2, fill := o.fill + 1 }

/-- search.hpp:226-227: the scan `for ( ; min < qs.size() && qs[min].empty(); min++)`, running at
most `k = qs.size() - min` times. -/
def scanUp (qs : Nat → Maxq α) : Nat → Nat → Nat
  | 0, m => m
  | k + 1, m => if (qs m).fill = 0 then scanUp qs k (m + 1) else m

/-- search.hpp:225-232 `pop`. -/
def pop (o : Open α) : Outcome (α × Open α) :=
  let m := scanUp o.qs (o.size - o.min) o.min
  if o.size ≤ m then .ub
  else ((o.qs m).pop o.ind).bind fun r =>
    if o.prio r.1 = m then
      .ok (r.1, { o with min := m, fill := o.fill - 1, qs := Function.update o.qs m r.2.1, ind := r.2.2 })
    else .fatal

/-- search.hpp:234-240 `pre_update`. -/
def preUpdate (o : Open α) (n : α) : Outcome (Open α) :=
  if o.ind n < 0 then .ok o
  else if o.prio n < 0 ∨ (o.size : Int) ≤ o.prio n then .fatal
  else if o.tie n < 0 then .fatal
  else ((o.qs (o.prio n).toNat).rm o.ind n (o.tie n).toNat).map fun r =>
    { o with qs := Function.update o.qs (o.prio n).toNat r.1, ind := r.2, fill := o.fill - 1 }

/-- search.hpp:242-245 `post_update`. -/
def postUpdate (o : Open α) (n : α) : Outcome (Open α) :=
  if o.ind n < 0 then push o n else .fatal

/-- search.hpp:247-249. -/
def empty (o : Open α) : Bool := o.fill == 0

/-- search.hpp:251-253. -/
def mem (o : Open α) (n : α) : Bool := 0 ≤ o.ind n

/-- search.hpp:255-259 `clear`: the nodes' indices are left alone. -/
def clear (o : Open α) : Open α := { o with size := 0, min := 0, fill := 0 }

/-! ## Representation invariant -/

structure Rep (o : Open α) (C : Finset α) : Prop where
  bk : ∀ (p t i : Nat) (n : α), p < o.size → t < (o.qs p).size → ((o.qs p).bkts t)[i]? = some n →
    n ∈ C ∧ o.prio n = p ∧ o.tie n = t ∧ o.ind n = i
  loc : ∀ n ∈ C, ∃ p t i : Nat, p < o.size ∧ t < (o.qs p).size ∧ o.prio n = p ∧ o.tie n = t ∧
    ((o.qs p).bkts t)[i]? = some n
  qfill : ∀ p, p < o.size → (o.qs p).fill = (C.filter fun n => o.prio n = p).card
  fill : o.fill = C.card
  min : ∀ n ∈ C, (o.min : Int) ≤ o.prio n
  max : ∀ n ∈ C, ∀ p : Nat, o.prio n = p → o.tie n ≤ (o.qs p).max
  maxlt : ∀ p, p < o.size → (o.qs p).max < (o.qs p).size

theorem rep_init (prio tie : α → Int) : Rep (init prio tie) ∅ where
  bk := by simp [init, Maxq.fresh]
  loc := by simp
  qfill := by intro p _; rw [Finset.filter_empty]; rfl
  fill := rfl
  min := by simp
  max := by simp
  maxlt := by simp [init, Maxq.fresh]

theorem rep_clear (o : Open α) : Rep (clear o) ∅ where
  bk := by simp [clear]
  loc := by simp
  qfill := by simp [clear]
  fill := rfl
  min := by simp
  max := by simp
  maxlt := by simp [clear]

/-- `push` in two steps: first the resizing of the outer vector. -/
def growOuter (o : Open α) (p : Nat) : Open α :=
  if o.size ≤ p then
    { o with size := p + 1, qs := fun i => if i < o.size then o.qs i else .fresh } else o

theorem growOuter_size (o : Open α) (p : Nat) : p < (growOuter o p).size := by
  unfold growOuter; split_ifs <;> simp_all

theorem growOuter_fields (o : Open α) (p : Nat) : (growOuter o p).prio = o.prio ∧
    (growOuter o p).tie = o.tie ∧ (growOuter o p).ind = o.ind ∧ (growOuter o p).fill = o.fill ∧
    (growOuter o p).min = o.min := by
  unfold growOuter; split_ifs <;> simp

theorem growOuter_rep {o : Open α} {C : Finset α} (r : Rep o C) (p : Nat) : Rep (growOuter o p) C := by
  unfold growOuter
  split_ifs with hs
  · refine ⟨?_, ?_, ?_, r.fill, r.min, ?_, ?_⟩
    · intro p' t i n hp ht hb
      dsimp only at hp ht hb ⊢
      split_ifs at ht hb with h
      · exact r.bk p' t i n h ht hb
      · simp [Maxq.fresh] at hb
    · intro n hn
      obtain ⟨p', t, i, h1, h2, h3⟩ := r.loc n hn
      refine ⟨p', t, i, ?_, ?_⟩
      · dsimp only; omega
      · dsimp only; rw [if_pos h1]; exact ⟨h2, h3⟩
    · intro p' hp
      dsimp only
      split_ifs with h
      · exact r.qfill p' h
      · have : (C.filter fun n => o.prio n = p') = ∅ := by
          apply Finset.filter_eq_empty_iff.2
          intro n hn e
          obtain ⟨p2, t, i, h1, h2, h3, -⟩ := r.loc n hn
          omega
        rw [this]; rfl
    · intro n hn p' hp
      dsimp only
      obtain ⟨p2, t, i, h1, h2, h3, -⟩ := r.loc n hn
      have : p2 = p' := by dsimp only at hp; omega
      subst this
      rw [if_pos h1]
      exact r.max n hn p2 h3
    · intro p' hp
      dsimp only
      split_ifs with h
      · exact r.maxlt p' h
      · simp [Maxq.fresh]
  · exact r

theorem push_eq (o : Open α) (n : α) (p t : Nat) (hp : o.prio n = p) (ht : o.tie n = t) :
    push o n = .ok (let o := growOuter o p
      let r := (o.qs p).push o.ind n t
      { o with min := if p < o.min then p else o.min,
               qs := Function.update o.qs p r.1, ind := r.2, fill := o.fill + 1 }) := by
  unfold push
  rw [if_neg (by omega)]
  simp only [hp, ht, Int.toNat_natCast]
  have := (growOuter_fields o p).2.1
  unfold growOuter at this ⊢
  rw [this, ht]
  rfl

/-- `Maxq::push`, described by its effect. -/
theorem maxq_push (q : Maxq α) (ind : α → Int) (n : α) (p : Nat) (hq : q.max < q.size) :
    ∃ q' ind' L, q.push ind n p = (q', ind') ∧ L = (if p < q.size then q.bkts p else []) ∧
      q'.fill = q.fill + 1 ∧ q'.max < q'.size ∧ p < q'.size ∧ p ≤ q'.max ∧ q.max ≤ q'.max ∧
      q.size ≤ q'.size ∧ ind' = Function.update ind n (L.length : Int) ∧
      q'.bkts p = L ++ [n] ∧
      ∀ t, t ≠ p → q'.bkts t = if t < q.size ∨ ¬ q.size ≤ p then q.bkts t else [] := by
  unfold Maxq.push
  by_cases h : q.size ≤ p
  · refine ⟨_, _, [], rfl, by rw [if_neg (by omega)], ?_⟩
    simp only [h, if_true]
    refine ⟨trivial, ?_, by omega, by split_ifs <;> omega, by split_ifs <;> omega, by omega, ?_, ?_, ?_⟩
    · split_ifs <;> omega
    · rw [if_neg (by omega)]
    · rw [Function.update_self, if_neg (by omega)]
    · intro t ht
      rw [Function.update_of_ne ht]
      simp
  · refine ⟨_, _, q.bkts p, rfl, by rw [if_pos (by omega)], ?_⟩
    simp only [h, if_false]
    refine ⟨trivial, ?_, by omega, by split_ifs <;> omega, by split_ifs <;> omega, by omega, trivial, ?_, ?_⟩
    · split_ifs <;> omega
    · rw [Function.update_self]
    · intro t ht
      rw [Function.update_of_ne ht]
      simp

theorem push_rep {o : Open α} {C : Finset α} (r : Rep o C) (n : α) (hn : n ∉ C)
    (hp : 0 ≤ o.prio n) (ht : 0 ≤ o.tie n) :
    ∃ o', push o n = .ok o' ∧ Rep o' (insert n C) ∧ o'.prio = o.prio ∧ o'.tie = o.tie ∧
      0 ≤ o'.ind n ∧ ∀ x, x ≠ n → o'.ind x = o.ind x := by
  obtain ⟨p, hp⟩ := Int.eq_ofNat_of_zero_le hp
  obtain ⟨t, ht⟩ := Int.eq_ofNat_of_zero_le ht
  rw [push_eq o n p t hp ht]
  obtain ⟨f1, f2, f3, f4, f5⟩ := growOuter_fields o p
  have rg := growOuter_rep r p
  have hsz := growOuter_size o p
  rw [← f1] at hp
  rw [← f2] at ht
  rw [← f1, ← f2, ← f3]
  clear f1 f2 f3 f4 f5 r
  generalize growOuter o p = g at *
  obtain ⟨q', ind', L, e, hL, k1, k2, k3, k4, k5, k6, k7, k8, k9⟩ :=
    maxq_push (g.qs p) g.ind n t (rg.maxlt p hsz)
  simp only [e]
  have hLC : ∀ (i : Nat) x, L[i]? = some x → x ∈ C ∧ g.prio x = p ∧ g.tie x = t ∧ g.ind x = i := by
    intro i x hx
    rw [hL] at hx
    split_ifs at hx with h
    · exact rg.bk p t i x hsz h hx
    · simp at hx
  have hk9 : ∀ (t' i : Nat) x, t' ≠ t → (q'.bkts t')[i]? = some x → t' < (g.qs p).size →
      ((g.qs p).bkts t')[i]? = some x := by
    intro t' i x hne hx hlt
    rw [k9 t' hne, if_pos (Or.inl hlt)] at hx
    exact hx
  have hk9' : ∀ (t' i : Nat) x, t' ≠ t → t' < q'.size → (q'.bkts t')[i]? = some x → t' < (g.qs p).size := by
    intro t' i x hne hlt hx
    rw [k9 t' hne] at hx
    split_ifs at hx with h
    · rcases h with h | h
      · exact h
      · by_contra hc
        have : (g.qs p).push g.ind n t = (q', ind') := e
        unfold Maxq.push at this
        rw [if_neg h] at this
        simp only [Prod.mk.injEq] at this
        have := congrArg Maxq.size this.1
        simp only at this
        omega
    · simp at hx
  refine ⟨_, rfl, ?_, rfl, rfl, ?_, ?_⟩
  · refine ⟨?_, ?_, ?_, ?_, ?_, ?_, ?_⟩
    · intro p' t' i x hp' ht' hx
      dsimp only at hp' ht' hx ⊢
      rw [k7]
      by_cases e1 : p' = p
      · subst e1
        rw [Function.update_self] at ht' hx
        by_cases e2 : t' = t
        · subst e2
          rw [k8, List.getElem?_append] at hx
          split_ifs at hx with hi
          · obtain ⟨a, b, c, d⟩ := hLC i x hx
            have : x ≠ n := fun h => hn (h ▸ a)
            rw [Function.update_of_ne this]
            exact ⟨Finset.mem_insert_of_mem a, b, c, d⟩
          · have hi0 : i = L.length ∧ n = x := by
              rcases hh : i - L.length with _ | m
              · rw [hh] at hx; simp at hx; exact ⟨by omega, hx⟩
              · rw [hh] at hx; simp at hx
            obtain ⟨rfl, rfl⟩ := hi0
            rw [Function.update_self]
            exact ⟨Finset.mem_insert_self _ _, hp, ht, rfl⟩
        · have hlt := hk9' t' i x e2 ht' hx
          obtain ⟨a, b, c, d⟩ := rg.bk p' t' i x hp' hlt (hk9 t' i x e2 hx hlt)
          have : x ≠ n := fun h => hn (h ▸ a)
          rw [Function.update_of_ne this]
          exact ⟨Finset.mem_insert_of_mem a, b, c, d⟩
      · rw [Function.update_of_ne e1] at ht' hx
        obtain ⟨a, b, c, d⟩ := rg.bk p' t' i x hp' ht' hx
        have : x ≠ n := fun h => hn (h ▸ a)
        rw [Function.update_of_ne this]
        exact ⟨Finset.mem_insert_of_mem a, b, c, d⟩
    · intro x hx
      rcases Finset.mem_insert.1 hx with rfl | hx
      · refine ⟨p, t, L.length, hsz, ?_, hp, ht, ?_⟩
        · dsimp only; rw [Function.update_self]; exact k3
        · dsimp only; rw [Function.update_self, k8]; simp
      · obtain ⟨p', t', i, h1, h2, h3, h4, h5⟩ := rg.loc x hx
        refine ⟨p', t', i, h1, ?_, h3, h4, ?_⟩
        · dsimp only
          by_cases e1 : p' = p
          · subst e1; rw [Function.update_self]; omega
          · rw [Function.update_of_ne e1]; exact h2
        · dsimp only
          by_cases e1 : p' = p
          · subst e1
            rw [Function.update_self]
            by_cases e2 : t' = t
            · subst e2
              rw [k8, hL, if_pos h2]
              rw [List.getElem?_append_left]
              · exact h5
              · exact (List.getElem?_eq_some_iff.1 h5).1
            · rw [k9 t' e2, if_pos (Or.inl h2)]; exact h5
          · rw [Function.update_of_ne e1]; exact h5
    · intro p' hp'
      dsimp only at hp' ⊢
      by_cases e1 : p' = p
      · subst e1
        rw [Function.update_self, k1, rg.qfill p' hp', Finset.filter_insert, if_pos hp,
          Finset.card_insert_of_notMem]
        simp [hn]
      · rw [Function.update_of_ne e1, rg.qfill p' hp', Finset.filter_insert, if_neg (by omega)]
    · dsimp only
      rw [rg.fill, Finset.card_insert_of_notMem hn]
    · intro x hx
      dsimp only
      rcases Finset.mem_insert.1 hx with rfl | hx
      · split_ifs <;> omega
      · have := rg.min x hx
        split_ifs <;> omega
    · intro x hx p' hp'
      dsimp only at hp' ⊢
      by_cases e1 : p' = p
      · subst e1
        rw [Function.update_self]
        rcases Finset.mem_insert.1 hx with rfl | hx
        · omega
        · have := rg.max x hx p' hp'
          omega
      · rw [Function.update_of_ne e1]
        rcases Finset.mem_insert.1 hx with rfl | hx
        · omega
        · exact rg.max x hx p' hp'
    · intro p' hp'
      dsimp only at hp' ⊢
      by_cases e1 : p' = p
      · subst e1; rw [Function.update_self]; exact k2
      · rw [Function.update_of_ne e1]; exact rg.maxlt p' hp'
  · dsimp only; rw [k7, Function.update_self]; omega
  · intro x hx; dsimp only; rw [k7, Function.update_of_ne hx]

/-- `Maxq` after a removal. -/
def shrunk (q : Maxq α) (mx t : Nat) (l' : List α) : Maxq α :=
  { q with max := mx, fill := q.fill - 1, bkts := Function.update q.bkts t l' }

/-- Removing `n` from the bucket it lies in, replacing it by the last element. -/
theorem remove_rep {o : Open α} {C : Finset α} (r : Rep o C) {n : α} (hn : n ∈ C) {p t : Nat}
    (hp : o.prio n = p) (ht : o.tie n = t) (m mx : Nat) {l' : List α} {ind' : α → Int}
    (hmx : mx ≤ (o.qs p).max) (hmxt : ∀ x ∈ C, o.prio x = p → o.tie x ≤ mx)
    (hm : ∀ x ∈ C, x ≠ n → (m : Int) ≤ o.prio x)
    (h1 : ∀ (i : Nat) x, l'[i]? = some x → x ≠ n ∧ x ∈ C ∧ o.prio x = p ∧ o.tie x = t ∧ ind' x = i)
    (h2 : ∀ x ∈ C, x ≠ n → o.prio x = p → o.tie x = t → ∃ i : Nat, l'[i]? = some x)
    (h3 : ∀ x ∈ C, x ≠ n → ¬ (o.prio x = p ∧ o.tie x = t) → ind' x = o.ind x) :
    Rep { o with min := m, fill := o.fill - 1, ind := ind', qs := Function.update o.qs p (shrunk (o.qs p) mx t l') } (C.erase n) := by
  have hsz : p < o.size := by
    obtain ⟨p', t', i, a1, a2, a3, -⟩ := r.loc n hn
    omega
  have htz : t < (o.qs p).size := by
    obtain ⟨p', t', i, a1, a2, a3, a4, -⟩ := r.loc n hn
    have : p' = p := by omega
    subst this
    omega
  refine ⟨?_, ?_, ?_, ?_, ?_, ?_, ?_⟩
  · intro p' t' i x hp' ht' hx
    dsimp only at hp' ht' hx ⊢
    by_cases e1 : p' = p
    · subst e1
      rw [Function.update_self] at ht' hx
      dsimp only [shrunk] at ht' hx
      by_cases e2 : t' = t
      · subst e2
        rw [Function.update_self] at hx
        obtain ⟨a, b, c, d, e⟩ := h1 i x hx
        exact ⟨Finset.mem_erase.2 ⟨a, b⟩, c, d, e⟩
      · rw [Function.update_of_ne e2] at hx
        obtain ⟨a, b, c, d⟩ := r.bk p' t' i x hp' ht' hx
        have : x ≠ n := by rintro rfl; omega
        exact ⟨Finset.mem_erase.2 ⟨this, a⟩, b, c, by rw [h3 x a this (by omega)]; exact d⟩
    · rw [Function.update_of_ne e1] at ht' hx
      obtain ⟨a, b, c, d⟩ := r.bk p' t' i x hp' ht' hx
      have : x ≠ n := by rintro rfl; omega
      exact ⟨Finset.mem_erase.2 ⟨this, a⟩, b, c, by rw [h3 x a this (by omega)]; exact d⟩
  · intro x hx
    obtain ⟨hxn, hx⟩ := Finset.mem_erase.1 hx
    obtain ⟨p', t', i, a1, a2, a3, a4, a5⟩ := r.loc x hx
    by_cases e1 : p' = p
    · subst e1
      by_cases e2 : t' = t
      · subst e2
        obtain ⟨i', hi'⟩ := h2 x hx hxn a3 a4
        refine ⟨p', t', i', hsz, ?_, a3, a4, ?_⟩
        · dsimp only; rw [Function.update_self]; exact htz
        · dsimp only; rw [Function.update_self]; dsimp only [shrunk]; rw [Function.update_self]; exact hi'
      · refine ⟨p', t', i, hsz, ?_, a3, a4, ?_⟩
        · dsimp only; rw [Function.update_self]; exact a2
        · dsimp only; rw [Function.update_self]; dsimp only [shrunk]; rw [Function.update_of_ne e2]; exact a5
    · refine ⟨p', t', i, a1, ?_, a3, a4, ?_⟩
      · dsimp only; rw [Function.update_of_ne e1]; exact a2
      · dsimp only; rw [Function.update_of_ne e1]; exact a5
  · intro p' hp'
    dsimp only at hp' ⊢
    by_cases e1 : p' = p
    · subst e1
      rw [Function.update_self]
      dsimp only [shrunk]
      rw [r.qfill p' hp', Finset.filter_erase, Finset.card_erase_of_mem]
      simp [hn, hp]
    · rw [Function.update_of_ne e1, r.qfill p' hp', Finset.filter_erase, Finset.erase_eq_of_notMem]
      simp only [Finset.mem_filter, not_and]
      intro _
      omega
  · dsimp only; rw [r.fill, Finset.card_erase_of_mem hn]
  · intro x hx
    obtain ⟨hxn, hx⟩ := Finset.mem_erase.1 hx
    exact hm x hx hxn
  · intro x hx p' hp'
    dsimp only at hp' ⊢
    have hxC := (Finset.mem_erase.1 hx).2
    by_cases e1 : p' = p
    · subst e1; rw [Function.update_self]; exact hmxt x hxC hp'
    · rw [Function.update_of_ne e1]; exact r.max x hxC p' hp'
  · intro p' hp'
    dsimp only at hp' ⊢
    have := r.maxlt p' hp'
    by_cases e1 : p' = p
    · subst e1; rw [Function.update_self]; dsimp only [shrunk]; omega
    · rw [Function.update_of_ne e1]; exact this

theorem scanDown_spec (bkts : Nat → List α) (m : Nat) : scanDown bkts m ≤ m ∧
    (∀ t, scanDown bkts m < t → t ≤ m → bkts t = []) ∧
    ((∃ t ≤ m, bkts t ≠ []) → bkts (scanDown bkts m) ≠ []) := by
  induction m with
  | zero =>
    refine ⟨le_refl _, fun t h1 h2 => ?_, ?_⟩
    · simp only [scanDown] at h1; omega
    · rintro ⟨t, h1, h2⟩
      have : t = 0 := by omega
      subst this
      exact h2
  | succ m ih =>
    unfold scanDown
    split_ifs with h
    · refine ⟨by omega, fun t h1 h2 => ?_, ?_⟩
      · by_cases e : t = m + 1
        · rw [e]; exact h
        · exact ih.2.1 t h1 (by omega)
      · rintro ⟨t, h1, h2⟩
        refine ih.2.2 ⟨t, ?_, h2⟩
        by_contra hc
        have : t = m + 1 := by omega
        subst this
        exact h2 h
    · exact ⟨le_refl _, fun t h1 h2 => by omega, fun _ => h⟩

theorem scanUp_spec (qs : Nat → Maxq α) (k m : Nat) : m ≤ scanUp qs k m ∧
    (∀ p, m ≤ p → p < scanUp qs k m → (qs p).fill = 0) ∧
    ((∃ p, m ≤ p ∧ p < m + k ∧ (qs p).fill ≠ 0) → (qs (scanUp qs k m)).fill ≠ 0 ∧
      scanUp qs k m < m + k) := by
  induction k generalizing m with
  | zero => exact ⟨le_refl _, fun p h1 h2 => by simp only [scanUp] at h2; omega,
      fun ⟨p, h1, h2, _⟩ => by omega⟩
  | succ k ih =>
    unfold scanUp
    split_ifs with h
    · obtain ⟨a, b, c⟩ := ih (m + 1)
      refine ⟨by omega, fun p h1 h2 => ?_, ?_⟩
      · by_cases e : p = m
        · rw [e]; exact h
        · exact b p (by omega) h2
      · rintro ⟨p, h1, h2, h3⟩
        have : p ≠ m := by rintro rfl; exact h3 h
        obtain ⟨d, e⟩ := c ⟨p, by omega, by omega, h3⟩
        exact ⟨d, by omega⟩
    · exact ⟨le_refl _, fun p h1 h2 => by omega, fun _ => ⟨h, by omega⟩⟩

theorem pop_rep {o : Open α} {C : Finset α} (r : Rep o C) (hne : C.Nonempty) :
    ∃ o' n, pop o = .ok (n, o') ∧ n ∈ C ∧ (∀ x ∈ C, o.prio n ≤ o.prio x) ∧
      (∀ x ∈ C, o.prio x = o.prio n → o.tie x ≤ o.tie n) ∧ Rep o' (C.erase n) ∧
      o'.ind n = -1 ∧ (∀ x, x ∉ C → o'.ind x = o.ind x) ∧ o'.prio = o.prio ∧ o'.tie = o.tie := by
  -- the outer scan
  obtain ⟨s1, s2, s3⟩ := scanUp_spec o.qs (o.size - o.min) o.min
  obtain ⟨x0, hx0⟩ := hne
  obtain ⟨p0, t0, i0, a1, a2, a3, a4, a5⟩ := r.loc x0 hx0
  have hfill : ∀ p, p < o.size → ((o.qs p).fill ≠ 0 ↔ ∃ x ∈ C, o.prio x = p) := by
    intro p hp
    rw [r.qfill p hp, Finset.card_ne_zero, Finset.filter_nonempty_iff]
  have hmin0 := r.min x0 hx0
  obtain ⟨s4, s5⟩ := s3 ⟨p0, by omega, by omega, (hfill p0 a1).2 ⟨x0, hx0, a3⟩⟩
  set m := scanUp o.qs (o.size - o.min) o.min with hm
  have hmsz : m < o.size := by omega
  obtain ⟨x1, hx1, hpx1⟩ := (hfill m hmsz).1 s4
  have least : ∀ x ∈ C, (m : Int) ≤ o.prio x := by
    intro x hx
    by_contra hc
    obtain ⟨p, t, i, b1, b2, b3, -⟩ := r.loc x hx
    have := r.min x hx
    exact (hfill p b1).2 ⟨x, hx, b3⟩ (s2 p (by omega) (by omega))
  -- the inner scan
  obtain ⟨d1, d2, d3⟩ := scanDown_spec (o.qs m).bkts (o.qs m).max
  set t := scanDown (o.qs m).bkts (o.qs m).max with htdef
  have hmx := r.maxlt m hmsz
  have hbk : (o.qs m).bkts t ≠ [] := by
    obtain ⟨p, t', i, b1, b2, b3, b4, b5⟩ := r.loc x1 hx1
    have : p = m := by omega
    subst this
    refine d3 ⟨t', ?_, ?_⟩
    · have := r.max x1 hx1 m hpx1; omega
    · intro he; rw [he] at b5; simp at b5
  have hlast : ((o.qs m).bkts t).getLast? = some (((o.qs m).bkts t).getLast hbk) := List.getLast?_eq_some_getLast hbk
  set n := ((o.qs m).bkts t).getLast hbk with hn
  have hnget : ((o.qs m).bkts t)[((o.qs m).bkts t).length - 1]? = some n := by
    rw [← hlast, List.getLast?_eq_getElem?]
  have hlen : 0 < ((o.qs m).bkts t).length := List.length_pos_of_ne_nil hbk
  obtain ⟨c1, c2, c3, c4⟩ := r.bk m t _ n hmsz (by omega) hnget
  have tiemax : ∀ x ∈ C, o.prio x = m → o.tie x ≤ t := by
    intro x hx hpx
    by_contra hc
    obtain ⟨p, t', i, b1, b2, b3, b4, b5⟩ := r.loc x hx
    have : p = m := by omega
    subst this
    have hmax := r.max x hx m hpx
    have := d2 t' (by omega) (by omega)
    rw [this] at b5
    simp at b5
  refine ⟨{ o with min := m, fill := o.fill - 1, ind := Function.update o.ind n (-1), qs := Function.update o.qs m (shrunk (o.qs m) t t ((o.qs m).bkts t).dropLast) }, n, ?_, c1, ?_, ?_, ?_, ?_, ?_, rfl, rfl⟩
  · unfold pop
    simp only [← hm]
    rw [if_neg (by omega)]
    simp only [Maxq.pop]
    rw [if_neg (by omega)]
    simp only [← htdef, hlast, Outcome.bind_ok]
    rw [if_pos c2]
    rfl
  · intro x hx; rw [c2]; exact least x hx
  · intro x hx hpx; rw [c3]; exact tiemax x hx (by rw [hpx, c2])
  · apply remove_rep r c1 c2 c3 m t d1 tiemax (fun x hx _ => least x hx)
    · intro i x hx
      rw [List.getElem?_dropLast] at hx
      split_ifs at hx with hi
      obtain ⟨b1, b2, b3, b4⟩ := r.bk m t i x hmsz (by omega) hx
      have : x ≠ n := by rintro rfl; omega
      exact ⟨this, b1, b2, b3, by rw [Function.update_of_ne this]; exact b4⟩
    · intro x hx hxn hpx htx
      obtain ⟨p, t', i, b1, b2, b3, b4, b5⟩ := r.loc x hx
      have : p = m := by omega
      subst this
      have : t' = t := by omega
      subst this
      refine ⟨i, ?_⟩
      rw [List.getElem?_dropLast]
      have hi := (List.getElem?_eq_some_iff.1 b5).1
      rw [if_pos]
      · exact b5
      · by_contra hc
        have : i = ((o.qs m).bkts t).length - 1 := by omega
        subst this
        rw [b5] at hnget
        exact hxn (Option.some.inj hnget)
    · intro x hx hxn _
      rw [Function.update_of_ne hxn]
  · dsimp only; rw [Function.update_self]
  · intro x hx
    have : x ≠ n := by rintro rfl; exact hx c1
    dsimp only; rw [Function.update_of_ne this]

theorem preUpdate_rep {o : Open α} {C : Finset α} (r : Rep o C) {n : α} (hn : n ∈ C) :
    ∃ o', preUpdate o n = .ok o' ∧ Rep o' (C.erase n) ∧ o'.ind n = -1 ∧
      (∀ x, x ∉ C → o'.ind x = o.ind x) ∧ o'.prio = o.prio ∧ o'.tie = o.tie := by
  obtain ⟨p, t, i, a1, a2, a3, a4, a5⟩ := r.loc n hn
  obtain ⟨-, -, -, hi⟩ := r.bk p t i n a1 a2 a5
  have hilt := (List.getElem?_eq_some_iff.1 a5).1
  have hne : (o.qs p).bkts t ≠ [] := List.ne_nil_of_length_pos (by omega)
  set l := (o.qs p).bkts t with hl
  have hlast : l.getLast? = some (l.getLast hne) := List.getLast?_eq_some_getLast hne
  set last := l.getLast hne with hlastdef
  have hlget : l[l.length - 1]? = some last := by rw [← hlast, List.getLast?_eq_getElem?]
  obtain ⟨b1, b2, b3, b4⟩ := r.bk p t _ last a1 a2 hlget
  have hmax := r.max
  set l' := (if l.length > 1 then l.set i last else l).dropLast with hl'
  set ind' := Function.update (if l.length > 1 then Function.update o.ind last (i : Int) else o.ind) n (-1) with hind'
  refine ⟨{ o with min := o.min, fill := o.fill - 1, ind := ind', qs := Function.update o.qs p (shrunk (o.qs p) (o.qs p).max t l') }, ?_, ?_, ?_, ?_, rfl, rfl⟩
  · unfold preUpdate
    rw [if_neg (by omega), if_neg (by omega), if_neg (by omega)]
    simp only [a3, a4, Int.toNat_natCast, Maxq.rm]
    rw [if_neg (by omega), ← hl, if_neg (by omega)]
    simp only [hlast, hi, Int.toNat_natCast, Outcome.map_ok]
    rfl
  · have hget : ∀ j : Nat, l'[j]? = if j < l.length - 1 then (if j = i then some last else l[j]?) else none := by
      intro j
      rw [hl', List.getElem?_dropLast]
      by_cases h1 : l.length > 1
      · simp only [h1, if_true, List.length_set, List.getElem?_set]
        split_ifs <;> first | rfl | omega
      · simp only [h1, if_false]
        rw [if_neg (by omega), if_neg (by omega)]
    have hlastn : last = n → i = l.length - 1 := by
      intro e
      rw [e, hi] at b4
      omega
    apply remove_rep r hn a3 a4 o.min (o.qs p).max (le_refl _) (fun x hx hp => hmax x hx p hp)
      (fun x hx _ => r.min x hx)
    · intro j x hx
      rw [hget] at hx
      split_ifs at hx with h1 h2
      · subst h2
        simp only [Option.some.injEq] at hx
        subst hx
        have : last ≠ n := fun e => by have := hlastn e; omega
        refine ⟨this, b1, b2, b3, ?_⟩
        rw [hind', Function.update_of_ne this, if_pos (by omega), Function.update_self]
      · obtain ⟨c1, c2, c3, c4⟩ := r.bk p t j x a1 a2 hx
        have hxn : x ≠ n := by rintro rfl; omega
        have hxl : x ≠ last := by intro e; rw [e] at c4; omega
        refine ⟨hxn, c1, c2, c3, ?_⟩
        rw [hind', Function.update_of_ne hxn]
        split_ifs
        · rw [Function.update_of_ne hxl]; exact c4
        · exact c4
    · intro x hx hxn hpx htx
      obtain ⟨p2, t2, j, c1, c2, c3, c4, c5⟩ := r.loc x hx
      have : p2 = p := by omega
      subst this
      have : t2 = t := by omega
      subst this
      have hj := (List.getElem?_eq_some_iff.1 c5).1
      rw [← hl] at c5 hj
      have hji : j ≠ i := by
        rintro rfl
        rw [a5] at c5
        exact hxn (Option.some.inj c5).symm
      by_cases hjl : j = l.length - 1
      · refine ⟨i, ?_⟩
        rw [hget, if_pos (by omega), if_pos rfl, ← hlget, ← hjl, c5]
      · refine ⟨j, ?_⟩
        rw [hget, if_pos (by omega), if_neg hji, c5]
    · intro x hx hxn hnot
      rw [hind', Function.update_of_ne hxn]
      split_ifs
      · rw [Function.update_of_ne]
        rintro rfl
        exact hnot ⟨b2, b3⟩
      · rfl
  · dsimp only; rw [hind', Function.update_self]
  · intro x hx
    have h1 : x ≠ n := by rintro rfl; exact hx hn
    have h2 : x ≠ last := by intro e; rw [e] at hx; exact hx b1
    dsimp only
    rw [hind', Function.update_of_ne h1]
    split_ifs
    · rw [Function.update_of_ne h2]
    · rfl

end Verif.BucketOpen
