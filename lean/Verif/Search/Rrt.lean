import Verif.Search.BestFirst
import Verif.Search.Limits
import Verif.Structs.KdTree

/-!
# Model of search/rrt.hpp: rapidly exploring random trees

* The random numbers are a list of sample points; the search is still going on when they are used up.
* A node is its number in the order of construction; the k-d tree (structs/kdtree.hpp, C12, C13) has these numbers as data.
* Coordinates are exact, so the infinity that `dist` starts with (line 67) is larger than every distance.
* `drawtree` is left out.
-/

namespace Verif.Rrt

open Verif.Search (Dom)
open Verif.KdTree (Pt Kd)

variable {S O C F : Type*} {k : Nat}

/-- rrt.hpp:20-26 `Node`; the operator of the root is never set. -/
structure Node (S O : Type*) where
  parent : Option Nat
  state : S
  op : Option O
  ops : List O

/-- The members of the search object: the nodes constructed so far, of which the first `dead` have been destroyed again,
the tree, and the statistics. -/
structure St (S O F : Type*) (k : Nat) where
  nodes : List (Node S O)
  dead : Nat
  tree : Kd F k Nat
  expd : Nat
  gend : Nat

section Model
variable [DecidableEq O] [Field F] [LinearOrder F]

/-- A new search object. -/
def fresh : St S O F k := ⟨[], 0, KdTree.init, 0, 0⟩

/-- rrt.hpp:46-54: the root. -/
def begin (vec : S → Pt F k) (s0 : S) (x : St S O F k) : St S O F k :=
  { x with
    nodes := x.nodes ++ [⟨none, s0, none, []⟩]
    tree := KdTree.insert x.tree (vec s0) x.nodes.length }

/-- What the loop over the operators ends with. -/
inductive Scan (S O F : Type*) (k : Nat)
  /-- 77-81: a goal. -/
  | goal (o : O) (t : S)
  /-- 84-94: the best successor, if any. -/
  | best (b : Option (O × S × Pt F k))

/-- rrt.hpp:70-95: the loop over the operators of state `s`, of which those of `used` are skipped; `b` is the best successor
so far; the first component counts `gend`. -/
def scan (d : Dom S O C) (vec : S → Pt F k) (q : Pt F k) (s : S) (used : List O) :
    List O → Nat → Option (O × S × Pt F k) → Nat × Scan S O F k
  | [], n, b => (n, .best b)
  | o :: os, n, b =>
    if o ∈ used then scan d vec q s used os (n + 1) b
    else
      let t := d.app s o
      if d.goal t = true then (n + 1, .goal o t)
      else
        let closer := match b with
          | none => true
          | some (_, _, p) => decide (KdTree.sqdist q (vec t) < KdTree.sqdist q p)
        scan d vec q s used os (n + 1) (if closer = true then some (o, t, vec t) else b)

/-- search.hpp:297-306 `solpath`: states and operators, last node first. -/
def solpath (nodes : List (Node S O)) : Nat → Nat → Outcome (List S × List (Option O))
  | 0, _ => .nofuel
  | fuel + 1, n =>
    match nodes[n]? with
    | none => .ub
    | some v => match v.parent with
      | none => .ok ([v.state], [])
      | some m => (solpath nodes fuel m).map fun r => (v.state :: r.1, v.op :: r.2)

/-- What an iteration ends with. -/
inductive Res (S O F : Type*) (k : Nat)
  | on (x : St S O F k)
  | found (x : St S O F k) (r : List S × List (Option O))
  /-- The entry of the tree is one of an earlier search.  Its node has been destroyed: reading it is undefined, or, if the
  pool has given the memory to a new node by now, the code takes that node for the one it has looked for. -/
  | stale

/-- rrt.hpp:57-104: one iteration with the sample `q`.  `.ub`: `nearest` has given `NULL`. -/
def step (d : Dom S O C) (vec : S → Pt F k) (q : Pt F k) (x : St S O F k) : Outcome (Res S O F k) :=
  match KdTree.nearest x.tree q with
  | none => .ub
  | some near =>
    if near.2 < x.dead then .ok .stale
    else match x.nodes[near.2]? with
      | none => .ub
      | some v =>
        let r := scan d vec q v.state v.ops (d.ops v.state) 0 none
        let x := { x with expd := x.expd + 1, gend := x.gend + r.1 }
        match r.2 with
        | .goal o t =>
          let nodes := x.nodes ++ [⟨some near.2, t, some o, []⟩]
          (solpath nodes (x.nodes.length + 1) x.nodes.length).map (.found { x with nodes := nodes })
        | .best none => .ok (.on x)
        | .best (some (o, t, p)) =>
          .ok (.on { x with
            nodes := (x.nodes.set near.2 { v with ops := o :: v.ops }) ++ [⟨some near.2, t, some o, []⟩]
            tree := KdTree.insert x.tree p x.nodes.length })

/-- rrt.hpp:56-105: the iterations with the samples `qs`. -/
def loop (d : Dom S O C) (vec : S → Pt F k) : List (Pt F k) → St S O F k → Outcome (Res S O F k)
  | [], x => .ok (.on x)
  | q :: qs, x => (step d vec q x).bind fun
    | .on y => loop d vec qs y
    | .found y r => .ok (.found y r)
    | .stale => .ok .stale

/-- rrt.hpp:43-111 `search`. -/
def search (d : Dom S O C) (vec : S → Pt F k) (s0 : S) (qs : List (Pt F k)) (x : St S O F k) : Outcome (Res S O F k) :=
  loop d vec qs (begin vec s0 x)

/-- rrt.hpp:113-117 `reset`: the nodes are destroyed, the tree is not emptied. -/
def reset (x : St S O F k) : St S O F k := { x with dead := x.nodes.length, expd := 0, gend := 0 }

end Model

/-- rrt.hpp:28-39: the seed; `bits` is what `randgen` gives.  `argv[i++]` is the option itself. -/
def seed (bits : Nat) : List Str.Str → Nat
  | w :: v :: rest => if w = "-s".toList then seed (Limits.strtoul w) rest else seed bits (v :: rest)
  | _ => bits

/-! ## Invariant -/

section Proofs
variable [DecidableEq O] [Field F] [LinearOrder F] [IsStrictOrderedRing F] {d : Dom S O C}
  {vec : S → Pt F k}

/-- How a node hangs below an earlier one. -/
def Hangs (d : Dom S O C) (nodes : List (Node S O)) (i : Nat) (v : Node S O) : Prop :=
  ∃ j o u, v.parent = some j ∧ j < i ∧ nodes[j]? = some u ∧ v.op = some o ∧ o ∈ d.ops u.state ∧
    v.state = d.app u.state o ∧ o ∈ u.ops

/-- The invariant of the loop, for an object none of whose nodes is destroyed. -/
structure Inv (d : Dom S O C) (vec : S → Pt F k) (s0 : S) (x : St S O F k) : Prop where
  dead : x.dead = 0
  pos : 0 < x.nodes.length
  root : ∃ v, x.nodes[0]? = some v ∧ v.parent = none ∧ v.state = s0
  hang : ∀ (i : Nat) (v : Node S O), x.nodes[i]? = some v → i ≠ 0 → Hangs d x.nodes i v
  uniq : ∀ (i i' : Nat) (v v' : Node S O), x.nodes[i]? = some v → x.nodes[i']? = some v' → i ≠ 0 → v.parent = v'.parent → v.op = v'.op → i = i'
  ops : ∀ (i : Nat) (v : Node S O) (o : O), x.nodes[i]? = some v → o ∈ v.ops →
    ∃ (i' : Nat) (v' : Node S O), x.nodes[i']? = some v' ∧ v'.parent = some i ∧ v'.op = some o
  ng : ∀ (i : Nat) (v : Node S O), x.nodes[i]? = some v → i ≠ 0 → d.goal v.state = false
  perm : (KdTree.toList x.tree.root).Perm (x.nodes.zipIdx.map fun v => (vec v.1.state, v.2))
  ord : KdTree.Ordered x.tree.root

theorem mem_points {x : St S O F k} {s0 : S} (h : Inv d vec s0 x) {y : Pt F k × Nat} :
    y ∈ KdTree.toList x.tree.root ↔ ∃ v, x.nodes[y.2]? = some v ∧ vec v.state = y.1 := by
  rw [h.perm.mem_iff, List.mem_map]
  constructor
  · rintro ⟨⟨v, i⟩, h1, h2⟩
    rw [List.mem_zipIdx_iff_getElem?] at h1
    subst h2
    exact ⟨v, h1, rfl⟩
  · rintro ⟨v, h1, h2⟩
    refine ⟨(v, y.2), by rw [List.mem_zipIdx_iff_getElem?]; exact h1, ?_⟩
    rw [h2]

/-- The node found by `nearest`. -/
theorem nearest_ok {x : St S O F k} {s0 : S} (h : Inv d vec s0 x) (q : Pt F k) :
    ∃ near v, KdTree.nearest x.tree q = some near ∧ x.nodes[near.2]? = some v ∧ vec v.state = near.1 ∧
      ∀ (j : Nat) (u : Node S O), x.nodes[j]? = some u → KdTree.sqdist near.1 q ≤ KdTree.sqdist (vec u.state) q := by
  have hs := KdTree.nearestAt_spec h.ord q ⊤
  cases hn : KdTree.nearest x.tree q with
  | none =>
    exfalso
    obtain ⟨-, h1⟩ := hs.1 hn
    obtain ⟨v, hv, -⟩ := h.root
    have := h1 (vec v.state, 0) ((mem_points h).2 ⟨v, hv, rfl⟩)
    exact absurd le_top (not_le.2 this)
  | some near =>
    obtain ⟨h1, h2, -, h4⟩ := hs.2 near hn
    obtain ⟨v, hv, e⟩ := (mem_points h).1 h1
    refine ⟨near, v, rfl, hv, e, fun j u hu => ?_⟩
    have := h4 (vec u.state, j) ((mem_points h).2 ⟨u, hu, rfl⟩)
    rw [h2, WithTop.coe_le_coe] at this
    exact this

/-- What the scan finds: a goal, or a successor by an unused operator that is nearest to the sample. -/
theorem scan_spec (q : Pt F k) (s : S) (used : List O) (os : List O) (n : Nat) (b : Option (O × S × Pt F k)) :
    (scan d vec q s used os n b).1 ≤ n + os.length ∧
    (∀ o t, (scan d vec q s used os n b).2 = .goal o t → o ∈ os ∧ o ∉ used ∧ t = d.app s o ∧ d.goal t = true) ∧
    (∀ b', (scan d vec q s used os n b).2 = .best b' →
      (scan d vec q s used os n b).1 = n + os.length ∧
      (∀ o ∈ os, o ∉ used → d.goal (d.app s o) = false) ∧
      (b' = b ∨ ∃ o ∈ os, o ∉ used ∧ b' = some (o, d.app s o, vec (d.app s o))) ∧
      (b' = none → b = none ∧ ∀ o ∈ os, o ∈ used) ∧
      ∀ o t p, b' = some (o, t, p) →
        (∀ o' t' p', b = some (o', t', p') → KdTree.sqdist q p ≤ KdTree.sqdist q p') ∧
        ∀ o' ∈ os, o' ∉ used → KdTree.sqdist q p ≤ KdTree.sqdist q (vec (d.app s o'))) := by
  induction os generalizing n b with
  | nil =>
    refine ⟨le_rfl, fun o t h => by simp [scan] at h, fun b' h => ?_⟩
    simp only [scan, Scan.best.injEq] at h
    subst h
    refine ⟨rfl, by simp, .inl rfl, fun e => ⟨e, by simp⟩, fun o t p e => ⟨fun o' t' p' e' => ?_, by simp⟩⟩
    rw [e] at e'
    simp only [Option.some.injEq, Prod.mk.injEq] at e'
    rw [e'.2.2]
  | cons o os ih =>
    rw [scan]
    by_cases hu : o ∈ used
    · rw [if_pos hu]
      obtain ⟨h1, h2, h3⟩ := ih (n + 1) b
      refine ⟨by rw [List.length_cons]; omega, fun o' t h => ?_, fun b' h => ?_⟩
      · obtain ⟨e1, e2⟩ := h2 o' t h
        exact ⟨List.mem_cons_of_mem _ e1, e2⟩
      · obtain ⟨e0, e1, e2, e3, e4⟩ := h3 b' h
        refine ⟨by rw [List.length_cons, e0]; omega, fun o' ho' hn => ?_, ?_, fun e => ?_, fun o' t p e => ?_⟩
        · rcases List.mem_cons.1 ho' with rfl | ho'
          · exact absurd hu hn
          · exact e1 o' ho' hn
        · rcases e2 with e2 | ⟨o', f1, f2⟩
          · exact .inl e2
          · exact .inr ⟨o', List.mem_cons_of_mem _ f1, f2⟩
        · obtain ⟨f1, f2⟩ := e3 e
          refine ⟨f1, fun o' ho' => ?_⟩
          rcases List.mem_cons.1 ho' with rfl | ho'
          · exact hu
          · exact f2 o' ho'
        · obtain ⟨f1, f2⟩ := e4 o' t p e
          refine ⟨f1, fun o'' ho' hn => ?_⟩
          rcases List.mem_cons.1 ho' with rfl | ho'
          · exact absurd hu hn
          · exact f2 o'' ho' hn
    · rw [if_neg hu]
      dsimp only
      by_cases hg : d.goal (d.app s o) = true
      · rw [if_pos hg]
        refine ⟨by rw [List.length_cons]; simp, fun o' t h => ?_, fun b' h => by simp at h⟩
        simp only [Scan.goal.injEq] at h
        obtain ⟨rfl, rfl⟩ := h
        exact ⟨List.mem_cons_self, hu, rfl, hg⟩
      · rw [if_neg hg]
        have hg' : d.goal (d.app s o) = false := by simpa using hg
        -- the new best
        generalize hnb : (if (match b with
          | none => true
          | some (_, _, p) => decide (KdTree.sqdist q (vec (d.app s o)) < KdTree.sqdist q p)) = true then
            some (o, d.app s o, vec (d.app s o)) else b) = nb
        have hnb1 : nb = b ∨ nb = some (o, d.app s o, vec (d.app s o)) := by
          rw [← hnb]
          exact (ite_eq_or_eq _ _ _).symm
        have hnb2 : ∃ o' t' p', nb = some (o', t', p') ∧ KdTree.sqdist q p' ≤ KdTree.sqdist q (vec (d.app s o)) ∧
            ∀ o'' t'' p'', b = some (o'', t'', p'') → KdTree.sqdist q p' ≤ KdTree.sqdist q p'' := by
          rw [← hnb]
          cases b with
          | none => exact ⟨_, _, _, rfl, le_rfl, by simp⟩
          | some b =>
            obtain ⟨o1, t1, p1⟩ := b
            dsimp only
            by_cases hlt : KdTree.sqdist q (vec (d.app s o)) < KdTree.sqdist q p1
            · rw [if_pos (by simpa using hlt)]
              refine ⟨_, _, _, rfl, le_rfl, fun o'' t'' p'' e => ?_⟩
              simp only [Option.some.injEq, Prod.mk.injEq] at e
              rw [← e.2.2]
              exact hlt.le
            · rw [if_neg (by simpa using hlt)]
              refine ⟨_, _, _, rfl, not_lt.1 hlt, fun o'' t'' p'' e => ?_⟩
              simp only [Option.some.injEq, Prod.mk.injEq] at e
              rw [e.2.2]
        obtain ⟨h1, h2, h3⟩ := ih (n + 1) nb
        refine ⟨by rw [List.length_cons]; omega, fun o' t h => ?_, fun b' h => ?_⟩
        · obtain ⟨e1, e2⟩ := h2 o' t h
          exact ⟨List.mem_cons_of_mem _ e1, e2⟩
        · obtain ⟨e0, e1, e2, e3, e4⟩ := h3 b' h
          obtain ⟨o1, t1, p1, n1, n2, n3⟩ := hnb2
          refine ⟨by rw [List.length_cons, e0]; omega, fun o' ho' hn => ?_, ?_, fun e => ?_, fun o' t p e => ?_⟩
          · rcases List.mem_cons.1 ho' with rfl | ho'
            · exact hg'
            · exact e1 o' ho' hn
          · rcases e2 with e2 | ⟨o', f1, f2⟩
            · rcases hnb1 with f | f
              · exact .inl (e2.trans f)
              · exact .inr ⟨o, List.mem_cons_self, hu, e2.trans f⟩
            · exact .inr ⟨o', List.mem_cons_of_mem _ f1, f2⟩
          · rw [(e3 e).1] at n1
            exact absurd n1 (by simp)
          · obtain ⟨f1, f2⟩ := e4 o' t p e
            have f3 := f1 _ _ _ n1
            refine ⟨fun o'' t'' p'' e' => f3.trans (n3 _ _ _ e'), fun o'' ho' hn => ?_⟩
            rcases List.mem_cons.1 ho' with rfl | ho'
            · exact f3.trans n2
            · exact f2 o'' ho' hn

theorem inv_begin (s0 : S) : Inv d vec s0 (begin vec s0 (fresh : St S O F k)) := by
  have h0 : ∀ i (v : Node S O), (begin vec s0 (fresh : St S O F k)).nodes[i]? = some v → i = 0 ∧ v = ⟨none, s0, none, []⟩ := by
    intro i v h
    rcases i with _ | i
    · simp [begin, fresh] at h
      exact ⟨rfl, h.symm⟩
    · simp [begin, fresh] at h
  refine ⟨rfl, by simp [begin, fresh], ⟨_, rfl, rfl, rfl⟩, fun i v h hi => absurd (h0 i v h).1 hi,
    fun i i' v v' h _ hi => absurd (h0 i v h).1 hi, fun i v o h ho => ?_,
    fun i v h hi => absurd (h0 i v h).1 hi, ?_, ?_⟩
  · rw [(h0 i v h).2] at ho
    exact absurd ho (by simp)
  · exact List.Perm.refl _
  · exact KdTree.insertAt_ordered (t := .nil) trivial 0 _ _

theorem zipIdx_set_map {α β : Type*} (f : α × Nat → β) (l : List α) (j : Nat) (a a' : α) (h : l[j]? = some a)
    (hf : f (a', j) = f (a, j)) : ((l.set j a').zipIdx.map f) = l.zipIdx.map f := by
  apply List.ext_getElem?
  intro i
  rw [List.getElem?_map, List.getElem?_map, List.getElem?_zipIdx, List.getElem?_zipIdx, List.getElem?_set]
  by_cases e : j = i
  · subst e
    obtain ⟨hl, hv⟩ := List.getElem?_eq_some_iff.1 h
    rw [if_pos rfl, if_pos hl, h]
    simp [hf]
  · rw [if_neg e]

/-- Adding a node below `j` by the operator `o`. -/
theorem inv_add {x : St S O F k} {s0 : S} (h : Inv d vec s0 x) {j : Nat} {v : Node S O} {o : O}
    (hv : x.nodes[j]? = some v) (ho : o ∈ d.ops v.state) (hu : o ∉ v.ops) (hg : d.goal (d.app v.state o) = false)
    (e g : Nat) :
    Inv d vec s0 { x with
      nodes := (x.nodes.set j { v with ops := o :: v.ops }) ++ [⟨some j, d.app v.state o, some o, []⟩]
      tree := KdTree.insert x.tree (vec (d.app v.state o)) x.nodes.length, expd := e, gend := g } := by
  obtain ⟨hj, hjv⟩ := List.getElem?_eq_some_iff.1 hv
  -- the new list
  have hget : ∀ (i : Nat) (w : Node S O), ((x.nodes.set j { v with ops := o :: v.ops }) ++
      [(⟨some j, d.app v.state o, some o, []⟩ : Node S O)])[i]? = some w ↔
      (i = j ∧ w = { v with ops := o :: v.ops }) ∨ (i ≠ j ∧ x.nodes[i]? = some w) ∨
        (i = x.nodes.length ∧ w = ⟨some j, d.app v.state o, some o, []⟩) := by
    intro i w
    rcases lt_trichotomy i x.nodes.length with hi | hi | hi
    · rw [List.getElem?_append_left (by simpa using hi), List.getElem?_set]
      by_cases e : j = i
      · subst e
        rw [if_pos rfl, if_pos hj]
        constructor
        · intro h; exact .inl ⟨rfl, (Option.some.inj h).symm⟩
        · rintro (⟨-, rfl⟩ | ⟨h1, -⟩ | ⟨h1, -⟩)
          · rfl
          · exact absurd rfl h1
          · omega
      · rw [if_neg e]
        constructor
        · intro h; exact .inr (.inl ⟨fun e' => e e'.symm, h⟩)
        · rintro (⟨h1, -⟩ | ⟨-, h1⟩ | ⟨h1, -⟩)
          · exact absurd h1.symm e
          · exact h1
          · omega
    · rw [List.getElem?_append_right (by simp [hi])]
      simp only [List.length_set, hi, Nat.sub_self, List.getElem?_cons_zero, Option.some.injEq]
      constructor
      · intro h; exact .inr (.inr ⟨trivial, h.symm⟩)
      · rintro (⟨h1, -⟩ | ⟨-, h1⟩ | ⟨-, h1⟩)
        · omega
        · rw [List.getElem?_eq_none (by omega)] at h1; exact absurd h1 (by simp)
        · exact h1.symm
    · rw [List.getElem?_eq_none (by simp; omega)]
      constructor
      · intro h; exact absurd h (by simp)
      · rintro (⟨h1, -⟩ | ⟨-, h1⟩ | ⟨h1, -⟩)
        · omega
        · rw [List.getElem?_eq_none (by omega)] at h1; exact absurd h1 (by simp)
        · omega
  -- old nodes seen as new ones
  have hold : ∀ (i : Nat) (w : Node S O), x.nodes[i]? = some w → ∃ w' : Node S O, ((x.nodes.set j { v with ops := o :: v.ops }) ++
      [(⟨some j, d.app v.state o, some o, []⟩ : Node S O)])[i]? = some w' ∧ w'.parent = w.parent ∧ w'.state = w.state ∧
        w'.op = w.op ∧ ∀ p ∈ w.ops, p ∈ w'.ops := by
    intro i w hw
    by_cases e : i = j
    · subst e
      rw [hv] at hw
      obtain rfl := Option.some.inj hw
      exact ⟨_, (hget _ _).2 (.inl ⟨rfl, rfl⟩), rfl, rfl, rfl, fun p hp => List.mem_cons_of_mem _ hp⟩
    · exact ⟨w, (hget _ _).2 (.inr (.inl ⟨e, hw⟩)), rfl, rfl, rfl, fun p hp => hp⟩
  -- new nodes seen as old ones
  have hnew : ∀ (i : Nat) (w : Node S O), ((x.nodes.set j { v with ops := o :: v.ops }) ++
      [(⟨some j, d.app v.state o, some o, []⟩ : Node S O)])[i]? = some w →
      (∃ w' : Node S O, x.nodes[i]? = some w' ∧ w'.parent = w.parent ∧ w'.state = w.state ∧ w'.op = w.op ∧
        ∀ p ∈ w.ops, p ∈ w'.ops ∨ (i = j ∧ p = o)) ∨
        (i = x.nodes.length ∧ w = ⟨some j, d.app v.state o, some o, []⟩) := by
    intro i w hw
    rcases (hget i w).1 hw with ⟨rfl, rfl⟩ | ⟨h1, h2⟩ | h1
    · exact .inl ⟨v, hv, rfl, rfl, rfl, fun p hp => (List.mem_cons.1 hp).elim (fun e => .inr ⟨rfl, e⟩) .inl⟩
    · exact .inl ⟨w, h2, rfl, rfl, rfl, fun p hp => .inl hp⟩
    · exact .inr h1
  have hlt : ∀ (i : Nat) (w : Node S O), x.nodes[i]? = some w → i < x.nodes.length := fun i w hw =>
    (List.getElem?_eq_some_iff.1 hw).1
  refine ⟨h.dead, by simp, ?_, ?_, ?_, ?_, ?_, ?_, KdTree.insertAt_ordered h.ord 0 _ _⟩
  · obtain ⟨w, h1, h2, h3⟩ := h.root
    obtain ⟨w', e1, e2, e3, -⟩ := hold 0 w h1
    exact ⟨w', e1, e2.trans h2, e3.trans h3⟩
  · intro i w hw hi
    rcases hnew i w hw with ⟨w', e1, e2, e3, e4, -⟩ | ⟨e1, e2⟩
    · obtain ⟨j', o', u, f1, f2, f3, f4, f5, f6, f7⟩ := h.hang i w' e1 hi
      obtain ⟨u', g1, g2, g3, g4, g5⟩ := hold j' u f3
      exact ⟨j', o', u', e2 ▸ f1, f2, g1, e4 ▸ f4, by rw [g3]; exact f5, by rw [← e3, f6, g3], g5 _ f7⟩
    · subst e2
      exact ⟨j, o, _, rfl, by omega, (hget j _).2 (.inl ⟨rfl, rfl⟩), rfl, ho, rfl, List.mem_cons_self⟩
  · intro i i' w w' hw hw' hi hp hop
    have hfresh : ∀ (i : Nat) (w : Node S O), x.nodes[i]? = some w → w.parent = some j → w.op = some o → False := by
      intro i w hw e1 e2
      have hi0 : i ≠ 0 := by
        rintro rfl
        obtain ⟨w0, r1, r2, -⟩ := h.root
        rw [hw] at r1
        obtain rfl := Option.some.inj r1
        rw [r2] at e1
        exact absurd e1 (by simp)
      obtain ⟨j', o', u, f1, f2, f3, f4, f5, f6, f7⟩ := h.hang i w hw hi0
      rw [e1] at f1
      obtain rfl := Option.some.inj f1
      rw [e2] at f4
      obtain rfl := Option.some.inj f4
      rw [hv] at f3
      obtain rfl := Option.some.inj f3
      exact hu f7
    rcases hnew i w hw with ⟨u, a1, a2, a3, a4, -⟩ | ⟨a1, a2⟩ <;>
      rcases hnew i' w' hw' with ⟨u', b1, b2, b3, b4, -⟩ | ⟨b1, b2⟩
    · exact h.uniq i i' u u' a1 b1 hi (a2.trans (hp.trans b2.symm)) (a4.trans (hop.trans b4.symm))
    · subst b2
      exact (hfresh i u a1 (a2.trans hp) (a4.trans hop)).elim
    · subst a2
      exact (hfresh i' u' b1 (b2.trans hp.symm) (b4.trans hop.symm)).elim
    · omega
  · intro i w p hw hp
    have hlast := (hget x.nodes.length _).2 (.inr (.inr ⟨rfl, rfl⟩))
    rcases hnew i w hw with ⟨w', e1, e2, e3, e4, e5⟩ | ⟨e1, e2⟩
    · rcases e5 p hp with e5 | ⟨rfl, rfl⟩
      · obtain ⟨i', u, f1, f2, f3⟩ := h.ops i w' p e1 e5
        obtain ⟨u', g1, g2, g3, g4, -⟩ := hold i' u f1
        exact ⟨i', u', g1, g2.trans f2, g4.trans f3⟩
      · exact ⟨_, _, hlast, rfl, rfl⟩
    · subst e2
      exact absurd hp (by simp)
  · intro i w hw hi
    rcases hnew i w hw with ⟨w', e1, e2, e3, e4, e5⟩ | ⟨e1, e2⟩
    · rw [← e3]
      exact h.ng i w' e1 hi
    · subst e2
      exact hg
  · dsimp only
    refine (KdTree.insertAt_perm _ _ _ _).trans ?_
    rw [List.zipIdx_append, List.map_append, zipIdx_set_map _ _ _ v _ hv (by simp)]
    refine (h.perm.cons _).trans ?_
    simp only [List.length_set, List.zipIdx_cons, List.zipIdx_nil, List.map_cons, List.map_nil, Nat.zero_add]
    exact (List.perm_append_singleton _ _).symm

theorem inv_stats {x : St S O F k} {s0 : S} (h : Inv d vec s0 x) (e g : Nat) :
    Inv d vec s0 { x with expd := e, gend := g } := ⟨h.dead, h.pos, h.root, h.hang, h.uniq, h.ops, h.ng, h.perm, h.ord⟩

/-- The path to a node. -/
theorem solpath_spec {nodes : List (Node S O)} {s0 : S}
    [AddCommGroup C] [LinearOrder C] [IsOrderedAddMonoid C]
    (root : ∃ v, nodes[0]? = some v ∧ v.parent = none ∧ v.state = s0)
    (hang : ∀ i v, nodes[i]? = some v → i ≠ 0 → ∃ j o u, v.parent = some j ∧ j < i ∧ nodes[j]? = some u ∧ v.op = some o ∧
      o ∈ d.ops u.state ∧ v.state = d.app u.state o)
    (i : Nat) (v : Node S O) (hv : nodes[i]? = some v) (fuel : Nat) (hf : i < fuel) :
    ∃ (r : List S × List (Option O)) (os : List O) (ss : List S) (c : C), solpath nodes fuel i = .ok r ∧ r.2 = os.map some ∧ r.1.reverse = s0 :: ss ∧
      Search.Plan d s0 os.reverse ss c ∧ r.1.head? = some v.state := by
  induction i using Nat.strong_induction_on generalizing v fuel with
  | _ i ih =>
  obtain ⟨fuel, rfl⟩ : ∃ f, fuel = f + 1 := ⟨fuel - 1, by omega⟩
  rw [solpath, hv]
  dsimp only
  rcases Nat.eq_zero_or_pos i with rfl | hi
  · obtain ⟨v0, h1, h2, h3⟩ := root
    rw [hv] at h1
    obtain rfl := Option.some.inj h1
    rw [h2]
    exact ⟨_, [], [], 0, rfl, rfl, by simp [h3], .nil _, rfl⟩
  · obtain ⟨j, o, u, h1, h2, h3, h4, h5, h6⟩ := hang i v hv (by omega)
    obtain ⟨r, os, ss, c, e1, e2, e3, e4, e5⟩ := ih j h2 u h3 fuel (by omega)
    rw [h1]
    dsimp only
    rw [e1]
    refine ⟨_, o :: os, ss ++ [v.state], c + d.cost u.state o, rfl, by simp [e2, h4], ?_, ?_, rfl⟩
    · simp only [List.reverse_cons, e3, List.cons_append]
    · have hl : (s0 :: ss).getLast (by simp) = u.state := by
        have h1 : (s0 :: ss).getLast? = some u.state := by
          rw [← e3, List.getLast?_reverse, e5]
        rw [List.getLast?_eq_some_getLast (by simp)] at h1
        exact Option.some.inj h1
      have := e4.snoc (o := o) (by rw [hl]; exact h5)
      simp only [hl, ← h6] at this
      rw [List.reverse_cons]
      exact this

/-- What a found path is: the states and the operators of a plan with at least one operator, last first, that ends in a
goal. -/
def PathOk [Add C] [Zero C] (d : Dom S O C) (s0 : S) (r : List S × List (Option O)) : Prop :=
  ∃ (os : List O) (ss : List S) (c : C), r.2.reverse = os.map some ∧ r.1.reverse = s0 :: ss ∧ Search.Plan d s0 os ss c ∧
    os ≠ [] ∧ ∃ g, (s0 :: ss).getLast? = some g ∧ d.goal g = true

variable [AddCommGroup C] [LinearOrder C] [IsOrderedAddMonoid C]

/-- The path to a new goal node below `j`. -/
theorem goal_path {nodes : List (Node S O)} {s0 : S}
    (root : ∃ v, nodes[0]? = some v ∧ v.parent = none ∧ v.state = s0)
    (hang : ∀ i v, nodes[i]? = some v → i ≠ 0 → Hangs d nodes i v)
    {j : Nat} {v : Node S O} {o : O} (hv : nodes[j]? = some v) (ho : o ∈ d.ops v.state)
    (hg : d.goal (d.app v.state o) = true) :
    ∃ r, solpath (nodes ++ [⟨some j, d.app v.state o, some o, []⟩]) (nodes.length + 1) nodes.length = .ok r ∧
      PathOk d s0 r := by
  obtain ⟨hj, -⟩ := List.getElem?_eq_some_iff.1 hv
  have hold : ∀ (i : Nat) (w : Node S O), nodes[i]? = some w →
      (nodes ++ [(⟨some j, d.app v.state o, some o, []⟩ : Node S O)])[i]? = some w := by
    intro i w hw
    rw [List.getElem?_append_left (List.getElem?_eq_some_iff.1 hw).1]
    exact hw
  have hlast : (nodes ++ [(⟨some j, d.app v.state o, some o, []⟩ : Node S O)])[nodes.length]? =
      some ⟨some j, d.app v.state o, some o, []⟩ := by
    rw [List.getElem?_append_right le_rfl, Nat.sub_self]
    rfl
  obtain ⟨r, os, ss, c, e1, e2, e3, e4, e5⟩ := solpath_spec (d := d) (s0 := s0)
    (nodes := nodes ++ [⟨some j, d.app v.state o, some o, []⟩])
    (by obtain ⟨w, h1, h2⟩ := root; exact ⟨w, hold 0 w h1, h2⟩)
    (fun i w hw hi => by
      rcases lt_or_ge i nodes.length with h | h
      · rw [List.getElem?_append_left h] at hw
        obtain ⟨j', o', u, f1, f2, f3, f4, f5, f6, -⟩ := hang i w hw hi
        exact ⟨j', o', u, f1, f2, hold _ _ f3, f4, f5, f6⟩
      · have hi' : i = nodes.length := by
          have := (List.getElem?_eq_some_iff.1 hw).1
          simp at this
          omega
        subst hi'
        rw [hlast] at hw
        obtain rfl := Option.some.inj hw
        exact ⟨j, o, v, rfl, hj, hold _ _ hv, rfl, ho, rfl⟩)
    nodes.length _ hlast (nodes.length + 1) (by omega)
  refine ⟨r, e1, os.reverse, ss, c, by rw [e2, List.map_reverse], e3, e4, ?_, _, ?_, hg⟩
  · rintro he
    have hl : r.2.length + 1 = r.1.length := by
      have := e4.length
      have h3 := congrArg List.length e3
      simp only [List.length_reverse, List.length_cons] at h3 this
      rw [e2, h3, List.length_map]
      omega
    rw [e2, List.reverse_eq_nil_iff.1 he] at hl
    -- a path of one state would be that of the root
    rw [solpath, hlast] at e1
    obtain ⟨r', h1, rfl⟩ := Outcome.map_eq_ok.1 e1
    simp only [List.length_cons, List.map_nil, List.length_nil] at hl
    have : os = [] := List.reverse_eq_nil_iff.1 he
    rw [this] at e2
    exact absurd e2 (by simp)
  · rw [← e3, List.getLast?_reverse, e5]

/-- One iteration. -/
theorem step_spec {x : St S O F k} {s0 : S} (h : Inv d vec s0 x) (q : Pt F k) :
    ∃ (n : Nat) (v : Node S O), x.nodes[n]? = some v ∧
      (∀ (j : Nat) (u : Node S O), x.nodes[j]? = some u →
        KdTree.sqdist (vec v.state) q ≤ KdTree.sqdist (vec u.state) q) ∧
      ((∃ y r, step d vec q x = .ok (.found y r) ∧ PathOk d s0 r ∧ y.expd = x.expd + 1 ∧
          ∃ o ∈ d.ops v.state, o ∉ v.ops ∧ d.goal (d.app v.state o) = true ∧
          r.1.head? = some (d.app v.state o) ∧ y.gend ≤ x.gend + (d.ops v.state).length) ∨
        (∀ o ∈ d.ops v.state, o ∉ v.ops → d.goal (d.app v.state o) = false) ∧
        ((step d vec q x = .ok (.on { x with expd := x.expd + 1, gend := x.gend + (d.ops v.state).length }) ∧
            ∀ o ∈ d.ops v.state, o ∈ v.ops) ∨
          ∃ o ∈ d.ops v.state, o ∉ v.ops ∧
            (∀ o' ∈ d.ops v.state, o' ∉ v.ops →
              KdTree.sqdist q (vec (d.app v.state o)) ≤ KdTree.sqdist q (vec (d.app v.state o'))) ∧
            step d vec q x = .ok (.on { x with
              nodes := (x.nodes.set n { v with ops := o :: v.ops }) ++ [⟨some n, d.app v.state o, some o, []⟩]
              tree := KdTree.insert x.tree (vec (d.app v.state o)) x.nodes.length
              expd := x.expd + 1, gend := x.gend + (d.ops v.state).length }))) := by
  obtain ⟨near, v, h1, h2, h3, h4⟩ := nearest_ok h q
  refine ⟨near.2, v, h2, fun j u hu => h3 ▸ h4 j u hu, ?_⟩
  obtain ⟨s1, s2, s3⟩ := scan_spec (d := d) (vec := vec) q v.state v.ops (d.ops v.state) 0 none
  have hd : ¬ near.2 < x.dead := by rw [h.dead]; omega
  obtain ⟨z, hz⟩ : ∃ z, step d vec q x = z := ⟨_, rfl⟩
  have hstep := hz
  rw [step, h1] at hstep
  dsimp only at hstep
  rw [if_neg hd, h2] at hstep
  dsimp only at hstep
  cases hs : (scan d vec q v.state v.ops (d.ops v.state) 0 none).2 with
  | goal o t =>
    obtain ⟨e1, e2, e3, e4⟩ := s2 o t hs
    subst e3
    obtain ⟨r, p1, p2⟩ := goal_path h.root h.hang h2 e1 e4
    simp only [hs, p1, Outcome.map_ok] at hstep
    refine .inl ⟨_, r, (hz.trans hstep.symm), p2, rfl, o, e1, e2, e4, ?_, by dsimp only; omega⟩
    rw [solpath, List.getElem?_append_right le_rfl, Nat.sub_self] at p1
    obtain ⟨r', -, rfl⟩ := Outcome.map_eq_ok.1 p1
    rfl
  | best b =>
    obtain ⟨e0, e1, e2, e3, e4⟩ := s3 b hs
    rw [Nat.zero_add] at e0
    refine .inr ⟨e1, ?_⟩
    cases b with
    | none =>
      simp only [hs, e0] at hstep
      exact .inl ⟨(hz.trans hstep.symm), (e3 rfl).2⟩
    | some b =>
      obtain ⟨o, t, p⟩ := b
      rcases e2 with e2 | ⟨o', f1, f2, f3⟩
      · exact absurd e2 (by simp)
      · simp only [Option.some.injEq, Prod.mk.injEq] at f3
        obtain ⟨rfl, rfl, rfl⟩ := f3
        simp only [hs, e0] at hstep
        exact .inr ⟨o, f1, f2, (e4 _ _ _ rfl).2, (hz.trans hstep.symm)⟩

/-- After an iteration. -/
theorem step_inv {x : St S O F k} {s0 : S} (h : Inv d vec s0 x) (q : Pt F k) :
    (∃ y r, step d vec q x = .ok (.found y r) ∧ PathOk d s0 r ∧ y.expd = x.expd + 1) ∨
    ∃ y, step d vec q x = .ok (.on y) ∧ Inv d vec s0 y ∧ y.expd = x.expd + 1 ∧ x.gend ≤ y.gend ∧
      y.nodes.length ≤ x.nodes.length + 1 := by
  obtain ⟨n, v, h1, -, ⟨y, r, e1, e2, e3, -⟩ | ⟨hg, ⟨e, -⟩ | ⟨o, f1, f2, -, f4⟩⟩⟩ := step_spec h q
  · exact .inl ⟨y, r, e1, e2, e3⟩
  · exact .inr ⟨_, e, inv_stats h _ _, rfl, Nat.le_add_right _ _, Nat.le_succ _⟩
  · exact .inr ⟨_, f4, inv_add h h1 f1 f2 (hg o f1 f2) _ _, rfl, Nat.le_add_right _ _, by simp⟩

/-- After any number of iterations. -/
theorem loop_inv {x : St S O F k} {s0 : S} (h : Inv d vec s0 x) (qs : List (Pt F k)) :
    (∃ y r, loop d vec qs x = .ok (.found y r) ∧ PathOk d s0 r ∧ y.expd ≤ x.expd + qs.length) ∨
    ∃ y, loop d vec qs x = .ok (.on y) ∧ Inv d vec s0 y ∧ y.expd = x.expd + qs.length ∧
      y.nodes.length ≤ x.nodes.length + qs.length := by
  induction qs generalizing x with
  | nil => exact .inr ⟨x, rfl, h, rfl, le_rfl⟩
  | cons q qs ih =>
    rw [loop]
    rcases step_inv h q with ⟨y, r, e1, e2, e3⟩ | ⟨y, e1, e2, e3, e4, e5⟩
    · rw [e1]
      exact .inl ⟨y, r, rfl, e2, by rw [e3, List.length_cons]; omega⟩
    · rw [e1]
      rcases ih e2 with ⟨z, r, f1, f2, f3⟩ | ⟨z, f1, f2, f3, f4⟩
      · exact .inl ⟨z, r, f1, f2, by rw [List.length_cons]; omega⟩
      · exact .inr ⟨z, f1, f2, by rw [List.length_cons]; omega, by rw [List.length_cons]; omega⟩

omit [IsStrictOrderedRing F] [AddCommGroup C] [LinearOrder C] [IsOrderedAddMonoid C] in
theorem loop_append (qs rs : List (Pt F k)) (x : St S O F k) :
    loop d vec (qs ++ rs) x = (loop d vec qs x).bind fun
      | .on y => loop d vec rs y
      | .found y r => .ok (.found y r)
      | .stale => .ok .stale := by
  induction qs generalizing x with
  | nil => rfl
  | cons q qs ih =>
    rw [List.cons_append, loop, loop]
    cases step d vec q x with
    | ok r => cases r with
      | on y => exact ih y
      | found y r => rfl
      | stale => rfl
    | fatal => rfl
    | ub => rfl
    | nofuel => rfl

/-! ## Samples that lead to a goal -/

theorem sqdist_self (p : Pt F k) : KdTree.sqdist p p = 0 := by
  rw [KdTree.sqdist_eq]
  simp

theorem eq_of_sqdist {p q : Pt F k} (h : KdTree.sqdist p q ≤ 0) : p = q := by
  funext i
  have := (KdTree.sqdist_ge p q i).trans h
  have h0 : (p i - q i) ^ 2 = 0 := le_antisymm this (sq_nonneg _)
  exact sub_eq_zero.1 (pow_eq_zero_iff (two_ne_zero)|>.1 h0)

open Classical in
/-- How many times an operator can still be taken in the nodes of state `s`. -/
noncomputable def left (d : Dom S O C) (s : S) (nodes : List (Node S O)) : Nat :=
  (nodes.map fun v => if v.state = s then ((d.ops s).filter (· ∉ v.ops)).length else 0).sum

theorem filter_length_lt (l : List O) (p q : O → Bool) (hpq : ∀ a, p a = true → q a = true) {o : O} (ho : o ∈ l)
    (h1 : q o = true) (h2 : p o = false) : (l.filter p).length < (l.filter q).length := by
  induction l with
  | nil => exact absurd ho (by simp)
  | cons a l ih =>
    have hle : (l.filter p).length ≤ (l.filter q).length := by
      rw [← List.countP_eq_length_filter, ← List.countP_eq_length_filter]
      exact List.countP_mono_left fun a _ => hpq a
    rw [List.filter_cons, List.filter_cons]
    rcases List.mem_cons.1 ho with rfl | ho
    · rw [h1, h2]
      simp
      omega
    · have := ih ho
      by_cases hp : p a = true
      · rw [if_pos hp, if_pos (hpq a hp)]
        simpa using this
      · rw [if_neg hp]
        split
        · rw [List.length_cons]; omega
        · exact this

theorem sum_set_lt {α : Type*} (f : α → Nat) (l : List α) (j : Nat) (a a' : α) (h : l[j]? = some a) (hf : f a' < f a) :
    ((l.set j a').map f).sum < (l.map f).sum := by
  induction l generalizing j with
  | nil => simp at h
  | cons b l ih =>
    cases j with
    | zero =>
      simp only [List.getElem?_cons_zero, Option.some.injEq] at h
      subst h
      simp only [List.set_cons_zero, List.map_cons, List.sum_cons]
      omega
    | succ j =>
      rw [List.getElem?_cons_succ] at h
      have := ih j h
      simp only [List.set_cons_succ, List.map_cons, List.sum_cons]
      omega

/-- Every state of the tree is reachable. -/
theorem node_walk {x : St S O F k} {s0 : S} (h : Inv d vec s0 x) {i : Nat} {v : Node S O} (hv : x.nodes[i]? = some v) :
    ∃ c, Search.Walk d s0 v.state c := by
  obtain ⟨r, os, ss, c, -, -, e3, e4, e5⟩ := solpath_spec (d := d) h.root
    (fun i v hv hi => by
      obtain ⟨j, o, u, f1, f2, f3, f4, f5, f6, -⟩ := h.hang i v hv hi
      exact ⟨j, o, u, f1, f2, f3, f4, f5, f6⟩) i v hv (i + 1) (by omega)
  refine ⟨c, ?_⟩
  have hl : (s0 :: ss).getLast? = some v.state := by rw [← e3, List.getLast?_reverse, e5]
  rw [List.getLast?_eq_some_getLast (by simp)] at hl
  have := e4.walk
  rw [Option.some.inj hl] at this
  exact this

/-- The node found for the point of a state of the tree. -/
theorem nearest_state {x : St S O F k} {s0 s : S} (h : Inv d vec s0 x)
    (hinj : ∀ t, (∃ c, Search.Walk d s0 t c) → vec t = vec s → t = s)
    (hs : ∃ (i : Nat) (v : Node S O), x.nodes[i]? = some v ∧ v.state = s) {n : Nat} {v : Node S O}
    (hv : x.nodes[n]? = some v)
    (hn : ∀ (j : Nat) (u : Node S O), x.nodes[j]? = some u →
        KdTree.sqdist (vec v.state) (vec s) ≤ KdTree.sqdist (vec u.state) (vec s)) : v.state = s := by
  obtain ⟨i, u, h1, h2⟩ := hs
  have := hn i u h1
  rw [h2, sqdist_self] at this
  exact hinj _ (node_walk h hv) (eq_of_sqdist this)

omit [AddCommGroup C] [LinearOrder C] [IsOrderedAddMonoid C] in
theorem left_add {s : S} {nodes : List (Node S O)} {n : Nat} {v : Node S O} {o : O} (hv : nodes[n]? = some v)
    (hs : v.state = s) (ho : o ∈ d.ops s) (hu : o ∉ v.ops) (hl : d.app s o ≠ s) :
    left d s ((nodes.set n { v with ops := o :: v.ops }) ++ [⟨some n, d.app v.state o, some o, []⟩]) < left d s nodes := by
  subst hs
  unfold left
  rw [List.map_append, List.sum_append, List.map_cons, List.map_nil, List.sum_singleton, if_neg hl, Nat.add_zero]
  apply sum_set_lt _ _ _ v _ hv
  rw [if_pos rfl, if_pos rfl]
  apply filter_length_lt _ _ _ _ ho
  · simpa using hu
  · simp
  · intro a ha
    simp only [List.mem_cons, not_or, decide_eq_true_eq, decide_not, Bool.not_eq_eq_eq_not, Bool.not_true,
      decide_eq_false_iff_not] at ha ⊢
    exact ha.2

/-- Sampling the point of a state of the tree until its operators are used up, or a goal is found. -/
theorem exhaust {s0 s : S} (hinj : ∀ t, (∃ c, Search.Walk d s0 t c) → vec t = vec s → t = s)
    (hloop : ∀ o ∈ d.ops s, d.app s o ≠ s)
    (m : Nat) (x : St S O F k) (h : Inv d vec s0 x) (hm : left d s x.nodes ≤ m)
    (hs : ∃ (i : Nat) (v : Node S O), x.nodes[i]? = some v ∧ v.state = s) :
    ∃ n : Nat, (∃ y r, loop d vec (List.replicate n (vec s)) x = .ok (.found y r)) ∨
      ∃ (y : St S O F k) (i : Nat) (v : Node S O), loop d vec (List.replicate n (vec s)) x = .ok (.on y) ∧
        Inv d vec s0 y ∧ y.nodes[i]? = some v ∧ v.state = s ∧ ∀ o ∈ d.ops s, o ∈ v.ops := by
  classical
  induction m generalizing x with
  | zero =>
    obtain ⟨n, v, h1, h2, h3⟩ := step_spec h (vec s)
    have hvs := nearest_state h hinj hs h1 h2
    rcases h3 with ⟨y, r, e1, -⟩ | ⟨hg, ⟨e, hu⟩ | ⟨o, f1, f2, -, f4⟩⟩
    · exact ⟨1, .inl ⟨y, r, by simp [loop, e1, Outcome.bind]⟩⟩
    · exact ⟨0, .inr ⟨x, n, v, rfl, h, h1, hvs, hvs ▸ hu⟩⟩
    · exfalso
      have := left_add (d := d) h1 hvs (hvs ▸ f1) f2 (hloop o (hvs ▸ f1))
      omega
  | succ m ih =>
    obtain ⟨n, v, h1, h2, h3⟩ := step_spec h (vec s)
    have hvs := nearest_state h hinj hs h1 h2
    rcases h3 with ⟨y, r, e1, -⟩ | ⟨hg, ⟨e, hu⟩ | ⟨o, f1, f2, -, f4⟩⟩
    · exact ⟨1, .inl ⟨y, r, by simp [loop, e1, Outcome.bind]⟩⟩
    · exact ⟨0, .inr ⟨x, n, v, rfl, h, h1, hvs, hvs ▸ hu⟩⟩
    · have hl := left_add (d := d) h1 hvs (hvs ▸ f1) f2 (hloop o (hvs ▸ f1))
      subst hvs
      obtain ⟨n', hn'⟩ := ih _ (inv_add h h1 f1 f2 (hg o f1 f2) _ _) (by dsimp only; omega) ⟨n, { v with ops := o :: v.ops }, by
        obtain ⟨hj, -⟩ := List.getElem?_eq_some_iff.1 h1
        rw [List.getElem?_append_left (by simpa using hj), List.getElem?_set, if_pos rfl, if_pos hj], rfl⟩
      refine ⟨n' + 1, ?_⟩
      rw [List.replicate_succ, loop, f4]
      exact hn'

/-- If a goal can be reached by at least one operator, some samples, all of them points of reachable states, make the
search find one. -/
theorem samples {s0 : S} (hinj : ∀ s t, (∃ c, Search.Walk d s0 s c) → (∃ c, Search.Walk d s0 t c) → vec t = vec s → t = s)
    (hloop : ∀ s, (∃ c, Search.Walk d s0 s c) → ∀ o ∈ d.ops s, d.app s o ≠ s)
    {os : List O} {ss : List S} {c : C} {s : S} (hp : Search.Plan d s os ss c) (hne : os ≠ [])
    (hg : ∃ g, (s :: ss).getLast? = some g ∧ d.goal g = true) (hw : ∃ c, Search.Walk d s0 s c)
    (x : St S O F k) (h : Inv d vec s0 x) (hs : ∃ (i : Nat) (v : Node S O), x.nodes[i]? = some v ∧ v.state = s) :
    ∃ qs : List (Pt F k), (∀ q ∈ qs, ∃ t, (∃ c, Search.Walk d s0 t c) ∧ q = vec t) ∧
      ∃ y r, loop d vec qs x = .ok (.found y r) := by
  induction hp generalizing x with
  | nil => exact absurd rfl hne
  | @cons s o os ss c ho hp ih =>
    obtain ⟨n, hn⟩ := exhaust (s := s) (fun t ht => hinj s t hw ht) (hloop s hw) _ x h le_rfl hs
    have hq : ∀ q ∈ List.replicate n (vec s), ∃ t, (∃ c, Search.Walk d s0 t c) ∧ q = vec t :=
      fun q hq => ⟨s, hw, (List.mem_replicate.1 hq).2⟩
    rcases hn with ⟨y, r, e⟩ | ⟨y, i, v, e1, e2, e3, e4, e5⟩
    · exact ⟨_, hq, y, r, e⟩
    · -- the node of the successor
      obtain ⟨i', v', f1, f2, f3⟩ := e2.ops i v o e3 (e5 o ho)
      have hi' : i' ≠ 0 := by
        rintro rfl
        obtain ⟨w, g1, g2, -⟩ := e2.root
        rw [f1] at g1
        obtain rfl := Option.some.inj g1
        rw [f2] at g2
        exact absurd g2 (by simp)
      obtain ⟨j, o', u, k1, k2, k3, k4, k5, k6, k7⟩ := e2.hang i' v' f1 hi'
      rw [f2] at k1
      obtain rfl := Option.some.inj k1
      rw [e3] at k3
      obtain rfl := Option.some.inj k3
      rw [f3] at k4
      obtain rfl := Option.some.inj k4
      rw [e4] at k6
      have hng := e2.ng i' v' f1 hi'
      rw [k6] at hng
      by_cases hos : os = []
      · subst hos
        cases hp
        obtain ⟨g, g1, g2⟩ := hg
        simp only [List.getLast?_cons_cons, List.getLast?_singleton, Option.some.injEq] at g1
        subst g1
        rw [hng] at g2
        exact absurd g2 (by simp)
      · obtain ⟨c', hw'⟩ := hw
        obtain ⟨qs, h1, z, r, h2⟩ := ih hos (by rw [List.getLast?_cons_cons] at hg; exact hg) ⟨_, hw'.snoc ho⟩ y e2 ⟨i', v', f1, k6⟩
        refine ⟨List.replicate n (vec s) ++ qs, fun q hq' => ?_, z, r, ?_⟩
        · rcases List.mem_append.1 hq' with h | h
          · exact hq q h
          · exact h1 q h
        · rw [loop_append, e1]
          exact h2

end Proofs

end Verif.Rrt
