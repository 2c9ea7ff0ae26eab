import Verif.Search.OpenImpl
import Verif.Structs.Hash
import Verif.Props.Astar

/-!
# Best-first search on the open and closed lists of the code

`Search/BestFirst` models A*, weighted A* and greedy search with an abstract open list (a flag, `pop` returns any least
node) and an abstract closed list (a finite map).  Here is the same program on the lists of the code: the open list is
an `OpenImpl`, the closed list is the hash table of search/closedlist.hpp with its chains through the nodes.

Simplifications: as in `Search/BestFirst`, except for the two lists; a node that is constructed and at once destructed
is not allocated; the pool never runs out of memory; loops over chains get one more unit of fuel than there are nodes.
-/

namespace Verif.Search

variable {S O C P Q : Type*}

/-- astar.hpp:13-20 `Node`, without the fields `closedent` and `openind`, which are in the lists. -/
structure CNode (S O C P : Type*) where
  state : S
  g : C
  p : P
  parent : Option Nat
  op : O
  pop : O

/-- The state of a search (astar.hpp:165-167 and the statistics). -/
structure CSt (S O C P Q : Type*) where
  nd : Nat → CNode S O C P
  next : Nat
  q : Q
  tab : Hash.Tab Nat
  expd : Nat
  gend : Nat
  dups : Nat
  reopnd : Nat

/-- What `pred`, `prio` and `tieprio` (astar.hpp:40-52) read. -/
def keyOf (nd : Nat → CNode S O C P) (n : Nat) : P × C := ((nd n).p, (nd n).g)

section Model
variable [DecidableEq S] [DecidableEq O] [Add C] [Zero C] [LE C] [DecidableLE C]

/-- astar.hpp:24-30 and closedlist.hpp:23: the operations of the closed list. -/
def hops (hash : S → Nat) (nd : Nat → CNode S O C P) : Hash.Ops Nat S where
  key n := (nd n).state
  hash := hash
  eq s t := decide (s = t)
  fillfact := 3

/-- The two lists of a search object. -/
abbrev Lists (Q : Type*) := Q × Hash.Tab Nat

/-- astar.hpp:55-58: the lists of a new object.  The closed list starts with `sz` bins, which is 30000001 in the code. -/
def newLists (im : OpenImpl (P × C) Q) (sz : Nat) (nxt : Nat → Option Nat) : Lists Q := (im.init, Hash.init sz nxt)

/-- astar.hpp:86-92 `reset`: the lists are cleared and all nodes deleted; the `nxt` fields of the nodes to come are not
initialised. -/
def reset (im : OpenImpl (P × C) Q) (nxt : Nat → Option Nat) (c : CSt S O C P Q) : Lists Q :=
  (im.clear c.q, { Hash.clear c.tab with nxt := nxt })

/-- astar.hpp:64-70: `search` up to the loop. -/
def cinit (d : Dom S O C) (a : Alg S C P) (im : OpenImpl (P × C) Q) (hash : S → Nat) (x : Lists Q) (s0 : S) :
    Outcome (CSt S O C P Q) :=
  let nd : Nat → CNode S O C P := fun _ => ⟨s0, 0, a.initp 0 s0, none, d.nop, d.nop⟩
  (Hash.add (hops hash nd) 1 x.2 0 (hash s0)).bind fun tab =>
  (im.push (keyOf nd) x.1 0).bind fun q =>
  .ok ⟨nd, 1, q, tab, 0, 0, 0, 0⟩

/-- astar.hpp:115-153, wastar.hpp:125-159, greedy.hpp:117-154 `considerkid`. -/
def cconsiderkid (d : Dom S O C) (a : Alg S C P) (im : OpenImpl (P × C) Q) (hash : S → Nat) (n : Nat) (op : O)
    (c : CSt S O C P Q) : Outcome (CSt S O C P Q) :=
  let par := c.nd n
  let t := d.app par.state op
  let g := par.g + d.cost par.state op
  (Hash.find (hops hash c.nd) (c.next + 1) c.tab t (hash t)).bind fun r =>
  match r with
  | some k =>
    let dup := c.nd k
    if a.dropdups = true ∨ dup.g ≤ g then
      .ok { c with dups := c.dups + 1 }
    else
      let isopen := im.mem c.q k
      let nd := Function.update c.nd k
        { dup with g := g, p := a.updp dup.p dup.g g, parent := some n, op := op, pop := d.rev par.state op }
      (if isopen then im.pre (keyOf c.nd) c.q k else .ok c.q).bind fun q =>
      (if isopen then im.post (keyOf nd) q k else im.push (keyOf nd) q k).bind fun q =>
      .ok { c with
        nd := nd, q := q, dups := c.dups + 1, reopnd := if isopen then c.reopnd else c.reopnd + 1 }
  | none =>
    let nd := Function.update c.nd c.next ⟨t, g, a.initp g t, some n, op, d.rev par.state op⟩
    (Hash.add (hops hash nd) (c.next + 1) c.tab c.next (hash t)).bind fun tab =>
    (im.push (keyOf nd) c.q c.next).bind fun q =>
    .ok { c with nd := nd, next := c.next + 1, q := q, tab := tab }

/-- The loop of `expand`, astar.hpp:107-112. -/
def ctryops (d : Dom S O C) (a : Alg S C P) (im : OpenImpl (P × C) Q) (hash : S → Nat) (n : Nat) :
    List O → CSt S O C P Q → Outcome (CSt S O C P Q)
  | [], c => .ok c
  | o :: os, c =>
    if o = (c.nd n).pop then ctryops d a im hash n os c
    else (cconsiderkid d a im hash n o { c with gend := c.gend + 1 }).bind (ctryops d a im hash n os)

/-- astar.hpp:103-113 `expand`. -/
def cexpand (d : Dom S O C) (a : Alg S C P) (im : OpenImpl (P × C) Q) (hash : S → Nat) (n : Nat)
    (c : CSt S O C P Q) : Outcome (CSt S O C P Q) :=
  ctryops d a im hash n (d.ops (c.nd n).state) { c with expd := c.expd + 1 }

/-- search.hpp:296-306 `solpath`. -/
def csolpath (nd : Nat → CNode S O C P) : Nat → Nat → Outcome (List S × List O)
  | 0, _ => .nofuel
  | fuel + 1, n =>
    match (nd n).parent with
    | none => .ok ([(nd n).state], [])
    | some m => (csolpath nd fuel m).map fun r => ((nd n).state :: r.1, (nd n).op :: r.2)

/-- search.hpp:67-71 `reached`; the timer may have struck before any given number of expansions. -/
def climit (l : Limit) (timer : Nat → Bool) (c : CSt S O C P Q) : Bool :=
  timer c.expd || decide (0 < l.expd ∧ l.expd ≤ c.expd) || decide (0 < l.gend ∧ l.gend ≤ c.gend)

/-- The loop astar.hpp:72-82; `fuel` bounds all loops. -/
def crun (d : Dom S O C) (a : Alg S C P) (im : OpenImpl (P × C) Q) (hash : S → Nat) (l : Limit) (timer : Nat → Bool) :
    Nat → CSt S O C P Q → Outcome (CSt S O C P Q × (List S × List O))
  | 0, _ => .nofuel
  | fuel + 1, c =>
    if im.empty c.q = true ∨ climit l timer c = true then .ok (c, ([], []))
    else
      (im.pop (keyOf c.nd) c.q).bind fun r =>
      if d.goal (c.nd r.1).state = true then
        (csolpath c.nd (fuel + 1) r.1).map fun p => ({ c with q := r.2 }, p)
      else (cexpand d a im hash r.1 { c with q := r.2 }).bind (crun d a im hash l timer fuel)

/-- astar.hpp:64-84 `search`, on the lists `x`. -/
def csearch (d : Dom S O C) (a : Alg S C P) (im : OpenImpl (P × C) Q) (hash : S → Nat) (x : Lists Q) (l : Limit)
    (timer : Nat → Bool) (fuel : Nat) (s0 : S) : Outcome (CSt S O C P Q × (List S × List O)) :=
  (cinit d a im hash x s0).bind (crun d a im hash l timer fuel)

end Model

/-! ## Refinement -/

section Refine
variable [DecidableEq S] [DecidableEq O] [AddCommGroup C] [LinearOrder C] [IsOrderedAddMonoid C]
  {d : Dom S O C} {a : Alg S C P} {s0 : S} {im : OpenImpl (P × C) Q} {Good : P × C → Prop}
  {rep : (Nat → P × C) → Q → Finset Nat → Prop} {hash : S → Nat}

omit [AddCommGroup C] [LinearOrder C] [IsOrderedAddMonoid C] [DecidableEq O] in
theorem hops_hashOk (nd : Nat → CNode S O C P) : Hash.HashOk (hops hash nd) := by
  intro k k' h
  simp only [hops, decide_eq_true_eq] at h
  rw [h]

/-- The open nodes. -/
def opens (st : St S O C P) : Finset Nat := (Finset.range st.next).filter fun i => (st.nd i).isopen = true

/-- The concrete state stands for the abstract state. -/
structure Ref (d : Dom S O C) (a : Alg S C P) (s0 : S) (rep : (Nat → P × C) → Q → Finset Nat → Prop) (hash : S → Nat)
    (c : CSt S O C P Q) (st : St S O C P) : Prop where
  next : c.next = st.next
  expd : c.expd = st.expd
  gend : c.gend = st.gend
  dups : c.dups = st.dups
  reopnd : c.reopnd = st.reopnd
  nd : ∀ i < st.next, c.nd i = ⟨(st.nd i).state, (st.nd i).g, (st.nd i).p, (st.nd i).parent, (st.nd i).op, (st.nd i).pop⟩
  q : rep (keyOf c.nd) c.q (opens st)
  tab : Hash.TabRep (hops hash c.nd) c.tab (Finset.range st.next)
  fill : c.tab.fill = st.next
  closed : ∀ s i, st.closed s = some i ↔ i < st.next ∧ (st.nd i).state = s
  prio : ∀ i < st.next, (st.nd i).p = a.initp (st.nd i).g (st.nd i).state
  walk : ∀ i < st.next, Walk d s0 (st.nd i).state (st.nd i).g

/-- A table does not depend on the keys of objects that are not in it. -/
theorem tabRep_congr {o o' : Hash.Ops Nat S} {t : Hash.Tab Nat} {T : Finset Nat} (h : Hash.TabRep o t T)
    (hh : o'.hash = o.hash) (hk : ∀ i ∈ T, o'.key i = o.key i) : Hash.TabRep o' t T := by
  obtain ⟨M, r⟩ := h
  refine ⟨M, r.pos, r.chain, fun i hi x hx => ?_, fun x => ?_⟩
  · rw [hh, hk x (r.mem_bin hi hx)]
    exact r.hash i hi x hx
  · rw [hh]
    constructor
    · intro hx
      rw [hk x hx]
      exact (r.mem x).1 hx
    · intro hx
      exact r.mem_bin (Nat.mod_lt _ r.pos) hx

theorem mem_opens {st : St S O C P} {i : Nat} : i ∈ opens st ↔ i < st.next ∧ (st.nd i).isopen = true := by
  simp [opens]

theorem opens_card (st : St S O C P) : (opens st).card ≤ st.next := by
  have := Finset.card_filter_le (Finset.range st.next) fun i => (st.nd i).isopen = true
  rwa [Finset.card_range] at this

/-- The lists are empty and in order. -/
def Fresh (rep : (Nat → P × C) → Q → Finset Nat → Prop) (x : Lists Q) : Prop :=
  (∀ key, rep key x.1 ∅) ∧ ∃ nb nxt, 0 < nb ∧ x.2 = ⟨List.replicate nb none, nxt, 0⟩

theorem fresh_new {lt : P × C → P × C → Bool} (law : OpenLaw lt Good im rep) {sz : Nat} (hsz : 0 < sz % 2 ^ 32) (nxt : Nat → Option Nat) :
    Fresh rep (newLists im sz nxt) := ⟨law.init, sz % 2 ^ 32, nxt, hsz, rfl⟩

theorem Ref.fresh {lt : P × C → P × C → Bool} (law : OpenLaw lt Good im rep) {c : CSt S O C P Q} {st : St S O C P}
    (r : Ref d a s0 rep hash c st) (nxt : Nat → Option Nat) : Fresh rep (reset im nxt c) := by
  obtain ⟨M, t⟩ := r.tab
  exact ⟨fun key => law.clear _ _, c.tab.bins.length, nxt, t.pos, rfl⟩

theorem ref_init {lt : P × C → P × C → Bool} (law : OpenLaw lt Good im rep) (hgood : ∀ s g, Walk d s0 s g → Good (a.initp g s, g))
    {x : Lists Q} (hx : Fresh rep x) :
    ∃ c, cinit d a im hash x s0 = .ok c ∧ Ref d a s0 rep hash c (init d a s0) := by
  set nd : Nat → CNode S O C P := fun _ => ⟨s0, 0, a.initp 0 s0, none, d.nop, d.nop⟩ with hnd
  obtain ⟨hq, nb, nxt, hnb, ht⟩ := hx
  have r0 : Hash.TabRep (hops hash nd) ⟨List.replicate nb none, nxt, 0⟩ ∅ :=
    ⟨_, Hash.rep_empty (hops hash nd) nb hnb nxt⟩
  obtain ⟨tab, h1, h2, h3⟩ := Hash.add_rep r0 1 (by simp) 0 (by simp) (by show 0 * 3 < 2 ^ 31; norm_num)
  obtain ⟨q, h4, h5⟩ := law.push (keyOf nd) x.1 ∅ 0 (hq _) (by simp) (hgood _ _ (.nil s0))
  have hlt : ∀ i, i < (init d a s0).next → i = 0 := fun i hi => by
    have : i < 1 := hi
    omega
  refine ⟨⟨nd, 1, q, tab, 0, 0, 0, 0⟩, ?_, rfl, rfl, rfl, rfl, rfl, fun i _ => rfl, ?_, ?_, h2, ?_, fun i _ => rfl, ?_⟩
  · unfold cinit
    simp only
    have h1' : Hash.add (hops hash nd) 1 x.2 0 (hash s0) = .ok tab := by rw [ht]; exact h1
    rw [h1', Outcome.bind_ok, h4, Outcome.bind_ok]
  · have : opens (init d a s0) = insert 0 ∅ := by
      ext i
      rw [mem_opens, Finset.mem_insert]
      constructor
      · rintro ⟨h, -⟩; exact Or.inl (hlt i h)
      · rintro (rfl | h)
        · exact ⟨Nat.zero_lt_one, rfl⟩
        · exact absurd h (by simp)
    rw [this]
    exact h5
  · have : Finset.range (init d a s0).next = insert 0 ∅ := by
      show Finset.range 1 = _
      rfl
    rw [this]
    exact h3
  · intro s i
    show Function.update (fun _ => none) s0 (some 0) s = some i ↔ i < 1 ∧ s0 = s
    by_cases hs : s = s0
    · subst hs
      rw [Function.update_self]
      constructor
      · intro h; injection h with h; exact ⟨by omega, rfl⟩
      · rintro ⟨h, -⟩
        have : i = 0 := by omega
        rw [this]
    · rw [Function.update_of_ne hs]
      constructor
      · intro h; exact absurd h (by simp)
      · rintro ⟨-, h⟩; exact absurd h.symm hs
  · intro i _
    exact .nil s0

theorem ref_considerkid {lt : P × C → P × C → Bool} (law : OpenLaw lt Good im rep) (ha : AlgOk a)
    (hgood : ∀ s g, Walk d s0 s g → Good (a.initp g s, g)) {c : CSt S O C P Q} {st : St S O C P}
    (r : Ref d a s0 rep hash c st) (hN : st.next ≤ 2 ^ 29) {n : Nat} (hn : n < st.next) {o : O}
    (ho : o ∈ d.ops (st.nd n).state) :
    ∃ c', cconsiderkid d a im hash n o c = .ok c' ∧ Ref d a s0 rep hash c' (considerkid d a n o st) := by
  have en := r.nd n hn
  have hw : Walk d s0 (d.app (st.nd n).state o) ((st.nd n).g + d.cost (st.nd n).state o) := (r.walk n hn).snoc ho
  set t := d.app (st.nd n).state o with ht
  set g := (st.nd n).g + d.cost (st.nd n).state o with hg
  obtain ⟨res, f1, f2, f3⟩ := Hash.find_rep r.tab (hops_hashOk c.nd) (c.next + 1)
    (by rw [Finset.card_range, r.next]; omega) t
  have f1' : Hash.find (hops hash c.nd) (c.next + 1) c.tab t (hash t) = .ok res := f1
  have ckey : ∀ i < st.next, (c.nd i).state = (st.nd i).state := fun i hi => by rw [r.nd i hi]
  unfold cconsiderkid
  simp only [en, ← ht, ← hg]
  rw [f1', Outcome.bind_ok]
  cases res with
  | some k =>
    obtain ⟨k1, k2⟩ := f2 k rfl
    rw [Finset.mem_range] at k1
    have k3 : (st.nd k).state = t := by
      simp only [hops, decide_eq_true_eq] at k2
      rw [← ckey k k1]; exact k2
    have hc : st.closed t = some k := (r.closed t k).2 ⟨k1, k3⟩
    have ek := r.nd k k1
    have emem : im.mem c.q k = (st.nd k).isopen := by
      rw [Bool.eq_iff_iff, law.mem _ _ _ r.q, mem_opens]
      exact ⟨fun h => h.2, fun h => ⟨k1, h⟩⟩
    simp only [ek]
    unfold considerkid
    simp only [← ht, ← hg, hc]
    by_cases hd : a.dropdups = true ∨ (st.nd k).g ≤ g
    · rw [if_pos hd, if_pos hd]
      exact ⟨_, rfl, r.next, r.expd, r.gend, congrArg (· + 1) r.dups, r.reopnd, r.nd, r.q, r.tab, r.fill, r.closed,
        r.prio, r.walk⟩
    · rw [if_neg hd, if_neg hd]
      set nd' : Nat → CNode S O C P := Function.update c.nd k
        ⟨(st.nd k).state, g, a.updp (st.nd k).p (st.nd k).g g, some n, o, d.rev (st.nd n).state o⟩ with hnd'
      set st' : St S O C P := { st with
        dups := st.dups + 1
        reopnd := if (st.nd k).isopen = true then st.reopnd else st.reopnd + 1
        nd := Function.update st.nd k ⟨(st.nd k).state, g, a.updp (st.nd k).p (st.nd k).g g, some n, o,
          d.rev (st.nd n).state o, true⟩ } with hst'
      have hp : a.updp (st.nd k).p (st.nd k).g g = a.initp g (st.nd k).state := by
        rw [r.prio k k1]; exact ha _ _ _
      have hgk : Good (keyOf nd' k) := by
        have : keyOf nd' k = (a.initp g t, g) := by
          simp only [keyOf, hnd', Function.update_self, hp, k3]
        rw [this]
        exact hgood _ _ hw
      have hoff : ∀ m, m ≠ k → keyOf nd' m = keyOf c.nd m := fun m hm => by
        simp only [keyOf, hnd', Function.update_of_ne hm]
      have nd1 : st'.nd k = ⟨(st.nd k).state, g, a.updp (st.nd k).p (st.nd k).g g, some n, o,
          d.rev (st.nd n).state o, true⟩ := Function.update_self _ _ _
      have nd2 : ∀ m, m ≠ k → st'.nd m = st.nd m := fun m hm => Function.update_of_ne hm _ _
      have hopn : opens st' = insert k (opens st) := by
        ext m
        rw [mem_opens, Finset.mem_insert, mem_opens]
        by_cases hm : m = k
        · subst hm
          rw [nd1]
          exact ⟨fun _ => Or.inl rfl, fun _ => ⟨k1, rfl⟩⟩
        · rw [nd2 m hm]
          exact ⟨fun h => Or.inr h, fun h => h.resolve_left hm⟩
      have build : ∀ q', rep (keyOf nd') q' (opens st') → Ref d a s0 rep hash
          { c with nd := nd', q := q', dups := c.dups + 1,
                   reopnd := if (st.nd k).isopen = true then c.reopnd else c.reopnd + 1 } st' := by
        intro q' hq'
        refine ⟨r.next, r.expd, r.gend, congrArg (· + 1) r.dups, ?_, ?_, hq', ?_, r.fill, ?_, ?_, ?_⟩
        · show (if (st.nd k).isopen = true then c.reopnd else c.reopnd + 1) =
            if (st.nd k).isopen = true then st.reopnd else st.reopnd + 1
          rw [r.reopnd]
        · intro i hi
          by_cases hik : i = k
          · subst hik
            rw [nd1]
            exact Function.update_self _ _ _
          · rw [nd2 i hik]
            refine Eq.trans ?_ (r.nd i hi)
            exact Function.update_of_ne hik _ _
        · refine tabRep_congr r.tab rfl fun i hi => ?_
          show (nd' i).state = (c.nd i).state
          by_cases hik : i = k
          · rw [hik, hnd', Function.update_self, ek]
          · rw [hnd', Function.update_of_ne hik]
        · intro s i
          show st.closed s = some i ↔ i < st.next ∧ (st'.nd i).state = s
          rw [r.closed]
          by_cases hik : i = k
          · rw [hik, nd1]
          · rw [nd2 i hik]
        · intro i hi
          by_cases hik : i = k
          · rw [hik, nd1]; exact hp
          · rw [nd2 i hik]; exact r.prio i hi
        · intro i hi
          by_cases hik : i = k
          · rw [hik, nd1, k3]; exact hw
          · rw [nd2 i hik]; exact r.walk i hi
      rw [emem]
      by_cases hop : (st.nd k).isopen = true
      · obtain ⟨q1, q2, p1, p2, p3⟩ := law.upd (keyOf c.nd) (keyOf nd') c.q (opens st) k r.q (mem_opens.2 ⟨k1, hop⟩)
          (le_trans (opens_card st) (by omega)) hgk hoff
        simp only [hop, if_true] at build ⊢
        rw [p1, Outcome.bind_ok, p2, Outcome.bind_ok]
        refine ⟨_, rfl, build q2 ?_⟩
        rw [hopn, Finset.insert_eq_of_mem (mem_opens.2 ⟨k1, hop⟩)]
        exact p3
      · have hnk : k ∉ opens st := fun h => hop (mem_opens.1 h).2
        obtain ⟨q2, p2, p3⟩ := law.push (keyOf nd') c.q (opens st) k
          (law.congr _ _ _ _ r.q fun m hm => hoff m fun e => hnk (e ▸ hm)) hnk hgk
        simp only [hop, if_false, Bool.false_eq_true] at build ⊢
        rw [Outcome.bind_ok, p2, Outcome.bind_ok]
        refine ⟨_, rfl, build q2 ?_⟩
        rw [hopn]
        exact p3
  | none =>
    have hc : st.closed t = none := by
      cases hcl : st.closed t with
      | none => rfl
      | some k =>
        obtain ⟨k1, k2⟩ := (r.closed t k).1 hcl
        have := f3 rfl k (Finset.mem_range.2 k1)
        simp only [hops, decide_eq_false_iff_not] at this
        exact absurd ((ckey k k1).trans k2) this
    unfold considerkid
    simp only [← ht, ← hg, hc]
    set nd' : Nat → CNode S O C P := Function.update c.nd c.next
      ⟨t, g, a.initp g t, some n, o, d.rev (st.nd n).state o⟩ with hnd'
    set st' : St S O C P := { st with
      nd := Function.update st.nd st.next ⟨t, g, a.initp g t, some n, o, d.rev (st.nd n).state o, true⟩
      next := st.next + 1
      closed := Function.update st.closed t (some st.next) } with hst'
    have nd1 : st'.nd st.next = ⟨t, g, a.initp g t, some n, o, d.rev (st.nd n).state o, true⟩ :=
      Function.update_self _ _ _
    have nd2 : ∀ m, m ≠ st.next → st'.nd m = st.nd m := fun m hm => Function.update_of_ne hm _ _
    have cnd1 : nd' st.next = ⟨t, g, a.initp g t, some n, o, d.rev (st.nd n).state o⟩ := by
      rw [hnd', r.next, Function.update_self]
    have cnd2 : ∀ m, m ≠ st.next → nd' m = c.nd m := fun m hm => by
      rw [hnd', r.next, Function.update_of_ne hm]
    have hopn : opens st' = insert st.next (opens st) := by
      ext m
      rw [mem_opens, Finset.mem_insert, mem_opens]
      show m < st.next + 1 ∧ _ ↔ _
      by_cases hm : m = st.next
      · subst hm
        rw [nd1]
        exact ⟨fun _ => Or.inl rfl, fun _ => ⟨Nat.lt_succ_self _, rfl⟩⟩
      · rw [nd2 m hm]
        constructor
        · rintro ⟨h1, h2⟩; exact Or.inr ⟨by omega, h2⟩
        · rintro (h | ⟨h1, h2⟩)
          · exact absurd h hm
          · exact ⟨by omega, h2⟩
    have tr : Hash.TabRep (hops hash nd') c.tab (Finset.range st.next) := by
      refine tabRep_congr r.tab rfl fun i hi => ?_
      show (nd' i).state = (c.nd i).state
      rw [cnd2 i (by rw [Finset.mem_range] at hi; omega)]
    obtain ⟨tab, a1, a2, a3⟩ := Hash.add_rep tr (c.next + 1) (by rw [Finset.card_range, r.next]; omega) st.next
      (by simp) (by rw [r.fill]; show st.next * 3 < 2 ^ 31; omega)
    have a1' : Hash.add (hops hash nd') (c.next + 1) c.tab c.next (hash t) = .ok tab := by
      rw [← a1]
      show _ = Hash.add (hops hash nd') (c.next + 1) c.tab st.next (hash (nd' st.next).state)
      rw [cnd1, r.next]
    have hnk : st.next ∉ opens st := fun h => by
      have := (mem_opens.1 h).1
      omega
    obtain ⟨q, b1, b2⟩ := law.push (keyOf nd') c.q (opens st) st.next
      (law.congr _ _ _ _ r.q fun m hm => by
        simp only [keyOf]
        rw [cnd2 m fun e => hnk (e ▸ hm)]) hnk
      (by simp only [keyOf]; rw [cnd1]; exact hgood _ _ hw)
    have b1' : im.push (keyOf nd') c.q c.next = .ok q := by rw [r.next]; exact b1
    rw [a1', Outcome.bind_ok, b1', Outcome.bind_ok]
    refine ⟨_, rfl, congrArg (· + 1) r.next, r.expd, r.gend, r.dups, r.reopnd, ?_, ?_, ?_, ?_, ?_, ?_, ?_⟩
    · intro i hi
      have hi : i < st.next + 1 := hi
      show nd' i = _
      by_cases hik : i = st.next
      · rw [hik, nd1, cnd1]
      · rw [nd2 i hik, cnd2 i hik]
        exact r.nd i (by omega)
    · rw [hopn]; exact b2
    · show Hash.TabRep (hops hash nd') tab (Finset.range (st.next + 1))
      rw [Finset.range_add_one]
      exact a3
    · show tab.fill = st.next + 1
      rw [a2, r.fill]
    · intro s i
      show Function.update st.closed t (some st.next) s = some i ↔ i < st.next + 1 ∧ (st'.nd i).state = s
      by_cases hs : s = t
      · subst hs
        rw [Function.update_self]
        constructor
        · intro h
          injection h with h
          rw [← h, nd1]
          exact ⟨Nat.lt_succ_self _, rfl⟩
        · rintro ⟨h1, h2⟩
          by_cases hik : i = st.next
          · rw [hik]
          · rw [nd2 i hik] at h2
            have := (r.closed t i).2 ⟨by omega, h2⟩
            rw [hc] at this
            exact absurd this (by simp)
      · rw [Function.update_of_ne hs, r.closed]
        by_cases hik : i = st.next
        · rw [hik, nd1]
          constructor
          · rintro ⟨h, -⟩; omega
          · rintro ⟨-, h⟩; exact absurd h.symm hs
        · rw [nd2 i hik]
          constructor
          · rintro ⟨h1, h2⟩; exact ⟨by omega, h2⟩
          · rintro ⟨h1, h2⟩; exact ⟨by omega, h2⟩
    · intro i hi
      have hi : i < st.next + 1 := hi
      by_cases hik : i = st.next
      · rw [hik, nd1]
      · rw [nd2 i hik]; exact r.prio i (by omega)
    · intro i hi
      have hi : i < st.next + 1 := hi
      by_cases hik : i = st.next
      · rw [hik, nd1]; exact hw
      · rw [nd2 i hik]; exact r.walk i (by omega)

/-! ## Whole runs -/

omit [AddCommGroup C] [LinearOrder C] [IsOrderedAddMonoid C] in
theorem cconsiderkid_next [Add C] [LE C] [DecidableLE C] {c c' : CSt S O C P Q} {n : Nat} {o : O}
    (h : cconsiderkid d a im hash n o c = .ok c') : c.next ≤ c'.next := by
  unfold cconsiderkid at h
  simp only [Outcome.bind_eq_ok] at h
  obtain ⟨r, -, h⟩ := h
  cases r with
  | none =>
    simp only [Outcome.bind_eq_ok] at h
    obtain ⟨tab, -, q, -, h⟩ := h
    injection h with h
    rw [← h]
    exact Nat.le_succ _
  | some k =>
    dsimp only at h
    split at h
    · injection h with h
      rw [← h]
    · simp only [Outcome.bind_eq_ok] at h
      obtain ⟨q1, -, q2, -, h⟩ := h
      injection h with h
      rw [← h]

omit [AddCommGroup C] [LinearOrder C] [IsOrderedAddMonoid C] in
theorem ctryops_next [Add C] [LE C] [DecidableLE C] (os : List O) {c c' : CSt S O C P Q} {n : Nat}
    (h : ctryops d a im hash n os c = .ok c') : c.next ≤ c'.next := by
  induction os generalizing c with
  | nil => rw [ctryops] at h; injection h with h; rw [h]
  | cons o os ih =>
    rw [ctryops] at h
    split at h
    · exact ih h
    · rw [Outcome.bind_eq_ok] at h
      obtain ⟨c1, h1, h2⟩ := h
      have := cconsiderkid_next h1
      exact le_trans this (ih h2)

omit [AddCommGroup C] [LinearOrder C] [IsOrderedAddMonoid C] in
theorem crun_next [Add C] [LE C] [DecidableLE C] {l : Limit} {timer : Nat → Bool} (fuel : Nat)
    {c : CSt S O C P Q} {r : CSt S O C P Q × (List S × List O)}
    (h : crun d a im hash l timer fuel c = .ok r) : c.next ≤ r.1.next := by
  induction fuel generalizing c with
  | zero => exact absurd h (by simp [crun])
  | succ fuel ih =>
    rw [crun] at h
    split at h
    · injection h with h; rw [← h]
    · rw [Outcome.bind_eq_ok] at h
      obtain ⟨x, -, h⟩ := h
      split at h
      · rw [Outcome.map_eq_ok] at h
        obtain ⟨p, -, h⟩ := h
        rw [← h]
      · rw [Outcome.bind_eq_ok] at h
        obtain ⟨c1, h1, h2⟩ := h
        have := ctryops_next _ h1
        exact le_trans this (ih h2)

theorem tryop_next (st : St S O C P) (n : Nat) (o : O) : st.next ≤ (tryop d a n st o).next := by
  unfold tryop
  split
  · exact le_rfl
  · unfold considerkid
    dsimp only
    split
    · split
      · exact le_rfl
      · exact le_rfl
    · exact Nat.le_succ _

omit [DecidableEq S] [DecidableEq O] [AddCommGroup C] [LinearOrder C] [IsOrderedAddMonoid C] in
theorem solpath_ne_nil (nd : Nat → Node S O C P) (fuel n : Nat) : solpath nd fuel n ≠ .ok ([], []) := by
  cases fuel with
  | zero => simp [solpath]
  | succ fuel =>
    unfold solpath
    cases (nd n).parent with
    | none => simp
    | some m =>
      dsimp only
      intro h
      rw [Outcome.map_eq_ok] at h
      obtain ⟨x, -, h⟩ := h
      simp at h

theorem Ref.gend1 {c : CSt S O C P Q} {st : St S O C P} (r : Ref d a s0 rep hash c st) :
    Ref d a s0 rep hash { c with gend := c.gend + 1 } { st with gend := st.gend + 1 } :=
  ⟨r.next, r.expd, congrArg (· + 1) r.gend, r.dups, r.reopnd, r.nd, r.q, r.tab, r.fill, r.closed, r.prio, r.walk⟩

theorem Ref.expd1 {c : CSt S O C P Q} {st : St S O C P} (r : Ref d a s0 rep hash c st) :
    Ref d a s0 rep hash { c with expd := c.expd + 1 } { st with expd := st.expd + 1 } :=
  ⟨r.next, congrArg (· + 1) r.expd, r.gend, r.dups, r.reopnd, r.nd, r.q, r.tab, r.fill, r.closed, r.prio, r.walk⟩

/-- One operator, while there is room for another node. -/
theorem ref_tryops1 {lt : P × C → P × C → Bool} (law : OpenLaw lt Good im rep) (ha : AlgOk a)
    (hgood : ∀ s g, Walk d s0 s g → Good (a.initp g s, g)) {c : CSt S O C P Q} {st : St S O C P}
    (r : Ref d a s0 rep hash c st) (hN : st.next ≤ 2 ^ 29) {n : Nat} (hn : n < st.next) {o : O} (os : List O)
    (ho : o ∈ d.ops (st.nd n).state) :
    ∃ c', ctryops d a im hash n (o :: os) c = ctryops d a im hash n os c' ∧
      Ref d a s0 rep hash c' (tryop d a n st o) := by
  have en : (c.nd n).pop = (st.nd n).pop := by rw [r.nd n hn]
  rw [ctryops, tryop, en]
  by_cases hp : o = (st.nd n).pop
  · rw [if_pos hp, if_pos hp]
    exact ⟨c, rfl, r⟩
  · rw [if_neg hp, if_neg hp]
    obtain ⟨c', h1, h2⟩ := ref_considerkid law ha hgood r.gend1 hN hn ho
    rw [h1, Outcome.bind_ok]
    exact ⟨c', rfl, h2⟩

/-- The expansion, when the nodes it leaves are not too many. -/
theorem ref_tryops {lt : P × C → P × C → Bool} (law : OpenLaw lt Good im rep) (ha : AlgOk a)
    (hgood : ∀ s g, Walk d s0 s g → Good (a.initp g s, g)) (os : List O) {c c' : CSt S O C P Q} {st : St S O C P}
    (r : Ref d a s0 rep hash c st) {n : Nat} (hn : n < st.next) (ho : ∀ o ∈ os, o ∈ d.ops (st.nd n).state)
    (h : ctryops d a im hash n os c = .ok c') (hN : c'.next ≤ 2 ^ 29) :
    Ref d a s0 rep hash c' (os.foldl (tryop d a n) st) := by
  induction os generalizing c st with
  | nil => rw [ctryops] at h; injection h with h; rw [← h]; exact r
  | cons o os ih =>
    have hb : st.next ≤ 2 ^ 29 := by rw [← r.next]; exact le_trans (ctryops_next _ h) hN
    obtain ⟨c1, e1, r1⟩ := ref_tryops1 law ha hgood r hb hn os (ho o List.mem_cons_self)
    rw [e1] at h
    have hs := tryop_state (d := d) (a := a) (n := n) (o := o) hn
    exact ih r1 (lt_of_lt_of_le hn (tryop_next st n o)) (fun o' h' => by rw [hs]; exact ho o' (List.mem_cons_of_mem _ h')) h

/-- The expansion, when there are not too many states. -/
theorem tryops_ok {lt : P × C → P × C → Bool} (law : OpenLaw lt Good im rep) (ha : AlgOk a)
    (hgood : ∀ s g, Walk d s0 s g → Good (a.initp g s, g))
    (hb : ∀ (c : CSt S O C P Q) (st : St S O C P), Ref d a s0 rep hash c st → st.next ≤ 2 ^ 29) (os : List O)
    {c : CSt S O C P Q} {st : St S O C P}
    (r : Ref d a s0 rep hash c st) {n : Nat} (hn : n < st.next) (ho : ∀ o ∈ os, o ∈ d.ops (st.nd n).state) :
    ∃ c', ctryops d a im hash n os c = .ok c' ∧ Ref d a s0 rep hash c' (os.foldl (tryop d a n) st) := by
  induction os generalizing c st with
  | nil => exact ⟨c, rfl, r⟩
  | cons o os ih =>
    obtain ⟨c1, e1, r1⟩ := ref_tryops1 law ha hgood r (hb _ _ r) hn os (ho o List.mem_cons_self)
    rw [e1]
    have hs := tryop_state (d := d) (a := a) (n := n) (o := o) hn
    exact ih r1 (lt_of_lt_of_le hn (tryop_next st n o)) (fun o' h' => by rw [hs]; exact ho o' (List.mem_cons_of_mem _ h'))

/-- A node leaves the open list. -/
theorem Ref.popn {c : CSt S O C P Q} {st : St S O C P} (r : Ref d a s0 rep hash c st) {n : Nat} {q : Q}
    (hq : rep (keyOf c.nd) q ((opens st).erase n)) : Ref d a s0 rep hash { c with q := q } (pop n st) := by
  have p1 : (pop n st).nd n = { st.nd n with isopen := false } := Function.update_self _ _ _
  have p2 : ∀ i, i ≠ n → (pop n st).nd i = st.nd i := fun i hi => Function.update_of_ne hi _ _
  refine ⟨r.next, r.expd, r.gend, r.dups, r.reopnd, ?_, ?_, r.tab, r.fill, ?_, ?_, ?_⟩
  · intro i hi
    by_cases hin : i = n
    · subst hin
      rw [p1]
      exact r.nd i hi
    · rw [p2 i hin]
      exact r.nd i hi
  · have : opens (pop n st) = (opens st).erase n := by
      ext i
      rw [Finset.mem_erase, mem_opens, mem_opens]
      show i < st.next ∧ _ ↔ _
      by_cases hin : i = n
      · subst hin
        rw [p1]
        simp
      · rw [p2 i hin]
        exact ⟨fun h => ⟨hin, h⟩, fun h => h.2⟩
    rw [this]
    exact hq
  · intro s i
    show st.closed s = some i ↔ i < st.next ∧ _
    rw [r.closed]
    by_cases hin : i = n
    · subst hin; rw [p1]
    · rw [p2 i hin]
  · intro i hi
    by_cases hin : i = n
    · subst hin; rw [p1]; exact r.prio i hi
    · rw [p2 i hin]; exact r.prio i hi
  · intro i hi
    by_cases hin : i = n
    · subst hin; rw [p1]; exact r.walk i hi
    · rw [p2 i hin]; exact r.walk i hi

/-- `pop` returns a least node. -/
theorem ref_pop (law : OpenLaw a.pred Good im rep) {c : CSt S O C P Q} {st : St S O C P}
    (r : Ref d a s0 rep hash c st) (he : im.empty c.q ≠ true) :
    ∃ n q, im.pop (keyOf c.nd) c.q = .ok (n, q) ∧ Least a st n ∧
      Ref d a s0 rep hash { c with q := q } (pop n st) := by
  have hne : opens st ≠ ∅ := fun h => he ((law.empty _ _ _ r.q).2 h)
  obtain ⟨n, q, h1, h2, h3, h4⟩ := law.pop _ _ _ r.q hne
  obtain ⟨n1, n2⟩ := mem_opens.1 h2
  have kk : ∀ i < st.next, keyOf c.nd i = ((st.nd i).p, (st.nd i).g) := fun i hi => by
    rw [keyOf, r.nd i hi]
  refine ⟨n, q, h1, ⟨n1, n2, fun m hm ho => ?_⟩, r.next, r.expd, r.gend, r.dups, r.reopnd, ?_, ?_, r.tab, r.fill,
    ?_, ?_, ?_⟩
  · have := h3 m (mem_opens.2 ⟨hm, ho⟩)
    rwa [kk m hm, kk n n1] at this
  · exact (r.popn h4).nd
  · exact (r.popn h4).q
  · exact (r.popn h4).closed
  · exact (r.popn h4).prio
  · exact (r.popn h4).walk

theorem ref_empty (law : OpenLaw a.pred Good im rep) {c : CSt S O C P Q} {st : St S O C P}
    (r : Ref d a s0 rep hash c st) : im.empty c.q = true ↔ Empty st := by
  rw [law.empty _ _ _ r.q]
  constructor
  · intro h m hm
    by_contra hc
    rw [Bool.not_eq_false] at hc
    have : m ∈ opens st := mem_opens.2 ⟨hm, hc⟩
    rw [h] at this
    exact absurd this (by simp)
  · intro h
    ext m
    rw [mem_opens]
    constructor
    · rintro ⟨h1, h2⟩; rw [h m h1] at h2; exact absurd h2 (by simp)
    · intro h; exact absurd h (by simp)

theorem climit_iff {l : Limit} {timer : Nat → Bool} {c : CSt S O C P Q} {st : St S O C P}
    (r : Ref d a s0 rep hash c st) : climit l timer c = true ↔ (timer c.expd = true ∨ l.reached st) := by
  unfold climit Limit.reached
  rw [Bool.or_eq_true, Bool.or_eq_true, decide_eq_true_eq, decide_eq_true_eq, r.expd, r.gend, or_assoc]

/-- `solpath` follows the same pointers. -/
theorem csolpath_eq {c : CSt S O C P Q} {st : St S O C P} (r : Ref d a s0 rep hash c st)
    (hpar : ∀ i < st.next, ∀ j, (st.nd i).parent = some j → j < st.next) (fuel : Nat) {n : Nat} (hn : n < st.next) :
    csolpath c.nd fuel n = solpath st.nd fuel n := by
  induction fuel generalizing n with
  | zero => rfl
  | succ fuel ih =>
    unfold csolpath solpath
    rw [r.nd n hn]
    cases hp : (st.nd n).parent with
    | none => rfl
    | some m =>
      dsimp only
      rw [ih (hpar n hn m hp)]

theorem inv_par {st : St S O C P} (h : Inv d a s0 st) :
    ∀ i < st.next, ∀ j, (st.nd i).parent = some j → j < st.next := by
  intro i hi j hj
  have h0 : i ≠ 0 := by rintro rfl; rw [h.root.2.1] at hj; exact absurd hj (by simp)
  obtain ⟨j', e, hlt, -⟩ := h.par i hi h0
  rw [hj] at e
  injection e with e
  rw [e]
  exact hlt

/-- The counters of a concrete state are those of the abstract one. -/
def SameStats (c : CSt S O C P Q) (st : St S O C P) : Prop :=
  c.expd = st.expd ∧ c.gend = st.gend ∧ c.dups = st.dups ∧ c.reopnd = st.reopnd ∧ c.next = st.next

theorem crun_refines (law : OpenLaw a.pred Good im rep) (hd : CostOk d s0) (ha : AlgOk a)
    (hgood : ∀ s g, Walk d s0 s g → Good (a.initp g s, g)) {l : Limit} {timer : Nat → Bool} (fuel : Nat)
    {c c' : CSt S O C P Q} {st : St S O C P} {p : List S × List O}
    (r : Ref d a s0 rep hash c st) (hr : ReachL d a s0 l st)
    (h : crun d a im hash l timer fuel c = .ok (c', p)) (hN : c'.next ≤ 2 ^ 29) :
    ∃ st', Run d a s0 l st' p ∧ SameStats c' st' ∧ (∀ nxt, Fresh rep (reset im nxt c')) ∧
      ((∀ e, timer e = false) → p = ([], []) → Empty st' ∨ l.reached st') := by
  induction fuel generalizing c st with
  | zero => exact absurd h (by simp [crun])
  | succ fuel ih =>
    rw [crun] at h
    have hstats : SameStats c st := ⟨r.expd, r.gend, r.dups, r.reopnd, r.next⟩
    by_cases hstop : im.empty c.q = true ∨ climit l timer c = true
    · rw [if_pos hstop] at h
      injection h with h
      rw [Prod.mk.injEq] at h
      obtain ⟨rfl, rfl⟩ := h
      rw [ref_empty law r, climit_iff r] at hstop
      rcases hstop with h1 | h1
      · exact ⟨st, .empty hr h1, hstats, r.fresh law, fun _ _ => Or.inl h1⟩
      · exact ⟨st, .cut _ hr h1, hstats, r.fresh law, fun ht _ => Or.inr (h1.resolve_left (by rw [ht]; simp))⟩
    · rw [if_neg hstop] at h
      rw [not_or] at hstop
      obtain ⟨n, q, e1, e2, e3⟩ := ref_pop law r hstop.1
      have hlim : ¬ l.reached st := fun hl => hstop.2 ((climit_iff r).2 (Or.inr hl))
      have hinv := inv_reach hd ha hr.reach
      rw [e1, Outcome.bind_ok] at h
      dsimp only at h
      have es : (c.nd n).state = (st.nd n).state := by rw [r.nd n e2.1]
      rw [es] at h
      by_cases hg : d.goal (st.nd n).state = true
      · rw [if_pos hg, Outcome.map_eq_ok] at h
        obtain ⟨p', h1, h2⟩ := h
        rw [Prod.mk.injEq] at h2
        obtain ⟨rfl, rfl⟩ := h2
        rw [csolpath_eq r (inv_par hinv) _ e2.1] at h1
        have h1' : solpath (pop n st).nd (fuel + 1) n = .ok p' := by rw [solpath_pop]; exact h1
        refine ⟨st, .found hr hlim e2 hg h1', hstats, e3.fresh law, ?_⟩
        rintro - rfl
        exact absurd h1 (solpath_ne_nil _ _ _)
      · rw [if_neg hg, Outcome.bind_eq_ok] at h
        obtain ⟨c1, h1, h2⟩ := h
        have hg' : d.goal (st.nd n).state = false := by simpa using hg
        have hnx := crun_next _ h2
        have r1 := ref_tryops law ha hgood _ e3.expd1 (n := n) e2.1
          (fun o ho => by
            have : ({ pop n st with expd := (pop n st).expd + 1 } : St S O C P).nd n = (pop n st).nd n := rfl
            rw [this]
            have e4 : ((pop n st).nd n).state = (st.nd n).state := by
              show (Function.update st.nd n _ n).state = _
              rw [Function.update_self]
            rw [e4, ← es]
            exact ho) h1 (le_trans hnx hN)
        have e4 : ((pop n st).nd n).state = (st.nd n).state := by
          show (Function.update st.nd n _ n).state = _
          rw [Function.update_self]
        have e5 : expand d a n (pop n st) = (d.ops ({ c with q := q }.nd n).state).foldl (tryop d a n)
            { pop n st with expd := (pop n st).expd + 1 } := by
          unfold expand
          show _ = (d.ops (c.nd n).state).foldl _ _
          rw [e4, es]
        rw [← e5] at r1
        exact ih r1 (.step hr hlim (.mk e2 hg')) h2

/-- One iteration of the loop, when there are not too many states. -/
theorem crun_step (law : OpenLaw a.pred Good im rep) (hd : CostOk d s0) (ha : AlgOk a)
    (hgood : ∀ s g, Walk d s0 s g → Good (a.initp g s, g))
    (hb : ∀ (c : CSt S O C P Q) (st : St S O C P), Ref d a s0 rep hash c st → st.next ≤ 2 ^ 29) {l : Limit}
    {timer : Nat → Bool} {c : CSt S O C P Q} {st : St S O C P} (r : Ref d a s0 rep hash c st) (hr : Reach d a s0 st) :
    (∀ fuel, crun d a im hash l timer (fuel + 1) c = .ok (c, ([], []))) ∨
    (∃ c' n, n < st.next ∧ c'.next = st.next ∧ ∀ fuel, crun d a im hash l timer (fuel + 1) c =
      (solpath st.nd (fuel + 1) n).map fun p => (c', p)) ∨
    ∃ c' st', Ref d a s0 rep hash c' st' ∧ Step d a st st' ∧
      ∀ fuel, crun d a im hash l timer (fuel + 1) c = crun d a im hash l timer fuel c' := by
  by_cases hstop : im.empty c.q = true ∨ climit l timer c = true
  · left
    intro fuel
    rw [crun, if_pos hstop]
  right
  rw [not_or] at hstop
  obtain ⟨n, q, e1, e2, e3⟩ := ref_pop law r hstop.1
  have es : (c.nd n).state = (st.nd n).state := by rw [r.nd n e2.1]
  by_cases hg : d.goal (st.nd n).state = true
  · left
    refine ⟨{ c with q := q }, n, e2.1, r.next, fun fuel => ?_⟩
    rw [crun, if_neg (not_or.2 hstop), e1, Outcome.bind_ok]
    dsimp only
    rw [es, if_pos hg, csolpath_eq r (inv_par (inv_reach hd ha hr)) _ e2.1]
  · right
    have e4 : ((pop n st).nd n).state = (st.nd n).state := by
      show (Function.update st.nd n _ n).state = _
      rw [Function.update_self]
    obtain ⟨c', h1, r1⟩ := tryops_ok law ha hgood hb (d.ops (st.nd n).state) e3.expd1 (n := n) e2.1
      (fun o ho => by
        have : ({ pop n st with expd := (pop n st).expd + 1 } : St S O C P).nd n = (pop n st).nd n := rfl
        rw [this, e4]
        exact ho)
    refine ⟨c', expand d a n (pop n st), ?_, .mk e2 (by simpa using hg), fun fuel => ?_⟩
    · unfold expand
      rw [e4]
      exact r1
    · rw [crun, if_neg (not_or.2 hstop), e1, Outcome.bind_ok]
      dsimp only
      rw [es, if_neg hg]
      have : cexpand d a im hash n { c with q := q } = .ok c' := by
        unfold cexpand
        show ctryops d a im hash n (d.ops (c.nd n).state) _ = _
        rw [es]
        exact h1
      rw [this, Outcome.bind_ok]

/-- The nodes have different, reachable states. -/
theorem ref_next_le {T : Finset S} (hT : ∀ s g, Walk d s0 s g → s ∈ T) {c : CSt S O C P Q} {st : St S O C P}
    (r : Ref d a s0 rep hash c st) : st.next ≤ T.card := by
  have := Finset.card_le_card_of_injOn (s := Finset.range st.next) (t := T) (fun i => (st.nd i).state)
    (fun i hi => hT _ _ (r.walk i (Finset.mem_range.1 hi)))
    (fun i hi j hj e => by
      have h1 := (r.closed _ i).2 ⟨Finset.mem_range.1 hi, rfl⟩
      have h2 := (r.closed _ j).2 ⟨Finset.mem_range.1 hj, rfl⟩
      dsimp only at e
      rw [e, h2] at h1
      injection h1 with h1
      exact h1.symm)
  rwa [Finset.card_range] at this

/-- The loop is never undefined and never fails an assertion. -/
theorem crun_safe (law : OpenLaw a.pred Good im rep) (hd : CostOk d s0) (ha : AlgOk a)
    (hgood : ∀ s g, Walk d s0 s g → Good (a.initp g s, g))
    (hb : ∀ (c : CSt S O C P Q) (st : St S O C P), Ref d a s0 rep hash c st → st.next ≤ 2 ^ 29) {l : Limit}
    {timer : Nat → Bool} (fuel : Nat) {c : CSt S O C P Q} {st : St S O C P} (r : Ref d a s0 rep hash c st)
    (hr : Reach d a s0 st) :
    crun d a im hash l timer fuel c = .nofuel ∨ ∃ x, crun d a im hash l timer fuel c = .ok x := by
  induction fuel generalizing c st with
  | zero => exact Or.inl rfl
  | succ fuel ih =>
    rcases crun_step law hd ha hgood hb (l := l) (timer := timer) r hr with h | ⟨c', n, -, -, h⟩ | ⟨c', st', h1, h2, h3⟩
    · exact Or.inr ⟨_, h fuel⟩
    · rw [h]
      rcases solpath_cases (nd := st.nd) (fuel + 1) n with ⟨p, e⟩ | e
      · rw [e]; exact Or.inr ⟨_, rfl⟩
      · rw [e]; exact Or.inl rfl
    · rw [h3]
      exact ih h1 (.step hr h2)

/-- No infinite sequence of steps starts in a reachable state. -/
theorem acc_init (hd : CostOk d s0) (ha : AlgOk a) (hf : (Reachable d s0).Finite) :
    Acc (fun st' st : St S O C P => Step d a st st') (init d a s0) := by
  by_contra hc
  have next : ∀ x : {st : St S O C P // ¬ Acc (fun st' st : St S O C P => Step d a st st') st},
      ∃ y : {st : St S O C P // ¬ Acc (fun st' st : St S O C P => Step d a st st') st}, Step d a x.1 y.1 := by
    intro x
    by_contra hn
    push Not at hn
    exact x.2 (Acc.intro _ fun y hy => by
      by_contra hy'
      exact hn ⟨y, hy'⟩ hy)
  choose f hf' using next
  refine terminates hd ha hf ⟨fun k => (f^[k] ⟨_, hc⟩).1, rfl, fun k => ?_⟩
  show Step d a (f^[k] ⟨_, hc⟩).1 (f^[k + 1] ⟨_, hc⟩).1
  rw [Function.iterate_succ_apply']
  exact hf' _

/-- The loop ends, with a result that does not depend on the fuel. -/
theorem crun_ends (law : OpenLaw a.pred Good im rep) (hd : CostOk d s0) (ha : AlgOk a)
    (hgood : ∀ s g, Walk d s0 s g → Good (a.initp g s, g))
    (hb : ∀ (c : CSt S O C P Q) (st : St S O C P), Ref d a s0 rep hash c st → st.next ≤ 2 ^ 29) {l : Limit}
    {timer : Nat → Bool} {st : St S O C P} (hacc : Acc (fun st' st : St S O C P => Step d a st st') st)
    {c : CSt S O C P Q} (r : Ref d a s0 rep hash c st) (hr : Reach d a s0 st) :
    ∃ F x, x.1.next ≤ 2 ^ 29 ∧ ∀ fuel ≥ F, crun d a im hash l timer fuel c = .ok x := by
  induction hacc generalizing c with
  | intro st _ ih =>
    rcases crun_step law hd ha hgood hb (l := l) (timer := timer) r hr with
      h | ⟨c', n, hn, hnx, h⟩ | ⟨c', st', h1, h2, h3⟩
    · refine ⟨1, (c, ([], [])), r.next ▸ hb _ _ r, fun fuel hfuel => ?_⟩
      obtain ⟨k, rfl⟩ : ∃ k, fuel = k + 1 := ⟨fuel - 1, by omega⟩
      exact h k
    · obtain ⟨F, p, e, -⟩ := solpath_spec (inv_reach hd ha hr) hn
      refine ⟨F + 1, (c', p), hnx ▸ hb _ _ r, fun fuel hfuel => ?_⟩
      obtain ⟨k, rfl⟩ : ∃ k, fuel = k + 1 := ⟨fuel - 1, by omega⟩
      rw [h, solpath_mono e (by omega)]
      rfl
    · obtain ⟨F, x, hnx, e⟩ := ih st' h2 h1 (.step hr h2)
      refine ⟨F + 1, x, hnx, fun fuel hfuel => ?_⟩
      obtain ⟨k, rfl⟩ : ∃ k, fuel = k + 1 := ⟨fuel - 1, by omega⟩
      rw [h3]
      exact e k (by omega)

end Refine

end Verif.Search
