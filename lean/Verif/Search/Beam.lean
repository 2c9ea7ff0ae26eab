import Verif.Search.Concrete

/-!
# Beam search: search/beam.hpp

`considerkid`, `expand` and `init` of beam.hpp:145-205 are those of A* with the flag `-dropdups`, so the model uses
`Search/Concrete` for them.  What differs is the main loop: it pops up to `width` nodes, empties the open list with
`clear`, which leaves the recorded indices of the dropped nodes as they are, and expands the popped nodes.

Simplifications: as in `Search/Concrete`.
-/

namespace Verif.Search

variable {S O C P Q : Type*}

/-- beam.hpp:40-56 and 145-205: the priorities and the order are those of A*; `dropdups` is an option. -/
def beamAlg [AddCommGroup C] [LinearOrder C] (h : S → C) (dd : Bool) : Alg S C C := { astar h with dropdups := dd }

section Model
variable [DecidableEq S] [DecidableEq O] [Add C] [Zero C] [LE C] [DecidableLE C]

/-- beam.hpp:101-105: the nodes of the beam are popped. -/
def bpops (im : OpenImpl (P × C) Q) (key : Nat → P × C) : Nat → Q → Outcome (List Nat × Q)
  | 0, q => .ok ([], q)
  | w + 1, q =>
    if im.empty q = true then .ok ([], q)
    else (im.pop key q).bind fun r => (bpops im key w r.2).map fun s => (r.1 :: s.1, s.2)

/-- beam.hpp:109-120: the nodes of the beam are expanded, until one is a goal. -/
def bbeam (d : Dom S O C) (a : Alg S C P) (im : OpenImpl (P × C) Q) (hash : S → Nat) (l : Limit) (timer : Nat → Bool)
    (fuel : Nat) : List Nat → CSt S O C P Q → Outcome (CSt S O C P Q × Option (List S × List O))
  | [], c => .ok (c, none)
  | n :: ns, c =>
    if climit l timer c = true then .ok (c, none)
    else if d.goal (c.nd n).state = true then (csolpath c.nd fuel n).map fun p => (c, some p)
    else (cexpand d a im hash n c).bind (bbeam d a im hash l timer fuel ns)

/-- What follows the expansion of the beam: the loop is left when a goal was found. -/
def bnext (k : CSt S O C P Q → Outcome (CSt S O C P Q × (List S × List O)))
    (x : CSt S O C P Q × Option (List S × List O)) : Outcome (CSt S O C P Q × (List S × List O)) :=
  match x.2 with
  | some p => .ok (x.1, p)
  | none => k x.1

/-- The loop beam.hpp:96-123; `fuel` bounds all loops. -/
def brun (d : Dom S O C) (a : Alg S C P) (im : OpenImpl (P × C) Q) (hash : S → Nat) (l : Limit) (timer : Nat → Bool)
    (w : Nat) : Nat → CSt S O C P Q → Outcome (CSt S O C P Q × (List S × List O))
  | 0, _ => .nofuel
  | fuel + 1, c =>
    if im.empty c.q = true ∨ climit l timer c = true then .ok (c, ([], []))
    else
      (bpops im (keyOf c.nd) w c.q).bind fun r =>
      (bbeam d a im hash l timer (fuel + 1) r.1 { c with q := im.drop r.2 }).bind
        (bnext (brun d a im hash l timer w fuel))

/-- beam.hpp:63-78: the constructor compares `width`, which has no value if the option is not given. -/
def bwidth (width : Option Int) : Outcome Nat :=
  match width with
  | none => .ub
  | some w => if w < 1 then .fatal else .ok w.toNat

/-- beam.hpp:63-125: the constructor and `search`. -/
def bsearch (d : Dom S O C) (a : Alg S C P) (im : OpenImpl (P × C) Q) (hash : S → Nat) (x : Lists Q) (l : Limit)
    (timer : Nat → Bool) (width : Option Int) (fuel : Nat) (s0 : S) : Outcome (CSt S O C P Q × (List S × List O)) :=
  (bwidth width).bind fun w => (cinit d a im hash x s0).bind (brun d a im hash l timer w fuel)

end Model

/-! ## A shadow of the open list

To show that a solution is a solution, the open list need not work at all: it is enough that the nodes it returns have
been put into it.  So the search is compared with one on a list that does work, a plain set. -/

/-- A set as an open list. -/
noncomputable def ghostImpl {κ : Type*} : OpenImpl κ (Finset Nat) where
  init := ∅
  push _ q n := .ok (insert n q)
  pop _ q := if h : q.Nonempty then .ok (h.choose, q.erase h.choose) else .ub
  pre _ q _ := .ok q
  post _ q n := .ok (insert n q)
  mem q n := decide (n ∈ q)
  empty q := decide (q = ∅)
  clear _ := ∅
  drop _ := ∅

theorem ghost_law {κ : Type*} :
    OpenLaw (κ := κ) (fun _ _ => false) (fun _ => True) ghostImpl (fun _ q s => q = s) where
  init _ := rfl
  congr _ _ _ _ h _ := h
  mem _ q s h n := by rw [← h]; simp [ghostImpl]
  empty _ q s h := by rw [← h]; simp [ghostImpl]
  push _ q s n h _ _ := ⟨insert n q, rfl, by rw [h]⟩
  pop _ q s h hne := by
    subst h
    have hq : q.Nonempty := Finset.nonempty_iff_ne_empty.2 hne
    refine ⟨hq.choose, q.erase hq.choose, ?_, hq.choose_spec, fun _ _ => rfl, rfl⟩
    show (if h : q.Nonempty then Outcome.ok (h.choose, q.erase h.choose) else .ub) = _
    rw [dif_pos hq]
  clear _ _ := rfl
  upd _ _ q s n h hn _ _ _ := ⟨q, insert n q, rfl, rfl, by rw [Finset.insert_eq_of_mem (h ▸ hn), h]⟩

/-- The two searches differ in their open lists only. -/
structure Agree (c : CSt S O C P Q) (cg : CSt S O C P (Finset Nat)) : Prop where
  nd : cg.nd = c.nd
  next : cg.next = c.next
  tab : cg.tab = c.tab
  expd : cg.expd = c.expd
  gend : cg.gend = c.gend

/-- Which nodes may be in an open list. -/
structure ElLaw {κ : Type*} (im : OpenImpl κ Q) (El : Q → Nat → Prop) : Prop where
  init : ∀ n, ¬ El im.init n
  clear : ∀ q n, ¬ El (im.clear q) n
  push : ∀ key q q' n, im.push key q n = .ok q' → ∀ m, El q' m → m = n ∨ El q m
  pop : ∀ key q q' n, im.pop key q = .ok (n, q') → El q n ∧ ∀ m, El q' m → El q m
  pre : ∀ key q q' n, im.pre key q n = .ok q' → ∀ m, El q' m → m = n ∨ El q m
  post : ∀ key q q' n, im.post key q n = .ok q' → ∀ m, El q' m → m = n ∨ El q m
  drop : ∀ q m, El (im.drop q) m → El q m

theorem heap_el {κ : Type*} (lt : κ → κ → Bool) : ElLaw (heapImpl lt) (fun q n => n ∈ q.data) where
  init n := by simp [heapImpl]
  clear q n := by simp [heapImpl, BinHeap.clear]
  push key q q' n h m hm := by
    injection h with h
    subst h
    exact List.mem_cons.1 ((BinHeap.push_perm _ _ _).mem_iff.1 hm)
  pop key q q' n h := by
    have h' : (match BinHeap.pop (BinHeap.predOf lt key) q with
      | (none, _) => Outcome.ub
      | (some n, q') => Outcome.ok (n, q')) = .ok (n, q') := h
    rcases hp : BinHeap.pop (BinHeap.predOf lt key) q with ⟨_ | y, q1⟩
    · rw [hp] at h'
      exact absurd h' (by simp)
    · rw [hp] at h'
      injection h' with h'
      rw [Prod.mk.injEq] at h'
      obtain ⟨rfl, rfl⟩ := h'
      have hperm := BinHeap.pop_perm (BinHeap.predOf lt key) q y (by rw [hp])
      rw [hp] at hperm
      exact ⟨hperm.mem_iff.2 List.mem_cons_self, fun m hm => hperm.mem_iff.2 (List.mem_cons_of_mem _ hm)⟩
  pre key q q' n h m hm := by
    injection h with h
    subst h
    exact Or.inr hm
  post key q q' n h m hm := by
    have h' : BinHeap.openPostUpdate (BinHeap.predOf lt key) q n = .ok q' := h
    rw [BinHeap.openPostUpdate] at h'
    split at h'
    · injection h' with h'
      subst h'
      exact List.mem_cons.1 ((BinHeap.push_perm _ _ _).mem_iff.1 hm)
    · rw [BinHeap.update] at h'
      split at h'
      · exact absurd h' (by simp)
      · split at h'
        · injection h' with h'
          subst h'
          right
          have h1 := (BinHeap.pushdown_perm _ _ _ _).mem_iff.1 hm
          have h2 := (BinHeap.pullup_perm _ _ _ _).mem_iff.1 h1
          rw [BinHeap.mem_toList] at h2
          exact h2
        · exact absurd h' (by simp)
  drop q m hm := absurd hm (by simp [heapImpl, BinHeap.clear])

/-- The nodes in the buckets. -/
def BucketEl (q : BucketOpen.Open Nat) (n : Nat) : Prop :=
  ∃ p < q.size, ∃ t < (q.qs p).size, n ∈ (q.qs p).bkts t

theorem maxq_push_el {q : BucketOpen.Maxq Nat} {ind : Nat → Int} {n p t m : Nat} (ht : t < (q.push ind n p).1.size)
    (hm : m ∈ (q.push ind n p).1.bkts t) : m = n ∨ t < q.size ∧ m ∈ q.bkts t := by
  unfold BucketOpen.Maxq.push at ht hm
  by_cases hs : q.size ≤ p
  · rw [if_pos hs] at ht hm
    dsimp only at ht hm
    by_cases e : t = p
    · subst e
      rw [Function.update_self, if_neg (by omega), List.nil_append, List.mem_singleton] at hm
      exact Or.inl hm
    · rw [Function.update_of_ne e] at hm
      by_cases h : t < q.size
      · rw [if_pos h] at hm
        exact Or.inr ⟨h, hm⟩
      · rw [if_neg h] at hm
        exact absurd hm (by simp)
  · rw [if_neg hs] at ht hm
    dsimp only at ht hm
    by_cases e : t = p
    · subst e
      rw [Function.update_self, List.mem_append, List.mem_singleton] at hm
      exact hm.symm.imp id fun h => ⟨ht, h⟩
    · rw [Function.update_of_ne e] at hm
      exact Or.inr ⟨ht, hm⟩

theorem bucket_push_el {q q' : BucketOpen.Open Nat} {n : Nat} (h : BucketOpen.push q n = .ok q') {m : Nat}
    (hm : BucketEl q' m) : m = n ∨ BucketEl q m := by
  rw [BucketOpen.push] at h
  split at h
  · exact absurd h (by simp)
  · injection h with h
    subst h
    obtain ⟨p, hp, t, ht, hm⟩ := hm
    dsimp only at hp ht hm
    by_cases hs : q.size ≤ (q.prio n).toNat
    · rw [if_pos hs] at hp ht hm
      dsimp only at hp ht hm
      by_cases e : p = (q.prio n).toNat
      · subst e
        rw [Function.update_self] at ht hm
        rcases maxq_push_el ht hm with h | ⟨-, h⟩
        · exact Or.inl h
        · rw [if_neg (by omega)] at h
          exact absurd h (by simp [BucketOpen.Maxq.fresh])
      · rw [Function.update_of_ne e] at ht hm
        by_cases hps : p < q.size
        · rw [if_pos hps] at ht hm
          exact Or.inr ⟨p, hps, t, ht, hm⟩
        · rw [if_neg hps] at hm
          exact absurd hm (by simp [BucketOpen.Maxq.fresh])
    · rw [if_neg hs] at hp ht hm
      by_cases e : p = (q.prio n).toNat
      · subst e
        rw [Function.update_self] at ht hm
        rcases maxq_push_el ht hm with h | ⟨h1, h⟩
        · exact Or.inl h
        · exact Or.inr ⟨_, hp, t, h1, h⟩
      · rw [Function.update_of_ne e] at ht hm
        exact Or.inr ⟨p, hp, t, ht, hm⟩

theorem scanDown_le (bkts : Nat → List Nat) (m : Nat) : BucketOpen.scanDown bkts m ≤ m := by
  induction m with
  | zero => exact le_rfl
  | succ m ih =>
    rw [BucketOpen.scanDown]
    split
    · exact le_trans ih (Nat.le_succ m)
    · exact le_rfl

theorem maxq_pop_el {q q' : BucketOpen.Maxq Nat} {ind ind' : Nat → Int} {n : Nat}
    (h : q.pop ind = .ok (n, q', ind')) :
    (∃ t < q.size, n ∈ q.bkts t) ∧ q'.size = q.size ∧ ∀ t m, m ∈ q'.bkts t → m ∈ q.bkts t := by
  unfold BucketOpen.Maxq.pop at h
  split at h
  · exact absurd h (by simp)
  · rename_i hs
    have hle := scanDown_le q.bkts q.max
    simp only at h
    split at h
    · exact absurd h (by simp)
    · rename_i n' hl
      injection h with h
      rw [Prod.mk.injEq, Prod.mk.injEq] at h
      obtain ⟨rfl, rfl, -⟩ := h
      refine ⟨⟨_, by omega, List.mem_of_getLast? hl⟩, rfl, fun t m hm => ?_⟩
      dsimp only at hm
      by_cases e : t = BucketOpen.scanDown q.bkts q.max
      · subst e
        rw [Function.update_self] at hm
        exact List.mem_of_mem_dropLast hm
      · rwa [Function.update_of_ne e] at hm

theorem bucket_pop_el {q q' : BucketOpen.Open Nat} {n : Nat} (h : BucketOpen.pop q = .ok (n, q')) :
    BucketEl q n ∧ ∀ m, BucketEl q' m → BucketEl q m := by
  rw [BucketOpen.pop] at h
  split at h
  · exact absurd h (by simp)
  · rename_i hs
    rw [Outcome.bind_eq_ok] at h
    obtain ⟨⟨n', q1, ind'⟩, h1, h⟩ := h
    split at h
    · injection h with h
      rw [Prod.mk.injEq] at h
      obtain ⟨rfl, rfl⟩ := h
      obtain ⟨⟨t, ht, hn⟩, e1, e2⟩ := maxq_pop_el h1
      refine ⟨⟨_, by omega, t, ht, hn⟩, ?_⟩
      rintro m ⟨p, hp, t', ht', hm⟩
      dsimp only at hp ht' hm
      by_cases e : p = BucketOpen.scanUp q.qs (q.size - q.min) q.min
      · subst e
        rw [Function.update_self] at ht' hm
        exact ⟨_, hp, t', e1 ▸ ht', e2 _ _ hm⟩
      · rw [Function.update_of_ne e] at ht' hm
        exact ⟨p, hp, t', ht', hm⟩
    · exact absurd h (by simp)

theorem maxq_rm_el {q q' : BucketOpen.Maxq Nat} {ind ind' : Nat → Int} {n p : Nat}
    (h : q.rm ind n p = .ok (q', ind')) : q'.size = q.size ∧ ∀ t m, m ∈ q'.bkts t → m ∈ q.bkts t := by
  unfold BucketOpen.Maxq.rm at h
  split at h
  · exact absurd h (by simp)
  · simp only at h
    split at h
    · exact absurd h (by simp)
    · split at h
      · exact absurd h (by simp)
      · rename_i last hl
        injection h with h
        rw [Prod.mk.injEq] at h
        obtain ⟨rfl, -⟩ := h
        refine ⟨rfl, fun t m hm => ?_⟩
        dsimp only at hm
        by_cases e : t = p
        · subst e
          rw [Function.update_self] at hm
          have hm := List.mem_of_mem_dropLast hm
          split at hm
          · rcases List.mem_or_eq_of_mem_set hm with h | rfl
            · exact h
            · exact List.mem_of_getLast? hl
          · exact hm
        · rwa [Function.update_of_ne e] at hm

theorem bucket_el : ElLaw bucketImpl BucketEl where
  init n := by
    rintro ⟨p, -, t, -, h⟩
    simp [bucketImpl, BucketOpen.init, BucketOpen.Maxq.fresh] at h
  clear q n := by
    rintro ⟨p, hp, -⟩
    exact absurd hp (Nat.not_lt_zero p)
  push key q q' n h m hm := bucket_push_el (q := withKey key q) h hm
  pop key q q' n h := bucket_pop_el (q := withKey key q) h
  pre key q q' n h m hm := by
    have h' : BucketOpen.preUpdate (withKey key q) n = .ok q' := h
    rw [BucketOpen.preUpdate] at h'
    split at h'
    · injection h' with h'
      subst h'
      exact Or.inr hm
    · split at h'
      · exact absurd h' (by simp)
      · split at h'
        · exact absurd h' (by simp)
        · rw [Outcome.map_eq_ok] at h'
          obtain ⟨⟨q1, ind'⟩, h1, h'⟩ := h'
          subst h'
          obtain ⟨e1, e2⟩ := maxq_rm_el h1
          obtain ⟨p, hp, t, ht, hm⟩ := hm
          right
          dsimp only at hp ht hm
          by_cases e : p = ((withKey key q).prio n).toNat
          · subst e
            rw [Function.update_self] at ht hm
            exact ⟨_, hp, t, e1 ▸ ht, e2 _ _ hm⟩
          · rw [Function.update_of_ne e] at ht hm
            exact ⟨p, hp, t, ht, hm⟩
  post key q q' n h m hm := by
    have h' : BucketOpen.postUpdate (withKey key q) n = .ok q' := h
    rw [BucketOpen.postUpdate] at h'
    split at h'
    · exact bucket_push_el (q := withKey key q) h' hm
    · exact absurd h' (by simp)
  drop q m hm := by
    obtain ⟨p, hp, -⟩ := hm
    exact absurd hp (Nat.not_lt_zero p)

section Sound
variable [DecidableEq S] [DecidableEq O] [AddCommGroup C] [LinearOrder C] [IsOrderedAddMonoid C]
  {d : Dom S O C} {a : Alg S C P} {s0 : S} {im : OpenImpl (P × C) Q} {El : Q → Nat → Prop} {hash : S → Nat}

theorem agree_considerkid (el : ElLaw im El) {c c' : CSt S O C P Q} {cg : CSt S O C P (Finset Nat)} (hag : Agree c cg)
    {n : Nat} {o : O} (hn : n < c.next) (hel : ∀ m, El c.q m → m < c.next)
    (hfind : ∀ k t, Hash.find (hops hash c.nd) (c.next + 1) c.tab t (hash t) = .ok (some k) → k < c.next)
    (h : cconsiderkid d a im hash n o c = .ok c') :
    ∃ cg', cconsiderkid d a ghostImpl hash n o cg = .ok cg' ∧ Agree c' cg' ∧ ∀ m, El c'.q m → m < c'.next := by
  unfold cconsiderkid at h ⊢
  rw [hag.nd, hag.next, hag.tab]
  simp only [Outcome.bind_eq_ok] at h
  obtain ⟨r, h0, h⟩ := h
  simp only
  rw [h0, Outcome.bind_ok]
  cases r with
  | none =>
    simp only [Outcome.bind_eq_ok] at h ⊢
    obtain ⟨tab, h1, q, h2, h⟩ := h
    injection h with h
    subst h
    refine ⟨_, ⟨tab, h1, _, rfl, rfl⟩, ⟨rfl, rfl, rfl, hag.expd, hag.gend⟩, fun m hm => ?_⟩
    rcases el.push _ _ _ _ h2 m hm with rfl | h
    · exact Nat.lt_succ_self _
    · exact Nat.lt_succ_of_lt (hel m h)
  | some k =>
    dsimp only at h ⊢
    by_cases hc : a.dropdups = true ∨ (c.nd k).g ≤ (c.nd n).g + d.cost (c.nd n).state o
    · rw [if_pos hc] at h ⊢
      injection h with h
      subst h
      exact ⟨_, rfl, ⟨rfl, rfl, rfl, hag.expd, hag.gend⟩, hel⟩
    · rw [if_neg hc] at h ⊢
      simp only [Outcome.bind_eq_ok] at h
      obtain ⟨q1, h1, q2, h2, h⟩ := h
      injection h with h
      subst h
      have hk := hfind k _ h0
      have e1 : ∀ m, El q1 m → m < c.next := fun m hm => by
        by_cases hi : im.mem c.q k = true
        · rw [if_pos hi] at h1
          rcases el.pre _ _ _ _ h1 m hm with rfl | h
          · exact hk
          · exact hel m h
        · rw [if_neg hi] at h1
          injection h1 with h1
          subst h1
          exact hel m hm
      have e2 : ∀ m, El q2 m → m < c.next := fun m hm => by
        by_cases hi : im.mem c.q k = true
        · rw [if_pos hi] at h2
          rcases el.post _ _ _ _ h2 m hm with rfl | h
          · exact hk
          · exact e1 m h
        · rw [if_neg hi] at h2
          rcases el.push _ _ _ _ h2 m hm with rfl | h
          · exact hk
          · exact e1 m h
      have gp1 : ∀ key : Nat → P × C, (if (ghostImpl (κ := P × C)).mem cg.q k = true then (ghostImpl (κ := P × C)).pre key cg.q k else .ok cg.q) = Outcome.ok cg.q := by
        intro key
        by_cases hi : (ghostImpl (κ := P × C)).mem cg.q k = true
        · rw [if_pos hi]; rfl
        · rw [if_neg hi]
      have gp2 : ∀ key : Nat → P × C, (if (ghostImpl (κ := P × C)).mem cg.q k = true then (ghostImpl (κ := P × C)).post key cg.q k else (ghostImpl (κ := P × C)).push key cg.q k) =
          Outcome.ok (insert k cg.q) := by
        intro key
        by_cases hi : (ghostImpl (κ := P × C)).mem cg.q k = true
        · rw [if_pos hi]; rfl
        · rw [if_neg hi]; rfl
      rw [gp1, Outcome.bind_ok, gp2, Outcome.bind_ok]
      exact ⟨_, rfl, ⟨rfl, rfl, rfl, hag.expd, hag.gend⟩, e2⟩

/-- The relation kept by the loops: the shadow stands for an abstract state with the invariant of best-first search. -/
structure Sound (d : Dom S O C) (a : Alg S C P) (s0 : S) (El : Q → Nat → Prop) (hash : S → Nat) (c : CSt S O C P Q) :
    Prop where
  ghost : ∃ cg st, Agree c cg ∧ Ref d a s0 (fun _ q s => q = s) hash cg st ∧ Inv d a s0 st
  el : ∀ m, El c.q m → m < c.next

theorem find_lt {cg : CSt S O C P (Finset Nat)} {st : St S O C P}
    (r : Ref d a s0 (fun _ q s => q = s) hash cg st) (k : Nat) (t : S)
    (h : Hash.find (hops hash cg.nd) (cg.next + 1) cg.tab t (hash t) = .ok (some k)) : k < cg.next := by
  obtain ⟨res, f1, f2, -⟩ := Hash.find_rep r.tab (hops_hashOk cg.nd) (cg.next + 1)
    (by rw [Finset.card_range, r.next]; omega) t
  have f1' : Hash.find (hops hash cg.nd) (cg.next + 1) cg.tab t (hash t) = .ok res := f1
  rw [h] at f1'
  injection f1' with f1'
  have := (f2 k f1'.symm).1
  rw [r.next]
  exact Finset.mem_range.1 this

/-- The loop of `expand` in both searches. -/
theorem agree_tryops (el : ElLaw im El) (ha : AlgOk a) (os : List O) {c c' : CSt S O C P Q}
    {cg : CSt S O C P (Finset Nat)} {st : St S O C P} (hag : Agree c cg)
    (r : Ref d a s0 (fun _ q s => q = s) hash cg st) {n : Nat} (hn : n < st.next) (hel : ∀ m, El c.q m → m < c.next)
    (ho : ∀ o ∈ os, o ∈ d.ops (st.nd n).state)
    (h : ctryops d a im hash n os c = .ok c') (hN : c'.next ≤ 2 ^ 29) :
    ∃ cg', Agree c' cg' ∧ Ref d a s0 (fun _ q s => q = s) hash cg' (os.foldl (tryop d a n) st) ∧
      ∀ m, El c'.q m → m < c'.next := by
  induction os generalizing c cg st with
  | nil =>
    rw [ctryops] at h
    injection h with h
    subst h
    exact ⟨cg, hag, r, hel⟩
  | cons o os ih =>
    have hb : st.next ≤ 2 ^ 29 := by rw [← r.next, hag.next]; exact le_trans (ctryops_next _ h) hN
    obtain ⟨cg1, e1, r1⟩ := ref_tryops1 (Good := fun _ => True) (ghost_law (κ := P × C)) ha (fun _ _ _ => trivial) r hb hn []
      (ho o List.mem_cons_self)
    have hs := tryop_state (d := d) (a := a) (n := n) (o := o) hn
    have hst : (cg.nd n).pop = (c.nd n).pop := by rw [hag.nd]
    rw [ctryops, ctryops, hst] at e1
    rw [ctryops] at h
    by_cases hp : o = (c.nd n).pop
    · rw [if_pos hp] at h e1
      injection e1 with e1
      subst e1
      exact ih hag r1 (lt_of_lt_of_le hn (tryop_next st n o)) hel
        (fun o' h' => by rw [hs]; exact ho o' (List.mem_cons_of_mem _ h')) h
    · rw [if_neg hp] at h e1
      rw [Outcome.bind_eq_ok] at h
      obtain ⟨c1, h1, h2⟩ := h
      have hag1 : Agree { c with gend := c.gend + 1 } { cg with gend := cg.gend + 1 } :=
        ⟨hag.nd, hag.next, hag.tab, hag.expd, congrArg (· + 1) hag.gend⟩
      obtain ⟨cg2, f1, f2, f3⟩ := agree_considerkid el hag1
        (show n < c.next by rw [← hag.next, r.next]; exact hn) hel
        (fun k t hk => by
          have := find_lt r k t (by rw [hag.nd, hag.next, hag.tab]; exact hk)
          rw [hag.next] at this
          exact this) h1
      rw [f1, Outcome.bind_ok] at e1
      rw [ctryops] at e1
      injection e1 with e1
      subst e1
      exact ih f2 r1 (lt_of_lt_of_le hn (tryop_next st n o)) f3
        (fun o' h' => by rw [hs]; exact ho o' (List.mem_cons_of_mem _ h')) h2

/-- A node leaves the shadow, whether it is in it or not. -/
theorem Sound.expand (el : ElLaw im El) (hd : CostOk d s0) (ha : AlgOk a) {c c' : CSt S O C P Q}
    (hs : Sound d a s0 El hash c) {n : Nat} (hn : n < c.next) (hg : d.goal (c.nd n).state = false)
    (h : cexpand d a im hash n c = .ok c') (hN : c'.next ≤ 2 ^ 29) : Sound d a s0 El hash c' := by
  obtain ⟨⟨cg, st, hag, r, inv⟩, hel⟩ := hs
  have hn' : n < st.next := by rw [← r.next, hag.next]; exact hn
  have r1 : Ref d a s0 (fun _ q s => q = s) hash { cg with q := cg.q.erase n } (pop n st) :=
    r.popn (show cg.q.erase n = _ by rw [r.q])
  have es : (c.nd n).state = (st.nd n).state := by rw [← hag.nd, r.nd n hn']
  have e4 : ((pop n st).nd n).state = (st.nd n).state := by
    show (Function.update st.nd n _ n).state = _
    rw [Function.update_self]
  have hag1 : Agree { c with expd := c.expd + 1 } { cg with q := cg.q.erase n, expd := cg.expd + 1 } :=
    ⟨hag.nd, hag.next, hag.tab, congrArg (· + 1) hag.expd, hag.gend⟩
  obtain ⟨cg', h1, h2, h3⟩ := agree_tryops el ha (d.ops (c.nd n).state) hag1 r1.expd1 hn' hel
    (fun o ho => by
      have : ({ pop n st with expd := (pop n st).expd + 1 } : St S O C P).nd n = (pop n st).nd n := rfl
      rw [this, e4, ← es]
      exact ho) h hN
  refine ⟨⟨cg', Search.expand d a n (pop n st), h1, ?_, inv.expand hd ha hn' (by rw [← es]; exact hg)⟩, h3⟩
  unfold Search.expand
  rw [e4, ← es]
  exact h2

/-- What a returned path is. -/
def Okay (d : Dom S O C) (s0 : S) (p : List S × List O) : Prop :=
  ∃ s g, IsSol d s0 s g p ∧ d.goal s = true

theorem bbeam_next (ns : List Nat) {l : Limit} {timer : Nat → Bool} {fuel : Nat} {c : CSt S O C P Q}
    {x : CSt S O C P Q × Option (List S × List O)} (h : bbeam d a im hash l timer fuel ns c = .ok x) :
    c.next ≤ x.1.next := by
  induction ns generalizing c with
  | nil => rw [bbeam] at h; injection h with h; rw [← h]
  | cons n ns ih =>
    rw [bbeam] at h
    split at h
    · injection h with h; rw [← h]
    · split at h
      · rw [Outcome.map_eq_ok] at h
        obtain ⟨p, -, h⟩ := h
        rw [← h]
      · rw [Outcome.bind_eq_ok] at h
        obtain ⟨c1, h1, h2⟩ := h
        have hnx := ctryops_next _ h1
        exact le_trans hnx (ih h2)

theorem Sound.bbeam (el : ElLaw im El) (hd : CostOk d s0) (ha : AlgOk a) (ns : List Nat) {l : Limit}
    {timer : Nat → Bool} {fuel : Nat} {c : CSt S O C P Q} {x : CSt S O C P Q × Option (List S × List O)}
    (hs : Sound d a s0 El hash c) (hns : ∀ n ∈ ns, n < c.next)
    (h : bbeam d a im hash l timer fuel ns c = .ok x) (hN : x.1.next ≤ 2 ^ 29) :
    Sound d a s0 El hash x.1 ∧ ∀ p, x.2 = some p → Okay d s0 p := by
  induction ns generalizing c with
  | nil =>
    rw [Search.bbeam] at h
    injection h with h
    subst h
    exact ⟨hs, fun p hp => absurd hp (by simp)⟩
  | cons n ns ih =>
    rw [Search.bbeam] at h
    have hn := hns n List.mem_cons_self
    split at h
    · injection h with h
      subst h
      exact ⟨hs, fun p hp => absurd hp (by simp)⟩
    · split at h
      · rename_i hg
        rw [Outcome.map_eq_ok] at h
        obtain ⟨p, h1, h⟩ := h
        subst h
        refine ⟨hs, fun p' hp => ?_⟩
        injection hp with hp
        subst hp
        obtain ⟨⟨cg, st, hag, r, inv⟩, -⟩ := hs
        have hn' : n < st.next := by rw [← r.next, hag.next]; exact hn
        rw [← hag.nd, csolpath_eq r (inv_par inv) _ hn'] at h1
        refine ⟨_, _, solpath_ok inv hn' h1, ?_⟩
        rw [← hag.nd, r.nd n hn'] at hg
        exact hg
      · rename_i hg
        rw [Outcome.bind_eq_ok] at h
        obtain ⟨c1, h1, h2⟩ := h
        have hnx := ctryops_next _ h1
        exact ih (hs.expand el hd ha hn (by simpa using hg) h1 (le_trans (bbeam_next _ h2) hN))
          (fun m hm => lt_of_lt_of_le (hns m (List.mem_cons_of_mem _ hm)) hnx) h2

theorem bpops_el (el : ElLaw im El) {key : Nat → P × C} (w : Nat) {q : Q} {x : List Nat × Q}
    (h : bpops im key w q = .ok x) : (∀ n ∈ x.1, El q n) ∧ ∀ n, El x.2 n → El q n := by
  induction w generalizing q x with
  | zero => rw [bpops] at h; injection h with h; subst h; exact ⟨fun n hn => absurd hn (by simp), fun _ h => h⟩
  | succ w ih =>
    rw [bpops] at h
    split at h
    · injection h with h; subst h; exact ⟨fun n hn => absurd hn (by simp), fun _ h => h⟩
    · rw [Outcome.bind_eq_ok] at h
      obtain ⟨⟨n, q'⟩, h1, h⟩ := h
      rw [Outcome.map_eq_ok] at h
      obtain ⟨y, h2, h⟩ := h
      subst h
      obtain ⟨e1, e2⟩ := el.pop _ _ _ _ h1
      obtain ⟨i1, i2⟩ := ih h2
      refine ⟨fun m hm => ?_, fun m hm => e2 m (i2 m hm)⟩
      rcases List.mem_cons.1 hm with rfl | hm
      · exact e1
      · exact e2 m (i1 m hm)

theorem Sound.dropq (el : ElLaw im El) {c : CSt S O C P Q} (hs : Sound d a s0 El hash c) {q : Q}
    (hq : ∀ n, El q n → El c.q n) : Sound d a s0 El hash { c with q := im.drop q } := by
  obtain ⟨⟨cg, st, hag, r, inv⟩, hel⟩ := hs
  exact ⟨⟨cg, st, ⟨hag.nd, hag.next, hag.tab, hag.expd, hag.gend⟩, r, inv⟩,
    fun m hm => hel m (hq m (el.drop _ _ hm))⟩

theorem brun_next (fuel : Nat) {l : Limit} {timer : Nat → Bool} {w : Nat} {c : CSt S O C P Q}
    {x : CSt S O C P Q × (List S × List O)} (h : brun d a im hash l timer w fuel c = .ok x) :
    c.next ≤ x.1.next := by
  induction fuel generalizing c with
  | zero => exact absurd h (by simp [brun])
  | succ fuel ih =>
    rw [brun] at h
    split at h
    · injection h with h; rw [← h]
    · rw [Outcome.bind_eq_ok] at h
      obtain ⟨r, h1, h⟩ := h
      rw [Outcome.bind_eq_ok] at h
      obtain ⟨y, h2, h⟩ := h
      have hb := bbeam_next _ h2
      unfold bnext at h
      cases hy : y.2 with
      | some p => rw [hy] at h; injection h with h; rw [← h]; exact hb
      | none => rw [hy] at h; exact le_trans hb (ih h)

theorem Sound.brun (el : ElLaw im El) (hd : CostOk d s0) (ha : AlgOk a) (fuel : Nat) {l : Limit}
    {timer : Nat → Bool} {w : Nat} {c : CSt S O C P Q} {x : CSt S O C P Q × (List S × List O)}
    (hs : Sound d a s0 El hash c) (h : brun d a im hash l timer w fuel c = .ok x) (hN : x.1.next ≤ 2 ^ 29) :
    Sound d a s0 El hash x.1 ∧ (x.2 ≠ ([], []) → Okay d s0 x.2) := by
  induction fuel generalizing c with
  | zero => exact absurd h (by simp [Search.brun])
  | succ fuel ih =>
    rw [Search.brun] at h
    split at h
    · injection h with h
      subst h
      exact ⟨hs, fun hp => absurd rfl hp⟩
    · rw [Outcome.bind_eq_ok] at h
      obtain ⟨r, h1, h⟩ := h
      rw [Outcome.bind_eq_ok] at h
      obtain ⟨y, h2, h⟩ := h
      obtain ⟨p1, p2⟩ := bpops_el el _ h1
      have hs1 := hs.dropq el p2
      unfold bnext at h
      cases hy : y.2 with
      | some p =>
        rw [hy] at h
        injection h with h
        subst h
        obtain ⟨b1, b2⟩ := hs1.bbeam el hd ha _ (fun n hn => hs.el n (p1 n hn)) h2 hN
        exact ⟨b1, fun _ => b2 p hy⟩
      | none =>
        rw [hy] at h
        obtain ⟨b1, -⟩ := hs1.bbeam el hd ha _ (fun n hn => hs.el n (p1 n hn)) h2
          (le_trans (brun_next _ h) hN)
        exact ih b1 h

/-- Lists without nodes. -/
def Clean (El : Q → Nat → Prop) (x : Lists Q) : Prop :=
  (∀ n, ¬ El x.1 n) ∧ ∃ nb nxt, 0 < nb ∧ x.2 = ⟨List.replicate nb none, nxt, 0⟩

theorem Sound.clean (el : ElLaw im El) {c : CSt S O C P Q} (hs : Sound d a s0 El hash c) (nxt : Nat → Option Nat) :
    Clean El (reset im nxt c) := by
  obtain ⟨⟨cg, st, hag, r, inv⟩, hel⟩ := hs
  obtain ⟨M, t⟩ := r.tab
  exact ⟨el.clear _, c.tab.bins.length, nxt, hag.tab ▸ t.pos, rfl⟩

theorem Sound.cinit (el : ElLaw im El) {x : Lists Q} (hx : Clean El x) {c : CSt S O C P Q}
    (h : cinit d a im hash x s0 = .ok c) : Sound d a s0 El hash c := by
  obtain ⟨cg, e, r⟩ := ref_init (d := d) (a := a) (s0 := s0) (hash := hash) (Good := fun _ => True)
    (ghost_law (κ := P × C)) (fun _ _ _ => trivial) (x := (∅, x.2)) ⟨fun _ => rfl, hx.2⟩
  unfold Search.cinit at h e
  simp only [Outcome.bind_eq_ok] at h e
  obtain ⟨tab, h1, q, h2, h⟩ := h
  obtain ⟨tab', e1, q', e2, e⟩ := e
  injection h with h
  injection e with e
  rw [h1] at e1
  injection e1 with e1
  subst h e e1
  refine ⟨⟨_, _, ⟨rfl, rfl, rfl, rfl, rfl⟩, r, inv_init⟩, fun m hm => ?_⟩
  rcases el.push _ _ _ _ h2 m hm with rfl | h
  · exact Nat.one_pos
  · exact absurd h (hx.1 m)

theorem bsearch_sound (el : ElLaw im El) (hd : CostOk d s0) (ha : AlgOk a) {x : Lists Q} (hx : Clean El x) {l : Limit}
    {timer : Nat → Bool} {width : Option Int} {fuel : Nat} {y : CSt S O C P Q × (List S × List O)}
    (h : bsearch d a im hash x l timer width fuel s0 = .ok y) (hN : y.1.next ≤ 2 ^ 29) :
    Sound d a s0 El hash y.1 ∧ (y.2 ≠ ([], []) → Okay d s0 y.2) := by
  unfold bsearch at h
  simp only [Outcome.bind_eq_ok] at h
  obtain ⟨w, -, c, h1, h2⟩ := h
  exact (Sound.cinit el hx h1).brun el hd ha fuel h2 hN

end Sound

end Verif.Search
