import Verif.Search.BeamThms
import Verif.Props.Concrete

/-!
# C68: beam search

search/beam.hpp on the open and closed lists of the code: what it returns is a solution; with `-dropdups`, or with a
beam that no layer exceeds, it is never undefined, ends and, in the second case, finds a solution if there is one.
Without `-dropdups` a narrow beam breaks its open list: `clear` leaves the indices of the dropped nodes as they are, and
when such a node is reached again, more cheaply, it is taken to be open.
-/

namespace Verif.Search

variable {S O C P Q : Type*} [DecidableEq S] [DecidableEq O]

theorem beamAlg_ok [AddCommGroup C] [LinearOrder C] (h : S → C) (dd : Bool) : AlgOk (beamAlg h dd) := astar_ok h

/-! ## Search objects -/

section Objects
variable [AddCommGroup C] [LinearOrder C]

/-- The lists of a beam search object that is ready for a search: those of a new object, and those of an object on which
any number of searches, of any domains and each followed by `reset`, have returned. -/
inductive BeamObj (im : OpenImpl (C × C) Q) (S O : Type*) [DecidableEq S] [DecidableEq O] : Lists Q → Prop
  | new (sz : Nat) (hsz : 0 < sz % 2 ^ 32) (nxt : Nat → Option Nat) : BeamObj im S O (newLists im sz nxt)
  | again (x : Lists Q) (d : Dom S O C) (h : S → C) (dd : Bool) (s0 : S) (hash : S → Nat) (l : Limit)
      (timer : Nat → Bool) (width : Option Int) (fuel : Nat) (c : CSt S O C C Q) (p : List S × List O)
      (nxt : Nat → Option Nat) (hx : BeamObj im S O x) (hd : CostOk d s0)
      (hs : bsearch d (beamAlg h dd) im hash x l timer width fuel s0 = .ok (c, p)) (hn : c.next ≤ 2 ^ 29) :
      BeamObj im S O (reset im nxt c)

theorem BeamObj.clean [IsOrderedAddMonoid C] {im : OpenImpl (C × C) Q} {El : Q → Nat → Prop} (el : ElLaw im El)
    {x : Lists Q} (hx : BeamObj im S O x) : Clean El x := by
  induction hx with
  | new sz hsz nxt => exact ⟨el.init, sz % 2 ^ 32, nxt, hsz, rfl⟩
  | again x d h dd s0 hash l timer width fuel c p nxt hx hd hs hn ih =>
    exact (bsearch_sound el hd (beamAlg_ok h dd) ih hs hn).1.clean el nxt

theorem BeamObj.fresh [IsOrderedAddMonoid C] {im : OpenImpl (C × C) Q} {El : Q → Nat → Prop} (el : ElLaw im El)
    {lt : C × C → C × C → Bool} {Good : C × C → Prop} {rep : (Nat → C × C) → Q → Finset Nat → Prop}
    {im' : OpenImpl (C × C) Q} (hi : im'.init = im.init) (hc : im'.clear = im.clear) (law : OpenLaw lt Good im' rep)
    {x : Lists Q} (hx : BeamObj im S O x) : Fresh rep x := by
  refine ⟨fun key => ?_, (hx.clean el).2⟩
  cases hx with
  | new sz hsz nxt =>
    show rep key im.init ∅
    rw [← hi]
    exact law.init key
  | again x d h dd s0 hash l timer width fuel c p nxt hx hd hs hn =>
    show rep key (im.clear c.q) ∅
    rw [← hc]
    exact law.clear key c.q

theorem okay_solution [IsOrderedAddMonoid C] {d : Dom S O C} {s0 : S} {p : List S × List O} (h : Okay d s0 p) :
    ∃ c, Solution d s0 p c := by
  obtain ⟨s, g, ⟨ss, c, h1, h2, -, h3⟩, hg⟩ := h
  exact ⟨c, ss, h1, h2, s, h3, hg⟩

theorem solution_solvable [IsOrderedAddMonoid C] {d : Dom S O C} {s0 : S} {p : List S × List O} {c : C}
    (h : Solution d s0 p c) : Solvable d s0 := by
  obtain ⟨ss, s1, s2, t, s3, s4⟩ := h
  exact ⟨_, ss, t, c, s2, by rw [← s1, List.getLast?_reverse]; exact s3, s4⟩

theorem solvable_walk [IsOrderedAddMonoid C] {d : Dom S O C} {s0 : S} (h : Solvable d s0) :
    ∃ t c, Walk d s0 t c ∧ d.goal t = true := by
  obtain ⟨ops, ss, t, c, h1, h2, h3⟩ := h
  have hw := h1.walk
  rw [List.getLast?_eq_some_getLast (by simp)] at h2
  rw [Option.some.inj h2] at hw
  exact ⟨t, c, hw, h3⟩

end Objects

/-! ## What is returned is a solution -/

section Solutions
variable [AddCommGroup C] [LinearOrder C] [IsOrderedAddMonoid C] {d : Dom S O C} {s0 : S} {hash : S → Nat} {l : Limit}
  {timer : Nat → Bool} {width : Option Int} {fuel : Nat}

/-- **C68 (solutions, heap).** Whatever the width and the options, and although the open list may be broken: if beam
search returns and the path it returns is not empty, then it leads from the initial state to a goal. -/
theorem c68_solution_heap (hd : CostOk d s0) {h : S → C} {dd : Bool} {lt : C × C → C × C → Bool}
    {x : Lists (BinHeap.Heap Nat)} (hx : BeamObj (heapImpl lt) S O x) {c : CSt S O C C (BinHeap.Heap Nat)}
    {p : List S × List O}
    (hr : bsearch d (beamAlg h dd) (heapImpl lt) hash x l timer width fuel s0 = .ok (c, p)) (hN : c.next ≤ 2 ^ 29)
    (hp : p ≠ ([], [])) : ∃ c, Solution d s0 p c :=
  okay_solution ((bsearch_sound (heap_el lt) hd (beamAlg_ok h dd) (hx.clean (heap_el lt)) hr hN).2 hp)

/-- **C68 (solutions, buckets).** -/
theorem c68_solution_buckets {d : Dom S O Int} (hd : CostOk d s0) {h : S → Int} {dd : Bool}
    {x : Lists (BucketOpen.Open Nat)} (hx : BeamObj bucketImpl S O x) {c : CSt S O Int Int (BucketOpen.Open Nat)}
    {p : List S × List O}
    (hr : bsearch d (beamAlg h dd) bucketImpl hash x l timer width fuel s0 = .ok (c, p)) (hN : c.next ≤ 2 ^ 29)
    (hp : p ≠ ([], [])) : ∃ c, Solution d s0 p c :=
  okay_solution ((bsearch_sound bucket_el hd (beamAlg_ok h dd) (hx.clean bucket_el) hr hN).2 hp)

end Solutions

/-! ## The beam -/

/-- **C68 (the beam, heap).** The nodes taken from an open list that holds `s` are the `w` best ones, or all if there
are not as many: no node that is left precedes one of them.  They are expanded best first. -/
theorem c68_beam_heap [AddCommGroup C] [LinearOrder C] [IsOrderedAddMonoid C] {lt : C × C → C × C → Bool} (hp : BinHeap.StrictWeak lt)
    {key : Nat → C × C} {q : BinHeap.Heap Nat} {s : Finset Nat} (hq : HeapRep lt key q s) (w : Nat) :
    ∃ ns q', bpops (heapImpl lt) key w q = .ok (ns, q') ∧ ns.Nodup ∧ (∀ n ∈ ns, n ∈ s) ∧ ns.length = min w s.card ∧
      (∀ n ∈ ns, ∀ m ∈ s, m ∉ ns → lt (key m) (key n) = false) ∧
      ns.Pairwise fun n m => lt (key m) (key n) = false := by
  obtain ⟨ns, q', h1, h2, h3, h4, -, h6, h7⟩ := bpops_rep (heap_law hp) w hq
  exact ⟨ns, q', h1, h2, h3, h4, h6, h7⟩

/-- **C68 (the beam, buckets).** -/
theorem c68_beam_buckets {key : Nat → Int × Int} {q : BucketOpen.Open Nat} {s : Finset Nat} (hq : BucketRep key q s)
    (w : Nat) :
    ∃ ns q', bpops bucketImpl key w q = .ok (ns, q') ∧ ns.Nodup ∧ (∀ n ∈ ns, n ∈ s) ∧ ns.length = min w s.card ∧
      (∀ n ∈ ns, ∀ m ∈ s, m ∉ ns → bucketLt (key m) (key n) = false) ∧
      ns.Pairwise fun n m => bucketLt (key m) (key n) = false := by
  obtain ⟨ns, q', h1, h2, h3, h4, -, h6, h7⟩ := bpops_rep bucket_law w hq
  exact ⟨ns, q', h1, h2, h3, h4, h6, h7⟩

/-! ## With `-dropdups` -/

section Drop
variable [AddCommGroup C] [LinearOrder C] [IsOrderedAddMonoid C] {d : Dom S O C} {s0 : S} {hash : S → Nat} {l : Limit}
  {timer : Nat → Bool} {width : Int}

/-- **C68 (`-dropdups`, heap).** With `-dropdups` and at most 2^29 reachable states beam search of any width is never
undefined and never fails an assertion, and it returns. -/
theorem c68_dropdups_heap (hd : CostOk d s0) {h : S → C} {x : Lists (BinHeap.Heap Nat)}
    (hx : BeamObj (heapImpl (beamAlg h true).pred) S O x) {T : Finset S} (hT : ∀ s g, Walk d s0 s g → s ∈ T)
    (hc : T.card ≤ 2 ^ 29) (hw : 0 < width) :
    (∀ fuel, bsearch d (beamAlg h true) (heapImpl (beamAlg h true).pred) hash x l timer (some width) fuel s0 = .nofuel ∨
      ∃ y, bsearch d (beamAlg h true) (heapImpl (beamAlg h true).pred) hash x l timer (some width) fuel s0 = .ok y) ∧
    ∃ F y, ∀ fuel ≥ F, bsearch d (beamAlg h true) (heapImpl (beamAlg h true).pred) hash x l timer (some width) fuel s0 =
      .ok y := by
  have hsw : BinHeap.StrictWeak (beamAlg h true).pred := astar_strictWeak h
  obtain ⟨h1, F, y, h2, -⟩ := bsearch_total (hash := hash) (l := l) (timer := timer) (heap_law' hsw)
    (hx.fresh (heap_el _) (im' := heapImpl' (beamAlg h true).pred) rfl rfl (heap_law' hsw)) hd (beamAlg_ok h true)
    (fun _ _ _ => trivial) hT hc heap_drop' hw (Or.inl fun _ => trivial)
  have e : ∀ fuel, bsearch d (beamAlg h true) (heapImpl' (beamAlg h true).pred) hash x l timer (some width) fuel s0 =
      bsearch d (beamAlg h true) (heapImpl (beamAlg h true).pred) hash x l timer (some width) fuel s0 :=
    fun fuel => bsearch_mem (a := beamAlg h true) rfl _
  simp only [e] at h1 h2
  exact ⟨h1, F, y, h2⟩

/-- **C68 (`-dropdups`, buckets).** -/
theorem c68_dropdups_buckets {d : Dom S O Int} (hd : CostOk d s0) {h : S → Int} (hh : ∀ s g, Walk d s0 s g → 0 ≤ h s)
    {x : Lists (BucketOpen.Open Nat)} (hx : BeamObj bucketImpl S O x) {T : Finset S} (hT : ∀ s g, Walk d s0 s g → s ∈ T)
    (hc : T.card ≤ 2 ^ 29) (hw : 0 < width) :
    (∀ fuel, bsearch d (beamAlg h true) bucketImpl hash x l timer (some width) fuel s0 = .nofuel ∨
      ∃ y, bsearch d (beamAlg h true) bucketImpl hash x l timer (some width) fuel s0 = .ok y) ∧
    ∃ F y, ∀ fuel ≥ F, bsearch d (beamAlg h true) bucketImpl hash x l timer (some width) fuel s0 = .ok y := by
  have hg : ∀ s g, Walk d s0 s g → 0 ≤ g := fun s g hw => hw.nonneg hd
  obtain ⟨h1, F, y, h2, -⟩ := bsearch_total (hash := hash) (l := l) (timer := timer) bucket_law'
    (hx.fresh bucket_el (im' := bucketImpl') rfl rfl bucket_law') hd (beamAlg_ok h true)
    (fun s g hw => ⟨add_nonneg (hg s g hw) (hh s g hw), hg s g hw⟩) hT hc bucket_drop' hw (Or.inl fun _ => trivial)
  have e : ∀ fuel, bsearch d (beamAlg h true) bucketImpl' hash x l timer (some width) fuel s0 =
      bsearch d (beamAlg h true) bucketImpl hash x l timer (some width) fuel s0 :=
    fun fuel => bsearch_mem (a := beamAlg h true) rfl _
  simp only [e] at h1 h2
  exact ⟨h1, F, y, h2⟩

end Drop

/-! ## Wide beams -/

section Wide
variable [AddCommGroup C] [LinearOrder C] [IsOrderedAddMonoid C] {d : Dom S O C} {s0 : S} {hash : S → Nat} {l : Limit}
  {timer : Nat → Bool} {width : Int}

/-- **C68 (wide beams, heap).** When the beam is at least as wide as there are reachable states, nothing is dropped:
beam search is never undefined, with and without `-dropdups`; and without limits it returns a solution if there is one,
and otherwise the empty path. -/
theorem c68_wide_heap (hd : UndoOk d s0) {h : S → C} {dd : Bool} {x : Lists (BinHeap.Heap Nat)}
    (hx : BeamObj (heapImpl (beamAlg h dd).pred) S O x) {T : Finset S} (hT : ∀ s g, Walk d s0 s g → s ∈ T)
    (hc : T.card ≤ 2 ^ 29) (hw : 0 < width) (hwide : (T.card : Int) ≤ width) :
    (∀ fuel, bsearch d (beamAlg h dd) (heapImpl (beamAlg h dd).pred) hash x l timer (some width) fuel s0 = .nofuel ∨
      ∃ y, bsearch d (beamAlg h dd) (heapImpl (beamAlg h dd).pred) hash x l timer (some width) fuel s0 = .ok y) ∧
    ∃ F c p, (∀ fuel ≥ F, bsearch d (beamAlg h dd) (heapImpl (beamAlg h dd).pred) hash x ⟨0, 0⟩ (fun _ => false)
        (some width) fuel s0 = .ok (c, p)) ∧
      (Solvable d s0 → ∃ c, Solution d s0 p c) ∧ (¬ Solvable d s0 → p = ([], [])) := by
  have hsw : BinHeap.StrictWeak (beamAlg h dd).pred := astar_strictWeak h
  have hf := hx.fresh (heap_el _) rfl rfl (heap_law hsw)
  refine ⟨(bsearch_total (hash := hash) (l := l) (timer := timer) (heap_law hsw) hf hd.cost (beamAlg_ok h dd)
    (fun _ _ _ => trivial) hT hc heap_drop hw (Or.inr ⟨hwide, rfl⟩)).1, ?_⟩
  obtain ⟨-, F, y, h2, h3⟩ := bsearch_total (hash := hash) (l := ⟨0, 0⟩) (timer := fun _ => false) (heap_law hsw) hf hd.cost
    (beamAlg_ok h dd) (fun _ _ _ => trivial) hT hc heap_drop hw (Or.inr ⟨hwide, rfl⟩)
  refine ⟨F, y.1, y.2, h2, ?_, ?_⟩
  · intro hs
    rcases h3 with h | ⟨-, h | h⟩
    · exact okay_solution h
    · simp [climit] at h
    · obtain ⟨t, c, hwk, hg⟩ := solvable_walk hs
      rw [h hwide hd t c hwk] at hg
      exact absurd hg (by simp)
  · intro hs
    rcases h3 with h | ⟨h, -⟩
    · obtain ⟨c, h⟩ := okay_solution h
      exact absurd (solution_solvable h) hs
    · exact h

/-- **C68 (wide beams, buckets).** -/
theorem c68_wide_buckets {d : Dom S O Int} (hd : UndoOk d s0) {h : S → Int} (hh : ∀ s g, Walk d s0 s g → 0 ≤ h s)
    {dd : Bool} {x : Lists (BucketOpen.Open Nat)}
    (hx : BeamObj bucketImpl S O x) {T : Finset S} (hT : ∀ s g, Walk d s0 s g → s ∈ T)
    (hc : T.card ≤ 2 ^ 29) (hw : 0 < width) (hwide : (T.card : Int) ≤ width) :
    (∀ fuel, bsearch d (beamAlg h dd) bucketImpl hash x l timer (some width) fuel s0 = .nofuel ∨
      ∃ y, bsearch d (beamAlg h dd) bucketImpl hash x l timer (some width) fuel s0 = .ok y) ∧
    ∃ F c p, (∀ fuel ≥ F, bsearch d (beamAlg h dd) bucketImpl hash x ⟨0, 0⟩ (fun _ => false)
        (some width) fuel s0 = .ok (c, p)) ∧
      (Solvable d s0 → ∃ c, Solution d s0 p c) ∧ (¬ Solvable d s0 → p = ([], [])) := by
  have hg : ∀ s g, Walk d s0 s g → 0 ≤ g := fun s g hw => hw.nonneg hd.cost
  have hgood : ∀ s g, Walk d s0 s g → 0 ≤ g + h s ∧ 0 ≤ g :=
    fun s g hw => ⟨add_nonneg (hg s g hw) (hh s g hw), hg s g hw⟩
  have hf := hx.fresh bucket_el rfl rfl bucket_law
  refine ⟨(bsearch_total (hash := hash) (l := l) (timer := timer) bucket_law hf hd.cost (beamAlg_ok h dd)
    hgood hT hc bucket_drop hw (Or.inr ⟨hwide, rfl⟩)).1, ?_⟩
  obtain ⟨-, F, y, h2, h3⟩ := bsearch_total (hash := hash) (l := ⟨0, 0⟩) (timer := fun _ => false) bucket_law hf hd.cost
    (beamAlg_ok h dd) hgood hT hc bucket_drop hw (Or.inr ⟨hwide, rfl⟩)
  refine ⟨F, y.1, y.2, h2, ?_, ?_⟩
  · intro hs
    rcases h3 with h | ⟨-, h | h⟩
    · exact okay_solution h
    · simp [climit] at h
    · obtain ⟨t, c, hwk, hg⟩ := solvable_walk hs
      rw [h hwide hd t c hwk] at hg
      exact absurd hg (by simp)
  · intro hs
    rcases h3 with h | ⟨h, -⟩
    · obtain ⟨c, h⟩ := okay_solution h
      exact absurd (solution_solvable h) hs
    · exact h

end Wide

/-! ## The option -width -/

section Width
variable [AddCommGroup C] [LinearOrder C] {d : Dom S O C} {s0 : S} {hash : S → Nat} {l : Limit}
  {timer : Nat → Bool} {fuel : Nat} {h : S → C} {dd : Bool} {im : OpenImpl (C × C) Q} {x : Lists Q}

/-- **C68 (violated).** Without `-width` the constructor compares a member that was never given a value; the message
"Must specify a >0 beam width using -width" is not guaranteed. -/
theorem c68_no_width : bsearch d (beamAlg h dd) im hash x l timer none fuel s0 = .ub := rfl

/-- A width below 1 is refused. -/
theorem c68_bad_width {w : Int} (hw : w < 1) : bsearch d (beamAlg h dd) im hash x l timer (some w) fuel s0 = .fatal := by
  unfold bsearch bwidth
  dsimp only
  rw [if_pos hw]
  rfl

end Width

/-! ## Narrow beams without `-dropdups` -/

/-- The nodes are ordered as in A* with the heuristic 0. -/
def ord0 : Int × Int → Int × Int → Bool := (beamAlg (S := Unit) (fun _ => (0 : Int)) false).pred

/-- State 1 is reached from 0 with cost 5, and through 2 with cost 2; the goal is behind it. -/
def tri : Dom (Fin 4) (Option (Fin 4)) Int :=
  graph 4 [(0, 1, 5), (0, 2, 1), (2, 1, 1), (1, 3, 1)] (fun s => decide (s = 3))

/-- A solvable problem with sound costs. -/
theorem tri_ok : DomOk tri 0 ∧ Solvable tri 0 :=
  ⟨.of_forall 0 (by decide +kernel), [some 1, some 3], [1, 3], 3, 6,
    .cons (by decide +kernel) (.cons (by decide +kernel) (.nil _)), rfl, rfl⟩

theorem summary_fatal {y : Outcome (CSt S O C P Q × (List S × List O))} (h : summary y = .fatal) : y = .fatal := by
  cases y with
  | ok x => exact absurd h (by simp [summary, Outcome.map, Outcome.bind])
  | fatal => rfl
  | ub => exact absurd h (by simp [summary, Outcome.map, Outcome.bind])
  | nofuel => exact absurd h (by simp [summary, Outcome.map, Outcome.bind])

/-- **C68 (violated).** Without `-dropdups` a beam of width 1 stops with a failed assertion: state 1 was dropped from
the open list with its index kept, and is reached again more cheaply.  With the heap: -/
theorem c68_stale_heap : bsearch tri (beamAlg (fun _ => 0) false) (heapImpl ord0) (fun s => s.val)
    (newLists (heapImpl ord0) 5 fun _ => none) ⟨0, 0⟩ (fun _ => false) (some 1) 20 0 = .fatal :=
  summary_fatal (by decide +kernel)

/-- **C68 (violated).** And with the buckets. -/
theorem c68_stale_buckets : bsearch tri (beamAlg (fun _ => 0) false) bucketImpl (fun s => s.val)
    (newLists bucketImpl 5 fun _ => none) ⟨0, 0⟩ (fun _ => false) (some 1) 20 0 = .fatal :=
  summary_fatal (by decide +kernel)

/-- As `tri`, but when state 1 is reached again there is another node in the open list. -/
def tri5 : Dom (Fin 5) (Option (Fin 5)) Int :=
  graph 5 [(0, 1, 5), (0, 2, 1), (2, 4, 9), (2, 1, 1), (1, 3, 1)] (fun s => decide (s = 3))

/-- The heap with a `clear` that resets the indices. -/
def heapFixed : OpenImpl (Int × Int) (BinHeap.Heap Nat) :=
  { heapImpl ord0 with drop := fun q => (heapImpl ord0).clear q }

/-- **C68 (violated).** If the stale index is in range, the assertion does not fail: the heap moves another node and the
node reached again, which is the best of its layer, is not in the beam.  The search ends without a solution, although a
beam of width 1 contains one: with a `clear` that resets the indices it is found. -/
theorem c68_lost_heap :
    summary (bsearch tri5 (beamAlg (fun _ => 0) false) (heapImpl ord0) (fun s => s.val)
      (newLists (heapImpl ord0) 5 fun _ => none) ⟨0, 0⟩ (fun _ => false) (some 1) 20 0) = .ok ([], [], 4, 0, 10) ∧
    summary (bsearch tri5 (beamAlg (fun _ => 0) false) heapFixed (fun s => s.val)
      (newLists heapFixed 5 fun _ => none) ⟨0, 0⟩ (fun _ => false) (some 1) 20 0) =
      .ok ([3, 1, 2, 0], [some 3, some 1, some 2], 5, 1, 20) := by
  constructor <;> decide +kernel

/-- With buckets another node is removed: here state 4, which the goal is behind. -/
def tri6 : Dom (Fin 6) (Option (Fin 6)) Int :=
  graph 6 [(0, 1, 5), (0, 2, 1), (0, 5, 1), (2, 4, 4), (2, 1, 1), (4, 3, 1)] (fun s => decide (s = 3))

/-- The buckets with a `clear` that resets the indices. -/
def bucketFixed : OpenImpl (Int × Int) (BucketOpen.Open Nat) :=
  { bucketImpl with drop := fun q => bucketImpl.clear q }

/-- **C68 (violated).** -/
theorem c68_lost_buckets :
    summary (bsearch tri6 (beamAlg (fun _ => 0) false) bucketImpl (fun s => s.val)
      (newLists bucketImpl 5 fun _ => none) ⟨0, 0⟩ (fun _ => false) (some 2) 20 0) = .ok ([], [], 5, 0, 20) ∧
    summary (bsearch tri6 (beamAlg (fun _ => 0) false) bucketFixed (fun s => s.val)
      (newLists bucketFixed 5 fun _ => none) ⟨0, 0⟩ (fun _ => false) (some 2) 20 0) =
      .ok ([3, 4, 2, 0], [some 3, some 4, some 2], 6, 1, 20) := by
  constructor <;> decide +kernel

/-! ### Examples -/

/-- A beam of width 2 finds the goal of `tri`; it drops nothing. -/
example : summary (bsearch tri (beamAlg (fun _ => 0) false) (heapImpl ord0) (fun s => s.val)
    (newLists (heapImpl ord0) 5 fun _ => none) ⟨0, 0⟩ (fun _ => false) (some 2) 20 0) =
    .ok ([3, 1, 2, 0], [some 3, some 1, some 2], 4, 1, 10) := by decide +kernel

/-- With `-dropdups` and width 1 the goal is lost: state 1 is dropped and never generated again. -/
example : summary (bsearch tri (beamAlg (fun _ => 0) true) bucketImpl (fun s => s.val)
    (newLists bucketImpl 5 fun _ => none) ⟨0, 0⟩ (fun _ => false) (some 1) 20 0) = .ok ([], [], 3, 0, 10) := by
  decide +kernel

/-- The hypotheses of the theorems can be met. -/
example : ∃ F c p, (∀ fuel ≥ F, bsearch tri (beamAlg (fun _ => 0) false) bucketImpl (fun s => s.val)
    (newLists bucketImpl 30000001 fun _ => none) ⟨0, 0⟩ (fun _ => false) (some 4) fuel 0 = .ok (c, p)) ∧
    ∃ c, Solution tri 0 p c := by
  obtain ⟨-, F, c, p, h1, h2, -⟩ := c68_wide_buckets (hash := fun s : Fin 4 => s.val) (l := ⟨0, 0⟩)
    (timer := fun _ => false) (width := 4) tri_ok.1.undo (h := fun _ => 0) (fun _ _ _ => le_rfl) (dd := false)
    (.new 30000001 (by norm_num) fun _ => none) (T := Finset.univ) (fun _ _ _ => Finset.mem_univ _) (by simp)
    (by norm_num) (by simp)
  exact ⟨F, c, p, h1, h2 tri_ok.2⟩

end Verif.Search
