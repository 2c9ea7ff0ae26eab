import Verif.Search.BestFirst
import Mathlib.Algebra.Group.Submonoid.Pointwise
import Mathlib.Data.DFinsupp.WellFounded
import Mathlib.Data.Finset.Card
import Mathlib.Data.Finset.Range
import Mathlib.Data.Set.Finite.Lattice
import Mathlib.Order.WellFoundedSet

/-!
# Consequences of the search invariant

Solution reconstruction, the frontier lemma, termination, limits.
-/

namespace Verif.Search

variable {S O C P : Type*} [DecidableEq S] [DecidableEq O] [AddCommGroup C] [LinearOrder C] [IsOrderedAddMonoid C]
  {d : Dom S O C} {a : Alg S C P} {s0 : S}

/-! ## Solution reconstruction -/

theorem solpath_mono {nd : Nat → Node S O C P} {fuel fuel' n : Nat} {r : List S × List O}
    (h : solpath nd fuel n = .ok r) (hf : fuel ≤ fuel') : solpath nd fuel' n = .ok r := by
  induction fuel generalizing fuel' n r with
  | zero => exact absurd h (by simp [solpath])
  | succ fuel ih =>
    obtain ⟨fuel', rfl⟩ : ∃ k, fuel' = k + 1 := ⟨fuel' - 1, by omega⟩
    unfold solpath at h ⊢
    cases hp : (nd n).parent with
    | none => rw [hp] at h; exact h
    | some m =>
      rw [hp] at h
      dsimp only at h ⊢
      cases hs : solpath nd fuel m with
      | ok r' => rw [ih hs (by omega)]; rw [hs] at h; exact h
      | fatal => rw [hs] at h; exact absurd h (by simp)
      | ub => rw [hs] at h; exact absurd h (by simp)
      | nofuel => rw [hs] at h; exact absurd h (by simp)

/-- A reconstructed solution (goal first) is a plan from `s0` to `s` of cost at most `g`. -/
def IsSol (d : Dom S O C) (s0 s : S) (g : C) (r : List S × List O) : Prop :=
  ∃ ss c, r.1.reverse = s0 :: ss ∧ Plan d s0 r.2.reverse ss c ∧ c ≤ g ∧ r.1.head? = some s

theorem solpath_spec {st : St S O C P} (h : Inv d a s0 st) {n : Nat} (hn : n < st.next) :
    ∃ fuel r, solpath st.nd fuel n = .ok r ∧ IsSol d s0 (st.nd n).state (st.nd n).g r := by
  have hr := h.rooted n hn
  induction hr with
  | @root i hp =>
    have h0 : i = 0 := by
      by_contra hc
      obtain ⟨j, e, -⟩ := h.par i hn hc
      rw [hp] at e; exact absurd e (by simp)
    subst h0
    refine ⟨1, ([(st.nd 0).state], []), ?_, [], 0, ?_, .nil _, ?_, rfl⟩
    · unfold solpath; rw [hp]
    · rw [h.root.1]; rfl
    · rw [h.root.2.2.1]
  | @step i j hp hj ih =>
    have h0 : i ≠ 0 := by rintro rfl; rw [h.root.2.1] at hp; exact absurd hp (by simp)
    obtain ⟨j', e1, e2, e3, e4, e5, e6⟩ := h.par i hn h0
    rw [hp] at e1; injection e1 with e1; subst e1
    obtain ⟨fuel, r, f1, ss, c, f2, f3, f4, f5⟩ := ih e2
    refine ⟨fuel + 1, ((st.nd i).state :: r.1, (st.nd i).op :: r.2), ?_,
      ss ++ [(st.nd i).state], c + d.cost (st.nd j).state (st.nd i).op, ?_, ?_, ?_, rfl⟩
    · unfold solpath; rw [hp]; dsimp only; rw [f1]; rfl
    · rw [List.reverse_cons, f2]; rfl
    · have hl : (s0 :: ss).getLast (by simp) = (st.nd j).state := by
        have h1 : (s0 :: ss).getLast? = some (st.nd j).state := by
          rw [← f2, List.getLast?_reverse, f5]
        rw [List.getLast?_eq_some_getLast (by simp)] at h1
        exact Option.some.inj h1
      have := f3.snoc (o := (st.nd i).op) (by rw [hl]; exact e3)
      rw [hl, ← e4] at this
      rw [List.reverse_cons]
      exact this
    · exact le_trans (by gcongr) e6

/-- If every given amount of fuel is too little the parent pointers would be cyclic; they are not, and the
result does not depend on the fuel. -/
theorem solpath_ok {st : St S O C P} (h : Inv d a s0 st) {n : Nat} (hn : n < st.next) {fuel : Nat}
    {r : List S × List O} (hr : solpath st.nd fuel n = .ok r) : IsSol d s0 (st.nd n).state (st.nd n).g r := by
  obtain ⟨fuel', r', h1, h2⟩ := solpath_spec h hn
  have e1 := solpath_mono hr (Nat.le_max_left fuel fuel')
  have e2 := solpath_mono h1 (Nat.le_max_right fuel fuel')
  rw [e1] at e2
  injection e2 with e2
  rw [e2]
  exact h2

theorem solpath_cases {nd : Nat → Node S O C P} (fuel n : Nat) :
    (∃ r, solpath nd fuel n = .ok r) ∨ solpath nd fuel n = .nofuel := by
  induction fuel generalizing n with
  | zero => exact Or.inr rfl
  | succ fuel ih =>
    unfold solpath
    cases (nd n).parent with
    | none => exact Or.inl ⟨_, rfl⟩
    | some m =>
      dsimp only
      rcases ih m with ⟨r, h⟩ | h
      · rw [h]; exact Or.inl ⟨_, rfl⟩
      · rw [h]; exact Or.inr rfl

/-! ## The frontier -/

/-- What the search assumes of a domain, for the states reachable from `s0`, to find best solutions: costs are not
negative; "no operator" is not an operator; and undoing an operator with the reverse operator need not lead back to
the same state, but is never worth it: whatever goal can be reached afterwards can be reached as cheaply, in no more
operators, without doing and undoing. -/
structure UndoOk (d : Dom S O C) (s0 : S) : Prop where
  cost : CostOk d s0
  undo : ∀ s c, Walk d s0 s c → ∀ o ∈ d.ops s, d.rev s o ∈ d.ops (d.app s o) →
    ∀ os ss t c2, Plan d (d.app (d.app s o) (d.rev s o)) os ss c2 →
      (d.app (d.app s o) (d.rev s o) :: ss).getLast? = some t → d.goal t = true →
      ∃ os' ss' t' c2', Plan d s os' ss' c2' ∧ (s :: ss').getLast? = some t' ∧ d.goal t' = true ∧
        os'.length ≤ os.length ∧ c2' ≤ d.cost s o + (d.cost (d.app s o) (d.rev s o) + c2)
  nop : ∀ s c, Walk d s0 s c → d.nop ∉ d.ops s

/-- An operator that is exactly undone is not worth doing. -/
theorem DomOk.undo (hd : DomOk d s0) : UndoOk d s0 := by
  refine ⟨hd.cost, fun s c hw o ho hr os ss t c2 hp hl hg => ?_, hd.nop⟩
  have h1 := hd.cost _ _ hw _ ho
  have h2 := hd.cost _ _ (hw.snoc ho) _ hr
  rw [hd.rev _ _ hw _ ho hr] at hp hl
  exact ⟨os, ss, t, c2, hp, hl, hg, Nat.le_refl _,
    le_trans (le_add_of_nonneg_left h2) (le_add_of_nonneg_left h1)⟩

/-- From every node from which a goal can be reached there is an open node from which a goal can be reached, as
cheaply all in all. -/
theorem frontier_plan {st : St S O C P} (hd : UndoOk d s0) (h : Inv d a s0 st) {k : Nat} (hk : k < st.next)
    {os : List O} {ss : List S} {t : S} {c : C} (hp : Plan d (st.nd k).state os ss c)
    (hl : ((st.nd k).state :: ss).getLast? = some t) (hg : d.goal t = true) :
    ∃ m < st.next, (st.nd m).isopen = true ∧ ∃ os' ss' t' c', Plan d (st.nd m).state os' ss' c' ∧
      ((st.nd m).state :: ss').getLast? = some t' ∧ d.goal t' = true ∧
      (a.dropdups = false → (st.nd m).g + c' ≤ (st.nd k).g + c) := by
  generalize hn : os.length = n
  induction n using Nat.strong_induction_on generalizing k os ss t c with
  | _ n ih =>
  by_cases hopen : (st.nd k).isopen = true
  · exact ⟨k, hk, hopen, os, ss, t, c, hp, hl, hg, fun _ => le_rfl⟩
  rw [Bool.not_eq_true] at hopen
  generalize hs : (st.nd k).state = s at hp hl
  cases hp with
  | nil =>
    rw [List.getLast?_singleton, Option.some.injEq] at hl
    have := h.ngoal k hk hopen
    rw [hs, hl, hg] at this
    exact absurd this (by simp)
  | @cons _ o os ss c ho hp =>
    rw [List.getLast?_cons_cons] at hl
    rw [List.length_cons] at hn
    subst hs
    rcases h.exp k hk hopen o ho with e | ⟨m, e1, e2⟩
    · rcases Nat.eq_zero_or_pos k with rfl | h0
      · rw [h.root.2.2.2] at e
        exact absurd (e ▸ ho) (hd.nop _ _ (h.walk 0 h.pos))
      obtain ⟨j, f1, f2, f3, f4, f5, f6⟩ := h.par k hk (by omega)
      rw [e, f5, f4] at ho hp hl
      obtain ⟨os', ss', t', c2', g1, g2, g3, g4, g5⟩ := hd.undo _ _ (h.walk j f2) _ f3 ho _ _ _ _ hp hl hg
      obtain ⟨m, r1, r2, os2, ss2, t2, c2, r3, r4, r5, r6⟩ := ih os'.length (by omega) f2 g1 g2 g3 rfl
      refine ⟨m, r1, r2, os2, ss2, t2, c2, r3, r4, r5, fun hdd => (r6 hdd).trans ?_⟩
      rw [e, f5, f4]
      calc (st.nd j).g + c2' ≤ (st.nd j).g + (d.cost (st.nd j).state (st.nd k).op + _) := by gcongr
        _ = ((st.nd j).g + d.cost (st.nd j).state (st.nd k).op) + _ := (add_assoc _ _ _).symm
        _ ≤ _ := by gcongr
    · obtain ⟨hm, hms⟩ := h.cl2 _ _ e1
      rw [← hms] at hp hl
      obtain ⟨m', r1, r2, os2, ss2, t2, c2, r3, r4, r5, r6⟩ := ih os.length (by omega) hm hp hl hg rfl
      refine ⟨m', r1, r2, os2, ss2, t2, c2, r3, r4, r5, fun hdd => (r6 hdd).trans ?_⟩
      rw [← add_assoc]
      gcongr
      exact e2 hdd

theorem Plan.last_walk {s t : S} {os : List O} {ss : List S} {c : C} (h : Plan d s os ss c)
    (ht : (s :: ss).getLast? = some t) : Walk d s t c := by
  have hw := h.walk
  rw [List.getLast?_eq_some_getLast (by simp)] at ht
  rwa [Option.some.inj ht] at hw

theorem Walk.last_plan {s t : S} {c : C} (h : Walk d s t c) :
    ∃ os ss, Plan d s os ss c ∧ (s :: ss).getLast? = some t := by
  obtain ⟨os, ss, h1, h2⟩ := h.plan
  exact ⟨os, ss, h1, by rw [List.getLast?_eq_some_getLast (by simp), h2]⟩

/-- As long as a goal is reachable there is an open node on the way to one, as cheaply all in all as any walk to any
goal. -/
theorem frontier {st : St S O C P} (hd : UndoOk d s0) (h : Inv d a s0 st) {t : S} {c : C} (hw : Walk d s0 t c)
    (hg : d.goal t = true) :
    ∃ k < st.next, (st.nd k).isopen = true ∧ ∃ t' c2, Walk d (st.nd k).state t' c2 ∧ d.goal t' = true ∧
      (a.dropdups = false → (st.nd k).g + c2 ≤ c) := by
  obtain ⟨os, ss, h1, h2⟩ := hw.last_plan
  rw [← h.root.1] at h1 h2
  obtain ⟨k, e1, e2, os', ss', t', c', e3, e4, e5, e6⟩ := frontier_plan hd h h.pos h1 h2 hg
  refine ⟨k, e1, e2, t', c', e3.last_walk e4, e5, fun hdd => ?_⟩
  have := e6 hdd
  rwa [h.root.2.2.1, zero_add] at this

theorem empty_no_goal {st : St S O C P} (hd : UndoOk d s0) (h : Inv d a s0 st) (he : Empty st) {t : S} {c : C}
    (hw : Walk d s0 t c) : d.goal t = false := by
  by_contra hg
  obtain ⟨k, e1, e2, -⟩ := frontier hd h hw (by simpa using hg)
  rw [he k e1] at e2
  exact absurd e2 (by simp)

/-! ## Progress and termination -/

/-- `pred` is a strict order. -/
structure PredOk (a : Alg S C P) : Prop where
  irrefl : ∀ x, a.pred x x = false
  trans : ∀ x y z, a.pred x y = true → a.pred y z = true → a.pred x z = true

theorem progress (ha : PredOk a) (st : St S O C P) : Empty st ∨ ∃ n, Least a st n := by
  have key : ∀ N, (∀ m < N, (st.nd m).isopen = false) ∨ ∃ n < N, (st.nd n).isopen = true ∧
      ∀ m < N, (st.nd m).isopen = true → a.pred ((st.nd m).p, (st.nd m).g) ((st.nd n).p, (st.nd n).g) = false := by
    intro N
    induction N with
    | zero => exact Or.inl (by omega)
    | succ N ih =>
      by_cases ho : (st.nd N).isopen = true
      · right
        rcases ih with h | ⟨n, h1, h2, h3⟩
        · refine ⟨N, by omega, ho, fun m hm hmo => ?_⟩
          by_cases e : m = N
          · rw [e]; exact ha.irrefl _
          · rw [h m (by omega)] at hmo; exact absurd hmo (by simp)
        · by_cases hp : a.pred ((st.nd N).p, (st.nd N).g) ((st.nd n).p, (st.nd n).g) = true
          · refine ⟨N, by omega, ho, fun m hm hmo => ?_⟩
            by_cases e : m = N
            · rw [e]; exact ha.irrefl _
            · by_contra hc
              have := ha.trans _ _ _ (by simpa using hc) hp
              rw [h3 m (by omega) hmo] at this
              exact absurd this (by simp)
          · refine ⟨n, by omega, h2, fun m hm hmo => ?_⟩
            by_cases e : m = N
            · rw [e]; simpa using hp
            · exact h3 m (by omega) hmo
      · rcases ih with h | ⟨n, h1, h2, h3⟩
        · left
          intro m hm
          by_cases e : m = N
          · rw [e]; simpa using ho
          · exact h m (by omega)
        · right
          refine ⟨n, by omega, h2, fun m hm hmo => ?_⟩
          by_cases e : m = N
          · rw [e] at hmo; exact absurd hmo ho
          · exact h3 m (by omega) hmo
  rcases key st.next with h | ⟨n, h⟩
  · exact Or.inl h
  · exact Or.inr ⟨n, h⟩

/-- Something got better, or nothing changed. -/
def Prog (st st' : St S O C P) : Prop :=
  (∀ s k, st.closed s = some k → st'.closed s = some k ∧ (st'.nd k).g ≤ (st.nd k).g) ∧
  ((st'.nd = st.nd ∧ st'.next = st.next ∧ st'.closed = st.closed) ∨
    ∃ s, (st.closed s = none ∧ st'.closed s ≠ none) ∨ ∃ k, st.closed s = some k ∧ (st'.nd k).g < (st.nd k).g)

theorem Prog.refl (st : St S O C P) : Prog st st := ⟨fun _ _ h => ⟨h, le_rfl⟩, Or.inl ⟨rfl, rfl, rfl⟩⟩

theorem Prog.trans {s1 s2 s3 : St S O C P} (h : Prog s1 s2) (h' : Prog s2 s3) : Prog s1 s3 := by
  refine ⟨fun s k hk => ?_, ?_⟩
  · obtain ⟨e1, e2⟩ := h.1 s k hk
    obtain ⟨e3, e4⟩ := h'.1 s k e1
    exact ⟨e3, e4.trans e2⟩
  · rcases h.2 with ⟨e1, e2, e3⟩ | ⟨s, hs⟩
    · rcases h'.2 with ⟨f1, f2, f3⟩ | ⟨s, hs⟩
      · exact Or.inl ⟨f1.trans e1, f2.trans e2, f3.trans e3⟩
      · right; rw [e1, e3] at hs; exact ⟨s, hs⟩
    · right
      refine ⟨s, ?_⟩
      rcases hs with ⟨e1, e2⟩ | ⟨k, e1, e2⟩
      · left
        refine ⟨e1, ?_⟩
        obtain ⟨k, hk⟩ := Option.ne_none_iff_exists'.1 e2
        rw [(h'.1 s k hk).1]; simp
      · right
        exact ⟨k, e1, lt_of_le_of_lt (h'.1 s k (h.1 s k e1).1).2 e2⟩

theorem prog_tryop {st : St S O C P} {n : Nat} {o : O} (hcl : ∀ s i, st.closed s = some i → i < st.next) :
    Prog st (tryop d a n st o) := by
  unfold tryop
  split
  · exact .refl st
  · unfold considerkid
    dsimp only
    cases hc : st.closed (d.app (st.nd n).state o) with
    | some k =>
      dsimp only
      by_cases hcc : a.dropdups = true ∨ (st.nd k).g ≤ (st.nd n).g + d.cost (st.nd n).state o
      · rw [if_pos hcc]; exact .refl st
      · rw [if_neg hcc]
        rw [not_or, not_le] at hcc
        refine ⟨fun s i hi => ⟨hi, ?_⟩, Or.inr ⟨_, Or.inr ⟨k, hc, ?_⟩⟩⟩
        · dsimp only
          by_cases e : i = k
          · rw [e, Function.update_self]; exact hcc.2.le
          · rw [Function.update_of_ne e]
        · dsimp only
          rw [Function.update_self]; exact hcc.2
    | none =>
      dsimp only
      refine ⟨fun s i hi => ⟨?_, ?_⟩, Or.inr ⟨d.app (st.nd n).state o, Or.inl ⟨hc, ?_⟩⟩⟩
      · dsimp only
        rw [Function.update_of_ne]
        · exact hi
        · rintro rfl; rw [hc] at hi; exact absurd hi (by simp)
      · dsimp only
        rw [Function.update_of_ne]
        have := hcl s i hi
        omega
      · dsimp only; rw [Function.update_self]; simp

theorem prog_fold (hd : CostOk d s0) (ha : AlgOk a) (os : List O) {st : St S O C P} {n : Nat}
    (h : InvX d a s0 st n os) (ho : ∀ o ∈ os, o ∈ d.ops (st.nd n).state) :
    Prog st (os.foldl (tryop d a n) st) := by
  induction os generalizing st with
  | nil => exact .refl st
  | cons o os ih =>
    rw [List.foldl_cons]
    refine (prog_tryop (fun s i hi => (h.cl2 s i hi).1)).trans
      (ih (invX_tryop hd ha h (ho o (by simp))) (fun o' ho' => ?_))
    rw [tryop_state h.lt]
    exact ho o' (by simp [ho'])

/-- Number of open nodes. -/
def nopen (st : St S O C P) : Nat := ((Finset.range st.next).filter fun i => (st.nd i).isopen = true).card

theorem nopen_pop {st : St S O C P} {n : Nat} (hn : n < st.next) (ho : (st.nd n).isopen = true) :
    nopen (pop n st) < nopen st := by
  apply Finset.card_lt_card
  rw [Finset.ssubset_iff_of_subset]
  · refine ⟨n, Finset.mem_filter.2 ⟨Finset.mem_range.2 hn, ho⟩, fun hc => ?_⟩
    have h2 := (Finset.mem_filter.1 hc).2
    unfold pop at h2
    dsimp only at h2
    rw [Function.update_self] at h2
    exact absurd h2 (by simp)
  · intro i hi
    simp only [Finset.mem_filter, Finset.mem_range] at hi ⊢
    refine ⟨hi.1, ?_⟩
    have h2 := hi.2
    unfold pop at h2
    dsimp only at h2
    by_cases e : i = n
    · rw [e]; exact ho
    · rwa [Function.update_of_ne e] at h2

/-- The reachable states. -/
def Reachable (d : Dom S O C) (s0 : S) : Set S := {s | ∃ c, Walk d s0 s c}

/-- Costs of the operators of reachable states. -/
def costs (d : Dom S O C) (s0 : S) : Set C := {c | ∃ s ∈ Reachable d s0, ∃ o ∈ d.ops s, c = d.cost s o}

theorem costs_finite (hf : (Reachable d s0).Finite) : (costs d s0).Finite := by
  have : costs d s0 = ⋃ s ∈ Reachable d s0, (d.cost s) '' {o | o ∈ d.ops s} := by
    ext c
    simp only [costs, Set.mem_setOf_eq, Set.mem_iUnion, Set.mem_image, exists_prop]
    constructor
    · rintro ⟨s, hs, o, ho, rfl⟩; exact ⟨s, hs, o, ho, rfl⟩
    · rintro ⟨s, hs, o, ho, rfl⟩; exact ⟨s, hs, o, ho, rfl⟩
  rw [this]
  exact hf.biUnion fun s _ => (List.finite_toSet _).image _

/-- The set of costs of walks. -/
def Sums (d : Dom S O C) (s0 : S) : Set C := (AddSubmonoid.closure (costs d s0) : Set C)

theorem walk_sums {t : S} {c : C} (h : Walk d s0 t c) : c ∈ Sums d s0 := by
  induction h with
  | nil => exact zero_mem _
  | snoc hw ho ih => exact add_mem ih (AddSubmonoid.subset_closure ⟨_, ⟨_, hw⟩, _, ho, rfl⟩)

/-- There is no infinite decreasing sequence of sums of finitely many non-negative numbers. -/
theorem sums_wf (hd : CostOk d s0) (hf : (Reachable d s0).Finite) : (Sums d s0).IsWF := by
  refine (Set.IsPWO.addSubmonoid_closure ?_ (costs_finite hf).isPWO).isWF
  rintro c ⟨s, ⟨c', hw⟩, o, ho, rfl⟩
  exact hd _ _ hw _ ho

open Classical in
/-- What is known about each reachable state. -/
noncomputable def gmap (d : Dom S O C) (s0 : S) (st : St S O C P) (s : Reachable d s0) : WithTop (Sums d s0) :=
  match st.closed s with
  | none => ⊤
  | some k => if h : (st.nd k).g ∈ Sums d s0 then ((⟨_, h⟩ : Sums d s0) : WithTop (Sums d s0)) else ⊤

theorem gmap_some {st : St S O C P} (h : Inv d a s0 st) {s : Reachable d s0} {k : Nat}
    (hk : st.closed s = some k) :
    gmap d s0 st s = ((⟨_, walk_sums (h.walk k (h.cl2 _ _ hk).1)⟩ : Sums d s0) : WithTop (Sums d s0)) := by
  unfold gmap
  rw [hk]
  dsimp only
  rw [dif_pos]

theorem gmap_none {st : St S O C P} {s : Reachable d s0} (hk : st.closed s = none) : gmap d s0 st s = ⊤ := by
  unfold gmap; rw [hk]

theorem gmap_prog {st st' : St S O C P} (hp : Prog st st') (h : Inv d a s0 st) (h' : Inv d a s0 st') :
    (gmap d s0 st' < gmap d s0 st) ∨ (st'.nd = st.nd ∧ st'.next = st.next ∧ st'.closed = st.closed) := by
  have hle : gmap d s0 st' ≤ gmap d s0 st := by
    intro s
    cases hk : st.closed s with
    | none => rw [gmap_none hk]; exact le_top
    | some k =>
      obtain ⟨e1, e2⟩ := hp.1 s k hk
      rw [gmap_some h hk, gmap_some h' e1, WithTop.coe_le_coe]
      exact e2
  rcases hp.2 with e | ⟨s, hs⟩
  · exact Or.inr e
  · left
    have hreach : s ∈ Reachable d s0 := by
      rcases hs with ⟨_, e⟩ | ⟨k, e, _⟩
      · obtain ⟨k, hk⟩ := Option.ne_none_iff_exists'.1 e
        obtain ⟨h1, h2⟩ := h'.cl2 _ _ hk
        exact ⟨_, h2 ▸ h'.walk k h1⟩
      · obtain ⟨h1, h2⟩ := h.cl2 _ _ e
        exact ⟨_, h2 ▸ h.walk k h1⟩
    refine lt_of_le_of_ne hle (fun heq => ?_)
    have heq' := congrFun heq ⟨s, hreach⟩
    rcases hs with ⟨e1, e2⟩ | ⟨k, e1, e2⟩
    · obtain ⟨k, hk⟩ := Option.ne_none_iff_exists'.1 e2
      rw [gmap_some h' (s := ⟨s, hreach⟩) hk, gmap_none (st := st) (s := ⟨s, hreach⟩) e1] at heq'
      exact WithTop.coe_ne_top heq'
    · have e3 := hp.1 s k e1
      rw [gmap_some h (s := ⟨s, hreach⟩) e1, gmap_some h' (s := ⟨s, hreach⟩) e3.1, WithTop.coe_inj] at heq'
      injection heq' with heq'
      rw [heq'] at e2
      exact lt_irrefl _ e2

/-- Expanding a node improves what is known, or changes nothing. -/
theorem expand_gmap (hd : CostOk d s0) (ha : AlgOk a) {st : St S O C P} (h : Inv d a s0 st) {n : Nat} (hn : n < st.next)
    (hgl : d.goal (st.nd n).state = false) :
    gmap d s0 (expand d a n (pop n st)) < gmap d s0 st ∨
      (gmap d s0 (expand d a n (pop n st)) = gmap d s0 st ∧ (expand d a n (pop n st)).nd = (pop n st).nd ∧
        (expand d a n (pop n st)).next = st.next ∧ (expand d a n (pop n st)).closed = st.closed) := by
  have h' := h.expand hd ha hn hgl
  have hx := h.popped hn hgl
  have hst : ((pop n st).nd n).state = (st.nd n).state := by
    unfold pop
    dsimp only
    rw [Function.update_self]
  have hfold : Prog (pop n st) (expand d a n (pop n st)) := by
    have := prog_fold hd ha (d.ops (st.nd n).state)
      (hx.stats (st.expd + 1) st.gend st.dups st.reopnd) (fun o ho => by
        show o ∈ d.ops ((pop n st).nd n).state
        rw [hst]; exact ho)
    unfold expand
    rw [hst]
    exact this
  have hg : ∀ k, ((pop n st).nd k).g = (st.nd k).g := fun k => by
    unfold pop
    dsimp only
    by_cases e : k = n
    · rw [e, Function.update_self]
    · rw [Function.update_of_ne e]
  -- from `st` (before the pop) the known costs are those after the pop
  rcases hfold.2 with ⟨e1, e2, e3⟩ | ⟨s, hs⟩
  · right
    refine ⟨?_, e1, e2, e3⟩
    funext s
    cases hk : st.closed s with
    | none =>
      rw [gmap_none hk, gmap_none]
      rw [e3]; exact hk
    | some k =>
      have hk' : (expand d a n (pop n st)).closed s = some k := by rw [e3]; exact hk
      rw [gmap_some h hk, gmap_some h' hk', WithTop.coe_inj]
      apply Subtype.ext
      show ((expand d a n (pop n st)).nd k).g = _
      rw [e1, hg]
  · have hpr' : Prog st (expand d a n (pop n st)) := by
      refine ⟨fun s k hk => ?_, Or.inr ⟨s, ?_⟩⟩
      · have := hfold.1 s k hk
        rw [hg] at this
        exact this
      · rcases hs with hs | ⟨k, f1, f2⟩
        · exact Or.inl hs
        · rw [hg] at f2; exact Or.inr ⟨k, f1, f2⟩
    rcases gmap_prog hpr' h h' with hlt | ⟨e1, _, e3⟩
    · exact Or.inl hlt
    · exfalso
      rcases hs with ⟨f1, f2⟩ | ⟨k, f1, f2⟩
      · exact f2 (by rw [e3]; exact f1)
      · rw [hg, e1] at f2; exact lt_irrefl _ f2

/-- What decreases. -/
noncomputable def measure (d : Dom S O C) (s0 : S) (st : St S O C P) :
    (Reachable d s0 → WithTop (Sums d s0)) × Nat := (gmap d s0 st, nopen st)

theorem step_measure (hd : CostOk d s0) (ha : AlgOk a) {st st' : St S O C P} (h : Inv d a s0 st)
    (hs : Step d a st st') : Prod.Lex (· < ·) (· < ·) (measure d s0 st') (measure d s0 st) := by
  cases hs with
  | @mk n hl hg =>
    rcases expand_gmap hd ha h hl.1 hg with hlt | ⟨hgm, e1, e2, -⟩
    · exact Prod.Lex.left _ _ hlt
    · unfold measure
      rw [hgm]
      apply Prod.Lex.right
      have : nopen (expand d a n (pop n st)) = nopen (pop n st) := by
        unfold nopen
        rw [e1, e2]
        rfl
      rw [this]
      exact nopen_pop hl.1 hl.2.1

theorem gmap_wf (hd : CostOk d s0) (hf : (Reachable d s0).Finite) :
    WellFounded fun x y : Reachable d s0 → WithTop (Sums d s0) => x < y := by
  haveI : Finite (Reachable d s0) := hf
  haveI : WellFoundedLT (Sums d s0) := ⟨by
    have := sums_wf hd hf
    rw [Set.isWF_iff_no_descending_seq] at this
    rw [RelEmbedding.wellFounded_iff_isEmpty]
    refine ⟨fun e => this (fun k => (e k : C)) ?_ (fun k => (e k).2)⟩
    intro i j hij
    exact e.map_rel_iff.2 hij⟩
  exact wellFounded_lt

/-- On a finite reachable state space every run of the loop ends. -/
theorem terminates (hd : CostOk d s0) (ha : AlgOk a) (hf : (Reachable d s0).Finite) :
    ¬ ∃ f : Nat → St S O C P, f 0 = init d a s0 ∧ ∀ k, Step d a (f k) (f (k + 1)) := by
  rintro ⟨f, h0, hs⟩
  have hinv : ∀ k, Inv d a s0 (f k) := by
    intro k
    induction k with
    | zero => rw [h0]; exact inv_init
    | succ k ih => exact inv_step hd ha ih (hs k)
  have hwf : WellFounded (Prod.Lex (α := Reachable d s0 → WithTop (Sums d s0)) (β := Nat) (· < ·) (· < ·)) :=
    WellFounded.prod_lex (gmap_wf hd hf) wellFounded_lt
  obtain ⟨_, ⟨k, rfl⟩, hmin⟩ := hwf.has_min (Set.range fun k => measure d s0 (f k)) ⟨_, 0, rfl⟩
  exact hmin _ ⟨k + 1, rfl⟩ (step_measure hd ha (hinv k) (hs k))

/-! ## Limits -/

/-- search.hpp:58-90: the expansion and generation limits; 0 means no limit. -/
structure Limit where
  expd : Nat
  gend : Nat

/-- search.hpp:67-71 `Limit::reached`, apart from the timer. -/
def Limit.reached (l : Limit) (st : St S O C P) : Prop :=
  (0 < l.expd ∧ l.expd ≤ st.expd) ∨ (0 < l.gend ∧ l.gend ≤ st.gend)

/-- The states of the loop when the limit is checked before each iteration. -/
inductive ReachL (d : Dom S O C) (a : Alg S C P) (s0 : S) (l : Limit) : St S O C P → Prop
  | init : ReachL d a s0 l (init d a s0)
  | step {st st' : St S O C P} : ReachL d a s0 l st → ¬ l.reached st → Step d a st st' → ReachL d a s0 l st'

/-- What `search` leaves in `res.path` and `res.ops`, astar.hpp:64-84, together with the final state of the loop.
The timer may strike at any time, which makes `reached` true. -/
inductive Run (d : Dom S O C) (a : Alg S C P) (s0 : S) (l : Limit) : St S O C P → List S × List O → Prop
  | found {st : St S O C P} {n fuel : Nat} {r : List S × List O} (tr : ReachL d a s0 l st) :
      ¬ l.reached st → Least a st n → d.goal (st.nd n).state = true →
      solpath (pop n st).nd fuel n = .ok r → Run d a s0 l st r
  | empty {st : St S O C P} : ReachL d a s0 l st → Empty st → Run d a s0 l st ([], [])
  | cut {st : St S O C P} (timeup : Prop) : ReachL d a s0 l st → (timeup ∨ l.reached st) → Run d a s0 l st ([], [])

theorem ReachL.reach {l : Limit} {st : St S O C P} (h : ReachL d a s0 l st) : Reach d a s0 st := by
  induction h with
  | init => exact .init
  | step _ _ hs ih => exact .step ih hs

theorem considerkid_stats (st : St S O C P) (n : Nat) (o : O) :
    (considerkid d a n o st).expd = st.expd ∧ (considerkid d a n o st).gend = st.gend := by
  unfold considerkid
  dsimp only
  cases st.closed (d.app (st.nd n).state o) with
  | some k =>
    dsimp only
    split <;> exact ⟨rfl, rfl⟩
  | none => exact ⟨rfl, rfl⟩

theorem fold_stats (os : List O) (st : St S O C P) (n : Nat) :
    (os.foldl (tryop d a n) st).expd = st.expd ∧ st.gend ≤ (os.foldl (tryop d a n) st).gend ∧
    (os.foldl (tryop d a n) st).gend ≤ st.gend + os.length := by
  induction os generalizing st with
  | nil => exact ⟨rfl, le_rfl, by simp⟩
  | cons o os ih =>
    rw [List.foldl_cons]
    obtain ⟨h1, h2, h3⟩ := ih (tryop d a n st o)
    have : (tryop d a n st o).expd = st.expd ∧ st.gend ≤ (tryop d a n st o).gend ∧
        (tryop d a n st o).gend ≤ st.gend + 1 := by
      unfold tryop
      split
      · exact ⟨rfl, le_rfl, by omega⟩
      · obtain ⟨e1, e2⟩ := considerkid_stats (d := d) (a := a) { st with gend := st.gend + 1 } n o
        rw [e1, e2]
        exact ⟨rfl, Nat.le_succ _, le_rfl⟩
    rw [List.length_cons]
    exact ⟨h1.trans this.1, this.2.1.trans h2, by omega⟩

theorem step_stats {st st' : St S O C P} (h : Step d a st st') :
    ∃ n < st.next, st'.expd = st.expd + 1 ∧ st.gend ≤ st'.gend ∧
      st'.gend ≤ st.gend + (d.ops (st.nd n).state).length := by
  cases h with
  | @mk n hl hg =>
    refine ⟨n, hl.1, ?_⟩
    have hst : ((pop n st).nd n).state = (st.nd n).state := by
      unfold pop
      dsimp only
      rw [Function.update_self]
    unfold expand
    rw [hst]
    exact fold_stats (d.ops (st.nd n).state) { pop n st with expd := st.expd + 1 } n

end Verif.Search
