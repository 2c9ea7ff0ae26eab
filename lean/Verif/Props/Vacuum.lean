import Verif.Domains.Vacuum
import Verif.Props.Idastar

/-!
# C47, C48: the vacuum world

`Dirty I s p` says that there is dirt left at the point `p`, `IsSpan P w` that the least and the largest number
satisfying `P` are `w` apart.
-/

namespace Verif.Vacuum

open Verif.Search
open Verif.GridNav (coord Interior)

variable {I : Inst}

/-- **C47 (reading).** Whatever characters the map has: an instance that is read without an error is well formed, its
initial state too, and the dirt of the initial state is exactly where the map has it. -/
theorem c47_load {w h : Nat} {c : Nat → Nat → Cell} (hl : load w h c = .ok I) :
    InstOk I ∧ SOk I (initialstate I) ∧
    (∀ p, Dirty I (initialstate I) p ↔ ∃ x y : Nat, (1 ≤ x ∧ x ≤ w ∧ 1 ≤ y ∧ y ≤ h) ∧ c x y = .dirt ∧ p = (↑x, ↑y)) ∧
    ((∀ x y : Nat, c x y ≠ .charger) → ∀ l, I.chargers l = false) ∧
    (∀ x y : Nat, 1 ≤ x → x ≤ w → 1 ≤ y → y ≤ h → I.map.flags (y * (w + 2) + x) = GridNav.OutOfBounds →
      c x y = .wall) := by
  obtain ⟨hi, hx⟩ := load_inv hl
  refine ⟨⟨⟨hi.border, .inr (.inr hi.four)⟩, hi.four, fun l i _ => hi.dirt l i⟩, ?_, ?_, fun h => hi.chg fun q _ => h _ _,
    fun x y h1 h2 h3 h4 h5 => hi.walls x y h1 h2 h5 h3 h4⟩
  · rcases hi.start with h | ⟨q, h1, h2, h3, h4⟩
    · exact absurd h.1 hx
    · have hq := mem_cells.1 h1
      refine ⟨?_, ?_, ?_⟩
      · show Interior I.map (I.y0 * I.map.w + I.x0).toNat
        have e : (I.y0 * I.map.w + I.x0).toNat = q.2 * I.map.w + q.1 := by
          rw [h3, h4]
          have : ((q.2 : Int) * I.map.w + q.1) = ((q.2 * I.map.w + q.1 : Nat) : Int) := by push_cast; rfl
          rw [this, Int.toNat_natCast]
        rw [e]
        exact interior_index hq.1 (by rw [hi.wd]; omega) hq.2.2.1 (by rw [hi.ht]; omega)
      · exact List.length_replicate
      · show (I.locs.length : Int) = ((List.replicate I.locs.length true).count true : Nat)
        rw [List.count_replicate_self]
  · intro p
    have : Dirty I (initialstate I) p ↔ p ∈ I.locs := by
      unfold Dirty initialstate
      dsimp only
      constructor
      · rintro ⟨i, -, h⟩
        exact List.mem_of_getElem? h
      · intro h
        obtain ⟨i, hi, rfl⟩ := List.getElem_of_mem h
        exact ⟨i, by rw [List.getElem?_replicate, if_pos hi], List.getElem?_eq_getElem hi⟩
    rw [this, hi.locs]
    constructor
    · rintro ⟨q, h1, h2, h3⟩
      exact ⟨q.1, q.2, mem_cells.1 h1, h2, h3⟩
    · rintro ⟨x, y, h1, h2, h3⟩
      exact ⟨(x, y), mem_cells.2 h1, h2, h3⟩

/-- **C47 (bookkeeping).** In every reachable state the count of dirty places is right and the vacuum is inside the
map. -/
theorem c47_walk (hI : InstOk I) (hch : ∀ l, I.chargers l = false) {s t : State} {c : Int} (hs : SOk I s)
    (hw : Walk (dom I) s t c) : SOk I t :=
  hw.inv (I := SOk I) (sok_app hI hch) hs

/-- **C47 (value).** While there is dirt the heuristic is defined: the number of dirty places plus width and height of
the smallest box around them. -/
theorem c47_value {s : State} (hs : SOk I s) (hd : s.ndirt ≠ 0) :
    ∃ wx wy, h I s = .ok (s.ndirt + wx + wy) ∧ IsSpan (fun x => ∃ y, Dirty I s (x, y)) wx ∧
      IsSpan (fun y => ∃ x, Dirty I s (x, y)) wy := by
  refine h_ok hs.len ?_
  have := hs.cnt
  rw [← List.count_pos_iff]
  omega

/-- **C47 (undefined at goals).** On every goal state the heuristic reads past the end of the vector of dirt locations:
its behaviour is undefined.  (Searches evaluate it on goal states.) -/
theorem c47_goal_ub {s : State} (hs : SOk I s) (hg : isgoal s = true) : h I s = .ub := by
  refine h_ub hs.len ?_
  have := hs.cnt
  unfold isgoal at hg
  rw [decide_eq_true_eq] at hg
  rw [← List.count_eq_zero]
  omega

/-- **C47 (admissible).** Where the heuristic is defined it never exceeds the cost of cleaning the remaining dirt. -/
theorem c47_admissible (hI : InstOk I) (hch : ∀ l, I.chargers l = false) {s : State} (hs : SOk I s) {v : Int}
    (hv : h I s = .ok v) {ops : List Int} {ss : List State} {t : State} {c : Int} (hp : Plan (dom I) s ops ss c)
    (ht : (s :: ss).getLast? = some t) (hg : (dom I).goal t = true) : v ≤ c := by
  have hw := hp.last_walk ht
  have h1 := hw.consistent (I := SOk I) (sok_app hI hch) (pot_consistent hI hch) hs
  rw [pot_goal (c47_walk hI hch hs hw) hg] at h1
  have := h_le_pot hs hv
  omega

theorem rev_ok (hI : InstOk I) (hch : ∀ l, I.chargers l = false) {s : State} (hs : SOk I s) {op : Int}
    (ho : op ∈ (dom I).ops s) (hr : (dom I).rev s op ∈ (dom I).ops ((dom I).app s op)) :
    (dom I).app ((dom I).app s op) ((dom I).rev s op) = s := by
  rcases mem_ops.1 ho with ⟨rfl, h⟩ | ⟨h0, mv, h1, h2⟩ | ⟨-, h⟩
  · obtain ⟨i, g1, g2, g3, g4⟩ := suck_ok hI hs h
    exfalso
    have e : (dom I).rev s Suck = Nop := by simp only [dom, g4, val]
    rw [e] at hr
    rcases mem_ops.1 hr with ⟨h, -⟩ | ⟨h, -⟩ | ⟨h, -⟩ <;> exact absurd h (by decide)
  · obtain ⟨l, j, g1, g2, g3, g4, g5, g6⟩ := move_ok hI hs h0 h1 h2
    have e : (dom I).rev s op = j := by simp only [dom, g1, val]
    have ea : (dom I).app s op = ⟨l, s.ndirt, s.dirt⟩ := by simp only [dom, g1, val]
    have hs' : SOk I ⟨l, s.ndirt, s.dirt⟩ := ⟨g2, hs.len, hs.cnt⟩
    rw [e, ea] at hr ⊢
    obtain ⟨j', mv', r1, r2, r3, r4, -⟩ := GridNav.revop_ok hI.map h1
    obtain rfl : j = j' := Option.some.inj (g4.symm.trans r1)
    have hlt := (List.getElem?_eq_some_iff.1 r2).1
    rw [hI.four] at hlt
    have hlt4 : j < 4 := hlt
    rcases mem_ops.1 hr with ⟨h, -⟩ | ⟨h0', mv2, k1, k2⟩ | ⟨h, -⟩
    · unfold Suck at h; omega
    · obtain ⟨l', j2, f1, f2, f3, -⟩ := move_ok hI hs' h0' k1 k2
      have : (dom I).app ⟨l, s.ndirt, s.dirt⟩ (j : Int) = ⟨l', s.ndirt, s.dirt⟩ := by simp only [dom, f1, val]
      rw [this]
      rw [Int.toNat_natCast, r2] at k1
      obtain rfl := Option.some.inj k1
      have : l' = s.loc := by
        apply GridNav.coord_inj (m := I.map)
        rw [f3]
        dsimp only
        rw [g3, r3, r4]
        ext <;> dsimp only <;> ring
      rw [this]
    · unfold Charge at h; omega
  · rw [hch] at h
    exact absurd h (by simp)

theorem domOk (hI : InstOk I) (hch : ∀ l, I.chargers l = false) {s0 : State} (hs : SOk I s0) : DomOk (dom I) s0 :=
  DomOk.of_inv (I := SOk I) hs (sok_app hI hch) (fun _ _ _ _ => Int.one_nonneg)
    (fun s h op ho hr => rev_ok hI hch h ho hr)
    (fun s h ho => by
      have e : (dom I).nop = Nop := rfl
      rw [e] at ho
      rcases mem_ops.1 ho with ⟨h, -⟩ | ⟨h, -⟩ | ⟨h, -⟩ <;> exact absurd h (by decide))

theorem admissible (hI : InstOk I) (hch : ∀ l, I.chargers l = false) {s0 : State} (hs : SOk I s0) :
    Admissible (dom I) s0 (hRead I) 0 := by
  constructor
  · intro t c hw hg
    have ht := c47_walk hI hch hs hw
    unfold hRead
    rw [c47_goal_ub ht hg]
    dsimp only
    rw [ht.cnt]
    omega
  · intro s c0 hw0 t c hw hg
    have hs' := c47_walk hI hch hs hw0
    have h1 := hw.consistent (I := SOk I) (sok_app hI hch) (pot_consistent hI hch) hs'
    rw [pot_goal (c47_walk hI hch hs' hw) hg] at h1
    refine le_trans ?_ h1
    by_cases hd : s.ndirt = 0
    · unfold hRead
      rw [c47_goal_ub hs' (by unfold isgoal; rw [hd]; rfl)]
      dsimp only
      rw [hd, pot_goal hs' (by unfold isgoal; rw [hd]; rfl)]
    · obtain ⟨wx, wy, g1, -⟩ := c47_value hs' hd
      have := h_le_pot hs' g1
      unfold hRead
      rw [g1]
      exact this

/-- **C47 (A\*).** If the read past the end at goal states yields any value at all (it cancels), A\* returns a shortest
plan, on every map without charging stations. -/
theorem c47_astar (hI : InstOk I) (hch : ∀ l, I.chargers l = false) {s0 : State} (hs : SOk I s0) {l : Limit}
    {st : St State Int Int Int} {r : List State × List Int}
    (hr : Run (dom I) (astar (hRead I)) s0 l st r) (hne : r ≠ ([], [])) :
    ∃ c, Solution (dom I) s0 r c ∧ ∀ ops ss t c', Plan (dom I) s0 ops ss c' →
      (s0 :: ss).getLast? = some t → (dom I).goal t = true → c ≤ c' :=
  c30_optimal (domOk hI hch hs).undo (admissible hI hch hs) hr hne

/-- **C47 (charging).** On a charging station the operators include one whose application ends the program. -/
theorem c47_charge {s : State} (h : I.chargers s.loc = true) : Charge ∈ (dom I).ops s ∧ edge I s Charge = .fatal :=
  ⟨mem_ops.2 (.inr (.inr ⟨rfl, h⟩)), rfl⟩

/-- **C47 (equality).** Comparing two states of one instance is defined and finds exactly equal states. -/
theorem c47_eq {s t : State} (hs : SOk I s) (ht : SOk I t) : ∃ b, s.eq t = .ok b ∧ (b = true ↔ s = t) := by
  have key : ∀ is : List Nat, (∀ i ∈ is, i < I.locs.length) →
      ∃ b, State.eqLoop s.dirt t.dirt is = .ok b ∧ (b = true ↔ ∀ i ∈ is, s.dirt[i]? = t.dirt[i]?) := by
    intro is
    induction is with
    | nil => intro _; exact ⟨true, rfl, by simp⟩
    | cons i is ih =>
      intro h
      obtain ⟨b, h1, h2⟩ := ih fun j hj => h j (List.mem_cons_of_mem _ hj)
      have hi := h i (List.mem_cons_self ..)
      have g1 : s.dirt[i]? = some (s.dirt[i]'(by rw [hs.len]; exact hi)) := List.getElem?_eq_getElem _
      have g2 : t.dirt[i]? = some (t.dirt[i]'(by rw [ht.len]; exact hi)) := List.getElem?_eq_getElem _
      unfold State.eqLoop
      rw [g1, g2]
      dsimp only
      split
      · rename_i hne
        refine ⟨false, rfl, ?_⟩
        simp only [Bool.false_eq_true, List.mem_cons, forall_eq_or_imp, false_iff, not_and]
        intro hh
        rw [g1, g2] at hh
        exact absurd (Option.some.inj hh) hne
      · rename_i he
        refine ⟨b, h1, ?_⟩
        rw [h2, List.forall_mem_cons, g1, g2]
        simp only [not_not] at he
        simp [he]
  unfold State.eq
  split
  · rename_i hne
    refine ⟨false, rfl, ?_⟩
    simp only [Bool.false_eq_true, false_iff]
    rintro rfl
    simp at hne
  · rename_i he
    obtain ⟨b, h1, h2⟩ := key (List.range s.dirt.length) (by
      intro i hi
      rw [List.mem_range, hs.len] at hi
      exact hi)
    refine ⟨b, h1, ?_⟩
    rw [h2]
    constructor
    · intro h
      have hd : s.dirt = t.dirt := by
        apply List.ext_getElem?
        intro i
        by_cases hi : i < s.dirt.length
        · exact h i (List.mem_range.2 hi)
        · rw [List.getElem?_eq_none (by omega), List.getElem?_eq_none (by rw [ht.len, ← hs.len]; omega)]
      cases s; cases t
      simp only [not_or, not_not] at he
      simp only [State.mk.injEq]
      exact ⟨he.1, he.2, hd⟩
    · rintro rfl i _
      rfl

/-! ## C48 -/

/-- **C48, partial.** Moving changes neither the dirt nor the heuristic.  (Missing: sucking, for which the claim is
false, see `c48_inconsistent`.) -/
theorem c48_move_partial (hI : InstOk I) {s : State} (hs : SOk I s) {op : Int} (ho : op ∈ (dom I).ops s)
    (hop : op ≠ Suck ∧ op ≠ Charge) : h I ((dom I).app s op) = h I s := by
  rcases mem_ops.1 ho with ⟨rfl, h⟩ | ⟨h0, mv, h1, h2⟩ | ⟨rfl, h⟩
  · exact absurd rfl hop.1
  · obtain ⟨l, j, g1, -⟩ := move_ok hI hs h0 h1 h2
    have : (dom I).app s op = ⟨l, s.ndirt, s.dirt⟩ := by simp only [dom, g1, val]
    rw [this]
    rfl
  · exact absurd rfl hop.2

/-- Sucking never raises the heuristic, and lowers it by at least one. -/
theorem c48_suck_partial (hI : InstOk I) {s : State} (hs : SOk I s) (ho : cansuck I s = true)
    {v v' : Int} (hv : h I s = .ok v) (hv' : h I ((dom I).app s Suck) = .ok v') : v' + 1 ≤ v := by
  obtain ⟨i, g1, g2, g3, g4⟩ := suck_ok hI hs ho
  have ea : (dom I).app s Suck = ⟨s.loc, s.ndirt - 1, s.dirt.set i false⟩ := by simp only [dom, g4, val]
  rw [ea] at hv'
  have hl' : (⟨s.loc, s.ndirt - 1, s.dirt.set i false⟩ : State).dirt.length = I.locs.length := by
    rw [List.length_set]; exact hs.len
  have hc' : true ∈ (⟨s.loc, s.ndirt - 1, s.dirt.set i false⟩ : State).dirt := by
    by_contra hc
    rw [h_ub hl' hc] at hv'
    exact absurd hv' (by simp)
  obtain ⟨wx, wy, k1, k2, k3⟩ := h_ok hs.len (List.mem_of_getElem? g2)
  obtain ⟨wx', wy', k1', k2', k3'⟩ := h_ok hl' hc'
  have e1 := Outcome.ok.inj (k1.symm.trans hv)
  have e2 := Outcome.ok.inj (k1'.symm.trans hv')
  have hsub : ∀ p, Dirty I ⟨s.loc, s.ndirt - 1, s.dirt.set i false⟩ p → Dirty I s p := by
    rintro p ⟨j, d1, d2⟩
    by_cases hij : i = j
    · subst hij
      exact ⟨i, g2, d2⟩
    · refine ⟨j, ?_, d2⟩
      dsimp only at d1
      rwa [List.getElem?_set_ne hij] at d1
  have m1 := k2'.mono k2 fun x ⟨y, hd⟩ => ⟨y, hsub _ hd⟩
  have m2 := k3'.mono k3 fun y ⟨x, hd⟩ => ⟨x, hsub _ hd⟩
  dsimp only at e2
  omega

/-! ## Concrete cases -/

/-- One row: start with dirt to the left, floor, dirt to the right (`*@_*`). -/
def exCells (x _y : Nat) : Cell := if x = 1 then .dirt else if x = 2 then .start else if x = 4 then .dirt else .floor

/-- The instance the code reads from it. -/
def exInst : Inst :=
  match load 4 1 exCells with
  | .ok I => I
  | _ => ⟨⟨0, 0, fun _ => 0, [], false⟩, fun _ => 0, [], fun _ => false, 0, 0⟩

theorem exInst_load : load 4 1 exCells = .ok exInst := rfl

/-- **C48 (negative).** The heuristic is not consistent: there is an instance, read without error, and a reachable
state in which sucking (cost 1) lowers the heuristic by more than 1. -/
theorem c48_inconsistent :
    ∃ (I : Inst) (s : State) (c : Int) (v v' : Int), load 4 1 exCells = .ok I ∧ Walk (dom I) (initialstate I) s c ∧
      Suck ∈ (dom I).ops s ∧ h I s = .ok v ∧ h I ((dom I).app s Suck) = .ok v' ∧ (dom I).cost s Suck + v' < v := by
  have h1 : (2 : Int) ∈ (dom exInst).ops (initialstate exInst) := by decide
  have hw : Walk (dom exInst) (initialstate exInst) ((dom exInst).app (initialstate exInst) 2) (0 + 1) :=
    (Walk.nil _).snoc h1
  exact ⟨exInst, _, _, 5, 1, rfl, hw, by decide, by decide, by decide, by decide⟩

example : initialstate exInst = ⟨8, 2, [true, true]⟩ := by decide
example : InstOk exInst ∧ SOk exInst (initialstate exInst) := ⟨(c47_load exInst_load).1, (c47_load exInst_load).2.1⟩
example : h exInst (initialstate exInst) = .ok 5 := by decide
example : (∀ l, exInst.chargers l = false) := (c47_load exInst_load).2.2.2.1 (by
  intro x y
  unfold exCells
  split
  · simp
  · split
    · simp
    · split <;> simp)

end Verif.Vacuum
