import Verif.Domains.DockRobotPack

/-!
# C51, C59: the dock robot

`At c b l` says where a box is: on a crane or in a pile at location `l`, or on the robot while the robot is there.
`Canon I c` is the condition on the contents of a state that the code relies on: every box is in exactly one place,
the cranes and the piles of a location are sorted and do not exceed the capacities.
-/

namespace Verif.DockRobot

open Verif Search

/-- Box `b` is at location `l`. -/
def At (c : Core) (b l : Nat) : Prop :=
  (∃ x, c.locs[l]? = some x ∧ (b ∈ x.cranes ∨ ∃ p ∈ x.piles, b ∈ p)) ∨ (c.rbox = some b ∧ c.rloc = l)

theorem at_iff {c : Core} {b l : Nat} : At c b l ↔ (b, l) ∈ c.pairs := by
  rw [pairs_eq, List.mem_append, At]
  constructor
  · rintro (⟨x, hx, hb⟩ | ⟨hr, rfl⟩)
    · refine Or.inl (List.mem_flatMap.2 ⟨(x, l), List.mem_zipIdx_iff_getElem?.2 hx, List.mem_map.2 ⟨b, ?_, rfl⟩⟩)
      rw [Loc.boxes, List.mem_append, List.mem_flatten]
      exact hb
    · refine Or.inr ?_
      rw [hr]
      simp
  · rintro (h | h)
    · obtain ⟨x, hx, hb⟩ := mem_locPairs h
      rw [Loc.boxes, List.mem_append, List.mem_flatten] at hb
      exact Or.inl ⟨x, hx, hb⟩
    · obtain ⟨b', hb, e⟩ := List.mem_map.1 h
      obtain ⟨rfl, rfl⟩ := Prod.mk.inj e
      exact Or.inr ⟨by simpa using hb, rfl⟩

/-- States that come about by constructing a state from contents in order and applying operators that are offered. -/
inductive Reached (I : Inst) (c0 : Core) : State → Prop
  | init {s : State} : mk I c0 = .ok s → Reached I c0 s
  | step {s : State} {o : Op} {e : Eff} : Reached I c0 s → o ∈ ops I s.toCore → apply I s o = .ok e →
      Reached I c0 e.state

theorem Reached.ok {I : Inst} (hI : InstOk I) {c0 : Core} (h0 : CoreOk I c0) {s : State} (h : Reached I c0 s) :
    Ok I s := by
  induction h with
  | init hs =>
    obtain ⟨s', e, -, h⟩ := mk_ok h0
    rw [hs] at e
    cases e
    exact h
  | step _ ho ha ih =>
    obtain ⟨e', e, h⟩ := good hI ih ho
    rw [ha] at e
    cases e
    exact h.ok

variable {I : Inst} {c0 : Core} {s : State}

/-! ## C51 -/

/-- **C51 (packing).** Whatever operators have been applied: packing the state is defined, and unpacking gives a state
with the same contents, the same number of boxes out of place and the same recorded places of all boxes that have a
goal. -/
theorem c51_roundtrip (hI : InstOk I) (h0 : CoreOk I c0) (hr : Reached I c0 s) :
    ∃ pos s', pack I s.toCore = .ok pos ∧ unpack I pos = .ok s' ∧ s'.toCore = s.toCore ∧ s'.nleft = s.nleft ∧
      ∀ b, b < I.nboxes → I.goal b ≠ none → s'.boxlocs b = s.boxlocs b := by
  have h := hr.ok hI h0
  obtain ⟨pos, hp, hrec⟩ := pack_ok h.core
  obtain ⟨s', hm, e, h'⟩ := mk_ok h.core
  refine ⟨pos, s', hp, by rw [unpack_records h.core hrec, hm], e, (h_congr h' h e).1, fun b hb hg => ?_⟩
  obtain ⟨l, -, hl⟩ := h.core.place hb
  have h1 := h.boxlocs _ hl hg
  have h2 := h'.boxlocs (b, l) (by rw [e]; exact hl) hg
  dsimp only at h1 h2
  rw [h1, h2]

/-- **C51 (equality).** Packed states that compare equal, that is in the first `nboxes + 1` numbers, come from equal
contents. -/
theorem c51_packed_eq {c c' : Core} (h : CoreOk I c) (h' : CoreOk I c') {pos pos' : Nat → Nat}
    (hp : pack I c = .ok pos) (hp' : pack I c' = .ok pos') (e : ∀ i < I.nboxes + 1, pos i = pos' i) : c = c' := by
  obtain ⟨q, hq, hrec⟩ := pack_ok h
  rw [hp] at hq
  cases hq
  obtain ⟨q', hq', hrec'⟩ := pack_ok h'
  rw [hp'] at hq'
  cases hq'
  have hrec2 : Records I c pos' := by
    refine ⟨fun b hb => ?_, fun i l b q hl hs => ?_, ?_⟩
    · have := h.lt (mem_pairs_of_rbox hb)
      dsimp only at this
      rw [← e b (by omega)]
      exact hrec.robot b hb
    · have hb : b ∈ l.boxes := by
        rw [Loc.boxes, List.mem_append, List.mem_flatten]
        rcases hs with hs | ⟨p, ht, st, hp, hst, -⟩
        · exact Or.inl (List.mem_of_getElem? hs)
        · exact Or.inr ⟨st, List.mem_of_getElem? hp, List.mem_of_getElem? hst⟩
      have := h.lt (mem_pairs_of_mem_loc hl hb)
      dsimp only at this
      rw [← e b (by omega)]
      exact hrec.slot i l b q hl hs
    · rw [← e _ (by omega)]
      exact hrec.rloc
  have e1 := unpack_records h hrec2
  have e2 := unpack_records h' hrec'
  obtain ⟨s1, m1, t1, -⟩ := mk_ok h
  obtain ⟨s2, m2, t2, -⟩ := mk_ok h'
  rw [e1, m1, m2] at e2
  injection e2 with e2
  rw [← t1, ← t2, e2]

/-- **C51 (operators).** Whatever operators have been applied: every operator that is offered can be applied without
undefined behaviour or a failed assertion, and the operator that undoes it is offered in the resulting state. -/
theorem c51_ops (hI : InstOk I) (h0 : CoreOk I c0) (hr : Reached I c0 s) {o : Op} (ho : o ∈ ops I s.toCore) :
    ∃ e, apply I s o = .ok e ∧ CoreOk I e.state.toCore ∧ 0 ≤ e.cost ∧ e.revop ∈ ops I e.state.toCore := by
  obtain ⟨e, he, h⟩ := good hI (hr.ok hI h0) ho
  exact ⟨e, he, h.ok.core, h.cost, h.offered⟩

/-- **C51 (undoing).** Undoing an edge gives back the state exactly, for the cost that the edge advertises. -/
theorem c51_undo (hI : InstOk I) (h0 : CoreOk I c0) (hr : Reached I c0 s) {o : Op} (ho : o ∈ ops I s.toCore) {e : Eff}
    (he : apply I s o = .ok e) : ∃ r, apply I e.state e.revop = .ok ⟨s, r, e.revcost, e.cost⟩ := by
  obtain ⟨e', he', h⟩ := good hI (hr.ok hI h0) ho
  rw [he] at he'
  cases he'
  exact h.undo

/-- **C51 (places).** Every box is at exactly one location, however the boxes have been moved. -/
theorem c51_place (hI : InstOk I) (h0 : CoreOk I c0) (hr : Reached I c0 s) (b : Nat) :
    (b < I.nboxes → ∃! l, At s.toCore b l) ∧ (I.nboxes ≤ b → ∀ l, ¬At s.toCore b l) := by
  have h := hr.ok hI h0
  have hnd : (s.pairs.map Prod.fst).Nodup := h.core.perm.nodup_iff.2 List.nodup_range
  constructor
  · intro hb
    obtain ⟨l, -, hl⟩ := h.core.place hb
    refine ⟨l, at_iff.2 hl, fun l' hl' => ?_⟩
    exact congrArg Prod.snd (List.inj_on_of_nodup_map hnd (at_iff.1 hl') hl rfl)
  · intro hb l hl
    have := h.core.lt (at_iff.1 hl)
    dsimp only at this
    omega

/-- **C51 (goals).** The counter of boxes out of place is the number of boxes that are not at their goals, so the goal
test succeeds exactly if every box that has a goal is there. -/
theorem c51_goal (hI : InstOk I) (h0 : CoreOk I c0) (hr : Reached I c0 s) :
    s.nleft = ((List.range I.nboxes).filter fun b =>
      (I.goal b).any fun g => decide (s.boxlocs b ≠ g)).length ∧
    (∀ b g, b < I.nboxes → I.goal b = some g → At s.toCore b (s.boxlocs b)) ∧
    (s.nleft = 0 ↔ ∀ b g, b < I.nboxes → I.goal b = some g → At s.toCore b g) := by
  have h := hr.ok hI h0
  have hout : ∀ x ∈ s.pairs, I.out x.1 x.2 = (I.goal x.1).any fun g => decide (s.boxlocs x.1 ≠ g) := by
    intro x hx
    rw [Inst.out]
    cases hg : I.goal x.1 with
    | none => rfl
    | some g =>
      rw [h.boxlocs x hx (by rw [hg]; simp)]
      refine Bool.eq_iff_iff.2 ?_
      rw [bne_iff_ne, Option.any_some, decide_eq_true_eq]
      exact ne_comm
  have hn : s.nleft = ((List.range I.nboxes).filter fun b =>
      (I.goal b).any fun g => decide (s.boxlocs b ≠ g)).length := by
    rw [h.nleft, ← List.countP_eq_length_filter, ← h.core.perm.countP_eq, List.countP_map]
    exact List.countP_congr fun x hx => by rw [hout x hx]; rfl
  have hat : ∀ b g, b < I.nboxes → I.goal b = some g → At s.toCore b (s.boxlocs b) := by
    intro b g hb hg
    obtain ⟨l, -, hl⟩ := h.core.place hb
    have := h.boxlocs _ hl (by rw [hg]; simp)
    dsimp only at this
    rw [this]
    exact at_iff.2 hl
  refine ⟨hn, hat, ?_⟩
  rw [hn, List.length_eq_zero_iff, List.filter_eq_nil_iff]
  constructor
  · intro h1 b g hb hg
    have := h1 b (List.mem_range.2 hb)
    rw [hg] at this
    have e : s.boxlocs b = g := by simpa using this
    rw [← e]
    exact hat b g hb hg
  · intro h1 b hb
    cases hg : I.goal b with
    | none => simp
    | some g =>
      have := (c51_place hI h0 hr b).1 (List.mem_range.1 hb)
      have := this.unique (hat b g (List.mem_range.1 hb) hg) (h1 b g (List.mem_range.1 hb) hg)
      simp [this]

/-! ### Witnesses -/

/-- Three locations, five boxes, two cranes and two piles at each location. -/
def exI : Inst :=
  { nlocs := 3
    nboxes := 5
    maxpiles := fun _ => 2
    maxcranes := fun _ => 2
    adj := fun i j => i + 2 * j
    goal := fun b => if b = 0 then some 1 else if b = 3 then some 0 else none }

def exC : Core := ⟨[⟨[4], [[0, 2], [1]]⟩, ⟨[], []⟩, ⟨[], []⟩], some 3, 0⟩

theorem exI_ok : InstOk exI := by
  refine ⟨fun i j _ _ => ?_, fun b g hg => ?_⟩
  · change (0 : ℚ) ≤ i + 2 * j
    positivity
  · change (if b = 0 then some 1 else if b = 3 then some 0 else none) = some g at hg
    split at hg
    · cases hg
      decide
    · split at hg
      · cases hg
        decide
      · exact absurd hg (by simp)

theorem exC_ok : CoreOk exI exC := by
  refine ⟨rfl, by decide, by decide, ?_, ?_, ?_⟩
  · intro l x hx
    have : x ∈ exC.locs := List.mem_of_getElem? hx
    have key : ∀ x ∈ exC.locs, (x.cranes.Pairwise (· < ·)) ∧ (x.piles.Pairwise fun a b => bot a < bot b) ∧
        (∀ p ∈ x.piles, p ≠ []) ∧ x.boxes.Nodup := by decide
    obtain ⟨h1, h2, h3, h4⟩ := key x this
    exact ⟨h1, h2, h3, h4⟩
  · intro l x hx
    have : x ∈ exC.locs := List.mem_of_getElem? hx
    have key : ∀ x ∈ exC.locs, x.cranes.length ≤ 2 := by decide
    exact key x this
  · intro l x hx
    have : x ∈ exC.locs := List.mem_of_getElem? hx
    have key : ∀ x ∈ exC.locs, x.piles.length ≤ 2 := by decide
    exact key x this

/-- The hypotheses hold for contents with cranes, piles and a loaded robot, where operators of all five kinds but
loading are offered. -/
example : InstOk exI ∧ CoreOk exI exC ∧ ops exI exC =
    [.push 0 0, .push 0 1, .pop 0, .pop 1, .unload, .move 1, .move 2] := ⟨exI_ok, exC_ok, by decide⟩

/-- Two locations; piles that are not sorted by their bottoms, as an instance file may list them. -/
def badI : Inst :=
  { nlocs := 2
    nboxes := 4
    maxpiles := fun _ => 3
    maxcranes := fun _ => 1
    adj := fun _ _ => 1
    goal := fun _ => some 1 }

def badC : Core := ⟨[⟨[], [[2, 3], [1], [0]]⟩, ⟨[], []⟩], none, 0⟩

/-- The contents of the state after applying an operator and undoing it. -/
def thereAndBack (I : Inst) (c : Core) (o : Op) : Outcome Core :=
  (mk I c).bind fun s => (apply I s o).bind fun e => (apply I e.state e.revop).map fun e' => e'.state.toCore

/-- **C51 (unsorted input).** The order in which the instance file lists the piles matters: with piles that are not
sorted by their bottom boxes, taking a box off a pile and undoing that puts the box in a pile of its own. -/
theorem c51_unsorted_violated : Op.pop 0 ∈ ops badI badC ∧
    thereAndBack badI badC (.pop 0) = .ok ⟨[⟨[], [[0], [1], [2], [3]]⟩, ⟨[], []⟩], none, 0⟩ := by
  constructor
  · decide
  · decide +kernel

/-! ## C59: the heuristic and A* -/

/-- **C59 (distances).** The table of distances holds the costs of the cheapest routes of the robot. -/
theorem c59_shortest (hA : AdjOk I) {i j : Nat} (hi : i < I.nlocs) (hj : j < I.nlocs) :
    Route I i j (shortest I i j) ∧ ∀ c, Route I i j c → shortest I i j ≤ c :=
  ⟨(dist_shortest hA).route i j hi hj, fun _ h => shortest_le hA h⟩

example : AdjOk exI ∧ shortest exI 2 1 = 4 ∧ exI.adj 0 2 = 4 := ⟨exI_ok.adj, by decide +kernel, by decide +kernel⟩

/-- The state unpacked from contents and the effect of an operator on it; the second component is only used when the
first is defined. -/
def val (I : Inst) (c : Core) (o : Op) : Option Eff :=
  match (mk I c).bind fun s => apply I s o with
  | .ok e => some e
  | _ => none

/-- The dock robot as the searches see it: states are packed. -/
def dom (I : Inst) : Dom Core Op ℚ where
  ops := ops I
  app c o := ((val I c o).map fun e => e.state.toCore).getD c
  cost c o := ((val I c o).map fun e => e.cost).getD 0
  rev c o := ((val I c o).map fun e => e.revop).getD .none
  nop := .none
  goal c := match mk I c with
    | .ok s => s.nleft == 0
    | _ => false

/-- The heuristic value of the state unpacked from `c`. -/
def hC (I : Inst) (c : Core) : ℚ := match mk I c with
  | .ok s => h I s
  | _ => 0

/-- The value of `pot` for the state unpacked from `c`. -/
def potC (I : Inst) (c : Core) : ℚ := match mk I c with
  | .ok s => pot I s
  | _ => 0

theorem pot_congr {s s' : State} (hs : Ok I s) (hs' : Ok I s') (e : s.toCore = s'.toCore) : pot I s = pot I s' := by
  obtain ⟨hn, hh⟩ := h_congr hs hs' e
  rw [h_eq, h_eq] at hh
  rw [pot, pot, ← hn, ← e]
  rw [← hn] at hh
  split
  · rfl
  · rename_i h0
    rw [if_neg h0, if_neg h0, show s.locs = s'.locs by rw [e]] at hh
    rw [show s.locs = s'.locs by rw [e]]
    linarith

/-- What an operator does to the contents depends on the contents alone. -/
theorem apply_core {s s' : State} (hc : s.toCore = s'.toCore) {o : Op} {e e' : Eff} (h : apply I s o = .ok e)
    (h' : apply I s' o = .ok e') : e.state.toCore = e'.state.toCore := by
  obtain ⟨c, bl, nl⟩ := s
  obtain ⟨c', bl', nl'⟩ := s'
  obtain rfl : c = c' := hc
  cases o with
  | none => exact absurd h (by simp [apply])
  | push a p =>
    simp only [apply, applyPush] at h h'
    cases hl : c.locs[c.rloc]? with
    | none => rw [hl] at h; exact absurd h (by simp)
    | some l =>
      rw [hl] at h h'
      dsimp only at h h'
      obtain ⟨⟨b, l1⟩, h1, h⟩ := Outcome.bind_eq_ok.1 h
      rw [h1, Outcome.bind_ok] at h'
      dsimp only at h h'
      split at h
      · exact absurd h (by simp)
      · rename_i h2
        rw [if_neg h2] at h'
        split at h
        · exact absurd h (by simp)
        · rename_i q hq
          rw [hq] at h'
          cases h
          cases h'
          rfl
  | pop p =>
    simp only [apply, applyPop] at h h'
    cases hl : c.locs[c.rloc]? with
    | none => rw [hl] at h; exact absurd h (by simp)
    | some l =>
      rw [hl] at h h'
      dsimp only at h h'
      split at h
      · exact absurd h (by simp)
      · rename_i h2
        rw [if_neg h2] at h'
        obtain ⟨⟨b, l1⟩, h1, h⟩ := Outcome.bind_eq_ok.1 h
        rw [h1, Outcome.bind_ok] at h'
        dsimp only at h h'
        split at h
        · exact absurd h (by simp)
        · rename_i q hq
          rw [hq] at h'
          cases h
          cases h'
          rfl
  | load a =>
    simp only [apply, applyLoad] at h h'
    cases hr : c.rbox with
    | some b => rw [hr] at h; exact absurd h (by simp)
    | none =>
      rw [hr] at h h'
      dsimp only at h h'
      cases hl : c.locs[c.rloc]? with
      | none => rw [hl] at h; exact absurd h (by simp)
      | some l =>
        rw [hl] at h h'
        dsimp only at h h'
        obtain ⟨⟨b, l1⟩, h1, h⟩ := Outcome.bind_eq_ok.1 h
        rw [h1, Outcome.bind_ok] at h'
        cases h
        cases h'
        rfl
  | unload =>
    simp only [apply, applyUnload] at h h'
    cases hr : c.rbox with
    | none => rw [hr] at h; exact absurd h (by simp)
    | some b =>
      rw [hr] at h h'
      dsimp only at h h'
      cases hl : c.locs[c.rloc]? with
      | none => rw [hl] at h; exact absurd h (by simp)
      | some l =>
        rw [hl] at h h'
        dsimp only at h h'
        split at h
        · exact absurd h (by simp)
        · rename_i h2
          rw [if_neg h2] at h'
          split at h
          · exact absurd h (by simp)
          · rename_i q hq
            rw [hq] at h'
            cases h
            cases h'
            rfl
  | move i =>
    simp only [apply, applyMove] at h h'
    split at h
    · exact absurd h (by simp)
    · rename_i h2
      rw [if_neg h2] at h'
      cases hr : c.rbox with
      | none =>
        rw [hr] at h h'
        cases h
        cases h'
        rfl
      | some b =>
        rw [hr] at h h'
        dsimp only at h h'
        cases hg : I.goal b with
        | none =>
          rw [hg] at h h'
          cases h
          cases h'
          rfl
        | some g =>
          rw [hg] at h h'
          cases h
          cases h'
          rfl

theorem dom_step (hI : InstOk I) {c : Core} (hc : CoreOk I c) {o : Op} (ho : o ∈ ops I c) :
    CoreOk I ((dom I).app c o) ∧ 0 ≤ (dom I).cost c o ∧
    (dom I).rev c o ∈ ops I ((dom I).app c o) ∧ (dom I).app ((dom I).app c o) ((dom I).rev c o) = c ∧
    potC I c ≤ (dom I).cost c o + potC I ((dom I).app c o) := by
  obtain ⟨s, hm, hs, hok⟩ := mk_ok hc
  obtain ⟨e, he, hg⟩ := good hI hok (by rw [hs]; exact ho)
  have hv : val I c o = some e := by rw [val, hm, Outcome.bind_ok, he]
  have e1 : (dom I).app c o = e.state.toCore := by
    change ((val I c o).map _).getD _ = _
    rw [hv]
    rfl
  have e2 : (dom I).cost c o = e.cost := by
    change ((val I c o).map _).getD _ = _
    rw [hv]
    rfl
  have e3 : (dom I).rev c o = e.revop := by
    change ((val I c o).map _).getD _ = _
    rw [hv]
    rfl
  rw [e1, e2, e3]
  obtain ⟨s2, hm2, hs2, hok2⟩ := mk_ok hg.ok.core
  obtain ⟨f, hf, hgf⟩ := good hI hok2 (o := e.revop) (by rw [hs2]; exact hg.offered)
  refine ⟨hg.ok.core, hg.cost, hg.offered, ?_, ?_⟩
  · have hv2 : val I e.state.toCore e.revop = some f := by rw [val, hm2, Outcome.bind_ok, hf]
    change ((val I e.state.toCore e.revop).map _).getD _ = _
    rw [hv2]
    change f.state.toCore = c
    rw [← hs]
    obtain ⟨r, hu⟩ := hg.undo
    exact apply_core hs2 hf hu
  · rw [potC, potC, hm, hm2]
    dsimp only
    rw [pot_congr hok2 hg.ok hs2]
    exact hg.cons

theorem domOk (hI : InstOk I) {c0 : Core} (h0 : CoreOk I c0) : DomOk (dom I) c0 := by
  refine DomOk.of_inv (I := CoreOk I) h0 (fun c hc o ho => (dom_step hI hc ho).1)
    (fun c hc o ho => (dom_step hI hc ho).2.1) (fun c hc o ho _ => (dom_step hI hc ho).2.2.2.1) ?_
  intro c hc hn
  obtain ⟨l, hl⟩ := hc.get hc.rloc
  rcases (mem_ops hl).1 hn with ⟨_, _, _, _, h⟩ | ⟨_, ⟨_, _, h⟩ | ⟨_, h⟩⟩ | ⟨_, _, _, h⟩ | ⟨_, _, _, h⟩ <;>
    exact absurd h (by simp [dom])

theorem goal_iff {c : Core} (hc : CoreOk I c) : (dom I).goal c = true ↔
    ∀ b g, b < I.nboxes → I.goal b = some g → At c b g := by
  obtain ⟨s, hm, hs, hok⟩ := mk_ok hc
  have e : (dom I).goal c = (s.nleft == 0) := by
    change (match mk I c with
      | .ok s => s.nleft == 0
      | _ => false) = _
    rw [hm]
  rw [e, beq_iff_eq, hok.nleft, List.countP_eq_zero, hs]
  have hnd : (c.pairs.map Prod.fst).Nodup := hc.perm.nodup_iff.2 List.nodup_range
  constructor
  · intro h b g hb hg
    obtain ⟨l, -, hl⟩ := hc.place hb
    have := h _ hl
    rw [Inst.out, hg] at this
    rw [show g = l by simpa using this]
    exact at_iff.2 hl
  · intro h x hx ho
    rw [Inst.out] at ho
    cases hg : I.goal x.1 with
    | none => rw [hg] at ho; exact absurd ho (by simp)
    | some g =>
      rw [hg] at ho
      have h1 := at_iff.1 (h x.1 g (hc.lt hx) hg)
      have := congrArg Prod.snd (List.inj_on_of_nodup_map hnd h1 hx rfl)
      exact absurd this (by simpa using ho)

theorem admissible (hI : InstOk I) {c0 : Core} (h0 : CoreOk I c0) : Admissible (dom I) c0 (hC I) 0 := by
  have hadm : Admissible (dom I) c0 (potC I) 0 := by
    refine Admissible.of_consistent (I := CoreOk I) h0 (fun c hc o ho => (dom_step hI hc ho).1)
      (fun c hc o ho => (dom_step hI hc ho).2.2.2.2) fun c hc hg => ?_
    obtain ⟨s, hm, hs, hok⟩ := mk_ok hc
    change (match mk I c with
      | .ok s => s.nleft == 0
      | _ => false) = true at hg
    rw [hm] at hg
    rw [potC, hm]
    dsimp only
    rw [pot, if_pos (by simpa using hg)]
  have hle : ∀ c, hC I c ≤ potC I c := by
    intro c
    rw [hC, potC]
    split
    · exact h_le_pot _ _
    · exact le_refl _
  refine ⟨fun t c hw hg => ?_, fun c c1 hw t c' hw' hg => (hle c).trans (hadm.2 c c1 hw t c' hw' hg)⟩
  have ht := hw.inv (I := CoreOk I) (fun c hc o ho => (dom_step hI hc ho).1) h0
  obtain ⟨s, hm, hs, hok⟩ := mk_ok ht
  rw [hC, hm]
  dsimp only
  rw [h_eq]
  split
  · exact le_refl _
  · rename_i hn
    have h1 := goalSum_nonneg hI hok
    have h2 := locSum_nonneg I s.locs
    have h3 : (0 : ℚ) ≤ (s.nleft - 1) * loadCost := by
      refine mul_nonneg ?_ loadCost_pos.le
      have : (1 : ℚ) ≤ s.nleft := by exact_mod_cast Nat.one_le_iff_ne_zero.2 hn
      linarith
    linarith

/-- **C59 (value).** The heuristic value computed for a state that was changed in place by operators is the value for
the state unpacked from its packed form. -/
theorem c59_value (hI : InstOk I) (h0 : CoreOk I c0) (hr : Reached I c0 s) : h I s = hC I s.toCore := by
  have h1 := hr.ok hI h0
  obtain ⟨s', hm, e, h'⟩ := mk_ok h1.core
  rw [hC, hm]
  exact (h_congr h1 h' e.symm).2

/-- **C59 (admissible).** The heuristic never exceeds the cost of a plan that brings every box to its goal. -/
theorem c59_admissible (hI : InstOk I) {c0 : Core} (h0 : CoreOk I c0) {ops : List Op} {ss : List Core} {t : Core} {x : ℚ}
    (hp : Plan (dom I) c0 ops ss x) (ht : (c0 :: ss).getLast? = some t)
    (hg : ∀ b g, b < I.nboxes → I.goal b = some g → At t b g) : hC I c0 ≤ x := by
  have hw := hp.last_walk ht
  have htok := hw.inv (I := CoreOk I) (fun c hc o ho => (dom_step hI hc ho).1) h0
  have := (admissible hI h0).2 c0 0 (.nil _) t x hw ((goal_iff htok).2 hg)
  rwa [add_zero] at this

/-- **C59 (A*).** A* with this heuristic finds a cheapest plan that brings every box to its goal. -/
theorem c59_astar (hI : InstOk I) {c0 : Core} (h0 : CoreOk I c0) {l : Limit} {st : St Core Op ℚ ℚ}
    {r : List Core × List Op} (hr : Run (dom I) (astar (hC I)) c0 l st r) (hne : r ≠ ([], [])) :
    ∃ c, Solution (dom I) c0 r c ∧ ∀ ops ss t c', Plan (dom I) c0 ops ss c' → (c0 :: ss).getLast? = some t →
      (∀ b g, b < I.nboxes → I.goal b = some g → At t b g) → c ≤ c' := by
  obtain ⟨c, hs, hopt⟩ := c30_optimal (domOk hI h0).undo (admissible hI h0) hr hne
  refine ⟨c, hs, fun ops ss t c' hp ht hg => hopt ops ss t c' hp ht ?_⟩
  have htok := (hp.last_walk ht).inv (I := CoreOk I) (fun c hc o ho => (dom_step hI hc ho).1) h0
  exact (goal_iff htok).2 hg

/-! ### The heuristic is not consistent -/

/-- Two locations, two boxes with the same goal. -/
def incI : Inst :=
  { nlocs := 2
    nboxes := 2
    maxpiles := fun _ => 1
    maxcranes := fun _ => 1
    adj := fun _ _ => 1
    goal := fun _ => some 1 }

def incC : Core := ⟨[⟨[1], []⟩, ⟨[], []⟩], some 0, 0⟩

/-- **C59 (consistency).** The heuristic is not consistent: delivering a box that still has to be unloaded lowers it
by more than the cost of the move. -/
theorem c59_inconsistent : CoreOk incI incC ∧ Op.move 1 ∈ ops incI incC ∧
    ¬hC incI incC ≤ (dom incI).cost incC (.move 1) + hC incI ((dom incI).app incC (.move 1)) := by
  refine ⟨⟨rfl, by decide, by decide, ?_, ?_, ?_⟩, by decide, by decide +kernel⟩
  · intro l x hx
    have : x ∈ incC.locs := List.mem_of_getElem? hx
    have key : ∀ x ∈ incC.locs, (x.cranes.Pairwise (· < ·)) ∧ (x.piles.Pairwise fun a b => bot a < bot b) ∧
        (∀ p ∈ x.piles, p ≠ []) ∧ x.boxes.Nodup := by decide
    obtain ⟨h1, h2, h3, h4⟩ := key x this
    exact ⟨h1, h2, h3, h4⟩
  · intro l x hx
    have : x ∈ incC.locs := List.mem_of_getElem? hx
    have key : ∀ x ∈ incC.locs, x.cranes.length ≤ 1 := by decide
    exact key x this
  · intro l x hx
    have : x ∈ incC.locs := List.mem_of_getElem? hx
    have key : ∀ x ∈ incC.locs, x.piles.length ≤ 1 := by decide
    exact key x this

/-- The heuristic of the example is not zero. -/
example : hC exI exC = 2 + 11 / 100 := by decide +kernel

end Verif.DockRobot
