import Verif.Domains.DockRobotLoc
import Verif.Domains.DockRobotDist

/-!
# States of the dock robot: the invariant, edges and their undoing
-/

namespace Verif.DockRobot

open Verif List

/-! ## Splitting a state at one location -/

theorem zipIdx_set {α : Type} (L : List α) (i : Nat) (x : α) : (L.set i x).zipIdx = L.zipIdx.set i (x, i) := by
  apply List.ext_getElem
  · simp
  · intro n h1 h2
    rw [List.getElem_zipIdx, List.getElem_set, List.getElem_set, List.getElem_zipIdx]
    by_cases h : i = n
    · simp [h]
    · simp [h]

/-- Everything that is collected from the locations splits into the part of location `i` and the rest. -/
theorem flatMap_split {β : Type} (f : Loc × Nat → List β) (L : List Loc) (i : Nat) (hi : i < L.length) :
    ∃ R, L.zipIdx.flatMap f ~ f (L[i], i) ++ R ∧ ∀ l, (L.set i l).zipIdx.flatMap f ~ f (l, i) ++ R := by
  have hi' : i < L.zipIdx.length := by simpa using hi
  refine ⟨(L.zipIdx.eraseIdx i).flatMap f, ?_, fun l => ?_⟩
  · have := (List.getElem_cons_eraseIdx_perm hi').symm.flatMap_right f
    rw [List.flatMap_cons, List.getElem_zipIdx] at this
    simpa using this
  · rw [zipIdx_set]
    have := (List.set_perm_cons_eraseIdx hi' (l, i)).flatMap_right f
    rwa [List.flatMap_cons] at this

theorem sum_split (f : Loc × Nat → ℚ) (L : List Loc) (i : Nat) (hi : i < L.length) :
    ∃ r, (L.zipIdx.map f).sum = f (L[i], i) + r ∧ ∀ l, ((L.set i l).zipIdx.map f).sum = f (l, i) + r := by
  have hi' : i < L.zipIdx.length := by simpa using hi
  refine ⟨((L.zipIdx.eraseIdx i).map f).sum, ?_, fun l => ?_⟩
  · have := ((List.getElem_cons_eraseIdx_perm hi').symm.map f).sum_eq
    rw [List.map_cons, List.sum_cons, List.getElem_zipIdx] at this
    simpa using this
  · rw [zipIdx_set]
    have := ((List.set_perm_cons_eraseIdx hi' (l, i)).map f).sum_eq
    rwa [List.map_cons, List.sum_cons] at this

/-! ## The invariant -/

/-- The contents of a state are in order: every box is in exactly one place, cranes and piles are sorted and within
their capacities. -/
structure CoreOk (I : Inst) (c : Core) : Prop where
  len : c.locs.length = I.nlocs
  rloc : c.rloc < I.nlocs
  perm : c.pairs.map Prod.fst ~ List.range I.nboxes
  locs : ∀ (l : Nat) (x : Loc), c.locs[l]? = some x → LocOk x
  cranes : ∀ (l : Nat) (x : Loc), c.locs[l]? = some x → x.cranes.length ≤ I.maxcranes l
  piles : ∀ (l : Nat) (x : Loc), c.locs[l]? = some x → x.piles.length ≤ I.maxpiles l

/-- A state is in order: so are its contents, and the redundant fields agree with the contents. -/
structure Ok (I : Inst) (s : State) : Prop where
  core : CoreOk I s.toCore
  boxlocs : ∀ x ∈ s.pairs, I.goal x.1 ≠ none → s.boxlocs x.1 = x.2
  nleft : s.nleft = s.pairs.countP fun x => I.out x.1 x.2

theorem Ok.len {I : Inst} {s : State} (h : Ok I s) : s.rloc < s.locs.length := by
  rw [h.core.len]
  exact h.core.rloc

theorem CoreOk.get {I : Inst} {c : Core} (h : CoreOk I c) {l : Nat} (hl : l < I.nlocs) :
    ∃ x, c.locs[l]? = some x := ⟨c.locs[l]'(by rw [h.len]; exact hl), List.getElem?_eq_getElem _⟩

theorem set_get {I : Inst} {s : State} (h : Ok I s) (l : Loc) : (s.setLoc l).locs[s.rloc]? = some l := by
  rw [State.setLoc]
  dsimp only
  rw [List.getElem?_set_self h.len]

theorem setLoc_self {s : State} {l : Loc} (h : s.locs[s.rloc]? = some l) : s.setLoc l = s := by
  obtain ⟨hs, e⟩ := List.getElem?_eq_some_iff.1 h
  rw [State.setLoc, ← e, List.set_getElem_self]

theorem setLoc_setLoc (s : State) (l l' : Loc) : (s.setLoc l).setLoc l' = s.setLoc l' := by
  simp [State.setLoc]

theorem forall_set {P : Nat → Loc → Prop} {L : List Loc} {i : Nat} {l : Loc} (h : ∀ j x, L[j]? = some x → P j x)
    (hl : P i l) : ∀ j x, (L.set i l)[j]? = some x → P j x := by
  intro j x hx
  rw [List.getElem?_set] at hx
  split at hx
  · rename_i e
    split at hx
    · obtain rfl := Option.some.inj hx
      exact e ▸ hl
    · exact absurd hx (by simp)
  · exact h j x hx

/-- The boxes of the state in terms of those at the robot's location. -/
theorem pairs_split {s : State} (hs : s.rloc < s.locs.length) {l : Loc} (hl : s.locs[s.rloc]? = some l) :
    ∃ R, s.pairs ~ (l.boxes.map fun b => (b, s.rloc)) ++ (s.rbox.toList.map fun b => (b, s.rloc)) ++ R ∧
      ∀ l' rb, (Core.pairs ⟨s.locs.set s.rloc l', rb, s.rloc⟩) ~
        (l'.boxes.map fun b => (b, s.rloc)) ++ (rb.toList.map fun b => (b, s.rloc)) ++ R := by
  obtain ⟨R, h1, h2⟩ := flatMap_split (fun x => x.1.boxes.map fun b => (b, x.2)) s.locs s.rloc hs
  have e : s.locs[s.rloc] = l := by
    rw [List.getElem?_eq_getElem hs] at hl
    exact Option.some.inj hl
  rw [e] at h1
  refine ⟨R, ?_, fun l' rb => ?_⟩
  · rw [Core.pairs]
    refine (h1.append_right _).trans ?_
    rw [List.append_assoc, List.append_assoc]
    exact (List.perm_append_comm).append_left _
  · rw [Core.pairs]
    refine ((h2 l').append_right _).trans ?_
    rw [List.append_assoc, List.append_assoc]
    exact (List.perm_append_comm).append_left _

/-- The invariant survives a change of the robot's location and load that keeps the boxes. -/
theorem Ok.change {I : Inst} {s : State} (h : Ok I s) {l l' : Loc} (hl : s.locs[s.rloc]? = some l)
    {rb : Option Nat} (hok : LocOk l') (hc : l'.cranes.length ≤ I.maxcranes s.rloc)
    (hp : l'.piles.length ≤ I.maxpiles s.rloc) (hb : l'.boxes ++ rb.toList ~ l.boxes ++ s.rbox.toList) :
    Ok I { s.setLoc l' with rbox := rb } := by
  obtain ⟨R, h1, h2⟩ := pairs_split h.len hl
  have hpp : Core.pairs ⟨s.locs.set s.rloc l', rb, s.rloc⟩ ~ s.pairs := by
    refine (h2 l' rb).trans (List.Perm.trans ?_ h1.symm)
    refine List.Perm.append_right _ ?_
    rw [← List.map_append, ← List.map_append]
    exact hb.map _
  refine ⟨⟨?_, h.core.rloc, ?_, ?_, ?_, ?_⟩, ?_, ?_⟩
  · simpa [State.setLoc] using h.core.len
  · exact (hpp.map _).trans h.core.perm
  · exact forall_set (P := fun _ x => LocOk x) h.core.locs hok
  · exact forall_set (P := fun j x => x.cranes.length ≤ I.maxcranes j) h.core.cranes hc
  · exact forall_set (P := fun j x => x.piles.length ≤ I.maxpiles j) h.core.piles hp
  · intro x hx
    exact h.boxlocs x (hpp.mem_iff.1 hx)
  · exact h.nleft.trans (hpp.countP_eq _).symm

/-- The robot's box is not at the robot's location. -/
theorem Ok.disj {I : Inst} {s : State} (h : Ok I s) {l : Loc} (hl : s.locs[s.rloc]? = some l) {b : Nat}
    (hb : s.rbox = some b) : b ∉ l.boxes := by
  obtain ⟨R, h1, _⟩ := pairs_split h.len hl
  have hn : (s.pairs.map Prod.fst).Nodup := h.core.perm.nodup_iff.2 List.nodup_range
  rw [(h1.map Prod.fst).nodup_iff, hb] at hn
  simp only [Option.toList_some, List.map_cons, List.map_nil, List.map_append, List.map_map] at hn
  rw [List.nodup_append, List.nodup_append] at hn
  intro hm
  exact hn.1.2.2 b (by simpa using hm) b (by simp) rfl

theorem mem_pairs_of_mem_loc {c : Core} {l b : Nat} {x : Loc} (hl : c.locs[l]? = some x) (hb : b ∈ x.boxes) :
    (b, l) ∈ c.pairs := by
  rw [Core.pairs, List.mem_append]
  refine Or.inl (List.mem_flatMap.2 ⟨(x, l), ?_, List.mem_map.2 ⟨b, hb, rfl⟩⟩)
  exact List.mem_zipIdx_iff_getElem?.2 hl

theorem mem_pairs_of_rbox {c : Core} {b : Nat} (hb : c.rbox = some b) : (b, c.rloc) ∈ c.pairs := by
  rw [Core.pairs, List.mem_append, hb]
  exact Or.inr (by simp)

theorem CoreOk.lt {I : Inst} {c : Core} (h : CoreOk I c) {x : Nat × Nat} (hx : x ∈ c.pairs) : x.1 < I.nboxes :=
  List.mem_range.1 (h.perm.mem_iff.1 (List.mem_map.2 ⟨x, hx, rfl⟩))

/-! ## Edges -/

/-- The box sum of the heuristic. -/
def goalSum (I : Inst) (bl : Nat → Nat) : ℚ :=
  ((List.range I.nboxes).map fun b =>
    match I.goal b with
    | some g => shortest I (bl b) g
    | none => 0).sum

/-- The location sum of the heuristic. -/
def locSum (I : Inst) (L : List Loc) : ℚ := (L.zipIdx.map fun x => locH I x.2 x.1).sum

/-- One if the robot holds a box that it must put down before it can fetch another one. -/
def busy (I : Inst) (c : Core) : ℚ :=
  match c.rbox with
  | some b => if I.out b c.rloc then 0 else 1
  | none => 0

/-- A consistent function above the heuristic: it counts that a box that was carried to its goal is put down. -/
def pot (I : Inst) (s : State) : ℚ :=
  if s.nleft = 0 then 0 else goalSum I s.boxlocs + (s.nleft - 1 + busy I s.toCore) * loadCost + locSum I s.locs

/-- An edge whose undoing restores the state, at the advertised cost, and along which `pot` is consistent. -/
structure Good (I : Inst) (s : State) (e : Eff) : Prop where
  ok : Ok I e.state
  offered : e.revop ∈ ops I e.state.toCore
  undo : ∃ r, apply I e.state e.revop = .ok ⟨s, r, e.revcost, e.cost⟩
  cost : 0 ≤ e.cost
  cons : pot I s ≤ e.cost + pot I e.state

theorem mem_ops {I : Inst} {c : Core} {l : Loc} (hl : c.locs[c.rloc]? = some l) {o : Op} : o ∈ ops I c ↔
    (∃ a p, a < l.cranes.length ∧ p < npush I l c.rloc ∧ o = .push a p) ∨
    (l.cranes.length < I.maxcranes c.rloc ∧ ((∃ p, p < l.piles.length ∧ o = .pop p) ∨ (c.rbox ≠ none ∧ o = .unload))) ∨
    (c.rbox = none ∧ ∃ a, a < l.cranes.length ∧ o = .load a) ∨
    (∃ i, i < I.nlocs ∧ i ≠ c.rloc ∧ o = .move i) := by
  have e : c.locs.getD c.rloc ⟨[], []⟩ = l := by rw [List.getD_eq_getElem?_getD, hl]; rfl
  rw [ops]
  simp only [e, List.mem_append, List.mem_flatMap, List.mem_map, List.mem_range, List.mem_filter, bne_iff_ne]
  constructor
  · rintro (((⟨a, ha, p, hp, rfl⟩ | h) | h) | ⟨i, ⟨hi, hn⟩, rfl⟩)
    · exact Or.inl ⟨a, p, ha, hp, rfl⟩
    · split at h
      · rename_i hc
        rcases List.mem_append.1 h with h | h
        · obtain ⟨p, hp, rfl⟩ := List.mem_map.1 h
          exact Or.inr (Or.inl ⟨hc, Or.inl ⟨p, List.mem_range.1 hp, rfl⟩⟩)
        · split at h
          · rename_i hr
            refine Or.inr (Or.inl ⟨hc, Or.inr ⟨?_, List.mem_singleton.1 h⟩⟩)
            intro h0
            rw [h0] at hr
            exact absurd hr (by simp)
          · exact absurd h (by simp)
      · exact absurd h (by simp)
    · split at h
      · rename_i hr
        obtain ⟨a, ha, rfl⟩ := List.mem_map.1 h
        exact Or.inr (Or.inr (Or.inl ⟨Option.isNone_iff_eq_none.1 hr, a, List.mem_range.1 ha, rfl⟩))
      · exact absurd h (by simp)
    · exact Or.inr (Or.inr (Or.inr ⟨i, hi, hn, rfl⟩))
  · rintro (⟨a, p, ha, hp, rfl⟩ | ⟨hc, h⟩ | ⟨hr, a, ha, rfl⟩ | ⟨i, hi, hn, rfl⟩)
    · exact Or.inl (Or.inl (Or.inl ⟨a, ha, p, hp, rfl⟩))
    · refine Or.inl (Or.inl (Or.inr ?_))
      rw [if_pos hc, List.mem_append]
      rcases h with ⟨p, hp, rfl⟩ | ⟨hr, rfl⟩
      · exact Or.inl (List.mem_map.2 ⟨p, List.mem_range.2 hp, rfl⟩)
      · refine Or.inr ?_
        rw [if_pos (Option.isSome_iff_ne_none.2 hr)]
        simp
    · refine Or.inl (Or.inr ?_)
      rw [if_pos (Option.isNone_iff_eq_none.2 hr)]
      exact List.mem_map.2 ⟨a, List.mem_range.2 ha, rfl⟩
    · exact Or.inr ⟨i, ⟨hi, hn⟩, rfl⟩

theorem loadCost_pos : (0 : ℚ) < loadCost := by norm_num [loadCost]

theorem popFact_pos : (0 : ℚ) < popFact := by norm_num [popFact]

theorem npush_lt {I : Inst} {l : Loc} {i p : Nat} (hp : p < npush I l i) (hl : l.piles.length ≤ I.maxpiles i) :
    p < l.piles.length ∨ (p = l.piles.length ∧ l.piles.length < I.maxpiles i) := by
  rw [npush] at hp
  split at hp <;> omega

theorem lt_npush {I : Inst} {l : Loc} {i p : Nat} (hl : l.piles.length ≤ I.maxpiles i)
    (hp : p < l.piles.length ∨ (p = l.piles.length ∧ l.piles.length < I.maxpiles i)) : p < npush I l i := by
  rw [npush]
  split <;> omega

theorem applyPush_of {s : State} {l l1 : Loc} (hl : s.locs[s.rloc]? = some l) {c p b p' : Nat}
    (hrm : l.rmcrane c = .ok (b, l1)) (hne : ∀ q ∈ l1.piles, q ≠ [])
    (hf : (l1.push b p).findpile (pushBot l1 b p) = some p') :
    applyPush s c p = .ok ⟨s.setLoc (l1.push b p), .pop p', popFact * (pushSz l1 p + 1),
      popFact * (pushSz l1 p + 2)⟩ := by
  have hne : ¬(p < l1.piles.length ∧ l1.piles.getD p [] = []) := by
    rintro ⟨h1, h2⟩
    rw [List.getD_eq_getElem _ _ h1] at h2
    exact hne _ (List.getElem_mem h1) h2
  rw [applyPush, hl]
  dsimp only
  rw [hrm]
  dsimp only [Outcome.bind]
  rw [if_neg hne]
  rw [pushBot] at hf
  rw [hf]
  rfl

theorem applyPop_of {s : State} {l l1 : Loc} (hl : s.locs[s.rloc]? = some l) {p b c : Nat}
    (hp : p < l.piles.length) (hpop : l.pop p = .ok (b, l1)) (hf : (l1.addcrane b).findcrane b = some c) :
    applyPop s p = .ok ⟨s.setLoc (l1.addcrane b),
      .push c (if l.piles[p].length = 1 then l1.piles.length else
        ((l1.addcrane b).findpile (bot l.piles[p])).getD (2 ^ 32 - 1)),
      popFact * (l.piles[p].length + 1), popFact * l.piles[p].length⟩ := by
  rw [applyPop, hl]
  dsimp only
  rw [if_neg (by omega), hpop, List.getD_eq_getElem _ _ hp]
  dsimp only [Outcome.bind]
  rw [hf]
  rfl

theorem locSum_set {I : Inst} {s : State} {l : Loc} (hl : s.locs[s.rloc]? = some l) :
    ∃ r, locSum I s.locs = locH I s.rloc l + r ∧
      ∀ l', locSum I (s.setLoc l').locs = locH I s.rloc l' + r := by
  obtain ⟨hs, e⟩ := List.getElem?_eq_some_iff.1 hl
  obtain ⟨r, h1, h2⟩ := sum_split (fun x => locH I x.2 x.1) s.locs s.rloc hs
  refine ⟨r, ?_, fun l' => h2 l'⟩
  rw [e] at h1
  exact h1

/-- Edges that leave the robot where it is: what has to be shown of `pot`. -/
theorem pot_le {I : Inst} {s : State} {l l' : Loc} (hl : s.locs[s.rloc]? = some l) {rb : Option Nat} {c : ℚ}
    (h0 : 0 ≤ c) (hc : busy I s.toCore * loadCost + locH I s.rloc l ≤
      c + (busy I ⟨(s.setLoc l').locs, rb, s.rloc⟩ * loadCost + locH I s.rloc l')) :
    pot I s ≤ c + pot I { s.setLoc l' with rbox := rb } := by
  obtain ⟨r, h1, h2⟩ := locSum_set (I := I) hl
  have h2 := h2 l'
  rw [pot, pot]
  by_cases hn : s.nleft = 0
  · rw [if_pos hn, if_pos (by exact hn), add_zero]
    exact h0
  · rw [if_neg hn, if_neg (by exact hn), h1]
    change _ ≤ c + (goalSum I s.boxlocs + (s.nleft - 1 + busy I ⟨(s.setLoc l').locs, rb, s.rloc⟩) * loadCost +
      locSum I (s.setLoc l').locs)
    rw [h2]
    linarith

/-- The effect of `Push` and of undoing it. -/
theorem good_push {I : Inst} {s : State} (h : Ok I s) {l : Loc} (hl : s.locs[s.rloc]? = some l) {c p : Nat}
    (hc : c < l.cranes.length) (hp : p < npush I l s.rloc) :
    ∃ e, apply I s (.push c p) = .ok e ∧ Good I s e := by
  have hlo := h.core.locs _ _ hl
  have hpl := h.core.piles _ _ hl
  have hcr := h.core.cranes _ _ hl
  generalize hl1 : ({ l with cranes := l.cranes.eraseIdx c } : Loc) = l1
  have hrm : l.rmcrane c = .ok (l.cranes[c], l1) := by rw [← hl1]; exact rmcrane_eq hlo hc
  have ho1 : LocOk l1 := hl1 ▸ erase_ok hlo c
  have hb1 : l.boxes ~ l.cranes[c] :: l1.boxes := hl1 ▸ boxes_erase hc
  have hn1 : l.cranes[c] ∉ l1.boxes := (List.nodup_cons.1 (hb1.nodup_iff.1 hlo.nodup)).1
  have hpile : l1.piles = l.piles := by rw [← hl1]
  have hadd : l1.addcrane l.cranes[c] = l := by rw [← hl1]; exact erase_addcrane hlo hc
  have hH : locH I s.rloc l = (if I.out l.cranes[c] s.rloc then loadCost else 0) + locH I s.rloc l1 := by
    rw [← hl1]
    exact locH_erase hc
  have hlen : l1.cranes.length + 1 = l.cranes.length := by
    have := length_addcrane l1 l.cranes[c]
    rw [hadd] at this
    exact this.symm
  have hfc : l.findcrane l.cranes[c] = some c := findcrane_ok hlo.cranes hc
  generalize hbx : l.cranes[c] = b at *
  obtain ⟨p', hp', hf, hpop, hsz⟩ := push_pop ho1 hn1 p
  have ho2 := push_ok ho1 hn1 p
  have hb2 := boxes_push l1 b p
  have hlp : (l1.push b p).piles.length ≤ I.maxpiles s.rloc := by
    rw [length_push, hpile]
    rcases npush_lt hp hpl with h1 | h1
    · rw [if_pos h1]
      exact hpl
    · rw [if_neg (by omega)]
      omega
  have hcq : (l1.push b p).cranes = l1.cranes := by
    rw [Loc.push]
    split <;> rfl
  have hok : Ok I (s.setLoc (l1.push b p)) := by
    have := h.change (l' := l1.push b p) (rb := s.rbox) hl ho2 (by rw [hcq]; omega) hlp
      ((hb2.trans hb1.symm).append_right _)
    simpa [State.setLoc] using this
  have hget := set_get h (l1.push b p)
  have h0 : (0 : ℚ) ≤ popFact * (pushSz l1 p + 1) := mul_nonneg popFact_pos.le (by positivity)
  have hu := applyPop_of hget hp' hpop (by rw [hadd]; exact hfc)
  rw [hadd, setLoc_setLoc, setLoc_self hl, hsz, Nat.cast_add, Nat.cast_one, add_assoc,
    show (1 : ℚ) + 1 = 2 by norm_num] at hu
  refine ⟨_, applyPush_of hl hrm ho1.ne hf, hok, ?_, ⟨_, hu⟩, h0, ?_⟩
  · refine (mem_ops hget).2 (Or.inr (Or.inl ⟨?_, Or.inl ⟨p', hp', rfl⟩⟩))
    rw [hcq]
    exact lt_of_lt_of_le (by omega) hcr
  · have := pot_le (l' := l1.push b p) (rb := s.rbox) hl h0 (by
      change busy I s.toCore * loadCost + _ ≤ _ + (busy I s.toCore * loadCost + _)
      rw [hH, locH_push]
      have h1 : (0 : ℚ) ≤ popFact * (pushSz l1 p + 2) := mul_nonneg popFact_pos.le (by positivity)
      split <;> linarith)
    simpa [State.setLoc] using this

/-- The effect of `Pop` and of undoing it. -/
theorem good_pop {I : Inst} {s : State} (h : Ok I s) {l : Loc} (hl : s.locs[s.rloc]? = some l) {p : Nat}
    (hp : p < l.piles.length) (hc : l.cranes.length < I.maxcranes s.rloc) :
    ∃ e, apply I s (.pop p) = .ok e ∧ Good I s e := by
  have hlo := h.core.locs _ _ hl
  have hpl := h.core.piles _ _ hl
  obtain ⟨b, l1, hpop, ho1, hn1, hcr, hlen, p', hp', hpush, hfp, hsz⟩ := pop_push hlo hp
  obtain ⟨c, hcl, hfc, hrm⟩ := addcrane_rm ho1 hn1
  have ho2 := addcrane_ok ho1 hn1
  have hlc := length_addcrane l1 b
  have hb1 : l.boxes ~ b :: l1.boxes := by
    conv_lhs => rw [← hpush]
    exact boxes_push _ _ _
  have hok : Ok I (s.setLoc (l1.addcrane b)) := by
    have := h.change (l' := l1.addcrane b) (rb := s.rbox) hl ho2 (by rw [hlc, hcr]; omega)
      (le_trans hlen hpl) (((boxes_addcrane l1 b).trans hb1.symm).append_right _)
    simpa [State.setLoc] using this
  have hget := set_get h (l1.addcrane b)
  have hrev : (if l.piles[p].length = 1 then l1.piles.length else
        ((l1.addcrane b).findpile (bot l.piles[p])).getD (2 ^ 32 - 1)) = p' := by
    rw [hp']
    split
    · rfl
    · rename_i h1
      have := hfp h1
      have e : (l1.addcrane b).findpile (bot l.piles[p]) = l1.findpile (bot l.piles[p]) := rfl
      rw [e, this]
      rfl
  have h0 : (0 : ℚ) ≤ popFact * (l.piles[p].length + 1) := mul_nonneg popFact_pos.le (by positivity)
  have hap := applyPop_of hl hp hpop hfc
  rw [hrev] at hap
  have hlt : p' < l1.piles.length ∨ (p' = l1.piles.length ∧ l1.piles.length < I.maxpiles s.rloc) := by
    have := length_push l1 b p'
    rw [hpush] at this
    by_cases h1 : p' < l1.piles.length
    · exact Or.inl h1
    · rw [if_neg h1] at this
      rw [pushSz, if_neg h1] at hsz
      rw [hp', if_pos hsz.symm]
      exact Or.inr ⟨rfl, by omega⟩
  obtain ⟨q, hq, hfq, -, -⟩ := push_pop ho1 hn1 p'
  refine ⟨_, hap, hok, ?_, ⟨.pop q, ?_⟩, h0, ?_⟩
  · refine (mem_ops hget).2 (Or.inl ⟨c, p', hcl, ?_, rfl⟩)
    exact lt_npush (le_trans hlen hpl) hlt
  · dsimp only
    rw [apply, applyPush_of hget hrm ho1.ne hfq, hpush, setLoc_setLoc, setLoc_self hl, ← hsz]
    rw [Nat.cast_add, Nat.cast_one, add_assoc, show (1 : ℚ) + 1 = 2 by norm_num]
  · have := pot_le (l' := l1.addcrane b) (rb := s.rbox) hl h0 (by
      change busy I s.toCore * loadCost + _ ≤ _ + (busy I s.toCore * loadCost + _)
      rw [locH_addcrane]
      conv_lhs => rw [← hpush]
      rw [locH_push, ← hsz]
      push_cast
      have h1 : (0 : ℚ) ≤ popFact * (pushSz l1 p' + 1 + 1) := mul_nonneg popFact_pos.le (by positivity)
      split <;> linarith)
    simpa [State.setLoc] using this

/-- The effect of `Load` and of undoing it. -/
theorem good_load {I : Inst} {s : State} (h : Ok I s) {l : Loc} (hl : s.locs[s.rloc]? = some l) {c : Nat}
    (hc : c < l.cranes.length) (hr : s.rbox = none) : ∃ e, apply I s (.load c) = .ok e ∧ Good I s e := by
  have hlo := h.core.locs _ _ hl
  have hpl := h.core.piles _ _ hl
  have hcr := h.core.cranes _ _ hl
  generalize hl1 : ({ l with cranes := l.cranes.eraseIdx c } : Loc) = l1
  have hrm : l.rmcrane c = .ok (l.cranes[c], l1) := by rw [← hl1]; exact rmcrane_eq hlo hc
  have ho1 : LocOk l1 := hl1 ▸ erase_ok hlo c
  have hb1 : l.boxes ~ l.cranes[c] :: l1.boxes := hl1 ▸ boxes_erase hc
  have hpile : l1.piles = l.piles := by rw [← hl1]
  have hadd : l1.addcrane l.cranes[c] = l := by rw [← hl1]; exact erase_addcrane hlo hc
  have hH : locH I s.rloc l = (if I.out l.cranes[c] s.rloc then loadCost else 0) + locH I s.rloc l1 := by
    rw [← hl1]
    exact locH_erase hc
  have hlen : l1.cranes.length + 1 = l.cranes.length := by
    have := length_addcrane l1 l.cranes[c]
    rw [hadd] at this
    exact this.symm
  have hfc : l.findcrane l.cranes[c] = some c := findcrane_ok hlo.cranes hc
  generalize hbx : l.cranes[c] = b at *
  have hok : Ok I { s.setLoc l1 with rbox := some b } := by
    refine h.change hl ho1 (by omega) (by rw [hpile]; exact hpl) ?_
    rw [hr]
    simp only [Option.toList_some, Option.toList_none, List.append_nil]
    exact (List.perm_append_singleton _ _).trans hb1.symm
  have hget : ({ s.setLoc l1 with rbox := some b } : State).locs[s.rloc]? = some l1 := set_get h l1
  refine ⟨⟨{ s.setLoc l1 with rbox := some b }, .unload, loadCost, loadCost⟩, ?_, hok, ?_, ⟨.load c, ?_⟩,
    loadCost_pos.le, ?_⟩
  · rw [apply, applyLoad, hr]
    dsimp only
    rw [hl]
    dsimp only
    rw [hrm]
    rfl
  · refine (mem_ops hget).2 (Or.inr (Or.inl ⟨?_, Or.inr ⟨by simp, rfl⟩⟩))
    exact lt_of_lt_of_le (by omega) hcr
  · have hset : ({ s.setLoc l with rbox := none } : State) = s := by rw [setLoc_self hl, ← hr]
    dsimp only
    rw [apply, applyUnload]
    dsimp only
    have hg : (s.setLoc l1).locs[(s.setLoc l1).rloc]? = some l1 := set_get h l1
    rw [hg]
    dsimp only
    rw [hadd, if_neg (by exact not_lt.2 hcr), hfc]
    dsimp only
    congr 2
    rw [← hset]
    simp [State.setLoc]
  · refine pot_le (l' := l1) (rb := some b) hl loadCost_pos.le ?_
    rw [hH, busy, busy, hr]
    dsimp only
    have := loadCost_pos
    split <;> linarith

/-- The effect of `Unload` and of undoing it. -/
theorem good_unload {I : Inst} {s : State} (h : Ok I s) {l : Loc} (hl : s.locs[s.rloc]? = some l) {b : Nat}
    (hc : l.cranes.length < I.maxcranes s.rloc) (hr : s.rbox = some b) :
    ∃ e, apply I s .unload = .ok e ∧ Good I s e := by
  have hlo := h.core.locs _ _ hl
  have hpl := h.core.piles _ _ hl
  have hn := h.disj hl hr
  have ho1 := addcrane_ok hlo hn
  have hlc := length_addcrane l b
  obtain ⟨c, hcl, hfc, hrm⟩ := addcrane_rm hlo hn
  have hok : Ok I { s.setLoc (l.addcrane b) with rbox := none } := by
    refine h.change hl ho1 (by omega) hpl ?_
    rw [hr]
    simp only [Option.toList_some, Option.toList_none, List.append_nil]
    exact (boxes_addcrane l b).trans (List.perm_append_singleton _ _).symm
  have hget : ({ s.setLoc (l.addcrane b) with rbox := none } : State).locs[s.rloc]? = some (l.addcrane b) :=
    set_get h _
  refine ⟨⟨{ s.setLoc (l.addcrane b) with rbox := none }, .load c, loadCost, loadCost⟩, ?_, hok, ?_, ⟨.unload, ?_⟩,
    loadCost_pos.le, ?_⟩
  · rw [apply, applyUnload, hr]
    dsimp only
    rw [hl]
    dsimp only
    rw [if_neg (by omega), hfc]
  · exact (mem_ops hget).2 (Or.inr (Or.inr (Or.inl ⟨rfl, c, hcl, rfl⟩)))
  · have hset : ({ s.setLoc l with rbox := some b } : State) = s := by rw [setLoc_self hl, ← hr]
    dsimp only
    rw [apply, applyLoad]
    dsimp only
    have hg : (s.setLoc (l.addcrane b)).locs[(s.setLoc (l.addcrane b)).rloc]? = some (l.addcrane b) := set_get h _
    rw [hg]
    dsimp only
    rw [hrm]
    dsimp only [Outcome.bind]
    congr 2
    rw [← hset]
    simp [State.setLoc]
  · refine pot_le (l' := l.addcrane b) (rb := none) hl loadCost_pos.le ?_
    rw [locH_addcrane, busy, busy, hr]
    dsimp only
    have := loadCost_pos
    split <;> linarith

/-! ## Moving -/

/-- Costs are not negative and goals are locations. -/
structure InstOk (I : Inst) : Prop where
  adj : AdjOk I
  goal : ∀ b g, I.goal b = some g → g < I.nlocs

/-- The boxes at the locations. -/
def locPairs (L : List Loc) : List (Nat × Nat) := L.zipIdx.flatMap fun x => x.1.boxes.map fun b => (b, x.2)

theorem pairs_eq (c : Core) : c.pairs = locPairs c.locs ++ (c.rbox.toList.map fun b => (b, c.rloc)) := rfl

theorem mem_locPairs {L : List Loc} {x : Nat × Nat} (h : x ∈ locPairs L) :
    ∃ l, L[x.2]? = some l ∧ x.1 ∈ l.boxes := by
  obtain ⟨y, hy, hx⟩ := List.mem_flatMap.1 h
  obtain ⟨b, hb, rfl⟩ := List.mem_map.1 hx
  exact ⟨y.1, List.mem_zipIdx_iff_getElem?.1 hy, hb⟩

theorem CoreOk.snd_lt {I : Inst} {c : Core} (h : CoreOk I c) {x : Nat × Nat} (hx : x ∈ c.pairs) : x.2 < I.nlocs := by
  rw [pairs_eq, List.mem_append] at hx
  rcases hx with hx | hx
  · obtain ⟨l, hl, -⟩ := mem_locPairs hx
    obtain ⟨h1, -⟩ := List.getElem?_eq_some_iff.1 hl
    rw [← h.len]
    exact h1
  · obtain ⟨b, -, rfl⟩ := List.mem_map.1 hx
    exact h.rloc

theorem CoreOk.place {I : Inst} {c : Core} (h : CoreOk I c) {b : Nat} (hb : b < I.nboxes) :
    ∃ l, l < I.nlocs ∧ (b, l) ∈ c.pairs := by
  obtain ⟨x, hx, e⟩ := List.mem_map.1 (h.perm.mem_iff.2 (List.mem_range.2 hb))
  have := h.snd_lt hx
  exact ⟨x.2, this, by rw [← e]; exact hx⟩

theorem goalSum_nonneg {I : Inst} (hI : InstOk I) {s : State} (h : Ok I s) : 0 ≤ goalSum I s.boxlocs := by
  refine List.sum_nonneg fun x hx => ?_
  obtain ⟨b, hb, rfl⟩ := List.mem_map.1 hx
  split
  · rename_i g hg
    obtain ⟨l, hl, hm⟩ := h.core.place (List.mem_range.1 hb)
    rw [h.boxlocs _ hm (by rw [hg]; simp)]
    exact (dist_shortest hI.adj).nonneg _ _ hl (hI.goal _ _ hg)
  · exact le_refl _

theorem locH_nonneg (I : Inst) (i : Nat) (l : Loc) : 0 ≤ locH I i l := by
  rw [locH_eq]
  refine add_nonneg (List.sum_nonneg fun x hx => ?_) (List.sum_nonneg fun x hx => ?_)
  · obtain ⟨b, -, rfl⟩ := List.mem_map.1 hx
    split
    · exact loadCost_pos.le
    · exact le_refl _
  · obtain ⟨p, -, rfl⟩ := List.mem_map.1 hx
    refine List.sum_nonneg fun x hx => ?_
    obtain ⟨b, -, rfl⟩ := List.mem_map.1 hx
    split
    · exact add_nonneg (mul_nonneg popFact_pos.le (by positivity)) loadCost_pos.le
    · exact le_refl _

theorem locSum_nonneg (I : Inst) (L : List Loc) : 0 ≤ locSum I L := by
  refine List.sum_nonneg fun x hx => ?_
  obtain ⟨y, -, rfl⟩ := List.mem_map.1 hx
  exact locH_nonneg _ _ _

theorem sum_zero {L : List ℚ} (h : ∀ x ∈ L, x = 0) : L.sum = 0 := by
  induction L with
  | nil => rfl
  | cons a L ih =>
    rw [List.sum_cons, h a (by simp), ih fun x hx => h x (by simp [hx]), add_zero]

/-- When no box is out of place nothing remains to be done. -/
theorem zero_of_nleft {I : Inst} (hI : InstOk I) {s : State} (h : Ok I s) (h0 : s.nleft = 0) :
    goalSum I s.boxlocs = 0 ∧ locSum I s.locs = 0 := by
  have hout : ∀ x ∈ s.pairs, I.out x.1 x.2 = false := by
    intro x hx
    have := List.countP_eq_zero.1 (h.nleft.symm.trans h0) x hx
    simpa using this
  constructor
  · refine sum_zero fun x hx => ?_
    obtain ⟨b, hb, rfl⟩ := List.mem_map.1 hx
    split
    · rename_i g hg
      obtain ⟨l, hl, hm⟩ := h.core.place (List.mem_range.1 hb)
      rw [h.boxlocs _ hm (by rw [hg]; simp)]
      have := hout _ hm
      rw [Inst.out, hg] at this
      dsimp only at this
      rw [show g = l by simpa using this]
      exact (dist_shortest hI.adj).diag _ hl
    · rfl
  · refine sum_zero fun x hx => ?_
    obtain ⟨y, hy, rfl⟩ := List.mem_map.1 hx
    have hl := List.mem_zipIdx_iff_getElem?.1 hy
    have hb : ∀ b ∈ y.1.boxes, I.out b y.2 = false := fun b hb => hout (b, y.2) (mem_pairs_of_mem_loc hl hb)
    rw [locH_eq, sum_zero, sum_zero, add_zero]
    · intro x hx
      obtain ⟨p, hp, rfl⟩ := List.mem_map.1 hx
      refine sum_zero fun x hx => ?_
      obtain ⟨z, hz, rfl⟩ := List.mem_map.1 hx
      have : z.1 ∈ p := by
        obtain ⟨h1, h2⟩ := List.getElem?_eq_some_iff.1 (List.mem_zipIdx_iff_getElem?.1 hz)
        exact h2 ▸ List.getElem_mem _
      rw [hb z.1 (by rw [Loc.boxes, List.mem_append]; exact Or.inr (List.mem_flatten.2 ⟨p, hp, this⟩)), if_neg (by simp)]
    · intro x hx
      obtain ⟨b, hb', rfl⟩ := List.mem_map.1 hx
      rw [hb b (by rw [Loc.boxes, List.mem_append]; exact Or.inl hb'), if_neg (by simp)]

theorem goalSum_update {I : Inst} {bl : Nat → Nat} {b g d : Nat} (hb : b < I.nboxes) (hg : I.goal b = some g) :
    goalSum I (Function.update bl b d) = goalSum I bl - shortest I (bl b) g + shortest I d g := by
  have hp : List.range I.nboxes ~ b :: (List.range I.nboxes).erase b :=
    List.perm_cons_erase (List.mem_range.2 hb)
  have hn : b ∉ (List.range I.nboxes).erase b := (List.nodup_range).not_mem_erase
  rw [goalSum, goalSum, (hp.map _).sum_eq, ((hp.map fun b => (match I.goal b with
    | some g => shortest I (bl b) g
    | none => 0 : ℚ))).sum_eq]
  simp only [List.map_cons, List.sum_cons, hg, Function.update_self]
  have : ((List.range I.nboxes).erase b).map (fun b' => (match I.goal b' with
      | some g => shortest I (Function.update bl b d b') g
      | none => 0 : ℚ)) = ((List.range I.nboxes).erase b).map (fun b' => (match I.goal b' with
      | some g => shortest I (bl b') g
      | none => 0 : ℚ)) := by
    apply List.map_congr_left
    intro x hx
    have : x ≠ b := by
      rintro rfl
      exact hn hx
    rw [Function.update_of_ne this]
  rw [this]
  ring

theorem adj_le {I : Inst} (hI : InstOk I) {i j g : Nat} (hi : i < I.nlocs) (hj : j < I.nlocs) (hg : g < I.nlocs) :
    shortest I i g ≤ I.adj i j + shortest I j g :=
  shortest_le hI.adj (.cons hi ((dist_shortest hI.adj).route j g hj hg))

/-- The effect of `Move` and of undoing it. -/
theorem good_move {I : Inst} (hI : InstOk I) {s : State} (h : Ok I s) {dst : Nat}
    (hd : dst < I.nlocs) (hn : dst ≠ s.rloc) : ∃ e, apply I s (.move dst) = .ok e ∧ Good I s e := by
  have hr := h.core.rloc
  have hadj := hI.adj _ _ hr hd
  have hrev : ∀ s' : State, Ok I s' → s'.rloc = dst → Op.move s.rloc ∈ ops I s'.toCore := by
    intro s' h' e
    obtain ⟨l, hl⟩ := h'.core.get h'.core.rloc
    exact (mem_ops hl).2 (Or.inr (Or.inr (Or.inr ⟨s.rloc, hr, by rw [e]; exact hn.symm, rfl⟩)))
  have hap : ¬(I.nlocs ≤ s.rloc ∨ I.nlocs ≤ dst) := by omega
  have hap' : ¬(I.nlocs ≤ dst ∨ I.nlocs ≤ s.rloc) := by omega
  -- the cases in which only the location changes
  have simple : (∀ b, s.rbox = some b → I.goal b = none) →
      (∀ s' : State, s'.rbox = s.rbox → s'.rloc < I.nlocs → ∀ x < I.nlocs, applyMove I s' x =
        .ok ⟨{ s' with rloc := x }, .move s'.rloc, I.adj s'.rloc x, I.adj x s'.rloc⟩) →
      ∃ e, apply I s (.move dst) = .ok e ∧ Good I s e := by
    intro hno hm
    have hout : ∀ b, s.rbox = some b → ∀ l, I.out b l = false := by
      intro b hb l
      rw [Inst.out, hno b hb]
    have hok : Ok I { s with rloc := dst } := by
      refine ⟨⟨h.core.len, hd, ?_, h.core.locs, h.core.cranes, h.core.piles⟩, ?_, ?_⟩
      · have := h.core.perm
        rw [pairs_eq] at this ⊢
        simpa [List.map_append, List.map_map, Function.comp_def] using this
      · intro x hx
        rw [pairs_eq, List.mem_append] at hx
        rcases hx with hx | hx
        · exact h.boxlocs x (by rw [pairs_eq]; exact List.mem_append_left _ hx)
        · obtain ⟨b, hb, rfl⟩ := List.mem_map.1 hx
          intro hg
          exact absurd (hno b (by simpa using hb)) hg
      · have := h.nleft
        rw [pairs_eq, List.countP_append] at this ⊢
        rw [this]
        congr 1
        cases hb : s.rbox with
        | none => simp
        | some b => simp [hout b hb]
    refine ⟨_, hm s rfl hr dst hd, hok, hrev _ hok rfl, ⟨.move dst, ?_⟩, hadj, ?_⟩
    · have := hm { s with rloc := dst } rfl hd s.rloc hr
      exact this
    · have : pot I { s with rloc := dst } = pot I s := by
        rw [pot, pot]
        have e : busy I { s.toCore with rloc := dst } = busy I s.toCore := by
          rw [busy, busy]
          cases hb : s.rbox with
          | none => rfl
          | some b => simp [hout b hb]
        dsimp only
        rw [e]
      dsimp only
      rw [this]
      linarith
  cases hb : s.rbox with
  | none =>
    refine simple (fun b e => by rw [hb] at e; exact absurd e (by simp)) fun s' e h1 x hx => ?_
    rw [applyMove, if_neg (by omega), e, hb]
    simp [e, hb]
  | some b =>
    cases hg : I.goal b with
    | none =>
      refine simple (fun b' e => by rw [hb] at e; obtain rfl := Option.some.inj e; exact hg) fun s' e h1 x hx => ?_
      rw [applyMove, if_neg (by omega), e, hb]
      dsimp only
      rw [hg]
      simp [e, hb]
    | some g =>
      have hgl := hI.goal b g hg
      have hbl : s.boxlocs b = s.rloc := h.boxlocs _ (mem_pairs_of_rbox hb) (by rw [hg]; simp)
      have hbn : b < I.nboxes := h.core.lt (mem_pairs_of_rbox hb)
      have hout : ∀ l, I.out b l = (g != l) := by
        intro l
        rw [Inst.out, hg]
      generalize hn0 : (locPairs s.locs).countP (fun x => I.out x.1 x.2) = n0
      have hnl : s.nleft = n0 + if g = s.rloc then 0 else 1 := by
        rw [h.nleft, pairs_eq, List.countP_append, hb, hn0]
        by_cases e : g = s.rloc <;> simp [hout, e]
      -- the state after the move
      generalize hs' : ({ s with
          rloc := dst
          nleft := n0 + if g = dst then 0 else 1
          boxlocs := Function.update s.boxlocs b dst } : State) = s'
      have ha : apply I s (.move dst) = .ok ⟨s', .move s.rloc, I.adj s.rloc dst, I.adj dst s.rloc⟩ := by
        have hnl' : (if g = s.rloc then s.nleft + 1 else if g = dst then dec32 s.nleft else s.nleft) =
            n0 + if g = dst then 0 else 1 := by
          rw [hnl]
          by_cases e1 : g = s.rloc
          · have e2 : g ≠ dst := fun e2 => hn (e2.symm.trans e1)
            simp [e1, hn.symm]
          · by_cases e2 : g = dst
            · simp [e2, hn, dec32]
            · simp [e1, e2]
        rw [apply, applyMove, if_neg hap, hb]
        dsimp only
        rw [hg]
        dsimp only
        rw [hnl', ← hs']
      have hundo : apply I s' (.move s.rloc) = .ok ⟨s, .move dst, I.adj dst s.rloc, I.adj s.rloc dst⟩ := by
        rw [← hs', apply, applyMove]
        dsimp only
        rw [if_neg hap', hb]
        dsimp only
        rw [hg]
        dsimp only
        have hnl' : (if g = dst then (n0 + if g = dst then 0 else 1) + 1 else
            if g = s.rloc then dec32 (n0 + if g = dst then 0 else 1) else (n0 + if g = dst then 0 else 1)) =
            s.nleft := by
          rw [hnl]
          by_cases e1 : g = dst
          · simp [e1, hn]
          · by_cases e2 : g = s.rloc
            · simp [e2, hn.symm, dec32]
            · simp [e1, e2]
        rw [hnl', Function.update_idem, ← hbl, Function.update_eq_self, hbl, ← hb]
      have hok : Ok I s' := by
        rw [← hs']
        refine ⟨⟨h.core.len, hd, ?_, h.core.locs, h.core.cranes, h.core.piles⟩, ?_, ?_⟩
        · have := h.core.perm
          rw [pairs_eq] at this ⊢
          simpa [List.map_append, List.map_map, Function.comp_def] using this
        · intro x hx hgx
          rw [pairs_eq, List.mem_append] at hx
          dsimp only at hx ⊢
          rcases hx with hx | hx
          · have : x.1 ≠ b := by
              intro e
              have hnd : (s.pairs.map Prod.fst).Nodup := h.core.perm.nodup_iff.2 List.nodup_range
              rw [pairs_eq, List.map_append, List.nodup_append, hb] at hnd
              exact hnd.2.2 x.1 (List.mem_map.2 ⟨x, hx, rfl⟩) b (by simp) e
            rw [Function.update_of_ne this]
            exact h.boxlocs x (by rw [pairs_eq]; exact List.mem_append_left _ hx) hgx
          · rw [hb] at hx
            obtain rfl : x = (b, dst) := by simpa using hx
            rw [Function.update_self]
        · dsimp only
          rw [pairs_eq, List.countP_append]
          dsimp only
          rw [hb, hn0]
          by_cases e : g = dst <;> simp [hout, e]
      have hs1 : s'.rloc = dst := by rw [← hs']
      have hs2 : s'.nleft = n0 + if g = dst then 0 else 1 := by rw [← hs']
      have hs3 : s'.locs = s.locs := by rw [← hs']
      have hs4 : goalSum I s'.boxlocs = goalSum I s.boxlocs - shortest I s.rloc g + shortest I dst g := by
        rw [← hs']
        dsimp only
        rw [goalSum_update hbn hg, hbl]
      have hs5 : busy I s'.toCore = if g = dst then 1 else 0 := by
        rw [← hs', busy]
        dsimp only
        rw [hb]
        dsimp only
        rw [hout]
        by_cases e : g = dst <;> simp [e]
      have hs6 : busy I s.toCore = if g = s.rloc then 1 else 0 := by
        rw [busy, hb]
        dsimp only
        rw [hout]
        by_cases e : g = s.rloc <;> simp [e]
      have hD := dist_shortest hI.adj
      have htri := adj_le hI hr hd hgl
      have h1 := hD.nonneg _ _ hd hgl
      have hG := goalSum_nonneg hI hok
      have hL := locSum_nonneg I s.locs
      have hlc := loadCost_pos
      refine ⟨_, ha, hok, hrev _ hok hs1, ⟨_, hundo⟩, hadj, ?_⟩
      dsimp only
      by_cases e1 : g = s.rloc
      · -- the box leaves its goal
        have e2 : g ≠ dst := fun e2 => hn (e2.symm.trans e1)
        have hz : shortest I s.rloc g = 0 := by rw [e1]; exact hD.diag _ hr
        rw [if_neg e2] at hs2 hs5
        rw [if_pos e1] at hnl hs6
        rw [pot, pot, hs2, hs3, hs4, hs5, hs6, hz, if_neg (show n0 + 1 ≠ 0 by omega), hnl]
        rw [hs4, hz] at hG
        push_cast
        have hm : (0 : ℚ) ≤ n0 * loadCost := mul_nonneg (by positivity) hlc.le
        split
        · linarith
        · linarith
      · by_cases e2 : g = dst
        · -- the box reaches its goal
          have hz : shortest I dst g = 0 := by rw [e2]; exact hD.diag _ hd
          rw [if_pos e2] at hs2 hs5
          rw [if_neg e1] at hnl hs6
          rw [pot, pot, hs2, hs3, hs4, hs5, hs6, hz, if_neg (show ¬s.nleft = 0 by omega), hnl]
          by_cases e0 : n0 = 0
          · obtain ⟨z1, z2⟩ := zero_of_nleft hI hok (by rw [hs2]; omega)
            rw [hs4, hz] at z1
            rw [hs3] at z2
            rw [if_pos (by omega), z2, e0]
            push_cast
            linarith
          · rw [if_neg (by omega)]
            push_cast
            linarith
        · -- the box stays out of place
          rw [if_neg e2] at hs2 hs5
          rw [if_neg e1] at hnl hs6
          rw [pot, pot, hs2, hs3, hs4, hs5, hs6, if_neg (show ¬s.nleft = 0 by omega), hnl,
            if_neg (show n0 + 1 ≠ 0 by omega)]
          push_cast
          linarith

/-- Every operator that is offered can be applied and undone. -/
theorem good {I : Inst} (hI : InstOk I) {s : State} (h : Ok I s) {o : Op} (ho : o ∈ ops I s.toCore) :
    ∃ e, apply I s o = .ok e ∧ Good I s e := by
  obtain ⟨l, hl⟩ := h.core.get h.core.rloc
  rcases (mem_ops hl).1 ho with ⟨c, p, hc, hp, rfl⟩ | ⟨hc, ⟨p, hp, rfl⟩ | ⟨hr, rfl⟩⟩ | ⟨hr, c, hc, rfl⟩ | ⟨i, hi, hn, rfl⟩
  · exact good_push h hl hc hp
  · exact good_pop h hl hp hc
  · obtain ⟨b, hb⟩ := Option.ne_none_iff_exists'.1 hr
    exact good_unload h hl hc hb
  · exact good_load h hl hc hr
  · exact good_move hI h hi hn

theorem h_eq (I : Inst) (s : State) : h I s = if s.nleft = 0 then 0 else
    goalSum I s.boxlocs + (s.nleft - 1) * loadCost + locSum I s.locs := rfl

theorem h_le_pot (I : Inst) (s : State) : h I s ≤ pot I s := by
  rw [h_eq, pot]
  split
  · exact le_refl _
  · have : 0 ≤ busy I s.toCore := by
      rw [busy]
      split
      · split <;> norm_num
      · exact le_refl _
    have := mul_nonneg this loadCost_pos.le
    linarith

end Verif.DockRobot
