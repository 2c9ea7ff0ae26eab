import Verif.Domains.DockRobotState

/-!
# Packing and unpacking dock robot states
-/

namespace Verif.DockRobot

open Verif List

/-! ## Assignments to arrays -/

theorem foldl_update_notMem (L : List (Nat × Nat)) (f : Nat → Nat) {b : Nat} (h : b ∉ L.map Prod.fst) :
    L.foldl (fun f x => Function.update f x.1 x.2) f b = f b := by
  induction L generalizing f with
  | nil => rfl
  | cons x L ih =>
    rw [List.map_cons, List.mem_cons, not_or] at h
    rw [List.foldl_cons, ih _ h.2, Function.update_of_ne h.1]

theorem foldl_update_mem (L : List (Nat × Nat)) (f : Nat → Nat) (hn : (L.map Prod.fst).Nodup) {x : Nat × Nat}
    (h : x ∈ L) : L.foldl (fun f x => Function.update f x.1 x.2) f x.1 = x.2 := by
  induction L generalizing f with
  | nil => exact absurd h (by simp)
  | cons y L ih =>
    rw [List.map_cons, List.nodup_cons] at hn
    rw [List.foldl_cons]
    rcases List.mem_cons.1 h with rfl | h
    · rw [foldl_update_notMem _ _ hn.1, Function.update_self]
    · exact ih _ hn.2 h

theorem foldl_count (p : Nat × Nat → Bool) (L : List (Nat × Nat)) (n : Nat) :
    L.foldl (fun n x => if p x then n + 1 else n) n = n + L.countP p := by
  induction L generalizing n with
  | nil => rfl
  | cons x L ih =>
    rw [List.foldl_cons, ih, List.countP_cons]
    split <;> omega

/-- The constructor of `State` on contents in order. -/
theorem mk_ok {I : Inst} {c : Core} (h : CoreOk I c) : ∃ s, mk I c = .ok s ∧ s.toCore = c ∧ Ok I s := by
  have ha : (c.pairs.all fun x => x.1 < I.nboxes) = true := by
    rw [List.all_eq_true]
    intro x hx
    simpa using h.lt hx
  have hn : (c.pairs.map Prod.fst).Nodup := h.perm.nodup_iff.2 List.nodup_range
  refine ⟨_, by rw [mk, if_pos ha], rfl, h, fun x hx _ => ?_, ?_⟩
  · exact foldl_update_mem _ _ hn hx
  · dsimp only
    rw [foldl_count (fun x => I.out x.1 x.2), Nat.zero_add]

/-- States in order with the same contents have the same heuristic value. -/
theorem h_congr {I : Inst} {s s' : State} (hs : Ok I s) (hs' : Ok I s') (e : s.toCore = s'.toCore) :
    s.nleft = s'.nleft ∧ h I s = h I s' := by
  have hn : s.nleft = s'.nleft := by rw [hs.nleft, hs'.nleft, e]
  refine ⟨hn, ?_⟩
  rw [h_eq, h_eq, hn, show s.locs = s'.locs by rw [e]]
  have : goalSum I s.boxlocs = goalSum I s'.boxlocs := by
    rw [goalSum, goalSum]
    congr 1
    apply List.map_congr_left
    intro b hb
    split
    · rename_i g hg
      obtain ⟨l, _, hm⟩ := hs.core.place (List.mem_range.1 hb)
      have h1 := hs.boxlocs _ hm (by rw [hg]; simp)
      have h2 := hs'.boxlocs (b, l) (by rw [← e]; exact hm) (by rw [hg]; simp)
      dsimp only at h1 h2
      rw [h1, h2]
    · rfl
  rw [this]

/-! ## Positions -/

/-- The number of slots of the `k` locations from `i` on. -/
def ssum (I : Inst) : Nat → Nat → Nat
  | _, 0 => 0
  | i, k + 1 => slots I i + ssum I (i + 1) k

theorem mem_packLocs {I : Inst} (L : List Loc) (i cur k : Nat) {l : Loc} (hl : L[k]? = some l) {x : Nat × Nat}
    (hx : x ∈ packLoc I (i + k) (cur + ssum I i k) l) : x ∈ packLocs I i cur L := by
  induction L generalizing i cur k with
  | nil => exact absurd hl (by simp)
  | cons a L ih =>
    rw [packLocs, List.mem_append]
    cases k with
    | zero =>
      rw [List.getElem?_cons_zero] at hl
      obtain rfl := Option.some.inj hl
      exact Or.inl hx
    | succ k =>
      rw [List.getElem?_cons_succ] at hl
      refine Or.inr (ih (i + 1) (cur + slots I i) k hl ?_)
      rw [ssum] at hx
      rwa [show i + 1 + k = i + (k + 1) by omega, Nat.add_assoc]

theorem map_fst_zipIdx (L : List Nat) (k : Nat) (f : Nat × Nat → Nat) :
    ((L.zipIdx k).map fun x => (x.1, f x)).map Prod.fst = L := by
  rw [List.map_map]
  have : (Prod.fst ∘ fun x : Nat × Nat => (x.1, f x)) = Prod.fst := rfl
  rw [this, List.zipIdx_map_fst]

theorem map_fst_piles (L : List (List Nat)) (k : Nat) (f : Nat → Nat × Nat → Nat) :
    ((L.zipIdx k).flatMap fun p => p.1.zipIdx.map fun x => (x.1, f p.2 x)).map Prod.fst = L.flatten := by
  induction L generalizing k with
  | nil => rfl
  | cons a L ih =>
    rw [List.zipIdx_cons, List.flatMap_cons, List.map_append, ih, List.flatten_cons]
    dsimp only
    rw [map_fst_zipIdx]

theorem map_fst_packLoc (I : Inst) (i cur : Nat) (l : Loc) : (packLoc I i cur l).map Prod.fst = l.boxes := by
  rw [packLoc, List.map_append, map_fst_zipIdx, map_fst_piles l.piles 0 (fun p x =>
    cur + I.maxcranes i + x.2 + p * I.nboxes), Loc.boxes]

theorem map_fst_packLocs (I : Inst) (L : List Loc) (i cur k : Nat) :
    (packLocs I i cur L).map Prod.fst = ((L.zipIdx k).flatMap fun x => x.1.boxes.map fun b => (b, x.2)).map Prod.fst := by
  induction L generalizing i cur k with
  | nil => rfl
  | cons a L ih =>
    rw [packLocs, List.map_append, map_fst_packLoc, List.zipIdx_cons, List.flatMap_cons, List.map_append, ← ih]
    congr 1
    simp [List.map_map, Function.comp_def]

/-- Where a box goes when its slot within location `i` is `q`. -/
def placeLoc (I : Inst) (b i q : Nat) (l : Loc) : Loc :=
  if q < I.maxcranes i then { l with cranes := place (I.nboxes + 1) l.cranes q b }
  else { l with piles := placePile (I.nboxes + 1) l.piles ((q - I.maxcranes i) / I.nboxes)
                          ((q - I.maxcranes i) % I.nboxes) b }

theorem unpackBox_eq {I : Inst} {b : Nat} (L : List Loc) (i k q : Nat) {l : Loc} (hl : L[k]? = some l)
    (hq : q < slots I (i + k)) : unpackBox I b i (ssum I i k + q) L = .ok (L.set k (placeLoc I b (i + k) q l)) := by
  induction L generalizing i k with
  | nil => exact absurd hl (by simp)
  | cons a L ih =>
    cases k with
    | zero =>
      rw [List.getElem?_cons_zero] at hl
      obtain rfl := Option.some.inj hl
      rw [Nat.add_zero, slots] at hq
      rw [ssum, Nat.zero_add, unpackBox, placeLoc]
      change _ = Outcome.ok ((a :: L).set 0 (if q < I.maxcranes i then _ else _))
      by_cases h1 : q < I.maxcranes i
      · rw [if_pos h1, if_pos h1]
        rfl
      · rw [if_neg h1, if_neg h1, if_pos (by omega)]
        rfl
    | succ k =>
      rw [List.getElem?_cons_succ] at hl
      have := ih (i + 1) k hl (by rwa [show i + 1 + k = i + (k + 1) by omega])
      rw [ssum, unpackBox]
      rw [slots]
      generalize ssum I (i + 1) k = m at *
      rw [if_neg (by omega), if_neg (by omega),
        show I.maxcranes i + I.maxpiles i * I.nboxes + m + q - I.maxcranes i - I.maxpiles i * I.nboxes = m + q by omega,
        this, Outcome.map_ok, List.set_cons_succ, show i + 1 + k = i + (k + 1) by omega]

/-! ## Rebuilding a list from its elements -/

theorem place_length {α : Type} (fill : α) (v : List α) (i : Nat) (x : α) :
    (place fill v i x).length = max v.length (i + 1) := by
  rw [place, List.length_set]
  split
  · rw [List.length_append, List.length_replicate]
    omega
  · omega

theorem place_get {α : Type} (fill : α) (v : List α) (i : Nat) (x : α) (j : Nat) :
    (place fill v i x)[j]? = if j = i then some x else if j < v.length then v[j]? else if j < i then some fill else none := by
  rw [place]
  generalize hw : (if v.length ≤ i then v ++ List.replicate (i + 1 - v.length) fill else v) = w
  rw [List.getElem?_set]
  subst hw
  by_cases h : i = j
  · subst h
    rw [if_pos rfl, if_pos rfl]
    split <;> split
    · rfl
    · rename_i h1 h2
      exact absurd (by rw [List.length_append, List.length_replicate]; omega) h2
    · rfl
    · omega
  · rw [if_neg h, if_neg (show ¬j = i from fun e => h e.symm)]
    by_cases h1 : v.length ≤ i
    · rw [if_pos h1, List.getElem?_append]
      split
      · rfl
      · rw [List.getElem?_replicate]
        split <;> split
        · rfl
        · omega
        · omega
        · rfl
    · rw [if_neg h1]
      by_cases h2 : j < v.length
      · rw [if_pos h2]
      · rw [if_neg h2, if_neg (by omega), List.getElem?_eq_none (by omega)]

/-- `R` is `L` as far as the boxes below `n` determine it. -/
structure Part (fill n : Nat) (L R : List Nat) : Prop where
  len : ∀ i, i < R.length ↔ ∃ j, i ≤ j ∧ ∃ x, L[j]? = some x ∧ x < n
  val : ∀ (i x : Nat), R[i]? = some x → ∃ y, L[i]? = some y ∧ x = if y < n then y else fill

theorem part_nil {fill n : Nat} {L : List Nat} (h : ∀ x ∈ L, ¬x < n) : Part fill n L [] := by
  refine ⟨fun i => ⟨fun hi => absurd hi (by simp), ?_⟩, fun i x hx => absurd hx (by simp)⟩
  rintro ⟨j, -, x, hx, hn⟩
  exact absurd hn (h x (List.mem_of_getElem? hx))

theorem part_skip {fill n : Nat} {L R : List Nat} (h : Part fill n L R) (hn : n ∉ L) : Part fill (n + 1) L R := by
  have key : ∀ (j x : Nat), L[j]? = some x → (x < n + 1 ↔ x < n) := by
    intro j x hx
    have : x ≠ n := fun e => hn (e ▸ List.mem_of_getElem? hx)
    omega
  refine ⟨fun i => (h.len i).trans ?_, fun i x hx => ?_⟩
  · constructor
    · rintro ⟨j, hj, x, hx, hl⟩
      exact ⟨j, hj, x, hx, by omega⟩
    · rintro ⟨j, hj, x, hx, hl⟩
      exact ⟨j, hj, x, hx, (key j x hx).1 hl⟩
  · obtain ⟨y, hy, e⟩ := h.val i x hx
    refine ⟨y, hy, ?_⟩
    rw [e]
    simp only [key i y hy]

theorem part_place {fill n : Nat} {L R : List Nat} (h : Part fill n L R) (hd : L.Nodup) {i : Nat}
    (hi : L[i]? = some n) : Part fill (n + 1) L (place fill R i n) := by
  have key : ∀ (j x : Nat), j ≠ i → L[j]? = some x → (x < n + 1 ↔ x < n) := by
    intro j x hj hx
    have : x ≠ n := by
      rintro rfl
      obtain ⟨h1, -⟩ := List.getElem?_eq_some_iff.1 hx
      exact hj ((List.getElem?_inj h1 hd).1 (hx.trans hi.symm))
    omega
  have hlt : i < L.length := (List.getElem?_eq_some_iff.1 hi).1
  refine ⟨fun j => ?_, fun j x hx => ?_⟩
  · rw [place_length]
    constructor
    · intro hj
      by_cases h1 : j ≤ i
      · exact ⟨i, h1, n, hi, by omega⟩
      · obtain ⟨k, hk, x, hx, hl⟩ := (h.len j).1 (by omega)
        exact ⟨k, hk, x, hx, by omega⟩
    · rintro ⟨k, hk, x, hx, hl⟩
      by_cases e : k = i
      · omega
      · have := (h.len j).2 ⟨k, hk, x, hx, (key k x e hx).1 hl⟩
        omega
  · rw [place_get] at hx
    by_cases e : j = i
    · rw [if_pos e] at hx
      obtain rfl := Option.some.inj hx
      exact ⟨n, by rw [e]; exact hi, by simp⟩
    · rw [if_neg e] at hx
      split at hx
      · obtain ⟨y, hy, e'⟩ := h.val j x hx
        refine ⟨y, hy, ?_⟩
        rw [e']
        simp only [key j y e hy]
      · rename_i hj
        split at hx
        · rename_i hji
          obtain rfl := Option.some.inj hx
          refine ⟨L[j]'(by omega), List.getElem?_eq_getElem _, ?_⟩
          rw [if_neg]
          intro hl
          have h1 := List.getElem?_eq_getElem (show j < L.length by omega)
          exact hj ((h.len j).2 ⟨j, le_refl _, _, h1, (key j _ e h1).1 hl⟩)
        · exact absurd hx (by simp)

theorem part_full {fill n : Nat} {L R : List Nat} (h : Part fill n L R) (hl : ∀ x ∈ L, x < n) : R = L := by
  apply List.ext_getElem?
  intro i
  by_cases hi : i < R.length
  · obtain ⟨y, hy, e⟩ := h.val i R[i] (List.getElem?_eq_getElem hi)
    rw [if_pos (hl y (List.mem_of_getElem? hy))] at e
    rw [hy, List.getElem?_eq_getElem hi, e]
  · rw [List.getElem?_eq_none (by omega)]
    symm
    rw [List.getElem?_eq_none_iff]
    by_contra hc
    exact hi ((h.len i).2 ⟨i, le_refl _, _, List.getElem?_eq_getElem (by omega), hl _ (List.getElem_mem _)⟩)

/-- The same for piles. -/
structure PartP (fill n : Nat) (L R : List (List Nat)) : Prop where
  len : ∀ i, i < R.length ↔ ∃ j, i ≤ j ∧ ∃ p, L[j]? = some p ∧ ∃ x ∈ p, x < n
  val : ∀ (i : Nat) (r : List Nat), R[i]? = some r → ∃ p, L[i]? = some p ∧ Part fill n p r

theorem partP_nil {fill : Nat} {L : List (List Nat)} : PartP fill 0 L [] := by
  refine ⟨fun i => ⟨fun hi => absurd hi (by simp), ?_⟩, fun i x hx => absurd hx (by simp)⟩
  rintro ⟨j, -, p, -, x, -, hn⟩
  omega

theorem partP_skip {fill n : Nat} {L R : List (List Nat)} (h : PartP fill n L R) (hn : n ∉ L.flatten) :
    PartP fill (n + 1) L R := by
  have hn' : ∀ p ∈ L, n ∉ p := fun p hp hm => hn (List.mem_flatten.2 ⟨p, hp, hm⟩)
  refine ⟨fun i => (h.len i).trans ?_, fun i r hr => ?_⟩
  · constructor
    · rintro ⟨j, hj, p, hp, x, hx, hl⟩
      exact ⟨j, hj, p, hp, x, hx, by omega⟩
    · rintro ⟨j, hj, p, hp, x, hx, hl⟩
      have : x ≠ n := fun e => hn' p (List.mem_of_getElem? hp) (e ▸ hx)
      exact ⟨j, hj, p, hp, x, hx, by omega⟩
  · obtain ⟨p, hp, hq⟩ := h.val i r hr
    exact ⟨p, hp, part_skip hq (hn' p (List.mem_of_getElem? hp))⟩

theorem mem_getElem? {α : Type} {L : List α} {i : Nat} {x : α} (h : L[i]? = some x) : x ∈ L := List.mem_of_getElem? h

theorem partP_place {fill n : Nat} {L R : List (List Nat)} (h : PartP fill n L R) (hd : L.flatten.Nodup)
    {i ht : Nat} {p : List Nat} (hi : L[i]? = some p) (hp : p[ht]? = some n) :
    PartP fill (n + 1) L (placePile fill R i ht n) := by
  rw [List.nodup_flatten] at hd
  have hother : ∀ j q, j ≠ i → L[j]? = some q → n ∉ q := by
    intro j q hj hq hm
    have hdis := List.pairwise_iff_getElem.1 hd.2
    obtain ⟨h1, e1⟩ := List.getElem?_eq_some_iff.1 hi
    obtain ⟨h2, e2⟩ := List.getElem?_eq_some_iff.1 hq
    have hmp : n ∈ p := mem_getElem? hp
    rcases Nat.lt_or_gt_of_ne hj with hlt | hlt
    · have := hdis j i h2 h1 hlt
      rw [e1, e2] at this
      exact this hm hmp
    · have := hdis i j h1 h2 hlt
      rw [e1, e2] at this
      exact this hmp hm
  have hbase : Part fill n p (R.getD i []) := by
    by_cases hl : i < R.length
    · rw [List.getD_eq_getElem _ _ hl]
      obtain ⟨q, hq, hpq⟩ := h.val i _ (List.getElem?_eq_getElem hl)
      rw [hi] at hq
      obtain rfl := Option.some.inj hq
      exact hpq
    · rw [List.getD_eq_default _ _ (by omega)]
      refine part_nil fun x hx hn => hl ((h.len i).2 ⟨i, le_refl _, p, hi, x, hx, hn⟩)
  have hlt : i < L.length := (List.getElem?_eq_some_iff.1 hi).1
  refine ⟨fun j => ?_, fun j r hr => ?_⟩
  · rw [placePile, place_length]
    constructor
    · intro hj
      by_cases h1 : j ≤ i
      · exact ⟨i, h1, p, hi, n, mem_getElem? hp, by omega⟩
      · obtain ⟨k, hk, q, hq, x, hx, hl⟩ := (h.len j).1 (by omega)
        exact ⟨k, hk, q, hq, x, hx, by omega⟩
    · rintro ⟨k, hk, q, hq, x, hx, hl⟩
      by_cases e : k = i
      · omega
      · have hxn : x ≠ n := fun e' => hother k q e hq (e' ▸ hx)
        have := (h.len j).2 ⟨k, hk, q, hq, x, hx, by omega⟩
        omega
  · rw [placePile, place_get] at hr
    by_cases e : j = i
    · rw [if_pos e] at hr
      obtain rfl := Option.some.inj hr
      exact ⟨p, by rw [e]; exact hi, part_place hbase (hd.1 p (mem_getElem? hi)) hp⟩
    · rw [if_neg e] at hr
      split at hr
      · obtain ⟨q, hq, hpq⟩ := h.val j r hr
        exact ⟨q, hq, part_skip hpq (hother j q e hq)⟩
      · rename_i hj
        split at hr
        · obtain rfl := Option.some.inj hr
          have h1 := List.getElem?_eq_getElem (show j < L.length by omega)
          refine ⟨_, h1, part_skip (part_nil fun x hx hl => hj ((h.len j).2 ⟨j, le_refl _, _, h1, x, hx, hl⟩))
            (hother j _ e h1)⟩
        · exact absurd hr (by simp)

theorem partP_full {fill n : Nat} {L R : List (List Nat)} (h : PartP fill n L R) (hl : ∀ p ∈ L, ∀ x ∈ p, x < n)
    (hne : ∀ p ∈ L, p ≠ []) : R = L := by
  apply List.ext_getElem?
  intro i
  by_cases hi : i < R.length
  · obtain ⟨p, hp, e⟩ := h.val i R[i] (List.getElem?_eq_getElem hi)
    rw [hp, List.getElem?_eq_getElem hi, part_full e (hl p (mem_getElem? hp))]
  · rw [List.getElem?_eq_none (by omega)]
    symm
    rw [List.getElem?_eq_none_iff]
    by_contra hc
    have h1 := List.getElem?_eq_getElem (show i < L.length by omega)
    have h2 : L[i] ∈ L := List.getElem_mem _
    exact hi ((h.len i).2 ⟨i, le_refl _, _, h1, _, bot_mem (hne _ h2), hl _ h2 _ (bot_mem (hne _ h2))⟩)

/-- The same for a location. -/
structure PartL (fill n : Nat) (L R : Loc) : Prop where
  cranes : Part fill n L.cranes R.cranes
  piles : PartP fill n L.piles R.piles

/-! ## The round trip -/

theorem CoreOk.length_le {I : Inst} {c : Core} (h : CoreOk I c) {l : Nat} {x : Loc} (hx : c.locs[l]? = some x)
    {p : List Nat} (hp : p ∈ x.piles) : p.length ≤ I.nboxes := by
  have hd : p.Nodup := by
    have := (h.locs l x hx).nodup
    rw [Loc.boxes, List.nodup_append, List.nodup_flatten] at this
    exact this.2.1.1 p hp
  have hs : p ⊆ List.range I.nboxes := by
    intro b hb
    have : b ∈ x.boxes := List.mem_append_right _ (List.mem_flatten.2 ⟨p, hp, hb⟩)
    exact List.mem_range.2 (h.lt (mem_pairs_of_mem_loc hx this))
  have := (hd.subperm hs).length_le
  rwa [List.length_range] at this

/-- The slot of a box within its location. -/
def IsSlot (I : Inst) (i : Nat) (l : Loc) (b q : Nat) : Prop :=
  l.cranes[q]? = some b ∨ ∃ p ht st, l.piles[p]? = some st ∧ st[ht]? = some b ∧ q = I.maxcranes i + ht + p * I.nboxes

theorem exists_slot {I : Inst} {i : Nat} {l : Loc} {b : Nat} (hb : b ∈ l.boxes) : ∃ q, IsSlot I i l b q := by
  rw [Loc.boxes, List.mem_append] at hb
  rcases hb with hb | hb
  · obtain ⟨q, hq⟩ := List.mem_iff_getElem?.1 hb
    exact ⟨q, Or.inl hq⟩
  · obtain ⟨st, hst, hb⟩ := List.mem_flatten.1 hb
    obtain ⟨p, hp⟩ := List.mem_iff_getElem?.1 hst
    obtain ⟨ht, hht⟩ := List.mem_iff_getElem?.1 hb
    exact ⟨_, Or.inr ⟨p, ht, st, hp, hht, rfl⟩⟩

theorem mem_packLoc {I : Inst} {i cur : Nat} {l : Loc} {b q : Nat} (h : IsSlot I i l b q) :
    (b, cur + q) ∈ packLoc I i cur l := by
  rw [packLoc, List.mem_append]
  rcases h with h | ⟨p, ht, st, hp, hst, rfl⟩
  · exact Or.inl (List.mem_map.2 ⟨(b, q), List.mem_zipIdx_iff_getElem?.2 h, rfl⟩)
  · refine Or.inr (List.mem_flatMap.2 ⟨(st, p), List.mem_zipIdx_iff_getElem?.2 hp, ?_⟩)
    refine List.mem_map.2 ⟨(b, ht), List.mem_zipIdx_iff_getElem?.2 hst, ?_⟩
    dsimp only
    rw [Nat.add_assoc, Nat.add_assoc, Nat.add_assoc]

/-- Placing a box in its slot. -/
theorem partL_place {I : Inst} {c : Core} (h : CoreOk I c) {i n q : Nat} {l R : Loc} (hl : c.locs[i]? = some l)
    (hn : n < I.nboxes) (hq : IsSlot I i l n q) (hp : PartL (I.nboxes + 1) n l R) :
    q < slots I i ∧ PartL (I.nboxes + 1) (n + 1) l (placeLoc I n i q R) := by
  have hd := (h.locs i l hl).nodup
  rw [Loc.boxes, List.nodup_append] at hd
  rcases hq with hq | ⟨p, ht, st, hpst, hst, rfl⟩
  · have h1 : q < l.cranes.length := (List.getElem?_eq_some_iff.1 hq).1
    have h2 := h.cranes i l hl
    refine ⟨by rw [slots]; omega, ?_⟩
    rw [placeLoc, if_pos (by omega)]
    refine ⟨part_place hp.cranes hd.1 hq, partP_skip hp.piles fun hm => ?_⟩
    exact hd.2.2 n (mem_getElem? hq) n hm rfl
  · have hmem := mem_getElem? hpst
    have h1 : p < l.piles.length := (List.getElem?_eq_some_iff.1 hpst).1
    have h2 := h.piles i l hl
    have h3 : ht < st.length := (List.getElem?_eq_some_iff.1 hst).1
    have h4 := h.length_le hl hmem
    have hlt : ht + p * I.nboxes < I.maxpiles i * I.nboxes := by
      have : (p + 1) * I.nboxes ≤ I.maxpiles i * I.nboxes := Nat.mul_le_mul_right _ (by omega)
      rw [Nat.add_mul] at this
      omega
    refine ⟨by rw [slots]; omega, ?_⟩
    rw [placeLoc, if_neg (by omega)]
    have e : I.maxcranes i + ht + p * I.nboxes - I.maxcranes i = ht + p * I.nboxes := by omega
    rw [e, Nat.add_mul_div_right _ _ (by omega), Nat.div_eq_of_lt (by omega), Nat.add_mul_mod_self_right,
      Nat.mod_eq_of_lt (by omega), Nat.zero_add]
    refine ⟨part_skip hp.cranes fun hm => ?_, partP_place hp.piles hd.2.1 hpst hst⟩
    exact hd.2.2 n hm n (List.mem_flatten.2 ⟨st, hmem, mem_getElem? hst⟩) rfl

theorem partL_skip {I : Inst} {n : Nat} {l R : Loc} (hn : n ∉ l.boxes) (hp : PartL (I.nboxes + 1) n l R) :
    PartL (I.nboxes + 1) (n + 1) l R := by
  rw [Loc.boxes, List.mem_append, not_or] at hn
  exact ⟨part_skip hp.cranes hn.1, partP_skip hp.piles hn.2⟩

/-- `pos` records the place of every box. -/
structure Records (I : Inst) (c : Core) (pos : Nat → Nat) : Prop where
  robot : ∀ b, c.rbox = some b → pos b = 0
  slot : ∀ i l b q, c.locs[i]? = some l → IsSlot I i l b q → pos b = 1 + ssum I 0 i + q
  rloc : pos I.nboxes = c.rloc

theorem pack_ok {I : Inst} {c : Core} (h : CoreOk I c) : ∃ pos, pack I c = .ok pos ∧ Records I c pos := by
  have hperm : ((c.rbox.toList.map fun b => (b, 0)) ++ packLocs I 0 1 c.locs).map Prod.fst ~ List.range I.nboxes := by
    refine List.Perm.trans ?_ h.perm
    rw [Core.pairs, List.map_append, List.map_append, map_fst_packLocs I c.locs 0 1 0]
    refine List.perm_append_comm.trans ?_
    simp only [List.map_map, Function.comp_def]
    exact List.Perm.refl _
  generalize has : (c.rbox.toList.map fun b => (b, 0)) ++ packLocs I 0 1 c.locs = as at hperm
  have hlt : ∀ x ∈ as, x.1 < I.nboxes := fun x hx =>
    List.mem_range.1 (hperm.mem_iff.1 (List.mem_map.2 ⟨x, hx, rfl⟩))
  have hall : (as.all fun x => x.1 < I.nboxes + 1) = true := by
    rw [List.all_eq_true]
    intro x hx
    have := hlt x hx
    simp
    omega
  have hnd : (as.map Prod.fst).Nodup := hperm.nodup_iff.2 List.nodup_range
  refine ⟨_, by rw [pack, has, if_pos hall], ?_, ?_, ?_⟩
  · intro b hb
    have hm : (b, 0) ∈ as := by
      rw [← has, hb]
      simp
    have := hlt _ hm
    dsimp only at this
    rw [Function.update_of_ne (show b ≠ I.nboxes by omega)]
    exact foldl_update_mem as _ hnd hm
  · intro i l b q hl hq
    have hm : (b, 1 + ssum I 0 i + q) ∈ as := by
      rw [← has, List.mem_append]
      refine Or.inr (mem_packLocs c.locs 0 1 i hl ?_)
      rw [Nat.zero_add]
      exact mem_packLoc hq
    have := hlt _ hm
    dsimp only at this
    rw [Function.update_of_ne (show b ≠ I.nboxes by omega)]
    exact foldl_update_mem as _ hnd hm
  · rw [Function.update_self]

/-- The loop of `unpack`. -/
theorem unpackTo_ok {I : Inst} {c : Core} (h : CoreOk I c) {pos : Nat → Nat} (hp : Records I c pos) (n : Nat)
    (hn : n ≤ I.nboxes) : ∃ L rb, unpackTo I pos n = .ok (L, rb) ∧ L.length = I.nlocs ∧
      (∀ (i : Nat) (l R : Loc), c.locs[i]? = some l → L[i]? = some R → PartL (I.nboxes + 1) n l R) ∧
      (∀ b, rb = some b ↔ c.rbox = some b ∧ b < n) := by
  induction n with
  | zero =>
    refine ⟨_, _, rfl, by simp, fun i l R hl hR => ?_, fun b => by simp⟩
    rw [List.getElem?_replicate] at hR
    split at hR
    · obtain rfl := Option.some.inj hR
      exact ⟨part_nil (by simp), partP_nil⟩
    · exact absurd hR (by simp)
  | succ n ih =>
    obtain ⟨L, rb, hu, hlen, hL, hrb⟩ := ih (by omega)
    have hnd : (c.pairs.map Prod.fst).Nodup := h.perm.nodup_iff.2 List.nodup_range
    have huniq : ∀ x ∈ c.pairs, ∀ y ∈ c.pairs, x.1 = y.1 → x = y := fun x hx y hy e =>
      List.inj_on_of_nodup_map hnd hx hy e
    obtain ⟨i, hi, hm⟩ := h.place (show n < I.nboxes by omega)
    rw [pairs_eq, List.mem_append] at hm
    rw [unpackTo, hu, Outcome.bind_ok]
    dsimp only
    by_cases hr : c.rbox = some n
    · -- the box is on the robot
      rw [hp.robot n hr, if_pos rfl]
      refine ⟨_, _, rfl, hlen, fun i l R hl hR => partL_skip (fun hb => ?_) (hL i l R hl hR), fun b => ?_⟩
      · rw [pairs_eq, List.map_append, List.nodup_append, hr] at hnd
        have hb' : (n, i) ∈ locPairs c.locs :=
          List.mem_flatMap.2 ⟨(l, i), List.mem_zipIdx_iff_getElem?.2 hl, List.mem_map.2 ⟨n, hb, rfl⟩⟩
        exact hnd.2.2 n (List.mem_map.2 ⟨_, hb', rfl⟩) n (by simp) rfl
      · rw [hr]
        constructor
        · intro e
          exact ⟨e, by obtain rfl := Option.some.inj e; omega⟩
        · exact fun e => e.1
    · -- the box is at a location
      have hm' : (n, i) ∈ locPairs c.locs := by
        rcases hm with hm | hm
        · exact hm
        · obtain ⟨b, hb, e⟩ := List.mem_map.1 hm
          obtain rfl : b = n := congrArg Prod.fst e
          exact absurd (by simpa using hb) hr
      obtain ⟨l, hl, hb⟩ := mem_locPairs hm'
      dsimp only at hl hb
      obtain ⟨q, hq⟩ := exists_slot (I := I) (i := i) hb
      have hpos := hp.slot i l n q hl hq
      have hR : L[i]? = some (L[i]'(by omega)) := List.getElem?_eq_getElem _
      obtain ⟨hqs, hpl⟩ := partL_place h hl (by omega) hq (hL i l _ hl hR)
      have hub := unpackBox_eq (b := n) L 0 i q hR (by rwa [Nat.zero_add])
      rw [Nat.zero_add] at hub
      rw [hpos, if_neg (by omega), show 1 + ssum I 0 i + q - 1 = ssum I 0 i + q by omega, hub, Outcome.map_ok]
      refine ⟨_, _, rfl, by simpa using hlen, fun j l' R hl' hR' => ?_, fun b => ?_⟩
      · rw [List.getElem?_set] at hR'
        split at hR'
        · rename_i e
          subst e
          rw [hl] at hl'
          obtain rfl := Option.some.inj hl'
          split at hR'
          · obtain rfl := Option.some.inj hR'
            exact hpl
          · exact absurd hR' (by simp)
        · rename_i e
          refine partL_skip (fun hb' => ?_) (hL j l' R hl' hR')
          have := huniq _ (mem_pairs_of_mem_loc hl hb) _ (mem_pairs_of_mem_loc hl' hb') rfl
          exact e (congrArg Prod.snd this)
      · rw [hrb]
        constructor
        · exact fun e => ⟨e.1, by omega⟩
        · intro e
          refine ⟨e.1, ?_⟩
          have : b ≠ n := fun e' => hr (e' ▸ e.1)
          omega

theorem unpack_records {I : Inst} {c : Core} (h : CoreOk I c) {pos : Nat → Nat} (hp : Records I c pos) :
    unpack I pos = mk I c := by
  obtain ⟨L, rb, hu, hlen, hL, hrb⟩ := unpackTo_ok h hp I.nboxes (le_refl _)
  rw [unpack, hu, Outcome.bind_ok]
  dsimp only
  congr 1
  have e1 : L = c.locs := by
    apply List.ext_getElem (by rw [hlen, h.len])
    intro i h1 h2
    have hl := List.getElem?_eq_getElem h2
    have hpl := hL i _ _ hl (List.getElem?_eq_getElem h1)
    have hlt : ∀ b ∈ (c.locs[i]).boxes, b < I.nboxes := fun b hb => h.lt (mem_pairs_of_mem_loc hl hb)
    have hc := part_full hpl.cranes fun b hb => hlt b (List.mem_append_left _ hb)
    have hq := partP_full hpl.piles (fun p hp b hb => hlt b (List.mem_append_right _ (List.mem_flatten.2 ⟨p, hp, hb⟩)))
      (h.locs i _ hl).ne
    cases hx : L[i] with
    | mk a b =>
      rw [hx] at hc hq
      dsimp only at hc hq
      rw [hc, hq]
  have e2 : rb = c.rbox := by
    apply Option.ext
    intro b
    rw [hrb]
    constructor
    · exact fun e => e.1
    · exact fun e => ⟨e, h.lt (mem_pairs_of_rbox e)⟩
  rw [e1, e2, hp.rloc]

end Verif.DockRobot
