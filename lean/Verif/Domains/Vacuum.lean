import Verif.Domains.GridNav

/-!
# Model of vacuum/vacuum.hpp, vacuum/vacuum.cc

The map is a `GridMap` with four-way moves (see `Domains/GridNav.lean`).  The field `energy` is left out: it is -1 in the
initial state and never assigned afterwards, so the test `s.energy == 0` always fails.  Reading is modelled from the
characters of the map on.
-/

namespace Verif.Vacuum

open Verif.GridNav (GMap Move coord Interior MapOk fourway setsize)

/-- vacuum.hpp:181-186: the fields of `Vacuum`. -/
structure Inst where
  map : GMap
  dirt : Nat → Int
  locs : List (Int × Int)
  chargers : Nat → Bool
  x0 : Int
  y0 : Int

/-- vacuum.hpp:20-43 `State`. -/
structure State where
  loc : Nat
  ndirt : Int
  dirt : List Bool
  deriving DecidableEq

/-- vacuum.hpp:25-35 `eq`: `at` throws if the other vector is shorter. -/
def State.eqLoop (a b : List Bool) : List Nat → Outcome Bool
  | [] => .ok true
  | i :: is =>
    match a[i]?, b[i]? with
    | some x, some y => if x ≠ y then .ok false else eqLoop a b is
    | _, _ => .fatal

/-- vacuum.hpp:25-35 `eq`. -/
def State.eq (s o : State) : Outcome Bool :=
  if s.loc ≠ o.loc ∨ s.ndirt ≠ o.ndirt then .ok false else State.eqLoop s.dirt o.dirt (List.range s.dirt.length)

variable (I : Inst)

/-- vacuum.hpp:49-52: the first loop of `h`. -/
def firstDirty (dirt : List Bool) : Nat := dirt.findIdx id

/-- vacuum.hpp:59-71: the second loop of `h`, for the indices in the list; the accumulator is
`(minx, maxx, miny, maxy)`. -/
def hLoop (dirt : List Bool) : List Nat → Int × Int × Int × Int → Outcome (Int × Int × Int × Int)
  | [], b => .ok b
  | i :: is, (minx, maxx, miny, maxy) =>
    if dirt.getD i false = false then hLoop dirt is (minx, maxx, miny, maxy)
    else
      match I.locs[i]? with
      | none => .ub
      | some (x, y) =>
        hLoop dirt is (if x < minx then x else minx, if x > maxx then x else maxx,
          if y < miny then y else miny, if y > maxy then y else maxy)

/-- vacuum.hpp:49-74 `h`; reading `dirtLocs` out of range is `ub`. -/
def h (s : State) : Outcome Int :=
  match I.locs[firstDirty s.dirt]? with
  | none => .ub
  | some (x, y) =>
    (hLoop I s.dirt (List.range' (firstDirty s.dirt + 1) (s.dirt.length - (firstDirty s.dirt + 1)))
      (x, x, y, y)).map fun b => s.ndirt + (b.2.1 - b.1) + (b.2.2.2 - b.2.2.1)

/-- `h` on a machine where the read out of range yields some value: that value cancels, the result is `ndirt`. -/
def hRead (s : State) : Int :=
  match h I s with
  | .ok v => v
  | _ => s.ndirt

/-- vacuum.hpp:80-82 `isgoal`. -/
def isgoal (s : State) : Bool := decide (s.ndirt = 0)

/-- vacuum.hpp:14 -/
def Suck : Int := 4
/-- vacuum.hpp:15 -/
def Charge : Int := 5
/-- vacuum.hpp:16 -/
def Nop : Int := -1

/-- vacuum.hpp:89-91: `Suck` is applicable. -/
def cansuck (s : State) : Bool := decide (0 ≤ I.dirt s.loc) && s.dirt.getD (I.dirt s.loc).toNat false

/-- vacuum.hpp:84-113 `Operators`. -/
def operators (s : State) : List Int :=
  (if cansuck I s then [Suck] else []) ++
  ((List.range I.map.mvs.length).filter fun i =>
    match I.map.mvs[i]? with
    | some mv => decide (GridNav.ok I.map s.loc mv = .ok true)
    | none => false).map (fun i : Nat => (i : Int)) ++
  if I.chargers s.loc then [Charge] else []

/-- vacuum.hpp:121-145: the constructor of `Edge`: the state and `revop`. -/
def edge (s : State) (op : Int) : Outcome (State × Int) :=
  if op = Suck then
    if 0 ≤ I.dirt s.loc ∧ I.dirt s.loc < I.locs.length ∧ s.dirt.getD (I.dirt s.loc).toNat false = true then
      .ok (⟨s.loc, s.ndirt - 1, s.dirt.set (I.dirt s.loc).toNat false⟩, Nop)
    else .fatal
  else if op = Charge then .fatal
  else if 0 ≤ op ∧ op ≤ 3 then
    match I.map.mvs[op.toNat]?, GridNav.revop I.map op.toNat with
    | some mv, some j => .ok (⟨((s.loc : Int) + GridNav.delta I.map (mv.dx, mv.dy)).toNat, s.ndirt, s.dirt⟩, (j : Int))
    | _, _ => .ub
  else .fatal

/-- The state an edge leads to. -/
def val (o : Outcome (State × Int)) (s : State) : State × Int :=
  match o with
  | .ok p => p
  | _ => (s, Nop)

/-- The domain; every cost is 1 (vacuum.hpp:121). -/
def dom : Search.Dom State Int Int where
  ops s := operators I s
  app s op := (val (edge I s op) s).1
  cost _ _ := 1
  rev s op := (val (edge I s op) s).2
  nop := Nop
  goal s := isgoal s

/-- vacuum.cc:67-73 `initialstate`. -/
def initialstate : State := ⟨(I.y0 * I.map.w + I.x0).toNat, I.locs.length, List.replicate I.locs.length true⟩

/-! ## Reading the map -/

/-- vacuum.cc:18-42: the characters of the map. -/
inductive Cell where
  | wall | dirt | start | charger | floor | other
  deriving DecidableEq

/-- vacuum.cc:18-42: the body of the loop for the cell at `(x, y)`. -/
def loadCell (I : Inst) (x y : Nat) : Cell → Outcome Inst
  | .wall => .ok { I with map := { I.map with flags := Function.update I.map.flags (y * I.map.w + x) GridNav.OutOfBounds } }
  | .dirt => .ok { I with
      dirt := Function.update I.dirt (y * I.map.w + x) I.locs.length
      locs := I.locs ++ [((x : Int), (y : Int))] }
  | .start => .ok { I with
      x0 := x
      y0 := y }
  | .charger => .ok { I with chargers := Function.update I.chargers (y * I.map.w + x) true }
  | .floor => .ok I
  | .other => .fatal

/-- vacuum.cc:15-46: the loop, for the cells in the list. -/
def loadLoop (c : Nat → Nat → Cell) : List (Nat × Nat) → Inst → Outcome Inst
  | [], I => .ok I
  | (x, y) :: ps, I => (loadCell I x y (c x y)).bind fun I => loadLoop c ps I

/-- vacuum.cc:15-16: the cells in the order they are read. -/
def cells (w h : Nat) : List (Nat × Nat) :=
  (List.range' 1 h).flatMap fun y => (List.range' 1 w).map fun x => (x, y)

/-- vacuum.cc:6-51: the constructor, from the characters on. -/
def load (w h : Nat) (c : Nat → Nat → Cell) : Outcome Inst :=
  (loadLoop c (cells w h) ⟨⟨w + 2, h + 2, setsize w h, fourway, false⟩, fun _ => -1, [], fun _ => false, -1, -1⟩).bind
    fun I => if I.x0 < 0 ∨ I.y0 < 0 then .fatal else .ok I

/-! ## Specification -/

/-- There is dirt left at the point. -/
def Dirty (s : State) (p : Int × Int) : Prop := ∃ i : Nat, s.dirt[i]? = some true ∧ I.locs[i]? = some p

/-- `w` is the distance between the least and the largest number satisfying `P`. -/
def IsSpan (P : Int → Prop) (w : Int) : Prop := ∃ a b, P a ∧ P b ∧ w = b - a ∧ ∀ c, P c → a ≤ c ∧ c ≤ b

/-- Well-formed instances. -/
structure InstOk : Prop where
  map : MapOk I.map
  four : I.map.mvs = fourway
  dirt : ∀ l, ∀ i : Nat, Interior I.map l → I.dirt l = i → I.locs[i]? = some (coord I.map l)

/-- Well-formed states: the number of dirty places is right. -/
structure SOk (s : State) : Prop where
  inside : Interior I.map s.loc
  len : s.dirt.length = I.locs.length
  cnt : s.ndirt = s.dirt.count true

variable {I}

/-! ## Spans -/

theorem IsSpan.mono {P Q : Int → Prop} {w v : Int} (h : IsSpan P w) (h' : IsSpan Q v) (hPQ : ∀ c, P c → Q c) : w ≤ v := by
  obtain ⟨a, b, h1, h2, rfl, -⟩ := h
  obtain ⟨a', b', -, -, rfl, h6⟩ := h'
  have g1 := h6 a (hPQ _ h1)
  have g2 := h6 b (hPQ _ h2)
  omega

theorem IsSpan.unique {P : Int → Prop} {w v : Int} (h : IsSpan P w) (h' : IsSpan P v) : w = v :=
  le_antisymm (h.mono h' fun _ h => h) (h'.mono h fun _ h => h)

theorem IsSpan.nonneg {P : Int → Prop} {w : Int} (h : IsSpan P w) : 0 ≤ w := by
  obtain ⟨a, b, h1, h2, rfl, h4⟩ := h
  have := h4 a h1
  omega

/-- Minimum and maximum of a list. -/
def lo (a : Int) (l : List Int) : Int := l.foldl (fun m x => if x < m then x else m) a
/-- see `lo` -/
def hi (a : Int) (l : List Int) : Int := l.foldl (fun m x => if x > m then x else m) a

theorem lo_spec (l : List Int) : ∀ a, lo a l ∈ a :: l ∧ ∀ b ∈ a :: l, lo a l ≤ b := by
  induction l with
  | nil => intro a; simp [lo]
  | cons x l ih =>
    intro a
    have e : lo a (x :: l) = lo (if x < a then x else a) l := rfl
    obtain ⟨z, hz⟩ : ∃ z, z = if x < a then x else a := ⟨_, rfl⟩
    rw [e, ← hz]
    have hz1 : z = x ∨ z = a := by rw [hz]; split <;> simp
    have hz2 : z ≤ x ∧ z ≤ a := by rw [hz]; split <;> omega
    obtain ⟨h1, h2⟩ := ih z
    constructor
    · rcases List.mem_cons.1 h1 with h | h
      · rw [h]; rcases hz1 with h | h <;> rw [h] <;> simp
      · exact List.mem_cons_of_mem _ (List.mem_cons_of_mem _ h)
    · intro b hb
      have h3 := h2 _ (List.mem_cons_self ..)
      rcases List.mem_cons.1 hb with rfl | hb
      · omega
      · rcases List.mem_cons.1 hb with rfl | hb
        · omega
        · exact h2 b (List.mem_cons_of_mem _ hb)

theorem hi_spec (l : List Int) : ∀ a, hi a l ∈ a :: l ∧ ∀ b ∈ a :: l, b ≤ hi a l := by
  induction l with
  | nil => intro a; simp [hi]
  | cons x l ih =>
    intro a
    have e : hi a (x :: l) = hi (if x > a then x else a) l := rfl
    obtain ⟨z, hz⟩ : ∃ z, z = if x > a then x else a := ⟨_, rfl⟩
    rw [e, ← hz]
    have hz1 : z = x ∨ z = a := by rw [hz]; split <;> simp
    have hz2 : z ≥ x ∧ z ≥ a := by rw [hz]; split <;> omega
    obtain ⟨h1, h2⟩ := ih z
    constructor
    · rcases List.mem_cons.1 h1 with h | h
      · rw [h]; rcases hz1 with h | h <;> rw [h] <;> simp
      · exact List.mem_cons_of_mem _ (List.mem_cons_of_mem _ h)
    · intro b hb
      have h3 := h2 _ (List.mem_cons_self ..)
      rcases List.mem_cons.1 hb with rfl | hb
      · omega
      · rcases List.mem_cons.1 hb with rfl | hb
        · omega
        · exact h2 b (List.mem_cons_of_mem _ hb)

theorem span_list (a : Int) (l : List Int) : IsSpan (· ∈ a :: l) (hi a l - lo a l) :=
  ⟨_, _, (lo_spec l a).1, (hi_spec l a).1, rfl, fun c hc => ⟨(lo_spec l a).2 c hc, (hi_spec l a).2 c hc⟩⟩

/-- Moving one of the points by one changes the span by at most one. -/
theorem IsSpan.shift {a a' : Int} {l : List Int} {w v : Int} (h : IsSpan (· ∈ a :: l) w) (h' : IsSpan (· ∈ a' :: l) v)
    {k : Int} (h1 : a ≤ a' + k) (h2 : a' ≤ a + k) (hk : 0 ≤ k) : w ≤ v + k := by
  obtain ⟨p, q, g1, g2, rfl, -⟩ := h
  obtain ⟨p', q', f1, f2, rfl, g6⟩ := h'
  have e1 := g6 a' (List.mem_cons_self ..)
  rcases List.mem_cons.1 g1 with rfl | g1
  · rcases List.mem_cons.1 g2 with rfl | g2
    · omega
    · have := g6 q (List.mem_cons_of_mem _ g2)
      omega
  · have := g6 p (List.mem_cons_of_mem _ g1)
    rcases List.mem_cons.1 g2 with rfl | g2
    · omega
    · have := g6 q (List.mem_cons_of_mem _ g2)
      omega

/-! ## The heuristic -/

/-- The dirty points among the indices of the list. -/
def pts (I : Inst) (dirt : List Bool) (is : List Nat) : List (Int × Int) :=
  is.filterMap fun i => if dirt[i]? = some true then I.locs[i]? else none

theorem hLoop_ok (s : State) (hl : s.dirt.length = I.locs.length) : ∀ (is : List Nat) (a b c d : Int),
    (∀ i ∈ is, i < s.dirt.length) →
    hLoop I s.dirt is (a, b, c, d) = .ok (lo a ((pts I s.dirt is).map Prod.fst), hi b ((pts I s.dirt is).map Prod.fst),
      lo c ((pts I s.dirt is).map Prod.snd), hi d ((pts I s.dirt is).map Prod.snd))
  | [], a, b, c, d, _ => rfl
  | i :: is, a, b, c, d, hi => by
    have h1 := hi i (List.mem_cons_self ..)
    have ih := fun a b c d => hLoop_ok s hl is a b c d fun j hj => hi j (List.mem_cons_of_mem _ hj)
    have h2 : i < I.locs.length := by omega
    unfold hLoop
    rw [List.getD_eq_getElem?_getD, List.getElem?_eq_getElem h1, Option.getD_some]
    cases hb : s.dirt[i]
    · rw [if_pos rfl, ih]
      have e : pts I s.dirt (i :: is) = pts I s.dirt is := by
        unfold pts
        rw [List.filterMap_cons, List.getElem?_eq_getElem h1, hb]
        rfl
      rw [e]
    · rw [if_neg (by simp), List.getElem?_eq_getElem h2]
      dsimp only
      rw [ih]
      have e : pts I s.dirt (i :: is) = I.locs[i] :: pts I s.dirt is := by
        unfold pts
        rw [List.filterMap_cons, List.getElem?_eq_getElem h1, hb, if_pos rfl, List.getElem?_eq_getElem h2]
      rw [e]
      rfl

/-- All the dirty points. -/
def allpts (I : Inst) (s : State) : List (Int × Int) := pts I s.dirt (List.range s.dirt.length)

theorem mem_allpts {s : State} {p : Int × Int} : p ∈ allpts I s ↔ Dirty I s p := by
  unfold allpts pts Dirty
  rw [List.mem_filterMap]
  constructor
  · rintro ⟨i, -, h⟩
    split at h
    · rename_i hd
      exact ⟨i, hd, h⟩
    · exact absurd h (by simp)
  · rintro ⟨i, h1, h2⟩
    have := (List.getElem?_eq_some_iff.1 h1).1
    exact ⟨i, List.mem_range.2 this, by rw [if_pos h1, h2]⟩

theorem firstDirty_spec {s : State} (hc : true ∈ s.dirt) : ∃ h : firstDirty s.dirt < s.dirt.length,
    s.dirt[firstDirty s.dirt] = true ∧ ∀ j (hj : j < firstDirty s.dirt), s.dirt[j]'(hj.trans h) = false := by
  unfold firstDirty
  have h1 : s.dirt.findIdx id < s.dirt.length := List.findIdx_lt_length_of_exists ⟨true, hc, rfl⟩
  refine ⟨h1, List.findIdx_getElem (w := h1), fun j hj => ?_⟩
  have := List.not_of_lt_findIdx hj
  simpa using this

/-- The value of the heuristic while there is dirt. -/
theorem h_ok {s : State} (hl : s.dirt.length = I.locs.length) (hc : true ∈ s.dirt) :
    ∃ wx wy, h I s = .ok (s.ndirt + wx + wy) ∧ IsSpan (fun x => ∃ y, Dirty I s (x, y)) wx ∧
      IsSpan (fun y => ∃ x, Dirty I s (x, y)) wy := by
  obtain ⟨h1, h2, h3⟩ := firstDirty_spec hc
  have hlt : firstDirty s.dirt < I.locs.length := by omega
  unfold h
  rw [List.getElem?_eq_getElem hlt]
  dsimp only
  rw [hLoop_ok s hl _ _ _ _ _ (by
    intro i hi
    rw [List.mem_range'_1] at hi
    omega), Outcome.map_ok]
  generalize hP : pts I s.dirt _ = P
  have hmem : ∀ p, p ∈ I.locs[firstDirty s.dirt] :: P ↔ Dirty I s p := by
    intro p
    rw [← hP]
    unfold pts
    rw [List.mem_cons, List.mem_filterMap]
    constructor
    · rintro (rfl | ⟨i, hi, h⟩)
      · exact ⟨_, by rw [List.getElem?_eq_getElem h1, h2], List.getElem?_eq_getElem hlt⟩
      · split at h
        · rename_i hd
          exact ⟨i, hd, h⟩
        · exact absurd h (by simp)
    · rintro ⟨i, g1, g2⟩
      obtain ⟨hi, g3⟩ := List.getElem?_eq_some_iff.1 g1
      rcases lt_trichotomy i (firstDirty s.dirt) with h | rfl | h
      · rw [h3 i h] at g3
        exact absurd g3 (by simp)
      · left
        rw [List.getElem?_eq_getElem hlt] at g2
        exact (Option.some.inj g2).symm
      · right
        refine ⟨i, ?_, by rw [if_pos g1, g2]⟩
        rw [List.mem_range'_1]
        omega
  refine ⟨_, _, rfl, ?_, ?_⟩
  · have := span_list (I.locs[firstDirty s.dirt]).1 (P.map Prod.fst)
    rw [← List.map_cons] at this
    have e : (fun x => ∃ y, Dirty I s (x, y)) = (· ∈ (I.locs[firstDirty s.dirt] :: P).map Prod.fst) := by
      funext x
      simp only [List.mem_map, hmem, Prod.exists, exists_eq_right, eq_iff_iff, exists_and_right]
    rw [e]
    exact this
  · have := span_list (I.locs[firstDirty s.dirt]).2 (P.map Prod.snd)
    rw [← List.map_cons] at this
    have e : (fun y => ∃ x, Dirty I s (x, y)) = (· ∈ (I.locs[firstDirty s.dirt] :: P).map Prod.snd) := by
      funext x
      simp only [List.mem_map, hmem, Prod.exists, exists_eq_right, eq_iff_iff]
    rw [e]
    exact this

theorem h_ub {s : State} (hl : s.dirt.length = I.locs.length) (hc : true ∉ s.dirt) : h I s = .ub := by
  have : firstDirty s.dirt = s.dirt.length := by
    unfold firstDirty
    rw [List.findIdx_eq_length]
    intro x hx
    cases x
    · rfl
    · exact absurd hx hc
  unfold h
  rw [this, hl, List.getElem?_eq_none (le_refl _)]

/-! ## The actions -/

theorem mem_ops {s : State} {op : Int} : op ∈ (dom I).ops s ↔
    (op = Suck ∧ cansuck I s = true) ∨
    (0 ≤ op ∧ ∃ mv, I.map.mvs[op.toNat]? = some mv ∧ GridNav.ok I.map s.loc mv = .ok true) ∨
    (op = Charge ∧ I.chargers s.loc = true) := by
  have := GridNav.mem_ops (m := I.map) (finish := 0) (loc := s.loc) (op := op)
  show op ∈ operators I s ↔ _
  unfold operators
  rw [List.mem_append, List.mem_append, or_assoc]
  refine or_congr ?_ (or_congr this ?_)
  · cases cansuck I s <;> simp
  · cases I.chargers s.loc <;> simp

theorem getD_true {l : List Bool} {i : Nat} (h : l.getD i false = true) : l[i]? = some true := by
  rw [List.getD_eq_getElem?_getD] at h
  cases hl : l[i]? with
  | none => rw [hl] at h; exact absurd h (by simp)
  | some b => rw [hl] at h; rw [← h]; rfl

theorem count_set_false : ∀ {l : List Bool} {i : Nat}, l[i]? = some true →
    l.count true = (l.set i false).count true + 1
  | [], i, h => absurd h (by simp)
  | b :: l, 0, h => by
    cases b
    · exact absurd h (by simp)
    · simp
  | b :: l, i + 1, h => by
    have := count_set_false (l := l) (i := i) (by simpa using h)
    simp only [List.set_cons_succ, List.count_cons, this]
    omega

/-- What sucking does. -/
theorem suck_ok (hI : InstOk I) {s : State} (hs : SOk I s) (h : cansuck I s = true) :
    ∃ i : Nat, I.dirt s.loc = i ∧ s.dirt[i]? = some true ∧ I.locs[i]? = some (coord I.map s.loc) ∧
      edge I s Suck = .ok (⟨s.loc, s.ndirt - 1, s.dirt.set i false⟩, Nop) := by
  unfold cansuck at h
  rw [Bool.and_eq_true, decide_eq_true_eq] at h
  obtain ⟨i, hi⟩ := Int.eq_ofNat_of_zero_le h.1
  have h2 := h.2
  rw [hi, Int.toNat_natCast] at h2
  have h3 := hI.dirt _ _ hs.inside hi
  have h4 := (List.getElem?_eq_some_iff.1 h3).1
  refine ⟨i, hi, getD_true h2, h3, ?_⟩
  unfold edge
  rw [if_pos rfl, hi, Int.toNat_natCast, if_pos ⟨by omega, by exact_mod_cast h4, h2⟩]

/-- What moving does. -/
theorem move_ok (hI : InstOk I) {s : State} (hs : SOk I s) {op : Int} {mv : Move} (h0 : 0 ≤ op)
    (h1 : I.map.mvs[op.toNat]? = some mv) (h2 : GridNav.ok I.map s.loc mv = .ok true) :
    ∃ l j, edge I s op = .ok (⟨l, s.ndirt, s.dirt⟩, (j : Nat)) ∧ Interior I.map l ∧
      coord I.map l = ((coord I.map s.loc).1 + mv.dx, (coord I.map s.loc).2 + mv.dy) ∧
      GridNav.revop I.map op.toNat = some j ∧
      l = (GridNav.dom I.map 0).app s.loc op ∧ op ∈ (GridNav.dom I.map 0).ops s.loc := by
  have hmem := GridNav.mem_ops (m := I.map) (finish := 0) (loc := s.loc) (op := op) |>.2 ⟨h0, mv, h1, h2⟩
  obtain ⟨mv', g1, -, -, g4, g5, -⟩ := GridNav.app_ok hI.map hs.inside hmem
  obtain rfl : mv = mv' := Option.some.inj (h1.symm.trans g1)
  obtain ⟨j, -, r1, -⟩ := GridNav.revop_ok hI.map h1
  have hlt := (List.getElem?_eq_some_iff.1 h1).1
  rw [hI.four] at hlt
  have hlt4 : op.toNat < 4 := hlt
  refine ⟨(GridNav.dom I.map 0).app s.loc op, j, ?_, g4, g5, r1, rfl, hmem⟩
  unfold edge
  rw [if_neg (by unfold Suck; omega), if_neg (by unfold Charge; omega), if_pos ⟨h0, by omega⟩, h1, r1]
  simp only [GridNav.dom, h1]

theorem sok_app (hI : InstOk I) (hch : ∀ l, I.chargers l = false) (s : State) (hs : SOk I s) (op : Int)
    (ho : op ∈ (dom I).ops s) : SOk I ((dom I).app s op) := by
  rcases mem_ops.1 ho with ⟨rfl, h⟩ | ⟨h0, mv, h1, h2⟩ | ⟨-, h⟩
  · obtain ⟨i, g1, g2, g3, g4⟩ := suck_ok hI hs h
    simp only [dom, g4, val]
    refine ⟨hs.inside, by rw [List.length_set]; exact hs.len, ?_⟩
    have := count_set_false g2
    have hcnt := hs.cnt
    dsimp only
    omega
  · obtain ⟨l, j, g1, g2, -⟩ := move_ok hI hs h0 h1 h2
    simp only [dom, g1, val]
    exact ⟨g2, hs.len, hs.cnt⟩
  · rw [hch] at h
    exact absurd h (by simp)

/-- The potential: dirt left, and the box around the dirt and the vacuum. -/
def pot (I : Inst) (s : State) : Int :=
  s.ndirt +
  (hi (coord I.map s.loc).1 ((allpts I s).map Prod.fst) - lo (coord I.map s.loc).1 ((allpts I s).map Prod.fst)) +
  (hi (coord I.map s.loc).2 ((allpts I s).map Prod.snd) - lo (coord I.map s.loc).2 ((allpts I s).map Prod.snd))

theorem pot_consistent (hI : InstOk I) (hch : ∀ l, I.chargers l = false) (s : State) (hs : SOk I s) (op : Int)
    (ho : op ∈ (dom I).ops s) : pot I s ≤ (dom I).cost s op + pot I ((dom I).app s op) := by
  show pot I s ≤ 1 + pot I ((dom I).app s op)
  rcases mem_ops.1 ho with ⟨rfl, h⟩ | ⟨h0, mv, h1, h2⟩ | ⟨-, h⟩
  · obtain ⟨i, g1, g2, g3, g4⟩ := suck_ok hI hs h
    simp only [dom, g4, val]
    have hsub : ∀ p ∈ allpts I s, p = coord I.map s.loc ∨
        p ∈ allpts I ⟨s.loc, s.ndirt - 1, s.dirt.set i false⟩ := by
      intro p hp
      obtain ⟨j, k1, k2⟩ := mem_allpts.1 hp
      by_cases hij : i = j
      · subst hij
        rw [g3] at k2
        exact .inl (Option.some.inj k2).symm
      · refine .inr (mem_allpts.2 ⟨j, ?_, k2⟩)
        rw [List.getElem?_set_ne hij]
        exact k1
    have hx := (span_list (coord I.map s.loc).1 ((allpts I s).map Prod.fst)).mono (span_list (coord I.map s.loc).1
      ((allpts I ⟨s.loc, s.ndirt - 1, s.dirt.set i false⟩).map Prod.fst)) (by
        intro c hc
        rcases List.mem_cons.1 hc with rfl | hc
        · exact List.mem_cons_self ..
        · obtain ⟨p, hp, rfl⟩ := List.mem_map.1 hc
          rcases hsub p hp with rfl | hp
          · exact List.mem_cons_self ..
          · exact List.mem_cons_of_mem _ (List.mem_map_of_mem hp))
    have hy := (span_list (coord I.map s.loc).2 ((allpts I s).map Prod.snd)).mono (span_list (coord I.map s.loc).2
      ((allpts I ⟨s.loc, s.ndirt - 1, s.dirt.set i false⟩).map Prod.snd)) (by
        intro c hc
        rcases List.mem_cons.1 hc with rfl | hc
        · exact List.mem_cons_self ..
        · obtain ⟨p, hp, rfl⟩ := List.mem_map.1 hc
          rcases hsub p hp with rfl | hp
          · exact List.mem_cons_self ..
          · exact List.mem_cons_of_mem _ (List.mem_map_of_mem hp))
    unfold pot
    dsimp only
    omega
  · obtain ⟨l, j, g1, g2, g3, -⟩ := move_ok hI hs h0 h1 h2
    simp only [dom, g1, val]
    have hmem := List.mem_of_getElem? h1
    obtain ⟨-, hd4⟩ := GridNav.king_diag hI.map hmem
    obtain ⟨-, -, k1, k2, k3, k4⟩ := GridNav.mvs_king hI.map hmem
    dsimp only at k1 k2 k3 k4
    obtain ⟨-, hd⟩ := hd4 (by rw [hI.four]; exact le_refl _)
    have e : allpts I ⟨l, s.ndirt, s.dirt⟩ = allpts I s := rfl
    have e1 : (coord I.map l).1 = (coord I.map s.loc).1 + mv.dx := by rw [g3]
    have e2 : (coord I.map l).2 = (coord I.map s.loc).2 + mv.dy := by rw [g3]
    have hx := (span_list (coord I.map s.loc).1 ((allpts I s).map Prod.fst)).shift
      (span_list (coord I.map l).1 ((allpts I s).map Prod.fst)) (k := |mv.dx|)
      (by rcases abs_cases mv.dx with h | h <;> omega) (by rcases abs_cases mv.dx with h | h <;> omega) (abs_nonneg _)
    have hy := (span_list (coord I.map s.loc).2 ((allpts I s).map Prod.snd)).shift
      (span_list (coord I.map l).2 ((allpts I s).map Prod.snd)) (k := |mv.dy|)
      (by rcases abs_cases mv.dy with h | h <;> omega) (by rcases abs_cases mv.dy with h | h <;> omega) (abs_nonneg _)
    have hsum : |mv.dx| + |mv.dy| ≤ 1 := by
      rcases abs_cases mv.dx with h | h <;> rcases abs_cases mv.dy with h' | h' <;> omega
    unfold pot
    dsimp only
    rw [e]
    omega
  · rw [hch] at h
    exact absurd h (by simp)

theorem pot_goal {s : State} (hs : SOk I s) (hg : isgoal s = true) : pot I s = 0 := by
  unfold isgoal at hg
  rw [decide_eq_true_eq] at hg
  have hc : true ∉ s.dirt := by
    have := hs.cnt
    rw [← List.count_eq_zero]
    omega
  have e : allpts I s = [] := by
    rw [List.eq_nil_iff_forall_not_mem]
    intro p hp
    obtain ⟨i, h1, -⟩ := mem_allpts.1 hp
    exact hc (List.mem_of_getElem? h1)
  unfold pot
  rw [e, hg]
  simp [lo, hi]

theorem h_le_pot {s : State} (hs : SOk I s) {v : Int} (hv : h I s = .ok v) : v ≤ pot I s := by
  have hc : true ∈ s.dirt := by
    by_contra hc
    rw [h_ub hs.len hc] at hv
    exact absurd hv (by simp)
  obtain ⟨wx, wy, h1, h2, h3⟩ := h_ok hs.len hc
  obtain rfl : s.ndirt + wx + wy = v := Outcome.ok.inj (h1.symm.trans hv)
  have hx := h2.mono (span_list (coord I.map s.loc).1 ((allpts I s).map Prod.fst)) (by
    rintro x ⟨y, hd⟩
    exact List.mem_cons_of_mem _ (List.mem_map.2 ⟨_, mem_allpts.2 hd, rfl⟩))
  have hy := h3.mono (span_list (coord I.map s.loc).2 ((allpts I s).map Prod.snd)) (by
    rintro y ⟨x, hd⟩
    exact List.mem_cons_of_mem _ (List.mem_map.2 ⟨_, mem_allpts.2 hd, rfl⟩))
  unfold pot
  omega

/-! ## Reading the map -/

theorem coord_index {m : GMap} {x y : Nat} (hx : x < m.w) : coord m (y * m.w + x) = ((x : Int), (y : Int)) := by
  unfold coord
  rw [Nat.mul_comm, Nat.mul_add_mod, Nat.mod_eq_of_lt hx, Nat.mul_add_div (by omega), Nat.div_eq_of_lt hx, Nat.add_zero]

theorem interior_index {m : GMap} {x y : Nat} (hx : 1 ≤ x) (hx' : x + 2 ≤ m.w) (hy : 1 ≤ y) (hy' : y + 2 ≤ m.h) :
    Interior m (y * m.w + x) := by
  rw [GridNav.interior_iff, coord_index (by omega)]
  dsimp only
  omega

/-- What holds after some cells have been read. -/
structure LoadInv (w h : Nat) (c : Nat → Nat → Cell) (done : List (Nat × Nat)) (I : Inst) : Prop where
  wd : I.map.w = w + 2
  ht : I.map.h = h + 2
  four : I.map.mvs = fourway
  border : ∀ loc, loc < I.map.w * I.map.h → ¬ Interior I.map loc → I.map.flags loc = GridNav.OutOfBounds
  dirt : ∀ l, ∀ i : Nat, I.dirt l = i → I.locs[i]? = some (coord I.map l)
  locs : ∀ p, p ∈ I.locs ↔ ∃ q ∈ done, c q.1 q.2 = .dirt ∧ p = ((q.1 : Int), (q.2 : Int))
  chg : (∀ q ∈ done, c q.1 q.2 ≠ .charger) → ∀ l, I.chargers l = false
  walls : ∀ x y, 1 ≤ x → x ≤ w → I.map.flags (y * (w + 2) + x) = GridNav.OutOfBounds → 1 ≤ y → y ≤ h →
    c x y = .wall
  start : (I.x0 = -1 ∧ I.y0 = -1) ∨ ∃ q ∈ done, c q.1 q.2 = .start ∧ I.x0 = q.1 ∧ I.y0 = q.2

theorem interior_congr {m m' : GMap} (hw : m.w = m'.w) (hh : m.h = m'.h) (l : Nat) : Interior m l ↔ Interior m' l := by
  unfold Interior
  rw [hw, hh]

theorem loadCell_ok {w h : Nat} {c : Nat → Nat → Cell} {done : List (Nat × Nat)} {I I' : Inst}
    (hI : LoadInv w h c done I) {x y : Nat} (hx : 1 ≤ x) (hx' : x ≤ w) (hy : 1 ≤ y) (hy' : y ≤ h)
    (hl : loadCell I x y (c x y) = .ok I') : LoadInv w h c (done ++ [(x, y)]) I' := by
  have hmono : ∀ {P : Nat × Nat → Prop}, (∃ q ∈ done, P q) → ∃ q ∈ done ++ [(x, y)], P q :=
    fun ⟨q, h1, h2⟩ => ⟨q, List.mem_append_left _ h1, h2⟩
  have hlocs : c x y ≠ .dirt → ∀ p, (p ∈ I.locs ↔ ∃ q ∈ done ++ [(x, y)], c q.1 q.2 = .dirt ∧
      p = ((q.1 : Int), (q.2 : Int))) := by
    intro hne p
    rw [hI.locs]
    refine ⟨hmono, ?_⟩
    rintro ⟨q, h1, h2, h3⟩
    rcases List.mem_append.1 h1 with h1 | h1
    · exact ⟨q, h1, h2, h3⟩
    · obtain rfl := List.mem_singleton.1 h1
      exact absurd h2 hne
  have hchg : (∀ q ∈ done ++ [(x, y)], c q.1 q.2 ≠ .charger) → ∀ l, I.chargers l = false :=
    fun h => hI.chg fun q hq => h q (List.mem_append_left _ hq)
  have hstart : (I.x0 = -1 ∧ I.y0 = -1) ∨ ∃ q ∈ done ++ [(x, y)], c q.1 q.2 = .start ∧ I.x0 = q.1 ∧ I.y0 = q.2 :=
    hI.start.imp id hmono
  have hint : Interior I.map (y * I.map.w + x) := interior_index hx (by rw [hI.wd]; omega) hy (by rw [hI.ht]; omega)
  cases hc : c x y <;> rw [hc] at hl <;> simp only [loadCell] at hl
  · -- wall
    cases hl
    refine ⟨hI.wd, hI.ht, hI.four, ?_, hI.dirt, hlocs (by rw [hc]; decide), hchg, ?_, hstart⟩
    · intro loc h1 h2
      have h2' : ¬ Interior I.map loc := h2
      show Function.update _ _ _ _ = _
      rw [Function.update_apply]
      split
      · rfl
      · exact hI.border loc h1 h2'
    · intro x' y' h1 h2 h3 h4 h5
      have h3 : Function.update I.map.flags (y * I.map.w + x) GridNav.OutOfBounds (y' * (w + 2) + x') =
        GridNav.OutOfBounds := h3
      rw [Function.update_apply] at h3
      split at h3
      · rename_i he
        have e1 := coord_index (m := I.map) (x := x') (y := y') (by rw [hI.wd]; omega)
        have e2 := coord_index (m := I.map) (x := x) (y := y) (by rw [hI.wd]; omega)
        rw [hI.wd] at e1 e2 he
        rw [he, e2] at e1
        simp only [Prod.mk.injEq, Nat.cast_inj] at e1
        rw [← e1.1, ← e1.2, hc]
      · exact hI.walls x' y' h1 h2 h3 h4 h5
  · -- dirt
    cases hl
    refine ⟨hI.wd, hI.ht, hI.four, hI.border, ?_, ?_, hchg, hI.walls, hstart⟩
    · intro l i h
      have h : Function.update I.dirt (y * I.map.w + x) (I.locs.length : Int) l = i := h
      show (I.locs ++ [((x : Int), (y : Int))])[i]? = some (coord I.map l)
      rw [Function.update_apply] at h
      split at h
      · rename_i he
        obtain rfl : i = I.locs.length := by omega
        rw [List.getElem?_append_right (le_refl _), Nat.sub_self, he, coord_index (by rw [hI.wd]; omega)]
        rfl
      · have := hI.dirt l i h
        rw [List.getElem?_append_left (List.getElem?_eq_some_iff.1 this).1]
        exact this
    · intro p
      show p ∈ I.locs ++ [((x : Int), (y : Int))] ↔ _
      rw [List.mem_append, hI.locs, List.mem_singleton]
      constructor
      · rintro (h | rfl)
        · exact hmono h
        · exact ⟨(x, y), List.mem_append_right _ (List.mem_singleton.2 rfl), hc, rfl⟩
      · rintro ⟨q, h1, h2, h3⟩
        rcases List.mem_append.1 h1 with h1 | h1
        · exact .inl ⟨q, h1, h2, h3⟩
        · obtain rfl := List.mem_singleton.1 h1
          exact .inr h3
  · -- start
    cases hl
    exact ⟨hI.wd, hI.ht, hI.four, hI.border, hI.dirt, hlocs (by rw [hc]; decide), hchg, hI.walls,
      .inr ⟨(x, y), List.mem_append_right _ (List.mem_singleton.2 rfl), hc, rfl, rfl⟩⟩
  · -- charger
    cases hl
    refine ⟨hI.wd, hI.ht, hI.four, hI.border, hI.dirt, hlocs (by rw [hc]; decide), fun h => ?_, hI.walls, hstart⟩
    exact absurd hc (h (x, y) (List.mem_append_right _ (List.mem_singleton.2 rfl)))
  · cases hl
    exact ⟨hI.wd, hI.ht, hI.four, hI.border, hI.dirt, hlocs (by rw [hc]; decide), hchg, hI.walls, hstart⟩
  · exact absurd hl (by simp)

theorem loadLoop_ok {w h : Nat} {c : Nat → Nat → Cell} : ∀ (ps done : List (Nat × Nat)) {I I' : Inst},
    LoadInv w h c done I → (∀ p ∈ ps, 1 ≤ p.1 ∧ p.1 ≤ w ∧ 1 ≤ p.2 ∧ p.2 ≤ h) →
    loadLoop c ps I = .ok I' → LoadInv w h c (done ++ ps) I'
  | [], done, I, I', hI, _, hl => by
    cases hl
    rwa [List.append_nil]
  | (x, y) :: ps, done, I, I', hI, hp, hl => by
    unfold loadLoop at hl
    obtain ⟨J, h1, h2⟩ := Outcome.bind_eq_ok.1 hl
    obtain ⟨p1, p2, p3, p4⟩ := hp (x, y) (List.mem_cons_self ..)
    have := loadLoop_ok ps (done ++ [(x, y)]) (loadCell_ok hI p1 p2 p3 p4 h1)
      (fun p hq => hp p (List.mem_cons_of_mem _ hq)) h2
    rwa [List.append_assoc, List.singleton_append] at this

theorem mem_cells {w h : Nat} {p : Nat × Nat} : p ∈ cells w h ↔ 1 ≤ p.1 ∧ p.1 ≤ w ∧ 1 ≤ p.2 ∧ p.2 ≤ h := by
  unfold cells
  simp only [List.mem_flatMap, List.mem_range'_1, List.mem_map]
  constructor
  · rintro ⟨y, hy, x, hx, rfl⟩
    dsimp only
    omega
  · intro hp
    exact ⟨p.2, by omega, p.1, by omega, rfl⟩

theorem load_inv {w h : Nat} {c : Nat → Nat → Cell} {I : Inst} (hl : load w h c = .ok I) :
    LoadInv w h c (cells w h) I ∧ I.x0 ≠ -1 := by
  unfold load at hl
  obtain ⟨J, h1, h2⟩ := Outcome.bind_eq_ok.1 hl
  split at h2
  · exact absurd h2 (by simp)
  · rename_i hne
    cases h2
    refine ⟨?_, by omega⟩
    have := loadLoop_ok (cells w h) [] (I := ⟨⟨w + 2, h + 2, setsize w h, fourway, false⟩, fun _ => -1, [],
      fun _ => false, -1, -1⟩) ?_ (fun p hp => mem_cells.1 hp) h1
    · rwa [List.nil_append] at this
    · refine ⟨rfl, rfl, rfl, ?_, ?_, ?_, fun _ _ => rfl, ?_, .inl ⟨rfl, rfl⟩⟩
      · intro loc h1 h2
        show setsize w h loc = _
        rw [GridNav.setsize_val _ _ _ h1]
        exact if_neg h2
      · intro l i hi
        have : (-1 : Int) = i := hi
        omega
      · intro p
        simp
      · intro x y h1 h2 h3 h4 h5
        exfalso
        have hin : Interior ⟨w + 2, h + 2, setsize w h, fourway, false⟩ (y * (w + 2) + x) :=
          interior_index (m := ⟨w + 2, h + 2, setsize w h, fourway, false⟩) h1 (by dsimp only; omega) h4 (by dsimp only; omega)
        have h3 : setsize w h (y * (w + 2) + x) = GridNav.OutOfBounds := h3
        rw [GridNav.setsize_val _ _ _ (GridNav.coord_lt hin)] at h3
        have := (if_pos hin).symm.trans h3
        exact absurd this (by decide)

end Verif.Vacuum
