import Verif.Arr
import Verif.Utils.SafeOps
import Verif.Search.Heuristic
import Mathlib.Data.Fintype.Fin
import Mathlib.Algebra.BigOperators.Fin
import Mathlib.Algebra.BigOperators.Group.Finset.Basic
import Mathlib.Algebra.Order.BigOperators.Group.Finset
import Mathlib.Algebra.Order.Ring.Int
import Mathlib.Data.Nat.Bitwise
import Mathlib.Data.Nat.Digits.Defs
import Mathlib.Tactic.Ring
import Mathlib.Tactic.Linarith

/-!
# Model of tiles/tiles.cc, tiles/mdist.hpp, tiles/mdist.cc, tiles/packed.hpp

`W` and `H` are the compile-time `Width` and `Height`; `W * H` is `Ntiles`.  Costs and table entries are integers (they
are at most `Ntiles * (W + H)`, so the unsigned subtraction in `initincr` converted to `int` gives the true difference).
Table entries that the constructors never write (`md[0]`, `incr[t][nw][old]` for cells that are not neighbours) are
indeterminate in C++; reading them is `ub` here.
-/

namespace Verif.Tiles

open Verif.Arr

/-- tiles.cc:61-73 `initops`: the contents of `ops[i].mvs[0 .. n-1]`. -/
def mvs (W H i : Nat) : List Nat :=
  (if W ≤ i then [i - W] else []) ++ (if 0 < i % W then [i - 1] else []) ++
  (if i % W < W - 1 then [i + 1] else []) ++ (if i < W * H - W then [i + W] else [])

/-- mdist.cc:27-35: the value stored in `md[t][i]` when the goal position of `t` is `g`. -/
def mdval (W g i : Nat) : Int :=
  |((i / W : Nat) : Int) - ((g / W : Nat) : Int)| + |((i % W : Nat) : Int) - ((g % W : Nat) : Int)|

variable {W H : Nat}

/-- Reading `md[t][i]` after `initmd`, mdist.cc:26-37. -/
def md (goalpos : Fin (W * H) → Nat) (t i : Nat) : Outcome Int :=
  if 1 ≤ t ∧ i < W * H then (rd goalpos t).map fun g => mdval W g i else .ub

/-- Reading `incr[t][nw][old]` after `initincr`, mdist.cc:39-49. -/
def incr (goalpos : Fin (W * H) → Nat) (t nw old : Nat) : Outcome Int :=
  if nw < W * H ∧ old ∈ mvs W H nw then
    (md goalpos t old).bind fun a => (md goalpos t nw).map fun b => a - b
  else .ub

/-- mdist.hpp:13-28 `State`. -/
structure State (n : Nat) where
  ts : Fin n → Nat
  b : Nat
  h : Int
  deriving DecidableEq

/-- mdist.hpp:14-22 `operator==`. -/
def State.beq {n : Nat} (s o : State n) : Bool :=
  if s.b ≠ o.b then false else decide (∀ i : Fin n, ¬ (s.ts i ≠ o.ts i ∧ i.val ≠ s.b))

/-- mdist.cc:14-24: the loop of `initialstate`; the blank position is indeterminate (`none`) until a 0 is seen. -/
def initLoop (goalpos init : Fin (W * H) → Nat) : List Nat → Option Nat → Int → Outcome (Option Nat × Int)
  | [], b, h => .ok (b, h)
  | i :: is, b, h =>
    (rd init i).bind fun t =>
      if t = 0 then initLoop goalpos init is (some i) h
      else (md goalpos t i).bind fun m => initLoop goalpos init is b (h + m)

/-- mdist.cc:13-25 `initialstate`. -/
def initialstate (goalpos init : Fin (W * H) → Nat) : Outcome (State (W * H)) :=
  (initLoop goalpos init (List.range (W * H)) none 0).bind fun r =>
    match r.1 with
    | some b => .ok ⟨init, b, r.2⟩
    | none => .ub

/-- tiles.hpp:22: the operator `Ident`. -/
def ident : Int := -2

/-- mdist.hpp:67-79: the constructor of `Edge`; the new state and `revop`. -/
def edge (goalpos : Fin (W * H) → Nat) (s : State (W * H)) (op : Int) : Outcome (State (W * H) × Int) :=
  if op = ident then .ok (s, ident)
  else if op < 0 then .ub
  else
    (rd s.ts op.toNat).bind fun t => (wr s.ts s.b t).bind fun ts =>
      (incr goalpos t op.toNat s.b).map fun x => (⟨ts, op.toNat, s.h + x⟩, (s.b : Int))

/-- mdist.hpp:81-87: the destructor of `Edge`. -/
def undo (s : State (W * H)) (revop : Int) (oldh : Int) : Outcome (State (W * H)) :=
  if revop = ident then .ok s
  else if revop < 0 then .ub
  else (rd s.ts revop.toNat).bind fun t => (wr s.ts s.b t).map fun ts => ⟨ts, revop.toNat, oldh⟩

/-- packed.hpp:54-58 `PackedTiles64::pack`: the loop body, on 64-bit words. -/
def packStep {n : Nat} (ts : Fin n → Nat) (w : Outcome Nat) (i : Nat) : Outcome Nat :=
  w.bind fun w => (rd ts i).map fun t => (w <<< 4 % 2 ^ 64) ||| t

/-- packed.hpp:54-58 `PackedTiles64::pack`. -/
def packWord {n : Nat} (ts : Fin n → Nat) : Outcome Nat := (List.range n).foldl (packStep ts) (.ok 0)

/-- mdist.hpp:94-97 `pack`. -/
def pack {n : Nat} (s : State n) : Outcome Nat := (wr s.ts s.b 0).bind packWord

/-- packed.hpp:73-88 `unpack_md`: the loop; `i + 1` iterations remain, for positions `i`, ..., 0. -/
def unpackLoop (goalpos : Fin (W * H) → Nat) :
    Nat → Nat → (Fin (W * H) → Nat) → Int → Int → Outcome ((Fin (W * H) → Nat) × Int × Int)
  | 0, _, ts, b, h => .ok (ts, b, h)
  | i + 1, w, ts, b, h =>
    (wr ts i (w &&& 0xF)).bind fun ts =>
      if w &&& 0xF = 0 then unpackLoop goalpos i (w >>> 4) ts i h
      else (md goalpos (w &&& 0xF) i).bind fun m => unpackLoop goalpos i (w >>> 4) ts b (h + m)

/-- mdist.hpp:99-102 `unpack` into the buffer `buf`. -/
def unpack (goalpos : Fin (W * H) → Nat) (buf : Fin (W * H) → Nat) (w : Nat) : Outcome (State (W * H)) :=
  (unpackLoop goalpos (W * H) w buf (-1) 0).bind fun r =>
    if r.2.1 < 0 then .ub else .ok ⟨r.1, r.2.1.toNat, r.2.2⟩

/-- The state as the search sees it after `pack` and `unpack`: the stale entry at the blank is 0 (`c42_roundtrip`). -/
def canon {n : Nat} (s : State n) : State n := { s with ts := fun i => if i.val = s.b then 0 else s.ts i }

/-- The value of an outcome; used to make a total successor function, see `edge_ok`. -/
def val {n : Nat} (o : Outcome (State n × Int)) (s : State n) : State n :=
  match o with
  | .ok t => t.1
  | _ => s

/-- mdist.hpp:34-92 as a search domain on unpacked packed states. -/
def dom (goalpos : Fin (W * H) → Nat) : Search.Dom (State (W * H)) Int Int where
  ops s := (mvs W H s.b).map fun i : Nat => (i : Int)
  app s op := canon (val (edge goalpos s op) s)
  cost _ _ := 1
  rev s _ := (s.b : Int)
  nop := -1
  goal s := decide (s.h = 0)

/-! ## Specification -/

/-- Cells `i` and `j` of the board are neighbours. -/
def Adjacent (W i j : Nat) : Prop :=
  (i / W = j / W ∧ (i % W + 1 = j % W ∨ j % W + 1 = i % W)) ∨
  (i % W = j % W ∧ (i / W + 1 = j / W ∨ j / W + 1 = i / W))

/-- Sum over the cells other than the blank of the Manhattan distance from the cell to the goal cell of its tile. -/
def manhattan (goalpos : Fin (W * H) → Nat) (ts : Fin (W * H) → Nat) (b : Nat) : Int :=
  ∑ i : Fin (W * H), if i.val = b then 0 else
    if h : ts i < W * H then mdval W (goalpos ⟨ts i, h⟩) i.val else 0

/-- A board: the blank is on it, every other cell holds a tile. -/
structure Board (s : State (W * H)) : Prop where
  b : s.b < W * H
  tile : ∀ i : Fin (W * H), i.val ≠ s.b → 1 ≤ s.ts i ∧ s.ts i < W * H

/-- A board with the right heuristic value. -/
structure Ok (goalpos : Fin (W * H) → Nat) (s : State (W * H)) : Prop extends Board s where
  h : s.h = manhattan goalpos s.ts s.b

/-! ## Lemmas about neighbours -/

theorem divmod {W r c : Nat} (hc : c < W) : (W * r + c) / W = r ∧ (W * r + c) % W = c :=
  ⟨by rw [Nat.mul_add_div (by omega), Nat.div_eq_of_lt hc, Nat.add_zero], by rw [Nat.mul_add_mod, Nat.mod_eq_of_lt hc]⟩

theorem mem_mvs {i j : Nat} (hi : i < W * H) : j ∈ mvs W H i ↔ j < W * H ∧ Adjacent W i j := by
  have hW : 0 < W := by
    rcases Nat.eq_zero_or_pos W with h | h
    · rw [h, Nat.zero_mul] at hi; omega
    · exact h
  have hrow : i / W < H := Nat.div_lt_of_lt_mul hi
  have hcol : i % W < W := Nat.mod_lt _ hW
  have ei : W * (i / W) + i % W = i := Nat.div_add_mod i W
  unfold Adjacent
  simp only [mvs, List.mem_append, List.mem_ite_nil_right, List.mem_singleton]
  generalize i / W = r at *
  generalize i % W = c at *
  subst ei
  have hup : W * (r + 1) = W * r + W := Nat.mul_succ W r
  constructor
  · rintro (((⟨h1, rfl⟩ | ⟨h1, rfl⟩) | ⟨h1, rfl⟩) | ⟨h1, rfl⟩)
    · cases r with
      | zero => omega
      | succ r =>
        have e : W * (r + 1) + c - W = W * r + c := by rw [Nat.mul_succ]; omega
        rw [e, (divmod hcol).1, (divmod hcol).2]
        exact ⟨by omega, Or.inr ⟨rfl, Or.inr rfl⟩⟩
    · have e : W * r + c - 1 = W * r + (c - 1) := by omega
      rw [e, (divmod (by omega)).1, (divmod (by omega)).2]
      exact ⟨by omega, Or.inl ⟨rfl, Or.inr (by omega)⟩⟩
    · have hle : W * (r + 1) ≤ W * H := Nat.mul_le_mul_left W hrow
      rw [Nat.add_assoc, (divmod (by omega)).1, (divmod (by omega)).2]
      exact ⟨by omega, Or.inl ⟨rfl, Or.inl rfl⟩⟩
    · have e : W * r + c + W = W * (r + 1) + c := by rw [Nat.mul_succ]; omega
      rw [e, (divmod hcol).1, (divmod hcol).2]
      exact ⟨by omega, Or.inr ⟨rfl, Or.inl rfl⟩⟩
  · rintro ⟨hj, h⟩
    have ej : W * (j / W) + j % W = j := Nat.div_add_mod j W
    have hjcol : j % W < W := Nat.mod_lt _ hW
    have hjrow : j / W < H := Nat.div_lt_of_lt_mul hj
    rcases h with ⟨h1, h2 | h2⟩ | ⟨h1, h2 | h2⟩
    · rw [← h1, ← h2] at ej
      exact Or.inl (Or.inr ⟨by omega, by omega⟩)
    · rw [← h1] at ej
      exact Or.inl (Or.inl (Or.inr ⟨by omega, by omega⟩))
    · rw [← h1, ← h2, hup] at ej
      rw [← h2] at hjrow
      have hle : W * (r + 1 + 1) ≤ W * H := Nat.mul_le_mul_left W hjrow
      rw [Nat.mul_succ] at hle
      exact Or.inr ⟨by omega, by omega⟩
    · rw [← h1] at ej
      have : W * r = W * (j / W) + W := by rw [← h2, Nat.mul_succ]
      exact Or.inl (Or.inl (Or.inl ⟨by omega, by omega⟩))

theorem Adjacent.symm {i j : Nat} (h : Adjacent W i j) : Adjacent W j i := by
  unfold Adjacent at *
  omega

theorem mem_mvs_symm {i j : Nat} (hi : i < W * H) (h : j ∈ mvs W H i) : i ∈ mvs W H j := by
  have h1 := (mem_mvs hi).1 h
  exact (mem_mvs h1.1).2 ⟨hi, h1.2.symm⟩

theorem Adjacent.ne {i j : Nat} (h : Adjacent W i j) : i ≠ j := by
  rintro rfl
  unfold Adjacent at h
  omega

/-- Moving a tile to a neighbouring cell changes its distance by exactly one. -/
theorem mdval_adjacent {g i j : Nat} (h : Adjacent W i j) : |mdval W g i - mdval W g j| = 1 := by
  unfold mdval
  unfold Adjacent at h
  generalize i / W = a at *
  generalize i % W = b at *
  generalize j / W = a' at *
  generalize j % W = b' at *
  generalize g / W = e
  generalize g % W = f
  rcases h with ⟨rfl, h⟩ | ⟨rfl, h⟩
  · rw [abs_eq (by norm_num)]
    rcases abs_cases ((b : Int) - f) with ⟨e1, _⟩ | ⟨e1, _⟩ <;> rcases abs_cases ((b' : Int) - f) with ⟨e2, _⟩ | ⟨e2, _⟩ <;>
      rw [e1, e2] <;> omega
  · rw [abs_eq (by norm_num)]
    rcases abs_cases ((a : Int) - e) with ⟨e1, _⟩ | ⟨e1, _⟩ <;> rcases abs_cases ((a' : Int) - e) with ⟨e2, _⟩ | ⟨e2, _⟩ <;>
      rw [e1, e2] <;> omega

theorem mdval_nonneg (W g i : Nat) : 0 ≤ mdval W g i := add_nonneg (abs_nonneg _) (abs_nonneg _)

theorem mdval_eq_zero {g i : Nat} : mdval W g i = 0 ↔ i = g := by
  unfold mdval
  constructor
  · intro h
    have h1 := abs_nonneg (((i / W : Nat) : Int) - ((g / W : Nat) : Int))
    have h2 := abs_nonneg (((i % W : Nat) : Int) - ((g % W : Nat) : Int))
    have e1 : |((i / W : Nat) : Int) - ((g / W : Nat) : Int)| = 0 := by omega
    have e2 : |((i % W : Nat) : Int) - ((g % W : Nat) : Int)| = 0 := by omega
    rw [abs_eq_zero] at e1 e2
    rw [← Nat.div_add_mod i W, ← Nat.div_add_mod g W, show i / W = g / W by omega, show i % W = g % W by omega]
  · rintro rfl; simp


/-! ## The edge -/

theorem md_ok (goalpos : Fin (W * H) → Nat) {t i : Nat} (h1 : 1 ≤ t) (ht : t < W * H) (hi : i < W * H) :
    md goalpos t i = .ok (mdval W (goalpos ⟨t, ht⟩) i) := by
  unfold md
  rw [if_pos ⟨h1, hi⟩, rd_ok _ ht]
  rfl

theorem manhattan_move (goalpos : Fin (W * H) → Nat) (ts : Fin (W * H) → Nat) {b op : Nat} (hb : b < W * H)
    (hop : op < W * H) (hne : b ≠ op) (ht : ts ⟨op, hop⟩ < W * H) :
    manhattan goalpos (Function.update ts ⟨b, hb⟩ (ts ⟨op, hop⟩)) op = manhattan goalpos ts b +
      (mdval W (goalpos ⟨ts ⟨op, hop⟩, ht⟩) b - mdval W (goalpos ⟨ts ⟨op, hop⟩, ht⟩) op) := by
  unfold manhattan
  rw [← sub_eq_iff_eq_add', ← Finset.sum_sub_distrib]
  have key : ∀ i : Fin (W * H),
      ((if i.val = op then 0 else
        if h : Function.update ts ⟨b, hb⟩ (ts ⟨op, hop⟩) i < W * H then
          mdval W (goalpos ⟨Function.update ts ⟨b, hb⟩ (ts ⟨op, hop⟩) i, h⟩) i.val else 0) -
        (if i.val = b then 0 else if h : ts i < W * H then mdval W (goalpos ⟨ts i, h⟩) i.val else 0)) =
      (if i = ⟨b, hb⟩ then mdval W (goalpos ⟨ts ⟨op, hop⟩, ht⟩) b else 0) -
        (if i = ⟨op, hop⟩ then mdval W (goalpos ⟨ts ⟨op, hop⟩, ht⟩) op else 0) := by
    intro i
    by_cases e1 : i = ⟨b, hb⟩
    · subst e1
      rw [if_neg (show ¬ b = op from hne), if_pos rfl, if_pos rfl, if_neg (fun h => hne (congrArg Fin.val h))]
      simp only [Function.update_self, ht, dite_true]
    · have e1' : i.val ≠ b := fun h => e1 (Fin.ext h)
      by_cases e2 : i = ⟨op, hop⟩
      · subst e2
        rw [if_pos rfl, if_neg e1', if_neg e1, if_pos rfl]
        simp only [ht, dite_true]
      · have e2' : i.val ≠ op := fun h => e2 (Fin.ext h)
        rw [if_neg e2', if_neg e1', if_neg e1, if_neg e2]
        simp only [Function.update_of_ne e1]
        simp
  rw [Finset.sum_congr rfl fun i _ => key i, Finset.sum_sub_distrib]
  simp

/-- The constructor of `Edge` on a board. -/
theorem edge_ok (goalpos : Fin (W * H) → Nat) {s : State (W * H)} (hs : Board s) {op : Nat} (ho : op ∈ mvs W H s.b) :
    ∃ (hb : s.b < W * H) (hop : op < W * H) (ht : s.ts ⟨op, hop⟩ < W * H),
      edge goalpos s (op : Int) = .ok (⟨Function.update s.ts ⟨s.b, hb⟩ (s.ts ⟨op, hop⟩), op,
        s.h + (mdval W (goalpos ⟨s.ts ⟨op, hop⟩, ht⟩) s.b - mdval W (goalpos ⟨s.ts ⟨op, hop⟩, ht⟩) op)⟩, (s.b : Int)) := by
  obtain ⟨hop, hadj⟩ := (mem_mvs hs.b).1 ho
  obtain ⟨h1, ht⟩ := hs.tile ⟨op, hop⟩ (fun h => hadj.ne h.symm)
  refine ⟨hs.b, hop, ht, ?_⟩
  unfold edge
  rw [if_neg (by unfold ident; omega), if_neg (by omega)]
  simp only [Int.toNat_natCast, rd_ok _ hop, Outcome.bind_ok, wr_ok _ hs.b]
  unfold incr
  rw [if_pos ⟨hop, mem_mvs_symm hs.b ho⟩, md_ok goalpos h1 ht hs.b, Outcome.bind_ok, md_ok goalpos h1 ht hop]
  rfl

theorem board_update {s : State (W * H)} (hs : Board s) {op : Nat} (hb : s.b < W * H) (hop : op < W * H) (x : Int)
    (hne : op ≠ s.b) : Board (⟨Function.update s.ts ⟨s.b, hb⟩ (s.ts ⟨op, hop⟩), op, x⟩ : State (W * H)) := by
  refine ⟨hop, fun i hi => ?_⟩
  dsimp only at hi ⊢
  by_cases e : i = ⟨s.b, hb⟩
  · rw [e, Function.update_self]; exact hs.tile ⟨op, hop⟩ hne
  · rw [Function.update_of_ne e]; exact hs.tile i (fun h => e (Fin.ext h))

theorem manhattan_canon (goalpos : Fin (W * H) → Nat) (s : State (W * H)) :
    manhattan goalpos (canon s).ts (canon s).b = manhattan goalpos s.ts s.b := by
  unfold manhattan
  refine Finset.sum_congr rfl fun i _ => ?_
  by_cases e : i.val = s.b
  · rw [if_pos e, if_pos (show i.val = (canon s).b from e)]
  · rw [if_neg e, if_neg (show ¬ i.val = (canon s).b from e)]
    have : (canon s).ts i = s.ts i := if_neg e
    simp only [this]

theorem board_canon {s : State (W * H)} (hs : Board s) : Board (canon s) :=
  ⟨hs.b, fun i hi => by
    have : (canon s).ts i = s.ts i := if_neg hi
    rw [this]; exact hs.tile i hi⟩

theorem ok_canon {goalpos : Fin (W * H) → Nat} {s : State (W * H)} (hs : Ok goalpos s) : Ok goalpos (canon s) :=
  ⟨board_canon hs.toBoard, by rw [manhattan_canon]; exact hs.h⟩

theorem ok_edge {goalpos : Fin (W * H) → Nat} {s : State (W * H)} (hs : Ok goalpos s) {op : Nat} (ho : op ∈ mvs W H s.b) :
    ∃ t, edge goalpos s (op : Int) = .ok (t, (s.b : Int)) ∧ Ok goalpos t ∧ t.b = op := by
  obtain ⟨hb, hop, ht, he⟩ := edge_ok goalpos hs.toBoard ho
  have hne : s.b ≠ op := ((mem_mvs hs.b).1 ho).2.ne
  refine ⟨_, he, ⟨board_update hs.toBoard hb hop _ hne.symm, ?_⟩, rfl⟩
  dsimp only
  rw [manhattan_move goalpos s.ts hb hop hne ht, hs.h]

theorem mem_ops {goalpos : Fin (W * H) → Nat} {s : State (W * H)} {op : Int} :
    op ∈ (dom goalpos).ops s ↔ ∃ i ∈ mvs W H s.b, (i : Int) = op := by
  simp only [dom, List.mem_map]

theorem ok_app (goalpos : Fin (W * H) → Nat) (s : State (W * H)) (hs : Ok goalpos s) :
    ∀ op ∈ (dom goalpos).ops s, Ok goalpos ((dom goalpos).app s op) := by
  intro op ho
  obtain ⟨i, hi, rfl⟩ := mem_ops.1 ho
  obtain ⟨t, h1, h2, -⟩ := ok_edge hs hi
  show Ok goalpos (canon (val (edge goalpos s _) s))
  rw [h1]
  exact ok_canon h2

/-! ## Packing -/

theorem and_15 (w : Nat) : w &&& 0xF = w % 16 := Nat.and_two_pow_sub_one_eq_mod w 4

theorem packStep_ok {n : Nat} (ts : Fin n → Nat) {w i : Nat} (hw : w * 16 < 2 ^ 64) (hi : i < n) (ht : ts ⟨i, hi⟩ < 16) :
    packStep ts (.ok w) i = .ok (w * 16 + ts ⟨i, hi⟩) := by
  unfold packStep
  rw [Outcome.bind_ok, rd_ok _ hi, Outcome.map_ok]
  congr 1
  have e : w <<< 4 % 2 ^ 64 = w <<< 4 := by
    rw [Nat.shiftLeft_eq]; exact Nat.mod_eq_of_lt hw
  rw [e, ← Nat.shiftLeft_add_eq_or_of_lt (by omega : ts ⟨i, hi⟩ < 2 ^ 4), Nat.shiftLeft_eq]

/-- The word of the first `k` cells. -/
def word {n : Nat} (ts : Fin n → Nat) : Nat → Nat
  | 0 => 0
  | k + 1 => word ts k * 16 + (if h : k < n then ts ⟨k, h⟩ else 0)

theorem word_lt {n : Nat} {ts : Fin n → Nat} (ht : ∀ i, ts i < 16) (k : Nat) : word ts k < 16 ^ k := by
  induction k with
  | zero => simp [word]
  | succ k ih =>
    have : (if h : k < n then ts ⟨k, h⟩ else 0) < 16 := by
      split_ifs
      · exact ht _
      · omega
    rw [word, pow_succ]
    omega

theorem packWord_ok {n : Nat} (hn : n ≤ 16) {ts : Fin n → Nat} (ht : ∀ i, ts i < 16) : packWord ts = .ok (word ts n) := by
  have : ∀ k ≤ n, (List.range k).foldl (packStep ts) (.ok 0) = .ok (word ts k) := by
    intro k hk
    induction k with
    | zero => rfl
    | succ k ih =>
      rw [List.range_succ, List.foldl_append, ih (by omega)]
      have h1 := word_lt ht k
      have h2 : 16 ^ k ≤ 16 ^ 15 := Nat.pow_le_pow_right (by norm_num) (by omega)
      have h3 : (16 : Nat) ^ 15 * 16 = 2 ^ 64 := by norm_num
      rw [List.foldl_cons, List.foldl_nil, packStep_ok ts (by omega) (by omega) (ht _), word, dif_pos (by omega)]
  exact this n le_rfl

theorem word_inj {n : Nat} {ts us : Fin n → Nat} (ht : ∀ i, ts i < 16) (hu : ∀ i, us i < 16) {k : Nat} (hk : k ≤ n)
    (h : word ts k = word us k) : ∀ i : Fin n, i.val < k → ts i = us i := by
  induction k with
  | zero => intro i hi; omega
  | succ k ih =>
    rw [word, word, dif_pos (by omega), dif_pos (by omega)] at h
    have h1 := ht ⟨k, by omega⟩
    have h2 := hu ⟨k, by omega⟩
    have e1 : word ts k = word us k := by omega
    intro i hi
    by_cases e : i.val = k
    · have : i = ⟨k, by omega⟩ := Fin.ext e
      rw [this]; omega
    · exact ih (by omega) e1 i (by omega)

/-- The unpacking loop inverts `word`; `cut` collects what it computes for the cells still to be filled. -/
theorem unpackLoop_ok (goalpos : Fin (W * H) → Nat) {ts : Fin (W * H) → Nat} (ht : ∀ i, ts i < 16)
    (htn : ∀ i, ts i ≠ 0 → ts i < W * H) (k : Nat) (hk : k ≤ W * H) (us : Fin (W * H) → Nat) (b h : Int) :
    ∃ b', unpackLoop goalpos k (word ts k) us b h = .ok (fun i => if i.val < k then ts i else us i, b',
        h + ∑ i : Fin (W * H), if i.val < k then (if ts i = 0 then 0 else
          if hh : ts i < W * H then mdval W (goalpos ⟨ts i, hh⟩) i.val else 0) else 0) ∧
      ((∀ i : Fin (W * H), i.val < k → ts i ≠ 0) → b' = b) ∧
      (∀ p : Fin (W * H), p.val < k → ts p = 0 → (∀ i : Fin (W * H), ts i = 0 → i = p) → b' = p.val) := by
  induction k generalizing us b h with
  | zero => exact ⟨b, by simp [unpackLoop], fun _ => rfl, fun p hp => by omega⟩
  | succ k ih =>
    have hkn : k < W * H := by omega
    have hw : word ts (k + 1) &&& 0xF = ts ⟨k, hkn⟩ := by
      rw [and_15, word, dif_pos hkn]
      have := ht ⟨k, hkn⟩
      omega
    have hs : word ts (k + 1) >>> 4 = word ts k := by
      rw [Nat.shiftRight_eq_div_pow, word, dif_pos hkn]
      have := ht ⟨k, hkn⟩
      omega
    have hfun : (fun i : Fin (W * H) => if i.val < k then ts i else Function.update us ⟨k, hkn⟩ (ts ⟨k, hkn⟩) i) =
        fun i => if i.val < k + 1 then ts i else us i := by
      funext i
      by_cases e : i = ⟨k, hkn⟩
      · subst e
        rw [if_neg (by simp), Function.update_self, if_pos (by simp)]
      · have e' : i.val ≠ k := fun h => e (Fin.ext h)
        rw [Function.update_of_ne e]
        by_cases h1 : i.val < k
        · rw [if_pos h1, if_pos (by omega)]
        · rw [if_neg h1, if_neg (by omega)]
    have hsum : (∑ i : Fin (W * H), if i.val < k + 1 then (if ts i = 0 then 0 else
          if hh : ts i < W * H then mdval W (goalpos ⟨ts i, hh⟩) i.val else 0) else 0) =
        (if ts ⟨k, hkn⟩ = 0 then 0 else
          if hh : ts ⟨k, hkn⟩ < W * H then mdval W (goalpos ⟨ts ⟨k, hkn⟩, hh⟩) k else 0) +
        ∑ i : Fin (W * H), if i.val < k then (if ts i = 0 then 0 else
          if hh : ts i < W * H then mdval W (goalpos ⟨ts i, hh⟩) i.val else 0) else 0 := by
      rw [← Finset.add_sum_erase Finset.univ _ (Finset.mem_univ (⟨k, hkn⟩ : Fin (W * H))),
        ← Finset.add_sum_erase Finset.univ (fun i : Fin (W * H) => if i.val < k then _ else 0)
          (Finset.mem_univ (⟨k, hkn⟩ : Fin (W * H)))]
      rw [if_pos (show k < k + 1 by omega), if_neg (show ¬ k < k by omega), zero_add]
      congr 1
      refine Finset.sum_congr rfl fun i hi => ?_
      have e' : i.val ≠ k := fun h => (Finset.ne_of_mem_erase hi) (Fin.ext h)
      by_cases h1 : i.val < k
      · rw [if_pos h1, if_pos (by omega)]
      · rw [if_neg h1, if_neg (by omega)]
    unfold unpackLoop
    rw [wr_ok _ hkn, Outcome.bind_ok, hw, hs]
    by_cases h0 : ts ⟨k, hkn⟩ = 0
    · rw [if_pos h0]
      obtain ⟨b', e1, e2, e3⟩ := ih (by omega) (Function.update us ⟨k, hkn⟩ (ts ⟨k, hkn⟩)) (k : Int) h
      refine ⟨b', ?_, fun hne => absurd h0 (hne _ (by simp)), fun p hp hp0 hu => ?_⟩
      · rw [e1, hfun, hsum, if_pos h0, zero_add]
      · have epk : p = ⟨k, hkn⟩ := (hu _ h0).symm
        rw [e2 fun i hi h => ?_, epk]
        have := hu i h
        rw [this, epk] at hi
        simp at hi
    · rw [if_neg h0, md_ok goalpos (by omega) (htn _ h0) hkn, Outcome.bind_ok]
      obtain ⟨b', e1, e2, e3⟩ := ih (by omega) (Function.update us ⟨k, hkn⟩ (ts ⟨k, hkn⟩)) b
        (h + mdval W (goalpos ⟨ts ⟨k, hkn⟩, htn _ h0⟩) k)
      refine ⟨b', ?_, fun hne => e2 fun i hi => hne i (by omega), fun p hp hp0 hu => ?_⟩
      · rw [e1, hfun, hsum, if_neg h0, dif_pos (htn _ h0), add_assoc]
      · refine e3 p ?_ hp0 hu
        have : p.val ≠ k := fun h => h0 (by rw [← show p = ⟨k, hkn⟩ from Fin.ext h]; exact hp0)
        omega

/-! ## The initial state -/

theorem initLoop_ok (goalpos init : Fin (W * H) → Nat) (htn : ∀ i, init i ≠ 0 → init i < W * H) (m k : Nat)
    (hk : k + m = W * H) (b : Option Nat) (h : Int) :
    ∃ b', initLoop goalpos init (List.range' k m) b h = .ok (b', h + ∑ i : Fin (W * H), if k ≤ i.val then
        (if init i = 0 then 0 else if hh : init i < W * H then mdval W (goalpos ⟨init i, hh⟩) i.val else 0) else 0) ∧
      ((∀ i : Fin (W * H), k ≤ i.val → init i ≠ 0) → b' = b) ∧
      (∀ p : Fin (W * H), k ≤ p.val → init p = 0 → (∀ i : Fin (W * H), init i = 0 → i = p) → b' = some p.val) := by
  induction m generalizing k b h with
  | zero =>
    refine ⟨b, ?_, fun _ => rfl, fun p hp => by omega⟩
    have : (∑ i : Fin (W * H), if k ≤ i.val then (if init i = 0 then 0 else
        if hh : init i < W * H then mdval W (goalpos ⟨init i, hh⟩) i.val else 0) else (0 : Int)) = 0 := by
      refine Finset.sum_eq_zero fun i _ => ?_
      rw [if_neg (by omega)]
    rw [this, add_zero]
    rfl
  | succ m ih =>
    have hkn : k < W * H := by omega
    have hsum : (∑ i : Fin (W * H), if k ≤ i.val then (if init i = 0 then 0 else
          if hh : init i < W * H then mdval W (goalpos ⟨init i, hh⟩) i.val else 0) else 0) =
        (if init ⟨k, hkn⟩ = 0 then 0 else
          if hh : init ⟨k, hkn⟩ < W * H then mdval W (goalpos ⟨init ⟨k, hkn⟩, hh⟩) k else 0) +
        ∑ i : Fin (W * H), if k + 1 ≤ i.val then (if init i = 0 then 0 else
          if hh : init i < W * H then mdval W (goalpos ⟨init i, hh⟩) i.val else 0) else 0 := by
      rw [← Finset.add_sum_erase Finset.univ _ (Finset.mem_univ (⟨k, hkn⟩ : Fin (W * H))),
        ← Finset.add_sum_erase Finset.univ (fun i : Fin (W * H) => if k + 1 ≤ i.val then _ else 0)
          (Finset.mem_univ (⟨k, hkn⟩ : Fin (W * H)))]
      rw [if_pos (show k ≤ k from le_rfl), if_neg (show ¬ k + 1 ≤ k by omega), zero_add]
      congr 1
      refine Finset.sum_congr rfl fun i hi => ?_
      have e' : i.val ≠ k := fun h => (Finset.ne_of_mem_erase hi) (Fin.ext h)
      by_cases h1 : k ≤ i.val
      · rw [if_pos h1, if_pos (show k + 1 ≤ i.val by omega)]
      · rw [if_neg h1, if_neg (show ¬ k + 1 ≤ i.val by omega)]
    rw [List.range'_succ]
    unfold initLoop
    rw [rd_ok _ hkn, Outcome.bind_ok]
    by_cases h0 : init ⟨k, hkn⟩ = 0
    · rw [if_pos h0]
      obtain ⟨b', e1, e2, e3⟩ := ih (k + 1) (by omega) (some k) h
      refine ⟨b', ?_, fun hne => absurd h0 (hne _ le_rfl), fun p hp hp0 hu => ?_⟩
      · rw [e1, hsum, if_pos h0, zero_add]
      · have epk : p = ⟨k, hkn⟩ := (hu _ h0).symm
        rw [e2 fun i hi h => ?_, epk]
        have := hu i h
        rw [this, epk] at hi
        simp at hi
    · rw [if_neg h0, md_ok goalpos (by omega) (htn _ h0) hkn, Outcome.bind_ok]
      obtain ⟨b', e1, e2, e3⟩ := ih (k + 1) (by omega) b (h + mdval W (goalpos ⟨init ⟨k, hkn⟩, htn _ h0⟩) k)
      refine ⟨b', ?_, fun hne => e2 fun i hi => hne i (by omega), fun p hp hp0 hu => ?_⟩
      · rw [e1, hsum, if_neg h0, dif_pos (htn _ h0), add_assoc]
      · refine e3 p ?_ hp0 hu
        have : p.val ≠ k := fun h => h0 (by rw [← show p = ⟨k, hkn⟩ from Fin.ext h]; exact hp0)
        omega

/-- An input board: exactly one blank, every other number is a tile. -/
structure Input (init : Fin (W * H) → Nat) (p : Fin (W * H)) : Prop where
  zero : init p = 0
  uniq : ∀ i, init i = 0 → i = p
  lt : ∀ i, init i ≠ 0 → init i < W * H

theorem sum_unique (goalpos ts : Fin (W * H) → Nat) {p : Fin (W * H)} (hp : ts p = 0) (hu : ∀ i, ts i = 0 → i = p) :
    (∑ i : Fin (W * H), if ts i = 0 then 0 else if hh : ts i < W * H then mdval W (goalpos ⟨ts i, hh⟩) i.val else 0) =
      manhattan goalpos ts p.val := by
  unfold manhattan
  refine Finset.sum_congr rfl fun i _ => ?_
  by_cases e : i = p
  · rw [e, if_pos hp, if_pos rfl]
  · rw [if_neg (fun h => e (hu i h)), if_neg (fun h => e (Fin.ext h))]

theorem initialstate_ok (goalpos init : Fin (W * H) → Nat) {p : Fin (W * H)} (hi : Input init p) :
    initialstate goalpos init = .ok ⟨init, p.val, manhattan goalpos init p.val⟩ := by
  obtain ⟨b', e1, -, e3⟩ := initLoop_ok goalpos init hi.lt (W * H) 0 (by omega) none 0
  unfold initialstate
  rw [List.range_eq_range', e1, Outcome.bind_ok, e3 p (Nat.zero_le _) hi.zero hi.uniq]
  dsimp only
  congr 2
  rw [zero_add, ← sum_unique goalpos init hi.zero hi.uniq]
  refine Finset.sum_congr rfl fun i _ => ?_
  rw [if_pos (Nat.zero_le _)]

/-! ## Reading an instance -/

/-- tiles.cc:42-48: the loop that reads the starting position of each tile. -/
def readStart (n : Nat) : Nat → List Nat → (Fin n → Option Nat) → Outcome (Fin n → Option Nat)
  | _, [], a => .ok a
  | t, p :: ps, a => (wr a p (some t)).bind (readStart n (t + 1) ps)

/-- tiles.cc:27-59 `readruml`, for a file with the numbers `w`, `h`, `starts`, `goals`: `init` (where set) and
`goalpos`.  Too few numbers are `fatal`; numbers after the ones needed are not read. -/
def readruml (W H w h : Nat) (starts goals : List Nat) : Outcome ((Fin (W * H) → Option Nat) × (Fin (W * H) → Nat)) :=
  if !SafeOps.canMulU (2 ^ 32) w h then .fatal
  else if w ≠ W ∧ h ≠ H then .fatal
  else if starts.length < W * H then .fatal
  else
    (readStart (W * H) 0 (starts.take (W * H)) fun _ => none).bind fun init =>
      if goals.length < W * H then .fatal else .ok (init, fun i => goals.getD i.val 0)

end Verif.Tiles
