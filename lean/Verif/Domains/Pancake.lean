import Verif.Arr
import Verif.Search.Heuristic
import Mathlib.Data.Fintype.Fin
import Mathlib.Algebra.BigOperators.Group.Finset.Basic
import Mathlib.Tactic.Ring
import Mathlib.Algebra.Order.Ring.Int
import Mathlib.Algebra.BigOperators.Fin

/-!
# Model of pancake/pancake.hpp, pancake/pancake.cc

`N` is `Ncakes`.  Cakes and costs are integers (no overflow: `Ncakes < 128` is enforced by the preprocessor and the
cakes of a proper instance are below `Ncakes`).  Reading the instance file is not modelled; `init` is any array.
-/

namespace Verif.Pancake

open Verif.Arr

variable {N : Nat}

/-- pancake.hpp:22-53 `State`. -/
structure State (N : Nat) where
  cakes : Fin N → Int
  h : Int
  deriving DecidableEq

/-- pancake.hpp:23-29 `eq`: compares the cakes only. -/
def State.eq (s t : State N) : Bool := decide (∀ i : Fin N, s.cakes i = t.cakes i)

/-- pancake.hpp:45-47: the body of the loop of `flip`. -/
def flipStep (op : Nat) (c : Outcome (Fin N → Int)) (n : Nat) : Outcome (Fin N → Int) :=
  c.bind fun c => (rd c n).bind fun tmp => (rd c (op - n)).bind fun x =>
    (wr c n x).bind fun c => wr c (op - n) tmp

/-- pancake.hpp:40-49 `flip`. -/
def flip (op : Int) (c : Fin N → Int) : Outcome (Fin N → Int) :=
  if 0 < op ∧ op < N then (List.range (op.toNat / 2 + 1)).foldl (flipStep op.toNat) (.ok c) else .fatal

/-- pancake.hpp:145-150 `gap`. -/
def gap (c : Fin N → Int) (n : Nat) : Outcome Bool :=
  if n < N then
    if n = N - 1 then (rd c (N - 1)).map fun x => decide (x ≠ (N : Int) - 1)
    else (rd c n).bind fun x => (rd c (n + 1)).map fun y => decide (|x - y| ≠ 1)
  else .fatal

/-- pancake.hpp:136-139: the body of the loop of `ngaps`. -/
def ngapsStep (c : Fin N → Int) (gaps : Outcome Int) (i : Nat) : Outcome Int :=
  gaps.bind fun g => (gap c i).map fun b => if b then g + 1 else g

/-- pancake.hpp:133-142 `ngaps`. -/
def ngaps (c : Fin N → Int) : Outcome Int := (List.range N).foldl (ngapsStep c) (.ok 0)

/-- pancake.cc:22-30 `initialstate`. -/
def initialstate (init : Fin N → Int) : Outcome (State N) := (ngaps init).map fun h => ⟨init, h⟩

/-- pancake.hpp:91-101: the constructor of `Edge` (the state it leaves in `e.state`). -/
def edge (s : State N) (op : Int) : Outcome (State N) :=
  (gap s.cakes op.toNat).bind fun wasgap => (flip op s.cakes).bind fun c =>
    (gap c op.toNat).map fun hasgap =>
      ⟨c, if wasgap && !hasgap then s.h - 1 else if !wasgap && hasgap then s.h + 1 else s.h⟩

/-- pancake.hpp:103-106: the destructor of `Edge`. -/
def undo (s : State N) (oldh : Int) (revop : Int) : Outcome (State N) :=
  (flip revop s.cakes).map fun c => ⟨c, oldh⟩

/-- The value of an outcome; used to make a total successor function, see `edge_ok`. -/
def val (o : Outcome (State N)) (s : State N) : State N :=
  match o with
  | .ok t => t
  | _ => s

/-- pancake.hpp:61-110 as a search domain: operators `1 .. Ncakes-1` (73-83), unit cost, the reverse operator is the
operator itself, the goal test is `h == 0` (69-71), `Nop` is -1 (19). -/
def dom (N : Nat) : Search.Dom (State N) Int Int where
  ops _ := (List.range (N - 1)).map fun i : Nat => (i : Int) + 1
  app s op := val (edge s op) s
  cost _ _ := 1
  rev _ op := op
  nop := -1
  goal s := decide (s.h = 0)

/-! ## Specification -/

/-- A stack upside down up to and including position `k`. -/
def flipped (k : Nat) (c : Fin N → Int) (i : Fin N) : Int :=
  if i.val ≤ k then (if h : k - i.val < N then c ⟨k - i.val, h⟩ else 0) else c i

/-- There is a gap below position `i`: the neighbour (the plate, with number `N`, below the last cake) is not
adjacent in size. -/
def IsGap (c : Fin N → Int) (i : Fin N) : Prop :=
  if h : i.val + 1 < N then |c i - c ⟨i.val + 1, h⟩| ≠ 1 else c i ≠ (N : Int) - 1

instance (c : Fin N → Int) (i : Fin N) : Decidable (IsGap c i) := by unfold IsGap; infer_instance

/-- The number of gaps. -/
def gaps (c : Fin N → Int) : Nat := (Finset.univ.filter fun i => IsGap c i).card

/-- A stack of `N` different cakes. -/
def IsPerm (c : Fin N → Int) : Prop := Function.Injective c ∧ ∀ i, 0 ≤ c i ∧ c i < N

/-- Sorted, smallest on top. -/
def Sorted (c : Fin N → Int) : Prop := ∀ i : Fin N, c i = i.val

/-! ## Lemmas -/

theorem flip_loop (op : Nat) (hop : op < N) (c : Fin N → Int) (k : Nat) (hk : k ≤ op / 2 + 1) :
    (List.range k).foldl (flipStep op) (.ok c) =
      .ok fun i : Fin N => if i.val ≤ op ∧ (i.val < k ∨ op - i.val < k) then flipped op c i else c i := by
  induction k with
  | zero => simp
  | succ k ih =>
    rw [List.range_succ, List.foldl_append, ih (by omega)]
    have h1 : k < N := by omega
    have h2 : op - k < N := by omega
    simp only [List.foldl_cons, List.foldl_nil, flipStep, Outcome.bind_ok, rd_ok _ h1, rd_ok _ h2, wr_ok _ h1, wr_ok _ h2]
    congr 1
    funext i
    have ek : ¬ (k ≤ op ∧ (k < k ∨ op - k < k)) ∨ 2 * k = op + 1 := by omega
    have hfk : flipped op c ⟨k, h1⟩ = c ⟨op - k, h2⟩ := by
      unfold flipped
      rw [if_pos (show k ≤ op by omega), dif_pos h2]
    have hfo : flipped op c ⟨op - k, h2⟩ = c ⟨k, h1⟩ := by
      unfold flipped
      have e : op - (op - k) = k := by omega
      rw [if_pos (show op - k ≤ op by omega), dif_pos (show op - (op - k) < N by omega)]
      simp only [e]
    by_cases e1 : i = ⟨op - k, h2⟩
    · rw [e1, Function.update_self]
      rw [if_neg (by first | omega | (dsimp only; omega)), if_pos (by first | omega | (dsimp only; omega)), hfo]
    · rw [Function.update_of_ne e1]
      by_cases e2 : i = ⟨k, h1⟩
      · rw [e2, Function.update_self, if_neg (by first | omega | (dsimp only; omega)), if_pos (by first | omega | (dsimp only; omega)), hfk]
      · rw [Function.update_of_ne e2]
        have e1' : i.val ≠ op - k := fun h => e1 (Fin.ext h)
        have e2' : i.val ≠ k := fun h => e2 (Fin.ext h)
        by_cases hc : i.val ≤ op ∧ (i.val < k ∨ op - i.val < k)
        · rw [if_pos hc, if_pos (by omega)]
        · rw [if_neg hc, if_neg (by omega)]

theorem flip_ok {op : Int} (h0 : 0 < op) (h1 : op < N) (c : Fin N → Int) :
    flip op c = .ok (flipped op.toNat c) := by
  unfold flip
  rw [if_pos ⟨h0, h1⟩, flip_loop _ (by omega) c _ le_rfl]
  congr 1
  funext i
  by_cases hi : i.val ≤ op.toNat
  · rw [if_pos (by omega)]
  · rw [if_neg (by omega)]
    unfold flipped
    rw [if_neg hi]

theorem flipped_le {k : Nat} (c : Fin N → Int) {i : Nat} (hi : i < N) (hk : i ≤ k) (hkN : k < N) :
    flipped k c ⟨i, hi⟩ = c ⟨k - i, by omega⟩ := by
  unfold flipped
  rw [if_pos (by dsimp only; omega), dif_pos (by dsimp only; omega)]

theorem flipped_gt {k : Nat} (c : Fin N → Int) {i : Nat} (hi : i < N) (hk : k < i) :
    flipped k c ⟨i, hi⟩ = c ⟨i, hi⟩ := by
  unfold flipped
  rw [if_neg (by dsimp only; omega)]

theorem flipped_flipped {k : Nat} (hk : k < N) (c : Fin N → Int) : flipped k (flipped k c) = c := by
  funext ⟨i, hi⟩
  by_cases h : i ≤ k
  · rw [flipped_le _ hi h hk, flipped_le _ _ (by omega) hk]
    congr 2
    omega
  · rw [flipped_gt _ hi (by omega), flipped_gt _ hi (by omega)]

theorem gap_ok (c : Fin N → Int) {n : Nat} (hn : n < N) : gap c n = .ok (decide (IsGap c ⟨n, hn⟩)) := by
  unfold gap
  rw [if_pos hn]
  by_cases e : n = N - 1
  · have hn' : N - 1 < N := by omega
    rw [if_pos e, rd_ok _ hn']
    have : IsGap c ⟨n, hn⟩ ↔ c ⟨N - 1, hn'⟩ ≠ (N : Int) - 1 := by
      unfold IsGap
      rw [dif_neg (by dsimp only; omega)]
      simp only [e]
    simp only [Outcome.map_ok, this]
  · rw [if_neg e, rd_ok _ hn, Outcome.bind_ok, rd_ok _ (show n + 1 < N by omega)]
    have : IsGap c ⟨n, hn⟩ ↔ |c ⟨n, hn⟩ - c ⟨n + 1, by omega⟩| ≠ 1 := by
      unfold IsGap
      rw [dif_pos (by dsimp only; omega)]
    simp only [Outcome.map_ok, this]

theorem ngaps_loop (c : Fin N → Int) (k : Nat) (hk : k ≤ N) :
    (List.range k).foldl (ngapsStep c) (.ok 0) =
      .ok ((Finset.univ.filter fun i : Fin N => i.val < k ∧ IsGap c i).card : Int) := by
  induction k with
  | zero => simp
  | succ k ih =>
    rw [List.range_succ, List.foldl_append, ih (by omega)]
    have hk' : k < N := by omega
    simp only [List.foldl_cons, List.foldl_nil, ngapsStep, Outcome.bind_ok, gap_ok c hk', Outcome.map_ok]
    congr 1
    by_cases hg : IsGap c ⟨k, hk'⟩
    · rw [if_pos (by simpa using hg)]
      have : (Finset.univ.filter fun i : Fin N => i.val < k + 1 ∧ IsGap c i) =
          insert ⟨k, hk'⟩ (Finset.univ.filter fun i : Fin N => i.val < k ∧ IsGap c i) := by
        ext i
        simp only [Finset.mem_filter, Finset.mem_univ, true_and, Finset.mem_insert]
        constructor
        · rintro ⟨h1, h2⟩
          by_cases e : i = ⟨k, hk'⟩
          · exact Or.inl e
          · exact Or.inr ⟨by have : i.val ≠ k := fun h => e (Fin.ext h)
                             omega, h2⟩
        · rintro (rfl | ⟨h1, h2⟩)
          · exact ⟨by dsimp only; omega, hg⟩
          · exact ⟨by omega, h2⟩
      rw [this, Finset.card_insert_of_notMem (by simp)]
      push_cast
      rfl
    · rw [if_neg (by simpa using hg)]
      congr 2
      ext i
      simp only [Finset.mem_filter, Finset.mem_univ, true_and]
      constructor
      · rintro ⟨h1, h2⟩; exact ⟨by omega, h2⟩
      · rintro ⟨h1, h2⟩
        refine ⟨?_, h2⟩
        have : i.val ≠ k := by
          rintro e
          exact hg (by rwa [show (⟨k, hk'⟩ : Fin N) = i from Fin.ext e.symm])
        omega

theorem ngaps_ok (c : Fin N → Int) : ngaps c = .ok (gaps c : Int) := by
  unfold ngaps gaps
  rw [ngaps_loop c N le_rfl]
  congr 4
  ext i
  simp [i.isLt]

/-- Gaps above the flipped position move, gaps below it stay. -/
theorem isGap_flipped_lt {k : Nat} (hk : k < N) (c : Fin N → Int) {i : Nat} (hi : i < k) :
    IsGap (flipped k c) ⟨i, by omega⟩ ↔ IsGap c ⟨k - 1 - i, by omega⟩ := by
  unfold IsGap
  rw [dif_pos (show i + 1 < N by omega), dif_pos (show k - 1 - i + 1 < N by omega),
    flipped_le c (show i < N by omega) (by omega) hk, flipped_le c (show i + 1 < N by omega) (by omega) hk, abs_sub_comm]
  have e1 : k - i = k - 1 - i + 1 := by omega
  have e2 : k - (i + 1) = k - 1 - i := by omega
  simp only [e1, e2]

theorem isGap_flipped_gt {k : Nat} (c : Fin N → Int) {i : Nat} (hi : k < i) (hiN : i < N) :
    IsGap (flipped k c) ⟨i, hiN⟩ ↔ IsGap c ⟨i, hiN⟩ := by
  unfold IsGap
  rw [flipped_gt _ hiN hi]
  by_cases h : i + 1 < N
  · rw [dif_pos (show i + 1 < N from h), dif_pos (show i + 1 < N from h), flipped_gt c h (by omega)]
  · rw [dif_neg (by dsimp only; omega), dif_neg (by dsimp only; omega)]

theorem gaps_split {k : Nat} (hk : k < N) (c : Fin N → Int) :
    gaps c = (Finset.univ.filter fun i : Fin N => i.val ≠ k ∧ IsGap c i).card +
      if IsGap c ⟨k, hk⟩ then 1 else 0 := by
  unfold gaps
  by_cases hg : IsGap c ⟨k, hk⟩
  · rw [if_pos hg]
    have : (Finset.univ.filter fun i : Fin N => IsGap c i) =
        insert ⟨k, hk⟩ (Finset.univ.filter fun i : Fin N => i.val ≠ k ∧ IsGap c i) := by
      ext i
      simp only [Finset.mem_filter, Finset.mem_univ, true_and, Finset.mem_insert]
      constructor
      · intro h
        by_cases e : i = ⟨k, hk⟩
        · exact Or.inl e
        · exact Or.inr ⟨fun h => e (Fin.ext h), h⟩
      · rintro (rfl | ⟨-, h⟩)
        · exact hg
        · exact h
    rw [this, Finset.card_insert_of_notMem (by simp)]
  · rw [if_neg hg, add_zero]
    congr 1
    ext i
    simp only [Finset.mem_filter, Finset.mem_univ, true_and]
    constructor
    · intro h
      refine ⟨?_, h⟩
      rintro e
      exact hg (by rwa [show (⟨k, hk⟩ : Fin N) = i from Fin.ext e.symm])
    · exact fun h => h.2

/-- Apart from position `k` a flip of `0..k` permutes the gaps. -/
theorem gaps_others {k : Nat} (hk : k < N) (c : Fin N → Int) :
    (Finset.univ.filter fun i : Fin N => i.val ≠ k ∧ IsGap (flipped k c) i).card =
      (Finset.univ.filter fun i : Fin N => i.val ≠ k ∧ IsGap c i).card := by
  let σ : Fin N → Fin N := fun i => if h : i.val < k then ⟨k - 1 - i.val, by omega⟩ else i
  have hσ : ∀ i : Fin N, i.val ≠ k → (σ i).val ≠ k := by
    intro i hi
    by_cases h : i.val < k
    · simp only [σ, dif_pos h]; omega
    · simp only [σ, dif_neg h]; exact hi
  have hinv : ∀ i : Fin N, σ (σ i) = i := by
    intro i
    by_cases h : i.val < k
    · have e : σ i = ⟨k - 1 - i.val, by omega⟩ := dif_pos h
      rw [e]
      have h2 : k - 1 - i.val < k := by omega
      simp only [σ, dif_pos h2]
      exact Fin.ext (by dsimp only; omega)
    · have e : σ i = i := dif_neg h
      rw [e, e]
  have hg : ∀ i : Fin N, i.val ≠ k → (IsGap (flipped k c) i ↔ IsGap c (σ i)) := by
    rintro ⟨i, hiN⟩ hi
    by_cases h : i < k
    · rw [isGap_flipped_lt hk c h]
      have e : σ ⟨i, hiN⟩ = ⟨k - 1 - i, by omega⟩ := dif_pos h
      rw [e]
    · rw [isGap_flipped_gt c (by dsimp only at hi; omega) hiN]
      have e : σ ⟨i, hiN⟩ = ⟨i, hiN⟩ := dif_neg h
      rw [e]
  refine Finset.card_bij' (fun i _ => σ i) (fun i _ => σ i) ?_ ?_ (fun i _ => hinv i) (fun i _ => hinv i)
  · intro i hi
    simp only [Finset.mem_filter, Finset.mem_univ, true_and] at hi ⊢
    exact ⟨hσ i hi.1, (hg i hi.1).1 hi.2⟩
  · intro i hi
    simp only [Finset.mem_filter, Finset.mem_univ, true_and] at hi ⊢
    exact ⟨hσ i hi.1, (hg _ (hσ i hi.1)).2 (by rw [hinv]; exact hi.2)⟩

theorem edge_ok {op : Int} (h0 : 0 < op) (h1 : op < N) (s : State N) (hs : s.h = gaps s.cakes) :
    edge s op = .ok ⟨flipped op.toNat s.cakes, gaps (flipped op.toNat s.cakes)⟩ := by
  have hk : op.toNat < N := by omega
  unfold edge
  rw [gap_ok _ hk, Outcome.bind_ok, flip_ok h0 h1, Outcome.bind_ok, gap_ok _ hk, Outcome.map_ok]
  congr 2
  rw [hs, gaps_split hk s.cakes, gaps_split hk (flipped op.toNat s.cakes), gaps_others hk]
  by_cases a : IsGap s.cakes ⟨op.toNat, hk⟩ <;> by_cases b : IsGap (flipped op.toNat s.cakes) ⟨op.toNat, hk⟩ <;>
    simp [a, b]

theorem mem_ops {s : State N} {op : Int} : op ∈ (dom N).ops s ↔ 0 < op ∧ op < N := by
  simp only [dom, List.mem_map, List.mem_range]
  constructor
  · rintro ⟨i, hi, rfl⟩; omega
  · rintro ⟨h1, h2⟩; exact ⟨op.toNat - 1, by omega, by omega⟩

theorem app_ok {op : Int} {s : State N} (ho : op ∈ (dom N).ops s) (hs : s.h = gaps s.cakes) :
    (dom N).app s op = ⟨flipped op.toNat s.cakes, gaps (flipped op.toNat s.cakes)⟩ := by
  rw [mem_ops] at ho
  show val (edge s op) s = _
  rw [edge_ok ho.1 ho.2 s hs]
  rfl

/-- The heuristic field is right. -/
def HOk (s : State N) : Prop := s.h = gaps s.cakes

theorem hok_app (s : State N) (hs : HOk s) : ∀ op ∈ (dom N).ops s, HOk ((dom N).app s op) := by
  intro op ho
  rw [app_ok ho hs]
  rfl

theorem gaps_flipped_le {k : Nat} (hk : k < N) (c : Fin N → Int) : gaps c ≤ 1 + gaps (flipped k c) := by
  rw [gaps_split hk c, gaps_split hk (flipped k c), gaps_others hk]
  split_ifs <;> omega

theorem isPerm_flipped {k : Nat} (hk : k < N) {c : Fin N → Int} (hc : IsPerm c) : IsPerm (flipped k c) := by
  refine ⟨?_, ?_⟩
  · rintro ⟨i, hi⟩ ⟨j, hj⟩ h
    refine Fin.ext ?_
    by_cases hik : i ≤ k <;> by_cases hjk : j ≤ k
    · rw [flipped_le _ _ hik hk, flipped_le _ _ hjk hk] at h
      have := congrArg Fin.val (hc.1 h)
      dsimp only at this ⊢
      omega
    · rw [flipped_le _ _ hik hk, flipped_gt _ _ (by omega)] at h
      have := congrArg Fin.val (hc.1 h)
      dsimp only at this ⊢
      omega
    · rw [flipped_gt _ _ (by omega), flipped_le _ _ hjk hk] at h
      have := congrArg Fin.val (hc.1 h)
      dsimp only at this ⊢
      omega
    · rw [flipped_gt _ _ (by omega), flipped_gt _ _ (by omega)] at h
      have := congrArg Fin.val (hc.1 h)
      dsimp only at this ⊢
      omega
  · rintro ⟨i, hi⟩
    by_cases hik : i ≤ k
    · rw [flipped_le _ _ hik hk]; exact hc.2 _
    · rw [flipped_gt _ _ (by omega)]; exact hc.2 _

theorem gaps_zero_iff {c : Fin N → Int} (hc : IsPerm c) : gaps c = 0 ↔ Sorted c := by
  have key : gaps c = 0 ↔ ∀ i, ¬ IsGap c i := by
    unfold gaps
    rw [Finset.card_eq_zero, Finset.filter_eq_empty_iff]
    simp
  rw [key]
  constructor
  · intro h
    -- downward induction from the plate
    have : ∀ j, ∀ hj : j < N, c ⟨N - 1 - j, by omega⟩ = ((N - 1 - j : Nat) : Int) := by
      intro j
      induction j using Nat.strong_induction_on with
      | _ j ih =>
        intro hj
        rcases Nat.eq_zero_or_pos j with rfl | hpos
        · have := h ⟨N - 1, by omega⟩
          unfold IsGap at this
          rw [dif_neg (by dsimp only; omega), not_not] at this
          simp only [Nat.sub_zero]
          rw [this]
          omega
        · have hg := h ⟨N - 1 - j, by omega⟩
          unfold IsGap at hg
          rw [dif_pos (by dsimp only; omega), not_not] at hg
          have e1 : N - 1 - j + 1 = N - 1 - (j - 1) := by omega
          have h1 := ih (j - 1) (by omega) (by omega)
          simp only [e1] at hg
          rw [h1] at hg
          have hlt := (hc.2 ⟨N - 1 - j, by omega⟩)
          rcases (abs_eq (by norm_num : (0 : Int) ≤ 1)).1 hg with h2 | h2
          · -- the neighbour would have to repeat a value already used or exceed the range
            rcases Nat.lt_or_ge 1 j with hj1 | hj1
            · have h3 := ih (j - 2) (by omega) (by omega)
              have e2 : c ⟨N - 1 - j, by omega⟩ = c ⟨N - 1 - (j - 2), by omega⟩ := by
                rw [h3]; omega
              have := congrArg Fin.val (hc.1 e2)
              dsimp only at this
              omega
            · omega
          · omega
    rintro ⟨i, hi⟩
    have h1 := this (N - 1 - i) (by omega)
    have e : N - 1 - (N - 1 - i) = i := by omega
    simp only [e] at h1
    exact h1
  · intro h i
    unfold IsGap
    split_ifs with h1
    · rw [h, h, not_not]
      push_cast
      rw [abs_eq (by norm_num)]
      right; omega
    · rw [h, not_not]
      omega

end Verif.Pancake
