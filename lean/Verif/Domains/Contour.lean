import Verif.Utils.Geom2dPoly
import Mathlib.Tactic.Abel
import Mathlib.Data.Set.Finite.Basic
import Mathlib.Data.Finite.Prod
import Mathlib.Data.Set.Finite.Range
import Mathlib.Data.Set.Finite.Lattice
import Mathlib.Data.Set.Finite.Lemmas
import Mathlib.Data.Int.Interval
import Mathlib.Logic.Relation

/-!
# Walking around a set of cells of the square grid

The mathematics behind `Comp::poly` (visnav/grid2poly.cc): a walk along the border of a set of cells, with the set on the
right-hand side.  Nothing here mentions the program.
-/

namespace Verif.Contour

open Verif.Geom (xsum xsum_nil xsum_cons xsum_append xsum_congr xsum_xor)

abbrev Cell := ℤ × ℤ

inductive Dir where
  | up | down | left | right
deriving DecidableEq

/-- The next cell in the direction. -/
def ahead : Dir → Cell
  | .up => (0, 1) | .down => (0, -1) | .left => (-1, 0) | .right => (1, 0)

/-- The cell on the left-hand side. -/
def side : Dir → Cell
  | .up => (-1, 0) | .down => (1, 0) | .left => (0, -1) | .right => (0, 1)

def turnL : Dir → Dir
  | .up => .left | .left => .down | .down => .right | .right => .up

def turnR : Dir → Dir
  | .up => .right | .right => .down | .down => .left | .left => .up

/-- A side of a cell, with the cell on the right-hand side of the direction. -/
structure Edge where
  c : Cell
  d : Dir
deriving DecidableEq

/-- The cell on the other side. -/
def Edge.out (e : Edge) : Cell := e.c + side e.d

/-- Corner at which the edge begins; the cell `(x, y)` has the corners `(x, y)` to `(x + 1, y + 1)`. -/
def Edge.beg (e : Edge) : ℤ × ℤ :=
  match e.d with
  | .up => e.c | .down => e.c + (1, 1) | .left => e.c + (1, 0) | .right => e.c + (0, 1)

def Edge.fin (e : Edge) : ℤ × ℤ :=
  match e.d with
  | .up => e.c + (0, 1) | .down => e.c + (1, 0) | .left => e.c | .right => e.c + (1, 1)

variable (B : Cell → Prop)

/-- The edge separates a cell of the set from one that does not belong to it. -/
def Bd (e : Edge) : Prop := B e.c ∧ ¬ B e.out

open Classical in
/-- The next edge of the border. -/
noncomputable def next (e : Edge) : Edge :=
  if B (e.c + ahead e.d + side e.d) then ⟨e.c + ahead e.d + side e.d, turnL e.d⟩
  else if B (e.c + ahead e.d) then ⟨e.c + ahead e.d, e.d⟩
  else ⟨e.c, turnR e.d⟩

theorem next_cases (e : Edge) :
    (B (e.c + ahead e.d + side e.d) ∧ next B e = ⟨e.c + ahead e.d + side e.d, turnL e.d⟩) ∨
    (¬ B (e.c + ahead e.d + side e.d) ∧ B (e.c + ahead e.d) ∧ next B e = ⟨e.c + ahead e.d, e.d⟩) ∨
    (¬ B (e.c + ahead e.d + side e.d) ∧ ¬ B (e.c + ahead e.d) ∧ next B e = ⟨e.c, turnR e.d⟩) := by
  unfold next
  split_ifs with h1 h2
  · exact .inl ⟨h1, rfl⟩
  · exact .inr (.inl ⟨h1, h2, rfl⟩)
  · exact .inr (.inr ⟨h1, h2, rfl⟩)

theorem side_turnL (d : Dir) : side (turnL d) = -ahead d := by cases d <;> rfl
theorem side_turnR (d : Dir) : side (turnR d) = ahead d := by cases d <;> rfl
theorem ahead_turnL (d : Dir) : ahead (turnL d) = side d := by cases d <;> rfl
theorem ahead_turnR (d : Dir) : ahead (turnR d) = -side d := by cases d <;> rfl
theorem turnRL (d : Dir) : turnR (turnL d) = d := by cases d <;> rfl
theorem turnLR (d : Dir) : turnL (turnR d) = d := by cases d <;> rfl

variable {B}

theorem next_bd {e : Edge} (h : Bd B e) : Bd B (next B e) := by
  obtain ⟨h1, h2⟩ := h
  rcases next_cases B e with ⟨a, b⟩ | ⟨a, a', b⟩ | ⟨a, a', b⟩ <;> rw [b] <;> unfold Bd Edge.out at *
  · refine ⟨a, ?_⟩
    simp only [side_turnL]
    rwa [show e.c + ahead e.d + side e.d + -ahead e.d = e.c + side e.d by abel]
  · exact ⟨a', a⟩
  · refine ⟨h1, ?_⟩
    simp only [side_turnR]
    exact a'

/-- What precedes the next edge is determined by it. -/
theorem next_inj {e o : Edge} (he : Bd B e) (ho : Bd B o) (h : next B e = next B o) : e = o := by
  have key : ∀ e : Edge, Bd B e → ∀ n, next B e = n →
      (B (n.c + side n.d - ahead n.d) ∧ e = ⟨n.c + side n.d - ahead n.d, turnR n.d⟩) ∨
      (¬ B (n.c + side n.d - ahead n.d) ∧ B (n.c - ahead n.d) ∧ e = ⟨n.c - ahead n.d, n.d⟩) ∨
      (¬ B (n.c + side n.d - ahead n.d) ∧ ¬ B (n.c - ahead n.d) ∧ e = ⟨n.c, turnL n.d⟩) := by
    intro e he n hn
    subst hn
    obtain ⟨h1, h2⟩ := he
    obtain ⟨c, d⟩ := e
    unfold Edge.out at h2
    simp only at h1 h2
    rcases next_cases B ⟨c, d⟩ with ⟨a, b⟩ | ⟨a, a', b⟩ | ⟨a, a', b⟩ <;> rw [b] <;> simp only at a ⊢
    · left
      rw [side_turnL, ahead_turnL, turnRL]
      rw [show c + ahead d + side d + -ahead d - side d = c by abel]
      exact ⟨h1, rfl⟩
    · right; left
      simp only at a'
      rw [show c + ahead d + side d - ahead d = c + side d by abel, show c + ahead d - ahead d = c by abel]
      exact ⟨h2, h1, rfl⟩
    · right; right
      simp only at a'
      rw [side_turnR, ahead_turnR, turnLR, show c + ahead d - -side d = c + ahead d + side d by abel,
        show c - -side d = c + side d by abel]
      exact ⟨a, h2, rfl⟩
  have k1 := key e he _ rfl
  have k2 := key o ho _ h.symm
  rcases k1 with ⟨a, b⟩ | ⟨a, a', b⟩ | ⟨a, a', b⟩ <;> rcases k2 with ⟨c, d⟩ | ⟨c, c', d⟩ | ⟨c, c', d⟩ <;>
    first
      | exact b.trans d.symm
      | exact absurd a c
      | exact absurd c a
      | exact absurd a' c'
      | exact absurd c' a'

/-- If the way to the border edge `e` is straight, then from the cell behind, and that one is at the border. -/
theorem straight_pred {e : Edge} (he : Bd B e) (h : (next B e).d = e.d) :
    B ((next B e).c - ahead e.d) ∧ ¬ B ((next B e).c - ahead e.d + side e.d) := by
  obtain ⟨h1, h2⟩ := he
  rcases next_cases B e with ⟨a, b⟩ | ⟨a, a', b⟩ | ⟨a, a', b⟩ <;> rw [b] at h ⊢
  · exfalso; revert h; cases e.d <;> simp [turnL]
  · simp only
    rw [show e.c + ahead e.d - ahead e.d = e.c by abel]
    exact ⟨h1, h2⟩
  · exfalso; revert h; cases e.d <;> simp [turnR]

theorem fin_next (B : Cell → Prop) (e : Edge) : (next B e).beg = e.fin := by
  obtain ⟨⟨x, y⟩, d⟩ := e
  rcases next_cases B ⟨(x, y), d⟩ with ⟨a, b⟩ | ⟨a, a', b⟩ | ⟨a, a', b⟩ <;> rw [b] <;>
    cases d <;> simp [Edge.beg, Edge.fin, turnL, turnR, ahead, side]

/-! ## The walk -/

/-- The edges of the walk from `e`, `n` steps long. -/
noncomputable def walk (B : Cell → Prop) : Nat → Edge → List Edge
  | 0, _ => []
  | n + 1, e => e :: walk B n (next B e)

theorem walk_mem {n : Nat} {e o : Edge} : o ∈ walk B n e ↔ ∃ i < n, o = (next B)^[i] e := by
  induction n generalizing e with
  | zero => simp [walk]
  | succ n ih =>
    rw [walk, List.mem_cons, ih]
    constructor
    · rintro (rfl | ⟨i, hi, rfl⟩)
      · exact ⟨0, by omega, rfl⟩
      · exact ⟨i + 1, by omega, rfl⟩
    · rintro ⟨i, hi, rfl⟩
      cases i with
      | zero => exact .inl rfl
      | succ i => exact .inr ⟨i, by omega, rfl⟩

theorem iter_bd {e : Edge} (h : Bd B e) (i : Nat) : Bd B ((next B)^[i] e) := by
  induction i generalizing e with
  | zero => exact h
  | succ i ih => exact ih (next_bd h)

theorem iter_inj {e o : Edge} (he : Bd B e) (ho : Bd B o) (i : Nat) (h : (next B)^[i] e = (next B)^[i] o) : e = o := by
  induction i generalizing e o with
  | zero => exact h
  | succ i ih => exact next_inj he ho (ih (next_bd he) (next_bd ho) h)

/-- The set has finitely many cells. -/
def Fin' (B : Cell → Prop) : Prop := {c | B c}.Finite

theorem bd_finite (hf : Fin' B) : {e | Bd B e}.Finite := by
  have h1 : Function.Injective (fun e : Edge => (e.c, e.d)) := by
    rintro ⟨c, d⟩ ⟨c', d'⟩ h
    simp only [Prod.mk.injEq] at h
    obtain ⟨rfl, rfl⟩ := h
    rfl
  have h2 : (Set.univ : Set Dir).Finite := by
    apply Set.Finite.subset (Set.toFinite {Dir.up, Dir.down, Dir.left, Dir.right})
    intro d _
    cases d <;> simp
  apply Set.Finite.of_finite_image (f := fun e : Edge => (e.c, e.d)) _ h1.injOn
  apply Set.Finite.subset (Set.Finite.prod hf h2)
  rintro _ ⟨e, he, rfl⟩
  exact ⟨he.1, trivial⟩

/-- The walk returns to where it began.  (The length is the number of edges of this border.) -/
theorem exists_loop (hf : Fin' B) {e : Edge} (he : Bd B e) :
    ∃ n, 0 < n ∧ (next B)^[n] e = e ∧ ∀ i, 0 < i → i < n → (next B)^[i] e ≠ e := by
  classical
  have : ∃ n, 0 < n ∧ (next B)^[n] e = e := by
    by_contra hcon
    push Not at hcon
    have hinj : Function.Injective (fun i : ℕ => (next B)^[i] e) := by
      intro i j hij
      simp only at hij
      rcases lt_trichotomy i j with h | h | h
      · exfalso
        obtain ⟨k, rfl⟩ : ∃ k, j = i + k := ⟨j - i, by omega⟩
        rw [Function.iterate_add_apply] at hij
        exact hcon k (by omega) (iter_inj he (iter_bd he k) i hij).symm
      · exact h
      · exfalso
        obtain ⟨k, rfl⟩ : ∃ k, i = j + k := ⟨i - j, by omega⟩
        rw [Function.iterate_add_apply] at hij
        exact hcon k (by omega) (iter_inj (iter_bd he k) he j hij)
    have := (bd_finite hf).subset (t := Set.range fun i : ℕ => (next B)^[i] e)
      (by rintro _ ⟨i, rfl⟩; exact iter_bd he i)
    exact Set.infinite_range_of_injective hinj this
  refine ⟨Nat.find this, (Nat.find_spec this).1, (Nat.find_spec this).2, fun i h1 h2 h3 => ?_⟩
  exact Nat.find_min this h2 ⟨h1, h3⟩

/-- A closed walk around the border. -/
structure Loop (B : Cell → Prop) (n : Nat) (e : Edge) : Prop where
  bd : Bd B e
  pos : 0 < n
  closed : (next B)^[n] e = e
  first : ∀ i, 0 < i → i < n → (next B)^[i] e ≠ e

theorem Loop.nodup {n : Nat} {e : Edge} (h : Loop B n e) : (walk B n e).Nodup := by
  have : ∀ m k, k + m ≤ n → (walk B m ((next B)^[k] e)).Nodup := by
    intro m
    induction m with
    | zero => intro k _; simp [walk]
    | succ m ih =>
      intro k hk
      rw [walk, List.nodup_cons]
      refine ⟨?_, ?_⟩
      · rw [walk_mem]
        rintro ⟨i, hi, hc⟩
        rw [← Function.iterate_succ_apply' (next B) k e, ← Function.iterate_add_apply,
          show i + k.succ = k + (i + 1) by omega, Function.iterate_add_apply] at hc
        exact h.first (i + 1) (by omega) (by omega) (iter_inj h.bd (iter_bd h.bd _) k hc).symm
      · have := ih (k + 1) (by omega)
        rwa [Function.iterate_succ_apply'] at this
  exact this n 0 (by omega)

theorem Loop.mem_bd {n : Nat} {e o : Edge} (h : Loop B n e) (ho : o ∈ walk B n e) : Bd B o := by
  obtain ⟨i, -, rfl⟩ := walk_mem.1 ho
  exact iter_bd h.bd i

theorem Loop.self {n : Nat} {e : Edge} (h : Loop B n e) : e ∈ walk B n e := walk_mem.2 ⟨0, h.pos, rfl⟩

theorem Loop.mem_next {n : Nat} {e o : Edge} (h : Loop B n e) (ho : Bd B o) :
    next B o ∈ walk B n e ↔ o ∈ walk B n e := by
  rw [walk_mem, walk_mem]
  constructor
  · rintro ⟨i, hi, hc⟩
    cases i with
    | zero =>
      refine ⟨n - 1, by have := h.pos; omega, ?_⟩
      apply next_inj ho (iter_bd h.bd _)
      rw [hc, ← Function.iterate_succ_apply' (next B), show (n - 1).succ = n by have := h.pos; omega, h.closed]
      rfl
    | succ i =>
      refine ⟨i, by omega, next_inj ho (iter_bd h.bd _) ?_⟩
      rw [hc, Function.iterate_succ_apply']
  · rintro ⟨i, hi, rfl⟩
    by_cases hn : i + 1 = n
    · refine ⟨0, h.pos, ?_⟩
      rw [← Function.iterate_succ_apply' (next B), show i.succ = n by omega, h.closed]
      rfl
    · exact ⟨i + 1, by omega, by rw [Function.iterate_succ_apply']⟩

/-- Going along a walk, the corners in a set are entered and left. -/
theorem walk_telescope (S : ℤ × ℤ → Prop) (n : Nat) (e : Edge) :
    xsum (fun o : Edge => ¬ (S o.beg ↔ S o.fin)) (walk B n e) ↔ ¬ (S e.beg ↔ S ((next B)^[n] e).beg) := by
  induction n generalizing e with
  | zero => simp [walk]
  | succ n ih =>
    rw [walk, xsum_cons, ih, fin_next, Function.iterate_succ_apply]
    tauto

/-! ## Inside and outside -/

/-- The rightward ray from the middle of the cell crosses the edge. -/
def hit (c : Cell) (e : Edge) : Prop :=
  (e.d = .up ∧ e.c.2 = c.2 ∧ c.1 < e.c.1) ∨ (e.d = .down ∧ e.c.2 = c.2 ∧ c.1 ≤ e.c.1)

/-- The cell is encircled by the walk: the ray from it crosses an odd number of edges. -/
def Enc (B : Cell → Prop) (n : Nat) (e : Edge) (c : Cell) : Prop := xsum (hit c) (walk B n e)

theorem xsum_eq_mem {α : Type} {l : List α} (hl : l.Nodup) (a : α) : xsum (fun b => b = a) l ↔ a ∈ l := by
  induction l with
  | nil => simp
  | cons b l ih =>
    obtain ⟨h1, h2⟩ := List.nodup_cons.1 hl
    rw [xsum_cons, ih h2, List.mem_cons]
    constructor
    · intro h
      by_cases e : a = b
      · exact .inl e
      · exact .inr (by by_contra h'; exact h ⟨fun h => absurd h.symm e, fun h => absurd h h'⟩)
    · rintro (rfl | h) hc
      · exact h1 (hc.1 rfl)
      · have := hc.2 h; subst this; exact h1 h

theorem xsum_false {α : Type} {f : α → Prop} {l : List α} (h : ∀ a ∈ l, ¬ f a) : ¬ xsum f l := by
  induction l with
  | nil => simp
  | cons a l ih =>
    rw [xsum_cons, not_not]
    have h1 := h a (by simp)
    have h2 := ih fun b hb => h b (List.mem_cons_of_mem _ hb)
    tauto

section
variable {n : Nat} {e : Edge} (hl : Loop B n e)
include hl

/-- Neighbours in a row. -/
theorem enc_row (x y : ℤ) : ¬ (Enc B n e (x, y) ↔ Enc B n e (x + 1, y)) ↔
    (⟨(x + 1, y), .up⟩ ∈ walk B n e ∨ ⟨(x, y), .down⟩ ∈ walk B n e) := by
  unfold Enc
  rw [← xsum_xor]
  have h1 : ∀ o : Edge, ¬ (hit (x, y) o ↔ hit (x + 1, y) o) ↔ (o = ⟨(x + 1, y), .up⟩ ∨ o = ⟨(x, y), .down⟩) := by
    rintro ⟨⟨a, b⟩, d⟩
    cases d <;> simp [hit, Edge.mk.injEq] <;> omega
  have hxor : xsum (fun o : Edge => ¬ (hit (x, y) o ↔ hit (x + 1, y) o)) (walk B n e) ↔
      xsum (fun o : Edge => ¬ (o = ⟨(x + 1, y), .up⟩ ↔ o = ⟨(x, y), .down⟩)) (walk B n e) := by
    apply xsum_congr
    intro o _
    rw [h1]
    constructor
    · rintro (rfl | rfl) <;> simp
    · intro h; by_contra hc; push Not at hc; exact h ⟨fun h => absurd h hc.1, fun h => absurd h hc.2⟩
  rw [hxor, xsum_xor, xsum_eq_mem hl.nodup, xsum_eq_mem hl.nodup]
  have : ¬ (⟨(x + 1, y), Dir.up⟩ ∈ walk B n e ∧ ⟨(x, y), Dir.down⟩ ∈ walk B n e) := by
    rintro ⟨a, b⟩
    have a' := hl.mem_bd a
    have b' := hl.mem_bd b
    apply a'.2
    have : (⟨(x + 1, y), Dir.up⟩ : Edge).out = (x, y) := by simp [Edge.out, side]
    rw [this]
    exact b'.1
  tauto

/-- Neighbours in a column. -/
theorem enc_col (x y : ℤ) : ¬ (Enc B n e (x, y) ↔ Enc B n e (x, y + 1)) ↔
    (⟨(x, y), .right⟩ ∈ walk B n e ∨ ⟨(x, y + 1), .left⟩ ∈ walk B n e) := by
  unfold Enc
  rw [← xsum_xor]
  have ht := walk_telescope (B := B) (fun p : ℤ × ℤ => p.2 = y + 1 ∧ x < p.1) n e
  rw [hl.closed] at ht
  have h1 : ∀ o : Edge, ¬ (¬ (hit (x, y) o ↔ hit (x, y + 1) o) ↔
      ¬ ((o.beg.2 = y + 1 ∧ x < o.beg.1) ↔ (o.fin.2 = y + 1 ∧ x < o.fin.1))) ↔
      ¬ (o = ⟨(x, y), .right⟩ ↔ o = ⟨(x, y + 1), .left⟩) := by
    rintro ⟨⟨a, b⟩, d⟩
    cases d <;> simp [hit, Edge.mk.injEq, Edge.beg, Edge.fin] <;> omega
  have hxor : xsum (fun o : Edge => ¬ (¬ (hit (x, y) o ↔ hit (x, y + 1) o) ↔
      ¬ ((o.beg.2 = y + 1 ∧ x < o.beg.1) ↔ (o.fin.2 = y + 1 ∧ x < o.fin.1)))) (walk B n e) ↔
      xsum (fun o : Edge => ¬ (o = ⟨(x, y), .right⟩ ↔ o = ⟨(x, y + 1), .left⟩)) (walk B n e) :=
    xsum_congr fun o _ => h1 o
  rw [xsum_xor, xsum_xor (f := fun o : Edge => o = ⟨(x, y), .right⟩), xsum_eq_mem hl.nodup, xsum_eq_mem hl.nodup] at hxor
  have : ¬ (⟨(x, y), Dir.right⟩ ∈ walk B n e ∧ ⟨(x, y + 1), Dir.left⟩ ∈ walk B n e) := by
    rintro ⟨a, b⟩
    have a' := hl.mem_bd a
    have b' := hl.mem_bd b
    apply a'.2
    have : (⟨(x, y), Dir.right⟩ : Edge).out = (x, y + 1) := by simp [Edge.out, side]
    rw [this]
    exact b'.1
  tauto

/-- Only the edges of the walk separate inside from outside. -/
theorem enc_cross {c : Cell} {d : Dir} (h : Bd B ⟨c, d⟩) :
    (Enc B n e c ↔ Enc B n e (c + side d)) ↔ ⟨c, d⟩ ∉ walk B n e := by
  obtain ⟨x, y⟩ := c
  obtain ⟨h1, h2⟩ := h
  unfold Edge.out at h2
  simp only at h1 h2
  cases d
  · have := enc_row hl (x - 1) y
    rw [show x - 1 + 1 = x by omega] at this
    have h3 : ⟨(x - 1, y), Dir.down⟩ ∉ walk B n e := fun h => h2 (by simpa [side, sub_eq_add_neg] using (hl.mem_bd h).1)
    have h4 : ((x, y) : Cell) + side .up = (x - 1, y) := by simp [side, sub_eq_add_neg]
    rw [h4]
    tauto
  · have := enc_row hl x y
    have h3 : ⟨(x + 1, y), Dir.up⟩ ∉ walk B n e := fun h => h2 (by simpa [side] using (hl.mem_bd h).1)
    have h4 : ((x, y) : Cell) + side .down = (x + 1, y) := by simp [side]
    rw [h4]
    tauto
  · have := enc_col hl x (y - 1)
    rw [show y - 1 + 1 = y by omega] at this
    have h3 : ⟨(x, y - 1), Dir.right⟩ ∉ walk B n e := fun h => h2 (by simpa [side, sub_eq_add_neg] using (hl.mem_bd h).1)
    have h4 : ((x, y) : Cell) + side .left = (x, y - 1) := by simp [side, sub_eq_add_neg]
    rw [h4]
    tauto
  · have := enc_col hl x y
    have h3 : ⟨(x, y + 1), Dir.left⟩ ∉ walk B n e := fun h => h2 (by simpa [side] using (hl.mem_bd h).1)
    have h4 : ((x, y) : Cell) + side .right = (x, y + 1) := by simp [side]
    rw [h4]
    tauto

theorem enc_same {c : Cell} {d : Dir} (h : B c ↔ B (c + side d)) : Enc B n e c ↔ Enc B n e (c + side d) := by
  obtain ⟨x, y⟩ := c
  have key : ∀ c d, Edge.mk c d ∈ walk B n e → B c ∧ ¬ B (c + side d) := fun c d h => hl.mem_bd h
  cases d
  · have := enc_row hl (x - 1) y
    rw [show x - 1 + 1 = x by omega] at this
    have h4 : ((x, y) : Cell) + side .up = (x - 1, y) := by simp [side, sub_eq_add_neg]
    rw [h4] at h ⊢
    have k1 := key (x, y) .up
    have k2 := key (x - 1, y) .down
    rw [h4] at k1
    rw [show ((x - 1, y) : Cell) + side .down = (x, y) by simp [side]] at k2
    tauto
  · have := enc_row hl x y
    have h4 : ((x, y) : Cell) + side .down = (x + 1, y) := by simp [side]
    rw [h4] at h ⊢
    have k1 := key (x, y) .down
    have k2 := key (x + 1, y) .up
    rw [h4] at k1
    rw [show ((x + 1, y) : Cell) + side .up = (x, y) by simp [side]] at k2
    tauto
  · have := enc_col hl x (y - 1)
    rw [show y - 1 + 1 = y by omega] at this
    have h4 : ((x, y) : Cell) + side .left = (x, y - 1) := by simp [side, sub_eq_add_neg]
    rw [h4] at h ⊢
    have k1 := key (x, y) .left
    have k2 := key (x, y - 1) .right
    rw [h4] at k1
    rw [show ((x, y - 1) : Cell) + side .right = (x, y) by simp [side]] at k2
    tauto
  · have := enc_col hl x y
    have h4 : ((x, y) : Cell) + side .right = (x, y + 1) := by simp [side]
    rw [h4] at h ⊢
    have k1 := key (x, y) .right
    have k2 := key (x, y + 1) .left
    rw [h4] at k1
    rw [show ((x, y + 1) : Cell) + side .left = (x, y) by simp [side]] at k2
    tauto

/-- Cells of the set that touch at a corner are on the same side. -/
theorem enc_diag {c : Cell} {d : Dir} (h1 : B c) (h2 : B (c + ahead d + side d)) :
    Enc B n e c ↔ Enc B n e (c + ahead d + side d) := by
  by_cases h3 : B (c + ahead d)
  · have k1 := enc_same hl (c := c) (d := turnR d) (by rw [side_turnR]; tauto)
    rw [side_turnR] at k1
    exact k1.trans (enc_same hl (by tauto))
  · by_cases h4 : B (c + side d)
    · have k1 := enc_same hl (c := c) (d := d) (by tauto)
      have k2 := enc_same hl (c := c + side d) (d := turnR d) (by
        rw [side_turnR, show c + side d + ahead d = c + ahead d + side d by abel]; tauto)
      rw [side_turnR, show c + side d + ahead d = c + ahead d + side d by abel] at k2
      exact k1.trans k2
    · have hb : Bd B ⟨c, d⟩ := ⟨h1, h4⟩
      have hn : next B ⟨c, d⟩ = ⟨c + ahead d + side d, turnL d⟩ := by simp [next, h2]
      have k1 := enc_cross hl hb
      have k2 := enc_cross hl (hn ▸ next_bd hb)
      rw [← hn, hl.mem_next hb] at k2
      rw [side_turnL, show c + ahead d + side d + -ahead d = c + side d by abel] at k2
      tauto

end

/-! ## Connected sets -/

/-- Cells with a common side. -/
def Adj4 (a b : Cell) : Prop := ∃ d, b = a + side d

/-- Cells with a common side or corner. -/
def Adj8 (a b : Cell) : Prop := Adj4 a b ∨ ∃ d, b = a + ahead d + side d

theorem Adj4.symm {a b : Cell} (h : Adj4 a b) : Adj4 b a := by
  obtain ⟨d, rfl⟩ := h
  refine ⟨turnL (turnL d), ?_⟩
  rw [side_turnL, ahead_turnL]
  abel

theorem Adj8.symm {a b : Cell} (h : Adj8 a b) : Adj8 b a := by
  rcases h with h | ⟨d, rfl⟩
  · exact .inl h.symm
  · refine .inr ⟨turnL (turnL d), ?_⟩
    rw [side_turnL, ahead_turnL, ahead_turnL, side_turnL]
    abel

/-- A way through cells with common sides that all satisfy `F`. -/
def Way (F : Cell → Prop) : Cell → Cell → Prop := Relation.ReflTransGen fun a b => Adj4 a b ∧ F a ∧ F b

/-- The same, where stepping over a corner is allowed. -/
def Way8 (F : Cell → Prop) : Cell → Cell → Prop := Relation.ReflTransGen fun a b => Adj8 a b ∧ F a ∧ F b

theorem Way.symm {F : Cell → Prop} {a b : Cell} (h : Way F a b) : Way F b a := by
  induction h with
  | refl => exact .refl
  | tail _ h ih => exact .head ⟨h.1.symm, h.2.2, h.2.1⟩ ih

theorem Way8.symm {F : Cell → Prop} {a b : Cell} (h : Way8 F a b) : Way8 F b a := by
  induction h with
  | refl => exact .refl
  | tail _ h ih => exact .head ⟨h.1.symm, h.2.2, h.2.1⟩ ih

theorem Way.mono {F G : Cell → Prop} (h : ∀ c, F c → G c) {a b : Cell} (hw : Way F a b) : Way G a b := by
  induction hw with
  | refl => exact .refl
  | tail _ h' ih => exact ih.tail ⟨h'.1, h _ h'.2.1, h _ h'.2.2⟩

theorem Way.step {F : Cell → Prop} {a : Cell} {d : Dir} (h1 : F a) (h2 : F (a + side d)) : Way F a (a + side d) :=
  .single ⟨⟨d, rfl⟩, h1, h2⟩

section
variable {n : Nat} {e : Edge} (hl : Loop B n e)
include hl

theorem enc_way {a b : Cell} (h : Way (fun c => ¬ B c) a b) : Enc B n e a ↔ Enc B n e b := by
  induction h with
  | refl => rfl
  | tail _ h ih =>
    obtain ⟨⟨d, rfl⟩, h1, h2⟩ := h
    exact ih.trans (enc_same hl (by tauto))

theorem enc_way8 {a b : Cell} (h : Way8 B a b) : Enc B n e a ↔ Enc B n e b := by
  induction h with
  | refl => rfl
  | tail _ h ih =>
    obtain ⟨⟨d, rfl⟩ | ⟨d, rfl⟩, h1, h2⟩ := h
    · exact ih.trans (enc_same hl (by tauto))
    · exact ih.trans (enc_diag hl h1 h2)

end

/-- The cells on the left-hand side of the walk are connected.  Here `F` are the cells around the set that do not belong to
it. -/
theorem out_next {F : Cell → Prop} (hF : ∀ c d, B c → ¬ B (c + side d) → F (c + side d))
    (hF' : ∀ c d, B c → ¬ B (c + ahead d + side d) → F (c + ahead d + side d)) {o : Edge} (ho : Bd B o) :
    Way F o.out (next B o).out := by
  obtain ⟨h1, h2⟩ := ho
  have f1 : F o.out := hF _ _ h1 h2
  rcases next_cases B o with ⟨a, b⟩ | ⟨a, a', b⟩ | ⟨a, a', b⟩ <;> rw [b]
  · simp only [Edge.out, side_turnL]
    rw [show o.c + ahead o.d + side o.d + -ahead o.d = o.c + side o.d by abel]
    exact .refl
  · have f2 := hF' _ _ h1 a
    have := Way.step (F := F) (a := o.out) (d := turnR o.d) f1 (by
      rw [side_turnR, Edge.out, show o.c + side o.d + ahead o.d = o.c + ahead o.d + side o.d by abel]; exact f2)
    rw [side_turnR] at this
    simp only [Edge.out] at this ⊢
    rwa [show o.c + side o.d + ahead o.d = o.c + ahead o.d + side o.d by abel] at this
  · have f2 := hF' _ _ h1 a
    have f3 : F (o.c + ahead o.d) := by
      have := hF o.c (turnR o.d) h1
      rw [side_turnR] at this
      exact this a'
    have s1 := Way.step (F := F) (a := o.out) (d := turnR o.d) f1 (by
      rw [side_turnR, Edge.out, show o.c + side o.d + ahead o.d = o.c + ahead o.d + side o.d by abel]; exact f2)
    have e1 : o.out + side (turnR o.d) = o.c + ahead o.d + side o.d := by rw [side_turnR, Edge.out]; abel
    rw [e1] at s1
    have e2 : o.c + ahead o.d + side o.d + side (turnR (turnR o.d)) = o.c + ahead o.d := by
      rw [side_turnR, ahead_turnR]; abel
    have s2 := Way.step (F := F) (a := o.c + ahead o.d + side o.d) (d := turnR (turnR o.d)) f2 (by rw [e2]; exact f3)
    rw [e2] at s2
    simp only [Edge.out, side_turnR] at s1 ⊢
    exact s1.trans s2

theorem out_walk {F : Cell → Prop} (hF : ∀ c d, B c → ¬ B (c + side d) → F (c + side d))
    (hF' : ∀ c d, B c → ¬ B (c + ahead d + side d) → F (c + ahead d + side d)) {n : Nat} {e o : Edge} (he : Bd B e)
    (ho : o ∈ walk B n e) : Way F e.out o.out := by
  obtain ⟨i, -, rfl⟩ := walk_mem.1 ho
  clear ho
  induction i with
  | zero => exact .refl
  | succ i ih =>
    rw [Function.iterate_succ_apply']
    exact ih.trans (out_next hF hF' (iter_bd he i))

theorem Way.end_or {F : Cell → Prop} {a b : Cell} (h : Way F a b) : a = b ∨ (F a ∧ F b) := by
  induction h with
  | refl => exact .inl rfl
  | tail _ h ih =>
    rcases ih with rfl | ih
    · exact .inr h.2
    · exact .inr ⟨ih.1, h.2.2⟩

theorem Way8.end_or {F : Cell → Prop} {a b : Cell} (h : Way8 F a b) : a = b ∨ (F a ∧ F b) := by
  induction h with
  | refl => exact .inl rfl
  | tail _ h ih =>
    rcases ih with rfl | ih
    · exact .inr h.2
    · exact .inr ⟨ih.1, h.2.2⟩

/-! ## In a rectangle -/

/-- A cell of the rectangle. -/
def InG (w h : ℤ) (c : Cell) : Prop := (0 ≤ c.1 ∧ c.1 < w) ∧ 0 ≤ c.2 ∧ c.2 < h

theorem finite_of_inG {w h : ℤ} (hB : ∀ c, B c → InG w h c) : Fin' B := by
  apply Set.Finite.subset (Set.Finite.prod (Set.finite_Ico (0 : ℤ) w) (Set.finite_Ico (0 : ℤ) h))
  intro c hc
  obtain ⟨h1, h2⟩ := hB c hc
  exact ⟨h1, h2⟩

/-- From the cell one can leave the rectangle without entering the set. -/
def Esc (w h : ℤ) (B : Cell → Prop) (c : Cell) : Prop := ∃ o, ¬ InG w h o ∧ Way (fun c => ¬ B c) c o

section
variable {w h : ℤ} (hB : ∀ c, B c → InG w h c)
include hB

theorem not_enc_out {n : Nat} {e : Edge} (hl : Loop B n e) {c : Cell} (hc : ¬ InG w h c) : ¬ Enc B n e c := by
  have row : ∀ x y : ℤ, (y < 0 ∨ h ≤ y ∨ w ≤ x) → ¬ Enc B n e (x, y) := by
    intro x y hy
    apply xsum_false
    intro o ho
    obtain ⟨⟨a, b⟩, c, d⟩ := hB _ (hl.mem_bd ho).1
    unfold hit
    simp only
    omega
  obtain ⟨x, y⟩ := c
  by_cases hx : 0 ≤ x
  · refine row x y ?_
    unfold InG at hc
    simp only at hc
    omega
  · have hcol : ∀ k : Nat, Way (fun c => ¬ B c) (x, y) (x, y - k) := by
      have hfree : ∀ y, ¬ B (x, y) := by
        intro y hb
        obtain ⟨⟨a, -⟩, -⟩ := hB _ hb
        exact hx a
      intro k
      induction k with
      | zero => rw [Nat.cast_zero, sub_zero]; exact .refl
      | succ k ih =>
        refine ih.trans ?_
        have e : ((x, y - (k : ℤ)) : Cell) + side .left = (x, y - ((k + 1 : ℕ) : ℤ)) := by
          simp only [side, Prod.mk_add_mk, Prod.mk.injEq]
          push_cast
          omega
        have := Way.step (F := fun c => ¬ B c) (a := (x, y - k)) (d := .left) (hfree _) (by rw [e]; exact hfree _)
        rwa [e] at this
    rw [enc_way hl (hcol (y + 1).toNat)]
    apply row
    omega

/-- Going left from a cell one leaves the rectangle or comes to the set. -/
theorem esc_or_border {z : Cell} (hz : ¬ B z) :
    Esc w h B z ∨ ∃ b d, Bd B ⟨b, d⟩ ∧ Way (fun c => ¬ B c) z (b + side d) := by
  obtain ⟨x, y⟩ := z
  have key : ∀ k : Nat, ∀ x : ℤ, x.toNat = k → ¬ B (x, y) →
      Esc w h B (x, y) ∨ ∃ b d, Bd B ⟨b, d⟩ ∧ Way (fun c => ¬ B c) (x, y) (b + side d) := by
    have hstep : ∀ x : ℤ, ((x, y) : Cell) + side .up = (x - 1, y) := by simp [side, sub_eq_add_neg]
    have hback : ∀ x : ℤ, ((x - 1, y) : Cell) + side .down = (x, y) := by simp [side]
    have hend : ∀ x : ℤ, ¬ B (x, y) → B (x - 1, y) →
        ∃ b d, Bd B ⟨b, d⟩ ∧ Way (fun c => ¬ B c) (x, y) (b + side d) := by
      intro x hz hb
      refine ⟨(x - 1, y), .down, ⟨hb, ?_⟩, ?_⟩
      · simp only [Edge.out, hback]; exact hz
      · rw [hback]; exact .refl
    intro k
    induction k with
    | zero =>
      intro x hx hz
      by_cases hb : B (x - 1, y)
      · exact .inr (hend x hz hb)
      · left
        refine ⟨(x - 1, y), ?_, ?_⟩
        · unfold InG; simp only; omega
        · have := Way.step (F := fun c => ¬ B c) (a := (x, y)) (d := .up) hz (by rw [hstep]; exact hb)
          rwa [hstep] at this
    | succ k ih =>
      intro x hx hz
      by_cases hb : B (x - 1, y)
      · exact .inr (hend x hz hb)
      · have s := Way.step (F := fun c => ¬ B c) (a := (x, y)) (d := .up) hz (by rw [hstep]; exact hb)
        rw [hstep] at s
        rcases ih (x - 1) (by omega) hb with ⟨o, h1, h2⟩ | ⟨b, d, h1, h2⟩
        · exact .inl ⟨o, h1, s.trans h2⟩
        · exact .inr ⟨b, d, h1, s.trans h2⟩
  exact key _ x rfl hz

omit hB in
theorem esc_left {x y : ℤ} (hfree : ∀ x' ≤ x, ¬ B (x', y)) : Esc w h B (x, y) := by
  have hrow : ∀ j : Nat, Way (fun c => ¬ B c) (x, y) (x - j, y) := by
    intro j
    induction j with
    | zero => rw [Nat.cast_zero, sub_zero]; exact .refl
    | succ j ihj =>
      refine ihj.trans ?_
      have e2 : ((x - (j : ℤ), y) : Cell) + side .up = (x - ((j + 1 : ℕ) : ℤ), y) := by
        simp only [side, Prod.mk_add_mk, Prod.mk.injEq]; push_cast; omega
      have := Way.step (F := fun c => ¬ B c) (a := (x - (j : ℤ), y)) (d := .up) (hfree _ (by omega))
        (by rw [e2]; exact hfree _ (by omega))
      rwa [e2] at this
  exact ⟨_, by unfold InG; simp only; omega, hrow (x.toNat + 1)⟩

theorem mem_not_esc {c : Cell} (hc : B c) : ¬ Esc w h B c := by
  rintro ⟨o, h1, h2⟩
  rcases h2.end_or with rfl | ⟨h3, -⟩
  · exact h1 (hB _ hc)
  · exact h3 hc

/-- The walk around the outside encircles what one cannot leave without crossing the set. -/
theorem enc_outer (conn : ∀ a b, B a → B b → Way8 B a b) {n : Nat} {e : Edge} (hl : Loop B n e)
    (he : Esc w h B e.out) (c : Cell) : Enc B n e c ↔ ¬ Esc w h B c := by
  have hesc : ∀ c, Esc w h B c → ¬ Enc B n e c := by
    rintro c ⟨o, h1, h2⟩
    rw [enc_way hl h2]
    exact not_enc_out hB hl h1
  have hin : Enc B n e e.c := by
    have := enc_cross hl (c := e.c) (d := e.d) hl.bd
    have h1 := hl.self
    have h2 := hesc _ he
    unfold Edge.out at h2
    tauto
  have hall : ∀ b, B b → Enc B n e b := fun b hb => (enc_way8 hl (conn _ _ hl.bd.1 hb)).1 hin
  refine ⟨fun h1 h2 => hesc c h2 h1, fun hn => ?_⟩
  by_cases hc : B c
  · exact hall c hc
  · rcases esc_or_border hB hc with h1 | ⟨b, d, h1, h2⟩
    · exact absurd h1 hn
    · rw [enc_way hl h2]
      refine ((enc_cross hl h1).2 ?_).1 (hall b h1.1)
      intro hm
      apply hn
      have h3 := out_walk (F := fun c => ¬ B c) (fun _ _ _ h => h) (fun _ _ _ h => h) hl.bd hm
      obtain ⟨o, h4, h5⟩ := he
      exact ⟨o, h4, h2.trans (h3.symm.trans h5)⟩

/-- The walk around a hole encircles the hole. -/
theorem enc_inner (conn : ∀ a b, B a → B b → Way8 B a b) {n : Nat} {e : Edge} (hl : Loop B n e)
    (he : ¬ Esc w h B e.out) (c : Cell) : Enc B n e c ↔ Way (fun c => ¬ B c) e.out c := by
  have hw : ∀ o ∈ walk B n e, Way (fun c => ¬ B c) e.out o.out :=
    fun o ho => out_walk (F := fun c => ¬ B c) (fun _ _ _ h => h) (fun _ _ _ h => h) hl.bd ho
  -- a cell of the set next to the outside
  obtain ⟨b, d, hb, hbe⟩ : ∃ b d, Bd B ⟨b, d⟩ ∧ Esc w h B (b + side d) := by
    obtain ⟨b, hb, hmin⟩ := Set.exists_min_image {c | B c} (fun c => c.1) (finite_of_inG hB) ⟨e.c, hl.bd.1⟩
    obtain ⟨x, y⟩ := b
    have hfree : ∀ x' < x, ¬ B (x', y) := fun x' hx hb' => by have := hmin _ hb'; simp only at this; omega
    have e1 : ((x, y) : Cell) + side .up = (x - 1, y) := by simp [side, sub_eq_add_neg]
    refine ⟨(x, y), .up, ⟨hb, ?_⟩, ?_⟩
    · simp only [Edge.out, e1]; exact hfree _ (by omega)
    · rw [e1]; exact esc_left fun x' hx => hfree x' (by omega)
  have hbn : ¬ Enc B n e b := by
    obtain ⟨o, h1, h2⟩ := hbe
    have hm : (⟨b, d⟩ : Edge) ∉ walk B n e := fun hm => he ⟨o, h1, (hw _ hm).trans h2⟩
    rw [(enc_cross hl hb).2 hm, enc_way hl h2]
    exact not_enc_out hB hl h1
  have hall : ∀ b, B b → ¬ Enc B n e b := fun b' hb' => (enc_way8 hl (conn _ _ hb.1 hb')).not.1 hbn
  have hout : Enc B n e e.out := by
    have := enc_cross hl (c := e.c) (d := e.d) hl.bd
    have h1 := hl.self
    have h2 := hall _ hl.bd.1
    unfold Edge.out
    tauto
  refine ⟨fun hc => ?_, fun hc => (enc_way hl hc).1 hout⟩
  by_cases hbc : B c
  · exact absurd hc (hall c hbc)
  · rcases esc_or_border hB hbc with ⟨o, h1, h2⟩ | ⟨b', d', h1, h2⟩
    · rw [enc_way hl h2] at hc
      exact absurd hc (not_enc_out hB hl h1)
    · rw [enc_way hl h2] at hc
      by_cases hm : (⟨b', d'⟩ : Edge) ∈ walk B n e
      · exact (hw _ hm).trans h2.symm
      · exact absurd (((enc_cross hl h1).2 hm).2 hc) (hall b' h1.1)

end

/-! ## A closed map -/

variable {K : Cell → Prop}

/-- The component of a blocked cell. -/
def cls (K : Cell → Prop) (b c : Cell) : Prop := K b ∧ Way8 K b c

theorem cls_sub {b c : Cell} (h : cls K b c) : K c := by
  rcases h.2.end_or with rfl | h'
  · exact h.1
  · exact h'.2

theorem cls_self {b : Cell} (h : K b) : cls K b b := ⟨h, .refl⟩

theorem cls_clos {b c c' : Cell} (h : cls K b c) (ha : Adj8 c c') (hk : K c') : cls K b c' :=
  ⟨h.1, h.2.tail ⟨ha, cls_sub h, hk⟩⟩

theorem cls_eq {b c : Cell} (h : cls K b c) (z : Cell) : cls K b z ↔ cls K c z :=
  ⟨fun h' => ⟨cls_sub h, h.2.symm.trans h'.2⟩, fun h' => ⟨h.1, h.2.trans h'.2⟩⟩

theorem cls_conn (b : Cell) : ∀ x y, cls K b x → cls K b y → Way8 (cls K b) x y := by
  have key : ∀ y, Way8 K b y → K b → Way8 (cls K b) b y := by
    intro y h hb
    induction h with
    | refl => exact .refl
    | tail h1 h2 ih => exact ih.tail ⟨h2.1, ⟨hb, h1⟩, ⟨hb, h1.tail h2⟩⟩
  intro x y hx hy
  exact (key x hx.2 hx.1).symm.trans (key y hy.2 hy.1)

theorem cls_out4 {b c : Cell} {d : Dir} (h : cls K b c) (hn : ¬ cls K b (c + side d)) : ¬ K (c + side d) :=
  fun hk => hn (cls_clos h (.inl ⟨d, rfl⟩) hk)

theorem cls_out8 {b c : Cell} {d : Dir} (h : cls K b c) (hn : ¬ cls K b (c + ahead d + side d)) :
    ¬ K (c + ahead d + side d) :=
  fun hk => hn (cls_clos h (.inr ⟨d, rfl⟩) hk)

/-- A component does not obstruct the way along another one. -/
theorem cls_way {b b' : Cell} (hne : ¬ cls K b' b) {x y : Cell} (h : Way8 (cls K b) x y) :
    Way (fun c => ¬ cls K b' c) x y := by
  have hdisj : ∀ c, cls K b c → ¬ cls K b' c := by
    intro c h1 h2
    exact hne ((cls_eq h2 b).2 ((cls_eq h1 b).1 (cls_self h1.1)))
  induction h with
  | refl => exact .refl
  | tail _ h ih =>
    refine ih.trans ?_
    obtain ⟨⟨d, rfl⟩ | ⟨d, rfl⟩, h1, h2⟩ := h
    · exact Way.step (hdisj _ h1) (hdisj _ h2)
    · rename_i a _
      have hm : ¬ cls K b' (a + side d) := by
        intro hc
        refine hdisj _ h1 (cls_clos hc (Adj8.symm (.inl ⟨d, rfl⟩)) (cls_sub h1))
      have s1 := Way.step (F := fun c => ¬ cls K b' c) (hdisj _ h1) hm
      have e : a + side d + side (turnR d) = a + ahead d + side d := by rw [side_turnR]; abel
      have s2 := Way.step (F := fun c => ¬ cls K b' c) (a := a + side d) (d := turnR d) hm
        (by rw [e]; exact hdisj _ h2)
      rw [e] at s2
      exact s1.trans s2

/-- A map: the cells at the border of the rectangle are blocked. -/
structure Closed (w h : ℤ) (K : Cell → Prop) : Prop where
  inG : ∀ c, K c → InG w h c
  border : ∀ c, InG w h c → (c.1 = 0 ∨ c.1 = w - 1 ∨ c.2 = 0 ∨ c.2 = h - 1) → K c
  wpos : 0 < w
  hpos : 0 < h

section
variable {w h : ℤ} (hc : Closed w h K)
include hc

theorem way_row {x y x' : ℤ} (hk : ∀ z, x ≤ z → z ≤ x' → K (z, y)) (hx : x ≤ x') : Way8 K (x, y) (x', y) := by
  obtain ⟨k, rfl⟩ : ∃ k : Nat, x' = x + k := ⟨(x' - x).toNat, by omega⟩
  clear hx
  induction k with
  | zero => rw [Nat.cast_zero, add_zero]; exact .refl
  | succ k ih =>
    refine (ih fun z h1 h2 => hk z h1 (by push_cast; omega)).tail ⟨.inl ⟨.down, ?_⟩, hk _ (by omega) (by push_cast; omega), hk _ (by push_cast; omega) le_rfl⟩
    simp only [side, Prod.mk_add_mk, Prod.mk.injEq]
    push_cast
    omega

theorem way_column {x y y' : ℤ} (hk : ∀ z, y ≤ z → z ≤ y' → K (x, z)) (hy : y ≤ y') : Way8 K (x, y) (x, y') := by
  obtain ⟨k, rfl⟩ : ∃ k : Nat, y' = y + k := ⟨(y' - y).toNat, by omega⟩
  clear hy
  induction k with
  | zero => rw [Nat.cast_zero, add_zero]; exact .refl
  | succ k ih =>
    refine (ih fun z h1 h2 => hk z h1 (by push_cast; omega)).tail ⟨.inl ⟨.right, ?_⟩, hk _ (by omega) (by push_cast; omega), hk _ (by push_cast; omega) le_rfl⟩
    simp only [side, Prod.mk_add_mk, Prod.mk.injEq]
    push_cast
    omega

/-- The border belongs to the component of the first corner. -/
theorem border_cls {c : Cell} (hg : InG w h c) (hb : c.1 = 0 ∨ c.1 = w - 1 ∨ c.2 = 0 ∨ c.2 = h - 1) :
    cls K (0, 0) c := by
  have hw := hc.wpos
  have hh := hc.hpos
  obtain ⟨x, y⟩ := c
  obtain ⟨⟨h1, h2⟩, h3, h4⟩ := hg
  simp only at h1 h2 h3 h4 hb
  have B : ∀ x y : ℤ, 0 ≤ x → x < w → 0 ≤ y → y < h → (x = 0 ∨ x = w - 1 ∨ y = 0 ∨ y = h - 1) → K (x, y) :=
    fun x y a b c d e => hc.border (x, y) ⟨⟨a, b⟩, c, d⟩ e
  have bottom : ∀ x, 0 ≤ x → x < w → Way8 K (0, 0) (x, 0) :=
    fun x a b => way_row hc (fun z c d => B z 0 (by omega) (by omega) (by omega) (by omega) (by omega)) a
  have lft : ∀ y, 0 ≤ y → y < h → Way8 K (0, 0) (0, y) :=
    fun y a b => way_column hc (fun z c d => B 0 z (by omega) (by omega) (by omega) (by omega) (by omega)) a
  refine ⟨B 0 0 (by omega) (by omega) (by omega) (by omega) (by omega), ?_⟩
  rcases hb with rfl | rfl | rfl | rfl
  · exact lft y h3 h4
  · exact (bottom (w - 1) h1 h2).trans (way_column hc (fun z c d => B _ z (by omega) (by omega) (by omega) (by omega) (by omega)) h3)
  · exact bottom x h1 h2
  · exact (lft (h - 1) h3 h4).trans (way_row hc (fun z c d => B z _ (by omega) (by omega) (by omega) (by omega) (by omega)) h1)

/-- What does not belong to the outer component stays inside. -/
theorem way_inG {a b : Cell} (ha : InG w h a) (hw : Way (fun c => ¬ cls K (0, 0) c) a b) : InG w h b := by
  induction hw with
  | refl => exact ha
  | tail _ h' ih =>
    rename_i x y _
    obtain ⟨⟨d, rfl⟩, h1, h2⟩ := h'
    have hb : ¬ (x.1 = 0 ∨ x.1 = w - 1 ∨ x.2 = 0 ∨ x.2 = h - 1) := fun hb => h1 (border_cls hc ih hb)
    obtain ⟨⟨a1, a2⟩, a3, a4⟩ := ih
    cases d <;> simp only [InG, side, Prod.fst_add, Prod.snd_add] <;> omega

theorem inner_not_esc {a : Cell} (ha : InG w h a) : ¬ Esc w h (cls K (0, 0)) a := by
  rintro ⟨o, h1, h2⟩
  exact h1 (way_inG hc ha h2)

/-- **Separation.**  The cells one can get to from a cell `s` next to the outer component, without entering a blocked cell,
are those that no component separates from `s` (the outer one) or from the outside (the others). -/
theorem reach_iff {e : Edge} (he : Bd (cls K (0, 0)) e) (hs : InG w h e.out) {c : Cell} (hg : InG w h c) :
    (¬ K c ∧ Way (fun c => ¬ K c) e.out c) ↔
      Way (fun c => ¬ cls K (0, 0) c) e.out c ∧ ∀ b, K b → ¬ cls K (0, 0) b → Esc w h (cls K b) c := by
  have mono : ∀ b {x y}, Way (fun c => ¬ K c) x y → Way (fun c => ¬ cls K b c) x y :=
    fun b x y hw => hw.mono fun c h1 h2 => h1 (cls_sub h2)
  constructor
  · rintro ⟨h1, h2⟩
    refine ⟨mono _ h2, fun b hb hnb => ?_⟩
    have hnb' : ¬ cls K b (0, 0) := fun h' => hnb ((cls_eq h' b).1 (cls_self hb))
    have hdisj : ¬ cls K b e.c := fun h' => hnb' ((cls_eq h' _).2 ((cls_eq he.1 _).1 (cls_self he.1.1)))
    have hout : ¬ K e.out := cls_out4 he.1 he.2
    have s1 : Way (fun c => ¬ cls K b c) e.c e.out := Way.step hdisj fun h' => hout (cls_sub h')
    have s2 := cls_way hnb' (cls_conn (K := K) (0, 0) e.c (0, 0) he.1 (cls_self he.1.1))
    have ho : ¬ InG w h (((0 : ℤ), (0 : ℤ)) + side .up) := by simp [InG, side]
    have s3 : Way (fun c => ¬ cls K b c) (0, 0) (((0 : ℤ), (0 : ℤ)) + side .up) :=
      Way.step hnb' fun h' => ho (hc.inG _ (cls_sub h'))
    exact ⟨_, ho, (mono b h2).symm.trans (s1.symm.trans (s2.trans s3))⟩
  · rintro ⟨h1, h2⟩
    have hk : ¬ K c := by
      intro hk
      by_cases h0 : cls K (0, 0) c
      · rcases h1.end_or with h3 | h3
        · exact he.2 (h3 ▸ h0)
        · exact h3.2 h0
      · exact mem_not_esc (fun c h' => hc.inG _ (cls_sub h')) (cls_self hk) (h2 c hk h0)
    refine ⟨hk, ?_⟩
    by_contra hnr
    -- the region of `c`, which stays inside
    have hin : ∀ z, Way (fun c => ¬ K c) c z → InG w h z := fun z hz => way_inG hc hg (mono _ hz)
    have hfree : ∀ z, Way (fun c => ¬ K c) c z → ¬ K z := by
      intro z hz
      rcases hz.end_or with rfl | h'
      · exact hk
      · exact h'.2
    -- its rightmost cell and the blocked cell beside it
    obtain ⟨f, hf, hmax⟩ := Set.exists_max_image {z | Way (fun c => ¬ K c) c z} (fun z => z.1)
      (finite_of_inG (B := fun z => Way (fun c => ¬ K c) c z) hin) ⟨c, .refl⟩
    obtain ⟨x, y⟩ := f
    simp only [Set.mem_setOf_eq] at hf hmax
    have er : ((x, y) : Cell) + side .down = (x + 1, y) := by simp [side]
    have hb : K (x + 1, y) := by
      by_contra hb
      have := hmax (x + 1, y) (hf.trans (er ▸ Way.step (F := fun c => ¬ K c) (hfree _ hf) (by rw [er]; exact hb)))
      omega
    have el : ((x + 1, y) : Cell) + side .up = (x, y) := by simp [side]
    set b : Cell := (x + 1, y) with hbdef
    have hbd : Bd (cls K b) ⟨b, .up⟩ := by
      refine ⟨cls_self hb, ?_⟩
      change ¬ cls K b (b + side .up)
      rw [el]
      exact fun h' => hfree _ hf (cls_sub h')
    have hBin : ∀ c, cls K b c → InG w h c := fun c h' => hc.inG _ (cls_sub h')
    obtain ⟨n, n1, n2, n3⟩ := exists_loop (finite_of_inG hBin) hbd
    have hl : Loop (cls K b) n ⟨b, .up⟩ := ⟨hbd, n1, n2, n3⟩
    have hout : ∀ o ∈ walk (cls K b) n ⟨b, .up⟩, Way (fun c => ¬ K c) c o.out := by
      intro o ho
      refine hf.trans ?_
      have := out_walk (F := fun c => ¬ K c) (fun _ _ => cls_out4) (fun _ _ => cls_out8) hbd ho
      change Way _ (b + side .up) _ at this
      rwa [el] at this
    -- the ray from the rightmost cell crosses only the edge beside it
    have hencf : Enc (cls K b) n ⟨b, .up⟩ (x, y) := by
      have : Enc (cls K b) n ⟨b, .up⟩ (x, y) ↔ xsum (fun o => o = (⟨b, .up⟩ : Edge)) (walk (cls K b) n ⟨b, .up⟩) := by
        apply xsum_congr
        intro o ho
        have h3 := hmax _ (hout o ho)
        obtain ⟨⟨p, q⟩, d⟩ := o
        cases d <;> simp [hit, Edge.out, side, hbdef] at h3 ⊢ <;> omega
      rw [this, xsum_eq_mem hl.nodup]
      exact hl.self
    have hencc : Enc (cls K b) n ⟨b, .up⟩ c := (enc_way hl (mono b hf)).2 hencf
    by_cases h0 : cls K (0, 0) b
    · -- the outer component
      have hsame : ∀ z, cls K (0, 0) z ↔ cls K b z := cls_eq h0
      have hw : Way (fun c => ¬ cls K b c) e.out c := h1.mono fun z h3 h4 => h3 ((hsame z).2 h4)
      have hes : Enc (cls K b) n ⟨b, .up⟩ e.out := (enc_way hl hw).2 hencc
      have hm : (⟨e.c, e.d⟩ : Edge) ∉ walk (cls K b) n ⟨b, .up⟩ := fun hm => hnr (hout e hm).symm
      have hbe : Bd (cls K b) ⟨e.c, e.d⟩ := ⟨(hsame _).1 he.1, fun h' => he.2 ((hsame _).2 h')⟩
      have hec : Enc (cls K b) n ⟨b, .up⟩ e.c := ((enc_cross hl hbe).2 hm).2 hes
      have heb : Enc (cls K b) n ⟨b, .up⟩ b := (enc_way8 hl (cls_conn b e.c b hbe.1 (cls_self hb))).1 hec
      have hx := enc_cross hl hbd
      rw [show b + side .up = (x, y) from el] at hx
      exact hx.1 ⟨fun _ => hencf, fun _ => heb⟩ hl.self
    · obtain ⟨o, h3, h4⟩ := h2 b hb h0
      exact not_enc_out hBin hl h3 ((enc_way hl h4).1 hencc)

end

end Verif.Contour
