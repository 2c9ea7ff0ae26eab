import Verif.Outcome
import Mathlib.Algebra.Order.Field.Basic
import Mathlib.Algebra.BigOperators.Fin
import Mathlib.Algebra.Order.BigOperators.Group.Finset
import Mathlib.Order.WithBot
import Mathlib.Tactic.Ring
import Mathlib.Tactic.Linarith

/-!
# Model of `Kdtree` (structs/kdtree.hpp)

`K = k + 1 ≥ 1` dimensions.  Coordinates are exact elements of an ordered field instead of
`double`; `WithTop F` adds the infinity used as the initial search radius.
-/

namespace Verif.KdTree

variable {F : Type*} [Field F] [LinearOrder F] [IsStrictOrderedRing F] {k : Nat} {D : Type*}

abbrev Pt (F : Type*) (k : Nat) := Fin (k + 1) → F

/-- kdtree.hpp:11-20, class `N` (a NULL pointer is `nil`). -/
inductive Tree (F : Type*) (k : Nat) (D : Type*) where
  | nil
  | node (point : Pt F k) (data : D) (split : Fin (k + 1)) (left right : Tree F k D)

/-- kdtree.hpp:85-92: the fields `root` and `num`. -/
structure Kd (F : Type*) (k : Nat) (D : Type*) where
  root : Tree F k D
  num : Nat

/-- kdtree.hpp:94-97. -/
def init : Kd F k D := ⟨.nil, 0⟩

/-- kdtree.hpp:110-124, private `insert`.  `depth % K` is `Fin.ofNat`. -/
def insertAt (depth : Nat) (p : Pt F k) (d : D) : Tree F k D → Tree F k D
  | .nil => .node p d (Fin.ofNat (k + 1) depth) .nil .nil
  | .node tp td s l r =>
    if p s < tp s then .node tp td s (insertAt (depth + 1) p d l) r
    else .node tp td s l (insertAt (depth + 1) p d r)

/-- kdtree.hpp:99-107. -/
def insert (t : Kd F k D) (p : Pt F k) (d : D) : Kd F k D :=
  ⟨insertAt 0 p d t.root, t.num + 1⟩

/-- kdtree.hpp:167-180: the accumulation loop of `sqdist`. -/
def sqdist (p q : Pt F k) : F :=
  (List.finRange (k + 1)).foldl (fun s i => s + (p i - q i) * (p i - q i)) 0

/-- kdtree.hpp:132-165, recursive `nearest`; returns the node (point and data) and the new value
of `*range`. -/
def nearestAt (q : Pt F k) : Tree F k D → WithTop F → Option (Pt F k × D) × WithTop F
  | .nil, range => (none, range)
  | .node tp td s l r, range =>
    let diff := q s - tp s
    let thisSide := if diff < 0 then nearestAt q l range else nearestAt q r range
    let diff' := if diff < 0 then -diff else diff
    if thisSide.2 < ((diff' * diff' : F) : WithTop F) then thisSide
    else
      let d : WithTop F := ((sqdist tp q : F) : WithTop F)
      let here := if d ≤ thisSide.2 then (some (tp, td), min d thisSide.2) else thisSide
      let other := if diff < 0 then nearestAt q r here.2 else nearestAt q l here.2
      ((match other.1 with
        | some m => some m
        | none => here.1), other.2)

/-- kdtree.hpp:126-130. -/
def nearest (t : Kd F k D) (q : Pt F k) : Option (Pt F k × D) := (nearestAt q t.root ⊤).1

/-- kdtree.hpp:182-192. -/
def depthAt : Tree F k D → Nat
  | .nil => 0
  | .node _ _ _ l r => max (depthAt l) (depthAt r) + 1

/-! ### The iterator (kdtree.hpp:37-82) is a stack of node pointers -/

/-- kdtree.hpp:73-78 `begin`. -/
def iterBegin (t : Kd F k D) : List (Tree F k D) :=
  match t.root with
  | .nil => []
  | t => [t]

/-- kdtree.hpp:48-55 `operator++`; on an empty stack `top()` is undefined.  NULL pointers are
never pushed. -/
def iterNext : List (Tree F k D) → Outcome (List (Tree F k D))
  | [] => .ub
  | .nil :: _ => .ub
  | .node _ _ _ l r :: st =>
    let st := match r with
      | .nil => st
      | r => r :: st
    .ok (match l with
      | .nil => st
      | l => l :: st)

/-- kdtree.hpp:40-42 `operator*`. -/
def iterGet : List (Tree F k D) → Outcome (Pt F k × D)
  | .node p d _ _ _ :: _ => .ok (p, d)
  | _ => .ub

/-- `for (it = begin(); it != end(); ++it) visit(*it)`: the sequence of visited nodes.  The end
iterator has an empty stack. -/
def iterAll : Nat → List (Tree F k D) → Outcome (List (Pt F k × D))
  | 0, _ => .nofuel
  | _ + 1, [] => .ok []
  | f + 1, st => (iterGet st).bind fun x => (iterNext st).bind fun st' =>
      (iterAll f st').map fun xs => x :: xs

/-! ## Helper lemmas -/

/-- The nodes of a tree in preorder. -/
def toList : Tree F k D → List (Pt F k × D)
  | .nil => []
  | .node p d _ l r => (p, d) :: (toList l ++ toList r)

/-- The ordering invariant. -/
def Ordered : Tree F k D → Prop
  | .nil => True
  | .node p _ s l r => (∀ x ∈ toList l, x.1 s < p s) ∧ (∀ x ∈ toList r, p s ≤ x.1 s) ∧
      Ordered l ∧ Ordered r

theorem insertAt_perm (t : Tree F k D) (n : Nat) (p : Pt F k) (d : D) :
    (toList (insertAt n p d t)).Perm ((p, d) :: toList t) := by
  induction t generalizing n with
  | nil => simp [insertAt, toList]
  | node tp td s l r ihl ihr =>
    unfold insertAt
    split_ifs
    · simp only [toList]
      refine (((ihl _).append_right _).cons _).trans ?_
      exact List.Perm.swap _ _ _
    · simp only [toList]
      refine (((ihr _).append_left _).cons _).trans ?_
      refine (List.perm_middle.cons _).trans ?_
      exact List.Perm.swap _ _ _

theorem insertAt_ordered {t : Tree F k D} (h : Ordered t) (n : Nat) (p : Pt F k) (d : D) :
    Ordered (insertAt n p d t) := by
  induction t generalizing n with
  | nil => simp [insertAt, Ordered, toList]
  | node tp td s l r ihl ihr =>
    obtain ⟨h1, h2, h3, h4⟩ := h
    unfold insertAt
    split_ifs with hlt
    · refine ⟨fun x hx => ?_, h2, ihl h3 _, h4⟩
      rw [(insertAt_perm _ _ _ _).mem_iff, List.mem_cons] at hx
      rcases hx with rfl | hx
      · exact hlt
      · exact h1 x hx
    · refine ⟨h1, fun x hx => ?_, h3, ihr h4 _⟩
      rw [(insertAt_perm _ _ _ _).mem_iff, List.mem_cons] at hx
      rcases hx with rfl | hx
      · exact not_lt.1 hlt
      · exact h2 x hx

theorem sqdist_eq (p q : Pt F k) : sqdist p q = ∑ i, (p i - q i) ^ 2 := by
  unfold sqdist
  have : ∀ (l : List (Fin (k + 1))) (a : F),
      l.foldl (fun s i => s + (p i - q i) * (p i - q i)) a = a + (l.map fun i => (p i - q i) ^ 2).sum := by
    intro l
    induction l with
    | nil => simp
    | cons i l ih => intro a; simp only [List.foldl_cons, ih, List.map_cons, List.sum_cons]; ring
  rw [this, zero_add, ← List.ofFn_eq_map, List.sum_ofFn]

theorem sqdist_ge (p q : Pt F k) (s : Fin (k + 1)) : (p s - q s) ^ 2 ≤ sqdist p q := by
  rw [sqdist_eq]
  exact Finset.single_le_sum (f := fun i => (p i - q i) ^ 2) (fun i _ => sq_nonneg _) (Finset.mem_univ s)

/-- What a call of the recursive `nearest` on a set of nodes achieves. -/
def Near (q : Pt F k) (nodes : List (Pt F k × D)) (range : WithTop F)
    (res : Option (Pt F k × D) × WithTop F) : Prop :=
  (res.1 = none → res.2 = range ∧ ∀ y ∈ nodes, range < ((sqdist y.1 q : F) : WithTop F)) ∧
  ∀ x, res.1 = some x → x ∈ nodes ∧ res.2 = ((sqdist x.1 q : F) : WithTop F) ∧
    res.2 ≤ range ∧ ∀ y ∈ nodes, res.2 ≤ ((sqdist y.1 q : F) : WithTop F)

theorem near_le {q : Pt F k} {nodes : List (Pt F k × D)} {range : WithTop F} {res}
    (h : Near q nodes range res) : res.2 ≤ range ∧ ∀ y ∈ nodes, res.2 ≤ ((sqdist y.1 q : F) : WithTop F) := by
  rcases hr : res.1 with _ | x
  · obtain ⟨h1, h2⟩ := h.1 hr
    exact ⟨h1.le, fun y hy => h1 ▸ (h2 y hy).le⟩
  · exact (h.2 x hr).2.2

/-- Combining the two sides. -/
theorem near_combine {q : Pt F k} {A B : List (Pt F k × D)} {range : WithTop F} {tp : Pt F k} {td : D}
    {this : Option (Pt F k × D) × WithTop F} {dd : F}
    (h : Near q A range this) (hB : ∀ y ∈ B, dd ≤ sqdist y.1 q) (ht : dd ≤ sqdist tp q)
    (f : WithTop F → Option (Pt F k × D) × WithTop F) (hf : ∀ r, Near q B r (f r)) :
    Near q ((tp, td) :: (A ++ B)) range
      (if this.2 < (dd : WithTop F) then this
       else
        let d : WithTop F := ((sqdist tp q : F) : WithTop F)
        let here := if d ≤ this.2 then (some (tp, td), min d this.2) else this
        let other := f here.2
        ((match other.1 with
          | some m => some m
          | none => here.1), other.2)) := by
  obtain ⟨hle, hall⟩ := near_le h
  split_ifs with hc
  · refine ⟨fun hn => ⟨(h.1 hn).1, fun y hy => ?_⟩, fun x hx => ⟨?_, (h.2 x hx).2.1, hle, fun y hy => ?_⟩⟩
    · have e := (h.1 hn).1
      rw [List.mem_cons, List.mem_append] at hy
      rcases hy with rfl | hy | hy
      · exact lt_of_lt_of_le (e ▸ hc) (WithTop.coe_le_coe.2 ht)
      · exact (h.1 hn).2 y hy
      · exact lt_of_lt_of_le (e ▸ hc) (WithTop.coe_le_coe.2 (hB y hy))
    · exact List.mem_cons_of_mem _ (List.mem_append_left _ (h.2 x hx).1)
    · rw [List.mem_cons, List.mem_append] at hy
      rcases hy with rfl | hy | hy
      · exact (lt_of_lt_of_le hc (WithTop.coe_le_coe.2 ht)).le
      · exact hall y hy
      · exact (lt_of_lt_of_le hc (WithTop.coe_le_coe.2 (hB y hy))).le
  · dsimp only
    -- the state after looking at the node itself
    have hh : Near q ((tp, td) :: A) range
        (if ((sqdist tp q : F) : WithTop F) ≤ this.2 then
          (some (tp, td), min ((sqdist tp q : F) : WithTop F) this.2) else this) := by
      split_ifs with hd
      · rw [min_eq_left hd]
        refine ⟨by simp, fun x hx => ?_⟩
        simp only [Option.some.injEq] at hx
        subst hx
        refine ⟨List.mem_cons_self, rfl, hd.trans hle, fun y hy => ?_⟩
        rcases List.mem_cons.1 hy with rfl | hy
        · exact le_refl _
        · exact hd.trans (hall y hy)
      · refine ⟨fun hn => ⟨(h.1 hn).1, fun y hy => ?_⟩, fun x hx => ⟨List.mem_cons_of_mem _ (h.2 x hx).1, (h.2 x hx).2.1, hle, fun y hy => ?_⟩⟩
        · rcases List.mem_cons.1 hy with rfl | hy
          · exact (h.1 hn).1 ▸ not_le.1 hd
          · exact (h.1 hn).2 y hy
        · rcases List.mem_cons.1 hy with rfl | hy
          · exact (not_le.1 hd).le
          · exact hall y hy
    generalize (if ((sqdist tp q : F) : WithTop F) ≤ this.2 then
          (some (tp, td), min ((sqdist tp q : F) : WithTop F) this.2) else this) = here at hh ⊢
    have ho := hf here.2
    obtain ⟨ole, oall⟩ := near_le ho
    obtain ⟨hle', hall'⟩ := near_le hh
    have mem3 : ∀ y, y ∈ (tp, td) :: (A ++ B) ↔ y ∈ (tp, td) :: A ∨ y ∈ B := by
      intro y; simp only [List.mem_cons, List.mem_append]; tauto
    rcases hm : (f here.2).1 with _ | m
    · dsimp only
      obtain ⟨o1, o2⟩ := ho.1 hm
      refine ⟨fun hn => ⟨?_, fun y hy => ?_⟩, fun x hx => ⟨?_, ?_, ole.trans hle', fun y hy => ?_⟩⟩
      · exact o1.trans (hh.1 hn).1
      · rcases (mem3 y).1 hy with hy | hy
        · exact (hh.1 hn).2 y hy
        · rw [← (hh.1 hn).1]; exact o2 y hy
      · exact (mem3 x).2 (Or.inl (hh.2 x hx).1)
      · exact o1.trans (hh.2 x hx).2.1
      · rcases (mem3 y).1 hy with hy | hy
        · exact ole.trans (hall' y hy)
        · exact oall y hy
    · dsimp only
      obtain ⟨o1, o2, -, -⟩ := ho.2 m hm
      refine ⟨by simp, fun x hx => ?_⟩
      simp only [Option.some.injEq] at hx
      subst hx
      refine ⟨(mem3 m).2 (Or.inr o1), o2, ole.trans hle', fun y hy => ?_⟩
      rcases (mem3 y).1 hy with hy | hy
      · exact ole.trans (hall' y hy)
      · exact oall y hy

theorem near_perm {q : Pt F k} {A B : List (Pt F k × D)} {range : WithTop F} {res}
    (h : Near q A range res) (p : ∀ x, x ∈ A ↔ x ∈ B) : Near q B range res := by
  refine ⟨fun hn => ⟨(h.1 hn).1, fun y hy => (h.1 hn).2 y ((p y).2 hy)⟩, fun x hx => ?_⟩
  obtain ⟨a, b, c, d⟩ := h.2 x hx
  exact ⟨(p x).1 a, b, c, fun y hy => d y ((p y).2 hy)⟩

theorem nearestAt_spec {t : Tree F k D} (h : Ordered t) (q : Pt F k) (range : WithTop F) :
    Near q (toList t) range (nearestAt q t range) := by
  induction t generalizing range with
  | nil => simp [nearestAt, Near, toList]
  | node tp td s l r ihl ihr =>
    obtain ⟨h1, h2, h3, h4⟩ := h
    unfold nearestAt
    by_cases hd : q s - tp s < 0
    · simp only [hd, if_true]
      refine near_combine (ihl h3 range) (fun y hy => ?_) ?_ _ (fun r' => ihr h4 r')
      · refine le_trans ?_ (sqdist_ge y.1 q s)
        have := h2 y hy
        nlinarith
      · refine le_trans ?_ (sqdist_ge tp q s)
        nlinarith
    · simp only [hd, if_false]
      refine near_perm (near_combine (ihr h4 range) (fun y hy => ?_) ?_ _ (fun r' => ihl h3 r')) ?_
      · refine le_trans ?_ (sqdist_ge y.1 q s)
        have := h1 y hy
        nlinarith
      · refine le_trans ?_ (sqdist_ge tp q s)
        nlinarith
      · intro x
        simp only [toList, List.mem_cons, List.mem_append]
        tauto

/-! ### Iteration -/

def IsNode : Tree F k D → Prop
  | .nil => False
  | .node _ _ _ _ _ => True

theorem iterAll_spec (f : Nat) (st : List (Tree F k D)) (hn : ∀ t ∈ st, IsNode t)
    (hf : ((st.map toList).flatten).length < f) : iterAll f st = .ok (st.map toList).flatten := by
  induction f generalizing st with
  | zero => omega
  | succ f ih =>
    match st with
    | [] => simp [iterAll]
    | .nil :: st => exact absurd (hn _ List.mem_cons_self) (by simp [IsNode])
    | .node p d s l r :: st =>
      have hst : ∀ t ∈ st, IsNode t := fun t ht => hn t (List.mem_cons_of_mem _ ht)
      simp only [List.map_cons, List.flatten_cons, toList, List.length_append, List.length_cons] at hf
      have next : ∃ st', iterNext (.node p d s l r :: st) = .ok st' ∧ (∀ t ∈ st', IsNode t) ∧
          (st'.map toList).flatten = toList l ++ toList r ++ (st.map toList).flatten := by
        rcases l with _ | ⟨lp, ld, ls, ll, lr⟩ <;> rcases r with _ | ⟨rp, rd, rs, rl, rr⟩ <;>
          refine ⟨_, rfl, ?_, ?_⟩ <;> simp [IsNode, toList] <;> exact hst
      obtain ⟨st', e1, e2, e3⟩ := next
      have := ih st' e2 (by rw [e3]; simp only [List.length_append]; omega)
      simp only [iterAll, iterGet, Outcome.bind_ok, e1, this, Outcome.map_ok, e3, List.map_cons,
        List.flatten_cons, toList, List.cons_append]

theorem depthAt_le (t : Tree F k D) : depthAt t ≤ (toList t).length ∧
    (toList t).length < 2 ^ depthAt t := by
  induction t with
  | nil => simp [depthAt, toList]
  | node p d s l r ihl ihr =>
    simp only [depthAt, toList, List.length_cons, List.length_append, pow_succ]
    have h1 : 2 ^ depthAt l ≤ 2 ^ max (depthAt l) (depthAt r) :=
      Nat.pow_le_pow_right (by norm_num) (le_max_left _ _)
    have h2 : 2 ^ depthAt r ≤ 2 ^ max (depthAt l) (depthAt r) :=
      Nat.pow_le_pow_right (by norm_num) (le_max_right _ _)
    omega

end Verif.KdTree
