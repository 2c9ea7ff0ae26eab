import Verif.Outcome
import Mathlib.Data.Rat.Floor
import Mathlib.Algebra.Order.Field.Rat
import Mathlib.Algebra.Order.Ring.Rat
import Mathlib.Algebra.Order.Monoid.Unbundled.WithTop
import Mathlib.Data.List.Basic
import Mathlib.Data.List.TakeWhile
import Mathlib.Data.List.Sort
import Mathlib.Algebra.Order.BigOperators.Group.List
import Mathlib.Tactic.Linarith
import Mathlib.Tactic.NormNum
import Mathlib.Tactic.Ring

/-!
# Model of the tables of search/dtastar.hpp, and of the decision to go on searching

DTA* (decision theoretic A*) reads a file of samples: `h` of a node, a depth `d`, and the value `f` that was backed up from a
search to depth `d`.  Out of them it makes a table of probabilities (`findExtremes`, `makeProbs`), which `keepGoing` reads to
decide whether a larger local search is worth its time.

* A `double` is a rational number, without rounding; the infinite values that the code uses are `⊤`.  The conversion of a
  `double` to `unsigned int` is undefined if the truncated value is not in the range of the type.
* `hmin` and `fmin` are only printed and are left out.  The three nested vectors of `q` are a function, with the sizes kept
  beside it: `at` throws an exception outside of them and the `assert`s abort; both are `fatal`.
* `strtod` and `strtol` of `dfReadRows` (30-64) are not modelled: the rows are given.
-/

namespace Verif.Dta

/-- dtastar.hpp:13-19 `DtastarRow` -/
structure Row where
  h : ℚ
  d : Nat
  f : ℚ
  deriving DecidableEq

/-- The conversion of a `double` to `unsigned int`. -/
def toU (x : ℚ) : Outcome Nat := if x ≤ -1 ∨ 2 ^ 32 ≤ x then .ub else .ok ⌊x⌋.toNat

/-- The conversion of a `double` that may be infinite. -/
def toUTop : WithTop ℚ → Outcome Nat
  | ⊤ => .ub
  | (x : ℚ) => toU x

theorem toUTop_coe (x : ℚ) : toUTop (x : WithTop ℚ) = toU x := rfl

/-- What `findExtremes` finds. -/
structure Ext where
  maxdepth : Nat
  hmax : ℚ
  fmax : ℚ
  nbins : Nat

/-- dtastar.hpp:740-755 `findExtremes`.  Without rows both maxima are minus infinity, and `Nbins` is a conversion of it. -/
def findExtremes : List Row → Outcome Ext
  | [] => .ub
  | r :: rs =>
    let hmax := rs.foldl (fun a r => max a r.h) r.h
    let fmax := rs.foldl (fun a r => max a r.f) r.f
    (toU (⌈max fmax hmax⌉ + 1)).map fun n => ⟨rs.foldl (fun a r => max a r.d) r.d, hmax, fmax, n⟩

/-- dtastar.hpp:773-775 `hbin` -/
def Ext.hbin (E : Ext) (h : ℚ) : Outcome Nat := toU (max h E.hmax)

/-- dtastar.hpp:777-779 `fbin` -/
def Ext.fbin (E : Ext) (f : WithTop ℚ) : Outcome Nat := toUTop (max f E.fmax)

/-- dtastar.hpp:789-813 `Fs` -/
structure Cell where
  count : Nat
  p : Nat → ℚ

/-- dtastar.hpp:815-909 `Ds` and `Hs`: by `h` and then by depth. -/
def Cells := Nat → Nat → Cell

/-- The cells before any sample (792, 796). -/
def cells0 : Cells := fun _ _ => ⟨0, fun _ => 0⟩

/-- dtastar.hpp:766-768: one sample is counted in cell `h`, `d`. -/
def bump (q : Cells) (h d f : Nat) : Cells := fun h' d' =>
  if h' = h ∧ d' = d then ⟨(q h d).count + 1, fun i => if i < f then (q h d).p i + 1 else (q h d).p i⟩ else q h' d'

/-- dtastar.hpp:760-768: the loop body of `makeProbs`. -/
def addRow (E : Ext) (r : Row) (q : Cells) : Outcome Cells :=
  (E.hbin r.h).bind fun h =>
  (E.fbin r.f).bind fun f =>
  if f < h then .fatal
  else if E.nbins ≤ h then .fatal
  else if E.maxdepth < r.d then .fatal
  else if E.nbins < f then .fatal
  else .ok (bump q h r.d f)

/-- The loop dtastar.hpp:759-769. -/
def addRows (E : Ext) : List Row → Cells → Outcome Cells
  | [], q => .ok q
  | r :: rs, q => (addRow E r q).bind (addRows E rs)

/-- dtastar.hpp:799-804 `Fs::normalize` -/
def Cell.norm (c : Cell) : Cell := if c.count = 0 then c else { c with p := fun i => c.p i / c.count }

/-- The table that the search uses. -/
structure Table where
  E : Ext
  q : Cells

/-- dtastar.hpp:757-771 `makeProbs` after `findExtremes`. -/
def build (rows : List Row) : Outcome Table :=
  (findExtremes rows).bind fun E =>
  (addRows E rows cells0).map fun q => ⟨E, fun h d => (q h d).norm⟩

/-- dtastar.hpp:663 `q[h][d][fixedf]`, with the three tests (889, 829, 807). -/
def Table.at (T : Table) (h d i : Nat) : Outcome ℚ :=
  if T.E.nbins ≤ h then .fatal
  else if T.E.maxdepth < d then .fatal
  else if T.E.nbins ≤ i then .fatal
  else .ok ((T.q h d).p i)

/-! ### `keepGoing` -/

/-- What `keepGoing` reads of an open node. -/
structure ONode where
  f : ℚ
  g : ℚ
  h : ℚ
  deriving DecidableEq

/-- dtastar.hpp:225-229 `F::pred` -/
def fpred (a b : ONode) : Bool := if a.f = b.f then decide (a.g > b.g) else decide (a.f < b.f)

/-- What does not change during a call: the table, `wt * secpergen / wf`, the mean branching factor, and
`geom2d::Threshold`. -/
structure Setup where
  T : Table
  r : ℚ
  br : ℚ
  thr : ℚ

/-- dtastar.hpp:659-668: the minimum is brought up to date with new nodes, until one has value 0. -/
def minOver (U : Setup) (d f : Nat) : List ONode → WithTop ℚ → Outcome (WithTop ℚ)
  | [], m => .ok m
  | n :: ns, m =>
    (U.T.E.hbin (min n.h U.T.E.hmax)).bind fun h =>
    (toU (min ((f : ℚ) - n.g) U.T.E.fmax)).bind fun i =>
    (U.T.at h d i).bind fun p =>
    if |p| < U.thr then .ok (min m p) else minOver U d f ns (min m p)

/-- dtastar.hpp:653-677: the loop over `f`; `rm` is `realmaxf`, `size` the length of `mintab`.  It returns `mintab` and
whether the sum came up to the cost. -/
def fLoop (U : Setup) (rm size : Nat) (cost : ℚ) (d : Nat) (new : List ONode) :
    List Nat → (Nat → WithTop ℚ) → WithTop ℚ → Outcome ((Nat → WithTop ℚ) × Bool)
  | [], tab, _ => .ok (tab, false)
  | f :: fs, tab, sum =>
    let ix := (d * (rm + 1) + f) % 2 ^ 32
    if size ≤ ix then .fatal
    else
      (minOver U d f new (tab ix)).bind fun m =>
      if (cost : WithTop ℚ) ≤ sum + m then .ok (Function.update tab ix m, true)
      else fLoop U rm size cost d new fs (Function.update tab ix m) (sum + m)

/-- dtastar.hpp:647-678: the loop over `d`. -/
def dLoop (U : Setup) (rm size msize : Nat) (new : List ONode) (fs : List Nat) :
    List Nat → (Nat → WithTop ℚ) → Outcome ((Nat → WithTop ℚ) × Bool)
  | [], tab => .ok (tab, false)
  | d :: ds, tab =>
    (fLoop U rm size (U.r * msize * U.br ^ d) d new fs tab 0).bind fun r =>
    if r.2 = true then .ok r else dLoop U rm size msize new fs ds r.1

/-- dtastar.hpp:636-681: the loop over the sets of nodes; the first argument is how many nodes are not in the set. -/
def mLoop (U : Setup) (nodes : List ONode) (fbeta : WithTop ℚ) (f0 rm size : Nat) :
    Nat → Nat → Nat → (Nat → WithTop ℚ) → Outcome Bool
  | 0, _, _, _ => .ok false
  | k + 1, msize, mlast, tab =>
    let delta : WithTop ℚ := (nodes[msize + 2]?).elim ⊤ fun n => (n.f : WithTop ℚ)
    if delta ≤ fbeta then .fatal
    else
      (U.T.E.fbin delta).bind fun f1 =>
      (dLoop U rm size (msize + 1) ((nodes.drop mlast).take (msize + 1 - mlast)) (List.range' f0 (f1 - f0))
        (List.range' 1 U.T.E.maxdepth) tab).bind fun r =>
      if r.2 = true then .ok true else mLoop U nodes fbeta f0 rm size k (msize + 1) (msize + 1) r.1

/-- dtastar.hpp:620-685: the decision, given the sorted open nodes of the best action, and `f` of the second one. -/
def decideGo (U : Setup) (nodes : List ONode) (fbeta : WithTop ℚ) : Outcome Bool :=
  let m0 := (nodes.takeWhile fun n => decide ((n.f : WithTop ℚ) ≤ fbeta)).length
  (U.T.E.fbin fbeta).bind fun f0 =>
  match nodes.getLast? with
  | none => .ub
  | some b =>
    (toU ⌈b.f⌉).bind fun rm =>
    mLoop U nodes fbeta f0 rm ((U.T.E.maxdepth + 1) * (rm + 1) % 2 ^ 32) (nodes.length - m0) m0 0 fun _ => ⊤

/-! ## What the table should be -/

/-- The rows of a bin. -/
def inBin (rows : List Row) (h d : Nat) : List Row := rows.filter fun r => decide (⌊r.h⌋ = h) && decide (r.d = d)

/-- The fraction of the samples with heuristic value in bin `h` and with depth `d` whose value is in a bin above `i`. -/
def fraction (rows : List Row) (h d i : Nat) : ℚ :=
  ((inBin rows h d).filter fun r => decide ((i : Int) < ⌊r.f⌋)).length / (inBin rows h d).length

/-- `m` is the greatest value of `v` on the rows. -/
def Greatest (v : Row → ℚ) (rows : List Row) (m : ℚ) : Prop := (∀ r ∈ rows, v r ≤ m) ∧ ∃ r ∈ rows, v r = m

/-! ## Lemmas on the table -/

theorem foldl_max_q (v : Row → ℚ) : ∀ (rs : List Row) (a : ℚ),
    a ≤ rs.foldl (fun a r => max a (v r)) a ∧ (∀ r ∈ rs, v r ≤ rs.foldl (fun a r => max a (v r)) a) ∧
      (rs.foldl (fun a r => max a (v r)) a = a ∨ ∃ r ∈ rs, v r = rs.foldl (fun a r => max a (v r)) a)
  | [], a => ⟨le_rfl, by simp, Or.inl rfl⟩
  | r :: rs, a => by
    obtain ⟨h1, h2, h3⟩ := foldl_max_q v rs (max a (v r))
    rw [List.foldl_cons]
    refine ⟨(le_max_left _ _).trans h1, ?_, ?_⟩
    · intro x hx
      rcases List.mem_cons.1 hx with rfl | hx
      · exact (le_max_right _ _).trans h1
      · exact h2 x hx
    · rcases h3 with h3 | ⟨x, hx, e⟩
      · rcases max_choice a (v r) with h | h
        · exact Or.inl (h3.trans h)
        · exact Or.inr ⟨r, List.mem_cons_self, (h3.trans h).symm⟩
      · exact Or.inr ⟨x, List.mem_cons_of_mem _ hx, e⟩

theorem greatest_foldl {v : Row → ℚ} {r : Row} {rs : List Row} {m : ℚ} (h : Greatest v (r :: rs) m) :
    rs.foldl (fun a r => max a (v r)) (v r) = m := by
  obtain ⟨h1, h2, h3⟩ := foldl_max_q v rs (v r)
  obtain ⟨g1, x, hx, e⟩ := h
  apply le_antisymm
  · rcases h3 with h3 | ⟨y, hy, e'⟩
    · rw [h3]; exact g1 r List.mem_cons_self
    · rw [← e']; exact g1 y (List.mem_cons_of_mem _ hy)
  · rw [← e]
    rcases List.mem_cons.1 hx with rfl | hx
    · exact h1
    · exact h2 x hx

theorem foldl_max_d : ∀ (rs : List Row) (a : Nat),
    a ≤ rs.foldl (fun a r => max a r.d) a ∧ ∀ r ∈ rs, r.d ≤ rs.foldl (fun a r => max a r.d) a
  | [], a => ⟨le_rfl, by simp⟩
  | r :: rs, a => by
    obtain ⟨h1, h2⟩ := foldl_max_d rs (max a r.d)
    rw [List.foldl_cons]
    refine ⟨(le_max_left _ _).trans h1, fun x hx => ?_⟩
    rcases List.mem_cons.1 hx with rfl | hx
    · exact (le_max_right _ _).trans h1
    · exact h2 x hx

theorem toU_ok {x : ℚ} (h0 : 0 ≤ x) (h1 : x < 2 ^ 32) : toU x = .ok ⌊x⌋.toNat := by
  rw [toU, if_neg]
  rintro (h | h)
  · linarith
  · exact absurd h1 (not_lt.2 h)

theorem findExtremes_ok {rows : List Row} {hm fm : ℚ} (hh : Greatest Row.h rows hm) (hf : Greatest Row.f rows fm)
    (h0 : 0 ≤ hm) (h1 : ((⌈max fm hm⌉ : Int) : ℚ) + 1 < 2 ^ 32) :
    ∃ E, findExtremes rows = .ok E ∧ E.hmax = hm ∧ E.fmax = fm ∧ (∀ r ∈ rows, r.d ≤ E.maxdepth) ∧
      (E.nbins : Int) = ⌈max fm hm⌉ + 1 := by
  cases rows with
  | nil => obtain ⟨_, x, hx, _⟩ := hh; exact absurd hx (by simp)
  | cons r rs =>
    have c0 : (0 : Int) ≤ ⌈max fm hm⌉ := Int.ceil_nonneg (h0.trans (le_max_right _ _))
    have c1 : (0 : ℚ) ≤ ((⌈max fm hm⌉ : Int) : ℚ) + 1 := by
      have : (0 : ℚ) ≤ ((⌈max fm hm⌉ : Int) : ℚ) := by exact_mod_cast c0
      linarith
    rw [findExtremes, greatest_foldl hh, greatest_foldl hf, toU_ok c1 h1, Outcome.map_ok]
    refine ⟨_, rfl, rfl, rfl, ?_, ?_⟩
    · intro x hx
      obtain ⟨d1, d2⟩ := foldl_max_d rs r.d
      rcases List.mem_cons.1 hx with rfl | hx
      · exact d1
      · exact d2 x hx
    · have : ⌊((⌈max fm hm⌉ : Int) : ℚ) + 1⌋ = ⌈max fm hm⌉ + 1 := by
        rw [Int.floor_add_one, Int.floor_intCast]
      dsimp only
      rw [this]
      omega

theorem addRow_ok {E : Ext} {r : Row} (q : Cells) (h0 : 0 ≤ E.hmax) (h1 : ⌊E.hmax⌋ ≤ ⌊E.fmax⌋) (h2 : E.fmax < 2 ^ 32) (h3 : E.hmax < 2 ^ 32)
    (hn : (⌊E.fmax⌋ : Int) < E.nbins) (rh : r.h ≤ E.hmax) (rf : r.f ≤ E.fmax) (rd : r.d ≤ E.maxdepth) :
    addRow E r q = .ok (bump q ⌊E.hmax⌋.toNat r.d ⌊E.fmax⌋.toNat) := by
  have f0 : 0 ≤ ⌊E.hmax⌋ := Int.floor_nonneg.2 h0
  have f1 : 0 ≤ E.fmax := Int.floor_nonneg.1 (f0.trans h1)
  have e : max (r.f : WithTop ℚ) E.fmax = ((max r.f E.fmax : ℚ) : WithTop ℚ) := (WithTop.coe_max _ _).symm
  rw [addRow, Ext.hbin, max_eq_right rh, toU_ok h0 h3, Outcome.bind_ok, Ext.fbin, e, max_eq_right rf, toUTop_coe, toU_ok f1 h2,
    Outcome.bind_ok, if_neg (by omega), if_neg (by omega), if_neg (by omega), if_neg (by omega)]

theorem addRows_ok {E : Ext} (h0 : 0 ≤ E.hmax) (h1 : ⌊E.hmax⌋ ≤ ⌊E.fmax⌋) (h2 : E.fmax < 2 ^ 32) (h3 : E.hmax < 2 ^ 32)
    (hn : (⌊E.fmax⌋ : Int) < E.nbins) : ∀ (rows : List Row) (q : Cells),
    (∀ r ∈ rows, r.h ≤ E.hmax ∧ r.f ≤ E.fmax ∧ r.d ≤ E.maxdepth) →
    addRows E rows q = .ok (rows.foldl (fun q r => bump q ⌊E.hmax⌋.toNat r.d ⌊E.fmax⌋.toNat) q)
  | [], _, _ => rfl
  | r :: rs, q, h => by
    obtain ⟨a, b, c⟩ := h r List.mem_cons_self
    rw [addRows, addRow_ok q h0 h1 h2 h3 hn a b c, Outcome.bind_ok,
      addRows_ok h0 h1 h2 h3 hn rs _ fun x hx => h x (List.mem_cons_of_mem _ hx)]
    rfl

theorem foldl_bump (H F : Nat) (h d i : Nat) : ∀ (rows : List Row) (q : Cells),
    (((rows.foldl (fun q r => bump q H r.d F) q) h d).count =
      (q h d).count + if h = H then (rows.filter fun r => decide (r.d = d)).length else 0) ∧
    ((rows.foldl (fun q r => bump q H r.d F) q) h d).p i =
      (q h d).p i + if h = H ∧ i < F then ((rows.filter fun r => decide (r.d = d)).length : ℚ) else 0
  | [], q => by simp
  | r :: rs, q => by
    obtain ⟨e1, e2⟩ := foldl_bump H F h d i rs (bump q H r.d F)
    rw [List.foldl_cons, e1, e2]
    by_cases hh : h = H
    · by_cases hd : r.d = d
      · subst hh hd
        constructor
        · simp [bump]; omega
        · by_cases hi : i < F
          · simp [bump, hi]; ring
          · simp [bump, hi]
      · have : ¬ d = r.d := fun e => hd e.symm
        simp [bump, hh, hd, this]
    · simp [bump, hh]

end Verif.Dta

/-! ## What the decision should be, and what it is -/

namespace Verif.Dta

/-- The table's value of a node for `d` and `f`. -/
def val (U : Setup) (d f : Nat) (n : ONode) : ℚ := (U.T.q ⌊U.T.E.hmax⌋.toNat d).p ⌊min ((f : ℚ) - n.g) U.T.E.fmax⌋.toNat

/-- The least of some values. -/
def least (vs : List ℚ) : WithTop ℚ := vs.foldr (fun v m => min (v : WithTop ℚ) m) ⊤

/-- The end of the range of `f` for the set of the first `m` nodes: it is the next node but one that gives it. -/
def upTo (U : Setup) (nodes : List ONode) (m : Nat) : Nat := (nodes[m + 1]?).elim 0 fun n => ⌊max n.f U.T.E.fmax⌋.toNat

/-- The nodes of the set of the first `m` that were in it when value `f` was in the range. -/
def since (U : Setup) (nodes : List ONode) (m0 m f : Nat) : List Nat :=
  (List.range m).filter fun i => decide (f < upTo U nodes (max (i + 1) (m0 + 1)))

/-- The minimum that the code uses. -/
def seen (U : Setup) (nodes : List ONode) (m0 m d f : Nat) : WithTop ℚ :=
  least ((since U nodes m0 m f).map fun i => val U d f (nodes.getD i ⟨0, 0, 0⟩))

/-- The minimum over the whole set. -/
def intended (U : Setup) (nodes : List ONode) (m d f : Nat) : WithTop ℚ := least ((nodes.take m).map (val U d f))

/-- Entries are not negative, and those below the threshold are 0. -/
def Tame (U : Setup) : Prop := ∀ h d i, 0 ≤ (U.T.q h d).p i ∧ (|(U.T.q h d).p i| < U.thr → (U.T.q h d).p i = 0)

theorem least_cons (v : ℚ) (vs : List ℚ) : least (v :: vs) = min (v : WithTop ℚ) (least vs) := rfl

theorem least_append (vs ws : List ℚ) : least (vs ++ ws) = min (least vs) (least ws) := by
  induction vs with
  | nil => simp [least]
  | cons v vs ih => rw [List.cons_append, least_cons, ih, least_cons, min_assoc]

theorem le_least {a : WithTop ℚ} {vs : List ℚ} (h : ∀ v ∈ vs, a ≤ (v : WithTop ℚ)) : a ≤ least vs := by
  induction vs with
  | nil => exact le_top
  | cons v vs ih =>
    rw [least_cons]
    exact le_min (h v List.mem_cons_self) (ih fun w hw => h w (List.mem_cons_of_mem _ hw))

theorem least_le {v : ℚ} {vs : List ℚ} (h : v ∈ vs) : least vs ≤ (v : WithTop ℚ) := by
  induction vs with
  | nil => simp at h
  | cons w vs ih =>
    rw [least_cons]
    rcases List.mem_cons.1 h with rfl | h
    · exact min_le_left _ _
    · exact (min_le_right _ _).trans (ih h)

theorem val_nonneg {U : Setup} (t : Tame U) (d f : Nat) (n : ONode) : 0 ≤ val U d f n := (t _ _ _).1

theorem least_nonneg {U : Setup} (t : Tame U) (d f : Nat) (ns : List ONode) : 0 ≤ least (ns.map (val U d f)) :=
  le_least fun v hv => by
    obtain ⟨n, -, rfl⟩ := List.mem_map.1 hv
    exact_mod_cast val_nonneg t d f n

theorem toU_val {x : ℚ} {n : Nat} (h : toU x = .ok n) : n = ⌊x⌋.toNat := by
  rw [toU] at h
  split at h
  · cases h
  · cases h; rfl

theorem at_val {T : Table} {h d i : Nat} {p : ℚ} (e : T.at h d i = .ok p) : p = (T.q h d).p i := by
  rw [Table.at] at e
  split at e
  · cases e
  split at e
  · cases e
  split at e
  · cases e
  · cases e; rfl

theorem minOver_ok {U : Setup} (t : Tame U) {d f : Nat} : ∀ {ns : List ONode} {m m' : WithTop ℚ},
    minOver U d f ns m = .ok m' → m' = min m (least (ns.map (val U d f)))
  | [], m, m', h => by cases h; simp [least]
  | n :: ns, m, m', h => by
    rw [minOver] at h
    obtain ⟨a, h1, h⟩ := Outcome.bind_eq_ok.1 h
    obtain ⟨i, h2, h⟩ := Outcome.bind_eq_ok.1 h
    obtain ⟨p, h3, h⟩ := Outcome.bind_eq_ok.1 h
    rw [Ext.hbin, max_eq_right (min_le_right _ _)] at h1
    have e1 := toU_val h1
    have e2 := toU_val h2
    have e3 := at_val h3
    have e : p = val U d f n := by rw [e3, e1, e2, val]
    rw [List.map_cons, least_cons, ← e]
    split at h
    · rename_i hp
      cases h
      have p0 : p = 0 := by
        rw [e3] at hp ⊢
        exact (t _ _ _).2 hp
      rw [p0]
      have := least_nonneg t d f ns
      have : min ((0 : ℚ) : WithTop ℚ) (least (ns.map (val U d f))) = ((0 : ℚ) : WithTop ℚ) := min_eq_left (by simpa using this)
      rw [this]
    · rw [minOver_ok t h, min_assoc]

/-- The place of `d` and `f` in `mintab`. -/
def ix (rm d f : Nat) : Nat := (d * (rm + 1) + f) % 2 ^ 32

theorem ix_inj {rm md d d' f f' : Nat} (hs : (md + 1) * (rm + 1) < 2 ^ 32) (hd : d ≤ md) (hd' : d' ≤ md) (hf : f ≤ rm) (hf' : f' ≤ rm)
    (h : ix rm d f = ix rm d' f') : d = d' ∧ f = f' := by
  have b : ∀ d f, d ≤ md → f ≤ rm → d * (rm + 1) + f < 2 ^ 32 := by
    intro d f h1 h2
    have := Nat.mul_le_mul_right (rm + 1) h1
    have e : (md + 1) * (rm + 1) = md * (rm + 1) + (rm + 1) := by ring
    omega
  rw [ix, ix, Nat.mod_eq_of_lt (b d f hd hf), Nat.mod_eq_of_lt (b d' f' hd' hf')] at h
  have e1 : (d * (rm + 1) + f) / (rm + 1) = d := by
    rw [Nat.add_comm, Nat.add_mul_div_right _ _ (Nat.succ_pos _), Nat.div_eq_of_lt (by omega), Nat.zero_add]
  have e2 : (d' * (rm + 1) + f') / (rm + 1) = d' := by
    rw [Nat.add_comm, Nat.add_mul_div_right _ _ (Nat.succ_pos _), Nat.div_eq_of_lt (by omega), Nat.zero_add]
  have e : d = d' := by rw [← e1, ← e2, h]
  subst e
  exact ⟨rfl, by omega⟩

theorem fLoop_false {U : Setup} (t : Tame U) {rm size md : Nat} {cost : ℚ} {d : Nat} {new : List ONode}
    (hs : (md + 1) * (rm + 1) < 2 ^ 32) (hd : d ≤ md) : ∀ {fs : List Nat} {tab tab' : Nat → WithTop ℚ} {sum : WithTop ℚ},
    fs.Nodup → (∀ f ∈ fs, f ≤ rm) → fLoop U rm size cost d new fs tab sum = .ok (tab', false) →
    ∀ d' f', d' ≤ md → f' ≤ rm → tab' (ix rm d' f') =
      if d' = d ∧ f' ∈ fs then min (tab (ix rm d f')) (least (new.map (val U d f'))) else tab (ix rm d' f')
  | [], tab, tab', sum, _, _, h, d', f', _, _ => by cases h; simp
  | f :: fs, tab, tab', sum, hn, hf, h, d', f', hd', hf' => by
    rw [fLoop] at h
    split at h
    · cases h
    obtain ⟨m, h1, h⟩ := Outcome.bind_eq_ok.1 h
    split at h
    · cases h
    have e := fLoop_false t hs hd (List.nodup_cons.1 hn).2 (fun f hf' => hf f (List.mem_cons_of_mem _ hf')) h d' f' hd' hf'
    have em := minOver_ok t h1
    have ei : (d * (rm + 1) + f) % 2 ^ 32 = ix rm d f := rfl
    rw [ei] at e em
    rw [e]
    have hff := hf f List.mem_cons_self
    by_cases c : d' = d ∧ f' ∈ fs
    · rw [if_pos c, if_pos ⟨c.1, List.mem_cons_of_mem _ c.2⟩, Function.update_of_ne]
      intro e'
      have := (ix_inj hs hd hd hf' hff e').2
      subst this
      exact (List.nodup_cons.1 hn).1 c.2
    · rw [if_neg c]
      by_cases c' : d' = d ∧ f' = f
      · obtain ⟨rfl, rfl⟩ := c'
        rw [if_pos ⟨rfl, List.mem_cons_self⟩, Function.update_self, em]
      · rw [if_neg, Function.update_of_ne]
        · intro e'
          exact c' (ix_inj hs hd' hd hf' hff e')
        · rintro ⟨a, b⟩
          rcases List.mem_cons.1 b with b | b
          · exact c' ⟨a, b⟩
          · exact c ⟨a, b⟩

theorem fLoop_true {U : Setup} (t : Tame U) {rm size md : Nat} {cost : ℚ} {d : Nat} {new : List ONode}
    (hs : (md + 1) * (rm + 1) < 2 ^ 32) (hd : d ≤ md) : ∀ {fs : List Nat} {tab tab' : Nat → WithTop ℚ} {sum : WithTop ℚ},
    fs.Nodup → (∀ f ∈ fs, f ≤ rm) → (∀ f ∈ fs, 0 ≤ tab (ix rm d f)) → fLoop U rm size cost d new fs tab sum = .ok (tab', true) →
    (cost : WithTop ℚ) ≤ sum + (fs.map fun f => min (tab (ix rm d f)) (least (new.map (val U d f)))).sum
  | [], _, _, _, _, _, _, h => by cases h
  | f :: fs, tab, tab', sum, hn, hf, ht, h => by
    rw [fLoop] at h
    split at h
    · cases h
    obtain ⟨m, h1, h⟩ := Outcome.bind_eq_ok.1 h
    have em := minOver_ok t h1
    have ei : (d * (rm + 1) + f) % 2 ^ 32 = ix rm d f := rfl
    rw [ei] at h em
    have hff := hf f List.mem_cons_self
    have ne : ∀ x ∈ fs, ix rm d x ≠ ix rm d f := by
      intro x hx e'
      have := (ix_inj hs hd hd (hf x (List.mem_cons_of_mem _ hx)) hff e').2
      subst this
      exact (List.nodup_cons.1 hn).1 hx
    have nn : ∀ x ∈ fs, 0 ≤ min (tab (ix rm d x)) (least (new.map (val U d x))) := fun x hx =>
      le_min (ht x (List.mem_cons_of_mem _ hx)) (least_nonneg t d x new)
    rw [List.map_cons, List.sum_cons, ← add_assoc, ← em]
    split at h
    · rename_i hc
      refine hc.trans (le_add_of_nonneg_right (List.sum_nonneg ?_))
      intro v hv
      obtain ⟨x, hx, rfl⟩ := List.mem_map.1 hv
      exact nn x hx
    · have := fLoop_true t hs hd (List.nodup_cons.1 hn).2 (fun f hf' => hf f (List.mem_cons_of_mem _ hf'))
        (fun x hx => by rw [Function.update_of_ne (ne x hx)]; exact ht x (List.mem_cons_of_mem _ hx)) h
      refine this.trans (le_of_eq ?_)
      congr 2
      refine List.map_congr_left fun x hx => ?_
      rw [Function.update_of_ne (ne x hx)]

theorem dLoop_false {U : Setup} (t : Tame U) {rm size md msize : Nat} {new : List ONode} {fs : List Nat}
    (hs : (md + 1) * (rm + 1) < 2 ^ 32) (hn : fs.Nodup) (hf : ∀ f ∈ fs, f ≤ rm) : ∀ {ds : List Nat} {tab tab' : Nat → WithTop ℚ},
    ds.Nodup → (∀ d ∈ ds, d ≤ md) → dLoop U rm size msize new fs ds tab = .ok (tab', false) →
    ∀ d' f', d' ≤ md → f' ≤ rm → tab' (ix rm d' f') =
      if d' ∈ ds ∧ f' ∈ fs then min (tab (ix rm d' f')) (least (new.map (val U d' f'))) else tab (ix rm d' f')
  | [], _, _, _, _, h, _, _, _, _ => by cases h; simp
  | d :: ds, tab, tab', hd, hdm, h, d', f', hd', hf' => by
    rw [dLoop] at h
    obtain ⟨r, h1, h⟩ := Outcome.bind_eq_ok.1 h
    split at h
    · rename_i hr
      cases h
      cases hr
    rename_i hr
    have h1' : fLoop U rm size (U.r * msize * U.br ^ d) d new fs tab 0 = .ok (r.1, false) := by
      rw [h1]
      congr 1
      exact Prod.ext rfl (by simpa using hr)
    have e1 := fLoop_false t hs (hdm d List.mem_cons_self) hn hf h1' d' f' hd' hf'
    have e2 := dLoop_false t hs hn hf (List.nodup_cons.1 hd).2 (fun x hx => hdm x (List.mem_cons_of_mem _ hx)) h d' f' hd' hf'
    rw [e2, e1]
    by_cases c : d' = d
    · subst c
      have nd : d' ∉ ds := (List.nodup_cons.1 hd).1
      simp only [nd, false_and, if_false, true_and, List.mem_cons_self]
    · simp only [c, false_and, if_false, List.mem_cons, false_or]

theorem dLoop_true {U : Setup} (t : Tame U) {rm size md msize : Nat} {new : List ONode} {fs : List Nat}
    (hs : (md + 1) * (rm + 1) < 2 ^ 32) (hn : fs.Nodup) (hf : ∀ f ∈ fs, f ≤ rm) : ∀ {ds : List Nat} {tab tab' : Nat → WithTop ℚ},
    ds.Nodup → (∀ d ∈ ds, d ≤ md) → (∀ d ∈ ds, ∀ f ∈ fs, 0 ≤ tab (ix rm d f)) → dLoop U rm size msize new fs ds tab = .ok (tab', true) →
    ∃ d ∈ ds, ((U.r * msize * U.br ^ d : ℚ) : WithTop ℚ) ≤ (fs.map fun f => min (tab (ix rm d f)) (least (new.map (val U d f)))).sum
  | [], _, _, _, _, _, h => by cases h
  | d :: ds, tab, tab', hd, hdm, ht, h => by
    rw [dLoop] at h
    obtain ⟨r, h1, h⟩ := Outcome.bind_eq_ok.1 h
    split at h
    · rename_i hr
      have h1' : fLoop U rm size (U.r * msize * U.br ^ d) d new fs tab 0 = .ok (r.1, true) := by
        rw [h1]
        congr 1
        exact Prod.ext rfl hr
      refine ⟨d, List.mem_cons_self, ?_⟩
      have := fLoop_true t hs (hdm d List.mem_cons_self) hn hf (ht d List.mem_cons_self) h1'
      rwa [zero_add] at this
    · rename_i hr
      have h1' : fLoop U rm size (U.r * msize * U.br ^ d) d new fs tab 0 = .ok (r.1, false) := by
        rw [h1]
        congr 1
        exact Prod.ext rfl (by simpa using hr)
      have e1 := fLoop_false t hs (hdm d List.mem_cons_self) hn hf h1'
      have nd : d ∉ ds := (List.nodup_cons.1 hd).1
      have same : ∀ x ∈ ds, ∀ f ∈ fs, r.1 (ix rm x f) = tab (ix rm x f) := by
        intro x hx f hf'
        rw [e1 x f (hdm x (List.mem_cons_of_mem _ hx)) (hf f hf'), if_neg]
        rintro ⟨rfl, -⟩
        exact nd hx
      obtain ⟨x, hx, hle⟩ := dLoop_true t hs hn hf (List.nodup_cons.1 hd).2 (fun x hx => hdm x (List.mem_cons_of_mem _ hx))
        (fun x hx f hf' => by rw [same x hx f hf']; exact ht x (List.mem_cons_of_mem _ hx) f hf') h
      refine ⟨x, List.mem_cons_of_mem _ hx, hle.trans (le_of_eq ?_)⟩
      congr 1
      refine List.map_congr_left fun f hf' => ?_
      rw [same x hx f hf']

end Verif.Dta

namespace Verif.Dta

theorem take_range (nodes : List ONode) (m : Nat) (h : m ≤ nodes.length) (v : ONode → ℚ) :
    (List.range m).map (fun i => v (nodes.getD i ⟨0, 0, 0⟩)) = (nodes.take m).map v := by
  apply List.ext_getElem
  · simp [h]
  · intro i h1 h2
    simp only [List.length_map, List.length_range] at h1
    simp [List.getD_eq_getElem?_getD, List.getElem?_eq_getElem (show i < nodes.length by omega)]

theorem since_first (U : Setup) (nodes : List ONode) (m0 f : Nat) :
    since U nodes m0 (m0 + 1) f = if f < upTo U nodes (m0 + 1) then List.range (m0 + 1) else [] := by
  rw [since]
  have : ∀ i ∈ List.range (m0 + 1), max (i + 1) (m0 + 1) = m0 + 1 := fun i hi => by
    rw [List.mem_range] at hi
    omega
  split
  · rename_i h
    rw [List.filter_eq_self]
    intro i hi
    rw [this i hi]
    exact decide_eq_true h
  · rename_i h
    rw [List.filter_eq_nil_iff]
    intro i hi
    rw [this i hi]
    simpa using h

theorem since_next (U : Setup) (nodes : List ONode) (m0 m f : Nat) (hm : m0 < m) :
    since U nodes m0 (m + 1) f = since U nodes m0 m f ++ if f < upTo U nodes (m + 1) then [m] else [] := by
  rw [since, since, List.range_succ, List.filter_append]
  congr 1
  have : max m m0 = m := by omega
  by_cases h : f < upTo U nodes (m + 1)
  · simp [this, h]
  · simp [this, h]

/-- One round of the outer loop. -/
theorem seen_round (U : Setup) (nodes : List ONode) {m0 msize mlast : Nat} (hi : (mlast = 0 ∧ msize = m0) ∨ (mlast = msize ∧ m0 < msize))
    (hl : msize < nodes.length) (d f : Nat) :
    (if f < upTo U nodes (msize + 1) then
      min (seen U nodes m0 mlast d f) (least (((nodes.drop mlast).take (msize + 1 - mlast)).map (val U d f)))
    else seen U nodes m0 mlast d f) = seen U nodes m0 (msize + 1) d f := by
  rcases hi with ⟨rfl, rfl⟩ | ⟨rfl, h⟩
  · have e0 : seen U nodes msize 0 d f = ⊤ := rfl
    rw [e0, seen, since_first]
    split
    · rw [take_range nodes (msize + 1) (by omega), List.drop_zero, Nat.sub_zero, min_eq_right le_top]
    · rfl
  · rw [seen, seen, since_next U nodes m0 mlast f h]
    split
    · have : (nodes.drop mlast).take (mlast + 1 - mlast) = [nodes.getD mlast ⟨0, 0, 0⟩] := by
        rw [Nat.add_sub_cancel_left, List.drop_eq_getElem_cons hl, List.take_succ_cons, List.take_zero]
        simp [List.getD_eq_getElem?_getD, List.getElem?_eq_getElem hl]
      rw [this, List.map_append, least_append]
      rfl
    · rw [List.append_nil]

theorem upTo_of {U : Setup} {nodes : List ONode} {m : Nat} {n : ONode} (h : nodes[m + 1]? = some n) :
    upTo U nodes m = ⌊max n.f U.T.E.fmax⌋.toNat := by rw [upTo, h, Option.elim_some]

theorem mLoop_true {U : Setup} (t : Tame U) {nodes : List ONode} {fbeta : ℚ} {rm size : Nat} {b : ONode}
    (hsort : nodes.Pairwise fun x y => x.f ≤ y.f) (hlast : nodes.getLast? = some b) (hrm : rm = ⌈b.f⌉.toNat)
    (hs : (U.T.E.maxdepth + 1) * (rm + 1) < 2 ^ 32) {m0 : Nat} : ∀ (k msize mlast : Nat) (tab : Nat → WithTop ℚ),
    msize + k = nodes.length → ((mlast = 0 ∧ msize = m0) ∨ (mlast = msize ∧ m0 < msize)) →
    (∀ d f, d ≤ U.T.E.maxdepth → f ≤ rm → ⌊max fbeta U.T.E.fmax⌋.toNat ≤ f → 0 < d → tab (ix rm d f) = seen U nodes m0 mlast d f) →
    mLoop U nodes fbeta ⌊max fbeta U.T.E.fmax⌋.toNat rm size k msize mlast tab = .ok true →
    ∃ m d, m0 < m ∧ m + 1 < nodes.length ∧ 0 < d ∧ d ≤ U.T.E.maxdepth ∧
      ((U.r * m * U.br ^ d : ℚ) : WithTop ℚ) ≤
        ((List.range' ⌊max fbeta U.T.E.fmax⌋.toNat (upTo U nodes m - ⌊max fbeta U.T.E.fmax⌋.toNat)).map (seen U nodes m0 m d)).sum
  | 0, _, _, _, _, _, _, h => by cases h
  | k + 1, msize, mlast, tab, e, hi, ht, h => by
    rw [mLoop] at h
    split at h
    · cases h
    rename_i hdl
    obtain ⟨f1, h1, h⟩ := Outcome.bind_eq_ok.1 h
    obtain ⟨r, h2, h⟩ := Outcome.bind_eq_ok.1 h
    set f0 := ⌊max fbeta U.T.E.fmax⌋.toNat with hf0
    cases hn : nodes[msize + 2]? with
    | none =>
      rw [hn, Option.elim_none, Ext.fbin, max_eq_left le_top] at h1
      cases h1
    | some n =>
      rw [hn, Option.elim_some] at hdl h1
      have hdl' : fbeta < n.f := by
        rw [not_le, WithTop.coe_lt_coe] at hdl
        exact hdl
      have en : max (n.f : WithTop ℚ) U.T.E.fmax = ((max n.f U.T.E.fmax : ℚ) : WithTop ℚ) := (WithTop.coe_max _ _).symm
      rw [Ext.fbin, en, toUTop_coe] at h1
      have e1 : f1 = upTo U nodes (msize + 1) := by rw [upTo_of hn]; exact toU_val h1
      have hlen : msize + 2 < nodes.length := by
        by_contra hc
        rw [List.getElem?_eq_none (by omega)] at hn
        cases hn
      have nb : n.f ≤ b.f := by
        have hb : nodes[nodes.length - 1]? = some b := by rw [← List.getLast?_eq_getElem?]; exact hlast
        rw [List.getElem?_eq_getElem hlen] at hn
        rw [List.getElem?_eq_getElem (by omega)] at hb
        rcases Nat.lt_or_ge (msize + 2) (nodes.length - 1) with hlt | hge
        · have := List.pairwise_iff_getElem.1 hsort (msize + 2) (nodes.length - 1) hlen (by omega) hlt
          rw [Option.some.inj hn, Option.some.inj hb] at this
          exact this
        · have e3 : msize + 2 = nodes.length - 1 := by omega
          have : n = b := by
            rw [← Option.some.inj hn, ← Option.some.inj hb]
            congr 1
          rw [this]
      have hfr : ∀ f ∈ List.range' f0 (f1 - f0), f0 ≤ f ∧ f < f1 ∧ f ≤ rm := by
        intro f hf
        rw [List.mem_range'_1] at hf
        refine ⟨hf.1, by omega, ?_⟩
        have lt : f < f1 := by omega
        rw [e1, upTo_of hn] at lt
        rcases le_total n.f U.T.E.fmax with hc | hc
        · rw [max_eq_right hc] at lt
          have m1 : max fbeta U.T.E.fmax = U.T.E.fmax := max_eq_right (hdl'.le.trans hc)
          rw [m1] at hf0
          omega
        · rw [max_eq_left hc] at lt
          have : ⌊n.f⌋ ≤ ⌈b.f⌉ := by
            rw [← Int.cast_le (R := ℚ)]
            exact (Int.floor_le _).trans (nb.trans (Int.le_ceil _))
          omega
      have mem : ∀ f, f0 ≤ f → (f ∈ List.range' f0 (f1 - f0) ↔ f < upTo U nodes (msize + 1)) := by
        intro f hf
        rw [List.mem_range'_1, ← e1]
        omega
      have hds : ∀ d ∈ List.range' 1 U.T.E.maxdepth, 0 < d ∧ d ≤ U.T.E.maxdepth := by
        intro d hd
        rw [List.mem_range'_1] at hd
        omega
      have round := fun d f => seen_round U nodes (m0 := m0) hi (by omega) d f
      by_cases hr : r.2 = true
      · have h2' : dLoop U rm size (msize + 1) ((nodes.drop mlast).take (msize + 1 - mlast)) (List.range' f0 (f1 - f0))
            (List.range' 1 U.T.E.maxdepth) tab = .ok (r.1, true) := by
          rw [h2]
          congr 1
          exact Prod.ext rfl hr
        obtain ⟨d, hd, hle⟩ := dLoop_true t hs (List.nodup_range' (step := 1)) (fun f hf => (hfr f hf).2.2)
          (List.nodup_range' (step := 1)) (fun d hd => (hds d hd).2)
          (fun d hd f hf => by
            rw [ht d f (hds d hd).2 (hfr f hf).2.2 (hfr f hf).1 (hds d hd).1, seen]
            refine le_least fun v hv => ?_
            obtain ⟨i, -, rfl⟩ := List.mem_map.1 hv
            exact_mod_cast val_nonneg t d f _) h2'
        refine ⟨msize + 1, d, by omega, by omega, (hds d hd).1, (hds d hd).2, ?_⟩
        rw [← e1]
        refine hle.trans (le_of_eq ?_)
        congr 1
        refine List.map_congr_left fun f hf => ?_
        rw [ht d f (hds d hd).2 (hfr f hf).2.2 (hfr f hf).1 (hds d hd).1, ← round d f, if_pos ((mem f (hfr f hf).1).1 hf)]
      · rw [if_neg hr] at h
        have h2' : dLoop U rm size (msize + 1) ((nodes.drop mlast).take (msize + 1 - mlast)) (List.range' f0 (f1 - f0))
            (List.range' 1 U.T.E.maxdepth) tab = .ok (r.1, false) := by
          rw [h2]
          congr 1
          exact Prod.ext rfl (by simpa using hr)
        have ef := dLoop_false t hs (List.nodup_range' (step := 1)) (fun f hf => (hfr f hf).2.2)
          (List.nodup_range' (step := 1)) (fun d hd => (hds d hd).2) h2'
        refine mLoop_true t hsort hlast hrm hs k (msize + 1) (msize + 1) r.1 (by omega) (Or.inr ⟨rfl, by omega⟩) ?_ h
        intro d f hd hf hf0' hd0
        rw [ef d f hd hf, ← round d f, ht d f hd hf hf0' hd0]
        have md : d ∈ List.range' 1 U.T.E.maxdepth := by rw [List.mem_range'_1]; omega
        simp only [md, true_and, mem f hf0']

end Verif.Dta
