import Verif.Search.Heuristic
import Mathlib.Analysis.Real.Sqrt
import Mathlib.NumberTheory.Real.Irrational
import Mathlib.Data.Nat.Bitwise
import Mathlib.Tactic.Ring
import Mathlib.Tactic.Linarith
import Mathlib.Tactic.LinearCombination
import Mathlib.Algebra.Ring.Int.Parity

/-!
# Model of gridnav/gridmap.hpp, gridnav/gridmap.cc (`setsize`, moves) and gridnav/gridnav.hpp, gridnav/gridnav.cc

Locations are natural numbers below `w * h` (the C++ converts them to `int`; assumed to fit).  `Cost` is the exact
real `units + sqrts * √2` (the C++ stores the two integers and a `double`).  The memo fields `h`, `d` of `State` are
left out: they are a function of the location.  Reading of map files is modelled in `GridFile`; here a map is what `setsize` makes
followed by writes to interior cells.
-/

namespace Verif.GridNav

/-- gridmap.hpp:124-129 (`enum`): `Passable` = 1, `OutOfBounds` = 2, `Tree` = 4, `Swamp` = 8, `Water` = 16. -/
def Passable : Nat := 1
/-- see `Passable` -/
def OutOfBounds : Nat := 2
/-- see `Passable` -/
def Tree : Nat := 4
/-- see `Passable` -/
def Swamp : Nat := 8
/-- see `Passable` -/
def Water : Nat := 16

/-- gridmap.hpp:57-84 `Move`: displacement and the displacements of the cells to check (`chk[0]` is the target). -/
structure Move where
  dx : Int
  dy : Int
  chk : List (Int × Int)

/-- gridmap.cc:262-281: the constructor of `Move`. -/
def Move.mk' (dx dy : Int) (more : List (Int × Int)) : Move := ⟨dx, dy, (dx, dy) :: more⟩

/-- gridmap.cc:267: the cost is 1.0 unless the move is diagonal. -/
def Move.diag (m : Move) : Bool := m.dx ≠ 0 ∧ m.dy ≠ 0

/-- gridmap.cc:283-296 `setoctile`. -/
def octile : List Move :=
  [.mk' (-1) 0 [], .mk' 1 0 [], .mk' 0 (-1) [], .mk' (-1) (-1) [(0, -1), (-1, 0)], .mk' 1 (-1) [(0, -1), (1, 0)],
   .mk' 0 1 [], .mk' (-1) 1 [(-1, 0), (0, 1)], .mk' 1 1 [(1, 0), (0, 1)]]

/-- gridmap.cc:298-308 `seteightway`. -/
def eightway : List Move :=
  [.mk' 1 1 [], .mk' 1 (-1) [], .mk' (-1) 1 [], .mk' (-1) (-1) [], .mk' 0 1 [], .mk' 0 (-1) [], .mk' (-1) 0 [],
   .mk' 1 0 []]

/-- gridmap.cc:310-316 `setfourway`. -/
def fourway : List Move := [.mk' 0 1 [], .mk' 0 (-1) [], .mk' (-1) 0 [], .mk' 1 0 []]

/-- gridmap.hpp:11-120 `GridMap`: sizes including the border, flags, moves, `lifecost`. -/
structure GMap where
  w : Nat
  h : Nat
  flags : Nat → Nat
  mvs : List Move
  lifecost : Bool

variable (m : GMap)

/-- gridmap.hpp:29-31 `coord`, 34-36 `ycoord`. -/
def coord (loc : Nat) : Int × Int := (((loc % m.w : Nat) : Int), ((loc / m.w : Nat) : Int))

/-- gridmap.cc:263, 278: the displacement in the array. -/
def delta (d : Int × Int) : Int := d.1 + m.w * d.2

/-- `flags[l]`: out of range is `ub`. -/
def flag (l : Int) : Outcome Nat := if 0 ≤ l ∧ l < m.w * m.h then .ok (m.flags l.toNat) else .ub

/-- gridmap.hpp:136-143 `flagsok`. -/
def flagsok (l0 l1 : Int) : Outcome Bool :=
  (flag m l0).bind fun f0 => (flag m l1).map fun f1 =>
    if f1 &&& (OutOfBounds ||| Tree) ≠ 0 then false
    else if f0 &&& Water ≠ 0 then decide (f1 &&& Water ≠ 0)
    else decide (f1 &&& (Passable ||| Swamp) ≠ 0)

/-- gridmap.hpp:89-96 `ok`: the loop over the cells to check. -/
def okLoop (loc : Nat) : List (Int × Int) → Outcome Bool
  | [] => .ok true
  | d :: ds => (flagsok m loc (loc + delta m d)).bind fun b => if b then okLoop loc ds else .ok false

/-- gridmap.hpp:89-96 `ok`. -/
def ok (loc : Nat) (mv : Move) : Outcome Bool := okLoop m loc mv.chk

/-- gridmap.hpp:44-46 `blkd`. -/
def blkd (l : Nat) : Bool := m.flags l &&& Passable = 0

/-! ## `setsize` -/

/-- gridmap.cc:248-253: one iteration, on the flags. -/
def rowStep (w h : Nat) (fl : Nat → Nat) (i : Nat) : Nat → Nat :=
  Function.update (Function.update fl (0 * w + i) OutOfBounds) ((h - 1) * w + i) OutOfBounds

/-- gridmap.cc:254-259: one iteration, on the flags. -/
def colStep (w : Nat) (fl : Nat → Nat) (i : Nat) : Nat → Nat :=
  Function.update (Function.update fl (i * w + 0) OutOfBounds) (i * w + (w - 1)) OutOfBounds

/-- gridmap.cc:236-260 `setsize(width, height)`: the flags, for `w = width + 2`, `h = height + 2`. -/
def setsize (width height : Nat) : Nat → Nat :=
  (List.range (height + 2)).foldl (colStep (width + 2))
    ((List.range (width + 2)).foldl (rowStep (width + 2) (height + 2)) fun _ => Passable)

/-! ## The domain -/

/-- gridnav.cc:22-34 `reverseops`: `rev[i]` is the first `j` whose displacement is opposite; the assertion demands
that there is one for every move. -/
def revop (i : Nat) : Option Nat :=
  match m.mvs[i]? with
  | none => none
  | some a => (List.range m.mvs.length).find? fun j =>
      match m.mvs[j]? with
      | none => false
      | some b => decide (a.dx = -b.dx ∧ a.dy = -b.dy)

/-- gridnav.hpp:18-86 `Cost`. -/
structure Cost where
  units : Int
  sqrts : Int
  deriving DecidableEq

/-- gridnav.hpp:80-82 `compute`. -/
noncomputable def Cost.val (c : Cost) : ℝ := c.units + c.sqrts * Real.sqrt 2

/-- gridnav.hpp:220-232: the cost of an edge that leaves `loc` (`diag` = the move is diagonal). -/
def edgecost (loc : Nat) (diag : Bool) : Cost :=
  let mul : Int := if m.lifecost then (m.h : Int) - (coord m loc).2 - 2 else 1
  if diag then ⟨0, mul⟩ else ⟨mul, 0⟩

/-- gridnav.hpp:264-268 `manhattan`. -/
def manhattan (l0 l1 : Nat) : Int :=
  |(coord m l0).1 - (coord m l1).1| + |(coord m l0).2 - (coord m l1).2|

/-- gridnav.hpp:272-279 `octiledist`. -/
def octiledist (l0 l1 : Nat) : Cost × Int :=
  let dx := |(coord m l0).1 - (coord m l1).1|
  let dy := |(coord m l0).2 - (coord m l1).2|
  let shorter := if dx < dy then dx else dy
  let longer := if dx < dy then dy else dx
  (⟨longer - shorter, shorter⟩, longer)

/-- gridnav.hpp:282-284 `lifecost`. -/
def lifec (y : Int) : Int := (m.h : Int) - y - 3

/-- gridnav.hpp:288-290 `sumbetween`. -/
def sumbetween (a b n : Int) : Int := ((a + b) * n).tdiv 2

/-- gridnav.hpp:294-301 `costfrom`. -/
def costfrom (y0 y1 : Int) : Int :=
  let last := if y0 > y1 then y1 + 1 else if y0 < y1 then y1 - 1 else y1
  sumbetween (lifec m y0) (lifec m last) |y0 - y1|

/-- gridnav.hpp:306-320 `life4cheap`. -/
def life4cheap (l0 l1 : Nat) : Int × Int :=
  let x := (coord m l0).1 - 1
  let gx := (coord m l1).1 - 1
  let y := (coord m l0).2 - 1
  let gy := (coord m l1).2 - 1
  let h := (m.h : Int) - 2
  let dx := |gx - x|
  let overcost := lifec m (if y > gy then y else gy)
  let upover := dx * overcost + costfrom m y gy
  let upoverdown := costfrom m y h + costfrom m h gy
  if upover < upoverdown then (upover, dx + |gy - y|) else (upoverdown, dx + h - 1 - y + h - 1 - gy)

/-- gridnav.hpp:324-343 `life8cheap`. -/
def life8cheap (l0 l1 : Nat) : Int × Int :=
  let x := (coord m l0).1 - 1
  let gx := (coord m l1).1 - 1
  let y := (coord m l0).2 - 1
  let gy := (coord m l1).2 - 1
  let dx := |gx - x|
  let dy := |gy - y|
  if dx ≤ dy then (costfrom m y gy, dy)
  else
    let h := (m.h : Int) - 2
    let maxy := h - 1
    let maxup := if maxy - y < maxy - gy then maxy - y else maxy - gy
    let extra := dx - dy
    let up := if maxup < extra.tdiv 2 then maxup else extra.tdiv 2
    let highy := (if y > gy then y else gy) + up
    let across := extra - 2 * up
    (costfrom m y highy + across * lifec m highy + costfrom m highy gy, dx)

/-- gridnav.hpp:153-173 `computeh`: cost estimate and distance estimate. -/
def computeh (finish loc : Nat) : Cost × Int :=
  if m.mvs.length > 4 ∧ m.lifecost = false then octiledist m loc finish
  else if m.mvs.length > 4 ∧ m.lifecost = true then (⟨(life8cheap m loc finish).1, 0⟩, (life8cheap m loc finish).2)
  else if m.mvs.length ≤ 4 ∧ m.lifecost = true then (⟨(life4cheap m loc finish).1, 0⟩, (life4cheap m loc finish).2)
  else (⟨manhattan m loc finish, 0⟩, manhattan m loc finish)

/-- gridnav.hpp:138-141 `h`. -/
noncomputable def hval (finish loc : Nat) : ℝ := (computeh m finish loc).1.val

/-- gridnav.hpp:175-235 as a search domain. -/
noncomputable def dom (finish : Nat) : Search.Dom Nat Int ℝ where
  ops loc := ((List.range m.mvs.length).filter fun i =>
    match m.mvs[i]? with
    | some mv => decide (ok m loc mv = .ok true)
    | none => false).map fun i : Nat => (i : Int)
  app loc op :=
    match m.mvs[op.toNat]? with
    | some mv => ((loc : Int) + delta m (mv.dx, mv.dy)).toNat
    | none => loc
  cost loc op :=
    match m.mvs[op.toNat]? with
    | some mv => (edgecost m loc mv.diag).val
    | none => 0
  rev _ op :=
    match revop m op.toNat with
    | some j => (j : Int)
    | none => -1
  nop := -1
  goal loc := decide (loc = finish)

/-! ## Specification -/

/-- The cell is inside the border. -/
def Interior (loc : Nat) : Prop :=
  1 ≤ loc % m.w ∧ loc % m.w + 2 ≤ m.w ∧ 1 ≤ loc / m.w ∧ loc / m.w + 2 ≤ m.h

/-- A map whose border is out of bounds, with one of the three move sets. -/
structure MapOk : Prop where
  border : ∀ loc, loc < m.w * m.h → ¬ Interior m loc → m.flags loc = OutOfBounds
  mvs : m.mvs = octile ∨ m.mvs = eightway ∨ m.mvs = fourway

/-- A move of a king. -/
def King (d : Int × Int) : Prop := -1 ≤ d.1 ∧ d.1 ≤ 1 ∧ -1 ≤ d.2 ∧ d.2 ≤ 1

variable {m}

/-! ## Coordinates -/

theorem coord_lt {loc : Nat} (hi : Interior m loc) : loc < m.w * m.h := by
  obtain ⟨h1, h2, h3, h4⟩ := hi
  have h5 := Nat.div_add_mod loc m.w
  have h6 : m.w * (loc / m.w + 2) ≤ m.w * m.h := Nat.mul_le_mul_left _ h4
  rw [Nat.mul_add] at h6
  omega

/-- A king's move from an interior cell stays in the array, and changes the coordinates as expected. -/
theorem step_coord {loc : Nat} (hi : Interior m loc) {d : Int × Int} (hd : King d) :
    0 ≤ (loc : Int) + delta m d ∧ (loc : Int) + delta m d < m.w * m.h ∧
    coord m ((loc : Int) + delta m d).toNat = ((coord m loc).1 + d.1, (coord m loc).2 + d.2) := by
  obtain ⟨h1, h2, h3, h4⟩ := hi
  obtain ⟨d1, d2⟩ := d
  obtain ⟨k1, k2, k3, k4⟩ := hd
  dsimp only at k1 k2 k3 k4
  have e := Nat.div_add_mod loc m.w
  unfold coord delta
  dsimp only
  generalize loc % m.w = x at *
  generalize loc / m.w = y at *
  obtain ⟨x', hx'⟩ : ∃ x' : Nat, (x' : Int) = x + d1 := ⟨(x + d1).toNat, by omega⟩
  obtain ⟨y', hy'⟩ : ∃ y' : Nat, (y' : Int) = y + d2 := ⟨(y + d2).toNat, by omega⟩
  have hloc : (loc : Int) + (d1 + m.w * d2) = ((m.w * y' + x' : Nat) : Int) := by
    push_cast
    rw [hx', hy', ← e]
    push_cast
    ring
  have hx'w : x' < m.w := by omega
  have hle : m.w * (y' + 1) ≤ m.w * m.h := Nat.mul_le_mul_left _ (by omega)
  rw [Nat.mul_add] at hle
  rw [hloc]
  refine ⟨by omega, ?_, ?_⟩
  · have : m.w * y' + x' < m.w * m.h := by omega
    exact_mod_cast this
  · rw [Int.toNat_natCast, Nat.mul_add_mod, Nat.mod_eq_of_lt hx'w, Nat.mul_add_div (by omega), Nat.div_eq_of_lt hx'w,
      Nat.add_zero, hx', hy']

theorem coord_inj {a b : Nat} (h : coord m a = coord m b) : a = b := by
  unfold coord at h
  rw [Prod.mk.injEq] at h
  rw [← Nat.div_add_mod a m.w, ← Nat.div_add_mod b m.w, show a / m.w = b / m.w by omega, show a % m.w = b % m.w by omega]

theorem interior_iff (loc : Nat) : Interior m loc ↔
    1 ≤ (coord m loc).1 ∧ (coord m loc).1 + 2 ≤ m.w ∧ 1 ≤ (coord m loc).2 ∧ (coord m loc).2 + 2 ≤ m.h := by
  unfold Interior coord
  dsimp only
  omega

theorem flagsok_ok {loc : Nat} (hi : Interior m loc) {d : Int × Int} (hd : King d) :
    ∃ b, flagsok m loc (loc + delta m d) = .ok b ∧
      (b = true → m.flags ((loc : Int) + delta m d).toNat &&& (OutOfBounds ||| Tree) = 0) := by
  obtain ⟨h1, h2, -⟩ := step_coord hi hd
  have h3 := coord_lt hi
  unfold flagsok flag
  rw [if_pos ⟨by omega, by exact_mod_cast h3⟩, if_pos ⟨h1, h2⟩]
  refine ⟨_, rfl, ?_⟩
  intro h
  dsimp only at h
  by_contra hc
  rw [if_pos hc] at h
  exact absurd h (by simp)

theorem okLoop_ok {loc : Nat} (hi : Interior m loc) {ds : List (Int × Int)} (hd : ∀ d ∈ ds, King d) :
    ∃ b, okLoop m loc ds = .ok b ∧ (b = true ↔ ∀ d ∈ ds, flagsok m loc (loc + delta m d) = .ok true) := by
  induction ds with
  | nil => exact ⟨true, rfl, by simp⟩
  | cons d ds ih =>
    obtain ⟨b, h1, -⟩ := flagsok_ok hi (hd d (List.mem_cons_self ..))
    obtain ⟨c, h3, h4⟩ := ih fun e he => hd e (List.mem_cons_of_mem _ he)
    unfold okLoop
    rw [h1, Outcome.bind_ok]
    cases b with
    | true => exact ⟨c, h3, by rw [h4, List.forall_mem_cons]; simp [h1]⟩
    | false => exact ⟨false, rfl, by simp [h1]⟩

theorem mvs_king (hm : MapOk m) {mv : Move} (h : mv ∈ m.mvs) :
    (∀ d ∈ mv.chk, King d) ∧ (mv.dx, mv.dy) ∈ mv.chk ∧ King (mv.dx, mv.dy) := by
  rcases hm.mvs with e | e | e <;> rw [e] at h <;>
    simp only [octile, eightway, fourway, Move.mk', List.mem_cons, List.not_mem_nil, or_false] at h <;>
    rcases h with rfl | rfl | rfl | rfl | rfl | rfl | rfl | rfl <;> simp [King]

/-! ## The applicable moves -/

theorem mem_ops {finish loc : Nat} {op : Int} : op ∈ (dom m finish).ops loc ↔
    0 ≤ op ∧ ∃ mv, m.mvs[op.toNat]? = some mv ∧ ok m loc mv = .ok true := by
  simp only [dom, List.mem_map, List.mem_filter, List.mem_range]
  constructor
  · rintro ⟨i, ⟨h1, h2⟩, rfl⟩
    rw [List.getElem?_eq_getElem h1] at h2
    exact ⟨by omega, _, by rw [Int.toNat_natCast, List.getElem?_eq_getElem h1], of_decide_eq_true h2⟩
  · rintro ⟨h1, mv, h2, h3⟩
    obtain ⟨h4, -⟩ := List.getElem?_eq_some_iff.1 h2
    refine ⟨op.toNat, ⟨h4, ?_⟩, by omega⟩
    rw [h2]
    exact decide_eq_true h3

theorem not_oob {f : Nat} (h : f &&& (OutOfBounds ||| Tree) = 0) : f ≠ OutOfBounds := by
  rintro rfl
  exact absurd h (by decide)

/-- What an applicable move does. -/
theorem app_ok (hm : MapOk m) {finish loc : Nat} (hi : Interior m loc) {op : Int} (ho : op ∈ (dom m finish).ops loc) :
    ∃ mv, m.mvs[op.toNat]? = some mv ∧ mv ∈ m.mvs ∧ ok m loc mv = .ok true ∧
      Interior m ((dom m finish).app loc op) ∧
      coord m ((dom m finish).app loc op) = ((coord m loc).1 + mv.dx, (coord m loc).2 + mv.dy) ∧
      (dom m finish).cost loc op = (edgecost m loc mv.diag).val := by
  obtain ⟨h0, mv, h1, h2⟩ := mem_ops.1 ho
  have hmem := List.mem_of_getElem? h1
  obtain ⟨k1, k2, k3⟩ := mvs_king hm hmem
  obtain ⟨b, h3, h4⟩ := okLoop_ok hi k1
  have hb : b = true := by
    unfold ok at h2
    rw [h3] at h2
    exact Outcome.ok.inj h2
  have h5 := h4.1 hb _ k2
  obtain ⟨b', h6, h7⟩ := flagsok_ok hi k3
  obtain ⟨g1, g2, g3⟩ := step_coord hi k3
  have h8 : m.flags ((loc : Int) + delta m (mv.dx, mv.dy)).toNat &&& (OutOfBounds ||| Tree) = 0 :=
    h7 (Outcome.ok.inj (h6.symm.trans h5))
  have happ : (dom m finish).app loc op = ((loc : Int) + delta m (mv.dx, mv.dy)).toNat := by
    simp only [dom, h1]
  refine ⟨mv, h1, hmem, h2, ?_, by rw [happ, g3], by simp only [dom, h1]⟩
  by_contra hc
  rw [happ] at hc
  refine not_oob h8 (hm.border _ ?_ hc)
  have : ((((loc : Int) + delta m (mv.dx, mv.dy)).toNat : Nat) : Int) < ((m.w * m.h : Nat) : Int) := by
    rw [Int.toNat_of_nonneg g1]
    exact_mod_cast g2
  exact_mod_cast this

theorem revop_ok (hm : MapOk m) {i : Nat} {mv : Move} (h : m.mvs[i]? = some mv) :
    ∃ j mv', revop m i = some j ∧ m.mvs[j]? = some mv' ∧ mv'.dx = -mv.dx ∧ mv'.dy = -mv.dy ∧ mv'.diag = mv.diag := by
  have hi := (List.getElem?_eq_some_iff.1 h).1
  unfold revop
  rcases hm.mvs with e | e | e <;> rw [e] at h hi ⊢ <;>
    simp only [octile, eightway, fourway, List.length_cons, List.length_nil] at hi
  · have : i = 0 ∨ i = 1 ∨ i = 2 ∨ i = 3 ∨ i = 4 ∨ i = 5 ∨ i = 6 ∨ i = 7 := by omega
    rcases this with rfl | rfl | rfl | rfl | rfl | rfl | rfl | rfl <;> cases h <;>
      exact ⟨_, _, rfl, rfl, by decide, by decide, by decide⟩
  · have : i = 0 ∨ i = 1 ∨ i = 2 ∨ i = 3 ∨ i = 4 ∨ i = 5 ∨ i = 6 ∨ i = 7 := by omega
    rcases this with rfl | rfl | rfl | rfl | rfl | rfl | rfl | rfl <;> cases h <;>
      exact ⟨_, _, rfl, rfl, by decide, by decide, by decide⟩
  · have : i = 0 ∨ i = 1 ∨ i = 2 ∨ i = 3 := by omega
    rcases this with rfl | rfl | rfl | rfl <;> cases h <;>
      exact ⟨_, _, rfl, rfl, by decide, by decide, by decide⟩

/-! ## The life cost functions in closed form -/

theorem two_dvd (a : Int) : ∃ q, a * (a + 1) = 2 * q := by
  obtain ⟨q, hq⟩ := Int.even_mul_succ_self a
  exact ⟨q, by omega⟩

theorem costfrom_up {y0 y1 : Int} (h : y0 ≤ y1) :
    2 * costfrom m y0 y1 = lifec m y0 * (lifec m y0 + 1) - lifec m y1 * (lifec m y1 + 1) := by
  obtain ⟨q, hq⟩ := two_dvd (lifec m y0)
  obtain ⟨q', hq'⟩ := two_dvd (lifec m y1)
  unfold costfrom sumbetween
  dsimp only
  rw [if_neg (by omega), abs_of_nonpos (by omega)]
  rcases h.lt_or_eq with h | rfl
  · rw [if_pos h]
    have : (lifec m y0 + lifec m (y1 - 1)) * -(y0 - y1) = 2 * (q - q') := by
      rw [mul_sub, ← hq, ← hq']
      unfold lifec
      ring
    rw [this, Int.mul_tdiv_cancel_left _ (by decide), hq, hq']
    ring
  · simp

theorem costfrom_down {y0 y1 : Int} (h : y1 ≤ y0) :
    2 * costfrom m y0 y1 = lifec m y1 * (lifec m y1 - 1) - lifec m y0 * (lifec m y0 - 1) := by
  obtain ⟨q, hq⟩ := two_dvd (lifec m y0 - 1)
  obtain ⟨q', hq'⟩ := two_dvd (lifec m y1 - 1)
  unfold costfrom sumbetween
  dsimp only
  rw [abs_of_nonneg (by omega)]
  rcases h.lt_or_eq with h | rfl
  · rw [if_pos h]
    have : (lifec m y0 + lifec m (y1 + 1)) * (y0 - y1) = 2 * (q' - q) := by
      rw [mul_sub 2, ← hq, ← hq']
      unfold lifec
      ring
    rw [this, Int.mul_tdiv_cancel_left _ (by decide)]
    linear_combination hq - hq'
  · simp

/-- Twice the cost of climbing from the row with life cost `L` to the one with `P`, moving `a` times there, and
descending to the row with life cost `G`. -/
def F (L G P a : Int) : Int := L * (L + 1) + G * (G - 1) - 2 * P * P + 2 * P * a

/-- Twice `life4cheap`: either over in the cheaper of the two rows, or one less than going all the way up. -/
theorem life4_val {l0 l1 : Nat} (dx L G : Int) (hdx : dx = |(coord m l0).1 - (coord m l1).1|)
    (hL : L = (m.h : Int) - (coord m l0).2 - 2) (hG : G = (m.h : Int) - (coord m l1).2 - 2)
    (hL0 : 0 ≤ L) (hG0 : 0 ≤ G) :
    2 * (life4cheap m l0 l1).1 = min (F L G (min L G) dx) (F L G 0 0 - 2) := by
  unfold life4cheap
  dsimp only
  have e1 : |(coord m l1).1 - 1 - ((coord m l0).1 - 1)| = dx := by rw [hdx, abs_sub_comm]; congr 1; ring
  rw [e1]
  have hA : 2 * (dx * lifec m (if (coord m l0).2 - 1 > (coord m l1).2 - 1 then (coord m l0).2 - 1
      else (coord m l1).2 - 1) + costfrom m ((coord m l0).2 - 1) ((coord m l1).2 - 1)) = F L G (min L G) dx := by
    split
    · rename_i h
      have := costfrom_down (m := m) (y0 := (coord m l0).2 - 1) (y1 := (coord m l1).2 - 1) (by omega)
      rw [mul_add, this, min_eq_left (by omega)]
      subst hL hG
      unfold F lifec
      ring
    · rename_i h
      have := costfrom_up (m := m) (y0 := (coord m l0).2 - 1) (y1 := (coord m l1).2 - 1) (by omega)
      rw [mul_add, this, min_eq_right (by omega)]
      subst hL hG
      unfold F lifec
      ring
  have hB : 2 * (costfrom m ((coord m l0).2 - 1) ((m.h : Int) - 2) + costfrom m ((m.h : Int) - 2) ((coord m l1).2 - 1))
      = F L G 0 0 - 2 := by
    have h1 := costfrom_up (m := m) (y0 := (coord m l0).2 - 1) (y1 := (m.h : Int) - 2) (by omega)
    have h2 := costfrom_down (m := m) (y0 := (m.h : Int) - 2) (y1 := (coord m l1).2 - 1) (by omega)
    rw [mul_add, h1, h2]
    subst hL hG
    unfold F lifec
    ring
  generalize dx * lifec m _ + costfrom m _ ((coord m l1).2 - 1) = A at hA ⊢
  generalize costfrom m ((coord m l0).2 - 1) ((m.h : Int) - 2) + costfrom m _ _ = B at hB ⊢
  by_cases h : A < B
  · rw [if_pos h, min_eq_left (by omega)]
    exact hA
  · rw [if_neg h, min_eq_right (by omega)]
    exact hB

theorem F_low {L G P a : Int} (h : 2 ≤ a) (hP : 1 ≤ P) : F L G (P - 1) (a - 2) ≤ F L G P a := by
  unfold F
  nlinarith

theorem F_high {L G P a : Int} (h : a ≤ 1) (hP : 1 ≤ P) : F L G P (max 0 a) ≤ F L G (P - 1) (max 0 (a - 2)) := by
  unfold F
  rw [max_eq_left (by omega : a - 2 ≤ 0)]
  have : max 0 a = 0 ∨ max 0 a = 1 := by omega
  rcases this with e | e <;> rw [e] <;> nlinarith

/-- The relaxed cost of reaching the goal row, going no further than the row with life cost `P`, when every step may
change both coordinates (twice). -/
def F8 (dx L G P : Int) : Int := F L G P (max 0 (dx + 2 * P - L - G))

/-- The best row to climb to. -/
theorem F8_best {dx L G P : Int} (hP : 0 ≤ P) (hM : P ≤ min L G)
    (h1 : P = min L G ∨ dx + 2 * P - L - G ≥ 0)
    (h2 : P = 0 ∨ dx + 2 * P - L - G ≤ 1) {P' : Int} (hP' : 0 ≤ P') (hM' : P' ≤ min L G) :
    F8 dx L G P ≤ F8 dx L G P' := by
  rcases le_total P P' with h | h
  · -- the row `P'` is lower, not all of the detour is used
    obtain ⟨n, rfl⟩ : ∃ n : Nat, P' = P + n := ⟨(P' - P).toNat, by omega⟩
    clear hP'
    induction n with
    | zero => simp
    | succ n ih =>
      refine (ih (by omega) (by omega)).trans ?_
      rcases h1 with h1 | h1
      · omega
      · have := F_low (L := L) (G := G) (P := P + (n + 1 : Nat)) (a := dx + 2 * (P + (n + 1 : Nat)) - L - G)
          (by push_cast; omega) (by push_cast; omega)
        unfold F8
        rw [max_eq_right (by omega), max_eq_right (by push_cast; omega)]
        rwa [show P + ((n + 1 : Nat) : Int) - 1 = P + n by omega,
          show dx + 2 * (P + ((n + 1 : Nat) : Int)) - L - G - 2 = dx + 2 * (P + n) - L - G by omega] at this
  · obtain ⟨n, rfl⟩ : ∃ n : Nat, P' = P - n := ⟨(P - P').toNat, by omega⟩
    clear hM'
    induction n with
    | zero => simp
    | succ n ih =>
      refine (ih (by omega) (by omega)).trans ?_
      rcases h2 with h2 | h2
      · omega
      · have := F_high (L := L) (G := G) (P := P - n) (a := dx + 2 * (P - n) - L - G) (by omega) (by omega)
        unfold F8
        rwa [show P - (n : Int) - 1 = P - ((n + 1 : Nat) : Int) by omega,
          show dx + 2 * (P - (n : Int)) - L - G - 2 = dx + 2 * (P - ((n + 1 : Nat) : Int)) - L - G by omega] at this

/-- `life8cheap` goes to the best row. -/
theorem life8_val {l0 l1 : Nat} (dx L G : Int) (hdx : dx = |(coord m l0).1 - (coord m l1).1|)
    (hL : L = (m.h : Int) - (coord m l0).2 - 2) (hG : G = (m.h : Int) - (coord m l1).2 - 2)
    (hL0 : 0 ≤ L) (hG0 : 0 ≤ G) :
    ∃ P, 0 ≤ P ∧ P ≤ min L G ∧ 2 * (life8cheap m l0 l1).1 = F8 dx L G P ∧
      ∀ P', 0 ≤ P' → P' ≤ min L G → F8 dx L G P ≤ F8 dx L G P' := by
  unfold life8cheap
  dsimp only
  have e1 : |(coord m l1).1 - 1 - ((coord m l0).1 - 1)| = dx := by rw [hdx, abs_sub_comm]; congr 1; ring
  have e2 : |(coord m l1).2 - 1 - ((coord m l0).2 - 1)| = |L - G| := by rw [hL, hG]; congr 1; ring
  have hd0 : 0 ≤ dx := by rw [hdx]; exact abs_nonneg _
  rw [e1, e2]
  have e3 : |L - G| = L + G - 2 * min L G := by
    rcases le_total L G with h | h
    · rw [min_eq_left h, abs_of_nonpos (by omega)]; ring
    · rw [min_eq_right h, abs_of_nonneg (by omega)]; ring
  split
  · rename_i hle
    refine ⟨min L G, by omega, le_refl _, ?_, fun P' => F8_best (by omega) (le_refl _) (.inl rfl) (by omega)⟩
    unfold F8
    rw [max_eq_left (by omega)]
    dsimp only
    rcases le_total L G with h | h
    · rw [costfrom_down (by omega), min_eq_left h]
      subst hL hG
      unfold F lifec
      ring
    · rw [costfrom_up (by omega), min_eq_right h]
      subst hL hG
      unfold F lifec
      ring
  · rename_i hgt
    have hq : (dx - |L - G|).tdiv 2 = (dx - |L - G|) / 2 := Int.tdiv_eq_ediv_of_nonneg (by omega)
    rw [hq]
    have eup : (if (if (m.h : Int) - 2 - 1 - ((coord m l0).2 - 1) < (m.h : Int) - 2 - 1 - ((coord m l1).2 - 1) then
        (m.h : Int) - 2 - 1 - ((coord m l0).2 - 1) else (m.h : Int) - 2 - 1 - ((coord m l1).2 - 1)) <
        (dx - |L - G|) / 2 then (if (m.h : Int) - 2 - 1 - ((coord m l0).2 - 1) <
          (m.h : Int) - 2 - 1 - ((coord m l1).2 - 1) then (m.h : Int) - 2 - 1 - ((coord m l0).2 - 1) else
          (m.h : Int) - 2 - 1 - ((coord m l1).2 - 1)) else (dx - |L - G|) / 2) =
        min (min L G) ((dx - |L - G|) / 2) := by
      have : (if (m.h : Int) - 2 - 1 - ((coord m l0).2 - 1) < (m.h : Int) - 2 - 1 - ((coord m l1).2 - 1) then
        (m.h : Int) - 2 - 1 - ((coord m l0).2 - 1) else (m.h : Int) - 2 - 1 - ((coord m l1).2 - 1)) = min L G := by
        split <;> omega
      rw [this]
      split <;> omega
    rw [eup]
    have ehi : (if (coord m l0).2 - 1 > (coord m l1).2 - 1 then (coord m l0).2 - 1 else (coord m l1).2 - 1) =
        (m.h : Int) - 3 - min L G := by
      split <;> omega
    rw [ehi]
    obtain ⟨up, hup⟩ : ∃ up, up = min (min L G) ((dx - |L - G|) / 2) := ⟨_, rfl⟩
    rw [← hup]
    refine ⟨min L G - up, by omega, by omega, ?_, fun P' => F8_best (by omega) (by omega) (.inr (by omega)) (by omega)⟩
    have c1 := costfrom_up (m := m) (y0 := (coord m l0).2 - 1) (y1 := (m.h : Int) - 3 - min L G + up) (by omega)
    have c2 := costfrom_down (m := m) (y0 := (m.h : Int) - 3 - min L G + up) (y1 := (coord m l1).2 - 1) (by omega)
    have e4 : lifec m ((m.h : Int) - 3 - min L G + up) = min L G - up := by unfold lifec; ring
    have e5 : lifec m ((coord m l0).2 - 1) = L := by unfold lifec; omega
    have e6 : lifec m ((coord m l1).2 - 1) = G := by unfold lifec; omega
    rw [e4, e5] at c1
    rw [e4, e6] at c2
    rw [e4]
    unfold F8
    rw [max_eq_right (by omega), e3]
    unfold F
    linear_combination c1 + c2

/-! ## Consistency -/

/-- One step of four-way life: horizontal. -/
theorem life4_step {dx dx' L L' G : Int} (hd0 : 0 ≤ dx) (hd : dx ≤ dx' + 1) (hL : 0 ≤ L) (hL' : 0 ≤ L') (hG : 0 ≤ G)
    (hs : (L' = L ∧ dx' ≤ dx + 1) ∨ (dx' = dx ∧ (L' = L + 1 ∨ L' = L - 1))) :
    min (F L G (min L G) dx) (F L G 0 0 - 2) ≤ 2 * L + min (F L' G (min L' G) dx') (F L' G 0 0 - 2) := by
  have hd0' : 0 ≤ dx' ∨ dx' = -1 := by omega
  rw [← min_add_add_left]
  refine le_min ?_ ?_
  · rcases hs with ⟨rfl, hd'⟩ | ⟨rfl, rfl | rfl⟩
    · refine (min_le_left _ _).trans ?_
      unfold F
      have : 0 ≤ min L' G := by omega
      have : min L' G ≤ L' := by omega
      nlinarith
    · refine (min_le_left _ _).trans ?_
      rcases le_or_gt G L with h | h
      · rw [min_eq_right h, min_eq_right (by omega)]
        unfold F
        nlinarith
      · rw [min_eq_left h.le, min_eq_left (by omega)]
        unfold F
        nlinarith
    · rcases le_or_gt L G with h | h
      · rw [min_eq_left h, min_eq_left (show L - 1 ≤ G by omega)]
        rcases le_or_gt dx' (2 * L - 1) with hc | hc
        · refine (min_le_left _ _).trans ?_
          unfold F
          nlinarith
        · refine (min_le_right _ _).trans ?_
          unfold F
          nlinarith
      · rw [min_eq_right h.le, min_eq_right (show G ≤ L - 1 by omega)]
        refine (min_le_left _ _).trans ?_
        unfold F
        nlinarith
  · refine (min_le_right _ _).trans ?_
    unfold F
    rcases hs with ⟨rfl, -⟩ | ⟨-, rfl | rfl⟩ <;> nlinarith

/-- One step of eight-way life. -/
theorem life8_step {dx dx' L L' G : Int} (hd : dx ≤ dx' + 1) (hL : 0 ≤ L) (hG : 0 ≤ G)
    (h1 : L' ≤ L + 1) (h2 : L - 1 ≤ L') {P : Int} (hP : 0 ≤ P) (hM : P ≤ min L' G) :
    ∃ P', 0 ≤ P' ∧ P' ≤ min L G ∧ F8 dx L G P' ≤ 2 * L + F8 dx' L' G P := by
  by_cases hc : P ≤ L
  · refine ⟨P, hP, by omega, ?_⟩
    unfold F8 F
    have : L' = L + 1 ∨ L' = L ∨ L' = L - 1 := by omega
    rcases this with rfl | rfl | rfl
    · have : max 0 (dx + 2 * P - L - G) ≤ max 0 (dx' + 2 * P - (L + 1) - G) + 2 := by omega
      nlinarith
    · have : max 0 (dx + 2 * P - L' - G) ≤ max 0 (dx' + 2 * P - L' - G) + 1 := by omega
      nlinarith
    · have : max 0 (dx + 2 * P - L - G) ≤ max 0 (dx' + 2 * P - (L - 1) - G) := by omega
      nlinarith
  · obtain rfl : L' = L + 1 := by omega
    obtain rfl : P = L + 1 := by omega
    refine ⟨L, hL, by omega, ?_⟩
    unfold F8 F
    have : max 0 (dx + 2 * L - L - G) ≤ max 0 (dx' + 2 * (L + 1) - (L + 1) - G) := by omega
    have : 0 ≤ max 0 (dx' + 2 * (L + 1) - (L + 1) - G) := by omega
    nlinarith

/-! ## `setsize` -/

theorem foldl_two (p q : Nat → Nat) (v : Nat) (fl : Nat → Nat) (l : Nat) : ∀ n : Nat,
    (List.range n).foldl (fun fl i => Function.update (Function.update fl (p i) v) (q i) v) fl l =
      if ∃ i < n, l = p i ∨ l = q i then v else fl l
  | 0 => by simp
  | n + 1 => by
    rw [List.range_succ, List.foldl_append, List.foldl_cons, List.foldl_nil, Function.update_apply,
      Function.update_apply, foldl_two p q v fl l n]
    by_cases h1 : l = q n
    · rw [if_pos h1, if_pos ⟨n, by omega, .inr h1⟩]
    · by_cases h2 : l = p n
      · rw [if_neg h1, if_pos h2, if_pos ⟨n, by omega, .inl h2⟩]
      · rw [if_neg h1, if_neg h2]
        refine if_congr ⟨fun ⟨i, hi, h⟩ => ⟨i, by omega, h⟩, fun ⟨i, hi, h⟩ => ⟨i, ?_, h⟩⟩ rfl rfl
        by_contra hc
        obtain rfl : i = n := by omega
        exact h.elim h2 h1

theorem setsize_val (width height loc : Nat) (hl : loc < (width + 2) * (height + 2)) :
    setsize width height loc =
      if 1 ≤ loc % (width + 2) ∧ loc % (width + 2) + 2 ≤ width + 2 ∧ 1 ≤ loc / (width + 2) ∧
        loc / (width + 2) + 2 ≤ height + 2 then Passable else OutOfBounds := by
  unfold setsize
  have h1 : loc / (width + 2) < height + 2 := Nat.div_lt_of_lt_mul hl
  have h2 : loc % (width + 2) < width + 2 := Nat.mod_lt _ (by omega)
  have e := Nat.div_add_mod loc (width + 2)
  have hc := foldl_two (fun i => i * (width + 2) + 0) (fun i => i * (width + 2) + (width + 2 - 1)) OutOfBounds
    ((List.range (width + 2)).foldl (rowStep (width + 2) (height + 2)) fun _ => Passable) loc (height + 2)
  have hr := foldl_two (fun i => 0 * (width + 2) + i) (fun i => (height + 2 - 1) * (width + 2) + i) OutOfBounds
    (fun _ => Passable) loc (width + 2)
  refine hc.trans ?_
  have hc1 : (∃ i < height + 2, loc = i * (width + 2) + 0 ∨ loc = i * (width + 2) + (width + 2 - 1)) ↔
      loc % (width + 2) = 0 ∨ loc % (width + 2) = width + 1 := by
    constructor
    · rintro ⟨i, hi, h | h⟩
      · left; rw [h]; simp
      · right; rw [h, Nat.mul_comm, Nat.mul_add_mod]; exact Nat.mod_eq_of_lt (by omega)
    · intro h
      refine ⟨loc / (width + 2), h1, ?_⟩
      rw [Nat.mul_comm]
      omega
  have hr1 : (∃ i < width + 2, loc = 0 * (width + 2) + i ∨ loc = (height + 2 - 1) * (width + 2) + i) ↔
      loc / (width + 2) = 0 ∨ loc / (width + 2) = height + 1 := by
    constructor
    · rintro ⟨i, hi, h | h⟩
      · left; rw [h, Nat.zero_mul, Nat.zero_add]; exact Nat.div_eq_of_lt hi
      · right
        rw [h, Nat.mul_comm, Nat.mul_add_div (by omega), Nat.div_eq_of_lt hi]; rfl
    · intro h
      refine ⟨loc % (width + 2), h2, ?_⟩
      rcases h with h | h <;> rw [h] at e
      · left; omega
      · right
        rw [Nat.mul_comm, show height + 2 - 1 = height + 1 by omega]
        omega
  rw [if_congr hc1 rfl rfl]
  have hr2 : (List.range (width + 2)).foldl (rowStep (width + 2) (height + 2)) (fun _ => Passable) loc = _ := hr
  rw [hr2, if_congr hr1 rfl rfl]
  generalize loc % (width + 2) = x at *
  generalize loc / (width + 2) = y at *
  by_cases hx : x = 0 ∨ x = width + 1
  · rw [if_pos hx, if_neg (by omega)]
  · rw [if_neg hx]
    by_cases hy : y = 0 ∨ y = height + 1
    · rw [if_pos hy, if_neg (by omega)]
    · rw [if_neg hy, if_pos (by omega)]

/-! ## Bits of the flags -/

theorem and_pow_eq_zero (f k : Nat) : f &&& 2 ^ k = 0 ↔ f.testBit k = false := by
  rw [Nat.and_comm, Nat.two_pow_and]
  cases f.testBit k <;> simp

theorem and_or_eq_zero (f a b : Nat) : f &&& (a ||| b) = 0 ↔ f &&& a = 0 ∧ f &&& b = 0 := by
  rw [Nat.and_or_distrib_left, Nat.or_eq_zero_iff]

/-- Specification: one may step from a cell with flags `f0` onto a cell with flags `f1`. Bit 0 is passable ground, bit 1
out of bounds, bit 2 a tree, bit 3 a swamp, bit 4 water. -/
def Enter (f0 f1 : Nat) : Prop :=
  f1.testBit 1 = false ∧ f1.testBit 2 = false ∧
  if f0.testBit 4 then f1.testBit 4 = true else f1.testBit 0 = true ∨ f1.testBit 3 = true

theorem enter_iff (f0 f1 : Nat) :
    (if f1 &&& (OutOfBounds ||| Tree) ≠ 0 then false
      else if f0 &&& Water ≠ 0 then decide (f1 &&& Water ≠ 0)
      else decide (f1 &&& (Passable ||| Swamp) ≠ 0)) = true ↔ Enter f0 f1 := by
  have h0 := and_pow_eq_zero f1 0
  have h1 := and_pow_eq_zero f1 1
  have h2 := and_pow_eq_zero f1 2
  have h3 := and_pow_eq_zero f1 3
  have h4 := and_pow_eq_zero f1 4
  have h4' := and_pow_eq_zero f0 4
  norm_num only at h0 h1 h2 h3 h4 h4'
  unfold Enter
  simp only [ne_eq, and_or_eq_zero, OutOfBounds, Tree, Water, Passable, Swamp, h0, h1, h2, h3, h4, h4']
  cases f1.testBit 0 <;> cases f1.testBit 1 <;> cases f1.testBit 2 <;> cases f1.testBit 3 <;>
    cases f1.testBit 4 <;> cases f0.testBit 4 <;> simp

theorem flagsok_iff {loc : Nat} (hi : Interior m loc) {d : Int × Int} (hd : King d) :
    flagsok m loc (loc + delta m d) = .ok true ↔
      Enter (m.flags loc) (m.flags ((loc : Int) + delta m d).toNat) := by
  obtain ⟨h1, h2, -⟩ := step_coord hi hd
  have h3 := coord_lt hi
  unfold flagsok flag
  rw [if_pos ⟨by omega, by exact_mod_cast h3⟩, if_pos ⟨h1, h2⟩, Outcome.bind_ok, Outcome.map_ok, Outcome.ok.injEq,
    enter_iff, Int.toNat_natCast]

/-! ## Octile distance -/

theorem one_le_sqrt : (1 : ℝ) ≤ Real.sqrt 2 := by
  rw [Real.one_le_sqrt]; norm_num

theorem sqrt_le_two : Real.sqrt 2 ≤ 2 := by
  rw [Real.sqrt_le_left (by norm_num)]; norm_num

/-- The octile distance for displacements `a`, `b`. -/
theorem octile_val {l0 l1 : Nat} : (octiledist m l0 l1).1.val =
    max ((|(coord m l0).1 - (coord m l1).1| : Int) + (Real.sqrt 2 - 1) * (|(coord m l0).2 - (coord m l1).2| : Int))
      ((|(coord m l0).2 - (coord m l1).2| : Int) + (Real.sqrt 2 - 1) * (|(coord m l0).1 - (coord m l1).1| : Int)) := by
  unfold octiledist Cost.val
  dsimp only
  generalize |(coord m l0).1 - (coord m l1).1| = a
  generalize |(coord m l0).2 - (coord m l1).2| = b
  have h2 := sqrt_le_two
  by_cases h : a < b
  · rw [if_pos h, if_pos h, max_eq_right]
    · push_cast; ring
    · have : (a : ℝ) ≤ b := by exact_mod_cast h.le
      nlinarith
  · rw [if_neg h, if_neg h, max_eq_left]
    · push_cast; ring
    · have : (b : ℝ) ≤ a := by exact_mod_cast (not_lt.1 h)
      nlinarith

theorem octile_step {a b a' b' c : ℝ} (h1 : a ≤ a' + 1) (h2 : b ≤ b' + 1)
    (hc : c = Real.sqrt 2 ∨ c = 1 ∧ (a = a' ∨ b = b')) :
    max (a + (Real.sqrt 2 - 1) * b) (b + (Real.sqrt 2 - 1) * a) ≤
      c + max (a' + (Real.sqrt 2 - 1) * b') (b' + (Real.sqrt 2 - 1) * a') := by
  have g1 := one_le_sqrt
  have g2 := sqrt_le_two
  rw [← max_add_add_left]
  rcases hc with rfl | ⟨rfl, rfl | rfl⟩ <;> refine max_le_max ?_ ?_ <;> nlinarith

theorem edgecost_nonneg {loc : Nat} (hi : Interior m loc) (b : Bool) : 0 ≤ (edgecost m loc b).val := by
  have h := ((interior_iff loc).1 hi).2.2.2
  have hmul : (0 : Int) ≤ if m.lifecost then (m.h : Int) - (coord m loc).2 - 2 else 1 := by
    split <;> omega
  unfold edgecost Cost.val
  dsimp only
  generalize (if m.lifecost then (m.h : Int) - (coord m loc).2 - 2 else 1) = k at hmul
  have : (0 : ℝ) ≤ (k : ℝ) := by exact_mod_cast hmul
  have g1 := one_le_sqrt
  cases b
  · rw [if_neg (by decide)]; push_cast; nlinarith
  · rw [if_pos rfl]; push_cast; nlinarith

/-- An edge costs at least its multiplier. -/
theorem edgecost_ge {loc : Nat} (hi : Interior m loc) (hl : m.lifecost = true) (b : Bool) :
    (((m.h : Int) - (coord m loc).2 - 2 : Int) : ℝ) ≤ (edgecost m loc b).val := by
  have h := ((interior_iff loc).1 hi).2.2.2
  unfold edgecost Cost.val
  dsimp only
  rw [if_pos hl]
  have hk : (0 : Int) ≤ (m.h : Int) - (coord m loc).2 - 2 := by omega
  generalize (m.h : Int) - (coord m loc).2 - 2 = k at hk
  have : (0 : ℝ) ≤ (k : ℝ) := by exact_mod_cast hk
  have g1 := one_le_sqrt
  cases b
  · rw [if_neg (by decide)]; push_cast; nlinarith
  · rw [if_pos rfl]; push_cast; nlinarith

theorem king_diag (hm : MapOk m) {mv : Move} (h : mv ∈ m.mvs) :
    (mv.diag = true ∨ mv.diag = false ∧ (mv.dx = 0 ∨ mv.dy = 0)) ∧
    (m.mvs.length ≤ 4 → mv.diag = false ∧ (mv.dx = 0 ∨ mv.dy = 0)) := by
  rcases hm.mvs with e | e | e <;> rw [e] at h ⊢ <;>
    simp only [octile, eightway, fourway, Move.mk', List.mem_cons, List.not_mem_nil, or_false] at h <;>
    rcases h with rfl | rfl | rfl | rfl | rfl | rfl | rfl | rfl <;> simp [octile, eightway, Move.diag]

theorem abs_step (a b d : Int) (h1 : -1 ≤ d) (h2 : d ≤ 1) : |a - b| ≤ |a + d - b| + 1 ∧ |a + d - b| ≤ |a - b| + 1 := by
  rcases abs_cases (a - b) with h | h <;> rcases abs_cases (a + d - b) with h' | h' <;> omega

/-- **Consistency.** -/
theorem consistent (hm : MapOk m) {finish loc : Nat} (hf : Interior m finish) (hi : Interior m loc) {op : Int}
    (ho : op ∈ (dom m finish).ops loc) :
    hval m finish loc ≤ (dom m finish).cost loc op + hval m finish ((dom m finish).app loc op) := by
  obtain ⟨mv, -, hmem, -, hi', hco, hcost⟩ := app_ok hm hi ho
  rw [hcost]
  generalize (dom m finish).app loc op = loc' at hi' hco ⊢
  obtain ⟨-, -, k1, k2, k3, k4⟩ := mvs_king hm hmem
  dsimp only at k1 k2 k3 k4
  obtain ⟨kd, kd4⟩ := king_diag hm hmem
  obtain ⟨x1, x2⟩ := abs_step (coord m loc).1 (coord m finish).1 mv.dx k1 k2
  obtain ⟨y1, y2⟩ := abs_step (coord m loc).2 (coord m finish).2 mv.dy k3 k4
  have i1 := (interior_iff loc).1 hi
  have i2 := (interior_iff loc').1 hi'
  have i3 := (interior_iff finish).1 hf
  have e1 : (coord m loc').1 = (coord m loc).1 + mv.dx := by rw [hco]
  have e2 : (coord m loc').2 = (coord m loc).2 + mv.dy := by rw [hco]
  unfold hval computeh
  by_cases hlen : m.mvs.length > 4
  · cases hl : m.lifecost
    · rw [if_pos ⟨hlen, rfl⟩, if_pos ⟨hlen, rfl⟩, octile_val, octile_val, e1, e2]
      refine octile_step (by exact_mod_cast x1) (by exact_mod_cast y1) ?_
      rcases kd with kd | ⟨kd, k⟩
      · left
        unfold edgecost Cost.val
        simp [kd, hl]
      · right
        refine ⟨by unfold edgecost Cost.val; simp [kd, hl], ?_⟩
        rcases k with k | k <;> rw [k, add_zero]
        · exact .inl rfl
        · exact .inr rfl
    · rw [if_neg (by simp), if_pos ⟨hlen, rfl⟩, if_neg (by simp), if_pos ⟨hlen, rfl⟩]
      have hge := edgecost_ge hi hl mv.diag
      obtain ⟨P, p1, p2, p3, -⟩ := life8_val (m := m) (l0 := loc') (l1 := finish) _ _ _ rfl rfl rfl (by omega) (by omega)
      obtain ⟨Q, -, -, q3, q4⟩ := life8_val (m := m) (l0 := loc) (l1 := finish) _ _ _ rfl rfl rfl (by omega) (by omega)
      rw [e1, e2] at p3
      rw [e2] at p2
      obtain ⟨P', r1, r2, r3⟩ := life8_step (L := (m.h : Int) - (coord m loc).2 - 2) (dx := |(coord m loc).1 - (coord m finish).1|) x1 (by omega)
        (by omega) (by omega) (by omega) p1 p2
      have r4 := (q4 P' r1 r2).trans r3
      rw [← p3, ← q3] at r4
      have r5 : (life8cheap m loc finish).1 ≤ ((m.h : Int) - (coord m loc).2 - 2) + (life8cheap m loc' finish).1 := by omega
      have r6 : ((life8cheap m loc finish).1 : ℝ) ≤
          (((m.h : Int) - (coord m loc).2 - 2 : Int) : ℝ) + ((life8cheap m loc' finish).1 : ℝ) := by exact_mod_cast r5
      unfold Cost.val at hge ⊢
      push_cast at r6 hge ⊢
      linarith
  · obtain ⟨kd, k⟩ := kd4 (by omega)
    cases hl : m.lifecost
    · rw [if_neg (by omega), if_neg (by simp), if_neg (by simp), if_neg (by omega), if_neg (by simp), if_neg (by simp)]
      have : manhattan m loc finish ≤ 1 + manhattan m loc' finish := by
        unfold manhattan
        rw [e1, e2]
        rcases k with k | k <;> rw [k] at * <;> rw [add_zero] <;> omega
      have h' : (manhattan m loc finish : ℝ) ≤ 1 + (manhattan m loc' finish : ℝ) := by exact_mod_cast this
      unfold edgecost Cost.val
      simp [kd, hl]
      exact h'
    · rw [if_neg (by simp), if_neg (by omega), if_pos ⟨by omega, rfl⟩, if_neg (by simp), if_neg (by omega),
        if_pos ⟨by omega, rfl⟩]
      have hge := edgecost_ge hi hl mv.diag
      have p := life4_val (m := m) (l0 := loc') (l1 := finish) _ _ _ rfl rfl rfl (by omega) (by omega)
      have q := life4_val (m := m) (l0 := loc) (l1 := finish) _ _ _ rfl rfl rfl (by omega) (by omega)
      rw [e1, e2] at p
      have r := life4_step (L := (m.h : Int) - (coord m loc).2 - 2) (L' := (m.h : Int) - ((coord m loc).2 + mv.dy) - 2)
        (G := (m.h : Int) - (coord m finish).2 - 2) (abs_nonneg ((coord m loc).1 - (coord m finish).1)) x1 (by omega)
        (by omega) (by omega) (by
          rcases k with k | k
          · rw [k, add_zero]
            omega
          · left
            exact ⟨by omega, x2⟩)
      rw [← p, ← q] at r
      have r5 : (life4cheap m loc finish).1 ≤ ((m.h : Int) - (coord m loc).2 - 2) + (life4cheap m loc' finish).1 := by omega
      have r6 : ((life4cheap m loc finish).1 : ℝ) ≤
          (((m.h : Int) - (coord m loc).2 - 2 : Int) : ℝ) + ((life4cheap m loc' finish).1 : ℝ) := by exact_mod_cast r5
      unfold Cost.val at hge ⊢
      push_cast at r6 hge ⊢
      linarith

end Verif.GridNav
