import Verif.Search.Restrict
import Mathlib.Tactic.Ring
import Mathlib.Tactic.Linarith
import Mathlib.Tactic.LinearCombination
import Mathlib.Algebra.Order.Ring.Int

/-!
# Model of traffic/gridmap.hpp, traffic/gridmap.cc, traffic/traffic.hpp, traffic/traffic.cc

Integers are unbounded (the C++ uses `int`/`unsigned int`; times and `x + dx * t` are assumed to fit).  Every move of the
table has cost 1 and only checks its own target, so `Cost` is an integer number of units.  The memo fields `h`, `d`
of `State` are left out.
-/

namespace Verif.Traffic

/-- gridmap.hpp:126-153 `Obstacle`. -/
structure Obstacle where
  x : Int
  y : Int
  dx : Int
  dy : Int

/-- gridmap.hpp:135-145: one coordinate of `positionAt`, for a side of `w` cells; `x % 0` is `ub`. -/
def reflect (w a : Int) : Outcome Int :=
  if w - 1 = 0 then .ub
  else
    let x_p := |a|
    let x_reflections := x_p.tdiv (w - 1)
    let x_offset := x_p.tmod (w - 1)
    if x_reflections.tmod 2 = 0 then .ok x_offset else .ok (w - x_offset - 1)

/-- gridmap.hpp:133-151 `positionAt`. -/
def positionAt (o : Obstacle) (w h t : Int) : Outcome (Int × Int) :=
  (reflect w (o.x + o.dx * t)).bind fun px => (reflect h (o.y + o.dy * t)).map fun py => (px, py)

/-- gridmap.hpp:12, 156-162 `GridMap`; traffic.hpp:259-260 `Traffic`. -/
structure Inst where
  w : Nat
  h : Nat
  obstacles : List Obstacle
  start : Nat
  finish : Nat

/-- gridmap.hpp:39-67 `Move`: displacement and the cells to check (`chk[0]` is the target). -/
structure Move where
  dx : Int
  dy : Int
  chk : List (Int × Int)

/-- gridmap.cc:78-85 `setfourway`: S, N, W, E, NOP. -/
def mvs : List Move :=
  [⟨0, 1, [(0, 1)]⟩, ⟨0, -1, [(0, -1)]⟩, ⟨-1, 0, [(-1, 0)]⟩, ⟨1, 0, [(1, 0)]⟩, ⟨0, 0, [(0, 0)]⟩]

variable (I : Inst)

/-- gridmap.hpp:27-29 `coord`. -/
def coord (loc : Nat) : Int × Int := (((loc % I.w : Nat) : Int), ((loc / I.w : Nat) : Int))

/-- gridmap.hpp:32-34 `index`. -/
def index (p : Int × Int) : Int := p.2 * I.w + p.1

/-- gridmap.cc:31, 46: the displacement in the array. -/
def delta (d : Int × Int) : Int := d.1 + I.w * d.2

/-- traffic.hpp:119-139 `State`. -/
structure State where
  loc : Nat
  t : Nat
  deriving DecidableEq

/-- gridmap.hpp:83-109: the loop of `ok` over the obstacles. -/
def okLoop (loc : Nat) (t : Int) (m : Move) : List Obstacle → Outcome Bool
  | [] => .ok true
  | o :: os =>
    (positionAt o I.w I.h (t - 1)).bind fun o1 => (positionAt o I.w I.h t).bind fun o2 =>
      if (loc : Int) = index I o2 ∧ index I ((coord I loc).1 + m.dx, (coord I loc).2 + m.dy) = index I o1 then .ok false
      else if m.chk.any fun c => decide ((loc : Int) + delta I c = index I o2 ∧ delta I c ≠ delta I (m.dx, m.dy)) then
        .ok false
      else okLoop loc t m os

/-- gridmap.hpp:71-112 `ok`. -/
def ok (loc : Nat) (t : Int) (m : Move) : Outcome Bool :=
  let newX := (coord I loc).1 + m.dx
  let newY := (coord I loc).2 + m.dy
  if newX < 0 ∨ newY < 0 ∨ newX ≥ I.w ∨ newY ≥ I.h then .ok false else okLoop I loc t m I.obstacles

/-- traffic.cc:15-20 `initialstate`. -/
def initialstate : State := ⟨I.start, 0⟩

/-- traffic.hpp:220-226: the loop of the constructor of `Edge`: does some obstacle hit the new location? -/
def hitLoop (newLoc newT : Int) : List Obstacle → Outcome Bool
  | [] => .ok false
  | o :: os => (positionAt o I.w I.h newT).bind fun p =>
      if newLoc = index I p then .ok true else hitLoop newLoc newT os

/-- traffic.hpp:212-238: the constructor of `Edge` (the state; `cost` is 1, `revop` is `Nop`).  `mvs` has eight elements;
reading `mvs[op]` for another `op` is `ub`, and so are the elements that `setfourway` leaves unset. -/
def edge (s : State) (op : Int) : Outcome State :=
  if I.w * I.h ≤ s.loc then .fatal
  else if op < 0 then .ub
  else
    match mvs[op.toNat]? with
    | none => .ub
    | some m =>
      (hitLoop I ((s.loc : Int) + delta I (m.dx, m.dy)) (s.t + 1) I.obstacles).bind fun teleport =>
        let s' : State := if teleport then initialstate I else ⟨((s.loc : Int) + delta I (m.dx, m.dy)).toNat, s.t + 1⟩
        if s'.loc < I.w * I.h then .ok s' else .fatal

/-- traffic.hpp:268-272 `manhattan`. -/
def manhattan (l0 l1 : Nat) : Int := |(coord I l0).1 - (coord I l1).1| + |(coord I l0).2 - (coord I l1).2|

/-- traffic.hpp:156-159, 171-176 `h`. -/
def h (s : State) : Int := manhattan I s.loc I.finish

/-- The state an edge leads to. -/
def val (o : Outcome State) (s : State) : State :=
  match o with
  | .ok p => p
  | _ => s

/-- traffic.hpp:178-239 as a search domain. -/
def dom : Search.Dom State Int Int where
  ops s := ((List.range mvs.length).filter fun i =>
    match mvs[i]? with
    | some m => decide (ok I s.loc (s.t + 1) m = .ok true)
    | none => false).map fun i : Nat => (i : Int)
  app s op := val (edge I s op) s
  cost _ _ := 1
  rev _ _ := -1
  nop := -1
  goal s := decide (s.loc = I.finish)

/-! ## Specification -/

/-- A ball that starts at 0 and runs back and forth between 0 and `n` is at `p` after having run `|a|`. -/
def Bounce (n a p : Int) : Prop := 0 ≤ p ∧ p ≤ n ∧ (2 * n ∣ p - a ∨ 2 * n ∣ p + a)

/-- The obstacle is at `p` at time `t`. -/
def At (o : Obstacle) (t : Int) (p : Int × Int) : Prop :=
  Bounce ((I.w : Int) - 1) (o.x + o.dx * t) p.1 ∧ Bounce ((I.h : Int) - 1) (o.y + o.dy * t) p.2

/-- Grids on which obstacles can move, with start and goal on the grid. -/
structure InstOk : Prop where
  w : 2 ≤ I.w
  h : 2 ≤ I.h
  start : I.start < I.w * I.h
  finish : I.finish < I.w * I.h

/-- Some obstacle is at `p` at time `t`. -/
def Hit (t : Int) (p : Int × Int) : Prop := ∃ o ∈ I.obstacles, At I o t p

/-- Some obstacle moves from `q` to `p` between `t - 1` and `t`. -/
def Swap (t : Int) (p q : Int × Int) : Prop := ∃ o ∈ I.obstacles, At I o t p ∧ At I o (t - 1) q

variable {I}

/-! ## Bouncing -/

theorem reflect_ok {w : Int} (hw : 2 ≤ w) (a : Int) : ∃ p, reflect w a = .ok p ∧ Bounce (w - 1) a p := by
  unfold reflect
  rw [if_neg (by omega)]
  dsimp only
  obtain ⟨n, hn⟩ : ∃ n, n = w - 1 := ⟨_, rfl⟩
  rw [← hn]
  have hn0 : 0 < n := by omega
  have ha := abs_nonneg a
  have hsign : |a| = a ∨ |a| = -a := by rcases abs_cases a with h | h <;> omega
  obtain ⟨b, hb⟩ : ∃ b, b = |a| := ⟨_, rfl⟩
  rw [← hb] at ha hsign ⊢
  rw [Int.tdiv_eq_ediv_of_nonneg ha, Int.tmod_eq_emod_of_nonneg ha,
    Int.tmod_eq_emod_of_nonneg (Int.ediv_nonneg ha hn0.le)]
  have e := Int.mul_ediv_add_emod b n
  have h1 := Int.emod_nonneg b hn0.ne'
  have h2 := Int.emod_lt_of_pos b hn0
  generalize b / n = q at *
  generalize b % n = r at *
  have hd : 2 * n ∣ r - b ∨ 2 * n ∣ n - r + b ∧ ¬ q % 2 = 0 := by
    rcases Int.emod_two_eq_zero_or_one q with hq | hq
    · left
      obtain ⟨k, hk⟩ := Int.dvd_of_emod_eq_zero hq
      exact ⟨-k, by rw [← e, hk]; ring⟩
    · right
      refine ⟨?_, by omega⟩
      obtain ⟨k, hk⟩ : ∃ k, q = 2 * k + 1 := ⟨q / 2, by omega⟩
      exact ⟨k + 1, by rw [← e, hk]; ring⟩
  by_cases hq : q % 2 = 0
  · rw [if_pos hq]
    rcases hd with hd | hd
    · refine ⟨_, rfl, h1, by omega, ?_⟩
      rcases hsign with h | h <;> rw [h] at hd
      · exact .inl hd
      · right; rwa [sub_neg_eq_add] at hd
    · exact absurd hq hd.2
  · rw [if_neg hq]
    refine ⟨_, rfl, by omega, by omega, ?_⟩
    have hd' : 2 * n ∣ n - r + b := by
      obtain ⟨k, hk⟩ : ∃ k, q = 2 * k + 1 := ⟨q / 2, by omega⟩
      exact ⟨k + 1, by rw [← e, hk]; ring⟩
    have ew : w - r - 1 = n - r := by omega
    rw [ew]
    rcases hsign with h | h <;> rw [h] at hd'
    · exact .inr hd'
    · left; rwa [← sub_eq_add_neg] at hd'

theorem Bounce.unique {n a p q : Int} (hn : 0 < n) (h : Bounce n a p) (h' : Bounce n a q) : p = q := by
  obtain ⟨h1, h2, h3⟩ := h
  obtain ⟨h4, h5, h6⟩ := h'
  have key : 2 * n ∣ p - q ∨ 2 * n ∣ p + q := by
    rcases h3 with h3 | h3 <;> rcases h6 with h6 | h6
    · left; have := dvd_sub h3 h6; rwa [show p - a - (q - a) = p - q by ring] at this
    · right; have := dvd_add h3 h6; rwa [show p - a + (q + a) = p + q by ring] at this
    · right; have := dvd_add h3 h6; rwa [show p + a + (q - a) = p + q by ring] at this
    · left; have := dvd_sub h3 h6; rwa [show p + a - (q + a) = p - q by ring] at this
  rcases key with ⟨k, hk⟩ | ⟨k, hk⟩
  · have : k = 0 := by
      by_contra hc
      rcases lt_or_gt_of_ne hc with h | h
      · have : 2 * n * k ≤ 2 * n * (-1) := mul_le_mul_of_nonneg_left (by omega) (by omega)
        omega
      · have : 2 * n * 1 ≤ 2 * n * k := mul_le_mul_of_nonneg_left (by omega) (by omega)
        omega
    rw [this] at hk
    omega
  · have : k = 0 ∨ k = 1 := by
      rcases lt_trichotomy k 0 with h | h | h
      · have : 2 * n * k ≤ 2 * n * (-1) := mul_le_mul_of_nonneg_left (by omega) (by omega)
        omega
      · exact .inl h
      · rcases lt_or_ge k 2 with h' | h'
        · exact .inr (by omega)
        · have : 2 * n * 2 ≤ 2 * n * k := mul_le_mul_of_nonneg_left (by omega) (by omega)
          omega
    rcases this with rfl | rfl <;> omega

/-- The position is the distance to the nearest multiple of `2 n`. -/
theorem Bounce.le {n a p : Int} (hn : 0 < n) (h : Bounce n a p) (k : Int) : p ≤ |a - 2 * n * k| := by
  obtain ⟨h1, h2, h3⟩ := h
  have key : ∃ j, a - 2 * n * k = p + 2 * n * j ∨ a - 2 * n * k = -p + 2 * n * j := by
    rcases h3 with ⟨j, hj⟩ | ⟨j, hj⟩
    · exact ⟨-j - k, .inl (by linear_combination -hj)⟩
    · exact ⟨j - k, .inr (by linear_combination hj)⟩
  obtain ⟨j, hj⟩ := key
  have hcase : j = 0 ∨ 2 * n * 1 ≤ 2 * n * j ∨ 2 * n * j ≤ 2 * n * (-1) := by
    rcases lt_trichotomy j 0 with h | h | h
    · right; right; exact mul_le_mul_of_nonneg_left (by omega) (by omega)
    · exact .inl h
    · right; left; exact mul_le_mul_of_nonneg_left (by omega) (by omega)
  generalize a - 2 * n * k = z at *
  generalize he : 2 * n * j = e at *
  rcases hcase with rfl | hc
  · rw [mul_zero] at he
    rcases abs_cases z with h | h <;> omega
  · rcases abs_cases z with h | h <;> omega

theorem Bounce.eq_abs {n a p : Int} (h : Bounce n a p) : ∃ k, p = |a - 2 * n * k| := by
  obtain ⟨h1, h2, ⟨j, hj⟩ | ⟨j, hj⟩⟩ := h
  · refine ⟨-j, ?_⟩
    rw [show a - 2 * n * -j = p by linear_combination -hj, abs_of_nonneg h1]
  · refine ⟨j, ?_⟩
    rw [show a - 2 * n * j = -p by linear_combination hj, abs_neg, abs_of_nonneg h1]

theorem Bounce.lipschitz {n a b p q : Int} (hn : 0 < n) (h : Bounce n a p) (h' : Bounce n b q) : |p - q| ≤ |a - b| := by
  obtain ⟨k, hk⟩ := h.eq_abs
  obtain ⟨j, hj⟩ := h'.eq_abs
  have h1 := h.le hn j
  have h2 := h'.le hn k
  generalize 2 * n * k = x at *
  generalize 2 * n * j = y at *
  rcases abs_cases (p - q) with g | g <;> rcases abs_cases (a - b) with g' | g' <;>
    rcases abs_cases (a - x) with f1 | f1 <;> rcases abs_cases (b - y) with f2 | f2 <;>
    rcases abs_cases (a - y) with f3 | f3 <;> rcases abs_cases (b - x) with f4 | f4 <;> omega

theorem positionAt_ok (hI : InstOk I) (o : Obstacle) (t : Int) :
    ∃ p, positionAt o I.w I.h t = .ok p ∧ At I o t p := by
  obtain ⟨px, h1, h2⟩ := reflect_ok (w := I.w) (by exact_mod_cast hI.w) (o.x + o.dx * t)
  obtain ⟨py, h3, h4⟩ := reflect_ok (w := I.h) (by exact_mod_cast hI.h) (o.y + o.dy * t)
  refine ⟨(px, py), ?_, h2, h4⟩
  unfold positionAt
  rw [h1, Outcome.bind_ok, h3]
  rfl

theorem At.unique (hI : InstOk I) {o : Obstacle} {t : Int} {p q : Int × Int} (h : At I o t p) (h' : At I o t q) : p = q := by
  have := hI.w
  have := hI.h
  exact Prod.ext (h.1.unique (by omega) h'.1) (h.2.unique (by omega) h'.2)

/-! ## Coordinates -/

theorem coord_index_of (hI : InstOk I) (p : Int × Int) (h1 : 0 ≤ p.1) (h2 : p.1 < I.w) (h3 : 0 ≤ p.2) (h4 : p.2 < I.h) :
    0 ≤ index I p ∧ (index I p).toNat < I.w * I.h ∧ coord I (index I p).toNat = p := by
  obtain ⟨a, b⟩ := p
  dsimp only at *
  obtain ⟨x, rfl⟩ := Int.eq_ofNat_of_zero_le h1
  obtain ⟨y, rfl⟩ := Int.eq_ofNat_of_zero_le h3
  have e : index I ((x : Int), (y : Int)) = ((I.w * y + x : Nat) : Int) := by
    unfold index
    push_cast
    ring
  rw [e, Int.toNat_natCast]
  have hx : x < I.w := by omega
  refine ⟨by omega, ?_, ?_⟩
  · have : I.w * (y + 1) ≤ I.w * I.h := Nat.mul_le_mul_left _ (by omega)
    rw [Nat.mul_add] at this
    omega
  · unfold coord
    rw [Nat.mul_add_mod, Nat.mod_eq_of_lt hx, Nat.mul_add_div (by omega), Nat.div_eq_of_lt hx, Nat.add_zero]

theorem index_coord (loc : Nat) : index I (coord I loc) = loc := by
  unfold index coord
  dsimp only
  have := Nat.div_add_mod loc I.w
  rw [Nat.mul_comm] at this
  exact_mod_cast this

theorem coord_range {loc : Nat} (hl : loc < I.w * I.h) :
    0 ≤ (coord I loc).1 ∧ (coord I loc).1 < I.w ∧ 0 ≤ (coord I loc).2 ∧ (coord I loc).2 < I.h := by
  unfold coord
  dsimp only
  have hw : 0 < I.w := by
    rcases Nat.eq_zero_or_pos I.w with h | h
    · rw [h] at hl; omega
    · exact h
  have h1 := Nat.mod_lt loc hw
  have h2 : loc / I.w < I.h := Nat.div_lt_of_lt_mul hl
  generalize loc / I.w = a at *
  generalize loc % I.w = b at *
  omega

theorem At.range {o : Obstacle} {t : Int} {p : Int × Int} (h : At I o t p) :
    0 ≤ p.1 ∧ p.1 < I.w ∧ 0 ≤ p.2 ∧ p.2 < I.h := by
  obtain ⟨⟨h1, h2, -⟩, ⟨h3, h4, -⟩⟩ := h
  omega

theorem index_inj (hI : InstOk I) {p q : Int × Int} (hp : 0 ≤ p.1 ∧ p.1 < I.w ∧ 0 ≤ p.2 ∧ p.2 < I.h)
    (hq : 0 ≤ q.1 ∧ q.1 < I.w ∧ 0 ≤ q.2 ∧ q.2 < I.h) : index I p = index I q ↔ p = q := by
  refine ⟨fun h => ?_, fun h => by rw [h]⟩
  obtain ⟨-, -, h1⟩ := coord_index_of hI p hp.1 hp.2.1 hp.2.2.1 hp.2.2.2
  obtain ⟨-, -, h2⟩ := coord_index_of hI q hq.1 hq.2.1 hq.2.2.1 hq.2.2.2
  rw [← h1, ← h2, h]

/-! ## Moves -/

theorem mvs_mem {m : Move} (h : m ∈ mvs) :
    m.chk = [(m.dx, m.dy)] ∧ |m.dx| + |m.dy| ≤ 1 := by
  simp only [mvs, List.mem_cons, List.not_mem_nil, or_false] at h
  rcases h with rfl | rfl | rfl | rfl | rfl <;> simp

/-- The target of a move. -/
def target (I : Inst) (loc : Nat) (m : Move) : Int × Int := ((coord I loc).1 + m.dx, (coord I loc).2 + m.dy)

/-- A point is on the grid. -/
def OnGrid (I : Inst) (p : Int × Int) : Prop := 0 ≤ p.1 ∧ p.1 < I.w ∧ 0 ≤ p.2 ∧ p.2 < I.h

theorem loc_delta (loc : Nat) (m : Move) : (loc : Int) + delta I (m.dx, m.dy) = index I (target I loc m) := by
  have h := index_coord (I := I) loc
  unfold index at h
  unfold delta index target
  dsimp only
  linear_combination -h

theorem okLoop_spec (hI : InstOk I) {loc : Nat} (hl : loc < I.w * I.h) (t : Int) {m : Move} (hm : m ∈ mvs)
    (hg : OnGrid I (target I loc m)) (os : List Obstacle) :
    ∃ b, okLoop I loc t m os = .ok b ∧
      (b = true ↔ ¬ ∃ o ∈ os, At I o t (coord I loc) ∧ At I o (t - 1) (target I loc m)) := by
  induction os with
  | nil => exact ⟨true, rfl, by simp⟩
  | cons o os ih =>
    obtain ⟨b, hb, hb'⟩ := ih
    obtain ⟨p1, e1, a1⟩ := positionAt_ok hI o (t - 1)
    obtain ⟨p2, e2, a2⟩ := positionAt_ok hI o t
    unfold okLoop
    rw [e1, Outcome.bind_ok, e2, Outcome.bind_ok]
    have key : ((loc : Int) = index I p2 ∧ index I ((coord I loc).1 + m.dx, (coord I loc).2 + m.dy) = index I p1) ↔
        (At I o t (coord I loc) ∧ At I o (t - 1) (target I loc m)) := by
      have h1 : (loc : Int) = index I p2 ↔ coord I loc = p2 := by
        rw [← index_inj hI (coord_range hl) a2.range, index_coord]
      have h2 : index I ((coord I loc).1 + m.dx, (coord I loc).2 + m.dy) = index I p1 ↔ target I loc m = p1 :=
        index_inj hI hg a1.range
      rw [h1, h2]
      constructor
      · rintro ⟨rfl, rfl⟩; exact ⟨a2, a1⟩
      · rintro ⟨g2, g1⟩; exact ⟨g2.unique hI a2, g1.unique hI a1⟩
    by_cases hc : At I o t (coord I loc) ∧ At I o (t - 1) (target I loc m)
    · rw [if_pos (key.2 hc)]
      exact ⟨false, rfl, by simp only [Bool.false_eq_true, false_iff, not_not]; exact ⟨o, List.mem_cons_self, hc⟩⟩
    · rw [if_neg (fun h => hc (key.1 h)), (mvs_mem hm).1, if_neg (by simp)]
      refine ⟨b, hb, hb'.trans (not_congr ?_)⟩
      constructor
      · rintro ⟨o', h1, h2⟩; exact ⟨o', List.mem_cons_of_mem _ h1, h2⟩
      · rintro ⟨o', h1, h2⟩
        rcases List.mem_cons.1 h1 with rfl | h1
        · exact absurd h2 hc
        · exact ⟨o', h1, h2⟩

theorem ok_spec (hI : InstOk I) {loc : Nat} (hl : loc < I.w * I.h) (t : Int) {m : Move} (hm : m ∈ mvs) :
    ∃ b, ok I loc t m = .ok b ∧
      (b = true ↔ OnGrid I (target I loc m) ∧ ¬ Swap I t (coord I loc) (target I loc m)) := by
  unfold ok
  dsimp only
  by_cases hg : OnGrid I (target I loc m)
  · have hg' := hg
    unfold OnGrid target at hg'
    dsimp only at hg'
    rw [if_neg (by omega)]
    obtain ⟨b, h1, h2⟩ := okLoop_spec hI hl t hm hg I.obstacles
    exact ⟨b, h1, h2.trans ⟨fun h => ⟨hg, h⟩, fun h => h.2⟩⟩
  · have hg' := hg
    unfold OnGrid target at hg'
    dsimp only at hg'
    rw [if_pos (by omega)]
    exact ⟨false, rfl, by simp [hg]⟩

theorem hitLoop_spec (hI : InstOk I) (t : Int) {p : Int × Int} (hg : OnGrid I p) (os : List Obstacle) :
    ∃ b, hitLoop I (index I p) t os = .ok b ∧ (b = true ↔ ∃ o ∈ os, At I o t p) := by
  induction os with
  | nil => exact ⟨false, rfl, by simp⟩
  | cons o os ih =>
    obtain ⟨b, hb, hb'⟩ := ih
    obtain ⟨q, e, a⟩ := positionAt_ok hI o t
    unfold hitLoop
    rw [e, Outcome.bind_ok]
    by_cases hc : p = q
    · rw [if_pos (by rw [hc])]
      exact ⟨true, rfl, by simp only [true_iff]; exact ⟨o, List.mem_cons_self, hc ▸ a⟩⟩
    · rw [if_neg (fun h => hc ((index_inj hI hg a.range).1 h))]
      refine ⟨b, hb, hb'.trans ?_⟩
      constructor
      · rintro ⟨o', h1, h2⟩; exact ⟨o', List.mem_cons_of_mem _ h1, h2⟩
      · rintro ⟨o', h1, h2⟩
        rcases List.mem_cons.1 h1 with rfl | h1
        · exact absurd (h2.unique hI a) hc
        · exact ⟨o', h1, h2⟩

/-- The states of the domain. -/
def SOk (I : Inst) (s : State) : Prop := s.loc < I.w * I.h

theorem mem_ops (hI : InstOk I) {s : State} (hs : SOk I s) (op : Int) :
    op ∈ (dom I).ops s ↔ ∃ i m, op = ((i : Nat) : Int) ∧ mvs[i]? = some m ∧ OnGrid I (target I s.loc m) ∧
      ¬ Swap I (s.t + 1) (coord I s.loc) (target I s.loc m) := by
  show op ∈ List.map _ _ ↔ _
  simp only [List.mem_map, List.mem_filter, List.mem_range]
  constructor
  · rintro ⟨i, ⟨hi, hb⟩, rfl⟩
    rw [List.getElem?_eq_getElem hi] at hb
    dsimp only at hb
    obtain ⟨b, h1, h2⟩ := ok_spec hI hs (s.t + 1) (List.getElem_mem hi)
    refine ⟨i, _, rfl, List.getElem?_eq_getElem hi, h2.1 ?_⟩
    rw [h1] at hb
    simpa using hb
  · rintro ⟨i, m, rfl, hm, hok⟩
    obtain ⟨hi, rfl⟩ := List.getElem?_eq_some_iff.1 hm
    refine ⟨i, ⟨hi, ?_⟩, rfl⟩
    rw [hm]
    obtain ⟨b, h1, h2⟩ := ok_spec hI hs (s.t + 1) (List.getElem_mem hi)
    rw [h2.2 hok] at h1
    simpa using h1

open Classical in
/-- The state that an edge must lead to. -/
noncomputable def dest (I : Inst) (s : State) (m : Move) : State :=
  if Hit I (s.t + 1) (target I s.loc m) then initialstate I else ⟨(index I (target I s.loc m)).toNat, s.t + 1⟩

theorem edge_spec (hI : InstOk I) {s : State} (hs : SOk I s) {i : Nat} {m : Move} (hm : mvs[i]? = some m)
    (hg : OnGrid I (target I s.loc m)) : edge I s i = .ok (dest I s m) ∧ SOk I (dest I s m) := by
  have hr := coord_index_of hI _ hg.1 hg.2.1 hg.2.2.1 hg.2.2.2
  have hS : SOk I (dest I s m) := by
    unfold dest SOk
    split
    · exact hI.start
    · exact hr.2.1
  refine ⟨?_, hS⟩
  unfold edge
  rw [if_neg (by unfold SOk at hs; omega), if_neg (by omega), Int.toNat_natCast, hm]
  dsimp only
  rw [loc_delta]
  obtain ⟨b, h1, h2⟩ := hitLoop_spec hI (s.t + 1) hg I.obstacles
  rw [h1, Outcome.bind_ok]
  have e : (if b = true then initialstate I else ⟨(index I (target I s.loc m)).toNat, s.t + 1⟩) = dest I s m := by
    unfold dest
    by_cases hb : b = true
    · rw [if_pos hb, if_pos (show Hit I _ _ from h2.1 hb)]
    · rw [if_neg hb, if_neg (fun h : Hit I _ _ => hb (h2.2 h))]
  rw [e, if_pos (show (dest I s m).loc < I.w * I.h from hS)]

theorem app_ok (hI : InstOk I) {s : State} (hs : SOk I s) {op : Int} (ho : op ∈ (dom I).ops s) :
    ∃ i m, op = ((i : Nat) : Int) ∧ mvs[i]? = some m ∧ OnGrid I (target I s.loc m) ∧
      ¬ Swap I (s.t + 1) (coord I s.loc) (target I s.loc m) ∧ (dom I).app s op = dest I s m ∧ SOk I (dest I s m) := by
  obtain ⟨i, m, rfl, hm, hg, hsw⟩ := (mem_ops hI hs op).1 ho
  obtain ⟨h1, h2⟩ := edge_spec hI hs hm hg
  refine ⟨i, m, rfl, hm, hg, hsw, ?_, h2⟩
  show val (edge I s i) s = _
  rw [h1]
  rfl

theorem app_sok (hI : InstOk I) (s : State) (hs : SOk I s) (op : Int) (ho : op ∈ (dom I).ops s) :
    SOk I ((dom I).app s op) := by
  obtain ⟨i, m, rfl, hm, hg, hsw, e, h⟩ := app_ok hI hs ho
  rw [e]; exact h

theorem neg_one_not_mem (s : State) : (-1 : Int) ∉ (dom I).ops s := by
  intro h
  simp only [dom, List.mem_map] at h
  obtain ⟨i, -, hi⟩ := h
  omega

theorem domOk (hI : InstOk I) : Search.DomOk (dom I) (initialstate I) :=
  Search.DomOk.of_inv (I := SOk I) hI.start (app_sok hI) (fun _ _ _ _ => by show (0 : Int) ≤ 1; omega)
    (fun s _ o _ h => absurd h (neg_one_not_mem _)) (fun s _ => neg_one_not_mem s)

/-! ## Paths without teleports -/

open Classical in
/-- The operator does not run into an obstacle. -/
noncomputable def safe (I : Inst) (s : State) (op : Int) : Bool :=
  match mvs[op.toNat]? with
  | none => false
  | some m => decide (¬ Hit I (s.t + 1) (target I s.loc m))

theorem safe_app (hI : InstOk I) {s : State} (hs : SOk I s) {op : Int} (ho : op ∈ (dom I).ops s) :
    if safe I s op = true then h I s ≤ 1 + h I ((dom I).app s op) else (dom I).app s op = initialstate I := by
  obtain ⟨i, m, rfl, hm, hg, hsw, e, h'⟩ := app_ok hI hs ho
  unfold safe
  rw [Int.toNat_natCast, hm, e]
  dsimp only
  unfold dest
  by_cases hh : Hit I (s.t + 1) (target I s.loc m)
  · rw [if_neg (by simp [hh]), if_pos hh]
  · rw [if_pos (by simp [hh]), if_neg hh]
    unfold h manhattan
    dsimp only
    rw [(coord_index_of hI _ hg.1 hg.2.1 hg.2.2.1 hg.2.2.2).2.2]
    unfold target
    dsimp only
    have := (mvs_mem (List.mem_of_getElem? hm)).2
    generalize (coord I s.loc).1 = x at *
    generalize (coord I s.loc).2 = y at *
    generalize (coord I I.finish).1 = x' at *
    generalize (coord I I.finish).2 = y' at *
    have h1 : |x - x'| ≤ |m.dx| + |x + m.dx - x'| := by
      have := abs_sub (x + m.dx - x') m.dx
      rw [show x + m.dx - x' - m.dx = x - x' by ring] at this
      omega
    have h2 : |y - y'| ≤ |m.dy| + |y + m.dy - y'| := by
      have := abs_sub (y + m.dy - y') m.dy
      rw [show y + m.dy - y' - m.dy = y - y' by ring] at this
      omega
    omega

theorem h_nonneg (s : State) : 0 ≤ h I s := add_nonneg (abs_nonneg _) (abs_nonneg _)

theorem h_goal {s : State} (hs : (dom I).goal s = true) : h I s = 0 := by
  have : s.loc = I.finish := by simpa [dom] using hs
  unfold h manhattan
  rw [this]
  simp

/-- Along a path without teleports the heuristic is consistent. -/
theorem safe_consistent (hI : InstOk I) {s t : State} {c : Int} (hs : SOk I s)
    (hw : Search.Walk ((dom I).restrict (safe I)) s t c) : h I s ≤ c + h I t := by
  refine Search.Walk.consistent (d := (dom I).restrict (safe I)) (I := SOk I)
    (fun s hs o ho => app_sok hI s hs o (List.mem_of_mem_filter ho)) (fun s hs o ho => ?_) hw hs
  have h1 : o ∈ (dom I).ops s := List.mem_of_mem_filter ho
  have h2 : safe I s o = true := (List.mem_filter.1 ho).2
  have := safe_app hI hs h1
  rw [if_pos h2] at this
  exact this

/-- A path from the initial state can do without teleports. -/
theorem shorten (hI : InstOk I) {t : State} {c : Int} (hw : Search.Walk (dom I) (initialstate I) t c) :
    ∃ c' ≤ c, Search.Walk ((dom I).restrict (safe I)) (initialstate I) t c' := by
  induction hw with
  | nil => exact ⟨0, le_rfl, .nil _⟩
  | @snoc u c o hw ho ih =>
    obtain ⟨c', h1, h2⟩ := ih
    have hu : SOk I u := hw.inv (app_sok hI) hI.start
    have := safe_app hI hu ho
    by_cases hsafe : safe I u o = true
    · exact ⟨c' + 1, by show c' + 1 ≤ c + 1; omega, h2.snoc (List.mem_filter.2 ⟨ho, hsafe⟩)⟩
    · rw [if_neg hsafe] at this
      rw [this]
      refine ⟨0, ?_, .nil _⟩
      have := hw.nonneg (domOk hI).cost
      show (0 : Int) ≤ c + 1
      omega

end Verif.Traffic
