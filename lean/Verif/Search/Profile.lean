import Verif.Outcome
import Mathlib.Logic.Function.Basic
import Mathlib.Algebra.BigOperators.Group.Finset.Basic
import Mathlib.Algebra.Order.BigOperators.Group.Finset
import Mathlib.Algebra.BigOperators.Ring.Finset
import Mathlib.Algebra.BigOperators.Field
import Mathlib.Algebra.Order.Floor.Ring
import Mathlib.Data.Rat.Floor
import Mathlib.Data.List.Count
import Mathlib.Tactic.Ring
import Mathlib.Tactic.Linarith
import Mathlib.Tactic.FieldSimp
import Mathlib.Tactic.Positivity

/-!
# Model of search/anyprof/profile.hpp and search/anyprof/profile.cc

`double` is modelled by exact rationals; `unsigned int` by natural numbers, wrapping around where the code relies on it
(`ncost - 1`, `ntime - 2`); the products in the index computations are assumed to fit.  A `std::vector` is a function on
natural numbers together with its size.  Reading a profile from a file and saving it
are in `Search/ProfFile`.
-/

namespace Verif.Profile

open Finset

/-- Conversion to `unsigned int`. -/
def u32 (n : Nat) : Nat := n % 2 ^ 32

/-- profile.hpp:18-20 `Solution`. -/
structure Sol where
  cost : ℚ
  time : ℚ

/-- profile.hpp:58-67: the sizes and ranges. -/
structure Dims where
  ncost : Nat
  ntime : Nat
  mincost : ℚ
  maxcost : ℚ
  mintime : ℚ
  maxtime : ℚ

/-- profile.cc:81-82, 85-86: `if (x < m) m = x`, where `none` is infinity. -/
def lower (m : Option ℚ) (x : ℚ) : Option ℚ :=
  match m with
  | none => some x
  | some v => if x < v then some x else some v

/-- profile.cc:83-84, 87-88: `if (x > m) m = x`, where `none` is minus infinity. -/
def raise (m : Option ℚ) (x : ℚ) : Option ℚ :=
  match m with
  | none => some x
  | some v => if x > v then some x else some v

/-- profile.cc:74-92 `getextents`; `none` if there is no solution at all (all four stay infinite). -/
def getextents (nc nt : Nat) (streams : List (List Sol)) : Option Dims :=
  let r := streams.flatten.foldl (fun m s => (lower m.1 s.cost, raise m.2.1 s.cost, lower m.2.2.1 s.time, raise m.2.2.2 s.time))
    ((none, none, none, none) : Option ℚ × Option ℚ × Option ℚ × Option ℚ)
  match r with
  | (some a, some b, some c, some d) => some ⟨nc, nt, a, b, c, d⟩
  | _ => none

/-- profile.hpp:77-79 `qtindex`. -/
def qtindex (D : Dims) (qi dt : Nat) : Nat := qi * D.ntime + dt

/-- profile.hpp:82-84 `qqtindex`. -/
def qqtindex (D : Dims) (qj qi dt : Nat) : Nat := qj * D.ncost * D.ntime + qi * D.ntime + dt

/-- profile.hpp:86-97 `costbin`.  Zero bins: the code's result indexes out of range as soon as it is used. -/
def costbin (D : Dims) (c : ℚ) : Outcome Nat :=
  if D.ncost = 0 then .ub
  else if ¬ c ≥ D.mincost then .fatal
  else if ¬ c ≤ D.maxcost then .fatal
  else if c = D.maxcost then .ok (u32 (D.ncost + 2 ^ 32 - 1))
  else
    let width := (D.maxcost - D.mincost) / D.ncost
    .ok (⌊(c - D.mincost) / width⌋).toNat

/-- profile.hpp:99-110 `timebin`. -/
def timebin (D : Dims) (dt : ℚ) : Outcome Nat :=
  if D.ntime = 0 then .ub
  else if ¬ dt ≥ 0 then .fatal
  else if ¬ dt ≤ D.maxtime - D.mintime then .fatal
  else if dt = D.maxtime - D.mintime then .ok (u32 (D.ntime + 2 ^ 32 - 1))
  else
    let width := (D.maxtime - D.mintime) / D.ntime
    .ok (⌊dt / width⌋).toNat

/-- The two arrays of counters. -/
structure Counts where
  qt : Nat → Nat
  qqt : Nat → Nat

/-- `a[i]++` for a vector of `n` elements. -/
def inc (n : Nat) (a : Nat → Nat) (i : Nat) : Outcome (Nat → Nat) :=
  if i < n then .ok (Function.update a i (a i + 1)) else .ub

/-- profile.cc:111-114 and 120-123: the loop over `dt`, `k` iterations starting at `dt`. -/
def countRange (D : Dims) (qi curq : Nat) : Nat → Nat → Counts → Outcome Counts
  | _, 0, c => .ok c
  | dt, k + 1, c =>
    (inc (D.ncost * D.ntime) c.qt (qtindex D qi dt)).bind fun qt =>
    (inc (D.ncost * D.ncost * D.ntime) c.qqt (qqtindex D curq qi dt)).bind fun qqt =>
      countRange D qi curq (dt + 1) k ⟨qt, qqt⟩

/-- profile.cc:104-123: the loop over `j` and the final loop over `dt`. -/
def countFrom (D : Dims) (si : Sol) (qi : Nat) : List Sol → Nat → Nat → Counts → Outcome Counts
  | [], curq, curdt, c => countRange D qi curq curdt (D.ntime - curdt) c
  | sj :: rest, curq, curdt, c =>
    if ¬ sj.time > si.time then .fatal
    else if ¬ sj.cost ≤ si.cost then .fatal
    else
      (costbin D sj.cost).bind fun nextq => (timebin D (sj.time - si.time)).bind fun nextdt =>
      (countRange D qi curq curdt (nextdt - curdt) c).bind fun c => countFrom D si qi rest nextq nextdt c

/-- profile.cc:99-124: the loop over `i`. -/
def countStream (D : Dims) : List Sol → Counts → Outcome Counts
  | [], c => .ok c
  | si :: rest, c =>
    (costbin D si.cost).bind fun qi => (countFrom D si qi rest qi 0 c).bind fun c => countStream D rest c

/-- profile.cc:94-126 `countsolutions`. -/
def countsolutions (D : Dims) : List (List Sol) → Counts → Outcome Counts
  | [], c => .ok c
  | s :: rest, c => (countStream D s c).bind fun c => countsolutions D rest c

/-! ## Specification of the counts -/

/-- `b` is the bin of `x` if the range from `lo` to `hi` is divided into `n` bins of equal width; the last bin
includes its upper end. -/
def InBin (lo hi : ℚ) (n : Nat) (x : ℚ) (b : Nat) : Prop :=
  b < n ∧ lo + b * ((hi - lo) / n) ≤ x ∧ (x < lo + (b + 1) * ((hi - lo) / n) ∨ x = hi ∧ b = n - 1)

/-- The bin, as a function. -/
def bin (lo hi : ℚ) (n : Nat) (x : ℚ) : Nat :=
  if x = hi then n - 1 else (⌊(x - lo) / ((hi - lo) / n)⌋).toNat

theorem bin_inBin {lo hi : ℚ} {n : Nat} (hn : 0 < n) {x : ℚ} (h1 : lo ≤ x) (h2 : x ≤ hi) :
    InBin lo hi n x (bin lo hi n x) := by
  have hn' : (0 : ℚ) < n := by exact_mod_cast hn
  unfold bin
  by_cases hx : x = hi
  · rw [if_pos hx]
    refine ⟨by omega, ?_, .inr ⟨hx, rfl⟩⟩
    have h3 : ((n - 1 : Nat) : ℚ) = n - 1 := by rw [Nat.cast_sub hn]; simp
    rw [h3, hx]
    have : lo + (n - 1) * ((hi - lo) / n) = hi - (hi - lo) / n := by field_simp; ring
    rw [this]
    have : 0 ≤ (hi - lo) / n := div_nonneg (by linarith) hn'.le
    linarith
  · rw [if_neg hx]
    have hlt : x < hi := lt_of_le_of_ne h2 hx
    have hw : 0 < (hi - lo) / n := div_pos (by linarith) hn'
    have hq : 0 ≤ (x - lo) / ((hi - lo) / n) := div_nonneg (by linarith) hw.le
    obtain ⟨k, hk⟩ : ∃ k : Nat, ⌊(x - lo) / ((hi - lo) / n)⌋ = (k : Int) :=
      Int.eq_ofNat_of_zero_le (Int.floor_nonneg.2 hq)
    rw [hk, Int.toNat_natCast]
    obtain ⟨f1, f2⟩ := Int.floor_eq_iff.1 hk
    rw [Int.cast_natCast] at f1 f2
    rw [le_div_iff₀ hw] at f1
    rw [div_lt_iff₀ hw] at f2
    refine ⟨?_, by linarith, .inl (by linarith)⟩
    by_contra hc
    have : (n : ℚ) ≤ k := by exact_mod_cast (by omega : n ≤ k)
    have h4 : (n : ℚ) * ((hi - lo) / n) ≤ k * ((hi - lo) / n) := mul_le_mul_of_nonneg_right this hw.le
    rw [mul_div_cancel₀ _ hn'.ne'] at h4
    linarith

theorem InBin.unique {lo hi : ℚ} {n : Nat} (hlt : lo ≤ hi) {x : ℚ} {b b' : Nat} (h : InBin lo hi n x b)
    (h' : InBin lo hi n x b') : b = b' := by
  have key : ∀ {b b' : Nat}, InBin lo hi n x b → InBin lo hi n x b' → ¬ b < b' := by
    rintro b b' ⟨h1, h2, h3⟩ ⟨h4, h5, h6⟩ hb
    have hn' : (0 : ℚ) < n := by exact_mod_cast (by omega : 0 < n)
    have hw : 0 ≤ (hi - lo) / n := div_nonneg (by linarith) hn'.le
    rcases h3 with h3 | h3
    · have : ((b : ℚ) + 1) ≤ b' := by exact_mod_cast hb
      have := mul_le_mul_of_nonneg_right this hw
      linarith
    · omega
  have h1 := key h h'
  have h2 := key h' h
  omega

theorem bin_lt {lo hi : ℚ} {n : Nat} (hn : 0 < n) {x : ℚ} (h1 : lo ≤ x) (h2 : x ≤ hi) : bin lo hi n x < n :=
  (bin_inBin hn h1 h2).1

theorem bin_mono {lo hi : ℚ} {n : Nat} (hn : 0 < n) {x y : ℚ} (h1 : lo ≤ x) (hxy : x ≤ y) (h2 : y ≤ hi) :
    bin lo hi n x ≤ bin lo hi n y := by
  obtain ⟨a1, a2, a3⟩ := bin_inBin hn h1 (hxy.trans h2)
  obtain ⟨b1, b2, b3⟩ := bin_inBin hn (h1.trans hxy) h2
  by_contra hc
  have hn' : (0 : ℚ) < n := by exact_mod_cast hn
  have hw : 0 ≤ (hi - lo) / n := div_nonneg (by linarith) hn'.le
  rcases b3 with b3 | b3
  · have : ((bin lo hi n y : ℚ) + 1) ≤ bin lo hi n x := by exact_mod_cast (by omega)
    have := mul_le_mul_of_nonneg_right this hw
    linarith
  · omega

/-- The bin of a cost. -/
def cb (D : Dims) (c : ℚ) : Nat := bin D.mincost D.maxcost D.ncost c

/-- The bin of a time span. -/
def tb (D : Dims) (t : ℚ) : Nat := bin 0 (D.maxtime - D.mintime) D.ntime t

/-- Numbers of bins that the code can handle. -/
structure DimsOk (D : Dims) : Prop where
  c0 : 0 < D.ncost
  c1 : D.ncost < 2 ^ 32
  t0 : 0 < D.ntime
  t1 : D.ntime < 2 ^ 32

/-- The solution lies in the ranges of the profile. -/
def Within (D : Dims) (s : Sol) : Prop :=
  D.mincost ≤ s.cost ∧ s.cost ≤ D.maxcost ∧ D.mintime ≤ s.time ∧ s.time ≤ D.maxtime

variable {D : Dims}

theorem u32_pred {n : Nat} (h0 : 0 < n) (h1 : n < 2 ^ 32) : u32 (n + 2 ^ 32 - 1) = n - 1 := by
  unfold u32
  omega

theorem costbin_ok (hD : DimsOk D) {c : ℚ} (h1 : D.mincost ≤ c) (h2 : c ≤ D.maxcost) : costbin D c = .ok (cb D c) := by
  unfold costbin cb bin
  rw [if_neg (by have := hD.c0; omega), if_neg (by simpa using h1), if_neg (by simpa using h2), u32_pred hD.c0 hD.c1]
  split <;> rfl

theorem timebin_ok (hD : DimsOk D) {c : ℚ} (h1 : 0 ≤ c) (h2 : c ≤ D.maxtime - D.mintime) : timebin D c = .ok (tb D c) := by
  unfold timebin tb bin
  rw [if_neg (by have := hD.t0; omega), if_neg (by simpa using h1), if_neg (by simpa using h2), u32_pred hD.t0 hD.t1,
    sub_zero, sub_zero]
  split <;> rfl

theorem cb_lt (hD : DimsOk D) {s : Sol} (h : Within D s) : cb D s.cost < D.ncost := bin_lt hD.c0 h.1 h.2.1

/-- A stream of solutions: ever later, never worse. -/
def StreamOk (s : List Sol) : Prop := s.Pairwise fun a b => a.time < b.time ∧ b.cost ≤ a.cost

/-- The bin of the cost of the incumbent, `d` time bins after `si` was found, if `rest` is what is found after `si`: of the
last solution that is found within the first `d` time bins. -/
def after (D : Dims) (si : Sol) (rest : List Sol) (d : Nat) : Nat :=
  cb D ((rest.filter fun r => decide (tb D (r.time - si.time) ≤ d)).getLastD si).cost

/-- The solution the list begins with is in bin `qi`. -/
def from? (D : Dims) (qi : Nat) : List Sol → Bool
  | [] => false
  | s :: _ => decide (cb D s.cost = qi)

/-- The solution the list begins with is in bin `qi`, and `d` time bins later the incumbent is in bin `qj`. -/
def trans? (D : Dims) (qj qi d : Nat) : List Sol → Bool
  | [] => false
  | s :: rest => decide (cb D s.cost = qi ∧ after D s rest d = qj)

/-! ## The counting loops -/

theorem qt_lt {q d : Nat} (hq : q < D.ncost) (hd : d < D.ntime) : qtindex D q d < D.ncost * D.ntime := by
  unfold qtindex
  have : (q + 1) * D.ntime ≤ D.ncost * D.ntime := Nat.mul_le_mul_right _ (by omega)
  rw [Nat.add_mul] at this
  omega

theorem qqt_eq (p q d : Nat) : qqtindex D p q d = (p * D.ncost + q) * D.ntime + d := by
  unfold qqtindex
  ring

theorem qqt_lt {p q d : Nat} (hp : p < D.ncost) (hq : q < D.ncost) (hd : d < D.ntime) :
    qqtindex D p q d < D.ncost * D.ncost * D.ntime := by
  rw [qqt_eq]
  have h1 : p * D.ncost + q + 1 ≤ D.ncost * D.ncost := by
    have : (p + 1) * D.ncost ≤ D.ncost * D.ncost := Nat.mul_le_mul_right _ (by omega)
    rw [Nat.add_mul] at this
    omega
  have : (p * D.ncost + q + 1) * D.ntime ≤ D.ncost * D.ncost * D.ntime := Nat.mul_le_mul_right _ h1
  rw [Nat.add_mul] at this
  omega

theorem flat_inj {n a b c d : Nat} (hb : b < n) (hd : d < n) : a * n + b = c * n + d ↔ a = c ∧ b = d := by
  refine ⟨fun h => ?_, fun h => by rw [h.1, h.2]⟩
  have h1 : (a * n + b) / n = a := by rw [Nat.mul_comm, Nat.mul_add_div (by omega), Nat.div_eq_of_lt hb, Nat.add_zero]
  have h2 : (c * n + d) / n = c := by rw [Nat.mul_comm, Nat.mul_add_div (by omega), Nat.div_eq_of_lt hd, Nat.add_zero]
  rw [h, h2] at h1
  subst h1
  exact ⟨rfl, by omega⟩

theorem qt_inj {q d q' d' : Nat} (hd : d < D.ntime) (hd' : d' < D.ntime) :
    qtindex D q d = qtindex D q' d' ↔ q = q' ∧ d = d' := flat_inj hd hd'

theorem qqt_inj {p q d p' q' d' : Nat} (hq : q < D.ncost) (hq' : q' < D.ncost) (hd : d < D.ntime) (hd' : d' < D.ntime) :
    qqtindex D p q d = qqtindex D p' q' d' ↔ p = p' ∧ q = q' ∧ d = d' := by
  rw [qqt_eq, qqt_eq, flat_inj hd hd', flat_inj hq hq', and_assoc]

/-- The counters of `c'` are those of `c` and `f`, `g` more. -/
def Adds (D : Dims) (c c' : Counts) (f : Nat → Nat → Nat) (g : Nat → Nat → Nat → Nat) : Prop :=
  ∀ q d, q < D.ncost → d < D.ntime →
    c'.qt (qtindex D q d) = c.qt (qtindex D q d) + f q d ∧
    ∀ p, p < D.ncost → c'.qqt (qqtindex D p q d) = c.qqt (qqtindex D p q d) + g p q d

theorem Adds.trans {c c' c'' : Counts} {f f' : Nat → Nat → Nat} {g g' : Nat → Nat → Nat → Nat} (h : Adds D c c' f g)
    (h' : Adds D c' c'' f' g') : Adds D c c'' (fun q d => f q d + f' q d) (fun p q d => g p q d + g' p q d) := by
  intro q d hq hd
  obtain ⟨a1, a2⟩ := h q d hq hd
  obtain ⟨b1, b2⟩ := h' q d hq hd
  refine ⟨by rw [b1, a1, Nat.add_assoc], fun p hp => by rw [b2 p hp, a2 p hp, Nat.add_assoc]⟩

theorem Adds.congr {c c' : Counts} {f f' : Nat → Nat → Nat} {g g' : Nat → Nat → Nat → Nat} (h : Adds D c c' f g)
    (hf : ∀ q d, q < D.ncost → d < D.ntime → f q d = f' q d)
    (hg : ∀ p q d, p < D.ncost → q < D.ncost → d < D.ntime → g p q d = g' p q d) : Adds D c c' f' g' := by
  intro q d hq hd
  obtain ⟨a1, a2⟩ := h q d hq hd
  exact ⟨by rw [a1, hf q d hq hd], fun p hp => by rw [a2 p hp, hg p q d hp hq hd]⟩

theorem countRange_ok {qi curq : Nat} (hqi : qi < D.ncost) (hcur : curq < D.ncost) (k : Nat) :
    ∀ {dt : Nat} {c : Counts}, dt + k ≤ D.ntime → ∃ c', countRange D qi curq dt k c = .ok c' ∧
      Adds D c c' (fun q d => if q = qi ∧ dt ≤ d ∧ d < dt + k then 1 else 0)
        (fun p q d => if p = curq ∧ q = qi ∧ dt ≤ d ∧ d < dt + k then 1 else 0) := by
  induction k with
  | zero =>
    intro dt c _
    refine ⟨c, rfl, fun q d _ _ => ⟨?_, fun p _ => ?_⟩⟩
    · dsimp only
      rw [if_neg (by omega), Nat.add_zero]
    · dsimp only
      rw [if_neg (by omega), Nat.add_zero]
  | succ k ih =>
    intro dt c hdt
    have hd : dt < D.ntime := by omega
    unfold countRange inc
    rw [if_pos (qt_lt hqi hd), Outcome.bind_ok, if_pos (qqt_lt hcur hqi hd), Outcome.bind_ok]
    obtain ⟨c', h1, h2⟩ := ih (dt := dt + 1) (c := ⟨_, _⟩) (by omega)
    refine ⟨c', h1, fun q d hq hd' => ?_⟩
    obtain ⟨h3, h4⟩ := h2 q d hq hd'
    refine ⟨?_, fun p hp => ?_⟩
    · rw [h3]
      dsimp only
      rw [Function.update_apply]
      simp only [qt_inj hd' hd]
      by_cases e : q = qi ∧ d = dt
      · rw [if_pos e, if_neg (by omega), if_pos (by omega), e.1, e.2]
      · rw [if_neg e]
        congr 1
        exact if_congr (by omega) rfl rfl
    · rw [h4 p hp]
      dsimp only
      rw [Function.update_apply]
      simp only [qqt_inj hq hqi hd' hd]
      by_cases e : p = curq ∧ q = qi ∧ d = dt
      · rw [if_pos e, if_neg (by omega), if_pos (by omega), e.1, e.2.1, e.2.2]
      · rw [if_neg e]
        congr 1
        exact if_congr (by omega) rfl rfl

theorem getLastD_cons' {α : Type*} (a b : α) (l : List α) : (a :: l).getLastD b = l.getLastD a := by
  cases l <;> rfl

theorem countFrom_ok (hD : DimsOk D) {si : Sol} (hsi : Within D si) (rest : List Sol) :
    ∀ {cur : Sol} {curdt : Nat} {c : Counts}, Within D cur → curdt < D.ntime →
      (∀ r ∈ rest, Within D r ∧ si.time < r.time ∧ r.cost ≤ si.cost ∧ curdt ≤ tb D (r.time - si.time)) →
      rest.Pairwise (fun a b => a.time < b.time) →
      ∃ c', countFrom D si (cb D si.cost) rest (cb D cur.cost) curdt c = .ok c' ∧
        Adds D c c' (fun q d => if q = cb D si.cost ∧ curdt ≤ d then 1 else 0)
          (fun p q d => if p = cb D ((rest.filter fun r => decide (tb D (r.time - si.time) ≤ d)).getLastD cur).cost ∧
            q = cb D si.cost ∧ curdt ≤ d then 1 else 0) := by
  have hqi : cb D si.cost < D.ncost := cb_lt hD hsi
  induction rest with
  | nil =>
    intro cur curdt c hcur hdt _ _
    obtain ⟨c', h1, h2⟩ := countRange_ok (D := D) hqi (cb_lt hD hcur) (D.ntime - curdt) (dt := curdt) (c := c)
      (by omega)
    refine ⟨c', h1, h2.congr (fun q d _ hd => if_congr (by omega) rfl rfl) (fun p q d _ _ hd => if_congr ?_ rfl rfl)⟩
    simp only [List.filter_nil, List.getLastD_nil]
    omega
  | cons sj rest ih =>
    intro cur curdt c hcur hdt hr hs
    obtain ⟨w1, w2, w3, w4⟩ := hr sj List.mem_cons_self
    unfold countFrom
    rw [if_neg (by simpa using w2), if_neg (by simpa using w3), costbin_ok hD w1.1 w1.2.1, Outcome.bind_ok,
      timebin_ok hD (by linarith) (by have := w1.2.2.2; have := hsi.2.2.1; linarith), Outcome.bind_ok]
    have hnt : tb D (sj.time - si.time) < D.ntime :=
      bin_lt hD.t0 (by linarith) (by have := w1.2.2.2; have := hsi.2.2.1; linarith)
    obtain ⟨c1, h1, h2⟩ := countRange_ok (D := D) hqi (cb_lt hD hcur) (tb D (sj.time - si.time) - curdt)
      (dt := curdt) (c := c) (by omega)
    rw [h1, Outcome.bind_ok]
    rw [List.pairwise_cons] at hs
    have hle : ∀ r ∈ rest, tb D (sj.time - si.time) ≤ tb D (r.time - si.time) := by
      intro r hr'
      have := hs.1 r hr'
      obtain ⟨v1, v2, -, -⟩ := hr r (List.mem_cons_of_mem _ hr')
      exact bin_mono hD.t0 (by linarith) (by linarith) (by have := v1.2.2.2; have := hsi.2.2.1; linarith)
    obtain ⟨c2, h3, h4⟩ := ih (cur := sj) (curdt := tb D (sj.time - si.time)) (c := c1) w1 hnt
      (fun r hr' => by
        obtain ⟨v1, v2, v3, -⟩ := hr r (List.mem_cons_of_mem _ hr')
        exact ⟨v1, v2, v3, hle r hr'⟩) hs.2
    refine ⟨c2, h3, (h2.trans h4).congr (fun q d _ hd => ?_) (fun p q d _ _ hd => ?_)⟩
    · by_cases hq : q = cb D si.cost
      · by_cases hd1 : curdt ≤ d
        · by_cases hd2 : tb D (sj.time - si.time) ≤ d
          · rw [if_neg (by omega), if_pos ⟨hq, hd2⟩, if_pos ⟨hq, hd1⟩]
          · rw [if_pos (by omega), if_neg (by omega), if_pos ⟨hq, hd1⟩]
        · rw [if_neg (by omega), if_neg (by omega), if_neg (by omega)]
      · rw [if_neg (by omega), if_neg (by omega), if_neg (by omega)]
    · by_cases hd2 : tb D (sj.time - si.time) ≤ d
      · rw [List.filter_cons_of_pos (by simpa using hd2), getLastD_cons', if_neg (by omega), Nat.zero_add]
        exact if_congr (by constructor <;> rintro ⟨a, b, c⟩ <;> exact ⟨a, b, by omega⟩) rfl rfl
      · have e : (sj :: rest).filter (fun r => decide (tb D (r.time - si.time) ≤ d)) = [] := by
          rw [List.filter_eq_nil_iff]
          intro r hr'
          have : tb D (sj.time - si.time) ≤ tb D (r.time - si.time) := by
            rcases List.mem_cons.1 hr' with rfl | hr'
            · exact le_rfl
            · exact hle r hr'
          simp only [decide_eq_true_eq]
          omega
        rw [e, List.getLastD_nil, if_neg (show ¬ (p = _ ∧ q = cb D si.cost ∧ tb D (sj.time - si.time) ≤ d) by omega),
          Nat.add_zero]
        exact if_congr (by omega) rfl rfl

theorem countStream_ok (hD : DimsOk D) (s : List Sol) (hs : StreamOk s) (hw : ∀ r ∈ s, Within D r) :
    ∀ {c : Counts}, ∃ c', countStream D s c = .ok c' ∧
      Adds D c c' (fun q _ => s.tails.countP (from? D q)) (fun p q d => s.tails.countP (trans? D p q d)) := by
  induction s with
  | nil => intro c; exact ⟨c, rfl, fun q d _ _ => ⟨by simp [from?], fun p _ => by simp [trans?]⟩⟩
  | cons si rest ih =>
    intro c
    have hsi := hw si List.mem_cons_self
    unfold countStream
    rw [costbin_ok hD hsi.1 hsi.2.1, Outcome.bind_ok]
    unfold StreamOk at hs
    rw [List.pairwise_cons] at hs
    obtain ⟨c1, h1, h2⟩ := countFrom_ok hD hsi rest (cur := si) (curdt := 0) (c := c) hsi hD.t0
      (fun r hr => ⟨hw r (List.mem_cons_of_mem _ hr), (hs.1 r hr).1, (hs.1 r hr).2, Nat.zero_le _⟩)
      (hs.2.imp fun h => h.1)
    rw [h1, Outcome.bind_ok]
    obtain ⟨c2, h3, h4⟩ := ih hs.2 (fun r hr => hw r (List.mem_cons_of_mem _ hr)) (c := c1)
    refine ⟨c2, h3, (h2.trans h4).congr (fun q d _ _ => ?_) (fun p q d _ _ _ => ?_)⟩
    · rw [List.tails_cons, List.countP_cons, Nat.add_comm]
      congr 1
      refine if_congr ?_ rfl rfl
      simp only [from?, decide_eq_true_eq]
      exact ⟨fun h => h.1.symm, fun h => ⟨h.symm, Nat.zero_le _⟩⟩
    · rw [List.tails_cons, List.countP_cons, Nat.add_comm]
      congr 1
      refine if_congr ?_ rfl rfl
      refine Iff.trans ?_ (decide_eq_true_iff).symm
      unfold after
      exact ⟨fun h => ⟨h.2.1.symm, h.1.symm⟩, fun h => ⟨h.2.symm, h.1.symm, Nat.zero_le _⟩⟩

theorem countsolutions_ok (hD : DimsOk D) (ss : List (List Sol)) (hs : ∀ s ∈ ss, StreamOk s)
    (hw : ∀ s ∈ ss, ∀ r ∈ s, Within D r) :
    ∀ {c : Counts}, ∃ c', countsolutions D ss c = .ok c' ∧
      Adds D c c' (fun q _ => (ss.flatMap List.tails).countP (from? D q))
        (fun p q d => (ss.flatMap List.tails).countP (trans? D p q d)) := by
  induction ss with
  | nil => intro c; exact ⟨c, rfl, fun q d _ _ => ⟨by simp, fun p _ => by simp⟩⟩
  | cons s ss ih =>
    intro c
    unfold countsolutions
    obtain ⟨c1, h1, h2⟩ := countStream_ok hD s (hs s List.mem_cons_self) (hw s List.mem_cons_self) (c := c)
    rw [h1, Outcome.bind_ok]
    obtain ⟨c2, h3, h4⟩ := ih (fun t ht => hs t (List.mem_cons_of_mem _ ht)) (fun t ht => hw t (List.mem_cons_of_mem _ ht))
      (c := c1)
    refine ⟨c2, h3, (h2.trans h4).congr (fun q d _ _ => ?_) (fun p q d _ _ _ => ?_)⟩ <;>
      rw [List.flatMap_cons, List.countP_append]

/-! ## Probabilities -/

/-- profile.cc:131-137: the iterations of the three loops, as triples `(qi, dt, qj)`. -/
def triples (D : Dims) : List (Nat × Nat × Nat) :=
  (List.range D.ncost).flatMap fun qi => (List.range D.ntime).flatMap fun dt => (List.range D.ncost).map fun qj => (qi, dt, qj)

/-- profile.cc:131-150: counting. -/
def probLoop (D : Dims) (c : Counts) : List (Nat × Nat × Nat) → (Nat → ℚ) → Option ℚ → Outcome ((Nat → ℚ) × Option ℚ)
  | [], a, small => .ok (a, small)
  | (qi, dt, qj) :: l, a, small =>
    let n := c.qt (qtindex D qi dt)
    if n = 0 then probLoop D c l a small
    else
      let i := qqtindex D qj qi dt
      let m := c.qqt i
      if ¬ (qj ≤ qi ∨ m = 0) then .fatal
      else
        let p : ℚ := (m : ℚ) / n
        probLoop D c l (Function.update a i p) (if p > 0 then lower small p else small)

/-- profile.cc:154-160: the iterations of the smoothing loops. -/
def lowTriples (D : Dims) : List (Nat × Nat × Nat) :=
  (List.range D.ncost).flatMap fun qi => (List.range D.ntime).flatMap fun dt => (List.range (qi + 1)).map fun qj => (qi, dt, qj)

/-- profile.cc:154-160: smoothing. -/
def smooth (D : Dims) (v : ℚ) (a : Nat → ℚ) : Nat → ℚ :=
  (lowTriples D).foldl (fun a k => Function.update a (qqtindex D k.2.2 k.1 k.2.1) (a (qqtindex D k.2.2 k.1 k.2.1) + v / 2)) a

/-- profile.cc:163-164: the iterations of the two outer loops. -/
def pairs (D : Dims) : List (Nat × Nat) := (List.range D.ncost).flatMap fun qi => (List.range D.ntime).map fun dt => (qi, dt)

/-- profile.cc:165-168 and 176-180: summing up one row of `n` probabilities. -/
def rowSum (D : Dims) (a : Nat → ℚ) (qi dt n : Nat) : ℚ :=
  (List.range n).foldl (fun s qj => s + a (qqtindex D qj qi dt)) 0

/-- profile.cc:172-173: dividing. -/
def divRow (D : Dims) (a : Nat → ℚ) (qi dt : Nat) (sum : ℚ) : Nat → ℚ :=
  (List.range (qi + 1)).foldl
    (fun a qj => Function.update a (qqtindex D qj qi dt) (a (qqtindex D qj qi dt) / sum)) a

/-- profile.cc:163-184: normalising; the second loop's first assertion holds trivially and is left out. -/
def normLoop (D : Dims) : List (Nat × Nat) → (Nat → ℚ) → Outcome (Nat → ℚ)
  | [], a => .ok a
  | (qi, dt) :: l, a =>
    let sum := rowSum D a qi dt D.ncost
    if ¬ sum > 0 then .fatal
    else
      let a := divRow D a qi dt sum
      let sum := rowSum D a qi dt (qi + 1)
      if ¬ (sum > 1 - 1 / 10 ^ 8) then .fatal
      else if ¬ (sum < 1 + 1 / 10 ^ 8) then .fatal
      else normLoop D l a

/-- profile.cc:128-185 `mkprobs`.  If no count is positive, `small` stays infinite; then the probabilities become
infinite, their quotients undefined numbers, and the assertions fail. -/
def mkprobs (D : Dims) (c : Counts) (a : Nat → ℚ) : Outcome (Nat → ℚ) :=
  (probLoop D c (triples D) a none).bind fun r =>
    match r.2 with
    | none => if D.ncost = 0 ∨ D.ntime = 0 then .ok r.1 else .fatal
    | some v => normLoop D (pairs D) (smooth D v r.1)

/-- A profile. -/
structure Prof where
  D : Dims
  c : Counts
  probs : Nat → ℚ

/-- profile.cc:8-12, 61-72: the constructor from streams of solutions, `initbins`, `seesolutions`. -/
def mk (nc nt : Nat) (streams : List (List Sol)) : Outcome Prof :=
  match getextents nc nt streams with
  | none => if nc = 0 ∨ nt = 0 then .ub else .fatal
  | some D =>
    (countsolutions D streams ⟨fun _ => 0, fun _ => 0⟩).bind fun c =>
      (mkprobs D c fun _ => 0).map fun a => ⟨D, c, a⟩

/-- profile.hpp:46-53 `binprob`. -/
def binprob (P : Prof) (q2 q1 dt : Nat) : ℚ :=
  if q2 ≥ P.D.ncost ∨ q1 ≥ P.D.ncost ∨ dt ≥ P.D.ntime then 0 else P.probs (qqtindex P.D q2 q1 dt)

/-! ## What the loops compute -/

theorem mem_triples {k : Nat × Nat × Nat} : k ∈ triples D ↔ k.1 < D.ncost ∧ k.2.1 < D.ntime ∧ k.2.2 < D.ncost := by
  obtain ⟨a, b, c⟩ := k
  simp [triples]

theorem mem_lowTriples {k : Nat × Nat × Nat} : k ∈ lowTriples D ↔ k.1 < D.ncost ∧ k.2.1 < D.ntime ∧ k.2.2 < k.1 + 1 := by
  obtain ⟨a, b, c⟩ := k
  simp [lowTriples]

theorem mem_pairs {k : Nat × Nat} : k ∈ pairs D ↔ k.1 < D.ncost ∧ k.2 < D.ntime := by
  obtain ⟨a, b⟩ := k
  simp [pairs]

theorem nodup_triples (f : Nat → Nat) :
    ((List.range D.ncost).flatMap fun qi => (List.range D.ntime).flatMap fun dt =>
      (List.range (f qi)).map fun qj => (qi, dt, qj)).Nodup := by
  rw [List.nodup_flatMap]
  refine ⟨fun qi _ => ?_, ?_⟩
  · rw [List.nodup_flatMap]
    refine ⟨fun dt _ => List.Nodup.map (fun x y h => by simpa using h) List.nodup_range, ?_⟩
    refine List.Pairwise.imp ?_ List.nodup_range
    intro x y hxy z hz hz'
    simp only [List.mem_map] at hz hz'
    obtain ⟨u, -, rfl⟩ := hz
    obtain ⟨v, -, hv⟩ := hz'
    simp only [Prod.mk.injEq] at hv
    exact hxy hv.2.1.symm
  · refine List.Pairwise.imp ?_ List.nodup_range
    intro x y hxy z hz hz'
    simp only [List.mem_flatMap, List.mem_map] at hz hz'
    obtain ⟨u, -, u', -, rfl⟩ := hz
    obtain ⟨v, -, v', -, hv⟩ := hz'
    simp only [Prod.mk.injEq] at hv
    exact hxy hv.1.symm

theorem nodup_pairs : (pairs D).Nodup := by
  unfold pairs
  rw [List.nodup_flatMap]
  refine ⟨fun dt _ => List.Nodup.map (fun x y h => by simpa using h) List.nodup_range, ?_⟩
  refine List.Pairwise.imp ?_ List.nodup_range
  intro x y hxy z hz hz'
  simp only [List.mem_map] at hz hz'
  obtain ⟨u, -, rfl⟩ := hz
  obtain ⟨v, -, hv⟩ := hz'
  simp only [Prod.mk.injEq] at hv
  exact hxy hv.1.symm

/-- A loop that changes every element of a list of distinct positions once. -/
theorem foldl_upd {K : Type*} (idx : K → Nat) (f : K → ℚ → ℚ) (l : List K) (hl : l.Nodup)
    (hinj : ∀ k ∈ l, ∀ k' ∈ l, idx k = idx k' → k = k') (a : Nat → ℚ) :
    (∀ k ∈ l, l.foldl (fun a k => Function.update a (idx k) (f k (a (idx k)))) a (idx k) = f k (a (idx k))) ∧
    (∀ i, (∀ k ∈ l, idx k ≠ i) → l.foldl (fun a k => Function.update a (idx k) (f k (a (idx k)))) a i = a i) := by
  induction l generalizing a with
  | nil => exact ⟨fun k hk => absurd hk (by simp), fun i _ => rfl⟩
  | cons x l ih =>
    rw [List.nodup_cons] at hl
    obtain ⟨h1, h2⟩ := ih hl.2 (fun k hk k' hk' => hinj k (List.mem_cons_of_mem _ hk) k' (List.mem_cons_of_mem _ hk'))
      (Function.update a (idx x) (f x (a (idx x))))
    have hx : ∀ k ∈ l, idx k ≠ idx x := fun k hk e =>
      hl.1 (hinj k (List.mem_cons_of_mem _ hk) x List.mem_cons_self e ▸ hk)
    refine ⟨fun k hk => ?_, fun i hi => ?_⟩
    · rw [List.foldl_cons]
      rcases List.mem_cons.1 hk with rfl | hk
      · rw [h2 _ hx, Function.update_self]
      · rw [h1 k hk, Function.update_of_ne (hx k hk)]
    · rw [List.foldl_cons, h2 i (fun k hk => hi k (List.mem_cons_of_mem _ hk)),
        Function.update_of_ne (hi x List.mem_cons_self).symm]

/-- The observed frequency. -/
def raw (D : Dims) (c : Counts) (qj qi dt : Nat) : ℚ := (c.qqt (qqtindex D qj qi dt) : ℚ) / c.qt (qtindex D qi dt)

/-- What the counters satisfy: a row adds up, and later solutions are no worse. -/
structure CountsOk (D : Dims) (c : Counts) : Prop where
  sum : ∀ q d, q < D.ncost → d < D.ntime → c.qt (qtindex D q d) = ∑ p ∈ range D.ncost, c.qqt (qqtindex D p q d)
  low : ∀ p q d, p < D.ncost → q < D.ncost → d < D.ntime → q < p → c.qqt (qqtindex D p q d) = 0

theorem qqt_le_qt {c : Counts} (hc : CountsOk D c) {p q d : Nat} (hp : p < D.ncost) (hq : q < D.ncost) (hd : d < D.ntime) :
    c.qqt (qqtindex D p q d) ≤ c.qt (qtindex D q d) := by
  rw [hc.sum q d hq hd]
  exact single_le_sum (f := fun p => c.qqt (qqtindex D p q d)) (fun _ _ => Nat.zero_le _) (mem_range.2 hp)

theorem probLoop_ok {c : Counts} (hc : CountsOk D c) (l : List (Nat × Nat × Nat)) (hl : l.Nodup)
    (hm : ∀ k ∈ l, k ∈ triples D) : ∀ (a : Nat → ℚ) (small : Option ℚ),
    (∀ k ∈ l, a (qqtindex D k.2.2 k.1 k.2.1) = 0) → (∀ v, small = some v → 0 < v) →
    ∃ a' small', probLoop D c l a small = .ok (a', small') ∧
      (∀ k ∈ l, a' (qqtindex D k.2.2 k.1 k.2.1) = raw D c k.2.2 k.1 k.2.1) ∧
      (∀ i, (∀ k ∈ l, qqtindex D k.2.2 k.1 k.2.1 ≠ i) → a' i = a i) ∧
      (∀ v, small' = some v → 0 < v ∧ (small = some v ∨ ∃ k ∈ l, v = raw D c k.2.2 k.1 k.2.1) ∧
        (∀ k ∈ l, 0 < raw D c k.2.2 k.1 k.2.1 → v ≤ raw D c k.2.2 k.1 k.2.1) ∧ ∀ u, small = some u → v ≤ u) ∧
      (small' = none → small = none ∧ ∀ k ∈ l, ¬ 0 < raw D c k.2.2 k.1 k.2.1) := by
  induction l with
  | nil =>
    intro a small _ hs
    refine ⟨a, small, rfl, by simp, fun _ _ => rfl, fun v hv => ⟨hs v hv, .inl hv, by simp, fun u hu => ?_⟩, fun h => ⟨h, by simp⟩⟩
    rw [hv] at hu
    exact (Option.some.inj hu).le
  | cons k l ih =>
    intro a small ha hs
    obtain ⟨qi, dt, qj⟩ := k
    rw [List.nodup_cons] at hl
    obtain ⟨b1, b2, b3⟩ := mem_triples.1 (hm _ List.mem_cons_self)
    dsimp only at b1 b2 b3
    have hne : ∀ k ∈ l, qqtindex D k.2.2 k.1 k.2.1 ≠ qqtindex D qj qi dt := by
      intro k hk e
      obtain ⟨g1, g2, g3⟩ := mem_triples.1 (hm _ (List.mem_cons_of_mem _ hk))
      obtain ⟨e1, e2, e3⟩ := (qqt_inj g1 b1 g2 b2).1 e
      exact hl.1 (by rw [← e1, ← e2, ← e3]; exact hk)
    have hm' := fun k hk => hm k (List.mem_cons_of_mem _ hk)
    unfold probLoop
    dsimp only
    by_cases hn : c.qt (qtindex D qi dt) = 0
    · rw [if_pos hn]
      have hr : raw D c qj qi dt = 0 := by unfold raw; rw [hn]; simp
      obtain ⟨a', s', e1, e2, e3, e4, e5⟩ := ih hl.2 hm' a small (fun k hk => ha k (List.mem_cons_of_mem _ hk)) hs
      refine ⟨a', s', e1, ?_, fun i hi => e3 i fun k hk => hi k (List.mem_cons_of_mem _ hk), ?_, ?_⟩
      · rintro k hk
        rcases List.mem_cons.1 hk with rfl | hk
        · dsimp only
          rw [e3 _ hne, hr]
          exact ha _ List.mem_cons_self
        · exact e2 k hk
      · intro v hv
        obtain ⟨f1, f2, f3, f4⟩ := e4 v hv
        refine ⟨f1, f2.imp_right fun ⟨k, h1, h2⟩ => ⟨k, List.mem_cons_of_mem _ h1, h2⟩, fun k hk h0 => ?_, f4⟩
        rcases List.mem_cons.1 hk with rfl | hk
        · exact absurd h0 (by rw [hr]; exact lt_irrefl _)
        · exact f3 k hk h0
      · intro h
        obtain ⟨f1, f2⟩ := e5 h
        refine ⟨f1, fun k hk => ?_⟩
        rcases List.mem_cons.1 hk with rfl | hk
        · rw [hr]; exact lt_irrefl _
        · exact f2 k hk
    · rw [if_neg hn]
      have hlow : qj ≤ qi ∨ c.qqt (qqtindex D qj qi dt) = 0 := by
        rcases Nat.lt_or_ge qi qj with h | h
        · exact .inr (hc.low _ _ _ b3 b1 b2 h)
        · exact .inl h
      rw [if_neg (not_not.2 hlow)]
      change ∃ a' small', probLoop D c l (Function.update a (qqtindex D qj qi dt) (raw D c qj qi dt))
        (if raw D c qj qi dt > 0 then lower small (raw D c qj qi dt) else small) = .ok (a', small') ∧ _
      have hs' : ∀ v, (if raw D c qj qi dt > 0 then lower small (raw D c qj qi dt) else small) = some v →
          0 < v ∧ (small = some v ∨ v = raw D c qj qi dt) ∧ (0 < raw D c qj qi dt → v ≤ raw D c qj qi dt) ∧
          ∀ u, small = some u → v ≤ u := by
        intro v hv
        by_cases hp : raw D c qj qi dt > 0
        · rw [if_pos hp] at hv
          unfold lower at hv
          cases small with
          | none =>
            dsimp only at hv
            obtain rfl := Option.some.inj hv
            exact ⟨hp, .inr rfl, fun _ => le_rfl, fun u hu => by simp at hu⟩
          | some w =>
            dsimp only at hv
            by_cases hlt : raw D c qj qi dt < w
            · rw [if_pos hlt] at hv
              obtain rfl := Option.some.inj hv
              exact ⟨hp, .inr rfl, fun _ => le_rfl, fun u hu => by rw [← Option.some.inj hu]; exact hlt.le⟩
            · rw [if_neg hlt] at hv
              obtain rfl := Option.some.inj hv
              exact ⟨hs _ rfl, .inl rfl, fun _ => not_lt.1 hlt, fun u hu => by rw [← Option.some.inj hu]⟩
        · rw [if_neg hp] at hv
          refine ⟨hs v hv, .inl hv, fun h => absurd h hp, fun u hu => ?_⟩
          rw [hv] at hu
          exact (Option.some.inj hu).le
      obtain ⟨a', s', e1, e2, e3, e4, e5⟩ := ih hl.2 hm' (Function.update a (qqtindex D qj qi dt) (raw D c qj qi dt))
        (if raw D c qj qi dt > 0 then lower small (raw D c qj qi dt) else small)
        (fun k hk => by rw [Function.update_of_ne (hne k hk)]; exact ha k (List.mem_cons_of_mem _ hk))
        (fun v hv => (hs' v hv).1)
      refine ⟨a', s', e1, ?_, fun i hi => ?_, ?_, ?_⟩
      · rintro k hk
        rcases List.mem_cons.1 hk with rfl | hk
        · dsimp only
          rw [e3 _ hne, Function.update_self]
        · exact e2 k hk
      · rw [e3 i fun k hk => hi k (List.mem_cons_of_mem _ hk)]
        exact Function.update_of_ne (hi _ List.mem_cons_self).symm _ _
      · intro v hv
        obtain ⟨f1, f2, f3, f4⟩ := e4 v hv
        refine ⟨f1, ?_, fun k hk h0 => ?_, fun u hu => ?_⟩
        · rcases f2 with f2 | ⟨k, h1, h2⟩
          · rcases (hs' v f2).2.1 with g | g
            · exact .inl g
            · exact .inr ⟨_, List.mem_cons_self, g⟩
          · exact .inr ⟨k, List.mem_cons_of_mem _ h1, h2⟩
        · rcases List.mem_cons.1 hk with rfl | hk
          · dsimp only at h0 ⊢
            rw [if_pos h0] at f4
            cases hsm : small with
            | none => exact f4 _ (by rw [hsm]; rfl)
            | some w =>
              rw [hsm] at f4
              unfold lower at f4
              dsimp only at f4
              by_cases hlt : raw D c qj qi dt < w
              · exact f4 _ (if_pos hlt)
              · exact (f4 _ (if_neg hlt)).trans (not_lt.1 hlt)
          · exact f3 k hk h0
        · by_cases hp : raw D c qj qi dt > 0
          · rw [if_pos hp, hu] at f4
            unfold lower at f4
            dsimp only at f4
            by_cases hlt : raw D c qj qi dt < u
            · exact (f4 _ (if_pos hlt)).trans hlt.le
            · exact f4 _ (if_neg hlt)
          · rw [if_neg hp] at f4
            exact f4 u hu
      · intro h
        obtain ⟨f1, f2⟩ := e5 h
        by_cases hp : raw D c qj qi dt > 0
        · rw [if_pos hp] at f1
          unfold lower at f1
          cases small with
          | none => simp at f1
          | some w =>
            dsimp only at f1
            split at f1 <;> simp at f1
        · rw [if_neg hp] at f1
          refine ⟨f1, fun k hk => ?_⟩
          rcases List.mem_cons.1 hk with rfl | hk
          · exact hp
          · exact f2 k hk

theorem smooth_low (v : ℚ) (a : Nat → ℚ) {qi dt qj : Nat} (h1 : qi < D.ncost) (h2 : dt < D.ntime) (h3 : qj ≤ qi) :
    smooth D v a (qqtindex D qj qi dt) = a (qqtindex D qj qi dt) + v / 2 := by
  have := (foldl_upd (fun k : Nat × Nat × Nat => qqtindex D k.2.2 k.1 k.2.1) (fun _ x => x + v / 2) (lowTriples D)
    (nodup_triples fun qi => qi + 1) (fun k hk k' hk' e => by
      obtain ⟨g1, g2, g3⟩ := mem_lowTriples.1 hk
      obtain ⟨g1', g2', g3'⟩ := mem_lowTriples.1 hk'
      obtain ⟨e1, e2, e3⟩ := (qqt_inj g1 g1' g2 g2').1 e
      exact Prod.ext e2 (Prod.ext e3 e1)) a).1 (qi, dt, qj) (mem_lowTriples.2 ⟨h1, h2, by dsimp only; omega⟩)
  exact this

theorem smooth_high (v : ℚ) (a : Nat → ℚ) {qi dt qj : Nat} (h1 : qi < D.ncost) (h2 : dt < D.ntime) (h3 : qi < qj) :
    smooth D v a (qqtindex D qj qi dt) = a (qqtindex D qj qi dt) := by
  refine (foldl_upd (fun k : Nat × Nat × Nat => qqtindex D k.2.2 k.1 k.2.1) (fun _ x => x + v / 2) (lowTriples D)
    (nodup_triples fun qi => qi + 1) (fun k hk k' hk' e => ?_) a).2 _ (fun k hk e => ?_)
  · obtain ⟨g1, g2, g3⟩ := mem_lowTriples.1 hk
    obtain ⟨g1', g2', g3'⟩ := mem_lowTriples.1 hk'
    obtain ⟨e1, e2, e3⟩ := (qqt_inj g1 g1' g2 g2').1 e
    exact Prod.ext e2 (Prod.ext e3 e1)
  · obtain ⟨g1, g2, g3⟩ := mem_lowTriples.1 hk
    obtain ⟨e1, e2, e3⟩ := (qqt_inj g1 h1 g2 h2).1 e
    omega

theorem rowSum_eq (a : Nat → ℚ) (qi dt n : Nat) : rowSum D a qi dt n = ∑ qj ∈ range n, a (qqtindex D qj qi dt) := by
  unfold rowSum
  induction n with
  | zero => rfl
  | succ n ih => rw [List.range_succ, List.foldl_append, ih, sum_range_succ]; rfl

theorem divRow_low (a : Nat → ℚ) {qi dt qj : Nat} (s : ℚ) (h1 : qi < D.ncost) (h2 : dt < D.ntime) (h3 : qj ≤ qi) :
    divRow D a qi dt s (qqtindex D qj qi dt) = a (qqtindex D qj qi dt) / s :=
  (foldl_upd (fun qj => qqtindex D qj qi dt) (fun _ x => x / s) (List.range (qi + 1)) List.nodup_range
    (fun k _ k' _ e => ((qqt_inj h1 h1 h2 h2).1 e).1) a).1 qj (List.mem_range.2 (by omega))

theorem divRow_other (a : Nat → ℚ) {qi dt qi' dt' qj : Nat} (s : ℚ) (h1 : qi < D.ncost) (h2 : dt < D.ntime)
    (h1' : qi' < D.ncost) (h2' : dt' < D.ntime) (h : (qi, dt) ≠ (qi', dt') ∨ qi < qj) :
    divRow D a qi dt s (qqtindex D qj qi' dt') = a (qqtindex D qj qi' dt') :=
  (foldl_upd (fun qj => qqtindex D qj qi dt) (fun _ x => x / s) (List.range (qi + 1)) List.nodup_range
    (fun k _ k' _ e => ((qqt_inj h1 h1 h2 h2).1 e).1) a).2 _ (fun k hk e => by
      obtain ⟨e1, e2, e3⟩ := (qqt_inj h1 h1' h2 h2').1 e
      rcases h with h | h
      · exact h (by rw [e2, e3])
      · have := List.mem_range.1 hk; omega)

theorem sum_low {f : Nat → ℚ} {n m : Nat} (hm : m < n) (h : ∀ j, j < n → m < j → f j = 0) :
    ∑ j ∈ range (m + 1), f j = ∑ j ∈ range n, f j := by
  refine sum_subset (fun j hj => mem_range.2 (by have := mem_range.1 hj; omega)) (fun j hj hj' => h j (mem_range.1 hj) ?_)
  by_contra hc
  exact hj' (mem_range.2 (by omega))

theorem normLoop_ok (l : List (Nat × Nat)) (hl : l.Nodup) (hm : ∀ k ∈ l, k ∈ pairs D) : ∀ (a : Nat → ℚ),
    (∀ k ∈ l, 0 < ∑ qj ∈ range D.ncost, a (qqtindex D qj k.1 k.2)) →
    (∀ k ∈ l, ∀ qj, qj < D.ncost → k.1 < qj → a (qqtindex D qj k.1 k.2) = 0) →
    ∃ a', normLoop D l a = .ok a' ∧
      (∀ k ∈ l, ∀ qj, qj < D.ncost → a' (qqtindex D qj k.1 k.2) =
        a (qqtindex D qj k.1 k.2) / ∑ qj ∈ range D.ncost, a (qqtindex D qj k.1 k.2)) ∧
      (∀ qi dt qj, qi < D.ncost → dt < D.ntime → (qi, dt) ∉ l → a' (qqtindex D qj qi dt) = a (qqtindex D qj qi dt)) := by
  induction l with
  | nil => intro a _ _; exact ⟨a, rfl, by simp, fun _ _ _ _ _ _ => rfl⟩
  | cons k l ih =>
    intro a hpos hz
    obtain ⟨qi, dt⟩ := k
    rw [List.nodup_cons] at hl
    obtain ⟨b1, b2⟩ := mem_pairs.1 (hm _ List.mem_cons_self)
    dsimp only at b1 b2
    have hS := hpos _ List.mem_cons_self
    have hz0 := hz _ List.mem_cons_self
    dsimp only at hS hz0
    have e1 : ∑ qj ∈ range (qi + 1), divRow D a qi dt (∑ qj ∈ range D.ncost, a (qqtindex D qj qi dt)) (qqtindex D qj qi dt) = 1 := by
      rw [sum_congr rfl (fun qj hq => divRow_low a _ b1 b2 (by have := mem_range.1 hq; omega)), ← sum_div,
        sum_low b1 hz0, div_self hS.ne']
    unfold normLoop
    dsimp only
    rw [rowSum_eq, rowSum_eq, if_neg (not_not.2 hS), e1, if_neg (by norm_num), if_neg (by norm_num)]
    have hne : ∀ k ∈ l, (qi, dt) ≠ (k.1, k.2) := fun k hk e => hl.1 (by rw [e]; exact hk)
    have hrow : ∀ k ∈ l, ∀ qj, divRow D a qi dt (∑ qj ∈ range D.ncost, a (qqtindex D qj qi dt)) (qqtindex D qj k.1 k.2) =
        a (qqtindex D qj k.1 k.2) := fun k hk qj => by
      obtain ⟨g1, g2⟩ := mem_pairs.1 (hm k (List.mem_cons_of_mem _ hk))
      exact divRow_other a _ b1 b2 g1 g2 (.inl (hne k hk))
    obtain ⟨a', f1, f2, f3⟩ := ih hl.2 (fun k hk => hm k (List.mem_cons_of_mem _ hk))
      (divRow D a qi dt (∑ qj ∈ range D.ncost, a (qqtindex D qj qi dt)))
      (fun k hk => by
        rw [sum_congr rfl (fun qj _ => hrow k hk qj)]
        exact hpos k (List.mem_cons_of_mem _ hk))
      (fun k hk qj h1 h2 => by rw [hrow k hk]; exact hz k (List.mem_cons_of_mem _ hk) qj h1 h2)
    refine ⟨a', f1, fun k hk qj hq => ?_, fun qi' dt' qj h1 h2 h3 => ?_⟩
    · rcases List.mem_cons.1 hk with rfl | hk
      · dsimp only
        rw [f3 qi dt qj b1 b2 hl.1]
        rcases Nat.lt_or_ge qi qj with h | h
        · rw [divRow_other a _ b1 b2 b1 b2 (.inr h), hz0 qj hq h, zero_div]
        · exact divRow_low a _ b1 b2 h
      · rw [f2 k hk qj hq, hrow k hk, sum_congr rfl (fun qj _ => hrow k hk qj)]
    · rw [List.mem_cons, not_or] at h3
      rw [f3 qi' dt' qj h1 h2 h3.2]
      exact divRow_other a _ b1 b2 h1 h2 (.inl fun e => h3.1 e.symm)

/-- The least positive observed frequency. -/
def IsSmall (D : Dims) (c : Counts) (v : ℚ) : Prop :=
  0 < v ∧ (∃ qj qi dt, qj < D.ncost ∧ qi < D.ncost ∧ dt < D.ntime ∧ v = raw D c qj qi dt) ∧
  ∀ qj qi dt, qj < D.ncost → qi < D.ncost → dt < D.ntime → 0 < raw D c qj qi dt → v ≤ raw D c qj qi dt

theorem mkprobs_ok {c : Counts} (hc : CountsOk D c)
    (hpos : ∃ q d, q < D.ncost ∧ d < D.ntime ∧ 0 < c.qt (qtindex D q d)) :
    ∃ a v, mkprobs D c (fun _ => 0) = .ok a ∧ IsSmall D c v ∧ ∀ qi dt qj, qi < D.ncost → dt < D.ntime → qj < D.ncost →
      a (qqtindex D qj qi dt) = if qj ≤ qi then (raw D c qj qi dt + v / 2) /
        ((if c.qt (qtindex D qi dt) = 0 then 0 else 1) + (qi + 1) * (v / 2)) else 0 := by
  obtain ⟨a1, small, h1, h2, -, h4, h5⟩ := probLoop_ok hc (triples D) (nodup_triples fun _ => D.ncost) (fun _ h => h)
    (fun _ => 0) none (fun _ _ => rfl) (fun v hv => by simp at hv)
  unfold mkprobs
  rw [h1, Outcome.bind_ok]
  have hraw0 : ∀ qi dt qj, qi < D.ncost → dt < D.ntime → qj < D.ncost → qi < qj → raw D c qj qi dt = 0 := by
    intro qi dt qj g1 g2 g3 g4
    unfold raw
    rw [hc.low qj qi dt g3 g1 g2 g4]
    simp
  have hrs : ∀ qi dt, qi < D.ncost → dt < D.ntime →
      ∑ qj ∈ range D.ncost, raw D c qj qi dt = if c.qt (qtindex D qi dt) = 0 then 0 else 1 := by
    intro qi dt g1 g2
    have : ∑ qj ∈ range D.ncost, raw D c qj qi dt =
        (∑ qj ∈ range D.ncost, (c.qqt (qqtindex D qj qi dt) : ℚ)) / c.qt (qtindex D qi dt) := (sum_div _ _ _).symm
    rw [this, ← Nat.cast_sum, ← hc.sum qi dt g1 g2]
    split
    · next h => rw [h]; simp
    · next h => exact div_self (by exact_mod_cast h)
  cases small with
  | none =>
    obtain ⟨q, d, g1, g2, g3⟩ := hpos
    exfalso
    rw [hc.sum q d g1 g2] at g3
    obtain ⟨p, hp, hp'⟩ := exists_ne_zero_of_sum_ne_zero g3.ne'
    refine (h5 rfl).2 (q, d, p) (mem_triples.2 ⟨g1, g2, mem_range.1 hp⟩) ?_
    have hle := qqt_le_qt hc (mem_range.1 hp) g1 g2
    unfold raw
    dsimp only
    apply div_pos <;> exact_mod_cast by omega
  | some v =>
    obtain ⟨v0, v1, v2, -⟩ := h4 v rfl
    dsimp only
    have val : ∀ qi dt qj, qi < D.ncost → dt < D.ntime → qj < D.ncost →
        smooth D v a1 (qqtindex D qj qi dt) = raw D c qj qi dt + if qj ≤ qi then v / 2 else 0 := by
      intro qi dt qj g1 g2 g3
      by_cases g : qj ≤ qi
      · rw [smooth_low v a1 g1 g2 g, if_pos g, h2 (qi, dt, qj) (mem_triples.2 ⟨g1, g2, g3⟩)]
      · rw [smooth_high v a1 g1 g2 (by omega), if_neg g, h2 (qi, dt, qj) (mem_triples.2 ⟨g1, g2, g3⟩), add_zero]
    have tot : ∀ qi dt, qi < D.ncost → dt < D.ntime → ∑ qj ∈ range D.ncost, smooth D v a1 (qqtindex D qj qi dt) =
        (if c.qt (qtindex D qi dt) = 0 then 0 else 1) + (qi + 1) * (v / 2) := by
      intro qi dt g1 g2
      rw [sum_congr rfl (fun qj hq => val qi dt qj g1 g2 (mem_range.1 hq)), sum_add_distrib, hrs qi dt g1 g2]
      congr 1
      rw [← sum_low (f := fun qj => if qj ≤ qi then v / 2 else 0) g1 (fun j _ hj => if_neg (by omega)),
        sum_congr rfl (fun qj hq => if_pos (by have := mem_range.1 hq; omega))]
      simp
    obtain ⟨a', f1, f2, -⟩ := normLoop_ok (pairs D) nodup_pairs (fun _ h => h) (smooth D v a1)
      (fun k hk => by
        obtain ⟨g1, g2⟩ := mem_pairs.1 hk
        rw [tot k.1 k.2 g1 g2]
        have : 0 < ((k.1 : ℚ) + 1) * (v / 2) := by positivity
        split <;> linarith)
      (fun k hk qj g3 g4 => by
        obtain ⟨g1, g2⟩ := mem_pairs.1 hk
        rw [val k.1 k.2 qj g1 g2 g3, if_neg (by omega), hraw0 k.1 k.2 qj g1 g2 g3 g4, add_zero])
    refine ⟨a', v, f1, ⟨v0, ?_, fun qj qi dt g1 g2 g3 => v2 (qi, dt, qj) (mem_triples.2 ⟨g2, g3, g1⟩)⟩, fun qi dt qj g1 g2 g3 => ?_⟩
    · rcases v1 with v1 | ⟨k, hk, e⟩
      · simp at v1
      · obtain ⟨g1, g2, g3⟩ := mem_triples.1 hk
        exact ⟨_, _, _, g3, g1, g2, e⟩
    · rw [f2 (qi, dt) (mem_pairs.2 ⟨g1, g2⟩) qj g3]
      dsimp only
      rw [tot qi dt g1 g2, val qi dt qj g1 g2 g3]
      split
      · rfl
      · next h => rw [hraw0 qi dt qj g1 g2 g3 (by omega), add_zero, zero_div]

/-! ## The counters of a set of streams -/

theorem after_ok (hD : DimsOk D) {s : Sol} {rest : List Sol} (hs : StreamOk (s :: rest)) (hw : ∀ r ∈ s :: rest, Within D r)
    (d : Nat) : after D s rest d ≤ cb D s.cost ∧ after D s rest d < D.ncost := by
  unfold after
  obtain ⟨r, hr⟩ : ∃ r, r = (rest.filter fun r => decide (tb D (r.time - s.time) ≤ d)).getLastD s := ⟨_, rfl⟩
  rw [← hr]
  have hmem : r = s ∨ r ∈ rest := by
    rcases List.eq_nil_or_concat (rest.filter fun r => decide (tb D (r.time - s.time) ≤ d)) with h | ⟨l, b, h⟩
    · left; rw [hr, h]; rfl
    · right
      rw [h] at hr
      rw [List.concat_eq_append, List.getLastD_concat] at hr
      have : b ∈ rest.filter fun r => decide (tb D (r.time - s.time) ≤ d) := by rw [h]; simp
      rw [hr]
      exact List.mem_of_mem_filter this
  have hle : r.cost ≤ s.cost ∧ Within D r := by
    rcases hmem with h | h
    · rw [h]; exact ⟨le_rfl, hw s List.mem_cons_self⟩
    · exact ⟨((List.pairwise_cons.1 hs).1 r h).2, hw r (List.mem_cons_of_mem _ h)⟩
  exact ⟨bin_mono hD.c0 hle.2.1 hle.1 (hw s List.mem_cons_self).2.1, cb_lt hD hle.2⟩

theorem tails_ok {ss : List (List Sol)} (hs : ∀ s ∈ ss, StreamOk s) (hw : ∀ s ∈ ss, ∀ r ∈ s, Within D r) :
    ∀ l ∈ ss.flatMap List.tails, StreamOk l ∧ ∀ r ∈ l, Within D r := by
  intro l hl
  obtain ⟨s, h1, h2⟩ := List.mem_flatMap.1 hl
  rw [List.mem_tails] at h2
  exact ⟨(hs s h1).sublist h2.sublist, fun r hr => hw s h1 r (h2.subset hr)⟩

theorem countsOk (hD : DimsOk D) {ss : List (List Sol)} (hs : ∀ s ∈ ss, StreamOk s) (hw : ∀ s ∈ ss, ∀ r ∈ s, Within D r)
    {c : Counts} (hc : Adds D ⟨fun _ => 0, fun _ => 0⟩ c (fun q _ => (ss.flatMap List.tails).countP (from? D q))
      (fun p q d => (ss.flatMap List.tails).countP (trans? D p q d))) : CountsOk D c := by
  have ht := tails_ok hs hw
  constructor
  · intro q d hq hd
    obtain ⟨h1, h2⟩ := hc q d hq hd
    rw [h1, sum_congr rfl (fun p hp => h2 p (mem_range.1 hp))]
    simp only [Nat.zero_add]
    clear h1 h2 hc
    generalize ss.flatMap List.tails = L at ht ⊢
    induction L with
    | nil => simp
    | cons l ls ih =>
      simp only [List.countP_cons]
      rw [sum_add_distrib, ih fun l hl => ht l (List.mem_cons_of_mem _ hl)]
      congr 1
      cases l with
      | nil => simp [from?, trans?]
      | cons s rest =>
        obtain ⟨g1, g2⟩ := ht _ List.mem_cons_self
        have h3 := (after_ok hD g1 g2 d).2
        have e : ∀ p, (if trans? D p q d (s :: rest) = true then 1 else 0) =
            if p = after D s rest d then (if from? D q (s :: rest) = true then 1 else 0) else 0 := by
          intro p
          have e1 : trans? D p q d (s :: rest) = true ↔ cb D s.cost = q ∧ after D s rest d = p := decide_eq_true_iff
          have e2 : from? D q (s :: rest) = true ↔ cb D s.cost = q := decide_eq_true_iff
          simp only [e1, e2]
          by_cases h : p = after D s rest d
          · rw [if_pos h]
            exact if_congr ⟨fun h => h.1, fun h' => ⟨h', h.symm⟩⟩ rfl rfl
          · rw [if_neg h, if_neg (fun h' => h h'.2.symm)]
        rw [sum_congr rfl (fun p _ => e p), sum_ite_eq', if_pos (mem_range.2 h3)]
  · intro p q d hp hq hd hlt
    rw [(hc q d hq hd).2 p hp]
    simp only [Nat.zero_add]
    rw [List.countP_eq_zero]
    intro l hl
    obtain ⟨g1, g2⟩ := ht l hl
    cases l with
    | nil => simp [trans?]
    | cons s rest =>
      have h3 := (after_ok hD g1 g2 d).1
      rw [trans?, decide_eq_true_iff]
      omega

/-! ## The ranges -/

theorem lower_some (m : Option ℚ) (x : ℚ) : ∃ v, lower m x = some v ∧ v ≤ x ∧ (∀ u, m = some u → v ≤ u) ∧ (v = x ∨ m = some v) := by
  unfold lower
  cases m with
  | none => exact ⟨x, rfl, le_rfl, fun u hu => by simp at hu, .inl rfl⟩
  | some w =>
    dsimp only
    split
    · next h => exact ⟨x, rfl, le_rfl, fun u hu => by rw [← Option.some.inj hu]; exact h.le, .inl rfl⟩
    · next h => exact ⟨w, rfl, not_lt.1 h, fun u hu => by rw [← Option.some.inj hu], .inr rfl⟩

theorem raise_some (m : Option ℚ) (x : ℚ) : ∃ v, raise m x = some v ∧ x ≤ v ∧ (∀ u, m = some u → u ≤ v) ∧ (v = x ∨ m = some v) := by
  unfold raise
  cases m with
  | none => exact ⟨x, rfl, le_rfl, fun u hu => by simp at hu, .inl rfl⟩
  | some w =>
    dsimp only
    split
    · next h => exact ⟨x, rfl, le_rfl, fun u hu => by rw [← Option.some.inj hu]; exact h.le, .inl rfl⟩
    · next h => exact ⟨w, rfl, not_lt.1 h, fun u hu => by rw [← Option.some.inj hu], .inr rfl⟩

/-- The ranges are exactly those of the solutions. -/
structure Extents (D : Dims) (l : List Sol) : Prop where
  within : ∀ s ∈ l, Within D s
  minc : ∃ s ∈ l, s.cost = D.mincost
  maxc : ∃ s ∈ l, s.cost = D.maxcost
  mint : ∃ s ∈ l, s.time = D.mintime
  maxt : ∃ s ∈ l, s.time = D.maxtime

theorem getextents_fold (nc nt : Nat) (l : List Sol) :
    (l = [] ∧ l.foldl (fun m s => (lower m.1 s.cost, raise m.2.1 s.cost, lower m.2.2.1 s.time, raise m.2.2.2 s.time))
      ((none, none, none, none) : Option ℚ × Option ℚ × Option ℚ × Option ℚ) = (none, none, none, none)) ∨
    ∃ a b c d, l.foldl (fun m s => (lower m.1 s.cost, raise m.2.1 s.cost, lower m.2.2.1 s.time, raise m.2.2.2 s.time))
      ((none, none, none, none) : Option ℚ × Option ℚ × Option ℚ × Option ℚ) = (some a, some b, some c, some d) ∧
      Extents ⟨nc, nt, a, b, c, d⟩ l := by
  induction l using List.reverseRecOn with
  | nil => exact .inl ⟨rfl, rfl⟩
  | append_singleton l x ih =>
    right
    rw [List.foldl_append, List.foldl_cons, List.foldl_nil]
    generalize List.foldl _ _ l = r at ih ⊢
    obtain ⟨a, a1, a2, a3, a4⟩ := lower_some r.1 x.cost
    obtain ⟨b, b1, b2, b3, b4⟩ := raise_some r.2.1 x.cost
    obtain ⟨c, c1, c2, c3, c4⟩ := lower_some r.2.2.1 x.time
    obtain ⟨d, d1, d2, d3, d4⟩ := raise_some r.2.2.2 x.time
    refine ⟨a, b, c, d, by rw [a1, b1, c1, d1], ?_, ?_, ?_, ?_, ?_⟩
    · intro s hs
      rcases List.mem_append.1 hs with hs | hs
      · rcases ih with ⟨rfl, -⟩ | ⟨a', b', c', d', rfl, e⟩
        · simp at hs
        · obtain ⟨w1, w2, w3, w4⟩ := e.within s hs
          exact ⟨(a3 _ rfl).trans w1, w2.trans (b3 _ rfl), (c3 _ rfl).trans w3, w4.trans (d3 _ rfl)⟩
      · rw [List.mem_singleton.1 hs]
        exact ⟨a2, b2, c2, d2⟩
    · rcases a4 with h | h
      · exact ⟨x, by simp, h.symm⟩
      · rcases ih with ⟨rfl, rfl⟩ | ⟨a', b', c', d', rfl, e⟩
        · simp at h
        · obtain ⟨s, h1, h2⟩ := e.minc
          exact ⟨s, by simp [h1], h2.trans (Option.some.inj h)⟩
    · rcases b4 with h | h
      · exact ⟨x, by simp, h.symm⟩
      · rcases ih with ⟨rfl, rfl⟩ | ⟨a', b', c', d', rfl, e⟩
        · simp at h
        · obtain ⟨s, h1, h2⟩ := e.maxc
          exact ⟨s, by simp [h1], h2.trans (Option.some.inj h)⟩
    · rcases c4 with h | h
      · exact ⟨x, by simp, h.symm⟩
      · rcases ih with ⟨rfl, rfl⟩ | ⟨a', b', c', d', rfl, e⟩
        · simp at h
        · obtain ⟨s, h1, h2⟩ := e.mint
          exact ⟨s, by simp [h1], h2.trans (Option.some.inj h)⟩
    · rcases d4 with h | h
      · exact ⟨x, by simp, h.symm⟩
      · rcases ih with ⟨rfl, rfl⟩ | ⟨a', b', c', d', rfl, e⟩
        · simp at h
        · obtain ⟨s, h1, h2⟩ := e.maxt
          exact ⟨s, by simp [h1], h2.trans (Option.some.inj h)⟩

theorem getextents_ok (nc nt : Nat) {ss : List (List Sol)} (h : ss.flatten ≠ []) :
    ∃ D, getextents nc nt ss = some D ∧ D.ncost = nc ∧ D.ntime = nt ∧ Extents D ss.flatten := by
  unfold getextents
  rcases getextents_fold nc nt ss.flatten with ⟨h1, -⟩ | ⟨a, b, c, d, h1, h2⟩
  · exact absurd h1 h
  · dsimp only
    rw [h1]
    exact ⟨_, rfl, rfl, rfl, h2⟩

/-! ## The monitor -/

/-- profile.hpp:118-196 `AnytimeMonitor`: `val` holds `value`, `policy` where `seen`. -/
structure Mon where
  P : Prof
  wf : ℚ
  wt : ℚ
  val : Nat → Option (ℚ × Bool)

/-- profile.cc:189 `qwidth`. -/
def qwidth (P : Prof) : ℚ := (P.D.maxcost - P.D.mincost) / P.D.ncost

/-- profile.cc:190 `twidth`. -/
def twidth (P : Prof) : ℚ := (P.D.maxtime - P.D.mintime) / P.D.ntime

/-- profile.hpp:157-173 `bincost`, `bintime`, `binutil`. -/
def binutil (P : Prof) (wf wt : ℚ) (q t : Nat) : Outcome ℚ :=
  if ¬ q < P.D.ncost then .fatal
  else if ¬ t < P.D.ntime then .fatal
  else .ok (-(wf * (P.D.mincost + q * qwidth P + qwidth P / 2) + wt * (P.D.mintime + t * twidth P + twidth P / 2)))

/-- profile.hpp:175-181 `index`. -/
def index (P : Prof) (q t : Nat) : Outcome Nat :=
  if ¬ q < P.D.ncost then .fatal else if ¬ t < P.D.ntime then .fatal else .ok (q * P.D.ntime + t)

/-- profile.cc:197-202 and 205-210: stopping at `(q, t)`. -/
def setStop (P : Prof) (wf wt : ℚ) (q t : Nat) (a : Nat → Option (ℚ × Bool)) : Outcome (Nat → Option (ℚ × Bool)) :=
  (index P q t).bind fun i => (binutil P wf wt q t).map fun u => Function.update a i (some (u, true))

/-- profile.cc:197-202: the loop for the last time; `n` iterations are left. -/
def maxTime (P : Prof) (wf wt : ℚ) : Nat → Nat → (Nat → Option (ℚ × Bool)) → Outcome (Nat → Option (ℚ × Bool))
  | _, 0, a => .ok a
  | q, n + 1, a => (setStop P wf wt q (u32 (P.D.ntime + 2 ^ 32 - 1)) a).bind fun a => maxTime P wf wt (q + 1) n a

/-- profile.cc:205-210: the loop for the least cost. -/
def minCost (P : Prof) (wf wt : ℚ) : Nat → Nat → (Nat → Option (ℚ × Bool)) → Outcome (Nat → Option (ℚ × Bool))
  | _, 0, a => .ok a
  | t, n + 1, a => (setStop P wf wt 0 t a).bind fun a => minCost P wf wt (t + 1) n a

/-- profile.cc:217-223: the loop over `q2`, downwards from `n - 1`; `t1` is `t + 1`. -/
def goLoop (P : Prof) (a : Nat → Option (ℚ × Bool)) (q1 t1 : Nat) : Nat → ℚ → ℚ → Outcome (ℚ × ℚ)
  | 0, vgo, psum => .ok (vgo, psum)
  | q2 + 1, vgo, psum =>
    (index P q2 t1).bind fun i =>
      match a i with
      | none => .fatal
      | some v => goLoop P a q1 t1 q2 (vgo + binprob P q2 q1 1 * v.1) (psum + binprob P q2 q1 1)

/-- profile.cc:214-241: one iteration; `t` is a `long` and is converted to `unsigned int` when used as an index. -/
def stepMon (P : Prof) (wf wt : ℚ) (q1 t : Nat) (a : Nat → Option (ℚ × Bool)) : Outcome (Nat → Option (ℚ × Bool)) :=
  (goLoop P a q1 (u32 (t + 1)) (q1 + 1) 0 0).bind fun r =>
    if ¬ r.2 > 1 - 1 / 10 ^ 8 then .fatal
    else if ¬ r.2 < 1 + 1 / 10 ^ 8 then .fatal
    else
      (binutil P wf wt q1 (u32 t)).bind fun vstop => (index P q1 (u32 t)).bind fun i =>
        if r.1 > vstop then .ok (Function.update a i (some (r.1, false)))
        else .ok (Function.update a i (some (vstop, true)))

/-- profile.cc:213: the loop over `t`, downwards from `n - 1`. -/
def tLoop (P : Prof) (wf wt : ℚ) (q1 : Nat) : Nat → (Nat → Option (ℚ × Bool)) → Outcome (Nat → Option (ℚ × Bool))
  | 0, a => .ok a
  | t + 1, a => (stepMon P wf wt q1 t a).bind fun a => tLoop P wf wt q1 t a

/-- profile.cc:212: the loop over `q1`; it starts `t` at `prof.ntime - 2`, computed in `unsigned int`. -/
def qLoop (P : Prof) (wf wt : ℚ) : Nat → Nat → (Nat → Option (ℚ × Bool)) → Outcome (Nat → Option (ℚ × Bool))
  | _, 0, a => .ok a
  | q1, n + 1, a => (tLoop P wf wt q1 (u32 (P.D.ntime + 2 ^ 32 - 2) + 1) a).bind fun a => qLoop P wf wt (q1 + 1) n a

/-- profile.cc:187-244: the constructor of `AnytimeMonitor`. -/
def monitor (P : Prof) (wf wt : ℚ) : Outcome Mon :=
  (maxTime P wf wt 0 P.D.ncost fun _ => none).bind fun a =>
  (minCost P wf wt 0 P.D.ntime a).bind fun a =>
  (qLoop P wf wt 1 (P.D.ncost - 1) a).map fun a => ⟨P, wf, wt, a⟩

/-- profile.hpp:135-149 `stop`. -/
def stop (M : Mon) (cost time : ℚ) : Outcome Bool :=
  let D := M.P.D
  if cost < D.mincost ∨ time < D.mintime then .ok false
  else if cost ≥ D.maxcost ∨ time ≥ D.maxtime then .ok true
  else
    let q := (⌊(cost - D.mincost) / qwidth M.P⌋).toNat
    let t := (⌊(time - D.mintime) / twidth M.P⌋).toNat
    if ¬ q < D.ncost then .fatal
    else if ¬ t < D.ntime then .fatal
    else (index M.P q t).map fun i =>
      match M.val i with
      | none => false
      | some v => v.2

/-! ## Specification of optimal stopping -/

/-- The utility of stopping in the middle of cost bin `q` and time bin `t`. -/
def util (P : Prof) (wf wt : ℚ) (q t : Nat) : ℚ :=
  -(wf * (P.D.mincost + (q + 1 / 2) * ((P.D.maxcost - P.D.mincost) / P.D.ncost)) +
    wt * (P.D.mintime + (t + 1 / 2) * ((P.D.maxtime - P.D.mintime) / P.D.ntime)))

/-- Expected utility, if the incumbent is in cost bin `q`, `r` time bins are left after this one, and `h` are the bins of the
earlier incumbents.  A policy decides, given the time bin and all incumbents so far, whether to stop; in the last time
bin one has to stop. -/
def eu (P : Prof) (wf wt : ℚ) (π : Nat → List Nat → Bool) : Nat → List Nat → Nat → ℚ
  | 0, _, q => util P wf wt q (P.D.ntime - 1)
  | r + 1, h, q =>
    if π (P.D.ntime - 1 - (r + 1)) (q :: h) then util P wf wt q (P.D.ntime - 1 - (r + 1))
    else ∑ q2 ∈ range P.D.ncost, binprob P q2 q 1 * eu P wf wt π r (q :: h) q2

/-- The one-step estimates are probability distributions, and solutions do not get worse. -/
structure Kern (P : Prof) : Prop where
  pos : ∀ q2 q1, q1 < P.D.ncost → q2 < P.D.ncost → 0 ≤ binprob P q2 q1 1
  sum : ∀ q1, q1 < P.D.ncost → ∑ q2 ∈ range P.D.ncost, binprob P q2 q1 1 = 1
  low : ∀ q2 q1, q1 < P.D.ncost → q2 < P.D.ncost → q1 < q2 → binprob P q2 q1 1 = 0

/-! ## What the monitor computes -/

variable {P : Prof} {wf wt : ℚ}

/-- The value of continuing. -/
def goVal (P : Prof) (f : Nat → ℚ) (q : Nat) : ℚ := ∑ q2 ∈ range (q + 1), binprob P q2 q 1 * f q2

/-- The values that the constructor computes, with `r` time bins left. -/
def bell (P : Prof) (wf wt : ℚ) : Nat → Nat → ℚ
  | 0, q => util P wf wt q (P.D.ntime - 1)
  | r + 1, q =>
    if q = 0 then util P wf wt q (P.D.ntime - 1 - (r + 1))
    else if goVal P (bell P wf wt r) q > util P wf wt q (P.D.ntime - 1 - (r + 1)) then goVal P (bell P wf wt r) q
    else util P wf wt q (P.D.ntime - 1 - (r + 1))

/-- The policy that the constructor computes. -/
def pol (P : Prof) (wf wt : ℚ) : Nat → Nat → Bool
  | 0, _ => true
  | r + 1, q =>
    if q = 0 then true else !decide (goVal P (bell P wf wt r) q > util P wf wt q (P.D.ntime - 1 - (r + 1)))

/-- Element `(q, t)` has been computed. -/
def Good (P : Prof) (wf wt : ℚ) (a : Nat → Option (ℚ × Bool)) (q t : Nat) : Prop :=
  a (q * P.D.ntime + t) = some (bell P wf wt (P.D.ntime - 1 - t) q, pol P wf wt (P.D.ntime - 1 - t) q)

theorem binutil_ok {q t : Nat} (hq : q < P.D.ncost) (ht : t < P.D.ntime) : binutil P wf wt q t = .ok (util P wf wt q t) := by
  unfold binutil util qwidth twidth
  rw [if_neg (not_not.2 hq), if_neg (not_not.2 ht)]
  congr 1
  ring

theorem index_ok {q t : Nat} (hq : q < P.D.ncost) (ht : t < P.D.ntime) : index P q t = .ok (q * P.D.ntime + t) := by
  unfold index
  rw [if_neg (not_not.2 hq), if_neg (not_not.2 ht)]

theorem u32_self {n : Nat} (h : n < 2 ^ 32) : u32 n = n := Nat.mod_eq_of_lt h

theorem setStop_ok {q t : Nat} (hq : q < P.D.ncost) (ht : t < P.D.ntime) (h : t = P.D.ntime - 1 ∨ q = 0)
    (a : Nat → Option (ℚ × Bool)) :
    ∃ a', setStop P wf wt q t a = .ok a' ∧ Good P wf wt a' q t ∧
      ∀ q' t', t' < P.D.ntime → Good P wf wt a q' t' → Good P wf wt a' q' t' := by
  refine ⟨Function.update a (q * P.D.ntime + t) (some (util P wf wt q t, true)), ?_, ?_, ?_⟩
  · unfold setStop
    rw [index_ok hq ht, Outcome.bind_ok, binutil_ok hq ht]
    rfl
  · unfold Good
    rw [Function.update_self]
    rcases h with h | h
    · rw [show P.D.ntime - 1 - t = 0 by omega]
      unfold bell pol
      rw [h]
    · obtain ⟨r, hr⟩ : ∃ r, r = P.D.ntime - 1 - t := ⟨_, rfl⟩
      rw [← hr]
      cases r with
      | zero => unfold bell pol; rw [show t = P.D.ntime - 1 by omega]
      | succ r => rw [bell, pol, if_pos h, if_pos h, show P.D.ntime - 1 - (r + 1) = t by omega]
  · intro q' t' ht' hg
    unfold Good at hg ⊢
    by_cases e : q' * P.D.ntime + t' = q * P.D.ntime + t
    · obtain ⟨rfl, rfl⟩ := (flat_inj ht' ht).1 e
      rw [Function.update_self]
      rcases h with h | h
      · rw [show P.D.ntime - 1 - t' = 0 by omega]
        unfold bell pol
        rw [h]
      · obtain ⟨r, hr⟩ : ∃ r, r = P.D.ntime - 1 - t' := ⟨_, rfl⟩
        rw [← hr]
        cases r with
        | zero => unfold bell pol; rw [show t' = P.D.ntime - 1 by omega]
        | succ r => rw [bell, pol, if_pos h, if_pos h, show P.D.ntime - 1 - (r + 1) = t' by omega]
    · rw [Function.update_of_ne e]
      exact hg

theorem maxTime_ok (hD : DimsOk P.D) (n : Nat) : ∀ (q : Nat) (a : Nat → Option (ℚ × Bool)), q + n = P.D.ncost →
    ∃ a', maxTime P wf wt q n a = .ok a' ∧ (∀ q', q ≤ q' → q' < P.D.ncost → Good P wf wt a' q' (P.D.ntime - 1)) ∧
      ∀ q' t', t' < P.D.ntime → Good P wf wt a q' t' → Good P wf wt a' q' t' := by
  induction n with
  | zero => intro q a hq; exact ⟨a, rfl, fun q' _ _ => by omega, fun _ _ _ h => h⟩
  | succ n ih =>
    intro q a hq
    have h0 := hD.t0
    unfold maxTime
    rw [u32_pred hD.t0 hD.t1]
    obtain ⟨a1, h1, h2, h3⟩ := setStop_ok (P := P) (wf := wf) (wt := wt) (q := q) (t := P.D.ntime - 1) (by omega) (by omega) (.inl rfl) a
    rw [h1, Outcome.bind_ok]
    obtain ⟨a2, h4, h5, h6⟩ := ih (q + 1) a1 (by omega)
    refine ⟨a2, h4, fun q' g1 g2 => ?_, fun q' t' ht hg => h6 q' t' ht (h3 q' t' ht hg)⟩
    rcases Nat.eq_or_lt_of_le g1 with rfl | g1
    · exact h6 _ _ (by omega) h2
    · exact h5 q' g1 g2

theorem minCost_ok (hD : DimsOk P.D) (n : Nat) : ∀ (t : Nat) (a : Nat → Option (ℚ × Bool)), t + n = P.D.ntime →
    ∃ a', minCost P wf wt t n a = .ok a' ∧ (∀ t', t ≤ t' → t' < P.D.ntime → Good P wf wt a' 0 t') ∧
      ∀ q' t', t' < P.D.ntime → Good P wf wt a q' t' → Good P wf wt a' q' t' := by
  induction n with
  | zero => intro q a hq; exact ⟨a, rfl, fun q' _ _ => by omega, fun _ _ _ h => h⟩
  | succ n ih =>
    intro t a hq
    unfold minCost
    obtain ⟨a1, h1, h2, h3⟩ := setStop_ok (P := P) (wf := wf) (wt := wt) (q := 0) (t := t) hD.c0 (by omega) (.inr rfl) a
    rw [h1, Outcome.bind_ok]
    obtain ⟨a2, h4, h5, h6⟩ := ih (t + 1) a1 (by omega)
    refine ⟨a2, h4, fun t' g1 g2 => ?_, fun q' t' ht hg => h6 q' t' ht (h3 q' t' ht hg)⟩
    rcases Nat.eq_or_lt_of_le g1 with rfl | g1
    · exact h6 _ _ (by omega) h2
    · exact h5 t' g1 g2

theorem goLoop_ok {a : Nat → Option (ℚ × Bool)} {q1 t1 : Nat} (ht : t1 < P.D.ntime) (f : Nat → ℚ) (b : Nat → Bool) (n : Nat)
    (hn : n ≤ P.D.ncost) (ha : ∀ q2, q2 < n → a (q2 * P.D.ntime + t1) = some (f q2, b q2)) : ∀ vgo psum : ℚ,
    goLoop P a q1 t1 n vgo psum =
      .ok (vgo + ∑ q2 ∈ range n, binprob P q2 q1 1 * f q2, psum + ∑ q2 ∈ range n, binprob P q2 q1 1) := by
  induction n with
  | zero => intro vgo psum; simp [goLoop]
  | succ n ih =>
    intro vgo psum
    unfold goLoop
    rw [index_ok (by omega) ht, Outcome.bind_ok, ha n (by omega)]
    dsimp only
    rw [ih (by omega) (fun q2 h => ha q2 (by omega)), sum_range_succ, sum_range_succ]
    congr 2 <;> ring

theorem stepMon_ok (hD : DimsOk P.D) (hK : Kern P) {q1 t : Nat} (hq0 : 0 < q1) (hq : q1 < P.D.ncost) (ht : t + 1 < P.D.ntime)
    {a : Nat → Option (ℚ × Bool)} (ha : ∀ q2, q2 ≤ q1 → Good P wf wt a q2 (t + 1)) :
    ∃ a', stepMon P wf wt q1 t a = .ok a' ∧ Good P wf wt a' q1 t ∧
      ∀ q' t', t' < P.D.ntime → (q', t') ≠ (q1, t) → Good P wf wt a q' t' → Good P wf wt a' q' t' := by
  have h32 := hD.t1
  unfold stepMon
  rw [u32_self (show t + 1 < 2 ^ 32 by omega), u32_self (show t < 2 ^ 32 by omega)]
  obtain ⟨r, hr⟩ : ∃ r, P.D.ntime - 1 - (t + 1) = r := ⟨_, rfl⟩
  have hr' : P.D.ntime - 1 - t = r + 1 := by omega
  have hg : ∀ q2, q2 < q1 + 1 → a (q2 * P.D.ntime + (t + 1)) = some (bell P wf wt r q2, pol P wf wt r q2) := by
    intro q2 h
    have := ha q2 (by omega)
    unfold Good at this
    rwa [hr] at this
  rw [goLoop_ok ht (bell P wf wt r) (pol P wf wt r) (q1 + 1) (by omega) hg, Outcome.bind_ok]
  dsimp only
  rw [zero_add, zero_add, sum_low hq (fun j h1 h2 => hK.low j q1 hq h1 h2), hK.sum q1 hq, if_neg (by norm_num),
    if_neg (by norm_num), binutil_ok hq (by omega), Outcome.bind_ok, index_ok hq (by omega), Outcome.bind_ok]
  change ∃ a', (if goVal P (bell P wf wt r) q1 > _ then _ else _) = _ ∧ _
  have eb : bell P wf wt (r + 1) q1 = if goVal P (bell P wf wt r) q1 > util P wf wt q1 t then goVal P (bell P wf wt r) q1
      else util P wf wt q1 t := by
    rw [bell, if_neg (by omega), show P.D.ntime - 1 - (r + 1) = t by omega]
  have ep : pol P wf wt (r + 1) q1 = !decide (goVal P (bell P wf wt r) q1 > util P wf wt q1 t) := by
    rw [pol, if_neg (by omega), show P.D.ntime - 1 - (r + 1) = t by omega]
  have hne : ∀ {q' t' : Nat}, t' < P.D.ntime → (q', t') ≠ (q1, t) → q' * P.D.ntime + t' ≠ q1 * P.D.ntime + t := by
    intro q' t' h h' e
    obtain ⟨rfl, rfl⟩ := (flat_inj h (by omega)).1 e
    exact h' rfl
  by_cases hc : goVal P (bell P wf wt r) q1 > util P wf wt q1 t
  · rw [if_pos hc]
    refine ⟨_, rfl, ?_, fun q' t' h h' hg' => ?_⟩
    · unfold Good
      rw [Function.update_self, hr', eb, ep, if_pos hc, decide_eq_true hc]
      rfl
    · unfold Good
      rw [Function.update_of_ne (hne h h')]
      exact hg'
  · rw [if_neg hc]
    refine ⟨_, rfl, ?_, fun q' t' h h' hg' => ?_⟩
    · unfold Good
      rw [Function.update_self, hr', eb, ep, if_neg hc, decide_eq_false hc]
      rfl
    · unfold Good
      rw [Function.update_of_ne (hne h h')]
      exact hg'

theorem tLoop_ok (hD : DimsOk P.D) (hK : Kern P) {q1 : Nat} (hq0 : 0 < q1) (hq : q1 < P.D.ncost) (n : Nat) :
    n < P.D.ntime → ∀ {a : Nat → Option (ℚ × Bool)}, (∀ q2 t, q2 < q1 → t < P.D.ntime → Good P wf wt a q2 t) →
    (∀ t, n ≤ t → t < P.D.ntime → Good P wf wt a q1 t) →
    ∃ a', tLoop P wf wt q1 n a = .ok a' ∧ (∀ t, t < P.D.ntime → Good P wf wt a' q1 t) ∧
      ∀ q' t', t' < P.D.ntime → q' ≠ q1 → Good P wf wt a q' t' → Good P wf wt a' q' t' := by
  induction n with
  | zero => intro _ a _ h2; exact ⟨a, rfl, fun t ht => h2 t (Nat.zero_le _) ht, fun _ _ _ _ h => h⟩
  | succ t ih =>
    intro ht a h1 h2
    unfold tLoop
    obtain ⟨a1, g1, g2, g3⟩ := stepMon_ok (wf := wf) (wt := wt) hD hK hq0 hq ht (a := a) (fun q2 h => by
      rcases Nat.eq_or_lt_of_le h with rfl | h
      · exact h2 _ le_rfl ht
      · exact h1 q2 _ h ht)
    rw [g1, Outcome.bind_ok]
    obtain ⟨a2, f1, f2, f3⟩ := ih (by omega) (a := a1)
      (fun q2 t' h h' => g3 q2 t' h' (fun e => by simp only [Prod.mk.injEq] at e; omega) (h1 q2 t' h h'))
      (fun t' h h' => by
        rcases Nat.eq_or_lt_of_le h with rfl | h
        · exact g2
        · exact g3 q1 t' h' (fun e => by simp only [Prod.mk.injEq] at e; omega) (h2 t' h h'))
    exact ⟨a2, f1, f2, fun q' t' h h' hg => f3 q' t' h h'
      (g3 q' t' h (fun e => by simp only [Prod.mk.injEq] at e; exact h' e.1) hg)⟩

theorem qLoop_ok (hD : DimsOk P.D) (h2 : 2 ≤ P.D.ntime) (hK : Kern P) (n : Nat) : ∀ (q1 : Nat) {a : Nat → Option (ℚ × Bool)},
    0 < q1 → q1 + n = P.D.ncost → (∀ q2 t, q2 < q1 → t < P.D.ntime → Good P wf wt a q2 t) →
    (∀ q2, q2 < P.D.ncost → Good P wf wt a q2 (P.D.ntime - 1)) →
    ∃ a', qLoop P wf wt q1 n a = .ok a' ∧ ∀ q t, q < P.D.ncost → t < P.D.ntime → Good P wf wt a' q t := by
  induction n with
  | zero => intro q1 a _ h g _; exact ⟨a, rfl, fun q t hq ht => g q t (by omega) ht⟩
  | succ n ih =>
    intro q1 a h0 h g1 g3
    unfold qLoop
    have e : u32 (P.D.ntime + 2 ^ 32 - 2) + 1 = P.D.ntime - 1 := by
      have := hD.t1
      unfold u32
      omega
    rw [e]
    obtain ⟨a1, f1, f2, f3⟩ := tLoop_ok (wf := wf) (wt := wt) hD hK h0 (by omega) (P.D.ntime - 1) (by omega) (a := a) g1
      (fun t h h' => by
        obtain rfl : t = P.D.ntime - 1 := by omega
        exact g3 q1 (by omega))
    rw [f1, Outcome.bind_ok]
    exact ih (q1 + 1) (by omega) (by omega) (fun q2 t hq ht => by
      rcases Nat.eq_or_lt_of_le (Nat.le_of_lt_succ hq) with rfl | hq
      · exact f2 t ht
      · exact f3 q2 t ht (by omega) (g1 q2 t hq ht)) (fun q2 hq => by
      by_cases hc : q2 = q1
      · rw [hc]; exact f2 _ (by omega)
      · exact f3 q2 _ (by omega) hc (g3 q2 hq))

theorem monitor_ok (hD : DimsOk P.D) (h2 : 2 ≤ P.D.ntime) (hK : Kern P) (wf wt : ℚ) :
    ∃ a, monitor P wf wt = .ok ⟨P, wf, wt, a⟩ ∧ ∀ q t, q < P.D.ncost → t < P.D.ntime → Good P wf wt a q t := by
  have h0 := hD.c0
  unfold monitor
  obtain ⟨a1, f1, f2, -⟩ := maxTime_ok (P := P) (wf := wf) (wt := wt) hD P.D.ncost 0 (fun _ => none) (by omega)
  rw [f1, Outcome.bind_ok]
  obtain ⟨a2, f3, f4, f5⟩ := minCost_ok (P := P) (wf := wf) (wt := wt) hD P.D.ntime 0 a1 (by omega)
  rw [f3, Outcome.bind_ok]
  obtain ⟨a3, f6, f7⟩ := qLoop_ok (P := P) (wf := wf) (wt := wt) hD h2 hK (P.D.ncost - 1) 1 (a := a2) (by omega) (by omega)
    (fun q2 t hq ht => by
      obtain rfl : q2 = 0 := by omega
      exact f4 t (Nat.zero_le _) ht)
    (fun q2 hq => f5 _ _ (by omega) (f2 q2 (Nat.zero_le _) hq))
  rw [f6]
  exact ⟨a3, rfl, f7⟩

/-! ## Optimality -/

theorem goVal_eq (hK : Kern P) {q : Nat} (hq : q < P.D.ncost) (f : Nat → ℚ) :
    goVal P f q = ∑ q2 ∈ range P.D.ncost, binprob P q2 q 1 * f q2 :=
  sum_low hq fun j h1 h2 => by rw [hK.low j q hq h1 h2, zero_mul]

theorem util_antitone (hwt : 0 ≤ wt) (htw : P.D.mintime ≤ P.D.maxtime) {q t t' : Nat} (h : t ≤ t') :
    util P wf wt q t' ≤ util P wf wt q t := by
  unfold util
  have h1 : 0 ≤ (P.D.maxtime - P.D.mintime) / P.D.ntime := div_nonneg (by linarith) (Nat.cast_nonneg _)
  have h2 : (t : ℚ) ≤ t' := by exact_mod_cast h
  have h3 : wt * (P.D.mintime + (t + 1 / 2) * ((P.D.maxtime - P.D.mintime) / P.D.ntime)) ≤
      wt * (P.D.mintime + (t' + 1 / 2) * ((P.D.maxtime - P.D.mintime) / P.D.ntime)) := by
    apply mul_le_mul_of_nonneg_left _ hwt
    have := mul_le_mul_of_nonneg_right (show (t : ℚ) + 1 / 2 ≤ t' + 1 / 2 by linarith) h1
    linarith
  linarith

theorem bell_zero (r : Nat) : bell P wf wt r 0 = util P wf wt 0 (P.D.ntime - 1 - r) := by
  cases r with
  | zero => rw [bell]; rfl
  | succ r => rw [bell, if_pos rfl]

theorem bell_ge_util (r q : Nat) : util P wf wt q (P.D.ntime - 1 - r) ≤ bell P wf wt r q := by
  cases r with
  | zero => rw [bell]; exact le_rfl
  | succ r =>
    rw [bell]
    split
    · exact le_rfl
    · split
      · next h => exact le_of_lt h
      · exact le_rfl

theorem bell_ge_go (hD : DimsOk P.D) (hK : Kern P) (hwt : 0 ≤ wt) (htw : P.D.mintime ≤ P.D.maxtime) (r : Nat) {q : Nat}
    (hq : q < P.D.ncost) : goVal P (bell P wf wt r) q ≤ bell P wf wt (r + 1) q := by
  by_cases h0 : q = 0
  · have e : binprob P 0 0 1 = 1 := by
      have h1 := hK.sum 0 hD.c0
      rw [← sum_low hD.c0 (fun j h1 h2 => hK.low j 0 hD.c0 h1 h2)] at h1
      simpa using h1
    rw [h0, bell_zero]
    unfold goVal
    rw [sum_range_one, e, one_mul, bell_zero]
    exact util_antitone hwt htw (by omega)
  · rw [bell, if_neg h0]
    split
    · exact le_rfl
    · next h => exact not_lt.1 h

theorem eu_le (hD : DimsOk P.D) (hK : Kern P) (hwt : 0 ≤ wt) (htw : P.D.mintime ≤ P.D.maxtime) (π : Nat → List Nat → Bool)
    (r : Nat) : ∀ (h : List Nat) {q : Nat}, q < P.D.ncost → eu P wf wt π r h q ≤ bell P wf wt r q := by
  induction r with
  | zero => intro h q hq; exact le_rfl
  | succ r ih =>
    intro h q hq
    rw [eu]
    split
    · exact bell_ge_util (r + 1) q
    · refine le_trans ?_ (bell_ge_go hD hK hwt htw r hq)
      rw [goVal_eq hK hq]
      exact sum_le_sum fun q2 h2 => mul_le_mul_of_nonneg_left (ih _ (mem_range.1 h2)) (hK.pos q2 q hq (mem_range.1 h2))

theorem eu_eq (hK : Kern P) {π : Nat → List Nat → Bool}
    (hπ : ∀ q t h, q < P.D.ncost → t < P.D.ntime → π t (q :: h) = pol P wf wt (P.D.ntime - 1 - t) q) (r : Nat) :
    r < P.D.ntime → ∀ (h : List Nat) {q : Nat}, q < P.D.ncost → eu P wf wt π r h q = bell P wf wt r q := by
  induction r with
  | zero => intro _ h q hq; rfl
  | succ r ih =>
    intro hr h q hq
    rw [eu, hπ q _ h hq (by omega), show P.D.ntime - 1 - (P.D.ntime - 1 - (r + 1)) = r + 1 by omega, pol, bell]
    by_cases h0 : q = 0
    · rw [if_pos h0, if_pos h0, if_pos rfl]
    · rw [if_neg h0, if_neg h0]
      by_cases hc : goVal P (bell P wf wt r) q > util P wf wt q (P.D.ntime - 1 - (r + 1))
      · rw [decide_eq_true hc, if_neg (by simp), if_pos hc, goVal_eq hK hq]
        exact sum_congr rfl fun q2 h2 => by rw [ih (by omega) _ (mem_range.1 h2)]
      · rw [decide_eq_false hc, if_pos (by simp), if_neg hc]

end Verif.Profile
