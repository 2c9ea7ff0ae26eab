import Verif.Search.Lms

/-!
# C117: a heuristic from a linear regression

`fill`: the rows of the sample after records have been read; `coeffs`: the coefficients that are printed.
-/

namespace Verif.Lms

open Finset

/-! ## The sample -/

variable {α : Type} {sz : Nat}

theorem put_early {t r : Nat} {x : α} {rows : Nat → Option α} (h : t < sz) :
    put sz (t + 1) r x rows = Function.update rows t (some x) := by
  have e : slot sz (t + 1) r = t := by unfold slot; rw [Nat.add_sub_cancel, if_pos h]
  unfold put; rw [e, if_neg (by omega)]

theorem put_out {t r : Nat} {x : α} {rows : Nat → Option α} (h : sz ≤ t) (hr : sz ≤ r) : put sz (t + 1) r x rows = rows := by
  have e : slot sz (t + 1) r = r := by unfold slot; rw [Nat.add_sub_cancel, if_neg (by omega)]
  unfold put; rw [e, if_pos hr]

theorem put_in {t r : Nat} {x : α} {rows : Nat → Option α} (h : sz ≤ t) (hr : r < sz) :
    put sz (t + 1) r x rows = Function.update rows r (some x) := by
  have e : slot sz (t + 1) r = r := by unfold slot; rw [Nat.add_sub_cancel, if_neg (by omega)]
  unfold put; rw [e, if_neg (by omega)]

/-- What holds of the rows when `t` records have been read: the first rows are set, the others are not. -/
def Set' (sz t : Nat) (rows : Nat → Option α) : Prop := ∀ i, rows i = none ↔ ¬ i < min t sz

theorem put_set {t r : Nat} {x : α} {rows : Nat → Option α} (h : Set' sz t rows) : Set' sz (t + 1) (put sz (t + 1) r x rows) := by
  intro i
  have hi := h i
  unfold put slot
  rw [Nat.add_sub_cancel]
  by_cases h1 : t < sz
  · rw [if_pos h1, if_neg (by omega)]
    by_cases e : i = t
    · subst e; simp; omega
    · rw [Function.update_of_ne e, hi]; omega
  · rw [if_neg h1]
    by_cases h2 : r ≥ sz
    · rw [if_pos h2, hi]; omega
    · rw [if_neg h2]
      by_cases e : i = r
      · subst e; simp; omega
      · rw [Function.update_of_ne e, hi]; omega

/-- **C117.**  When `xs` have been read, exactly the first rows are set, as many as there are records or, if there are more, as
the sample is large: no row is missed, whatever the random numbers are. -/
theorem c117_filled : ∀ (xs : List (α × Nat)) (t : Nat) (rows : Nat → Option α), Set' sz t rows →
    Set' sz (t + xs.length) (fill sz t xs rows)
  | [], t, rows, h => h
  | (x, r) :: xs, t, rows, h => by
    rw [fill, List.length_cons, show t + (xs.length + 1) = t + 1 + xs.length by ring]
    exact c117_filled xs (t + 1) _ (put_set h)

theorem put_map {β : Type} (f : α → β) (t r : Nat) (x : α) (rows : Nat → Option α) :
    put sz t r (f x) (fun i => (rows i).map f) = fun i => (put sz t r x rows i).map f := by
  funext i
  unfold put
  split
  · rfl
  · by_cases e : i = slot sz t r
    · subst e; simp
    · rw [Function.update_of_ne e, Function.update_of_ne e]

/-- Which records are in the sample depends on their numbers only: `samples` says it for all records. -/
theorem fill_map {β : Type} (f : α → β) : ∀ (xs : List (α × Nat)) (t : Nat) (rows : Nat → Option α),
    fill sz t (xs.map fun x => (f x.1, x.2)) (fun i => (rows i).map f) = fun i => (fill sz t xs rows i).map f
  | [], _, _ => rfl
  | (x, r) :: xs, t, rows => by
    rw [List.map_cons, fill, put_map, fill_map f xs (t + 1), fill]

/-- The invariant: every row holds one of the records, and no record is in two rows. -/
structure Inv (sz t : Nat) (s : Nat → Option Nat) : Prop where
  set : Set' sz t s
  le : ∀ i k, s i = some k → 1 ≤ k ∧ k ≤ t
  inj : ∀ i j k, s i = some k → s j = some k → i = j
  early : t ≤ sz → ∀ i < t, s i = some (i + 1)

theorem inv_put {t r : Nat} {s : Nat → Option Nat} (h : Inv sz t s) : Inv sz (t + 1) (put sz (t + 1) r (t + 1) s) := by
  refine ⟨put_set h.set, ?_, ?_, ?_⟩
  · intro i k e
    unfold put at e
    split at e
    · have := h.le i k e; omega
    · by_cases c : i = slot sz (t + 1) r
      · subst c
        rw [Function.update_self, Option.some.injEq] at e
        omega
      · rw [Function.update_of_ne c] at e
        have := h.le i k e; omega
  · intro i j k e1 e2
    unfold put at e1 e2
    split at e1
    · rename_i hs
      rw [if_pos hs] at e2
      exact h.inj i j k e1 e2
    · rename_i hs
      rw [if_neg hs] at e2
      by_cases c1 : i = slot sz (t + 1) r <;> by_cases c2 : j = slot sz (t + 1) r
      · rw [c1, c2]
      · rw [c1, Function.update_self, Option.some.injEq] at e1
        rw [Function.update_of_ne c2] at e2
        have := h.le j k e2; omega
      · rw [c2, Function.update_self, Option.some.injEq] at e2
        rw [Function.update_of_ne c1] at e1
        have := h.le i k e1; omega
      · rw [Function.update_of_ne c1] at e1
        rw [Function.update_of_ne c2] at e2
        exact h.inj i j k e1 e2
  · intro ht i hi
    rw [put_early (by omega)]
    by_cases c : i = t
    · subst c; simp
    · rw [Function.update_of_ne c]
      exact h.early (by omega) i (by omega)

theorem inv_samples : ∀ {t : Nat} {s : Nat → Option Nat}, s ∈ samples sz t → Inv sz t s
  | 0, s, h => by
    rw [samples, List.mem_singleton] at h
    subst h
    refine ⟨fun i => by simp, fun i k e => ?_, fun i j k e => ?_, fun _ i hi => by omega⟩
    · exact absurd e (by simp)
    · exact absurd e (by simp)
  | t + 1, s, h => by
    rw [samples, List.mem_flatMap] at h
    obtain ⟨s0, h0, h⟩ := h
    obtain ⟨r, -, rfl⟩ := List.mem_map.1 h
    exact inv_put (inv_samples h0)

theorem length_flatMap_const {α β : Type} (f : α → List β) (n : Nat) : ∀ l : List α, (∀ a ∈ l, (f a).length = n) →
    (l.flatMap f).length = l.length * n
  | [], _ => by simp
  | a :: l, h => by
    rw [List.flatMap_cons, List.length_append, h a (by simp), length_flatMap_const f n l fun b hb => h b (by simp [hb]),
      List.length_cons]
    ring

theorem countP_flatMap_const {α β : Type} (f : α → List β) (p : β → Bool) (q : α → Bool) (n n' : Nat) : ∀ l : List α,
    (∀ a ∈ l, (f a).countP p = if q a then n else n') → (l.flatMap f).countP p = l.countP q * n + (l.length - l.countP q) * n'
  | [], _ => by simp
  | a :: l, h => by
    have ih := countP_flatMap_const f p q n n' l fun b hb => h b (by simp [hb])
    have hl := List.countP_le_length (p := q) (l := l)
    rw [List.flatMap_cons, List.countP_append, h a (by simp), ih, List.countP_cons, List.length_cons]
    cases q a
    · simp only [Bool.false_eq_true, if_false, Nat.add_zero]
      rw [show l.length + 1 - l.countP q = (l.length - l.countP q) + 1 by omega]
      ring
    · simp only [if_true]
      rw [show l.length + 1 - (l.countP q + 1) = l.length - l.countP q by omega]
      ring

theorem samples_length {t : Nat} (ht : sz ≤ t) : (samples sz (t + 1)).length = (samples sz t).length * (t + 2) := by
  rw [samples]
  refine length_flatMap_const _ _ _ fun s _ => ?_
  rw [List.length_map, choices, Nat.add_sub_cancel, if_neg (by omega), List.length_range]

theorem samples_early : ∀ {t : Nat}, t ≤ sz → (samples sz t).length = 1
  | 0, _ => rfl
  | t + 1, h => by
    rw [samples, length_flatMap_const _ 1 _ fun s _ => ?_, samples_early (by omega)]
    rw [List.length_map, choices, Nat.add_sub_cancel, if_pos (by omega)]
    rfl

/-- A record stays unless its row is drawn. -/
theorem stays {t k i : Nat} {s : Nat → Option Nat} (h : Inv sz t s) (ht : sz ≤ t) (hi : i < sz) (hk : s i = some k) (r : Nat) :
    Has sz (put sz (t + 1) r (t + 1) s) k ↔ r ≠ i := by
  have hle := h.le i k hk
  unfold Has
  by_cases hr : r ≥ sz
  · rw [put_out ht hr]
    exact ⟨fun _ => by omega, fun _ => ⟨i, hi, hk⟩⟩
  · rw [put_in ht (by omega)]
    constructor
    · rintro ⟨j, hj, e⟩ rfl
      by_cases c : j = r
      · subst c
        rw [Function.update_self, Option.some.injEq] at e
        omega
      · rw [Function.update_of_ne c] at e
        exact c (h.inj _ _ _ e hk)
    · intro hne
      exact ⟨i, hi, by rw [Function.update_of_ne (Ne.symm hne)]; exact hk⟩

/-- A record that is not in the sample does not come back. -/
theorem gone {t k : Nat} {s : Nat → Option Nat} (hk : k ≤ t) (hn : ¬ Has sz s k) (r : Nat) :
    ¬ Has sz (put sz (t + 1) r (t + 1) s) k := by
  rintro ⟨j, hj, e⟩
  unfold put at e
  split at e
  · exact hn ⟨j, hj, e⟩
  · by_cases c : j = slot sz (t + 1) r
    · rw [c, Function.update_self, Option.some.injEq] at e
      omega
    · rw [Function.update_of_ne c] at e
      exact hn ⟨j, hj, e⟩

theorem countP_ne (n i : Nat) (hi : i < n) : (List.range n).countP (fun r => decide (r ≠ i)) = n - 1 := by
  induction n with
  | zero => omega
  | succ n ih =>
    rw [List.range_succ, List.countP_append]
    by_cases e : i = n
    · subst e
      have : (List.range i).countP (fun r => decide (r ≠ i)) = i := by
        conv_rhs => rw [← List.length_range (n := i)]
        rw [List.countP_eq_length]
        intro a ha
        rw [List.mem_range] at ha
        simp; omega
      rw [this]
      simp
    · rw [ih (by omega)]
      have : ¬ n = i := fun h => e h.symm
      simp [this]
      omega

theorem countP_lt (n m : Nat) (h : m ≤ n) : (List.range n).countP (fun r => decide (r < m)) = m := by
  induction n with
  | zero => simp; omega
  | succ n ih =>
    rw [List.range_succ, List.countP_append]
    by_cases e : m = n + 1
    · subst e
      have : (List.range n).countP (fun r => decide (r < n + 1)) = n := by
        conv_rhs => rw [← List.length_range (n := n)]
        rw [List.countP_eq_length]
        intro a ha
        rw [List.mem_range] at ha
        simp; omega
      rw [this]
      simp
    · rw [ih (by omega)]
      simp; omega

/-- The number of sequences of random numbers with which the record `k` is in the sample of `t` records. -/
def count (sz t k : Nat) : Nat := (samples sz t).countP fun s => decide (Has sz s k)

theorem count_old {t k : Nat} (ht : sz ≤ t) (hk : k ≤ t) : count sz (t + 1) k = count sz t k * (t + 1) := by
  unfold count
  rw [samples, countP_flatMap_const _ _ (fun s => decide (Has sz s k)) (t + 1) 0, Nat.mul_zero, Nat.add_zero]
  intro s hs
  rw [List.countP_map, choices, Nat.add_sub_cancel, if_neg (by omega : ¬ t < sz)]
  by_cases h : Has sz s k
  · rw [if_pos (by simpa using h)]
    obtain ⟨i, hi, hik⟩ := h
    refine Eq.trans ?_ (countP_ne (t + 1 + 1) i (by omega))
    refine List.countP_congr fun r _ => ?_
    simp only [Function.comp_apply, decide_eq_true_eq]
    exact stays (inv_samples hs) ht hi hik r
  · rw [if_neg (by simpa using h), List.countP_eq_zero]
    intro r _
    simp only [Function.comp_apply, decide_eq_true_eq]
    exact gone hk h r

theorem count_new {t : Nat} (ht : sz ≤ t) : count sz (t + 1) (t + 1) = (samples sz t).length * sz := by
  unfold count
  rw [samples, countP_flatMap_const _ _ (fun _ => true) sz 0, Nat.mul_zero, Nat.add_zero]
  · congr 1
    rw [List.countP_eq_length]
    simp
  intro s hs
  rw [List.countP_map, choices, Nat.add_sub_cancel, if_neg (by omega : ¬ t < sz), if_pos rfl]
  refine Eq.trans ?_ (countP_lt (t + 1 + 1) sz (by omega))
  refine List.countP_congr fun r _ => ?_
  simp only [Function.comp_apply, decide_eq_true_eq]
  constructor
  · rintro ⟨i, hi, e⟩
    by_contra hr
    rw [put_out ht (by omega)] at e
    have := (inv_samples hs).le _ _ e
    omega
  · intro hr
    rw [put_in ht hr]
    exact ⟨r, hr, by simp⟩

theorem count_early {k : Nat} (h1 : 1 ≤ k) (h2 : k ≤ sz) : count sz sz k = 1 := by
  have hl := samples_early (le_refl sz)
  unfold count
  rw [← hl, List.countP_eq_length]
  intro s hs
  rw [decide_eq_true_eq]
  exact ⟨k - 1, by omega, by rw [(inv_samples hs).early le_rfl _ (by omega)]; congr 1; omega⟩

/-- **C117** (finding).  How often each record is in the sample, over all sequences of random numbers: the first records (as many as
the sample is large) in `sz + 1` of `t + 1` cases, the others in `sz` of `t + 1` cases.  So the sample is not uniform. -/
theorem c117_chance {k : Nat} (h1 : 1 ≤ k) : ∀ t, sz ≤ t → k ≤ t →
    (t + 1) * count sz t k = (if k ≤ sz then sz + 1 else sz) * (samples sz t).length
  | 0, h0, hk => by omega
  | t + 1, h0, hk => by
    by_cases e : sz = t + 1
    · rw [if_pos (by omega), ← e, count_early h1 (by omega), samples_early le_rfl]
    · have ht : sz ≤ t := by omega
      rw [samples_length ht]
      by_cases c : k = t + 1
      · subst c
        rw [count_new ht, if_neg (by omega)]
        ring
      · have ih := c117_chance h1 t ht (by omega)
        rw [count_old ht (by omega)]
        calc (t + 1 + 1) * (count sz t k * (t + 1)) = (t + 2) * ((t + 1) * count sz t k) := by ring
          _ = _ := by rw [ih]; ring

/-- **C117** (finding).  The chances of two records differ as soon as the sample is smaller than the number of records. -/
theorem c117_biased {t : Nat} (h0 : 0 < sz) (ht : sz < t) : count sz t t < count sz t 1 := by
  have a := c117_chance (k := t) (by omega) t ht.le le_rfl
  have b := c117_chance (k := 1) le_rfl t ht.le (by omega)
  rw [if_neg (by omega)] at a
  rw [if_pos (by omega)] at b
  have hl : 0 < (samples sz t).length := by
    have : ∀ t, 0 < (samples sz t).length := by
      intro t
      induction t with
      | zero => simp [samples]
      | succ t ih =>
        by_cases h : sz ≤ t
        · rw [samples_length h]; positivity
        · rw [samples_early (by omega)]; omega
    exact this t
  by_contra hn
  have := Nat.mul_le_mul_left (t + 1) (not_lt.1 hn)
  rw [a, b] at this
  have e : (sz + 1) * (samples sz t).length = sz * (samples sz t).length + (samples sz t).length := by ring
  omega

/-- Three records for a sample of one: the first is taken in 6 cases of 12, the others in 3. -/
example : count 1 3 1 = 6 ∧ count 1 3 2 = 3 ∧ count 1 3 3 = 3 ∧ (samples 1 3).length = 12 := by decide +kernel

/-- Five records, a sample of three: all three rows are set. -/
example : (∀ i < 3, fill 3 0 [('a', 0), ('b', 0), ('c', 0), ('d', 1), ('e', 5)] (fun _ => none) i ≠ none) ∧
    fill 3 0 [('a', 0), ('b', 0), ('c', 0), ('d', 1), ('e', 5)] (fun _ => none) 1 = some 'd' := by decide +kernel

/-! ## The records -/

/-- A line that `astar-dump` writes for a node on the path is read as the record of that node. -/
theorem c117_record (num : List Char → ℝ) (g h D d hs ds : List Char) :
    record num ["#altrow".toList, "path".toList, g, h, D, d, hs, ds] = .ok (some ⟨num g, num h, num D, num d, num hs, num ds⟩) := by
  unfold record
  dsimp only
  rw [if_neg (by simp), if_neg (by simp)]

/-- **C117** (finding).  A row for a path with fewer than six values is an access out of bounds. -/
theorem c117_short (num : List Char → ℝ) (ws : List (List Char)) (h : ws.length < 6) :
    record num ("#altrow".toList :: "path".toList :: ws) = .ub := by
  unfold record
  dsimp only
  rw [if_neg (by simp), if_neg (by simp)]
  match ws, h with
  | [], _ | [_], _ | [_, _], _ | [_, _, _], _ | [_, _, _, _], _ | [_, _, _, _, _], _ => rfl

example : (["1".toList, "2".toList] : List (List Char)).length < 6 := by decide

/-! ## The matrix -/

theorem copyRow_other {m n i k : Nat} {src : Nat → ℝ} : ∀ (c j : Nat) (dst : Nat → ℝ), (∀ j', j ≤ j' → j' < j + c → k ≠ j' * m + i) →
    copyRow m n src i c j dst k = dst k
  | 0, _, _, _ => rfl
  | c + 1, j, dst, h => by
    rw [copyRow, copyRow_other c (j + 1) _ fun j' h1 h2 => h j' (by omega) (by omega),
      Function.update_of_ne (h j le_rfl (by omega))]

theorem copyRow_eq {m n i : Nat} (hm : 0 < m) {src : Nat → ℝ} : ∀ (c j : Nat) (dst : Nat → ℝ) (j' : Nat), j ≤ j' → j' < j + c →
    copyRow m n src i c j dst (j' * m + i) = src (i * n + j')
  | 0, _, _, _, _, _ => by omega
  | c + 1, j, dst, j', h1, h2 => by
    rw [copyRow]
    by_cases e : j' = j
    · subst e
      rw [copyRow_other, Function.update_self]
      intro j'' h3 h4 e
      have : j' * m = j'' * m := by omega
      have := Nat.eq_of_mul_eq_mul_right hm this
      omega
    · exact copyRow_eq hm c (j + 1) _ j' (by omega) (by omega)

theorem col_inj {m i i' j j' : Nat} (hi : i < m) (hi' : i' < m) (h : j * m + i = j' * m + i') : i = i' := by
  have := congrArg (· % m) h
  simpa [Nat.mod_eq_of_lt hi, Nat.mod_eq_of_lt hi'] using this

theorem copyRows_other {m n k i' j' : Nat} {src : Nat → ℝ} (hk : k = j' * m + i') (hi' : i' < m) : ∀ (c i : Nat) (dst : Nat → ℝ),
    i + c ≤ m → i' < i → copyRows m n src c i dst k = dst k
  | 0, _, _, _, _ => rfl
  | c + 1, i, dst, h, hlt => by
    rw [copyRows, copyRows_other hk hi' c (i + 1) _ (by omega) (by omega), copyRow_other]
    rintro j'' - - e
    have := col_inj hi' (show i < m by omega) (hk.symm.trans e)
    omega

theorem copyRows_eq {m n i' j' : Nat} {src : Nat → ℝ} (hi' : i' < m) (hj' : j' < n) : ∀ (c i : Nat) (dst : Nat → ℝ),
    i + c ≤ m → i ≤ i' → i' < i + c → copyRows m n src c i dst (j' * m + i') = src (i' * n + j')
  | 0, _, _, _, _, _ => by omega
  | c + 1, i, dst, h, h1, h2 => by
    rw [copyRows]
    by_cases e : i' = i
    · subst e
      rw [copyRows_other rfl hi' c (i' + 1) _ (by omega) (by omega), copyRow_eq (by omega) n 0 dst j' (by omega) (by omega)]
    · exact copyRows_eq hi' hj' c (i + 1) _ (by omega) (by omega) (by omega)

/-- **C117.**  The matrix for the solver is the matrix of the caller, by columns. -/
theorem c117_columns (junk src : Nat → ℝ) {m n i j : Nat} (hi : i < m) (hj : j < n) :
    copyRows m n src m 0 junk (j * m + i) = src (i * n + j) :=
  copyRows_eq hi hj m 0 junk (by omega) (by omega) (by omega)

/-! ## The coefficients -/

theorem coeffs_eq (L : Solver) (junk : Nat → ℝ) {sz t : Nat} (forh : Bool) {rows : Nat → Option Rec} {xs : Nat → Rec}
    (hr : ∀ i < min t sz, rows i = some (xs i)) (hm : 4 ≤ min t sz) :
    ∃ B b, coeffs L junk sz t forh rows = some ((L (min t sz) 4 B b).getD fun _ => 0) ∧
      (∀ i < min t sz, ∀ j < 4, B (j * min t sz + i) = feature (xs i) j) ∧ ∀ i < min t sz, b i = target forh (xs i) := by
  have e : (if t < sz then t else sz) = min t sz := by split <;> omega
  unfold coeffs leastsquares
  dsimp only
  rw [e, if_neg ?_, if_neg (by omega)]
  · refine ⟨_, _, rfl, ?_, ?_⟩
    · intro i hi j hj
      rw [c117_columns _ _ hi hj, show (i * 4 + j) / 4 = i by omega, hr i hi, show (i * 4 + j) % 4 = j by omega]
    · intro i hi
      simp only [hr i hi]
  · rintro ⟨i, hi, h⟩
    rw [hr i hi] at h
    cases h

theorem sum_list_range (m : Nat) (f : Nat → ℝ) : ((List.range m).map f).sum = ∑ i ∈ range m, f i := by
  induction m with
  | zero => simp
  | succ m ih => rw [List.range_succ, List.map_append, List.sum_append, sum_range_succ, ih]; simp

theorem error_eq (forh : Bool) (xs : Nat → Rec) (m : Nat) (c B b : Nat → ℝ)
    (hB : ∀ i < m, ∀ j < 4, B (j * m + i) = feature (xs i) j) (hb : ∀ i < m, b i = target forh (xs i)) :
    error forh ((List.range m).map xs) c = ∑ i ∈ range m, (∑ j ∈ range 4, B (j * m + i) * c j - b i) ^ 2 := by
  have hs : ∀ f : Nat → ℝ, ((List.range m).map f).sum = ∑ i ∈ range m, f i := sum_list_range m
  unfold error
  rw [List.map_map, hs]
  refine sum_congr rfl fun i hi => ?_
  rw [mem_range] at hi
  have e : ∑ j ∈ range 4, B (j * m + i) * c j = ∑ j ∈ range 4, feature (xs i) j * c j :=
    sum_congr rfl fun j hj => by rw [hB i hi j (mem_range.1 hj)]
  rw [e, hb i hi]
  cases forh <;> simp [sum_range_succ, feature, target]

/-- **C117** (partial).  If there is an answer, the printed coefficients have the least squared error over the sample, among all
coefficients. -/
theorem c117_fit_partial {L : Solver} (hL : Right L) (junk : Nat → ℝ) {sz t : Nat} (forh : Bool) {rows : Nat → Option Rec} {xs : Nat → Rec}
    (hr : ∀ i < min t sz, rows i = some (xs i)) (hm : 4 ≤ min t sz) :
    ∃ c, coeffs L junk sz t forh rows = some c ∧ ((∃ k < 4, c k ≠ 0) →
      ∀ c', error forh ((List.range (min t sz)).map xs) c ≤ error forh ((List.range (min t sz)).map xs) c') := by
  obtain ⟨B, b, h, hB, hb⟩ := coeffs_eq L junk forh hr hm
  refine ⟨_, h, ?_⟩
  rintro ⟨k, hk, hne⟩ c'
  cases e : L (min t sz) 4 B b with
  | none => rw [e] at hne; exact absurd rfl hne
  | some x =>
    rw [Option.getD_some, error_eq forh xs _ x B b hB hb, error_eq forh xs _ c' B b hB hb]
    exact (hL _ _ B b hm).1 x e c'

/-- **C117** (finding).  If h is d in all records of the sample, as it is when all actions cost 1, the coefficients are 0, although
the estimate h alone may be perfect. -/
theorem c117_unit {L : Solver} (hL : Right L) (junk : Nat → ℝ) {sz t : Nat} (forh : Bool) {rows : Nat → Option Rec} {xs : Nat → Rec}
    (hr : ∀ i < min t sz, rows i = some (xs i)) (hm : 4 ≤ min t sz) (hu : ∀ i < min t sz, (xs i).h = (xs i).d) :
    coeffs L junk sz t forh rows = some fun _ => 0 := by
  obtain ⟨B, b, h, hB, hb⟩ := coeffs_eq L junk forh hr hm
  rw [h, (hL _ _ B b hm).2 ⟨fun j => if j = 0 then 1 else if j = 2 then -1 else 0, ⟨0, by omega, by simp⟩, ?_⟩]
  · rfl
  intro i hi
  have e : ∑ j ∈ range 4, B (j * min t sz + i) * (if j = 0 then (1 : ℝ) else if j = 2 then -1 else 0) =
      ∑ j ∈ range 4, feature (xs i) j * (if j = 0 then (1 : ℝ) else if j = 2 then -1 else 0) :=
    sum_congr rfl fun j hj => by rw [hB i hi j (mem_range.1 hj)]
  rw [e]
  simp only [sum_range_succ, range_zero, sum_empty, feature]
  rw [hu i hi]
  norm_num

/-- Records of a domain where all actions cost 1 and h is right: `i` actions from the root, `9 - i` to the goal. -/
noncomputable def unit (i : Nat) : Rec := ⟨i, 9 - i, i, 9 - i, 9 - i, 9 - i⟩

/-- The hypotheses are met, and the coefficients 1, 0, 0, 0 have no error while those that are printed have. -/
example : (∀ i < min 4 10, (unit i).h = (unit i).d) ∧
    error true ((List.range 4).map unit) (fun j => if j = 0 then 1 else 0) = 0 ∧
    error true ((List.range 4).map unit) (fun _ => 0) = 230 := by
  refine ⟨fun i _ => rfl, ?_, ?_⟩ <;> simp [error, unit, target, List.range_succ] <;> norm_num

/-- A solver that is right: an answer that is best, if there is one and the columns are independent. -/
noncomputable def best : Solver := by
  classical
  exact fun m n B b =>
    if h : (¬ ∃ y : Nat → ℝ, (∃ j < n, y j ≠ 0) ∧ ∀ i < m, ∑ j ∈ range n, B (j * m + i) * y j = 0) ∧ ∃ x : Nat → ℝ, ∀ y : Nat → ℝ,
      ∑ i ∈ range m, (∑ j ∈ range n, B (j * m + i) * x j - b i) ^ 2 ≤ ∑ i ∈ range m, (∑ j ∈ range n, B (j * m + i) * y j - b i) ^ 2
    then some h.2.choose else none

example : Right best := by
  intro m n B b _
  constructor
  · intro x e
    unfold best at e
    split at e
    · rename_i h
      rw [Option.some.injEq] at e
      subst e
      exact h.2.choose_spec
    · cases e
  · intro h
    unfold best
    rw [dif_neg fun h' => h'.1 h]

end Verif.Lms
