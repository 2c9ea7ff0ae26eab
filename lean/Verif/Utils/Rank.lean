import Verif.Outcome
import Verif.Utils.Math
import Mathlib.Logic.Function.Basic
import Mathlib.Data.List.Nodup
import Mathlib.Data.List.Count
import Mathlib.Data.Finset.Card
import Mathlib.Data.Finset.Range
import Mathlib.Order.Interval.Finset.Nat

/-!
# Model of utils/rank.cc (permutation ranking)

The tree is a function of the node number; the only access that can leave the array is the first
one (the leaf), since the walk goes to smaller numbers.
-/

namespace Verif.Rank

/-- `tree[nd]++`. -/
def bump (t : Nat → Nat) (nd : Nat) : Nat → Nat := Function.update t nd (t nd + 1)

/-- rank.cc:36-42: the walk from a leaf to the root.  `ctr` is `unsigned int`; it is reduced modulo
2^32 at the end of the walk (the same, since only subtractions happen). -/
def walk : Nat → Nat → Int → (Nat → Nat) → Nat × Int × (Nat → Nat)
  | 0, nd, ctr, t => (nd, ctr, t)
  | j + 1, nd, ctr, t =>
    let prnt := nd / 2
    walk j prnt (if nd % 2 ≠ 0 then ctr - t (prnt * 2) else ctr) (bump t nd)

/-- rank.cc:32-46: one iteration per element `p` of the sequence; `i` counts from 1. -/
def rankLoop (sz bits treesz : Nat) : List Nat → Nat → (Nat → Nat) → Nat → Outcome Nat
  | [], _, _, rank => .ok rank
  | p :: ps, i, t, rank =>
    let nd := 2 ^ bits + p
    if nd < treesz then
      let r := walk bits nd p t
      let ctr := (r.2.1 % 2 ^ 32).toNat
      rankLoop sz bits treesz ps (i + 1) (bump r.2.2 r.1) ((rank * (sz + 1 - i) + ctr) % 2 ^ 64)
    else .ub

/-- rank.cc:13-49: constructor and `rank`; `n` is the length of `p`.  The shift `1 << (bits+1)` of the
constructors is an `int` shift, undefined when the result does not fit in 31 bits. -/
def rank (sz : Nat) (p : List Nat) : Outcome Nat :=
  let bits := MathFns.ilog2 sz
  if bits + 1 < 31 then
    rankLoop sz bits (2 ^ (bits + 1) + 1) p 1 (fun _ => 0) 0
  else .ub

/-! ## The tree counts the elements seen below each node -/

/-- What a walk subtracts. -/
def sub (t : Nat → Nat) : Nat → Nat → Nat
  | 0, _ => 0
  | j + 1, y => (if y % 2 = 1 then t (2 ^ (j + 1) + y - 1) else 0) + sub t j (y / 2)

theorem sub_succ (t : Nat → Nat) (j y : Nat) :
    sub t (j + 1) y = (if y % 2 = 1 then t (2 ^ (j + 1) + y - 1) else 0) + sub t j (y / 2) := rfl

theorem sub_congr {t t' : Nat → Nat} (j y : Nat) (hy : y < 2 ^ j)
    (h : ∀ nd, nd < 2 ^ (j + 1) → t' nd = t nd) : sub t' j y = sub t j y := by
  induction j generalizing y with
  | zero => rfl
  | succ j ih =>
    have hp : 2 ^ (j + 1 + 1) = 2 * 2 ^ (j + 1) := by rw [pow_succ]; ring
    rw [sub_succ, sub_succ, ih (y / 2) (by rw [pow_succ] at hy; omega) (fun nd hnd => h nd (by omega)), h _ (by omega)]

theorem walk_spec (j y : Nat) (hy : y < 2 ^ j) (ctr : Int) (t : Nat → Nat) :
    (walk j (2 ^ j + y) ctr t).1 = 1 ∧ (walk j (2 ^ j + y) ctr t).2.1 = ctr - sub t j y ∧
    (∀ nd, 2 ^ (j + 1) ≤ nd ∨ nd ≤ 1 → (walk j (2 ^ j + y) ctr t).2.2 nd = t nd) ∧
    (∀ i, 1 ≤ i → i ≤ j → ∀ x, x < 2 ^ i → (walk j (2 ^ j + y) ctr t).2.2 (2 ^ i + x) =
      t (2 ^ i + x) + if x = y / 2 ^ (j - i) then 1 else 0) := by
  induction j generalizing y ctr t with
  | zero =>
    have : y = 0 := by simpa using hy
    subst this
    refine ⟨rfl, by simp [walk, sub], fun _ _ => rfl, fun i h1 h2 => by omega⟩
  | succ j ih =>
    have hpow : 2 ^ (j + 1) = 2 * 2 ^ j := by rw [pow_succ]; ring
    have hpow2 : 2 ^ (j + 1 + 1) = 2 * 2 ^ (j + 1) := by rw [pow_succ]; ring
    have hpos : 0 < 2 ^ j := by positivity
    have hy2 : y / 2 < 2 ^ j := by omega
    have hnd : (2 ^ (j + 1) + y) / 2 = 2 ^ j + y / 2 := by omega
    simp only [walk, hnd]
    obtain ⟨e1, e2, e3, e4⟩ := ih (y / 2) hy2
      (if (2 ^ (j + 1) + y) % 2 ≠ 0 then ctr - t ((2 ^ j + y / 2) * 2) else ctr) (bump t (2 ^ (j + 1) + y))
    refine ⟨e1, ?_, ?_, ?_⟩
    · rw [e2, sub_congr (t := t) j (y / 2) hy2 (fun nd hnd => Function.update_of_ne (by omega) _ _)]
      rw [sub_succ]
      have hmod : (2 ^ (j + 1) + y) % 2 = y % 2 := by omega
      rw [hmod]
      by_cases ho : y % 2 = 1
      · rw [if_pos (by omega), if_pos ho]
        have : (2 ^ j + y / 2) * 2 = 2 ^ (j + 1) + y - 1 := by omega
        rw [this]
        push_cast
        ring
      · rw [if_neg (by omega), if_neg ho]
        push_cast
        ring
    · intro nd h
      rw [e3 nd (by omega)]
      exact Function.update_of_ne (by omega) _ _
    · intro i h1 h2 x hx
      by_cases hij : i = j + 1
      · subst hij
        rw [e3 _ (Or.inl (by omega)), Nat.sub_self, pow_zero, Nat.div_one]
        unfold bump
        by_cases hxy : x = y
        · subst hxy; simp
        · rw [Function.update_of_ne (by omega), if_neg hxy]; rfl
      · rw [e4 i h1 (by omega) x hx]
        have hpi : 2 ^ i ≤ 2 ^ j := Nat.pow_le_pow_right (by omega) (by omega)
        rw [show bump t (2 ^ (j + 1) + y) (2 ^ i + x) = t (2 ^ i + x) from
          Function.update_of_ne (by omega) _ _]
        rw [Nat.div_div_eq_div_mul, ← pow_succ']
        rw [show j - i + 1 = j + 1 - i by omega]

/-- Tree node `2^i + x` counts the elements of `S` whose top bits are `x`. -/
def TInv (bits : Nat) (t : Nat → Nat) (S : List Nat) : Prop :=
  ∀ i ≤ bits, ∀ x < 2 ^ i, t (2 ^ i + x) = S.countP fun q => q / 2 ^ (bits - i) = x

theorem countP_split (S : List Nat) (p k : Nat) :
    (S.countP fun q => q / 2 ^ (k + 1) = p / 2 ^ (k + 1) ∧ q < p) =
      (S.countP fun q => q / 2 ^ k = p / 2 ^ k ∧ q < p) +
      if p / 2 ^ k % 2 = 1 then S.countP fun q => q / 2 ^ k = p / 2 ^ k - 1 else 0 := by
  have hp : 0 < 2 ^ k := by positivity
  have key : ∀ q, (q / 2 ^ (k + 1) = p / 2 ^ (k + 1) ∧ q < p) ↔
      ((q / 2 ^ k = p / 2 ^ k ∧ q < p) ∨ (p / 2 ^ k % 2 = 1 ∧ q / 2 ^ k = p / 2 ^ k - 1)) := by
    intro q
    have eq1 : q / 2 ^ (k + 1) = q / 2 ^ k / 2 := by rw [pow_succ, Nat.div_div_eq_div_mul]
    have eq2 : p / 2 ^ (k + 1) = p / 2 ^ k / 2 := by rw [pow_succ, Nat.div_div_eq_div_mul]
    rw [eq1, eq2]
    have h1 : q / 2 ^ k < p / 2 ^ k → q < p := fun h => by
      by_contra hc
      exact absurd (Nat.div_le_div_right (c := 2 ^ k) (by omega : p ≤ q)) (by omega)
    have h2 : q < p → q / 2 ^ k ≤ p / 2 ^ k := fun h => Nat.div_le_div_right h.le
    by_cases hq : q < p
    · have := h2 hq
      generalize q / 2 ^ k = a at *
      generalize p / 2 ^ k = b at *
      omega
    · have : ¬ (q / 2 ^ k < p / 2 ^ k) := fun h => hq (h1 h)
      generalize q / 2 ^ k = a at *
      generalize p / 2 ^ k = b at *
      omega
  induction S with
  | nil => simp
  | cons q S ih =>
    simp only [List.countP_cons, ih, decide_eq_true_eq]
    have kq := key q
    by_cases ho : p / 2 ^ k % 2 = 1
    · simp only [ho, if_true, true_and] at kq ⊢
      by_cases hA : q / 2 ^ (k + 1) = p / 2 ^ (k + 1) ∧ q < p
      · rw [if_pos hA]
        have hB := kq.1 hA
        rcases hB with hB | hB
        · rw [if_pos hB, if_neg (by omega)]; omega
        · rw [if_pos hB, if_neg (by omega)]; omega
      · rw [if_neg hA]
        have : ¬ (q / 2 ^ k = p / 2 ^ k ∧ q < p ∨ q / 2 ^ k = p / 2 ^ k - 1) := fun h => hA (kq.2 h)
        rw [if_neg (by tauto), if_neg (by tauto)]; omega
    · simp only [ho, if_false, false_and, or_false] at kq ⊢
      by_cases hA : q / 2 ^ (k + 1) = p / 2 ^ (k + 1) ∧ q < p
      · rw [if_pos hA, if_pos (kq.1 hA)]
      · rw [if_neg hA, if_neg (fun h => hA (kq.2 h))]

theorem sub_eq {bits : Nat} {t : Nat → Nat} {S : List Nat} (h : TInv bits t S) (p : Nat) (hp : p < 2 ^ bits)
    (j k : Nat) (hjk : j + k = bits) :
    (S.countP fun q => q / 2 ^ k = p / 2 ^ k ∧ q < p) + sub t j (p / 2 ^ k) =
      S.countP fun q => q / 2 ^ bits = p / 2 ^ bits ∧ q < p := by
  induction j generalizing k with
  | zero => rw [Nat.zero_add] at hjk; subst hjk; simp [sub]
  | succ j ih =>
    have := ih (k + 1) (by omega)
    rw [← this, countP_split]
    rw [sub_succ, Nat.div_div_eq_div_mul, ← pow_succ]
    have hlt : p / 2 ^ k < 2 ^ (j + 1) := by
      rw [Nat.div_lt_iff_lt_mul (by positivity), ← pow_add, hjk]; exact hp
    by_cases ho : p / 2 ^ k % 2 = 1
    · rw [if_pos ho, if_pos ho]
      have hge : 1 ≤ p / 2 ^ k := by
        generalize p / 2 ^ k = b at *
        omega
      have hlt' : p / 2 ^ k - 1 < 2 ^ (j + 1) := by
        generalize p / 2 ^ k = b at *
        omega
      rw [Nat.add_sub_assoc hge, h (j + 1) (by omega) _ hlt', show bits - (j + 1) = k by omega]
      omega
    · rw [if_neg ho, if_neg ho]; omega

/-- The counter of one iteration. -/
theorem walk_ctr {bits : Nat} {t : Nat → Nat} {S : List Nat} (h : TInv bits t S) (hS : ∀ q ∈ S, q < 2 ^ bits)
    (p : Nat) (hp : p < 2 ^ bits) (ctr : Int) :
    (walk bits (2 ^ bits + p) ctr t).2.1 = ctr - (S.countP (· < p) : Nat) := by
  rw [(walk_spec bits p hp ctr t).2.1]
  have := sub_eq h p hp bits 0 (by omega)
  simp only [pow_zero, Nat.div_one] at this
  have h0 : (S.countP fun q => q = p ∧ q < p) = 0 := by
    rw [List.countP_eq_zero]; intro q _; simp; omega
  rw [h0, Nat.zero_add] at this
  rw [this]
  congr 2
  apply List.countP_congr
  intro q hq
  simp [Nat.div_eq_of_lt hp, Nat.div_eq_of_lt (hS q hq)]

theorem walk_inv {bits : Nat} {t : Nat → Nat} {S : List Nat} (h : TInv bits t S) (hS : ∀ q ∈ S, q < 2 ^ bits)
    (p : Nat) (hp : p < 2 ^ bits) (ctr : Int) :
    TInv bits (bump (walk bits (2 ^ bits + p) ctr t).2.2 (walk bits (2 ^ bits + p) ctr t).1) (p :: S) := by
  obtain ⟨e1, -, e3, e4⟩ := walk_spec bits p hp ctr t
  rw [e1]
  intro i hi x hx
  simp only [List.countP_cons, decide_eq_true_eq]
  rcases Nat.eq_zero_or_pos i with rfl | h0
  · have : x = 0 := by simpa using hx
    subst this
    have hz := h 0 (by omega) 0 (by simp)
    simp only [pow_zero, Nat.add_zero, Nat.sub_zero, bump, Function.update_self] at hz ⊢
    rw [e3 1 (Or.inr le_rfl), hz, if_pos (Nat.div_eq_of_lt hp)]
  · have hp2 : 2 ≤ 2 ^ i := by
      calc 2 = 2 ^ 1 := rfl
        _ ≤ 2 ^ i := Nat.pow_le_pow_right (by omega) h0
    unfold bump
    rw [Function.update_of_ne (by omega), e4 i h0 hi x hx, h i hi x hx]
    congr 1
    simp only [eq_comm]

/-! ## Counting below an element -/

/-- Number of values below `p` not used in `S`. -/
def code (S : List Nat) (p : Nat) : Nat := p - S.countP (· < p)

theorem countP_between {S : List Nat} (hn : S.Nodup) (a b : Nat) :
    (S.countP fun q => a ≤ q ∧ q < b) ≤ b - a := by
  have h1 : (S.countP fun q => a ≤ q ∧ q < b) = (S.filter fun q => a ≤ q ∧ q < b).length :=
    List.countP_eq_length_filter
  rw [h1, ← List.toFinset_card_of_nodup (hn.filter _)]
  calc _ ≤ (Finset.Ico a b).card := by
        apply Finset.card_le_card
        intro q hq
        simp only [List.mem_toFinset, List.mem_filter, decide_eq_true_eq] at hq
        exact Finset.mem_Ico.2 hq.2
    _ = b - a := Nat.card_Ico a b

theorem countP_lt_le {S : List Nat} (hn : S.Nodup) (p : Nat) : S.countP (· < p) ≤ p := by
  have := countP_between hn 0 p
  simpa using this

theorem countP_add {S : List Nat} {a b : Nat} (hab : a ≤ b) (ha : a ∉ S) :
    S.countP (· < b) = S.countP (· < a) + S.countP fun q => a + 1 ≤ q ∧ q < b := by
  induction S with
  | nil => simp
  | cons q S ih =>
    rw [List.mem_cons, not_or] at ha
    simp only [List.countP_cons, ih ha.2, decide_eq_true_eq]
    by_cases h1 : q < a
    · rw [if_pos (by omega), if_pos h1, if_neg (by omega)]; omega
    · by_cases h2 : q < b
      · rw [if_pos h2, if_neg h1, if_pos (by omega)]; omega
      · rw [if_neg h2, if_neg h1, if_neg (by omega)]; omega

theorem code_lt {S : List Nat} (hn : S.Nodup) {sz p : Nat} (hS : ∀ q ∈ S, q < sz) (hp : p < sz)
    (hpS : p ∉ S) : code S p + S.length < sz := by
  have h1 := countP_lt_le hn p
  have h2 := countP_add (b := sz) hp.le hpS
  have h3 := countP_between hn (p + 1) sz
  have h4 : S.countP (· < sz) = S.length := by
    rw [List.countP_eq_length]; intro q hq; simpa using hS q hq
  unfold code
  omega

theorem code_strictMono {S : List Nat} (hn : S.Nodup) {p q : Nat} (hp : p ∉ S) (hpq : p < q) :
    code S p < code S q := by
  have h2 := countP_add (b := q) hpq.le hp
  have h3 := countP_between hn (p + 1) q
  have h4 := countP_lt_le hn p
  unfold code
  omega

/-- The rank as a mathematical function. -/
def rk (sz : Nat) : List Nat → Nat → List Nat → Nat
  | _, acc, [] => acc
  | S, acc, p :: ps => rk sz (p :: S) (acc * (sz - S.length) + code S p) ps

theorem rk_le {sz : Nat} (ps : List Nat) (S : List Nat) (acc : Nat) :
    acc * (sz - S.length).descFactorial ps.length ≤ rk sz S acc ps := by
  induction ps generalizing S acc with
  | nil => simp [rk]
  | cons p ps ih =>
    unfold rk
    refine le_trans ?_ (ih (p :: S) _)
    rw [List.length_cons, List.length_cons]
    rcases Nat.eq_zero_or_pos (sz - S.length) with h0 | h0
    · rw [h0, Nat.zero_descFactorial_succ]; omega
    · obtain ⟨m, hm⟩ : ∃ m, sz - S.length = m + 1 := ⟨sz - S.length - 1, by omega⟩
      rw [hm, show sz - (S.length + 1) = m by omega, Nat.succ_descFactorial_succ, ← Nat.mul_assoc]
      exact Nat.mul_le_mul_right _ (by omega)

theorem rk_lt {sz : Nat} (ps : List Nat) (S : List Nat) (acc : Nat) (hn : (ps.reverse ++ S).Nodup)
    (hlt : ∀ q ∈ ps.reverse ++ S, q < sz) :
    rk sz S acc ps < (acc + 1) * (sz - S.length).descFactorial ps.length := by
  induction ps generalizing S acc with
  | nil => simp [rk]
  | cons p ps ih =>
    unfold rk
    have e : (p :: ps).reverse ++ S = ps.reverse ++ (p :: S) := by simp
    rw [e] at hn hlt
    refine lt_of_lt_of_le (ih (p :: S) _ hn hlt) ?_
    have hpS := (List.nodup_append.1 hn).2.1
    have hc := code_lt (List.nodup_cons.1 hpS).2 (sz := sz) (p := p)
      (fun q hq => hlt q (by simp [hq])) (hlt p (by simp)) (List.nodup_cons.1 hpS).1
    rw [List.length_cons, List.length_cons]
    obtain ⟨m, hm⟩ : ∃ m, sz - S.length = m + 1 := ⟨sz - S.length - 1, by omega⟩
    rw [hm, show sz - (S.length + 1) = m by omega, Nat.succ_descFactorial_succ, ← Nat.mul_assoc]
    apply Nat.mul_le_mul_right
    rw [Nat.add_mul]
    omega

/-- The model computes `rk`. -/
theorem rankLoop_eq {sz bits : Nat} (hbits : sz ≤ 2 ^ bits) (hb32 : bits ≤ 32) (ps : List Nat) (S : List Nat)
    (t : Nat → Nat) (acc : Nat) (ht : TInv bits t S) (hn : (ps.reverse ++ S).Nodup)
    (hlt : ∀ q ∈ ps.reverse ++ S, q < sz)
    (hfit : (acc + 1) * (sz - S.length).descFactorial ps.length ≤ 2 ^ 64) :
    rankLoop sz bits (2 ^ (bits + 1) + 1) ps (S.length + 1) t acc = .ok (rk sz S acc ps) := by
  induction ps generalizing S t acc with
  | nil => rfl
  | cons p ps ih =>
    have e : (p :: ps).reverse ++ S = ps.reverse ++ (p :: S) := by simp
    rw [e] at hn hlt
    have hpS := (List.nodup_append.1 hn).2.1
    have hpn := (List.nodup_cons.1 hpS).1
    have hSn := (List.nodup_cons.1 hpS).2
    have hps : p < sz := hlt p (by simp)
    have hSlt : ∀ q ∈ S, q < sz := fun q hq => hlt q (by simp [hq])
    have hSb : ∀ q ∈ S, q < 2 ^ bits := fun q hq => lt_of_lt_of_le (hSlt q hq) hbits
    have hpb : p < 2 ^ bits := by omega
    have hc := code_lt hSn hSlt hps hpn
    have hpow : 2 ^ (bits + 1) = 2 * 2 ^ bits := by rw [pow_succ]; ring
    unfold rankLoop rk
    dsimp only
    rw [if_pos (by omega), walk_ctr ht hSb p hpb]
    have hle := countP_lt_le hSn p
    have hb : 2 ^ bits ≤ 2 ^ 32 := Nat.pow_le_pow_right (by omega) hb32
    have hctr : (((p : Int) - (S.countP (· < p) : Nat)) % 2 ^ 32).toNat = code S p := by
      unfold code
      omega
    rw [hctr, show sz + 1 - (S.length + 1) = sz - S.length by omega]
    have hcount : ps.length + (S.length + 1) ≤ sz := by
      have h1 := countP_between hn 0 sz
      have h2 : (List.countP (fun q => decide (0 ≤ q ∧ q < sz)) (ps.reverse ++ p :: S)) = (ps.reverse ++ p :: S).length := by
        rw [List.countP_eq_length]; intro q hq; simpa using hlt q hq
      rw [h2] at h1
      simp only [List.length_append, List.length_reverse, List.length_cons] at h1
      omega
    obtain ⟨m, hm⟩ : ∃ m, sz - S.length = m + 1 := ⟨sz - S.length - 1, by omega⟩
    have hfit' : (acc * (m + 1) + code S p + 1) * m.descFactorial ps.length ≤ 2 ^ 64 := by
      refine le_trans ?_ hfit
      rw [List.length_cons, hm, Nat.succ_descFactorial_succ, ← Nat.mul_assoc]
      apply Nat.mul_le_mul_right
      rw [Nat.add_mul]
      omega
    have hdpos : 0 < m.descFactorial ps.length := Nat.descFactorial_pos.2 (by omega)
    have hsmall : acc * (m + 1) + code S p < 2 ^ 64 := by
      have : (acc * (m + 1) + code S p + 1) * 1 ≤ (acc * (m + 1) + code S p + 1) * m.descFactorial ps.length :=
        Nat.mul_le_mul_left _ hdpos
      omega
    rw [hm, Nat.mod_eq_of_lt hsmall]
    have := ih (p :: S) _ (acc * (m + 1) + code S p) (walk_inv ht hSb p hpb p) hn hlt
      (by rw [List.length_cons, show sz - (S.length + 1) = m by omega]; exact hfit')
    rw [List.length_cons] at this
    exact this

/-- Every code is the code of some unused value. -/
theorem code_surj {S : List Nat} (hn : S.Nodup) {sz c : Nat} (hS : ∀ q ∈ S, q < sz) (hc : c + S.length < sz) :
    ∃ p, p < sz ∧ p ∉ S ∧ code S p = c := by
  have hcard : (Finset.range sz \ S.toFinset).card = sz - S.length := by
    rw [Finset.card_sdiff_of_subset, Finset.card_range, List.toFinset_card_of_nodup hn]
    intro q hq
    exact Finset.mem_range.2 (hS q (List.mem_toFinset.1 hq))
  have := Finset.surj_on_of_inj_on_of_card_le (s := Finset.range sz \ S.toFinset)
    (t := Finset.range (sz - S.length)) (fun p _ => code S p)
    (fun p hp => by
      rw [Finset.mem_sdiff, Finset.mem_range, List.mem_toFinset] at hp
      have := code_lt hn hS hp.1 hp.2
      exact Finset.mem_range.2 (by omega))
    (fun p q hp hq h => by
      rw [Finset.mem_sdiff, Finset.mem_range, List.mem_toFinset] at hp hq
      rcases Nat.lt_trichotomy p q with h' | h' | h'
      · exact absurd h (ne_of_lt (code_strictMono hn hp.2 h'))
      · exact h'
      · exact absurd h (ne_of_gt (code_strictMono hn hq.2 h')))
    (by rw [hcard, Finset.card_range]) c (Finset.mem_range.2 (by omega))
  obtain ⟨p, hp, h⟩ := this
  rw [Finset.mem_sdiff, Finset.mem_range, List.mem_toFinset] at hp
  exact ⟨p, hp.1, hp.2, h.symm⟩

theorem rk_surj {sz : Nat} (n : Nat) (S : List Nat) (acc r : Nat) (hn : S.Nodup) (hS : ∀ q ∈ S, q < sz)
    (hlen : n + S.length ≤ sz) (h1 : acc * (sz - S.length).descFactorial n ≤ r)
    (h2 : r < (acc + 1) * (sz - S.length).descFactorial n) :
    ∃ ps, ps.length = n ∧ (ps.reverse ++ S).Nodup ∧ (∀ q ∈ ps.reverse ++ S, q < sz) ∧ rk sz S acc ps = r := by
  induction n generalizing S acc with
  | zero =>
    simp only [Nat.descFactorial_zero] at h1 h2
    exact ⟨[], rfl, by simpa using hn, by simpa using hS, by unfold rk; omega⟩
  | succ n ih =>
    obtain ⟨m, hm⟩ : ∃ m, sz - S.length = m + 1 := ⟨sz - S.length - 1, by omega⟩
    rw [hm, Nat.succ_descFactorial_succ, ← Nat.mul_assoc] at h1 h2
    have hd : 0 < m.descFactorial n := Nat.descFactorial_pos.2 (by omega)
    have a1 : acc * (m + 1) ≤ r / m.descFactorial n := (Nat.le_div_iff_mul_le hd).2 h1
    have a2 : r / m.descFactorial n < (acc + 1) * (m + 1) := (Nat.div_lt_iff_lt_mul hd).2 h2
    rw [Nat.add_mul] at a2
    obtain ⟨p, hp, hpS, hc⟩ := code_surj hn (c := r / m.descFactorial n - acc * (m + 1)) hS (by omega)
    obtain ⟨ps, e1, e2, e3, e4⟩ := ih (p :: S) (acc * (sz - S.length) + code S p)
      (List.nodup_cons.2 ⟨hpS, hn⟩)
      (fun q hq => by rcases List.mem_cons.1 hq with rfl | h; exacts [hp, hS q h])
      (by rw [List.length_cons]; omega)
      (by
        rw [hc, hm, List.length_cons, show sz - (S.length + 1) = m by omega, Nat.add_sub_cancel' a1]
        exact Nat.div_mul_le_self _ _)
      (by
        rw [hc, hm, List.length_cons, show sz - (S.length + 1) = m by omega, Nat.add_sub_cancel' a1]
        exact by rw [Nat.mul_comm]; exact Nat.lt_mul_div_succ r hd)
    exact ⟨p :: ps, by simp [e1], by simpa using e2, by simpa using e3, by rw [rk]; exact e4⟩

/-- Two sequences with a common prefix compare like their first difference. -/
theorem rk_lex {sz : Nat} {ps qs : List Nat} (hlen : ps.length = qs.length) (h : List.Lex (· < ·) ps qs)
    (S : List Nat) (acc : Nat) (hp : (ps.reverse ++ S).Nodup) (hpl : ∀ q ∈ ps.reverse ++ S, q < sz) :
    rk sz S acc ps < rk sz S acc qs := by
  induction h generalizing S acc with
  | nil => simp at hlen
  | @cons a as bs h ih =>
    rw [rk, rk]
    exact ih (by simpa using hlen) _ _ (by simpa using hp) (by simpa using hpl)
  | @rel a as b bs hab =>
    have hlen' : as.length = bs.length := by simpa using hlen
    rw [rk, rk]
    have e : (a :: as).reverse ++ S = as.reverse ++ (a :: S) := by simp
    rw [e] at hp hpl
    have haS := List.nodup_cons.1 (List.nodup_append.1 hp).2.1
    have h1 := rk_lt as (a :: S) (acc * (sz - S.length) + code S a) hp hpl
    have h2 := rk_le (sz := sz) bs (b :: S) (acc * (sz - S.length) + code S b)
    have h3 := code_strictMono haS.2 haS.1 hab
    refine lt_of_lt_of_le h1 (le_trans ?_ h2)
    rw [List.length_cons, List.length_cons, hlen']
    exact Nat.mul_le_mul_right _ (by omega)

end Verif.Rank
