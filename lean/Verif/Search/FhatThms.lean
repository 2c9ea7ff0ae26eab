import Verif.Search.Fhat
import Verif.Search.LssSafe

/-!
# Facts about f̂-LRTA*
-/

namespace Verif.Fhat

open Verif.Search Verif.Lss

variable {S O C : Type*} [DecidableEq S] [Field C] [LinearOrder C] [IsStrictOrderedRing C]
variable {P : FPar S O C} {J : Nat → Bool}

omit [DecidableEq S] [Field C] [LinearOrder C] [IsStrictOrderedRing C] in
theorem orderOk (b : S → C) : OrderOk (P.par b) := fun _ _ => List.mem_range

omit [IsStrictOrderedRing C] in
theorem iterF_iter (hJ : P.junk = some J) {k : Nat} {cur t : S} {F F' : FMem S C} {os : Option (List O)}
    (e : iterF P k cur F = .ok (t, F', os)) : iter (P.par F.bonus) k cur F.m = .ok (t, F'.m, os) := by
  rw [← iterF_proj hJ, e]
  rfl

/-! ## The loop -/

theorem loopF_sound (hJ : P.junk = some J) {s0 : S} (hd : CostOk P.d s0) : ∀ (fuel k : Nat) (cur : S) (F : FMem S C)
    (ops : List O) (lens : List Nat) {t : S} {F' : FMem S C} {ops' : List O} {lens' : List Nat},
    (∃ ss c, Plan P.d s0 ops ss c ∧ (s0 :: ss).getLast? = some cur) → lens.sum = ops.length → (∀ n ∈ lens, 0 < n) →
    loopF P fuel k cur F ops lens = .ok (t, F', ops', lens') →
    (∃ ss c, Plan P.d s0 ops' ss c ∧ (s0 :: ss).getLast? = some t) ∧ lens'.sum = ops'.length ∧ ∀ n ∈ lens', 0 < n
  | 0, _, _, _, _, _, _, _, _, _, _, _, _, e => absurd e (by simp [loopF])
  | fuel + 1, k, cur, F, ops, lens, t, F', ops', lens', hp, hl, hl', e => by
    rw [loopF] at e
    split at e
    · injection e with e
      simp only [Prod.mk.injEq] at e
      obtain ⟨rfl, rfl, rfl, rfl⟩ := e
      exact ⟨hp, hl, hl'⟩
    split at e
    · injection e with e
      simp only [Prod.mk.injEq] at e
      obtain ⟨rfl, rfl, rfl, rfl⟩ := e
      exact ⟨hp, hl, hl'⟩
    obtain ⟨⟨t1, F1, os⟩, hi, e2⟩ := Outcome.bind_eq_ok.1 e
    clear e
    obtain ⟨ss, c, h1, h2⟩ := hp
    rcases iter_sound (orderOk _) (costOk_of_walk (d := (P.par _).d) hd (plan_walk h1 h2)) (iterF_iter hJ hi) with
      ⟨rfl, rfl⟩ | ⟨os', rfl, hne, ss', c', h3, h4⟩
    · have e : Outcome.ok (t1, F1, ops, lens) = .ok (t, F', ops', lens') := e2
      injection e with e
      simp only [Prod.mk.injEq] at e
      obtain ⟨rfl, rfl, rfl, rfl⟩ := e
      exact ⟨⟨ss, c, h1, h2⟩, hl, hl'⟩
    · refine loopF_sound hJ hd fuel (k + 1) _ _ _ _ ⟨ss ++ ss', c + c', plan_append h1 h2 h3, last_append h2 h4⟩ ?_ ?_ e2
      · simp [hl]
      · intro n hn
        rcases List.mem_append.1 hn with hn | hn
        · exact hl' n hn
        · rw [List.mem_singleton.1 hn]
          exact List.length_pos_iff.2 hne

omit [IsStrictOrderedRing C] in
theorem iter_onestep {Q : Par S O C} (hos : Q.onestep = true) {k : Nat} {cur t : S} {m m' : Mem S C} {os : List O}
    (hi : iter Q k cur m = .ok (t, m', some os)) : os.length = 1 := by
  unfold iter at hi
  obtain ⟨x, -, hi⟩ := Outcome.bind_eq_ok.1 hi
  split at hi
  · exact absurd hi (by simp)
  obtain ⟨h, -, hi⟩ := Outcome.bind_eq_ok.1 hi
  obtain ⟨⟨t', os'⟩, hm, hi⟩ := Outcome.map_eq_ok.1 hi
  simp only [Prod.mk.injEq, Option.some.injEq] at hi
  obtain ⟨-, -, rfl⟩ := hi
  unfold move at hm
  obtain ⟨best, -, hm⟩ := Outcome.bind_eq_ok.1 hm
  cases best with
  | none => exact absurd hm (by simp)
  | some b =>
    dsimp only at hm
    split at hm
    · exact absurd hm (by simp)
    obtain ⟨ns, -, hm⟩ := Outcome.bind_eq_ok.1 hm
    split at hm
    · exact absurd hm (by simp)
    · injection hm with hm
      rw [Prod.mk.injEq] at hm
      rw [← hm.2]
      rfl

omit [IsStrictOrderedRing C] in
/-- With `onestep` all steps have length 1. -/
theorem loopF_onestep (hJ : P.junk = some J) (hos : P.onestep = true) : ∀ (fuel k : Nat) (cur : S) (F : FMem S C)
    (ops : List O) (lens : List Nat) {t : S} {F' : FMem S C} {ops' : List O} {lens' : List Nat}, (∀ n ∈ lens, n = 1) →
    loopF P fuel k cur F ops lens = .ok (t, F', ops', lens') → ∀ n ∈ lens', n = 1
  | 0, _, _, _, _, _, _, _, _, _, _, e => absurd e (by simp [loopF])
  | fuel + 1, k, cur, F, ops, lens, t, F', ops', lens', hl, e => by
    rw [loopF] at e
    split at e
    · injection e with e
      simp only [Prod.mk.injEq] at e
      obtain ⟨rfl, rfl, rfl, rfl⟩ := e
      exact hl
    split at e
    · injection e with e
      simp only [Prod.mk.injEq] at e
      obtain ⟨rfl, rfl, rfl, rfl⟩ := e
      exact hl
    obtain ⟨⟨t1, F1, os⟩, hi, e2⟩ := Outcome.bind_eq_ok.1 e
    clear e
    cases os with
    | none =>
      have e : Outcome.ok (t1, F1, ops, lens) = .ok (t, F', ops', lens') := e2
      injection e with e
      simp only [Prod.mk.injEq] at e
      obtain ⟨rfl, rfl, rfl, rfl⟩ := e
      exact hl
    | some os =>
      refine loopF_onestep hJ hos fuel (k + 1) _ _ _ _ ?_ e2
      intro n hn
      rcases List.mem_append.1 hn with hn | hn
      · exact hl n hn
      · rw [List.mem_singleton.1 hn]
        exact iter_onestep (Q := P.par _) hos (iterF_iter hJ hi)

omit [IsStrictOrderedRing C] in
theorem loopF_nexpd (hJ : P.junk = some J) : ∀ (fuel k : Nat) (cur : S) (F : FMem S C) (ops : List O) (lens : List Nat)
    {t : S} {F' : FMem S C} {ops' : List O} {lens' : List Nat}, loopF P fuel k cur F ops lens = .ok (t, F', ops', lens') →
    (∀ b, (∀ i, P.look i ≤ b) → F'.m.nexpd + b * lens.length ≤ F.m.nexpd + b * (lens'.length + 1)) ∧
    ∀ N, (∀ a b c, N ≤ a → P.lim a b c = true) → F.m.nexpd ≤ N → F'.m.nexpd ≤ N
  | 0, _, _, _, _, _, _, _, _, _, e => absurd e (by simp [loopF])
  | fuel + 1, k, cur, F, ops, lens, t, F', ops', lens', e => by
    rw [loopF] at e
    split at e
    · injection e with e
      simp only [Prod.mk.injEq] at e
      obtain ⟨rfl, rfl, rfl, rfl⟩ := e
      exact ⟨fun b _ => by rw [Nat.mul_succ]; omega, fun _ _ h => h⟩
    split at e
    · injection e with e
      simp only [Prod.mk.injEq] at e
      obtain ⟨rfl, rfl, rfl, rfl⟩ := e
      exact ⟨fun b _ => by rw [Nat.mul_succ]; show F.m.nexpd + _ ≤ _; omega, fun _ _ h => h⟩
    obtain ⟨⟨t1, F1, os⟩, hi, e⟩ := Outcome.bind_eq_ok.1 e
    obtain ⟨h1, h2⟩ := iter_nexpd (iterF_iter hJ hi)
    have h1' : F1.m.nexpd ≤ F.m.nexpd + P.look k := h1
    cases os with
    | none =>
      dsimp only at e
      injection e with e
      simp only [Prod.mk.injEq] at e
      obtain ⟨rfl, rfl, rfl, rfl⟩ := e
      exact ⟨fun b hb => by rw [Nat.mul_succ]; have := hb k; omega, h2⟩
    | some os =>
      obtain ⟨h3, h4⟩ := loopF_nexpd hJ fuel (k + 1) _ _ _ _ e
      refine ⟨fun b hb => ?_, fun N hl h => h4 N hl (h2 N hl h)⟩
      have a1 : F'.m.nexpd + b * (lens ++ [os.length]).length ≤ F1.m.nexpd + b * (lens'.length + 1) := h3 b hb
      have a2 := hb k
      rw [List.length_append, List.length_singleton, Nat.mul_succ] at a1
      omega

omit [IsStrictOrderedRing C] in
theorem iterF_ok (hJ : P.junk = some J) {k : Nat} {cur t : S} {F : FMem S C} {m : Mem S C} {os : Option (List O)}
    (e : iter (P.par F.bonus) k cur F.m = .ok (t, m, os)) : ∃ F', iterF P k cur F = .ok (t, F', os) ∧ F'.m = m := by
  rw [← iterF_proj hJ] at e
  obtain ⟨⟨t', F', os'⟩, h1, h2⟩ := Outcome.map_eq_ok.1 e
  simp only [Prod.mk.injEq] at h2
  obtain ⟨rfl, rfl, rfl⟩ := h2
  exact ⟨F', h1, rfl⟩

/-- A search only ever ends regularly, in a goal or at the limit, and the values stay above the heuristic. -/
theorem loopF_safe (hJ : P.junk = some J) {s0 : S} (hd : CostOk P.d s0)
    (hlive : ∀ s, Reach P.d s0 s → ∃ t c, Walk P.d s t c ∧ P.d.goal t = true)
    (hl : ∀ a b c, P.lim a b c = true → P.lim a b (c + 1) = true) (hk : ∀ k, 0 < P.look k) :
    ∀ (fuel k : Nat) (cur : S) (F : FMem S C) (ops : List O) (lens : List Nat), Reach P.d s0 cur →
    MemOk (P.par F.bonus) F.m → (∀ s, P.h s ≤ F.m.h s) →
    loopF P fuel k cur F ops lens = .nofuel ∨ ∃ t F' ops' lens', loopF P fuel k cur F ops lens = .ok (t, F', ops', lens') ∧
      (∀ s, P.h s ≤ F'.m.h s) ∧ (P.d.goal t = true ∨ ∃ c, P.lim F'.m.nexpd F'.m.gend c = true)
  | 0, _, _, _, _, _, _, _, _ => Or.inl rfl
  | fuel + 1, k, cur, F, ops, lens, hr, hm, hge => by
    rw [loopF]
    by_cases hg : P.d.goal cur = true
    · rw [if_pos hg]
      exact Or.inr ⟨_, _, _, _, rfl, hge, Or.inl hg⟩
    rw [if_neg hg]
    by_cases hlim : F.m.lim (P.par F.bonus) = true
    · rw [if_pos hlim]
      exact Or.inr ⟨_, _, _, _, rfl, hge, Or.inr ⟨_, hlim⟩⟩
    rw [if_neg hlim]
    set F1 : FMem S C := { F with m := F.m.call } with hF1
    have hd' : CostOk (P.par F1.bonus).d s0 := hd
    obtain ⟨t, m', os, h1, h2, h3, h4⟩ := iter_safe (P := P.par F1.bonus) hd' hlive hl rfl (hk k) hr (show P.d.goal cur = false by simpa using hg)
      (m := F1.m) ⟨hm.pred1, hm.pred2⟩ hge
    obtain ⟨F', e, rfl⟩ := iterF_ok hJ h1
    rw [e, Outcome.bind_ok]
    cases os with
    | none =>
      exact Or.inr ⟨_, _, _, _, rfl, h3, Or.inr (h4 rfl)⟩
    | some os =>
      dsimp only
      refine loopF_safe hJ hd hlive hl hk fuel (k + 1) t F' _ _ ?_ ⟨h2.pred1, h2.pred2⟩ h3
      obtain ⟨c0, hw0⟩ := hr
      rcases iter_sound (orderOk _) (costOk_of_walk hd' hw0) h1 with ⟨h, -⟩ | ⟨os', h, -, ss, c, h5, h6⟩
      · exact absurd h (by simp)
      · exact ⟨_, hw0.trans (plan_walk h5 h6)⟩

/-! ## The errors -/

/-- A running mean stays in an interval. -/
theorem mean_bounds {a b : C} {n : Nat} (hn : 0 < n) (ha : 0 ≤ a) (hb : 0 ≤ b) :
    0 ≤ a + (b - a) / (n : C) ∧ ∀ v, a < v → b < v → a + (b - a) / (n : C) < v := by
  have hn' : (1 : C) ≤ n := by exact_mod_cast hn
  have hpos : (0 : C) < n := lt_of_lt_of_le one_pos hn'
  have e : a + (b - a) / (n : C) = (a * (n - 1) + b) / n := by field_simp; ring
  rw [e]
  constructor
  · apply div_nonneg _ hpos.le
    have := mul_nonneg ha (sub_nonneg.2 hn')
    linarith
  · intro v h1 h2
    rw [div_lt_iff₀ hpos]
    have := mul_le_mul_of_nonneg_right h1.le (sub_nonneg.2 hn')
    linarith [mul_sub v (n : C) 1]

theorem stepErr_bounds {thr e : C} (h0 : 0 < thr) (h1 : thr ≤ 1) : 0 ≤ stepErr thr e ∧ stepErr thr e < 1 := by
  unfold stepErr
  split
  · exact ⟨le_rfl, one_pos⟩
  · split
    · exact ⟨by linarith, by linarith⟩
    · rename_i h h'; exact ⟨not_lt.1 h, not_le.1 h'⟩

/-- The errors are in their ranges. -/
def ErrOk (hn dn : C) : Prop := 0 ≤ hn ∧ 0 ≤ dn ∧ dn < 1

theorem errors_ok (h0 : 0 < P.thr) (h1 : P.thr ≤ 1) (dd : S → C) (s : Nat) {r : T S O C × Option Nat}
    (h : ErrOk r.1.hn r.1.dn) : ErrOk (errors P dd s r).hn (errors P dd s r).dn := by
  unfold errors
  split
  · exact h
  · rename_i k _
    have a : 0 ≤ (if (r.1.x.nd k).f - (r.1.x.nd s).f < 0 then 0 else (r.1.x.nd k).f - (r.1.x.nd s).f) := by
      split
      · exact le_rfl
      · rename_i h; exact not_lt.1 h
    obtain ⟨b1, b2⟩ := stepErr_bounds (e := dd (r.1.x.nd k).st + 1 - dd (r.1.x.nd s).st) h0 h1
    have hd := mean_bounds (Nat.succ_pos r.1.exp) h.2.1 b1
    exact ⟨(mean_bounds (Nat.succ_pos _) h.1 a).1, hd.1, hd.2 1 h.2.2 b2⟩

omit [IsStrictOrderedRing C] in
theorem relaxT_err {b : S → C} {s : Nat} {o : O} {r r' : T S O C × Option Nat} (e : relaxT P b s o r = .ok r') :
    r'.1.hn = r.1.hn ∧ r'.1.dn = r.1.dn ∧ r'.1.exp = r.1.exp := by
  unfold relaxT at e
  dsimp only at e
  split at e
  · injection e with e; rw [e]; exact ⟨rfl, rfl, rfl⟩
  · obtain ⟨t, ht, e⟩ := Outcome.bind_eq_ok.1 e
    obtain ⟨y, -, rfl⟩ := Outcome.map_eq_ok.1 e
    unfold readParent at ht
    split at ht
    · injection ht with ht; rw [ht]; exact ⟨rfl, rfl, rfl⟩
    · split at ht
      · exact absurd ht (by simp)
      · injection ht with ht; rw [← ht]; exact ⟨rfl, rfl, rfl⟩

omit [IsStrictOrderedRing C] in
theorem relaxAllT_err {b : S → C} {s : Nat} : ∀ (os : List O) {r r' : T S O C × Option Nat},
    relaxAllT P b s os r = .ok r' → r'.1.hn = r.1.hn ∧ r'.1.dn = r.1.dn ∧ r'.1.exp = r.1.exp
  | [], r, r', e => by injection e with e; rw [e]; exact ⟨rfl, rfl, rfl⟩
  | o :: os, r, r', e => by
    rw [relaxAllT] at e
    obtain ⟨r1, h1, e⟩ := Outcome.bind_eq_ok.1 e
    obtain ⟨a1, a2, a3⟩ := relaxT_err h1
    obtain ⟨b1, b2, b3⟩ := relaxAllT_err os e
    exact ⟨b1.trans a1, b2.trans a2, b3.trans a3⟩

theorem loopT_err (h0 : 0 < P.thr) (h1 : P.thr ≤ 1) {b dd : S → C} : ∀ (k : Nat) {t t' : T S O C},
    loopT P b dd k t = .ok t' → ErrOk t.hn t.dn → ErrOk t'.hn t'.dn
  | 0, t, t', e, h => by injection e with e; rw [← e]; exact h
  | k + 1, t, t', e, h => by
    rw [loopT] at e
    split at e
    · injection e with e; rw [← e]; exact h
    split at e
    · injection e with e; rw [← e]; exact h
    split at e
    · exact absurd e (by simp)
    obtain ⟨u, hu, e⟩ := Outcome.bind_eq_ok.1 e
    unfold expandT at hu
    dsimp only at hu
    obtain ⟨r, hr, rfl⟩ := Outcome.map_eq_ok.1 hu
    obtain ⟨a1, a2, -⟩ := relaxAllT_err _ hr
    have hr' : ErrOk r.1.hn r.1.dn := by rw [a1, a2]; exact h
    have := fun s => errors_ok h0 h1 dd s hr'
    split at e
    · injection e with e
      rw [← e]
      exact this _
    · exact loopT_err h0 h1 k e (this _)

theorem iterF_err (h0 : 0 < P.thr) (h1 : P.thr ≤ 1) {k : Nat} {cur t : S} {F F' : FMem S C} {os : Option (List O)}
    (e : iterF P k cur F = .ok (t, F', os)) : ErrOk F'.herror F'.derror := by
  unfold iterF at e
  obtain ⟨u, hu, e⟩ := Outcome.bind_eq_ok.1 e
  have := loopT_err h0 h1 _ hu ⟨le_rfl, le_rfl, one_pos⟩
  dsimp only at e
  split at e
  · injection e with e
    simp only [Prod.mk.injEq] at e
    rw [← e.2.1]
    exact this
  · obtain ⟨l, -, e⟩ := Outcome.bind_eq_ok.1 e
    obtain ⟨r, -, e⟩ := Outcome.map_eq_ok.1 e
    simp only [Prod.mk.injEq] at e
    rw [← e.2.1]
    exact this

theorem loopF_err (h0 : 0 < P.thr) (h1 : P.thr ≤ 1) : ∀ (fuel k : Nat) (cur : S) (F : FMem S C) (ops : List O)
    (lens : List Nat) {t : S} {F' : FMem S C} {ops' : List O} {lens' : List Nat},
    loopF P fuel k cur F ops lens = .ok (t, F', ops', lens') → ErrOk F.herror F.derror → ErrOk F'.herror F'.derror
  | 0, _, _, _, _, _, _, _, _, _, e, _ => absurd e (by simp [loopF])
  | fuel + 1, k, cur, F, ops, lens, t, F', ops', lens', e, h => by
    rw [loopF] at e
    split at e
    · injection e with e
      simp only [Prod.mk.injEq] at e
      obtain ⟨rfl, rfl, rfl, rfl⟩ := e
      exact h
    split at e
    · injection e with e
      simp only [Prod.mk.injEq] at e
      obtain ⟨rfl, rfl, rfl, rfl⟩ := e
      exact h
    obtain ⟨⟨t1, F1, os⟩, hi, e2⟩ := Outcome.bind_eq_ok.1 e
    have hF := iterF_err h0 h1 hi
    cases os with
    | none =>
      have e : Outcome.ok (t1, F1, ops, lens) = .ok (t, F', ops', lens') := e2
      injection e with e
      simp only [Prod.mk.injEq] at e
      obtain ⟨rfl, rfl, rfl, rfl⟩ := e
      exact hF
    | some os => exact loopF_err h0 h1 fuel (k + 1) _ _ _ _ e2 hF

/-! ## A domain without distances -/

omit [IsStrictOrderedRing C] in
theorem learnEdgesF_derr {b : S → C} {x : L S O C} {s : Nat} : ∀ (es : List (S × C)) {r r' : FLearn S C},
    learnEdgesF P b x s es r = .ok r' → ∀ t, ∃ u, r'.derr t = r.derr u
  | [], r, r', e, t => by injection e with e; rw [e]; exact ⟨t, rfl⟩
  | e1 :: es, r, r', e, t => by
    rw [learnEdgesF] at e
    obtain ⟨r1, h1, e⟩ := Outcome.bind_eq_ok.1 e
    obtain ⟨u, hu⟩ := learnEdgesF_derr es e t
    rw [hu]
    unfold learnEdgeF at h1
    obtain ⟨y, -, rfl⟩ := Outcome.map_eq_ok.1 h1
    split
    · by_cases hu : u = e1.1
      · subst hu
        exact ⟨(x.nd s).st, Function.update_self ..⟩
      · exact ⟨u, Function.update_of_ne hu _ _⟩
    · exact ⟨u, rfl⟩

omit [IsStrictOrderedRing C] in
theorem learnLoopF_derr {b : S → C} {x : L S O C} : ∀ (fuel : Nat) {r r' : FLearn S C},
    learnLoopF P b x fuel r = .ok r' → ∀ t, ∃ u, r'.derr t = r.derr u
  | 0, _, _, e, _ => absurd e (by simp [learnLoopF])
  | fuel + 1, r, r', e, t => by
    rw [learnLoopF] at e
    split at e
    · injection e with e; rw [e]; exact ⟨t, rfl⟩
    split at e
    · exact absurd e (by simp)
    obtain ⟨r1, h1, e⟩ := Outcome.bind_eq_ok.1 e
    obtain ⟨u, hu⟩ := learnLoopF_derr fuel e t
    obtain ⟨v, hv⟩ := learnEdgesF_derr _ h1 u
    exact ⟨v, hu.trans hv⟩

omit [IsStrictOrderedRing C] in
/-- The distances over which the error applies are always those that some state had before. -/
theorem iterF_derr {k : Nat} {cur t : S} {F F' : FMem S C} {os : Option (List O)} (e : iterF P k cur F = .ok (t, F', os)) :
    ∀ t, ∃ u, F'.derr t = F.derr u := by
  intro s
  unfold iterF at e
  obtain ⟨x, -, e⟩ := Outcome.bind_eq_ok.1 e
  dsimp only at e
  split at e
  · injection e with e
    simp only [Prod.mk.injEq] at e
    rw [← e.2.1]
    exact ⟨s, rfl⟩
  · obtain ⟨l, hl, e⟩ := Outcome.bind_eq_ok.1 e
    obtain ⟨r, -, e⟩ := Outcome.map_eq_ok.1 e
    simp only [Prod.mk.injEq] at e
    rw [← e.2.1]
    split at hl
    · unfold learnF at hl
      obtain ⟨r', h1, rfl⟩ := Outcome.map_eq_ok.1 hl
      exact learnLoopF_derr _ h1 s
    · injection hl with hl
      rw [← hl]
      exact ⟨s, rfl⟩

omit [IsStrictOrderedRing C] in
/-- If all distances are 0 then this is LSS-LRTA*. -/
theorem loopF_lss (hJ : P.junk = some J) : ∀ (fuel k : Nat) (cur : S) (F : FMem S C) (ops : List O) (lens : List Nat),
    (∀ s, F.derr s = 0) → (loopF P fuel k cur F ops lens).map (fun r => (r.1, r.2.1.m, r.2.2)) =
      loop (P.par fun _ => 0) fuel k cur F.m ops lens
  | 0, _, _, _, _, _, _ => rfl
  | fuel + 1, k, cur, F, ops, lens, h0 => by
    have hb : ∀ F : FMem S C, (∀ s, F.derr s = 0) → F.bonus = fun _ => 0 := fun F h => by
      funext s
      unfold FMem.bonus
      rw [h s, zero_div, mul_zero]
    rw [loopF, loop]
    have e : (P.par fun _ => 0).d = P.d := rfl
    rw [e]
    split
    · rfl
    have el : F.m.lim (P.par F.bonus) = F.m.lim (P.par fun _ => 0) := rfl
    rw [el]
    split
    · rfl
    have e1 := iterF_proj hJ k cur { F with m := F.m.call }
    rw [hb { F with m := F.m.call } h0] at e1
    dsimp only at e1
    rw [← e1]
    cases hi : iterF P k cur { F with m := F.m.call } with
    | ok r =>
      obtain ⟨t, F', os⟩ := r
      rw [Outcome.bind_ok, Outcome.map_ok, Outcome.bind_ok]
      cases os with
      | none => rfl
      | some os =>
        refine loopF_lss hJ fuel (k + 1) t F' _ _ fun s => ?_
        obtain ⟨u, hu⟩ := iterF_derr hi s
        rw [hu]
        exact h0 u
    | _ => rfl

/-! ## The parent of a new node -/

theorem relaxAllT_ub (hJ : P.junk = none) {b : S → C} {s0 : S} : ∀ (os : List O) (r : T S O C × Option Nat),
    (r.1.x.nd 0).st = s0 → (r.1.x.nd 0).par = none → (∀ k, r.1.x.tab k = if k = s0 then some 0 else none) →
    (∀ o ∈ os, 0 ≤ P.d.cost s0 o) → (∃ o ∈ os, P.d.app s0 o ≠ s0) → relaxAllT P b 0 os r = .ub
  | [], _, _, _, _, _, h => absurd h (by simp)
  | o :: os, r, hst, hp, ht, hc, h => by
    rw [relaxAllT]
    have htp : ∀ k, toParent r.1.x 0 k = false := fun k => by unfold toParent; rw [hp]
    by_cases ho : P.d.app s0 o = s0
    · have hr : readParent P r.1 s0 = .ok r.1 := by unfold readParent; rw [ht, if_pos rfl]
      have hx : relax (P.par b) 0 o r.1.x = .ok (setGoal (P.par b) 0 r.1.x) := by
        unfold relax
        have e1 : (P.par b).d.app (r.1.x.nd 0).st o = s0 := by rw [hst]; exact ho
        have e2 : 0 ≤ (P.par b).d.cost (r.1.x.nd 0).st o := by rw [hst]; exact hc o (List.mem_cons_self ..)
        simp only [e1, htp, ht, if_true]
        rw [if_neg (by simp), if_neg (by simpa using e2)]
      have e : relaxT P b 0 o r = .ok ({ r.1 with x := setGoal (P.par b) 0 r.1.x },
          better (setGoal (P.par b) 0 r.1.x) r.2 ((setGoal (P.par b) 0 r.1.x).tab s0)) := by
        unfold relaxT
        dsimp only
        rw [hst, ho, htp, if_neg (by simp), hr, Outcome.bind_ok, hx, Outcome.map_ok]
      rw [e, Outcome.bind_ok]
      have es : (setGoal (P.par b) 0 r.1.x).nd = r.1.x.nd ∧ (setGoal (P.par b) 0 r.1.x).tab = r.1.x.tab := by
        unfold setGoal
        repeat' split
        all_goals exact ⟨rfl, rfl⟩
      refine relaxAllT_ub hJ os _ ?_ ?_ ?_ (fun o ho => hc o (List.mem_cons_of_mem _ ho)) ?_
      · dsimp only; rw [es.1]; exact hst
      · dsimp only; rw [es.1]; exact hp
      · dsimp only; rw [es.2]; exact ht
      · obtain ⟨o', h1, h2⟩ := h
        rcases List.mem_cons.1 h1 with rfl | h1
        · exact absurd ho h2
        · exact ⟨o', h1, h2⟩
    · have e : relaxT P b 0 o r = .ub := by
        unfold relaxT readParent
        dsimp only
        rw [hst, htp, if_neg (by simp), ht, if_neg ho, hJ]
        rfl
      rw [e]
      rfl

theorem iterF_ub (hJ : P.junk = none) {s0 : S} (hg : P.d.goal s0 = false) (hc : ∀ o ∈ P.d.ops s0, 0 ≤ P.d.cost s0 o)
    (ho : ∃ o ∈ P.d.ops s0, P.d.app s0 o ≠ s0) {k : Nat} (hk : 0 < P.look k) {F : FMem S C} (hm : MemOk (P.par F.bonus) F.m)
    (hl : F.m.lim (P.par F.bonus) = false) : iterF P k s0 F = .ub := by
  obtain ⟨n, hn⟩ : ∃ n, P.look k = n + 1 := ⟨P.look k - 1, by omega⟩
  have hf := quiet_init (P := P.par F.bonus) (r := s0) hm hg
  have h0 : 0 ∈ (lssInit (P.par F.bonus) s0 F.m).q.data := (hf.base.stat 0 Nat.zero_lt_one).resolve_right (by simp [lssInit])
  have hne := List.ne_nil_of_mem h0
  obtain ⟨s, q, h1, h2, -, -⟩ := pop_rep flt_strictWeak hf.base.rep hne
  have hs : s < 1 := hf.base.inv.sub s (List.mem_toFinset.1 h2)
  obtain rfl : s = 0 := by omega
  have e : expandT P F.bonus F.dd 0 ⟨{ lssInit (P.par F.bonus) s0 F.m with m := F.m.call, q := q }, 0, 0, 0, F.made, F.xdups⟩ = .ub := by
    unfold expandT
    dsimp only
    rw [relaxAllT_ub hJ (s0 := s0)]
    · rfl
    · simp [closeNode, lssInit]
    · simp [closeNode, lssInit]
    · intro k
      show Function.update (fun _ => none) s0 (some 0) k = _
      by_cases hk : k = s0
      · subst hk; simp
      · rw [Function.update_of_ne hk, if_neg hk]
    · simpa [closeNode, lssInit] using hc
    · simpa [closeNode, lssInit] using ho
  unfold iterF expandF
  rw [hn, loopT, if_neg (by simpa using hne), if_neg (by show ¬ F.m.lim _ = true; rw [hl]; simp), h1]
  dsimp only
  have e' : lssInit (P.par F.bonus) s0 F.m = lssInit (P.par F.bonus) s0 F.m := rfl
  show (Outcome.bind (expandT P F.bonus F.dd 0 ⟨{ lssInit (P.par F.bonus) s0 F.m with m := F.m.call, q := q }, 0, 0, 0, F.made, F.xdups⟩) _).bind _ = _
  rw [e]
  rfl

/-! ## What the means are -/

/-- After one expansion with a successor, the error is half of what was seen. -/
theorem errors_first (dd : S → C) (s : Nat) {r : T S O C × Option Nat} {i : Nat} (hr : r.2 = some i) (hn : r.1.hn = 0)
    (hexp : r.1.exp = 1) : (errors P dd s r).hn = max 0 ((r.1.x.nd i).f - (r.1.x.nd s).f) / 2 := by
  unfold errors
  rw [hr]
  dsimp only
  rw [hn, hexp, zero_add, sub_zero]
  have e : ((1 + 1 : Nat) : C) = 2 := by norm_num
  rw [e]
  congr 1
  split
  · rename_i h; rw [max_eq_left h.le]
  · rename_i h; rw [max_eq_right (not_lt.1 h)]

end Verif.Fhat
