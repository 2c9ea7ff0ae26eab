import Verif.Search.Rtastar

/-! # Lemmas on real-time A* -/

namespace Verif.Rta

open Verif.Search

variable {S O C : Type*} [DecidableEq S] [DecidableEq O] [AddCommGroup C] [LinearOrder C] [IsOrderedAddMonoid C]

/-! ## What the loops keep -/

theorem bestLoop_mem (P : Par S O C) (seen : S → Option C) (s : S) (os : List O) :
    ∀ (bests : List (Cur S O C)) (snd : C) (st : Stats), ∀ c ∈ (bestLoop P seen s os bests snd st).1,
      c ∈ bests ∨ (c.op ∈ os ∧ c.state = P.d.app s c.op ∧ c.cost = P.d.cost s c.op) := by
  induction os with
  | nil => intro bests snd st c hc; exact Or.inl hc
  | cons o os ih =>
    intro bests snd st c hc
    have new : ∀ (x : Cur S O C), x.op = o ∧ x.state = P.d.app s o ∧ x.cost = P.d.cost s o →
        x.op ∈ o :: os ∧ x.state = P.d.app s x.op ∧ x.cost = P.d.cost s x.op := by
      rintro x ⟨h1, h2, h3⟩
      rw [h1]; exact ⟨by simp, h2, h3⟩
    have old : c.op ∈ os ∧ c.state = P.d.app s c.op ∧ c.cost = P.d.cost s c.op →
        c.op ∈ o :: os ∧ c.state = P.d.app s c.op ∧ c.cost = P.d.cost s c.op :=
      fun h => ⟨List.mem_cons_of_mem _ h.1, h.2⟩
    cases bests with
    | nil =>
      rw [bestLoop] at hc
      rcases ih _ _ _ c hc with h | h
      · rw [List.mem_singleton] at h; subst h; exact Or.inr (new _ ⟨rfl, rfl, rfl⟩)
      · exact Or.inr (old h)
    | cons b bs =>
      rw [bestLoop] at hc
      split at hc
      · rcases ih _ _ _ c hc with h | h
        · rw [List.mem_singleton] at h; subst h; exact Or.inr (new _ ⟨rfl, rfl, rfl⟩)
        · exact Or.inr (old h)
      · split at hc
        · rcases ih _ _ _ c hc with h | h
          · rcases List.mem_append.1 h with h | h
            · exact Or.inl h
            · rw [List.mem_singleton] at h; subst h; exact Or.inr (new _ ⟨rfl, rfl, rfl⟩)
          · exact Or.inr (old h)
        · rcases ih _ _ _ c hc with h | h
          · exact Or.inl h
          · exact Or.inr (old h)

theorem bestLoop_ne (P : Par S O C) (seen : S → Option C) (s : S) (os : List O) :
    ∀ (bests : List (Cur S O C)) (snd : C) (st : Stats), bests ≠ [] → (bestLoop P seen s os bests snd st).1 ≠ [] := by
  induction os with
  | nil => intro bests snd st h; exact h
  | cons o os ih =>
    intro bests snd st h
    cases bests with
    | nil => exact absurd rfl h
    | cons b bs =>
      rw [bestLoop]
      split
      · exact ih _ _ _ (by simp)
      · split
        · exact ih _ _ _ (by simp)
        · exact ih _ _ _ (by simp)

theorem bestkids_nil {P : Par S O C} {seen : S → Option C} {s : S} {st : Stats} (h : (bestkids P seen s st).1 = []) :
    P.d.ops s = [] := by
  unfold bestkids at h
  cases e : P.d.ops s with
  | nil => rfl
  | cons o os =>
    rw [e, bestLoop] at h
    exact absurd h (bestLoop_ne P seen s os _ _ _ (by simp))

theorem rebuild_plan {d : Dom S O C} {s : S} {os : List O} {ss : List S} {c : C} (h : Plan d s os ss c) :
    rebuild d s os = ss := by
  induction h with
  | nil => rfl
  | cons _ _ ih => rw [rebuild, ih]

theorem loop_sound (P : Par S O C) (pick : Nat → Nat → Nat) : ∀ (fuel k : Nat) (s : S) (snd : C) (seen : S → Option C)
    (ops : List O) (st : Stats) (t : S) (ops' : List O) (st' : Stats),
    loop P pick fuel k s snd seen ops st = .ok (t, ops', st') → P.d.goal t = true →
    ∃ os ss c, ops' = ops ++ os ∧ Plan P.d s os ss c ∧ (s :: ss).getLast (by simp) = t := by
  intro fuel
  induction fuel with
  | zero => intro k s snd seen ops st t ops' st' h; cases h
  | succ fuel ih =>
    intro k s snd seen ops st t ops' st' h hg
    unfold loop at h
    by_cases hgs : P.d.goal s = true
    · rw [if_pos hgs] at h
      cases h
      exact ⟨[], [], 0, by simp, .nil _, rfl⟩
    rw [if_neg hgs] at h
    by_cases hl : st.lim P.l = true
    · rw [if_pos hl] at h
      cases h
      exact absurd hg hgs
    rw [if_neg hl] at h
    dsimp only at h
    by_cases h0 : (bestkids P seen s { st with calls := st.calls + 1 }).1 = []
    · rw [if_pos h0] at h
      cases h
      exact absurd hg hgs
    rw [if_neg h0] at h
    split at h
    · cases h
    · next c hc =>
      obtain ⟨os, ss, cc, e1, e2, e3⟩ := ih _ _ _ _ _ _ _ _ _ h hg
      rcases bestLoop_mem P seen s _ _ _ _ c (List.mem_of_getElem? hc) with hm | ⟨hm, hs, -⟩
      · simp at hm
      rw [hs] at e2 e3
      refine ⟨c.op :: os, P.d.app s c.op :: ss, P.d.cost s c.op + cc, by rw [e1]; simp, .cons hm e2, ?_⟩
      rw [List.getLast_cons (by simp)]
      simpa [hs] using e3

theorem loop_fail (P : Par S O C) (hl : ∀ a b c, P.l a b c = false) (pick : Nat → Nat → Nat) : ∀ (fuel k : Nat) (s : S)
    (snd : C) (seen : S → Option C) (ops : List O) (st : Stats) (t : S) (ops' : List O) (st' : Stats),
    loop P pick fuel k s snd seen ops st = .ok (t, ops', st') → P.d.goal t = false →
    (∃ c, Walk P.d s t c) ∧ P.d.ops t = [] := by
  intro fuel
  induction fuel with
  | zero => intro k s snd seen ops st t ops' st' h; cases h
  | succ fuel ih =>
    intro k s snd seen ops st t ops' st' h hg
    unfold loop at h
    by_cases hgs : P.d.goal s = true
    · rw [if_pos hgs] at h
      cases h
      rw [hg] at hgs; cases hgs
    rw [if_neg hgs, if_neg (by unfold Stats.lim; rw [hl]; simp)] at h
    dsimp only at h
    by_cases h0 : (bestkids P seen s { st with calls := st.calls + 1 }).1 = []
    · rw [if_pos h0] at h
      cases h
      exact ⟨⟨0, .nil _⟩, bestkids_nil h0⟩
    rw [if_neg h0] at h
    split at h
    · cases h
    · next c hc =>
      obtain ⟨⟨cc, e1⟩, e2⟩ := ih _ _ _ _ _ _ _ _ _ h hg
      rcases bestLoop_mem P seen s _ _ _ _ c (List.mem_of_getElem? hc) with hm | ⟨hm, hs, -⟩
      · simp at hm
      rw [hs] at e1
      have h1 : Walk P.d s (P.d.app s c.op) (0 + P.d.cost s c.op) := (Walk.nil s).snoc hm
      exact ⟨⟨_, h1.trans e1⟩, e2⟩

theorem loop_ok (P : Par S O C) {pick : Nat → Nat → Nat} (hp : ∀ k n, 0 < n → pick k n < n) : ∀ (fuel k : Nat) (s : S)
    (snd : C) (seen : S → Option C) (ops : List O) (st : Stats),
    loop P pick fuel k s snd seen ops st = .nofuel ∨ ∃ r, loop P pick fuel k s snd seen ops st = .ok r := by
  intro fuel
  induction fuel with
  | zero => intro k s snd seen ops st; exact Or.inl rfl
  | succ fuel ih =>
    intro k s snd seen ops st
    unfold loop
    split
    · exact Or.inr ⟨_, rfl⟩
    · split
      · exact Or.inr ⟨_, rfl⟩
      · dsimp only
        split
        · exact Or.inr ⟨_, rfl⟩
        · next h0 =>
          split
          · next hn =>
            rw [List.getElem?_eq_none_iff] at hn
            have := hp k _ (List.length_pos_iff.2 h0)
            omega
          · exact ih _ _ _ _ _ _

/-! ## Limits -/

theorem lookOps_expd {m1 : C} {pop : O} {N : Nat} {rec : O → C → Stats → C × C × Stats}
    (hr : ∀ o alpha st, st.expd ≤ N → (rec o alpha st).2.2.expd ≤ N) (os : List O) : ∀ (bestf alpha : C) (st : Stats),
    st.expd ≤ N → (lookOps m1 pop rec os bestf alpha st).2.2.expd ≤ N := by
  induction os with
  | nil => intro bestf alpha st h; exact h
  | cons o os ih =>
    intro bestf alpha st h
    unfold lookOps
    split
    · exact ih _ _ _ h
    · exact ih _ _ _ (hr _ _ _ h)

theorem look_expd {d : Dom S O C} {h : S → C} {l : Lim} {m1 : C} {N : Nat} (hl : ∀ a b c, N ≤ a → l a b c = true) :
    ∀ (left : Nat) (s : S) (alpha : C) (pop : O) (g : C) (st : Stats), st.expd ≤ N →
      (look d h l m1 left s alpha pop g st).2.2.expd ≤ N := by
  intro left
  induction left with
  | zero => intro s alpha pop g st hst; exact hst
  | succ left ih =>
    intro s alpha pop g st hst
    unfold look
    by_cases hc : st.lim l = true ∨ better m1 (h s + g) alpha = false ∨ d.goal s = true
    · rw [if_pos hc]; exact hst
    · rw [if_neg hc]
      push Not at hc
      have : st.expd < N := by
        by_contra hge
        exact hc.1 (hl _ _ _ (by omega))
      exact lookOps_expd (fun o alpha st hst => ih _ _ _ _ _ hst) _ _ _ _ (by dsimp only; omega)

theorem bestLoop_expd {P : Par S O C} {N : Nat} (hl : ∀ a b c, N ≤ a → P.l a b c = true) (seen : S → Option C) (s : S)
    (os : List O) : ∀ (bests : List (Cur S O C)) (snd : C) (st : Stats), st.expd ≤ N →
      (bestLoop P seen s os bests snd st).2.2.expd ≤ N := by
  induction os with
  | nil => intro bests snd st h; exact h
  | cons o os ih =>
    intro bests snd st h
    have hh : ∀ (snd : C) (t : S) (pop : O) (st : Stats), st.expd ≤ N → (heuristic P snd seen t pop st).2.expd ≤ N := by
      intro snd t pop st hst
      unfold heuristic
      split
      · exact hst
      · exact look_expd hl _ _ _ _ _ _ hst
    have : (kid P snd seen s o st).2.expd ≤ N := hh snd (P.d.app s o) (P.d.rev s o) { st with gend := st.gend + 1 } h
    cases bests with
    | nil => rw [bestLoop]; exact ih _ _ _ this
    | cons b bs =>
      rw [bestLoop]
      split
      · exact ih _ _ _ this
      · split
        · exact ih _ _ _ this
        · exact ih _ _ _ this

theorem loop_expd {P : Par S O C} {N : Nat} (hl : ∀ a b c, N ≤ a → P.l a b c = true) (pick : Nat → Nat → Nat) :
    ∀ (fuel k : Nat) (s : S) (snd : C) (seen : S → Option C) (ops : List O) (st : Stats) (r : S × List O × Stats),
    st.expd ≤ N → loop P pick fuel k s snd seen ops st = .ok r → r.2.2.expd ≤ N := by
  intro fuel
  induction fuel with
  | zero => intro k s snd seen ops st r _ h; cases h
  | succ fuel ih =>
    intro k s snd seen ops st r hst h
    unfold loop at h
    split at h
    · cases h; exact hst
    · by_cases hlim : st.lim P.l = true
      · rw [if_pos hlim] at h; cases h; exact hst
      rw [if_neg hlim] at h
      have hlt : st.expd < N := by
        by_contra hge
        exact hlim (hl _ _ _ (by omega))
      have hb := bestLoop_expd hl seen s (P.d.ops s) [] P.m1 { { st with calls := st.calls + 1 } with expd := st.expd + 1 } (by dsimp only; omega)
      dsimp only at h
      split at h
      · cases h; exact hb
      · split at h
        · cases h
        · exact ih _ _ _ _ _ _ _ hb h

/-! ## Generated nodes -/

theorem lookOps_gend {m1 : C} {pop : O} {b : Nat} {rec : O → C → Stats → C × C × Stats}
    (hr : ∀ o alpha st, (rec o alpha st).2.2.gend + b * st.expd ≤ st.gend + b * (rec o alpha st).2.2.expd) (os : List O) :
    ∀ (bestf alpha : C) (st : Stats), (lookOps m1 pop rec os bestf alpha st).2.2.gend + b * st.expd ≤
      st.gend + b * (lookOps m1 pop rec os bestf alpha st).2.2.expd + os.length := by
  induction os with
  | nil => intro bestf alpha st; exact Nat.le_refl _
  | cons o os ih =>
    intro bestf alpha st
    unfold lookOps
    rw [List.length_cons]
    split
    · have := ih bestf alpha st
      omega
    · dsimp only
      have h1 := hr o alpha { st with gend := st.gend + 1 }
      have h2 := ih (if better m1 (rec o alpha { st with gend := st.gend + 1 }).1 bestf then
        (rec o alpha { st with gend := st.gend + 1 }).1 else bestf) (rec o alpha { st with gend := st.gend + 1 }).2.1
        (rec o alpha { st with gend := st.gend + 1 }).2.2
      dsimp only at h1
      omega

theorem look_gend {d : Dom S O C} {h : S → C} {l : Lim} {m1 : C} {b : Nat} (hb : ∀ s, (d.ops s).length ≤ b) :
    ∀ (left : Nat) (s : S) (alpha : C) (pop : O) (g : C) (st : Stats),
      (look d h l m1 left s alpha pop g st).2.2.gend + b * st.expd ≤
        st.gend + b * (look d h l m1 left s alpha pop g st).2.2.expd := by
  intro left
  induction left with
  | zero => intro s alpha pop g st; exact Nat.le_refl _
  | succ left ih =>
    intro s alpha pop g st
    unfold look
    split
    · exact Nat.le_refl _
    · have h1 := lookOps_gend (m1 := m1) (pop := pop) (b := b)
        (rec := fun o alpha st => look d h l m1 left (d.app s o) alpha (d.rev s o) (g + d.cost s o) st)
        (fun o alpha st => ih _ _ _ _ _) (d.ops s) m1 alpha { st with expd := st.expd + 1, calls := st.calls + 1 }
      have h2 := hb s
      dsimp only at h1
      rw [Nat.mul_add] at h1
      omega

theorem bestLoop_gend {P : Par S O C} {b : Nat} (hb : ∀ s, (P.d.ops s).length ≤ b) (seen : S → Option C) (s : S)
    (os : List O) : ∀ (bests : List (Cur S O C)) (snd : C) (st : Stats),
      (bestLoop P seen s os bests snd st).2.2.gend + b * st.expd ≤
        st.gend + b * (bestLoop P seen s os bests snd st).2.2.expd + os.length := by
  induction os with
  | nil => intro bests snd st; exact Nat.le_refl _
  | cons o os ih =>
    intro bests snd st
    have hh : ∀ (snd : C) (t : S) (pop : O) (st : Stats), (heuristic P snd seen t pop st).2.gend + b * st.expd ≤
        st.gend + b * (heuristic P snd seen t pop st).2.expd := by
      intro snd t pop st
      unfold heuristic
      split
      · exact Nat.le_refl _
      · exact look_gend hb _ _ _ _ _ _
    have hk : (kid P snd seen s o st).2.gend + b * st.expd ≤ st.gend + 1 + b * (kid P snd seen s o st).2.expd :=
      hh snd (P.d.app s o) (P.d.rev s o) { st with gend := st.gend + 1 }
    have key : ∀ bests' snd', (bestLoop P seen s os bests' snd' (kid P snd seen s o st).2).2.2.gend + b * st.expd ≤
        st.gend + b * (bestLoop P seen s os bests' snd' (kid P snd seen s o st).2).2.2.expd + (os.length + 1) := by
      intro bests' snd'
      have := ih bests' snd' (kid P snd seen s o st).2
      omega
    rw [List.length_cons]
    cases bests with
    | nil => rw [bestLoop]; exact key _ _
    | cons b' bs =>
      rw [bestLoop]
      split
      · exact key _ _
      · split
        · exact key _ _
        · exact key _ _

theorem loop_gend {P : Par S O C} {b : Nat} (hb : ∀ s, (P.d.ops s).length ≤ b) (pick : Nat → Nat → Nat) :
    ∀ (fuel k : Nat) (s : S) (snd : C) (seen : S → Option C) (ops : List O) (st : Stats) (r : S × List O × Stats),
    st.gend ≤ b * st.expd → loop P pick fuel k s snd seen ops st = .ok r → r.2.2.gend ≤ b * r.2.2.expd := by
  intro fuel
  induction fuel with
  | zero => intro k s snd seen ops st r _ h; cases h
  | succ fuel ih =>
    intro k s snd seen ops st r hst h
    unfold loop at h
    split at h
    · cases h; exact hst
    · split at h
      · cases h; exact hst
      have hg := bestLoop_gend hb seen s (P.d.ops s) [] P.m1 { { st with calls := st.calls + 1 } with expd := st.expd + 1 }
      have hg' : (bestkids P seen s { st with calls := st.calls + 1 }).2.2.gend ≤
          b * (bestkids P seen s { st with calls := st.calls + 1 }).2.2.expd := by
        unfold bestkids
        have := hb s
        dsimp only at hg ⊢
        rw [Nat.mul_add] at hg
        omega
      dsimp only at h
      split at h
      · cases h; exact hg'
      · split at h
        · cases h
        · exact ih _ _ _ _ _ _ _ hg' h

/-! ## Lookahead -/

/-- A cost, with the sentinel as infinity. -/
def val (m1 x : C) : WithTop C := if x = m1 then ⊤ else (x : WithTop C)

theorem val_better {m1 a b : C} : val m1 (if better m1 a b then a else b) = min (val m1 a) (val m1 b) := by
  unfold better
  by_cases hb : b = m1
  · subst hb
    simp only [decide_eq_true_eq, true_or, if_true]
    unfold val
    simp
  · by_cases ha : a = m1
    · subst ha
      simp only [hb, decide_eq_true_eq, ne_eq, not_true, false_and, or_false, if_false]
      unfold val
      simp
    · simp only [hb, ha, decide_eq_true_eq, ne_eq, not_false_eq_true, true_and, false_or]
      split
      · next h => unfold val; rw [if_neg ha, if_neg hb, min_eq_left]; exact_mod_cast h.le
      · next h => unfold val; rw [if_neg ha, if_neg hb, min_eq_right]; exact_mod_cast (not_lt.1 h)

theorem better_iff {m1 a b : C} (ha : a ≠ m1) : better m1 a b = true ↔ val m1 a < val m1 b := by
  unfold better val
  rw [if_neg ha]
  by_cases hb : b = m1
  · simp [hb, WithTop.coe_lt_top]
  · simp [hb, ha]

/-- The least value at the leaves below a state, reached at cost `g`. -/
def minval (d : Dom S O C) (h : S → C) : Nat → S → O → C → WithTop C
  | 0, s, _, g => ((h s + g : C) : WithTop C)
  | left + 1, s, pop, g =>
    if d.goal s then ((h s + g : C) : WithTop C)
    else (d.ops s).foldr (fun o v => if o = pop then v else min (minval d h left (d.app s o) (d.rev s o) (g + d.cost s o)) v) ⊤

/-- The heuristic is consistent and positive on what can be reached from a state. -/
structure Cons (d : Dom S O C) (h : S → C) (s0 : S) : Prop where
  nonneg : ∀ s c, Walk d s0 s c → 0 ≤ h s
  cost : ∀ s c, Walk d s0 s c → ∀ o ∈ d.ops s, 0 ≤ d.cost s o
  step : ∀ s c, Walk d s0 s c → ∀ o ∈ d.ops s, h s ≤ d.cost s o + h (d.app s o)

theorem Cons.app {d : Dom S O C} {h : S → C} {s : S} (hc : Cons d h s) {o : O} (ho : o ∈ d.ops s) :
    Cons d h (d.app s o) := by
  have h1 : Walk d s (d.app s o) (0 + d.cost s o) := (Walk.nil s).snoc ho
  exact ⟨fun t c hw => hc.nonneg t _ (h1.trans hw), fun t c hw => hc.cost t _ (h1.trans hw),
    fun t c hw => hc.step t _ (h1.trans hw)⟩

theorem foldr_ge {os : List O} {x : WithTop C} {pop : O} {F : O → WithTop C} (h : ∀ o ∈ os, x ≤ F o) :
    x ≤ os.foldr (fun o v => if o = pop then v else min (F o) v) ⊤ := by
  induction os with
  | nil => simp
  | cons o os ih =>
    rw [List.foldr_cons]
    have := ih fun o ho => h o (List.mem_cons_of_mem _ ho)
    split
    · exact this
    · exact le_min (h o (by simp)) this

theorem minval_ge {d : Dom S O C} {h : S → C} : ∀ (left : Nat) (s : S) (pop : O) (g : C), Cons d h s →
    ((h s + g : C) : WithTop C) ≤ minval d h left s pop g := by
  intro left
  induction left with
  | zero => intro s pop g _; exact le_rfl
  | succ left ih =>
    intro s pop g hc
    unfold minval
    split
    · exact le_rfl
    · refine foldr_ge fun o ho => ?_
      refine le_trans ?_ (ih _ _ _ (hc.app ho))
      have := hc.step s 0 (.nil s) o ho
      rw [WithTop.coe_le_coe]
      calc h s + g ≤ d.cost s o + h (d.app s o) + g := by gcongr
        _ = h (d.app s o) + (g + d.cost s o) := by abel

theorem look_minval {d : Dom S O C} {h : S → C} {l : Lim} {m1 : C} (hl : ∀ a b c, l a b c = false) (hm : m1 < 0) :
    ∀ (left : Nat) (s : S) (alpha : C) (pop : O) (g : C) (st : Stats), Cons d h s → 0 ≤ g →
      min (val m1 (look d h l m1 left s alpha pop g st).1) (val m1 alpha) = min (minval d h left s pop g) (val m1 alpha) ∧
      val m1 (look d h l m1 left s alpha pop g st).2.1 = min (minval d h left s pop g) (val m1 alpha) := by
  intro left
  have hne : ∀ (s : S) (g : C), Cons d h s → 0 ≤ g → h s + g ≠ m1 := by
    intro s g hc hg e
    have := add_nonneg (hc.nonneg s 0 (.nil s)) hg
    rw [e] at this
    exact absurd hm (not_lt.2 this)
  have hv : ∀ (s : S) (g : C), Cons d h s → 0 ≤ g → val m1 (h s + g) = ((h s + g : C) : WithTop C) := by
    intro s g hc hg
    unfold val; rw [if_neg (hne s g hc hg)]
  induction left with
  | zero =>
    intro s alpha pop g st hc hg
    unfold look stop minval
    dsimp only
    rw [val_better, hv s g hc hg]
    exact ⟨rfl, rfl⟩
  | succ left ih =>
    intro s alpha pop g st hc hg
    unfold look
    by_cases hcond : st.lim l = true ∨ better m1 (h s + g) alpha = false ∨ d.goal s = true
    · rw [if_pos hcond]
      unfold stop
      dsimp only
      rw [val_better, hv s g hc hg]
      have key : min ((h s + g : C) : WithTop C) (val m1 alpha) = min (minval d h (left + 1) s pop g) (val m1 alpha) := by
        rcases hcond with hc1 | hb | hgl
        · unfold Stats.lim at hc1; rw [hl] at hc1; cases hc1
        · have : val m1 alpha ≤ ((h s + g : C) : WithTop C) := by
            rw [← hv s g hc hg, ← not_lt, ← better_iff (hne s g hc hg), hb]; simp
          rw [min_eq_right this, min_eq_right (this.trans (minval_ge _ _ _ _ hc))]
        · unfold minval; rw [if_pos hgl]
      exact ⟨key, key⟩
    · rw [if_neg hcond]
      push Not at hcond
      unfold minval
      rw [if_neg hcond.2.2]
      have key : ∀ (os : List O) (bestf alpha0 alpha : C) (st : Stats), (∀ o ∈ os, o ∈ d.ops s) →
          val m1 alpha ≤ val m1 alpha0 → min (val m1 bestf) (val m1 alpha0) = val m1 alpha →
          min (val m1 (lookOps m1 pop (fun o alpha st => look d h l m1 left (d.app s o) alpha (d.rev s o) (g + d.cost s o) st) os
            bestf alpha st).1) (val m1 alpha0) =
            min (os.foldr (fun o v => if o = pop then v else min (minval d h left (d.app s o) (d.rev s o) (g + d.cost s o)) v) ⊤)
              (val m1 alpha) ∧
          val m1 (lookOps m1 pop (fun o alpha st => look d h l m1 left (d.app s o) alpha (d.rev s o) (g + d.cost s o) st) os
            bestf alpha st).2.1 =
            min (os.foldr (fun o v => if o = pop then v else min (minval d h left (d.app s o) (d.rev s o) (g + d.cost s o)) v) ⊤)
              (val m1 alpha) := by
        intro os
        induction os with
        | nil =>
          intro bestf alpha0 alpha st _ h1 h2
          unfold lookOps
          rw [List.foldr_nil, min_eq_right le_top]
          exact ⟨h2, rfl⟩
        | cons o os ih2 =>
          intro bestf alpha0 alpha st hos h1 h2
          rw [List.foldr_cons]
          unfold lookOps
          by_cases hp : o = pop
          · rw [if_pos hp, if_pos hp]
            exact ih2 _ _ _ _ (fun o ho => hos o (List.mem_cons_of_mem _ ho)) h1 h2
          · rw [if_neg hp, if_neg hp]
            have ho := hos o (by simp)
            obtain ⟨i1, i2⟩ := ih (d.app s o) alpha (d.rev s o) (g + d.cost s o) { st with gend := st.gend + 1 } (hc.app ho)
              (add_nonneg hg (hc.cost s 0 (.nil s) o ho))
            dsimp only
            generalize hr : look d h l m1 left (d.app s o) alpha (d.rev s o) (g + d.cost s o) { st with gend := st.gend + 1 } = r at i1 i2
            generalize minval d h left (d.app s o) (d.rev s o) (g + d.cost s o) = M at i1 i2
            obtain ⟨j1, j2⟩ := ih2 (if better m1 r.1 bestf then r.1 else bestf) alpha0 r.2.1 r.2.2
              (fun o ho => hos o (List.mem_cons_of_mem _ ho)) (by rw [i2]; exact (min_le_right _ _).trans h1)
              (by rw [val_better, min_assoc, h2, i1, i2])
            rw [j1, j2, i2, min_left_comm, min_assoc]
            exact ⟨by rw [min_left_comm], by rw [min_left_comm]⟩
      have hm1 : val m1 m1 = ⊤ := by unfold val; rw [if_pos rfl]
      exact key (d.ops s) m1 alpha alpha _ (fun o ho => ho) le_rfl (by rw [hm1]; exact min_eq_right le_top)

/-- A way down from `s` that does not begin with `pop` and never goes back at once, and ends at the first goal or after
`n` steps: the last state and the cost. -/
inductive Leaf (d : Dom S O C) : Nat → S → O → S → C → Prop
  | deep (s : S) (pop : O) : Leaf d 0 s pop s 0
  | goal {n : Nat} {s : S} {pop : O} : d.goal s = true → Leaf d (n + 1) s pop s 0
  | step {n : Nat} {s t : S} {pop o : O} {c : C} : d.goal s = false → o ∈ d.ops s → o ≠ pop →
      Leaf d n (d.app s o) (d.rev s o) t c → Leaf d (n + 1) s pop t (d.cost s o + c)

theorem foldr_le {os : List O} {pop : O} {F : O → WithTop C} {o : O} (ho : o ∈ os) (hp : o ≠ pop) :
    os.foldr (fun o v => if o = pop then v else min (F o) v) ⊤ ≤ F o := by
  induction os with
  | nil => cases ho
  | cons o' os ih =>
    rw [List.foldr_cons]
    rcases List.mem_cons.1 ho with e | e
    · subst e
      rw [if_neg hp]
      exact min_le_left _ _
    · have := ih e
      split
      · exact this
      · exact (min_le_right _ _).trans this

theorem foldr_attained {os : List O} {pop : O} {F : O → WithTop C} {v : C}
    (h : os.foldr (fun o v => if o = pop then v else min (F o) v) ⊤ = (v : WithTop C)) :
    ∃ o ∈ os, o ≠ pop ∧ F o = (v : WithTop C) := by
  induction os with
  | nil => simp at h
  | cons o' os ih =>
    rw [List.foldr_cons] at h
    split at h
    · obtain ⟨o, h1, h2⟩ := ih h
      exact ⟨o, List.mem_cons_of_mem _ h1, h2⟩
    · next hp =>
      rcases min_choice (F o') (os.foldr (fun o v => if o = pop then v else min (F o) v) ⊤) with e | e
      · rw [e] at h
        exact ⟨o', by simp, hp, h⟩
      · rw [e] at h
        obtain ⟨o, h1, h2⟩ := ih h
        exact ⟨o, List.mem_cons_of_mem _ h1, h2⟩

theorem minval_leaf {d : Dom S O C} {h : S → C} {left : Nat} {s t : S} {pop : O} {c : C} (hl : Leaf d left s pop t c) :
    ∀ g, minval d h left s pop g ≤ ((h t + (g + c) : C) : WithTop C) := by
  induction hl with
  | deep s pop => intro g; unfold minval; simp
  | goal hg => intro g; unfold minval; rw [if_pos hg]; simp
  | step hg ho hp _ ih =>
    intro g
    unfold minval
    rw [if_neg (by simp [hg])]
    refine (foldr_le ho hp).trans ((ih _).trans (le_of_eq ?_))
    rw [add_assoc]

theorem minval_attained {d : Dom S O C} {h : S → C} : ∀ (left : Nat) (s : S) (pop : O) (g v : C),
    minval d h left s pop g = (v : WithTop C) → ∃ t c, Leaf d left s pop t c ∧ v = h t + (g + c) := by
  intro left
  induction left with
  | zero =>
    intro s pop g v hv
    unfold minval at hv
    exact ⟨s, 0, .deep _ _, by rw [add_zero]; exact (WithTop.coe_inj.1 hv).symm⟩
  | succ left ih =>
    intro s pop g v hv
    unfold minval at hv
    by_cases hg : d.goal s = true
    · rw [if_pos hg] at hv
      exact ⟨s, 0, .goal hg, by rw [add_zero]; exact (WithTop.coe_inj.1 hv).symm⟩
    · rw [if_neg hg] at hv
      obtain ⟨o, ho, hp, h2⟩ := foldr_attained hv
      obtain ⟨t, c, h3, h4⟩ := ih _ _ _ _ h2
      exact ⟨t, _, .step (by simpa using hg) ho hp h3, by rw [h4, add_assoc]⟩

/-! ## The successors -/

theorem lookOps_stats {m1 : C} {pop : O} {rec : O → C → Stats → C × C × Stats}
    (hr : ∀ o alpha st st', (rec o alpha st).1 = (rec o alpha st').1 ∧ (rec o alpha st).2.1 = (rec o alpha st').2.1)
    (os : List O) : ∀ (bestf alpha : C) (st st' : Stats),
    (lookOps m1 pop rec os bestf alpha st).1 = (lookOps m1 pop rec os bestf alpha st').1 ∧
    (lookOps m1 pop rec os bestf alpha st).2.1 = (lookOps m1 pop rec os bestf alpha st').2.1 := by
  induction os with
  | nil => intro bestf alpha st st'; exact ⟨rfl, rfl⟩
  | cons o os ih =>
    intro bestf alpha st st'
    unfold lookOps
    split
    · exact ih _ _ _ _
    · obtain ⟨h1, h2⟩ := hr o alpha { st with gend := st.gend + 1 } { st' with gend := st'.gend + 1 }
      dsimp only
      rw [h1, h2]
      exact ih _ _ _ _

theorem look_stats {d : Dom S O C} {h : S → C} {l : Lim} {m1 : C} (hl : ∀ a b c, l a b c = false) :
    ∀ (left : Nat) (s : S) (alpha : C) (pop : O) (g : C) (st st' : Stats),
      (look d h l m1 left s alpha pop g st).1 = (look d h l m1 left s alpha pop g st').1 ∧
      (look d h l m1 left s alpha pop g st).2.1 = (look d h l m1 left s alpha pop g st').2.1 := by
  intro left
  induction left with
  | zero => intro s alpha pop g st st'; exact ⟨rfl, rfl⟩
  | succ left ih =>
    intro s alpha pop g st st'
    unfold look Stats.lim
    rw [hl, hl]
    split
    · exact ⟨rfl, rfl⟩
    · apply lookOps_stats
      intro o alpha st st'
      exact ih _ _ _ _ _ _

/-- What is known when the successors `D` have been looked at. -/
def Seen (m1 : C) (F : O → C) (D : List O) (B : List (Cur S O C)) (snd : C) : Prop :=
  (∀ c ∈ B, c.f = F c.op) ∧
  ((∃ m, m ≠ m1 ∧ (∀ c ∈ B, c.f = m) ∧ B ≠ [] ∧ B.map Cur.op = D.filter (fun o => F o = m) ∧
      (∀ o ∈ D, val m1 m ≤ val m1 (F o)) ∧ (snd ≠ m1 → ∃ o ∈ D, F o = snd ∧ m < snd) ∧
      ∀ o ∈ D, F o ≠ m → val m1 snd ≤ val m1 (F o)) ∨
   ((∀ o ∈ D, F o = m1) ∧ snd = m1 ∧ B.map Cur.op = D.getLast?.toList))

theorem val_ne {m1 x : C} (h : x ≠ m1) : val m1 x = (x : WithTop C) := by unfold val; rw [if_neg h]
theorem val_m1 {m1 : C} : val m1 m1 = ⊤ := by unfold val; rw [if_pos rfl]

theorem seen_one {m1 : C} {F : O → C} {D : List O} {c : Cur S O C} (hc : c.f = F c.op) (hD : ∀ o ∈ D, F o = m1) :
    Seen m1 F (D ++ [c.op]) [c] m1 := by
  refine ⟨fun x hx => by rw [List.mem_singleton] at hx; rw [hx, hc], ?_⟩
  by_cases hm : F c.op = m1
  · refine Or.inr ⟨fun o ho => ?_, rfl, by simp⟩
    rcases List.mem_append.1 ho with h | h
    · exact hD o h
    · rw [List.mem_singleton] at h; rw [h, hm]
  · refine Or.inl ⟨F c.op, hm, fun x hx => by rw [List.mem_singleton] at hx; rw [hx, hc], by simp, ?_, ?_, ?_, ?_⟩
    · rw [List.filter_append, List.filter_eq_nil_iff.2 (fun o ho => by simp [hD o ho, Ne.symm hm])]
      simp
    · intro o ho
      rcases List.mem_append.1 ho with h | h
      · rw [hD o h, val_m1]; exact le_top
      · rw [List.mem_singleton] at h; rw [h]
    · intro h; exact absurd rfl h
    · intro o ho hne
      rcases List.mem_append.1 ho with h | h
      · rw [hD o h]
      · rw [List.mem_singleton] at h; rw [h] at hne; exact absurd rfl hne

theorem seen_step {m1 : C} {F : O → C} {D : List O} {b : Cur S O C} {bs : List (Cur S O C)} {snd : C} {c : Cur S O C}
    (h : Seen m1 F D (b :: bs) snd) (hc : c.f = F c.op) :
    (better m1 c.f b.f = true → Seen m1 F (D ++ [c.op]) [c] b.f) ∧
    (better m1 c.f b.f = false → b.f = c.f → Seen m1 F (D ++ [c.op]) (b :: bs ++ [c]) snd) ∧
    (better m1 c.f b.f = false → b.f ≠ c.f →
      Seen m1 F (D ++ [c.op]) (b :: bs) (if better m1 c.f snd then c.f else snd)) := by
  obtain ⟨hB, ⟨m, hm, hBm, -, hf, hle, hs1, hs2⟩ | ⟨hD, hs, hl⟩⟩ := h
  · have hb : b.f = m := hBm b (by simp)
    have hbo : b.op ∈ D ∧ F b.op = m := by
      have : b.op ∈ (b :: bs).map Cur.op := by simp
      rw [hf, List.mem_filter] at this
      simpa using this
    refine ⟨fun h => ?_, fun h he => ?_, fun h he => ?_⟩
    · have hlt : c.f ≠ m1 ∧ c.f < m := by
        unfold better at h
        rw [hb] at h
        simpa [hm] using h
      refine ⟨fun x hx => by rw [List.mem_singleton] at hx; rw [hx, hc], Or.inl ⟨c.f, hlt.1,
        fun x hx => by rw [List.mem_singleton] at hx; rw [hx], by simp, ?_, ?_, ?_, ?_⟩⟩
      · rw [List.filter_append, List.filter_eq_nil_iff.2, ]
        · simp [hc]
        · intro o ho
          simp only [decide_eq_true_eq]
          intro e
          have := hle o ho
          rw [e, val_ne hm, val_ne hlt.1, WithTop.coe_le_coe] at this
          exact absurd hlt.2 (not_lt.2 this)
      · intro o ho
        rcases List.mem_append.1 ho with h | h
        · refine le_trans ?_ (hle o h)
          rw [val_ne hm, val_ne hlt.1, WithTop.coe_le_coe]; exact hlt.2.le
        · rw [List.mem_singleton] at h; rw [h, hc]
      · intro _
        exact ⟨b.op, List.mem_append_left _ hbo.1, by rw [hbo.2, hb], by rw [hb]; exact hlt.2⟩
      · intro o ho hne
        rw [hb]
        rcases List.mem_append.1 ho with h | h
        · exact hle o h
        · rw [List.mem_singleton] at h; rw [h, hc] at hne; exact absurd rfl hne
    · rw [hb] at he
      refine ⟨fun x hx => ?_, Or.inl ⟨m, hm, fun x hx => ?_, by simp, ?_, ?_, ?_, ?_⟩⟩
      · rcases List.mem_append.1 hx with h | h
        · exact hB x h
        · rw [List.mem_singleton] at h; rw [h, hc]
      · rcases List.mem_append.1 hx with h | h
        · exact hBm x h
        · rw [List.mem_singleton] at h; rw [h, he]
      · rw [List.map_append, hf, List.filter_append]
        simp [← hc, he]
      · intro o ho
        rcases List.mem_append.1 ho with h | h
        · exact hle o h
        · rw [List.mem_singleton] at h; rw [h, ← hc, he]
      · intro h
        obtain ⟨o, ho, h2⟩ := hs1 h
        exact ⟨o, List.mem_append_left _ ho, h2⟩
      · intro o ho hne
        rcases List.mem_append.1 ho with h | h
        · exact hs2 o h hne
        · rw [List.mem_singleton] at h; rw [h, ← hc, he] at hne; exact absurd rfl hne
    · rw [hb] at he h
      have hcm : c.f ≠ m1 → m < c.f := by
        intro h1
        unfold better at h
        simp only [hm, h1, false_or, ne_eq, not_false_eq_true, true_and, decide_eq_false_iff_not, not_lt] at h
        exact lt_of_le_of_ne h he
      refine ⟨hB, Or.inl ⟨m, hm, hBm, by simp, ?_, ?_, ?_, ?_⟩⟩
      · rw [hf, List.filter_append]
        simp [← hc, Ne.symm he]
      · intro o ho
        rcases List.mem_append.1 ho with h | h
        · exact hle o h
        · rw [List.mem_singleton] at h
          rw [h, ← hc]
          by_cases h1 : c.f = m1
          · rw [h1, val_m1]; exact le_top
          · rw [val_ne hm, val_ne h1, WithTop.coe_le_coe]; exact (hcm h1).le
      · intro h
        split at h
        · next hb2 =>
          rw [if_pos hb2]
          exact ⟨c.op, by simp, hc.symm, hcm h⟩
        · next hb2 =>
          rw [if_neg hb2]
          obtain ⟨o, ho, h2⟩ := hs1 h
          exact ⟨o, List.mem_append_left _ ho, h2⟩
      · intro o ho hne
        rw [val_better]
        rcases List.mem_append.1 ho with h | h
        · exact (min_le_right _ _).trans (hs2 o h hne)
        · rw [List.mem_singleton] at h
          rw [h, ← hc]
          exact min_le_left _ _
  · subst hs
    have hb : b.f = snd := by
      have : b.op ∈ (b :: bs).map Cur.op := by simp
      rw [hl, Option.mem_toList] at this
      rw [hB b (by simp)]
      exact hD _ (List.mem_of_getLast? this)
    refine ⟨fun _ => by rw [hb]; exact seen_one hc hD, fun h => ?_, fun h => ?_⟩
    · rw [hb] at h; unfold better at h; simp at h
    · rw [hb] at h; unfold better at h; simp at h

theorem bestLoop_seen {P : Par S O C} {seen : S → Option C} {s : S} {F : O → C}
    (hF : ∀ snd st, ∀ o ∈ P.d.ops s, (kid P snd seen s o st).1.f = F o) (os : List O) :
    ∀ (D : List O) (B : List (Cur S O C)) (snd : C) (st : Stats), (∀ o ∈ os, o ∈ P.d.ops s) → B ≠ [] →
      Seen P.m1 F D B snd →
      Seen P.m1 F (D ++ os) (bestLoop P seen s os B snd st).1 (bestLoop P seen s os B snd st).2.1 := by
  induction os with
  | nil => intro D B snd st _ _ h; rw [List.append_nil]; exact h
  | cons o os ih =>
    intro D B snd st ho hB h
    cases B with
    | nil => exact absurd rfl hB
    | cons b bs =>
      have hk : (kid P snd seen s o st).1.f = F (kid P snd seen s o st).1.op := hF _ _ o (ho o (by simp))
      have hop : (kid P snd seen s o st).1.op = o := rfl
      obtain ⟨h1, h2, h3⟩ := seen_step h hk
      rw [hop] at h1 h2 h3
      have ho' : ∀ o ∈ os, o ∈ P.d.ops s := fun o h => ho o (List.mem_cons_of_mem _ h)
      rw [bestLoop]
      rw [show D ++ o :: os = (D ++ [o]) ++ os by simp]
      split
      · next hb => exact ih _ _ _ _ ho' (by simp) (h1 hb)
      · next hb =>
        split
        · next he => exact ih _ _ _ _ ho' (by simp) (h2 (by simpa using hb) he)
        · next he => exact ih _ _ _ _ ho' (by simp) (h3 (by simpa using hb) he)

end Verif.Rta
