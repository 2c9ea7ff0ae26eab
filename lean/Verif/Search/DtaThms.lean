import Verif.Search.Dta
import Verif.Search.LssLearn

/-!
# Lemmas on DTA*
-/

namespace Verif.Dta

open Verif.Search
open Verif.Lss (pushupd hlt)

variable {S O : Type*} [DecidableEq S] {P : Par S O} {cur : S}

/-! ## What a search from a successor never changes -/

/-- Root, operator and cost of the first step are the same. -/
def Same (x y : Tree S O) : Prop := y.root = x.root ∧ y.op = x.op ∧ y.g0 = x.g0

omit [DecidableEq S] in
theorem Same.refl (x : Tree S O) : Same x x := ⟨rfl, rfl, rfl⟩

omit [DecidableEq S] in
theorem Same.trans {x y z : Tree S O} (h : Same x y) (h' : Same y z) : Same x z :=
  ⟨h'.1.trans h.1, h'.2.1.trans h.2.1, h'.2.2.trans h.2.2⟩

omit [DecidableEq S] in
theorem setGoal_same (i : Nat) (x : Tree S O) : Same x (setGoal P i x) := by
  unfold setGoal
  split <;> split <;> exact ⟨rfl, rfl, rfl⟩

omit [DecidableEq S] in
theorem improve_same {s i : Nat} {o : O} {k : S} {c : ℚ} {cl up : Bool} {x x' : Tree S O} {m : Graph S}
    (e : improve P cur s i o k c cl up x m = .ok x') : Same x x' := by
  unfold improve at e
  dsimp only at e
  split at e
  · exact absurd e (by simp)
  · obtain ⟨q, -, e⟩ := Outcome.map_eq_ok.1 e
    subst e
    exact setGoal_same _ _

theorem relax_same {s : Nat} {o : O} {y y' : Tree S O × Graph S} (e : relax P cur s o y = .ok y') : Same y.1 y'.1 := by
  unfold relax at e
  dsimp only at e
  split at e
  · cases e; exact .refl _
  split at e
  · exact absurd e (by simp)
  split at e
  · obtain ⟨x, h, e⟩ := Outcome.map_eq_ok.1 e
    subst e
    have := improve_same h
    exact this
  · split at e
    · cases e; exact .refl _
    · obtain ⟨x, h, e⟩ := Outcome.map_eq_ok.1 e
      subst e
      exact improve_same h

theorem relaxAll_same {s : Nat} : ∀ (os : List O) {y y' : Tree S O × Graph S}, relaxAll P cur s os y = .ok y' → Same y.1 y'.1
  | [], y, y', e => by cases e; exact .refl _
  | o :: os, y, y', e => by
    rw [relaxAll] at e
    obtain ⟨z, h, e⟩ := Outcome.bind_eq_ok.1 e
    exact (relax_same h).trans (relaxAll_same os e)

theorem expandLoop_same : ∀ (k : Nat) {y y' : Tree S O × Graph S}, expandLoop P cur k y = .ok y' → Same y.1 y'.1
  | 0, y, y', e => by cases e; exact .refl _
  | k + 1, y, y', e => by
    rw [expandLoop] at e
    split at e
    · cases e; exact .refl _
    split at e
    · cases e; exact .refl _
    split at e
    · exact absurd e (by simp)
    · dsimp only at e
      split at e
      · split at e
        · cases e; exact ⟨rfl, rfl, rfl⟩
        · exact absurd e (by simp)
      · obtain ⟨z, h, e⟩ := Outcome.bind_eq_ok.1 e
        exact Same.trans ⟨rfl, rfl, rfl⟩ ((relaxAll_same _ h).trans (expandLoop_same k e))

theorem expand_same {N : Nat} {y y' : Tree S O × Graph S} (e : expand P cur N y = .ok y') : Same y.1 y'.1 := by
  unfold expand at e
  split at e
  · cases e; exact .refl _
  · exact expandLoop_same _ e

theorem learnEdge_same {s : Nat} {e : S × ℚ} {z z' : Tree S O × (S → ℚ) × BinHeap.Heap Nat} (h : learnEdge s e z = .ok z') :
    Same z.1 z'.1 := by
  unfold learnEdge at h
  split at h
  · cases h; exact .refl _
  split at h
  · cases h; exact .refl _
  dsimp only at h
  split at h
  · obtain ⟨q, -, h⟩ := Outcome.map_eq_ok.1 h
    subst h
    exact ⟨rfl, rfl, rfl⟩
  · cases h; exact .refl _

theorem learnEdges_same {s : Nat} : ∀ (es : List (S × ℚ)) {z z' : Tree S O × (S → ℚ) × BinHeap.Heap Nat},
    learnEdges s es z = .ok z' → Same z.1 z'.1
  | [], z, z', h => by cases h; exact .refl _
  | e :: es, z, z', h => by
    rw [learnEdges] at h
    obtain ⟨y, h1, h⟩ := Outcome.bind_eq_ok.1 h
    exact (learnEdge_same h1).trans (learnEdges_same es h)

theorem learnLoop_same {preds : S → List (S × ℚ)} : ∀ (fuel : Nat) {z : Tree S O × (S → ℚ) × BinHeap.Heap Nat}
    {r : Tree S O × (S → ℚ)}, learnLoop preds fuel z = .ok r → Same z.1 r.1
  | 0, _, _, h => absurd h (by simp [learnLoop])
  | fuel + 1, z, r, h => by
    rw [learnLoop] at h
    split at h
    · cases h; exact .refl _
    split at h
    · exact absurd h (by simp)
    · obtain ⟨y, h1, h⟩ := Outcome.bind_eq_ok.1 h
      exact Same.trans ⟨rfl, rfl, rfl⟩ ((learnEdges_same _ h1).trans (learnLoop_same fuel h))

theorem learn_same {x : Tree S O} {m : Graph S} {r : Tree S O × Graph S} (h : learn x m = .ok r) : Same x r.1 := by
  unfold learn at h
  obtain ⟨y, h1, h⟩ := Outcome.map_eq_ok.1 h
  subst h
  exact learnLoop_same _ h1

/-! ## The moves -/

/-- The search belongs to an operator of the current state. -/
def RootOk (P : Par S O) (cur : S) (x : Tree S O) : Prop :=
  x.op ∈ P.d.ops cur ∧ P.d.app cur x.op = x.root ∧ x.g0 = P.d.cost cur x.op

omit [DecidableEq S] in
theorem RootOk.same {x y : Tree S O} (h : RootOk P cur x) (h' : Same x y) : RootOk P cur y := by
  obtain ⟨a, b, c⟩ := h
  obtain ⟨d, e, f⟩ := h'
  exact ⟨by rw [e]; exact a, by rw [e, d]; exact b, by rw [f, e]; exact c⟩

omit [DecidableEq S] in
theorem mem_set_same {xs : List (Tree S O)} {j : Nat} {l x : Tree S O} (h : ∀ y ∈ xs, RootOk P cur y) (hj : xs[j]? = some l) (hs : Same l x) :
    ∀ y ∈ xs.set j x, RootOk P cur y := by
  intro y hy
  rcases List.mem_or_eq_of_mem_set hy with hy | rfl
  · exact h y hy
  · exact (h l (List.mem_of_getElem? hj)).same hs

theorem begin_root : ∀ (os : List O) {t t' : Step S O}, (∀ o ∈ os, o ∈ P.d.ops cur) → (∀ x ∈ t.xs, RootOk P cur x) →
    begin P cur os t = .ok t' → ∀ x ∈ t'.xs, RootOk P cur x
  | [], t, t', _, h, e => by cases e; exact h
  | o :: os, t, t', ho, h, e => by
    rw [begin] at e
    dsimp only at e
    split at e
    · exact absurd e (by simp)
    obtain ⟨x, h1, e⟩ := Outcome.bind_eq_ok.1 e
    refine begin_root os (fun o' h' => ho o' (List.mem_cons_of_mem _ h')) ?_ e
    intro y hy
    rcases List.mem_append.1 hy with hy | hy
    · exact h y hy
    · rw [List.mem_singleton.1 hy]
      unfold Tree.make at h1
      dsimp only at h1
      split at h1
      · exact absurd h1 (by simp)
      · cases h1
        exact ⟨ho o List.mem_cons_self, rfl, rfl⟩

theorem grainLoop_root {n : Nat} : ∀ (e i : Nat) {t : Step S O} {r : Step S O × Bool × Nat}, (∀ x ∈ t.xs, RootOk P cur x) →
    grainLoop P cur n e i t = .ok r → ∀ x ∈ r.1.xs, RootOk P cur x
  | 0, _, _, _, h, e => by cases e; exact h
  | k + 1, i, t, r, h, e => by
    rw [grainLoop] at e
    split at e
    · cases e; exact h
    split at e
    · cases e; exact h
    split at e
    · exact absurd e (by simp)
    split at e
    · exact absurd e (by simp)
    rename_i j _ l hl
    split at e
    · cases e; exact h
    obtain ⟨y, h1, e⟩ := Outcome.bind_eq_ok.1 e
    obtain ⟨hq, -, e⟩ := Outcome.bind_eq_ok.1 e
    exact grainLoop_root k (i + 1) (mem_set_same h hl (expand_same h1)) e

theorem grains_root {n : Nat} : ∀ (fuel i : Nat) {t t' : Step S O}, (∀ x ∈ t.xs, RootOk P cur x) →
    grains P cur n fuel i t = .ok t' → ∀ x ∈ t'.xs, RootOk P cur x
  | 0, _, _, _, _, e => absurd e (by simp [grains])
  | fuel + 1, i, t, t', h, e => by
    rw [grains] at e
    obtain ⟨r, h1, e⟩ := Outcome.bind_eq_ok.1 e
    have h' := grainLoop_root _ _ h h1
    split at e
    · cases e; exact h'
    split at e
    · exact absurd e (by simp)
    split at e
    · exact absurd e (by simp)
    split at e
    · cases e; exact h'
    split at e
    · cases e; exact h'
    obtain ⟨k, -, e⟩ := Outcome.bind_eq_ok.1 e
    split at e
    · exact grains_root fuel _ (t := { r.1 with hq := k.2, m := r.1.m.call }) h' e
    · cases e; exact h'

theorem learnAll_root : ∀ (js : List Nat) {t t' : Step S O}, (∀ x ∈ t.xs, RootOk P cur x) → learnAll js t = .ok t' →
    ∀ x ∈ t'.xs, RootOk P cur x
  | [], t, t', h, e => by cases e; exact h
  | j :: js, t, t', h, e => by
    rw [learnAll] at e
    split at e
    · exact absurd e (by simp)
    rename_i l hl
    obtain ⟨r, h1, e⟩ := Outcome.bind_eq_ok.1 e
    exact learnAll_root js (mem_set_same h hl (learn_same h1)) e

theorem learnStep_root {t t' : Step S O} (h : ∀ x ∈ t.xs, RootOk P cur x) (e : learnStep P t = .ok t') : ∀ x ∈ t'.xs, RootOk P cur x := by
  unfold learnStep at e
  split at e
  · obtain ⟨u, h1, e⟩ := Outcome.map_eq_ok.1 e
    subst e
    have := learnAll_root _ h h1
    exact this
  · cases e; exact h

omit [DecidableEq S] in
/-- What `finish` does. -/
theorem finish_ok [DecidableEq S] {t : Step S O} {r : S × O × Graph S} (e : finish P cur t = .ok r) :
    ∃ j l v, BinHeap.front t.hq = some j ∧ t.xs[j]? = some l ∧ (fg l).1 = ((v : ℚ) : WithTop ℚ) ∧
      r = (l.root, l.op, { t.m with h := Function.update t.m.h cur (v * if P.full = true then 1 else 11 / 10) }) := by
  unfold finish at e
  split at e
  · exact absurd e (by simp)
  rename_i j hj
  split at e
  · exact absurd e (by simp)
  rename_i l hl
  split at e
  · exact absurd e (by simp)
  · rename_i v hv
    cases e
    exact ⟨j, l, v, hj, hl, hv, rfl⟩

/-- A step applies an operator of the current state. -/
theorem step_move {fuel n : Nat} {m : Graph S} {r : S × O × Graph S} (e : step P fuel n cur m = .ok r) :
    r.2.1 ∈ P.d.ops cur ∧ P.d.app cur r.2.1 = r.1 := by
  unfold step at e
  obtain ⟨t, h1, e⟩ := Outcome.bind_eq_ok.1 e
  obtain ⟨u, h2, e⟩ := Outcome.bind_eq_ok.1 e
  split at e
  · exact absurd e (by simp)
  obtain ⟨w, h3, e⟩ := Outcome.bind_eq_ok.1 e
  have hw := learnStep_root (grains_root _ _ (begin_root _ (fun _ h => h) (by simp) h1) h2) h3
  obtain ⟨j, l, v, -, hl, -, rfl⟩ := finish_ok e
  obtain ⟨a, b, -⟩ := hw l (List.mem_of_getElem? hl)
  exact ⟨a, b⟩

theorem loop_sound {sf : Nat} {s0 : S} : ∀ (fuel n : Nat) (cur : S) (m : Graph S) (ops : List O) {r : S × Graph S × List O},
    (∃ ss c, Plan P.d s0 ops ss c ∧ (s0 :: ss).getLast? = some cur) → loop P sf fuel n cur m ops = .ok r →
    ∃ ss c, Plan P.d s0 r.2.2 ss c ∧ (s0 :: ss).getLast? = some r.1
  | 0, _, _, _, _, _, _, e => absurd e (by simp [loop])
  | fuel + 1, n, cur, m, ops, r, hp, e => by
    rw [loop] at e
    split at e
    · cases e; exact hp
    split at e
    · cases e; exact hp
    obtain ⟨⟨t, o, m'⟩, h1, e⟩ := Outcome.bind_eq_ok.1 e
    obtain ⟨a, b⟩ := step_move h1
    obtain ⟨ss, c, h2, h3⟩ := hp
    refine loop_sound fuel (n + 1) _ _ _ ⟨ss ++ [t], c + P.d.cost cur o, ?_, ?_⟩ e
    · have := Lss.plan_snoc h2 h3 a
      dsimp only at b
      rw [b] at this
      exact this
    · rw [← List.cons_append, List.getLast?_append]
      rfl

/-! ## The number of expansions -/

theorem relax_nexpd {s : Nat} {o : O} {y y' : Tree S O × Graph S} (e : relax P cur s o y = .ok y') : y'.2.nexpd = y.2.nexpd := by
  unfold relax at e
  dsimp only at e
  split at e
  · cases e; rfl
  split at e
  · exact absurd e (by simp)
  split at e
  · obtain ⟨x, h, e⟩ := Outcome.map_eq_ok.1 e
    subst e
    rfl
  · split at e
    · cases e; rfl
    · obtain ⟨x, h, e⟩ := Outcome.map_eq_ok.1 e
      subst e
      rfl

theorem relaxAll_nexpd {s : Nat} : ∀ (os : List O) {y y' : Tree S O × Graph S}, relaxAll P cur s os y = .ok y' → y'.2.nexpd = y.2.nexpd
  | [], y, y', e => by cases e; rfl
  | o :: os, y, y', e => by
    rw [relaxAll] at e
    obtain ⟨z, h, e⟩ := Outcome.bind_eq_ok.1 e
    rw [relaxAll_nexpd os e, relax_nexpd h]

theorem foldl_succsOp_nexpd (s : S) : ∀ (os : List O) (m : Graph S), (os.foldl (succsOp P s) m).nexpd = m.nexpd
  | [], _ => rfl
  | o :: os, m => by rw [List.foldl_cons, foldl_succsOp_nexpd s os]; rfl

theorem succs_nexpd (s : S) (m : Graph S) : (succs P s m).nexpd ≤ m.nexpd + 1 := by
  unfold succs
  split
  · exact Nat.le_succ _
  · dsimp only
    rw [foldl_succsOp_nexpd]

variable {N : Nat}

omit [DecidableEq S] in
theorem lim_nexpd (hN : ∀ a b c, N ≤ a → P.lim a b c = true) {m : Graph S} (h : ¬ m.lim P = true) : m.nexpd + 1 ≤ N := by
  by_contra hc
  exact h (hN _ _ _ (by omega))

theorem expandLoop_nexpd (hN : ∀ a b c, N ≤ a → P.lim a b c = true) : ∀ (k : Nat) {y y' : Tree S O × Graph S}, y.2.nexpd ≤ N →
    expandLoop P cur k y = .ok y' → y'.2.nexpd ≤ N
  | 0, y, y', h, e => by cases e; exact h
  | k + 1, y, y', h, e => by
    rw [expandLoop] at e
    split at e
    · cases e; exact h
    split at e
    · cases e; exact h
    rename_i hl
    split at e
    · exact absurd e (by simp)
    · dsimp only at e
      split at e
      · split at e
        · cases e; exact h
        · exact absurd e (by simp)
      · obtain ⟨z, h1, e⟩ := Outcome.bind_eq_ok.1 e
        refine expandLoop_nexpd hN k ?_ e
        rw [relaxAll_nexpd _ h1]
        exact (succs_nexpd _ y.2.call).trans (lim_nexpd (m := y.2) hN hl)

theorem grainLoop_nexpd (hN : ∀ a b c, N ≤ a → P.lim a b c = true) {n : Nat} : ∀ (e i : Nat) {t : Step S O} {r : Step S O × Bool × Nat},
    t.m.nexpd ≤ N → grainLoop P cur n e i t = .ok r → r.1.m.nexpd ≤ N
  | 0, _, _, _, h, e => by cases e; exact h
  | k + 1, i, t, r, h, e => by
    rw [grainLoop] at e
    split at e
    · cases e; exact h
    split at e
    · cases e; exact h
    split at e
    · exact absurd e (by simp)
    split at e
    · exact absurd e (by simp)
    split at e
    · cases e; exact h
    obtain ⟨y, h1, e⟩ := Outcome.bind_eq_ok.1 e
    obtain ⟨hq, -, e⟩ := Outcome.bind_eq_ok.1 e
    refine grainLoop_nexpd hN k (i + 1) ?_ e
    unfold expand at h1
    split at h1
    · cases h1; exact h
    · exact expandLoop_nexpd hN 1 h h1

theorem grains_nexpd (hN : ∀ a b c, N ≤ a → P.lim a b c = true) {n : Nat} : ∀ (fuel i : Nat) {t t' : Step S O}, t.m.nexpd ≤ N →
    grains P cur n fuel i t = .ok t' → t'.m.nexpd ≤ N
  | 0, _, _, _, _, e => absurd e (by simp [grains])
  | fuel + 1, i, t, t', h, e => by
    rw [grains] at e
    obtain ⟨r, h1, e⟩ := Outcome.bind_eq_ok.1 e
    have h' := grainLoop_nexpd hN _ _ h h1
    split at e
    · cases e; exact h'
    split at e
    · exact absurd e (by simp)
    split at e
    · exact absurd e (by simp)
    split at e
    · cases e; exact h'
    split at e
    · cases e; exact h'
    obtain ⟨k, -, e⟩ := Outcome.bind_eq_ok.1 e
    split at e
    · exact grains_nexpd hN fuel _ (t := { r.1 with hq := k.2, m := r.1.m.call }) h' e
    · cases e; exact h'

theorem begin_nexpd : ∀ (os : List O) {t t' : Step S O}, begin P cur os t = .ok t' → t'.m.nexpd = t.m.nexpd
  | [], t, t', e => by cases e; rfl
  | o :: os, t, t', e => by
    rw [begin] at e
    dsimp only at e
    split at e
    · exact absurd e (by simp)
    obtain ⟨x, h1, e⟩ := Outcome.bind_eq_ok.1 e
    have := begin_nexpd os e
    exact this

theorem learnAll_nexpd : ∀ (js : List Nat) {t t' : Step S O}, learnAll js t = .ok t' → t'.m.nexpd = t.m.nexpd
  | [], t, t', e => by cases e; rfl
  | j :: js, t, t', e => by
    rw [learnAll] at e
    split at e
    · exact absurd e (by simp)
    obtain ⟨r, h1, e⟩ := Outcome.bind_eq_ok.1 e
    unfold learn at h1
    obtain ⟨u, -, h1⟩ := Outcome.map_eq_ok.1 h1
    subst h1
    have := learnAll_nexpd js e
    exact this

theorem loop_nexpd (hN : ∀ a b c, N ≤ a → P.lim a b c = true) {sf : Nat} : ∀ (fuel n : Nat) (cur : S) (m : Graph S) (ops : List O)
    {r : S × Graph S × List O}, m.nexpd ≤ N → loop P sf fuel n cur m ops = .ok r → r.2.1.nexpd ≤ N
  | 0, _, _, _, _, _, _, e => absurd e (by simp [loop])
  | fuel + 1, n, cur, m, ops, r, h, e => by
    rw [loop] at e
    split at e
    · cases e; exact h
    split at e
    · cases e; exact h
    rename_i hl
    obtain ⟨x, h1, e⟩ := Outcome.bind_eq_ok.1 e
    refine loop_nexpd hN fuel (n + 1) _ _ _ ?_ e
    unfold step at h1
    obtain ⟨t, a1, h1⟩ := Outcome.bind_eq_ok.1 h1
    obtain ⟨u, a2, h1⟩ := Outcome.bind_eq_ok.1 h1
    split at h1
    · exact absurd h1 (by simp)
    obtain ⟨w, a3, h1⟩ := Outcome.bind_eq_ok.1 h1
    obtain ⟨j, l, v, -, -, -, rfl⟩ := finish_ok h1
    have b1 : t.m.nexpd ≤ N := by
      rw [begin_nexpd _ a1]
      exact (succs_nexpd _ m.call).trans (lim_nexpd (m := m) hN hl)
    have b2 := grains_nexpd hN _ _ b1 a2
    show w.m.nexpd ≤ N
    unfold learnStep at a3
    split at a3
    · obtain ⟨w', c1, a3⟩ := Outcome.map_eq_ok.1 a3
      subst a3
      show w'.m.nexpd ≤ N
      rw [learnAll_nexpd _ c1]
      exact b2
    · cases a3
      exact b2

end Verif.Dta
