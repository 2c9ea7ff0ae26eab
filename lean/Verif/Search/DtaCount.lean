import Verif.Search.DtaThms
import Mathlib.Algebra.BigOperators.Group.List.Basic

/-!
# DTA*: what is counted
-/

namespace Verif.Dta

open Search

variable {S O : Type*} [DecidableEq S] {P : Par S O} {cur : S}

/-- The statistics, and which states have been expanded. -/
def stat (m : Graph S) : Nat × Nat × (S → Bool) := (m.nexpd, m.gend, m.expd)

/-- Every state that has been expanded is counted once, and so are its operators. -/
def Cnt (P : Par S O) (m : Graph S) : Prop :=
  ∃ L : List S, L.Nodup ∧ L.length = m.nexpd ∧ (L.map fun s => (P.d.ops s).length).sum = m.gend ∧ ∀ s, m.expd s = true ↔ s ∈ L

omit [DecidableEq S] in
theorem Cnt.congr {m m' : Graph S} (h : Cnt P m) (e : stat m' = stat m) : Cnt P m' := by
  obtain ⟨e1, e2, e3⟩ : m'.nexpd = m.nexpd ∧ m'.gend = m.gend ∧ m'.expd = m.expd := by
    simpa [stat] using e
  obtain ⟨L, h1, h2, h3, h4⟩ := h
  exact ⟨L, h1, by rw [e1, h2], by rw [e2, h3], by rw [e3]; exact h4⟩

theorem foldl_succsOp_stat (s : S) : ∀ (os : List O) (m : Graph S),
    stat (os.foldl (succsOp P s) m) = (m.nexpd, m.gend + os.length, m.expd)
  | [], _ => rfl
  | o :: os, m => by
    rw [List.foldl_cons, foldl_succsOp_stat s os]
    simp only [succsOp, List.length_cons, Prod.mk.injEq, true_and, and_true]
    omega

theorem succs_cnt {s : S} {m : Graph S} (h : Cnt P m) : Cnt P (succs P s m) := by
  unfold succs
  by_cases hs : m.expd s = true
  · rw [if_pos hs]; exact h
  · rw [if_neg hs]
    obtain ⟨L, h1, h2, h3, h4⟩ := h
    have e := foldl_succsOp_stat (P := P) s (P.d.ops s) { m with nexpd := m.nexpd + 1 }
    obtain ⟨e1, e2, e3⟩ : _ ∧ _ ∧ _ := by simpa only [stat, Prod.mk.injEq] using e
    refine ⟨s :: L, List.nodup_cons.2 ⟨fun hm => hs ((h4 s).2 hm), h1⟩, ?_, ?_, fun u => ?_⟩
    · dsimp only; rw [e1, List.length_cons, h2]
    · dsimp only; rw [e2, List.map_cons, List.sum_cons, h3, Nat.add_comm]
    · dsimp only
      rw [e3]
      by_cases hu : u = s
      · subst hu; simp
      · rw [Function.update_of_ne hu, h4 u]; simp [hu]

theorem relax_stat {s : Nat} {o : O} {y y' : Tree S O × Graph S} (e : relax P cur s o y = .ok y') : stat y'.2 = stat y.2 := by
  unfold relax at e
  dsimp only at e
  split at e
  · cases e; rfl
  split at e
  · exact absurd e (by simp)
  split at e
  · obtain ⟨x, h, e⟩ := Outcome.map_eq_ok.1 e
    subst e
    rfl
  · split at e
    · cases e; rfl
    · obtain ⟨x, h, e⟩ := Outcome.map_eq_ok.1 e
      subst e
      rfl

theorem relaxAll_stat {s : Nat} : ∀ (os : List O) {y y' : Tree S O × Graph S}, relaxAll P cur s os y = .ok y' → stat y'.2 = stat y.2
  | [], y, y', e => by cases e; rfl
  | o :: os, y, y', e => by
    rw [relaxAll] at e
    obtain ⟨z, h, e⟩ := Outcome.bind_eq_ok.1 e
    rw [relaxAll_stat os e, relax_stat h]

theorem begin_stat : ∀ (os : List O) {t t' : Step S O}, begin P cur os t = .ok t' → stat t'.m = stat t.m
  | [], t, t', e => by cases e; rfl
  | o :: os, t, t', e => by
    rw [begin] at e
    dsimp only at e
    split at e
    · exact absurd e (by simp)
    obtain ⟨x, h1, e⟩ := Outcome.bind_eq_ok.1 e
    have := begin_stat os e
    exact this

theorem learnAll_stat : ∀ (js : List Nat) {t t' : Step S O}, learnAll js t = .ok t' → stat t'.m = stat t.m
  | [], t, t', e => by cases e; rfl
  | j :: js, t, t', e => by
    rw [learnAll] at e
    split at e
    · exact absurd e (by simp)
    obtain ⟨r, h1, e⟩ := Outcome.bind_eq_ok.1 e
    unfold learn at h1
    obtain ⟨u, -, h1⟩ := Outcome.map_eq_ok.1 h1
    subst h1
    have := learnAll_stat js e
    exact this

theorem expandLoop_cnt : ∀ (k : Nat) {y y' : Tree S O × Graph S}, Cnt P y.2 →
    expandLoop P cur k y = .ok y' → Cnt P y'.2
  | 0, y, y', h, e => by cases e; exact h.congr rfl
  | k + 1, y, y', h, e => by
    rw [expandLoop] at e
    split at e
    · cases e; exact h.congr rfl
    split at e
    · cases e; exact h.congr rfl
    split at e
    · exact absurd e (by simp)
    · dsimp only at e
      split at e
      · split at e
        · cases e; exact h.congr rfl
        · exact absurd e (by simp)
      · obtain ⟨z, h1, e⟩ := Outcome.bind_eq_ok.1 e
        refine expandLoop_cnt k ?_ e
        have h0 : Cnt P y.2.call := h.congr rfl
        have h2 := relaxAll_stat _ h1
        exact (succs_cnt h0).congr h2

theorem grainLoop_cnt {n : Nat} : ∀ (e i : Nat) {t : Step S O} {r : Step S O × Bool × Nat},
    Cnt P t.m → grainLoop P cur n e i t = .ok r → Cnt P r.1.m
  | 0, _, _, _, h, e => by cases e; exact h.congr rfl
  | k + 1, i, t, r, h, e => by
    rw [grainLoop] at e
    split at e
    · cases e; exact h.congr rfl
    split at e
    · cases e; exact h.congr rfl
    split at e
    · exact absurd e (by simp)
    split at e
    · exact absurd e (by simp)
    split at e
    · cases e; exact h.congr rfl
    obtain ⟨y, h1, e⟩ := Outcome.bind_eq_ok.1 e
    obtain ⟨hq, -, e⟩ := Outcome.bind_eq_ok.1 e
    refine grainLoop_cnt k (i + 1) ?_ e
    unfold expand at h1
    split at h1
    · cases h1; exact h.congr rfl
    · exact expandLoop_cnt 1 (h.congr rfl) h1

theorem grains_cnt {n : Nat} : ∀ (fuel i : Nat) {t t' : Step S O}, Cnt P t.m →
    grains P cur n fuel i t = .ok t' → Cnt P t'.m
  | 0, _, _, _, _, e => absurd e (by simp [grains])
  | fuel + 1, i, t, t', h, e => by
    rw [grains] at e
    obtain ⟨r, h1, e⟩ := Outcome.bind_eq_ok.1 e
    have h' := grainLoop_cnt _ _ h h1
    split at e
    · cases e; exact h'.congr rfl
    split at e
    · exact absurd e (by simp)
    split at e
    · exact absurd e (by simp)
    split at e
    · cases e; exact h'.congr rfl
    split at e
    · cases e; exact h'.congr rfl
    obtain ⟨k, -, e⟩ := Outcome.bind_eq_ok.1 e
    split at e
    · exact grains_cnt fuel _ (t := { r.1 with hq := k.2, m := r.1.m.call }) (h'.congr rfl) e
    · cases e; exact h'.congr rfl

theorem loop_cnt {sf : Nat} : ∀ (fuel n : Nat) (cur : S) (m : Graph S) (ops : List O)
    {r : S × Graph S × List O}, Cnt P m → loop P sf fuel n cur m ops = .ok r → Cnt P r.2.1
  | 0, _, _, _, _, _, _, e => absurd e (by simp [loop])
  | fuel + 1, n, cur, m, ops, r, h, e => by
    rw [loop] at e
    split at e
    · cases e; exact h.congr rfl
    split at e
    · cases e; exact h.congr rfl
    obtain ⟨x, h1, e⟩ := Outcome.bind_eq_ok.1 e
    refine loop_cnt fuel (n + 1) _ _ _ ?_ e
    unfold step at h1
    obtain ⟨t, a1, h1⟩ := Outcome.bind_eq_ok.1 h1
    obtain ⟨u, a2, h1⟩ := Outcome.bind_eq_ok.1 h1
    split at h1
    · exact absurd h1 (by simp)
    obtain ⟨w, a3, h1⟩ := Outcome.bind_eq_ok.1 h1
    obtain ⟨j, l, v, -, -, -, rfl⟩ := finish_ok h1
    have b1 : Cnt P t.m := by
      have h0 : Cnt P m.call := h.congr rfl
      have h2 := begin_stat _ a1
      exact (succs_cnt h0).congr h2
    have b2 := grains_cnt _ _ b1 a2
    suffices hw : Cnt P w.m from hw.congr rfl
    unfold learnStep at a3
    split at a3
    · obtain ⟨w', c1, a3⟩ := Outcome.map_eq_ok.1 a3
      subst a3
      have h2 := learnAll_stat _ c1
      exact (b2.congr h2).congr rfl
    · cases a3
      exact b2

end Verif.Dta
