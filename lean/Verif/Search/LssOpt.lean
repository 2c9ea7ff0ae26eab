import Verif.Search.LssRun

/-!
# LSS-LRTA* with a lookahead that covers the state space

The first local search is A*, and its goal is reached by a cheapest path.
-/

namespace Verif.Lss

open Verif.Search

variable {S O C : Type*} [DecidableEq S] [AddCommGroup C] [LinearOrder C] [IsOrderedAddMonoid C]
variable {P : Par S O C} {r : S} {T : S → Prop}

/-- A state that can be reached is closed, or lies behind a node of the open list. -/
theorem Full.cover {h : S → C} (hT : ∀ t c, Walk P.d r t c → T t) (hc : Consis P.d T h) {x : L S O C} (hx : Full P r h x)
    {t : S} {c : C} (hw : Walk P.d r t c) : (∃ i < x.next, (x.nd i).closed = true ∧ (x.nd i).st = t ∧ (x.nd i).g ≤ c) ∨
      ∃ j ∈ x.q.data, (x.nd j).f ≤ c + h t := by
  have key : ∀ j < x.next, ∀ (t : S) (c : C), (x.nd j).st = t → (x.nd j).g ≤ c →
      (∃ i < x.next, (x.nd i).closed = true ∧ (x.nd i).st = t ∧ (x.nd i).g ≤ c) ∨ ∃ j ∈ x.q.data, (x.nd j).f ≤ c + h t := by
    intro j hj t c e hg
    cases hcl : (x.nd j).closed with
    | true => exact Or.inl ⟨j, hj, hcl, e, hg⟩
    | false =>
      refine Or.inr ⟨j, (hx.core.stat j hj).2 hcl, ?_⟩
      rw [hx.core.fval j hj, e]
      gcongr
  induction hw with
  | nil => exact key 0 hx.core.inv.tree.pos _ _ hx.core.inv.tree.root.1 hx.core.inv.tree.root.2.2.le
  | @snoc t c o hw ho ih =>
    rcases ih with ⟨i, hi, hcl, rfl, hg⟩ | ⟨j, hj, hle⟩
    · obtain ⟨j, h1, h2, h3⟩ := hx.relaxed i hi hcl o ho
      exact key j h1 _ _ h2 (h3.trans (by gcongr))
    · refine Or.inr ⟨j, hj, hle.trans ?_⟩
      rw [add_assoc]
      have := hc t (hT t c hw) o ho
      gcongr

theorem opt_lssLoop (hb : ∀ s, P.bonus s = 0) (hd : CostOk P.d r) {h : S → C} (hT : ∀ t c, Walk P.d r t c → T t) (hc : Consis P.d T h)
    (hlim : ∀ a b c, P.lim a b c = false) {F : Finset S} (hF : ∀ t c, Walk P.d r t c → t ∈ F) {t0 : S} {c0 : C}
    (hw0 : Walk P.d r t0 c0) (ht0 : P.d.goal t0 = true) :
    ∀ (k : Nat) {x : L S O C}, Full P r h x → (∀ i < x.next, (x.nd i).closed = true → P.d.goal (x.nd i).st = false) →
    F.card ≤ k + (closeds x).card → ∃ y s, lssLoop P k x = .ok y ∧ y.goal = some s ∧
      ∀ t c, Walk P.d r t c → P.d.goal t = true → (y.nd s).g + h (y.nd s).st ≤ c + h t
  | 0, x, hx, hng, hcard => by
    exfalso
    have hsub : (closeds x).image (fun i => (x.nd i).st) ⊆ F := by
      intro t ht
      obtain ⟨i, hi, rfl⟩ := Finset.mem_image.1 ht
      exact hF _ _ (hx.core.inv.tree.walk i (mem_closeds.1 hi).1)
    have hinj : Set.InjOn (fun i => (x.nd i).st) (closeds x) := by
      intro i hi j hj e
      have h1 := hx.core.inv.tab1 i (mem_closeds.1 hi).1
      have h2 := hx.core.inv.tab1 j (mem_closeds.1 hj).1
      dsimp only at e
      rw [e, h2] at h1
      exact (Option.some.inj h1).symm
    have heq := Finset.eq_of_subset_of_card_le hsub (by rw [Finset.card_image_of_injOn hinj]; omega)
    have hmem := hF _ _ hw0
    rw [← heq] at hmem
    obtain ⟨i, hi, rfl⟩ := Finset.mem_image.1 hmem
    rw [hng i (mem_closeds.1 hi).1 (mem_closeds.1 hi).2] at ht0
    exact absurd ht0 (by simp)
  | k + 1, x, hx, hng, hcard => by
    have hcov : ∀ t c, Walk P.d r t c → P.d.goal t = true → ∃ j ∈ x.q.data, (x.nd j).f ≤ c + h t := by
      intro t c hw ht
      rcases hx.cover hT hc hw with ⟨i, hi, hcl, rfl, -⟩ | h
      · rw [hng i hi hcl] at ht
        exact absurd ht (by simp)
      · exact h
    obtain ⟨j0, hj0, -⟩ := hcov t0 c0 hw0 ht0
    have hne : x.q.data ≠ [] := List.ne_nil_of_mem hj0
    rw [lssLoop, if_neg (by simpa using hne), if_neg (by unfold Mem.lim; rw [hlim]; simp)]
    obtain ⟨s, q, y, h1, hs, hsq, h2, h3, h4, h5, h6, h7, h8⟩ := hx.expand hb hd hT hc hne
    rw [h1]
    dsimp only
    rw [h2, Outcome.bind_ok]
    by_cases hg : P.d.goal (y.nd s).st = true
    · rw [if_pos hg]
      refine ⟨_, s, rfl, rfl, fun t c hw ht => ?_⟩
      show (y.nd s).g + h (y.nd s).st ≤ _
      obtain ⟨j, k1, k2⟩ := hcov t c hw ht
      rw [h6 s hs (Or.inr rfl), (h5 s hs).1, ← hx.core.fval s hs]
      exact (h8 j k1).trans k2
    · rw [if_neg hg]
      refine opt_lssLoop hb hd hT hc hlim hF hw0 ht0 k h3 ?_ ?_
      · intro i hi hcl
        have hix := h7 i hi hcl
        rcases (h5 i hix).2.1 hcl with hc' | rfl
        · rw [(h5 i hix).1]; exact hng i hix hc'
        · simpa using hg
      · have hins : insert s (closeds x) ⊆ closeds y := by
          intro i hi
          rcases Finset.mem_insert.1 hi with rfl | hi
          · exact mem_closeds.2 ⟨lt_of_lt_of_le hs h4, (h5 i hs).2.2 (Or.inr rfl)⟩
          · obtain ⟨a, b⟩ := mem_closeds.1 hi
            exact mem_closeds.2 ⟨lt_of_lt_of_le a h4, (h5 i a).2.2 (Or.inl b)⟩
        have hnot : s ∉ closeds x := by
          rw [mem_closeds, (hx.core.stat s hs).1 hsq]
          simp
        have := Finset.card_le_card hins
        rw [Finset.card_insert_of_notMem hnot] at this
        omega

/-- The steps to a goal that was found cost no more than its node says. -/
theorem move_cost {x : L S O C} (h : Inv P r x) (hos : P.onestep = false) {b : Nat} (hb : x.goal = some b) {t : S} {os : List O}
    (e : move P x r = .ok (t, os)) : t = (x.nd b).st ∧
      ∃ ss c, Plan P.d r os ss c ∧ (r :: ss).getLast? = some t ∧ c ≤ (x.nd b).g := by
  have hbest : bestNode P x r = .ok (some b) := by unfold bestNode; rw [hb]
  unfold move at e
  rw [hbest, Outcome.bind_ok] at e
  dsimp only at e
  split at e
  · exact absurd e (by simp)
  obtain ⟨ns, hns, e⟩ := Outcome.bind_eq_ok.1 e
  obtain ⟨-, -, -, c, f4, f5, f6⟩ := follow_spec h _ b (h.goal b hb).1 hns
  cases hl : ns.getLast? with
  | none => rw [hl] at e; exact absurd e (by simp)
  | some q =>
    rw [hl] at e
    dsimp only at e
    rw [if_neg (by rw [hos]; simp)] at e
    injection e with e
    rw [Prod.mk.injEq] at e
    obtain ⟨rfl, rfl⟩ := e
    exact ⟨rfl, _, c, f4, f6, f5⟩

/-- The first iteration finds a cheapest path. -/
theorem iter_opt {s0 : S} (hb : ∀ s, P.bonus s = 0) (hd : CostOk P.d s0) (hc : Consis P.d (Reach P.d s0) P.h) (hlim : ∀ a b c, P.lim a b c = false)
    (hos : P.onestep = false) {F : Finset S} (hF : ∀ t c, Walk P.d s0 t c → t ∈ F) (hk : F.card ≤ P.look 0) {t0 : S} {c0 : C}
    (hw0 : Walk P.d s0 t0 c0) (ht0 : P.d.goal t0 = true) (hng : P.d.goal s0 = false) {m : Mem S C} (hm : MemOk P m) (hh : m.h = P.h) :
    ∃ t m' os ss c, iter P 0 s0 m = .ok (t, m', some os) ∧ P.d.goal t = true ∧ Plan P.d s0 os ss c ∧
      (s0 :: ss).getLast? = some t ∧ ∀ t' c', Walk P.d s0 t' c' → P.d.goal t' = true → c + P.h t ≤ c' + P.h t' := by
  have hT : ∀ t c, Walk P.d s0 t c → Reach P.d s0 t := fun t c hw => ⟨c, hw⟩
  obtain ⟨x, b, h1, h2, h3⟩ := opt_lssLoop hb hd hT hc hlim hF hw0 ht0 (P.look 0) (full_init (P := P) hm hh hng)
    (fun i _ hcl => absurd hcl (by simp [lssInit])) (by omega)
  have h1 : expandLss P 0 s0 m = .ok x := h1
  have hinv := inv_expandLss hd h1
  obtain ⟨g1, g2⟩ := hinv.goal b h2
  have hne : (x.nd b).st ≠ s0 := by
    intro e
    rw [e, hng] at g2
    exact absurd g2 (by simp)
  obtain ⟨t, os, k1, -⟩ := move_ok hinv (by unfold bestNode; rw [h2]) g1 hne
  obtain ⟨rfl, ss, c, p1, p2, p3⟩ := move_cost hinv hos h2 k1
  refine ⟨(x.nd b).st, { x.m.call with h := x.m.h }, os, ss, c, ?_, g2, p1, p2, fun t' c' hw' ht' => le_trans ?_ (h3 t' c' hw' ht')⟩
  · unfold iter
    rw [h1, Outcome.bind_ok, if_neg (by unfold Mem.lim; rw [hlim]; simp), if_neg (by rw [h2]; simp), Outcome.bind_ok, k1,
      Outcome.map_ok]
  · gcongr

end Verif.Lss
