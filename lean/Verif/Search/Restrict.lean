import Verif.Search.Heuristic

/-!
# Optimality with respect to some of the plans

A\* returns nothing costlier than any plan along which the heuristic never over-estimates, even if it over-estimates
elsewhere.  The plans in question are those of the domain with some operators removed.
-/

namespace Verif.Search

variable {S O C P : Type*}

/-- The domain with only the operators that satisfy `R`. -/
def Dom.restrict (d : Dom S O C) (R : S → O → Bool) : Dom S O C := { d with ops := fun s => (d.ops s).filter (R s) }

theorem Walk.of_restrict [Add C] [Zero C] {d : Dom S O C} {R : S → O → Bool} {s t : S} {c : C}
    (h : Walk (d.restrict R) s t c) : Walk d s t c := by
  induction h with
  | nil => exact .nil _
  | snoc _ ho ih => exact ih.snoc (List.mem_of_mem_filter ho)

theorem Plan.of_restrict [Add C] [Zero C] {d : Dom S O C} {R : S → O → Bool} {s : S} {os : List O} {ss : List S} {c : C}
    (h : Plan (d.restrict R) s os ss c) : Plan d s os ss c := by
  induction h with
  | nil => exact .nil _
  | cons ho _ ih => exact .cons (List.mem_of_mem_filter ho) ih

variable [DecidableEq S] [DecidableEq O] [AddCommGroup C] [LinearOrder C] [IsOrderedAddMonoid C]
  {d : Dom S O C} {s0 : S}

/-- The frontier lemma for walks of the restricted domain: the rest of the walk is one too. -/
theorem frontier_restrict {a : Alg S C P} {st : St S O C P} (hd : DomOk d s0) (h : Inv d a s0 st) (hdd : a.dropdups = false)
    {R : S → O → Bool} {t : S} {c : C} (hw : Walk (d.restrict R) s0 t c) :
    (∃ k, st.closed t = some k ∧ (st.nd k).isopen = false ∧ (st.nd k).g ≤ c) ∨
    (∃ k < st.next, (st.nd k).isopen = true ∧ ∃ c1 c2, (st.nd k).g ≤ c1 ∧ Walk (d.restrict R) (st.nd k).state t c2 ∧
      c1 + c2 = c) := by
  induction hw with
  | nil =>
    have h0 := h.cl1 0 h.pos
    rw [h.root.1] at h0
    by_cases ho : (st.nd 0).isopen = true
    · exact Or.inr ⟨0, h.pos, ho, 0, 0, by rw [h.root.2.2.1], by rw [h.root.1]; exact .nil _, by simp⟩
    · exact Or.inl ⟨0, h0, by simpa using ho, by rw [h.root.2.2.1]⟩
  | @snoc u c o hw ho ih =>
    rcases ih with ⟨k, e1, e2, e3⟩ | ⟨k, e0, e1, c1, c2, e2, e3, e4⟩
    · obtain ⟨hk, hks⟩ := h.cl2 _ _ e1
      obtain ⟨m, f1, f2⟩ := h.succOk hd hk e2 (o := o) (by rw [hks]; exact List.mem_of_mem_filter ho)
      rw [hks] at f1
      have hm := h.cl2 _ _ f1
      have hle : (st.nd m).g ≤ c + d.cost u o := by
        have := f2 hdd
        rw [hks] at this
        exact le_trans this (by gcongr)
      by_cases hopen : (st.nd m).isopen = true
      · exact Or.inr ⟨m, hm.1, hopen, c + d.cost u o, 0, hle, by rw [hm.2]; exact .nil _, by
          show c + d.cost u o + 0 = c + d.cost u o
          simp⟩
      · exact Or.inl ⟨m, f1, by simpa using hopen, hle⟩
    · exact Or.inr ⟨k, e0, e1, c1, c2 + d.cost u o, e2, e3.snoc ho, by
        show c1 + (c2 + d.cost u o) = c + d.cost u o
        rw [← e4, add_assoc]⟩

/-- **C30 (strengthened).** If the heuristic never over-estimates with respect to the walks of the restricted domain, the
path returned by A\* costs no more than any plan of the restricted domain. -/
theorem c30_restrict (hd : DomOk d s0) {R : S → O → Bool} {h : S → C} {k : C}
    (h1 : ∀ t c, Walk d s0 t c → d.goal t = true → k ≤ h t)
    (h2 : ∀ s c0, Walk d s0 s c0 → ∀ t c, Walk (d.restrict R) s t c → d.goal t = true → h s ≤ c + k)
    {l : Limit} {st : St S O C C} {r : List S × List O} (hr : Run d (astar h) s0 l st r) (hne : r ≠ ([], [])) :
    ∃ c, Solution d s0 r c ∧ ∀ ops ss t c', Plan (d.restrict R) s0 ops ss c' → (s0 :: ss).getLast? = some t →
      d.goal t = true → c ≤ c' := by
  cases hr with
  | empty => exact absurd rfl hne
  | cut => exact absurd rfl hne
  | @found n fuel _ tr hlim hl hg hs =>
    have hi := inv_reach hd.cost (astar_ok h) tr.reach
    rw [solpath_pop] at hs
    obtain ⟨ss, c, g2, g3, g4, g5⟩ := solpath_ok hi hl.1 hs
    refine ⟨c, ⟨ss, g2, g3, _, g5, hg⟩, fun ops ss' t c' hp ht htg => g4.trans ?_⟩
    have hw := hp.last_walk ht
    rcases frontier_restrict hd hi rfl hw with ⟨m, e1, e2, -⟩ | ⟨m, e0, e1, c1, c2, e2, e3, e4⟩
    · obtain ⟨k1, k2⟩ := hi.cl2 _ _ e1
      have := hi.ngoal m k1 e2
      rw [k2, htg] at this
      exact absurd this (by simp)
    · have hp := hl.2.2 m e0 e1
      have hle : (st.nd n).p ≤ (st.nd m).p := by
        by_contra hc
        rw [not_le] at hc
        simp only [astar] at hp
        rw [if_neg (ne_of_lt hc), decide_eq_false_iff_not] at hp
        exact hp hc
      rw [hi.prio n hl.1, hi.prio m e0] at hle
      have hle' : (st.nd n).g + h (st.nd n).state ≤ (st.nd m).g + h (st.nd m).state := hle
      have k1 := h1 _ _ (hi.walk n hl.1) hg
      have k2 := h2 _ _ (hi.walk m e0) _ _ e3 htg
      have h3 : (st.nd n).g + k ≤ c' + k := by
        calc (st.nd n).g + k ≤ (st.nd n).g + h (st.nd n).state := by gcongr
          _ ≤ (st.nd m).g + h (st.nd m).state := hle'
          _ ≤ c1 + (c2 + k) := by gcongr
          _ = c' + k := by rw [← e4, add_assoc]
      exact le_of_add_le_add_right h3

end Verif.Search
