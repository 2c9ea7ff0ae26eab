import Verif.Search.LssStrong

/-!
# The learning step of LSS-LRTA* (`hCostLearning`)

After a local search without a closed node in the open list, every closed state gets the least weighted cost of leaving
the closed states plus the heuristic value of the state where they are left.
-/

namespace Verif.Lss

open Verif.Search

variable {S O C : Type*} [DecidableEq S] [AddCommGroup C] [LinearOrder C]

/-- The states of the closed nodes. -/
def Interior (x : L S O C) (s : S) : Prop := ∃ i < x.next, (x.nd i).closed = true ∧ (x.nd i).st = s

/-- `Exit d wt X s t c`: one can walk from `s` through states of `X` to `t`, which is the first state outside `X`, with
weighted cost `c`. -/
inductive Exit (d : Dom S O C) (wt : C → C) (X : S → Prop) : S → S → C → Prop
  | out {s : S} {o : O} : X s → o ∈ d.ops s → ¬ X (d.app s o) → Exit d wt X s (d.app s o) (wt (d.cost s o))
  | step {s t : S} {o : O} {c : C} : X s → o ∈ d.ops s → X (d.app s o) → Exit d wt X (d.app s o) t c →
      Exit d wt X s t (wt (d.cost s o) + c)

/-- What learning needs of a local search. -/
structure Facts (P : Par S O C) (x : L S O C) : Prop where
  tab1 : ∀ i < x.next, x.tab (x.nd i).st = some i
  tab2 : ∀ s i, x.tab s = some i → i < x.next ∧ (x.nd i).st = s
  sub : ∀ i ∈ x.q.data, i < x.next
  exact : BinHeap.IndExact x.q
  absent : ∀ i, i ∉ x.q.data → x.q.ind i = -1
  stat : ∀ i < x.next, i ∈ x.q.data ↔ (x.nd i).closed = false
  ncl : x.nclosed = (closeds x).card
  pred1 : ∀ i < x.next, (x.nd i).closed = true → ∀ o ∈ P.d.ops (x.nd i).st,
    ((x.nd i).st, P.d.cost (x.nd i).st o) ∈ x.m.preds (P.d.app (x.nd i).st o)
  pred2 : ∀ k s c, (s, c) ∈ x.m.preds k → ∃ o ∈ P.d.ops s, P.d.app s o = k ∧ P.d.cost s o = c
  known : ∀ i < x.next, (x.nd i).closed = true → ∀ o ∈ P.d.ops (x.nd i).st, ∃ j < x.next, (x.nd j).st = P.d.app (x.nd i).st o
  wt : ∀ i < x.next, (x.nd i).closed = true → ∀ o ∈ P.d.ops (x.nd i).st, 0 ≤ P.wt (P.d.cost (x.nd i).st o)

/-- Node `i` has its final value. -/
def Done (x : L S O C) (y : Learn S C) (i : Nat) : Prop :=
  i < x.next ∧ i ∉ y.q.data ∧ ((x.nd i).closed = false ∨ y.upd i = true)

/-- The edge `e` into node `i` has been used. -/
def Backed (P : Par S O C) (x : L S O C) (y : Learn S C) (i : Nat) (e : S × C) : Prop :=
  ∀ sp, x.tab e.1 = some sp → (x.nd sp).closed = true → y.upd sp = true ∧ y.h e.1 ≤ P.wt e.2 + y.h (x.nd i).st

/-- The closed nodes without their final value. -/
def undone (x : L S O C) (y : Learn S C) : Finset Nat :=
  (closeds x).filter fun i => i ∈ y.q.data ∨ y.upd i = false

/-- The invariant; `pend` are the edges that are not yet used although their target has its final value. -/
structure LI (P : Par S O C) (x : L S O C) (y : Learn S C) (pend : Nat → S × C → Prop) : Prop where
  rep : HeapRep hlt (fun n => y.h (x.nd n).st) y.q y.q.data.toFinset
  sub : ∀ i ∈ y.q.data, i < x.next
  frame : ∀ t, ¬ Interior x t → y.h t = x.m.h t
  nupd : ∀ i < x.next, (x.nd i).closed = true → y.upd i = false → i ∉ y.q.data ∧ y.h (x.nd i).st = x.m.h (x.nd i).st
  real : ∀ i < x.next, (x.nd i).closed = true → y.upd i = true →
    ∃ t c, Exit P.d P.wt (Interior x) (x.nd i).st t c ∧ y.h (x.nd i).st = c + x.m.h t
  edge : ∀ i, Done x y i → ∀ e ∈ x.m.preds (x.nd i).st, ¬ pend i e → Backed P x y i e
  order : ∀ i, Done x y i → ∀ j ∈ y.q.data, y.h (x.nd i).st ≤ y.h (x.nd j).st
  ncl : y.nclosed = (undone x y).card
  updated : ∀ t, t ∈ y.updated ↔ ∃ i < x.next, (x.nd i).closed = true ∧ y.upd i = true ∧ (x.nd i).st = t

variable {P : Par S O C} {x : L S O C}

omit [DecidableEq S] [AddCommGroup C] [LinearOrder C] in
theorem interior_node (htab1 : ∀ i < x.next, x.tab (x.nd i).st = some i) {i : Nat} (hi : i < x.next) :
    Interior x (x.nd i).st ↔ (x.nd i).closed = true := by
  constructor
  · rintro ⟨j, hj, hc, e⟩
    have h1 := htab1 i hi
    have h2 := htab1 j hj
    rw [e, h1] at h2
    injection h2 with h2
    rw [h2]; exact hc
  · exact fun h => ⟨i, hi, h, rfl⟩

theorem Facts.inj (hf : Facts P x) {i j : Nat} (hi : i < x.next) (hj : j < x.next) (e : (x.nd i).st = (x.nd j).st) : i = j := by
  have h1 := hf.tab1 i hi
  have h2 := hf.tab1 j hj
  rw [e, h2] at h1
  exact (Option.some.inj h1).symm

theorem li_init (hf : Facts P x) : LI P x (learnInit x) fun _ _ => False := by
  have hperm : (learnInit x).q.data.Perm x.q.data := by
    have := BinHeap.reinit_perm (BinHeap.predOf hlt fun n => x.m.h (x.nd n).st) ⟨[] ++ x.q.data, x.q.ind⟩
    exact this
  have hmem : ∀ i, i ∈ (learnInit x).q.data ↔ i ∈ x.q.data := fun i => hperm.mem_iff
  have hnd : x.q.data.Nodup := BinHeap.indExact_nodup hf.exact
  have hdone : ∀ i, ¬ Done x (learnInit x) i := by
    rintro i ⟨h1, h2, h3 | h3⟩
    · exact h2 ((hmem i).2 ((hf.stat i h1).2 h3))
    · exact absurd h3 (by simp [learnInit])
  refine ⟨⟨⟨?_, ?_⟩, rfl, ?_⟩, ?_, ?_, ?_, ?_, ?_, ?_, ?_, ?_⟩
  · exact BinHeap.reinit_ordered (BinHeap.strictWeak_predOf hlt_strictWeak _) _
  · exact BinHeap.reinit_indExact _ _ (by simpa using hnd)
  · intro n hn
    have hn' : n ∉ x.q.data := fun hc => hn ((hmem n).2 hc)
    have := BinHeap.reinit_frame (BinHeap.predOf hlt fun n => x.m.h (x.nd n).st) ⟨[] ++ x.q.data, x.q.ind⟩ n (by simpa using hn')
    exact this.trans (hf.absent n hn')
  · exact fun i hi => hf.sub i ((hmem i).1 hi)
  · exact fun _ _ => rfl
  · intro i hi hc _
    refine ⟨fun hq => ?_, rfl⟩
    rw [(hf.stat i hi).1 ((hmem i).1 hq)] at hc
    exact absurd hc (by simp)
  · intro i _ _ hu
    exact absurd hu (by simp [learnInit])
  · exact fun i hi => absurd hi (hdone i)
  · exact fun i hi => absurd hi (hdone i)
  · show x.nclosed = _
    rw [hf.ncl]
    congr 1
    unfold undone
    rw [Finset.filter_true_of_mem]
    exact fun i _ => Or.inr rfl
  · intro t
    constructor
    · intro h; exact absurd h (by simp [learnInit])
    · rintro ⟨i, -, -, h, -⟩; exact absurd h (by simp [learnInit])

/-- The nodes with final values. -/
structure After (x : L S O C) (y y' : Learn S C) (s : Nat) : Prop where
  done : ∀ i, Done x y i → Done x y' i
  low : ∀ i, Done x y' i → y'.h (x.nd i).st ≤ y'.h (x.nd s).st
  self : Done x y' s

variable [IsOrderedAddMonoid C]

theorem li_edge (hf : Facts P x) {y : Learn S C} {pend : Nat → S × C → Prop} (hy : LI P x y pend) {s : Nat}
    (hs : Done x y s) (hlow : ∀ i, Done x y i → y.h (x.nd i).st ≤ y.h (x.nd s).st) {e : S × C}
    (he : e ∈ x.m.preds (x.nd s).st) :
    ∃ y', learnEdge P x s e y = .ok y' ∧ LI P x y' (fun i e' => pend i e' ∧ ¬ (i = s ∧ e' = e)) ∧ After x y y' s := by
  obtain ⟨o, ho, happ, hcost⟩ := hf.pred2 _ e.1 e.2 he
  unfold learnEdge
  cases ht : x.tab e.1 with
  | none =>
    refine ⟨y, rfl, ⟨hy.rep, hy.sub, hy.frame, hy.nupd, hy.real, ?_, hy.order, hy.ncl, hy.updated⟩, fun _ h => h, hlow, hs⟩
    intro i hi e' he' hp
    by_cases hc : i = s ∧ e' = e
    · obtain ⟨rfl, rfl⟩ := hc
      intro sp hsp
      rw [ht] at hsp
      exact absurd hsp (by simp)
    · exact hy.edge i hi e' he' fun hpe => hp ⟨hpe, hc⟩
  | some sp =>
    obtain ⟨hsp, hst⟩ := hf.tab2 _ _ ht
    dsimp only
    by_cases hcl : (x.nd sp).closed = false
    · rw [if_pos hcl]
      refine ⟨y, rfl, ⟨hy.rep, hy.sub, hy.frame, hy.nupd, hy.real, ?_, hy.order, hy.ncl, hy.updated⟩, fun _ h => h, hlow, hs⟩
      intro i hi e' he' hp
      by_cases hc : i = s ∧ e' = e
      · obtain ⟨rfl, rfl⟩ := hc
        intro sp' hsp' hcl'
        rw [ht] at hsp'
        injection hsp' with hsp'
        rw [← hsp', hcl] at hcl'
        exact absurd hcl' (by simp)
      · exact hy.edge i hi e' he' fun hpe => hp ⟨hpe, hc⟩
    · rw [if_neg hcl]
      have hcl : (x.nd sp).closed = true := by simpa using hcl
      have hwt : 0 ≤ P.wt e.2 := by
        have := hf.wt sp hsp hcl o (by rw [hst]; exact ho)
        rwa [hst, hcost] at this
      by_cases hcond : y.upd sp = false ∨ P.wt e.2 + y.h (x.nd s).st < y.h e.1
      swap
      · rw [if_neg hcond]
        push Not at hcond
        have hu : y.upd sp = true := by simpa using hcond.1
        refine ⟨y, rfl, ⟨hy.rep, hy.sub, hy.frame, hy.nupd, hy.real, ?_, hy.order, hy.ncl, hy.updated⟩, fun _ h => h, hlow, hs⟩
        intro i hi e' he' hp
        by_cases hc : i = s ∧ e' = e
        · obtain ⟨rfl, rfl⟩ := hc
          intro sp' hsp' _
          rw [ht] at hsp'
          injection hsp' with hsp'
          rw [← hsp']
          exact ⟨hu, hcond.2⟩
        · exact hy.edge i hi e' he' fun hpe => hp ⟨hpe, hc⟩
      · rw [if_pos hcond]
        have hnd : ¬ Done x y sp := by
          rintro hd
          rcases hcond with h | h
          · rcases hd.2.2 with h' | h'
            · rw [h'] at hcl; exact absurd hcl (by simp)
            · rw [h'] at h; exact absurd h (by simp)
          · have h1 := hlow sp hd
            rw [hst] at h1
            exact absurd h (not_lt.2 (h1.trans (le_add_of_nonneg_left hwt)))
        have hsne : s ≠ sp := by rintro rfl; exact hnd hs
        set b := P.wt e.2 + y.h (x.nd s).st with hb
        set h' : S → C := Function.update y.h e.1 b with hh'
        have hself : h' (x.nd sp).st = b := by rw [hst, hh', Function.update_self]
        have hother : ∀ i < x.next, i ≠ sp → h' (x.nd i).st = y.h (x.nd i).st := fun i hi hne => by
          rw [hh', Function.update_of_ne]
          rw [← hst]
          exact fun h => hne (hf.inj hi hsp h)
        obtain ⟨q, hq, hrep⟩ := pushupd_rep hlt_strictWeak (key' := fun n => h' (x.nd n).st) (n := sp) hy.rep
          (fun m hm hne => hother m (hy.sub m (List.mem_toFinset.1 hm)) hne)
        have hqm : ∀ i, i ∈ q.data ↔ i = sp ∨ i ∈ y.q.data := fun i => by
          rw [hrep.mem, Finset.mem_insert, List.mem_toFinset]
        rw [hq, Outcome.map_ok]
        refine ⟨_, rfl, ?_⟩
        set y' : Learn S C := { y with
            h := h', q := q, upd := Function.update y.upd sp true
            updated := if y.upd sp = false then y.updated ++ [e.1] else y.updated } with hy'
        have hus : y'.upd sp = true := Function.update_self _ _ _
        have huo : ∀ i, i ≠ sp → y'.upd i = y.upd i := fun i hi => Function.update_of_ne hi _ _
        have hdiff : ∀ i, Done x y' i → i ≠ sp := by
          rintro i hi rfl
          exact hi.2.1 ((hqm i).2 (Or.inl rfl))
        have hdone : ∀ i, Done x y' i ↔ Done x y i := by
          intro i
          constructor
          · intro hi
            have hne := hdiff i hi
            obtain ⟨a1, a2, a3⟩ := hi
            refine ⟨a1, fun hc => a2 ((hqm i).2 (Or.inr hc)), ?_⟩
            rw [huo i hne] at a3
            exact a3
          · intro hi
            have hne : i ≠ sp := by rintro rfl; exact hnd hi
            refine ⟨hi.1, ?_, ?_⟩
            · intro hc
              rcases (hqm i).1 hc with h | h
              · exact hne h
              · exact hi.2.1 h
            · rw [huo i hne]; exact hi.2.2
        have hdh : ∀ i, Done x y i → y'.h (x.nd i).st = y.h (x.nd i).st := fun i hi =>
          hother i hi.1 (hdiff i ((hdone i).2 hi))
        have hint : Interior x e.1 := ⟨sp, hsp, hcl, hst⟩
        refine ⟨⟨⟨hrep.inv, rfl, hrep.absent⟩, ?_, ?_, ?_, ?_, ?_, ?_, ?_, ?_⟩, fun i hi => (hdone i).2 hi, ?_, (hdone s).2 hs⟩
        · intro i hi
          rcases (hqm i).1 hi with rfl | h
          · exact hsp
          · exact hy.sub i h
        · intro t ht
          show h' t = _
          rw [hh', Function.update_of_ne]
          · exact hy.frame t ht
          · rintro rfl; exact ht hint
        · intro i hi hc hu
          have hne : i ≠ sp := by
            rintro rfl
            rw [hus] at hu
            exact absurd hu (by simp)
          rw [huo i hne] at hu
          obtain ⟨a1, a2⟩ := hy.nupd i hi hc hu
          refine ⟨fun hc => ?_, (hother i hi hne).trans a2⟩
          rcases (hqm i).1 hc with h | h
          · exact hne h
          · exact a1 h
        · intro i hi hc hu
          by_cases hne : i = sp
          · subst hne
            have hval : y'.h (x.nd i).st = P.wt e.2 + y.h (x.nd s).st := hself
            have ho' : o ∈ P.d.ops (x.nd i).st := by rw [hst]; exact ho
            have happ' : P.d.app (x.nd i).st o = (x.nd s).st := by rw [hst]; exact happ
            have hco' : P.d.cost (x.nd i).st o = e.2 := by rw [hst]; exact hcost
            have hin : Interior x (x.nd i).st := ⟨i, hi, hc, rfl⟩
            cases hcs : (x.nd s).closed with
            | false =>
              have hns : ¬ Interior x (x.nd s).st := by
                rw [interior_node hf.tab1 hs.1, hcs]; simp
              have hex := Exit.out (d := P.d) (wt := P.wt) hin ho' (by rw [happ']; exact hns)
              rw [happ', hco'] at hex
              exact ⟨_, _, hex, by rw [hval, hy.frame _ hns]⟩
            | true =>
              have hus : y.upd s = true := by
                rcases hs.2.2 with h | h
                · rw [hcs] at h; exact absurd h (by simp)
                · exact h
              obtain ⟨t, c, hex, hv⟩ := hy.real s hs.1 hcs hus
              have hex' := Exit.step (wt := P.wt) hin ho' (by rw [happ']; exact ⟨s, hs.1, hcs, rfl⟩) (by rw [happ']; exact hex)
              rw [hco'] at hex'
              exact ⟨t, _, hex', by rw [hval, hv, add_assoc]⟩
          · rw [huo i hne] at hu
            obtain ⟨t, c, h1, h2⟩ := hy.real i hi hc hu
            exact ⟨t, c, h1, (hother i hi hne).trans h2⟩
        · intro i hi e' he' hp sp' hsp' hcl'
          have hi0 := (hdone i).1 hi
          by_cases hcc : i = s ∧ e' = e
          · obtain ⟨rfl, rfl⟩ := hcc
            rw [ht] at hsp'
            injection hsp' with hsp'
            subst hsp'
            refine ⟨hus, ?_⟩
            show h' e'.1 ≤ _
            rw [hh', Function.update_self, hdh i hi0]
          · obtain ⟨b1, b2⟩ := hy.edge i hi0 e' he' (fun hpe => hp ⟨hpe, hcc⟩) sp' hsp' hcl'
            obtain ⟨hsp1, hst'⟩ := hf.tab2 _ _ hsp'
            rw [hdh i hi0]
            by_cases hne : sp' = sp
            · subst hne
              refine ⟨hus, le_trans ?_ b2⟩
              have hee : e'.1 = e.1 := hst'.symm.trans hst
              show h' e'.1 ≤ _
              rw [hee, hh', Function.update_self]
              rcases hcond with h | h
              · rw [b1] at h; exact absurd h (by simp)
              · exact h.le
            · refine ⟨by rw [huo sp' hne]; exact b1, ?_⟩
              show h' e'.1 ≤ _
              have := hother sp' hsp1 hne
              rw [hst'] at this
              rw [this]; exact b2
        · intro i hi j hj
          have hi0 := (hdone i).1 hi
          rw [hdh i hi0]
          show _ ≤ h' (x.nd j).st
          by_cases hne : j = sp
          · rw [hne, hself]
            exact (hlow i hi0).trans (le_add_of_nonneg_left hwt)
          · have hjq : j ∈ y.q.data := ((hqm j).1 hj).resolve_left hne
            rw [hother j (hy.sub j hjq) hne]
            exact hy.order i hi0 j hjq
        · show y.nclosed = _
          rw [hy.ncl]
          congr 1
          unfold undone
          apply Finset.filter_congr
          intro i hi
          obtain ⟨hi1, hi2⟩ := mem_closeds.1 hi
          show _ ↔ i ∈ q.data ∨ y'.upd i = false
          rw [hqm]
          by_cases hne : i = sp
          · subst hne
            constructor
            · exact fun _ => Or.inl (Or.inl rfl)
            · intro _
              by_contra hcn
              push Not at hcn
              exact hnd ⟨hi1, hcn.1, Or.inr (by simpa using hcn.2)⟩
          · rw [huo i hne]
            constructor
            · rintro (h | h)
              · exact Or.inl (Or.inr h)
              · exact Or.inr h
            · rintro ((h | h) | h)
              · exact absurd h hne
              · exact Or.inl h
              · exact Or.inr h
        · intro t
          have hkey : t ∈ y'.updated ↔ t ∈ y.updated ∨ t = e.1 := by
            show t ∈ (if y.upd sp = false then y.updated ++ [e.1] else y.updated) ↔ _
            by_cases hu : y.upd sp = false
            · rw [if_pos hu, List.mem_append, List.mem_singleton]
            · rw [if_neg hu]
              refine ⟨Or.inl, ?_⟩
              rintro (h | rfl)
              · exact h
              · exact (hy.updated _).2 ⟨sp, hsp, hcl, by simpa using hu, hst⟩
          rw [hkey, hy.updated]
          constructor
          · rintro (⟨i, h1, h2, h3, h4⟩ | rfl)
            · refine ⟨i, h1, h2, ?_, h4⟩
              by_cases hne : i = sp
              · rw [hne]; exact hus
              · rw [huo i hne]; exact h3
            · exact ⟨sp, hsp, hcl, hus, hst⟩
          · rintro ⟨i, h1, h2, h3, h4⟩
            by_cases hne : i = sp
            · right
              rw [← h4, hne, hst]
            · left
              rw [huo i hne] at h3
              exact ⟨i, h1, h2, h3, h4⟩
        · intro i hi
          have hi0 := (hdone i).1 hi
          rw [hdh i hi0, hdh s hs]
          exact hlow i hi0

theorem li_edges (hf : Facts P x) {s : Nat} : ∀ (es : List (S × C)) {y : Learn S C} {pend : Nat → S × C → Prop},
    LI P x y pend → Done x y s → (∀ i, Done x y i → y.h (x.nd i).st ≤ y.h (x.nd s).st) →
    (∀ e ∈ es, e ∈ x.m.preds (x.nd s).st) →
    ∃ y', learnEdges P x s es y = .ok y' ∧ LI P x y' (fun i e => pend i e ∧ ¬ (i = s ∧ e ∈ es)) ∧ After x y y' s
  | [], y, pend, hy, hs, hlow, _ => by
    refine ⟨y, rfl, ?_, fun _ h => h, hlow, hs⟩
    have : (fun i e => pend i e ∧ ¬ (i = s ∧ e ∈ ([] : List (S × C)))) = pend := by
      funext i e; simp
    rw [this]; exact hy
  | e :: es, y, pend, hy, hs, hlow, he => by
    obtain ⟨y1, h1, h2, h3⟩ := li_edge hf hy hs hlow (he e List.mem_cons_self)
    obtain ⟨y2, k1, k2, k3⟩ := li_edges hf es h2 h3.self h3.low (fun e' h' => he e' (List.mem_cons_of_mem _ h'))
    refine ⟨y2, by rw [learnEdges, h1]; exact k1, ?_, fun i hi => k3.done i (h3.done i hi), k3.low, k3.self⟩
    refine ⟨k2.rep, k2.sub, k2.frame, k2.nupd, k2.real, ?_, k2.order, k2.ncl, k2.updated⟩
    intro i hi e' he' hp
    refine k2.edge i hi e' he' ?_
    rintro ⟨⟨a1, a2⟩, a3⟩
    apply hp
    refine ⟨a1, ?_⟩
    rintro ⟨rfl, a4⟩
    rcases List.mem_cons.1 a4 with rfl | a4
    · exact a2 ⟨rfl, rfl⟩
    · exact a3 ⟨rfl, a4⟩

open Classical in
/-- The nodes without final value. -/
noncomputable def todo (x : L S O C) (y : Learn S C) : Finset Nat := (Finset.range x.next).filter fun i => ¬ Done x y i

omit [DecidableEq S] [AddCommGroup C] [LinearOrder C] [IsOrderedAddMonoid C] in
theorem mem_todo {y : Learn S C} {i : Nat} : i ∈ todo x y ↔ i < x.next ∧ ¬ Done x y i := by
  classical
  unfold todo
  rw [Finset.mem_filter, Finset.mem_range]

omit [DecidableEq S] [AddCommGroup C] [LinearOrder C] [IsOrderedAddMonoid C] in
theorem todo_card (y : Learn S C) : (todo x y).card ≤ x.next := by
  have : todo x y ⊆ Finset.range x.next := fun i hi => Finset.mem_range.2 (mem_todo.1 hi).1
  have := Finset.card_le_card this
  rwa [Finset.card_range] at this

theorem li_loop (hf : Facts P x) : ∀ (fuel : Nat) {y : Learn S C}, LI P x y (fun _ _ => False) → (todo x y).card < fuel →
    ∃ y', learnLoop P x fuel y = .ok y' ∧ LI P x y' (fun _ _ => False) ∧ (y'.nclosed = 0 ∨ y'.q.data = [])
  | 0, y, _, h => absurd h (Nat.not_lt_zero _)
  | fuel + 1, y, hy, hcard => by
    rw [learnLoop]
    by_cases hend : y.nclosed = 0 ∨ y.q.data.isEmpty = true
    · rw [if_pos hend]
      exact ⟨y, rfl, hy, by simpa using hend⟩
    rw [if_neg hend]
    have hne : y.q.data ≠ [] := fun h => hend (Or.inr (by rw [h]; rfl))
    obtain ⟨s, q, h1, h2, h3, h4⟩ := pop_rep hlt_strictWeak hy.rep hne
    have hsq : s ∈ y.q.data := List.mem_toFinset.1 h2
    have hs : s < x.next := hy.sub s hsq
    have hqm : ∀ i, i ∈ q.data ↔ i ≠ s ∧ i ∈ y.q.data := fun i => by
      rw [h4.mem, Finset.mem_erase, List.mem_toFinset]
    rw [h1]
    dsimp only
    set y1 : Learn S C := { y with q := q, nclosed := if (x.nd s).closed then y.nclosed - 1 else y.nclosed } with hy1
    have hupd : (x.nd s).closed = true → y.upd s = true := by
      intro hc
      by_contra hu
      exact (hy.nupd s hs hc (by simpa using hu)).1 hsq
    have hdone : ∀ i, Done x y1 i ↔ Done x y i ∨ i = s := by
      intro i
      constructor
      · rintro ⟨a1, a2, a3⟩
        by_cases hi : i = s
        · exact Or.inr hi
        · exact Or.inl ⟨a1, fun hc => a2 ((hqm i).2 ⟨hi, hc⟩), a3⟩
      · rintro (⟨a1, a2, a3⟩ | rfl)
        · exact ⟨a1, fun hc => a2 ((hqm i).1 hc).2, a3⟩
        · refine ⟨hs, fun hc => ((hqm i).1 hc).1 rfl, ?_⟩
          cases hc : (x.nd i).closed with
          | false => exact Or.inl rfl
          | true => exact Or.inr (hupd hc)
    have hlow : ∀ i, Done x y1 i → y1.h (x.nd i).st ≤ y1.h (x.nd s).st := by
      intro i hi
      rcases (hdone i).1 hi with h | rfl
      · exact hy.order i h s hsq
      · exact le_rfl
    have hli : LI P x y1 (fun i e => i = s ∧ e ∈ x.m.preds (x.nd s).st) := by
      refine ⟨⟨h4.inv, rfl, h4.absent⟩, fun i hi => hy.sub i ((hqm i).1 hi).2, hy.frame, ?_, hy.real, ?_, ?_, ?_, hy.updated⟩
      · intro i hi hc hu
        obtain ⟨a1, a2⟩ := hy.nupd i hi hc hu
        exact ⟨fun hq => a1 ((hqm i).1 hq).2, a2⟩
      · intro i hi e he hp
        rcases (hdone i).1 hi with h | rfl
        · exact hy.edge i h e he (fun h => h)
        · exact absurd ⟨rfl, he⟩ hp
      · intro i hi j hj
        rcases (hdone i).1 hi with h | rfl
        · exact hy.order i h j ((hqm j).1 hj).2
        · have := h3 j (List.mem_toFinset.2 ((hqm j).1 hj).2)
          exact not_lt.1 (of_decide_eq_false this)
      · show (if (x.nd s).closed then y.nclosed - 1 else y.nclosed) = _
        rw [hy.ncl]
        have hmem : ∀ i, i ∈ undone x y1 ↔ i ≠ s ∧ i ∈ undone x y := by
          intro i
          unfold undone
          rw [Finset.mem_filter, Finset.mem_filter]
          show _ ∧ (i ∈ q.data ∨ y.upd i = false) ↔ _
          rw [hqm]
          constructor
          · rintro ⟨a1, a2 | a2⟩
            · exact ⟨a2.1, a1, Or.inl a2.2⟩
            · refine ⟨?_, a1, Or.inr a2⟩
              rintro rfl
              rw [hupd (mem_closeds.1 a1).2] at a2
              exact absurd a2 (by simp)
          · rintro ⟨a1, a2, a3 | a3⟩
            · exact ⟨a2, Or.inl ⟨a1, a3⟩⟩
            · exact ⟨a2, Or.inr a3⟩
        cases hc : (x.nd s).closed with
        | true =>
          rw [if_pos rfl]
          have : undone x y1 = (undone x y).erase s := by
            ext i; rw [hmem, Finset.mem_erase]
          rw [this, Finset.card_erase_of_mem]
          exact Finset.mem_filter.2 ⟨mem_closeds.2 ⟨hs, hc⟩, Or.inl hsq⟩
        | false =>
          rw [if_neg (by simp)]
          congr 1
          ext i
          rw [hmem]
          refine ⟨fun h => ⟨?_, h⟩, fun h => h.2⟩
          rintro rfl
          have := (mem_closeds.1 (Finset.mem_filter.1 h).1).2
          rw [hc] at this
          exact absurd this (by simp)
    obtain ⟨y2, k1, k2, k3⟩ := li_edges hf (x.m.preds (x.nd s).st) hli ((hdone s).2 (Or.inr rfl)) hlow (fun _ h => h)
    have hli2 : LI P x y2 (fun _ _ => False) := by
      refine ⟨k2.rep, k2.sub, k2.frame, k2.nupd, k2.real, ?_, k2.order, k2.ncl, k2.updated⟩
      intro i hi e he _
      refine k2.edge i hi e he ?_
      rintro ⟨⟨rfl, a⟩, b⟩
      exact b ⟨rfl, a⟩
    rw [k1, Outcome.bind_ok]
    refine li_loop hf fuel hli2 ?_
    have hlt : (todo x y2).card < (todo x y).card := by
      apply Finset.card_lt_card
      rw [Finset.ssubset_iff_of_subset]
      · exact ⟨s, mem_todo.2 ⟨hs, fun hc => hc.2.1 hsq⟩, fun hc => (mem_todo.1 hc).2 k3.self⟩
      · intro i hi
        rw [mem_todo] at hi ⊢
        exact ⟨hi.1, fun hc => hi.2 (k3.done i ((hdone i).2 (Or.inl hc)))⟩
    omega

omit [AddCommGroup C] [IsOrderedAddMonoid C] in
theorem foldl_max (g : S → C) : ∀ (ss : List S) (h : S → C) (t : S),
    (ss.foldl (fun h s => Function.update h s (max (h s) (g s))) h) t = if t ∈ ss then max (h t) (g t) else h t
  | [], h, t => by simp
  | a :: ss, h, t => by
    rw [List.foldl_cons, foldl_max g ss]
    by_cases e : t = a
    · subst e
      rw [Function.update_self]
      simp
    · rw [Function.update_of_ne e]
      simp [e]

/-- What is learned. -/
theorem learn_spec (hf : Facts P x) : ∃ h', learn P x = .ok h' ∧
    (∀ s, ¬ Interior x s → h' s = x.m.h s) ∧
    ∀ s, Interior x s →
      ((∃ t c, Exit P.d P.wt (Interior x) s t c) → ∃ t c, Exit P.d P.wt (Interior x) s t c ∧
        (∀ t' c', Exit P.d P.wt (Interior x) s t' c' → c + x.m.h t ≤ c' + x.m.h t') ∧ h' s = max (c + x.m.h t) (P.h s)) ∧
      ((¬ ∃ t c, Exit P.d P.wt (Interior x) s t c) → h' s = x.m.h s) := by
  have hcard : (todo x (learnInit x)).card < x.next + 1 := Nat.lt_succ_of_le (todo_card _)
  obtain ⟨y, h1, hy, hend⟩ := li_loop hf (x.next + 1) (li_init hf) hcard
  have hall : ∀ i < x.next, (x.nd i).closed = true → y.upd i = true → Done x y i := by
    intro i hi hc hu
    refine ⟨hi, ?_, Or.inr hu⟩
    rcases hend with h | h
    · intro hq
      have : i ∈ undone x y := Finset.mem_filter.2 ⟨mem_closeds.2 ⟨hi, hc⟩, Or.inl hq⟩
      rw [hy.ncl, Finset.card_eq_zero] at h
      rw [h] at this
      exact absurd this (by simp)
    · rw [h]; simp
  -- all exits are at least the value
  have hge : ∀ s t c, Exit P.d P.wt (Interior x) s t c → ∀ i < x.next, (x.nd i).closed = true → (x.nd i).st = s →
      y.upd i = true ∧ y.h s ≤ c + x.m.h t := by
    intro s t c hex
    induction hex with
    | @out s o hX ho hnX =>
      intro i hi hc hst
      subst hst
      obtain ⟨j, hj, hjs⟩ := hf.known i hi hc o ho
      have hjo : (x.nd j).closed = false := by
        cases hcj : (x.nd j).closed with
        | false => rfl
        | true => exact absurd ⟨j, hj, hcj, hjs⟩ hnX
      have hjh : y.h (x.nd j).st = x.m.h (P.d.app (x.nd i).st o) := by
        rw [hjs]; exact hy.frame _ hnX
      by_cases hjq : j ∈ y.q.data
      · have hun : y.nclosed = 0 := by
          rcases hend with h | h
          · exact h
          · rw [h] at hjq; exact absurd hjq (by simp)
        have hiu : i ∉ undone x y := by
          rw [hy.ncl, Finset.card_eq_zero] at hun
          rw [hun]; simp
        have hiu' : ¬ (i ∈ y.q.data ∨ y.upd i = false) := fun h => hiu (Finset.mem_filter.2 ⟨mem_closeds.2 ⟨hi, hc⟩, h⟩)
        push Not at hiu'
        have hu : y.upd i = true := by simpa using hiu'.2
        refine ⟨hu, ?_⟩
        have := hy.order i ⟨hi, hiu'.1, Or.inr hu⟩ j hjq
        rw [hjh] at this
        exact this.trans (le_add_of_nonneg_left (hf.wt i hi hc o ho))
      · have hdj : Done x y j := ⟨hj, hjq, Or.inl hjo⟩
        have hp := hf.pred1 i hi hc o ho
        rw [← hjs] at hp
        obtain ⟨a1, a2⟩ := hy.edge j hdj _ hp (fun h => h) i (hf.tab1 i hi) hc
        exact ⟨a1, by rw [hjh] at a2; exact a2⟩
    | @step s t o c hX ho hX' hex ih =>
      intro i hi hc hst
      subst hst
      obtain ⟨j, hj, hcj, hjs⟩ := hX'
      obtain ⟨b1, b2⟩ := ih j hj hcj hjs
      have hdj := hall j hj hcj b1
      have hp := hf.pred1 i hi hc o ho
      rw [← hjs] at hp
      obtain ⟨a1, a2⟩ := hy.edge j hdj _ hp (fun h => h) i (hf.tab1 i hi) hc
      refine ⟨a1, ?_⟩
      rw [hjs] at a2
      exact a2.trans (by rw [add_assoc]; gcongr)
  refine ⟨learnMax P y, ?_, ?_, ?_⟩
  · unfold learn
    rw [h1, Outcome.map_ok]
  · intro s hs
    unfold learnMax
    rw [foldl_max, if_neg, hy.frame s hs]
    rw [hy.updated]
    rintro ⟨i, a1, a2, -, a4⟩
    exact hs ⟨i, a1, a2, a4⟩
  · rintro s ⟨i, hi, hc, rfl⟩
    have hval : learnMax P y (x.nd i).st = if y.upd i = true then max (y.h (x.nd i).st) (P.h (x.nd i).st) else y.h (x.nd i).st := by
      unfold learnMax
      rw [foldl_max]
      congr 1
      rw [hy.updated, eq_iff_iff]
      constructor
      · rintro ⟨j, a1, a2, a3, a4⟩
        rwa [hf.inj hi a1 a4.symm]
      · exact fun hu => ⟨i, hi, hc, hu, rfl⟩
    constructor
    · rintro ⟨t, c, hex⟩
      have hu := (hge _ _ _ hex i hi hc rfl).1
      obtain ⟨t1, c1, e1, e2⟩ := hy.real i hi hc hu
      refine ⟨t1, c1, e1, ?_, ?_⟩
      · intro t' c' hex'
        rw [← e2]
        exact (hge _ _ _ hex' i hi hc rfl).2
      · rw [hval, if_pos hu, e2]
    · intro hno
      have hu : y.upd i = false := by
        by_contra hu
        obtain ⟨t1, c1, e1, -⟩ := hy.real i hi hc (by simpa using hu)
        exact hno ⟨t1, c1, e1⟩
      rw [hval, hu, if_neg (by simp)]
      exact (hy.nupd i hi hc hu).2

end Verif.Lss
