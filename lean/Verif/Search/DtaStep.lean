import Verif.Search.DtaInv

/-!
# A whole step of DTA*
-/

namespace Verif.Dta

open Verif.Search
open Verif.Lss (pushupd hlt)

variable {S O : Type*} [DecidableEq S] {P : Par S O} {cur : S} {v : ℚ}

/-- The invariant of a step. -/
structure SI (P : Par S O) (cur : S) (v : ℚ) (t : Step S O) : Prop where
  m : GI cur v t.m
  xs : ∀ x ∈ t.xs, TI P cur v x ∧ F1 t.m.h x
  rep : HeapRep lssLt (keyL t.xs) t.hq (Finset.range t.xs.length)

theorem GI.call {m : Graph S} (h : GI cur v m) : GI cur v m.call := ⟨h.pos, h.cur, h.preds⟩

theorem SI.call {t : Step S O} (h : SI P cur v t) : SI P cur v { t with m := t.m.call } := ⟨h.m.call, h.xs, h.rep⟩

theorem front_rep {κ : Type*} {lt : κ → κ → Bool} {key : Nat → κ} {q : BinHeap.Heap Nat} {n : Nat} (h : HeapRep lt key q (Finset.range n))
    (hn : 0 < n) : ∃ j, BinHeap.front q = some j ∧ j < n ∧ q.ind j = 0 := by
  have hc := h.card
  rw [Finset.card_range] at hc
  have h0 : 0 < q.data.length := by omega
  refine ⟨q.data[0], ?_, ?_, h.inv.indExact 0 h0⟩
  · unfold BinHeap.front
    rw [List.head?_eq_getElem?, List.getElem?_eq_getElem h0]
  · exact Finset.mem_range.1 (h.mem.1 (List.getElem_mem h0))

theorem make_ok (hthr : 0 ≤ P.thr) {k : S} {c : ℚ} {o : O} {m : Graph S} (hm : GI cur v m) (hw : Walk P.d cur k c)
    (hk : v ≤ c + m.h k) : ∃ x, Tree.make P cur k c o m = .ok x ∧ TI P cur v x ∧ F1 m.h x := by
  unfold Tree.make
  dsimp only
  rw [if_neg (by rw [hm.cur]; linarith)]
  obtain ⟨q, h1, h2⟩ := (heap_law flt_strictWeak).push
    (keyF (fun _ => (⟨k, none, c, c + m.h k, o, false, false⟩ : Node S O))) ⟨[], fun _ => -1⟩ ∅ 0
    ((heap_law flt_strictWeak).init _) (by simp) trivial
  injection h1 with h1
  subst h1
  refine ⟨_, rfl, ⟨⟨h2.inv, rfl, h2.absent⟩, ?_, Nat.one_pos, fun _ => rfl, fun _ _ => hw, fun _ _ => hk, ?_, ?_, fun _ => rfl, ?_, ?_⟩, ?_⟩
  · intro i hi
    have := h2.mem.1 hi
    simp only [insert_empty_eq, Finset.mem_singleton] at this
    rw [this]
    exact Nat.one_pos
  · intro i hi h0
    have : i < 1 := hi
    omega
  · intro k' i h
    exact absurd h (by simp)
  · intro j h
    dsimp only at h ⊢
    split at h
    · rename_i hg
      cases h
      exact ⟨Nat.one_pos, hg⟩
    · exact absurd h (by simp)
  · intro i hi hg
    have : i < 1 := hi
    have : i = 0 := by omega
    subst this
    dsimp only at hg ⊢
    rw [if_pos hg]
  · intro i _
    exact le_rfl

theorem begin_ok (hthr : 0 ≤ P.thr) (hd : CostOk P.d cur) : ∀ (os : List O) {t : Step S O}, (∀ o ∈ os, o ∈ P.d.ops cur) → SI P cur v t →
    ∃ t', begin P cur os t = .ok t' ∧ SI P cur v t' ∧ t'.xs.length = t.xs.length + os.length ∧ ∀ s, t.m.h s ≤ t'.m.h s
  | [], t, _, h => ⟨t, rfl, h, rfl, fun _ => le_rfl⟩
  | o :: os, t, ho, h => by
    rw [begin]
    dsimp only
    set k := P.d.app cur o with hk
    set c := P.d.cost cur o with hc
    have hc0 : 0 ≤ c := hd _ _ (.nil _) o (ho o List.mem_cons_self)
    have hw : Walk P.d cur k c := by
      have := (Walk.nil (d := P.d) cur).snoc (ho o List.mem_cons_self)
      rwa [zero_add] at this
    have hle : ∀ s, t.m.h s ≤ Function.update t.m.h k (max (t.m.h k) (t.m.h cur - c)) s := by
      intro s
      by_cases e : s = k
      · rw [e, Function.update_self]; exact le_max_left _ _
      · rw [Function.update_of_ne e]
    have hcur : Function.update t.m.h k (max (t.m.h k) (t.m.h cur - c)) cur = v := by
      by_cases e : cur = k
      · rw [← e, Function.update_self, h.m.cur]
        exact max_eq_left (by linarith)
      · rw [Function.update_of_ne e, h.m.cur]
    have hm : GI cur v { t.m with h := Function.update t.m.h k (max (t.m.h k) (t.m.h cur - c)) } :=
      ⟨fun s => (h.m.pos s).trans (hle s), hcur, h.m.preds⟩
    have hv : v ≤ c + Function.update t.m.h k (max (t.m.h k) (t.m.h cur - c)) k := by
      rw [Function.update_self]
      have := le_max_right (t.m.h k) (t.m.h cur - c)
      rw [h.m.cur] at this ⊢
      linarith
    rw [if_neg (by rw [hcur]; linarith)]
    obtain ⟨x, e1, e2, e3⟩ := make_ok (o := o) hthr hm hw hv
    rw [e1, Outcome.bind_ok]
    obtain ⟨q, g1, g2⟩ := (heap_law lssLt_strictWeak).push (keyL (t.xs ++ [x])) t.hq (Finset.range t.xs.length) t.xs.length
      (h.rep.congr fun n hn => by
        unfold keyL
        rw [List.getElem?_append_left (Finset.mem_range.1 hn)]) (by simp) trivial
    injection g1 with g1
    obtain ⟨t', k1, k2, k3, k4⟩ := begin_ok hthr hd os (t := ⟨t.xs ++ [x], BinHeap.push (BinHeap.predOf lssLt (keyL (t.xs ++ [x]))) t.hq t.xs.length,
        { t.m with h := Function.update t.m.h k (max (t.m.h k) (t.m.h cur - c)) }⟩)
      (fun o' h' => ho o' (List.mem_cons_of_mem _ h')) ⟨hm, by
        intro y hy
        rcases List.mem_append.1 hy with hy | hy
        · exact ⟨(h.xs y hy).1, (h.xs y hy).2.mono hle⟩
        · rw [List.mem_singleton.1 hy]; exact ⟨e2, e3⟩, by
        have e : Finset.range (t.xs ++ [x]).length = insert t.xs.length (Finset.range t.xs.length) := by
          rw [List.length_append, List.length_singleton, Finset.range_add_one]
        rw [e, g1]
        exact g2⟩
    refine ⟨t', k1, k2, ?_, fun s => (hle s).trans (k4 s)⟩
    rw [k3, List.length_append, List.length_singleton, List.length_cons]
    omega

theorem update_front {κ : Type*} {lt : κ → κ → Bool} (sw : BinHeap.StrictWeak lt) {key key' : Nat → κ} {q : BinHeap.Heap Nat} {n j : Nat}
    (h : HeapRep lt key q (Finset.range n)) (hj : j < n) (h0 : q.ind j = 0) (hk : ∀ m, m ≠ j → key' m = key m) :
    ∃ q', BinHeap.update (BinHeap.predOf lt key') q 0 = .ok q' ∧ HeapRep lt key' q' (Finset.range n) := by
  have hn' : j ∈ q.data := h.mem.2 (Finset.mem_range.2 hj)
  have e : Function.update key j (key' j) = key' := by
    funext m
    by_cases hm : m = j
    · rw [hm, Function.update_self]
    · rw [Function.update_of_ne hm, hk m hm]
  obtain ⟨q', h1, h2, h3⟩ := BinHeap.update_correct sw h.inv (key' j) hn'
  dsimp only at h1
  have h4 := BinHeap.step_absent (lt := lt) (s := ⟨q, key⟩) (op := .update j (key' j)) (r := none)
    (s' := ⟨q', Function.update key j (key' j)⟩) (by simp) (by simp only [BinHeap.exec, h1]; rfl) h.absent
  rw [e] at h1 h3
  rw [h0] at h1
  exact ⟨q', h1, h3, by rw [List.toFinset_eq_of_perm _ _ h2, h.set], h4⟩

/-- Why a grain ends before its last expansion. -/
def Early (P : Par S O) (t : Step S O) (stop : Bool) : Prop :=
  stop = true ∨ t.m.lim P = true ∨ ∃ j l, BinHeap.front t.hq = some j ∧ t.xs[j]? = some l ∧ l.goal.isSome = true

theorem grainLoop_ok (hu : OneGoal P) (hthr : 0 ≤ P.thr) (hd : CostOk P.d cur) {n : Nat} : ∀ (e i : Nat) {t : Step S O}, SI P cur v t →
    0 < t.xs.length → ∃ r, grainLoop P cur n e i t = .ok r ∧ SI P cur v r.1 ∧ r.1.xs.length = t.xs.length ∧ (∀ s, t.m.h s ≤ r.1.m.h s) ∧
      ((∀ a b c, P.lim a b c = true → P.lim a b (c + 1) = true) → (∃ i', i ≤ i' ∧ i' < i + e ∧ P.stop n i' = true) → Early P r.1 r.2.1)
  | 0, i, t, h, _ => ⟨_, rfl, h, rfl, fun _ => le_rfl, fun _ ⟨i', a, b, _⟩ => absurd b (by omega)⟩
  | k + 1, i, t, h, hn => by
    rw [grainLoop]
    split
    · exact ⟨_, rfl, h, rfl, fun _ => le_rfl, fun _ _ => Or.inl rfl⟩
    rename_i hst
    split
    · rename_i hl
      exact ⟨_, rfl, h.call, rfl, fun _ => le_rfl, fun hl' _ => Or.inr (Or.inl (hl' _ _ _ hl))⟩
    obtain ⟨j, hj, hjn, hj0⟩ := front_rep h.rep hn
    rw [hj]
    dsimp only
    rw [List.getElem?_eq_getElem hjn]
    dsimp only
    split
    · rename_i hg
      refine ⟨_, rfl, h.call, rfl, fun _ => le_rfl, fun _ _ => Or.inr (Or.inr ⟨j, t.xs[j], hj, List.getElem?_eq_getElem hjn, ?_⟩)⟩
      unfold goalClosed at hg
      cases hgo : t.xs[j].goal with
      | none => rw [hgo] at hg; exact absurd hg (by simp)
      | some _ => rfl
    obtain ⟨hx, hf⟩ := h.xs t.xs[j] (List.getElem_mem hjn)
    obtain ⟨y, e1, e2, e3, e4, e5⟩ := expand_ok hu hthr hd 1 (y := (t.xs[j], t.m.call)) hx hf h.m.call
    rw [e1, Outcome.bind_ok]
    obtain ⟨q, g1, g2⟩ := update_front lssLt_strictWeak (key' := keyL (t.xs.set j y.1)) h.rep hjn hj0 (fun m hm => by
      unfold keyL
      rw [List.getElem?_set_ne hm.symm])
    rw [g1, Outcome.bind_ok]
    have hs : SI P cur v ⟨t.xs.set j y.1, q, y.2⟩ := by
      refine ⟨e4, ?_, ?_⟩
      · intro z hz
        rcases List.mem_or_eq_of_mem_set hz with hz | rfl
        · exact ⟨(h.xs z hz).1, (h.xs z hz).2.mono e5⟩
        · exact ⟨e2, e3⟩
      · dsimp only
        rw [List.length_set]
        exact g2
    obtain ⟨r, k1, k2, k3, k4, k5⟩ := grainLoop_ok hu hthr hd k (i + 1) hs (by simpa using hn)
    refine ⟨r, k1, k2, by rw [k3]; simp, fun s => (e5 s).trans (k4 s), fun hl ⟨i', a, b, c⟩ => k5 hl ⟨i', ?_, by omega, c⟩⟩
    by_contra hne
    have : i' = i := by omega
    rw [this] at c
    exact hst c

theorem pop_nil (pred : Nat → Nat → Bool) {q : BinHeap.Heap Nat} (h : q.data = []) : BinHeap.pop pred q = (none, q) := by
  obtain ⟨d, i⟩ := q
  cases h
  rfl

theorem keepGoing_ok {t : Step S O} (h : SI P cur v t) {k : Bool × BinHeap.Heap Nat} (e : keepGoing P t = .ok k) :
    HeapRep lssLt (keyL t.xs) k.2 (Finset.range t.xs.length) := by
  unfold keepGoing at e
  split at e
  · cases e; exact h.rep
  dsimp only at e
  split at e
  · exact absurd e (by simp)
  rename_i b q hp
  split at e
  · exact absurd e (by simp)
  rename_i c q' hp'
  split at e
  · exact absurd e (by simp)
  obtain ⟨go, -, e⟩ := Outcome.map_eq_ok.1 e
  subst e
  have hne : t.hq.data ≠ [] := by
    intro h0
    rw [pop_nil _ h0] at hp
    cases hp
  obtain ⟨b', q1, a1, a2, -, a4⟩ := Lss.pop_rep lssLt_strictWeak h.rep hne
  rw [hp] at a1
  cases a1
  have hne' : q.data ≠ [] := by
    intro h0
    rw [pop_nil _ h0] at hp'
    cases hp'
  obtain ⟨c', q2, b1, b2, -, b4⟩ := Lss.pop_rep lssLt_strictWeak a4 hne'
  rw [hp'] at b1
  cases b1
  have hbc : b ∉ ((Finset.range t.xs.length).erase b).erase c := by simp
  obtain ⟨q3, c1, c2⟩ := (heap_law lssLt_strictWeak).push _ _ _ b b4 hbc trivial
  injection c1 with c1
  subst c1
  have hcc : c ∉ insert b (((Finset.range t.xs.length).erase b).erase c) := by
    simp [Finset.ne_of_mem_erase b2]
  obtain ⟨q4, d1, d2⟩ := (heap_law lssLt_strictWeak).push _ _ _ c c2 hcc trivial
  injection d1 with d1
  subst d1
  have e : insert c (insert b (((Finset.range t.xs.length).erase b).erase c)) = Finset.range t.xs.length := by
    rw [Finset.insert_comm, Finset.insert_erase b2, Finset.insert_erase a2]
  rw [e] at d2
  exact d2

theorem grains_inv (hu : OneGoal P) (hthr : 0 ≤ P.thr) (hd : CostOk P.d cur) {n : Nat} : ∀ (fuel i : Nat) {t t' : Step S O}, SI P cur v t →
    0 < t.xs.length → grains P cur n fuel i t = .ok t' → SI P cur v t' ∧ t'.xs.length = t.xs.length ∧ ∀ s, t.m.h s ≤ t'.m.h s
  | 0, _, _, _, _, _, e => absurd e (by simp [grains])
  | fuel + 1, i, t, t', h, hn, e => by
    rw [grains] at e
    obtain ⟨r, e1, e2, e3, e4, -⟩ := grainLoop_ok (n := n) hu hthr hd P.grain i h hn
    rw [e1, Outcome.bind_ok] at e
    split at e
    · cases e; exact ⟨e2.call, e3, e4⟩
    split at e
    · exact absurd e (by simp)
    split at e
    · exact absurd e (by simp)
    split at e
    · cases e; exact ⟨e2.call, e3, e4⟩
    split at e
    · cases e; exact ⟨e2.call, e3, e4⟩
    obtain ⟨k, h1, e⟩ := Outcome.bind_eq_ok.1 e
    have hk := keepGoing_ok e2.call h1
    have hs : SI P cur v { r.1 with hq := k.2, m := r.1.m.call } := ⟨e2.m.call, e2.xs, hk⟩
    split at e
    · obtain ⟨g1, g2, g3⟩ := grains_inv hu hthr hd fuel _ hs (by rw [e3]; exact hn) e
      exact ⟨g1, g2.trans e3, fun s => (e4 s).trans (g3 s)⟩
    · cases e; exact ⟨hs, e3, e4⟩

/-- If the bound of the local search comes within the first grain, the decision is not asked for. -/
theorem grains_early (hu : OneGoal P) (hthr : 0 ≤ P.thr) (hd : CostOk P.d cur) {n : Nat} (hl : ∀ a b c, P.lim a b c = true → P.lim a b (c + 1) = true)
    (hs : ∃ i < P.grain, P.stop n i = true) (fuel : Nat) {t : Step S O} (h : SI P cur v t) (hn : 0 < t.xs.length) :
    ∃ t', grains P cur n (fuel + 1) 0 t = .ok t' := by
  obtain ⟨i, hi, hst⟩ := hs
  rw [grains]
  obtain ⟨r, e1, e2, e3, e4, e5⟩ := grainLoop_ok (n := n) hu hthr hd P.grain 0 h hn
  rw [e1, Outcome.bind_ok]
  have he := e5 hl ⟨i, Nat.zero_le _, by omega, hst⟩
  by_cases hlim : r.1.m.lim P = true
  · rw [if_pos hlim]; exact ⟨_, rfl⟩
  rw [if_neg hlim]
  obtain ⟨j, hj, hjn, -⟩ := front_rep e2.rep (by rw [e3]; exact hn)
  rw [hj]
  dsimp only
  rw [List.getElem?_eq_getElem hjn]
  dsimp only
  by_cases hg : r.1.xs[j].goal.isSome = true
  · rw [if_pos hg]; exact ⟨_, rfl⟩
  rw [if_neg hg]
  rcases he with he | he | ⟨j', l, h1, h2, h3⟩
  · rw [if_pos he]; exact ⟨_, rfl⟩
  · exact absurd he hlim
  · rw [hj] at h1
    cases h1
    rw [List.getElem?_eq_getElem hjn] at h2
    cases h2
    exact absurd h3 hg

/-! ## `learn` -/

/-- The search of the tree is as it was, apart from flags. -/
def Flags (x y : Tree S O) : Prop := y.q = x.q ∧ y.next = x.next ∧ y.tab = x.tab ∧ y.goal = x.goal ∧
  ∀ n, (y.nd n).st = (x.nd n).st ∧ (y.nd n).g = (x.nd n).g ∧ (y.nd n).f = (x.nd n).f

omit [DecidableEq S] in
theorem Flags.refl (x : Tree S O) : Flags x x := ⟨rfl, rfl, rfl, rfl, fun _ => ⟨rfl, rfl, rfl⟩⟩

omit [DecidableEq S] in
theorem Flags.trans {x y z : Tree S O} (h : Flags x y) (h' : Flags y z) : Flags x z :=
  ⟨h'.1.trans h.1, h'.2.1.trans h.2.1, h'.2.2.1.trans h.2.2.1, h'.2.2.2.1.trans h.2.2.2.1, fun n =>
    ⟨(h'.2.2.2.2 n).1.trans (h.2.2.2.2 n).1, (h'.2.2.2.2 n).2.1.trans (h.2.2.2.2 n).2.1, (h'.2.2.2.2 n).2.2.trans (h.2.2.2.2 n).2.2⟩⟩

theorem TI.flags {x y : Tree S O} (h : TI P cur v x) (hf : Flags x y) : TI P cur v y := by
  obtain ⟨f1, f2, f3, f4, f5⟩ := hf
  refine ⟨?_, ?_, ?_, ?_, ?_, ?_, ?_, ?_, ?_, ?_, ?_⟩
  · rw [f1]
    exact h.rep.congr fun n _ => by unfold keyF; rw [(f5 n).2.1, (f5 n).2.2]
  · rw [f1, f2]; exact h.sub
  · rw [f2]; exact h.pos
  · rw [f1, f2]; exact h.zero
  · intro n hn
    rw [f2] at hn
    rw [(f5 n).1, (f5 n).2.1]
    exact h.walk n hn
  · intro n hn
    rw [f2] at hn
    rw [(f5 n).2.2]
    exact h.f2 n hn
  · intro n hn
    rw [f2] at hn
    rw [(f5 n).1, f3]
    exact h.tab1 n hn
  · intro k n
    rw [(f5 n).1, f3, f2]
    exact h.tab2 k n
  · rw [(f5 0).1, f2]; exact h.rootg
  · intro j
    rw [f4, f2, (f5 j).1]
    exact h.goal1 j
  · intro n hn
    rw [f2] at hn
    rw [(f5 n).1, f4]
    exact h.goal2 n hn

omit [DecidableEq S] in
theorem fg_flags {x y : Tree S O} (hf : Flags x y) : fg y = fg x := by
  obtain ⟨f1, f2, f3, f4, f5⟩ := hf
  unfold fg
  rw [f1, f4]
  cases x.q.data with
  | nil =>
    cases x.goal with
    | none => rfl
    | some j => dsimp only; rw [(f5 j).2.1]
  | cons n l => dsimp only; rw [(f5 n).2.1, (f5 n).2.2]

/-- The invariant of `learn`. -/
structure LI (x0 : Tree S O) (z : Tree S O × (S → ℚ) × BinHeap.Heap Nat) : Prop where
  flags : Flags x0 z.1
  pos : ∀ s, 0 ≤ z.2.1 s
  rep : HeapRep hlt (fun n => z.2.1 (z.1.nd n).st) z.2.2 z.2.2.data.toFinset
  sub : ∀ i ∈ z.2.2.data, i < x0.next ∧ (i = 0 → x0.next = 1)

/-- The nodes that can still be taken from the heap. -/
def todo (x0 : Tree S O) (z : Tree S O × (S → ℚ) × BinHeap.Heap Nat) : Finset Nat :=
  (Finset.range x0.next).filter fun i => (z.1.nd i).closed = true ∨ i ∈ z.2.2.data

theorem learnEdge_ok {x0 : Tree S O} (hx : TI P cur v x0) {s : Nat} {e : S × ℚ} (he : 0 ≤ e.2) {z : Tree S O × (S → ℚ) × BinHeap.Heap Nat}
    (hz : LI x0 z) : ∃ z', learnEdge s e z = .ok z' ∧ LI x0 z' ∧ todo x0 z' = todo x0 z := by
  unfold learnEdge
  obtain ⟨f1, f2, f3, f4, f5⟩ := hz.flags
  cases ht : z.1.tab e.1 with
  | none => exact ⟨z, rfl, hz, rfl⟩
  | some p =>
    dsimp only
    split
    · exact ⟨z, rfl, hz, rfl⟩
    rename_i hcl
    have hcl : (z.1.nd p).closed = true := by simpa using hcl
    split
    · set h := Function.update z.2.1 e.1 (z.2.1 (z.1.nd s).st + e.2) with hh
      set nd := Function.update z.1.nd p { z.1.nd p with updated := true } with hnd
      have hndn : ∀ n, (nd n).st = (z.1.nd n).st ∧ (nd n).g = (z.1.nd n).g ∧ (nd n).f = (z.1.nd n).f ∧ (nd n).closed = (z.1.nd n).closed := by
        intro n
        by_cases e : n = p
        · subst e
          rw [hnd, Function.update_self]
          exact ⟨rfl, rfl, rfl, rfl⟩
        · rw [hnd, Function.update_of_ne e]
          exact ⟨rfl, rfl, rfl, rfl⟩
      rw [f3] at ht
      obtain ⟨p1, p2, p3⟩ := hx.tab2 _ _ ht
      obtain ⟨q, e1, e2⟩ := Lss.pushupd_rep Lss.hlt_strictWeak (key' := fun n => h (nd n).st) (n := p) hz.rep (fun n hn hnp => by
        rw [List.mem_toFinset] at hn
        obtain ⟨n1, n2⟩ := hz.sub n hn
        have hn0 : n ≠ 0 := by
          intro e
          have := n2 e
          omega
        show h (nd n).st = z.2.1 (z.1.nd n).st
        rw [(hndn n).1, hh, Function.update_of_ne]
        rw [(f5 n).1]
        intro e
        have := hx.tab1 n n1 hn0
        rw [e, ht] at this
        exact hnp (Option.some.inj this).symm)
      rw [e1, Outcome.map_ok]
      have hmem : ∀ n, n ∈ q.data ↔ n = p ∨ n ∈ z.2.2.data := fun n => by
        rw [e2.mem, Finset.mem_insert, List.mem_toFinset]
      refine ⟨_, rfl, ⟨⟨f1, f2, f3, f4, fun n => ?_⟩, ?_, ⟨e2.inv, rfl, e2.absent⟩, ?_⟩, ?_⟩
      · dsimp only
        rw [(hndn n).1, (hndn n).2.1, (hndn n).2.2.1]
        exact f5 n
      · intro t
        dsimp only
        by_cases e : t = e.1
        · subst e
          rw [hh, Function.update_self]
          exact add_nonneg (hz.pos _) he
        · rw [hh, Function.update_of_ne e]
          exact hz.pos t
      · intro i hi
        rcases (hmem i).1 hi with rfl | hi
        · exact ⟨p1, fun e => absurd e p2⟩
        · exact hz.sub i hi
      · unfold todo
        dsimp only
        refine Finset.filter_congr fun i _ => ?_
        rw [(hndn i).2.2.2, hmem]
        constructor
        · rintro (h | rfl | h)
          · exact Or.inl h
          · exact Or.inl hcl
          · exact Or.inr h
        · rintro (h | h)
          · exact Or.inl h
          · exact Or.inr (Or.inr h)
    · exact ⟨z, rfl, hz, rfl⟩

theorem learnEdges_ok {x0 : Tree S O} (hx : TI P cur v x0) {s : Nat} : ∀ (es : List (S × ℚ)), (∀ e ∈ es, 0 ≤ e.2) →
    ∀ {z : Tree S O × (S → ℚ) × BinHeap.Heap Nat}, LI x0 z → ∃ z', learnEdges s es z = .ok z' ∧ LI x0 z' ∧ todo x0 z' = todo x0 z
  | [], _, z, hz => ⟨z, rfl, hz, rfl⟩
  | e :: es, he, z, hz => by
    obtain ⟨z1, a1, a2, a3⟩ := learnEdge_ok hx (s := s) (he e List.mem_cons_self) hz
    obtain ⟨z2, b1, b2, b3⟩ := learnEdges_ok hx es (fun e' h => he e' (List.mem_cons_of_mem _ h)) a2
    exact ⟨z2, by rw [learnEdges, a1, Outcome.bind_ok, b1], b2, b3.trans a3⟩

theorem learnLoop_ok {x0 : Tree S O} (hx : TI P cur v x0) {preds : S → List (S × ℚ)} (hp : ∀ k, ∀ e ∈ preds k, 0 ≤ e.2) :
    ∀ (fuel : Nat) {z : Tree S O × (S → ℚ) × BinHeap.Heap Nat}, LI x0 z → (todo x0 z).card < fuel →
    ∃ r, learnLoop preds fuel z = .ok r ∧ Flags x0 r.1 ∧ ∀ s, 0 ≤ r.2 s
  | 0, _, _, h => absurd h (by omega)
  | fuel + 1, z, hz, hc => by
    rw [learnLoop]
    split
    · exact ⟨_, rfl, hz.flags, hz.pos⟩
    rename_i hne
    have hne : z.2.2.data ≠ [] := fun h => hne (Or.inr (by rw [h]; rfl))
    obtain ⟨s, q, e1, e2, -, e4⟩ := Lss.pop_rep Lss.hlt_strictWeak hz.rep hne
    rw [e1]
    dsimp only
    rw [List.mem_toFinset] at e2
    have hmem : ∀ n, n ∈ q.data ↔ n ≠ s ∧ n ∈ z.2.2.data := fun n => by
      rw [e4.mem, Finset.mem_erase, List.mem_toFinset]
    set nd := Function.update z.1.nd s { z.1.nd s with closed := false } with hnd
    have hndn : ∀ n, (nd n).st = (z.1.nd n).st ∧ (nd n).g = (z.1.nd n).g ∧ (nd n).f = (z.1.nd n).f ∧
        (nd n).closed = (if n = s then false else (z.1.nd n).closed) := by
      intro n
      by_cases e : n = s
      · subst e
        rw [hnd, Function.update_self, if_pos rfl]
        exact ⟨rfl, rfl, rfl, rfl⟩
      · rw [hnd, Function.update_of_ne e, if_neg e]
        exact ⟨rfl, rfl, rfl, rfl⟩
    obtain ⟨f1, f2, f3, f4, f5⟩ := hz.flags
    have hz' : LI x0 ({ z.1 with nclosed := if (z.1.nd s).closed then z.1.nclosed - 1 else z.1.nclosed, nd := nd }, z.2.1, q) := by
      refine ⟨⟨f1, f2, f3, f4, fun n => ?_⟩, hz.pos, ?_, ?_⟩
      · dsimp only
        rw [(hndn n).1, (hndn n).2.1, (hndn n).2.2.1]
        exact f5 n
      · have : HeapRep hlt (fun n => z.2.1 (nd n).st) q (z.2.2.data.toFinset.erase s) := e4.congr fun n _ => by rw [(hndn n).1]
        exact ⟨this.inv, rfl, this.absent⟩
      · exact fun i hi => hz.sub i ((hmem i).1 hi).2
    obtain ⟨z1, a1, a2, a3⟩ := learnEdges_ok hx (s := s) (preds (nd s).st) (hp _) hz'
    have hlt : (todo x0 z1).card < fuel := by
      rw [a3]
      have hss : todo x0 ({ z.1 with nclosed := if (z.1.nd s).closed then z.1.nclosed - 1 else z.1.nclosed, nd := nd }, z.2.1, q) ⊂ todo x0 z := by
        rw [Finset.ssubset_iff_of_subset]
        · refine ⟨s, ?_, ?_⟩
          · unfold todo
            rw [Finset.mem_filter, Finset.mem_range]
            exact ⟨(hz.sub s e2).1, Or.inr e2⟩
          · unfold todo
            rw [Finset.mem_filter]
            dsimp only
            rw [(hndn s).2.2.2, if_pos rfl, hmem]
            simp
        · intro i
          unfold todo
          rw [Finset.mem_filter, Finset.mem_filter]
          dsimp only
          rw [(hndn i).2.2.2, hmem]
          rintro ⟨h1, h2 | h2⟩
          · refine ⟨h1, Or.inl ?_⟩
            split at h2
            · exact absurd h2 (by simp)
            · exact h2
          · exact ⟨h1, Or.inr h2.2⟩
      have := Finset.card_lt_card hss
      omega
    obtain ⟨r, b1, b2, b3⟩ := learnLoop_ok hx hp fuel a2 hlt
    exact ⟨r, by rw [a1, Outcome.bind_ok, b1], b2, b3⟩

theorem learn_ok {x : Tree S O} (hx : TI P cur v x) {m : Graph S} (hm : ∀ s, 0 ≤ m.h s) (hp : ∀ k, ∀ e ∈ m.preds k, 0 ≤ e.2) :
    ∃ r, learn x m = .ok r ∧ Flags x r.1 ∧ (∀ s, 0 ≤ r.2.h s) ∧ r.2.preds = m.preds := by
  unfold learn
  set q := BinHeap.append (BinHeap.predOf hlt fun n => m.h (x.nd n).st) ⟨[], fun _ => -1⟩ x.q.data with hq
  have hperm : q.data.Perm x.q.data := BinHeap.reinit_perm (BinHeap.predOf hlt fun n => m.h (x.nd n).st) ⟨[] ++ x.q.data, fun _ => -1⟩
  have hnd : x.q.data.Nodup := BinHeap.indExact_nodup hx.rep.inv.indExact
  have hz : LI x (x, m.h, q) := by
    refine ⟨.refl x, hm, ⟨⟨?_, ?_⟩, rfl, ?_⟩, ?_⟩
    · exact BinHeap.reinit_ordered (BinHeap.strictWeak_predOf Lss.hlt_strictWeak _) _
    · exact BinHeap.reinit_indExact _ _ (by simpa using hnd)
    · intro n hn
      have hn' : n ∉ x.q.data := fun hc => hn (hperm.mem_iff.2 hc)
      exact BinHeap.reinit_frame (BinHeap.predOf hlt fun n => m.h (x.nd n).st) ⟨[] ++ x.q.data, fun _ => -1⟩ n (by simpa using hn')
    · intro i hi
      have hi' := hperm.mem_iff.1 hi
      exact ⟨hx.sub i hi', fun e => hx.zero (e ▸ hi')⟩
  have hc : (todo x (x, m.h, q)).card < x.next + 1 := by
    have := Finset.card_filter_le (Finset.range x.next) fun i => (x.nd i).closed = true ∨ i ∈ q.data
    rw [Finset.card_range] at this
    exact Nat.lt_succ_of_le this
  obtain ⟨r, a1, a2, a3⟩ := learnLoop_ok hx hp _ hz hc
  rw [a1, Outcome.map_ok]
  exact ⟨_, rfl, a2, a3, rfl⟩

/-- What the end of a step needs. -/
structure EI (P : Par S O) (cur : S) (v : ℚ) (t : Step S O) : Prop where
  pos : ∀ s, 0 ≤ t.m.h s
  preds : ∀ k, ∀ e ∈ t.m.preds k, 0 ≤ e.2
  xs : ∀ x ∈ t.xs, TI P cur v x
  mem : ∀ j, j ∈ t.hq.data ↔ j < t.xs.length

theorem learnAll_ok : ∀ (js : List Nat) {t : Step S O}, EI P cur v t → (∀ j ∈ js, j < t.xs.length) →
    ∃ t', learnAll js t = .ok t' ∧ EI P cur v t' ∧ t'.hq = t.hq ∧ t'.xs.length = t.xs.length
  | [], t, h, _ => ⟨t, rfl, h, rfl, rfl⟩
  | j :: js, t, h, hj => by
    have hj0 := hj j List.mem_cons_self
    rw [learnAll, List.getElem?_eq_getElem hj0]
    dsimp only
    have hx := h.xs t.xs[j] (List.getElem_mem hj0)
    obtain ⟨r, a1, a2, a3, a4⟩ := learn_ok hx h.pos h.preds
    rw [a1, Outcome.bind_ok]
    obtain ⟨t', b1, b2, b3, b4⟩ := learnAll_ok js (t := { t with xs := t.xs.set j r.1, m := r.2 }) ⟨a3, by rw [a4]; exact h.preds, by
      intro y hy
      rcases List.mem_or_eq_of_mem_set hy with hy | rfl
      · exact h.xs y hy
      · exact hx.flags a2, by
      intro i
      rw [List.length_set]
      exact h.mem i⟩ (fun i hi => by
      rw [List.length_set]
      exact hj i (List.mem_cons_of_mem _ hi))
    exact ⟨t', b1, b2, b3, by rw [b4, List.length_set]⟩

theorem learnStep_ok {t : Step S O} (h : EI P cur v t) : ∃ t', learnStep P t = .ok t' ∧ EI P cur v t' ∧ t'.xs.length = t.xs.length := by
  unfold learnStep
  split
  · obtain ⟨t', a1, a2, a3, a4⟩ := learnAll_ok t.hq.data h (fun j hj => (h.mem j).1 hj)
    rw [a1, Outcome.map_ok]
    refine ⟨_, rfl, ⟨a2.pos, a2.preds, a2.xs, fun j => ?_⟩, a4⟩
    dsimp only
    rw [(BinHeap.reinit_perm _ _).mem_iff]
    exact a2.mem j
  · exact ⟨t, rfl, h, rfl⟩

/-- The value of the best search: of an open node, which is at least that of the current state, or the cost of a walk to a goal. -/
theorem fg_val (hd : CostOk P.d cur) (hv : 0 ≤ v) {x : Tree S O} (hx : TI P cur v x) {w : ℚ} (e : (fg x).1 = (w : WithTop ℚ)) :
    0 ≤ w ∧ (v ≤ w ∨ ∃ t, Walk P.d cur t w ∧ P.d.goal t = true) := by
  unfold fg at e
  cases h : x.q.data with
  | cons n l =>
    rw [h] at e
    dsimp only at e
    have hn := hx.sub n (by rw [h]; exact List.mem_cons_self)
    have := WithTop.coe_injective e
    subst this
    exact ⟨hv.trans (hx.f2 n hn), Or.inl (hx.f2 n hn)⟩
  | nil =>
    rw [h] at e
    cases hg : x.goal with
    | none => rw [hg] at e; exact absurd e (by simp)
    | some j =>
      rw [hg] at e
      dsimp only at e
      have := WithTop.coe_injective e
      subst this
      obtain ⟨a, b⟩ := hx.goal1 j hg
      exact ⟨(hx.walk j a).nonneg hd, Or.inr ⟨_, hx.walk j a, b⟩⟩

theorem finish_safe (hd : CostOk P.d cur) (hv : 0 ≤ v) {t : Step S O} (h : EI P cur v t) (hn : 0 < t.xs.length) :
    finish P cur t = .nofuel ∨ ∃ r, finish P cur t = .ok r ∧ (∀ s, 0 ≤ r.2.2.h s) ∧ ∀ k, ∀ e ∈ r.2.2.preds k, 0 ≤ e.2 := by
  have h0 : 0 ∈ t.hq.data := (h.mem 0).2 hn
  obtain ⟨j, l, hj⟩ := List.exists_cons_of_ne_nil (List.ne_nil_of_mem h0)
  have hjn : j < t.xs.length := (h.mem j).1 (by rw [hj]; exact List.mem_cons_self)
  have hf : BinHeap.front t.hq = some j := by
    unfold BinHeap.front
    rw [hj]
    rfl
  unfold finish
  rw [hf]
  dsimp only
  rw [List.getElem?_eq_getElem hjn]
  dsimp only
  have hx := h.xs t.xs[j] (List.getElem_mem hjn)
  split
  · exact Or.inl rfl
  · rename_i w hw
    refine Or.inr ⟨_, rfl, ?_, h.preds⟩
    obtain ⟨w0, -⟩ := fg_val hd hv hx hw
    intro s
    dsimp only
    by_cases e : s = cur
    · rw [e, Function.update_self]
      split
      · linarith
      · linarith
    · rw [Function.update_of_ne e]
      exact h.pos s

theorem SI.ei {t : Step S O} (h : SI P cur v t) : EI P cur v t :=
  ⟨h.m.pos, h.m.preds, fun x hx => (h.xs x hx).1, fun j => by rw [h.rep.mem, Finset.mem_range]⟩

theorem si_init {m : Graph S} (hm : GI cur v m) : SI P cur v ⟨[], ⟨[], fun _ => -1⟩, m⟩ :=
  ⟨hm, by simp, (heap_law lssLt_strictWeak).init _⟩

/-- A step in which the bound of the local search comes within the first grain. -/
theorem step_safe (hu : OneGoal P) (hthr : 0 ≤ P.thr) (hd : CostOk P.d cur) (hfr : P.fresh = false) {n : Nat}
    (hl : ∀ a b c, P.lim a b c = true → P.lim a b (c + 1) = true) (hs : ∃ i < P.grain, P.stop n i = true) (fuel : Nat)
    (hops : P.d.ops cur ≠ []) {m : Graph S} (hm : ∀ s, 0 ≤ m.h s) (hp : ∀ k, ∀ e ∈ m.preds k, 0 ≤ e.2) :
    step P (fuel + 1) n cur m = .nofuel ∨ ∃ r, step P (fuel + 1) n cur m = .ok r ∧ (∀ s, 0 ≤ r.2.2.h s) ∧
      ∀ k, ∀ e ∈ r.2.2.preds k, 0 ≤ e.2 := by
  have hgi : GI cur (m.h cur) (succs P cur m) := succs_ok ⟨hm, rfl, hp⟩ fun o ho => hd _ _ (.nil _) o ho
  obtain ⟨t, a1, a2, a3, -⟩ := begin_ok hthr hd (P.d.ops cur) (fun _ h => h) (si_init (P := P) hgi)
  have hn : 0 < t.xs.length := by
    rw [a3]
    have := List.length_pos_iff.2 hops
    omega
  obtain ⟨t', b1⟩ := grains_early (n := n) hu hthr hd hl hs fuel a2 hn
  obtain ⟨c1, c2, -⟩ := grains_inv hu hthr hd _ _ a2 hn b1
  obtain ⟨u, d1, d2, d3⟩ := learnStep_ok c1.ei
  unfold step
  rw [a1, Outcome.bind_ok, b1, Outcome.bind_ok, if_neg (by rw [hfr]; simp), d1, Outcome.bind_ok]
  exact finish_safe hd (hm cur) d2 (by rw [d3, c2]; exact hn)

theorem loop_safe {s0 : S} (hu : OneGoal P) (hthr : 0 ≤ P.thr) (hd : CostOk P.d s0) (hfr : P.fresh = false)
    (hl : ∀ a b c, P.lim a b c = true → P.lim a b (c + 1) = true) (hs : ∀ n, ∃ i < P.grain, P.stop n i = true) (sf : Nat)
    (hops : ∀ s c, Walk P.d s0 s c → P.d.goal s = false → P.d.ops s ≠ []) : ∀ (fuel n : Nat) (cur : S) (m : Graph S) (ops : List O),
    (∃ c, Walk P.d s0 cur c) → (∀ s, 0 ≤ m.h s) → (∀ k, ∀ e ∈ m.preds k, 0 ≤ e.2) →
    loop P (sf + 1) fuel n cur m ops = .nofuel ∨ ∃ r, loop P (sf + 1) fuel n cur m ops = .ok r
  | 0, _, _, _, _, _, _, _ => Or.inl rfl
  | fuel + 1, n, cur, m, ops, ⟨c, hw⟩, hm, hp => by
    rw [loop]
    split
    · exact Or.inr ⟨_, rfl⟩
    rename_i hg
    split
    · exact Or.inr ⟨_, rfl⟩
    rcases step_safe (m := m.call) hu hthr (Lss.costOk_of_walk hd hw) hfr hl (hs n) sf (hops _ _ hw (by simpa using hg)) hm hp with h | ⟨r, h1, h2, h3⟩
    · rw [h]; exact Or.inl rfl
    · rw [h1, Outcome.bind_ok]
      obtain ⟨a, b⟩ := step_move h1
      exact loop_safe hu hthr hd hfr hl hs sf hops fuel (n + 1) _ _ _ ⟨_, by rw [← b]; exact hw.snoc a⟩ h2 h3

/-- What a step does to the values, without `-learnfull`. -/
theorem step_values (hu : OneGoal P) (hthr : 0 ≤ P.thr) (hd : CostOk P.d cur) (hfull : P.full = false) {fuel n : Nat} {m : Graph S}
    (hm : ∀ s, 0 ≤ m.h s) (hp : ∀ k, ∀ e ∈ m.preds k, 0 ≤ e.2) {r : S × O × Graph S} (e : step P fuel n cur m = .ok r) :
    (∀ s ≠ cur, m.h s ≤ r.2.2.h s) ∧ ∃ w, r.2.2.h cur = w * (11 / 10) ∧ (m.h cur ≤ w ∨ ∃ t, Walk P.d cur t w ∧ P.d.goal t = true) := by
  have hgi : GI cur (m.h cur) (succs P cur m) := succs_ok ⟨hm, rfl, hp⟩ fun o ho => hd _ _ (.nil _) o ho
  obtain ⟨t, a1, a2, a3, a4⟩ := begin_ok hthr hd (P.d.ops cur) (fun _ h => h) (si_init (P := P) hgi)
  unfold step at e
  rw [a1, Outcome.bind_ok] at e
  obtain ⟨t', b1, e⟩ := Outcome.bind_eq_ok.1 e
  split at e
  · exact absurd e (by simp)
  unfold learnStep at e
  rw [if_neg (by rw [hfull]; simp), Outcome.bind_ok] at e
  obtain ⟨j, l, w, h1, h2, h3, rfl⟩ := finish_ok e
  have hn : 0 < t.xs.length := by
    by_contra h0
    have h0 : t.xs = [] := List.length_eq_zero_iff.1 (by omega)
    cases fuel with
    | zero => exact absurd b1 (by simp [grains])
    | succ f =>
      have hnil : t.hq.data = [] := by
        have := a2.rep.card
        rw [h0] at this
        exact List.length_eq_zero_iff.1 (by simpa using this)
      have hfr : BinHeap.front t.hq = none := by unfold BinHeap.front; rw [hnil]; rfl
      have key : ∀ (e i : Nat) (u : Step S O), u.hq.data = [] → ∀ r, grainLoop P cur n e i u = .ok r → r.1.hq.data = [] := by
        intro e i u hu r hr
        cases e with
        | zero => cases hr; exact hu
        | succ e =>
          rw [grainLoop] at hr
          split at hr
          · cases hr; exact hu
          split at hr
          · cases hr; exact hu
          have : BinHeap.front u.hq = none := by unfold BinHeap.front; rw [hu]; rfl
          rw [this] at hr
          exact absurd hr (by simp)
      rw [grains] at b1
      obtain ⟨r, c1, b1⟩ := Outcome.bind_eq_ok.1 b1
      have hr := key _ _ _ hnil r c1
      have hfr' : BinHeap.front r.1.hq = none := by unfold BinHeap.front; rw [hr]; rfl
      split at b1
      · cases b1
        dsimp only at h1
        rw [hfr'] at h1
        exact absurd h1 (by simp)
      · rw [hfr'] at b1
        exact absurd b1 (by simp)
  obtain ⟨c1, c2, c3⟩ := grains_inv hu hthr hd _ _ a2 hn b1
  have hx := (c1.xs l (List.mem_of_getElem? h2)).1
  obtain ⟨-, f2⟩ := fg_val hd (hm cur) hx h3
  refine ⟨fun s hs => ?_, w, ?_, f2⟩
  · dsimp only
    rw [Function.update_of_ne hs]
    have := (a4 s).trans (c3 s)
    dsimp only at this
    rw [succs_h] at this
    exact this
  · dsimp only
    rw [Function.update_self, hfull]
    simp

end Verif.Dta
