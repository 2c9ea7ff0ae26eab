import Verif.Search.Bugsy

/-!
# The utility-guided searches are best-first searches

Whatever the utilities are, a run of `bsearch` is a run of the engine of `Search/BestFirst` in which any open node may
be popped (`anyAlg`).
-/

namespace Verif.Bugsy

open Verif.Search

variable {S O C F I A : Type*}

/-- A search that pops any open node. -/
def anyAlg (S C : Type*) (dd : Bool) : Alg S C Unit := ⟨fun _ _ => (), fun _ _ _ => (), fun _ _ => false, dd⟩

theorem anyAlg_ok (dd : Bool) : AlgOk (anyAlg S C dd) := fun _ _ _ => rfl

/-! ## The heap -/

/-- The heap holds exactly `s`, whatever the order is. -/
structure HRep {κ : Type*} (lt : κ → κ → Bool) (key : Nat → κ) (q : BinHeap.Heap Nat) (s : Finset Nat) : Prop where
  ind : BinHeap.IndExact q
  set : q.data.toFinset = s
  absent : ∀ n, n ∉ q.data → q.ind n = -1
  ord : BinHeap.StrictWeak lt → BinHeap.Ordered (BinHeap.predOf lt key) q.data

section Heap
variable {κ : Type*} {lt : κ → κ → Bool} {key key' : Nat → κ} {q : BinHeap.Heap Nat} {s : Finset Nat}

theorem HRep.mem (h : HRep lt key q s) {n : Nat} : n ∈ q.data ↔ n ∈ s := by rw [← h.set, List.mem_toFinset]

theorem HRep.toHeapRep (h : HRep lt key q s) (sw : BinHeap.StrictWeak lt) : HeapRep lt key q s :=
  ⟨⟨h.ord sw, h.ind⟩, h.set, h.absent⟩

theorem HRep.congr (h : HRep lt key q s) (hk : ∀ n ∈ s, key' n = key n) : HRep lt key' q s :=
  ⟨h.ind, h.set, h.absent, fun sw => ((h.toHeapRep sw).congr hk).inv.ordered⟩

theorem HRep.ind_nonneg (h : HRep lt key q s) {n : Nat} (hn : n ∈ s) : 0 ≤ q.ind n := by
  obtain ⟨i, hi, rfl⟩ := List.getElem_of_mem (h.mem.2 hn)
  have : q.ind q.data[i] = i := h.ind i hi
  omega

theorem HRep.ind_neg (h : HRep lt key q s) {n : Nat} : q.ind n < 0 ↔ n ∉ s := by
  constructor
  · intro hi hn
    have := h.ind_nonneg hn
    omega
  · intro hn
    rw [h.absent n fun hc => hn (h.mem.1 hc)]
    decide

theorem hrep_empty : HRep lt key ⟨[], fun _ => -1⟩ ∅ :=
  ⟨fun j hj => absurd hj (by simp), rfl, fun _ _ => rfl, fun _ j hj => absurd hj (by simp)⟩

theorem HRep.push (h : HRep lt key q s) {n : Nat} (hn : n ∉ s) :
    HRep lt key (BinHeap.push (BinHeap.predOf lt key) q n) (insert n s) := by
  have hn' : n ∉ q.data := fun hd => hn (h.mem.1 hd)
  have hp := BinHeap.push_perm (BinHeap.predOf lt key) q n
  refine ⟨BinHeap.push_indExact _ _ _ hn' h.ind, ?_, fun m hm => ?_, fun sw => ?_⟩
  · rw [← h.set, List.toFinset_eq_of_perm _ _ hp, List.toFinset_cons]
  · rw [hp.mem_iff, List.mem_cons, not_or] at hm
    rw [BinHeap.push_frame _ _ _ _ hm.2 hm.1]
    exact h.absent m hm.2
  · exact BinHeap.push_ordered (BinHeap.strictWeak_predOf sw key) _ _ (h.ord sw)

theorem HRep.pop (h : HRep lt key q s) (hne : q.data ≠ []) :
    ∃ n q', BinHeap.pop (BinHeap.predOf lt key) q = (some n, q') ∧ n ∈ s ∧
      (BinHeap.StrictWeak lt → ∀ m ∈ s, lt (key m) (key n) = false) ∧ HRep lt key q' (s.erase n) := by
  rcases hpop : BinHeap.pop (BinHeap.predOf lt key) q with ⟨r, q'⟩
  have er : (BinHeap.pop (BinHeap.predOf lt key) q).1 = r := by rw [hpop]
  have eq' : (BinHeap.pop (BinHeap.predOf lt key) q).2 = q' := by rw [hpop]
  cases r with
  | none => exact absurd ((BinHeap.pop_none _ _).1 er) hne
  | some n =>
    have hp := BinHeap.pop_perm _ _ _ er
    have hnd := BinHeap.indExact_nodup h.ind
    have hnd' := hp.nodup_iff.1 hnd
    rw [eq'] at hp hnd'
    refine ⟨n, q', rfl, h.mem.1 (hp.mem_iff.2 List.mem_cons_self), fun sw m hm => ?_, ?_, ?_, ?_, ?_⟩
    · obtain ⟨j, hj, rfl⟩ := List.getElem_of_mem (h.mem.2 hm)
      obtain ⟨h0, e0⟩ := BinHeap.pop_head _ _ _ er
      have := BinHeap.ordered_root (BinHeap.strictWeak_predOf sw key) (h.ord sw) j hj
      rw [e0] at this
      exact this
    · rw [← eq']; exact BinHeap.pop_indExact _ _ h.ind
    · ext m
      rw [List.mem_toFinset, Finset.mem_erase, ← h.mem, hp.mem_iff, List.mem_cons]
      constructor
      · intro hm
        exact ⟨fun hc => (List.nodup_cons.1 hnd').1 (hc ▸ hm), Or.inr hm⟩
      · rintro ⟨h1, h2 | h2⟩
        · exact absurd h2 h1
        · exact h2
    · intro m hm
      by_cases hmn : m = n
      · subst hmn
        rw [← eq']
        exact BinHeap.pop_ind_popped _ _ _ er
      · have hmq : m ∉ q.data := fun hc => by
          rw [hp.mem_iff, List.mem_cons] at hc
          exact hc.elim hmn hm
        rw [← eq', BinHeap.pop_frame _ _ _ hmq]
        exact h.absent m hmq
    · intro sw
      rw [← eq']
      exact BinHeap.pop_ordered (BinHeap.strictWeak_predOf sw key) _ (h.ord sw)

/-- `pushupdate` of a node whose key has changed, open or not. -/
theorem HRep.pushupdate (h : HRep lt key q s) {n : Nat} (hk : ∀ m, m ≠ n → key' m = key m) :
    ∃ q', BinHeap.pushupdate (BinHeap.predOf lt key') q n (q.ind n) = .ok q' ∧ HRep lt key' q' (insert n s) := by
  unfold BinHeap.pushupdate
  by_cases hn : n ∈ s
  · have hi := h.ind_nonneg hn
    rw [if_neg (by omega), Finset.insert_eq_of_mem hn]
    obtain ⟨j, hj, ej⟩ := List.getElem_of_mem (h.mem.2 hn)
    have hind : q.ind n = (j : Int) := by rw [← ej]; exact h.ind j hj
    have eu := BinHeap.update_ok (BinHeap.predOf lt key') q j hj
    rw [hind]
    refine ⟨_, eu, ?_⟩
    have hperm := (BinHeap.pushdown_perm (BinHeap.predOf lt key') _ _
      (BinHeap.pullup_snd_lt (BinHeap.predOf lt key') q.mem j hj)).trans
      (BinHeap.pullup_perm (BinHeap.predOf lt key') q.mem j hj)
    rw [BinHeap.mem_toList] at hperm
    refine ⟨?_, ?_, fun m hm => ?_, fun sw => ?_⟩
    · exact BinHeap.toHeap_indExact
        (BinHeap.pushdown_indOk _ (BinHeap.pullup_indOk _ (BinHeap.heap_mem_indOk h.ind) _ _) _ _)
    · rw [← h.set]
      exact List.toFinset_eq_of_perm _ _ hperm
    · have hm' : m ∉ q.data := fun hc => hm (hperm.mem_iff.2 hc)
      rw [BinHeap.update_frame _ _ _ _ _ hm' eu]
      exact h.absent m hm'
    · have e : Function.update key n (key' n) = key' := by
        funext m
        by_cases hm : m = n
        · rw [hm, Function.update_self]
        · rw [Function.update_of_ne hm, hk m hm]
      obtain ⟨q', h1, h2, h3⟩ := BinHeap.update_correct sw (h.toHeapRep sw).inv (key' n) (h.mem.2 hn)
      dsimp only at h1
      rw [e] at h1 h3
      rw [hind, eu] at h1
      injection h1 with h1
      rw [h1]
      exact h3.ordered
  · rw [if_pos (h.ind_neg.2 hn)]
    exact ⟨_, rfl, (h.congr fun m hm => hk m fun e => hn (e ▸ hm)).push hn⟩

/-- `pushdown` does not touch what is above. -/
theorem pushdown_above {N : Nat} (pred : Nat → Nat → Bool) (m : BinHeap.Mem Nat N) (i : Nat) (hi : i < N) {j : Nat}
    (hj : j < i) : (BinHeap.pushdown pred m i hi).1.v[j] = m.v[j] := by
  induction m, i, hi using BinHeap.pushdown.induct (pred := pred) with
  | case1 m i hi s h =>
    unfold BinHeap.pushdown
    simp only [s] at h
    simp only [h, dif_pos]
  | case2 m i hi s h ih =>
    have hc := BinHeap.smallest_cases pred m.v i hi
    simp only [BinHeap.left, BinHeap.right] at hc
    simp only [s] at h ih
    rw [BinHeap.pushdown]
    simp only [h, dif_neg, not_false_eq_true]
    rw [ih (by omega)]
    simp only [BinHeap.Mem.swap]
    exact Vector.getElem_swap_of_ne (by omega) (by omega)

end Heap

/-! ## Resorting -/

/-- What the search relies on: `J` holds of every node that has a utility, `J0` of every node that is about to get
one. -/
structure UtilOk (p : Pol S C I A) (J0 J : S → C → I → Prop) : Prop where
  util : ∀ x e s g i, J0 s g i → ∃ r, p.util x e g i = .ok r ∧ J s g r.1
  again : ∀ s g i, J s g i → J0 s g i

/-- The rest of the policy keeps the invariant too. -/
structure PolOk [Add C] [Zero C] [LT C] (p : Pol S C I A) (d : Dom S O C) (s0 : S) (J0 J : S → C → I → Prop) : Prop
    extends UtilOk p J0 J where
  root : J0 s0 0 (p.rootI s0)
  kid : ∀ e s g i o, J s g i → o ∈ d.ops s →
    J0 (d.app s o) (g + d.cost s o) (p.kidI e i (d.cost s o) (d.app s o) (g + d.cost s o))
  regrade : ∀ s g i o g' i', J s g i → o ∈ d.ops s → J (d.app s o) g' i' → g + d.cost s o < g' →
    J0 (d.app s o) (g + d.cost s o) (p.regrade i' g' (g + d.cost s o))
  enter : ∀ x e s g i, J s g i → ∃ x', p.enter x e i = .ok x'

/-- Only the order fields differ. -/
def Same (nd nd' : Nat → BNode S O C I) : Prop :=
  ∀ m, (nd' m).state = (nd m).state ∧ (nd' m).g = (nd m).g ∧ (nd' m).parent = (nd m).parent ∧
    (nd' m).op = (nd m).op ∧ (nd' m).pop = (nd m).pop

theorem Same.refl (nd : Nat → BNode S O C I) : Same nd nd := fun _ => ⟨rfl, rfl, rfl, rfl, rfl⟩

theorem Same.trans {a b c : Nat → BNode S O C I} (h : Same a b) (h' : Same b c) : Same a c := fun m => by
  obtain ⟨a1, a2, a3, a4, a5⟩ := h m
  obtain ⟨b1, b2, b3, b4, b5⟩ := h' m
  exact ⟨b1.trans a1, b2.trans a2, b3.trans a3, b4.trans a4, b5.trans a5⟩

/-- `J` holds of node `n`. -/
def At (J : S → C → I → Prop) (nd : Nat → BNode S O C I) (n : Nat) : Prop := J (nd n).state (nd n).g (nd n).i

/-- `computeutil` leaves the member variables alone. -/
def UtilPure (p : Pol S C I A) : Prop := ∀ x e g i r, p.util x e g i = .ok r → r.2 = x

/-- The order fields of `n` are what `computeutil` makes of them now. -/
def Fresh (p : Pol S C I A) (x : A) (e : Nat) (nd nd' : Nat → BNode S O C I) (n : Nat) : Prop :=
  p.util x e (nd n).g (nd n).i = .ok ((nd' n).i, x)

section Resort
variable {p : Pol S C I A} {J0 J : S → C → I → Prop}

theorem reutil_ok (ok : UtilOk p J0 J) (e n : Nat) (x : (Nat → BNode S O C I) × A) (hn : At J x.1 n) :
    ∃ y, reutil p e n x = .ok y ∧ Same x.1 y.1 ∧ (∀ m, m ≠ n → y.1 m = x.1 m) ∧ At J y.1 n ∧
      (UtilPure p → y.2 = x.2 ∧ Fresh p x.2 e x.1 y.1 n) := by
  obtain ⟨r, h1, h2⟩ := ok.util x.2 e _ _ _ (ok.again _ _ _ hn)
  refine ⟨(Function.update x.1 n { x.1 n with i := r.1 }, r.2), ?_, ?_, ?_, ?_, ?_⟩
  · unfold reutil
    rw [h1, Outcome.map_ok]
  · intro m
    by_cases hm : m = n
    · subst hm
      dsimp only
      rw [Function.update_self]
      exact ⟨rfl, rfl, rfl, rfl, rfl⟩
    · dsimp only
      rw [Function.update_of_ne hm]
      exact ⟨rfl, rfl, rfl, rfl, rfl⟩
  · intro m hm
    exact Function.update_of_ne hm _ _
  · unfold At
    dsimp only
    rw [Function.update_self]
    exact h2
  · intro hp
    have := hp _ _ _ _ _ h1
    refine ⟨this, ?_⟩
    unfold Fresh
    dsimp only
    rw [Function.update_self, h1, ← this]

theorem resortTail_ok (ok : UtilOk p J0 J) (e : Nat) (ns : List Nat) (hnd : ns.Nodup)
    (x : (Nat → BNode S O C I) × A) (hn : ∀ n ∈ ns, At J x.1 n) :
    ∃ y, resortTail p e ns x = .ok y ∧ Same x.1 y.1 ∧ (∀ m, m ∉ ns → y.1 m = x.1 m) ∧ (∀ n ∈ ns, At J y.1 n) ∧
      (UtilPure p → y.2 = x.2 ∧ ∀ n ∈ ns, Fresh p x.2 e x.1 y.1 n) := by
  induction ns generalizing x with
  | nil => exact ⟨x, rfl, Same.refl _, fun _ _ => rfl, by simp, fun _ => ⟨rfl, by simp⟩⟩
  | cons n ns ih =>
    rw [List.nodup_cons] at hnd
    obtain ⟨y, h1, h2, h3, h4, h5⟩ := reutil_ok ok e n x (hn n List.mem_cons_self)
    obtain ⟨z, g1, g2, g3, g4, g5⟩ := ih hnd.2 y fun m hm => by
      have : m ≠ n := fun e => hnd.1 (e ▸ hm)
      unfold At
      rw [h3 m this]
      exact hn m (List.mem_cons_of_mem _ hm)
    have hz : z.1 n = y.1 n := g3 n hnd.1
    refine ⟨z, ?_, h2.trans g2, fun m hm => ?_, fun m hm => ?_, fun hp => ?_⟩
    · rw [resortTail, h1, Outcome.bind_ok, g1]
    · rw [List.mem_cons, not_or] at hm
      rw [g3 m hm.2, h3 m hm.1]
    · rcases List.mem_cons.1 hm with rfl | hm
      · unfold At; rw [hz]; exact h4
      · exact g4 m hm
    · obtain ⟨h6, h7⟩ := h5 hp
      obtain ⟨g6, g7⟩ := g5 hp
      refine ⟨g6.trans h6, fun m hm => ?_⟩
      rcases List.mem_cons.1 hm with rfl | hm
      · unfold Fresh at h7 ⊢; rw [hz]; exact h7
      · have := g7 m hm
        have hne : m ≠ n := fun e => hnd.1 (e ▸ hm)
        unfold Fresh at this ⊢
        rw [h6, h3 m hne] at this
        exact this

/-- A part of the heap whose keys do not change stays ordered. -/
theorem heapFrom_congr {κ : Type*} {lt : κ → κ → Bool} {key key' : Nat → κ} {N k : Nat} {v : Vector Nat N}
    (h : BinHeap.HeapFrom (BinHeap.predOf lt key) k v) (hk : ∀ j (hj : j < N), k ≤ j → key' v[j] = key v[j]) :
    BinHeap.HeapFrom (BinHeap.predOf lt key') k v := by
  intro j hj h0 hp
  have hpj : BinHeap.parent j ≤ j := by unfold BinHeap.parent; omega
  have := h j hj h0 hp
  simp only [BinHeap.le, BinHeap.predOf] at this ⊢
  rw [hk j hj (le_trans hp hpj), hk _ (BinHeap.parent_lt hj) hp]
  exact this

theorem indOk_inj {N : Nat} {m : BinHeap.Mem Nat N} (hm : BinHeap.IndOk m) :
    ∀ a b (ha : a < N) (hb : b < N), m.v[a] = m.v[b] → a = b := by
  intro a b ha hb hab
  have h1 := hm a ha
  have h2 := hm b hb
  rw [hab, h2] at h1
  omega

/-- One iteration of the second loop. -/
theorem sift_heap {N : Nat} {m : BinHeap.Mem Nat N} (hm : BinHeap.IndOk m) {i : Nat} (hi : i < N)
    {nd nd' : Nat → BNode S O C I} (hy : ∀ n, n ≠ m.v[i] → nd' n = nd n) (sw : BinHeap.StrictWeak p.pred)
    (hf : BinHeap.HeapFrom (BinHeap.predOf p.pred (bkey nd)) (i + 1) m.v) :
    BinHeap.HeapFrom (BinHeap.predOf p.pred (bkey nd')) i
      (BinHeap.pushdown (BinHeap.predOf p.pred (bkey nd')) m i hi).1.v := by
  have hf' : BinHeap.HeapFrom (BinHeap.predOf p.pred (bkey nd')) (i + 1) m.v := heapFrom_congr hf fun j hj hij => by
    unfold bkey
    rw [hy _ fun hc => by have := indOk_inj hm j i hj hi hc; omega]
  apply BinHeap.pushdown_heap (BinHeap.strictWeak_predOf sw _) i m i hi (Nat.le_refl _)
  · intro j hj hj0 hk hp
    exact hf' j hj hj0 (by omega)
  · intro j hj hj0 _ _ hk
    unfold BinHeap.parent at hk
    omega

theorem resortSift_ok (ok : UtilOk p J0 J) (e : Nat) {N : Nat} (i : Nat) (hi : i < N)
    (x : (Nat → BNode S O C I) × A) (m : BinHeap.Mem Nat N) (hm : BinHeap.IndOk m)
    (hn : ∀ j (hj : j < N), At J x.1 m.v[j]) :
    ∃ y m', resortSift p e i hi x m = .ok (y, m') ∧ Same x.1 y.1 ∧
      (∀ n, (∀ j (hj : j < N), j ≤ i → n ≠ m.v[j]) → y.1 n = x.1 n) ∧
      (∀ j (hj : j < N), At J y.1 m.v[j]) ∧ BinHeap.IndOk m' ∧ m'.v.toList.Perm m.v.toList ∧
      (∀ n, n ∉ m.v.toList → m'.ind n = m.ind n) ∧
      (BinHeap.StrictWeak p.pred → BinHeap.HeapFrom (BinHeap.predOf p.pred (bkey x.1)) (i + 1) m.v →
        BinHeap.HeapFrom (BinHeap.predOf p.pred (bkey y.1)) 0 m'.v) ∧
      (UtilPure p → y.2 = x.2 ∧ ∀ j (hj : j < N), j ≤ i → Fresh p x.2 e x.1 y.1 m.v[j]) := by
  have inj := indOk_inj hm
  induction i generalizing x m with
  | zero =>
    obtain ⟨y, h1, h2, h3, h4, h5⟩ := reutil_ok ok e m.v[0] x (hn 0 hi)
    refine ⟨y, (BinHeap.pushdown (BinHeap.predOf p.pred (bkey y.1)) m 0 hi).1, ?_, h2, fun n hne => ?_, ?_,
      BinHeap.pushdown_indOk _ hm _ _, BinHeap.pushdown_perm _ _ _ _, fun n hne => ?_, ?_, ?_⟩
    · rw [resortSift, h1, Outcome.map_ok]
    · exact h3 n (hne 0 hi le_rfl)
    · intro j hj
      by_cases hj0 : m.v[j] = m.v[0]
      · rw [hj0]; exact h4
      · unfold At
        rw [h3 _ hj0]
        exact hn j hj
    · exact BinHeap.pushdown_frame _ _ _ _ _ hne
    · intro sw hf
      exact sift_heap hm hi h3 sw hf
    · intro hp
      obtain ⟨h6, h7⟩ := h5 hp
      refine ⟨h6, fun j hj hj0 => ?_⟩
      obtain rfl : j = 0 := by omega
      exact h7
  | succ i ih =>
    obtain ⟨y, h1, h2, h3, h4, h5⟩ := reutil_ok ok e m.v[i + 1] x (hn _ hi)
    set m1 := (BinHeap.pushdown (BinHeap.predOf p.pred (bkey y.1)) m (i + 1) hi).1 with hm1
    have perm1 : m1.v.toList.Perm m.v.toList := BinHeap.pushdown_perm _ _ _ _
    have ok1 : BinHeap.IndOk m1 := BinHeap.pushdown_indOk _ hm _ _
    have above : ∀ j (hj : j < N), j ≤ i → m1.v[j] = m.v[j] := fun j hj hji =>
      pushdown_above _ _ _ _ (by omega)
    have all : ∀ (Q : Nat → Prop), (∀ j (hj : j < N), Q m.v[j]) ↔ ∀ j (hj : j < N), Q m1.v[j] := by
      intro Q
      have e1 : ∀ (w : Vector Nat N), (∀ j (hj : j < N), Q w[j]) ↔ ∀ n ∈ w.toList, Q n := by
        intro w
        constructor
        · intro h n hn
          obtain ⟨j, hj, e⟩ := List.getElem_of_mem hn
          rw [Vector.length_toList] at hj
          rw [← e, Vector.getElem_toList]
          exact h j hj
        · intro h j hj
          apply h
          rw [← Vector.getElem_toList (h := by rw [Vector.length_toList]; exact hj)]
          exact List.getElem_mem _
      rw [e1, e1]
      exact ⟨fun h n hn => h n (perm1.mem_iff.1 hn), fun h n hn => h n (perm1.mem_iff.2 hn)⟩
    have J1 : ∀ j (hj : j < N), At J y.1 m.v[j] := by
      intro j hj
      by_cases hj0 : m.v[j] = m.v[i + 1]
      · rw [hj0]; exact h4
      · unfold At
        rw [h3 _ hj0]
        exact hn j hj
    obtain ⟨z, m', g1, g2, g3, g4, g5, g6, g7, g8, g9⟩ := ih (by omega) y m1 ok1 ((all _).1 J1) (indOk_inj ok1)
    refine ⟨z, m', ?_, h2.trans g2, fun n hne => ?_, (all _).2 g4, g5, g6.trans perm1, fun n hne => ?_, ?_, ?_⟩
    · rw [resortSift, h1, Outcome.bind_ok, g1]
    · rw [g3 n fun j hj hji => by rw [above j hj hji]; exact hne j hj (by omega), h3 n (hne _ hi le_rfl)]
    · rw [g7 n fun hc => hne (perm1.mem_iff.1 hc)]
      exact BinHeap.pushdown_frame _ _ _ _ _ hne
    · intro sw hf
      exact g8 sw (sift_heap hm hi h3 sw hf)
    · intro hp
      obtain ⟨h6, h7⟩ := h5 hp
      obtain ⟨g10, g11⟩ := g9 hp
      refine ⟨g10.trans h6, fun j hj hji => ?_⟩
      by_cases hj1 : j = i + 1
      · subst hj1
        have : z.1 m.v[i + 1] = y.1 m.v[i + 1] := g3 _ fun k hk hki hc => by
          rw [above k hk hki] at hc
          have := inj _ _ _ _ hc
          omega
        unfold Fresh at h7 ⊢
        rw [this]
        exact h7
      · have := g11 j hj (by omega)
        rw [above j hj (by omega)] at this
        unfold Fresh at this ⊢
        rw [h6, h3 _ fun hc => hj1 (inj _ _ _ _ hc)] at this
        exact this

end Resort

/-! ## Refinement -/

section Refine
variable [DecidableEq S] [DecidableEq O] [AddCommGroup C] [LinearOrder C] [IsOrderedAddMonoid C]
  {p : Pol S C I A} {d : Dom S O C} {s0 : S} {J0 J : S → C → I → Prop}

/-- The concrete state stands for the abstract state. -/
structure Ref (p : Pol S C I A) (J : S → C → I → Prop) (c : BSt S O C I A) (st : St S O C Unit) : Prop where
  next : c.next = st.next
  expd : c.expd = st.expd
  gend : c.gend = st.gend
  dups : c.dups = st.dups
  reopnd : c.reopnd = st.reopnd
  nd : ∀ i < st.next, (c.nd i).state = (st.nd i).state ∧ (c.nd i).g = (st.nd i).g ∧
    (c.nd i).parent = (st.nd i).parent ∧ (c.nd i).op = (st.nd i).op ∧ (c.nd i).pop = (st.nd i).pop
  q : HRep p.pred (bkey c.nd) c.q (opens st)
  closed : c.closed = st.closed
  cl : ∀ s i, st.closed s = some i → i < st.next ∧ (st.nd i).state = s
  J : ∀ i < st.next, At J c.nd i

theorem Ref.aux {c : BSt S O C I A} {st : St S O C Unit} (r : Ref p J c st) (x : A) : Ref p J { c with aux := x } st :=
  ⟨r.next, r.expd, r.gend, r.dups, r.reopnd, r.nd, r.q, r.closed, r.cl, r.J⟩

theorem Ref.gend1 {c : BSt S O C I A} {st : St S O C Unit} (r : Ref p J c st) :
    Ref p J { c with gend := c.gend + 1 } { st with gend := st.gend + 1 } :=
  ⟨r.next, r.expd, congrArg (· + 1) r.gend, r.dups, r.reopnd, r.nd, r.q, r.closed, r.cl, r.J⟩

theorem Ref.expd1 {c : BSt S O C I A} {st : St S O C Unit} (r : Ref p J c st) :
    Ref p J { c with expd := c.expd + 1 } { st with expd := st.expd + 1 } :=
  ⟨r.next, congrArg (· + 1) r.expd, r.gend, r.dups, r.reopnd, r.nd, r.q, r.closed, r.cl, r.J⟩

theorem ref_init (ok : PolOk p d s0 J0 J) (x : A) :
    ∃ c, binit p d x s0 = .ok c ∧ Ref p J c (init d (anyAlg S C p.dropdups) s0) := by
  obtain ⟨r, h1, h2⟩ := ok.util (p.start x) 0 _ _ _ ok.root
  unfold binit
  rw [h1, Outcome.bind_ok]
  have hlt : ∀ i, i < (init d (anyAlg S C p.dropdups) s0).next → i = 0 := fun i hi => by
    have : i < 1 := hi
    omega
  refine ⟨_, rfl, rfl, rfl, rfl, rfl, rfl, fun i hi => ⟨rfl, rfl, rfl, rfl, rfl⟩, ?_, rfl, ?_, fun i hi => h2⟩
  · have : opens (init d (anyAlg S C p.dropdups) s0) = insert 0 ∅ := by
      ext i
      rw [mem_opens, Finset.mem_insert]
      constructor
      · rintro ⟨h, -⟩; exact Or.inl (hlt i h)
      · rintro (rfl | h)
        · exact ⟨Nat.zero_lt_one, rfl⟩
        · exact absurd h (by simp)
    rw [this]
    exact hrep_empty.push (by simp)
  · intro s i h
    have h : Function.update (fun _ => none) s0 (some 0) s = some i := h
    by_cases hs : s = s0
    · subst hs
      rw [Function.update_self] at h
      injection h with h
      subst h
      exact ⟨Nat.zero_lt_one, rfl⟩
    · rw [Function.update_of_ne hs] at h
      exact absurd h (by simp)

theorem ref_considerkid (ok : PolOk p d s0 J0 J) {c : BSt S O C I A} {st : St S O C Unit} (r : Ref p J c st) {n : Nat}
    (hn : n < st.next) {o : O} (ho : o ∈ d.ops (st.nd n).state) :
    ∃ c', bconsiderkid p d n o c = .ok c' ∧ Ref p J c' (considerkid d (anyAlg S C p.dropdups) n o st) := by
  obtain ⟨en1, en2, -, -, -⟩ := r.nd n hn
  have hJn := r.J n hn
  unfold At at hJn
  rw [en1, en2] at hJn
  unfold bconsiderkid considerkid
  dsimp only
  rw [r.closed, en1, en2]
  set t := d.app (st.nd n).state o with ht
  set g := (st.nd n).g + d.cost (st.nd n).state o with hg
  cases hc : st.closed t with
  | some k =>
    dsimp only
    obtain ⟨k1, k2⟩ := r.cl t k hc
    obtain ⟨ek1, ek2, ek3, ek4, ek5⟩ := r.nd k k1
    have hJk := r.J k k1
    unfold At at hJk
    rw [ek1, ek2, k2] at hJk
    rw [ek2]
    show ∃ c', (if p.dropdups = true ∨ _ then _ else _) = _ ∧ Ref p J c' (if p.dropdups = true ∨ _ then _ else _)
    by_cases hd : p.dropdups = true ∨ (st.nd k).g ≤ g
    · rw [if_pos hd, if_pos hd]
      exact ⟨_, rfl, r.next, r.expd, r.gend, congrArg (· + 1) r.dups, r.reopnd, r.nd, r.q, rfl, r.cl, r.J⟩
    · rw [if_neg hd, if_neg hd]
      rw [not_or, not_le] at hd
      obtain ⟨u, u1, u2⟩ := ok.util c.aux c.expd _ _ _ (ok.regrade _ _ _ _ _ _ hJn ho hJk hd.2)
      rw [u1, Outcome.bind_ok]
      set nd' : Nat → BNode S O C I := Function.update c.nd k { c.nd k with
        g := g, i := u.1, parent := some n, op := o, pop := d.rev (st.nd n).state o } with hnd'
      have nd1 : nd' k = { c.nd k with
        g := g, i := u.1, parent := some n, op := o, pop := d.rev (st.nd n).state o } := Function.update_self _ _ _
      have nd2 : ∀ m, m ≠ k → nd' m = c.nd m := fun m hm => Function.update_of_ne hm _ _
      obtain ⟨q', q1, q2⟩ := r.q.pushupdate (key' := bkey nd') (n := k) fun m hm => by
        unfold bkey; rw [nd2 m hm]
      rw [q1, Outcome.bind_ok]
      set st' : St S O C Unit := { st with
        dups := st.dups + 1
        reopnd := if (st.nd k).isopen = true then st.reopnd else st.reopnd + 1
        nd := Function.update st.nd k { st.nd k with
          g := g, p := (), parent := some n, op := o, pop := d.rev (st.nd n).state o, isopen := true } } with hst'
      have st1 : st'.nd k = { st.nd k with
          g := g, p := (), parent := some n, op := o, pop := d.rev (st.nd n).state o, isopen := true } :=
        Function.update_self _ _ _
      have st2 : ∀ m, m ≠ k → st'.nd m = st.nd m := fun m hm => Function.update_of_ne hm _ _
      have hopn : opens st' = insert k (opens st) := by
        ext m
        rw [mem_opens, Finset.mem_insert, mem_opens]
        by_cases hm : m = k
        · subst hm
          rw [st1]
          exact ⟨fun _ => Or.inl rfl, fun _ => ⟨k1, rfl⟩⟩
        · rw [st2 m hm]
          exact ⟨fun h => Or.inr h, fun h => h.resolve_left hm⟩
      refine ⟨_, rfl, r.next, r.expd, r.gend, congrArg (· + 1) r.dups, ?_, ?_, ?_, rfl, ?_, ?_⟩
      · show (if c.q.ind k < 0 then c.reopnd + 1 else c.reopnd) =
          if (st.nd k).isopen = true then st.reopnd else st.reopnd + 1
        rw [r.reopnd]
        by_cases ho : (st.nd k).isopen = true
        · rw [if_pos ho, if_neg]
          have := r.q.ind_nonneg (mem_opens.2 ⟨k1, ho⟩)
          omega
        · rw [if_neg ho, if_pos]
          exact r.q.ind_neg.2 fun hm => ho (mem_opens.1 hm).2
      · intro i hi
        show (nd' i).state = (st'.nd i).state ∧ (nd' i).g = (st'.nd i).g ∧ (nd' i).parent = (st'.nd i).parent ∧
          (nd' i).op = (st'.nd i).op ∧ (nd' i).pop = (st'.nd i).pop
        by_cases hik : i = k
        · subst hik
          rw [nd1, st1]
          exact ⟨ek1, rfl, rfl, rfl, rfl⟩
        · rw [nd2 i hik, st2 i hik]
          exact r.nd i hi
      · show HRep p.pred (bkey nd') q' (opens st')
        rw [hopn]
        exact q2
      · intro s i hs
        obtain ⟨h1, h2⟩ := r.cl s i hs
        refine ⟨h1, ?_⟩
        show (st'.nd i).state = s
        by_cases hik : i = k
        · subst hik; rw [st1]; exact h2
        · rw [st2 i hik]; exact h2
      · intro i hi
        show J (nd' i).state (nd' i).g (nd' i).i
        by_cases hik : i = k
        · subst hik
          rw [nd1]
          dsimp only
          rw [ek1, k2]
          exact u2
        · rw [nd2 i hik]
          exact r.J i hi
  | none =>
    dsimp only
    obtain ⟨u, u1, u2⟩ := ok.util c.aux c.expd _ _ _ (ok.kid c.expd _ _ _ _ hJn ho)
    rw [u1, Outcome.bind_ok]
    rw [r.next]
    set nd' : Nat → BNode S O C I := Function.update c.nd st.next
      ⟨t, g, u.1, some n, o, d.rev (st.nd n).state o⟩ with hnd'
    have nd1 : nd' st.next = ⟨t, g, u.1, some n, o, d.rev (st.nd n).state o⟩ := Function.update_self _ _ _
    have nd2 : ∀ m, m ≠ st.next → nd' m = c.nd m := fun m hm => Function.update_of_ne hm _ _
    set st' : St S O C Unit := { st with
      nd := Function.update st.nd st.next ⟨t, g, (), some n, o, d.rev (st.nd n).state o, true⟩
      next := st.next + 1
      closed := Function.update st.closed t (some st.next) } with hst'
    have st1 : st'.nd st.next = ⟨t, g, (), some n, o, d.rev (st.nd n).state o, true⟩ := Function.update_self _ _ _
    have st2 : ∀ m, m ≠ st.next → st'.nd m = st.nd m := fun m hm => Function.update_of_ne hm _ _
    have hnot : st.next ∉ opens st := fun h => absurd (mem_opens.1 h).1 (lt_irrefl _)
    have hopn : opens st' = insert st.next (opens st) := by
      ext m
      rw [mem_opens, Finset.mem_insert, mem_opens]
      show m < st.next + 1 ∧ _ ↔ _
      by_cases hm : m = st.next
      · subst hm
        rw [st1]
        exact ⟨fun _ => Or.inl rfl, fun _ => ⟨Nat.lt_succ_self _, rfl⟩⟩
      · rw [st2 m hm]
        constructor
        · rintro ⟨h1, h2⟩; exact Or.inr ⟨by omega, h2⟩
        · rintro (h | ⟨h1, h2⟩)
          · exact absurd h hm
          · exact ⟨by omega, h2⟩
    refine ⟨_, rfl, rfl, r.expd, r.gend, r.dups, r.reopnd, ?_, ?_, rfl, ?_, ?_⟩
    · intro i hi
      have hi : i < st.next + 1 := hi
      show (nd' i).state = (st'.nd i).state ∧ (nd' i).g = (st'.nd i).g ∧ (nd' i).parent = (st'.nd i).parent ∧
          (nd' i).op = (st'.nd i).op ∧ (nd' i).pop = (st'.nd i).pop
      by_cases hik : i = st.next
      · subst hik
        rw [nd1, st1]
        exact ⟨rfl, rfl, rfl, rfl, rfl⟩
      · rw [nd2 i hik, st2 i hik]
        exact r.nd i (by omega)
    · show HRep p.pred (bkey nd') _ (opens st')
      rw [hopn]
      refine HRep.push (r.q.congr fun m hm => ?_) hnot
      unfold bkey
      rw [nd2 m fun e => hnot (e ▸ hm)]
    · intro s i hs
      have hs : Function.update st.closed t (some st.next) s = some i := hs
      show i < st.next + 1 ∧ (st'.nd i).state = s
      by_cases hst : s = t
      · subst hst
        rw [Function.update_self] at hs
        injection hs with hs
        subst hs
        rw [st1]
        exact ⟨Nat.lt_succ_self _, rfl⟩
      · rw [Function.update_of_ne hst] at hs
        obtain ⟨h1, h2⟩ := r.cl s i hs
        rw [st2 i (by omega)]
        exact ⟨by omega, h2⟩
    · intro i hi
      have hi : i < st.next + 1 := hi
      show J (nd' i).state (nd' i).g (nd' i).i
      by_cases hik : i = st.next
      · subst hik
        rw [nd1]
        exact u2
      · rw [nd2 i hik]
        exact r.J i (by omega)

theorem ref_tryops (ok : PolOk p d s0 J0 J) (os : List O) {c : BSt S O C I A} {st : St S O C Unit} (r : Ref p J c st)
    {n : Nat} (hn : n < st.next) (ho : ∀ o ∈ os, o ∈ d.ops (st.nd n).state) :
    ∃ c', btryops p d n os c = .ok c' ∧ Ref p J c' (os.foldl (tryop d (anyAlg S C p.dropdups) n) st) := by
  induction os generalizing c st with
  | nil => exact ⟨c, rfl, r⟩
  | cons o os ih =>
    rw [btryops, List.foldl_cons]
    have hs := tryop_state (d := d) (a := anyAlg S C p.dropdups) (n := n) (o := o) hn
    have hnx := tryop_next (d := d) (a := anyAlg S C p.dropdups) st n o
    have ho' : ∀ o' ∈ os, o' ∈ d.ops ((tryop d (anyAlg S C p.dropdups) n st o).nd n).state := fun o' h' => by
      rw [hs]; exact ho o' (List.mem_cons_of_mem _ h')
    rw [(r.nd n hn).2.2.2.2]
    by_cases hp : o = (st.nd n).pop
    · rw [if_pos hp]
      have e : tryop d (anyAlg S C p.dropdups) n st o = st := by unfold tryop; rw [if_pos hp]
      rw [e] at ho' ⊢
      exact ih r hn ho'
    · rw [if_neg hp]
      obtain ⟨c1, h1, r1⟩ := ref_considerkid ok r.gend1 hn (ho o List.mem_cons_self)
      rw [h1, Outcome.bind_ok]
      have e : tryop d (anyAlg S C p.dropdups) n st o =
          considerkid d (anyAlg S C p.dropdups) n o { st with gend := st.gend + 1 } := by
        unfold tryop; rw [if_neg hp]
      rw [← e] at r1
      exact ih r1 (lt_of_lt_of_le hn hnx) ho'

theorem ref_expand (ok : PolOk p d s0 J0 J) {c : BSt S O C I A} {st : St S O C Unit} (r : Ref p J c st)
    {n : Nat} (hn : n < st.next) :
    ∃ c', bexpand p d n c = .ok c' ∧ Ref p J c' (expand d (anyAlg S C p.dropdups) n st) := by
  obtain ⟨x, hx⟩ := ok.enter c.aux (c.expd + 1) _ _ _ (r.J n hn)
  unfold bexpand
  rw [hx, Outcome.bind_ok, (r.nd n hn).1]
  obtain ⟨c', h1, h2⟩ := ref_tryops ok (d.ops (st.nd n).state) (r.expd1.aux x) (n := n) hn fun o ho => ho
  have h1' : btryops p d n (d.ops (st.nd n).state) { c with expd := c.expd + 1, aux := x } = .ok c' := h1
  rw [h1', Outcome.map_ok]
  exact ⟨_, rfl, h2.aux _⟩

/-- Rebuilding the heap: the same nodes, in order, with utilities computed anew. -/
theorem reinitheap_ok (ok : UtilOk p J0 J) {c : BSt S O C I A} {s : Finset Nat}
    (hi : BinHeap.IndExact c.q) (hset : c.q.data.toFinset = s) (habs : ∀ n, n ∉ c.q.data → c.q.ind n = -1)
    (hJ : ∀ i ∈ s, At J c.nd i) :
    ∃ c', reinitheap p c = .ok c' ∧ c' = { c with nd := c'.nd, q := c'.q, aux := c'.aux } ∧ Same c.nd c'.nd ∧
      (∀ n, n ∉ s → c'.nd n = c.nd n) ∧ HRep p.pred (bkey c'.nd) c'.q s ∧ (∀ i ∈ s, At J c'.nd i) ∧
      (UtilPure p → c'.aux = c.aux ∧ ∀ n ∈ s, Fresh p c.aux c.expd c.nd c'.nd n) := by
  have hmem : ∀ {n}, n ∈ c.q.data ↔ n ∈ s := fun {n} => by rw [← hset, List.mem_toFinset]
  unfold reinitheap
  split_ifs with h0
  · rw [List.length_eq_zero_iff] at h0
    have hs : s = ∅ := by rw [← hset, h0]; rfl
    exact ⟨c, rfl, rfl, Same.refl _, fun _ _ => rfl,
      ⟨hi, hset, habs, fun _ => by rw [h0]; exact fun j hj => absurd hj (by simp)⟩, hJ, fun _ => ⟨rfl, by rw [hs]; simp⟩⟩
  have hnd := BinHeap.indExact_nodup hi
  set k := c.q.data.length / 2 with hk
  have hsub : ∀ n ∈ (c.q.data.drop (k + 1)).reverse, n ∈ s := fun n hn => by
    rw [List.mem_reverse] at hn
    exact hmem.1 (List.mem_of_mem_drop hn)
  obtain ⟨x, h1, h2, h3, h4, h5⟩ := resortTail_ok ok c.expd (c.q.data.drop (k + 1)).reverse
    (List.nodup_reverse.2 (hnd.sublist (List.drop_sublist _ _))) (c.nd, c.aux) fun n hn => hJ n (hsub n hn)
  have hJx : ∀ i ∈ s, At J x.1 i := fun i hi => by
    by_cases hm : i ∈ (c.q.data.drop (k + 1)).reverse
    · exact h4 i hm
    · unfold At
      rw [h3 i hm]
      exact hJ i hi
  have hel : ∀ j (hj : j < c.q.data.length), c.q.mem.v[j] = c.q.data[j] := BinHeap.mem_getElem c.q
  obtain ⟨y, m', g1, g2, g3, g4, g5, g6, g7, g8, g9⟩ := resortSift_ok ok c.expd k (by omega) x c.q.mem
    (BinHeap.heap_mem_indOk hi) fun j hj => by
      rw [hel j hj]
      exact hJx _ (hmem.1 (List.getElem_mem hj))
  rw [BinHeap.mem_toList] at g6 g7
  rw [h1, Outcome.bind_ok, g1, Outcome.map_ok]
  have outside : ∀ n, n ∉ s → y.1 n = c.nd n := fun n hn => by
    rw [g3 n fun j hj _ hc => hn (by rw [hc, hel j hj]; exact hmem.1 (List.getElem_mem hj)),
      h3 n fun hc => hn (hsub n hc)]
  refine ⟨_, rfl, rfl, h2.trans g2, outside, ⟨BinHeap.toHeap_indExact g5, ?_, ?_, ?_⟩, ?_, ?_⟩
  · rw [← hset]
    exact List.toFinset_eq_of_perm _ _ g6
  · intro n hn
    have hn' : n ∉ c.q.data := fun hc => hn (g6.mem_iff.2 hc)
    exact (g7 n hn').trans (habs n hn')
  · intro sw
    apply BinHeap.toHeap_ordered
    refine g8 sw ?_
    intro j hj hj0 hp
    unfold BinHeap.parent at hp
    omega
  · intro i hi
    obtain ⟨j, hj, e⟩ := List.getElem_of_mem (hmem.2 hi)
    have := g4 j hj
    rw [hel j hj, e] at this
    exact this
  · intro hp
    obtain ⟨h6, h7⟩ := h5 hp
    obtain ⟨g10, g11⟩ := g9 hp
    refine ⟨g10.trans h6, fun n hn => ?_⟩
    obtain ⟨j, hj, e⟩ := List.getElem_of_mem (hmem.2 hn)
    by_cases hjk : j ≤ k
    · have := g11 j hj hjk
      rw [hel j hj, e] at this
      have hne : n ∉ (c.q.data.drop (k + 1)).reverse := by
        rw [List.mem_reverse]
        intro hc
        obtain ⟨i, hi, ei⟩ := List.getElem_of_mem hc
        rw [List.getElem_drop] at ei
        have := (List.Nodup.getElem_inj_iff hnd).1 (ei.trans e.symm)
        omega
      unfold Fresh at this ⊢
      rw [h6, h3 n hne] at this
      exact this
    · have hin : n ∈ (c.q.data.drop (k + 1)).reverse := by
        rw [List.mem_reverse, ← e]
        have : c.q.data[j] = (c.q.data.drop (k + 1))[j - (k + 1)]'(by rw [List.length_drop]; omega) := by
          rw [List.getElem_drop]
          congr 1
          omega
        rw [this]
        exact List.getElem_mem _
      have h8 := h7 n hin
      have : y.1 n = x.1 n := g3 n fun i hi hik hc => by
        rw [hel i hi, ← e] at hc
        have := (List.Nodup.getElem_inj_iff hnd).1 hc
        omega
      unfold Fresh at h8 ⊢
      dsimp only at h8 ⊢
      rw [this]
      exact h8

theorem ref_updateopen (ok : PolOk p d s0 J0 J) {c : BSt S O C I A} {st : St S O C Unit} (r : Ref p J c st) :
    ∃ c', updateopen p c = .ok c' ∧ Ref p J c' st := by
  unfold updateopen
  cases p.resort c.aux c.expd with
  | none => exact ⟨c, rfl, r⟩
  | some x =>
    dsimp only
    have r1 := r.aux x
    obtain ⟨c', h1, h2, h3, h4, h5, h6, -⟩ := reinitheap_ok ok.toUtilOk r1.q.ind r1.q.set r1.q.absent fun i hi => r1.J i (mem_opens.1 hi).1
    refine ⟨c', h1, ?_⟩
    rw [h2]
    refine ⟨r.next, r.expd, r.gend, r.dups, r.reopnd, fun i hi => ?_, h5, r.closed, r.cl, fun i hi => ?_⟩
    · obtain ⟨a1, a2, a3, a4, a5⟩ := h3 i
      obtain ⟨b1, b2, b3, b4, b5⟩ := r.nd i hi
      exact ⟨a1.trans b1, a2.trans b2, a3.trans b3, a4.trans b4, a5.trans b5⟩
    · by_cases ho : i ∈ opens st
      · exact h6 i ho
      · show J (c'.nd i).state (c'.nd i).g (c'.nd i).i
        rw [h4 i ho]
        exact r.J i hi

/-- A node leaves the open list. -/
theorem Ref.popn {c : BSt S O C I A} {st : St S O C Unit} (r : Ref p J c st) {n : Nat} {q : BinHeap.Heap Nat}
    (hq : HRep p.pred (bkey c.nd) q ((opens st).erase n)) : Ref p J { c with q := q } (pop n st) := by
  have p1 : (pop n st).nd n = { st.nd n with isopen := false } := Function.update_self _ _ _
  have p2 : ∀ i, i ≠ n → (pop n st).nd i = st.nd i := fun i hi => Function.update_of_ne hi _ _
  refine ⟨r.next, r.expd, r.gend, r.dups, r.reopnd, ?_, ?_, r.closed, ?_, r.J⟩
  · intro i hi
    by_cases hin : i = n
    · subst hin
      rw [p1]
      exact r.nd i hi
    · rw [p2 i hin]
      exact r.nd i hi
  · have : opens (pop n st) = (opens st).erase n := by
      ext i
      rw [Finset.mem_erase, mem_opens, mem_opens]
      show i < st.next ∧ _ ↔ _
      by_cases hin : i = n
      · subst hin
        rw [p1]
        simp
      · rw [p2 i hin]
        exact ⟨fun h => ⟨hin, h⟩, fun h => h.2⟩
    rw [this]
    exact hq
  · intro s i hs
    obtain ⟨h1, h2⟩ := r.cl s i hs
    refine ⟨h1, ?_⟩
    by_cases hin : i = n
    · subst hin; rw [p1]; exact h2
    · rw [p2 i hin]; exact h2

theorem ref_empty {c : BSt S O C I A} {st : St S O C Unit} (r : Ref p J c st) : c.q.data = [] ↔ Empty st := by
  rw [← List.toFinset_eq_empty_iff, r.q.set]
  constructor
  · intro h m hm
    by_contra hc
    rw [Bool.not_eq_false] at hc
    have : m ∈ opens st := mem_opens.2 ⟨hm, hc⟩
    rw [h] at this
    exact absurd this (by simp)
  · intro h
    ext m
    rw [mem_opens]
    constructor
    · rintro ⟨h1, h2⟩; rw [h m h1] at h2; exact absurd h2 (by simp)
    · intro h; exact absurd h (by simp)

theorem blimit_iff {l : Limit} {timer : Nat → Bool} {c : BSt S O C I A} {st : St S O C Unit} (r : Ref p J c st) :
    blimit l timer c = true ↔ (timer c.expd = true ∨ l.reached st) := by
  unfold blimit Limit.reached
  rw [Bool.or_eq_true, Bool.or_eq_true, decide_eq_true_eq, decide_eq_true_eq, r.expd, r.gend, or_assoc]

theorem bsolpath_eq {c : BSt S O C I A} {st : St S O C Unit} (r : Ref p J c st)
    (hpar : ∀ i < st.next, ∀ j, (st.nd i).parent = some j → j < st.next) (fuel : Nat) {n : Nat} (hn : n < st.next) :
    bsolpath c.nd fuel n = solpath st.nd fuel n := by
  induction fuel generalizing n with
  | zero => rfl
  | succ fuel ih =>
    unfold bsolpath solpath
    obtain ⟨e1, -, e3, e4, -⟩ := r.nd n hn
    rw [e1, e3, e4]
    cases hp : (st.nd n).parent with
    | none => rfl
    | some m =>
      dsimp only
      rw [ih (hpar n hn m hp)]

/-- The order of the heap, if it is an order, is the order of the nodes popped. -/
def Popped (p : Pol S C I A) (c : BSt S O C I A) (st : St S O C Unit) (n : Nat) : Prop :=
  BinHeap.StrictWeak p.pred → ∀ m ∈ opens st, p.pred (bkey c.nd m) (bkey c.nd n) = false

theorem ref_pop {c : BSt S O C I A} {st : St S O C Unit} (r : Ref p J c st) (he : c.q.data ≠ []) :
    ∃ n q, BinHeap.pop (BinHeap.predOf p.pred (bkey c.nd)) c.q = (some n, q) ∧
      Least (anyAlg S C p.dropdups) st n ∧ Popped p c st n ∧ Ref p J { c with q := q } (pop n st) := by
  obtain ⟨n, q, h1, h2, h3, h4⟩ := r.q.pop he
  obtain ⟨n1, n2⟩ := mem_opens.1 h2
  exact ⟨n, q, h1, ⟨n1, n2, fun _ _ _ => rfl⟩, h3, r.popn h4⟩

/-- One iteration of the loop. -/
theorem brun_step (ok : PolOk p d s0 J0 J) (hd : CostOk d s0) {l : Limit} {timer : Nat → Bool} {c : BSt S O C I A}
    {st : St S O C Unit} (r : Ref p J c st) (hr : Reach d (anyAlg S C p.dropdups) s0 st) :
    ((Empty st ∨ timer c.expd = true ∨ l.reached st) ∧ ∀ fuel, brun p d l timer (fuel + 1) c = .ok (c, ([], []))) ∨
    (¬ l.reached st ∧ ∃ c' n, Least (anyAlg S C p.dropdups) st n ∧ d.goal (st.nd n).state = true ∧ Popped p c st n ∧
      Ref p J c' (pop n st) ∧ ∀ fuel, brun p d l timer (fuel + 1) c =
        (solpath st.nd (fuel + 1) n).map fun r => (c', r)) ∨
    (¬ l.reached st ∧ ∃ c' st', Ref p J c' st' ∧ Step d (anyAlg S C p.dropdups) st st' ∧
      ∀ fuel, brun p d l timer (fuel + 1) c = brun p d l timer fuel c') := by
  by_cases hstop : c.q.data = [] ∨ blimit l timer c = true
  · left
    refine ⟨?_, fun fuel => by rw [brun, if_pos hstop]⟩
    rw [ref_empty r, blimit_iff r] at hstop
    exact hstop
  right
  have hstop' := not_or.1 hstop
  have hlim : ¬ l.reached st := fun hl => hstop'.2 ((blimit_iff r).2 (Or.inr hl))
  obtain ⟨n, q, e1, e2, e3, e4⟩ := ref_pop r hstop'.1
  have es : (c.nd n).state = (st.nd n).state := (r.nd n e2.1).1
  by_cases hg : d.goal (st.nd n).state = true
  · left
    refine ⟨hlim, { c with q := q }, n, e2, hg, e3, e4, fun fuel => ?_⟩
    rw [brun, if_neg hstop, e1]
    dsimp only
    rw [es, if_pos hg, bsolpath_eq r (inv_par (inv_reach hd (anyAlg_ok _) hr)) _ e2.1]
  · right
    refine ⟨hlim, ?_⟩
    obtain ⟨c1, h1, r1⟩ := ref_expand ok e4 (n := n) e2.1
    obtain ⟨c2, h2, r2⟩ := ref_updateopen ok r1
    refine ⟨c2, _, r2, .mk e2 (by simpa using hg), fun fuel => ?_⟩
    rw [brun, if_neg hstop, e1]
    dsimp only
    rw [es, if_neg hg, h1, Outcome.bind_ok, h2, Outcome.bind_ok]

/-- The loop is never undefined and never fails an assertion. -/
theorem brun_safe (ok : PolOk p d s0 J0 J) (hd : CostOk d s0) {l : Limit} {timer : Nat → Bool} (fuel : Nat)
    {c : BSt S O C I A} {st : St S O C Unit} (r : Ref p J c st) (hr : Reach d (anyAlg S C p.dropdups) s0 st) :
    brun p d l timer fuel c = .nofuel ∨ ∃ x, brun p d l timer fuel c = .ok x := by
  induction fuel generalizing c st with
  | zero => exact Or.inl rfl
  | succ fuel ih =>
    rcases brun_step ok hd (l := l) (timer := timer) r hr with ⟨-, h⟩ | ⟨-, c', n, -, -, -, -, h⟩ | ⟨-, c', st', h1, h2, h3⟩
    · exact Or.inr ⟨_, h fuel⟩
    · rw [h]
      rcases solpath_cases (nd := st.nd) (fuel + 1) n with ⟨p, e⟩ | e
      · rw [e]; exact Or.inr ⟨_, rfl⟩
      · rw [e]; exact Or.inl rfl
    · rw [h3]
      exact ih h1 (.step hr h2)

/-- A run is a run of the abstract engine; the goal popped last is, if the order is one, least. -/
theorem brun_refines (ok : PolOk p d s0 J0 J) (hd : CostOk d s0) {l : Limit} {timer : Nat → Bool} (fuel : Nat)
    {c c' : BSt S O C I A} {st : St S O C Unit} {res : List S × List O}
    (r : Ref p J c st) (hr : ReachL d (anyAlg S C p.dropdups) s0 l st)
    (h : brun p d l timer fuel c = .ok (c', res)) :
    ∃ st', Run d (anyAlg S C p.dropdups) s0 l st' res ∧
      (c'.expd = st'.expd ∧ c'.gend = st'.gend ∧ c'.dups = st'.dups ∧ c'.reopnd = st'.reopnd) ∧
      ((∀ e, timer e = false) → res = ([], []) → Empty st' ∨ l.reached st') ∧
      (res ≠ ([], []) → ∃ c1 n fuel, Ref p J c1 st' ∧ ReachL d (anyAlg S C p.dropdups) s0 l st' ∧
        Least (anyAlg S C p.dropdups) st' n ∧ d.goal (st'.nd n).state = true ∧ Popped p c1 st' n ∧
        solpath st'.nd fuel n = .ok res) := by
  induction fuel generalizing c st with
  | zero => exact absurd h (by simp [brun])
  | succ fuel ih =>
    rcases brun_step ok hd (l := l) (timer := timer) r hr.reach with
      ⟨h0, h1⟩ | ⟨hlim, c1, n, h1, h2, h3, h4, h5⟩ | ⟨hlim, c1, st', h1, h2, h3⟩
    · rw [h1] at h
      injection h with h
      rw [Prod.mk.injEq] at h
      obtain ⟨rfl, rfl⟩ := h
      refine ⟨st, ?_, ⟨r.expd, r.gend, r.dups, r.reopnd⟩, fun ht _ => ?_, fun hne => absurd rfl hne⟩
      · rcases h0 with h0 | h0
        · exact .empty hr h0
        · exact .cut _ hr h0
      · rcases h0 with h0 | h0 | h0
        · exact Or.inl h0
        · rw [ht] at h0; exact absurd h0 (by simp)
        · exact Or.inr h0
    · rw [h5, Outcome.map_eq_ok] at h
      obtain ⟨x, g1, g2⟩ := h
      rw [Prod.mk.injEq] at g2
      obtain ⟨rfl, rfl⟩ := g2
      refine ⟨st, .found hr hlim h1 h2 (by rw [solpath_pop]; exact g1), ⟨h4.expd, h4.gend, h4.dups, h4.reopnd⟩, ?_,
        fun _ => ⟨c, n, fuel + 1, r, hr, h1, h2, h3, g1⟩⟩
      rintro - rfl
      exact absurd g1 (solpath_ne_nil _ _ _)
    · rw [h3] at h
      exact ih h1 (.step hr hlim h2) h

/-- The loop ends, with a result that does not depend on the fuel. -/
theorem brun_ends (ok : PolOk p d s0 J0 J) (hd : CostOk d s0) {l : Limit} {timer : Nat → Bool} {st : St S O C Unit}
    (hacc : Acc (fun st' st : St S O C Unit => Step d (anyAlg S C p.dropdups) st st') st) {c : BSt S O C I A}
    (r : Ref p J c st) (hr : Reach d (anyAlg S C p.dropdups) s0 st) :
    ∃ F x, ∀ fuel ≥ F, brun p d l timer fuel c = .ok x := by
  induction hacc generalizing c with
  | intro st _ ih =>
    rcases brun_step ok hd (l := l) (timer := timer) r hr with ⟨-, h⟩ | ⟨-, c', n, h1, -, -, -, h⟩ | ⟨-, c', st', h1, h2, h3⟩
    · refine ⟨1, (c, ([], [])), fun fuel hf => ?_⟩
      obtain ⟨k, rfl⟩ : ∃ k, fuel = k + 1 := ⟨fuel - 1, by omega⟩
      exact h k
    · obtain ⟨F, x, e, -⟩ := solpath_spec (inv_reach hd (anyAlg_ok _) hr) h1.1
      refine ⟨F + 1, (c', x), fun fuel hf => ?_⟩
      obtain ⟨k, rfl⟩ : ∃ k, fuel = k + 1 := ⟨fuel - 1, by omega⟩
      rw [h k, solpath_mono e (by omega), Outcome.map_ok]
    · obtain ⟨F, x, hx⟩ := ih st' h2 h1 (.step hr h2)
      refine ⟨F + 1, x, fun fuel hf => ?_⟩
      obtain ⟨k, rfl⟩ : ∃ k, fuel = k + 1 := ⟨fuel - 1, by omega⟩
      rw [h3]
      exact hx k (by omega)

end Refine

end Verif.Bugsy
