import Verif.Search.Algs
import Mathlib.Logic.Relation

/-!
# The `g` of a node taken out of the open list is exact

A node's `g` can be larger than the cost of the path along its parent pointers: when a better path to an ancestor is
found the ancestor is put back into the open list, and the nodes below it keep their values until it is expanded
again.  This file shows that a search ordered by `g + H(state)`, whatever the function `H` (over-estimating or
inconsistent, negative), never takes out a node in that situation: at that moment the `g` values along the parent
pointers are exactly the costs of the path.

The invariant: (J) for a node `a` that is not open, either all open nodes that do not lie below `a` or all open nodes
that lie below `a` have priority at least that of `a`; (K) an open node below another open node has a larger priority;
(L) a node whose `g` is not its parent's plus the cost of its operator has an open parent.
-/

namespace Verif.Search

open Relation

variable {S O C P : Type*}

/-- `j` is the parent of `i`. -/
def Par (nd : Nat → Node S O C P) (j i : Nat) : Prop := (nd i).parent = some j

/-- `j` is a proper ancestor of `i`. -/
def Anc (nd : Nat → Node S O C P) : Nat → Nat → Prop := TransGen (Par nd)

/-- `i` is `j` or lies below it. -/
def Sub (nd : Nat → Node S O C P) (j i : Nat) : Prop := j = i ∨ Anc nd j i

theorem Anc.congr {nd nd' : Nat → Node S O C P} (h : ∀ i, (nd' i).parent = (nd i).parent) {j i : Nat}
    (ha : Anc nd j i) : Anc nd' j i := by
  have key : ∀ b c, Par nd b c → Par nd' b c := fun b c e => (h c).trans e
  induction ha with
  | single hb => exact .single (key _ _ hb)
  | tail _ hb ih => exact .tail ih (key _ _ hb)

theorem Sub.trans {nd : Nat → Node S O C P} {a b c : Nat} (h : Sub nd a b) (h' : Anc nd b c) : Anc nd a c := by
  rcases h with rfl | h
  · exact h'
  · exact TransGen.trans h h'

/-- The last link. -/
theorem Anc.last {nd : Nat → Node S O C P} {j i : Nat} (h : Anc nd j i) : ∃ b, Par nd b i ∧ Sub nd j b := by
  cases h with
  | single h => exact ⟨j, h, .inl rfl⟩
  | tail h h' => exact ⟨_, h', .inr h⟩

theorem Sub.par {nd : Nat → Node S O C P} {j b i : Nat} (h : Sub nd j b) (h' : Par nd b i) : Anc nd j i := by
  rcases h with rfl | h
  · exact .single h'
  · exact .tail h h'

theorem anc_irrefl {nd : Nat → Node S O C P} {i : Nat} (h : Rooted nd i) : ¬ Anc nd i i := by
  induction h with
  | root h =>
    intro ha
    obtain ⟨b, h1, -⟩ := ha.last
    rw [Par, h] at h1
    exact absurd h1 (by simp)
  | @step i j h _ ih =>
    intro ha
    obtain ⟨b, h1, h2⟩ := ha.last
    rw [Par, h] at h1
    injection h1 with h1
    subst h1
    apply ih
    rcases h2 with e | h2
    · rw [Anc] at ha ⊢
      rw [e] at ha
      exact ha
    · exact TransGen.trans (.single h) h2

section Update
variable {nd nd' : Nat → Node S O C P} {k n : Nat}

/-- Hanging `k` below `n`. -/
structure Hang (nd nd' : Nat → Node S O C P) (k n : Nat) : Prop where
  ne : ∀ i, i ≠ k → nd' i = nd i
  par : (nd' k).parent = some n
  not : ¬ Sub nd k n

theorem Hang.anc_of (h : Hang nd nd' k n) {j i : Nat} (ha : Anc nd' j i) :
    Anc nd j i ∨ (Sub nd k i ∧ Sub nd j n) := by
  induction ha with
  | @single b hb =>
    by_cases e : b = k
    · subst e
      rw [Par, h.par] at hb
      injection hb with hb
      exact .inr ⟨.inl rfl, .inl hb.symm⟩
    · rw [Par, h.ne b e] at hb
      exact .inl (.single hb)
  | @tail b c _ hb ih =>
    by_cases e : c = k
    · subst e
      rw [Par, h.par] at hb
      injection hb with hb
      subst hb
      rcases ih with ih | ⟨ih, -⟩
      · exact .inr ⟨.inl rfl, .inr ih⟩
      · exact absurd ih h.not
    · rw [Par, h.ne c e] at hb
      rcases ih with ih | ⟨ih, ih2⟩
      · exact .inl (.tail ih hb)
      · exact .inr ⟨.inr (ih.par hb), ih2⟩

/-- What does not lie below `k` keeps its ancestors. -/
theorem Hang.anc_keep (h : Hang nd nd' k n) {j i : Nat} (ha : Anc nd j i) (hi : ¬ Sub nd k i) : Anc nd' j i := by
  induction ha with
  | @single b hb =>
    have e : b ≠ k := fun e => hi (.inl e.symm)
    exact .single (by rw [Par, h.ne b e]; exact hb)
  | @tail b c _ hb ih =>
    have e : c ≠ k := fun e => hi (.inl e.symm)
    exact .tail (ih fun hs => hi (.inr (hs.par hb))) (by rw [Par, h.ne c e]; exact hb)

theorem Hang.sub_n (h : Hang nd nd' k n) {j : Nat} : Sub nd' j n ↔ Sub nd j n := by
  constructor
  · rintro (e | ha)
    · exact .inl e
    · rcases h.anc_of ha with h1 | ⟨h1, -⟩
      · exact .inr h1
      · exact absurd h1 h.not
  · rintro (e | ha)
    · exact .inl e
    · exact .inr (h.anc_keep ha h.not)

/-- What lies below an ancestor of `n` (or `n`) still does. -/
theorem Hang.anc_stay (h : Hang nd nd' k n) {j i : Nat} (ha : Anc nd j i) (hj : Sub nd j n) : Anc nd' j i := by
  have key : ∀ c, c = k → Anc nd' j c := fun c e => by
    subst e
    exact (h.sub_n.2 hj).par h.par
  induction ha with
  | @single b hb =>
    by_cases e : b = k
    · exact key b e
    · exact .single (by rw [Par, h.ne b e]; exact hb)
  | @tail b c _ hb ih =>
    by_cases e : c = k
    · exact key c e
    · exact .tail ih (by rw [Par, h.ne c e]; exact hb)

/-- Ancestors of `k` now: `n` and its ancestors. -/
theorem Hang.anc_k (h : Hang nd nd' k n) {j : Nat} (ha : Anc nd' j k) : Sub nd j n := by
  obtain ⟨b, h1, h2⟩ := ha.last
  rw [Par, h.par] at h1
  injection h1 with h1
  subst h1
  exact h.sub_n.1 h2

end Update

section Order
variable [DecidableEq S] [DecidableEq O] [AddCommGroup C] [LinearOrder C] [IsOrderedAddMonoid C]
  {d : Dom S O C} {a : Alg S C P} {s0 : S}

/-- The priority. -/
def fval (H : S → C) (nd : Nat → Node S O C P) (i : Nat) : C := (nd i).g + H (nd i).state

/-- The algorithm takes out a node with the least `g + H(state)` and does not drop better duplicates. -/
structure ByF (a : Alg S C P) (H : S → C) : Prop where
  le : ∀ g s g' s', a.pred (a.initp g s, g) (a.initp g' s', g') = false → g' + H s' ≤ g + H s
  dd : a.dropdups = false

/-- The link above `i` is exact. -/
def Exact (d : Dom S O C) (nd : Nat → Node S O C P) (j i : Nat) : Prop :=
  (nd j).g + d.cost (nd j).state (nd i).op = (nd i).g

/-- The invariant between iterations. -/
structure TInv (d : Dom S O C) (H : S → C) (st : St S O C P) : Prop where
  J : ∀ c < st.next, (st.nd c).isopen = false →
    (∀ u < st.next, (st.nd u).isopen = true → ¬ Anc st.nd c u → fval H st.nd c ≤ fval H st.nd u) ∨
    (∀ u < st.next, (st.nd u).isopen = true → Anc st.nd c u → fval H st.nd c ≤ fval H st.nd u)
  K : ∀ m < st.next, ∀ y < st.next, (st.nd m).isopen = true → (st.nd y).isopen = true → Anc st.nd m y →
    fval H st.nd m < fval H st.nd y
  L : ∀ i < st.next, ∀ j, Par st.nd j i → (st.nd j).isopen = true ∨ Exact d st.nd j i

/-- The invariant while `n` is expanded. -/
structure TInvX (d : Dom S O C) (H : S → C) (st : St S O C P) (n : Nat) (rem : List O) : Prop where
  anc : ∀ j, Anc st.nd j n → (st.nd j).isopen = false
  J1 : ∀ c < st.next, (st.nd c).isopen = false → Sub st.nd c n →
    ∀ u < st.next, (st.nd u).isopen = true → ¬ Anc st.nd c u → fval H st.nd c ≤ fval H st.nd u
  J2 : ∀ c < st.next, (st.nd c).isopen = false → ¬ Sub st.nd c n →
    ∀ u < st.next, (st.nd u).isopen = true → Anc st.nd c u → fval H st.nd c ≤ fval H st.nd u
  K : ∀ m < st.next, ∀ y < st.next, (st.nd m).isopen = true → (st.nd y).isopen = true → Anc st.nd m y →
    fval H st.nd m < fval H st.nd y
  L : ∀ i < st.next, ∀ j, Par st.nd j i →
    (st.nd j).isopen = true ∨ Exact d st.nd j i ∨ (j = n ∧ (st.nd i).op ∈ rem)

theorem fval_congr {H : S → C} {nd nd' : Nat → Node S O C P} {i : Nat} (h : nd' i = nd i) :
    fval H nd' i = fval H nd i := by rw [fval, fval, h]

theorem InvX.anc_le {st : St S O C P} {n : Nat} {rem : List O} (hd : CostOk d s0) (h : InvX d a s0 st n rem)
    {j i : Nat} (hi : i < st.next) (ha : Anc st.nd j i) : j < st.next ∧ (st.nd j).g ≤ (st.nd i).g := by
  induction ha with
  | single hb => exact h.par_le hd _ hi _ hb
  | tail _ hb ih =>
    have h1 := h.par_le hd _ hi _ hb
    have h2 := ih h1.1
    exact ⟨h2.1, h2.2.trans h1.2⟩

/-- Hanging `k`, with a smaller `g` if it was known before, below `n` keeps the invariant. -/
theorem TInvX.hang {H : S → C} {st st' : St S O C P} {n k : Nat} {rem : List O} {o : O} (hx : InvX d a s0 st n (o :: rem))
    (hd : CostOk d s0)
    (ht : TInvX d H st n (o :: rem)) (hh : Hang st.nd st'.nd k n) (hop : (st'.nd k).isopen = true)
    (hk : (k < st.next ∧ st'.next = st.next ∧ (st'.nd k).state = (st.nd k).state ∧ (st'.nd k).g < (st.nd k).g) ∨
      (k = st.next ∧ st'.next = st.next + 1))
    (hex : Exact d st'.nd n k)
    (hrem : ∀ i < st.next, i ≠ k → Par st.nd n i → (st.nd i).op ≠ o) :
    TInvX d H st' n rem := by
  have hkn : k ≠ n := fun e => hh.not (.inl e)
  have hlt : ∀ i < st'.next, i ≠ k → i < st.next := fun i hi hik => by
    rcases hk with ⟨_, e, _⟩ | ⟨e1, e2⟩
    · omega
    · omega
  have hopn : ∀ i, i ≠ k → (st'.nd i).isopen = (st.nd i).isopen := fun i hi => by rw [hh.ne i hi]
  have hf : ∀ i, i ≠ k → fval H st'.nd i = fval H st.nd i := fun i hi => fval_congr (hh.ne i hi)
  have hcl : ∀ c, (st'.nd c).isopen = false → c ≠ k := fun c hc e => by
    subst e
    rw [hop] at hc
    exact absurd hc (by simp)
  refine ⟨?_, ?_, ?_, ?_, ?_⟩
  · intro j hj
    have h1 := hh.sub_n.1 (.inr hj)
    have hjk : j ≠ k := fun e => hh.not (e ▸ h1)
    rw [hopn j hjk]
    rcases h1 with e | h1
    · rw [e]; exact hx.cln
    · exact ht.anc j h1
  · intro c hc hco hs u hu huo hna
    have hck := hcl c hco
    have hs' := hh.sub_n.1 hs
    by_cases e : u = k
    · subst e
      exact absurd (hs.par hh.par) hna
    · rw [hf c hck, hf u e]
      rw [hopn c hck] at hco
      rw [hopn u e] at huo
      exact ht.J1 c (hlt c hc hck) hco hs' u (hlt u hu e) huo fun hb => hna (hh.anc_stay hb hs')
  · intro c hc hco hs u hu huo hna
    have hck := hcl c hco
    have hs' : ¬ Sub st.nd c n := fun h => hs (hh.sub_n.2 h)
    by_cases e : u = k
    · subst e
      exact absurd (hh.anc_k hna) hs'
    · rw [hf c hck, hf u e]
      rw [hopn c hck] at hco
      rw [hopn u e] at huo
      refine ht.J2 c (hlt c hc hck) hco hs' u (hlt u hu e) huo ?_
      rcases hh.anc_of hna with h1 | ⟨-, h1⟩
      · exact h1
      · exact absurd h1 hs'
  · intro m hm y hy hmo hyo hma
    have hnsub : Sub st.nd m n → m ≠ k → False := fun h1 e => by
      rw [hopn m e] at hmo
      rcases h1 with e1 | h1
      · rw [e1, hx.cln] at hmo; exact absurd hmo (by simp)
      · rw [ht.anc m h1] at hmo; exact absurd hmo (by simp)
    by_cases ey : y = k
    · subst ey
      have h1 := hh.anc_k hma
      exact (hnsub h1 fun e => hh.not (e ▸ h1)).elim
    rw [hf y ey]
    rw [hopn y ey] at hyo
    have hy' := hlt y hy ey
    by_cases em : m = k
    · subst em
      have h1 : Anc st.nd m y := by
        rcases hh.anc_of hma with h1 | ⟨-, h1⟩
        · exact h1
        · exact absurd h1 hh.not
      rcases hk with ⟨e1, e2, e3, e4⟩ | ⟨e1, -⟩
      · have hlt' : fval H st'.nd m < fval H st.nd m := by
          rw [fval, fval, e3]
          gcongr
        refine lt_of_lt_of_le hlt' ?_
        cases hmc : (st.nd m).isopen with
        | false => exact ht.J2 m e1 hmc hh.not y hy' hyo h1
        | true => exact (ht.K m e1 y hy' hmc hyo h1).le
      · have := (hx.anc_le hd hy' h1).1
        omega
    · rw [hf m em]
      rcases hh.anc_of hma with h1 | ⟨-, h1⟩
      · rw [hopn m em] at hmo
        exact ht.K m (hlt m hm em) y hy' hmo hyo h1
      · exact (hnsub h1 em).elim
  · intro i hi j hp
    by_cases ei : i = k
    · subst ei
      rw [Par, hh.par] at hp
      injection hp with hp
      subst hp
      exact .inr (.inl hex)
    rw [Par, hh.ne i ei] at hp
    have hi' := hlt i hi ei
    by_cases ej : j = k
    · subst ej
      exact .inl hop
    rcases ht.L i hi' j hp with h1 | h1 | ⟨h1, h2⟩
    · exact .inl (by rw [hopn j ej]; exact h1)
    · refine .inr (.inl ?_)
      rw [Exact, hh.ne i ei, hh.ne j ej]
      exact h1
    · refine .inr (.inr ⟨h1, ?_⟩)
      rw [hh.ne i ei]
      rw [List.mem_cons] at h2
      subst h1
      exact h2.resolve_left (hrem i hi' ei hp)

theorem TInvX.of_exact {H : S → C} {st : St S O C P} {n : Nat} {rem : List O} {o : O}
    (ht : TInvX d H st n (o :: rem)) (h : ∀ i < st.next, Par st.nd n i → (st.nd i).op = o → Exact d st.nd n i) :
    TInvX d H st n rem := by
  refine ⟨ht.anc, ht.J1, ht.J2, ht.K, ?_⟩
  intro i hi j hp
  rcases ht.L i hi j hp with h1 | h1 | ⟨rfl, h2⟩
  · exact .inl h1
  · exact .inr (.inl h1)
  · rw [List.mem_cons] at h2
    rcases h2 with h2 | h2
    · exact .inr (.inl (h i hi hp h2))
    · exact .inr (.inr ⟨rfl, h2⟩)

theorem InvX.parOk {st : St S O C P} {n : Nat} {rem : List O} (h : InvX d a s0 st n rem) {i j : Nat} (hi : i < st.next)
    (hj : Par st.nd j i) : j < st.next ∧ (st.nd i).op ∈ d.ops (st.nd j).state ∧
    (st.nd i).state = d.app (st.nd j).state (st.nd i).op ∧
    (st.nd i).pop = d.rev (st.nd j).state (st.nd i).op ∧
    (st.nd j).g + d.cost (st.nd j).state (st.nd i).op ≤ (st.nd i).g := by
  rcases Nat.eq_zero_or_pos i with rfl | h0
  · rw [Par, h.root.2.1] at hj; exact absurd hj (by simp)
  obtain ⟨j', e1, e2⟩ := h.par i hi (by omega)
  rw [Par, e1] at hj
  injection hj with hj
  subst hj
  exact e2

theorem tinvX_considerkid (hd : CostOk d s0) {H : S → C} (hb : a.dropdups = false) {st : St S O C P} {n : Nat}
    {rem : List O} {o : O} (hx : InvX d a s0 st n (o :: rem)) (ho : o ∈ d.ops (st.nd n).state)
    (ht : TInvX d H st n (o :: rem)) : TInvX d H (considerkid d a n o st) n rem := by
  have hcost := hd _ _ (hx.walk n hx.lt) _ ho
  have hst : ∀ i < st.next, Par st.nd n i → (st.nd i).op = o →
      st.closed (d.app (st.nd n).state o) = some i := fun i hi hp e => by
    have := (hx.parOk hi hp).2.2.1
    rw [e] at this
    rw [← this]
    exact hx.cl1 i hi
  unfold considerkid
  dsimp only
  cases hc : st.closed (d.app (st.nd n).state o) with
  | some k =>
    obtain ⟨hk1, hk2⟩ := hx.cl2 _ _ hc
    dsimp only
    by_cases hle : a.dropdups = true ∨ (st.nd k).g ≤ (st.nd n).g + d.cost (st.nd n).state o
    · rw [if_pos hle]
      have hle' : (st.nd k).g ≤ (st.nd n).g + d.cost (st.nd n).state o := by
        rcases hle with h1 | h1
        · rw [hb] at h1; exact absurd h1 (by simp)
        · exact h1
      have := ht.of_exact (fun i hi hp e => by
        have h1 := hst i hi hp e
        rw [hc] at h1
        injection h1 with h1
        subst h1
        have h2 := (hx.parOk hi hp).2.2.2.2
        rw [Exact]
        refine le_antisymm h2 ?_
        rw [e]; exact hle')
      exact ⟨this.anc, this.J1, this.J2, this.K, this.L⟩
    · rw [if_neg hle]
      rw [not_or, not_le] at hle
      have hsub : ¬ Sub st.nd k n := by
        intro hs
        have h1 : (st.nd k).g ≤ (st.nd n).g := by
          rcases hs with rfl | hs
          · exact le_rfl
          · exact (hx.anc_le hd hx.lt hs).2
        exact absurd (lt_of_lt_of_le hle.2 h1) (not_lt.2 (le_add_of_nonneg_right hcost))
      have hkn : n ≠ k := fun e => hsub (.inl e.symm)
      refine ht.hang (k := k) hx hd ⟨fun i hi => Function.update_of_ne hi _ _, ?_, hsub⟩ ?_ (.inl ⟨hk1, rfl, ?_, ?_⟩) ?_ ?_
      · dsimp only; rw [Function.update_self]
      · dsimp only; rw [Function.update_self]
      · dsimp only; rw [Function.update_self]
      · dsimp only; rw [Function.update_self]; exact hle.2
      · rw [Exact]; dsimp only; rw [Function.update_self, Function.update_of_ne hkn]
      · intro i hi hik hp e
        have h1 := hst i hi hp e
        rw [hc] at h1
        injection h1 with h1
        exact hik h1.symm
  | none =>
    dsimp only
    have hnn : n ≠ st.next := fun e => absurd hx.lt (by omega)
    have hsub : ¬ Sub st.nd st.next n := by
      rintro (e | hs)
      · exact hnn e.symm
      · have := (hx.anc_le hd hx.lt hs).1
        omega
    refine ht.hang (k := st.next) hx hd ⟨fun i hi => Function.update_of_ne hi _ _, ?_, hsub⟩ ?_ (.inr ⟨rfl, rfl⟩) ?_ ?_
    · dsimp only; rw [Function.update_self]
    · dsimp only; rw [Function.update_self]
    · rw [Exact]; dsimp only; rw [Function.update_self, Function.update_of_ne hnn]
    · intro i hi _ hp e
      have h1 := hst i hi hp e
      rw [hc] at h1
      exact absurd h1 (by simp)

theorem tinvX_tryop (hd : DomOk d s0) {H : S → C} (hb : a.dropdups = false) {st : St S O C P} {n : Nat} {rem : List O}
    {o : O} (hx : InvX d a s0 st n (o :: rem)) (ho : o ∈ d.ops (st.nd n).state) (ht : TInvX d H st n (o :: rem)) :
    TInvX d H (tryop d a n st o) n rem := by
  unfold tryop
  by_cases hp : o = (st.nd n).pop
  · rw [if_pos hp]
    refine ht.of_exact fun i hi hpar e => ?_
    exfalso
    rcases Nat.eq_zero_or_pos n with rfl | h0
    · rw [hx.root.2.2.2] at hp
      exact absurd (hp ▸ ho) (hd.nop _ _ (hx.walk 0 hx.pos))
    obtain ⟨j, e1, e2, e3, e4, e5, e6⟩ := hx.par n hx.lt (by omega)
    have hr : d.app (st.nd n).state o = (st.nd j).state := by
      rw [hp, e5, e4]
      rw [hp, e5, e4] at ho
      exact hd.rev _ _ (hx.walk j e2) _ e3 ho
    have h1 := (hx.parOk hi hpar).2.2.1
    rw [e, hr] at h1
    have h2 := hx.cl1 i hi
    rw [h1, hx.cl1 j e2] at h2
    injection h2 with h2
    subst h2
    exact anc_irrefl (hx.rooted n hx.lt) (.tail (.single hpar) e1)
  · rw [if_neg hp]
    exact tinvX_considerkid hd.cost hb (hx.stats st.expd (st.gend + 1) st.dups st.reopnd) ho
      ⟨ht.anc, ht.J1, ht.J2, ht.K, ht.L⟩

theorem tinvX_fold (hd : DomOk d s0) (ha : AlgOk a) {H : S → C} (hb : a.dropdups = false) (os : List O)
    {st : St S O C P} {n : Nat} (hx : InvX d a s0 st n os) (ho : ∀ o ∈ os, o ∈ d.ops (st.nd n).state)
    (ht : TInvX d H st n os) : TInvX d H (os.foldl (tryop d a n) st) n [] := by
  induction os generalizing st with
  | nil => exact ht
  | cons o os ih =>
    rw [List.foldl_cons]
    refine ih (invX_tryop hd.cost ha hx (ho o (by simp))) (fun o' ho' => ?_)
      (tinvX_tryop hd hb hx (ho o (by simp)) ht)
    rw [tryop_state hx.lt]
    exact ho o' (by simp [ho'])

/-- The priorities of the other open nodes are not smaller than that of the node taken out. -/
theorem Least.fval_le {H : S → C} (hb : ByF a H) {st : St S O C P} (h : Inv d a s0 st) {n : Nat} (hl : Least a st n)
    {m : Nat} (hm : m < st.next) (ho : (st.nd m).isopen = true) : fval H st.nd n ≤ fval H st.nd m := by
  have h1 := hl.2.2 m hm ho
  rw [h.prio n hl.1, h.prio m hm] at h1
  exact hb.le _ _ _ _ h1

/-- Nothing above the node taken out is open. -/
theorem TInv.anc_closed {H : S → C} (hb : ByF a H) {st : St S O C P} (h : Inv d a s0 st) (ht : TInv d H st) {n : Nat}
    (hl : Least a st n) {j : Nat} (hj : j < st.next) (ha : Anc st.nd j n) : (st.nd j).isopen = false := by
  by_contra hc
  rw [Bool.not_eq_false] at hc
  exact absurd (ht.K j hj n hl.1 hc hl.2.1 ha) (not_lt.2 (hl.fval_le hb h hj hc))

theorem Inv.anc_lt {st : St S O C P} (h : Inv d a s0 st) {j i : Nat} (hi : i < st.next) (ha : Anc st.nd j i) :
    j < st.next := by
  have hp : ∀ i < st.next, ∀ j, Par st.nd j i → j < st.next := fun i hi j hj => by
    rcases Nat.eq_zero_or_pos i with rfl | h0
    · rw [Par, h.root.2.1] at hj; exact absurd hj (by simp)
    obtain ⟨j', e1, e2, -⟩ := h.par i hi (by omega)
    rw [Par, e1] at hj
    injection hj with hj
    subst hj
    exact e2
  induction ha with
  | single hb => exact hp _ hi _ hb
  | tail _ hb ih => exact ih (hp _ hi _ hb)

theorem TInv.popped {H : S → C} (hb : ByF a H) {st : St S O C P} (h : Inv d a s0 st) (ht : TInv d H st) {n : Nat}
    (hl : Least a st n) : TInvX d H (pop n st) n (d.ops (st.nd n).state) := by
  have hself : (pop n st).nd n = { st.nd n with isopen := false } := Function.update_self _ _ _
  have hne : ∀ i, i ≠ n → (pop n st).nd i = st.nd i := fun i hi => Function.update_of_ne hi _ _
  have e4 : ∀ i, ((pop n st).nd i).parent = (st.nd i).parent := fun i => by
    by_cases e : i = n
    · rw [e, hself]
    · rw [hne i e]
  have ef : ∀ i, fval H (pop n st).nd i = fval H st.nd i := fun i => by
    by_cases e : i = n
    · rw [e, fval, fval, hself]
    · exact fval_congr (hne i e)
  have hA : ∀ j i, Anc (pop n st).nd j i ↔ Anc st.nd j i := fun j i =>
    ⟨Anc.congr fun i => (e4 i).symm, Anc.congr e4⟩
  have hS : ∀ j i, Sub (pop n st).nd j i ↔ Sub st.nd j i := fun j i => by rw [Sub, Sub, hA]
  have hopn : ∀ u, ((pop n st).nd u).isopen = true → u ≠ n ∧ (st.nd u).isopen = true := fun u hu => by
    by_cases e : u = n
    · rw [e, hself] at hu; exact absurd hu (by simp)
    · rw [hne u e] at hu; exact ⟨e, hu⟩
  have hleast : ∀ u < st.next, (st.nd u).isopen = true → fval H st.nd n ≤ fval H st.nd u :=
    fun u hu ho => hl.fval_le hb h hu ho
  refine ⟨?_, ?_, ?_, ?_, ?_⟩
  · intro j hj
    rw [hA] at hj
    by_cases e : j = n
    · rw [e, hself]
    · rw [hne j e]
      exact ht.anc_closed hb h hl (h.anc_lt hl.1 hj) hj
  · intro c hc hco hs u hu huo hna
    obtain ⟨hun, huo⟩ := hopn u huo
    rw [hA] at hna
    rw [hS] at hs
    rw [ef, ef]
    by_cases e : c = n
    · rw [e]; exact hleast u hu huo
    rw [hne c e] at hco
    rcases ht.J c hc hco with h1 | h1
    · exact h1 u hu huo hna
    · exact (h1 n hl.1 hl.2.1 (hs.resolve_left e)).trans (hleast u hu huo)
  · intro c hc hco hs u hu huo hna
    obtain ⟨hun, huo⟩ := hopn u huo
    rw [hA] at hna
    rw [hS] at hs
    rw [ef, ef]
    by_cases e : c = n
    · exact absurd (.inl e) hs
    rw [hne c e] at hco
    rcases ht.J c hc hco with h1 | h1
    · exact (h1 n hl.1 hl.2.1 fun hn => hs (.inr hn)).trans (hleast u hu huo)
    · exact h1 u hu huo hna
  · intro m hm y hy hmo hyo hma
    rw [ef, ef]
    rw [hA] at hma
    exact ht.K m hm y hy (hopn m hmo).2 (hopn y hyo).2 hma
  · intro i hi j hp
    rw [Par, e4] at hp
    have hex : Exact d (pop n st).nd j i ↔ Exact d st.nd j i := by
      have e1 : ∀ i, ((pop n st).nd i).g = (st.nd i).g ∧ ((pop n st).nd i).state = (st.nd i).state ∧
          ((pop n st).nd i).op = (st.nd i).op := fun i => by
        by_cases e : i = n
        · rw [e, hself]; exact ⟨rfl, rfl, rfl⟩
        · rw [hne i e]; exact ⟨rfl, rfl, rfl⟩
      rw [Exact, Exact, (e1 i).1, (e1 i).2.2, (e1 j).1, (e1 j).2.1]
    rw [hex]
    by_cases e : j = n
    · right; right
      refine ⟨e, ?_⟩
      subst e
      have hi0 : i ≠ 0 := by
        rintro rfl
        rw [h.root.2.1] at hp
        exact absurd hp (by simp)
      obtain ⟨j', f1, f2, f3, -⟩ := h.par i hi hi0
      rw [f1] at hp
      injection hp with hp
      subst hp
      have : ((pop j' st).nd i).op = (st.nd i).op := (pop_op i).trans rfl
      rw [this]
      exact f3
    · rw [hne j e]
      rcases ht.L i hi j hp with h1 | h1
      · exact .inl h1
      · exact .inr (.inl h1)
where
  pop_op {n : Nat} {st : St S O C P} (i : Nat) : ((pop n st).nd i).op = (st.nd i).op := by
    unfold pop
    dsimp only
    by_cases e : i = n
    · rw [e, Function.update_self]
    · rw [Function.update_of_ne e]

theorem tinv_init {H : S → C} : TInv d H (init d a s0 : St S O C P) := by
  have hn : ∀ i, ((init d a s0).nd i).parent = none := fun _ => rfl
  refine ⟨fun c _ hc => absurd hc (by simp [init]), fun m _ y _ _ _ h => ?_, fun i _ j h => ?_⟩
  · obtain ⟨b, h1, -⟩ := h.last
    rw [Par, hn] at h1
    exact absurd h1 (by simp)
  · rw [Par, hn] at h
    exact absurd h (by simp)

theorem tinv_step (hd : DomOk d s0) (ha : AlgOk a) {H : S → C} (hb : ByF a H) {st st' : St S O C P}
    (h : Inv d a s0 st) (ht : TInv d H st) (hs : Step d a st st') : TInv d H st' := by
  cases hs with
  | @mk n hl hg =>
    have hst : ((pop n st).nd n).state = (st.nd n).state := by
      unfold pop
      dsimp only
      rw [Function.update_self]
    have hx := (h.popped hl.1 hg).stats (st.expd + 1) st.gend st.dups st.reopnd
    have ht' := ht.popped hb h hl
    have := tinvX_fold hd ha hb.dd (d.ops (st.nd n).state) hx (fun o ho => by
      show o ∈ d.ops ((pop n st).nd n).state
      rw [hst]; exact ho) (⟨ht'.anc, ht'.J1, ht'.J2, ht'.K, ht'.L⟩ : TInvX d H { pop n st with expd := st.expd + 1, gend := st.gend, dups := st.dups, reopnd := st.reopnd } n _)
    have e : Search.expand d a n (pop n st) = List.foldl (tryop d a n)
        { pop n st with expd := st.expd + 1, gend := st.gend, dups := st.dups, reopnd := st.reopnd }
        (d.ops (st.nd n).state) := by
      unfold Search.expand
      rw [hst]
      rfl
    rw [← e] at this
    refine ⟨fun c hc hco => ?_, this.K, fun i hi j hp => ?_⟩
    · by_cases hsub : Sub (expand d a n (pop n st)).nd c n
      · exact .inl (this.J1 c hc hco hsub)
      · exact .inr (this.J2 c hc hco hsub)
    · rcases this.L i hi j hp with h1 | h1 | ⟨-, h1⟩
      · exact .inl h1
      · exact .inr h1
      · exact absurd h1 (by simp)

theorem tinv_reach (hd : DomOk d s0) (ha : AlgOk a) {H : S → C} (hb : ByF a H) {st : St S O C P}
    (h : Reach d a s0 st) : TInv d H st := by
  induction h with
  | init => exact tinv_init
  | step hr hs ih => exact tinv_step hd ha hb (inv_reach hd.cost ha hr) ih hs

/-- Every link of the chain of parent pointers above the node taken out is exact. -/
theorem least_exact (hd : DomOk d s0) (ha : AlgOk a) {H : S → C} (hb : ByF a H) {st : St S O C P}
    (hr : Reach d a s0 st) {n : Nat} (hl : Least a st n) {j i : Nat} (hp : Par st.nd j i) (hs : Sub st.nd i n) :
    Exact d st.nd j i := by
  have h := inv_reach hd.cost ha hr
  have ht := tinv_reach hd ha hb hr
  have hi : i < st.next := by
    rcases hs with e | hs
    · rw [e]; exact hl.1
    · exact h.anc_lt hl.1 hs
  have hj : Anc st.nd j n := by
    rcases hs with e | hs
    · exact .single (e ▸ hp)
    · exact TransGen.trans (.single hp) hs
  rcases ht.L i hi j hp with h1 | h1
  · rw [ht.anc_closed hb h hl (h.anc_lt hl.1 hj) hj] at h1
    exact absurd h1 (by simp)
  · exact h1

/-- The reconstructed path costs exactly the node's `g`, if all links above are exact. -/
theorem solpath_exact {st : St S O C P} (h : Inv d a s0 st) {n : Nat} (hn : n < st.next)
    (hex : ∀ j i, Par st.nd j i → Sub st.nd i n → Exact d st.nd j i) {fuel : Nat} {r : List S × List O}
    (hr : solpath st.nd fuel n = .ok r) :
    ∃ ss, r.1.reverse = s0 :: ss ∧ Plan d s0 r.2.reverse ss (st.nd n).g ∧ r.1.head? = some (st.nd n).state := by
  induction fuel generalizing n r with
  | zero => exact absurd hr (by simp [solpath])
  | succ fuel ih =>
    unfold solpath at hr
    cases hp : (st.nd n).parent with
    | none =>
      rw [hp] at hr
      injection hr with hr
      subst hr
      have h0 : n = 0 := by
        by_contra hc
        obtain ⟨j, e, -⟩ := h.par n hn hc
        rw [hp] at e; exact absurd e (by simp)
      subst h0
      refine ⟨[], ?_, ?_, rfl⟩
      · rw [h.root.1]; rfl
      · rw [h.root.2.2.1]; exact .nil _
    | some m =>
      rw [hp] at hr
      dsimp only at hr
      obtain ⟨r', h1, h2⟩ := Outcome.map_eq_ok.1 hr
      subst h2
      have h0 : n ≠ 0 := by rintro rfl; rw [h.root.2.1] at hp; exact absurd hp (by simp)
      obtain ⟨j', e1, e2, e3, e4, e5, e6⟩ := h.par n hn h0
      rw [hp] at e1; injection e1 with e1; subst e1
      obtain ⟨ss, f2, f3, f5⟩ := ih e2 (fun j i hj hi => hex j i hj (.inr (hi.par hp))) h1
      refine ⟨ss ++ [(st.nd n).state], ?_, ?_, rfl⟩
      · rw [List.reverse_cons, f2]; rfl
      · have hl : (s0 :: ss).getLast (by simp) = (st.nd m).state := by
          have h1 : (s0 :: ss).getLast? = some (st.nd m).state := by
            rw [← f2, List.getLast?_reverse, f5]
          rw [List.getLast?_eq_some_getLast (by simp)] at h1
          exact Option.some.inj h1
        have := f3.snoc (o := (st.nd n).op) (by rw [hl]; exact e3)
        rw [hl, ← e4] at this
        have hx := hex m n hp (.inl rfl)
        rw [Exact] at hx
        rw [hx] at this
        rw [List.reverse_cons]
        exact this

/-! ## Dropping duplicates -/

/-- Every link is exact. -/
def AllExact (d : Dom S O C) (st : St S O C P) : Prop := ∀ i < st.next, ∀ j, Par st.nd j i → Exact d st.nd j i

theorem allExact_tryop (hd : CostOk d s0) (hdd : a.dropdups = true) {st : St S O C P} {n : Nat} {rem : List O} {o : O}
    (hx : InvX d a s0 st n (o :: rem)) (h : AllExact d st) : AllExact d (tryop d a n st o) := by
  unfold tryop
  by_cases hp : o = (st.nd n).pop
  · rw [if_pos hp]; exact h
  rw [if_neg hp]
  unfold considerkid
  dsimp only
  cases hc : st.closed (d.app (st.nd n).state o) with
  | some k =>
    dsimp only
    rw [if_pos (.inl hdd)]
    exact h
  | none =>
    dsimp only
    intro i hi j hpar
    have hnn : n ≠ st.next := fun e => absurd hx.lt (by omega)
    rw [Par] at hpar
    rw [Exact]
    dsimp only at hi hpar ⊢
    by_cases e : i = st.next
    · subst e
      rw [Function.update_self] at hpar ⊢
      injection hpar with hpar
      subst hpar
      rw [Function.update_of_ne hnn]
    · rw [Function.update_of_ne e] at hpar ⊢
      have hj := (hx.par_le hd i (by omega) j hpar).1
      rw [Function.update_of_ne (by omega)]
      exact h i (by omega) j hpar

theorem allExact_fold (hd : CostOk d s0) (ha : AlgOk a) (hdd : a.dropdups = true) (os : List O) {st : St S O C P}
    {n : Nat} (hx : InvX d a s0 st n os) (ho : ∀ o ∈ os, o ∈ d.ops (st.nd n).state) (h : AllExact d st) :
    AllExact d (os.foldl (tryop d a n) st) := by
  induction os generalizing st with
  | nil => exact h
  | cons o os ih =>
    rw [List.foldl_cons]
    refine ih (invX_tryop hd ha hx (ho o (by simp))) (fun o' ho' => ?_) (allExact_tryop hd hdd hx h)
    rw [tryop_state hx.lt]
    exact ho o' (by simp [ho'])

theorem allExact_reach (hd : CostOk d s0) (ha : AlgOk a) (hdd : a.dropdups = true) {st : St S O C P}
    (hr : Reach d a s0 st) : AllExact d st := by
  induction hr with
  | init => exact fun i _ j hp => absurd (show (none : Option Nat) = some j from hp) (by simp)
  | @step st st' hr hs ih =>
    have h := inv_reach hd ha hr
    cases hs with
    | @mk n hl hg =>
      have e1 : ∀ i, ((pop n st).nd i).g = (st.nd i).g ∧ ((pop n st).nd i).state = (st.nd i).state ∧
          ((pop n st).nd i).op = (st.nd i).op ∧ ((pop n st).nd i).parent = (st.nd i).parent := fun i => by
        unfold pop
        dsimp only
        by_cases e : i = n
        · rw [e, Function.update_self]; exact ⟨rfl, rfl, rfl, rfl⟩
        · rw [Function.update_of_ne e]; exact ⟨rfl, rfl, rfl, rfl⟩
      have hx := (h.popped hl.1 hg).stats (st.expd + 1) st.gend st.dups st.reopnd
      have hp : AllExact d { pop n st with expd := st.expd + 1 } := fun i hi j hpar => by
        have hpar' : ((pop n st).nd i).parent = some j := hpar
        rw [(e1 i).2.2.2] at hpar'
        show ((pop n st).nd j).g + d.cost ((pop n st).nd j).state ((pop n st).nd i).op = ((pop n st).nd i).g
        rw [(e1 j).1, (e1 j).2.1, (e1 i).1, (e1 i).2.2.1]
        exact ih i hi j hpar'
      have := allExact_fold hd ha hdd (d.ops (st.nd n).state) hx (fun o ho => by
        show o ∈ d.ops ((pop n st).nd n).state
        rw [(e1 n).2.1]; exact ho) hp
      unfold Search.expand
      rw [(e1 n).2.1]
      exact this

theorem astar_byF (h : S → C) : ByF (astar h) h where
  le g s g' s' hp := by
    simp only [astar] at hp
    by_contra hc
    rw [not_le] at hc
    rw [if_neg (ne_of_lt hc), decide_eq_false_iff_not] at hp
    exact hp hc
  dd := rfl

end Order

theorem wastar_byF {K : Type*} [Field K] [LinearOrder K] [IsStrictOrderedRing K] (wt : K) (h : S → K) :
    ByF (wastar wt h false) (fun s => wt * h s) where
  le g s g' s' hp := by
    simp only [wastar] at hp
    by_contra hc
    rw [not_le] at hc
    rw [if_neg (ne_of_lt hc), decide_eq_false_iff_not] at hp
    exact hp hc
  dd := rfl

end Verif.Search
