import Verif.Search.Algs
import Verif.Utils.Double

/-!
# Best-first search with rounded costs

The other theorems about the searches compute with costs exactly.  Here costs are added with rounding, as `float` and
`double` do: of addition only two facts are used, that it is monotonic and that adding something that is not negative
does not lead below.  It need not be associative or commutative, and nothing cancels.

Simplified: no NaN and no overflow (see Utils/Double.lean).
-/

namespace Verif.Rounded

open Verif.Search

variable {S O C P : Type*}

/-- What is used of rounded addition. -/
class RoundedAdd (C : Type*) [Add C] [Zero C] [LinearOrder C] : Prop where
  mono : ∀ {a b : C} (c : C), a ≤ b → a + c ≤ b + c
  up : ∀ (a : C) {c : C}, 0 ≤ c → a ≤ a + c

open RoundedAdd

/-- IEEE addition is like that. -/
instance (p : ℕ) : RoundedAdd (Dbl.Num p) where
  mono c h := Dbl.rnd_mono (Nat.succ_pos p) (Int.add_le_add_right h _)
  up a {c} h := by
    rw [Dbl.Num.le_iff, Dbl.Num.val_add]
    conv_lhs => rw [← a.2]
    refine Dbl.rnd_mono (Nat.succ_pos p) ?_
    have : (0 : ℤ) ≤ c.1 := h
    omega

/-- So is exact addition. -/
instance (priority := low) exact [AddCommGroup C] [LinearOrder C] [IsOrderedAddMonoid C] : RoundedAdd C where
  mono _ h := by gcongr
  up _ _ h := le_add_of_nonneg_right h

/-! ## The invariant -/

/-- The invariant of the search. -/
structure Inv [Add C] [Zero C] [LE C] (d : Dom S O C) (a : Alg S C P) (s0 : S) (st : St S O C P) : Prop where
  pos : 0 < st.next
  root : (st.nd 0).state = s0 ∧ (st.nd 0).parent = none ∧ (st.nd 0).g = 0 ∧ (st.nd 0).pop = d.nop
  cl1 : ∀ i < st.next, st.closed (st.nd i).state = some i
  cl2 : ∀ s i, st.closed s = some i → i < st.next ∧ (st.nd i).state = s
  par : ∀ i < st.next, i ≠ 0 → ParOk d st i
  rooted : ∀ i < st.next, Rooted st.nd i
  walk : ∀ i < st.next, Walk d s0 (st.nd i).state (st.nd i).g
  exp : ∀ i < st.next, (st.nd i).isopen = false → ∀ o ∈ d.ops (st.nd i).state,
    o = (st.nd i).pop ∨ SuccOk d a st i o
  ngoal : ∀ i < st.next, (st.nd i).isopen = false → d.goal (st.nd i).state = false

/-- The invariant while `n` is being expanded and the operators `rem` are still to come. -/
structure InvX [Add C] [Zero C] [LE C] (d : Dom S O C) (a : Alg S C P) (s0 : S) (st : St S O C P) (n : Nat)
    (rem : List O) : Prop where
  pos : 0 < st.next
  root : (st.nd 0).state = s0 ∧ (st.nd 0).parent = none ∧ (st.nd 0).g = 0 ∧ (st.nd 0).pop = d.nop
  cl1 : ∀ i < st.next, st.closed (st.nd i).state = some i
  cl2 : ∀ s i, st.closed s = some i → i < st.next ∧ (st.nd i).state = s
  par : ∀ i < st.next, i ≠ 0 → ParOk d st i
  rooted : ∀ i < st.next, Rooted st.nd i
  walk : ∀ i < st.next, Walk d s0 (st.nd i).state (st.nd i).g
  exp : ∀ i < st.next, (st.nd i).isopen = false → ∀ o ∈ d.ops (st.nd i).state, (i = n → o ∉ rem) →
    o = (st.nd i).pop ∨ SuccOk d a st i o
  ngoal : ∀ i < st.next, (st.nd i).isopen = false → d.goal (st.nd i).state = false
  lt : n < st.next
  cln : (st.nd n).isopen = false

section Proofs
variable [DecidableEq S] [DecidableEq O] [Add C] [Zero C] [LinearOrder C] [RoundedAdd C]
  {d : Dom S O C} {a : Alg S C P} {s0 : S}

omit [DecidableEq S] [DecidableEq O] in
theorem walk_nonneg (hd : CostOk d s0) {t : S} {c : C} (h : Walk d s0 t c) : 0 ≤ c := by
  induction h with
  | nil => exact le_rfl
  | snoc h ho ih => exact ih.trans (up _ (hd _ _ h _ ho))

theorem inv_init : Inv d a s0 (init d a s0) := by
  have e : ∀ i, i < (init d a s0).next → i = 0 := fun i h => by
    have : i < 1 := h
    omega
  refine ⟨Nat.zero_lt_one, ⟨rfl, rfl, rfl, rfl⟩, ?_, ?_, ?_, ?_, ?_, ?_, ?_⟩
  · intro i hi
    rw [e i hi]
    show Function.update (fun _ => none) s0 (some 0) s0 = some 0
    exact Function.update_self _ _ _
  · intro s i h
    unfold init at h ⊢
    dsimp only at h ⊢
    by_cases hs : s = s0
    · subst hs
      rw [Function.update_self] at h
      injection h with h
      exact ⟨by omega, rfl⟩
    · rw [Function.update_of_ne hs] at h
      exact absurd h (by simp)
  · intro i hi h0
    exact absurd (e i hi) h0
  · intro i hi
    exact .root rfl
  · intro i hi; exact .nil s0
  · intro i hi h; exact absurd h (by simp [init])
  · intro i hi h; exact absurd h (by simp [init])

theorem rooted_congr {nd nd' : Nat → Node S O C P} {next : Nat}
    (hlt : ∀ i < next, ∀ j, (nd i).parent = some j → j < next)
    (heq : ∀ i < next, (nd' i).parent = (nd i).parent) {i : Nat} (hi : i < next) (h : Rooted nd i) :
    Rooted nd' i := by
  induction h with
  | root h => exact .root (by rw [heq _ hi, h])
  | step h _ ih => exact .step (by rw [heq _ hi, h]) (ih (hlt _ hi _ h))

/-- Nodes that are cheaper than `k` do not hang below `k`. -/
theorem rooted_cheaper {nd nd' : Nat → Node S O C P} {next k : Nat}
    (hlt : ∀ i < next, ∀ j, (nd i).parent = some j → j < next ∧ (nd j).g ≤ (nd i).g)
    (heq : ∀ i, i ≠ k → (nd' i).parent = (nd i).parent) {i : Nat} (hi : i < next) (h : Rooted nd i)
    (hg : (nd i).g < (nd k).g) : Rooted nd' i := by
  induction h with
  | @root i h => exact .root (by rw [heq _ (fun e => by subst e; exact lt_irrefl _ hg), h])
  | @step i j h _ ih =>
    have := hlt i hi j h
    exact .step (by rw [heq _ (fun e => by subst e; exact lt_irrefl _ hg), h])
      (ih this.1 (lt_of_le_of_lt this.2 hg))

theorem rooted_update {nd nd' : Nat → Node S O C P} {k : Nat}
    (heq : ∀ i, i ≠ k → (nd' i).parent = (nd i).parent) (hk : Rooted nd' k) {i : Nat} (h : Rooted nd i) :
    Rooted nd' i := by
  induction h with
  | @root i h =>
    by_cases e : i = k
    · rw [e]; exact hk
    · exact .root (by rw [heq _ e, h])
  | @step i j h _ ih =>
    by_cases e : i = k
    · rw [e]; exact hk
    · exact .step (by rw [heq _ e, h]) ih

theorem InvX.par_le {st : St S O C P} {n : Nat} {rem : List O} (hd : CostOk d s0) (h : InvX d a s0 st n rem) :
    ∀ i < st.next, ∀ j, (st.nd i).parent = some j → j < st.next ∧ (st.nd j).g ≤ (st.nd i).g := by
  intro i hi j hj
  rcases Nat.eq_zero_or_pos i with rfl | h0
  · rw [h.root.2.1] at hj; exact absurd hj (by simp)
  obtain ⟨j', e1, e2, e3, -, -, e6⟩ := h.par i hi (by omega)
  rw [hj] at e1
  injection e1 with e1
  subst e1
  refine ⟨e2, le_trans ?_ e6⟩
  have := hd _ _ (h.walk j e2) _ e3
  exact up _ this

/-- The successor along the pruned operator is the parent, if reversing leads back. -/
theorem Inv.succOk {st : St S O C P} {n : Nat} {o : O} (hd : DomOk d s0) (h : Inv d a s0 st) (hn : n < st.next)
    (hc : (st.nd n).isopen = false) (ho : o ∈ d.ops (st.nd n).state) : SuccOk d a st n o := by
  rcases h.exp n hn hc o ho with hp | hs
  swap
  · exact hs
  rcases Nat.eq_zero_or_pos n with rfl | h0
  · rw [h.root.2.2.2] at hp
    exact absurd (hp ▸ ho) (hd.nop _ _ (h.walk 0 h.pos))
  obtain ⟨j, e1, e2, e3, e4, e5, e6⟩ := h.par n hn (by omega)
  have hr : d.app (st.nd n).state o = (st.nd j).state := by
    rw [hp, e5, e4]
    rw [hp, e5, e4] at ho
    exact hd.rev _ _ (h.walk j e2) _ e3 ho
  refine ⟨j, by rw [hr]; exact h.cl1 j e2, fun _ => ?_⟩
  have h1 := hd.cost _ _ (h.walk j e2) _ e3
  have h2 := hd.cost _ _ (h.walk n hn) _ ho
  calc (st.nd j).g ≤ (st.nd j).g + d.cost (st.nd j).state (st.nd n).op := up _ h1
    _ ≤ (st.nd n).g := e6
    _ ≤ _ := up _ h2

theorem InvX.of_succOk {st : St S O C P} {n : Nat} {rem : List O} {o : O}
    (h : InvX d a s0 st n (o :: rem)) (hs : o = (st.nd n).pop ∨ SuccOk d a st n o) : InvX d a s0 st n rem := by
  refine ⟨h.pos, h.root, h.cl1, h.cl2, h.par, h.rooted, h.walk, ?_, h.ngoal, h.lt, h.cln⟩
  intro i hi hc o' ho' hrem
  by_cases e : i = n ∧ o' = o
  · rw [e.1, e.2]; exact hs
  · refine h.exp i hi hc o' ho' (fun hin => ?_)
    rw [List.mem_cons, not_or]
    exact ⟨fun e' => e ⟨hin, e'⟩, hrem hin⟩

theorem SuccOk.stats {st : St S O C P} {i : Nat} {o : O} (e g u r : Nat) :
    SuccOk d a { st with expd := e, gend := g, dups := u, reopnd := r } i o ↔ SuccOk d a st i o := Iff.rfl

theorem InvX.stats {st : St S O C P} {n : Nat} {rem : List O} (h : InvX d a s0 st n rem) (e g u r : Nat) :
    InvX d a s0 { st with expd := e, gend := g, dups := u, reopnd := r } n rem :=
  ⟨h.pos, h.root, h.cl1, h.cl2, h.par, h.rooted, h.walk, h.exp, h.ngoal, h.lt, h.cln⟩

theorem invX_considerkid (hd : CostOk d s0) {st : St S O C P} {n : Nat} {rem : List O} {o : O}
    (h : InvX d a s0 st n (o :: rem)) (ho : o ∈ d.ops (st.nd n).state) :
    InvX d a s0 (considerkid d a n o st) n rem := by
  have hcost := hd _ _ (h.walk n h.lt) _ ho
  unfold considerkid
  dsimp only
  cases hcl : st.closed (d.app (st.nd n).state o) with
  | some k =>
    dsimp only
    obtain ⟨hk, hks⟩ := h.cl2 _ _ hcl
    by_cases hc : a.dropdups = true ∨ (st.nd k).g ≤ (st.nd n).g + d.cost (st.nd n).state o
    · rw [if_pos hc]
      refine InvX.stats (h.of_succOk (.inr ⟨k, hcl, fun hdd => ?_⟩)) st.expd st.gend (st.dups + 1) st.reopnd
      rcases hc with hc | hc
      · rw [hdd] at hc; exact absurd hc (by simp)
      · exact hc
    · rw [if_neg hc]
      rw [not_or, not_le] at hc
      obtain ⟨-, hlt⟩ := hc
      have hkn : k ≠ n := by
        rintro rfl
        exact absurd hlt (not_lt.2 (up _ hcost))
      have hnn : 0 ≤ (st.nd n).g := walk_nonneg hd (h.walk n h.lt)
      have hk0 : k ≠ 0 := by
        rintro rfl
        rw [h.root.2.2.1] at hlt
        exact absurd hlt (not_lt.2 (hnn.trans (up _ hcost)))
      generalize hnd : Function.update st.nd k _ = nd'
      have hself : nd' k = { st.nd k with
            g := (st.nd n).g + d.cost (st.nd n).state o
            p := a.updp (st.nd k).p (st.nd k).g ((st.nd n).g + d.cost (st.nd n).state o)
            parent := some n
            op := o
            pop := d.rev (st.nd n).state o
            isopen := true } := by rw [← hnd]; exact Function.update_self _ _ _
      have hne : ∀ i, i ≠ k → nd' i = st.nd i := fun i hi => by rw [← hnd]; exact Function.update_of_ne hi _ _
      have hstate : ∀ i, (nd' i).state = (st.nd i).state := fun i => by
        by_cases e : i = k
        · rw [e, hself]
        · rw [hne i e]
      have hgle : ∀ i, (nd' i).g ≤ (st.nd i).g := fun i => by
        by_cases e : i = k
        · rw [e, hself]; exact hlt.le
        · rw [hne i e]
      have hwalk : ∀ i < st.next, Walk d s0 (nd' i).state (nd' i).g := fun i hi => by
        by_cases e : i = k
        · rw [e, hstate, hself, hks]; exact (h.walk n h.lt).snoc ho
        · rw [hne i e]; exact h.walk i hi
      have hparent : ∀ i, i ≠ k → (nd' i).parent = (st.nd i).parent := fun i hi => by rw [hne i hi]
      have hsucc : ∀ i, i ≠ k → ∀ o', SuccOk d a st i o' →
          ∃ k, st.closed (d.app (nd' i).state o') = some k ∧
            (a.dropdups = false → (nd' k).g ≤ (nd' i).g + d.cost (nd' i).state o') := by
        intro i hik o' ⟨m, e1, e2⟩
        refine ⟨m, by rw [hstate]; exact e1, fun hdd => le_trans (hgle m) ?_⟩
        rw [hne i hik]
        exact e2 hdd
      refine ⟨h.pos, ?_, ?_, ?_, ?_, ?_, ?_, ?_, ?_, h.lt, ?_⟩
      · dsimp only; rw [hne 0 (Ne.symm hk0)]; exact h.root
      · intro i hi; dsimp only; rw [hstate]; exact h.cl1 i hi
      · intro s i hi; dsimp only; rw [hstate]; exact h.cl2 s i hi
      · intro i hi hi0
        by_cases e : i = k
        · subst e
          refine ⟨n, ?_, h.lt, ?_, ?_, ?_, ?_⟩
          · dsimp only; rw [hself]
          · dsimp only; rw [hself, hstate]; exact ho
          · dsimp only; rw [hstate, hself, hstate, hks]
          · dsimp only; rw [hself, hstate]
          · dsimp only; rw [hself, hne n (Ne.symm hkn)]
        · obtain ⟨j, e1, e2, e3, e4, e5, e6⟩ := h.par i hi hi0
          refine ⟨j, ?_, e2, ?_, ?_, ?_, ?_⟩
          · dsimp only; rw [hne i e]; exact e1
          · dsimp only; rw [hne i e, hstate]; exact e3
          · dsimp only; rw [hne i e, hstate]; exact e4
          · dsimp only; rw [hne i e, hstate]; exact e5
          · dsimp only; rw [hne i e, hstate]
            exact le_trans (mono _ (hgle j)) e6
      · have hn' : Rooted nd' n := rooted_cheaper (h.par_le hd) hparent h.lt (h.rooted n h.lt)
          (lt_of_le_of_lt (up _ hcost) hlt)
        intro i hi
        exact rooted_update hparent (.step (j := n) (by rw [hself]) hn') (h.rooted i hi)
      · intro i hi; exact hwalk i hi
      · intro i hi hcl' o' ho' hrem
        dsimp only at hi hcl' ho'
        have e : i ≠ k := by rintro rfl; rw [hself] at hcl'; exact absurd hcl' (by simp)
        rw [hstate] at ho'
        by_cases e2 : i = n ∧ o' = o
        · obtain ⟨rfl, rfl⟩ := e2
          refine .inr ⟨k, by dsimp only; rw [hstate]; exact hcl, fun _ => ?_⟩
          dsimp only
          rw [hself, hne i e]
        · rcases h.exp i hi (by rw [← hne i e]; exact hcl') o' ho' (fun hin => by
            rw [List.mem_cons, not_or]
            exact ⟨fun e' => e2 ⟨hin, e'⟩, hrem hin⟩) with hp | hs
          · left; dsimp only; rw [hne i e]; exact hp
          · exact .inr (hsucc i e o' hs)
      · intro i hi hcl'
        dsimp only at hi hcl' ⊢
        have e : i ≠ k := by rintro rfl; rw [hself] at hcl'; exact absurd hcl' (by simp)
        rw [hne i e] at hcl' ⊢
        exact h.ngoal i hi hcl'
      · dsimp only; rw [hne n (Ne.symm hkn)]; exact h.cln
  | none =>
    dsimp only
    generalize hnd : Function.update st.nd st.next _ = nd'
    have hself : nd' st.next = ⟨d.app (st.nd n).state o, (st.nd n).g + d.cost (st.nd n).state o,
        a.initp ((st.nd n).g + d.cost (st.nd n).state o) (d.app (st.nd n).state o), some n, o,
        d.rev (st.nd n).state o, true⟩ := by rw [← hnd]; exact Function.update_self _ _ _
    have hne : ∀ i, i < st.next → nd' i = st.nd i := fun i hi => by
      rw [← hnd]; exact Function.update_of_ne (by omega) _ _
    have hclne : ∀ s, st.closed s ≠ none → Function.update st.closed (d.app (st.nd n).state o) (some st.next) s
        = st.closed s := by
      intro s hs
      refine Function.update_of_ne (fun e => hs (by rw [e]; exact hcl)) _ _
    have hsucc : ∀ i < st.next, ∀ o', SuccOk d a st i o' →
        SuccOk d a { st with
          nd := nd'
          next := st.next + 1
          closed := Function.update st.closed (d.app (st.nd n).state o) (some st.next) } i o' := by
      intro i hi o' ⟨m, e1, e2⟩
      refine ⟨m, ?_, fun hdd => ?_⟩
      · dsimp only; rw [hne i hi, hclne _ (by rw [e1]; simp)]; exact e1
      · dsimp only; rw [hne i hi, hne m (h.cl2 _ _ e1).1]; exact e2 hdd
    refine ⟨Nat.succ_pos _, ?_, ?_, ?_, ?_, ?_, ?_, ?_, ?_, Nat.lt_succ_of_lt h.lt, ?_⟩
    · dsimp only; rw [hne 0 h.pos]; exact h.root
    · intro i hi
      dsimp only at hi ⊢
      by_cases e : i = st.next
      · rw [e, hself]; exact Function.update_self _ _ _
      · have hi' : i < st.next := by omega
        rw [hne i hi', hclne _ (by rw [h.cl1 i hi']; simp)]; exact h.cl1 i hi'
    · intro s i hs
      dsimp only at hs ⊢
      by_cases e : s = d.app (st.nd n).state o
      · rw [e, Function.update_self] at hs
        injection hs with hs
        subst hs
        exact ⟨by omega, by rw [hself]; exact e.symm⟩
      · rw [Function.update_of_ne e] at hs
        obtain ⟨h1, h2⟩ := h.cl2 s i hs
        exact ⟨by omega, by rw [hne i h1]; exact h2⟩
    · intro i hi hi0
      dsimp only at hi
      by_cases e : i = st.next
      · subst e
        refine ⟨n, ?_, ?_, ?_, ?_, ?_, ?_⟩
        · dsimp only; rw [hself]
        · exact Nat.lt_succ_of_lt h.lt
        · dsimp only; rw [hself, hne n h.lt]; exact ho
        · dsimp only; rw [hself, hne n h.lt]
        · dsimp only; rw [hself, hne n h.lt]
        · dsimp only; rw [hself, hne n h.lt]
      · have hi' : i < st.next := by omega
        obtain ⟨j, e1, e2, e3, e4, e5, e6⟩ := h.par i hi' hi0
        refine ⟨j, ?_, Nat.lt_succ_of_lt e2, ?_, ?_, ?_, ?_⟩ <;> dsimp only <;> rw [hne i hi'] <;>
          first | exact e1 | (rw [hne j e2]; first | exact e3 | exact e4 | exact e5 | exact e6)
    · have hroot : ∀ i < st.next, Rooted nd' i := fun i hi =>
        rooted_congr (fun i hi j hj => (h.par_le hd i hi j hj).1) (fun i hi => by rw [hne i hi]) hi (h.rooted i hi)
      intro i hi
      dsimp only at hi
      by_cases e : i = st.next
      · exact .step (j := n) (by rw [e]; dsimp only; rw [hself]) (hroot n h.lt)
      · exact hroot i (by omega)
    · intro i hi
      dsimp only at hi ⊢
      by_cases e : i = st.next
      · rw [e, hself]; exact (h.walk n h.lt).snoc ho
      · rw [hne i (by omega)]; exact h.walk i (by omega)
    · intro i hi hcl' o' ho' hrem
      dsimp only at hi hcl' ho'
      have e : i ≠ st.next := by rintro rfl; rw [hself] at hcl'; exact absurd hcl' (by simp)
      have hi' : i < st.next := by omega
      rw [hne i hi'] at ho' hcl'
      by_cases e2 : i = n ∧ o' = o
      · obtain ⟨rfl, rfl⟩ := e2
        refine .inr ⟨st.next, ?_, fun _ => ?_⟩
        · dsimp only; rw [hne i hi']; exact Function.update_self _ _ _
        · dsimp only; rw [hself, hne i hi']
      · rcases h.exp i hi' hcl' o' ho' (fun hin => by
          rw [List.mem_cons, not_or]
          exact ⟨fun e' => e2 ⟨hin, e'⟩, hrem hin⟩) with hp | hs
        · left; dsimp only; rw [hne i hi']; exact hp
        · exact .inr (hsucc i hi' o' hs)
    · intro i hi hcl'
      dsimp only at hi hcl' ⊢
      have e : i ≠ st.next := by rintro rfl; rw [hself] at hcl'; exact absurd hcl' (by simp)
      rw [hne i (by omega)] at hcl' ⊢
      exact h.ngoal i (by omega) hcl'
    · dsimp only; rw [hne n h.lt]; exact h.cln

/-- The state of a node never changes. -/
theorem considerkid_state {st : St S O C P} {n i : Nat} {o : O} (hi : i < st.next) :
    ((considerkid d a n o st).nd i).state = (st.nd i).state := by
  unfold considerkid
  dsimp only
  cases st.closed (d.app (st.nd n).state o) with
  | some k =>
    dsimp only
    by_cases hc : a.dropdups = true ∨ (st.nd k).g ≤ (st.nd n).g + d.cost (st.nd n).state o
    · rw [if_pos hc]
    · rw [if_neg hc]
      dsimp only
      by_cases e : i = k
      · rw [e, Function.update_self]
      · rw [Function.update_of_ne e]
  | none =>
    dsimp only
    rw [Function.update_of_ne (by omega)]

theorem tryop_state {st : St S O C P} {n i : Nat} {o : O} (hi : i < st.next) :
    ((tryop d a n st o).nd i).state = (st.nd i).state := by
  unfold tryop
  split
  · rfl
  · rw [considerkid_state (st := { st with gend := st.gend + 1 }) hi]

theorem invX_tryop (hd : CostOk d s0) {st : St S O C P} {n : Nat} {rem : List O} {o : O}
    (h : InvX d a s0 st n (o :: rem)) (ho : o ∈ d.ops (st.nd n).state) :
    InvX d a s0 (tryop d a n st o) n rem := by
  unfold tryop
  by_cases hp : o = (st.nd n).pop
  · rw [if_pos hp]
    exact h.of_succOk (.inl hp)
  · rw [if_neg hp]
    exact invX_considerkid hd (h.stats st.expd (st.gend + 1) st.dups st.reopnd) ho

theorem invX_fold (hd : CostOk d s0) (os : List O) {st : St S O C P} {n : Nat}
    (h : InvX d a s0 st n os) (ho : ∀ o ∈ os, o ∈ d.ops (st.nd n).state) :
    InvX d a s0 (os.foldl (tryop d a n) st) n [] := by
  induction os generalizing st with
  | nil => exact h
  | cons o os ih =>
    rw [List.foldl_cons]
    refine ih (invX_tryop hd h (ho o (by simp))) (fun o' ho' => ?_)
    rw [tryop_state h.lt]
    exact ho o' (by simp [ho'])

theorem Inv.popped {st : St S O C P} {n : Nat} (h : Inv d a s0 st) (hn : n < st.next)
    (hg : d.goal (st.nd n).state = false) :
    InvX d a s0 (pop n st) n (d.ops (st.nd n).state) := by
  have hself : (pop n st).nd n = { st.nd n with isopen := false } := Function.update_self _ _ _
  have hne : ∀ i, i ≠ n → (pop n st).nd i = st.nd i := fun i hi => Function.update_of_ne hi _ _
  have e1 : ∀ i, ((pop n st).nd i).state = (st.nd i).state := fun i => by
    by_cases e : i = n
    · rw [e, hself]
    · rw [hne i e]
  have e2 : ∀ i, ((pop n st).nd i).g = (st.nd i).g := fun i => by
    by_cases e : i = n
    · rw [e, hself]
    · rw [hne i e]
  have e3 : ∀ i, ((pop n st).nd i).p = (st.nd i).p := fun i => by
    by_cases e : i = n
    · rw [e, hself]
    · rw [hne i e]
  have e4 : ∀ i, ((pop n st).nd i).parent = (st.nd i).parent := fun i => by
    by_cases e : i = n
    · rw [e, hself]
    · rw [hne i e]
  have e5 : ∀ i, ((pop n st).nd i).op = (st.nd i).op := fun i => by
    by_cases e : i = n
    · rw [e, hself]
    · rw [hne i e]
  have e6 : ∀ i, ((pop n st).nd i).pop = (st.nd i).pop := fun i => by
    by_cases e : i = n
    · rw [e, hself]
    · rw [hne i e]
  refine ⟨h.pos, ?_, ?_, ?_, ?_, ?_, ?_, ?_, ?_, hn, by rw [hself]⟩
  · rw [e1, e2, e4, e6]; exact h.root
  · intro i hi; rw [e1]; exact h.cl1 i hi
  · intro s i hi; rw [e1]; exact h.cl2 s i hi
  · intro i hi h0
    obtain ⟨j, f1, f2, f3, f4, f5, f6⟩ := h.par i hi h0
    refine ⟨j, ?_, f2, ?_, ?_, ?_, ?_⟩
    · rw [e4]; exact f1
    · rw [e5, e1]; exact f3
    · rw [e1, e1, e5]; exact f4
    · rw [e6, e1, e5]; exact f5
    · rw [e2, e2, e1, e5]; exact f6
  · intro i hi
    refine rooted_congr (next := st.next) (fun i hi j hj => ?_) (fun i _ => e4 i) hi (h.rooted i hi)
    rcases Nat.eq_zero_or_pos i with rfl | h0
    · rw [h.root.2.1] at hj; exact absurd hj (by simp)
    obtain ⟨j', f1, f2, -⟩ := h.par i hi (by omega)
    rw [hj] at f1; injection f1 with f1; rw [f1]; exact f2
  · intro i hi; rw [e1, e2]; exact h.walk i hi
  · intro i hi hcl o ho hrem
    by_cases e : i = n
    · subst e
      rw [e1] at ho
      exact absurd ho (hrem rfl)
    · rw [hne i e] at hcl
      rw [e1] at ho
      rcases h.exp i hi hcl o ho with hp | ⟨k, f1, f2⟩
      · left; rw [e6]; exact hp
      exact .inr ⟨k, by rw [e1]; exact f1, by rw [e2, e2, e1]; exact f2⟩
  · intro i hi hcl
    rw [e1]
    by_cases e : i = n
    · rw [e]; exact hg
    · rw [hne i e] at hcl; exact h.ngoal i hi hcl

/-- Expanding any node that is not a goal keeps the invariant. -/
theorem Inv.expand (hd : CostOk d s0) {st : St S O C P} (h : Inv d a s0 st) {n : Nat} (hn : n < st.next)
    (hg : d.goal (st.nd n).state = false) : Inv d a s0 (expand d a n (pop n st)) := by
  have hx := h.popped hn hg
  have hst : ((pop n st).nd n).state = (st.nd n).state := by
    unfold pop
    dsimp only
    rw [Function.update_self]
  have := invX_fold hd (d.ops (st.nd n).state)
    (hx.stats (st.expd + 1) st.gend st.dups st.reopnd) (fun o ho => by
      show o ∈ d.ops ((pop n st).nd n).state
      rw [hst]; exact ho)
  have e : Search.expand d a n (pop n st) = List.foldl (tryop d a n)
      { pop n st with expd := st.expd + 1, gend := st.gend, dups := st.dups, reopnd := st.reopnd }
      (d.ops (st.nd n).state) := by
    unfold Search.expand
    rw [hst]
    rfl
  rw [← e] at this
  exact ⟨this.pos, this.root, this.cl1, this.cl2, this.par, this.rooted, this.walk,
    fun i hi hc o ho => this.exp i hi hc o ho (fun _ => by simp), this.ngoal⟩

theorem inv_step (hd : CostOk d s0) {st st' : St S O C P} (h : Inv d a s0 st)
    (hs : Step d a st st') : Inv d a s0 st' := by
  cases hs with
  | @mk n hl hg => exact h.expand hd hl.1 hg

theorem inv_reach (hd : CostOk d s0) {st : St S O C P} (h : Reach d a s0 st) : Inv d a s0 st := by
  induction h with
  | init => exact inv_init
  | step _ hs ih => exact inv_step hd ih hs

end Proofs

/-! ## The solution -/

/-- Spec: a path from `s0`: the states after `s0`, the operators, where it ends, and the costs of its steps, in
order. -/
inductive Path [Add C] (d : Dom S O C) (s0 : S) : List S → List O → S → List C → Prop
  | nil : Path d s0 [] [] s0 []
  | snoc {ss : List S} {os : List O} {s : S} {cs : List C} {o : O} : Path d s0 ss os s cs → o ∈ d.ops s →
      Path d s0 (ss ++ [d.app s o]) (os ++ [o]) (d.app s o) (cs ++ [d.cost s o])

/-- Spec: the costs added up in order, each sum rounded. -/
def total [Add C] [Zero C] (cs : List C) : C := cs.foldl (· + ·) 0

theorem Path.walk [Add C] [Zero C] {d : Dom S O C} {s0 t : S} {ss : List S} {os : List O} {cs : List C}
    (h : Path d s0 ss os t cs) : Walk d s0 t (total cs) := by
  induction h with
  | nil => exact .nil _
  | snoc _ ho ih =>
    have := ih.snoc ho
    unfold total at this ⊢
    rw [List.foldl_append]
    exact this

theorem walk_path [Add C] [Zero C] {d : Dom S O C} {s0 t : S} {c : C} (h : Walk d s0 t c) :
    ∃ ss os cs, Path d s0 ss os t cs ∧ total cs = c := by
  induction h with
  | nil => exact ⟨_, _, _, .nil, rfl⟩
  | snoc _ ho ih =>
    obtain ⟨ss, os, cs, h1, h2⟩ := ih
    refine ⟨_, _, _, h1.snoc ho, ?_⟩
    unfold total at h2 ⊢
    rw [List.foldl_append, h2]
    rfl

/-- A reconstructed solution (goal first) is a path from `s0` to `s` whose rounded cost is at most `g`. -/
def IsSol [Add C] [Zero C] [LE C] (d : Dom S O C) (s0 s : S) (g : C) (r : List S × List O) : Prop :=
  ∃ ss cs, r.1.reverse = s0 :: ss ∧ Path d s0 ss r.2.reverse s cs ∧ total cs ≤ g

section Proofs
variable [DecidableEq S] [DecidableEq O] [Add C] [Zero C] [LinearOrder C] [RoundedAdd C]
  {d : Dom S O C} {a : Alg S C P} {s0 : S}

omit [DecidableEq S] [DecidableEq O] [Add C] [Zero C] [LinearOrder C] [RoundedAdd C] in
theorem solpath_mono' {nd : Nat → Node S O C P} {fuel fuel' n : Nat} {r : List S × List O}
    (h : solpath nd fuel n = .ok r) (hf : fuel ≤ fuel') : solpath nd fuel' n = .ok r := by
  induction fuel generalizing fuel' n r with
  | zero => exact absurd h (by simp [solpath])
  | succ fuel ih =>
    obtain ⟨fuel', rfl⟩ : ∃ k, fuel' = k + 1 := ⟨fuel' - 1, by omega⟩
    unfold solpath at h ⊢
    cases hp : (nd n).parent with
    | none => rw [hp] at h; exact h
    | some m =>
      rw [hp] at h
      dsimp only at h ⊢
      cases hs : solpath nd fuel m with
      | ok r' => rw [ih hs (by omega)]; rw [hs] at h; exact h
      | fatal => rw [hs] at h; exact absurd h (by simp)
      | ub => rw [hs] at h; exact absurd h (by simp)
      | nofuel => rw [hs] at h; exact absurd h (by simp)

omit [DecidableEq S] [DecidableEq O] in
theorem solpath_spec {st : St S O C P} (h : Inv d a s0 st) {n : Nat} (hn : n < st.next) :
    ∃ fuel r, solpath st.nd fuel n = .ok r ∧ IsSol d s0 (st.nd n).state (st.nd n).g r := by
  have hr := h.rooted n hn
  induction hr with
  | @root i hp =>
    have h0 : i = 0 := by
      by_contra hc
      obtain ⟨j, e, -⟩ := h.par i hn hc
      rw [hp] at e; exact absurd e (by simp)
    subst h0
    refine ⟨1, ([(st.nd 0).state], []), ?_, [], [], ?_, ?_, ?_⟩
    · unfold solpath; rw [hp]
    · rw [h.root.1]; rfl
    · rw [h.root.1]; exact .nil
    · rw [h.root.2.2.1]; exact le_rfl
  | @step i j hp hj ih =>
    have h0 : i ≠ 0 := by rintro rfl; rw [h.root.2.1] at hp; exact absurd hp (by simp)
    obtain ⟨j', e1, e2, e3, e4, e5, e6⟩ := h.par i hn h0
    rw [hp] at e1; injection e1 with e1; subst e1
    obtain ⟨fuel, r, f1, ss, cs, f2, f3, f4⟩ := ih e2
    refine ⟨fuel + 1, ((st.nd i).state :: r.1, (st.nd i).op :: r.2), ?_,
      ss ++ [(st.nd i).state], cs ++ [d.cost (st.nd j).state (st.nd i).op], ?_, ?_, ?_⟩
    · unfold solpath; rw [hp]; dsimp only; rw [f1]; rfl
    · rw [List.reverse_cons, f2]; rfl
    · rw [List.reverse_cons, e4]
      exact f3.snoc e3
    · unfold total at f4 ⊢
      rw [List.foldl_append]
      exact le_trans (mono _ f4) e6

omit [DecidableEq S] [DecidableEq O] in
theorem solpath_ok {st : St S O C P} (h : Inv d a s0 st) {n : Nat} (hn : n < st.next) {fuel : Nat}
    {r : List S × List O} (hr : solpath st.nd fuel n = .ok r) : IsSol d s0 (st.nd n).state (st.nd n).g r := by
  obtain ⟨fuel', r', h1, h2⟩ := solpath_spec h hn
  have e1 := solpath_mono' hr (Nat.le_max_left fuel fuel')
  have e2 := solpath_mono' h1 (Nat.le_max_right fuel fuel')
  rw [e1] at e2
  injection e2 with e2
  rw [e2]
  exact h2

/-! ## The frontier -/

/-- Spec: going on from `s` with the running sum `c` one can be at `t` with the running sum `c'`. -/
inductive Ext (d : Dom S O C) (s : S) (c : C) : S → C → Prop
  | nil : Ext d s c s c
  | snoc {t : S} {c' : C} {o : O} : Ext d s c t c' → o ∈ d.ops t → Ext d s c (d.app t o) (c' + d.cost t o)

/-- Along every walk: either its end is known and has been expanded, as cheaply, or there is an open node on the walk
that was reached as cheaply as along the walk. -/
theorem frontier_walk {st : St S O C P} (hd : DomOk d s0) (h : Inv d a s0 st) {t : S} {c : C} (hw : Walk d s0 t c) :
    (∃ k < st.next, (st.nd k).isopen = false ∧ (st.nd k).state = t ∧ (a.dropdups = false → (st.nd k).g ≤ c)) ∨
    ∃ k < st.next, (st.nd k).isopen = true ∧ ∃ ck, Walk d s0 (st.nd k).state ck ∧ Ext d (st.nd k).state ck t c ∧
      (a.dropdups = false → (st.nd k).g ≤ ck) := by
  induction hw with
  | nil =>
    cases ho : (st.nd 0).isopen with
    | false => exact .inl ⟨0, h.pos, ho, h.root.1, fun _ => h.root.2.2.1.le⟩
    | true => exact .inr ⟨0, h.pos, ho, 0, by rw [h.root.1]; exact .nil _, by rw [h.root.1]; exact .nil,
        fun _ => h.root.2.2.1.le⟩
  | @snoc t c o hw ho ih =>
    rcases ih with ⟨k, hk, hc, rfl, hg⟩ | ⟨k, hk, hop, ck, e1, e2, e3⟩
    · obtain ⟨m, f1, f2⟩ := h.succOk hd hk hc ho
      obtain ⟨hm, hms⟩ := h.cl2 _ _ f1
      have hle : a.dropdups = false → (st.nd m).g ≤ c + d.cost (st.nd k).state o := fun hdd =>
        (f2 hdd).trans (mono _ (hg hdd))
      cases hmo : (st.nd m).isopen with
      | false => exact .inl ⟨m, hm, hmo, hms, hle⟩
      | true => exact .inr ⟨m, hm, hmo, _, by rw [hms]; exact hw.snoc ho, by rw [hms]; exact .nil, hle⟩
    · exact .inr ⟨k, hk, hop, ck, e1, e2.snoc ho, e3⟩

theorem frontier {st : St S O C P} (hd : DomOk d s0) (h : Inv d a s0 st) {t : S} {c : C} (hw : Walk d s0 t c)
    (hg : d.goal t = true) :
    ∃ k < st.next, (st.nd k).isopen = true ∧ ∃ ck, Walk d s0 (st.nd k).state ck ∧ Ext d (st.nd k).state ck t c ∧
      (a.dropdups = false → (st.nd k).g ≤ ck) := by
  rcases frontier_walk hd h hw with ⟨k, hk, hc, rfl, -⟩ | h
  · rw [h.ngoal k hk hc] at hg; exact absurd hg (by simp)
  · exact h

/-! ## Termination -/

theorem progress (ha : PredOk a) (st : St S O C P) : Empty st ∨ ∃ n, Least a st n := by
  have key : ∀ N, (∀ m < N, (st.nd m).isopen = false) ∨ ∃ n < N, (st.nd n).isopen = true ∧
      ∀ m < N, (st.nd m).isopen = true → a.pred ((st.nd m).p, (st.nd m).g) ((st.nd n).p, (st.nd n).g) = false := by
    intro N
    induction N with
    | zero => exact Or.inl (by omega)
    | succ N ih =>
      by_cases ho : (st.nd N).isopen = true
      · right
        rcases ih with h | ⟨n, h1, h2, h3⟩
        · refine ⟨N, by omega, ho, fun m hm hmo => ?_⟩
          by_cases e : m = N
          · rw [e]; exact ha.irrefl _
          · rw [h m (by omega)] at hmo; exact absurd hmo (by simp)
        · by_cases hp : a.pred ((st.nd N).p, (st.nd N).g) ((st.nd n).p, (st.nd n).g) = true
          · refine ⟨N, by omega, ho, fun m hm hmo => ?_⟩
            by_cases e : m = N
            · rw [e]; exact ha.irrefl _
            · by_contra hc
              have := ha.trans _ _ _ (by simpa using hc) hp
              rw [h3 m (by omega) hmo] at this
              exact absurd this (by simp)
          · refine ⟨n, by omega, h2, fun m hm hmo => ?_⟩
            by_cases e : m = N
            · rw [e]; simpa using hp
            · exact h3 m (by omega) hmo
      · rcases ih with h | ⟨n, h1, h2, h3⟩
        · left
          intro m hm
          by_cases e : m = N
          · rw [e]; simpa using ho
          · exact h m (by omega)
        · right
          refine ⟨n, by omega, h2, fun m hm hmo => ?_⟩
          by_cases e : m = N
          · rw [e] at hmo; exact absurd hmo ho
          · exact h3 m (by omega) hmo
  rcases key st.next with h | ⟨n, h⟩
  · exact Or.inl h
  · exact Or.inr ⟨n, h⟩

/-- Something got better, or nothing changed. -/
def Prog (st st' : St S O C P) : Prop :=
  (∀ s k, st.closed s = some k → st'.closed s = some k ∧ (st'.nd k).g ≤ (st.nd k).g) ∧
  ((st'.nd = st.nd ∧ st'.next = st.next ∧ st'.closed = st.closed) ∨
    ∃ s, (st.closed s = none ∧ st'.closed s ≠ none) ∨ ∃ k, st.closed s = some k ∧ (st'.nd k).g < (st.nd k).g)

theorem Prog.refl (st : St S O C P) : Prog st st := ⟨fun _ _ h => ⟨h, le_rfl⟩, Or.inl ⟨rfl, rfl, rfl⟩⟩

theorem Prog.trans {s1 s2 s3 : St S O C P} (h : Prog s1 s2) (h' : Prog s2 s3) : Prog s1 s3 := by
  refine ⟨fun s k hk => ?_, ?_⟩
  · obtain ⟨e1, e2⟩ := h.1 s k hk
    obtain ⟨e3, e4⟩ := h'.1 s k e1
    exact ⟨e3, e4.trans e2⟩
  · rcases h.2 with ⟨e1, e2, e3⟩ | ⟨s, hs⟩
    · rcases h'.2 with ⟨f1, f2, f3⟩ | ⟨s, hs⟩
      · exact Or.inl ⟨f1.trans e1, f2.trans e2, f3.trans e3⟩
      · right; rw [e1, e3] at hs; exact ⟨s, hs⟩
    · right
      refine ⟨s, ?_⟩
      rcases hs with ⟨e1, e2⟩ | ⟨k, e1, e2⟩
      · left
        refine ⟨e1, ?_⟩
        obtain ⟨k, hk⟩ := Option.ne_none_iff_exists'.1 e2
        rw [(h'.1 s k hk).1]; simp
      · right
        exact ⟨k, e1, lt_of_le_of_lt (h'.1 s k (h.1 s k e1).1).2 e2⟩

theorem prog_tryop {st : St S O C P} {n : Nat} {o : O} (hcl : ∀ s i, st.closed s = some i → i < st.next) :
    Prog st (tryop d a n st o) := by
  unfold tryop
  split
  · exact .refl st
  · unfold considerkid
    dsimp only
    cases hc : st.closed (d.app (st.nd n).state o) with
    | some k =>
      dsimp only
      by_cases hcc : a.dropdups = true ∨ (st.nd k).g ≤ (st.nd n).g + d.cost (st.nd n).state o
      · rw [if_pos hcc]; exact .refl st
      · rw [if_neg hcc]
        rw [not_or, not_le] at hcc
        refine ⟨fun s i hi => ⟨hi, ?_⟩, Or.inr ⟨_, Or.inr ⟨k, hc, ?_⟩⟩⟩
        · dsimp only
          by_cases e : i = k
          · rw [e, Function.update_self]; exact hcc.2.le
          · rw [Function.update_of_ne e]
        · dsimp only
          rw [Function.update_self]; exact hcc.2
    | none =>
      dsimp only
      refine ⟨fun s i hi => ⟨?_, ?_⟩, Or.inr ⟨d.app (st.nd n).state o, Or.inl ⟨hc, ?_⟩⟩⟩
      · dsimp only
        rw [Function.update_of_ne]
        · exact hi
        · rintro rfl; rw [hc] at hi; exact absurd hi (by simp)
      · dsimp only
        rw [Function.update_of_ne]
        have := hcl s i hi
        omega
      · dsimp only; rw [Function.update_self]; simp

theorem prog_fold (hd : CostOk d s0) (os : List O) {st : St S O C P} {n : Nat}
    (h : InvX d a s0 st n os) (ho : ∀ o ∈ os, o ∈ d.ops (st.nd n).state) :
    Prog st (os.foldl (tryop d a n) st) := by
  induction os generalizing st with
  | nil => exact .refl st
  | cons o os ih =>
    rw [List.foldl_cons]
    refine (prog_tryop (fun s i hi => (h.cl2 s i hi).1)).trans
      (ih (invX_tryop hd h (ho o (by simp))) (fun o' ho' => ?_))
    rw [tryop_state h.lt]
    exact ho o' (by simp [ho'])

/-- Number of open nodes. -/
def nopen (st : St S O C P) : Nat := ((Finset.range st.next).filter fun i => (st.nd i).isopen = true).card

theorem nopen_pop {st : St S O C P} {n : Nat} (hn : n < st.next) (ho : (st.nd n).isopen = true) :
    nopen (pop n st) < nopen st := by
  apply Finset.card_lt_card
  rw [Finset.ssubset_iff_of_subset]
  · refine ⟨n, Finset.mem_filter.2 ⟨Finset.mem_range.2 hn, ho⟩, fun hc => ?_⟩
    have h2 := (Finset.mem_filter.1 hc).2
    unfold pop at h2
    dsimp only at h2
    rw [Function.update_self] at h2
    exact absurd h2 (by simp)
  · intro i hi
    simp only [Finset.mem_filter, Finset.mem_range] at hi ⊢
    refine ⟨hi.1, ?_⟩
    have h2 := hi.2
    unfold pop at h2
    dsimp only at h2
    by_cases e : i = n
    · rw [e]; exact ho
    · rwa [Function.update_of_ne e] at h2

/-- The reachable states. -/
def Reachable (d : Dom S O C) (s0 : S) : Set S := {s | ∃ c, Walk d s0 s c}

/-- Costs that are not negative. -/
abbrev Nonneg (C : Type*) [Zero C] [LE C] : Type _ := {c : C // 0 ≤ c}

open Classical in
/-- What is known about each reachable state. -/
noncomputable def gmap (d : Dom S O C) (s0 : S) (st : St S O C P) (s : Reachable d s0) : WithTop (Nonneg C) :=
  match st.closed s with
  | none => ⊤
  | some k => if h : 0 ≤ (st.nd k).g then ((⟨_, h⟩ : Nonneg C) : WithTop (Nonneg C)) else ⊤

theorem gmap_some (hd : CostOk d s0) {st : St S O C P} (h : Inv d a s0 st) {s : Reachable d s0} {k : Nat}
    (hk : st.closed s = some k) :
    gmap d s0 st s = ((⟨_, walk_nonneg hd (h.walk k (h.cl2 _ _ hk).1)⟩ : Nonneg C) : WithTop (Nonneg C)) := by
  unfold gmap
  rw [hk]
  dsimp only
  rw [dif_pos]

theorem gmap_none {st : St S O C P} {s : Reachable d s0} (hk : st.closed s = none) : gmap d s0 st s = ⊤ := by
  unfold gmap; rw [hk]

theorem gmap_prog (hd : CostOk d s0) {st st' : St S O C P} (hp : Prog st st') (h : Inv d a s0 st) (h' : Inv d a s0 st') :
    (gmap d s0 st' < gmap d s0 st) ∨ (st'.nd = st.nd ∧ st'.next = st.next ∧ st'.closed = st.closed) := by
  have hle : gmap d s0 st' ≤ gmap d s0 st := by
    intro s
    cases hk : st.closed s with
    | none => rw [gmap_none hk]; exact le_top
    | some k =>
      obtain ⟨e1, e2⟩ := hp.1 s k hk
      rw [gmap_some hd h hk, gmap_some hd h' e1, WithTop.coe_le_coe]
      exact e2
  rcases hp.2 with e | ⟨s, hs⟩
  · exact Or.inr e
  · left
    have hreach : s ∈ Reachable d s0 := by
      rcases hs with ⟨_, e⟩ | ⟨k, e, _⟩
      · obtain ⟨k, hk⟩ := Option.ne_none_iff_exists'.1 e
        obtain ⟨h1, h2⟩ := h'.cl2 _ _ hk
        exact ⟨_, h2 ▸ h'.walk k h1⟩
      · obtain ⟨h1, h2⟩ := h.cl2 _ _ e
        exact ⟨_, h2 ▸ h.walk k h1⟩
    refine lt_of_le_of_ne hle (fun heq => ?_)
    have heq' := congrFun heq ⟨s, hreach⟩
    rcases hs with ⟨e1, e2⟩ | ⟨k, e1, e2⟩
    · obtain ⟨k, hk⟩ := Option.ne_none_iff_exists'.1 e2
      rw [gmap_some hd h' (s := ⟨s, hreach⟩) hk, gmap_none (st := st) (s := ⟨s, hreach⟩) e1] at heq'
      exact WithTop.coe_ne_top heq'
    · have e3 := hp.1 s k e1
      rw [gmap_some hd h (s := ⟨s, hreach⟩) e1, gmap_some hd h' (s := ⟨s, hreach⟩) e3.1, WithTop.coe_inj] at heq'
      injection heq' with heq'
      rw [heq'] at e2
      exact lt_irrefl _ e2

/-- Expanding a node improves what is known, or changes nothing. -/
theorem expand_gmap (hd : CostOk d s0) {st : St S O C P} (h : Inv d a s0 st) {n : Nat} (hn : n < st.next)
    (hgl : d.goal (st.nd n).state = false) :
    gmap d s0 (expand d a n (pop n st)) < gmap d s0 st ∨
      (gmap d s0 (expand d a n (pop n st)) = gmap d s0 st ∧ (expand d a n (pop n st)).nd = (pop n st).nd ∧
        (expand d a n (pop n st)).next = st.next ∧ (expand d a n (pop n st)).closed = st.closed) := by
  have h' := h.expand hd hn hgl
  have hx := h.popped hn hgl
  have hst : ((pop n st).nd n).state = (st.nd n).state := by
    unfold pop
    dsimp only
    rw [Function.update_self]
  have hfold : Prog (pop n st) (expand d a n (pop n st)) := by
    have := prog_fold hd (d.ops (st.nd n).state)
      (hx.stats (st.expd + 1) st.gend st.dups st.reopnd) (fun o ho => by
        show o ∈ d.ops ((pop n st).nd n).state
        rw [hst]; exact ho)
    unfold expand
    rw [hst]
    exact this
  have hg : ∀ k, ((pop n st).nd k).g = (st.nd k).g := fun k => by
    unfold pop
    dsimp only
    by_cases e : k = n
    · rw [e, Function.update_self]
    · rw [Function.update_of_ne e]
  -- from `st` (before the pop) the known costs are those after the pop
  rcases hfold.2 with ⟨e1, e2, e3⟩ | ⟨s, hs⟩
  · right
    refine ⟨?_, e1, e2, e3⟩
    funext s
    cases hk : st.closed s with
    | none =>
      rw [gmap_none hk, gmap_none]
      rw [e3]; exact hk
    | some k =>
      have hk' : (expand d a n (pop n st)).closed s = some k := by rw [e3]; exact hk
      rw [gmap_some hd h hk, gmap_some hd h' hk', WithTop.coe_inj]
      apply Subtype.ext
      show ((expand d a n (pop n st)).nd k).g = _
      rw [e1, hg]
  · have hpr' : Prog st (expand d a n (pop n st)) := by
      refine ⟨fun s k hk => ?_, Or.inr ⟨s, ?_⟩⟩
      · have := hfold.1 s k hk
        rw [hg] at this
        exact this
      · rcases hs with hs | ⟨k, f1, f2⟩
        · exact Or.inl hs
        · rw [hg] at f2; exact Or.inr ⟨k, f1, f2⟩
    rcases gmap_prog hd hpr' h h' with hlt | ⟨e1, _, e3⟩
    · exact Or.inl hlt
    · exfalso
      rcases hs with ⟨f1, f2⟩ | ⟨k, f1, f2⟩
      · exact f2 (by rw [e3]; exact f1)
      · rw [hg, e1] at f2; exact lt_irrefl _ f2

/-- What decreases. -/
noncomputable def weight (d : Dom S O C) (s0 : S) (st : St S O C P) :
    (Reachable d s0 → WithTop (Nonneg C)) × Nat := (gmap d s0 st, nopen st)

theorem step_measure (hd : CostOk d s0) {st st' : St S O C P} (h : Inv d a s0 st)
    (hs : Step d a st st') : Prod.Lex (· < ·) (· < ·) (weight d s0 st') (weight d s0 st) := by
  cases hs with
  | @mk n hl hg =>
    rcases expand_gmap hd h hl.1 hg with hlt | ⟨hgm, e1, e2, -⟩
    · exact Prod.Lex.left _ _ hlt
    · unfold weight
      rw [hgm]
      apply Prod.Lex.right
      have : nopen (expand d a n (pop n st)) = nopen (pop n st) := by
        unfold nopen
        rw [e1, e2]
        rfl
      rw [this]
      exact nopen_pop hl.1 hl.2.1

theorem gmap_wf [WellFoundedLT (Nonneg C)] (hf : (Reachable d s0).Finite) :
    WellFounded fun x y : Reachable d s0 → WithTop (Nonneg C) => x < y := by
  haveI : Finite (Reachable d s0) := hf
  exact wellFounded_lt

/-- On a finite reachable state space every run of the loop ends. -/
theorem terminates [WellFoundedLT (Nonneg C)] (hd : CostOk d s0) (hf : (Reachable d s0).Finite) :
    ¬ ∃ f : Nat → St S O C P, f 0 = init d a s0 ∧ ∀ k, Step d a (f k) (f (k + 1)) := by
  rintro ⟨f, h0, hs⟩
  have hinv : ∀ k, Inv d a s0 (f k) := by
    intro k
    induction k with
    | zero => rw [h0]; exact inv_init
    | succ k ih => exact inv_step hd ih (hs k)
  have hwf : WellFounded (Prod.Lex (α := Reachable d s0 → WithTop (Nonneg C)) (β := Nat) (· < ·) (· < ·)) :=
    WellFounded.prod_lex (gmap_wf hf) wellFounded_lt
  obtain ⟨_, ⟨k, rfl⟩, hmin⟩ := hwf.has_min (Set.range fun k => weight d s0 (f k)) ⟨_, 0, rfl⟩
  exact hmin _ ⟨k + 1, rfl⟩ (step_measure hd (hinv k) (hs k))

/-! ## Priorities that are what they would be if computed afresh -/

omit [RoundedAdd C] in
theorem prio_considerkid (ha : AlgOk a) {st : St S O C P} {n : Nat} {o : O}
    (h : ∀ i, i < st.next → (st.nd i).p = a.initp (st.nd i).g (st.nd i).state) 
    (hcl : ∀ s i, st.closed s = some i → i < st.next) :
    (∀ i, i < (considerkid d a n o st).next → ((considerkid d a n o st).nd i).p =
      a.initp ((considerkid d a n o st).nd i).g ((considerkid d a n o st).nd i).state) ∧
    ∀ s i, (considerkid d a n o st).closed s = some i → i < (considerkid d a n o st).next := by
  unfold considerkid
  dsimp only
  cases hc : st.closed (d.app (st.nd n).state o) with
  | some k =>
    dsimp only
    by_cases hcc : a.dropdups = true ∨ (st.nd k).g ≤ (st.nd n).g + d.cost (st.nd n).state o
    · rw [if_pos hcc]; exact ⟨h, hcl⟩
    · rw [if_neg hcc]
      refine ⟨fun i hi => ?_, hcl⟩
      dsimp only
      by_cases e : i = k
      · rw [e, Function.update_self]
        dsimp only
        rw [h k (hcl _ _ hc)]
        exact ha _ _ _
      · rw [Function.update_of_ne e]; exact h i hi
  | none =>
    dsimp only
    refine ⟨fun i hi => ?_, fun s i hs => ?_⟩
    · by_cases e : i = st.next
      · rw [e, Function.update_self]
      · rw [Function.update_of_ne e]; exact h i (by omega)
    · by_cases e : s = d.app (st.nd n).state o
      · rw [e, Function.update_self] at hs
        injection hs with hs
        omega
      · rw [Function.update_of_ne e] at hs
        have := hcl s i hs
        omega

omit [RoundedAdd C] in
theorem prio_fold (ha : AlgOk a) (os : List O) {st : St S O C P} {n : Nat}
    (h : ∀ i, i < st.next → (st.nd i).p = a.initp (st.nd i).g (st.nd i).state)
    (hcl : ∀ s i, st.closed s = some i → i < st.next) :
    ∀ i, i < (os.foldl (tryop d a n) st).next → ((os.foldl (tryop d a n) st).nd i).p =
      a.initp ((os.foldl (tryop d a n) st).nd i).g ((os.foldl (tryop d a n) st).nd i).state := by
  induction os generalizing st with
  | nil => exact h
  | cons o os ih =>
    rw [List.foldl_cons]
    have key : (∀ i, i < (tryop d a n st o).next → ((tryop d a n st o).nd i).p =
        a.initp ((tryop d a n st o).nd i).g ((tryop d a n st o).nd i).state) ∧
        ∀ s i, (tryop d a n st o).closed s = some i → i < (tryop d a n st o).next := by
      unfold tryop
      split
      · exact ⟨h, hcl⟩
      · exact prio_considerkid (st := { st with gend := st.gend + 1 }) ha h hcl
    exact ih key.1 key.2

theorem prio_reach (hd : CostOk d s0) (ha : AlgOk a) {st : St S O C P} (h : Reach d a s0 st) :
    ∀ i, i < st.next → (st.nd i).p = a.initp (st.nd i).g (st.nd i).state := by
  induction h with
  | init =>
    intro i hi
    have : i < 1 := hi
    rfl
  | @step st st' hr hs ih =>
    cases hs with
    | @mk n hl hg =>
      have hinv := inv_reach hd hr
      unfold expand
      refine prio_fold ha _ ?_ ?_
      · intro i hi
        show (Function.update st.nd n _ i).p = a.initp (Function.update st.nd n _ i).g (Function.update st.nd n _ i).state
        by_cases e : i = n
        · rw [e, Function.update_self]; exact ih n hl.1
        · rw [Function.update_of_ne e]; exact ih i hi
      · intro s i hs
        exact (hinv.cl2 s i hs).1

/-! ## A* -/

/-- search/astar.hpp as in `Search.astar`, for costs that need not form a group: `f = g + h` (146, 159), updated by
`f = f - g + g'` (133), ordered by smaller `f`, then larger `g` (40-44). -/
def rastar [Sub C] (h : S → C) : Alg S C C where
  initp g s := g + h s
  updp f g g' := f - g + g'
  pred x y := if x.1 = y.1 then decide (x.2 > y.2) else decide (x.1 < y.1)
  dropdups := false

/-- Rounded subtraction and addition of zero. -/
class RoundedSub (C : Type*) [Add C] [Zero C] [Sub C] : Prop where
  sub_self : ∀ a : C, a - a = 0
  zero_add : ∀ a : C, 0 + a = a
  add_zero : ∀ a : C, a + 0 = a

instance (p : ℕ) : RoundedSub (Dbl.Num p) where
  sub_self a := Subtype.ext (by rw [Dbl.Num.val_sub, _root_.sub_self, Dbl.rnd_zero]; rfl)
  zero_add a := Subtype.ext (by rw [Dbl.Num.val_add, Dbl.Num.val_zero, _root_.zero_add]; exact a.2)
  add_zero a := Subtype.ext (by rw [Dbl.Num.val_add, Dbl.Num.val_zero, _root_.add_zero]; exact a.2)

end Proofs

theorem rastar_eq [AddCommGroup C] [LinearOrder C] (h : S → C) : rastar h = astar h := rfl

/-! ## How far the rounded sum is from the exact one -/

theorem total_snoc {C : Type*} [Add C] [Zero C] (cs : List C) (c : C) : total (cs ++ [c]) = total cs + c := by
  unfold total; rw [List.foldl_append]; rfl

theorem total_err {p : ℕ} (cs : List (Dbl.Num p)) (hc : ∀ c ∈ cs, 0 ≤ c) :
    0 ≤ (total cs).1 ∧ 0 ≤ (cs.map (·.1)).sum ∧
    (2 ^ (p + 1) - 1) ^ cs.length * (cs.map (·.1)).sum ≤ (2 ^ (p + 1)) ^ cs.length * (total cs).1 ∧
    (2 ^ (p + 1)) ^ cs.length * (total cs).1 ≤ (2 ^ (p + 1) + 1) ^ cs.length * (cs.map (·.1)).sum := by
  induction cs using List.reverseRecOn with
  | nil => simp [total, Dbl.Num.val_zero]
  | append_singleton cs c ih =>
    obtain ⟨i0, i1, i2, i3⟩ := ih (fun x hx => hc x (by simp [hx]))
    have hc0 : (0 : ℤ) ≤ c.1 := hc c (by simp)
    rw [total_snoc, Dbl.Num.val_add, List.map_append, List.sum_append, List.length_append]
    simp only [List.map_cons, List.map_nil, List.sum_cons, List.sum_nil, add_zero, List.length_cons, List.length_nil,
      zero_add]
    generalize (total cs).1 = t at *
    generalize (cs.map (·.1)).sum = s at *
    generalize cs.length = n at *
    have he := Dbl.rnd_err (Nat.succ_pos p) (t + c.1)
    rw [abs_of_nonneg (show 0 ≤ t + c.1 by linarith)] at he
    have hP : (1 : ℤ) ≤ 2 ^ (p + 1) := one_le_pow₀ (by norm_num)
    have hup : 0 ≤ Dbl.rnd (p + 1) (t + c.1) := by
      have := Dbl.rnd_mono (Nat.succ_pos p) (show 0 ≤ t + c.1 by linarith)
      rwa [Dbl.rnd_zero] at this
    generalize Dbl.rnd (p + 1) (t + c.1) = r at *
    simp only [Nat.succ_eq_add_one] at he
    generalize (2 : ℤ) ^ (p + 1) = Q at *
    have h1 := le_trans (mul_le_mul_of_nonneg_right (le_abs_self (r - (t + c.1))) (by linarith)) he
    have h2 := le_trans (mul_le_mul_of_nonneg_right (neg_le_abs (r - (t + c.1))) (by linarith)) he
    refine ⟨hup, by linarith, ?_, ?_⟩
    · calc (Q - 1) ^ (n + 1) * (s + c.1) = (Q - 1) * ((Q - 1) ^ n * s + (Q - 1) ^ n * c.1) := by ring
        _ ≤ (Q - 1) * (Q ^ n * t + Q ^ n * c.1) := by
          refine mul_le_mul_of_nonneg_left (add_le_add i2 ?_) (by linarith)
          exact mul_le_mul_of_nonneg_right (pow_le_pow_left₀ (by linarith) (by linarith) n) hc0
        _ = Q ^ n * ((Q - 1) * (t + c.1)) := by ring
        _ ≤ Q ^ n * (Q * r) := mul_le_mul_of_nonneg_left (by linarith) (by positivity)
        _ = Q ^ (n + 1) * r := by ring
    · calc Q ^ (n + 1) * r = Q ^ n * (Q * r) := by ring
        _ ≤ Q ^ n * ((Q + 1) * (t + c.1)) := mul_le_mul_of_nonneg_left (by linarith) (by positivity)
        _ = (Q + 1) * (Q ^ n * t + Q ^ n * c.1) := by ring
        _ ≤ (Q + 1) * ((Q + 1) ^ n * s + (Q + 1) ^ n * c.1) := by
          refine mul_le_mul_of_nonneg_left (add_le_add i3 ?_) (by linarith)
          exact mul_le_mul_of_nonneg_right (pow_le_pow_left₀ (by linarith) (by linarith) n) hc0
        _ = (Q + 1) ^ (n + 1) * (s + c.1) := by ring

instance (p : ℕ) : WellFoundedLT (Nonneg (Dbl.Num p)) := by
  refine ⟨Subrelation.wf (r := InvImage (· < ·) fun c : Nonneg (Dbl.Num p) => c.1.1.toNat) ?_
    (InvImage.wf _ wellFounded_lt)⟩
  intro x y hxy
  have h1 : (0 : ℤ) ≤ x.1.1 := x.2
  have h2 : x.1.1 < y.1.1 := hxy
  show x.1.1.toNat < y.1.1.toNat
  omega

end Verif.Rounded
