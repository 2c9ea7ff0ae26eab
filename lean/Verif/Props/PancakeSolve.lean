import Verif.Props.Pancake
import Verif.Props.Concrete
import Mathlib.Data.Fintype.Perm

/-!
# C76: every stack of pancakes is sorted by the searches

`turn l k`: the list `l` with its first `k + 1` elements in reverse order; `sorted N`: `0, 1, ..., N - 1`.
-/

namespace Verif.Pancake

open Verif.Search

variable {N : Nat}

theorem exists_pos {c : Fin N → Int} (hc : IsPerm c) {k : Nat} (hk : k < N) (hs : ∀ i : Fin N, k < i.val → c i = i.val) :
    ∃ p, ∃ hp : p < N, p ≤ k ∧ c ⟨p, hp⟩ = k := by
  have hsurj : Function.Surjective (fun i => (⟨(c i).toNat, by have := hc.2 i; omega⟩ : Fin N)) := by
    refine Finite.surjective_of_injective fun a b h => hc.1 ?_
    have h' : (c a).toNat = (c b).toNat := congrArg Fin.val h
    have := hc.2 a
    have := hc.2 b
    omega
  obtain ⟨p, hp⟩ := hsurj ⟨k, hk⟩
  have h1 : (c p).toNat = k := congrArg Fin.val hp
  have h2 := hc.2 p
  refine ⟨p.val, p.isLt, ?_, by show c p = _; omega⟩
  by_contra h3
  have := hs p (by omega)
  omega

theorem sortable (k : Nat) (hk : k ≤ N) (c : Fin N → Int) (hc : IsPerm c) (hs : ∀ i : Fin N, k ≤ i.val → c i = i.val) :
    ∃ ks : List Int, (∀ x ∈ ks, 0 < x ∧ x < N) ∧ ks.length ≤ 2 * (k - 1) ∧
      ks.foldl turn (List.ofFn c) = sorted N := by
  induction k generalizing c with
  | zero => exact ⟨[], by simp, by simp, sorted_iff.2 fun i => hs i (by omega)⟩
  | succ k ih =>
    obtain ⟨p, hp, hpk, hcp⟩ := exists_pos hc (show k < N by omega) (fun i hi => hs i hi)
    by_cases e : p = k
    · subst e
      obtain ⟨ks, h1, h2, h3⟩ := ih (by omega) c hc fun i hi => by
        rcases Nat.lt_or_ge p i.val with h | h
        · exact hs i h
        · have : i = ⟨p, hp⟩ := Fin.ext (by dsimp only; omega)
          rw [this, hcp]
      exact ⟨ks, h1, by omega, h3⟩
    · have hkN : k < N := by omega
      -- bring the cake to the top
      have top : ∃ ks : List Int, ∃ d : Fin N → Int, (∀ x ∈ ks, 0 < x ∧ x < N) ∧ ks.length ≤ 1 ∧
          ks.foldl turn (List.ofFn c) = List.ofFn d ∧ IsPerm d ∧ d ⟨0, by omega⟩ = k ∧
          ∀ i : Fin N, k + 1 ≤ i.val → d i = i.val := by
        rcases Nat.eq_zero_or_pos p with rfl | hpos
        · exact ⟨[], c, by simp, by simp, rfl, hc, hcp, hs⟩
        · refine ⟨[(p : Int)], flipped p c, by simp; omega, by simp, ?_, isPerm_flipped hp hc, ?_, fun i hi => ?_⟩
          · rw [List.foldl_cons, List.foldl_nil, turn_ofFn (by simpa using hp), Int.toNat_natCast]
          · rw [flipped_le c (by omega) (by omega) hp]
            exact hcp
          · have : flipped p c i = c i := flipped_gt c i.isLt (by omega)
            rw [this]; exact hs i hi
      obtain ⟨ks, d, t1, t2, t3, t4, t5, t6⟩ := top
      obtain ⟨ls, l1, l2, l3⟩ := ih (by omega) (flipped k d) (isPerm_flipped hkN t4) fun i hi => by
        rcases Nat.lt_or_ge k i.val with h | h
        · have : flipped k d i = d i := flipped_gt d i.isLt h
          rw [this]; exact t6 i h
        · have hik : i.val = k := by omega
          have : flipped k d i = d ⟨k - i.val, by omega⟩ := flipped_le d i.isLt (by omega) hkN
          have e0 : (⟨k - i.val, by omega⟩ : Fin N) = ⟨0, by omega⟩ := Fin.ext (by dsimp only; omega)
          rw [this, e0, t5, hik]
      refine ⟨ks ++ (k : Int) :: ls, ?_, ?_, ?_⟩
      · intro x hx
        rcases List.mem_append.1 hx with hx | hx
        · exact t1 x hx
        · rcases List.mem_cons.1 hx with rfl | hx
          · omega
          · exact l1 x hx
      · rw [List.length_append, List.length_cons]; omega
      · rw [List.foldl_append, t3, List.foldl_cons, turn_ofFn (by simpa using hkN), Int.toNat_natCast, l3]

/-- **C76 (sortable).** Every stack of `N` different cakes can be sorted with at most `2 (N - 1)` flips. -/
theorem c76_sortable {c : Fin N → Int} (hc : IsPerm c) :
    ∃ ks : List Int, (∀ k ∈ ks, 0 < k ∧ k < N) ∧ ks.length ≤ 2 * (N - 1) ∧ ks.foldl turn (List.ofFn c) = sorted N :=
  sortable N le_rfl c hc fun i hi => absurd i.isLt (by omega)

theorem plan_len {s : State N} {ops : List Int} {ss : List (State N)} {c : Int} (h : Plan (dom N) s ops ss c) :
    c = ops.length := by
  induction h with
  | nil => rfl
  | cons _ _ ih => rw [ih]; simp only [dom, List.length_cons]; push_cast; ring

/-- A shortest way to sort a stack: the flips `ks`, last one first. -/
def Shortest (init : Fin N → Int) (ks : List Int) : Prop :=
  (∀ k ∈ ks, 0 < k ∧ k < N) ∧ ks.reverse.foldl turn (List.ofFn init) = sorted N ∧
    ∀ ls : List Int, (∀ k ∈ ls, 0 < k ∧ k < N) → ls.foldl turn (List.ofFn init) = sorted N → ks.length ≤ ls.length

theorem solvable_state {s0 : State N} (hs : s0.h = gaps s0.cakes) (hp : IsPerm s0.cakes) :
    ∃ ops ss t c, Plan (dom N) s0 ops ss c ∧ (s0 :: ss).getLast? = some t ∧ (dom N).goal t = true ∧ c ≤ 2 * (N - 1 : Nat) := by
  obtain ⟨ks, h1, h2, h3⟩ := c76_sortable hp
  obtain ⟨ss, c, t, e1, e2, e3⟩ := turns_plan hs ks h1
  have hw := e1.last_walk e2
  refine ⟨ks, ss, t, c, e1, e2, ?_, ?_⟩
  · rw [c44_goal (hw.inv (I := HOk) hok_app hs) (c44_perm hs hp hw), ← sorted_iff, e3, h3]
  · rw [plan_len e1]; omega

theorem best_shortest {s0 : State N} (hs : s0.h = gaps s0.cakes) (hp : IsPerm s0.cakes) {p : List (State N) × List Int}
    (h : Best (dom N) s0 p) : Shortest s0.cakes p.2 ∧ p.2.length ≤ 2 * (N - 1) := by
  obtain ⟨c, ⟨ss, h1, h2, t, h3, h4⟩, hb⟩ := h
  have hl : (s0 :: ss).getLast? = some t := by rw [← h1, List.getLast?_reverse, h3]
  have hw := h2.last_walk hl
  have ht := plan_turns hs h2 hl
  have hlen := plan_len h2
  rw [List.length_reverse] at hlen
  have key : ∀ ls : List Int, (∀ k ∈ ls, 0 < k ∧ k < N) → ls.foldl turn (List.ofFn s0.cakes) = sorted N →
      p.2.length ≤ ls.length := by
    intro ls k1 k2
    obtain ⟨ss', c', t', e1, e2, e3⟩ := turns_plan hs ls k1
    have hw' := e1.last_walk e2
    have := hb ls ss' t' c' e1 e2 (by
      rw [c44_goal (hw'.inv (I := HOk) hok_app hs) (c44_perm hs hp hw'), ← sorted_iff, e3, k2])
    rw [plan_len e1, hlen] at this
    exact_mod_cast this
  refine ⟨⟨fun k hk => ht.1 k (by simpa using hk), ?_, key⟩, ?_⟩
  · rw [ht.2, sorted_iff, ← c44_goal (hw.inv (I := HOk) hok_app hs) (c44_perm hs hp hw)]
    exact h4
  · obtain ⟨ks, k1, k2, k3⟩ := c76_sortable hp
    exact (key ks k1 k3).trans k2

/-- The stacks of `N` cakes are at most `N!`. -/
theorem reachable_stacks {s0 : State N} (hs : s0.h = gaps s0.cakes) (hp : IsPerm s0.cakes) :
    ∃ T : Finset (State N), T.card ≤ N.factorial ∧ ∀ s c, Walk (dom N) s0 s c → s ∈ T := by
  refine ⟨Finset.univ.image fun σ : Equiv.Perm (Fin N) =>
    (⟨fun i => ((σ i).val : Int), gaps fun i => ((σ i).val : Int)⟩ : State N), ?_, fun s c hw => ?_⟩
  · refine Finset.card_image_le.trans ?_
    rw [Finset.card_univ, Fintype.card_perm, Fintype.card_fin]
  · have h1 := hw.inv (I := HOk) hok_app hs
    have h2 := c44_perm hs hp hw
    have hinj : Function.Injective (fun i => (⟨(s.cakes i).toNat, by have := h2.2 i; omega⟩ : Fin N)) := by
      intro a b h
      have h' : (s.cakes a).toNat = (s.cakes b).toNat := congrArg Fin.val h
      have := h2.2 a
      have := h2.2 b
      exact h2.1 (by omega)
    refine Finset.mem_image.2 ⟨Equiv.ofBijective _ (Finite.injective_iff_bijective.1 hinj), Finset.mem_univ _, ?_⟩
    have e : (fun i => (((Equiv.ofBijective _ (Finite.injective_iff_bijective.1 hinj)) i).val : Int)) = s.cakes := by
      funext i
      show ((s.cakes i).toNat : Int) = _
      have := h2.2 i
      omega
    rw [e]
    cases s
    simp only [HOk] at h1
    rw [h1]

/-- **C76 (A\*).** For up to 12 cakes A* with the bucket queue and the hash table always returns a shortest way to sort the
stack. -/
theorem c76_astar (hN : N ≤ 12) {init : Fin N → Int} (hp : IsPerm init) {s0 : State N} (h0 : initialstate init = .ok s0)
    {hash : State N → Nat} {x : Lists (BucketOpen.Open Nat)} (hx : BucketObj (State N) Int x) :
    ∃ F c p, (∀ fuel ≥ F, csearch (dom N) (astar State.h) bucketImpl hash x ⟨0, 0⟩ (fun _ => false) fuel s0 = .ok (c, p)) ∧
      Shortest init p.2 := by
  obtain ⟨s1, e1, e2, e3⟩ := c43_gaps init
  rw [h0] at e1
  injection e1 with e1
  subst e1
  have hs := e3 s0 0 (.nil s0)
  rw [← e2] at hp ⊢
  obtain ⟨T, hT, hm⟩ := reachable_stacks hs hp
  have hT' : T.card ≤ 2 ^ 29 := hT.trans ((Nat.factorial_le hN).trans (by decide))
  obtain ⟨F, c, p, k1, k2, -⟩ := c67_astar_buckets (hash := hash) hx (domOk hs).undo
    (fun s g hw => by rw [e3 s g hw]; omega) (admissible hs) hm hT'
  obtain ⟨ops, ss, t, c', j1, j2, j3, -⟩ := solvable_state hs hp
  exact ⟨F, c, p, k1, (best_shortest hs hp (k2 ⟨ops, ss, t, c', j1, j2, j3⟩)).1⟩

/-- **C76 (IDA\*).** For any number of cakes IDA* returns a shortest way to sort the stack, after at most `2 N` iterations of
recursion depth at most `2 N`. -/
theorem c76_idastar (hN : 0 < N) {init : Fin N → Int} (hp : IsPerm init) {s0 : State N} (h0 : initialstate init = .ok s0)
    {l : Ida.Lim} (hl : ∀ a b c, l a b c = false) :
    ∃ iters fuel p st, iters ≤ 2 * N ∧ fuel ≤ 2 * N ∧
      Ida.search (dom N) State.h l (-1) s0 iters fuel = .ok (some p, st) ∧ Shortest init p.2 := by
  obtain ⟨s1, e1, e2, e3⟩ := c43_gaps init
  rw [h0] at e1
  injection e1 with e1
  subst e1
  have hs := e3 s0 0 (.nil s0)
  rw [← e2] at hp ⊢
  obtain ⟨ops, ss, t, c', j1, j2, j3, j4⟩ := solvable_state hs hp
  have hh : ∀ s g, Walk (dom N) s0 s g → 0 ≤ s.h := fun s g hw => by rw [e3 s g hw]; omega
  obtain ⟨p, st, hr⟩ := Ida.c33_complete (m1 := -1) (domOk hs) hl (fun _ _ _ _ _ => le_rfl) hh (admissible hs) (by norm_num) j1 j2 j3
  have hlm : Ida.LimMono l := fun a b c a' b' c' _ _ _ h => by simp [hl] at h
  have hbest := Ida.c33_optimal (domOk hs) hlm (admissible hs) (le_trans (by norm_num) (hh _ _ (.nil _))) hr
  exact ⟨_, _, p, st, by omega, by omega, hr, (best_shortest hs hp hbest).1⟩

/-! ### Examples -/

example : (Ida.search (dom 4) State.h (fun _ _ _ => false) (-1) ⟨![2, 0, 1, 3], 2⟩ 8 8).map (fun r => r.1.map Prod.snd) =
    .ok (some [1, 2]) := by decide +kernel
example : IsPerm (![2, 0, 1, 3] : Fin 4 → Int) ∧ initialstate (![2, 0, 1, 3] : Fin 4 → Int) = .ok ⟨![2, 0, 1, 3], 2⟩ :=
  ⟨⟨by unfold Function.Injective; decide, by decide⟩, by decide +kernel⟩

end Verif.Pancake
