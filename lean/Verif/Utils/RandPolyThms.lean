import Verif.Utils.RandPoly
import Mathlib.Data.List.Nodup

/-!
# Lemmas about random polygons
-/

namespace Verif.RandPoly

open Verif.Geom Verif.Str

variable {K : Type} [Field K] [LinearOrder K] [IsStrictOrderedRing K]

/-! ## Specification -/

/-- Two sides have at most an end of one in common that is the beginning of the other. -/
def Touch (s t : Seg K) : Prop :=
  ∀ q, OnSeg s.p0 s.p1 q → OnSeg t.p0 t.p1 q → (q = s.p1 ∧ q = t.p0) ∨ (q = s.p0 ∧ q = t.p1)

/-- The sides neither cross nor touch each other, other than one after the other. -/
def Simple (ss : List (Seg K)) : Prop := ss.Pairwise Touch

/-- Twice the area inside of the sides, if they go round clockwise. -/
def area2 (ss : List (Seg K)) : K := (ss.map fun s => (s.p1.x - s.p0.x) * (s.p0.y + s.p1.y)).sum

theorem Touch.symm {s t : Seg K} (h : Touch s t) : Touch t s := fun q h1 h2 => by
  rcases h q h2 h1 with ⟨a, b⟩ | ⟨a, b⟩
  · exact .inr ⟨b, a⟩
  · exact .inl ⟨b, a⟩

theorem simple_perm {l r : List (Seg K)} (h : l.Perm r) : Simple l ↔ Simple r :=
  h.pairwise_iff fun {_ _} => Touch.symm

theorem area2_perm {l r : List (Seg K)} (h : l.Perm r) : area2 l = area2 r := (h.map _).sum_eq

/-! ## Segments -/

theorem onSeg_left (a b : Pt K) : OnSeg a b a := ⟨0, le_rfl, zero_le_one, by ring, by ring⟩

theorem onSeg_right (a b : Pt K) : OnSeg a b b := ⟨1, zero_le_one, le_rfl, by ring, by ring⟩

/-- A linear function on a segment. -/
theorem onSeg_lin {a b q : Pt K} (h : OnSeg a b q) (m k c : K) :
    ∃ t, 0 ≤ t ∧ t ≤ 1 ∧ (k * q.y + m * q.x + c) = (1 - t) * (k * a.y + m * a.x + c) + t * (k * b.y + m * b.x + c) ∧
      (t = 0 → q = a) ∧ (t = 1 → q = b) := by
  obtain ⟨t, h0, h1, hx, hy⟩ := h
  refine ⟨t, h0, h1, by rw [hx, hy]; ring, fun h => ?_, fun h => ?_⟩
  · subst h
    cases q; cases a
    simp only at hx hy
    rw [hx, hy]
    simp
  · subst h
    cases q; cases b
    simp only at hx hy
    rw [hx, hy]
    simp

/-! ## Removing straight vertices -/

theorem chain_close (hd : Pt K) : ∀ (a : Pt K) (r : List (Pt K)) (h : a :: r ≠ []),
    chain (a :: r) ++ [⟨(a :: r).getLast h, hd⟩] = chain (a :: r ++ [hd])
  | a, [], _ => by simp [chain]
  | a, b :: r, _ => by
    have := chain_close hd b r (by simp)
    simp only [chain, List.cons_append, List.getLast_cons_cons] at this ⊢
    rw [this]

theorem chain_p0 : ∀ (a : Pt K) (r : List (Pt K)) (z : Pt K), (chain (a :: r ++ [z])).map Seg.p0 = a :: r
  | a, [], _ => by simp [chain]
  | a, b :: r, z => by
    have := chain_p0 b r z
    simp only [List.cons_append, chain, List.map_cons] at this ⊢
    rw [this]

theorem chain_p1 : ∀ (a : Pt K) (r : List (Pt K)), (chain (a :: r)).map Seg.p1 = r
  | a, [] => by simp [chain]
  | a, b :: r => by
    have := chain_p1 b r
    simp only [chain, List.map_cons] at this ⊢
    rw [this]

theorem cyc_eq (a : Pt K) (r : List (Pt K)) : cyc (a :: r) (by simp) = chain (a :: r ++ [a]) :=
  chain_close a a r (by simp)

theorem cyc_p0 {vs : List (Pt K)} (h : vs ≠ []) : (cyc vs h).map Seg.p0 = vs := by
  cases vs with
  | nil => exact absurd rfl h
  | cons a r => rw [cyc_eq, chain_p0]

theorem cyc_p1 {vs : List (Pt K)} (h : vs ≠ []) : ((cyc vs h).map Seg.p1).Perm vs := by
  cases vs with
  | nil => exact absurd rfl h
  | cons a r =>
    rw [cyc_eq, List.cons_append, chain_p1]
    exact List.perm_append_singleton a r

/-- Removing straight vertices leaves a simple polygon simple, and its area. -/
theorem rmcol_simple (vs : List (Pt K)) (i : Nat) (hne : vs ≠ []) (h2 : 2 ≤ vs.length) (hnd : vs.Nodup) (hs : Simple (cyc vs hne)) :
    ∃ hne' : rmcol vs i ≠ [], 2 ≤ (rmcol vs i).length ∧ (rmcol vs i).Nodup ∧ Simple (cyc (rmcol vs i) hne') ∧
      area2 (cyc (rmcol vs i) hne') = area2 (cyc vs hne) := by
  fun_induction rmcol vs i with
  | case1 vs i hi n hst ih =>
    have hlen : (vs.eraseIdx i).length = vs.length - 1 := List.length_eraseIdx_of_lt hi
    have hne1 : vs.eraseIdx i ≠ [] := by
      rw [← List.length_pos_iff]; omega
    obtain ⟨rest, p1, p2⟩ := erase_sides hi h2 hne hne1
    have hon : OnSeg (nbrs vs i hi).1 (nbrs vs i hi).2.2 (nbrs vs i hi).2.1 := straight_onSeg hst
    have nd0 : (((⟨(nbrs vs i hi).1, (nbrs vs i hi).2.1⟩ : Seg K) :: ⟨(nbrs vs i hi).2.1, (nbrs vs i hi).2.2⟩ :: rest).map Seg.p0).Nodup :=
      (p1.map Seg.p0).nodup_iff.1 (by rw [cyc_p0]; exact hnd)
    have nd1 : (((⟨(nbrs vs i hi).1, (nbrs vs i hi).2.1⟩ : Seg K) :: ⟨(nbrs vs i hi).2.1, (nbrs vs i hi).2.2⟩ :: rest).map Seg.p1).Nodup :=
      (p1.map Seg.p1).nodup_iff.1 ((cyc_p1 hne).nodup_iff.2 hnd)
    have hst' : straight (nbrs vs i hi).1 (nbrs vs i hi).2.1 (nbrs vs i hi).2.2 = true := hst
    generalize (nbrs vs i hi).1 = u at *
    generalize (nbrs vs i hi).2.1 = v at *
    generalize (nbrs vs i hi).2.2 = w at *
    simp only [List.map_cons, List.nodup_cons, List.mem_cons, not_or, List.mem_map, not_exists, not_and] at nd0 nd1
    have h3 : 3 ≤ vs.length := by
      by_contra hlt
      have l1 := p1.length_eq
      have l2 : (cyc vs hne).length = vs.length := by
        have := congrArg List.length (cyc_p0 hne)
        rwa [List.length_map] at this
      have hr : rest = [] := by
        rw [← List.length_eq_zero_iff]
        simp only [List.length_cons] at l1
        omega
      subst hr
      have hperm := (p1.map Seg.p0).symm.trans ((List.Perm.of_eq (cyc_p0 hne)).trans (cyc_p1 hne).symm) |>.trans (p1.map Seg.p1)
      simp only [List.map_cons, List.map_nil] at hperm
      have huw : u = w := by
        have : u ∈ [v, w] := hperm.mem_iff.1 (by simp)
        simp only [List.mem_cons, List.not_mem_nil, or_false] at this
        exact this.resolve_left nd0.1.1
      rw [← huw] at hon
      exact nd0.1.1 (onSeg_self hon).symm
    rw [simple_perm p1] at hs
    simp only [Simple, List.pairwise_cons, List.mem_cons, forall_eq_or_imp] at hs
    obtain ⟨⟨-, t1⟩, t2, t3⟩ := hs
    have hs1 : Simple (cyc (vs.eraseIdx i) hne1) := by
      rw [simple_perm p2]
      simp only [Simple, List.pairwise_cons]
      refine ⟨fun t ht q hq hqt => ?_, t3⟩
      dsimp only at hq ⊢
      rcases (onSeg_split hon).1 hq with hq | hq
      · rcases t1 t ht q hq hqt with ⟨e1, e2⟩ | ⟨e1, e2⟩
        · exact absurd (e2.symm.trans e1) (nd0.2.1 t ht)
        · exact .inr ⟨e1, e2⟩
      · rcases t2 t ht q hq hqt with ⟨e1, e2⟩ | ⟨e1, e2⟩
        · exact .inl ⟨e1, e2⟩
        · exact absurd (e2.symm.trans e1) (nd1.1.2 t ht)
    obtain ⟨hne', i1, i2, i3, i4⟩ := ih hne1 (by omega) (hnd.sublist (List.eraseIdx_sublist _ _)) hs1
    refine ⟨hne', i1, i2, i3, i4.trans ?_⟩
    rw [area2_perm p1, area2_perm p2]
    obtain ⟨t, -, -, ex, ey⟩ := hon
    simp only [area2, List.map_cons, List.sum_cons, ex, ey]
    ring
  | case2 vs i hi n hst ih => exact ih hne h2 hnd hs
  | case3 vs i hi => exact ⟨hne, h2, hnd, hs, rfl⟩

/-! ## Chains -/

theorem chain_mem_tail {b : Pt K} {r : List (Pt K)} {t : Seg K} (h : t ∈ chain (b :: r)) : t.p0 ∈ b :: r ∧ t.p1 ∈ r := by
  refine ⟨(chain_mem h).1, ?_⟩
  have : t.p1 ∈ (chain (b :: r)).map Seg.p1 := List.mem_map_of_mem h
  rwa [chain_p1] at this

/-- The x coordinates grow, or with `σ = -1` fall. -/
def Inc (σ : K) (l : List (Pt K)) : Prop := l.Pairwise fun p q => σ * p.x < σ * q.x

theorem chain_inc {σ : K} : ∀ {l : List (Pt K)}, Inc σ l → ∀ t ∈ chain l, σ * t.p0.x < σ * t.p1.x
  | [], _, t, ht => by simp [chain] at ht
  | [a], _, t, ht => by simp [chain] at ht
  | a :: b :: r, h, t, ht => by
    rw [chain] at ht
    rcases List.mem_cons.1 ht with rfl | ht
    · exact (List.pairwise_cons.1 h).1 b (by simp)
    · exact chain_inc (List.pairwise_cons.1 h).2 t ht

theorem chain_simple {σ : K} : ∀ {l : List (Pt K)}, Inc σ l → Simple (chain l)
  | [], _ => by simp [Simple, chain]
  | [a], _ => by simp [Simple, chain]
  | a :: b :: r, h => by
    rw [chain]
    obtain ⟨h1, h2⟩ := List.pairwise_cons.1 h
    refine List.pairwise_cons.2 ⟨fun t ht q hq hqt => .inl ?_, chain_simple h2⟩
    have hab := h1 b (by simp)
    have ht0 : σ * b.x ≤ σ * t.p0.x := by
      rcases List.mem_cons.1 (chain_mem_tail ht).1 with e | e
      · rw [e]
      · exact ((List.pairwise_cons.1 h2).1 _ e).le
    have htt := chain_inc h2 t ht
    obtain ⟨x, x0, x1, ex, -, exb⟩ := onSeg_lin hq σ 0 0
    obtain ⟨y, y0, y1, ey, eyb, -⟩ := onSeg_lin hqt σ 0 0
    dsimp only at ex exb ⊢
    have ub : (1 - x) * (σ * b.x - σ * a.x) + y * (σ * t.p1.x - σ * t.p0.x) ≤ 0 := by nlinarith
    have n1 : 0 ≤ (1 - x) * (σ * b.x - σ * a.x) := mul_nonneg (by linarith) (by linarith)
    have n2 : 0 ≤ y * (σ * t.p1.x - σ * t.p0.x) := mul_nonneg y0 (by linarith)
    constructor
    · refine exb ?_
      rcases mul_eq_zero.1 (le_antisymm (by linarith) n1) with e | e <;> linarith
    · refine eyb ?_
      rcases mul_eq_zero.1 (le_antisymm (by linarith) n2) with e | e
      · exact e
      · linarith

/-- The ends of a side of a chain from `a` to `b`. -/
theorem chain_ends {b : Pt K} : ∀ {U : List (Pt K)} {a : Pt K} {s : Seg K}, s ∈ chain (a :: U ++ [b]) →
    (s.p0 = a ∨ s.p0 ∈ U) ∧ (s.p1 = b ∨ s.p1 ∈ U) ∧ (U ≠ [] → s.p0 ∈ U ∨ s.p1 ∈ U) ∧ (U = [] → s = ⟨a, b⟩)
  | [], a, s, h => by
    simp only [List.cons_append, List.nil_append, chain, List.mem_singleton] at h
    subst h
    simp
  | c :: U, a, s, h => by
    simp only [List.cons_append, chain] at h
    rcases List.mem_cons.1 h with rfl | h
    · simp
    · obtain ⟨h1, h2, -, -⟩ := chain_ends (U := U) h
      have : s.p0 ∈ c :: U := List.mem_cons.2 h1
      exact ⟨.inr this, h2.imp id (List.mem_cons_of_mem _), fun _ => .inl this, fun h => by simp at h⟩

/-- A chain on one side of a line through its ends meets the line in its ends only. -/
theorem chain_side {k m c : K} {a b : Pt K} {U : List (Pt K)} (ha : k * a.y + m * a.x + c = 0) (hb : k * b.y + m * b.x + c = 0)
    (hU : ∀ p ∈ U, 0 < k * p.y + m * p.x + c) {s : Seg K} (hs : s ∈ chain (a :: U ++ [b])) {q : Pt K} (hq : OnSeg s.p0 s.p1 q) :
    0 ≤ k * q.y + m * q.x + c ∧
      (U ≠ [] → k * q.y + m * q.x + c = 0 → (q = b ∧ q = s.p1) ∨ (q = a ∧ q = s.p0)) := by
  obtain ⟨e1, e2, e3, -⟩ := chain_ends hs
  obtain ⟨t, t0, t1, et, et0, et1⟩ := onSeg_lin hq m k c
  have f0 : 0 ≤ k * s.p0.y + m * s.p0.x + c := by
    rcases e1 with e | e
    · rw [e, ha]
    · exact (hU _ e).le
  have f1 : 0 ≤ k * s.p1.y + m * s.p1.x + c := by
    rcases e2 with e | e
    · rw [e, hb]
    · exact (hU _ e).le
  have n0 := mul_nonneg (show 0 ≤ 1 - t by linarith) f0
  have n1 := mul_nonneg t0 f1
  refine ⟨by rw [et]; linarith, fun hne hz => ?_⟩
  rw [et] at hz
  have z0 : (1 - t) * (k * s.p0.y + m * s.p0.x + c) = 0 := by linarith
  have z1 : t * (k * s.p1.y + m * s.p1.x + c) = 0 := by linarith
  rcases e3 hne with e | e
  · have : t = 1 := by
      rcases mul_eq_zero.1 z0 with h | h
      · linarith
      · exact absurd h (hU _ e).ne'
    refine .inl ⟨?_, et1 this⟩
    rw [this, one_mul] at z1
    rcases e2 with e' | e'
    · rw [et1 this, e']
    · exact absurd z1 (hU _ e').ne'
  · have : t = 0 := by
      rcases mul_eq_zero.1 z1 with h | h
      · exact h
      · exact absurd h (hU _ e).ne'
    refine .inr ⟨?_, et0 this⟩
    rw [this, sub_zero, one_mul] at z0
    rcases e1 with e' | e'
    · rw [et0 this, e']
    · exact absurd z0 (hU _ e').ne'

/-- A chain above the line through its ends and one below meet in the ends only. -/
theorem chains_touch {m c : K} {a b : Pt K} {U L : List (Pt K)} (ha : a.y = m * a.x + c) (hb : b.y = m * b.x + c) (hab : a ≠ b)
    (hU : ∀ p ∈ U, m * p.x + c < p.y) (hL : ∀ p ∈ L, p.y < m * p.x + c) (hne : U ≠ [] ∨ L ≠ []) {s t : Seg K}
    (hs : s ∈ chain (a :: U ++ [b])) (ht : t ∈ chain (b :: L ++ [a])) : Touch s t := by
  intro q hqs hqt
  obtain ⟨s1, s2⟩ := chain_side (k := 1) (m := -m) (c := -c) (by rw [ha]; ring) (by rw [hb]; ring)
    (fun p hp => by have := hU p hp; linarith) hs hqs
  obtain ⟨t1, t2⟩ := chain_side (k := -1) (m := m) (c := c) (by rw [hb]; ring) (by rw [ha]; ring)
    (fun p hp => by have := hL p hp; linarith) ht hqt
  have z : q.y = m * q.x + c := by linarith
  have s3 := fun h => s2 h (by rw [z]; ring)
  have t3 := fun h => t2 h (by rw [z]; ring)
  have es : (q = b ∧ q = s.p1) ∨ (q = a ∧ q = s.p0) := by
    by_cases h : U = []
    · rw [(chain_ends hs).2.2.2 h]
      rcases t3 (hne.resolve_left (by simp [h])) with ⟨e, -⟩ | ⟨e, -⟩
      · exact .inr ⟨e, e⟩
      · exact .inl ⟨e, e⟩
    · exact s3 h
  have et : (q = a ∧ q = t.p1) ∨ (q = b ∧ q = t.p0) := by
    by_cases h : L = []
    · rw [(chain_ends ht).2.2.2 h]
      rcases s3 (hne.resolve_right (by simp [h])) with ⟨e, -⟩ | ⟨e, -⟩
      · exact .inr ⟨e, e⟩
      · exact .inl ⟨e, e⟩
    · exact t3 h
  rcases es with ⟨e1, e2⟩ | ⟨e1, e2⟩ <;> rcases et with ⟨e3, e4⟩ | ⟨e3, e4⟩
  · exact absurd (e3.symm.trans e1) hab
  · exact .inl ⟨e2, e4⟩
  · exact .inr ⟨e2, e4⟩
  · exact absurd (e1.symm.trans e3) hab

/-! ## Area -/

theorem area2_append (l r : List (Seg K)) : area2 (l ++ r) = area2 l + area2 r := by
  simp [area2]

/-- The area between a chain and a line. -/
theorem chain_area {σ m c : K} (hσ : σ * σ = 1) : ∀ (r : List (Pt K)) (a : Pt K), Inc σ (a :: r) →
    (∀ p ∈ a :: r, 0 ≤ σ * (p.y - (m * p.x + c))) → ∀ (h : a :: r ≠ []),
    ∃ A, 0 ≤ A ∧ area2 (chain (a :: r)) = A + m * ((((a :: r).getLast h).x) ^ 2 - a.x ^ 2) + 2 * c * (((a :: r).getLast h).x - a.x) ∧
      (r ≠ [] → (∃ p ∈ a :: r, 0 < σ * (p.y - (m * p.x + c))) → 0 < A)
  | [], a, _, _, _ => ⟨0, le_rfl, by simp [chain, area2], fun h => absurd rfl h⟩
  | b :: r, a, hi, hp, _ => by
    obtain ⟨h1, h2⟩ := List.pairwise_cons.1 hi
    obtain ⟨A, hA, e, hpos⟩ := chain_area hσ r b h2 (fun p h => hp p (by simp [List.mem_cons.1 h])) (by simp)
    have hab := h1 b (by simp)
    have fa := hp a (by simp)
    have fb := hp b (by simp)
    have key : (b.x - a.x) * (a.y + b.y) = (σ * b.x - σ * a.x) * (σ * (a.y - (m * a.x + c)) + σ * (b.y - (m * b.x + c))) +
        m * (b.x ^ 2 - a.x ^ 2) + 2 * c * (b.x - a.x) := by
      have : (σ * b.x - σ * a.x) * (σ * (a.y - (m * a.x + c)) + σ * (b.y - (m * b.x + c))) =
          (σ * σ) * ((b.x - a.x) * (a.y - (m * a.x + c) + (b.y - (m * b.x + c)))) := by ring
      rw [this, hσ]
      ring
    have hn : 0 ≤ (σ * b.x - σ * a.x) * (σ * (a.y - (m * a.x + c)) + σ * (b.y - (m * b.x + c))) :=
      mul_nonneg (by linarith) (by linarith)
    refine ⟨(σ * b.x - σ * a.x) * (σ * (a.y - (m * a.x + c)) + σ * (b.y - (m * b.x + c))) + A, by linarith, ?_, ?_⟩
    · rw [chain]
      have : area2 ((⟨a, b⟩ : Seg K) :: chain (b :: r)) = (b.x - a.x) * (a.y + b.y) + area2 (chain (b :: r)) := by simp [area2]
      rw [this, key, e, List.getLast_cons_cons]
      ring
    · rintro - ⟨p, hpm, hpp⟩
      have first : 0 < σ * (a.y - (m * a.x + c)) ∨ 0 < σ * (b.y - (m * b.x + c)) →
          0 < (σ * b.x - σ * a.x) * (σ * (a.y - (m * a.x + c)) + σ * (b.y - (m * b.x + c))) + A := by
        intro h
        have : 0 < (σ * b.x - σ * a.x) * (σ * (a.y - (m * a.x + c)) + σ * (b.y - (m * b.x + c))) := by
          refine mul_pos (by linarith) ?_
          rcases h with h | h <;> linarith
        linarith
      rcases List.mem_cons.1 hpm with rfl | hpm
      · exact first (.inl hpp)
      · rcases List.mem_cons.1 hpm with rfl | hpr
        · exact first (.inr hpp)
        · have := hpos (List.ne_nil_of_mem hpr) ⟨p, hpm, hpp⟩
          linarith

/-! ## The vertices -/

theorem split_ok {l : Line K} : ∀ {ms : List (Pt K)} {prev : Pt K} {ur : List (Pt K) × List (Pt K)}, split l prev ms = .ok ur →
    (prev :: ms).Pairwise (fun p q => p.x < q.x) ∧ ur = (ms.filter (isabove l), ms.filter fun p => !isabove l p)
  | [], prev, ur, h => by
    cases h
    simp
  | p :: ps, prev, ur, h => by
    rw [split] at h
    split at h
    · rename_i hx
      obtain ⟨ur', e, rfl⟩ := Outcome.map_eq_ok.1 h
      obtain ⟨h1, h2⟩ := split_ok e
      subst h2
      refine ⟨List.pairwise_cons.2 ⟨fun q hq => ?_, h1⟩, ?_⟩
      · rcases List.mem_cons.1 hq with rfl | hq
        · exact hx
        · exact lt_trans hx ((List.pairwise_cons.1 h1).1 q hq)
      · cases hb : isabove l p <;> simp [hb]
    · cases h

theorem split_inc {l : Line K} : ∀ {ms : List (Pt K)} {prev : Pt K}, (prev :: ms).Pairwise (fun p q => p.x < q.x) →
    split l prev ms = .ok (ms.filter (isabove l), ms.filter fun p => !isabove l p)
  | [], prev, _ => rfl
  | p :: ps, prev, h => by
    obtain ⟨h1, h2⟩ := List.pairwise_cons.1 h
    rw [split, if_pos (h1 p (by simp)), split_inc h2]
    cases hb : isabove l p <;> simp [hb]

theorem split_fatal {l : Line K} : ∀ {ms : List (Pt K)} {prev : Pt K}, ¬ (prev :: ms).Pairwise (fun p q => p.x < q.x) →
    split l prev ms = .fatal
  | [], prev, h => absurd (by simp) h
  | p :: ps, prev, h => by
    rw [split]
    split
    · rename_i hx
      rw [split_fatal (ms := ps) (prev := p) fun hp => h (List.pairwise_cons.2 ⟨fun q hq => ?_, hp⟩)]
      · rfl
      · rcases List.mem_cons.1 hq with rfl | hq
        · exact hx
        · exact lt_trans hx ((List.pairwise_cons.1 hp).1 q hq)
    · rfl

theorem backward_dec : ∀ {r : List (Pt K)} {v : Pt K}, (v :: r).Pairwise (fun p q => q.x < p.x) → backward v r = .ok r
  | [], _, _ => rfl
  | p :: r, v, h => by
    obtain ⟨h1, h2⟩ := List.pairwise_cons.1 h
    rw [backward, if_pos (h1 p (by simp)), backward_dec h2]
    rfl

theorem backward_ok : ∀ {r vs : List (Pt K)} {v : Pt K}, backward v r = .ok vs → vs = r
  | [], vs, v, h => by cases h; rfl
  | p :: r, vs, v, h => by
    rw [backward] at h
    split at h
    · obtain ⟨vs', e, rfl⟩ := Outcome.map_eq_ok.1 h
      rw [backward_ok e]
    · cases h

theorem arrange_perm {T : Tol K} {a b : Pt K} {ms vs : List (Pt K)} (h : arrange T a ms b = .ok vs) : vs.Perm (a :: ms ++ [b]) := by
  unfold arrange at h
  obtain ⟨ur, e1, h⟩ := Outcome.bind_eq_ok.1 h
  obtain ⟨r, e2, rfl⟩ := Outcome.map_eq_ok.1 h
  obtain ⟨-, rfl⟩ := split_ok e1
  rw [backward_ok e2]
  simp only [List.cons_append]
  refine List.Perm.cons a ?_
  refine (List.perm_append_comm_assoc _ [b] _).trans ?_
  refine (List.Perm.cons b ((List.Perm.append_left _ (List.reverse_perm _)).trans (List.filter_append_perm _ _))).trans ?_
  exact (List.perm_append_singleton b ms).symm

end Verif.RandPoly
