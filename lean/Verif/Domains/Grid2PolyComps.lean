import Verif.Domains.Grid2PolyThms

/-!
# The components of a bitmap
-/

namespace Verif.Grid2Poly

open Verif.Contour Verif.Djset

/-- A loop over a list, when enough fuel makes every iteration return. -/
theorem foldO_ev {σ α : Type} {F : Nat → σ → α → Outcome σ} {I : List α → σ → Prop} (L : List α)
    (h : ∀ pre a post s, L = pre ++ a :: post → I pre s → ∃ N s', (∀ f, N ≤ f → F f s a = .ok s') ∧ I (pre ++ [a]) s') :
    ∀ l pre s, L = pre ++ l → I pre s → ∃ N s', (∀ f, N ≤ f → Vis.foldO (F f) s l = .ok s') ∧ I L s' := by
  intro l
  induction l with
  | nil =>
    intro pre s hL hI
    rw [List.append_nil] at hL
    subst hL
    exact ⟨0, s, fun _ _ => rfl, hI⟩
  | cons a l ih =>
    intro pre s hL hI
    obtain ⟨N1, s1, h1, h2⟩ := h pre a l s hL hI
    obtain ⟨N2, s2, h3, h4⟩ := ih (pre ++ [a]) s1 (by rw [hL]; simp) h2
    refine ⟨max N1 N2, s2, fun f hf => ?_, h4⟩
    rw [Vis.foldO, h1 f (le_trans (le_max_left _ _) hf), Outcome.bind_ok]
    exact h3 f (le_trans (le_max_right _ _) hf)

/-- The subscript of a cell. -/
def ix (h : Nat) (c : Nat × Nat) : Nat := c.1 * h + c.2

theorem ix_inj {h : Nat} {a b : Nat × Nat} (ha : a.2 < h) (hb : b.2 < h) (e : ix h a = ix h b) : a = b := by
  obtain ⟨x, y⟩ := a
  obtain ⟨x', y'⟩ := b
  unfold ix at e
  simp only at *
  have hx : x = x' := by
    rcases lt_trichotomy x x' with hlt | heq | hgt
    · exfalso
      have : (x + 1) * h ≤ x' * h := Nat.mul_le_mul_right _ hlt
      rw [Nat.add_mul] at this
      omega
    · exact heq
    · exfalso
      have : (x' + 1) * h ≤ x * h := Nat.mul_le_mul_right _ hgt
      rw [Nat.add_mul] at this
      omega
  subst hx
  have : y = y' := by omega
  rw [this]

/-- The order in which the cells are visited -/
def lexlt (a b : Nat × Nat) : Prop := a.1 < b.1 ∨ (a.1 = b.1 ∧ a.2 < b.2)

theorem cells_sorted (w h : Nat) : (cells w h).Pairwise lexlt := by
  unfold cells
  rw [List.pairwise_flatMap]
  refine ⟨fun x _ => ?_, ?_⟩
  · rw [List.pairwise_map]
    exact List.pairwise_lt_range.imp fun h => .inr ⟨rfl, h⟩
  · refine List.pairwise_lt_range.imp fun {a b} hab => ?_
    intro x hx y hy
    simp only [List.mem_map, List.mem_range] at hx hy
    obtain ⟨_, _, rfl⟩ := hx
    obtain ⟨_, _, rfl⟩ := hy
    exact .inl hab

theorem mem_cells {w h : Nat} {c : Nat × Nat} : c ∈ cells w h ↔ c.1 < w ∧ c.2 < h := by
  obtain ⟨x, y⟩ := c
  simp [cells]

/-! ## Joining -/

section
variable (blkd : Nat → Bool) (w h : Nat)

/-- The joins of a cell. -/
def js (c : Nat × Nat) : List (Op Nat) :=
  if blkd (ix h c) then
    (if (decide (c.2 < h - 1) && decide (c.1 < w - 1)) && blkd ((c.1 + 1) * h + c.2 + 1) then
      [.join (ix h c) ((c.1 + 1) * h + c.2 + 1)] else []) ++
    (if (decide (c.2 < h - 1) && decide (c.1 > 0)) && blkd ((c.1 - 1) * h + c.2 + 1) then
      [.join (ix h c) ((c.1 - 1) * h + c.2 + 1)] else []) ++
    (if decide (c.2 < h - 1) && blkd (c.1 * h + c.2 + 1) then [.join (ix h c) (c.1 * h + c.2 + 1)] else []) ++
    (if decide (c.1 < w - 1) && blkd ((c.1 + 1) * h + c.2) then [.join (ix h c) ((c.1 + 1) * h + c.2)] else [])
  else []

theorem joinIf_ev {hist : List (Op Nat)} {m : Mem Nat} (hi : Inv hist m) (c : Bool) (i j : Nat) :
    ∃ N m', (∀ f, N ≤ f → joinIf f blkd c i j m = .ok m') ∧
      Inv ((if c && blkd j then [.join i j] else []) ++ hist) m' := by
  unfold joinIf
  by_cases hc : (c && blkd j) = true
  · obtain ⟨root, h1, h2⟩ := hi
    obtain ⟨N, m', r, h3, h4, -⟩ := exec_inv h1 h2 (.join i j)
    refine ⟨N, m', fun f hf => ?_, ?_⟩
    · rw [if_pos hc]
      have := h3 f hf
      simp only [exec, Outcome.map_eq_ok, Prod.mk.injEq] at this
      obtain ⟨m'', e, rfl, -⟩ := this
      exact e
    · rw [if_pos hc]; exact h4
  · exact ⟨0, m, fun f _ => by rw [if_neg hc], by rw [if_neg hc]; exact hi⟩

theorem joinCell_ev {hist : List (Op Nat)} {m : Mem Nat} (hi : Inv hist m) (c : Nat × Nat) :
    ∃ N m', (∀ f, N ≤ f → joinCell f blkd w h m c = .ok m') ∧ Inv (js blkd w h c ++ hist) m' := by
  unfold joinCell js
  by_cases hb : blkd (ix h c) = true
  · have hb' : (!blkd (c.1 * h + c.2)) = false := by unfold ix at hb; simp [hb]
    obtain ⟨N1, m1, a1, b1⟩ := joinIf_ev blkd hi (decide (c.1 < w - 1)) (c.1 * h + c.2) ((c.1 + 1) * h + c.2)
    obtain ⟨N2, m2, a2, b2⟩ := joinIf_ev blkd b1 (decide (c.2 < h - 1)) (c.1 * h + c.2) (c.1 * h + c.2 + 1)
    obtain ⟨N3, m3, a3, b3⟩ := joinIf_ev blkd b2 (decide (c.2 < h - 1) && decide (c.1 > 0)) (c.1 * h + c.2)
      ((c.1 - 1) * h + c.2 + 1)
    obtain ⟨N4, m4, a4, b4⟩ := joinIf_ev blkd b3 (decide (c.2 < h - 1) && decide (c.1 < w - 1)) (c.1 * h + c.2)
      ((c.1 + 1) * h + c.2 + 1)
    refine ⟨max (max N1 N2) (max N3 N4), m4, fun f hf => ?_, ?_⟩
    · simp only [hb', Bool.false_eq_true, if_false]
      rw [a1 f (by omega), Outcome.bind_ok, a2 f (by omega), Outcome.bind_ok, a3 f (by omega), Outcome.bind_ok, a4 f (by omega)]
    · rw [if_pos hb]
      simpa only [List.append_assoc, ix] using b4
  · have hb' : (!blkd (c.1 * h + c.2)) = true := by unfold ix at hb; simpa using hb
    refine ⟨0, m, fun f _ => by simp only [hb', if_true], ?_⟩
    rw [if_neg hb]
    exact hi

theorem joins_ev : ∃ N m hist, (∀ f, N ≤ f → Vis.foldO (joinCell f blkd w h) Djset.init (cells w h) = .ok m) ∧ Inv hist m ∧
    ∀ op, op ∈ hist ↔ ∃ c ∈ cells w h, op ∈ js blkd w h c := by
  have := foldO_ev (F := fun f => joinCell f blkd w h)
    (I := fun pre m => ∃ hist, Inv hist m ∧ ∀ op, op ∈ hist ↔ ∃ c ∈ pre, op ∈ js blkd w h c) (cells w h)
    (by
      rintro pre a post m - ⟨hist, h1, h2⟩
      obtain ⟨N, m', h3, h4⟩ := joinCell_ev blkd w h h1 a
      refine ⟨N, m', h3, _, h4, fun op => ?_⟩
      rw [List.mem_append, h2]
      simp only [List.mem_append, List.mem_singleton]
      constructor
      · rintro (h | ⟨c, h5, h6⟩)
        · exact ⟨a, .inr rfl, h⟩
        · exact ⟨c, .inl h5, h6⟩
      · rintro ⟨c, h5 | rfl, h6⟩
        · exact .inr ⟨c, h5, h6⟩
        · exact .inl h6)
    (cells w h) [] Djset.init rfl ⟨[], reach_inv .init, by simp⟩
  obtain ⟨N, m, h1, hist, h2, h3⟩ := this
  exact ⟨N, m, hist, h1, h2, h3⟩

/-- The blocked cells of the bitmap. -/
def KB (z : Cell) : Prop := InG w h z ∧ blkd (ix h (z.1.toNat, z.2.toNat)) = true

def zc (c : Nat × Nat) : Cell := ((c.1 : ℤ), (c.2 : ℤ))

variable {blkd w h}

theorem kb_zc {c : Nat × Nat} : KB blkd w h (zc c) ↔ (c.1 < w ∧ c.2 < h) ∧ blkd (ix h c) = true := by
  simp [KB, InG, zc]

theorem kb_exists {z : Cell} (hz : KB blkd w h z) : ∃ c, z = zc c := by
  obtain ⟨⟨⟨h1, -⟩, h2, -⟩, -⟩ := hz
  exact ⟨(z.1.toNat, z.2.toNat), by ext <;> simp [zc, h1, h2]⟩

/-- Joined cells are neighbours. -/
theorem js_adj {c : Nat × Nat} (hc : c ∈ cells w h) {i j : Nat} (hj : Op.join i j ∈ js blkd w h c) :
    ∃ c', i = ix h c ∧ j = ix h c' ∧ KB blkd w h (zc c) ∧ KB blkd w h (zc c') ∧ Adj8 (zc c) (zc c') := by
  obtain ⟨x, y⟩ := c
  rw [mem_cells] at hc
  simp only at hc
  unfold js at hj
  split at hj
  · rename_i hb
    have hk : KB blkd w h (zc (x, y)) := kb_zc.2 ⟨hc, hb⟩
    simp only [List.mem_append] at hj
    rcases hj with ((hj | hj) | hj) | hj <;> split at hj <;> simp only [List.mem_singleton, List.not_mem_nil, Op.join.injEq] at hj <;>
      rename_i hcond <;> simp only [Bool.and_eq_true, decide_eq_true_eq] at hcond
    · refine ⟨(x + 1, y + 1), hj.1, hj.2, hk, kb_zc.2 ⟨by simp only; omega, ?_⟩, .inr ⟨.right, ?_⟩⟩
      · exact hcond.2
      · simp [zc, ahead, side]
    · refine ⟨(x - 1, y + 1), hj.1, hj.2, hk, kb_zc.2 ⟨by simp only; omega, ?_⟩, .inr ⟨.up, ?_⟩⟩
      · exact hcond.2
      · simp only [zc, ahead, side, Prod.mk_add_mk, Prod.mk.injEq]; omega
    · refine ⟨(x, y + 1), hj.1, hj.2, hk, kb_zc.2 ⟨by simp only; omega, ?_⟩, .inl ⟨.right, ?_⟩⟩
      · exact hcond.2
      · simp [zc, side]
    · refine ⟨(x + 1, y), hj.1, hj.2, hk, kb_zc.2 ⟨by simp only; omega, ?_⟩, .inl ⟨.down, ?_⟩⟩
      · exact hcond.2
      · simp [zc, side]
  · simp at hj

/-- Neighbours are joined. -/
theorem adj_js {c c' : Nat × Nat} (hk : KB blkd w h (zc c)) (hk' : KB blkd w h (zc c')) (ha : Adj8 (zc c) (zc c')) :
    (∃ a ∈ cells w h, Op.join (ix h c) (ix h c') ∈ js blkd w h a) ∨
      ∃ a ∈ cells w h, Op.join (ix h c') (ix h c) ∈ js blkd w h a := by
  obtain ⟨⟨h1, h2⟩, h3⟩ := kb_zc.1 hk
  obtain ⟨⟨h1', h2'⟩, h3'⟩ := kb_zc.1 hk'
  obtain ⟨x, y⟩ := c
  obtain ⟨x', y'⟩ := c'
  simp only at h1 h2 h1' h2'
  have hm : (x, y) ∈ cells w h := mem_cells.2 ⟨h1, h2⟩
  have hm' : (x', y') ∈ cells w h := mem_cells.2 ⟨h1', h2'⟩
  have right : ∀ {x y : Nat}, x + 1 < w → y < h → blkd (ix h (x, y)) = true → blkd (ix h (x + 1, y)) = true →
      Op.join (ix h (x, y)) (ix h (x + 1, y)) ∈ js blkd w h (x, y) := by
    intro x y a b c d
    unfold js
    have e : x < w - 1 := by omega
    unfold ix at *
    simp only at c d ⊢
    simp [c, d, e]
  have top : ∀ {x y : Nat}, x < w → y + 1 < h → blkd (ix h (x, y)) = true → blkd (ix h (x, y + 1)) = true →
      Op.join (ix h (x, y)) (ix h (x, y + 1)) ∈ js blkd w h (x, y) := by
    intro x y a b c d
    unfold js
    have e : y < h - 1 := by omega
    unfold ix at *
    simp only [← Nat.add_assoc] at c d ⊢
    simp [c, d, e]
  have tl : ∀ {x y : Nat}, x + 1 < w → y + 1 < h → blkd (ix h (x + 1, y)) = true → blkd (ix h (x, y + 1)) = true →
      Op.join (ix h (x + 1, y)) (ix h (x, y + 1)) ∈ js blkd w h (x + 1, y) := by
    intro x y a b c d
    unfold js
    have e : y < h - 1 := by omega
    unfold ix at *
    simp only [← Nat.add_assoc] at c d ⊢
    simp [c, d, e]
  have tr : ∀ {x y : Nat}, x + 1 < w → y + 1 < h → blkd (ix h (x, y)) = true → blkd (ix h (x + 1, y + 1)) = true →
      Op.join (ix h (x, y)) (ix h (x + 1, y + 1)) ∈ js blkd w h (x, y) := by
    intro x y a b c d
    unfold js
    have e : y < h - 1 := by omega
    have e' : x < w - 1 := by omega
    unfold ix at *
    simp only [← Nat.add_assoc] at c d ⊢
    simp [c, d, e, e']
  rcases ha with ⟨d, hd⟩ | ⟨d, hd⟩ <;> cases d <;>
    simp only [zc, side, ahead, Prod.mk_add_mk, Prod.mk.injEq] at hd <;> obtain ⟨d1, d2⟩ := hd
  · obtain rfl : x = x' + 1 := by omega
    obtain rfl : y = y' := by omega
    exact .inr ⟨_, hm', right h1 h2 h3' h3⟩
  · obtain rfl : x' = x + 1 := by omega
    obtain rfl : y = y' := by omega
    exact .inl ⟨_, hm, right h1' h2 h3 h3'⟩
  · obtain rfl : x = x' := by omega
    obtain rfl : y = y' + 1 := by omega
    exact .inr ⟨_, hm', top h1 h2 h3' h3⟩
  · obtain rfl : x = x' := by omega
    obtain rfl : y' = y + 1 := by omega
    exact .inl ⟨_, hm, top h1 h2' h3 h3'⟩
  · obtain rfl : x = x' + 1 := by omega
    obtain rfl : y' = y + 1 := by omega
    exact .inl ⟨_, hm, tl h1 h2' h3 h3'⟩
  · obtain rfl : x' = x + 1 := by omega
    obtain rfl : y = y' + 1 := by omega
    exact .inr ⟨_, hm', tl h1' h2 h3' h3⟩
  · obtain rfl : x = x' + 1 := by omega
    obtain rfl : y = y' + 1 := by omega
    exact .inr ⟨_, hm', tr h1 h2 h3' h3⟩
  · obtain rfl : x' = x + 1 := by omega
    obtain rfl : y' = y + 1 := by omega
    exact .inl ⟨_, hm, tr h1' h2' h3 h3'⟩

/-- The joins connect the cells of the components. -/
theorem connected_iff {hist : List (Op Nat)} (hh : ∀ op, op ∈ hist ↔ ∃ c ∈ cells w h, op ∈ js blkd w h c)
    {c c' : Nat × Nat} (hk : KB blkd w h (zc c)) (hk' : KB blkd w h (zc c')) :
    Connected hist (ix h c) (ix h c') ↔ Way8 (KB blkd w h) (zc c) (zc c') := by
  constructor
  · intro hc
    have key : ∀ a b, Connected hist a b → a = b ∨ ∃ c c', a = ix h c ∧ b = ix h c' ∧ KB blkd w h (zc c) ∧
        KB blkd w h (zc c') ∧ Way8 (KB blkd w h) (zc c) (zc c') := by
      intro a b hab
      induction hab with
      | rel u v huv =>
        obtain ⟨c, h1, h2⟩ := (hh _).1 huv
        obtain ⟨c', e1, e2, k1, k2, ha⟩ := js_adj h1 h2
        exact .inr ⟨c, c', e1, e2, k1, k2, .single ⟨ha, k1, k2⟩⟩
      | refl => exact .inl rfl
      | symm u v _ ih =>
        rcases ih with rfl | ⟨c, c', e1, e2, k1, k2, hw⟩
        · exact .inl rfl
        · exact .inr ⟨c', c, e2, e1, k2, k1, hw.symm⟩
      | trans u v w' _ _ ih1 ih2 =>
        rcases ih1 with rfl | ⟨c, c', e1, e2, k1, k2, hw⟩
        · exact ih2
        · rcases ih2 with rfl | ⟨d, d', e3, e4, k3, k4, hw'⟩
          · exact .inr ⟨c, c', e1, e2, k1, k2, hw⟩
          · have : c' = d := ix_inj (kb_zc.1 k2).1.2 (kb_zc.1 k3).1.2 (e2.symm.trans e3)
            subst this
            exact .inr ⟨c, d', e1, e4, k1, k4, hw.trans hw'⟩
    rcases key _ _ hc with e | ⟨d, d', e1, e2, k1, k2, hw⟩
    · rw [ix_inj (kb_zc.1 hk).1.2 (kb_zc.1 hk').1.2 e]
      exact .refl
    · rw [ix_inj (kb_zc.1 hk).1.2 (kb_zc.1 k1).1.2 e1, ix_inj (kb_zc.1 hk').1.2 (kb_zc.1 k2).1.2 e2]
      exact hw
  · intro hw
    have key : ∀ z, Way8 (KB blkd w h) (zc c) z → ∃ d, z = zc d ∧ KB blkd w h (zc d) ∧ Connected hist (ix h c) (ix h d) := by
      intro z hz
      induction hz with
      | refl => exact ⟨c, rfl, hk, Relation.EqvGen.refl _⟩
      | tail _ hs ih =>
        obtain ⟨d, rfl, k1, hc⟩ := ih
        obtain ⟨ha, -, k2⟩ := hs
        obtain ⟨d', rfl⟩ := kb_exists k2
        refine ⟨d', rfl, k2, Relation.EqvGen.trans _ _ _ hc ?_⟩
        rcases adj_js k1 k2 ha with hj | hj
        · exact Relation.EqvGen.rel _ _ ((hh _).2 hj)
        · exact Relation.EqvGen.symm _ _ (Relation.EqvGen.rel _ _ ((hh _).2 hj))
    obtain ⟨d, e, -, hc⟩ := key _ hw
    have : c' = d := by
      unfold zc at e
      simp only [Prod.mk.injEq, Nat.cast_inj] at e
      exact Prod.ext e.1 e.2
    rw [this]
    exact hc

end

/-! ## Collecting -/

section
variable (blkd : Nat → Bool) (w h : Nat) (root : Nat → Nat)

/-- The component of the cells of `Q` with the representative `r`, of which `b` is the first. -/
structure IsComp (Q : List (Nat × Nat)) (c : Comp) (r : Nat) (b : Nat × Nat) : Prop where
  w_eq : c.w = w
  h_eq : c.h = h
  n_ne : c.n ≠ 0
  first : (c.minx, c.miny) = b
  blk : ∀ j, c.blkd j = true ↔ ∃ q ∈ Q, root (ix h q) = r ∧ ix h q = j
  mem : b ∈ Q
  rep : root (ix h b) = r
  low : ∀ q ∈ Q, root (ix h q) = r → ¬ lexlt q b

structure CollInv (Q : List (Nat × Nat)) (s : Coll) : Prop where
  par : ∀ x, Root s.par x (root x)
  zero : ∀ r, s.aux r = 0 ↔ ∀ q ∈ Q, root (ix h q) ≠ r
  comp : ∀ r, s.aux r ≠ 0 → ∃ c b, s.cs[s.aux r - 1]? = some c ∧ IsComp w h root Q c r b
  inj : ∀ r r', s.aux r = s.aux r' → s.aux r ≠ 0 → r = r'
  sur : ∀ i, i < s.cs.length → ∃ r, s.aux r = i + 1
  head : ∀ b Q', Q = b :: Q' → s.aux (root (ix h b)) = 1

variable {blkd w h root}

theorem add_new (x y : Nat) : (Comp.new w h).add x y = ⟨x, y, w, h, 1, fun i => if i = x * h + y then true else false⟩ := by
  simp [Comp.new, Comp.add]

theorem IsComp.add {Q : List (Nat × Nat)} {c : Comp} {r : Nat} {b : Nat × Nat} (hc : IsComp w h root Q c r b) {x y : Nat}
    (hr : root (ix h (x, y)) = r) (hlt : ∀ q ∈ Q, lexlt q (x, y)) : IsComp w h root (Q ++ [(x, y)]) (c.add x y) r b := by
  have hb := hlt b hc.mem
  have hf := hc.first
  obtain ⟨bx, by'⟩ := b
  simp only [Prod.mk.injEq] at hf
  obtain ⟨f1, f2⟩ := hf
  unfold lexlt at hb
  simp only at hb
  have e1 : ¬ (c.n = 0 ∨ x < c.minx) := by have := hc.n_ne; omega
  have e2 : ¬ (x = c.minx ∧ y < c.miny) := by omega
  have hadd : c.add x y = { c with n := c.n + 1, blkd := fun i => if i = x * c.h + y then true else c.blkd i } := by
    unfold Comp.add
    simp only [if_neg e1, if_neg e2]
  rw [hadd]
  refine ⟨hc.w_eq, hc.h_eq, by simp, by simp [f1, f2], fun j => ?_, by simp [hc.mem], hc.rep, ?_⟩
  · simp only [hc.h_eq, List.mem_append, List.mem_singleton]
    constructor
    · intro hj
      split at hj
      · rename_i e
        exact ⟨(x, y), .inr rfl, hr, e.symm⟩
      · obtain ⟨q, h1, h2⟩ := (hc.blk j).1 hj
        exact ⟨q, .inl h1, h2⟩
    · rintro ⟨q, h1 | rfl, h2, h3⟩
      · split
        · rfl
        · exact (hc.blk j).2 ⟨q, h1, h2, h3⟩
      · rw [if_pos (show j = x * h + y from h3.symm)]
  · intro q hq
    rw [List.mem_append, List.mem_singleton] at hq
    rcases hq with hq | rfl
    · exact hc.low q hq
    · intro _
      unfold lexlt
      simp only
      omega

theorem IsComp.keep {Q : List (Nat × Nat)} {c : Comp} {r : Nat} {b a : Nat × Nat} (hc : IsComp w h root Q c r b)
    (hr : root (ix h a) ≠ r) : IsComp w h root (Q ++ [a]) c r b := by
  refine ⟨hc.w_eq, hc.h_eq, hc.n_ne, hc.first, fun j => ?_, by simp [hc.mem], hc.rep, ?_⟩
  · rw [hc.blk]
    constructor
    · rintro ⟨q, h1, h2⟩
      exact ⟨q, by simp [h1], h2⟩
    · rintro ⟨q, h1, h2, h3⟩
      rw [List.mem_append, List.mem_singleton] at h1
      rcases h1 with h1 | rfl
      · exact ⟨q, h1, h2, h3⟩
      · exact absurd h2 hr
  · intro q hq h2
    rw [List.mem_append, List.mem_singleton] at hq
    rcases hq with hq | rfl
    · exact hc.low q hq h2
    · exact absurd h2 hr

theorem collCell_ev {Q : List (Nat × Nat)} {s : Coll} (hs : CollInv w h root Q s) (a : Nat × Nat)
    (hb : blkd (ix h a) = true) (hlt : ∀ q ∈ Q, lexlt q a) :
    ∃ N s', (∀ f, N ≤ f → collCell f blkd w h s a = .ok s') ∧ CollInv w h root (Q ++ [a]) s' := by
  obtain ⟨x, y⟩ := a
  have hb' : (!blkd (x * h + y)) = false := by unfold ix at hb; simp [hb]
  obtain ⟨N, par', h1, h2⟩ := find_spec (hs.par (ix h (x, y)))
  set r := root (ix h (x, y)) with hr
  have hpar : ∀ z, Root par' z (root z) := fun z => h2 _ _ (hs.par z)
  have mem' : ∀ {q}, q ∈ Q ++ [(x, y)] ↔ q ∈ Q ∨ q = (x, y) := by simp
  have hhead : ∀ b Q', Q ++ [(x, y)] = b :: Q' → (Q = [] ∧ b = (x, y)) ∨ ∃ Q'', Q = b :: Q'' := by
    intro b Q' e
    cases Q with
    | nil => simp at e; exact .inl ⟨rfl, e.1.symm⟩
    | cons q Q => simp at e; exact .inr ⟨Q, by rw [e.1]⟩
  by_cases h0 : s.aux r = 0
  · -- a new component
    have hout := (hs.zero r).1 h0
    refine ⟨N, ⟨par', Function.update s.aux r (s.cs.length + 1), s.cs ++ [(Comp.new w h).add x y]⟩, fun f hf => ?_, ?_⟩
    · unfold collCell
      have hfnd : Djset.find f s.par (x * h + y) = .ok (r, par') := h1 f hf
      simp only [hb', Bool.false_eq_true, if_false, hfnd, Outcome.bind_ok, h0, if_true, addTo,
        Function.update_self, Nat.add_eq_zero_iff, one_ne_zero, and_false, Nat.add_sub_cancel]
      simp
    · have hnew : IsComp w h root (Q ++ [(x, y)]) ((Comp.new w h).add x y) r (x, y) := by
        rw [add_new]
        refine ⟨rfl, rfl, by simp, rfl, fun j => ?_, by simp, hr.symm, ?_⟩
        · simp only [mem']
          constructor
          · intro hj
            split at hj
            · rename_i e
              exact ⟨(x, y), .inr rfl, hr.symm, e.symm⟩
            · cases hj
          · rintro ⟨q, h1 | rfl, h2, h3⟩
            · exact absurd h2 (hout q h1)
            · rw [if_pos (show j = x * h + y from h3.symm)]
        · intro q hq h3
          rcases mem'.1 hq with h4 | rfl
          · exact absurd h3 (hout q h4)
          · unfold lexlt; simp
      refine ⟨hpar, fun r' => ?_, fun r' hne => ?_, fun r1 r2 he hne => ?_, fun i hi => ?_, fun b Q' e => ?_⟩
      · by_cases e : r' = r
        · subst e
          simp only [Function.update_self, Nat.add_eq_zero_iff, one_ne_zero, and_false, false_iff]
          intro hall
          exact hall (x, y) (by simp) hr.symm
        · simp only [Function.update_of_ne e]
          rw [hs.zero]
          constructor
          · intro hall q hq
            rcases mem'.1 hq with h4 | rfl
            · exact hall q h4
            · exact fun h5 => e (h5.symm.trans hr.symm)
          · exact fun hall q hq => hall q (mem'.2 (.inl hq))
      · by_cases e : r' = r
        · subst e
          refine ⟨_, (x, y), ?_, hnew⟩
          simp
        · simp only [Function.update_of_ne e] at hne ⊢
          obtain ⟨c, b, h3, h4⟩ := hs.comp r' hne
          refine ⟨c, b, ?_, h4.keep (fun h5 => e (h5.symm.trans hr.symm))⟩
          rw [List.getElem?_append_left (by
            by_contra hcon
            rw [List.getElem?_eq_none (by omega)] at h3
            cases h3)]
          exact h3
      · have hle : ∀ r', s.aux r' ≠ 0 → s.aux r' ≤ s.cs.length := by
          intro r' hne
          obtain ⟨c, b, h3, -⟩ := hs.comp r' hne
          by_contra hcon
          rw [List.getElem?_eq_none (by omega)] at h3
          cases h3
        by_cases e1 : r1 = r <;> by_cases e2 : r2 = r
        · rw [e1, e2]
        · subst e1
          simp only [Function.update_self, Function.update_of_ne e2] at he
          have := hle r2 (by omega)
          omega
        · subst e2
          simp only [Function.update_self, Function.update_of_ne e1] at he
          have := hle r1 (by omega)
          omega
        · simp only [Function.update_of_ne e1, Function.update_of_ne e2] at he hne
          exact hs.inj r1 r2 he hne
      · simp only [List.length_append, List.length_singleton] at hi
        by_cases hi' : i = s.cs.length
        · exact ⟨r, by simp [hi']⟩
        · obtain ⟨r', h3⟩ := hs.sur i (by omega)
          refine ⟨r', ?_⟩
          have : r' ≠ r := by rintro rfl; omega
          simp only [Function.update_of_ne this]
          exact h3
      · rcases hhead b Q' e with ⟨rfl, rfl⟩ | ⟨Q'', rfl⟩
        · have hnil : s.cs = [] := by
            by_contra hcon
            obtain ⟨r', h3⟩ := hs.sur 0 (List.length_pos_iff.2 hcon)
            have := (hs.zero r').2 (by simp)
            omega
          simp [← hr, hnil]
        · have := hs.head b Q'' rfl
          have hne : root (ix h b) ≠ r := by
            intro e
            rw [e] at this
            omega
          simp only [Function.update_of_ne hne]
          exact this
  · -- a component that exists already
    obtain ⟨c, b, h3, h4⟩ := hs.comp r h0
    have hlen : s.aux r - 1 < s.cs.length := by
      by_contra hcon
      rw [List.getElem?_eq_none (by omega)] at h3
      cases h3
    refine ⟨N, ⟨par', s.aux, s.cs.set (s.aux r - 1) (c.add x y)⟩, fun f hf => ?_, ?_⟩
    · unfold collCell
      have hfnd : Djset.find f s.par (x * h + y) = .ok (r, par') := h1 f hf
      simp only [hb', Bool.false_eq_true, if_false, hfnd, Outcome.bind_ok, h0, addTo, h3, Outcome.map_ok]
    · refine ⟨hpar, fun r' => ?_, fun r' hne => ?_, hs.inj, fun i hi => ?_, fun b Q' e => ?_⟩
      · simp only
        rw [hs.zero]
        constructor
        · intro hall q hq
          rcases mem'.1 hq with h5 | rfl
          · exact hall q h5
          · intro h5
            apply h0
            rw [hr, h5, hs.zero]
            exact hall
        · exact fun hall q hq => hall q (mem'.2 (.inl hq))
      · simp only at hne ⊢
        by_cases e : r' = r
        · subst e
          refine ⟨c.add x y, b, ?_, h4.add hr.symm hlt⟩
          rw [List.getElem?_set_self hlen]
        · obtain ⟨c', b', h5, h6⟩ := hs.comp r' hne
          refine ⟨c', b', ?_, h6.keep (fun h7 => e (h7.symm.trans hr.symm))⟩
          rw [List.getElem?_set_ne (fun h7 => e (hs.inj r' r (by omega) hne))]
          exact h5
      · rw [List.length_set] at hi
        exact hs.sur i hi
      · rcases hhead b Q' e with ⟨rfl, rfl⟩ | ⟨Q'', rfl⟩
        · exact absurd h4.mem (by simp)
        · exact hs.head b Q'' rfl

/-- The components that the constructor finds are the components of the bitmap. -/
theorem comps_ev (blkd : Nat → Bool) (w h : Nat) : ∃ N cs, (∀ f, N ≤ f → comps f blkd w h = .ok cs) ∧
    (∀ c ∈ cs, ∃ b : Nat × Nat, (c.minx, c.miny) = b ∧ KB blkd w h (zc b) ∧ Rep c w h (cls (KB blkd w h) (zc b)) ∧
      ∀ q, cls (KB blkd w h) (zc b) (zc q) → ¬ lexlt q b) ∧
    (∀ b, KB blkd w h (zc b) → ∃ c ∈ cs, Rep c w h (cls (KB blkd w h) (zc b))) ∧
    (∀ b, KB blkd w h (zc b) → (∀ q, KB blkd w h (zc q) → ¬ lexlt q b) →
      ∃ c cs', cs = c :: cs' ∧ (c.minx, c.miny) = b ∧ Rep c w h (cls (KB blkd w h) (zc b)) ∧
        ∀ c' ∈ cs', ¬ cls (KB blkd w h) (zc b) ((c'.minx : ℤ), (c'.miny : ℤ))) := by
  obtain ⟨N1, m, hist, j1, ⟨root, j2, j3⟩, j4⟩ := joins_ev blkd w h
  have key := foldO_ev (F := fun f => collCell f blkd w h)
    (I := fun pre s => CollInv w h root (pre.filter fun c => blkd (ix h c)) s) (cells w h)
    (by
      intro pre a post s hL hI
      rw [List.filter_append]
      by_cases hb : blkd (ix h a) = true
      · simp only [List.filter_singleton, hb, if_true]
        apply collCell_ev hI a hb
        intro q hq
        have hsort := cells_sorted w h
        rw [hL, List.pairwise_append] at hsort
        exact hsort.2.2 q (List.mem_of_mem_filter hq) a (by simp)
      · refine ⟨0, s, fun f _ => ?_, ?_⟩
        · unfold collCell
          have hb' : (!blkd (a.1 * h + a.2)) = true := by unfold ix at hb; simpa using hb
          simp only [hb', if_true]
        · have : [a].filter (fun c => blkd (ix h c)) = [] := by simp [hb]
          rw [this, List.append_nil]
          exact hI)
    (cells w h) [] ⟨m.par, fun _ => 0, []⟩ rfl
    ⟨j2, by simp, by simp, by simp, by simp, by simp⟩
  obtain ⟨N2, s, k1, k2⟩ := key
  set Q := (cells w h).filter fun c => blkd (ix h c) with hQ
  have memQ : ∀ {q}, q ∈ Q ↔ KB blkd w h (zc q) := by
    intro q
    rw [hQ, List.mem_filter, mem_cells, kb_zc]
  have rootQ : ∀ {q q'}, KB blkd w h (zc q) → KB blkd w h (zc q') →
      (root (ix h q) = root (ix h q') ↔ Way8 (KB blkd w h) (zc q) (zc q')) := by
    intro q q' h1 h2
    rw [j3]
    exact connected_iff j4 h1 h2
  have hcls : ∀ {b q}, KB blkd w h (zc b) → (cls (KB blkd w h) (zc b) (zc q) ↔ KB blkd w h (zc q) ∧ root (ix h q) = root (ix h b)) := by
    intro b q hb
    constructor
    · intro hq
      have hq' := cls_sub hq
      exact ⟨hq', (rootQ hq' hb).2 hq.2.symm⟩
    · rintro ⟨h1, h2⟩
      exact ⟨hb, ((rootQ h1 hb).1 h2).symm⟩
  have hrep : ∀ {c r b}, IsComp w h root Q c r b → Rep c w h (cls (KB blkd w h) (zc b)) := by
    intro c r b hc
    have hb : KB blkd w h (zc b) := memQ.1 hc.mem
    refine ⟨hc.w_eq, hc.h_eq, fun x y => ?_, fun z hz => (cls_sub hz).1⟩
    have : (((x : ℤ), (y : ℤ)) : Cell) = zc (x, y) := rfl
    rw [this, hcls hb]
    unfold Comp.blocked
    simp only [Bool.and_eq_true, decide_eq_true_eq, hc.w_eq, hc.h_eq, hc.blk]
    constructor
    · rintro ⟨⟨h1, h2⟩, q, h3, h4, h5⟩
      have : q = (x, y) := ix_inj (kb_zc.1 (memQ.1 h3)).1.2 h2 h5
      subst this
      exact ⟨memQ.1 h3, h4.trans hc.rep.symm⟩
    · rintro ⟨h1, h2⟩
      exact ⟨(kb_zc.1 h1).1, (x, y), memQ.2 h1, h2.trans hc.rep, rfl⟩
  refine ⟨max N1 N2, s.cs, fun f hf => ?_, ?_, ?_, ?_⟩
  · unfold comps
    rw [j1 f (by omega), Outcome.bind_ok, k1 f (by omega), Outcome.map_ok]
  · intro c hc
    obtain ⟨i, hi, rfl⟩ := List.mem_iff_getElem.1 hc
    obtain ⟨r, hr⟩ := k2.sur i hi
    obtain ⟨c, b, h1, h2⟩ := k2.comp r (by omega)
    rw [hr, Nat.add_sub_cancel, List.getElem?_eq_getElem hi] at h1
    cases h1
    have hb : KB blkd w h (zc b) := memQ.1 h2.mem
    refine ⟨b, h2.first, hb, hrep h2, fun q hq => ?_⟩
    rw [hcls hb] at hq
    exact h2.low q (memQ.2 hq.1) (hq.2.trans h2.rep)
  · intro b hb
    have hne : s.aux (root (ix h b)) ≠ 0 := by
      intro h0
      exact (k2.zero _).1 h0 b (memQ.2 hb) rfl
    obtain ⟨c, b', h1, h2⟩ := k2.comp _ hne
    refine ⟨c, List.mem_of_getElem? h1, ?_⟩
    have hb' : KB blkd w h (zc b') := memQ.1 h2.mem
    have hbb : cls (KB blkd w h) (zc b') (zc b) := (hcls hb').2 ⟨hb, h2.rep.symm⟩
    have hr := hrep h2
    exact ⟨hr.w_eq, hr.h_eq, fun x y => (hr.blk x y).trans (cls_eq hbb _), fun z hz => (cls_sub hz).1⟩
  · intro b hb hlow
    have hbQ : b ∈ Q := memQ.2 hb
    obtain ⟨Q', hQ'⟩ : ∃ Q', Q = b :: Q' := by
      cases hc : Q with
      | nil => rw [hc] at hbQ; simp at hbQ
      | cons q Q' =>
        have hsort : Q.Pairwise lexlt := (cells_sorted w h).sublist (List.filter_sublist)
        rw [hc, List.pairwise_cons] at hsort
        rw [hc, List.mem_cons] at hbQ
        rcases hbQ with rfl | hm
        · exact ⟨Q', rfl⟩
        · exact absurd (hsort.1 b hm) (hlow q (memQ.1 (by rw [hc]; simp)))
    have haux := k2.head b Q' hQ'
    obtain ⟨c, b', h1, h2⟩ := k2.comp (root (ix h b)) (by omega)
    rw [haux] at h1
    have hb' : KB blkd w h (zc b') := memQ.1 h2.mem
    have hbb : b' = b := by
      by_contra hne
      have n1 := h2.low b hbQ rfl
      have n2 := hlow b' hb'
      unfold lexlt at n1 n2
      apply hne
      obtain ⟨b1, b2⟩ := b
      obtain ⟨b1', b2'⟩ := b'
      simp only [Prod.mk.injEq] at *
      omega
    subst hbb
    cases hcs : s.cs with
    | nil => rw [hcs] at h1; simp at h1
    | cons c0 cs' =>
      rw [hcs] at h1
      simp at h1
      subst h1
      refine ⟨c0, cs', rfl, h2.first, hrep h2, fun c' hc' => ?_⟩
      obtain ⟨i, hi, rfl⟩ := List.mem_iff_getElem.1 hc'
      obtain ⟨r, hr⟩ := k2.sur (i + 1) (by rw [hcs]; simp; omega)
      obtain ⟨c, b2, h3, h4⟩ := k2.comp r (by omega)
      rw [hr, hcs] at h3
      simp at h3
      rw [List.getElem?_eq_getElem hi] at h3
      cases h3
      have hf := h4.first
      have : ((((cs'[i]).minx : ℕ) : ℤ), (((cs'[i]).miny : ℕ) : ℤ)) = zc b2 := by rw [← hf]; rfl
      rw [this, hcls hb']
      rintro ⟨-, h5⟩
      rw [h4.rep] at h5
      rw [← h5] at haux
      omega

end

end Verif.Grid2Poly
