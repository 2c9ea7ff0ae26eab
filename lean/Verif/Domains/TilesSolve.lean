import Verif.Domains.Tiles
import Verif.Domains.Sliding

/-!
# Solvable instances of the sliding tile puzzle

Lemmas for `Verif.Props.TilesGen`: the rectangle is put together from squares, boards of `Verif.Domains.Tiles` as
permutations, inversions and the sign.
-/

namespace Verif.Tiles

open Equiv Verif.Sliding

variable {W H : Nat}

/-- Neighbouring cells. -/
def Adj (W H : Nat) (i j : Fin (W * H)) : Prop := Adjacent W i.val j.val

theorem adj_symm (i j : Fin (W * H)) (h : Adj W H i j) : Adj W H j i := Adjacent.symm h

theorem cell_lt {r c : Nat} (hr : r < H) (hc : c < W) : W * r + c < W * H := by
  have : W * (r + 1) ≤ W * H := Nat.mul_le_mul_left W hr
  rw [Nat.mul_succ] at this
  omega

/-- The cell in row `r` and column `c`. -/
def cell {r c : Nat} (hr : r < H) (hc : c < W) : Fin (W * H) := ⟨W * r + c, cell_lt hr hc⟩

theorem cell_ne {r c r' c' : Nat} {hr : r < H} {hc : c < W} {hr' : r' < H} {hc' : c' < W} (h : r ≠ r' ∨ c ≠ c') :
    cell hr hc ≠ cell hr' hc' := by
  intro e
  have e' : W * r + c = W * r' + c' := congrArg Fin.val e
  have h1 := divmod hc (r := r)
  have h2 := divmod hc' (r := r')
  rw [e'] at h1
  omega

theorem adj_right {r c : Nat} (hr : r < H) (hc : c + 1 < W) : Adj W H (cell hr (by omega : c < W)) (cell hr hc) := by
  have h1 := divmod (show c < W by omega) (r := r)
  have h2 := divmod hc (r := r)
  exact Or.inl ⟨by show (W * r + c) / W = (W * r + (c + 1)) / W; omega,
    Or.inl (by show (W * r + c) % W + 1 = (W * r + (c + 1)) % W; omega)⟩

theorem adj_down {r c : Nat} (hr : r + 1 < H) (hc : c < W) : Adj W H (cell (by omega : r < H) hc) (cell hr hc) := by
  have h1 := divmod hc (r := r)
  have h2 := divmod hc (r := r + 1)
  exact Or.inr ⟨by show (W * r + c) % W = (W * (r + 1) + c) % W; omega,
    Or.inl (by show (W * r + c) / W + 1 = (W * (r + 1) + c) / W; omega)⟩

theorem grow_rows2 (hH : 2 ≤ H) (k : Nat) (hk : 2 ≤ k) (hkW : k ≤ W) :
    ∃ X, Grow (Adj W H) X ∧ ∀ r c, ∀ hr : r < H, ∀ hc : c < W, r < 2 → c < k → cell hr hc ∈ X := by
  induction k with
  | zero => omega
  | succ k ih =>
    rcases Nat.lt_or_ge k 2 with h2 | h2
    · have hk1 : k = 1 := by omega
      subst hk1
      have s1 := adj_right (H := H) (r := 0) (c := 0) (by omega) hkW
      have s2 := adj_down (H := H) (r := 0) (c := 1) (by omega) hkW
      have s3 := adj_symm _ _ (adj_right (H := H) (r := 1) (c := 0) (by omega) hkW)
      have s4 := adj_symm _ _ (adj_down (H := H) (r := 0) (c := 0) (by omega) (show 0 < W by omega))
      refine ⟨_, Grow.square s1 s2 s3 s4 (cell_ne (by omega)) (cell_ne (by omega)) (cell_ne (by omega)) (cell_ne (by omega))
        (cell_ne (by omega)) (cell_ne (by omega)), fun r c hr hc h1 h2 => ?_⟩
      have hr' : r = 0 ∨ r = 1 := by omega
      have hc' : c = 0 ∨ c = 1 := by omega
      rcases hr' with rfl | rfl <;> rcases hc' with rfl | rfl <;> simp
    · obtain ⟨X, hX, hm⟩ := ih h2 (by omega)
      obtain ⟨j, rfl⟩ : ∃ j, k = j + 1 := ⟨k - 1, by omega⟩
      have s1 := adj_down (H := H) (r := 0) (c := j) (by omega) (show j < W by omega)
      have s2 := adj_right (H := H) (r := 1) (c := j) (by omega) (show j + 1 < W by omega)
      have s3 := adj_symm _ _ (adj_down (H := H) (r := 0) (c := j + 1) (by omega) (show j + 1 < W by omega))
      have s4 := adj_symm _ _ (adj_right (H := H) (r := 0) (c := j) (by omega) (show j + 1 < W by omega))
      refine ⟨_, Grow.add hX (hm 0 j (by omega) (by omega) (by omega) (by omega)) (hm 1 j (by omega) (by omega) (by omega) (by omega))
        s1 s2 s3 s4 (cell_ne (by omega)) (cell_ne (by omega)) (cell_ne (by omega)) (cell_ne (by omega)) (cell_ne (by omega))
        (cell_ne (by omega)), fun r c hr hc h1 h2 => ?_⟩
      rcases Nat.lt_or_ge c (j + 1) with h3 | h3
      · have := hm r c hr hc h1 h3
        simp [this]
      · have hc' : c = j + 1 := by omega
        have hr' : r = 0 ∨ r = 1 := by omega
        subst hc'
        rcases hr' with rfl | rfl <;> simp

theorem grow_row {m : Nat} (hm1 : 1 ≤ m) (hmH : m < H) {X : Finset (Fin (W * H))} (hX : Grow (Adj W H) X)
    (hm : ∀ r c, ∀ hr : r < H, ∀ hc : c < W, r < m → cell hr hc ∈ X) (k : Nat) (hk : 2 ≤ k) (hkW : k ≤ W) :
    ∃ Y, Grow (Adj W H) Y ∧ X ⊆ Y ∧ ∀ c, ∀ hc : c < W, c < k → cell hmH hc ∈ Y := by
  obtain ⟨q, rfl⟩ : ∃ q, m = q + 1 := ⟨m - 1, by omega⟩
  induction k with
  | zero => omega
  | succ k ih =>
    obtain ⟨j, rfl⟩ : ∃ j, k = j + 1 := ⟨k - 1, by omega⟩
    have s1 := adj_right (H := H) (r := q) (c := j) (by omega) (show j + 1 < W by omega)
    have s2 := adj_down (H := H) (r := q) (c := j + 1) hmH (show j + 1 < W by omega)
    have s3 := adj_symm _ _ (adj_right (H := H) (r := q + 1) (c := j) hmH (show j + 1 < W by omega))
    have s4 := adj_symm _ _ (adj_down (H := H) (r := q) (c := j) hmH (show j < W by omega))
    have go : ∀ Y, Grow (Adj W H) Y → X ⊆ Y → (∀ c, ∀ hc : c < W, c < j → cell hmH hc ∈ Y) →
        ∃ Y, Grow (Adj W H) Y ∧ X ⊆ Y ∧ ∀ c, ∀ hc : c < W, c < j + 1 + 1 → cell hmH hc ∈ Y := by
      intro Y hY hXY hr
      refine ⟨_, Grow.add hY (hXY (hm q j (by omega) (by omega) (by omega))) (hXY (hm q (j + 1) (by omega) (by omega) (by omega)))
        s1 s2 s3 s4 (cell_ne (by omega)) (cell_ne (by omega)) (cell_ne (by omega)) (cell_ne (by omega)) (cell_ne (by omega))
        (cell_ne (by omega)), fun x hx => by simp [hXY hx], fun c hc h1 => ?_⟩
      rcases Nat.lt_or_ge c j with h3 | h3
      · have := hr c hc h3
        simp [this]
      · have hc' : c = j ∨ c = j + 1 := by omega
        rcases hc' with rfl | rfl <;> simp
    rcases Nat.lt_or_ge (j + 1) 2 with h2 | h2
    · exact go X hX (fun _ h => h) (fun c hc h => by omega)
    · obtain ⟨Y, h3, h4, h5⟩ := ih h2 (by omega)
      exact go Y h3 h4 (fun c hc h => h5 c hc (by omega))

theorem grow_univ (hW : 2 ≤ W) (hH : 2 ≤ H) : Grow (Adj W H) Finset.univ := by
  have key : ∀ m, 2 ≤ m → m ≤ H → ∃ X, Grow (Adj W H) X ∧
      ∀ r c, ∀ hr : r < H, ∀ hc : c < W, r < m → cell hr hc ∈ X := by
    intro m hm hmH
    induction m with
    | zero => omega
    | succ m ih =>
      rcases Nat.lt_or_ge m 2 with h2 | h2
      · obtain ⟨X, h3, h4⟩ := grow_rows2 hH W hW le_rfl
        exact ⟨X, h3, fun r c hr hc h => h4 r c hr hc (by omega) hc⟩
      · obtain ⟨X, h3, h4⟩ := ih h2 (by omega)
        obtain ⟨Y, h5, h6, h7⟩ := grow_row (by omega) (show m < H by omega) h3 h4 W hW le_rfl
        refine ⟨Y, h5, fun r c hr hc h => ?_⟩
        rcases Nat.lt_or_ge r m with h8 | h8
        · exact h6 (h4 r c hr hc h8)
        · have : r = m := by omega
          subst this
          exact h7 c hc hc
  obtain ⟨X, h1, h2⟩ := key H hH le_rfl
  have : X = Finset.univ := by
    refine Finset.eq_univ_of_forall fun i => ?_
    have hc : i.val % W < W := Nat.mod_lt _ (by omega)
    have hr : i.val / W < H := Nat.div_lt_of_lt_mul i.isLt
    have e : cell hr hc = i := Fin.ext (Nat.div_add_mod i.val W)
    rw [← e]
    exact h2 _ _ hr hc hr
  rwa [this] at h1

/-- The colour of a cell of the chess board. -/
def colour (W : Nat) (i : Nat) : ℤˣ := (-1) ^ (i / W + i % W)

theorem colour_adj {i j : Fin (W * H)} (h : Adj W H i j) : i ≠ j ∧ colour W j.val = -colour W i.val := by
  refine ⟨fun e => Adjacent.ne h (congrArg Fin.val e), ?_⟩
  unfold colour
  have : (i.val / W + i.val % W) + 1 = j.val / W + j.val % W ∨ (j.val / W + j.val % W) + 1 = i.val / W + i.val % W := by
    unfold Adj Adjacent at h
    omega
  rcases this with e | e
  · rw [← e, pow_succ]; simp
  · rw [← e, pow_succ]; simp

/-! ## Boards as permutations -/

/-- The state with the contents `f i` of each cell `i`; 0 is the blank. -/
def ofPerm (goalpos : Fin (W * H) → Nat) (f : Perm (Fin (W * H))) (z : Fin (W * H)) : State (W * H) :=
  ⟨fun i => (f i).val, (f⁻¹ z).val, manhattan goalpos (fun i => (f i).val) (f⁻¹ z).val⟩

theorem ofPerm_ok (goalpos : Fin (W * H) → Nat) (f : Perm (Fin (W * H))) {z : Fin (W * H)} (hz : z.val = 0) :
    Ok goalpos (ofPerm goalpos f z) ∧ canon (ofPerm goalpos f z) = ofPerm goalpos f z := by
  refine ⟨⟨⟨(f⁻¹ z).isLt, fun i hi => ⟨?_, (f i).isLt⟩⟩, rfl⟩, ?_⟩
  · rcases Nat.eq_zero_or_pos (f i).val with h | h
    · exfalso
      apply hi
      have e : f i = z := Fin.ext (h.trans hz.symm)
      show i.val = (f⁻¹ z).val
      rw [← e]; simp
    · exact h
  · have : ∀ s : State (W * H), (fun i : Fin (W * H) => if i.val = s.b then 0 else s.ts i) = s.ts → canon s = s := by
      rintro ⟨ts, b, h⟩ e
      show (⟨_, b, h⟩ : State (W * H)) = _
      rw [e]
    refine this _ (funext fun i => ?_)
    show (if i.val = (f⁻¹ z).val then 0 else (f i).val) = (f i).val
    by_cases h : i.val = (f⁻¹ z).val
    · have e : i = f⁻¹ z := Fin.ext h
      rw [if_pos h, e]; simp [hz]
    · rw [if_neg h]

theorem app_ofPerm (goalpos : Fin (W * H) → Nat) (f : Perm (Fin (W * H))) {z : Fin (W * H)} (hz : z.val = 0)
    {j : Fin (W * H)} (hj : Adj W H (f⁻¹ z) j) :
    ((j.val : Nat) : Int) ∈ (dom goalpos).ops (ofPerm goalpos f z) ∧
    (dom goalpos).app (ofPerm goalpos f z) (j.val : Nat) = ofPerm goalpos (f * swap (f⁻¹ z) j) z := by
  obtain ⟨hok, -⟩ := ofPerm_ok goalpos f hz
  have hm : j.val ∈ mvs W H (ofPerm goalpos f z).b := (mem_mvs hok.b).2 ⟨j.isLt, hj⟩
  refine ⟨mem_ops.2 ⟨j.val, hm, rfl⟩, ?_⟩
  obtain ⟨hb, hop, ht, he⟩ := edge_ok goalpos hok.toBoard hm
  have hne : (ofPerm goalpos f z).b ≠ j.val := Adjacent.ne hj
  have h1 : Ok goalpos ((dom goalpos).app (ofPerm goalpos f z) (j.val : Nat)) :=
    ok_app goalpos _ hok _ (mem_ops.2 ⟨j.val, hm, rfl⟩)
  have hts : ((dom goalpos).app (ofPerm goalpos f z) (j.val : Nat)).ts = (ofPerm goalpos (f * swap (f⁻¹ z) j) z).ts := by
    show (canon (val (edge goalpos (ofPerm goalpos f z) (j.val : Nat)) (ofPerm goalpos f z))).ts = _
    rw [he]
    funext i
    show (if i.val = j.val then 0 else Function.update (ofPerm goalpos f z).ts ⟨(ofPerm goalpos f z).b, hb⟩ _ i) =
      ((f * swap (f⁻¹ z) j) i).val
    by_cases e1 : i = j
    · rw [if_pos (congrArg Fin.val e1), e1]; simp [hz]
    · rw [if_neg fun h => e1 (Fin.ext h)]
      by_cases e2 : i = f⁻¹ z
      · have e3 : (⟨(ofPerm goalpos f z).b, hb⟩ : Fin (W * H)) = f⁻¹ z := rfl
        rw [e2, e3, Function.update_self, Perm.mul_apply, swap_apply_left]
        rfl
      · have e3 : (⟨(ofPerm goalpos f z).b, hb⟩ : Fin (W * H)) = f⁻¹ z := rfl
        rw [e3, Function.update_of_ne e2, Perm.mul_apply, swap_apply_of_ne_of_ne e2 e1]
        rfl
  have hb' : ((dom goalpos).app (ofPerm goalpos f z) (j.val : Nat)).b = (ofPerm goalpos (f * swap (f⁻¹ z) j) z).b := by
    show (canon (val (edge goalpos (ofPerm goalpos f z) (j.val : Nat)) (ofPerm goalpos f z))).b = _
    rw [he]
    show j.val = ((f * swap (f⁻¹ z) j)⁻¹ z).val
    have : (f * swap (f⁻¹ z) j)⁻¹ z = j := by rw [Perm.inv_eq_iff_eq]; simp
    rw [this]
  have hh := h1.h
  rw [hts, hb'] at hh
  have hh' : (ofPerm goalpos (f * swap (f⁻¹ z) j) z).h = manhattan goalpos (ofPerm goalpos (f * swap (f⁻¹ z) j) z).ts
    (ofPerm goalpos (f * swap (f⁻¹ z) j) z).b := rfl
  rw [← hh'] at hh
  generalize (dom goalpos).app (ofPerm goalpos f z) (j.val : Nat) = s at *
  cases s
  simp only at hts hb' hh
  rw [hts, hb', hh]

theorem walk_of_reach (goalpos : Fin (W * H) → Nat) {z : Fin (W * H)} (hz : z.val = 0) {f g : Perm (Fin (W * H))}
    (h : Reach (Adj W H) z f g) : ∃ c, Search.Walk (dom goalpos) (ofPerm goalpos f z) (ofPerm goalpos g z) c := by
  induction h with
  | refl => exact ⟨0, .nil _⟩
  | @step g b j h hb hj ih =>
    obtain ⟨c, hc⟩ := ih
    have e : g⁻¹ z = b := by rw [Perm.inv_eq_iff_eq, hb]
    rw [← e] at hj ⊢
    obtain ⟨h1, h2⟩ := app_ofPerm goalpos g hz hj
    rw [← h2]
    exact ⟨_, hc.snoc h1⟩

theorem reach_of_walk (goalpos : Fin (W * H) → Nat) {z : Fin (W * H)} (hz : z.val = 0) {f : Perm (Fin (W * H))}
    {s : State (W * H)} {c : Int} (h : Search.Walk (dom goalpos) (ofPerm goalpos f z) s c) :
    ∃ g, s = ofPerm goalpos g z ∧ Reach (Adj W H) z f g := by
  generalize e : ofPerm goalpos f z = s0 at h
  induction h with
  | nil => exact ⟨f, e.symm, .refl f⟩
  | @snoc t c o h ho ih =>
    obtain ⟨g, rfl, hg⟩ := ih
    obtain ⟨hok, -⟩ := ofPerm_ok goalpos g hz
    obtain ⟨i, hi, rfl⟩ := mem_ops.1 ho
    obtain ⟨h1, h2⟩ := (mem_mvs hok.b).1 hi
    have := (app_ofPerm goalpos g hz (j := ⟨i, h1⟩) h2).2
    exact ⟨_, this, .step hg (by simp) h2⟩

/-- The goal test, when `goalpos` puts the tiles in different cells. -/
theorem goal_ofPerm (γ : Perm (Fin (W * H))) {f : Perm (Fin (W * H))} {z : Fin (W * H)} :
    manhattan (fun t => (γ t).val) (fun i => (f i).val) (f⁻¹ z).val = 0 ↔ f = γ⁻¹ := by
  unfold manhattan
  rw [Finset.sum_eq_zero_iff_of_nonneg]
  · constructor
    · intro h
      have h1 : ∀ i, i ≠ f⁻¹ z → γ (f i) = i := by
        intro i hi
        have := h i (Finset.mem_univ i)
        rw [if_neg fun e => hi (Fin.ext e), dif_pos (f i).isLt, mdval_eq_zero] at this
        exact Fin.ext this.symm
      have h2 : γ (f (f⁻¹ z)) = f⁻¹ z := by
        by_contra hne
        have e := h1 _ hne
        have : f (γ (f (f⁻¹ z))) = f (f⁻¹ z) := γ.injective e
        exact hne (f.injective this)
      ext i
      by_cases hi : i = f⁻¹ z
      · rw [hi]
        have : f (f⁻¹ z) = γ⁻¹ (f⁻¹ z) := by rw [Perm.eq_inv_iff_eq]; exact h2
        rw [this]
      · have : f i = γ⁻¹ i := by rw [Perm.eq_inv_iff_eq]; exact h1 i hi
        rw [this]
    · rintro rfl i -
      split_ifs
      · rfl
      · rw [mdval_eq_zero]; simp
      · rfl
  · intro i _
    split_ifs
    · exact le_rfl
    · exact mdval_nonneg _ _ _
    · exact le_rfl

/-! ## Inversions -/

/-- Pairs of cells whose contents are in the wrong order, the blank counted as 0. -/
def inversions {n : Nat} (f : Fin n → Nat) : Nat :=
  ∑ j : Fin n, (Finset.univ.filter fun i : Fin n => i < j ∧ f j < f i).card

theorem sign_eq {n : Nat} (f : Perm (Fin n)) : Perm.sign f = (-1) ^ inversions (fun i => (f i).val) := by
  rw [Perm.sign_eq_prod_prod_Iio, inversions, ← Finset.prod_pow_eq_pow_sum]
  refine Finset.prod_congr rfl fun j _ => ?_
  rw [← Finset.prod_filter_mul_prod_filter_not (s := Finset.Iio j) (p := fun i => f i < f j)]
  rw [Finset.prod_congr rfl (g := fun _ => (1 : ℤˣ)) (fun i hi => if_pos (Finset.mem_filter.1 hi).2),
    Finset.prod_congr rfl (g := fun _ => (-1 : ℤˣ)) (fun i hi => if_neg (Finset.mem_filter.1 hi).2),
    Finset.prod_const_one, one_mul, Finset.prod_const]
  congr 2
  ext i
  simp only [Finset.mem_filter, Finset.mem_Iio, Finset.mem_univ, true_and, not_lt]
  refine and_congr_right fun hij => ?_
  constructor
  · intro h
    exact lt_of_le_of_ne h fun e => hij.ne (f.injective (Fin.ext e.symm))
  · exact fun h => le_of_lt h

theorem neg_one_pow_eq {a b : Nat} : ((-1 : ℤˣ)) ^ a = (-1) ^ b ↔ a % 2 = b % 2 := by
  rcases Nat.even_or_odd a with ha | ha <;> rcases Nat.even_or_odd b with hb | hb <;>
    simp only [ha.neg_one_pow, hb.neg_one_pow]
  · rw [Nat.even_iff] at ha hb; simp [ha, hb]
  · rw [Nat.even_iff] at ha; rw [Nat.odd_iff] at hb; rw [ha, hb]; decide
  · rw [Nat.even_iff] at hb; rw [Nat.odd_iff] at ha; rw [ha, hb]; decide
  · rw [Nat.odd_iff] at ha hb; simp [ha, hb]

end Verif.Tiles
