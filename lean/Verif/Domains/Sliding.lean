import Mathlib.GroupTheory.SpecificGroups.Alternating
import Mathlib.GroupTheory.Perm.Fin
import Mathlib.Logic.Relation

/-!
# Which boards a sliding puzzle can reach

Pure mathematics, no code: boards are permutations of the cells (the contents of each cell), a move swaps the blank with a
neighbour.  `grow_full`: on a graph put together from squares every even permutation that leaves the blank in place can
be reached.
-/

namespace Verif.Sliding

open Equiv Equiv.Perm

variable {α : Type*} [DecidableEq α]

/-- The cycle `a → b → c → a`. -/
def c3 (a b c : α) : Perm α := swap a b * swap b c

theorem c3_rot {a b c : α} (h1 : a ≠ b) (h2 : b ≠ c) (h3 : a ≠ c) : c3 a b c = c3 b c a := by
  ext x
  simp only [c3, Perm.mul_apply, swap_apply_def]
  split_ifs <;> simp_all

theorem c3_inv {a b c : α} : (c3 a b c)⁻¹ = c3 c b a := by
  simp [c3, mul_inv_rev, swap_comm]

theorem c3_conj (σ : Perm α) (a b c : α) : σ * c3 a b c * σ⁻¹ = c3 (σ a) (σ b) (σ c) := by
  unfold c3
  rw [Equiv.swap_apply_apply, Equiv.swap_apply_apply]
  group

theorem c3_prod {x y z x' : α} (h1 : x ≠ y) (h2 : y ≠ z) (h3 : x ≠ z) (h4 : x' ≠ x) (h5 : x' ≠ y) (h6 : x' ≠ z) :
    c3 x y z * (c3 x' y z)⁻¹ = c3 x' x y := by
  rw [c3_inv]
  ext t
  simp only [c3, Perm.mul_apply, swap_apply_def]
  split_ifs <;> simp_all

theorem c3_fst {a b c : α} (h1 : a ≠ b) (h3 : a ≠ c) : c3 a b c a = b := by
  simp [c3, swap_apply_of_ne_of_ne h1 h3]

theorem c3_snd {a b c : α} (h2 : b ≠ c) (h3 : a ≠ c) : c3 a b c b = c := by
  simp [c3, swap_apply_of_ne_of_ne h3.symm h2.symm]

theorem c3_fix {a b c x : α} (h1 : x ≠ a) (h2 : x ≠ b) (h3 : x ≠ c) : c3 a b c x = x := by
  simp [c3, swap_apply_of_ne_of_ne h1 h2, swap_apply_of_ne_of_ne h2 h3]

/-! ## Subgroups with many cycles -/

/-- All cycles of three elements of `Y` are in `G`. -/
def All3 (G : Subgroup (Perm α)) (Y : α → Prop) : Prop :=
  ∀ a b c, Y a → Y b → Y c → a ≠ b → b ≠ c → a ≠ c → c3 a b c ∈ G

theorem mem_rot {G : Subgroup (Perm α)} {a b c : α} (h : c3 a b c ∈ G) (h1 : a ≠ b) (h2 : b ≠ c) (h3 : a ≠ c) :
    c3 b c a ∈ G := by rwa [← c3_rot h1 h2 h3]

theorem mem_inv {G : Subgroup (Perm α)} {a b c : α} (h : c3 a b c ∈ G) (h1 : a ≠ b) (h2 : b ≠ c) (h3 : a ≠ c) :
    c3 b a c ∈ G := by
  have := G.inv_mem h
  rw [c3_inv] at this
  exact mem_rot this h2.symm h1.symm h3.symm

theorem mem_shift {G : Subgroup (Perm α)} {Y : α → Prop} (hG : All3 G Y) {p q r y : α} (hp : Y p) (hq : Y q) (hr : Y r)
    (h1 : p ≠ q) (h2 : q ≠ r) (h3 : p ≠ r) (hy : ¬ Y y) (h : c3 p q y ∈ G) : c3 q r y ∈ G := by
  have hs := hG p q r hp hq hr h1 h2 h3
  have := G.mul_mem (G.mul_mem hs h) (G.inv_mem hs)
  rw [c3_conj, c3_fst h1 h3, c3_snd h2 h3, c3_fix] at this
  · exact this
  all_goals rintro rfl; exact hy (by assumption)

theorem all3_add {G : Subgroup (Perm α)} {Y : α → Prop} (hG : All3 G Y) {p q y : α} (hp : Y p) (hq : Y q)
    (h1 : p ≠ q) (hy : ¬ Y y) (h : c3 p q y ∈ G) : All3 G (fun x => Y x ∨ x = y) := by
  have ne : ∀ {x}, Y x → x ≠ y := fun hx e => hy (e ▸ hx)
  have h' : c3 q p y ∈ G := mem_inv h h1 (ne hq) (ne hp)
  have key : ∀ a b, Y a → Y b → a ≠ b → c3 a b y ∈ G := by
    intro a b ha hb hab
    by_cases e1 : a = q
    · subst e1
      by_cases e2 : b = p
      · subst e2; exact h'
      · exact mem_shift hG hp ha hb h1 hab (Ne.symm e2) hy h
    · by_cases e2 : a = p
      · subst e2
        by_cases e3 : b = q
        · subst e3; exact h
        · exact mem_shift hG hq ha hb (Ne.symm e1) hab (Ne.symm e3) hy h'
      · have s1 := mem_shift hG hp hq ha h1 (Ne.symm e1) (Ne.symm e2) hy h
        by_cases e3 : b = q
        · subst e3; exact mem_inv s1 hab.symm (ne ha) (ne hb)
        · exact mem_shift hG hq ha hb (Ne.symm e1) hab (Ne.symm e3) hy s1
  rintro a b c (ha | rfl) (hb | rfl) (hc | rfl) hab hbc hac
  · exact hG a b c ha hb hc hab hbc hac
  · exact key a b ha hb hab
  · exact mem_rot (key c a hc ha hac.symm) hac.symm hab hbc.symm
  · exact absurd rfl hbc
  · exact mem_rot (mem_rot (key b c hb hc hbc) hbc hac.symm hab.symm) hac.symm hab hbc.symm
  · exact absurd rfl hac
  · exact absurd rfl hab
  · exact absurd rfl hab

/-- A cycle through one known element and two others adds the two others. -/
theorem all3_square {G : Subgroup (Perm α)} {Y : α → Prop} (hG : All3 G Y) {v y w a b : α} (hv : Y v) (ha : Y a) (hb : Y b)
    (hva : v ≠ a) (hvb : v ≠ b) (hab : a ≠ b) (h1 : v ≠ y) (h2 : y ≠ w) (h3 : v ≠ w) (h : c3 v y w ∈ G) :
    All3 G (fun x => Y x ∨ x = y ∨ x = w) := by
  have mono : ∀ {P Q : α → Prop}, All3 G P → (∀ x, Q x → P x) → All3 G Q :=
    fun hP hQ a b c ha hb hc => hP a b c (hQ a ha) (hQ b hb) (hQ c hc)
  by_cases hy : Y y
  · by_cases hw : Y w
    · refine mono hG ?_
      rintro x (h | rfl | rfl) <;> assumption
    · refine mono (all3_add hG hv hy h1 hw h) ?_
      rintro x (h | rfl | rfl)
      · exact Or.inl h
      · exact Or.inl hy
      · exact Or.inr rfl
  · by_cases hw : Y w
    · have h' : c3 w v y ∈ G := mem_rot (mem_rot h h1 h2 h3) h2 h3.symm h1.symm
      refine mono (all3_add hG hw hv h3.symm hy h') ?_
      rintro x (h | rfl | rfl)
      · exact Or.inl h
      · exact Or.inr rfl
      · exact Or.inl hw
    · -- both new
      have nay : a ≠ y := fun e => hy (e ▸ ha)
      have naw : a ≠ w := fun e => hw (e ▸ ha)
      have nby : b ≠ y := fun e => hy (e ▸ hb)
      have nbw : b ≠ w := fun e => hw (e ▸ hb)
      have hs := hG v a b hv ha hb hva hab hvb
      have t := G.mul_mem (G.mul_mem hs h) (G.inv_mem hs)
      rw [c3_conj, c3_fst hva hvb, c3_fix h1.symm nay.symm nby.symm, c3_fix h3.symm naw.symm nbw.symm] at t
      have u := G.mul_mem h (G.inv_mem t)
      rw [c3_prod h1 h2 h3 hva.symm nay naw] at u
      have A := all3_add hG ha hv hva.symm hy u
      have hw' : ¬ (Y w ∨ w = y) := by rintro (h | h); exact hw h; exact h2 h.symm
      refine mono (all3_add A (Or.inl hv) (Or.inr rfl) h1 hw' h) ?_
      rintro x (h | h | h)
      · exact Or.inl (Or.inl h)
      · exact Or.inl (Or.inr h)
      · exact Or.inr h

/-! ## Moves -/

/-- Boards that can be reached by moving the blank `z` to neighbouring cells. -/
inductive Reach (adj : α → α → Prop) (z : α) : Perm α → Perm α → Prop
  | refl (f : Perm α) : Reach adj z f f
  | step {f g : Perm α} {b j : α} (h : Reach adj z f g) (hb : g b = z) (hj : adj b j) : Reach adj z f (g * swap b j)

variable {adj : α → α → Prop} {z : α}

theorem Reach.trans {f g h : Perm α} (h1 : Reach adj z f g) (h2 : Reach adj z g h) : Reach adj z f h := by
  induction h2 with
  | refl => exact h1
  | step _ hb hj ih => exact .step ih hb hj

theorem Reach.symm (hs : ∀ a b, adj a b → adj b a) {f g : Perm α} (h : Reach adj z f g) : Reach adj z g f := by
  induction h with
  | refl => exact .refl f
  | @step g b j h hb hj ih =>
    have : Reach adj z (g * swap b j) (g * swap b j * swap j b) := .step (.refl _) (by simp [hb]) (hs _ _ hj)
    rw [swap_comm j b, mul_assoc, swap_mul_self, mul_one] at this
    exact this.trans ih

/-- The changes of the board that end with the blank `z` where it was, at `b`. -/
def H (hs : ∀ a b, adj a b → adj b a) (z b : α) : Subgroup (Perm α) where
  carrier := { σ | σ b = b ∧ ∀ f : Perm α, f b = z → Reach adj z f (f * σ) }
  one_mem' := ⟨rfl, fun f _ => by rw [mul_one]; exact .refl f⟩
  mul_mem' := by
    rintro σ τ ⟨h1, h2⟩ ⟨h3, h4⟩
    refine ⟨by rw [Perm.mul_apply, h3, h1], fun f hf => ?_⟩
    rw [← mul_assoc]
    exact (h2 f hf).trans (h4 _ (by rw [Perm.mul_apply, h1, hf]))
  inv_mem' := by
    rintro σ ⟨h1, h2⟩
    have h3 : σ⁻¹ b = b := by rw [Perm.inv_eq_iff_eq, h1]
    refine ⟨h3, fun f hf => ?_⟩
    have := h2 (f * σ⁻¹) (by rw [Perm.mul_apply, h3, hf])
    rw [mul_assoc, inv_mul_cancel, mul_one] at this
    exact this.symm hs

variable (hs : ∀ a b, adj a b → adj b a)

theorem mem_H_move {b j : α} (hj : adj b j) {σ : Perm α} (h : σ ∈ H hs z b) : swap b j * σ * (swap b j)⁻¹ ∈ H hs z j := by
  obtain ⟨h1, h2⟩ := h
  refine ⟨by simp [h1], fun f hf => ?_⟩
  have e1 : Reach adj z f (f * swap j b) := .step (.refl _) hf (hs _ _ hj)
  have e2 := h2 (f * swap j b) (by simp [hf])
  have e3 : Reach adj z (f * swap j b * σ) (f * swap j b * σ * swap b j) := .step (.refl _) (by simp [h1, hf]) hj
  have := (e1.trans e2).trans e3
  rw [swap_inv, ← mul_assoc, ← mul_assoc, swap_comm b j]
  rwa [swap_comm b j] at this

theorem mem_H_square {b x y w : α} (h1 : adj b x) (h2 : adj x y) (h3 : adj y w) (h4 : adj w b) (n1 : b ≠ x) (n2 : b ≠ y)
    (n3 : b ≠ w) (n4 : x ≠ y) (n5 : x ≠ w) (n6 : y ≠ w) : c3 x y w ∈ H hs z b := by
  refine ⟨c3_fix n1 n2 n3, fun f hf => ?_⟩
  have e : c3 x y w = swap b x * swap x y * swap y w * swap w b := by
    have e1 : c3 x y w * swap w b = swap x b * c3 x y w := by
      have e0 : c3 x y w w = x := by rw [c3_rot n4 n6 n5, c3_snd n5.symm n4.symm]
      rw [mul_swap_eq_swap_mul, c3_fix n1 n2 n3, e0]
    have e2 : swap b x * swap x y * swap y w * swap w b = swap b x * (c3 x y w * swap w b) := by
      simp only [c3, mul_assoc]
    rw [e2, e1, ← mul_assoc, swap_comm x b, swap_mul_self, one_mul]
  rw [e]
  simp only [← mul_assoc]
  refine .step (.step (.step (.step (.refl f) hf h1) ?_ h2) ?_ h3) ?_ h4
  all_goals simp [hf]

/-- All cycles of three elements of `X` other than the place `b` of the blank are possible. -/
def Full (hs : ∀ a b, adj a b → adj b a) (z : α) (X : Finset α) (b : α) : Prop := All3 (H hs z b) (fun x => x ∈ X ∧ x ≠ b)

theorem Full.move {X : Finset α} {b j : α} (hb : b ∈ X) (hj : j ∈ X) (ha : adj b j) (h : Full hs z X b) :
    Full hs z X j := by
  rintro p q r ⟨p1, p2⟩ ⟨q1, q2⟩ ⟨r1, r2⟩ hpq hqr hpr
  have key : ∀ x, x ∈ X → x ≠ j → swap b j x ∈ X ∧ swap b j x ≠ b := by
    intro x hx hne
    constructor
    · by_cases e : x = b
      · rw [e, swap_apply_left]; exact hj
      · rw [swap_apply_of_ne_of_ne e hne]; exact hx
    · intro e
      apply hne
      have := congrArg (swap b j) e
      rwa [swap_apply_self, swap_apply_left] at this
  have := mem_H_move hs ha (h (swap b j p) (swap b j q) (swap b j r) (key p p1 p2) (key q q1 q2) (key r r1 r2)
    ((swap b j).injective.ne hpq) ((swap b j).injective.ne hqr) ((swap b j).injective.ne hpr))
  rw [c3_conj] at this
  simpa only [swap_apply_self] using this

/-- Sets of cells put together from squares, each with an edge in the set made before. -/
inductive Grow (adj : α → α → Prop) : Finset α → Prop
  | square {a b c d : α} (h1 : adj a b) (h2 : adj b c) (h3 : adj c d) (h4 : adj d a) (n1 : a ≠ b) (n2 : a ≠ c) (n3 : a ≠ d)
      (n4 : b ≠ c) (n5 : b ≠ d) (n6 : c ≠ d) : Grow adj {a, b, c, d}
  | add {X : Finset α} {u v w y : α} (h : Grow adj X) (hu : u ∈ X) (hv : v ∈ X) (h1 : adj u v) (h2 : adj v w) (h3 : adj w y)
      (h4 : adj y u) (n1 : u ≠ v) (n2 : u ≠ w) (n3 : u ≠ y) (n4 : v ≠ w) (n5 : v ≠ y) (n6 : w ≠ y) :
      Grow adj (insert w (insert y X))

/-- A step of the blank inside `X`. -/
def Inside (adj : α → α → Prop) (X : Finset α) (a b : α) : Prop := a ∈ X ∧ b ∈ X ∧ adj a b

theorem Grow.conn (hs : ∀ a b, adj a b → adj b a) {X : Finset α} (h : Grow adj X) :
    4 ≤ X.card ∧ ∀ a ∈ X, ∀ b ∈ X, Relation.ReflTransGen (Inside adj X) a b := by
  induction h with
  | @square a b c d h1 h2 h3 h4 n1 n2 n3 n4 n5 n6 =>
    refine ⟨?_, ?_⟩
    · rw [Finset.card_insert_of_notMem, Finset.card_insert_of_notMem, Finset.card_insert_of_notMem, Finset.card_singleton] <;>
        simp [*]
    · have ma : a ∈ ({a, b, c, d} : Finset α) := by simp
      have mb : b ∈ ({a, b, c, d} : Finset α) := by simp
      have mc : c ∈ ({a, b, c, d} : Finset α) := by simp
      have md : d ∈ ({a, b, c, d} : Finset α) := by simp
      have hto : ∀ x ∈ ({a, b, c, d} : Finset α), Relation.ReflTransGen (Inside adj {a, b, c, d}) x a := by
        intro x hx
        have hb : Relation.ReflTransGen (Inside adj {a, b, c, d}) b a := .single ⟨mb, ma, hs _ _ h1⟩
        simp only [Finset.mem_insert, Finset.mem_singleton] at hx
        rcases hx with rfl | rfl | rfl | rfl
        · exact .refl
        · exact hb
        · exact .head ⟨mc, mb, hs _ _ h2⟩ hb
        · exact .single ⟨md, ma, h4⟩
      have hfrom : ∀ x ∈ ({a, b, c, d} : Finset α), Relation.ReflTransGen (Inside adj {a, b, c, d}) a x := by
        intro x hx
        have hb : Relation.ReflTransGen (Inside adj {a, b, c, d}) a b := .single ⟨ma, mb, h1⟩
        simp only [Finset.mem_insert, Finset.mem_singleton] at hx
        rcases hx with rfl | rfl | rfl | rfl
        · exact .refl
        · exact hb
        · exact hb.tail ⟨mb, mc, h2⟩
        · exact .single ⟨ma, md, hs _ _ h4⟩
      exact fun x hx y hy => (hto x hx).trans (hfrom y hy)
  | @add X u v w y _ hu hv h1 h2 h3 h4 n1 n2 n3 n4 n5 n6 ih =>
    obtain ⟨i1, i2⟩ := ih
    have sub : X ⊆ insert w (insert y X) := fun x hx => by simp [hx]
    have mw : w ∈ insert w (insert y X) := by simp
    have my : y ∈ insert w (insert y X) := by simp
    refine ⟨i1.trans (Finset.card_le_card sub), ?_⟩
    have lift : ∀ {a b}, Relation.ReflTransGen (Inside adj X) a b →
        Relation.ReflTransGen (Inside adj (insert w (insert y X))) a b :=
      by
      intro a b h
      induction h with
      | refl => exact .refl
      | tail _ h ih => exact ih.tail ⟨sub h.1, sub h.2.1, h.2.2⟩
    have hto : ∀ x ∈ insert w (insert y X), Relation.ReflTransGen (Inside adj (insert w (insert y X))) x u := by
      intro x hx
      have hy : Relation.ReflTransGen (Inside adj (insert w (insert y X))) y u := .single ⟨my, sub hu, h4⟩
      simp only [Finset.mem_insert] at hx
      rcases hx with rfl | rfl | hx
      · exact .head ⟨mw, my, h3⟩ hy
      · exact hy
      · exact lift (i2 x hx u hu)
    have hfrom : ∀ x ∈ insert w (insert y X), Relation.ReflTransGen (Inside adj (insert w (insert y X))) u x := by
      intro x hx
      have hy : Relation.ReflTransGen (Inside adj (insert w (insert y X))) u y := .single ⟨sub hu, my, hs _ _ h4⟩
      simp only [Finset.mem_insert] at hx
      rcases hx with rfl | rfl | hx
      · exact hy.tail ⟨my, mw, hs _ _ h3⟩
      · exact hy
      · exact lift (i2 u hu x hx)
    exact fun p hp q hq => (hto p hp).trans (hfrom q hq)

theorem Full.spread {X : Finset α} {a b : α} (hc : Relation.ReflTransGen (Inside adj X) a b) (h : Full hs z X a) :
    Full hs z X b := by
  induction hc with
  | refl => exact h
  | tail _ h2 ih => exact ih.move hs h2.1 h2.2.1 h2.2.2

theorem Grow.full {X : Finset α} (h : Grow adj X) : ∀ b ∈ X, Full hs z X b := by
  induction h with
  | @square a b c d h1 h2 h3 h4 n1 n2 n3 n4 n5 n6 =>
    have hX : Grow adj {a, b, c, d} := .square h1 h2 h3 h4 n1 n2 n3 n4 n5 n6
    intro x hx
    refine Full.spread hs ((hX.conn hs).2 a (by simp) x hx) ?_
    have k1 : c3 b c d ∈ H hs z a := mem_H_square hs h1 h2 h3 h4 n1 n2 n3 n4 n5 n6
    have k2 := mem_rot k1 n4 n6 n5
    have k3 := mem_rot k2 n6 n5.symm n4.symm
    have k4 := mem_inv k1 n4 n6 n5
    have k5 := mem_inv k2 n6 n5.symm n4.symm
    have k6 := mem_inv k3 n5.symm n4 n6.symm
    rintro p q r ⟨p1, p2⟩ ⟨q1, q2⟩ ⟨r1, r2⟩ hpq hqr hpr
    simp only [Finset.mem_insert, Finset.mem_singleton] at p1 q1 r1
    rcases p1 with rfl | rfl | rfl | rfl <;> rcases q1 with rfl | rfl | rfl | rfl <;>
      rcases r1 with rfl | rfl | rfl | rfl <;>
      first | exact absurd rfl p2 | exact absurd rfl q2 | exact absurd rfl r2 | exact absurd rfl hpq |
        exact absurd rfl hqr | exact absurd rfl hpr | assumption
  | @add X u v w y hX hu hv h1 h2 h3 h4 n1 n2 n3 n4 n5 n6 ih =>
    have hX' : Grow adj (insert w (insert y X)) := .add hX hu hv h1 h2 h3 h4 n1 n2 n3 n4 n5 n6
    have mu : u ∈ insert w (insert y X) := by simp [hu]
    intro x hx
    refine Full.spread hs ((hX'.conn hs).2 u mu x hx) ?_
    have k1 : c3 v w y ∈ H hs z u := mem_H_square hs h1 h2 h3 h4 n1 n2 n3 n4 n5 n6
    have hcard : 1 < ((X.erase u).erase v).card := by
      have e1 := Finset.card_erase_of_mem hu
      have e2 := Finset.card_erase_of_mem (s := X.erase u) (Finset.mem_erase.2 ⟨n1.symm, hv⟩)
      have := (hX.conn hs).1
      omega
    obtain ⟨a, ha, b, hb, hab⟩ := Finset.one_lt_card.1 hcard
    simp only [Finset.mem_erase] at ha hb
    have := all3_square (ih u hu) (v := v) (a := a) (b := b) (y := w) (w := y) ⟨hv, n1.symm⟩ ⟨ha.2.2, ha.2.1⟩ ⟨hb.2.2, hb.2.1⟩
      (Ne.symm ha.1) (Ne.symm hb.1) hab n4 n6 n5 k1
    intro p q r hp hq hr
    have key : ∀ t, t ∈ insert w (insert y X) ∧ t ≠ u → (t ∈ X ∧ t ≠ u) ∨ t = w ∨ t = y := by
      rintro t ⟨h5, h6⟩
      simp only [Finset.mem_insert] at h5
      tauto
    exact this p q r (key p hp) (key q hq) (key r hr)

/-! ## All even permutations -/

theorem even_mem [Fintype α] (h : Grow adj (Finset.univ : Finset α)) {b : α} {σ : Perm α} (hb : σ b = b)
    (he : Perm.sign σ = 1) : σ ∈ H hs z b := by
  have full := h.full hs (z := z) b (Finset.mem_univ b)
  have hp : ∀ x, σ x ≠ b ↔ x ≠ b := fun x => by
    rw [not_iff_not]
    constructor
    · intro e; exact σ.injective (e.trans hb.symm)
    · rintro rfl; exact hb
  set τ : Perm {x // x ≠ b} := σ.subtypePerm hp with hτ
  have e1 : Perm.ofSubtype τ = σ := by
    rw [hτ, Perm.ofSubtype_subtypePerm]
    intro x hx e
    exact hx (by rw [e]; exact hb)
  have hsgn : Perm.sign τ = 1 := by rw [← Perm.sign_ofSubtype, e1, he]
  have hmem : τ ∈ alternatingGroup {x // x ≠ b} := hsgn
  rw [← closure_three_cycles_eq_alternating] at hmem
  rw [← e1]
  have : Subgroup.closure { σ : Perm {x // x ≠ b} | σ.IsThreeCycle } ≤ (H hs z b).comap Perm.ofSubtype := by
    rw [Subgroup.closure_le]
    intro ρ hρ
    obtain ⟨a, ha⟩ : ρ.support.Nonempty := by
      rw [← Finset.card_pos, (show ρ.IsThreeCycle from hρ).card_support]; norm_num
    have h1 := (show ρ.IsThreeCycle from hρ).eq_swap_mul_swap_iff_mem_support.2 ha
    have h2 := (show ρ.IsThreeCycle from hρ).nodup_iff_mem_support.2 ha
    simp only [List.nodup_cons, List.mem_cons, List.not_mem_nil, or_false, not_or] at h2
    have nv : ∀ {x y : {x // x ≠ b}}, x ≠ y → x.val ≠ y.val := fun h e => h (Subtype.ext e)
    show Perm.ofSubtype ρ ∈ H hs z b
    rw [h1, map_mul, ofSubtype_swap_eq, ofSubtype_swap_eq]
    exact full _ _ _ ⟨Finset.mem_univ _, a.2⟩ ⟨Finset.mem_univ _, (ρ a).2⟩ ⟨Finset.mem_univ _, (ρ (ρ a)).2⟩
      (nv h2.1.1) (nv h2.2.1) (nv h2.1.2)
  exact this hmem

theorem Reach.blank {b c : α} (hc : Relation.ReflTransGen adj b c) {f : Perm α} (hf : f b = z) :
    ∃ g, Reach adj z f g ∧ g c = z := by
  induction hc with
  | refl => exact ⟨f, .refl f, hf⟩
  | tail _ h ih =>
    obtain ⟨g, h1, h2⟩ := ih
    exact ⟨_, .step h1 h2 h, by simp [h2]⟩

/-- Boards with the blank in the same place and the same sign reach each other. -/
theorem reach_of_sign [Fintype α] (hs : ∀ a b, adj a b → adj b a) (h : Grow adj (Finset.univ : Finset α)) {b : α} {f g : Perm α} (hf : f b = z) (hg : g b = z)
    (he : Perm.sign f = Perm.sign g) : Reach adj z f g := by
  have hb : (f⁻¹ * g) b = b := by rw [Perm.mul_apply, hg, Perm.inv_eq_iff_eq, hf]
  have := (even_mem hs h (z := z) hb (by rw [Perm.sign_mul, Perm.sign_inv, he]; exact Int.units_mul_self _)).2 f hf
  rwa [← mul_assoc, mul_inv_cancel, one_mul] at this

/-- With a colouring of the cells by two colours that every move changes, this number does not change. -/
theorem Reach.parity [Fintype α] {k : α → ℤˣ} (hk : ∀ a b, adj a b → a ≠ b ∧ k b = -k a) {f g : Perm α}
    (h : Reach adj z f g) : Perm.sign g * k (g⁻¹ z) = Perm.sign f * k (f⁻¹ z) := by
  induction h with
  | refl => rfl
  | @step g b j h hb hj ih =>
    obtain ⟨h1, h2⟩ := hk b j hj
    have e1 : g⁻¹ z = b := by rw [Perm.inv_eq_iff_eq, hb]
    have e2 : (g * swap b j)⁻¹ z = j := by rw [Perm.inv_eq_iff_eq]; simp [hb]
    rw [← ih, e1, e2, Perm.sign_mul, Perm.sign_swap h1, h2]
    simp

/-- The boards that can be reached are the boards with the same value of the invariant. -/
theorem reach_iff [Fintype α] (hs : ∀ a b, adj a b → adj b a) (h : Grow adj (Finset.univ : Finset α)) {k : α → ℤˣ} (hk : ∀ a b, adj a b → a ≠ b ∧ k b = -k a)
    {f g : Perm α} : Reach adj z f g ↔ Perm.sign f * k (f⁻¹ z) = Perm.sign g * k (g⁻¹ z) := by
  refine ⟨fun hr => (hr.parity hk).symm, fun he => ?_⟩
  have hc : Relation.ReflTransGen adj (f⁻¹ z) (g⁻¹ z) := by
    have := (h.conn hs).2 (f⁻¹ z) (Finset.mem_univ _) (g⁻¹ z) (Finset.mem_univ _)
    generalize g⁻¹ z = c at this
    clear he
    induction this with
    | refl => exact .refl
    | tail _ h ih => exact ih.tail h.2.2
  obtain ⟨f', h1, h2⟩ := Reach.blank (z := z) hc (f := f) (by simp)
  refine h1.trans (reach_of_sign hs h h2 (by simp) ?_)
  have e := h1.parity hk
  have e1 : f'⁻¹ z = g⁻¹ z := by rw [Perm.inv_eq_iff_eq, h2]
  rw [e1, he] at e
  exact mul_right_cancel e

end Verif.Sliding
