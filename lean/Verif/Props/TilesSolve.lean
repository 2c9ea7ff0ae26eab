import Verif.Domains.TilesSolve
import Verif.Props.Tiles
import Verif.Props.Concrete

/-!
# C74: which tile puzzles can be solved, and what the searches do with them

`inversions f`: the number of pairs of cells whose contents are in the wrong order, the blank counted as 0;
`Solvable d s0`: some sequence of moves leads to a state that passes the goal test; `Best d s0 p`: `p` is a solution and no
solution is shorter.
-/

namespace Verif.Tiles

open Verif.Search Verif.Sliding Equiv

variable {W H : Nat} {goalpos init : Fin (W * H) → Nat}

/-- A permutation from an array of different numbers below its length. -/
theorem exists_perm {n : Nat} {f : Fin n → Nat} (hi : Function.Injective f) (hl : ∀ i, f i < n) :
    ∃ σ : Perm (Fin n), ∀ i, (σ i).val = f i := by
  have hinj : Function.Injective (fun i => (⟨f i, hl i⟩ : Fin n)) := fun a b h => hi (congrArg Fin.val h)
  exact ⟨Equiv.ofBijective _ (Finite.injective_iff_bijective.1 hinj), fun i => rfl⟩

/-- The initial state is the board of a permutation. -/
theorem initialstate_perm {f : Perm (Fin (W * H))} (hf : ∀ i, (f i).val = init i) {z : Fin (W * H)} (hz : z.val = 0) :
    Input init (f⁻¹ z) ∧ initialstate goalpos init = .ok (ofPerm goalpos f z) := by
  have hin : Input init (f⁻¹ z) := by
    refine ⟨by rw [← hf]; simp [hz], fun i hi => ?_, fun i _ => by rw [← hf]; exact (f i).isLt⟩
    rw [Perm.eq_inv_iff_eq]
    exact Fin.ext (by rw [hf, hi, hz])
  refine ⟨hin, ?_⟩
  rw [initialstate_ok goalpos init hin]
  unfold ofPerm
  have e : (fun i => (f i).val) = init := funext hf
  rw [e]

/-- The parity of a board: the blank is at cell `b`. -/
def parity (W : Nat) {n : Nat} (f : Fin n → Nat) (b : Nat) : Nat := (inversions f + (b / W + b % W)) % 2

theorem sign_colour (f : Perm (Fin (W * H))) (b : Nat) :
    Perm.sign f * colour W b = (-1) ^ (inversions (fun i => (f i).val) + (b / W + b % W)) := by
  rw [sign_eq, colour, ← pow_add]

/-- **C74 (which puzzles can be solved).** On a board of at least 2 x 2 cells the instance with the contents `init` and the
goal cells `goalpos` can be solved exactly if the parities agree: the inversions of the initial board plus row and column
of its blank, and the inversions of the goal plus row and column of the goal cell of the blank. -/
theorem c74_solvable (hW : 2 ≤ W) (hH : 2 ≤ H) (hi : Function.Injective init) (hil : ∀ i, init i < W * H)
    (hg : Function.Injective goalpos) (hgl : ∀ i, goalpos i < W * H) {b z : Fin (W * H)} (hb : init b = 0) (hz : z.val = 0)
    {s0 : State (W * H)} (h0 : initialstate goalpos init = .ok s0) :
    Solvable (dom goalpos) s0 ↔ parity W init b.val = parity W goalpos (goalpos z) := by
  obtain ⟨f, hf⟩ := exists_perm hi hil
  obtain ⟨γ, hγ⟩ := exists_perm hg hgl
  obtain ⟨-, h1⟩ := initialstate_perm (goalpos := goalpos) hf hz
  rw [h0] at h1
  injection h1 with h1
  subst h1
  have eb : f⁻¹ z = b := by rw [Perm.inv_eq_iff_eq]; exact Fin.ext (by rw [hf, hb, hz])
  have hgf : (fun t => (γ t).val) = goalpos := funext hγ
  have hff : (fun t => (f t).val) = init := funext hf
  have hgoal : ∀ g : Perm (Fin (W * H)), (dom goalpos).goal (ofPerm goalpos g z) = true ↔ g = γ⁻¹ := by
    intro g
    show decide (_ = _) = true ↔ _
    rw [decide_eq_true_eq, ← goal_ofPerm (z := z), hgf]
    rfl
  have key : Solvable (dom goalpos) (ofPerm goalpos f z) ↔ Reach (Adj W H) z f γ⁻¹ := by
    constructor
    · rintro ⟨ops, ss, t, c, h1, h2, h3⟩
      obtain ⟨g, rfl, hr⟩ := reach_of_walk goalpos hz (h1.last_walk h2)
      rwa [(hgoal g).1 h3] at hr
    · intro hr
      obtain ⟨c, hw⟩ := walk_of_reach goalpos hz hr
      obtain ⟨os, ss, h1, h2⟩ := hw.last_plan
      exact ⟨os, ss, _, c, h1, h2, (hgoal _).2 rfl⟩
  rw [key, reach_iff adj_symm (grow_univ hW hH) (k := fun i => colour W i.val) (fun a b h => colour_adj h), inv_inv,
    eb, Perm.sign_inv, hγ, sign_colour, sign_colour, neg_one_pow_eq, hff, hgf]
  rfl

/-- **C74 (no plan).** Without a lower bound on the size: boards with different parities never reach each other. -/
theorem c74_unsolvable (hi : Function.Injective init) (hil : ∀ i, init i < W * H)
    (hg : Function.Injective goalpos) (hgl : ∀ i, goalpos i < W * H) {b z : Fin (W * H)} (hb : init b = 0) (hz : z.val = 0)
    {s0 : State (W * H)} (h0 : initialstate goalpos init = .ok s0)
    (hp : parity W init b.val ≠ parity W goalpos (goalpos z)) : ¬ Solvable (dom goalpos) s0 := by
  obtain ⟨f, hf⟩ := exists_perm hi hil
  obtain ⟨γ, hγ⟩ := exists_perm hg hgl
  obtain ⟨-, h1⟩ := initialstate_perm (goalpos := goalpos) hf hz
  rw [h0] at h1
  injection h1 with h1
  subst h1
  have eb : f⁻¹ z = b := by rw [Perm.inv_eq_iff_eq]; exact Fin.ext (by rw [hf, hb, hz])
  have hgf : (fun t => (γ t).val) = goalpos := funext hγ
  have hff : (fun t => (f t).val) = init := funext hf
  rintro ⟨ops, ss, t, c, h1, h2, h3⟩
  obtain ⟨g, rfl, hr⟩ := reach_of_walk goalpos hz (h1.last_walk h2)
  have e : g = γ⁻¹ := by
    rw [← goal_ofPerm (z := z), hgf]
    exact of_decide_eq_true h3
  rw [e] at hr
  have := hr.parity (k := fun i => colour W i.val) (fun a b h => colour_adj h)
  rw [inv_inv, eb, Perm.sign_inv, hγ, sign_colour, sign_colour, neg_one_pow_eq, hff, hgf] at this
  exact hp this.symm

/-- All states of an instance come from permutations. -/
theorem reachable_states (goalpos : Fin (W * H) → Nat) {z : Fin (W * H)} (hz : z.val = 0) (f : Perm (Fin (W * H))) :
    ∃ T : Finset (State (W * H)), T.card ≤ (W * H).factorial ∧
      ∀ s c, Walk (dom goalpos) (ofPerm goalpos f z) s c → s ∈ T := by
  refine ⟨Finset.univ.image fun g => ofPerm goalpos g z, ?_, fun s c hw => ?_⟩
  · refine Finset.card_image_le.trans ?_
    rw [Finset.card_univ, Fintype.card_perm, Fintype.card_fin]
  · obtain ⟨g, rfl, -⟩ := reach_of_walk goalpos hz hw
    exact Finset.mem_image_of_mem _ (Finset.mem_univ g)

/-- **C74 (A\*).** On a board of at most 12 cells A* with the bucket queue and the hash table always returns; it returns a
shortest solution if the parities agree and the empty path if they do not. -/
theorem c74_astar (hW : 2 ≤ W) (hH : 2 ≤ H) (hn : W * H ≤ 12) (hi : Function.Injective init) (hil : ∀ i, init i < W * H)
    (hg : Function.Injective goalpos) (hgl : ∀ i, goalpos i < W * H) {b z : Fin (W * H)} (hb : init b = 0) (hz : z.val = 0)
    {s0 : State (W * H)} (h0 : initialstate goalpos init = .ok s0) {hash : State (W * H) → Nat}
    {x : Lists (BucketOpen.Open Nat)} (hx : BucketObj (State (W * H)) Int x) :
    ∃ F c p, (∀ fuel ≥ F, csearch (dom goalpos) (astar State.h) bucketImpl hash x ⟨0, 0⟩ (fun _ => false) fuel s0 =
        .ok (c, p)) ∧
      (parity W init b.val = parity W goalpos (goalpos z) → Best (dom goalpos) s0 p) ∧
      (parity W init b.val ≠ parity W goalpos (goalpos z) → p = ([], [])) := by
  have hs := c74_solvable hW hH hi hil hg hgl hb hz h0
  obtain ⟨f, hf⟩ := exists_perm hi hil
  obtain ⟨-, h1⟩ := initialstate_perm (goalpos := goalpos) hf hz
  rw [h0] at h1
  injection h1 with h1
  subst h1
  obtain ⟨hok, hcan⟩ := ofPerm_ok goalpos f hz
  obtain ⟨T, hT, hm⟩ := reachable_states goalpos hz f
  have hT' : T.card ≤ 2 ^ 29 := hT.trans ((Nat.factorial_le hn).trans (by decide))
  have hh : ∀ s g, Walk (dom goalpos) (ofPerm goalpos f z) s g → 0 ≤ s.h := by
    intro s g hw
    rw [(hw.inv (ok_app goalpos) hok).h]
    refine Finset.sum_nonneg fun i _ => ?_
    split_ifs
    · exact le_rfl
    · exact mdval_nonneg _ _ _
    · exact le_rfl
  obtain ⟨F, c, p, e1, e2, e3⟩ := c67_astar_buckets (hash := hash) hx (domOk hok hcan).undo hh (admissible hok) hm hT'
  exact ⟨F, c, p, e1, fun h => e2 (hs.2 h), fun h => e3 fun h' => h (hs.1 h')⟩

/-- **C74 (IDA\*).** On a board of any size from 2 x 2 IDA* returns a shortest solution if the parities agree; if they do
not it never returns. -/
theorem c74_idastar (hW : 2 ≤ W) (hH : 2 ≤ H) (hi : Function.Injective init) (hil : ∀ i, init i < W * H)
    (hg : Function.Injective goalpos) (hgl : ∀ i, goalpos i < W * H) {b z : Fin (W * H)} (hb : init b = 0) (hz : z.val = 0)
    {s0 : State (W * H)} (h0 : initialstate goalpos init = .ok s0) {l : Ida.Lim} (hl : ∀ a b c, l a b c = false) :
    (parity W init b.val = parity W goalpos (goalpos z) → ∃ iters fuel p st,
      Ida.search (dom goalpos) State.h l (-1) s0 iters fuel = .ok (some p, st) ∧ Best (dom goalpos) s0 p) ∧
    (parity W init b.val ≠ parity W goalpos (goalpos z) → ∀ iters fuel r,
      Ida.search (dom goalpos) State.h l (-1) s0 iters fuel ≠ .ok r) := by
  have hs := c74_solvable hW hH hi hil hg hgl hb hz h0
  obtain ⟨f, hf⟩ := exists_perm hi hil
  obtain ⟨-, h1⟩ := initialstate_perm (goalpos := goalpos) hf hz
  rw [h0] at h1
  injection h1 with h1
  subst h1
  obtain ⟨hok, hcan⟩ := ofPerm_ok goalpos f hz
  have hh : ∀ s g, Walk (dom goalpos) (ofPerm goalpos f z) s g → 0 ≤ s.h := by
    intro s g hw
    rw [(hw.inv (ok_app goalpos) hok).h]
    refine Finset.sum_nonneg fun i _ => ?_
    split_ifs
    · exact le_rfl
    · exact mdval_nonneg _ _ _
    · exact le_rfl
  have hd := domOk hok hcan
  constructor
  · intro h
    obtain ⟨ops, ss, t, c, h1, h2, h3⟩ := hs.2 h
    obtain ⟨p, st, hr⟩ := Ida.c33_complete (m1 := -1) hd hl (fun _ _ _ _ _ => le_rfl) hh (admissible hok) (by norm_num) h1 h2 h3
    have hlm : Ida.LimMono l := fun a b c a' b' c' _ _ _ h => by simp [hl] at h
    exact ⟨_, _, p, st, hr, Ida.c33_optimal hd hlm (admissible hok) (le_trans (by norm_num) (hh _ _ (.nil _))) hr⟩
  · intro h iters fuel r
    refine Ida.c34_never_reports hl (fun t c hw => ?_) r
    by_contra hne
    rw [Bool.not_eq_false] at hne
    obtain ⟨os, ss, h1, h2⟩ := hw.last_plan
    exact h (hs.1 ⟨os, ss, t, c, h1, h2, hne⟩)

/-! ### Examples -/

-- the hypotheses hold for the eight puzzle with tile 3 moved into the blank
example : Function.Injective i9 ∧ (∀ i, i9 i < 3 * 3) ∧ Function.Injective g9 ∧ (∀ i, g9 i < 3 * 3) ∧ i9 ⟨3, by decide⟩ = 0 := by
  unfold Function.Injective
  decide
example : parity 3 i9 3 = parity 3 g9 0 := by decide
/-- The fifteen puzzle of Sam Loyd: 14 and 15 exchanged. -/
def loyd : Fin (4 * 4) → Nat := fun i => if i.val = 14 then 15 else if i.val = 15 then 14 else i.val
/-- Goal of the fifteen puzzle. -/
def g16 : Fin (4 * 4) → Nat := fun i => i.val
example : Function.Injective loyd := by unfold Function.Injective; decide
/-- It has no solution. -/
example : ∀ s0, initialstate g16 loyd = .ok s0 → ¬ Solvable (dom g16) s0 := fun s0 h0 =>
  c74_unsolvable (b := ⟨0, by decide⟩) (z := ⟨0, by decide⟩) (by unfold Function.Injective; decide) (by decide)
    (by unfold Function.Injective; decide) (by decide) (by decide) rfl h0 (by decide)

end Verif.Tiles
