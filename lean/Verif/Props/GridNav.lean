import Verif.Domains.GridNav
import Verif.Props.Idastar

/-!
# C45, C46: grid navigation

`Interior m loc` is a cell inside the border, `Enter f0 f1` says that one may step from a cell with flags `f0` onto a
cell with flags `f1`; both are stated independently of the code.
-/

namespace Verif.GridNav

open Verif.Search

variable {m : GMap}

/-- **C45 (border).** `setsize` makes every cell of the border out of bounds and every other cell passable, for every
size. -/
theorem c45_setsize (width height : Nat) (mvs : List Move) (life : Bool)
    (loc : Nat) (hl : loc < (width + 2) * (height + 2)) :
    (Interior ⟨width + 2, height + 2, setsize width height, mvs, life⟩ loc → setsize width height loc = Passable) ∧
    (¬ Interior ⟨width + 2, height + 2, setsize width height, mvs, life⟩ loc →
      setsize width height loc = OutOfBounds) := by
  rw [setsize_val _ _ _ hl]
  exact ⟨fun h => if_pos h, fun h => if_neg h⟩

/-- **C45 (maps).** A map made by `setsize` and any number of writes to interior cells has its border out of bounds. -/
theorem c45_map (width height : Nat) (ws : List (Nat × Nat)) (mvs : List Move) (life : Bool)
    (hm : mvs = octile ∨ mvs = eightway ∨ mvs = fourway)
    (hw : ∀ p ∈ ws, Interior ⟨width + 2, height + 2, setsize width height, mvs, life⟩ p.1) :
    MapOk ⟨width + 2, height + 2, ws.foldl (fun fl p => Function.update fl p.1 p.2) (setsize width height), mvs,
      life⟩ := by
  refine ⟨?_, hm⟩
  intro loc hl hn
  have key : ∀ (ws : List (Nat × Nat)) (fl : Nat → Nat), (∀ p ∈ ws, p.1 ≠ loc) →
      ws.foldl (fun fl p => Function.update fl p.1 p.2) fl loc = fl loc := by
    intro ws
    induction ws with
    | nil => intros; rfl
    | cons p ws ih =>
      intro fl h
      rw [List.foldl_cons, ih _ fun q hq => h q (List.mem_cons_of_mem _ hq),
        Function.update_of_ne (h p (List.mem_cons_self ..)).symm]
  refine (key ws _ ?_).trans ?_
  rotate_left
  · exact (c45_setsize width height mvs life loc hl).2 hn
  · rintro p hp rfl
    exact hn (hw p hp)

/-- **C45 (defined).** The test whether a move is applicable reads no flag out of range on an interior cell. -/
theorem c45_defined (hm : MapOk m) {loc : Nat} (hi : Interior m loc) {mv : Move} (h : mv ∈ m.mvs) :
    ∃ b, ok m loc mv = .ok b := by
  obtain ⟨b, h1, -⟩ := okLoop_ok hi (mvs_king hm h).1
  exact ⟨b, h1⟩

/-- **C45 (applicable).** A move is offered exactly if it is in the table and all the cells it checks may be entered. -/
theorem c45_ops (hm : MapOk m) {finish loc : Nat} (hi : Interior m loc) (op : Int) :
    op ∈ (dom m finish).ops loc ↔ 0 ≤ op ∧ ∃ mv, m.mvs[op.toNat]? = some mv ∧
      ∀ d ∈ mv.chk, Enter (m.flags loc) (m.flags ((loc : Int) + delta m d).toNat) := by
  rw [mem_ops]
  refine and_congr_right fun _ => exists_congr fun mv => and_congr_right fun h => ?_
  have hk := (mvs_king hm (List.mem_of_getElem? h)).1
  obtain ⟨b, h1, h2⟩ := okLoop_ok hi hk
  unfold ok
  rw [h1, Outcome.ok.injEq, h2]
  exact forall₂_congr fun d hd => flagsok_iff hi (hk d hd)

/-- **C45 (on the map).** An applicable move leads to the interior neighbour in its direction, which may be entered:
it is neither out of bounds nor a tree. -/
theorem c45_app (hm : MapOk m) {finish loc : Nat} (hi : Interior m loc) {op : Int}
    (ho : op ∈ (dom m finish).ops loc) :
    ∃ mv, m.mvs[op.toNat]? = some mv ∧ Interior m ((dom m finish).app loc op) ∧
      coord m ((dom m finish).app loc op) = ((coord m loc).1 + mv.dx, (coord m loc).2 + mv.dy) ∧
      Enter (m.flags loc) (m.flags ((dom m finish).app loc op)) := by
  obtain ⟨mv, h1, h2, -, h4, h5, -⟩ := app_ok hm hi ho
  refine ⟨mv, h1, h4, h5, ?_⟩
  obtain ⟨-, mv', g1, g2⟩ := (c45_ops hm hi op).1 ho
  obtain rfl : mv = mv' := Option.some.inj (h1.symm.trans g1)
  have := g2 _ (mvs_king hm h2).2.1
  simpa only [dom, h1] using this

/-- **C45 (corners).** With the octile moves a diagonal is taken only if both orthogonal neighbours on the way may be
entered. -/
theorem c45_corner (hm : m.mvs = octile) (hb : MapOk m) {finish loc : Nat} (hi : Interior m loc) {op : Int} {mv : Move}
    (ho : op ∈ (dom m finish).ops loc) (h : m.mvs[op.toNat]? = some mv) (hd : mv.dx ≠ 0 ∧ mv.dy ≠ 0) :
    Enter (m.flags loc) (m.flags ((loc : Int) + mv.dx).toNat) ∧
    Enter (m.flags loc) (m.flags ((loc : Int) + m.w * mv.dy).toNat) := by
  obtain ⟨-, mv', g1, g2⟩ := (c45_ops hb hi op).1 ho
  obtain rfl : mv = mv' := Option.some.inj (h.symm.trans g1)
  have hmem := List.mem_of_getElem? h
  have key : (mv.dx, 0) ∈ mv.chk ∧ (0, mv.dy) ∈ mv.chk := by
    rw [hm] at hmem
    simp only [octile, Move.mk', List.mem_cons, List.not_mem_nil, or_false] at hmem
    rcases hmem with rfl | rfl | rfl | rfl | rfl | rfl | rfl | rfl <;> simp at hd ⊢
  have h1 := g2 _ key.1
  have h2 := g2 _ key.2
  simp only [delta, mul_zero, add_zero, zero_add] at h1 h2
  exact ⟨h1, h2⟩

/-- **C45 (walks).** Every state reached from an interior cell is an interior cell. -/
theorem c45_walk (hm : MapOk m) {finish s t : Nat} {c : ℝ} (hi : Interior m s) (hw : Walk (dom m finish) s t c) :
    Interior m t :=
  hw.inv (I := Interior m) (fun _ h _ ho => by
    obtain ⟨_, _, _, _, h4, _⟩ := app_ok hm h ho
    exact h4) hi

/-- **C45 (reverse).** The assertion of `reverseops` holds: every move has an opposite; taking it leads back, and on
maps without life costs it costs the same. -/
theorem c45_reverse (hm : MapOk m) {finish loc : Nat} (hi : Interior m loc) {op : Int}
    (ho : op ∈ (dom m finish).ops loc) :
    (∃ j, revop m op.toNat = some j ∧ (dom m finish).rev loc op = j) ∧
    (dom m finish).app ((dom m finish).app loc op) ((dom m finish).rev loc op) = loc ∧
    (m.lifecost = false →
      (dom m finish).cost ((dom m finish).app loc op) ((dom m finish).rev loc op) = (dom m finish).cost loc op) := by
  obtain ⟨mv, h1, h2, h3, h4, h5, h6⟩ := app_ok hm hi ho
  obtain ⟨j, mv', r1, r2, r3, r4, r5⟩ := revop_ok hm h1
  have hrev : (dom m finish).rev loc op = j := by simp only [dom, r1]
  have hk : King (mv'.dx, mv'.dy) := by
    obtain ⟨-, -, k1, k2, k3, k4⟩ := mvs_king hm h2
    dsimp only at k1 k2 k3 k4
    refine ⟨?_, ?_, ?_, ?_⟩ <;> dsimp only <;> omega
  refine ⟨⟨j, r1, hrev⟩, ?_, ?_⟩
  · rw [hrev]
    have : (dom m finish).app ((dom m finish).app loc op) (j : Int) =
        (((dom m finish).app loc op : Int) + delta m (mv'.dx, mv'.dy)).toNat := by
      simp only [dom, Int.toNat_natCast, r2]
    rw [this]
    obtain ⟨-, -, g⟩ := step_coord h4 hk
    apply coord_inj (m := m)
    rw [g, h5, r3, r4]
    ext <;> dsimp only <;> ring
  · intro hl
    rw [hrev, h6]
    simp only [dom, Int.toNat_natCast, r2, r5, edgecost, hl]
    rfl

/-- **C45 (reverse cost, negative).** With life costs the `revcost` of an edge, which the code sets to `cost`, is wrong
for every move that changes the row. -/
theorem c45_life_revcost_wrong (hm : MapOk m) (hl : m.lifecost = true) {finish loc : Nat} (hi : Interior m loc)
    {op : Int} {mv : Move} (ho : op ∈ (dom m finish).ops loc) (h : m.mvs[op.toNat]? = some mv) (hy : mv.dy ≠ 0) :
    (dom m finish).cost ((dom m finish).app loc op) ((dom m finish).rev loc op) ≠ (dom m finish).cost loc op := by
  obtain ⟨mv0, h1, h2, h3, h4, h5, h6⟩ := app_ok hm hi ho
  obtain rfl : mv = mv0 := Option.some.inj (h.symm.trans h1)
  obtain ⟨j, mv', r1, r2, r3, r4, r5⟩ := revop_ok hm h1
  have hrev : (dom m finish).rev loc op = j := by simp only [dom, r1]
  rw [hrev, h6]
  have : (dom m finish).cost ((dom m finish).app loc op) (j : Int) =
      (edgecost m ((dom m finish).app loc op) mv.diag).val := by
    simp only [dom, Int.toNat_natCast, r2, r5]
  rw [this]
  unfold edgecost Cost.val
  rw [if_pos hl, if_pos hl, h5]
  dsimp only
  have hne : ((mv.dy : Int) : ℝ) ≠ 0 := by exact_mod_cast hy
  have g1 := one_le_sqrt
  cases mv.diag
  · rw [if_neg (by decide), if_neg (by decide)]
    push_cast
    intro hc
    apply hne
    linarith
  · rw [if_pos rfl, if_pos rfl]
    push_cast
    intro hc
    have : (mv.dy : ℝ) * Real.sqrt 2 = 0 := by linarith
    rcases mul_eq_zero.1 this with h | h
    · exact hne h
    · linarith

theorem domOk (hm : MapOk m) {finish s0 : Nat} (hi : Interior m s0) : DomOk (dom m finish) s0 :=
  DomOk.of_inv (I := Interior m) hi
    (fun _ h _ ho => by
      obtain ⟨_, _, _, _, h4, _⟩ := app_ok hm h ho
      exact h4)
    (fun s h op ho => by
      obtain ⟨mv, _, _, _, _, _, h6⟩ := app_ok hm h ho
      rw [h6]
      exact edgecost_nonneg h _)
    (fun s h op ho _ => (c45_reverse hm h ho).2.1)
    (fun s h ho => by
      have := (mem_ops.1 ho).1
      simp only [dom] at this
      omega)

/-! ## C46 -/

/-- **C46 (costs).** Two costs that the code compares as equal have the same value and conversely: comparing units and
square roots separately is exact. -/
theorem c46_cost_eq (a b : Cost) : a = b ↔ a.val = b.val := by
  refine ⟨fun h => by rw [h], fun h => ?_⟩
  unfold Cost.val at h
  have hs : a.sqrts = b.sqrts := by
    by_contra hc
    have hne : ((a.sqrts - b.sqrts : Int) : ℝ) ≠ 0 := by
      rw [Int.cast_ne_zero]
      omega
    refine irrational_sqrt_two ⟨(b.units - a.units : Int) / (a.sqrts - b.sqrts : Int), ?_⟩
    push_cast at hne ⊢
    rw [div_eq_iff hne]
    linarith
  rw [hs] at h
  have hu : (a.units : ℝ) = b.units := by linarith
  cases a; cases b
  simp only [Cost.mk.injEq]
  exact ⟨by exact_mod_cast hu, hs⟩

/-- **C46 (consistent).** One move lowers the heuristic by at most its cost, on every map. -/
theorem c46_consistent (hm : MapOk m) {finish loc : Nat} (hf : Interior m finish) (hi : Interior m loc) {op : Int}
    (ho : op ∈ (dom m finish).ops loc) :
    hval m finish loc ≤ (dom m finish).cost loc op + hval m finish ((dom m finish).app loc op) :=
  consistent hm hf hi ho

/-- **C46 (goal).** At the goal the heuristic is zero, except on four-way maps with life costs whose goal is in the
last row: there it is minus one. -/
theorem c46_goal {finish : Nat} (hf : Interior m finish) :
    hval m finish finish =
      if m.mvs.length ≤ 4 ∧ m.lifecost = true ∧ finish / m.w + 2 = m.h then -1 else 0 := by
  have i3 := (interior_iff finish).1 hf
  have hco : (coord m finish).2 = ((finish / m.w : Nat) : Int) := rfl
  unfold hval computeh
  by_cases hlen : m.mvs.length > 4
  · rw [if_neg (show ¬ (m.mvs.length ≤ 4 ∧ m.lifecost = true ∧ finish / m.w + 2 = m.h) from
      fun h => absurd h.1 (by omega))]
    cases hl : m.lifecost
    · rw [if_pos ⟨hlen, rfl⟩]
      simp [octiledist, Cost.val]
    · rw [if_neg (by simp), if_pos ⟨hlen, rfl⟩]
      simp [life8cheap, Cost.val, costfrom, sumbetween]
  · cases hl : m.lifecost
    · rw [if_neg (by omega), if_neg (by simp), if_neg (by simp), if_neg (by simp)]
      simp [manhattan, Cost.val]
    · rw [if_neg (by simp), if_neg (by omega), if_pos ⟨by omega, rfl⟩]
      have q := life4_val (m := m) (l0 := finish) (l1 := finish) _ _ _ rfl rfl rfl (by omega) (by omega)
      generalize hG : (m.h : Int) - (coord m finish).2 - 2 = G at q
      unfold Cost.val
      dsimp only
      have hG0 : 0 ≤ G := by omega
      by_cases hlast : finish / m.w + 2 = m.h
      · rw [if_pos ⟨by omega, rfl, hlast⟩]
        obtain rfl : G = 0 := by omega
        simp [F] at q
        have : (life4cheap m finish finish).1 = -1 := by omega
        rw [this]; norm_num
      · rw [if_neg (by tauto)]
        have hG1 : 1 ≤ G := by omega
        have e : min (F G G (min G G) |(coord m finish).1 - (coord m finish).1|) (F G G 0 0 - 2) = 0 := by
          rw [sub_self, abs_zero, min_self, min_eq_left]
          · unfold F; ring
          · unfold F; nlinarith
        rw [e] at q
        have : (life4cheap m finish finish).1 = 0 := by omega
        rw [this]; norm_num

theorem admissible (hm : MapOk m) {finish s0 : Nat} (hf : Interior m finish) (hi : Interior m s0) :
    Admissible (dom m finish) s0 (hval m finish) (hval m finish finish) :=
  Admissible.of_consistent (I := Interior m) hi
    (fun _ h _ ho => by
      obtain ⟨_, _, _, _, h4, _⟩ := app_ok hm h ho
      exact h4)
    (fun s h op ho => consistent hm hf h ho)
    (fun s h hg => by
      simp only [dom, decide_eq_true_eq] at hg
      rw [hg])

/-- **C46 (admissible).** On every map, for every start and goal, the heuristic never exceeds the cost of a plan. -/
theorem c46_admissible (hm : MapOk m) {finish s : Nat} (hf : Interior m finish) (hi : Interior m s)
    {ops : List Int} {ss : List Nat} {c : ℝ} (hp : Plan (dom m finish) s ops ss c)
    (hg : (s :: ss).getLast? = some finish) : hval m finish s ≤ c := by
  have h1 := (hp.last_walk hg).consistent (I := Interior m)
    (fun _ h _ ho => by
      obtain ⟨_, _, _, _, h4, _⟩ := app_ok hm h ho
      exact h4)
    (fun s h op ho => consistent hm hf h ho) hi
  have h2 := c46_goal (m := m) hf
  have h3 : hval m finish finish ≤ 0 := by
    rw [h2]
    split <;> norm_num
  linarith

/-- **C46 (A\*).** On every map A\* with this heuristic returns a cheapest path. -/
theorem c46_astar (hm : MapOk m) {finish s0 : Nat} (hf : Interior m finish) (hi : Interior m s0) {l : Limit}
    {st : St Nat Int ℝ ℝ} {r : List Nat × List Int}
    (hr : Run (dom m finish) (astar (hval m finish)) s0 l st r) (hne : r ≠ ([], [])) :
    ∃ c, Solution (dom m finish) s0 r c ∧ ∀ ops ss t c', Plan (dom m finish) s0 ops ss c' →
      (s0 :: ss).getLast? = some t → (dom m finish).goal t = true → c ≤ c' :=
  c30_optimal (domOk hm hi).undo (admissible hm hf hi) hr hne

/-! ## Concrete cases -/

/-- A 3 by 2 map with a tree in the middle of its first row. -/
def ex (mvs : List Move) (life : Bool) : GMap :=
  ⟨5, 4, [(7, Tree)].foldl (fun fl p => Function.update fl p.1 p.2) (setsize 3 2), mvs, life⟩

theorem ex_ok (mvs : List Move) (life : Bool) (h : mvs = octile ∨ mvs = eightway ∨ mvs = fourway) : MapOk (ex mvs life) :=
  c45_map 3 2 [(7, Tree)] mvs life h (by simp [Interior])

example : Interior (ex octile false) 6 ∧ Interior (ex octile false) 8 := by simp [Interior, ex]

/-- The eight-way moves cut the corner at the tree, the octile moves do not. -/
example : ok (ex eightway false) 6 (.mk' 1 1 []) = .ok true ∧
    ok (ex octile false) 6 (.mk' 1 1 [(1, 0), (0, 1)]) = .ok false ∧
    ok (ex octile false) 6 (.mk' 0 1 []) = .ok true := by decide

example : (octiledist (ex octile false) 6 13).1 = ⟨1, 1⟩ := by decide
example : (life4cheap (ex fourway true) 6 8).1 = 0 := by decide
example : (life4cheap (ex fourway true) 6 13).1 = 0 ∧ (life4cheap (ex fourway true) 13 13).1 = -1 := by decide
example : (life8cheap (ex eightway true) 6 8).1 = 1 := by decide

end Verif.GridNav
