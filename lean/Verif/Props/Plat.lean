import Verif.Domains.PlatRead
import Verif.Props.Geom2d
import Verif.Utils.HashBytes

/-!
# C87–C91: the platform game

* C87: in a closed level the player never gets into a wall and nothing is read outside of the level.
* C88: the distance of a frame is within the limits that `Edge` asserts.
* C89: packed states, equality, hash, operators, reverse operators.
* C90: the heuristic in sight of the goal.
* C91: level files, start and goal.
-/

namespace Verif.Plat

open Verif.Geom

/-! ## Runs -/

/-- The frames of the given actions. -/
def run (T : Tol ℚ) (L : Lvl) (fuel : Nat) : Player → List Nat → Outcome Player
  | p, [] => .ok p
  | p, a :: as => (act T L fuel p a).bind fun q => run T L fuel q as

/-- The same through the search's edges, with their assertions. -/
def runE (T : Tol ℚ) (L : Lvl) (fuel : Nat) : Player → List Nat → Outcome Player
  | p, [] => .ok p
  | p, a :: as => (edge T L fuel p a).bind fun r => runE T L fuel r.1 as

/-! ## C91: level files -/

/-- C91: what the characters of a level file stand for. -/
theorem c91_tiles (c : Char) :
    ((tileOf c.toNat).isSome ↔ c ∈ [' ', '#', 'w', 'd', 'D', 'u', 'U']) ∧
    ∀ t, tileOf c.toNat = some t → (t.collide = true ↔ c = '#') ∧ (t.water = true ↔ c ∈ ['w', 'D', 'U']) ∧
      (t.down = true ↔ c ∈ ['d', 'D']) ∧ (t.up = true ↔ c ∈ ['u', 'U']) := by
  have key : ∀ d : Char, c.toNat = d.toNat ↔ c = d := fun d =>
    ⟨fun h => Char.ext (UInt32.toNat_inj.1 h), fun h => by rw [h]⟩
  have h1 := key ' '; have h2 := key '#'; have h3 := key 'w'; have h4 := key 'd'; have h5 := key 'D'
  have h6 := key 'u'; have h7 := key 'U'
  have e : ∀ n d, (c.toNat = n ↔ c = d) → (c.toNat = n) = (c = d) := fun n d h => propext h
  have e1 := e 32 _ h1; have e2 := e 35 _ h2; have e3 := e 119 _ h3; have e4 := e 100 _ h4; have e5 := e 68 _ h5
  have e6 := e 117 _ h6; have e7 := e 85 _ h7
  unfold tileOf
  simp only [e1, e2, e3, e4, e5, e6, e7]
  constructor
  · split_ifs <;> simp_all
  · intro t ht
    split_ifs at ht with g1 g2 g3 g4 g5 g6 g7 <;> (injection ht with ht; subst ht) <;>
      first | subst g1 | subst g2 | subst g3 | subst g4 | subst g5 | subst g6 | subst g7
    all_goals simp
    all_goals decide

/-- C91: a file is a level exactly if it has depth one, fewer than 2^32 tiles, and then as many rows of tiles as
announced, each of the announced length and ended by a line break; the tile at column `x` of row `y` is the `x`-th
character of row `y`. -/
theorem c91_read (d w h : Nat) (cs : List Nat) (L : Lvl) :
    read d w h cs = .ok L ↔
      d = 1 ∧ w * h < 2 ^ 32 ∧ L.w = w ∧ L.h = h ∧ L.blks.length = w * h ∧
      ∃ rows rest, cs = text rows ++ rest ∧ rows.length = h ∧ (∀ r ∈ rows, Row w r) ∧
        ∀ x y, x < w → y < h → L.blks[x * h + y]? = (rows.getD y [])[x]? := by
  unfold read
  constructor
  · intro hr
    split_ifs at hr with h1 h2
    push Not at h1
    cases cs with
    | nil => simp at hr
    | cons c cs =>
      simp only at hr
      split_ifs at hr with h3
      push Not at h3
      simp only [Outcome.map_eq_ok] at hr
      obtain ⟨rows, h4, rfl⟩ := hr
      obtain ⟨rest, h5, h6, h7⟩ := (readRows_iff _ _ _ _).1 h4
      refine ⟨h1, h2, rfl, rfl, columns_length (fun x y => (rows.getD y []).getD x 0) w h, rows, rest, ?_, h6, h7, ?_⟩
      · rw [h3, h5]; simp [text]
      · intro x y hx hy
        rw [columns_get (fun x y => (rows.getD y []).getD x 0) hx hy]
        have hy' : y < rows.length := by omega
        have hl : rows.getD y [] = rows[y] := by simp [List.getD_eq_getElem?_getD, hy']
        have hx' : x < rows[y].length := by rw [(h7 _ (List.getElem_mem hy')).1]; exact hx
        rw [hl]
        simp [List.getD_eq_getElem?_getD, hx']
  · rintro ⟨rfl, h2, h3, h4, hlen, rows, rest, rfl, h5, h6, h7⟩
    rw [if_neg (by simp), if_neg (by simpa using h2)]
    have : readRows w h ((rows.flatMap fun r => r ++ [10]) ++ rest) = .ok rows :=
      (readRows_iff _ _ _ _).2 ⟨rest, rfl, h5, h6⟩
    simp only [text, List.cons_append, ne_eq, not_true, if_false, this, Outcome.map_ok, Outcome.ok.injEq]
    obtain ⟨Lw, Lh, Lb⟩ := L
    simp only at h3 h4 hlen h7 ⊢
    subst h3 h4
    congr 1
    apply List.ext_getElem?
    intro k
    by_cases hk : k < Lw * Lh
    · have hpos : 0 < Lh := by
        rcases Nat.eq_zero_or_pos Lh with e | e
        · rw [e] at hk; simp at hk
        · exact e
      have ex : k / Lh < Lw := Nat.div_lt_of_lt_mul (by rw [Nat.mul_comm]; exact hk)
      have ey : k % Lh < Lh := Nat.mod_lt _ hpos
      have ek : k = k / Lh * Lh + k % Lh := (Nat.div_add_mod' k Lh).symm
      rw [ek, columns_get (fun x y => (rows.getD y []).getD x 0) ex ey, h7 _ _ ex ey]
      have hy' : k % Lh < rows.length := by omega
      have hl : rows.getD (k % Lh) [] = rows[k % Lh] := by simp [List.getD_eq_getElem?_getD, hy']
      have hx' : k / Lh < rows[k % Lh].length := by rw [(h6 _ (List.getElem_mem hy')).1]; exact ex
      rw [hl]
      simp [List.getD_eq_getElem?_getD, hx']
    · rw [List.getElem?_eq_none (by rw [columns_length]; omega), List.getElem?_eq_none (by omega)]

/-- C91: a level that was read is complete and has only tiles. -/
theorem c91_complete {d w h : Nat} {cs : List Nat} {L : Lvl} (hr : read d w h cs = .ok L) : L.Ok := by
  obtain ⟨-, -, rfl, rfl, hlen, rows, rest, -, h5, h6, h7⟩ := (c91_read d w h cs L).1 hr
  refine ⟨hlen, fun c hc => ?_⟩
  obtain ⟨k, hk, rfl⟩ := List.getElem_of_mem hc
  have hpos : 0 < L.h := by
    rcases Nat.eq_zero_or_pos L.h with e | e
    · rw [hlen, e] at hk; simp at hk
    · exact e
  have ex : k / L.h < L.w := Nat.div_lt_of_lt_mul (by rw [Nat.mul_comm, ← hlen]; exact hk)
  have ey : k % L.h < L.h := Nat.mod_lt _ hpos
  have hy' : k % L.h < rows.length := by omega
  have hl : rows.getD (k % L.h) [] = rows[k % L.h] := by simp [List.getD_eq_getElem?_getD, hy']
  have hx' : k / L.h < rows[k % L.h].length := by rw [(h6 _ (List.getElem_mem hy')).1]; exact ex
  have e := h7 _ _ ex ey
  rw [Nat.div_add_mod' k L.h, hl, List.getElem?_eq_getElem hk, List.getElem?_eq_getElem hx'] at e
  injection e with e
  rw [e]
  exact (h6 _ (List.getElem_mem hy')).2 _ (List.getElem_mem hx')

/-- C91, first part, for levels that are not taller than wide: the constructor accepts exactly the levels with one goal
and one start, and finds them. -/
theorem c91_ends_partial {L : Lvl} (hL : L.Ok) (hwh : L.h ≤ L.w) (g s : Nat × Nat) :
    ends L = .ok (g, s) ↔
      ((g.1 < L.w ∧ g.2 < L.h) ∧ ∀ x y, x < L.w → y < L.h → (downAt L (x, y) = true ↔ (x, y) = g)) ∧
      ((s.1 < L.w ∧ s.2 < L.h) ∧ ∀ x y, x < L.w → y < L.h → (upAt L (x, y) = true ↔ (x, y) = s)) := by
  have hpl : ∀ p ∈ Places L, p.1 < L.w ∧ p.2 < L.h := fun p hp => mem_Places.1 hp
  have hl := endLoop_spec hL hwh (Places L) none none hpl (by intro g h; simp at h) (by intro g h; simp at h)
  change _ = if ((Places L).filter (downAt L)).length ≤ 1 ∧ ((Places L).filter (upAt L)).length ≤ 1 then
    Outcome.ok (mkE L ((Places L).filter (downAt L)).head? ((Places L).filter (upAt L)).head?) else .fatal at hl
  have key : ends L = .ok (g, s) ↔ (Places L).filter (downAt L) = [g] ∧ (Places L).filter (upAt L) = [s] := by
    unfold ends
    have e0 : (⟨L.w, L.h, L.w, L.h⟩ : Ends) = mkE L none none := rfl
    rw [e0]
    change (endLoop L (Places L) (mkE L none none)).bind _ = _ ↔ _
    rw [hl]
    have hmem : ∀ P q, q ∈ (Places L).filter P → q.1 < L.w ∧ q.2 < L.h :=
      fun P q hq => hpl q (List.mem_filter.1 hq).1
    by_cases hc : ((Places L).filter (downAt L)).length ≤ 1 ∧ ((Places L).filter (upAt L)).length ≤ 1
    · rw [if_pos hc, Outcome.bind_ok]
      have m1 := hmem (downAt L)
      have m2 := hmem (upAt L)
      generalize (Places L).filter (downAt L) = D at *
      generalize (Places L).filter (upAt L) = U at *
      obtain ⟨c1, c2⟩ := hc
      rcases D with _ | ⟨d, _ | ⟨d2, D⟩⟩
      · simp [mkE]
      · obtain ⟨k1, k2⟩ := m1 d (by simp)
        rcases U with _ | ⟨u, _ | ⟨u2, U⟩⟩
        · simp [mkE]
        · obtain ⟨k3, k4⟩ := m2 u (by simp)
          simp [mkE, k1, k2, k3, k4, Nat.not_le.2]
        · simp at c2
      · simp at c1
    · rw [if_neg hc]
      constructor
      · intro h; simp at h
      · rintro ⟨e1, e2⟩
        exfalso; apply hc; rw [e1, e2]; simp
  rw [key, filter_eq_singleton (Places_nodup L), filter_eq_singleton (Places_nodup L)]
  simp only [mem_Places]
  constructor
  · rintro ⟨⟨h1, h2⟩, h3, h4⟩
    exact ⟨⟨h1, fun x y hx hy => h2 (x, y) ⟨hx, hy⟩⟩, h3, fun x y hx hy => h4 (x, y) ⟨hx, hy⟩⟩
  · rintro ⟨⟨h1, h2⟩, h3, h4⟩
    exact ⟨⟨h1, fun b hb => h2 b.1 b.2 hb.1 hb.2⟩, h3, fun b hb => h4 b.1 b.2 hb.1 hb.2⟩

/-- C91, what is wrong: a level that is taller than wide is never accepted.  Its only start is reported as one of
several, because the test compares the column with the height. -/
theorem c91_tall_rejected {L : Lvl} (hL : L.Ok) (hwh : L.w < L.h) : ends L = .fatal := by
  unfold ends
  change (endLoop L (Places L) _).bind _ = _
  rcases endLoop_tall hL hwh (Places L) ⟨L.w, L.h, L.w, L.h⟩ (fun p hp => mem_Places.1 hp) rfl with h | ⟨e, h, he⟩
  · rw [h]; rfl
  · rw [h, Outcome.bind_ok]
    split_ifs with h1 h2
    · rfl
    · rfl
    · push Not at h2; omega

theorem ends_start {L : Lvl} (hL : L.Ok) {g s : Nat × Nat} (h : ends L = .ok (g, s)) :
    s.1 < L.w ∧ s.2 < L.h ∧ ∃ t, L.at s.1 s.2 = .ok t ∧ t.up = true := by
  have hwh : L.h ≤ L.w := by
    by_contra hc
    rw [c91_tall_rejected hL (by omega)] at h
    simp at h
  obtain ⟨-, ⟨h1, h2⟩, h3⟩ := (c91_ends_partial hL hwh g s).1 h
  have := (h3 s.1 s.2 h1 h2).2 rfl
  obtain ⟨t, ht⟩ := hL.at h1 h2
  exact ⟨h1, h2, t, ht, by simpa [upAt, ht] using this⟩

theorem tileOf_up {c : Nat} {t : Tile} (h : tileOf c = some t) (hu : t.up = true) : t.collide = false := by
  unfold tileOf at h
  split_ifs at h <;> (injection h with h; subst h; simp_all)

theorem at_up {L : Lvl} {x y : Nat} {t : Tile} (h : L.at x y = .ok t) (hu : t.up = true) : t.collide = false := by
  unfold Lvl.at at h
  cases hc : L.blks[x * L.h + y]? with
  | none => rw [hc] at h; simp at h
  | some c =>
    rw [hc] at h
    simp only [tiles] at h
    split_ifs at h
    cases ht : tileOf c with
    | none => rw [ht] at h; simp at h
    | some t' =>
      rw [ht] at h
      injection h with h
      subst h
      exact tileOf_up ht hu

/-- The initial state satisfies the invariant. -/
theorem initial_good {L : Lvl} (hL : L.Ok) {m top : ℚ} (hg : Grid L m top) {g s : Nat × Nat}
    (h : ends L = .ok (g, s)) : Good L m top (initial s) := by
  obtain ⟨h1, h2, t, ht, hu⟩ := ends_start hL h
  have hc := at_up ht hu
  have hw : (s.1 : ℚ) + 1 ≤ L.w := by exact_mod_cast h1
  have hh : (s.2 : ℚ) + 1 ≤ L.h := by exact_mod_cast h2
  have n1 : (0 : ℚ) ≤ s.1 := Nat.cast_nonneg _
  have n2 : (0 : ℚ) ≤ s.2 := Nat.cast_nonneg _
  refine ⟨⟨⟨rfl, rfl⟩, ⟨?_, ?_, ?_, ?_⟩, ?_⟩, Nat.zero_le _, by simp [initial], ?_, ?_, ?_, ?_⟩
  · simp only [initial]; linarith
  · simp only [initial]; linarith
  · simp only [initial]; linarith
  · simp only [initial]; linarith
  · rintro i j ⟨hi, hj, t', ht', hc'⟩ ⟨o1, o2, o3, o4⟩
    simp only [initial] at o1 o2 o3 o4
    have e1 : (s.1 : ℚ) < i + 1 := by linarith
    have e2 : (i : ℚ) < s.1 + 1 := by linarith
    have e3 : (s.2 : ℚ) < j + 1 := by linarith
    have e4 : (j : ℚ) < s.2 + 1 := by linarith
    have f1 : s.1 < i + 1 := by exact_mod_cast e1
    have f2 : i < s.1 + 1 := by exact_mod_cast e2
    have f3 : s.2 < j + 1 := by exact_mod_cast e3
    have f4 : j < s.2 + 1 := by exact_mod_cast e4
    have : i = s.1 := by omega
    have : j = s.2 := by omega
    subst i j
    rw [ht] at ht'
    injection ht' with e
    subst e
    rw [hc] at hc'
    simp at hc'
  · simp only [initial]; linarith [hg.top]
  · exact ⟨40 * (32 * s.1 + 7), by simp only [initial]; push_cast; ring⟩
  · have := hg.whole.lat (⟨32 * s.2 + 2, by push_cast; ring⟩ : Whole (32 * (s.2 : ℚ) + 2))
    exact this
  · have := lat_int m hg.whole 0
    simpa [initial] using this

/-! ## C87: the player stays out of the walls -/

theorem run_good (T : Tol ℚ) {L : Lvl} (hL : Closed L) {m top : ℚ} (hg : Grid L m top) (htop : top ≤ 13) {fuel : Nat}
    (hf : 15 ≤ fuel) : ∀ (as : List Nat) (p : Player), Good L m top p →
    ∃ q, run T L fuel p as = .ok q ∧ Good L m top q := by
  intro as
  induction as with
  | nil => intro p h; exact ⟨p, rfl, h⟩
  | cons a as ih =>
    intro p h
    obtain ⟨q, h1, h2, -⟩ := act_spec T hL hg htop h hf a
    obtain ⟨r, h3, h4⟩ := ih q h2
    exact ⟨r, by rw [run, h1, Outcome.bind_ok, h3], h4⟩

/-- C87: in a level surrounded by walls, whatever buttons are pressed for however long, every frame can be computed
(nothing outside of the level is read, the loop over the pixels ends), and the player is inside of the level and has no
part in a solid tile. -/
theorem c87_walls (T : Tol ℚ) {L : Lvl} (hL : Closed L) {g s : Nat × Nat} (hs : ends L = .ok (g, s)) (as : List Nat) :
    ∃ q, run T L 15 (initial s) as = .ok q ∧ Sized q.body.bbox ∧ Inside L q.body.bbox ∧ Clear L q.body.bbox ∧
      (∃ b, isgoal L g q = .ok b) := by
  obtain ⟨q, h1, h2⟩ := run_good T hL (grid_wet L) (by norm_num) (le_refl 15) as _ (initial_good hL.toOk (grid_wet L) hs)
  obtain ⟨bi, hb⟩ := h2.inn.major hL
  exact ⟨q, h1, h2.inn.sized, h2.inn.inside, h2.inn.clear, _, by rw [isgoal, hb]; rfl⟩

/-- C87: no matter how many iterations beyond 15 the loop over the pixels is given, the result is the same. -/
theorem c87_fuel (T : Tol ℚ) {L : Lvl} (hL : Closed L) {g s : Nat × Nat} (hs : ends L = .ok (g, s)) (as : List Nat)
    {fuel : Nat} (hf : 15 ≤ fuel) : run T L fuel (initial s) as = run T L 15 (initial s) as := by
  have mono : ∀ (n : Nat) (x y : ℚ) (st st' : Mv), moveLoop T L x y n st = .ok st' →
      ∀ k, n ≤ k → moveLoop T L x y k st = .ok st' := by
    intro n x y
    induction n with
    | zero => intro st st' h; simp [moveLoop] at h
    | succ n ih =>
      intro st st' h k hk
      obtain ⟨k, rfl⟩ : ∃ k', k = k' + 1 := ⟨k - 1, by omega⟩
      rw [moveLoop] at h ⊢
      split_ifs at h ⊢ with hc
      · obtain ⟨s1, e1, e2⟩ := Outcome.bind_eq_ok.1 h
        rw [e1, Outcome.bind_ok]
        exact ih _ _ e2 k (by omega)
      · exact h
  have monoA : ∀ (p q : Player) (a : Nat), act T L 15 p a = .ok q → act T L fuel p a = .ok q := by
    intro p q a h
    unfold act at h ⊢
    obtain ⟨dx, e1, e2⟩ := Outcome.bind_eq_ok.1 h
    simp only [e1, Outcome.bind_ok] at e2 ⊢
    obtain ⟨b, e3, e4⟩ := Outcome.map_eq_ok.1 e2
    unfold Body.move at e3 ⊢
    obtain ⟨st, e5, e6⟩ := Outcome.bind_eq_ok.1 e3
    rw [mono _ _ _ _ _ e5 fuel hf, Outcome.bind_ok, e6, Outcome.map_ok, e4]
  have monoR : ∀ (as : List Nat) (p q : Player), run T L 15 p as = .ok q → run T L fuel p as = .ok q := by
    intro as
    induction as with
    | nil => intro p q h; exact h
    | cons a as ih =>
      intro p q h
      rw [run] at h ⊢
      obtain ⟨r, e1, e2⟩ := Outcome.bind_eq_ok.1 h
      rw [monoA _ _ _ e1, Outcome.bind_ok]
      exact ih _ _ e2
  obtain ⟨q, h1, -⟩ := run_good T hL (grid_wet L) (by norm_num) (le_refl 15) as _ (initial_good hL.toOk (grid_wet L) hs)
  rw [h1]
  exact monoR _ _ _ h1

/-! ## C88: how far a frame goes -/

/-- C88: a frame moves the player by at most 3 1/4 pixels sideways and 12 1/4 pixels up or down; speeds stay between
−8 and 12 1/4. -/
theorem c88_distance (T : Tol ℚ) {L : Lvl} (hL : Closed L) {g s : Nat × Nat} (hs : ends L = .ok (g, s)) (as : List Nat)
    (a : Nat) {p : Player} (hp : run T L 15 (initial s) as = .ok p) :
    ∃ q, act T L 15 p a = .ok q ∧
      |(center q.body.bbox).x - (center p.body.bbox).x| ≤ 13 / 4 ∧
      |(center q.body.bbox).y - (center p.body.bbox).y| ≤ 49 / 4 ∧ -8 ≤ q.body.dy ∧ q.body.dy ≤ 49 / 4 ∧
      q.jframes ≤ 8 := by
  obtain ⟨p', h1, h2⟩ := run_good T hL (grid_wet L) (by norm_num) (le_refl 15) as _ (initial_good hL.toOk (grid_wet L) hs)
  rw [hp] at h1
  injection h1 with h1
  subst h1
  obtain ⟨q, q1, q2, q3, q4⟩ := act_spec T hL (grid_wet L) (by norm_num) h2 (le_refl 15) a
  obtain ⟨c1, c2⟩ := chngjmp_spec (grid_wet L) h2 a
  have ex : (center q.body.bbox).x - (center p.body.bbox).x = q.body.bbox.min.x - p.body.bbox.min.x := by
    simp only [center, q2.inn.sized.1, h2.inn.sized.1]; ring
  have ey : (center q.body.bbox).y - (center p.body.bbox).y = q.body.bbox.min.y - p.body.bbox.min.y := by
    simp only [center, q2.inn.sized.2, h2.inn.sized.2]; ring
  refine ⟨q, q1, by rw [ex]; exact q3, ?_, q2.lo, q2.hi, q2.jf⟩
  rw [ey]
  refine q4.trans (abs_le.2 ⟨by linarith [c1.lo], c1.hi⟩)

/-- The assertions of an edge out of a state with the invariant. -/
theorem edge_good (T : Tol ℚ) {L : Lvl} (hL : Closed L) {m top : ℚ} (hg : Grid L m top) (htop : top ≤ 13) {p : Player}
    (h : Good L m top p) {a : Nat} (ha : a ≠ 0) :
    ∃ q, act T L 15 p a = .ok q ∧ Good L m top q ∧
      (|q.body.bbox.min.y - p.body.bbox.min.y| ≤ 12 → ∃ r, edge T L 15 p a = .ok (q, r)) ∧
      (¬ |q.body.bbox.min.y - p.body.bbox.min.y| ≤ 12 → edge T L 15 p a = .fatal) ∧
      |q.body.bbox.min.y - p.body.bbox.min.y| ≤ max 8 top := by
  obtain ⟨q, q1, q2, q3, q4⟩ := act_spec T hL hg htop h (le_refl 15) a
  obtain ⟨c1, c2⟩ := chngjmp_spec hg h a
  have ex : (center p.body.bbox).x - (center q.body.bbox).x = p.body.bbox.min.x - q.body.bbox.min.x := by
    simp only [center, q2.inn.sized.1, h.inn.sized.1]; ring
  have ey : (center p.body.bbox).y - (center q.body.bbox).y = p.body.bbox.min.y - q.body.bbox.min.y := by
    simp only [center, q2.inn.sized.2, h.inn.sized.2]; ring
  have hx : |(center p.body.bbox).x - (center q.body.bbox).x| ≤ maxx := by
    rw [ex, abs_sub_comm]; exact q3
  have hm : maxy = 12 := by unfold maxy; norm_num
  refine ⟨q, q1, q2, ?_, ?_, ?_⟩
  · intro k
    rw [edge, q1, Outcome.bind_ok]
    dsimp only
    rw [if_neg (by simp [ha]), if_neg (by rw [not_not]; exact hx), if_neg (by rw [not_not, ey, abs_sub_comm, hm]; exact k)]
    exact ⟨_, rfl⟩
  · intro k
    rw [edge, q1, Outcome.bind_ok]
    dsimp only
    rw [if_neg (by simp [ha]), if_neg (by rw [not_not]; exact hx), if_pos (by rw [ey, abs_sub_comm, hm]; exact k)]
  · refine q4.trans (abs_le.2 ⟨?_, c1.hi.trans (le_max_right _ _)⟩)
    have := le_max_left (8 : ℚ) top
    linarith [c1.lo]

/-- C88 for levels without water: the assertions of the search hold on every edge, along every sequence of actions. -/
theorem c88_dry_partial (T : Tol ℚ) {L : Lvl} (hL : Closed L) (hd : Dry L) {g s : Nat × Nat} (hs : ends L = .ok (g, s)) :
    ∀ as : List Nat, (∀ a ∈ as, a ≠ 0) → ∃ q, runE T L 15 (initial s) as = .ok q := by
  have key : ∀ (as : List Nat) (p : Player), Good L 2 12 p → (∀ a ∈ as, a ≠ 0) → ∃ q, runE T L 15 p as = .ok q := by
    intro as
    induction as with
    | nil => intro p _ _; exact ⟨p, rfl⟩
    | cons a as ih =>
      intro p h ha
      obtain ⟨q, -, q2, q3, -, q5⟩ := edge_good T hL (grid_dry hd) (by norm_num) h (ha a (by simp))
      obtain ⟨r, hr⟩ := q3 (q5.trans (by norm_num))
      obtain ⟨q', hq'⟩ := ih q q2 (fun b hb => ha b (List.mem_cons_of_mem _ hb))
      exact ⟨q', by rw [runE, hr, Outcome.bind_ok, hq']⟩
  exact fun as ha => key as _ (initial_good hL.toOk (grid_dry hd) hs) ha

/-- C88 with water: the only assertion that can fail is the one on the vertical distance, and it fails exactly on a
frame of more than 12 pixels. -/
theorem c88_wet_partial (T : Tol ℚ) {L : Lvl} (hL : Closed L) {g s : Nat × Nat} (hs : ends L = .ok (g, s))
    (as : List Nat) {a : Nat} (ha : a ≠ 0) {p : Player} (hp : run T L 15 (initial s) as = .ok p) :
    ∃ q, act T L 15 p a = .ok q ∧
      (edge T L 15 p a = .fatal ∧ 12 < |q.body.bbox.min.y - p.body.bbox.min.y| ∨
       ∃ r, edge T L 15 p a = .ok (q, r) ∧ |q.body.bbox.min.y - p.body.bbox.min.y| ≤ 12) := by
  obtain ⟨p', h1, h2⟩ := run_good T hL (grid_wet L) (by norm_num) (le_refl 15) as _ (initial_good hL.toOk (grid_wet L) hs)
  rw [hp] at h1
  injection h1 with h1
  subst h1
  obtain ⟨q, q1, -, q3, q4, -⟩ := edge_good T hL (grid_wet L) (by norm_num) h2 ha
  refine ⟨q, q1, ?_⟩
  by_cases hc : |q.body.bbox.min.y - p.body.bbox.min.y| ≤ 12
  · obtain ⟨r, hr⟩ := q3 hc
    exact .inr ⟨r, hr, hc⟩
  · exact .inl ⟨q4 hc, not_le.1 hc⟩

/-! ## Levels to test with -/

/-- Checks whether a level is closed. -/
def closedB (L : Lvl) : Bool :=
  let solid := fun i j => match L.at i j with | .ok t => t.collide | _ => false
  decide (L.blks.length = L.w * L.h) && L.blks.all (fun c => (tileOf c).isSome) && decide (0 < L.w) && decide (0 < L.h) &&
  (List.range L.h).all (fun j => solid 0 j && solid (L.w - 1) j) &&
  (List.range L.w).all (fun i => solid i 0 && solid i (L.h - 1)) && decide (32 * L.w < 2 ^ 32 ∧ 32 * L.h < 2 ^ 32)

theorem closed_of {L : Lvl} (h : closedB L = true) : Closed L := by
  simp only [closedB, Bool.and_eq_true, decide_eq_true_eq, List.all_eq_true, List.mem_range] at h
  obtain ⟨⟨⟨⟨⟨⟨h1, h2⟩, h3⟩, h4⟩, h5⟩, h6⟩, h7⟩ := h
  have key : ∀ i j, i < L.w → j < L.h → (match L.at i j with | .ok t => t.collide | _ => false) = true → Solid L i j := by
    intro i j hi hj h
    refine ⟨hi, hj, ?_⟩
    cases ha : L.at i j with
    | ok t => rw [ha] at h; exact ⟨t, rfl, h⟩
    | fatal => rw [ha] at h; simp at h
    | ub => rw [ha] at h; simp at h
    | nofuel => rw [ha] at h; simp at h
  exact ⟨⟨h1, h2⟩, fun j hj => key _ _ h3 hj (h5 j hj).1, fun j hj => key _ _ (by omega) hj (h5 j hj).2,
    fun i hi => key _ _ hi h4 (h6 i hi).1, fun i hi => key _ _ hi (by omega) (h6 i hi).2, h7⟩

/-- A room of three tiles: start, nothing, goal. -/
def room : Lvl := ⟨5, 3, [35, 35, 35, 35, 117, 35, 35, 32, 35, 35, 100, 35, 35, 35, 35]⟩

/-- A shaft with one tile of water in it, three tiles below the start; next to it an empty hall with the goal. -/
def shaft : Lvl :=
  ⟨12, 12, List.replicate 12 35 ++ ([35, 117, 32, 32, 119] ++ List.replicate 6 32 ++ [35]) ++ List.replicate 12 35 ++
    (List.replicate 7 ([35] ++ List.replicate 10 32 ++ [35])).flatten ++ ([35, 100] ++ List.replicate 9 32 ++ [35]) ++
    List.replicate 12 35⟩

theorem room_closed : Closed room := closed_of (by decide +kernel)
theorem shaft_closed : Closed shaft := closed_of (by decide +kernel)
theorem room_ends : ends room = .ok ((3, 1), (1, 1)) := by decide +kernel
theorem shaft_ends : ends shaft = .ok ((10, 1), (1, 1)) := by decide +kernel

theorem room_dry : Dry room := by
  intro i j t h
  unfold Lvl.at at h
  cases hc : room.blks[i * room.h + j]? with
  | none => rw [hc] at h; simp at h
  | some c =>
    rw [hc] at h
    have hm := List.mem_of_getElem? hc
    have : ∀ c ∈ room.blks, (tiles c).map Tile.water = .ok false := by decide +kernel
    have h' := this c hm
    simp only at h
    rw [h, Outcome.map_ok] at h'
    injection h' 

/-- "5 3", then the rows of the room. -/
example : read 1 5 3 (text [[35, 35, 35, 35, 35], [35, 117, 32, 100, 35], [35, 35, 35, 35, 35]]) = .ok room := by
  decide +kernel

/-- The hypotheses of `c87_walls` in the room; the player runs against the left wall and stops there. -/
example : ∃ q, run tq room 15 (initial (1, 1)) [1, 1, 1, 1, 1] = .ok q ∧ q.body.bbox.min = ⟨32, 35⟩ :=
  ⟨⟨⟨⟨⟨32, 35⟩, ⟨53, 64⟩⟩, 1, false⟩, 0⟩, by decide +kernel⟩

example (as : List Nat) : ∃ q, run tq room 15 (initial (1, 1)) as = .ok q ∧ Sized q.body.bbox ∧ Inside room q.body.bbox ∧
    Clear room q.body.bbox ∧ (∃ b, isgoal room (3, 1) q = .ok b) := c87_walls tq room_closed room_ends as

example (as : List Nat) (h : ∀ a ∈ as, a ≠ 0) : ∃ q, runE tq room 15 (initial (1, 1)) as = .ok q :=
  c88_dry_partial tq room_closed room_dry room_ends as h

/-- C91: a room for a player of the same tiles but standing upright is rejected. -/
example : ends ⟨3, 5, [35, 35, 35, 35, 35, 35, 117, 32, 100, 35, 35, 35, 35, 35, 35]⟩ = .fatal :=
  c91_tall_rejected ⟨rfl, by decide +kernel⟩ (by decide)

/-- C87, why the level has to be closed: without walls around, the player jumps out of the level and the program reads
outside of it. -/
theorem c87_open_ub : ∃ L g s, L.Ok ∧ ends L = .ok (g, s) ∧ run tq L 15 (initial s) [4, 4, 4, 4, 4] = .ub :=
  ⟨⟨2, 2, [117, 32, 100, 32]⟩, (1, 0), (0, 0), ⟨rfl, by decide +kernel⟩, by decide +kernel, by decide +kernel⟩

/-- C88, what is wrong: in a closed level with a single tile of water the player falls faster than the limit, and the
search stops with a failed assertion. -/
theorem c88_aborts : Closed shaft ∧ ends shaft = .ok ((10, 1), (1, 1)) ∧
    (∃ p, runE tq shaft 15 (initial (1, 1)) (List.replicate 26 4) = .ok p ∧ p.body.dy = 49 / 4) ∧
    runE tq shaft 15 (initial (1, 1)) (List.replicate 27 4) = .fatal := by
  refine ⟨shaft_closed, shaft_ends, ?_, by decide +kernel⟩
  have : ∃ p, runE tq shaft 15 (initial (1, 1)) (List.replicate 26 4) = .ok p := by
    cases h : runE tq shaft 15 (initial (1, 1)) (List.replicate 26 4) with
    | ok p => exact ⟨p, rfl⟩
    | fatal => exact absurd h (by decide +kernel)
    | ub => exact absurd h (by decide +kernel)
    | nofuel => exact absurd h (by decide +kernel)
  obtain ⟨p, hp⟩ := this
  refine ⟨p, hp, ?_⟩
  have : (runE tq shaft 15 (initial (1, 1)) (List.replicate 26 4)).map (fun p => p.body.dy) = .ok (49 / 4) := by
    decide +kernel
  rw [hp, Outcome.map_ok] at this
  injection this

/-! ## C89: the states and operators of the search -/

/-- C89: what is packed can be unpacked, for every state that a search meets (player's size, jump counter below 128). -/
theorem c89_pack {p : Player} (hs : Sized p.body.bbox) (hj : p.jframes < 128) : unpack (pack p) = p := by
  obtain ⟨⟨⟨⟨x, y⟩, ⟨x', y'⟩⟩, dy, fall⟩, j⟩ := p
  obtain ⟨h1, h2⟩ := hs
  simp only at h1 h2 hj
  subst h1 h2
  have hm : j % 256 = j := Nat.mod_eq_of_lt (by omega)
  have key : ∀ j : Fin 128, (j.val ||| 128).testBit 7 = true ∧ (j.val ||| 128) &&& 127 = j.val ∧
      j.val.testBit 7 = false ∧ j.val &&& 127 = j.val := by decide +kernel
  obtain ⟨k1, k2, k3, k4⟩ := key ⟨j, hj⟩
  simp only at k1 k2 k3 k4
  cases fall
  · simp [unpack, pack, hm, k3, k4]
  · simp [unpack, pack, hm, k1, k2]

example : unpack (pack ⟨⟨⟨⟨39, 34⟩, ⟨60, 63⟩⟩, -7, true⟩, 6⟩) = ⟨⟨⟨⟨39, 34⟩, ⟨60, 63⟩⟩, -7, true⟩, 6⟩ :=
  c89_pack ⟨by norm_num, by norm_num⟩ (by norm_num)

theorem lat_deq {T : Tol ℚ} {n a b : ℚ} (hn : 0 < n) (hT : T.th * n ≤ 1) (ha : Lat n a) (hb : Lat n b) :
    deq T a b = true ↔ a = b := by
  unfold deq
  rw [decide_eq_true_eq]
  constructor
  · intro h
    obtain ⟨i, hi⟩ := ha
    obtain ⟨j, hj⟩ := hb
    have h1 : |(i : ℚ) - j| < 1 := by
      rw [← hi, ← hj, ← mul_sub, abs_mul, abs_of_pos hn]
      calc n * |a - b| < n * T.th := by exact mul_lt_mul_of_pos_left h hn
        _ = T.th * n := mul_comm _ _
        _ ≤ 1 := hT
    have h2 : |i - j| < 1 := by exact_mod_cast h1
    have h3 : i = j := by rw [abs_lt] at h2; omega
    have : n * a = n * b := by rw [hi, hj, h3]
    exact mul_left_cancel₀ hn.ne' this
  · rintro rfl; rw [sub_self, abs_zero]; exact T.th_pos

/-- C89: between states that the game can reach, the comparison with a tolerance is equality (the tolerance being below a
fortieth of a pixel): all coordinates and speeds are multiples of 1/40. -/
theorem c89_equality {T : Tol ℚ} (hT : T.th ≤ 1 / 40) {L : Lvl} (hL : Closed L) {g s : Nat × Nat}
    (hs : ends L = .ok (g, s)) {as bs : List Nat} {p q : Player} (hp : run T L 15 (initial s) as = .ok p)
    (hq : run T L 15 (initial s) bs = .ok q) :
    ((pack p).eq T (pack q) = true ↔ p = q) ∧ (p.eq T q = true ↔ p = q) := by
  have h0 := initial_good hL.toOk (grid_wet L) hs
  obtain ⟨p', p1, p2⟩ := run_good T hL (grid_wet L) (by norm_num) (le_refl 15) as _ h0
  obtain ⟨q', q1, q2⟩ := run_good T hL (grid_wet L) (by norm_num) (le_refl 15) bs _ h0
  rw [hp] at p1
  rw [hq] at q1
  injection p1 with p1
  injection q1 with q1
  subst p1 q1
  have t40 : T.th * 40 ≤ 1 := by linarith
  have t4 : T.th * 4 ≤ 1 := by linarith [T.th_pos]
  have ex := lat_deq (by norm_num) t40 p2.gx q2.gx
  have ey := lat_deq (by norm_num) t4 p2.gy q2.gy
  have ev := lat_deq (by norm_num) t4 p2.gv q2.gv
  have l21 : Lat 40 (21 : ℚ) := ⟨840, by norm_num⟩
  have l29 : Lat 4 (29 : ℚ) := ⟨116, by norm_num⟩
  have eX : deq T p.body.bbox.max.x q.body.bbox.max.x = true ↔ p.body.bbox.max.x = q.body.bbox.max.x := by
    rw [p2.inn.sized.1, q2.inn.sized.1]
    exact lat_deq (by norm_num) t40 (p2.gx.add l21) (q2.gx.add l21)
  have eY : deq T p.body.bbox.max.y q.body.bbox.max.y = true ↔ p.body.bbox.max.y = q.body.bbox.max.y := by
    rw [p2.inn.sized.2, q2.inn.sized.2]
    exact lat_deq (by norm_num) t4 (p2.gy.add l29) (q2.gy.add l29)
  constructor
  · constructor
    · intro h
      simp only [Packed.eq, pack, Bool.and_eq_true, ex, ey, ev] at h
      obtain ⟨⟨⟨h1, h2⟩, h3⟩, h4⟩ := h
      have hpk : pack p = pack q := by
        simp only [pack, Packed.mk.injEq]
        exact ⟨h2, h3, h4, of_decide_eq_true h1⟩
      rw [← c89_pack p2.inn.sized (by have := p2.jf; omega), hpk, c89_pack q2.inn.sized (by have := q2.jf; omega)]
    · rintro rfl
      simp [Packed.eq, pack, deq, T.th_pos]
  · constructor
    · intro h
      simp only [Player.eq, Pt.eq, Bool.and_eq_true, decide_eq_true_eq, ex, ey, ev, eX, eY] at h
      obtain ⟨h1, ⟨h2, ⟨h3, h4⟩, h5, h6⟩, h7⟩ := h
      obtain ⟨⟨⟨⟨a1, a2⟩, ⟨a3, a4⟩⟩, a5, a6⟩, a7⟩ := p
      obtain ⟨⟨⟨⟨b1, b2⟩, ⟨b3, b4⟩⟩, b5, b6⟩, b7⟩ := q
      simp only at h1 h2 h3 h4 h5 h6 h7
      subst h1 h2 h3 h4 h5 h6 h7
      rfl
    · rintro rfl
      simp [Player.eq, Pt.eq, deq, T.th_pos]

example : (pack (initial (1, 1))).eq tq (pack (initial (1, 1))) = true ∧
    ((pack (initial (1, 1))).eq tq (pack ⟨⟨⟨⟨143 / 4, 34⟩, ⟨227 / 4, 63⟩⟩, 1 / 2, true⟩, 0⟩)) = false := by decide +kernel

/-- C89: if the domain names an action that changes nothing, then it changes nothing. -/
theorem c89_ident {T : Tol ℚ} (hT : T.th ≤ 1 / 40) {L : Lvl} (hL : Closed L) {g s : Nat × Nat} (hs : ends L = .ok (g, s))
    {as : List Nat} {p : Player} (hp : run T L 15 (initial s) as = .ok p) {o : Nat} {c : Int}
    (h : ident T L 15 p = .ok (some o, c)) : o = 0 ∧ c = 1 ∧ act T L 15 p o = .ok p := by
  have h0 := initial_good hL.toOk (grid_wet L) hs
  unfold ident at h
  obtain ⟨q, h1, h2⟩ := Outcome.map_eq_ok.1 h
  have hq : run T L 15 (initial s) (as ++ [0]) = .ok q := by
    have : ∀ (as : List Nat) (r : Player), run T L 15 r as = .ok p → run T L 15 r (as ++ [0]) = .ok q := by
      intro as
      induction as with
      | nil =>
        intro r hr
        simp only [run, Outcome.ok.injEq] at hr
        subst hr
        simp [run, h1]
      | cons a as ih =>
        intro r hr
        rw [run] at hr
        obtain ⟨r', e1, e2⟩ := Outcome.bind_eq_ok.1 hr
        rw [List.cons_append, run, e1, Outcome.bind_ok]
        exact ih r' e2
    exact this as _ hp
  have he := (c89_equality hT hL hs hq hp).2
  split_ifs at h2 with h3
  · simp only [Prod.mk.injEq, Option.some.injEq] at h2
    obtain ⟨rfl, rfl⟩ := h2
    refine ⟨rfl, rfl, ?_⟩
    rw [h1, he.1 h3]
  · simp at h2

/-- Standing on the floor, there is such an action; in the air there is not. -/
example : ident tq room 15 ⟨⟨⟨⟨39, 35⟩, ⟨60, 64⟩⟩, 1, false⟩, 0⟩ = .ok (some 0, 1) ∧
    ident tq room 15 (initial (1, 1)) = .ok (none, -1) := by decide +kernel

/-- C89: the operators left out have the effect of operators that are there; "jump" is then the same as doing nothing. -/
theorem c89_pruned (T : Tol ℚ) (L : Lvl) (fuel : Nat) (p : Player) :
    (5 ∉ ops p → act T L fuel p 5 = act T L fuel p 1) ∧ (6 ∉ ops p → act T L fuel p 6 = act T L fuel p 2) ∧
    ((5 ∉ ops p ∨ 6 ∉ ops p) → act T L fuel p 4 = act T L fuel p 0) ∧ [1, 2, 4] ⊆ ops p := by
  by_cases hc : canjump p = true
  · simp [ops, hc]
  · have hcj : ∀ a, chngjmp p a = p := by
      simp only [canjump, Bool.or_eq_true, Bool.not_eq_true', Bool.and_eq_true, decide_eq_true_eq, not_or, not_and,
        not_le, not_lt] at hc
      obtain ⟨⟨h1, h2⟩, h3⟩ := hc
      have hj : p.jframes = 0 := by omega
      have hf : p.body.fall = true := by simpa using h1
      have hd := h2 hj
      intro a
      unfold chngjmp
      rw [hf]
      by_cases ha : hasJump a = true
      · simp [ha]
      · simp only [ha, Bool.not_false, Bool.and_true, if_true]
        rw [if_neg (by linarith)]
        obtain ⟨⟨b, dy, f⟩, j⟩ := p
        simp only at hj
        subst hj
        rfl
    have key : ∀ a b, hasLeft a = hasLeft b → hasRight a = hasRight b → act T L fuel p a = act T L fuel p b := by
      intro a b h1 h2
      unfold act
      rw [hcj a, hcj b]
      dsimp only
      have : xvel L p a = xvel L p b := by unfold xvel; rw [h1, h2]
      rw [this]
    refine ⟨fun _ => key _ _ rfl rfl, fun _ => key _ _ rfl rfl, fun _ => key _ _ rfl rfl, ?_⟩
    simp [ops, hc]

/-- Falling without the jump button is such a case. -/
example : ops ⟨⟨⟨⟨39, 34⟩, ⟨60, 63⟩⟩, 1 / 2, true⟩, 0⟩ = [1, 2, 4] ∧
    ops (initial (1, 1)) = [1, 2, 4, 5, 6] := by decide +kernel

/-- C89, what is wrong: an edge announces a reverse operator that does not lead back.  Half a pixel from a wall, "left"
is said to be reversed by "right"; it leads to a place 2 3/4 pixels further right.  The searches do not generate that
state, since they skip the reverse operator. -/
theorem c89_revop_wrong : ∃ p q r, run tq room 15 (initial (1, 1)) [1, 2, 1, 2, 1, 1] = .ok p ∧
    edge tq room 15 p 1 = .ok (q, some 2) ∧ (∃ o, edge tq room 15 q 2 = .ok (r, o)) ∧
    r.body.bbox.min.x = p.body.bbox.min.x + 11 / 4 ∧ (pack r).eq tq (pack p) = false :=
  ⟨⟨⟨⟨⟨65 / 2, 35⟩, ⟨107 / 2, 64⟩⟩, 1, false⟩, 0⟩, ⟨⟨⟨⟨32, 35⟩, ⟨53, 64⟩⟩, 1, false⟩, 0⟩,
    ⟨⟨⟨⟨141 / 4, 35⟩, ⟨225 / 4, 64⟩⟩, 1, false⟩, 0⟩, by decide +kernel, by decide +kernel, ⟨some 1, by decide +kernel⟩,
    by decide +kernel, by decide +kernel⟩

/-- The value of a `double` from its bits: positive normal numbers only. -/
def double (b : BitVec 64) : ℚ := (1 + (b.toNat % 2 ^ 52 : Nat) / 2 ^ 52) * 2 ^ (b.toNat / 2 ^ 52) / 2 ^ 1023

/-- The bytes of a `double`, lowest first. -/
def bytes8 (b : BitVec 64) : List (BitVec 8) := (List.range 8).map fun i => (b >>> (8 * i)).setWidth 8

/-- plat2d.hpp:74-91 `hash` of the bits of `x`, `y`, `dy` and of `jframes` (`spec` is what C73 proves of `hashbytes`) -/
def hash (x y dy : BitVec 64) (j : BitVec 8) : BitVec 64 := HashBytes.spec (bytes8 x ++ bytes8 y ++ bytes8 dy ++ [j])

/-- C89, what is wrong: states that compare equal may have different hash values, because the comparison is up to a
tolerance and the hash takes the bits.  The x coordinates are 39 and the next greater `double`. -/
theorem c89_hash_wrong : ∃ x x' y dy : BitVec 64, ∃ j : BitVec 8,
    (⟨double x, double y, double dy, j.toNat⟩ : Packed).eq tq ⟨double x', double y, double dy, j.toNat⟩ = true ∧
    double x = 39 ∧ hash x y dy j ≠ hash x' y dy j :=
  ⟨0x4043800000000000#64, 0x4043800000000001#64, 0x4041800000000000#64, 0x3FF0000000000000#64, 0#8, by decide +kernel,
    by decide +kernel, by decide +kernel⟩

/-- C89, what is wrong: the comparison is not transitive. -/
theorem c89_eq_not_trans (T : Tol ℚ) (y dy : ℚ) (j : Nat) : ∃ a b c : Packed, a.eq T b = true ∧ b.eq T c = true ∧
    a.eq T c = false := by
  have h := T.th_pos
  refine ⟨⟨0, y, dy, j⟩, ⟨T.th / 2, y, dy, j⟩, ⟨T.th, y, dy, j⟩, ?_, ?_, ?_⟩
  · simp [Packed.eq, deq, h, abs_of_pos h, abs_div]
  · have : |T.th / 2 - T.th| = T.th / 2 := by rw [show T.th / 2 - T.th = -(T.th / 2) by ring, abs_neg, abs_of_pos (by linarith)]
    simp [Packed.eq, deq, h, this]
  · simp [Packed.eq, deq, abs_of_pos h]

/-! ## C90: the heuristic in sight of the goal -/

theorem runE_far (T : Tol ℚ) (L : Lvl) (fuel : Nat) : ∀ (as : List Nat) (p q : Player), runE T L fuel p as = .ok q →
    |(center p.body.bbox).x - (center q.body.bbox).x| ≤ as.length * maxx ∧
    |(center p.body.bbox).y - (center q.body.bbox).y| ≤ as.length * maxy := by
  intro as
  induction as with
  | nil =>
    intro p q h
    simp only [runE, Outcome.ok.injEq] at h
    subst h
    simp
  | cons a as ih =>
    intro p q h
    rw [runE] at h
    obtain ⟨⟨r, o⟩, h1, h2⟩ := Outcome.bind_eq_ok.1 h
    obtain ⟨k1, k2⟩ := ih r q h2
    rw [edge] at h1
    obtain ⟨r', h3, h4⟩ := Outcome.bind_eq_ok.1 h1
    simp only at h4
    split_ifs at h4 with c1 c2 c3
    all_goals
      injection h4 with h4
      have hr : r' = r := (Prod.mk.inj h4).1
      subst hr
      have e1 := abs_sub_le (center p.body.bbox).x (center r'.body.bbox).x (center q.body.bbox).x
      have e2 := abs_sub_le (center p.body.bbox).y (center r'.body.bbox).y (center q.body.bbox).y
      first | push Not at c2 | skip
      first | push Not at c3 | skip
      simp only [List.length_cons, Nat.cast_add, Nat.cast_one]
      constructor <;> linarith

/-- One coordinate: the distance to the nearest point of the goal tile is at most that to any point of it. -/
theorem goal1_le {m a b : ℚ} (hm : 0 < m) {i g : Nat} (ha : a < 32 * (i + 1)) (ha' : i ≠ 0 → 32 * (i : ℚ) ≤ a)
    (hb : b < 32 * (g + 1)) (hb' : g ≠ 0 → 32 * (g : ℚ) ≤ b) :
    |goal1 i g (32 / m) (a / m) - a / m| * m ≤ |a - b| := by
  unfold goal1
  split_ifs with h1 h2
  · simp
  · have h3 : (i : ℚ) + 1 ≤ g := by exact_mod_cast h2
    have h4 := hb' (by omega)
    have e : (g : ℚ) * (32 / m) - a / m = (32 * g - a) / m := by field_simp
    rw [e, abs_div, abs_of_pos hm, div_mul_cancel₀ _ hm.ne', abs_of_nonneg (by linarith), abs_sub_comm]
    exact le_trans (by linarith) (le_abs_self _)
  · have h3 : g + 1 ≤ i := by omega
    have h3' : (g : ℚ) + 1 ≤ i := by exact_mod_cast h3
    have h4 := ha' (by omega)
    have e : ((g : ℚ) + 1) * (32 / m) - a / m = -((a - 32 * (g + 1)) / m) := by field_simp; ring
    rw [e, abs_neg, abs_div, abs_of_pos hm, div_mul_cancel₀ _ hm.ne', abs_of_nonneg (by linarith)]
    exact le_trans (by linarith) (le_abs_self _)

theorem toUns_tile {q : ℚ} {i : Nat} (h : toUns (q / 32) = .ok i) : q < 32 * (i + 1) ∧ (i ≠ 0 → 32 * (i : ℚ) ≤ q) := by
  unfold toUns at h
  split_ifs at h with hc
  injection h with h
  have h1 := Int.lt_floor_add_one (q / 32)
  have h2 := Int.floor_le (q / 32)
  have h3 : (⌊q / 32⌋ : ℚ) ≤ (i : ℚ) := by
    have : ⌊q / 32⌋ ≤ (i : ℤ) := by omega
    exact_mod_cast this
  refine ⟨by linarith, fun hi => ?_⟩
  have h4 : (i : ℚ) = ⌊q / 32⌋ := by
    have : (i : ℤ) = ⌊q / 32⌋ := by omega
    exact_mod_cast this
  linarith

theorem majorblk_tile {L : Lvl} {b : Bbox ℚ} {bi : Nat × Nat × Tile} (h : L.majorblk b = .ok bi) :
    toUns ((center b).x / 32) = .ok bi.1 ∧ toUns ((center b).y / 32) = .ok bi.2.1 := by
  simp only [Lvl.majorblk, Outcome.bind_eq_ok, Outcome.map_eq_ok] at h
  obtain ⟨x, hx, y, hy, t, -, rfl⟩ := h
  exact ⟨hx, hy⟩

/-- C90: the estimate used when the goal is in sight never exceeds the number of frames needed: if a sequence of actions
leads from `p` to a goal state, without a failed assertion on the way, then the estimate of `p` is at most its length.
(It bounds every way, whether the goal is in sight or not.) -/
theorem c90_admissible_partial (T : Tol ℚ) (L : Lvl) (fuel : Nat) (g : Nat × Nat) {p q : Player} {as : List Nat}
    (hr : runE T L fuel p as = .ok q) (hg : isgoal L g q = .ok true) {k : Int} (hk : near L g p = .ok k) :
    k ≤ as.length := by
  obtain ⟨f1, f2⟩ := runE_far T L fuel as p q hr
  unfold isgoal at hg
  obtain ⟨bq, hq, e⟩ := Outcome.map_eq_ok.1 hg
  simp only [decide_eq_true_eq] at e
  obtain ⟨e1, e2⟩ := e
  obtain ⟨tq1, tq2⟩ := majorblk_tile hq
  unfold near at hk
  obtain ⟨bp, hp, hk⟩ := Outcome.map_eq_ok.1 hk
  obtain ⟨tp1, tp2⟩ := majorblk_tile hp
  rw [e1] at tq1
  rw [e2] at tq2
  have mx : (0 : ℚ) < maxx := by unfold maxx runspeed; norm_num
  have my : (0 : ℚ) < maxy := by unfold maxy; norm_num
  have gx := goal1_le mx (toUns_tile tp1).1 (toUns_tile tp1).2 (toUns_tile tq1).1 (toUns_tile tq1).2
  have gy := goal1_le my (toUns_tile tp2).1 (toUns_tile tp2).2 (toUns_tile tq2).1 (toUns_tile tq2).2
  by_cases hc : bp.1 = g.1 ∧ bp.2.1 = g.2
  · rw [if_pos hc] at hk
    omega
  · rw [if_neg hc] at hk
    have hlen : 1 ≤ as.length := by
      cases as with
      | nil =>
        exfalso
        simp only [runE, Outcome.ok.injEq] at hr
        subst hr
        rw [hp] at hq
        injection hq with hq
        subst hq
        exact hc ⟨e1, e2⟩
      | cons a as => simp
    have hmax : ⌊max |goal1 bp.1 g.1 (32 / maxx) ((center p.body.bbox).x / maxx) - (center p.body.bbox).x / maxx|
        |goal1 bp.2.1 g.2 (32 / maxy) ((center p.body.bbox).y / maxy) - (center p.body.bbox).y / maxy|⌋ ≤
        (as.length : ℤ) := by
      have : ⌊max |goal1 bp.1 g.1 (32 / maxx) ((center p.body.bbox).x / maxx) - (center p.body.bbox).x / maxx|
        |goal1 bp.2.1 g.2 (32 / maxy) ((center p.body.bbox).y / maxy) - (center p.body.bbox).y / maxy|⌋ ≤
        ⌊(as.length : ℚ)⌋ := by
        apply Int.floor_mono
        apply max_le
        · exact le_of_mul_le_mul_right (gx.trans f1) mx
        · exact le_of_mul_le_mul_right (gy.trans f2) my
      simpa using this
    simp only at hk
    split_ifs at hk with h0
    · omega
    · rw [← hk]; exact hmax

/-- C90: the estimate is zero exactly in the goal tile, and never negative. -/
theorem c90_goal {L : Lvl} {g : Nat × Nat} {p : Player} {k : Int} (hk : near L g p = .ok k) :
    0 ≤ k ∧ (k = 0 ↔ isgoal L g p = .ok true) := by
  unfold near at hk
  obtain ⟨bp, hp, hk⟩ := Outcome.map_eq_ok.1 hk
  have hi : isgoal L g p = .ok (decide (bp.1 = g.1 ∧ bp.2.1 = g.2)) := by unfold isgoal; rw [hp]; rfl
  rw [hi]
  by_cases hc : bp.1 = g.1 ∧ bp.2.1 = g.2
  · rw [if_pos hc] at hk
    simp [← hk, hc]
  · rw [if_neg hc] at hk
    simp only at hk
    split_ifs at hk with h0
    · simp [← hk, hc]
    · simp only [hc, decide_false, Outcome.ok.injEq, Bool.false_eq_true, iff_false]
      omega

/-- In the room: estimate 14 at the start; running right reaches the goal tile after 15 frames. -/
example : near room (3, 1) (initial (1, 1)) = .ok 14 ∧
    (runE tq room 15 (initial (1, 1)) (List.replicate 15 2)).bind (isgoal room (3, 1)) = .ok true ∧
    (runE tq room 15 (initial (1, 1)) (List.replicate 14 2)).bind (isgoal room (3, 1)) = .ok false := by decide +kernel

end Verif.Plat
