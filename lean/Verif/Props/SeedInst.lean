import Verif.Domains.SeedInst
import Verif.Props.GridFile
import Verif.Props.VisFile

/-!
# C116: instances that are made from a seed

`Prints draw c zero pr t`: gridnav/mkseedinst.cc with the arguments `c` can print `t`.  `instance'`: what the solver of
grid maps makes of a file.
-/

namespace Verif.SeedInst

open Verif.GridFile Verif.GridNav Verif.Search Verif.Str
open Verif.VisFile (Fmt Faithful Sep sep_cons)

variable {D : Type} {draw : Nat → D → Nat → Bool} {c : Cfg D}

/-! ## Specification -/

/-- The first cell of the first row. -/
def first (c : Cfg D) : Nat := c.w + 2 + 1

/-- The last cell of the first row. -/
def last (c : Cfg D) : Nat := c.w + 2 + c.w

/-- The map with the seed `s` and the probability `p`. -/
def field (draw : Nat → D → Nat → Bool) (c : Cfg D) (s : Nat) (p : D) (life : Bool) : GMap :=
  ⟨c.w + 2, c.h + 2, uniform (draw s p) c.w c.h, if c.eight then eightway else fourway, life⟩

/-- With the `i`-th seed both cells are free, and there is a path between them. -/
def Good (draw : Nat → D → Nat → Bool) (c : Cfg D) (i : Nat) : Prop :=
  draw ((c.seed + i) % 2 ^ 64) c.prob 0 = false ∧ draw ((c.seed + i) % 2 ^ 64) c.prob ((c.w - 1) * c.h) = false ∧
    ∃ q k, IsPath (field draw c ((c.seed + i) % 2 ^ 64) c.prob false) (first c) (last c) q k

/-- The sizes: not empty, and at most 2^29 cells. -/
structure CfgOk (c : Cfg D) : Prop where
  w : 0 < c.w
  h : 0 < c.h
  cells : (c.w + 2) * (c.h + 2) ≤ 2 ^ 29

/-! ## Lemmas -/

theorem field_ok (draw : Nat → D → Nat → Bool) (c : Cfg D) (s : Nat) (p : D) (life : Bool) : MapOk (field draw c s p life) := by
  refine ⟨(c95_uniform _ c.w c.h _ life).border, ?_⟩
  unfold field
  cases c.eight
  · exact .inr (.inr rfl)
  · exact .inr (.inl rfl)

theorem cells_le (hc : CfgOk c) : 3 * (c.w + 2) ≤ 2 ^ 29 ∧ c.w < 2 ^ 29 := by
  have := Nat.mul_le_mul_left (c.w + 2) (show 3 ≤ c.h + 2 by have := hc.h; omega)
  have h2 := hc.cells
  rw [Nat.mul_comm] at this
  omega

theorem index_first (hc : CfgOk c) (s : Nat) (p : D) (life : Bool) : index (field draw c s p life) 1 1 = first c := by
  obtain ⟨h1, h2⟩ := cells_le hc
  unfold index field first
  dsimp only
  rw [Nat.one_mul]
  exact Nat.mod_eq_of_lt (by omega)

theorem index_last (hc : CfgOk c) (s : Nat) (p : D) (life : Bool) :
    index (field draw c s p life) (c.w - 1 + 1) 1 = last c := by
  obtain ⟨h1, h2⟩ := cells_le hc
  have := hc.w
  unfold index field last
  dsimp only
  rw [Nat.one_mul, Nat.sub_add_cancel (by omega)]
  exact Nat.mod_eq_of_lt (by omega)

theorem blkd_cell {s : Nat} {p : D} {life : Bool} {loc x : Nat} (hc : CfgOk c) (hx : x < c.w) (e : loc = c.w + 2 + (x + 1)) :
    loc < (c.w + 2) * (c.h + 2) ∧ Interior (field draw c s p life) loc ∧
      blkd (field draw c s p life) loc = draw s p (x * c.h) := by
  have hh := hc.h
  have h3 := Nat.mul_le_mul_left (c.w + 2) (show 3 ≤ c.h + 2 by omega)
  refine ⟨by omega, ?_, ?_⟩
  · have e1 : loc / (c.w + 2) = 1 := by
      rw [e, Nat.add_div_left _ (by omega), Nat.div_eq_of_lt (by omega)]
    have e2 : loc % (c.w + 2) = x + 1 := by
      rw [e, Nat.add_mod_left, Nat.mod_eq_of_lt (by omega)]
    unfold Interior field
    dsimp only
    omega
  · have k := (c95_uniform (draw s p) c.w c.h (if c.eight then eightway else fourway) life).cells x 0 hx hh
    unfold blkd
    rw [show (0 + 1) * (c.w + 2) + (x + 1) = loc by omega] at k
    show decide (uniform (draw s p) c.w c.h loc &&& Passable = 0) = _
    dsimp only at k
    rw [k, Nat.add_zero]
    cases draw s p (x * c.h) <;> rfl

theorem blkd_first (hc : CfgOk c) (s : Nat) (p : D) (life : Bool) :
    blkdAt (field draw c s p life) 1 1 = .ok (draw s p 0) := by
  obtain ⟨k1, -, k3⟩ := blkd_cell (draw := draw) (s := s) (p := p) (life := life) (loc := first c) (x := 0) hc hc.w rfl
  unfold blkdAt
  rw [index_first hc, if_pos (show first c < (field draw c s p life).w * (field draw c s p life).h from k1), k3, Nat.zero_mul]

theorem blkd_last (hc : CfgOk c) (s : Nat) (p : D) (life : Bool) :
    blkdAt (field draw c s p life) (c.w - 1 + 1) 1 = .ok (draw s p ((c.w - 1) * c.h)) := by
  have hw := hc.w
  obtain ⟨k1, -, k3⟩ := blkd_cell (draw := draw) (s := s) (p := p) (life := life) (loc := last c) (x := c.w - 1) hc (by omega)
    (by unfold last; omega)
  unfold blkdAt
  rw [index_last hc, if_pos (show last c < (field draw c s p life).w * (field draw c s p life).h from k1), k3]

theorem greedy_obj {m : GMap} {finish : Nat} (nxt : Nat → Option Nat) : HeapObj Nat Int (greedy (dval m finish) false).pred
    (newLists (heapImpl (greedy (dval m finish) false).pred) 30000001 nxt) := .new _ (by decide) _

theorem solves_iff {m : GMap} (hm : MapOk m) (hsize : m.w * m.h ≤ 2 ^ 29) {start finish : Nat} (hs : Interior m start) (b : Bool) :
    Solves m start finish b ↔ (b = true ↔ ∃ q k, IsPath m start finish q k) := by
  have key : ∀ nxt, ∃ F s p, (∀ fuel ≥ F, csearch (dom m finish) (greedy (dval m finish) false)
      (heapImpl (greedy (dval m finish) false).pred) id (newLists (heapImpl (greedy (dval m finish) false).pred) 30000001 nxt)
      ⟨0, 0⟩ (fun _ => false) fuel start = .ok (s, p)) ∧ (0 < p.1.length ↔ ∃ q k, IsPath m start finish q k) := by
    intro nxt
    obtain ⟨F, s, p, h1, h2, h3⟩ := c67_greedy_heap (hash := id) (domOk (finish := finish) hm hs).undo (greedy_obj nxt)
      (reachable_cells hm hs) (by rwa [Finset.card_range])
    rw [solvable_iff hm hs] at h2 h3
    refine ⟨F, s, p, h1, fun hp => ?_, fun h => ?_⟩
    · by_contra hn
      rw [h3 hn] at hp
      simp at hp
    · obtain ⟨k, ss, e, -⟩ := h2 h
      have := congrArg List.length e
      simp only [List.length_reverse, List.length_cons] at this
      omega
  constructor
  · rintro ⟨nxt, F, s, p, h1, rfl⟩
    obtain ⟨F', s', p', h2, h3⟩ := key nxt
    have e := h1 (max F F') (le_max_left _ _)
    rw [h2 (max F F') (le_max_right _ _)] at e
    cases e
    rw [decide_eq_true_eq]
    exact h3
  · intro h
    obtain ⟨F, s, p, h2, h3⟩ := key (fun _ => none)
    refine ⟨_, F, s, p, h2, ?_⟩
    rw [Bool.eq_iff_iff, h, decide_eq_true_eq, h3]

theorem try_iff (hc : CfgOk c) (i : Nat) (b : Bool) : Try draw c i b ↔ (b = true ↔ Good draw c i) := by
  have e1 := blkd_first (draw := draw) hc ((c.seed + i) % 2 ^ 64) c.prob false
  have e2 := blkd_last (draw := draw) hc ((c.seed + i) % 2 ^ 64) c.prob false
  have i1 := index_first (draw := draw) hc ((c.seed + i) % 2 ^ 64) c.prob false
  have i2 := index_last (draw := draw) hc ((c.seed + i) % 2 ^ 64) c.prob false
  have hint := (blkd_cell (draw := draw) (s := (c.seed + i) % 2 ^ 64) (p := c.prob) (life := false) (loc := first c) (x := 0)
    hc hc.w rfl).2.1
  have hm : made draw c i = field draw c ((c.seed + i) % 2 ^ 64) c.prob false := rfl
  have hs := solves_iff (field_ok draw c ((c.seed + i) % 2 ^ 64) c.prob false) hc.cells (finish := last c) hint b
  unfold Try Good
  dsimp only
  rw [hm, e1, e2, i1, i2, hs]
  cases draw ((c.seed + i) % 2 ^ 64) c.prob 0 <;> cases draw ((c.seed + i) % 2 ^ 64) c.prob ((c.w - 1) * c.h) <;> simp

theorem rounds_least (hc : CfgOk c) {i j : Nat} (h : Rounds draw c i j) :
    i < 2 ^ 32 → (∀ k < i, ¬ Good draw c k) → j < 2 ^ 32 ∧ Good draw c j ∧ ∀ k < j, ¬ Good draw c k := by
  induction h with
  | stop ht => exact fun h1 h2 => ⟨h1, ((try_iff hc _ _).1 ht).1 rfl, h2⟩
  | @next i j ht _ ih =>
    intro h1 h2
    have hn : ¬ Good draw c i := fun hg => by simpa using ((try_iff hc _ _).1 ht).2 hg
    by_cases hi : i + 1 < 2 ^ 32
    · rw [Nat.mod_eq_of_lt hi] at ih
      refine ih hi fun k hk => ?_
      rcases Nat.lt_succ_iff_lt_or_eq.1 hk with h | rfl
      · exact h2 k h
      · exact hn
    · rw [show i + 1 = 2 ^ 32 by omega, Nat.mod_self] at ih
      exact ih (by decide) fun k hk => absurd hk (by omega)

theorem rounds_of_least (hc : CfgOk c) {j : Nat} (hj : j < 2 ^ 32) (hg : Good draw c j) (hl : ∀ k < j, ¬ Good draw c k) :
    ∀ n i, i + n = j → Rounds draw c i j
  | 0, i, e => by
    obtain rfl : i = j := by omega
    exact .stop ((try_iff hc _ _).2 (by simp [hg]))
  | n + 1, i, e => by
    refine .next ((try_iff hc _ _).2 (by simp [hl i (by omega)])) ?_
    rw [Nat.mod_eq_of_lt (by omega)]
    exact rounds_of_least hc hj hg hl n (i + 1) (by omega)

theorem size_cells (hc : CfgOk c) : size c.w c.h = .ok () := size_ok (le_trans hc.cells (by decide))

/-- The distance is not negative on the maps of the generator (greedy.hpp:147). -/
theorem dval_nonneg (draw : Nat → D → Nat → Bool) (c : Cfg D) (i finish loc : Nat) : 0 ≤ dval (made draw c i) finish loc := by
  unfold dval
  have : 0 ≤ (computeh (made draw c i) finish loc).2 := by
    unfold computeh made octiledist manhattan
    cases c.eight <;> simp [eightway, fourway] <;> (try split) <;> positivity
  exact_mod_cast this

/-! ## C116 -/

/-- **C116.**  The generator prints exactly the text for the first seed, from the given one on, for which both cells are
free and connected.  (The search that it makes does not err in either direction.) -/
theorem c116_prints (hc : CfgOk c) {zero : Prop} (hz : ¬ zero) {pr : D → Str} {t : Str} :
    Prints draw c zero pr t ↔
      ∃ i < 2 ^ 32, Good draw c i ∧ (∀ j < i, ¬ Good draw c j) ∧ t = out c pr i := by
  constructor
  · rintro ⟨-, -, -, -, hr⟩
    obtain ⟨h1, h2, h3⟩ := rounds_least hc hr (by decide) fun k hk => absurd hk (by omega)
    exact ⟨_, h1, h2, h3, rfl⟩
  · rintro ⟨i, h1, h2, h3, rfl⟩
    exact .mk hz hc.w.ne' hc.h.ne' (size_cells hc) (rounds_of_least hc h1 h2 h3 i 0 (Nat.zero_add i))

/-- **C116.**  If there is such a seed among the first 2^32, something is printed, and nothing else can be. -/
theorem c116_ends (hc : CfgOk c) {zero : Prop} (hz : ¬ zero) {pr : D → Str} {i : Nat} (hi : i < 2 ^ 32) (hg : Good draw c i) :
    ∃ t, Prints draw c zero pr t ∧ ∀ t', Prints draw c zero pr t' → t' = t := by
  classical
  have hex : ∃ i, Good draw c i := ⟨i, hg⟩
  have hle : Nat.find hex ≤ i := Nat.find_min' hex hg
  refine ⟨out c pr (Nat.find hex), (c116_prints hc hz).2 ⟨_, lt_of_le_of_lt hle hi, Nat.find_spec hex,
    fun j hj => Nat.find_min hex hj, rfl⟩, fun t' ht => ?_⟩
  obtain ⟨k, -, k2, k3, rfl⟩ := (c116_prints hc hz).1 ht
  have h1 : Nat.find hex ≤ k := Nat.find_min' hex k2
  have h2 : ¬ Nat.find hex < k := fun h => k3 _ h (Nat.find_spec hex)
  rw [show k = Nat.find hex by omega]

/-- **C116** (finding).  A probability above every random number is accepted, and the generator then never ends. -/
theorem c116_endless (hc : CfgOk c) (hd : ∀ s k, draw s c.prob k = true) {zero : Prop} (hz : ¬ zero) {pr : D → Str} (t : Str) :
    ¬ Prints draw c zero pr t := by
  intro h
  obtain ⟨i, -, ⟨h1, -⟩, -⟩ := (c116_prints hc hz).1 h
  rw [hd] at h1
  cases h1

theorem path_life {s : Nat} {p : D} {a : Nat} {ss : List Nat} {k : ℝ} (l l' : Bool) (h : Path (field draw c s p l) a ss k) :
    ∃ k', Path (field draw c s p l') a ss k' := by
  induction h with
  | nil => exact ⟨_, .nil _⟩
  | cons hs _ ih =>
    obtain ⟨k', hk⟩ := ih
    exact ⟨_, .cons ⟨hs.king, hs.moves, hs.four, hs.enter, hs.corner, rfl⟩ hk⟩

theorem move_text (b : Bool) (s : Str) : moveType "Eightway".toList "Fourway".toList true
    ((if b then "Eightway\n".toList else "Fourway\n".toList) ++ s) = .ok (if b then eightway else fourway, skip s) := by
  have e1 : "Eightway\n".toList = "Eightway".toList ++ ['\n'] := by decide
  have e2 : "Fourway\n".toList = "Fourway".toList ++ ['\n'] := by decide
  unfold moveType
  cases b
  · simp only [Bool.false_eq_true, if_false]
    rw [e2, List.append_assoc, (word_self _ _).2, if_neg (by simp), if_pos (by simp), List.cons_append, List.nil_append,
      skip_cons _ (by decide)]
  · simp only [if_true]
    rw [e1, List.append_assoc, (word_self _ _).2, if_pos (by simp), List.cons_append, List.nil_append, skip_cons _ (by decide)]

theorem cost_text (b : Bool) (s : Str) : costType ((if b then "Life\n".toList else "Unit\n".toList) ++ s) = .ok (b, skip s) := by
  have e1 : "Life\n".toList = "Life".toList ++ ['\n'] := by decide
  have e2 : "Unit\n".toList = "Unit".toList ++ ['\n'] := by decide
  unfold costType
  cases b
  · simp only [Bool.false_eq_true, if_false]
    rw [e2, List.append_assoc, (word_self _ _).2, if_pos (by simp), List.cons_append, List.nil_append, skip_cons _ (by decide)]
  · simp only [if_true]
    rw [e1, List.append_assoc, (word_self _ _).2, if_neg (by simp), if_pos (by simp), List.cons_append, List.nil_append,
      skip_cons _ (by decide)]

theorem skip_text (b : Bool) (s : Str) :
    skip ((if b then "Eightway\n".toList else "Fourway\n".toList) ++ s) = (if b then "Eightway\n".toList else "Fourway\n".toList) ++ s ∧
    skip ((if b then "Life\n".toList else "Unit\n".toList) ++ s) = (if b then "Life\n".toList else "Unit\n".toList) ++ s := by
  cases b <;> constructor <;> refine skip_self ?_ <;> rintro _ ⟨⟩ <;> decide

theorem num_skip_digits {b n : Nat} (hn : n < b) {r : Str} (hr : ∀ c, r.head? = some c → c.isDigit = false) :
    num b (skip (Nat.toDigits 10 n ++ r)) = .ok (n, r) := by
  rw [num_skip, num_digits hn hr]

/-- **C116.**  What the solver makes of the text: the map is drawn again with the seed and with the probability *as it was
printed*, which is `rnd` of the one that was used.  The instance is that map with the first and the last cell of its first
row, if they are free on it; otherwise there is an error. -/
theorem c116_read (hc : CfgOk c) {F : Fmt D} {rnd : D → D} (hF : Faithful F rnd) (i : Nat) :
    instance' F.rd draw (out c F.pr i) =
      if draw ((c.seed + i) % 2 ^ 64) (rnd c.prob) 0 = true ∨ draw ((c.seed + i) % 2 ^ 64) (rnd c.prob) ((c.w - 1) * c.h) = true
      then .fatal
      else .ok (field draw c ((c.seed + i) % 2 ^ 64) (rnd c.prob) c.life, first c, last c) := by
  obtain ⟨b1, b2⟩ := cells_le hc
  have hh : c.h < 2 ^ 29 := by
    have := Nat.mul_le_mul_right (c.h + 2) (show 1 ≤ c.w + 2 by omega)
    have := hc.cells
    omega
  obtain ⟨t1, -⟩ := skip_text c.eight ((if c.life then "Life\n".toList else "Unit\n".toList) ++
    (Nat.toDigits 10 0 ++ ' ' :: (Nat.toDigits 10 0 ++ '\n' :: (Nat.toDigits 10 (c.w - 1) ++ ' ' :: (Nat.toDigits 10 0 ++ ['\n'])))))
  obtain ⟨-, t2⟩ := skip_text c.life
    (Nat.toDigits 10 0 ++ ' ' :: (Nat.toDigits 10 0 ++ '\n' :: (Nat.toDigits 10 (c.w - 1) ++ ' ' :: (Nat.toDigits 10 0 ++ ['\n']))))
  have hload : load F.rd draw (out c F.pr i) = .ok ⟨field draw c ((c.seed + i) % 2 ^ 64) (rnd c.prob) c.life, true,
      skip (Nat.toDigits 10 0 ++ ' ' :: (Nat.toDigits 10 0 ++ '\n' :: (Nat.toDigits 10 (c.w - 1) ++ ' ' :: (Nat.toDigits 10 0 ++ ['\n']))))⟩ := by
    have e0 : "seed ".toList = "seed".toList ++ [' '] := by decide
    have e1 : ∀ s, load F.rd draw ("seed ".toList ++ s) = loadSeed F.rd draw ("seed ".toList ++ s) := by
      intro s
      have : "seed ".toList ++ s = 's' :: ("eed ".toList ++ s) := rfl
      rw [this, load, if_neg (by decide), if_pos rfl]
    unfold out
    rw [e1, loadSeed, e0, List.append_assoc, want_self, Outcome.bind_ok, List.cons_append, List.nil_append, num_skip,
      num_ws _ _ (by decide), num_digits (Nat.mod_lt _ (by decide)) (by rintro _ ⟨⟩; decide), Outcome.bind_ok]
    dsimp only
    rw [num_ws _ _ (by decide), num_digits (by omega) (by rintro _ ⟨⟩; decide), Outcome.bind_ok]
    dsimp only
    rw [num_ws _ _ (by decide), num_digits (by omega) (by rintro _ ⟨⟩; decide), Outcome.bind_ok]
    dsimp only
    rw [skip_cons _ (by decide), hF.ws, hF.back _ _ (sep_cons _ (by decide))]
    dsimp only
    rw [skip_cons _ (by decide), t1, move_text, Outcome.bind_ok]
    dsimp only
    rw [t2, cost_text, Outcome.bind_ok]
    dsimp only
    rw [size_cells hc, Outcome.map_ok]
    rfl
  unfold instance'
  rw [hload, Outcome.bind_ok]
  dsimp only
  rw [num_skip_digits (by decide) (by rintro _ ⟨⟩; decide), Outcome.bind_ok]
  dsimp only
  rw [num_ws _ _ (by decide), num_digits (by decide) (by rintro _ ⟨⟩; decide), Outcome.bind_ok]
  dsimp only
  rw [num_ws _ _ (by decide), num_digits (by omega) (by rintro _ ⟨⟩; decide), Outcome.bind_ok]
  dsimp only
  rw [num_ws _ _ (by decide), num_digits (by decide) (by rintro _ ⟨⟩; decide), Outcome.bind_ok]
  dsimp only
  rw [show 0 + 1 = 1 from rfl, blkd_first hc, blkd_last hc, index_first hc, index_last hc, Outcome.bind_ok, Outcome.bind_ok]
  cases draw ((c.seed + i) % 2 ^ 64) (rnd c.prob) 0 <;>
    cases draw ((c.seed + i) % 2 ^ 64) (rnd c.prob) ((c.w - 1) * c.h) <;> simp

/-- **C116, partial.**  If the printed probability draws the same maps, the text that the generator prints is an instance
that the solver accepts, and there is a path from its start to its goal.  Missing: the printed probability is rounded. -/
theorem c116_solvable_partial (hc : CfgOk c) {zero : Prop} {F : Fmt D} {rnd : D → D} (hF : Faithful F rnd)
    (hr : ∀ s k, draw s (rnd c.prob) k = draw s c.prob k) {t : Str} (h : Prints draw c zero F.pr t) :
    ∃ m q k, instance' F.rd draw t = .ok (m, first c, last c) ∧ m.lifecost = c.life ∧
      m.mvs = (if c.eight then eightway else fourway) ∧ IsPath m (first c) (last c) q k := by
  have hz : ¬ zero := by rcases h with ⟨h, -⟩; exact h
  obtain ⟨i, -, ⟨g1, g2, q, k, ss, p1, p2, p3⟩, -, rfl⟩ := (c116_prints hc hz).1 h
  have e : ∀ l, field draw c ((c.seed + i) % 2 ^ 64) (rnd c.prob) l = field draw c ((c.seed + i) % 2 ^ 64) c.prob l := by
    intro l
    have : draw ((c.seed + i) % 2 ^ 64) (rnd c.prob) = draw ((c.seed + i) % 2 ^ 64) c.prob := funext (hr _)
    unfold field
    rw [this]
  obtain ⟨k', hk⟩ := path_life false c.life p2
  refine ⟨field draw c ((c.seed + i) % 2 ^ 64) (rnd c.prob) c.life, q, k', ?_, rfl, rfl, ss, p1, by rw [e]; exact hk, p3⟩
  rw [c116_read hc hF, hr, hr, g1, g2]
  simp

/-! ## The finding -/

/-- `%f` for numbers that are not negative: six digits after the point; and a reader of such numbers. -/
def fixed : Fmt ℚ where
  pr x :=
    let n := ⌊1000000 * x + 1 / 2⌋.toNat
    Nat.toDigits 10 (n / 1000000) ++ '.' :: (List.replicate (6 - (Nat.toDigits 10 (n % 1000000)).length) '0' ++ Nat.toDigits 10 (n % 1000000))
  rd s :=
    let s := skip s
    let a := s.takeWhile Char.isDigit
    let t := (s.dropWhile Char.isDigit).drop 1
    let b := t.takeWhile Char.isDigit
    if a = [] then none
    else some ((Nat.ofDigitChars 10 (a ++ b) 0 : ℚ) / 10 ^ b.length, t.dropWhile Char.isDigit)

/-- The state of the generator of random numbers when its `k`-th number is returned. -/
def nth (seed : Nat) : Nat → BitVec 64
  | 0 => Rand.bits (Rand.init (BitVec.ofNat 64 seed))
  | k + 1 => Rand.bits (nth seed k)

/-- rand.cc:36-38 `real` and the comparison with the probability, without rounding. -/
def drawQ (seed : Nat) (p : ℚ) (k : Nat) : Bool := decide (((nth seed k).toNat : ℚ) / 2 ^ 64 < p)

/-- Two cells in a row, with a probability of seven digits. -/
def seven : Cfg ℚ := ⟨2, 1, 1148517 / 10000000, 21, false, false⟩

theorem seven_ok : CfgOk seven := ⟨by decide, by decide, by decide⟩

theorem step_path {draw : Nat → D → Nat → Bool} {c : Cfg D} {s : Nat} {p : D} (hc : CfgOk c) (hw : c.w = 2)
    (hop : ((if c.eight then 7 else 3 : Nat) : Int) ∈ (dom (field draw c s p false) (last c)).ops (first c))
    (ha : (dom (field draw c s p false) (last c)).app (first c) ((if c.eight then 7 else 3 : Nat) : Int) = last c) :
    ∃ q k, IsPath (field draw c s p false) (first c) (last c) q k := by
  have hi := (blkd_cell (draw := draw) (s := s) (p := p) (life := false) (loc := first c) (x := 0) hc hc.w rfl).2.1
  refine (solvable_iff (field_ok draw c s p false) hi).1 ?_
  have h := Plan.cons hop (Plan.nil _)
  refine ⟨_, _, last c, _, h, ?_, by simp [dom]⟩
  rw [ha]
  rfl

theorem seven_good : Good drawQ seven 0 := by
  refine ⟨by decide +kernel, by decide +kernel, step_path seven_ok rfl ?_ ?_⟩
  · refine mem_ops.2 ⟨by decide, .mk' 1 0 [], rfl, ?_⟩
    decide +kernel
  · decide +kernel

/-- **C116** (finding).  With a probability of seven digits the generator prints an instance that the solver rejects: the
map that was searched has a free first cell, the one that is drawn with the printed probability has not. -/
theorem c116_rounded : Prints drawQ seven (seven.prob = 0) fixed.pr "seed 21 2 1 0.114852\nFourway\nUnit\n0 0\n1 0\n".toList ∧
    instance' fixed.rd drawQ "seed 21 2 1 0.114852\nFourway\nUnit\n0 0\n1 0\n".toList = .fatal := by
  have e : "seed 21 2 1 0.114852\nFourway\nUnit\n0 0\n1 0\n".toList = out seven fixed.pr 0 := by decide +kernel
  refine ⟨?_, ?_⟩
  · rw [e]
    exact (c116_prints seven_ok (by decide +kernel)).2 ⟨0, by decide, seven_good, fun j hj => absurd hj (by omega), rfl⟩
  · have h : (instance' fixed.rd drawQ "seed 21 2 1 0.114852\nFourway\nUnit\n0 0\n1 0\n".toList).map (fun _ => ()) = .fatal := by
      decide +kernel
    revert h
    cases instance' fixed.rd drawQ "seed 21 2 1 0.114852\nFourway\nUnit\n0 0\n1 0\n".toList with
    | fatal => intro _; rfl
    | _ => intro h; cases h

/-! ## Examples -/

/-- Two free cells with life costs: no number is below the probability. -/
def free2 : Cfg ℚ := ⟨2, 1, 1 / 1000, 5, true, true⟩

theorem free2_ok : CfgOk free2 := ⟨by decide, by decide, by decide⟩

theorem free2_good : Good (fun _ _ _ => false) free2 0 := by
  refine ⟨rfl, rfl, step_path free2_ok rfl ?_ ?_⟩
  · exact mem_ops.2 ⟨by decide, .mk' 1 0 [], rfl, by decide +kernel⟩
  · decide +kernel

/-- The hypotheses of `c116_solvable_partial`. -/
example : ∃ t, Prints (fun _ _ _ => false) free2 (free2.prob = 0) (VisFile.thou VisFile.six).pr t :=
  (c116_ends free2_ok (by decide +kernel) (by decide) free2_good).imp fun _ h => h.1

example : CfgOk free2 ∧ Faithful (VisFile.thou VisFile.six) VisFile.six := ⟨free2_ok, VisFile.six_faithful⟩

/-- The hypotheses of `c116_endless`: a probability above 1. -/
example : ∀ s k, drawQ s (3 / 2) k = true := by
  intro s k
  unfold drawQ
  rw [decide_eq_true_eq, div_lt_iff₀ (by positivity)]
  have := (nth s k).isLt
  have h : ((nth s k).toNat : ℚ) < 2 ^ 64 := by exact_mod_cast this
  linarith

end Verif.SeedInst
