import Verif.Domains.Tiles
import Verif.Props.Idastar

/-!
# C39-C42, C57: the sliding tile puzzle

`W`, `H`: width and height; cells are numbered row by row; `Adjacent W i j`: cells `i` and `j` are neighbours;
`manhattan goalpos ts b`: sum of the Manhattan distances of the tiles `ts i`, `i ≠ b`, to their goal cells;
`Board s`: the blank is on the board and every other cell holds a tile.
-/

namespace Verif.Tiles

open Verif.Search Verif.Arr

variable {W H : Nat} {goalpos : Fin (W * H) → Nat}

/-- **C39 (operators).** The operators of a state are exactly the cells of the board next to the blank, each once. -/
theorem c39_ops {s : State (W * H)} (hs : Board s) :
    (∀ op : Int, op ∈ (dom goalpos).ops s ↔ ∃ i : Nat, op = i ∧ i < W * H ∧ Adjacent W s.b i) ∧
    ((dom goalpos).ops s).Nodup ∧ ((dom goalpos).ops s).length ≤ 4 := by
  refine ⟨fun op => ?_, ?_, ?_⟩
  · rw [mem_ops]
    constructor
    · rintro ⟨i, hi, rfl⟩; exact ⟨i, rfl, (mem_mvs hs.b).1 hi⟩
    · rintro ⟨i, rfl, hi⟩; exact ⟨i, (mem_mvs hs.b).2 hi, rfl⟩
  · have hW : 0 < W := by
      rcases Nat.eq_zero_or_pos W with h | h
      · have := hs.b; simp only [h, Nat.zero_mul] at this; omega
      · exact h
    show ((mvs W H s.b).map fun i : Nat => (i : Int)).Nodup
    refine List.Nodup.map (fun a b h => by exact_mod_cast h) ?_
    have hm := Nat.mod_le s.b W
    have hm2 := Nat.mod_lt s.b hW
    have hm1 : W ≤ s.b → s.b % W ≤ s.b - W := by
      intro h; rw [Nat.mod_eq_sub_mod h]; exact Nat.mod_le _ _
    unfold mvs
    split_ifs <;> simp <;> omega
  · show ((mvs W H s.b).map fun i : Nat => (i : Int)).length ≤ 4
    rw [List.length_map]
    unfold mvs
    split_ifs <;> simp

/-- **C39 (edges).** Applying an operator swaps the blank with the tile, reads only table entries that were initialised
and stays within all arrays; the destructor of the edge restores the state (up to the stale entry at the blank, which
`operator==` ignores) including its heuristic value. -/
theorem c39_edge {s : State (W * H)} (hs : Board s) {op : Int} (ho : op ∈ (dom goalpos).ops s) :
    ∃ t, edge goalpos s op = .ok (t, (s.b : Int)) ∧ Board t ∧ (t.b : Int) = op ∧
      (∀ i : Fin (W * H), i.val ≠ s.b → t.ts i = s.ts i) ∧
      (∀ i j : Fin (W * H), i.val = s.b → (j.val : Int) = op → t.ts i = s.ts j) ∧
      ∃ u, undo t (s.b : Int) s.h = .ok u ∧ u.beq s = true ∧ u.h = s.h := by
  obtain ⟨k, hk, rfl⟩ := mem_ops.1 ho
  obtain ⟨hb, hop, ht, he⟩ := edge_ok goalpos hs hk
  have hne : s.b ≠ k := ((mem_mvs hs.b).1 hk).2.ne
  refine ⟨_, he, board_update hs hb hop _ hne.symm, rfl, ?_, ?_, ?_⟩
  · intro i hi
    exact Function.update_of_ne (fun h => hi (congrArg Fin.val h)) _ _
  · rintro ⟨i, hi⟩ ⟨j, hj⟩ hib hjk
    dsimp only at hib hjk
    have e : j = k := by omega
    subst hib e
    exact Function.update_self _ _ _
  · unfold undo
    rw [if_neg (by unfold ident; omega), if_neg (by omega)]
    simp only [Int.toNat_natCast, rd_ok _ hb, Outcome.bind_ok, Function.update_self, wr_ok _ hop, Outcome.map_ok]
    refine ⟨_, rfl, ?_, rfl⟩
    unfold State.beq
    rw [if_neg (by simp), decide_eq_true_eq]
    rintro i ⟨h1, h2⟩
    apply h1
    dsimp only at h2 ⊢
    by_cases e : i = ⟨k, hop⟩
    · rw [e, Function.update_self]
    · rw [Function.update_of_ne e, Function.update_of_ne (fun h => h2 (congrArg Fin.val h))]

/-- **C39 (reverse).** On states as the searches see them (unpacked, with 0 at the blank) the reverse operator is
applicable and leads back to the same state, heuristic included, at the same cost. -/
theorem c39_reverse {s : State (W * H)} (hs : Ok goalpos s) (hc : canon s = s) {op : Int}
    (ho : op ∈ (dom goalpos).ops s) :
    (dom goalpos).rev s op ∈ (dom goalpos).ops ((dom goalpos).app s op) ∧
    (dom goalpos).app ((dom goalpos).app s op) ((dom goalpos).rev s op) = s ∧
    (dom goalpos).cost ((dom goalpos).app s op) ((dom goalpos).rev s op) = (dom goalpos).cost s op := by
  have hok := ok_app goalpos s hs op ho
  obtain ⟨t, h1, h2, h3, h4, h5, -⟩ := c39_edge (goalpos := goalpos) hs.toBoard ho
  have ht : (dom goalpos).app s op = canon t := by
    show canon (val (edge goalpos s op) s) = canon t
    rw [h1]; rfl
  obtain ⟨k, hk, hkop⟩ := mem_ops.1 ho
  have htb : t.b = k := by rw [← hkop] at h3; exact_mod_cast h3
  have hrev : (dom goalpos).rev s op ∈ (dom goalpos).ops ((dom goalpos).app s op) := by
    rw [ht]
    refine mem_ops.2 ⟨s.b, ?_, rfl⟩
    show s.b ∈ mvs W H t.b
    rw [htb]
    exact mem_mvs_symm hs.b hk
  refine ⟨hrev, ?_, rfl⟩
  have hok2 := ok_app goalpos _ hok _ hrev
  obtain ⟨u, g1, g2, g3, g4, g5, -⟩ := c39_edge (goalpos := goalpos) hok.toBoard hrev
  have hu : (dom goalpos).app ((dom goalpos).app s op) ((dom goalpos).rev s op) = canon u := by
    show canon (val (edge goalpos _ _) _) = canon u
    rw [g1]; rfl
  rw [hu] at hok2 ⊢
  have hub : u.b = s.b := by
    have : (u.b : Int) = (s.b : Int) := g3
    exact_mod_cast this
  have hts : (canon u).ts = s.ts := by
    rw [← hc]
    funext i
    show (if i.val = u.b then 0 else u.ts i) = if i.val = s.b then 0 else s.ts i
    rw [hub]
    by_cases e : i.val = s.b
    · rw [if_pos e, if_pos e]
    · rw [if_neg e, if_neg e]
      by_cases e2 : i.val = k
      · have hb : s.b < W * H := hs.b
        have hi1 : i.val = ((dom goalpos).app s op).b := by rw [ht]; show i.val = t.b; rw [htb, e2]
        rw [g5 i ⟨s.b, hb⟩ hi1 rfl, ht]
        show (if s.b = t.b then 0 else t.ts ⟨s.b, hb⟩) = _
        rw [if_neg (by rw [htb, ← e2]; exact Ne.symm e), h5 ⟨s.b, hb⟩ i rfl (by rw [e2]; exact hkop)]
      · have hi1 : i.val ≠ ((dom goalpos).app s op).b := by rw [ht]; show i.val ≠ t.b; rw [htb]; exact e2
        rw [g4 i hi1, ht]
        show (if i.val = t.b then 0 else t.ts i) = _
        rw [if_neg (by rw [htb]; exact e2), h4 i e]
  have hh : (canon u).h = s.h := by
    rw [hok2.h, hs.h, hts]
    show manhattan goalpos s.ts u.b = _
    rw [hub]
  have hb2 : (canon u).b = s.b := hub
  cases hcu : canon u
  rw [hcu] at hts hh hb2
  dsimp only at hts hh hb2
  subst hts hh hb2
  rfl

/-- The identity operator leaves the state alone and is its own reverse. -/
theorem c39_ident (s : State (W * H)) (oldh : Int) :
    edge goalpos s ident = .ok (s, ident) ∧ undo s ident oldh = .ok s := by
  unfold edge undo
  rw [if_pos rfl, if_pos rfl]
  exact ⟨rfl, rfl⟩

/-- **C40 (initial state).** For an input with exactly one blank, `initialstate` sets the blank position and the sum of
the Manhattan distances. -/
theorem c40_init {init : Fin (W * H) → Nat} {p : Fin (W * H)} (hi : Input init p) :
    ∃ s0, initialstate goalpos init = .ok s0 ∧ s0.ts = init ∧ s0.b = p.val ∧ Ok goalpos s0 ∧ canon s0 = s0 := by
  refine ⟨_, initialstate_ok goalpos init hi, rfl, rfl, ⟨⟨p.isLt, fun i hne => ?_⟩, rfl⟩, ?_⟩
  · dsimp only at hne ⊢
    have : init i ≠ 0 := fun h => hne (by rw [hi.uniq i h])
    exact ⟨by omega, hi.lt i this⟩
  · unfold canon
    congr 1
    funext i
    dsimp only
    by_cases e : i.val = p.val
    · rw [if_pos e, Fin.ext e, hi.zero]
    · rw [if_neg e]

/-- **C40 (bookkeeping).** After any sequence of operators the heuristic value carried along equals the sum of the
Manhattan distances of the tiles other than the blank. -/
theorem c40_manhattan {s0 s : State (W * H)} {c : Int} (h0 : Ok goalpos s0) (hw : Walk (dom goalpos) s0 s c) :
    (dom goalpos).goal s = decide (s.h = 0) ∧ s.h = manhattan goalpos s.ts s.b ∧ Board s :=
  ⟨rfl, (hw.inv (ok_app goalpos) h0).h, (hw.inv (ok_app goalpos) h0).toBoard⟩

/-- **C40 (in place).** The same for IDA*, which applies edges in place without packing. -/
theorem c40_inplace {s : State (W * H)} (hs : Ok goalpos s) {op : Int} (ho : op ∈ (dom goalpos).ops s) :
    ∃ t, edge goalpos s op = .ok (t, (s.b : Int)) ∧ t.h = manhattan goalpos t.ts t.b ∧ Board t := by
  obtain ⟨k, hk, rfl⟩ := mem_ops.1 ho
  obtain ⟨t, h1, h2, -⟩ := ok_edge hs hk
  exact ⟨t, h1, h2.h, h2.toBoard⟩

/-- **C41 (consistency).** One move changes the heuristic by exactly one, its cost. -/
theorem c41_consistent {s : State (W * H)} (hs : Ok goalpos s) {op : Int} (ho : op ∈ (dom goalpos).ops s) :
    |((dom goalpos).app s op).h - s.h| = (dom goalpos).cost s op := by
  obtain ⟨k, hk, rfl⟩ := mem_ops.1 ho
  obtain ⟨hb, hop, ht, he⟩ := edge_ok goalpos hs.toBoard hk
  show |(canon (val (edge goalpos s (k : Int)) s)).h - s.h| = 1
  rw [he]
  show |s.h + _ - s.h| = 1
  rw [add_sub_cancel_left]
  exact mdval_adjacent ((mem_mvs hs.b).1 hk).2

/-- **C41 (goal).** The goal test `h == 0` succeeds iff every tile is at its goal cell. -/
theorem c41_goal {s : State (W * H)} (hs : Ok goalpos s) :
    (dom goalpos).goal s = true ↔
      ∀ i : Fin (W * H), i.val ≠ s.b → ∀ t : Fin (W * H), t.val = s.ts i → goalpos t = i.val := by
  show decide (s.h = 0) = true ↔ _
  rw [decide_eq_true_eq, hs.h]
  unfold manhattan
  rw [Finset.sum_eq_zero_iff_of_nonneg]
  · constructor
    · intro h i hi t ht
      have h1 := h i (Finset.mem_univ i)
      have ht' : s.ts i < W * H := (hs.tile i hi).2
      rw [if_neg hi, dif_pos ht', mdval_eq_zero] at h1
      rw [h1]
      congr 1
      exact Fin.ext ht
    · intro h i _
      split_ifs with h1 h2
      · rfl
      · rw [mdval_eq_zero]; exact (h i h1 ⟨s.ts i, h2⟩ rfl).symm
      · rfl
  · intro i _
    split_ifs
    · exact le_rfl
    · exact mdval_nonneg _ _ _
    · exact le_rfl

theorem domOk {s0 : State (W * H)} (hs : Ok goalpos s0) (hc : canon s0 = s0) : DomOk (dom goalpos) s0 := by
  refine DomOk.of_inv (I := fun s => Ok goalpos s ∧ canon s = s) ⟨hs, hc⟩ ?_ (fun _ _ _ _ => Int.one_nonneg)
    (fun s hs op ho _ => (c39_reverse hs.1 hs.2 ho).2.1) (fun s _ h => ?_)
  · rintro s ⟨h1, h2⟩ op ho
    refine ⟨ok_app goalpos s h1 op ho, ?_⟩
    show canon (canon _) = canon _
    unfold canon
    congr 1
    funext i
    dsimp only
    split_ifs <;> rfl
  · obtain ⟨i, _, hi⟩ := mem_ops.1 h
    have : ((i : Nat) : Int) = -1 := hi
    omega

theorem admissible {s0 : State (W * H)} (hs : Ok goalpos s0) : Admissible (dom goalpos) s0 State.h 0 :=
  Admissible.of_consistent (I := Ok goalpos) hs (ok_app goalpos)
    (fun s hs op ho => by
      have h1 := c41_consistent hs ho
      have h2 := neg_abs_le (((dom goalpos).app s op).h - s.h)
      linarith)
    (fun s _ hg => by simpa [dom] using hg)

theorem plan_cost {s : State (W * H)} {os : List Int} {ss : List (State (W * H))} {c : Int}
    (h : Plan (dom goalpos) s os ss c) : c = os.length := by
  induction h with
  | nil => rfl
  | cons _ _ ih => rw [ih]; simp only [dom, List.length_cons]; push_cast; ring

/-- **C41 (admissibility).** The heuristic never exceeds the number of moves of any plan that brings every tile to its
goal cell. -/
theorem c41_admissible {s0 : State (W * H)} (hs : Ok goalpos s0) {ops : List Int} {ss : List (State (W * H))} {c : Int}
    (hp : Plan (dom goalpos) s0 ops ss c) {t : State (W * H)} (ht : (s0 :: ss).getLast? = some t)
    (hg : ∀ i : Fin (W * H), i.val ≠ t.b → ∀ x : Fin (W * H), x.val = t.ts i → goalpos x = i.val) :
    s0.h ≤ ops.length := by
  have hw := hp.last_walk ht
  have := (admissible hs).2 s0 0 (.nil s0) t c hw ((c41_goal (hw.inv (ok_app goalpos) hs)).2 hg)
  rw [plan_cost hp] at this
  omega

/-- **C41 (A* and IDA* end to end).** A path returned by A* solves the puzzle with as few moves as possible. -/
theorem c41_astar {init : Fin (W * H) → Nat} {p : Fin (W * H)} (hi : Input init p) {s0 : State (W * H)}
    (h0 : initialstate goalpos init = .ok s0) {l : Limit} {st : St (State (W * H)) Int Int Int}
    {r : List (State (W * H)) × List Int} (hr : Run (dom goalpos) (astar State.h) s0 l st r) (hne : r ≠ ([], [])) :
    (∃ ss c, r.1.reverse = s0 :: ss ∧ Plan (dom goalpos) s0 r.2.reverse ss c ∧ ∃ t, r.1.head? = some t ∧
      ∀ i : Fin (W * H), i.val ≠ t.b → ∀ x : Fin (W * H), x.val = t.ts i → goalpos x = i.val) ∧
    ∀ ops ss c t, Plan (dom goalpos) s0 ops ss c → (s0 :: ss).getLast? = some t →
      (∀ i : Fin (W * H), i.val ≠ t.b → ∀ x : Fin (W * H), x.val = t.ts i → goalpos x = i.val) →
      r.2.length ≤ ops.length := by
  obtain ⟨s1, e1, -, -, e2, e3⟩ := c40_init (goalpos := goalpos) hi
  rw [h0] at e1
  injection e1 with e1
  subst e1
  obtain ⟨c, ⟨ss, h1, h2, t, h3, h4⟩, hopt⟩ := c30_optimal (domOk e2 e3).undo (admissible e2) hr hne
  have hlast : (s0 :: ss).getLast? = some t := by rw [← h1, List.getLast?_reverse, h3]
  have hw := h2.last_walk hlast
  refine ⟨⟨ss, c, h1, h2, t, h3, (c41_goal (hw.inv (ok_app goalpos) e2)).1 h4⟩, ?_⟩
  intro ops ss' c' t' hpl ht' hg
  have hw' := hpl.last_walk ht'
  have := hopt ops ss' t' c' hpl ht' ((c41_goal (hw'.inv (ok_app goalpos) e2)).2 hg)
  rw [plan_cost h2, plan_cost hpl, List.length_reverse] at this
  omega

/-- **C42 (round trip).** For at most 16 cells, packing a board and unpacking the word, into any buffer, gives back the
blank, the tiles (0 at the blank) and the sum of Manhattan distances, without leaving any array. -/
theorem c42_roundtrip (hn : W * H ≤ 16) {s : State (W * H)} (hs : Ok goalpos s) (buf : Fin (W * H) → Nat) :
    ∃ w, pack s = .ok w ∧ w < 2 ^ 64 ∧ unpack goalpos buf w = .ok (canon s) ∧ (canon s).beq s = true := by
  have hts : Function.update s.ts ⟨s.b, hs.b⟩ 0 = (canon s).ts := by
    funext i
    show _ = if i.val = s.b then 0 else s.ts i
    by_cases e : i = ⟨s.b, hs.b⟩
    · rw [e, Function.update_self, if_pos rfl]
    · rw [Function.update_of_ne e, if_neg (fun h => e (Fin.ext h))]
  have hlt : ∀ i, (canon s).ts i < 16 := by
    intro i
    show (if i.val = s.b then 0 else s.ts i) < 16
    split_ifs with h
    · omega
    · have := (hs.tile i h).2; omega
  have htn : ∀ i, (canon s).ts i ≠ 0 → (canon s).ts i < W * H := by
    intro i
    show (if i.val = s.b then 0 else s.ts i) ≠ 0 → (if i.val = s.b then 0 else s.ts i) < W * H
    split_ifs with h
    · intro h; omega
    · exact fun _ => (hs.tile i h).2
  have hz : (canon s).ts ⟨s.b, hs.b⟩ = 0 := if_pos rfl
  have hu : ∀ i, (canon s).ts i = 0 → i = ⟨s.b, hs.b⟩ := by
    intro i
    show (if i.val = s.b then 0 else s.ts i) = 0 → _
    split_ifs with h
    · exact fun _ => Fin.ext h
    · intro h0; have := (hs.tile i h).1; omega
  refine ⟨word (canon s).ts (W * H), ?_, ?_, ?_, ?_⟩
  · unfold pack
    rw [wr_ok _ hs.b, Outcome.bind_ok, hts]
    exact packWord_ok hn hlt
  · have h1 := word_lt hlt (W * H)
    have h2 : 16 ^ (W * H) ≤ 16 ^ 16 := Nat.pow_le_pow_right (by norm_num) hn
    have h3 : (16 : Nat) ^ 16 = 2 ^ 64 := by norm_num
    omega
  · obtain ⟨b', e1, -, e3⟩ := unpackLoop_ok goalpos hlt htn (W * H) le_rfl buf (-1) 0
    have hb' := e3 ⟨s.b, hs.b⟩ hs.b hz hu
    dsimp only at hb'
    unfold unpack
    rw [e1, Outcome.bind_ok, hb']
    dsimp only
    rw [if_neg (by omega), Int.toNat_natCast]
    have e4 : (fun i : Fin (W * H) => if i.val < W * H then (canon s).ts i else buf i) = (canon s).ts := by
      funext i; rw [if_pos i.isLt]
    have e5 : (0 + ∑ i : Fin (W * H), if i.val < W * H then (if (canon s).ts i = 0 then 0 else
          if hh : (canon s).ts i < W * H then mdval W (goalpos ⟨(canon s).ts i, hh⟩) i.val else 0) else 0) = s.h := by
      rw [zero_add, hs.h, ← manhattan_canon, show (canon s).b = (⟨s.b, hs.b⟩ : Fin (W * H)).val from rfl,
        ← sum_unique goalpos (canon s).ts hz hu]
      refine Finset.sum_congr rfl fun i _ => ?_
      rw [if_pos i.isLt]
    rw [e4, e5]
    rfl
  · unfold State.beq
    rw [if_neg (by simp [canon]), decide_eq_true_eq]
    rintro i ⟨h1, h2⟩
    exact h1 (if_neg h2)

/-- **C42 (equality).** Two boards are equal for `operator==` iff their packed words are equal; equal words also have
equal hash values, the hash being the word. -/
theorem c42_eq (hn : W * H ≤ 16) {s t : State (W * H)} (hs : Ok goalpos s) (ht : Ok goalpos t) :
    s.beq t = true ↔ pack s = pack t := by
  obtain ⟨w, h1, -, h2, h3⟩ := c42_roundtrip hn hs s.ts
  obtain ⟨v, g1, -, g2, g3⟩ := c42_roundtrip hn ht s.ts
  constructor
  · intro h
    unfold State.beq at h
    have hb : s.b = t.b := by
      by_contra hc
      rw [if_pos hc] at h
      exact absurd h (by simp)
    rw [if_neg (by simpa using hb), decide_eq_true_eq] at h
    unfold pack
    rw [wr_ok _ hs.b, wr_ok _ ht.b]
    congr 2
    funext i
    by_cases e : i = ⟨s.b, hs.b⟩
    · have e' : i = ⟨t.b, ht.b⟩ := by rw [e]; exact Fin.ext hb
      rw [e, Function.update_self, ← e, e', Function.update_self]
    · have e' : i ≠ ⟨t.b, ht.b⟩ := fun hh => e (by rw [hh]; exact Fin.ext hb.symm)
      rw [Function.update_of_ne e, Function.update_of_ne e']
      by_contra hc
      exact h i ⟨hc, fun hh => e (Fin.ext hh)⟩
  · intro h
    rw [h1, g1] at h
    injection h with h
    subst h
    rw [h2] at g2
    injection g2 with g2
    unfold State.beq
    have hb : s.b = t.b := show (canon s).b = (canon t).b by rw [g2]
    rw [if_neg (by simpa using hb), decide_eq_true_eq]
    rintro i ⟨h4, h5⟩
    apply h4
    have := congrFun (congrArg State.ts g2) i
    have e1 : (canon s).ts i = s.ts i := if_neg h5
    have e2 : (canon t).ts i = t.ts i := if_neg (by rw [← hb]; exact h5)
    rw [← e1, ← e2, this]

/-- **C57, negation.** An instance of the wrong size is accepted if one of its two dimensions agrees (the code tests
`w != Width && h != HEIGHT`): a 3 by 4 instance is read as a 3 by 3 one. -/
theorem c57_wrong_size_accepted :
    ∃ r, readruml 3 3 3 4 [0, 1, 2, 3, 4, 5, 6, 7, 8, 9, 10, 11] [0, 1, 2, 3, 4, 5, 6, 7, 8, 9, 10, 11] = .ok r := by
  refine ⟨_, rfl⟩

/-- **C57, negation.** A starting position outside the board is an access out of bounds, not an error message. -/
theorem c57_position_ub : readruml 3 3 3 3 [0, 1, 2, 3, 4, 5, 6, 7, 9] [0, 1, 2, 3, 4, 5, 6, 7, 8] = .ub := rfl

theorem readStart_ok {n : Nat} (ps : List Nat) (t : Nat) (a : Fin n → Option Nat) (hp : ∀ p ∈ ps, p < n) :
    ∃ a', readStart n t ps a = .ok a' ∧
      (∀ i : Fin n, (∀ k : Nat, ps[k]? ≠ some i.val) → a' i = a i) ∧
      (ps.Nodup → ∀ k : Nat, ∀ i : Fin n, ps[k]? = some i.val → a' i = some (t + k)) := by
  induction ps generalizing t a with
  | nil => exact ⟨a, rfl, fun _ _ => rfl, fun _ k i h => by simp at h⟩
  | cons p ps ih =>
    have hpn : p < n := hp p (List.mem_cons_self ..)
    obtain ⟨a', h1, h2, h3⟩ := ih (t + 1) (Function.update a ⟨p, hpn⟩ (some t)) (fun q hq => hp q (List.mem_cons_of_mem _ hq))
    refine ⟨a', ?_, fun i hi => ?_, fun hnd k i hk => ?_⟩
    · unfold readStart
      rw [wr_ok _ hpn, Outcome.bind_ok, h1]
    · rw [h2 i (fun k => by have := hi (k + 1); rwa [List.getElem?_cons_succ] at this)]
      refine Function.update_of_ne (fun h => hi 0 ?_) _ _
      rw [List.getElem?_cons_zero, h]
    · rw [List.nodup_cons] at hnd
      cases k with
      | zero =>
        rw [List.getElem?_cons_zero] at hk
        have e : i = ⟨p, hpn⟩ := Fin.ext (Option.some.inj hk).symm
        rw [h2 i (fun k hk' => hnd.1 ?_), e, Function.update_self, Nat.add_zero]
        rw [Option.some.inj hk]
        exact List.mem_of_getElem? hk'
      | succ k =>
        rw [List.getElem?_cons_succ] at hk
        rw [h3 hnd.2 k i hk]
        congr 1
        omega

/-- **C57, what does hold.** If the dimensions agree and the starting positions are different cells of the board, the
instance is read: tile `t` is put on its starting position.  Missing: the rejection of other files. -/
theorem c57_read_partial {starts goals : List Nat} (hm : W * H < 2 ^ 32) (hs : starts.length = W * H)
    (hg : goals.length = W * H) (hp : ∀ p ∈ starts, p < W * H) (hnd : starts.Nodup) :
    ∃ init, readruml W H W H starts goals = .ok (init, fun i => goals.getD i.val 0) ∧
      ∀ t : Nat, ∀ i : Fin (W * H), starts[t]? = some i.val → init i = some t := by
  obtain ⟨a, h1, -, h3⟩ := readStart_ok starts 0 (fun _ : Fin (W * H) => none) hp
  refine ⟨a, ?_, fun t i h => by rw [h3 hnd t i h, Nat.zero_add]⟩
  unfold readruml
  have hc : SafeOps.canMulU (2 ^ 32) W H = true := by
    unfold SafeOps.canMulU SafeOps.mulU
    rw [if_neg]
    · simp
    · rintro ⟨_, h0, h⟩
      have := Nat.le_div_iff_mul_le h0 |>.2 (show W * H ≤ 2 ^ 32 - 1 by omega)
      omega
  rw [hc, if_neg (by simp), if_neg (by simp), if_neg (by omega), List.take_of_length_le (by omega), h1, Outcome.bind_ok,
    if_neg (by omega)]

/-! ### Examples: the board
```
3 1 2
0 4 5
6 7 8
```
whose goal has every tile at the cell with its number. -/

/-- goal positions -/
def g9 : Fin (3 * 3) → Nat := fun i => i.val
/-- input -/
def i9 : Fin (3 * 3) → Nat := fun i => [3, 1, 2, 0, 4, 5, 6, 7, 8].getD i.val 0

example : Input i9 ⟨3, by decide⟩ := ⟨by decide, by decide, by decide⟩
example : (initialstate g9 i9).map (fun s => (s.b, s.h)) = .ok (3, 1) := by decide +kernel
example : (dom g9).ops ⟨i9, 3, 1⟩ = [0, 4, 6] := by decide +kernel
example : (edge g9 ⟨i9, 3, 1⟩ 0).map (fun r => (List.ofFn r.1.ts, r.1.b, r.1.h, r.2)) =
    .ok ([3, 1, 2, 3, 4, 5, 6, 7, 8], 0, 0, 3) := by decide +kernel
example : pack (⟨i9, 3, 1⟩ : State (3 * 3)) = .ok 0x312045678 := by decide +kernel
example : (unpack g9 (fun _ => 99) 0x312045678).map (fun s => (List.ofFn s.ts, s.b, s.h)) =
    .ok ([3, 1, 2, 0, 4, 5, 6, 7, 8], 3, 1) := by decide +kernel
example : (3 : Nat) * 3 ≤ 16 := by decide

end Verif.Tiles
