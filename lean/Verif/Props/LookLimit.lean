import Verif.Props.Limits
import Mathlib.Algebra.Order.BigOperators.Group.List
import Mathlib.Tactic.Ring

/-!
# The look-ahead of the real-time searches (C102)
-/

namespace Verif.Limits

open Verif.Str (Str isws)

/-! ## The look-ahead on the command line -/

theorem after_append {name v : Str} {post : List Str} : ∀ {pre : List Str} (_ : name ∉ pre),
    after name (pre ++ name :: v :: post) = some v
  | [], _ => by rw [List.nil_append, after, if_pos rfl]
  | [w], h => by
    have : w ≠ name := fun e => h (by simp [e])
    rw [List.cons_append, List.nil_append, after, if_neg this, after, if_pos rfl]
  | w :: u :: pre, h => by
    have : w ≠ name := fun e => h (by simp [e])
    rw [List.cons_append, List.cons_append, after, if_neg this]
    exact after_append (pre := u :: pre) fun h' => h (List.mem_cons_of_mem _ h')

theorem after_none {name : Str} : ∀ {ws : List Str} (_ : name ∉ ws), after name ws = none
  | [], _ => rfl
  | [_], _ => rfl
  | w :: u :: ws, h => by
    have : w ≠ name := fun e => h (by simp [e])
    rw [after, if_neg this]
    exact after_none (ws := u :: ws) fun h' => h (List.mem_cons_of_mem _ h')

/-- **C102 (the look-ahead given).** Without `-dynlss` the look-ahead is the number after the first `-lookahead`, if it is a number from 1
to `2^32 - 1`. -/
theorem c102_lookahead (sd : Str → Option ℚ × Str) {pre post : List Str} {n : Nat} (h1 : "-lookahead".toList ∉ pre)
    (h2 : "-dynlss".toList ∉ pre ++ "-lookahead".toList :: Nat.toDigits 10 n :: post) (hn : 0 < n) (hb : n < 2 ^ 32) :
    fromArgs sd (pre ++ "-lookahead".toList :: Nat.toDigits 10 n :: post) = .ok (.expansion n) := by
  have e : strtoul (Nat.toDigits 10 n) = n := by rw [c101_number, if_pos (by omega)]
  rw [fromArgs, after_append h1]
  simp only [e, Nat.mod_eq_of_lt hb]
  rw [if_neg (by omega), after_none h2]

example : fromArgs (fun w => (none, w)) (["x".toList, "lsslrtastar2".toList] ++ "-lookahead".toList :: Nat.toDigits 10 10 :: []) =
    .ok (.expansion 10) := c102_lookahead _ (by decide) (by decide) (by decide) (by decide)

/-- **C102 (no look-ahead).** Without the option, or with value 0, the program ends with a message. -/
theorem c102_missing (sd : Str → Option ℚ × Str) {argv : List Str} (h : "-lookahead".toList ∉ argv) : fromArgs sd argv = .fatal := by
  rw [fromArgs, after_none h]
  dsimp only
  rw [if_pos (by omega)]

example : fromArgs (fun w => (none, w)) ["x".toList, "dtastar".toList] = .fatal := c102_missing _ (by decide)

/-- **C102 (the violation: large numbers).** A larger number is cut to 32 bits: the search is run with another
look-ahead, without a message. -/
theorem c102_cut (sd : Str → Option ℚ × Str) {pre post : List Str} {n : Nat} (h1 : "-lookahead".toList ∉ pre)
    (h2 : "-dynlss".toList ∉ pre ++ "-lookahead".toList :: Nat.toDigits 10 n :: post) (hn : n % 2 ^ 32 ≠ 0) (hb : n < 2 ^ 64) :
    fromArgs sd (pre ++ "-lookahead".toList :: Nat.toDigits 10 n :: post) = .ok (.expansion (n % 2 ^ 32)) := by
  have e : strtoul (Nat.toDigits 10 n) = n := by rw [c101_number, if_pos hb]
  rw [fromArgs, after_append h1]
  simp only [e]
  rw [if_neg (by omega), after_none h2]

example : fromArgs (fun w => (none, w)) ([] ++ "-lookahead".toList :: Nat.toDigits 10 (2 ^ 32 + 1) :: []) = .ok (.expansion 1) :=
  c102_cut _ (by decide) (by decide +kernel) (by decide) (by decide)

/-- **C102 (the violation: what is no number).** The test for numbers (search.cc:184) never fails. -/
theorem c102_not_a_number (sd : Str → Option ℚ × Str) :
    fromArgs sd ["x".toList, "dtastar".toList, "-lookahead".toList, "2x0".toList] = .ok (.expansion 2) := by
  have e : after "-lookahead".toList ["x".toList, "dtastar".toList, "-lookahead".toList, "2x0".toList] = some "2x0".toList :=
    after_append (pre := ["x".toList, "dtastar".toList]) (by decide)
  have e2 : strtoul "2x0".toList = 2 := by decide +kernel
  rw [fromArgs, e]
  simp only [e2]
  rw [after_none (by decide)]
  rfl

/-! ## How many expansions -/

theorem stops_aux (lim : Nat) : ∀ (k n : Nat), n + k ≤ 2 ^ 32 →
    stops lim k n = List.replicate (min k (lim - n)) false ++ List.replicate (k - (lim - n)) true
  | 0, n, _ => by simp [stops]
  | k + 1, n, h => by
    rw [stops, stop]
    dsimp only
    by_cases hk : k = 0
    · subst hk
      by_cases hl : lim ≤ n
      · have : lim - n = 0 := by omega
        simp [stops, hl, this]
      · have h1 : min (0 + 1) (lim - n) = 1 := by omega
        have h2 : 0 + 1 - (lim - n) = 0 := by omega
        rw [h1, h2]
        simp [stops, hl]
    · rw [Nat.mod_eq_of_lt (by omega), stops_aux lim k (n + 1) (by omega)]
      by_cases hl : lim ≤ n
      · have h1 : lim - (n + 1) = 0 := by omega
        have h2 : lim - n = 0 := by omega
        rw [h1, h2]
        simp [hl, List.replicate_succ]
      · have h1 : min (k + 1) (lim - n) = min k (lim - (n + 1)) + 1 := by omega
        have h2 : k + 1 - (lim - n) = k - (lim - (n + 1)) := by omega
        rw [h1, h2]
        simp [hl, List.replicate_succ]

/-- The loop leaves the scale alone if there is no `-gscale`, and the level if there is no `-lvl`. -/
theorem dynargs_absent (sd : Str → Option ℚ × Str) : ∀ (ws : List Str) (r r' : Str × ℚ), dynargs sd ws r = .ok r' →
    ("-gscale".toList ∉ ws → r'.2 = r.2) ∧ ("-lvl".toList ∉ ws → r'.1 = r.1)
  | [], r, r', h => by cases h; exact ⟨fun _ => rfl, fun _ => rfl⟩
  | [_], r, r', h => by cases h; exact ⟨fun _ => rfl, fun _ => rfl⟩
  | w :: v :: rest, r, r', h => by
    rw [dynargs] at h
    by_cases h1 : w = "-lvl".toList
    · rw [if_pos h1] at h
      have := dynargs_absent sd rest _ _ h
      exact ⟨fun hn => this.1 fun hm => hn (List.mem_cons_of_mem _ (List.mem_cons_of_mem _ hm)),
        fun hn => absurd (h1 ▸ List.mem_cons_self) hn⟩
    rw [if_neg h1] at h
    by_cases h2 : w = "-gscale".toList
    · rw [if_pos h2] at h
      dsimp only at h
      split at h
      · cases h
      · split at h
        · cases h
        · have := dynargs_absent sd rest _ _ h
          exact ⟨fun hn => absurd (h2 ▸ List.mem_cons_self) hn,
            fun hn => this.2 fun hm => hn (List.mem_cons_of_mem _ (List.mem_cons_of_mem _ hm))⟩
    rw [if_neg h2] at h
    have := dynargs_absent sd (v :: rest) _ _ h
    exact ⟨fun hn => this.1 fun hm => hn (List.mem_cons_of_mem _ hm), fun hn => this.2 fun hm => hn (List.mem_cons_of_mem _ hm)⟩

/-- **C102 (the arguments of `-dynlss`).** A look-ahead by time is only made with a positive `-gscale`, a level that is not
empty, and a positive `-lookahead`; if one of the three options is missing there is none. -/
theorem c102_dynamic (sd : Str → Option ℚ × Str) {argv : List Str} {alg root level : Str} {n : Nat} {g : ℚ}
    (h : fromArgs sd argv = .ok (.dynamic alg root level n g)) :
    "-gscale".toList ∈ argv ∧ 0 < g ∧ "-lvl".toList ∈ argv ∧ level ≠ [] ∧ "-lookahead".toList ∈ argv ∧ 0 < n ∧ n < 2 ^ 32 ∧
      argv[1]? = some alg ∧ after "-dynlss".toList argv = some root := by
  have hl : "-lookahead".toList ∈ argv := by
    by_contra hn
    rw [c102_missing sd hn] at h
    cases h
  rw [fromArgs] at h
  split at h
  · cases h
  split at h
  · cases h
  rename_i hlk
  split at h
  · cases h
  rename_i root' hr
  obtain ⟨r, h1, h2⟩ := Outcome.bind_eq_ok.1 h
  have ha := dynargs_absent sd _ _ _ h1
  split at h2
  · cases h2
  rename_i hg
  split at h2
  · cases h2
  rename_i hv
  split at h2
  · cases h2
  rename_i alg' halg
  simp only [Outcome.ok.injEq, Look.dynamic.injEq] at h2
  obtain ⟨rfl, rfl, rfl, rfl, rfl⟩ := h2
  refine ⟨?_, not_le.1 hg, ?_, hv, hl, by omega, ?_, halg, hr⟩
  · by_contra hn
    rw [ha.1 hn] at hg
    exact hg (by norm_num)
  · by_contra hn
    exact hv (ha.2 hn)
  · exact Nat.mod_lt _ (by norm_num)

example : ∃ sd, fromArgs sd ["x".toList, "dtastar".toList, "-lookahead".toList, "5".toList, "-dynlss".toList, "d".toList, "-gscale".toList,
    "1".toList, "-lvl".toList, "l".toList] = .ok (.dynamic "dtastar".toList "d".toList "l".toList 5 1) :=
  ⟨fun _ => (some 1, []), by rfl⟩

/-- **C102 (the look-ahead is the number of expansions).** After `start` the first `lim` tests allow an expansion, and the others do not. -/
theorem c102_budget (lim : Nat) {k : Nat} (hk : k ≤ 2 ^ 32) :
    stops lim k 0 = List.replicate (min k lim) false ++ List.replicate (k - lim) true := by
  have := stops_aux lim k 0 (by omega)
  rwa [Nat.sub_zero] at this

example : stops 3 5 0 = [false, false, false, true, true] := c102_budget 3 (k := 5) (by decide)

/-! ## The table of times -/

/-- The table says for every size that occurs in the runs the longest time of the runs of that size. -/
def Exact (runs : List (Nat × ℚ)) (tab : List Entry) : Prop :=
  (∀ e ∈ tab, (∃ r ∈ runs, r = (e.size, e.time) ∧ 0 ≤ r.2) ∧ ∀ r ∈ runs, r.1 = e.size → r.2 ≤ e.time) ∧
  ∀ r ∈ runs, 0 ≤ r.2 → ∃ e ∈ tab, e.size = r.1

/-- No size twice. -/
def Once (tab : List Entry) : Prop := (tab.map Entry.size).Nodup

theorem enter_mem {k : Nat} {t : ℚ} : ∀ {tab : List Entry} (_ : Once tab) {x : Entry}, x ∈ enter tab k t ↔
    (x ∈ tab ∧ x.size ≠ k) ∨ (∃ e ∈ tab, e.size = k ∧ x = ⟨k, max e.time t⟩) ∨ ((∀ e ∈ tab, e.size ≠ k) ∧ x = ⟨k, t⟩)
  | [], _, x => by simp [enter]
  | e :: es, ho, x => by
    have ho' : Once es := (List.nodup_cons.1 ho).2
    have hn : ∀ y ∈ es, y.size ≠ e.size := fun y hy h => (List.nodup_cons.1 ho).1 (List.mem_map.2 ⟨y, hy, h⟩)
    rw [enter]
    by_cases hk : e.size = k
    · rw [if_pos hk]
      subst hk
      constructor
      · intro h
        rcases List.mem_cons.1 h with rfl | h
        · exact Or.inr (Or.inl ⟨e, List.mem_cons_self, rfl, rfl⟩)
        · exact Or.inl ⟨List.mem_cons_of_mem _ h, hn x h⟩
      · rintro (⟨h, h'⟩ | ⟨y, hy, h1, rfl⟩ | ⟨h, -⟩)
        · rcases List.mem_cons.1 h with rfl | h
          · exact absurd rfl h'
          · exact List.mem_cons_of_mem _ h
        · rcases List.mem_cons.1 hy with rfl | hy
          · exact List.mem_cons_self
          · exact absurd h1 (hn y hy)
        · exact absurd rfl (h e List.mem_cons_self)
    · rw [if_neg hk, List.mem_cons, enter_mem ho']
      constructor
      · rintro (rfl | ⟨h, h'⟩ | ⟨y, hy, h⟩ | ⟨h, h'⟩)
        · exact Or.inl ⟨List.mem_cons_self, hk⟩
        · exact Or.inl ⟨List.mem_cons_of_mem _ h, h'⟩
        · exact Or.inr (Or.inl ⟨y, List.mem_cons_of_mem _ hy, h⟩)
        · refine Or.inr (Or.inr ⟨fun y hy => ?_, h'⟩)
          rcases List.mem_cons.1 hy with rfl | hy
          · exact hk
          · exact h y hy
      · rintro (⟨h, h'⟩ | ⟨y, hy, h1, h2⟩ | ⟨h, h'⟩)
        · rcases List.mem_cons.1 h with rfl | h
          · exact Or.inl rfl
          · exact Or.inr (Or.inl ⟨h, h'⟩)
        · rcases List.mem_cons.1 hy with rfl | hy
          · exact absurd h1 hk
          · exact Or.inr (Or.inr (Or.inl ⟨y, hy, h1, h2⟩))
        · exact Or.inr (Or.inr (Or.inr ⟨fun y hy => h y (List.mem_cons_of_mem _ hy), h'⟩))

theorem enter_sizes {k : Nat} {t : ℚ} : ∀ (tab : List Entry), (enter tab k t).map Entry.size =
    if k ∈ tab.map Entry.size then tab.map Entry.size else tab.map Entry.size ++ [k]
  | [] => by simp [enter]
  | e :: es => by
    rw [enter]
    by_cases hk : e.size = k
    · rw [if_pos hk, if_pos (by simp [hk])]; simp
    · rw [if_neg hk, List.map_cons, enter_sizes es]
      have : k ∈ List.map Entry.size (e :: es) ↔ k ∈ List.map Entry.size es := by
        simp [List.mem_cons, Ne.symm hk]
      by_cases h : k ∈ List.map Entry.size es
      · rw [if_pos h, if_pos (this.2 h)]; rfl
      · rw [if_neg h, if_neg fun h' => h (this.1 h')]; rfl

theorem enter_once {k : Nat} {t : ℚ} {tab : List Entry} (h : Once tab) : Once (enter tab k t) := by
  unfold Once
  rw [enter_sizes]
  split
  · exact h
  · rename_i hk
    exact List.nodup_append.2 ⟨h, by simp, fun a ha b hb => by
      simp only [List.mem_singleton] at hb
      subst hb
      rintro rfl
      exact hk ha⟩

theorem enterAll_exact : ∀ (runs done : List (Nat × ℚ)) (tab : List Entry), Once tab → Exact done tab →
    Once (enterAll tab runs) ∧ Exact (done ++ runs) (enterAll tab runs)
  | [], done, tab, ho, he => by rw [List.append_nil]; exact ⟨ho, he⟩
  | (k, t) :: runs, done, tab, ho, he => by
    have e1 : done ++ (k, t) :: runs = (done ++ [(k, t)]) ++ runs := by simp
    rw [e1]
    have e2 : enterAll tab ((k, t) :: runs) = enterAll (if t < 0 then tab else enter tab k t) runs := rfl
    rw [e2]
    by_cases ht : t < 0
    · rw [if_pos ht]
      refine enterAll_exact runs _ tab ho ⟨fun e hm => ?_, fun r hr h0 => ?_⟩
      · obtain ⟨⟨r, hr, h1, h2⟩, h3⟩ := he.1 e hm
        refine ⟨⟨r, by simp [hr], h1, h2⟩, fun r' hr' h' => ?_⟩
        rcases List.mem_append.1 hr' with hr' | hr'
        · exact h3 r' hr' h'
        · simp only [List.mem_singleton] at hr'
          subst hr'
          rw [h1] at h2
          exact ht.le.trans h2
      · rcases List.mem_append.1 hr with hr | hr
        · exact he.2 r hr h0
        · simp only [List.mem_singleton] at hr
          subst hr
          exact absurd ht (not_lt.2 h0)
    · rw [if_neg ht]
      refine enterAll_exact runs _ _ (enter_once ho) ⟨fun e hm => ?_, fun r hr h0 => ?_⟩
      · rcases (enter_mem ho).1 hm with ⟨h, h'⟩ | ⟨y, hy, h1, rfl⟩ | ⟨h, rfl⟩
        · obtain ⟨⟨r, hr, h1, h2⟩, h3⟩ := he.1 e h
          refine ⟨⟨r, by simp [hr], h1, h2⟩, fun r' hr' h'' => ?_⟩
          rcases List.mem_append.1 hr' with hr' | hr'
          · exact h3 r' hr' h''
          · simp only [List.mem_singleton] at hr'
            subst hr'
            exact absurd h''.symm h'
        · obtain ⟨⟨r, hr, h2, h3⟩, h4⟩ := he.1 y hy
          refine ⟨?_, fun r' hr' h' => ?_⟩
          · rcases max_choice y.time t with hc | hc
            · exact ⟨r, by simp [hr], by rw [h2, hc, h1], h3⟩
            · exact ⟨(k, t), by simp, by rw [hc], not_lt.1 ht⟩
          · rcases List.mem_append.1 hr' with hr' | hr'
            · exact (h4 r' hr' (by rw [h', h1])).trans (le_max_left _ _)
            · simp only [List.mem_singleton] at hr'
              subst hr'
              exact le_max_right _ _
        · refine ⟨⟨(k, t), by simp, rfl, not_lt.1 ht⟩, fun r' hr' h' => ?_⟩
          rcases List.mem_append.1 hr' with hr' | hr'
          · by_cases h0 : 0 ≤ r'.2
            · obtain ⟨y, hy, h2⟩ := he.2 r' hr' h0
              exact absurd (h2.trans h') (h y hy)
            · exact (not_le.1 h0).le.trans (not_lt.1 ht)
          · simp only [List.mem_singleton] at hr'
            subst hr'
            exact le_rfl
      · have key : ∀ j, (∃ e ∈ enter tab k t, e.size = j) ↔ j ∈ (enter tab k t).map Entry.size := fun j => by simp
        rw [key, enter_sizes]
        rcases List.mem_append.1 hr with hr | hr
        · obtain ⟨y, hy, h2⟩ := he.2 r hr h0
          have : r.1 ∈ tab.map Entry.size := List.mem_map.2 ⟨y, hy, h2⟩
          split
          · exact this
          · exact List.mem_append_left _ this
        · simp only [List.mem_singleton] at hr
          subst hr
          split
          · assumption
          · simp

theorem insSize_perm (e : Entry) : ∀ es : List Entry, (insSize e es).Perm (e :: es)
  | [] => .refl _
  | x :: xs => by
    rw [insSize]
    split
    · exact .refl _
    · exact ((insSize_perm e xs).cons x).trans (.swap _ _ _)

theorem sortSize_perm : ∀ es : List Entry, (sortSize es).Perm es
  | [] => .refl _
  | e :: es => (insSize_perm e _).trans ((sortSize_perm es).cons e)

theorem insSize_sorted {e : Entry} : ∀ {es : List Entry}, es.Pairwise (fun a b => a.size < b.size) → (∀ x ∈ es, x.size ≠ e.size) →
    (insSize e es).Pairwise fun a b => a.size < b.size
  | [], _, _ => by simp [insSize]
  | x :: xs, h, hn => by
    obtain ⟨h1, h2⟩ := List.pairwise_cons.1 h
    rw [insSize]
    split
    · rename_i hx
      exact List.pairwise_cons.2 ⟨fun y hy => by
        rcases List.mem_cons.1 hy with rfl | hy
        · exact hx
        · exact hx.trans (h1 y hy), h⟩
    · rename_i hx
      refine List.pairwise_cons.2 ⟨fun y hy => ?_, insSize_sorted h2 fun z hz => hn z (List.mem_cons_of_mem _ hz)⟩
      rcases List.mem_cons.1 ((insSize_perm e xs).mem_iff.1 hy) with rfl | hy
      · have := hn x List.mem_cons_self
        omega
      · exact h1 y hy

theorem sortSize_sorted : ∀ {es : List Entry}, Once es → (sortSize es).Pairwise fun a b => a.size < b.size
  | [], _ => .nil
  | e :: es, h => insSize_sorted (sortSize_sorted (List.nodup_cons.1 h).2) fun x hx hs =>
      (List.nodup_cons.1 h).1 (List.mem_map.2 ⟨x, (sortSize_perm es).mem_iff.1 hx, hs⟩)

/-- **C102 (the table of times).** Without a file in the cache, and if some training run has a time, the table has the sizes of the runs
in increasing order, every size with the longest time of its runs. -/
theorem c102_table (rnd : ℚ → ℚ) {runs : List (Nat × ℚ)} (h : ∃ r ∈ runs, 0 ≤ r.2) :
    ∃ tab c, build rnd none runs = .ok (tab, c) ∧ tab ≠ [] ∧ tab.Pairwise (fun a b => a.size < b.size) ∧ Exact runs tab := by
  obtain ⟨r, hr, h0⟩ := h
  obtain ⟨h1, h2⟩ := enterAll_exact runs [] [] (by simp [Once]) ⟨by simp, by simp⟩
  rw [List.nil_append] at h2
  have hne : enterAll [] runs ≠ [] := by
    obtain ⟨e, he, -⟩ := h2.2 r hr h0
    exact List.ne_nil_of_mem he
  have hp := sortSize_perm (enterAll [] runs)
  refine ⟨sortSize (enterAll [] runs), storetable rnd (sortSize (enterAll [] runs)), ?_, ?_, sortSize_sorted h1, ?_, ?_⟩
  · rw [build]
    dsimp only
    rw [if_neg (List.ne_nil_of_mem hr), if_neg hne]
  · intro e
    rw [e] at hp
    exact hne (List.Perm.nil_eq hp).symm
  · exact fun e he => h2.1 e (hp.mem_iff.1 he)
  · intro r hr h0
    obtain ⟨e, he, h'⟩ := h2.2 r hr h0
    exact ⟨e, hp.mem_iff.2 he, h'⟩

/-- The training runs of the examples. -/
def runs1 : List (Nat × ℚ) := [(100, 5), (10, 1), (10, 1 / 2), (1000, -1)]

example : ∃ r ∈ runs1, 0 ≤ r.2 := ⟨(100, 5), by simp [runs1], by norm_num⟩

theorem build1 (rnd : ℚ → ℚ) : build rnd none runs1 = .ok ([⟨10, 1⟩, ⟨100, 5⟩], ⟨some 2, [⟨10, rnd 1⟩, ⟨100, rnd 5⟩]⟩) := by
  have : sortSize (enterAll [] runs1) = [⟨10, 1⟩, ⟨100, 5⟩] := by decide +kernel
  rw [build]
  dsimp only
  rw [if_neg (by simp [runs1]), if_neg (by decide +kernel), this]
  rfl

/-- **C102 (the table is kept).** The next search with the same attributes reads the table from the file: the sizes are the same, and the times are those
printed. -/
theorem c102_cached (rnd : ℚ → ℚ) {runs runs' : List (Nat × ℚ)} {tab : List Entry} {c : Cache} (h : build rnd none runs = .ok (tab, c)) :
    build rnd (some c) runs' = .ok (tab.map fun e => ⟨e.size, rnd e.time⟩, c) := by
  have hc : c = storetable rnd tab := by
    rw [build] at h
    dsimp only at h
    split at h
    · cases h
    · split at h
      · cases h
      · cases h; rfl
  subst hc
  have hl : loadtable [] (storetable rnd tab) = (true, tab.map fun e => ⟨e.size, rnd e.time⟩) := by
    simp [loadtable, storetable]
  rw [build]
  simp only [hl]
  rfl

example (rnd : ℚ → ℚ) : build rnd (some ⟨some 2, [⟨10, rnd 1⟩, ⟨100, rnd 5⟩]⟩) [] =
    .ok ([⟨10, rnd 1⟩, ⟨100, rnd 5⟩], ⟨some 2, [⟨10, rnd 1⟩, ⟨100, rnd 5⟩]⟩) := c102_cached rnd (build1 rnd)

/-! ## The size of the local search -/

/-- **C102 (the size is one of the table).** With a table that is not empty the size is defined and is one of the table. -/
theorem c102_size {tab : List Entry} (h : tab ≠ []) (t : ℚ) : ∃ e ∈ tab, maxlss tab t = .ok e.size := by
  rw [maxlss]
  cases e : tab.find? fun e => decide (t ≤ e.time) with
  | some x => exact ⟨x, List.mem_of_find?_eq_some e, rfl⟩
  | none =>
    rw [List.getLast?_eq_some_getLast h]
    exact ⟨_, List.getLast_mem h, rfl⟩

/-- **C102 (the violation: the deadline is missed).** The size returned is not the largest one that can be searched in the time: if any
size of the table needs the whole time or more, then the size returned is such a one. -/
theorem c102_overruns {tab : List Entry} {t : ℚ} (h : ∃ e ∈ tab, t ≤ e.time) : ∃ e ∈ tab, maxlss tab t = .ok e.size ∧ t ≤ e.time := by
  rw [maxlss]
  cases e : tab.find? fun e => decide (t ≤ e.time) with
  | some x =>
    have := List.find?_some e
    simp only [decide_eq_true_eq] at this
    exact ⟨x, List.mem_of_find?_eq_some e, rfl, this⟩
  | none =>
    obtain ⟨x, hx, h⟩ := h
    exact absurd h (by simpa using List.find?_eq_none.1 e x hx)

/-- Ten nodes take a second, a hundred take five; with two seconds left a hundred are expanded. -/
theorem c102_overruns_example : maxlss [⟨10, 1⟩, ⟨100, 5⟩] 2 = .ok 100 := by decide +kernel

/-- **C102 (what is right).** If the times grow with the sizes and every size fits into the time, then the largest one is returned;
otherwise all smaller ones than the one returned fit. -/
theorem c102_size_partial {tab : List Entry} (hs : tab.Pairwise fun a b => a.size < b.size) {t : ℚ} {k : Nat}
    (h : maxlss tab t = .ok k) : ∀ e ∈ tab, (e.size < k ∨ ∀ x ∈ tab, x.time < t) → e.time < t := by
  intro e he hor
  rcases hor with hlt | hall
  · rw [maxlss] at h
    cases hf : tab.find? fun e => decide (t ≤ e.time) with
    | none => simpa using List.find?_eq_none.1 hf e he
    | some x =>
      rw [hf] at h
      cases h
      obtain ⟨-, as, bs, rfl, hb⟩ := List.find?_eq_some_iff_append.1 hf
      rcases List.mem_append.1 he with he | he
      · simpa using hb e he
      · exfalso
        obtain ⟨-, h2, -⟩ := List.pairwise_append.1 hs
        rcases List.mem_cons.1 he with rfl | he
        · omega
        · have := (List.pairwise_cons.1 h2).1 e he
          omega
  · exact hall e he

example : ∀ e ∈ ([⟨10, 1⟩, ⟨100, 5⟩] : List Entry), (e.size < 100 ∨ ∀ x ∈ ([⟨10, 1⟩, ⟨100, 5⟩] : List Entry), x.time < 2) → e.time < 2 :=
  c102_size_partial (by simp) c102_overruns_example

/-- **C102 (the violation: an empty table).** A file in the cache that says that there are no entries gives an empty table, and the
first move reads its last element. -/
theorem c102_empty (rnd : ℚ → ℚ) (runs : List (Nat × ℚ)) (es : List Entry) (gs g now : ℚ) (hg : 0 < g) (l0 : Nat) (s : Dyn) :
    ∃ c, build rnd (some ⟨some 0, es⟩) runs = .ok ([], c) ∧ dynStart [] gs l0 g now s = .ub := by
  refine ⟨_, rfl, ?_⟩
  rw [dynStart, if_neg (not_le.2 hg)]
  rfl

/-- **C102 (the violation: a damaged file).** From a file that ends early the entries read stay in the table, so that times in the file that
are too long are used, although the training runs are read again. -/
theorem c102_stale (rnd : ℚ → ℚ) : ∃ c, build rnd (some ⟨some 3, [⟨10, 50⟩, ⟨20, 60⟩]⟩) runs1 = .ok ([⟨10, 50⟩, ⟨20, 60⟩, ⟨100, 5⟩], c) := by
  have : sortSize (enterAll [⟨10, 50⟩, ⟨20, 60⟩] runs1) = [⟨10, 50⟩, ⟨20, 60⟩, ⟨100, 5⟩] := by decide +kernel
  have hl : loadtable [] ⟨some 3, [⟨10, 50⟩, ⟨20, 60⟩]⟩ = (false, [⟨10, 50⟩, ⟨20, 60⟩]) := rfl
  rw [build]
  simp only [hl]
  rw [if_neg (by simp), if_neg (by simp [runs1]), if_neg (by decide +kernel), this]
  exact ⟨_, rfl⟩

/-- Rounding to six digits, as `%f` does (up to ties). -/
def six (q : ℚ) : ℚ := (⌊q * 10 ^ 6 + 1 / 2⌋ : ℚ) / 10 ^ 6

/-- **C102 (the violation: rounding).** Times of less than a microsecond change in the file, so that the second of two equal searches
uses another look-ahead. -/
theorem c102_rounding : ∃ (runs : List (Nat × ℚ)) (t : ℚ) (tab : List Entry) (c : Cache) (tab' : List Entry),
    build six none runs = .ok (tab, c) ∧ build six (some c) runs = .ok (tab', c) ∧ maxlss tab t = .ok 10 ∧ maxlss tab' t = .ok 20 := by
  have h : build six none [(10, 4 / 10 ^ 7), (20, 6 / 10 ^ 7)] =
      .ok ([⟨10, 4 / 10 ^ 7⟩, ⟨20, 6 / 10 ^ 7⟩], ⟨some 2, [⟨10, 0⟩, ⟨20, 1 / 10 ^ 6⟩]⟩) := by decide +kernel
  exact ⟨_, 3 / 10 ^ 7, _, _, _, h, c102_cached six h, by decide +kernel, by decide +kernel⟩

/-! ## Deadlines -/

/-- What a move of cost `g` adds to the time (lsslrtastar.hpp:726-729). -/
def worth (g : ℚ) : ℚ := if 1 < g then g - 1 else g

/-- A sequence of moves with their costs and the times at which they are done. -/
def dynRun (tab : List Entry) (gs : ℚ) (l0 : Nat) : List (ℚ × ℚ) → Dyn → Outcome Dyn
  | [], s => .ok s
  | (g, now) :: ms, s => (dynStart tab gs l0 g now s).bind (dynRun tab gs l0 ms)

theorem worth_pos {g : ℚ} (h : 0 < g) : 0 < worth g := by
  unfold worth
  split <;> linarith

theorem dynRun_deadline {tab : List Entry} {gs : ℚ} {l0 : Nat} (hgs : 0 < gs) : ∀ {ms : List (ℚ × ℚ)} {s s' : Dyn},
    (∀ m ∈ ms, 0 < m.1) → 0 < s.deadline → dynRun tab gs l0 ms s = .ok s' →
    s'.deadline = s.deadline + ((ms.map fun m => worth m.1).sum) * gs
  | [], s, s', _, _, h => by cases h; simp
  | (g, now) :: ms, s, s', hp, hd, h => by
    have hg : 0 < g := hp _ List.mem_cons_self
    rw [dynRun] at h
    obtain ⟨u, h1, h2⟩ := Outcome.bind_eq_ok.1 h
    rw [dynStart, if_neg (not_le.2 hg)] at h1
    dsimp only at h1
    rw [if_neg hd.ne'] at h1
    obtain ⟨k, -, rfl⟩ := Outcome.map_eq_ok.1 h1
    have h3 := dynRun_deadline hgs (fun m hm => hp m (List.mem_cons_of_mem _ hm))
      (by dsimp only; have := mul_pos (worth_pos hg) hgs; unfold worth at this; linarith) h2
    rw [h3, List.map_cons, List.sum_cons]
    dsimp only [worth]
    ring

/-- **C102 (deadlines).** If all moves cost something then the deadline is the time of the first one plus what all the moves are worth,
however long the searches took. -/
theorem c102_deadline {tab : List Entry} {gs : ℚ} {l0 l : Nat} (hgs : 0 < gs) {g now : ℚ} {ms : List (ℚ × ℚ)} {s : Dyn}
    (hg : 0 < g) (hp : ∀ m ∈ ms, 0 < m.1) (hn : 0 < now) (h : dynRun tab gs l0 ((g, now) :: ms) ⟨0, l, 0⟩ = .ok s) :
    s.deadline = now + ((((g, now) :: ms).map fun m => worth m.1).sum) * gs := by
  rw [dynRun] at h
  obtain ⟨u, h1, h2⟩ := Outcome.bind_eq_ok.1 h
  rw [dynStart, if_neg (not_le.2 hg)] at h1
  dsimp only at h1
  rw [if_pos rfl] at h1
  obtain ⟨k, -, rfl⟩ := Outcome.map_eq_ok.1 h1
  have := mul_pos (worth_pos hg) hgs
  have h3 := dynRun_deadline hgs hp (by dsimp only; unfold worth at this; linarith) h2
  rw [h3, List.map_cons, List.sum_cons]
  dsimp only [worth]
  ring

example : ∃ s, dynRun [⟨10, 1⟩, ⟨100, 5⟩] 2 50 [(3, 1), (1, 4), (1, 9)] ⟨0, 50, 0⟩ = .ok s ∧ s.deadline = 9 ∧ s.missed = 1 ∧ s.lim = 10 := by
  refine ⟨⟨9, 10, 1⟩, by decide +kernel, rfl, rfl, rfl⟩

/-- How many of the moves are done after the deadline, which is `dl` for the first and moves by what they are worth. -/
def late (gs : ℚ) : ℚ → List (ℚ × ℚ) → Nat
  | _, [] => 0
  | dl, m :: ms => (if dl < m.2 then 1 else 0) + late gs (dl + worth m.1 * gs) ms

theorem dynRun_missed {tab : List Entry} {gs : ℚ} {l0 : Nat} (hgs : 0 < gs) : ∀ {ms : List (ℚ × ℚ)} {s s' : Dyn},
    (∀ m ∈ ms, 0 < m.1) → 0 < s.deadline → dynRun tab gs l0 ms s = .ok s' →
    s'.missed = s.missed + late gs s.deadline ms
  | [], s, s', _, _, h => by cases h; rfl
  | (g, now) :: ms, s, s', hp, hd, h => by
    have hg : 0 < g := hp _ List.mem_cons_self
    rw [dynRun] at h
    obtain ⟨u, h1, h2⟩ := Outcome.bind_eq_ok.1 h
    rw [dynStart, if_neg (not_le.2 hg)] at h1
    dsimp only at h1
    rw [if_neg hd.ne'] at h1
    obtain ⟨k, -, rfl⟩ := Outcome.map_eq_ok.1 h1
    have h3 := dynRun_missed hgs (fun m hm => hp m (List.mem_cons_of_mem _ hm))
      (by dsimp only; have := mul_pos (worth_pos hg) hgs; unfold worth at this; linarith) h2
    rw [h3, late]
    dsimp only [worth]
    split <;> omega

/-- **C102 (missed deadlines).** The number of missed deadlines is the number of moves that are done after their deadline; the
first one sets it and is never late. -/
theorem c102_missed {tab : List Entry} {gs : ℚ} {l0 l : Nat} (hgs : 0 < gs) {g now : ℚ} {ms : List (ℚ × ℚ)} {s : Dyn}
    (hg : 0 < g) (hp : ∀ m ∈ ms, 0 < m.1) (hn : 0 < now) (h : dynRun tab gs l0 ((g, now) :: ms) ⟨0, l, 0⟩ = .ok s) :
    s.missed = late gs (now + worth g * gs) ms := by
  rw [dynRun] at h
  obtain ⟨u, h1, h2⟩ := Outcome.bind_eq_ok.1 h
  rw [dynStart, if_neg (not_le.2 hg)] at h1
  dsimp only at h1
  rw [if_pos rfl] at h1
  obtain ⟨k, -, rfl⟩ := Outcome.map_eq_ok.1 h1
  have := mul_pos (worth_pos hg) hgs
  have h3 := dynRun_missed hgs hp (by dsimp only; unfold worth at this; linarith) h2
  rw [h3]
  simp [worth]

example : dynRun [⟨10, 1⟩, ⟨100, 5⟩] 2 50 [(3, 1), (1, 5), (1, 9)] ⟨0, 50, 0⟩ = .ok ⟨9, 10, 1⟩ ∧
    late 2 (1 + worth 3 * 2) [(1, 5), (1, 9)] = 1 := by decide +kernel

/-- **C102 (the violation: longer moves, less time).** "Be a bit more conservative": a move of cost 3/2 gives half the time of a move of
cost 1. -/
theorem c102_not_monotone : worth (3 / 2) < worth 1 := by
  unfold worth; norm_num

/-! ## The algorithm (C101) -/

/-- **C101 (the algorithm).** The name of the algorithm is the first argument: one of the sixteen names is accepted, and any other word or
none ends the program with a message. -/
theorem c101_algorithm (argv : List Str) : (∃ a, argv[1]? = some a ∧ a ∈ algorithms ∧ getsearch argv = .ok a) ∨ getsearch argv = .fatal := by
  rw [getsearch]
  cases e : argv[1]? with
  | none => exact Or.inr rfl
  | some a =>
    by_cases h : a ∈ algorithms
    · exact Or.inl ⟨a, rfl, h, if_pos h⟩
    · exact Or.inr (if_neg h)

/-- **C101 (the violation: the platform game without arguments).** There the missing name is compared without a test. -/
theorem c101_plat_no_name (w : Str) : platGet [w] = .ub ∧ getsearch [w] = .fatal := ⟨rfl, rfl⟩

end Verif.Limits
