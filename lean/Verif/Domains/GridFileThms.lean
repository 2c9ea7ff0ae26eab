import Verif.Domains.GridFile
import Verif.Domains.SegmentsPath

/-!
# Lemmas on reading grid maps
-/

namespace Verif.GridFile

open Verif.GridNav Verif.Str

/-! ## `fscanf` -/

theorem skip_cons {c : Char} (s : Str) (h : isws c = true) : skip (c :: s) = skip s := by
  unfold skip; rw [List.dropWhile_cons, if_pos h]

theorem skip_self {s : Str} (h : ∀ c, s.head? = some c → isws c = false) : skip s = s := by
  cases s with
  | nil => rfl
  | cons c s => unfold skip; rw [List.dropWhile_cons, if_neg (by rw [h c rfl]; simp)]

theorem skip_skip (s : Str) : skip (skip s) = skip s :=
  skip_self fun c h => by
    have := List.head?_dropWhile_not isws s
    unfold skip at h
    rw [h] at this
    exact this

theorem num_skip (b : Nat) (s : Str) : num b (skip s) = num b s := by
  unfold num uint
  rw [skip_skip]

theorem num_ws (b : Nat) {c : Char} (s : Str) (h : isws c = true) : num b (c :: s) = num b s := by
  rw [← num_skip, skip_cons s h, num_skip]

theorem head_digits (n : Nat) (r : Str) : ∃ c t, Nat.toDigits 10 n ++ r = c :: t ∧ c.isDigit = true := by
  obtain ⟨h1, h2, -⟩ := Segments.decimal_digits n
  cases e : Nat.toDigits 10 n with
  | nil => exact absurd e h2
  | cons c t => exact ⟨c, t ++ r, rfl, h1 c (by rw [e]; exact List.mem_cons_self ..)⟩

theorem num_digits {b n : Nat} (hn : n < b) {r : Str} (hr : ∀ c, r.head? = some c → c.isDigit = false) :
    num b (Nat.toDigits 10 n ++ r) = .ok (n, r) := by
  obtain ⟨d1, d2, d3⟩ := Segments.decimal_digits n
  obtain ⟨c, t, e, hc⟩ := head_digits n r
  obtain ⟨n1, n2, n3⟩ := Segments.digit_ne hc
  obtain ⟨t1, t2⟩ := Segments.takeWhile_all (r := r) d1 hr
  have hs : skip (Nat.toDigits 10 n ++ r) = Nat.toDigits 10 n ++ r := skip_self fun c' h => by
    rw [e] at h; cases h; exact n3
  have hh : (Nat.toDigits 10 n ++ r).head? = some c := by rw [e]; rfl
  unfold num uint
  simp only [hs, hh]
  rw [show (some c == some '-') = false by simpa using n1, show (some c == some '+') = false by simpa using n2]
  simp only [Bool.or_self, Bool.false_eq_true, if_false]
  rw [t1, t2, if_neg d2, d3, if_neg (by simp; omega)]
  rfl

theorem lits_self : ∀ (wd r : Str), lits wd (wd ++ r) = some (true, r)
  | [], r => by rw [lits]; rfl
  | c :: cs, r => by rw [List.cons_append, lits, if_pos rfl, lits_self cs r]

theorem word_self (wd r : Str) : word wd false (wd ++ r) = some r ∧ word wd true (wd ++ r) = some (skip r) := by
  unfold word
  rw [lits_self]
  exact ⟨rfl, rfl⟩

theorem want_self (wd r : Str) : want wd (wd ++ r) = .ok (skip r) := by
  unfold want
  rw [lits_self]

theorem skip_suffix (s : Str) : ∃ p, s = p ++ skip s := ⟨s.takeWhile isws, (List.takeWhile_append_dropWhile).symm⟩

theorem num_suffix {b : Nat} {s : Str} {n : Nat} {t : Str} (h : num b s = .ok (n, t)) : ∃ p, s = p ++ t := by
  unfold num at h
  obtain ⟨r, h1, h2⟩ := Outcome.bind_eq_ok.1 h
  unfold uint at h1
  simp only at h1
  generalize hu : (if ((skip s).head? == some '-' || (skip s).head? == some '+') = true then (skip s).tail else skip s) = u at h1
  by_cases g1 : u.takeWhile Char.isDigit = []
  · rw [if_pos g1] at h1
    cases h1
    cases h2
  rw [if_neg g1] at h1
  by_cases g2 : (((skip s).head? == some '-') = true ∧ Nat.ofDigitChars 10 (u.takeWhile Char.isDigit) 0 ≠ 0) ∨
      b ≤ Nat.ofDigitChars 10 (u.takeWhile Char.isDigit) 0
  · rw [if_pos g2] at h1
    cases h1
  rw [if_neg g2] at h1
  cases h1
  cases h2
  have e2 : ∃ p, skip s = p ++ u := by
    rw [← hu]
    split_ifs
    · exact ⟨(skip s).take 1, by rw [← List.drop_one, List.take_append_drop]⟩
    · exact ⟨[], rfl⟩
  obtain ⟨p1, e1⟩ := skip_suffix s
  obtain ⟨p2, e2⟩ := e2
  exact ⟨p1 ++ p2 ++ u.takeWhile Char.isDigit, by
    rw [List.append_assoc, List.takeWhile_append_dropWhile, List.append_assoc, ← e2]; exact e1⟩

theorem lits_suffix : ∀ (wd s : Str) (b : Bool) (t : Str), lits wd s = some (b, t) → ∃ p, s = p ++ t
  | [], s, b, t, h => by rw [lits] at h; cases h; exact ⟨[], rfl⟩
  | c :: cs, [], b, t, h => by rw [lits] at h; cases h
  | c :: cs, d :: s, b, t, h => by
    rw [lits] at h
    split_ifs at h with h1
    · obtain ⟨p, rfl⟩ := lits_suffix cs s b t h
      exact ⟨d :: p, rfl⟩
    · cases h
      exact ⟨[], rfl⟩

theorem word_suffix {wd : Str} {ws : Bool} {s t : Str} (h : word wd ws s = some t) : ∃ p, s = p ++ t := by
  unfold word at h
  rw [Option.map_eq_some_iff] at h
  obtain ⟨⟨b, u⟩, h1, h2⟩ := h
  obtain ⟨p, rfl⟩ := lits_suffix _ _ _ _ h1
  dsimp only at h2
  split_ifs at h2
  · obtain ⟨q, hq⟩ := skip_suffix u
    subst h2
    exact ⟨p ++ q, by rw [List.append_assoc, ← hq]⟩
  · subst h2
    exact ⟨p, rfl⟩

theorem costType_suffix {s : Str} {life : Bool} {t : Str} (h : costType s = .ok (life, t)) : ∃ p, s = p ++ t := by
  unfold costType at h
  split_ifs at h
  · cases hb : word "Unit".toList true s with
    | none => rw [hb] at h; cases h
    | some u => rw [hb] at h; cases h; exact word_suffix hb
  · cases hb : word "Life".toList true s with
    | none => rw [hb] at h; cases h
    | some u => rw [hb] at h; cases h; exact word_suffix hb

theorem moveType_suffix {e f : Str} {ws : Bool} {s : Str} {mvs : List Move} {t : Str} (h : moveType e f ws s = .ok (mvs, t)) :
    (∃ p, s = p ++ t) ∧ (mvs = eightway ∨ mvs = fourway) := by
  unfold moveType at h
  split_ifs at h
  · cases hb : word e ws s with
    | none => rw [hb] at h; cases h
    | some u => rw [hb] at h; cases h; exact ⟨word_suffix hb, .inl rfl⟩
  · cases hb : word f ws s with
    | none => rw [hb] at h; cases h
    | some u => rw [hb] at h; cases h; exact ⟨word_suffix hb, .inr rfl⟩

theorem costType_text (life : Bool) {s : Str} (hs : ∀ c, s.head? = some c → isws c = false) :
    costType ((if life then "Life\n".toList else "Unit\n".toList) ++ s) = .ok (life, s) := by
  unfold costType
  cases life
  · rw [show (if false = true then "Life\n".toList else "Unit\n".toList) ++ s = "Unit".toList ++ ('\n' :: s) by simp]
    rw [if_pos (by simp), (word_self _ _).2, skip_cons _ (by decide), skip_self hs]
  · rw [show (if true = true then "Life\n".toList else "Unit\n".toList) ++ s = "Life".toList ++ ('\n' :: s) by simp]
    rw [if_neg (by simp), if_pos (by simp), (word_self _ _).2, skip_cons _ (by decide), skip_self hs]

theorem moveType_text (eight : Bool) (s : Str) : moveType "Eight-way".toList "Four-way".toList false
    ((if eight then "Eight-way".toList else "Four-way".toList) ++ s) = .ok (if eight then eightway else fourway, s) := by
  unfold moveType
  cases eight
  · rw [show (if false = true then "Eight-way".toList else "Four-way".toList) ++ s = "Four-way".toList ++ s by simp]
    rw [if_neg (by simp), if_pos (by simp), (word_self _ _).1]
    rfl
  · rw [show (if true = true then "Eight-way".toList else "Four-way".toList) ++ s = "Eight-way".toList ++ s by simp]
    rw [if_pos (by simp), (word_self _ _).1]
    rfl

/-! ## Boards -/

theorem board_cons (r : Str) (rs : List Str) (rest : Str) : board (r :: rs) ++ rest = r ++ '\n' :: (board rs ++ rest) := by
  unfold board
  rw [List.flatMap_cons, List.append_assoc, List.append_assoc]
  rfl

/-- The flags of a character of the Ruml format. -/
def rumlFlag (c : Char) : Nat := if c = ' ' then Passable else OutOfBounds

theorem rumlRow_ok : ∀ (cs : Str) (i : Nat) (s : Str) (fl : Nat → Nat), (∀ c ∈ cs, c = ' ' ∨ c = '#') →
    rumlRow cs.length i (cs ++ s) fl = .ok (s, put rumlFlag i cs fl)
  | [], _, _, _, _ => rfl
  | c :: cs, i, s, fl, h => by
    have ih := fun fl => rumlRow_ok cs (i + 1) s fl fun c h' => h c (List.mem_cons_of_mem _ h')
    rw [List.length_cons, List.cons_append, rumlRow, put]
    rcases h c (List.mem_cons_self ..) with rfl | rfl
    · rw [if_pos rfl, ih]; rfl
    · rw [if_neg (by decide), if_pos rfl, ih]; rfl

theorem rumlRow_only : ∀ (n i : Nat) (s : Str) (fl : Nat → Nat) (s' : Str) (fl' : Nat → Nat), rumlRow n i s fl = .ok (s', fl') →
    ∃ cs, s = cs ++ s' ∧ cs.length = n ∧ ∀ c ∈ cs, c = ' ' ∨ c = '#'
  | 0, i, s, fl, s', fl', h => by
    rw [rumlRow] at h
    cases h
    exact ⟨[], rfl, rfl, by simp⟩
  | n + 1, i, [], fl, s', fl', h => by rw [rumlRow] at h; cases h
  | n + 1, i, c :: s, fl, s', fl', h => by
    rw [rumlRow] at h
    split_ifs at h with h1 h2
    · obtain ⟨cs, e1, e2, e3⟩ := rumlRow_only n _ _ _ _ _ h
      exact ⟨c :: cs, by rw [e1]; rfl, by simp [e2], by simpa [h1] using e3⟩
    · obtain ⟨cs, e1, e2, e3⟩ := rumlRow_only n _ _ _ _ _ h
      exact ⟨c :: cs, by rw [e1]; rfl, by simp [e2], by simpa [h2] using e3⟩

theorem newline_eq {s s' : Str} (h : newline s = .ok s') : s = '\n' :: s' := by
  cases s with
  | nil => rw [newline] at h; cases h
  | cons c s =>
    rw [newline] at h
    split_ifs at h with h1
    cases h
    rw [h1]

theorem rumlRows_ok {w h : Nat} : ∀ (rows : List Str) (j : Nat) (s : Str) (fl : Nat → Nat), (∀ r ∈ rows, r.length = w) →
    (∀ r ∈ rows, ∀ c ∈ r, c = ' ' ∨ c = '#') →
    rumlRows w h rows.length (j + 1) (board rows ++ s) fl = .ok (s, putRows rumlFlag w (fun j => h - j) j rows fl)
  | [], j, s, fl, _, _ => by rw [List.length_nil, rumlRows]; rfl
  | r :: rs, j, s, fl, hr, hc => by
    have hl := hr r (List.mem_cons_self ..)
    have h1 := rumlRow_ok r ((h + 2 - (j + 1) - 1) * (w + 2) + 1) ('\n' :: (board rs ++ s)) fl (hc r (List.mem_cons_self ..))
    rw [hl] at h1
    rw [List.length_cons, rumlRows, board_cons, h1, Outcome.bind_ok, newline, if_pos rfl, Outcome.bind_ok, putRows,
      show h + 2 - (j + 1) - 1 = h - j by omega]
    exact rumlRows_ok rs (j + 1) s _ (fun r h => hr r (List.mem_cons_of_mem _ h)) fun r h => hc r (List.mem_cons_of_mem _ h)

theorem rumlRows_only {w h : Nat} : ∀ (n y : Nat) (s : Str) (fl : Nat → Nat) (s' : Str) (fl' : Nat → Nat),
    rumlRows w h n y s fl = .ok (s', fl') →
    ∃ rows, s = board rows ++ s' ∧ Rect w n rows ∧ ∀ r ∈ rows, ∀ c ∈ r, c = ' ' ∨ c = '#'
  | 0, y, s, fl, s', fl', e => by
    rw [rumlRows] at e
    cases e
    exact ⟨[], rfl, ⟨rfl, by simp⟩, by simp⟩
  | n + 1, y, s, fl, s', fl', e => by
    rw [rumlRows, Outcome.bind_eq_ok] at e
    obtain ⟨⟨s1, fl1⟩, e1, e⟩ := e
    obtain ⟨s2, e2, e⟩ := Outcome.bind_eq_ok.1 e
    obtain ⟨cs, k1, k2, k3⟩ := rumlRow_only _ _ _ _ _ _ e1
    obtain ⟨rows, g1, g2, g3⟩ := rumlRows_only n _ _ _ _ _ e
    dsimp only at e2
    refine ⟨cs :: rows, ?_, ⟨by rw [List.length_cons, g2.h], ?_⟩, ?_⟩
    · rw [board_cons, k1, newline_eq e2, g1]
    · simpa [k2] using g2.w
    · simpa using ⟨fun c hc => k3 c hc, g3⟩

/-! ## Octile maps -/

/-- The flags of a character of the octile format. -/
def octFlag (c : Char) : Nat :=
  if c = '.' ∨ c = 'G' then Passable
  else if c = '@' ∨ c = 'O' then OutOfBounds
  else if c = 'T' then Tree
  else if c = 'S' then Swamp
  else Water

/-- The characters of the octile format. -/
def OctChar (c : Char) : Prop := c ∈ ".G@OTSW".toList

theorem octChar_iff (c : Char) : OctChar c ↔ c = '.' ∨ c = 'G' ∨ c = '@' ∨ c = 'O' ∨ c = 'T' ∨ c = 'S' ∨ c = 'W' := by
  unfold OctChar; simp

theorem terrain_ok {c : Char} (h : OctChar c) : terrain c = .ok (octFlag c) := by
  rw [octChar_iff] at h
  rcases h with rfl | rfl | rfl | rfl | rfl | rfl | rfl <;> rfl

theorem terrain_ub {c : Char} (h : ¬ OctChar c) : terrain c = .ub := by
  rw [octChar_iff] at h
  push Not at h
  unfold terrain
  simp [h]

theorem octRow_ok : ∀ (cs : Str) (i : Nat) (fl : Nat → Nat), (∀ c ∈ cs, OctChar c) → octRow i cs fl = .ok (put octFlag i cs fl)
  | [], _, _, _ => rfl
  | c :: cs, i, fl, h => by
    rw [octRow, terrain_ok (h c (List.mem_cons_self ..)), Outcome.bind_ok, put,
      octRow_ok cs _ _ fun c h' => h c (List.mem_cons_of_mem _ h')]

theorem octRow_ub : ∀ (cs : Str) (i : Nat) (fl : Nat → Nat), (∃ c ∈ cs, ¬ OctChar c) → octRow i cs fl = .ub
  | [], _, _, h => by simp at h
  | c :: cs, i, fl, h => by
    rw [octRow]
    by_cases hc : OctChar c
    · rw [terrain_ok hc, Outcome.bind_ok, octRow_ub cs]
      obtain ⟨d, h1, h2⟩ := h
      rcases List.mem_cons.1 h1 with rfl | h1
      · exact absurd hc h2
      · exact ⟨d, h1, h2⟩
    · rw [terrain_ub hc]; rfl

theorem octFlags_ok {w : Nat} : ∀ (rows : List Str) (j : Nat) (fl : Nat → Nat), (∀ r ∈ rows, ∀ c ∈ r, OctChar c) →
    octFlags w (j + 1) rows fl = .ok (putRows octFlag w (fun j => j + 1) j rows fl)
  | [], _, _, _ => rfl
  | r :: rs, j, fl, h => by
    rw [octFlags, octRow_ok r _ _ (h r (List.mem_cons_self ..)), Outcome.bind_ok, putRows]
    exact octFlags_ok rs (j + 1) _ fun r h' => h r (List.mem_cons_of_mem _ h')

theorem octFlags_ub {w : Nat} : ∀ (rows : List Str) (y : Nat) (fl : Nat → Nat), (∃ r ∈ rows, ∃ c ∈ r, ¬ OctChar c) →
    octFlags w y rows fl = .ub
  | [], _, _, h => by simp at h
  | r :: rs, y, fl, h => by
    rw [octFlags]
    by_cases hc : ∃ c ∈ r, ¬ OctChar c
    · rw [octRow_ub r _ _ hc]; rfl
    · push Not at hc
      rw [octRow_ok r _ _ hc, Outcome.bind_ok, octFlags_ub rs]
      obtain ⟨r', h1, c, h2, h3⟩ := h
      rcases List.mem_cons.1 h1 with rfl | h1
      · exact absurd (hc c h2) h3
      · exact ⟨r', h1, c, h2, h3⟩

theorem octRows_ok {w : Nat} : ∀ (rows : List Str) (s : Str), (∀ r ∈ rows, r.length = w) →
    octRows w rows.length (board rows ++ s) = .ok (rows, s)
  | [], s, _ => by rw [List.length_nil, octRows]; rfl
  | r :: rs, s, h => by
    have hl := h r (List.mem_cons_self ..)
    rw [List.length_cons, octRows, board_cons, if_neg (by simp; omega), ← hl, List.drop_left, newline, if_pos rfl,
      Outcome.bind_ok, hl, octRows_ok rs s fun r h' => h r (List.mem_cons_of_mem _ h'), Outcome.map_ok, ← hl, List.take_left]

theorem octRows_only {w : Nat} : ∀ (n : Nat) (s : Str) (rows : List Str) (s' : Str), octRows w n s = .ok (rows, s') →
    s = board rows ++ s' ∧ Rect w n rows
  | 0, s, rows, s', h => by
    rw [octRows] at h
    cases h
    exact ⟨rfl, rfl, by simp⟩
  | n + 1, s, rows, s', h => by
    rw [octRows] at h
    split_ifs at h with h1
    obtain ⟨s1, e1, h⟩ := Outcome.bind_eq_ok.1 h
    obtain ⟨⟨rs, s2⟩, e2, e3⟩ := Outcome.map_eq_ok.1 h
    cases e3
    obtain ⟨k1, k2⟩ := octRows_only n _ _ _ e2
    refine ⟨?_, by rw [List.length_cons, k2.h], ?_⟩
    · rw [board_cons]
      dsimp only at k1 ⊢
      rw [← k1, ← newline_eq e1, List.take_append_drop]
    · simpa [Nat.min_eq_left (not_lt.1 h1)] using k2.w

/-- The last row without a line break. -/
theorem octRows_noeol {w : Nat} : ∀ (rows : List Str), rows ≠ [] → (∀ r ∈ rows, r.length = w) →
    octRows w rows.length (board rows).dropLast = .fatal
  | [], h, _ => absurd rfl h
  | [r], _, h => by
    have hl := h r (List.mem_cons_self ..)
    rw [List.length_singleton, octRows, show (board [r]).dropLast = r by simp [board]]
    rw [if_neg (by omega), ← hl, List.drop_length]
    rfl
  | r :: r' :: rs, _, h => by
    have hl := h r (List.mem_cons_self ..)
    have e : (board (r :: r' :: rs)).dropLast = r ++ '\n' :: (board (r' :: rs)).dropLast := by
      have := board_cons r (r' :: rs) []
      rw [List.append_nil, List.append_nil] at this
      rw [this, List.dropLast_append_of_ne_nil (by simp), List.dropLast_cons_of_ne_nil (by simp [board])]
    rw [List.length_cons, octRows, e, if_neg (by simp; omega), ← hl, List.drop_left, newline, if_pos rfl,
      Outcome.bind_ok, hl, octRows_noeol (r' :: rs) (by simp) fun r h' => h r (List.mem_cons_of_mem _ h')]
    rfl

/-! ## Random maps -/

theorem uniCol_val (draw : Nat → Bool) {w x : Nat} (hx : x < w + 2) : ∀ (n y k : Nat) (fl : Nat → Nat) (loc : Nat),
    uniCol draw w x n y k fl loc = if loc % (w + 2) = x ∧ y ≤ loc / (w + 2) ∧ loc / (w + 2) < y + n then
      drawFlag (draw (k + (loc / (w + 2) - y))) else fl loc
  | 0, y, k, fl, loc => by rw [uniCol, if_neg (by omega)]
  | n + 1, y, k, fl, loc => by
    rw [uniCol, uniCol_val draw hx n]
    have e := Nat.div_add_mod loc (w + 2)
    by_cases h1 : loc = y * (w + 2) + x
    · have a1 : loc / (w + 2) = y := by
        rw [h1, Nat.mul_comm, Nat.mul_add_div (by omega), Nat.div_eq_of_lt hx]; rfl
      have a2 : loc % (w + 2) = x := by
        rw [h1, Nat.mul_comm, Nat.mul_add_mod]; exact Nat.mod_eq_of_lt hx
      rw [if_neg (by omega), h1, Function.update_self, ← h1, if_pos ⟨a2, by omega, by omega⟩, a1]
      simp
    · rw [Function.update_of_ne h1]
      have h2 : ¬ (loc % (w + 2) = x ∧ loc / (w + 2) = y) := by
        rintro ⟨g1, g2⟩
        apply h1
        rw [← e, g1, g2, Nat.mul_comm]
      by_cases h3 : loc % (w + 2) = x ∧ y + 1 ≤ loc / (w + 2) ∧ loc / (w + 2) < y + 1 + n
      · rw [if_pos h3, if_pos ⟨h3.1, by omega, by omega⟩, show k + 1 + (loc / (w + 2) - (y + 1)) = k + (loc / (w + 2) - y) by omega]
      · rw [if_neg h3, if_neg (by omega)]

theorem uniCols_val (draw : Nat → Bool) {w h : Nat} : ∀ (n x k : Nat) (fl : Nat → Nat) (loc : Nat), x + n ≤ w + 2 →
    uniCols draw w h n x k fl loc =
      if x ≤ loc % (w + 2) ∧ loc % (w + 2) < x + n ∧ 1 ≤ loc / (w + 2) ∧ loc / (w + 2) ≤ h then
        drawFlag (draw (k + (loc % (w + 2) - x) * h + (loc / (w + 2) - 1))) else fl loc
  | 0, x, k, fl, loc, _ => by rw [uniCols, if_neg (by omega)]
  | n + 1, x, k, fl, loc, hx => by
    rw [uniCols, uniCols_val draw n _ _ _ _ (by omega), uniCol_val draw (by omega)]
    by_cases h1 : x + 1 ≤ loc % (w + 2) ∧ loc % (w + 2) < x + 1 + n ∧ 1 ≤ loc / (w + 2) ∧ loc / (w + 2) ≤ h
    · rw [if_pos h1, if_pos (by omega), show k + h + (loc % (w + 2) - (x + 1)) * h = k + (loc % (w + 2) - x) * h by
        obtain ⟨q, hq⟩ : ∃ q, loc % (w + 2) = x + 1 + q := ⟨loc % (w + 2) - (x + 1), by omega⟩
        rw [hq, show x + 1 + q - (x + 1) = q by omega, show x + 1 + q - x = q + 1 by omega]
        ring]
    · rw [if_neg h1]
      by_cases h2 : loc % (w + 2) = x ∧ 1 ≤ loc / (w + 2) ∧ loc / (w + 2) < 1 + h
      · rw [if_pos h2, if_pos (by omega), h2.1]
        simp
      · rw [if_neg h2, if_neg (by omega)]

/-! ## 2poly.cc -/

theorem polyCol_ok {m : GMap} {i : Nat} : ∀ (n j : Nat) (a : Nat → Bool), i * m.w + j + n ≤ m.w * m.h →
    ∃ b, polyCol m i n j a = .ok b ∧ ∀ k, b k = if i * m.w + j ≤ k ∧ k < i * m.w + j + n then blkd m ((k - i * m.w) * m.w + i) else a k
  | 0, j, a, _ => ⟨a, rfl, fun k => by rw [if_neg (by omega)]⟩
  | n + 1, j, a, h => by
    obtain ⟨b, h1, h2⟩ := polyCol_ok (m := m) (i := i) n (j + 1) (Function.update a (i * m.w + j) (blkd m (j * m.w + i))) (by omega)
    refine ⟨b, by rw [polyCol, if_pos (by omega), h1], fun k => ?_⟩
    rw [h2]
    by_cases h3 : k = i * m.w + j
    · subst h3
      rw [if_neg (by omega), Function.update_self, if_pos (by omega), Nat.add_sub_cancel_left]
    · rw [Function.update_of_ne h3]
      by_cases h4 : i * m.w + (j + 1) ≤ k ∧ k < i * m.w + (j + 1) + n
      · rw [if_pos h4, if_pos (by omega)]
      · rw [if_neg h4, if_neg (by omega)]

theorem polyCol_ub {m : GMap} {i : Nat} : ∀ (n j : Nat) (a : Nat → Bool), m.w * m.h < i * m.w + j + n → 0 < n →
    polyCol m i n j a = .ub
  | 0, _, _, _, h => absurd h (by omega)
  | n + 1, j, a, h, _ => by
    rw [polyCol]
    by_cases h1 : i * m.w + j < m.w * m.h
    · rw [if_pos h1, polyCol_ub n (j + 1) _ (by omega) (by omega)]
    · rw [if_neg h1]

/-- The columns of a square map. -/
theorem polyCols_ok {m : GMap} (hs : m.w = m.h) : ∀ (n i : Nat) (a : Nat → Bool), i + n ≤ m.w →
    ∃ b, polyCols m n i a = .ok b ∧ ∀ x y, y < m.h → b (x * m.h + y) = if i ≤ x ∧ x < i + n then blkd m (y * m.w + x) else a (x * m.h + y)
  | 0, i, a, _ => ⟨a, rfl, fun x y _ => by rw [if_neg (by omega)]⟩
  | n + 1, i, a, h => by
    have hi : i * m.w + m.h ≤ m.w * m.h := by
      have := Nat.mul_le_mul_right m.w (show i + 1 ≤ m.w by omega)
      rw [Nat.add_mul] at this
      rw [← hs]; omega
    obtain ⟨b, h1, h2⟩ := polyCol_ok m.h 0 a (by omega : i * m.w + 0 + m.h ≤ _)
    obtain ⟨c, h3, h4⟩ := polyCols_ok hs n (i + 1) b (by omega)
    refine ⟨c, by rw [polyCols, h1, Outcome.bind_ok, h3], fun x y hy => ?_⟩
    rw [h4 x y hy, h2]
    have hx : (i * m.w + 0 ≤ x * m.h + y ∧ x * m.h + y < i * m.w + 0 + m.h) ↔ x = i := by
      rw [hs]
      constructor
      · rintro ⟨g1, g2⟩
        rcases Nat.lt_trichotomy x i with g | g | g
        · have := Nat.mul_le_mul_right m.h (show x + 1 ≤ i by omega)
          rw [Nat.add_mul] at this
          omega
        · exact g
        · have := Nat.mul_le_mul_right m.h (show i + 1 ≤ x by omega)
          rw [Nat.add_mul] at this
          omega
      · rintro rfl
        omega
    by_cases hxi : x = i
    · subst hxi
      rw [if_neg (by omega), if_pos (hx.2 rfl), if_pos (by omega), hs, Nat.add_sub_cancel_left]
    · rw [if_neg fun g => hxi (hx.1 g)]
      by_cases h5 : i + 1 ≤ x ∧ x < i + 1 + n
      · rw [if_pos h5, if_pos (by omega)]
      · rw [if_neg h5, if_neg (by omega)]

theorem polyCols_ub {m : GMap} (hs : m.h < m.w) : ∀ (n i : Nat) (a : Nat → Bool), i + n = m.w → 0 < n → 0 < m.h → polyCols m n i a = .ub
  | 0, _, _, _, h, _ => absurd h (by omega)
  | n + 1, i, a, h, _, hh => by
    rw [polyCols]
    by_cases h1 : i * m.w + 0 + m.h ≤ m.w * m.h
    · obtain ⟨b, h2, -⟩ := polyCol_ok m.h 0 a h1
      rw [h2, Outcome.bind_ok]
      refine polyCols_ub hs n (i + 1) b (by omega) ?_ hh
      by_contra hn
      have hi : i = m.w - 1 := by omega
      have : m.h ≤ i := by omega
      have := Nat.mul_le_mul_right m.w this
      rw [Nat.mul_comm m.h] at this
      omega
    · rw [polyCol_ub m.h 0 a (by omega) hh]
      rfl

end Verif.GridFile
