import Verif.Domains.GridFileThms
import Verif.Props.GridSolve
import Verif.Props.Grid2Poly
import Verif.Props.Rand

/-!
# C95, C96, C97: grid map files, instances for gridnav, and polygon maps from grid maps
-/

namespace Verif.GridFile

open Verif.GridNav Verif.Str Verif.Search

variable {D : Type} {dbl : Str → Option (D × Str)} {draw : Nat → D → Nat → Bool}

/-! ## C95: files -/

/-- The text of a map in the format of the Ruml group. -/
def rumlText (w h : Nat) (rows : List Str) (life eight : Bool) : Str :=
  Nat.toDigits 10 h ++ ' ' :: (Nat.toDigits 10 w ++ "\nBoard:\n".toList ++ board rows ++
    (if life then "Life\n".toList else "Unit\n".toList) ++ if eight then "Eight-way".toList else "Four-way".toList)

theorem size_ok {w h : Nat} (hs : (w + 2) * (h + 2) ≤ 2 ^ 31) : size w h = .ok () := by
  unfold size
  have h1 : (w + 2) * 1 ≤ (w + 2) * (h + 2) := Nat.mul_le_mul_left _ (by omega)
  have h2 : 1 * (h + 2) ≤ (w + 2) * (h + 2) := Nat.mul_le_mul_right _ (by omega)
  rw [if_neg (by omega), if_neg (by omega)]

theorem size_eq {w h : Nat} {u : Unit} (hs : size w h = .ok u) : (w + 2) * (h + 2) ≤ 2 ^ 31 := by
  unfold size at hs
  split_ifs at hs
  omega

/-- **C95.**  A map file of the Ruml group: the sizes, the drawing, the kind of costs and of moves.  The map that is read has
the drawing in it, its last row first: in column `x` of row `y` (both from 0 and inside the border) the cell is passable if
the drawing has a space in column `x` of the `y`-th row from below.  What follows in the file is not read. -/
theorem c95_ruml {w h : Nat} {rows : List Str} (hr : Rect w h rows) (hc : ∀ r ∈ rows, ∀ c ∈ r, c = ' ' ∨ c = '#')
    (hs : (w + 2) * (h + 2) ≤ 2 ^ 31) (life eight : Bool) (rest : Str) :
    ∃ m, load dbl draw (rumlText w h rows life eight ++ rest) = .ok ⟨m, true, rest⟩ ∧ m.lifecost = life ∧
      m.mvs = (if eight then eightway else fourway) ∧
      Shows m w h fun x y => if charAt rows x (h - 1 - y) = ' ' then Passable else OutOfBounds := by
  have hw : w < 2 ^ 32 := by
    have h1 : (w + 2) * 1 ≤ (w + 2) * (h + 2) := Nat.mul_le_mul_left _ (by omega)
    omega
  have hh : h < 2 ^ 32 := by
    have h2 : 1 * (h + 2) ≤ (w + 2) * (h + 2) := Nat.mul_le_mul_right _ (by omega)
    omega
  refine ⟨⟨w + 2, h + 2, putRows rumlFlag w (fun j => h - j) 0 rows (setsize w h), if eight then eightway else fourway, life⟩,
    ?_, rfl, rfl, ?_⟩
  · have hload : load dbl draw (rumlText w h rows life eight ++ rest) = loadRuml (rumlText w h rows life eight ++ rest) := by
      unfold rumlText
      rw [List.append_assoc]
      obtain ⟨c, t, e, hd⟩ := head_digits h (' ' :: (Nat.toDigits 10 w ++ "\nBoard:\n".toList ++ board rows ++
        (if life then "Life\n".toList else "Unit\n".toList) ++ if eight then "Eight-way".toList else "Four-way".toList) ++ rest)
      rw [e, load]
      rw [if_neg (by rintro rfl; exact absurd hd (by decide)), if_neg (by rintro rfl; exact absurd hd (by decide)), if_pos hd]
    rw [hload, rumlText, List.append_assoc, loadRuml, num_digits hh (by rintro _ ⟨⟩; decide), Outcome.bind_ok]
    dsimp only
    rw [List.cons_append, num_ws _ _ (by decide)]
    simp only [List.append_assoc]
    generalize hq : (if life = true then "Life\n".toList else "Unit\n".toList) ++
      ((if eight = true then "Eight-way".toList else "Four-way".toList) ++ rest) = q
    rw [show "\nBoard:\n".toList ++ (board rows ++ q) = '\n' :: ("Board:".toList ++ '\n' :: (board rows ++ q)) by simp,
      num_digits hw (by rintro _ ⟨⟩; decide), Outcome.bind_ok]
    dsimp only
    rw [skip_cons _ (by decide), skip_self (by simp; decide), lits_self, Option.map_some, Option.getD_some, size_ok hs,
      Outcome.bind_ok]
    dsimp only
    rw [newline, if_pos rfl, Outcome.bind_ok]
    have hrows := rumlRows_ok (w := w) (h := h) rows 0 q (setsize w h) hr.w hc
    rw [hr.h, Nat.zero_add] at hrows
    rw [hrows, Outcome.bind_ok, ← hq]
    dsimp only
    rw [costType_text, Outcome.bind_ok]
    · dsimp only
      rw [moveType_text, Outcome.map_ok]
    · cases eight <;> simp <;> decide
  · exact shows_of_rows rumlFlag hr (fun y => h - 1 - y) (fun y hy => by omega) (fun i hi => by omega) _ _

/-- **C95.**  Whatever is accepted in this format has a drawing in it, and the map shows it; the size is limited. -/
theorem c95_ruml_only {s : Str} {l : Loaded} (hl : loadRuml s = .ok l) :
    ∃ w h rows pre post, s = pre ++ board rows ++ post ++ l.rest ∧ Rect w h rows ∧ (∀ r ∈ rows, ∀ c ∈ r, c = ' ' ∨ c = '#') ∧
      (w + 2) * (h + 2) ≤ 2 ^ 31 ∧ l.life = true ∧ (l.m.mvs = eightway ∨ l.m.mvs = fourway) ∧
      Shows l.m w h fun x y => if charAt rows x (h - 1 - y) = ' ' then Passable else OutOfBounds := by
  unfold loadRuml at hl
  obtain ⟨⟨h, s1⟩, e1, hl⟩ := Outcome.bind_eq_ok.1 hl
  obtain ⟨⟨w, s2⟩, e2, hl⟩ := Outcome.bind_eq_ok.1 hl
  dsimp only at hl
  obtain ⟨u, e3, hl⟩ := Outcome.bind_eq_ok.1 hl
  obtain ⟨s4, e4, hl⟩ := Outcome.bind_eq_ok.1 hl
  obtain ⟨⟨s5, fl⟩, e5, hl⟩ := Outcome.bind_eq_ok.1 hl
  obtain ⟨⟨life, s6⟩, e6, hl⟩ := Outcome.bind_eq_ok.1 hl
  obtain ⟨⟨mvs, s7⟩, e7, hl'⟩ := Outcome.map_eq_ok.1 hl
  dsimp only at e1 e2 e4 e5 e6 e7 hl'
  obtain ⟨rows, k1, k2, k3⟩ := rumlRows_only _ _ _ _ _ _ e5
  have k4 := rumlRows_ok (w := w) (h := h) rows 0 s5 (setsize w h) k2.w k3
  rw [k2.h, Nat.zero_add, ← k1, e5] at k4
  cases k4
  obtain ⟨p1, rfl⟩ := num_suffix e1
  obtain ⟨p2, rfl⟩ := num_suffix e2
  obtain ⟨p3, q3⟩ := skip_suffix s2
  have e4' := newline_eq e4
  have hp4 : ∃ p, skip s2 = p ++ s4 := by
    cases hb : lits "Board:".toList (skip s2) with
    | none => rw [hb] at e4'; simp at e4'
    | some r =>
      obtain ⟨b, t⟩ := r
      rw [hb] at e4'
      obtain ⟨p, hp⟩ := lits_suffix _ _ _ _ hb
      simp only [Option.map_some, Option.getD_some] at e4'
      exact ⟨p ++ ['\n'], by rw [hp, e4', List.append_assoc]; rfl⟩
  obtain ⟨p4, q4⟩ := hp4
  obtain ⟨p6, q6⟩ := costType_suffix e6
  obtain ⟨⟨p7, q7⟩, q8⟩ := moveType_suffix e7
  subst hl'
  refine ⟨w, h, rows, p1 ++ p2 ++ p3 ++ p4, p6 ++ p7, ?_, k2, k3, size_eq e3, rfl, q8,
    shows_of_rows rumlFlag k2 (fun y => h - 1 - y) (fun y hy => by omega) (fun i hi => by omega) _ _⟩
  dsimp only
  simp only [List.append_assoc]
  rw [← q7, ← q6, ← k1, ← q4, ← q3]

/-- The text of an octile map. -/
def octText (w h : Nat) (rows : List Str) : Str :=
  "type octile\nheight ".toList ++ Nat.toDigits 10 h ++ "\nwidth ".toList ++ Nat.toDigits 10 w ++ "\nmap\n".toList ++ board rows

theorem size_lt {w h : Nat} (hs : (w + 2) * (h + 2) ≤ 2 ^ 31) : w < 2 ^ 32 ∧ h < 2 ^ 32 := by
  have h1 : (w + 2) * 1 ≤ (w + 2) * (h + 2) := Nat.mul_le_mul_left _ (by omega)
  have h2 : 1 * (h + 2) ≤ (w + 2) * (h + 2) := Nat.mul_le_mul_right _ (by omega)
  omega

/-- The head of an octile map is read; the text after it does not start with white space. -/
theorem loadOctile_head {w h : Nat} (hs : (w + 2) * (h + 2) ≤ 2 ^ 31) {s : Str} (hb : ∀ c, s.head? = some c → isws c = false) :
    loadOctile ("type octile\nheight ".toList ++ Nat.toDigits 10 h ++ "\nwidth ".toList ++ Nat.toDigits 10 w ++
      "\nmap\n".toList ++ s) = (octRows w h s).bind fun (rows, s) => (octFlags w 1 rows (setsize w h)).map fun fl =>
        ⟨⟨w + 2, h + 2, fl, octile, false⟩, false, s⟩ := by
  obtain ⟨hw, hh⟩ := size_lt hs
  have hd : ∀ n (r : Str), skip (Nat.toDigits 10 n ++ r) = Nat.toDigits 10 n ++ r := fun n r => by
    obtain ⟨c, t, e, hc⟩ := head_digits n r
    rw [e]
    exact skip_self fun c' h' => by cases h'; exact (Segments.digit_ne hc).2.2
  unfold loadOctile
  simp only [List.append_assoc]
  have hmt : ∀ r : Str, mapType ("type octile\nheight ".toList ++ r) = .ok ("octile".toList, "height ".toList ++ r) := by
    intro r
    unfold mapType
    rw [show "type octile\nheight ".toList = "type".toList ++ (' ' :: "octile\nheight ".toList) by decide, List.append_assoc,
      (word_self _ _).2, List.cons_append, skip_cons _ (by decide), skip_self (by simp; decide)]
    have hf : fgets 127 ("octile\nheight ".toList ++ r) = ("octile\n".toList, "height ".toList ++ r) := by
      rw [show "octile\nheight ".toList = 'o' :: 'c' :: 't' :: 'i' :: 'l' :: 'e' :: '\n' :: "height ".toList by decide]
      simp [fgets]
    simp only
    rw [if_neg (by simp), hf]
    rfl
  rw [hmt, Outcome.bind_ok]
  dsimp only
  rw [if_neg (by simp), show "height ".toList = "height".toList ++ [' '] by decide, List.append_assoc, want_self,
    List.singleton_append, skip_cons _ (by decide), hd, Outcome.bind_ok, num_digits hh (by simp), Outcome.bind_ok]
  dsimp only
  rw [show "\nwidth ".toList = '\n' :: ("width".toList ++ [' ']) by decide, List.cons_append, skip_cons _ (by decide),
    List.append_assoc, skip_self (by simp; decide), want_self, List.singleton_append, skip_cons _ (by decide), hd,
    Outcome.bind_ok, num_digits hw (by simp), Outcome.bind_ok]
  dsimp only
  rw [show "\nmap\n".toList = '\n' :: ("map".toList ++ ['\n']) by decide, List.cons_append, skip_cons _ (by decide),
    List.append_assoc, skip_self (by simp; decide), (word_self _ _).2, List.singleton_append, skip_cons _ (by decide),
    skip_self hb, Option.getD_some, size_ok hs, Outcome.bind_ok]

theorem load_oct {w h : Nat} {s : Str} :
    load dbl draw ("type octile\nheight ".toList ++ Nat.toDigits 10 h ++ "\nwidth ".toList ++ Nat.toDigits 10 w ++
      "\nmap\n".toList ++ s) = loadOctile ("type octile\nheight ".toList ++ Nat.toDigits 10 h ++ "\nwidth ".toList ++
        Nat.toDigits 10 w ++ "\nmap\n".toList ++ s) := by
  simp only [List.append_assoc]
  rw [show "type octile\nheight ".toList = 't' :: "ype octile\nheight ".toList by simp, List.cons_append, load, if_pos rfl]

theorem octText_append (w h : Nat) (rows : List Str) (rest : Str) : octText w h rows ++ rest =
    "type octile\nheight ".toList ++ Nat.toDigits 10 h ++ "\nwidth ".toList ++ Nat.toDigits 10 w ++
      "\nmap\n".toList ++ (board rows ++ rest) := by
  unfold octText
  rw [List.append_assoc]

theorem octText_dropLast (w h : Nat) {rows : List Str} (hne : board rows ≠ []) : (octText w h rows).dropLast =
    "type octile\nheight ".toList ++ Nat.toDigits 10 h ++ "\nwidth ".toList ++ Nat.toDigits 10 w ++
      "\nmap\n".toList ++ (board rows).dropLast := by
  unfold octText
  rw [List.dropLast_append_of_ne_nil hne]

theorem board_head {w h : Nat} {rows : List Str} (hr : Rect w h rows) (hw : 0 < w) (hh : 0 < h)
    (hc : ∀ r ∈ rows, ∀ c ∈ r, isws c = false) (rest : Str) : ∀ c, (board rows ++ rest).head? = some c → isws c = false := by
  cases rows with
  | nil => have := hr.h; simp at this; omega
  | cons r rs =>
    have hl := hr.w r (List.mem_cons_self ..)
    cases r with
    | nil => simp at hl; omega
    | cons a r =>
      rw [board_cons]
      rintro c ⟨⟩
      exact hc _ (List.mem_cons_self ..) _ (List.mem_cons_self ..)

theorem octChar_ws {c : Char} (h : OctChar c) : isws c = false := by
  rw [octChar_iff] at h
  rcases h with rfl | rfl | rfl | rfl | rfl | rfl | rfl <;> decide

/-- **C95.**  An octile map file: the map that is read has in column `x` of row `y` the terrain of the character in column `x`
of row `y` of the drawing (from the top); `lifecost` is not set. -/
theorem c95_octile {w h : Nat} {rows : List Str} (hr : Rect w h rows) (hw : 0 < w) (hh : 0 < h)
    (hc : ∀ r ∈ rows, ∀ c ∈ r, OctChar c) (hs : (w + 2) * (h + 2) ≤ 2 ^ 31) (rest : Str) :
    ∃ m, load dbl draw (octText w h rows ++ rest) = .ok ⟨m, false, rest⟩ ∧ m.mvs = octile ∧
      Shows m w h fun x y => octFlag (charAt rows x y) := by
  refine ⟨⟨w + 2, h + 2, putRows octFlag w (fun j => j + 1) 0 rows (setsize w h), octile, false⟩, ?_, rfl,
    shows_of_rows octFlag hr (fun y => y) (fun y hy => ⟨hy, rfl⟩) (fun i hi => by omega) _ _⟩
  rw [octText_append, load_oct, loadOctile_head hs
    (board_head hr hw hh (fun r h1 c h2 => octChar_ws (hc r h1 c h2)) rest)]
  have := octRows_ok rows rest hr.w
  rw [hr.h] at this
  rw [this, Outcome.bind_ok]
  dsimp only
  rw [octFlags_ok rows 0 _ hc, Outcome.map_ok]

/-- **C95.**  Whatever is accepted in this format has a drawing in it, and the map shows it. -/
theorem c95_octile_only {s : Str} {l : Loaded} (hl : loadOctile s = .ok l) :
    ∃ w h rows, (board rows ++ l.rest) <:+ s ∧ Rect w h rows ∧ (∀ r ∈ rows, ∀ c ∈ r, OctChar c) ∧
      (w + 2) * (h + 2) ≤ 2 ^ 31 ∧ l.life = false ∧ l.m.mvs = octile ∧ Shows l.m w h fun x y => octFlag (charAt rows x y) := by
  unfold loadOctile at hl
  obtain ⟨⟨t, s1⟩, e1, hl⟩ := Outcome.bind_eq_ok.1 hl
  dsimp only at hl
  split_ifs at hl with ht
  obtain ⟨s2, e2, hl⟩ := Outcome.bind_eq_ok.1 hl
  obtain ⟨⟨h, s3⟩, e3, hl⟩ := Outcome.bind_eq_ok.1 hl
  dsimp only at hl
  obtain ⟨s4, e4, hl⟩ := Outcome.bind_eq_ok.1 hl
  obtain ⟨⟨w, s5⟩, e5, hl⟩ := Outcome.bind_eq_ok.1 hl
  dsimp only at hl
  obtain ⟨u, e6, hl⟩ := Outcome.bind_eq_ok.1 hl
  obtain ⟨⟨rows, s7⟩, e7, hl⟩ := Outcome.bind_eq_ok.1 hl
  obtain ⟨fl, e8, hl'⟩ := Outcome.map_eq_ok.1 hl
  dsimp only at e8
  obtain ⟨k1, k2⟩ := octRows_only _ _ _ _ e7
  have hc : ∀ r ∈ rows, ∀ c ∈ r, OctChar c := by
    by_contra hn
    push Not at hn
    rw [octFlags_ub rows 1 _ hn] at e8
    cases e8
  have k3 := octFlags_ok (w := w) rows 0 (setsize w h) hc
  rw [Nat.zero_add] at k3
  rw [k3] at e8
  cases e8
  subst hl'
  refine ⟨w, h, rows, ?_, k2, hc, size_eq e6, rfl, rfl,
    shows_of_rows octFlag k2 (fun y => y) (fun y hy => ⟨hy, rfl⟩) (fun i hi => by omega) _ _⟩
  dsimp only
  have want_suffix : ∀ {wd s t : Str}, want wd s = .ok t → t <:+ s := by
    intro wd s t h
    unfold want at h
    split at h
    · rename_i u hu
      cases h
      obtain ⟨p, rfl⟩ := lits_suffix _ _ _ _ hu
      obtain ⟨q, hq⟩ := skip_suffix u
      exact ⟨p ++ q, by rw [List.append_assoc, ← hq]⟩
    · cases h
  have fgets_suffix : ∀ (n : Nat) (s : Str), (fgets n s).2 <:+ s := by
    intro n
    induction n with
    | zero => intro s; rw [fgets]
    | succ n ih =>
      intro s
      cases s with
      | nil => rw [fgets]
      | cons c s =>
        rw [fgets]
        split_ifs
        · exact List.suffix_cons ..
        · exact (ih s).trans (List.suffix_cons ..)
  have f1 : s1 <:+ s := by
    unfold mapType at e1
    split at e1
    · cases e1
    · rename_i u hu
      simp only at e1
      split_ifs at e1 <;> cases e1 <;>
      · obtain ⟨p, rfl⟩ := word_suffix hu
        exact (fgets_suffix 127 u).trans (List.suffix_append ..)
  obtain ⟨p3, q3⟩ := num_suffix e3
  obtain ⟨p5, q5⟩ := num_suffix e5
  have f3 : s3 <:+ s2 := ⟨p3, q3.symm⟩
  have f5 : s5 <:+ s4 := ⟨p5, q5.symm⟩
  have fs : ∀ s, skip s <:+ s := fun s => by obtain ⟨p, hp⟩ := skip_suffix s; exact ⟨p, hp.symm⟩
  have f6 : (board rows ++ s7) <:+ s5 := by
    rw [← k1]
    cases hb : word "map".toList true (skip s5) with
    | none => exact List.nil_suffix
    | some t =>
      obtain ⟨p, hp⟩ := word_suffix hb
      exact List.IsSuffix.trans ⟨p, hp.symm⟩ (fs _)
  exact f6.trans (f5.trans ((want_suffix e4).trans ((fs _).trans (f3.trans ((want_suffix e2).trans f1)))))

/-- **C95, violated part.**  Any other character in the drawing is an index to an element of the terrain table that was never
written, or to none. -/
theorem c95_octile_chars {w h : Nat} {rows : List Str} (hr : Rect w h rows) (hw : 0 < w) (hh : 0 < h)
    (hc : ∀ r ∈ rows, ∀ c ∈ r, isws c = false) (hx : ∃ r ∈ rows, ∃ c ∈ r, ¬ OctChar c) (hs : (w + 2) * (h + 2) ≤ 2 ^ 31) (rest : Str) :
    load dbl draw (octText w h rows ++ rest) = .ub := by
  rw [octText_append, load_oct, loadOctile_head hs (board_head hr hw hh hc rest)]
  have := octRows_ok rows rest hr.w
  rw [hr.h] at this
  rw [this, Outcome.bind_ok]
  dsimp only
  rw [octFlags_ub rows _ _ hx]
  rfl

/-- The hypotheses of `c95_octile_chars` can be met. -/
example : Rect 2 1 [".x".toList] ∧ (∀ r ∈ [".x".toList], ∀ c ∈ r, isws c = false) ∧ ∃ r ∈ [".x".toList], ∃ c ∈ r, ¬ OctChar c :=
  ⟨⟨rfl, by simp⟩, by simp; decide, _, List.mem_cons_self .., 'x', by simp, by simp [OctChar]⟩

/-- **C95, violated part.**  An octile map file whose last line has no line break is refused. -/
theorem c95_octile_last {w h : Nat} {rows : List Str} (hr : Rect w h rows) (hw : 0 < w) (hh : 0 < h)
    (hc : ∀ r ∈ rows, ∀ c ∈ r, OctChar c) (hs : (w + 2) * (h + 2) ≤ 2 ^ 31) :
    load dbl draw (octText w h rows).dropLast = .fatal := by
  have hne : board rows ≠ [] := by
    cases rows with
    | nil => have := hr.h; simp at this; omega
    | cons r rs => simp [board]
  have hb := board_head hr hw hh (fun r h1 c h2 => octChar_ws (hc r h1 c h2)) []
  rw [List.append_nil] at hb
  have hne' : rows ≠ [] := by rintro rfl; exact hne rfl
  rw [octText_dropLast w h hne, load_oct, loadOctile_head hs]
  · have := octRows_noeol rows hne' hr.w
    rw [hr.h] at this
    rw [this]
    rfl
  · intro c h'
    refine hb c ?_
    cases hbd : board rows with
    | nil => exact absurd hbd hne
    | cons a t =>
      rw [hbd] at h'
      cases t with
      | nil => simp at h'
      | cons b t => simpa using h'

/-- **C95.**  A random map: in column `x` of row `y` the cell is out of bounds if the random number with the number
`x * h + y` (from 0) is below the probability, and passable otherwise. -/
theorem c95_uniform (dr : Nat → Bool) (w h : Nat) (mvs : List Move) (life : Bool) :
    Shows ⟨w + 2, h + 2, uniform dr w h, mvs, life⟩ w h fun x y => if dr (x * h + y) = true then OutOfBounds else Passable where
  width := rfl
  height := rfl
  border loc hl hn := by
    dsimp only at hl ⊢
    unfold Interior at hn
    dsimp only at hn
    rw [uniform, uniCols_val dr _ _ _ _ _ (by omega), if_neg (by omega), setsize_val w h loc hl, if_neg hn]
  cells x y hx hy := by
    dsimp only
    have e1 : ((y + 1) * (w + 2) + (x + 1)) / (w + 2) = y + 1 := by
      rw [Nat.mul_comm, Nat.mul_add_div (by omega), Nat.div_eq_of_lt (by omega)]
    have e2 : ((y + 1) * (w + 2) + (x + 1)) % (w + 2) = x + 1 := by
      rw [Nat.mul_comm, Nat.mul_add_mod]
      exact Nat.mod_eq_of_lt (by omega)
    rw [uniform, uniCols_val dr _ _ _ _ _ (by omega), e1, e2, if_pos (by omega)]
    simp only [Nat.add_sub_cancel, Nat.zero_add]
    rfl

/-- **C95.**  Every map that is read is sound: its border is out of bounds and it has one of the three sets of moves; it has
at most 2^31 cells. -/
theorem c95_sound {s : Str} {l : Loaded} (hl : load dbl draw s = .ok l) :
    MapOk l.m ∧ 2 ≤ l.m.w ∧ 2 ≤ l.m.h ∧ l.m.w * l.m.h ≤ 2 ^ 31 := by
  unfold load at hl
  split at hl
  · cases hl
  · split_ifs at hl with h1 h2 h3
    · obtain ⟨w, h, rows, -, -, -, k4, -, k5, k6⟩ := c95_octile_only hl
      exact ⟨⟨k6.border, .inl k5⟩, by rw [k6.width]; omega, by rw [k6.height]; omega, by rw [k6.width, k6.height]; exact k4⟩
    · unfold loadSeed at hl
      obtain ⟨s2, -, hl⟩ := Outcome.bind_eq_ok.1 hl
      obtain ⟨⟨seed, s3⟩, -, hl⟩ := Outcome.bind_eq_ok.1 hl
      obtain ⟨⟨w, s4⟩, -, hl⟩ := Outcome.bind_eq_ok.1 hl
      obtain ⟨⟨h, s5⟩, -, hl⟩ := Outcome.bind_eq_ok.1 hl
      dsimp only at hl
      split at hl
      · cases hl
      · obtain ⟨⟨mvs, s6⟩, e6, hl⟩ := Outcome.bind_eq_ok.1 hl
        dsimp only at hl
        obtain ⟨⟨life, s7⟩, -, hl⟩ := Outcome.bind_eq_ok.1 hl
        obtain ⟨u, e8, hl'⟩ := Outcome.map_eq_ok.1 hl
        subst hl'
        rename_i prob _ _
        refine ⟨⟨(c95_uniform _ w h mvs life).border, .inr (moveType_suffix e6).2⟩, ?_, ?_, size_eq e8⟩
        · dsimp only; omega
        · dsimp only; omega
    · obtain ⟨w, h, rows, pre, post, -, -, -, k4, -, k5, k6⟩ := c95_ruml_only hl
      exact ⟨⟨k6.border, .inr k5⟩, by rw [k6.width]; omega, by rw [k6.height]; omega, by rw [k6.width, k6.height]; exact k4⟩

/-! ### Files -/

/-- Two rows and three columns; the lower row of the file is the first one of the map. -/
example : (load (D := Unit) (fun _ => none) (fun _ _ _ => false) "2 3\nBoard:\n # \n  #\nUnit\nFour-way\n0 0 0 1".toList).map
    (fun l => ((List.range 20).map l.m.flags, l.m.lifecost, l.rest)) =
    .ok ([OutOfBounds, OutOfBounds, OutOfBounds, OutOfBounds, OutOfBounds,
      OutOfBounds, Passable, Passable, OutOfBounds, OutOfBounds,
      OutOfBounds, Passable, OutOfBounds, Passable, OutOfBounds,
      OutOfBounds, OutOfBounds, OutOfBounds, OutOfBounds, OutOfBounds], false, "\n0 0 0 1".toList) := by decide +kernel

/-- An octile map: the upper row of the file is the first one of the map. -/
example : (load (D := Unit) (fun _ => none) (fun _ _ _ => false) "type octile\nheight 2\nwidth 2\nmap\n.@\nTS\n".toList).map
    (fun l => ([5, 6, 9, 10].map l.m.flags, l.life, l.rest)) = .ok ([Passable, OutOfBounds, Tree, Swamp], false, []) := by
  decide +kernel

/-- **C95, violated part.**  `fscanf` gives 0 also if a word does not match: broken headers are accepted. -/
theorem c95_lenient :
    (load (D := Unit) (fun _ => none) (fun _ _ _ => false) "1 1\nB\n \nUnFour-way".toList).map (fun l => (l.m.w, l.m.h, l.rest)) =
      .ok (3, 3, []) ∧
    (load (D := Unit) (fun _ => none) (fun _ _ _ => false) "toctile\nheight 1 width 1\n.\n".toList).map
      (fun l => (l.m.w, l.m.h, l.rest)) = .ok (3, 3, []) := by
  constructor <;> decide +kernel

/-! ## C96: instances -/

/-- **C96.**  The instance of a file in the format of the Ruml group is the map that was drawn with the cells that were
given. -/
theorem c96_instance {w h : Nat} {rows : List Str} (hr : Rect w h rows) (hc : ∀ r ∈ rows, ∀ c ∈ r, c = ' ' ∨ c = '#')
    (hs : (w + 2) * (h + 2) ≤ 2 ^ 31) (life eight : Bool) {x0 y0 x1 y1 : Nat} (hx0 : x0 < w) (hy0 : y0 < h) (hx1 : x1 < w)
    (hy1 : y1 < h) (h0 : charAt rows x0 (h - 1 - y0) = ' ') (h1 : charAt rows x1 (h - 1 - y1) = ' ') :
    ∃ m, instance' dbl draw (rumlText w h rows life eight ++ '\n' :: (Nat.toDigits 10 x0 ++ ' ' :: (Nat.toDigits 10 y0 ++ ' ' ::
        (Nat.toDigits 10 x1 ++ ' ' :: (Nat.toDigits 10 y1 ++ ['\n']))))) =
        .ok (m, (y0 + 1) * (w + 2) + (x0 + 1), (y1 + 1) * (w + 2) + (x1 + 1)) ∧
      m.lifecost = life ∧ m.mvs = (if eight then eightway else fourway) ∧
      Shows m w h fun x y => if charAt rows x (h - 1 - y) = ' ' then Passable else OutOfBounds := by
  obtain ⟨m, e1, e2, e3, e4⟩ := c95_ruml (dbl := dbl) (draw := draw) hr hc hs life eight ('\n' :: (Nat.toDigits 10 x0 ++ ' ' ::
    (Nat.toDigits 10 y0 ++ ' ' :: (Nat.toDigits 10 x1 ++ ' ' :: (Nat.toDigits 10 y1 ++ ['\n'])))))
  obtain ⟨hw, hh⟩ := size_lt hs
  have key : ∀ x y, x < w → y < h → charAt rows x (h - 1 - y) = ' ' →
      index m (x + 1) (y + 1) = (y + 1) * (w + 2) + (x + 1) ∧ blkdAt m (x + 1) (y + 1) = .ok false := by
    intro x y hx hy hxy
    have hlt : (y + 1) * (w + 2) + (x + 1) < (w + 2) * (h + 2) := by
      have := Nat.mul_le_mul_right (w + 2) (show y + 1 + 1 ≤ h + 2 by omega)
      rw [Nat.add_mul, Nat.mul_comm (h + 2)] at this
      omega
    have hi : index m (x + 1) (y + 1) = (y + 1) * (w + 2) + (x + 1) := by
      unfold index
      rw [e4.width]
      exact Nat.mod_eq_of_lt (by omega)
    refine ⟨hi, ?_⟩
    unfold blkdAt
    rw [hi, e4.width, e4.height, if_pos hlt]
    unfold blkd
    rw [e4.cells x y hx hy, if_pos hxy]
    rfl
  obtain ⟨a1, a2⟩ := key x0 y0 hx0 hy0 h0
  obtain ⟨b1, b2⟩ := key x1 y1 hx1 hy1 h1
  refine ⟨m, ?_, e2, e3, e4⟩
  unfold instance'
  rw [e1, Outcome.bind_ok]
  dsimp only
  rw [num_ws _ _ (by decide), num_digits (by omega) (by rintro _ ⟨⟩; decide), Outcome.bind_ok]
  dsimp only
  rw [num_ws _ _ (by decide), num_digits (by omega) (by rintro _ ⟨⟩; decide), Outcome.bind_ok]
  dsimp only
  rw [num_ws _ _ (by decide), num_digits (by omega) (by rintro _ ⟨⟩; decide), Outcome.bind_ok]
  dsimp only
  rw [num_ws _ _ (by decide), num_digits (by omega) (by rintro _ ⟨⟩; decide), Outcome.bind_ok]
  dsimp only
  rw [a2, Outcome.bind_ok, if_neg (by simp), b2, Outcome.bind_ok, if_neg (by simp), if_neg (by simp), a1, b1]

/-- **C96.**  Whatever instance is accepted, start and goal are passable cells inside the border of a sound map. -/
theorem c96_sound {s : Str} {m : GMap} {start finish : Nat} (hi : instance' dbl draw s = .ok (m, start, finish)) :
    MapOk m ∧ m.w * m.h ≤ 2 ^ 31 ∧ Interior m start ∧ Interior m finish ∧ blkd m start = false ∧ blkd m finish = false := by
  unfold instance' at hi
  obtain ⟨l, e1, hi⟩ := Outcome.bind_eq_ok.1 hi
  obtain ⟨⟨x0, s0⟩, -, hi⟩ := Outcome.bind_eq_ok.1 hi
  obtain ⟨⟨y0, s1⟩, -, hi⟩ := Outcome.bind_eq_ok.1 hi
  obtain ⟨⟨xg, s2⟩, -, hi⟩ := Outcome.bind_eq_ok.1 hi
  obtain ⟨⟨yg, s3⟩, -, hi⟩ := Outcome.bind_eq_ok.1 hi
  dsimp only at hi
  obtain ⟨b0, e2, hi⟩ := Outcome.bind_eq_ok.1 hi
  by_cases c0 : b0 = true
  · rw [if_pos c0] at hi; cases hi
  rw [if_neg c0] at hi
  obtain ⟨b1, e3, hi⟩ := Outcome.bind_eq_ok.1 hi
  by_cases c1 : b1 = true
  · rw [if_pos c1] at hi; cases hi
  rw [if_neg c1] at hi
  by_cases c2 : l.life = false
  · rw [if_pos c2] at hi; cases hi
  rw [if_neg c2] at hi
  cases hi
  rw [Bool.not_eq_true] at c0 c1
  subst c0 c1
  obtain ⟨k1, -, -, k4⟩ := c95_sound e1
  have key : ∀ x y, blkdAt l.m x y = .ok false → Interior l.m (index l.m x y) ∧ blkd l.m (index l.m x y) = false := by
    intro x y h
    unfold blkdAt at h
    split_ifs at h with h1
    cases h' : blkd l.m (index l.m x y) with
    | true => rw [h'] at h; cases h
    | false =>
      refine ⟨?_, rfl⟩
      by_contra hn
      unfold blkd at h'
      rw [k1.border _ h1 hn] at h'
      exact absurd h' (by decide)
  obtain ⟨a1, a2⟩ := key _ _ e2
  obtain ⟨a3, a4⟩ := key _ _ e3
  exact ⟨k1, k4, a1, a3, a2, a4⟩

/-- **C96.**  From the file to the path: for every instance that is accepted and has at most 2^29 cells, A\* finds a cheapest
path between the cells on the map, or none if there is none. -/
theorem c96_astar {s : Str} {m : GMap} {start finish : Nat} (hi : instance' dbl draw s = .ok (m, start, finish))
    (hsize : m.w * m.h ≤ 2 ^ 29) {hash : Nat → Nat} {x : Lists (BinHeap.Heap Nat)}
    (hx : HeapObj Nat Int (astar (hval m finish)).pred x) :
    ∃ F c p, (∀ fuel ≥ F, csearch (dom m finish) (astar (hval m finish)) (heapImpl (astar (hval m finish)).pred) hash x
        ⟨0, 0⟩ (fun _ => false) fuel start = .ok (c, p)) ∧
      ((∃ q c, IsPath m start finish q c) →
        ∃ c, IsPath m start finish p.1 c ∧ ∀ q c', IsPath m start finish q c' → c ≤ c') ∧
      ((¬ ∃ q c, IsPath m start finish q c) → p = ([], [])) := by
  obtain ⟨h1, -, h3, h4, -, -⟩ := c96_sound hi
  exact c77_astar h1 hsize h3 h4 hx

/-- **C96, violated part.**  No octile map gives an instance: `lifecost` is read but was never written. -/
theorem c96_octile {s : Str} (r : GMap × Nat × Nat) : instance' dbl draw ('t' :: s) ≠ .ok r := by
  intro hi
  unfold instance' at hi
  obtain ⟨l, e1, hi⟩ := Outcome.bind_eq_ok.1 hi
  rw [load, if_pos rfl] at e1
  obtain ⟨-, -, -, -, -, -, -, hlife, -⟩ := c95_octile_only e1
  obtain ⟨⟨x0, s0⟩, -, hi⟩ := Outcome.bind_eq_ok.1 hi
  obtain ⟨⟨y0, s1⟩, -, hi⟩ := Outcome.bind_eq_ok.1 hi
  obtain ⟨⟨xg, s2⟩, -, hi⟩ := Outcome.bind_eq_ok.1 hi
  obtain ⟨⟨yg, s3⟩, -, hi⟩ := Outcome.bind_eq_ok.1 hi
  dsimp only at hi
  obtain ⟨b0, e2, hi⟩ := Outcome.bind_eq_ok.1 hi
  split_ifs at hi with c0
  obtain ⟨b1, e3, hi⟩ := Outcome.bind_eq_ok.1 hi
  split_ifs at hi with c1

/-- A sound octile instance that is not accepted. -/
theorem c96_octile_ub : (instance' (D := Unit) (fun _ => none) (fun _ _ _ => false)
    "type octile\nheight 1\nwidth 2\nmap\n..\n0 0 1 0".toList).map Prod.snd = .ub := by decide +kernel

/-- **C96, violated part.**  Coordinates are not compared with the size of the map: column 4 of a map with two columns is
column 0 of the next row, and beyond the last row the program reads outside of the map. -/
theorem c96_coordinates :
    (instance' (D := Unit) (fun _ => none) (fun _ _ _ => false)
      "2 2\nBoard:\n  \n  \nUnit\nFour-way 4 0 0 1".toList).map Prod.snd = .ok (9, 9) ∧
    (instance' (D := Unit) (fun _ => none) (fun _ _ _ => false)
      "2 2\nBoard:\n  \n  \nUnit\nFour-way 0 3 0 1".toList).map Prod.snd = .ub := by
  constructor <;> decide +kernel

/-- The hypotheses of `c96_instance` can be met. -/
example : (instance' (D := Unit) (fun _ => none) (fun _ _ _ => false)
    "2 2\nBoard:\n #\n  \nLife\nEight-way\n0 0 0 1\n".toList).map Prod.snd = .ok (5, 9) := by decide +kernel

example : rumlText 2 2 [" #".toList, "  ".toList] true true ++ '\n' :: (Nat.toDigits 10 0 ++ ' ' :: (Nat.toDigits 10 0 ++ ' ' ::
    (Nat.toDigits 10 0 ++ ' ' :: (Nat.toDigits 10 1 ++ ['\n'])))) = "2 2\nBoard:\n #\n  \nLife\nEight-way\n0 0 0 1\n".toList := by
  decide +kernel

/-- **C96.**  randinst.cc chooses passable cells inside the border, if it does not read outside of the map. -/
theorem c96_randinst {m : GMap} (hm : MapOk m) {fuel : Nat} {v v' : BitVec 64} {x y : Nat} (h : pick m fuel v = .ok (x, y, v')) :
    Interior m (index m x y) ∧ blkd m (index m x y) = false := by
  induction fuel generalizing v with
  | zero => cases h
  | succ fuel ih =>
    rw [pick, Outcome.bind_eq_ok] at h
    obtain ⟨⟨a, v1⟩, -, h⟩ := h
    obtain ⟨⟨b, v2⟩, -, h⟩ := Outcome.bind_eq_ok.1 h
    dsimp only at h
    obtain ⟨bl, e, h⟩ := Outcome.bind_eq_ok.1 h
    split_ifs at h with hb
    · exact ih h
    · rw [Bool.not_eq_true] at hb
      subst hb
      cases h
      unfold blkdAt at e
      split_ifs at e with h1
      cases h' : blkd m (index m a.toNat b.toNat) with
      | true => rw [h'] at e; cases e
      | false =>
        refine ⟨?_, rfl⟩
        by_contra hn
        unfold blkd at h'
        rw [hm.border _ h1 hn] at h'
        exact absurd h' (by decide)

/-- **C96, violated part.**  For every map there is a seed for which randinst.cc reads outside of the map: the row after the
last one can be drawn. -/
theorem c96_randinst_ub (m : GMap) (hw : 2 ≤ m.w) (hh : 2 ≤ m.h) (hs : m.w * m.h ≤ 2 ^ 31) (fuel : Nat) :
    ∃ seed, pick m (fuel + 1) (Rand.init seed) = .ub := by
  have h1 : m.w * 2 ≤ m.w * m.h := Nat.mul_le_mul_left _ hh
  have h2 : 2 * m.h ≤ m.w * m.h := Nat.mul_le_mul_right _ hw
  have hl : ∀ n : Nat, n ≤ 2 ^ 30 → Rand.InL (n : Int) ∧ Rand.InL ((n : Int) + 1) ∧ Rand.InL ((n : Int) + 1 - 1) := fun n hn => by
    unfold Rand.InL; omega
  have h0 : Rand.InL 1 := by unfold Rand.InL; omega
  obtain ⟨u, u', hu⟩ := Rand.c25_integer_onto (min := 1) (max := m.h) (r := m.h) (by omega) h0 (hl m.h (by omega)).2.1
    (hl m.h (by omega)).2.2 (by omega) le_rfl
  obtain ⟨v, rfl⟩ := Rand.c25_permutation.2 u
  obtain ⟨v0, rfl⟩ : ∃ seed, Rand.init seed = v := by
    obtain ⟨z, hz⟩ := Rand.c25_permutation.2 v
    refine ⟨Rand.vini ^^^ z, ?_⟩
    unfold Rand.init
    rw [← BitVec.xor_assoc, BitVec.xor_self, BitVec.zero_xor]
    exact hz
  refine ⟨v0, ?_⟩
  have hx := Rand.integer_eq (v := Rand.init v0) (min := 1) (max := m.w) (by omega) h0 (hl m.w (by omega)).2.1 (hl m.w (by omega)).2.2
  rw [pick, hx, Outcome.bind_ok]
  dsimp only
  rw [hu, Outcome.bind_ok]
  dsimp only
  have : blkdAt m ((((Rand.bits (Rand.init v0)).toNat % ((m.w : Int) + 1 - 1).toNat : Nat) : Int) + 1).toNat (m.h : Int).toNat = .ub := by
    unfold blkdAt index
    have hlt : (Rand.bits (Rand.init v0)).toNat % ((m.w : Int) + 1 - 1).toNat < ((m.w : Int) + 1 - 1).toNat := Nat.mod_lt _ (by omega)
    generalize (Rand.bits (Rand.init v0)).toNat % ((m.w : Int) + 1 - 1).toNat = q at hlt ⊢
    rw [Int.toNat_natCast, Nat.mod_eq_of_lt, if_neg]
    · rw [Nat.mul_comm m.h]; omega
    · rw [Nat.mul_comm m.h]; omega
  rw [this]
  rfl

/-! ## C97: polygon maps from grid maps -/

/-- **C97.**  For a square map the bitmap has the blocked cells of the map. -/
theorem c97_square_partial {m : GMap} (hs : m.w = m.h) :
    ∃ a, toBits m = .ok a ∧ ∀ x y, x < m.w → y < m.h → a (x * m.h + y) = blkd m (y * m.w + x) := by
  obtain ⟨a, h1, h2⟩ := polyCols_ok hs m.w 0 (fun _ => true) (by omega)
  exact ⟨a, h1, fun x y hx hy => by rw [h2 x y hy, if_pos (by omega)]⟩

/-- **C97.**  A square grid map whose passable cells hang together becomes a polygon map that obstructs exactly the blocked
cells. -/
theorem c97_map_partial {K : Type} [Field K] [LinearOrder K] [IsStrictOrderedRing K] (T : Geom.Tol K) {m : GMap} (hm : MapOk m)
    (hs : m.w = m.h) (hsize : m.w * m.h < 2 ^ 32) (hfree : ∃ loc < m.w * m.h, blkd m loc = false)
    (hconn : ∀ a b : Nat × Nat, a.1 < m.w → a.2 < m.h → b.1 < m.w → b.2 < m.h → blkd m (a.2 * m.w + a.1) = false →
      blkd m (b.2 * m.w + b.1) = false →
      Relation.ReflTransGen (fun c d : Nat × Nat => Grid2Poly.Beside c d ∧ d.1 < m.w ∧ d.2 < m.h ∧ blkd m (d.2 * m.w + d.1) = false) a b) :
    ∃ a N p, toBits m = .ok a ∧ (∀ f, N ≤ f → Grid2Poly.polyMap K f a m.w m.h = .ok p) ∧
      ∀ (x y : Nat) (q : Geom.Pt K), x < m.w → y < m.h → Grid2Poly.InCell T x y q → p.obstructed T q = blkd m (y * m.w + x) := by
  obtain ⟨a, h1, ha⟩ := c97_square_partial hs
  have hf : ∀ c, Grid2Poly.FreeCell a m.w m.h c ↔ c.1 < m.w ∧ c.2 < m.h ∧ blkd m (c.2 * m.w + c.1) = false := fun c => by
    unfold Grid2Poly.FreeCell
    constructor
    · rintro ⟨g1, g2, g3⟩; exact ⟨g1, g2, by rw [← ha _ _ g1 g2]; exact g3⟩
    · rintro ⟨g1, g2, g3⟩; exact ⟨g1, g2, by rw [ha _ _ g1 g2]; exact g3⟩
  have hcell : ∀ x y, x < m.w → y < m.h → y * m.w + x < m.w * m.h ∧ (y * m.w + x) / m.w = y ∧ (y * m.w + x) % m.w = x := by
    intro x y hx hy
    refine ⟨?_, ?_, ?_⟩
    · have := Nat.mul_le_mul_right m.w (show y + 1 ≤ m.h by omega)
      rw [Nat.add_mul, Nat.mul_comm m.h] at this
      omega
    · rw [Nat.mul_comm, Nat.mul_add_div (by omega), Nat.div_eq_of_lt hx]
      rfl
    · rw [Nat.mul_comm, Nat.mul_add_mod]
      exact Nat.mod_eq_of_lt hx
  obtain ⟨N, p, h3, h4⟩ := Grid2Poly.c92_connected (blkd := a) T hsize
    (fun x y hx hy he => by
      rw [ha x y hx hy]
      obtain ⟨c1, c2, c3⟩ := hcell x y hx hy
      unfold blkd
      rw [hm.border _ c1 (by unfold Interior; rw [c2, c3]; omega)]
      rfl)
    (by
      obtain ⟨loc, hl, hb⟩ := hfree
      have hw : 0 < m.w := Nat.pos_of_ne_zero fun e => by rw [e] at hl; omega
      refine ⟨(loc % m.w, loc / m.w), (hf _).2 ⟨Nat.mod_lt _ hw, Nat.div_lt_of_lt_mul hl, ?_⟩⟩
      rw [Nat.mul_comm, Nat.div_add_mod]
      exact hb)
    (fun c d hc hd => ⟨hc, by
      simp only [hf]
      obtain ⟨c1, c2, c3⟩ := (hf c).1 hc
      obtain ⟨d1, d2, d3⟩ := (hf d).1 hd
      exact hconn c d c1 c2 d1 d2 c3 d3⟩)
  exact ⟨a, N, p, h1, h3, fun x y q hx hy hq => by rw [h4 x y q hx hy hq, ha x y hx hy]⟩

/-- **C97, violated part.**  A map that is wider than high makes the program write beyond its array. -/
theorem c97_wide {m : GMap} (hw : m.h < m.w) (hh : 0 < m.h) : toBits m = .ub :=
  polyCols_ub hw m.w 0 _ (by omega) (by omega) hh

/-- A map with one column and two rows, both passable. -/
def tall : GMap := ⟨3, 4, setsize 1 2, fourway, false⟩

theorem tall_ok : MapOk tall :=
  ⟨fun loc hl hn => by
    have hl' : loc < 12 := hl
    unfold Interior at hn
    interval_cases loc <;> first | (exfalso; revert hn; decide) | decide +kernel, .inr (.inr rfl)⟩

/-- **C97, violated part.**  A map that is higher than wide becomes a wrong bitmap: here the passable cell in the second row is
blocked in the bitmap, and a cell of the border is free. -/
theorem c97_tall : MapOk tall ∧ blkd tall (2 * 3 + 1) = false ∧
    (toBits tall).map (fun a => (List.range 12).map a) = .ok [true, true, true, true, false, false, true, true, true, true, true, true] ∧
    (toBits tall).map (fun a => (a (1 * 4 + 2), a (1 * 4 + 0))) = .ok (true, false) := by
  refine ⟨tall_ok, by decide +kernel, by decide +kernel, by decide +kernel⟩

/-- The hypotheses of `c97_map_partial` can be met. -/
example : ∃ a N p, toBits ⟨3, 3, setsize 1 1, fourway, false⟩ = .ok a ∧ (∀ f, N ≤ f → Grid2Poly.polyMap ℚ f a 3 3 = .ok p) ∧
    p.obstructed Grid2Poly.exT ⟨3 / 2, 3 / 2⟩ = false := by
  have hb : ∀ x y, x < 3 → y < 3 → blkd ⟨3, 3, setsize 1 1, fourway, false⟩ (y * 3 + x) = false → x = 1 ∧ y = 1 := by
    intro x y hx hy
    interval_cases x <;> interval_cases y <;> decide +kernel
  obtain ⟨a, N, p, h1, h2, h3⟩ := c97_map_partial (K := ℚ) Grid2Poly.exT (m := ⟨3, 3, setsize 1 1, fourway, false⟩)
    ⟨fun loc hl hn => by
      have hl' : loc < 9 := hl
      unfold Interior at hn
      interval_cases loc <;> first | (exfalso; revert hn; decide) | decide +kernel, .inr (.inr rfl)⟩ rfl (by norm_num)
    ⟨4, by norm_num, by decide +kernel⟩ (by
      rintro ⟨x, y⟩ ⟨x', y'⟩ h1 h2 h3 h4 h5 h6
      obtain ⟨rfl, rfl⟩ := hb x y h1 h2 h5
      obtain ⟨rfl, rfl⟩ := hb x' y' h3 h4 h6
      exact .refl)
  refine ⟨a, N, p, h1, h2, ?_⟩
  rw [h3 1 1 _ (by norm_num) (by norm_num) (by norm_num [Grid2Poly.InCell, Grid2Poly.exT])]
  decide +kernel

end Verif.GridFile
