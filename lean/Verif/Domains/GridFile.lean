import Verif.Domains.GridNav
import Verif.Utils.Str
import Verif.Utils.Rand

/-!
# Model of reading grid maps (gridnav/gridmap.cc:24-36, 81-260), of gridnav/main_gridnav.cc, gridnav/2poly.cc and of the choice of
locations in gridnav/randinst.cc

A stream is the list of the characters that have not been read.

* `fscanf` is modelled for the formats in use: white space in a format skips white space, other characters must match, `%u`
  skips white space and reads a sign and digits.  It is undefined behaviour if the number does not fit.  `fscanf` without a
  conversion gives 0 also if a character does not match (`EOF` at the end of the input).
* The array `map` of characters is not kept: after the loading only drawing programs read it.
* `%lg` and the random numbers of `uniform` are parameters.
* A map with more than 2^31 cells is undefined behaviour: `index` converts to `int`.  Memory is unlimited.
* An exception that is not caught (`safe::BadFlow` in `load`) ends the program, like `fatal`.
-/

namespace Verif.GridFile

open Verif.GridNav Verif.Str

/-! ## `fscanf` -/

/-- White space in a format. -/
def skip (s : Str) : Str := s.dropWhile isws

/-- Other characters in a format: `none` at the end of the input; otherwise whether all matched, and the rest. -/
def lits : Str → Str → Option (Bool × Str)
  | [], s => some (true, s)
  | _ :: _, [] => none
  | c :: cs, d :: s => if c = d then lits cs s else some (false, d :: s)

/-- `%u` and `%lu`: the value is below `b`; `none` if there is no number. -/
def uint (b : Nat) (s : Str) : Outcome (Option (Nat × Str)) :=
  let s := skip s
  let neg := s.head? == some '-'
  let t := if neg || s.head? == some '+' then s.tail else s
  if t.takeWhile Char.isDigit = [] then .ok none
  else
    let n := Nat.ofDigitChars 10 (t.takeWhile Char.isDigit) 0
    if (neg = true ∧ n ≠ 0) ∨ b ≤ n then .ub else .ok (some (n, t.dropWhile Char.isDigit))

/-- `%u` in a format where the number of conversions is checked. -/
def num (b : Nat) (s : Str) : Outcome (Nat × Str) :=
  (uint b s).bind fun
    | none => .fatal
    | some r => .ok r

/-- `fscanf(in, word) == 0`, with white space after the word if `ws`. -/
def word (wd : Str) (ws : Bool) (s : Str) : Option Str :=
  (lits wd s).map fun r => if r.1 && ws then skip r.2 else r.2

/-! ## `setsize` -/

/-- gridmap.cc:236-239, and the size of `int`: can there be a map of this size? -/
def size (w h : Nat) : Outcome Unit :=
  if 2 ^ 32 ≤ w + 2 ∨ 2 ^ 32 ≤ h + 2 ∨ 2 ^ 32 ≤ (w + 2) * (h + 2) then .fatal
  else if 2 ^ 31 < (w + 2) * (h + 2) then .ub
  else .ok ()

/-- What a reader leaves behind: the map (`lifecost` is false if it was not set), whether `lifecost` was set, the rest of the
input. -/
structure Loaded where
  m : GMap
  life : Bool
  rest : Str

/-! ## `load_ruml` (136-184) -/

/-- gridmap.cc:146-161: a row, from index `i` on; `n` more cells. -/
def rumlRow : Nat → Nat → Str → (Nat → Nat) → Outcome (Str × (Nat → Nat))
  | 0, _, s, fl => .ok (s, fl)
  | _ + 1, _, [], _ => .fatal
  | n + 1, i, c :: s, fl =>
    if c = ' ' then rumlRow n (i + 1) s (Function.update fl i Passable)
    else if c = '#' then rumlRow n (i + 1) s (Function.update fl i OutOfBounds)
    else .fatal

/-- `if (fgetc(in) != '\n') fail` -/
def newline : Str → Outcome Str
  | c :: s => if c = '\n' then .ok s else .fatal
  | [] => .fatal

/-- gridmap.cc:145-164: the rows from `y` on; `n` more rows.  `w` and `h` are the sizes in the file. -/
def rumlRows (w h : Nat) : Nat → Nat → Str → (Nat → Nat) → Outcome (Str × (Nat → Nat))
  | 0, _, s, fl => .ok (s, fl)
  | n + 1, y, s, fl =>
    (rumlRow w ((h + 2 - y - 1) * (w + 2) + 1) s fl).bind fun r =>
    (newline r.1).bind fun s => rumlRows w h n (y + 1) s r.2

/-- gridmap.cc:166-173 (117-122): the kind of costs. -/
def costType (s : Str) : Outcome (Bool × Str) :=
  if s.head? = some 'U' then
    match word "Unit".toList true s with
    | some s => .ok (false, s)
    | none => .fatal
  else if s.head? = some 'L' then
    match word "Life".toList true s with
    | some s => .ok (true, s)
    | none => .fatal
  else .fatal

/-- gridmap.cc:175-182 (108-115): the kind of moves. -/
def moveType (eight four : Str) (ws : Bool) (s : Str) : Outcome (List Move × Str) :=
  if s.head? = some 'E' then
    match word eight ws s with
    | some s => .ok (eightway, s)
    | none => .fatal
  else if s.head? = some 'F' then
    match word four ws s with
    | some s => .ok (fourway, s)
    | none => .fatal
  else .fatal

/-- gridmap.cc:136-184 `load_ruml`. -/
def loadRuml (s : Str) : Outcome Loaded :=
  (num (2 ^ 32) s).bind fun (h, s) =>
  (num (2 ^ 32) s).bind fun (w, s) =>
  let s := ((lits "Board:".toList (skip s)).map Prod.snd).getD []
  (size w h).bind fun _ =>
  (newline s).bind fun s =>
  (rumlRows w h h 1 s (setsize w h)).bind fun (s, fl) =>
  (costType s).bind fun (life, s) =>
  (moveType "Eight-way".toList "Four-way".toList false s).map fun (mvs, s) =>
  ⟨⟨w + 2, h + 2, fl, mvs, life⟩, true, s⟩

/-! ## `load_sturtevant` (186-234) -/

/-- gridmap.cc:212-223 `Terrain`: the characters of the table.  Other entries are not initialised, and from 127 on there are none. -/
def terrain (c : Char) : Outcome Nat :=
  if c = '.' ∨ c = 'G' then .ok Passable
  else if c = '@' ∨ c = 'O' then .ok OutOfBounds
  else if c = 'T' then .ok Tree
  else if c = 'S' then .ok Swamp
  else if c = 'W' then .ok Water
  else .ub

/-- `fgets` into a buffer of `n + 1` characters. -/
def fgets : Nat → Str → Str × Str
  | 0, s => ([], s)
  | _ + 1, [] => ([], [])
  | n + 1, c :: s => if c = '\n' then ([c], s) else (c :: (fgets n s).1, (fgets n s).2)

/-- gridmap.cc:187-196: the type of the map, and the rest. -/
def mapType (s : Str) : Outcome (Str × Str) :=
  match word "type".toList true s with
  | none => .fatal
  | some s =>
    if s = [] then .fatal
    else
      let t := cstr (fgets 127 s).1
      if t = [] then .ub
      else .ok (if t.getLast? = some '\n' then t.dropLast else t, (fgets 127 s).2)

/-- A word in a format that must match, and the white space after it. -/
def want (wd : Str) (s : Str) : Outcome Str :=
  match lits wd s with
  | some (true, s) => .ok (skip s)
  | _ => .fatal

/-- gridmap.cc:203-209: `n` rows of `w` characters, each with a line break. -/
def octRows (w : Nat) : Nat → Str → Outcome (List Str × Str)
  | 0, s => .ok ([], s)
  | n + 1, s =>
    if s.length < w then .fatal
    else (newline (s.drop w)).bind fun s' => (octRows w n s').map fun r => (s.take w :: r.1, r.2)

/-- gridmap.cc:227: a row of the flags, from index `i` on. -/
def octRow : Nat → Str → (Nat → Nat) → Outcome (Nat → Nat)
  | _, [], fl => .ok fl
  | i, c :: cs, fl => (terrain c).bind fun t => octRow (i + 1) cs (Function.update fl i t)

/-- gridmap.cc:226-229: the rows of the flags, from `y` on; `w` is the width in the file. -/
def octFlags (w : Nat) : Nat → List Str → (Nat → Nat) → Outcome (Nat → Nat)
  | _, [], fl => .ok fl
  | y, r :: rs, fl => (octRow (y * (w + 2) + 1) r fl).bind (octFlags w (y + 1) rs)

/-- gridmap.cc:186-232 `load_sturtevant`. -/
def loadOctile (s : Str) : Outcome Loaded :=
  (mapType s).bind fun (t, s) =>
  if t ≠ "octile".toList then .fatal
  else
    (want "height".toList s).bind fun s =>
    (num (2 ^ 32) s).bind fun (h, s) =>
    (want "width".toList (skip s)).bind fun s =>
    (num (2 ^ 32) s).bind fun (w, s) =>
    let s := ((word "map".toList true (skip s))).getD []
    (size w h).bind fun _ =>
    (octRows w h s).bind fun (rows, s) =>
    (octFlags w 1 rows (setsize w h)).map fun fl =>
    ⟨⟨w + 2, h + 2, fl, octile, false⟩, false, s⟩

/-! ## `load_seedinst` (97-133) -/

/-- gridmap.cc:46-52: the flags of a cell, depending on whether the random number is below the probability. -/
def drawFlag (b : Bool) : Nat := if b = true then OutOfBounds else Passable

/-- gridmap.cc:44-54: a column of `uniform`; `k` is the number of the next random number, `y` the next row, `n` more rows. -/
def uniCol (draw : Nat → Bool) (w x : Nat) : Nat → Nat → Nat → (Nat → Nat) → Nat → Nat
  | 0, _, _, fl => fl
  | n + 1, y, k, fl =>
    uniCol draw w x n (y + 1) (k + 1) (Function.update fl (y * (w + 2) + x) (drawFlag (draw k)))

/-- gridmap.cc:43-55: the columns of `uniform` from `x` on; `n` more columns. -/
def uniCols (draw : Nat → Bool) (w h : Nat) : Nat → Nat → Nat → (Nat → Nat) → Nat → Nat
  | 0, _, _, fl => fl
  | n + 1, x, k, fl => uniCols draw w h n (x + 1) (k + h) (uniCol draw w x h 1 k fl)

/-- gridmap.cc:38-58 `uniform`: the flags.  `draw k` says whether the `k`-th random number is below the probability. -/
def uniform (draw : Nat → Bool) (w h : Nat) : Nat → Nat := uniCols draw w h w 1 0 (setsize w h)

/-- gridmap.cc:97-133 `load_seedinst`.  `dbl` reads `%lg`; `draw seed prob` are the random numbers. -/
def loadSeed {D : Type} (dbl : Str → Option (D × Str)) (draw : Nat → D → Nat → Bool) (s : Str) : Outcome Loaded :=
  (want "seed".toList s).bind fun s =>
  (num (2 ^ 64) s).bind fun (seed, s) =>
  (num (2 ^ 32) s).bind fun (w, s) =>
  (num (2 ^ 32) s).bind fun (h, s) =>
  match dbl (skip s) with
  | none => .fatal
  | some (prob, s) =>
    (moveType "Eightway".toList "Fourway".toList true (skip s)).bind fun (mvs, s) =>
    (costType s).bind fun (life, s) =>
    (size w h).map fun _ =>
    ⟨⟨w + 2, h + 2, uniform (draw seed prob) w h, mvs, life⟩, true, s⟩

/-- gridmap.cc:81-95 `load`. -/
def load {D : Type} (dbl : Str → Option (D × Str)) (draw : Nat → D → Nat → Bool) (s : Str) : Outcome Loaded :=
  match s with
  | [] => .fatal
  | c :: _ =>
    if c = 't' then loadOctile s
    else if c = 's' then loadSeed dbl draw s
    else if c.isDigit = true then loadRuml s
    else .fatal

/-! ## main_gridnav.cc -/

/-- gridmap.hpp:39-41 `index` of coordinates below 2^32, as the `unsigned int` that is converted to `int`. -/
def index (m : GMap) (x y : Nat) : Nat := (y * m.w + x) % 2 ^ 32

/-- `blkd(index(x, y))`; the array has at most 2^31 elements, so that a negative index is out of range, too. -/
def blkdAt (m : GMap) (x y : Nat) : Outcome Bool :=
  if index m x y < m.w * m.h then .ok (blkd m (index m x y)) else .ub

/-- main_gridnav.cc:27-49: map, start and goal.  `lifecost` is not set by the constructor of gridmap.hpp:19 and is read
by the search: undefined behaviour if the map did not set it either. -/
def instance' {D : Type} (dbl : Str → Option (D × Str)) (draw : Nat → D → Nat → Bool) (s : Str) : Outcome (GMap × Nat × Nat) :=
  (load dbl draw s).bind fun l =>
  (num (2 ^ 32) l.rest).bind fun (x0, s) =>
  (num (2 ^ 32) s).bind fun (y0, s) =>
  (num (2 ^ 32) s).bind fun (xg, s) =>
  (num (2 ^ 32) s).bind fun (yg, _) =>
  (blkdAt l.m (x0 + 1) (y0 + 1)).bind fun b =>
  if b then .fatal
  else
    (blkdAt l.m (xg + 1) (yg + 1)).bind fun b =>
    if b then .fatal
    else if l.life = false then .ub
    else .ok (l.m, index l.m (x0 + 1) (y0 + 1), index l.m (xg + 1) (yg + 1))

/-! ## 2poly.cc -/

/-- 2poly.cc:16-17: the rows of column `i`, from `j` on; `n` more rows. -/
def polyCol (m : GMap) (i : Nat) : Nat → Nat → (Nat → Bool) → Outcome (Nat → Bool)
  | 0, _, a => .ok a
  | n + 1, j, a =>
    if i * m.w + j < m.w * m.h then polyCol m i n (j + 1) (Function.update a (i * m.w + j) (blkd m (j * m.w + i))) else .ub

/-- 2poly.cc:13-18: the columns from `i` on; `n` more columns. -/
def polyCols (m : GMap) : Nat → Nat → (Nat → Bool) → Outcome (Nat → Bool)
  | 0, _, a => .ok a
  | n + 1, i, a => (polyCol m i m.h 0 a).bind (polyCols m n (i + 1))

/-- 2poly.cc:10-18: the bitmap that is made from a map. -/
def toBits (m : GMap) : Outcome (Nat → Bool) := polyCols m m.w 0 fun _ => true

/-! ## randinst.cc -/

/-- randinst.cc:36-43: a location that is not blocked is drawn; the state of the generator is `v`. -/
def pick (m : GMap) : Nat → BitVec 64 → Outcome (Nat × Nat × BitVec 64)
  | 0, _ => .nofuel
  | fuel + 1, v =>
    (Rand.integer v 1 m.w).bind fun (x, v) =>
    (Rand.integer v 1 m.h).bind fun (y, v) =>
    (blkdAt m x.toNat y.toNat).bind fun b =>
    if b then pick m fuel v else .ok (x.toNat, y.toNat, v)

/-! ## Specification -/

/-- A drawing of `h` rows of `w` characters. -/
structure Rect (w h : Nat) (rows : List Str) : Prop where
  h : rows.length = h
  w : ∀ r ∈ rows, r.length = w

/-- The character in column `x` of row `y`, counted from 0, from the top. -/
def charAt (rows : List Str) (x y : Nat) : Char := (rows.getD y []).getD x ' '

/-- The text of a drawing. -/
def board (rows : List Str) : Str := rows.flatMap fun r => r ++ ['\n']

/-- The map has the given size inside its border and the flags `cell x y` in column `x` of row `y`; the border is out of bounds. -/
structure Shows (m : GMap) (w h : Nat) (cell : Nat → Nat → Nat) : Prop where
  width : m.w = w + 2
  height : m.h = h + 2
  border : ∀ loc, loc < m.w * m.h → ¬ Interior m loc → m.flags loc = OutOfBounds
  cells : ∀ x y, x < w → y < h → m.flags ((y + 1) * (w + 2) + (x + 1)) = cell x y

/-! ## Rows -/

/-- Writing `cs` from index `i` on. -/
def put (f : Char → Nat) : Nat → Str → (Nat → Nat) → Nat → Nat
  | _, [], fl => fl
  | i, c :: cs, fl => put f (i + 1) cs (Function.update fl i (f c))

theorem put_val (f : Char → Nat) : ∀ (cs : Str) (i : Nat) (fl : Nat → Nat) (k : Nat),
    put f i cs fl k = if i ≤ k ∧ k < i + cs.length then f (cs.getD (k - i) ' ') else fl k
  | [], i, fl, k => by rw [if_neg (by simp)]; rfl
  | c :: cs, i, fl, k => by
    rw [put, put_val f cs (i + 1)]
    by_cases h1 : k = i
    · subst h1
      rw [if_neg (by omega), Function.update_self, if_pos ⟨le_rfl, by simp⟩]
      simp
    · by_cases h2 : i + 1 ≤ k ∧ k < i + 1 + cs.length
      · rw [if_pos h2, if_pos ⟨by omega, by simp; omega⟩, show k - i = k - (i + 1) + 1 by omega]
        rfl
      · rw [if_neg h2, Function.update_of_ne h1, if_neg (by simp; omega)]

/-- A row of a map of width `w`. -/
theorem put_row (f : Char → Nat) {w : Nat} {cs : Str} (hcs : cs.length = w) (Y : Nat) (fl : Nat → Nat) (k : Nat) :
    put f (Y * (w + 2) + 1) cs fl k =
      if k / (w + 2) = Y ∧ 1 ≤ k % (w + 2) ∧ k % (w + 2) ≤ w then f (cs.getD (k % (w + 2) - 1) ' ') else fl k := by
  rw [put_val, hcs]
  have e := Nat.div_add_mod k (w + 2)
  have hm : k % (w + 2) < w + 2 := Nat.mod_lt _ (by omega)
  by_cases h : k / (w + 2) = Y ∧ 1 ≤ k % (w + 2) ∧ k % (w + 2) ≤ w
  · obtain ⟨h1, h2, h3⟩ := h
    have e' : k = Y * (w + 2) + k % (w + 2) := by rw [h1, Nat.mul_comm] at e; exact e.symm
    rw [if_pos ⟨by omega, by omega⟩, if_pos ⟨h1, h2, h3⟩]
    congr 2
    omega
  · rw [if_neg h, if_neg]
    rintro ⟨h1, h2⟩
    obtain ⟨q, hq⟩ : ∃ q, k = (w + 2) * Y + q := ⟨k - Y * (w + 2), by rw [Nat.mul_comm (w + 2)]; omega⟩
    rw [Nat.mul_comm] at h1 h2
    have a1 : k / (w + 2) = Y := by
      rw [hq, Nat.mul_add_div (by omega), Nat.div_eq_of_lt (by omega)]
      rfl
    have a2 : k % (w + 2) = q := by
      rw [hq, Nat.mul_add_mod]
      exact Nat.mod_eq_of_lt (by omega)
    exact h ⟨a1, by omega, by omega⟩

/-- Rows `rows`, the `j`-th one in row `Y j` of the map. -/
def putRows (f : Char → Nat) (w : Nat) (Y : Nat → Nat) : Nat → List Str → (Nat → Nat) → Nat → Nat
  | _, [], fl => fl
  | j, r :: rs, fl => putRows f w Y (j + 1) rs (put f (Y j * (w + 2) + 1) r fl)

theorem putRows_out (f : Char → Nat) {w : Nat} {Y : Nat → Nat} : ∀ (rows : List Str) (j : Nat) (fl : Nat → Nat) (k : Nat),
    (∀ r ∈ rows, r.length = w) → (¬ (1 ≤ k % (w + 2) ∧ k % (w + 2) ≤ w) ∨ ∀ i, j ≤ i → i < j + rows.length → k / (w + 2) ≠ Y i) →
    putRows f w Y j rows fl k = fl k
  | [], _, _, _, _, _ => rfl
  | r :: rs, j, fl, k, hr, h => by
    rw [putRows, putRows_out f rs (j + 1) _ k (fun r h => hr r (List.mem_cons_of_mem _ h)), put_row f (hr r (List.mem_cons_self ..)), if_neg]
    · rintro ⟨h1, h2⟩
      rcases h with h | h
      · exact h h2
      · exact h j le_rfl (by simp) h1
    · rcases h with h | h
      · exact Or.inl h
      · exact Or.inr fun i h1 h2 => h i (by omega) (by simp; omega)

theorem putRows_in (f : Char → Nat) {w : Nat} {Y : Nat → Nat} : ∀ (rows : List Str) (j : Nat) (fl : Nat → Nat) (k i : Nat),
    (∀ r ∈ rows, r.length = w) → 1 ≤ k % (w + 2) → k % (w + 2) ≤ w → i < rows.length → k / (w + 2) = Y (j + i) →
    (∀ i', j ≤ i' → i' < j + rows.length → Y i' = Y (j + i) → i' = j + i) →
    putRows f w Y j rows fl k = f ((rows.getD i []).getD (k % (w + 2) - 1) ' ')
  | [], _, _, _, _, _, _, _, h, _, _ => absurd h (by simp)
  | r :: rs, j, fl, k, i, hr, h1, h2, hi, hY, hinj => by
    rw [putRows]
    cases i with
    | zero =>
      rw [putRows_out f rs (j + 1) _ k (fun r h => hr r (List.mem_cons_of_mem _ h)), put_row f (hr r (List.mem_cons_self ..)),
        if_pos ⟨hY, h1, h2⟩]
      · rfl
      · refine Or.inr fun i' h3 h4 h5 => ?_
        have := hinj i' (by omega) (by simp; omega) (by rw [← h5, hY])
        omega
    | succ i =>
      rw [putRows_in f rs (j + 1) _ k i (fun r h => hr r (List.mem_cons_of_mem _ h)) h1 h2 (by simpa using hi)
        (by rw [hY]; congr 1; omega) fun i' h3 h4 h5 => ?_]
      · rfl
      · have := hinj i' (by omega) (by simp; omega) (by rw [h5]; congr 1; omega)
        omega

theorem shows_of_rows (f : Char → Nat) {w h : Nat} {Y : Nat → Nat} {rows : List Str} (hr : Rect w h rows) (row : Nat → Nat)
    (hrow : ∀ y < h, row y < h ∧ Y (row y) = y + 1) (hY : ∀ i < h, 1 ≤ Y i ∧ Y i ≤ h ∧ row (Y i - 1) = i) (mvs : List Move) (life : Bool) :
    Shows ⟨w + 2, h + 2, putRows f w Y 0 rows (setsize w h), mvs, life⟩ w h fun x y => f (charAt rows x (row y)) where
  width := rfl
  height := rfl
  border loc hl hn := by
    dsimp only at hl ⊢
    rw [putRows_out f rows 0 _ loc hr.w]
    · have := setsize_val w h loc hl
      rw [this, if_neg]
      exact hn
    · by_contra hc
      simp only [not_or, not_not, not_forall] at hc
      obtain ⟨h1, i, _, h2, h3⟩ := hc
      rw [hr.h] at h2
      obtain ⟨a, b, -⟩ := hY i (by omega)
      apply hn
      unfold Interior
      dsimp only
      omega
  cells x y hx hy := by
    dsimp only
    have e1 : ((y + 1) * (w + 2) + (x + 1)) / (w + 2) = y + 1 := by
      rw [Nat.mul_comm, Nat.mul_add_div (by omega), Nat.div_eq_of_lt (by omega)]
    have e2 : ((y + 1) * (w + 2) + (x + 1)) % (w + 2) = x + 1 := by
      rw [Nat.mul_comm, Nat.mul_add_mod]
      exact Nat.mod_eq_of_lt (by omega)
    obtain ⟨a, b⟩ := hrow y hy
    rw [putRows_in f rows 0 _ _ (row y) hr.w (by omega) (by omega) (by rw [hr.h]; exact a) (by rw [e1, Nat.zero_add, b])]
    · rw [e2]
      rfl
    · intro i' _ h2 h3
      rw [Nat.zero_add] at h3 ⊢
      rw [hr.h] at h2
      have c := (hY i' (by omega)).2.2
      rw [h3, b] at c
      rw [← c]
      congr 1

end Verif.GridFile
