import Verif.Domains.Ppm
import Verif.Props.GridFile
import Verif.Props.TrafficFile

/-!
# C115: a map from an image

`convert s`: what gridnav/ppm2grid.cc prints for the image `s`.  An image in the format P3 has a header with its size
(`Header`), then the number that stands for the full brightness, then three numbers for every pixel.
-/

namespace Verif.Ppm

open Verif.Str Verif.GridFile Verif.GridNav Verif.Scenario Verif.Datafile Verif.TrafficFile

/-! ## Lemmas -/

/-- The three numbers at place `k` are all 255. -/
def Bright (ns : List Nat) (k : Nat) : Prop := ns.getD (3 * k) 0 = 255 ∧ ns.getD (3 * k + 1) 0 = 255 ∧ ns.getD (3 * k + 2) 0 = 255

instance (ns : List Nat) (k : Nat) : Decidable (Bright ns k) := by unfold Bright; infer_instance

theorem bright_succ (r g b : Nat) (ns : List Nat) (k : Nat) : Bright (r :: g :: b :: ns) (k + 1) ↔ Bright ns k := by
  unfold Bright
  rw [show 3 * (k + 1) = 3 * k + 1 + 1 + 1 by ring, show 3 * k + 1 + 1 + 1 + 1 = (3 * k + 1) + 1 + 1 + 1 by ring,
    show 3 * k + 1 + 1 + 1 + 2 = (3 * k + 2) + 1 + 1 + 1 by ring]
  simp only [List.getD_cons_succ]

theorem bright_drop (ns : List Nat) (w k : Nat) : Bright (ns.drop (3 * w)) k ↔ Bright ns (w + k) := by
  unfold Bright
  simp only [List.getD_eq_getElem?_getD, List.getElem?_drop]
  rw [show 3 * w + 3 * k = 3 * (w + k) by ring, show 3 * w + (3 * k + 1) = 3 * (w + k) + 1 by ring,
    show 3 * w + (3 * k + 2) = 3 * (w + k) + 2 by ring]

theorem holds_cons {s : Str} {n : Nat} {ns : List Nat} (h : Holds s (n :: ns)) :
    ∃ rest, num (2 ^ 32) s = .ok (n, rest) ∧ Holds rest ns := by
  obtain ⟨ts, hw, hf⟩ := h
  cases hf with
  | cons h1 h2 =>
    obtain ⟨rest, e, hr⟩ := num_word hw h1 h1.2.2.2
    exact ⟨rest, e, _, hr, h2⟩

theorem white_eq {s : Str} {r g b : Nat} {ns : List Nat} (h : Holds s (r :: g :: b :: ns)) :
    ∃ rest, white s = .ok (decide (Bright (r :: g :: b :: ns) 0), rest) ∧ Holds rest ns := by
  obtain ⟨s1, e1, h1⟩ := holds_cons h
  obtain ⟨s2, e2, h2⟩ := holds_cons h1
  obtain ⟨s3, e3, h3⟩ := holds_cons h2
  refine ⟨s3, ?_, h3⟩
  unfold white
  rw [e1, Outcome.bind_ok]
  dsimp only
  rw [e2, Outcome.bind_ok]
  dsimp only
  rw [e3, Outcome.map_ok]
  simp only [Bright, Bool.decide_and, Bool.and_assoc, Nat.mul_zero, Nat.zero_add, List.getD_cons_zero, List.getD_cons_succ]
  rfl

theorem row_eq : ∀ (n : Nat) {s : Str} {ns : List Nat}, Holds s ns → 3 * n ≤ ns.length →
    ∃ rest, row n s = .ok ((List.range n).map (fun x => if Bright ns x then ' ' else '#'), rest) ∧ Holds rest (ns.drop (3 * n))
  | 0, s, ns, h, _ => ⟨s, rfl, h⟩
  | n + 1, s, ns, h, hl => by
    obtain ⟨r, g, b, ns, rfl⟩ : ∃ r g b ms, ns = r :: g :: b :: ms := by
      match ns, hl with
      | [], h => simp at h
      | [_], h => simp at h; omega
      | [_, _], h => simp at h; omega
      | r :: g :: b :: ms, _ => exact ⟨r, g, b, ms, rfl⟩
    obtain ⟨s1, e1, h1⟩ := white_eq h
    obtain ⟨s2, e2, h2⟩ := row_eq n h1 (by simp at hl; omega)
    refine ⟨s2, ?_, ?_⟩
    · rw [row, e1, Outcome.bind_ok]
      dsimp only
      rw [e2, Outcome.map_ok]
      simp only [List.range_succ_eq_map, List.map_cons, List.map_map, decide_eq_true_eq]
      congr 3
    · rw [show 3 * (n + 1) = 3 * n + 1 + 1 + 1 by ring]
      simpa using h2

theorem rows_eq (w : Nat) : ∀ (n : Nat) {s : Str} {ns : List Nat}, Holds s ns → 3 * (n * w) ≤ ns.length →
    rows w n s = .ok (board (drawing w n fun x y => Bright ns (y * w + x)))
  | 0, s, ns, _, _ => rfl
  | n + 1, s, ns, h, hl => by
    have hm : (n + 1) * w = n * w + w := by ring
    obtain ⟨s1, e1, h1⟩ := row_eq w h (by omega)
    have h2 := rows_eq w n h1 (by rw [List.length_drop]; omega)
    rw [rows, e1, Outcome.bind_ok]
    dsimp only
    rw [h2, Outcome.map_ok]
    have e : ∀ x y, Bright (ns.drop (3 * w)) (y * w + x) ↔ Bright ns ((y + 1) * w + x) := by
      intro x y
      rw [bright_drop, show w + (y * w + x) = (y + 1) * w + x by ring]
    congr 1
    simp only [drawing, board, List.range_succ_eq_map, List.map_cons, List.map_map, List.flatMap_cons, e]
    simp [Function.comp_def]

theorem white_short {s : Str} : ∀ {ns : List Nat}, Holds s ns → ns.length < 3 → white s = .fatal := by
  have eof : ∀ {s : Str}, Holds s [] → num (2 ^ 32) s = .fatal := by
    rintro s ⟨ts, hw, hf⟩
    cases hf
    exact num_eof hw
  intro ns h hl
  unfold white
  match ns, hl with
  | [], _ => rw [eof h]; rfl
  | [r], _ =>
    obtain ⟨s1, e1, h1⟩ := holds_cons h
    rw [e1, Outcome.bind_ok]
    dsimp only
    rw [eof h1]; rfl
  | [r, g], _ =>
    obtain ⟨s1, e1, h1⟩ := holds_cons h
    obtain ⟨s2, e2, h2⟩ := holds_cons h1
    rw [e1, Outcome.bind_ok]
    dsimp only
    rw [e2, Outcome.bind_ok]
    dsimp only
    rw [eof h2]; rfl

theorem row_short : ∀ (n : Nat) {s : Str} {ns : List Nat}, Holds s ns → ns.length < 3 * n → row n s = .fatal
  | 0, s, ns, _, hl => by omega
  | n + 1, s, ns, h, hl => by
    rw [row]
    by_cases hs : ns.length < 3
    · rw [white_short h hs]; rfl
    · match ns, hs, hl, h with
      | [], hs, _, _ => exact absurd (by simp) hs
      | [_], hs, _, _ => exact absurd (by simp) hs
      | [_, _], hs, _, _ => exact absurd (by simp) hs
      | r :: g :: b :: ms, _, hl, h =>
        obtain ⟨s1, e1, h1⟩ := white_eq h
        rw [e1, Outcome.bind_ok]
        dsimp only
        rw [row_short n h1 (by simp only [List.length_cons] at hl; omega)]
        rfl

theorem rows_short (w : Nat) : ∀ (n : Nat) {s : Str} {ns : List Nat}, Holds s ns → ns.length < 3 * (n * w) →
    rows w n s = .fatal
  | 0, s, ns, _, hl => by omega
  | n + 1, s, ns, h, hl => by
    have hm : (n + 1) * w = n * w + w := by ring
    rw [rows]
    by_cases hs : ns.length < 3 * w
    · rw [row_short w h hs]; rfl
    · obtain ⟨s1, e1, h1⟩ := row_eq w h (by omega)
      rw [e1, Outcome.bind_ok]
      dsimp only
      rw [rows_short w n h1 (by rw [List.length_drop]; omega)]
      rfl

theorem line_p3 : Line "P3".toList := by
  unfold Line
  decide

theorem header_eq {w h : Nat} {hd body : Str} (hh : Header w h hd) :
    convert (hd ++ body) = (rows w h body).map fun out =>
      Nat.toDigits 10 h ++ ' ' :: (Nat.toDigits 10 w ++ "\nBoard:\n".toList ++ out) := by
  cases hh with
  | @mk c1 c2 l a b h1 h2 h3 h4 h5 h6 h7 =>
    have e0 : "P3\n".toList = "P3".toList ++ ['\n'] := by decide
    have e : board c1 ++ ("P3\n".toList ++ (board c2 ++ (l ++ ['\n']))) ++ body =
        board c1 ++ ("P3".toList ++ '\n' :: (board c2 ++ (l ++ '\n' :: body))) := by
      rw [e0]; simp only [List.append_assoc, List.cons_append, List.nil_append]
    have b1 := board_length c1
    have b2 := board_length c2
    rw [e]
    unfold convert
    rw [nextline_comments h1 line_p3 (by decide) (by simp only [List.length_append]; omega), Outcome.bind_ok]
    dsimp only
    rw [if_neg (by simp)]
    unfold readsize
    rw [nextline_comments h2 h3 h4 (by simp only [List.length_append]; omega), Outcome.bind_ok]
    dsimp only
    obtain ⟨r1, n1, w1⟩ := num_word h5 h6 h6.2.2.2
    obtain ⟨r2, n2, w2⟩ := num_word w1 h7 h7.2.2.2
    rw [n1, Outcome.bind_ok]
    dsimp only
    rw [n2, Outcome.map_ok, Outcome.bind_ok]

theorem bright_colors : ∀ (ps : List Pixel) (k : Nat), k < ps.length →
    (Bright (colors ps) k ↔ ps.getD k (0, 0, 0) = (255, 255, 255))
  | (r, g, b) :: ps, 0, _ => by simp [Bright, colors]
  | (r, g, b) :: ps, k + 1, h => by
    rw [colors, bright_succ, bright_colors ps k (by simpa using h), List.getD_cons_succ]

theorem colors_length (ps : List Pixel) : (colors ps).length = 3 * ps.length := by
  induction ps with
  | nil => rfl
  | cons p ps ih => obtain ⟨r, g, b⟩ := p; simp [colors, ih]; ring

theorem drawing_congr {w h : Nat} {f g : Nat → Nat → Prop} [∀ x y, Decidable (f x y)] [∀ x y, Decidable (g x y)]
    (e : ∀ x y, x < w → y < h → (f x y ↔ g x y)) : drawing w h f = drawing w h g := by
  unfold drawing
  refine List.map_congr_left fun y hy => List.map_congr_left fun x hx => ?_
  rw [List.mem_range] at hx hy
  simp only [e x y hx hy]

theorem place_lt {w h x y : Nat} (hx : x < w) (hy : y < h) : y * w + x < h * w := by
  have : (y + 1) * w ≤ h * w := Nat.mul_le_mul_right _ hy
  have e : (y + 1) * w = y * w + w := by ring
  omega

/-! ## C115 -/

/-- **C115.**  Without the line with the full brightness the conversion is right: for a header with the size and then the
numbers of the pixels, row by row, a cell is free exactly if its pixel has the numbers 255, 255, 255. -/
theorem c115_bare {w h : Nat} {hd body : Str} {ps : List Pixel} (hh : Header w h hd) (hp : ps.length = h * w)
    (hb : Holds body (colors ps)) :
    convert (hd ++ body) =
      .ok (beginning w h (drawing w h fun x y => ps.getD (y * w + x) (0, 0, 0) = (255, 255, 255))) := by
  rw [header_eq hh, rows_eq w h hb (by rw [colors_length, hp]), Outcome.map_ok, beginning,
    drawing_congr fun x y hx hy => bright_colors ps (y * w + x) (by rw [hp]; exact place_lt hx hy)]

/-- A pixel of an image in black and white. -/
def BW (p : Pixel) : Prop := p = (0, 0, 0) ∨ p = (255, 255, 255)

theorem bright_shift : ∀ (ps : List Pixel) (m k : Nat), (∀ p ∈ ps, BW p) → k < ps.length →
    (Bright (m :: colors ps) k ↔ ps.getD k (0, 0, 0) = (255, 255, 255) ∧
      if k = 0 then m = 255 else ps.getD (k - 1) (0, 0, 0) = (255, 255, 255))
  | p :: ps, m, 0, hb, _ => by
    obtain ⟨r, g, b⟩ := p
    have := hb (r, g, b) (by simp)
    simp only [BW, Prod.mk.injEq] at this
    simp only [Bright, colors, if_pos, List.getD_cons_zero, Prod.mk.injEq]
    simp
    omega
  | p :: ps, m, k + 1, hb, h => by
    obtain ⟨r, g, b⟩ := p
    have hp := hb (r, g, b) (by simp)
    simp only [BW, Prod.mk.injEq] at hp
    rw [colors, bright_succ, bright_shift ps b k (fun p hp => hb p (by simp [hp])) (by simpa using h)]
    rw [if_neg (Nat.succ_ne_zero k), List.getD_cons_succ, Nat.add_sub_cancel]
    cases k with
    | zero =>
      rw [if_pos rfl, List.getD_cons_zero]
      simp only [Prod.mk.injEq]
      refine and_congr_right fun _ => ?_
      omega
    | succ k => rw [if_neg (Nat.succ_ne_zero k), List.getD_cons_succ, Nat.add_sub_cancel]

/-- **C115.**  An image in black and white with the line for the full brightness `m`, as the format wants it: that line is
taken for the first number of the first pixel, and every number is one place late.  A cell is free exactly if its pixel is white
and the pixel before it is white too (the one to the left, or the last one of the row above); the first cell is free exactly if
its pixel is white and `m` is 255. -/
theorem c115_image {w h m : Nat} {hd body : Str} {ps : List Pixel} (hh : Header w h hd) (hp : ps.length = h * w)
    (hbw : ∀ p ∈ ps, BW p) (hb : Holds body (m :: colors ps)) :
    convert (hd ++ body) = .ok (beginning w h (drawing w h fun x y =>
      ps.getD (y * w + x) (0, 0, 0) = (255, 255, 255) ∧
        if y * w + x = 0 then m = 255 else ps.getD (y * w + x - 1) (0, 0, 0) = (255, 255, 255))) := by
  rw [header_eq hh, rows_eq w h hb (by rw [List.length_cons, colors_length, hp]; omega), Outcome.map_ok, beginning,
    drawing_congr fun x y hx hy => bright_shift ps m (y * w + x) hbw (by rw [hp]; exact place_lt hx hy)]

/-- **C115** (finding).  An image of one row with a black and a white pixel: the map has no free cell. -/
theorem c115_lost : convert "P3\n2 1\n255\n0 0 0 255 255 255\n".toList = .ok "1 2\nBoard:\n##\n".toList := by decide +kernel

/-- **C115** (finding).  The full brightness is taken to be 255: an image of white pixels whose full brightness is 1 becomes
a map without a free cell. -/
theorem c115_dim {w h : Nat} {hd body : Str} (hh : Header w h hd)
    (hb : Holds body (1 :: colors (List.replicate (h * w) (1, 1, 1)))) :
    convert (hd ++ body) = .ok (beginning w h (drawing w h fun _ _ => False)) := by
  rw [header_eq hh, rows_eq w h hb (by rw [List.length_cons, colors_length, List.length_replicate]; omega), Outcome.map_ok, beginning]
  have key : ∀ n k, ¬ Bright (1 :: colors (List.replicate n (1, 1, 1))) k := by
    intro n
    induction n with
    | zero => intro k; cases k <;> simp [Bright, colors]
    | succ n ih =>
      intro k
      cases k with
      | zero => simp [Bright]
      | succ k => rw [List.replicate_succ, colors, bright_succ]; exact ih k
  rw [drawing_congr fun x y _ _ => iff_of_false (key _ _) not_false]

/-- **C115** (finding).  An empty line where the header or the size is expected is undefined behaviour. -/
theorem c115_blank (s : Str) : convert ('\n' :: s) = .ub := by
  unfold convert
  rw [nextline, Datafile.readline]
  simp [Outcome.bind]

/-- **C115.**  If there are too few numbers for the size, the program stops with an error. -/
theorem c115_short {w h : Nat} {hd body : Str} {ns : List Nat} (hh : Header w h hd) (hb : Holds body ns)
    (hl : ns.length < 3 * (h * w)) : convert (hd ++ body) = .fatal := by
  rw [header_eq hh, rows_short w h hb hl]
  rfl

theorem drawing_rect (w h : Nat) (f : Nat → Nat → Prop) [∀ x y, Decidable (f x y)] : Rect w h (drawing w h f) := by
  refine ⟨by simp [drawing], fun r hr => ?_⟩
  obtain ⟨y, -, rfl⟩ := List.mem_map.1 hr
  simp

theorem drawing_at {w h x y : Nat} {f : Nat → Nat → Prop} [∀ x y, Decidable (f x y)] (hx : x < w) (hy : y < h) :
    charAt (drawing w h f) x y = if f x y then ' ' else '#' := by
  unfold charAt drawing
  rw [List.getD_eq_getElem?_getD, List.getD_eq_getElem?_getD]
  simp [hx, hy]

/-- **C115.**  What is printed becomes a map file when the kind of costs and of moves is added: the file is read as the map in
which the cells that are drawn free are passable and the others are not, with the last row of the image first. -/
theorem c115_load {D : Type} {dbl : Str → Option (D × Str)} {draw : Nat → D → Nat → Bool} {w h : Nat}
    (f : Nat → Nat → Prop) [∀ x y, Decidable (f x y)] (hs : (w + 2) * (h + 2) ≤ 2 ^ 31) :
    ∃ m rest, load dbl draw (beginning w h (drawing w h f) ++ "Unit\nFour-way\n".toList) = .ok ⟨m, true, rest⟩ ∧
      m.lifecost = false ∧ m.mvs = fourway ∧
      ∀ x y, x < w → y < h → m.flags ((h - 1 - y + 1) * (w + 2) + (x + 1)) = if f x y then Passable else OutOfBounds := by
  have hc : ∀ r ∈ drawing w h f, ∀ c ∈ r, c = ' ' ∨ c = '#' := by
    intro r hr c hc
    obtain ⟨y, -, rfl⟩ := List.mem_map.1 hr
    obtain ⟨x, -, rfl⟩ := List.mem_map.1 hc
    split <;> simp
  obtain ⟨m, h1, h2, h3, h4⟩ := c95_ruml (dbl := dbl) (draw := draw) (drawing_rect w h f) hc hs false false ['\n']
  refine ⟨m, ['\n'], ?_, h2, by simpa using h3, fun x y hx hy => ?_⟩
  · rw [← h1, rumlText, beginning]
    have e : "Unit\nFour-way\n".toList = "Unit\n".toList ++ ("Four-way".toList ++ ['\n']) := by decide
    rw [e]
    simp only [Bool.false_eq_true, if_false, List.append_assoc, List.cons_append]
  · rw [h4.cells x (h - 1 - y) hx (by omega), show h - 1 - (h - 1 - y) = y by omega, drawing_at hx hy]
    by_cases hf : f x y
    · simp [hf]
    · simp [hf]

/-! ## Examples -/

/-- White space and a number of one digit. -/
theorem words_num {c d : Char} {rest : Str} {ts : List Str} (hc : isws c = true) (hd : isws d = false)
    (h : ∀ c, rest.head? = some c → isws c = true) (hr : Words rest ts) : Words (c :: d :: rest) ([d] :: ts) :=
  Words.cons (ws := [c]) (w := [d]) (by simpa using hc) (by simp) (by simpa using hd) h hr

theorem words_3 {c d e f : Char} {rest : Str} {ts : List Str} (hc : isws c = true) (hd : isws d = false) (he : isws e = false)
    (hf : isws f = false) (h : ∀ c, rest.head? = some c → isws c = true) (hr : Words rest ts) :
    Words (c :: d :: e :: f :: rest) ([d, e, f] :: ts) :=
  Words.cons (ws := [c]) (w := [d, e, f]) (by simpa using hc) (by simp) (by simp [hd, he, hf]) h hr

/-- The header of an image with two columns and one row, with a comment. -/
theorem header_ex : Header 2 1 "P3\n# by hand\n2 1\n".toList := by
  have e : "P3\n# by hand\n2 1\n".toList = board [] ++ ("P3\n".toList ++ (board ["# by hand".toList] ++ ("2 1".toList ++ ['\n']))) := by
    decide
  rw [e]
  refine .mk (a := ['2']) (b := ['1']) (by simp [Comments]) ?_ (by unfold Line; decide) (by decide) ?_ ⟨by decide, by decide, by decide, by decide⟩
    ⟨by decide, by decide, by decide, by decide⟩
  · intro l hl
    rw [List.mem_singleton] at hl
    subst hl
    unfold Line
    decide
  · exact Words.cons (ws := []) (w := ['2']) (rest := [' ', '1']) (by simp) (by simp) (by decide) (by simp; decide)
      (words_num (by decide) (by decide) (by simp) (.nil (by simp)))

theorem numeral_ex : Numeral ['0'] 0 ∧ Numeral ['2', '5', '5'] 255 ∧ Numeral ['1'] 1 := by
  unfold Numeral
  decide +kernel

/-- A black pixel and a white one. -/
theorem holds_ex : Holds " 0 0 0 255 255 255".toList (colors [(0, 0, 0), (255, 255, 255)]) := by
  obtain ⟨z, w, -⟩ := numeral_ex
  have hw : isws ' ' = true := by decide
  refine ⟨[['0'], ['0'], ['0'], ['2', '5', '5'], ['2', '5', '5'], ['2', '5', '5']], ?_,
    .cons z (.cons z (.cons z (.cons w (.cons w (.cons w .nil)))))⟩
  have e : " 0 0 0 255 255 255".toList = [' ', '0', ' ', '0', ' ', '0', ' ', '2', '5', '5', ' ', '2', '5', '5', ' ', '2', '5', '5'] := by decide
  rw [e]
  have n0 : isws '0' = false := by decide
  have n2 : isws '2' = false := by decide
  have n5 : isws '5' = false := by decide
  have sp : ∀ (r : Str) c, (' ' :: r).head? = some c → isws c = true := by rintro r c ⟨⟩; exact hw
  exact words_num hw n0 (sp _) (words_num hw n0 (sp _) (words_num hw n0 (sp _) (words_3 hw n2 n5 n5 (sp _)
    (words_3 hw n2 n5 n5 (sp _) (words_3 hw n2 n5 n5 (by simp) (.nil (by simp)))))))

theorem holds_max : Holds " 255 0 0 0 255 255 255".toList (255 :: colors [(0, 0, 0), (255, 255, 255)]) := by
  obtain ⟨ts, h1, h2⟩ := holds_ex
  refine ⟨['2', '5', '5'] :: ts, ?_, .cons numeral_ex.2.1 h2⟩
  exact words_3 (rest := " 0 0 0 255 255 255".toList) (by decide) (by decide) (by decide) (by decide)
    (by rintro c ⟨⟩; decide) h1

/-- Without the line for the brightness: one cell of the two is free. -/
example : convert ("P3\n# by hand\n2 1\n".toList ++ " 0 0 0 255 255 255".toList) = .ok "1 2\nBoard:\n# \n".toList := by
  rw [c115_bare header_ex (by rfl) holds_ex]
  decide +kernel

/-- With it: none. -/
example : convert ("P3\n# by hand\n2 1\n".toList ++ " 255 0 0 0 255 255 255".toList) = .ok "1 2\nBoard:\n##\n".toList := by
  rw [c115_image header_ex (by rfl) (by simp [BW]) holds_max]
  decide +kernel

/-- Too few numbers: the hypotheses of `c115_short`. -/
example : Header 2 1 "P3\n# by hand\n2 1\n".toList ∧ Holds " 1".toList [1] ∧ [1].length < 3 * (1 * 2) :=
  ⟨header_ex, ⟨[['1']], words_num (rest := []) (by decide) (by decide) (by simp) (.nil (by simp)), .cons numeral_ex.2.2 .nil⟩, by decide⟩

/-- The hypotheses of `c115_dim`: two white pixels. -/
example : Holds " 1 1 1 1 1 1 1".toList (1 :: colors (List.replicate (1 * 2) (1, 1, 1))) := by
  have n := numeral_ex.2.2
  have hw : isws ' ' = true := by decide
  have n1 : isws '1' = false := by decide
  have sp : ∀ (r : Str) c, (' ' :: r).head? = some c → isws c = true := by rintro r c ⟨⟩; exact hw
  have e : " 1 1 1 1 1 1 1".toList = [' ', '1', ' ', '1', ' ', '1', ' ', '1', ' ', '1', ' ', '1', ' ', '1'] := by decide
  rw [e]
  exact ⟨[['1'], ['1'], ['1'], ['1'], ['1'], ['1'], ['1']], words_num hw n1 (sp _) (words_num hw n1 (sp _) (words_num hw n1 (sp _)
    (words_num hw n1 (sp _) (words_num hw n1 (sp _) (words_num hw n1 (sp _) (words_num hw n1 (by simp) (.nil (by simp)))))))),
    .cons n (.cons n (.cons n (.cons n (.cons n (.cons n (.cons n .nil))))))⟩

/-- The size of `c115_load`. -/
example : (2 + 2) * (1 + 2) ≤ 2 ^ 31 := by decide

end Verif.Ppm
