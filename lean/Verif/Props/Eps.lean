import Verif.Utils.Eps
import Verif.Props.Encode
import Mathlib.Analysis.SpecialFunctions.Trigonometric.Basic

/-!
# C119: pictures as PostScript
-/

namespace Verif.Eps

open Verif Verif.Encode

/-! ## Run lengths, as PostScript reads them -/

/-- The bytes `e` stand for `d` wherever they stand. -/
def PDec (e d : List UInt8) : Prop := ∀ t, psRuns (e ++ t) = (psRuns t).map fun r => d ++ r

theorem pdec_nil : PDec [] [] := by intro t; simp

theorem PDec.append {e1 d1 e2 d2 : List UInt8} (h1 : PDec e1 d1) (h2 : PDec e2 d2) : PDec (e1 ++ e2) (d1 ++ d2) := by
  intro t
  rw [List.append_assoc, h1, h2, Option.map_map]
  congr 1
  funext r
  simp

theorem chr_toNat (z : Int) : (chr z).toNat = (z % 256).toNat := by
  unfold chr
  rw [UInt8.toNat_ofNat']
  omega

theorem pdec_lit {buf : List UInt8} (h0 : 0 < buf.length) (h1 : buf.length ≤ maxrun) : PDec (chr (buf.length - 1) :: buf) buf := by
  intro t
  unfold maxrun at h1
  have e : (chr ((buf.length : Int) - 1)).toNat = buf.length - 1 := by rw [chr_toNat]; omega
  rw [List.cons_append, psRuns.eq_def]
  dsimp only
  rw [e, if_pos (by omega), Nat.sub_add_cancel h0, if_pos (by simp), List.drop_left, List.take_left]

theorem pdec_run {n : Nat} {c : UInt8} (h0 : 2 ≤ n) (h1 : n ≤ maxrun) : PDec [chr (1 - n), c] (List.replicate n c) := by
  intro t
  unfold maxrun at h1
  have e : (chr ((1 : Int) - n)).toNat = 257 - n := by rw [chr_toNat]; omega
  rw [List.cons_append, psRuns.eq_def]
  dsimp only
  rw [e, if_neg (by omega), if_neg (by omega)]
  simp only [List.cons_append, List.nil_append]
  rw [show 257 - (257 - n) = n by omega]

theorem encLoop_ps (l buf dst D : List UInt8) (hd : PDec dst D) (hb : buf.length < maxrun) :
    ∃ out, encLoop l buf dst = .ok out ∧ PDec out (D ++ buf ++ l) := by
  induction l, buf, dst using encLoop.induct generalizing D with
  | case1 buf dst =>
    unfold encLoop flush
    split_ifs with h1
    · refine ⟨_, rfl, ?_⟩
      rw [List.append_nil]
      exact hd.append (pdec_lit h1 hb.le)
    · have : buf = [] := by
        cases buf with
        | nil => rfl
        | cons a b => simp at h1
      subst this
      exact ⟨_, rfl, by simpa using hd⟩
  | case2 c rest buf dst nsame h1 buf' h2 ih =>
    unfold encLoop
    dsimp only
    rw [if_pos h1, if_pos h2]
    have hlit : PDec (chr ((maxrun : Int) - 1) :: buf') buf' := by
      rw [← h2]; exact pdec_lit (by rw [h2]; unfold maxrun; omega) h2.le
    have := ih (D ++ buf') (hd.append hlit) (by simp [maxrun])
    simpa [buf'] using this
  | case3 c rest buf dst nsame h1 buf' h2 ih =>
    unfold encLoop
    dsimp only
    rw [if_pos h1, if_neg h2]
    have hl : buf'.length < maxrun := by
      have : buf'.length = buf.length + 1 := by simp [buf']
      unfold maxrun at *
      omega
    have := ih D hd hl
    simpa [buf'] using this
  | case4 c rest buf dst nsame h1 ih =>
    unfold encLoop
    dsimp only
    rw [if_neg h1]
    obtain ⟨e1, e2⟩ := cntsame_spec c rest
    have hn : 3 ≤ cntsame c rest := by unfold minrun at h1; omega
    have hrun := pdec_run (n := cntsame c rest) (c := c) (by omega) e2
    have fin : ∀ dst1 D1, PDec dst1 D1 → D1 = D ++ buf →
        ∃ out, (if cntsame c rest ≤ maxrun then
            encLoop ((c :: rest).drop (cntsame c rest)) [] (dst1 ++ [chr (1 - cntsame c rest), c])
          else .fatal) = .ok out ∧ PDec out (D ++ buf ++ c :: rest) := by
      intro dst1 D1 h2 h3
      subst h3
      rw [if_pos e2]
      have := ih dst1 (D ++ buf ++ List.replicate (cntsame c rest) c) (h2.append hrun) (by simp [maxrun])
      rw [List.append_nil, List.append_assoc, ← e1] at this
      exact this
    unfold flush
    by_cases h2 : buf.length > 0
    · rw [if_pos h2, if_pos hb, Outcome.bind_ok]
      exact fin _ _ (hd.append (pdec_lit h2 hb.le)) rfl
    · have : buf = [] := by
        cases buf with
        | nil => rfl
        | cons a b => simp at h2
      subst this
      rw [if_neg h2, Outcome.bind_ok]
      exact fin _ D hd (by simp)

/-- **C119.**  The run-length code is the one of PostScript: the filter gives the data back. -/
theorem c119_runs (data : List UInt8) : ∃ e, runlenenc data = .ok e ∧ psRuns e = some data := by
  obtain ⟨out, h1, h2⟩ := encLoop_ps data [] [] [] pdec_nil (by simp [maxrun])
  refine ⟨out, h1, ?_⟩
  have := h2 []
  rw [List.append_nil] at this
  rw [this, psRuns]
  simp

theorem digits85_no_tilde (n w : Nat) : (126 : UInt8) ∉ digits85 n w := by
  unfold digits85
  split
  · decide
  · intro h
    obtain ⟨d, hd, e⟩ := List.mem_map.1 h
    have hd := List.mem_of_mem_take hd
    have hlt : d < 85 := by
      simp only [List.mem_cons, List.not_mem_nil, or_false] at hd
      omega
    have := congrArg UInt8.toNat e
    rw [UInt8.toNat_ofNat'] at this
    have h126 : (126 : UInt8).toNat = 126 := rfl
    rw [h126] at this
    omega

/-- The end mark is not in the data. -/
theorem no_tilde : ∀ data : List UInt8, (126 : UInt8) ∉ ascii85enc data
  | [] => by simp [ascii85enc]
  | [_] => digits85_no_tilde _ _
  | [_, _] => digits85_no_tilde _ _
  | [_, _, _] => digits85_no_tilde _ _
  | _ :: _ :: _ :: _ :: rest => by
    rw [ascii85enc, List.mem_append, not_or]
    exact ⟨digits85_no_tilde _ _, no_tilde rest⟩

/-! ## Pixels -/

section
variable {K : Type} [Field K] [LinearOrder K] [IsStrictOrderedRing K]

/-- A colour whose parts are between 0 and 1. -/
def Color.In (c : Color K) : Prop := (0 ≤ c.r ∧ c.r ≤ 1) ∧ (0 ≤ c.g ∧ c.g ≤ 1) ∧ 0 ≤ c.b ∧ c.b ≤ 1

theorem clamp_in (d : K) : 0 ≤ clamp d ∧ clamp d ≤ 1 := by
  unfold clamp
  split
  · exact ⟨le_rfl, zero_le_one⟩
  · split
    · exact ⟨zero_le_one, le_rfl⟩
    · exact ⟨not_lt.1 ‹_›, not_lt.1 ‹_›⟩

/-- Every colour that can be made is one. -/
theorem color_in (r g b : K) : (color r g b).In := ⟨clamp_in r, clamp_in g, clamp_in b⟩

theorem white_in : (white : Color K).In := ⟨⟨zero_le_one, le_rfl⟩, ⟨zero_le_one, le_rfl⟩, zero_le_one, le_rfl⟩

/-- **C119.**  The part of a colour that is nearest to a number. -/
theorem c119_clamp (d : K) : clamp d = max 0 (min d 1) := by
  unfold clamp
  split
  · rename_i h; rw [min_eq_left (by linarith), max_eq_left h.le]
  · rename_i h
    split
    · rename_i h1; rw [min_eq_right h1.le, max_eq_right zero_le_one]
    · rename_i h1; rw [min_eq_left (not_lt.1 h1), max_eq_right (not_lt.1 h)]

variable [FloorRing K]

/-- The byte `b` stands for the part `d` of a colour: 255 times the part, without the fraction. -/
def Byte (d : K) (b : UInt8) : Prop := (b.toNat : K) ≤ 255 * d ∧ 255 * d < b.toNat + 1

theorem byte_ok {d : K} (h : 0 ≤ d ∧ d ≤ 1) : ∃ b, byte d = .ok b ∧ Byte d b := by
  have h0 : 0 ≤ ⌊255 * d⌋ := Int.floor_nonneg.2 (mul_nonneg (by norm_num) h.1)
  have h1 : ⌊255 * d⌋ < 256 := by
    rw [Int.floor_lt]
    push_cast
    nlinarith [h.2]
  refine ⟨_, if_pos ⟨h0, h1⟩, ?_⟩
  have e : (UInt8.ofNat ⌊255 * d⌋.toNat).toNat = ⌊255 * d⌋.toNat := by rw [UInt8.toNat_ofNat']; omega
  have e' : ((⌊255 * d⌋.toNat : Nat) : K) = ((⌊255 * d⌋ : Int) : K) := by
    have : ((⌊255 * d⌋.toNat : Nat) : Int) = ⌊255 * d⌋ := Int.toNat_of_nonneg h0
    exact_mod_cast congrArg (Int.cast (R := K)) this
  unfold Byte
  rw [e, e']
  exact ⟨Int.floor_le _, Int.lt_floor_add_one _⟩

theorem rgb_ok {px : Nat → Color K} (hpx : ∀ i, (px i).In) : ∀ (n i : Nat), ∃ cs, rgb px n i = .ok cs ∧ cs.length = 3 * n ∧
    ∀ j < n, ∃ r g b, cs[3 * j]? = some r ∧ cs[3 * j + 1]? = some g ∧ cs[3 * j + 2]? = some b ∧
      Byte (px (i + j)).r r ∧ Byte (px (i + j)).g g ∧ Byte (px (i + j)).b b
  | 0, i => ⟨[], rfl, rfl, fun j hj => by omega⟩
  | n + 1, i => by
    obtain ⟨cs, e, hl, h⟩ := rgb_ok hpx n (i + 1)
    obtain ⟨r, er, hr⟩ := byte_ok (hpx i).1
    obtain ⟨g, eg, hg⟩ := byte_ok (hpx i).2.1
    obtain ⟨b, eb, hb⟩ := byte_ok (hpx i).2.2
    refine ⟨r :: g :: b :: cs, by rw [rgb, er, Outcome.bind_ok, eg, Outcome.bind_ok, eb, Outcome.bind_ok, e, Outcome.map_ok],
      by simp only [List.length_cons, hl]; omega, ?_⟩
    intro j hj
    cases j with
    | zero => exact ⟨r, g, b, rfl, rfl, rfl, hr, hg, hb⟩
    | succ j =>
      have := h j (by omega)
      rw [show i + 1 + j = i + (j + 1) by omega] at this
      simpa [show 3 * (j + 1) = 3 * j + 1 + 1 + 1 by omega, show 3 * j + 1 + 1 + 1 + 1 = 3 * j + 1 + 1 + 1 + 1 from rfl] using this

/-- Pixels inside of the picture have numbers of their own. -/
theorem index_inj {w x y x' y' : Nat} (hx : x < w) (hx' : x' < w) (h : y * w + x = y' * w + x') : x = x' ∧ y = y' := by
  have e := congrArg (· % w) h
  simp only [Nat.mul_add_mod_self_right, Nat.mod_eq_of_lt hx, Nat.mod_eq_of_lt hx'] at e
  subst e
  exact ⟨rfl, Nat.eq_of_mul_eq_mul_right (by omega) (by omega : y * w = y' * w)⟩

theorem index_lt {w h x y : Nat} (hx : x < w) (hy : y < h) : y * w + x < w * h := by
  have := Nat.mul_le_mul_right w (show y + 1 ≤ h by omega)
  rw [Nat.add_mul, Nat.one_mul, Nat.mul_comm h w] at this
  omega

omit [IsStrictOrderedRing K] [FloorRing K] in
theorem last_append (ps : List (Nat × Nat × Color K)) (p : Nat × Nat × Color K) (x y : Nat) :
    last (ps ++ [p]) x y = if p.1 = x ∧ p.2.1 = y then p.2.2 else last ps x y := by
  unfold last
  rw [List.filter_append]
  by_cases h : p.1 = x ∧ p.2.1 = y
  · rw [if_pos h]
    simp [h]
  · rw [if_neg h]
    simp [List.filter_cons, h]

omit [FloorRing K] in
theorem setpixels_ok : ∀ (ps done : List (Nat × Nat × Color K)) (m : Image K), m.width * m.height < 2 ^ 32 →
    (∀ p ∈ ps, p.1 < m.width ∧ p.2.1 < m.height ∧ p.2.2.In) →
    (∀ i, ((m.pixels.getD fun _ => white) i).In) →
    (∀ x < m.width, ∀ y < m.height, (m.pixels.getD fun _ => white) (y * m.width + x) = last done x y) →
    ∃ m', setpixels m ps = .ok m' ∧ m'.width = m.width ∧ m'.height = m.height ∧ (ps ≠ [] → m'.pixels ≠ none) ∧
      (∀ i, ((m'.pixels.getD fun _ => white) i).In) ∧
      ∀ x < m.width, ∀ y < m.height, (m'.pixels.getD fun _ => white) (y * m.width + x) = last (done ++ ps) x y
  | [], done, m, _, _, hin, h => ⟨m, rfl, rfl, rfl, by simp, hin, by simpa using h⟩
  | (x, y, c) :: ps, done, m, hs, hp, hin, h => by
    obtain ⟨hx, hy, hc⟩ := hp _ List.mem_cons_self
    dsimp only at hx hy hc
    have hlt := index_lt hx hy
    have e : setpixel m x y c = .ok { m with pixels := some (Function.update (m.pixels.getD fun _ => white) (y * m.width + x) c) } := by
      unfold setpixel Image.size
      dsimp only
      rw [Nat.mod_eq_of_lt hs, Nat.mod_eq_of_lt (by omega), if_pos hlt]
    obtain ⟨m', e', h1, h2, h3, h4, h5⟩ := setpixels_ok ps (done ++ [(x, y, c)])
      { m with pixels := some (Function.update (m.pixels.getD fun _ => white) (y * m.width + x) c) } hs
      (fun p hp' => hp p (List.mem_cons_of_mem _ hp'))
      (by
        intro i
        dsimp only [Option.getD_some]
        by_cases ei : i = y * m.width + x
        · rw [ei, Function.update_self]; exact hc
        · rw [Function.update_of_ne ei]; exact hin i)
      (by
        intro x' hx' y' hy'
        dsimp only [Option.getD_some] at hx' hy' ⊢
        rw [last_append]
        by_cases ei : x = x' ∧ y = y'
        · rw [if_pos ei, ei.1, ei.2, Function.update_self]
        · rw [if_neg ei, Function.update_of_ne, h x' hx' y' hy']
          intro e2
          have := index_inj hx' hx e2
          exact ei ⟨this.1.symm, this.2.symm⟩)
    refine ⟨m', by rw [setpixels, e, Outcome.bind_ok, e'], h1, h2, fun _ => ?_, h4, ?_⟩
    · by_cases hps : ps = []
      · subst hps
        rw [setpixels] at e'
        cases e'
        simp
      · exact h3 hps
    · intro x' hx' y' hy'
      have := h5 x' hx' y' hy'
      rw [List.append_assoc] at this
      exact this

/-- **C119.**  Some pixels of a new picture are set, all inside.  The data are a text without the end mark `~` and then `~>`; the two
filters of PostScript give three bytes for each pixel, row by row, which stand for the colour that was set last, or white. -/
theorem c119_pixels (w h : Nat) (hs : w * h < 2 ^ 32) (ps : List (Nat × Nat × Color K)) (h0 : ps ≠ [])
    (hp : ∀ p ∈ ps, p.1 < w ∧ p.2.1 < h ∧ p.2.2.In) :
    ∃ m px text rl cs, setpixels ⟨w, h, none⟩ ps = .ok m ∧ m.pixels = some px ∧ encode m px = .ok (text ++ [126, 62]) ∧
      126 ∉ text ∧ a85dec text = some rl ∧ psRuns rl = some cs ∧ cs.length = 3 * (w * h) ∧
      ∀ x < w, ∀ y < h, ∃ r g b, cs[3 * (y * w + x)]? = some r ∧ cs[3 * (y * w + x) + 1]? = some g ∧ cs[3 * (y * w + x) + 2]? = some b ∧
        Byte (last ps x y).r r ∧ Byte (last ps x y).g g ∧ Byte (last ps x y).b b := by
  obtain ⟨m, e, h1, h2, h3, h4, h5⟩ := setpixels_ok ps [] ⟨w, h, none⟩ hs hp (fun _ => white_in) (fun x _ y _ => rfl)
  dsimp only at h1 h2 h5
  obtain ⟨px, epx⟩ := Option.ne_none_iff_exists'.1 (h3 h0)
  rw [epx] at h4 h5
  have hsz : m.size = w * h := by unfold Image.size; rw [h1, h2, Nat.mod_eq_of_lt hs]
  obtain ⟨cs, e1, hl, hc⟩ := rgb_ok h4 (w * h) 0
  obtain ⟨rl, e2, e3⟩ := c119_runs cs
  refine ⟨m, px, ascii85enc rl, rl, cs, e, epx, ?_, no_tilde rl, c20_decodable rl, e3, hl, ?_⟩
  · unfold encode
    rw [hsz]
    simp only [Option.getD_some] at e1
    rw [e1, Outcome.bind_ok, e2, Outcome.map_ok]
  · intro x hx y hy
    have := hc (y * w + x) (index_lt hx hy)
    rw [Nat.zero_add, h5 x hx y hy, List.nil_append] at this
    exact this

/-- A picture of two by two pixels, two of which are set, one of them twice. -/
example : ∀ p ∈ [(0, 0, color 1 0 (0 : ℚ)), (1, 1, color 0 (1/2) 0), (0, 0, color 0 0 2)], p.1 < 2 ∧ p.2.1 < 2 ∧ p.2.2.In := by
  intro p hp
  simp only [List.mem_cons, List.not_mem_nil, or_false] at hp
  rcases hp with rfl | rfl | rfl <;> exact ⟨by norm_num, by norm_num, color_in _ _ _⟩

/-- **C119** (finding).  A pixel to the right of the picture is a pixel of another row, if there is one; else it is out of bounds. -/
theorem c119_outside {m : Image K} {x y : Nat} (c : Color K) (hs : m.width * m.height < 2 ^ 32) (hx : m.width ≤ x) (hi : y * m.width + x < 2 ^ 32) :
    setpixel m x y c = if y * m.width + x < m.width * m.height then setpixel m (x - m.width) (y + 1) c else .ub := by
  have e : (y + 1) * m.width + (x - m.width) = y * m.width + x := by
    rw [Nat.add_mul, Nat.one_mul]; omega
  unfold setpixel Image.size
  dsimp only
  rw [e, Nat.mod_eq_of_lt hs, Nat.mod_eq_of_lt hi]
  split <;> rfl

end

/-! ## The page -/

section
variable {K : Type} [Field K] [LinearOrder K] [IsStrictOrderedRing K]

theorem usub_eq {a b : Nat} (h : b ≤ a) (ha : a < 2 ^ 32) : usub a b = a - b := by
  unfold usub; omega

/-- **C119.**  With a margin of less than half of the page, the picture lies inside of the margins, in the middle of the page, with its
proportions, and as large as the margins allow. -/
theorem c119_letter {w h mg : Nat} (hw : 0 < w) (hh : 0 < h) (hm : 2 * mg < 612) :
    let p : Place K := letter w h mg
    0 < p.scale ∧ (mg : K) ≤ p.x ∧ (mg : K) ≤ p.y ∧ p.x + w * p.scale ≤ 612 - mg ∧ p.y + h * p.scale ≤ 792 - mg ∧
      (p.x + w * p.scale / 2 = 612 / 2 ∧ p.y + h * p.scale / 2 = 792 / 2) ∧
      (w * p.scale = 612 - 2 * mg ∨ h * p.scale = 792 - 2 * mg) := by
  have hw' : (0 : K) < w := by exact_mod_cast hw
  have hh' : (0 : K) < h := by exact_mod_cast hh
  have e1 : ((usub 612 (mg * 2) : Nat) : K) = 612 - 2 * mg := by
    rw [usub_eq (by omega) (by omega), Nat.cast_sub (by omega)]; push_cast; ring
  have e2 : ((usub 792 (mg * 2) : Nat) : K) = 792 - 2 * mg := by
    rw [usub_eq (by omega) (by omega), Nat.cast_sub (by omega)]; push_cast; ring
  have hm' : (2 : K) * mg < 612 := by exact_mod_cast hm
  dsimp only
  unfold letter
  dsimp only
  rw [e1, e2]
  have a1 : (w : K) * ((612 - 2 * mg) / w) = 612 - 2 * mg := by field_simp
  have a2 : (h : K) * ((792 - 2 * mg) / h) = 792 - 2 * mg := by field_simp
  split
  · rename_i hlt
    dsimp only
    have b1 : (w : K) * ((792 - 2 * mg) / h) ≤ 612 - 2 * mg := by
      rw [← a1]; exact mul_le_mul_of_nonneg_left hlt.le hw'.le
    refine ⟨div_pos (by linarith) hh', by linarith, le_rfl, by linarith, by linarith, ⟨by ring, by rw [a2]; ring⟩, Or.inr a2⟩
  · rename_i hlt
    dsimp only
    have b1 : (h : K) * ((612 - 2 * mg) / w) ≤ 792 - 2 * mg := by
      rw [← a2]; exact mul_le_mul_of_nonneg_left (not_lt.1 hlt) hh'.le
    refine ⟨div_pos (by linarith) hw', le_rfl, by linarith, by linarith, by linarith, ⟨by rw [a1]; ring, by ring⟩, Or.inl a1⟩

/-- The default margin is small enough. -/
example : 2 * margin true (-1) < 612 ∧ margin true (-1) = 36 ∧ margin false (-1) = 0 ∧ margin true 10 = 10 := by decide

/-- **C119** (finding).  With a margin that is too large the picture is millions of pages large: the width is computed without sign. -/
theorem c119_margin : (letter 100 100 400 : Place ℚ).x + 100 * (letter 100 100 400 : Place ℚ).scale > 612 * 7000000 := by
  have e1 : usub 612 (400 * 2) = 4294967108 := by decide
  have e2 : usub 792 (400 * 2) = 4294967288 := by decide
  unfold letter
  dsimp only
  rw [e1, e2]
  norm_num

end

/-! ## Texts -/

/-- **C119** (finding).  A PostScript program begins with `%!`; a page does, but a picture without a page does not. -/
theorem c119_header : letterFirst.take 2 = ['%', '!'] ∧ plainFirst.take 2 ≠ ['%', '!'] := by decide

section
variable {K : Type} [Field K] [LinearOrder K]

theorem strip_append_plain : ∀ (s t : List Char), '%' ∉ s → strip false (s ++ t) = s ++ strip false t
  | [], t, _ => rfl
  | c :: s, t, h => by
    rw [List.mem_cons, not_or] at h
    by_cases hc : c = '\n'
    · subst hc
      simp only [List.cons_append, strip]
      rw [strip_append_plain s t h.2]
    · rw [List.cons_append, strip.eq_4 _ _ (by simpa using hc), if_neg (Ne.symm h.1), strip_append_plain s t h.2, List.cons_append]

theorem strip_skip : ∀ (s t : List Char), '\n' ∉ s → strip true (s ++ '\n' :: t) = '\n' :: strip false t
  | [], t, _ => by rw [List.nil_append, strip]
  | c :: s, t, h => by
    rw [List.mem_cons, not_or] at h
    rw [List.cons_append, strip.eq_3 _ _ (by simpa using Ne.symm h.1), strip_skip s t h.2]

theorem strip_comment (s t : List Char) (h : '\n' ∉ s) : strip false ('%' :: (s ++ '\n' :: t)) = '\n' :: strip false t := by
  rw [strip.eq_4 _ _ (by simp), if_pos rfl, strip_skip s t h]

/-- Numbers are printed without percent signs and ends of lines. -/
def Prints (p : K → List Char) : Prop := ∀ x, '%' ∉ p x ∧ '\n' ∉ p x

omit [Field K] [LinearOrder K] in
theorem two_plain {p : K → List Char} (hp : Prints p) (x y : K) {w : String} (hw : '%' ∉ w.toList) : '%' ∉ two p x y w := by
  unfold two
  simp only [List.mem_append, List.mem_cons, List.not_mem_nil, or_false, not_or]
  exact ⟨(hp x).1, by decide, (hp y).1, by decide, hw, by decide⟩

omit [Field K] [LinearOrder K] in
theorem rgb_plain {p : K → List Char} (hp : Prints p) (c : Color K) : '%' ∉ rgbcolor p c := by
  unfold rgbcolor
  simp only [List.mem_append, List.mem_cons, not_or]
  exact ⟨(hp _).1, by decide, (hp _).1, by decide, (hp _).1, by decide⟩

omit [Field K] [LinearOrder K] in
/-- **C119.**  The commands of a line: colour, width, a new path with the two points, and a stroke. -/
theorem c119_line {p : K → List Char} (hp : Prints p) (x0 y0 x1 y1 w : K) (c : Color K) :
    strip false (line p x0 y0 x1 y1 w c) = '\n' :: (rgbcolor p c ++ (p w ++ " setlinewidth\n".toList) ++ "newpath\n".toList ++
      two p x0 y0 "moveto" ++ two p x1 y1 "lineto" ++ "stroke\n".toList) := by
  unfold line
  have e : "% Line\n".toList = '%' :: (" Line".toList ++ ['\n']) := by decide
  have hplain : '%' ∉ rgbcolor p c ++ (p w ++ " setlinewidth\n".toList) ++ "newpath\n".toList ++
      two p x0 y0 "moveto" ++ two p x1 y1 "lineto" ++ "stroke\n".toList := by
    simp only [List.mem_append, not_or]
    exact ⟨⟨⟨⟨⟨rgb_plain hp c, (hp w).1, by decide⟩, by decide⟩, two_plain hp _ _ (by decide)⟩, two_plain hp _ _ (by decide)⟩, by decide⟩
  have a := strip_append_plain _ [] hplain
  rw [List.append_nil] at a
  rw [e]
  simp only [List.append_assoc, List.cons_append, List.nil_append] at a ⊢
  rw [strip_comment _ _ (by decide), a]
  simp [strip]

/-- **C119** (finding).  The commands of a polygon: colour, width, the points, and a stroke or a fill.  There is no new path: the word is
in a comment. -/
theorem c119_poly {p : K → List Char} (hp : Prints p) (v : K × K) (vs : List (K × K)) (w : K) (c : Color K) :
    ∃ out, poly p (v :: vs) w c = .ok out ∧ strip false out = '\n' :: (rgbcolor p c ++
      (if w ≤ 0 then "0.1 setlinewidth\n".toList else p w ++ " setlinewidth\n".toList) ++ '\n' :: (two p v.1 v.2 "moveto" ++
      (vs.map fun u => two p u.1 u.2 "lineto").flatten ++ "closepath\n".toList ++ (if w ≤ 0 then "fill\n".toList else "stroke\n".toList))) := by
  refine ⟨_, rfl, ?_⟩
  have e : "% Poly\n".toList = '%' :: (" Poly".toList ++ ['\n']) := by decide
  have e1 : "% ".toList = ['%', ' '] := by decide
  have e2 : "newpath\n".toList = "newpath".toList ++ ['\n'] := by decide
  have h1 : '%' ∉ rgbcolor p c ++ (if w ≤ 0 then "0.1 setlinewidth\n".toList else p w ++ " setlinewidth\n".toList) := by
    rw [List.mem_append, not_or]
    refine ⟨rgb_plain hp c, ?_⟩
    split
    · decide
    · rw [List.mem_append, not_or]; exact ⟨(hp w).1, by decide⟩
  have h2 : '%' ∉ two p v.1 v.2 "moveto" ++ (vs.map fun u => two p u.1 u.2 "lineto").flatten ++ "closepath\n".toList ++
      (if w ≤ 0 then "fill\n".toList else "stroke\n".toList) := by
    simp only [List.mem_append, not_or]
    refine ⟨⟨⟨two_plain hp _ _ (by decide), ?_⟩, by decide⟩, ?_⟩
    · intro h
      obtain ⟨l, hl, hm⟩ := List.mem_flatten.1 h
      obtain ⟨u, -, rfl⟩ := List.mem_map.1 hl
      exact two_plain hp _ _ (by decide) hm
    · split <;> decide
  have h3 : '\n' ∉ ' ' :: (p w ++ "newpath".toList) := by
    simp only [List.mem_cons, List.mem_append, not_or]
    exact ⟨by decide, (hp w).2, by decide⟩
  have a := strip_append_plain _ [] h2
  rw [List.append_nil] at a
  have key : ∀ A B : List Char, '%' ∉ A → strip false ('%' :: (" Poly".toList ++ '\n' :: (A ++ '%' :: ((' ' :: (p w ++ "newpath".toList)) ++ '\n' :: B)))) =
      '\n' :: (A ++ '\n' :: strip false B) := by
    intro A B hA
    rw [strip_comment _ _ (by decide), strip_append_plain A _ hA, strip_comment _ _ h3]
  have fin := key _ (two p v.1 v.2 "moveto" ++ (vs.map fun u => two p u.1 u.2 "lineto").flatten ++ "closepath\n".toList ++
      (if w ≤ 0 then "fill\n".toList else "stroke\n".toList)) h1
  rw [a] at fin
  rw [e, e1, e2]
  simp only [List.append_assoc, List.cons_append, List.nil_append, strip, List.append_nil] at fin ⊢
  exact fin

/-- **C119** (finding).  A polygon without vertices is out of bounds. -/
theorem c119_novertex (p : K → List Char) (w : K) (c : Color K) : poly p [] w c = .ub := rfl

end

/-- A way of printing, and a polygon: the word `newpath` is not in what is left. -/
example : Prints (fun _ : ℚ => ['1', '.', '5']) := fun _ => by
  show '%' ∉ ['1', '.', '5'] ∧ '\n' ∉ ['1', '.', '5']
  decide

example : (poly (fun _ : ℚ => ['2']) [(0, 0), (1, 0), (0, 1)] 1 white).map (fun s => String.ofList (strip false s)) =
    .ok "\n2 2 2 setrgbcolor\n2 setlinewidth\n\n2 2 moveto\n2 2 lineto\n2 2 lineto\nclosepath\nstroke\n" := by decide +kernel

/-! ## Points, texts and arcs -/

section
variable {K : Type} [Field K] [LinearOrder K]

/-- **C119.**  The commands of a point: colour, width, a new path with a whole circle, and a stroke or a fill. -/
theorem c119_point {p : K → List Char} (hp : Prints p) (x y r w : K) (c : Color K) :
    strip false (point p x y r w c) = '\n' :: (rgbcolor p c ++
      (if w ≤ 0 then "0.1 setlinewidth\n".toList else p w ++ " setlinewidth\n".toList) ++
      ("newpath ".toList ++ p x ++ ' ' :: (p y ++ ' ' :: (p r ++ " 0 360 arc\n".toList))) ++
      (if w ≤ 0 then "fill\n".toList else "stroke\n".toList)) := by
  unfold point
  have e : "% Pt\n".toList = '%' :: (" Pt".toList ++ ['\n']) := by decide
  have hplain : '%' ∉ rgbcolor p c ++
      (if w ≤ 0 then "0.1 setlinewidth\n".toList else p w ++ " setlinewidth\n".toList) ++
      ("newpath ".toList ++ p x ++ ' ' :: (p y ++ ' ' :: (p r ++ " 0 360 arc\n".toList))) ++
      (if w ≤ 0 then "fill\n".toList else "stroke\n".toList) := by
    simp only [List.mem_append, List.mem_cons, not_or]
    refine ⟨⟨⟨rgb_plain hp c, ?_⟩, ⟨by decide, (hp x).1⟩, by decide, (hp y).1, by decide, (hp r).1, by decide⟩, ?_⟩
    · split
      · decide
      · rw [List.mem_append, not_or]; exact ⟨(hp w).1, by decide⟩
    · split <;> decide
  have key : ∀ A : List Char, '%' ∉ A → strip false ("% Pt\n".toList ++ A) = '\n' :: A := by
    intro A hA
    have a := strip_append_plain A [] hA
    rw [List.append_nil, strip, List.append_nil] at a
    rw [e, List.cons_append, List.append_assoc, List.cons_append, List.nil_append, strip_comment _ _ (by decide), a]
  rw [List.append_assoc, List.append_assoc, List.append_assoc, ← List.append_assoc (rgbcolor p c), ← List.append_assoc (rgbcolor p c ++ _)]
  exact key _ hplain

theorem psStr_nest (t : List Char) : ∀ (txt : List Char) (d : Nat), '\\' ∉ txt → '\r' ∉ txt →
    (psStr d (txt ++ ')' :: t) = some (txt, t) ↔ nest d txt = true)
  | [], 0, _, _ => by simp [psStr, nest]
  | [], d + 1, _, _ => by simp [psStr, nest]
  | c :: s, d, h1, h2 => by
    rw [List.mem_cons, not_or] at h1 h2
    have ih := fun d => psStr_nest t s d h1.2 h2.2
    have key : ∀ (d : Nat) (c' : Char), ((psStr d (s ++ ')' :: t)).map (fun r => (c' :: r.1, r.2)) = some (c' :: s, t) ↔ nest d s = true) := by
      intro d c'
      rw [← ih d, Option.map_eq_some_iff]
      constructor
      · rintro ⟨⟨a, b⟩, e1, e2⟩
        simp only [Prod.mk.injEq, List.cons.injEq, true_and] at e2
        rw [e1, e2.1, e2.2]
      · intro e1
        exact ⟨_, e1, rfl⟩
    by_cases ho : c = '('
    · subst ho
      rw [List.cons_append, psStr, nest]
      exact key _ _
    by_cases hc : c = ')'
    · subst hc
      cases d with
      | zero => simp [psStr, nest]
      | succ d =>
        rw [List.cons_append, psStr, nest]
        exact key _ _
    have e1 : psStr d (c :: (s ++ ')' :: t)) = (psStr d (s ++ ')' :: t)).map fun r => (c :: r.1, r.2) := by
      rw [psStr.eq_def]
      split <;> simp_all
    have e2 : nest d (c :: s) = nest d s := by
      rw [nest.eq_def]
      split <;> simp_all
    rw [List.cons_append, e1, e2]
    exact key _ _

omit [LinearOrder K] in
/-- **C119.**  The commands of a text: colour, font, place, and a string with what is to be done with it.  If the text is without
backslashes, the string is read as the text if, and only if, its parentheses nest. -/
theorem c119_string (p : K → List Char) (font : List Char) (sz x y : K) {txt : List Char} (pos : Pos) (c : Color K)
    (h1 : '\\' ∉ txt) (h2 : '\r' ∉ txt) :
    ∃ s, text p font sz x y txt pos c = "% Text\n".toList ++ rgbcolor p c ++
        ("/".toList ++ font ++ " findfont ".toList ++ p sz ++ " scalefont setfont\n".toList) ++ two p x y "moveto" ++ '(' :: s ∧
      (psStr 0 s = some (txt, ' ' :: shown pos) ↔ nest 0 txt = true) := by
  refine ⟨txt ++ ')' :: ' ' :: shown pos, ?_, psStr_nest _ txt 0 h1 h2⟩
  have e1 : ") ".toList = [')', ' '] := by decide
  have e2 : "/".toList = ['/'] := by decide
  unfold text string
  rw [e1, e2]
  simp only [List.append_assoc, List.cons_append, List.nil_append]

/-- **C119** (finding).  The smiley ends the string, what follows it are commands; a sad one leaves the string open up to the end; and a
backslash is lost. -/
theorem c119_smiley : psStr 0 ("a :) b".toList ++ ") ".toList) = some ("a :".toList, " b) ".toList) ∧
    psStr 0 ("a :( b".toList ++ ") show\n".toList) = none ∧
    psStr 0 ("a\\b".toList ++ ") ".toList) = some ("ab".toList, [' ']) := by decide +kernel

example : nest 0 "f(x) = g(x, h(x))".toList = true ∧ nest 0 "a :) b".toList = false := by decide +kernel

/-- **C119.**  Where a text is shown: to the right of its place, to the left of it, or in the middle. -/
theorem c119_text (width : List Char → K) (x y : K) (txt : List Char) (pos : Pos) [CharZero K] :
    ∃ cs m, (psWords (shown pos)).mapM psCmd = some cs ∧ psRun width ⟨[.str txt], x, y, []⟩ cs = some m ∧ m.stack = [] ∧
      ∃ l, m.out = [(txt, l, y)] ∧ m.x = l + width txt ∧ (match pos with
        | .left => l = x
        | .right => l + width txt = x
        | .centered => l + width txt / 2 = x) := by
  have h2 : ((2 : Nat) : K) ≠ 0 := by norm_num
  cases pos with
  | left =>
    refine ⟨[.show_], _, by decide +kernel, rfl, rfl, _, rfl, rfl, rfl⟩
  | right =>
    refine ⟨[.dup, .stringwidth, .pop, .neg, .num 0, .rmoveto, .show_], _, by decide +kernel, rfl, rfl, x + -width txt, ?_, ?_, ?_⟩
    · simp
    · simp
    · simp
  | centered =>
    refine ⟨[.dup, .stringwidth, .pop, .num 2, .div, .neg, .num 0, .rmoveto, .show_],
      ⟨[], x + -(width txt / (2 : Nat)) + width txt, y + ((0 : Nat) : K), [(txt, x + -(width txt / (2 : Nat)), y + ((0 : Nat) : K))]⟩,
      by decide +kernel, ?_, rfl, x + -(width txt / 2), ?_, ?_, ?_⟩
    · simp [psRun, psStep]
    · simp
    · simp
    · simp

end

/-- The angle of PostScript, which is in degrees. -/
noncomputable def rad (d : ℝ) : ℝ := d * Real.pi / 180

/-- **C119.**  The path of an arc: it is moved to where the arc begins, the angles are those of the arc, and the direction is such that
the angles need not be changed by whole turns: PostScript adds turns to the second angle of `arc` while it is less than the first, and
takes them from the second angle of `arcn` while it is greater. -/
theorem c119_arc (cx cy r t0 dt : ℝ) :
    let a := arc Real.cos Real.sin (180 / Real.pi) cx cy r t0 dt
    a.1 = (cx + r * Real.cos (rad a.2.1), cy + r * Real.sin (rad a.2.1)) ∧ rad a.2.1 = t0 ∧ rad a.2.2.1 - rad a.2.1 = dt ∧
      (a.2.2.2 = false → a.2.1 ≤ a.2.2.1) ∧ (a.2.2.2 = true → a.2.2.1 ≤ a.2.1) := by
  have hpi := Real.pi_pos
  have hr : ∀ t, rad (t * (180 / Real.pi)) = t := by
    intro t; unfold rad; field_simp
  have hd : (0 : ℝ) ≤ 180 / Real.pi := by positivity
  dsimp only
  unfold arc
  dsimp only
  rw [hr, hr]
  refine ⟨by rw [mul_comm r, mul_comm r], rfl, by ring, ?_, ?_⟩
  · intro h
    split at h
    · exact mul_le_mul_of_nonneg_right (by linarith) hd
    · cases h
  · intro h
    split at h
    · cases h
    · exact mul_le_mul_of_nonneg_right (by linarith) hd

end Verif.Eps
