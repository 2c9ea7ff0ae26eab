import Verif.Utils.Encode
import Mathlib.Algebra.Order.Field.Basic
import Mathlib.Algebra.Order.Floor.Ring
import Mathlib.Data.Rat.Floor
import Mathlib.Tactic.Ring
import Mathlib.Tactic.FieldSimp
import Mathlib.Tactic.Linarith
import Mathlib.Tactic.Positivity

/-!
# Pictures as PostScript

graphics/image.cc and graphics/image.hpp: the colour of pixels, the encoded data, the place of the picture on the page, the text of
lines, points, texts, arcs and polygons.

Simplifications: `double` is an ordered field; how a number is printed is a parameter.

Specification side: `psRuns` is the RunLengthDecode filter of the PostScript manual (section 3.13.3), `a85dec` of `Props/Encode` the
ASCII85Decode filter; `strip` is what is left of a program without its comments (section 3.2.2); `psStr` reads a string (section 3.2.2), `psRun` runs the
commands that follow one (section 8.2).
-/

namespace Verif.Eps

open Verif Verif.Encode

/-! ## Pixels -/

section
variable {K : Type} [Field K] [LinearOrder K]

/-- image.hpp:29-33 `clamp`. -/
def clamp (d : K) : K := if d < 0 then 0 else if d > 1 then 1 else d

/-- image.hpp:12-35 `Color`. -/
structure Color (K : Type) where
  r : K
  g : K
  b : K

/-- image.hpp:14-18: the constructor. -/
def color (r g b : K) : Color K := ⟨clamp r, clamp g, clamp b⟩

/-- image.hpp:13: the constructor without arguments: white. -/
def white : Color K := ⟨1, 1, 1⟩

/-- image.hpp:25-27 `getred255` and the like: a conversion to `unsigned char`, which is undefined unless the number without its
fraction fits. -/
def byte [FloorRing K] (d : K) : Outcome UInt8 :=
  if 0 ≤ ⌊255 * d⌋ ∧ ⌊255 * d⌋ < 256 then .ok (UInt8.ofNat ⌊255 * d⌋.toNat) else .ub

/-- image.hpp:46-48, 148-151: a picture.  `pixels` is `none` before the first `setpixel`. -/
structure Image (K : Type) where
  width : Nat
  height : Nat
  pixels : Option (Nat → Color K)

/-- The number of pixels in memory: `width * height` is `unsigned int`. -/
def Image.size (m : Image K) : Nat := m.width * m.height % 2 ^ 32

/-- image.hpp:142-146 `setpixel`. -/
def setpixel (m : Image K) (x y : Nat) (c : Color K) : Outcome (Image K) :=
  let px := m.pixels.getD fun _ => white
  let i := (y * m.width + x) % 2 ^ 32
  if i < m.size then .ok { m with pixels := some (Function.update px i c) } else .ub

/-- Some pixels are set, one after the other. -/
def setpixels (m : Image K) : List (Nat × Nat × Color K) → Outcome (Image K)
  | [] => .ok m
  | (x, y, c) :: ps => (setpixel m x y c).bind fun m => setpixels m ps

variable [FloorRing K]

/-- image.cc:122-126: the bytes of the pixels from `i` on. -/
def rgb (px : Nat → Color K) : Nat → Nat → Outcome (List UInt8)
  | 0, _ => .ok []
  | n + 1, i => (byte (px i).r).bind fun r => (byte (px i).g).bind fun g => (byte (px i).b).bind fun b =>
    (rgb px n (i + 1)).map fun cs => r :: g :: b :: cs

/-- image.cc:120-132 `encode_epsdata`, for a picture with pixels. -/
def encode (m : Image K) (px : Nat → Color K) : Outcome (List UInt8) :=
  (rgb px m.size 0).bind fun cs => (runlenenc cs).map fun rl => ascii85enc rl ++ [126, 62]

end

/-! ## The page -/

section
variable {K : Type} [Field K] [LinearOrder K]

/-- The place of the picture: it is moved by `x`, `y` and scaled. -/
structure Place (K : Type) where
  x : K
  y : K
  scale : K

/-- `a - b` for numbers of type `unsigned int`. -/
def usub (a b : Nat) : Nat := (a + 2 ^ 32 - b % 2 ^ 32) % 2 ^ 32

/-- image.cc:77-86, in `write_epshdrletter`.  `Widthpt - marginpt * 2` is `unsigned int`. -/
def letter (width height marginpt : Nat) : Place K :=
  let maxw : K := (usub 612 (marginpt * 2) : Nat)
  let maxh : K := (usub 792 (marginpt * 2) : Nat)
  let scalex := maxw / width
  let scaley := maxh / height
  if scaley < scalex then ⟨(612 - width * scaley) / 2, marginpt, scaley⟩
  else ⟨marginpt, (792 - height * scalex) / 2, scalex⟩

/-- image.cc:46-48: the margin; a negative one stands for half an inch on a page, and for none without. -/
def margin (usletter : Bool) (marginpt : Int) : Nat :=
  if marginpt < 0 then (if usletter then 72 / 2 else 0) else marginpt.toNat

end

/-! ## Texts -/

/-- image.cc:71: the first line of a page. -/
def letterFirst : List Char := "%!PS-Adobe-3.0\n".toList

/-- image.cc:93: the first line of a picture without a page.  `fputs` prints both percent signs. -/
def plainFirst : List Char := "%%!PS-Adobe-3.0\n".toList

variable {K : Type} [Field K] [LinearOrder K]

/-- `"%g %g "` and a word. -/
def two (p : K → List Char) (x y : K) (w : String) : List Char := p x ++ ' ' :: (p y ++ ' ' :: (w.toList ++ ['\n']))

/-- image.cc:136, 157, 171, 181, 201. -/
def rgbcolor (p : K → List Char) (c : Color K) : List Char := p c.r ++ ' ' :: (p c.g ++ ' ' :: (p c.b ++ " setrgbcolor\n".toList))

/-- image.cc:169-177 `Line::writeeps`. -/
def line (p : K → List Char) (x0 y0 x1 y1 w : K) (c : Color K) : List Char :=
  "% Line\n".toList ++ rgbcolor p c ++ (p w ++ " setlinewidth\n".toList) ++ "newpath\n".toList ++ two p x0 y0 "moveto" ++ two p x1 y1 "lineto" ++
    "stroke\n".toList

/-- image.cc:199-216 `Poly::writeeps`; `verts[0]` must exist. -/
def poly (p : K → List Char) (vs : List (K × K)) (w : K) (c : Color K) : Outcome (List Char) :=
  match vs with
  | [] => .ub
  | v :: vs => .ok ("% Poly\n".toList ++ rgbcolor p c ++
      (if w ≤ 0 then "0.1 setlinewidth\n".toList else p w ++ " setlinewidth\n".toList) ++
      ("% ".toList ++ p w) ++ "newpath\n".toList ++ two p v.1 v.2 "moveto" ++ (vs.map fun u => two p u.1 u.2 "lineto").flatten ++
      "closepath\n".toList ++ (if w ≤ 0 then "fill\n".toList else "stroke\n".toList))

/-- image.cc:155-167 `Pt::writeeps`: a circle. -/
def point (p : K → List Char) (x y r w : K) (c : Color K) : List Char :=
  "% Pt\n".toList ++ rgbcolor p c ++ (if w ≤ 0 then "0.1 setlinewidth\n".toList else p w ++ " setlinewidth\n".toList) ++
    ("newpath ".toList ++ p x ++ ' ' :: (p y ++ ' ' :: (p r ++ " 0 360 arc\n".toList))) ++
    (if w ≤ 0 then "fill\n".toList else "stroke\n".toList)

/-- image.hpp:64 `Position`. -/
inductive Pos
  | left
  | right
  | centered

/-- image.cc:140-149: what follows the string. -/
def shown : Pos → List Char
  | .left => "show\n".toList
  | .right => "dup stringwidth pop neg 0 rmoveto show\n".toList
  | .centered => "dup stringwidth pop 2 div neg 0 rmoveto show\n".toList

/-- image.cc:139: the string, as it is, between parentheses. -/
def string (txt : List Char) : List Char := '(' :: (txt ++ ") ".toList)

/-- image.cc:134-153 `Text::writeeps`. -/
def text (p : K → List Char) (font : List Char) (sz x y : K) (txt : List Char) (pos : Pos) (c : Color K) : List Char :=
  "% Text\n".toList ++ rgbcolor p c ++ ('/' :: (font ++ " findfont ".toList ++ p sz ++ " scalefont setfont\n".toList)) ++ two p x y "moveto" ++
    string txt ++ shown pos

/-- image.cc:184-195, in `Arc::writeeps`, with geom2d.hpp:451-453 `start`: the point to move to, the two angles in degrees, and whether
the command is `arcn`.  `deg` stands for `180 / M_PI`. -/
def arc (cos sin : K → K) (deg : K) (cx cy r t0 dt : K) : (K × K) × K × K × Bool :=
  ((cx + cos t0 * r, cy + sin t0 * r), t0 * deg, (t0 + dt) * deg, if dt > 0 then false else true)

/-! ## Specification -/

/-- A string is read after its opening parenthesis, up to the closing one: the string and what follows.  `d` parentheses inside of the
string are open.  A backslash begins an escape; the end of a line is one character however it is written.  (Octal codes are not read.) -/
def psStr : Nat → List Char → Option (List Char × List Char)
  | _, [] => none
  | d, '(' :: s => (psStr (d + 1) s).map fun r => ('(' :: r.1, r.2)
  | 0, ')' :: s => some ([], s)
  | d + 1, ')' :: s => (psStr d s).map fun r => (')' :: r.1, r.2)
  | d, '\\' :: c :: s =>
    if c.isDigit then none
    else if c = '\n' then psStr d s
    else (psStr d s).map fun r => ((if c = 'n' then '\n' else if c = 'r' then '\r' else if c = 't' then '\t' else c) :: r.1, r.2)
  | d, '\r' :: s => (psStr d s).map fun r => ('\n' :: r.1, r.2)
  | d, c :: s => (psStr d s).map fun r => (c :: r.1, r.2)

/-- The parentheses of a text nest, if `d` more have been opened before. -/
def nest : Nat → List Char → Bool
  | d, [] => d == 0
  | d, '(' :: s => nest (d + 1) s
  | 0, ')' :: _ => false
  | d + 1, ')' :: s => nest d s
  | d, _ :: s => nest d s

/-- The words of a program without strings. -/
def psWords (s : List Char) : List (List Char) :=
  (s.foldr (fun c r => if c = ' ' ∨ c = '\n' then [] :: r else match r with
    | [] => [[c]]
    | w :: r => (c :: w) :: r) [[]]).filter fun w => !w.isEmpty

/-- Some commands. -/
inductive Cmd
  | dup | stringwidth | pop | neg | div | rmoveto | show_ | num (n : Nat)
  deriving DecidableEq

/-- The command of a word. -/
def psCmd (w : List Char) : Option Cmd :=
  if w = "dup".toList then some .dup
  else if w = "stringwidth".toList then some .stringwidth
  else if w = "pop".toList then some .pop
  else if w = "neg".toList then some .neg
  else if w = "div".toList then some .div
  else if w = "rmoveto".toList then some .rmoveto
  else if w = "show".toList then some .show_
  else if w = "0".toList then some (.num 0)
  else if w = "2".toList then some (.num 2)
  else none

/-- What is on the stack. -/
inductive Val (K : Type)
  | num (k : K)
  | str (s : List Char)

/-- A machine: the stack, the current point, and the strings that have been shown, each with the place of its left end. -/
structure Ps (K : Type) where
  stack : List (Val K)
  x : K
  y : K
  out : List (List Char × K × K)

/-- One command; `width` is the width of a string in the font. -/
def psStep (width : List Char → K) (m : Ps K) : Cmd → Option (Ps K)
  | .num n => some { m with stack := .num n :: m.stack }
  | .dup => match m.stack with
    | a :: st => some { m with stack := a :: a :: st }
    | _ => none
  | .stringwidth => match m.stack with
    | .str s :: st => some { m with stack := .num 0 :: .num (width s) :: st }
    | _ => none
  | .pop => match m.stack with
    | _ :: st => some { m with stack := st }
    | _ => none
  | .neg => match m.stack with
    | .num a :: st => some { m with stack := .num (-a) :: st }
    | _ => none
  | .div => match m.stack with
    | .num b :: .num a :: st => if b = 0 then none else some { m with stack := .num (a / b) :: st }
    | _ => none
  | .rmoveto => match m.stack with
    | .num b :: .num a :: st => some { m with stack := st, x := m.x + a, y := m.y + b }
    | _ => none
  | .show_ => match m.stack with
    | .str s :: st => some { m with stack := st, x := m.x + width s, out := m.out ++ [(s, m.x, m.y)] }
    | _ => none

/-- Some commands, one after the other. -/
def psRun (width : List Char → K) (m : Ps K) : List Cmd → Option (Ps K)
  | [] => some m
  | c :: cs => (psStep width m c).bind fun m => psRun width m cs

/-- The RunLengthDecode filter: a length `n < 128` and `n + 1` bytes; or a length `n > 128` and a byte that stands for `257 - n`
bytes; 128 is the end of the data. -/
def psRuns : List UInt8 → Option (List UInt8)
  | [] => some []
  | b :: rest =>
    if b.toNat < 128 then
      if b.toNat + 1 ≤ rest.length then (psRuns (rest.drop (b.toNat + 1))).map fun r => rest.take (b.toNat + 1) ++ r else none
    else if b.toNat = 128 then some []
    else match rest with
      | [] => none
      | c :: rest' => (psRuns rest').map fun r => List.replicate (257 - b.toNat) c ++ r
  termination_by l => l.length
  decreasing_by
    all_goals simp_wf
    all_goals omega

/-- A program without its comments: from a percent sign up to the end of the line.  `skip` is set inside a comment.  (Strings are
not looked at: there are none here.) -/
def strip : Bool → List Char → List Char
  | _, [] => []
  | _, '\n' :: s => '\n' :: strip false s
  | true, _ :: s => strip true s
  | false, c :: s => if c = '%' then strip true s else c :: strip false s

/-- The colour of a pixel when some have been set: the last one, or white. -/
def last (ps : List (Nat × Nat × Color K)) (x y : Nat) : Color K :=
  ((ps.filter fun p => decide (p.1 = x ∧ p.2.1 = y)).getLast?.map (·.2.2)).getD white

end Verif.Eps
