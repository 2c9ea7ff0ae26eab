import Verif.Domains.Segments
import Verif.Domains.VisFile
import Verif.Utils.Rand
import Mathlib.Algebra.Order.Floor.Ring

/-!
# Model of the files of segments instances: `Segments(FILE*)` (segments/segments.cc), and of segments/mkinst.cc

* `fscanf` as in `GridFile`; `%g` and `%lg` are a parameter, as in `VisFile`.  `double` values are numbers of an ordered field.
* The table of the cosines and sines of the angles is a parameter.
* `goto` back to the beginning of a round of mkinst.cc discards everything but the state of the random numbers, so that only the
  last try of a round is modelled, from any state.  `real()` gives any number between 0 and 1.
* Not modelled: the command line of mkinst.cc; the memory for the angles.
-/

namespace Verif.SegmentsFile

open Verif.Str Verif.GridFile Verif.VisFile
open Verif.Segments (Pose toU toI wrapind)

variable {K : Type} [Field K] [LinearOrder K] [IsStrictOrderedRing K] [FloorRing K]

/-- segments.hpp:59-63 `Seg` -/
structure FSeg (K : Type) where
  radius : K
  start : Pose
  goal : Pose
deriving DecidableEq

/-- The numbers of an instance (segments.hpp:268-302). -/
structure FInst (K : Type) where
  width : Nat
  height : Nat
  nangles : Nat
  segs : List (FSeg K)
deriving DecidableEq

/-! ## Reading -/

/-- segments.cc:56-64: the comments.  The flag tells that the inner loop is running; at the end of the file `fgetc` gives
`EOF` again and again.  The number bounds the calls of `fgetc`. -/
def chomp : Nat → Bool → Str → Outcome Str
  | 0, _, _ => .nofuel
  | f + 1, false, s =>
    match s with
    | [] => .ok []
    | c :: t => if c = '#' then chomp f true t else .ok (c :: t)
  | f + 1, true, s =>
    match s with
    | [] => chomp f true []
    | c :: t => if c = '\n' then chomp f false t else chomp f true t

/-- segments.cc:89, 91: three numbers. -/
def readPose (s : Str) : Outcome (Pose × Str) :=
  (num (2 ^ 32) s).bind fun (x, s) => (num (2 ^ 32) s).bind fun (y, s) => (num (2 ^ 32) s).map fun (r, s) => (⟨x, y, r⟩, s)

/-- segments.cc:85-94: `n` segments. -/
def readSegs (F : Fmt K) : Nat → Str → Outcome (List (FSeg K))
  | 0, _ => .ok []
  | n + 1, s =>
    (dbl F s).bind fun (r, s) => (readPose s).bind fun (a, s) => (readPose s).bind fun (b, s) =>
    (readSegs F n s).map (⟨r, a, b⟩ :: ·)

/-- segments.cc:55-95 `Segments(FILE*)` -/
def read (F : Fmt K) (fuel : Nat) (s : Str) : Outcome (FInst K) :=
  (chomp fuel false s).bind fun s =>
  (num (2 ^ 32) s).bind fun (w, s) => (num (2 ^ 32) s).bind fun (h, s) => (num (2 ^ 32) s).bind fun (a, s) =>
  if a % 2 ≠ 0 then .fatal
  else (num (2 ^ 32) s).bind fun (n, s) => (readSegs F n s).map fun sg => ⟨w, h, a, sg⟩

/-! ## Writing -/

/-- A pose, with a character after it. -/
def writePose (p : Pose) (c : Char) : Str :=
  Nat.toDigits 10 p.x ++ ' ' :: (Nat.toDigits 10 p.y ++ ' ' :: (Nat.toDigits 10 p.rot ++ [c]))

/-- mkinst.cc:129-134 -/
def writeSegs (F : Fmt K) : List (FSeg K) → Str
  | [] => []
  | g :: gs => F.pr g.radius ++ ' ' :: (writePose g.start ' ' ++ (writePose g.goal '\n' ++ writeSegs F gs))

/-- mkinst.cc:77, 127-134: the seed and the instance. -/
def write (F : Fmt K) (seed : Nat) (I : FInst K) : Str :=
  "# seed: ".toList ++ (Nat.toDigits 10 seed ++ '\n' ::
    (Nat.toDigits 10 I.width ++ ' ' :: (Nat.toDigits 10 I.height ++ ' ' :: (Nat.toDigits 10 I.nangles ++ '\n' ::
    (Nat.toDigits 10 I.segs.length ++ '\n' :: writeSegs F I.segs)))))

/-! ## Making an instance -/

/-- The options (mkinst.cc:11-16). -/
structure Cfg (K : Type) where
  nsegs : Nat
  width : Nat
  height : Nat
  nangles : Nat
  minr : K
  maxr : K

/-- segments.cc:128-134 `line`; `ang` are the cosines and sines of `angles`. -/
def line (ang : Nat → K × K) (nangles : Nat) (radius : K) (p : Pose) : Outcome (Geom.Seg K) :=
  if p.rot < nangles then
    (wrapind (toI (p.rot + nangles / 2)) (toI nangles)).bind fun a1 =>
    if 0 ≤ a1 ∧ a1 < nangles then
      .ok ⟨⟨p.x + radius * (ang p.rot).1, p.y + radius * (ang p.rot).2⟩,
        ⟨p.x + radius * (ang a1.toNat).1, p.y + radius * (ang a1.toNat).2⟩⟩
    else .ub
  else .ub

/-- segments.cc:108-111: the bounds of the constructor that mkinst.cc uses. -/
def bounds (w h : K) : List (Geom.Seg K) :=
  [⟨⟨0, 0⟩, ⟨w, 0⟩⟩, ⟨⟨w, 0⟩, ⟨w, h⟩⟩, ⟨⟨w, h⟩, ⟨0, h⟩⟩, ⟨⟨0, h⟩, ⟨w, 0⟩⟩]

/-- segments.cc:76-79: the bounds of the constructor that reads a file. -/
def fileBounds (w h : K) : List (Geom.Seg K) :=
  [⟨⟨0, 0⟩, ⟨0, w⟩⟩, ⟨⟨0, w⟩, ⟨h, w⟩⟩, ⟨⟨h, w⟩, ⟨h, 0⟩⟩, ⟨⟨h, 0⟩, ⟨0, 0⟩⟩]

/-- mkinst.cc:88-89, 111-112: a coordinate; `r` and the difference are converted from `double` to `long`. -/
def coord (v : BitVec 64) (radius : K) (extent : Nat) : Outcome (Nat × BitVec 64) :=
  let r : Int := ⌈radius⌉
  if Rand.InL r ∧ Rand.InL (extent - r) then (Rand.integer v r (extent - r)).map fun (z, v) => (toU z, v)
  else .ub

/-- mkinst.cc:87-89, 110-112: a pose; `Nangles-1` is an `unsigned int`. -/
def pose (c : Cfg K) (v : BitVec 64) (radius : K) : Outcome Pose :=
  (Rand.integer v 0 (toU ((c.nangles : Int) - 1))).bind fun (a, v) =>
  (coord v radius c.width).bind fun (x, v) =>
  (coord v radius c.height).map fun (y, _) => ⟨x, y, toU a⟩

/-- mkinst.cc:87-102, 110-124: the poses of segments and their lines, after some rounds.  A new line does not hit the lines before
it nor the bounds. -/
inductive Row (T : Geom.Tol K) (ang : Nat → K × K) (c : Cfg K) : List (K × Pose) → List (Geom.Seg K) → Prop
  | nil : Row T ang c [] []
  | add {ps : List (K × Pose)} {ls : List (Geom.Seg K)} {v : BitVec 64} {radius : K} {p : Pose} {l : Geom.Seg K} :
      Row T ang c ps ls → pose c v radius = .ok p → line ang c.nangles radius p = .ok l →
      (∀ k ∈ ls, k.hits T l = false) → (∀ b ∈ bounds (c.width : K) c.height, b.hits T l = false) →
      Row T ang c (ps ++ [(radius, p)]) (ls ++ [l])

/-- mkinst.cc:85: a radius. -/
def RadiusOf (c : Cfg K) (r : K) : Prop := ∃ u : K, 0 ≤ u ∧ u ≤ 1 ∧ r = u * (c.maxr - c.minr) + c.minr

/-- segments.cc:101-102: an odd number of angles is fatal.  The starts are placed first, then the goals. -/
structure Made (T : Geom.Tol K) (ang : Nat → K × K) (c : Cfg K) (I : FInst K) : Prop where
  even : c.nangles % 2 = 0
  dims : I.width = c.width ∧ I.height = c.height ∧ I.nangles = c.nangles
  num : I.segs.length = c.nsegs
  radius : ∀ g ∈ I.segs, RadiusOf c g.radius
  starts : ∃ ls, Row T ang c (I.segs.map fun g => (g.radius, g.start)) ls
  goals : ∃ ls, Row T ang c (I.segs.map fun g => (g.radius, g.goal)) ls

end Verif.SegmentsFile
