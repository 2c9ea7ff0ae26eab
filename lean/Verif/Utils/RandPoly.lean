import Verif.Utils.Geom2dMake
import Verif.Utils.Rand
import Verif.Utils.Str

/-!
# Model of random polygons (`Poly::random`, utils/geom2d.cc) and of the generator of random maps (visnav/rand.cc)

* Geometry as in `Utils/Geom2d`: exact arithmetic in an ordered field.  The values of `real()` are given, between 0 and 1.
* `std::sort` with `cmpx` may leave points of the same x coordinate in any order.
* The loop of `randpolys` is the relation `Placed`: only the accepted polygons matter, every try makes a new one.
-/

namespace Verif.RandPoly

open Verif.Geom Verif.Str

variable {K : Type} [Field K] [LinearOrder K] [IsStrictOrderedRing K]

/-! ## `Poly::random` -/

/-- geom2d.hpp:253-255 `Line::isabove`.  With an infinite slope `m * p.x + b` is `∞`, `-∞` or not a number. -/
def isabove (l : Line K) (p : Pt K) : Bool :=
  match l.m with
  | some m => decide (m * p.x + l.b < p.y)
  | none => decide (p.x < 0)

/-- geom2d.cc:227-231: the points. -/
def points (c : Pt K) (r : K) (us : List (K × K)) : List (Pt K) :=
  us.map fun u => ⟨2 * r * u.1 - r + c.x, 2 * r * u.2 - r + c.y⟩

/-- geom2d.cc:233, 236-238: what `std::sort` may make of them. -/
def SortedX (raw sorted : List (Pt K)) : Prop := sorted.Perm raw ∧ sorted.Pairwise fun a b => a.x ≤ b.x

/-- geom2d.cc:69-75: the inner points above the line and the other ones, after `prev`. -/
def split (l : Line K) : Pt K → List (Pt K) → Outcome (List (Pt K) × List (Pt K))
  | _, [] => .ok ([], [])
  | prev, p :: ps =>
    if p.x > prev.x then
      (split l p ps).map fun ur => if isabove l p then (p :: ur.1, ur.2) else (ur.1, p :: ur.2)
    else .fatal

/-- geom2d.cc:79-83: the points of `rev` from the back, after the vertex `v`. -/
def backward : Pt K → List (Pt K) → Outcome (List (Pt K))
  | _, [] => .ok []
  | v, p :: r => if p.x < v.x then (backward p r).map (p :: ·) else .fatal

/-- geom2d.cc:65-83: the vertices. -/
def arrange (T : Tol K) (a : Pt K) (ms : List (Pt K)) (b : Pt K) : Outcome (List (Pt K)) :=
  (split (Line.mk2 T a b) a ms).bind fun ur => (backward b ur.2.reverse).map fun r => a :: ur.1 ++ b :: r

/-- geom2d.cc:58-86 `Poly::random`, from the sorted points on. -/
def random (T : Tol K) : List (Pt K) → Outcome (Poly K)
  | [] => .fatal
  | a :: rest =>
    match rest.getLast? with
    | none => .fatal
    | some b => if rest.length < 2 then .fatal else (arrange T a rest.dropLast b).bind Poly.ofVerts

/-! ## visnav/rand.cc -/

/-- The options that matter (rand.cc:13-16). -/
structure Cfg (K : Type) where
  maxverts : Nat
  minrad : K
  maxrad : K

/-- rand.cc:88-91 `rnddbl`. -/
def rnddbl (u lo hi : K) : Outcome K := if hi > lo then .ok (u * (hi - lo) + lo) else .fatal

/-- rand.cc:69-77: a try that gives the polygon `P`. -/
inductive Made (T : Tol K) (o : Cfg K) (P : Poly K) : Prop
  | mk {ur ux uy r x y : K} {v v' : BitVec 64} {n : Int} {us : List (K × K)} {sorted : List (Pt K)} :
      (0 ≤ ur ∧ ur ≤ 1) → (0 ≤ ux ∧ ux ≤ 1) → (0 ≤ uy ∧ uy ≤ 1) → rnddbl ur o.minrad o.maxrad = .ok r →
      rnddbl ux r (1 - r) = .ok x → rnddbl uy r (1 - r) = .ok y → 0 ≤ x → 0 ≤ y → 0 ≤ r →
      Rand.integer v 3 o.maxverts = .ok (n, v') → (us.length : Int) = n → (∀ u ∈ us, (0 ≤ u.1 ∧ u.1 ≤ 1) ∧ 0 ≤ u.2 ∧ u.2 ≤ 1) →
      SortedX (points ⟨x, y⟩ r us) sorted → random T sorted = .ok P → Made T o P

/-- rand.cc:80: `polys[i].bbox.hits(p.bbox)`; a polygon without vertices has a box that hits nothing. -/
def boxesHit (P Q : Poly K) : Bool :=
  match P.bbox, Q.bbox with
  | some a, some b => a.hits b
  | _, _ => false

/-- rand.cc:66-86 `randpolys`: the polygons after some rounds. -/
inductive Placed (T : Tol K) (o : Cfg K) : List (Poly K) → Prop
  | nil : Placed T o []
  | add {ps : List (Poly K)} {P : Poly K} : Placed T o ps → Made T o P → (∀ Q ∈ ps, boxesHit Q P = false) → Placed T o (ps ++ [P])

/-- rand.cc:52-60: what is printed, and the name and contents of the file that is made. -/
def output (outfile : Option Str) (map : Str) : Str × Option (Str × Str) :=
  match outfile with
  | some f => (map, some (f, []))
  | none => (map, none)

end Verif.RandPoly
