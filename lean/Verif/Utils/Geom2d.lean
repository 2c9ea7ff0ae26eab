import Verif.Outcome
import Mathlib.Algebra.Order.Field.Basic
import Mathlib.Algebra.Order.Ring.Abs
import Mathlib.Tactic.Linarith
import Mathlib.Tactic.Ring
import Mathlib.Tactic.FieldSimp
import Mathlib.Tactic.LinearCombination
import Mathlib.Tactic.Positivity

/-!
# Model of the plane geometry (utils/geom2d.hpp, utils/geom2d.cc)

* `double` values are elements of an ordered field `K`: no rounding, no overflow, no NaN.
* `Epsilon` and `Threshold` (geom2d.hpp:14,20) are the fields of `Tol`; what the theorems need of them is
  `0 < ε ≤ θ` (for `double`: 2^-52 and 2^-26).
* An infinite slope is `none`, and so is the point `Pt::inf()` that stands for "no intersection".
* Angles are not modelled: `Arc`, `angle`, `along`, `rotate`, `giftwrap` and `triangle` are left out (`random` is in `Utils/RandPoly`).  The test
  of `removecolinear` (`interangle` within `Epsilon` of π) is replaced by its exact meaning, see `straight`.
* `verts[verts.size() - 1]` of an empty vector is undefined behaviour.
-/

namespace Verif.Geom

variable {K : Type} [Field K] [LinearOrder K] [IsStrictOrderedRing K]

/-- geom2d.hpp:14,20 `Epsilon`, `Threshold` -/
structure Tol (K : Type) [Field K] [LinearOrder K] [IsStrictOrderedRing K] where
  eps : K
  th : K
  eps_pos : 0 < eps
  eps_le : eps ≤ th
  th_le : th ≤ 1

theorem Tol.th_pos (T : Tol K) : 0 < T.th := T.eps_pos.trans_le T.eps_le

/-- geom2d.hpp:25-27 `doubleeq` of finite numbers -/
def deq (T : Tol K) (a b : K) : Bool := decide (|a - b| < T.th)

/-- geom2d.hpp:25-27 `doubleeq` of slopes: a finite number differs from an infinite one, two infinite ones are equal -/
def deqm (T : Tol K) : Option K → Option K → Bool
  | some a, some b => deq T a b
  | none, none => true
  | _, _ => false

/-- geom2d.hpp:37-39 `between` -/
def between (T : Tol K) (min max x : K) : Bool := decide (min - T.th ≤ x ∧ x ≤ max + T.th)

/-- geom2d.hpp:42-131 -/
structure Pt (K : Type) where
  x : K
  y : K
deriving DecidableEq

/-- geom2d.hpp:83-85 `operator==` -/
def Pt.eq (T : Tol K) (p q : Pt K) : Bool := deq T p.x q.x && deq T p.y q.y

/-- geom2d.hpp:133-210 -/
structure Bbox (K : Type) where
  min : Pt K
  max : Pt K
deriving DecidableEq

/-- geom2d.hpp:136-143, 198-209: the constructors from two corners, `normalize` -/
def Bbox.mk2 (p q : Pt K) : Bbox K :=
  let x := if p.x > q.x then (q.x, p.x) else (p.x, q.x)
  let y := if p.y > q.y then (q.y, p.y) else (p.y, q.y)
  ⟨⟨x.1, y.1⟩, ⟨x.2, y.2⟩⟩

/-- One iteration of geom2d.hpp:151-161, once the box is finite. -/
def Bbox.grow (b : Bbox K) (p : Pt K) : Bbox K :=
  ⟨⟨if p.x < b.min.x then p.x else b.min.x, if p.y < b.min.y then p.y else b.min.y⟩,
   ⟨if p.x > b.max.x then p.x else b.max.x, if p.y > b.max.y then p.y else b.max.y⟩⟩

/-- geom2d.hpp:147-162: the box of a set of points.  The first point replaces the infinite initial values; `none` is the
box that stays infinite when there is no point. -/
def Bbox.ofPts : List (Pt K) → Option (Bbox K)
  | [] => none
  | p :: ps => some (ps.foldl Bbox.grow ⟨p, p⟩)

/-- geom2d.hpp:170-172 `Bbox::contains` -/
def Bbox.contains (T : Tol K) (b : Bbox K) (p : Pt K) : Bool :=
  between T b.min.x b.max.x p.x && between T b.min.y b.max.y p.y

/-- geom2d.hpp:175-178 `Bbox::hits` -/
def Bbox.hits (a b : Bbox K) : Bool :=
  !(decide (a.min.x > b.max.x) || decide (b.min.x > a.max.x) || decide (a.min.y > b.max.y) || decide (b.min.y > a.max.y))

/-- geom2d.hpp:213-259; `m = none` is the infinite slope, then `b` is the x coordinate -/
structure Line (K : Type) where
  m : Option K
  b : K
deriving DecidableEq

/-- geom2d.hpp:217-227 `Line::Line` -/
def Line.mk2 (T : Tol K) (p0 p1 : Pt K) : Line K :=
  let dx := p1.x - p0.x
  let dy := p1.y - p0.y
  if |dx| < T.eps then ⟨none, p1.x⟩ else ⟨some (dy / dx), p0.y - dy / dx * p0.x⟩

/-- geom2d.hpp:231-241 `Line::isect` -/
def Line.isect (T : Tol K) (l o : Line K) : Option (Pt K) :=
  if deqm T l.m o.m then none
  else match l.m, o.m with
    | some m, none => some ⟨o.b, m * o.b + l.b⟩
    | none, some om => some ⟨l.b, om * l.b + o.b⟩
    | some m, some om =>
      let x := (o.b - l.b) / (m - om)
      some ⟨x, m * x + l.b⟩
    | none, none => none

/-- geom2d.hpp:245-250 `Line::contains` -/
def Line.contains (T : Tol K) (l : Line K) (p : Pt K) : Bool :=
  match l.m with
  | none => deq T p.x l.b
  | some m => deq T p.y (p.x * m + l.b)

/-- geom2d.hpp:261-353; the members `m`, `b` and `bbox` are functions of the end points -/
structure Seg (K : Type) where
  p0 : Pt K
  p1 : Pt K
deriving DecidableEq

/-- The base class of a `LineSg` (geom2d.hpp:264-265). -/
def Seg.line (T : Tol K) (s : Seg K) : Line K := Line.mk2 T s.p0 s.p1

/-- The bounding box of a `LineSg` (geom2d.hpp:265). -/
def Seg.bbox (s : Seg K) : Bbox K := Bbox.mk2 s.p0 s.p1

/-- geom2d.hpp:289-293 `LineSg::within` -/
def Seg.within (T : Tol K) (s : Seg K) (p : Pt K) : Bool :=
  if s.bbox.max.x - s.bbox.min.x > s.bbox.max.y - s.bbox.min.y then between T s.bbox.min.x s.bbox.max.x p.x
  else between T s.bbox.min.y s.bbox.max.y p.y

/-- geom2d.hpp:347-349 `LineSg::isvertical` -/
def Seg.vert (T : Tol K) (s : Seg K) : Bool := deq T s.p0.x s.p1.x

/-- `m * x + b`; with an infinite slope the result is not a number the code could go on with (`Seg.at_some` shows that
this does not happen). -/
def Line.at (l : Line K) (x : K) : Option K := l.m.map fun m => m * x + l.b

/-- geom2d.hpp:306-310 and 315-319: which end point of `o` is within `s` -/
def Seg.pick (T : Tol K) (s o : Seg K) : Option (Pt K) :=
  if s.within T o.p0 then some o.p0 else if s.within T o.p1 then some o.p1 else none

/-- geom2d.hpp:302-335 `LineSg::isect` -/
def Seg.isect (T : Tol K) (s o : Seg K) : Option (Pt K) :=
  if s.vert T && o.vert T then
    if !deq T s.p0.x o.p0.x then none else s.pick T o
  else if deqm T (s.line T).m (o.line T).m then
    if !(s.line T).contains T o.p0 && !(s.line T).contains T o.p1 then none else s.pick T o
  else
    let p :=
      if o.vert T then ((s.line T).at o.p0.x).map fun y => (⟨o.p0.x, y⟩ : Pt K)
      else if s.vert T then ((o.line T).at s.p0.x).map fun y => (⟨s.p0.x, y⟩ : Pt K)
      else (s.line T).isect T (o.line T)
    p.bind fun p => if s.within T p && o.within T p then some p else none

/-- geom2d.hpp:338-344 `LineSg::hits` -/
def Seg.hits (T : Tol K) (s o : Seg K) : Bool :=
  if deqm T (s.line T).m (some 0) || deqm T (o.line T).m (some 0) || s.vert T || o.vert T then (s.isect T o).isSome
  else s.bbox.hits o.bbox && (s.isect T o).isSome

/-- geom2d.hpp:362-374 `QuadEq::solutions`; `sqrt` is a parameter. -/
def solutions (sqrt : K → K) (a b c : K) : List K :=
  let d := b * b - 4 * a * c
  if d < 0 then []
  else if d = 0 then [-b / (2 * a)]
  else [(-b + sqrt d) / (2 * a), (-b - sqrt d) / (2 * a)]

/-! ## Polygons -/

/-- geom2d.hpp:480-573 -/
structure Poly (K : Type) where
  verts : List (Pt K)
  sides : List (Seg K)
  bbox : Option (Bbox K)
deriving DecidableEq

/-- geom2d.cc:192-199, 203: the test of `removecolinear`.  `atan2(b×a, b·a)` is the angle between the directions of the
two sides at the vertex; it is (within `Epsilon` of) zero iff the cross product is zero and the dot product is not
negative; `atan2(0, 0)` is zero as well.  The tolerance is left out. -/
def straight (u v w : Pt K) : Bool :=
  let a : Pt K := ⟨v.x - u.x, v.y - u.y⟩
  let b : Pt K := ⟨w.x - v.x, w.y - v.y⟩
  decide (b.x * a.y - a.x * b.y = 0 ∧ 0 ≤ b.x * a.x + b.y * a.y)

/-- geom2d.cc:193-195: the vertex with its two neighbours -/
def nbrs (vs : List (Pt K)) (i : Nat) (h : i < vs.length) : Pt K × Pt K × Pt K :=
  (if i = 0 then vs[vs.length - 1] else vs[i - 1],
   vs[i],
   if h' : i = vs.length - 1 then vs[0] else vs[i + 1])

/-- geom2d.cc:201-208 `removecolinear`, from index `i` on -/
def rmcol (vs : List (Pt K)) (i : Nat) : List (Pt K) :=
  if h : i < vs.length then
    let n := nbrs vs i h
    if straight n.1 n.2.1 n.2.2 then rmcol (vs.eraseIdx i) i else rmcol vs (i + 1)
  else vs
termination_by vs.length - i
decreasing_by
  · rw [List.length_eraseIdx_of_lt h]; omega
  · omega

/-- geom2d.cc:212-213 -/
def chain : List (Pt K) → List (Seg K)
  | a :: b :: r => ⟨a, b⟩ :: chain (b :: r)
  | _ => []

/-- geom2d.cc:210-215 `initsides` -/
def initsides (vs : List (Pt K)) : Outcome (List (Seg K)) :=
  if h : vs = [] then .ub
  else .ok (chain vs ++ [⟨vs.getLast h, vs.head h⟩])

/-- geom2d.cc:32-34, 54-56: the common part of the constructors -/
def Poly.make (vs : List (Pt K)) : Outcome (Poly K) :=
  let ws := rmcol vs 0
  (initsides ws).map fun ss => ⟨ws, ss, Bbox.ofPts vs⟩

/-- geom2d.cc:16-21 `Poly::Poly(const std::vector<Pt>&)` -/
def Poly.ofVerts (vs : List (Pt K)) : Outcome (Poly K) :=
  if vs.length < 3 then .fatal else Poly.make vs

/-- geom2d.cc:144-159: whether a side flips `even`. -/
def crosses (T : Tol K) (pt : Pt K) (s : Seg K) : Bool :=
  if s.bbox.max.x < pt.x ∨ s.bbox.max.y < pt.y ∨ s.bbox.min.y > pt.y then false
  else match (Line.mk2 T pt ⟨pt.x + 1, pt.y⟩).isect T (s.line T) with
    | none => false
    | some hit =>
      if hit.x ≤ pt.x ∨ s.within T hit = false then false
      else if s.p0.eq T hit ∧ s.p1.y ≥ hit.y then false
      else if s.p1.eq T hit ∧ s.p0.y ≥ hit.y then false
      else true

/-- One iteration of geom2d.cc:144-159 on `(even, isect)`. -/
def containsStep (T : Tol K) (pt : Pt K) (st : Bool × Bool) (s : Seg K) : Bool × Bool :=
  if crosses T pt s then (!st.1, true) else st

/-- geom2d.cc:140-162 `Poly::contains` -/
def Poly.contains (T : Tol K) (P : Poly K) (pt : Pt K) : Bool :=
  let st := P.sides.foldl (containsStep T pt) (true, false)
  st.2 && !st.1

/-- geom2d.hpp:513-522 `Poly::hits(const LineSg&)`; the box of a polygon without vertices is infinite the wrong way round
and is hit by nothing. -/
def Poly.hits (T : Tol K) (P : Poly K) (l : Seg K) : Bool :=
  match P.bbox with
  | none => false
  | some b => if !b.hits l.bbox then false else P.sides.any fun s => l.hits T s

/-- geom2d.cc:164-174 `Poly::isects` -/
def Poly.isects (T : Tol K) (P : Poly K) (l : Seg K) : List (Pt K) := P.sides.filterMap fun s => l.isect T s

/-- The square of `Pt::distance` (geom2d.hpp:52-55). -/
def dist2 (p q : Pt K) : K := (q.x - p.x) * (q.x - p.x) + (q.y - p.y) * (q.y - p.y)

/-- One iteration of geom2d.cc:180-187; distances are compared by their squares. -/
def minStep (T : Tol K) (l : Seg K) (best : Option (Pt K)) (s : Seg K) : Option (Pt K) :=
  match l.isect T s, best with
  | none, b => b
  | some p, none => some p
  | some p, some q => if dist2 p l.p0 < dist2 q l.p0 then some p else some q

/-- geom2d.cc:176-190 `Poly::minisect` -/
def Poly.minisect (T : Tol K) (P : Poly K) (l : Seg K) : Option (Pt K) := P.sides.foldl (minStep T l) none

/-- geom2d.hpp:111-114, 117-120 -/
def Pt.scale (sx sy : K) (p : Pt K) : Pt K := ⟨p.x * sx, p.y * sy⟩
def Pt.translate (dx dy : K) (p : Pt K) : Pt K := ⟨p.x + dx, p.y + dy⟩

/-- geom2d.hpp:547-552 `Poly::scale` -/
def Poly.scale (sx sy : K) (P : Poly K) : Outcome (Poly K) :=
  let vs := P.verts.map (Pt.scale sx sy)
  (initsides vs).map fun ss => ⟨vs, ss, Bbox.ofPts vs⟩

/-- geom2d.hpp:556-561 `Poly::translate` -/
def Poly.translate (dx dy : K) (P : Poly K) : Outcome (Poly K) :=
  let vs := P.verts.map (Pt.translate dx dy)
  (initsides vs).map fun ss =>
    ⟨vs, ss, P.bbox.map fun b => ⟨b.min.translate dx dy, b.max.translate dx dy⟩⟩

/-! ## Specification -/

/-- The point `q` lies on the closed segment from `a` to `b`. -/
def OnSeg (a b q : Pt K) : Prop :=
  ∃ t : K, 0 ≤ t ∧ t ≤ 1 ∧ q.x = a.x + t * (b.x - a.x) ∧ q.y = a.y + t * (b.y - a.y)

/-- The two segments have a point in common. -/
def Meet (s o : Seg K) : Prop := ∃ q, OnSeg s.p0 s.p1 q ∧ OnSeg o.p0 o.p1 q

/-- The rightward ray from `p` crosses the side from `a` to `b`: the end points lie on different sides of the horizontal
through `p` (one at it or above, one below) and the side crosses it strictly to the right of `p`. -/
def RayX (p a b : Pt K) : Prop :=
  ((p.y ≤ a.y ∧ b.y < p.y) ∨ (p.y ≤ b.y ∧ a.y < p.y)) ∧
    ∃ q, OnSeg a b q ∧ q.y = p.y ∧ p.x < q.x

end Verif.Geom
