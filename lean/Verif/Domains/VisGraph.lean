import Verif.Utils.Geom2d
import Verif.Search.BestFirst

/-!
# Model of the navigation domain with polygonal obstacles (visnav/)

* Coordinates are elements of an ordered field `K`, as in `Utils/Geom2d`; the tolerances are `T : Tol K`.
* `dist` is `geom2d::Pt::distance`; the theorems about lengths take `K = ℝ` and the Euclidean distance.
* Out-of-range subscripts of `std::vector` are undefined behaviour.
* Reading and writing of files: `Domains/VisFile`; drawing: not modelled.  A graph that is read from a file has an empty `polyno`
  (visgraph.cc:8-17) and whatever vertices and edges are in the file.
-/

namespace Verif.Vis

open Verif.Geom

variable {K : Type} [Field K] [LinearOrder K] [IsStrictOrderedRing K]

/-- A `for` loop over `l` whose body may fail. -/
def foldO {σ α : Type*} (f : σ → α → Outcome σ) : σ → List α → Outcome σ
  | s, [] => .ok s
  | s, a :: l => (f s a).bind fun s => foldO f s l

/-! ## The map -/

/-- polymap.hpp:12-69 -/
structure PMap (K : Type) where
  polys : List (Poly K)
  bound : Option (Poly K)
deriving DecidableEq

/-- polymap.cc:116-117: the box test before the polygon is looked at.  The box of a polygon without vertices is infinite
the wrong way round and is hit by nothing. -/
def boxhit (l : Seg K) (P : Poly K) : Bool :=
  match P.bbox with
  | none => false
  | some b => l.bbox.hits b

/-- polymap.cc:113-126 `PolyMap::isvisible` -/
def PMap.isvisible (T : Tol K) (m : PMap K) (a b : Pt K) : Bool :=
  if m.polys.any fun P => boxhit ⟨a, b⟩ P && P.hits T ⟨a, b⟩ then false
  else match m.bound with
    | none => true
    | some B => B.contains T a && !B.hits T ⟨a, b⟩

/-- polymap.hpp:51-59 `PolyMap::obstructed` -/
def PMap.obstructed (T : Tol K) (m : PMap K) (p : Pt K) : Bool :=
  if (match m.bound with
    | none => false
    | some B => !B.contains T p) then true
  else m.polys.any fun P => P.contains T p

/-- polymap.cc:91, 93: `v < acc`, where `none` is the initial infinite value -/
def lower (acc : Option K) (v : K) : Option K :=
  match acc with
  | none => some v
  | some a => if v < a then some v else some a

/-- polymap.cc:105-106 and 107-108: `if (test > acc) acc = v`, where `none` is the initial value minus infinity -/
def raise (acc : Option K) (test v : K) : Option K :=
  match acc with
  | none => some v
  | some a => if test > a then some v else some a

/-- One iteration of polymap.cc:90-95. -/
def minBox (acc : Option K × Option K) (P : Poly K) : Option K × Option K :=
  match P.bbox with
  | none => acc
  | some b => (lower acc.1 b.min.x, lower acc.2 b.min.y)

/-- One iteration of polymap.cc:104-109; the second test reads `min.y`. -/
def maxBox (acc : Option K × Option K) (P : Poly K) : Option K × Option K :=
  match P.bbox with
  | none => acc
  | some b => (raise acc.1 b.max.x b.max.x, raise acc.2 b.min.y b.max.y)

/-- polymap.cc:85-97 `PolyMap::min`; `none` is plus infinity -/
def PMap.min (m : PMap K) : Option K × Option K :=
  match m.bound with
  | some B => (B.bbox.map (·.min.x), B.bbox.map (·.min.y))
  | none => m.polys.foldl minBox (none, none)

/-- polymap.cc:99-111 `PolyMap::max`; `none` is minus infinity -/
def PMap.max (m : PMap K) : Option K × Option K :=
  match m.bound with
  | some B => (B.bbox.map (·.max.x), B.bbox.map (·.max.y))
  | none => m.polys.foldl maxBox (none, none)

/-! ## The graph -/

/-- visgraph.hpp:40-50 -/
structure VEdge (K : Type) where
  src : Nat
  dst : Nat
  dist : K
deriving DecidableEq

/-- visgraph.hpp:52-62 -/
structure Vert (K : Type) where
  id : Nat
  pt : Pt K
  edges : List (VEdge K)
deriving DecidableEq

/-- visgraph.hpp:64-65, 94 -/
structure VGraph (K : Type) where
  verts : List (Vert K)
  map : PMap K
  polyno : List Nat
deriving DecidableEq

/-- `verts[i].edges.push_back(e)` -/
def Vert.push (e : VEdge K) (v : Vert K) : Vert K := { v with edges := v.edges ++ [e] }

/-- visgraph.cc:201-205 `addedge` -/
def addedge (dist : Pt K → Pt K → K) (g : VGraph K) (i j : Nat) : Outcome (VGraph K) :=
  match g.verts[i]?, g.verts[j]? with
  | some u, some v =>
    let d := dist u.pt v.pt
    .ok { g with verts := (g.verts.modify i (Vert.push ⟨i, j, d⟩)).modify j (Vert.push ⟨j, i, d⟩) }
  | _, _ => .ub

/-- geom2d.hpp:282-285 `along`, for a distance that is the fraction `f` of the length: the angle to `b` and its cosine and
sine cancel.  (For `a = b` the distance is 0.) -/
def along (a b : Pt K) (f : K) : Pt K := ⟨a.x + f * (b.x - a.x), a.y + f * (b.y - a.y)⟩

/-- visgraph.cc:190, 194: whether the point is inside the polygon that vertex `i` belongs to -/
def inown (T : Tol K) (g : VGraph K) (i : Nat) (p : Pt K) : Outcome Bool :=
  match g.polyno[i]? with
  | none => .ok false
  | some k =>
    match g.map.polys[k]? with
    | none => .ub
    | some P => .ok (P.contains T p)

/-- visgraph.cc:185-197, the condition of line 197 -/
def sees (T : Tol K) (g : VGraph K) (i j : Nat) : Outcome Bool :=
  match g.verts[i]?, g.verts[j]? with
  | some u, some v =>
    let p0 := along u.pt v.pt (1 / 1000)
    let p1 := along u.pt v.pt (1 - 1 / 1000)
    (inown T g i p0).bind fun b0 =>
      if b0 then .ok false
      else (inown T g j p1).bind fun b1 =>
        if b1 then .ok false else .ok (g.map.isvisible T p0 p1)
  | _, _ => .ub

/-- visgraph.cc:185-199 `consideredge` -/
def consideredge (T : Tol K) (dist : Pt K → Pt K → K) (g : VGraph K) (ij : Nat × Nat) : Outcome (VGraph K) :=
  (sees T g ij.1 ij.2).bind fun b => if b then addedge dist g ij.1 ij.2 else .ok g

/-- The nested loops of visgraph.cc:169-170 and 179-180: all `i < j < n`. -/
def pairs (n : Nat) : List (Nat × Nat) :=
  (List.range n).flatMap fun i => (List.range' (i + 1) (n - (i + 1))).map fun j => (i, j)

/-- geom2d.hpp:563, geom2d.cc:192-199 `isreflex`: `interangle < π` iff `atan2(b×a, b·a) > 0`, that is iff the cross product is
positive, or zero with a negative dot product (`atan2` is then π; a cross product of minus zero is not considered). -/
def turns (u v w : Pt K) : Bool :=
  let a : Pt K := ⟨v.x - u.x, v.y - u.y⟩
  let b : Pt K := ⟨w.x - v.x, w.y - v.y⟩
  let c := b.x * a.y - a.x * b.y
  decide (0 < c ∨ c = 0 ∧ b.x * a.x + b.y * a.y < 0)

def isreflex (P : Poly K) (i : Nat) : Bool :=
  if h : i < P.verts.length then
    let n := nbrs P.verts i h
    turns n.1 n.2.1 n.2.2
  else false

/-- visgraph.cc:139-143 and 149-153 -/
def reflex (P : Poly K) : List Nat := (List.range P.verts.length).filter (isreflex P)

/-- visgraph.cc:162-165, one iteration -/
def addvert (P : Poly K) (g : VGraph K) (k : Nat) : Outcome (VGraph K) :=
  match P.verts[k]? with
  | none => .ub
  | some pt => .ok { g with verts := g.verts ++ [⟨g.verts.length, pt, []⟩] }

/-- visgraph.cc:171-172, one iteration -/
def linkadj (dist : Pt K → Pt K → K) (n : Nat) (vs : List Nat) (id0 : Nat) (g : VGraph K) (ij : Nat × Nat) :
    Outcome (VGraph K) :=
  match vs[ij.1]?, vs[ij.2]? with
  | some a, some b =>
    if (a + 1) % n = b ∨ (b + 1) % n = a then addedge dist g (id0 + ij.1) (id0 + ij.2) else .ok g
  | _, _ => .ub

/-- visgraph.cc:158-175 `addpoly` -/
def addpoly (dist : Pt K → Pt K → K) (g : VGraph K) (P : Poly K) (vs : List Nat) : Outcome (VGraph K) :=
  (foldO (addvert P) g vs).bind fun g' =>
    foldO (linkadj dist P.verts.length vs g.verts.length) g' (pairs vs.length)

/-- visgraph.cc:138-147, one iteration -/
def popone (dist : Pt K → Pt K → K) (g : VGraph K) (Pi : Poly K × Nat) : Outcome (VGraph K) :=
  (addpoly dist g Pi.1 (reflex Pi.1)).map fun g =>
    { g with polyno := g.polyno ++ List.replicate (reflex Pi.1).length Pi.2 }

/-- visgraph.cc:136-156 `populateverts` -/
def populateverts (dist : Pt K → Pt K → K) (g : VGraph K) : Outcome (VGraph K) :=
  (foldO (popone dist) g g.map.polys.zipIdx).bind fun g =>
    match g.map.bound with
    | none => .ok g
    | some B => addpoly dist g B (reflex B)

/-- visgraph.cc:177-183 `visedges` -/
def visedges (T : Tol K) (dist : Pt K → Pt K → K) (g : VGraph K) : Outcome (VGraph K) :=
  foldO (consideredge T dist) g (pairs g.verts.length)

/-- visgraph.cc:19-21, 131-134: the constructor from a map, `build` -/
def build (T : Tol K) (dist : Pt K → Pt K → K) (m : PMap K) : Outcome (VGraph K) :=
  (populateverts dist ⟨[], m, []⟩).bind (visedges T dist)

/-- visgraph.cc:123-129 `VisGraph::add` -/
def add (T : Tol K) (dist : Pt K → Pt K → K) (g : VGraph K) (p : Pt K) : Outcome (VGraph K × Nat) :=
  let vid := g.verts.length
  (foldO (consideredge T dist) { g with verts := g.verts ++ [⟨vid, p, []⟩] } ((List.range vid).map fun i => (i, vid))).map
    fun g => (g, vid)

/-! ## The domain -/

/-- visnav.hpp:9-20 `Oper`: a pointer to an edge, or null -/
abbrev Oper (K : Type) := Option (VEdge K)

/-- visnav.hpp:12-18 `Oper::operator==` -/
def Oper.eqv (a b : Oper K) : Bool :=
  match a, b with
  | none, none => true
  | some e, some o => decide (o.src = e.src) || decide (o.dst = e.dst)
  | _, _ => false

/-- visnav.cc:8-12: the problem, `start` and `finish` are added to a copy of the graph -/
structure Nav (K : Type) where
  g : VGraph K
  start : Nat
  finish : Nat
  p1 : Pt K

/-- visnav.cc:8-12 `VisNav::VisNav` -/
def mkNav (T : Tol K) (dist : Pt K → Pt K → K) (g : VGraph K) (p0 p1 : Pt K) : Outcome (Nav K) :=
  (add T dist g p0).bind fun r0 => (add T dist r0.1 p1).map fun r1 => ⟨r1.1, r0.2, r1.2, p1⟩

/-- visnav.hpp:62-91: the domain.  States are vertex numbers; a number without vertex has no operators here (in the code it
is undefined; `c86_states` shows that it does not happen for well-formed graphs).  `Edge` of the null operator is undefined
and never asked for. -/
def dom (n : Nav K) : Search.Dom Nat (Oper K) K where
  ops s := match n.g.verts[s]? with
    | none => []
    | some v => v.edges.map some
  app s o := match o with
    | none => s
    | some e => e.dst
  cost _ o := match o with
    | none => 0
    | some e => e.dist
  rev _ o := o
  nop := none
  goal s := decide (s = n.finish)

/-- visnav.hpp:51-56 `h` -/
def hval (dist : Pt K → Pt K → K) (n : Nav K) (s : Nat) : K :=
  match n.g.verts[s]? with
  | none => 0
  | some v => dist v.pt n.p1

/-- visnav.cc:53-59: the loop of `pathcost`, `i` iterations to go -/
def pcLoop (path : List Nat) (ops : List (Oper K)) : Nat → Nat → K → Outcome (Nat × K)
  | 0, s, c => .ok (s, c)
  | i + 1, _, c =>
    match ops[i]?, path[i]? with
    | some (some e), some p => if e.dst = p then pcLoop path ops i e.dst (c + e.dist) else .fatal
    | _, _ => .ub

/-- visnav.cc:49-62 `pathcost` -/
def pathcost (n : Nav K) (path : List Nat) (ops : List (Oper K)) : Outcome K :=
  (pcLoop path ops ops.length n.start 0).bind fun r => if r.1 = n.finish then .ok r.2 else .fatal

/-- visnav.cc:38, 40: the point of a state (in the code of the scaled graph) -/
def drawStep (n : Nav K) (acc : List (Pt K)) (s : Nat) : Outcome (List (Pt K)) :=
  match n.g.verts[s]? with
  | none => .ub
  | some v => .ok (acc ++ [v.pt])

/-- visnav.cc:38-43: the points between which `save` draws lines; `path[0]` of an empty path is undefined. -/
def drawn (n : Nav K) (path : List Nat) : Outcome (List (Pt K)) :=
  match path with
  | [] => .ub
  | s :: ps => foldO (drawStep n) [] (s :: ps)

/-- visgraph.cc:107-114: the second loop of `scale`; the first one has already moved the points -/
def redist (dist : Pt K → Pt K → K) (verts : List (Vert K)) : Outcome (List (Vert K)) :=
  foldO (fun acc v => (foldO (fun es e => match verts[e.dst]? with
      | none => .ub
      | some w => .ok (es ++ [{ e with dist := dist v.pt w.pt }])) [] v.edges).map fun es => acc ++ [{ v with edges := es }])
    [] verts

/-- polymap.cc:71-83 on all polygons -/
def mapPolys (f : Poly K → Outcome (Poly K)) (m : PMap K) : Outcome (PMap K) :=
  (foldO (fun acc P => (f P).map fun P => acc ++ [P]) [] m.polys).bind fun ps =>
    match m.bound with
    | none => .ok ⟨ps, none⟩
    | some B => (f B).map fun B => ⟨ps, some B⟩

/-- visgraph.cc:102-115 `VisGraph::scale` -/
def scale (dist : Pt K → Pt K → K) (sx sy : K) (g : VGraph K) : Outcome (VGraph K) :=
  (mapPolys (Poly.scale sx sy) g.map).bind fun m =>
    (redist dist (g.verts.map fun v => { v with pt := v.pt.scale sx sy })).map fun vs => ⟨vs, m, g.polyno⟩

/-- visgraph.cc:117-121 `VisGraph::translate` -/
def translate (dx dy : K) (g : VGraph K) : Outcome (VGraph K) :=
  (mapPolys (Poly.translate dx dy) g.map).map fun m =>
    ⟨g.verts.map fun v => { v with pt := v.pt.translate dx dy }, m, g.polyno⟩

end Verif.Vis
