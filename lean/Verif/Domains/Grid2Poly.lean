import Verif.Domains.Contour
import Verif.Domains.VisGraph
import Verif.Structs.Djset

/-!
# Model of the polygon map made from a bitmap (visnav/grid2poly.cc)

* `unsigned int` arithmetic wraps at `2 ^ 32` where the code may leave the range (`dec`, `inc`).  The subscripts `x * h + y`
  do not: the constructor has tested that `w * h` is representable.
* The bitmap is a function of the subscript; the caller has to supply `w * h` values.
* A `Djset` of the array `forest` is its subscript; the memory is the one of `Structs/Djset`.
* `Comp::minx` and `Comp::miny` are not initialised by the constructor; `add` sets them before anything reads them, since
  it looks at `n` first.  Here they are 0 before that.
* `Comp::toggle` is never called and left out.
* The loop of `Comp::poly` takes fuel: it need not end.
-/

namespace Verif.Grid2Poly

open Verif.Geom Verif.Contour

variable {K : Type} [Field K] [LinearOrder K] [IsStrictOrderedRing K]

/-- `x + 1` of an `unsigned int` -/
def inc (x : Nat) : Nat := (x + 1) % 2 ^ 32

/-- `x - 1` of an `unsigned int` -/
def dec (x : Nat) : Nat := (x + (2 ^ 32 - 1)) % 2 ^ 32

/-- grid2poly.cc:62-70 -/
structure Pose where
  x : Nat
  y : Nat
  dir : Dir
deriving DecidableEq

/-- grid2poly.cc:9, 136-139 -/
structure Comp where
  minx : Nat
  miny : Nat
  w : Nat
  h : Nat
  n : Nat
  blkd : Nat → Bool

/-- grid2poly.cc:10-11 -/
def Comp.new (w h : Nat) : Comp := ⟨0, 0, w, h, 0, fun _ => false⟩

/-- grid2poly.cc:13-22 `Comp::add` -/
def Comp.add (c : Comp) (x y : Nat) : Comp :=
  let c := if c.n = 0 ∨ x < c.minx then { c with minx := x, miny := y } else c
  let c := { c with n := c.n + 1 }
  let c := if x = c.minx ∧ y < c.miny then { c with miny := y } else c
  { c with blkd := fun i => if i = x * c.h + y then true else c.blkd i }

/-- grid2poly.cc:132-134 `Comp::blocked` -/
def Comp.blocked (c : Comp) (x y : Nat) : Bool := decide (x < c.w) && decide (y < c.h) && c.blkd (x * c.h + y)

/-- grid2poly.cc:72-103 `Comp::clockwise` -/
def Comp.clockwise (c : Comp) (cur : Pose) : Pose :=
  match cur.dir with
  | .up =>
    if c.blocked (dec cur.x) (inc cur.y) then ⟨dec cur.x, inc cur.y, .left⟩
    else if c.blocked cur.x (inc cur.y) then ⟨cur.x, inc cur.y, .up⟩
    else ⟨cur.x, cur.y, .right⟩
  | .down =>
    if c.blocked (inc cur.x) (dec cur.y) then ⟨inc cur.x, dec cur.y, .right⟩
    else if c.blocked cur.x (dec cur.y) then ⟨cur.x, dec cur.y, .down⟩
    else ⟨cur.x, cur.y, .left⟩
  | .left =>
    if c.blocked (dec cur.x) (dec cur.y) then ⟨dec cur.x, dec cur.y, .down⟩
    else if c.blocked (dec cur.x) cur.y then ⟨dec cur.x, cur.y, .left⟩
    else ⟨cur.x, cur.y, .up⟩
  | .right =>
    if c.blocked (inc cur.x) (inc cur.y) then ⟨inc cur.x, inc cur.y, .up⟩
    else if c.blocked (inc cur.x) cur.y then ⟨inc cur.x, cur.y, .right⟩
    else ⟨cur.x, cur.y, .down⟩

/-- grid2poly.cc:39-55: the vertex at the end of the edge -/
def corner (K : Type) [Field K] (cur : Pose) : Pt K :=
  match cur.dir with
  | .up => ⟨(cur.x : K), (inc cur.y : K)⟩
  | .down => ⟨(inc cur.x : K), (cur.y : K)⟩
  | .right => ⟨(inc cur.x : K), (inc cur.y : K)⟩
  | .left => ⟨(cur.x : K), (cur.y : K)⟩

/-- grid2poly.cc:29-57: the loop of `Comp::poly` -/
def Comp.trace (K : Type) [Field K] (c : Comp) : Nat → Pose → List (Pt K) → Outcome (List (Pt K))
  | 0, _, _ => .nofuel
  | f + 1, cur, pts =>
    let next := c.clockwise cur
    if cur.dir = next.dir then c.trace K f next pts
    else if next.x = c.minx ∧ next.y = c.miny ∧ next.dir = .up then .ok pts
    else c.trace K f next (pts ++ [corner K cur])

/-- grid2poly.cc:24-60 `Comp::poly` -/
def Comp.poly (K : Type) [Field K] [LinearOrder K] [IsStrictOrderedRing K] (f : Nat) (c : Comp) : Outcome (Poly K) :=
  (c.trace K f ⟨c.minx, c.miny, .up⟩ [⟨(c.minx : K), (c.miny : K)⟩]).bind Poly.ofVerts

/-- grid2poly.cc:112-113: the first of the `k` numbers from `x` on that satisfies `p`, or the one behind -/
def scanUp (p : Nat → Bool) : Nat → Nat → Nat
  | 0, x => x
  | k + 1, x => if p x then x else scanUp p k (x + 1)

/-- grid2poly.cc:114-117: down from `x` while above `lo` and `p` holds -/
def scanDown (p : Nat → Bool) (lo : Nat) : Nat → Nat
  | 0 => 0
  | x + 1 => if x + 1 > lo ∧ p (x + 1) = true then scanDown p lo x else x + 1

/-- grid2poly.cc:110-123: the rows from `y` on, of which there are `k` -/
def Comp.invertRows (c : Comp) : Nat → Nat → Comp
  | 0, _ => c
  | k + 1, y =>
    let startx := scanUp (fun x => c.blocked x y) (c.w - c.minx) c.minx
    let endx := scanDown (fun x => !c.blocked x y) startx (c.w - 1)
    let x := scanDown (fun x => c.blocked x y) startx endx
    if x = startx then c.invertRows k (y + 1)
    else { c with minx := inc x, miny := y }

/-- grid2poly.cc:109-124 `Comp::invert` -/
def Comp.invert (c : Comp) : Comp := c.invertRows (c.h - c.miny) c.miny

/-- grid2poly.cc:148-149, 168-169: the order in which the cells are visited -/
def cells (w h : Nat) : List (Nat × Nat) := (List.range w).flatMap fun x => (List.range h).map fun y => (x, y)

/-- The two cells that are joined, if the second one is blocked. -/
def joinIf (f : Nat) (blkd : Nat → Bool) (c : Bool) (i j : Nat) (m : Djset.Mem Nat) : Outcome (Djset.Mem Nat) :=
  if c && blkd j then Djset.join f m i j else .ok m

/-- grid2poly.cc:150-163: the body of the first loop -/
def joinCell (f : Nat) (blkd : Nat → Bool) (w h : Nat) (m : Djset.Mem Nat) (c : Nat × Nat) : Outcome (Djset.Mem Nat) :=
  let x := c.1
  let y := c.2
  if !blkd (x * h + y) then .ok m
  else
    (joinIf f blkd (decide (x < w - 1)) (x * h + y) ((x + 1) * h + y) m).bind fun m =>
    (joinIf f blkd (decide (y < h - 1)) (x * h + y) (x * h + y + 1) m).bind fun m =>
    (joinIf f blkd (decide (y < h - 1) && decide (x > 0)) (x * h + y) ((x - 1) * h + y + 1) m).bind fun m =>
    joinIf f blkd (decide (y < h - 1) && decide (x < w - 1)) (x * h + y) ((x + 1) * h + y + 1) m

/-- The state of the second loop: the parents in the forest, the numbers in `aux` and the components so far. -/
structure Coll where
  par : Nat → Nat
  aux : Nat → Nat
  cs : List Comp

/-- grid2poly.cc:177: `cs[i - 1].add(x, y)`; a subscript that is out of range is undefined behaviour. -/
def addTo (cs : List Comp) (i x y : Nat) : Outcome (List Comp) :=
  if i = 0 then .ub
  else match cs[i - 1]? with
    | none => .ub
    | some c => .ok (cs.set (i - 1) (c.add x y))

/-- grid2poly.cc:170-177: the body of the second loop -/
def collCell (f : Nat) (blkd : Nat → Bool) (w h : Nat) (s : Coll) (c : Nat × Nat) : Outcome Coll :=
  let x := c.1
  let y := c.2
  if !blkd (x * h + y) then .ok s
  else
    (Djset.find f s.par (x * h + y)).bind fun r =>
      let s := { s with par := r.2 }
      let s := if s.aux r.1 = 0 then
          { s with cs := s.cs ++ [Comp.new w h], aux := Function.update s.aux r.1 (s.cs.length + 1) }
        else s
      (addTo s.cs (s.aux r.1) x y).map fun cs => { s with cs := cs }

/-- grid2poly.cc:167-179: the components -/
def comps (f : Nat) (blkd : Nat → Bool) (w h : Nat) : Outcome (List Comp) :=
  (Vis.foldO (joinCell f blkd w h) Djset.init (cells w h)).bind fun m =>
    (Vis.foldO (collCell f blkd w h) ⟨m.par, fun _ => 0, []⟩ (cells w h)).map Coll.cs

/-- grid2poly.cc:187-188 -/
def polys (K : Type) [Field K] [LinearOrder K] [IsStrictOrderedRing K] (f : Nat) : List Comp → Outcome (List (Poly K))
  | [] => .ok []
  | c :: cs => (c.poly K f).bind fun P => (polys K f cs).map fun Ps => P :: Ps

/-- grid2poly.cc:142-189 `PolyMap::PolyMap(const bool[], unsigned int, unsigned int)`.  With `h = 0` the test of the
dimensions divides by zero. -/
def polyMap (K : Type) [Field K] [LinearOrder K] [IsStrictOrderedRing K] (f : Nat) (blkd : Nat → Bool) (w h : Nat) :
    Outcome (Vis.PMap K) :=
  if h = 0 then .ub
  else if (2 ^ 32 - 1) / h < w then .fatal
  else
    (comps f blkd w h).bind fun cs =>
      match cs with
      | [] => .fatal
      | c :: cs =>
        (c.invert.poly K f).bind fun B =>
          (polys K f cs).map fun Ps => ⟨Ps, some B⟩

end Verif.Grid2Poly
