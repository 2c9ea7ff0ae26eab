import Verif.Utils.Geom2d
import Mathlib.Data.Rat.Floor
import Mathlib.Algebra.Order.Field.Rat

/-!
# Model of the platform game (plat2d/)

Lengths are in pixels, y grows downwards.

* `double` values are rational numbers: no rounding.  All constants of the game are rational (`0.7`, the drag in water,
  is exactly 7/10 here).
* Converting a `double` to `unsigned int` cuts off the fraction; outside of the range of the type it is undefined
  behaviour (`toUns`).
* Reading `blks` beyond its end is undefined behaviour.  `ind(x, y)` and `x * Width` are `unsigned int` computations: the
  model does not wrap them round, so it is meant for levels of fewer than 2^32 pixels.
* The visibility graph behind the heuristic (`initvg`) is not modelled here, only its first case (`near`).
-/

namespace Verif.Plat

open Verif.Geom

/-- body.hpp:9-21 `Line1d::isect`, of the line from `a` to `b` with the one from `oa` to `ob` -/
def line1 (T : Tol ℚ) (a b oa ob : ℚ) : ℚ :=
  if between T oa ob b then b - oa else if between T a b ob then ob - a else -1

/-- body.hpp:23-34 -/
structure Isect where
  is : Bool
  dx : ℚ
  dy : ℚ
deriving DecidableEq

/-- body.hpp:24 -/
def Isect.none : Isect := ⟨false, 0, 0⟩

/-- body.hpp:43-51 `Bbox::isect` -/
def bisect (T : Tol ℚ) (a o : Bbox ℚ) : Isect :=
  let ix := line1 T a.min.x a.max.x o.min.x o.max.x
  if ix > 0 then
    let iy := line1 T a.min.y a.max.y o.min.y o.max.y
    if iy > 0 then ⟨true, ix, iy⟩ else .none
  else .none

/-- geom2d.hpp:182-185 `Bbox::translate` -/
def shift (b : Bbox ℚ) (dx dy : ℚ) : Bbox ℚ := ⟨⟨b.min.x + dx, b.min.y + dy⟩, ⟨b.max.x + dx, b.max.y + dy⟩⟩

/-- geom2d.hpp:188-192 `Bbox::center` -/
def center (b : Bbox ℚ) : Pt ℚ := ⟨b.min.x + (b.max.x - b.min.x) / 2, b.min.y + (b.max.y - b.min.y) / 2⟩

/-- tile.hpp:9-53: the flags of a tile -/
structure Tile where
  collide : Bool
  water : Bool
  down : Bool
  up : Bool
deriving DecidableEq

/-- tile.cc:25-33: the table of tiles.  A code without a tile is `none`. -/
def tileOf (c : Nat) : Option Tile :=
  if c = 32 then some ⟨false, false, false, false⟩        -- ' '
  else if c = 35 then some ⟨true, false, false, false⟩    -- '#'
  else if c = 119 then some ⟨false, true, false, false⟩   -- 'w'
  else if c = 100 then some ⟨false, false, true, false⟩   -- 'd'
  else if c = 68 then some ⟨false, true, true, false⟩     -- 'D'
  else if c = 117 then some ⟨false, false, false, true⟩   -- 'u'
  else if c = 85 then some ⟨false, true, false, true⟩     -- 'U'
  else none

/-- tile.hpp:63-67: the assertion that there is such a tile.  The array has 256 entries. -/
def tiles (c : Nat) : Outcome Tile :=
  if c < 256 then
    match tileOf c with
    | some t => .ok t
    | none => .fatal
  else .ub

/-- tile.hpp:42-45 `gravity` -/
def Tile.gravity (t : Tile) : ℚ := if t.water then 1 / 4 else 1 / 2

/-- tile.hpp:47-49 `drag` -/
def Tile.drag (t : Tile) : ℚ := if t.water then 7 / 10 else 1

/-- tile.hpp:25-28 `Tile::bbox` -/
def tbox (x y : Nat) : Bbox ℚ := ⟨⟨32 * x, 32 * y⟩, ⟨32 * (x + 1), 32 * (y + 1)⟩⟩

/-- tile.hpp:36-40 `Tile::isect` -/
def Tile.isect (T : Tol ℚ) (t : Tile) (x y : Nat) (r : Bbox ℚ) : Isect :=
  if t.collide then bisect T r (tbox x y) else .none

/-- lvl.hpp:10-84: width and height in tiles, and the codes of the tiles -/
structure Lvl where
  w : Nat
  h : Nat
  blks : List Nat
deriving DecidableEq

/-- lvl.hpp:57-59,74-76 `at`, and lvl.cc:77-78: the tile at the given place -/
def Lvl.at (L : Lvl) (x y : Nat) : Outcome Tile :=
  match L.blks[x * L.h + y]? with
  | some c => tiles c
  | none => .ub

/-- The conversion of a `double` to `unsigned int`. -/
def toUns (q : ℚ) : Outcome Nat := if -1 < q ∧ q < 2 ^ 32 then .ok ⌊q⌋.toNat else .ub

/-- lvl.hpp:63-66 `majorblk`: the place of the middle of the box and the tile there -/
def Lvl.majorblk (L : Lvl) (r : Bbox ℚ) : Outcome (Nat × Nat × Tile) :=
  (toUns ((center r).x / 32)).bind fun x =>
  (toUns ((center r).y / 32)).bind fun y =>
  (L.at x y).map fun t => (x, y, t)

/-- The places visited by the two loops of lvl.cc:75-84 and 93-102. -/
def places (x0 y0 x1 y1 : Nat) : List (Nat × Nat) :=
  (List.range' x0 (x1 + 1 - x0)).flatMap fun x => (List.range' y0 (y1 + 1 - y0)).map fun y => (x, y)

/-- lvl.cc:48-64 `Hitzone` -/
def hitzone (a : Bbox ℚ) : Outcome (List (Nat × Nat)) :=
  (toUns (a.min.x / 32)).bind fun x0 =>
  (toUns (a.min.y / 32)).bind fun y0 =>
  (toUns (⌈a.max.x⌉ / 32)).bind fun x1 =>
  (toUns (⌈a.max.y⌉ / 32)).map fun y1 => places (x0 - 1) (y0 - 1) x1 y1

/-- lvl.cc:79-82: one tile in the vertical pass -/
def stepY (i is : Isect) : Isect := if is.is && decide (is.dy > i.dy) then { i with is := true, dy := is.dy } else i

/-- lvl.cc:97-100: one tile in the horizontal pass -/
def stepX (i is : Isect) : Isect := if is.is && decide (is.dx > i.dx) then { i with is := true, dx := is.dx } else i

/-- lvl.cc:75-84 and 93-102: the loops over the places -/
def scan (T : Tol ℚ) (L : Lvl) (upd : Isect → Isect → Isect) (mv : Bbox ℚ) : List (Nat × Nat) → Isect → Outcome Isect
  | [], i => .ok i
  | p :: ps, i => (L.at p.1 p.2).bind fun t => scan T L upd mv ps (upd i (t.isect T p.1 p.2 mv))

/-- lvl.cc:66-105 `Lvl::isect` -/
def Lvl.isect (T : Tol ℚ) (L : Lvl) (r : Bbox ℚ) (v : Pt ℚ) : Outcome Isect :=
  (hitzone r).bind fun ps =>
  (if v.y = 0 then .ok .none else scan T L stepY (shift r 0 v.y) ps .none).bind fun i =>
  if v.x = 0 then .ok i
  else scan T L stepX (shift r v.x (v.y + (if v.y < 0 then i.dy else -i.dy))) ps i

/-- body.hpp:58-88 -/
structure Body where
  bbox : Bbox ℚ
  dy : ℚ
  fall : Bool
deriving DecidableEq

/-- body.cc:76-81 `tillwhole` -/
def tillwhole (loc vel : ℚ) : ℚ := if vel > 0 then ⌈loc⌉ - loc else ⌊loc⌋ - loc

/-- body.cc:39-42 and 45-48: one coordinate of `Body::step` -/
def step1 (loc v : ℚ) : ℚ :=
  let d := tillwhole loc v
  let d := if d = 0 ∧ v ≠ 0 then (if v < 0 then -1 else 1) else d
  if |d| > |v| then v else d

/-- body.cc:35-52 `Body::step` -/
def step (b : Bbox ℚ) (v : Pt ℚ) : Pt ℚ := ⟨step1 b.min.x v.x, step1 b.min.y v.y⟩

/-- The variables of the loop of `Body::move`. -/
structure Mv where
  bbox : Bbox ℚ
  v : Pt ℚ
  left : Pt ℚ
  fallis : Isect
deriving DecidableEq

/-- body.cc:17-29: one iteration -/
def Mv.next (T : Tol ℚ) (L : Lvl) (xmul ymul : ℚ) (s : Mv) : Outcome Mv :=
  let d := step s.bbox s.v
  (L.isect T s.bbox d).map fun is =>
    let dx := d.x - xmul * is.dx
    let dy := d.y - ymul * is.dy
    { bbox := shift s.bbox dx dy
      v := ⟨s.v.x - dx, s.v.y - dy⟩
      left := ⟨s.left.x - |d.x|, s.left.y - |d.y|⟩
      fallis := if is.is && decide (is.dy ≠ 0) then is else s.fallis }

/-- body.cc:16-30: the loop; the first argument bounds the number of iterations -/
def moveLoop (T : Tol ℚ) (L : Lvl) (xmul ymul : ℚ) : Nat → Mv → Outcome Mv
  | 0, _ => .nofuel
  | n + 1, s =>
    if s.left.x > 0 ∨ s.left.y > 0 then (s.next T L xmul ymul).bind (moveLoop T L xmul ymul n) else .ok s

/-- body.cc:56-68: the changes of speed and of the falling flag when something was hit -/
def hitfall (b : Body) (is : Isect) : Body :=
  let b := if b.dy > 0 ∧ is.dy > 0 ∧ b.fall then { b with fall := false }
    else if b.dy < 0 ∧ is.dy > 0 then { b with dy := 0, fall := true } else b
  if !is.is && !b.fall then { b with dy := 0, fall := true } else b

/-- body.cc:54-74 `Body::dofall` -/
def dofall (L : Lvl) (b : Body) (is : Isect) : Outcome Body :=
  let b := hitfall b is
  if b.fall ∧ b.dy < 12 then (L.majorblk b.bbox).map fun bi => { b with dy := b.dy + bi.2.2.gravity } else .ok b

/-- body.cc:9-33 `Body::move` -/
def Body.move (T : Tol ℚ) (L : Lvl) (fuel : Nat) (b : Body) (dx : ℚ) : Outcome Body :=
  (moveLoop T L (if dx > 0 then 1 else -1) (if b.dy > 0 then 1 else -1) fuel
    ⟨b.bbox, ⟨dx, b.dy⟩, ⟨|dx|, |b.dy|⟩, .none⟩).bind fun s => dofall L { b with bbox := s.bbox } s.fallis

/-- player.hpp:14-65 -/
structure Player where
  body : Body
  jframes : Nat
deriving DecidableEq

/-- player.hpp:8 `Runspeed` = 2 + 5/4 -/
def runspeed : ℚ := 13 / 4

/-- player.hpp:16-20: the bits of an action -/
def hasLeft (a : Nat) : Bool := a.testBit 0
def hasRight (a : Nat) : Bool := a.testBit 1
def hasJump (a : Nat) : Bool := a.testBit 2

/-- player.cc:13-25 `xvel` -/
def xvel (L : Lvl) (p : Player) (a : Nat) : Outcome ℚ :=
  let dx := (if hasLeft a then -runspeed else 0) + (if hasRight a then runspeed else 0)
  (L.majorblk p.body.bbox).map fun bi =>
    if dx = 0 then 0 else (if dx < 0 then -1 else 1) * bi.2.2.drag * runspeed

/-- player.cc:27-41 `chngjmp`; `Jmpspeed` = 7 + 5/5 and `Maxjframes` = 8 (player.hpp:10,12) -/
def chngjmp (p : Player) (a : Nat) : Player :=
  if !hasJump a && p.body.fall then
    let dy := if p.body.dy < 0 then
        (if p.body.dy + (8 - p.jframes) > 0 then 0 else p.body.dy + (8 - p.jframes))
      else p.body.dy
    { body := { p.body with dy := dy }, jframes := 0 }
  else if hasJump a && !p.body.fall then
    { body := { p.body with dy := -8, fall := true }, jframes := 8 }
  else p

/-- player.cc:6-11 `act`; the action is one frame of the game -/
def act (T : Tol ℚ) (L : Lvl) (fuel : Nat) (p : Player) (a : Nat) : Outcome Player :=
  let p := chngjmp p a
  (xvel L p a).bind fun dx =>
  (p.body.move T L fuel dx).map fun b => { body := b, jframes := p.jframes - 1 }

/-- player.hpp:53-55 `canjump` -/
def canjump (p : Player) : Bool :=
  !p.body.fall || (decide (p.jframes = 0) && decide (p.body.dy ≤ 0)) || decide (p.jframes > 0)

/-- geom2d.hpp:164-166, body.hpp:68-70, player.hpp:37-39: `operator==` of boxes, bodies and players -/
def Player.eq (T : Tol ℚ) (p q : Player) : Bool :=
  decide (p.jframes = q.jframes) &&
  (decide (p.body.fall = q.body.fall) &&
    (p.body.bbox.min.eq T q.body.bbox.min && p.body.bbox.max.eq T q.body.bbox.max) && deq T p.body.dy q.body.dy)

/-! ## The search domain -/

/-- plat2d.cc:7-15, plat2d.hpp:116-140 `Operators` -/
def ops (p : Player) : List Nat := if canjump p then [1, 2, 4, 5, 6] else [1, 2, 4]

/-- plat2d.hpp:143-149 `ident` -/
def ident (T : Tol ℚ) (L : Lvl) (fuel : Nat) (p : Player) : Outcome (Option Nat × Int) :=
  (act T L fuel p 0).map fun q => if q.eq T p then (some 0, 1) else (none, -1)

/-- plat2d.hpp:20 `Maxx`, plat2d.hpp:24 `Maxy` -/
def maxx : ℚ := runspeed
def maxy : ℚ := if (8 : ℚ) > 12 then 8 else 12

/-- plat2d.hpp:151-179 `Edge`: the new state and the reverse operator (`none` for `Nop`); the costs are 1.  A failed
assertion is `fatal`. -/
def edge (T : Tol ℚ) (L : Lvl) (fuel : Nat) (p : Player) (op : Nat) : Outcome (Player × Option Nat) :=
  (act T L fuel p op).bind fun q =>
    let rev := if p.body.bbox.min.y = q.body.bbox.min.y then
        (if op = 1 then some 2 else if op = 2 then some 1 else none) else none
    if ¬ (op ≠ 0 ∨ q.eq T p) then .fatal
    else if ¬ |(center p.body.bbox).x - (center q.body.bbox).x| ≤ maxx then .fatal
    else if ¬ |(center p.body.bbox).y - (center q.body.bbox).y| ≤ maxy then .fatal
    else .ok (q, rev)

/-- plat2d.hpp:65-97 -/
structure Packed where
  x : ℚ
  y : ℚ
  dy : ℚ
  jframes : Nat
deriving DecidableEq

/-- plat2d.hpp:181-188 `pack`; `jframes` is an unsigned char -/
def pack (p : Player) : Packed :=
  ⟨p.body.bbox.min.x, p.body.bbox.min.y, p.body.dy, if p.body.fall then p.jframes % 256 ||| 128 else p.jframes % 256⟩

/-- plat2d.hpp:190-199 `unpack` -/
def unpack (k : Packed) : Player :=
  ⟨⟨⟨⟨k.x, k.y⟩, ⟨k.x + 21, k.y + 29⟩⟩, k.dy, k.jframes.testBit 7⟩, k.jframes &&& 127⟩

/-- plat2d.hpp:67-72 `PackedState::eq` -/
def Packed.eq (T : Tol ℚ) (a b : Packed) : Bool :=
  decide (a.jframes = b.jframes) && deq T a.x b.x && deq T a.y b.y && deq T a.dy b.dy

/-- plat2d.hpp:111-114 `isgoal` -/
def isgoal (L : Lvl) (g : Nat × Nat) (p : Player) : Outcome Bool :=
  (L.majorblk p.body.bbox).map fun bi => decide (bi.1 = g.1 ∧ bi.2.1 = g.2)

/-- plat2d.cc:56-60 `initialstate` -/
def initial (s : Nat × Nat) : Player :=
  ⟨⟨⟨⟨32 * s.1 + 7, 32 * s.2 + 2⟩, ⟨32 * s.1 + 7 + 21, 32 * s.2 + 2 + 29⟩⟩, 0, false⟩, 0⟩

/-- plat2d.hpp:266-281 `goalpt`, one coordinate: `bi` the tile of the player, `g` the goal tile, `size` the side of a tile
in frames (`W` or `H`, plat2d.hpp:29,32), `loc` the player in frames -/
def goal1 (bi g : Nat) (size loc : ℚ) : ℚ :=
  if bi = g then loc else if bi < g then g * size else (g + 1) * size

/-- plat2d.hpp:229-245: the heuristic when the goal tile can be seen from the player (the case distinction is by the
visibility graph, which is not modelled); and in the goal tile. -/
def near (L : Lvl) (g : Nat × Nat) (p : Player) : Outcome Int :=
  (L.majorblk p.body.bbox).map fun bi =>
    if bi.1 = g.1 ∧ bi.2.1 = g.2 then 0
    else
      let loc : Pt ℚ := ⟨(center p.body.bbox).x / maxx, (center p.body.bbox).y / maxy⟩
      let dx := |goal1 bi.1 g.1 (32 / maxx) loc.x - loc.x|
      let dy := |goal1 bi.2.1 g.2 (32 / maxy) loc.y - loc.y|
      let h := ⌊max dx dy⌋
      if h ≤ 0 then 1 else h

/-! ## Reading a level -/

/-- tile.cc:13-23 `Tile::read` and lvl.cc:40-45: one row of the level, `n` tiles and the end of the line -/
def readRow : Nat → List Nat → Outcome (List Nat × List Nat)
  | 0, cs =>
    match cs with
    | c :: cs => if c = 10 then .ok ([], cs) else .fatal
    | [] => .fatal
  | n + 1, cs =>
    match cs with
    | c :: cs => if (tileOf c).isSome then (readRow n cs).map fun r => (c :: r.1, r.2) else .fatal
    | [] => .fatal

/-- lvl.cc:40-45: the rows -/
def readRows (w : Nat) : Nat → List Nat → Outcome (List (List Nat))
  | 0, _ => .ok []
  | n + 1, cs => (readRow w cs).bind fun r => (readRows w n r.2).map fun rs => r.1 :: rs

/-- lvl.cc:24-46 `Lvl::read`.  The header has been scanned into depth `d`, `w` and `h`; `cs` is what follows it, as
character codes. -/
def read (d w h : Nat) (cs : List Nat) : Outcome Lvl :=
  if d ≠ 1 then .fatal
  else if ¬ w * h < 2 ^ 32 then .fatal
  else match cs with
    | [] => .fatal
    | c :: cs =>
      if c ≠ 10 then .fatal
      else (readRows w h cs).map fun rows =>
        ⟨w, h, (List.range w).flatMap fun x => (List.range h).map fun y => (rows.getD y []).getD x 0⟩

/-- The variables of the loop of the constructor: goal and start. -/
structure Ends where
  gx : Nat
  gy : Nat
  x0 : Nat
  y0 : Nat
deriving DecidableEq

/-- plat2d.cc:22-33: one tile.  Line 29 compares `x0`, not `y0`, with the height. -/
def endStep (L : Lvl) (e : Ends) (p : Nat × Nat) : Outcome Ends :=
  (L.at p.1 p.2).bind fun t =>
    (if t.down then (if e.gx < L.w ∨ e.gy < L.h then .fatal else .ok { e with gx := p.1, gy := p.2 }) else .ok e
      : Outcome Ends).bind fun e =>
    if t.up then (if e.x0 < L.w ∨ e.x0 < L.h then .fatal else .ok { e with x0 := p.1, y0 := p.2 }) else .ok e

/-- plat2d.cc:20-35: the loops -/
def endLoop (L : Lvl) : List (Nat × Nat) → Ends → Outcome Ends
  | [], e => .ok e
  | p :: ps, e => (endStep L e p).bind (endLoop L ps)

/-- plat2d.cc:17-39: the constructor up to the visibility graph: goal and start of the level -/
def ends (L : Lvl) : Outcome ((Nat × Nat) × (Nat × Nat)) :=
  (endLoop L ((List.range L.w).flatMap fun x => (List.range L.h).map fun y => (x, y)) ⟨L.w, L.h, L.w, L.h⟩).bind
    fun e =>
      if e.gx ≥ L.w ∨ e.gy ≥ L.h then .fatal
      else if e.x0 ≥ L.w ∨ e.y0 ≥ L.h then .fatal
      else .ok ((e.gx, e.gy), (e.x0, e.y0))

end Verif.Plat
