import Verif.Search.Concrete

/-!
# Model of search/bugsy.hpp and search/bugsy-slim.hpp (utility-guided search)

Both programs are best-first searches on a binary heap whose order depends on the clock: every so often all priorities
are computed anew and the heap is rebuilt in place.  The part they share is `Pol`-indexed: a `Pol` collects the code
that only influences the order of the nodes.  `bugsy` and `slim` are the two instances.

* `double` is any type with any operations (`Fl`): the results about solutions hold for every arithmetic, rounding,
  infinities and NaNs included.
* Costs and `g` values are exact.
* `walltime()` is an arbitrary sequence of readings.
* A member variable that the constructor leaves uninitialised is `none`; reading it is `ub`.
* The closed list is a finite map, which is what the hash table is (C03, C67).
* Nodes are numbered in the order in which they are added; a node that is constructed and at once destructed is not
  allocated.  `openind` is in the heap.
* Counters do not wrap; pools do not run out of memory.
-/

namespace Verif.Bugsy

open Verif.Search

variable {S O C F I A : Type*}

/-- bugsy.hpp:18-63, bugsy-slim.hpp:15-61 `Node`; `i` are the fields that only the order depends on. -/
structure BNode (S O C I : Type*) where
  state : S
  g : C
  i : I
  parent : Option Nat
  op : O
  pop : O

/-- The state of a search; `aux` are the member variables of the object that only the order depends on. -/
structure BSt (S O C I A : Type*) where
  nd : Nat → BNode S O C I
  next : Nat
  q : BinHeap.Heap Nat
  closed : S → Option Nat
  expd : Nat
  gend : Nat
  dups : Nat
  reopnd : Nat
  aux : A

/-- The code that only influences the order of the nodes. -/
structure Pol (S C I A : Type*) where
  dropdups : Bool
  /-- `Node::pred` -/
  pred : I × C → I × C → Bool
  /-- `search` before the initial node is made -/
  start : A → A
  /-- the fields of the initial node -/
  rootI : S → I
  /-- `computeutil`, given the number of expansions, the `g` and the fields of the node -/
  util : A → Nat → C → I → Outcome (I × A)
  /-- `expand` before its loop, given the number of expansions and the fields of the node -/
  enter : A → Nat → I → Outcome A
  /-- the fields of a new node before `computeutil`: number of expansions, fields of the parent, cost of the edge, state,
  `g` -/
  kidI : Nat → I → C → S → C → I
  /-- the fields of a known node whose `g` drops from the second to the third argument -/
  regrade : I → C → C → I
  /-- what `expand` does with the answer of `considerkid` -/
  note : A → C → I → A
  /-- `expand` after its loop -/
  leave : A → I → A
  /-- `updateopen`: `none` if the heap is left as it is -/
  resort : A → Nat → Option A

/-- What `Node::pred` reads. -/
def bkey (nd : Nat → BNode S O C I) (n : Nat) : I × C := ((nd n).i, (nd n).g)

section Model
variable [DecidableEq S] [DecidableEq O] [Add C] [Zero C] [LE C] [DecidableLE C]

/-- bugsy.hpp:132-137 and 293-306, bugsy-slim.hpp:91-96 and 178-189: `search` up to the loop.  (`expct` is set after
`computeutil`, which does not read it.) -/
def binit (p : Pol S C I A) (d : Dom S O C) (x : A) (s0 : S) : Outcome (BSt S O C I A) :=
  (p.util (p.start x) 0 0 (p.rootI s0)).bind fun r =>
  let nd : Nat → BNode S O C I := fun _ => ⟨s0, 0, r.1, none, d.nop, d.nop⟩
  .ok ⟨nd, 1, BinHeap.push (BinHeap.predOf p.pred (bkey nd)) ⟨[], fun _ => -1⟩ 0,
    Function.update (fun _ => none) s0 (some 0), 0, 0, 0, 0, r.2⟩

/-- bugsy.hpp:240-291 `considerkid`, bugsy-slim.hpp:152-175. -/
def bconsiderkid (p : Pol S C I A) (d : Dom S O C) (n : Nat) (op : O) (c : BSt S O C I A) :
    Outcome (BSt S O C I A) :=
  let par := c.nd n
  let t := d.app par.state op
  let g := par.g + d.cost par.state op
  let ki := p.kidI c.expd par.i (d.cost par.state op) t g
  match c.closed t with
  | some k =>
    let dup := c.nd k
    if p.dropdups = true ∨ dup.g ≤ g then
      .ok { c with dups := c.dups + 1, aux := p.note c.aux g ki }
    else
      (p.util c.aux c.expd g (p.regrade dup.i dup.g g)).bind fun r =>
      let nd := Function.update c.nd k
        { dup with g := g, i := r.1, parent := some n, op := op, pop := d.rev par.state op }
      (BinHeap.pushupdate (BinHeap.predOf p.pred (bkey nd)) c.q k (c.q.ind k)).bind fun q =>
      .ok { c with
        nd := nd, q := q, dups := c.dups + 1, reopnd := if c.q.ind k < 0 then c.reopnd + 1 else c.reopnd,
        aux := p.note r.2 g ki }
  | none =>
    (p.util c.aux c.expd g ki).bind fun r =>
    let nd := Function.update c.nd c.next ⟨t, g, r.1, some n, op, d.rev par.state op⟩
    .ok { c with
      nd := nd, next := c.next + 1, q := BinHeap.push (BinHeap.predOf p.pred (bkey nd)) c.q c.next,
      closed := Function.update c.closed t (some c.next), aux := p.note r.2 g ki }

/-- The loop bugsy.hpp:209-218, bugsy-slim.hpp:148-175. -/
def btryops (p : Pol S C I A) (d : Dom S O C) (n : Nat) : List O → BSt S O C I A → Outcome (BSt S O C I A)
  | [], c => .ok c
  | o :: os, c =>
    if o = (c.nd n).pop then btryops p d n os c
    else (bconsiderkid p d n o { c with gend := c.gend + 1 }).bind (btryops p d n os)

/-- bugsy.hpp:199-237, bugsy-slim.hpp:142-176 `expand`. -/
def bexpand (p : Pol S C I A) (d : Dom S O C) (n : Nat) (c : BSt S O C I A) : Outcome (BSt S O C I A) :=
  (p.enter c.aux (c.expd + 1) (c.nd n).i).bind fun x =>
  (btryops p d n (d.ops (c.nd n).state) { c with expd := c.expd + 1, aux := x }).map fun c' =>
  { c' with aux := p.leave c'.aux (c'.nd n).i }

/-- `computeutil(n)` on a node in memory. -/
def reutil (p : Pol S C I A) (e : Nat) (n : Nat) (x : (Nat → BNode S O C I) × A) :
    Outcome ((Nat → BNode S O C I) × A) :=
  (p.util x.2 e (x.1 n).g (x.1 n).i).map fun r => (Function.update x.1 n { x.1 n with i := r.1 }, r.2)

/-- bugsy.hpp:373-374, bugsy-slim.hpp:225-226: the first loop of `reinitheap`, over the given nodes. -/
def resortTail (p : Pol S C I A) (e : Nat) : List Nat → (Nat → BNode S O C I) × A → Outcome ((Nat → BNode S O C I) × A)
  | [], x => .ok x
  | n :: ns, x => (reutil p e n x).bind (resortTail p e ns)

/-- bugsy.hpp:376-379, bugsy-slim.hpp:228-231: the second loop of `reinitheap`, from `i` down to 0. -/
def resortSift (p : Pol S C I A) (e : Nat) {N : Nat} : (i : Nat) → i < N → (Nat → BNode S O C I) × A →
    BinHeap.Mem Nat N → Outcome (((Nat → BNode S O C I) × A) × BinHeap.Mem Nat N)
  | 0, hi, x, m =>
    (reutil p e m.v[0] x).map fun y => (y, (BinHeap.pushdown (BinHeap.predOf p.pred (bkey y.1)) m 0 hi).1)
  | i + 1, hi, x, m =>
    (reutil p e m.v[i + 1] x).bind fun y =>
    resortSift p e i (by omega) y (BinHeap.pushdown (BinHeap.predOf p.pred (bkey y.1)) m (i + 1) hi).1

/-- bugsy.hpp:369-380, bugsy-slim.hpp:221-232 `reinitheap`. -/
def reinitheap (p : Pol S C I A) (c : BSt S O C I A) : Outcome (BSt S O C I A) :=
  if h : c.q.data.length = 0 then .ok c
  else
    (resortTail p c.expd (c.q.data.drop (c.q.data.length / 2 + 1)).reverse (c.nd, c.aux)).bind fun x =>
    (resortSift p c.expd (c.q.data.length / 2) (by omega) x c.q.mem).map fun y =>
    { c with nd := y.1.1, aux := y.1.2, q := y.2.toHeap }

/-- bugsy.hpp:350-365, bugsy-slim.hpp:200-217 `updateopen`. -/
def updateopen (p : Pol S C I A) (c : BSt S O C I A) : Outcome (BSt S O C I A) :=
  match p.resort c.aux c.expd with
  | none => .ok c
  | some x => reinitheap p { c with aux := x }

/-- search.hpp:296-306 `solpath`. -/
def bsolpath (nd : Nat → BNode S O C I) : Nat → Nat → Outcome (List S × List O)
  | 0, _ => .nofuel
  | fuel + 1, n =>
    match (nd n).parent with
    | none => .ok ([(nd n).state], [])
    | some m => (bsolpath nd fuel m).map fun r => ((nd n).state :: r.1, (nd n).op :: r.2)

/-- search.hpp:67-71 `reached`; the timer may have struck before any given number of expansions. -/
def blimit (l : Limit) (timer : Nat → Bool) (c : BSt S O C I A) : Bool :=
  timer c.expd || decide (0 < l.expd ∧ l.expd ≤ c.expd) || decide (0 < l.gend ∧ l.gend ≤ c.gend)

/-- The loop bugsy.hpp:139-148, bugsy-slim.hpp:98-107; `fuel` bounds all loops.  `pop` on an empty heap returns `NULL`,
which is dereferenced. -/
def brun (p : Pol S C I A) (d : Dom S O C) (l : Limit) (timer : Nat → Bool) :
    Nat → BSt S O C I A → Outcome (BSt S O C I A × (List S × List O))
  | 0, _ => .nofuel
  | fuel + 1, c =>
    if c.q.data = [] ∨ blimit l timer c = true then .ok (c, ([], []))
    else
      match BinHeap.pop (BinHeap.predOf p.pred (bkey c.nd)) c.q with
      | (none, _) => .ub
      | (some n, q) =>
        if d.goal (c.nd n).state = true then
          (bsolpath c.nd (fuel + 1) n).map fun r => ({ c with q := q }, r)
        else
          (bexpand p d n { c with q := q }).bind fun c' =>
          (updateopen p c').bind (brun p d l timer fuel)

/-- bugsy.hpp:131-151, bugsy-slim.hpp:90-110 `search`; `x` are the member variables before. -/
def bsearch (p : Pol S C I A) (d : Dom S O C) (x : A) (l : Limit) (timer : Nat → Bool) (fuel : Nat) (s0 : S) :
    Outcome (BSt S O C I A × (List S × List O)) :=
  (binit p d x s0).bind (brun p d l timer fuel)

end Model

/-! ## Numbers -/

/-- The arithmetic of `double`, and the conversions from costs and from integers; nothing is assumed of it.  `c1` is
`Cost(1)`. -/
structure Fl (C F : Type*) where
  add : F → F → F
  sub : F → F → F
  mul : F → F → F
  div : F → F → F
  neg : F → F
  lt : F → F → Bool
  le : F → F → Bool
  ne : F → F → Bool
  ofC : C → F
  ofNat : Nat → F
  c1 : C

/-! ## Bugsy -/

/-- The options, bugsy.hpp:407-442; `none` is a variable that has not been initialised. -/
structure Opts (F : Type*) where
  wf : F
  wt : F
  resort : Bool
  usehlms : Bool
  hco : Nat → F
  usedlms : Option Bool
  dco : Nat → F
  usehhat : Bool
  usedhat : Bool
  interph : Option Bool
  useexpdelay : Bool
  dropdups : Bool

/-- bugsy.hpp:71-92: the options before the arguments are read; the arrays of coefficients are not initialised, and
not read unless set. -/
def opts0 (fl : Fl C F) (co : Nat → F) : Opts F where
  wf := fl.neg (fl.ofNat 1)
  wt := fl.neg (fl.ofNat 1)
  resort := true
  usehlms := false
  hco := co
  usedlms := none
  dco := co
  usehhat := false
  usedhat := false
  interph := none
  useexpdelay := false
  dropdups := false

/-- bugsy.hpp:93-117: the arguments.  `num` is `strtod`; `coeffs` is `initlms` (382-398), which may be fatal.  Every
test begins with `i < argc - 1`, so the last argument is never looked at. -/
def parseArgs (num : String → F) (coeffs : String → Outcome (Nat → F)) : List String → Opts F → Outcome (Opts F)
  | [], o => .ok o
  | [_], o => .ok o
  | a :: b :: rest, o =>
    if a = "-wf" then parseArgs num coeffs rest { o with wf := num b }
    else if a = "-wt" then parseArgs num coeffs rest { o with wt := num b }
    else if a = "-noresort" then parseArgs num coeffs (b :: rest) { o with resort := false }
    else if a = "-expdelay" then parseArgs num coeffs (b :: rest) { o with useexpdelay := true }
    else if a = "-hhat" then parseArgs num coeffs (b :: rest) { o with usehhat := true }
    else if a = "-dhat" then parseArgs num coeffs (b :: rest) { o with usedhat := true }
    else if a = "-dropdups" then parseArgs num coeffs (b :: rest) { o with dropdups := true }
    else if a = "-interph" then parseArgs num coeffs (b :: rest) { o with interph := some true, usehhat := true }
    else if a = "-hlms" then
      (coeffs b).bind fun v => parseArgs num coeffs rest { o with usehlms := true, hco := v }
    else if a = "-dlms" then
      (coeffs b).bind fun v => parseArgs num coeffs rest { o with usedlms := some true, dco := v }
    else parseArgs num coeffs (b :: rest) o

/-- bugsy.hpp:71-125: the constructor. -/
def construct (fl : Fl C F) (num : String → F) (coeffs : String → Outcome (Nat → F)) (co : Nat → F)
    (args : List String) : Outcome (Opts F) :=
  (parseArgs num coeffs args (opts0 fl co)).bind fun o =>
  if fl.lt o.wf (fl.ofNat 0) = true then .fatal
  else if fl.lt o.wt (fl.ofNat 0) = true then .fatal
  else .ok o

/-- bugsy.hpp:23-33: the fields of a node that only the order depends on; `avgdelay` of a node is never read. -/
structure Info (C F : Type*) where
  f : C
  h : C
  d : C
  u : F
  t : F
  expct : Option Nat
  depth : Nat

/-- bugsy.hpp:421-453: the other member variables; `clk` counts the calls of `walltime`, `bf` and `bd` are `bestinfo` of
`expand`. -/
structure Aux (C F : Type*) where
  navg : Nat
  herror : F
  derror : F
  herrlast : F
  derrlast : F
  avgdelay : F
  delaylast : F
  lasttime : F
  timeper : F
  lastnodes : Nat
  nextresort : Nat
  nresort : Nat
  clk : Nat
  bf : C
  bd : C

/-- bugsy.hpp:71-91: the member variables of a new object; `reset` (153-166) restores them. -/
def aux0 [Zero C] (fl : Fl C F) : Aux C F where
  navg := 0
  herror := fl.ofNat 0
  derror := fl.ofNat 0
  herrlast := fl.ofNat 0
  derrlast := fl.ofNat 0
  avgdelay := fl.ofNat 0
  delaylast := fl.ofNat 0
  lasttime := fl.ofNat 0
  timeper := fl.ofNat 0
  lastnodes := 0
  nextresort := 128
  nresort := 0
  clk := 0
  bf := 0
  bd := 0

/-- bugsy.hpp:54-62 `pred`. -/
def bpred [LT C] [DecidableLT C] [DecidableEq C] (fl : Fl C F) (a b : Info C F × C) : Bool :=
  if fl.ne a.1.u b.1.u = true then fl.lt b.1.u a.1.u
  else if fl.ne a.1.t b.1.t = true then fl.lt a.1.t b.1.t
  else if a.1.f ≠ b.1.f then decide (a.1.f < b.1.f)
  else decide (b.2 < a.2)

/-- bugsy.hpp:400-405 `evallms`. -/
def evallms (fl : Fl C F) (g : C) (i : Info C F) (co : Nat → F) : F :=
  fl.add (fl.add (fl.add (fl.mul (fl.ofC i.h) (co 0)) (fl.mul (fl.ofC g) (co 1))) (fl.mul (fl.ofC i.d) (co 2)))
    (fl.mul (fl.ofNat i.depth) (co 3))

/-- bugsy.hpp:311-324: the beginning of `computeutil`. -/
def utilPre (fl : Fl C F) (o : Opts F) (wall : Nat → F) (x : Aux C F) (e : Nat) : Aux C F :=
  if o.resort = true then x
  else
    let x := { x with derrlast := x.derror, herrlast := x.herror, avgdelay := x.delaylast }
    if e = 0 then x
    else
      let t := wall x.clk
      let dt := fl.sub t x.lasttime
      { x with
        clk := x.clk + 1, lastnodes := x.lastnodes + 1, lasttime := t,
        timeper := fl.add x.timeper (fl.div (fl.sub dt x.timeper) (fl.ofNat e)) }

/-- bugsy.hpp:325-327: the distance estimate. -/
def utilD (fl : Fl C F) (o : Opts F) (x : Aux C F) (ul : Bool) (g : C) (i : Info C F) : F :=
  let d := if ul = true then evallms fl g i o.dco else fl.ofC i.d
  if o.usedhat = true then fl.div d (fl.sub (fl.ofNat 1) x.derrlast) else d

/-- bugsy.hpp:329-338: the cost estimate. -/
def utilH (fl : Fl C F) (o : Opts F) (x : Aux C F) (d : F) (g : C) (i : Info C F) : Outcome F :=
  let h := if o.usehlms = true then evallms fl g i o.hco else fl.ofC i.h
  if o.usehhat = true then
    match o.interph with
    | none => .ub
    | some true =>
      let hhat := fl.add h (fl.mul d x.herrlast)
      let w := fl.div o.wf (fl.add o.wf o.wt)
      .ok (fl.add (fl.mul (fl.ofC i.h) w) (fl.mul hhat (fl.sub (fl.ofNat 1) w)))
    | some false => .ok (fl.add h (fl.mul d x.herrlast))
  else .ok h

/-- bugsy.hpp:310-346 `computeutil`. -/
def computeutil (fl : Fl C F) (o : Opts F) (wall : Nat → F) (x : Aux C F) (e : Nat) (g : C) (i : Info C F) :
    Outcome (Info C F × Aux C F) :=
  let x := utilPre fl o wall x e
  match o.usedlms with
  | none => .ub
  | some ul =>
    let d := utilD fl o x ul g i
    (utilH fl o x d g i).bind fun h =>
    let d := if o.useexpdelay = true ∧ fl.lt (fl.ofNat 0) x.delaylast = true then fl.mul d x.delaylast else d
    let f := fl.add h (fl.ofC g)
    let t := fl.mul x.timeper d
    .ok ({ i with t := t, u := fl.neg (fl.add (fl.mul o.wf f) (fl.mul o.wt t)) }, x)

/-- bugsy.hpp:204, 228, 235: a running mean, updated with the `n`-th value `v`. -/
def mean (fl : Fl C F) (m v : F) (n : Nat) : F := fl.add m (fl.div (fl.sub v m) (fl.ofNat n))

/-- bugsy.hpp:202-207: `expand` before the loop. -/
def benter [Neg C] (fl : Fl C F) (o : Opts F) (x : Aux C F) (e : Nat) (i : Info C F) : Outcome (Aux C F) :=
  if o.useexpdelay = true then
    match i.expct with
    | none => .ub
    | some k => .ok { x with avgdelay := mean fl x.avgdelay (fl.ofNat (e - k)) e, bf := -fl.c1, bd := -fl.c1 }
  else .ok { x with bf := -fl.c1, bd := -fl.c1 }

/-- bugsy.hpp:216-217. -/
def bnote [LT C] [DecidableLT C] [Add C] [Zero C] (x : Aux C F) (g : C) (i : Info C F) : Aux C F :=
  if x.bf < 0 ∨ g + i.h < x.bf then { x with bf := g + i.h, bd := i.d } else x

/-- bugsy.hpp:226-227, 233-234: negative errors count as 0. -/
def clip (fl : Fl C F) (e : F) : F := if fl.lt e (fl.ofNat 0) = true then fl.ofNat 0 else e

/-- bugsy.hpp:220-236: `expand` after the loop. -/
def bleave [LT C] [DecidableLT C] [Add C] [Sub C] [Zero C] (fl : Fl C F) (o : Opts F) (x : Aux C F) (i : Info C F) :
    Aux C F :=
  if x.bf < 0 then x
  else
    let n := x.navg + 1
    let he := mean fl x.herror (clip fl (fl.ofC (x.bf - i.f))) n
    let de := mean fl x.derror (clip fl (fl.ofC (x.bd + fl.c1 - i.d))) n
    { x with
      navg := n
      herror := if o.usehhat = true then he else x.herror
      derror := if o.usedhat = true then de else x.derror }

/-- bugsy.hpp:350-362: `updateopen` before `reinitheap`. -/
def bresort (fl : Fl C F) (o : Opts F) (wall : Nat → F) (x : Aux C F) (e : Nat) : Option (Aux C F) :=
  if o.resort = false ∨ e < x.nextresort then none
  else
    let t := wall x.clk
    some { x with
      nextresort := x.nextresort * 2, nresort := x.nresort + 1, herrlast := x.herror, derrlast := x.derror,
      delaylast := x.avgdelay, timeper := fl.div (fl.sub t x.lasttime) (fl.ofNat (e - x.lastnodes)),
      lasttime := t, lastnodes := e, clk := x.clk + 1 }

/-- bugsy.hpp as a policy; `h` and `dist` are the domain's estimates of cost and distance. -/
def bugsy [LinearOrder C] [AddCommGroup C] (fl : Fl C F) (o : Opts F) (wall : Nat → F) (h dist : S → C) :
    Pol S C (Info C F) (Aux C F) where
  dropdups := o.dropdups
  pred := bpred fl
  start x := { x with lasttime := wall x.clk, clk := x.clk + 1 }
  rootI s := ⟨h s, h s, dist s, fl.ofNat 0, fl.ofNat 0, some 0, 0⟩
  util := computeutil fl o wall
  enter := benter fl o
  kidI e i c t g :=
    let dk := if dist t < i.d - fl.c1 then i.d - fl.c1 else dist t
    let hk := if h t < i.h - c then i.h - c else h t
    ⟨g + hk, hk, dk, fl.ofNat 0, fl.ofNat 0, if o.useexpdelay = true then some e else none, i.depth + 1⟩
  regrade i g g' := { i with f := i.f - g + g' }
  note := bnote
  leave := bleave fl o
  resort := bresort fl o wall

/-! ## Bugsy, slim -/

/-- bugsy-slim.hpp:22-27. -/
structure SInfo (C F : Type*) where
  h : C
  d : C
  u : F
  t : F
  expct : Nat

/-- bugsy-slim.hpp:237-247. -/
structure SAux (F : Type*) where
  avgdelay : F
  delaysum : Nat
  timeper : F
  lasttime : F
  lastexpd : Nat
  nextresort : Nat
  nresort : Nat
  clk : Nat

/-- bugsy-slim.hpp:69-72: the member variables of a new object; `lasttime` is set by `search`. -/
def saux0 (fl : Fl C F) : SAux F := ⟨fl.ofNat 0, 0, fl.ofNat 0, fl.ofNat 0, 0, 128, 0, 0⟩

/-- bugsy-slim.hpp:48-60 `pred`. -/
def spred [LT C] [DecidableLT C] [DecidableEq C] [Add C] (fl : Fl C F) (a b : SInfo C F × C) : Bool :=
  if fl.ne a.1.u b.1.u = true then fl.lt b.1.u a.1.u
  else if fl.ne a.1.t b.1.t = true then fl.lt a.1.t b.1.t
  else if a.2 + a.1.h ≠ b.2 + b.1.h then decide (a.2 + a.1.h < b.2 + b.1.h)
  else decide (b.2 < a.2)

/-- bugsy-slim.hpp:193-196 `computeutil`. -/
def scomputeutil [Add C] (fl : Fl C F) (wf wt : F) (x : SAux F) (g : C) (i : SInfo C F) : SInfo C F :=
  let t := fl.mul (fl.mul x.timeper (if fl.le x.avgdelay (fl.ofNat 0) = true then fl.ofNat 1 else x.avgdelay)) (fl.ofC i.d)
  { i with t := t, u := fl.neg (fl.add (fl.mul wf (fl.ofC (i.h + g))) (fl.mul wt t)) }

/-- bugsy-slim.hpp as a policy.  Known states are dropped (159-163). -/
def slim [LinearOrder C] [AddCommGroup C] (fl : Fl C F) (wf wt : F) (wall : Nat → F) (h dist : S → C) :
    Pol S C (SInfo C F) (SAux F) where
  dropdups := true
  pred := spred fl
  start x := { x with lasttime := wall x.clk, clk := x.clk + 1 }
  rootI s := ⟨h s, dist s, fl.ofNat 0, fl.ofNat 0, 0⟩
  util x _ g i := .ok (scomputeutil fl wf wt x g i, x)
  enter x e i := .ok { x with delaysum := x.delaysum + (e - i.expct) }
  kidI e i c t _ := ⟨max (h t) (i.h - c), max (dist t) (i.d - fl.c1), fl.ofNat 0, fl.ofNat 0, e⟩
  regrade i _ _ := i
  note x _ _ := x
  leave x _ := x
  resort x e :=
    if e < x.nextresort then none
    else
      let nexpd := fl.ofNat (e - x.lastexpd)
      let t := wall x.clk
      some { x with
        lastexpd := e, timeper := fl.div (fl.sub t x.lasttime) nexpd, lasttime := t,
        avgdelay := fl.div (fl.ofNat x.delaysum) nexpd, delaysum := 0, nextresort := x.nextresort * 2,
        nresort := x.nresort + 1, clk := x.clk + 1 }

end Verif.Bugsy
