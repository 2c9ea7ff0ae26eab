import Verif.Domains.VisGraph
import Verif.Domains.GridFileThms
import Verif.Utils.Geom2dMake

/-!
# Model of the files of polygon maps and visibility graphs

utils/geom2d.cc:37-57, 134-138 (a polygon), visnav/polymap.cc:9-45 (a map), visnav/visgraph.cc:8-63 (a graph), the two locations
of a problem in visnav/inst.cc:38-39 and visnav/main.cc:10-13.

A stream is the list of the characters that have not been read, as in `Domains/GridFile`.

* `%g` and `%lg` are a parameter (`Fmt`); what the theorems need of them is `Faithful`.
* The functions of `unsigned int` write the size of a vector modulo 2^32.  Numbers that do not fit into `unsigned int` are
  undefined behaviour in `fscanf`.
* Errors of the stream are not modelled, nor is the drawing (polymap.cc:47-83).
-/

namespace Verif.VisFile

open Verif.Geom Verif.Vis Verif.Str
open Verif.GridFile (skip lits uint num)

variable {K : Type} [Field K] [LinearOrder K] [IsStrictOrderedRing K]

/-- `%g` of `printf` and `%lg` of `scanf`; the latter skips white space first and gives the rest of the input. -/
structure Fmt (K : Type) where
  pr : K → Str
  rd : Str → Option (K × Str)

/-! ## Writing -/

/-- geom2d.cc:136-137 -/
def writePts (F : Fmt K) : List (Pt K) → Str
  | [] => []
  | p :: ps => ' ' :: (F.pr p.x ++ ' ' :: (F.pr p.y ++ writePts F ps))

/-- geom2d.cc:134-138 `Poly::output` -/
def writePoly (F : Fmt K) (P : Poly K) : Str := Nat.toDigits 10 P.verts.length ++ writePts F P.verts

/-- polymap.cc:41-44 -/
def writePolys (F : Fmt K) : List (Poly K) → Str
  | [] => []
  | P :: ps => writePoly F P ++ '\n' :: writePolys F ps

/-- polymap.cc:35-39 -/
def writeBound (F : Fmt K) : Option (Poly K) → Str
  | none => []
  | some B => "bound: ".toList ++ (writePoly F B ++ ['\n'])

/-- polymap.cc:34-45 `PolyMap::output` -/
def writeMap (F : Fmt K) (m : PMap K) : Str :=
  writeBound F m.bound ++ (Nat.toDigits 10 (m.polys.length % 2 ^ 32) ++ (" polygons\n".toList ++ writePolys F m.polys))

/-- visgraph.cc:59-62, 41-43: the edges of a vertex, `Edge::output` -/
def writeEdges (F : Fmt K) : List (VEdge K) → Str
  | [] => []
  | e :: es => ' ' :: (Nat.toDigits 10 e.src ++ ' ' :: (Nat.toDigits 10 e.dst ++ ' ' :: (F.pr e.dist ++ writeEdges F es)))

/-- visgraph.cc:57-63 `Vert::output` -/
def writeVert (F : Fmt K) (v : Vert K) : Str :=
  Nat.toDigits 10 v.id ++ ' ' :: (F.pr v.pt.x ++ ' ' :: (F.pr v.pt.y ++
    ' ' :: (Nat.toDigits 10 (v.edges.length % 2 ^ 32) ++ writeEdges F v.edges)))

/-- visgraph.cc:27-30 -/
def writeVerts (F : Fmt K) : List (Vert K) → Str
  | [] => []
  | v :: vs => writeVert F v ++ '\n' :: writeVerts F vs

/-- visgraph.cc:23-31 `VisGraph::output` -/
def writeGraph (F : Fmt K) (g : VGraph K) : Str :=
  writeMap F g.map ++ (Nat.toDigits 10 (g.verts.length % 2 ^ 32) ++ (" vertices\n".toList ++ writeVerts F g.verts))

/-- inst.cc:38-39: the graph and the two locations -/
def writeInst (F : Fmt K) (g : VGraph K) (p q : Pt K) : Str :=
  writeGraph F g ++ (F.pr p.x ++ ' ' :: (F.pr p.y ++ ' ' :: (F.pr q.x ++ ' ' :: (F.pr q.y ++ ['\n']))))

/-! ## Reading -/

/-- `%lg` in a format where the number of conversions is checked -/
def dbl (F : Fmt K) (s : Str) : Outcome (K × Str) :=
  match F.rd s with
  | none => .fatal
  | some r => .ok r

/-- geom2d.cc:45-53: `n` vertices -/
def readPts (F : Fmt K) : Nat → Str → Outcome (List (Pt K) × Str)
  | 0, s => .ok ([], s)
  | n + 1, s =>
    (dbl F s).bind fun a =>
    (dbl F a.2).bind fun b =>
    (readPts F n b.2).map fun r => (⟨a.1, b.1⟩ :: r.1, r.2)

/-- geom2d.cc:37-57 `Poly::Poly(FILE*)` -/
def readPoly (F : Fmt K) (s : Str) : Outcome (Poly K × Str) :=
  (num (2 ^ 32) s).bind fun n =>
  (readPts F n.1 n.2).bind fun r =>
  (Poly.make r.1).map fun P => (P, r.2)

/-- polymap.cc:30-31: `n` polygons -/
def readPolys (F : Fmt K) : Nat → Str → Outcome (List (Poly K) × Str)
  | 0, s => .ok ([], s)
  | n + 1, s => (readPoly F s).bind fun P => (readPolys F n P.2).map fun r => (P.1 :: r.1, r.2)

/-- polymap.cc:14-21: `"bound: %n"`.  `fscanf` gives 0 also if the word is not there; `n` is then 0.  It is 7 iff exactly one
character of white space follows the word. -/
def readBound (F : Fmt K) (s : Str) : Outcome (Option (Poly K) × Str) :=
  match lits "bound:".toList s with
  | none => .fatal
  | some (false, s) => .ok (none, s)
  | some (true, s) =>
    if (s.takeWhile isws).length = 1 then (readPoly F (skip s)).map fun r => (some r.1, r.2) else .ok (none, skip s)

/-- What is left after `" word\n"` in a format, after the last conversion; it makes no difference to the result of `fscanf`. -/
def after (wd : Str) (s : Str) : Str :=
  match lits wd (skip s) with
  | none => []
  | some (false, s) => s
  | some (true, s) => skip s

/-- polymap.cc:13-32 `PolyMap::input` -/
def readMap (F : Fmt K) (s : Str) : Outcome (PMap K × Str) :=
  (readBound F s).bind fun b =>
  (num (2 ^ 32) b.2).bind fun n =>
  (readPolys F n.1 (after "polygons".toList n.2)).map fun r => (⟨r.1, b.1⟩, r.2)

/-- visgraph.cc:33-39 `Edge::Edge(FILE*)` -/
def readEdge (F : Fmt K) (s : Str) : Outcome (VEdge K × Str) :=
  (num (2 ^ 32) s).bind fun a =>
  (num (2 ^ 32) a.2).bind fun b =>
  (dbl F b.2).map fun d => (⟨a.1, b.1, d.1⟩, d.2)

/-- visgraph.cc:53-54: `n` edges -/
def readEdges (F : Fmt K) : Nat → Str → Outcome (List (VEdge K) × Str)
  | 0, s => .ok ([], s)
  | n + 1, s => (readEdge F s).bind fun e => (readEdges F n e.2).map fun r => (e.1 :: r.1, r.2)

/-- visgraph.cc:45-55 `Vert::Vert(FILE*)` -/
def readVert (F : Fmt K) (s : Str) : Outcome (Vert K × Str) :=
  (num (2 ^ 32) s).bind fun i =>
  (dbl F i.2).bind fun x =>
  (dbl F x.2).bind fun y =>
  (num (2 ^ 32) y.2).bind fun n =>
  (readEdges F n.1 n.2).map fun r => (⟨i.1, ⟨x.1, y.1⟩, r.1⟩, r.2)

/-- visgraph.cc:14-15: `n` vertices -/
def readVerts (F : Fmt K) : Nat → Str → Outcome (List (Vert K) × Str)
  | 0, s => .ok ([], s)
  | n + 1, s => (readVert F s).bind fun v => (readVerts F n v.2).map fun r => (v.1 :: r.1, r.2)

/-- visgraph.cc:8-17 `VisGraph::VisGraph(FILE*)`.  At the end of the file there are no vertices; if there is something that is
not a number, `nverts` has no value (line 9). -/
def readGraph (F : Fmt K) (s : Str) : Outcome (VGraph K × Str) :=
  (readMap F s).bind fun m =>
    if skip m.2 = [] then .ok (⟨[], m.1, []⟩, [])
    else (uint (2 ^ 32) m.2).bind fun
      | none => .ub
      | some n => (readVerts F n.1 (after "vertices".toList n.2)).map fun r => (⟨r.1, m.1, []⟩, r.2)

/-- main.cc:10-13: the graph and the two locations -/
def readInst (F : Fmt K) (s : Str) : Outcome (VGraph K × Pt K × Pt K) :=
  (readGraph F s).bind fun g =>
  (dbl F g.2).bind fun a => (dbl F a.2).bind fun b => (dbl F b.2).bind fun c => (dbl F c.2).map fun d =>
    (g.1, ⟨a.1, b.1⟩, ⟨c.1, d.1⟩)

/-! ## What is needed of the formats -/

/-- The rest of the input does not go on with the number before it. -/
def Sep (s : Str) : Prop := ∀ c, s.head? = some c → isws c = true

/-- `%lg` skips white space, and reads what `%g` writes, up to rounding (six significant digits), if the end of the file or white
space follows. -/
structure Faithful (F : Fmt K) (rnd : K → K) : Prop where
  ws : ∀ s, F.rd (skip s) = F.rd s
  back : ∀ (x : K) (rest : Str), Sep rest → F.rd (F.pr x ++ rest) = some (rnd x, rest)

/-- A point of the file. -/
def rndPt (rnd : K → K) (p : Pt K) : Pt K := ⟨rnd p.x, rnd p.y⟩

/-- An edge of the file. -/
def rndEdge (rnd : K → K) (e : VEdge K) : VEdge K := { e with dist := rnd e.dist }

/-- A vertex of the file. -/
def rndVert (rnd : K → K) (v : Vert K) : Vert K := ⟨v.id, rndPt rnd v.pt, v.edges.map (rndEdge rnd)⟩

/-- `P'` is what is made of the vertices of `P` as they are in the file. -/
def Remade (rnd : K → K) (P P' : Poly K) : Prop := Poly.make (P.verts.map (rndPt rnd)) = .ok P'

/-- `m'` is the map made of the polygons of `m` as they are in the file. -/
structure MapRemade (rnd : K → K) (m m' : PMap K) : Prop where
  polys : List.Forall₂ (Remade rnd) m.polys m'.polys
  bound : Option.Rel (Remade rnd) m.bound m'.bound

/-- The sizes of the map are numbers of type `unsigned int`. -/
structure MapSized (m : PMap K) : Prop where
  polys : m.polys.length < 2 ^ 32
  poly : ∀ P ∈ m.polys, P.verts.length < 2 ^ 32
  bound : ∀ B, m.bound = some B → B.verts.length < 2 ^ 32

/-- All integers of the graph are numbers of type `unsigned int`. -/
structure Sized (g : VGraph K) : Prop where
  map : MapSized g.map
  verts : g.verts.length < 2 ^ 32
  vert : ∀ v ∈ g.verts, v.id < 2 ^ 32 ∧ v.edges.length < 2 ^ 32 ∧ ∀ e ∈ v.edges, e.src < 2 ^ 32 ∧ e.dst < 2 ^ 32

/-! ## Lemmas -/

theorem sep_nil : Sep [] := fun _ h => by simp at h

theorem sep_cons {c : Char} (s : Str) (h : isws c = true) : Sep (c :: s) := fun d e => by
  simp only [List.head?_cons, Option.some.injEq] at e
  rw [← e]; exact h

theorem sep_not_digit {s : Str} (h : Sep s) : ∀ c, s.head? = some c → c.isDigit = false := fun c hc => by
  have := h c hc
  by_contra hn
  rw [Bool.not_eq_false] at hn
  rw [(Segments.digit_ne hn).2.2] at this
  cases this

theorem num_wss (b : Nat) : ∀ (w s : Str), (∀ c ∈ w, isws c = true) → num b (w ++ s) = num b s
  | [], _, _ => rfl
  | c :: w, s, h => by
    rw [List.cons_append, GridFile.num_ws b _ (h c List.mem_cons_self)]
    exact num_wss b w s fun d hd => h d (List.mem_cons_of_mem _ hd)

theorem skip_wss : ∀ (w s : Str), (∀ c ∈ w, isws c = true) → skip (w ++ s) = skip s
  | [], _, _ => rfl
  | c :: w, s, h => by
    rw [List.cons_append, GridFile.skip_cons _ (h c List.mem_cons_self)]
    exact skip_wss w s fun d hd => h d (List.mem_cons_of_mem _ hd)

theorem num_write {b n : Nat} (hn : n < b) {w r : Str} (hw : ∀ c ∈ w, isws c = true) (hr : Sep r) :
    num b (w ++ (Nat.toDigits 10 n ++ r)) = .ok (n, r) := by
  rw [num_wss b w _ hw]
  exact GridFile.num_digits hn (sep_not_digit hr)

theorem num_sp {b n : Nat} (hn : n < b) {r : Str} (hr : Sep r) : num b (' ' :: (Nat.toDigits 10 n ++ r)) = .ok (n, r) :=
  num_write (w := [' ']) hn (by decide) hr

section Read
variable {F : Fmt K} {rnd : K → K} (hF : Faithful F rnd)
include hF

omit [Field K] [LinearOrder K] [IsStrictOrderedRing K] in
theorem dbl_sp (x : K) {r : Str} (hr : Sep r) : dbl F (' ' :: (F.pr x ++ r)) = .ok (rnd x, r) := by
  unfold dbl
  rw [← hF.ws, GridFile.skip_cons _ (by decide), hF.ws, hF.back x r hr]

omit [Field K] [LinearOrder K] [IsStrictOrderedRing K] in
theorem sep_pts (ps : List (Pt K)) {r : Str} (hr : Sep r) : Sep (writePts F ps ++ r) := by
  cases ps with
  | nil => exact hr
  | cons p ps => exact sep_cons _ (by decide)

omit [Field K] [LinearOrder K] [IsStrictOrderedRing K] in
theorem readPts_write (r : Str) (hr : Sep r) : ∀ ps : List (Pt K),
    readPts F ps.length (writePts F ps ++ r) = .ok (ps.map (rndPt rnd), r)
  | [] => rfl
  | p :: ps => by
    simp only [List.length_cons, readPts, writePts, List.cons_append, List.append_assoc]
    rw [dbl_sp hF _ (sep_cons _ (by decide)), Outcome.bind_ok]
    dsimp only
    rw [dbl_sp hF _ (sep_pts hF ps hr), Outcome.bind_ok]
    dsimp only
    rw [readPts_write r hr ps]
    rfl

theorem readPoly_write {P P' : Poly K} (hs : P.verts.length < 2 ^ 32) (hm : Remade rnd P P') {w r : Str}
    (hw : ∀ c ∈ w, isws c = true) (hr : Sep r) : readPoly F (w ++ (writePoly F P ++ r)) = .ok (P', r) := by
  unfold readPoly writePoly
  rw [List.append_assoc, num_write hs hw (sep_pts hF _ hr), Outcome.bind_ok]
  dsimp only
  rw [readPts_write hF r hr, Outcome.bind_ok]
  dsimp only
  rw [hm]
  rfl

omit hF in
theorem readPoly_skip (s : Str) : readPoly F (skip s) = readPoly F s := by
  unfold readPoly
  rw [GridFile.num_skip]

theorem readPolys_write (r : Str) {ps ps' : List (Poly K)} (hm : List.Forall₂ (Remade rnd) ps ps')
    (hs : ∀ P ∈ ps, P.verts.length < 2 ^ 32) : ∀ s : Str, skip s = skip (writePolys F ps ++ r) →
    ∃ t, readPolys F ps.length s = .ok (ps', t) ∧ skip t = skip r := by
  induction hm with
  | nil => exact fun s h => ⟨s, rfl, h⟩
  | @cons P P' ps ps' h1 _ ih =>
    intro s h
    obtain ⟨t, h2, h3⟩ := ih (fun Q hQ => hs Q (List.mem_cons_of_mem _ hQ)) ('\n' :: (writePolys F ps ++ r))
      (GridFile.skip_cons _ (by decide))
    refine ⟨t, ?_, h3⟩
    have e := readPoly_write hF (hs P List.mem_cons_self) h1 (w := []) (r := '\n' :: (writePolys F ps ++ r)) (by simp)
      (sep_cons _ (by decide))
    simp only [List.length_cons, readPolys]
    rw [← readPoly_skip, h, readPoly_skip]
    simp only [writePolys, List.append_assoc, List.cons_append]
    rw [List.nil_append] at e
    rw [e, Outcome.bind_ok]
    dsimp only
    rw [h2]
    rfl

omit hF in
theorem readBound_none {c : Char} (hc : c ≠ 'b') (t : Str) : readBound F (c :: t) = .ok (none, c :: t) := by
  have hl : "bound:".toList = 'b' :: "ound:".toList := by decide
  have : lits "bound:".toList (c :: t) = some (false, c :: t) := by
    rw [hl, lits, if_neg hc.symm]
  unfold readBound
  rw [this]

theorem readBound_some {B B' : Poly K} (hs : B.verts.length < 2 ^ 32) (h : Remade rnd B B') (n : Nat) (r : Str) :
    readBound F (writeBound F (some B) ++ (Nat.toDigits 10 n ++ r)) = .ok (some B', ['\n'] ++ (Nat.toDigits 10 n ++ r)) := by
  have e : writeBound F (some B) ++ (Nat.toDigits 10 n ++ r) =
      "bound:".toList ++ (' ' :: (writePoly F B ++ '\n' :: (Nat.toDigits 10 n ++ r))) := by
    have hl : "bound: ".toList = "bound:".toList ++ [' '] := by decide
    unfold writeBound
    dsimp only
    rw [hl, List.append_assoc, List.append_assoc, List.append_assoc, List.singleton_append, List.singleton_append]
  rw [e]
  unfold readBound
  rw [GridFile.lits_self]
  dsimp only
  obtain ⟨c, t, e2, hc⟩ := GridFile.head_digits B.verts.length (writePts F B.verts ++ '\n' :: (Nat.toDigits 10 n ++ r))
  have e3 : writePoly F B ++ '\n' :: (Nat.toDigits 10 n ++ r) = c :: t := by
    rw [← e2]; simp [writePoly]
  have hcw : isws c = false := (Segments.digit_ne hc).2.2
  have e4 : ((' ' :: (writePoly F B ++ '\n' :: (Nat.toDigits 10 n ++ r))).takeWhile isws).length = 1 := by
    rw [e3, List.takeWhile_cons, if_pos (by decide), List.takeWhile_cons, if_neg (by simp [hcw])]
    rfl
  have e5 : skip (' ' :: (writePoly F B ++ '\n' :: (Nat.toDigits 10 n ++ r))) =
      writePoly F B ++ '\n' :: (Nat.toDigits 10 n ++ r) := by
    rw [GridFile.skip_cons _ (by decide), GridFile.skip_self]
    intro d hd
    rw [e3] at hd
    simp only [List.head?_cons, Option.some.injEq] at hd
    rw [← hd]; exact hcw
  rw [if_pos e4, e5]
  have := readPoly_write hF hs h (w := []) (r := '\n' :: (Nat.toDigits 10 n ++ r)) (by simp) (sep_cons _ (by decide))
  rw [List.nil_append] at this
  rw [this]
  rfl

theorem readBound_write {b b' : Option (Poly K)} (hb : Option.Rel (Remade rnd) b b')
    (hs : ∀ B, b = some B → B.verts.length < 2 ^ 32) (n : Nat) (r : Str) :
    ∃ w, (∀ c ∈ w, isws c = true) ∧
      readBound F (writeBound F b ++ (Nat.toDigits 10 n ++ r)) = .ok (b', w ++ (Nat.toDigits 10 n ++ r)) := by
  obtain ⟨c, t, e, hc⟩ := GridFile.head_digits n r
  have hne : c ≠ 'b' := by
    rintro rfl
    exact absurd hc (by decide)
  cases b with
  | none =>
    cases b' with
    | some B' => exact nomatch hb
    | none => exact ⟨[], by simp, by rw [e]; exact readBound_none hne t⟩
  | some B =>
    cases b' with
    | none => exact nomatch hb
    | some B' =>
      have h : Remade rnd B B' := by
        generalize e1 : some B = x at hb
        generalize e2 : some B' = y at hb
        cases hb with
        | none => cases e1
        | some h => cases e1; cases e2; exact h
      exact ⟨['\n'], by decide, readBound_some hF (hs B rfl) h n r⟩

omit hF [Field K] [LinearOrder K] [IsStrictOrderedRing K] in
theorem after_self {wd : Str} (h : ∀ c, wd.head? = some c → isws c = false) (hne : wd ≠ []) (r : Str) :
    after wd (' ' :: (wd ++ '\n' :: r)) = skip r := by
  unfold after
  rw [GridFile.skip_cons _ (by decide), GridFile.skip_self, GridFile.lits_self]
  · exact GridFile.skip_cons _ (by decide)
  · cases wd with
    | nil => exact absurd rfl hne
    | cons c wd => exact h

theorem readMap_write {m m' : PMap K} (hs : MapSized m) (hm : MapRemade rnd m m') (r : Str) :
    ∃ t, readMap F (writeMap F m ++ r) = .ok (m', t) ∧ skip t = skip r := by
  have hl : " polygons\n".toList = ' ' :: ("polygons".toList ++ ['\n']) := by decide
  have e : writeMap F m ++ r = writeBound F m.bound ++ (Nat.toDigits 10 m.polys.length ++
      (' ' :: ("polygons".toList ++ '\n' :: (writePolys F m.polys ++ r)))) := by
    simp only [writeMap, Nat.mod_eq_of_lt hs.polys, hl, List.append_assoc, List.cons_append, List.nil_append]
  obtain ⟨w, h1, h2⟩ := readBound_write hF hm.bound hs.bound m.polys.length
    (' ' :: ("polygons".toList ++ '\n' :: (writePolys F m.polys ++ r)))
  obtain ⟨t, h3, h4⟩ := readPolys_write hF r hm.polys hs.poly (skip (writePolys F m.polys ++ r)) (GridFile.skip_skip _)
  refine ⟨t, ?_, h4⟩
  unfold readMap
  rw [e, h2, Outcome.bind_ok]
  dsimp only
  rw [num_write hs.polys h1 (sep_cons _ (by decide)), Outcome.bind_ok]
  dsimp only
  rw [after_self (by decide) (by decide), h3]
  rfl

omit [Field K] [LinearOrder K] [IsStrictOrderedRing K] in
theorem sep_edges (es : List (VEdge K)) {r : Str} (hr : Sep r) : Sep (writeEdges F es ++ r) := by
  cases es with
  | nil => exact hr
  | cons p ps => exact sep_cons _ (by decide)

omit [Field K] [LinearOrder K] [IsStrictOrderedRing K] in
theorem readEdges_write (r : Str) (hr : Sep r) : ∀ es : List (VEdge K), (∀ e ∈ es, e.src < 2 ^ 32 ∧ e.dst < 2 ^ 32) →
    readEdges F es.length (writeEdges F es ++ r) = .ok (es.map (rndEdge rnd), r)
  | [], _ => rfl
  | e :: es, hs => by
    obtain ⟨h1, h2⟩ := hs e List.mem_cons_self
    simp only [List.length_cons, readEdges, readEdge, writeEdges, List.cons_append, List.append_assoc]
    rw [num_sp h1 (sep_cons _ (by decide)), Outcome.bind_ok]
    dsimp only
    rw [num_sp h2 (sep_cons _ (by decide)), Outcome.bind_ok]
    dsimp only
    rw [dbl_sp hF _ (sep_edges hF es hr), Outcome.map_ok, Outcome.bind_ok]
    dsimp only
    rw [readEdges_write r hr es fun x hx => hs x (List.mem_cons_of_mem _ hx)]
    rfl

omit [Field K] [LinearOrder K] [IsStrictOrderedRing K] in
theorem readVert_write {v : Vert K} (h1 : v.id < 2 ^ 32) (h2 : v.edges.length < 2 ^ 32)
    (h3 : ∀ e ∈ v.edges, e.src < 2 ^ 32 ∧ e.dst < 2 ^ 32) {r : Str} (hr : Sep r) :
    readVert F (writeVert F v ++ r) = .ok (rndVert rnd v, r) := by
  unfold readVert writeVert
  simp only [List.append_assoc, List.cons_append, Nat.mod_eq_of_lt h2]
  have := num_write h1 (w := []) (r := ' ' :: (F.pr v.pt.x ++ ' ' :: (F.pr v.pt.y ++
    ' ' :: (Nat.toDigits 10 v.edges.length ++ (writeEdges F v.edges ++ r))))) (by simp) (sep_cons _ (by decide))
  rw [List.nil_append] at this
  rw [this, Outcome.bind_ok]
  dsimp only
  rw [dbl_sp hF _ (sep_cons _ (by decide)), Outcome.bind_ok]
  dsimp only
  rw [dbl_sp hF _ (sep_cons _ (by decide)), Outcome.bind_ok]
  dsimp only
  rw [num_sp h2 (sep_edges hF _ hr), Outcome.bind_ok]
  dsimp only
  rw [readEdges_write hF r hr _ h3]
  rfl

omit hF [Field K] [LinearOrder K] [IsStrictOrderedRing K] in
theorem readVert_skip (s : Str) : readVert F (skip s) = readVert F s := by
  unfold readVert
  rw [GridFile.num_skip]

omit [Field K] [LinearOrder K] [IsStrictOrderedRing K] in
theorem readVerts_write (r : Str) : ∀ (vs : List (Vert K)),
    (∀ v ∈ vs, v.id < 2 ^ 32 ∧ v.edges.length < 2 ^ 32 ∧ ∀ e ∈ v.edges, e.src < 2 ^ 32 ∧ e.dst < 2 ^ 32) →
    ∀ s : Str, skip s = skip (writeVerts F vs ++ r) →
    ∃ t, readVerts F vs.length s = .ok (vs.map (rndVert rnd), t) ∧ skip t = skip r
  | [], _, s, h => ⟨s, rfl, h⟩
  | v :: vs, hs, s, h => by
    obtain ⟨k1, k2, k3⟩ := hs v List.mem_cons_self
    obtain ⟨t, h2, h3⟩ := readVerts_write r vs (fun Q hQ => hs Q (List.mem_cons_of_mem _ hQ)) ('\n' :: (writeVerts F vs ++ r))
      (GridFile.skip_cons _ (by decide))
    refine ⟨t, ?_, h3⟩
    have e := readVert_write hF k1 k2 k3 (r := '\n' :: (writeVerts F vs ++ r)) (sep_cons _ (by decide))
    simp only [List.length_cons, readVerts]
    rw [← readVert_skip, h, readVert_skip]
    simp only [writeVerts, List.append_assoc, List.cons_append]
    rw [e, Outcome.bind_ok]
    dsimp only
    rw [h2]
    rfl

omit hF [Field K] [LinearOrder K] [IsStrictOrderedRing K] in
theorem uint_of_num {b : Nat} {s : Str} {x : Nat × Str} (h : num b s = .ok x) : uint b s = .ok (some x) := by
  unfold num at h
  obtain ⟨r, h1, h2⟩ := Outcome.bind_eq_ok.1 h
  cases r with
  | none => cases h2
  | some y => cases h2; exact h1

theorem readGraph_write {g : VGraph K} {m' : PMap K} (hs : Sized g) (hm : MapRemade rnd g.map m') (r : Str) :
    ∃ t, readGraph F (writeGraph F g ++ r) = .ok (⟨g.verts.map (rndVert rnd), m', []⟩, t) ∧ skip t = skip r := by
  have hl : " vertices\n".toList = ' ' :: ("vertices".toList ++ ['\n']) := by decide
  have e : writeGraph F g ++ r = writeMap F g.map ++ (Nat.toDigits 10 g.verts.length ++
      (' ' :: ("vertices".toList ++ '\n' :: (writeVerts F g.verts ++ r)))) := by
    simp only [writeGraph, Nat.mod_eq_of_lt hs.verts, hl, List.append_assoc, List.cons_append, List.nil_append]
  obtain ⟨u, h1, h2⟩ := readMap_write hF hs.map hm (Nat.toDigits 10 g.verts.length ++
      (' ' :: ("vertices".toList ++ '\n' :: (writeVerts F g.verts ++ r))))
  obtain ⟨t, h3, h4⟩ := readVerts_write hF r g.verts hs.vert (skip (writeVerts F g.verts ++ r)) (GridFile.skip_skip _)
  refine ⟨t, ?_, h4⟩
  have hnum : num (2 ^ 32) u = .ok (g.verts.length, ' ' :: ("vertices".toList ++ '\n' :: (writeVerts F g.verts ++ r))) := by
    rw [← GridFile.num_skip, h2, GridFile.num_skip]
    exact num_write hs.verts (w := []) (by simp) (sep_cons _ (by decide))
  have hne : skip u ≠ [] := by
    intro h0
    rw [← GridFile.num_skip, h0] at hnum
    have : num (2 ^ 32) [] = .fatal := by decide
    rw [this] at hnum
    cases hnum
  unfold readGraph
  rw [e, h1, Outcome.bind_ok]
  dsimp only
  rw [if_neg hne, uint_of_num hnum, Outcome.bind_ok]
  dsimp only
  rw [after_self (by decide) (by decide), h3]
  rfl

theorem readInst_write {g : VGraph K} {m' : PMap K} (hs : Sized g) (hm : MapRemade rnd g.map m') (p q : Pt K) : readInst F (writeInst F g p q) = .ok (⟨g.verts.map (rndVert rnd), m', []⟩, rndPt rnd p, rndPt rnd q) := by
  obtain ⟨t, h1, h2⟩ := readGraph_write hF hs hm (F.pr p.x ++ ' ' :: (F.pr p.y ++ ' ' :: (F.pr q.x ++ ' ' :: (F.pr q.y ++ ['\n']))))
  unfold readInst writeInst
  rw [h1, Outcome.bind_ok]
  dsimp only
  have e : dbl F t = .ok (rnd p.x, ' ' :: (F.pr p.y ++ ' ' :: (F.pr q.x ++ ' ' :: (F.pr q.y ++ ['\n'])))) := by
    unfold dbl
    rw [← hF.ws, h2, hF.ws, hF.back p.x _ (sep_cons _ (by decide))]
  rw [e, Outcome.bind_ok]
  dsimp only
  rw [dbl_sp hF _ (sep_cons _ (by decide)), Outcome.bind_ok]
  dsimp only
  rw [dbl_sp hF _ (sep_cons _ (by decide)), Outcome.bind_ok]
  dsimp only
  rw [dbl_sp hF _ (sep_cons _ (by decide)), Outcome.map_ok]
  rfl

end Read

/-! ## Making a polygon of the vertices of a polygon -/

theorem rmcol_fix (vs : List (Pt K)) (i : Nat) (h : ∀ k, Bent vs k) : rmcol vs i = vs := by
  fun_induction rmcol vs i with
  | case1 vs i hi n hst ih =>
    have := h (i + 1) i hi (by omega)
    change straight (nbrs vs i hi).1 (nbrs vs i hi).2.1 (nbrs vs i hi).2.2 = true at hst
    rw [this] at hst
    cases hst
  | case2 vs i hi n hst ih => exact ih h
  | case3 vs i hi => rfl

theorem ofPts_isSome {ps : List (Pt K)} (h : ps ≠ []) : ∃ b, Bbox.ofPts ps = some b := by
  cases ps with
  | nil => exact absurd rfl h
  | cons p ps => exact ⟨_, rfl⟩

/-- Two sets of points, each in the box of the other. -/
theorem ofPts_eq {ps qs : List (Pt K)} {b c : Bbox K} (hb : Bbox.ofPts ps = some b) (hc : Bbox.ofPts qs = some c)
    (h1 : ∀ p ∈ ps, c.Mem p) (h2 : ∀ q ∈ qs, b.Mem q) : b = c := by
  obtain ⟨-, a1⟩ := ofPts_spec hb
  obtain ⟨-, a2⟩ := ofPts_spec hc
  obtain ⟨x1, x2, x3, x4⟩ := a1 c h1
  obtain ⟨y1, y2, y3, y4⟩ := a2 b h2
  obtain ⟨⟨_, _⟩, ⟨_, _⟩⟩ := b
  obtain ⟨⟨_, _⟩, ⟨_, _⟩⟩ := c
  simp only at x1 x2 x3 x4 y1 y2 y3 y4
  rw [le_antisymm x1 y1, le_antisymm x2 y2, le_antisymm x3 y3, le_antisymm x4 y4]

/-- The vertices that are removed do not change the box. -/
theorem rmcol_box (vs : List (Pt K)) (i : Nat) (h : ∃ a ∈ vs, ∃ b ∈ vs, a ≠ b) :
    Bbox.ofPts (rmcol vs i) = Bbox.ofPts vs := by
  fun_induction rmcol vs i with
  | case1 vs i hi n hst ih =>
    obtain ⟨a, ha, b, hb, hab⟩ := h
    have h2 : 2 ≤ vs.length := two_le ha hb hab
    obtain ⟨m1, m2⟩ := mem_eraseIdx_nbrs hi h2
    have hseg : OnSeg (nbrs vs i hi).1 (nbrs vs i hi).2.2 vs[i] := straight_onSeg hst
    have hd : ∃ a ∈ vs.eraseIdx i, ∃ b ∈ vs.eraseIdx i, a ≠ b := by
      by_contra hn
      push Not at hn
      have huw := hn _ m1 _ m2
      have hv : vs[i] = (nbrs vs i hi).1 := by
        have h3 := hseg
        rw [← huw] at h3
        exact onSeg_self h3
      have all : ∀ x ∈ vs, x = (nbrs vs i hi).1 := by
        intro x hx
        rcases (mem_iff_eraseIdx hi).1 hx with e | e
        · rw [e, hv]
        · exact hn _ e _ m1
      exact hab ((all a ha).trans (all b hb).symm)
    rw [ih hd]
    obtain ⟨x, hx⟩ := ofPts_isSome (ps := vs.eraseIdx i) (fun e => by rw [e] at m1; simp at m1)
    obtain ⟨y, hy⟩ := ofPts_isSome (ps := vs) (fun e => by rw [e] at ha; simp at ha)
    rw [hx, hy]
    obtain ⟨a1, -⟩ := ofPts_spec hx
    obtain ⟨b1, -⟩ := ofPts_spec hy
    rw [ofPts_eq hx hy (fun p hp => b1 p (List.mem_of_mem_eraseIdx hp)) fun q hq => ?_]
    rcases (mem_iff_eraseIdx hi).1 hq with e | e
    · rw [e]; exact Bbox.mem_onSeg (a1 _ m1) (a1 _ m2) hseg
    · exact a1 q e
  | case2 vs i hi n hst ih => exact ih h
  | case3 vs i hi => rfl

/-- Making a polygon of the vertices of a polygon gives that polygon. -/
theorem make_again {vs : List (Pt K)} {P : Poly K} (h : Poly.make vs = .ok P) : Poly.make P.verts = .ok P := by
  obtain ⟨hne, rfl⟩ := make_ok h
  have hb : rmcol (rmcol vs 0) 0 = rmcol vs 0 := rmcol_fix _ _ (rmcol_bent vs 0 fun j _ hj => by omega)
  have hd : ∃ a ∈ vs, ∃ b ∈ vs, a ≠ b := by
    by_contra hn
    push Not at hn
    cases vs with
    | nil => exact hne (by rw [rmcol]; simp)
    | cons z zs =>
      have : z :: zs = List.replicate (zs.length + 1) z := by
        rw [List.eq_replicate_iff]
        exact ⟨rfl, fun b hb => hn b hb z List.mem_cons_self⟩
      rw [this, rmcol_same] at hne
      exact hne rfl
  simp only [Poly.make, hb, initsides_eq hne, Outcome.map_ok, rmcol_box vs 0 hd]

/-- All vertices equal: there is no polygon. -/
theorem make_point {vs : List (Pt K)} (h : ∀ a ∈ vs, ∀ b ∈ vs, a = b) : Poly.make vs = .ub := by
  have e : rmcol vs 0 = [] := by
    cases vs with
    | nil => rw [rmcol]; simp
    | cons z zs =>
      have : z :: zs = List.replicate (zs.length + 1) z := by
        rw [List.eq_replicate_iff]
        exact ⟨rfl, fun b hb => h b hb z List.mem_cons_self⟩
      rw [this, rmcol_same]
  simp [Poly.make, e, initsides]

end Verif.VisFile
