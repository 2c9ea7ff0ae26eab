import Verif.Domains.VisFile
import Verif.Props.VisNav
import Mathlib.Data.Rat.Floor
import Mathlib.Tactic.FieldSimp
import Mathlib.Tactic.IntervalCases

/-!
# C109: the files of polygon maps and visibility graphs

`Domains/VisFile` is the model.  `Fmt` is the format of real numbers, `Faithful F rnd`: what `%g` writes is read as the number
rounded by `rnd`.
-/

namespace Verif.VisFile

open Verif.Geom Verif.Vis Verif.Str
open Verif.GridFile (skip lits uint num)

section
variable {K : Type} [Field K] [LinearOrder K] [IsStrictOrderedRing K]
variable {F : Fmt K} {rnd : K → K}

/-! ## What is written can be read -/

/-- Reading a map that was written: the polygons that are made of the rounded vertices, in the same order, and the bound.  What
follows in the file is left, except for white space. -/
theorem c109_map (hF : Faithful F rnd) {m m' : PMap K} (hs : MapSized m) (hm : MapRemade rnd m m') (rest : Str) :
    ∃ t, readMap F (writeMap F m ++ rest) = .ok (m', t) ∧ skip t = skip rest :=
  readMap_write hF hs hm rest

/-- Reading a graph that was written: the map as above, and the vertices and edges with rounded coordinates and rounded lengths.
The numbers of the polygons of the vertices are not in the file. -/
theorem c109_graph (hF : Faithful F rnd) {g : VGraph K} {m' : PMap K} (hs : Sized g) (hm : MapRemade rnd g.map m') (rest : Str) :
    ∃ t, readGraph F (writeGraph F g ++ rest) = .ok (⟨g.verts.map (rndVert rnd), m', []⟩, t) ∧ skip t = skip rest :=
  readGraph_write hF hs hm rest

/-- Reading a problem that was written. -/
theorem c109_inst (hF : Faithful F rnd) {g : VGraph K} {m' : PMap K} (hs : Sized g) (hm : MapRemade rnd g.map m') (p q : Pt K) :
    readInst F (writeInst F g p q) = .ok (⟨g.verts.map (rndVert rnd), m', []⟩, rndPt rnd p, rndPt rnd q) :=
  readInst_write hF hs hm p q

/-- Reading a map where there are no vertices of a graph gives the graph without vertices (the programs that want a graph are
also given maps). -/
theorem c109_map_only (hF : Faithful F rnd) {m m' : PMap K} (hs : MapSized m) (hm : MapRemade rnd m m') {w : Str}
    (hw : ∀ c ∈ w, isws c = true) : readGraph F (writeMap F m ++ w) = .ok (⟨[], m', []⟩, []) := by
  obtain ⟨t, h1, h2⟩ := readMap_write hF hs hm w
  have h3 : skip w = [] := by
    have := skip_wss w [] hw
    rw [List.append_nil] at this
    rw [this]
    rfl
  unfold readGraph
  rw [h1, Outcome.bind_ok]
  dsimp only
  rw [if_pos (h2.trans h3)]

/-- The numbers of a map that are written. -/
structure MapFixed (rnd : K → K) (m : PMap K) : Prop where
  poly : ∀ P ∈ m.polys, ∀ p ∈ P.verts, rndPt rnd p = p
  bound : ∀ B, m.bound = some B → ∀ p ∈ B.verts, rndPt rnd p = p

/-- All polygons of the map were made by a constructor. -/
structure MapMade (m : PMap K) : Prop where
  poly : ∀ P ∈ m.polys, ∃ vs, Poly.make vs = .ok P
  bound : ∀ B, m.bound = some B → ∃ vs, Poly.make vs = .ok B

/-- If the coordinates are not changed by the rounding, the map is not. -/
theorem remade_self {m : PMap K} (hm : MapMade m) (hf : MapFixed rnd m) : MapRemade rnd m m := by
  have key : ∀ P : Poly K, (∃ vs, Poly.make vs = .ok P) → (∀ p ∈ P.verts, rndPt rnd p = p) → Remade rnd P P := by
    rintro P ⟨vs, h⟩ hp
    unfold Remade
    rw [List.map_congr_left (g := id) hp, List.map_id]
    exact make_again h
  constructor
  · exact List.forall₂_same.2 fun P hP => key P (hm.poly P hP) (hf.poly P hP)
  · cases hb : m.bound with
    | none => exact .none
    | some B => exact .some (key B (hm.bound B hb) (hf.bound B hb))

/-- If no number of the graph is changed by the rounding, reading gives the graph that was written, without the numbers of the
polygons of the vertices. -/
theorem c109_exact (hF : Faithful F rnd) {g : VGraph K} (hs : Sized g) (hm : MapMade g.map) (hf : MapFixed rnd g.map)
    (hv : ∀ v ∈ g.verts, rndVert rnd v = v) (rest : Str) :
    ∃ t, readGraph F (writeGraph F g ++ rest) = .ok ({ g with polyno := [] }, t) ∧ skip t = skip rest := by
  obtain ⟨t, h1, h2⟩ := readGraph_write hF hs (remade_self hm hf) rest
  refine ⟨t, ?_, h2⟩
  rw [h1, List.map_congr_left (g := id) hv, List.map_id]

theorem rmcol_len (vs : List (Pt K)) (i : Nat) : (rmcol vs i).length ≤ vs.length := (rmcol_sub vs i).length_le

theorem remade_fixed (hr : ∀ x, rnd (rnd x) = rnd x) {P P' : Poly K} (h : Remade rnd P P') :
    (∃ vs, Poly.make vs = .ok P') ∧ (∀ p ∈ P'.verts, rndPt rnd p = p) ∧ P'.verts.length ≤ P.verts.length := by
  refine ⟨⟨_, h⟩, ?_⟩
  obtain ⟨hne, rfl⟩ := make_ok h
  refine ⟨fun p hp => ?_, by simpa using rmcol_len (P.verts.map (rndPt rnd)) 0⟩
  obtain ⟨q, -, rfl⟩ := List.mem_map.1 ((rmcol_sub _ 0).subset hp)
  simp [rndPt, hr]

/-- What was read once does not change any more: writing it and reading it again gives the same graph.  (So the errors of
rounding do not grow from program to program.) -/
theorem c109_stable (hF : Faithful F rnd) (hr : ∀ x, rnd (rnd x) = rnd x) {g g' : VGraph K} {m' : PMap K} (hs : Sized g)
    (hm : MapRemade rnd g.map m') {t : Str} (rest rest' : Str) (h : readGraph F (writeGraph F g ++ rest) = .ok (g', t)) :
    ∃ t', readGraph F (writeGraph F g' ++ rest') = .ok (g', t') ∧ skip t' = skip rest' := by
  obtain ⟨u, h1, -⟩ := readGraph_write hF hs hm rest
  rw [h1] at h
  cases h
  have hp : ∀ P' ∈ m'.polys, ∃ P ∈ g.map.polys, Remade rnd P P' := by
    intro P' hP'
    obtain ⟨i, hi, rfl⟩ := List.mem_iff_getElem.1 hP'
    have hl := hm.polys.length_eq
    exact ⟨_, List.getElem_mem (hl ▸ hi), List.Forall₂.get hm.polys (hl ▸ hi) hi⟩
  have hb : ∀ B', m'.bound = some B' → ∃ B, g.map.bound = some B ∧ Remade rnd B B' := by
    intro B' e
    have := hm.bound
    rw [e] at this
    generalize g.map.bound = x at this ⊢
    generalize hy : some B' = y at this
    cases this with
    | none => cases hy
    | some h => cases hy; exact ⟨_, rfl, h⟩
  have hmade : MapMade m' :=
    ⟨fun P' h' => (hp P' h').elim fun P k => (remade_fixed hr k.2).1, fun B' h' => (hb B' h').elim fun B k => (remade_fixed hr k.2).1⟩
  have hfix : MapFixed rnd m' :=
    ⟨fun P' h' => (hp P' h').elim fun P k => (remade_fixed hr k.2).2.1,
      fun B' h' => (hb B' h').elim fun B k => (remade_fixed hr k.2).2.1⟩
  have hsized : MapSized m' := by
    refine ⟨hm.polys.length_eq ▸ hs.map.polys, fun P' h' => ?_, fun B' h' => ?_⟩
    · obtain ⟨P, k1, k2⟩ := hp P' h'
      exact (remade_fixed hr k2).2.2.trans_lt (hs.map.poly P k1)
    · obtain ⟨B, k1, k2⟩ := hb B' h'
      exact (remade_fixed hr k2).2.2.trans_lt (hs.map.bound B k1)
  refine c109_exact hF ⟨hsized, ?_, ?_⟩ hmade hfix ?_ rest'
  · simpa using hs.verts
  · intro v hv
    obtain ⟨w, hw, rfl⟩ := List.mem_map.1 hv
    obtain ⟨k1, k2, k3⟩ := hs.vert w hw
    refine ⟨k1, by simpa [rndVert] using k2, fun e he => ?_⟩
    obtain ⟨f, hf, rfl⟩ := List.mem_map.1 he
    exact k3 f hf
  · intro v hv
    obtain ⟨w, hw, rfl⟩ := List.mem_map.1 hv
    simp only [rndVert, rndPt, hr, List.map_map, Vert.mk.injEq, true_and]
    refine List.map_congr_left fun e _ => ?_
    simp [rndEdge, hr]

/-- The graph that is read is as good for the search as the graph that was written, if no number is changed by the rounding:
links go both ways and have the length of the line between their ends (`c86_astar` and the others then apply). -/
theorem c109_wf {dist : Pt K → Pt K → K} {g : VGraph K} (h : Wf dist g) : Wf dist { g with polyno := [] } :=
  ⟨h.id, h.edge, fun i k e => by simp at e⟩

/-! ## Broken files -/

/-- The end of the file where a polygon, a vertex or a count should be, and a count without number, are rejected. -/
theorem c109_short (hF : F.rd [] = none) {w : Str} (hw : ∀ c ∈ w, isws c = true) (n : Nat) :
    readMap F w = .fatal ∧ readPoly F w = .fatal ∧ readPolys F (n + 1) w = .fatal ∧ readVert F w = .fatal ∧
      readVerts F (n + 1) w = .fatal ∧ readEdge F w = .fatal ∧ readPts F (n + 1) [] = .fatal := by
  have hn : num (2 ^ 32) w = .fatal := by
    have := num_wss (2 ^ 32) w [] hw
    rw [List.append_nil] at this
    rw [this]
    decide
  have hp : readPoly F w = .fatal := by unfold readPoly; rw [hn]; rfl
  have hv : readVert F w = .fatal := by unfold readVert; rw [hn]; rfl
  refine ⟨?_, hp, ?_, hv, ?_, ?_, ?_⟩
  · unfold readMap
    cases w with
    | nil => rfl
    | cons c w =>
      have hc : c ≠ 'b' := by
        rintro rfl
        exact absurd (hw 'b' List.mem_cons_self) (by decide)
      rw [readBound_none hc, Outcome.bind_ok]
      dsimp only
      rw [hn]
      rfl
  · rw [readPolys, hp]; rfl
  · rw [readVerts, hv]; rfl
  · unfold readEdge; rw [hn]; rfl
  · rw [readPts, dbl, hF]; rfl

/-- A polygon that is smaller than the precision of the file cannot be read: if all vertices are rounded to the same point,
nothing is left of the polygon and the list of sides is made of an empty list. -/
theorem c109_collapse (hF : Faithful F rnd) {m : PMap K} {P : Poly K} {ps : List (Poly K)} (hs : MapSized m)
    (hm : m.polys = P :: ps) (hb : m.bound = none)
    (hP : ∀ p ∈ P.verts, ∀ q ∈ P.verts, rndPt rnd p = rndPt rnd q) (rest : Str) : readMap F (writeMap F m ++ rest) = .ub := by
  have hl : " polygons\n".toList = ' ' :: ("polygons".toList ++ ['\n']) := by decide
  have e : writeMap F m ++ rest = writeBound F m.bound ++ (Nat.toDigits 10 m.polys.length ++
      (' ' :: ("polygons".toList ++ '\n' :: (writePolys F m.polys ++ rest)))) := by
    simp only [writeMap, Nat.mod_eq_of_lt hs.polys, hl, List.append_assoc, List.cons_append, List.nil_append]
  obtain ⟨w, h1, h2⟩ := readBound_write hF (b := none) (b' := none) .none (fun B h => by cases h) m.polys.length
    (' ' :: ("polygons".toList ++ '\n' :: (writePolys F m.polys ++ rest)))
  unfold readMap
  rw [e, hb, h2, Outcome.bind_ok]
  dsimp only
  rw [num_write hs.polys h1 (sep_cons _ (by decide)), Outcome.bind_ok]
  dsimp only
  rw [after_self (by decide) (by decide), hm, List.length_cons, readPolys, readPoly_skip]
  have hp : readPoly F (writePolys F (P :: ps) ++ rest) = .ub := by
    have e2 : writePolys F (P :: ps) ++ rest = Nat.toDigits 10 P.verts.length ++ (writePts F P.verts ++ '\n' :: (writePolys F ps ++ rest)) := by
      simp [writePolys, writePoly]
    have := num_write (w := []) (hs.poly P (by rw [hm]; exact List.mem_cons_self)) (by simp)
      (sep_pts hF P.verts (r := '\n' :: (writePolys F ps ++ rest)) (sep_cons _ (by decide)))
    rw [List.nil_append] at this
    unfold readPoly
    rw [e2, this, Outcome.bind_ok]
    dsimp only
    rw [readPts_write hF _ (sep_cons _ (by decide)), Outcome.bind_ok]
    dsimp only
    rw [make_point]
    · rfl
    · intro a ha b hb
      obtain ⟨p, hp, rfl⟩ := List.mem_map.1 ha
      obtain ⟨q, hq, rfl⟩ := List.mem_map.1 hb
      exact hP p hp q hq
  rw [hp]
  rfl

/-- A polygon with no vertices, whatever follows: undefined. -/
theorem c109_empty_polygon {s t : Str} (h : num (2 ^ 32) s = .ok (0, t)) : readPoly F s = .ub := by
  unfold readPoly
  rw [h, Outcome.bind_ok]
  dsimp only
  rw [readPts, Outcome.bind_ok]
  dsimp only
  rw [make_point (by simp)]
  rfl

/-- If a map is followed by something that is not a number, the count of the vertices is used without having been set. -/
theorem c109_uninit (hF : Faithful F rnd) {m m' : PMap K} (hs : MapSized m) (hm : MapRemade rnd m m') {rest : Str}
    (h1 : skip rest ≠ []) (h2 : uint (2 ^ 32) rest = .ok none) : readGraph F (writeMap F m ++ rest) = .ub := by
  obtain ⟨t, h3, h4⟩ := readMap_write hF hs hm rest
  have h5 : uint (2 ^ 32) t = uint (2 ^ 32) rest := by
    have key : ∀ s, uint (2 ^ 32) (skip s) = uint (2 ^ 32) s := fun s => by
      unfold uint
      rw [GridFile.skip_skip]
    rw [← key t, h4, key]
  unfold readGraph
  rw [h3, Outcome.bind_ok]
  dsimp only
  rw [if_neg (by rw [h4]; exact h1), h5, h2, Outcome.bind_ok]

end

/-! ## A format -/

/-- Numbers in thousandths: a sign and digits. -/
def thou (rnd : ℚ → ℚ) : Fmt ℚ where
  pr x := (if ⌊1000 * rnd x⌋ < 0 then ['-'] else []) ++ Nat.toDigits 10 ⌊1000 * rnd x⌋.natAbs
  rd s :=
    let s := skip s
    let neg := s.head? == some '-'
    let t := if neg then s.tail else s
    if t.takeWhile Char.isDigit = [] then none
    else some ((if neg then -1 else 1) * (Nat.ofDigitChars 10 (t.takeWhile Char.isDigit) 0 : ℚ) / 1000, t.dropWhile Char.isDigit)

theorem thou_faithful {rnd : ℚ → ℚ} (h : ∀ x, (⌊1000 * rnd x⌋ : ℚ) = 1000 * rnd x) : Faithful (thou rnd) rnd := by
  refine ⟨fun s => ?_, fun x r hr => ?_⟩
  · simp only [thou, GridFile.skip_skip]
  · obtain ⟨z, hz⟩ : ∃ z, ⌊1000 * rnd x⌋ = z := ⟨_, rfl⟩
    have hx := h x
    rw [hz] at hx
    obtain ⟨d1, d2, d3⟩ := Segments.decimal_digits z.natAbs
    obtain ⟨t1, t2⟩ := Segments.takeWhile_all d1 (sep_not_digit hr)
    simp only [thou, hz]
    by_cases hn : z < 0
    · have e : skip (((if z < 0 then ['-'] else []) ++ Nat.toDigits 10 z.natAbs) ++ r) = '-' :: (Nat.toDigits 10 z.natAbs ++ r) := by
        rw [if_pos hn, List.append_assoc, List.singleton_append]
        exact GridFile.skip_self fun c hc => by
          simp only [List.head?_cons, Option.some.injEq] at hc
          rw [← hc]; decide
      rw [e]
      simp only [List.head?_cons, beq_self_eq_true, if_true, List.tail_cons, t1, t2, d2, if_false, d3]
      have : ((z.natAbs : ℕ) : ℚ) = -z := by
        have e : ((z.natAbs : ℕ) : ℤ) = -z := by omega
        rw [← Int.cast_natCast, e, Int.cast_neg]
      rw [this, hx]
      simp only [Option.some.injEq, Prod.mk.injEq, and_true]
      ring
    · obtain ⟨c, t, e1, hc⟩ := GridFile.head_digits z.natAbs r
      have hc' := Segments.digit_ne hc
      have e : skip (((if z < 0 then ['-'] else []) ++ Nat.toDigits 10 z.natAbs) ++ r) = Nat.toDigits 10 z.natAbs ++ r := by
        rw [if_neg hn, List.nil_append, e1]
        exact GridFile.skip_self fun d hd => by
          simp only [List.head?_cons, Option.some.injEq] at hd
          rw [← hd]; exact hc'.2.2
      have e2 : ((Nat.toDigits 10 z.natAbs ++ r).head? == some '-') = false := by
        rw [e1]
        simpa using hc'.1
      rw [e]
      simp only [e2, Bool.false_eq_true, if_false, t1, t2, d2, d3]
      have : ((z.natAbs : ℕ) : ℚ) = z := by
        have e : ((z.natAbs : ℕ) : ℤ) = z := by omega
        rw [← Int.cast_natCast, e]
      rw [this, hx]
      simp only [Option.some.injEq, Prod.mk.injEq, and_true]
      ring

/-- Six digits, for numbers from one to ten thousand (and three places after the point below that). -/
def six (x : ℚ) : ℚ := if |x| < 1000 then (⌊1000 * x⌋ : ℚ) / 1000 else (⌊100 * x⌋ : ℚ) / 100

theorem six_thou (x : ℚ) : (⌊1000 * six x⌋ : ℚ) = 1000 * six x := by
  unfold six
  split
  · have : (1000 : ℚ) * (⌊1000 * x⌋ / 1000) = ((⌊1000 * x⌋ : ℤ) : ℚ) := by field_simp
    rw [this, Int.floor_intCast]
  · have : (1000 : ℚ) * (⌊100 * x⌋ / 100) = ((10 * ⌊100 * x⌋ : ℤ) : ℚ) := by push_cast; ring
    rw [this, Int.floor_intCast]

theorem six_six (x : ℚ) : six (six x) = six x := by
  have key : ∀ y : ℚ, (⌊1000 * y⌋ : ℚ) = 1000 * y → (¬ |y| < 1000 → (⌊100 * y⌋ : ℚ) = 100 * y) → six y = y := by
    intro y h1 h2
    unfold six
    split
    · rw [h1]; field_simp
    · next h => rw [h2 h]; field_simp
  refine key _ (six_thou x) fun h => ?_
  unfold six at h ⊢
  split at h
  · next hx =>
    rw [if_pos hx]
    obtain ⟨h1, h2⟩ := abs_lt.1 hx
    have h3 : (-1000000 : ℤ) ≤ ⌊1000 * x⌋ := Int.le_floor.2 (by push_cast; linarith)
    have h4 : ⌊1000 * x⌋ < 1000000 := Int.floor_lt.2 (by push_cast; linarith)
    have h5 : ⌊1000 * x⌋ = -1000000 := by
      by_contra hne
      have h6 : (-1000000 : ℤ) < ⌊1000 * x⌋ := by omega
      refine h (abs_lt.2 ⟨?_, ?_⟩)
      · have : (-1000000 : ℚ) < ⌊1000 * x⌋ := by exact_mod_cast h6
        linarith
      · have : (⌊1000 * x⌋ : ℚ) < 1000000 := by exact_mod_cast h4
        linarith
    rw [h5]
    norm_num
  · next hx =>
    rw [if_neg hx]
    have : (100 : ℚ) * (⌊100 * x⌋ / 100) = ((⌊100 * x⌋ : ℤ) : ℚ) := by field_simp
    rw [this, Int.floor_intCast]

theorem six_faithful : Faithful (thou six) six := thou_faithful six_thou

example : String.ofList (writeMap (thou six) ⟨[rect 0 0 1 (-1 / 2)], some (rect 0 0 4 4)⟩) =
    "bound: 4 0 0 0 4000 4000 4000 4000 0\n1 polygons\n4 0 0 0 -500 1000 -500 1000 0\n" := by decide +kernel

/-- The rectangle of the examples with its coordinates in the file. -/
theorem rect_remade : MapRemade six ⟨[rect 0 0 1 1], none⟩ ⟨[rect 0 0 1 1], none⟩ :=
  ⟨.cons (by
    unfold Remade
    have : (rect 0 0 1 1).verts.map (rndPt six) = [⟨0, 0⟩, ⟨0, 1⟩, ⟨1, 1⟩, ⟨1, 0⟩] := by decide +kernel
    rw [this]
    exact rect1) .nil, .none⟩

theorem rect_sized : MapSized (⟨[rect 0 0 1 1], none⟩ : PMap ℚ) :=
  ⟨by decide, fun P hP => by simp only [List.mem_singleton] at hP; subst hP; decide, fun B h => by cases h⟩

/-- Hypotheses of `c109_map`, `c109_uninit`: a map with a rectangle. -/
example : Faithful (thou six) six ∧ MapSized (⟨[rect 0 0 1 1], none⟩ : PMap ℚ) ∧
    MapRemade six ⟨[rect 0 0 1 1], none⟩ ⟨[rect 0 0 1 1], none⟩ ∧ (thou six).rd [] = none ∧
    uint (2 ^ 32) "vertices 4".toList = .ok none ∧ skip "vertices 4".toList ≠ [] :=
  ⟨six_faithful, rect_sized, rect_remade, by decide +kernel, by decide +kernel, by decide +kernel⟩

/-- For instance: the word `vertices` before the number. -/
theorem c109_uninit_text : readGraph (thou six) (writeMap (thou six) ⟨[rect 0 0 1 1], none⟩ ++ "vertices 4\n".toList) = .ub :=
  c109_uninit six_faithful rect_sized rect_remade (by decide +kernel) (by decide +kernel)

/-- Two characters of white space after `bound:` (or none) and the bound is not seen: its number of vertices is taken for the
number of polygons, and the rest is nonsense.  Here the next number is 0, which is a polygon without vertices. -/
theorem c109_bound_spaces : readMap (thou six) "bound:  3 0 0 4000 0 0 4000\n0 polygons\n".toList = .ub := by
  have h1 : readBound (thou six) "bound:  3 0 0 4000 0 0 4000\n0 polygons\n".toList =
      .ok (none, "3 0 0 4000 0 0 4000\n0 polygons\n".toList) := by
    have e : "bound:  3 0 0 4000 0 0 4000\n0 polygons\n".toList = "bound:".toList ++ "  3 0 0 4000 0 0 4000\n0 polygons\n".toList := by
      decide
    unfold readBound
    rw [e, GridFile.lits_self]
    dsimp only
    rw [if_neg (by decide)]
    have e2 : skip "  3 0 0 4000 0 0 4000\n0 polygons\n".toList = "3 0 0 4000 0 0 4000\n0 polygons\n".toList := by decide
    rw [e2]
  have h2 : num (2 ^ 32) "3 0 0 4000 0 0 4000\n0 polygons\n".toList = .ok (3, " 0 0 4000 0 0 4000\n0 polygons\n".toList) := by
    decide +kernel
  have h3 : after "polygons".toList " 0 0 4000 0 0 4000\n0 polygons\n".toList = "0 0 4000 0 0 4000\n0 polygons\n".toList := by
    decide +kernel
  have h4 : num (2 ^ 32) "0 0 4000 0 0 4000\n0 polygons\n".toList = .ok (0, " 0 4000 0 0 4000\n0 polygons\n".toList) := by
    decide +kernel
  unfold readMap
  rw [h1, Outcome.bind_ok]
  dsimp only
  rw [h2, Outcome.bind_ok]
  dsimp only
  rw [h3, readPolys, c109_empty_polygon h4]
  rfl

/-- Hypothesis of `c109_collapse`: a triangle with sides of less than a thousandth. -/
example : ∀ p ∈ [(⟨10, 10⟩ : Pt ℚ), ⟨10, 100003 / 10000⟩, ⟨100002 / 10000, 10⟩], ∀ q ∈ [(⟨10, 10⟩ : Pt ℚ), ⟨10, 100003 / 10000⟩,
    ⟨100002 / 10000, 10⟩], rndPt six p = rndPt six q := by decide +kernel

/-! ## What is lost -/

/-- The graph of a square. -/
def squareG : VGraph ℚ :=
  ⟨[⟨0, ⟨0, 0⟩, [⟨0, 1, 4⟩, ⟨0, 3, 4⟩, ⟨0, 3, 4⟩]⟩, ⟨1, ⟨0, 4⟩, [⟨1, 0, 4⟩, ⟨1, 2, 4⟩]⟩,
    ⟨2, ⟨4, 4⟩, [⟨2, 1, 4⟩, ⟨2, 3, 4⟩, ⟨2, 3, 4⟩]⟩, ⟨3, ⟨4, 0⟩, [⟨3, 0, 4⟩, ⟨3, 2, 4⟩, ⟨3, 0, 4⟩, ⟨3, 2, 4⟩]⟩],
    ⟨[rect 0 0 4 4], none⟩, [0, 0, 0, 0]⟩

theorem square_build : build tq l1 ⟨[rect 0 0 4 4], none⟩ = .ok squareG := by decide +kernel

theorem square_made : MapMade (⟨[rect 0 0 4 4], none⟩ : PMap ℚ) :=
  ⟨fun P hP => by
    simp only [List.mem_singleton] at hP
    subst hP
    exact ⟨_, rect_make (by decide +kernel) (by decide +kernel)⟩, fun B h => by cases h⟩

theorem square_fixed : MapFixed six (⟨[rect 0 0 4 4], none⟩ : PMap ℚ) :=
  ⟨fun P hP => by
    simp only [List.mem_singleton] at hP
    subst hP
    decide +kernel, fun B h => by cases h⟩

theorem square_sized : Sized squareG where
  map := ⟨by decide, fun P hP => by
    simp only [squareG, List.mem_singleton] at hP
    subst hP
    decide, fun B h => by cases h⟩
  verts := by decide
  vert := by decide

/-- Hypotheses of `c109_exact`: a square. -/
example : build tq l1 ⟨[rect 0 0 4 4], none⟩ = .ok squareG ∧ Sized squareG ∧ MapMade squareG.map ∧ MapFixed six squareG.map ∧
    (∀ v ∈ squareG.verts, rndVert six v = v) ∧ ∀ x : ℚ, six (six x) = six x :=
  ⟨square_build, square_sized, square_made, square_fixed, by decide +kernel, six_six⟩

/-- The numbers of the polygons are lost: in the graph that was built, a location inside of the square is linked to nothing but
what is also inside; in the graph that was read from the file, it is linked to the corners. -/
theorem c109_owner_lost : ∃ (m : PMap ℚ) (g g' : VGraph ℚ) (n n' : Nav ℚ) (t : Str) (v v' : Vert ℚ), MapMade m ∧ build tq l1 m = .ok g ∧
    readGraph (thou six) (writeGraph (thou six) g) = .ok (g', t) ∧
    mkNav tq l1 g ⟨1, 2⟩ ⟨3, 2⟩ = .ok n ∧ mkNav tq l1 g' ⟨1, 2⟩ ⟨3, 2⟩ = .ok n' ∧
    n.g.verts[n.start]? = some v ∧ n'.g.verts[n'.start]? = some v' ∧
    v.edges.map (·.dst) = [5] ∧ v'.edges.map (·.dst) = [0, 1, 2, 3, 5] := by
  obtain ⟨t, h1, -⟩ := c109_exact six_faithful square_sized square_made square_fixed (by decide +kernel) []
  rw [List.append_nil] at h1
  have h2 : ((mkNav tq l1 squareG ⟨1, 2⟩ ⟨3, 2⟩).map fun n => (n.g.verts[n.start]?).map fun v => v.edges.map (·.dst)) = .ok (some [5]) := by
    decide +kernel
  have h3 : ((mkNav tq l1 { squareG with polyno := [] } ⟨1, 2⟩ ⟨3, 2⟩).map fun n => (n.g.verts[n.start]?).map fun v =>
      v.edges.map (·.dst)) = .ok (some [0, 1, 2, 3, 5]) := by decide +kernel
  obtain ⟨n, a1, a2⟩ := Outcome.map_eq_ok.1 h2
  obtain ⟨n', b1, b2⟩ := Outcome.map_eq_ok.1 h3
  obtain ⟨v, a3, a4⟩ := Option.map_eq_some_iff.1 a2
  obtain ⟨v', b3, b4⟩ := Option.map_eq_some_iff.1 b2
  exact ⟨_, _, _, n, n', t, v, v', square_made, square_build, h1, a1, b1, a3, b3, a4, b4⟩

/-- A location that is written is not the location that was looked at: (2,4.0004) is outside of the square; in the file it is
(2,4), which is obstructed. -/
theorem c109_moved : squareG.map.obstructed tq ⟨2, 4 + 4 / 10000⟩ = false ∧ ∃ g' p' q',
    readInst (thou six) (writeInst (thou six) squareG ⟨2, 4 + 4 / 10000⟩ ⟨6, 6⟩) = .ok (g', p', q') ∧ g'.map = squareG.map ∧
    g'.map.obstructed tq p' = true :=
  ⟨by decide +kernel, _, _, _, c109_inst six_faithful square_sized (remade_self square_made square_fixed) _ _, rfl, by decide +kernel⟩

/-! ## Rounded lengths -/

/-- The length of a line, cut off to thousandths.  It is exact for the lines of the example below. -/
def qdist (p q : Pt ℚ) : ℚ :=
  (Nat.sqrt (⌊1000000 * ((q.x - p.x) * (q.x - p.x) + (q.y - p.y) * (q.y - p.y))⌋.toNat) : ℚ) / 1000

/-- A triangle with a side of length 1040.013. -/
def tri : Poly ℚ :=
  ⟨[⟨0, 0⟩, ⟨0, 960012 / 1000⟩, ⟨400005 / 1000, 960012 / 1000⟩],
    [⟨⟨0, 0⟩, ⟨0, 960012 / 1000⟩⟩, ⟨⟨0, 960012 / 1000⟩, ⟨400005 / 1000, 960012 / 1000⟩⟩, ⟨⟨400005 / 1000, 960012 / 1000⟩, ⟨0, 0⟩⟩],
    some ⟨⟨0, 0⟩, ⟨400005 / 1000, 960012 / 1000⟩⟩⟩

theorem tri_make : Poly.make tri.verts = .ok tri := by
  have h : rmcol tri.verts 0 = tri.verts := by
    refine rmcol_fix _ _ fun k j hj _ => ?_
    have hj : j < 3 := hj
    interval_cases j <;> decide +kernel +revert
  unfold Poly.make
  dsimp only
  rw [h]
  decide +kernel

def triG : VGraph ℚ :=
  ⟨[⟨0, ⟨0, 0⟩, [⟨0, 1, 960012 / 1000⟩, ⟨0, 2, 1040013 / 1000⟩, ⟨0, 2, 1040013 / 1000⟩]⟩,
    ⟨1, ⟨0, 960012 / 1000⟩, [⟨1, 0, 960012 / 1000⟩, ⟨1, 2, 400005 / 1000⟩]⟩,
    ⟨2, ⟨400005 / 1000, 960012 / 1000⟩, [⟨2, 0, 1040013 / 1000⟩, ⟨2, 1, 400005 / 1000⟩, ⟨2, 0, 1040013 / 1000⟩]⟩],
    ⟨[tri], none⟩, [0, 0, 0]⟩

theorem tri_build : build tq qdist ⟨[tri], none⟩ = .ok triG := by decide +kernel

theorem tri_sized : Sized triG where
  map := ⟨by decide, fun P hP => by
    simp only [triG, List.mem_singleton] at hP
    subst hP
    decide, fun B h => by cases h⟩
  verts := by decide
  vert := by decide

set_option synthInstance.maxSize 1000 in
/-- Coordinates and lengths are rounded independently, so the straight line may be longer than a way through the graph: from
(-5,-12) to (405.005,972.012) the distance is 1066.013, and the way along the side of the triangle in the graph that was read has
length 1066.01, because 1040.013 is in the file as 1040.01.  The heuristic is not admissible, although every number in the file
is right to six digits. -/
theorem c109_inadmissible : ∃ (m : PMap ℚ) (g g' : VGraph ℚ) (p q p' q' : Pt ℚ) (n : Nav ℚ) (c : ℚ), MapMade m ∧
    build tq qdist m = .ok g ∧ readInst (thou six) (writeInst (thou six) g p q) = .ok (g', p', q') ∧ p' = p ∧ q' = q ∧
    mkNav tq qdist g' p' q' = .ok n ∧ Search.Walk (dom n) n.start n.finish c ∧ c < hval qdist n n.start ∧
    qdist p q * qdist p q = (q.x - p.x) * (q.x - p.x) + (q.y - p.y) * (q.y - p.y) := by
  have hm : MapMade (⟨[tri], none⟩ : PMap ℚ) := ⟨fun P hP => by
    simp only [List.mem_singleton] at hP
    subst hP
    exact ⟨_, tri_make⟩, fun B h => by cases h⟩
  have hf : MapFixed six (⟨[tri], none⟩ : PMap ℚ) := ⟨fun P hP => by
    simp only [List.mem_singleton] at hP
    subst hP
    decide +kernel, fun B h => by cases h⟩
  have h1 := c109_inst six_faithful tri_sized (remade_self hm hf) ⟨-5, -12⟩ ⟨405005 / 1000, 972012 / 1000⟩
  have e1 : rndPt six (⟨-5, -12⟩ : Pt ℚ) = ⟨-5, -12⟩ := by decide +kernel
  have e2 : rndPt six (⟨405005 / 1000, 972012 / 1000⟩ : Pt ℚ) = ⟨405005 / 1000, 972012 / 1000⟩ := by decide +kernel
  have h2 : ((mkNav tq qdist ⟨triG.verts.map (rndVert six), ⟨[tri], none⟩, []⟩ ⟨-5, -12⟩ ⟨405005 / 1000, 972012 / 1000⟩).map fun n =>
      (n.start, n.finish, n.g.verts[3]?, n.g.verts[0]?, n.g.verts[2]?, hval qdist n 3)) =
      .ok (3, 4, some ⟨3, ⟨-5, -12⟩, [⟨3, 0, 13⟩, ⟨3, 1, 972024 / 1000⟩]⟩,
        some ⟨0, ⟨0, 0⟩, [⟨0, 1, 960012 / 1000⟩, ⟨0, 2, 104001 / 100⟩, ⟨0, 2, 104001 / 100⟩, ⟨0, 3, 13⟩]⟩,
        some ⟨2, ⟨400005 / 1000, 960012 / 1000⟩, [⟨2, 0, 104001 / 100⟩, ⟨2, 1, 400005 / 1000⟩, ⟨2, 0, 104001 / 100⟩, ⟨2, 4, 13⟩]⟩,
        1066013 / 1000) := by decide +kernel
  obtain ⟨n, h3, h4⟩ := Outcome.map_eq_ok.1 h2
  simp only [Prod.mk.injEq] at h4
  obtain ⟨k1, k2, k3, k4, k5, k6⟩ := h4
  refine ⟨_, _, _, _, _, _, _, n, 0 + 13 + 104001 / 100 + 13, hm, tri_build, h1, e1, e2, ?_, ?_, ?_, by decide +kernel⟩
  · rw [e1, e2]; exact h3
  · rw [k1, k2]
    have w1 := Search.Walk.snoc (d := dom n) (o := some (⟨3, 0, 13⟩ : VEdge ℚ)) (Search.Walk.nil 3) (by simp [dom, k3])
    have w2 := Search.Walk.snoc (d := dom n) (o := some (⟨0, 2, 104001 / 100⟩ : VEdge ℚ)) w1 (by simp [dom, k4])
    have w3 := Search.Walk.snoc (d := dom n) (o := some (⟨2, 4, 13⟩ : VEdge ℚ)) w2 (by simp [dom, k5])
    exact w3
  · rw [k1, k6]; norm_num

end Verif.VisFile
