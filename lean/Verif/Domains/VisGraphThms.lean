import Verif.Domains.VisGraph

/-!
# Lemmas about the visibility graph
-/

namespace Verif.Vis

open Verif.Geom

variable {K : Type} [Field K] [LinearOrder K] [IsStrictOrderedRing K]

theorem foldO_ind {σ α : Type*} {f : σ → α → Outcome σ} (Inv : List α → σ → Prop) :
    ∀ (l pre : List α) (s : σ), Inv pre s →
      (∀ pre a s, a ∈ l → Inv pre s → ∃ s', f s a = .ok s' ∧ Inv (pre ++ [a]) s') →
      ∃ s', foldO f s l = .ok s' ∧ Inv (pre ++ l) s'
  | [], pre, s, h, _ => ⟨s, rfl, by simpa using h⟩
  | a :: l, pre, s, h, hs => by
    obtain ⟨s1, h1, h2⟩ := hs pre a s List.mem_cons_self h
    obtain ⟨s2, h3, h4⟩ := foldO_ind Inv l (pre ++ [a]) s1 h2 fun pre b s hb => hs pre b s (List.mem_cons_of_mem _ hb)
    refine ⟨s2, by simp only [foldO, h1, Outcome.bind_ok, h3], ?_⟩
    simpa using h4

/-! ## Specification -/

/-- There is an edge from vertex `a` to vertex `b`. -/
def Linked (g : VGraph K) (a b : Nat) : Prop := ∃ v : Vert K, g.verts[a]? = some v ∧ ∃ e ∈ v.edges, e.dst = b

/-- The point of a vertex. -/
def VGraph.pt (g : VGraph K) (i : Nat) : Option (Pt K) := g.verts[i]?.map (·.pt)

/-- A well-formed graph: vertices are numbered by position; an edge of a vertex starts there and ends at another vertex, its
length is the distance of the two, and the other vertex has the same edge in the opposite direction; a vertex that is
recorded to be of a polygon is one of its vertices. -/
structure Wf (dist : Pt K → Pt K → K) (g : VGraph K) : Prop where
  id : ∀ (i : Nat) (v : Vert K), g.verts[i]? = some v → v.id = i
  edge : ∀ (i : Nat) (v : Vert K), g.verts[i]? = some v → ∀ e ∈ v.edges, e.src = i ∧ e.dst ≠ i ∧
    ∃ w : Vert K, g.verts[e.dst]? = some w ∧ e.dist = dist v.pt w.pt ∧ (⟨e.dst, i, e.dist⟩ : VEdge K) ∈ w.edges
  own : ∀ i k : Nat, g.polyno[i]? = some k → ∃ (P : Poly K) (v : Vert K), g.map.polys[k]? = some P ∧ g.verts[i]? = some v ∧ v.pt ∈ P.verts

theorem Linked.symm {dist : Pt K → Pt K → K} {g : VGraph K} (hg : Wf dist g) {a b : Nat} (h : Linked g a b) : Linked g b a := by
  obtain ⟨v, h1, e, h2, rfl⟩ := h
  obtain ⟨_, _, w, h5, _, h7⟩ := hg.edge a v h1 e h2
  exact ⟨w, h5, _, h7, rfl⟩

/-! ## Adding edges and vertices -/

/-- What `addedge` adds at vertex `a`. -/
def extra (i j : Nat) (d : K) (a : Nat) : List (VEdge K) :=
  if a = i then [⟨i, j, d⟩] else if a = j then [⟨j, i, d⟩] else []

theorem modify2 {vs : List (Vert K)} {i j : Nat} (hij : i ≠ j) (d : K) (a : Nat) :
    ((vs.modify i (Vert.push ⟨i, j, d⟩)).modify j (Vert.push ⟨j, i, d⟩))[a]? =
      vs[a]?.map fun v => { v with edges := v.edges ++ extra i j d a } := by
  rw [List.getElem?_modify, List.getElem?_modify]
  unfold extra
  cases vs[a]? with
  | none => simp
  | some v =>
    by_cases h1 : a = i
    · subst h1
      simp [hij.symm, Vert.push]
    · by_cases h2 : a = j
      · subst h2
        simp [h1, Ne.symm h1, Vert.push]
      · simp [h1, h2, Ne.symm h1, Ne.symm h2]

/-- What the tests of `consideredge` depend on. -/
structure Same (g g' : VGraph K) : Prop where
  pts : ∀ i, g'.pt i = g.pt i
  map : g'.map = g.map
  polyno : g'.polyno = g.polyno
  len : g'.verts.length = g.verts.length

theorem Same.refl (g : VGraph K) : Same g g := ⟨fun _ => rfl, rfl, rfl, rfl⟩

theorem Same.trans {g g' g'' : VGraph K} (h : Same g g') (h' : Same g' g'') : Same g g'' :=
  ⟨fun i => (h'.pts i).trans (h.pts i), h'.map.trans h.map, h'.polyno.trans h.polyno, h'.len.trans h.len⟩

theorem addedge_spec {dist : Pt K → Pt K → K} (hsym : ∀ p q, dist p q = dist q p) {g : VGraph K} (hg : Wf dist g)
    {i j : Nat} (hij : i ≠ j) (hi : i < g.verts.length) (hj : j < g.verts.length) :
    ∃ g', addedge dist g i j = .ok g' ∧ Wf dist g' ∧ Same g g' ∧
      ∀ a b, Linked g' a b ↔ Linked g a b ∨ (a = i ∧ b = j) ∨ (a = j ∧ b = i) := by
  have ei : g.verts[i]? = some g.verts[i] := List.getElem?_eq_getElem hi
  have ej : g.verts[j]? = some g.verts[j] := List.getElem?_eq_getElem hj
  generalize hu : g.verts[i] = u at ei
  generalize hv : g.verts[j] = v at ej
  refine ⟨_, by simp only [addedge, ei, ej]; rfl, ?_⟩
  have hget : ∀ a v', ((g.verts.modify i (Vert.push ⟨i, j, dist u.pt v.pt⟩)).modify j
      (Vert.push ⟨j, i, dist u.pt v.pt⟩))[a]? = some v' ↔
      ∃ w : Vert K, g.verts[a]? = some w ∧ v' = { w with edges := w.edges ++ extra i j (dist u.pt v.pt) a } := by
    intro a v'
    rw [modify2 hij]
    simp [eq_comm]
  have hex : ∀ a e, e ∈ extra i j (dist u.pt v.pt) a ↔
      (a = i ∧ e = ⟨i, j, dist u.pt v.pt⟩) ∨ (a = j ∧ e = ⟨j, i, dist u.pt v.pt⟩) := by
    intro a e
    unfold extra
    by_cases h1 : a = i
    · subst h1; simp [hij]
    · by_cases h2 : a = j
      · subst h2; simp [h1]
      · simp [h1, h2]
  refine ⟨⟨?_, ?_, ?_⟩, ⟨?_, rfl, rfl, by simp⟩, ?_⟩
  · intro a v' h
    obtain ⟨w, h1, rfl⟩ := (hget a v').1 h
    exact hg.id a w h1
  · intro a v' h e he
    obtain ⟨w, h1, rfl⟩ := (hget a v').1 h
    simp only [List.mem_append] at he
    rcases he with he | he
    · obtain ⟨h2, h3, x, h4, h5, h6⟩ := hg.edge a w h1 e he
      exact ⟨h2, h3, _, (hget _ _).2 ⟨x, h4, rfl⟩, h5, List.mem_append_left _ h6⟩
    · rcases (hex a e).1 he with ⟨rfl, rfl⟩ | ⟨rfl, rfl⟩
      · rw [ei] at h1; cases h1
        exact ⟨rfl, hij.symm, _, (hget _ _).2 ⟨v, ej, rfl⟩, rfl,
          List.mem_append_right _ ((hex _ _).2 (Or.inr ⟨rfl, rfl⟩))⟩
      · rw [ej] at h1; cases h1
        exact ⟨rfl, hij, _, (hget _ _).2 ⟨u, ei, rfl⟩, hsym _ _,
          List.mem_append_right _ ((hex _ _).2 (Or.inl ⟨rfl, rfl⟩))⟩
  · intro a k hk
    obtain ⟨P, w, h1, h2, h3⟩ := hg.own a k hk
    exact ⟨P, _, h1, (hget _ _).2 ⟨w, h2, rfl⟩, h3⟩
  · intro a
    unfold VGraph.pt
    rw [modify2 hij]
    cases g.verts[a]? <;> rfl
  · intro a b
    constructor
    · rintro ⟨v', h1, e, h2, rfl⟩
      obtain ⟨w, h3, rfl⟩ := (hget a v').1 h1
      simp only [List.mem_append] at h2
      rcases h2 with h2 | h2
      · exact Or.inl ⟨w, h3, e, h2, rfl⟩
      · rcases (hex a e).1 h2 with ⟨rfl, rfl⟩ | ⟨rfl, rfl⟩
        · exact Or.inr (Or.inl ⟨rfl, rfl⟩)
        · exact Or.inr (Or.inr ⟨rfl, rfl⟩)
    · rintro (⟨w, h1, e, h2, rfl⟩ | ⟨rfl, rfl⟩ | ⟨rfl, rfl⟩)
      · exact ⟨_, (hget _ _).2 ⟨w, h1, rfl⟩, e, List.mem_append_left _ h2, rfl⟩
      · exact ⟨_, (hget _ _).2 ⟨u, ei, rfl⟩, _, List.mem_append_right _ ((hex _ _).2 (Or.inl ⟨rfl, rfl⟩)), rfl⟩
      · exact ⟨_, (hget _ _).2 ⟨v, ej, rfl⟩, _, List.mem_append_right _ ((hex _ _).2 (Or.inr ⟨rfl, rfl⟩)), rfl⟩

theorem getElem?_snoc {α : Type*} {l : List α} {x : α} {a : Nat} {v : α} (h : (l ++ [x])[a]? = some v) :
    l[a]? = some v ∨ (a = l.length ∧ v = x) := by
  rcases lt_trichotomy a l.length with h1 | h1 | h1
  · rw [List.getElem?_append_left h1] at h; exact Or.inl h
  · subst h1; simp at h; exact Or.inr ⟨rfl, h.symm⟩
  · rw [List.getElem?_eq_none (by simp; omega)] at h; cases h

theorem getElem?_snoc_of {α : Type*} {l : List α} {x : α} {a : Nat} {v : α} (h : l[a]? = some v) :
    (l ++ [x])[a]? = some v := by
  rw [List.getElem?_append_left (List.getElem?_eq_some_iff.1 h).1]; exact h

/-- Appending a vertex without edges. -/
def snoc (g : VGraph K) (p : Pt K) : VGraph K := { g with verts := g.verts ++ [⟨g.verts.length, p, []⟩] }

theorem snoc_wf {dist : Pt K → Pt K → K} {g : VGraph K} (hg : Wf dist g) (p : Pt K) : Wf dist (snoc g p) := by
  refine ⟨?_, ?_, ?_⟩
  · intro i v h
    rcases getElem?_snoc h with h | ⟨rfl, rfl⟩
    · exact hg.id i v h
    · rfl
  · intro i v h e he
    rcases getElem?_snoc h with h | ⟨rfl, rfl⟩
    · obtain ⟨h1, h2, w, h3, h4⟩ := hg.edge i v h e he
      exact ⟨h1, h2, w, getElem?_snoc_of h3, h4⟩
    · simp at he
  · intro i k hk
    obtain ⟨P, w, h1, h2, h3⟩ := hg.own i k hk
    exact ⟨P, w, h1, getElem?_snoc_of h2, h3⟩

theorem snoc_linked {g : VGraph K} {p : Pt K} {a b : Nat} : Linked (snoc g p) a b ↔ Linked g a b := by
  constructor
  · rintro ⟨v, h1, e, h2, h3⟩
    rcases getElem?_snoc h1 with h | ⟨rfl, rfl⟩
    · exact ⟨v, h, e, h2, h3⟩
    · simp at h2
  · rintro ⟨v, h1, e, h2, h3⟩
    exact ⟨v, getElem?_snoc_of h1, e, h2, h3⟩

theorem snoc_pt_old {g : VGraph K} {p : Pt K} {i : Nat} (h : i < g.verts.length) : (snoc g p).pt i = g.pt i := by
  unfold VGraph.pt snoc
  rw [List.getElem?_append_left h]

theorem snoc_pt_new {g : VGraph K} {p : Pt K} : (snoc g p).pt g.verts.length = some p := by
  simp [VGraph.pt, snoc]

theorem Linked.lt {g : VGraph K} {a b : Nat} (h : Linked g a b) : a < g.verts.length := by
  obtain ⟨v, h1, _⟩ := h
  exact (List.getElem?_eq_some_iff.1 h1).1

theorem pt_some {g : VGraph K} {i : Nat} (h : i < g.verts.length) : g.pt i = some g.verts[i].pt := by
  simp [VGraph.pt, List.getElem?_eq_getElem h]

/-! ## The visibility test -/

theorem sees_eq {T : Tol K} {g : VGraph K} {i j : Nat} {u v : Pt K} (hu : g.pt i = some u) (hv : g.pt j = some v) :
    sees T g i j = (inown T g i (along u v (1 / 1000))).bind fun b0 =>
      if b0 then .ok false
      else (inown T g j (along u v (1 - 1 / 1000))).bind fun b1 =>
        if b1 then .ok false
        else .ok (g.map.isvisible T (along u v (1 / 1000)) (along u v (1 - 1 / 1000))) := by
  unfold VGraph.pt at hu hv
  obtain ⟨u', hu', rfl⟩ := Option.map_eq_some_iff.1 hu
  obtain ⟨v', hv', rfl⟩ := Option.map_eq_some_iff.1 hv
  unfold sees
  rw [hu', hv']

theorem inown_same {T : Tol K} {g g' : VGraph K} (h : Same g g') (i : Nat) (p : Pt K) : inown T g' i p = inown T g i p := by
  unfold inown
  rw [h.map, h.polyno]

theorem sees_same {T : Tol K} {g g' : VGraph K} (h : Same g g') {i j : Nat} (hi : i < g.verts.length)
    (hj : j < g.verts.length) : sees T g' i j = sees T g i j := by
  have h1 := pt_some hi
  have h2 := pt_some hj
  rw [sees_eq h1 h2, sees_eq ((h.pts i).trans h1) ((h.pts j).trans h2)]
  simp only [inown_same h, h.map]

theorem inown_ok {T : Tol K} {dist : Pt K → Pt K → K} {g : VGraph K} (hg : Wf dist g) (i : Nat) (p : Pt K) :
    ∃ b, inown T g i p = .ok b := by
  unfold inown
  cases h : g.polyno[i]? with
  | none => exact ⟨_, rfl⟩
  | some k =>
    obtain ⟨P, v, h1, _⟩ := hg.own i k h
    simp only [h1]
    exact ⟨_, rfl⟩

theorem sees_ok {T : Tol K} {dist : Pt K → Pt K → K} {g : VGraph K} (hg : Wf dist g) {i j : Nat} (hi : i < g.verts.length)
    (hj : j < g.verts.length) : ∃ b, sees T g i j = .ok b := by
  rw [sees_eq (pt_some hi) (pt_some hj)]
  obtain ⟨b0, h0⟩ := inown_ok (T := T) hg i (along g.verts[i].pt g.verts[j].pt (1 / 1000))
  obtain ⟨b1, h1⟩ := inown_ok (T := T) hg j (along g.verts[i].pt g.verts[j].pt (1 - 1 / 1000))
  simp only [h0, h1, Outcome.bind_ok]
  cases b0 <;> cases b1 <;> simp

/-- A run of `consideredge` over a list of pairs. -/
theorem consider_spec {T : Tol K} {dist : Pt K → Pt K → K} (hsym : ∀ p q, dist p q = dist q p) {g : VGraph K}
    (hg : Wf dist g) (l : List (Nat × Nat))
    (hl : ∀ ij ∈ l, ij.1 ≠ ij.2 ∧ ij.1 < g.verts.length ∧ ij.2 < g.verts.length) :
    ∃ g', foldO (consideredge T dist) g l = .ok g' ∧ Wf dist g' ∧ Same g g' ∧
      ∀ a b, Linked g' a b ↔ Linked g a b ∨ ∃ ij ∈ l, sees T g ij.1 ij.2 = .ok true ∧
        ((a = ij.1 ∧ b = ij.2) ∨ (a = ij.2 ∧ b = ij.1)) := by
  have := foldO_ind (f := consideredge T dist)
    (fun pre g' => Wf dist g' ∧ Same g g' ∧
      ∀ a b, Linked g' a b ↔ Linked g a b ∨ ∃ ij ∈ pre, sees T g ij.1 ij.2 = .ok true ∧
        ((a = ij.1 ∧ b = ij.2) ∨ (a = ij.2 ∧ b = ij.1))) l [] g ⟨hg, Same.refl g, by simp⟩
  simp only [List.nil_append] at this
  refine this ?_
  · rintro pre ⟨i, j⟩ s hm ⟨h1, h2, h3⟩
    obtain ⟨l1, l2, l3⟩ := hl _ hm
    simp only at l1 l2 l3
    obtain ⟨b, hb⟩ := sees_ok (T := T) hg l2 l3
    have hb' : sees T s i j = .ok b := by rw [sees_same h2 l2 l3]; exact hb
    unfold consideredge
    simp only [hb', Outcome.bind_ok]
    cases b with
    | false =>
      refine ⟨s, by simp, h1, h2, fun a b => ?_⟩
      rw [h3]
      simp [hb]
    | true =>
      obtain ⟨s', k1, k2, k3, k4⟩ := addedge_spec hsym h1 l1 (by rw [h2.len]; exact l2) (by rw [h2.len]; exact l3)
      refine ⟨s', by simpa using k1, k2, h2.trans k3, fun a b => ?_⟩
      rw [k4, h3]
      simp [hb, or_and_right, exists_or, or_assoc]

theorem mem_pairs {n i j : Nat} : (i, j) ∈ pairs n ↔ i < j ∧ j < n := by
  unfold pairs
  simp only [List.mem_flatMap, List.mem_range, List.mem_map, List.mem_range'_1, Prod.mk.injEq]
  constructor
  · rintro ⟨a, h1, b, h2, rfl, rfl⟩; omega
  · rintro ⟨h1, h2⟩; exact ⟨i, by omega, j, by omega, rfl, rfl⟩

theorem visedges_spec {T : Tol K} {dist : Pt K → Pt K → K} (hsym : ∀ p q, dist p q = dist q p) {g : VGraph K}
    (hg : Wf dist g) :
    ∃ g', visedges T dist g = .ok g' ∧ Wf dist g' ∧ Same g g' ∧
      ∀ a b, a < b → b < g.verts.length → (Linked g' a b ↔ Linked g a b ∨ sees T g a b = .ok true) := by
  obtain ⟨g', h1, h2, h3, h4⟩ := consider_spec (T := T) hsym hg (pairs g.verts.length) (by
    rintro ⟨i, j⟩ h
    obtain ⟨h1, h2⟩ := mem_pairs.1 h
    exact ⟨by simp only; omega, by simp only; omega, by simp only; omega⟩)
  refine ⟨g', h1, h2, h3, fun a b hab hb => ?_⟩
  rw [h4]
  constructor
  · rintro (h | ⟨⟨i, j⟩, hm, hs, ⟨rfl, rfl⟩ | ⟨rfl, rfl⟩⟩)
    · exact Or.inl h
    · exact Or.inr hs
    · obtain ⟨q1, _⟩ := mem_pairs.1 hm
      omega
  · rintro (h | h)
    · exact Or.inl h
    · exact Or.inr ⟨(a, b), mem_pairs.2 ⟨hab, hb⟩, h, Or.inl ⟨rfl, rfl⟩⟩

/-! ## The vertices of the polygons -/

/-- `u` and `v` are neighbouring vertices of the polygon. -/
def Nbr (P : Poly K) (u v : Pt K) : Prop :=
  ∃ a, P.verts[a]? = some u ∧ P.verts[(a + 1) % P.verts.length]? = some v

theorem mem_reflex {P : Poly K} {k : Nat} : k ∈ reflex P ↔ k < P.verts.length ∧ isreflex P k = true := by
  simp [reflex]

/-- Pushing the vertices with indices `vs`. -/
theorem addverts_spec {dist : Pt K → Pt K → K} {g : VGraph K} (hg : Wf dist g) (P : Poly K) (vs : List Nat)
    (hv : ∀ k ∈ vs, k < P.verts.length) :
    ∃ g', foldO (addvert P) g vs = .ok g' ∧ Wf dist g' ∧ g'.map = g.map ∧ g'.polyno = g.polyno ∧
      g'.verts.length = g.verts.length + vs.length ∧ (∀ i < g.verts.length, g'.pt i = g.pt i) ∧
      (∀ i k, vs[i]? = some k → g'.pt (g.verts.length + i) = P.verts[k]?) ∧ ∀ a b, Linked g' a b ↔ Linked g a b := by
  have := foldO_ind (f := addvert P)
    (fun pre g' => Wf dist g' ∧ g'.map = g.map ∧ g'.polyno = g.polyno ∧
      g'.verts.length = g.verts.length + pre.length ∧ (∀ i < g.verts.length, g'.pt i = g.pt i) ∧
      (∀ i k, pre[i]? = some k → g'.pt (g.verts.length + i) = P.verts[k]?) ∧ ∀ a b, Linked g' a b ↔ Linked g a b) vs [] g
    ⟨hg, rfl, rfl, by simp, fun _ _ => rfl, by simp, fun _ _ => Iff.rfl⟩
  simp only [List.nil_append] at this
  refine this ?_
  · rintro pre k s hm ⟨h1, h2, h3, h4, h5, h6, h7⟩
    have hlt := hv k hm
    have hk : P.verts[k]? = some P.verts[k] := List.getElem?_eq_getElem hlt
    refine ⟨snoc s P.verts[k], by simp only [addvert, hk]; rfl, snoc_wf h1 _, h2, h3, ?_, ?_, ?_, ?_⟩
    · simp [snoc, h4]; omega
    · intro i hi
      rw [snoc_pt_old (by omega), h5 i hi]
    · intro i k' hk'
      rcases getElem?_snoc hk' with h | ⟨rfl, rfl⟩
      · have := (List.getElem?_eq_some_iff.1 h).1
        rw [snoc_pt_old (by omega), h6 i k' h]
      · rw [← h4, snoc_pt_new, hk]
    · intro a b
      rw [snoc_linked, h7]

theorem addpoly_spec {dist : Pt K → Pt K → K} (hsym : ∀ p q, dist p q = dist q p) {g : VGraph K} (hg : Wf dist g)
    (P : Poly K) :
    ∃ g', addpoly dist g P (reflex P) = .ok g' ∧ Wf dist g' ∧ g'.map = g.map ∧ g'.polyno = g.polyno ∧
      g'.verts.length = g.verts.length + (reflex P).length ∧ (∀ i < g.verts.length, g'.pt i = g.pt i) ∧
      (∀ i k, (reflex P)[i]? = some k → g'.pt (g.verts.length + i) = P.verts[k]?) ∧
      (∀ a b, Linked g a b → Linked g' a b) ∧
      (∀ a b, Linked g' a b → Linked g a b ∨ ∃ u v, g'.pt a = some u ∧ g'.pt b = some v ∧ (Nbr P u v ∨ Nbr P v u)) ∧
      ∀ k, isreflex P k = true → isreflex P ((k + 1) % P.verts.length) = true → 1 < P.verts.length →
        ∃ a b, Linked g' a b ∧ g'.pt a = P.verts[k]? ∧ g'.pt b = P.verts[(k + 1) % P.verts.length]? := by
  have hr : ∀ k ∈ reflex P, k < P.verts.length := fun k hk => (mem_reflex.1 hk).1
  obtain ⟨g1, h1, h2, h3, h4, h5, h6, h7, h8⟩ := addverts_spec hg P (reflex P) hr
  have := foldO_ind (f := linkadj dist P.verts.length (reflex P) g.verts.length)
    (fun pre g' => Wf dist g' ∧ Same g1 g' ∧ (∀ a b, Linked g1 a b → Linked g' a b) ∧
      (∀ a b, Linked g' a b → Linked g1 a b ∨ ∃ u v, g'.pt a = some u ∧ g'.pt b = some v ∧ (Nbr P u v ∨ Nbr P v u)) ∧
      ∀ i j x y, (i, j) ∈ pre → (reflex P)[i]? = some x → (reflex P)[j]? = some y →
        ((x + 1) % P.verts.length = y ∨ (y + 1) % P.verts.length = x) →
        Linked g' (g.verts.length + i) (g.verts.length + j)) (pairs (reflex P).length) [] g1
    ⟨h2, Same.refl _, fun _ _ => id, fun _ _ => Or.inl, by simp⟩
  simp only [List.nil_append] at this
  replace this := this (by
    rintro pre ⟨i, j⟩ s hm ⟨q1, q2, q3, q4, q5⟩
    obtain ⟨m1, m2⟩ := mem_pairs.1 hm
    have ei : (reflex P)[i]? = some (reflex P)[i] := List.getElem?_eq_getElem (by omega)
    have ej : (reflex P)[j]? = some (reflex P)[j] := List.getElem?_eq_getElem m2
    generalize (reflex P)[i] = x at ei
    generalize (reflex P)[j] = y at ej
    have hx := hr x (List.mem_of_getElem? ei)
    have hy := hr y (List.mem_of_getElem? ej)
    by_cases hadj : (x + 1) % P.verts.length = y ∨ (y + 1) % P.verts.length = x
    · obtain ⟨s', r1, r2, r3, r4⟩ := addedge_spec hsym (i := g.verts.length + i) (j := g.verts.length + j) q1 (by omega)
        (by rw [q2.len, h5]; omega) (by rw [q2.len, h5]; omega)
      have pi : s'.pt (g.verts.length + i) = some P.verts[x] := by
        rw [(q2.trans r3).pts, h7 i x ei, List.getElem?_eq_getElem hx]
      have pj : s'.pt (g.verts.length + j) = some P.verts[y] := by
        rw [(q2.trans r3).pts, h7 j y ej, List.getElem?_eq_getElem hy]
      have hn : Nbr P P.verts[x] P.verts[y] ∨ Nbr P P.verts[y] P.verts[x] := by
        rcases hadj with h | h
        · exact Or.inl ⟨x, List.getElem?_eq_getElem hx, by rw [h]; exact List.getElem?_eq_getElem hy⟩
        · exact Or.inr ⟨y, List.getElem?_eq_getElem hy, by rw [h]; exact List.getElem?_eq_getElem hx⟩
      refine ⟨s', by simp only [linkadj, ei, ej, if_pos hadj, r1], r2, q2.trans r3, fun a b h => (r4 a b).2 (Or.inl (q3 a b h)),
        fun a b h => ?_, fun i' j' x' y' hm' hx' hy' hxy => ?_⟩
      · rcases (r4 a b).1 h with h | ⟨rfl, rfl⟩ | ⟨rfl, rfl⟩
        · rcases q4 a b h with h | ⟨u, v, e1, e2, e3⟩
          · exact Or.inl h
          · exact Or.inr ⟨u, v, (r3.pts a).trans e1, (r3.pts b).trans e2, e3⟩
        · exact Or.inr ⟨_, _, pi, pj, hn⟩
        · exact Or.inr ⟨_, _, pj, pi, hn.symm⟩
      · rcases List.mem_append.1 hm' with h | h
        · exact (r4 _ _).2 (Or.inl (q5 i' j' x' y' h hx' hy' hxy))
        · simp only [List.mem_singleton, Prod.mk.injEq] at h
          obtain ⟨rfl, rfl⟩ := h
          exact (r4 _ _).2 (Or.inr (Or.inl ⟨rfl, rfl⟩))
    · refine ⟨s, by simp only [linkadj, ei, ej, if_neg hadj], q1, q2, q3, q4, fun i' j' x' y' hm' hx' hy' hxy => ?_⟩
      rcases List.mem_append.1 hm' with h | h
      · exact q5 i' j' x' y' h hx' hy' hxy
      · simp only [List.mem_singleton, Prod.mk.injEq] at h
        obtain ⟨rfl, rfl⟩ := h
        rw [ei] at hx'; rw [ej] at hy'
        cases hx'; cases hy'
        exact absurd hxy hadj)
  obtain ⟨g', k1, k2, k3, k4, k5, k6⟩ := this
  refine ⟨g', by simp only [addpoly, h1, Outcome.bind_ok, k1], k2, k3.map.trans h3, k3.polyno.trans h4, k3.len.trans h5,
    fun i hi => (k3.pts i).trans (h6 i hi), fun i k hk => (k3.pts _).trans (h7 i k hk),
    fun a b h => k4 a b ((h8 a b).2 h), fun a b h => ?_, fun k r1 r2 hlen => ?_⟩
  · rcases k5 a b h with h | h
    · exact Or.inl ((h8 a b).1 h)
    · exact Or.inr h
  · have m1 : k ∈ reflex P := by
      refine mem_reflex.2 ⟨?_, r1⟩
      by_contra hc
      simp [isreflex, hc] at r1
    have m2 : (k + 1) % P.verts.length ∈ reflex P := mem_reflex.2 ⟨Nat.mod_lt _ (by omega), r2⟩
    obtain ⟨i, hi⟩ := List.getElem?_of_mem m1
    obtain ⟨j, hj⟩ := List.getElem?_of_mem m2
    have li := (List.getElem?_eq_some_iff.1 hi).1
    have lj := (List.getElem?_eq_some_iff.1 hj).1
    have hk := hr k m1
    have hne : i ≠ j := by
      rintro rfl
      rw [hi] at hj
      injection hj with hj
      rcases Nat.lt_or_ge (k + 1) P.verts.length with h | h
      · rw [Nat.mod_eq_of_lt h] at hj; omega
      · have : k + 1 = P.verts.length := by omega
        rw [this, Nat.mod_self] at hj; omega
    have pi := (k3.pts _).trans (h7 i _ hi)
    have pj := (k3.pts _).trans (h7 j _ hj)
    rcases Nat.lt_or_ge i j with hlt | hge
    · exact ⟨_, _, k6 i j _ _ (mem_pairs.2 ⟨hlt, lj⟩) hi hj (Or.inl rfl), pi, pj⟩
    · exact ⟨_, _, (k6 j i _ _ (mem_pairs.2 ⟨by omega, li⟩) hj hi (Or.inr rfl)).symm k2, pi, pj⟩

/-- `P` has corners at both ends of the side that starts at vertex `k`. -/
def Wall (P : Poly K) (k : Nat) : Prop :=
  isreflex P k = true ∧ isreflex P ((k + 1) % P.verts.length) = true ∧ 1 < P.verts.length

/-- What a graph knows about a polygon: all corners are vertices, and corners at both ends of a side are linked. -/
structure Covers (g : VGraph K) (P : Poly K) : Prop where
  corner : ∀ k, isreflex P k = true → ∃ a, g.pt a = P.verts[k]?
  wall : ∀ k, Wall P k → ∃ a b, Linked g a b ∧ g.pt a = P.verts[k]? ∧ g.pt b = P.verts[(k + 1) % P.verts.length]?

theorem isreflex_lt {P : Poly K} {k : Nat} (h : isreflex P k = true) : k < P.verts.length := by
  by_contra hc
  simp [isreflex, hc] at h

theorem pt_lt {g : VGraph K} {a : Nat} {p : Pt K} (h : g.pt a = some p) : a < g.verts.length := by
  unfold VGraph.pt at h
  obtain ⟨v, h1, _⟩ := Option.map_eq_some_iff.1 h
  exact (List.getElem?_eq_some_iff.1 h1).1

theorem Covers.mono {g g' : VGraph K} {P : Poly K} (h : Covers g P) (hp : ∀ i < g.verts.length, g'.pt i = g.pt i)
    (hl : ∀ a b, Linked g a b → Linked g' a b) : Covers g' P := by
  refine ⟨fun k hk => ?_, fun k hk => ?_⟩
  · obtain ⟨a, ha⟩ := h.corner k hk
    have h2 := ha.trans (List.getElem?_eq_getElem (isreflex_lt hk))
    exact ⟨a, (hp a (pt_lt h2)).trans ha⟩
  · obtain ⟨a, b, h1, h2, h3⟩ := h.wall k hk
    have h4 := h2.trans (List.getElem?_eq_getElem (isreflex_lt hk.1))
    have h5 := h3.trans (List.getElem?_eq_getElem (isreflex_lt hk.2.1))
    exact ⟨a, b, hl a b h1, (hp a (pt_lt h4)).trans h2, (hp b (pt_lt h5)).trans h3⟩

/-- All edges run between neighbouring vertices of one of the polygons. -/
def OnWalls (ps : Poly K → Prop) (g : VGraph K) : Prop :=
  ∀ a b, Linked g a b → ∃ P, ps P ∧ ∃ u v, g.pt a = some u ∧ g.pt b = some v ∧ (Nbr P u v ∨ Nbr P v u)

theorem addpoly_more {dist : Pt K → Pt K → K} (hsym : ∀ p q, dist p q = dist q p) {g : VGraph K} (hg : Wf dist g)
    {ps : Poly K → Prop} (ho : OnWalls ps g) {P : Poly K} (hP : ps P) :
    ∃ g', addpoly dist g P (reflex P) = .ok g' ∧ Wf dist g' ∧ g'.map = g.map ∧ g'.polyno = g.polyno ∧
      g'.verts.length = g.verts.length + (reflex P).length ∧ (∀ i < g.verts.length, g'.pt i = g.pt i) ∧
      (∀ i k, (reflex P)[i]? = some k → g'.pt (g.verts.length + i) = P.verts[k]?) ∧
      (∀ a b, Linked g a b → Linked g' a b) ∧ OnWalls ps g' ∧ Covers g' P := by
  obtain ⟨g', h1, h2, h3, h4, h5, h6, h7, h8, h9, h10⟩ := addpoly_spec hsym hg P
  refine ⟨g', h1, h2, h3, h4, h5, h6, h7, h8, fun a b h => ?_, fun k hk => ?_, fun k hk => h10 k hk.1 hk.2.1 hk.2.2⟩
  · rcases h9 a b h with h | h
    · obtain ⟨Q, q1, u, v, q2, q3, q4⟩ := ho a b h
      exact ⟨Q, q1, u, v, (h6 a (pt_lt q2)).trans q2, (h6 b (pt_lt q3)).trans q3, q4⟩
    · exact ⟨P, hP, h⟩
  · obtain ⟨i, hi⟩ := List.getElem?_of_mem (mem_reflex.2 ⟨isreflex_lt hk, hk⟩)
    exact ⟨_, h7 i k hi⟩

/-- The polygons of a map, the boundary included. -/
def PMap.Has (m : PMap K) (P : Poly K) : Prop := P ∈ m.polys ∨ m.bound = some P

theorem populate_spec {dist : Pt K → Pt K → K} (hsym : ∀ p q, dist p q = dist q p) (m : PMap K) :
    ∃ g, populateverts dist ⟨[], m, []⟩ = .ok g ∧ Wf dist g ∧ g.map = m ∧ OnWalls m.Has g ∧ (∀ P, m.Has P → Covers g P) ∧
      ∀ a p, g.pt a = some p → ∃ P, m.Has P ∧ p ∈ P.verts := by
  have := foldO_ind (f := popone dist)
    (fun pre g => Wf dist g ∧ g.map = m ∧ g.polyno.length = g.verts.length ∧ OnWalls m.Has g ∧ ∀ Pk ∈ pre, Covers g Pk.1)
    m.polys.zipIdx [] ⟨[], m, []⟩ ⟨⟨by simp, by simp, by simp⟩, rfl, rfl, fun a b h => by simpa using h.lt, by simp⟩
  simp only [List.nil_append] at this
  replace this := this (by
    rintro pre ⟨P, k⟩ s hm ⟨q1, q2, q3, q4, q5⟩
    have hPk : m.polys[k]? = some P := by
      have := List.mem_zipIdx_iff_getElem?.1 hm
      simpa using this
    obtain ⟨g', h1, h2, h3, h4, h5, h6, h7, h8, h9, h10⟩ := addpoly_more hsym q1 q4 (Or.inl (List.mem_of_getElem? hPk))
    refine ⟨{ g' with polyno := g'.polyno ++ List.replicate (reflex P).length k },
      by simp only [popone, h1, Outcome.map_ok], ⟨h2.id, h2.edge, ?_⟩, h3.trans q2, ?_, h9, ?_⟩
    · intro i x hx
      rcases Nat.lt_or_ge i g'.polyno.length with hlt | hge
      · rw [List.getElem?_append_left hlt] at hx
        exact h2.own i x hx
      · rw [List.getElem?_append_right hge] at hx
        obtain ⟨l1, l2⟩ := List.getElem?_eq_some_iff.1 hx
        rw [List.length_replicate] at l1
        rw [List.getElem_replicate] at l2
        subst l2
        have e1 : (reflex P)[i - g'.polyno.length]? = some (reflex P)[i - g'.polyno.length] := List.getElem?_eq_getElem l1
        have e2 := h7 _ _ e1
        have e3 : (reflex P)[i - g'.polyno.length] < P.verts.length := (mem_reflex.1 (List.getElem_mem l1)).1
        rw [List.getElem?_eq_getElem e3] at e2
        have e4 : s.verts.length + (i - g'.polyno.length) = i := by rw [h4] at hge ⊢; omega
        rw [e4] at e2
        unfold VGraph.pt at e2
        obtain ⟨v, e5, e6⟩ := Option.map_eq_some_iff.1 e2
        exact ⟨P, v, by rw [h3, q2]; exact hPk, e5, by rw [e6]; exact List.getElem_mem e3⟩
    · simp [h4, h5, q3]
    · intro Qk hQ
      rcases List.mem_append.1 hQ with h | h
      · exact (q5 Qk h).mono h6 h8
      · rw [List.mem_singleton] at h
        subst h
        exact h10.mono (fun _ _ => rfl) (fun _ _ h => h))
  obtain ⟨g, h1, h2, h3, h4, h5, h6⟩ := this
  have hcov : ∀ P ∈ m.polys, Covers g P := by
    intro P hP
    obtain ⟨k, hk⟩ := List.getElem?_of_mem hP
    exact h6 (P, k) (List.mem_zipIdx_iff_getElem?.2 (by simpa using hk))
  have hpts : ∀ a p, g.pt a = some p → ∃ P ∈ m.polys, p ∈ P.verts := by
    intro a p ha
    have hlt := pt_lt ha
    rw [← h4] at hlt
    obtain ⟨P, v, e1, e2, e3⟩ := h2.own a _ (List.getElem?_eq_getElem hlt)
    unfold VGraph.pt at ha
    rw [e2] at ha
    simp only [Option.map_some, Option.some.injEq] at ha
    subst ha
    rw [h3] at e1
    exact ⟨P, List.mem_of_getElem? e1, e3⟩
  unfold populateverts
  simp only [h1, Outcome.bind_ok, h3]
  cases hb : m.bound with
  | none =>
    refine ⟨g, rfl, h2, h3, h5, fun P hP => ?_, fun a p ha => ?_⟩
    · rcases hP with hP | hP
      · exact hcov P hP
      · rw [hb] at hP; cases hP
    · obtain ⟨P, e1, e2⟩ := hpts a p ha
      exact ⟨P, Or.inl e1, e2⟩
  | some B =>
    obtain ⟨g', k1, k2, k3, k4, k5, k6, k7, k8, k9, k10⟩ := addpoly_more hsym h2 h5 (Or.inr hb)
    refine ⟨g', k1, k2, k3.trans h3, k9, fun P hP => ?_, fun a p ha => ?_⟩
    · rcases hP with hP | hP
      · exact (hcov P hP).mono k6 k8
      · rw [hb] at hP; cases hP; exact k10
    · rcases Nat.lt_or_ge a g.verts.length with hlt | hge
      · rw [k6 a hlt] at ha
        obtain ⟨P, e1, e2⟩ := hpts a p ha
        exact ⟨P, Or.inl e1, e2⟩
      · have hlt := pt_lt ha
        rw [k5] at hlt
        have l1 : a - g.verts.length < (reflex B).length := by omega
        have e2 := k7 _ _ (List.getElem?_eq_getElem l1)
        have e3 : (reflex B)[a - g.verts.length] < B.verts.length := (mem_reflex.1 (List.getElem_mem l1)).1
        rw [List.getElem?_eq_getElem e3, Nat.add_sub_cancel' hge, ha] at e2
        injection e2 with e2
        exact ⟨B, Or.inr hb, by rw [e2]; exact List.getElem_mem e3⟩

theorem build_spec {T : Tol K} {dist : Pt K → Pt K → K} (hsym : ∀ p q, dist p q = dist q p) (m : PMap K) :
    ∃ g, build T dist m = .ok g ∧ Wf dist g ∧ g.map = m ∧ (∀ P, m.Has P → Covers g P) ∧
      (∀ a p, g.pt a = some p → ∃ P, m.Has P ∧ p ∈ P.verts) ∧
      (∀ a b, a < b → Linked g a b → sees T g a b = .ok true ∨
        ∃ P, m.Has P ∧ ∃ u v, g.pt a = some u ∧ g.pt b = some v ∧ (Nbr P u v ∨ Nbr P v u)) ∧
      ∀ a b, a < b → sees T g a b = .ok true → Linked g a b := by
  obtain ⟨g0, h1, h2, h3, h4, h5, h6⟩ := populate_spec hsym m
  obtain ⟨g, k1, k2, k3, k4⟩ := visedges_spec (T := T) hsym h2
  have hlt : ∀ {a b}, Linked g a b → b < g0.verts.length := by
    intro a b h
    have := (h.symm k2).lt
    rwa [k3.len] at this
  have hlinked : ∀ a b, Linked g0 a b → Linked g a b := by
    intro a b h
    obtain ⟨v, e1, e, e2, e3⟩ := id h
    have hne : b ≠ a := e3 ▸ (h2.edge a v e1 e e2).2.1
    rcases Nat.lt_or_ge a b with hab | hab
    · exact (k4 a b hab (h.symm h2).lt).2 (Or.inl h)
    · exact ((k4 b a (by omega) h.lt).2 (Or.inl (h.symm h2))).symm k2
  refine ⟨g, by simp only [build, h1, Outcome.bind_ok, k1], k2, k3.map.trans h3,
    fun P hP => (h5 P hP).mono (fun i _ => k3.pts i) hlinked, fun a p ha => h6 a p ((k3.pts a).symm.trans ha),
    fun a b hab h => ?_, fun a b hab h => ?_⟩
  · rcases (k4 a b hab (hlt h)).1 h with h' | h'
    · obtain ⟨P, e1, u, v, e2, e3, e4⟩ := h4 a b h'
      exact Or.inr ⟨P, e1, u, v, (k3.pts a).trans e2, (k3.pts b).trans e3, e4⟩
    · left
      rw [sees_same k3 (by have := hlt h; omega) (hlt h)]
      exact h'
  · have hb : b < g0.verts.length := by
      rw [← k3.len]
      by_contra hc
      unfold sees at h
      rw [List.getElem?_eq_none (not_lt.1 hc)] at h
      cases hh : g.verts[a]? <;> simp [hh] at h
    rw [sees_same k3 (by omega) hb] at h
    exact (k4 a b hab hb).2 (Or.inr h)

theorem add_spec {T : Tol K} {dist : Pt K → Pt K → K} (hsym : ∀ p q, dist p q = dist q p) {g : VGraph K}
    (hg : Wf dist g) (p : Pt K) :
    ∃ g', add T dist g p = .ok (g', g.verts.length) ∧ Wf dist g' ∧ g'.map = g.map ∧
      g'.verts.length = g.verts.length + 1 ∧ (∀ i < g.verts.length, g'.pt i = g.pt i) ∧ g'.pt g.verts.length = some p ∧
      (∀ a b, b < g.verts.length → a < g.verts.length → (Linked g' a b ↔ Linked g a b)) ∧
      ∀ a < g.verts.length, Linked g' a g.verts.length ↔ sees T g' a g.verts.length = .ok true := by
  obtain ⟨g', h1, h2, h3, h4⟩ := consider_spec (T := T) hsym (snoc_wf hg p)
    ((List.range g.verts.length).map fun i => (i, g.verts.length)) (by
      intro ij h
      obtain ⟨i, h1, rfl⟩ := List.mem_map.1 h
      rw [List.mem_range] at h1
      simp only [snoc, List.length_append, List.length_singleton]
      omega)
  have hl : (snoc g p).verts.length = g.verts.length + 1 := by simp [snoc]
  refine ⟨g', ?_, h2, h3.map, h3.len.trans hl, fun i hi => (h3.pts i).trans (snoc_pt_old hi), (h3.pts _).trans snoc_pt_new,
    fun a b hb ha => ?_, fun a ha => ?_⟩
  · unfold add
    unfold snoc at h1
    simp only [h1, Outcome.map_ok]
  · rw [h4, snoc_linked]
    constructor
    · rintro (h | ⟨ij, hm, -, hab⟩)
      · exact h
      · obtain ⟨i, _, rfl⟩ := List.mem_map.1 hm
        simp only at hab
        omega
    · exact Or.inl
  · rw [h4, snoc_linked, sees_same h3 (by omega) (by omega)]
    constructor
    · rintro (h | ⟨ij, hm, hs, hab⟩)
      · have := (h.symm hg).lt
        omega
      · obtain ⟨i, hi, rfl⟩ := List.mem_map.1 hm
        simp only at hab hs
        rcases hab with ⟨rfl, _⟩ | ⟨rfl, _⟩
        · exact hs
        · omega
    · intro h
      exact Or.inr ⟨(a, g.verts.length), List.mem_map.2 ⟨a, List.mem_range.2 ha, rfl⟩, h, Or.inl ⟨rfl, rfl⟩⟩

/-- What a positive answer means. -/
theorem sees_true {T : Tol K} {g : VGraph K} {i j : Nat} (h : sees T g i j = .ok true) :
    ∃ u v, g.pt i = some u ∧ g.pt j = some v ∧
      g.map.isvisible T (along u v (1 / 1000)) (along u v (1 - 1 / 1000)) = true ∧
      inown T g i (along u v (1 / 1000)) = .ok false ∧ inown T g j (along u v (1 - 1 / 1000)) = .ok false := by
  unfold sees at h
  cases hu : g.verts[i]? with
  | none => simp [hu] at h
  | some u =>
    cases hv : g.verts[j]? with
    | none => simp [hu, hv] at h
    | some v =>
      simp only [hu, hv] at h
      obtain ⟨b0, e0, h⟩ := Outcome.bind_eq_ok.1 h
      cases b0 with
      | true => simp at h
      | false =>
        simp only [Bool.false_eq_true, if_false] at h
        obtain ⟨b1, e1, h⟩ := Outcome.bind_eq_ok.1 h
        cases b1 with
        | true => simp at h
        | false =>
          simp only [Bool.false_eq_true, if_false, Outcome.ok.injEq] at h
          exact ⟨u.pt, v.pt, by simp [VGraph.pt, hu], by simp [VGraph.pt, hv], h, e0, e1⟩

/-! ## Moving the map -/

theorem mapPolys_ok {f : Poly K → Outcome (Poly K)} {F : Poly K → Poly K} {m : PMap K} (h : ∀ P, m.Has P → f P = .ok (F P)) :
    mapPolys f m = .ok ⟨m.polys.map F, m.bound.map F⟩ := by
  have := foldO_ind (f := fun acc P => (f P).map fun P => acc ++ [P]) (fun pre acc => acc = pre.map F) m.polys [] [] rfl (by
    intro pre P acc hP e
    subst e
    exact ⟨_, by rw [h P (Or.inl hP)]; rfl, by simp⟩)
  obtain ⟨acc, h1, h2⟩ := this
  simp only [List.nil_append] at h2
  subst h2
  unfold mapPolys
  simp only [h1, Outcome.bind_ok]
  cases hb : m.bound with
  | none => rfl
  | some B => simp only [h B (Or.inr hb), Outcome.map_ok, Option.map_some]

theorem redist_ok {dist : Pt K → Pt K → K} {vs : List (Vert K)} {D : Vert K → VEdge K → K}
    (h : ∀ v ∈ vs, ∀ e ∈ v.edges, ∃ w, vs[e.dst]? = some w ∧ D v e = dist v.pt w.pt) :
    redist dist vs = .ok (vs.map fun v => { v with edges := v.edges.map fun e => { e with dist := D v e } }) := by
  have inner : ∀ v ∈ vs, foldO (fun es e => match vs[e.dst]? with
      | none => .ub
      | some w => .ok (es ++ [{ e with dist := dist v.pt w.pt }])) [] v.edges =
      .ok (v.edges.map fun e => { e with dist := D v e }) := by
    intro v hv
    have := foldO_ind (f := fun (es : List (VEdge K)) (e : VEdge K) => match vs[e.dst]? with
      | none => .ub
      | some w => .ok (es ++ [{ e with dist := dist v.pt w.pt }]))
      (fun pre es => es = pre.map fun e => { e with dist := D v e }) v.edges [] [] rfl (by
        intro pre e es he h0
        subst h0
        obtain ⟨w, h1, h2⟩ := h v hv e he
        simp only [h1]
        exact ⟨_, rfl, by simp [h2]⟩)
    obtain ⟨es, h1, h2⟩ := this
    simp only [List.nil_append] at h2
    subst h2
    exact h1
  unfold redist
  have := foldO_ind (f := fun (acc : List (Vert K)) (v : Vert K) => (foldO (fun es e => match vs[e.dst]? with
      | none => .ub
      | some w => .ok (es ++ [{ e with dist := dist v.pt w.pt }])) [] v.edges).map fun es => acc ++ [{ v with edges := es }])
    (fun pre acc => acc = pre.map fun v => { v with edges := v.edges.map fun e => { e with dist := D v e } }) vs [] [] rfl (by
      intro pre v acc hv h0
      subst h0
      exact ⟨_, by simp only [inner v hv, Outcome.map_ok]; rfl, by simp⟩)
  obtain ⟨acc, h1, h2⟩ := this
  simp only [List.nil_append] at h2
  subst h2
  exact h1

/-- Moving all points by `F` and giving all edges the new distances. -/
def moved (dist : Pt K → Pt K → K) (F : Pt K → Pt K) (FP : Poly K → Poly K) (g : VGraph K) : VGraph K :=
  ⟨g.verts.map fun v => ⟨v.id, F v.pt, v.edges.map fun e =>
      ⟨e.src, e.dst, match g.verts[e.dst]? with
        | none => 0
        | some w => dist (F v.pt) (F w.pt)⟩⟩,
    ⟨g.map.polys.map FP, g.map.bound.map FP⟩, g.polyno⟩

theorem moved_wf {dist : Pt K → Pt K → K} (hsym : ∀ p q, dist p q = dist q p) {F : Pt K → Pt K} {FP : Poly K → Poly K}
    (hF : ∀ P p, p ∈ P.verts → F p ∈ (FP P).verts) {g : VGraph K} (hg : Wf dist g) :
    Wf dist (moved dist F FP g) ∧ (∀ i, (moved dist F FP g).pt i = (g.pt i).map F) ∧
      ∀ a b, Linked (moved dist F FP g) a b ↔ Linked g a b := by
  have hget : ∀ (i : Nat) (v' : Vert K), (moved dist F FP g).verts[i]? = some v' ↔ ∃ v : Vert K, g.verts[i]? = some v ∧
      v' = ⟨v.id, F v.pt, v.edges.map fun e => ⟨e.src, e.dst, match g.verts[e.dst]? with
        | none => 0
        | some w => dist (F v.pt) (F w.pt)⟩⟩ := by
    intro i v'
    simp [moved, eq_comm]
  refine ⟨⟨?_, ?_, ?_⟩, ?_, ?_⟩
  · intro i v' h
    obtain ⟨v, h1, rfl⟩ := (hget i v').1 h
    exact hg.id i v h1
  · intro i v' h e' he
    obtain ⟨v, h1, rfl⟩ := (hget i v').1 h
    obtain ⟨e, h2, rfl⟩ := List.mem_map.1 he
    obtain ⟨h3, h4, w, h5, h6, h7⟩ := hg.edge i v h1 e h2
    refine ⟨h3, h4, _, (hget _ _).2 ⟨w, h5, rfl⟩, by simp only [h5], ?_⟩
    refine List.mem_map.2 ⟨_, h7, ?_⟩
    simp only [h1, h5, hsym]
  · intro i k hk
    obtain ⟨P, v, h1, h2, h3⟩ := hg.own i k hk
    exact ⟨FP P, _, by simp [moved, h1], (hget _ _).2 ⟨v, h2, rfl⟩, hF P _ h3⟩
  · intro i
    simp [VGraph.pt, moved, Function.comp_def]
  · intro a b
    constructor
    · rintro ⟨v', h1, e', h2, h3⟩
      obtain ⟨v, k1, rfl⟩ := (hget a v').1 h1
      obtain ⟨e, k2, rfl⟩ := List.mem_map.1 h2
      exact ⟨v, k1, e, k2, h3⟩
    · rintro ⟨v, h1, e, h2, h3⟩
      exact ⟨_, (hget _ _).2 ⟨v, h1, rfl⟩, _, List.mem_map.2 ⟨e, h2, rfl⟩, h3⟩

end Verif.Vis
