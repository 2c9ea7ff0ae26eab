import Verif.Props.VisMap
import Verif.Props.Concrete
import Verif.Search.Heuristic
import Mathlib.Analysis.Real.Sqrt

/-!
# C86: navigation on visibility graphs, end to end

`Route` says what a path in a graph is and how long it is, without reference to operators and stored lengths.
-/

namespace Verif.Vis

open Verif.Geom Verif.Search

/-- geom2d.hpp:52-55 `Pt::distance` -/
noncomputable def euclid (p q : Pt ℝ) : ℝ := Real.sqrt ((q.x - p.x) * (q.x - p.x) + (q.y - p.y) * (q.y - p.y))

theorem euclid_symm (p q : Pt ℝ) : euclid p q = euclid q p := by
  unfold euclid
  congr 1
  ring

theorem euclid_nonneg (p q : Pt ℝ) : 0 ≤ euclid p q := Real.sqrt_nonneg _

theorem euclid_self (p : Pt ℝ) : euclid p p = 0 := by simp [euclid]

theorem norm_add (a b c d : ℝ) :
    Real.sqrt ((a + c) * (a + c) + (b + d) * (b + d)) ≤ Real.sqrt (a * a + b * b) + Real.sqrt (c * c + d * d) := by
  have h1 : 0 ≤ a * a + b * b := add_nonneg (mul_self_nonneg a) (mul_self_nonneg b)
  have h2 : 0 ≤ c * c + d * d := add_nonneg (mul_self_nonneg c) (mul_self_nonneg d)
  have s1 := Real.mul_self_sqrt h1
  have s2 := Real.mul_self_sqrt h2
  have n1 := Real.sqrt_nonneg (a * a + b * b)
  have n2 := Real.sqrt_nonneg (c * c + d * d)
  set A := Real.sqrt (a * a + b * b)
  set B := Real.sqrt (c * c + d * d)
  have key : a * c + b * d ≤ A * B := by
    apply le_of_sq_le_sq' (mul_nonneg n1 n2)
    have : (A * B) * (A * B) = (a * a + b * b) * (c * c + d * d) := by rw [← s1, ← s2]; ring
    nlinarith [mul_self_nonneg (a * d - b * c)]
  rw [Real.sqrt_le_left (add_nonneg n1 n2)]
  nlinarith
where
  le_of_sq_le_sq' {x y : ℝ} (hy : 0 ≤ y) (h : x * x ≤ y * y) : x ≤ y := by
    by_contra hc
    push Not at hc
    nlinarith

theorem euclid_triangle (p q r : Pt ℝ) : euclid p r ≤ euclid p q + euclid q r := by
  have := norm_add (q.x - p.x) (q.y - p.y) (r.x - q.x) (r.y - q.y)
  unfold euclid
  have e1 : q.x - p.x + (r.x - q.x) = r.x - p.x := by ring
  have e2 : q.y - p.y + (r.y - q.y) = r.y - p.y := by ring
  rwa [e1, e2] at this

/-! ## The domain -/

/-- A route in the graph: the vertices after the first one, consecutive ones are linked; and its length, the sum of the
distances between consecutive points. -/
inductive Route (g : VGraph ℝ) : Nat → List Nat → ℝ → Prop
  | nil (a : Nat) : Route g a [] 0
  | cons {a b : Nat} {u v : Pt ℝ} {ss : List Nat} {c : ℝ} : Linked g a b → g.pt a = some u → g.pt b = some v →
      Route g b ss c → Route g a (b :: ss) (euclid u v + c)

/-- The vertices `p`, last one first, are a route from `start` to `finish` of length `c`. -/
def IsRoute (g : VGraph ℝ) (start finish : Nat) (p : List Nat) (c : ℝ) : Prop :=
  ∃ ss, p.reverse = start :: ss ∧ Route g start ss c ∧ p.head? = some finish

/-- A navigation problem on a well-formed graph. -/
structure NavOk (n : Nav ℝ) : Prop where
  wf : Wf euclid n.g
  start : n.start < n.g.verts.length
  finish : n.g.pt n.finish = some n.p1

/-- **C86 (the problem).** Making a problem from a well-formed graph is defined: the two places are added, and the problem is
well-formed. -/
theorem c86_problem {T : Tol ℝ} {g : VGraph ℝ} (hg : Wf euclid g) (p0 p1 : Pt ℝ) :
    ∃ n, mkNav T euclid g p0 p1 = .ok n ∧ NavOk n ∧ n.g.pt n.start = some p0 ∧ n.g.pt n.finish = some p1 ∧ n.p1 = p1 ∧
      n.g.verts.length = g.verts.length + 2 ∧ n.g.map = g.map ∧
      (∀ i < g.verts.length, n.g.pt i = g.pt i) ∧
      (∀ a b, a < g.verts.length → b < g.verts.length → (Linked n.g a b ↔ Linked g a b)) ∧
      (Linked n.g n.start n.finish ↔ sees T n.g n.start n.finish = .ok true) := by
  obtain ⟨g1, h1, h2, h3, h4, h5, h6, h7, -⟩ := c85_add (T := T) euclid_symm hg p0
  obtain ⟨g2, k1, k2, k3, k4, k5, k6, k7, k8⟩ := c85_add (T := T) euclid_symm h2 p1
  refine ⟨⟨g2, g.verts.length, g1.verts.length, p1⟩, by simp [mkNav, h1, k1], ⟨k2, ?_, k6⟩, ?_, k6, rfl, ?_, k3.trans h3,
    fun i hi => (k5 i (by omega)).trans (h5 i hi), fun a b ha hb => ?_, ?_⟩
  · show g.verts.length < g2.verts.length
    omega
  · exact (k5 g.verts.length (by omega)).trans h6
  · show g2.verts.length = _
    omega
  · rw [k7 a b (by omega) (by omega), h7 a b hb ha]
  · exact k8 g.verts.length (by omega)

section
variable {n : Nav ℝ} (hn : NavOk n)
include hn

omit hn in
theorem mem_ops {s : Nat} {o : Oper ℝ} :
    o ∈ (dom n).ops s ↔ ∃ v : Vert ℝ, n.g.verts[s]? = some v ∧ ∃ e ∈ v.edges, o = some e := by
  unfold dom
  simp only
  cases h : n.g.verts[s]? with
  | none => simp
  | some v => simp [eq_comm]

/-- **C86 (states).** All reachable states are vertices: no subscript is out of range. -/
theorem c86_states {s : Nat} {c : ℝ} (hw : Walk (dom n) n.start s c) : s < n.g.verts.length := by
  induction hw with
  | nil => exact hn.start
  | snoc _ ho _ =>
    obtain ⟨v, h1, e, h2, rfl⟩ := mem_ops.1 ho
    obtain ⟨-, -, w, h3, -⟩ := hn.wf.edge _ v h1 e h2
    exact (List.getElem?_eq_some_iff.1 h3).1

/-- **C86 (no pruning).** The comparison of operators, which is true for edges with a common source or a common target,
never takes an edge that leaves a vertex for the one through which it was entered. -/
theorem c86_eqv {u v : Nat} {a o : Oper ℝ} (ho : o ∈ (dom n).ops u) (hv : (dom n).app u o = v) (ha : a ∈ (dom n).ops v) :
    Oper.eqv a ((dom n).rev u o) = false := by
  obtain ⟨x, h1, e, h2, rfl⟩ := mem_ops.1 ho
  obtain ⟨y, k1, f, k2, rfl⟩ := mem_ops.1 ha
  change e.dst = v at hv
  subst hv
  obtain ⟨e1, e2, -⟩ := hn.wf.edge u x h1 e h2
  obtain ⟨f1, f2, -⟩ := hn.wf.edge _ y k1 f k2
  simp only [dom, Oper.eqv, Bool.or_eq_false_iff, decide_eq_false_iff_not]
  exact ⟨fun h => e2 (by rw [← f1, ← h, e1]), fun h => f2 h.symm⟩

theorem edge_op {a b : Nat} (h : Linked n.g a b) {u v : Pt ℝ} (hu : n.g.pt a = some u) (hv : n.g.pt b = some v) :
    ∃ o ∈ (dom n).ops a, (dom n).app a o = b ∧ (dom n).cost a o = euclid u v := by
  obtain ⟨x, h1, e, h2, rfl⟩ := h
  obtain ⟨-, -, w, h5, h6, -⟩ := hn.wf.edge a x h1 e h2
  refine ⟨some e, mem_ops.2 ⟨x, h1, e, h2, rfl⟩, rfl, ?_⟩
  simp only [VGraph.pt, h1, h5, Option.map_some, Option.some.injEq] at hu hv
  rw [← hu, ← hv]
  exact h6

theorem op_edge {a : Nat} {o : Oper ℝ} (ho : o ∈ (dom n).ops a) :
    ∃ u v, Linked n.g a ((dom n).app a o) ∧ n.g.pt a = some u ∧ n.g.pt ((dom n).app a o) = some v ∧
      (dom n).cost a o = euclid u v := by
  obtain ⟨x, h1, e, h2, rfl⟩ := mem_ops.1 ho
  obtain ⟨-, -, w, h5, h6, -⟩ := hn.wf.edge a x h1 e h2
  exact ⟨x.pt, w.pt, ⟨x, h1, e, h2, rfl⟩, by simp [VGraph.pt, h1], by simp [VGraph.pt, dom, h5], h6⟩

theorem dom_ok : DomOk (dom n) n.start := by
  refine DomOk.of_inv (I := fun _ => True) trivial (fun _ _ _ _ => trivial) (fun s _ o ho => ?_) (fun s _ o ho hr => ?_)
    (fun s _ hc => ?_)
  · obtain ⟨u, v, -, -, -, h⟩ := op_edge hn ho
    rw [h]
    exact euclid_nonneg _ _
  · have := c86_eqv hn ho rfl hr
    obtain ⟨x, h1, e, h2, rfl⟩ := mem_ops.1 ho
    simp [Oper.eqv, dom] at this
  · obtain ⟨x, -, e, -, h⟩ := mem_ops.1 hc
    cases h

/-- **C86 (heuristic).** The straight line distance is at most the length of an edge plus the straight line distance from
its end, and zero at the goal. -/
theorem c86_consistent {s : Nat} {o : Oper ℝ} (ho : o ∈ (dom n).ops s) :
    hval euclid n s ≤ (dom n).cost s o + hval euclid n ((dom n).app s o) ∧ hval euclid n n.finish = 0 := by
  obtain ⟨u, v, -, h1, h2, h3⟩ := op_edge hn ho
  have hv : ∀ {s : Nat} {p : Pt ℝ}, n.g.pt s = some p → hval euclid n s = euclid p n.p1 := by
    intro s p h
    obtain ⟨x, e1, rfl⟩ := Option.map_eq_some_iff.1 h
    simp [hval, e1]
  rw [hv h1, hv h2, h3, hv hn.finish]
  exact ⟨euclid_triangle u v n.p1, euclid_self _⟩

theorem hval_goal : hval euclid n n.finish = 0 := by
  obtain ⟨x, e1, e2⟩ := Option.map_eq_some_iff.1 hn.finish
  simp [hval, e1, e2, euclid_self]

theorem adm : Admissible (dom n) n.start (hval euclid n) 0 :=
  Admissible.of_consistent (I := fun _ => True) trivial (fun _ _ _ _ => trivial) (fun _ _ _ ho => (c86_consistent hn ho).1)
    (fun s _ hs => by
      rw [of_decide_eq_true (show decide (s = n.finish) = true from hs)]
      exact hval_goal hn)

theorem route_of_plan {a : Nat} {ops : List (Oper ℝ)} {ss : List Nat} {c : ℝ} (h : Plan (dom n) a ops ss c) :
    Route n.g a ss c := by
  induction h with
  | nil => exact .nil _
  | cons ho _ ih =>
    obtain ⟨u, v, h1, h2, h3, h4⟩ := op_edge hn ho
    rw [h4]
    exact .cons h1 h2 h3 ih

theorem plan_of_route {a : Nat} {ss : List Nat} {c : ℝ} (h : Route n.g a ss c) : ∃ ops, Plan (dom n) a ops ss c := by
  induction h with
  | nil => exact ⟨[], .nil _⟩
  | @cons a b u v ss c h1 h2 h3 _ ih =>
    obtain ⟨o, ho, rfl, e⟩ := edge_op hn h1 h2 h3
    obtain ⟨ops, h⟩ := ih
    rw [← e]
    exact ⟨o :: ops, .cons ho h⟩

theorem solution_route {p : List Nat × List (Oper ℝ)} {c : ℝ} (h : Solution (dom n) n.start p c) :
    IsRoute n.g n.start n.finish p.1 c := by
  obtain ⟨ss, h1, h2, t, h3, h4⟩ := h
  refine ⟨ss, h1, route_of_plan hn h2, ?_⟩
  rw [h3, of_decide_eq_true (show decide (t = n.finish) = true from h4)]

theorem solvable_route : Solvable (dom n) n.start ↔ ∃ p c, IsRoute n.g n.start n.finish p c := by
  constructor
  · rintro ⟨ops, ss, t, c, h1, h2, h3⟩
    refine ⟨(n.start :: ss).reverse, c, ss, by simp, route_of_plan hn h1, ?_⟩
    rw [List.head?_reverse, h2, of_decide_eq_true (show decide (t = n.finish) = true from h3)]
  · rintro ⟨p, c, ss, h1, h2, h3⟩
    obtain ⟨ops, h4⟩ := plan_of_route hn h2
    refine ⟨ops, ss, n.finish, c, h4, ?_, by simp [dom]⟩
    rw [← h1, List.getLast?_reverse, h3]

theorem route_of_solution {q : List Nat} {c : ℝ} (h : IsRoute n.g n.start n.finish q c) :
    ∃ ops ss t, Plan (dom n) n.start ops ss c ∧ (n.start :: ss).getLast? = some t ∧ (dom n).goal t = true := by
  obtain ⟨ss, j1, j2, j3⟩ := h
  obtain ⟨ops, j4⟩ := plan_of_route hn j2
  exact ⟨ops, ss, n.finish, j4, by rw [← j1, List.getLast?_reverse, j3], by simp [dom]⟩

theorem reach {s : Nat} {c : ℝ} (hw : Walk (dom n) n.start s c) : s ∈ Finset.range n.g.verts.length :=
  Finset.mem_range.2 (c86_states hn hw)

/-- **C86 (A\*).** On a well-formed problem with at most 2^29 vertices, A* on the binary heap and the hash table returns: a
shortest route if there is a route, the empty path if there is none. -/
theorem c86_astar (hsize : n.g.verts.length ≤ 2 ^ 29) {hash : Nat → Nat} {x : Lists (BinHeap.Heap Nat)}
    (hx : HeapObj Nat (Oper ℝ) (astar (hval euclid n)).pred x) :
    ∃ F c p, (∀ fuel ≥ F, csearch (dom n) (astar (hval euclid n)) (heapImpl (astar (hval euclid n)).pred) hash x
        ⟨0, 0⟩ (fun _ => false) fuel n.start = .ok (c, p)) ∧
      ((∃ q c, IsRoute n.g n.start n.finish q c) →
        ∃ c, IsRoute n.g n.start n.finish p.1 c ∧ ∀ q c', IsRoute n.g n.start n.finish q c' → c ≤ c') ∧
      ((¬ ∃ q c, IsRoute n.g n.start n.finish q c) → p = ([], [])) := by
  obtain ⟨F, c, p, h1, h2, h3⟩ := c67_astar_heap (hash := hash) (dom_ok hn).undo (adm hn) hx
    (fun s g hw => reach hn hw) (by rwa [Finset.card_range])
  rw [solvable_route hn] at h2 h3
  refine ⟨F, c, p, h1, fun h => ?_, h3⟩
  obtain ⟨c, k1, k2⟩ := h2 h
  refine ⟨c, solution_route hn k1, fun q c' hq => ?_⟩
  obtain ⟨ops, ss, t, j1, j2, j3⟩ := route_of_solution hn hq
  exact k2 ops ss t c' j1 j2 j3

/-- **C86 (weighted A\*).** The same for weighted A* with a weight from 1; the route is at most as long as the weight times
any other. -/
theorem c86_wastar (hsize : n.g.verts.length ≤ 2 ^ 29) {wt : ℝ} (hwt : 1 ≤ wt) {hash : Nat → Nat}
    {x : Lists (BinHeap.Heap Nat)} (hx : HeapObj Nat (Oper ℝ) (wastar wt (hval euclid n) false).pred x) :
    ∃ F c p, (∀ fuel ≥ F, csearch (dom n) (wastar wt (hval euclid n) false)
        (heapImpl (wastar wt (hval euclid n) false).pred) hash x ⟨0, 0⟩ (fun _ => false) fuel n.start = .ok (c, p)) ∧
      ((∃ q c, IsRoute n.g n.start n.finish q c) →
        ∃ c, IsRoute n.g n.start n.finish p.1 c ∧ ∀ q c', IsRoute n.g n.start n.finish q c' → c ≤ wt * c') ∧
      ((¬ ∃ q c, IsRoute n.g n.start n.finish q c) → p = ([], [])) := by
  obtain ⟨F, c, p, h1, h2, h3⟩ := c67_wastar (hash := hash) (dom_ok hn).undo (adm hn) hwt hx
    (fun s g hw => reach hn hw) (by rwa [Finset.card_range])
  rw [solvable_route hn] at h2 h3
  refine ⟨F, c, p, h1, fun h => ?_, h3⟩
  obtain ⟨c, k1, k2⟩ := h2 h
  refine ⟨c, solution_route hn k1, fun q c' hq => ?_⟩
  obtain ⟨ops, ss, t, j1, j2, j3⟩ := route_of_solution hn hq
  exact k2 ops ss t c' j1 j2 j3

/-- **C86 (greedy search).** The same for greedy search, without a bound on the length. -/
theorem c86_greedy (hsize : n.g.verts.length ≤ 2 ^ 29) {dd : Bool} {hash : Nat → Nat} {x : Lists (BinHeap.Heap Nat)}
    (hx : HeapObj Nat (Oper ℝ) (greedy (hval euclid n) dd).pred x) :
    ∃ F c p, (∀ fuel ≥ F, csearch (dom n) (greedy (hval euclid n) dd) (heapImpl (greedy (hval euclid n) dd).pred) hash x
        ⟨0, 0⟩ (fun _ => false) fuel n.start = .ok (c, p)) ∧
      ((∃ q c, IsRoute n.g n.start n.finish q c) → ∃ c, IsRoute n.g n.start n.finish p.1 c) ∧
      ((¬ ∃ q c, IsRoute n.g n.start n.finish q c) → p = ([], [])) := by
  obtain ⟨F, c, p, h1, h2, h3⟩ := c67_greedy_heap (hash := hash) (dom_ok hn).undo hx
    (fun s g hw => reach hn hw) (by rwa [Finset.card_range])
  rw [solvable_route hn] at h2 h3
  exact ⟨F, c, p, h1, fun h => (h2 h).imp fun c hc => solution_route hn hc, h3⟩

end

/-- Every route is at least as long as the straight line between its ends. -/
theorem c86_straight {g : VGraph ℝ} {a b : Nat} {p : List Nat} {c : ℝ} (h : IsRoute g a b p c) {u v : Pt ℝ}
    (hu : g.pt a = some u) (hv : g.pt b = some v) : euclid u v ≤ c := by
  obtain ⟨ss, h1, h2, h3⟩ := h
  have hl : (a :: ss).getLast? = some b := by rw [← h1, List.getLast?_reverse, h3]
  clear h1 h3
  induction h2 generalizing u with
  | nil a =>
    simp only [List.getLast?_singleton, Option.some.injEq] at hl
    subst hl
    rw [hu] at hv
    cases hv
    rw [euclid_self]
  | @cons a b' u' w ss c h1 h2 h3 h4 ih =>
    rw [hu] at h2
    cases h2
    have := ih h3 (by simpa [List.getLast?_cons] using hl)
    exact (euclid_triangle _ w v).trans (add_le_add le_rfl this)

/-! ## What is done with the answer -/

theorem pcLoop_plan {n : Nav ℝ} {s : Nat} {os : List (Oper ℝ)} {ss : List Nat} {c : ℝ} (h : Plan (dom n) s os ss c) :
    ∀ (rest : List Nat) (rest' : List (Oper ℝ)) (a : ℝ) (t : Nat), (s :: ss).getLast? = some t →
      pcLoop (ss.reverse ++ rest) (os.reverse ++ rest') os.length s a = .ok (t, a + c) := by
  induction h with
  | nil s =>
    intro rest rest' a t ht
    simp only [List.getLast?_singleton, Option.some.injEq] at ht
    subst ht
    simp [pcLoop]
  | @cons s o os ss c ho hp ih =>
    intro rest rest' a t ht
    obtain ⟨x, h1, e, h2, rfl⟩ := mem_ops.1 ho
    have hlen : os.length = ss.length := by
      clear ih ht ho h1 h2
      generalize (dom n).app s (some e) = s' at hp
      induction hp with
      | nil => rfl
      | cons _ _ ih => simp [ih]
    have e1 : ((some e :: os).reverse ++ rest')[os.length]? = some (some e) := by
      rw [List.reverse_cons, List.append_assoc, List.getElem?_append_right (by simp)]
      simp
    have e2 : (((dom n).app s (some e) :: ss).reverse ++ rest)[os.length]? = some ((dom n).app s (some e)) := by
      rw [List.reverse_cons, List.append_assoc, List.getElem?_append_right (by simp [hlen])]
      simp [hlen]
    rw [List.length_cons, pcLoop]
    simp only [e1, e2]
    rw [if_pos (show e.dst = (dom n).app s (some e) from rfl)]
    have := ih ((dom n).app s (some e) :: rest) (some e :: rest') (a + e.dist) t (by simpa [List.getLast?_cons] using ht)
    simp only [List.reverse_cons, List.append_assoc, List.singleton_append]
    refine this.trans ?_
    show Outcome.ok (t, a + e.dist + c) = Outcome.ok (t, a + (e.dist + c))
    rw [add_assoc]

/-- **C86 (cost of a path).** For a solution, `pathcost` fails no assertion and returns its length. -/
theorem c86_pathcost {n : Nav ℝ} {p : List Nat × List (Oper ℝ)} {c : ℝ} (h : Solution (dom n) n.start p c) :
    pathcost n p.1 p.2 = .ok c := by
  obtain ⟨ss, h1, h2, t, h3, h4⟩ := h
  have hl : (n.start :: ss).getLast? = some t := by rw [← h1, List.getLast?_reverse, h3]
  have := pcLoop_plan h2 [n.start] [] 0 t hl
  have e : ss.reverse ++ [n.start] = p.1 := by
    rw [← List.reverse_cons, ← h1, List.reverse_reverse]
  rw [e, List.reverse_reverse, List.append_nil, List.length_reverse] at this
  unfold pathcost
  rw [this]
  simp only [Outcome.bind_ok, zero_add]
  rw [if_pos (of_decide_eq_true (show decide (t = n.finish) = true from h4))]

/-- **C86 (drawing).** A route is drawn as a line through the points of its vertices. -/
theorem c86_drawn {n : Nav ℝ} {p : List Nat} (hne : p ≠ []) (h : ∀ s ∈ p, s < n.g.verts.length) :
    ∃ qs, drawn n p = .ok qs ∧ qs.map some = p.map n.g.pt := by
  have := foldO_ind (f := drawStep n) (fun pre acc => acc.map some = pre.map n.g.pt) p [] [] rfl (by
    intro pre s acc hs e
    have := List.getElem?_eq_getElem (h s hs)
    simp only [drawStep, this]
    exact ⟨_, rfl, by simp [e, VGraph.pt, this]⟩)
  obtain ⟨qs, h1, h2⟩ := this
  refine ⟨qs, ?_, by simpa using h2⟩
  cases p with
  | nil => exact absurd rfl hne
  | cons a l => exact h1

/-- If there is no route, the program, which always draws the answer, reads the first element of an empty vector. -/
theorem c86_no_route (n : Nav ℝ) : drawn n ([], ([] : List (Oper ℝ))).1 = .ub := rfl

/-- A graph with an edge to a vertex that does not exist is not rejected when it is read; the reachable states then include
that vertex (and looking at it is undefined). -/
theorem c86_unchecked : ∃ n : Nav ℝ, (∃ c, Walk (dom n) n.start 7 c) ∧ n.g.verts[7]? = none := by
  refine ⟨⟨⟨[⟨0, ⟨0, 0⟩, [⟨0, 7, 1⟩]⟩], ⟨[], none⟩, []⟩, 0, 0, ⟨0, 0⟩⟩, ?_, rfl⟩
  exact ⟨_, Walk.snoc (o := some (⟨0, 7, 1⟩ : VEdge ℝ)) (Walk.nil (0 : Nat)) (by simp [dom])⟩

/-! ### Examples -/

/-- Well-formed graphs: that of any map, and any with places added. -/
example (T : Tol ℝ) (m : PMap ℝ) (p0 p1 : Pt ℝ) : ∃ g n, build T euclid m = .ok g ∧ mkNav T euclid g p0 p1 = .ok n ∧ NavOk n := by
  obtain ⟨g, h1, h2, -⟩ := c85_build (T := T) euclid_symm m
  obtain ⟨n, h3, h4, -⟩ := c86_problem (T := T) h2 p0 p1
  exact ⟨g, n, h1, h3, h4⟩

/-- Two places without anything in between: the route is the segment. -/
example (T : Tol ℝ) : ∃ n, mkNav T euclid ⟨[], ⟨[], none⟩, []⟩ ⟨0, 0⟩ ⟨3, 4⟩ = .ok n ∧ NavOk n ∧
    IsRoute n.g n.start n.finish [n.finish, n.start] 5 := by
  obtain ⟨n, h1, h2, h3, h4, -, -, h5, -, -, h6⟩ :=
    c86_problem (T := T) (g := ⟨[], ⟨[], none⟩, []⟩) ⟨by simp, by simp, by simp⟩ ⟨0, 0⟩ ⟨3, 4⟩
  refine ⟨n, h1, h2, [n.finish], rfl, ?_, rfl⟩
  have hs : sees T n.g n.start n.finish = .ok true := by
    have hp : n.g.polyno = [] := by
      have hown := h2.wf.own
      cases hh : n.g.polyno with
      | nil => rfl
      | cons k l =>
        obtain ⟨P, v, e, -⟩ := hown 0 k (by simp [hh])
        rw [h5] at e
        simp at e
    rw [sees_eq h3 h4]
    simp [inown, hp, h5, PMap.isvisible]
  have := Route.cons (h6.2 hs) h3 h4 (Route.nil _)
  have e : euclid (⟨0, 0⟩ : Pt ℝ) ⟨3, 4⟩ = 5 := by
    unfold euclid
    rw [show ((3 : ℝ) - 0) * (3 - 0) + (4 - 0) * (4 - 0) = 5 ^ 2 by norm_num]
    exact Real.sqrt_sq (by norm_num)
  rwa [e, add_zero] at this

end Verif.Vis
