import Verif.Structs.Djset

/-!
# C08: disjoint sets

The specification is the equivalence relation generated by the pairs that were joined.
-/

namespace Verif.Djset

variable {α : Type*} [DecidableEq α]

inductive Op (α : Type*) where
  | find (x : α)
  | join (x o : α)
  deriving DecidableEq

/-- One call; `find` returns the representative. -/
def exec (f : Nat) (m : Mem α) : Op α → Outcome (Mem α × Option α)
  | .find x => (find f m.par x).map fun r => (⟨r.2, m.rank⟩, some r.1)
  | .join x o => (join f m x o).map fun m' => (m', none)

/-- Specification: the pairs joined in a history. -/
def Joined (h : List (Op α)) (a b : α) : Prop := Op.join a b ∈ h

/-- Specification: connected by joins. -/
def Connected (h : List (Op α)) : α → α → Prop := Relation.EqvGen (Joined h)

/-- Memory after a history of calls (most recent first), all of which returned. -/
inductive Reach : List (Op α) → Mem α → Prop where
  | init : Reach [] init
  | step {h m op m' r f} (prev : Reach h m) (run : exec f m op = .ok (m', r)) :
      Reach (op :: h) m'

def Inv (h : List (Op α)) (m : Mem α) : Prop :=
  ∃ root : α → α, (∀ x, Root m.par x (root x)) ∧ ∀ x y, root x = root y ↔ Connected h x y

theorem connected_cons_find (h : List (Op α)) (z x y : α) :
    Connected (.find z :: h) x y ↔ Connected h x y := by
  have : Joined (Op.find z :: h) = Joined h := by
    funext a b
    simp [Joined]
  unfold Connected
  rw [this]

theorem connected_mono {h : List (Op α)} {op : Op α} {x y : α} (c : Connected h x y) :
    Connected (op :: h) x y :=
  Relation.EqvGen.mono (r := Joined h) (p := Joined (op :: h))
    (fun _ _ hab => List.mem_cons_of_mem _ hab) _ _ c

theorem exec_mono (m : Mem α) (op : Op α) (f : Nat) (r) (k : Nat) (h : exec f m op = .ok r) :
    exec (f + k) m op = .ok r := by
  cases op with
  | find x =>
    simp only [exec, Outcome.map_eq_ok] at h ⊢
    obtain ⟨a, h1, h2⟩ := h
    exact ⟨a, find_mono h1 k, h2⟩
  | join x o =>
    simp only [exec, Outcome.map_eq_ok] at h ⊢
    obtain ⟨a, h1, h2⟩ := h
    exact ⟨a, join_mono h1 k, h2⟩

theorem exec_inv {h : List (Op α)} {m : Mem α} {root : α → α}
    (hr : ∀ x, Root m.par x (root x)) (hc : ∀ x y, root x = root y ↔ Connected h x y) (op : Op α) :
    ∃ N m' r, (∀ f, N ≤ f → exec f m op = .ok (m', r)) ∧ Inv (op :: h) m' ∧
      ∀ x, op = .find x → r = some (root x) ∧ ∀ y, Root m'.par y (root y) := by
  cases op with
  | find x =>
    obtain ⟨N, p, h1, h2⟩ := find_spec (hr x)
    refine ⟨N, ⟨p, m.rank⟩, some (root x), fun f hf => by simp [exec, h1 f hf],
      ⟨root, fun y => h2 _ _ (hr y), fun y z => by rw [hc, connected_cons_find]⟩, ?_⟩
    rintro y ⟨⟩
    exact ⟨rfl, fun y => h2 _ _ (hr y)⟩
  | join x o =>
    obtain ⟨N, m', a, b, h1, hab, h2⟩ := join_spec (hr x) (hr o)
    refine ⟨N, m', none, fun f hf => by simp [exec, h1 f hf],
      ⟨fun y => if root y = a then b else root y, fun y => h2 _ _ (hr y), fun y z => ?_⟩, by simp⟩
    have cxo : Connected (.join x o :: h) x o := Relation.EqvGen.rel _ _ List.mem_cons_self
    have toO : ∀ y, root y = root x → Connected (.join x o :: h) y x := fun y e =>
      connected_mono ((hc y x).1 e)
    have toO' : ∀ y, root y = root o → Connected (.join x o :: h) y x := fun y e =>
      Relation.EqvGen.trans _ _ _ (connected_mono ((hc y o).1 e)) (Relation.EqvGen.symm _ _ cxo)
    have key : ∀ y z, (if root y = a then b else root y) = (if root z = a then b else root z) ↔
        (root y = root z ∨ ((root y = root x ∨ root y = root o) ∧ (root z = root x ∨ root z = root o))) := by
      intro y z
      rcases hab with ⟨rfl, rfl⟩ | ⟨rfl, rfl⟩ <;> split_ifs <;> grind
    rw [key]
    constructor
    · rintro (e | ⟨e1 | e1, e2 | e2⟩)
      · exact connected_mono ((hc y z).1 e)
      · exact Relation.EqvGen.trans _ _ _ (toO y e1) (Relation.EqvGen.symm _ _ (toO z e2))
      · exact Relation.EqvGen.trans _ _ _ (toO y e1) (Relation.EqvGen.symm _ _ (toO' z e2))
      · exact Relation.EqvGen.trans _ _ _ (toO' y e1) (Relation.EqvGen.symm _ _ (toO z e2))
      · exact Relation.EqvGen.trans _ _ _ (toO' y e1) (Relation.EqvGen.symm _ _ (toO' z e2))
    · intro c
      induction c with
      | rel u v huv =>
        rcases List.mem_cons.1 huv with e | e
        · injection e with e1 e2
          subst e1 e2
          exact Or.inr ⟨Or.inl rfl, Or.inr rfl⟩
        · exact Or.inl ((hc u v).2 (Relation.EqvGen.rel _ _ e))
      | refl u => exact Or.inl rfl
      | symm u v _ ih =>
        rcases ih with e | ⟨e1, e2⟩
        · exact Or.inl e.symm
        · exact Or.inr ⟨e2, e1⟩
      | trans u v w _ _ ih1 ih2 =>
        rcases ih1 with e | ⟨e1, e2⟩ <;> rcases ih2 with e' | ⟨e1', e2'⟩
        · exact Or.inl (e.trans e')
        · rw [← e] at e1'; exact Or.inr ⟨e1', e2'⟩
        · rw [e'] at e2; exact Or.inr ⟨e1, e2⟩
        · exact Or.inr ⟨e1, e2'⟩

theorem reach_inv {h : List (Op α)} {m : Mem α} (reach : Reach h m) : Inv h m := by
  induction reach with
  | init =>
    refine ⟨id, fun x => .base rfl, fun x y => ⟨?_, fun c => ?_⟩⟩
    · rintro rfl; exact Relation.EqvGen.refl _
    · induction c with
      | rel u v h => simp [Joined] at h
      | refl => rfl
      | symm _ _ _ ih => exact ih.symm
      | trans _ _ _ _ _ i1 i2 => exact i1.trans i2
  | @step h m op m' r f prev run ih =>
    obtain ⟨root, hr, hc⟩ := ih
    obtain ⟨N, m1, r1, e1, i1, -⟩ := exec_inv hr hc op
    have a := exec_mono m op f _ N run
    rw [e1 _ (by omega)] at a
    simp only [Outcome.ok.injEq, Prod.mk.injEq] at a
    obtain ⟨rfl, -⟩ := a
    exact i1

/-- **C08.** After any sequence of `join` and `find` calls, two objects have the same
representative iff they are connected by the joins made so far (whatever the ranks say). -/
theorem c08_find_iff_connected {h : List (Op α)} {m : Mem α} (reach : Reach h m) (x y : α)
    {f g : Nat} {rx ry : α} {px py : α → α} (hx : find f m.par x = .ok (rx, px))
    (hy : find g m.par y = .ok (ry, py)) : rx = ry ↔ Connected h x y := by
  obtain ⟨root, hr, hc⟩ := reach_inv reach
  have key : ∀ z k s p, find k m.par z = .ok (s, p) → s = root z := by
    intro z k s p hz
    obtain ⟨N, p', h1, -⟩ := find_spec (hr z)
    have a := find_mono hz N
    rw [h1 _ (by omega)] at a
    simp only [Outcome.ok.injEq, Prod.mk.injEq] at a
    exact a.1.symm
  rw [key x f rx px hx, key y g ry py hy, hc]

/-- **C08.** `find` and `join` always return (the recursion of `find` ends). -/
theorem c08_calls_return {h : List (Op α)} {m : Mem α} (reach : Reach h m) (op : Op α) :
    ∃ N m' r, ∀ f, N ≤ f → exec f m op = .ok (m', r) := by
  obtain ⟨root, hr, hc⟩ := reach_inv reach
  obtain ⟨N, m', r, e, -⟩ := exec_inv hr hc op
  exact ⟨N, m', r, e⟩

/-- **C08.** `find` is idempotent and does not change any representative. -/
theorem c08_find_pure {h : List (Op α)} {m m' : Mem α} {r : Option α} (reach : Reach h m) (x y : α)
    {f g k : Nat} (run : exec f m (.find x) = .ok (m', r)) {r1 r2 : α} {p1 p2 : α → α}
    (h1 : find g m.par y = .ok (r1, p1)) (h2 : find k m'.par y = .ok (r2, p2)) : r1 = r2 := by
  obtain ⟨root, hr, hc⟩ := reach_inv reach
  obtain ⟨N, m1, rr, e1, -, i1⟩ := exec_inv hr hc (.find x)
  have a := exec_mono m (.find x) f _ N run
  rw [e1 _ (by omega)] at a
  simp only [Outcome.ok.injEq, Prod.mk.injEq] at a
  obtain ⟨rfl, -⟩ := a
  have key : ∀ (par : α → α) z k s p, Root par z (root z) → find k par z = .ok (s, p) →
      s = root z := by
    intro par z k s p hroot hz
    obtain ⟨N, p', h1, -⟩ := find_spec hroot
    have a := find_mono hz N
    rw [h1 _ (by omega)] at a
    simp only [Outcome.ok.injEq, Prod.mk.injEq] at a
    exact a.1.symm
  rw [key _ _ _ _ _ (hr y) h1, key _ _ _ _ _ ((i1 x rfl).2 y) h2]

/-- **C54 is false**: `clear` promises to reset a set "as though it has just been freshly
created", but clearing the root of a tree leaves the other members attached to it. -/
theorem c54_clear_witness : ∃ (m : Mem Nat), Reach [.join 0 1] m ∧
    ∃ p, find 5 (clear m 0).par 1 = .ok (0, p) := by
  refine ⟨⟨Function.update id 1 0, Function.update (fun _ => 0) 0 1⟩,
    .step (f := 3) (r := none) .init ?_, Function.update (Function.update (Function.update id 1 0) 0 0) 1 0, ?_⟩
  · simp [exec, join, find, init]
  · simp [find, clear]

/-- **C54, partial.** Clearing an object that is nobody else's parent does detach it: it becomes
its own representative, and nobody else's representative changes. (Missing: objects that others
point to.) -/
theorem c54_clear_partial {h : List (Op α)} {m : Mem α} (reach : Reach h m) (x : α)
    (leaf : ∀ y, y ≠ x → m.par y ≠ x) :
    ∃ root : α → α, (∀ y, ∃ N p, ∀ f, N ≤ f → find f m.par y = .ok (root y, p)) ∧
      (∀ y, ∃ N p, ∀ f, N ≤ f → find f (clear m x).par y = .ok (if y = x then x else root y, p)) ∧
      ∀ y, y ≠ x → root y ≠ x := by
  obtain ⟨root, hr, hc⟩ := reach_inv reach
  have hne : ∀ y s, Root m.par y s → y ≠ x → s ≠ x := by
    intro y s hy
    induction hy with
    | base h => exact id
    | step h rest ih => exact fun hyx => ih (leaf _ hyx)
  have hroot : ∀ y s, Root m.par y s → y ≠ x → Root (clear m x).par y s := by
    intro y s hy
    induction hy with
    | base h =>
      intro hyx
      exact .base (by simp only [clear]; rw [Function.update_of_ne hyx]; exact h)
    | @step y s h rest ih =>
      intro hyx
      have e : (clear m x).par y = m.par y := by simp only [clear]; rw [Function.update_of_ne hyx]
      exact .step (by rw [e]; exact h) (by rw [e]; exact ih (leaf _ hyx))
  refine ⟨root, fun y => ?_, fun y => ?_, fun y hy => hne y _ (hr y) hy⟩
  · obtain ⟨N, p, h1, -⟩ := find_spec (hr y)
    exact ⟨N, p, h1⟩
  · by_cases e : y = x
    · subst e
      rw [if_pos rfl]
      obtain ⟨N, p, h1, -⟩ := find_spec (par := (clear m y).par) (x := y) (r := y)
        (.base (by simp [clear]))
      exact ⟨N, p, h1⟩
    · rw [if_neg e]
      obtain ⟨N, p, h1, -⟩ := find_spec (hroot y _ (hr y) e)
      exact ⟨N, p, h1⟩

/-! ### A concrete case -/

/-- Four objects, two joins: a reachable memory in which 0 and 2 are connected, 0 and 3 not. -/
example : ∃ m : Mem Nat, Reach [.find 2, .join 1 2, .join 0 1] m ∧
    Connected [.find 2, .join 1 2, .join 0 1] 0 2 ∧ ¬ Connected [.find 2, .join 1 2, .join 0 1] 0 3 := by
  have r1 : Reach [.join 0 1]
      (⟨Function.update id 1 0, Function.update (fun _ => 0) 0 1⟩ : Mem Nat) :=
    .step (f := 3) (r := none) .init (by simp [exec, join, find, init])
  obtain ⟨N, m2, o2, e2⟩ := c08_calls_return r1 (.join 1 2)
  have r2 := Reach.step r1 (e2 N (Nat.le_refl _))
  obtain ⟨N, m3, o3, e3⟩ := c08_calls_return r2 (.find 2)
  refine ⟨m3, .step r2 (e3 N (Nat.le_refl _)), ?_, ?_⟩
  · exact Relation.EqvGen.trans _ 1 _ (Relation.EqvGen.rel _ _ (by simp [Joined]))
      (Relation.EqvGen.rel _ _ (by simp [Joined]))
  · intro c
    have : ∀ a b, Connected [Op.find 2, .join 1 2, .join 0 1] a b → (a < 3 ↔ b < 3) := by
      intro a b c
      induction c with
      | rel u v h => simp [Joined] at h; omega
      | refl => exact Iff.rfl
      | symm _ _ _ ih => exact ih.symm
      | trans _ _ _ _ _ i1 i2 => exact i1.trans i2
    have := this 0 3 c
    omega

end Verif.Djset
