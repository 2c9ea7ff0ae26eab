import Verif.Structs.Pool

/-!
# C11: the object pool

The specification is the list of outstanding objects, computed from the calls and their results
alone.
-/

namespace Verif.Pool

inductive Op where
  | get
  | put (o : Slot)
  /-- the client writes arbitrary bytes into an object -/
  | write (o : Slot) (v : Option Slot)
  deriving DecidableEq

def exec (p : Pool) : Op → Outcome (Pool × Option Slot)
  | .get => (get p).map fun r => (r.2, some r.1)
  | .put o => .ok (put p o, none)
  | .write o v => .ok (write p o v, none)

/-- Specification: the objects handed out and not yet returned (most recent call first). -/
def live : List (Op × Option Slot) → List Slot
  | [] => []
  | (.get, some s) :: h => s :: live h
  | (.get, none) :: h => live h
  | (.put o, _) :: h => (live h).erase o
  | (.write _ _, _) :: h => live h

/-- Specification: the largest number of objects that were ever outstanding at once. -/
def peak : List (Op × Option Slot) → Nat
  | [] => 0
  | e :: h => max (live (e :: h)).length (peak h)

/-- Client obligation: return, and write to, only outstanding objects. -/
def Legal (h : List (Op × Option Slot)) : Op → Prop
  | .get => True
  | .put o => o ∈ live h
  | .write o _ => o ∈ live h

instance (h : List (Op × Option Slot)) (op : Op) : Decidable (Legal h op) := by
  cases op <;> unfold Legal <;> infer_instance

inductive Reach (sz : Nat) (link : Slot → Option Slot) : List (Op × Option Slot) → Pool → Prop where
  | init : Reach sz link [] (init sz link)
  | step {h p op p' r} (prev : Reach sz link h p) (legal : Legal h op)
      (run : exec p op = .ok (p', r)) : Reach sz link ((op, r) :: h) p'

def Inv (sz : Nat) (h : List (Op × Option Slot)) (p : Pool) : Prop :=
  (∃ free, Rep p (live h) free) ∧ p.blksz = sz ∧ p.blk * p.blksz + p.nxt = peak h

theorem live_le_peak (h : List (Op × Option Slot)) : (live h).length ≤ peak h := by
  cases h with
  | nil => simp [live, peak]
  | cons e h => exact Nat.le_max_left _ _

theorem exec_inv {sz : Nat} {h : List (Op × Option Slot)} {p : Pool} (inv : Inv sz h p) (op : Op)
    (legal : Legal h op) : ∃ p' r, exec p op = .ok (p', r) ∧ Inv sz ((op, r) :: h) p' ∧
      (op = .get → ∃ s, r = some s ∧ s ∉ live h ∧ s.1 < p'.nblks ∧ s.2 < sz) := by
  obtain ⟨⟨free, r⟩, hsz, hpk⟩ := inv
  have hlp := live_le_peak h
  cases op with
  | get =>
    cases free with
    | nil =>
      obtain ⟨s, p', e1, r1, k1, k2, k3, k4⟩ := get_fresh r
      refine ⟨p', some s, by simp [exec, e1], ⟨⟨_, r1⟩, k4.trans hsz, ?_⟩,
        fun _ => ⟨s, rfl, k1, k2, by rw [← hsz, ← k4]; exact k3⟩⟩
      have c1 := r1.count
      have c2 := r.count
      simp only [List.length_nil, Nat.add_zero, List.length_cons] at c1 c2
      simp only [peak, live, List.length_cons]
      omega
    | cons s l =>
      obtain ⟨p', e1, r1, k1, k2, k3, k4, k5⟩ := get_free r s l rfl
      refine ⟨p', some s, by simp [exec, e1], ⟨⟨_, r1⟩, k5.trans hsz, ?_⟩,
        fun _ => ⟨s, rfl, k1, k2, by rw [← hsz, ← k5]; exact k3⟩⟩
      have c2 := r.count
      simp only [List.length_cons] at c2
      simp only [peak, live, List.length_cons]
      omega
  | put o =>
    refine ⟨put p o, none, rfl, ⟨⟨_, put_rep r legal⟩, hsz, ?_⟩, by simp⟩
    have h2 := List.length_erase_of_mem legal
    simp only [peak, live]
    show p.blk * p.blksz + p.nxt = _
    omega
  | write o v =>
    refine ⟨write p o v, none, rfl, ⟨⟨_, write_rep r legal v⟩, hsz, ?_⟩, by simp⟩
    simp only [peak, live]
    show p.blk * p.blksz + p.nxt = _
    omega

theorem reach_inv {sz : Nat} (hsz : 0 < sz) {link : Slot → Option Slot}
    {h : List (Op × Option Slot)} {p : Pool} (reach : Reach sz link h p) : Inv sz h p := by
  induction reach with
  | init => exact ⟨⟨[], rep_init hsz _⟩, rfl, by simp [init, peak]⟩
  | step prev legal run ih =>
    obtain ⟨q1, r1, e1, i1, -⟩ := exec_inv ih _ legal
    rw [run] at e1
    simp only [Outcome.ok.injEq, Prod.mk.injEq] at e1
    obtain ⟨rfl, rfl⟩ := e1
    exact i1

/-- **C11.** `get` hands out storage inside an allocated block that is not outstanding, whatever
was written into the objects meanwhile. -/
theorem c11_get_not_live {sz : Nat} (hsz : 0 < sz) {link : Slot → Option Slot}
    {h : List (Op × Option Slot)} {p p' : Pool} (reach : Reach sz link h p) (s : Slot)
    (run : get p = .ok (s, p')) : s ∉ live h ∧ s.1 < p'.nblks ∧ s.2 < sz := by
  obtain ⟨q1, r1, e1, -, i2⟩ := exec_inv (reach_inv hsz reach) .get trivial
  have : exec p .get = .ok (p', some s) := by simp [exec, run]
  rw [this] at e1
  simp only [Outcome.ok.injEq, Prod.mk.injEq] at e1
  obtain ⟨rfl, rfl⟩ := e1
  obtain ⟨t, ht, k⟩ := i2 rfl
  simp only [Option.some.injEq] at ht
  subst ht
  exact k

/-- **C11.** The outstanding objects are pairwise different storage. -/
theorem c11_live_distinct {sz : Nat} (hsz : 0 < sz) {link : Slot → Option Slot}
    {h : List (Op × Option Slot)} {p : Pool} (reach : Reach sz link h p) : (live h).Nodup := by
  obtain ⟨⟨free, r⟩, -⟩ := reach_inv hsz reach
  exact r.nodup

/-- **C11.** Every legal call returns normally. -/
theorem c11_calls_return {sz : Nat} (hsz : 0 < sz) {link : Slot → Option Slot}
    {h : List (Op × Option Slot)} {p : Pool} (reach : Reach sz link h p) (op : Op)
    (legal : Legal h op) : ∃ p' r, exec p op = .ok (p', r) := by
  obtain ⟨q1, r1, e1, -⟩ := exec_inv (reach_inv hsz reach) op legal
  exact ⟨q1, r1, e1⟩

/-- **C55.** Returned storage is reused before new storage is taken: the number of blocks is
exactly what the largest number of simultaneously outstanding objects needs. -/
theorem c55_blocks {sz : Nat} (hsz : 0 < sz) {link : Slot → Option Slot}
    {h : List (Op × Option Slot)} {p : Pool} (reach : Reach sz link h p) :
    p.nblks = max 1 ((peak h + sz - 1) / sz) := by
  have key : ∀ {h p}, Reach sz link h p → p.nblks = p.blk + 1 ∧ p.nxt ≤ sz ∧
      (0 < p.blk → 0 < p.nxt) ∧ p.blksz = sz := by
    intro h p reach
    induction reach with
    | init => exact ⟨rfl, Nat.zero_le _, by simp [init], rfl⟩
    | @step h p op p' r prev legal run ih =>
      obtain ⟨h1, h2, h3, h4⟩ := ih
      cases op with
      | get =>
        obtain ⟨⟨s, q⟩, e1, e2⟩ := Outcome.map_eq_ok.1 run
        simp only [Prod.mk.injEq] at e2
        obtain ⟨rfl, -⟩ := e2
        unfold get at e1
        split at e1
        · simp only [Outcome.ok.injEq, Prod.mk.injEq] at e1
          obtain ⟨-, rfl⟩ := e1
          exact ⟨h1, h2, h3, h4⟩
        · by_cases e : p.nxt = p.blksz
          · simp only [e, if_true, newblk, h1, Nat.le_refl] at e1
            split_ifs at e1
            simp only [Outcome.ok.injEq, Prod.mk.injEq] at e1
            obtain ⟨-, rfl⟩ := e1
            exact ⟨rfl, hsz, fun _ => Nat.one_pos, h4⟩
          · simp only [e, if_false] at e1
            split_ifs at e1
            simp only [Outcome.ok.injEq, Prod.mk.injEq] at e1
            obtain ⟨-, rfl⟩ := e1
            exact ⟨h1, by simp; omega, fun _ => Nat.succ_pos _, h4⟩
      | put o =>
        simp only [exec, Outcome.ok.injEq, Prod.mk.injEq] at run
        obtain ⟨rfl, -⟩ := run
        exact ⟨h1, h2, h3, h4⟩
      | write o v =>
        simp only [exec, Outcome.ok.injEq, Prod.mk.injEq] at run
        obtain ⟨rfl, -⟩ := run
        exact ⟨h1, h2, h3, h4⟩
  obtain ⟨k1, k2, k3, k4⟩ := key reach
  obtain ⟨-, -, hpk⟩ := reach_inv hsz reach
  rw [k4] at hpk
  rw [k1, ← hpk]
  rcases Nat.eq_zero_or_pos p.nxt with e | e
  · have hb : p.blk = 0 := by
      by_contra hne
      have := k3 (Nat.pos_of_ne_zero hne)
      omega
    rw [e, hb]
    simp only [Nat.zero_mul, Nat.zero_add]
    rw [Nat.div_eq_of_lt (by omega)]
    rfl
  · have : (p.blk * sz + p.nxt + sz - 1) / sz = p.blk + 1 := by
      rw [show p.blk * sz + p.nxt + sz - 1 = (p.nxt - 1) + (p.blk + 1) * sz by
        rw [Nat.succ_mul]; omega]
      rw [Nat.add_mul_div_right _ _ hsz, Nat.div_eq_of_lt (by omega)]
      omega
    rw [this]
    omega

/-- A pool with block size 0 is unusable: the first `get` is undefined behaviour. -/
theorem c11_zero_blksz_ub (link : Slot → Option Slot) : get (init 0 link) = .ub := by
  simp [get, init, newblk]

/-- The obligation to return only outstanding objects is needed: after returning an object
twice, the next two `get`s return the same storage. -/
theorem c11_double_put (link : Slot → Option Slot) :
    ∃ s p1 p2 p3, get (init 4 link) = .ok (s, p1) ∧ get (put (put p1 s) s) = .ok (s, p2) ∧
      get p2 = .ok (s, p3) := by
  simp [get, init, put]

/-! ### A concrete case -/

def runOps : List (Op × Option Slot) → Pool → List Op → Option (List (Op × Option Slot))
  | h, _, [] => some h
  | h, q, op :: ops =>
    if Legal h op then
      match exec q op with
      | .ok (q', r) => runOps ((op, r) :: h) q' ops
      | _ => none
    else none

theorem reach_of_runOps {sz : Nat} {link : Slot → Option Slot} {h h' q ops}
    (rc : Reach sz link h q) (e : runOps h q ops = some h') : ∃ q', Reach sz link h' q' := by
  induction ops generalizing h q with
  | nil => simp only [runOps, Option.some.injEq] at e; exact ⟨q, e ▸ rc⟩
  | cons op ops ih =>
    unfold runOps at e
    split_ifs at e with legal
    split at e
    · rename_i q' r hr
      exact ih (.step rc legal hr) e
    · simp at e

/-- Three gets with blocks of two, scribbling, a put and another get: slots are reused, two
blocks exist. -/
example : ∃ p, Reach 2 (fun _ => none)
    [(.get, some (0, 1)), (.put (0, 1), none), (.write (0, 1) (some (7, 7)), none),
     (.get, some (1, 0)), (.get, some (0, 1)), (.get, some (0, 0))] p :=
  reach_of_runOps (ops := [.get, .get, .get, .write (0, 1) (some (7, 7)), .put (0, 1), .get])
    .init (by decide +kernel)

end Verif.Pool
