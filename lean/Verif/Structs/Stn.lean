import Verif.Outcome
import Mathlib.Logic.Function.Basic
import Mathlib.Data.Finset.Card
import Mathlib.Data.Finset.Range
import Mathlib.Tactic.Common

/-!
# Model of the simple temporal network (structs/stn.hpp, structs/stn.cc)

Node pointers are node ids.  Times are `long`: integers between `tmin` and `tmax`, with clamped
arithmetic.  The recursion of `proplower`/`propupper` takes fuel (it is proved that `nnodes + 1`
is enough).
-/

namespace Verif.Stn

/-- stn.hpp:61-65 `inf()`: `LONG_MAX`. -/
def tmax : Int := 2 ^ 63 - 1
/-- stn.hpp:67-71 `neginf()`: `LONG_MIN`. -/
def tmin : Int := -2 ^ 63

/-- stn.hpp:77-86 `subclamp`. -/
def subclamp (a b : Int) : Int :=
  if b ≥ 0 then (if a < tmin + b then tmin else a - b)
  else if a > tmax + b then tmax else a - b

/-- stn.hpp:88-97 `addclamp`. -/
def addclamp (a b : Int) : Int :=
  if b ≥ 0 then (if a > tmax - b then tmax else a + b)
  else if a < tmin - b then tmin else a + b

/-- stn.hpp:118-126 struct `Undo`. -/
structure Undo where
  popout : List Nat
  prevto : List (Nat × Int)
  prevfrom : List (Nat × Int)

/-- stn.hpp:102-116, 134-135: the nodes' fields and the undo stack (most recent first). -/
structure Net where
  n : Nat
  out : Nat → List (Nat × Int)
  inn : Nat → List (Nat × Int)
  /-- `tozero`, the lower bounds -/
  lo : Nat → Int
  /-- `fromzero`, the upper bounds -/
  hi : Nat → Int
  undos : List Undo

/-- stn.cc:8-11, the constructor: `num + 1` nodes, node 0 is the time origin. -/
def mk (num : Nat) : Net where
  n := num + 1
  out := fun _ => []
  inn := fun _ => []
  lo := Function.update (fun _ => tmin) 0 0
  hi := Function.update (fun _ => tmax) 0 0
  undos := []

/-- stn.hpp:24-33. -/
structure Constraint where
  i : Nat
  j : Nat
  a : Int
  b : Int
  deriving DecidableEq

/-- The part of the state changed by one propagation pass: the bounds (`tozero` or `fromzero`),
the undo log, and the arrays `toupdt`/`fromupdt` and `seen`. -/
structure PS where
  val : Nat → Int
  prev : List (Nat × Int)
  upd : Nat → Bool
  seen : Nat → Bool

/-- stn.cc:242-249 / 270-277: record the old value once, set the new one, mark as seen. -/
def visit (s : PS) (v : Nat) (d : Int) : PS where
  val := Function.update s.val v d
  prev := if s.upd v then s.prev else s.prev ++ [(v, s.val v)]
  upd := Function.update s.upd v true
  seen := Function.update s.seen v true

/-- stn.cc:252 / 280. -/
def unsee (s : PS) (v : Nat) : PS := { s with seen := Function.update s.seen v false }

/-- The loop of stn.cc:231-253 (`proplower`) and 259-281 (`propupper`) over the arcs of `u`.  The
two functions differ only in the comparison (`bt d c`: the new bound `d` is strictly tighter than
`c`), the clamped arithmetic `step`, the arcs, and the opposite bounds `opp`. -/
def loop (bt : Int → Int → Bool) (step : Int → Int → Int) (opp : Nat → Int)
    (rec : PS → Nat → Outcome (Bool × PS)) (u : Nat) :
    List (Nat × Int) → PS → Outcome (Bool × PS)
  | [], s => .ok (true, s)
  | (v, w) :: rest, s =>
    let dist := step (s.val u) w
    if bt dist (s.val v) then
      if bt dist (opp v) || s.seen v then .ok (false, s)
      else (rec (visit s v dist) v).bind fun r =>
        if r.1 then loop bt step opp rec u rest (unsee r.2 v) else .ok (false, r.2)
    else loop bt step opp rec u rest s

def prop (bt : Int → Int → Bool) (step : Int → Int → Int) (opp : Nat → Int)
    (adj : Nat → List (Nat × Int)) : Nat → PS → Nat → Outcome (Bool × PS)
  | 0, _, _ => .nofuel
  | f + 1, s, u => loop bt step opp (prop bt step opp adj f) u (adj u) s

/-- Tighter lower bound: larger (`dist <= v.tozero` continues, `v.fromzero < dist` fails). -/
def btLo (d c : Int) : Bool := decide (c < d)
/-- Tighter upper bound: smaller (`dist >= v.fromzero` continues, `v.tozero > dist` fails). -/
def btHi (d c : Int) : Bool := decide (d < c)

/-- stn.cc:230-256 `proplower`. -/
def proplower (net : Net) (hi : Nat → Int) : Nat → PS → Nat → Outcome (Bool × PS) :=
  prop btLo subclamp hi net.inn

/-- stn.cc:258-284 `propupper`. -/
def propupper (net : Net) (lo : Nat → Int) : Nat → PS → Nat → Outcome (Bool × PS) :=
  prop btHi addclamp lo net.out

/-- stn.cc:203-215 `propagate`.  Returns the bounds and the undo logs in any case.  `seen` is
shared by the four calls. -/
def propagate (net : Net) (f : Nat) (c : Constraint) : Outcome (Bool × PS × PS) :=
  let none : Nat → Bool := fun _ => false
  (proplower net net.hi f ⟨net.lo, [], none, none⟩ c.i).bind fun r1 =>
  if !r1.1 then .ok (false, r1.2, ⟨net.hi, [], none, none⟩) else
  (propupper net r1.2.val f ⟨net.hi, [], none, r1.2.seen⟩ c.i).bind fun r2 =>
  if !r2.1 then .ok (false, r1.2, r2.2) else
  (proplower net r2.2.val f { r1.2 with seen := r2.2.seen } c.j).bind fun r3 =>
  if !r3.1 then .ok (false, r3.2, r2.2) else
  (propupper net r3.2.val f { r2.2 with seen := r3.2.seen } c.j).bind fun r4 =>
  .ok (r4.1, r3.2, r4.2)

/-- `push_back` on the arc vector of node `x`. -/
def pushArc (arcs : Nat → List (Nat × Int)) (x : Nat) (a : Nat × Int) : Nat → List (Nat × Int) :=
  Function.update arcs x (arcs x ++ [a])

/-- stn.cc:217-228 `addarcs`; also returns `popout`. -/
def addarcs (net : Net) (c : Constraint) : Net × List Nat :=
  let r1 : Net × List Nat := if c.b < tmax then
      ({ net with out := pushArc net.out c.i (c.j, c.b), inn := pushArc net.inn c.j (c.i, c.b) }, [c.i])
    else (net, [])
  if c.a > tmin then
    ({ r1.1 with out := pushArc r1.1.out c.j (c.i, -c.a), inn := pushArc r1.1.inn c.i (c.j, -c.a) },
     r1.2 ++ [c.j])
  else r1

/-- stn.cc:184-192: the first loop of `undo`. -/
def popArcs : List Nat → Net → Outcome Net
  | [], net => .ok net
  | u :: us, net =>
    match (net.out u).getLast? with
    | none => .fatal
    | some (v, _) =>
      let net1 := { net with out := Function.update net.out u (net.out u).dropLast }
      match (net1.inn v).getLast? with
      | none => .fatal
      | some (u', _) =>
        if u' = u then
          popArcs us { net1 with inn := Function.update net1.inn v (net1.inn v).dropLast }
        else .fatal

/-- stn.cc:194-198: restoring the bounds. -/
def restore (log : List (Nat × Int)) (val : Nat → Int) : Nat → Int :=
  log.foldl (fun val p => Function.update val p.1 p.2) val

/-- stn.cc:182-201 `undo`; without a constraint to undo, `undos.back()` is undefined. -/
def undo (net : Net) : Outcome Net :=
  match net.undos with
  | [] => .ub
  | u :: us => (popArcs u.popout net).map fun net1 =>
      { net1 with lo := restore u.prevto net1.lo, hi := restore u.prevfrom net1.hi, undos := us }

/-- stn.cc:62-74 `add`.  Node numbers outside the network are undefined behaviour. -/
def add (f : Nat) (net : Net) (c : Constraint) : Outcome (Bool × Net) :=
  if c.i < net.n ∧ c.j < net.n then
    let r := addarcs net c
    (propagate r.1 f c).bind fun p =>
      let net2 : Net := { r.1 with lo := p.2.1.val, hi := p.2.2.val,
                                   undos := ⟨r.2, p.2.1.prev, p.2.2.prev⟩ :: net.undos }
      if p.1 then .ok (true, net2) else (undo net2).map fun net3 => (false, net3)
  else .ub

/-! ## Clamped arithmetic -/

theorem tmin_tmax : tmin = -9223372036854775808 ∧ tmax = 9223372036854775807 := by
  constructor <;> rfl

/-- In range. -/
def InR (a : Int) : Prop := tmin ≤ a ∧ a ≤ tmax

instance (a : Int) : Decidable (InR a) := by unfold InR; infer_instance

/-- `subclamp` saturates the exact difference, and no intermediate value overflows. -/
theorem subclamp_eq {a b : Int} (ha : InR a) (hb : InR b) :
    subclamp a b = max tmin (min tmax (a - b)) := by
  unfold subclamp InR at *
  obtain ⟨h1, h2⟩ := tmin_tmax
  split_ifs <;> omega

theorem addclamp_eq {a b : Int} (ha : InR a) (hb : InR b) :
    addclamp a b = max tmin (min tmax (a + b)) := by
  unfold addclamp InR at *
  obtain ⟨h1, h2⟩ := tmin_tmax
  split_ifs <;> omega

/-- The intermediate sums of `subclamp` and `addclamp` do not overflow. -/
theorem clamp_no_overflow {a b : Int} (hb : InR b) :
    (b ≥ 0 → InR (tmin + b) ∧ InR (tmax - b)) ∧ (b < 0 → InR (tmax + b) ∧ InR (tmin - b)) := by
  unfold InR at *
  obtain ⟨h1, h2⟩ := tmin_tmax
  constructor <;> intro h <;> omega

theorem InR.clamp (x : Int) : InR (max tmin (min tmax x)) := by
  unfold InR
  obtain ⟨h1, h2⟩ := tmin_tmax
  omega

/-! ## The generic propagation -/

section generic

variable {bt : Int → Int → Bool} {step : Int → Int → Int} {opp : Nat → Int}
  {adj : Nat → List (Nat × Int)}

/-- Number of nodes not marked `seen`. -/
def unseen (n : Nat) (seen : Nat → Bool) : Nat := ((Finset.range n).filter fun v => seen v = false).card

theorem unseen_visit {n v : Nat} {seen : Nat → Bool} (hv : v < n) (hs : seen v = false) :
    unseen n (Function.update seen v true) + 1 = unseen n seen := by
  unfold unseen
  have : (Finset.range n).filter (fun w => Function.update seen v true w = false) =
      ((Finset.range n).filter fun w => seen w = false).erase v := by
    ext w
    simp only [Finset.mem_filter, Finset.mem_range, Finset.mem_erase]
    by_cases e : w = v
    · subst e; simp
    · rw [Function.update_of_ne e]; tauto
  rw [this]
  apply Finset.card_erase_add_one
  simp [hv, hs]

/-- Arcs lead to nodes of the network. -/
def AdjOk (n : Nat) (adj : Nat → List (Nat × Int)) : Prop := ∀ u, ∀ e ∈ adj u, e.1 < n

/-- The recursion ends, and `seen` is unchanged when the call succeeds. -/
theorem prop_ends {n : Nat} (ha : AdjOk n adj) (f : Nat) (s : PS) (u : Nat)
    (hf : unseen n s.seen < f) :
    ∃ b s', prop bt step opp adj f s u = .ok (b, s') ∧ (b = true → s'.seen = s.seen) := by
  induction f generalizing s u with
  | zero => omega
  | succ f ih =>
    unfold prop
    have key : ∀ (l : List (Nat × Int)) (s : PS), (∀ e ∈ l, e.1 < n) → unseen n s.seen < f + 1 →
        ∃ b s', loop bt step opp (prop bt step opp adj f) u l s = .ok (b, s') ∧
          (b = true → s'.seen = s.seen) := by
      intro l
      induction l with
      | nil => intro s _ _; exact ⟨true, s, rfl, fun _ => rfl⟩
      | cons e l ihl =>
        intro s hl hs
        obtain ⟨v, w⟩ := e
        have hv : v < n := hl (v, w) List.mem_cons_self
        have hl' : ∀ e ∈ l, e.1 < n := fun e he => hl e (List.mem_cons_of_mem _ he)
        unfold loop
        dsimp only
        split_ifs with h1 h2
        · exact ⟨false, s, rfl, by simp⟩
        · simp only [Bool.or_eq_true, not_or, Bool.not_eq_true] at h2
          have hu := unseen_visit hv h2.2
          obtain ⟨b, s', e1, e2⟩ := ih (visit s v (step (s.val u) w)) v (by simp only [visit]; omega)
          rw [e1, Outcome.bind_ok]
          dsimp only
          cases b with
          | false => exact ⟨false, s', rfl, by simp⟩
          | true =>
            have hse : (unsee s' v).seen = s.seen := by
              simp only [unsee]
              rw [e2 rfl]
              simp only [visit]
              funext x
              by_cases e : x = v
              · subst e; simp [h2.2]
              · rw [Function.update_of_ne e, Function.update_of_ne e]
            obtain ⟨b, s2, k1, k2⟩ := ihl (unsee s' v) hl' (by rw [hse]; exact hs)
            refine ⟨b, s2, k1, fun hb => (k2 hb).trans hse⟩
        · exact ihl s hl' hs
    exact key (adj u) s (ha u) hf

/-- A predicate on states preserved by `visit` and `unsee` holds after a whole call. -/
theorem prop_induct (P : PS → Prop) (hvisit : ∀ s v d, P s → bt d (s.val v) = true →
    bt d (opp v) = false → (∃ u w, (v, w) ∈ adj u ∧ d = step (s.val u) w) → P (visit s v d))
    (hunsee : ∀ s v, P s → P (unsee s v)) {f : Nat} {s s' : PS} {u : Nat} {b : Bool} (hs : P s)
    (h : prop bt step opp adj f s u = .ok (b, s')) : P s' := by
  induction f generalizing s s' u b with
  | zero => simp [prop] at h
  | succ f ih =>
    unfold prop at h
    have key : ∀ (l : List (Nat × Int)) (s : PS) b s', (∀ e ∈ l, e ∈ adj u) → P s →
        loop bt step opp (prop bt step opp adj f) u l s = .ok (b, s') → P s' := by
      intro l
      induction l with
      | nil => intro s b s' _ hs h; simp only [loop, Outcome.ok.injEq, Prod.mk.injEq] at h; exact h.2 ▸ hs
      | cons e l ihl =>
        intro s b s' hl hs h
        obtain ⟨v, w⟩ := e
        have hmem : (v, w) ∈ adj u := hl _ List.mem_cons_self
        have hl' : ∀ e ∈ l, e ∈ adj u := fun e he => hl e (List.mem_cons_of_mem _ he)
        unfold loop at h
        dsimp only at h
        split_ifs at h with h1 h2
        · simp only [Outcome.ok.injEq, Prod.mk.injEq] at h; exact h.2 ▸ hs
        · simp only [Bool.or_eq_true, not_or, Bool.not_eq_true] at h2
          rw [Outcome.bind_eq_ok] at h
          obtain ⟨⟨b1, s1⟩, h3, h4⟩ := h
          have p1 := ih (hvisit s v _ hs h1 h2.1 ⟨u, w, hmem, rfl⟩) h3
          split_ifs at h4
          · exact ihl _ _ _ hl' (hunsee _ _ p1) h4
          · simp only [Outcome.ok.injEq, Prod.mk.injEq] at h4; exact h4.2 ▸ p1
        · exact ihl _ _ _ hl' hs h
    exact key _ _ _ _ (fun _ h => h) hs h

/-- The undo log matches the values the bounds had at `base`. -/
structure LogOk (base : Nat → Int) (s : PS) : Prop where
  same : ∀ v, s.upd v = false → s.val v = base v ∧ ∀ x, (v, x) ∉ s.prev
  log : ∀ v, s.upd v = true → (v, base v) ∈ s.prev
  uniq : ∀ v x, (v, x) ∈ s.prev → x = base v

theorem logOk_init (val : Nat → Int) (seen : Nat → Bool) : LogOk val ⟨val, [], fun _ => false, seen⟩ :=
  ⟨by simp, by simp, by simp⟩

theorem logOk_visit {base : Nat → Int} {s : PS} (h : LogOk base s) (v : Nat) (d : Int) :
    LogOk base (visit s v d) := by
  refine ⟨fun x hx => ?_, fun x hx => ?_, fun x y hy => ?_⟩
  · have hxv : x ≠ v := by rintro rfl; simp [visit] at hx
    simp only [visit] at hx ⊢
    rw [Function.update_of_ne hxv] at hx
    obtain ⟨a, b⟩ := h.same x hx
    rw [Function.update_of_ne hxv]
    refine ⟨a, fun y hy => ?_⟩
    split_ifs at hy
    · exact b y hy
    · rw [List.mem_append, List.mem_singleton] at hy
      rcases hy with hy | hy
      · exact b y hy
      · exact hxv (Prod.mk.inj hy).1
  · simp only [visit] at hx ⊢
    by_cases e : x = v
    · subst e
      split_ifs with hu
      · exact h.log x hu
      · rw [(h.same x (by simpa using hu)).1]
        exact List.mem_append_right _ List.mem_cons_self
    · rw [Function.update_of_ne e] at hx
      split_ifs
      · exact h.log x hx
      · exact List.mem_append_left _ (h.log x hx)
  · simp only [visit] at hy
    split_ifs at hy with hu
    · exact h.uniq x y hy
    · rw [List.mem_append, List.mem_singleton] at hy
      rcases hy with hy | hy
      · exact h.uniq x y hy
      · obtain ⟨rfl, rfl⟩ := Prod.mk.inj hy
        exact (h.same x (by simpa using hu)).1

theorem prop_log {base : Nat → Int} {f : Nat} {s s' : PS} {u : Nat} {b : Bool} (h : LogOk base s)
    (run : prop bt step opp adj f s u = .ok (b, s')) : LogOk base s' :=
  prop_induct (LogOk base) (fun _ _ _ hs _ _ _ => logOk_visit hs _ _)
    (fun _ _ hs => ⟨hs.same, hs.log, hs.uniq⟩) h run

open Classical in
theorem restore_spec {base : Nat → Int} (log : List (Nat × Int)) (val : Nat → Int)
    (huniq : ∀ v x, (v, x) ∈ log → x = base v) (v : Nat) :
    restore log val v = if ∃ x, (v, x) ∈ log then base v else val v := by
  induction log generalizing val with
  | nil => simp [restore]
  | cons p log ih =>
    obtain ⟨a, y⟩ := p
    have := ih (Function.update val a y) (fun v x h => huniq v x (List.mem_cons_of_mem _ h))
    simp only [restore, List.foldl_cons] at this ⊢
    rw [this]
    by_cases h : ∃ x, (v, x) ∈ log
    · rw [if_pos h, if_pos]
      obtain ⟨x, hx⟩ := h
      exact ⟨x, List.mem_cons_of_mem _ hx⟩
    · rw [if_neg h]
      by_cases e : v = a
      · subst e
        rw [Function.update_self, if_pos ⟨y, List.mem_cons_self⟩]
        exact huniq v y List.mem_cons_self
      · rw [Function.update_of_ne e, if_neg]
        rintro ⟨x, hx⟩
        rcases List.mem_cons.1 hx with hx | hx
        · exact e (Prod.mk.inj hx).1
        · exact h ⟨x, hx⟩

theorem restore_log {base : Nat → Int} {s : PS} (h : LogOk base s) : restore s.prev s.val = base := by
  funext v
  rw [restore_spec (base := base) s.prev s.val h.uniq v]
  split_ifs with hx
  · rfl
  · cases hu : s.upd v with
    | false => exact (h.same v hu).1
    | true => exact absurd ⟨_, h.log v hu⟩ hx

/-! ### Every arc is relaxed after a successful call -/

/-- The arc `(v, w)` of `u` cannot tighten the bound of `v`. -/
def Relaxed (bt : Int → Int → Bool) (step : Int → Int → Int) (val : Nat → Int) (u : Nat) (e : Nat × Int) :
    Prop := bt (step (val u) e.2) (val e.1) = false

theorem prop_relax (hirr : ∀ a, bt a a = false)
    (htr : ∀ a b c, bt a b = true → bt b c = true → bt a c = true)
    {f : Nat} {s s' : PS} {u : Nat}
    (h : prop bt step opp adj f s u = .ok (true, s')) :
    ∀ x, ∀ e ∈ adj x, (x = u ∨ Relaxed bt step s.val x e) → Relaxed bt step s'.val x e := by
  induction f generalizing s s' u with
  | zero => simp [prop] at h
  | succ f ih =>
    unfold prop at h
    have key : ∀ (l : List (Nat × Int)) (s : PS) s',
        loop bt step opp (prop bt step opp adj f) u l s = .ok (true, s') →
        ∀ x, ∀ e ∈ adj x, ((x = u ∧ e ∈ l) ∨ Relaxed bt step s.val x e) → Relaxed bt step s'.val x e := by
      intro l
      induction l with
      | nil =>
        intro s s' h x e he hx
        simp only [loop, Outcome.ok.injEq, Prod.mk.injEq, true_and] at h
        subst h
        rcases hx with ⟨_, h⟩ | h
        · simp at h
        · exact h
      | cons a l ihl =>
        intro s s' h x e he hx
        obtain ⟨v, w⟩ := a
        unfold loop at h
        dsimp only at h
        split_ifs at h with h1 h2
        · simp at h
        · rw [Outcome.bind_eq_ok] at h
          obtain ⟨⟨b1, s1⟩, h3, h4⟩ := h
          cases b1 with
          | false => simp at h4
          | true =>
            simp only [if_true] at h4
            refine ihl _ _ h4 x e he ?_
            -- state after visiting
            have nested := ih h3 x e he
            have huns : ∀ x e, Relaxed bt step (unsee s1 v).val x e ↔ Relaxed bt step s1.val x e :=
              fun _ _ => Iff.rfl
            rw [huns]
            by_cases hxl : x = u ∧ e ∈ l
            · exact Or.inl hxl
            · right
              by_cases hxv : x = v
              · exact nested (Or.inl hxv)
              · apply nested
                right
                have hval : (visit s v (step (s.val u) w)).val = Function.update s.val v (step (s.val u) w) := rfl
                unfold Relaxed
                rw [hval, Function.update_of_ne hxv]
                rcases hx with ⟨rfl, hel⟩ | hrel
                · rcases List.mem_cons.1 hel with rfl | hel
                  · dsimp only
                    rw [Function.update_self]
                    exact hirr _
                  · exact absurd ⟨rfl, hel⟩ hxl
                · by_cases hev : e.1 = v
                  · rw [hev, Function.update_self]
                    unfold Relaxed at hrel
                    by_contra hc
                    rw [Bool.not_eq_false] at hc
                    rw [hev] at hrel
                    rw [htr _ _ _ hc h1] at hrel
                    exact absurd hrel (by simp)
                  · rw [Function.update_of_ne hev]; exact hrel
        · refine ihl _ _ h x e he ?_
          rcases hx with ⟨rfl, hel⟩ | hrel
          · rcases List.mem_cons.1 hel with rfl | hel
            · right
              simpa [Relaxed] using h1
            · exact Or.inl ⟨rfl, hel⟩
          · exact Or.inr hrel
    intro x e he hx
    refine key _ _ _ h x e he ?_
    rcases hx with rfl | hx
    · exact Or.inl ⟨rfl, he⟩
    · exact Or.inr hx

/-! ### A schedule prevents failure and is respected -/

/-- Seen nodes keep their bound over a successful call. -/
theorem prop_seen_val {f : Nat} {s s' : PS} {u : Nat}
    (h : prop bt step opp adj f s u = .ok (true, s')) :
    (∀ z, s.seen z = true → s'.val z = s.val z) ∧ ∀ z, s.seen z = true → s'.seen z = true := by
  induction f generalizing s s' u with
  | zero => simp [prop] at h
  | succ f ih =>
    unfold prop at h
    have key : ∀ (l : List (Nat × Int)) (s : PS) s',
        loop bt step opp (prop bt step opp adj f) u l s = .ok (true, s') →
        (∀ z, s.seen z = true → s'.val z = s.val z) ∧ ∀ z, s.seen z = true → s'.seen z = true := by
      intro l
      induction l with
      | nil =>
        intro s s' h
        simp only [loop, Outcome.ok.injEq, Prod.mk.injEq, true_and] at h
        subst h
        exact ⟨fun _ _ => rfl, fun _ h => h⟩
      | cons a l ihl =>
        intro s s' h
        obtain ⟨v, w⟩ := a
        unfold loop at h
        dsimp only at h
        split_ifs at h with h1 h2
        · simp at h
        · simp only [Bool.or_eq_true, not_or, Bool.not_eq_true] at h2
          rw [Outcome.bind_eq_ok] at h
          obtain ⟨⟨b1, s1⟩, h3, h4⟩ := h
          cases b1 with
          | false => simp at h4
          | true =>
            simp only [if_true] at h4
            obtain ⟨a1, a2⟩ := ih h3
            obtain ⟨b1, b2⟩ := ihl _ _ h4
            have hzv : ∀ z, s.seen z = true → z ≠ v := by
              rintro z hz rfl
              rw [h2.2] at hz
              simp at hz
            have hvs : ∀ z, s.seen z = true → (visit s v (step (s.val u) w)).seen z = true := by
              intro z hz
              simp only [visit]
              rw [Function.update_of_ne (hzv z hz)]; exact hz
            have hus : ∀ z, s.seen z = true → (unsee s1 v).seen z = true := by
              intro z hz
              simp only [unsee]
              rw [Function.update_of_ne (hzv z hz)]
              exact a2 z (hvs z hz)
            refine ⟨fun z hz => ?_, fun z hz => b2 z (hus z hz)⟩
            rw [b1 z (hus z hz)]
            show s1.val z = _
            rw [a1 z (hvs z hz)]
            simp only [visit]
            rw [Function.update_of_ne (hzv z hz)]
        · exact ihl _ _ h
    exact key _ _ _ h

/-- If a schedule `x` exists, a call does not fail and keeps the bounds around the schedule.
`sl v c` is the slack between the bound value `c` of `v` and the schedule. -/
theorem prop_sound {n : Nat} (x : Nat → Int) (sl : Nat → Int → Int) (Good : Int → Prop)
    (hsl : ∀ v a b, bt b a = true → sl v b < sl v a)
    (hgood : ∀ u, ∀ e ∈ adj u, ∀ a, Good a → Good (step a e.2))
    (hstep : ∀ u, ∀ e ∈ adj u, ∀ a c, Good a → Good c → bt (step a e.2) c = true →
      sl u a ≤ sl e.1 (step a e.2))
    (hx : ∀ u, ∀ e ∈ adj u, ∀ a, Good a → bt a (x u) = false → bt (step a e.2) (x e.1) = false)
    (hopp : ∀ v, v < n → ∀ d, bt d (x v) = false → bt d (opp v) = false)
    (hn : AdjOk n adj)
    {f : Nat} {s s' : PS} {u : Nat} {b : Bool}
    (hg : ∀ v, Good (s.val v)) (hle : ∀ v, bt (s.val v) (x v) = false)
    (hu : s.seen u = true ∨ ∀ v, s.seen v = false)
    (hstack : ∀ z, s.seen z = true → sl z (s.val z) ≤ sl u (s.val u))
    (h : prop bt step opp adj f s u = .ok (b, s')) :
    b = true ∧ (∀ v, Good (s'.val v)) ∧ (∀ v, bt (s'.val v) (x v) = false) ∧ s'.seen = s.seen := by
  induction f generalizing s s' u b with
  | zero => simp [prop] at h
  | succ f ih =>
    unfold prop at h
    have key : ∀ (l : List (Nat × Int)) (s : PS) s' b, (∀ e ∈ l, e ∈ adj u) →
        (∀ v, Good (s.val v)) → (∀ v, bt (s.val v) (x v) = false) →
        (s.seen u = true ∨ ∀ v, s.seen v = false) →
        (∀ z, s.seen z = true → sl z (s.val z) ≤ sl u (s.val u)) →
        loop bt step opp (prop bt step opp adj f) u l s = .ok (b, s') →
        b = true ∧ (∀ v, Good (s'.val v)) ∧ (∀ v, bt (s'.val v) (x v) = false) ∧ s'.seen = s.seen := by
      intro l
      induction l with
      | nil =>
        intro s s' b _ hg hle hu hst h
        simp only [loop, Outcome.ok.injEq, Prod.mk.injEq] at h
        obtain ⟨rfl, rfl⟩ := h
        exact ⟨rfl, hg, hle, rfl⟩
      | cons a l ihl =>
        intro s s' b hl hg hle hu hst h
        obtain ⟨v, w⟩ := a
        have hmem : (v, w) ∈ adj u := hl _ List.mem_cons_self
        have hl' : ∀ e ∈ l, e ∈ adj u := fun e he => hl e (List.mem_cons_of_mem _ he)
        unfold loop at h
        dsimp only at h
        have hxd := hx u (v, w) hmem (s.val u) (hg u) (hle u)
        dsimp only at hxd
        split_ifs at h with h1 h2
        · exfalso
          have hs := hstep u (v, w) hmem (s.val u) (s.val v) (hg u) (hg v) h1
          dsimp only at hs
          rw [Bool.or_eq_true] at h2
          rcases h2 with h2 | h2
          · rw [hopp v (hn u _ hmem) _ hxd] at h2
            simp at h2
          · have h3 := hst v h2
            have h4 := hsl v _ _ h1
            omega
        · simp only [Bool.or_eq_true, not_or, Bool.not_eq_true] at h2
          have hs := hstep u (v, w) hmem (s.val u) (s.val v) (hg u) (hg v) h1
          dsimp only at hs
          rw [Outcome.bind_eq_ok] at h
          obtain ⟨⟨b1, s1⟩, h3, h4⟩ := h
          have hgv : ∀ z, Good ((visit s v (step (s.val u) w)).val z) := by
            intro z
            simp only [visit]
            by_cases e : z = v
            · subst e; rw [Function.update_self]; exact hgood u _ hmem _ (hg u)
            · rw [Function.update_of_ne e]; exact hg z
          have hlev : ∀ z, bt ((visit s v (step (s.val u) w)).val z) (x z) = false := by
            intro z
            simp only [visit]
            by_cases e : z = v
            · subst e; rw [Function.update_self]; exact hxd
            · rw [Function.update_of_ne e]; exact hle z
          have hsv : (visit s v (step (s.val u) w)).seen v = true := by simp [visit]
          have hstv : ∀ z, (visit s v (step (s.val u) w)).seen z = true →
              sl z ((visit s v (step (s.val u) w)).val z) ≤ sl v ((visit s v (step (s.val u) w)).val v) := by
            intro z hz
            by_cases e : z = v
            · subst e; exact le_refl _
            · simp only [visit] at hz ⊢
              rw [Function.update_of_ne e] at hz
              rw [Function.update_of_ne e, Function.update_self]
              exact (hst z hz).trans hs
          obtain ⟨rfl, c1, c2, c3⟩ := ih hgv hlev (Or.inl hsv) hstv h3
          simp only [if_true] at h4
          obtain ⟨hv1, -⟩ := prop_seen_val h3
          have hse : (unsee s1 v).seen = s.seen := by
            simp only [unsee]
            rw [c3]
            simp only [visit]
            funext y
            by_cases e : y = v
            · subst e; simp [h2.2]
            · rw [Function.update_of_ne e, Function.update_of_ne e]
          have hval : ∀ z, s.seen z = true → (unsee s1 v).val z = s.val z := by
            intro z hz
            have hzv : z ≠ v := by rintro rfl; rw [h2.2] at hz; simp at hz
            show s1.val z = _
            rw [hv1 z (by simp only [visit]; rw [Function.update_of_ne hzv]; exact hz)]
            simp only [visit]
            rw [Function.update_of_ne hzv]
          have := ihl (unsee s1 v) s' b hl' c1 c2 (by rw [hse]; exact hu) (by
            intro z hz
            rw [hse] at hz
            rcases hu with hu | hu
            · rw [hval z hz, hval u hu]; exact hst z hz
            · rw [hu z] at hz; simp at hz) h4
          rw [hse] at this
          exact this
        · exact ihl _ _ _ hl' hg hle hu hst h
    exact key _ _ _ _ (fun e he => he) hg hle hu hstack h

/-- Values stay representable. -/
theorem prop_inR (hstep : ∀ u, ∀ e ∈ adj u, ∀ a, InR a → InR (step a e.2))
    {f : Nat} {s s' : PS} {u : Nat} {b : Bool} (hs : ∀ v, InR (s.val v))
    (h : prop bt step opp adj f s u = .ok (b, s')) : ∀ v, InR (s'.val v) := by
  refine prop_induct (fun s => ∀ v, InR (s.val v)) ?_ (fun _ _ h => h) hs h
  rintro s v d hs - - ⟨u, w, he, rfl⟩ x
  simp only [visit]
  by_cases e : x = v
  · subst e; rw [Function.update_self]; exact hstep u _ he _ (hs u)
  · rw [Function.update_of_ne e]; exact hs x

/-- The bounds do not cross. -/
theorem prop_opp {f : Nat} {s s' : PS} {u : Nat} {b : Bool}
    (hs : ∀ v, bt (s.val v) (opp v) = false)
    (h : prop bt step opp adj f s u = .ok (b, s')) : ∀ v, bt (s'.val v) (opp v) = false := by
  refine prop_induct (fun s => ∀ v, bt (s.val v) (opp v) = false) ?_ (fun _ _ h => h) hs h
  intro s v d hs _ h2 _ x
  simp only [visit]
  by_cases e : x = v
  · subst e; rw [Function.update_self]; exact h2
  · rw [Function.update_of_ne e]; exact hs x

/-- A node whose bounds meet keeps its bound. -/
theorem prop_fixed {z : Nat} {f : Nat} {s s' : PS} {u : Nat} {b : Bool} (hs : s.val z = opp z)
    (h : prop bt step opp adj f s u = .ok (b, s')) : s'.val z = opp z := by
  refine prop_induct (fun s => s.val z = opp z) ?_ (fun _ _ h => h) hs h
  intro s v d hs h1 h2 _
  simp only [visit]
  by_cases e : z = v
  · subst e
    rw [hs] at h1
    rw [h1] at h2
    simp at h2
  · rw [Function.update_of_ne e]; exact hs

end generic

/-! ## Networks -/

/-- Two constraints of the form `x_q - x_p ≤ w` are induced by each `a ≤ x_j - x_i ≤ b`. -/
def ArcOf (cs : List Constraint) (p q : Nat) (w : Int) : Prop :=
  ∃ c ∈ cs, (c.b < tmax ∧ p = c.i ∧ q = c.j ∧ w = c.b) ∨
    (tmin < c.a ∧ p = c.j ∧ q = c.i ∧ w = -c.a)

/-- A well formed constraint for a network with `n` nodes. -/
def ConstrOk (n : Nat) (c : Constraint) : Prop := c.i < n ∧ c.j < n ∧ InR c.a ∧ InR c.b

instance (n : Nat) (c : Constraint) : Decidable (ConstrOk n c) := by unfold ConstrOk; infer_instance

/-- The invariant of a network, apart from relaxation of its arcs. -/
structure Base (cs : List Constraint) (net : Net) : Prop where
  pos : 0 < net.n
  cok : ∀ c ∈ cs, ConstrOk net.n c
  inns : ∀ u v w, (v, w) ∈ net.inn u ↔ ArcOf cs v u w
  outs : ∀ u v w, (v, w) ∈ net.out u ↔ ArcOf cs u v w
  loR : ∀ v, InR (net.lo v)
  hiR : ∀ v, InR (net.hi v)
  le : ∀ v, net.lo v ≤ net.hi v
  lo0 : net.lo 0 = 0
  hi0 : net.hi 0 = 0

theorem arc_ok {cs : List Constraint} {n : Nat} (h : ∀ c ∈ cs, ConstrOk n c) {p q : Nat} {w : Int}
    (ha : ArcOf cs p q w) : p < n ∧ q < n ∧ InR w := by
  obtain ⟨c, hc, h1⟩ := ha
  obtain ⟨a1, a2, a3, a4⟩ := h c hc
  unfold InR at *
  obtain ⟨t1, t2⟩ := tmin_tmax
  rcases h1 with ⟨h0, rfl, rfl, rfl⟩ | ⟨h0, rfl, rfl, rfl⟩
  · exact ⟨a1, a2, a4⟩
  · exact ⟨a2, a1, by omega⟩

/-- Arc of `u` in a direction relaxed, both directions. -/
structure Closed (net : Net) : Prop where
  lo : ∀ u, ∀ e ∈ net.inn u, Relaxed btLo subclamp net.lo u e
  hi : ∀ u, ∀ e ∈ net.out u, Relaxed btHi addclamp net.hi u e

theorem unseen_le (n : Nat) (seen : Nat → Bool) : unseen n seen ≤ n := by
  unfold unseen
  calc _ ≤ (Finset.range n).card := Finset.card_filter_le _ _
    _ = n := Finset.card_range n

/-- A representable solution of the constraints with the origin at time 0. -/
structure Sol (net : Net) (cs : List Constraint) (x : Nat → Int) : Prop where
  rep : ∀ v, InR (x v)
  arcs : ∀ p q w, ArcOf cs p q w → x q - x p ≤ w
  lo : ∀ v, net.lo v ≤ x v
  hi : ∀ v, x v ≤ net.hi v

theorem lower_step {cs : List Constraint} {net : Net} (B : Base cs net) (u : Nat) (e : Nat × Int)
    (he : e ∈ net.inn u) (a : Int) (ha : InR a) : InR (subclamp a e.2) := by
  rw [subclamp_eq ha (arc_ok B.cok ((B.inns u e.1 e.2).1 he)).2.2]
  exact InR.clamp _

theorem upper_step {cs : List Constraint} {net : Net} (B : Base cs net) (u : Nat) (e : Nat × Int)
    (he : e ∈ net.out u) (a : Int) (ha : InR a) : InR (addclamp a e.2) := by
  rw [addclamp_eq ha (arc_ok B.cok ((B.outs u e.1 e.2).1 he)).2.2]
  exact InR.clamp _

theorem lower_adj {cs : List Constraint} {net : Net} (B : Base cs net) : AdjOk net.n net.inn :=
  fun u e he => (arc_ok B.cok ((B.inns u e.1 e.2).1 he)).1

theorem upper_adj {cs : List Constraint} {net : Net} (B : Base cs net) : AdjOk net.n net.out :=
  fun u e he => (arc_ok B.cok ((B.outs u e.1 e.2).1 he)).2.1

theorem lower_sound {cs : List Constraint} {net : Net} (B : Base cs net) {x : Nat → Int}
    (rep : ∀ v, InR (x v)) (arcs : ∀ p q w, ArcOf cs p q w → x q - x p ≤ w)
    {hi : Nat → Int} (hhi : ∀ v, x v ≤ hi v) {f : Nat} {s s' : PS} {u : Nat} {b : Bool}
    (hg : ∀ v, InR (s.val v)) (hle : ∀ v, s.val v ≤ x v) (hs : ∀ v, s.seen v = false)
    (h : proplower net hi f s u = .ok (b, s')) : b = true ∧ ∀ v, s'.val v ≤ x v := by
  have := prop_sound (n := net.n) x (fun v c => x v - c) InR (bt := btLo) (step := subclamp)
    (opp := hi) (adj := net.inn)
    (by intro v a b h; simp only [btLo, decide_eq_true_eq] at h; omega)
    (fun u e he a ha => lower_step B u e he a ha)
    (by
      intro u e he a c ha hc hb
      have harc := (B.inns u e.1 e.2).1 he
      have hw := arcs _ _ _ harc
      rw [subclamp_eq ha (arc_ok B.cok harc).2.2] at hb ⊢
      simp only [btLo, decide_eq_true_eq] at hb
      unfold InR at hc
      omega)
    (by
      intro u e he a ha hb
      have harc := (B.inns u e.1 e.2).1 he
      have hw := arcs _ _ _ harc
      have hr := rep e.1
      rw [subclamp_eq ha (arc_ok B.cok harc).2.2]
      simp only [btLo, decide_eq_false_iff_not] at hb ⊢
      unfold InR at hr
      omega)
    (by
      intro v _ d hd
      have := hhi v
      simp only [btLo, decide_eq_false_iff_not] at hd ⊢
      omega)
    (lower_adj B) hg (by intro v; have := hle v; simp only [btLo, decide_eq_false_iff_not]; omega)
    (Or.inr hs) (by intro z hz; rw [hs z] at hz; simp at hz) h
  refine ⟨this.1, fun v => ?_⟩
  have := this.2.2.1 v
  simp only [btLo, decide_eq_false_iff_not] at this
  omega

theorem upper_sound {cs : List Constraint} {net : Net} (B : Base cs net) {x : Nat → Int}
    (rep : ∀ v, InR (x v)) (arcs : ∀ p q w, ArcOf cs p q w → x q - x p ≤ w)
    {lo : Nat → Int} (hlo : ∀ v, lo v ≤ x v) {f : Nat} {s s' : PS} {u : Nat} {b : Bool}
    (hg : ∀ v, InR (s.val v)) (hle : ∀ v, x v ≤ s.val v) (hs : ∀ v, s.seen v = false)
    (h : propupper net lo f s u = .ok (b, s')) : b = true ∧ ∀ v, x v ≤ s'.val v := by
  have := prop_sound (n := net.n) x (fun v c => c - x v) InR (bt := btHi) (step := addclamp)
    (opp := lo) (adj := net.out)
    (by intro v a b h; simp only [btHi, decide_eq_true_eq] at h; omega)
    (fun u e he a ha => upper_step B u e he a ha)
    (by
      intro u e he a c ha hc hb
      have harc := (B.outs u e.1 e.2).1 he
      have hw := arcs _ _ _ harc
      rw [addclamp_eq ha (arc_ok B.cok harc).2.2] at hb ⊢
      simp only [btHi, decide_eq_true_eq] at hb
      unfold InR at hc
      omega)
    (by
      intro u e he a ha hb
      have harc := (B.outs u e.1 e.2).1 he
      have hw := arcs _ _ _ harc
      have hr := rep e.1
      rw [addclamp_eq ha (arc_ok B.cok harc).2.2]
      simp only [btHi, decide_eq_false_iff_not] at hb ⊢
      unfold InR at hr
      omega)
    (by
      intro v _ d hd
      have := hlo v
      simp only [btHi, decide_eq_false_iff_not] at hd ⊢
      omega)
    (upper_adj B) hg (by intro v; have := hle v; simp only [btHi, decide_eq_false_iff_not]; omega)
    (Or.inr hs) (by intro z hz; rw [hs z] at hz; simp at hz) h
  refine ⟨this.1, fun v => ?_⟩
  have := this.2.2.1 v
  simp only [btHi, decide_eq_false_iff_not] at this
  omega

theorem btLo_irr (a : Int) : btLo a a = false := by simp [btLo]
theorem btHi_irr (a : Int) : btHi a a = false := by simp [btHi]
theorem btLo_trans (a b c : Int) (h1 : btLo a b = true) (h2 : btLo b c = true) : btLo a c = true := by
  simp only [btLo, decide_eq_true_eq] at *; omega
theorem btHi_trans (a b c : Int) (h1 : btHi a b = true) (h2 : btHi b c = true) : btHi a c = true := by
  simp only [btHi, decide_eq_true_eq] at *; omega

/-- What one propagation does. -/
theorem propagate_spec {cs : List Constraint} {net : Net} (B : Base cs net) {f : Nat}
    (hf : net.n < f) (c : Constraint) :
    ∃ b plo phi, propagate net f c = .ok (b, plo, phi) ∧ LogOk net.lo plo ∧ LogOk net.hi phi ∧
      (b = true →
        (∀ v, InR (plo.val v)) ∧ (∀ v, InR (phi.val v)) ∧ (∀ v, plo.val v ≤ phi.val v) ∧
        plo.val 0 = 0 ∧ phi.val 0 = 0 ∧
        (∀ u, ∀ e ∈ net.inn u, (u = c.i ∨ u = c.j ∨ Relaxed btLo subclamp net.lo u e) →
          Relaxed btLo subclamp plo.val u e) ∧
        (∀ u, ∀ e ∈ net.out u, (u = c.i ∨ u = c.j ∨ Relaxed btHi addclamp net.hi u e) →
          Relaxed btHi addclamp phi.val u e)) ∧
      (∀ x, Sol net cs x → b = true ∧ ∀ v, plo.val v ≤ x v ∧ x v ≤ phi.val v) := by
  have fuel : ∀ seen : Nat → Bool, unseen net.n seen < f := fun seen =>
    lt_of_le_of_lt (unseen_le _ _) hf
  have LA := lower_adj B
  have UA := upper_adj B
  unfold propagate
  dsimp only
  obtain ⟨b1, s1, e1, sn1⟩ := prop_ends (bt := btLo) (step := subclamp) (opp := net.hi) LA f
    ⟨net.lo, [], fun _ => false, fun _ => false⟩ c.i (fuel _)
  have L1 := prop_log (logOk_init net.lo _) e1
  have R1 := prop_inR (fun u e he a ha => lower_step B u e he a ha) (s := ⟨net.lo, [], _, _⟩) B.loR e1
  have X1 : ∀ x, Sol net cs x → b1 = true ∧ ∀ v, s1.val v ≤ x v := fun x S =>
    lower_sound B S.rep S.arcs S.hi (s := ⟨net.lo, [], _, _⟩) B.loR S.lo (fun _ => rfl) e1
  rw [show proplower net net.hi f ⟨net.lo, [], fun _ => false, fun _ => false⟩ c.i = _ from e1,
    Outcome.bind_ok]
  cases b1 with
  | false =>
    exact ⟨false, s1, _, rfl, L1, logOk_init _ _, by simp, fun x S => by simpa using (X1 x S).1⟩
  | true =>
  have sn1 := sn1 rfl
  have Q1 := prop_relax btLo_irr btLo_trans e1
  have O1 : ∀ v, s1.val v ≤ net.hi v := by
    intro v
    have := prop_opp (s := ⟨net.lo, [], _, _⟩) (fun v => by
      have := B.le v; simp only [btLo, decide_eq_false_iff_not]; omega) e1 v
    simp only [btLo, decide_eq_false_iff_not] at this
    omega
  have Z1 : s1.val 0 = net.hi 0 := prop_fixed (s := ⟨net.lo, [], _, _⟩)
    (by show net.lo 0 = _; rw [B.lo0, B.hi0]) e1
  simp only [Bool.not_true, Bool.false_eq_true, if_false]
  obtain ⟨b2, s2, e2, sn2⟩ := prop_ends (bt := btHi) (step := addclamp) (opp := s1.val) UA f
    ⟨net.hi, [], fun _ => false, s1.seen⟩ c.i (fuel _)
  have L2 := prop_log (logOk_init net.hi _) e2
  have R2 := prop_inR (fun u e he a ha => upper_step B u e he a ha) (s := ⟨net.hi, [], _, _⟩) B.hiR e2
  have X2 : ∀ x, Sol net cs x → b2 = true ∧ ∀ v, x v ≤ s2.val v := fun x S =>
    upper_sound B S.rep S.arcs (X1 x S).2 (s := ⟨net.hi, [], _, _⟩) B.hiR S.hi
      (fun _ => by show s1.seen _ = _; rw [sn1]) e2
  rw [show propupper net s1.val f ⟨net.hi, [], fun _ => false, s1.seen⟩ c.i = _ from e2,
    Outcome.bind_ok]
  cases b2 with
  | false => exact ⟨false, s1, s2, rfl, L1, L2, by simp, fun x S => by simpa using (X2 x S).1⟩
  | true =>
  have sn2 := sn2 rfl
  have Q2 := prop_relax btHi_irr btHi_trans e2
  have O2 : ∀ v, s1.val v ≤ s2.val v := by
    intro v
    have := prop_opp (s := ⟨net.hi, [], _, _⟩) (fun v => by
      have := O1 v; simp only [btHi, decide_eq_false_iff_not]; omega) e2 v
    simp only [btHi, decide_eq_false_iff_not] at this
    omega
  have Z2 : s2.val 0 = s1.val 0 := prop_fixed (s := ⟨net.hi, [], _, _⟩) Z1.symm e2
  simp only [Bool.not_true, Bool.false_eq_true, if_false]
  obtain ⟨b3, s3, e3, sn3⟩ := prop_ends (bt := btLo) (step := subclamp) (opp := s2.val) LA f
    { s1 with seen := s2.seen } c.j (fuel _)
  have L3 := prop_log (base := net.lo) (s := { s1 with seen := s2.seen })
    ⟨L1.same, L1.log, L1.uniq⟩ e3
  have R3 := prop_inR (fun u e he a ha => lower_step B u e he a ha) (s := { s1 with seen := s2.seen }) R1 e3
  have X3 : ∀ x, Sol net cs x → b3 = true ∧ ∀ v, s3.val v ≤ x v := fun x S =>
    lower_sound B S.rep S.arcs (X2 x S).2 (s := { s1 with seen := s2.seen }) R1 (X1 x S).2
      (fun _ => by show s2.seen _ = _; rw [sn2]; show s1.seen _ = _; rw [sn1]) e3
  rw [show proplower net s2.val f { s1 with seen := s2.seen } c.j = _ from e3, Outcome.bind_ok]
  cases b3 with
  | false => exact ⟨false, s3, s2, rfl, L3, L2, by simp, fun x S => by simpa using (X3 x S).1⟩
  | true =>
  have sn3 := sn3 rfl
  have Q3 := prop_relax btLo_irr btLo_trans e3
  have O3 : ∀ v, s3.val v ≤ s2.val v := by
    intro v
    have := prop_opp (s := { s1 with seen := s2.seen }) (fun v => by
      have := O2 v; simp only [btLo, decide_eq_false_iff_not]; omega) e3 v
    simp only [btLo, decide_eq_false_iff_not] at this
    omega
  have Z3 : s3.val 0 = s2.val 0 := prop_fixed (s := { s1 with seen := s2.seen }) Z2.symm e3
  simp only [Bool.not_true, Bool.false_eq_true, if_false]
  obtain ⟨b4, s4, e4, sn4⟩ := prop_ends (bt := btHi) (step := addclamp) (opp := s3.val) UA f
    { s2 with seen := s3.seen } c.j (fuel _)
  have L4 := prop_log (base := net.hi) (s := { s2 with seen := s3.seen })
    ⟨L2.same, L2.log, L2.uniq⟩ e4
  have R4 := prop_inR (fun u e he a ha => upper_step B u e he a ha) (s := { s2 with seen := s3.seen }) R2 e4
  have X4 : ∀ x, Sol net cs x → b4 = true ∧ ∀ v, x v ≤ s4.val v := fun x S =>
    upper_sound B S.rep S.arcs (X3 x S).2 (s := { s2 with seen := s3.seen }) R2 (X2 x S).2
      (fun _ => by
        show s3.seen _ = _; rw [sn3]; show s2.seen _ = _; rw [sn2]; show s1.seen _ = _; rw [sn1]) e4
  rw [show propupper net s3.val f { s2 with seen := s3.seen } c.j = _ from e4, Outcome.bind_ok]
  refine ⟨b4, s3, s4, rfl, L3, L4, ?_, fun x S => ⟨(X4 x S).1, fun v => ⟨(X3 x S).2 v, (X4 x S).2 v⟩⟩⟩
  rintro rfl
  have Q4 := prop_relax btHi_irr btHi_trans e4
  have O4 : ∀ v, s3.val v ≤ s4.val v := by
    intro v
    have := prop_opp (s := { s2 with seen := s3.seen }) (fun v => by
      have := O3 v; simp only [btHi, decide_eq_false_iff_not]; omega) e4 v
    simp only [btHi, decide_eq_false_iff_not] at this
    omega
  have Z4 : s4.val 0 = s3.val 0 := prop_fixed (s := { s2 with seen := s3.seen }) Z3.symm e4
  have Z : s3.val 0 = 0 := by rw [Z3, Z2, Z1, B.hi0]
  refine ⟨R3, R4, O4, Z, Z4.trans Z, fun u e he hu => Q3 u e he ?_, fun u e he hu => Q4 u e he ?_⟩
  · rcases hu with hu | hu | hu
    · exact Or.inr (Q1 u e he (Or.inl hu))
    · exact Or.inl hu
    · exact Or.inr (Q1 u e he (Or.inr hu))
  · rcases hu with hu | hu | hu
    · exact Or.inr (Q2 u e he (Or.inl hu))
    · exact Or.inl hu
    · exact Or.inr (Q2 u e he (Or.inr hu))

/-! ## Adding and popping arcs -/

theorem popArcs_cons {us : List Nat} {net : Net} {u v : Nat} {w w' : Int} {l l' : List (Nat × Int)}
    (ho : net.out u = l ++ [(v, w)]) (hi : net.inn v = l' ++ [(u, w')]) :
    popArcs (u :: us) net = popArcs us { net with out := Function.update net.out u l, inn := Function.update net.inn v l' } := by
  conv_lhs => unfold popArcs
  rw [ho, List.getLast?_append]
  simp [hi]

theorem popArcs_addarcs (net : Net) (c : Constraint) (lo hi : Nat → Int) (us : List Undo) :
    popArcs (addarcs net c).2 { (addarcs net c).1 with lo := lo, hi := hi, undos := us } =
      .ok { net with lo := lo, hi := hi, undos := us } := by
  have upd : ∀ (g : Nat → List (Nat × Int)) x l, Function.update (Function.update g x l) x (g x) = g := by
    intro g x l; rw [Function.update_idem, Function.update_eq_self]
  unfold addarcs
  by_cases h1 : c.b < tmax <;> by_cases h2 : c.a > tmin <;>
    simp only [h1, h2, if_true, if_false, List.nil_append, List.cons_append]
  · by_cases e : c.i = c.j
    · rw [← e]
      rw [popArcs_cons (l := net.out c.i ++ [(c.i, c.b)]) (l' := net.inn c.i ++ [(c.i, c.b)])
        (v := c.i) (w := -c.a) (w' := -c.a) (by simp [pushArc]) (by simp [pushArc])]
      rw [popArcs_cons (l := net.out c.i) (l' := net.inn c.i)
        (v := c.i) (w := c.b) (w' := c.b) (by simp) (by simp)]
      simp [popArcs, pushArc]
    · have e' : c.j ≠ c.i := fun h => e h.symm
      rw [popArcs_cons (l := net.out c.i) (l' := net.inn c.j)
        (v := c.j) (w := c.b) (w' := c.b) (by simp [pushArc, e, e']) (by simp [pushArc, e, e'])]
      rw [popArcs_cons (l := net.out c.j) (l' := net.inn c.i)
        (v := c.i) (w := -c.a) (w' := -c.a) (by simp [pushArc, e, e']) (by simp [pushArc, e, e'])]
      simp only [popArcs, pushArc]
      congr 2
      · funext x
        by_cases x1 : x = c.i
        · subst x1; simp [e]
        · by_cases x2 : x = c.j
          · subst x2; simp
          · simp [x1, x2]
      · funext x
        by_cases x1 : x = c.i
        · subst x1; simp
        · by_cases x2 : x = c.j
          · subst x2; simp [e']
          · simp [x1, x2]
  · rw [popArcs_cons (l := net.out c.i) (l' := net.inn c.j)
        (v := c.j) (w := c.b) (w' := c.b) (by simp [pushArc]) (by simp [pushArc])]
    simp [popArcs, pushArc]
  · rw [popArcs_cons (l := net.out c.j) (l' := net.inn c.i)
        (v := c.i) (w := -c.a) (w' := -c.a) (by simp [pushArc]) (by simp [pushArc])]
    simp [popArcs, pushArc]
  · simp [popArcs]

theorem undo_addarcs (net : Net) (c : Constraint) {plo phi : PS} (h1 : LogOk net.lo plo)
    (h2 : LogOk net.hi phi) :
    undo { (addarcs net c).1 with
      lo := plo.val
      hi := phi.val
      undos := ⟨(addarcs net c).2, plo.prev, phi.prev⟩ :: net.undos } = .ok net := by
  unfold undo
  dsimp only
  rw [popArcs_addarcs]
  simp only [Outcome.map_ok]
  rw [restore_log h1, restore_log h2]

theorem mem_pushArc {arcs : Nat → List (Nat × Int)} {x u : Nat} {a e : Nat × Int} :
    e ∈ pushArc arcs x a u ↔ e ∈ arcs u ∨ (u = x ∧ e = a) := by
  unfold pushArc
  by_cases h : u = x
  · subst h; simp
  · rw [Function.update_of_ne h]; simp [h]

theorem addarcs_fields (net : Net) (c : Constraint) :
    (addarcs net c).1.n = net.n ∧ (addarcs net c).1.lo = net.lo ∧ (addarcs net c).1.hi = net.hi ∧
    (addarcs net c).1.undos = net.undos := by
  unfold addarcs
  by_cases h1 : c.b < tmax <;> by_cases h2 : c.a > tmin <;> simp [h1, h2]

theorem addarcs_inn (net : Net) (c : Constraint) (u v : Nat) (w : Int) :
    (v, w) ∈ (addarcs net c).1.inn u ↔ (v, w) ∈ net.inn u ∨ ArcOf [c] v u w := by
  unfold addarcs ArcOf
  by_cases h1 : c.b < tmax <;> by_cases h2 : c.a > tmin <;>
    simp [h1, h2, mem_pushArc] <;> tauto

theorem addarcs_out (net : Net) (c : Constraint) (u v : Nat) (w : Int) :
    (v, w) ∈ (addarcs net c).1.out u ↔ (v, w) ∈ net.out u ∨ ArcOf [c] u v w := by
  unfold addarcs ArcOf
  by_cases h1 : c.b < tmax <;> by_cases h2 : c.a > tmin <;>
    simp [h1, h2, mem_pushArc] <;> tauto

theorem arcOf_cons {cs : List Constraint} {c : Constraint} {p q : Nat} {w : Int} :
    ArcOf (c :: cs) p q w ↔ ArcOf cs p q w ∨ ArcOf [c] p q w := by
  unfold ArcOf
  simp only [List.mem_cons, List.not_mem_nil, or_false, exists_eq_or_imp, exists_eq_left]
  exact Or.comm

theorem base_addarcs {cs : List Constraint} {net : Net} (B : Base cs net) {c : Constraint}
    (hc : ConstrOk net.n c) : Base (c :: cs) (addarcs net c).1 := by
  obtain ⟨e1, e2, e3, -⟩ := addarcs_fields net c
  refine ⟨by rw [e1]; exact B.pos, ?_, ?_, ?_, by rw [e2]; exact B.loR, by rw [e3]; exact B.hiR,
    by rw [e2, e3]; exact B.le, by rw [e2]; exact B.lo0, by rw [e3]; exact B.hi0⟩
  · intro d hd
    rw [e1]
    rcases List.mem_cons.1 hd with rfl | hd
    · exact hc
    · exact B.cok d hd
  · intro u v w; rw [addarcs_inn, B.inns, arcOf_cons (cs := cs)]
  · intro u v w; rw [addarcs_out, B.outs, arcOf_cons (cs := cs)]

/-- Everything about `add` on a network satisfying the invariant. -/
theorem add_spec {cs : List Constraint} {net : Net} (B : Base cs net) (C : Closed net) {f : Nat}
    (hf : net.n < f) {c : Constraint} (hc : ConstrOk net.n c) :
    (add f net c = .ok (false, net) ∧ ¬ ∃ x, Sol net (c :: cs) x) ∨
    ∃ net', add f net c = .ok (true, net') ∧ Base (c :: cs) net' ∧ Closed net' ∧ net'.n = net.n ∧
      undo net' = .ok net ∧ ∀ x, Sol net (c :: cs) x → Sol net' (c :: cs) x := by
  have B' := base_addarcs B hc
  obtain ⟨e1, e2, e3, -⟩ := addarcs_fields net c
  obtain ⟨b, plo, phi, h1, h2, h3, h4, h5⟩ := propagate_spec B' (f := f) (by rw [e1]; exact hf) c
  rw [e2] at h2
  rw [e3] at h3
  have hsol : ∀ x, Sol net (c :: cs) x → Sol (addarcs net c).1 (c :: cs) x := fun x S =>
    ⟨S.rep, S.arcs, by rw [e2]; exact S.lo, by rw [e3]; exact S.hi⟩
  unfold add
  rw [if_pos ⟨hc.1, hc.2.1⟩]
  dsimp only
  rw [h1, Outcome.bind_ok]
  dsimp only
  cases b with
  | false =>
    left
    rw [if_neg (by simp), undo_addarcs net c h2 h3]
    refine ⟨by simp, ?_⟩
    rintro ⟨x, S⟩
    simpa using (h5 x (hsol x S)).1
  | true =>
    right
    obtain ⟨r1, r2, r3, r4, r5, r6, r7⟩ := h4 rfl
    refine ⟨_, if_pos rfl, ?_, ?_, e1, undo_addarcs net c h2 h3, ?_⟩
    · exact ⟨B'.pos, B'.cok, B'.inns, B'.outs, r1, r2, r3, r4, r5⟩
    · constructor
      · intro u e he
        refine r6 u e he ?_
        have he' := (addarcs_inn net c u e.1 e.2).1 he
        rcases he' with he' | ⟨d, hd, hdd⟩
        · right; right; rw [e2]; exact C.lo u e he'
        · rw [List.mem_singleton] at hd
          subst hd
          rcases hdd with ⟨_, _, h, _⟩ | ⟨_, _, h, _⟩
          · exact Or.inr (Or.inl h)
          · exact Or.inl h
      · intro u e he
        refine r7 u e he ?_
        have he' := (addarcs_out net c u e.1 e.2).1 he
        rcases he' with he' | ⟨d, hd, hdd⟩
        · right; right; rw [e3]; exact C.hi u e he'
        · rw [List.mem_singleton] at hd
          subst hd
          rcases hdd with ⟨_, h, _⟩ | ⟨_, h, _⟩
          · exact Or.inl h
          · exact Or.inr (Or.inl h)
    · intro x S
      exact ⟨S.rep, S.arcs, fun v => ((h5 x (hsol x S)).2 v).1, fun v => ((h5 x (hsol x S)).2 v).2⟩

theorem base_mk (num : Nat) : Base [] (mk num) := by
  obtain ⟨t1, t2⟩ := tmin_tmax
  have hb : ∀ v, InR (if v = 0 then (0 : Int) else tmin) ∧ InR (if v = 0 then (0 : Int) else tmax) := by
    intro v; unfold InR; split_ifs <;> omega
  refine ⟨by simp [mk], by simp, by simp [mk, ArcOf], by simp [mk, ArcOf], ?_, ?_, ?_, by simp [mk],
    by simp [mk]⟩
  · intro v; simp only [mk, Function.update_apply]; exact (hb v).1
  · intro v; simp only [mk, Function.update_apply]; exact (hb v).2
  · intro v; simp only [mk, Function.update_apply]; split_ifs <;> omega

theorem closed_mk (num : Nat) : Closed (mk num) := ⟨by simp [mk], by simp [mk]⟩

end Verif.Stn

namespace Verif.Stn

/-! ## Histories -/

/-- The public operations on an existing network. -/
inductive Op where
  | add (c : Constraint)
  | undo
  deriving DecidableEq

/-- One call; `undo` returns nothing (recorded as `true`). -/
def exec (net : Net) : Op → Outcome (Bool × Net)
  | .add c => add (net.n + 1) net c
  | .undo => (undo net).map fun net' => (true, net')

/-- The constraints in force after a history (most recent call first): accepted and not undone. -/
def active : List (Op × Bool) → List Constraint
  | [] => []
  | (.add c, true) :: h => c :: active h
  | (.add _, false) :: h => active h
  | (.undo, _) :: h => (active h).tail

/-- Allowed calls: constraints over existing nodes, undo only when something can be undone. -/
def Legal (num : Nat) (h : List (Op × Bool)) : Op → Prop
  | .add c => ConstrOk (num + 1) c
  | .undo => active h ≠ []

instance (num : Nat) (h : List (Op × Bool)) (op : Op) : Decidable (Legal num h op) := by
  cases op <;> simp only [Legal] <;> infer_instance

/-- Networks reachable by legal calls from `Stn(num)`. -/
inductive Reach (num : Nat) : List (Op × Bool) → Net → Prop
  | init : Reach num [] (mk num)
  | step {h net op b net'} : Reach num h net → Legal num h op → exec net op = .ok (b, net') →
      Reach num ((op, b) :: h) net'

/-- Networks reached by accepted additions only. -/
inductive Good (num : Nat) : List Constraint → Net → Prop
  | init : Good num [] (mk num)
  | add {cs net c net'} : Good num cs net → ConstrOk (num + 1) c →
      add (net.n + 1) net c = .ok (true, net') → Good num (c :: cs) net'

theorem good_inv {num : Nat} {cs : List Constraint} {net : Net} (h : Good num cs net) :
    Base cs net ∧ Closed net ∧ net.n = num + 1 := by
  induction h with
  | init => exact ⟨base_mk num, closed_mk num, rfl⟩
  | add _ hc ha ih =>
    obtain ⟨B, C, e⟩ := ih
    rcases add_spec B C (Nat.lt_succ_self _) (e ▸ hc) with ⟨h1, -⟩ | ⟨net2, h1, h2, h3, h4, -⟩
    · rw [h1] at ha; simp at ha
    · rw [h1] at ha
      simp only [Outcome.ok.injEq, Prod.mk.injEq, true_and] at ha
      subst ha
      exact ⟨h2, h3, h4.trans e⟩

theorem good_unique {num : Nat} {cs : List Constraint} {n1 n2 : Net} (h1 : Good num cs n1)
    (h2 : Good num cs n2) : n1 = n2 := by
  induction h1 generalizing n2 with
  | init => cases h2; rfl
  | add _ _ ha ih =>
    cases h2 with
    | add g _ hb =>
      have := ih g
      subst this
      rw [ha] at hb
      simp only [Outcome.ok.injEq, Prod.mk.injEq, true_and] at hb
      exact hb

theorem good_undo {num : Nat} {cs : List Constraint} {c : Constraint} {net : Net}
    (h : Good num (c :: cs) net) : ∃ net0, undo net = .ok net0 ∧ Good num cs net0 := by
  cases h with
  | add g hc ha =>
    obtain ⟨B, C, e⟩ := good_inv g
    rcases add_spec B C (Nat.lt_succ_self _) (e ▸ hc) with ⟨h1, -⟩ | ⟨net2, h1, h2, h3, h4, h5, -⟩
    · rw [h1] at ha; simp at ha
    · rw [h1] at ha
      simp only [Outcome.ok.injEq, Prod.mk.injEq, true_and] at ha
      subst ha
      exact ⟨_, h5, g⟩

theorem reach_good {num : Nat} {h : List (Op × Bool)} {net : Net} (r : Reach num h net) :
    Good num (active h) net := by
  induction r with
  | init => exact .init
  | @step h net op b net' r hl he ih =>
    obtain ⟨B, C, e⟩ := good_inv ih
    cases op with
    | add c =>
      simp only [exec] at he
      cases b with
      | true => exact .add ih hl he
      | false =>
        rcases add_spec B C (Nat.lt_succ_self _) (e ▸ hl : ConstrOk net.n c) with ⟨h1, -⟩ | ⟨net2, h1, -⟩
        · rw [h1] at he
          simp only [Outcome.ok.injEq, Prod.mk.injEq, true_and] at he
          subst he
          exact ih
        · rw [h1] at he; simp at he
    | undo =>
      simp only [exec, Outcome.map_eq_ok] at he
      obtain ⟨net2, h1, h2⟩ := he
      simp only [Prod.mk.injEq] at h2
      obtain ⟨-, rfl⟩ := h2
      simp only [active]
      simp only [Legal] at hl
      cases hcs : active h with
      | nil => exact absurd hcs hl
      | cons c cs =>
        rw [hcs] at ih
        obtain ⟨net0, h3, g⟩ := good_undo ih
        rw [h3] at h1
        simp only [Outcome.ok.injEq] at h1
        subst h1
        exact g

/-- Run a list of calls. -/
def runOps (num : Nat) : List Op → List (Op × Bool) → Net → Option (List (Op × Bool) × Net)
  | [], h, net => some (h, net)
  | op :: ops, h, net =>
    if Legal num h op then
      match exec net op with
      | .ok (b, net') => runOps num ops ((op, b) :: h) net'
      | _ => none
    else none

theorem reach_of_runOps {num : Nat} {ops : List Op} {h h' : List (Op × Bool)} {net net' : Net}
    (r : Reach num h net) (e : runOps num ops h net = some (h', net')) : Reach num h' net' := by
  induction ops generalizing h net with
  | nil => simp only [runOps, Option.some.injEq, Prod.mk.injEq] at e; obtain ⟨rfl, rfl⟩ := e; exact r
  | cons op ops ih =>
    unfold runOps at e
    split_ifs at e with hl
    split at e
    · rename_i b n1 he
      exact ih (.step r hl he) e
    · simp at e

end Verif.Stn
