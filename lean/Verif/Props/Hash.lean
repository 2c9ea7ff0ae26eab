import Verif.Structs.Hash

/-!
# C03-C06: the closed list and the hash table

The specification is `contents`: the set of objects that should be stored, computed from the
history of calls and their results alone.
-/

namespace Verif.Hash

variable {α κ : Type*} [DecidableEq α]

/-- Operations of a client of the closed list. -/
inductive Op (α κ : Type*) where
  | add (e : α)
  | find (k : κ)
  | remove (k : κ)
  | clear
  deriving DecidableEq

/-- One call on the C++ object; `fuel` bounds the iterations of every chain loop. -/
def exec (o : Ops α κ) (fuel : Nat) (t : Tab α) : Op α κ → Outcome (Tab α × Option α)
  | .add e => (add o fuel t e (o.hash (o.key e))).map fun t' => (t', none)
  | .find k => (find o fuel t k (o.hash k)).map fun r => (t, r)
  | .remove k => remove o fuel t k (o.hash k)
  | .clear => .ok (clear t, none)

/-- Specification: the objects stored after a history (most recent call first). -/
def contents : List (Op α κ × Option α) → Finset α
  | [] => ∅
  | (.add e, _) :: h => insert e (contents h)
  | (.find _, _) :: h => contents h
  | (.remove _, some x) :: h => (contents h).erase x
  | (.remove _, none) :: h => contents h
  | (.clear, _) :: _ => ∅

/-- Client obligation: an object that is stored is not added again, and the table stays below
2^31 / fillfact objects. -/
def Legal (o : Ops α κ) (S : Finset α) : Op α κ → Prop
  | .add e => e ∉ S ∧ S.card * o.fillfact < 2 ^ 31
  | _ => True

/-- Table reached after a history of legal calls, each of which returned. -/
inductive Reach (o : Ops α κ) (sz : Nat) (nxt : α → Option α) :
    List (Op α κ × Option α) → Tab α → Prop where
  | init : Reach o sz nxt [] (init sz nxt)
  | step {h t op t' r fuel} (prev : Reach o sz nxt h t) (legal : Legal o (contents h) op)
      (run : exec o fuel t op = .ok (t', r)) : Reach o sz nxt ((op, r) :: h) t'

/-- Specification of a lookup of `k` in the set `S` with result `r`. -/
def Lookup (o : Ops α κ) (S : Finset α) (k : κ) (r : Option α) : Prop :=
  (∀ x, r = some x → x ∈ S ∧ o.eq (o.key x) k = true) ∧
  (r = none → ∀ x ∈ S, o.eq (o.key x) k = false)

/-- The object represents the set. -/
def Inv (o : Ops α κ) (t : Tab α) (S : Finset α) : Prop := TabRep o t S ∧ t.fill = S.card

theorem exec_mono (o : Ops α κ) (t : Tab α) (op : Op α κ) (f : Nat) (r) (k : Nat)
    (h : exec o f t op = .ok r) : exec o (f + k) t op = .ok r := by
  cases op with
  | add e =>
    simp only [exec, Outcome.map_eq_ok] at h ⊢
    obtain ⟨a, h1, h2⟩ := h
    exact ⟨a, add_mono o h1 k, h2⟩
  | find e =>
    simp only [exec, Outcome.map_eq_ok] at h ⊢
    obtain ⟨a, h1, h2⟩ := h
    exact ⟨a, find_mono o h1 k, h2⟩
  | remove e => exact remove_mono o h k
  | clear => exact h

theorem exec_inv {o : Ops α κ} (ho : HashOk o) {t : Tab α} {h : List (Op α κ × Option α)}
    (inv : Inv o t (contents h)) (op : Op α κ) (legal : Legal o (contents h) op) (fuel : Nat)
    (hf : (contents h).card < fuel) :
    ∃ t' r, exec o fuel t op = .ok (t', r) ∧ Inv o t' (contents ((op, r) :: h)) ∧
      ∀ k, op = .find k ∨ op = .remove k → Lookup o (contents h) k r := by
  obtain ⟨rep, hfill⟩ := inv
  cases op with
  | add e =>
    obtain ⟨t', e1, f1, r1⟩ := add_rep rep fuel hf e legal.1 (by rw [hfill]; exact legal.2)
    refine ⟨t', none, by simp [exec, e1], ⟨r1, ?_⟩, by simp⟩
    rw [f1, hfill]
    simp only [contents]
    rw [Finset.card_insert_of_notMem legal.1]
  | find k =>
    obtain ⟨res, e1, h1, h2⟩ := find_rep rep ho fuel hf k
    refine ⟨t, res, by simp [exec, e1], ⟨rep, hfill⟩, ?_⟩
    rintro k' (h | h) <;> cases h
    exact ⟨h1, h2⟩
  | remove k =>
    rcases remove_rep rep ho fuel hf k with ⟨e1, h1⟩ | ⟨t', x, e1, hx, hk, f1, r1⟩
    · refine ⟨t, none, e1, ⟨rep, hfill⟩, ?_⟩
      rintro k' (h | h) <;> cases h
      exact ⟨by simp, fun _ => h1⟩
    · refine ⟨t', some x, e1, ⟨r1, ?_⟩, ?_⟩
      · rw [f1, hfill]
        simp only [contents]
        rw [Finset.card_erase_of_mem hx]
      · rintro k' (h | h) <;> cases h
        exact ⟨by rintro y ⟨⟩; exact ⟨hx, hk⟩, by simp⟩
  | clear => exact ⟨clear t, none, rfl, ⟨clear_rep rep, rfl⟩, by simp⟩

theorem reach_inv {o : Ops α κ} (ho : HashOk o) {sz : Nat} (hsz : sz % 2 ^ 32 ≠ 0)
    {nxt : α → Option α} {h : List (Op α κ × Option α)} {t : Tab α} (reach : Reach o sz nxt h t) :
    Inv o t (contents h) := by
  induction reach with
  | init => exact ⟨⟨_, rep_empty o _ (by omega) nxt⟩, rfl⟩
  | @step h t op t' r fuel prev legal run ih =>
    obtain ⟨t1, r1, e1, inv1, -⟩ := exec_inv ho ih op legal ((contents h).card + 1) (by omega)
    have := ok_unique (exec_mono o t op) run e1
    simp only [Prod.mk.injEq] at this
    obtain ⟨rfl, rfl⟩ := this
    exact inv1

/-- **C03.** After any history of calls, `find(k)` returns a stored object whose key equals `k`,
or NULL if there is none. -/
theorem c03_find_exact {o : Ops α κ} (ho : HashOk o) {sz : Nat} (hsz : sz % 2 ^ 32 ≠ 0)
    {nxt : α → Option α} {h : List (Op α κ × Option α)} {t : Tab α} (reach : Reach o sz nxt h t)
    (k : κ) (fuel : Nat) (r : Option α) (run : find o fuel t k (o.hash k) = .ok r) :
    Lookup o (contents h) k r := by
  obtain ⟨t1, r1, e1, -, h1⟩ := exec_inv ho (reach_inv ho hsz reach) (.find k) trivial
    ((contents h).card + 1) (by omega)
  have run' : exec o fuel t (.find k) = .ok (t, r) := by simp [exec, run]
  have := ok_unique (exec_mono o t (.find k)) run' e1
  simp only [Prod.mk.injEq] at this
  obtain ⟨rfl, rfl⟩ := this
  exact h1 k (Or.inl rfl)

/-- **C03.** `remove(k)` returns a stored object with that key (it is the one that is no longer
stored afterwards, by the definition of `contents`), or NULL if there is none. -/
theorem c03_remove_exact {o : Ops α κ} (ho : HashOk o) {sz : Nat} (hsz : sz % 2 ^ 32 ≠ 0)
    {nxt : α → Option α} {h : List (Op α κ × Option α)} {t t' : Tab α} (reach : Reach o sz nxt h t)
    (k : κ) (fuel : Nat) (r : Option α) (run : remove o fuel t k (o.hash k) = .ok (t', r)) :
    Lookup o (contents h) k r := by
  obtain ⟨t1, r1, e1, -, h1⟩ := exec_inv ho (reach_inv ho hsz reach) (.remove k) trivial
    ((contents h).card + 1) (by omega)
  have run' : exec o fuel t (.remove k) = .ok (t', r) := run
  have := ok_unique (exec_mono o t (.remove k)) run' e1
  simp only [Prod.mk.injEq] at this
  obtain ⟨rfl, rfl⟩ := this
  exact h1 k (Or.inr rfl)

/-- **C03.** Every legal call returns: no loop runs forever, nothing is undefined; a chain loop
never makes more iterations than there are stored objects. -/
theorem c03_calls_return {o : Ops α κ} (ho : HashOk o) {sz : Nat} (hsz : sz % 2 ^ 32 ≠ 0)
    {nxt : α → Option α} {h : List (Op α κ × Option α)} {t : Tab α} (reach : Reach o sz nxt h t)
    (op : Op α κ) (legal : Legal o (contents h) op) (fuel : Nat) (hf : (contents h).card < fuel) :
    ∃ t' r, exec o fuel t op = .ok (t', r) := by
  obtain ⟨t1, r1, e1, -, -⟩ := exec_inv ho (reach_inv ho hsz reach) op legal fuel hf
  exact ⟨t1, r1, e1⟩

/-- **C03.** The reported fill is the number of stored objects. -/
theorem c03_fill {o : Ops α κ} (ho : HashOk o) {sz : Nat} (hsz : sz % 2 ^ 32 ≠ 0)
    {nxt : α → Option α} {h : List (Op α κ × Option α)} {t : Tab α} (reach : Reach o sz nxt h t) :
    t.fill = (contents h).card := (reach_inv ho hsz reach).2

/-- The restriction on the size hint is needed: a table created with 0 buckets (also a closed
list created with a hint of 2^32) divides by zero in `find`. -/
theorem c03_zero_buckets_ub (o : Ops α κ) (sz : Nat) (hsz : sz % 2 ^ 32 = 0) (nxt : α → Option α)
    (k : κ) (fuel h : Nat) : find o fuel (init sz nxt) k h = .ub := by
  simp only [find, init, List.length_replicate, hsz, if_true]

/-- The restriction that equal keys hash equally is needed: otherwise `find` can miss a stored
object that is equal to the key asked for. -/
theorem c03_needs_hash_ok : ∃ (o : Ops Nat Nat) (h : List (Op Nat Nat × Option Nat)) (t : Tab Nat)
    (x k : Nat), Reach o 8 (fun _ => none) h t ∧ x ∈ contents h ∧ o.eq (o.key x) k = true ∧
      find o 10 t k (o.hash k) = .ok none := by
  refine ⟨⟨id, id, fun a b => a / 2 == b / 2, 3⟩, [(.add 2, none)], _, 2, 3,
    .step (fuel := 1) (t' := ⟨(List.replicate 8 none).set 2 (some 2), fun _ => none, 1⟩) .init
      ⟨by simp [contents], by simp [contents]⟩ ?_, by simp [contents], by decide, ?_⟩
  · have : Function.update (fun _ => none) 2 ((List.replicate 8 (none : Option Nat))[2]?.join) =
        fun _ => none := by
      funext x
      by_cases hx : x = 2 <;> simp [hx]
    simp [exec, add, init, addBin, this]
  · simp [find]
    rfl

/-- **C04.** Walking the closed list from `begin()` to `end()` yields every stored object exactly
once, and nothing else; the walk ends. -/
theorem c04_iteration {o : Ops α κ} (ho : HashOk o) {sz : Nat} (hsz : sz % 2 ^ 32 ≠ 0)
    {nxt : α → Option α} {h : List (Op α κ × Option α)} {t : Tab α} (reach : Reach o sz nxt h t) :
    ∃ l : List α, l.Nodup ∧ (∀ x, x ∈ l ↔ x ∈ contents h) ∧
      ∀ fuel, l.length < fuel → (begin t).bind (walk t fuel) = .ok (l.map some) := by
  obtain ⟨⟨M, r⟩, -⟩ := reach_inv ho hsz reach
  exact ⟨_, restFrom_nodup r, restFrom_mem r, fun fuel hf => walk_begin r fuel hf⟩

/-! ### The hash table: `add`, `find`, `clear` share the code above; `rm` is different -/

/-- **C06.** Using `add`, `find` and `clear`, `find(k)` returns a stored element with key `k` iff
there is one (histories without removals, any number of growths). -/
theorem c06_find_exact [DecidableEq κ] {o : Ops α κ} (heq : o.eq = fun a b => decide (a = b))
    {sz : Nat} (hsz : sz % 2 ^ 32 ≠ 0)
    {nxt : α → Option α} {h : List (Op α κ × Option α)} {t : Tab α} (reach : Reach o sz nxt h t)
    (k : κ) :
    (∃ fuel x, find o fuel t k (o.hash k) = .ok (some x)) ↔ ∃ x ∈ contents h, o.key x = k := by
  have ho : HashOk o := by
    intro a b hab
    rw [heq] at hab
    rw [of_decide_eq_true hab]
  constructor
  · rintro ⟨fuel, x, hx⟩
    obtain ⟨h1, h2⟩ := (c03_find_exact ho hsz reach k fuel _ hx).1 x rfl
    rw [heq] at h2
    exact ⟨x, h1, by simpa using h2⟩
  · rintro ⟨x, hx, hk⟩
    obtain ⟨res, e1, h1, h2⟩ := find_rep (reach_inv ho hsz reach).1 ho _
      (Nat.lt_succ_self (contents h).card) k
    cases res with
    | some y => exact ⟨_, y, e1⟩
    | none =>
      have := h2 rfl x hx
      rw [heq] at this
      simp [hk] at this

/-- As far as its user can see, the table holds exactly the set `S`. -/
def Shows (o : Ops α κ) (t : Tab α) (S : Finset α) : Prop :=
  t.fill = S.card ∧
  (∀ k fuel, S.card < fuel → ∃ r, find o fuel t k (o.hash k) = .ok r) ∧
  ∀ k fuel r, find o fuel t k (o.hash k) = .ok r → Lookup o S k r

omit [DecidableEq α] in
theorem shows_of_inv {o : Ops α κ} (ho : HashOk o) {t : Tab α} {S : Finset α} (inv : Inv o t S) :
    Shows o t S := by
  refine ⟨inv.2, fun k fuel hf => ?_, fun k fuel r hr => ?_⟩
  · obtain ⟨r, e, -, -⟩ := find_rep inv.1 ho fuel hf k
    exact ⟨r, e⟩
  · obtain ⟨r', e, h1, h2⟩ := find_rep inv.1 ho _ (Nat.lt_succ_self _) k
    have := ok_unique (F := fun f => find o f t k (o.hash k)) (fun f r k => fun h => find_mono o h k)
      hr e
    subst this
    exact ⟨h1, h2⟩

/-- What a correct `rm` has to do: it reports whether an element with the key was stored, and if
so exactly one such element disappears and the count goes down by one. -/
def RmCorrect (o : Ops α κ) (S : Finset α) (k : κ) (t' : Tab α) (b : Bool) : Prop :=
  (b = true ∧ ∃ x ∈ S, o.eq (o.key x) k = true ∧ Shows o t' (S.erase x)) ∨
  (b = false ∧ (∀ x ∈ S, o.eq (o.key x) k = false) ∧ Shows o t' S)

/-- **C05, partial.** `Htable::rm` is correct if every stored element in the bucket of the key has
that key.  (Missing: elements behind others in their bucket; see `c05_rm_keeps_element`.) -/
theorem c05_rm_partial {o : Ops α κ} (ho : HashOk o) {sz : Nat} (hsz : sz % 2 ^ 32 ≠ 0)
    {nxt : α → Option α} {h : List (Op α κ × Option α)} {t t' : Tab α} {b : Bool}
    (reach : Reach o sz nxt h t) (k : κ)
    (hbucket : ∀ x ∈ contents h, o.hash (o.key x) % t.bins.length = o.hash k % t.bins.length →
      o.eq (o.key x) k = true)
    (fuel : Nat) (run : rm o fuel t k (o.hash k) = .ok (t', b)) :
    RmCorrect o (contents h) k t' b := by
  obtain ⟨⟨M, r⟩, hfill⟩ := reach_inv ho hsz reach
  have hlt : o.hash k % t.bins.length < t.bins.length := Nat.mod_lt _ r.pos
  have c := bin_get r (o.hash k)
  have hne : t.bins.length ≠ 0 := by have := r.pos; omega
  have run := rm_mono o run ((contents h).card + 1)
  rcases rmLoop_chain (fun p => o.eq (o.key p) k) (fuel + ((contents h).card + 1)) _ none _
    c (lt_of_le_of_lt (r.length_le hlt) (by omega)) with ⟨h1, q, h2⟩ | ⟨l1, x, l2, hM, hx, hl, h2⟩
  · right
    simp only [rm, hne, if_false, h2, Outcome.map_ok, Outcome.ok.injEq, Prod.mk.injEq] at run
    obtain ⟨rfl, rfl⟩ := run
    refine ⟨rfl, fun x hx => ?_, shows_of_inv ho ⟨⟨M, r⟩, hfill⟩⟩
    rw [List.find?_eq_none] at h1
    by_contra hc
    have hc : o.eq (o.key x) k = true := by simpa using hc
    have := (r.mem x).1 hx
    rw [ho _ _ hc] at this
    exact h1 x this hc
  · left
    have hl1 : l1 = [] := by
      cases l1 with
      | nil => rfl
      | cons y l1 =>
        have hy : y ∈ M (o.hash k % t.bins.length) := by rw [hM]; simp
        have := hbucket y (r.mem_bin hlt hy) (r.hash _ hlt y hy)
        have h' : o.eq (o.key y) k = false := hl y (by simp)
        rw [this] at h'
        simp at h'
    subst hl1
    simp only [if_true] at h2
    have hxS : x ∈ contents h := r.mem_bin hlt (by rw [hM]; simp)
    simp only [rm, hne, if_false, h2, Outcome.map_ok, Outcome.ok.injEq, Prod.mk.injEq] at run
    obtain ⟨rfl, rfl⟩ := run
    refine ⟨rfl, x, hxS, hx, shows_of_inv ho ⟨⟨_, rep_erase r hlt hM (by simp) ?_ ?_ ?_⟩, ?_⟩⟩
    · intro hi
      simp only [List.getElem_set_self]
      have cl := r.chain _ hlt
      rw [hM] at cl
      exact chain_tail cl
    · intro j hj hne
      exact List.getElem_set_ne (by omega) _
    · intro j _ _ y _; rfl
    · simp only [hfill]
      rw [Finset.card_erase_of_mem hxS]

/-- **C05 is false in general** (`q = Ops::entry(p).nxt;` on line 94): whenever the element found
is not the first of its bucket, `rm` reports success and decrements the count, but every bucket
and every link is unchanged, so the element is still there and every `find` returns exactly what
it returned before. -/
theorem c05_rm_keeps_element {o : Ops α κ} {t t' : Tab α} {k : κ} {fuel : Nat}
    (run : rm o fuel t k (o.hash k) = .ok (t', true))
    (notHead : ∀ x, t.bins[o.hash k % t.bins.length]?.join = some x → o.eq (o.key x) k = false) :
    t'.fill = t.fill - 1 ∧ ∀ fuel' k', find o fuel' t' k' (o.hash k') = find o fuel' t k' (o.hash k')
    := by
  unfold rm at run
  split_ifs at run with h0
  rw [Outcome.map_eq_ok] at run
  obtain ⟨⟨q, p⟩, h1, h2⟩ := run
  cases p with
  | none => simp at h2
  | some p =>
    cases q with
    | some q =>
      simp only [Prod.mk.injEq, and_true] at h2
      subst h2
      exact ⟨rfl, fun _ _ => rfl⟩
    | none =>
      exfalso
      cases fuel with
      | zero => simp [rmLoop] at h1
      | succ f =>
        rcases hd : t.bins[o.hash k % t.bins.length]?.join with _ | x
        · rw [hd] at h1
          simp [rmLoop] at h1
        · rw [hd] at h1
          simp only [rmLoop, notHead x hd, Bool.false_eq_true, if_false] at h1
          -- after the first step the predecessor is never NULL again
          have key : ∀ f (p' : Option α) (x' : α) r, rmLoop (fun p => o.eq (o.key p) k) t.nxt f
              (some x') p' = .ok r → r.1 ≠ none := by
            intro f
            induction f with
            | zero => intro p' x' r h; simp [rmLoop] at h
            | succ f ih =>
              intro p' x' r h
              cases p' with
              | none =>
                simp only [rmLoop, Outcome.ok.injEq] at h
                rw [← h]; simp
              | some p' =>
                simp only [rmLoop] at h
                split_ifs at h
                · simp only [Outcome.ok.injEq] at h
                  rw [← h]; simp
                · exact ih _ _ _ h
          exact key _ _ _ _ h1 rfl

/-- **C05, concrete failure.** Two elements with colliding hash values: `rm` of the one added
first reports success, but a following `find` still returns it. -/
theorem c05_rm_witness : ∃ (o : Ops Nat Nat) (h : List (Op Nat Nat × Option Nat)) (t t' : Tab Nat),
    HashOk o ∧ Reach o 8 (fun _ => none) h t ∧ contents h = {1, 2} ∧
    rm o 10 t 1 (o.hash 1) = .ok (t', true) ∧ find o 10 t' 1 (o.hash 1) = .ok (some 1) ∧
    ¬ RmCorrect o (contents h) 1 t' true := by
  let o : Ops Nat Nat := ⟨id, fun _ => 0, fun a b => decide (a = b), 2⟩
  have ho : HashOk o := fun _ _ _ => rfl
  let t : Tab Nat := ⟨some 2 :: List.replicate 7 none, Function.update (fun _ => none) 2 (some 1), 2⟩
  have r1 : Reach o 8 (fun _ => none) [(.add 1, none)]
      ⟨some 1 :: List.replicate 7 none, fun _ => none, 1⟩ := by
    refine .step (fuel := 1) .init ⟨by simp [contents], by simp [contents]⟩ ?_
    have : Function.update (fun _ => none) 1 ((List.replicate 8 (none : Option Nat))[0]?.join) =
        fun _ => none := by
      funext x
      by_cases hx : x = 1 <;> simp [hx]
    simp [exec, add, init, addBin, o]
  have r2 : Reach o 8 (fun _ => none) [(.add 2, none), (.add 1, none)] t := by
    refine .step (fuel := 1) r1 ⟨by simp [contents], by simp [contents, o]⟩ ?_
    simp [exec, add, addBin, o, t]
  have hf : find o 10 ⟨t.bins, t.nxt, 1⟩ 1 (o.hash 1) = .ok (some 1) := by
    simp [find, t, o, findLoop]
  refine ⟨o, _, t, ⟨t.bins, t.nxt, 1⟩, ho, r2, by decide, ?_, hf, ?_⟩
  · simp [rm, t, o, rmLoop]
  · rintro (⟨-, x, hx, hk, -, -, sh⟩ | ⟨h, -⟩)
    · have hx1 : x = 1 := by simpa [o] using hk
      subst hx1
      have := ((sh 1 10 _ hf).1 1 rfl).1
      simp at this
    · simp at h

/-! ### Concrete cases meeting the hypotheses -/

instance decLegal (o : Ops α κ) (S : Finset α) (op : Op α κ) : Decidable (Legal o S op) := by
  cases op <;> unfold Legal <;> infer_instance

/-- Runs a client program (with the history so far), stopping at an illegal call or an error. -/
def runOps (o : Ops α κ) (fuel : Nat) : List (Op α κ × Option α) → Tab α → List (Op α κ) →
    Option (List (Op α κ × Option α))
  | h, _, [] => some h
  | h, t, op :: ops =>
    if Legal o (contents h) op then
      match exec o fuel t op with
      | .ok (t', r) => runOps o fuel ((op, r) :: h) t' ops
      | _ => none
    else none

theorem reach_of_runOps {o : Ops α κ} {fuel sz : Nat} {nxt : α → Option α} {h h' t ops}
    (rc : Reach o sz nxt h t) (e : runOps o fuel h t ops = some h') : ∃ t', Reach o sz nxt h' t' := by
  induction ops generalizing h t with
  | nil => simp only [runOps, Option.some.injEq] at e; exact ⟨t, e ▸ rc⟩
  | cons op ops ih =>
    unfold runOps at e
    split_ifs at e with legal
    split at e
    · rename_i t' r e'
      exact ih (.step rc legal e') e
    · simp at e

/-- A history with growth, removal from the middle of a chain and re-insertion. -/
example : ∃ t, Reach (⟨id, (· % 5), fun a b => decide (a = b), 3⟩ : Ops Nat Nat) 1 (fun _ => none)
    [(.find 12, some 12), (.add 7, none), (.find 7, none), (.remove 7, some 7), (.add 12, none),
     (.add 7, none), (.add 2, none)] t :=
  reach_of_runOps (fuel := 9) (ops := [.add 2, .add 7, .add 12, .remove 7, .find 7, .add 7,
    .find 12]) .init (by decide +kernel)

example : HashOk (⟨id, (· % 5), fun a b => decide (a = b), 3⟩ : Ops Nat Nat) := by
  intro a b h
  simp only [decide_eq_true_eq] at h
  rw [h]

end Verif.Hash
