import Verif.Outcome
import Verif.Structs.Chain
import Mathlib.Data.Finset.Card
import Mathlib.Data.Finset.Union
import Mathlib.Tactic.Linarith

/-!
# Model of `Htable` (structs/htable.hpp) and `ClosedList` (search/closedlist.hpp)

Both are open hash tables with intrusive chains; they differ in the fill factor, in the
key comparison (`==` vs. `eq(dom, k)`) and in the removal code.  The model is at the level
of pointers: `bins` is the array of list heads, `nxt` the memory of the `nxt` fields.
Loops over chains take fuel.  `ncollide`, `nresize` and `fills` (statistics only) are left
out.  `nbins` is a 32-bit unsigned number: growing is modelled modulo 2^32.
-/

namespace Verif.Hash

variable {α κ : Type*} [DecidableEq α]

/-- The `Ops` argument of the templates. -/
structure Ops (α κ : Type*) where
  key : α → κ
  hash : κ → Nat
  eq : κ → κ → Bool
  /-- htable.hpp:13 `Fillfact` (2 unless given), closedlist.hpp:23 (3) -/
  fillfact : Nat

/-- The table object together with the `nxt` fields of all objects. -/
structure Tab (α : Type*) where
  bins : List (Option α)
  nxt : α → Option α
  fill : Nat

/-- htable.hpp:125-131, closedlist.hpp:244-251: private `add`. -/
def addBin (bins : List (Option α)) (nxt : α → Option α) (e : α) (h : Nat) :
    Outcome (List (Option α) × (α → Option α)) :=
  if bins.length = 0 then .ub      -- `h % n` with n == 0
  else
    let i := h % bins.length
    .ok (bins.set i (some e), Function.update nxt e (bins[i]?.join))

/-- htable.hpp:141-144, closedlist.hpp:220-223: the inner loop of `resize`. -/
def rehashChain (o : Ops α κ) : Nat → List (Option α) → (α → Option α) → Option α →
    Outcome (List (Option α) × (α → Option α))
  | 0, _, _, _ => .nofuel
  | _ + 1, b, nxt, none => .ok (b, nxt)
  | f + 1, b, nxt, some p =>
    let n := nxt p
    (addBin b nxt p (o.hash (o.key p))).bind fun r => rehashChain o f r.1 r.2 n

/-- htable.hpp:139-145, closedlist.hpp:218-224: the outer loop of `resize`. -/
def rehash (o : Ops α κ) (fuel : Nat) : List (Option α) → List (Option α) → (α → Option α) →
    Outcome (List (Option α) × (α → Option α))
  | [], b, nxt => .ok (b, nxt)
  | p :: ps, b, nxt => (rehashChain o fuel b nxt p).bind fun r => rehash o fuel ps r.1 r.2

/-- htable.hpp:133-153, closedlist.hpp:208-236 `resize`. -/
def resize (o : Ops α κ) (fuel : Nat) (t : Tab α) (sz : Nat) : Outcome (Tab α) :=
  (rehash o fuel t.bins (List.replicate sz none) t.nxt).map fun r => ⟨r.1, r.2, t.fill⟩

/-- htable.hpp:21-25, closedlist.hpp:28-32: the constructors.  (`ClosedList` takes an
`unsigned long` and passes it to `resize(unsigned int)`.) -/
def init (sz : Nat) (nxt : α → Option α) : Tab α := ⟨List.replicate (sz % 2 ^ 32) none, nxt, 0⟩

/-- htable.hpp:41, closedlist.hpp:58: the new size, an `unsigned int`. -/
def growTo (n : Nat) : Nat := if n = 0 then 1024 else n * 2 % 2 ^ 32

/-- htable.hpp:33-45, closedlist.hpp:52-62 `add`, with the precomputed hash value `h`. -/
def add (o : Ops α κ) (fuel : Nat) (t : Tab α) (e : α) (h : Nat) : Outcome (Tab α) :=
  (if t.fill * o.fillfact ≥ t.bins.length then resize o fuel t (growTo t.bins.length)
   else .ok t).bind fun t =>
  (addBin t.bins t.nxt e h).map fun r => ⟨r.1, r.2, t.fill + 1⟩

/-- htable.hpp:57-62, closedlist.hpp:69-74: the loop of `find`. -/
def findLoop (test : α → Bool) (nxt : α → Option α) : Nat → Option α → Outcome (Option α)
  | 0, _ => .nofuel
  | _ + 1, none => .ok none
  | f + 1, some p => if test p then .ok (some p) else findLoop test nxt f (nxt p)

/-- htable.hpp:56-63, closedlist.hpp:68-75 `find`, with the precomputed hash value `h`. -/
def find (o : Ops α κ) (fuel : Nat) (t : Tab α) (k : κ) (h : Nat) : Outcome (Option α) :=
  if t.bins.length = 0 then .ub
  else findLoop (fun p => o.eq (o.key p) k) t.nxt fuel (t.bins[h % t.bins.length]?.join)

/-- htable.hpp:79-84, closedlist.hpp:104-109: the loop of `rm`/`remove`; returns `(q, p)`.
`q` is the predecessor as the code tracks it: in `Htable::rm` it starts as NULL, in
`ClosedList::remove` as the head of the chain. -/
def rmLoop (test : α → Bool) (nxt : α → Option α) : Nat → Option α → Option α →
    Outcome (Option α × Option α)
  | 0, _, _ => .nofuel
  | _ + 1, q, none => .ok (q, none)
  | f + 1, q, some p => if test p then .ok (q, some p) else rmLoop test nxt f (some p) (nxt p)

/-- htable.hpp:76-96 `Htable::rm`.  Line 94 assigns to the local variable `q` instead of to
`Ops::entry(q).nxt`. -/
def rm (o : Ops α κ) (fuel : Nat) (t : Tab α) (k : κ) (h : Nat) : Outcome (Tab α × Bool) :=
  if t.bins.length = 0 then .ub
  else
    let i := h % t.bins.length
    (rmLoop (fun p => o.eq (o.key p) k) t.nxt fuel none (t.bins[i]?.join)).map fun (q, p) =>
      match p with
      | none => (t, false)
      | some p =>
        match q with
        | none => (⟨t.bins.set i (t.nxt p), t.nxt, t.fill - 1⟩, true)
        | some _ => (⟨t.bins, t.nxt, t.fill - 1⟩, true)

/-- closedlist.hpp:101-122 `ClosedList::remove`. -/
def remove (o : Ops α κ) (fuel : Nat) (t : Tab α) (k : κ) (h : Nat) :
    Outcome (Tab α × Option α) :=
  if t.bins.length = 0 then .ub
  else
    let i := h % t.bins.length
    let hd := t.bins[i]?.join
    (rmLoop (fun p => o.eq (o.key p) k) t.nxt fuel hd hd).bind fun (prev, p) =>
      match p with
      | none => .ok (t, none)
      | some p =>
        if prev = some p then .ok (⟨t.bins.set i (t.nxt p), t.nxt, t.fill - 1⟩, some p)
        else match prev with
          | none => .ub    -- `closedentry(NULL)`; cannot happen
          | some q => .ok (⟨t.bins, Function.update t.nxt q (t.nxt p), t.fill - 1⟩, some p)

/-- htable.hpp:116-121, closedlist.hpp:43-50 `clear`. -/
def clear (t : Tab α) : Tab α := ⟨List.replicate t.bins.length none, t.nxt, 0⟩

/-! ### Iteration (closedlist.hpp:124-196) -/

structure Iter (α : Type*) where
  n : Option α
  b : Nat
  deriving DecidableEq

/-- closedlist.hpp:176-180 `nextbin`, first the increment, then the loop. -/
def nextbin (bins : List (Option α)) (b : Nat) : Nat :=
  if h : b + 1 < bins.length then
    if bins[b + 1] = none then nextbin bins (b + 1) else b + 1
  else b + 1
termination_by bins.length - b

/-- closedlist.hpp:126-138 `iterator::begin`; reading `bins[0]` of an empty array is undefined. -/
def begin (t : Tab α) : Outcome (Iter α) :=
  match t.bins with
  | [] => .ub
  | hd :: _ =>
    let b := if hd = none then nextbin t.bins 0 else 0
    .ok ⟨if b < t.bins.length then t.bins[b]?.join else none, b⟩

/-- closedlist.hpp:140-142 `iterator::end`. -/
def stop (t : Tab α) : Iter α := ⟨none, t.bins.length⟩

/-- closedlist.hpp:160-171 `operator++`; advancing past a NULL node is undefined. -/
def incr (t : Tab α) (it : Iter α) : Outcome (Iter α) :=
  if it.b ≥ t.bins.length then .ok it
  else match it.n with
    | none => .ub
    | some p =>
      match t.nxt p with
      | some q => .ok ⟨some q, it.b⟩
      | none =>
        let b := nextbin t.bins it.b
        .ok ⟨if b < t.bins.length then t.bins[b]?.join else none, b⟩

/-- A client's loop `for (it = begin(); it != end(); ++it) use(*it)`. -/
def walk (t : Tab α) : Nat → Iter α → Outcome (List (Option α))
  | 0, _ => .nofuel
  | f + 1, it =>
    if it = stop t then .ok []
    else (incr t it).bind fun it' => (walk t f it').map (it.n :: ·)

/-! ## Helper lemmas -/

/-- The arrays and chains represent the set `S`: bucket `i` holds `M i`. -/
structure Rep (o : Ops α κ) (bins : List (Option α)) (nxt : α → Option α) (S : Finset α)
    (M : Nat → List α) : Prop where
  pos : 0 < bins.length
  chain : ∀ i (hi : i < bins.length), Chain nxt bins[i] (M i)
  hash : ∀ i, i < bins.length → ∀ x ∈ M i, o.hash (o.key x) % bins.length = i
  mem : ∀ x, x ∈ S ↔ x ∈ M (o.hash (o.key x) % bins.length)

variable {o : Ops α κ} {bins : List (Option α)} {nxt : α → Option α} {S : Finset α}
  {M : Nat → List α}

omit [DecidableEq α] in
theorem Rep.mem_bin (r : Rep o bins nxt S M) {i : Nat} (hi : i < bins.length) {x : α}
    (hx : x ∈ M i) : x ∈ S := by
  rw [r.mem, r.hash i hi x hx]; exact hx

omit [DecidableEq α] in
theorem Rep.length_le (r : Rep o bins nxt S M) {i : Nat} (hi : i < bins.length) :
    (M i).length ≤ S.card := by
  classical
  have nd := (r.chain i hi).nodup
  rw [← List.toFinset_card_of_nodup nd]
  apply Finset.card_le_card
  intro x hx
  exact r.mem_bin hi (List.mem_toFinset.1 hx)

omit [DecidableEq α] in
theorem rep_empty (o : Ops α κ) (n : Nat) (hn : 0 < n) (nxt : α → Option α) :
    Rep o (List.replicate n none) nxt ∅ (fun _ => []) where
  pos := by simpa
  chain i hi := by simpa using Chain.nil
  hash i hi x hx := by simp at hx
  mem x := by simp

/-- Private `add` of a new object. -/
theorem addBin_rep (r : Rep o bins nxt S M) (e : α) (he : e ∉ S) :
    ∃ bins' nxt', addBin bins nxt e (o.hash (o.key e)) = .ok (bins', nxt') ∧
      bins'.length = bins.length ∧
      (∀ x, x ≠ e → nxt' x = nxt x) ∧
      Rep o bins' nxt' (insert e S) (Function.update M (o.hash (o.key e) % bins.length)
        (e :: M (o.hash (o.key e) % bins.length))) := by
  have hlt : o.hash (o.key e) % bins.length < bins.length := Nat.mod_lt _ r.pos
  refine ⟨_, _, by rw [addBin, if_neg (by have := r.pos; omega)], by simp, ?_, ?_⟩
  · intro x hx
    rw [Function.update_of_ne hx]
  · have hnot : ∀ i, i < bins.length → e ∉ M i := fun i hi h => he (r.mem_bin hi h)
    refine ⟨by simpa using r.pos, ?_, ?_, ?_⟩
    · intro i hi
      have hi' : i < bins.length := by simpa using hi
      by_cases h : i = o.hash (o.key e) % bins.length
      · subst h
        simp only [List.getElem_set_self, Function.update_self]
        apply Chain.cons
        simp only [Function.update_self, List.getElem?_eq_getElem hlt, Option.join_some]
        apply (r.chain _ hlt).congr
        intro x hx
        rw [Function.update_of_ne]
        rintro rfl
        exact hnot _ hlt hx
      · rw [List.getElem_set_ne (by omega), Function.update_of_ne h]
        apply (r.chain i hi').congr
        intro x hx
        rw [Function.update_of_ne]
        rintro rfl
        exact hnot _ hi' hx
    · intro i hi x hx
      simp only [List.length_set] at hi ⊢
      by_cases h : i = o.hash (o.key e) % bins.length
      · subst h
        simp only [Function.update_self, List.mem_cons] at hx
        rcases hx with rfl | hx
        · rfl
        · exact r.hash _ hi x hx
      · rw [Function.update_of_ne h] at hx
        exact r.hash i hi x hx
    · intro x
      simp only [List.length_set, Finset.mem_insert]
      by_cases h : o.hash (o.key x) % bins.length = o.hash (o.key e) % bins.length
      · rw [h]
        simp only [Function.update_self, List.mem_cons]
        rw [r.mem, h]
      · rw [Function.update_of_ne h, ← r.mem]
        constructor
        · rintro (rfl | h')
          · exact absurd rfl h
          · exact h'
        · exact Or.inr

theorem rehashChain_rep (fuel : Nat) (l : List α) (p : Option α) (r : Rep o bins nxt S M)
    (c : Chain nxt p l) (hf : l.length < fuel) (hd : ∀ x ∈ l, x ∉ S) :
    ∃ bins' nxt' M', rehashChain o fuel bins nxt p = .ok (bins', nxt') ∧
      bins'.length = bins.length ∧ (∀ x, x ∉ l → nxt' x = nxt x) ∧
      Rep o bins' nxt' (S ∪ l.toFinset) M' := by
  induction l generalizing fuel p bins nxt S M with
  | nil =>
    cases c
    obtain ⟨f, rfl⟩ : ∃ f, fuel = f + 1 := ⟨fuel - 1, by simp at hf; omega⟩
    exact ⟨bins, nxt, M, rfl, rfl, fun _ _ => rfl, by simpa using r⟩
  | cons a l ih =>
    obtain ⟨f, rfl⟩ : ∃ f, fuel = f + 1 := ⟨fuel - 1, by simp at hf; omega⟩
    have nd := c.nodup
    rw [List.nodup_cons] at nd
    cases c with
    | cons rest =>
      obtain ⟨b1, n1, e1, len1, keep1, r1⟩ := addBin_rep r a (hd a List.mem_cons_self)
      have c1 : Chain n1 (nxt a) l := rest.congr fun x hx => keep1 x (by
        rintro rfl; exact nd.1 hx)
      obtain ⟨b2, n2, M2, e2, len2, keep2, r2⟩ := ih f (nxt a) r1 c1 (by simpa using hf) (by
        intro x hx
        simp only [Finset.mem_insert, not_or]
        exact ⟨by rintro rfl; exact nd.1 hx, hd x (List.mem_cons_of_mem _ hx)⟩)
      refine ⟨b2, n2, M2, ?_, by rw [len2, len1], ?_, ?_⟩
      · simp only [rehashChain, e1, Outcome.bind_ok, e2]
      · intro x hx
        simp only [List.mem_cons, not_or] at hx
        rw [keep2 x hx.2, keep1 x hx.1]
      · convert r2 using 1
        ext x
        simp only [List.toFinset_cons, Finset.mem_union, Finset.mem_insert]
        tauto

theorem rehash_rep (fuel : Nat) (ob : List (Option α)) (L : Nat → List α) (r : Rep o bins nxt S M)
    (c : ∀ i (hi : i < ob.length), Chain nxt ob[i] (L i))
    (hf : ∀ i, i < ob.length → (L i).length < fuel)
    (hdj : ∀ i j, i < ob.length → j < ob.length → ∀ x, x ∈ L i → x ∈ L j → i = j)
    (hd : ∀ i, i < ob.length → ∀ x ∈ L i, x ∉ S) :
    ∃ bins' nxt' M' S', rehash o fuel ob bins nxt = .ok (bins', nxt') ∧
      bins'.length = bins.length ∧ Rep o bins' nxt' S' M' ∧
      (∀ x, x ∈ S' ↔ x ∈ S ∨ ∃ i, i < ob.length ∧ x ∈ L i) := by
  induction ob generalizing bins nxt S M L with
  | nil => exact ⟨bins, nxt, M, S, rfl, rfl, r, by simp⟩
  | cons p ps ih =>
    obtain ⟨b1, n1, M1, e1, len1, keep1, r1⟩ := rehashChain_rep fuel (L 0) p r
      (c 0 (by simp)) (hf 0 (by simp)) (hd 0 (by simp))
    obtain ⟨b2, n2, M2, S2, e2, len2, r2, mem2⟩ := ih (fun i => L (i + 1)) r1
      (fun i hi => by
        have hi' : i + 1 < (p :: ps).length := by simpa using hi
        have := c (i + 1) hi'
        simp only [List.getElem_cons_succ] at this
        apply this.congr
        intro x hx
        apply keep1
        intro h0
        have := hdj _ _ hi' (by simp) x hx h0
        omega)
      (fun i hi => hf (i + 1) (by simpa using hi))
      (fun i j hi hj x h1 h2 => by
        have := hdj (i + 1) (j + 1) (by simpa using hi) (by simpa using hj) x h1 h2
        omega)
      (fun i hi x hx => by
        have hi' : i + 1 < (p :: ps).length := by simpa using hi
        simp only [Finset.mem_union, List.mem_toFinset, not_or]
        refine ⟨hd (i + 1) hi' x hx, fun h0 => ?_⟩
        have := hdj _ _ hi' (by simp) x hx h0
        omega)
    refine ⟨b2, n2, M2, S2, ?_, by rw [len2, len1], r2, ?_⟩
    · simp only [rehash, e1, Outcome.bind_ok, e2]
    · intro x
      rw [mem2]
      simp only [Finset.mem_union, List.mem_toFinset, List.length_cons]
      constructor
      · rintro ((h | h) | ⟨i, hi, h⟩)
        · exact Or.inl h
        · exact Or.inr ⟨0, by omega, h⟩
        · exact Or.inr ⟨i + 1, by omega, h⟩
      · rintro (h | ⟨i, hi, h⟩)
        · exact Or.inl (Or.inl h)
        · cases i with
          | zero => exact Or.inl (Or.inr h)
          | succ i => exact Or.inr ⟨i, by omega, h⟩

/-- The table object represents the set `S`. -/
def TabRep (o : Ops α κ) (t : Tab α) (S : Finset α) : Prop :=
  ∃ M, Rep o t.bins t.nxt S M

theorem resize_rep {t : Tab α} {S : Finset α} (r : TabRep o t S) (fuel : Nat) (hf : S.card < fuel)
    (sz : Nat) (hsz : 0 < sz) :
    ∃ t', resize o fuel t sz = .ok t' ∧ t'.bins.length = sz ∧ t'.fill = t.fill ∧ TabRep o t' S := by
  obtain ⟨M, r⟩ := r
  obtain ⟨b, n, M', S', e, len, r', mem⟩ := rehash_rep fuel t.bins M (rep_empty o sz hsz t.nxt)
    r.chain (fun i hi => lt_of_le_of_lt (r.length_le hi) hf)
    (fun i j hi hj x h1 h2 => by rw [← r.hash i hi x h1, ← r.hash j hj x h2])
    (fun i hi x hx => by simp)
  refine ⟨⟨b, n, t.fill⟩, by simp [resize, e], by simpa using len, rfl, M', ?_⟩
  have : S' = S := by
    ext x
    rw [mem]
    simp only [Finset.notMem_empty, false_or]
    constructor
    · rintro ⟨i, hi, h⟩
      exact r.mem_bin hi h
    · intro h
      exact ⟨_, Nat.mod_lt _ r.pos, (r.mem x).1 h⟩
  rw [← this]
  exact r'

theorem add_rep {t : Tab α} {S : Finset α} (r : TabRep o t S) (fuel : Nat) (hf : S.card < fuel)
    (e : α) (he : e ∉ S) (hsz : t.fill * o.fillfact < 2 ^ 31) :
    ∃ t', add o fuel t e (o.hash (o.key e)) = .ok t' ∧ t'.fill = t.fill + 1 ∧
      TabRep o t' (insert e S) := by
  have key : ∃ t1, (if t.fill * o.fillfact ≥ t.bins.length then
      resize o fuel t (growTo t.bins.length) else .ok t) = .ok t1 ∧ t1.fill = t.fill ∧
      TabRep o t1 S := by
    split_ifs with h
    · have hp : 0 < t.bins.length := by obtain ⟨M, r⟩ := r; exact r.pos
      have : growTo t.bins.length = t.bins.length * 2 := by
        unfold growTo
        rw [if_neg (by omega), Nat.mod_eq_of_lt (by omega)]
      obtain ⟨t1, e1, -, f1, r1⟩ := resize_rep r fuel hf (growTo t.bins.length) (by omega)
      exact ⟨t1, e1, f1, r1⟩
    · exact ⟨t, rfl, rfl, r⟩
  obtain ⟨t1, e1, f1, M1, r1⟩ := key
  obtain ⟨b, n, e2, len, -, r2⟩ := addBin_rep r1 e he
  refine ⟨⟨b, n, t1.fill + 1⟩, ?_, by simp [f1], _, r2⟩
  unfold add
  rw [e1]
  simp [e2]

omit [DecidableEq α] in
theorem findLoop_chain (test : α → Bool) (fuel : Nat) (p : Option α) (l : List α)
    (c : Chain nxt p l) (hf : l.length < fuel) :
    findLoop test nxt fuel p = .ok (l.find? test) := by
  induction c generalizing fuel with
  | nil =>
    obtain ⟨f, rfl⟩ : ∃ f, fuel = f + 1 := ⟨fuel - 1, by simp at hf; omega⟩
    rfl
  | @cons a l rest ih =>
    obtain ⟨f, rfl⟩ : ∃ f, fuel = f + 1 := ⟨fuel - 1, by simp at hf; omega⟩
    simp only [findLoop, List.find?_cons]
    by_cases h : test a
    · simp [h]
    · simp only [h, Bool.false_eq_true, if_false]
      exact ih f (by simpa using hf)

/-- Equal keys have equal hash values. -/
def HashOk (o : Ops α κ) : Prop := ∀ k k', o.eq k k' = true → o.hash k = o.hash k'

omit [DecidableEq α] in
theorem bin_get (r : Rep o bins nxt S M) (h : Nat) :
    Chain nxt (bins[h % bins.length]?.join) (M (h % bins.length)) := by
  have hlt : h % bins.length < bins.length := Nat.mod_lt _ r.pos
  rw [List.getElem?_eq_getElem hlt, Option.join_some]
  exact r.chain _ hlt

omit [DecidableEq α] in
theorem find_rep {t : Tab α} {S : Finset α} (r : TabRep o t S) (ho : HashOk o) (fuel : Nat)
    (hf : S.card < fuel) (k : κ) :
    ∃ res, find o fuel t k (o.hash k) = .ok res ∧
      (∀ x, res = some x → x ∈ S ∧ o.eq (o.key x) k = true) ∧
      (res = none → ∀ x ∈ S, o.eq (o.key x) k = false) := by
  obtain ⟨M, r⟩ := r
  have hlt : o.hash k % t.bins.length < t.bins.length := Nat.mod_lt _ r.pos
  refine ⟨(M (o.hash k % t.bins.length)).find? (fun p => o.eq (o.key p) k), ?_, ?_, ?_⟩
  · unfold find
    rw [if_neg (by have := r.pos; omega)]
    exact findLoop_chain _ _ _ _ (bin_get r _) (lt_of_le_of_lt (r.length_le hlt) hf)
  · intro x hx
    exact ⟨r.mem_bin hlt (List.mem_of_find?_eq_some hx), by simpa using List.find?_some hx⟩
  · intro hn x hx
    rw [List.find?_eq_none] at hn
    by_contra hc
    have hc : o.eq (o.key x) k = true := by simpa using hc
    have := (r.mem x).1 hx
    rw [ho _ _ hc] at this
    exact hn x this hc

/-- Outcome of the removal loops on a chain. -/
theorem rmLoop_chain (test : α → Bool) (fuel : Nat) (p q0 : Option α) (l : List α)
    (c : Chain nxt p l) (hf : l.length < fuel) :
    (l.find? test = none ∧ ∃ q, rmLoop test nxt fuel q0 p = .ok (q, none)) ∨
    (∃ l1 x l2, l = l1 ++ x :: l2 ∧ test x = true ∧ (∀ y ∈ l1, test y = false) ∧
      rmLoop test nxt fuel q0 p =
        .ok (if l1 = [] then q0 else l1.getLast?, some x)) := by
  induction c generalizing fuel q0 with
  | nil =>
    obtain ⟨f, rfl⟩ : ∃ f, fuel = f + 1 := ⟨fuel - 1, by simp at hf; omega⟩
    exact Or.inl ⟨rfl, q0, rfl⟩
  | @cons a l rest ih =>
    obtain ⟨f, rfl⟩ : ∃ f, fuel = f + 1 := ⟨fuel - 1, by simp at hf; omega⟩
    by_cases h : test a = true
    · refine Or.inr ⟨[], a, l, rfl, h, by simp, ?_⟩
      simp [rmLoop, h]
    · have h' : test a = false := by simpa using h
      rcases ih f (some a) (by simpa using hf) with ⟨h1, q, h2⟩ | ⟨l1, x, l2, rfl, hx, hl, h2⟩
      · refine Or.inl ⟨by simp [h', h1], q, ?_⟩
        simp only [rmLoop, h', Bool.false_eq_true, if_false]
        exact h2
      · refine Or.inr ⟨a :: l1, x, l2, rfl, hx, ?_, ?_⟩
        · intro y hy
          rcases List.mem_cons.1 hy with rfl | hy
          · exact h'
          · exact hl y hy
        · simp only [rmLoop, h', Bool.false_eq_true, if_false]
          rw [h2]
          cases l1 with
          | nil => simp
          | cons b l1 => simp [List.getLast?_cons_cons]

/-- Cutting a node out of the middle of a chain. -/
theorem chain_unlink {p : Option α} (l1 : List α) (q x : α) (l2 : List α)
    (c : Chain nxt p (l1 ++ q :: x :: l2)) :
    Chain (Function.update nxt q (nxt x)) p (l1 ++ q :: l2) := by
  induction l1 generalizing p with
  | nil =>
    have nd := c.nodup
    simp only [List.nil_append, List.nodup_cons, List.mem_cons, not_or] at nd
    cases c with
    | cons rest =>
      apply Chain.cons
      rw [Function.update_self]
      revert rest
      generalize nxt q = y
      intro rest
      cases rest with
      | cons rest' =>
        apply rest'.congr
        intro z hz
        rw [Function.update_of_ne]
        rintro rfl
        exact nd.1.2 hz
  | cons a l1 ih =>
    have nd := c.nodup
    cases c with
    | cons rest =>
      apply Chain.cons
      rw [Function.update_of_ne]
      · exact ih rest
      · rintro rfl
        simp at nd

omit [DecidableEq α] in
theorem chain_tail {p : Option α} {x : α} {l : List α} (c : Chain nxt p (x :: l)) :
    Chain nxt (nxt x) l := by
  cases c with
  | cons rest => exact rest

omit [DecidableEq α] in
theorem chain_head {p : Option α} {x : α} {l : List α} (c : Chain nxt p (x :: l)) : p = some x := by
  cases c with
  | cons rest => rfl

/-- Replacing the contents of one bucket. -/
theorem rep_erase (r : Rep o bins nxt S M) {i : Nat} (hi : i < bins.length) {x : α} {l1 l2 : List α}
    (hM : M i = l1 ++ x :: l2) {bins' : List (Option α)} {nxt' : α → Option α}
    (hlen : bins'.length = bins.length)
    (hbi : ∀ h : i < bins'.length, Chain nxt' bins'[i] (l1 ++ l2))
    (hbj : ∀ j (h : j < bins'.length) (_ : j ≠ i), bins'[j] = bins[j]'(by omega))
    (hn : ∀ j, j < bins.length → j ≠ i → ∀ y ∈ M j, nxt' y = nxt y) :
    Rep o bins' nxt' (S.erase x) (Function.update M i (l1 ++ l2)) := by
  have hx : x ∈ M i := by rw [hM]; simp
  have hhx := r.hash i hi x hx
  refine ⟨by rw [hlen]; exact r.pos, ?_, ?_, ?_⟩
  · intro j hj
    by_cases e : j = i
    · subst e
      rw [Function.update_self]
      exact hbi hj
    · rw [Function.update_of_ne e, hbj j hj e]
      exact (r.chain j (by omega)).congr (hn j (by omega) e)
  · intro j hj y hy
    rw [hlen] at hj ⊢
    by_cases e : j = i
    · subst e
      rw [Function.update_self] at hy
      apply r.hash j hj y
      rw [hM]
      simp only [List.mem_append, List.mem_cons] at hy ⊢
      tauto
    · rw [Function.update_of_ne e] at hy
      exact r.hash j hj y hy
  · intro y
    rw [hlen, Finset.mem_erase, r.mem]
    by_cases e : o.hash (o.key y) % bins.length = i
    · rw [e, Function.update_self, hM]
      have nd := (r.chain i hi).nodup
      rw [hM] at nd
      have nd' := List.nodup_middle.1 nd
      rw [List.nodup_cons] at nd'
      simp only [List.mem_append, List.mem_cons] at nd' ⊢
      constructor
      · tauto
      · intro h
        refine ⟨?_, by tauto⟩
        rintro rfl
        exact nd'.1 h
    · rw [Function.update_of_ne e]
      constructor
      · exact fun h => h.2
      · intro h
        refine ⟨?_, h⟩
        rintro rfl
        exact e hhx

theorem remove_rep {t : Tab α} {S : Finset α} (r : TabRep o t S) (ho : HashOk o) (fuel : Nat)
    (hf : S.card < fuel) (k : κ) :
    (remove o fuel t k (o.hash k) = .ok (t, none) ∧ ∀ x ∈ S, o.eq (o.key x) k = false) ∨
    (∃ t' x, remove o fuel t k (o.hash k) = .ok (t', some x) ∧ x ∈ S ∧ o.eq (o.key x) k = true ∧
      t'.fill = t.fill - 1 ∧ TabRep o t' (S.erase x)) := by
  obtain ⟨M, r⟩ := r
  have hlt : o.hash k % t.bins.length < t.bins.length := Nat.mod_lt _ r.pos
  have c := bin_get r (o.hash k)
  have hne : t.bins.length ≠ 0 := by have := r.pos; omega
  rcases rmLoop_chain (fun p => o.eq (o.key p) k) fuel _ (t.bins[o.hash k % t.bins.length]?.join) _
    c (lt_of_le_of_lt (r.length_le hlt) hf) with ⟨h1, q, h2⟩ | ⟨l1, x, l2, hM, hx, hl, h2⟩
  · left
    refine ⟨by simp [remove, hne, h2], fun x hx => ?_⟩
    rw [List.find?_eq_none] at h1
    by_contra hc
    have hc : o.eq (o.key x) k = true := by simpa using hc
    have := (r.mem x).1 hx
    rw [ho _ _ hc] at this
    exact h1 x this hc
  · right
    have hxS : x ∈ S := r.mem_bin hlt (by rw [hM]; simp)
    have cl := r.chain _ hlt
    rcases List.eq_nil_or_concat l1 with rfl | ⟨l1', q, rfl⟩
    · have hd : t.bins[o.hash k % t.bins.length]?.join = some x := by
        rw [hM] at c; exact chain_head c
      refine ⟨⟨t.bins.set (o.hash k % t.bins.length) (t.nxt x), t.nxt, t.fill - 1⟩, x, ?_, hxS, hx,
        rfl, _, rep_erase r hlt hM (by simp) ?_ ?_ ?_⟩
      · rw [hd] at h2
        simp only [if_true] at h2
        simp [remove, hne, hd, h2]
      · intro h
        simp only [List.getElem_set_self]
        rw [hM] at cl
        exact chain_tail cl
      · intro j hj hne
        exact List.getElem_set_ne (by omega) _
      · intro j _ _ y _; rfl
    · simp only [List.concat_eq_append] at hM hl h2
      have hqx : q ≠ x := by
        rintro rfl
        have := hl q (by simp)
        rw [this] at hx
        simp at hx
      have hql : l1' ++ [q] ≠ [] := by simp
      simp only [hql, if_false] at h2
      refine ⟨⟨t.bins, Function.update t.nxt q (t.nxt x), t.fill - 1⟩, x, ?_, hxS, hx, rfl, _,
        rep_erase r hlt hM rfl ?_ ?_ ?_⟩
      · simp [remove, hne, h2, hqx]
      · intro h
        rw [hM] at cl
        simp only [List.append_assoc, List.singleton_append] at cl ⊢
        exact chain_unlink _ _ _ _ cl
      · intro j hj _; rfl
      · intro j hj hji y hy
        simp only
        rw [Function.update_of_ne]
        rintro rfl
        have h1 := r.hash j hj y hy
        have h2 := r.hash _ hlt y (by rw [hM]; simp)
        omega

omit [DecidableEq α] in
theorem clear_rep {t : Tab α} {S : Finset α} (r : TabRep o t S) : TabRep o (clear t) ∅ := by
  obtain ⟨M, r⟩ := r
  exact ⟨_, rep_empty o _ r.pos _⟩

/-! ### Iteration -/

theorem nextbin_spec (bins : List (Option α)) (b : Nat) (hb : b < bins.length) :
    b < nextbin bins b ∧ nextbin bins b ≤ bins.length ∧
    (∀ j (hj : j < bins.length), b < j → j < nextbin bins b → bins[j] = none) ∧
    (∀ h : nextbin bins b < bins.length, bins[nextbin bins b] ≠ none) := by
  induction b using nextbin.induct (bins := bins) with
  | case1 b h hn ih =>
    rw [nextbin, dif_pos h, if_pos hn]
    obtain ⟨a1, a2, a3, a4⟩ := ih h
    refine ⟨by omega, a2, ?_, a4⟩
    intro j hj h1 h2
    by_cases e : j = b + 1
    · subst e; exact hn
    · exact a3 j hj (by omega) h2
  | case2 b h hn =>
    rw [nextbin, dif_pos h, if_neg hn]
    refine ⟨by omega, by omega, ?_, fun _ => hn⟩
    intro j hj h1 h2
    omega
  | case3 b h =>
    rw [nextbin, dif_neg h]
    refine ⟨by omega, by omega, ?_, ?_⟩
    · intro j hj h1 h2; omega
    · intro h'; omega

/-- What is left to visit from bucket `b` on. -/
def restFrom (M : Nat → List α) (n b : Nat) : List α :=
  ((List.range' b (n - b)).map M).flatten

omit [DecidableEq α] in
theorem restFrom_ge (M : Nat → List α) {n b : Nat} (h : n ≤ b) : restFrom M n b = [] := by
  unfold restFrom
  rw [Nat.sub_eq_zero_of_le h]
  rfl

omit [DecidableEq α] in
theorem restFrom_lt (M : Nat → List α) {n b : Nat} (h : b < n) :
    restFrom M n b = M b ++ restFrom M n (b + 1) := by
  unfold restFrom
  rw [show n - b = (n - (b + 1)) + 1 by omega, List.range'_succ]
  simp

omit [DecidableEq α] in
theorem restFrom_skip (M : Nat → List α) {n b c : Nat} (hbc : b ≤ c) (hc : c ≤ n)
    (h : ∀ j, b ≤ j → j < c → M j = []) : restFrom M n b = restFrom M n c := by
  induction c, hbc using Nat.le_induction with
  | base => rfl
  | succ c hbc ih =>
    rw [ih (by omega) (fun j h1 h2 => h j h1 (by omega)), restFrom_lt M (by omega : c < n),
      h c hbc (by omega), List.nil_append]

/-- The loop from a position inside bucket `b`. -/
theorem walk_rep {t : Tab α} (r : Rep o t.bins t.nxt S M) (fuel : Nat) (p : Option α) (b : Nat)
    (l : List α) (hb : b < t.bins.length) (c : Chain t.nxt p l) (hl : l ≠ [])
    (hf : l.length + (restFrom M t.bins.length (b + 1)).length < fuel) :
    walk t fuel ⟨p, b⟩ = .ok ((l ++ restFrom M t.bins.length (b + 1)).map some) := by
  induction fuel generalizing p b l with
  | zero => omega
  | succ fuel ih =>
    have hstop : (⟨p, b⟩ : Iter α) ≠ stop t := by
      intro e
      simp only [stop, Iter.mk.injEq] at e
      omega
    rw [walk, if_neg hstop]
    cases c with
    | nil => exact absurd rfl hl
    | @cons a l rest =>
      rcases hn : t.nxt a with _ | q
      · -- end of this bucket
        rw [hn] at rest
        cases rest
        obtain ⟨s1, s2, s3, s4⟩ := nextbin_spec t.bins b hb
        have hskip : restFrom M t.bins.length (b + 1) =
            restFrom M t.bins.length (nextbin t.bins b) := by
          apply restFrom_skip M (by omega) s2
          intro j h1 h2
          have hj : j < t.bins.length := by omega
          have := r.chain j hj
          rw [s3 j hj (by omega) h2] at this
          generalize M j = m at this
          cases this
          rfl
        by_cases hlt : nextbin t.bins b < t.bins.length
        · have hc := r.chain _ hlt
          have hne : M (nextbin t.bins b) ≠ [] := by
            intro e
            rw [e] at hc
            have := s4 hlt
            generalize t.bins[nextbin t.bins b] = z at *
            cases hc
            exact this rfl
          have hw := ih _ _ _ hlt hc hne (by
            rw [hskip, restFrom_lt M hlt] at hf
            simp only [List.length_append, List.length_cons, List.length_nil] at hf
            omega)
          have hi : incr t ⟨some a, b⟩ = .ok ⟨t.bins[nextbin t.bins b], nextbin t.bins b⟩ := by
            simp [incr, hn, hlt, Nat.not_le.2 hb]
          rw [hi, Outcome.bind_ok, hw, hskip, restFrom_lt M hlt]
          simp
        · have e : nextbin t.bins b = t.bins.length := by omega
          have hi : incr t ⟨some a, b⟩ = .ok (stop t) := by
            simp [incr, hn, e, Nat.not_le.2 hb, stop]
          rw [hi, Outcome.bind_ok, hskip, e, restFrom_ge M (Nat.le_refl _)]
          obtain ⟨f, rfl⟩ : ∃ f, fuel = f + 1 := ⟨fuel - 1, by simp at hf; omega⟩
          simp [walk]
      · rw [hn] at rest
        have hi : incr t ⟨some a, b⟩ = .ok ⟨some q, b⟩ := by
          simp [incr, hn, Nat.not_le.2 hb]
        have hlne : l ≠ [] := by
          rintro rfl
          cases rest
        have hw := ih (some q) b l hb rest hlne (by simp at hf ⊢; omega)
        rw [hi, Outcome.bind_ok, hw]
        simp

/-- All stored objects, bucket by bucket. -/
theorem walk_begin {t : Tab α} (r : Rep o t.bins t.nxt S M) (fuel : Nat)
    (hf : (restFrom M t.bins.length 0).length < fuel) :
    ((begin t).bind (walk t fuel)) = .ok ((restFrom M t.bins.length 0).map some) := by
  have hp := r.pos
  obtain ⟨hd, tl, hbins⟩ : ∃ hd tl, t.bins = hd :: tl := by
    cases h : t.bins with
    | nil => rw [h] at hp; simp at hp
    | cons a l => exact ⟨a, l, rfl⟩
  have c0 := r.chain 0 hp
  have hhd : t.bins[0] = hd := by simp [hbins]
  rw [hhd] at c0
  rcases hd with _ | a
  · have hM0 : M 0 = [] := by generalize M 0 = m at c0; cases c0; rfl
    obtain ⟨s1, s2, s3, s4⟩ := nextbin_spec t.bins 0 hp
    have hb : begin t = .ok ⟨if nextbin t.bins 0 < t.bins.length then
        t.bins[nextbin t.bins 0]?.join else none, nextbin t.bins 0⟩ := by
      unfold begin
      split
      · rename_i h; rw [h] at hbins; simp at hbins
      · rename_i h; rw [hbins] at h; simp only [List.cons.injEq] at h
        rw [← h.1]
        simp
    have hskip : restFrom M t.bins.length 0 =
        restFrom M t.bins.length (nextbin t.bins 0) := by
      apply restFrom_skip M (by omega) s2
      intro j h1 h2
      by_cases hj0 : j = 0
      · subst hj0; exact hM0
      have hj : j < t.bins.length := by omega
      have := r.chain j hj
      rw [s3 j hj (by omega) h2] at this
      generalize M j = m at this
      cases this
      rfl
    rw [hb, Outcome.bind_ok, hskip]
    by_cases hlt : nextbin t.bins 0 < t.bins.length
    · have hc := r.chain _ hlt
      have hne : M (nextbin t.bins 0) ≠ [] := by
        intro e
        rw [e] at hc
        have := s4 hlt
        generalize t.bins[nextbin t.bins 0] = z at *
        cases hc
        exact this rfl
      rw [if_pos hlt, List.getElem?_eq_getElem hlt, Option.join_some, restFrom_lt M hlt]
      apply walk_rep r fuel _ _ _ hlt hc hne
      rw [hskip, restFrom_lt M hlt] at hf
      simpa using hf
    · have e : nextbin t.bins 0 = t.bins.length := by omega
      rw [if_neg hlt, e, restFrom_ge M (Nat.le_refl _)]
      obtain ⟨f, rfl⟩ : ∃ f, fuel = f + 1 := ⟨fuel - 1, by omega⟩
      simp [walk, stop]
  · have hb : begin t = .ok ⟨some a, 0⟩ := by
      unfold begin
      split
      · rename_i h; rw [h] at hbins; simp at hbins
      · rename_i h; rw [hbins] at h; simp only [List.cons.injEq] at h
        rw [← h.1]
        simp [hbins]
    have hne : M 0 ≠ [] := by
      intro e
      rw [e] at c0
      cases c0
    rw [hb, Outcome.bind_ok, restFrom_lt M hp]
    apply walk_rep r fuel _ _ _ hp c0 hne
    rw [restFrom_lt M hp] at hf
    simpa using hf

omit [DecidableEq α] in
theorem restFrom_nodup (r : Rep o bins nxt S M) : (restFrom M bins.length 0).Nodup := by
  unfold restFrom
  rw [List.nodup_flatten]
  constructor
  · intro l hl
    simp only [List.mem_map, List.mem_range'_1] at hl
    obtain ⟨i, hi, rfl⟩ := hl
    exact (r.chain i (by omega)).nodup
  · rw [List.pairwise_map]
    apply List.Pairwise.imp_of_mem _ (List.nodup_range' (s := 0) (n := bins.length - 0))
    intro i j hi hj hij
    simp only [List.mem_range'_1] at hi hj
    intro x h1 h2
    exact hij (by rw [← r.hash i (by omega) x h1, ← r.hash j (by omega) x h2])

omit [DecidableEq α] in
theorem restFrom_mem (r : Rep o bins nxt S M) (x : α) : x ∈ restFrom M bins.length 0 ↔ x ∈ S := by
  unfold restFrom
  simp only [List.mem_flatten, List.mem_map, List.mem_range'_1]
  constructor
  · rintro ⟨l, ⟨i, hi, rfl⟩, hx⟩
    exact r.mem_bin (by omega) hx
  · intro hx
    exact ⟨_, ⟨_, ⟨Nat.zero_le _, by have := Nat.mod_lt (o.hash (o.key x)) r.pos; omega⟩, rfl⟩,
      (r.mem x).1 hx⟩

/-! ### More fuel does not change a result -/

theorem rehashChain_mono (o : Ops α κ) {f : Nat} {b : List (Option α)} {nxt : α → Option α}
    {p : Option α} {r} (h : rehashChain o f b nxt p = .ok r) (k : Nat) :
    rehashChain o (f + k) b nxt p = .ok r := by
  induction f generalizing b nxt p with
  | zero => simp [rehashChain] at h
  | succ f ih =>
    rw [show f + 1 + k = f + k + 1 by omega]
    cases p with
    | none => exact h
    | some p =>
      simp only [rehashChain, Outcome.bind_eq_ok] at h ⊢
      obtain ⟨a, h1, h2⟩ := h
      exact ⟨a, h1, ih h2⟩

theorem rehash_mono (o : Ops α κ) {f : Nat} {ob b : List (Option α)} {nxt : α → Option α}
    {r} (h : rehash o f ob b nxt = .ok r) (k : Nat) : rehash o (f + k) ob b nxt = .ok r := by
  induction ob generalizing b nxt with
  | nil => exact h
  | cons p ps ih =>
    simp only [rehash, Outcome.bind_eq_ok] at h ⊢
    obtain ⟨a, h1, h2⟩ := h
    exact ⟨a, rehashChain_mono o h1 k, ih h2⟩

theorem add_mono (o : Ops α κ) {f : Nat} {t : Tab α} {e : α} {h : Nat} {r}
    (hr : add o f t e h = .ok r) (k : Nat) : add o (f + k) t e h = .ok r := by
  unfold add at *
  rw [Outcome.bind_eq_ok] at hr ⊢
  obtain ⟨t1, h1, h2⟩ := hr
  refine ⟨t1, ?_, h2⟩
  split_ifs at h1 ⊢
  · unfold resize at *
    rw [Outcome.map_eq_ok] at h1 ⊢
    obtain ⟨a, h3, h4⟩ := h1
    exact ⟨a, rehash_mono o h3 k, h4⟩
  · exact h1

omit [DecidableEq α] in
theorem findLoop_mono {test : α → Bool} {nxt : α → Option α} {f : Nat} {p : Option α} {r}
    (h : findLoop test nxt f p = .ok r) (k : Nat) : findLoop test nxt (f + k) p = .ok r := by
  induction f generalizing p with
  | zero => simp [findLoop] at h
  | succ f ih =>
    rw [show f + 1 + k = f + k + 1 by omega]
    cases p with
    | none => exact h
    | some p =>
      simp only [findLoop] at h ⊢
      split_ifs at h ⊢
      · exact h
      · exact ih h

omit [DecidableEq α] in
theorem find_mono (o : Ops α κ) {f : Nat} {t : Tab α} {q : κ} {h : Nat} {r}
    (hr : find o f t q h = .ok r) (k : Nat) : find o (f + k) t q h = .ok r := by
  unfold find at *
  split_ifs at hr ⊢
  exact findLoop_mono hr k

omit [DecidableEq α] in
theorem rmLoop_mono {test : α → Bool} {nxt : α → Option α} {f : Nat} {q p : Option α} {r}
    (h : rmLoop test nxt f q p = .ok r) (k : Nat) : rmLoop test nxt (f + k) q p = .ok r := by
  induction f generalizing p q with
  | zero => simp [rmLoop] at h
  | succ f ih =>
    rw [show f + 1 + k = f + k + 1 by omega]
    cases p with
    | none => exact h
    | some p =>
      simp only [rmLoop] at h ⊢
      split_ifs at h ⊢
      · exact h
      · exact ih h

theorem remove_mono (o : Ops α κ) {f : Nat} {t : Tab α} {q : κ} {h : Nat} {r}
    (hr : remove o f t q h = .ok r) (k : Nat) : remove o (f + k) t q h = .ok r := by
  unfold remove at *
  split_ifs at hr ⊢
  simp only [Outcome.bind_eq_ok] at hr ⊢
  obtain ⟨a, h1, h2⟩ := hr
  exact ⟨a, rmLoop_mono h1 k, h2⟩

omit [DecidableEq α] in
theorem rm_mono (o : Ops α κ) {f : Nat} {t : Tab α} {q : κ} {h : Nat} {r}
    (hr : rm o f t q h = .ok r) (k : Nat) : rm o (f + k) t q h = .ok r := by
  unfold rm at *
  split_ifs at hr ⊢
  simp only [Outcome.map_eq_ok] at hr ⊢
  obtain ⟨a, h1, h2⟩ := hr
  exact ⟨a, rmLoop_mono h1 k, h2⟩

theorem walk_mono {t : Tab α} {f : Nat} {it : Iter α} {r} (h : walk t f it = .ok r) (k : Nat) :
    walk t (f + k) it = .ok r := by
  induction f generalizing it r with
  | zero => simp [walk] at h
  | succ f ih =>
    rw [show f + 1 + k = f + k + 1 by omega]
    simp only [walk] at h ⊢
    split_ifs at h ⊢
    · exact h
    · rw [Outcome.bind_eq_ok] at h ⊢
      obtain ⟨a, h1, h2⟩ := h
      rw [Outcome.map_eq_ok] at h2
      obtain ⟨l, h3, h4⟩ := h2
      exact ⟨a, h1, by rw [Outcome.map_eq_ok]; exact ⟨l, ih h3, h4⟩⟩

/-- A result obtained with some fuel is the result obtained with any sufficient fuel. -/
theorem ok_unique {β : Type*} {F : Nat → Outcome β} (mono : ∀ f r k, F f = .ok r → F (f + k) = .ok r)
    {f g : Nat} {r s : β} (h1 : F f = .ok r) (h2 : F g = .ok s) : r = s := by
  have a := mono f r g h1
  have b := mono g s f h2
  rw [Nat.add_comm, b] at a
  injection a with a
  exact a.symm

end Verif.Hash
