import Verif.Outcome
import Verif.Structs.Chain
import Mathlib.Data.Finset.Card
import Mathlib.Tactic.Linarith

/-!
# Model of `Intpq` (structs/intpq.hpp)

Pointer-level model: `bins` is the array of list heads (its length is `nbins`), `nxt` and
`prev` are the memories of the entry fields.  `nresize` (statistics) is left out.
-/

namespace Verif.Intpq

variable {α : Type*} [DecidableEq α]

structure Pq (α : Type*) where
  bins : List (Option α)
  nxt : α → Option α
  prev : α → Option α
  fill : Nat
  «end» : Nat

/-- intpq.hpp:17-20 constructor; fresh entries have `prev == NULL` (line 9). -/
def init (sz : Nat) (nxt : α → Option α) : Pq α :=
  ⟨List.replicate sz none, nxt, fun _ => none, 0, 0⟩

/-- intpq.hpp:100-115 `resize`.  Copying `nbins` heads into a smaller array is undefined. -/
def resize (bins : List (Option α)) (sz : Nat) : Outcome (List (Option α)) :=
  if sz < bins.length then .ub else .ok (bins ++ List.replicate (sz - bins.length) none)

/-- intpq.hpp:29: the new number of bins.  `prio + 1` is computed in 32 bits; `* 1.5` is a
`double` (exact for 32-bit values), converted back to `unsigned int` (undefined if it does not
fit). -/
def newSize (prio : Nat) : Outcome Nat :=
  if prio = 0 then .ok 1024
  else
    let s := ((prio + 1) % 2 ^ 32) * 3 / 2
    if s < 2 ^ 32 then .ok s else .ub

/-- intpq.hpp:30-31, 52-53, 66-67, 71-72: `if (n) Ops::entry(n).prev = v`. -/
def setPrev (prev : α → Option α) (n : Option α) (v : Option α) : α → Option α :=
  match n with
  | some n => Function.update prev n v
  | none => prev

/-- intpq.hpp:27-40 `push`. -/
def push (q : Pq α) (e : α) (prio : Nat) : Outcome (Pq α) :=
  (if prio ≥ q.bins.length then (newSize prio).bind (resize q.bins) else .ok q.bins).bind fun bins =>
    if h : prio < bins.length then
      .ok ⟨bins.set prio (some e), Function.update q.nxt e bins[prio],
        Function.update (setPrev q.prev bins[prio] (some e)) e (some e),
        q.fill + 1, if q.fill = 0 ∨ prio < q.end then prio else q.end⟩
    else .ub

/-- intpq.hpp:46-47: `for ( ; !bins[end]; end++)`; running off the array is undefined. -/
def seek (bins : List (Option α)) (i : Nat) : Outcome Nat :=
  if h : i < bins.length then
    if bins[i] = none then seek bins (i + 1) else .ok i
  else .ub
termination_by bins.length - i

/-- intpq.hpp:42-60 `pop`. -/
def pop (q : Pq α) : Outcome (Option α × Pq α) :=
  if q.fill = 0 then .ok (none, q)
  else (seek q.bins q.end).bind fun i =>
    match q.bins[i]?.join with
    | none => .fatal    -- the assertion on line 48
    | some e =>
      .ok (some e, ⟨q.bins.set i (q.nxt e), q.nxt,
        Function.update (setPrev q.prev (q.nxt e) (q.nxt e)) e none, q.fill - 1, i⟩)

/-- intpq.hpp:62-77 `rm`. -/
def rm (q : Pq α) (e : α) (prio : Nat) : Outcome (Pq α) :=
  match q.prev e with
  | none => .fatal      -- assert(mem(e))
  | some p =>
    if p = e then
      if prio < q.bins.length then
        .ok ⟨q.bins.set prio (q.nxt e), q.nxt,
          Function.update (setPrev q.prev (q.nxt e) (q.nxt e)) e none, q.fill - 1, q.end⟩
      else .ub
    else
      .ok ⟨q.bins, Function.update q.nxt p (q.nxt e),
        Function.update (setPrev q.prev (q.nxt e) (some p)) e none, q.fill - 1, q.end⟩

/-- intpq.hpp:83-85 `mem`. -/
def mem (q : Pq α) (e : α) : Bool := (q.prev e).isSome

/-- intpq.hpp:87-92 `clear`; the entries keep their `prev`. -/
def clear (q : Pq α) : Pq α := ⟨List.replicate q.bins.length none, q.nxt, q.prev, 0, 0⟩

/-! ## Helper lemmas -/

/-- `prev` pointers of a list whose predecessor is `q`. -/
def PrevFrom (prev : α → Option α) : α → List α → Prop
  | _, [] => True
  | q, a :: l => prev a = some q ∧ PrevFrom prev a l

/-- `prev` pointers of a whole bucket: the first element points to itself. -/
def PrevOk (prev : α → Option α) : List α → Prop
  | [] => True
  | a :: l => prev a = some a ∧ PrevFrom prev a l

omit [DecidableEq α] in
theorem prevFrom_congr {prev prev' : α → Option α} {q : α} {l : List α}
    (h : PrevFrom prev q l) (e : ∀ x ∈ l, prev' x = prev x) : PrevFrom prev' q l := by
  induction l generalizing q with
  | nil => trivial
  | cons a l ih =>
    exact ⟨by rw [e a List.mem_cons_self]; exact h.1,
      ih h.2 fun x hx => e x (List.mem_cons_of_mem _ hx)⟩

omit [DecidableEq α] in
theorem prevOk_congr {prev prev' : α → Option α} {l : List α}
    (h : PrevOk prev l) (e : ∀ x ∈ l, prev' x = prev x) : PrevOk prev' l := by
  cases l with
  | nil => trivial
  | cons a l =>
    exact ⟨by rw [e a List.mem_cons_self]; exact h.1,
      prevFrom_congr h.2 fun x hx => e x (List.mem_cons_of_mem _ hx)⟩

omit [DecidableEq α] in
theorem prevFrom_isSome {prev : α → Option α} {q : α} {l : List α}
    (h : PrevFrom prev q l) {x : α} (hx : x ∈ l) : (prev x).isSome := by
  induction l generalizing q with
  | nil => simp at hx
  | cons a l ih =>
    rcases List.mem_cons.1 hx with rfl | hx
    · rw [h.1]; rfl
    · exact ih h.2 hx

omit [DecidableEq α] in
theorem prevOk_isSome {prev : α → Option α} {l : List α}
    (h : PrevOk prev l) {x : α} (hx : x ∈ l) : (prev x).isSome := by
  cases l with
  | nil => simp at hx
  | cons a l =>
    rcases List.mem_cons.1 hx with rfl | hx
    · rw [h.1]; rfl
    · exact prevFrom_isSome h.2 hx

omit [DecidableEq α] in
theorem prevFrom_append {prev : α → Option α} {q : α} {l1 : List α} {e : α} {l2 : List α}
    (h : PrevFrom prev q (l1 ++ e :: l2)) :
    PrevFrom prev q l1 ∧ prev e = some (l1.getLast?.getD q) ∧ PrevFrom prev e l2 := by
  induction l1 generalizing q with
  | nil => exact ⟨trivial, h.1, h.2⟩
  | cons a l1 ih =>
    obtain ⟨h1, h2, h3⟩ := ih h.2
    refine ⟨⟨h.1, h1⟩, ?_, h3⟩
    rw [h2]
    cases l1 with
    | nil => rfl
    | cons b l1 => rw [List.getLast?_cons_cons]; simp [List.getLast?_cons]

omit [DecidableEq α] in
theorem prevFrom_join {prev : α → Option α} {q : α} {l1 l2 : List α}
    (h1 : PrevFrom prev q l1) (h2 : PrevFrom prev (l1.getLast?.getD q) l2) :
    PrevFrom prev q (l1 ++ l2) := by
  induction l1 generalizing q with
  | nil => exact h2
  | cons a l1 ih =>
    refine ⟨h1.1, ih h1.2 ?_⟩
    cases l1 with
    | nil => exact h2
    | cons b l1 =>
      rw [List.getLast?_cons_cons] at h2
      simpa [List.getLast?_cons] using h2

/-- A bucket: forward links `nxt`, backward links `prev`. -/
def Bucket (nxt prev : α → Option α) (p : Option α) (l : List α) : Prop :=
  Chain nxt p l ∧ PrevOk prev l

omit [DecidableEq α] in
theorem Bucket.congr {nxt nxt' prev prev' : α → Option α} {p : Option α} {l : List α}
    (h : Bucket nxt prev p l) (e1 : ∀ x ∈ l, nxt' x = nxt x) (e2 : ∀ x ∈ l, prev' x = prev x) :
    Bucket nxt' prev' p l := ⟨h.1.congr e1, prevOk_congr h.2 e2⟩

/-- Removing the first element of a bucket. -/
theorem bucket_rm_head {nxt prev : α → Option α} {p : Option α} {e : α} {l : List α}
    (h : Bucket nxt prev p (e :: l)) :
    Bucket nxt (Function.update (setPrev prev (nxt e) (nxt e)) e none) (nxt e) l := by
  obtain ⟨c, pv⟩ := h
  have nd := c.nodup
  rw [List.nodup_cons] at nd
  cases c with
  | cons rest =>
    refine ⟨rest, ?_⟩
    cases l with
    | nil => trivial
    | cons b l =>
      have hn : nxt e = some b := by
        generalize nxt e = z at rest
        cases rest
        rfl
      rw [List.nodup_cons] at nd
      rw [hn]
      have hbe : b ≠ e := by rintro rfl; exact nd.1 List.mem_cons_self
      refine ⟨by simp [setPrev, hbe], prevFrom_congr pv.2.2 ?_⟩
      intro x hx
      have h1 : x ≠ e := by rintro rfl; exact nd.1 (List.mem_cons_of_mem _ hx)
      have h2 : x ≠ b := by rintro rfl; exact nd.2.1 hx
      simp [setPrev, h1, h2]

/-- Removing a later element of a bucket. -/
theorem bucket_rm_mid {nxt prev : α → Option α} {p : Option α} {q e : α} {l1 l2 : List α}
    (h : Bucket nxt prev p (l1 ++ q :: e :: l2)) :
    Bucket (Function.update nxt q (nxt e))
      (Function.update (setPrev prev (nxt e) (some q)) e none) p (l1 ++ q :: l2) := by
  obtain ⟨c, pv⟩ := h
  have nd := c.nodup
  refine ⟨?_, ?_⟩
  · -- forward links
    clear pv
    induction l1 generalizing p with
    | nil =>
      simp only [List.nil_append, List.nodup_cons, List.mem_cons, not_or] at nd
      cases c with
      | cons rest =>
        apply Chain.cons
        rw [Function.update_self]
        revert rest
        generalize nxt q = y
        intro rest
        cases rest with
        | cons rest' =>
          apply rest'.congr
          intro z hz
          rw [Function.update_of_ne]
          rintro rfl
          exact nd.1.2 hz
    | cons a l1 ih =>
      cases c with
      | cons rest =>
        have nd' := nd
        rw [List.cons_append, List.nodup_cons] at nd'
        apply Chain.cons
        rw [Function.update_of_ne]
        · exact ih rest nd'.2
        · rintro rfl
          simp at nd'
  · -- backward links
    have hsplit : l1 ++ q :: e :: l2 = (l1 ++ [q]) ++ e :: l2 := by simp
    have hn : nxt e = l2.head? := by
      rw [hsplit] at c
      obtain ⟨m1, m2, hm, hc⟩ := c.suffix_of_mem (a := e) (by simp)
      have nd2 := nd
      rw [hsplit] at nd2
      have : m2 = l2 := by
        have h1 : e ∉ l1 ++ [q] := by
          intro he
          have := List.nodup_middle.1 nd2
          rw [List.nodup_cons] at this
          exact this.1 (List.mem_append_left _ he)
        have h2 : e ∉ m1 := by
          intro he
          rw [hm] at nd2
          have := List.nodup_middle.1 nd2
          rw [List.nodup_cons] at this
          exact this.1 (List.mem_append_left _ he)
        have := List.append_eq_append_iff.1 hm
        rcases this with ⟨a, ha1, ha2⟩ | ⟨a, ha1, ha2⟩
        · cases a with
          | nil => simp at ha2; exact ha2.symm
          | cons z a =>
            exfalso
            simp only [List.cons_append, List.cons.injEq] at ha2
            rw [ha1, ← ha2.1] at h2
            simp at h2
        · cases a with
          | nil => simp at ha2; exact ha2
          | cons z a =>
            exfalso
            simp only [List.cons_append, List.cons.injEq] at ha2
            rw [ha1, ← ha2.1] at h1
            simp at h1
      subst this
      cases hc with
      | cons rest =>
        generalize nxt e = z at rest
        cases rest <;> rfl
    rw [hn]
    have nd3 : (l1 ++ [q]).Nodup ∧ (∀ x ∈ l1 ++ [q], x ≠ e ∧ x ∉ l2) ∧ e ∉ l2 ∧ l2.Nodup := by
      rw [hsplit] at nd
      rw [List.nodup_append] at nd
      obtain ⟨n1, n2, n3⟩ := nd
      rw [List.nodup_cons] at n2
      refine ⟨n1, fun x hx => ⟨?_, ?_⟩, n2.1, n2.2⟩
      · rintro rfl
        exact n3 x hx x List.mem_cons_self rfl
      · intro h
        exact n3 x hx x (List.mem_cons_of_mem _ h) rfl
    obtain ⟨n1, n2, n3, n4⟩ := nd3
    have keep1 : ∀ x ∈ l1 ++ [q],
        Function.update (setPrev prev l2.head? (some q)) e none x = prev x := by
      intro x hx
      obtain ⟨a, b⟩ := n2 x hx
      cases l2 with
      | nil => simp [setPrev, a]
      | cons d l2 =>
        have : x ≠ d := by rintro rfl; exact b List.mem_cons_self
        simp [setPrev, a, this]
    have tail : ∀ z, PrevFrom prev z l2 →
        PrevFrom (Function.update (setPrev prev l2.head? (some q)) e none) q l2 := by
      intro z hz
      cases l2 with
      | nil => trivial
      | cons d l2 =>
        have hce : d ≠ e := by rintro rfl; exact n3 List.mem_cons_self
        refine ⟨by simp [setPrev, hce], prevFrom_congr hz.2 ?_⟩
        intro x hx
        have h1 : x ≠ e := by rintro rfl; exact n3 (List.mem_cons_of_mem _ hx)
        have h2 : x ≠ d := by rintro rfl; exact (List.nodup_cons.1 n4).1 hx
        simp [setPrev, h1, h2]
    cases l1 with
    | nil =>
      obtain ⟨h1, h2, h3⟩ := pv
      refine ⟨by rw [keep1 q (by simp)]; exact h1, tail _ h3⟩
    | cons a l1 =>
      obtain ⟨h1, h2⟩ := pv
      have h2' : PrevFrom prev a ((l1 ++ [q]) ++ e :: l2) := by simpa using h2
      obtain ⟨h3, h4, h5⟩ := prevFrom_append h2'
      refine ⟨by rw [keep1 a (by simp)]; exact h1, ?_⟩
      have : l1 ++ q :: l2 = (l1 ++ [q]) ++ l2 := by simp
      change PrevFrom _ a (l1 ++ q :: l2)
      rw [this]
      apply prevFrom_join
      · exact prevFrom_congr h3 fun x hx => keep1 x (by simp at hx ⊢; tauto)
      · simpa using tail _ h5

/-- The object represents the set `S` with priorities `pr`. -/
structure Rep (q : Pq α) (S : Finset α) (pr : α → Nat) (M : Nat → List α) : Prop where
  bucket : ∀ i (hi : i < q.bins.length), Bucket q.nxt q.prev q.bins[i] (M i)
  prio : ∀ i, i < q.bins.length → ∀ x ∈ M i, pr x = i
  mem : ∀ x, x ∈ S ↔ pr x < q.bins.length ∧ x ∈ M (pr x)
  fill : q.fill = S.card
  ends : ∀ x ∈ S, q.end ≤ pr x

variable {q : Pq α} {S : Finset α} {pr : α → Nat} {M : Nat → List α}

omit [DecidableEq α] in
theorem Rep.mem_bin (r : Rep q S pr M) {i : Nat} (hi : i < q.bins.length) {x : α} (hx : x ∈ M i) :
    x ∈ S := by
  rw [r.mem, r.prio i hi x hx]; exact ⟨hi, hx⟩

omit [DecidableEq α] in
theorem Rep.prev_isSome (r : Rep q S pr M) {x : α} (hx : x ∈ S) : (q.prev x).isSome := by
  obtain ⟨h1, h2⟩ := (r.mem x).1 hx
  exact prevOk_isSome (r.bucket _ h1).2 h2

omit [DecidableEq α] in
theorem rep_init (sz : Nat) (nxt : α → Option α) (pr : α → Nat) :
    Rep (init sz nxt) ∅ pr (fun _ => []) where
  bucket i hi := ⟨by simpa [init] using Chain.nil, trivial⟩
  prio i hi x hx := by simp at hx
  mem x := by simp
  fill := rfl
  ends x hx := by simp at hx

omit [DecidableEq α] in
theorem clear_rep (r : Rep q S pr M) : Rep (clear q) ∅ pr (fun _ => []) where
  bucket i hi := ⟨by simpa [clear] using Chain.nil, trivial⟩
  prio i hi x hx := by simp at hx
  mem x := by simp
  fill := rfl
  ends x hx := by simp at hx

theorem push_rep (r : Rep q S pr M) (e : α) (he : e ∉ S) (prio : Nat) (hp : prio < 2 ^ 31) :
    ∃ q' M', push q e prio = .ok q' ∧ Rep q' (insert e S) (Function.update pr e prio) M' ∧
      (∀ x, x ∉ S → x ≠ e → q'.prev x = q.prev x) := by
  -- first make room
  have room : ∃ bins M', (if prio ≥ q.bins.length then (newSize prio).bind (resize q.bins)
      else .ok q.bins) = .ok bins ∧ prio < bins.length ∧
      Rep ⟨bins, q.nxt, q.prev, q.fill, q.end⟩ S pr M' := by
    by_cases h : prio ≥ q.bins.length
    · have hs : ∃ s, newSize prio = .ok s ∧ prio < s := by
        unfold newSize
        by_cases h0 : prio = 0
        · exact ⟨1024, by simp [h0], by omega⟩
        · refine ⟨(prio + 1) * 3 / 2, ?_, by omega⟩
          rw [if_neg h0, Nat.mod_eq_of_lt (by omega)]
          simp only
          rw [if_pos (by omega)]
      obtain ⟨s, hs, hlt⟩ := hs
      refine ⟨q.bins ++ List.replicate (s - q.bins.length) none,
        fun i => if i < q.bins.length then M i else [], ?_, by simp; omega, ?_⟩
      · rw [if_pos h, hs, Outcome.bind_ok, resize, if_neg (by omega)]
      · refine ⟨?_, ?_, ?_, r.fill, r.ends⟩
        · intro i hi
          by_cases hlt : i < q.bins.length
          · simp only [hlt, if_true, List.getElem_append_left hlt]
            exact r.bucket i hlt
          · simp only [hlt, if_false]
            rw [List.getElem_append_right (by omega)]
            simp only [List.getElem_replicate]
            exact ⟨.nil, trivial⟩
        · intro i hi x hx
          by_cases hlt : i < q.bins.length
          · simp only [hlt, if_true] at hx
            exact r.prio i hlt x hx
          · simp only [hlt, if_false] at hx
            simp at hx
        · intro x
          rw [r.mem]
          by_cases hlt : pr x < q.bins.length
          · simp [hlt]; omega
          · simp [hlt]
    · exact ⟨q.bins, M, by rw [if_neg h], by omega, r⟩
  obtain ⟨bins, M1, e1, hlt, r1⟩ := room
  have hnot : ∀ i, i < bins.length → e ∉ M1 i := fun i hi h => he (r1.mem_bin hi h)
  -- the new prev pointers
  have hprev : ∀ x, x ≠ e → (∀ hd, bins[prio] = some hd → x ≠ hd) →
      Function.update (setPrev q.prev bins[prio] (some e)) e (some e) x = q.prev x := by
    intro x hxe hxh
    rw [Function.update_of_ne hxe]
    generalize bins[prio] = z at hxh
    cases z with
    | some hd => exact Function.update_of_ne (hxh hd rfl) _ _
    | none => rfl
  have hhd : ∀ hd, bins[prio] = some hd → hd ∈ M1 prio := by
    intro hd h
    have := (r1.bucket prio hlt).1
    simp only [h] at this
    exact this.head_mem
  refine ⟨⟨bins.set prio (some e), Function.update q.nxt e bins[prio],
      Function.update (setPrev q.prev bins[prio] (some e)) e (some e),
      q.fill + 1, if q.fill = 0 ∨ prio < q.end then prio else q.end⟩,
    Function.update M1 prio (e :: M1 prio), ?_, ?_, ?_⟩
  · rw [push, e1, Outcome.bind_ok, dif_pos hlt]
  · refine ⟨?_, ?_, ?_, ?_, ?_⟩
    · intro i hi
      have hi' : i < bins.length := by simpa using hi
      by_cases h : i = prio
      · subst h
        simp only [List.getElem_set_self, Function.update_self]
        obtain ⟨c, pv⟩ := r1.bucket i hlt
        simp only at c pv
        refine ⟨.cons ?_, ?_⟩
        · rw [Function.update_self]
          exact c.congr fun x hx => by
            rw [Function.update_of_ne]; rintro rfl; exact hnot _ hlt hx
        · refine ⟨by simp, ?_⟩
          revert c pv hprev hhd
          have nde := hnot i hlt
          generalize M1 i = l at nde
          intro hprev hhd c pv
          cases l with
          | nil => trivial
          | cons a l =>
            have hb : bins[i] = some a := by
              generalize bins[i] = z at c
              cases c
              rfl
            have nd := c.nodup
            rw [List.nodup_cons] at nd
            have hae : a ≠ e := by rintro rfl; exact nde List.mem_cons_self
            refine ⟨by simp [hb, hae, setPrev], prevFrom_congr pv.2 ?_⟩
            intro x hx
            apply hprev
            · rintro rfl; exact nde (List.mem_cons_of_mem _ hx)
            · intro hd hh
              rw [hb] at hh
              injection hh with hh
              subst hh
              rintro rfl
              exact nd.1 hx
      · rw [List.getElem_set_ne (by omega), Function.update_of_ne h]
        refine (r1.bucket i hi').congr ?_ ?_
        · intro x hx
          dsimp only; rw [Function.update_of_ne]
          rintro rfl
          exact hnot _ hi' hx
        · intro x hx
          apply hprev
          · rintro rfl
            exact hnot _ hi' hx
          · intro hd hh
            rintro rfl
            have h1 := r1.prio i hi' x hx
            have h2 := r1.prio prio hlt x (hhd x hh)
            omega
    · intro i hi x hx
      simp only [List.length_set] at hi
      by_cases h : i = prio
      · subst h
        simp only [Function.update_self, List.mem_cons] at hx
        rcases hx with rfl | hx
        · simp
        · rw [Function.update_of_ne (by rintro rfl; exact hnot _ hi hx)]
          exact r1.prio i hi x hx
      · rw [Function.update_of_ne h] at hx
        rw [Function.update_of_ne (by rintro rfl; exact hnot _ hi hx)]
        exact r1.prio i hi x hx
    · intro x
      simp only [List.length_set, Finset.mem_insert]
      by_cases hx : x = e
      · subst hx
        simp [hlt]
      · rw [Function.update_of_ne hx, r1.mem]
        simp only [hx, false_or]
        by_cases h : pr x = prio
        · rw [h]; simp [hx]
        · rw [Function.update_of_ne h]
    · simp only [r.fill]
      rw [Finset.card_insert_of_notMem he]
    · intro x hx
      simp only
      rw [Finset.mem_insert] at hx
      by_cases hxe : x = e
      · subst hxe
        rw [Function.update_self]
        split_ifs <;> omega
      · have hxS := hx.resolve_left hxe
        rw [Function.update_of_ne hxe]
        have := r.ends x hxS
        have hne : q.fill ≠ 0 := by
          rw [r.fill, ← Nat.pos_iff_ne_zero, Finset.card_pos]
          exact ⟨x, hxS⟩
        split_ifs <;> omega
  · intro x hxS hxe
    apply hprev x hxe
    rintro hd hh rfl
    exact hxS (r1.mem_bin hlt (hhd _ hh))

theorem seek_spec (bins : List (Option α)) (i : Nat) (h : ∃ j, i ≤ j ∧ ∃ x, bins[j]?.join = some x) :
    ∃ j x, seek bins i = .ok j ∧ i ≤ j ∧ bins[j]?.join = some x ∧ j < bins.length ∧
      ∀ k, i ≤ k → k < j → bins[k]?.join = none := by
  induction i using seek.induct (bins := bins) with
  | case1 i hi hn ih =>
    obtain ⟨j, hij, x, hx⟩ := h
    have hne : i ≠ j := by
      rintro rfl
      rw [List.getElem?_eq_getElem hi, hn] at hx
      simp at hx
    obtain ⟨j', x', e, h1, h2, h3, h4⟩ := ih ⟨j, by omega, x, hx⟩
    refine ⟨j', x', ?_, by omega, h2, h3, ?_⟩
    · rw [seek, dif_pos hi, if_pos hn]; exact e
    · intro k hk1 hk2
      by_cases hki : k = i
      · subst hki; rw [List.getElem?_eq_getElem hi, hn]; rfl
      · exact h4 k (by omega) hk2
  | case2 i hi hn =>
    obtain ⟨x, hx⟩ := Option.ne_none_iff_exists'.1 hn
    refine ⟨i, x, ?_, Nat.le_refl _, ?_, hi, ?_⟩
    · rw [seek, dif_pos hi, if_neg hn]
    · rw [List.getElem?_eq_getElem hi, hx]; rfl
    · intro k h1 h2; omega
  | case3 i hi =>
    obtain ⟨j, hij, x, hx⟩ := h
    rw [List.getElem?_eq_none (by omega)] at hx
    simp at hx

/-- Putting a shortened bucket back. -/
theorem rep_erase (r : Rep q S pr M) {i : Nat} (hi : i < q.bins.length) {x : α} {l1 l2 : List α}
    (hM : M i = l1 ++ x :: l2) {q' : Pq α}
    (hlen : q'.bins.length = q.bins.length)
    (hbi : ∀ h : i < q'.bins.length, Bucket q'.nxt q'.prev q'.bins[i] (l1 ++ l2))
    (hbj : ∀ j (h : j < q'.bins.length) (_ : j ≠ i), q'.bins[j] = q.bins[j]'(by omega))
    (hn : ∀ j, j < q.bins.length → j ≠ i → ∀ y ∈ M j, q'.nxt y = q.nxt y)
    (hp : ∀ j, j < q.bins.length → j ≠ i → ∀ y ∈ M j, q'.prev y = q.prev y)
    (hfill : q'.fill = q.fill - 1) (hends : ∀ y ∈ S, y ≠ x → q'.end ≤ pr y) :
    Rep q' (S.erase x) pr (Function.update M i (l1 ++ l2)) := by
  have hx : x ∈ M i := by rw [hM]; simp
  have hhx := r.prio i hi x hx
  have hxS := r.mem_bin hi hx
  refine ⟨?_, ?_, ?_, ?_, ?_⟩
  · intro j hj
    by_cases e : j = i
    · subst e
      rw [Function.update_self]
      exact hbi hj
    · rw [Function.update_of_ne e, hbj j hj e]
      exact (r.bucket j (by omega)).congr (hn j (by omega) e) (hp j (by omega) e)
  · intro j hj y hy
    rw [hlen] at hj
    by_cases e : j = i
    · subst e
      rw [Function.update_self] at hy
      apply r.prio j hj y
      rw [hM]
      simp only [List.mem_append, List.mem_cons] at hy ⊢
      tauto
    · rw [Function.update_of_ne e] at hy
      exact r.prio j hj y hy
  · intro y
    rw [hlen, Finset.mem_erase, r.mem]
    by_cases e : pr y = i
    · rw [e, Function.update_self, hM]
      have nd := (r.bucket i hi).1.nodup
      rw [hM] at nd
      have nd' := List.nodup_middle.1 nd
      rw [List.nodup_cons] at nd'
      simp only [List.mem_append, List.mem_cons] at nd' ⊢
      constructor
      · tauto
      · intro h
        refine ⟨?_, by tauto⟩
        rintro rfl
        exact nd'.1 h.2
    · rw [Function.update_of_ne e]
      constructor
      · exact fun h => h.2
      · intro h
        refine ⟨?_, h⟩
        rintro rfl
        exact e hhx
  · rw [hfill, r.fill, Finset.card_erase_of_mem hxS]
  · intro y hy
    rw [Finset.mem_erase] at hy
    exact hends y hy.2 hy.1

/-- The successor of a bucket element is in the same bucket. -/
theorem bucket_next_mem {nxt prev : α → Option α} {p : Option α} {l : List α} {e n : α}
    (h : Bucket nxt prev p l) (he : e ∈ l) (hn : nxt e = some n) : n ∈ l := by
  obtain ⟨l1, l2, rfl, c⟩ := h.1.suffix_of_mem he
  cases c with
  | cons rest =>
    rw [hn] at rest
    have := rest.head_mem
    simp [this]

theorem keep_prev (r : Rep q S pr M) {i j : Nat} (hi : i < q.bins.length) (hj : j < q.bins.length)
    (hji : j ≠ i) {e : α} (he : e ∈ M i) (v : Option α) {y : α} (hy : y ∈ M j) :
    Function.update (setPrev q.prev (q.nxt e) v) e none y = q.prev y := by
  have hpy := r.prio j hj y hy
  have hpe := r.prio i hi e he
  have hye : y ≠ e := by rintro rfl; omega
  rw [Function.update_of_ne hye]
  rcases hn : q.nxt e with _ | n
  · rfl
  · have hnM := bucket_next_mem (r.bucket i hi) he hn
    have hpn := r.prio i hi n hnM
    have hyn : y ≠ n := by rintro rfl; omega
    simp [setPrev, hyn]

/-- `prev` of objects outside the queue does not change by a removal. -/
theorem keep_prev_out (r : Rep q S pr M) {i : Nat} (hi : i < q.bins.length) {e : α} (he : e ∈ M i)
    (v : Option α) {y : α} (hy : y ∉ S) :
    Function.update (setPrev q.prev (q.nxt e) v) e none y = q.prev y := by
  have hye : y ≠ e := by rintro rfl; exact hy (r.mem_bin hi he)
  rw [Function.update_of_ne hye]
  rcases hn : q.nxt e with _ | n
  · rfl
  · have hnM := bucket_next_mem (r.bucket i hi) he hn
    have hyn : y ≠ n := by rintro rfl; exact hy (r.mem_bin hi hnM)
    simp [setPrev, hyn]

theorem pop_rep (r : Rep q S pr M) (hne : S.Nonempty) :
    ∃ q' e M', pop q = .ok (some e, q') ∧ e ∈ S ∧ (∀ x ∈ S, pr e ≤ pr x) ∧
      Rep q' (S.erase e) pr M' ∧ q'.prev e = none ∧ (∀ y, y ∉ S → q'.prev y = q.prev y) := by
  have hfill : q.fill ≠ 0 := by rw [r.fill, ← Nat.pos_iff_ne_zero, Finset.card_pos]; exact hne
  have hhead : ∀ x ∈ S, ∃ h, q.bins[pr x]?.join = some h := by
    intro x hx
    obtain ⟨h1, h2⟩ := (r.mem x).1 hx
    have c := (r.bucket _ h1).1
    rw [List.getElem?_eq_getElem h1, Option.join_some]
    rcases hb : q.bins[pr x] with _ | h
    · rw [hb] at c
      generalize M (pr x) = l at c h2
      cases c
      simp at h2
    · exact ⟨h, rfl⟩
  obtain ⟨x0, hx0⟩ := hne
  obtain ⟨i, e, hs, h1, h2, h3, h4⟩ := seek_spec q.bins q.end
    ⟨pr x0, r.ends x0 hx0, hhead x0 hx0⟩
  have hbi : q.bins[i] = some e := by
    rw [List.getElem?_eq_getElem h3, Option.join_some] at h2; exact h2
  obtain ⟨l, hM⟩ : ∃ l, M i = e :: l := by
    have c := (r.bucket i h3).1
    rw [hbi] at c
    generalize M i = l at c
    cases c with
    | cons rest => exact ⟨_, rfl⟩
  have heM : e ∈ M i := by rw [hM]; exact List.mem_cons_self
  have hpe := r.prio i h3 e heM
  have hleast : ∀ x ∈ S, i ≤ pr x := by
    intro x hx
    by_contra hlt
    obtain ⟨h, hh⟩ := hhead x hx
    rw [h4 (pr x) (r.ends x hx) (by omega)] at hh
    simp at hh
  refine ⟨⟨q.bins.set i (q.nxt e), q.nxt,
      Function.update (setPrev q.prev (q.nxt e) (q.nxt e)) e none, q.fill - 1, i⟩, e, _, ?_,
    r.mem_bin h3 heM, ?_, rep_erase r h3 (l1 := []) (l2 := l) hM ?_ ?_ ?_ ?_ ?_ ?_ ?_,
    ?_, ?_⟩
  · rw [pop, if_neg hfill, hs, Outcome.bind_ok]
    simp only [h2]
  · intro x hx; rw [hpe]; exact hleast x hx
  · simp
  · intro h
    simp only [List.getElem_set_self, List.nil_append]
    have b := r.bucket i h3
    rw [hM] at b
    exact bucket_rm_head b
  · intro j hj hji
    exact List.getElem_set_ne (by omega) _
  · intro j _ _ y _; rfl
  · intro j hj hji y hy
    exact keep_prev r h3 hj hji heM _ hy
  · rfl
  · intro y hy _
    exact hleast y hy
  · simp
  · intro y hy
    exact keep_prev_out r h3 heM _ hy

theorem rm_rep (r : Rep q S pr M) {e : α} (he : e ∈ S) :
    ∃ q' M', rm q e (pr e) = .ok q' ∧ Rep q' (S.erase e) pr M' ∧ q'.prev e = none ∧
      (∀ y, y ∉ S → q'.prev y = q.prev y) := by
  obtain ⟨hlt, heM⟩ := (r.mem e).1 he
  obtain ⟨l1, l2, hM⟩ := List.append_of_mem heM
  have b := r.bucket _ hlt
  rw [hM] at b
  rcases List.eq_nil_or_concat l1 with rfl | ⟨l1', p, rfl⟩
  · have hp : q.prev e = some e := b.2.1
    refine ⟨_, _, by rw [rm, hp]; simp only [if_true, hlt]; rfl,
      rep_erase r hlt hM (by simp) ?_ ?_ ?_ ?_ rfl ?_, by simp, ?_⟩
    · intro h
      simp only [List.getElem_set_self, List.nil_append]
      exact bucket_rm_head b
    · intro j hj hji
      exact List.getElem_set_ne (by omega) _
    · intro j _ _ y _; rfl
    · intro j hj hji y hy
      exact keep_prev r hlt hj hji heM _ hy
    · intro y hy _; exact r.ends y hy
    · intro y hy; exact keep_prev_out r hlt heM _ hy
  · simp only [List.concat_eq_append] at hM b
    have nd := b.1.nodup
    have hpe : p ≠ e := by
      rintro rfl
      simp [List.nodup_append] at nd
    have hp : q.prev e = some p := by
      cases l1' with
      | nil => exact b.2.2.1
      | cons a l1' =>
        have h2 := b.2.2
        obtain ⟨-, h4, -⟩ := prevFrom_append h2
        simpa using h4
    have b' : Bucket q.nxt q.prev q.bins[pr e] (l1' ++ p :: e :: l2) := by simpa using b
    refine ⟨⟨q.bins, Function.update q.nxt p (q.nxt e),
        Function.update (setPrev q.prev (q.nxt e) (some p)) e none, q.fill - 1, q.end⟩, _,
      by rw [rm, hp]; simp only [hpe, if_false],
      rep_erase r hlt hM rfl ?_ ?_ ?_ ?_ rfl ?_, by simp, ?_⟩
    · intro h
      have := bucket_rm_mid b'
      simpa using this
    · intro j hj _; rfl
    · intro j hj hji y hy
      simp only
      rw [Function.update_of_ne]
      rintro rfl
      have h1 := r.prio j hj y hy
      have h2 := r.prio _ hlt y (by rw [hM]; simp)
      omega
    · intro j hj hji y hy
      exact keep_prev r hlt hj hji heM _ hy
    · intro y hy _; exact r.ends y hy
    · intro y hy; exact keep_prev_out r hlt heM _ hy

end Verif.Intpq
