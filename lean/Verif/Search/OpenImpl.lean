import Verif.Props.HeapOpen
import Verif.Props.BucketOpen
import Verif.Search.Algs
import Mathlib.Data.Finset.Dedup

/-!
# The open lists of search/search.hpp behind one interface

The best-first searches are templates over `OpenList<Node, Node, Cost>` (astar.hpp:165), which is the binary heap of
search.hpp:96-143 or, when `Cost` is `int`, the bucketed list of search.hpp:151-260.  `OpenImpl` is the interface the
searches use, with nodes named by numbers.  The fields of the nodes that the list reads (`pred`, `prio`, `tieprio`) are
passed as `key`; the field `openind`, which it writes, is part of the list.  `OpenLaw` says what the searches rely on;
both lists satisfy it (`heap_law`, `bucket_law`).
-/

namespace Verif.Search

/-- The methods of `OpenList` (search.hpp:103-134, 212-259); `κ` are the priorities, `Q` the lists. -/
structure OpenImpl (κ Q : Type*) where
  init : Q
  push : (Nat → κ) → Q → Nat → Outcome Q
  pop : (Nat → κ) → Q → Outcome (Nat × Q)
  pre : (Nat → κ) → Q → Nat → Outcome Q
  post : (Nat → κ) → Q → Nat → Outcome Q
  mem : Q → Nat → Bool
  empty : Q → Bool
  /-- `clear`, after which all nodes are deleted (astar.hpp:88-91); new nodes have the index -1 (21-22) -/
  clear : Q → Q
  /-- `clear` while the nodes live on (beam.hpp:107): their indices are not touched -/
  drop : Q → Q

/-- What the searches rely on: `rep key q s` is an invariant under which `q` holds exactly the nodes `s`.  `Good` are
the priorities the list can store. -/
structure OpenLaw {κ Q : Type*} (lt : κ → κ → Bool) (Good : κ → Prop) (im : OpenImpl κ Q)
    (rep : (Nat → κ) → Q → Finset Nat → Prop) : Prop where
  init : ∀ key, rep key im.init ∅
  congr : ∀ key key' q s, rep key q s → (∀ n ∈ s, key' n = key n) → rep key' q s
  mem : ∀ key q s, rep key q s → ∀ n, im.mem q n = true ↔ n ∈ s
  empty : ∀ key q s, rep key q s → (im.empty q = true ↔ s = ∅)
  push : ∀ key q s n, rep key q s → n ∉ s → Good (key n) →
    ∃ q', im.push key q n = .ok q' ∧ rep key q' (insert n s)
  pop : ∀ key q s, rep key q s → s ≠ ∅ →
    ∃ n q', im.pop key q = .ok (n, q') ∧ n ∈ s ∧ (∀ m ∈ s, lt (key m) (key n) = false) ∧ rep key q' (s.erase n)
  clear : ∀ key q, rep key (im.clear q) ∅
  upd : ∀ key key' q s n, rep key q s → n ∈ s → s.card ≤ 2 ^ 32 → Good (key' n) → (∀ m, m ≠ n → key' m = key m) →
    ∃ q' q'', im.pre key q n = .ok q' ∧ im.post key' q' n = .ok q'' ∧ rep key' q'' s

/-- A list that is ordered more finely will do. -/
theorem OpenLaw.weaken {κ Q : Type*} {lt lt' : κ → κ → Bool} {Good : κ → Prop} {im : OpenImpl κ Q}
    {rep : (Nat → κ) → Q → Finset Nat → Prop} (h : OpenLaw lt Good im rep)
    (hle : ∀ x y, lt x y = false → lt' x y = false) : OpenLaw lt' Good im rep where
  init := h.init
  congr := h.congr
  mem := h.mem
  empty := h.empty
  push := h.push
  pop key q s hr hne := by
    obtain ⟨n, q', h1, h2, h3, h4⟩ := h.pop key q s hr hne
    exact ⟨n, q', h1, h2, fun m hm => hle _ _ (h3 m hm), h4⟩
  clear := h.clear
  upd := h.upd

/-! ## The binary heap -/

/-- search.hpp:96-143.  `pop` on an empty heap returns `NULL`, which the searches dereference.  Weighted A* uses a
`BinHeap` without `OpenList` around it (wastar.hpp:175); its `pushupdate` (binheap.hpp:65-70, wastar.hpp:147) is
`post_update`. -/
def heapImpl {κ : Type*} (lt : κ → κ → Bool) : OpenImpl κ (BinHeap.Heap Nat) where
  init := ⟨[], fun _ => -1⟩
  push key q n := .ok (BinHeap.push (BinHeap.predOf lt key) q n)
  pop key q :=
    match BinHeap.pop (BinHeap.predOf lt key) q with
    | (none, _) => .ub
    | (some n, q') => .ok (n, q')
  pre _ q _ := .ok q
  post key q n := BinHeap.openPostUpdate (BinHeap.predOf lt key) q n
  mem q n := BinHeap.openMem q n
  empty q := q.data.isEmpty
  clear q := ⟨(BinHeap.clear q).data, fun _ => -1⟩
  drop q := BinHeap.clear q

/-- The heap holds exactly `s`; nodes that are not in it carry the index -1. -/
structure HeapRep {κ : Type*} (lt : κ → κ → Bool) (key : Nat → κ) (q : BinHeap.Heap Nat) (s : Finset Nat) : Prop where
  inv : BinHeap.Inv lt ⟨q, key⟩
  set : q.data.toFinset = s
  absent : ∀ n, n ∉ q.data → q.ind n = -1

theorem HeapRep.mem {κ : Type*} {lt : κ → κ → Bool} {key : Nat → κ} {q : BinHeap.Heap Nat} {s : Finset Nat}
    (h : HeapRep lt key q s) {n : Nat} : n ∈ q.data ↔ n ∈ s := by
  rw [← h.set, List.mem_toFinset]

theorem HeapRep.card {κ : Type*} {lt : κ → κ → Bool} {key : Nat → κ} {q : BinHeap.Heap Nat} {s : Finset Nat}
    (h : HeapRep lt key q s) : q.data.length = s.card := by
  rw [← h.set, List.toFinset_card_of_nodup (BinHeap.indExact_nodup h.inv.indExact)]

theorem HeapRep.congr {κ : Type*} {lt : κ → κ → Bool} {key key' : Nat → κ} {q : BinHeap.Heap Nat} {s : Finset Nat}
    (h : HeapRep lt key q s) (hk : ∀ n ∈ s, key' n = key n) : HeapRep lt key' q s := by
  refine ⟨⟨?_, h.inv.indExact⟩, h.set, h.absent⟩
  intro j hj hj0
  have h0 := h.inv.ordered j hj hj0
  simp only [BinHeap.le, BinHeap.predOf] at h0 ⊢
  rw [hk _ (h.mem.1 (List.getElem_mem hj)), hk _ (h.mem.1 (List.getElem_mem (BinHeap.parent_lt hj)))]
  exact h0

theorem HeapRep.ind_nonneg {κ : Type*} {lt : κ → κ → Bool} {key : Nat → κ} {q : BinHeap.Heap Nat} {s : Finset Nat}
    (h : HeapRep lt key q s) {n : Nat} (hn : n ∈ s) : 0 ≤ q.ind n := by
  obtain ⟨i, hi, rfl⟩ := List.getElem_of_mem (h.mem.2 hn)
  have : q.ind q.data[i] = i := h.inv.indExact i hi
  omega

theorem heap_law {κ : Type*} {lt : κ → κ → Bool} (sw : BinHeap.StrictWeak lt) :
    OpenLaw lt (fun _ => True) (heapImpl lt) (HeapRep lt) where
  init key := ⟨⟨fun j hj => absurd hj (by simp [heapImpl]), fun j hj => absurd hj (by simp [heapImpl])⟩, rfl,
    fun _ _ => rfl⟩
  congr key key' q s h hk := h.congr hk
  clear key q := ⟨⟨fun j hj => absurd hj (by simp [heapImpl, BinHeap.clear]),
    fun j hj => absurd hj (by simp [heapImpl, BinHeap.clear])⟩, rfl, fun _ _ => rfl⟩
  mem key q s h n := by
    show BinHeap.openMem q n = true ↔ _
    rw [BinHeap.openMem, bne_iff_ne]
    constructor
    · intro hi
      by_contra hn
      exact hi (h.absent n fun hd => hn (h.mem.1 hd))
    · intro hn
      have := h.ind_nonneg hn
      omega
  empty key q s h := by
    show q.data.isEmpty = true ↔ _
    rw [List.isEmpty_iff, ← h.set, List.toFinset_eq_empty_iff]
  push key q s n h hn _ := by
    have hn' : n ∉ q.data := fun hd => hn (h.mem.1 hd)
    have e : Function.update key n (key n) = key := Function.update_eq_self n key
    have h1 := BinHeap.push_correct sw h.inv (key n) hn'
    have h2 := BinHeap.step_absent (lt := lt) (s := ⟨q, key⟩) (op := .push n (key n)) (by simp) rfl h.absent
    dsimp only at h1 h2
    rw [e] at h1 h2
    refine ⟨_, rfl, h1, ?_, h2⟩
    rw [← h.set, List.toFinset_eq_of_perm _ _ (BinHeap.push_perm _ _ _), List.toFinset_cons]
  pop key q s h hne := by
    obtain ⟨s', r, e, inv', sp⟩ := BinHeap.exec_refines sw h.inv .pop trivial
    have hab := BinHeap.step_absent (by simp) e h.absent
    simp only [BinHeap.exec, Outcome.ok.injEq, Prod.mk.injEq] at e
    obtain ⟨rfl, er⟩ := e
    cases r with
    | none =>
      have := (BinHeap.pop_none _ _).1 er
      exact absurd (by rw [← h.set, this]; rfl) hne
    | some n =>
      have hp := BinHeap.pop_perm _ _ _ er
      have hnd := BinHeap.indExact_nodup h.inv.indExact
      have hnd' := hp.nodup_iff.1 hnd
      refine ⟨n, (BinHeap.pop (BinHeap.predOf lt key) q).2, ?_, ?_, ?_, inv', ?_, hab⟩
      · show (match BinHeap.pop (BinHeap.predOf lt key) q with
          | (none, _) => Outcome.ub
          | (some n, q') => Outcome.ok (n, q')) = _
        rcases hpop : BinHeap.pop (BinHeap.predOf lt key) q with ⟨x, q'⟩
        rw [hpop] at er
        dsimp only at er
        rw [er]
      · exact h.mem.1 (hp.mem_iff.2 List.mem_cons_self)
      · intro m hm
        obtain ⟨j, hj, rfl⟩ := List.getElem_of_mem (h.mem.2 hm)
        obtain ⟨h0, e0⟩ := BinHeap.pop_head _ _ _ er
        have := BinHeap.ordered_root (BinHeap.strictWeak_predOf sw key) h.inv.ordered j hj
        rw [e0] at this
        exact this
      · ext m
        rw [List.mem_toFinset, Finset.mem_erase, ← h.mem, hp.mem_iff, List.mem_cons]
        constructor
        · intro hm
          exact ⟨fun hc => (List.nodup_cons.1 hnd').1 (hc ▸ hm), Or.inr hm⟩
        · rintro ⟨h1, h2 | h2⟩
          · exact absurd h2 h1
          · exact h2
  upd key key' q s n h hn _ _ hk := by
    have hn' : n ∈ q.data := h.mem.2 hn
    have e : Function.update key n (key' n) = key' := by
      funext m
      by_cases hm : m = n
      · rw [hm, Function.update_self]
      · rw [Function.update_of_ne hm, hk m hm]
    obtain ⟨q', h1, h2, h3⟩ := BinHeap.update_correct sw h.inv (key' n) hn'
    dsimp only at h1
    have h4 := BinHeap.step_absent (lt := lt) (s := ⟨q, key⟩) (op := .update n (key' n)) (r := none)
      (s' := ⟨q', Function.update key n (key' n)⟩) (by simp) (by simp only [BinHeap.exec, h1]; rfl) h.absent
    rw [e] at h1 h3
    refine ⟨q, q', rfl, ?_, h3, ?_, h4⟩
    · show BinHeap.openPostUpdate _ _ _ = _
      have := h.ind_nonneg hn
      rw [BinHeap.openPostUpdate, if_neg (by omega)]
      exact h1
    · rw [List.toFinset_eq_of_perm _ _ h2, h.set]

/-! ## The buckets -/

/-- The list with the fields `f` and `g` of the nodes as they are now. -/
def withKey (key : Nat → Int × Int) (q : BucketOpen.Open Nat) : BucketOpen.Open Nat :=
  { q with prio := fun n => (key n).1, tie := fun n => (key n).2 }

/-- search.hpp:151-260 with `prio` and `tieprio` of astar.hpp:46-52. -/
def bucketImpl : OpenImpl (Int × Int) (BucketOpen.Open Nat) where
  init := BucketOpen.init (fun _ => 0) (fun _ => 0)
  push key q n := BucketOpen.push (withKey key q) n
  pop key q := BucketOpen.pop (withKey key q)
  pre key q n := BucketOpen.preUpdate (withKey key q) n
  post key q n := BucketOpen.postUpdate (withKey key q) n
  mem q n := BucketOpen.mem q n
  empty q := BucketOpen.empty q
  clear q := { BucketOpen.clear q with ind := fun _ => -1 }
  drop q := BucketOpen.clear q

/-- The buckets hold exactly `s`; nodes that are not in them carry the index -1. -/
structure BucketRep (key : Nat → Int × Int) (q : BucketOpen.Open Nat) (s : Finset Nat) : Prop where
  rep : BucketOpen.Rep (withKey key q) s
  absent : ∀ n, n ∉ s → q.ind n = -1

/-- The order of the buckets: smaller priority, then larger tie-break priority. -/
def bucketLt (x y : Int × Int) : Bool := if x.1 = y.1 then decide (x.2 > y.2) else decide (x.1 < y.1)

theorem bucketRep_congr {o o' : BucketOpen.Open Nat} {s : Finset Nat} (r : BucketOpen.Rep o s) (h1 : o'.fill = o.fill)
    (h2 : o'.min = o.min) (h3 : o'.size = o.size) (h4 : o'.qs = o.qs) (h5 : o'.ind = o.ind)
    (hp : ∀ x ∈ s, o'.prio x = o.prio x) (ht : ∀ x ∈ s, o'.tie x = o.tie x) : BucketOpen.Rep o' s := by
  refine ⟨?_, ?_, ?_, h1.trans r.fill, ?_, ?_, by rw [h3, h4]; exact r.maxlt⟩
  · intro p' t' i x a1 a2 a3
    rw [h3] at a1
    rw [h4] at a2 a3
    obtain ⟨a, b, c, e⟩ := r.bk p' t' i x a1 a2 a3
    exact ⟨a, by rw [← b]; exact hp x a, by rw [← c]; exact ht x a, by rw [h5]; exact e⟩
  · intro x hx
    obtain ⟨p', t', i, a1, a2, a3, a4, a5⟩ := r.loc x hx
    rw [h3, h4]
    exact ⟨p', t', i, a1, a2, (hp x hx).trans a3, (ht x hx).trans a4, a5⟩
  · intro p' hp'
    rw [h3] at hp'
    rw [h4]
    refine (r.qfill p' hp').trans ?_
    congr 1
    apply Finset.filter_congr
    intro x hx
    rw [hp x hx]
  · intro x hx
    rw [hp x hx, h2]; exact r.min x hx
  · intro x hx p' h
    rw [hp x hx] at h
    rw [ht x hx, h4]
    exact r.max x hx p' h

theorem bucket_law : OpenLaw bucketLt (fun k => 0 ≤ k.1 ∧ 0 ≤ k.2) bucketImpl BucketRep where
  init key := ⟨BucketOpen.rep_init _ _, fun _ _ => rfl⟩
  clear key q := by
    refine ⟨⟨?_, by simp, ?_, rfl, by simp, by simp, ?_⟩, fun _ _ => rfl⟩
    · intro p t i n h; exact absurd h (Nat.not_lt_zero _)
    · intro p h; exact absurd h (Nat.not_lt_zero _)
    · intro p h; exact absurd h (Nat.not_lt_zero _)
  congr key key' q s h hk :=
    ⟨bucketRep_congr h.rep rfl rfl rfl rfl rfl (fun x hx => congrArg Prod.fst (hk x hx))
      (fun x hx => congrArg Prod.snd (hk x hx)), h.absent⟩
  mem key q s h n := by
    show decide (0 ≤ q.ind n) = true ↔ _
    rw [decide_eq_true_eq]
    constructor
    · intro hi
      by_contra hn
      rw [h.absent n hn] at hi
      omega
    · intro hn
      exact BucketOpen.ind_nonneg h.rep hn
  empty key q s h := by
    show (q.fill == 0) = true ↔ _
    have : q.fill = s.card := h.rep.fill
    rw [this, beq_iff_eq, Finset.card_eq_zero]
  push key q s n h hn hg := by
    obtain ⟨q', h1, h2, h3, h4, h5, h6⟩ := BucketOpen.push_rep h.rep n hn hg.1 hg.2
    refine ⟨q', h1, bucketRep_congr h2 rfl rfl rfl rfl rfl (fun x _ => ?_) (fun x _ => ?_), fun x hx => ?_⟩
    · rw [h3]; rfl
    · rw [h4]; rfl
    · rw [Finset.mem_insert, not_or] at hx
      rw [h6 x hx.1]
      exact h.absent x hx.2
  pop key q s h hne := by
    obtain ⟨q', n, h1, h2, h3, h4, h5, h6, h7, h8, h9⟩ :=
      BucketOpen.pop_rep h.rep (Finset.nonempty_iff_ne_empty.2 hne)
    refine ⟨n, q', h1, h2, fun m hm => ?_,
      bucketRep_congr h5 rfl rfl rfl rfl rfl (fun x _ => ?_) (fun x _ => ?_), fun x hx => ?_⟩
    · have a1 : (key n).1 ≤ (key m).1 := h3 m hm
      have a2 : (key m).1 = (key n).1 → (key m).2 ≤ (key n).2 := h4 m hm
      unfold bucketLt
      by_cases e : (key m).1 = (key n).1
      · rw [if_pos e, decide_eq_false_iff_not]
        have := a2 e
        omega
      · rw [if_neg e, decide_eq_false_iff_not]
        omega
    · rw [h8]; rfl
    · rw [h9]; rfl
    · by_cases hxn : x = n
      · rw [hxn]; exact h6
      · have hxs : x ∉ s := fun hc => hx (Finset.mem_erase.2 ⟨hxn, hc⟩)
        rw [h7 x hxs]
        exact h.absent x hxs
  upd key key' q s n h hn _ hg hk := by
    obtain ⟨q1, h1, h2, h3, h4, h5, h6⟩ := BucketOpen.preUpdate_rep h.rep hn
    have r1 : BucketOpen.Rep (withKey key' q1) (s.erase n) := by
      refine bucketRep_congr h2 rfl rfl rfl rfl rfl (fun x hx => ?_) (fun x hx => ?_)
      · rw [h5]; exact congrArg Prod.fst (hk x (Finset.ne_of_mem_erase hx))
      · rw [h6]; exact congrArg Prod.snd (hk x (Finset.ne_of_mem_erase hx))
    obtain ⟨q2, e1, e2, e3, e4, e5, e6⟩ := BucketOpen.push_rep r1 n (Finset.notMem_erase n s) hg.1 hg.2
    rw [Finset.insert_erase hn] at e2
    refine ⟨q1, q2, h1, ?_, bucketRep_congr e2 rfl rfl rfl rfl rfl (fun x _ => ?_) (fun x _ => ?_), fun x hx => ?_⟩
    · show BucketOpen.postUpdate (withKey key' q1) n = _
      rw [BucketOpen.postUpdate, if_pos (by show q1.ind n < 0; omega)]
      exact e1
    · rw [e3]; rfl
    · rw [e4]; rfl
    · have hxn : x ≠ n := fun hc => hx (hc ▸ hn)
      rw [e6 x hxn]
      show q1.ind x = -1
      rw [h4 x hx]
      exact h.absent x hx

end Verif.Search
