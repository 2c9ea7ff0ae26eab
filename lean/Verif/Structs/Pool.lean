import Verif.Outcome
import Verif.Structs.Chain

/-!
# Model of `Pool` (utils/pool.hpp)

A slot of storage is a pair (block, index).  The free list is intrusive: the link of a free
slot lives in the very bytes of the object, so the memory `link` may be overwritten by the
client while the slot is live (`write`).  `blk` is an `int` in the code that starts at -1 and is
0 after the constructor; the model does not bound the number of blocks.
-/

namespace Verif.Pool

abbrev Slot := Nat × Nat

structure Pool where
  blksz : Nat
  nxt : Nat
  freed : Option Slot
  blk : Nat
  /-- `blks.size()` -/
  nblks : Nat
  /-- the union `Ent` of every slot, read as a link -/
  link : Slot → Option Slot

/-- pool.hpp:55-62 `newblk`. -/
def newblk (p : Pool) : Pool :=
  { p with nxt := 0, blk := p.blk + 1,
           nblks := if p.nblks ≤ p.blk + 1 then p.nblks + 1 else p.nblks }

/-- pool.hpp:10-12, constructor (`blk` goes from -1 to 0 in `newblk`); `link` is the initial
garbage in memory. -/
def init (sz : Nat) (link : Slot → Option Slot) : Pool :=
  { blksz := sz, nxt := 0, freed := none, blk := 0, nblks := 1, link := link }

/-- pool.hpp:19-30 `get`.  Indexing a block beyond its end, or a block that does not exist, is
undefined. -/
def get (p : Pool) : Outcome (Slot × Pool) :=
  match p.freed with
  | some s => .ok (s, { p with freed := p.link s })
  | none =>
    let p := if p.nxt = p.blksz then newblk p else p
    if p.blk < p.nblks ∧ p.nxt < p.blksz then .ok ((p.blk, p.nxt), { p with nxt := p.nxt + 1 })
    else .ub

/-- pool.hpp:32-36 `put`. -/
def put (p : Pool) (o : Slot) : Pool :=
  { p with link := Function.update p.link o p.freed, freed := some o }

/-- The client (or `Obj`'s constructor/destructor, pool.hpp:38-46) writes into the storage of an
object; whatever it writes may be read back as a link. -/
def write (p : Pool) (o : Slot) (v : Option Slot) : Pool :=
  { p with link := Function.update p.link o v }

/-! ## Representation -/

/-- The slot was handed out at some time. -/
def Used (p : Pool) (s : Slot) : Prop :=
  s.2 < p.blksz ∧ (s.1 < p.blk ∨ s.1 = p.blk ∧ s.2 < p.nxt)

structure Rep (p : Pool) (live free : List Slot) : Prop where
  chain : Chain p.link p.freed free
  pos : 0 < p.blksz
  nxt : p.nxt ≤ p.blksz
  nblks : p.nblks = p.blk + 1
  used : ∀ s, s ∈ live ∨ s ∈ free ↔ Used p s
  nodup : live.Nodup
  disj : ∀ s ∈ live, s ∉ free
  count : p.blk * p.blksz + p.nxt = live.length + free.length

theorem rep_init {sz : Nat} (h : 0 < sz) (link : Slot → Option Slot) : Rep (init sz link) [] [] where
  chain := .nil
  pos := h
  nxt := Nat.zero_le _
  nblks := rfl
  used := by simp [Used, init]
  nodup := List.nodup_nil
  disj := by simp
  count := by simp [init]

theorem put_rep {p : Pool} {live free : List Slot} (r : Rep p live free) {o : Slot} (ho : o ∈ live) :
    Rep (put p o) (live.erase o) (o :: free) where
  chain := by
    refine .cons ?_
    simp only [put, Function.update_self]
    apply r.chain.congr
    intro x hx
    rw [Function.update_of_ne]
    rintro rfl
    exact r.disj _ ho hx
  pos := r.pos
  nxt := r.nxt
  nblks := r.nblks
  used := by
    intro s
    have : Used (put p o) s ↔ Used p s := Iff.rfl
    rw [this, ← r.used s, r.nodup.mem_erase_iff, List.mem_cons]
    by_cases e : s = o
    · subst e; simp [ho]
    · simp [e]
  nodup := r.nodup.erase _
  disj := by
    intro s hs
    rw [r.nodup.mem_erase_iff] at hs
    rw [List.mem_cons, not_or]
    exact ⟨hs.1, r.disj s hs.2⟩
  count := by
    have h1 := r.count
    have h2 := List.length_erase_of_mem ho
    have h3 := List.length_pos_of_mem ho
    simp only [put, List.length_cons]
    omega

theorem write_rep {p : Pool} {live free : List Slot} (r : Rep p live free) {o : Slot} (ho : o ∈ live)
    (v : Option Slot) : Rep (write p o v) live free where
  chain := by
    apply r.chain.congr
    intro x hx
    simp only [write]
    rw [Function.update_of_ne]
    rintro rfl
    exact r.disj _ ho hx
  pos := r.pos
  nxt := r.nxt
  nblks := r.nblks
  used := r.used
  nodup := r.nodup
  disj := r.disj
  count := r.count

/-- `get` from the free list. -/
theorem get_free {p : Pool} {live free : List Slot} (r : Rep p live free) (s : Slot) (l : List Slot)
    (hf : free = s :: l) :
    ∃ p', get p = .ok (s, p') ∧ Rep p' (s :: live) l ∧ s ∉ live ∧ s.1 < p'.nblks ∧
      s.2 < p'.blksz ∧ p'.blk * p'.blksz + p'.nxt = p.blk * p.blksz + p.nxt ∧ p'.blksz = p.blksz := by
  subst hf
  have hc := r.chain
  have hnd := hc.nodup
  rcases hfr : p.freed with _ | s'
  · rw [hfr] at hc; cases hc
  · rw [hfr] at hc
    cases hc with
    | cons rest =>
      have hsl : s ∉ live := fun h => r.disj s h List.mem_cons_self
      have hu : Used p s := (r.used s).1 (Or.inr List.mem_cons_self)
      refine ⟨{ p with freed := p.link s }, by simp [get, hfr], ⟨rest, r.pos, r.nxt, r.nblks, ?_, ?_, ?_, ?_⟩, hsl, ?_, hu.1, rfl, rfl⟩
      · intro t
        have : Used { p with freed := p.link s } t ↔ Used p t := Iff.rfl
        rw [this, ← r.used t]
        simp only [List.mem_cons]
        tauto
      · exact List.nodup_cons.2 ⟨hsl, r.nodup⟩
      · intro t ht htl
        rcases List.mem_cons.1 ht with rfl | h
        · exact (List.nodup_cons.1 hnd).1 htl
        · exact r.disj t h (List.mem_cons_of_mem _ htl)
      · have := r.count
        simp only [List.length_cons] at this ⊢
        omega
      · have := r.nblks
        have := hu.2
        show s.1 < p.nblks
        omega

/-- `get` of fresh storage. -/
theorem get_fresh {p : Pool} {live : List Slot} (r : Rep p live []) :
    ∃ s p', get p = .ok (s, p') ∧ Rep p' (s :: live) [] ∧ s ∉ live ∧ s.1 < p'.nblks ∧
      s.2 < p'.blksz ∧ p'.blksz = p.blksz := by
  have hfr : p.freed = none := by
    have := r.chain
    rcases h : p.freed with _ | s
    · rfl
    · rw [h] at this; cases this
  have hpos := r.pos
  have hnb := r.nblks
  have hn := r.nxt
  by_cases e : p.nxt = p.blksz
  · refine ⟨(p.blk + 1, 0), { p with nxt := 1, blk := p.blk + 1, nblks := p.nblks + 1 }, ?_, ⟨?_, hpos, hpos, by simp [hnb], ?_, ?_, by simp, ?_⟩, ?_, ?_, hpos, rfl⟩
    · simp [get, hfr, newblk, hnb, e, hpos]
    · simpa [hfr] using Chain.nil
    · rintro ⟨b, i⟩
      have := r.used (b, i)
      simp only [List.not_mem_nil, or_false, Used, List.mem_cons, Prod.mk.injEq] at this ⊢
      rw [this]
      simp only [e]
      constructor
      · rintro (⟨rfl, rfl⟩ | ⟨h1, h2⟩)
        · exact ⟨hpos, Or.inr ⟨rfl, Nat.one_pos⟩⟩
        · exact ⟨h1, Or.inl (by omega)⟩
      · rintro ⟨h1, h2⟩
        omega
    · refine List.nodup_cons.2 ⟨fun h => ?_, r.nodup⟩
      have := ((r.used _).1 (Or.inl h)).2
      simp at this
      omega
    · have := r.count
      simp only [List.length_nil, List.length_cons, Nat.add_zero] at this ⊢
      rw [Nat.succ_mul]
      omega
    · intro h
      have := ((r.used _).1 (Or.inl h)).2
      simp at this
      omega
    · simp [hnb]
  · refine ⟨(p.blk, p.nxt), { p with nxt := p.nxt + 1 }, ?_, ⟨?_, hpos, by simp; omega, hnb, ?_, ?_, by simp, ?_⟩, ?_, ?_, ?_, rfl⟩
    · simp [get, hfr, hnb, e]; omega
    · simpa [hfr] using Chain.nil
    · rintro ⟨b, i⟩
      have := r.used (b, i)
      simp only [List.not_mem_nil, or_false, Used, List.mem_cons, Prod.mk.injEq] at this ⊢
      rw [this]
      omega
    · refine List.nodup_cons.2 ⟨fun h => ?_, r.nodup⟩
      have := ((r.used _).1 (Or.inl h)).2
      simp at this
    · have := r.count
      simp only [List.length_nil, List.length_cons, Nat.add_zero] at this ⊢
      omega
    · intro h
      have := ((r.used _).1 (Or.inl h)).2
      simp at this
    · simp [hnb]
    · show p.nxt < p.blksz; omega

end Verif.Pool
