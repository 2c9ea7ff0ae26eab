import Verif.Search.Beam

/-!
# Beam search: safety, termination, completeness of wide beams

The open list of beam search forgets nodes, so its states are not those of best-first search.  But they become such
when more nodes are marked as open (`flag`): those that are dropped, or, when none is dropped, those of the beam.
-/

namespace Verif.Search

variable {S O C P Q : Type*}

/-- Other open nodes. -/
def flag (f : Nat → Bool) (r : Nat) (st : St S O C P) : St S O C P :=
  { st with nd := fun i => { st.nd i with isopen := f i }, reopnd := r }

section Flags
variable [DecidableEq S] [DecidableEq O] [AddCommGroup C] [LinearOrder C] [IsOrderedAddMonoid C]
  {d : Dom S O C} {a : Alg S C P} {s0 : S}

theorem flag_considerkid (f : Nat → Bool) (r n : Nat) (o : O) (st : St S O C P) :
    ∃ (W : Nat → Bool) (r' : Nat), considerkid d a n o (flag f r st) = flag (fun i => f i || W i) r' (considerkid d a n o st) ∧
      ∀ i, ((considerkid d a n o st).nd i).isopen = ((st.nd i).isopen || W i) := by
  unfold considerkid flag
  dsimp only
  cases hc : st.closed (d.app (st.nd n).state o) with
  | some k =>
    dsimp only
    by_cases hg : a.dropdups = true ∨ (st.nd k).g ≤ (st.nd n).g + d.cost (st.nd n).state o
    · rw [if_pos hg, if_pos hg]
      exact ⟨fun _ => false, r, by simp, fun i => by simp⟩
    · rw [if_neg hg, if_neg hg]
      refine ⟨fun i => decide (i = k), if f k = true then r else r + 1, ?_, fun i => ?_⟩
      · dsimp only
        congr 1
        funext i
        by_cases hi : i = k
        · subst hi; simp
        · simp [hi]
      · dsimp only
        by_cases hi : i = k
        · subst hi; simp
        · simp [hi]
  | none =>
    dsimp only
    refine ⟨fun i => decide (i = st.next), r, ?_, fun i => ?_⟩
    · congr 1
      funext i
      by_cases hi : i = st.next
      · subst hi; simp
      · simp [hi]
    · by_cases hi : i = st.next
      · subst hi; simp
      · simp [hi]

theorem flag_tryop (f : Nat → Bool) (r n : Nat) (o : O) (st : St S O C P) :
    ∃ (W : Nat → Bool) (r' : Nat), tryop d a n (flag f r st) o = flag (fun i => f i || W i) r' (tryop d a n st o) ∧
      ∀ i, ((tryop d a n st o).nd i).isopen = ((st.nd i).isopen || W i) := by
  unfold tryop
  have e : ((flag f r st).nd n).pop = (st.nd n).pop := rfl
  rw [e]
  by_cases hp : o = (st.nd n).pop
  · rw [if_pos hp, if_pos hp]
    exact ⟨fun _ => false, r, by simp, fun i => by simp⟩
  · rw [if_neg hp, if_neg hp]
    exact flag_considerkid f r n o { st with gend := st.gend + 1 }

theorem flag_fold (os : List O) (f : Nat → Bool) (r n : Nat) (st : St S O C P) :
    ∃ (W : Nat → Bool) (r' : Nat), os.foldl (tryop d a n) (flag f r st) = flag (fun i => f i || W i) r' (os.foldl (tryop d a n) st) ∧
      ∀ i, ((os.foldl (tryop d a n) st).nd i).isopen = ((st.nd i).isopen || W i) := by
  induction os generalizing f r st with
  | nil => exact ⟨fun _ => false, r, by simp, fun i => by simp⟩
  | cons o os ih =>
    obtain ⟨W, r', e1, e2⟩ := flag_tryop (d := d) (a := a) f r n o st
    obtain ⟨W', r'', e3, e4⟩ := ih (fun i => f i || W i) r' (tryop d a n st o)
    refine ⟨fun i => W i || W' i, r'', ?_, fun i => ?_⟩
    · rw [List.foldl_cons, List.foldl_cons, e1, e3]
      simp only [Bool.or_assoc]
    · rw [List.foldl_cons, e4, e2, Bool.or_assoc]

theorem flag_expand (f : Nat → Bool) (r n : Nat) (st : St S O C P) :
    ∃ (W : Nat → Bool) (r' : Nat), expand d a n (flag f r st) = flag (fun i => f i || W i) r' (expand d a n st) ∧
      ∀ i, ((expand d a n st).nd i).isopen = ((st.nd i).isopen || W i) :=
  flag_fold _ f r n { st with expd := st.expd + 1 }

theorem flag_pop (f : Nat → Bool) (r n : Nat) (st : St S O C P) :
    pop n (flag f r st) = flag (Function.update f n false) r st := by
  unfold pop flag
  dsimp only
  congr 1
  funext i
  by_cases hi : i = n
  · subst hi; simp
  · simp [hi]

/-- The invariant stays when more nodes are open. -/
theorem Inv.flags {f f' : Nat → Bool} {r r' : Nat} {st : St S O C P} (h : Inv d a s0 (flag f r st))
    (hf : ∀ i < st.next, f i = true → f' i = true) : Inv d a s0 (flag f' r' st) := by
  have hf' : ∀ i < st.next, f' i = false → f i = false := fun i hn hi => by
    by_contra hc
    rw [Bool.not_eq_false] at hc
    rw [hf i hn hc] at hi
    exact absurd hi (by simp)
  refine ⟨h.pos, h.root, h.cl1, h.cl2, h.par, ?_, h.prio, h.walk, fun i hi ho => h.exp i hi (hf' i hi ho),
    fun i hi ho => h.ngoal i hi (hf' i hi ho)⟩
  intro i hi
  exact Rooted.congr (nd := (flag f r st).nd) (nd' := (flag f' r' st).nd) (next := st.next) (inv_par (st := flag f r st) h) (fun _ _ => rfl) hi (h.rooted i hi)

theorem Inv.flag1 {st : St S O C P} (h : Inv d a s0 st) : Inv d a s0 (flag (fun i => (st.nd i).isopen) 0 st) :=
  Inv.flags (f := fun i => (st.nd i).isopen) (r := st.reopnd) h fun _ _ h => h

theorem tryop_cl {st : St S O C P} {n : Nat} {o : O} (hcl : ∀ s i, st.closed s = some i → i < st.next) :
    ∀ s i, (tryop d a n st o).closed s = some i → i < (tryop d a n st o).next := by
  unfold tryop
  split
  · exact hcl
  · unfold considerkid
    dsimp only
    cases hc : st.closed (d.app (st.nd n).state o) with
    | some k =>
      dsimp only
      split
      · exact hcl
      · exact hcl
    | none =>
      dsimp only
      intro s i h
      by_cases hs : s = d.app (st.nd n).state o
      · rw [hs, Function.update_self] at h
        injection h with h
        omega
      · rw [Function.update_of_ne hs] at h
        exact Nat.lt_succ_of_lt (hcl s i h)

theorem prog_expand {st : St S O C P} {n : Nat} (hcl : ∀ s i, st.closed s = some i → i < st.next) :
    Prog st (expand d a n st) := by
  have hfold : ∀ (os : List O) (st : St S O C P), (∀ s i, st.closed s = some i → i < st.next) →
      Prog st (os.foldl (tryop d a n) st) := by
    intro os
    induction os with
    | nil => exact fun st _ => .refl st
    | cons o os ih => exact fun st h => (prog_tryop h).trans (ih _ (tryop_cl h))
  have h0 : Prog st { st with expd := st.expd + 1 } := ⟨fun _ _ h => ⟨h, le_rfl⟩, Or.inl ⟨rfl, rfl, rfl⟩⟩
  exact h0.trans (hfold _ _ hcl)

theorem gmap_flag (f : Nat → Bool) (r : Nat) (st : St S O C P) : gmap d s0 (flag f r st) = gmap d s0 st := rfl

theorem gmap_flags {f f' : Nat → Bool} {r r' : Nat} {st st' : St S O C P} (h : Inv d a s0 (flag f r st))
    (h' : Inv d a s0 (flag f' r' st')) (hp : Prog st st') :
    gmap d s0 st' < gmap d s0 st ∨ (st'.nd = st.nd ∧ st'.next = st.next ∧ st'.closed = st.closed) := by
  rcases hp.2 with e | ⟨s, hs⟩
  · exact Or.inr e
  · left
    have hp' : Prog (flag f r st) (flag f' r' st') := ⟨hp.1, Or.inr ⟨s, hs⟩⟩
    rcases gmap_prog hp' h h' with hlt | ⟨e1, -, e3⟩
    · exact hlt
    · exfalso
      rcases hs with ⟨f1, f2⟩ | ⟨k, f1, f2⟩
      · exact f2 (by have : st'.closed = st.closed := e3
                     rw [this]; exact f1)
      · have : ((flag f' r' st').nd k).g = ((flag f r st).nd k).g := by rw [e1]
        have : (st'.nd k).g = (st.nd k).g := this
        rw [this] at f2
        exact lt_irrefl _ f2

end Flags

section Refine
variable [DecidableEq S] [DecidableEq O] [AddCommGroup C] [LinearOrder C] [IsOrderedAddMonoid C]
  {d : Dom S O C} {a : Alg S C P} {s0 : S} {im : OpenImpl (P × C) Q} {Good : P × C → Prop}
  {rep : (Nat → P × C) → Q → Finset Nat → Prop} {hash : S → Nat} {lt : P × C → P × C → Bool}

/-- What the first loop returns: the nodes of the beam, best first; nothing that stays in the list precedes them. -/
theorem bpops_rep (law : OpenLaw lt Good im rep) {key : Nat → P × C} (w : Nat) {q : Q} {s : Finset Nat}
    (hq : rep key q s) :
    ∃ ns q', bpops im key w q = .ok (ns, q') ∧ ns.Nodup ∧ (∀ n ∈ ns, n ∈ s) ∧ ns.length = min w s.card ∧
      rep key q' (s.filter fun n => n ∉ ns) ∧
      (∀ n ∈ ns, ∀ m ∈ s, m ∉ ns → lt (key m) (key n) = false) ∧
      ns.Pairwise fun n m => lt (key m) (key n) = false := by
  induction w generalizing q s with
  | zero => exact ⟨[], q, rfl, List.nodup_nil, by simp, by simp, by simpa using hq, by simp, .nil⟩
  | succ w ih =>
    rw [bpops]
    by_cases he : im.empty q = true
    · rw [if_pos he]
      have := (law.empty _ _ _ hq).1 he
      subst this
      exact ⟨[], q, rfl, List.nodup_nil, by simp, by simp, by simpa using hq, by simp, .nil⟩
    · rw [if_neg he]
      obtain ⟨n, q1, h1, h2, h3, h4⟩ := law.pop key q s hq fun h => he ((law.empty _ _ _ hq).2 h)
      obtain ⟨ns, q', e1, e2, e3, e4, e5, e6, e7⟩ := ih h4
      refine ⟨n :: ns, q', ?_, ?_, ?_, ?_, ?_, ?_, ?_⟩
      · rw [h1, Outcome.bind_ok]
        dsimp only
        rw [e1]
        rfl
      · exact List.nodup_cons.2 ⟨fun h => Finset.ne_of_mem_erase (e3 n h) rfl, e2⟩
      · intro m hm
        rcases List.mem_cons.1 hm with rfl | hm
        · exact h2
        · exact Finset.mem_of_mem_erase (e3 m hm)
      · rw [List.length_cons, e4, Finset.card_erase_of_mem h2]
        have := Finset.card_pos.2 ⟨n, h2⟩
        omega
      · have : (s.filter fun m => m ∉ n :: ns) = (s.erase n).filter fun m => m ∉ ns := by
          ext m
          simp only [Finset.mem_filter, Finset.mem_erase, List.mem_cons, not_or]
          tauto
        rw [this]
        exact e5
      · intro m hm k hk hkn
        rw [List.mem_cons, not_or] at hkn
        rcases List.mem_cons.1 hm with rfl | hm
        · exact h3 k hk
        · exact e6 m hm k (Finset.mem_erase.2 ⟨hkn.1, hk⟩) hkn.2
      · exact List.pairwise_cons.2 ⟨fun m hm => h3 m (Finset.mem_of_mem_erase (e3 m hm)), e7⟩

/-- Other open nodes in the concrete state. -/
theorem Ref.flag {c : CSt S O C P Q} {st : St S O C P} (r : Ref d a s0 rep hash c st) {q : Q} (f : Nat → Bool)
    (hq : rep (keyOf c.nd) q (opens (flag f st.reopnd st))) :
    Ref d a s0 rep hash { c with q := q } (flag f st.reopnd st) :=
  ⟨r.next, r.expd, r.gend, r.dups, r.reopnd, r.nd, hq, r.tab, r.fill, r.closed, r.prio, r.walk⟩

/-- The relation kept by the loops while the nodes `ns` are still to be expanded. -/
structure Bm (d : Dom S O C) (a : Alg S C P) (s0 : S) (rep : (Nat → P × C) → Q → Finset Nat → Prop) (hash : S → Nat)
    (wide : Prop) (ns : List Nat) (c : CSt S O C P Q) (st : St S O C P) (f : Nat → Bool) : Prop where
  ref : Ref d a s0 rep hash c st
  inv : Inv d a s0 (Search.flag f 0 st)
  sub : ∀ i, (st.nd i).isopen = true → f i = true
  all : wide → ∀ i, f i = true → (st.nd i).isopen = true ∨ i ∈ ns
  lt : ∀ n ∈ ns, n < st.next

theorem Bm.solpath {wide : Prop} {ns : List Nat} {c : CSt S O C P Q} {st : St S O C P} {f : Nat → Bool}
    (b : Bm d a s0 rep hash wide ns c st f) {n : Nat} (hn : n < st.next) (fuel : Nat) :
    csolpath c.nd fuel n = Search.solpath (Search.flag f 0 st).nd fuel n := by
  have hpar := inv_par b.inv
  induction fuel generalizing n with
  | zero => rfl
  | succ fuel ih =>
    unfold csolpath Search.solpath
    rw [b.ref.nd n hn]
    show (match (st.nd n).parent with | none => _ | some m => _) =
      (match (st.nd n).parent with | none => _ | some m => _)
    cases hp : (st.nd n).parent with
    | none => rfl
    | some m =>
      dsimp only
      rw [ih (hpar n hn m hp)]
      rfl

theorem Bm.expand (law : OpenLaw lt Good im rep) (hd : CostOk d s0) (ha : AlgOk a)
    (hgood : ∀ s g, Walk d s0 s g → Good (a.initp g s, g))
    (hb : ∀ (c : CSt S O C P Q) (st : St S O C P), Ref d a s0 rep hash c st → st.next ≤ 2 ^ 29)
    {wide : Prop} {n : Nat} {ns : List Nat} {c : CSt S O C P Q} {st : St S O C P} {f : Nat → Bool}
    (b : Bm d a s0 rep hash wide (n :: ns) c st f) (hg : d.goal (st.nd n).state = false) :
    ∃ c' st' f', cexpand d a im hash n c = .ok c' ∧ Bm d a s0 rep hash wide ns c' st' f' ∧
      (gmap d s0 st' < gmap d s0 st ∨ gmap d s0 st' = gmap d s0 st ∧ opens st' = opens st) := by
  have hn := b.lt n List.mem_cons_self
  have es : (c.nd n).state = (st.nd n).state := by rw [b.ref.nd n hn]
  obtain ⟨c', h1, r1⟩ := tryops_ok law ha hgood hb (d.ops (st.nd n).state) b.ref.expd1 (n := n) hn (fun o ho => ho)
  have r1 : Ref d a s0 rep hash c' (Search.expand d a n st) := r1
  have i1 := b.inv.expand hd ha (n := n) hn hg
  rw [flag_pop] at i1
  obtain ⟨W, r', e1, e2⟩ := flag_expand (d := d) (a := a) (Function.update f n false) 0 n st
  rw [e1] at i1
  have i2 : Inv d a s0 (Search.flag (fun i => (Function.update f n false i || W i) ||
      ((Search.expand d a n st).nd i).isopen) 0 (Search.expand d a n st)) :=
    i1.flags fun i _ hi => by rw [hi]; rfl
  have hp : Prog st (Search.expand d a n st) := prog_expand (fun s i hi => ((b.ref.closed s i).1 hi).1)
  have hnx : st.next ≤ (Search.expand d a n st).next := by
    have : (Search.expand d a n st).next = c'.next := r1.next.symm
    rw [this, ← b.ref.next]
    have := ctryops_next _ h1
    exact this
  refine ⟨c', Search.expand d a n st, _, ?_, ⟨r1, i2, ?_, ?_, ?_⟩, ?_⟩
  · unfold cexpand
    rw [es]
    exact h1
  · intro i hi
    rw [hi, Bool.or_true]
  · intro hw i hf
    rw [e2]
    rw [e2] at hf
    by_cases hW : W i = true
    · left; rw [hW, Bool.or_true]
    · by_cases ho : (st.nd i).isopen = true
      · left; rw [ho, Bool.true_or]
      · rw [Bool.not_eq_true] at hW ho
        rw [hW, ho, Bool.or_false, Bool.or_false, Bool.or_false] at hf
        by_cases hin : i = n
        · rw [hin, Function.update_self] at hf
          exact absurd hf (by simp)
        · rw [Function.update_of_ne hin] at hf
          rcases b.all hw i hf with h | h
          · rw [ho] at h; exact absurd h (by simp)
          · exact Or.inr ((List.mem_cons.1 h).resolve_left hin)
  · intro m hm
    exact lt_of_lt_of_le (b.lt m (List.mem_cons_of_mem _ hm)) hnx
  · rcases gmap_flags b.inv i2 hp with h | ⟨g1, g2, g3⟩
    · exact Or.inl h
    · right
      refine ⟨?_, ?_⟩
      · funext s
        unfold gmap
        rw [g3, g1]
      · unfold opens
        rw [g1, g2]

/-- The second loop, on a beam `ns`. -/
theorem bbeam_step (law : OpenLaw lt Good im rep) (hd : CostOk d s0) (ha : AlgOk a)
    (hgood : ∀ s g, Walk d s0 s g → Good (a.initp g s, g))
    (hb : ∀ (c : CSt S O C P Q) (st : St S O C P), Ref d a s0 rep hash c st → st.next ≤ 2 ^ 29)
    {l : Limit} {timer : Nat → Bool} {wide : Prop} (ns : List Nat) {c : CSt S O C P Q} {st : St S O C P}
    {f : Nat → Bool} (b : Bm d a s0 rep hash wide ns c st f) :
    (∃ c', climit l timer c' = true ∧ (∀ fuel, bbeam d a im hash l timer fuel ns c = .ok (c', none))) ∨
    (∃ c' st' n, n < st'.next ∧ Inv d a s0 st' ∧ c'.next = st'.next ∧ d.goal (st'.nd n).state = true ∧
      ∀ fuel, bbeam d a im hash l timer fuel ns c = (solpath st'.nd fuel n).map fun p => (c', some p)) ∨
    ∃ c' st' f', Bm d a s0 rep hash wide [] c' st' f' ∧
      (gmap d s0 st' < gmap d s0 st ∨ gmap d s0 st' = gmap d s0 st ∧ opens st' = opens st) ∧
      ∀ fuel, bbeam d a im hash l timer fuel ns c = .ok (c', none) := by
  induction ns generalizing c st f with
  | nil => exact Or.inr (Or.inr ⟨c, st, f, b, Or.inr ⟨rfl, rfl⟩, fun _ => rfl⟩)
  | cons n ns ih =>
    have hn := b.lt n List.mem_cons_self
    have es : (c.nd n).state = (st.nd n).state := by rw [b.ref.nd n hn]
    by_cases hl : climit l timer c = true
    · left
      exact ⟨c, hl, fun fuel => by rw [bbeam, if_pos hl]⟩
    · by_cases hg : d.goal (st.nd n).state = true
      · right; left
        refine ⟨c, flag f 0 st, n, hn, b.inv, b.ref.next, hg, fun fuel => ?_⟩
        rw [bbeam, if_neg hl, es, if_pos hg, b.solpath hn]
      · obtain ⟨c1, st1, f1, e1, b1, m1⟩ := b.expand law hd ha hgood hb (by simpa using hg)
        have e : ∀ fuel, bbeam d a im hash l timer fuel (n :: ns) c = bbeam d a im hash l timer fuel ns c1 := by
          intro fuel
          rw [bbeam, if_neg hl, es, if_neg hg, e1, Outcome.bind_ok]
        simp only [e]
        rcases ih b1 with h | h | ⟨c', st', f', h1, h2, h3⟩
        · exact Or.inl h
        · exact Or.inr (Or.inl h)
        · refine Or.inr (Or.inr ⟨c', st', f', h1, ?_, h3⟩)
          rcases m1 with m1 | ⟨m1, m1'⟩
          · left
            rcases h2 with h2 | ⟨h2, -⟩
            · exact lt_trans h2 m1
            · rw [h2]; exact m1
          · rw [m1, m1'] at h2; exact h2

/-- One iteration of the main loop.  `D` are the sets of nodes after which `drop` leaves the list in order. -/
theorem brun_step (law : OpenLaw lt Good im rep) (hd : CostOk d s0) (ha : AlgOk a)
    (hgood : ∀ s g, Walk d s0 s g → Good (a.initp g s, g))
    (hb : ∀ (c : CSt S O C P Q) (st : St S O C P), Ref d a s0 rep hash c st → st.next ≤ 2 ^ 29)
    {l : Limit} {timer : Nat → Bool} {w : Nat} {wide : Prop}
    (hwide : wide → ∀ (c : CSt S O C P Q) (st : St S O C P), Ref d a s0 rep hash c st → st.next ≤ w)
    {D : Finset Nat → Prop} (hdrop : ∀ key q s, rep key q s → D s → rep key (im.drop q) ∅)
    (hD : (∀ s, D s) ∨ wide ∧ D ∅) {c : CSt S O C P Q} {st : St S O C P}
    {f : Nat → Bool} (b : Bm d a s0 rep hash wide [] c st f) :
    (opens st = ∅ ∨ climit l timer c = true) ∧
      (∀ fuel, brun d a im hash l timer w (fuel + 1) c = .ok (c, ([], []))) ∨
    (∃ c', climit l timer c' = true ∧ ∀ fuel, brun d a im hash l timer w (fuel + 1) c =
      brun d a im hash l timer w fuel c') ∨
    (∃ c' st' n, n < st'.next ∧ Inv d a s0 st' ∧ c'.next = st'.next ∧ d.goal (st'.nd n).state = true ∧
      ∀ fuel, brun d a im hash l timer w (fuel + 1) c = (solpath st'.nd (fuel + 1) n).map fun p => (c', p)) ∨
    ∃ c' st' f', Bm d a s0 rep hash wide [] c' st' f' ∧ (gmap d s0 st' < gmap d s0 st ∨ opens st' = ∅) ∧
      ∀ fuel, brun d a im hash l timer w (fuel + 1) c = brun d a im hash l timer w fuel c' := by
  have hem := law.empty _ _ _ b.ref.q
  by_cases hstop : im.empty c.q = true ∨ climit l timer c = true
  · left
    refine ⟨hstop.imp hem.1 id, fun fuel => ?_⟩
    rw [brun, if_pos hstop]
  right
  obtain ⟨ns, q, e1, e2, e3, e4, e5, -, -⟩ := bpops_rep law (key := keyOf c.nd) w b.ref.q
  have hDs : D ((opens st).filter fun n => n ∉ ns) := by
    rcases hD with h | ⟨h, h0⟩
    · exact h _
    · have hcard : ns.length = (opens st).card := by
        rw [e4]
        exact min_eq_right (le_trans (opens_card st) (hwide h _ _ b.ref))
      have : (opens st).filter (fun n => n ∉ ns) = ∅ := by
        rw [Finset.filter_eq_empty_iff]
        intro m hm
        rw [not_not]
        have hs : ns.toFinset = opens st := by
          apply Finset.eq_of_subset_of_card_le
          · intro i hi; exact e3 i (List.mem_toFinset.1 hi)
          · rw [List.toFinset_card_of_nodup e2, hcard]
        rw [← hs] at hm
        exact List.mem_toFinset.1 hm
      rw [this]
      exact h0
  have hq0 := hdrop _ _ _ e5 hDs
  have ho0 : opens (flag (fun _ => false) st.reopnd st) = ∅ := by
    unfold opens
    rw [Finset.filter_eq_empty_iff]
    intro i _
    simp [flag]
  have r0 : Ref d a s0 rep hash { c with q := im.drop q } (flag (fun _ => false) st.reopnd st) :=
    b.ref.flag _ (by rw [ho0]; exact hq0)
  have b0 : Bm d a s0 rep hash wide ns { c with q := im.drop q } (flag (fun _ => false) st.reopnd st)
      (fun i => f i && decide (i < st.next)) := by
    refine ⟨r0, ?_, fun i hi => absurd hi (by simp [flag]), fun hwd i hi => Or.inr ?_, fun n hn => ?_⟩
    · refine Inv.flags (f := f) (r := 0) b.inv fun i hi hf => ?_
      have hi' : i < st.next := hi
      simp [hf, hi']
    · rw [Bool.and_eq_true, decide_eq_true_eq] at hi
      rcases b.all hwd i hi.1 with h | h
      · have hm : i ∈ opens st := mem_opens.2 ⟨hi.2, h⟩
        have hcard : ns.length = (opens st).card := by
          rw [e4]
          exact min_eq_right (le_trans (opens_card st) (hwide hwd _ _ b.ref))
        have hs : ns.toFinset = opens st := by
          apply Finset.eq_of_subset_of_card_le
          · intro i hi; exact e3 i (List.mem_toFinset.1 hi)
          · rw [List.toFinset_card_of_nodup e2, hcard]
        rw [← hs] at hm
        exact List.mem_toFinset.1 hm
      · exact absurd h (by simp)
    · exact (mem_opens.1 (e3 n hn)).1
  have er : ∀ fuel, brun d a im hash l timer w (fuel + 1) c =
      (bbeam d a im hash l timer (fuel + 1) ns { c with q := im.drop q }).bind
        (bnext (brun d a im hash l timer w fuel)) := by
    intro fuel
    rw [brun, if_neg hstop, e1, Outcome.bind_ok]
  rcases bbeam_step law hd ha hgood hb (l := l) (timer := timer) ns b0 with ⟨c', h1, h2⟩ | ⟨c', st', n, h1, h2, h3, h4, h5⟩ |
    ⟨c', st', f', h1, h2, h3⟩
  · left
    refine ⟨c', h1, fun fuel => ?_⟩
    rw [er, h2, Outcome.bind_ok]
    rfl
  · right; left
    refine ⟨c', st', n, h1, h2, h3, h4, fun fuel => ?_⟩
    rw [er, h5]
    rcases solpath_cases (nd := st'.nd) (fuel + 1) n with ⟨p, e⟩ | e
    · rw [e]; rfl
    · rw [e]; rfl
  · right; right
    refine ⟨c', st', f', h1, ?_, fun fuel => ?_⟩
    · rcases h2 with h2 | ⟨-, h2⟩
      · exact Or.inl h2
      · right; rw [h2, ho0]
    · rw [er, h3, Outcome.bind_ok]
      rfl

theorem brun_limit {l : Limit} {timer : Nat → Bool} {w : Nat} {c : CSt S O C P Q} (h : climit l timer c = true)
    (fuel : Nat) : brun d a im hash l timer w (fuel + 1) c = .ok (c, ([], [])) := by
  rw [brun, if_pos (Or.inr h)]

/-- The loop is never undefined and never fails an assertion. -/
theorem brun_safe (law : OpenLaw lt Good im rep) (hd : CostOk d s0) (ha : AlgOk a)
    (hgood : ∀ s g, Walk d s0 s g → Good (a.initp g s, g))
    (hb : ∀ (c : CSt S O C P Q) (st : St S O C P), Ref d a s0 rep hash c st → st.next ≤ 2 ^ 29)
    {l : Limit} {timer : Nat → Bool} {w : Nat} {wide : Prop}
    (hwide : wide → ∀ (c : CSt S O C P Q) (st : St S O C P), Ref d a s0 rep hash c st → st.next ≤ w)
    {D : Finset Nat → Prop} (hdrop : ∀ key q s, rep key q s → D s → rep key (im.drop q) ∅)
    (hD : (∀ s, D s) ∨ wide ∧ D ∅) (fuel : Nat) {c : CSt S O C P Q} {st : St S O C P}
    {f : Nat → Bool} (b : Bm d a s0 rep hash wide [] c st f) :
    brun d a im hash l timer w fuel c = .nofuel ∨ ∃ x, brun d a im hash l timer w fuel c = .ok x := by
  induction fuel generalizing c st f with
  | zero => exact Or.inl rfl
  | succ fuel ih =>
    rcases brun_step law hd ha hgood hb (l := l) (timer := timer) hwide hdrop hD b with
      ⟨-, h⟩ | ⟨c', h1, h⟩ | ⟨c', st', n, -, -, -, -, h⟩ | ⟨c', st', f', h1, -, h⟩
    · exact Or.inr ⟨_, h fuel⟩
    · rw [h]
      cases fuel with
      | zero => exact Or.inl rfl
      | succ fuel => exact Or.inr ⟨_, brun_limit h1 fuel⟩
    · rw [h]
      rcases solpath_cases (nd := st'.nd) (fuel + 1) n with ⟨p, e⟩ | e
      · rw [e]; exact Or.inr ⟨_, rfl⟩
      · rw [e]; exact Or.inl rfl
    · rw [h]
      exact ih h1

/-- The loop ends; if it has no solution then a limit is reached, or the open list is empty. -/
theorem brun_ends (law : OpenLaw lt Good im rep) (hd : CostOk d s0) (ha : AlgOk a)
    (hgood : ∀ s g, Walk d s0 s g → Good (a.initp g s, g))
    (hb : ∀ (c : CSt S O C P Q) (st : St S O C P), Ref d a s0 rep hash c st → st.next ≤ 2 ^ 29)
    (hf : (Reachable d s0).Finite) {l : Limit} {timer : Nat → Bool} {w : Nat} {wide : Prop}
    (hwide : wide → ∀ (c : CSt S O C P Q) (st : St S O C P), Ref d a s0 rep hash c st → st.next ≤ w)
    {D : Finset Nat → Prop} (hdrop : ∀ key q s, rep key q s → D s → rep key (im.drop q) ∅)
    (hD : (∀ s, D s) ∨ wide ∧ D ∅) {c : CSt S O C P Q} {st : St S O C P}
    {f : Nat → Bool} (b : Bm d a s0 rep hash wide [] c st f) :
    ∃ F x, (∀ fuel ≥ F, brun d a im hash l timer w fuel c = .ok x) ∧
      (Okay d s0 x.2 ∨ x.2 = ([], []) ∧ (climit l timer x.1 = true ∨
        ∃ st' f', Bm d a s0 rep hash wide [] x.1 st' f' ∧ opens st' = ∅)) := by
  induction hm : gmap d s0 st using (gmap_wf hd hf).induction generalizing c st f with
  | _ m ih =>
    subst hm
    have one : ∀ c, (∀ fuel, brun d a im hash l timer w (fuel + 1) c = .ok (c, ([], []))) →
        ∀ fuel ≥ 1, brun d a im hash l timer w fuel c = .ok (c, ([], [])) := by
      intro c h fuel hfuel
      obtain ⟨k, rfl⟩ : ∃ k, fuel = k + 1 := ⟨fuel - 1, by omega⟩
      exact h k
    have suc : ∀ c c' F x, (∀ fuel, brun d a im hash l timer w (fuel + 1) c = brun d a im hash l timer w fuel c') →
        (∀ fuel ≥ F, brun d a im hash l timer w fuel c' = .ok x) →
        ∀ fuel ≥ F + 1, brun d a im hash l timer w fuel c = .ok x := by
      intro c c' F x h h' fuel hfuel
      obtain ⟨k, rfl⟩ : ∃ k, fuel = k + 1 := ⟨fuel - 1, by omega⟩
      rw [h]
      exact h' k (by omega)
    rcases brun_step law hd ha hgood hb (l := l) (timer := timer) hwide hdrop hD b with
      ⟨h0, h⟩ | ⟨c', h1, h⟩ | ⟨c', st', n, h1, h2, h3, h4, h⟩ | ⟨c', st', f', h1, h2, h⟩
    · exact ⟨1, (c, ([], [])), one c h, Or.inr ⟨rfl, h0.symm.imp id fun h => ⟨st, f, b, h⟩⟩⟩
    · exact ⟨2, (c', ([], [])), suc c c' 1 _ h (one c' (brun_limit h1)), Or.inr ⟨rfl, Or.inl h1⟩⟩
    · obtain ⟨F, p, e, hs⟩ := solpath_spec h2 h1
      refine ⟨F + 1, (c', p), fun fuel hfuel => ?_, Or.inl ⟨_, _, hs, h4⟩⟩
      obtain ⟨k, rfl⟩ : ∃ k, fuel = k + 1 := ⟨fuel - 1, by omega⟩
      rw [h, solpath_mono e (by omega)]
      rfl
    · rcases h2 with h2 | h2
      · obtain ⟨F, x, e, hx⟩ := ih _ h2 h1 rfl
        exact ⟨F + 1, x, suc c c' F x h e, hx⟩
      · have he : im.empty c'.q = true := (law.empty _ _ _ h1.ref.q).2 h2
        refine ⟨2, (c', ([], [])), suc c c' 1 _ h (one c' fun fuel => ?_), Or.inr ⟨rfl, Or.inr ⟨st', f', h1, h2⟩⟩⟩
        rw [brun, if_pos (Or.inl he)]

theorem bm_init (law : OpenLaw lt Good im rep) (hgood : ∀ s g, Walk d s0 s g → Good (a.initp g s, g)) {x : Lists Q}
    (hx : Fresh rep x) (wide : Prop) :
    ∃ c, cinit d a im hash x s0 = .ok c ∧ Bm d a s0 rep hash wide [] c (init d a s0) fun _ => true := by
  obtain ⟨c, e, r⟩ := ref_init (d := d) (a := a) (s0 := s0) (hash := hash) law hgood hx
  exact ⟨c, e, r, Inv.flags (f := fun _ => true) (r := 0) inv_init (fun _ _ h => h), fun _ _ => rfl,
    fun _ _ _ => Or.inl rfl, fun _ h => absurd h (by simp)⟩

/-- Beam search on lists that work. -/
theorem bsearch_total (law : OpenLaw lt Good im rep) {x : Lists Q} (hx : Fresh rep x) (hd : CostOk d s0) (ha : AlgOk a)
    (hgood : ∀ s g, Walk d s0 s g → Good (a.initp g s, g)) {T : Finset S} (hT : ∀ s g, Walk d s0 s g → s ∈ T)
    (hc : T.card ≤ 2 ^ 29) {D : Finset Nat → Prop} (hdrop : ∀ key q s, rep key q s → D s → rep key (im.drop q) ∅)
    {width : Int} (hw : 0 < width) (hD : (∀ s, D s) ∨ (T.card : Int) ≤ width ∧ D ∅) {l : Limit} {timer : Nat → Bool} :
    (∀ fuel, bsearch d a im hash x l timer (some width) fuel s0 = .nofuel ∨
      ∃ y, bsearch d a im hash x l timer (some width) fuel s0 = .ok y) ∧
    ∃ F y, (∀ fuel ≥ F, bsearch d a im hash x l timer (some width) fuel s0 = .ok y) ∧
      (Okay d s0 y.2 ∨ y.2 = ([], []) ∧ (climit l timer y.1 = true ∨ ((T.card : Int) ≤ width → UndoOk d s0 →
        ∀ t c, Walk d s0 t c → d.goal t = false))) := by
  have hb : ∀ (c : CSt S O C P Q) (st : St S O C P), Ref d a s0 rep hash c st → st.next ≤ 2 ^ 29 :=
    fun c st r => le_trans (ref_next_le hT r) hc
  have hf : (Reachable d s0).Finite := T.finite_toSet.subset fun s ⟨g, hs⟩ => hT s g hs
  have hwide : (T.card : Int) ≤ width → ∀ (c : CSt S O C P Q) (st : St S O C P), Ref d a s0 rep hash c st →
      st.next ≤ width.toNat := fun h c st r => by
    have := ref_next_le hT r
    omega
  obtain ⟨c0, e0, b0⟩ := bm_init (d := d) (a := a) (s0 := s0) (hash := hash) law hgood hx ((T.card : Int) ≤ width)
  have e : ∀ fuel, bsearch d a im hash x l timer (some width) fuel s0 =
      brun d a im hash l timer width.toNat fuel c0 := fun fuel => by
    unfold bsearch bwidth
    dsimp only
    rw [if_neg (by omega), Outcome.bind_ok, e0, Outcome.bind_ok]
  simp only [e]
  refine ⟨fun fuel => brun_safe law hd ha hgood hb hwide hdrop hD fuel b0, ?_⟩
  obtain ⟨F, y, h1, h2⟩ := brun_ends law hd ha hgood hb hf (l := l) (timer := timer) (w := width.toNat) hwide
    hdrop hD b0
  refine ⟨F, y, h1, h2.imp id fun ⟨h3, h4⟩ => ⟨h3, h4.imp id ?_⟩⟩
  rintro ⟨st', f', b, ho⟩ hwd hu t c hwk
  refine empty_no_goal hu b.inv (fun m hm => ?_) hwk
  have hm' : m < st'.next := hm
  show f' m = false
  by_contra hc'
  rw [Bool.not_eq_false] at hc'
  rcases b.all hwd m hc' with h | h
  · have : m ∈ opens st' := mem_opens.2 ⟨hm', h⟩
    rw [ho] at this
    exact absurd this (by simp)
  · exact absurd h (by simp)

end Refine

/-! ## `drop` -/

theorem heap_drop {κ : Type*} {lt : κ → κ → Bool} : ∀ key q s, HeapRep lt key q s → s = ∅ →
    HeapRep lt key ((heapImpl lt).drop q) ∅ := by
  rintro key q s h rfl
  have hd : ∀ n, n ∉ q.data := fun n hn => absurd (h.mem.1 hn) (by simp)
  exact ⟨⟨fun j hj => absurd hj (by simp [heapImpl, BinHeap.clear]),
    fun j hj => absurd hj (by simp [heapImpl, BinHeap.clear])⟩, rfl, fun n _ => h.absent n (hd n)⟩

theorem bucketRep_none {q : BucketOpen.Open Nat} : BucketOpen.Rep (BucketOpen.clear q) ∅ := by
  refine ⟨?_, by simp, ?_, rfl, by simp, by simp, ?_⟩
  · intro p t i n h; exact absurd h (Nat.not_lt_zero _)
  · intro p h; exact absurd h (Nat.not_lt_zero _)
  · intro p h; exact absurd h (Nat.not_lt_zero _)

theorem bucket_drop : ∀ key q s, BucketRep key q s → s = ∅ → BucketRep key (bucketImpl.drop q) ∅ := by
  rintro key q s h rfl
  exact ⟨bucketRep_none (q := withKey key q), fun n _ => h.absent n (by simp)⟩

/-! ## The lists without `mem`

With `-dropdups` the search never asks whether a node is open, so the stale indices do not matter. -/

/-- The heap with a `mem` that looks into the heap. -/
def heapImpl' {κ : Type*} (lt : κ → κ → Bool) : OpenImpl κ (BinHeap.Heap Nat) :=
  { heapImpl lt with mem := fun q n => decide (n ∈ q.data) }

/-- The heap holds exactly `s`; other nodes may carry any index. -/
structure HeapRep' {κ : Type*} (lt : κ → κ → Bool) (key : Nat → κ) (q : BinHeap.Heap Nat) (s : Finset Nat) : Prop where
  inv : BinHeap.Inv lt ⟨q, key⟩
  set : q.data.toFinset = s

theorem HeapRep'.mem {κ : Type*} {lt : κ → κ → Bool} {key : Nat → κ} {q : BinHeap.Heap Nat} {s : Finset Nat}
    (h : HeapRep' lt key q s) {n : Nat} : n ∈ q.data ↔ n ∈ s := by
  rw [← h.set, List.mem_toFinset]

theorem heap_law' {κ : Type*} {lt : κ → κ → Bool} (sw : BinHeap.StrictWeak lt) :
    OpenLaw lt (fun _ => True) (heapImpl' lt) (HeapRep' lt) where
  init key := ⟨⟨fun j hj => absurd hj (by simp [heapImpl', heapImpl]),
    fun j hj => absurd hj (by simp [heapImpl', heapImpl])⟩, rfl⟩
  congr key key' q s h hk := by
    refine ⟨⟨?_, h.inv.indExact⟩, h.set⟩
    intro j hj hj0
    have h0 := h.inv.ordered j hj hj0
    simp only [BinHeap.le, BinHeap.predOf] at h0 ⊢
    rw [hk _ (h.mem.1 (List.getElem_mem hj)), hk _ (h.mem.1 (List.getElem_mem (BinHeap.parent_lt hj)))]
    exact h0
  clear key q := ⟨⟨fun j hj => absurd hj (by simp [heapImpl', heapImpl, BinHeap.clear]),
    fun j hj => absurd hj (by simp [heapImpl', heapImpl, BinHeap.clear])⟩, rfl⟩
  mem key q s h n := by
    show decide (n ∈ q.data) = true ↔ _
    rw [decide_eq_true_eq, h.mem]
  empty key q s h := by
    show q.data.isEmpty = true ↔ _
    rw [List.isEmpty_iff, ← h.set, List.toFinset_eq_empty_iff]
  push key q s n h hn _ := by
    have hn' : n ∉ q.data := fun hd => hn (h.mem.1 hd)
    have e : Function.update key n (key n) = key := Function.update_eq_self n key
    have h1 := BinHeap.push_correct sw h.inv (key n) hn'
    dsimp only at h1
    rw [e] at h1
    refine ⟨_, rfl, h1, ?_⟩
    rw [← h.set, List.toFinset_eq_of_perm _ _ (BinHeap.push_perm _ _ _), List.toFinset_cons]
  pop key q s h hne := by
    obtain ⟨s', r, e, inv', sp⟩ := BinHeap.exec_refines sw h.inv .pop trivial
    simp only [BinHeap.exec, Outcome.ok.injEq, Prod.mk.injEq] at e
    obtain ⟨rfl, er⟩ := e
    cases r with
    | none =>
      have := (BinHeap.pop_none _ _).1 er
      exact absurd (by rw [← h.set, this]; rfl) hne
    | some n =>
      have hp := BinHeap.pop_perm _ _ _ er
      have hnd := BinHeap.indExact_nodup h.inv.indExact
      have hnd' := hp.nodup_iff.1 hnd
      refine ⟨n, (BinHeap.pop (BinHeap.predOf lt key) q).2, ?_, ?_, ?_, inv', ?_⟩
      · show (match BinHeap.pop (BinHeap.predOf lt key) q with
          | (none, _) => Outcome.ub
          | (some n, q') => Outcome.ok (n, q')) = _
        rcases hpop : BinHeap.pop (BinHeap.predOf lt key) q with ⟨x, q'⟩
        rw [hpop] at er
        dsimp only at er
        rw [er]
      · exact h.mem.1 (hp.mem_iff.2 List.mem_cons_self)
      · intro m hm
        obtain ⟨j, hj, rfl⟩ := List.getElem_of_mem (h.mem.2 hm)
        obtain ⟨h0, e0⟩ := BinHeap.pop_head _ _ _ er
        have := BinHeap.ordered_root (BinHeap.strictWeak_predOf sw key) h.inv.ordered j hj
        rw [e0] at this
        exact this
      · ext m
        rw [List.mem_toFinset, Finset.mem_erase, ← h.mem, hp.mem_iff, List.mem_cons]
        constructor
        · intro hm
          exact ⟨fun hc => (List.nodup_cons.1 hnd').1 (hc ▸ hm), Or.inr hm⟩
        · rintro ⟨h1, h2 | h2⟩
          · exact absurd h2 h1
          · exact h2
  upd key key' q s n h hn hc _ hk := by
    have hn' : n ∈ q.data := h.mem.2 hn
    have e : Function.update key n (key' n) = key' := by
      funext m
      by_cases hm : m = n
      · rw [hm, Function.update_self]
      · rw [Function.update_of_ne hm, hk m hm]
    obtain ⟨q', h1, h2, h3⟩ := BinHeap.update_correct sw h.inv (key' n) hn'
    dsimp only at h1
    rw [e] at h1 h3
    refine ⟨q, q', rfl, ?_, h3, ?_⟩
    · show BinHeap.openPostUpdate _ _ _ = _
      have : 0 ≤ q.ind n := by
        obtain ⟨i, hi, rfl⟩ := List.getElem_of_mem hn'
        have : q.ind q.data[i] = i := h.inv.indExact i hi
        omega
      rw [BinHeap.openPostUpdate, if_neg (by omega)]
      exact h1
    · rw [List.toFinset_eq_of_perm _ _ h2, h.set]

theorem heap_drop' {κ : Type*} {lt : κ → κ → Bool} : ∀ key q s, HeapRep' lt key q s → True →
    HeapRep' lt key ((heapImpl' lt).drop q) ∅ := fun _ _ _ _ _ =>
  ⟨⟨fun j hj => absurd hj (by simp [heapImpl', heapImpl, BinHeap.clear]),
    fun j hj => absurd hj (by simp [heapImpl', heapImpl, BinHeap.clear])⟩, rfl⟩

open Classical in
/-- The buckets with a `mem` that looks into them. -/
noncomputable def bucketImpl' : OpenImpl (Int × Int) (BucketOpen.Open Nat) :=
  { bucketImpl with mem := fun q n => decide (BucketEl q n) }

/-- The buckets hold exactly `s`; other nodes may carry any index. -/
def BucketRep' (key : Nat → Int × Int) (q : BucketOpen.Open Nat) (s : Finset Nat) : Prop :=
  BucketOpen.Rep (withKey key q) s

theorem bucket_law' : OpenLaw bucketLt (fun k => 0 ≤ k.1 ∧ 0 ≤ k.2) bucketImpl' BucketRep' where
  init key := BucketOpen.rep_init _ _
  clear key q := bucketRep_none (q := withKey key { q with ind := fun _ => -1 })
  congr key key' q s h hk :=
    bucketRep_congr h rfl rfl rfl rfl rfl (fun x hx => congrArg Prod.fst (hk x hx))
      (fun x hx => congrArg Prod.snd (hk x hx))
  mem key q s h n := by
    show @decide (BucketEl q n) (Classical.propDecidable _) = true ↔ _
    rw [@decide_eq_true_eq _ (Classical.propDecidable _)]
    constructor
    · rintro ⟨p, hp, t, ht, hn⟩
      obtain ⟨i, hi⟩ := List.mem_iff_getElem?.1 hn
      exact (h.bk p t i n hp ht hi).1
    · intro hn
      obtain ⟨p, t, i, hp, ht, -, -, hi⟩ := h.loc n hn
      exact ⟨p, hp, t, ht, List.mem_of_getElem? hi⟩
  empty key q s h := by
    show (q.fill == 0) = true ↔ _
    have : q.fill = s.card := h.fill
    rw [this, beq_iff_eq, Finset.card_eq_zero]
  push key q s n h hn hg := by
    obtain ⟨q', h1, h2, h3, h4, h5, h6⟩ := BucketOpen.push_rep h n hn hg.1 hg.2
    refine ⟨q', h1, bucketRep_congr h2 rfl rfl rfl rfl rfl (fun x _ => ?_) (fun x _ => ?_)⟩
    · rw [h3]; rfl
    · rw [h4]; rfl
  pop key q s h hne := by
    obtain ⟨q', n, h1, h2, h3, h4, h5, h6, h7, h8, h9⟩ :=
      BucketOpen.pop_rep h (Finset.nonempty_iff_ne_empty.2 hne)
    refine ⟨n, q', h1, h2, fun m hm => ?_,
      bucketRep_congr h5 rfl rfl rfl rfl rfl (fun x _ => ?_) (fun x _ => ?_)⟩
    · have a1 : (key n).1 ≤ (key m).1 := h3 m hm
      have a2 : (key m).1 = (key n).1 → (key m).2 ≤ (key n).2 := h4 m hm
      unfold bucketLt
      by_cases e : (key m).1 = (key n).1
      · rw [if_pos e, decide_eq_false_iff_not]
        have := a2 e
        omega
      · rw [if_neg e, decide_eq_false_iff_not]
        omega
    · rw [h8]; rfl
    · rw [h9]; rfl
  upd key key' q s n h hn _ hg hk := by
    obtain ⟨q1, h1, h2, h3, h4, h5, h6⟩ := BucketOpen.preUpdate_rep h hn
    have r1 : BucketOpen.Rep (withKey key' q1) (s.erase n) := by
      refine bucketRep_congr h2 rfl rfl rfl rfl rfl (fun x hx => ?_) (fun x hx => ?_)
      · rw [h5]; exact congrArg Prod.fst (hk x (Finset.ne_of_mem_erase hx))
      · rw [h6]; exact congrArg Prod.snd (hk x (Finset.ne_of_mem_erase hx))
    obtain ⟨q2, e1, e2, e3, e4, e5, e6⟩ := BucketOpen.push_rep r1 n (Finset.notMem_erase n s) hg.1 hg.2
    rw [Finset.insert_erase hn] at e2
    refine ⟨q1, q2, h1, ?_, bucketRep_congr e2 rfl rfl rfl rfl rfl (fun x _ => ?_) (fun x _ => ?_)⟩
    · show BucketOpen.postUpdate (withKey key' q1) n = _
      rw [BucketOpen.postUpdate, if_pos (by show q1.ind n < 0; omega)]
      exact e1
    · rw [e3]; rfl
    · rw [e4]; rfl

theorem bucket_drop' : ∀ key q s, BucketRep' key q s → True → BucketRep' key (bucketImpl'.drop q) ∅ :=
  fun key q _ _ _ => bucketRep_none (q := withKey key q)

section Mem
variable [DecidableEq S] [DecidableEq O] [AddCommGroup C] [LinearOrder C] [IsOrderedAddMonoid C]
  {d : Dom S O C} {a : Alg S C P} {s0 : S} {im : OpenImpl (P × C) Q} {hash : S → Nat}

theorem cconsiderkid_mem (hdd : a.dropdups = true) (m : Q → Nat → Bool) (n : Nat) (o : O) (c : CSt S O C P Q) :
    cconsiderkid d a { im with mem := m } hash n o c = cconsiderkid d a im hash n o c := by
  unfold cconsiderkid
  simp only [hdd, true_or, if_true]

theorem ctryops_mem (hdd : a.dropdups = true) (m : Q → Nat → Bool) (n : Nat) (os : List O) (c : CSt S O C P Q) :
    ctryops d a { im with mem := m } hash n os c = ctryops d a im hash n os c := by
  induction os generalizing c with
  | nil => rfl
  | cons o os ih =>
    rw [ctryops, ctryops]
    split
    · exact ih c
    · rw [cconsiderkid_mem hdd]
      congr 1
      funext c'
      exact ih c'

theorem bbeam_mem (hdd : a.dropdups = true) (m : Q → Nat → Bool) {l : Limit} {timer : Nat → Bool} {fuel : Nat}
    (ns : List Nat) (c : CSt S O C P Q) :
    bbeam d a { im with mem := m } hash l timer fuel ns c = bbeam d a im hash l timer fuel ns c := by
  induction ns generalizing c with
  | nil => rfl
  | cons n ns ih =>
    rw [bbeam, bbeam]
    have e : cexpand d a { im with mem := m } hash n c = cexpand d a im hash n c := ctryops_mem hdd m n _ _
    rw [e]
    split
    · rfl
    · split
      · rfl
      · congr 1
        funext c'
        exact ih c'

theorem bpops_mem (m : Q → Nat → Bool) {key : Nat → P × C} (w : Nat) (q : Q) :
    bpops { im with mem := m } key w q = bpops im key w q := by
  induction w generalizing q with
  | zero => rfl
  | succ w ih =>
    rw [bpops, bpops]
    dsimp only
    simp only [ih]

theorem brun_mem (hdd : a.dropdups = true) (m : Q → Nat → Bool) {l : Limit} {timer : Nat → Bool} {w : Nat} (fuel : Nat)
    (c : CSt S O C P Q) :
    brun d a { im with mem := m } hash l timer w fuel c = brun d a im hash l timer w fuel c := by
  induction fuel generalizing c with
  | zero => rfl
  | succ fuel ih =>
    rw [brun, brun, bpops_mem]
    have e : brun d a { im with mem := m } hash l timer w fuel = brun d a im hash l timer w fuel := funext ih
    rw [e]
    simp only [bbeam_mem hdd]

/-- With `-dropdups`, `mem` is not used. -/
theorem bsearch_mem (hdd : a.dropdups = true) (m : Q → Nat → Bool) {x : Lists Q} {l : Limit} {timer : Nat → Bool}
    {width : Option Int} {fuel : Nat} :
    bsearch d a { im with mem := m } hash x l timer width fuel s0 =
      bsearch d a im hash x l timer width fuel s0 := by
  unfold bsearch
  have e : ∀ w, brun d a { im with mem := m } hash l timer w fuel = brun d a im hash l timer w fuel :=
    fun w => funext (brun_mem hdd m fuel)
  simp only [e]
  rfl

end Mem

end Verif.Search
