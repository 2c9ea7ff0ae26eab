import Verif.Search.DtaTable

/-!
# C98: DTA*'s table of probabilities
-/

namespace Verif.Dta

/-- **C98** the table holds no probabilities of the samples.  Every sample is counted in the bin of the greatest heuristic
value of all samples, as if its `f` were the greatest of all.  An entry is 1 if it is in that bin, its depth was sampled, and
it is below the greatest `f`; otherwise it is 0. -/
theorem c98_table {rows : List Row} {hm fm : ℚ} (hh : Greatest Row.h rows hm) (hf : Greatest Row.f rows fm)
    (h0 : 0 ≤ hm) (hle : ⌊hm⌋ ≤ ⌊fm⌋) (hbig : ((⌈max fm hm⌉ : Int) : ℚ) + 1 < 2 ^ 32) :
    ∃ T, build rows = .ok T ∧ ∀ h d i : Nat,
      (T.q h d).p i = if (h : Int) = ⌊hm⌋ ∧ (∃ r ∈ rows, r.d = d) ∧ (i : Int) < ⌊fm⌋ then 1 else 0 := by
  obtain ⟨E, eE, rfl, rfl, hd, hn⟩ := findExtremes_ok hh hf h0 hbig
  have l1 : max E.fmax E.hmax ≤ ((⌈max E.fmax E.hmax⌉ : Int) : ℚ) := Int.le_ceil _
  have l2 : E.fmax < 2 ^ 32 := by have := le_max_left E.fmax E.hmax; linarith
  have l3 : E.hmax < 2 ^ 32 := by have := le_max_right E.fmax E.hmax; linarith
  have l4 : (⌊E.fmax⌋ : Int) < E.nbins := by
    rw [hn]
    have : ⌊E.fmax⌋ ≤ ⌈max E.fmax E.hmax⌉ := by
      rw [← Int.cast_le (R := ℚ)]
      exact (Int.floor_le _).trans ((le_max_left _ _).trans l1)
    omega
  have f0 : 0 ≤ ⌊E.hmax⌋ := Int.floor_nonneg.2 h0
  refine ⟨_, by rw [build, eE, Outcome.bind_ok, addRows_ok h0 hle l2 l3 l4 rows _ fun r hr => ⟨hh.1 r hr, hf.1 r hr, hd r hr⟩,
    Outcome.map_ok], ?_⟩
  intro h d i
  obtain ⟨e1, e2⟩ := foldl_bump ⌊E.hmax⌋.toNat ⌊E.fmax⌋.toNat h d i rows cells0
  dsimp only
  have z1 : (cells0 h d).count = 0 := rfl
  have z2 : (cells0 h d).p i = 0 := rfl
  rw [z1, zero_add] at e1
  rw [z2, zero_add] at e2
  rw [Cell.norm]
  have ex : (∃ r ∈ rows, r.d = d) ↔ (rows.filter fun r => decide (r.d = d)).length ≠ 0 := by
    rw [Ne, List.length_eq_zero_iff, List.filter_eq_nil_iff]
    push Not
    simp
  have i1 : (h : Int) = ⌊E.hmax⌋ ↔ h = ⌊E.hmax⌋.toNat := by omega
  have i2 : (i : Int) < ⌊E.fmax⌋ ↔ i < ⌊E.fmax⌋.toNat := by omega
  simp only [i1, i2, ex]
  set n := (rows.filter fun r => decide (r.d = d)).length
  by_cases a : h = ⌊E.hmax⌋.toNat
  · by_cases b : n = 0
    · rw [if_pos (by rw [e1]; simp [b]), e2]
      simp [b]
    · rw [if_neg (by rw [e1, if_pos a]; omega)]
      dsimp only
      rw [e1, e2, if_pos a]
      have : (n : ℚ) ≠ 0 := by exact_mod_cast b
      by_cases c : i < ⌊E.fmax⌋.toNat <;> simp [a, b, c, this]
  · rw [if_pos (by rw [e1, if_neg a]), e2]
    simp [a]

/-- So that the samples only matter by their greatest heuristic value, their greatest `f`, and the depths that occur. -/
theorem c98_forgets {rows rows' : List Row} {hm fm : ℚ} (hh : Greatest Row.h rows hm) (hf : Greatest Row.f rows fm)
    (hh' : Greatest Row.h rows' hm) (hf' : Greatest Row.f rows' fm) (hd : ∀ d, (∃ r ∈ rows, r.d = d) ↔ ∃ r ∈ rows', r.d = d)
    (h0 : 0 ≤ hm) (hle : ⌊hm⌋ ≤ ⌊fm⌋) (hbig : ((⌈max fm hm⌉ : Int) : ℚ) + 1 < 2 ^ 32) :
    ∃ T T', build rows = .ok T ∧ build rows' = .ok T' ∧ ∀ h d i : Nat, (T.q h d).p i = (T'.q h d).p i := by
  obtain ⟨T, e, h⟩ := c98_table hh hf h0 hle hbig
  obtain ⟨T', e', h'⟩ := c98_table hh' hf' h0 hle hbig
  refine ⟨T, T', e, e', fun a d i => ?_⟩
  rw [h, h']
  simp only [hd d]

/-- **C98** (partial) if all samples have the same heuristic value and the same `f`, the table is right: an entry is the
fraction of the samples of its heuristic value and depth whose `f` is in a bin above.  In general it is not:
`c98_wrong`. -/
theorem c98_right_partial {rows : List Row} {hm fm : ℚ} (hne : rows ≠ []) (hh : ∀ r ∈ rows, r.h = hm) (hf : ∀ r ∈ rows, r.f = fm)
    (h0 : 0 ≤ hm) (hle : ⌊hm⌋ ≤ ⌊fm⌋) (hbig : ((⌈max fm hm⌉ : Int) : ℚ) + 1 < 2 ^ 32) :
    ∃ T, build rows = .ok T ∧ ∀ h d i : Nat, (T.q h d).p i = fraction rows h d i := by
  obtain ⟨r0, hr0⟩ := List.exists_mem_of_ne_nil _ hne
  obtain ⟨T, e, h⟩ := c98_table ⟨fun r hr => (hh r hr).le, r0, hr0, hh r0 hr0⟩ ⟨fun r hr => (hf r hr).le, r0, hr0, hf r0 hr0⟩ h0 hle hbig
  refine ⟨T, e, fun a d i => ?_⟩
  rw [h, fraction]
  by_cases c1 : ((a : Int) = ⌊hm⌋ ∧ ∃ r ∈ rows, r.d = d)
  · obtain ⟨c1, r1, hr1, d1⟩ := c1
    have m1 : r1 ∈ inBin rows a d := by
      simp only [inBin, List.mem_filter, Bool.and_eq_true, decide_eq_true_eq]
      exact ⟨hr1, by rw [hh r1 hr1, c1], d1⟩
    have n1 : ((inBin rows a d).length : ℚ) ≠ 0 := by
      have := List.length_pos_of_mem m1
      exact_mod_cast this.ne'
    by_cases c2 : (i : Int) < ⌊fm⌋
    · rw [if_pos ⟨c1, ⟨r1, hr1, d1⟩, c2⟩, List.filter_eq_self.2, div_self n1]
      intro r hr
      rw [hf r (List.mem_of_mem_filter hr)]
      exact decide_eq_true c2
    · rw [if_neg fun c => c2 c.2.2, List.filter_eq_nil_iff.2]
      · simp
      · intro r hr
        rw [hf r (List.mem_of_mem_filter hr)]
        simpa using c2
  · rw [if_neg fun c => c1 ⟨c.1, c.2.1⟩]
    have : inBin rows a d = [] := by
      rw [inBin, List.filter_eq_nil_iff]
      intro r hr
      simp only [Bool.and_eq_true, decide_eq_true_eq]
      rintro ⟨e1, e2⟩
      exact c1 ⟨by rw [← e1, hh r hr], r, hr, e2⟩
    rw [this]
    simp

/-- The hypotheses of `c98_right_partial` with two samples of depths 1 and 3. -/
example : ∃ T, build [⟨2, 1, 5⟩, ⟨2, 3, 5⟩] = .ok T ∧ ∀ h d i : Nat, (T.q h d).p i = fraction [⟨2, 1, 5⟩, ⟨2, 3, 5⟩] h d i :=
  c98_right_partial (hm := 2) (fm := 5) (by simp) (by simp) (by simp) (by norm_num) (by norm_num) (by norm_num)

/-- Three samples: two with heuristic value 2, of which one has `f` 3 and one has 6, and one with heuristic value 4. -/
def three : List Row := [⟨2, 1, 3⟩, ⟨2, 1, 6⟩, ⟨4, 1, 7⟩]

/-- **C98** (negation) half of the samples with heuristic value 2 and depth 1 have an `f` above 4, but the table has 0 for
them.  No sample has heuristic value 4 and an `f` above 7, none of depth 1 is less than 7. -/
theorem c98_wrong : ∃ T, build three = .ok T ∧ fraction three 2 1 4 = 1 / 2 ∧ (T.q 2 1).p 4 = 0 := by
  have g1 : Greatest Row.h three 4 := by simp [Greatest, three]; norm_num
  have g2 : Greatest Row.f three 7 := by simp [Greatest, three]; norm_num
  obtain ⟨T, e, h⟩ := c98_table g1 g2 (by norm_num) (by norm_num) (by norm_num)
  refine ⟨T, e, by decide +kernel, ?_⟩
  rw [h, if_neg]
  rintro ⟨c, -⟩
  norm_num at c

/-- The hypotheses of `c98_forgets`: a hundred more samples with a small `f` change nothing. -/
example : ∃ T T', build three = .ok T ∧ build (three ++ List.replicate 100 ⟨4, 1, 4⟩) = .ok T' ∧
    ∀ h d i : Nat, (T.q h d).p i = (T'.q h d).p i := by
  refine c98_forgets (hm := 4) (fm := 7) ?_ ?_ ?_ ?_ ?_ (by norm_num) (by norm_num) (by norm_num)
  · simp [Greatest, three]; norm_num
  · simp [Greatest, three]; norm_num
  · refine ⟨fun r hr => ?_, ⟨4, 1, 7⟩, by simp [three], rfl⟩
    simp only [three, List.cons_append, List.nil_append, List.mem_cons, List.mem_replicate] at hr
    rcases hr with rfl | rfl | rfl | ⟨-, rfl⟩ <;> norm_num
  · refine ⟨fun r hr => ?_, ⟨4, 1, 7⟩, by simp [three], rfl⟩
    simp only [three, List.cons_append, List.nil_append, List.mem_cons, List.mem_replicate] at hr
    rcases hr with rfl | rfl | rfl | ⟨-, rfl⟩ <;> norm_num
  · intro d
    simp [three]

/-- **C98** no samples: the number of bins is a conversion of minus infinity. -/
theorem c98_empty : build [] = .ub := rfl

/-- **C98** the program is aborted if the greatest heuristic value is in a bin above that of the greatest `f`. -/
theorem c98_abort {rows : List Row} {hm fm : ℚ} (hh : Greatest Row.h rows hm) (hf : Greatest Row.f rows fm)
    (h0 : 0 ≤ fm) (hlt : ⌊fm⌋ < ⌊hm⌋) (hbig : ((⌈max fm hm⌉ : Int) : ℚ) + 1 < 2 ^ 32) : build rows = .fatal := by
  have f0 : 0 ≤ ⌊fm⌋ := Int.floor_nonneg.2 h0
  have h1 : 0 ≤ hm := Int.floor_nonneg.1 (f0.trans hlt.le)
  obtain ⟨E, eE, rfl, rfl, hd, hn⟩ := findExtremes_ok hh hf h1 hbig
  have l1 : max E.fmax E.hmax ≤ ((⌈max E.fmax E.hmax⌉ : Int) : ℚ) := Int.le_ceil _
  have l2 : E.fmax < 2 ^ 32 := by have := le_max_left E.fmax E.hmax; linarith
  have l3 : E.hmax < 2 ^ 32 := by have := le_max_right E.fmax E.hmax; linarith
  obtain ⟨g, r0, hr0, -⟩ := hh
  cases rows with
  | nil => exact absurd hr0 (by simp)
  | cons r rs =>
    have e : max (r.f : WithTop ℚ) E.fmax = ((max r.f E.fmax : ℚ) : WithTop ℚ) := (WithTop.coe_max _ _).symm
    rw [build, eE, Outcome.bind_ok, addRows, addRow, Ext.hbin, max_eq_right (g r List.mem_cons_self), toU_ok h1 l3, Outcome.bind_ok,
      Ext.fbin, e, max_eq_right (hf.1 r List.mem_cons_self), toUTop_coe, toU_ok h0 l2, Outcome.bind_ok, if_pos (by omega)]
    rfl

end Verif.Dta

/-! # C99: the decision to go on searching -/

namespace Verif.Dta

/-- The loop over the sets ends with "stop" only if there is nothing to add: at the last set `delta` is infinite, and it is
converted to `unsigned int`. -/
theorem mLoop_never (U : Setup) (nodes : List ONode) (fbeta : WithTop ℚ) (f0 rm size : Nat) : ∀ (k msize mlast : Nat) (tab : Nat → WithTop ℚ),
    msize + k = nodes.length → 0 < k → mLoop U nodes fbeta f0 rm size k msize mlast tab ≠ .ok false
  | 0, _, _, _, _, h => absurd h (by omega)
  | k + 1, msize, mlast, tab, e, _ => by
    intro h
    rw [mLoop] at h
    split at h
    · cases h
    obtain ⟨f1, h1, h⟩ := Outcome.bind_eq_ok.1 h
    obtain ⟨r, h2, h⟩ := Outcome.bind_eq_ok.1 h
    split at h
    · cases h
    by_cases hk : k = 0
    · subst hk
      rw [List.getElem?_eq_none (by omega), Option.elim_none, Ext.fbin, max_eq_left le_top] at h1
      cases h1
    · exact mLoop_never U nodes fbeta f0 rm size k _ _ _ (by omega) (by omega) h

/-- **C99** the decision "stop searching" is made only if no open node of the best action is worse than the second action.
In all other cases the program goes on, is aborted, or its behaviour is undefined: it converts an infinite `double` to
`unsigned int` before it could stop. -/
theorem c99_stop {U : Setup} {nodes : List ONode} {fbeta : WithTop ℚ} (h : decideGo U nodes fbeta = .ok false) :
    nodes ≠ [] ∧ fbeta ≠ ⊤ ∧ ∀ n ∈ nodes, (n.f : WithTop ℚ) ≤ fbeta := by
  rw [decideGo] at h
  obtain ⟨f0, h0, h⟩ := Outcome.bind_eq_ok.1 h
  cases hl : nodes.getLast? with
  | none => rw [hl] at h; cases h
  | some b =>
    rw [hl] at h
    dsimp only at h
    obtain ⟨rm, h1, h⟩ := Outcome.bind_eq_ok.1 h
    refine ⟨fun e => by rw [e] at hl; simp at hl, fun e => ?_, fun n hn => ?_⟩
    · rw [e, Ext.fbin, max_eq_left le_top] at h0
      cases h0
    · by_contra hc
      refine mLoop_never U nodes fbeta f0 rm _ _ _ _ _ (Nat.add_sub_cancel' (List.Sublist.length_le (List.takeWhile_sublist _))) ?_ h
      by_contra hk
      rw [Nat.not_lt, Nat.le_zero, Nat.sub_eq_zero_iff_le] at hk
      have := (List.takeWhile_sublist _).eq_of_length_le hk
      have hp := List.takeWhile_eq_self_iff.1 this n hn
      exact hc (by simpa using hp)

/-- And then it does stop, if the values that it converts are in range. -/
theorem c99_stops {U : Setup} {nodes : List ONode} {b : ℚ} (hne : nodes ≠ []) (hle : ∀ n ∈ nodes, n.f ≤ b)
    (hb : 0 ≤ b) (hb' : b < 2 ^ 32) (hfm : U.T.E.fmax < 2 ^ 32) (hlast : ∀ n ∈ nodes, 0 ≤ n.f ∧ ((⌈n.f⌉ : Int) : ℚ) < 2 ^ 32) :
    decideGo U nodes (b : WithTop ℚ) = .ok false := by
  have e : max (b : WithTop ℚ) U.T.E.fmax = ((max b U.T.E.fmax : ℚ) : WithTop ℚ) := (WithTop.coe_max _ _).symm
  have tw : (nodes.takeWhile fun n => decide ((n.f : WithTop ℚ) ≤ b)) = nodes := by
    rw [List.takeWhile_eq_self_iff]
    intro n hn
    exact decide_eq_true (WithTop.coe_le_coe.2 (hle n hn))
  rw [decideGo]
  rw [tw, Ext.fbin, e, toUTop_coe, toU_ok (hb.trans (le_max_left _ _)) (max_lt hb' hfm), Outcome.bind_ok]
  rw [List.getLast?_eq_some_getLast hne]
  obtain ⟨l0, l1⟩ := hlast _ (List.getLast_mem hne)
  have c0 : (0 : ℚ) ≤ ((⌈(nodes.getLast hne).f⌉ : Int) : ℚ) := by exact_mod_cast Int.ceil_nonneg l0
  dsimp only
  rw [toU_ok c0 l1, Outcome.bind_ok, Nat.sub_self]
  rfl

/-- **C99** if the second action leads into a dead end, the behaviour is undefined. -/
theorem c99_dead_end (U : Setup) (nodes : List ONode) : decideGo U nodes ⊤ = .ub := by
  rw [decideGo]
  rw [Ext.fbin, max_eq_left le_top]
  rfl

theorem minOver_h (U : Setup) (d f : Nat) : ∀ (ns ns' : List ONode) (m : WithTop ℚ),
    ns.map (fun n => (n.f, n.g)) = ns'.map (fun n => (n.f, n.g)) → minOver U d f ns m = minOver U d f ns' m
  | [], [], _, _ => rfl
  | [], _ :: _, _, h => by simp at h
  | _ :: _, [], _, h => by simp at h
  | n :: ns, n' :: ns', m, h => by
    simp only [List.map_cons, List.cons.injEq, Prod.mk.injEq] at h
    obtain ⟨⟨-, h2⟩, h3⟩ := h
    have e : ∀ x, U.T.E.hbin (min x U.T.E.hmax) = toU U.T.E.hmax := fun x => by
      rw [Ext.hbin, max_eq_right (min_le_right _ _)]
    rw [minOver, minOver, e, e, h2]
    simp only [minOver_h U d f ns ns' _ h3]

theorem fLoop_h (U : Setup) (rm size : Nat) (cost : ℚ) (d : Nat) {ns ns' : List ONode}
    (h : ns.map (fun n => (n.f, n.g)) = ns'.map (fun n => (n.f, n.g))) : ∀ (fs : List Nat) (tab : Nat → WithTop ℚ) (sum : WithTop ℚ),
    fLoop U rm size cost d ns fs tab sum = fLoop U rm size cost d ns' fs tab sum
  | [], _, _ => rfl
  | f :: fs, tab, sum => by
    rw [fLoop, fLoop]
    simp only [minOver_h U d f ns ns' _ h, fLoop_h U rm size cost d h fs]

theorem dLoop_h (U : Setup) (rm size msize : Nat) {ns ns' : List ONode} (fs : List Nat)
    (h : ns.map (fun n => (n.f, n.g)) = ns'.map (fun n => (n.f, n.g))) : ∀ (ds : List Nat) (tab : Nat → WithTop ℚ),
    dLoop U rm size msize ns fs ds tab = dLoop U rm size msize ns' fs ds tab
  | [], _ => rfl
  | d :: ds, tab => by
    rw [dLoop, dLoop]
    simp only [fLoop_h U rm size _ d h, dLoop_h U rm size msize fs h ds]

theorem mLoop_h (U : Setup) {ns ns' : List ONode} (fbeta : WithTop ℚ) (f0 rm size : Nat)
    (h : ns.map (fun n => (n.f, n.g)) = ns'.map (fun n => (n.f, n.g))) : ∀ (k msize mlast : Nat) (tab : Nat → WithTop ℚ),
    mLoop U ns fbeta f0 rm size k msize mlast tab = mLoop U ns' fbeta f0 rm size k msize mlast tab
  | 0, _, _, _ => rfl
  | k + 1, msize, mlast, tab => by
    have e1 : (ns[msize + 2]?).elim (⊤ : WithTop ℚ) (fun n => (n.f : WithTop ℚ)) =
        (ns'[msize + 2]?).elim ⊤ fun n => (n.f : WithTop ℚ) := by
      have := congrArg (fun l => l[msize + 2]?) h
      simp only [List.getElem?_map] at this
      cases a : ns[msize + 2]? with
      | none => rw [a] at this; cases b : ns'[msize + 2]? with
        | none => rfl
        | some y => rw [b] at this; simp at this
      | some x => rw [a] at this; cases b : ns'[msize + 2]? with
        | none => rw [b] at this; simp at this
        | some y => rw [b] at this; simp at this; simp [this.1]
    have e2 : ((ns.drop mlast).take (msize + 1 - mlast)).map (fun n => (n.f, n.g)) =
        ((ns'.drop mlast).take (msize + 1 - mlast)).map (fun n => (n.f, n.g)) := by
      rw [List.map_take, List.map_drop, h, List.map_take, List.map_drop]
    rw [mLoop, mLoop]
    simp only [e1, dLoop_h U rm size _ _ e2, mLoop_h U fbeta f0 rm size h k]

/-- **C99** the heuristic values of the open nodes have no part in the decision: it is the same for nodes with the same `f`
and `g`. -/
theorem c99_no_h (U : Setup) {ns ns' : List ONode} (fbeta : WithTop ℚ) (h : ns.map (fun n => (n.f, n.g)) = ns'.map (fun n => (n.f, n.g))) :
    decideGo U ns fbeta = decideGo U ns' fbeta := by
  have l : ns.length = ns'.length := by simpa using congrArg List.length h
  have tw : ∀ ns ns' : List ONode, ns.map (fun n => (n.f, n.g)) = ns'.map (fun n => (n.f, n.g)) →
      (ns.takeWhile fun n => decide ((n.f : WithTop ℚ) ≤ fbeta)).length = (ns'.takeWhile fun n => decide ((n.f : WithTop ℚ) ≤ fbeta)).length := by
    intro ns
    induction ns with
    | nil => intro ns' h; cases ns' with
      | nil => rfl
      | cons _ _ => simp at h
    | cons n ns ih => intro ns' h; cases ns' with
      | nil => simp at h
      | cons n' ns' =>
        simp only [List.map_cons, List.cons.injEq, Prod.mk.injEq] at h
        rw [List.takeWhile_cons, List.takeWhile_cons, h.1.1]
        split
        · simp [ih ns' h.2]
        · rfl
  have la := congrArg List.getLast? h
  rw [List.getLast?_map, List.getLast?_map] at la
  rw [decideGo, decideGo]
  simp only [tw ns ns' h, l]
  cases a : ns.getLast? with
  | none => rw [a] at la; cases b : ns'.getLast? with
    | none => rfl
    | some y => rw [b] at la; simp at la
  | some x => rw [a] at la; cases b : ns'.getLast? with
    | none => rw [b] at la; simp at la
    | some y =>
      rw [b] at la
      simp at la
      simp only [la.1, mLoop_h U fbeta _ _ _ h]

end Verif.Dta

namespace Verif.Dta

/-- What is computed from samples is tame. -/
theorem tame_build {rows : List Row} {hm fm : ℚ} (hh : Greatest Row.h rows hm) (hf : Greatest Row.f rows fm)
    (h0 : 0 ≤ hm) (hle : ⌊hm⌋ ≤ ⌊fm⌋) (hbig : ((⌈max fm hm⌉ : Int) : ℚ) + 1 < 2 ^ 32) {T : Table} (hT : build rows = .ok T)
    {r br thr : ℚ} (ht : thr ≤ 1) : Tame ⟨T, r, br, thr⟩ := by
  obtain ⟨T', e, h⟩ := c98_table hh hf h0 hle hbig
  rw [hT] at e
  cases e
  intro a d i
  dsimp only
  rw [h]
  split
  · refine ⟨by norm_num, fun c => ?_⟩
    rw [abs_one] at c
    linarith
  · exact ⟨le_rfl, fun _ => rfl⟩

/-- **C99** when the search goes on, there is a set of the first `m` open nodes, one at least of which is worse than the second
action, and a depth `d`, such that the sum of minima over the range of `f` is at least the cost of the search.  The minimum at
`f` is over those nodes only that were put into the set when `f` was in the range already; `c99_cache` shows that this is not
the minimum over the set. -/
theorem c99_go_partial {U : Setup} (t : Tame U) {nodes : List ONode} {fbeta : ℚ} (hsort : nodes.Pairwise fun x y => x.f ≤ y.f)
    (hs : ∀ n ∈ nodes, (U.T.E.maxdepth + 1) * (⌈n.f⌉.toNat + 1) < 2 ^ 32) (h : decideGo U nodes fbeta = .ok true) :
    ∃ m0 m d, (∀ n ∈ nodes.take m0, n.f ≤ fbeta) ∧ (∀ n ∈ nodes.drop m0, fbeta < n.f) ∧ m0 < m ∧ m + 1 < nodes.length ∧
      0 < d ∧ d ≤ U.T.E.maxdepth ∧
      ((U.r * m * U.br ^ d : ℚ) : WithTop ℚ) ≤
        ((List.range' ⌊max fbeta U.T.E.fmax⌋.toNat (upTo U nodes m - ⌊max fbeta U.T.E.fmax⌋.toNat)).map (seen U nodes m0 m d)).sum := by
  rw [decideGo] at h
  obtain ⟨f0, h0, h⟩ := Outcome.bind_eq_ok.1 h
  have e0 : max (fbeta : WithTop ℚ) U.T.E.fmax = ((max fbeta U.T.E.fmax : ℚ) : WithTop ℚ) := (WithTop.coe_max _ _).symm
  rw [Ext.fbin, e0, toUTop_coe] at h0
  have e0 := toU_val h0
  cases hl : nodes.getLast? with
  | none => rw [hl] at h; cases h
  | some b =>
    rw [hl] at h
    dsimp only at h
    obtain ⟨rm, h1, h⟩ := Outcome.bind_eq_ok.1 h
    have e1 := toU_val h1
    rw [Int.floor_intCast] at e1
    have hb : b ∈ nodes := List.mem_of_getLast? hl
    subst e0
    set m0 := (nodes.takeWhile fun n => decide ((n.f : WithTop ℚ) ≤ fbeta)).length with hm0
    have hm : m0 ≤ nodes.length := List.Sublist.length_le (List.takeWhile_sublist _)
    have tk : nodes.take m0 = nodes.takeWhile fun n => decide ((n.f : WithTop ℚ) ≤ fbeta) :=
      (List.prefix_iff_eq_take.1 (List.takeWhile_prefix _)).symm
    obtain ⟨m, d, k1, k2, k3, k4, k5⟩ := mLoop_true t hsort hl e1 (e1 ▸ hs b hb) (m0 := m0) _ _ _ _ (Nat.add_sub_cancel' hm) (Or.inl ⟨rfl, rfl⟩)
      (fun d f _ _ _ _ => rfl) h
    refine ⟨m0, m, d, ?_, ?_, k1, k2, k3, k4, k5⟩
    · intro n hn
      rw [tk] at hn
      have := List.mem_takeWhile_imp hn
      exact WithTop.coe_le_coe.1 (by simpa using this)
    · have hlt : m0 < nodes.length := by omega
      have hx : fbeta < (nodes[m0]'hlt).f := by
        by_contra hc
        have e2 : nodes.takeWhile (fun n => decide ((n.f : WithTop ℚ) ≤ fbeta)) ++ nodes.dropWhile (fun n => decide ((n.f : WithTop ℚ) ≤ fbeta)) = nodes :=
          List.takeWhile_append_dropWhile
        have hd : nodes.drop m0 = nodes.dropWhile fun n => decide ((n.f : WithTop ℚ) ≤ fbeta) := by
          conv_lhs => rw [← e2]
          rw [List.drop_left' hm0.symm]
        rw [List.drop_eq_getElem_cons hlt] at hd
        have hne : nodes.dropWhile (fun n => decide ((n.f : WithTop ℚ) ≤ fbeta)) ≠ [] := by rw [← hd]; exact List.cons_ne_nil _ _
        have := List.head_dropWhile_not (fun n : ONode => decide ((n.f : WithTop ℚ) ≤ fbeta)) hne
        have e3 : (nodes.dropWhile fun n => decide ((n.f : WithTop ℚ) ≤ fbeta)).head hne = nodes[m0] := by
          simp only [← hd, List.head_cons]
        rw [e3, decide_eq_false_iff_not] at this
        exact this (WithTop.coe_le_coe.2 (not_lt.1 hc))
      intro n hn
      obtain ⟨i, hi, rfl⟩ := List.getElem_of_mem hn
      rw [List.getElem_drop]
      rcases Nat.eq_zero_or_pos i with rfl | hp
      · simpa using hx
      · rw [List.length_drop] at hi
        exact hx.trans_le (List.pairwise_iff_getElem.1 hsort m0 (m0 + i) hlt (by omega) (by omega))

/-- The minima that are used are not less than those over the whole set. -/
theorem c99_intended (U : Setup) {nodes : List ONode} (m0 : Nat) {m : Nat} (hm : m ≤ nodes.length) (d f : Nat) :
    intended U nodes m d f ≤ seen U nodes m0 m d f := by
  refine le_least fun v hv => ?_
  obtain ⟨i, hi, rfl⟩ := List.mem_map.1 hv
  rw [intended, ← take_range nodes m hm]
  exact least_le (List.mem_map.2 ⟨i, List.mem_of_mem_filter hi, rfl⟩)

/-- Open nodes of the best action: the first is no worse than the second action, which has `f` 6. -/
def sixNodes : List ONode := [⟨6, 0, 2⟩, ⟨7, 4, 2⟩, ⟨8, 5, 2⟩, ⟨9, 5, 2⟩, ⟨12, 5, 2⟩, ⟨13, 5, 2⟩]

/-- One sample, of heuristic value 2, depth 1 and `f` 5. -/
def oneRow : List Row := [⟨2, 1, 5⟩]

theorem oneRow_at {T : Table} (hT : build oneRow = .ok T) (h d i : Nat) :
    (T.q h d).p i = if h = 2 ∧ d = 1 ∧ i < 5 then 1 else 0 := by
  obtain ⟨T', e, h'⟩ := c98_table (rows := oneRow) (hm := 2) (fm := 5) (by simp [Greatest, oneRow]) (by simp [Greatest, oneRow])
    (by norm_num) (by norm_num) (by norm_num)
  rw [hT] at e
  cases e
  rw [h']
  have e1 : ⌊(2 : ℚ)⌋ = 2 := by norm_num
  have e2 : ⌊(5 : ℚ)⌋ = 5 := by norm_num
  rw [e1, e2]
  congr 1
  simp only [oneRow, List.mem_singleton, exists_eq_left, eq_iff_iff]
  omega

/-- The hypotheses of `c99_go_partial`. -/
example {T : Table} (hT : build oneRow = .ok T) : Tame ⟨T, 1 / 10, 2, 1 / 10 ^ 8⟩ ∧ (sixNodes.Pairwise fun x y => x.f ≤ y.f) ∧
    (∀ n ∈ sixNodes, (T.E.maxdepth + 1) * (⌈n.f⌉.toNat + 1) < 2 ^ 32) := by
  have : (build oneRow).map (fun T => T.E.maxdepth) = .ok 1 := by decide +kernel
  rw [hT, Outcome.map_ok] at this
  refine ⟨tame_build (rows := oneRow) (hm := 2) (fm := 5) (by simp [Greatest, oneRow]) (by simp [Greatest, oneRow])
    (by norm_num) (by norm_num) (by norm_num) hT (by norm_num), by decide +kernel, ?_⟩
  rw [Outcome.ok.inj this]
  decide +kernel

/-- **C99** (negation) the search goes on although no set of open nodes and no depth is worth it: over the whole set every minimum
is 0, because the first node cannot change for the worse, and the cost is not 0.  For values of `f` that are new in the range
the first node is forgotten. -/
theorem c99_cache : ∃ T, build oneRow = .ok T ∧ decideGo ⟨T, 1 / 10, 2, 1 / 10 ^ 8⟩ sixNodes 6 = .ok true ∧
    ∀ m d f1, 0 < m → ((List.range' 6 (f1 - 6)).map (intended ⟨T, 1 / 10, 2, 1 / 10 ^ 8⟩ sixNodes m d)).sum < ((1 / 10 * m * 2 ^ d : ℚ) : WithTop ℚ) := by
  have h : (build oneRow).bind (fun T => decideGo ⟨T, 1 / 10, 2, 1 / 10 ^ 8⟩ sixNodes 6) = .ok true := by decide +kernel
  obtain ⟨T, hT, h1⟩ := Outcome.bind_eq_ok.1 h
  refine ⟨T, hT, h1, fun m d f1 hm => ?_⟩
  have hE : (build oneRow).map (fun T => (T.E.hmax, T.E.fmax)) = .ok (2, 5) := by decide +kernel
  rw [hT, Outcome.map_ok] at hE
  have hE := Outcome.ok.inj hE
  have e1 : T.E.hmax = 2 := congrArg Prod.fst hE
  have e2 : T.E.fmax = 5 := congrArg Prod.snd hE
  have hz : ((List.range' 6 (f1 - 6)).map (intended ⟨T, 1 / 10, 2, 1 / 10 ^ 8⟩ sixNodes m d)).sum ≤ 0 := by
    refine (List.sum_le_card_nsmul _ 0 fun v hv => ?_).trans (by simp)
    obtain ⟨f, hf, rfl⟩ := List.mem_map.1 hv
    have hf := (List.mem_range'_1.1 hf).1
    have hz : val ⟨T, 1 / 10, 2, 1 / 10 ^ 8⟩ d f ⟨6, 0, 2⟩ = 0 := by
      have hf' : (6 : ℚ) ≤ f := by exact_mod_cast hf
      have m5 : min ((f : ℚ) - 0) 5 = 5 := min_eq_right (by linarith)
      rw [val]
      dsimp only
      rw [e1, e2, m5, oneRow_at hT, if_neg]
      rintro ⟨-, -, h⟩
      norm_num at h
    obtain ⟨k, rfl⟩ : ∃ k, m = k + 1 := ⟨m - 1, by omega⟩
    have : val ⟨T, 1 / 10, 2, 1 / 10 ^ 8⟩ d f ⟨6, 0, 2⟩ ∈ (sixNodes.take (k + 1)).map (val ⟨T, 1 / 10, 2, 1 / 10 ^ 8⟩ d f) :=
      List.mem_map.2 ⟨_, by simp [sixNodes], rfl⟩
    have := least_le this
    rw [hz] at this
    exact this
  refine hz.trans_lt ?_
  have : (0 : ℚ) < 1 / 10 * m * 2 ^ d := by positivity
  exact_mod_cast this

/-- **C99** the behaviour is undefined if an open node has a `g` that is greater, by 1 or more, than an `f` of the range: the
difference is converted to `unsigned int`. -/
theorem c99_negative : (build oneRow).bind (fun T => decideGo ⟨T, 1 / 10, 2, 1 / 10 ^ 8⟩ [⟨7, 7, 0⟩, ⟨8, 8, 0⟩, ⟨9, 9, 0⟩] 5) = .ub := by
  decide +kernel

/-- **C99** the behaviour is undefined where the decision should be to stop: there is one open node that is worse than the
second action, and a larger search is far too expensive. -/
theorem c99_infinite : (build oneRow).bind (fun T => decideGo ⟨T, 1000, 2, 1 / 10 ^ 8⟩ [⟨5, 0, 2⟩, ⟨9, 3, 2⟩] 6) = .ub := by
  decide +kernel

/-- Conversions that are in range, with nothing worse than the second action: the hypotheses of `c99_stops`. -/
example : (build oneRow).bind (fun T => decideGo ⟨T, 1000, 2, 1 / 10 ^ 8⟩ [⟨5, 0, 2⟩, ⟨6, 3, 2⟩] 6) = .ok false := by
  decide +kernel

end Verif.Dta
