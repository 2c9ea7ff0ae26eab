import Verif.Search.Profile

/-!
# C53: anytime profiles and the stopping policy

`InBin lo hi n x b`: dividing the range into `n` equal bins, `x` is in bin `b`.  `after D s rest d` is the cost bin of the last
solution found within `d` time bins after `s`.  `eu` is the expected utility of an arbitrary stopping policy, which may
look at the time and at all incumbents so far.
-/

namespace Verif.Profile

open Finset

variable {P : Prof}

/-- **C53 (bins).** Costs and time spans are put into the bins they belong to. -/
theorem c53_bins {D : Dims} (hD : DimsOk D) {c t : ℚ} (h1 : D.mincost ≤ c) (h2 : c ≤ D.maxcost) (h3 : 0 ≤ t)
    (h4 : t ≤ D.maxtime - D.mintime) :
    (∃ b, costbin D c = .ok b ∧ InBin D.mincost D.maxcost D.ncost c b) ∧
    (∃ b, timebin D t = .ok b ∧ InBin 0 (D.maxtime - D.mintime) D.ntime t b) :=
  ⟨⟨_, costbin_ok hD h1 h2, bin_inBin hD.c0 h1 h2⟩, ⟨_, timebin_ok hD h3 h4, bin_inBin hD.t0 h3 h4⟩⟩

theorem c53_bin_unique {lo hi : ℚ} {n : Nat} (hlt : lo ≤ hi) {x : ℚ} {b b' : Nat} (h : InBin lo hi n x b)
    (h' : InBin lo hi n x b') : b = b' := h.unique hlt h'

/-- What is known of a profile made from streams of solutions. -/
structure Made (nc nt : Nat) (ss : List (List Sol)) (P : Prof) : Prop where
  ncost : P.D.ncost = nc
  ntime : P.D.ntime = nt
  /-- the ranges are those of the solutions -/
  extents : Extents P.D ss.flatten
  /-- each counter counts the solutions `s` in cost bin `q` -/
  qt : ∀ q d, q < nc → d < nt → P.c.qt (q * nt + d) = (ss.flatMap List.tails).countP (from? P.D q)
  /-- ... after which the incumbent is in bin `p`, `d` time bins later -/
  qqt : ∀ p q d, p < nc → q < nc → d < nt →
    P.c.qqt (p * nc * nt + q * nt + d) = (ss.flatMap List.tails).countP (trans? P.D p q d)
  /-- the estimates are probability distributions over the bins that are no worse -/
  pos : ∀ p q d, p < nc → q < nc → d < nt → p ≤ q → 0 < binprob P p q d
  zero : ∀ p q d, q < p → binprob P p q d = 0
  sum : ∀ q d, q < nc → d < nt → ∑ p ∈ range nc, binprob P p q d = 1
  /-- they are the observed frequencies, smoothed by half the least positive one -/
  est : ∃ v, IsSmall P.D P.c v ∧ ∀ p q d, p < nc → q < nc → d < nt → p ≤ q →
    binprob P p q d * ((if P.c.qt (q * nt + d) = 0 then 0 else 1) + (q + 1) * (v / 2)) =
      (P.c.qqt (p * nc * nt + q * nt + d) : ℚ) / P.c.qt (q * nt + d) + v / 2

/-- **C53 (profile).** From streams of ever later and never worse solutions, at least one in all, the profile is made without
an error, its counters count what they should and its estimates are probability distributions. -/
theorem c53_profile {nc nt : Nat} (hc : 0 < nc) (hc' : nc < 2 ^ 32) (ht : 0 < nt) (ht' : nt < 2 ^ 32) {ss : List (List Sol)}
    (hne : ss.flatten ≠ []) (hs : ∀ s ∈ ss, StreamOk s) : ∃ P, mk nc nt ss = .ok P ∧ Made nc nt ss P := by
  obtain ⟨D, h1, rfl, rfl, h4⟩ := getextents_ok nc nt hne
  have hD : DimsOk D := ⟨hc, hc', ht, ht'⟩
  have hw : ∀ s ∈ ss, ∀ r ∈ s, Within D r := fun s h r hr => h4.within r (List.mem_flatten.2 ⟨s, h, hr⟩)
  obtain ⟨c, g1, g2⟩ := countsolutions_ok hD ss hs hw (c := ⟨fun _ => 0, fun _ => 0⟩)
  have hck := countsOk hD hs hw g2
  have hpos : ∃ q d, q < D.ncost ∧ d < D.ntime ∧ 0 < c.qt (qtindex D q d) := by
    obtain ⟨s, hs1, -⟩ := h4.minc
    obtain ⟨l, hl1, hl2⟩ := List.mem_flatten.1 hs1
    refine ⟨cb D s.cost, 0, cb_lt hD (h4.within s hs1), ht, ?_⟩
    rw [(g2 _ 0 (cb_lt hD (h4.within s hs1)) ht).1]
    simp only [Nat.zero_add]
    rw [List.countP_pos_iff]
    obtain ⟨l1, l2, rfl⟩ := List.append_of_mem hl2
    exact ⟨s :: l2, List.mem_flatMap.2 ⟨_, hl1, by rw [List.mem_tails]; exact List.suffix_append _ _⟩, by simp [from?]⟩
  obtain ⟨a, v, f1, f2, f3⟩ := mkprobs_ok hck hpos
  have v0 := f2.1
  refine ⟨⟨D, c, a⟩, ?_, rfl, rfl, h4, fun q d hq hd => ?_, fun p q d hp hq hd => ?_, fun p q d hp hq hd hle => ?_,
    fun p q d hlt => ?_, fun q d hq hd => ?_, v, f2, fun p q d hp hq hd hle => ?_⟩
  · unfold mk
    rw [h1]
    dsimp only
    rw [g1, Outcome.bind_ok, f1]
    rfl
  · exact ((g2 q d hq hd).1).trans (Nat.zero_add _)
  · exact ((g2 q d hq hd).2 p hp).trans (Nat.zero_add _)
  · unfold binprob
    dsimp only
    rw [if_neg (by omega), f3 q d p hq hd hp, if_pos hle]
    have h5 : 0 ≤ raw D c p q d := div_nonneg (Nat.cast_nonneg _) (Nat.cast_nonneg _)
    have h6 : 0 < ((q : ℚ) + 1) * (v / 2) := by positivity
    apply div_pos
    · linarith
    · split <;> linarith
  · unfold binprob
    dsimp only
    split
    · rfl
    · rw [f3 q d p (by omega) (by omega) (by omega), if_neg (by omega)]
  · have e : ∀ p ∈ range D.ncost, binprob ⟨D, c, a⟩ p q d =
        (raw D c p q d + if p ≤ q then v / 2 else 0) / ((if c.qt (qtindex D q d) = 0 then 0 else 1) + (q + 1) * (v / 2)) := by
      intro p hp
      have hp := mem_range.1 hp
      unfold binprob
      dsimp only
      rw [if_neg (by omega), f3 q d p hq hd hp]
      split
      · rfl
      · next h =>
        have : raw D c p q d = 0 := by
          unfold raw
          rw [hck.low p q d hp hq hd (by omega)]
          simp
        rw [this, add_zero, zero_div]
    rw [sum_congr rfl e, ← sum_div, sum_add_distrib]
    have e1 : ∑ p ∈ range D.ncost, raw D c p q d = if c.qt (qtindex D q d) = 0 then 0 else 1 := by
      have : ∑ qj ∈ range D.ncost, raw D c qj q d =
          (∑ qj ∈ range D.ncost, (c.qqt (qqtindex D qj q d) : ℚ)) / c.qt (qtindex D q d) := (sum_div _ _ _).symm
      rw [this, ← Nat.cast_sum, ← hck.sum q d hq hd]
      split
      · next h => rw [h]; simp
      · next h => exact div_self (by exact_mod_cast h)
    have e2 : ∑ p ∈ range D.ncost, (if p ≤ q then v / 2 else 0) = (q + 1) * (v / 2) := by
      rw [← sum_low (f := fun p => if p ≤ q then v / 2 else 0) hq (fun j _ hj => if_neg (by omega)),
        sum_congr rfl (fun p hp => if_pos (by have := mem_range.1 hp; omega))]
      simp
    rw [e1, e2]
    apply div_self
    have h6 : 0 < ((q : ℚ) + 1) * (v / 2) := by positivity
    split <;> linarith
  · unfold binprob
    dsimp only
    have h6 : 0 < ((q : ℚ) + 1) * (v / 2) := by positivity
    have e : (if c.qt (q * D.ntime + d) = 0 then (0 : ℚ) else 1) + (q + 1) * (v / 2) ≠ 0 := by split <;> linarith
    rw [if_neg (by omega), f3 q d p hq hd hp, if_pos hle]
    exact div_mul_cancel₀ _ e

/-- **C53 (order).** Conversely the profile can only be made if every stream is ordered: out of order the program stops. -/
theorem c53_ordered {nc nt : Nat} {ss : List (List Sol)} (h : mk nc nt ss = .ok P) : ∀ s ∈ ss, StreamOk s := by
  unfold mk at h
  split at h
  · split at h <;> simp at h
  · next D hD =>
    obtain ⟨c, h1, -⟩ := Outcome.bind_eq_ok.1 h
    have key : ∀ (si : Sol) (qi : Nat) (rest : List Sol) (cq cd : Nat) (c c' : Counts),
        countFrom D si qi rest cq cd c = .ok c' → ∀ r ∈ rest, si.time < r.time ∧ r.cost ≤ si.cost := by
      intro si qi rest
      induction rest with
      | nil => intro _ _ _ _ _ r hr; simp at hr
      | cons x rest ih =>
        intro cq cd c c' h r hr
        unfold countFrom at h
        split at h
        · simp at h
        · next h2 =>
          split at h
          · simp at h
          · next h3 =>
            obtain ⟨_, -, h⟩ := Outcome.bind_eq_ok.1 h
            obtain ⟨_, -, h⟩ := Outcome.bind_eq_ok.1 h
            obtain ⟨_, -, h⟩ := Outcome.bind_eq_ok.1 h
            rcases List.mem_cons.1 hr with rfl | hr
            · exact ⟨not_not.1 h2, not_not.1 h3⟩
            · exact ih _ _ _ _ h r hr
    have key2 : ∀ (s : List Sol) (c c' : Counts), countStream D s c = .ok c' → StreamOk s := by
      intro s
      induction s with
      | nil => intro _ _ _; exact .nil
      | cons x rest ih =>
        intro c c' h
        unfold countStream at h
        obtain ⟨_, -, h⟩ := Outcome.bind_eq_ok.1 h
        obtain ⟨_, h', h⟩ := Outcome.bind_eq_ok.1 h
        exact List.pairwise_cons.2 ⟨key _ _ _ _ _ _ _ h', ih _ _ h⟩
    have key3 : ∀ (ss : List (List Sol)) (c c' : Counts), countsolutions D ss c = .ok c' → ∀ s ∈ ss, StreamOk s := by
      intro ss
      induction ss with
      | nil => intro _ _ _ s hs; simp at hs
      | cons x rest ih =>
        intro c c' h s hs
        unfold countsolutions at h
        obtain ⟨_, h', h⟩ := Outcome.bind_eq_ok.1 h
        rcases List.mem_cons.1 hs with rfl | hs
        · exact key2 _ _ _ h'
        · exact ih _ _ h s hs
    exact key3 _ _ _ h1

/-- **C53 (empty).** Without any solution no profile is made. -/
theorem c53_empty {nc nt : Nat} (hc : 0 < nc) (ht : 0 < nt) {ss : List (List Sol)} (h : ss.flatten = []) :
    mk nc nt ss = .fatal := by
  unfold mk getextents
  rw [h]
  dsimp only [List.foldl_nil]
  rw [if_neg (by omega)]

theorem Made.kern {nc nt : Nat} {ss : List (List Sol)} (h : Made nc nt ss P) (ht : 2 ≤ nt) : Kern P := by
  have e1 := h.ncost
  refine ⟨fun p q hq hp => ?_, fun q hq => ?_, fun p q _ _ hlt => h.zero p q 1 hlt⟩
  · rcases Nat.lt_or_ge q p with hlt | hle
    · rw [h.zero p q 1 hlt]
    · exact (h.pos p q 1 (by omega) (by omega) (by omega) hle).le
  · rw [e1]; exact h.sum q 1 (by omega) (by omega)

/-- The decision of a monitor for cost bin `q` and time bin `t`. -/
def decision (M : Mon) (q t : Nat) : Option Bool := (M.val (q * M.P.D.ntime + t)).map fun v => v.2

/-- **C53 (optimal policy).** If the one-step estimates are probability distributions, the utility does not grow with time and there
are at least two time bins, the constructor succeeds, and its policy is optimal: no policy, whatever it looks
at, has a larger expected utility, from any cost and time bin and any history. -/
theorem c53_optimal (hD : DimsOk P.D) (h2 : 2 ≤ P.D.ntime) (hK : Kern P) (wf : ℚ) {wt : ℚ} (hwt : 0 ≤ wt)
    (htw : P.D.mintime ≤ P.D.maxtime) : ∃ M, monitor P wf wt = .ok M ∧ M.P = P ∧
      (∀ q t, q < P.D.ncost → t < P.D.ntime → ∃ b, decision M q t = some b) ∧
      ∀ best : Nat → List Nat → Bool,
        (∀ q t h, q < P.D.ncost → t < P.D.ntime → decision M q t = some (best t (q :: h))) →
        ∀ π q t h, q < P.D.ncost → t < P.D.ntime →
          eu P wf wt π (P.D.ntime - 1 - t) h q ≤ eu P wf wt best (P.D.ntime - 1 - t) h q := by
  obtain ⟨a, h1, h3⟩ := monitor_ok hD h2 hK wf wt
  refine ⟨_, h1, rfl, fun q t hq ht => ?_, fun best hb π q t h hq ht => ?_⟩
  · refine ⟨pol P wf wt (P.D.ntime - 1 - t) q, ?_⟩
    unfold decision
    dsimp only
    rw [h3 q t hq ht]
    rfl
  · rw [eu_eq (π := best) hK (fun q t h hq ht => ?_) _ (by omega) h hq]
    · exact eu_le hD hK hwt htw π _ h hq
    · have := hb q t h hq ht
      unfold decision at this
      dsimp only at this
      rw [h3 q t hq ht] at this
      exact (Option.some.inj this).symm

/-- **C53 (made profiles).** In particular for every profile made from streams of solutions. -/
theorem c53_made {nc nt : Nat} (hc : 0 < nc) (hc' : nc < 2 ^ 32) (ht : 2 ≤ nt) (ht' : nt < 2 ^ 32) {ss : List (List Sol)}
    (hne : ss.flatten ≠ []) (hs : ∀ s ∈ ss, StreamOk s) (wf : ℚ) {wt : ℚ} (hwt : 0 ≤ wt) :
    ∃ P M, mk nc nt ss = .ok P ∧ monitor P wf wt = .ok M ∧
      ∀ best : Nat → List Nat → Bool,
        (∀ q t h, q < nc → t < nt → decision M q t = some (best t (q :: h))) →
        ∀ π q t h, q < nc → t < nt → eu P wf wt π (nt - 1 - t) h q ≤ eu P wf wt best (nt - 1 - t) h q := by
  obtain ⟨P, h1, h2⟩ := c53_profile hc hc' (by omega) ht' hne hs
  have hK := h2.kern ht
  have e1 := h2.ncost
  have e2 := h2.ntime
  have htw : P.D.mintime ≤ P.D.maxtime := by
    obtain ⟨s, hs1, hs2⟩ := h2.extents.mint
    rw [← hs2]
    exact (h2.extents.within s hs1).2.2.2
  obtain ⟨M, g1, -, -, g3⟩ := c53_optimal (P := P) ⟨by omega, by omega, by omega, by omega⟩ (by omega) hK wf hwt htw
  rw [e1, e2] at g3
  exact ⟨P, M, h1, g1, g3⟩

/-- **C53 (negation: utility growing with time).** If waiting is rewarded, the policy is wrong for the least cost bin: it stops
at once, although waiting until the end is better. -/
theorem c53_negative_weight (hD : DimsOk P.D) (h2 : 2 ≤ P.D.ntime) (hK : Kern P) (wf : ℚ) {wt : ℚ} (hwt : wt < 0)
    (htw : P.D.mintime < P.D.maxtime) : ∃ M, monitor P wf wt = .ok M ∧ decision M 0 0 = some true ∧
      eu P wf wt (fun _ _ => true) (P.D.ntime - 1) [] 0 < eu P wf wt (fun _ _ => false) (P.D.ntime - 1) [] 0 := by
  obtain ⟨a, h1, h3⟩ := monitor_ok hD h2 hK wf wt
  obtain ⟨n, hn⟩ : ∃ n, P.D.ntime = n + 2 := ⟨P.D.ntime - 2, by omega⟩
  refine ⟨_, h1, ?_, ?_⟩
  · unfold decision
    dsimp only
    rw [h3 0 0 hD.c0 hD.t0, show P.D.ntime - 1 - 0 = n + 1 by omega, pol]
    rfl
  · have e0 : binprob P 0 0 1 = 1 := by
      have h1 := hK.sum 0 hD.c0
      rw [← sum_low hD.c0 (fun j h1 h2 => hK.low j 0 hD.c0 h1 h2)] at h1
      simpa using h1
    have key : ∀ r h, eu P wf wt (fun _ _ => false) r h 0 = util P wf wt 0 (P.D.ntime - 1) := by
      intro r
      induction r with
      | zero => intro h; rfl
      | succ r ih =>
        intro h
        rw [eu, if_neg (by simp), ← sum_low hD.c0 (fun j h1 h2 => by rw [hK.low j 0 hD.c0 h1 h2, zero_mul]), sum_range_one, e0,
          one_mul, ih]
    rw [key, show P.D.ntime - 1 = n + 1 by omega, eu, if_pos rfl]
    have hn' : (0 : ℚ) < P.D.ntime := by rw [hn]; positivity
    have hw : 0 < (P.D.maxtime - P.D.mintime) / P.D.ntime := div_pos (by linarith) hn'
    unfold util
    rw [show P.D.ntime - 1 - (n + 1) = 0 by omega]
    generalize (P.D.maxtime - P.D.mintime) / (P.D.ntime : ℚ) = w at *
    have h4 : 0 < ((n + 1 : Nat) : ℚ) * w := mul_pos (by positivity) hw
    have h5 : wt * (((n + 1 : Nat) : ℚ) * w) < 0 := mul_neg_of_neg_of_pos hwt h4
    push_cast at h5 ⊢
    linarith

/-- **C53 (negation: a single time bin).** With one time bin and several cost bins the loop starts at time 2^32 - 1, finds no
estimate and the program stops. -/
theorem c53_single_time (hc : 2 ≤ P.D.ncost) (hc' : P.D.ncost < 2 ^ 32) (ht : P.D.ntime = 1) (wf wt : ℚ) :
    monitor P wf wt = .fatal := by
  have hD : DimsOk P.D := ⟨by omega, hc', by omega, by omega⟩
  unfold monitor
  obtain ⟨a1, f1, f2, -⟩ := maxTime_ok (P := P) (wf := wf) (wt := wt) hD P.D.ncost 0 (fun _ => none) (by omega)
  rw [f1, Outcome.bind_ok]
  obtain ⟨a2, f3, f4, f5⟩ := minCost_ok (P := P) (wf := wf) (wt := wt) hD P.D.ntime 0 a1 (by omega)
  rw [f3, Outcome.bind_ok]
  obtain ⟨n, hn⟩ : ∃ n, P.D.ncost - 1 = n + 1 := ⟨P.D.ncost - 2, by omega⟩
  rw [hn]
  have hz : ∀ q2 q1, binprob P q2 q1 1 = 0 := fun q2 q1 => by unfold binprob; rw [if_pos (by omega)]
  have hg : ∀ q2, q2 < 1 + 1 → a2 (q2 * P.D.ntime + 0) = some (bell P wf wt 0 q2, pol P wf wt 0 q2) := by
    intro q2 h
    have := f5 q2 0 (by omega) (by have := f2 q2 (Nat.zero_le _) (by omega); rwa [ht] at this)
    unfold Good at this
    rwa [ht] at this ⊢
  have : stepMon P wf wt 1 (2 ^ 32 - 1) a2 = .fatal := by
    unfold stepMon
    rw [show u32 (2 ^ 32 - 1 + 1) = 0 by decide, goLoop_ok (by omega) _ _ (1 + 1) (by omega) hg, Outcome.bind_ok]
    dsimp only
    rw [if_pos]
    rw [sum_congr rfl (fun q2 _ => hz q2 1)]
    norm_num
  unfold qLoop
  rw [ht, show u32 (1 + 2 ^ 32 - 2) + 1 = 2 ^ 32 - 1 + 1 by decide, tLoop, this]
  rfl

/-- **C53 (asking).** `stop` answers with the decision for the bins that the cost and the time are in; below the ranges it
goes on, above them it stops. -/
theorem c53_stop (M : Mon) (h1 : 0 < M.P.D.ncost) (h2 : 0 < M.P.D.ntime) {cost time : ℚ} {q t : Nat}
    (hq : InBin M.P.D.mincost M.P.D.maxcost M.P.D.ncost cost q) (ht : InBin M.P.D.mintime M.P.D.maxtime M.P.D.ntime time t)
    (hc : M.P.D.mincost ≤ cost ∧ cost < M.P.D.maxcost) (hti : M.P.D.mintime ≤ time ∧ time < M.P.D.maxtime) {b : Bool}
    (hb : decision M q t = some b) : stop M cost time = .ok b := by
  have e : ∀ {lo hi x : ℚ} {n k : Nat}, 0 < n → InBin lo hi n x k → lo ≤ x → x < hi →
      (⌊(x - lo) / ((hi - lo) / n)⌋).toNat = k := by
    intro lo hi x n k hn hk h3 h4
    have := bin_inBin hn h3 h4.le
    rw [bin, if_neg h4.ne] at this
    exact this.unique (by linarith) hk
  unfold stop qwidth twidth
  dsimp only
  rw [if_neg (by rw [not_or]; exact ⟨not_lt.2 hc.1, not_lt.2 hti.1⟩), if_neg (by rw [not_or]; exact ⟨not_le.2 hc.2, not_le.2 hti.2⟩),
    e h1 hq hc.1 hc.2, e h2 ht hti.1 hti.2, if_neg (not_not.2 hq.1), if_neg (not_not.2 ht.1), index_ok hq.1 ht.1]
  unfold decision at hb
  rw [Outcome.map_ok]
  obtain ⟨v, hv, rfl⟩ := Option.map_eq_some_iff.1 hb
  rw [hv]

theorem c53_stop_outside (M : Mon) (cost time : ℚ) :
    (cost < M.P.D.mincost ∨ time < M.P.D.mintime → stop M cost time = .ok false) ∧
    (¬ (cost < M.P.D.mincost ∨ time < M.P.D.mintime) → cost ≥ M.P.D.maxcost ∨ time ≥ M.P.D.maxtime →
      stop M cost time = .ok true) := by
  refine ⟨fun h => ?_, fun h h' => ?_⟩
  · unfold stop; rw [if_pos h]
  · unfold stop; rw [if_neg h, if_pos h']

/-! ## A concrete case -/

/-- Two streams of solutions. -/
def exStreams : List (List Sol) := [[⟨10, 1⟩, ⟨6, 2⟩, ⟨2, 5⟩], [⟨8, 0⟩, ⟨4, 3⟩]]

example : exStreams.flatten ≠ [] := by decide
example : ∀ s ∈ exStreams, StreamOk s := by
  intro s hs
  simp only [exStreams, List.mem_cons, List.not_mem_nil, or_false] at hs
  unfold StreamOk
  rcases hs with rfl | rfl <;> norm_num

/-- Two cost bins, two time bins; the estimates of a profile. -/
def exProf : Prof := ⟨⟨2, 2, 0, 8, 0, 4⟩, ⟨fun _ => 0, fun _ => 0⟩,
  fun i => if i = 1 then 1 else if i = 3 then 1 / 4 else if i = 7 then 3 / 4 else 0⟩

example : DimsOk exProf.D ∧ Kern exProf := by
  refine ⟨⟨by decide, by decide, by decide, by decide⟩, ?_, ?_, ?_⟩
  · intro q2 q1 h1 h2
    have h1' : q1 < 2 := h1
    have h2' : q2 < 2 := h2
    obtain rfl | rfl : q1 = 0 ∨ q1 = 1 := by omega
    all_goals obtain rfl | rfl : q2 = 0 ∨ q2 = 1 := by omega
    all_goals decide +kernel
  · intro q1 h1
    have h1' : q1 < 2 := h1
    obtain rfl | rfl : q1 = 0 ∨ q1 = 1 := by omega
    all_goals decide +kernel
  · intro q2 q1 h1 h2 h3
    have h1' : q1 < 2 := h1
    have h2' : q2 < 2 := h2
    obtain rfl : q1 = 0 := by omega
    obtain rfl : q2 = 1 := by omega
    decide +kernel

end Verif.Profile
