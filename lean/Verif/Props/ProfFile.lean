import Verif.Search.ProfFile
import Verif.Props.Profile

/-!
# C120: profiles in files
-/

namespace Verif.Profile

open Verif

/-! ## From the log files -/

/-- **C120.**  The row of ARA* for a solution is read as that solution. -/
theorem c120_row (num : String → ℚ) (n expd gend wt bound cost time : String) :
    solLine num (araRow n expd gend wt bound cost time) = .ok (some ⟨num cost, num time⟩) := by
  simp [solLine, araRow]

/-- **C120** (finding).  A row with fewer than seven words is out of bounds. -/
theorem c120_short (num : String → ℚ) (ws : List String) (h : ws.length < 7) : solLine num ("#altrow" :: "incumbent" :: ws) = .ub := by
  match ws, h with
  | [], _ | [_], _ | [_, _], _ | [_, _, _], _ | [_, _, _, _], _ | [_, _, _, _, _], _ | [_, _, _, _, _, _], _ => simp [solLine]

/-- Lines of other kinds are skipped. -/
theorem c120_other (num : String → ℚ) (k name : String) (ws : List String) (h : k ≠ "#altrow" ∨ (name ≠ "sol" ∧ name ≠ "incumbent")) :
    solLine num (k :: name :: ws) = .ok none := by
  unfold solLine
  dsimp only
  by_cases hk : k = "#altrow"
  · rw [if_neg (by simp [hk])]
    rw [if_pos]
    rcases h with h | h
    · exact absurd hk h
    · exact h
  · rw [if_pos hk]

/-- The log of ARA* with solutions `ss`, between other lines. -/
inductive Log (num : String → ℚ) : List (List String) → List Sol → Prop
  | nil : Log num [] []
  | row {ls ss} (n expd gend wt bound cost time : String) : Log num ls ss →
      Log num (araRow n expd gend wt bound cost time :: ls) (⟨num cost, num time⟩ :: ss)
  | other {ls ss} (k name : String) (ws : List String) : (k ≠ "#altrow" ∨ (name ≠ "sol" ∧ name ≠ "incumbent")) → Log num ls ss →
      Log num ((k :: name :: ws) :: ls) ss

theorem solLines_log {num : String → ℚ} {ls : List (List String)} {ss : List Sol} (h : Log num ls ss) : solLines num ls = .ok ss := by
  induction h with
  | nil => rfl
  | row n expd gend wt bound cost time _ ih => rw [solLines, c120_row, Outcome.bind_ok, ih]; rfl
  | other k name ws hk _ ih => rw [solLines, c120_other num k name ws hk, Outcome.bind_ok, ih]; rfl

theorem solFiles_log {num : String → ℚ} : ∀ {fs : List (Option (List (List String)))} {sss : List (List Sol)},
    List.Forall₂ (Log num) (fs.filterMap id) sss → solFiles num fs = .ok sss
  | [], sss, h => by cases h; rfl
  | none :: fs, sss, h => solFiles_log (fs := fs) h
  | some ls :: fs, sss, h => by
    cases h with
    | cons h1 h2 => rw [solFiles, solLines_log h1, Outcome.bind_ok, solFiles_log (fs := fs) h2]; rfl

/-- **C120.**  From the logs that can be opened, whose solutions come later and later and do not get worse, at least one in all, the
profile of these solutions is made. -/
theorem c120_made {num : String → ℚ} {nc nt : Nat} (hc : 0 < nc) (hc' : nc < 2 ^ 32) (ht : 0 < nt) (ht' : nt < 2 ^ 32)
    {fs : List (Option (List (List String)))} {ss : List (List Sol)} (hl : List.Forall₂ (Log num) (fs.filterMap id) ss)
    (hne : ss.flatten ≠ []) (hs : ∀ s ∈ ss, StreamOk s) : ∃ P, mkprof num nc nt fs = .ok P ∧ Made nc nt ss P := by
  obtain ⟨P, e, h⟩ := c53_profile hc hc' ht ht' hne hs
  refine ⟨P, ?_, h⟩
  unfold mkprof
  rw [solFiles_log hl, Outcome.bind_ok, if_neg (by rwa [List.length_eq_zero_iff]), e]

/-- **C120.**  Without a solution there is no profile. -/
theorem c120_none {num : String → ℚ} (nc nt : Nat) {fs : List (Option (List (List String)))} {ss : List (List Sol)}
    (hl : List.Forall₂ (Log num) (fs.filterMap id) ss) (hne : ss.flatten = []) : mkprof num nc nt fs = .fatal := by
  unfold mkprof
  rw [solFiles_log hl, Outcome.bind_ok, if_pos (by rw [hne]; rfl)]

/-- Two logs, and a file that cannot be opened. -/
example : List.Forall₂ (Log fun s => s.length) ([some [["#pair", "x", "y"], araRow "1" "2" "3" "4" "5" "four" "a"], none,
    some [araRow "1" "2" "3" "4" "5" "three" "a", ["#altrow", "other"], araRow "1" "2" "3" "4" "5" "two" "ab"]].filterMap id)
    [[⟨4, 1⟩], [⟨5, 1⟩, ⟨3, 2⟩]] :=
  .cons (.other _ _ _ (Or.inl (by decide)) (.row _ _ _ _ _ _ _ .nil))
    (.cons (.row _ _ _ _ _ _ _ (.other _ _ _ (Or.inr (by decide)) (.row _ _ _ _ _ _ _ .nil))) .nil)

/-! ## Saving and reading -/

variable {W : Type}

theorem readN_eq {α β : Type} {r : W → Option β} {msg : Outcome ((Nat → β) × List W)} {p : α → W} {f : α → β} {v : Nat → α} : ∀ (n i : Nat) (a : Nat → β) (s : List W),
    (∀ j, i ≤ j → j < i + n → r (p (v j)) = some (f (v j))) →
    ∃ a', readN r msg n i a (((List.range n).map fun j => p (v (i + j))) ++ s) = .ok (a', s) ∧ (∀ j, i ≤ j → j < i + n → a' j = f (v j)) ∧
      ∀ j, ¬ (i ≤ j ∧ j < i + n) → a' j = a j
  | 0, i, a, s, _ => ⟨a, rfl, fun j h1 h2 => by omega, fun j _ => rfl⟩
  | n + 1, i, a, s, h => by
    obtain ⟨a', e, h1, h2⟩ := readN_eq (msg := msg) (v := v) (p := p) n (i + 1) (Function.update a i (f (v i))) s fun j h1 h2 => h j (by omega) (by omega)
    refine ⟨a', ?_, ?_, ?_⟩
    · rw [List.range_succ_eq_map, List.map_cons, List.map_map, List.cons_append, readN]
      rw [Nat.add_zero, h i le_rfl (by omega)]
      dsimp only
      rw [← e]
      congr 2
      refine List.map_congr_left fun j _ => ?_
      simp only [Function.comp_apply, Nat.succ_eq_add_one]
      rw [show i + (j + 1) = i + 1 + j by omega]
    · intro j h3 h4
      by_cases c : j = i
      · subst c
        rw [h2 j (by omega), Function.update_self]
      · exact h1 j (by omega) (by omega)
    · intro j h3
      rw [h2 j (by omega), Function.update_of_ne (by omega)]

/-- **C120.**  A profile that is saved and read has the same bins and counts; the ranges of costs and times are rounded like `%g`, and the
probabilities like `%15.15g`. -/
theorem c120_read {F : Fmt W} {r6 r15 : ℚ → ℚ} (hF : F.Good r6 r15) {P : Prof} (h1 : P.D.ncost < 2 ^ 32) (h2 : P.D.ntime < 2 ^ 32)
    (hq : ∀ i < P.D.ncost * P.D.ntime, P.c.qt i < 2 ^ 32) (hqq : ∀ i < P.D.ncost * P.D.ncost * P.D.ntime, P.c.qqt i < 2 ^ 32)
    (hs : P.D.ncost * P.D.ncost * P.D.ntime < 2 ^ 32) (h0 : 0 < P.D.ncost) :
    ∃ P', read F (save F P) = .ok P' ∧
      P'.D = ⟨P.D.ncost, P.D.ntime, r6 P.D.mincost, r6 P.D.maxcost, r6 P.D.mintime, r6 P.D.maxtime⟩ ∧
      (∀ i < P.D.ncost * P.D.ntime, P'.c.qt i = P.c.qt i) ∧
      ∀ i < P.D.ncost * P.D.ncost * P.D.ntime, P'.c.qqt i = P.c.qqt i ∧ P'.probs i = r15 (P.probs i) := by
  have hs' : P.D.ncost * P.D.ntime < 2 ^ 32 := by
    refine lt_of_le_of_lt ?_ hs
    have := Nat.mul_le_mul_right P.D.ntime (Nat.mul_le_mul_right P.D.ncost h0)
    simpa using this
  have u1 : u32 (P.D.ncost * P.D.ntime) = P.D.ncost * P.D.ntime := Nat.mod_eq_of_lt hs'
  have u2 : u32 (P.D.ncost * P.D.ncost * P.D.ntime) = P.D.ncost * P.D.ncost * P.D.ntime := Nat.mod_eq_of_lt hs
  obtain ⟨a, ea, ha, -⟩ := readN_eq (r := F.ru) (msg := .fatal) (p := F.pu) (f := id) (v := P.c.qt) (P.D.ncost * P.D.ntime) 0 (fun _ => 0)
    (((List.range (P.D.ncost * P.D.ncost * P.D.ntime)).map fun i => F.pu (P.c.qqt i)) ++
      (List.range (P.D.ncost * P.D.ncost * P.D.ntime)).map fun i => F.p15 (P.probs i))
    fun j _ hj => hF.u _ (hq j (by omega))
  obtain ⟨b, eb, hb, -⟩ := readN_eq (r := F.ru) (msg := .ub) (p := F.pu) (f := id) (v := P.c.qqt) (P.D.ncost * P.D.ncost * P.D.ntime) 0 (fun _ => 0)
    ((List.range (P.D.ncost * P.D.ncost * P.D.ntime)).map fun i => F.p15 (P.probs i))
    fun j _ hj => hF.u _ (hqq j (by omega))
  obtain ⟨c, ec, hc, -⟩ := readN_eq (r := F.rg) (msg := .ub) (p := F.p15) (f := r15) (v := P.probs) (P.D.ncost * P.D.ncost * P.D.ntime) 0 (fun _ => 0)
    [] fun j _ hj => hF.g15 _
  simp only [Nat.zero_add, List.append_nil] at ea eb ec ha hb hc
  refine ⟨⟨⟨P.D.ncost, P.D.ntime, r6 P.D.mincost, r6 P.D.maxcost, r6 P.D.mintime, r6 P.D.maxtime⟩, ⟨a, b⟩, c⟩, ?_, rfl, ?_, ?_⟩
  · unfold read save
    simp only [List.cons_append, List.nil_append, read1, hF.u _ h1, hF.u _ h2, hF.g, Outcome.bind_ok, List.append_assoc, u1, u2]
    rw [ea, Outcome.bind_ok]
    dsimp only
    rw [eb, Outcome.bind_ok]
    dsimp only
    rw [ec, Outcome.map_ok]
  · intro i hi; exact ha i (by omega) hi
  · intro i hi; exact ⟨hb i (by omega) hi, hc i (by omega) hi⟩

theorem readN_short {β : Type} {r : W → Option β} {msg : Outcome ((Nat → β) × List W)} : ∀ (n i : Nat) (a : Nat → β) (s : List W),
    s.length < n → readN r msg n i a s = msg
  | 0, _, _, _, h => by omega
  | n + 1, i, a, [], _ => rfl
  | n + 1, i, a, w :: s, h => by
    rw [readN]
    cases r w with
    | none => rfl
    | some x => exact readN_short n (i + 1) _ s (by simpa using h)

/-- **C120.**  A file that ends among the first counts is an error. -/
theorem c120_cut {F : Fmt W} {r6 r15 : ℚ → ℚ} (hF : F.Good r6 r15) {nc nt : Nat} (h1 : nc < 2 ^ 32) (h2 : nt < 2 ^ 32) (a b c d : ℚ)
    (s : List W) (hs : s.length < u32 (nc * nt)) :
    read F (F.pu nc :: F.pu nt :: F.pg a :: F.pg b :: F.pg c :: F.pg d :: s) = .fatal := by
  unfold read
  simp only [read1, hF.u _ h1, hF.u _ h2, hF.g, Outcome.bind_ok, readN_short _ _ _ s hs]
  rfl

/-- **C120** (finding).  If it ends among the second counts, the message that is printed lacks an argument. -/
theorem c120_cut2 {F : Fmt W} {r6 r15 : ℚ → ℚ} (hF : F.Good r6 r15) {nc nt : Nat} (h1 : nc < 2 ^ 32) (h2 : nt < 2 ^ 32) (a b c d : ℚ)
    (qt : Nat → Nat) (hq : ∀ i, qt i < 2 ^ 32) (s : List W) (hs : s.length < u32 (nc * nc * nt)) :
    read F (F.pu nc :: F.pu nt :: F.pg a :: F.pg b :: F.pg c :: F.pg d :: (((List.range (u32 (nc * nt))).map fun i => F.pu (qt i)) ++ s)) = .ub := by
  obtain ⟨x, ex, -⟩ := readN_eq (r := F.ru) (msg := .fatal) (p := F.pu) (f := id) (v := qt) (u32 (nc * nt)) 0 (fun _ => 0) s
    fun j _ hj => hF.u _ (hq j)
  simp only [Nat.zero_add] at ex
  unfold read
  simp only [read1, hF.u _ h1, hF.u _ h2, hF.g, Outcome.bind_ok]
  rw [ex, Outcome.bind_ok]
  dsimp only
  rw [readN_short _ _ _ s hs]
  rfl

/-! ## The ranges -/

/-- A monitor stops at the least cost, whatever the time is. -/
theorem stops_at_least {P : Prof} (hD : DimsOk P.D) (h2 : 2 ≤ P.D.ntime) (hK : Kern P) (wf wt : ℚ) (hlt : P.D.mincost < P.D.maxcost)
    {time : ℚ} (ht : P.D.mintime ≤ time) : ∃ M, monitor P wf wt = .ok M ∧ stop M P.D.mincost time = .ok true := by
  obtain ⟨a, e, h⟩ := monitor_ok hD h2 hK wf wt
  refine ⟨_, e, ?_⟩
  by_cases hm : time < P.D.maxtime
  · have hb := bin_inBin hD.t0 ht hm.le
    refine c53_stop _ hD.c0 hD.t0 (q := 0) (t := bin P.D.mintime P.D.maxtime P.D.ntime time) ⟨hD.c0, ?_, Or.inl ?_⟩ hb ⟨le_rfl, hlt⟩ ⟨ht, hm⟩ ?_
    · simp
    · have hn : (0 : ℚ) < P.D.ncost := by exact_mod_cast hD.c0
      have : 0 < (P.D.maxcost - P.D.mincost) / P.D.ncost := div_pos (by linarith) hn
      push_cast
      linarith
    · unfold decision
      dsimp only
      rw [h 0 _ hD.c0 hb.1]
      have : ∀ r, pol P wf wt r 0 = true := by
        intro r
        cases r with
        | zero => rfl
        | succ r => rw [pol, if_pos rfl]
      rw [Option.map_some, this]
  · refine (c53_stop_outside _ _ _).2 ?_ (Or.inr (not_lt.1 hm))
    rw [not_or]
    exact ⟨lt_irrefl _, not_lt.2 ht⟩

/-- **C120** (finding).  If the least cost of the profile is rounded up when it is saved, then the monitor of the profile stops when a
solution with the least cost is known, and that of the profile that was read never does. -/
theorem c120_rounded {P P' : Prof} (hD : DimsOk P.D) (h2 : 2 ≤ P.D.ntime) (hK : Kern P) (wf wt : ℚ) (hlt : P.D.mincost < P.D.maxcost)
    {r6 : ℚ → ℚ} (hr : P'.D.mincost = r6 P.D.mincost) (hup : P.D.mincost < r6 P.D.mincost) (M' : Mon) (hM' : M'.P = P') :
    ∃ M, monitor P wf wt = .ok M ∧ ∀ time, P.D.mintime ≤ time →
      stop M P.D.mincost time = .ok true ∧ stop M' P.D.mincost time = .ok false := by
  obtain ⟨M, e, -⟩ := stops_at_least hD h2 hK wf wt hlt (le_refl P.D.mintime)
  refine ⟨M, e, fun time ht => ⟨?_, ?_⟩⟩
  · obtain ⟨M1, e1, h1⟩ := stops_at_least hD h2 hK wf wt hlt ht
    rw [e] at e1
    cases e1
    exact h1
  · refine (c53_stop_outside _ _ _).1 (Or.inl ?_)
    rw [hM', hr]
    exact hup

/-- The numbers that `%g` prints with six digits, for seven digits before the point. -/
def six (x : ℚ) : ℚ := if 1000000 ≤ x ∧ x < 10000000 then (⌊x / 10 + 1 / 2⌋ : ℚ) * 10 else x

/-- A cost of 1234567 is rounded up. -/
example : six 1234567 = 1234570 ∧ (1234567 : ℚ) < six 1234567 := by
  have : ⌊(1234567 : ℚ) / 10 + 1 / 2⌋ = 123457 := by rw [Int.floor_eq_iff]; norm_num
  unfold six
  rw [if_pos (by norm_num), this]
  norm_num

/-- A way of printing and reading. -/
def exFmt : Fmt (Nat ⊕ ℚ) := ⟨.inl, fun x => .inr (six x), .inr, fun w => w.getLeft?, fun w => w.getRight?⟩

example : exFmt.Good six id := ⟨fun _ _ => rfl, fun _ => rfl, fun _ => rfl⟩

end Verif.Profile
