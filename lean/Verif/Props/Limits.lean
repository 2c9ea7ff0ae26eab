import Verif.Search.Limits
import Verif.Search.BestFirstThms

/-!
# Limits on the command line, the timer and the look-ahead (C101, C102)
-/

namespace Verif.Limits

open Verif.Str (Str isws)

/-! ## What the user writes -/

/-- A part of a command line: an option of `Limit` with its value, or another word. -/
inductive Item
  | opt (o : Opt) (v : Str)
  | other (w : Str)

/-- The words of a command line. -/
def words (is : List Item) : List Str := is.flatMap fun
  | .opt o v => [o.name, v]
  | .other w => [w]

/-- The other words are not names of options. -/
def Plain (is : List Item) : Prop := ∀ w, Item.other w ∈ is → ∀ o : Opt, w ≠ o.name

/-- The values given to an option, in order. -/
def given (o : Opt) (is : List Item) : List Str := is.filterMap fun
  | .opt o' v => if o' = o then some v else none
  | .other _ => none

/-- The last value of an option, 0 if there is none. -/
def last (o : Opt) (is : List Item) : Nat := ((given o is).getLast?).elim 0 strtoul

/-- The result of a run of `parse` starting from `l`. -/
def lastFrom (o : Opt) (is : List Item) (n : Nat) : Nat := ((given o is).getLast?).elim n strtoul

theorem lastFrom_cons_opt (o o' : Opt) (v : Str) (is : List Item) (n : Nat) :
    lastFrom o (.opt o' v :: is) n = lastFrom o is (if o' = o then strtoul v else n) := by
  unfold lastFrom given
  by_cases h : o' = o
  · simp only [List.filterMap_cons, h, if_true]
    rw [List.getLast?_cons]
    cases (List.filterMap _ is).getLast? <;> rfl
  · simp only [List.filterMap_cons, h, if_false]

theorem lastFrom_cons_other (o : Opt) (w : Str) (is : List Item) (n : Nat) : lastFrom o (.other w :: is) n = lastFrom o is n := rfl

theorem parse_other {sd : Str → Option ℚ × Str} {w : Str} (h : ∀ o : Opt, w ≠ o.name) : ∀ (ws : List Str) (l : Lim),
    parse sd (w :: ws) l = parse sd ws l
  | [], l => by rw [parse, parse]
  | v :: ws, l => by
    rw [parse, if_neg (h _), if_neg (h _), if_neg (h _), if_neg (h _), if_neg (h _)]

theorem name_inj : ∀ {o o' : Opt}, o.name = o'.name → o = o' := by
  intro o o' h
  cases o <;> cases o' <;> first | rfl | exact absurd h (by decide)

theorem parse_words {sd : Str → Option ℚ × Str} : ∀ {is : List Item} (_ : Plain is) (_ : given .mem is = []) (l : Lim),
    parse sd (words is) l = .ok { l with
      expd := lastFrom .expd is l.expd, gend := lastFrom .gend is l.gend
      cputime := lastFrom .cputime is l.cputime, walltime := lastFrom .walltime is l.walltime }
  | [], _, _, l => rfl
  | .other w :: is, hp, hm, l => by
    have e : words (.other w :: is) = w :: words is := rfl
    rw [e, parse_other (hp w (by simp))]
    exact parse_words (is := is) (fun w' hw => hp w' (by simp [hw])) hm l
  | .opt o v :: is, hp, hm, l => by
    have e : words (.opt o v :: is) = o.name :: v :: words is := rfl
    have ih := @parse_words sd is (fun w' hw => hp w' (by simp [hw]))
    simp only [lastFrom_cons_opt]
    rw [e, parse]
    cases o with
    | expd => rw [if_pos rfl]; exact ih hm _
    | gend => rw [if_neg (by decide), if_pos rfl]; exact ih hm _
    | mem => simp [given] at hm
    | cputime => rw [if_neg (by decide), if_neg (by decide), if_neg (by decide), if_pos rfl]; exact ih hm _
    | walltime =>
      rw [if_neg (by decide), if_neg (by decide), if_neg (by decide), if_neg (by decide), if_pos rfl]; exact ih hm _

/-! ## C101 -/

/-- **C101 (numbers).** A number written in decimal is read as that number, or as the greatest `unsigned long` if it is
larger. -/
theorem c101_number (n : Nat) : strtoul (Nat.toDigits 10 n) = if n < 2 ^ 64 then n else 2 ^ 64 - 1 := by
  have hd : ∀ c ∈ Nat.toDigits 10 n, c.isDigit = true := fun c hc =>
    Nat.isDigit_of_mem_toDigits (by omega) (by omega) hc
  have hv : Nat.ofDigitChars 10 (Nat.toDigits 10 n) 0 = n := Nat.ofDigitChars_toDigits (by omega) (by omega)
  have hs : sign ((Nat.toDigits 10 n).dropWhile isws) = (false, Nat.toDigits 10 n) := by
    cases e : Nat.toDigits 10 n with
    | nil => exact absurd e Nat.toDigits_ne_nil
    | cons c cs =>
      have hc := hd c (by rw [e]; simp)
      have h1 : isws c = false := by
        simp only [Char.isDigit, Bool.and_eq_true, decide_eq_true_eq, UInt32.le_iff_toNat_le] at hc
        have h48 : 48 ≤ c.toNat := hc.1
        simp only [isws, Bool.or_eq_false_iff, beq_eq_false_iff_ne, Bool.and_eq_false_iff, decide_eq_false_iff_not]
        exact ⟨fun h => by subst h; exact absurd h48 (by decide), Or.inr (by omega)⟩
      rw [List.dropWhile_cons_of_neg (by simp [h1])]
      unfold sign
      split
      · rename_i h; cases h; exact absurd hc (by decide)
      · rename_i h; cases h; exact absurd hc (by decide)
      · rfl
  have ht : (Nat.toDigits 10 n).takeWhile Char.isDigit = Nat.toDigits 10 n := List.takeWhile_eq_self_iff.2 hd
  rw [strtoul, hs]
  dsimp only
  rw [ht, hv]
  by_cases h : n < 2 ^ 64
  · rw [if_neg (by omega), if_pos h]; rfl
  · rw [if_pos (by omega), if_neg h]

example : strtoul "5000000".toList = 5000000 := c101_number 5000000

/-- **C101 (the violation: negative numbers).** A negative number is not refused: `-n` is read as `2^64 - n`, so that the limit
`-1` is the greatest there is. -/
theorem c101_negative (n : Nat) (h0 : 0 < n) (h : n < 2 ^ 64) : strtoul ('-' :: Nat.toDigits 10 n) = 2 ^ 64 - n := by
  have hd : ∀ c ∈ Nat.toDigits 10 n, c.isDigit = true := fun c hc =>
    Nat.isDigit_of_mem_toDigits (by omega) (by omega) hc
  have hv : Nat.ofDigitChars 10 (Nat.toDigits 10 n) 0 = n := Nat.ofDigitChars_toDigits (by omega) (by omega)
  have ht : (Nat.toDigits 10 n).takeWhile Char.isDigit = Nat.toDigits 10 n := List.takeWhile_eq_self_iff.2 hd
  have hs : sign (('-' :: Nat.toDigits 10 n).dropWhile isws) = (true, Nat.toDigits 10 n) := by
    rw [List.dropWhile_cons_of_neg (by decide)]
    rfl
  rw [strtoul, hs]
  dsimp only
  rw [ht, hv, if_neg (by omega), if_pos rfl, Nat.mod_eq_of_lt (by omega)]

example : strtoul "-1".toList = 2 ^ 64 - 1 := c101_negative 1 (by decide) (by decide)

/-- **C101 (the limits are those on the command line).** If the command line is made of the options with their values and
of other words, then every limit is the last value given to its option, and 0 — no limit — if the option is not given.
(`-mem`: c101_memory.) -/
theorem c101_parse (sd : Str → Option ℚ × Str) (cur max : Nat) {is : List Item} (hp : Plain is) (hm : given .mem is = []) :
    fromArgv sd cur max (words is) = .ok ⟨last .expd is, last .gend is, 0, last .cputime is, last .walltime is, cur, max⟩ :=
  parse_words hp hm _

/-- The command line of the example. -/
def line1 : List Item :=
  [.other "tiles".toList, .other "astar".toList, .opt .expd "100".toList, .opt .walltime "60".toList, .opt .expd "7".toList]

example : fromArgv (fun w => (none, w)) 5 9 (words line1) = .ok ⟨7, 0, 0, 0, 60, 5, 9⟩ :=
  (c101_parse _ _ _ (is := line1)
    (fun w hw => by
      simp only [line1, List.mem_cons, Item.other.injEq, reduceCtorEq, List.not_mem_nil, or_false, false_or] at hw
      rcases hw with rfl | rfl <;> intro o <;> cases o <;> decide) rfl).trans (by decide)

/-- **C101 (the limits hold).** With the limits of the command line, and as long as the timer does not strike, a search is
stopped exactly if an option with a value other than 0 was given and the counter has come up to its last value. -/
theorem c101_reached (sd : Str → Option ℚ × Str) (cur max : Nat) {is : List Item} (hp : Plain is) (hm : given .mem is = [])
    {l : Lim} (hl : fromArgv sd cur max (words is) = .ok l) (e g : Nat) :
    reached false l e g = true ↔ (last .expd is ≠ 0 ∧ last .expd is ≤ e) ∨ (last .gend is ≠ 0 ∧ last .gend is ≤ g) := by
  rw [c101_parse sd cur max hp hm] at hl
  cases hl
  simp [reached, Nat.pos_iff_ne_zero]

/-- The limits as the model of best-first search has them (C32). -/
theorem c101_is_limit {S O C P : Type} {l : Lim} {st : Search.St S O C P} :
    reached false l st.expd st.gend = true ↔ Search.Limit.reached ⟨l.expd, l.gend⟩ st := by
  simp [reached, Search.Limit.reached]

/-- **C101 (the violation: a value that is no number).** If the word after an option does not start with a number, then it is taken
as its value nevertheless, and it means that there is no limit: a forgotten value drops the option after it too. -/
theorem c101_no_number {v : Str} (h : ∀ c ∈ (sign (v.dropWhile isws)).2.head?, c.isDigit = false) : strtoul v = 0 := by
  have : (sign (v.dropWhile isws)).2.takeWhile Char.isDigit = [] := by
    cases e : (sign (v.dropWhile isws)).2 with
    | nil => rfl
    | cons c cs => rw [e] at h; rw [List.takeWhile_cons_of_neg (by rw [h c rfl]; simp)]
  rw [strtoul, this]
  simp [Nat.ofDigitChars]

example : strtoul "1e6".toList = 1 ∧ strtoul "ten".toList = 0 ∧ strtoul "-1".toList = 2 ^ 64 - 1 := by decide +kernel

/-- The value of `-expd` is missing: neither limit is set. -/
theorem c101_swallowed (sd : Str → Option ℚ × Str) (cur max : Nat) :
    fromArgv sd cur max ["tiles".toList, "astar".toList, "-expd".toList, "-walltime".toList, "60".toList] =
      .ok ⟨0, 0, 0, 0, 0, cur, max⟩ := by
  rw [fromArgv, parse, if_neg (by decide), if_neg (by decide), if_neg (by decide), if_neg (by decide), if_neg (by decide),
    parse, if_neg (by decide), if_neg (by decide), if_neg (by decide), if_neg (by decide), if_neg (by decide),
    parse, if_pos (by decide), parse]
  rw [show strtoul "-walltime".toList = 0 from c101_no_number (by decide)]

/-- **C101 (memory).** A number of bytes with suffix `K`, `M`, `G` or none, that is not negative and small enough, limits the address space to that
number of bytes, rounded down, or to the hard limit if that is smaller. -/
theorem c101_memory {sd : Str → Option ℚ × Str} {w r : Str} {q k : ℚ} (h : sd w = (some q, r)) (hk : k ∈ [1, 10 ^ 3, 10 ^ 6, 10 ^ 9])
    (hr : k = 1 ∧ r = [] ∨ k = 10 ^ 3 ∧ r.head? = some 'K' ∨ k = 10 ^ 6 ∧ r.head? = some 'M' ∨ k = 10 ^ 9 ∧ r.head? = some 'G')
    (h0 : 0 ≤ q) (h1 : q * k < 2 ^ 64) (l : Lim) :
    ∃ l' : Lim, memlimit sd w l = .ok l' ∧ (l'.mem : Int) = ⌊q * k⌋ ∧ l'.rcur = min l'.mem l.rmax ∧
      l' = { l with mem := l'.mem, rcur := l'.rcur } := by
  have hk0 : 0 ≤ k := by
    simp only [List.mem_cons, List.not_mem_nil, or_false] at hk
    rcases hk with rfl | rfl | rfl | rfl <;> norm_num
  have hf : 0 ≤ ⌊q * k⌋ := Int.floor_nonneg.2 (mul_nonneg h0 hk0)
  have hu : toUlong (q * k) = .ok ⌊q * k⌋.toNat := by
    rw [toUlong, if_pos ⟨by linarith [mul_nonneg h0 hk0], h1⟩]
  have hb : membytes sd w = .ok ⌊q * k⌋.toNat := by
    rw [membytes, h]
    dsimp only
    rcases hr with ⟨rfl, rfl⟩ | ⟨rfl, hc⟩ | ⟨rfl, hc⟩ | ⟨rfl, hc⟩
    · exact hu
    all_goals
      cases r with
      | nil => simp at hc
      | cons c cs =>
        simp only [List.head?_cons, Option.some.injEq] at hc
        subst hc
        dsimp only
        first
        | rw [if_neg (by decide), if_neg (by decide), if_pos rfl]; exact hu
        | rw [if_neg (by decide), if_pos rfl]; exact hu
        | rw [if_pos rfl]; exact hu
  rw [memlimit, hb, Outcome.map_ok]
  refine ⟨_, rfl, ?_, ?_, rfl⟩
  · dsimp only; omega
  · dsimp only
    split <;> omega

example : ∃ l : Lim, memlimit (fun _ => (some (3 / 2), ['G'])) "1.5G".toList ⟨0, 0, 0, 0, 0, 7, 2 ^ 63⟩ = .ok l ∧ l.mem = 1500000000 := by
  obtain ⟨l, h, h1, -⟩ := c101_memory (sd := fun _ => (some (3 / 2), ['G'])) (w := "1.5G".toList) (k := 10 ^ 9) rfl (by simp)
    (by simp) (by norm_num) (by norm_num) ⟨0, 0, 0, 0, 0, 7, 2 ^ 63⟩
  refine ⟨l, h, ?_⟩
  have : ⌊(3 / 2 : ℚ) * 10 ^ 9⌋ = 1500000000 := by
    rw [Int.floor_eq_iff]; constructor <;> norm_num
  omega

/-- **C101 (the violation: memory).** A negative number of bytes is undefined behaviour. -/
theorem c101_memory_ub {sd : Str → Option ℚ × Str} {w : Str} {q : ℚ} (h : sd w = (some q, [])) (h0 : q ≤ -1) (l : Lim) :
    memlimit sd w l = .ub := by
  have : membytes sd w = .ub := by
    rw [membytes, h]
    dsimp only
    rw [toUlong, if_neg (by rintro ⟨a, -⟩; linarith)]
  rw [memlimit, this]; rfl

example : memlimit (fun _ => (some (-1), [])) "-1".toList ⟨0, 0, 0, 0, 0, 7, 9⟩ = .ub := c101_memory_ub rfl le_rfl _

/-! ### The timer -/

/-- Timers that run have the handler, and belong to the limit in `timed`, which has a time limit for them. -/
def Base (lims : Nat → Lim) (t : T) : Prop :=
  ∀ x, t.arm x = true → t.hnd x = true ∧ ∃ i, t.timed = some i ∧ 0 < (lims i).secs x

/-- The actions still to be done keep `Base`. -/
def Ok (lims : Nat → Lim) : T → List Act → Prop
  | _, [] => True
  | t, .take i :: as => (t.timed = none ∨ t.timed = some i) → Ok lims { t with timed := some i } as
  | t, .install x :: as => Ok lims { t with hnd := Function.update t.hnd x true } as
  | t, .arm x :: as => (t.hnd x = true ∧ ∃ i, t.timed = some i ∧ 0 < (lims i).secs x) ∧
      Ok lims { t with arm := Function.update t.arm x true } as
  | t, .disarm x :: as => Ok lims { t with arm := Function.update t.arm x false } as
  | t, .uninstall x :: as => t.arm x = false ∧ Ok lims { t with hnd := Function.update t.hnd x false } as
  | t, .clear :: as => (∀ x, t.arm x = false) ∧ Ok lims { t with timed := none } as

theorem ok_mono {lims : Nat → Lim} : ∀ {as : List Act} {t t' : T}, t'.timed = t.timed → t'.hnd = t.hnd →
    (∀ x, t'.arm x = true → t.arm x = true) → Ok lims t as → Ok lims t' as
  | [], _, _, _, _, _, _ => trivial
  | .take i :: as, t, t', e1, e2, e3, h => fun hh =>
    ok_mono (as := as) (t := { t with timed := some i }) rfl e2 e3 (h (by rwa [← e1]))
  | .install x :: as, t, t', e1, e2, e3, h => ok_mono (as := as) (t := { t with hnd := Function.update t.hnd x true }) e1 (by simp [e2]) e3 h
  | .arm x :: as, t, t', e1, e2, e3, h => by
    refine ⟨by rw [e2, e1]; exact h.1, ok_mono (as := as) (t := { t with arm := Function.update t.arm x true }) e1 e2 ?_ h.2⟩
    intro y hy
    by_cases hxy : y = x
    · subst hxy; exact Function.update_self ..
    · dsimp only at hy ⊢; rw [Function.update_of_ne hxy] at hy ⊢; exact e3 y hy
  | .disarm x :: as, t, t', e1, e2, e3, h => by
    refine ok_mono (as := as) (t := { t with arm := Function.update t.arm x false }) e1 e2 ?_ h
    intro y hy
    by_cases hxy : y = x
    · subst hxy; dsimp only at hy; rw [Function.update_self] at hy; cases hy
    · dsimp only at hy ⊢; rw [Function.update_of_ne hxy] at hy ⊢; exact e3 y hy
  | .uninstall x :: as, t, t', e1, e2, e3, h =>
    ⟨by
      by_contra hc
      exact absurd (e3 x (by simpa using hc)) (by rw [h.1]; simp),
      ok_mono (as := as) (t := { t with hnd := Function.update t.hnd x false }) e1 (by simp [e2]) e3 h.2⟩
  | .clear :: as, t, t', e1, e2, e3, h =>
    ⟨fun x => by
      by_contra hc
      exact absurd (e3 x (by simpa using hc)) (by rw [h.1 x]; simp),
      ok_mono (as := as) (t := { t with timed := none }) rfl e2 e3 h.2⟩

theorem ok_start (lims : Nat → Lim) (i : Nat) (t : T) : Ok lims t (start (lims i) i) := by
  unfold start
  split
  · trivial
  · intro _
    unfold settimer
    split <;> split <;> simp_all [Ok, Lim.secs]

theorem ok_finish {lims : Nat → Lim} {i : Nat} {t : T} (hb : Base lims t) (h : t.timed = none ∨ t.timed = some i) :
    Ok lims t (finish (lims i)) := by
  have key : ∀ x, (lims i).secs x = 0 → t.arm x = false := by
    intro x hx
    by_contra hc
    obtain ⟨-, j, hj, h0⟩ := hb x (by simpa using hc)
    rcases h with h | h <;> rw [h] at hj
    · cases hj
    · cases hj; omega
  have k1 := key .real
  have k2 := key .prof
  unfold finish
  split
  · trivial
  · unfold stoptimer
    simp only [Lim.secs] at k1 k2
    split <;> split <;> simp only [Ok, List.cons_append, List.nil_append, and_true, Function.update]
    all_goals refine ?_
    · refine ⟨by simp, by simp, ?_⟩
      intro x; cases x <;> simp
    · refine ⟨by simp, ?_⟩
      intro x
      cases x with
      | real => simp
      | prof => simpa using k2 (by omega)
    · refine ⟨by simp, ?_⟩
      intro x
      cases x with
      | real => simpa using k1 (by omega)
      | prof => simp
    · rename_i hn h1 h2; exact absurd ⟨by omega, by omega⟩ hn

theorem reach_inv {lims : Nat → Lim} {beg fin : Nat → T → Prop}
    (hf : ∀ i t, fin i t → t.timed = none ∨ t.timed = some i ∨ ((lims i).walltime = 0 ∧ (lims i).cputime = 0)) {t : T} {as : List Act}
    (h : Reach lims beg fin t as) : Base lims t ∧ Ok lims t as := by
  induction h with
  | init => exact ⟨fun x hx => (by cases hx), trivial⟩
  | start i _ _ ih => exact ⟨ih.1, ok_start lims i _⟩
  | finish i _ hfin ih =>
    refine ⟨ih.1, ?_⟩
    rcases hf i _ hfin with h | h | h
    · exact ok_finish ih.1 (Or.inl h)
    · exact ok_finish ih.1 (Or.inr h)
    · rw [finish, if_pos h]; trivial
  | @act t t' a as _ e ih =>
    obtain ⟨hb, ho⟩ := ih
    cases a with
    | take i =>
      have hh : (t.timed = none ∨ t.timed = some i) ∧ t' = { t with timed := some i } := by
        rw [act] at e
        cases ht : t.timed with
        | none => rw [ht] at e; simp at e; exact ⟨Or.inl rfl, e.symm⟩
        | some j =>
          rw [ht, Option.getD_some] at e
          split at e
          · rename_i hj; subst hj; cases e; exact ⟨Or.inr rfl, rfl⟩
          · cases e
      obtain ⟨h1, rfl⟩ := hh
      refine ⟨fun x hx => ?_, ho h1⟩
      obtain ⟨a1, j, a2, a3⟩ := hb x hx
      refine ⟨a1, j, ?_, a3⟩
      rcases h1 with h1 | h1 <;> rw [h1] at a2
      · cases a2
      · cases a2; rfl
    | install x =>
      cases e
      refine ⟨fun y hy => ?_, ho⟩
      obtain ⟨a1, a2⟩ := hb y hy
      refine ⟨?_, a2⟩
      by_cases hxy : y = x
      · subst hxy; exact Function.update_self ..
      · dsimp only; rw [Function.update_of_ne hxy]; exact a1
    | arm x =>
      cases e
      refine ⟨fun y hy => ?_, ho.2⟩
      by_cases hxy : y = x
      · subst hxy; exact ho.1
      · dsimp only at hy; rw [Function.update_of_ne hxy] at hy; exact hb y hy
    | disarm x =>
      cases e
      refine ⟨fun y hy => ?_, ho⟩
      by_cases hxy : y = x
      · subst hxy; dsimp only at hy; rw [Function.update_self] at hy; cases hy
      · dsimp only at hy; rw [Function.update_of_ne hxy] at hy; exact hb y hy
    | uninstall x =>
      cases e
      refine ⟨fun y hy => ?_, ho.2⟩
      obtain ⟨a1, a2⟩ := hb y hy
      refine ⟨?_, a2⟩
      by_cases hxy : y = x
      · subst hxy; exact absurd hy (by dsimp only; rw [ho.1]; simp)
      · dsimp only; rw [Function.update_of_ne hxy]; exact a1
    | clear =>
      cases e
      exact ⟨fun y hy => absurd hy (by dsimp only; rw [ho.1 y]; simp), ho.2⟩
  | @fire t t' x as _ hx e ih =>
    obtain ⟨hb, ho⟩ := ih
    obtain ⟨h1, i, h2, h3⟩ := hb x hx
    have e' : fire x t = .ok { t with arm := Function.update t.arm x false, up := Function.update t.up i true } := by
      rw [fire, if_pos h1, h2]
    rw [e'] at e
    cases e
    have hle : ∀ y, Function.update t.arm x false y = true → t.arm y = true := fun y hy => by
      by_cases hxy : y = x
      · subst hxy; rw [Function.update_self] at hy; cases hy
      · rwa [Function.update_of_ne hxy] at hy
    exact ⟨fun y hy => hb y (hle y hy), ok_mono (t := t) rfl rfl hle ho⟩

/-- **C101 (the timer is safe).** Suppose that a timed limit calls `finish` only if it holds the timer, or nobody does.  Then a
timer that runs out, at any moment during or between calls, sets the flag of the limit that holds it and nothing else,
and that limit has a time limit for this timer; the handler never finds `NULL`, and the signal never kills the process. -/
theorem c101_timer_partial {lims : Nat → Lim} {beg fin : Nat → T → Prop}
    (hf : ∀ i t, fin i t → t.timed = none ∨ t.timed = some i ∨ ((lims i).walltime = 0 ∧ (lims i).cputime = 0)) {t : T} {as : List Act}
    (h : Reach lims beg fin t as) {x : Timer} (hx : t.arm x = true) :
    ∃ i, t.timed = some i ∧ 0 < (lims i).secs x ∧
      fire x t = .ok { t with arm := Function.update t.arm x false, up := Function.update t.up i true } := by
  obtain ⟨h1, i, h2, h3⟩ := (reach_inv hf h).1 x hx
  exact ⟨i, h2, h3, by rw [fire, if_pos h1, h2]⟩

/-- Only limit 0 claims the timer. -/
def Mine (t : T) (as : List Act) : Prop := (t.timed = none ∨ t.timed = some 0) ∧ ∀ i, Act.take i ∈ as → i = 0

theorem start_take {l : Lim} {i j : Nat} (h : Act.take j ∈ start l i) : j = i := by
  unfold start settimer at h
  split at h
  · simp at h
  · revert h
    split <;> split <;> simp

theorem finish_take {l : Lim} {j : Nat} (h : Act.take j ∈ finish l) : False := by
  unfold finish stoptimer at h
  split at h
  · simp at h
  · revert h
    split <;> split <;> simp

theorem reach_mine {lims : Nat → Lim} {t : T} {as : List Act} (h : Reach lims (fun i _ => i = 0) (fun i _ => i = 0) t as) :
    Reach lims (fun i _ => i = 0) (fun i t => t.timed = none ∨ t.timed = some i) t as ∧ Mine t as := by
  induction h with
  | init => exact ⟨.init, Or.inl rfl, by simp⟩
  | start i _ hi ih => exact ⟨.start i ih.1 hi, ih.2.1, fun j hj => (start_take hj).trans hi⟩
  | finish i _ hi ih =>
    subst hi
    exact ⟨.finish 0 ih.1 ih.2.1, ih.2.1, fun j hj => (finish_take hj).elim⟩
  | @act t t' a as _ e ih =>
    refine ⟨.act ih.1 e, ?_, fun i hi => ih.2.2 i (List.mem_cons_of_mem _ hi)⟩
    have h1 := ih.2.1
    cases a with
    | take i =>
      have hi := ih.2.2 i List.mem_cons_self
      subst hi
      rw [act] at e
      rcases h1 with h1 | h1 <;> rw [h1] at e <;> simp at e <;> rw [← e] <;> exact Or.inr rfl
    | clear => cases e; exact Or.inl rfl
    | install x => cases e; exact h1
    | arm x => cases e; exact h1
    | disarm x => cases e; exact h1
    | uninstall x => cases e; exact h1
  | @fire t t' x as _ hx e ih =>
    refine ⟨.fire ih.1 hx e, ?_, ih.2.2⟩
    have h1 := ih.2.1
    rw [fire] at e
    split at e
    · split at e
      · cases e
      · cases e; exact h1
    · cases e

/-- **C101 (one search).** If only one search makes calls, in any order and any number of times, then a timer that runs out
always sets its flag, and its calls never fail. -/
theorem c101_timer_alone {lims : Nat → Lim} {t : T} {as : List Act} (h : Reach lims (fun i _ => i = 0) (fun i _ => i = 0) t as) :
    (∀ x, t.arm x = true → ∃ t', fire x t = .ok t' ∧ t'.up = Function.update t.up 0 true) ∧
    ∀ a as', as = a :: as' → ∃ t', act t a = .ok t' := by
  obtain ⟨h1, h2, h3⟩ := reach_mine h
  refine ⟨fun x hx => ?_, ?_⟩
  · obtain ⟨i, e1, -, e2⟩ := c101_timer_partial (fun i t hf => by
      rcases hf with h | h
      · exact Or.inl h
      · exact Or.inr (Or.inl h)) h1 hx
    rcases h2 with h2 | h2 <;> rw [h2] at e1 <;> cases e1
    exact ⟨_, e2, rfl⟩
  · rintro a as' rfl
    cases a with
    | take i =>
      have := h3 i List.mem_cons_self
      subst this
      rcases h2 with h2 | h2 <;> exact ⟨_, by rw [act, h2]; rfl⟩
    | _ => exact ⟨_, rfl⟩

/-- A limit with `wall` seconds of wall time. -/
def wall (n : Nat) : Lim := ⟨0, 0, 0, 0, n, 0, 0⟩

/-- A search with one minute has called `start`. -/
theorem running : Reach (fun _ => wall 60) (fun _ _ => True) (fun _ _ => True)
    ⟨some 0, Function.update (fun _ => false) .real true, Function.update (fun _ => false) .real true, fun _ => false⟩ [] := by
  have h0 : Reach (fun _ => wall 60) (fun _ _ => True) (fun _ _ => True) T.init [.take 0, .install .real, .arm .real] :=
    .start (t := T.init) 0 .init trivial
  exact ((h0.act rfl).act rfl).act rfl

example : ∃ t, Reach (fun _ => wall 60) (fun i _ => i = 0) (fun i _ => i = 0) t [] ∧ t.arm .real = true := by
  have h0 : Reach (fun _ => wall 60) (fun i _ => i = 0) (fun i _ => i = 0) T.init [.take 0, .install .real, .arm .real] :=
    .start (t := T.init) 0 .init rfl
  exact ⟨_, ((h0.act rfl).act rfl).act rfl, rfl⟩

/-- **C101 (the violation: two searches).** If a second search with a time limit calls `finish` while the first is running, then
its timer is stopped or, if the limits are for different timers, the handler is run with `timed` being `NULL`. -/
theorem c101_timer_null : ∃ (lims : Nat → Lim) (t : T), Reach lims (fun _ _ => True) (fun _ _ => True) t [] ∧ t.arm .real = true ∧
    fire .real t = .ub := by
  let lims : Nat → Lim := fun i => if i = 0 then wall 60 else ⟨0, 0, 0, 60, 0, 0, 0⟩
  have h0 : Reach lims (fun _ _ => True) (fun _ _ => True) T.init [.take 0, .install .real, .arm .real] :=
    .start (t := T.init) 0 .init trivial
  have h1 := ((h0.act rfl).act rfl).act rfl
  have h2 : Reach lims (fun _ _ => True) (fun _ _ => True) _ [.disarm .prof, .uninstall .prof, .clear] :=
    .finish 1 h1 trivial
  exact ⟨lims, _, ((h2.act rfl).act rfl).act rfl, by simp [Function.update, T.init], by simp [fire, Function.update]⟩

/-- **C101 (the flag stays).** No call and no signal takes the flag back ... -/
theorem c101_flag_stays {i : Nat} {t : T} (h : t.up i = true) :
    (∀ a t', act t a = .ok t' → t'.up i = true) ∧ ∀ x t', fire x t = .ok t' → t'.up i = true := by
  refine ⟨fun a t' e => ?_, fun x t' e => ?_⟩
  · cases a with
    | take j =>
      rw [act] at e
      split at e
      · cases e; exact h
      · cases e
    | _ => cases e; exact h
  · rw [fire] at e
    split at e
    · split at e
      · cases e
      · cases e
        dsimp only
        rename_i j _
        by_cases hij : i = j
        · subst hij; exact Function.update_self ..
        · rw [Function.update_of_ne hij]; exact h
    · cases e

/-- ... and a search whose flag is set is stopped whatever its statistics are: an object that ran out of time and is reset
(`SearchAlgorithm::reset` only replaces `res`) and used again gives up at its first test. -/
theorem c101_stopped (l : Lim) (e g : Nat) : reached true l e g = true := by
  simp [reached]

end Verif.Limits
