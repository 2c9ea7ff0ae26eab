import Verif.Domains.TrafficFile
import Verif.Domains.GridFileThms
import Verif.Props.Traffic
import Verif.Props.Astar

/-!
# C111: files of traffic instances

`read s`: the instance that a program gets from the file `s`, and the number of cells.  `write I`: what the instance is printed as.
`Randinst w h n out`: the generator can print `out`.
-/

namespace Verif.TrafficFile

open Verif.Str Verif.GridFile Verif.Scenario Verif.Traffic

/-! ## Specification -/

/-- A numeral for the `int` `z`: digits, maybe after a sign. -/
def IntNumeral (t : Str) (z : Int) : Prop :=
  ∃ ds : Str, ∃ n : Nat, ds ≠ [] ∧ (∀ c ∈ ds, c.isDigit = true) ∧ Nat.ofDigitChars 10 ds 0 = n ∧
    ((t = ds ∧ z = n) ∨ (t = '+' :: ds ∧ z = n) ∨ (t = '-' :: ds ∧ z = -n)) ∧ -2 ^ 31 ≤ z ∧ z < 2 ^ 31

/-- The words of obstacles. -/
inductive ObsWords : List Obstacle → List Str → Prop
  | nil : ObsWords [] []
  | cons {o : Obstacle} {os : List Obstacle} {a b c d : Str} {ws : List Str} : IntNumeral a o.x → IntNumeral b o.y →
      IntNumeral c o.dx → IntNumeral d o.dy → ObsWords os ws → ObsWords (o :: os) (a :: b :: c :: d :: ws)

/-- A word that does not begin with a number. -/
def NoNumber (w : Str) : Prop :=
  ((if w.head? = some '-' ∨ w.head? = some '+' then w.tail else w).head?.elim false Char.isDigit) = false

/-- Words that are not an obstacle: at most `n` numbers, then a word that is no number or the end. -/
inductive Ends : Nat → List Str → Prop
  | eof (n : Nat) : Ends n []
  | word {w : Str} (n : Nat) (ts : List Str) : NoNumber w → Ends n (w :: ts)
  | num {n : Nat} {w : Str} {z : Int} {ts : List Str} : IntNumeral w z → Ends n ts → Ends (n + 1) (w :: ts)

/-- The words at the beginning of a file. -/
structure Header (sx sy gx gy w h : Nat) (ws : List Str) : Prop where
  words : ∃ a b c d e f, ws = [a, b, c, d, e, f] ∧ Numeral a sx ∧ Numeral b sy ∧ Numeral c gx ∧ Numeral d gy ∧ Numeral e w ∧
    Numeral f h
  small : sx < 2 ^ 31 ∧ sy < 2 ^ 31 ∧ gx < 2 ^ 31 ∧ gy < 2 ^ 31

/-- What fits in the types of the program. -/
structure Sized (I : Inst) : Prop where
  w : I.w < 2 ^ 31
  h : I.h < 2 ^ 31
  wh : I.w * I.h < 2 ^ 32
  start : I.start < I.w * I.h
  finish : I.finish < I.w * I.h
  obstacles : ∀ o ∈ I.obstacles, ∀ z ∈ [o.x, o.y, o.dx, o.dy], -2 ^ 31 ≤ z ∧ z < 2 ^ 31

/-! ## Lemmas -/

theorem not_digit_of_ws {rest : Str} (h : ∀ c, rest.head? = some c → isws c = true) :
    ∀ c, rest.head? = some c → c.isDigit = false := fun c hc => by
  cases hd : c.isDigit with
  | false => rfl
  | true =>
    have := h c hc
    rw [isws_digit hd] at this
    exact absurd this (by simp)

theorem skip_word {ws w rest : Str} (h1 : ∀ c ∈ ws, isws c = true) (h2 : w ≠ []) (h3 : ∀ c ∈ w, isws c = false) :
    skip (ws ++ w ++ rest) = w ++ rest := by
  rw [List.append_assoc]
  refine skip_ws h1 fun c hc => ?_
  cases w with
  | nil => exact absurd rfl h2
  | cons d w =>
    rw [List.cons_append, List.head?_cons, Option.some.injEq] at hc
    rw [← hc]
    exact h3 d (by simp)

theorem digits_head {ds rest : Str} (h1 : ds ≠ []) (h2 : ∀ c ∈ ds, c.isDigit = true) :
    (((ds ++ rest).head? == some '-') = false) ∧ (((ds ++ rest).head? == some '+') = false) := by
  cases ds with
  | nil => exact absurd rfl h1
  | cons d ds =>
    have hd := h2 d (by simp)
    have hm : d ≠ '-' := by rintro rfl; exact absurd hd (by decide)
    have hp : d ≠ '+' := by rintro rfl; exact absurd hd (by decide)
    simpa using ⟨hm, hp⟩

/-- An `int` in the file. -/
theorem sint_word {s w : Str} {z : Int} {ts : List Str} (h : Words s (w :: ts)) (hz : IntNumeral w z) :
    ∃ rest, sint s = .ok (some (z, rest)) ∧ Words rest ts ∧ rest.length < s.length := by
  cases h with
  | @cons ws _ rest _ h1 h2 h3 h4 h5 =>
    refine ⟨rest, ?_, h5, ?_⟩
    · obtain ⟨ds, n, n1, n2, n3, n4, n5, n6⟩ := hz
      obtain ⟨t1, t2⟩ := takeWhile_app (p := Char.isDigit) (w := ds) (rest := rest) n2 (not_digit_of_ws h4)
      obtain ⟨d1, d2⟩ := digits_head (rest := rest) n1 n2
      unfold sint
      rw [skip_word h1 h2 h3]
      dsimp only
      rcases n4 with ⟨rfl, rfl⟩ | ⟨rfl, rfl⟩ | ⟨rfl, rfl⟩
      · rw [d1, d2]
        simp only [Bool.or_self, Bool.false_eq_true, if_false]
        rw [t1, t2, if_neg n1, n3, if_pos ⟨n5, n6⟩]
      · simp only [List.cons_append, List.head?_cons, List.tail_cons]
        have e1 : (some '+' == some '-') = false := by decide
        have e2 : (some '+' == some '+') = true := by decide
        simp only [e1, e2, Bool.or_true, if_true, Bool.false_eq_true, if_false]
        rw [t1, t2, if_neg n1, n3, if_pos ⟨n5, n6⟩]
      · simp only [List.cons_append, List.head?_cons, List.tail_cons]
        have e1 : (some '-' == some '-') = true := by decide
        simp only [e1, Bool.true_or, if_true]
        rw [t1, t2, if_neg n1, n3, if_pos ⟨n5, n6⟩]
    · have : 0 < w.length := List.length_pos_iff.2 h2
      simp only [List.length_append]
      omega

theorem sint_eof {s : Str} (h : Words s []) : sint s = .ok none := by
  generalize he : ([] : List Str) = ts at h
  cases h with
  | nil h =>
    unfold sint
    have : skip s = [] := by
      have := skip_ws (s := []) h (by simp)
      rwa [List.append_nil] at this
    rw [this]
    rfl
  | cons => exact absurd he (by simp)

theorem sint_bad {s w : Str} {ts : List Str} (h : Words s (w :: ts)) (hw : NoNumber w) : sint s = .ok none := by
  cases h with
  | @cons ws _ rest _ h1 h2 h3 h4 h5 =>
    unfold sint
    rw [skip_word h1 h2 h3]
    dsimp only
    obtain ⟨c, w, rfl⟩ : ∃ c w', w = c :: w' := by
      cases w with
      | nil => exact absurd rfl h2
      | cons c w => exact ⟨c, w, rfl⟩
    have key : ∀ u : Str, u.head?.elim false Char.isDigit = false → (u ++ rest).takeWhile Char.isDigit = [] := by
      intro u hu
      cases u with
      | nil =>
        cases rest with
        | nil => rfl
        | cons r rest =>
          rw [List.nil_append, List.takeWhile_cons_of_neg (by rw [not_digit_of_ws h4 r rfl]; simp)]
      | cons x u =>
        rw [List.cons_append, List.takeWhile_cons_of_neg (by simpa using hu)]
    unfold NoNumber at hw
    simp only [List.head?_cons, Option.some.injEq, List.tail_cons] at hw
    simp only [List.cons_append, List.head?_cons, List.tail_cons]
    by_cases hs : c = '-' ∨ c = '+'
    · rw [if_pos hs] at hw
      have : ((some c == some '-') || (some c == some '+')) = true := by simpa using hs
      simp only [this, if_true]
      rw [if_pos (key w hw)]
    · rw [if_neg hs] at hw
      have : ((some c == some '-') || (some c == some '+')) = false := by simpa [not_or] using hs
      simp only [this, Bool.false_eq_true, if_false]
      rw [← List.cons_append, if_pos (key (c :: w) hw)]

theorem num_word {b : Nat} {s w : Str} {n : Nat} {ts : List Str} (h : Words s (w :: ts)) (hn : Numeral w n) (hb : n < b) :
    ∃ rest, num b s = .ok (n, rest) ∧ Words rest ts := by
  cases h with
  | @cons ws _ rest _ h1 h2 h3 h4 h5 =>
    refine ⟨rest, ?_, h5⟩
    obtain ⟨n1, n2, n3, -⟩ := hn
    obtain ⟨t1, t2⟩ := takeWhile_app (p := Char.isDigit) (w := w) (rest := rest) n2 (not_digit_of_ws h4)
    obtain ⟨d1, d2⟩ := digits_head (rest := rest) n1 n2
    unfold num uint
    rw [skip_word h1 h2 h3]
    dsimp only
    rw [d1, d2]
    simp only [Bool.or_self, Bool.false_eq_true, if_false]
    rw [t1, t2, if_neg n1, n3, if_neg (by simp only [false_and, false_or, not_le]; exact hb)]
    rfl

theorem num_eof {b : Nat} {s : Str} (h : Words s []) : num b s = .fatal := by
  generalize he : ([] : List Str) = ts at h
  cases h with
  | nil h =>
    unfold num uint
    have : skip s = [] := by
      have := skip_ws (s := []) h (by simp)
      rwa [List.append_nil] at this
    rw [this]
    rfl
  | cons => exact absurd he (by simp)

theorem obs_words {s : Str} {o : Obstacle} {a b c d : Str} {ts : List Str} (h : Words s (a :: b :: c :: d :: ts))
    (ha : IntNumeral a o.x) (hb : IntNumeral b o.y) (hc : IntNumeral c o.dx) (hd : IntNumeral d o.dy) :
    ∃ rest, obs s = .ok (some (o, rest)) ∧ Words rest ts ∧ rest.length < s.length := by
  obtain ⟨r1, e1, h1, l1⟩ := sint_word h ha
  obtain ⟨r2, e2, h2, l2⟩ := sint_word h1 hb
  obtain ⟨r3, e3, h3, l3⟩ := sint_word h2 hc
  obtain ⟨r4, e4, h4, l4⟩ := sint_word h3 hd
  refine ⟨r4, ?_, h4, by omega⟩
  simp only [obs, andThen, e1, e2, e3, e4, Outcome.bind_ok]

theorem obs_ends {s : Str} {ts : List Str} (h : Words s ts) (he : Ends 3 ts) : obs s = .ok none := by
  have stop : ∀ {n : Nat} {s : Str} {ts : List Str}, Words s ts → Ends n ts →
      sint s = .ok none ∨ ∃ z rest m ts', sint s = .ok (some (z, rest)) ∧ n = m + 1 ∧ Words rest ts' ∧ Ends m ts' := by
    intro n s ts h he
    cases he with
    | eof => exact .inl (sint_eof h)
    | word _ _ hw => exact .inl (sint_bad h hw)
    | num hz he =>
      obtain ⟨rest, e, h', -⟩ := sint_word h hz
      exact .inr ⟨_, rest, _, _, e, rfl, h', he⟩
  unfold obs
  rcases stop h he with e | ⟨z1, r1, m1, t1, e, hm1, h1, he1⟩
  · rw [e]; rfl
  rw [e]
  show andThen (sint r1) _ = _
  rcases stop h1 he1 with e | ⟨z2, r2, m2, t2, e, hm2, h2, he2⟩
  · rw [e]; rfl
  rw [e]
  show andThen (sint r2) _ = _
  rcases stop h2 he2 with e | ⟨z3, r3, m3, t3, e, hm3, h3, he3⟩
  · rw [e]; rfl
  rw [e]
  show andThen (sint r3) _ = _
  rcases stop h3 he3 with e | ⟨z4, r4, m4, t4, e, hm4, -, -⟩
  · rw [e]; rfl
  · omega

theorem obsLoop_words {os : List Obstacle} {ws : List Str} (ho : ObsWords os ws) {tl : List Str} (ht : Ends 3 tl) :
    ∀ (fuel : Nat) {s : Str}, Words s (ws ++ tl) → s.length < fuel → obsLoop fuel s = .ok os := by
  induction ho with
  | nil =>
    intro fuel s h hf
    obtain ⟨fuel, rfl⟩ : ∃ f, fuel = f + 1 := ⟨fuel - 1, by omega⟩
    rw [obsLoop, obs_ends h ht]
    rfl
  | cons h1 h2 h3 h4 _ ih =>
    intro fuel s h hf
    obtain ⟨fuel, rfl⟩ : ∃ f, fuel = f + 1 := ⟨fuel - 1, by omega⟩
    obtain ⟨rest, e, h', hl⟩ := obs_words h h1 h2 h3 h4
    rw [obsLoop, e, Outcome.bind_ok]
    dsimp only
    rw [ih fuel h' (by omega)]
    rfl

/-! ## Reading -/

/-- **C111.** A file with numbers between white space, in whatever layout, gives the instance that it shows; what follows
the last complete obstacle does not matter. -/
theorem c111_read {sx sy gx gy w h : Nat} {os : List Obstacle} {hd ws tl : List Str} {s : Str} (hh : Header sx sy gx gy w h hd)
    (ho : ObsWords os ws) (ht : Ends 3 tl) (hs : Words s (hd ++ ws ++ tl)) :
    read s = .ok (⟨w, h, os, (sy * w + sx) % 2 ^ 32, (gy * w + gx) % 2 ^ 32⟩, w * h % 2 ^ 32) := by
  obtain ⟨a, b, c, d, e, f, rfl, ha, hb, hc, hd', he, hf⟩ := hh.words
  obtain ⟨s1, s2, s3, s4⟩ := hh.small
  rw [List.append_assoc] at hs
  obtain ⟨r1, e1, h1⟩ := num_word (b := 2 ^ 31) hs ha s1
  obtain ⟨r2, e2, h2⟩ := num_word (b := 2 ^ 31) h1 hb s2
  obtain ⟨r3, e3, h3⟩ := num_word (b := 2 ^ 31) h2 hc s3
  obtain ⟨r4, e4, h4⟩ := num_word (b := 2 ^ 31) h3 hd' s4
  obtain ⟨r5, e5, h5⟩ := num_word (b := 2 ^ 32) h4 he he.2.2.2
  obtain ⟨r6, e6, h6⟩ := num_word (b := 2 ^ 32) h5 hf hf.2.2.2
  unfold read
  simp only [e1, e2, e3, e4, e5, e6, Outcome.bind_ok]
  rw [obsLoop_words ho ht _ h6 (by omega)]
  rfl

/-- **C111.** A file with less than six words ends the program with a message, if the words are numbers. -/
theorem c111_short {ws : List Str} {s : Str} (hs : Words s ws) (hn : ∀ w ∈ ws, ∃ n < 2 ^ 31, Numeral w n) (hl : ws.length < 6) :
    read s = .fatal := by
  have step : ∀ {s : Str} {ws : List Str} (b : Nat), 2 ^ 31 ≤ b → Words s ws → (∀ w ∈ ws, ∃ n < 2 ^ 31, Numeral w n) →
      num b s = .fatal ∨ ∃ n rest w ts, num b s = .ok (n, rest) ∧ ws = w :: ts ∧ Words rest ts ∧
        ∀ w ∈ ts, ∃ n < 2 ^ 31, Numeral w n := by
    intro s ws b hb h hn
    cases ws with
    | nil => exact .inl (num_eof h)
    | cons w ts =>
      obtain ⟨n, h1, h2⟩ := hn w (by simp)
      obtain ⟨rest, e, h3⟩ := num_word (b := b) h h2 (by omega)
      exact .inr ⟨n, rest, w, ts, e, rfl, h3, fun w hw => hn w (by simp [hw])⟩
  unfold read
  rcases step (2 ^ 31) le_rfl hs hn with e | ⟨n1, r1, w1, t1, e, rfl, hs, hn⟩
  · rw [e]; rfl
  rw [e, Outcome.bind_ok]
  dsimp only
  rcases step (2 ^ 31) le_rfl hs hn with e | ⟨n2, r2, w2, t2, e, rfl, hs, hn⟩
  · rw [e]; rfl
  rw [e, Outcome.bind_ok]
  dsimp only
  rcases step (2 ^ 31) le_rfl hs hn with e | ⟨n3, r3, w3, t3, e, rfl, hs, hn⟩
  · rw [e]; rfl
  rw [e, Outcome.bind_ok]
  dsimp only
  rcases step (2 ^ 31) le_rfl hs hn with e | ⟨n4, r4, w4, t4, e, rfl, hs, hn⟩
  · rw [e]; rfl
  rw [e, Outcome.bind_ok]
  dsimp only
  rcases step (2 ^ 32) (by norm_num) hs hn with e | ⟨n5, r5, w5, t5, e, rfl, hs, hn⟩
  · rw [e]; rfl
  rw [e, Outcome.bind_ok]
  dsimp only
  rcases step (2 ^ 32) (by norm_num) hs hn with e | ⟨n6, r6, w6, t6, e, rfl, hs, hn⟩
  · rw [e]; rfl
  simp only [List.length_cons] at hl
  omega

/-! ## Writing -/

theorem words_ws {c : Char} {s : Str} {ts : List Str} (hc : isws c = true) (h : Words s ts) : Words (c :: s) ts := by
  cases h with
  | nil h =>
    refine .nil fun d hd => ?_
    rcases List.mem_cons.1 hd with rfl | hd
    · exact hc
    · exact h d hd
  | @cons ws w rest ts h1 h2 h3 h4 h5 =>
    have : c :: (ws ++ w ++ rest) = (c :: ws) ++ w ++ rest := rfl
    rw [this]
    refine .cons (fun d hd => ?_) h2 h3 h4 h5
    rcases List.mem_cons.1 hd with rfl | hd
    · exact hc
    · exact h1 d hd

theorem words_word {w : Str} {c : Char} {s : Str} {ts : List Str} (h2 : w ≠ []) (h3 : ∀ c ∈ w, isws c = false)
    (hc : isws c = true) (h : Words s ts) : Words (w ++ c :: s) (w :: ts) := by
  have := Words.cons (ws := []) (by simp) h2 h3 (rest := c :: s) (fun d hd => by
    rw [List.head?_cons, Option.some.injEq] at hd
    rw [← hd]; exact hc) (words_ws hc h)
  simpa using this

theorem toDigits_facts (m : Nat) : (∀ c ∈ Nat.toDigits 10 m, c.isDigit = true) ∧ Nat.toDigits 10 m ≠ [] ∧
    Nat.ofDigitChars 10 (Nat.toDigits 10 m) 0 = m :=
  ⟨fun _ hc => Nat.isDigit_of_mem_toDigits (by omega) (by omega) hc, Nat.toDigits_ne_nil,
    Nat.ofDigitChars_toDigits (by omega) (by omega)⟩

theorem shows_numeral {z : Int} (h : -2 ^ 31 ≤ z ∧ z < 2 ^ 31) : IntNumeral (shows z) z := by
  obtain ⟨d1, d2, d3⟩ := toDigits_facts z.natAbs
  refine ⟨_, _, d2, d1, d3, ?_, h⟩
  unfold shows
  split
  · exact .inr (.inr ⟨rfl, by omega⟩)
  · exact .inl ⟨rfl, by omega⟩

theorem shows_word (z : Int) : shows z ≠ [] ∧ ∀ c ∈ shows z, isws c = false := by
  obtain ⟨d1, d2, d3⟩ := toDigits_facts z.natAbs
  unfold shows
  split
  · refine ⟨by simp, fun c hc => ?_⟩
    rcases List.mem_cons.1 hc with rfl | hc
    · decide
    · exact isws_digit (d1 c hc)
  · exact ⟨d2, fun c hc => isws_digit (d1 c hc)⟩

theorem asInt_numeral {n : Nat} (h : n < 2 ^ 31) : Numeral (shows (asInt n)) n := by
  obtain ⟨d1, d2, d3⟩ := toDigits_facts n
  have : shows (asInt n) = Nat.toDigits 10 n := by
    unfold shows asInt
    rw [if_pos h, if_neg (by omega), Int.natAbs_natCast]
  rw [this]
  exact ⟨d2, d1, d3, by omega⟩

theorem writeObs_words {os : List Obstacle} (h : ∀ o ∈ os, ∀ z ∈ [o.x, o.y, o.dx, o.dy], -2 ^ 31 ≤ z ∧ z < 2 ^ 31) :
    ∃ ws, ObsWords os ws ∧ Words (writeObs os) ws := by
  induction os with
  | nil => exact ⟨[], .nil, .nil (by simp [writeObs])⟩
  | cons o os ih =>
    obtain ⟨ws, h1, h2⟩ := ih fun o ho => h o (by simp [ho])
    have ho := h o (by simp)
    have sp : isws ' ' = true := by decide
    have nl : isws '\n' = true := by decide
    refine ⟨_, .cons (shows_numeral (ho o.x (by simp))) (shows_numeral (ho o.y (by simp))) (shows_numeral (ho o.dx (by simp)))
      (shows_numeral (ho o.dy (by simp))) h1, ?_⟩
    rw [writeObs]
    exact words_word (shows_word _).1 (shows_word _).2 sp (words_word (shows_word _).1 (shows_word _).2 sp
      (words_word (shows_word _).1 (shows_word _).2 sp (words_word (shows_word _).1 (shows_word _).2 nl h2)))

/-- **C111.** An instance whose start and goal are on the grid, printed and read again, is the same instance. -/
theorem c111_roundtrip {I : Inst} (hI : Sized I) : ∃ s, write I = .ok s ∧ read s = .ok (I, I.w * I.h) := by
  have hw : 0 < I.w := by
    rcases Nat.eq_zero_or_pos I.w with h | h
    · have := hI.start; rw [h, Nat.zero_mul] at this; omega
    · exact h
  have dv : ∀ {n : Nat}, n < I.w * I.h → n / I.w < 2 ^ 31 := fun h => lt_trans (Nat.div_lt_of_lt_mul h) hI.h
  have md : ∀ n : Nat, n % I.w < 2 ^ 31 := fun n => lt_trans (Nat.mod_lt n hw) hI.w
  have back : ∀ {n : Nat}, n < I.w * I.h → (n / I.w * I.w + n % I.w) % 2 ^ 32 = n := fun {n} h => by
    rw [Nat.div_add_mod', Nat.mod_eq_of_lt (lt_trans h hI.wh)]
  have sp : isws ' ' = true := by decide
  have nl : isws '\n' = true := by decide
  obtain ⟨ws, h1, h2⟩ := writeObs_words hI.obstacles
  unfold write
  rw [if_neg (by omega)]
  refine ⟨_, rfl, ?_⟩
  have W := words_word (shows_word (asInt (I.start % I.w))).1 (shows_word _).2 sp
    (words_word (shows_word (asInt (I.start / I.w))).1 (shows_word _).2 sp
    (words_word (shows_word (asInt (I.finish % I.w))).1 (shows_word _).2 sp
    (words_word (shows_word (asInt (I.finish / I.w))).1 (shows_word _).2 nl
    (words_word (shows_word (asInt I.w)).1 (shows_word _).2 sp (words_word (shows_word (asInt I.h)).1 (shows_word _).2 nl h2)))))
  rw [c111_read (os := I.obstacles) (hd := [_, _, _, _, _, _]) (tl := [])
    ⟨⟨_, _, _, _, _, _, rfl, asInt_numeral (md _), asInt_numeral (dv hI.start), asInt_numeral (md _), asInt_numeral (dv hI.finish),
      asInt_numeral hI.w, asInt_numeral hI.h⟩, md _, dv hI.start, md _, dv hI.finish⟩ h1 (.eof 3) (by simpa using W),
    back hI.start, back hI.finish, Nat.mod_eq_of_lt hI.wh]

/-- The hypotheses hold for an instance with an obstacle. -/
example : Sized ⟨6, 2, [⟨5, 0, -1, 0⟩], 1, 11⟩ ∧
    write ⟨6, 2, [⟨5, 0, -1, 0⟩], 1, 11⟩ = .ok "1 0 5 1\n6 2\n5 0 -1 0\n".toList := by
  refine ⟨⟨by decide, by decide, by decide, by decide, by decide, by decide⟩, by decide +kernel⟩

/-! ## What is not checked -/

/-- **C111, violation.** A file that is cut off, or that has something else in it, silently gives an instance with fewer obstacles. -/
theorem c111_cut {sx sy gx gy w h : Nat} {o : Obstacle} {os : List Obstacle} {hd ws tl : List Str} {a b c d : Str} {s s' : Str}
    (hh : Header sx sy gx gy w h hd) (ho : ObsWords os ws) (ha : IntNumeral a o.x) (hb : IntNumeral b o.y)
    (hc : IntNumeral c o.dx) (hd' : IntNumeral d o.dy) (ht : tl <+: [a, b, c]) (hs : Words s (hd ++ (ws ++ [a, b, c, d])))
    (hs' : Words s' (hd ++ ws ++ tl)) :
    ∃ I, read s' = .ok I ∧ I.1.obstacles = os ∧ ∃ J, read s = .ok J ∧ J.1.obstacles = os ++ [o] := by
  have app : ∀ {os : List Obstacle} {ws : List Str}, ObsWords os ws → ObsWords (os ++ [o]) (ws ++ [a, b, c, d]) := by
    intro os ws h
    induction h with
    | nil => exact .cons ha hb hc hd' .nil
    | cons h1 h2 h3 h4 _ ih => exact .cons h1 h2 h3 h4 ih
  refine ⟨_, c111_read hh ho ?_ hs', rfl, _, c111_read hh (app ho) (.eof 3) (by simpa using hs), rfl⟩
  have h3 : Ends 0 [] := .eof 0
  rcases List.prefix_cons_iff.1 ht with rfl | ⟨t1, e1, ht1⟩
  · exact .eof 3
  · rw [e1]
    refine .num ha ?_
    rcases List.prefix_cons_iff.1 ht1 with rfl | ⟨t2, e2, ht2⟩
    · exact .eof 2
    · rw [e2]
      refine .num hb ?_
      rcases List.prefix_cons_iff.1 ht2 with rfl | ⟨t3, e3, ht3⟩
      · exact .eof 1
      · rw [e3, show t3 = [] by simpa using ht3]
        exact .num hc h3

/-- A comment between the obstacles: the second obstacle is not seen. -/
example : read "0 0 3 3\n4 4\n1 1 0 1\n# second\n2 2 0 1\n".toList = .ok (⟨4, 4, [⟨1, 1, 0, 1⟩], 0, 15⟩, 16) := by
  decide +kernel

/-- **C111, violation.** A start beyond the right side is in a lower row; one below the grid makes the first step of every
search an assertion failure. -/
theorem c111_wrap {sx sy gx gy w h : Nat} {os : List Obstacle} {hd ws : List Str} {s : Str} (hh : Header sx sy gx gy w h hd)
    (ho : ObsWords os ws) (hs : Words s (hd ++ ws)) (hw : 0 < w) (hsz : sy * w + sx < 2 ^ 32) :
    ∃ I n, read s = .ok (I, n) ∧ coord I I.start = (((sx % w : Nat) : Int), ((sy + sx / w : Nat) : Int)) ∧
      (h ≤ sy + sx / w → ∀ op, edge I (initialstate I) op = .fatal) := by
  refine ⟨_, _, c111_read (tl := []) hh ho (.eof 3) (by simpa using hs), ?_, fun hout op => ?_⟩
  · unfold coord
    dsimp only
    rw [Nat.mod_eq_of_lt hsz, Nat.mul_comm sy w, Nat.mul_add_mod, Nat.mul_add_div hw]
  · unfold edge initialstate
    dsimp only
    rw [if_pos ?_]
    rw [Nat.mod_eq_of_lt hsz]
    have h1 := Nat.div_mul_le_self sx w
    have h2 : h * w ≤ (sy + sx / w) * w := Nat.mul_le_mul_right _ hout
    rw [Nat.add_mul] at h2
    rw [Nat.mul_comm w h]
    omega

/-- **C111, violation.** The number of cells wraps round. -/
theorem c111_size : read "0 0 1 1\n65536 65536\n".toList = .ok (⟨65536, 65536, [], 0, 65537⟩, 0) := by
  decide +kernel

/-- **C111, violation.** A grid without columns cannot be printed. -/
theorem c111_empty {I : Inst} (h : I.w = 0) : write I = .ub := by
  unfold write; rw [if_pos h]

/-! ## Random instances -/

theorem randObs_spec {w h : Nat} (hw : 2 ≤ w) (hh : 2 ≤ h) : ∀ {ds : List (Nat × Nat × Nat × Nat)} {os : List Obstacle},
    randObs w h ds = .ok os → os.length = ds.length ∧
      ∀ o ∈ os, (1 ≤ o.x ∧ o.x < w) ∧ (1 ≤ o.y ∧ o.y < h) ∧ |o.dx| ≤ 1 ∧ |o.dy| ≤ 1
  | [], os, e => by
    cases e
    simp
  | (a, b, c, d) :: ds, os, e => by
    rw [randObs, if_neg (by omega)] at e
    obtain ⟨os', e1, rfl⟩ := Outcome.map_eq_ok.1 e
    obtain ⟨h1, h2⟩ := randObs_spec hw hh e1
    refine ⟨by simp [h1], fun o ho => ?_⟩
    rcases List.mem_cons.1 ho with rfl | ho
    · have ha := Nat.mod_lt a (show 0 < w - 1 by omega)
      have hb := Nat.mod_lt b (show 0 < h - 1 by omega)
      have hc := Nat.mod_lt c (show 0 < 3 by omega)
      have hd := Nat.mod_lt d (show 0 < 3 by omega)
      dsimp only
      refine ⟨⟨by omega, by omega⟩, ⟨by omega, by omega⟩, abs_le.2 ⟨by omega, by omega⟩, abs_le.2 ⟨by omega, by omega⟩⟩
    · exact h2 o ho

theorem corner_lt {w h : Nat} (hw : 1 ≤ w) (hh : 1 ≤ h) : (h - 1) * w + (w - 1) < w * h := by
  obtain ⟨a, rfl⟩ : ∃ a, h = a + 1 := ⟨h - 1, by omega⟩
  rw [Nat.add_sub_cancel, Nat.mul_add, Nat.mul_comm w a]
  omega

/-- **C111.** An instance that the generator prints has a solution when it is read; the start is in one corner and the goal in
the opposite one, the obstacles begin elsewhere than in the first row and column and move at most one cell at a time. -/
theorem c111_random {w h n : Nat} {out : Str} (hw : 2 ≤ w) (hh : 2 ≤ h) (hw' : w < 2 ^ 31) (hh' : h < 2 ^ 31) (hwh : w * h < 2 ^ 32)
    (hr : Randinst w h n out) :
    ∃ I, read out = .ok (I, w * h) ∧ I.w = w ∧ I.h = h ∧ coord I I.start = (0, 0) ∧
      coord I I.finish = ((w : Int) - 1, (h : Int) - 1) ∧ I.obstacles.length = n ∧
      (∀ o ∈ I.obstacles, (1 ≤ o.x ∧ o.x < w) ∧ (1 ≤ o.y ∧ o.y < h) ∧ |o.dx| ≤ 1 ∧ |o.dy| ≤ 1) ∧
      (∃ r c, Search.Solution (dom I) (initialstate I) r c) := by
  obtain ⟨hn, ho, hrun, hpos, hout⟩ := hr
  rename_i ds os l st r
  obtain ⟨h1, h2⟩ := randObs_spec hw hh ho
  have hc := corner_lt (w := w) (h := h) (by omega) (by omega)
  have hsz : Sized (randInst w h os) := by
    refine ⟨hw', hh', hwh, ?_, hc, fun o ho z hz => ?_⟩
    · show 0 < w * h
      exact lt_of_le_of_lt (Nat.zero_le _) hc
    · obtain ⟨⟨a1, a2⟩, ⟨a3, a4⟩, a5, a6⟩ := h2 o ho
      rw [abs_le] at a5 a6
      have : (w : Int) < 2 ^ 31 := by exact_mod_cast hw'
      have : (h : Int) < 2 ^ 31 := by exact_mod_cast hh'
      simp only [List.mem_cons, List.not_mem_nil, or_false] at hz
      rcases hz with rfl | rfl | rfl | rfl <;> constructor <;> omega
  obtain ⟨s, e1, e2⟩ := c111_roundtrip hsz
  rw [hout] at e1
  cases e1
  have hI : InstOk (randInst w h os) := ⟨hw, hh, hsz.start, hc⟩
  refine ⟨_, e2, rfl, rfl, by simp [coord, randInst], ?_, h1.trans hn, h2, ?_⟩
  · unfold coord randInst
    dsimp only
    rw [Nat.mul_comm, Nat.mul_add_mod, Nat.mod_eq_of_lt (by omega), Nat.mul_add_div (by omega), Nat.div_eq_of_lt (by omega)]
    ext <;> simp <;> omega
  · rcases Search.run_solution (domOk hI).cost (Search.greedy_ok _ _) hrun with h3 | ⟨n, c, -, -, h3, -⟩
    · rw [h3] at hpos
      simp at hpos
    · exact ⟨r, c, h3⟩

/-- A grid with an obstacle that goes up and down in the middle. -/
def exI : Inst := randInst 3 2 [⟨1, 1, 0, 1⟩]

/-- The search of the generator on it, up to the goal. -/
def exSt : Search.St State Int Int Int :=
  (Search.run (dom exI) (Search.greedy (Traffic.h exI) false) 20
    (Search.init (dom exI) (Search.greedy (Traffic.h exI) false) (initialstate exI))).1

theorem reachL_free {S O C P : Type} [DecidableEq S] [DecidableEq O] [AddCommGroup C] [LinearOrder C] {d : Search.Dom S O C} {a : Search.Alg S C P}
    {s0 : S} {st : Search.St S O C P} (h : Search.Reach d a s0 st) : Search.ReachL d a s0 ⟨0, 0⟩ st := by
  induction h with
  | init => exact .init
  | step _ hs ih => exact .step ih (by simp [Search.Limit.reached]) hs

theorem exRun : Search.Run (dom exI) (Search.greedy (Traffic.h exI) false) (initialstate exI) ⟨0, 0⟩ exSt
    ([⟨5, 4⟩, ⟨4, 3⟩, ⟨3, 2⟩, ⟨3, 1⟩, ⟨0, 0⟩], [3, 3, 4, 0]) :=
  .found (n := 9) (fuel := 10) (reachL_free (Search.run_reach _ .init)) (by simp [Search.Limit.reached]) (by decide +kernel)
    (by decide +kernel) (by decide +kernel)

/-- The generator can print an instance with an obstacle. -/
example : Randinst 3 2 1 "0 0 2 1\n3 2\n1 1 0 1\n".toList :=
  .mk (ds := [(0, 0, 1, 2)]) (os := [⟨1, 1, 0, 1⟩]) rfl (by decide) exRun (by decide) (by decide +kernel)

/-- **C111, violation.** Without obstacles on a grid of one cell the generator never prints anything; with obstacles, a grid of one column or
row is a division by zero. -/
theorem c111_one_cell {n : Nat} {out : Str} : ¬ Randinst 1 1 n out := by
  rintro ⟨hn, ho, hrun, hpos, -⟩
  rename_i ds os l st r
  have hg : ∀ {st}, Search.ReachL (dom (randInst 1 1 os)) (Search.greedy (Traffic.h (randInst 1 1 os)) false)
      (initialstate (randInst 1 1 os)) l st → st = Search.init (dom (randInst 1 1 os)) (Search.greedy (Traffic.h (randInst 1 1 os)) false)
      (initialstate (randInst 1 1 os)) := by
    intro st h
    induction h with
    | init => rfl
    | step _ _ hs ih =>
      subst ih
      cases hs with
      | mk _ hgoal => exact absurd hgoal (by simp [Search.init, dom, initialstate, randInst])
  cases hrun with
  | found tr h1 hl h2 hs =>
    rw [hg tr, Search.solpath_pop] at hs
    rename_i n fuel
    cases fuel with
    | zero => simp [Search.solpath] at hs
    | succ fuel =>
      simp only [Search.solpath, Search.init, Outcome.ok.injEq] at hs
      rw [← hs] at hpos
      simp at hpos
  | empty => simp at hpos
  | cut => simp at hpos

theorem c111_one_wide {w h : Nat} (hwh : w = 1 ∨ h = 1) (d : Nat × Nat × Nat × Nat) (ds : List (Nat × Nat × Nat × Nat)) :
    randObs w h (d :: ds) = .ub := by
  obtain ⟨a, b, c, e⟩ := d
  rw [randObs, if_pos hwh]

/-- **C111, violation.** With three arguments the program does not print how it is used: it reads a null pointer. -/
theorem c111_args (p w h n : Str) : randArgs [p, w, h, n] = .ub := rfl

end Verif.TrafficFile
