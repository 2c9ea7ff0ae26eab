import Verif.Domains.Segments
import Verif.Utils.Datafile

/-!
# Model of writing and reading of solution paths (segments/segments.cc:405-433, 452-497)

A `std::stringstream` that is read from is what is left of it and the two state bits.  An `int` that no extraction has
assigned is `none`; using it is undefined behaviour.
-/

namespace Verif.Segments

open Verif.Str

/-- The text that `operator<<` makes of an integer. -/
def decimal (z : Int) : Str := (Datafile.Col.int z).text

/-- segments.cc:421-431: the text of one operator; `fatal` for operators that are neither rotation nor move. -/
def optext (o : Oper) : Outcome Str :=
  match o.op with
  | .rotate => .ok (['r', ' '] ++ decimal o.seg ++ ' ' :: decimal o.delta)
  | .move => .ok (['m', ' '] ++ decimal o.seg ++ ' ' :: decimal o.delta ++ ' ' :: decimal o.dy)
  | .none => .fatal

/-- segments.cc:420-432: the value of the pair `path`; `ops` is the solution, last operator first. -/
def pathtext (ops : List Oper) : Outcome Str :=
  ops.reverse.foldr (fun o r => (optext o).bind fun t => r.map (t ++ ·)) (.ok [])

/-- An input stream. -/
structure Stm where
  rest : Str
  eof : Bool
  fail : Bool
deriving DecidableEq

/-- `in >> c` for a `char c` -/
def getch (s : Stm) : Stm × Option Char :=
  if s.eof || s.fail then (⟨s.rest, s.eof, true⟩, none)
  else match s.rest.dropWhile isws with
    | [] => (⟨[], true, true⟩, none)
    | c :: r => (⟨r, false, false⟩, some c)

/-- The sign. -/
def sign : Str → Bool × Str
  | [] => (false, [])
  | c :: t => if c = '-' then (true, t) else if c = '+' then (false, t) else (false, c :: t)

/-- `in >> z` for an `int z`: white space, a sign, digits; without digits 0 is stored, and a number that does not fit is
replaced by the nearest one that does, both with the fail bit. -/
def getint (s : Stm) : Stm × Option Int :=
  if s.eof || s.fail then (⟨s.rest, s.eof, true⟩, none)
  else
    let r := s.rest.dropWhile isws
    if r = [] then (⟨[], true, true⟩, none)
    else
      let d := (sign r).2.takeWhile Char.isDigit
      let r2 := (sign r).2.dropWhile Char.isDigit
      let v : Int := Nat.ofDigitChars 10 d 0
      let z := if (sign r).1 then -v else v
      if d = [] then (⟨r2, r2.isEmpty, true⟩, some 0)
      else if z > 2 ^ 31 - 1 then (⟨r2, r2.isEmpty, true⟩, some (2 ^ 31 - 1))
      else if z < -2 ^ 31 then (⟨r2, r2.isEmpty, true⟩, some (-2 ^ 31))
      else (⟨r2, r2.isEmpty, false⟩, some z)

/-- segments.cc:456-482: the loop of `scanops`. -/
def scanloop : Nat → Stm → List Oper → Outcome (List Oper)
  | 0, _, _ => .nofuel
  | fuel + 1, s, acc =>
    if s.eof then .ok acc
    else
      let (s1, tag) := getch s
      let (s2, seg) := getint s1
      if s2.eof then .ok acc
      else match tag with
        | none => .ub
        | some c =>
          if c = 'm' then
            let (s3, dx) := getint s2
            let (s4, dy) := getint s3
            match seg, dx, dy with
            | some sg, some x, some y => scanloop fuel s4 (acc ++ [⟨.move, toU sg, x, y⟩])
            | _, _, _ => .ub
          else if c = 'r' then
            let (s3, d) := getint s2
            match seg, d with
            | some sg, some x => scanloop fuel s3 (acc ++ [⟨.rotate, toU sg, x, 0⟩])
            | _, _ => .ub
          else .fatal

/-- segments.cc:452-485 `scanops` -/
def scanops (t : Str) : Outcome (List Oper) := scanloop (t.length + 1) ⟨t, false, false⟩ []

/-- segments.cc:487-493: what `dfline` does with a line that has the path. -/
def readpath (line : List Str) (ops : List Oper) : Outcome (List Oper) :=
  if line.length = 3 ∧ line[0]? = some (Datafile.chars "#pair") ∧ line[1]? = some (Datafile.chars "path") then
    scanops (line.getD 2 [])
  else .ok ops

/-- segments.cc:514-518 `readdf`: the operators of a data file. -/
def readdf (f : Str) : Outcome (List Oper) :=
  (Datafile.dfread f).bind fun ls => ls.foldl (fun r l => r.bind fun ops => readpath l ops) (.ok [])

/-- Operators that can be written and read: the numbers fit `int`, and rotations have no second number. -/
def Writable (o : Oper) : Prop :=
  o.op ≠ .none ∧ o.seg < 2 ^ 31 ∧ (-2 ^ 31 ≤ o.delta ∧ o.delta < 2 ^ 31) ∧ (-2 ^ 31 ≤ o.dy ∧ o.dy < 2 ^ 31) ∧
    (o.op = .rotate → o.dy = 0)

/-! ## Reading what was written -/

/-- The text of an operator without the failure. -/
def otext (o : Oper) : Str :=
  if o.op = .rotate then ['r', ' '] ++ decimal o.seg ++ ' ' :: decimal o.delta
  else ['m', ' '] ++ decimal o.seg ++ ' ' :: decimal o.delta ++ ' ' :: decimal o.dy

theorem optext_eq {o : Oper} (h : o.op ≠ .none) : optext o = .ok (otext o) := by
  unfold optext otext
  cases e : o.op with
  | none => exact absurd e h
  | rotate => simp
  | move => simp

theorem pathtext_eq {ops : List Oper} (h : ∀ o ∈ ops, o.op ≠ .none) :
    pathtext ops = .ok (ops.reverse.flatMap otext) := by
  have key : ∀ l : List Oper, (∀ o ∈ l, o.op ≠ .none) →
      l.foldr (fun o r => (optext o).bind fun t => r.map (t ++ ·)) (.ok []) = .ok (l.flatMap otext) := by
    intro l hl
    induction l with
    | nil => rfl
    | cons o l ih =>
      rw [List.foldr_cons, ih fun o ho => hl o (by simp [ho]), optext_eq (hl o (by simp)), Outcome.bind_ok,
        Outcome.map_ok, List.flatMap_cons]
  exact key _ fun o ho => h o (by simpa using ho)

theorem decimal_digits (m : Nat) : (∀ c ∈ Nat.toDigits 10 m, c.isDigit = true) ∧ Nat.toDigits 10 m ≠ [] ∧
    Nat.ofDigitChars 10 (Nat.toDigits 10 m) 0 = m :=
  ⟨fun _ hc => Nat.isDigit_of_mem_toDigits (by omega) (by omega) hc, Nat.toDigits_ne_nil,
    Nat.ofDigitChars_toDigits (by omega) (by omega)⟩

theorem takeWhile_all {p : Char → Bool} {l r : Str} (h : ∀ c ∈ l, p c = true) (hr : ∀ c, r.head? = some c → p c = false) :
    (l ++ r).takeWhile p = l ∧ (l ++ r).dropWhile p = r := by
  induction l with
  | nil =>
    cases r with
    | nil => exact ⟨rfl, rfl⟩
    | cons c r =>
      have := hr c rfl
      simp [this]
  | cons c l ih =>
    obtain ⟨h1, h2⟩ := ih fun c hc => h c (by simp [hc])
    have := h c (by simp)
    simp [this, h1, h2]

theorem digit_ne {c : Char} (h : c.isDigit = true) : c ≠ '-' ∧ c ≠ '+' ∧ isws c = false := by
  refine ⟨?_, ?_, ?_⟩
  · rintro rfl; exact absurd h (by decide)
  · rintro rfl; exact absurd h (by decide)
  · simp only [Char.isDigit, Bool.and_eq_true, decide_eq_true_eq, UInt32.le_iff_toNat_le] at h
    unfold isws
    have h1 : 48 ≤ c.toNat := h.1
    simp only [Bool.or_eq_false_iff, beq_eq_false_iff_ne, ne_eq, Bool.and_eq_false_iff, decide_eq_false_iff_not]
    refine ⟨?_, by omega⟩
    rintro rfl
    exact absurd h1 (by decide)

/-- Reading a number that was written after a space. -/
theorem getint_decimal {z : Int} (h1 : -2 ^ 31 ≤ z) (h2 : z < 2 ^ 31) {r : Str}
    (hr : ∀ c, r.head? = some c → c.isDigit = false) :
    getint ⟨' ' :: (decimal z ++ r), false, false⟩ = (⟨r, r.isEmpty, false⟩, some z) := by
  rw [← List.cons_append]
  obtain ⟨d1, d2, d3⟩ := decimal_digits z.natAbs
  have hsign : sign ((' ' :: decimal z ++ r).dropWhile isws) = (decide (z < 0), Nat.toDigits 10 z.natAbs ++ r) ∧
      (' ' :: decimal z ++ r).dropWhile isws ≠ [] := by
    unfold decimal Datafile.Col.text
    dsimp only
    by_cases hz : z < 0
    · rw [if_pos hz]
      have : (' ' :: ('-' :: Nat.toDigits 10 z.natAbs) ++ r).dropWhile isws = '-' :: (Nat.toDigits 10 z.natAbs ++ r) := by
        rw [List.cons_append, List.dropWhile_cons_of_pos (by decide), List.cons_append,
          List.dropWhile_cons_of_neg (by decide)]
      rw [this, sign, if_pos rfl]
      simp [hz]
    · rw [if_neg hz]
      cases hd : Nat.toDigits 10 z.natAbs with
      | nil => exact absurd hd d2
      | cons c l =>
        have hc := digit_ne (d1 c (by rw [hd]; simp))
        have : (' ' :: (c :: l) ++ r).dropWhile isws = c :: (l ++ r) := by
          rw [List.cons_append, List.dropWhile_cons_of_pos (by decide), List.cons_append,
            List.dropWhile_cons_of_neg (by rw [hc.2.2]; decide)]
        rw [this, sign, if_neg hc.1, if_neg hc.2.1]
        simp [hz]
  obtain ⟨t1, t2⟩ := takeWhile_all d1 hr
  unfold getint
  rw [if_neg (by simp)]
  dsimp only
  rw [if_neg hsign.2, hsign.1, t1, t2, if_neg d2, d3]
  have e : (if decide (z < 0) = true then -((z.natAbs : Nat) : Int) else ((z.natAbs : Nat) : Int)) = z := by
    by_cases hz : z < 0
    · rw [if_pos (by simpa using hz)]; omega
    · rw [if_neg (by simpa using hz)]; omega
  dsimp only
  rw [e, if_neg (by omega), if_neg (by omega)]

theorem getch_cons {c : Char} (h : isws c = false) (r : Str) : getch ⟨c :: r, false, false⟩ = (⟨r, false, false⟩, some c) := by
  unfold getch
  rw [if_neg (by simp), List.dropWhile_cons_of_neg (by rw [h]; decide)]

theorem otext_head (o : Oper) : ∃ c t, otext o = c :: t ∧ c.isDigit = false := by
  unfold otext
  split
  · exact ⟨'r', _, rfl, by decide⟩
  · exact ⟨'m', _, rfl, by decide⟩

theorem flat_head (l : List Oper) : ∀ c, (l.flatMap otext).head? = some c → c.isDigit = false := by
  intro c hc
  cases l with
  | nil => cases hc
  | cons o l =>
    obtain ⟨c', t, h1, h2⟩ := otext_head o
    rw [List.flatMap_cons, h1] at hc
    simp at hc
    rw [← hc]; exact h2

theorem flat_length (l : List Oper) : l.length ≤ (l.flatMap otext).length := by
  induction l with
  | nil => simp
  | cons o l ih =>
    obtain ⟨c', t, h1, -⟩ := otext_head o
    rw [List.flatMap_cons, h1, List.length_append]
    simp only [List.length_cons]
    omega

theorem toU_small {k : Nat} (h : k < 2 ^ 31) : toU (k : Int) = k := by unfold toU; omega

/-- Reading all operators. `e` is the end bit before: it is set exactly if nothing is left. -/
theorem scanloop_flat : ∀ (l : List Oper) (fuel : Nat) (acc : List Oper), (∀ o ∈ l, Writable o) → l.length < fuel →
    l ≠ [] → scanloop fuel ⟨l.flatMap otext, false, false⟩ acc = .ok (acc ++ l) := by
  intro l
  induction l with
  | nil => intro _ _ _ _ h; exact absurd rfl h
  | cons o l ih =>
    intro fuel acc hw hf _
    obtain ⟨fuel, rfl⟩ : ∃ f, fuel = f + 1 := ⟨fuel - 1, by simp only [List.length_cons] at hf; omega⟩
    obtain ⟨h1, h2, h3, h4, h5⟩ := hw o (by simp)
    have hrest : scanloop fuel ⟨l.flatMap otext, (l.flatMap otext).isEmpty, false⟩ (acc ++ [o]) = .ok (acc ++ o :: l) := by
      simp only [List.length_cons] at hf
      cases l with
      | nil =>
        obtain ⟨fuel, rfl⟩ : ∃ f, fuel = f + 1 := ⟨fuel - 1, by simp only [List.length_nil] at hf; omega⟩
        rw [scanloop, if_pos (by simp)]
      | cons o' l' =>
        obtain ⟨c, t, e1, -⟩ := otext_head o'
        have : ((o' :: l').flatMap otext).isEmpty = false := by rw [List.flatMap_cons, e1]; rfl
        rw [this, ih fuel (acc ++ [o]) (fun o ho => hw o (by simp [ho])) (by omega) (by simp)]
        simp
    have nd : ∀ (x : Str) (c : Char), (' ' :: x).head? = some c → c.isDigit = false := by
      intro x c hc; simp at hc; subst hc; decide
    rw [scanloop, if_neg (by simp), List.flatMap_cons]
    obtain ⟨k, sg, d, y⟩ := o
    dsimp only at h1 h2 h3 h4 h5 ⊢
    cases k with
    | none => exact absurd rfl h1
    | rotate =>
      obtain rfl := h5 rfl
      have e : otext ⟨.rotate, sg, d, 0⟩ ++ l.flatMap otext =
          'r' :: ' ' :: (decimal sg ++ ' ' :: (decimal d ++ l.flatMap otext)) := by simp [otext]
      rw [e, getch_cons (by decide)]
      dsimp only
      rw [getint_decimal (z := (sg : Int)) (by omega) (by omega) (nd (decimal d ++ l.flatMap otext))]
      dsimp only
      rw [if_neg (by simp), if_neg (by decide), if_pos rfl]
      have : (' ' :: (decimal d ++ l.flatMap otext)).isEmpty = false := rfl
      rw [this, getint_decimal (by omega) (by omega) (flat_head l)]
      dsimp only
      rw [toU_small h2, hrest]
    | move =>
      have e : otext ⟨.move, sg, d, y⟩ ++ l.flatMap otext =
          'm' :: ' ' :: (decimal sg ++ ' ' :: (decimal d ++ ' ' :: (decimal y ++ l.flatMap otext))) := by simp [otext]
      rw [e, getch_cons (by decide)]
      dsimp only
      rw [getint_decimal (z := (sg : Int)) (by omega) (by omega) (nd (decimal d ++ ' ' :: (decimal y ++ l.flatMap otext)))]
      dsimp only
      rw [if_neg (by simp), if_pos rfl]
      have : (' ' :: (decimal d ++ ' ' :: (decimal y ++ l.flatMap otext))).isEmpty = false := rfl
      rw [this, getint_decimal (z := d) (by omega) (by omega) (nd (decimal y ++ l.flatMap otext))]
      dsimp only
      have : (' ' :: (decimal y ++ l.flatMap otext)).isEmpty = false := rfl
      rw [this, getint_decimal (by omega) (by omega) (flat_head l)]
      dsimp only
      rw [toU_small h2, hrest]

/-! ## Arbitrary text -/

theorem dropWhile_length (p : Char → Bool) (s : Str) : (s.dropWhile p).length ≤ s.length := by
  induction s with
  | nil => simp
  | cons c s ih =>
    rw [List.dropWhile_cons]
    split
    · simp only [List.length_cons]; omega
    · simp

theorem sign_length (s : Str) : (sign s).2.length ≤ s.length := by
  unfold sign
  split
  · simp
  · split
    · simp
    · split <;> simp

theorem getint_length (s : Stm) : (getint s).1.rest.length ≤ s.rest.length := by
  unfold getint
  have h1 := dropWhile_length isws s.rest
  have h2 := sign_length (s.rest.dropWhile isws)
  have h3 := dropWhile_length Char.isDigit (sign (s.rest.dropWhile isws)).2
  have h4 : ((sign (s.rest.dropWhile isws)).2.dropWhile Char.isDigit).length ≤ s.rest.length := by omega
  by_cases hb : (s.eof || s.fail) = true
  · rw [if_pos hb]
  · rw [if_neg hb]
    dsimp only
    by_cases hr : s.rest.dropWhile isws = []
    · rw [if_pos hr]; exact Nat.zero_le _
    · rw [if_neg hr]
      generalize (if (sign (s.rest.dropWhile isws)).1 = true then -((Nat.ofDigitChars 10
        ((sign (s.rest.dropWhile isws)).2.takeWhile Char.isDigit) 0 : Nat) : Int) else ((Nat.ofDigitChars 10
        ((sign (s.rest.dropWhile isws)).2.takeWhile Char.isDigit) 0 : Nat) : Int)) = z
      by_cases hd : (sign (s.rest.dropWhile isws)).2.takeWhile Char.isDigit = []
      · rw [if_pos hd]; exact h4
      · rw [if_neg hd]
        by_cases hz : z > 2 ^ 31 - 1
        · rw [if_pos hz]; exact h4
        · rw [if_neg hz]
          by_cases hy : z < -2 ^ 31
          · rw [if_pos hy]; exact h4
          · rw [if_neg hy]; exact h4

theorem getch_length {s : Stm} {c : Char} (h : (getch s).2 = some c) : (getch s).1.rest.length < s.rest.length := by
  unfold getch at h ⊢
  split at h
  · cases h
  · rename_i hb
    rw [if_neg hb]
    have h1 := dropWhile_length isws s.rest
    split at h
    · cases h
    · rename_i r e
      rw [e] at h1
      simp only [List.length_cons] at h1
      simp only [e]
      omega

theorem scanloop_total : ∀ (fuel : Nat) (s : Stm) (acc : List Oper), s.rest.length < fuel → scanloop fuel s acc ≠ .nofuel := by
  intro fuel
  induction fuel with
  | zero => intro s acc h; omega
  | succ fuel ih =>
    intro s acc h
    rw [scanloop]
    split
    · simp
    · have h1 := getint_length (getch s).1
      have h2 := getint_length (getint (getch s).1).1
      have h3 := getint_length (getint (getint (getch s).1).1).1
      cases hc : (getch s).2 with
      | none =>
        simp only [hc]
        split <;> simp
      | some c =>
        have h4 := getch_length hc
        simp only [hc]
        split
        · simp
        · split
          · split
            · exact ih _ _ (by omega)
            · simp
          · split
            · split
              · exact ih _ _ (by omega)
              · simp
            · simp

end Verif.Segments
