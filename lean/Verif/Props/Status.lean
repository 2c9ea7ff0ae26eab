import Verif.Utils.Status
import Mathlib.Tactic.Ring

/-!
# C121: the memory of the process; C122: messages
-/

namespace Verif.Status

open Verif

theorem gets_short : ∀ (n : Nat) (l rest : List Char), '\n' ∉ l → l.length < n → gets n (l ++ '\n' :: rest) = (l ++ ['\n'], rest)
  | 0, l, rest, _, h => by omega
  | n + 1, [], rest, _, _ => by simp [gets]
  | n + 1, c :: l, rest, hn, h => by
    rw [List.mem_cons, not_or] at hn
    rw [List.cons_append, gets, if_neg (Ne.symm hn.1), gets_short n l rest hn.2 (by simpa using h), List.cons_append]

theorem gets_long : ∀ (n : Nat) (l rest : List Char), '\n' ∉ l → n ≤ l.length → gets n (l ++ rest) = (l.take n, l.drop n ++ rest)
  | 0, l, rest, _, _ => by simp [gets]
  | n + 1, [], rest, _, h => by simp at h
  | n + 1, c :: l, rest, hn, h => by
    rw [List.mem_cons, not_or] at hn
    rw [List.cons_append, gets, if_neg (Ne.symm hn.1), gets_long n l rest hn.2 (by simpa using h)]
    simp

/-- The field is not in a line with its end if it is not in the line. -/
theorem infix_line {l : List Char} (h : ¬ field <:+: l) : ¬ field <:+: l ++ ['\n'] := by
  rintro ⟨s, t, e⟩
  rcases List.eq_nil_or_concat t with rfl | ⟨t', x, rfl⟩
  · rw [List.append_nil] at e
    have := congrArg List.getLast? e
    rw [List.getLast?_append, show field.getLast? = some ':' by decide, List.getLast?_concat] at this
    simp at this
  · rw [List.concat_eq_append, ← List.append_assoc] at e
    have := List.append_inj_left' e rfl
    exact h ⟨s, t', this⟩

/-- A line without the field is passed, however long it is. -/
theorem scan_line (rest : List Char) : ∀ (n : Nat) (l : List Char), l.length ≤ n → '\n' ∉ l → ¬ field <:+: l →
    scan (l ++ '\n' :: rest) = scan rest := by
  intro n
  induction n with
  | zero =>
    intro l hl _ _
    have : l = [] := List.length_eq_zero_iff.1 (by omega)
    subst this
    rw [List.nil_append, scan]
    have e := gets_short 255 [] rest (by simp) (by simp)
    rw [List.nil_append] at e
    rw [e]
    exact if_neg (show ¬ field <:+: ['\n'] by decide)
  | succ n ih =>
    intro l hl hn hf
    have hs : ∀ g : List Char, ¬ field <:+: (gets 255 g).1 → g ≠ [] → scan g = scan (gets 255 g).2 := by
      intro g hg h0
      cases g with
      | nil => exact absurd rfl h0
      | cons c s => rw [scan, if_neg hg]
    by_cases h : l.length < 255
    · have e := gets_short 255 l rest hn h
      rw [hs _ (by rw [e]; exact infix_line hf) (by simp), e]
    · have e := gets_long 255 l ('\n' :: rest) hn (by omega)
      rw [hs _ (by rw [e]; exact fun hi => hf (hi.trans (List.take_prefix _ _).isInfix)) (by simp), e]
      dsimp only
      refine ih (l.drop 255) (by rw [List.length_drop]; omega) (fun hm => hn (List.mem_of_mem_drop hm)) ?_
      exact fun hi => hf (hi.trans (List.drop_suffix _ _).isInfix)

theorem scan_lines : ∀ (ls : List (List Char)) (rest : List Char), (∀ l ∈ ls, '\n' ∉ l ∧ ¬ field <:+: l) →
    scan (fileOf ls ++ rest) = scan rest
  | [], rest, _ => by simp [fileOf]
  | l :: ls, rest, h => by
    have := scan_lines ls rest fun l hl => h l (List.mem_cons_of_mem _ hl)
    have h1 := h l List.mem_cons_self
    rw [show fileOf (l :: ls) ++ rest = l ++ '\n' :: (fileOf ls ++ rest) by simp [fileOf],
      scan_line _ _ l le_rfl h1.1 h1.2, this]

theorem dropWhile_append_all {p : Char → Bool} : ∀ (a b : List Char), (∀ c ∈ a, p c = true) → (a ++ b).dropWhile p = b.dropWhile p
  | [], _, _ => rfl
  | c :: a, b, h => by
    rw [List.cons_append, List.dropWhile_cons, if_pos (h c List.mem_cons_self)]
    exact dropWhile_append_all a b fun c hc => h c (List.mem_cons_of_mem _ hc)

theorem takeWhile_append_all {p : Char → Bool} : ∀ (a b : List Char), (∀ c ∈ a, p c = true) → (a ++ b).takeWhile p = a ++ b.takeWhile p
  | [], _, _ => rfl
  | c :: a, b, h => by
    rw [List.cons_append, List.takeWhile_cons, if_pos (h c List.mem_cons_self), takeWhile_append_all a b fun c hc => h c (List.mem_cons_of_mem _ hc),
      List.cons_append]

theorem digit_ne {c d : Char} (h : c.isDigit = true) (hd : d.isDigit = false) : c ≠ d := by
  rintro rfl
  rw [h] at hd
  cases hd

theorem digit_white {c : Char} (h : c.isDigit = true) : c.isWhitespace = false := by
  unfold Char.isWhitespace
  simp [digit_ne h (d := ' ') (by decide), digit_ne h (d := '\t') (by decide), digit_ne h (d := '\r') (by decide),
    digit_ne h (d := '\n') (by decide)]

theorem strtoul_digits {ds : List Char} (h0 : ds ≠ []) (h : ∀ c ∈ ds, c.isDigit = true) (hv : value ds < 2 ^ 64) : strtoul ds = value ds := by
  obtain ⟨c, s, rfl⟩ := List.exists_cons_of_ne_nil h0
  have hc := h c List.mem_cons_self
  have e1 : (c :: s).dropWhile Char.isWhitespace = c :: s := by
    rw [List.dropWhile_cons, if_neg (by rw [digit_white hc]; simp)]
  have e2 : (c :: s).takeWhile Char.isDigit = c :: s := by
    have := takeWhile_append_all (c :: s) [] h
    simpa using this
  have n1 : c ≠ '-' := digit_ne hc (by decide)
  have n2 : c ≠ '+' := digit_ne hc (by decide)
  unfold strtoul
  dsimp only
  rw [e1]
  simp only [List.head?_cons, Option.some.injEq, n1, n2, or_self, if_false]
  rw [e2, if_neg (by omega)]

theorem value_decimal (ds : List Char) : value ds = decimal ds := by
  have h : ∀ (ds : List Char) (n : Nat), ds.foldl (fun n c => 10 * n + (c.toNat - '0'.toNat)) n = n * 10 ^ ds.length + decimal ds := by
    intro ds
    induction ds with
    | nil => intro n; simp [decimal]
    | cons c cs ih =>
      intro n
      rw [List.foldl_cons, ih, decimal, List.length_cons, show '0'.toNat = 48 by decide]
      ring
  unfold value
  rw [h]
  simp

/-- **C121.**  Some lines without the name of the field, of any length, and then the line of the field: the number in it. -/
theorem c121_peak (ls : List (List Char)) (hl : ∀ l ∈ ls, '\n' ∉ l ∧ ¬ "VmPeak:".toList <:+: l) {ws ds unit : List Char} (rest : List Char)
    (hw : ∀ c ∈ ws, c = ' ' ∨ c = '\t') (h0 : ds ≠ []) (hd : ∀ c ∈ ds, c.isDigit = true) (hv : decimal ds < 2 ^ 64) (hu : '\n' ∉ unit)
    (hlen : ws.length + ds.length + unit.length < 240) :
    virtmem true (some (fileOf ls ++ ("VmPeak:".toList ++ ws ++ ds ++ ' ' :: unit ++ '\n' :: rest))) = .ok (decimal ds) := by
  rw [← value_decimal] at hv ⊢
  have hfl : field.length = 7 := by decide
  have hn : '\n' ∉ field ++ ws ++ ds ++ ' ' :: unit := by
    simp only [List.mem_append, List.mem_cons, not_or]
    refine ⟨⟨⟨by decide, fun h => ?_⟩, fun h => ?_⟩, by decide, hu⟩
    · rcases hw _ h with h | h <;> exact absurd h (by decide)
    · exact absurd (hd _ h) (by decide)
  have e := gets_short 255 (field ++ ws ++ ds ++ ' ' :: unit) rest hn (by simp only [List.length_append, List.length_cons, hfl]; omega)
  have hin : field <:+: field ++ ws ++ ds ++ ' ' :: unit ++ ['\n'] := ⟨[], ws ++ ds ++ ' ' :: unit ++ ['\n'], by simp⟩
  obtain ⟨c, s, ec⟩ : ∃ c s, field ++ ws ++ ds ++ ' ' :: unit ++ '\n' :: rest = c :: s :=
    List.exists_cons_of_ne_nil (by simp)
  show scan _ = _
  rw [scan_lines ls _ hl]
  show scan (field ++ ws ++ ds ++ ' ' :: unit ++ '\n' :: rest) = _
  have es : scan (field ++ ws ++ ds ++ ' ' :: unit ++ '\n' :: rest) = number (field ++ ws ++ ds ++ ' ' :: unit ++ ['\n']) := by
    rw [ec] at e ⊢
    rw [scan]
    rw [e, if_pos hin]
  rw [es]
  obtain ⟨d, ds', rfl⟩ := List.exists_cons_of_ne_nil h0
  have hd' := hd d List.mem_cons_self
  have e1 : ((field ++ ws ++ (d :: ds') ++ ' ' :: unit ++ ['\n']).drop field.length).dropWhile (fun c => c == ' ' || c == '\t') =
      (d :: ds') ++ ' ' :: (unit ++ ['\n']) := by
    rw [show field ++ ws ++ (d :: ds') ++ ' ' :: unit ++ ['\n'] = field ++ (ws ++ ((d :: ds') ++ ' ' :: (unit ++ ['\n']))) by simp,
      List.drop_left, dropWhile_append_all ws _ (fun c hc => by rcases hw c hc with rfl | rfl <;> rfl), List.cons_append, List.dropWhile_cons,
      if_neg (by simp [digit_ne hd' (d := ' ') (by decide), digit_ne hd' (d := '\t') (by decide)])]
  unfold number
  dsimp only
  rw [e1, if_pos (by simp), takeWhile_append_all (d :: ds') _ (fun c hc => by simp [digit_ne (hd c hc) (d := ' ') (by decide)]),
    List.takeWhile_cons, if_neg (by simp), List.append_nil, strtoul_digits h0 hd hv]

/-- **C121.**  Without the field, or without the file, the answer is 0. -/
theorem c121_none (ls : List (List Char)) (hl : ∀ l ∈ ls, '\n' ∉ l ∧ ¬ "VmPeak:".toList <:+: l) (file : Option (List Char)) :
    virtmem true (some (fileOf ls)) = .ok 0 ∧ virtmem false file = .ok 0 := by
  refine ⟨?_, rfl⟩
  show scan _ = _
  have := scan_lines ls [] hl
  rw [List.append_nil] at this
  rw [this, scan]

/-- A file as the system writes it. -/
example : (∀ l ∈ ["Name:\tgridnav_solver".toList, "Umask:\t0022".toList], '\n' ∉ l ∧ ¬ "VmPeak:".toList <:+: l) ∧
    (∀ c ∈ "\t   ".toList, c = ' ' ∨ c = '\t') ∧ (∀ c ∈ "24680".toList, c.isDigit = true) ∧ decimal "24680".toList = 24680 := by decide +kernel

/-- **C121** (finding).  The name of the process is in the file before the field: for a program that is called like the field, `NULL` is
written through, or the memory is 0. -/
theorem c121_name (rest : List Char) : virtmem true (some ("Name:\tVmPeak:".toList ++ '\n' :: rest)) = .ub ∧
    virtmem true (some ("Name:\tVmPeak: a".toList ++ '\n' :: rest)) = .ok 0 := by
  have h : ∀ l : List Char, l ≠ [] → '\n' ∉ l → l.length < 255 → field <:+: l ++ ['\n'] →
      virtmem true (some (l ++ '\n' :: rest)) = number (l ++ ['\n']) := by
    intro l h0 hn hlen hi
    obtain ⟨c, s, rfl⟩ := List.exists_cons_of_ne_nil h0
    have e := gets_short 255 _ rest hn hlen
    show scan _ = _
    rw [List.cons_append] at e ⊢
    rw [scan]
    rw [e, if_pos (by simpa using hi)]
  constructor
  · rw [h _ (by decide) (by decide) (by decide) (by decide +kernel)]
    rfl
  · rw [h _ (by decide) (by decide) (by decide) (by decide +kernel)]
    rfl

/-- **C121** (finding).  A file that is there but cannot be opened is read all the same. -/
theorem c121_open : virtmem true none = .ub := rfl

/-! ## Messages -/

/-- **C122.**  A message is printed with the end of a line, if, and only if, it is not longer than 255 characters. -/
theorem c122_message (s : List Char) : warn s = s ++ ['\n'] ↔ s.length ≤ 255 := by
  unfold warn cut
  rw [List.append_left_inj, List.take_eq_self_iff]

/-- **C122.**  A message with a reason is printed with its reason if, and only if, both with the colon are not longer than 255 characters. -/
theorem c122_reason (reason s : List Char) : warnx reason s = s ++ ": ".toList ++ reason ++ ['\n'] ↔ s.length + reason.length ≤ 253 := by
  have hl : ": ".toList.length = 2 := by decide
  unfold warnx warn cut
  rw [List.append_left_inj]
  constructor
  · intro h
    have := congrArg List.length h
    simp only [List.length_take, List.length_append, hl] at this
    omega
  · intro h
    rw [List.take_of_length_le (l := s) (by omega), List.take_of_length_le]
    simp only [List.length_append, hl]
    omega

/-- **C122** (finding).  After a long message, as with a long path, the reason is not printed at all. -/
theorem c122_lost {s : List Char} (h : 253 ≤ s.length) (reason reason' : List Char) : warnx reason s = warnx reason' s := by
  have hl : ": ".toList.length = 2 := by decide
  unfold warnx warn cut
  rw [List.take_append_of_le_length, List.take_append_of_le_length (l₂ := reason')] <;>
  · simp only [List.length_append, List.length_take, hl]
    omega

/-- **C122.**  Whatever is printed is a beginning of the message and the end of the line. -/
theorem c122_prefix (s : List Char) : ∃ t, t <+: s ∧ warn s = t ++ ['\n'] ∧ t.length ≤ 255 := by
  refine ⟨s.take 255, List.take_prefix _ _, rfl, ?_⟩
  rw [List.length_take]
  omega

/-- An everyday message, and a path that is too long. -/
example : warnx "No such file or directory".toList "Failed to open a".toList = "Failed to open a: No such file or directory\n".toList ∧
    253 ≤ (List.replicate 300 'd').length := by decide +kernel

end Verif.Status
