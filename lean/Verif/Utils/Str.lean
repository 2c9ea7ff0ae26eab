import Verif.Outcome
import Mathlib.Tactic.Common
import Mathlib.Data.List.Basic

/-!
# Model of utils/str.cc

Strings are lists of bytes, a byte being written as the `Char` with that code.  A `char*` is the list of
the bytes from the pointed-to byte up to the end of the allocated object; running off that list is
undefined behaviour.  `isspace` is only defined by the C standard for values that fit an `unsigned char`,
and `char` is signed, so `isspace` of a byte `≥ 128` is undefined behaviour too.
-/

namespace Verif.Str

abbrev Str := List Char

/-- The string terminator. -/
def nul : Char := Char.ofNat 0

/-- White space of the C locale: space, `\t \n \v \f \r`. -/
def isws (c : Char) : Bool := c == ' ' || (9 ≤ c.toNat && c.toNat ≤ 13)

/-- `isspace(c)` for a signed `char c`. -/
def isspace (c : Char) : Outcome Bool := if c.toNat < 128 then .ok (isws c) else .ub

/-- `strlen`. -/
def strlen : Str → Outcome Nat
  | [] => .ub
  | c :: cs => if c = nul then .ok 0 else (strlen cs).map (· + 1)

/-- The C string at a pointer. -/
def cstr (s : Str) : Str := s.takeWhile (· ≠ nul)

/-- The loop `for (i = 0; i < strlen(s) && p(s[i]); i++) ;`, giving the final `i`. -/
def scan (p : Char → Outcome Bool) : Str → Outcome Nat
  | [] => .ub
  | c :: cs =>
    if c = nul then .ok 0
    else (p c).bind fun b => if b then (scan p cs).map (· + 1) else .ok 0

/-- str.cc:7-15 `hasprefix` -/
def hasprefix (s pre : Str) : Bool := pre.isPrefixOf (cstr s)

/-- str.cc:17-43 `gettoken`: `none` is `NULL`; otherwise the offset of the returned pointer and the new
contents of the buffer. -/
def gettoken (s : Str) : Outcome (Option (Nat × Str)) :=
  (scan isspace s).bind fun i =>
  (strlen s).bind fun n =>
  if n ≤ i then .ok none
  else if s[i]? = some '"' then
    let strt := s.drop (i + 1)
    (scan (fun c => .ok (c ≠ '"')) strt).bind fun j =>
    (strlen strt).bind fun m =>
    if j = m ∨ strt[j]? ≠ some '"' then .fatal
    else .ok (some (i + 1, s.set (i + 1 + j) nul))
  else
    let strt := s.drop i
    (scan (fun c => (isspace c).map (! ·)) strt).bind fun j =>
    .ok (some (i, s.set (i + j) nul))

/-- str.cc:45-72 `tokens`, the loop body: state is `(tokens, tok, instring)`. -/
def tokStep (st : List Str × Str × Bool) (c : Char) : Outcome (List Str × Str × Bool) :=
  let (ts, tok, ins) := st
  if c = '"' then
    if ins then .ok (ts ++ [tok], [], false) else .ok (ts, tok, true)
  else if ins then .ok (ts, tok ++ [c], ins)
  else (isspace c).bind fun b =>
    if b then (if tok.length > 0 then .ok (ts ++ [tok], [], ins) else .ok (ts, tok, ins))
    else .ok (ts, tok ++ [c], ins)

/-- the loop of `tokens` (the `std::string` may contain any bytes, also 0). -/
def tokLoop : Str → List Str × Str × Bool → Outcome (List Str × Str × Bool)
  | [], st => .ok st
  | c :: cs, st => (tokStep st c).bind (tokLoop cs)

/-- str.cc:45-72 `tokens` -/
def tokens (s : Str) : Outcome (List Str) :=
  (tokLoop s ([], [], false)).bind fun (ts, tok, ins) =>
  if ins then .fatal else if tok.length > 0 then .ok (ts ++ [tok]) else .ok ts

/-! ## Specification: the token grammar -/

/-- An unquoted word. -/
def Word (w : Str) : Prop :=
  w ≠ [] ∧ w.head? ≠ some '"' ∧ ∀ c ∈ w, c.toNat < 128 ∧ isws c = false ∧ c ≠ nul

/-- A text that can be put in quotes. -/
def Quotable (t : Str) : Prop := ∀ c ∈ t, c ≠ nul ∧ c ≠ '"'

/-- `Toks s ts`: the text `s` is the list of tokens `ts`, each of them either in double quotes or a word
that is followed by white space or the end, with white space around them. -/
inductive Toks : Str → List Str → Prop
  | nil {ws : Str} (h : ∀ c ∈ ws, isws c = true) : Toks ws []
  | quoted {ws t rest : Str} {ts : List Str} (h : ∀ c ∈ ws, isws c = true) (ht : Quotable t)
      (hr : Toks rest ts) : Toks (ws ++ '"' :: (t ++ '"' :: rest)) (t :: ts)
  | word {ws w rest : Str} {ts : List Str} (h : ∀ c ∈ ws, isws c = true) (hw : Word w)
      (hsep : ∀ c, rest.head? = some c → isws c = true) (hr : Toks rest ts) :
      Toks (ws ++ (w ++ rest)) (w :: ts)

instance (w : Str) : Decidable (Word w) := by unfold Word; infer_instance
instance (w : Str) : Decidable (Quotable w) := by unfold Quotable; infer_instance

/-! ## Lemmas -/

theorem isws_nul : isws nul = false := by decide
theorem isws_quote : isws '"' = false := by decide

theorem isws_ascii {c : Char} (h : isws c = true) : c.toNat < 128 := by
  unfold isws at h
  simp only [Bool.or_eq_true, beq_iff_eq, Bool.and_eq_true, decide_eq_true_eq] at h
  rcases h with rfl | h
  · decide
  · omega

theorem isws_ne_nul {c : Char} (h : isws c = true) : c ≠ nul := by
  rintro rfl; rw [isws_nul] at h; cases h

theorem isws_ne_quote {c : Char} (h : isws c = true) : c ≠ '"' := by
  rintro rfl; rw [isws_quote] at h; cases h

theorem isspace_ws {c : Char} (h : isws c = true) : isspace c = .ok true := by
  unfold isspace; rw [if_pos (isws_ascii h), h]

theorem isspace_not {c : Char} (h : isws c = false) (h2 : c.toNat < 128) : isspace c = .ok false := by
  unfold isspace; rw [if_pos h2, h]

theorem strlen_eq {a r : Str} (h : ∀ c ∈ a, c ≠ nul) : strlen (a ++ nul :: r) = .ok a.length := by
  induction a with
  | nil => simp [strlen]
  | cons x a ih =>
    rw [List.cons_append, strlen, if_neg (h x (by simp)), ih (fun c hc => h c (by simp [hc]))]
    simp

theorem cstr_eq {a r : Str} (h : ∀ c ∈ a, c ≠ nul) : cstr (a ++ nul :: r) = a := by
  unfold cstr
  rw [List.takeWhile_append_of_pos (by simpa using h)]
  simp

theorem scan_eq {p : Char → Outcome Bool} {a r : Str} {x : Char} (h : ∀ c ∈ a, c ≠ nul ∧ p c = .ok true)
    (hx : x = nul ∨ p x = .ok false) : scan p (a ++ x :: r) = .ok a.length := by
  induction a with
  | nil =>
    simp only [List.nil_append, scan, List.length_nil]
    split
    · rfl
    · next hn => rcases hx with h | h
                 · exact absurd h hn
                 · rw [h]; rfl
  | cons y a ih =>
    obtain ⟨h1, h2⟩ := h y (by simp)
    rw [List.cons_append, scan, if_neg h1, h2]
    simp only [Outcome.bind_ok, if_true, ih (fun c hc => h c (by simp [hc])), Outcome.map_ok,
      List.length_cons]

theorem set_mid (a b : Str) (x y : Char) : (a ++ x :: b).set a.length y = a ++ y :: b := by
  simp [List.set_append]

theorem gettoken_nil {ws r : Str} (h : ∀ c ∈ ws, isws c = true) : gettoken (ws ++ nul :: r) = .ok none := by
  unfold gettoken
  rw [scan_eq (fun c hc => ⟨isws_ne_nul (h c hc), isspace_ws (h c hc)⟩) (Or.inl rfl)]
  rw [Outcome.bind_ok, strlen_eq (fun c hc => isws_ne_nul (h c hc)), Outcome.bind_ok, if_pos (Nat.le_refl _)]

theorem gettoken_quoted {ws t rest r : Str} (h : ∀ c ∈ ws, isws c = true) (ht : Quotable t)
    (hr : ∀ c ∈ rest, c ≠ nul) :
    gettoken (ws ++ '"' :: (t ++ '"' :: (rest ++ nul :: r))) =
      .ok (some (ws.length + 1, ws ++ '"' :: (t ++ nul :: (rest ++ nul :: r)))) := by
  unfold gettoken
  rw [scan_eq (fun c hc => ⟨isws_ne_nul (h c hc), isspace_ws (h c hc)⟩)
    (Or.inr (isspace_not isws_quote (by decide))), Outcome.bind_ok]
  have e : ws ++ '"' :: (t ++ '"' :: (rest ++ nul :: r)) =
      (ws ++ '"' :: (t ++ '"' :: rest)) ++ nul :: r := by simp
  have hl : strlen (ws ++ '"' :: (t ++ '"' :: (rest ++ nul :: r))) =
      .ok (ws ++ '"' :: (t ++ '"' :: rest)).length := by
    rw [e]
    apply strlen_eq
    intro c hc
    simp only [List.mem_append, List.mem_cons] at hc
    rcases hc with hc | rfl | hc | rfl | hc
    · exact isws_ne_nul (h c hc)
    · decide
    · exact (ht c hc).1
    · decide
    · exact hr c hc
  rw [hl, Outcome.bind_ok, if_neg (by simp), if_pos (by simp)]
  have hd : (ws ++ '"' :: (t ++ '"' :: (rest ++ nul :: r))).drop (ws.length + 1) =
      t ++ '"' :: (rest ++ nul :: r) := by
    rw [← List.drop_drop]; simp
  dsimp only
  rw [hd, scan_eq (fun c hc => ⟨(ht c hc).1, by simp [(ht c hc).2]⟩) (Or.inr (by simp)), Outcome.bind_ok]
  have e2 : t ++ '"' :: (rest ++ nul :: r) = (t ++ '"' :: rest) ++ nul :: r := by simp
  rw [e2, strlen_eq (by
    intro c hc
    simp only [List.mem_append, List.mem_cons] at hc
    rcases hc with hc | rfl | hc
    · exact (ht c hc).1
    · decide
    · exact hr c hc), Outcome.bind_ok, if_neg (by simp)]
  congr 3
  have := set_mid (ws ++ '"' :: t) (rest ++ nul :: r) '"' nul
  simp only [List.length_append, List.length_cons, List.append_assoc, List.cons_append] at this
  rw [← this, show ws.length + 1 + t.length = ws.length + (t.length + 1) by omega]
  simp

theorem strlen_append {a b : Str} (h : ∀ c ∈ a, c ≠ nul) :
    strlen (a ++ b) = (strlen b).map (a.length + ·) := by
  induction a with
  | nil => cases hb : strlen b <;> simp [hb]
  | cons x a ih =>
    rw [List.cons_append, strlen, if_neg (h x (by simp)), ih (fun c hc => h c (by simp [hc]))]
    cases hb : strlen b <;> simp <;> omega

theorem strlen_ex {s : Str} (h : nul ∈ s) : ∃ n, strlen s = .ok n := by
  induction s with
  | nil => simp at h
  | cons x s ih =>
    rw [strlen]
    split
    · exact ⟨0, rfl⟩
    · next hx =>
      obtain ⟨n, hn⟩ := ih (by
        rcases List.mem_cons.1 h with h | h
        · exact absurd h.symm hx
        · exact h)
      exact ⟨n + 1, by rw [hn]; rfl⟩

theorem gettoken_word {ws w r : Str} {x : Char} (h : ∀ c ∈ ws, isws c = true) (hw : Word w)
    (hx : x = nul ∨ isws x = true ∧ nul ∈ r) :
    gettoken (ws ++ (w ++ x :: r)) = .ok (some (ws.length, ws ++ (w ++ nul :: r))) := by
  obtain ⟨hne, hh, hall⟩ := hw
  obtain ⟨y, w', rfl⟩ := List.exists_cons_of_ne_nil hne
  have hy := hall y (by simp)
  have hq : y ≠ '"' := by simpa using hh
  unfold gettoken
  have e0 : ws ++ ((y :: w') ++ x :: r) = ws ++ y :: (w' ++ x :: r) := by
    simp
  rw [e0, scan_eq (fun c hc => ⟨isws_ne_nul (h c hc), isspace_ws (h c hc)⟩)
    (Or.inr (isspace_not hy.2.1 hy.1)), Outcome.bind_ok]
  have hl : ∃ n, strlen (ws ++ y :: (w' ++ x :: r)) = .ok n ∧ ws.length < n := by
    obtain ⟨n, hn⟩ := strlen_ex (s := x :: r) (by
      rcases hx with rfl | hx
      · simp
      · simp [hx.2])
    refine ⟨ws.length + 1 + w'.length + n, ?_, ?_⟩
    · rw [strlen_append (fun c hc => isws_ne_nul (h c hc)), strlen, if_neg hy.2.2,
        strlen_append (fun c hc => (hall c (by simp [hc])).2.2), hn]
      simp only [Outcome.map_ok, Outcome.ok.injEq]
      omega
    · omega
  obtain ⟨n, hn, hlt⟩ := hl
  rw [hn, Outcome.bind_ok, if_neg (by omega), if_neg (by simp [hq])]
  have hd : (ws ++ y :: (w' ++ x :: r)).drop ws.length = (y :: w') ++ x :: r := by simp
  dsimp only
  rw [hd, scan_eq (fun c hc => ⟨(hall c hc).2.2, by
      rw [isspace_not (hall c hc).2.1 (hall c hc).1]; rfl⟩) (by
    rcases hx with hx | hx
    · exact Or.inl hx
    · right; rw [isspace_ws hx.1]; rfl), Outcome.bind_ok]
  congr 3
  have := set_mid (ws ++ y :: w') r x nul
  simp only [List.length_append, List.length_cons, List.append_assoc, List.cons_append] at this
  simpa using this

theorem Toks.no_nul {s : Str} {ts : List Str} (h : Toks s ts) : ∀ c ∈ s, c ≠ nul := by
  induction h with
  | nil h => exact fun c hc => isws_ne_nul (h c hc)
  | quoted h ht _ ih =>
    intro c hc
    simp only [List.mem_append, List.mem_cons] at hc
    rcases hc with hc | rfl | hc | rfl | hc
    · exact isws_ne_nul (h c hc)
    · decide
    · exact (ht c hc).1
    · decide
    · exact ih c hc
  | word h hw _ _ ih =>
    intro c hc
    simp only [List.mem_append] at hc
    rcases hc with hc | hc | hc
    · exact isws_ne_nul (h c hc)
    · exact (hw.2.2 c hc).2.2
    · exact ih c hc

/-- Dropping a leading white space character does not change the tokens. -/
theorem Toks.tail {c : Char} {s : Str} {ts : List Str} (hc : isws c = true) (h : Toks (c :: s) ts) :
    Toks s ts := by
  generalize e : c :: s = s' at h
  cases h with
  | nil h =>
    subst e
    exact .nil fun x hx => h x (by simp [hx])
  | @quoted ws t rest ts h ht hr =>
    cases ws with
    | nil =>
      simp only [List.nil_append, List.cons.injEq] at e
      rw [e.1, isws_quote] at hc; cases hc
    | cons y ws =>
      simp only [List.cons_append, List.cons.injEq] at e
      rw [e.2]
      exact .quoted (fun x hx => h x (by simp [hx])) ht hr
  | @word ws w rest ts h hw hsep hr =>
    cases ws with
    | nil =>
      obtain ⟨y, w', rfl⟩ := List.exists_cons_of_ne_nil hw.1
      simp only [List.nil_append, List.cons_append, List.cons.injEq] at e
      rw [e.1, (hw.2.2 y (by simp)).2.1] at hc; cases hc
    | cons y ws =>
      simp only [List.cons_append, List.cons.injEq] at e
      rw [e.2]
      exact .word (fun x hx => h x (by simp [hx])) hw hsep hr

theorem Toks.nil_eq {ts : List Str} (h : Toks [] ts) : ts = [] := by
  generalize e : ([] : Str) = s at h
  cases h with
  | nil => rfl
  | quoted => simp at e
  | word _ hw =>
    simp only [List.nil_eq, List.append_eq_nil_iff] at e
    exact absurd e.2.1 hw.1

/-! ### `tokens` -/

theorem tokLoop_append (a b : Str) (st) : tokLoop (a ++ b) st = (tokLoop a st).bind (tokLoop b) := by
  induction a generalizing st with
  | nil => rfl
  | cons x a ih =>
    simp only [List.cons_append, tokLoop]
    cases tokStep st x <;> simp [Outcome.bind, ih]

theorem tokLoop_ws {ws : Str} (h : ∀ c ∈ ws, isws c = true) (ts : List Str) :
    tokLoop ws (ts, [], false) = .ok (ts, [], false) := by
  induction ws with
  | nil => rfl
  | cons c ws ih =>
    have hc := h c (by simp)
    simp only [tokLoop, tokStep]
    rw [if_neg (isws_ne_quote hc), isspace_ws hc]
    simpa using ih fun c hc => h c (by simp [hc])

theorem tokLoop_in {t : Str} (h : ∀ c ∈ t, c ≠ '"') (ts : List Str) (tok : Str) :
    tokLoop t (ts, tok, true) = .ok (ts, tok ++ t, true) := by
  induction t generalizing tok with
  | nil => simp [tokLoop]
  | cons c t ih =>
    simp only [tokLoop, tokStep]
    rw [if_neg (h c (by simp))]
    simpa using ih (fun c hc => h c (by simp [hc])) (tok ++ [c])

theorem tokLoop_word {w : Str} (h : ∀ c ∈ w, c.toNat < 128 ∧ isws c = false ∧ c ≠ '"') (ts : List Str)
    (tok : Str) : tokLoop w (ts, tok, false) = .ok (ts, tok ++ w, false) := by
  induction w generalizing tok with
  | nil => simp [tokLoop]
  | cons c w ih =>
    have hc := h c (by simp)
    simp only [tokLoop, tokStep]
    rw [if_neg hc.2.2, isspace_not hc.2.1 hc.1]
    simpa using ih (fun c hc => h c (by simp [hc])) (tok ++ [c])

end Verif.Str
