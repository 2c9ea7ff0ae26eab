import Verif.Utils.Datafile

/-!
# C26: data files read back what was written

`Rec` is what a program hands to `dfpair`, `dfrowhdr` and `dfrow` (or another line it writes), `toks` what the
handler of `dfread` is expected to be called with.
-/

namespace Verif.Datafile

open Verif.Str

/-- What a program writes to a data file. -/
inductive Rec where
  | pair (key val : Str)
  | altcols (name : Str) (cols : List Str)
  | altrow (name : Str) (cols : List Col)
  | note (line : Str)

/-- The call that writes the record. -/
def Rec.write : Rec → Outcome Str
  | .pair k v => dfpair k v
  | .altcols n cs => dfrowhdr n cs
  | .altrow n cs => dfrow n cs
  | .note l => .ok (l ++ ['\n'])

/-- What the reader must see. -/
def Rec.toks : Rec → Option (List Str)
  | .pair k v => some [chars "#pair", k, v]
  | .altcols n cs => some (chars "#altcols" :: n :: cs.map fun c => n ++ ' ' :: c)
  | .altrow n cs => some (chars "#altrow" :: n :: cs.map Col.text)
  | .note _ => none

/-- Text that may be a key, a value or a name. -/
def Plain (t : Str) : Prop := ∀ c ∈ t, c ≠ nul ∧ c ≠ '"' ∧ c ≠ '\n'

instance (t : Str) : Decidable (Plain t) := by unfold Plain; infer_instance

/-- The text of a `double`: no white space, no quotes, ASCII. -/
def Col.Ok : Col → Prop
  | .real t => Word t
  | _ => True

instance (c : Col) : Decidable c.Ok := by unfold Col.Ok; split <;> infer_instance

/-- What the writer supports: a pair whose text does not have exactly 256 bytes, and headers and rows of
less than 256 bytes. -/
def Rec.Fits : Rec → Prop
  | .pair k v => Plain k ∧ Plain v ∧ k.length ≤ 245 ∧ k.length + v.length ≠ 245
  | .altcols n cs => Plain n ∧ (∀ c ∈ cs, Plain c) ∧
      12 + n.length + (cs.map fun c => n.length + c.length + 4).sum < 256
  | .altrow n cs => Plain n ∧ (∀ c ∈ cs, c.Ok) ∧
      11 + n.length + (cs.map fun c => 1 + c.text.length).sum < 256
  | .note l => l ≠ [] ∧ (∀ c ∈ l, c ≠ nul ∧ c ≠ '\n') ∧ l.getLast? ≠ some '\r' ∧
      ¬ chars "#pair" <+: l ∧ ¬ chars "#altcols" <+: l ∧ ¬ chars "#altrow" <+: l

theorem Plain.quotable {t : Str} (h : Plain t) : Quotable t := fun c hc => ⟨(h c hc).1, (h c hc).2.1⟩

theorem Plain.no_nul {t : Str} (h : Plain t) : ∀ c ∈ t, c ≠ nul := fun c hc => (h c hc).1

theorem digit_word {n : Nat} : Word (Nat.toDigits 10 n) := by
  have hd : ∀ c ∈ Nat.toDigits 10 n, c.isDigit = true := fun c hc =>
    Nat.isDigit_of_mem_toDigits (by omega) (by omega) hc
  have key : ∀ c : Char, c.isDigit = true → c.toNat < 128 ∧ isws c = false ∧ c ≠ nul ∧ c ≠ '"' := by
    intro c hc
    simp only [Char.isDigit, ge_iff_le, Bool.and_eq_true, decide_eq_true_eq] at hc
    have h1 : 48 ≤ c.toNat := hc.1
    have h2 : c.toNat ≤ 57 := hc.2
    refine ⟨by omega, ?_, ?_, ?_⟩
    · unfold isws
      simp only [Bool.or_eq_false_iff, beq_eq_false_iff_ne, Bool.and_eq_false_iff, decide_eq_false_iff_not]
      refine ⟨?_, Or.inr (by omega)⟩
      rintro rfl; revert h1; decide
    · rintro rfl; revert h1; decide
    · rintro rfl; revert h1; decide
  refine ⟨Nat.toDigits_ne_nil, ?_, fun c hc => ⟨(key c (hd c hc)).1, (key c (hd c hc)).2.1,
    (key c (hd c hc)).2.2.1⟩⟩
  intro h
  exact (key '"' (hd _ (List.mem_of_head? h))).2.2.2 rfl

theorem col_word {c : Col} (h : c.Ok) : Word c.text := by
  cases c with
  | real t => exact h
  | nat n => exact digit_word
  | int z =>
    unfold Col.text
    dsimp only
    split
    · have := digit_word (n := z.natAbs)
      refine ⟨by simp, by simp, fun c hc => ?_⟩
      rcases List.mem_cons.1 hc with rfl | hc
      · decide
      · exact this.2.2 c hc
    · exact digit_word

theorem word_no_nl {w : Str} (h : Word w) : ∀ c ∈ w, c ≠ '\n' := by
  intro c hc e
  subst e
  have := (h.2.2 _ hc).2.1
  revert this; decide

/-- The line (without the newline) a record is written as. -/
def Rec.line : Rec → Str
  | .pair k v => chars "#pair" ++ (chars "  \"" ++ k ++ ['"', '\t', '"'] ++ v ++ ['"'])
  | .altcols n cs => chars "#altcols" ++ (chars "  \"" ++ n ++ '"' ::
      (cs.map fun c => ['\t', '"'] ++ n ++ ' ' :: c ++ ['"']).flatten)
  | .altrow n cs => chars "#altrow" ++ (chars "  \"" ++ n ++ '"' :: (cs.map fun c => '\t' :: c.text).flatten)
  | .note l => l

theorem write_eq {r : Rec} (h : r.Fits) : r.write = .ok (r.line ++ ['\n']) := by
  cases r with
  | pair k v =>
    obtain ⟨h1, h2, h3, h4⟩ := h
    have := dfpair_eq h1.no_nul h2.no_nul h3
    rw [if_neg h4] at this
    rw [Rec.write, this]
    simp [Rec.line, pairpre, chars]
  | altcols n cs =>
    obtain ⟨h1, h2, h3⟩ := h
    have := row_eq (pre := chars "#altcols  \"" ++ n ++ ['"'])
      (ts := cs.map fun c => ['\t', '"'] ++ n ++ ' ' :: c ++ ['"'])
      (no_nul_append (no_nul_append (by decide) h1.no_nul) (by decide))
      (by
        intro t ht
        obtain ⟨c, hc, rfl⟩ := List.mem_map.1 ht
        refine no_nul_append (no_nul_append (no_nul_append (by decide) h1.no_nul) ?_) (by decide)
        intro x hx
        rcases List.mem_cons.1 hx with rfl | hx
        · decide
        · exact (h2 c hc).no_nul x hx)
      (by
        have e : (cs.map fun c => ['\t', '"'] ++ n ++ ' ' :: c ++ ['"']).flatten.length =
            (cs.map fun c => n.length + c.length + 4).sum := by
          rw [List.length_flatten, List.map_map]
          congr 1
          apply List.map_congr_left
          intro c _
          simp only [Function.comp, List.length_append, List.length_cons, List.length_nil]
          omega
        rw [e]
        simp only [chars, List.length_append, List.length_cons, List.length_nil, Bufsz]
        simp
        omega)
    rw [Rec.write, dfrowhdr, this]
    simp [Rec.line, chars]
  | altrow n cs =>
    obtain ⟨h1, h2, h3⟩ := h
    have := row_eq (pre := chars "#altrow  \"" ++ n ++ ['"'])
      (ts := cs.map fun c => '\t' :: c.text)
      (no_nul_append (no_nul_append (by decide) h1.no_nul) (by decide))
      (by
        intro t ht
        obtain ⟨c, hc, rfl⟩ := List.mem_map.1 ht
        intro x hx
        rcases List.mem_cons.1 hx with rfl | hx
        · decide
        · exact ((col_word (h2 c hc)).2.2 x hx).2.2)
      (by
        have e : (cs.map fun c => '\t' :: c.text).flatten.length =
            (cs.map fun c => 1 + c.text.length).sum := by
          rw [List.length_flatten, List.map_map]
          congr 1
          apply List.map_congr_left
          intro c _
          simp only [Function.comp, List.length_cons]
          omega
        rw [e]
        simp only [chars, List.length_append, List.length_cons, List.length_nil, Bufsz]
        simp
        omega)
    rw [Rec.write, dfrow, this]
    simp [Rec.line, chars]
  | note l => rfl

theorem ws_ok (s : Str) (h : s.all isws = true := by decide) : ∀ c ∈ s, isws c = true := by
  simpa using h

theorem Toks.words {ws : List Str} (h : ∀ w ∈ ws, Word w) : Toks (ws.map fun w => '\t' :: w).flatten ws := by
  induction ws with
  | nil => exact .nil (by simp)
  | cons w ws ih =>
    have := Toks.word (ws := ['\t']) (w := w) (rest := (ws.map fun w => '\t' :: w).flatten) (by decide)
      (h w (by simp)) (by
        cases ws with
        | nil => simp
        | cons v ws => intro c hc; simp at hc; subst hc; decide) (ih fun w hw => h w (by simp [hw]))
    simpa using this

theorem Toks.quotes {ws : List Str} (h : ∀ w ∈ ws, Quotable w) :
    Toks (ws.map fun w => '\t' :: '"' :: w ++ ['"']).flatten ws := by
  induction ws with
  | nil => exact .nil (by simp)
  | cons w ws ih =>
    have := Toks.quoted (ws := ['\t']) (t := w) (by decide) (h w (by simp))
      (ih fun w hw => h w (by simp [hw]))
    simpa using this

theorem line_toks {r : Rec} (h : r.Fits) : dfline r.line = .ok r.toks := by
  cases r with
  | pair k v =>
    obtain ⟨h1, h2, h3, h4⟩ := h
    apply dfline_eq (Or.inl rfl)
    have := Toks.quoted (ws := [' ', ' ']) (by decide) h1.quotable (Toks.quotes (ws := [v])
      (by simpa using h2.quotable))
    simpa [chars] using this
  | altcols n cs =>
    obtain ⟨h1, h2, h3⟩ := h
    apply dfline_eq (Or.inr (Or.inl rfl))
    have := Toks.quoted (ws := [' ', ' ']) (by decide) h1.quotable
      (Toks.quotes (ws := cs.map fun c => n ++ ' ' :: c) (by
        intro w hw
        obtain ⟨c, hc, rfl⟩ := List.mem_map.1 hw
        intro x hx
        rcases List.mem_append.1 hx with hx | hx
        · exact h1.quotable x hx
        · rcases List.mem_cons.1 hx with rfl | hx
          · decide
          · exact (h2 c hc).quotable x hx))
    simpa [chars, Function.comp_def] using this
  | altrow n cs =>
    obtain ⟨h1, h2, h3⟩ := h
    apply dfline_eq (Or.inr (Or.inr rfl))
    have := Toks.quoted (ws := [' ', ' ']) (by decide) h1.quotable
      (Toks.words (ws := cs.map Col.text) (by
        intro w hw
        obtain ⟨c, hc, rfl⟩ := List.mem_map.1 hw
        exact col_word (h2 c hc)))
    simpa [chars, Function.comp_def] using this
  | note l =>
    obtain ⟨h1, h2, h3, h4, h5, h6⟩ := h
    apply dfline_none
    have hn : ∀ c ∈ l, c ≠ nul := fun c hc => (h2 c hc).1
    have hc : cstr l = l := by unfold cstr; exact List.takeWhile_eq_self_iff.2 (by simpa using hn)
    unfold kindOf hasprefix
    simp only [Rec.line, hc, cstr_eq hn, List.isPrefixOf_iff_prefix]
    rw [if_neg h4, if_neg h5, if_neg h6]

theorem line_ok {r : Rec} (h : r.Fits) :
    r.line ≠ [] ∧ (∀ c ∈ r.line, c ≠ '\n') ∧ r.line.getLast? ≠ some '\r' := by
  cases r with
  | pair k v =>
    obtain ⟨h1, h2, h3, h4⟩ := h
    refine ⟨by simp [Rec.line, chars], ?_, by
      have e : (Rec.pair k v).line = (chars "#pair" ++ (chars "  \"" ++ k ++ ['"', '\t', '"'] ++ v)) ++ ['"'] := by
        simp [Rec.line]
      rw [e, List.getLast?_concat]; decide⟩
    intro c hc
    simp only [Rec.line, List.mem_append] at hc
    rcases hc with hc | (((hc | hc) | hc) | hc) | hc
    · revert c; decide
    · revert c; decide
    · exact (h1 c hc).2.2
    · revert c; decide
    · exact (h2 c hc).2.2
    · revert c; decide
  | altcols n cs =>
    obtain ⟨h1, h2, h3⟩ := h
    refine ⟨by simp [Rec.line, chars], ?_, ?_⟩
    · intro c hc
      simp only [Rec.line, List.mem_append, List.mem_cons] at hc
      rcases hc with hc | (hc | hc) | hc | hc
      · revert c; decide
      · revert c; decide
      · exact (h1 c hc).2.2
      · subst hc; decide
      · obtain ⟨t, ht, hc⟩ := List.mem_flatten.1 hc
        obtain ⟨x, hx, rfl⟩ := List.mem_map.1 ht
        simp only [List.mem_append, List.mem_cons, List.not_mem_nil, or_false] at hc
        rcases hc with (((rfl | rfl) | hc) | rfl | hc) | rfl
        · decide
        · decide
        · exact (h1 c hc).2.2
        · decide
        · exact (h2 x hx c hc).2.2
        · decide
    · intro hl
      have hm : ∀ ts : List Str, ∀ pre : Str, (∀ t ∈ ts, t.getLast? = some '"') →
          pre.getLast? = some '"' → (pre ++ ts.flatten).getLast? = some '"' := by
        intro ts
        induction ts with
        | nil => intro pre _ hp; simpa using hp
        | cons t ts ih =>
          intro pre ht hp
          have := ih (pre ++ t) (fun t h => ht t (by simp [h])) (by
            rw [List.getLast?_append, ht t (by simp)]; rfl)
          simpa using this
      have := hm (cs.map fun c => ['\t', '"'] ++ n ++ ' ' :: c ++ ['"'])
        (chars "#altcols" ++ (chars "  \"" ++ n ++ ['"'])) (by
          intro t ht
          obtain ⟨c, hc, rfl⟩ := List.mem_map.1 ht
          rw [List.getLast?_concat]) (by rw [← List.append_assoc, List.getLast?_concat])
      simp only [Rec.line] at hl
      simp only [List.append_assoc, List.cons_append, List.nil_append] at this hl
      rw [this] at hl
      revert hl; decide
  | altrow n cs =>
    obtain ⟨h1, h2, h3⟩ := h
    refine ⟨by simp [Rec.line, chars], ?_, ?_⟩
    · intro c hc
      simp only [Rec.line, List.mem_append, List.mem_cons] at hc
      rcases hc with hc | (hc | hc) | hc | hc
      · revert c; decide
      · revert c; decide
      · exact (h1 c hc).2.2
      · subst hc; decide
      · obtain ⟨t, ht, hc⟩ := List.mem_flatten.1 hc
        obtain ⟨x, hx, rfl⟩ := List.mem_map.1 ht
        rcases List.mem_cons.1 hc with rfl | hc
        · decide
        · exact word_no_nl (col_word (h2 x hx)) c hc
    · intro hl
      have hm : ∀ ts : List Str, ∀ pre : Str, (∀ t ∈ ts, t.getLast? ≠ some '\r' ∧ t ≠ []) →
          pre.getLast? ≠ some '\r' → (pre ++ ts.flatten).getLast? ≠ some '\r' := by
        intro ts
        induction ts with
        | nil => intro pre _ hp; simpa using hp
        | cons t ts ih =>
          intro pre ht hp
          have := ih (pre ++ t) (fun t h => ht t (by simp [h])) (by
            rw [List.getLast?_append_of_ne_nil _ (ht t (by simp)).2]
            exact (ht t (by simp)).1)
          simpa using this
      refine hm (cs.map fun c => '\t' :: c.text)
        (chars "#altrow" ++ (chars "  \"" ++ n ++ ['"'])) ?_ (by simp [List.getLast?_append]) ?_
      · intro t ht
        obtain ⟨c, hc, rfl⟩ := List.mem_map.1 ht
        refine ⟨?_, by simp⟩
        have hw := col_word (h2 c hc)
        intro h
        rw [show '\t' :: c.text = ['\t'] ++ c.text from rfl, List.getLast?_append_of_ne_nil _ hw.1] at h
        have := (hw.2.2 _ (List.mem_of_getLast? h)).2.1
        revert this; decide
      · simp only [Rec.line] at hl
        simpa [List.append_assoc] using hl
  | note l =>
    exact ⟨h.1, fun c hc => (h.2.1 c hc).2, h.2.2.1⟩

/-- All records written to a file, one after the other. -/
def writeAll : List Rec → Outcome Str
  | [] => .ok []
  | r :: rs => r.write.bind fun t => (writeAll rs).map (t ++ ·)

/-- **C26.** Writing any list of records succeeds and reading the file gives exactly the records, in order;
nothing else is undefined.
Missing for the full claim: pairs of exactly 256 bytes (see `c26_boundary`, `c26_boundary_fatal`). -/
theorem c26_roundtrip_partial {rs : List Rec} (h : ∀ r ∈ rs, r.Fits) :
    ∃ f, writeAll rs = .ok f ∧ dfread f = .ok (rs.filterMap Rec.toks) := by
  have hw : writeAll rs = .ok ((rs.map fun r => (r.line, r.toks)).flatMap fun x => x.1 ++ ['\n']) := by
    clear * - h
    induction rs with
    | nil => rfl
    | cons r rs ih =>
      rw [writeAll, write_eq (h r (by simp)), Outcome.bind_ok, ih (fun r hr => h r (by simp [hr]))]
      simp
  refine ⟨_, hw, ?_⟩
  unfold dfread
  rw [dfread_lines (ls := rs.map fun r => (r.line, r.toks)) (by
    intro x hx
    obtain ⟨r, hr, rfl⟩ := List.mem_map.1 hx
    obtain ⟨h1, h2, h3⟩ := line_ok (h r hr)
    exact ⟨h1, h2, h3, line_toks (h r hr)⟩) _ _ (Nat.lt_succ_self _)]
  simp [List.filterMap_map, Function.comp_def]

/-- What a column of a row shows. -/
def Shows (t : Str) : Col → Prop
  | .real s => t = s
  | .nat n => (∀ c ∈ t, c.isDigit) ∧ Nat.ofDigitChars 10 t 0 = n
  | .int z => ∃ d : Str, (∀ c ∈ d, c.isDigit) ∧
      ((t = d ∧ z = Nat.ofDigitChars 10 d 0) ∨ (t = '-' :: d ∧ z = - (Nat.ofDigitChars 10 d 0 : Int)))

/-- **C26 (numbers).** Integer columns are the decimal representation of the number. -/
theorem c26_columns (c : Col) : Shows c.text c := by
  cases c with
  | real t => rfl
  | nat n =>
    exact ⟨fun c hc => Nat.isDigit_of_mem_toDigits (by omega) (by omega) hc,
      Nat.ofDigitChars_toDigits (by omega) (by omega)⟩
  | int z =>
    refine ⟨Nat.toDigits 10 z.natAbs, fun c hc => Nat.isDigit_of_mem_toDigits (by omega) (by omega) hc, ?_⟩
    rw [Nat.ofDigitChars_toDigits (by omega) (by omega)]
    unfold Col.text
    dsimp only
    split
    · right; exact ⟨rfl, by omega⟩
    · left; exact ⟨rfl, by omega⟩

/-- **C26 (`tokens`).** The other tokenizer agrees on the same grammar, when no word has a quote in it. -/
theorem c26_tokens {s : Str} {ts : List Str} (h : Toks s ts) (hq : ∀ t ∈ ts, '"' ∉ t) :
    tokens s = .ok ts := by
  have key : ∀ acc, ∃ acc' tok, tokLoop s (acc, [], false) = .ok (acc', tok, false) ∧
      (if tok.length > 0 then acc' ++ [tok] else acc') = acc ++ ts := by
    induction h with
    | nil h => exact fun acc => ⟨acc, [], tokLoop_ws h acc, by simp⟩
    | @quoted ws t rest ts h ht hr ih =>
      intro acc
      obtain ⟨acc', tok, h1, h2⟩ := ih (fun t h => hq t (by simp [h])) (acc ++ [t])
      refine ⟨acc', tok, ?_, by simpa using h2⟩
      rw [tokLoop_append, tokLoop_ws h, Outcome.bind_ok, tokLoop, tokStep, if_pos rfl]
      simp only [Bool.false_eq_true, if_false, Outcome.bind_ok]
      rw [tokLoop_append, tokLoop_in (fun c hc => (ht c hc).2), Outcome.bind_ok, tokLoop, tokStep, if_pos rfl]
      simpa using h1
    | @word ws w rest ts h hw hsep hr ih =>
      intro acc
      have hwt := tokLoop_word (w := w) (fun c hc => ⟨(hw.2.2 c hc).1, (hw.2.2 c hc).2.1, by
        rintro rfl; exact hq w (by simp) hc⟩) acc []
      have hwl : 0 < w.length := List.length_pos_iff.2 hw.1
      rw [tokLoop_append, tokLoop_ws h, Outcome.bind_ok, tokLoop_append, hwt, Outcome.bind_ok]
      cases rest with
      | nil =>
        have := hr.nil_eq
        subst this
        exact ⟨acc, w, rfl, by simp [hwl]⟩
      | cons x rest =>
        have hx : isws x = true := hsep x rfl
        obtain ⟨acc', tok, h1, h2⟩ := ih (fun t h => hq t (by simp [h])) (acc ++ [w])
        refine ⟨acc', tok, ?_, by simpa using h2⟩
        rw [tokLoop, tokStep, if_neg (isws_ne_quote hx)] at h1 ⊢
        rw [isspace_ws hx] at h1 ⊢
        simpa [hwl] using h1
  obtain ⟨acc', tok, h1, h2⟩ := key []
  unfold tokens
  rw [h1, Outcome.bind_ok]
  dsimp only
  simp only [List.nil_append] at h2
  rw [← h2]
  by_cases ht : tok.length > 0
  · simp [ht]
  · simp [ht]

/-! ## Where the full claim fails -/

/-- A pair of exactly 256 bytes loses the last byte of its value. -/
theorem c26_boundary {key val : Str} (hk : Plain key) (hv : Plain val) (hne : val ≠ [])
    (hl : key.length + val.length = 245) : ∃ f, dfpair key val = .ok f ∧
      dfread f = .ok [[chars "#pair", key, val.dropLast]] ∧ val.dropLast ≠ val := by
  have hvl : 0 < val.length := List.length_pos_iff.2 hne
  have h := dfpair_eq hk.no_nul hv.no_nul (by omega)
  rw [if_pos hl, List.dropLast_append_of_ne_nil hne] at h
  refine ⟨_, h, ?_, ?_⟩
  · have hd : Plain val.dropLast := fun c hc => hv c ((List.dropLast_sublist val).subset hc)
    obtain ⟨f, h1, h2⟩ := c26_roundtrip_partial (rs := [.pair key val.dropLast]) (by
      intro r hr
      simp only [List.mem_cons, List.not_mem_nil, or_false] at hr
      subst hr
      exact ⟨hk, hd, by omega, by simp; omega⟩)
    have h3 := dfpair_eq hk.no_nul hd.no_nul (by omega : key.length ≤ 245)
    rw [if_neg (by simp; omega)] at h3
    simp only [writeAll, Rec.write, h3, Outcome.bind_ok, Outcome.map_ok, Outcome.ok.injEq,
      List.append_nil] at h1
    rw [h1, h2]
    rfl
  · intro e
    have := congrArg List.length e
    simp at this
    omega

/-- A key of 245 bytes with an empty value makes a file its own reader refuses. -/
theorem c26_boundary_fatal : ∃ f, dfpair (List.replicate 245 'k') [] = .ok f ∧ dfread f = .fatal := by
  have h : ∀ o : Outcome Str, (o.bind dfread = .fatal ∧ ∃ f, o = .ok f) →
      ∃ f, o = .ok f ∧ dfread f = .fatal := by
    rintro o ⟨h, f, rfl⟩; exact ⟨f, rfl, h⟩
  refine h _ ⟨by decide +kernel, _, dfpair_eq (by decide +kernel) (by decide) (by rw [List.length_replicate])⟩

/-- A column header line of exactly 256 bytes is cut, and the reader refuses the file. -/
theorem c26_header_fatal : ∃ f, dfrowhdr ['a'] [List.replicate 238 'c'] = .ok f ∧ dfread f = .fatal := by
  have h : ∀ o : Outcome Str, (o.bind dfread = .fatal ∧ o ≠ .fatal) →
      ∃ f, o = .ok f ∧ dfread f = .fatal := by
    rintro o ⟨h, h2⟩
    cases o with
    | ok f => exact ⟨f, rfl, h⟩
    | fatal => exact absurd rfl h2
    | ub => exact absurd h (by simp)
    | nofuel => exact absurd h (by simp)
  exact h _ ⟨by decide +kernel, by decide +kernel⟩

/-- Longer keys stop the program. -/
theorem c26_long_key {key val : Str} (hl : 245 < key.length) : dfpair key val = .fatal := dfpair_fatal hl

/-- An empty line in a data file makes the reader read outside of the line. -/
theorem c26_blank_line : dfread (chars "#pair  \"a\"\t\"b\"\n\n") = .ub := by decide +kernel

/-- So does a value that contains an empty line. -/
theorem c26_newline : ∃ f, dfpair ['k'] (chars "a\n\nb") = .ok f ∧ dfread f = .fatal := by
  refine ⟨_, dfpair_eq (by decide) (by decide) (by decide), by decide +kernel⟩

/-! ## Examples -/

example : ∃ f, writeAll [.note (chars "#start data file format 4"), .pair (chars "final sol cost") (chars "12"),
    .altcols (chars "sol") [chars "cost", chars "time"], .altrow (chars "sol") [.int (-3), .real (chars "1e-05")],
    .note (chars "#end data file format 4")] = .ok f ∧
    dfread f = .ok [[chars "#pair", chars "final sol cost", chars "12"],
      [chars "#altcols", chars "sol", chars "sol cost", chars "sol time"],
      [chars "#altrow", chars "sol", chars "-3", chars "1e-05"]] := by
  obtain ⟨f, h1, h2⟩ := c26_roundtrip_partial (rs := [.note (chars "#start data file format 4"),
    .pair (chars "final sol cost") (chars "12"),
    .altcols (chars "sol") [chars "cost", chars "time"], .altrow (chars "sol") [.int (-3), .real (chars "1e-05")],
    .note (chars "#end data file format 4")]) (by
    intro r hr
    simp only [List.mem_cons, List.not_mem_nil, or_false] at hr
    rcases hr with rfl | rfl | rfl | rfl | rfl <;> simp only [Rec.Fits] <;> decide)
  exact ⟨f, h1, h2⟩

/-- a pair longer than the buffer -/
example : Rec.Fits (.pair ['k'] (List.replicate 1000 'v')) := by
  refine ⟨by decide, fun c hc => ?_, by decide, by rw [List.length_replicate]; decide⟩
  rw [List.eq_of_mem_replicate hc]; decide

example : Toks (chars "a  \"b c\" d") [chars "a", chars "b c", chars "d"] :=
  .word (ws := []) (w := ['a']) (by simp) (by decide) (by decide)
    (.quoted (ws := chars "  ") (t := chars "b c") (by decide) (by decide)
      (.word (ws := [' ']) (w := ['d']) (rest := []) (by decide) (by decide) (by decide) (.nil (by simp))))

end Verif.Datafile
