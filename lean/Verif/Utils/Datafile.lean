import Verif.Utils.Str
import Mathlib.Data.List.GetD
import Mathlib.Data.List.TakeWhile

/-!
# Model of utils/datafile.cc and of `readline` (utils/fs.cc)

A file is the list of its bytes.  What `printf` makes of a format and its arguments is an input: `dfpair` takes
the formatted value, `dfrow` the formatted `%g`/`%lf` columns (integers are formatted here).  Texts are
assumed to be shorter than 2^31 (`snprintf` returns an `int`).
`dfheader`, `dffooter` and `dfprocstatus` only call `dfpair` with texts obtained from the system, and write
the two comment lines `start4`, `end4`.
-/

namespace Verif.Datafile

open Verif.Str

/-! ## The formatting buffer -/

/-- datafile.cc:12 -/
def Bufsz : Nat := 256

/-- The contents of a `char` array; `none` is an indeterminate value. -/
abbrev Buf := Nat → Option Char

def Buf.empty : Buf := fun _ => none

/-- What `snprintf(buf+off, sz, ...)` stores for the formatted text `t`. -/
def put (b : Buf) (off sz : Nat) (t : Str) : Buf := fun k =>
  if sz = 0 then b k
  else if off ≤ k ∧ k < off + min t.length (sz - 1) then t[k - off]?
  else if k = off + min t.length (sz - 1) then some nul
  else b k

/-- `snprintf(buf+off, sz, ...)` for an array of `cap` bytes: the array and the returned length. -/
def snprintf (cap : Nat) (b : Buf) (off sz : Nat) (t : Str) : Outcome (Buf × Nat) :=
  if off + sz ≤ cap then .ok (put b off sz t, t.length) else .ub

/-- What `fprintf(f, "%s", buf+k)` outputs. -/
def getstr (cap : Nat) (b : Buf) : Nat → Nat → Outcome Str
  | 0, _ => .ub
  | fuel + 1, k =>
    if cap ≤ k then .ub
    else match b k with
      | none => .ub
      | some c => if c = nul then .ok [] else (getstr cap b fuel (k + 1)).map (c :: ·)

def chars (s : String) : Str := s.toList

/-- datafile.cc:42-50 `dfpair_sz`: what is written to the file. -/
def dfpairSz (sz : Nat) (pre val : Str) : Outcome Str :=
  (snprintf sz Buf.empty 0 sz pre).bind fun (b, n) =>
  if n ≤ sz then
    (snprintf sz b n (sz - n) val).bind fun (b, _) =>
    (getstr sz b sz 0).map (· ++ ['"', '\n'])
  else .fatal

/-- datafile.cc:23, 45: the text of the format `#pair  "%s"\t"`. -/
def pairpre (key : Str) : Str := chars "#pair  \"" ++ key ++ ['"', '\t', '"']

/-- datafile.cc:21-40 `dfpair`: what is written to the file. -/
def dfpair (key val : Str) : Outcome Str :=
  (snprintf Bufsz Buf.empty 0 Bufsz (pairpre key)).bind fun (b, n) =>
  if n > Bufsz then .fatal
  else
    (snprintf Bufsz b n (Bufsz - n) val).bind fun (b, m) =>
    if m > Bufsz - n then dfpairSz (m + n + 1) (pairpre key) val
    else (getstr Bufsz b Bufsz 0).map (· ++ ['"', '\n'])

/-- The loops of datafile.cc:59-65 and 79-104: append formatted columns to the buffer. -/
def cols : List Str → Buf → Nat → Outcome Buf
  | [], b, _ => .ok b
  | t :: ts, b, n =>
    (snprintf Bufsz b n (Bufsz - n) t).bind fun (b, m) =>
    if m > Bufsz - n then .fatal else cols ts b (n + m)

/-- datafile.cc:52-69 `dfrowhdr` -/
def dfrowhdr (name : Str) (cs : List Str) : Outcome Str :=
  (snprintf Bufsz Buf.empty 0 Bufsz (chars "#altcols  \"" ++ name ++ ['"'])).bind fun (b, n) =>
  if n > Bufsz then .fatal
  else (cols (cs.map fun c => ['\t', '"'] ++ name ++ ' ' :: c ++ ['"']) b n).bind fun b =>
    (getstr Bufsz b Bufsz 0).map (· ++ ['\n'])

/-- An argument of `dfrow` with its letter in `colfmt`. -/
inductive Col where
  /-- `g` and `f`: a `double`, given by the text `printf` makes of it -/
  | real (t : Str)
  /-- `d` -/
  | int (z : Int)
  /-- `u` -/
  | nat (n : Nat)
  deriving DecidableEq

/-- The column as text (datafile.cc:84-101 without the tab). -/
def Col.text : Col → Str
  | .real t => t
  | .int z => if z < 0 then '-' :: Nat.toDigits 10 z.natAbs else Nat.toDigits 10 z.natAbs
  | .nat n => Nat.toDigits 10 n

/-- datafile.cc:71-110 `dfrow`.  (Letters other than `g f d u` in `colfmt` consume no argument and write
nothing; they are left out.) -/
def dfrow (name : Str) (cs : List Col) : Outcome Str :=
  (snprintf Bufsz Buf.empty 0 Bufsz (chars "#altrow  \"" ++ name ++ ['"'])).bind fun (b, n) =>
  if n > Bufsz then .fatal
  else (cols (cs.map fun c => '\t' :: c.text) b n).bind fun b =>
    (getstr Bufsz b Bufsz 0).map (· ++ ['\n'])

/-! ## Reading -/

/-- fs.cc:14-37 `readline`: the line and the rest of the file; `none` at the end of the file. -/
def readline (f : Str) : Outcome (Option (Str × Str)) :=
  let line := f.takeWhile (· ≠ '\n')
  let rest := f.dropWhile (· ≠ '\n')
  if line = [] ∧ rest = [] then .ok none
  else match line.getLast? with
    | none => .ub
    | some c =>
      let line := if c = '\n' then line.dropLast else line
      match line.getLast? with
      | none => .ub
      | some c => .ok (some (if c = '\r' then line.dropLast else line, rest.tail))

/-- datafile.cc:217-223: the loop over the tokens of a line.  `s` is the buffer from `left` on, `n` is
`end - left`. -/
def tokloop : Nat → Str → Nat → List Str → Outcome (List Str)
  | 0, _, _, _ => .nofuel
  | fuel + 1, s, n, toks =>
    if 0 < n then
      (gettoken s).bind fun
        | none => .ok toks
        | some (off, s') =>
          (strlen (s'.drop off)).bind fun len =>
          tokloop fuel (s'.drop (off + len + 1)) (n - (off + len + 1)) (toks ++ [cstr (s'.drop off)])
    else .ok toks

/-- datafile.cc:207-212: the kind of the line. -/
def kindOf (l : Str) : Option Str :=
  if hasprefix l (chars "#pair") then some (chars "#pair")
  else if hasprefix l (chars "#altcols") then some (chars "#altcols")
  else if hasprefix l (chars "#altrow") then some (chars "#altrow")
  else none

/-- datafile.cc:204-226: a line; the argument of `seeline` if it is called. -/
def dfline (line : Str) : Outcome (Option (List Str)) :=
  let linebuf := cstr line ++ [nul]
  match kindOf linebuf with
  | none => .ok none
  | some k =>
    (tokloop (linebuf.length + 1) (linebuf.drop k.length) (linebuf.length - 1 - k.length) [k]).map some

/-- datafile.cc:199-232 `dfread`: the calls of `seeline`. -/
def dfreadLoop : Nat → Str → List (List Str) → Outcome (List (List Str))
  | 0, _, _ => .nofuel
  | fuel + 1, f, acc =>
    (readline f).bind fun
      | none => .ok acc
      | some (l, rest) =>
        (dfline l).bind fun
          | none => dfreadLoop fuel rest acc
          | some toks => dfreadLoop fuel rest (acc ++ [toks])

def dfread (f : Str) : Outcome (List (List Str)) := dfreadLoop (f.length + 1) f []

/-! ## Lemmas on the buffer -/

/-- The buffer starts with the text `s`. -/
def Pre (b : Buf) (s : Str) : Prop := ∀ k, k < s.length → b k = s[k]?

theorem pre_nil (b : Buf) : Pre b [] := fun k hk => by simp at hk

theorem pre_put {b : Buf} {s t : Str} {sz : Nat} (hp : Pre b s) (hsz : 0 < sz) :
    Pre (put b s.length sz t) (s ++ t.take (sz - 1)) ∧
    (put b s.length sz t) (s ++ t.take (sz - 1)).length = some nul := by
  have hlen : (s ++ t.take (sz - 1)).length = s.length + min t.length (sz - 1) := by
    rw [List.length_append, List.length_take, Nat.min_comm]
  constructor
  · intro k hk
    rw [hlen] at hk
    unfold put
    rw [if_neg (by omega)]
    by_cases h1 : s.length ≤ k
    · rw [if_pos ⟨h1, hk⟩, List.getElem?_append_right h1, List.getElem?_take_of_lt (by omega)]
    · rw [if_neg (by omega), if_neg (by omega), hp k (by omega), List.getElem?_append_left (by omega)]
  · rw [hlen]
    unfold put
    rw [if_neg (by omega), if_neg (by omega), if_pos rfl]

theorem getstr_aux {cap : Nat} {b : Buf} {s : Str} (hp : Pre b s) (hz : b s.length = some nul)
    (hn : ∀ c ∈ s, c ≠ nul) (hc : s.length < cap) :
    ∀ fuel k, k ≤ s.length → s.length < k + fuel → getstr cap b fuel k = .ok (s.drop k) := by
  intro fuel
  induction fuel with
  | zero => intro k h1 h2; omega
  | succ fuel ih =>
    intro k h1 h2
    rw [getstr, if_neg (by omega)]
    by_cases hk : k = s.length
    · subst hk
      rw [hz]; simp
    · have hlt : k < s.length := by omega
      rw [hp k hlt, List.getElem?_eq_getElem hlt]
      dsimp only
      rw [if_neg (hn _ (List.getElem_mem hlt)), ih (k + 1) (by omega) (by omega), Outcome.map_ok,
        List.drop_eq_getElem_cons hlt]

theorem getstr_eq {cap : Nat} {b : Buf} {s : Str} (hp : Pre b s) (hz : b s.length = some nul)
    (hn : ∀ c ∈ s, c ≠ nul) (hc : s.length < cap) : getstr cap b cap 0 = .ok s := by
  have := getstr_aux hp hz hn hc cap 0 (by omega) (by omega)
  simpa using this

theorem no_nul_take {s : Str} (h : ∀ c ∈ s, c ≠ nul) (n : Nat) : ∀ c ∈ s.take n, c ≠ nul :=
  fun c hc => h c (List.mem_of_mem_take hc)

theorem no_nul_append {s t : Str} (h : ∀ c ∈ s, c ≠ nul) (h' : ∀ c ∈ t, c ≠ nul) :
    ∀ c ∈ s ++ t, c ≠ nul := by
  intro c hc
  rcases List.mem_append.1 hc with hc | hc
  · exact h c hc
  · exact h' c hc

theorem pairpre_length (key : Str) : (pairpre key).length = key.length + 11 := by
  simp [pairpre, chars]

theorem pairpre_no_nul {key : Str} (h : ∀ c ∈ key, c ≠ nul) : ∀ c ∈ pairpre key, c ≠ nul := by
  unfold pairpre
  exact no_nul_append (no_nul_append (by decide) h) (by decide)

/-- The whole text is written, or the last byte of it is lost, or the program stops. -/
theorem dfpairSz_eq {pre val : Str} (hp : ∀ c ∈ pre, c ≠ nul) (hv : ∀ c ∈ val, c ≠ nul) :
    dfpairSz (val.length + pre.length + 1) pre val = .ok (pre ++ val ++ ['"', '\n']) := by
  unfold dfpairSz snprintf
  rw [if_pos (by omega)]
  simp only [Outcome.bind_ok]
  rw [if_pos (by omega), if_pos (by omega)]
  simp only [Outcome.bind_ok]
  have h1 := pre_put (b := Buf.empty) (s := []) (t := pre) (sz := val.length + pre.length + 1) (pre_nil _)
    (by omega)
  rw [List.take_of_length_le (by omega)] at h1
  simp only [List.nil_append, List.length_nil] at h1
  have h2 := pre_put (t := val) (sz := val.length + pre.length + 1 - pre.length) h1.1 (by omega)
  rw [List.take_of_length_le (by omega)] at h2
  rw [getstr_eq h2.1 h2.2 (no_nul_append hp hv) (by simp; omega)]
  simp

theorem dfpair_eq {key val : Str} (hk : ∀ c ∈ key, c ≠ nul) (hv : ∀ c ∈ val, c ≠ nul)
    (hl : key.length ≤ 245) : dfpair key val =
      .ok ((if key.length + val.length = 245 then (pairpre key ++ val).dropLast else pairpre key ++ val)
        ++ ['"', '\n']) := by
  have hpn := pairpre_no_nul hk
  have hpl := pairpre_length key
  have hB : Bufsz = 256 := rfl
  unfold dfpair snprintf
  rw [if_pos (by omega)]
  simp only [Outcome.bind_ok]
  rw [if_neg (by omega), if_pos (by omega)]
  simp only [Outcome.bind_ok]
  have h1 := pre_put (b := Buf.empty) (s := []) (t := pairpre key) (sz := Bufsz) (pre_nil _) (by omega)
  simp only [List.nil_append, List.length_nil] at h1
  by_cases hm : val.length > Bufsz - (pairpre key).length
  · rw [if_pos hm, dfpairSz_eq hpn hv, if_neg (by omega)]
  · rw [if_neg hm]
    by_cases hk245 : key.length = 245
    · have hv0 : val = [] := List.length_eq_zero_iff.1 (by omega)
      subst hv0
      rw [if_pos (by simpa using hk245)]
      have e : put (put Buf.empty 0 Bufsz (pairpre key)) (pairpre key).length
          (Bufsz - (pairpre key).length) [] = put Buf.empty 0 Bufsz (pairpre key) := by
        funext k
        conv_lhs => unfold put
        exact if_pos (by omega)
      rw [e, getstr_eq h1.1 h1.2 (no_nul_take hpn _) (by simp [hpl]; omega), Outcome.map_ok,
        List.append_nil, List.dropLast_eq_take]
      congr 3
      omega
    · rw [List.take_of_length_le (by omega)] at h1
      have h2 := pre_put (t := val) (sz := Bufsz - (pairpre key).length) h1.1 (by omega)
      rw [getstr_eq h2.1 h2.2 (no_nul_append hpn (no_nul_take hv _))
        (by simp only [List.length_append, List.length_take]; omega), Outcome.map_ok]
      by_cases h3 : key.length + val.length = 245
      · rw [if_pos h3, List.dropLast_append_of_ne_nil (by
          intro h; subst h; simp at h3; omega), List.dropLast_eq_take]
        congr 4
        omega
      · rw [if_neg h3, List.take_of_length_le (by omega)]

theorem dfpair_fatal {key val : Str} (hl : 245 < key.length) : dfpair key val = .fatal := by
  have hpl := pairpre_length key
  have hB : Bufsz = 256 := rfl
  unfold dfpair snprintf
  rw [if_pos (by omega)]
  simp only [Outcome.bind_ok]
  rw [if_pos (by omega)]

/-- Columns that fit. -/
theorem cols_eq {ts : List Str} (hts : ∀ t ∈ ts, ∀ c ∈ t, c ≠ nul) :
    ∀ {s : Str} {b : Buf}, Pre b s → b s.length = some nul → s.length + ts.flatten.length < Bufsz →
      ∃ b', cols ts b s.length = .ok b' ∧ Pre b' (s ++ ts.flatten) ∧
        b' (s ++ ts.flatten).length = some nul := by
  induction ts with
  | nil =>
    intro s b hp hz hl
    exact ⟨b, rfl, by simpa using hp, by simpa using hz⟩
  | cons t ts ih =>
    intro s b hp hz hl
    simp only [List.flatten_cons, List.length_append] at hl
    unfold cols snprintf
    rw [if_pos (by omega)]
    simp only [Outcome.bind_ok]
    rw [if_neg (by omega)]
    have h2 := pre_put (t := t) (sz := Bufsz - s.length) hp (by omega)
    rw [List.take_of_length_le (by omega)] at h2
    obtain ⟨b', e, h3, h4⟩ := ih (fun t ht => hts t (by simp [ht])) h2.1 h2.2 (by rw [List.length_append]; omega)
    refine ⟨b', ?_, by simpa using h3, by simpa using h4⟩
    rw [← e]; simp

theorem row_eq {pre : Str} {ts : List Str} (hp : ∀ c ∈ pre, c ≠ nul) (hts : ∀ t ∈ ts, ∀ c ∈ t, c ≠ nul)
    (hl : pre.length + ts.flatten.length < Bufsz) :
    ((snprintf Bufsz Buf.empty 0 Bufsz pre).bind fun (b, n) =>
      if n > Bufsz then .fatal
      else (cols ts b n).bind fun b => (getstr Bufsz b Bufsz 0).map (· ++ ['\n'])) =
      .ok (pre ++ ts.flatten ++ ['\n']) := by
  have hB : Bufsz = 256 := rfl
  unfold snprintf
  rw [if_pos (by omega)]
  simp only [Outcome.bind_ok]
  rw [if_neg (by omega)]
  have h1 := pre_put (b := Buf.empty) (s := []) (t := pre) (sz := Bufsz) (pre_nil _) (by omega)
  rw [List.take_of_length_le (by omega)] at h1
  simp only [List.nil_append, List.length_nil] at h1
  obtain ⟨b', e, h3, h4⟩ := cols_eq hts h1.1 h1.2 hl
  rw [e, Outcome.bind_ok, getstr_eq h3 h4 (no_nul_append hp (by
    intro c hc
    obtain ⟨t, ht, hc⟩ := List.mem_flatten.1 hc
    exact hts t ht c hc)) (by rw [List.length_append]; omega)]
  simp

/-! ## Lemmas on reading -/

theorem toks_loop : ∀ (N : Nat) {s : Str} {ts : List Str}, s.length ≤ N → Toks s ts →
    ∀ (fuel : Nat) (r : Str) (acc : List Str), s.length < fuel →
      tokloop fuel (s ++ nul :: r) s.length acc = .ok (acc ++ ts) := by
  intro N
  induction N with
  | zero =>
    intro s ts hN h fuel r acc hf
    have hs : s = [] := List.length_eq_zero_iff.1 (by omega)
    subst hs
    have := h.nil_eq
    subst this
    obtain ⟨fuel, rfl⟩ : ∃ f, fuel = f + 1 := ⟨fuel - 1, by omega⟩
    rw [tokloop, if_neg (by simp)]; simp
  | succ N ih =>
    intro s ts hN h fuel r acc hf
    obtain ⟨fuel, rfl⟩ : ∃ f, fuel = f + 1 := ⟨fuel - 1, by omega⟩
    by_cases h0 : s.length = 0
    · have hs : s = [] := List.length_eq_zero_iff.1 h0
      subst hs
      have := h.nil_eq
      subst this
      rw [tokloop, if_neg (by simp)]; simp
    rw [tokloop, if_pos (by omega)]
    cases h with
    | nil h =>
      rw [gettoken_nil h]
      simp
    | @quoted ws t rest ts h ht hr =>
      rw [show ws ++ '"' :: (t ++ '"' :: rest) ++ nul :: r =
        ws ++ '"' :: (t ++ '"' :: (rest ++ nul :: r)) by simp, gettoken_quoted h ht hr.no_nul,
        Outcome.bind_ok]
      dsimp only
      have hd : (ws ++ '"' :: (t ++ nul :: (rest ++ nul :: r))).drop (ws.length + 1) =
          t ++ nul :: (rest ++ nul :: r) := by rw [← List.drop_drop]; simp
      have hd2 : (ws ++ '"' :: (t ++ nul :: (rest ++ nul :: r))).drop (ws.length + 1 + t.length + 1) =
          rest ++ nul :: r := by
        rw [show ws.length + 1 + t.length + 1 = ws.length + 1 + (t.length + 1) by omega,
          ← List.drop_drop, hd, ← List.drop_drop]
        simp
      rw [hd, strlen_eq (fun c hc => (ht c hc).1), Outcome.bind_ok, hd2, cstr_eq (fun c hc => (ht c hc).1)]
      simp only [List.length_append, List.length_cons] at hf hN ⊢
      rw [show ws.length + (t.length + (rest.length + 1) + 1) - (ws.length + 1 + t.length + 1) = rest.length
        by omega, ih (by omega) hr fuel r _ (by omega)]
      simp
    | @word ws w rest ts h hw hsep hr =>
      have hwl : 0 < w.length := List.length_pos_iff.2 hw.1
      have hwn : ∀ c ∈ w, c ≠ nul := fun c hc => (hw.2.2 c hc).2.2
      cases rest with
      | nil =>
        have := hr.nil_eq
        subst this
        rw [show ws ++ (w ++ []) ++ nul :: r = ws ++ (w ++ nul :: r) by simp,
          gettoken_word h hw (Or.inl rfl), Outcome.bind_ok]
        dsimp only
        have hd : (ws ++ (w ++ nul :: r)).drop ws.length = w ++ nul :: r := by simp
        rw [hd, strlen_eq hwn, Outcome.bind_ok, cstr_eq hwn]
        simp only [List.length_append, List.length_nil] at hf ⊢
        rw [show ws.length + (w.length + 0) - (ws.length + w.length + 1) = 0 by omega]
        obtain ⟨fuel, rfl⟩ : ∃ f, fuel = f + 1 := ⟨fuel - 1, by omega⟩
        rw [tokloop, if_neg (by omega)]
      | cons x rest =>
        have hx : isws x = true := hsep x rfl
        rw [show ws ++ (w ++ x :: rest) ++ nul :: r = ws ++ (w ++ x :: (rest ++ nul :: r)) by simp,
          gettoken_word h hw (Or.inr ⟨hx, by simp⟩), Outcome.bind_ok]
        dsimp only
        have hd : (ws ++ (w ++ nul :: (rest ++ nul :: r))).drop ws.length =
            w ++ nul :: (rest ++ nul :: r) := by simp
        have hd2 : (ws ++ (w ++ nul :: (rest ++ nul :: r))).drop (ws.length + w.length + 1) =
            rest ++ nul :: r := by
          rw [show ws.length + w.length + 1 = ws.length + (w.length + 1) by omega, ← List.drop_drop, hd,
            ← List.drop_drop]
          simp
        rw [hd, strlen_eq hwn, Outcome.bind_ok, hd2, cstr_eq hwn]
        simp only [List.length_append, List.length_cons] at hf hN ⊢
        rw [show ws.length + (w.length + (rest.length + 1)) - (ws.length + w.length + 1) = rest.length
          by omega, ih (by omega) (hr.tail hx) fuel r _ (by omega)]
        simp

/-- A line of one of the three kinds, without white space problems at its end. -/
theorem dfline_eq {k body : Str} {ts : List Str}
    (hk : k = chars "#pair" ∨ k = chars "#altcols" ∨ k = chars "#altrow") (h : Toks body ts) :
    dfline (k ++ body) = .ok (some (k :: ts)) := by
  have hkn : ∀ c ∈ k, c ≠ nul := by rcases hk with rfl | rfl | rfl <;> decide
  have hn := no_nul_append hkn h.no_nul
  have hc : cstr (k ++ body) = k ++ body := by
    unfold cstr; exact List.takeWhile_eq_self_iff.2 (by simpa using hn)
  have hc2 : cstr (k ++ body ++ [nul]) = k ++ body := cstr_eq hn
  have hkind : kindOf (k ++ body ++ [nul]) = some k := by
    unfold kindOf hasprefix
    rw [hc2]
    rcases hk with rfl | rfl | rfl <;> simp [chars, List.isPrefixOf]
  unfold dfline
  rw [hc]
  dsimp only
  rw [hkind]
  dsimp only
  have hl := toks_loop body.length (Nat.le_refl _) h ((k ++ body ++ [nul]).length + 1) [] [k] (by simp; omega)
  have e1 : (k ++ body ++ [nul]).drop k.length = body ++ [nul] := by simp
  have e2 : (k ++ body ++ [nul]).length - 1 - k.length = body.length := by simp
  rw [e1, e2, hl]
  simp

/-- Other lines are passed over. -/
theorem dfline_none {l : Str} (h : kindOf (cstr l ++ [nul]) = none) : dfline l = .ok none := by
  unfold dfline
  dsimp only
  rw [h]

theorem readline_eq {l f : Str} (h0 : l ≠ []) (h : ∀ c ∈ l, c ≠ '\n') (hr : l.getLast? ≠ some '\r') :
    readline (l ++ '\n' :: f) = .ok (some (l, f)) := by
  unfold readline
  have e1 : (l ++ '\n' :: f).takeWhile (· ≠ '\n') = l := by
    rw [List.takeWhile_append_of_pos (by simpa using h)]; simp
  have e2 : (l ++ '\n' :: f).dropWhile (· ≠ '\n') = '\n' :: f := by
    rw [List.dropWhile_append_of_pos (by simpa using h)]; simp
  dsimp only
  rw [e1, e2, if_neg (by simp)]
  cases hl : l.getLast? with
  | none => exact absurd (List.getLast?_eq_none_iff.1 hl) h0
  | some c =>
    have hc : c ≠ '\n' := h c (List.mem_of_getLast? hl)
    dsimp only
    rw [if_neg hc, hl]
    dsimp only
    rw [if_neg (by rintro rfl; exact hr hl)]
    rfl

theorem readline_nil : readline [] = .ok none := rfl

/-- A file made of lines. -/
theorem dfread_lines {ls : List (Str × Option (List Str))}
    (h : ∀ x ∈ ls, x.1 ≠ [] ∧ (∀ c ∈ x.1, c ≠ '\n') ∧ x.1.getLast? ≠ some '\r' ∧ dfline x.1 = .ok x.2) :
    ∀ (fuel : Nat) (acc : List (List Str)), (ls.flatMap fun x => x.1 ++ ['\n']).length < fuel →
      dfreadLoop fuel (ls.flatMap fun x => x.1 ++ ['\n']) acc = .ok (acc ++ ls.filterMap (·.2)) := by
  induction ls with
  | nil =>
    intro fuel acc hf
    obtain ⟨fuel, rfl⟩ : ∃ f, fuel = f + 1 := ⟨fuel - 1, by omega⟩
    rw [dfreadLoop]; simp [readline_nil]
  | cons x ls ih =>
    intro fuel acc hf
    obtain ⟨fuel, rfl⟩ : ∃ f, fuel = f + 1 := ⟨fuel - 1, by omega⟩
    obtain ⟨h1, h2, h3, h4⟩ := h x (by simp)
    have e : ((x :: ls).flatMap fun x => x.1 ++ ['\n']) =
        x.1 ++ '\n' :: (ls.flatMap fun x => x.1 ++ ['\n']) := by simp
    rw [e] at hf ⊢
    simp only [List.length_append, List.length_cons] at hf
    rw [dfreadLoop, readline_eq h1 h2 h3, Outcome.bind_ok]
    dsimp only
    rw [h4, Outcome.bind_ok]
    have ih' := ih (fun x hx => h x (by simp [hx])) fuel
    cases hx : x.2 with
    | none =>
      dsimp only
      rw [ih' _ (by omega), List.filterMap_cons, hx]
    | some ts =>
      dsimp only
      rw [ih' _ (by omega), List.filterMap_cons, hx]
      simp

end Verif.Datafile
