import Verif.Domains.GridFile
import Verif.Utils.Path

/-!
# Model of gridnav/scenario.cc, gridnav/main_scenario.cc and gridnav/scenario2rdb.cc

A stream is the list of the characters that have not been read; a failed extraction ends all further reading.

* `>>` to a `float` or `double` is the parameter `dbl` (white space is skipped, then a number is read).
* The search is a parameter: what it leaves in `srch->res` for a map, a start and a goal.  That the same object is used for
  all entries, with `reset` in between, is not modelled here (see C61 and C64 for what `reset` forgets).
* The files are a function from path names to contents.
* `assert` failing is `fatal`.  The times of a row are left out.  Costs are real numbers; `Eps` is any number.
* Numbers of entries stay below 2^31.
-/

namespace Verif.Scenario

open Verif.GridNav Verif.Str Verif.GridFile

/-! ## Extraction -/

/-- `in >> std::string`. -/
def str (s : Str) : Option (Str × Str) :=
  let t := skip s
  if t.takeWhile (fun c => !isws c) = [] then none
  else some (t.takeWhile (fun c => !isws c), t.dropWhile (fun c => !isws c))

/-- `in >> unsigned int`: a sign and digits; a negative number wraps round, a number that is too large is a failure. -/
def uns (s : Str) : Option (Nat × Str) :=
  let s := skip s
  let neg := s.head? == some '-'
  let t := if neg || s.head? == some '+' then s.tail else s
  if t.takeWhile Char.isDigit = [] then none
  else
    let n := Nat.ofDigitChars 10 (t.takeWhile Char.isDigit) 0
    if 2 ^ 32 ≤ n then none
    else some (if neg then (2 ^ 32 - n) % 2 ^ 32 else n, t.dropWhile Char.isDigit)

/-! ## scenario.cc -/

/-- scenario.hpp:15-28 `ScenarioEntry`. -/
structure Entry where
  bucket : Nat
  mapfile : Str
  w : Nat
  h : Nat
  x0 : Nat
  y0 : Nat
  x1 : Nat
  y1 : Nat
  opt : ℝ

/-- scenario.cc:105-113 `operator>>`; `none` if the stream has failed afterwards. -/
def entry (dbl : Str → Option (ℝ × Str)) (s : Str) : Option (Entry × Str) :=
  (uns s).bind fun (bucket, s) =>
  (str s).bind fun (mapfile, s) =>
  (uns s).bind fun (w, s) =>
  (uns s).bind fun (h, s) =>
  (uns s).bind fun (x0, s) =>
  (uns s).bind fun (y0, s) =>
  (uns s).bind fun (x1, s) =>
  (uns s).bind fun (y1, s) =>
  (dbl s).map fun (opt, s) => (⟨bucket, mapfile, w, h, x0, y0, x1, y1, opt⟩, s)

/-- scenario.cc:41: the entries that `while (in >> ent)` goes through. -/
def entries (dbl : Str → Option (ℝ × Str)) : Nat → Str → List Entry
  | 0, _ => []
  | fuel + 1, s =>
    match entry dbl s with
    | none => []
    | some (e, s) => e :: entries dbl fuel s

/-- What a search leaves behind: `res.ops` (last operator first), `res.path.size()`, `res.expd`, `res.gend`. -/
structure Res where
  ops : List Int
  len : Nat
  expd : Nat
  gend : Nat

/-- gridnav.cc:52-57: the loop of `pathcost` over the operators, first operator first.  An operator that is none of the map's
is an access past the array of moves. -/
def costLoop (m : GMap) : List Int → Nat → Cost → Outcome (Nat × Cost)
  | [], loc, c => .ok (loc, c)
  | o :: os, loc, c =>
    match m.mvs[o.toNat]? with
    | none => .ub
    | some mv =>
      if o < 0 then .ub
      else
        let e := edgecost m loc mv.diag
        costLoop m os ((loc : Int) + delta m (mv.dx, mv.dy)).toNat ⟨c.units + e.units, c.sqrts + e.sqrts⟩

/-- gridnav.cc:36-62 `pathcost`, with its assertion. -/
def pathcost (m : GMap) (start finish : Nat) (ops : List Int) : Outcome Cost :=
  (costLoop m ops.reverse start ⟨0, 0⟩).bind fun r => if r.1 = finish then .ok r.2 else .fatal

/-- A row of the output, scenario.cc:97-101. -/
structure Row where
  num : Nat
  ent : Entry
  expd : Nat
  gend : Nat
  cost : Cost
  len : Nat

/-- The program's surroundings: the files, number parsing, random maps, the search. -/
structure World where
  files : Str → Option Str
  dbl : Str → Option (ℝ × Str)
  D : Type
  mdbl : Str → Option (D × Str)
  draw : Nat → D → Nat → Bool
  srch : GMap → Nat → Nat → Res
  eps : ℝ

/-- gridmap.cc:24-36: the map in the file. -/
def World.load (W : World) (path : Str) : Outcome GMap :=
  match W.files path with
  | none => .fatal
  | some t => (GridFile.load W.mdbl W.draw t).map Loaded.m

/-- scenario.cc:74-82 `getmap`: `lastmap` and the path it was read from. -/
def getmap (W : World) (maproot mapfile : Str) (last : Option (Str × GMap)) : Outcome GMap :=
  match last with
  | none => W.load (maproot ++ mapfile)
  | some (p, m) => if p ≠ maproot ++ mapfile then W.load (maproot ++ mapfile) else .ok m

open Classical in
/-- scenario.cc:86-103 `ScenarioEntry::run`, on the map: gridnav.cc:11-12 for start and goal. -/
noncomputable def runOn (W : World) (m : GMap) (n : Nat) (e : Entry) : Outcome Row :=
  let start := index m (e.x0 + 1) (e.y0 + 1)
  let finish := index m (e.x1 + 1) (e.y1 + 1)
  let r := W.srch m start finish
  (pathcost m start finish r.ops).bind fun cost =>
  if W.eps < |cost.val - e.opt| ∧ ¬ (e.opt = 0 ∧ cost = ⟨-1, 0⟩) then .fatal
  else .ok ⟨n, e, r.expd, r.gend, cost, r.len⟩

/-- scenario.cc:41-49: the loop; `n` entries have been read, `rows` printed. -/
noncomputable def loop (W : World) (maproot : Str) (sel : Option Nat) :
    List Entry → Nat → Option (Str × GMap) → List Row → Outcome (List Row × Nat)
  | [], n, _, rows => .ok (rows, n)
  | e :: es, n, last, rows =>
    if sel.isSome ∧ sel ≠ some n then loop W maproot sel es (n + 1) last rows
    else
      (getmap W maproot e.mapfile last).bind fun m =>
      (runOn W m n e).bind fun row =>
      loop W maproot sel es (n + 1) (some (maproot ++ e.mapfile, m)) (rows ++ [row])

/-- scenario.cc:57-65 `checkver` (which reads `std::cin`; main_scenario.cc:8 passes `std::cin`). -/
noncomputable def checkver (W : World) (s : Str) : Outcome Str :=
  match str s with
  | none => .fatal
  | some (v, s) =>
    if v ≠ "version".toList then .fatal
    else
      match W.dbl s with
      | none => .fatal
      | some (x, s) => open Classical in if x = 1 then .ok s else .fatal

/-- What is printed at the end: the rows, the sums (search.hpp:41-52) and the number of entries. -/
structure Report where
  rows : List Row
  expd : Nat
  gend : Nat
  entries : Nat

/-- scenario.cc:23-24: the directory of the maps ends with a slash.  For an empty one `maproot[maproot.size()-1]` is out of
range. -/
def root (maproot : Str) : Outcome Str :=
  match maproot.getLast? with
  | none => .ub
  | some c => .ok (if c ≠ '/' then maproot ++ ['/'] else maproot)

/-- scenario.cc:32-55 `run`; `sel` is the argument of `-entry` if it is not negative. -/
noncomputable def run (W : World) (maproot : Str) (sel : Option Nat) (input : Str) : Outcome Report :=
  (root maproot).bind fun maproot =>
  (checkver W input).bind fun s =>
  (loop W maproot sel (entries W.dbl (s.length + 1) s) 0 none []).map fun r =>
  ⟨r.1, (r.1.map Row.expd).sum, (r.1.map Row.gend).sum, r.2⟩

/-! ## scenario2rdb.cc -/

/-- scenario2rdb.cc:24: `n` strings one after another; a string is empty if the stream has failed. -/
def strs : Nat → Option Str → List Str × Option Str
  | 0, s => ([], s)
  | n + 1, none => ([] :: (strs n none).1, none)
  | n + 1, some s =>
    match str s with
    | none => ([] :: (strs n none).1, none)
    | some (w, s) => (w :: (strs n (some s)).1, (strs n (some s)).2)

/-- A data file: the attributes that determine its path, and the pairs in it. -/
structure File where
  attrs : List (Str × Str)
  pairs : List (Str × Str)
  deriving DecidableEq

/-- `dfpair(f, key, s)`: the string is the format. -/
def fmt (s : Str) : Outcome Str := if '%' ∈ s then .ub else .ok s

/-- scenario2rdb.cc:29-58: what is written for the nine strings. -/
def file (name : Str) (n : Nat) (r : List Str) : Outcome File :=
  let f := fun i => r.getD i []
  (fmt name).bind fun _ => (fmt (f 1)).bind fun _ => (fmt (f 8)).bind fun _ => (fmt (f 4)).bind fun _ =>
  (fmt (f 5)).bind fun _ => (fmt (f 6)).bind fun _ => (fmt (f 7)).map fun _ =>
  ⟨[("scenario file".toList, Path.basename name), ("bucket".toList, f 0), ("map".toList, Path.basename (f 1)),
      ("num".toList, Nat.toDigits 10 n)],
    [("scenario file".toList, name), ("num".toList, Nat.toDigits 10 n), ("map".toList, f 1), ("optimal cost".toList, f 8),
      ("start x".toList, f 4), ("start y".toList, f 5), ("goal x".toList, f 6), ("goal y".toList, f 7)]⟩

/-- scenario2rdb.cc:21-59: the loop `while (in)`. -/
def convLoop (name : Str) : Nat → Option Str → Nat → List File → Outcome (List File)
  | _, none, _, fs => .ok fs
  | 0, some _, _, _ => .nofuel
  | fuel + 1, some s, n, fs =>
    let r := strs 9 (some s)
    if r.1.getD 1 [] = [] then convLoop name fuel r.2 n fs
    else (file name n r.1).bind fun f => convLoop name fuel r.2 (n + 1) (fs ++ [f])

/-- scenario2rdb.cc:12-62: the files written for the scenario file called `name`. -/
def conv (name input : Str) : Outcome (List File) :=
  match str input with
  | none => .fatal
  | some (v, s) =>
    match uns s with
    | none => .fatal
    | some (x, s) => if v ≠ "version".toList ∨ x ≠ 1 then .fatal else convLoop name (s.length + 1) (some s) 0 []

/-! ## Specification -/

/-- The words of a text: separated by white space. -/
inductive Words : Str → List Str → Prop
  | nil {ws : Str} : (∀ c ∈ ws, isws c = true) → Words ws []
  | cons {ws w rest : Str} {ts : List Str} : (∀ c ∈ ws, isws c = true) → w ≠ [] → (∀ c ∈ w, isws c = false) →
      (∀ c, rest.head? = some c → isws c = true) → Words rest ts → Words (ws ++ w ++ rest) (w :: ts)

/-- A numeral for `n`. -/
def Numeral (t : Str) (n : Nat) : Prop :=
  t ≠ [] ∧ (∀ c ∈ t, c.isDigit = true) ∧ Nat.ofDigitChars 10 t 0 = n ∧ n < 2 ^ 32

/-- `dbl` reads the text `t` as the number `x`, wherever it stands between white space. -/
def Reads (dbl : Str → Option (ℝ × Str)) (t : Str) (x : ℝ) : Prop :=
  ∀ ws rest : Str, (∀ c ∈ ws, isws c = true) → (∀ c, rest.head? = some c → isws c = true) →
    dbl (ws ++ t ++ rest) = some (x, rest)

/-- The words of an entry. -/
inductive Shows (dbl : Str → Option (ℝ × Str)) : Entry → List Str → Prop
  | mk {e : Entry} {b w h x0 y0 x1 y1 o : Str} : Numeral b e.bucket → Numeral w e.w → Numeral h e.h → Numeral x0 e.x0 →
      Numeral y0 e.y0 → Numeral x1 e.x1 → Numeral y1 e.y1 → Reads dbl o e.opt →
      Shows dbl e [b, e.mapfile, w, h, x0, y0, x1, y1, o]

/-! ## Lemmas -/

theorem skip_ws {ws s : Str} (h : ∀ c ∈ ws, isws c = true) (hs : ∀ c, s.head? = some c → isws c = false) :
    skip (ws ++ s) = s := by
  unfold skip
  induction ws with
  | nil =>
    cases s with
    | nil => rfl
    | cons c s => rw [List.nil_append, List.dropWhile_cons_of_neg (by simp [hs c rfl])]
  | cons c ws ih =>
    rw [List.cons_append, List.dropWhile_cons_of_pos (h c (by simp))]
    exact ih (fun c hc => h c (by simp [hc]))

theorem takeWhile_app {p : Char → Bool} {w rest : Str} (h : ∀ c ∈ w, p c = true)
    (hr : ∀ c, rest.head? = some c → p c = false) :
    (w ++ rest).takeWhile p = w ∧ (w ++ rest).dropWhile p = rest := by
  induction w with
  | nil =>
    cases rest with
    | nil => exact ⟨rfl, rfl⟩
    | cons c rest =>
      have := hr c rfl
      exact ⟨List.takeWhile_cons_of_neg (by simp [this]), List.dropWhile_cons_of_neg (by simp [this])⟩
  | cons c w ih =>
    obtain ⟨i1, i2⟩ := ih (fun c hc => h c (by simp [hc]))
    have := h c (by simp)
    exact ⟨by rw [List.cons_append, List.takeWhile_cons_of_pos this, i1],
      by rw [List.cons_append, List.dropWhile_cons_of_pos this, i2]⟩

theorem str_word {ws w rest : Str} (h1 : ∀ c ∈ ws, isws c = true) (h2 : w ≠ []) (h3 : ∀ c ∈ w, isws c = false)
    (h4 : ∀ c, rest.head? = some c → isws c = true) : str (ws ++ w ++ rest) = some (w, rest) := by
  have e : skip (ws ++ (w ++ rest)) = w ++ rest := skip_ws h1 (fun c hc => by
    cases w with
    | nil => exact absurd rfl h2
    | cons d w =>
      rw [List.cons_append, List.head?_cons, Option.some.injEq] at hc
      rw [← hc]
      exact h3 d (by simp))
  obtain ⟨t1, t2⟩ := takeWhile_app (p := fun c => !isws c) (w := w) (rest := rest) (fun c hc => by simp [h3 c hc])
    (fun c hc => by simp [h4 c hc])
  unfold str
  rw [List.append_assoc, e]
  dsimp only
  rw [t1, t2, if_neg h2]

theorem str_cons {s w : Str} {ts : List Str} (h : Words s (w :: ts)) :
    ∃ rest, str s = some (w, rest) ∧ Words rest ts ∧ ∀ c, rest.head? = some c → isws c = true := by
  cases h with
  | cons h1 h2 h3 h4 h5 => exact ⟨_, str_word h1 h2 h3 h4, h5, h4⟩

theorem str_nil {s : Str} (h : Words s []) : str s = none := by
  generalize he : ([] : List Str) = ts at h
  cases h with
  | nil h =>
    unfold str
    have : skip s = [] := by
      have := skip_ws (s := []) h (by simp)
      rwa [List.append_nil] at this
    rw [this]
    rfl
  | cons => exact absurd he (by simp)

theorem isws_digit {c : Char} (h : c.isDigit = true) : isws c = false := by
  unfold Char.isDigit at h
  unfold isws
  have h1 : 48 ≤ c.toNat := by
    have := (Bool.and_eq_true_iff.1 h).1
    rw [decide_eq_true_eq] at this
    exact UInt32.le_iff_toNat_le.1 this
  have h2 : c ≠ ' ' := by
    rintro rfl
    exact absurd h1 (by decide)
  rw [Bool.or_eq_false_iff]
  refine ⟨by simpa using h2, ?_⟩
  rw [Bool.and_eq_false_iff]
  right
  simp only [decide_eq_false_iff_not, not_le]
  omega

/-- A number in the stream. -/
theorem uns_digits {ws t rest : Str} {n : Nat} (h1 : ∀ c ∈ ws, isws c = true) (h2 : Numeral t n)
    (h4 : ∀ c, rest.head? = some c → c.isDigit = false) : uns (ws ++ t ++ rest) = some (n, rest) := by
  obtain ⟨n1, n2, n3, n4⟩ := h2
  have hd : ∃ d t', t = d :: t' := by
    cases t with
    | nil => exact absurd rfl n1
    | cons d t' => exact ⟨d, t', rfl⟩
  obtain ⟨d, t', ht⟩ := hd
  have hdd : d.isDigit = true := n2 d (by rw [ht]; simp)
  have e : skip (ws ++ (t ++ rest)) = t ++ rest := skip_ws h1 (fun c hc => by
    rw [ht, List.cons_append, List.head?_cons, Option.some.injEq] at hc
    rw [← hc]
    exact isws_digit hdd)
  obtain ⟨t1, t2⟩ := takeWhile_app (p := Char.isDigit) (w := t) (rest := rest) n2 h4
  have hh : (t ++ rest).head? = some d := by rw [ht]; rfl
  have hm : d ≠ '-' := by rintro rfl; exact absurd hdd (by decide)
  have hp : d ≠ '+' := by rintro rfl; exact absurd hdd (by decide)
  have hmb : (some d == some '-') = false := by simpa using hm
  have hpb : (some d == some '+') = false := by simpa using hp
  unfold uns
  rw [List.append_assoc, e]
  dsimp only
  rw [hh, hmb, hpb]
  simp only [Bool.or_self, Bool.false_eq_true, if_false]
  rw [t1, t2, if_neg n1, n3, if_neg (by omega)]

theorem numeral_word {t : Str} {n : Nat} (h : Numeral t n) : ∀ c ∈ t, isws c = false :=
  fun c hc => isws_digit (h.2.1 c hc)

theorem uns_cons {s w : Str} {n : Nat} {ts : List Str} (h : Words s (w :: ts)) (hn : Numeral w n) :
    ∃ rest, uns s = some (n, rest) ∧ Words rest ts ∧ ∀ c, rest.head? = some c → isws c = true := by
  cases h with
  | cons h1 h2 h3 h4 h5 =>
    refine ⟨_, uns_digits h1 hn (fun c hc => ?_), h5, h4⟩
    cases hd : c.isDigit with
    | false => rfl
    | true =>
      have := h4 c hc
      rw [isws_digit hd] at this
      exact absurd this (by simp)

theorem dbl_cons {dbl : Str → Option (ℝ × Str)} {s w : Str} {x : ℝ} {ts : List Str} (h : Words s (w :: ts))
    (hn : Reads dbl w x) :
    ∃ rest, dbl s = some (x, rest) ∧ Words rest ts ∧ ∀ c, rest.head? = some c → isws c = true := by
  cases h with
  | cons h1 h2 h3 h4 h5 => exact ⟨_, hn _ _ h1 h4, h5, h4⟩

theorem entry_shows {dbl : Str → Option (ℝ × Str)} {s : Str} {e : Entry} {ws ts : List Str} (hs : Shows dbl e ws)
    (h : Words s (ws ++ ts)) : ∃ rest, entry dbl s = some (e, rest) ∧ Words rest ts := by
  cases hs with
  | mk hb hw hh hx0 hy0 hx1 hy1 ho =>
    obtain ⟨s1, e1, h1, -⟩ := uns_cons h hb
    obtain ⟨s2, e2, h2, -⟩ := str_cons h1
    obtain ⟨s3, e3, h3, -⟩ := uns_cons h2 hw
    obtain ⟨s4, e4, h4, -⟩ := uns_cons h3 hh
    obtain ⟨s5, e5, h5, -⟩ := uns_cons h4 hx0
    obtain ⟨s6, e6, h6, -⟩ := uns_cons h5 hy0
    obtain ⟨s7, e7, h7, -⟩ := uns_cons h6 hx1
    obtain ⟨s8, e8, h8, -⟩ := uns_cons h7 hy1
    obtain ⟨s9, e9, h9, -⟩ := dbl_cons h8 ho
    refine ⟨s9, ?_, h9⟩
    unfold entry
    rw [e1]; dsimp only [Option.bind_some]
    rw [e2]; dsimp only [Option.bind_some]
    rw [e3]; dsimp only [Option.bind_some]
    rw [e4]; dsimp only [Option.bind_some]
    rw [e5]; dsimp only [Option.bind_some]
    rw [e6]; dsimp only [Option.bind_some]
    rw [e7]; dsimp only [Option.bind_some]
    rw [e8]; dsimp only [Option.bind_some]
    rw [e9]; rfl

theorem words_length {s : Str} {ts : List Str} (h : Words s ts) : ts.length ≤ s.length := by
  induction h with
  | nil => simp
  | cons _ h2 _ _ _ ih =>
    have := List.length_pos_of_ne_nil h2
    simp only [List.length_cons, List.length_append]
    omega

theorem entries_shows {dbl : Str → Option (ℝ × Str)} {es : List Entry} {wss : List (List Str)}
    (hs : List.Forall₂ (Shows dbl) es wss) {s : Str} {ts : List Str} (h : Words s (wss.flatten ++ ts)) {fuel : Nat} :
    ∃ rest, Words rest ts ∧ entries dbl (fuel + es.length) s = es ++ entries dbl fuel rest := by
  induction hs generalizing s with
  | nil => exact ⟨s, h, rfl⟩
  | @cons e ws es wss h1 _ ih =>
    rw [List.flatten_cons, List.append_assoc] at h
    obtain ⟨rest, e1, h2⟩ := entry_shows h1 h
    obtain ⟨rest', h3, e2⟩ := ih h2
    refine ⟨rest', h3, ?_⟩
    rw [List.length_cons, ← Nat.add_assoc, entries, e1]
    dsimp only
    rw [e2]
    rfl

theorem strs_nil {s : Str} (h : Words s []) (n : Nat) : strs (n + 1) (some s) = (List.replicate (n + 1) [], none) := by
  have key : ∀ n, strs n none = (List.replicate n [], none) := by
    intro n
    induction n with
    | zero => rfl
    | succ n ih => rw [strs, ih]; rfl
  rw [strs, str_nil h]
  dsimp only
  rw [key]
  rfl

theorem strs_words {s : Str} {ws ts : List Str} (h : Words s (ws ++ ts)) :
    ∃ rest, strs ws.length (some s) = (ws, some rest) ∧ Words rest ts := by
  induction ws generalizing s with
  | nil => exact ⟨s, rfl, h⟩
  | cons w ws ih =>
    obtain ⟨rest, e1, h1, -⟩ := str_cons h
    obtain ⟨rest', e2, h2⟩ := ih h1
    refine ⟨rest', ?_, h2⟩
    rw [List.length_cons, strs, e1]
    dsimp only
    rw [e2]

theorem str_length {s w t : Str} (h : str s = some (w, t)) : t.length < s.length := by
  unfold str at h
  dsimp only at h
  split at h
  · exact absurd h (by simp)
  · rename_i hne
    injection h with h
    injection h with h1 h2
    have e := List.takeWhile_append_dropWhile (p := fun c => !isws c) (l := skip s)
    have e2 : (skip s).length ≤ s.length := (List.dropWhile_suffix _).length_le
    have := congrArg List.length e
    rw [List.length_append] at this
    have := List.length_pos_of_ne_nil hne
    rw [← h2]
    omega

end Verif.Scenario
