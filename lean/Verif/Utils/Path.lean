import Verif.Utils.Str
import Mathlib.Data.List.TakeWhile

/-!
# Model of the path functions of utils/fs.cc

`basename`, `dirname`, `pathcat`, `pathcatn`, `ensuredir`.  A `std::string` is the list of its bytes.  The file
system `ensuredir` works on is a map from places (absolute or relative to the working directory) to their
kind; symbolic links, `..`, permissions and other processes are not modelled.
-/

namespace Verif.Path

open Verif.Str

/-- fs.cc:11-12 -/
def sep : Char := '/'

/-- The position found by `strrchr(str, '/')`: the text up to and including it, and the text behind it. -/
def rsplit (s : Str) : Option (Str × Str) :=
  if s.contains sep then
    some ((s.reverse.dropWhile (· ≠ sep)).reverse, (s.reverse.takeWhile (· ≠ sep)).reverse)
  else none

/-- fs.cc:120-133 `basename` -/
def basename (p : Str) : Str :=
  if p = [] ∨ p = ['.'] then ['.']
  else match rsplit (cstr p) with
    | none => p
    | some (_, f) => if f = [] then ['.'] else f

/-- fs.cc:135-155 `dirname` -/
def dirname (p : Str) : Str :=
  if p = [] ∨ p = ['.'] then ['.']
  else if p = [sep] then [sep]
  else match rsplit (cstr p) with
    | none => ['.']
    | some (d, _) => if d.length > 1 ∧ d.getLast? = some sep then d.dropLast else d

/-- fs.cc:157-164 `pathcat`; for an empty `dir` it reads `dir[-1]`. -/
def pathcat (dir base : Str) : Outcome Str :=
  match dir.getLast? with
  | none => .ub
  | some c => if c = sep then .ok (dir ++ base) else .ok (dir ++ sep :: base)

/-- fs.cc:166-182 `pathcatn`, the loop. -/
def pathcatnLoop : Str → List Str → Outcome Str
  | path, [] => .ok path
  | path, e :: es =>
    match path.getLast? with
    | none => .ub
    | some c => pathcatnLoop ((if c ≠ sep then path ++ [sep] else path) ++ e) es

/-- fs.cc:166-182 `pathcatn` -/
def pathcatn (es : List Str) : Outcome Str := pathcatnLoop [] es

/-! ## Specification: the place a path denotes -/

/-- The parts of a path between the separators. -/
def split : Str → List Str
  | [] => [[]]
  | c :: s => if c = sep then [] :: split s else
    match split s with
    | [] => [[c]]
    | h :: t => (c :: h) :: t

/-- The names on the way to a place, without the parts `""` and `"."` that stay where they are. -/
def names (p : Str) : List Str := (split p).filter fun n => n ≠ [] ∧ n ≠ ['.']

/-- The place a path denotes: from the root or from the working directory, and the names on the way. -/
def loc (p : Str) : Bool × List Str := (p.head? == some sep, names p)

/-! ## Lemmas -/

theorem split_ne_nil (s : Str) : split s ≠ [] := by
  cases s with
  | nil => simp [split]
  | cons c s => unfold split; split <;> [simp; (split <;> simp)]

theorem split_append (a b : Str) : split (a ++ sep :: b) = split a ++ split b := by
  induction a with
  | nil => simp [split]
  | cons c a ih =>
    rw [List.cons_append, split, split]
    split
    · rw [ih]; rfl
    · rw [ih]
      cases h : split a with
      | nil => exact absurd h (split_ne_nil a)
      | cons x t => rfl

theorem names_append (a b : Str) : names (a ++ sep :: b) = names a ++ names b := by
  unfold names; rw [split_append, List.filter_append]

theorem split_single {f : Str} (h : sep ∉ f) : split f = [f] := by
  induction f with
  | nil => rfl
  | cons c f ih =>
    rw [split, if_neg (by rintro rfl; simp at h), ih (by
      intro hh; exact h (by simp [hh]))]

theorem names_nil : names [] = [] := by decide
theorem names_dot : names ['.'] = [] := by decide

theorem names_single {f : Str} (h : sep ∉ f) (h0 : f ≠ []) (h1 : f ≠ ['.']) : names f = [f] := by
  unfold names; rw [split_single h]; simp [h0, h1]

theorem names_sep_end (a : Str) : names (a ++ [sep]) = names a := by
  rw [names_append, names_nil, List.append_nil]

theorem cstr_self {s : Str} (h : nul ∉ s) : cstr s = s := by
  unfold cstr
  refine List.takeWhile_eq_self_iff.2 ?_
  intro c hc
  simp only [decide_eq_true_eq]
  rintro rfl; exact h hc

theorem rsplit_none {s : Str} (h : sep ∉ s) : rsplit s = none := by
  unfold rsplit; rw [if_neg (by simpa using h)]

theorem rsplit_some (d f : Str) (h : sep ∉ f) : rsplit (d ++ sep :: f) = some (d ++ [sep], f) := by
  unfold rsplit
  have hr : (d ++ sep :: f).reverse = f.reverse ++ sep :: d.reverse := by simp
  have hf : ∀ c ∈ f.reverse, decide (c ≠ sep) = true := by
    intro c hc
    simp only [decide_eq_true_eq]
    rintro rfl; exact h (by simpa using hc)
  rw [if_pos (by simp), hr, List.dropWhile_append_of_pos hf, List.takeWhile_append_of_pos hf]
  simp

/-- Every string is without a separator or splits at the last one. -/
theorem split_cases (s : Str) : sep ∉ s ∨ ∃ d f, s = d ++ sep :: f ∧ sep ∉ f := by
  induction s with
  | nil => left; simp
  | cons c s ih =>
    rcases ih with h | ⟨d, f, rfl, hf⟩
    · by_cases hc : c = sep
      · right; exact ⟨[], s, by simp [hc], h⟩
      · left; intro hh
        rcases List.mem_cons.1 hh with e | e
        · exact hc e.symm
        · exact h e
    · right; exact ⟨c :: d, f, rfl, hf⟩

theorem basename_of (d f : Str) (hf : sep ∉ f) (hn : nul ∉ d ++ sep :: f) :
    basename (d ++ sep :: f) = if f = [] then ['.'] else f := by
  unfold basename
  rw [if_neg (by
    rintro (h | h)
    · simp at h
    · have : sep ∈ ['.'] := by rw [← h]; simp
      revert this; decide), cstr_self hn, rsplit_some d f hf]

theorem dirname_of (d f : Str) (hf : sep ∉ f) (hn : nul ∉ d ++ sep :: f) :
    dirname (d ++ sep :: f) = if d = [] then [sep] else d := by
  unfold dirname
  rw [if_neg (by
    rintro (h | h)
    · simp at h
    · have : sep ∈ ['.'] := by rw [← h]; simp
      revert this; decide)]
  by_cases h1 : d ++ sep :: f = [sep]
  · rw [if_pos h1]
    have : d = [] := by
      cases d with
      | nil => rfl
      | cons c d => simp at h1
    rw [if_pos this]
  · rw [if_neg h1, cstr_self hn, rsplit_some d f hf]
    dsimp only
    cases d with
    | nil => simp
    | cons c d =>
      rw [if_pos ⟨by simp, by rw [List.getLast?_concat]⟩, List.dropLast_concat, if_neg (by simp)]

theorem basename_no (p : Str) (h : sep ∉ p) (hn : nul ∉ p) :
    basename p = if p = [] then ['.'] else p := by
  unfold basename
  rw [cstr_self hn, rsplit_none h]
  by_cases h0 : p = []
  · simp [h0]
  · by_cases h1 : p = ['.']
    · simp [h1]
    · simp [h0, h1]

theorem dirname_no (p : Str) (h : sep ∉ p) (hn : nul ∉ p) : dirname p = ['.'] := by
  unfold dirname
  rw [cstr_self hn, rsplit_none h]
  split
  · rfl
  · rw [if_neg (by rintro rfl; simp at h)]

theorem dirname_ne_nil (p : Str) (hn : nul ∉ p) : dirname p ≠ [] := by
  rcases split_cases p with h | ⟨d, f, rfl, hf⟩
  · rw [dirname_no p h hn]; simp
  · rw [dirname_of d f hf hn]; split <;> simp_all

theorem dirname_no_nul (p : Str) (hn : nul ∉ p) : nul ∉ dirname p := by
  rcases split_cases p with h | ⟨d, f, rfl, hf⟩
  · rw [dirname_no p h hn]; decide
  · rw [dirname_of d f hf hn]; split
    · decide
    · intro hh; exact hn (by simp [hh])

/-- `dirname` gets shorter until it is `.` or `/`. -/
theorem dirname_length (p : Str) (hn : nul ∉ p) :
    dirname p = ['.'] ∨ dirname p = [sep] ∨ (dirname p).length < p.length := by
  rcases split_cases p with h | ⟨d, f, rfl, hf⟩
  · exact Or.inl (dirname_no p h hn)
  · rw [dirname_of d f hf hn]; split
    · exact Or.inr (Or.inl rfl)
    · right; right; simp

/-- The place of `dirname p` is the place of `p`, or the one that contains it. -/
theorem loc_dirname (p : Str) (hn : nul ∉ p) :
    loc (dirname p) = loc p ∨ ∃ n, loc p = ((loc (dirname p)).1, (loc (dirname p)).2 ++ [n]) := by
  rcases split_cases p with h | ⟨d, f, rfl, hf⟩
  · rw [dirname_no p h hn]
    have hh : (p.head? == some sep) = false := by
      cases p with
      | nil => rfl
      | cons c p => simp only [List.head?_cons, beq_eq_false_iff_ne, ne_eq, Option.some.injEq]
                    rintro rfl; simp at h
    have hd : loc ['.'] = (false, []) := by decide
    rw [hd]
    by_cases h0 : p = []
    · subst h0; left; decide
    · by_cases h1 : p = ['.']
      · subst h1; left; decide
      · right; refine ⟨p, ?_⟩
        unfold loc
        rw [hh, names_single h h0 h1]; rfl
  · rw [dirname_of d f hf hn]
    have key : loc (if d = [] then [sep] else d) = ((d ++ sep :: f).head? == some sep, names d) := by
      split
      · next h => subst h; simp [loc, names_nil]; decide
      · next h =>
        obtain ⟨c, d', rfl⟩ := List.exists_cons_of_ne_nil h
        rfl
    rw [key]
    by_cases h0 : f = []
    · subst h0; left
      unfold loc; rw [names_sep_end]
    · by_cases h1 : f = ['.']
      · subst h1; left
        unfold loc; rw [names_append, names_dot, List.append_nil]
      · right; refine ⟨f, ?_⟩
        unfold loc; rw [names_append, names_single hf h0 h1]

/-! ## `ensuredir` -/

/-- The kind of what is at a place: `some true` a directory, `some false` another file. -/
abbrev FS := Bool × List Str → Option Bool

/-- The place that contains a place. -/
def parent (l : Bool × List Str) : Bool × List Str := (l.1, l.2.dropLast)

/-- `mkdir(dir)`: `EEXIST` (the file system is unchanged) if there is something, `ENOENT`/`ENOTDIR` if the
containing place is not a directory. -/
def mkdir (fs : FS) (l : Bool × List Str) : Outcome FS :=
  if fs l ≠ none then .ok fs
  else if fs (parent l) = some true then .ok (Function.update fs l (some true))
  else .fatal

/-- fs.cc:85-99 `ensuredir` -/
def ensuredir : Nat → FS → Str → Outcome FS
  | 0, _, _ => .nofuel
  | fuel + 1, fs, p =>
    let dir := dirname p
    if dir = ['.'] ∨ dir = [sep] ∨ fs (loc dir) = some true then .ok fs
    else (ensuredir fuel fs dir).bind fun fs => mkdir fs (loc dir)

end Verif.Path
