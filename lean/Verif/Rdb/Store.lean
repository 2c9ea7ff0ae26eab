import Verif.Rdb.Attrs
import Verif.Utils.Path
import Mathlib.Data.Set.Finite.Basic
import Mathlib.Data.Finset.Lattice.Fold

/-!
# Model of the result data base (rdb/rdb.cc:80-197)

`pathfor`, `withattrs`, `pathattrs` work on a file system: a map from places (see `Utils/Path.lean`) to kinds.  The order
in which a directory is listed is not specified by the operating system; it is the function `ls`, and the theorems
hold for every such function.  Contents of files, symbolic links, `..`, permissions, limits on the length of names, and
other processes are not modelled.
-/

namespace Verif.Rdb

open Verif.Str Verif.Path

abbrev Loc := Bool × List Str

/-- The place of an entry of a directory. -/
def sub (l : Loc) (n : Str) : Loc := (l.1, l.2 ++ [n])

/-- The place reached by following several names. -/
def subs (l : Loc) (q : List Str) : Loc := (l.1, l.2 ++ q)

/-- `strstr(s, pat)`: the rest of `s` from the first occurrence on. -/
def strstr (pat : Str) : Str → Option Str
  | [] => if pat = [] then some [] else none
  | c :: s => if pat.isPrefixOf (c :: s) then some (c :: s) else strstr pat s

/-- The text `KEY=`. -/
def K : Str := ['K', 'E', 'Y', '=']

/-- The text `UNSPECIFIED`. -/
def unspec : Str := ['U', 'N', 'S', 'P', 'E', 'C', 'I', 'F', 'I', 'E', 'D']

/-- The last part of a path stays where it is (then the path can only denote a directory). -/
def endsdir (p : Str) : Bool :=
  match (split p).getLast? with
  | some n => n = [] ∨ n = ['.']
  | none => true

/-- `stat(p)`: `none` is `ENOENT`; any other error makes the callers call `fatalx`. -/
def stat (fs : FS) (p : Str) : Outcome (Option Bool) :=
  let s := cstr p
  if s = [] then .ok none
  else
    let l := loc s
    if (List.range l.2.length).any fun i => fs (l.1, l.2.take i) == some false then .fatal
    else if fs l = some false ∧ endsdir s = true then .fatal
    else .ok (fs l)

/-- fs.cc:67-75 -/
def fileexists (fs : FS) (p : Str) : Outcome Bool := (stat fs p).map (·.isSome)

/-- fs.cc:77-85 -/
def isdir (fs : FS) (p : Str) : Outcome Bool := (stat fs p).map (· == some true)

/-- fs.cc:44-45 and 163-170: a path with a separator at the end. -/
def slash (p : Str) : Outcome Str :=
  match p.getLast? with
  | none => .ub
  | some c => if c = sep then .ok p else .ok (p ++ [sep])

/-- fs.cc:43-65 `readdir`, with the directory in front of the names; opening something else than a directory is
fatal. -/
def readdir (ls : FS → Loc → List Str) (fs : FS) (p : Str) : Outcome (List Str) :=
  (slash p).bind fun p => (stat fs p).bind fun k =>
  if k = some true then .ok ((ls fs (loc (cstr p))).map (p ++ ·)) else .fatal

/-- rdb.cc:162-174 `getkey` -/
def getkey (ls : FS → Loc → List Str) (fs : FS) (p : Str) : Outcome (Option Str) :=
  (readdir ls fs p).map fun ents => ents.findSome? fun e => (strstr K (cstr e)).map (·.drop K.length)

/-- rdb.cc:107-115 `addfiles`; `rec` is `collect`. -/
def addfiles (fs : FS) (rec : Str → List Str → Outcome (List Str)) (path : Str) (files : List Str) : Outcome (List Str) :=
  if strstr K (cstr path) ≠ none then .ok files
  else (fileexists fs path).bind fun e =>
    if !e then .ok files
    else (isdir fs path).bind fun d => if d then rec path files else .ok (files ++ [path])

/-- rdb.cc:86-105 `collect`. `lookup` is called only for keys that are there, so it does not change the attributes. -/
def collect (ls : FS → Loc → List Str) (fs : FS) (a : Attrs) : Nat → Str → List Str → Outcome (List Str)
  | 0, _, _ => .nofuel
  | fuel + 1, path, files =>
    (fileexists fs path).bind fun e => if !e then .ok files else
    (isdir fs path).bind fun d => if !d then .ok files else
    (getkey ls fs path).bind fun
      | none => .ok files
      | some k =>
        if a.mem k then
          if (a.lookup k).1 = [] then .fatal
          else (pathcat path (a.lookup k).1).bind fun p => addfiles fs (collect ls fs a fuel) p files
        else (readdir ls fs path).bind fun ents =>
          ents.foldl (fun r e => r.bind fun files => addfiles fs (collect ls fs a fuel) e files) (.ok files)

/-- rdb.cc:80-84 `withattrs` -/
def withattrs (ls : FS → Loc → List Str) (fuel : Nat) (fs : FS) (root : Str) (a : Attrs) : Outcome (List Str) :=
  collect ls fs a fuel root []

/-- rdb.cc:176-181 `touch`; `fopen` for writing fails for directories and if the directory is missing. -/
def touch (fs : FS) (p : Str) : Outcome FS :=
  let l := loc (cstr p)
  if fs l = some false then .ok fs
  else if fs l = none ∧ fs (parent l) = some true then .ok (Function.update fs l (some false))
  else .fatal

/-- rdb.cc:141-160 `makepath`, the loop. -/
def makepathLoop : Nat → FS → Str → Attrs → Outcome (Str × FS)
  | 0, _, _, _ => .nofuel
  | fuel + 1, fs, root, a =>
    if a.size = 0 then .ok (root, fs)
    else
      (fileexists fs root).bind fun e =>
      (if e then .ok fs else mkdir fs (loc (cstr root))).bind fun fs =>
      a.front.bind fun key =>
      let (vl, a) := a.lookup key
      (pathcat root (K ++ key)).bind fun kfile =>
      (fileexists fs kfile).bind fun e =>
      (if e then .ok fs else touch fs kfile).bind fun fs =>
      a.popFront.bind fun a =>
      (pathcat root vl).bind fun root =>
      makepathLoop fuel fs root a

/-- rdb.cc:141-160 `makepath`: every round removes an attribute. -/
def makepath (fs : FS) (root : Str) (a : Attrs) : Outcome (Str × FS) := makepathLoop (a.size + 1) fs root a

/-- rdb.cc:117-139 `pathfor`: the path, and the file system afterwards. -/
def pathfor (ls : FS → Loc → List Str) : Nat → FS → Str → Attrs → Outcome (Str × FS)
  | 0, _, _, _ => .nofuel
  | fuel + 1, fs, path, a =>
    if a.size = 0 then .ok (path, fs)
    else (fileexists fs path).bind fun e =>
      if e then (isdir fs path).bind fun d =>
        if !d then .fatal
        else (getkey ls fs path).bind fun
          | none => makepath fs path a
          | some k =>
            if !a.mem k then (pathcat path unspec).bind fun p => pathfor ls fuel fs p a
            else
              let (v, a) := a.lookup k
              (pathcat path v).bind fun p => pathfor ls fuel fs p (a.rm k).2
      else makepath fs path a

/-- rdb.cc:183-197 `pathattrs`, the loop. -/
def pathattrsLoop (ls : FS → Loc → List Str) (fs : FS) : Nat → Str → Attrs → Outcome Attrs
  | 0, _, _ => .nofuel
  | fuel + 1, path, a =>
    (fileexists fs path).bind fun e =>
    if !e then .ok a
    else (getkey ls fs (dirname path)).bind fun
      | none => .ok a
      | some k => pathattrsLoop ls fs fuel (dirname path) (a.pushFront k (basename path)).2

/-- rdb.cc:183-197 `pathattrs` -/
def pathattrs (ls : FS → Loc → List Str) (fuel : Nat) (fs : FS) (path : Str) : Outcome Attrs :=
  pathattrsLoop ls fs fuel path .empty

/-! ## Specification -/

/-- The text does not contain `KEY=`. -/
def NoKey (s : Str) : Prop := ¬ K <:+: s

/-- A name that can be an entry of a directory. -/
structure Plain (n : Str) : Prop where
  ne : n ≠ []
  sep : sep ∉ n
  nul : nul ∉ n
  dot : n ≠ ['.']
  dots : n ≠ ['.', '.']

/-- A proper file system: only directories have entries, there are finitely many places, the working directory and the
root are directories. -/
structure FsOk (fs : FS) : Prop where
  root : ∀ b, fs (b, []) = some true
  up : ∀ l n, fs (sub l n) ≠ none → fs l = some true
  plain : ∀ l n, fs (sub l n) ≠ none → Plain n
  fin : {l | fs l ≠ none}.Finite

/-- `ls` lists directories: each entry once. -/
def Listing (ls : FS → Loc → List Str) : Prop :=
  ∀ fs, FsOk fs → ∀ l, fs l = some true → (ls fs l).Nodup ∧ ∀ n, n ∈ ls fs l ↔ fs (sub l n) ≠ none

/-- The directory has the key. -/
def HasKey (fs : FS) (l : Loc) (k : Str) : Prop := fs (sub l (K ++ k)) ≠ none

/-- What is below `r` is a data base: an entry whose name contains `KEY=` is a regular file that tells the key of its
directory, there is at most one, there is one if there are other entries, and a key occurs at most once on each way. -/
structure StoreOk (fs : FS) (r : Loc) : Prop where
  keyfile : ∀ q n, fs (sub (subs r q) n) ≠ none → ¬ NoKey n → (∃ k, n = K ++ k) ∧ fs (sub (subs r q) n) = some false
  one : ∀ q k k', HasKey fs (subs r q) k → HasKey fs (subs r q) k' → k = k'
  full : ∀ q n, fs (sub (subs r q) n) ≠ none → ∃ k, HasKey fs (subs r q) k
  once : ∀ q q' k, HasKey fs (subs r q) k → HasKey fs (subs r (q ++ q')) k → q' = []

/-- A finite map from keys to values. -/
abbrev Map := Str → Option Str

/-- The names on the way that the attributes `A` determine, starting at a place: the value of the key of each
directory, or `UNSPECIFIED`, until all attributes are used. -/
inductive Route (fs : FS) : Loc → Map → List Str → Prop
  | done (l) : Route fs l (fun _ => none) []
  | value {l A k v q} : HasKey fs l k → A k = some v → Route fs (sub l v) (Function.update A k none) q →
      Route fs l A (v :: q)
  | skip {l A k q} : HasKey fs l k → A k = none → (∃ k', A k' ≠ none) → Route fs (sub l unspec) A q →
      Route fs l A (unspec :: q)

/-- The way that the attributes determine comes to a regular file before all of them are used. -/
inductive Blocked (fs : FS) : Loc → Map → Prop
  | here {l A} : (∃ k', A k' ≠ none) → fs l = some false → Blocked fs l A
  | value {l A k v} : HasKey fs l k → A k = some v → Blocked fs (sub l v) (Function.update A k none) → Blocked fs l A
  | skip {l A k} : HasKey fs l k → A k = none → (∃ k', A k' ≠ none) → Blocked fs (sub l unspec) A → Blocked fs l A

/-- A path extended by names. -/
def join (p : Str) (q : List Str) : Str :=
  q.foldl (fun p n => if p.getLast? = some sep then p ++ n else p ++ sep :: n) p

/-- Attribute lists as `push_back` and so on make them. -/
structure AttrsOk (a : Attrs) : Prop where
  nodup : a.keys.Nodup
  mem : ∀ k, a.pairs k ≠ none ↔ k ∈ a.keys

/-- Attributes that can be stored: keys and values can be (parts of) names. -/
structure Storable (a : Attrs) : Prop extends AttrsOk a where
  key : ∀ k ∈ a.keys, sep ∉ k ∧ nul ∉ k
  val : ∀ k v, a.pairs k = some v → Plain v ∧ NoKey v

/-- A path that can be the root of a data base. -/
structure RootOk (fs : FS) (p : Str) : Prop where
  ne : p ≠ []
  nul : nul ∉ p
  nokey : NoKey p
  plain : ∀ n ∈ (loc p).2, Plain n
  dir : fs (loc p) = some true ∨ (fs (loc p) = none ∧ fs (parent (loc p)) = some true)

/-- A data base at `root`. -/
structure Good (fs : FS) (root : Str) : Prop where
  sys : FsOk fs
  path : RootOk fs root
  store : StoreOk fs (loc root)

/-- Following the names from a place leads to a regular file, no name contains `KEY=`, and each name is the value of the
key of its directory if `B` has a value for that key. -/
def Hit (fs : FS) (l : Loc) (B : Map) (q : List Str) : Prop :=
  q ≠ [] ∧ fs (subs l q) = some false ∧ (∀ n ∈ q, NoKey n) ∧
    ∀ q1 n q2, q = q1 ++ n :: q2 → ∀ k v, HasKey fs (subs l q1) k → B k = some v → n = v

/-- The second file system has everything the first one has. -/
def Le (fs fs' : FS) : Prop := ∀ l, fs l ≠ none → fs' l = fs l

/-! ## Lemmas on texts -/

theorem strstr_none {pat : Str} : ∀ s, strstr pat s = none ↔ ¬ pat <:+: s := by
  intro s
  induction s with
  | nil =>
    unfold strstr
    split
    · next h => simp [h]
    · next h => simp [h]
  | cons c s ih =>
    unfold strstr
    rw [List.infix_cons_iff]
    split
    · next h => simp [List.isPrefixOf_iff_prefix.1 h]
    · next h =>
      rw [ih]
      have : ¬ pat <+: c :: s := fun hh => h (List.isPrefixOf_iff_prefix.2 hh)
      tauto

theorem prefix_sep {pat a b : Str} (hs : sep ∉ pat) (h : pat <+: a ++ sep :: b) : pat <+: a := by
  rcases Nat.le_total pat.length a.length with hl | hl
  · exact List.prefix_of_prefix_length_le h (List.prefix_append _ _) hl
  · rcases Nat.lt_or_ge a.length pat.length with hl2 | hl2
    · exfalso
      have : a ++ [sep] <+: pat := by
        refine List.prefix_of_prefix_length_le ?_ h (by simp; omega)
        exact ⟨b, by simp⟩
      exact hs (this.subset (by simp))
    · exact List.prefix_of_prefix_length_le h (List.prefix_append _ _) hl2

theorem strstr_sep {pat a b : Str} (hs : sep ∉ pat) (hp : pat ≠ []) (ha : ¬ pat <:+: a) :
    strstr pat (a ++ sep :: b) = strstr pat b := by
  induction a with
  | nil =>
    rw [List.nil_append, strstr, if_neg]
    intro h
    obtain ⟨t, ht⟩ := List.isPrefixOf_iff_prefix.1 h
    cases pat with
    | nil => exact hp rfl
    | cons c pat =>
      rw [List.cons_append, List.cons.injEq] at ht
      exact hs (by rw [ht.1]; simp)
  | cons c a ih =>
    rw [List.infix_cons_iff] at ha
    push Not at ha
    rw [List.cons_append, strstr, if_neg, ih ha.2]
    intro h
    exact ha.1 (prefix_sep (a := c :: a) hs (List.isPrefixOf_iff_prefix.1 h))

theorem K_sep : sep ∉ K := by decide
theorem K_ne : K ≠ [] := by decide

theorem nokey_sep {a b : Str} : NoKey (a ++ sep :: b) ↔ NoKey a ∧ NoKey b := by
  by_cases ha : NoKey a
  · have : NoKey (a ++ sep :: b) ↔ NoKey b := by
      unfold NoKey
      rw [← strstr_none, ← strstr_none, strstr_sep K_sep K_ne ha]
    rw [this]; tauto
  · have : ¬ NoKey (a ++ sep :: b) := fun h => ha fun hh => h (hh.trans ⟨[], sep :: b, by simp⟩)
    tauto

theorem nokey_nil : NoKey [] := by unfold NoKey; decide
theorem nokey_unspec : NoKey unspec := by unfold NoKey; decide
theorem plain_unspec : Plain unspec := ⟨by decide, by decide, by decide, by decide, by decide⟩
theorem not_nokey_key (k : Str) : ¬ NoKey (K ++ k) := fun h => h ⟨[], k, by simp⟩
theorem plain_key {k : Str} (h1 : sep ∉ k) (h2 : nul ∉ k) : Plain (K ++ k) := by
  refine ⟨by simp [K], ?_, ?_, by simp [K], by simp [K]⟩
  · rw [List.mem_append, not_or]; exact ⟨by decide, h1⟩
  · rw [List.mem_append, not_or]; exact ⟨by decide, h2⟩

theorem strstr_key (k : Str) : strstr K (K ++ k) = some (K ++ k) := by
  have : K ++ k = 'K' :: ('E' :: 'Y' :: '=' :: k) := rfl
  rw [this, strstr, if_pos]
  rw [← this]
  exact List.isPrefixOf_iff_prefix.2 (List.prefix_append _ _)

end Verif.Rdb
