import Verif.Outcome
import Mathlib.Data.List.Infix

/-!
# The memory of the process, and messages

utils/mem.cc, utils/fatal.cc.

Simplifications: the file and the formatted messages are texts without null characters; the file does not change while it is read.
-/

namespace Verif.Status

open Verif

/-- mem.cc:12. -/
def field : List Char := "VmPeak:".toList

/-- `fgets` with room for `n` characters: up to the end of the line, which is kept. -/
def gets : Nat → List Char → List Char × List Char
  | 0, s => ([], s)
  | _, [] => ([], [])
  | n + 1, c :: s => if c = '\n' then ([c], s) else (c :: (gets n s).1, (gets n s).2)

theorem gets_le : ∀ (n : Nat) (s : List Char), (gets n s).2.length ≤ s.length
  | 0, s => by simp [gets]
  | n + 1, [] => by simp [gets]
  | n + 1, c :: s => by
    rw [gets]
    split
    · simp
    · have := gets_le n s
      simp only [List.length_cons]
      omega

theorem gets_lt (n : Nat) (c : Char) (s : List Char) : (gets (n + 1) (c :: s)).2.length < (c :: s).length := by
  rw [gets]
  split
  · simp
  · have := gets_le n s
    simp only [List.length_cons]
    omega

/-- The value of digits. -/
def value (ds : List Char) : Nat := ds.foldl (fun n c => 10 * n + (c.toNat - '0'.toNat)) 0

/-- `strtoul(s, NULL, 10)`: spaces, a sign, digits; a number that is too large becomes the largest. -/
def strtoul (s : List Char) : Nat :=
  let s := s.dropWhile Char.isWhitespace
  let neg := s.head? = some '-'
  let s := if s.head? = some '-' ∨ s.head? = some '+' then s.tail else s
  let v := value (s.takeWhile Char.isDigit)
  if 2 ^ 64 ≤ v then 2 ^ 64 - 1 else if neg then (2 ^ 64 - v) % 2 ^ 64 else v

/-- mem.cc:30-34: the number in the line.  `strchr` gives `NULL` if there is no space, which is written through. -/
def number (buf : List Char) : Outcome Nat :=
  let strt := (buf.drop field.length).dropWhile fun c => c == ' ' || c == '\t'
  if ' ' ∈ strt then .ok (strtoul (strt.takeWhile fun c => c != ' ')) else .ub

/-- mem.cc:25-36: the loop.  `strstr` finds the field anywhere in the line. -/
def scan (s : List Char) : Outcome Nat :=
  match s with
  | [] => .ok 0
  | c :: s =>
    let r := gets 255 (c :: s)
    if field <:+: r.1 then number r.1 else scan r.2
  termination_by s.length
  decreasing_by exact gets_lt 254 c s

/-- mem.cc:11-41 `virtmem`.  `there` is the answer of `fileexists`; the file is `none` if it cannot be opened, and then is read all the
same. -/
def virtmem (there : Bool) (file : Option (List Char)) : Outcome Nat :=
  if there then match file with
    | none => .ub
    | some s => scan s
  else .ok 0

/-! ## Messages -/

/-- `vsnprintf` into a buffer of 256 characters. -/
def cut (s : List Char) : List Char := s.take 255

/-- fatal.cc:10-19 `warn`, and 32-42 `fatal`, which then exits: what is printed for a formatted message. -/
def warn (s : List Char) : List Char := cut s ++ ['\n']

/-- fatal.cc:21-30 `warnx`, and 44-52 `fatalx`; `reason` is the text of the error number. -/
def warnx (reason s : List Char) : List Char := warn (cut s ++ ": ".toList ++ reason)

/-! ## Specification -/

/-- The lines of a file, each with its end. -/
def fileOf (ls : List (List Char)) : List Char := (ls.map fun l => l ++ ['\n']).flatten

/-- The number that is written with decimal digits. -/
def decimal : List Char → Nat
  | [] => 0
  | c :: cs => (c.toNat - 48) * 10 ^ cs.length + decimal cs

end Verif.Status
