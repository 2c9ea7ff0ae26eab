import Verif.Utils.Datafile
import Verif.Domains.Scenario

/-!
# Model of gridnav/ppm2grid.cc: a map from an image

* `fscanf` and `sscanf` as in `GridFile`: a number from 2^32 on is undefined behaviour.
* `readline` (utils/fs.cc) is that of `Datafile`; it looks at the last character of the line also if there is none.
* The text that is printed is the result; what was printed before `fatal` is left out.
* Simplified: `sscanf` stops at a null character in the line with the size, the model does not.

Specification side: `Header`, `Holds`, `colors`, `drawing`, `beginning`.
-/

namespace Verif.Ppm

open Verif.Str Verif.GridFile Verif.Scenario Verif.Datafile

/-- ppm2grid.cc:41-50 `nextline`: the next line that is not a comment. -/
def nextline : Nat → Str → Outcome (Str × Str)
  | 0, _ => .nofuel
  | fuel + 1, s =>
    (readline s).bind fun
      | none => .fatal
      | some (l, s) => if l.head? = some '#' then nextline fuel s else .ok (l, s)

/-- ppm2grid.cc:27-32 `white`. -/
def white (s : Str) : Outcome (Bool × Str) :=
  (num (2 ^ 32) s).bind fun (r, s) => (num (2 ^ 32) s).bind fun (g, s) => (num (2 ^ 32) s).map fun (b, s) =>
    (r == 255 && g == 255 && b == 255, s)

/-- ppm2grid.cc:21-22: the cells of a row. -/
def row : Nat → Str → Outcome (Str × Str)
  | 0, s => .ok ([], s)
  | n + 1, s => (white s).bind fun (b, s) => (row n s).map fun (cs, s) => ((if b then ' ' else '#') :: cs, s)

/-- ppm2grid.cc:20-24: the rows. -/
def rows (w : Nat) : Nat → Str → Outcome Str
  | 0, _ => .ok []
  | n + 1, s => (row w s).bind fun (cs, s) => (rows w n s).map fun out => cs ++ '\n' :: out

/-- ppm2grid.cc:34-39 `readsize`: width and height. -/
def readsize (fuel : Nat) (s : Str) : Outcome (Nat × Nat × Str) :=
  (nextline fuel s).bind fun (l, s) => (num (2 ^ 32) l).bind fun (w, l) => (num (2 ^ 32) l).map fun (h, _) => (w, h, s)

/-- ppm2grid.cc:15-25 `main`. -/
def convert (s : Str) : Outcome Str :=
  (nextline (s.length + 1) s).bind fun (l, s) =>
    if l ≠ "P3".toList then .fatal
    else (readsize (s.length + 1) s).bind fun (w, h, s) => (rows w h s).map fun out =>
      Nat.toDigits 10 h ++ ' ' :: (Nat.toDigits 10 w ++ "\nBoard:\n".toList ++ out)

/-! ## Specification -/

/-- A line of a file: it is not empty and does not end with a carriage return. -/
def Line (l : Str) : Prop := l ≠ [] ∧ (∀ c ∈ l, c ≠ '\n') ∧ l.getLast? ≠ some '\r'

/-- Lines with comments. -/
def Comments (ls : List Str) : Prop := ∀ l ∈ ls, Line l ∧ l.head? = some '#'

/-- The header of an image with its size, up to the line with the size. -/
inductive Header (w h : Nat) : Str → Prop
  | mk {c1 c2 : List Str} {l a b : Str} : Comments c1 → Comments c2 → Line l → l.head? ≠ some '#' → Words l [a, b] →
      Numeral a w → Numeral b h → Header w h (board c1 ++ ("P3\n".toList ++ (board c2 ++ (l ++ ['\n']))))

/-- The text holds the numbers, between white space. -/
def Holds (s : Str) (ns : List Nat) : Prop := ∃ ts, Words s ts ∧ List.Forall₂ Numeral ts ns

/-- A pixel: red, green and blue. -/
abbrev Pixel := Nat × Nat × Nat

/-- The numbers of the pixels. -/
def colors : List Pixel → List Nat
  | [] => []
  | (r, g, b) :: ps => r :: g :: b :: colors ps

/-- The rows of a map: spaces and `#` for what is free and what is not. -/
def drawing (w h : Nat) (free : Nat → Nat → Prop) [∀ x y, Decidable (free x y)] : List Str :=
  (List.range h).map fun y => (List.range w).map fun x => if free x y then ' ' else '#'

/-- The beginning of a map file of the Ruml group: its size and its drawing. -/
def beginning (w h : Nat) (ls : List Str) : Str :=
  Nat.toDigits 10 h ++ ' ' :: (Nat.toDigits 10 w ++ "\nBoard:\n".toList ++ board ls)

/-! ## Lemmas -/

theorem nextline_comments {c : List Str} {l s : Str} (hc : Comments c) (hl : Line l) (hh : l.head? ≠ some '#') :
    ∀ {fuel : Nat}, c.length < fuel → nextline fuel (board c ++ (l ++ '\n' :: s)) = .ok (l, s) := by
  induction c with
  | nil =>
    intro fuel hf
    obtain ⟨f, rfl⟩ : ∃ f, fuel = f + 1 := ⟨fuel - 1, by simp at hf; omega⟩
    have e : board [] ++ (l ++ '\n' :: s) = l ++ '\n' :: s := rfl
    rw [e, nextline, readline_eq hl.1 hl.2.1 hl.2.2, Outcome.bind_ok]
    dsimp only
    rw [if_neg hh]
  | cons a c ih =>
    intro fuel hf
    obtain ⟨f, rfl⟩ : ∃ f, fuel = f + 1 := ⟨fuel - 1, by simp at hf; omega⟩
    obtain ⟨ha, hd⟩ := hc a (by simp)
    have e : board (a :: c) ++ (l ++ '\n' :: s) = a ++ '\n' :: (board c ++ (l ++ '\n' :: s)) := by simp [board]
    rw [e, nextline, readline_eq ha.1 ha.2.1 ha.2.2, Outcome.bind_ok]
    dsimp only
    rw [if_pos hd]
    exact ih (fun l hl => hc l (by simp [hl])) (by simp at hf; omega)

theorem board_length (c : List Str) : c.length ≤ (board c).length := by
  induction c with
  | nil => simp
  | cons a c ih => simp [board] at ih ⊢; omega

end Verif.Ppm
