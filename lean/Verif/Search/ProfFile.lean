import Verif.Search.Profile

/-!
# Profiles in files

search/anyprof/mkprof.cc (from log files to a profile) and `save`, `read` of search/anyprof/profile.cc.

Simplifications: numbers are rationals, as in `Search/Profile`.  A file of a profile is the list of its words, as `fscanf` skips all
white space before each word; how numbers are printed and read is a parameter (`Fmt`), and words are numbers as a whole.
A log file is the list of its lines split into words, as `dfread` hands them out, or `none` if it cannot be opened.
`strtod` is `num`; it gives some number for every word.  The attributes, and the name of the file that is written, are left out.
-/

namespace Verif.Profile

open Verif

/-! ## mkprof -/

/-- mkprof.cc:80-95 `dfline`: the solution of a line, if it is one. -/
def solLine (num : String → ℚ) (l : List String) : Outcome (Option Sol) :=
  match l with
  | [] => .ub
  | w0 :: ws =>
    if w0 ≠ "#altrow" then .ok none
    else match ws with
      | [] => .ub
      | w1 :: ws =>
        if w1 ≠ "sol" ∧ w1 ≠ "incumbent" then .ok none
        else match ws with
          | _ :: _ :: _ :: _ :: _ :: cost :: time :: _ => .ok (some ⟨num cost, num time⟩)
          | _ => .ub

/-- mkprof.cc:49-51: the stream of a file. -/
def solLines (num : String → ℚ) : List (List String) → Outcome (List Sol)
  | [] => .ok []
  | l :: ls => (solLine num l).bind fun s => (solLines num ls).map fun ss => s.toList ++ ss

/-- mkprof.cc:41-54: the streams of all files. -/
def solFiles (num : String → ℚ) : List (Option (List (List String))) → Outcome (List (List Sol))
  | [] => .ok []
  | none :: fs => solFiles num fs
  | some ls :: fs => (solLines num ls).bind fun s => (solFiles num fs).map fun ss => s :: ss

/-- mkprof.cc:41-61: the profile; without solutions the program ends, with status 1. -/
def mkprof (num : String → ℚ) (ncost ntime : Nat) (fs : List (Option (List (List String)))) : Outcome Prof :=
  (solFiles num fs).bind fun ss => if ss.flatten.length = 0 then .fatal else mk ncost ntime ss

/-! ## Saving and reading -/

/-- How numbers are printed and read: `%u`, `%g`, `%15.15g`; `%u`, `%lg`. -/
structure Fmt (W : Type) where
  pu : Nat → W
  pg : ℚ → W
  p15 : ℚ → W
  ru : W → Option Nat
  rg : W → Option ℚ

variable {W : Type}

/-- profile.cc:50-60 `save`.  The bounds of the loops are `unsigned int`. -/
def save (F : Fmt W) (P : Prof) : List W :=
  [F.pu P.D.ncost, F.pu P.D.ntime, F.pg P.D.mincost, F.pg P.D.maxcost, F.pg P.D.mintime, F.pg P.D.maxtime] ++
    ((List.range (u32 (P.D.ncost * P.D.ntime))).map fun i => F.pu (P.c.qt i)) ++
    ((List.range (u32 (P.D.ncost * P.D.ncost * P.D.ntime))).map fun i => F.pu (P.c.qqt i)) ++
    (List.range (u32 (P.D.ncost * P.D.ncost * P.D.ntime))).map fun i => F.p15 (P.probs i)

/-- profile.cc:36-39, 40-43, 44-47: `n` numbers, to the places from `i` on.  `msg` is what happens when the message is printed. -/
def readN {β : Type} (r : W → Option β) (msg : Outcome ((Nat → β) × List W)) : Nat → Nat → (Nat → β) → List W → Outcome ((Nat → β) × List W)
  | 0, _, a, s => .ok (a, s)
  | n + 1, i, a, s => match s with
    | [] => msg
    | w :: s => match r w with
      | none => msg
      | some x => readN r msg n (i + 1) (Function.update a i x) s

/-- A number and the rest. -/
def read1 {β : Type} (r : W → Option β) (s : List W) : Outcome (β × List W) :=
  match s with
  | [] => .fatal
  | w :: s => match r w with
    | none => .fatal
    | some x => .ok (x, s)

/-- profile.cc:26-48 `read`.  The last two messages (:42, :46) have a `%u` without an argument: undefined. -/
def read (F : Fmt W) (s : List W) : Outcome Prof :=
  (read1 F.ru s).bind fun (nc, s) => (read1 F.ru s).bind fun (nt, s) =>
  (read1 F.rg s).bind fun (c0, s) => (read1 F.rg s).bind fun (c1, s) =>
  (read1 F.rg s).bind fun (t0, s) => (read1 F.rg s).bind fun (t1, s) =>
  (readN F.ru .fatal (u32 (nc * nt)) 0 (fun _ => 0) s).bind fun (qt, s) =>
  (readN F.ru .ub (u32 (nc * nc * nt)) 0 (fun _ => 0) s).bind fun (qqt, s) =>
  (readN F.rg .ub (u32 (nc * nc * nt)) 0 (fun _ => 0) s).map fun (probs, _) =>
    ⟨⟨nc, nt, c0, c1, t0, t1⟩, ⟨qt, qqt⟩, probs⟩

/-! ## Specification -/

/-- What is known of printing and reading: naturals that fit are read as they were, other numbers are rounded. -/
structure Fmt.Good (F : Fmt W) (r6 r15 : ℚ → ℚ) : Prop where
  u : ∀ n < 2 ^ 32, F.ru (F.pu n) = some n
  g : ∀ x, F.rg (F.pg x) = some (r6 x)
  g15 : ∀ x, F.rg (F.p15 x) = some (r15 x)

/-- The row that ARA* prints for a solution (arastar.hpp:185-189): seven words after the name. -/
def araRow (n expd gend wt bound cost time : String) : List String := ["#altrow", "incumbent", n, expd, gend, wt, bound, cost, time]

end Verif.Profile
