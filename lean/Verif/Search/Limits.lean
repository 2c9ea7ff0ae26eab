import Verif.Outcome
import Verif.Utils.Str
import Mathlib.Data.List.Basic
import Mathlib.Data.List.Nodup
import Mathlib.Data.List.TakeWhile
import Mathlib.Algebra.Order.Ring.Rat
import Mathlib.Algebra.Order.Field.Rat
import Mathlib.Data.Rat.Floor
import Mathlib.Tactic.Linarith

/-!
# Model of search/search.cc: limits given on the command line, the timer, and the look-ahead limits

* A command line is the list `argv[0], …, argv[argc-1]` of words; a word is the list of its bytes without the
  terminator.
* `strtoul` is that of the C standard in base ten with 64 bits (`unsigned long` of the Makefile's platform):
  white space, an optional sign, digits; the value saturates, a minus sign negates it modulo `2^64`.
* `strtod` is a parameter: it gives the value (`none` for infinities and NaN) and the unread rest of the word.
* `getrlimit` and `setrlimit` succeed.
-/

namespace Verif.Limits

open Verif.Str (Str isws)

/-! ## Numbers on the command line -/

/-- The optional sign of a number: is it a minus, and the rest. -/
def sign : Str → Bool × Str
  | '-' :: t => (true, t)
  | '+' :: t => (false, t)
  | t => (false, t)

/-- `strtoul(w, _, 10)`. -/
def strtoul (w : Str) : Nat :=
  let s := sign (w.dropWhile isws)
  let v := Nat.ofDigitChars 10 (s.2.takeWhile Char.isDigit) 0
  if 2 ^ 64 ≤ v then 2 ^ 64 - 1 else if s.1 = true then (2 ^ 64 - v) % 2 ^ 64 else v

/-! ## `Limit` -/

/-- search.hpp:85: the members of `Limit` apart from `timeup`, and the soft and hard `RLIMIT_AS` of the process. -/
structure Lim where
  expd : Nat
  gend : Nat
  mem : Nat
  cputime : Nat
  walltime : Nat
  rcur : Nat
  rmax : Nat
deriving DecidableEq

/-- The conversion of a `double` to `unsigned long`: undefined for values that do not fit. -/
def toUlong (q : ℚ) : Outcome Nat :=
  if -1 < q ∧ q < 2 ^ 64 then .ok ⌊q⌋.toNat else .ub

/-- search.cc:61-72: the number of bytes. -/
def membytes (strtod : Str → Option ℚ × Str) (w : Str) : Outcome Nat :=
  let r := strtod w
  let conv (k : ℚ) : Outcome Nat := match r.1 with
    | none => .ub
    | some m => toUlong (m * k)
  match r.2 with
  | [] => conv 1
  | c :: _ =>
    if c = 'G' then conv (10 ^ 9)
    else if c = 'M' then conv (10 ^ 6)
    else if c = 'K' then conv (10 ^ 3)
    else .fatal

/-- search.cc:59-83 `Limit::memlimit` -/
def memlimit (strtod : Str → Option ℚ × Str) (w : Str) (l : Lim) : Outcome Lim :=
  (membytes strtod w).map fun m => { l with mem := m, rcur := if l.rmax > m then m else l.rmax }

/-- The options of `Limit`. -/
inductive Opt | expd | gend | mem | cputime | walltime
deriving DecidableEq

/-- Their names. -/
def Opt.name : Opt → Str
  | .expd => "-expd".toList
  | .gend => "-gend".toList
  | .mem => "-mem".toList
  | .cputime => "-cputime".toList
  | .walltime => "-walltime".toList

/-- search.cc:45-56: the loop over the arguments from index `i` on. -/
def parse (strtod : Str → Option ℚ × Str) : List Str → Lim → Outcome Lim
  | w :: v :: rest, l =>
    if w = Opt.expd.name then parse strtod rest { l with expd := strtoul v }
    else if w = Opt.gend.name then parse strtod rest { l with gend := strtoul v }
    else if w = Opt.mem.name then (memlimit strtod v l).bind (parse strtod rest)
    else if w = Opt.cputime.name then parse strtod rest { l with cputime := strtoul v }
    else if w = Opt.walltime.name then parse strtod rest { l with walltime := strtoul v }
    else parse strtod (v :: rest) l
  | [_], l => .ok l
  | [], l => .ok l

/-- search.cc:43-57 `Limit::Limit(argc, argv)`, in a process whose memory limits are `cur` and `max`. -/
def fromArgv (strtod : Str → Option ℚ × Str) (cur max : Nat) (argv : List Str) : Outcome Lim :=
  parse strtod argv ⟨0, 0, 0, 0, 0, cur, max⟩

/-- search.hpp:67-71 `Limit::reached` for statistics `expd`, `gend`. -/
def reached (timeup : Bool) (l : Lim) (expd gend : Nat) : Bool :=
  timeup || (decide (0 < l.expd) && decide (l.expd ≤ expd)) || (decide (0 < l.gend) && decide (l.gend ≤ gend))

/-! ## The timer -/

/-- `ITIMER_REAL` with `SIGALRM` and `ITIMER_PROF` with `SIGPROF`, search.cc:152-163. -/
inductive Timer | real | prof
deriving DecidableEq

/-- The seconds that a limit gives to a timer. -/
def Lim.secs (l : Lim) : Timer → Nat
  | .real => l.walltime
  | .prof => l.cputime

/-- What the timer code shares: search.cc:86 `timed` (the limits are numbered), which timers run, for which signals the
handler `handletimeout` is installed, and the `timeup` flags of the limits. -/
structure T where
  timed : Option Nat
  arm : Timer → Bool
  hnd : Timer → Bool
  up : Nat → Bool

/-- The state at program start. -/
def T.init : T := ⟨none, fun _ => false, fun _ => false, fun _ => false⟩

/-- The single actions of `start` and `finish`; a signal may arrive between any two of them. -/
inductive Act
  /-- 101-104: claim `timed`. -/
  | take (i : Nat)
  /-- 124-128: install the handler. -/
  | install (x : Timer)
  /-- 130-133: start the timer. -/
  | arm (x : Timer)
  /-- 139-141: stop the timer. -/
  | disarm (x : Timer)
  /-- 143-147: back to the default action. -/
  | uninstall (x : Timer)
  /-- 118: `timed = NULL`. -/
  | clear

/-- The effect of an action; `.fatal` is search.cc:104. -/
def act (t : T) : Act → Outcome T
  | .take i => if t.timed.getD i = i then .ok { t with timed := some i } else .fatal
  | .install x => .ok { t with hnd := Function.update t.hnd x true }
  | .arm x => .ok { t with arm := Function.update t.arm x true }
  | .disarm x => .ok { t with arm := Function.update t.arm x false }
  | .uninstall x => .ok { t with hnd := Function.update t.hnd x false }
  | .clear => .ok { t with timed := none }

/-- search.cc:123-134 `settimer` -/
def settimer (x : Timer) : List Act := [.install x, .arm x]

/-- search.cc:138-148 `stoptimer` -/
def stoptimer (x : Timer) : List Act := [.disarm x, .uninstall x]

/-- search.cc:98-109 `Limit::start` of limit `i`. -/
def start (l : Lim) (i : Nat) : List Act :=
  if l.walltime = 0 ∧ l.cputime = 0 then []
  else .take i :: (if 0 < l.walltime then settimer .real else []) ++ (if 0 < l.cputime then settimer .prof else [])

/-- search.cc:111-119 `Limit::finish` -/
def finish (l : Lim) : List Act :=
  if l.walltime = 0 ∧ l.cputime = 0 then []
  else (if 0 < l.walltime then stoptimer .real else []) ++ (if 0 < l.cputime then stoptimer .prof else []) ++ [.clear]

/-- A timer runs out: the default action of both signals ends the process (`.fatal`), the handler (search.cc:88-90) writes
through `timed`, which is undefined behaviour for `NULL`. -/
def fire (x : Timer) (t : T) : Outcome T :=
  if t.hnd x = true then
    match t.timed with
    | none => .ub
    | some i => .ok { t with arm := Function.update t.arm x false, up := Function.update t.up i true }
  else .fatal

/-- The states a process can be in, with the actions still to be done of the call that is going on, if searches with the
limits `lims` call `start` and `finish` in any order, except that `beg i t` must hold when limit `i` calls `start`, and
`fin i t` when it calls `finish`.  Timers run out at any time. -/
inductive Reach (lims : Nat → Lim) (beg fin : Nat → T → Prop) : T → List Act → Prop
  | init : Reach lims beg fin T.init []
  | start {t : T} (i : Nat) : Reach lims beg fin t [] → beg i t → Reach lims beg fin t (start (lims i) i)
  | finish {t : T} (i : Nat) : Reach lims beg fin t [] → fin i t → Reach lims beg fin t (finish (lims i))
  | act {t t' : T} {a : Act} {as : List Act} : Reach lims beg fin t (a :: as) → act t a = .ok t' → Reach lims beg fin t' as
  | fire {t t' : T} {x : Timer} {as : List Act} : Reach lims beg fin t as → t.arm x = true → fire x t = .ok t' →
      Reach lims beg fin t' as

/-! ## Look-ahead limits -/

/-- The word after the first occurrence of `name` that is not the last word. -/
def after (name : Str) : List Str → Option Str
  | w :: v :: rest => if w = name then some v else after name (v :: rest)
  | _ => none

/-- What `fromArgs` makes. -/
inductive Look
  /-- `ExpansionLimit(lookahead)` -/
  | expansion (n : Nat)
  /-- `MaxTimeLimit(alg, root, level, lookahead, gscale)` -/
  | dynamic (alg root level : Str) (n : Nat) (gscale : ℚ)

/-- search.cc:198-208: the loop over all arguments for `-lvl` and `-gscale`; infinities and NaN (`none`) are left out. -/
def dynargs (strtod : Str → Option ℚ × Str) : List Str → Str × ℚ → Outcome (Str × ℚ)
  | w :: v :: rest, r =>
    if w = "-lvl".toList then dynargs strtod rest (v, r.2)
    else if w = "-gscale".toList then
      let q := strtod v
      if q.2 = v then .fatal
      else match q.1 with
        | none => .ub
        | some g => dynargs strtod rest (r.1, g)
    else dynargs strtod (v :: rest) r
  | _, r => .ok r

/-- search.cc:178-218 `LookaheadLimit::fromArgs`.  `end == NULL` (184) is never true. -/
def fromArgs (strtod : Str → Option ℚ × Str) (argv : List Str) : Outcome Look :=
  let look := match after "-lookahead".toList argv with
    | none => 0
    | some v => strtoul v % 2 ^ 32
  if look < 1 then .fatal
  else match after "-dynlss".toList argv with
    | none => .ok (.expansion look)
    | some root =>
      (dynargs strtod argv ([], -1)).bind fun r =>
        if r.2 ≤ 0 then .fatal
        else if r.1 = [] then .fatal
        else match argv[1]? with
          | none => .ub
          | some alg => .ok (.dynamic alg root r.1 look r.2)

/-- lsslrtastar.hpp:531-533 `ExpansionLimit::stop` (and 744-746): the answer, and the new `n` of 32 bits. -/
def stop (lim n : Nat) : Bool × Nat := (decide (lim ≤ n), (n + 1) % 2 ^ 32)

/-- The answers of `k` calls of `stop`. -/
def stops (lim : Nat) : Nat → Nat → List Bool
  | 0, _ => []
  | k + 1, n => (stop lim n).1 :: stops lim k (stop lim n).2

/-! ## `MaxTimeLimit` -/

/-- lsslrtastar.hpp:559-569 `lsslookup` -/
structure Entry where
  size : Nat
  time : ℚ
deriving DecidableEq

/-- lsslrtastar.hpp:659-668: enter the time of one training run. -/
def enter : List Entry → Nat → ℚ → List Entry
  | [], k, t => [⟨k, t⟩]
  | e :: es, k, t => if e.size = k then { e with time := max e.time t } :: es else e :: enter es k t

/-- lsslrtastar.hpp:638-669: the training runs with their look-ahead and the largest "mean step cpu time" of the file,
`-1` if there is none. -/
def enterAll (tab : List Entry) (runs : List (Nat × ℚ)) : List Entry :=
  runs.foldl (fun tab r => if r.2 < 0 then tab else enter tab r.1 r.2) tab

/-- Insertion into a table sorted by size. -/
def insSize (e : Entry) : List Entry → List Entry
  | [] => [e]
  | x :: xs => if e.size < x.size then e :: x :: xs else x :: insSize e xs

/-- `std::sort` by size, lsslrtastar.hpp:674; it is only defined up to the order of equal sizes. -/
def sortSize : List Entry → List Entry
  | [] => []
  | e :: es => insSize e (sortSize es)

/-- The cached table as `fscanf` sees it: the number of entries, if it can be read, and the entries that can be read. -/
structure Cache where
  size : Option Nat
  entries : List Entry
deriving DecidableEq

/-- lsslrtastar.hpp:678-701 `loadtable`: the answer, and the table afterwards. -/
def loadtable (tab : List Entry) (c : Cache) : Bool × List Entry :=
  match c.size with
  | none => (false, tab)
  | some n => if n ≤ c.entries.length then (true, tab ++ c.entries.take n) else (false, tab ++ c.entries)

/-- lsslrtastar.hpp:703-711 `storetable`; `rnd` is the rounding of `%f`. -/
def storetable (rnd : ℚ → ℚ) (tab : List Entry) : Cache :=
  ⟨some tab.length, tab.map fun e => ⟨e.size, rnd e.time⟩⟩

/-- lsslrtastar.hpp:628-676: the table, and the file in the cache afterwards; `none` means that there was no file. -/
def build (rnd : ℚ → ℚ) (cache : Option Cache) (runs : List (Nat × ℚ)) : Outcome (List Entry × Cache) :=
  let fresh (tab : List Entry) : Outcome (List Entry × Cache) :=
    if runs = [] then .fatal
    else
      let tab := enterAll tab runs
      if tab = [] then .fatal else .ok (sortSize tab, storetable rnd (sortSize tab))
  match cache with
  | none => fresh []
  | some c =>
    let r := loadtable [] c
    if r.1 = true then .ok (r.2, c) else fresh r.2

/-- lsslrtastar.hpp:736-742 `maxlss`: `back()` of an empty table is undefined behaviour. -/
def maxlss (tab : List Entry) (t : ℚ) : Outcome Nat :=
  match tab.find? fun e => decide (t ≤ e.time) with
  | some e => .ok e.size
  | none => match tab.getLast? with
    | none => .ub
    | some e => .ok e.size

/-- The members that `MaxTimeLimit::start` changes. -/
structure Dyn where
  deadline : ℚ
  lim : Nat
  missed : Nat
deriving DecidableEq

/-- lsslrtastar.hpp:713-732 `MaxTimeLimit::start` when the CPU time is `now`; `n = 0` is left to `stops`. -/
def dynStart (tab : List Entry) (gscale : ℚ) (lim0 : Nat) (g now : ℚ) (s : Dyn) : Outcome Dyn :=
  if g ≤ 0 then .ok { s with lim := lim0 }
  else
    let dl := if s.deadline = 0 then now else s.deadline
    let missed := if dl < now then s.missed + 1 else s.missed
    let g := if 1 < g then g - 1 else g
    let dl := dl + g * gscale
    (maxlss tab (dl - now)).map fun k => ⟨dl, k, missed⟩

/-! ## Which algorithm -/

/-- main.hpp:69-108 `getsearch`: the names. -/
def algorithms : List Str := ["idastar", "astar", "astar-dump", "wastar", "greedy", "speedy", "bugsy", "bugsy-slim", "arastar",
  "arastarmon", "arastarnora", "dtastar-dump", "lsslrtastar2", "fhatlrtastar", "dtastar", "beam"].map String.toList

/-- main.hpp:69-108 `getsearch`: which constructor is called. -/
def getsearch (argv : List Str) : Outcome Str :=
  match argv[1]? with
  | none => .fatal
  | some a => if a ∈ algorithms then .ok a else .fatal

/-- plat2d/main.cc:47-51 `get`: `argv[argc]` is `NULL`, and `strcmp` of `NULL` is undefined behaviour. -/
def platGet (argv : List Str) : Outcome Str :=
  match argv[1]? with
  | none => .ub
  | some a => if a = "rrt".toList then .ok a else getsearch argv

end Verif.Limits
