import Verif.Rdb.Attrs
import Verif.Utils.Datafile

/-!
# Model of the programs rdb/addattrs.cc and rdb/dfcmplt.cc

A file is its contents.  Not modelled: opening and renaming of files (addattrs.cc:24-38, 56-60), the warning of
addattrs.cc:77, the directory that dfcmplt makes for a file that does not exist (dfcmplt.cc:15-18).
-/

namespace Verif.DfTools

open Verif.Str Verif.Rdb Verif.Datafile

/-! ## addattrs.cc -/

/-- addattrs.cc:70-80 `dfline`, called for every line of a known kind; `cols[1]` of a line without key is undefined. -/
def addSee (a : Attrs) (toks : List Str) : Outcome Attrs :=
  if toks[0]? = some (chars "#pair") then
    match toks[1]? with
    | none => .ub
    | some k => .ok (if a.mem k then (a.rm k).2 else a)
  else .ok a

/-- addattrs.cc:29, with `dfread` (datafile.cc:199-232): the attributes whose keys are not in the file. -/
def addScan : Nat → Str → Attrs → Outcome Attrs
  | 0, _, _ => .nofuel
  | fuel + 1, f, a =>
    (readline f).bind fun
      | none => .ok a
      | some (l, rest) =>
        (dfline l).bind fun
          | none => addScan fuel rest a
          | some toks => (addSee a toks).bind (addScan fuel rest)

/-- addattrs.cc:44-49: all attributes are written and removed. -/
def putAttrs : Nat → Attrs → Str → Outcome Str
  | 0, _, _ => .nofuel
  | fuel + 1, a, acc =>
    if a.size > 0 then
      a.front.bind fun k =>
      (a.lookup k).2.popFront.bind fun a' =>
      (dfpair k (a.lookup k).1).bind fun t => putAttrs fuel a' (acc ++ t)
    else .ok acc

/-- addattrs.cc:39-54: the new file; `acc` is what has been written.  `fputs` stops at a null character. -/
def copyLoop : Nat → Str → Bool → Attrs → Str → Outcome Str
  | 0, _, _, _, _ => .nofuel
  | fuel + 1, f, added, a, acc =>
    (readline f).bind fun
      | none => .ok acc
      | some (l, rest) =>
        if !added && hasprefix l (chars "#pair") then
          (putAttrs (a.size + 1) a acc).bind fun acc => copyLoop fuel rest true .empty (acc ++ cstr (l ++ ['\n']))
        else copyLoop fuel rest added a (acc ++ cstr (l ++ ['\n']))

/-- addattrs.cc:16-63 `main`, for the arguments after the file; the new contents of the file. -/
def addattrs (argv : List Str) (f : Str) : Outcome Str :=
  (attrargs argv).bind fun a =>
    if a.size = 0 then .ok f
    else (addScan (f.length + 1) f a).bind fun a => copyLoop (f.length + 1) f false a []

/-! ## dfcmplt.cc -/

/-- datafile.cc:14 -/
def start4 : Str := chars "#start data file format 4\n"

/-- datafile.cc:15 -/
def end4 : Str := chars "#end data file format 4\n"

/-- dfcmplt.cc:31-35: the last line, or what was there before. -/
def lastLine : Nat → Str → Str → Outcome Str
  | 0, _, _ => .nofuel
  | fuel + 1, f, prev =>
    (readline f).bind fun
      | none => .ok prev
      | some (l, rest) => lastLine fuel rest l

/-- dfcmplt.cc:11-42 `main`: whether it returns 0. -/
def dfcmplt (f : Str) : Outcome Bool :=
  (readline f).bind fun
    | none => .ok false
    | some (l, rest) =>
      if l ++ ['\n'] ≠ start4 then .ok false
      else (lastLine (f.length + 1) rest (l ++ ['\n'])).map fun prev => decide (prev ++ ['\n'] = end4)

end Verif.DfTools
