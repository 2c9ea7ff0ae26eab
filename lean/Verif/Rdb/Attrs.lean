import Verif.Utils.Str

/-!
# Model of `RdbAttrs` and `attrargs` (rdb/rdb.hpp, rdb/rdb.cc)

`std::map<string,string>` is a partial function, `std::deque<string>` a list.
-/

namespace Verif.Rdb

open Verif.Str

/-- rdb.hpp:55-57 -/
structure Attrs where
  pairs : Str → Option Str
  keys : List Str

namespace Attrs

/-- The list without attributes. -/
def empty : Attrs := ⟨fun _ => none, []⟩

/-- rdb.cc:33-39 -/
def pushBack (a : Attrs) (k v : Str) : Bool × Attrs :=
  if a.pairs k ≠ none then (false, a)
  else (true, ⟨Function.update a.pairs k (some v), a.keys ++ [k]⟩)

/-- rdb.cc:41-47 -/
def pushFront (a : Attrs) (k v : Str) : Bool × Attrs :=
  if a.pairs k ≠ none then (false, a)
  else (true, ⟨Function.update a.pairs k (some v), k :: a.keys⟩)

/-- rdb.hpp:22-26; erasing an iterator that was not found is undefined. -/
def popFront (a : Attrs) : Outcome Attrs :=
  match a.keys with
  | [] => .ub
  | k :: ks => if a.pairs k = none then .ub else .ok ⟨Function.update a.pairs k none, ks⟩

/-- rdb.hpp:29 -/
def front (a : Attrs) : Outcome Str :=
  match a.keys with
  | [] => .ub
  | k :: _ => .ok k

/-- rdb.hpp:32 -/
def size (a : Attrs) : Nat := a.keys.length

/-- rdb.cc:49-62 -/
def rm (a : Attrs) (k : Str) : Bool × Attrs :=
  if a.pairs k = none then (false, a)
  else (true, ⟨Function.update a.pairs k none, a.keys.erase k⟩)

/-- rdb.hpp:39: `pairs[key]` makes an entry for a key that is not there. -/
def lookup (a : Attrs) (k : Str) : Str × Attrs :=
  match a.pairs k with
  | some v => (v, a)
  | none => ([], ⟨Function.update a.pairs k (some []), a.keys⟩)

/-- rdb.hpp:43-45 -/
def mem (a : Attrs) (k : Str) : Bool := a.pairs k ≠ none

/-- rdb.cc:64-78, the loop over the keys. -/
def stringLoop (pairs : Str → Option Str) : List Str → Str → Outcome Str
  | [], r => .ok r
  | k :: ks, r =>
    match pairs k with
    | none => .ub
    | some v => stringLoop pairs ks ((if r.length > 0 then r ++ [' '] else r) ++ k ++ '=' :: v)

/-- rdb.cc:64-78 `string` -/
def string (a : Attrs) : Outcome Str := stringLoop a.pairs a.keys []

end Attrs

/-! ## Command line arguments -/

/-- rdb.cc:213-233 `frontpair`: the key, the value and the number of arguments used; `none` is `-1`.
`key` is what was collected so far. -/
def frontpair : List Str → Str → Nat → Outcome (Option (Str × Str × Nat))
  | [], _, _ => .ok none
  | arg :: rest, key, i =>
    let pre := arg.takeWhile (· ≠ '=')
    if pre = arg then frontpair rest (key ++ arg ++ [' ']) (i + 1)
    else
      let vl := arg.drop (pre.length + 1)
      if pre.length > 0 then .ok (some (key ++ pre, vl, i + 1))
      else match key.getLast? with
        | none => .ub
        | some c => .ok (some (if c = ' ' then key.dropLast else key, vl, i + 1))

/-- rdb.cc:199-211 `attrargs` -/
def attrargsLoop : Nat → List Str → Attrs → Outcome Attrs
  | 0, _, _ => .nofuel
  | fuel + 1, argv, a =>
    if argv = [] then .ok a
    else (frontpair argv [] 0).bind fun
      | none => .ok a
      | some (k, v, shift) => attrargsLoop fuel (argv.drop shift) (a.pushBack k v).2

def attrargs (argv : List Str) : Outcome Attrs := attrargsLoop (argv.length + 1) argv .empty

end Verif.Rdb
