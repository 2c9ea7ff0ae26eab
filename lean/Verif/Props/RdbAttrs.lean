import Verif.Rdb.Attrs
import Mathlib.Data.List.Nodup

/-!
# C28: RDB attribute lists are ordered maps

The specification is a list of pairs with different keys.
-/

namespace Verif.Rdb

open Verif.Str

/-- An operation of an attribute list. -/
inductive Op where
  | pushBack (k v : Str)
  | pushFront (k v : Str)
  | popFront
  | rm (k : Str)
  | lookup (k : Str)
  | mem (k : Str)
  | size
  | front
  | string

/-- What the caller sees. -/
inductive Obs where
  | unit
  | bool (b : Bool)
  | str (s : Str)
  | nat (n : Nat)
  deriving DecidableEq

/-- The operation on the model. -/
def exec (a : Attrs) : Op → Outcome (Obs × Attrs)
  | .pushBack k v => .ok (.bool (a.pushBack k v).1, (a.pushBack k v).2)
  | .pushFront k v => .ok (.bool (a.pushFront k v).1, (a.pushFront k v).2)
  | .popFront => a.popFront.map fun a => (.unit, a)
  | .rm k => .ok (.bool (a.rm k).1, (a.rm k).2)
  | .lookup k => .ok (.str (a.lookup k).1, (a.lookup k).2)
  | .mem k => .ok (.bool (a.mem k), a)
  | .size => .ok (.nat a.size, a)
  | .front => a.front.map fun k => (.str k, a)
  | .string => a.string.map fun s => (.str s, a)

/-! ## Specification -/

/-- The text `k1=v1 k2=v2 ...`. -/
def showPairs : List (Str × Str) → Str
  | [] => []
  | [(k, v)] => k ++ '=' :: v
  | (k, v) :: l => k ++ '=' :: v ++ ' ' :: showPairs l

/-- The operation on a list of pairs; `none` when it may not be used (front of an empty list, value of a
missing key). -/
def spec (l : List (Str × Str)) : Op → Option (Obs × List (Str × Str))
  | .pushBack k v => if k ∈ l.map (·.1) then some (.bool false, l) else some (.bool true, l ++ [(k, v)])
  | .pushFront k v => if k ∈ l.map (·.1) then some (.bool false, l) else some (.bool true, (k, v) :: l)
  | .popFront => match l with
    | [] => none
    | _ :: l => some (.unit, l)
  | .rm k => some (.bool (k ∈ l.map (·.1)), l.filter (·.1 ≠ k))
  | .lookup k => (l.find? (·.1 = k)).map fun p => (.str p.2, l)
  | .mem k => some (.bool (k ∈ l.map (·.1)), l)
  | .size => some (.nat l.length, l)
  | .front => match l with
    | [] => none
    | p :: _ => some (.str p.1, l)
  | .string => some (.str (showPairs l), l)

/-- A history of operations with what the caller saw. -/
inductive Exec : Attrs → List (Op × Obs) → Attrs → Prop
  | nil (a) : Exec a [] a
  | cons {a b c : Attrs} {op : Op} {o : Obs} {h : List (Op × Obs)} :
      exec a op = .ok (o, b) → Exec b h c → Exec a ((op, o) :: h) c

inductive Spec : List (Str × Str) → List (Op × Obs) → List (Str × Str) → Prop
  | nil (a) : Spec a [] a
  | cons {a b c : List (Str × Str)} {op : Op} {o : Obs} {h : List (Op × Obs)} :
      spec a op = some (o, b) → Spec b h c → Spec a ((op, o) :: h) c

/-! ## Refinement -/

/-- `a` stores the pairs `l`. -/
structure Rep (a : Attrs) (l : List (Str × Str)) : Prop where
  keys : a.keys = l.map (·.1)
  pairs : ∀ k, a.pairs k = (l.find? (·.1 = k)).map (·.2)
  nodup : (l.map (·.1)).Nodup

theorem find_none {l : List (Str × Str)} {k : Str} :
    (l.find? (·.1 = k)).map (·.2) = none ↔ k ∉ l.map (·.1) := by
  simp only [Option.map_eq_none_iff, List.find?_eq_none, decide_eq_true_eq, List.mem_map, not_exists, not_and]

theorem Rep.none {a : Attrs} {l} (h : Rep a l) (k : Str) : a.pairs k = none ↔ k ∉ l.map (·.1) := by
  rw [h.pairs, find_none]

theorem rep_empty : Rep .empty [] := ⟨rfl, fun _ => rfl, List.nodup_nil⟩

theorem erase_keys {l : List (Str × Str)} (hn : (l.map (·.1)).Nodup) (k : Str) :
    (l.map (·.1)).erase k = (l.filter (·.1 ≠ k)).map (·.1) := by
  rw [hn.erase_eq_filter, List.filter_map]
  congr 1
  apply List.filter_congr
  intro x _
  by_cases h : x.1 = k <;> simp [h]

theorem find_filter (l : List (Str × Str)) (k k' : Str) :
    (l.filter (·.1 ≠ k)).find? (·.1 = k') = if k' = k then none else l.find? (·.1 = k') := by
  induction l with
  | nil => simp
  | cons x l ih =>
    by_cases hx : x.1 = k
    · rw [List.filter_cons_of_neg (by simp [hx]), ih]
      split
      · rfl
      · next h => rw [List.find?_cons_of_neg (by rw [hx]; simpa using fun e => h e.symm)]
    · rw [List.filter_cons_of_pos (by simp [hx])]
      by_cases h : x.1 = k'
      · rw [List.find?_cons_of_pos (by simp [h]), List.find?_cons_of_pos (by simp [h]),
          if_neg (by rw [← h]; exact hx)]
      · rw [List.find?_cons_of_neg (by simp [h]), List.find?_cons_of_neg (by simp [h]), ih]

theorem stringLoop_eq {pairs : Str → Option Str} : ∀ (l : List (Str × Str)) (r : Str),
    (∀ p ∈ l, pairs p.1 = some p.2) →
    Attrs.stringLoop pairs (l.map (·.1)) r =
      .ok (if l = [] then r else (if r.length > 0 then r ++ [' '] else r) ++ showPairs l) := by
  intro l
  induction l with
  | nil => intro r _; rfl
  | cons p l ih =>
    intro r h
    obtain ⟨k, v⟩ := p
    rw [List.map_cons, Attrs.stringLoop, h (k, v) (by simp)]
    dsimp only
    rw [ih _ (fun p hp => h p (by simp [hp])), if_neg (by simp : ¬ ((k, v) :: l = []))]
    cases l with
    | nil => simp [showPairs]
    | cons q l =>
      rw [if_neg (by simp : ¬ (q :: l = [])), if_pos (by simp; omega)]
      simp [showPairs, List.append_assoc]

theorem step_ok {a : Attrs} {l l' : List (Str × Str)} {op : Op} {o : Obs} (h : Rep a l)
    (hs : spec l op = some (o, l')) : ∃ a', exec a op = .ok (o, a') ∧ Rep a' l' := by
  cases op with
  | pushBack k v =>
    simp only [spec] at hs
    simp only [exec, Attrs.pushBack]
    by_cases hk : k ∈ l.map (·.1)
    · rw [if_pos hk] at hs
      simp only [Option.some.injEq, Prod.mk.injEq] at hs
      obtain ⟨rfl, rfl⟩ := hs
      rw [if_pos (fun e => (h.none k).1 e hk)]
      exact ⟨a, rfl, h⟩
    · rw [if_neg hk] at hs
      simp only [Option.some.injEq, Prod.mk.injEq] at hs
      obtain ⟨rfl, rfl⟩ := hs
      rw [if_neg (by simpa using (h.none k).2 hk)]
      refine ⟨_, rfl, ⟨by simp [h.keys], fun k' => ?_, ?_⟩⟩
      · simp only [List.find?_append]
        by_cases e : k' = k
        · subst e
          have : l.find? (fun x => decide (x.1 = k')) = none := by
            have := find_none.2 hk
            simpa using this
          simp [this]
        · rw [Function.update_of_ne e, h.pairs]
          simp [Ne.symm e]
      · rw [List.map_append, List.nodup_append]
        refine ⟨h.nodup, by simp, ?_⟩
        intro x hx y hy
        simp only [List.map_cons, List.map_nil, List.mem_cons, List.not_mem_nil, or_false] at hy
        subst hy; rintro rfl; exact hk hx
  | pushFront k v =>
    simp only [spec] at hs
    simp only [exec, Attrs.pushFront]
    by_cases hk : k ∈ l.map (·.1)
    · rw [if_pos hk] at hs
      simp only [Option.some.injEq, Prod.mk.injEq] at hs
      obtain ⟨rfl, rfl⟩ := hs
      rw [if_pos (fun e => (h.none k).1 e hk)]
      exact ⟨a, rfl, h⟩
    · rw [if_neg hk] at hs
      simp only [Option.some.injEq, Prod.mk.injEq] at hs
      obtain ⟨rfl, rfl⟩ := hs
      rw [if_neg (by simpa using (h.none k).2 hk)]
      refine ⟨_, rfl, ⟨by simp [h.keys], fun k' => ?_, ?_⟩⟩
      · by_cases e : k' = k
        · subst e; simp
        · dsimp only
          rw [Function.update_of_ne e, h.pairs]
          simp [Ne.symm e]
      · rw [List.map_cons, List.nodup_cons]; exact ⟨hk, h.nodup⟩
  | popFront =>
    cases l with
    | nil => simp [spec] at hs
    | cons p l =>
      simp only [spec, Option.some.injEq, Prod.mk.injEq] at hs
      obtain ⟨rfl, rfl⟩ := hs
      obtain ⟨k, v⟩ := p
      have hk : a.keys = k :: l.map (·.1) := by simpa using h.keys
      have hp : a.pairs k ≠ none := fun e => (h.none k).1 e (by simp)
      simp only [exec, Attrs.popFront, hk, if_neg hp, Outcome.map_ok]
      have hn := h.nodup
      rw [List.map_cons, List.nodup_cons] at hn
      refine ⟨_, rfl, ⟨rfl, fun k' => ?_, hn.2⟩⟩
      by_cases e : k' = k
      · subst e
        simp only [Function.update_self]
        exact (find_none.2 hn.1).symm
      · dsimp only
        rw [Function.update_of_ne e, h.pairs]
        simp [Ne.symm e]
  | rm k =>
    simp only [spec, Option.some.injEq, Prod.mk.injEq] at hs
    obtain ⟨rfl, rfl⟩ := hs
    simp only [exec, Attrs.rm]
    by_cases hk : k ∈ l.map (·.1)
    · rw [if_neg (fun e => (h.none k).1 e hk)]
      refine ⟨⟨Function.update a.pairs k none, a.keys.erase k⟩, by simp only [hk, decide_true], ⟨?_, fun k' => ?_, ?_⟩⟩
      · dsimp only; rw [h.keys, erase_keys h.nodup]
      · dsimp only
        rw [find_filter]
        by_cases e : k' = k
        · subst e; simp
        · rw [Function.update_of_ne e, h.pairs, if_neg e]
      · exact h.nodup.sublist ((List.filter_sublist).map _)
    · rw [if_pos ((h.none k).2 hk)]
      refine ⟨a, by simp only [hk, decide_false], ?_⟩
      rw [List.filter_eq_self.2]
      · exact h
      · intro x hx
        simp only [decide_eq_true_eq]
        rintro rfl; exact hk (List.mem_map_of_mem hx)
  | lookup k =>
    simp only [spec, Option.map_eq_some_iff, Prod.mk.injEq] at hs
    obtain ⟨p, hp, rfl, rfl⟩ := hs
    have : a.pairs k = some p.2 := by rw [h.pairs, hp]; rfl
    simp only [exec, Attrs.lookup, this]
    exact ⟨a, rfl, h⟩
  | mem k =>
    simp only [spec, Option.some.injEq, Prod.mk.injEq] at hs
    obtain ⟨rfl, rfl⟩ := hs
    refine ⟨a, ?_, h⟩
    have : decide (a.pairs k ≠ none) = decide (k ∈ l.map (·.1)) := by
      apply decide_eq_decide.2
      rw [ne_eq, h.none k, not_not]
    simp only [exec, Attrs.mem, this]
  | size =>
    simp only [spec, Option.some.injEq, Prod.mk.injEq] at hs
    obtain ⟨rfl, rfl⟩ := hs
    exact ⟨a, by simp [exec, Attrs.size, h.keys], h⟩
  | front =>
    cases l with
    | nil => simp [spec] at hs
    | cons p l =>
      simp only [spec, Option.some.injEq, Prod.mk.injEq] at hs
      obtain ⟨rfl, rfl⟩ := hs
      exact ⟨a, by simp [exec, Attrs.front, h.keys], h⟩
  | string =>
    simp only [spec, Option.some.injEq, Prod.mk.injEq] at hs
    obtain ⟨rfl, rfl⟩ := hs
    refine ⟨a, ?_, h⟩
    simp only [exec, Attrs.string, h.keys]
    rw [stringLoop_eq _ _ (by
      intro p hp
      rw [h.pairs]
      have hf : l.find? (fun x => decide (x.1 = p.1)) = some p := by
        have hn := h.nodup
        clear * - hp hn
        induction l with
        | nil => simp at hp
        | cons q l ih =>
          rw [List.map_cons, List.nodup_cons] at hn
          rcases List.mem_cons.1 hp with rfl | hp
          · simp
          · rw [List.find?_cons_of_neg (by
              simp only [decide_eq_true_eq]
              intro e; exact hn.1 (e ▸ List.mem_map_of_mem hp))]
            exact ih hp hn.2
      rw [hf]; rfl)]
    cases l <;> simp [showPairs]

/-- **C28.** A history that asks for the value of a key only when it is there, and for the front only when
there is one, is the history of an ordered map: the code shows what the specification shows, and never leaves
defined behaviour.
Missing for the full claim: `lookup` of a missing key (`c28_lookup_inserts`). -/
theorem c28_ordered_map_partial {a : Attrs} {l l' : List (Str × Str)} {h : List (Op × Obs)} (hr : Rep a l)
    (hs : Spec l h l') : ∃ a', Exec a h a' ∧ Rep a' l' := by
  induction hs generalizing a with
  | nil l => exact ⟨a, .nil a, hr⟩
  | cons h1 _ ih =>
    obtain ⟨b, h2, h3⟩ := step_ok hr h1
    obtain ⟨c, h4, h5⟩ := ih h3
    exact ⟨c, .cons h2 h4, h5⟩

/-- **C28 (keys).** The key list shown to the caller is the list of the stored keys, without repetition. -/
theorem c28_keys {l : List (Str × Str)} {h : List (Op × Obs)} (hs : Spec [] h l) :
    ∃ a, Exec .empty h a ∧ a.keys = l.map (·.1) ∧ a.keys.Nodup := by
  obtain ⟨a, h1, h2⟩ := c28_ordered_map_partial rep_empty hs
  exact ⟨a, h1, h2.keys, h2.keys ▸ h2.nodup⟩

/-- Asking for a missing key changes what is stored: afterwards the key is a member, it cannot be pushed any
more, but the size and the text do not know about it. -/
theorem c28_lookup_inserts {a : Attrs} {l : List (Str × Str)} (hr : Rep a l) {k : Str} (hk : k ∉ l.map (·.1)) :
    a.mem k = false ∧ (a.lookup k).2.mem k = true ∧ (∀ v, ((a.lookup k).2.pushBack k v).1 = false) ∧
      (a.lookup k).2.size = a.size ∧ (a.lookup k).2.keys = a.keys := by
  have h0 : a.pairs k = none := (hr.none k).2 hk
  have e : a.lookup k = ([], ⟨Function.update a.pairs k (some []), a.keys⟩) := by
    simp [Attrs.lookup, h0]
  refine ⟨by simp [Attrs.mem, h0], ?_, fun v => ?_, ?_, ?_⟩
  · rw [e]; simp [Attrs.mem]
  · rw [e]; simp [Attrs.pushBack]
  · rw [e]; rfl
  · rw [e]

/-! ## Command line -/

/-- **C28 (arguments).** Arguments of the form `key=value` with a non-empty key give these pairs, the first one
counting for a repeated key. -/
theorem c28_args {l : List (Str × Str)} (h : ∀ p ∈ l, p.1 ≠ [] ∧ '=' ∉ p.1) :
    attrargs (l.map fun p => p.1 ++ '=' :: p.2) =
      .ok (l.foldl (fun a p => (a.pushBack p.1 p.2).2) .empty) := by
  have key : ∀ (l : List (Str × Str)) (fuel : Nat) (a : Attrs), l.length < fuel →
      (∀ p ∈ l, p.1 ≠ [] ∧ '=' ∉ p.1) →
      attrargsLoop fuel (l.map fun p => p.1 ++ '=' :: p.2) a =
        .ok (l.foldl (fun a p => (a.pushBack p.1 p.2).2) a) := by
    intro l
    induction l with
    | nil =>
      intro fuel a hf _
      obtain ⟨fuel, rfl⟩ : ∃ f, fuel = f + 1 := ⟨fuel - 1, by simp at hf; omega⟩
      rfl
    | cons p l ih =>
      intro fuel a hf h
      obtain ⟨fuel, rfl⟩ : ∃ f, fuel = f + 1 := ⟨fuel - 1, by simp at hf; omega⟩
      obtain ⟨h1, h2⟩ := h p (by simp)
      have ht : (p.1 ++ '=' :: p.2).takeWhile (· ≠ '=') = p.1 := by
        rw [List.takeWhile_append_of_pos (by
          intro c hc
          simp only [decide_eq_true_eq]
          rintro rfl; exact h2 hc)]
        simp
      have hfp : frontpair ((p :: l).map fun p => p.1 ++ '=' :: p.2) [] 0 = .ok (some (p.1, p.2, 1)) := by
        rw [List.map_cons, frontpair]
        dsimp only
        rw [ht, if_neg (by
          intro e
          have := congrArg List.length e
          simp at this), if_pos (List.length_pos_iff.2 h1)]
        have : (p.1 ++ '=' :: p.2).drop (p.1.length + 1) = p.2 := by
          rw [← List.drop_drop]; simp
        rw [this]; rfl
      rw [attrargsLoop, if_neg (by simp), hfp, Outcome.bind_ok]
      dsimp only
      rw [List.map_cons, List.drop_one, List.tail_cons,
        ih fuel _ (by simp at hf; omega) (fun p hp => h p (by simp [hp]))]
      rfl
  unfold attrargs
  exact key l _ _ (by simp) h

/-- The key of an argument that is made of words, the last of which (if not empty) stands before the `=`. -/
def wordkey (ws : List Str) (last : Str) : Str := [' '].intercalate (ws ++ if last = [] then [] else [last])

theorem takeWhile_eq {k v : Str} (h : '=' ∉ k) : (k ++ '=' :: v).takeWhile (· ≠ '=') = k := by
  rw [List.takeWhile_append_of_pos (by
    intro c hc
    simp only [decide_eq_true_eq]
    rintro rfl; exact h hc)]
  simp

theorem takeWhile_no {k : Str} (h : '=' ∉ k) : k.takeWhile (· ≠ '=') = k := by
  have := List.takeWhile_append_of_pos (p := fun c : Char => decide (c ≠ '=')) (l₁ := k) (l₂ := []) (by
    intro c hc
    simp only [decide_eq_true_eq]
    rintro rfl; exact h hc)
  simpa using this

theorem frontpair_words {last v : Str} (hl : '=' ∉ last) (rest : List Str) : ∀ (ws : List Str) (key : Str) (i : Nat),
    (∀ w ∈ ws, '=' ∉ w) → (ws ≠ [] ∨ last ≠ [] ∨ key.getLast? = some ' ') →
    frontpair (ws ++ (last ++ '=' :: v) :: rest) key i =
      .ok (some (if last = [] then (key ++ ws.flatMap (· ++ [' '])).dropLast else key ++ ws.flatMap (· ++ [' ']) ++ last,
        v, i + ws.length + 1))
  | [], key, i, _, hne => by
    rw [List.nil_append, frontpair]
    dsimp only
    rw [takeWhile_eq hl, if_neg (by
      intro e
      have := congrArg List.length e
      simp at this)]
    have hv : (last ++ '=' :: v).drop (last.length + 1) = v := by rw [← List.drop_drop]; simp
    rw [hv]
    by_cases h : last = []
    · subst h
      have hk : key.getLast? = some ' ' := by simpa using hne
      rw [if_neg (by simp), hk]
      simp
    · rw [if_pos (List.length_pos_iff.2 h), if_neg h]
      simp
  | w :: ws, key, i, hw, _ => by
    rw [List.cons_append, frontpair]
    dsimp only
    rw [takeWhile_no (hw w (by simp)), if_pos rfl, frontpair_words hl rest ws (key ++ w ++ [' ']) (i + 1)
      (fun w' hw' => hw w' (by simp [hw'])) (Or.inr (Or.inr (by simp)))]
    rw [List.flatMap_cons, List.length_cons]
    have e1 : key ++ w ++ [' '] ++ ws.flatMap (· ++ [' ']) = key ++ (w ++ [' '] ++ ws.flatMap (· ++ [' '])) := by simp
    have e2 : i + 1 + ws.length + 1 = i + (ws.length + 1) + 1 := by omega
    rw [e1, e2]

theorem flat_intercalate (ws : List Str) (last : Str) :
    ws.flatMap (· ++ [' ']) ++ last = [' '].intercalate (ws ++ [last]) := by
  induction ws with
  | nil => simp [List.intercalate, List.intersperse]
  | cons w ws ih =>
    rw [List.flatMap_cons, List.append_assoc, ih]
    cases ws with
    | nil => simp [List.intercalate, List.intersperse]
    | cons w' ws => simp [List.intercalate, List.intersperse]

theorem wordkey_eq {ws : List Str} {last : Str} (h : ws ≠ [] ∨ last ≠ []) :
    (if last = [] then (ws.flatMap (· ++ [' '])).dropLast else ws.flatMap (· ++ [' ']) ++ last) = wordkey ws last := by
  unfold wordkey
  by_cases hl : last = []
  · rw [if_pos hl, if_pos hl, List.append_nil]
    have hw : ws ≠ [] := h.resolve_right (fun h' => h' hl)
    obtain ⟨a, w, rfl⟩ := List.eq_nil_or_concat ws |>.resolve_left hw
    rw [List.concat_eq_append, ← flat_intercalate, List.flatMap_append]
    simp only [List.flatMap_cons, List.flatMap_nil, List.append_nil]
    rw [← List.append_assoc, List.dropLast_concat]
  · rw [if_neg hl, if_neg hl, flat_intercalate]

/-- **C28 (arguments, keys of several words).** Words without `=` are part of the key of the next argument that has one;
the words of a key are separated by single blanks.  Words at the end that belong to no `=` are ignored. -/
theorem c28_args_words {l : List (List Str × Str × Str)} {tl : List Str} (htl : ∀ w ∈ tl, '=' ∉ w)
    (h : ∀ p ∈ l, (∀ w ∈ p.1, '=' ∉ w) ∧ '=' ∉ p.2.1 ∧ (p.1 ≠ [] ∨ p.2.1 ≠ [])) :
    attrargs ((l.flatMap fun p => p.1 ++ [p.2.1 ++ '=' :: p.2.2]) ++ tl) =
      .ok (l.foldl (fun a p => (a.pushBack (wordkey p.1 p.2.1) p.2.2).2) .empty) := by
  have hend : ∀ (tl : List Str) key i, (∀ w ∈ tl, '=' ∉ w) → frontpair tl key i = .ok none := by
    intro tl
    induction tl with
    | nil => intro _ _ _; rfl
    | cons w tl ih =>
      intro key i hw
      rw [frontpair]
      dsimp only
      rw [takeWhile_no (hw w (by simp)), if_pos rfl, ih _ _ fun w' hw' => hw w' (by simp [hw'])]
  have key : ∀ (l : List (List Str × Str × Str)) (fuel : Nat) (a : Attrs), l.length < fuel →
      (∀ p ∈ l, (∀ w ∈ p.1, '=' ∉ w) ∧ '=' ∉ p.2.1 ∧ (p.1 ≠ [] ∨ p.2.1 ≠ [])) →
      attrargsLoop fuel ((l.flatMap fun p => p.1 ++ [p.2.1 ++ '=' :: p.2.2]) ++ tl) a =
        .ok (l.foldl (fun a p => (a.pushBack (wordkey p.1 p.2.1) p.2.2).2) a) := by
    intro l
    induction l with
    | nil =>
      intro fuel a hf _
      obtain ⟨fuel, rfl⟩ : ∃ f, fuel = f + 1 := ⟨fuel - 1, by simp at hf; omega⟩
      rw [attrargsLoop, List.flatMap_nil, List.nil_append, hend tl [] 0 htl]
      split <;> rfl
    | cons p l ih =>
      intro fuel a hf h
      obtain ⟨fuel, rfl⟩ : ∃ f, fuel = f + 1 := ⟨fuel - 1, by simp at hf; omega⟩
      obtain ⟨h1, h2, h3⟩ := h p (by simp)
      have e : ((p :: l).flatMap fun p => p.1 ++ [p.2.1 ++ '=' :: p.2.2]) ++ tl =
          p.1 ++ (p.2.1 ++ '=' :: p.2.2) :: ((l.flatMap fun p => p.1 ++ [p.2.1 ++ '=' :: p.2.2]) ++ tl) := by simp
      rw [e, attrargsLoop, if_neg (by simp), frontpair_words h2 _ p.1 [] 0 h1 (by
        rcases h3 with h3 | h3
        · exact Or.inl h3
        · exact Or.inr (Or.inl h3)), Outcome.bind_ok]
      dsimp only
      have hk := wordkey_eq h3
      rw [List.nil_append, hk]
      have hd : (p.1 ++ (p.2.1 ++ '=' :: p.2.2) :: ((l.flatMap fun p => p.1 ++ [p.2.1 ++ '=' :: p.2.2]) ++ tl)).drop
          (0 + p.1.length + 1) = (l.flatMap fun p => p.1 ++ [p.2.1 ++ '=' :: p.2.2]) ++ tl := by
        rw [Nat.zero_add, ← List.drop_drop, List.drop_left]; rfl
      rw [hd, ih fuel _ (by simp at hf; omega) (fun p hp => h p (by simp [hp]))]
      rfl
  unfold attrargs
  refine key l _ _ ?_ h
  rw [List.length_append]
  have : l.length ≤ (l.flatMap fun p => p.1 ++ [p.2.1 ++ '=' :: p.2.2]).length := by
    clear h key
    induction l with
    | nil => simp
    | cons p l ih => rw [List.flatMap_cons, List.length_append]; simp; simp at ih; omega
  omega

/-- An argument that starts with `=` reads in front of the (empty) key. -/
theorem c28_args_ub (v : Str) : attrargs ['=' :: v] = .ub := by
  unfold attrargs attrargsLoop
  rw [if_neg (by simp)]
  have : frontpair ['=' :: v] [] 0 = .ub := by
    rw [frontpair]; simp
  rw [this]; rfl

/-! ## Examples -/

/-- push, push, a refused push, a lookup, a removal and the text -/
example : ∃ a, Exec .empty [(.pushBack ['a'] ['1'], .bool true), (.pushFront ['b'] ['2'], .bool true),
    (.pushBack ['a'] ['3'], .bool false), (.lookup ['a'], .str ['1']),
    (.string, .str "b=2 a=1".toList), (.rm ['b'], .bool true), (.size, .nat 1)] a ∧ Rep a [(['a'], ['1'])] := by
  refine c28_ordered_map_partial (l := []) rep_empty ?_
  refine .cons (b := [(['a'], ['1'])]) (by decide) ?_
  refine .cons (b := [(['b'], ['2']), (['a'], ['1'])]) (by decide) ?_
  refine .cons (b := [(['b'], ['2']), (['a'], ['1'])]) (by decide) ?_
  refine .cons (b := [(['b'], ['2']), (['a'], ['1'])]) (by decide) ?_
  refine .cons (b := [(['b'], ['2']), (['a'], ['1'])]) (by decide) ?_
  refine .cons (b := [(['a'], ['1'])]) (by decide) ?_
  exact .cons (b := [(['a'], ['1'])]) (by decide) (.nil _)

example : attrargs (["alg", "name", "=astar", "x=1", "rest"].map String.toList) =
    .ok ((Attrs.empty.pushBack "alg name".toList "astar".toList).2.pushBack ['x'] ['1']).2 :=
  c28_args_words (l := [(["alg".toList, "name".toList], [], "astar".toList), ([], ['x'], ['1'])])
    (tl := ["rest".toList]) (by decide) (by decide)

/-- a key of two words -/
example : ∃ a, attrargs ["alg".toList, "name".toList, "=astar".toList] = .ok a ∧
    a.string = .ok "alg name=astar".toList := ⟨_, rfl, by decide⟩

end Verif.Rdb
