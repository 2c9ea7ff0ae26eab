import Verif.Rdb.DfTools
import Verif.Props.Datafile
import Verif.Props.RdbAttrs

/-!
# C110: tools for data files

`addattrs` adds attributes to a data file, `dfcmplt` tells whether a data file is complete.  Data files are lists of records
(`Rec` of C26), attributes are lists of pairs (`Rep` of C28).
-/

namespace Verif.DfTools

open Verif.Str Verif.Rdb Verif.Datafile

/-! ## Specification -/

/-- The records with `new` before the first pair. -/
def insertPairs (new : List Rec) : List Rec → List Rec
  | [] => []
  | .pair k v :: rs => new ++ .pair k v :: rs
  | r :: rs => r :: insertPairs new rs

/-- The keys of the pairs. -/
def keysOf : List Rec → List Str
  | [] => []
  | .pair k _ :: rs => k :: keysOf rs
  | _ :: rs => keysOf rs

/-- The attributes that are not in the file yet. -/
def fresh (l : List (Str × Str)) (rs : List Rec) : List (Str × Str) := l.filter fun p => p.1 ∉ keysOf rs

/-- Pairs as records. -/
def recs (l : List (Str × Str)) : List Rec := l.map fun p => .pair p.1 p.2

/-- Of several attributes with the same key the first one counts. -/
def firsts : List (Str × Str) → List (Str × Str)
  | [] => []
  | p :: l => p :: (firsts l).filter (·.1 ≠ p.1)

/-- The arguments of the command line. -/
def args (l : List (Str × Str)) : List Str := l.map fun p => p.1 ++ '=' :: p.2

/-- A line without the end of a line of another system. -/
def strip (l : Str) : Str := if l.getLast? = some '\r' then l.dropLast else l

/-- The text with the given lines; a rest without end of line may follow. -/
def file (ls : List Str) (tail : Str) : Str := (ls.flatMap fun l => l ++ ['\n']) ++ tail

/-- The lines that a person sees in the file. -/
def seen (ls : List Str) (tail : Str) : List Str := if tail = [] then ls else ls ++ [tail]

/-! ## Lemmas -/

/-- The text of the records. -/
def text (rs : List Rec) : Str := rs.flatMap fun r => r.line ++ ['\n']

theorem writeAll_text {rs : List Rec} (h : ∀ r ∈ rs, r.Fits) : writeAll rs = .ok (text rs) := by
  induction rs with
  | nil => rfl
  | cons r rs ih =>
    rw [writeAll, write_eq (h r (by simp)), Outcome.bind_ok, ih (fun r hr => h r (by simp [hr]))]
    simp [text]

theorem text_append (rs ts : List Rec) : text (rs ++ ts) = text rs ++ text ts := by simp [text]

theorem text_cons (r : Rec) (rs : List Rec) : text (r :: rs) = r.line ++ '\n' :: text rs := by simp [text]

theorem line_no_nul {r : Rec} (h : r.Fits) : ∀ c ∈ r.line, c ≠ nul := by
  have hp : ∀ c ∈ chars "#pair", c ≠ nul := by decide
  have hc : ∀ c ∈ chars "#altcols", c ≠ nul := by decide
  have hr : ∀ c ∈ chars "#altrow", c ≠ nul := by decide
  have hq : ∀ c ∈ chars "  \"", c ≠ nul := by decide
  have q1 : '"' ≠ nul := by decide
  have q2 : '\t' ≠ nul := by decide
  have q3 : ' ' ≠ nul := by decide
  cases r with
  | pair k v =>
    obtain ⟨h1, h2, -⟩ := h
    intro c hc'
    simp only [Rec.line, List.mem_append, List.mem_cons, List.not_mem_nil, or_false] at hc'
    rcases hc' with e | (((e | e) | e) | e) | e
    · exact hp c e
    · exact hq c e
    · exact (h1 c e).1
    · rcases e with rfl | rfl | rfl <;> assumption
    · exact (h2 c e).1
    · rw [e]; exact q1
  | altcols n cs =>
    obtain ⟨h1, h2, -⟩ := h
    intro c hc'
    simp only [Rec.line, List.mem_append, List.mem_cons, List.not_mem_nil, or_false, List.mem_flatten, List.mem_map] at hc'
    rcases hc' with e | (e | e) | e | ⟨l, ⟨x, hx, rfl⟩, e⟩
    · exact hc c e
    · exact hq c e
    · exact (h1 c e).1
    · rw [e]; exact q1
    · simp only [List.mem_append, List.mem_cons, List.not_mem_nil, or_false] at e
      rcases e with ((e | e) | e) | e
      · rcases e with rfl | rfl <;> assumption
      · exact (h1 c e).1
      · rcases e with rfl | e
        · exact q3
        · exact (h2 x hx c e).1
      · rw [e]; exact q1
  | altrow n cs =>
    obtain ⟨h1, h2, -⟩ := h
    intro c hc'
    simp only [Rec.line, List.mem_append, List.mem_cons, List.not_mem_nil, or_false, List.mem_flatten, List.mem_map] at hc'
    rcases hc' with e | (e | e) | e | ⟨l, ⟨x, hx, rfl⟩, e⟩
    · exact hr c e
    · exact hq c e
    · exact (h1 c e).1
    · rw [e]; exact q1
    · rcases List.mem_cons.1 e with rfl | e
      · exact q2
      · exact ((col_word (h2 x hx)).2.2 c e).2.2
  | note l => exact fun c hc => (h.2.1 c hc).1

theorem cstr_self {s : Str} (h : ∀ c ∈ s, c ≠ nul) : cstr s = s := by
  unfold cstr
  rw [List.takeWhile_eq_self_iff]
  simpa using h

theorem cstr_line {r : Rec} (h : r.Fits) : cstr (r.line ++ ['\n']) = r.line ++ ['\n'] :=
  cstr_self fun c hc => by
    rcases List.mem_append.1 hc with e | e
    · exact line_no_nul h c e
    · rw [List.mem_singleton.1 e]; decide

theorem hasprefix_pair {k v : Str} (h : (Rec.pair k v).Fits) : hasprefix (Rec.pair k v).line (chars "#pair") = true := by
  unfold hasprefix
  rw [cstr_self (line_no_nul h), List.isPrefixOf_iff_prefix]
  exact ⟨_, rfl⟩

theorem hasprefix_other {r : Rec} (h : r.Fits) (hr : ∀ k v, r ≠ .pair k v) : hasprefix r.line (chars "#pair") = false := by
  unfold hasprefix
  rw [cstr_self (line_no_nul h), Bool.eq_false_iff, ne_eq, List.isPrefixOf_iff_prefix]
  cases r with
  | pair k v => exact absurd rfl (hr k v)
  | altcols n cs =>
    rintro ⟨t, e⟩
    have e1 : chars "#pair" = '#' :: 'p' :: chars "air" := by decide
    have e2 : chars "#altcols" = '#' :: 'a' :: chars "ltcols" := by decide
    simp only [Rec.line, e1, e2, List.cons_append, List.cons.injEq] at e
    exact absurd e.2.1 (by decide)
  | altrow n cs =>
    rintro ⟨t, e⟩
    have e1 : chars "#pair" = '#' :: 'p' :: chars "air" := by decide
    have e2 : chars "#altrow" = '#' :: 'a' :: chars "ltrow" := by decide
    simp only [Rec.line, e1, e2, List.cons_append, List.cons.injEq] at e
    exact absurd e.2.1 (by decide)
  | note l => exact h.2.2.2.1

theorem rep_mem {a : Attrs} {l : List (Str × Str)} (h : Rep a l) (k : Str) : a.mem k = decide (k ∈ l.map (·.1)) := by
  unfold Attrs.mem
  have := h.none k
  by_cases hk : k ∈ l.map (·.1)
  · simp only [hk, decide_true, ne_eq, decide_eq_true_eq]
    exact fun e => (this.1 e) hk
  · simp only [hk, decide_false, ne_eq, decide_eq_false_iff_not, not_not]
    exact this.2 hk

/-- A pair of the file takes its key out of the attributes. -/
theorem addSee_pair {a : Attrs} {l : List (Str × Str)} (h : Rep a l) (k v : Str) :
    ∃ a', addSee a [chars "#pair", k, v] = .ok a' ∧ Rep a' (l.filter (·.1 ≠ k)) := by
  obtain ⟨a', h1, h2⟩ := step_ok h (op := .rm k) rfl
  simp only [exec, Outcome.ok.injEq, Prod.mk.injEq] at h1
  unfold addSee
  simp only [List.getElem?_cons_zero, if_true, List.getElem?_cons_succ]
  rw [rep_mem h]
  by_cases hk : k ∈ l.map (·.1)
  · exact ⟨_, rfl, by simp only [hk, decide_true, if_true]; rw [h1.2]; exact h2⟩
  · refine ⟨_, rfl, ?_⟩
    simp only [hk, decide_false, Bool.false_eq_true, if_false]
    have : l.filter (·.1 ≠ k) = l := by
      rw [List.filter_eq_self]
      intro p hp
      simp only [ne_eq, decide_eq_true_eq]
      rintro rfl
      exact hk (List.mem_map.2 ⟨p, hp, rfl⟩)
    rw [this]
    exact h

theorem addScan_text {rs : List Rec} (h : ∀ r ∈ rs, r.Fits) : ∀ (fuel : Nat) {a : Attrs} {l : List (Str × Str)}, Rep a l →
    (text rs).length < fuel → ∃ a', addScan fuel (text rs) a = .ok a' ∧ Rep a' (fresh l rs) := by
  induction rs with
  | nil =>
    intro fuel a l hr hf
    obtain ⟨fuel, rfl⟩ : ∃ f, fuel = f + 1 := ⟨fuel - 1, by omega⟩
    refine ⟨a, ?_, by simpa [fresh, keysOf] using hr⟩
    rw [addScan]
    rfl
  | cons r rs ih =>
    intro fuel a l hr hf
    obtain ⟨fuel, rfl⟩ : ∃ f, fuel = f + 1 := ⟨fuel - 1, by omega⟩
    have hr0 := h r (by simp)
    obtain ⟨h1, h2, h3⟩ := line_ok hr0
    rw [text_cons] at hf ⊢
    simp only [List.length_append, List.length_cons] at hf
    have ih' := fun {a l} (hr : Rep a l) => ih (fun r hr => h r (by simp [hr])) fuel (a := a) (l := l) hr (by omega)
    rw [addScan, readline_eq h1 h2 h3, Outcome.bind_ok]
    dsimp only
    rw [line_toks hr0, Outcome.bind_ok]
    cases r with
    | pair k v =>
      obtain ⟨a1, e1, e2⟩ := addSee_pair hr k v
      obtain ⟨a2, e3, e4⟩ := ih' e2
      refine ⟨a2, ?_, ?_⟩
      · simp only [Rec.toks]
        rw [e1, Outcome.bind_ok, e3]
      · have : fresh (l.filter (·.1 ≠ k)) rs = fresh l (.pair k v :: rs) := by
          simp only [fresh, keysOf, List.filter_filter]
          congr 1
          funext p
          simp only [List.mem_cons, not_or, ne_eq, Bool.decide_and, decide_not]
          rw [Bool.and_comm]
        rw [← this]; exact e4
    | altcols n cs =>
      have : addSee a (chars "#altcols" :: n :: cs.map fun c => n ++ ' ' :: c) = .ok a := by
        unfold addSee
        rw [if_neg (by simp only [List.getElem?_cons_zero, Option.some.injEq]; decide)]
      simp only [Rec.toks, this, Outcome.bind_ok]
      exact ih' hr
    | altrow n cs =>
      have : addSee a (chars "#altrow" :: n :: cs.map Col.text) = .ok a := by
        unfold addSee
        rw [if_neg (by simp only [List.getElem?_cons_zero, Option.some.injEq]; decide)]
      simp only [Rec.toks, this, Outcome.bind_ok]
      exact ih' hr
    | note n =>
      simp only [Rec.toks]
      exact ih' hr

theorem putAttrs_text : ∀ (l : List (Str × Str)) {a : Attrs} (acc : Str), Rep a l → (∀ p ∈ l, (Rec.pair p.1 p.2).Fits) →
    putAttrs (l.length + 1) a acc = .ok (acc ++ text (recs l))
  | [], a, acc, hr, _ => by
    rw [putAttrs, if_neg (by simp [Attrs.size, hr.keys])]
    simp [recs, text]
  | (k, v) :: l, a, acc, hr, hf => by
    have hk : a.keys = k :: l.map (·.1) := hr.keys
    have hv : a.pairs k = some v := by rw [hr.pairs]; simp
    obtain ⟨a', h1, h2⟩ := step_ok hr (op := .popFront) rfl
    obtain ⟨b, h3, h4⟩ := Outcome.map_eq_ok.1 h1
    obtain rfl : b = a' := (Prod.mk.inj h4).2
    have hw := write_eq (hf (k, v) List.mem_cons_self)
    rw [Rec.write] at hw
    have hlk : a.lookup k = (v, a) := by simp [Attrs.lookup, hv]
    have hfr : a.front = .ok k := by simp [Attrs.front, hk]
    rw [putAttrs, if_pos (by simp [Attrs.size, hk]), hfr, Outcome.bind_ok, hlk]
    dsimp only
    rw [h3, Outcome.bind_ok, hw, Outcome.bind_ok, List.length_cons,
      putAttrs_text l _ h2 (fun p hp => hf p (List.mem_cons_of_mem _ hp))]
    simp [recs, text]

theorem copy_added {rs : List Rec} (h : ∀ r ∈ rs, r.Fits) : ∀ (fuel : Nat) (a : Attrs) (acc : Str),
    (text rs).length < fuel → copyLoop fuel (text rs) true a acc = .ok (acc ++ text rs) := by
  induction rs with
  | nil =>
    intro fuel a acc hf
    obtain ⟨fuel, rfl⟩ : ∃ f, fuel = f + 1 := ⟨fuel - 1, by omega⟩
    rw [copyLoop]
    simp [text, readline]
  | cons r rs ih =>
    intro fuel a acc hf
    obtain ⟨fuel, rfl⟩ : ∃ f, fuel = f + 1 := ⟨fuel - 1, by omega⟩
    have hr0 := h r (by simp)
    obtain ⟨h1, h2, h3⟩ := line_ok hr0
    rw [text_cons] at hf ⊢
    simp only [List.length_append, List.length_cons] at hf
    rw [copyLoop, readline_eq h1 h2 h3, Outcome.bind_ok]
    simp only [Bool.not_true, Bool.false_and, Bool.false_eq_true, if_false]
    rw [cstr_line hr0, ih (fun r hr => h r (by simp [hr])) fuel _ _ (by omega)]
    simp

theorem copy_text {rs : List Rec} (h : ∀ r ∈ rs, r.Fits) {a : Attrs} {l : List (Str × Str)} (hr : Rep a l)
    (hl : ∀ p ∈ l, (Rec.pair p.1 p.2).Fits) : ∀ (fuel : Nat) (acc : Str),
    (text rs).length < fuel → copyLoop fuel (text rs) false a acc = .ok (acc ++ text (insertPairs (recs l) rs)) := by
  induction rs with
  | nil =>
    intro fuel acc hf
    obtain ⟨fuel, rfl⟩ : ∃ f, fuel = f + 1 := ⟨fuel - 1, by omega⟩
    rw [copyLoop]
    simp [text, readline, insertPairs]
  | cons r rs ih =>
    intro fuel acc hf
    obtain ⟨fuel, rfl⟩ : ∃ f, fuel = f + 1 := ⟨fuel - 1, by omega⟩
    have hr0 := h r (by simp)
    obtain ⟨h1, h2, h3⟩ := line_ok hr0
    rw [text_cons] at hf ⊢
    simp only [List.length_append, List.length_cons] at hf
    rw [copyLoop, readline_eq h1 h2 h3, Outcome.bind_ok]
    dsimp only
    have hsz : a.size = l.length := by simp [Attrs.size, hr.keys]
    by_cases hp : ∃ k v, r = .pair k v
    · obtain ⟨k, v, rfl⟩ := hp
      rw [hasprefix_pair hr0, if_pos (by rfl), hsz, putAttrs_text l acc hr hl, Outcome.bind_ok, cstr_line hr0,
        copy_added (fun r hr => h r (by simp [hr])) fuel _ _ (by omega), insertPairs, text_append, text_cons]
      simp
    · have hp' : ∀ k v, r ≠ .pair k v := fun k v e => hp ⟨k, v, e⟩
      rw [hasprefix_other hr0 hp', if_neg (by decide), cstr_line hr0,
        ih (fun r hr => h r (by simp [hr])) fuel _ (by omega)]
      have : insertPairs (recs l) (r :: rs) = r :: insertPairs (recs l) rs := by
        cases r with
        | pair k v => exact absurd rfl (hp' k v)
        | _ => rfl
      rw [this, text_cons]
      simp

theorem insert_fits {l : List (Str × Str)} (hl : ∀ p ∈ l, (Rec.pair p.1 p.2).Fits) :
    ∀ {rs : List Rec}, (∀ r ∈ rs, r.Fits) → ∀ r ∈ insertPairs (recs l) rs, r.Fits
  | [], _ => by simp [insertPairs]
  | r :: rs, h => by
    have ih := insert_fits hl (rs := rs) fun r hr => h r (by simp [hr])
    have hr := h r (by simp)
    cases r with
    | pair k v =>
      intro r hm
      simp only [insertPairs, List.mem_append, recs, List.mem_map] at hm
      rcases hm with ⟨p, hp, rfl⟩ | hm
      · exact hl p hp
      · exact h r hm
    | _ =>
      intro r hm
      rcases List.mem_cons.1 hm with rfl | hm
      · exact hr
      · exact ih r hm

theorem insert_nil : ∀ rs : List Rec, insertPairs [] rs = rs
  | [] => rfl
  | .pair _ _ :: _ => rfl
  | .altcols _ _ :: rs => by rw [insertPairs, insert_nil rs]; simp
  | .altrow _ _ :: rs => by rw [insertPairs, insert_nil rs]; simp
  | .note _ :: rs => by rw [insertPairs, insert_nil rs]; simp

theorem insert_none (new : List Rec) : ∀ {rs : List Rec}, keysOf rs = [] → insertPairs new rs = rs
  | [], _ => rfl
  | .pair _ _ :: _, h => by simp [keysOf] at h
  | .altcols _ _ :: rs, h => by rw [insertPairs, insert_none new (rs := rs) h]; simp
  | .altrow _ _ :: rs, h => by rw [insertPairs, insert_none new (rs := rs) h]; simp
  | .note _ :: rs, h => by rw [insertPairs, insert_none new (rs := rs) h]; simp

theorem keysOf_append (rs ts : List Rec) : keysOf (rs ++ ts) = keysOf rs ++ keysOf ts := by
  induction rs with
  | nil => rfl
  | cons r rs ih => cases r <;> simp [keysOf, ih]

theorem keysOf_recs (l : List (Str × Str)) : keysOf (recs l) = l.map (·.1) := by
  induction l with
  | nil => rfl
  | cons p l ih => simp only [recs, List.map_cons, keysOf] at ih ⊢; rw [ih]

theorem keysOf_insert (l : List (Str × Str)) : ∀ {rs : List Rec}, keysOf rs ≠ [] →
    keysOf (insertPairs (recs l) rs) = l.map (·.1) ++ keysOf rs
  | [], h => absurd rfl h
  | .pair k v :: rs, _ => by rw [insertPairs, keysOf_append, keysOf_recs]
  | .altcols _ _ :: rs, h => by simpa [insertPairs, keysOf] using keysOf_insert l (rs := rs) h
  | .altrow _ _ :: rs, h => by simpa [insertPairs, keysOf] using keysOf_insert l (rs := rs) h
  | .note _ :: rs, h => by simpa [insertPairs, keysOf] using keysOf_insert l (rs := rs) h

theorem rep_fold (l : List (Str × Str)) : ∀ {a : Attrs} {m : List (Str × Str)}, Rep a m →
    Rep (l.foldl (fun a p => (a.pushBack p.1 p.2).2) a) (m ++ (firsts l).filter fun p => p.1 ∉ m.map (·.1)) := by
  induction l with
  | nil => intro a m h; simpa [firsts] using h
  | cons p l ih =>
    intro a m h
    rw [List.foldl_cons]
    by_cases hp : p.1 ∈ m.map (·.1)
    · obtain ⟨a', h1, h2⟩ := step_ok h (op := .pushBack p.1 p.2) (o := .bool false) (l' := m) (by simp only [spec, if_pos hp])
      simp only [exec, Outcome.ok.injEq, Prod.mk.injEq] at h1
      rw [h1.2]
      have := ih h2
      rw [firsts, List.filter_cons_of_neg (by simpa using hp), List.filter_filter]
      convert this using 2
      apply List.filter_congr
      intro q _
      by_cases hq : q.1 = p.1
      · simp only [hq, hp]; simp
      · simp [hq]
    · obtain ⟨a', h1, h2⟩ := step_ok h (op := .pushBack p.1 p.2) (o := .bool true) (l' := m ++ [(p.1, p.2)])
        (by simp only [spec, if_neg hp])
      simp only [exec, Outcome.ok.injEq, Prod.mk.injEq] at h1
      rw [h1.2]
      have := ih h2
      rw [firsts, List.filter_cons_of_pos (by simpa using hp), List.filter_filter]
      rw [List.append_assoc, List.singleton_append] at this
      convert this using 3
      apply List.filter_congr
      intro q _
      simp only [List.map_append, List.map_cons, List.map_nil, List.mem_append, List.mem_singleton, not_or, Bool.decide_and,
        ne_eq]

theorem rep_firsts (l : List (Str × Str)) : Rep (l.foldl (fun a p => (a.pushBack p.1 p.2).2) .empty) (firsts l) := by
  have := rep_fold l rep_empty
  simpa using this

theorem firsts_nil {l : List (Str × Str)} : firsts l = [] ↔ l = [] := by cases l <;> simp [firsts]

theorem mem_firsts {l : List (Str × Str)} {p : Str × Str} (h : p ∈ firsts l) : p ∈ l := by
  induction l with
  | nil => simp [firsts] at h
  | cons q l ih =>
    rw [firsts, List.mem_cons, List.mem_filter] at h
    rcases h with rfl | ⟨h, -⟩
    · simp
    · exact List.mem_cons_of_mem _ (ih h)

theorem key_firsts {l : List (Str × Str)} {k : Str} : k ∈ (firsts l).map (·.1) ↔ k ∈ l.map (·.1) := by
  induction l with
  | nil => rfl
  | cons q l ih =>
    rw [firsts, List.map_cons, List.map_cons, List.mem_cons, List.mem_cons, ← ih]
    simp only [List.mem_map, List.mem_filter, decide_eq_true_eq, ne_eq]
    constructor
    · rintro (h | ⟨p, ⟨h1, -⟩, h2⟩)
      · exact .inl h
      · exact .inr ⟨p, h1, h2⟩
    · rintro (h | ⟨p, h1, h2⟩)
      · exact .inl h
      · by_cases e : p.1 = q.1
        · exact .inl (by rw [← h2, e])
        · exact .inr ⟨p, ⟨h1, e⟩, h2⟩

/-! ## addattrs -/

/-- **C110.** For a file of records and attributes that are not in the file and can be written, the program writes exactly the
same records with the new attributes, in their order, before the first pair; of two attributes with the same key the first one counts, and
attributes whose keys are in the file are left out. -/
theorem c110_add {l : List (Str × Str)} {rs : List Rec} {f : Str} (hk : ∀ p ∈ l, p.1 ≠ [] ∧ '=' ∉ p.1)
    (hl : ∀ p ∈ fresh (firsts l) rs, (Rec.pair p.1 p.2).Fits) (hr : ∀ r ∈ rs, r.Fits) (hf : writeAll rs = .ok f) :
    ∃ f', addattrs (args l) f = .ok f' ∧ writeAll (insertPairs (recs (fresh (firsts l) rs)) rs) = .ok f' ∧
      dfread f' = .ok ((insertPairs (recs (fresh (firsts l) rs)) rs).filterMap Rec.toks) := by
  have hfit := insert_fits hl hr
  obtain ⟨f', h1, h2⟩ := c26_roundtrip_partial hfit
  refine ⟨f', ?_, h1, h2⟩
  rw [writeAll_text hfit] at h1
  rw [writeAll_text hr] at hf
  cases hf
  cases h1
  unfold addattrs args
  rw [c28_args hk, Outcome.bind_ok]
  have hrep := rep_firsts l
  split
  · rename_i h0
    have : firsts l = [] := by simpa [Attrs.size, hrep.keys] using h0
    simp [this, fresh, recs, insert_nil]
  · obtain ⟨a, h3, h4⟩ := addScan_text hr ((text rs).length + 1) hrep (by omega)
    rw [h3, Outcome.bind_ok, copy_text hr h4 hl _ _ (by omega)]
    rfl

/-- **C110.** If the file has a pair then every key of the command line is in the new file, keys that were there keep what they
had, and no key is there twice unless it was before. -/
theorem c110_keys {l : List (Str × Str)} {rs : List Rec} (hp : keysOf rs ≠ []) :
    (∀ k, k ∈ keysOf (insertPairs (recs (fresh (firsts l) rs)) rs) ↔ k ∈ l.map (·.1) ∨ k ∈ keysOf rs) ∧
    rs.Sublist (insertPairs (recs (fresh (firsts l) rs)) rs) ∧
    ((keysOf rs).Nodup → (keysOf (insertPairs (recs (fresh (firsts l) rs)) rs)).Nodup) := by
  rw [keysOf_insert _ hp]
  refine ⟨fun k => ?_, ?_, fun hn => ?_⟩
  · rw [List.mem_append, ← key_firsts (l := l)]
    simp only [fresh, List.mem_map, List.mem_filter, decide_eq_true_eq]
    constructor
    · rintro (⟨p, ⟨h1, -⟩, h2⟩ | h)
      · exact .inl ⟨p, h1, h2⟩
      · exact .inr h
    · rintro (⟨p, h1, h2⟩ | h)
      · by_cases h : p.1 ∈ keysOf rs
        · exact .inr (h2 ▸ h)
        · exact .inl ⟨p, ⟨h1, h⟩, h2⟩
      · exact .inr h
  · generalize recs _ = new
    clear hp
    induction rs with
    | nil => exact .slnil
    | cons r rs ih =>
      cases r with
      | pair k v => exact List.sublist_append_right _ _
      | _ => exact ih.cons₂ _
  · rw [List.nodup_append]
    refine ⟨?_, hn, ?_⟩
    · exact ((rep_firsts l).nodup).sublist ((List.filter_sublist).map _)
    · rintro a ha b hb rfl
      obtain ⟨p, h1, h2⟩ := List.mem_map.1 ha
      have := (List.mem_filter.1 h1).2
      simp only [decide_eq_true_eq] at this
      exact this (h2 ▸ hb)

/-- **C110.** Doing it again changes nothing. -/
theorem c110_twice {l : List (Str × Str)} {rs : List Rec} {f : Str} (hk : ∀ p ∈ l, p.1 ≠ [] ∧ '=' ∉ p.1)
    (hl : ∀ p ∈ fresh (firsts l) rs, (Rec.pair p.1 p.2).Fits) (hr : ∀ r ∈ rs, r.Fits) (hf : writeAll rs = .ok f) :
    ∃ f', addattrs (args l) f = .ok f' ∧ addattrs (args l) f' = .ok f' := by
  obtain ⟨f', h1, h2, -⟩ := c110_add hk hl hr hf
  refine ⟨f', h1, ?_⟩
  by_cases hp : keysOf rs = []
  · rw [insert_none _ hp, hf] at h2
    cases h2
    exact h1
  · have he : fresh (firsts l) (insertPairs (recs (fresh (firsts l) rs)) rs) = [] := by
      rw [fresh, List.filter_eq_nil_iff]
      intro p hm
      have := ((c110_keys (l := l) hp).1 p.1).2 (.inl (List.mem_map.2 ⟨p, mem_firsts hm, rfl⟩))
      simpa using this
    obtain ⟨f2, h3, h4, -⟩ := c110_add (rs := insertPairs (recs (fresh (firsts l) rs)) rs) hk
      (by rw [he]; simp) (insert_fits hl hr) h2
    rw [he] at h4
    simp only [recs, List.map_nil, insert_nil] at h4
    simp only [recs] at h2
    rw [h2] at h4
    cases h4
    exact h3

/-- **C110, violation.** If the file has no pair then the attributes are lost without a word: the file stays as it is. -/
theorem c110_lost {l : List (Str × Str)} {rs : List Rec} {f : Str} (hk : ∀ p ∈ l, p.1 ≠ [] ∧ '=' ∉ p.1)
    (hl : ∀ p ∈ l, (Rec.pair p.1 p.2).Fits) (hr : ∀ r ∈ rs, r.Fits) (hf : writeAll rs = .ok f) (hp : keysOf rs = []) :
    addattrs (args l) f = .ok f := by
  obtain ⟨f', h1, h2, -⟩ := c110_add hk (fun p hm => hl p (mem_firsts (List.mem_of_mem_filter hm))) hr hf
  rw [insert_none _ hp, hf] at h2
  cases h2
  exact h1

/-- The hypotheses hold for a file with a comment and two pairs, one of them with a key that is given again. -/
example : ∃ f f', writeAll [.note (chars "#start data file format 4"), .pair ['a'] ['1'], .pair ['b'] ['2']] = .ok f ∧
    addattrs [chars "c=3", chars "a=7", chars "c=5", chars "d="] f = .ok f' ∧
    f' = chars "#start data file format 4\n#pair  \"c\"\t\"3\"\n#pair  \"d\"\t\"\"\n#pair  \"a\"\t\"1\"\n#pair  \"b\"\t\"2\"\n" :=
  ⟨_, _, rfl, by decide +kernel, rfl⟩

/-- **C110, violation.** With a blank line in the file the program is undefined. -/
theorem c110_blank : addattrs [chars "c=3"] (chars "#pair  \"a\"\t\"1\"\n\n") = .ub := by decide +kernel

/-- **C110, violation.** With a pair without key the program is undefined. -/
theorem c110_nokey : addattrs [chars "c=3"] (chars "#pair\n") = .ub := by decide +kernel

/-- **C110, violation.** A value of the length where the text of the pair has 256 bytes loses its last character. -/
theorem c110_cut_value : (addattrs [chars "k=" ++ List.replicate 244 'v'] (chars "#pair  \"a\"\t\"1\"\n")).bind dfread =
    .ok [[chars "#pair", ['k'], List.replicate 243 'v'], [chars "#pair", ['a'], ['1']]] := by
  decide +kernel

/-- **C110, violation.** A quote in a value ends the value. -/
theorem c110_quote : (addattrs [chars "k=x\"y"] (chars "#pair  \"a\"\t\"1\"\n")).bind dfread =
    .ok [[chars "#pair", ['k'], ['x'], chars "y\""], [chars "#pair", ['a'], ['1']]] := by
  decide +kernel

/-- **C110, violation.** A line end in a value makes a file that could be read into one that cannot be read any more. -/
theorem c110_newline : dfread (chars "#pair  \"a\"\t\"1\"\n") = .ok [[chars "#pair", ['a'], ['1']]] ∧
    (addattrs [chars "k=x\ny"] (chars "#pair  \"a\"\t\"1\"\n")).bind dfread = .fatal := by
  constructor <;> decide +kernel

/-- **C110, violation.** A null character in a comment joins the comment with the next line: a pair of the file is lost. -/
theorem c110_nul : dfread (chars "#pair \"a\" \"1\"\n#x" ++ nul :: chars "y\n#pair \"b\" \"2\"\n") =
      .ok [[chars "#pair", ['a'], ['1']], [chars "#pair", ['b'], ['2']]] ∧
    (addattrs [chars "k=v"] (chars "#pair \"a\" \"1\"\n#x" ++ nul :: chars "y\n#pair \"b\" \"2\"\n")).bind dfread =
      .ok [[chars "#pair", ['k'], ['v']], [chars "#pair", ['a'], ['1']]] := by
  constructor <;> decide +kernel

/-! ## dfcmplt -/

/-- The first line of a data file. -/
def starting : Str := chars "#start data file format 4"

/-- The last line of a data file. -/
def ending : Str := chars "#end data file format 4"

/-- A line of a file. -/
def Line (l : Str) : Prop := l ≠ [] ∧ ∀ c ∈ l, c ≠ '\n'

theorem readline_strip {l f : Str} (h : Line l) : readline (l ++ '\n' :: f) = .ok (some (strip l, f)) := by
  unfold readline
  have e1 : (l ++ '\n' :: f).takeWhile (· ≠ '\n') = l := by
    rw [List.takeWhile_append_of_pos (by simpa using h.2)]; simp
  have e2 : (l ++ '\n' :: f).dropWhile (· ≠ '\n') = '\n' :: f := by
    rw [List.dropWhile_append_of_pos (by simpa using h.2)]; simp
  dsimp only
  rw [e1, e2, if_neg (by simp)]
  cases hl : l.getLast? with
  | none => exact absurd (List.getLast?_eq_none_iff.1 hl) h.1
  | some c =>
    have hc : c ≠ '\n' := h.2 c (List.mem_of_getLast? hl)
    simp only [if_neg hc, hl, strip, Option.some.injEq, List.tail_cons]

theorem readline_tail {l : Str} (h : Line l) : readline l = .ok (some (strip l, [])) := by
  unfold readline
  have e1 : l.takeWhile (· ≠ '\n') = l := by
    rw [List.takeWhile_eq_self_iff]; simpa using h.2
  have e2 : l.dropWhile (· ≠ '\n') = [] := by
    rw [List.dropWhile_eq_nil_iff]; simpa using h.2
  dsimp only
  rw [e1, e2, if_neg (by simp [h.1])]
  cases hl : l.getLast? with
  | none => exact absurd (List.getLast?_eq_none_iff.1 hl) h.1
  | some c =>
    have hc : c ≠ '\n' := h.2 c (List.mem_of_getLast? hl)
    simp only [if_neg hc, hl, strip, Option.some.injEq, List.tail_nil]

theorem readline_nil : readline [] = .ok none := rfl

theorem readline_blank (f : Str) : readline ('\n' :: f) = .ub := by
  unfold readline
  simp

theorem file_cons (l : Str) (ls : List Str) (tail : Str) : file (l :: ls) tail = l ++ '\n' :: file ls tail := by
  simp [file]

theorem seen_cons (l : Str) (ls : List Str) (tail : Str) : seen (l :: ls) tail = l :: seen ls tail := by
  unfold seen; split <;> simp

theorem lastLine_file {tail : Str} (ht : ∀ c ∈ tail, c ≠ '\n') {ls : List Str} (h : ∀ l ∈ ls, Line l) :
    ∀ (fuel : Nat) (prev : Str), (file ls tail).length < fuel →
      lastLine fuel (file ls tail) prev = .ok (((seen ls tail).map strip).getLast?.getD prev) := by
  induction ls with
  | nil =>
    intro fuel prev hf
    obtain ⟨fuel, rfl⟩ : ∃ f, fuel = f + 1 := ⟨fuel - 1, by omega⟩
    rw [lastLine]
    by_cases h0 : tail = []
    · subst h0; rfl
    · have hl : 0 < tail.length := List.length_pos_iff.2 h0
      obtain ⟨fuel, rfl⟩ : ∃ f, fuel = f + 1 := ⟨fuel - 1, by simp [file] at hf; omega⟩
      have : file [] tail = tail := rfl
      rw [this, readline_tail ⟨h0, ht⟩, Outcome.bind_ok]
      dsimp only
      rw [lastLine, readline_nil, Outcome.bind_ok]
      simp [seen, h0]
  | cons l ls ih =>
    intro fuel prev hf
    obtain ⟨fuel, rfl⟩ : ∃ f, fuel = f + 1 := ⟨fuel - 1, by omega⟩
    rw [file_cons] at hf ⊢
    simp only [List.length_append, List.length_cons] at hf
    rw [lastLine, readline_strip (h l (by simp)), Outcome.bind_ok]
    dsimp only
    rw [ih (fun l hl => h l (by simp [hl])) fuel _ (by omega), seen_cons, List.map_cons, List.getLast?_cons]
    rfl

theorem lastLine_blank (rest : Str) {ls : List Str} (h : ∀ l ∈ ls, Line l) : ∀ (fuel : Nat) (prev : Str),
    (file ls ('\n' :: rest)).length < fuel → lastLine fuel (file ls ('\n' :: rest)) prev = .ub := by
  induction ls with
  | nil =>
    intro fuel prev hf
    obtain ⟨fuel, rfl⟩ : ∃ f, fuel = f + 1 := ⟨fuel - 1, by omega⟩
    have : file [] ('\n' :: rest) = '\n' :: rest := rfl
    rw [lastLine, this, readline_blank]
    rfl
  | cons l ls ih =>
    intro fuel prev hf
    obtain ⟨fuel, rfl⟩ : ∃ f, fuel = f + 1 := ⟨fuel - 1, by omega⟩
    rw [file_cons] at hf ⊢
    simp only [List.length_append, List.length_cons] at hf
    rw [lastLine, readline_strip (h l (by simp)), Outcome.bind_ok]
    exact ih (fun l hl => h l (by simp [hl])) fuel _ (by omega)

theorem start4_iff {l : Str} : l ++ ['\n'] = start4 ↔ l = starting := by
  have : start4 = starting ++ ['\n'] := by decide
  rw [this, List.append_left_inj]

theorem end4_iff {l : Str} : l ++ ['\n'] = end4 ↔ l = ending := by
  have : end4 = ending ++ ['\n'] := by decide
  rw [this, List.append_left_inj]

/-- **C110.** For every file without blank lines, with or without an end of the last line: the program reports a complete file iff
the first line is the one of `dfheader` and the last line is the one of `dffooter`. -/
theorem c110_complete {ls : List Str} {tail : Str} (h : ∀ l ∈ ls, Line l) (ht : ∀ c ∈ tail, c ≠ '\n') :
    dfcmplt (file ls tail) = .ok (decide (((seen ls tail).map strip).head? = some starting ∧
      ((seen ls tail).map strip).getLast? = some ending)) := by
  have hne : starting ++ ['\n'] ≠ ending := by decide
  have hne' : starting ≠ ending := by decide
  unfold dfcmplt
  cases ls with
  | nil =>
    have e : file [] tail = tail := rfl
    rw [e]
    by_cases h0 : tail = []
    · subst h0; rfl
    · rw [readline_tail ⟨h0, ht⟩, Outcome.bind_ok]
      dsimp only
      have e2 : (seen [] tail).map strip = [strip tail] := by simp [seen, h0]
      rw [e2]
      simp only [List.head?_cons, List.getLast?_singleton, Option.some.injEq]
      split
      · rename_i hs
        rw [ne_eq, start4_iff] at hs
        simp [hs]
      · rename_i hs
        rw [ne_eq, start4_iff, not_not] at hs
        have : lastLine (tail.length + 1) [] (strip tail ++ ['\n']) = .ok (strip tail ++ ['\n']) := by
          rw [lastLine, readline_nil]; rfl
        rw [this, Outcome.map_ok]
        simp only [end4_iff, hs, hne, hne', and_false]
  | cons l ls =>
    rw [file_cons, readline_strip (h l (by simp)), Outcome.bind_ok]
    dsimp only
    rw [seen_cons, List.map_cons, List.head?_cons, List.getLast?_cons]
    split
    · rename_i hs
      rw [ne_eq, start4_iff] at hs
      simp [hs]
    · rename_i hs
      rw [ne_eq, start4_iff, not_not] at hs
      rw [lastLine_file ht (fun l hl => h l (by simp [hl])) _ _ (by simp; omega), Outcome.map_ok]
      simp only [end4_iff, hs, true_and, Option.some.injEq]
      cases ((seen ls tail).map strip).getLast? with
      | none => simp [hne, hne']
      | some x => simp

/-- **C110, violation.** A data file that starts right and has a blank line, or that begins with a blank line: undefined. -/
theorem c110_blank_line {ls : List Str} (h : ∀ l ∈ ls, Line l) (hs : ∀ l ∈ ls.head?, strip l = starting) (rest : Str) :
    dfcmplt (file ls ('\n' :: rest)) = .ub := by
  unfold dfcmplt
  cases ls with
  | nil =>
    have : file [] ('\n' :: rest) = '\n' :: rest := rfl
    rw [this, readline_blank]; rfl
  | cons l ls =>
    rw [file_cons, readline_strip (h l (by simp)), Outcome.bind_ok]
    dsimp only
    rw [if_neg (by rw [ne_eq, start4_iff, not_not]; exact hs l (by simp)),
      lastLine_blank rest (fun l hl => h l (by simp [hl])) _ _ (by simp; omega)]
    rfl

/-- **C110.** A file with another first line is not complete, whatever follows. -/
theorem c110_other {l : Str} (h : Line l) (hs : strip l ≠ starting) (rest : Str) :
    dfcmplt (l ++ '\n' :: rest) = .ok false := by
  unfold dfcmplt
  rw [readline_strip h, Outcome.bind_ok]
  dsimp only
  rw [if_pos (by rw [ne_eq, start4_iff]; exact hs)]

theorem prefix_file {ls : List Str} : ∀ {g : Str}, g <+: file ls [] → (∀ l ∈ ls, Line l) →
    ∃ ls1 tail, g = file ls1 tail ∧ (∀ c ∈ tail, c ≠ '\n') ∧
      ((ls1 = ls ∧ tail = []) ∨ ∃ m ls2, ls = ls1 ++ m :: ls2 ∧ tail <+: m) := by
  induction ls with
  | nil =>
    intro g hg _
    have : g = [] := by simpa [file] using hg
    exact ⟨[], [], by simp [this, file], by simp, .inl ⟨rfl, rfl⟩⟩
  | cons l ls ih =>
    intro g hg h
    rw [file_cons] at hg
    have hl := h l (by simp)
    rcases List.prefix_or_prefix_of_prefix hg (List.prefix_append l _) with h1 | ⟨g', rfl⟩
    · refine ⟨[], g, rfl, fun c hc => hl.2 c (h1.mem hc), .inr ⟨l, ls, rfl, h1⟩⟩
    · rw [List.prefix_append_right_inj] at hg
      rcases List.prefix_cons_iff.1 hg with rfl | ⟨g'', rfl, h2⟩
      · exact ⟨[], l ++ [], rfl, fun c hc => hl.2 c (by simpa using hc), .inr ⟨l, ls, rfl, by simp⟩⟩
      · obtain ⟨ls1, tail, e1, e2, e3⟩ := ih h2 fun l hl => h l (by simp [hl])
        refine ⟨l :: ls1, tail, by rw [file_cons, e1], e2, ?_⟩
        rcases e3 with ⟨rfl, rfl⟩ | ⟨m, ls2, rfl, h3⟩
        · exact .inl ⟨rfl, rfl⟩
        · exact .inr ⟨m, ls2, rfl, h3⟩

/-- **C110.** A complete file that is cut off at any place is not reported as complete, unless only the end of the last line is
missing; nothing is undefined. -/
theorem c110_cut {ls : List Str} (h : ∀ l ∈ ls, Line l) (he : ∀ l ∈ ls, ¬ ending <+: l) {g : Str}
    (hg : g <+: file (starting :: ls ++ [ending]) []) :
    (∃ b, dfcmplt g = .ok b) ∧
    (dfcmplt g = .ok true ↔ g = file (starting :: ls ++ [ending]) [] ∨ g = file (starting :: ls) ending) := by
  have hls : Line starting := by constructor <;> decide
  have hle : Line ending := by constructor <;> decide
  have hss : strip starting = starting := by decide
  have hse : strip ending = ending := by decide
  have hne : ¬ ending <+: starting := by decide
  have hall : ∀ l ∈ starting :: ls ++ [ending], Line l := by
    intro l hl
    simp only [List.cons_append, List.mem_cons, List.mem_append, List.not_mem_nil, or_false] at hl
    rcases hl with rfl | hl | rfl
    · exact hls
    · exact h l hl
    · exact hle
  have hstrip : ∀ l : Str, strip l <+: l := by
    intro l
    unfold strip
    split
    · exact List.dropLast_prefix l
    · exact List.prefix_refl l
  obtain ⟨ls1, tail, rfl, h1, h2⟩ := prefix_file hg hall
  have hl1 : ∀ l ∈ ls1, Line l := by
    intro l hl
    rcases h2 with ⟨rfl, -⟩ | ⟨m, ls2, e, -⟩
    · exact hall l hl
    · exact hall l (by rw [e]; simp [hl])
  rw [c110_complete hl1 h1]
  refine ⟨⟨_, rfl⟩, ?_⟩
  rw [Outcome.ok.injEq, decide_eq_true_eq]
  constructor
  · rintro ⟨-, e⟩
    rcases h2 with ⟨rfl, rfl⟩ | ⟨m, ls2, e1, e2⟩
    · exact .inl rfl
    · -- what is the last line that is seen?
      have hinner : ∀ l ∈ starting :: ls, ¬ ending <+: l := by
        intro l hl
        rcases List.mem_cons.1 hl with rfl | hl
        · exact hne
        · exact he l hl
      rcases List.eq_nil_or_concat ls2 with rfl | ⟨ls3, z, rfl⟩
      · obtain ⟨e3, e4⟩ := List.append_inj' e1 rfl
        obtain rfl : ending = m := by simpa using e4
        subst e3
        by_cases h0 : tail = []
        · subst h0
          exfalso
          simp only [seen, if_true] at e
          rw [List.getLast?_map, Option.map_eq_some_iff] at e
          obtain ⟨x, hx, e⟩ := e
          exact hinner x (List.mem_of_getLast? hx) (e ▸ hstrip x)
        · right
          rw [seen, if_neg h0, List.map_append, List.map_singleton, List.getLast?_concat, Option.some.injEq] at e
          have h3 : ending <+: tail := e ▸ hstrip tail
          rw [List.IsPrefix.eq_of_length_le e2 h3.length_le]
      · exfalso
        have e1' : (starting :: ls) ++ [ending] = (ls1 ++ m :: ls3) ++ [z] := by rw [e1]; simp
        have e3 := (List.append_inj' e1' rfl).1
        by_cases h0 : tail = []
        · subst h0
          simp only [seen, if_true] at e
          rw [List.getLast?_map, Option.map_eq_some_iff] at e
          obtain ⟨x, hx, e⟩ := e
          exact hinner x (by rw [e3]; simp [List.mem_of_getLast? hx]) (e ▸ hstrip x)
        · rw [seen, if_neg h0, List.map_append, List.map_singleton, List.getLast?_concat, Option.some.injEq] at e
          exact hinner m (by rw [e3]; simp) ((e ▸ hstrip tail).trans e2)
  · intro e
    rw [← decide_eq_true_eq (p := _ ∧ _), ← Outcome.ok.injEq, ← c110_complete hl1 h1]
    rcases e with e | e
    · rw [e, c110_complete hall (by simp), Outcome.ok.injEq, decide_eq_true_eq]
      have : seen (starting :: ls ++ [ending]) [] = starting :: ls ++ [ending] := by simp [seen]
      rw [this, List.map_append, List.map_singleton, List.getLast?_concat, hse]
      exact ⟨by simp [hss], rfl⟩
    · rw [e, c110_complete (fun l hl => hall l (List.mem_append_left _ hl)) hle.2, Outcome.ok.injEq, decide_eq_true_eq]
      have : seen (starting :: ls) ending = starting :: ls ++ [ending] := by rw [seen, if_neg hle.1]
      rw [this, List.map_append, List.map_singleton, List.getLast?_concat, hse]
      exact ⟨by simp [hss], rfl⟩

/-- The hypotheses hold for a small data file. -/
example : (∀ l ∈ [chars "#pair  \"a\"\t\"1\"", chars "#altrow  \"x\"\t1"], Line l ∧ ¬ ending <+: l) := by
  unfold Line; decide

/-- The file without its last character is accepted, without the last two it is not. -/
example : dfcmplt (start4 ++ chars "#pair  \"a\"\t\"1\"\n" ++ end4) = .ok true ∧
    dfcmplt (start4 ++ chars "#pair  \"a\"\t\"1\"\n" ++ end4).dropLast = .ok true ∧
    dfcmplt (start4 ++ chars "#pair  \"a\"\t\"1\"\n" ++ end4).dropLast.dropLast = .ok false := by decide +kernel

/-- **C110.** What the writers make between the two comments is complete, and stays complete when attributes are added. -/
theorem c110_add_complete {l : List (Str × Str)} {rs : List Rec} {f : Str} (hk : ∀ p ∈ l, p.1 ≠ [] ∧ '=' ∉ p.1)
    (hl : ∀ p ∈ fresh (firsts l) rs, (Rec.pair p.1 p.2).Fits) (hr : ∀ r ∈ rs, r.Fits)
    (hf : writeAll (.note starting :: rs ++ [.note ending]) = .ok f) :
    dfcmplt f = .ok true ∧ ∃ f', addattrs (args l) f = .ok f' ∧ dfcmplt f' = .ok true := by
  have hfs : (Rec.note starting).Fits := by
    refine ⟨?_, ?_, ?_, ?_, ?_, ?_⟩ <;> decide
  have hfe : (Rec.note ending).Fits := by
    refine ⟨?_, ?_, ?_, ?_, ?_, ?_⟩ <;> decide
  have key : ∀ ts : List Rec, (∀ r ∈ ts, r.Fits) → dfcmplt (text (.note starting :: ts ++ [.note ending])) = .ok true := by
    intro ts ht
    have e : text (.note starting :: ts ++ [.note ending]) = file (starting :: ts.map Rec.line ++ [ending]) [] := by
      simp [text, file, List.flatMap_map, Rec.line]
    rw [e, c110_complete ?_ (by simp), Outcome.ok.injEq, decide_eq_true_eq]
    · have : seen (starting :: ts.map Rec.line ++ [ending]) [] = starting :: ts.map Rec.line ++ [ending] := by simp [seen]
      rw [this, List.map_append, List.map_singleton, List.getLast?_concat]
      have hss : strip starting = starting := by decide
      exact ⟨by simp [hss], by decide⟩
    · intro l hl
      simp only [List.cons_append, List.mem_cons, List.mem_append, List.not_mem_nil, or_false, List.mem_map] at hl
      rcases hl with rfl | ⟨r, h1, rfl⟩ | rfl
      · constructor <;> decide
      · exact ⟨(line_ok (ht r h1)).1, (line_ok (ht r h1)).2.1⟩
      · constructor <;> decide
  have hall : ∀ r ∈ Rec.note starting :: rs ++ [.note ending], r.Fits := by
    intro r hm
    simp only [List.cons_append, List.mem_cons, List.mem_append, List.not_mem_nil, or_false] at hm
    rcases hm with rfl | hm | rfl
    · exact hfs
    · exact hr r hm
    · exact hfe
  have hkeys : keysOf (.note starting :: rs ++ [.note ending]) = keysOf rs := by
    rw [keysOf_append]; simp [keysOf]
  have hfresh : fresh (firsts l) (.note starting :: rs ++ [.note ending]) = fresh (firsts l) rs := by
    unfold fresh; rw [hkeys]
  have hins : ∀ new, insertPairs new (.note starting :: rs ++ [.note ending]) =
      .note starting :: insertPairs new rs ++ [.note ending] := by
    intro new
    have : ∀ ts : List Rec, insertPairs new (ts ++ [.note ending]) = insertPairs new ts ++ [.note ending] := by
      intro ts
      induction ts with
      | nil => rfl
      | cons r ts ih => cases r <;> simp [insertPairs, ih]
    simp [insertPairs, this]
  obtain ⟨f', h1, h2, -⟩ := c110_add hk (by rw [hfresh]; exact hl) hall hf
  rw [hfresh, hins] at h2
  rw [writeAll_text hall] at hf
  cases hf
  refine ⟨key rs hr, f', h1, ?_⟩
  rw [writeAll_text] at h2
  · cases h2
    exact key _ (insert_fits hl hr)
  · intro r hm
    simp only [List.cons_append, List.mem_cons, List.mem_append, List.not_mem_nil, or_false] at hm
    rcases hm with rfl | hm | rfl
    · exact hfs
    · exact insert_fits hl hr r hm
    · exact hfe

end Verif.DfTools
