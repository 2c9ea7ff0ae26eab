import Verif.Search.BestWt

/-!
# C118: the weight with the best mean utility
-/

namespace Verif.BestWt

open Verif

variable {K : Type} {num : String → Option (Option K)}

/-! ## What is read from a file -/

/-- The field after a line, or after lines: as before if there is no pair with the key, or else its value. -/
def Fld (num : String → Option (Option K)) (x x' : Option K) : Option String → Prop
  | none => x' = x
  | some v => num v = some x'

theorem value_ok {vs : List String} {set : Option K → Fields K} {f : Fields K} (h : value num vs set = .ok f) :
    ∃ v vs' x, vs = v :: vs' ∧ num v = some x ∧ f = set x := by
  unfold value at h
  cases vs with
  | nil => cases h
  | cons v vs' =>
    dsimp only at h
    cases e : num v with
    | none => rw [e] at h; cases h
    | some x =>
      rw [e] at h
      cases h
      exact ⟨v, vs', x, rfl, e, rfl⟩

theorem line_ok {f f' : Fields K} {l : List String} (h : line num f l = .ok f') :
    Fld num f.weight f'.weight (pairOf "weight" l) ∧ Fld num f.cost f'.cost (pairOf "final sol cost" l) ∧
      Fld num f.time f'.time (pairOf "total wall time" l) := by
  unfold line at h
  cases l with
  | nil => cases h
  | cons p ws =>
    dsimp only at h
    by_cases hp : p = "#pair"
    · rw [if_neg (by simp [hp])] at h
      cases ws with
      | nil => cases h
      | cons k vs =>
        dsimp only at h
        by_cases h1 : k = "weight"
        · rw [if_pos h1] at h
          obtain ⟨v, vs', x, rfl, e, rfl⟩ := value_ok h
          simp [pairOf, hp, h1, Fld, e]
        · rw [if_neg h1] at h
          by_cases h2 : k = "final sol cost"
          · rw [if_pos h2] at h
            obtain ⟨v, vs', x, rfl, e, rfl⟩ := value_ok h
            simp [pairOf, hp, h2, Fld, e]
          · rw [if_neg h2] at h
            by_cases h3 : k = "total wall time"
            · rw [if_pos h3] at h
              obtain ⟨v, vs', x, rfl, e, rfl⟩ := value_ok h
              simp [pairOf, hp, h3, Fld, e]
            · rw [if_neg h3] at h
              cases h
              cases vs <;> simp [pairOf, h1, h2, h3, Fld]
    · rw [if_pos hp] at h
      cases h
      have : ∀ key, pairOf key (p :: ws) = none := by
        intro key
        match ws with
        | [] | [_] => rfl
        | _ :: _ :: _ => simp [pairOf, hp]
      simp [this, Fld]

theorem fld_trans {x y z : Option K} {key : String} {l : List String} {ls : List (List String)} (h1 : Fld num x y (pairOf key l))
    (h2 : Fld num y z (lastPair key ls)) : Fld num x z (lastPair key (l :: ls)) := by
  rw [lastPair]
  cases e : lastPair key ls with
  | some v => rw [e] at h2; exact h2
  | none =>
    rw [e] at h2
    have : z = y := h2
    subst this
    exact h1

theorem lines_ok : ∀ {ls : List (List String)} {f f' : Fields K}, lines num f ls = .ok f' →
    Fld num f.weight f'.weight (lastPair "weight" ls) ∧ Fld num f.cost f'.cost (lastPair "final sol cost" ls) ∧
      Fld num f.time f'.time (lastPair "total wall time" ls)
  | [], f, f', h => by cases h; exact ⟨rfl, rfl, rfl⟩
  | l :: ls, f, f', h => by
    rw [lines, Outcome.bind_eq_ok] at h
    obtain ⟨f1, h1, h2⟩ := h
    have a := line_ok h1
    have b := lines_ok h2
    exact ⟨fld_trans a.1 b.1, fld_trans a.2.1 b.2.1, fld_trans a.2.2 b.2.2⟩

theorem fld_some {x : K} {o : Option String} (h : Fld num none (some x) o) : ∃ s, o = some s ∧ num s = some (some x) := by
  cases o with
  | none => cases (show some x = none from h)
  | some s => exact ⟨s, rfl, h⟩

section
variable [Field K] [LinearOrder K]

/-- **C118.**  What is taken from a file is the value of the last pair with each key. -/
theorem c118_file {ls : List (List String)} {w c t : K} (h : file num ls = .ok (w, c, t)) (wf wt : K) :
    Says num wf wt ls (w, wf * c + wt * t) := by
  unfold file at h
  rw [Outcome.bind_eq_ok] at h
  obtain ⟨f, h1, h2⟩ := h
  obtain ⟨a, b, d⟩ := lines_ok h1
  cases e1 : f.weight with
  | none => rw [e1] at h2; cases h2
  | some w' =>
    cases e2 : f.cost with
    | none => rw [e1, e2] at h2; cases h2
    | some c' =>
      cases e3 : f.time with
      | none => rw [e1, e2, e3] at h2; cases h2
      | some t' =>
        rw [e1, e2, e3] at h2
        cases h2
        rw [e1] at a; rw [e2] at b; rw [e3] at d
        obtain ⟨sw, p1, q1⟩ := fld_some a
        obtain ⟨sc, p2, q2⟩ := fld_some b
        obtain ⟨st, p3, q3⟩ := fld_some d
        exact ⟨sw, sc, st, c, t, p1, p2, p3, q1, q2, q3, rfl⟩

theorem line_fine {f : Fields K} {l : List String} (h : Fine num l) : ∃ f', line num f l = .ok f' := by
  cases l with
  | nil => exact h.elim
  | cons p ws =>
    unfold line
    dsimp only
    by_cases hp : p = "#pair"
    · rw [if_neg (by simp [hp])]
      obtain ⟨k, vs, rfl, hk⟩ := h hp
      dsimp only
      have val : ∀ set : Option K → Fields K, (∃ v vs', vs = v :: vs' ∧ num v ≠ none) → ∃ f', value num vs set = .ok f' := by
        rintro set ⟨v, vs', rfl, hv⟩
        obtain ⟨x, e⟩ := Option.ne_none_iff_exists'.1 hv
        exact ⟨set x, by simp [value, e]⟩
      split
      · rename_i e; exact val _ (hk (Or.inl e))
      · split
        · rename_i e; exact val _ (hk (Or.inr (Or.inl e)))
        · split
          · rename_i e; exact val _ (hk (Or.inr (Or.inr e)))
          · exact ⟨f, rfl⟩
    · exact ⟨f, if_pos hp⟩

theorem lines_fine : ∀ {ls : List (List String)} (f : Fields K), (∀ l ∈ ls, Fine num l) → ∃ f', lines num f ls = .ok f'
  | [], f, _ => ⟨f, rfl⟩
  | l :: ls, f, h => by
    obtain ⟨f1, e1⟩ := line_fine (f := f) (h l (by simp))
    obtain ⟨f2, e2⟩ := lines_fine (ls := ls) f1 fun l' hl => h l' (by simp [hl])
    exact ⟨f2, by rw [lines, e1, Outcome.bind_ok, e2]⟩

/-- **C118.**  A file whose lines can be read and that says something is taken. -/
theorem c118_taken {ls : List (List String)} {wf wt : K} {r : K × K} (hl : ∀ l ∈ ls, Fine num l) (hs : Says num wf wt ls r) :
    ∃ c t, file num ls = .ok (r.1, c, t) ∧ r.2 = wf * c + wt * t := by
  obtain ⟨f, e⟩ := lines_fine ⟨none, none, none⟩ hl
  obtain ⟨a, b, d⟩ := lines_ok e
  obtain ⟨sw, sc, st, c, t, p1, p2, p3, q1, q2, q3, q4⟩ := hs
  rw [p1] at a; rw [p2] at b; rw [p3] at d
  have a' : f.weight = some r.1 := by have := (show num sw = some f.weight from a).symm.trans q1; simpa using this
  have b' : f.cost = some c := by have := (show num sc = some f.cost from b).symm.trans q2; simpa using this
  have d' : f.time = some t := by have := (show num st = some f.time from d).symm.trans q3; simpa using this
  exact ⟨c, t, by unfold file; rw [e, Outcome.bind_ok, a', b', d'], q4⟩

/-- **C118.**  A file without one of the three values, or with an infinite one, is an error. -/
theorem c118_missing {ls : List (List String)} (hl : ∀ l ∈ ls, Fine num l) (wf wt : K) (hs : ¬ ∃ r, Says num wf wt ls r) :
    file num ls = .fatal := by
  obtain ⟨f, e⟩ := lines_fine ⟨none, none, none⟩ hl
  cases h : file num ls with
  | ok r => exact absurd ⟨_, c118_file h wf wt⟩ hs
  | fatal => rfl
  | ub =>
    unfold file at h; rw [e, Outcome.bind_ok] at h
    split at h; · cases h
    split at h; · cases h
    split at h <;> cases h
  | nofuel =>
    unfold file at h; rw [e, Outcome.bind_ok] at h
    split at h; · cases h
    split at h; · cases h
    split at h <;> cases h

/-- **C118** (finding).  A line that has only the word `#pair` is an access out of bounds. -/
theorem c118_bare (f : Fields K) : line num f ["#pair"] = .ub := by
  simp [line]

/-- **C118** (finding).  So is a pair without a value. -/
theorem c118_novalue (f : Fields K) : line num f ["#pair", "weight"] = .ub := by
  simp [line, value]

end

/-! ## The means -/

variable [Field K] [LinearOrder K] [IsStrictOrderedRing K]

/-- What the map holds when the records `rs` have been seen. -/
structure Good (rs : List (K × K)) (m : List (K × Nat × K)) : Prop where
  sorted : m.Pairwise fun x y => x.1 < y.1
  is : ∀ x ∈ m, 0 < x.2.1 ∧ x.2.1 = (valuesOf rs x.1).length ∧ x.2.2 * (x.2.1 : K) = (valuesOf rs x.1).sum
  all : ∀ r ∈ rs, ∃ x ∈ m, x.1 = r.1

theorem mem_add {w v : K} : ∀ {m : List (K × Nat × K)} {x : K × Nat × K}, m.Pairwise (fun x y => x.1 < y.1) → x ∈ add w v m →
    (x.1 ≠ w ∧ x ∈ m) ∨ (∃ n a, (w, n, a) ∈ m ∧ x = (w, n + 1, a + (v - a) / ((n + 1 : Nat) : K))) ∨
      ((∀ y ∈ m, y.1 ≠ w) ∧ x = (w, 1, v))
  | [], x, _, h => by
    rw [add, List.mem_singleton] at h
    exact Or.inr (Or.inr ⟨by simp, by rw [h]; simp⟩)
  | (w', n, a) :: m, x, hs, h => by
    rw [add] at h
    rw [List.pairwise_cons] at hs
    by_cases h1 : w < w'
    · rw [if_pos h1, List.mem_cons] at h
      have hne : ∀ y ∈ (w', n, a) :: m, y.1 ≠ w := by
        intro y hy
        rcases List.mem_cons.1 hy with rfl | hy
        · exact h1.ne'
        · exact (h1.trans (hs.1 y hy)).ne'
      rcases h with rfl | h
      · exact Or.inr (Or.inr ⟨hne, by simp⟩)
      · exact Or.inl ⟨hne x h, h⟩
    · rw [if_neg h1] at h
      by_cases h2 : w' < w
      · rw [if_pos h2, List.mem_cons] at h
        rcases h with rfl | h
        · exact Or.inl ⟨h2.ne, by simp⟩
        · rcases mem_add hs.2 h with ⟨p, q⟩ | ⟨n', a', p, q⟩ | ⟨p, q⟩
          · exact Or.inl ⟨p, by simp [q]⟩
          · exact Or.inr (Or.inl ⟨n', a', by simp [p], q⟩)
          · refine Or.inr (Or.inr ⟨?_, q⟩)
            intro y hy
            rcases List.mem_cons.1 hy with rfl | hy
            · exact h2.ne
            · exact p y hy
      · rw [if_neg h2, List.mem_cons] at h
        have e : w' = w := le_antisymm (not_lt.1 h1) (not_lt.1 h2)
        subst e
        rcases h with rfl | h
        · exact Or.inr (Or.inl ⟨n, a, by simp, rfl⟩)
        · exact Or.inl ⟨(hs.1 x h).ne', by simp [h]⟩

theorem add_keeps {w v : K} : ∀ {m : List (K × Nat × K)} (k : K), (k = w ∨ ∃ x ∈ m, x.1 = k) → ∃ x ∈ add w v m, x.1 = k
  | [], k, h => by
    rcases h with rfl | ⟨x, hx, -⟩
    · exact ⟨_, by rw [add]; exact List.mem_singleton_self _, rfl⟩
    · cases hx
  | (w', n, a) :: m, k, h => by
    rw [add]
    by_cases h1 : w < w'
    · rw [if_pos h1]
      rcases h with rfl | ⟨x, hx, e⟩
      · exact ⟨_, List.mem_cons_self, rfl⟩
      · exact ⟨x, List.mem_cons_of_mem _ hx, e⟩
    · rw [if_neg h1]
      by_cases h2 : w' < w
      · rw [if_pos h2]
        by_cases hk : k = w'
        · exact ⟨_, List.mem_cons_self, hk.symm⟩
        · obtain ⟨x, hx, e⟩ := add_keeps (w := w) (v := v) (m := m) k (by
            rcases h with h | ⟨x, hx, e⟩
            · exact Or.inl h
            · rcases List.mem_cons.1 hx with rfl | hx
              · exact absurd e.symm hk
              · exact Or.inr ⟨x, hx, e⟩)
          exact ⟨x, List.mem_cons_of_mem _ hx, e⟩
      · rw [if_neg h2]
        have e : w' = w := le_antisymm (not_lt.1 h1) (not_lt.1 h2)
        rcases h with rfl | ⟨x, hx, e'⟩
        · exact ⟨_, List.mem_cons_self, e⟩
        · rcases List.mem_cons.1 hx with rfl | hx
          · exact ⟨_, List.mem_cons_self, e'⟩
          · exact ⟨x, List.mem_cons_of_mem _ hx, e'⟩

theorem add_keys {w v : K} {m : List (K × Nat × K)} {x : K × Nat × K} (hs : m.Pairwise fun x y => x.1 < y.1) (h : x ∈ add w v m) :
    x.1 = w ∨ ∃ y ∈ m, y.1 = x.1 := by
  rcases mem_add hs h with ⟨-, q⟩ | ⟨n, a, -, rfl⟩ | ⟨-, rfl⟩
  · exact Or.inr ⟨x, q, rfl⟩
  · exact Or.inl rfl
  · exact Or.inl rfl

theorem add_sorted {w v : K} : ∀ {m : List (K × Nat × K)}, m.Pairwise (fun x y => x.1 < y.1) →
    (add w v m).Pairwise fun x y => x.1 < y.1
  | [], _ => by rw [add]; exact List.pairwise_singleton _ _
  | (w', n, a) :: m, hs => by
    have hs' := List.pairwise_cons.1 hs
    rw [add]
    by_cases h1 : w < w'
    · rw [if_pos h1, List.pairwise_cons]
      refine ⟨fun y hy => ?_, hs⟩
      rcases List.mem_cons.1 hy with rfl | hy
      · exact h1
      · exact h1.trans (hs'.1 y hy)
    · rw [if_neg h1]
      by_cases h2 : w' < w
      · rw [if_pos h2, List.pairwise_cons]
        refine ⟨fun y hy => ?_, add_sorted hs'.2⟩
        rcases add_keys hs'.2 hy with e | ⟨z, hz, e⟩
        · rw [e]; exact h2
        · rw [← e]; exact hs'.1 z hz
      · rw [if_neg h2, List.pairwise_cons]
        exact ⟨fun y hy => hs'.1 y hy, hs'.2⟩

theorem valuesOf_append (rs : List (K × K)) (r : K × K) (w : K) :
    valuesOf (rs ++ [r]) w = valuesOf rs w ++ if r.1 = w then [r.2] else [] := by
  unfold valuesOf
  rw [List.filter_append, List.map_append]
  by_cases h : r.1 = w <;> simp [h]

theorem valuesOf_nil {rs : List (K × K)} {w : K} (h : ∀ r ∈ rs, r.1 ≠ w) : valuesOf rs w = [] := by
  unfold valuesOf
  rw [List.map_eq_nil_iff, List.filter_eq_nil_iff]
  intro r hr
  simpa using h r hr

theorem good_add {rs : List (K × K)} {m : List (K × Nat × K)} (h : Good rs m) (w v : K) : Good (rs ++ [(w, v)]) (add w v m) := by
  refine ⟨add_sorted h.sorted, ?_, ?_⟩
  · intro x hx
    rw [valuesOf_append]
    rcases mem_add h.sorted hx with ⟨p, q⟩ | ⟨n, a, p, rfl⟩ | ⟨p, rfl⟩
    · rw [if_neg (Ne.symm p), List.append_nil]
      exact h.is x q
    · obtain ⟨h1, h2, h3⟩ := h.is _ p
      dsimp only at h1 h2 h3 ⊢
      rw [if_pos rfl, List.length_append, List.sum_append, ← h2, ← h3]
      refine ⟨by omega, by simp, ?_⟩
      have hn : ((n + 1 : Nat) : K) ≠ 0 := by exact_mod_cast Nat.succ_ne_zero n
      rw [List.sum_singleton, add_mul, div_mul_cancel₀ _ hn]
      push_cast
      ring
    · rw [valuesOf_nil (w := w), if_pos rfl]
      · simp
      · intro r hr e
        obtain ⟨y, hy, e'⟩ := h.all r hr
        exact p y hy (e'.trans e)
  · intro r hr
    refine add_keeps r.1 ?_
    rcases List.mem_append.1 hr with hr | hr
    · exact Or.inr (h.all r hr)
    · rw [List.mem_singleton] at hr
      exact Or.inl (by rw [hr])

/-! ## The best weight -/

omit [IsStrictOrderedRing K] in
theorem pick_spec : ∀ (m : List (K × Nat × K)) (w a : K), ∃ b, (pick w a m = w ∧ b = a ∨ ∃ n, (pick w a m, n, b) ∈ m ∧ b < a) ∧ b ≤ a ∧
    ∀ x ∈ m, b ≤ x.2.2
  | [], w, a => ⟨a, Or.inl ⟨rfl, rfl⟩, le_rfl, by simp⟩
  | (w', n, a') :: m, w, a => by
    rw [pick]
    by_cases h : a' < a
    · rw [if_pos h]
      obtain ⟨b, h1, h2, h3⟩ := pick_spec m w' a'
      refine ⟨b, Or.inr ?_, h2.trans h.le, ?_⟩
      · rcases h1 with ⟨e1, e2⟩ | ⟨n', e1, e2⟩
        · exact ⟨n, by rw [e1, e2]; simp, by rw [e2]; exact h⟩
        · exact ⟨n', by simp [e1], e2.trans h⟩
      · intro x hx
        rcases List.mem_cons.1 hx with rfl | hx
        · exact h2
        · exact h3 x hx
    · rw [if_neg h]
      obtain ⟨b, h1, h2, h3⟩ := pick_spec m w a
      refine ⟨b, ?_, h2, ?_⟩
      · rcases h1 with h1 | ⟨n', e1, e2⟩
        · exact Or.inl h1
        · exact Or.inr ⟨n', by simp [e1], e2⟩
      · intro x hx
        rcases List.mem_cons.1 hx with rfl | hx
        · exact h2.trans (not_lt.1 h)
        · exact h3 x hx

theorem good_mean {rs : List (K × K)} {m : List (K × Nat × K)} (h : Good rs m) {w a : K} {n : Nat} (hx : (w, n, a) ∈ m) :
    mean rs w = a := by
  obtain ⟨h1, h2, h3⟩ := h.is _ hx
  dsimp only at h1 h2 h3
  unfold mean
  rw [← h2, ← h3, mul_div_assoc, div_self, mul_one]
  exact_mod_cast h1.ne'

theorem good_key {rs : List (K × K)} {m : List (K × Nat × K)} (h : Good rs m) {x : K × Nat × K} (hx : x ∈ m) : ∃ r ∈ rs, r.1 = x.1 := by
  obtain ⟨h1, h2, -⟩ := h.is x hx
  by_contra hn
  push Not at hn
  rw [valuesOf_nil hn] at h2
  simp at h2
  omega

theorem best_good {rs : List (K × K)} {m : List (K × Nat × K)} (h : Good rs m) {w : K} (hb : best m = .ok w) :
    (∃ r ∈ rs, r.1 = w) ∧ ∀ r ∈ rs, mean rs w ≤ mean rs r.1 := by
  cases m with
  | nil => cases hb
  | cons x m =>
    obtain ⟨w0, n0, a0⟩ := x
    rw [best, Outcome.ok.injEq] at hb
    obtain ⟨b, h1, h2, h3⟩ := pick_spec ((w0, n0, a0) :: m) w0 a0
    rw [hb] at h1
    have hw : ∃ n, (w, n, b) ∈ (w0, n0, a0) :: m := by
      rcases h1 with ⟨e1, e2⟩ | ⟨n, e, -⟩
      · exact ⟨n0, by rw [e1, e2]; simp⟩
      · exact ⟨n, e⟩
    obtain ⟨n, hw⟩ := hw
    refine ⟨good_key h hw, fun r hr => ?_⟩
    obtain ⟨⟨w', n', a'⟩, hx, e⟩ := h.all r hr
    dsimp only at e
    subst e
    rw [good_mean h hw, good_mean h hx]
    exact h3 _ hx

theorem files_good {wf wt : K} : ∀ {fs : List (Option (List (List String)))} {rs : List (K × K)} {m m' : List (K × Nat × K)},
    Good rs m → files num wf wt fs m = .ok m' →
      ∃ rs', List.Forall₂ (Says num wf wt) (fs.filterMap id) rs' ∧ Good (rs ++ rs') m'
  | [], rs, m, m', h, e => by
    cases e
    exact ⟨[], .nil, by rw [List.append_nil]; exact h⟩
  | none :: fs, rs, m, m', h, e => by
    obtain ⟨rs', a, b⟩ := files_good (fs := fs) h e
    exact ⟨rs', by simpa using a, b⟩
  | some ls :: fs, rs, m, m', h, e => by
    rw [files, Outcome.bind_eq_ok] at e
    obtain ⟨⟨w, c, t⟩, e1, e2⟩ := e
    obtain ⟨rs', a, b⟩ := files_good (fs := fs) (good_add h w (wf * c + wt * t)) e2
    refine ⟨(w, wf * c + wt * t) :: rs', ?_, by rw [List.append_assoc] at b; exact b⟩
    show List.Forall₂ _ (ls :: fs.filterMap id) _
    exact .cons (c118_file e1 wf wt) a

/-- **C118.**  If a weight is printed, then every file that could be opened says a weight and a value, the printed weight is that of
some file, and no weight has a smaller mean value over the files with that weight. -/
theorem c118_best {wf wt : K} {fs : List (Option (List (List String)))} {w : K} (h : main num wf wt fs = .ok w) :
    ∃ rs, List.Forall₂ (Says num wf wt) (fs.filterMap id) rs ∧ (∃ r ∈ rs, r.1 = w) ∧ ∀ r ∈ rs, mean rs w ≤ mean rs r.1 := by
  unfold main at h
  rw [Outcome.bind_eq_ok] at h
  obtain ⟨m, h1, h2⟩ := h
  obtain ⟨rs, a, b⟩ := files_good (rs := []) (m := []) ⟨.nil, by simp, by simp⟩ h1
  exact ⟨rs, a, best_good b h2⟩

theorem files_total {wf wt : K} : ∀ {fs : List (Option (List (List String)))} (m : List (K × Nat × K)),
    (∀ ls, some ls ∈ fs → (∀ l ∈ ls, Fine num l) ∧ ∃ r, Says num wf wt ls r) → ∃ m', files num wf wt fs m = .ok m'
  | [], m, _ => ⟨m, rfl⟩
  | none :: fs, m, h => files_total (fs := fs) m fun ls hl => h ls (by simp [hl])
  | some ls :: fs, m, h => by
    obtain ⟨hf, r, hr⟩ := h ls (by simp)
    obtain ⟨c, t, e, -⟩ := c118_taken hf hr
    rw [files, e, Outcome.bind_ok]
    exact files_total (fs := fs) _ fun ls hl => h ls (by simp [hl])

/-- **C118.**  A weight is printed if there is a file that can be opened and all of these can be read and say something. -/
theorem c118_total {wf wt : K} {fs : List (Option (List (List String)))} (h0 : ∃ ls, some ls ∈ fs)
    (h : ∀ ls, some ls ∈ fs → (∀ l ∈ ls, Fine num l) ∧ ∃ r, Says num wf wt ls r) : ∃ w, main num wf wt fs = .ok w := by
  obtain ⟨m, e⟩ := files_total [] h
  obtain ⟨rs, a, b⟩ := files_good (rs := []) (m := []) ⟨.nil, by simp, by simp⟩ e
  obtain ⟨ls, hls⟩ := h0
  have hm : m ≠ [] := by
    rintro rfl
    have : ls ∈ fs.filterMap id := List.mem_filterMap.2 ⟨some ls, hls, rfl⟩
    have hl := a.length_eq
    have hpos := List.length_pos_of_mem this
    obtain ⟨r, hr⟩ := List.exists_mem_of_length_pos (hl ▸ hpos)
    obtain ⟨x, hx, -⟩ := b.all r (by simpa using hr)
    cases hx
  unfold main
  rw [e, Outcome.bind_ok]
  cases m with
  | nil => exact absurd rfl hm
  | cons x m => exact ⟨_, rfl⟩

omit [IsStrictOrderedRing K] in
/-- **C118** (finding).  Without a file that can be opened, the first entry of an empty map is used. -/
theorem c118_empty (wf wt : K) (fs : List (Option (List (List String)))) (h : ∀ o ∈ fs, o = none) : main num wf wt fs = .ub := by
  have : ∀ m, files num wf wt fs m = .ok m := by
    induction fs with
    | nil => intro m; rfl
    | cons o fs ih =>
      intro m
      have := h o (by simp)
      subst this
      rw [files]
      exact ih (fun o ho => h o (by simp [ho])) m
  unfold main
  rw [this, Outcome.bind_ok]
  rfl

/-! ## Examples -/

/-- Numbers of an example. -/
def num' (s : String) : Option (Option ℚ) :=
  if s = "1" then some (some 1) else if s = "2" then some (some 2) else if s = "5" then some (some 5)
  else if s = "9" then some (some 9) else if s = "inf" then some none else none

/-- A file of an example. -/
def file' (w c t : String) : Option (List (List String)) :=
  some [["#pair", "weight", "9"], ["#pair", "weight", w], ["#pair", "algorithm", "wastar"], ["#pair", "final sol cost", c],
    ["#altrow", "x"], ["#pair", "total wall time", t]]

/-- Weight 2 has the values 10 and 6, weight 5 the values 3 and 11, weight 1 the value 14; one file cannot be opened. -/
example : main num' 1 1 [file' "2" "9" "1", file' "5" "2" "1", none, file' "1" "9" "5", file' "2" "1" "5", file' "5" "9" "2"] = .ok 5 := by
  decide +kernel

example : mean [(2, 10), (5, 3), (1, 14), (2, 6), (5, (11 : ℚ))] 5 = 7 ∧ mean [(2, 10), (5, 3), (1, 14), (2, 6), (5, (11 : ℚ))] 2 = 8 := by
  decide +kernel

/-- A file that says nothing, as its cost is infinite. -/
example : main num' 1 1 [file' "2" "inf" "1"] = .fatal := by decide +kernel

example : ∀ o ∈ ([none, none] : List (Option (List (List String)))), o = none := by decide

end Verif.BestWt
