import Verif.Utils.Path

/-!
# C27: path helpers

`loc p` is the place the path `p` denotes (two paths may be spelled differently and denote the same place).
-/

namespace Verif.Path

open Verif.Str

/-- **C27 (no undefined behaviour).** `pathcat` of a non-empty directory is defined and denotes the name in
that directory. -/
theorem c27_pathcat {d f : Str} (hd : d ≠ []) :
    ∃ q, pathcat d f = .ok q ∧ loc q = ((loc d).1, (loc d).2 ++ names f) := by
  obtain ⟨c, d', rfl⟩ := List.exists_cons_of_ne_nil hd
  unfold pathcat
  cases hl : (c :: d').getLast? with
  | none => simp at hl
  | some x =>
    dsimp only
    by_cases hx : x = sep
    · rw [if_pos hx]
      refine ⟨_, rfl, ?_⟩
      subst hx
      obtain ⟨a, ha⟩ := List.getLast?_eq_some_iff.1 hl
      have h1 : names (c :: d' ++ f) = names (c :: d') ++ names f := by
        rw [ha, List.append_assoc, List.cons_append, List.nil_append, names_append, names_sep_end]
      unfold loc
      rw [h1]; rfl
    · rw [if_neg hx]
      refine ⟨_, rfl, ?_⟩
      unfold loc
      rw [names_append]; rfl

/-- **C27 (joining).** Joining directory and base name denotes the path again. -/
theorem c27_join {p : Str} (hn : nul ∉ p) :
    ∃ q, pathcat (dirname p) (basename p) = .ok q ∧ loc q = loc p := by
  obtain ⟨q, h1, h2⟩ := c27_pathcat (f := basename p) (dirname_ne_nil p hn)
  refine ⟨q, h1, ?_⟩
  rw [h2]
  rcases split_cases p with h | ⟨d, f, rfl, hf⟩
  · rw [dirname_no p h hn, basename_no p h hn]
    have hh : (p.head? == some sep) = false := by
      cases p with
      | nil => rfl
      | cons c p =>
        simp only [List.head?_cons, beq_eq_false_iff_ne, ne_eq, Option.some.injEq]
        rintro rfl; simp at h
    have hd : loc ['.'] = (false, []) := by decide
    rw [hd]
    unfold loc
    rw [hh]
    split
    · next h0 => subst h0; decide
    · rfl
  · have key : loc (dirname (d ++ sep :: f)) = ((d ++ sep :: f).head? == some sep, names d) := by
      rw [dirname_of d f hf hn]
      split
      · next h => subst h; simp [loc, names_nil]; decide
      · next h =>
        obtain ⟨c, d', rfl⟩ := List.exists_cons_of_ne_nil h
        rfl
    rw [key, basename_of d f hf hn]
    unfold loc
    rw [names_append]
    split
    · next h0 => subst h0; rw [names_dot, names_nil]
    · rfl

/-- **C27 (joining, exactly).** With a single separator before the last name the spelling is the same too. -/
theorem c27_join_exact {d f : Str} (hn : nul ∉ d ++ sep :: f) (hf : sep ∉ f) (h0 : f ≠ [])
    (hd : d.getLast? ≠ some sep) :
    pathcat (dirname (d ++ sep :: f)) (basename (d ++ sep :: f)) = .ok (d ++ sep :: f) := by
  rw [dirname_of d f hf hn, basename_of d f hf hn, if_neg h0]
  by_cases h : d = []
  · subst h; rfl
  · rw [if_neg h]
    unfold pathcat
    cases hl : d.getLast? with
    | none => simp at hl; exact absurd hl h
    | some c =>
      dsimp only
      rw [if_neg (by rintro rfl; exact hd hl)]

/-- **C27 (splitting).** The base name of a joined path is the name, the directory is the directory. -/
theorem c27_split {d f : Str} (hd : d ≠ []) (hnd : nul ∉ d) (hnf : nul ∉ f) (hf : sep ∉ f) (h0 : f ≠ []) :
    ∃ q, pathcat d f = .ok q ∧ basename q = f ∧ loc (dirname q) = loc d ∧
      (d.getLast? ≠ some sep → dirname q = d) := by
  unfold pathcat
  cases hl : d.getLast? with
  | none => simp at hl; exact absurd hl hd
  | some c =>
    dsimp only
    by_cases hc : c = sep
    · subst hc
      obtain ⟨a, rfl⟩ := List.getLast?_eq_some_iff.1 hl
      have hn : nul ∉ a ++ sep :: f := by
        simp only [List.mem_append, List.mem_cons, not_or, List.not_mem_nil, not_false_eq_true,
          and_true] at hnd ⊢
        exact ⟨hnd.1, hnd.2, hnf⟩
      rw [if_pos rfl]
      have e : a ++ [sep] ++ f = a ++ sep :: f := by simp
      refine ⟨_, rfl, ?_, ?_, by simp⟩
      · rw [e, basename_of a f hf hn, if_neg h0]
      · rw [e, dirname_of a f hf hn]
        split
        · next h => subst h; rfl
        · next h =>
          obtain ⟨x, a', rfl⟩ := List.exists_cons_of_ne_nil h
          unfold loc; rw [names_sep_end]; rfl
    · rw [if_neg hc]
      have hn : nul ∉ d ++ sep :: f := by
        simp only [List.mem_append, List.mem_cons, not_or]
        exact ⟨hnd, by decide, hnf⟩
      refine ⟨_, rfl, ?_, ?_, ?_⟩
      · rw [basename_of d f hf hn, if_neg h0]
      · rw [dirname_of d f hf hn, if_neg hd]
      · intro _; rw [dirname_of d f hf hn, if_neg hd]

/-- `l` is `m` or a place on the way to it. -/
def Above (l m : Bool × List Str) : Prop := l.1 = m.1 ∧ l.2 <+: m.2

theorem Above.refl (l : Bool × List Str) : Above l l := ⟨rfl, List.prefix_rfl⟩

theorem Above.trans {a b c : Bool × List Str} (h : Above a b) (h' : Above b c) : Above a c :=
  ⟨h.1.trans h'.1, h.2.trans h'.2⟩

theorem above_dirname (p : Str) (hn : nul ∉ p) : Above (loc (dirname p)) (loc p) := by
  rcases loc_dirname p hn with h | ⟨n, h⟩
  · rw [h]; exact .refl _
  · rw [h]; exact ⟨rfl, List.prefix_append _ _⟩

theorem ensuredir_aux : ∀ (fuel : Nat) (p : Str) (fs : FS), p.length < fuel → nul ∉ p →
    fs (false, []) = some true → fs (true, []) = some true →
    (∀ l, Above l (loc (dirname p)) → fs l ≠ some false) →
    ∃ fs', ensuredir fuel fs p = .ok fs' ∧ fs' (loc (dirname p)) = some true ∧
      ∀ l, fs' l = fs l ∨ (fs l = none ∧ fs' l = some true ∧ Above l (loc (dirname p))) := by
  intro fuel
  induction fuel with
  | zero => intro p fs h; omega
  | succ fuel ih =>
    intro p fs hl hn hcwd hroot hfile
    rw [ensuredir]
    by_cases hdone : dirname p = ['.'] ∨ dirname p = [sep] ∨ fs (loc (dirname p)) = some true
    · rw [if_pos hdone]
      refine ⟨fs, rfl, ?_, fun l => Or.inl rfl⟩
      rcases hdone with h | h | h
      · rw [h]; exact hcwd
      · rw [h]; exact hroot
      · exact h
    · rw [if_neg hdone]
      simp only [not_or] at hdone
      have hlen : (dirname p).length < p.length := by
        rcases dirname_length p hn with h | h | h
        · exact absurd h hdone.1
        · exact absurd h hdone.2.1
        · exact h
      have hn' := dirname_no_nul p hn
      have hab := above_dirname (dirname p) hn'
      obtain ⟨fs1, h1, h2, h3⟩ := ih (dirname p) fs (by omega) hn' hcwd hroot
        (fun l hl => hfile l (hl.trans hab))
      rw [h1, Outcome.bind_ok]
      unfold mkdir
      by_cases hex : fs1 (loc (dirname p)) = none
      · rw [if_neg (by simpa using hex)]
        have hpar : fs1 (parent (loc (dirname p))) = some true := by
          rcases loc_dirname (dirname p) hn' with h | ⟨n, h⟩
          · rw [h, hex] at h2; cases h2
          · rw [h]; simpa [parent] using h2
        rw [if_pos hpar]
        refine ⟨_, rfl, by simp, fun l => ?_⟩
        by_cases hl : l = loc (dirname p)
        · subst hl
          right
          refine ⟨?_, by simp, .refl _⟩
          rcases h3 (loc (dirname p)) with h | h
          · rw [← h]; exact hex
          · exact h.1
        · simp only [Function.update_of_ne hl]
          rcases h3 l with h | ⟨ha, hb, hc⟩
          · exact Or.inl h
          · exact Or.inr ⟨ha, hb, hc.trans hab⟩
      · rw [if_pos hex]
        refine ⟨fs1, rfl, ?_, fun l => ?_⟩
        · rcases h3 (loc (dirname p)) with h | h
          · have hf := hfile (loc (dirname p)) (.refl _)
            rw [← h] at hf
            cases hv : fs1 (loc (dirname p)) with
            | none => exact absurd hv hex
            | some b =>
              cases b with
              | false => exact absurd hv hf
              | true => rfl
          · exact h.2.1
        · rcases h3 l with h | ⟨ha, hb, hc⟩
          · exact Or.inl h
          · exact Or.inr ⟨ha, hb, hc.trans hab⟩

/-- **C27 (`ensuredir`).** It ends, the directory for `p` exists afterwards, and nothing else has changed than
that missing directories on the way to it were made -- unless a file that is not a directory is in the way. -/
theorem c27_ensuredir_partial {p : Str} {fs : FS} (hn : nul ∉ p) (hcwd : fs (false, []) = some true)
    (hroot : fs (true, []) = some true) (hfile : ∀ l, Above l (loc (dirname p)) → fs l ≠ some false) :
    ∃ fs', ensuredir (p.length + 1) fs p = .ok fs' ∧ fs' (loc (dirname p)) = some true ∧
      ∀ l, fs' l = fs l ∨ (fs l = none ∧ fs' l = some true ∧ Above l (loc (dirname p))) :=
  ensuredir_aux _ p fs (by omega) hn hcwd hroot hfile

/-! ## Where the code falls short -/

/-- With a file in the way of the directory `ensuredir` returns without a complaint, and there is no
directory. -/
theorem c27_ensuredir_file : ∃ (fs : FS) (p : Str), fs (false, []) = some true ∧ fs (true, []) = some true ∧
    ∃ fs', ensuredir (p.length + 1) fs p = .ok fs' ∧ fs' (loc (dirname p)) ≠ some true :=
  ⟨fun l => if l = (false, [['a']]) then some false else some true, ['a', '/', 'b'], rfl, rfl,
    fun l => if l = (false, [['a']]) then some false else some true, rfl, by decide⟩

/-- `pathcat("", f)` reads in front of the string. -/
theorem c27_pathcat_empty (f : Str) : pathcat [] f = .ub := rfl

/-- `pathcatn` always does, because it starts with the empty path. -/
theorem c27_pathcatn (e : Str) (es : List Str) : pathcatn (e :: es) = .ub := rfl

/-! ## Examples -/

example : ∃ q, pathcat (dirname "a//b/".toList) (basename "a//b/".toList) = .ok q ∧ q = "a//b/.".toList ∧
    loc q = (false, [['a'], ['b']]) := ⟨_, rfl, by decide, by decide⟩

example : pathcat (dirname "/x/y".toList) (basename "/x/y".toList) = .ok "/x/y".toList :=
  c27_join_exact (d := ['/', 'x']) (f := ['y']) (by decide) (by decide) (by decide) (by decide)

/-- `ensuredir("a/b/c")` makes `a` and `a/b` -/
example : ∃ fs', ensuredir 6 (fun l => if l.2 = [] then some true else none) "a/b/c".toList = .ok fs' ∧
    fs' (false, [['a']]) = some true ∧ fs' (false, [['a'], ['b']]) = some true ∧
    fs' (false, [['a'], ['b'], ['c']]) = none := ⟨_, rfl, by decide, by decide, by decide⟩

end Verif.Path
