import Verif.Domains.SegmentsPath
import Verif.Domains.SegmentsThms
import Verif.Props.Datafile

/-!
# C60: writing and reading paths of the segments domain
-/

namespace Verif.Segments

open Verif.Str Verif.Datafile

/-- The operators of a domain with less than 2^31 segments can be written. -/
theorem Legal.writable {n : Nat} (hn : n ≤ 2 ^ 31) {o : Oper} (h : Legal n o) : Writable o := by
  have h1 := (legal_iff.1 h).2
  have h2 := h.lt
  refine ⟨h.ne_none, by omega, ?_⟩
  rcases h1 with ⟨e, h1⟩ | ⟨e, h1⟩ <;> rw [e]
  · exact ⟨by omega, by omega, fun _ => h1.2⟩
  · exact ⟨by omega, by omega, fun h => by cases h⟩

/-- **C60 (paths).** The path that is printed can be read: `scanops` gives the operators in the order in which they are
executed (the solution has the last one first). -/
theorem c60_path {ops : List Oper} (h : ∀ o ∈ ops, Writable o) :
    ∃ t, pathtext ops = .ok t ∧ scanops t = .ok ops.reverse := by
  refine ⟨_, pathtext_eq fun o ho => (h o ho).1, ?_⟩
  unfold scanops
  by_cases hne : ops.reverse = []
  · rw [hne]; rfl
  · rw [scanloop_flat _ _ _ (fun o ho => h o (by simpa using ho)) (by
      have := flat_length ops.reverse; omega) hne]
    simp

theorem decimal_plain (z : Int) : Plain (decimal z) := by
  have hd : ∀ c : Char, c.isDigit = true → c ≠ nul ∧ c ≠ '"' ∧ c ≠ '\n' := by
    intro c hc
    refine ⟨?_, ?_, ?_⟩ <;> (rintro rfl; exact absurd hc (by decide))
  unfold decimal Col.text
  dsimp only
  intro c hc
  split at hc
  · rcases List.mem_cons.1 hc with rfl | hc
    · decide
    · exact hd c ((decimal_digits _).1 c hc)
  · exact hd c ((decimal_digits _).1 c hc)

theorem otext_plain (o : Oper) : Plain (otext o) := by
  have hs : ∀ (t : Str) (c : Char), Plain [c] → Plain t → Plain (c :: t) := by
    intro t c h1 h2 x hx
    rcases List.mem_cons.1 hx with rfl | hx
    · exact h1 x (by simp)
    · exact h2 x hx
  have ha : ∀ s t : Str, Plain s → Plain t → Plain (s ++ t) := by
    intro s t h1 h2 c hc
    rcases List.mem_append.1 hc with h | h
    · exact h1 c h
    · exact h2 c h
  unfold otext
  split
  · exact ha _ _ (ha _ _ (by decide) (decimal_plain _)) (hs _ _ (by decide) (decimal_plain _))
  · exact ha _ _ (ha _ _ (ha _ _ (by decide) (decimal_plain _)) (hs _ _ (by decide) (decimal_plain _)))
      (hs _ _ (by decide) (decimal_plain _))

theorem path_plain {ops : List Oper} : Plain (ops.reverse.flatMap otext) := by
  intro c hc
  obtain ⟨o, -, h⟩ := List.mem_flatMap.1 hc
  exact otext_plain o c h

/-- **C60 (paths in data files).** A path that is printed as a pair of a data file is read from the file again, except
if its text has exactly 241 characters.
Missing for the full claim: that length, see `c60_path_boundary`. -/
theorem c60_path_file_partial {ops : List Oper} (h : ∀ o ∈ ops, Writable o) {t : Str} (ht : pathtext ops = .ok t)
    (hl : t.length ≠ 241) : ∃ f, dfpair (chars "path") t = .ok f ∧ readdf f = .ok ops.reverse := by
  obtain ⟨t', ht', hs⟩ := c60_path h
  rw [ht] at ht'
  obtain rfl : t = t' := by injection ht'
  have hp : Plain t := by
    rw [pathtext_eq fun o ho => (h o ho).1] at ht
    injection ht with ht
    rw [← ht]; exact path_plain
  obtain ⟨f, h1, h2⟩ := c26_roundtrip_partial (rs := [.pair (chars "path") t]) (by
    intro r hr
    simp only [List.mem_cons, List.not_mem_nil, or_false] at hr
    subst hr
    refine ⟨by decide, hp, by decide, ?_⟩
    have : (chars "path").length = 4 := by decide
    rw [this]; omega)
  simp only [writeAll, Rec.write] at h1
  rw [Outcome.bind_eq_ok] at h1
  obtain ⟨f', h3, h4⟩ := h1
  refine ⟨f', h3, ?_⟩
  have : f = f' := by
    simp at h4
    exact h4.symm
  subst this
  unfold readdf
  rw [h2, Outcome.bind_ok]
  show readpath [chars "#pair", chars "path", t] [] = _
  unfold readpath
  rw [if_pos ⟨rfl, rfl, rfl⟩]
  exact hs

/-- 48 rotations, whose text has 241 characters. -/
def longpath : List Oper := List.replicate 47 ⟨.rotate, 0, 1, 0⟩ ++ [⟨.rotate, 0, -1, 0⟩]

/-- **C60 (finding).** There is a path that is written without complaint but loses its last character; reading it uses
an uninitialised variable. -/
theorem c60_path_boundary : ∃ t f, (∀ o ∈ longpath, Writable o) ∧ pathtext longpath = .ok t ∧ dfpair (chars "path") t = .ok f ∧ readdf f = .ub := by
  have h : (pathtext longpath).bind (fun t => (dfpair (chars "path") t).bind readdf) = .ub ∧
      (∃ t, pathtext longpath = .ok t ∧ ∃ f, dfpair (chars "path") t = .ok f) := by
    refine ⟨by decide +kernel, _, pathtext_eq (by decide +kernel), ?_⟩
    have hk : Plain (chars "path") := by decide
    exact ⟨_, dfpair_eq hk.no_nul path_plain.no_nul (by decide)⟩
  obtain ⟨h1, t, h2, f, h3⟩ := h
  refine ⟨t, f, ?_, h2, h3, ?_⟩
  · unfold Writable; decide +kernel
  · rw [h2, Outcome.bind_ok, h3, Outcome.bind_ok] at h1
    exact h1

/-- **C60 (arbitrary text).** Reading a path ends, whatever the text. -/
theorem c60_path_total (t : Str) : scanops t ≠ .nofuel := scanloop_total _ _ _ (by simp)

/-- **C60 (finding).** A path that is cut in the middle of an operator is not reported: depending on where, the rest is
ignored or an uninitialised variable is used. -/
theorem c60_path_cut : scanops (chars "m 0 1 1r 3") = .ok [⟨.move, 0, 1, 1⟩] ∧
    scanops (chars "m 0 1") = .ub ∧ scanops (chars "m 0 1 x") = .ub := by
  refine ⟨by decide +kernel, by decide +kernel, by decide +kernel⟩

/-- A path with two operators. -/
example : ∃ t f, pathtext [⟨.move, 12, -1, 0⟩, ⟨.rotate, 0, 1, 0⟩] = .ok t ∧ t = chars "r 0 1m 12 -1 0" ∧
    dfpair (chars "path") t = .ok f ∧ readdf f = .ok [⟨.rotate, 0, 1, 0⟩, ⟨.move, 12, -1, 0⟩] := by
  have h : ∀ o ∈ ([⟨.move, 12, -1, 0⟩, ⟨.rotate, 0, 1, 0⟩] : List Oper), Writable o := by
    unfold Writable; decide
  have ht : pathtext [⟨.move, 12, -1, 0⟩, ⟨.rotate, 0, 1, 0⟩] = .ok (chars "r 0 1m 12 -1 0") := by decide +kernel
  obtain ⟨f, h1, h2⟩ := c60_path_file_partial h ht (by decide)
  exact ⟨_, f, ht, rfl, h1, h2⟩

end Verif.Segments
