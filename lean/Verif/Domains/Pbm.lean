import Verif.Outcome
import Mathlib.Tactic.Ring
import Mathlib.Tactic.Linarith

/-!
# Reading a bitmap file (visnav/pbm2poly.cc)

The header has been scanned into the width and the height (`fscanf`, lines 23-40); what follows the white space behind it
is modelled as a list of characters.

Specification side: `Body` (the grammar of what follows the header).
-/

namespace Verif.Pbm

/-- Where the reader is: behind the start of a line, at the start of a line (where `junkcomment` looks for a comment), or in
a comment -/
inductive Mode
  | data | bol | comment
deriving DecidableEq

/-- pbm2poly.cc:51-77 the loop of `readpbm`, and 80-89 `junkcomment`, which is called at the start of each line.  `blkd` is
the array; the loop tests `y < h`, so that nothing is read after the last cell. -/
def rd (w h : Nat) : List Char → Mode → Nat → Nat → (Nat → Bool) → Outcome (Nat → Bool)
  | [], _, _, y, blkd => if y < h then .fatal else .ok blkd
  | c :: cs, md, x, y, blkd =>
    if y < h then
      if md = .comment then rd w h cs (if c = '\n' then .bol else .comment) x y blkd
      else if md = .bol ∧ c = '#' then rd w h cs .comment x y blkd
      else if c = '\n' then rd w h cs .bol x y blkd
      else if c = ' ' then rd w h cs .data x y blkd
      else if c = '1' ∨ c = '0' then
        let blkd := Function.update blkd (x * h + y) (decide (c = '1'))
        if x + 1 ≥ w then rd w h cs .data 0 (y + 1) blkd else rd w h cs .data (x + 1) y blkd
      else .fatal
    else .ok blkd

/-- pbm2poly.cc:41-78: the rest of `readpbm`.  The test of the dimensions divides by the width. -/
def readpbm (w h : Nat) (cs : List Char) : Outcome (Nat → Bool) :=
  if w = 0 then .ub
  else if (2 ^ 32 - 1) / w < h then .fatal
  else rd w h cs .bol 0 0 (fun _ => false)

/-! ## Files -/

/-- The text for the given cells; the flag tells whether it is at the start of a line.  Cells are `0` or `1`, with spaces and
line breaks anywhere, and comments from a `#` at the start of a line to its end. -/
inductive Body : Bool → List Bool → List Char → Prop
  | nil (b) : Body b [] []
  | cell (b v) {vs cs} : Body false vs cs → Body b (v :: vs) ((if v then '1' else '0') :: cs)
  | space (b) {vs cs} : Body false vs cs → Body b vs (' ' :: cs)
  | line (b) {vs cs} : Body true vs cs → Body b vs ('\n' :: cs)
  | comment {vs cs} (t : List Char) : '\n' ∉ t → Body true vs cs → Body true vs ('#' :: (t ++ '\n' :: cs))

/-- `a` agrees with the cells `vs`, the first of which is number `n` in the order of the file, and with `a0` elsewhere. -/
def Fill (w h n : Nat) (vs : List Bool) (a0 a : Nat → Bool) : Prop :=
  (∀ x y, x < w → y < h → n ≤ y * w + x → some (a (x * h + y)) = vs[y * w + x - n]?) ∧
  ∀ x y, x < w → y < h → y * w + x < n → a (x * h + y) = a0 (x * h + y)

theorem pos_inj {w x y x' y' : Nat} (hx : x < w) (hx' : x' < w) (h : y * w + x = y' * w + x') : x = x' ∧ y = y' := by
  have hw : 0 < w := by omega
  have h1 : (y * w + x) / w = y := by rw [Nat.mul_comm, Nat.mul_add_div hw, Nat.div_eq_of_lt hx]; rfl
  have h2 : (y' * w + x') / w = y' := by rw [Nat.mul_comm, Nat.mul_add_div hw, Nat.div_eq_of_lt hx']; rfl
  have : y = y' := by rw [← h1, ← h2, h]
  subst this
  exact ⟨by omega, rfl⟩

theorem rd_comment (w h x y : Nat) (hy : y < h) (blkd : Nat → Bool) (cs : List Char) : ∀ t : List Char, '\n' ∉ t →
    rd w h (t ++ '\n' :: cs) .comment x y blkd = rd w h cs .bol x y blkd
  | [], _ => by
    rw [List.nil_append, rd, if_pos hy]
    simp
  | c :: t, ht => by
    rw [List.cons_append, rd, if_pos hy, if_pos rfl, if_neg (fun e => ht (by simp [e]))]
    exact rd_comment w h x y hy blkd cs t (fun hm => ht (List.mem_cons_of_mem _ hm))

theorem rd_cell {w h x y : Nat} (hy : y < h) (blkd : Nat → Bool) (cs : List Char) {md : Mode} (hm : md ≠ .comment) (v : Bool) :
    rd w h ((if v then '1' else '0') :: cs) md x y blkd =
      if x + 1 ≥ w then rd w h cs .data 0 (y + 1) (Function.update blkd (x * h + y) v)
      else rd w h cs .data (x + 1) y (Function.update blkd (x * h + y) v) := by
  rw [rd, if_pos hy, if_neg hm]
  cases v <;> simp

/-- The reader accepts the texts of the grammar. -/
theorem rd_accepts {w h : Nat} (hw : 0 < w) (rest : List Char) {b : Bool} {vs : List Bool} {cs : List Char}
    (hb : Body b vs cs) : ∀ (x y : Nat) (a0 : Nat → Bool) (md : Mode), x < w → y ≤ h → (y = h → x = 0) →
      (if b then md = .bol else md ≠ .comment) → y * w + x + vs.length = h * w →
      ∃ a, rd w h (cs ++ rest) md x y a0 = .ok a ∧ Fill w h (y * w + x) vs a0 a := by
  have stop : ∀ (cs : List Char) (md : Mode) (x y : Nat) (a0 : Nat → Bool), h ≤ y → rd w h cs md x y a0 = .ok a0 := by
    intro cs md x y a0 hy
    cases cs <;> rw [rd, if_neg (by omega)]
  have full : ∀ {x y : Nat} {vs : List Bool} {a0 : Nat → Bool}, y = h → y * w + x + vs.length = h * w → Fill w h (y * w + x) vs a0 a0 := by
    intro x y vs a0 hy hl
    subst hy
    refine ⟨fun x' y' hx' hy' hle => ?_, fun _ _ _ _ _ => rfl⟩
    have : (y' + 1) * w ≤ y * w := Nat.mul_le_mul_right w hy'
    nlinarith
  induction hb with
  | nil b =>
    intro x y a0 md hx hy hxy hmd hl
    have : y = h := by
      by_contra hne
      have : (y + 1) * w ≤ h * w := Nat.mul_le_mul_right w (by omega)
      simp only [List.length_nil] at hl
      nlinarith
    exact ⟨a0, stop _ _ _ _ _ (by omega), full this hl⟩
  | cell b v hb ih =>
    rename_i vs cs
    intro x y a0 md hx hy hxy hmd hl
    have hyh : y < h := by
      by_contra hne
      have e : y = h := by omega
      subst e
      simp only [List.length_cons] at hl
      omega
    have hmd' : md ≠ .comment := by
      cases b
      · simpa using hmd
      · simp only [if_true] at hmd; rw [hmd]; simp
    rw [List.cons_append, rd_cell hyh _ _ hmd']
    have key : ∀ (x' y' : Nat), y' * w + x' = y * w + x + 1 → x' < w → y' ≤ h → (y' = h → x' = 0) →
        ∃ a, rd w h (cs ++ rest) .data x' y' (Function.update a0 (x * h + y) v) = .ok a ∧ Fill w h (y * w + x) (v :: vs) a0 a := by
      intro x' y' e hx' hy' hxy'
      obtain ⟨a, h1, h2, h3⟩ := ih x' y' (Function.update a0 (x * h + y) v) .data hx' hy' hxy' (by simp) (by
        rw [e]; simp only [List.length_cons] at hl; omega)
      rw [e] at h2 h3
      refine ⟨a, h1, fun u z hu hz hle => ?_, fun u z hu hz hlt => ?_⟩
      · by_cases hc : y * w + x = z * w + u
        · obtain ⟨rfl, rfl⟩ := pos_inj hx hu hc
          rw [h3 x y hx hyh (by omega)]
          simp
        · rw [h2 u z hu hz (by omega), show z * w + u - (y * w + x) = z * w + u - (y * w + x + 1) + 1 by omega]
          simp
      · rw [h3 u z hu hz (by omega), Function.update_of_ne]
        intro e2
        have hh : 0 < h := by omega
        have h5 := pos_inj (w := h) hz hyh (y := u) (y' := x) e2
        obtain ⟨rfl, rfl⟩ := h5
        omega
    by_cases hx1 : x + 1 ≥ w
    · rw [if_pos hx1]
      refine key 0 (y + 1) ?_ hw (by omega) (fun _ => rfl)
      have : x + 1 = w := by omega
      rw [Nat.add_mul]; omega
    · rw [if_neg hx1]
      exact key (x + 1) y (by omega) (by omega) hy (fun e => by omega)
  | space b hb ih =>
    rename_i vs cs
    intro x y a0 md hx hy hxy hmd hl
    by_cases hyh : y < h
    · obtain ⟨a, h1, h2⟩ := ih x y a0 .data hx hy hxy (by simp) hl
      refine ⟨a, ?_, h2⟩
      have hmd' : md ≠ .comment := by
        cases b
        · simpa using hmd
        · simp only [if_true] at hmd; rw [hmd]; simp
      rw [List.cons_append, rd, if_pos hyh, if_neg hmd']
      simpa using h1
    · exact ⟨a0, stop _ _ _ _ _ (by omega), full (by omega) hl⟩
  | line b hb ih =>
    rename_i vs cs
    intro x y a0 md hx hy hxy hmd hl
    by_cases hyh : y < h
    · obtain ⟨a, h1, h2⟩ := ih x y a0 .bol hx hy hxy (by simp) hl
      refine ⟨a, ?_, h2⟩
      have hmd' : md ≠ .comment := by
        cases b
        · simpa using hmd
        · simp only [if_true] at hmd; rw [hmd]; simp
      rw [List.cons_append, rd, if_pos hyh, if_neg hmd']
      simpa using h1
    · exact ⟨a0, stop _ _ _ _ _ (by omega), full (by omega) hl⟩
  | comment t ht hb ih =>
    rename_i vs cs
    intro x y a0 md hx hy hxy hmd hl
    by_cases hyh : y < h
    · obtain ⟨a, h1, h2⟩ := ih x y a0 .bol hx hy hxy (by simp) hl
      refine ⟨a, ?_, h2⟩
      simp only [if_true] at hmd
      subst hmd
      rw [List.cons_append, List.append_assoc, List.cons_append, rd, if_pos hyh, if_neg (by simp), if_pos ⟨rfl, rfl⟩,
        rd_comment w h x y hyh _ _ t ht]
      exact h1
    · exact ⟨a0, stop _ _ _ _ _ (by omega), full (by omega) hl⟩

/-- It accepts nothing else. -/
theorem rd_only {w h : Nat} (hw : 0 < w) : ∀ (s : List Char) (x y : Nat) (a0 a : Nat → Bool) (md : Mode), x < w → y ≤ h →
    (y = h → x = 0) → rd w h s md x y a0 = .ok a →
      ∃ t vs cs rest, s = t ++ cs ++ rest ∧ y * w + x + vs.length = h * w ∧
        (md = .comment → y < h → ∃ t', t = t' ++ ['\n'] ∧ '\n' ∉ t') ∧ (md ≠ .comment ∨ h ≤ y → t = []) ∧
        Body (decide (md ≠ .data)) vs cs := by
  intro s
  induction s with
  | nil =>
    intro x y a0 a md hx hy hxy hr
    rw [rd] at hr
    split_ifs at hr with hyh
    have : y = h := by omega
    refine ⟨[], [], [], [], rfl, ?_, fun _ h' => absurd h' hyh, fun _ => rfl, .nil _⟩
    rw [hxy this, this]
    simp
  | cons c s ih =>
    intro x y a0 a md hx hy hxy hr
    rw [rd] at hr
    split_ifs at hr with hyh h1 hc h2 h3 h4 h5 h6
    · -- a comment ends
      obtain ⟨t, vs, cs, rest, e1, e2, -, e4, e5⟩ := ih x y a0 a .bol hx hy hxy hr
      have ht := e4 (.inl (by simp))
      subst ht
      refine ⟨['\n'], vs, cs, rest, by simp [hc, e1], e2, fun _ _ => ⟨[], rfl, by simp⟩, fun h' => ?_, ?_⟩
      · rcases h' with h' | h'
        · exact absurd h1 h'
        · omega
      · rw [h1]; exact e5
    · -- in a comment
      obtain ⟨t, vs, cs, rest, e1, e2, e3, -, e5⟩ := ih x y a0 a .comment hx hy hxy hr
      obtain ⟨t', rfl, ht'⟩ := e3 rfl hyh
      refine ⟨c :: (t' ++ ['\n']), vs, cs, rest, by simp [e1], e2, fun _ _ => ⟨c :: t', by simp, ?_⟩, fun h' => ?_, ?_⟩
      · simp only [List.mem_cons, not_or]
        exact ⟨fun e => hc e.symm, ht'⟩
      · rcases h' with h' | h'
        · exact absurd h1 h'
        · omega
      · rw [h1]; exact e5
    · -- a comment begins
      obtain ⟨t, vs, cs, rest, e1, e2, e3, -, e5⟩ := ih x y a0 a .comment hx hy hxy hr
      obtain ⟨t', rfl, ht'⟩ := e3 rfl hyh
      obtain ⟨rfl, rfl⟩ := h2
      exact ⟨[], vs, '#' :: (t' ++ '\n' :: cs), rest, by simp [e1], e2, fun h' => by simp at h', fun _ => rfl,
        .comment t' ht' e5⟩
    · obtain ⟨t, vs, cs, rest, e1, e2, -, e4, e5⟩ := ih x y a0 a .bol hx hy hxy hr
      have ht := e4 (.inl (by simp))
      subst ht
      subst h3
      exact ⟨[], vs, '\n' :: cs, rest, by simp [e1], e2, fun h' => absurd h' h1, fun _ => rfl, .line _ e5⟩
    · obtain ⟨t, vs, cs, rest, e1, e2, -, e4, e5⟩ := ih x y a0 a .data hx hy hxy hr
      have ht := e4 (.inl (by simp))
      subst ht
      subst h4
      exact ⟨[], vs, ' ' :: cs, rest, by simp [e1], e2, fun h' => absurd h' h1, fun _ => rfl, .space _ e5⟩
    · obtain ⟨t, vs, cs, rest, e1, e2, -, e4, e5⟩ := ih 0 (y + 1) _ a .data hw (by omega) (fun _ => rfl) hr
      have ht := e4 (.inl (by simp))
      subst ht
      refine ⟨[], decide (c = '1') :: vs, c :: cs, rest, by simp [e1], ?_, fun h' => absurd h' h1, fun _ => rfl, ?_⟩
      · have : x + 1 = w := by omega
        rw [Nat.add_mul] at e2
        simp only [List.length_cons]
        omega
      · have : c = if decide (c = '1') then '1' else '0' := by rcases h5 with rfl | rfl <;> simp
        conv => rhs; rw [this]
        exact .cell _ _ e5
    · obtain ⟨t, vs, cs, rest, e1, e2, -, e4, e5⟩ := ih (x + 1) y _ a .data (by omega) hy (fun e => by omega) hr
      have ht := e4 (.inl (by simp))
      subst ht
      refine ⟨[], decide (c = '1') :: vs, c :: cs, rest, by simp [e1], ?_, fun h' => absurd h' h1, fun _ => rfl, ?_⟩
      · simp only [List.length_cons]
        omega
      · have : c = if decide (c = '1') then '1' else '0' := by rcases h5 with rfl | rfl <;> simp
        conv => rhs; rw [this]
        exact .cell _ _ e5
    · have : y = h := by omega
      refine ⟨[], [], [], c :: s, rfl, ?_, fun _ h' => absurd h' hyh, fun _ => rfl, .nil _⟩
      rw [hxy this, this]
      simp

end Verif.Pbm
