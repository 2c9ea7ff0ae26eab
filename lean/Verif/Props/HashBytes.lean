import Verif.Utils.HashBytes

/-!
# C73: `hashbytes`

`hashbytes M p n` is a call for the `n` bytes at address `p` of memory `M`; `M.get p n` are these bytes, `M.ok` says which
addresses belong to an object that may be read.  `spec` is the hash of a list of bytes: no addresses, no alignment.
-/

namespace Verif.HashBytes

/-- C73: the hash is a function of the bytes alone, for each of the three ways in which the code reads them.  What is
missing: a key at a multiple of 4 is read in whole words, so the bytes up to the end of its last word must be readable. -/
theorem c73_value_partial {M : Memory} {p n : Nat} (h : M.Ok p (if p % 4 = 0 then 4 * ((n + 3) / 4) else n)) :
    hashbytes M p n = .ok (spec (M.get p n)) := hashbytes_ok h

/-- C73: equal bytes at two places, however they are aligned and whatever is next to them, have the same hash. -/
theorem c73_same_partial {M M' : Memory} {p p' n : Nat} (h : M.Ok p (n + 3)) (h' : M'.Ok p' (n + 3))
    (e : ∀ i < n, M.byte (p + i) = M'.byte (p' + i)) : ∃ v, hashbytes M p n = .ok v ∧ hashbytes M' p' n = .ok v := by
  refine ⟨_, hashbytes_ok (h.mono ?_), ?_⟩
  · split <;> omega
  · rw [hashbytes_ok (h'.mono ?_)]
    · congr 2
      exact List.map_congr_left fun i hi => (e i (by simpa using hi)).symm
    · split <;> omega

/-- C73: only readable bytes are needed if the key is not at a multiple of 4 or its length is one. -/
theorem c73_exact {M : Memory} {p n : Nat} (h : M.Ok p n) (hp : p % 4 ≠ 0 ∨ n % 4 = 0) :
    hashbytes M p n = .ok (spec (M.get p n)) := hashbytes_ok (h.mono (by split <;> omega))

/-- C73, violated: a key at a multiple of 4 whose length is not one is read past its end, which is undefined if the object
ends there. -/
theorem c73_overread {M : Memory} {p n : Nat} (h : M.Ok p n) (hp : p % 4 = 0) (hn : n % 4 ≠ 0) (he : M.ok (p + n) = false) :
    hashbytes M p n = .ub := by
  rw [hashbytes, hashlittle2, if_pos hp, blocks4_ub n _ le_rfl h hn he]
  rfl

/-- C73: mixing loses nothing: it can be undone. -/
theorem c73_mix : Function.Bijective mix :=
  ⟨Function.LeftInverse.injective unmix_mix_all, Function.RightInverse.surjective mix_unmix_all⟩

/-- C73: the final mixing loses nothing. -/
theorem c73_final : Function.Bijective final :=
  ⟨Function.LeftInverse.injective unfinal_final, Function.RightInverse.surjective final_unfinal⟩

theorem num_inj : ∀ {l l' : List (BitVec 8)}, l.length = l'.length → num l = num l' → l = l'
  | [], [], _, _ => rfl
  | a :: l, b :: l', hl, h => by
    simp only [num] at h
    have ha := a.isLt
    have hb := b.isLt
    have h1 : a.toNat = b.toNat := by omega
    have h2 : l = l' := num_inj (by simpa using hl) (by omega)
    rw [BitVec.eq_of_toNat_eq h1, h2]

theorem num_lt : ∀ l : List (BitVec 8), num l < 256 ^ l.length
  | [] => by simp [num]
  | a :: l => by
    have := num_lt l
    have ha := a.isLt
    simp only [num, List.length_cons, Nat.pow_succ]
    omega

theorem word_inj {l l' : List (BitVec 8)} (hl : l.length = l'.length) (h : word l = word l') : l.take 4 = l'.take 4 := by
  have h1 := congrArg BitVec.toNat h
  have b : ∀ l : List (BitVec 8), num (l.take 4) < 2 ^ 32 := fun l => by
    refine (num_lt _).trans_le ?_
    calc 256 ^ (l.take 4).length ≤ 256 ^ 4 := Nat.pow_le_pow_right (by decide) (by simp)
      _ = 2 ^ 32 := by norm_num
  rw [word, word, BitVec.toNat_ofNat, BitVec.toNat_ofNat, Nat.mod_eq_of_lt (b l), Nat.mod_eq_of_lt (b l')] at h1
  exact num_inj (by simp [hl]) h1

/-- C73: different keys of the same length, of up to twelve bytes, leave different values in the three registers. -/
theorem c73_short {bs bs' : List (BitVec 8)} (hl : bs.length = bs'.length) (h12 : bs.length ≤ 12) (t : T)
    (h : hashList bs t = hashList bs' t) : bs = bs' := by
  by_cases h0 : bs = []
  · subst h0
    exact (List.length_eq_zero_iff.1 hl.symm).symm
  have h0' : bs' ≠ [] := fun e => h0 (List.length_eq_zero_iff.1 (by rw [hl, e]; rfl))
  rw [hashList, if_neg (by omega), if_neg h0] at h
  rw [hashList.eq_def bs', if_neg (by omega), if_neg h0'] at h
  have h := c73_final.1 h
  simp only [addBlock, T.mk.injEq, BitVec.add_right_inj] at h
  obtain ⟨h1, h2, h3⟩ := h
  have e1 := word_inj hl h1
  have e2 := word_inj (by simp [hl]) h2
  have e3 := word_inj (by simp [hl]) h3
  have split3 : ∀ l : List (BitVec 8), l.length ≤ 12 → l = l.take 4 ++ ((l.drop 4).take 4 ++ (l.drop 8).take 4) := fun l hl => by
    rw [List.take_of_length_le (l := l.drop 8) (by simp; omega)]
    have : l.drop 8 = (l.drop 4).drop 4 := by rw [List.drop_drop]
    rw [this, List.take_append_drop, List.take_append_drop]
  rw [split3 bs h12, split3 bs' (hl ▸ h12), e1, e2, e3]

/-! ## Examples -/

/-- Memory that is readable everywhere, with a text at `p`. -/
def txt (p : Nat) (s : String) : Memory := ⟨fun i => BitVec.ofNat 8 (((s.toList.map Char.toNat).getD (i - p) 0)), fun _ => true⟩

/-- The text that lookup3.c tests with. -/
def four : String := "Four score and seven years ago"

-- the values published with lookup3.c (driver5), at the four alignments
example : hashlittle2 (txt 0 "") 0 0 0 0 = .ok (0xdeadbeef, 0xdeadbeef) := by decide +kernel
example : hashlittle2 (txt 0 "") 0 0 0 0xdeadbeef = .ok (0xbd5b7dde, 0xdeadbeef) := by decide +kernel
example : hashlittle2 (txt 0 "") 0 0 0xdeadbeef 0xdeadbeef = .ok (0x9c093ccd, 0xbd5b7dde) := by decide +kernel
example : hashlittle2 (txt 0 four) 0 30 0 0 = .ok (0x17770551, 0xce7226e6) := by decide +kernel
example : hashlittle2 (txt 1 four) 1 30 0 1 = .ok (0xe3607cae, 0xbd371de4) := by decide +kernel
example : hashlittle2 (txt 2 four) 2 30 1 0 = .ok (0xcd628161, 0x6cbea4b3) := by decide +kernel
example : hashlittle2 (txt 3 four) 3 30 1 0 = .ok (0xcd628161, 0x6cbea4b3) := by decide +kernel

-- `c73_overread` for the 25 bytes that `Plat2d::PackedState::hash` (plat2d.hpp:74-91) collects in an array of 25
example : hashbytes ⟨fun i => BitVec.ofNat 8 i, fun i => decide (64 ≤ i ∧ i < 89)⟩ 64 25 = .ub :=
  c73_overread (fun i hi => by simp; omega) (by decide) (by decide) (by decide)
-- and off a multiple of 4
example : hashbytes ⟨fun i => BitVec.ofNat 8 i, fun i => decide (65 ≤ i ∧ i < 90)⟩ 65 25 = .ok (spec ((List.range 25).map fun i => BitVec.ofNat 8 (65 + i))) :=
  c73_exact (fun i hi => by simp; omega) (by decide)

end Verif.HashBytes
