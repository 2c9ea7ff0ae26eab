import Verif.Outcome
import Mathlib.Data.List.Basic
import Mathlib.Data.Nat.Bitwise
import Mathlib.Tactic.IntervalCases

/-!
# Model of utils/hash.c: `hashlittle2` and `hashbytes` on a little-endian machine

The preprocessor selects the branches for `HASH_LITTLE_ENDIAN` without `VALGRIND`.  Memory is a function from addresses to
bytes with a set of addresses that may be read; reading any other byte is undefined behaviour, also as part of a word.
`hashlittle` (not called), and the branches for other machines, are not modelled.
-/

namespace Verif.HashBytes

/-- Memory: the bytes, and which of them belong to an object that may be read. -/
structure Memory where
  byte : Nat → BitVec 8
  ok : Nat → Bool

/-- The local variables `a`, `b`, `c`. -/
structure T where
  a : BitVec 32
  b : BitVec 32
  c : BitVec 32
deriving DecidableEq, Repr

/-- hash.c:72 `rot` -/
def rot (x : BitVec 32) (k : Nat) : BitVec 32 := (x <<< k) ||| (x >>> (32 - k))

/-- One line of `mix`: `x -= z; x ^= rot(z,k); z += y`; the result is `(x, z)`. -/
def mixStep (k : Nat) (x y z : BitVec 32) : BitVec 32 × BitVec 32 := ((x - z) ^^^ rot z k, z + y)

/-- hash.c:118-126 `mix` -/
def mix (t : T) : T :=
  let (a, c) := mixStep 4 t.a t.b t.c
  let (b, a) := mixStep 6 t.b c a
  let (c, b) := mixStep 8 c a b
  let (a, c) := mixStep 16 a b c
  let (b, a) := mixStep 19 b c a
  let (c, b) := mixStep 4 c a b
  ⟨a, b, c⟩

/-- One step of `final`: `x ^= y; x -= rot(y,k)`. -/
def finStep (k : Nat) (x y : BitVec 32) : BitVec 32 := (x ^^^ y) - rot y k

/-- hash.c:153-162 `final` -/
def final (t : T) : T :=
  let c := finStep 14 t.c t.b
  let a := finStep 11 t.a c
  let b := finStep 25 t.b a
  let c := finStep 16 c b
  let a := finStep 4 a c
  let b := finStep 14 b a
  let c := finStep 24 c b
  ⟨a, b, c⟩

/-! ### Reading memory -/

/-- The byte at `p`. -/
def Memory.r8 (M : Memory) (p : Nat) : Outcome (BitVec 32) :=
  if M.ok p = true then .ok ((M.byte p).setWidth 32) else .ub

/-- The little-endian 16-bit word at `p`, converted to 32 bits. -/
def Memory.r16 (M : Memory) (p : Nat) : Outcome (BitVec 32) :=
  if M.ok p = true ∧ M.ok (p + 1) = true then .ok ((M.byte (p + 1) ++ M.byte p).setWidth 32) else .ub

/-- The little-endian 32-bit word at `p`. -/
def Memory.r32 (M : Memory) (p : Nat) : Outcome (BitVec 32) :=
  if M.ok p = true ∧ M.ok (p + 1) = true ∧ M.ok (p + 2) = true ∧ M.ok (p + 3) = true then
    .ok (M.byte (p + 3) ++ M.byte (p + 2) ++ M.byte (p + 1) ++ M.byte p)
  else .ub

/-- Add the words that are read to `a`, `b`, `c`. -/
def add3 (t : T) (a b c : Outcome (BitVec 32)) : Outcome T :=
  c.bind fun z => b.bind fun y => a.bind fun x => .ok ⟨t.a + x, t.b + y, t.c + z⟩

/-- Nothing is added. -/
def zero : Outcome (BitVec 32) := .ok 0

/-- `k[i] & mask` -/
def mask (x : Outcome (BitVec 32)) (m : BitVec 32) : Outcome (BitVec 32) := x.map (· &&& m)

/-- hash.c:410-425: the switch for a key at a multiple of 4. -/
def last4 (M : Memory) (p len : Nat) (t : T) : Outcome T :=
  match len with
  | 12 => add3 t (M.r32 p) (M.r32 (p + 4)) (M.r32 (p + 8))
  | 11 => add3 t (M.r32 p) (M.r32 (p + 4)) (mask (M.r32 (p + 8)) 0xffffff)
  | 10 => add3 t (M.r32 p) (M.r32 (p + 4)) (mask (M.r32 (p + 8)) 0xffff)
  | 9 => add3 t (M.r32 p) (M.r32 (p + 4)) (mask (M.r32 (p + 8)) 0xff)
  | 8 => add3 t (M.r32 p) (M.r32 (p + 4)) zero
  | 7 => add3 t (M.r32 p) (mask (M.r32 (p + 4)) 0xffffff) zero
  | 6 => add3 t (M.r32 p) (mask (M.r32 (p + 4)) 0xffff) zero
  | 5 => add3 t (M.r32 p) (mask (M.r32 (p + 4)) 0xff) zero
  | 4 => add3 t (M.r32 p) zero zero
  | 3 => add3 t (mask (M.r32 p) 0xffffff) zero zero
  | 2 => add3 t (mask (M.r32 p) 0xffff) zero zero
  | 1 => add3 t (mask (M.r32 p) 0xff) zero zero
  | _ => .ok t

/-- `x + (y << k)` -/
def plus (x y : Outcome (BitVec 32)) (k : Nat) : Outcome (BitVec 32) :=
  x.bind fun x => y.bind fun y => .ok (x + (y <<< k))

/-- `k[i] + (((uint32_t) k[i+1]) << 16)` on 16-bit words -/
def Memory.r1616 (M : Memory) (p : Nat) : Outcome (BitVec 32) := plus (M.r16 p) (M.r16 (p + 2)) 16

/-- hash.c:466-494: the switch for a key at an even address.  The order in which the parts of a sum are added does not
matter. -/
def last2 (M : Memory) (p len : Nat) (t : T) : Outcome T :=
  match len with
  | 12 => add3 t (M.r1616 p) (M.r1616 (p + 4)) (M.r1616 (p + 8))
  | 11 => add3 t (M.r1616 p) (M.r1616 (p + 4)) (plus (M.r16 (p + 8)) (M.r8 (p + 10)) 16)
  | 10 => add3 t (M.r1616 p) (M.r1616 (p + 4)) (M.r16 (p + 8))
  | 9 => add3 t (M.r1616 p) (M.r1616 (p + 4)) (M.r8 (p + 8))
  | 8 => add3 t (M.r1616 p) (M.r1616 (p + 4)) zero
  | 7 => add3 t (M.r1616 p) (plus (M.r16 (p + 4)) (M.r8 (p + 6)) 16) zero
  | 6 => add3 t (M.r1616 p) (M.r16 (p + 4)) zero
  | 5 => add3 t (M.r1616 p) (M.r8 (p + 4)) zero
  | 4 => add3 t (M.r1616 p) zero zero
  | 3 => add3 t (plus (M.r16 p) (M.r8 (p + 2)) 16) zero zero
  | 2 => add3 t (M.r16 p) zero zero
  | 1 => add3 t (M.r8 p) zero zero
  | _ => .ok t

/-- `n` bytes at `p` (up to four), added one by one with shifts. -/
def Memory.bytes (M : Memory) (p : Nat) : Nat → Outcome (BitVec 32)
  | 0 => zero
  | n + 1 => plus (M.bytes p n) (M.r8 (p + n)) (8 * n)

/-- hash.c:520-536: the switch for a key at any address; the cases fall through, so each word gets as many bytes as there
are. -/
def last1 (M : Memory) (p len : Nat) (t : T) : Outcome T :=
  add3 t (M.bytes p (min len 4)) (M.bytes (p + 4) (min (len - 4) 4)) (M.bytes (p + 8) (min (len - 8) 4))

/-- The loops hash.c:388-396, 454-462, 500-516: full blocks while more than 12 bytes are left, given how the switch reads a
block; then the switch. -/
def blocks (last : Nat → Nat → T → Outcome T) (p len : Nat) (t : T) : Outcome T :=
  if 12 < len then (last p 12 t).bind fun t => blocks last (p + 12) (len - 12) (mix t)
  else if len = 0 then .ok t
  else (last p len t).map final
termination_by len

/-- hash.c:380-381: the initial values. -/
def start (len : Nat) (pc pb : BitVec 32) : T :=
  let i := 0xdeadbeef + BitVec.ofNat 32 len + pc
  ⟨i, i, i + pb⟩

/-- hash.c:370-541 `hashlittle2` for the key of `len` bytes at address `p`; `len` is below 2^32 (`unsigned int` in
`hashbytes`).  The result is `(*pc, *pb)`. -/
def hashlittle2 (M : Memory) (p len : Nat) (pc pb : BitVec 32) : Outcome (BitVec 32 × BitVec 32) :=
  (blocks (if p % 4 = 0 then last4 M else if p % 2 = 0 then last2 M else last1 M) p len (start len pc pb)).map fun t =>
    (t.c, t.b)

/-- hash.c:551-553: the value returned. -/
def top (l1 l0 : BitVec 32) : BitVec 64 := (l1.setWidth 64 <<< (32 : Nat)) ||| l0.setWidth 64

/-- hash.c:543-555 `hashbytes` -/
def hashbytes (M : Memory) (p len : Nat) : Outcome (BitVec 64) :=
  (hashlittle2 M p len 1000420526 598948860).map fun l => top l.2 l.1

/-! ### Specification: the hash of a list of bytes -/

/-- The number that bytes denote, least significant first. -/
def num : List (BitVec 8) → Nat
  | [] => 0
  | b :: bs => b.toNat + 256 * num bs

/-- The next four bytes, or those that are left. -/
def word (bs : List (BitVec 8)) : BitVec 32 := BitVec.ofNat 32 (num (bs.take 4))

/-- Add up to twelve bytes. -/
def addBlock (t : T) (bs : List (BitVec 8)) : T :=
  ⟨t.a + word bs, t.b + word (bs.drop 4), t.c + word (bs.drop 8)⟩

/-- Blocks of twelve bytes are added and mixed; the last one, of at most twelve, is followed by `final`. -/
def hashList (bs : List (BitVec 8)) (t : T) : T :=
  if 12 < bs.length then hashList (bs.drop 12) (mix (addBlock t bs))
  else if bs = [] then t
  else final (addBlock t bs)
termination_by bs.length
decreasing_by simp; omega

/-- The hash of a list of bytes. -/
def spec (bs : List (BitVec 8)) : BitVec 64 :=
  (hashList bs (start bs.length 1000420526 598948860)).b ++ (hashList bs (start bs.length 1000420526 598948860)).c

/-- The `n` bytes at `p`. -/
def Memory.get (M : Memory) (p n : Nat) : List (BitVec 8) := (List.range n).map fun i => M.byte (p + i)

/-- All `n` bytes at `p` may be read. -/
def Memory.Ok (M : Memory) (p n : Nat) : Prop := ∀ i < n, M.ok (p + i) = true

/-! ### Lemmas -/

theorem or_add {a b k : Nat} (h : b < 2 ^ k) : a <<< k ||| b = a * 2 ^ k + b := by
  rw [← Nat.shiftLeft_add_eq_or_of_lt h, Nat.shiftLeft_eq]

theorem append_num (a b c d : BitVec 8) : (d ++ c ++ b ++ a : BitVec 32).toNat =
    a.toNat + 256 * (b.toNat + 256 * (c.toNat + 256 * d.toNat)) := by
  have ha := a.isLt
  have hb := b.isLt
  have hc := c.isLt
  simp only [BitVec.toNat_append]
  rw [or_add hc, or_add hb, or_add ha]
  omega

theorem append2_num (a b : BitVec 8) : (b ++ a : BitVec 16).toNat = a.toNat + 256 * b.toNat := by
  have ha := a.isLt
  simp only [BitVec.toNat_append]
  rw [or_add ha]
  omega

theorem get_zero (M : Memory) (p : Nat) : M.get p 0 = [] := rfl

theorem get_succ (M : Memory) (p n : Nat) : M.get p (n + 1) = M.byte p :: M.get (p + 1) n := by
  unfold Memory.get
  rw [List.range_succ_eq_map, List.map_cons, List.map_map]
  congr 1
  apply List.map_congr_left
  intro i _
  simp only [Function.comp_apply]
  congr 1
  omega

theorem get_drop (M : Memory) (p n k : Nat) : (M.get p n).drop k = M.get (p + k) (n - k) := by
  induction k generalizing p n with
  | zero => simp
  | succ k ih =>
    cases n with
    | zero => simp [get_zero]
    | succ n =>
      rw [get_succ, List.drop_succ_cons, ih]
      congr 1 <;> omega

theorem r8_ok {M : Memory} {p : Nat} (h : M.ok p = true) : M.r8 p = .ok (word [M.byte p]) := by
  unfold Memory.r8
  rw [if_pos h]
  congr 1
  apply BitVec.eq_of_toNat_eq
  simp [word, num]

theorem r16_ok {M : Memory} {p : Nat} (h : M.ok p = true) (h1 : M.ok (p + 1) = true) :
    M.r16 p = .ok (word [M.byte p, M.byte (p + 1)]) := by
  unfold Memory.r16
  rw [if_pos ⟨h, h1⟩]
  congr 1
  apply BitVec.eq_of_toNat_eq
  rw [BitVec.toNat_setWidth, append2_num]
  simp [word, num]

theorem r32_ok {M : Memory} {p : Nat} (h : M.Ok p 4) :
    M.r32 p = .ok (word [M.byte p, M.byte (p + 1), M.byte (p + 2), M.byte (p + 3)]) := by
  unfold Memory.r32
  rw [if_pos ⟨h 0 (by omega), h 1 (by omega), h 2 (by omega), h 3 (by omega)⟩]
  congr 1
  apply BitVec.eq_of_toNat_eq
  rw [append_num]
  have h0 := (M.byte p).isLt
  have h1 := (M.byte (p + 1)).isLt
  have h2 := (M.byte (p + 2)).isLt
  have h3 := (M.byte (p + 3)).isLt
  simp only [word, num, List.take, BitVec.toNat_ofNat]
  omega

/-- The masks cut off bytes. -/
theorem mask_word (a b c d : BitVec 8) :
    word [a, b, c, d] &&& 0xffffff = word [a, b, c] ∧ word [a, b, c, d] &&& 0xffff = word [a, b] ∧
      word [a, b, c, d] &&& 0xff = word [a] := by
  have ha := a.isLt
  have hb := b.isLt
  have hc := c.isLt
  have hd := d.isLt
  have e1 : (0xffffff : BitVec 32).toNat = 2 ^ 24 - 1 := rfl
  have e2 : (0xffff : BitVec 32).toNat = 2 ^ 16 - 1 := rfl
  have e3 : (0xff : BitVec 32).toNat = 2 ^ 8 - 1 := rfl
  refine ⟨?_, ?_, ?_⟩ <;> apply BitVec.eq_of_toNat_eq <;> rw [BitVec.toNat_and]
  · rw [e1, Nat.and_two_pow_sub_one_eq_mod]
    simp only [word, num, List.take, BitVec.toNat_ofNat]
    omega
  · rw [e2, Nat.and_two_pow_sub_one_eq_mod]
    simp only [word, num, List.take, BitVec.toNat_ofNat]
    omega
  · rw [e3, Nat.and_two_pow_sub_one_eq_mod]
    simp only [word, num, List.take, BitVec.toNat_ofNat]
    omega

/-- Bytes are put together by shifts. -/
theorem shift_word (a b c d : BitVec 8) :
    word [a] + word [b] <<< 8 = word [a, b] ∧ word [a, b] + word [c] <<< 16 = word [a, b, c] ∧
      word [a, b, c] + word [d] <<< 24 = word [a, b, c, d] ∧ word [a, b] + word [c, d] <<< 16 = word [a, b, c, d] := by
  have ha := a.isLt
  have hb := b.isLt
  have hc := c.isLt
  have hd := d.isLt
  refine ⟨?_, ?_, ?_, ?_⟩ <;> apply BitVec.eq_of_toNat_eq <;>
    simp only [BitVec.toNat_add, BitVec.toNat_shiftLeft, word, num, List.take, BitVec.toNat_ofNat, Nat.shiftLeft_eq] <;> omega

theorem mask3 (a b c d : BitVec 8) : word [a, b, c, d] &&& 16777215#32 = word [a, b, c] := (mask_word a b c d).1
theorem mask2 (a b c d : BitVec 8) : word [a, b, c, d] &&& 65535#32 = word [a, b] := (mask_word a b c d).2.1
theorem mask1 (a b c d : BitVec 8) : word [a, b, c, d] &&& 255#32 = word [a] := (mask_word a b c d).2.2
theorem shift2 (a b : BitVec 8) : word [a] + word [b] <<< 8 = word [a, b] := (shift_word a b 0 0).1
theorem shift3 (a b c : BitVec 8) : word [a, b] + word [c] <<< 16 = word [a, b, c] := (shift_word a b c 0).2.1
theorem shift4 (a b c d : BitVec 8) : word [a, b, c] + word [d] <<< 24 = word [a, b, c, d] := (shift_word a b c d).2.2.1
theorem shift22 (a b c d : BitVec 8) : word [a, b] + word [c, d] <<< 16 = word [a, b, c, d] := (shift_word a b c d).2.2.2

theorem word_nil : word [] = 0 := rfl

theorem word_take (a b c d : BitVec 8) (l : List (BitVec 8)) : word (a :: b :: c :: d :: l) = word [a, b, c, d] := rfl

theorem last4_ok {M : Memory} {p len : Nat} (h : M.Ok p (4 * ((len + 3) / 4))) (h0 : len ≤ 12) (t : T) :
    last4 M p len t = .ok (addBlock t (M.get p len)) := by
  have r0 : 1 ≤ len → M.r32 p = _ := fun hl => r32_ok fun i hi => h i (by omega)
  have r1 : 5 ≤ len → M.r32 (p + 4) = _ := fun hl => r32_ok fun i hi => by
    have := h (4 + i) (by omega); rwa [← add_assoc] at this
  have r2 : 9 ≤ len → M.r32 (p + 8) = _ := fun hl => r32_ok fun i hi => by
    have := h (8 + i) (by omega); rwa [← add_assoc] at this
  interval_cases len <;>
    simp [last4, add3, addBlock, mask, zero, Outcome.bind_ok, Outcome.map_ok, get_succ, get_zero, word_nil, word_take, mask1, mask2, mask3, r0, r1, r2,
      add_assoc]

theorem last2_ok {M : Memory} {p len : Nat} (h : M.Ok p len) (h0 : len ≤ 12) (t : T) :
    last2 M p len t = .ok (addBlock t (M.get p len)) := by
  have q : ∀ i, i + 1 < len → M.r16 (p + i) = _ := fun i hi => r16_ok (h i (by omega)) (h (i + 1) hi)
  have b : ∀ i, i < len → M.r8 (p + i) = _ := fun i hi => r8_ok (h i hi)
  have q0 : 2 ≤ len → M.r16 p = _ := fun hl => q 0 (by omega)
  have b0 : 1 ≤ len → M.r8 p = _ := fun hl => b 0 (by omega)
  interval_cases len <;>
    simp [last2, add3, addBlock, plus, Memory.r1616, zero, Outcome.bind_ok, get_succ, get_zero, word_nil, word_take, shift2, shift3, shift4, shift22, q, b, q0, b0, 
      add_assoc]

theorem last1_ok {M : Memory} {p len : Nat} (h : M.Ok p len) (h0 : len ≤ 12) (t : T) :
    last1 M p len t = .ok (addBlock t (M.get p len)) := by
  have b : ∀ i, i < len → M.r8 (p + i) = _ := fun i hi => r8_ok (h i hi)
  have b0 : 1 ≤ len → M.r8 p = _ := fun hl => b 0 (by omega)
  interval_cases len <;>
    simp [last1, add3, addBlock, plus, Memory.bytes, zero, Outcome.bind_ok, get_succ, get_zero, word_nil, word_take, shift2, shift3, shift4, shift22, b, b0, 
      add_assoc]

theorem get_length (M : Memory) (p n : Nat) : (M.get p n).length = n := by simp [Memory.get]

/-- The loop, for a switch that reads a block of any length correctly where `R` holds. -/
theorem blocks_ok {M : Memory} {last : Nat → Nat → T → Outcome T} {R : Nat → Nat → Prop}
    (hl : ∀ p len t, 0 < len → len ≤ 12 → R p len → last p len t = .ok (addBlock t (M.get p len)))
    (hr : ∀ p len, 12 < len → R p len → R p 12 ∧ R (p + 12) (len - 12)) (n : Nat) :
    ∀ p len t, len ≤ n → (len = 0 ∨ R p len) → blocks last p len t = .ok (hashList (M.get p len) t) := by
  induction n with
  | zero =>
    intro p len t h _
    obtain rfl : len = 0 := by omega
    rw [blocks, hashList]
    simp [get_zero]
  | succ n ih =>
    intro p len t h h'
    rw [blocks, hashList, get_length, get_drop]
    split
    · rename_i h12
      have hR : R p len := h'.resolve_left (by omega)
      obtain ⟨r1, r2⟩ := hr p len h12 hR
      rw [hl p 12 t (by omega) le_rfl r1, Outcome.bind_ok, ih _ _ _ (by omega) (Or.inr r2)]
      have e : addBlock t (M.get p 12) = addBlock t (M.get p len) := by
        obtain ⟨k, rfl⟩ : ∃ k, len = k + 12 := ⟨len - 12, by omega⟩
        simp only [addBlock, get_succ, List.drop_succ_cons, List.drop_zero, word_take]
      rw [e]
    · rename_i h12
      by_cases h0 : len = 0
      · rw [if_pos h0, if_pos (by rw [h0]; rfl)]
      · rw [if_neg h0, if_neg, hl p len t (by omega) (by omega) (h'.resolve_left h0), Outcome.map_ok]
        intro hc
        have := get_length M p len
        rw [hc] at this
        exact h0 this.symm

/-- Which bytes are read: whole words if the key is at a multiple of 4. -/
def Memory.Readable (M : Memory) (p len : Nat) : Prop := M.Ok p (if p % 4 = 0 then 4 * ((len + 3) / 4) else len)

theorem Memory.Ok.mono {M : Memory} {p n k : Nat} (h : M.Ok p n) (hk : k ≤ n) : M.Ok p k := fun i hi => h i (by omega)

theorem Memory.Ok.shift {M : Memory} {p n k : Nat} (h : M.Ok p n) : M.Ok (p + k) (n - k) := fun i hi => by
  have := h (k + i) (by omega)
  rwa [← add_assoc] at this

theorem join (b c : BitVec 32) : top b c = (b ++ c : BitVec 64) := by
  unfold top
  apply BitVec.eq_of_toNat_eq
  have hb := b.isLt
  have hc := c.isLt
  rw [BitVec.toNat_append, BitVec.toNat_or, BitVec.toNat_shiftLeft, BitVec.toNat_setWidth, BitVec.toNat_setWidth,
    Nat.mod_eq_of_lt (by omega : b.toNat < 2 ^ 64), Nat.mod_eq_of_lt (by omega : c.toNat < 2 ^ 64), Nat.mod_eq_of_lt]
  rw [Nat.shiftLeft_eq]
  omega

theorem hashbytes_ok {M : Memory} {p len : Nat} (h : M.Readable p len) : hashbytes M p len = .ok (spec (M.get p len)) := by
  have key : ∀ t, blocks (if p % 4 = 0 then last4 M else if p % 2 = 0 then last2 M else last1 M) p len t =
      .ok (hashList (M.get p len) t) := by
    intro t
    unfold Memory.Readable at h
    split
    · rename_i hp
      rw [if_pos hp] at h
      refine blocks_ok (R := fun p len => M.Ok p (4 * ((len + 3) / 4))) (fun p len t _ h1 h2 => last4_ok h2 h1 t) ?_ len p len t le_rfl
        (Or.inr h)
      intro p len h12 hR
      refine ⟨hR.mono (by omega), ?_⟩
      have := hR.shift (k := 12)
      exact this.mono (by omega)
    · rename_i hp
      rw [if_neg hp] at h
      have hr : ∀ p len, 12 < len → M.Ok p len → M.Ok p 12 ∧ M.Ok (p + 12) (len - 12) := fun p len h12 hR =>
        ⟨hR.mono (by omega), hR.shift⟩
      split
      · exact blocks_ok (R := M.Ok) (fun p len t _ h1 h2 => last2_ok h2 h1 t) hr len p len t le_rfl (Or.inr h)
      · exact blocks_ok (R := M.Ok) (fun p len t _ h1 h2 => last1_ok h2 h1 t) hr len p len t le_rfl (Or.inr h)
  rw [hashbytes, hashlittle2, key, Outcome.map_ok, Outcome.map_ok]
  rw [spec, get_length]
  exact congrArg Outcome.ok (join _ _)

/-! ### Reading past the end -/

theorem r32_ub {M : Memory} {p i : Nat} (hi : i < 4) (h : M.ok (p + i) = false) : M.r32 p = .ub := by
  unfold Memory.r32
  rw [if_neg]
  rintro ⟨h0, h1, h2, h3⟩
  interval_cases i <;> simp_all

theorem last4_ub {M : Memory} {p len : Nat} (h : M.Ok p len) (h0 : len ≤ 12) (h4 : len % 4 ≠ 0) (hn : M.ok (p + len) = false) (t : T) :
    last4 M p len t = .ub := by
  have r0 : 4 ≤ len → M.r32 p = _ := fun hl => r32_ok fun i hi => h i (by omega)
  have r1 : 8 ≤ len → M.r32 (p + 4) = _ := fun hl => r32_ok fun i hi => by
    have := h (4 + i) (by omega); rwa [← add_assoc] at this
  have u0 : len < 4 → M.r32 p = .ub := fun hl => r32_ub (i := len) hl hn
  have u1 : 4 ≤ len → len < 8 → M.r32 (p + 4) = .ub := fun h1 hl => r32_ub (i := len - 4) (by omega) (by
    rw [show p + 4 + (len - 4) = p + len by omega]; exact hn)
  have u2 : 8 ≤ len → M.r32 (p + 8) = .ub := fun h1 => r32_ub (i := len - 8) (by omega) (by
    rw [show p + 8 + (len - 8) = p + len by omega]; exact hn)
  interval_cases len <;> first | (exfalso; omega) | simp [last4, add3, mask, zero, Outcome.bind, Outcome.map, r0, r1, u0, u1, u2]

theorem blocks4_ub {M : Memory} (n : Nat) : ∀ {p len : Nat} (t : T), len ≤ n → M.Ok p len → len % 4 ≠ 0 → M.ok (p + len) = false →
    blocks (last4 M) p len t = .ub := by
  induction n with
  | zero => intro p len t h1 _ h2; omega
  | succ n ih =>
    intro p len t h1 h2 h3 h4
    rw [blocks]
    split
    · rw [last4_ok (h2.mono (by omega)) le_rfl, Outcome.bind_ok]
      exact ih _ (by omega) h2.shift (by omega) (by rw [show p + 12 + (len - 12) = p + len by omega]; exact h4)
    · rw [if_neg (by omega), last4_ub h2 (by omega) h3 h4]
      rfl

/-! ### `mix` and `final` can be reversed -/

/-- Undo `mixStep`. -/
def unmixStep (k : Nat) (x y z : BitVec 32) : BitVec 32 × BitVec 32 :=
  let z := z - y
  ((x ^^^ rot z k) + z, z)

theorem unmix_mix (k : Nat) (x y z : BitVec 32) :
    unmixStep k (mixStep k x y z).1 y (mixStep k x y z).2 = (x, z) := by
  simp only [unmixStep, mixStep, BitVec.add_sub_cancel, BitVec.xor_assoc, BitVec.xor_self, BitVec.xor_zero, BitVec.sub_add_cancel]

theorem mixStep_inj {k : Nat} {x y z x' z' : BitVec 32} (h : mixStep k x y z = mixStep k x' y z') : x = x' ∧ z = z' := by
  have h1 := unmix_mix k x y z
  rw [h, unmix_mix] at h1
  simp only [Prod.mk.injEq] at h1
  exact ⟨h1.1.symm, h1.2.symm⟩

/-- Undo `mix`. -/
def unmix (t : T) : T :=
  let (c, b) := unmixStep 4 t.c t.a t.b
  let (b, a) := unmixStep 19 b c t.a
  let (a, c) := unmixStep 16 a b c
  let (c, b) := unmixStep 8 c a b
  let (b, a) := unmixStep 6 b c a
  let (a, c) := unmixStep 4 a b c
  ⟨a, b, c⟩

/-- Undo `finStep`. -/
def unfinStep (k : Nat) (x y : BitVec 32) : BitVec 32 := (x + rot y k) ^^^ y

theorem unfin_fin (k : Nat) (x y : BitVec 32) : unfinStep k (finStep k x y) y = x := by
  simp only [unfinStep, finStep, BitVec.sub_add_cancel, BitVec.xor_assoc, BitVec.xor_self, BitVec.xor_zero]

theorem fin_unfin (k : Nat) (x y : BitVec 32) : finStep k (unfinStep k x y) y = x := by
  simp only [unfinStep, finStep, BitVec.add_sub_cancel, BitVec.xor_assoc, BitVec.xor_self, BitVec.xor_zero]

theorem mix_unmix (k : Nat) (x y z : BitVec 32) :
    mixStep k (unmixStep k x y z).1 y (unmixStep k x y z).2 = (x, z) := by
  simp only [unmixStep, mixStep, BitVec.add_sub_cancel, BitVec.xor_assoc, BitVec.xor_self, BitVec.xor_zero, BitVec.sub_add_cancel]

/-- Undo `final`. -/
def unfinal (t : T) : T :=
  let c := unfinStep 24 t.c t.b
  let b := unfinStep 14 t.b t.a
  let a := unfinStep 4 t.a c
  let c := unfinStep 16 c b
  let b := unfinStep 25 b a
  let a := unfinStep 11 a c
  let c := unfinStep 14 c b
  ⟨a, b, c⟩

theorem unfinal_final (t : T) : unfinal (final t) = t := by
  simp only [unfinal, final, unfin_fin]

theorem final_unfinal (t : T) : final (unfinal t) = t := by
  simp only [unfinal, final, fin_unfin]

theorem unmix_mix_all (t : T) : unmix (mix t) = t := by
  simp only [unmix, mix, unmix_mix]

theorem mix_unmix_all (t : T) : mix (unmix t) = t := by
  simp only [unmix, mix, mix_unmix]

end Verif.HashBytes
