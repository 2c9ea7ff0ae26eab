import Verif.Utils.Encode

/-!
# Properties of the encoders: C18, C19, C20, C21
-/

namespace Verif.Encode

/-! ## C18 -/

/-- C18: run-length coding round-trips; no assertion of either function fails. -/
theorem c18_roundtrip (data : List UInt8) :
    ∃ e, runlenenc data = .ok e ∧ runlendec e = .ok data := by
  obtain ⟨out, h1, h2, -⟩ := encLoop_spec data [] [] [] dec_nil (by simp [maxrun]) (by simp)
  refine ⟨out, h1, ?_⟩
  have := h2 [] []
  simpa [runlendec, decLoop] using this

/-- C18: the encoding of `n` bytes has at most `n + n/127 + 1` bytes. -/
theorem c18_size (data e : List UInt8) (h : runlenenc data = .ok e) :
    e.length ≤ data.length + data.length / 127 + 1 := by
  obtain ⟨out, h1, -, h3⟩ := encLoop_spec data [] [] [] dec_nil (by simp [maxrun]) (by simp)
  unfold runlenenc at h
  rw [h1] at h
  simp only [Outcome.ok.injEq] at h
  subst h
  simp only [List.nil_append] at h3
  omega

/-- Runs of 2, 3 and 130 equal bytes and literals in between. -/
example : runlenenc ([1, 1, 2, 5, 5, 5] ++ List.replicate 130 200 ++ [7]) =
    .ok [2, 1, 1, 2, 254, 5, 130, 200, 254, 200, 0, 7] := by decide +kernel

/-- The decoder stops with a diagnostic on a header the encoder never produces, and truncated
input is undefined. -/
example : runlendec [127, 1] = .fatal ∧ runlendec [5, 1, 2] = .ub := by decide +kernel

/-! ## C19 -/

/-- C19: base64 round-trips. -/
theorem c19_roundtrip (data : List UInt8) : base64dec (base64enc data) = .ok data := by
  match data with
  | [] => rfl
  | [x] => exact dec64_one x
  | [x, y] => exact dec64_two x y
  | x :: y :: z :: rest =>
    rw [base64enc, dec64_full, c19_roundtrip rest, Outcome.map_ok]

/-- Spec: RFC 4648, table 1: the character of a 6 bit value. -/
def digit64 (n : Nat) : UInt8 :=
  if n < 26 then UInt8.ofNat ('A'.toNat + n)
  else if n < 52 then UInt8.ofNat ('a'.toNat + (n - 26))
  else if n < 62 then UInt8.ofNat ('0'.toNat + (n - 52))
  else if n = 62 then UInt8.ofNat '+'.toNat
  else UInt8.ofNat '/'.toNat

/-- Spec: the `k` low bits of a number, most significant first. -/
def bitsMsb (k n : Nat) : List Bool := (List.range k).map fun i => n.testBit (k - 1 - i)

/-- Spec: RFC 4648, section 4: the bits of the data, filled up with zero bits to a multiple of 6, are cut into 6 bit
values; their characters are followed by as many `=` as make the length a multiple of 4. -/
def IsBase64 (data e : List UInt8) : Prop :=
  ∃ vals : List Nat, (∀ v ∈ vals, v < 64) ∧
    e = vals.map digit64 ++ List.replicate ((3 - data.length % 3) % 3) (UInt8.ofNat '='.toNat) ∧
    (∃ fill < 6, vals.flatMap (bitsMsb 6) = data.flatMap (fun b => bitsMsb 8 b.toNat) ++ List.replicate fill false) ∧
    e.length = 4 * ((data.length + 2) / 3)

theorem tab_digit {i : Nat} (h : i < 64) : base64tab.getD i 0 = digit64 i := by
  have : ∀ i : Fin 64, base64tab.getD i.val 0 = digit64 i.val := by decide +kernel
  exact this ⟨i, h⟩

theorem low6_lt (n : Nat) : n &&& 0x3F < 64 := Nat.lt_of_le_of_lt Nat.and_le_right (by decide)

theorem chars64_digit (b : Nat) : chars64 b =
    [(b >>> 18) &&& 0x3F, (b >>> 12) &&& 0x3F, (b >>> 6) &&& 0x3F, (b >>> 0) &&& 0x3F].map digit64 := by
  unfold chars64
  rw [Nat.shiftRight_zero]
  simp only [List.map_cons, List.map_nil, tab_digit (low6_lt _)]

theorem bits6 (b k : Nat) : bitsMsb 6 ((b >>> k) &&& 0x3F) =
    [b.testBit (k + 5), b.testBit (k + 4), b.testBit (k + 3), b.testBit (k + 2), b.testBit (k + 1), b.testBit k] := by
  have h : ∀ j, j < 6 → ((b >>> k) &&& 0x3F).testBit j = b.testBit (k + j) := by
    intro j hj
    rw [Nat.testBit_and, Nat.testBit_shiftRight]
    have : (0x3F : Nat).testBit j = true := by
      have : ∀ j : Fin 6, (0x3F : Nat).testBit j.val = true := by decide
      exact this ⟨j, hj⟩
    rw [this, Bool.and_true]
  show [((b >>> k) &&& 0x3F).testBit 5, ((b >>> k) &&& 0x3F).testBit 4, ((b >>> k) &&& 0x3F).testBit 3,
    ((b >>> k) &&& 0x3F).testBit 2, ((b >>> k) &&& 0x3F).testBit 1, ((b >>> k) &&& 0x3F).testBit 0] = _
  rw [h _ (by decide), h _ (by decide), h _ (by decide), h _ (by decide), h _ (by decide), h _ (by decide)]
  rfl

theorem byte_hi (x : UInt8) {k : Nat} (h : 8 ≤ k) : x.toNat.testBit k = false :=
  Nat.testBit_lt_two_pow (Nat.lt_of_lt_of_le x.toNat_lt (Nat.pow_le_pow_right (by decide) h))

theorem bits8 (x : Nat) : bitsMsb 8 x =
    [x.testBit 7, x.testBit 6, x.testBit 5, x.testBit 4, x.testBit 3, x.testBit 2, x.testBit 1, x.testBit 0] := rfl

/-- C19: the output is the RFC 4648 encoding of the data. -/
theorem c19_rfc4648 (data : List UInt8) : IsBase64 data (base64enc data) := by
  match data with
  | [] => exact ⟨[], by simp, rfl, ⟨0, by decide, rfl⟩, rfl⟩
  | [x] =>
    refine ⟨[(x.toNat <<< 16 >>> 18) &&& 0x3F, (x.toNat <<< 16 >>> 12) &&& 0x3F], ?_, ?_, ⟨4, by decide, ?_⟩, ?_⟩
    · simp only [List.mem_cons, List.not_mem_nil, or_false]
      rintro v (rfl | rfl) <;> exact low6_lt _
    · simp only [base64enc, chars64_digit]
      rfl
    · simp only [List.flatMap_cons, List.flatMap_nil, bits6, bits8, List.append_nil]
      simp [Nat.testBit_shiftLeft]
    · simp [base64enc]
  | [x, y] =>
    refine ⟨[((x.toNat <<< 16 ||| y.toNat <<< 8) >>> 18) &&& 0x3F, ((x.toNat <<< 16 ||| y.toNat <<< 8) >>> 12) &&& 0x3F,
      ((x.toNat <<< 16 ||| y.toNat <<< 8) >>> 6) &&& 0x3F], ?_, ?_, ⟨2, by decide, ?_⟩, ?_⟩
    · simp only [List.mem_cons, List.not_mem_nil, or_false]
      rintro v (rfl | rfl | rfl) <;> exact low6_lt _
    · simp only [base64enc, chars64_digit]
      rfl
    · simp only [List.flatMap_cons, List.flatMap_nil, bits6, bits8, List.append_nil]
      simp [Nat.testBit_shiftLeft, byte_hi]
    · simp [base64enc]
  | x :: y :: z :: rest =>
    obtain ⟨vals, h1, h2, ⟨fill, h3, h4⟩, h5⟩ := c19_rfc4648 rest
    have hl : (x :: y :: z :: rest).length = rest.length + 3 := by simp
    refine ⟨[((x.toNat <<< 16 ||| y.toNat <<< 8 ||| z.toNat) >>> 18) &&& 0x3F,
      ((x.toNat <<< 16 ||| y.toNat <<< 8 ||| z.toNat) >>> 12) &&& 0x3F,
      ((x.toNat <<< 16 ||| y.toNat <<< 8 ||| z.toNat) >>> 6) &&& 0x3F,
      ((x.toNat <<< 16 ||| y.toNat <<< 8 ||| z.toNat) >>> 0) &&& 0x3F] ++ vals, ?_, ?_, ⟨fill, h3, ?_⟩, ?_⟩
    · intro v hv
      rcases List.mem_append.1 hv with hv | hv
      · simp only [List.mem_cons, List.not_mem_nil, or_false] at hv
        rcases hv with rfl | rfl | rfl | rfl <;> exact low6_lt _
      · exact h1 v hv
    · have he : (3 - (rest.length + 3) % 3) % 3 = (3 - rest.length % 3) % 3 := by omega
      rw [base64enc, h2, hl, he, chars64_digit, List.map_append, List.append_assoc]
    · rw [List.flatMap_append, h4]
      simp only [List.flatMap_cons, List.flatMap_nil, bits6, bits8, List.append_nil]
      simp [Nat.testBit_shiftLeft, byte_hi]
    · rw [base64enc, List.length_append, h5, hl, chars64_eq]
      simp only [List.length_cons, List.length_nil]
      omega

/-- "Man", "Ma", "M" (RFC 4648). -/
example : base64enc [77, 97, 110] = [84, 87, 70, 117] ∧ base64enc [77, 97] = [84, 87, 69, 61] ∧
    base64enc [77] = [84, 81, 61, 61] := by decide +kernel

/-! ## C20 -/

/-- Spec: value of an ascii85 digit. -/
def a85val (c : UInt8) : Option Nat :=
  if 33 ≤ c.toNat ∧ c.toNat ≤ 117 then some (c.toNat - 33) else none

/-- Spec: value of five digits, which has to fit in 32 bits. -/
def a85word (c0 c1 c2 c3 c4 : UInt8) : Option Nat := do
  let d0 ← a85val c0
  let d1 ← a85val c1
  let d2 ← a85val c2
  let d3 ← a85val c3
  let d4 ← a85val c4
  let w := (((d0 * 85 + d1) * 85 + d2) * 85 + d3) * 85 + d4
  if w < 2 ^ 32 then some w else none

/-- Spec: the four bytes of a word, most significant first. -/
def bytes4 (w : Nat) : List UInt8 :=
  [UInt8.ofNat (w / 2 ^ 24), UInt8.ofNat (w / 65536 % 256), UInt8.ofNat (w / 256 % 256), UInt8.ofNat (w % 256)]

/-- Spec: the standard ascii85 decoder (without the `<~ ~>` delimiters and white space): `z` stands
for four zero bytes, a final group of `n < 5` digits is padded with `u` and gives `n - 1` bytes. -/
def a85dec : List UInt8 → Option (List UInt8)
  | [] => some []
  | c :: rest =>
    if c = 122 then (a85dec rest).map fun r => [0, 0, 0, 0] ++ r
    else match rest with
      | c1 :: c2 :: c3 :: c4 :: rest' => do
        let w ← a85word c c1 c2 c3 c4
        let r ← a85dec rest'
        return bytes4 w ++ r
      | [c1, c2, c3] => (a85word c c1 c2 c3 117).map fun w => (bytes4 w).take 3
      | [c1, c2] => (a85word c c1 c2 117 117).map fun w => (bytes4 w).take 2
      | [c1] => (a85word c c1 117 117 117).map fun w => (bytes4 w).take 1
      | [] => none

theorem a85val_digit {d : Nat} (h : d < 85) : a85val (UInt8.ofNat (d + 33)) = some d ∧
    UInt8.ofNat (d + 33) ≠ 122 := by
  have h1 : (UInt8.ofNat (d + 33)).toNat = d + 33 := by rw [UInt8.toNat_ofNat']; omega
  constructor
  · unfold a85val
    rw [h1, if_pos (by omega)]
    simp
  · intro h2
    rw [h2] at h1
    have : (122 : UInt8).toNat = 122 := rfl
    omega

theorem a85u : a85val 117 = some 84 := by decide

theorem a85word_digits {w w' : Nat} (d0 d1 d2 d3 d4 : UInt8) {x0 x1 x2 x3 x4 : Nat}
    (h0 : a85val d0 = some x0) (h1 : a85val d1 = some x1) (h2 : a85val d2 = some x2)
    (h3 : a85val d3 = some x3) (h4 : a85val d4 = some x4)
    (hw : (((x0 * 85 + x1) * 85 + x2) * 85 + x3) * 85 + x4 = w') (h : w' < 2 ^ 32) :
    a85word d0 d1 d2 d3 d4 = some w' := by
  unfold a85word
  simp only [h0, h1, h2, h3, h4, Option.bind_eq_bind, Option.bind_some, hw]
  rw [if_pos h]

/-- The top `n` digits of `w`, padded with 84s. -/
theorem pad_bounds (w k : Nat) (hk : 0 < k) : w ≤ w / k * k + (k - 1) ∧ w / k * k + (k - 1) < w + k := by
  have h1 := Nat.div_add_mod w k
  have h2 := Nat.mod_lt w hk
  have h3 : k * (w / k) = w / k * k := Nat.mul_comm _ _
  omega

theorem dec85_full (w : Nat) (hw : w < 2 ^ 32) (r : List UInt8) :
    a85dec (digits85 5 w ++ r) = (a85dec r).map fun r => bytes4 w ++ r := by
  unfold digits85
  split_ifs with h
  · obtain ⟨rfl, -⟩ := h
    rw [List.cons_append, List.nil_append, a85dec.eq_def]
    rfl
  · simp only [List.take_succ_cons, List.take_zero, List.map_cons, List.map_nil, List.cons_append,
      List.nil_append, Nat.reducePow]
    rw [a85dec, if_neg (a85val_digit (by omega)).2]
    rw [a85word_digits (w := w) (w' := w) _ _ _ _ _ (a85val_digit (by omega)).1 (a85val_digit (by omega)).1
      (a85val_digit (by omega)).1 (a85val_digit (by omega)).1 (a85val_digit (by omega)).1 (by omega) hw]
    cases a85dec r <;> rfl

/-- C20: the standard decoder recovers the original bytes from every ascii85 encoding. -/
theorem c20_decodable (data : List UInt8) : a85dec (ascii85enc data) = some data := by
  match data with
  | [] => rfl
  | [a] =>
    have ha := u8_lt a
    simp only [ascii85enc, Nat.shiftLeft_eq, digits85]
    rw [if_neg (by omega)]
    generalize hw : a.toNat * 2 ^ 24 = w
    simp only [List.take_succ_cons, List.take_zero, List.map_cons, List.map_nil, Nat.reducePow] at hw ⊢
    rw [a85dec, if_neg (a85val_digit (by omega)).2]
    have hp := pad_bounds w 614125 (by omega)
    have e4 : w / 52200625 = w / 614125 / 85 := (Nat.div_div_eq_div_mul w 614125 85).symm
    rw [a85word_digits (w := w) (w' := w / 614125 * 614125 + (614125 - 1)) _ _ _ _ _ (a85val_digit (by omega)).1
      (a85val_digit (by omega)).1 a85u a85u a85u (by omega) (by omega)]
    simp only [Option.map_some, bytes4, List.take_succ_cons, List.take_zero, Nat.reducePow]
    generalize w / 614125 * 614125 + (614125 - 1) = v at hp
    rw [ofNat_eq (x := a) (by omega)]
  | [a, b] =>
    have ha := u8_lt a
    have hb := u8_lt b
    have e := word32 a.toNat b.toNat 0 0 ha hb (by omega) (by omega)
    rw [Nat.zero_shiftLeft, Nat.or_zero, Nat.or_zero] at e
    simp only [ascii85enc, e, digits85]
    rw [if_neg (by omega)]
    generalize hw : a.toNat * 2 ^ 24 + b.toNat * 65536 + 0 * 256 + 0 = w
    simp only [List.take_succ_cons, List.take_zero, List.map_cons, List.map_nil, Nat.reducePow] at hw ⊢
    rw [a85dec, if_neg (a85val_digit (by omega)).2]
    have hp := pad_bounds w 7225 (by omega)
    have e4 : w / 52200625 = w / 614125 / 85 := (Nat.div_div_eq_div_mul w 614125 85).symm
    have e3 : w / 614125 = w / 7225 / 85 := (Nat.div_div_eq_div_mul w 7225 85).symm
    rw [a85word_digits (w := w) (w' := w / 7225 * 7225 + (7225 - 1)) _ _ _ _ _ (a85val_digit (by omega)).1
      (a85val_digit (by omega)).1 (a85val_digit (by omega)).1 a85u a85u (by omega) (by omega)]
    simp only [Option.map_some, bytes4, List.take_succ_cons, List.take_zero, Nat.reducePow]
    generalize w / 7225 * 7225 + (7225 - 1) = v at hp
    rw [ofNat_eq (x := a) (by omega), ofNat_eq (x := b) (by omega)]
  | [a, b, c] =>
    have ha := u8_lt a
    have hb := u8_lt b
    have hc := u8_lt c
    have e := word32 a.toNat b.toNat c.toNat 0 ha hb hc (by omega)
    rw [Nat.or_zero] at e
    simp only [ascii85enc, e, digits85]
    rw [if_neg (by omega)]
    generalize hw : a.toNat * 2 ^ 24 + b.toNat * 65536 + c.toNat * 256 + 0 = w
    simp only [List.take_succ_cons, List.take_zero, List.map_cons, List.map_nil, Nat.reducePow] at hw ⊢
    rw [a85dec, if_neg (a85val_digit (by omega)).2]
    have hp := pad_bounds w 85 (by omega)
    have e4 : w / 52200625 = w / 614125 / 85 := (Nat.div_div_eq_div_mul w 614125 85).symm
    have e3 : w / 614125 = w / 7225 / 85 := (Nat.div_div_eq_div_mul w 7225 85).symm
    have e2 : w / 7225 = w / 85 / 85 := (Nat.div_div_eq_div_mul w 85 85).symm
    rw [a85word_digits (w := w) (w' := w / 85 * 85 + (85 - 1)) _ _ _ _ _ (a85val_digit (by omega)).1
      (a85val_digit (by omega)).1 (a85val_digit (by omega)).1 (a85val_digit (by omega)).1 a85u (by omega) (by omega)]
    simp only [Option.map_some, bytes4, List.take_succ_cons, List.take_zero, Nat.reducePow]
    generalize w / 85 * 85 + (85 - 1) = v at hp
    clear e2 e3 e4
    have v1 : v / 65536 = a.toNat * 256 + b.toNat := by omega
    rw [ofNat_eq (x := a) (by omega), ofNat_eq (x := b) (by omega), ofNat_eq (x := c) (by omega)]
  | a :: b :: c :: d :: rest =>
    have ha := u8_lt a
    have hb := u8_lt b
    have hc := u8_lt c
    have hd := u8_lt d
    rw [ascii85enc, word32 _ _ _ _ ha hb hc hd]
    generalize hw : a.toNat * 2 ^ 24 + b.toNat * 65536 + c.toNat * 256 + d.toNat = w
    rw [dec85_full w (by omega), c20_decodable rest]
    simp only [Option.map_some, bytes4, List.cons_append, List.nil_append]
    rw [ofNat_eq (x := a) (by omega), ofNat_eq (x := b) (by omega), ofNat_eq (x := c) (by omega),
      ofNat_eq (x := d) (by omega)]

/-- "Man " is `9jqo^`; four zero bytes are `z`; a single byte gives two digits. -/
example : ascii85enc [77, 97, 110, 32] = [57, 106, 113, 111, 94] ∧ ascii85enc [0, 0, 0, 0, 255] =
    [122, 114, 114] := by decide +kernel

/-! ## C21 -/

/-- C21 for control values below 128 (all controls the domains use): they are replayed exactly.
Missing: values 128 and above, see `c21_witness`. -/
theorem c21_controls_partial (v : List Nat) (h : ∀ c ∈ v, c < 128) :
    ∃ e, controlstr v = .ok e ∧ controlvec e = .ok v := by
  obtain ⟨e, h1, h2⟩ := c18_roundtrip (v.map fun c => UInt8.ofNat (c &&& 0xFF))
  refine ⟨base64enc e, by rw [controlstr, h1, Outcome.map_ok], ?_⟩
  rw [controlvec, c19_roundtrip, Outcome.bind_ok, h2, Outcome.map_ok, List.map_map]
  congr 1
  conv_rhs => rw [← List.map_id v]
  apply List.map_congr_left
  intro c hc
  have hc := h c hc
  have hn : (UInt8.ofNat (c &&& 0xFF)).toNat = c := by
    rw [and255, UInt8.toNat_ofNat']; omega
  simp only [Function.comp, sgn, hn, id, if_pos hc]
  omega

/-- C21 fails from 128 on: 200 comes back as 2^32 - 56, and 256 as 0. -/
theorem c21_witness :
    (controlstr [200]).bind controlvec = .ok [4294967240] ∧
    (controlstr [256]).bind controlvec = .ok [0] := by decide +kernel

example : (controlstr [0, 3, 3, 3, 3, 1, 127]).bind controlvec = .ok [0, 3, 3, 3, 3, 1, 127] := by
  decide +kernel

end Verif.Encode
