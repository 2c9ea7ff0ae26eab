import Verif.Outcome
import Mathlib.Tactic.Common
import Mathlib.Data.List.Basic
import Mathlib.Data.Nat.Bitwise

/-!
# Model of utils/encode.cc

`std::string` is `List UInt8`; `char` is signed (as on x86-64): `sgn` gives the value of a `char`.
The loops over an index are written on the rest of the string.  String sizes are assumed to be
below 2^32 (the code indexes with `unsigned int`).
-/

namespace Verif.Encode

/-- Value of a (signed) `char`. -/
def sgn (b : UInt8) : Int := if b.toNat < 128 then (b.toNat : Int) else (b.toNat : Int) - 256

/-- Conversion of an integer to `char` (modulo 256). -/
def chr (z : Int) : UInt8 := UInt8.ofNat (z % 256).toNat

/-! ## Run-length coding -/

/-- encode.cc:8 -/
def maxrun : Nat := 127
/-- encode.cc:9 -/
def minrun : Nat := 3

/-- encode.cc:12-17 `cntsame`, on the string starting at `strt`. -/
def cntsame (c : UInt8) (rest : List UInt8) : Nat :=
  1 + ((rest.take (maxrun - 1)).takeWhile (· == c)).length

theorem cntsame_pos (c : UInt8) (rest : List UInt8) : 0 < cntsame c rest := by
  unfold cntsame; omega

/-- encode.cc:35-41 and 50-55: output the stored literal bytes. -/
def flush (buf dst : List UInt8) : Outcome (List UInt8) :=
  if buf.length > 0 then
    if buf.length < maxrun then .ok (dst ++ chr (buf.length - 1) :: buf) else .fatal
  else .ok dst

/-- encode.cc:19-57 `runlenenc`. -/
def encLoop : List UInt8 → List UInt8 → List UInt8 → Outcome (List UInt8)
  | [], buf, dst => flush buf dst
  | c :: rest, buf, dst =>
    let nsame := cntsame c rest
    if nsame < minrun then
      let buf' := buf ++ [c]
      if buf'.length = maxrun then encLoop rest [] (dst ++ chr (maxrun - 1) :: buf')
      else encLoop rest buf' dst
    else (flush buf dst).bind fun dst1 =>
      if nsame ≤ maxrun then encLoop ((c :: rest).drop nsame) [] (dst1 ++ [chr (1 - nsame), c])
      else .fatal
  termination_by l => l.length
  decreasing_by
    all_goals simp_wf
    have := cntsame_pos c rest
    omega

def runlenenc (data : List UInt8) : Outcome (List UInt8) := encLoop data [] []

/-- encode.cc:59-82 `runlendec`.  `data[i]` with `i == data.size()` is the terminating null
character, beyond that it is undefined. -/
def decLoop : List UInt8 → List UInt8 → Outcome (List UInt8)
  | [], dst => .ok dst
  | b :: rest, dst =>
    let n := sgn b
    if n < 0 then
      let len := -n + 1
      if len ≤ maxrun then
        match rest with
        | [] => .ok (dst ++ List.replicate len.toNat 0)
        | c :: rest' => decLoop rest' (dst ++ List.replicate len.toNat c)
      else .fatal
    else if n + 1 ≤ maxrun then
      let k := (n + 1).toNat
      if k ≤ rest.length then decLoop (rest.drop k) (dst ++ rest.take k)
      else if k = rest.length + 1 then .ok (dst ++ rest ++ [0])
      else .ub
    else .fatal
  termination_by l => l.length
  decreasing_by
    all_goals simp_wf
    all_goals omega

def runlendec (data : List UInt8) : Outcome (List UInt8) := decLoop data []

theorem sgn_chr {z : Int} (h1 : -128 ≤ z) (h2 : z < 128) : sgn (chr z) = z := by
  unfold sgn chr
  have : (UInt8.ofNat (z % 256).toNat).toNat = (z % 256).toNat := by
    rw [UInt8.toNat_ofNat']
    omega
  rw [this]
  split_ifs <;> omega

/-- The encoded bytes `e` decode to `d` wherever they stand. -/
def Dec (e d : List UInt8) : Prop := ∀ t acc, decLoop (e ++ t) acc = decLoop t (acc ++ d)

theorem dec_nil : Dec [] [] := by intro t acc; simp

theorem Dec.append {e1 d1 e2 d2 : List UInt8} (h1 : Dec e1 d1) (h2 : Dec e2 d2) :
    Dec (e1 ++ e2) (d1 ++ d2) := by
  intro t acc
  rw [List.append_assoc, h1, h2, List.append_assoc]

theorem dec_lit {buf : List UInt8} (h0 : 0 < buf.length) (h1 : buf.length ≤ maxrun) :
    Dec (chr (buf.length - 1) :: buf) buf := by
  intro t acc
  unfold maxrun at h1
  rw [List.cons_append, decLoop]
  simp only [sgn_chr (z := (buf.length : Int) - 1) (by omega) (by omega)]
  rw [if_neg (by omega), if_pos (by unfold maxrun; omega)]
  have : ((buf.length : Int) - 1 + 1).toNat = buf.length := by omega
  rw [this, if_pos (by simp), List.drop_left, List.take_left]

theorem dec_run {n : Nat} {c : UInt8} (h0 : 2 ≤ n) (h1 : n ≤ maxrun) :
    Dec [chr (1 - n), c] (List.replicate n c) := by
  intro t acc
  unfold maxrun at h1
  rw [List.cons_append, decLoop]
  simp only [sgn_chr (z := (1 : Int) - n) (by omega) (by omega)]
  rw [if_pos (by omega), if_pos (by unfold maxrun; omega)]
  have : (-((1 : Int) - n) + 1).toNat = n := by omega
  simp only [this, List.cons_append, List.nil_append]

theorem takeWhile_eq_replicate (c : UInt8) (l : List UInt8) :
    l.takeWhile (· == c) = List.replicate (l.takeWhile (· == c)).length c := by
  rw [List.eq_replicate_iff]
  refine ⟨rfl, fun b hb => ?_⟩
  have := List.all_takeWhile (p := (· == c)) (l := l)
  rw [List.all_eq_true] at this
  simpa using this b hb

theorem cntsame_spec (c : UInt8) (rest : List UInt8) :
    c :: rest = List.replicate (cntsame c rest) c ++ (c :: rest).drop (cntsame c rest) ∧
    cntsame c rest ≤ maxrun := by
  unfold cntsame
  constructor
  · rw [Nat.add_comm, List.replicate_succ, List.drop_succ_cons, List.cons_append]
    congr 1
    have h1 : (rest.take (maxrun - 1)).takeWhile (· == c) =
        rest.take ((rest.take (maxrun - 1)).takeWhile (· == c)).length := by
      have hp : ((rest.take (maxrun - 1)).takeWhile (· == c)) <+: rest :=
        (List.takeWhile_prefix _).trans (List.take_prefix _ _)
      exact List.prefix_iff_eq_take.1 hp
    rw [← takeWhile_eq_replicate]
    conv_lhs => rw [← List.take_append_drop ((rest.take (maxrun - 1)).takeWhile (· == c)).length rest]
    rw [← h1]
  · have := (List.takeWhile_prefix (· == c) (l := rest.take (maxrun - 1))).length_le
    rw [List.length_take] at this
    unfold maxrun at *
    omega

/-- The encoder's output decodes to the input, with its size. -/
theorem encLoop_spec (l buf dst D : List UInt8) (hd : Dec dst D) (hb : buf.length < maxrun)
    (hs : 127 * dst.length ≤ 128 * D.length) :
    ∃ out, encLoop l buf dst = .ok out ∧ Dec out (D ++ buf ++ l) ∧
      127 * out.length ≤ 128 * (D ++ buf ++ l).length + 127 := by
  induction l, buf, dst using encLoop.induct generalizing D with
  | case1 buf dst =>
    unfold encLoop flush
    split_ifs with h1
    · refine ⟨_, rfl, ?_, ?_⟩
      · rw [List.append_nil]
        exact hd.append (dec_lit h1 hb.le)
      · simp only [List.length_append, List.length_cons, List.length_nil]; omega
    · have : buf = [] := by
        cases buf with
        | nil => rfl
        | cons a b => simp at h1
      subst this
      refine ⟨_, rfl, by simpa using hd, ?_⟩
      simp only [List.length_append, List.length_nil]; omega
  | case2 c rest buf dst nsame h1 buf' h2 ih =>
    unfold encLoop
    dsimp only
    rw [if_pos h1, if_pos h2]
    have hlit : Dec (chr ((maxrun : Int) - 1) :: buf') buf' := by
      rw [← h2]; exact dec_lit (by rw [h2]; unfold maxrun; omega) h2.le
    have := ih (D ++ buf') (hd.append hlit) (by simp [maxrun]) (by
      simp only [List.length_append, List.length_cons, h2]; unfold maxrun; omega)
    simpa [buf'] using this
  | case3 c rest buf dst nsame h1 buf' h2 ih =>
    unfold encLoop
    dsimp only
    rw [if_pos h1, if_neg h2]
    have hl : buf'.length < maxrun := by
      have : buf'.length = buf.length + 1 := by simp [buf']
      unfold maxrun at *
      omega
    have := ih D hd hl hs
    simpa [buf'] using this
  | case4 c rest buf dst nsame h1 ih =>
    unfold encLoop
    dsimp only
    rw [if_neg h1]
    obtain ⟨e1, e2⟩ := cntsame_spec c rest
    have hn : 3 ≤ cntsame c rest := by unfold minrun at h1; omega
    have hrun := dec_run (n := cntsame c rest) (c := c) (by omega) e2
    have fin : ∀ dst1 D1, Dec dst1 D1 → D1 = D ++ buf →
        127 * dst1.length + 254 ≤ 128 * D1.length + 128 * cntsame c rest →
        ∃ out, (if cntsame c rest ≤ maxrun then
            encLoop ((c :: rest).drop (cntsame c rest)) [] (dst1 ++ [chr (1 - cntsame c rest), c])
          else .fatal) = .ok out ∧ Dec out (D ++ buf ++ c :: rest) ∧
          127 * out.length ≤ 128 * (D ++ buf ++ c :: rest).length + 127 := by
      intro dst1 D1 h2 h3 h4
      subst h3
      rw [if_pos e2]
      have := ih dst1 (D ++ buf ++ List.replicate (cntsame c rest) c) (h2.append hrun)
        (by simp [maxrun]) (by
          simp only [List.length_append, List.length_cons, List.length_nil, List.length_replicate] at *
          omega)
      rw [List.append_nil, List.append_assoc, ← e1] at this
      exact this
    unfold flush
    by_cases h2 : buf.length > 0
    · rw [if_pos h2, if_pos hb, Outcome.bind_ok]
      refine fin _ _ (hd.append (dec_lit h2 hb.le)) rfl ?_
      simp only [List.length_append, List.length_cons]
      omega
    · have : buf = [] := by
        cases buf with
        | nil => rfl
        | cons a b => simp at h2
      subst this
      rw [if_neg h2, Outcome.bind_ok]
      refine fin _ D hd (by simp) ?_
      omega

/-! ## Base 64 -/

/-- encode.cc:134-139 `base64tab`. -/
def base64tab : List UInt8 :=
  "ABCDEFGHIJKLMNOPQRSTUVWXYZabcdefghijklmnopqrstuvwxyz0123456789+/".toList.map fun c => UInt8.ofNat c.toNat

/-- `'='`. -/
def eqc : UInt8 := 61

/-- encode.cc:147-158: the four characters of a 24 bit word, most significant first. -/
def chars64 (b : Nat) : List UInt8 :=
  [(b >>> 18) &&& 0x3F, (b >>> 12) &&& 0x3F, (b >>> 6) &&& 0x3F, b &&& 0x3F].map fun ind => base64tab.getD ind 0

/-- encode.cc:141-171 `base64enc`, three bytes at a time; the last group is padded. -/
def base64enc : List UInt8 → List UInt8
  | [] => []
  | [x] => let e := chars64 (x.toNat <<< 16); [e.getD 0 0, e.getD 1 0, eqc, eqc]
  | [x, y] => let e := chars64 (x.toNat <<< 16 ||| y.toNat <<< 8); [e.getD 0 0, e.getD 1 0, e.getD 2 0, eqc]
  | x :: y :: z :: rest => chars64 (x.toNat <<< 16 ||| y.toNat <<< 8 ||| z.toNat) ++ base64enc rest

/-- encode.cc:176-181: the decoding table; zero for characters that are not in `base64tab`.
The table has 255 entries and is indexed by a signed `char`: negative indices are undefined. -/
def tab (c : UInt8) : Outcome Nat :=
  if sgn c < 0 then .ub
  else .ok (if c ∈ base64tab then base64tab.idxOf c else 0)

/-- encode.cc:173-199 `base64dec`.  Reading `data[data.size()]` gives the null character (as table
entry: 0); anything further is undefined. -/
def base64dec : List UInt8 → Outcome (List UInt8)
  | [] => .ok []
  | c0 :: c1 :: c2 :: c3 :: rest =>
    (tab c0).bind fun t0 => (tab c1).bind fun t1 =>
    (if c2 ≠ eqc then tab c2 else .ok 0).bind fun t2 =>
    (if c3 ≠ eqc then tab c3 else .ok 0).bind fun t3 =>
    let b := t0 <<< 18 ||| t1 <<< 12 ||| t2 <<< 6 ||| t3
    let d := UInt8.ofNat ((b &&& 0xFF0000) >>> 16) ::
      (if c2 ≠ eqc then [UInt8.ofNat ((b &&& 0xFF00) >>> 8)] else []) ++
      (if c3 ≠ eqc then [UInt8.ofNat (b &&& 0xFF)] else [])
    (base64dec rest).map fun r => d ++ r
  | [c0, c1, c2] =>
    (tab c0).bind fun t0 => (tab c1).bind fun t1 =>
    (if c2 ≠ eqc then tab c2 else .ok 0).bind fun t2 =>
    let b := t0 <<< 18 ||| t1 <<< 12 ||| t2 <<< 6
    .ok (UInt8.ofNat ((b &&& 0xFF0000) >>> 16) ::
      (if c2 ≠ eqc then [UInt8.ofNat ((b &&& 0xFF00) >>> 8)] else []) ++ [UInt8.ofNat (b &&& 0xFF)])
  | _ => .ub

/-! ## Ascii85 -/

/-- encode.cc:84-99 `digits85`: the `n` most significant of the five digits, or `z`. -/
def digits85 (n : Nat) (word : Nat) : List UInt8 :=
  if word = 0 ∧ n = 5 then [122]
  else ([word / 85 ^ 4 % 85, word / 85 ^ 3 % 85, word / 85 ^ 2 % 85, word / 85 % 85, word % 85].take n).map
    fun d => UInt8.ofNat (d + 33)

/-- encode.cc:101-127 `ascii85enc`. -/
def ascii85enc : List UInt8 → List UInt8
  | [] => []
  | [a] => digits85 2 (a.toNat <<< 24)
  | [a, b] => digits85 3 (a.toNat <<< 24 ||| b.toNat <<< 16)
  | [a, b, c] => digits85 4 (a.toNat <<< 24 ||| b.toNat <<< 16 ||| c.toNat <<< 8)
  | a :: b :: c :: d :: rest =>
    digits85 5 (a.toNat <<< 24 ||| b.toNat <<< 16 ||| c.toNat <<< 8 ||| d.toNat) ++ ascii85enc rest

/-! ## Saved controls -/

/-- plat2d.cc:257-262 `controlstr` (the same code as gridnav.cc:64-69 and traffic.cc:48-53). -/
def controlstr (controls : List Nat) : Outcome (List UInt8) :=
  (runlenenc (controls.map fun c => UInt8.ofNat (c &&& 0xFF))).map base64enc

/-- plat2d.cc:264-270 `controlvec`; each (signed) `char` is converted to a 32 bit `unsigned int`. -/
def controlvec (enc : List UInt8) : Outcome (List Nat) :=
  (base64dec enc).bind fun e => (runlendec e).map fun bytes => bytes.map fun b => (sgn b % 2 ^ 32).toNat

/-! ## Arithmetic -/

theorem tab64 (i : Nat) (h : i < 64) : tab (base64tab.getD i 0) = .ok i ∧ base64tab.getD i 0 ≠ eqc := by
  have : ∀ i : Fin 64, tab (base64tab.getD i.val 0) = .ok i.val ∧ base64tab.getD i.val 0 ≠ eqc := by
    decide +kernel
  exact this ⟨i, h⟩

theorem or_add (a b k : Nat) (h : b < 2 ^ k) : (a <<< k) ||| b = a * 2 ^ k + b := by
  rw [Nat.shiftLeft_eq, Nat.mul_comm, ← Nat.two_pow_add_eq_or_of_lt h]

theorem word24 (x y z : Nat) (hx : x < 256) (hy : y < 256) (hz : z < 256) :
    x <<< 16 ||| y <<< 8 ||| z = x * 65536 + y * 256 + z := by
  have : x <<< 16 ||| y <<< 8 = (x * 256 + y) <<< 8 := by
    rw [or_add x (y <<< 8) 16 (by rw [Nat.shiftLeft_eq]; omega)]
    simp only [Nat.shiftLeft_eq]
    omega
  rw [this, or_add _ _ 8 (by omega)]
  omega

theorem word32 (x y z w : Nat) (hx : x < 256) (hy : y < 256) (hz : z < 256) (hw : w < 256) :
    x <<< 24 ||| y <<< 16 ||| z <<< 8 ||| w = x * 2 ^ 24 + y * 65536 + z * 256 + w := by
  have e : x <<< 24 ||| y <<< 16 ||| z <<< 8 = (x * 65536 + y * 256 + z) <<< 8 := by
    rw [← word24 x y z hx hy hz, Nat.shiftLeft_or_distrib, Nat.shiftLeft_or_distrib,
      ← Nat.shiftLeft_add, ← Nat.shiftLeft_add]
  rw [e, or_add _ _ 8 (by omega)]
  omega

theorem word4x6 (a b c d : Nat) (ha : a < 64) (hb : b < 64) (hc : c < 64) (hd : d < 64) :
    a <<< 18 ||| b <<< 12 ||| c <<< 6 ||| d = a * 2 ^ 18 + b * 4096 + c * 64 + d := by
  have e1 : a <<< 18 ||| b <<< 12 = (a * 64 + b) <<< 12 := by
    rw [or_add a (b <<< 12) 18 (by rw [Nat.shiftLeft_eq]; omega)]
    simp only [Nat.shiftLeft_eq]; omega
  have e2 : (a * 64 + b) <<< 12 ||| c <<< 6 = ((a * 64 + b) * 64 + c) <<< 6 := by
    rw [or_add _ (c <<< 6) 12 (by rw [Nat.shiftLeft_eq]; omega)]
    simp only [Nat.shiftLeft_eq]; omega
  rw [e1, e2, or_add _ _ 6 (by omega)]
  omega

theorem and63 (b : Nat) : b &&& 0x3F = b % 64 := Nat.and_two_pow_sub_one_eq_mod b 6
theorem and255 (b : Nat) : b &&& 0xFF = b % 256 := Nat.and_two_pow_sub_one_eq_mod b 8
theorem byte2 (b : Nat) : (b &&& 0xFF0000) >>> 16 = b / 65536 % 256 := by
  rw [Nat.shiftRight_and_distrib, show 0xFF0000 >>> 16 = 0xFF from rfl, and255, Nat.shiftRight_eq_div_pow]
theorem byte1 (b : Nat) : (b &&& 0xFF00) >>> 8 = b / 256 % 256 := by
  rw [Nat.shiftRight_and_distrib, show 0xFF00 >>> 8 = 0xFF from rfl, and255, Nat.shiftRight_eq_div_pow]

theorem ofNat_eq {x : UInt8} {n : Nat} (h : n = x.toNat) : UInt8.ofNat n = x := by
  subst h; simp

theorem chars64_eq (b : Nat) : chars64 b =
    [base64tab.getD (b / 2 ^ 18 % 64) 0, base64tab.getD (b / 4096 % 64) 0, base64tab.getD (b / 64 % 64) 0,
      base64tab.getD (b % 64) 0] := by
  simp only [chars64, List.map_cons, List.map_nil, and63, Nat.shiftRight_eq_div_pow]

theorem u8_lt (x : UInt8) : x.toNat < 256 := x.toNat_lt

theorem dec64_full (x y z : UInt8) (r : List UInt8) :
    base64dec (chars64 (x.toNat <<< 16 ||| y.toNat <<< 8 ||| z.toNat) ++ r) =
      (base64dec r).map fun r => x :: y :: z :: r := by
  have hx := u8_lt x
  have hy := u8_lt y
  have hz := u8_lt z
  rw [word24 _ _ _ hx hy hz, chars64_eq]
  generalize hb : x.toNat * 65536 + y.toNat * 256 + z.toNat = b
  simp only [List.cons_append, List.nil_append, base64dec]
  rw [(tab64 (b / 2 ^ 18 % 64) (by omega)).1, (tab64 (b / 4096 % 64) (by omega)).1]
  simp only [ne_eq, (tab64 (b / 64 % 64) (by omega)).2, (tab64 (b % 64) (by omega)).2, not_false_eq_true,
    if_true]
  rw [(tab64 (b / 64 % 64) (by omega)).1, (tab64 (b % 64) (by omega)).1]
  simp only [Outcome.bind_ok]
  rw [word4x6 _ _ _ _ (by omega) (by omega) (by omega) (by omega), byte2, byte1, and255]
  rw [ofNat_eq (x := x) (by omega), ofNat_eq (x := y) (by omega), ofNat_eq (x := z) (by omega)]
  simp

theorem dec64_two (x y : UInt8) :
    base64dec (base64enc [x, y]) = .ok [x, y] := by
  have hx := u8_lt x
  have hy := u8_lt y
  have e := word24 x.toNat y.toNat 0 hx hy (by omega)
  rw [Nat.or_zero] at e
  simp only [base64enc, e, chars64_eq]
  generalize hb : x.toNat * 65536 + y.toNat * 256 + 0 = b
  simp only [List.getD_cons_zero, List.getD_cons_succ, base64dec]
  rw [(tab64 (b / 2 ^ 18 % 64) (by omega)).1, (tab64 (b / 4096 % 64) (by omega)).1]
  simp only [ne_eq, (tab64 (b / 64 % 64) (by omega)).2, not_false_eq_true, not_true_eq_false,
    if_true, if_false]
  rw [(tab64 (b / 64 % 64) (by omega)).1]
  simp only [Outcome.bind_ok]
  rw [word4x6 _ _ _ _ (by omega) (by omega) (by omega) (by omega), byte2, byte1]
  rw [ofNat_eq (x := x) (by omega), ofNat_eq (x := y) (by omega)]
  simp

theorem dec64_one (x : UInt8) : base64dec (base64enc [x]) = .ok [x] := by
  have hx := u8_lt x
  have e : x.toNat <<< 16 = x.toNat * 65536 := by rw [Nat.shiftLeft_eq]
  simp only [base64enc, e, chars64_eq]
  generalize hb : x.toNat * 65536 = b
  simp only [List.getD_cons_zero, List.getD_cons_succ, base64dec]
  rw [(tab64 (b / 2 ^ 18 % 64) (by omega)).1, (tab64 (b / 4096 % 64) (by omega)).1]
  simp only [ne_eq, not_true_eq_false, if_false, Outcome.bind_ok]
  rw [word4x6 _ _ _ _ (by omega) (by omega) (by omega) (by omega), byte2]
  rw [ofNat_eq (x := x) (by omega)]
  simp

end Verif.Encode
