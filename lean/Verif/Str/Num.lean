import Verif.Str.CStr

/-!
# Integers as text (code/source/core/string.c:11-148)  -  C24, C25

## Model

`char` values are compared with ASCII constants only.  `base` is a positive `zpl_i32`, taken as a natural number.  A 64-bit unsigned value that is only divided
is taken as a natural number; `zpl__scan_zpl_u64` multiplies and adds modulo `2^64`, and signed overflow (undefined in C) is the fault
`arith`. -/

namespace Zpl.Num

open Str

/-- string.h:119-122 `zpl_char_is_digit`. -/
def isDigit (c : Byte) : Bool := 0x30#8 ≤ c ∧ c ≤ 0x39#8

/-- string.h:124-127 `zpl_char_is_hex_digit`. -/
def isHexDigit (c : Byte) : Bool := isDigit c ∨ (0x61#8 ≤ c ∧ c ≤ 0x66#8) ∨ (0x41#8 ≤ c ∧ c ≤ 0x46#8)

/-- string.h:138-146 `zpl_hex_digit_to_int` (called on hexadecimal digits only). -/
def hexDigitToInt (c : Byte) : Nat :=
  if isDigit c then c.toNat - 0x30
  else if 0x61#8 ≤ c ∧ c ≤ 0x66#8 then c.toNat - 0x61 + 10
  else c.toNat - 0x41 + 10

/-- string.c:22-28 / 52-59: the value of the character as a digit, `none` for `break`. -/
def scanDigit (base : Nat) (c : Byte) : Option Nat :=
  if isDigit c then some (c.toNat - 0x30)
  else if base = 16 ∧ isHexDigit c = true then some (hexDigitToInt c)
  else none

/-- string.c:51-64, the loop of `zpl__scan_zpl_u64`. -/
def scanU64Loop (base : Nat) : List Byte → BitVec 64 → Nat → Except Fault (BitVec 64 × Nat)
  | [], _, _ => .error .oob
  | c :: text, result, n =>
    match scanDigit base c with
    | some v => scanU64Loop base text (result * BitVec.ofNat 64 base + BitVec.ofNat 64 v) (n + 1)
    | none => .ok (result, n)

/-- string.c:20 / 49: `if (base == 16 && zpl_strncmp(text, "0x", 2) == 0) text += 2;`, the number of characters skipped. -/
def skip0x (base : Nat) (text : List Byte) : Except Fault Nat :=
  if base = 16 then do
    let r ← strncmp false text [0x30#8, 0x78#8, 0#8] 2
    .ok (if r = 0 then 2 else 0)
  else .ok 0

/-- string.c:45-69 `zpl__scan_zpl_u64`: the value and the number of characters consumed. -/
def scanU64 (text : List Byte) (base : Nat) : Except Fault (BitVec 64 × Nat) := do
  let k ← skip0x base text
  scanU64Loop base (text.drop k) 0 k

/-- string.c:76-81 / 92-97. -/
def defaultBase (str : List Byte) (base : Nat) : Except Fault Nat :=
  if base = 0 then do
    let n ← strlen str
    if n > 2 then do
      let r ← strncmp false str [0x30#8, 0x78#8, 0#8] 2
      .ok (if r = 0 then 16 else 10)
    else .ok 10
  else .ok base

/-- string.c:72-86 `zpl_str_to_u64`: the value and the offset of `*end_ptr`. -/
def strToU64 (str : List Byte) (base : Nat) : Except Fault (BitVec 64 × Nat) := do
  let base ← defaultBase str base
  scanU64 str base

/-- A signed 64-bit result, or undefined behaviour. -/
def i64 (x : Int) : Except Fault Int := if -(2 ^ 63) ≤ x ∧ x < 2 ^ 63 then .ok x else .error .arith

/-- string.c:22-34, the loop of `zpl__scan_zpl_i64`. -/
def scanI64Loop (base : Nat) : List Byte → Int → Nat → Except Fault (Int × Nat)
  | [], _, _ => .error .oob
  | c :: text, result, n =>
    match scanDigit base c with
    | some v => do
      let r1 ← i64 (result * base)
      let r2 ← i64 (r1 + v)
      scanI64Loop base text r2 (n + 1)
    | none => .ok (result, n)

/-- string.c:11-43 `zpl__scan_zpl_i64`. -/
def scanI64 (text : List Byte) (base : Nat) : Except Fault (Int × Nat) := do
  let c ← rd text 0
  let negative := c = 0x2D#8
  let k0 := if negative then 1 else 0
  let k ← skip0x base (text.drop k0)
  let (result, n) ← scanI64Loop base (text.drop (k0 + k)) 0 (k0 + k)
  if negative then do
    let r ← i64 (-result)
    .ok (r, n)
  else .ok (result, n)

/-- string.c:88-102 `zpl_str_to_i64`. -/
def strToI64 (str : List Byte) (base : Nat) : Except Fault (Int × Nat) := do
  let base ← defaultBase str base
  scanI64 str base

/-- string.c:105-108 `zpl__num_to_char_table`: digits, capitals, small letters, `@`, `$`, and the terminator. -/
def numToChar : List Byte :=
  [0x30#8, 0x31#8, 0x32#8, 0x33#8, 0x34#8, 0x35#8, 0x36#8, 0x37#8, 0x38#8, 0x39#8,
   0x41#8, 0x42#8, 0x43#8, 0x44#8, 0x45#8, 0x46#8, 0x47#8, 0x48#8, 0x49#8, 0x4A#8, 0x4B#8, 0x4C#8, 0x4D#8,
   0x4E#8, 0x4F#8, 0x50#8, 0x51#8, 0x52#8, 0x53#8, 0x54#8, 0x55#8, 0x56#8, 0x57#8, 0x58#8, 0x59#8, 0x5A#8,
   0x61#8, 0x62#8, 0x63#8, 0x64#8, 0x65#8, 0x66#8, 0x67#8, 0x68#8, 0x69#8, 0x6A#8, 0x6B#8, 0x6C#8, 0x6D#8,
   0x6E#8, 0x6F#8, 0x70#8, 0x71#8, 0x72#8, 0x73#8, 0x74#8, 0x75#8, 0x76#8, 0x77#8, 0x78#8, 0x79#8, 0x7A#8,
   0x40#8, 0x24#8, 0#8]

/-- string.c:122-125 / 138-141: `while (v > 0) { *buf++ = table[v % base]; v /= base; }`.  Base 0 divides by zero; base 1 never ends. -/
def emit (base : Nat) (v : Nat) (buf : List Byte) (pos : Nat) : Except Fault (List Byte × Nat) :=
  if h : v > 0 then
    if hb : base < 2 then .error (if base = 0 then .divZero else .diverge)
    else do
      let c ← rd numToChar (v % base)
      let buf ← wr buf pos c
      emit base (v / base) buf (pos + 1)
  else .ok (buf, pos)
termination_by v
decreasing_by exact Nat.div_lt_self h (by omega)

/-- string.c:121-128 / 137-144. -/
def emitNum (base : Nat) (v : Nat) (buf : List Byte) : Except Fault (List Byte × Nat) :=
  if v ≠ 0 then emit base v buf 0
  else do
    let buf ← wr buf 0 0x30#8
    .ok (buf, 1)

/-- string.c:134-148 `zpl_u64_to_str`: the bytes at `string`, afterwards. -/
def u64ToStr (value : BitVec 64) (string : List Byte) (base : Nat) : Except Fault (List Byte) := do
  let (buf, n) ← emitNum base value.toNat string
  let buf ← wr buf n 0
  strrev buf

/-- string.c:129 `if (negative) *buf++ = '-';` -/
def emitSign (negative : Bool) (buf : List Byte) (n : Nat) : Except Fault (List Byte × Nat) :=
  if negative then do
    let buf ← wr buf n 0x2D#8
    .ok (buf, n + 1)
  else .ok (buf, n)

/-- string.c:110-132 `zpl_i64_to_str`. -/
def i64ToStr (value : Int) (string : List Byte) (base : Nat) : Except Fault (List Byte) := do
  let negative := decide (value < 0)
  let v ← if negative then i64 (-value) else .ok value
  let (buf, n) ← emitNum base v.toNat string
  let (buf, n) ← emitSign negative buf n
  let buf ← wr buf n 0
  strrev buf

/-! ## Specification -/

/-- The value of a list of digits, most significant first. -/
def value (base : Nat) (ds : List Nat) : Nat := ds.foldl (fun acc d => acc * base + d) 0

/-- The character of a digit: `0`..`9`, then `A`..`Z`, then `a`..`z`, then `@` and `$`. -/
def digitChar (d : Nat) : Byte :=
  if d < 10 then BitVec.ofNat 8 (0x30 + d)
  else if d < 36 then BitVec.ofNat 8 (0x41 + (d - 10))
  else if d < 62 then BitVec.ofNat 8 (0x61 + (d - 36))
  else if d = 62 then 0x40#8 else 0x24#8

/-- `s` is the standard positional numeral of `n`: digits below the base, no leading zero. -/
def IsNumeral (base n : Nat) (s : List Byte) : Prop :=
  ∃ ds : List Nat, s = ds.map digitChar ∧ (∀ d ∈ ds, d < base) ∧ value base ds = n ∧ (ds = [0] ∨ ∃ d t, ds = d :: t ∧ d ≠ 0)

/-- The characters accepted as digits: decimal digits, and in base 16 the letters of both cases. -/
def digitVal (base : Nat) (c : Byte) : Option Nat :=
  let x := c.toNat
  if 48 ≤ x ∧ x ≤ 57 then some (x - 48)
  else if base = 16 ∧ 65 ≤ x ∧ x ≤ 70 then some (x - 55)
  else if base = 16 ∧ 97 ≤ x ∧ x ≤ 102 then some (x - 87)
  else none

/-- The values of the longest prefix of digit characters. -/
def leadingDigits (base : Nat) : List Byte → List Nat
  | [] => []
  | c :: s => match digitVal base c with
    | some d => d :: leadingDigits base s
    | none => []

/-- The text after the optional `0x`. -/
def after0x (base : Nat) (s : List Byte) : List Byte := if base = 16 ∧ [0x30#8, 0x78#8] <+: s then s.drop 2 else s

/-! ## Lemmas -/

theorem scanDigit_eq (base : Nat) (c : Byte) : scanDigit base c = digitVal base c := by
  by_cases hb : base = 16
  · subst hb; revert c; decide +kernel
  · have : ∀ c : Byte, isDigit c = decide (48 ≤ c.toNat ∧ c.toNat ≤ 57) := by decide +kernel
    simp [scanDigit, digitVal, hb, this]

theorem digitVal_zero (base : Nat) : digitVal base 0 = none := by
  unfold digitVal; simp

theorem foldl_mod (base : Nat) (ds : List Nat) (acc : Nat) :
    ds.foldl (fun (r : BitVec 64) d => r * BitVec.ofNat 64 base + BitVec.ofNat 64 d) (BitVec.ofNat 64 acc) =
      BitVec.ofNat 64 (ds.foldl (fun acc d => acc * base + d) acc) := by
  induction ds generalizing acc with
  | nil => rfl
  | cons d ds ih =>
    rw [List.foldl_cons, List.foldl_cons, ← ih, BitVec.ofNat_add, BitVec.ofNat_mul]

theorem scanU64Loop_ok (base : Nat) {s : List Byte} (hs : Text s) (rest : List Byte) (r : BitVec 64) (n : Nat) :
    scanU64Loop base (s ++ 0 :: rest) r n =
      .ok ((leadingDigits base s).foldl (fun r d => r * BitVec.ofNat 64 base + BitVec.ofNat 64 d) r, n + (leadingDigits base s).length) := by
  induction s generalizing r n with
  | nil => rw [List.nil_append, scanU64Loop, scanDigit_eq, digitVal_zero]; simp [leadingDigits]
  | cons c s ih =>
    have hc := Text.cons.1 hs
    rw [List.cons_append, scanU64Loop, scanDigit_eq, leadingDigits]
    cases h : digitVal base c with
    | none => simp
    | some d =>
      simp only [ih hc.2, List.foldl_cons, List.length_cons]
      congr 2; omega

theorem strncmp_0x {s : List Byte} (hs : Text s) (rest : List Byte) :
    ∃ r, strncmp false (s ++ 0 :: rest) [0x30#8, 0x78#8, 0#8] 2 = .ok r ∧ (r = 0 ↔ [0x30#8, 0x78#8] <+: s) := by
  have ht : Text [0x30#8, 0x78#8] := by unfold Text; decide
  obtain ⟨r, e, h⟩ := strncmp_ok false hs ht rest [] 2
  refine ⟨r, e, ?_⟩
  rw [h, List.prefix_iff_eq_take]
  exact eq_comm

theorem skip0x_ok (base : Nat) {s : List Byte} (hs : Text s) (rest : List Byte) :
    ∃ k, skip0x base (s ++ 0 :: rest) = .ok k ∧ (s ++ 0 :: rest).drop k = after0x base s ++ 0 :: rest ∧
      k + (after0x base s).length = s.length ∧ Text (after0x base s) := by
  unfold skip0x after0x
  by_cases hb : base = 16
  · obtain ⟨r, e, h⟩ := strncmp_0x hs rest
    rw [if_pos hb, e, except_ok_bind]
    by_cases hp : [0x30#8, 0x78#8] <+: s
    · have hlen : 2 ≤ s.length := hp.length_le
      rw [if_pos (h.2 hp), if_pos ⟨hb, hp⟩]
      refine ⟨2, rfl, ?_, ?_, fun c hc => hs c (List.mem_of_mem_drop hc)⟩
      · rw [List.drop_append_of_le_length hlen]
      · simp; omega
    · rw [if_neg (fun h0 => hp (h.1 h0)), if_neg (fun h' => hp h'.2)]
      exact ⟨0, rfl, rfl, by simp, hs⟩
  · rw [if_neg hb, if_neg (fun h => hb h.1)]
    exact ⟨0, rfl, rfl, by simp, hs⟩

theorem scanU64_ok (base : Nat) {s : List Byte} (hs : Text s) (rest : List Byte) :
    scanU64 (s ++ 0 :: rest) base =
      .ok (BitVec.ofNat 64 (value base (leadingDigits base (after0x base s))),
        s.length - (after0x base s).length + (leadingDigits base (after0x base s)).length) := by
  obtain ⟨k, e, h1, h2, h3⟩ := skip0x_ok base hs rest
  rw [scanU64, e, except_ok_bind, h1, scanU64Loop_ok base h3]
  have : k = s.length - (after0x base s).length := by omega
  rw [this]
  congr 2
  exact foldl_mod base _ 0

theorem value_mono (base : Nat) (hb : 1 ≤ base) (ds : List Nat) (a : Nat) : a ≤ ds.foldl (fun acc d => acc * base + d) a := by
  induction ds generalizing a with
  | nil => simp
  | cons d ds ih =>
    refine Nat.le_trans ?_ (ih (a * base + d))
    exact Nat.le_trans (Nat.le_mul_of_pos_right a hb) (Nat.le_add_right _ _)

theorem scanI64Loop_ok (base : Nat) (hb : 1 ≤ base) {s : List Byte} (hs : Text s) (rest : List Byte) (r n : Nat) :
    scanI64Loop base (s ++ 0 :: rest) r n =
      if (leadingDigits base s).foldl (fun acc d => acc * base + d) r < 2 ^ 63 ∨ leadingDigits base s = [] then
        .ok (((leadingDigits base s).foldl (fun acc d => acc * base + d) r : Nat), n + (leadingDigits base s).length)
      else .error .arith := by
  induction s generalizing r n with
  | nil => rw [List.nil_append, scanI64Loop, scanDigit_eq, digitVal_zero]; simp [leadingDigits]
  | cons c s ih =>
    have hc := Text.cons.1 hs
    rw [List.cons_append, scanI64Loop, scanDigit_eq, leadingDigits]
    cases h : digitVal base c with
    | none => simp
    | some d =>
      dsimp only
      rw [List.foldl_cons]
      have hm := value_mono base hb (leadingDigits base s) (r * base + d)
      by_cases h1 : (r * base : Nat) < 2 ^ 63
      · have e1 : i64 ((r : Int) * base) = .ok (((r * base : Nat) : Int)) := by
          unfold i64; rw [if_pos (by omega)]; simp
        rw [e1, except_ok_bind]
        by_cases h2 : (r * base + d : Nat) < 2 ^ 63
        · have e2 : i64 (((r * base : Nat) : Int) + d) = .ok (((r * base + d : Nat) : Int)) := by
            unfold i64; rw [if_pos (by omega)]; simp
          rw [e2, except_ok_bind, ih hc.2]
          by_cases h3 : (leadingDigits base s).foldl (fun acc d => acc * base + d) (r * base + d) < 2 ^ 63
          · rw [if_pos (.inl h3), if_pos (.inl h3)]
            rw [show n + 1 + (leadingDigits base s).length = n + (d :: leadingDigits base s).length from by rw [List.length_cons]; omega]
          · have h4 : leadingDigits base s ≠ [] := by intro h; rw [h] at h3; exact h3 h2
            rw [if_neg (fun h => h.elim h3 h4), if_neg (fun h => h.elim h3 (by simp))]
        · have e2 : i64 (((r * base : Nat) : Int) + d) = .error .arith := by
            unfold i64; rw [if_neg (by omega)]
          rw [e2, except_error_bind, if_neg (fun h => h.elim (fun h => by omega) (by simp))]
      · have e1 : i64 ((r : Int) * base) = .error .arith := by
          unfold i64
          rw [if_neg]
          have : ((r * base : Nat) : Int) = (r : Int) * base := by simp
          omega
        rw [e1, except_error_bind, if_neg (fun h => h.elim (fun h => by omega) (by simp))]

theorem i64_of_nat (n : Nat) : i64 (n : Int) = if n < 2 ^ 63 then .ok (n : Int) else .error .arith := by
  unfold i64
  by_cases h : n < 2 ^ 63
  · rw [if_pos h, if_pos (by omega)]
  · rw [if_neg h, if_neg (by omega)]

theorem i64_neg (n : Nat) (h : n < 2 ^ 63) : i64 (-(n : Int)) = .ok (-(n : Int)) := by
  unfold i64; rw [if_pos (by omega)]

/-- The text without the sign. -/
def unsign (s : List Byte) : List Byte := if s.head? = some 0x2D#8 then s.drop 1 else s

theorem scanI64_ok (base : Nat) (hb : 1 ≤ base) {s : List Byte} (hs : Text s) (rest : List Byte) :
    scanI64 (s ++ 0 :: rest) base =
      (let body := after0x base (unsign s)
       let v := value base (leadingDigits base body)
       if v < 2 ^ 63 then
         .ok (if s.head? = some 0x2D#8 then -(v : Int) else v, s.length - body.length + (leadingDigits base body).length)
       else .error .arith) := by
  have hus : Text (unsign s) := by
    unfold unsign; split
    · exact fun c hc => hs c (List.mem_of_mem_drop hc)
    · exact hs
  obtain ⟨k, e, h1, h2, h3⟩ := skip0x_ok base hus rest
  have hv : ∀ n, scanI64Loop base (after0x base (unsign s) ++ 0 :: rest) 0 n =
      if value base (leadingDigits base (after0x base (unsign s))) < 2 ^ 63 then
        .ok ((value base (leadingDigits base (after0x base (unsign s))) : Nat), n + (leadingDigits base (after0x base (unsign s))).length)
      else .error .arith := by
    intro n
    have := scanI64Loop_ok base hb h3 rest 0 n
    rw [show ((0 : Nat) : Int) = 0 from rfl] at this
    rw [this]
    unfold value
    generalize leadingDigits base (after0x base (unsign s)) = ds
    by_cases hds : ds = []
    · subst hds; simp
    · simp [hds]
  unfold scanI64
  cases s with
  | nil =>
    have hu : unsign ([] : List Byte) = [] := by simp [unsign]
    rw [hu] at e h1 h2 hv ⊢
    have hd : ¬ ((0#8 : Byte) = 0x2D#8) := by decide
    simp only [List.nil_append, List.drop_zero] at e h1 ⊢
    have hr : rd ((0 : Byte) :: rest) 0 = .ok 0#8 := rfl
    rw [hr, except_ok_bind]
    rw [if_neg hd, List.drop_zero, e, except_ok_bind, Nat.zero_add, h1, hv]
    by_cases hlt : value base (leadingDigits base (after0x base ([] : List Byte))) < 2 ^ 63
    · rw [if_pos hlt, if_pos hlt, except_ok_bind]
      dsimp only
      rw [if_neg hd, if_neg (by simp)]
      congr 2; simp at h2; simp; omega
    · rw [if_neg hlt, if_neg hlt, except_error_bind]
  | cons c s =>
    have hr : rd (c :: s ++ 0 :: rest) 0 = .ok c := rfl
    rw [hr, except_ok_bind]
    by_cases hc : c = 0x2D#8
    · have hu : unsign (c :: s) = s := by simp [unsign, hc]
      rw [hu] at e h1 h2 hv ⊢
      have hdr : (c :: s ++ 0 :: rest).drop 1 = s ++ 0 :: rest := rfl
      have hdr2 : (c :: s ++ 0 :: rest).drop (1 + k) = after0x base s ++ 0 :: rest := by
        rw [Nat.add_comm, ← List.drop_drop]
        rw [← h1]; rw [List.drop_drop, Nat.add_comm, ← List.drop_drop]; rfl
      dsimp only
      rw [if_pos hc, hdr, e, except_ok_bind, hdr2, hv]
      by_cases hlt : value base (leadingDigits base (after0x base s)) < 2 ^ 63
      · rw [if_pos hlt, if_pos hlt, except_ok_bind]
        dsimp only
        rw [if_pos hc, i64_neg _ hlt, except_ok_bind, if_pos (by simp [hc])]
        congr 2; simp; omega
      · rw [if_neg hlt, if_neg hlt, except_error_bind]
    · have hu : unsign (c :: s) = c :: s := by simp [unsign, hc]
      rw [hu] at e h1 h2 hv ⊢
      dsimp only
      rw [if_neg hc, List.drop_zero, e, except_ok_bind, Nat.zero_add, h1, hv]
      by_cases hlt : value base (leadingDigits base (after0x base (c :: s))) < 2 ^ 63
      · rw [if_pos hlt, if_pos hlt, except_ok_bind]
        dsimp only
        rw [if_neg hc, if_neg (by simp [hc])]
        congr 2; omega
      · rw [if_neg hlt, if_neg hlt, except_error_bind]

/-- The digits, least significant first. -/
def digitsLE (base : Nat) (v : Nat) : List Nat :=
  if h : v > 0 ∧ 2 ≤ base then v % base :: digitsLE base (v / base) else []
termination_by v
decreasing_by exact Nat.div_lt_self h.1 (by omega)

theorem digitsLE_pos {base v : Nat} (hv : v > 0) (hb : 2 ≤ base) : digitsLE base v = v % base :: digitsLE base (v / base) := by
  rw [digitsLE, dif_pos ⟨hv, hb⟩]

theorem digitsLE_zero (base : Nat) : digitsLE base 0 = [] := by
  rw [digitsLE, dif_neg (by omega)]

theorem digitsLE_lt {base : Nat} (hb : 2 ≤ base) (v : Nat) : ∀ d ∈ digitsLE base v, d < base := by
  induction v using Nat.strongRecOn with
  | _ v ih =>
    intro d hd
    by_cases hv : v > 0
    · rw [digitsLE_pos hv hb] at hd
      rcases List.mem_cons.1 hd with rfl | h
      · exact Nat.mod_lt _ (by omega)
      · exact ih _ (Nat.div_lt_self hv (by omega)) d h
    · have : v = 0 := by omega
      subst this; rw [digitsLE_zero] at hd; cases hd

theorem digitsLE_value {base : Nat} (hb : 2 ≤ base) (v : Nat) : value base (digitsLE base v).reverse = v := by
  induction v using Nat.strongRecOn with
  | _ v ih =>
    by_cases hv : v > 0
    · have := ih _ (Nat.div_lt_self hv (show 1 < base by omega))
      unfold value at this ⊢
      rw [digitsLE_pos hv hb, List.reverse_cons, List.foldl_append, this]
      simp only [List.foldl_cons, List.foldl_nil]
      rw [Nat.mul_comm]; exact Nat.div_add_mod v base
    · have : v = 0 := by omega
      subst this; rw [digitsLE_zero]; rfl

theorem digitsLE_last {base : Nat} (hb : 2 ≤ base) (v : Nat) (hv : v > 0) : ∃ t d, digitsLE base v = t ++ [d] ∧ d ≠ 0 := by
  induction v using Nat.strongRecOn with
  | _ v ih =>
    rw [digitsLE_pos hv hb]
    by_cases h : v / base > 0
    · obtain ⟨t, d, e, hd⟩ := ih _ (Nat.div_lt_self hv (show 1 < base by omega)) h
      exact ⟨v % base :: t, d, by rw [e]; rfl, hd⟩
    · have h0 : v / base = 0 := Nat.eq_zero_of_not_pos h
      refine ⟨[], v % base, by rw [h0, digitsLE_zero]; rfl, ?_⟩
      have := Nat.div_add_mod v base
      rw [h0] at this
      omega

theorem digitsLE_length {base : Nat} (hb : 2 ≤ base) (k : Nat) : ∀ v, v < base ^ k → (digitsLE base v).length ≤ k := by
  induction k with
  | zero => intro v h; have : v = 0 := by simpa using h
            subst this; rw [digitsLE_zero]; simp
  | succ k ih =>
    intro v h
    by_cases hv : v > 0
    · rw [digitsLE_pos hv hb, List.length_cons]
      have : v / base < base ^ k := by
        rw [Nat.div_lt_iff_lt_mul (by omega), ← Nat.pow_succ]; exact h
      have := ih _ this
      omega
    · have : v = 0 := by omega
      subst this; rw [digitsLE_zero]; simp

theorem table_ok {d : Nat} (hd : d < 64) : rd numToChar d = .ok (digitChar d) := by
  have : ∀ d : Fin 64, rd numToChar d.val = .ok (digitChar d.val) := by decide +kernel
  exact this ⟨d, hd⟩

theorem digitChar_ne_zero {d : Nat} (hd : d < 64) : digitChar d ≠ 0 := by
  have : ∀ d : Fin 64, digitChar d.val ≠ 0 := by decide +kernel
  exact this ⟨d, hd⟩

theorem emit_ok {base : Nat} (hb : 2 ≤ base) (hb2 : base ≤ 64) (v : Nat) : ∀ (done junk : List Byte), (digitsLE base v).length ≤ junk.length →
    emit base v (done ++ junk) done.length =
      .ok (done ++ (digitsLE base v).map digitChar ++ junk.drop (digitsLE base v).length, done.length + (digitsLE base v).length) := by
  induction v using Nat.strongRecOn with
  | _ v ih =>
    intro done junk hlen
    by_cases hv : v > 0
    · have e := digitsLE_pos hv hb
      rw [emit, dif_pos hv, dif_neg (by omega), table_ok (Nat.lt_of_lt_of_le (Nat.mod_lt _ (by omega)) hb2), except_ok_bind]
      rw [e] at hlen ⊢
      cases junk with
      | nil => simp at hlen
      | cons y junk =>
        rw [wr_ok (by simp), except_ok_bind, List.set_append_right _ _ (by omega), Nat.sub_self, List.set_cons_zero]
        have := ih _ (Nat.div_lt_self hv (show 1 < base by omega)) (done ++ [digitChar (v % base)]) junk (by simpa using hlen)
        simp only [List.length_append, List.length_singleton, List.append_assoc, List.singleton_append] at this
        rw [this]
        simp; omega
    · have : v = 0 := by omega
      subst this
      rw [emit, dif_neg hv]
      simp [digitsLE_zero]

/-- The digits written, in the order they are written. -/
def written (base v : Nat) : List Nat := if v = 0 then [0] else digitsLE base v

theorem written_numeral {base : Nat} (hb : 2 ≤ base) (v : Nat) : IsNumeral base v ((written base v).reverse.map digitChar) := by
  refine ⟨_, rfl, ?_, ?_, ?_⟩
  · intro d hd
    unfold written at hd
    split at hd
    · simp at hd; omega
    · exact digitsLE_lt hb v d (by simpa using hd)
  · unfold written
    split
    · simp [value, *]
    · exact digitsLE_value hb v
  · unfold written
    split
    · exact .inl rfl
    · obtain ⟨t, d, e, hd⟩ := digitsLE_last hb v (by omega)
      exact .inr ⟨d, t.reverse, by rw [e]; simp, hd⟩

theorem written_length {base : Nat} (hb : 2 ≤ base) (k v : Nat) (hk : 1 ≤ k) (hv : v < base ^ k) : (written base v).length ≤ k := by
  unfold written; split
  · simpa using hk
  · exact digitsLE_length hb k v hv

theorem written_lt {base : Nat} (hb : 2 ≤ base) (v : Nat) : ∀ d ∈ written base v, d < base := by
  unfold written; split
  · intro d hd; simp at hd; omega
  · exact digitsLE_lt hb v

theorem emitNum_ok {base : Nat} (hb : 2 ≤ base) (hb2 : base ≤ 64) (v : Nat) (buf : List Byte) (h : (written base v).length ≤ buf.length) :
    emitNum base v buf = .ok ((written base v).map digitChar ++ buf.drop (written base v).length, (written base v).length) := by
  unfold emitNum
  by_cases hv : v = 0
  · have e : written base v = [0] := by simp [written, hv]
    rw [e] at h ⊢
    rw [if_neg (by simp [hv])]
    cases buf with
    | nil => simp at h
    | cons x buf => simp [wr, digitChar]
  · have e : written base v = digitsLE base v := by simp [written, hv]
    rw [e] at h ⊢
    rw [if_pos hv]
    have := emit_ok hb hb2 v [] buf h
    simpa using this

theorem text_digits {base : Nat} (hb2 : base ≤ 64) (ds : List Nat) (h : ∀ d ∈ ds, d < base) : Text (ds.map digitChar) := by
  intro c hc
  obtain ⟨d, hd, rfl⟩ := List.mem_map.1 hc
  exact digitChar_ne_zero (Nat.lt_of_lt_of_le (h d hd) hb2)

theorem finish_ok {t : List Byte} (ht : Text t) (junk : List Byte) (hj : junk ≠ []) :
    (wr (t ++ junk) t.length 0 >>= strrev) = .ok (t.reverse ++ 0 :: junk.drop 1) := by
  cases junk with
  | nil => exact absurd rfl hj
  | cons x junk =>
    rw [wr_ok (by simp), except_ok_bind, List.set_append_right _ _ (by omega), Nat.sub_self, List.set_cons_zero, (C31_transforms ht junk).1]
    simp

theorem digitVal_digitChar {base d : Nat} (h : base ≤ 10 ∨ base = 16) (hd : d < base) : digitVal base (digitChar d) = some d := by
  rcases h with h | h
  · have : ∀ d : Fin 10, ∀ c : Byte, c = digitChar d.val → 48 ≤ c.toNat ∧ c.toNat ≤ 57 ∧ c.toNat - 48 = d.val := by decide +kernel
    obtain ⟨h1, h2, h3⟩ := this ⟨d, by omega⟩ _ rfl
    simp only [digitVal]
    rw [if_pos ⟨h1, h2⟩, h3]
  · subst h
    have : ∀ d : Fin 16, digitVal 16 (digitChar d.val) = some d.val := by decide +kernel
    exact this ⟨d, hd⟩

theorem leadingDigits_numeral {base : Nat} (h : base ≤ 10 ∨ base = 16) (ds : List Nat) (hd : ∀ d ∈ ds, d < base) :
    leadingDigits base (ds.map digitChar) = ds := by
  induction ds with
  | nil => rfl
  | cons d ds ih =>
    rw [List.map_cons, leadingDigits, digitVal_digitChar h (hd d (by simp))]
    simp only [ih (fun d' h' => hd d' (by simp [h']))]

theorem no_0x {base : Nat} (ds : List Nat) (hd : ∀ d ∈ ds, d < base) : after0x base (ds.map digitChar) = ds.map digitChar := by
  unfold after0x
  rw [if_neg]
  rintro ⟨rfl, h⟩
  have hmem : (0x78#8 : Byte) ∈ ds.map digitChar := h.subset (by simp)
  obtain ⟨d, h1, h2⟩ := List.mem_map.1 hmem
  have : ∀ d : Fin 16, digitChar d.val ≠ 0x78#8 := by decide +kernel
  exact this ⟨d, hd d h1⟩ h2

theorem defaultBase_ok (str : List Byte) {base : Nat} (hb : base ≠ 0) : defaultBase str base = .ok base := by
  unfold defaultBase; rw [if_neg hb]

theorem no_sign {base : Nat} (hb : base ≤ 64) (ds : List Nat) (hd : ∀ d ∈ ds, d < base) : (ds.map digitChar).head? ≠ some 0x2D#8 := by
  cases ds with
  | nil => simp
  | cons d ds =>
    have : ∀ d : Fin 64, digitChar d.val ≠ 0x2D#8 := by decide +kernel
    have h := this ⟨d, Nat.lt_of_lt_of_le (hd d (by simp)) hb⟩
    simpa using h

/-! ## Properties -/

/-- **C24, the text.** In every base from 2 to 64, `zpl_u64_to_str` writes the standard positional numeral of the value and a NUL, provided the
buffer has room for it: `k` digits and the NUL where the value is below `base^k`; the rest of the buffer is unchanged. -/
theorem C24_u64_text (x : BitVec 64) (buf : List Byte) {base k : Nat} (hb : 2 ≤ base) (hb2 : base ≤ 64) (hk : 1 ≤ k) (hx : x.toNat < base ^ k)
    (hbuf : k + 1 ≤ buf.length) :
    ∃ s, u64ToStr x buf base = .ok (s ++ 0 :: buf.drop (s.length + 1)) ∧ IsNumeral base x.toNat s ∧ s.length ≤ k ∧ Text s := by
  have hwl := written_length hb k x.toNat hk hx
  have hlt := written_lt hb x.toNat
  refine ⟨(written base x.toNat).reverse.map digitChar, ?_, written_numeral hb _, by simpa using hwl,
    text_digits hb2 _ (fun d hd => hlt d (by simpa using hd))⟩
  unfold u64ToStr
  rw [emitNum_ok hb hb2 _ _ (by omega), except_ok_bind]
  have := finish_ok (text_digits hb2 _ hlt) (buf.drop (written base x.toNat).length) (by
    intro h; have := congrArg List.length h; simp at this; omega)
  rw [List.length_map] at this
  dsimp only
  rw [this]
  simp [List.map_reverse]

/-- **C24, signed text.** The same for `zpl_i64_to_str`, with a `-` in front of a negative value. -/
theorem C24_i64_text (x : Int) (hlo : -(2 ^ 63) < x) (hhi : x < 2 ^ 63) (buf : List Byte) {base k : Nat} (hb : 2 ≤ base) (hb2 : base ≤ 64) (hk : 1 ≤ k)
    (hx : x.natAbs < base ^ k) (hbuf : k + 2 ≤ buf.length) :
    ∃ s, i64ToStr x buf base = .ok ((if x < 0 then 0x2D#8 :: s else s) ++ 0 :: buf.drop ((if x < 0 then 1 else 0) + s.length + 1)) ∧
      IsNumeral base x.natAbs s ∧ s.length ≤ k ∧ Text s := by
  have hwl := written_length hb k x.natAbs hk hx
  have hlt := written_lt hb x.natAbs
  refine ⟨(written base x.natAbs).reverse.map digitChar, ?_, written_numeral hb _, by simpa using hwl,
    text_digits hb2 _ (fun d hd => hlt d (by simpa using hd))⟩
  have hT := text_digits hb2 _ hlt
  unfold i64ToStr
  by_cases hn : x < 0
  · have e : i64 (-x) = .ok (-x) := by unfold i64; rw [if_pos (by omega)]
    have hv : (-x).toNat = x.natAbs := by omega
    simp only [hn, decide_true, if_true, e, except_ok_bind, hv]
    rw [emitNum_ok hb hb2 _ _ (by omega), except_ok_bind]
    generalize hw : written base x.natAbs = w at *
    obtain ⟨y, j, hj⟩ : ∃ y j, buf.drop w.length = y :: j := by
      match h : buf.drop w.length with
      | [] => have := congrArg List.length h; simp at this; omega
      | y :: j => exact ⟨y, j, rfl⟩
    have hjl : j = buf.drop (w.length + 1) := by
      rw [← List.drop_drop, hj]; rfl
    simp only [emitSign, if_true]
    rw [hj, wr_ok (by simp), except_ok_bind]
    have e2 : (w.map digitChar ++ y :: j).set w.length 0x2D#8 = (w.map digitChar ++ [0x2D#8]) ++ j := by
      have : w.length = (w.map digitChar).length := by simp
      rw [this, List.set_append_right _ _ (by omega), Nat.sub_self, List.set_cons_zero]; simp
    have hT2 : Text (w.map digitChar ++ [0x2D#8]) := by
      intro c hc
      rcases List.mem_append.1 hc with h | h
      · exact hT c h
      · simp at h; subst h; decide
    have := finish_ok hT2 j (by
      intro h; rw [hjl] at h; have := congrArg List.length h; simp at this; omega)
    rw [List.length_append, List.length_map, List.length_singleton] at this
    rw [except_ok_bind]
    dsimp only
    rw [e2, this, hjl, List.drop_drop]
    simp [List.map_reverse]
    congr 1; omega
  · have hv : x.toNat = x.natAbs := by omega
    simp only [hn, decide_false, Bool.false_eq_true, if_false, except_ok_bind, hv]
    rw [emitNum_ok hb hb2 _ _ (by omega), except_ok_bind]
    have := finish_ok hT (buf.drop (written base x.natAbs).length) (by
      intro h; have := congrArg List.length h; simp at this; omega)
    rw [List.length_map] at this
    simp only [emitSign, Bool.false_eq_true, if_false, except_ok_bind]
    rw [this]
    simp [List.map_reverse]

/-- **C24, round trip.** In the bases 2..10 and 16 parsing the text gives back the value and consumes all of it. -/
theorem C24_u64_round_trip (x : BitVec 64) (buf : List Byte) {base k : Nat} (hb : 2 ≤ base) (hb2 : base ≤ 10 ∨ base = 16) (hk : 1 ≤ k)
    (hx : x.toNat < base ^ k) (hbuf : k + 1 ≤ buf.length) :
    ∃ s rest, u64ToStr x buf base = .ok (s ++ 0 :: rest) ∧ Text s ∧ strToU64 (s ++ 0 :: rest) base = .ok (x, s.length) := by
  obtain ⟨s, e, ⟨ds, rfl, h2, h3, -⟩, -, hT⟩ := C24_u64_text x buf hb (by omega) hk hx hbuf
  refine ⟨_, _, e, hT, ?_⟩
  rw [strToU64, defaultBase_ok _ (by omega), except_ok_bind, scanU64_ok base hT, no_0x ds h2, leadingDigits_numeral hb2 ds h2, h3]
  simp

theorem C24_i64_round_trip (x : Int) (hlo : -(2 ^ 63) < x) (hhi : x < 2 ^ 63) (buf : List Byte) {base k : Nat} (hb : 2 ≤ base)
    (hb2 : base ≤ 10 ∨ base = 16) (hk : 1 ≤ k) (hx : x.natAbs < base ^ k) (hbuf : k + 2 ≤ buf.length) :
    ∃ s rest, i64ToStr x buf base = .ok (s ++ 0 :: rest) ∧ Text s ∧ strToI64 (s ++ 0 :: rest) base = .ok (x, s.length) := by
  obtain ⟨s, e, ⟨ds, rfl, h2, h3, -⟩, -, hT⟩ := C24_i64_text x hlo hhi buf hb (by omega) hk hx hbuf
  refine ⟨_, _, e, ?_, ?_⟩
  · split
    · exact Text.cons.2 ⟨by decide, hT⟩
    · exact hT
  · have hT2 : Text (if x < 0 then 0x2D#8 :: ds.map digitChar else ds.map digitChar) := by
      split
      · exact Text.cons.2 ⟨by decide, hT⟩
      · exact hT
    have hlt : x.natAbs < 2 ^ 63 := by omega
    rw [strToI64, defaultBase_ok _ (by omega), except_ok_bind, scanI64_ok base (by omega) hT2]
    by_cases hn : x < 0
    · have hu : unsign (0x2D#8 :: ds.map digitChar) = ds.map digitChar := by simp [unsign]
      rw [if_pos hn, hu]
      dsimp only
      rw [no_0x ds h2, leadingDigits_numeral hb2 ds h2, h3, if_pos hlt, if_pos (by simp)]
      congr 2
      · omega
      · simp; omega
    · have hu : unsign (ds.map digitChar) = ds.map digitChar := by
        unfold unsign; rw [if_neg (no_sign (by omega) ds h2)]
      rw [if_neg hn, hu]
      dsimp only
      rw [no_0x ds h2, leadingDigits_numeral hb2 ds h2, h3, if_pos hlt, if_neg (no_sign (by omega) ds h2)]
      congr 2
      · omega
      · simp

/-- Remark on C24: printing the least signed value negates it, which is undefined. -/
theorem C24_minimum_undefined (buf : List Byte) (base : Nat) : i64ToStr (-(2 ^ 63)) buf base = .error .arith := by
  simp [i64ToStr, i64]

/-- **C25, unsigned, partial.** On every text and in every base, `zpl_str_to_u64` returns the value modulo `2^64` of the longest prefix of digits after
an optional `0x` (base 16 only), and `end_ptr` is just past it.  Missing: in a base below 10 every decimal digit is
accepted, not only the digits below the base (`C25_digit_beyond_base`). -/
theorem C25_u64_partial {s : List Byte} (hs : Text s) (rest : List Byte) {base : Nat} (hb : base ≠ 0) :
    strToU64 (s ++ 0 :: rest) base =
      .ok (BitVec.ofNat 64 (value base (leadingDigits base (after0x base s))),
        s.length - (after0x base s).length + (leadingDigits base (after0x base s)).length) := by
  rw [strToU64, defaultBase_ok _ hb, except_ok_bind, scanU64_ok base hs]

/-- **C25, signed, partial.** `zpl_str_to_i64` does the same after an optional `-`, when the magnitude fits in 63 bits.  Missing: as for unsigned, and
a magnitude of `2^63` or more, where the signed arithmetic of the code overflows; that is undefined (here: the fault `arith`). -/
theorem C25_i64_partial {s : List Byte} (hs : Text s) (rest : List Byte) {base : Nat} (hb : base ≠ 0) :
    strToI64 (s ++ 0 :: rest) base =
      (let neg := s.head? = some 0x2D#8
       let body := after0x base (if neg then s.drop 1 else s)
       let v := value base (leadingDigits base body)
       if v < 2 ^ 63 then .ok (if neg then -(v : Int) else v, s.length - body.length + (leadingDigits base body).length) else .error .arith) := by
  rw [strToI64, defaultBase_ok _ hb, except_ok_bind, scanI64_ok base (by omega) hs]
  rfl

/-- **C25, base 0.** The base is 16 for a text of more than two characters beginning with `0x`, else 10. -/
theorem C25_base_detection {s : List Byte} (hs : Text s) (rest : List Byte) :
    strToU64 (s ++ 0 :: rest) 0 = strToU64 (s ++ 0 :: rest) (if 2 < s.length ∧ [0x30#8, 0x78#8] <+: s then 16 else 10) ∧
    strToI64 (s ++ 0 :: rest) 0 = strToI64 (s ++ 0 :: rest) (if 2 < s.length ∧ [0x30#8, 0x78#8] <+: s then 16 else 10) := by
  have key : defaultBase (s ++ 0 :: rest) 0 =
      defaultBase (s ++ 0 :: rest) (if 2 < s.length ∧ [0x30#8, 0x78#8] <+: s then 16 else 10) := by
    obtain ⟨r, e, h⟩ := strncmp_0x hs rest
    rw [defaultBase_ok _ (base := if 2 < s.length ∧ [0x30#8, 0x78#8] <+: s then 16 else 10) (by split <;> omega)]
    rw [defaultBase, if_pos rfl, strlen_ok hs, except_ok_bind]
    by_cases hl : 2 < s.length
    · rw [if_pos hl, e, except_ok_bind]
      simp [h, hl]
    · rw [if_neg hl, if_neg (fun h => hl h.1)]
  constructor
  · rw [strToU64, key]; rfl
  · rw [strToI64, key]; rfl

/-- In base 10 and 16 the characters accepted as digits are exactly those of the digits below the base. -/
theorem C25_digits_below_base {base : Nat} (hb : base = 10 ∨ base = 16) (c : Byte) (d : Nat) (h : digitVal base c = some d) : d < base := by
  rcases hb with rfl | rfl <;> (simp only [digitVal] at h; repeat' split at h) <;> simp at h <;> omega

/-- Deviation: in a base below 10 a decimal digit that is not below the base is taken as a digit, e.g. `"7"` in base 2 is 7. -/
theorem C25_digit_beyond_base {base d : Nat} (hb : 2 ≤ base) (hd : base ≤ d) (hd2 : d < 10) (rest : List Byte) :
    strToU64 (digitChar d :: 0 :: rest) base = .ok (BitVec.ofNat 64 d, 1) := by
  have hT : Text [digitChar d] := by
    intro c hc; simp at hc; subst hc; exact digitChar_ne_zero (by omega)
  have := C25_u64_partial hT rest (base := base) (by omega)
  rw [List.singleton_append] at this
  have hv := digitVal_digitChar (base := 10) (d := d) (.inl (by omega)) hd2
  have hv' : digitVal base (digitChar d) = some d := by
    simp only [digitVal] at hv ⊢
    split at hv
    · rename_i h; rw [if_pos h]; exact hv
    · simp at hv
  have hx : after0x base [digitChar d] = [digitChar d] := by
    unfold after0x; rw [if_neg (by omega)]
  rw [this, hx]
  simp [leadingDigits, hv', value]

/-! ## The hypotheses are met -/

/-- 255 in bases 2 and 16, and -10 in base 10. -/
example : u64ToStr 255#64 (List.replicate 9 7#8) 2 = .ok (List.replicate 8 0x31#8 ++ [0#8]) ∧
    (255#64 : BitVec 64).toNat < 2 ^ 8 ∧
    u64ToStr 255#64 (List.replicate 4 7#8) 16 = .ok [0x46#8, 0x46#8, 0#8, 7#8] ∧
    i64ToStr (-10) (List.replicate 4 7#8) 10 = .ok [0x2D#8, 0x31#8, 0x30#8, 0#8] ∧
    strToI64 [0x2D#8, 0x30#8, 0x78#8, 0x66#8, 0x7A#8, 0#8] 16 = .ok (-15, 4) ∧
    strToU64 [0x30#8, 0x78#8, 0x66#8, 0#8] 0 = .ok (15#64, 3) := by decide +kernel

end Zpl.Num
