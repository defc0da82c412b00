import Verif.Str.CStr

/-!
# UTF-8 (code/source/core/string.c:316-449)  -  C26, C27; counting code points (code/header/core/string.h:187-228)  -  C66

## Model

`zpl_rune` is a 32-bit integer; `char` data is `zpl_u8`.  The arithmetic shift in `zpl_utf8_decode` is the usual one. -/

namespace Zpl.Utf8

open Str

/-- string.c:316-333 `zpl__utf8_first`. -/
def utf8First : List Byte :=
  [0xf0#8, 0xf0#8, 0xf0#8, 0xf0#8, 0xf0#8, 0xf0#8, 0xf0#8, 0xf0#8, 0xf0#8, 0xf0#8, 0xf0#8, 0xf0#8, 0xf0#8, 0xf0#8, 0xf0#8, 0xf0#8,
   0xf0#8, 0xf0#8, 0xf0#8, 0xf0#8, 0xf0#8, 0xf0#8, 0xf0#8, 0xf0#8, 0xf0#8, 0xf0#8, 0xf0#8, 0xf0#8, 0xf0#8, 0xf0#8, 0xf0#8, 0xf0#8,
   0xf0#8, 0xf0#8, 0xf0#8, 0xf0#8, 0xf0#8, 0xf0#8, 0xf0#8, 0xf0#8, 0xf0#8, 0xf0#8, 0xf0#8, 0xf0#8, 0xf0#8, 0xf0#8, 0xf0#8, 0xf0#8,
   0xf0#8, 0xf0#8, 0xf0#8, 0xf0#8, 0xf0#8, 0xf0#8, 0xf0#8, 0xf0#8, 0xf0#8, 0xf0#8, 0xf0#8, 0xf0#8, 0xf0#8, 0xf0#8, 0xf0#8, 0xf0#8,
   0xf0#8, 0xf0#8, 0xf0#8, 0xf0#8, 0xf0#8, 0xf0#8, 0xf0#8, 0xf0#8, 0xf0#8, 0xf0#8, 0xf0#8, 0xf0#8, 0xf0#8, 0xf0#8, 0xf0#8, 0xf0#8,
   0xf0#8, 0xf0#8, 0xf0#8, 0xf0#8, 0xf0#8, 0xf0#8, 0xf0#8, 0xf0#8, 0xf0#8, 0xf0#8, 0xf0#8, 0xf0#8, 0xf0#8, 0xf0#8, 0xf0#8, 0xf0#8,
   0xf0#8, 0xf0#8, 0xf0#8, 0xf0#8, 0xf0#8, 0xf0#8, 0xf0#8, 0xf0#8, 0xf0#8, 0xf0#8, 0xf0#8, 0xf0#8, 0xf0#8, 0xf0#8, 0xf0#8, 0xf0#8,
   0xf0#8, 0xf0#8, 0xf0#8, 0xf0#8, 0xf0#8, 0xf0#8, 0xf0#8, 0xf0#8, 0xf0#8, 0xf0#8, 0xf0#8, 0xf0#8, 0xf0#8, 0xf0#8, 0xf0#8, 0xf0#8,
   0xf1#8, 0xf1#8, 0xf1#8, 0xf1#8, 0xf1#8, 0xf1#8, 0xf1#8, 0xf1#8, 0xf1#8, 0xf1#8, 0xf1#8, 0xf1#8, 0xf1#8, 0xf1#8, 0xf1#8, 0xf1#8,
   0xf1#8, 0xf1#8, 0xf1#8, 0xf1#8, 0xf1#8, 0xf1#8, 0xf1#8, 0xf1#8, 0xf1#8, 0xf1#8, 0xf1#8, 0xf1#8, 0xf1#8, 0xf1#8, 0xf1#8, 0xf1#8,
   0xf1#8, 0xf1#8, 0xf1#8, 0xf1#8, 0xf1#8, 0xf1#8, 0xf1#8, 0xf1#8, 0xf1#8, 0xf1#8, 0xf1#8, 0xf1#8, 0xf1#8, 0xf1#8, 0xf1#8, 0xf1#8,
   0xf1#8, 0xf1#8, 0xf1#8, 0xf1#8, 0xf1#8, 0xf1#8, 0xf1#8, 0xf1#8, 0xf1#8, 0xf1#8, 0xf1#8, 0xf1#8, 0xf1#8, 0xf1#8, 0xf1#8, 0xf1#8,
   0xf1#8, 0xf1#8, 0x02#8, 0x02#8, 0x02#8, 0x02#8, 0x02#8, 0x02#8, 0x02#8, 0x02#8, 0x02#8, 0x02#8, 0x02#8, 0x02#8, 0x02#8, 0x02#8,
   0x02#8, 0x02#8, 0x02#8, 0x02#8, 0x02#8, 0x02#8, 0x02#8, 0x02#8, 0x02#8, 0x02#8, 0x02#8, 0x02#8, 0x02#8, 0x02#8, 0x02#8, 0x02#8,
   0x13#8, 0x03#8, 0x03#8, 0x03#8, 0x03#8, 0x03#8, 0x03#8, 0x03#8, 0x03#8, 0x03#8, 0x03#8, 0x03#8, 0x03#8, 0x23#8, 0x03#8, 0x03#8,
   0x34#8, 0x04#8, 0x04#8, 0x04#8, 0x44#8, 0xf1#8, 0xf1#8, 0xf1#8, 0xf1#8, 0xf1#8, 0xf1#8, 0xf1#8, 0xf1#8, 0xf1#8, 0xf1#8, 0xf1#8]

/-- string.c:340-342 `zpl__utf8_accept_ranges`. -/
def acceptRanges : List (Byte × Byte) := [(0x80#8, 0xbf#8), (0xa0#8, 0xbf#8), (0x80#8, 0x9f#8), (0x90#8, 0xbf#8), (0x80#8, 0x8f#8)]

/-- `ZPL_RUNE_INVALID`. -/
def runeInvalid : BitVec 32 := 0xfffd#32

/-- string.c:371-398, from the second byte on; `sz` is the expected number of bytes. -/
def decodeTail (str : List Byte) (s0 sz : Byte) (accept : Byte × Byte) : Except Fault (Nat × BitVec 32) := do
  let b1 ← rd str 1
  if b1 < accept.1 ∨ accept.2 < b1 then .ok (1, runeInvalid)
  else if sz = 2#8 then
    .ok (2, (s0.setWidth 32 &&& 0x1f#32) <<< 6 ||| (b1.setWidth 32 &&& 0x3f#32))
  else do
    let b2 ← rd str 2
    if ¬ (0x80#8 ≤ b2 ∧ b2 ≤ 0xbf#8) then .ok (1, runeInvalid)
    else if sz = 3#8 then
      .ok (3, (s0.setWidth 32 &&& 0x1f#32) <<< 12 ||| (b1.setWidth 32 &&& 0x3f#32) <<< 6 ||| (b2.setWidth 32 &&& 0x3f#32))
    else do
      let b3 ← rd str 3
      if ¬ (0x80#8 ≤ b3 ∧ b3 ≤ 0xbf#8) then .ok (1, runeInvalid)
      else
        .ok (4, (s0.setWidth 32 &&& 0x07#32) <<< 18 ||| (b1.setWidth 32 &&& 0x3f#32) <<< 12 ||| (b2.setWidth 32 &&& 0x3f#32) <<< 6 |||
          (b3.setWidth 32 &&& 0x3f#32))

/-- string.c:344-404 `zpl_utf8_decode`: the width returned and the code point stored. -/
def decode (str : List Byte) (strLen : Nat) : Except Fault (Nat × BitVec 32) :=
  if strLen > 0 then do
    let s0 ← rd str 0
    let x ← rd utf8First s0.toNat
    if 0xf0#8 ≤ x then
      let mask := ((x.setWidth 32 : BitVec 32) <<< 31).sshiftRight 31
      .ok (1, (s0.setWidth 32 &&& ~~~mask) ||| (runeInvalid &&& mask))
    else if s0 < 0x80#8 then .ok (1, s0.setWidth 32)
    else do
      let accept ← rd acceptRanges (x >>> 4).toNat
      if strLen < (x &&& 7#8).toNat then .ok (1, runeInvalid)
      else decodeTail str s0 (x &&& 7#8) accept
  else .ok (0, runeInvalid)

/-- Storing the bytes of `bs` at offset `k`, one after the other. -/
def store : List Byte → Nat → List Byte → Except Fault (List Byte)
  | buf, _, [] => .ok buf
  | buf, k, b :: bs => do
    let buf ← wr buf k b
    store buf (k + 1) bs

/-- string.c:414-449 `zpl_utf8_encode_rune`: the bytes at `buf` afterwards, and the number of bytes. -/
def encodeRune (buf : List Byte) (r : BitVec 32) : Except Fault (List Byte × Nat) :=
  let mask : Byte := 0x3f#8
  if r.toNat ≤ 2 ^ 7 - 1 then do
    .ok (← store buf 0 [r.setWidth 8], 1)
  else if r.toNat ≤ 2 ^ 11 - 1 then do
    .ok (← store buf 0 [0xc0#8 ||| (r >>> 6).setWidth 8, 0x80#8 ||| (r.setWidth 8 &&& mask)], 2)
  else if r.toNat > 0x10ffff ∨ (0xd800 ≤ r.toNat ∧ r.toNat ≤ 0xdfff) then
    let r := runeInvalid
    do .ok (← store buf 0 [0xe0#8 ||| (r >>> 12).setWidth 8, 0x80#8 ||| ((r >>> 6).setWidth 8 &&& mask), 0x80#8 ||| (r.setWidth 8 &&& mask)], 3)
  else if r.toNat ≤ 2 ^ 16 - 1 then do
    .ok (← store buf 0 [0xe0#8 ||| (r >>> 12).setWidth 8, 0x80#8 ||| ((r >>> 6).setWidth 8 &&& mask), 0x80#8 ||| (r.setWidth 8 &&& mask)], 3)
  else do
    .ok (← store buf 0 [0xf0#8 ||| (r >>> 18).setWidth 8, 0x80#8 ||| ((r >>> 12).setWidth 8 &&& mask),
      0x80#8 ||| ((r >>> 6).setWidth 8 &&& mask), 0x80#8 ||| (r.setWidth 8 &&& mask)], 4)

/-- string.h:191-201 / 212-222: by how much `str` moves, `none` for `return -1`. -/
def leadInc (c : Byte) : Option Nat :=
  if c < 0x80#8 then some 1
  else if c &&& 0xe0#8 = 0xc0#8 then some 2
  else if c &&& 0xf0#8 = 0xe0#8 then some 3
  else if c &&& 0xf8#8 = 0xf0#8 then some 4
  else none

/-- string.h:187-206 `zpl_utf8_strlen`.  The fuel bounds the number of characters. -/
def utf8StrlenLoop : Nat → List Byte → Nat → Int → Except Fault Int
  | 0, _, _, _ => .error .diverge
  | fuel + 1, str, p, count => do
    let c ← rd str p
    if c = 0 then .ok count
    else match leadInc c with
      | some inc => utf8StrlenLoop fuel str (p + inc) (count + 1)
      | none => .ok (-1)

def utf8Strlen (str : List Byte) : Except Fault Int := utf8StrlenLoop (str.length + 1) str 0 0

/-! ## Specification -/

/-- A Unicode scalar value. -/
def Scalar (r : Nat) : Prop := r ≤ 0x10FFFF ∧ ¬ (0xD800 ≤ r ∧ r ≤ 0xDFFF)

instance (r : Nat) : Decidable (Scalar r) := by unfold Scalar; infer_instance

/-- The UTF-8 encoding of a scalar value (RFC 3629, section 3). -/
def enc (r : Nat) : List Byte :=
  if r < 0x80 then [BitVec.ofNat 8 r]
  else if r < 0x800 then [BitVec.ofNat 8 (0xC0 + r / 64), BitVec.ofNat 8 (0x80 + r % 64)]
  else if r < 0x10000 then [BitVec.ofNat 8 (0xE0 + r / 4096), BitVec.ofNat 8 (0x80 + r / 64 % 64), BitVec.ofNat 8 (0x80 + r % 64)]
  else [BitVec.ofNat 8 (0xF0 + r / 262144), BitVec.ofNat 8 (0x80 + r / 4096 % 64), BitVec.ofNat 8 (0x80 + r / 64 % 64),
    BitVec.ofNat 8 (0x80 + r % 64)]

/-! ## Lemmas -/

theorem store_ok (bs : List Byte) : ∀ (done junk : List Byte), bs.length ≤ junk.length →
    store (done ++ junk) done.length bs = .ok (done ++ bs ++ junk.drop bs.length) := by
  induction bs with
  | nil => intro done junk _; simp [store]
  | cons b bs ih =>
    intro done junk h
    cases junk with
    | nil => simp at h
    | cons x junk =>
      rw [store, wr_ok (by simp), except_ok_bind, List.set_append_right _ _ (by omega), Nat.sub_self, List.set_cons_zero]
      have := ih (done ++ [b]) junk (by simpa using h)
      simp only [List.length_append, List.length_singleton, List.append_assoc, List.singleton_append] at this
      rw [this]
      simp

theorem store_zero (bs buf : List Byte) (h : bs.length ≤ buf.length) : store buf 0 bs = .ok (bs ++ buf.drop bs.length) := by
  have := store_ok bs [] buf h
  simpa using this

theorem byte_ext {a : Byte} {n : Nat} (h : a.toNat = n) : a = BitVec.ofNat 8 n := by
  apply BitVec.eq_of_toNat_eq
  rw [BitVec.toNat_ofNat, ← h, Nat.mod_eq_of_lt a.isLt]

theorem cont_byte (x : BitVec 32) : 0x80#8 ||| (x.setWidth 8 &&& 0x3f#8) = BitVec.ofNat 8 (0x80 + x.toNat % 64) := by
  have h : ∀ b : Byte, (0x80#8 ||| (b &&& 0x3f#8)).toNat = 0x80 + b.toNat % 64 := by decide +kernel
  apply byte_ext
  rw [h, BitVec.toNat_setWidth]
  omega

theorem lead_byte {k : Byte} {m : Nat} (hk : ∀ b : Byte, b.toNat < m → (k ||| b).toNat = k.toNat + b.toNat) (x : BitVec 32) (hx : x.toNat < m) (hm : m ≤ 256) :
    k ||| x.setWidth 8 = BitVec.ofNat 8 (k.toNat + x.toNat) := by
  have e : (x.setWidth 8 : Byte).toNat = x.toNat := by
    rw [BitVec.toNat_setWidth, Nat.mod_eq_of_lt (by omega)]
  apply byte_ext
  rw [hk _ (by omega), e]

theorem shr (r : BitVec 32) (n : Nat) : (r >>> n).toNat = r.toNat / 2 ^ n := by
  rw [BitVec.toNat_ushiftRight, Nat.shiftRight_eq_div_pow]

theorem lead_c0 : ∀ b : Byte, b.toNat < 0x20 → (0xc0#8 ||| b).toNat = (0xc0#8).toNat + b.toNat := by decide +kernel
theorem lead_e0 : ∀ b : Byte, b.toNat < 0x10 → (0xe0#8 ||| b).toNat = (0xe0#8).toNat + b.toNat := by decide +kernel
theorem lead_f0 : ∀ b : Byte, b.toNat < 0x08 → (0xf0#8 ||| b).toNat = (0xf0#8).toNat + b.toNat := by decide +kernel

theorem enc_two (r : BitVec 32) (h1 : ¬ r.toNat < 0x80) (h2 : r.toNat < 0x800) :
    [0xc0#8 ||| (r >>> 6).setWidth 8, 0x80#8 ||| (r.setWidth 8 &&& 0x3f#8)] = enc r.toNat := by
  have e : (r >>> 6).toNat = r.toNat / 64 := shr r 6
  rw [cont_byte, lead_byte lead_c0 (r >>> 6) (by omega) (by omega), e]
  unfold enc
  rw [if_neg h1, if_pos h2]
  rfl

theorem enc_three (r : BitVec 32) (h1 : ¬ r.toNat < 0x800) (h2 : r.toNat < 0x10000) :
    [0xe0#8 ||| (r >>> 12).setWidth 8, 0x80#8 ||| ((r >>> 6).setWidth 8 &&& 0x3f#8), 0x80#8 ||| (r.setWidth 8 &&& 0x3f#8)] = enc r.toNat := by
  have e : (r >>> 6).toNat = r.toNat / 64 := shr r 6
  have e2 : (r >>> 12).toNat = r.toNat / 4096 := shr r 12
  rw [cont_byte, cont_byte, lead_byte lead_e0 (r >>> 12) (by omega) (by omega), e, e2]
  unfold enc
  rw [if_neg (by omega), if_neg h1, if_pos h2]
  rfl

theorem enc_four (r : BitVec 32) (h1 : ¬ r.toNat < 0x10000) (h2 : r.toNat ≤ 0x10FFFF) :
    [0xf0#8 ||| (r >>> 18).setWidth 8, 0x80#8 ||| ((r >>> 12).setWidth 8 &&& 0x3f#8), 0x80#8 ||| ((r >>> 6).setWidth 8 &&& 0x3f#8),
      0x80#8 ||| (r.setWidth 8 &&& 0x3f#8)] = enc r.toNat := by
  have e : (r >>> 6).toNat = r.toNat / 64 := shr r 6
  have e2 : (r >>> 12).toNat = r.toNat / 4096 := shr r 12
  have e3 : (r >>> 18).toNat = r.toNat / 262144 := shr r 18
  rw [cont_byte, cont_byte, cont_byte, lead_byte lead_f0 (r >>> 18) (by omega) (by omega), e, e2, e3]
  unfold enc
  rw [if_neg (by omega), if_neg (by omega), if_neg h1]
  rfl

theorem or_add (n : Nat) {a b : BitVec 32} (ha : a.toNat % 2 ^ n = 0) (hb : b.toNat < 2 ^ n) : (a ||| b).toNat = a.toNat + b.toNat := by
  rw [BitVec.toNat_or]
  obtain ⟨k, hk⟩ : ∃ k, a.toNat = 2 ^ n * k := ⟨a.toNat / 2 ^ n, by have := Nat.div_add_mod a.toNat (2 ^ n); omega⟩
  rw [hk, Nat.two_pow_add_eq_or_of_lt hb]

theorem and3f (b : Byte) : (b.setWidth 32 &&& 0x3f#32).toNat = b.toNat % 64 := by revert b; decide +kernel
theorem and1f (b : Byte) : (b.setWidth 32 &&& 0x1f#32).toNat = b.toNat % 32 := by revert b; decide +kernel
theorem and07 (b : Byte) : (b.setWidth 32 &&& 0x07#32).toNat = b.toNat % 8 := by revert b; decide +kernel

theorem shl {a : BitVec 32} {m : Nat} (n : Nat) (h : a.toNat < m) (hm : m * 2 ^ n ≤ 2 ^ 32) : (a <<< n).toNat = a.toNat * 2 ^ n := by
  rw [BitVec.toNat_shiftLeft, Nat.shiftLeft_eq, Nat.mod_eq_of_lt]
  exact Nat.lt_of_lt_of_le (Nat.mul_lt_mul_of_pos_right h (Nat.two_pow_pos n)) hm

theorem rune2 (s0 b1 : Byte) : ((s0.setWidth 32 &&& 0x1f#32) <<< 6 ||| (b1.setWidth 32 &&& 0x3f#32) : BitVec 32).toNat =
    s0.toNat % 32 * 64 + b1.toNat % 64 := by
  have h0 : ((s0.setWidth 32 &&& 0x1f#32) <<< 6 : BitVec 32).toNat = s0.toNat % 32 * 64 := by
    rw [shl (m := 32) 6 (by rw [and1f]; omega) (by decide), and1f]
  have h1 := and3f b1
  rw [or_add 6 (by omega) (by omega), h0, h1]

theorem rune3 (s0 b1 b2 : Byte) :
    ((s0.setWidth 32 &&& 0x1f#32) <<< 12 ||| (b1.setWidth 32 &&& 0x3f#32) <<< 6 ||| (b2.setWidth 32 &&& 0x3f#32) : BitVec 32).toNat =
      s0.toNat % 32 * 4096 + b1.toNat % 64 * 64 + b2.toNat % 64 := by
  have h0 : ((s0.setWidth 32 &&& 0x1f#32) <<< 12 : BitVec 32).toNat = s0.toNat % 32 * 4096 := by
    rw [shl (m := 32) 12 (by rw [and1f]; omega) (by decide), and1f]
  have h1 : ((b1.setWidth 32 &&& 0x3f#32) <<< 6 : BitVec 32).toNat = b1.toNat % 64 * 64 := by
    rw [shl (m := 64) 6 (by rw [and3f]; omega) (by decide), and3f]
  have h2 := and3f b2
  have h01 := or_add 12 (a := (s0.setWidth 32 &&& 0x1f#32) <<< 12) (b := (b1.setWidth 32 &&& 0x3f#32) <<< 6) (by omega) (by omega)
  rw [or_add 6 (by omega) (by omega), h01, h0, h1, h2]

theorem rune4 (s0 b1 b2 b3 : Byte) :
    ((s0.setWidth 32 &&& 0x07#32) <<< 18 ||| (b1.setWidth 32 &&& 0x3f#32) <<< 12 ||| (b2.setWidth 32 &&& 0x3f#32) <<< 6 |||
      (b3.setWidth 32 &&& 0x3f#32) : BitVec 32).toNat =
      s0.toNat % 8 * 262144 + b1.toNat % 64 * 4096 + b2.toNat % 64 * 64 + b3.toNat % 64 := by
  have h0 : ((s0.setWidth 32 &&& 0x07#32) <<< 18 : BitVec 32).toNat = s0.toNat % 8 * 262144 := by
    rw [shl (m := 8) 18 (by rw [and07]; omega) (by decide), and07]
  have h1 : ((b1.setWidth 32 &&& 0x3f#32) <<< 12 : BitVec 32).toNat = b1.toNat % 64 * 4096 := by
    rw [shl (m := 64) 12 (by rw [and3f]; omega) (by decide), and3f]
  have h2 : ((b2.setWidth 32 &&& 0x3f#32) <<< 6 : BitVec 32).toNat = b2.toNat % 64 * 64 := by
    rw [shl (m := 64) 6 (by rw [and3f]; omega) (by decide), and3f]
  have h3 := and3f b3
  have h01 := or_add 18 (a := (s0.setWidth 32 &&& 0x07#32) <<< 18) (b := (b1.setWidth 32 &&& 0x3f#32) <<< 12) (by omega) (by omega)
  have h012 := or_add 12 (a := (s0.setWidth 32 &&& 0x07#32) <<< 18 ||| (b1.setWidth 32 &&& 0x3f#32) <<< 12)
    (b := (b2.setWidth 32 &&& 0x3f#32) <<< 6) (by omega) (by omega)
  rw [or_add 6 (by omega) (by omega), h012, h01, h0, h1, h2, h3]

/-- What the table says about a first byte. -/
def firstOf (x : Nat) : Byte :=
  if x < 0x80 then 0xf0#8 else if x < 0xC2 then 0xf1#8 else if x < 0xE0 then 0x02#8 else if x = 0xE0 then 0x13#8
  else if x = 0xED then 0x23#8 else if x < 0xF0 then 0x03#8 else if x = 0xF0 then 0x34#8 else if x < 0xF4 then 0x04#8
  else if x = 0xF4 then 0x44#8 else 0xf1#8

theorem first_ok (s0 : Byte) : rd utf8First s0.toNat = .ok (firstOf s0.toNat) := by revert s0; decide +kernel

/-- The accepted range of the second byte. -/
def range1 (x : Nat) : Nat × Nat :=
  if x = 0xE0 then (0xA0, 0xBF) else if x = 0xED then (0x80, 0x9F) else if x = 0xF0 then (0x90, 0xBF) else if x = 0xF4 then (0x80, 0x8F)
  else (0x80, 0xBF)

/-- The number of bytes announced by a first byte from 0xC2 to 0xF4. -/
def size1 (x : Nat) : Nat := if x < 0xE0 then 2 else if x < 0xF0 then 3 else 4

theorem multi_class (s0 : Byte) (h1 : 0xC2 ≤ s0.toNat) (h2 : s0.toNat ≤ 0xF4) :
    ¬ (0xf0#8 ≤ firstOf s0.toNat) ∧ ¬ s0 < 0x80#8 ∧
    rd acceptRanges (firstOf s0.toNat >>> 4).toNat = .ok (BitVec.ofNat 8 (range1 s0.toNat).1, BitVec.ofNat 8 (range1 s0.toNat).2) ∧
    firstOf s0.toNat &&& 7#8 = BitVec.ofNat 8 (size1 s0.toNat) := by
  revert s0; decide +kernel

theorem single_class (s0 : Byte) (h : s0.toNat < 0x80) :
    0xf0#8 ≤ firstOf s0.toNat ∧
    (s0.setWidth 32 &&& ~~~(((firstOf s0.toNat).setWidth 32 : BitVec 32) <<< 31).sshiftRight 31) |||
      (runeInvalid &&& (((firstOf s0.toNat).setWidth 32 : BitVec 32) <<< 31).sshiftRight 31) = BitVec.ofNat 32 s0.toNat := by
  revert s0; decide +kernel

theorem bad_class (s0 : Byte) (h : (0x80 ≤ s0.toNat ∧ s0.toNat < 0xC2) ∨ 0xF4 < s0.toNat) :
    0xf0#8 ≤ firstOf s0.toNat ∧
    (s0.setWidth 32 &&& ~~~(((firstOf s0.toNat).setWidth 32 : BitVec 32) <<< 31).sshiftRight 31) |||
      (runeInvalid &&& (((firstOf s0.toNat).setWidth 32 : BitVec 32) <<< 31).sshiftRight 31) = runeInvalid := by
  revert s0; decide +kernel

theorem toNat_ofNat8 {n : Nat} (h : n < 256) : (BitVec.ofNat 8 n).toNat = n := by
  rw [BitVec.toNat_ofNat, Nat.mod_eq_of_lt h]

/-- The ranges of the bytes of an encoding, byte by byte. -/
inductive Shape : List Byte → Nat → Prop
  | one (a : Byte) : a.toNat < 0x80 → Shape [a] a.toNat
  | two (a b : Byte) : 0xC2 ≤ a.toNat → a.toNat < 0xE0 → 0x80 ≤ b.toNat → b.toNat ≤ 0xBF →
      Shape [a, b] (a.toNat % 32 * 64 + b.toNat % 64)
  | three (a b c : Byte) : 0xE0 ≤ a.toNat → a.toNat < 0xF0 → (range1 a.toNat).1 ≤ b.toNat → b.toNat ≤ (range1 a.toNat).2 →
      0x80 ≤ c.toNat → c.toNat ≤ 0xBF → Shape [a, b, c] (a.toNat % 32 * 4096 + b.toNat % 64 * 64 + c.toNat % 64)
  | four (a b c d : Byte) : 0xF0 ≤ a.toNat → a.toNat ≤ 0xF4 → (range1 a.toNat).1 ≤ b.toNat → b.toNat ≤ (range1 a.toNat).2 →
      0x80 ≤ c.toNat → c.toNat ≤ 0xBF → 0x80 ≤ d.toNat → d.toNat ≤ 0xBF →
      Shape [a, b, c, d] (a.toNat % 8 * 262144 + b.toNat % 64 * 4096 + c.toNat % 64 * 64 + d.toNat % 64)

theorem range1_bounds (x : Nat) : 0x80 ≤ (range1 x).1 ∧ (range1 x).2 ≤ 0xBF ∧ (x = 0xE0 → 0xA0 ≤ (range1 x).1) ∧ (x = 0xED → (range1 x).2 ≤ 0x9F) ∧
    (x = 0xF0 → 0x90 ≤ (range1 x).1) ∧ (x = 0xF4 → (range1 x).2 ≤ 0x8F) := by
  unfold range1
  repeat' split
  all_goals (refine ⟨?_, ?_, ?_, ?_, ?_, ?_⟩ <;> simp <;> omega)

theorem shape_enc {s : List Byte} {r : Nat} (h : Shape s r) : Scalar r ∧ s = enc r := by
  cases h with
  | one _ h1 =>
    refine ⟨⟨by omega, by omega⟩, ?_⟩
    unfold enc
    rw [if_pos h1, ← byte_ext rfl]
  | two a b h1 h2 h3 h4 =>
    refine ⟨⟨by omega, by omega⟩, ?_⟩
    unfold enc
    rw [if_neg (by omega), if_pos (by omega)]
    rw [byte_ext (show a.toNat = 0xC0 + (a.toNat % 32 * 64 + b.toNat % 64) / 64 by omega),
      byte_ext (show b.toNat = 0x80 + (a.toNat % 32 * 64 + b.toNat % 64) % 64 by omega)]
    simp only [List.cons.injEq, and_true]
    constructor <;> (congr 1; rw [toNat_ofNat8 (by omega), toNat_ofNat8 (by omega)]; omega)
  | three a b c h1 h2 h3 h4 h5 h6 =>
    have hr := range1_bounds a.toNat
    have hs : Scalar (a.toNat % 32 * 4096 + b.toNat % 64 * 64 + c.toNat % 64) := ⟨by omega, by omega⟩
    refine ⟨hs, ?_⟩
    unfold enc
    rw [if_neg (by omega), if_neg (by omega), if_pos (by omega)]
    have ea := byte_ext (show a.toNat = 0xE0 + (a.toNat % 32 * 4096 + b.toNat % 64 * 64 + c.toNat % 64) / 4096 by omega)
    have eb := byte_ext (show b.toNat = 0x80 + (a.toNat % 32 * 4096 + b.toNat % 64 * 64 + c.toNat % 64) / 64 % 64 by omega)
    have ec := byte_ext (show c.toNat = 0x80 + (a.toNat % 32 * 4096 + b.toNat % 64 * 64 + c.toNat % 64) % 64 by omega)
    rw [← ea, ← eb, ← ec]
  | four a b c d h1 h2 h3 h4 h5 h6 h7 h8 =>
    have hr := range1_bounds a.toNat
    have hs : Scalar (a.toNat % 8 * 262144 + b.toNat % 64 * 4096 + c.toNat % 64 * 64 + d.toNat % 64) := ⟨by omega, by omega⟩
    refine ⟨hs, ?_⟩
    unfold enc
    rw [if_neg (by omega), if_neg (by omega), if_neg (by omega)]
    have ea := byte_ext (show a.toNat = 0xF0 + (a.toNat % 8 * 262144 + b.toNat % 64 * 4096 + c.toNat % 64 * 64 + d.toNat % 64) / 262144 by omega)
    have eb := byte_ext (show b.toNat = 0x80 + (a.toNat % 8 * 262144 + b.toNat % 64 * 4096 + c.toNat % 64 * 64 + d.toNat % 64) / 4096 % 64 by omega)
    have ec := byte_ext (show c.toNat = 0x80 + (a.toNat % 8 * 262144 + b.toNat % 64 * 4096 + c.toNat % 64 * 64 + d.toNat % 64) / 64 % 64 by omega)
    have ed := byte_ext (show d.toNat = 0x80 + (a.toNat % 8 * 262144 + b.toNat % 64 * 4096 + c.toNat % 64 * 64 + d.toNat % 64) % 64 by omega)
    rw [← ea, ← eb, ← ec, ← ed]

theorem range1_of {x b : Nat} (h : 0x80 ≤ b) (h' : b ≤ 0xBF) (h1 : x = 0xE0 → 0xA0 ≤ b) (h2 : x = 0xED → b ≤ 0x9F) (h3 : x = 0xF0 → 0x90 ≤ b)
    (h4 : x = 0xF4 → b ≤ 0x8F) : (range1 x).1 ≤ b ∧ b ≤ (range1 x).2 := by
  unfold range1
  repeat' split
  all_goals (constructor <;> simp_all)

theorem enc_shape {r : Nat} (h : Scalar r) : Shape (enc r) r := by
  unfold enc
  obtain ⟨h1, h2⟩ := h
  split
  · have : r = (BitVec.ofNat 8 r).toNat := by rw [toNat_ofNat8 (by omega)]
    conv => arg 2; rw [this]
    exact .one _ (by omega)
  · split
    · have ea : (BitVec.ofNat 8 (0xC0 + r / 64)).toNat = 0xC0 + r / 64 := toNat_ofNat8 (by omega)
      have eb : (BitVec.ofNat 8 (0x80 + r % 64)).toNat = 0x80 + r % 64 := toNat_ofNat8 (by omega)
      have := Shape.two (BitVec.ofNat 8 (0xC0 + r / 64)) (BitVec.ofNat 8 (0x80 + r % 64)) (by omega) (by omega) (by omega) (by omega)
      rw [ea, eb] at this
      have e : (0xC0 + r / 64) % 32 * 64 + (0x80 + r % 64) % 64 = r := by omega
      rwa [e] at this
    · split
      · have ea : (BitVec.ofNat 8 (0xE0 + r / 4096)).toNat = 0xE0 + r / 4096 := toNat_ofNat8 (by omega)
        have eb : (BitVec.ofNat 8 (0x80 + r / 64 % 64)).toNat = 0x80 + r / 64 % 64 := toNat_ofNat8 (by omega)
        have ec : (BitVec.ofNat 8 (0x80 + r % 64)).toNat = 0x80 + r % 64 := toNat_ofNat8 (by omega)
        have hr := range1_of (x := 0xE0 + r / 4096) (b := 0x80 + r / 64 % 64) (by omega) (by omega) (by omega) (by omega) (by omega) (by omega)
        have := Shape.three (BitVec.ofNat 8 (0xE0 + r / 4096)) (BitVec.ofNat 8 (0x80 + r / 64 % 64)) (BitVec.ofNat 8 (0x80 + r % 64))
          (by omega) (by omega) (by rw [ea, eb]; exact hr.1) (by rw [ea, eb]; exact hr.2) (by omega) (by omega)
        rw [ea, eb, ec] at this
        have e : (0xE0 + r / 4096) % 32 * 4096 + (0x80 + r / 64 % 64) % 64 * 64 + (0x80 + r % 64) % 64 = r := by omega
        rwa [e] at this
      · have ea : (BitVec.ofNat 8 (0xF0 + r / 262144)).toNat = 0xF0 + r / 262144 := toNat_ofNat8 (by omega)
        have eb : (BitVec.ofNat 8 (0x80 + r / 4096 % 64)).toNat = 0x80 + r / 4096 % 64 := toNat_ofNat8 (by omega)
        have ec : (BitVec.ofNat 8 (0x80 + r / 64 % 64)).toNat = 0x80 + r / 64 % 64 := toNat_ofNat8 (by omega)
        have ed : (BitVec.ofNat 8 (0x80 + r % 64)).toNat = 0x80 + r % 64 := toNat_ofNat8 (by omega)
        have hr := range1_of (x := 0xF0 + r / 262144) (b := 0x80 + r / 4096 % 64) (by omega) (by omega) (by omega) (by omega) (by omega) (by omega)
        have := Shape.four (BitVec.ofNat 8 (0xF0 + r / 262144)) (BitVec.ofNat 8 (0x80 + r / 4096 % 64)) (BitVec.ofNat 8 (0x80 + r / 64 % 64))
          (BitVec.ofNat 8 (0x80 + r % 64))
          (by omega) (by omega) (by rw [ea, eb]; exact hr.1) (by rw [ea, eb]; exact hr.2) (by omega) (by omega) (by omega) (by omega)
        rw [ea, eb, ec, ed] at this
        have e : (0xF0 + r / 262144) % 8 * 262144 + (0x80 + r / 4096 % 64) % 64 * 4096 + (0x80 + r / 64 % 64) % 64 * 64 + (0x80 + r % 64) % 64 = r := by omega
        rwa [e] at this

/-- What `decode` returns: a scalar value and the length of its encoding at the front of `s`, or the replacement character and width 1 if no
encoding of a scalar value stands there. -/
def Verdict (s : List Byte) (w : Nat) (c : BitVec 32) : Prop :=
  (∃ r, Shape (s.take w) r ∧ w = (s.take w).length ∧ c = BitVec.ofNat 32 r) ∨ (w = 1 ∧ c = runeInvalid ∧ ∀ p r, Shape p r → ¬ p <+: s)

theorem lt8 (a b : Byte) : a < b ↔ a.toNat < b.toNat := BitVec.lt_def
theorem le8 (a b : Byte) : a ≤ b ↔ a.toNat ≤ b.toNat := BitVec.le_def

theorem shape_head {p : List Byte} {r : Nat} (h : Shape p r) : ∃ a t, p = a :: t ∧ (a.toNat < 0x80 ∨ (0xC2 ≤ a.toNat ∧ a.toNat ≤ 0xF4)) := by
  cases h <;> exact ⟨_, _, rfl, by omega⟩

theorem shape_multi {p : List Byte} {r : Nat} (h : Shape p r) {a : Byte} {t : List Byte} (e : p = a :: t) (ha : 0xC2 ≤ a.toNat) :
    p.length = size1 a.toNat ∧ ∃ b, p[1]? = some b ∧ (range1 a.toNat).1 ≤ b.toNat ∧ b.toNat ≤ (range1 a.toNat).2 ∧
      ∀ i c, 2 ≤ i → p[i]? = some c → 0x80 ≤ c.toNat ∧ c.toNat ≤ 0xBF := by
  cases h with
  | one x h1 => cases e; omega
  | two x b h1 h2 h3 h4 =>
    cases e
    have hr : range1 a.toNat = (0x80, 0xBF) := by
      unfold range1; rw [if_neg (by omega), if_neg (by omega), if_neg (by omega), if_neg (by omega)]
    refine ⟨by simp [size1, h2], b, rfl, by rw [hr]; exact h3, by rw [hr]; exact h4, fun i c hi hc => ?_⟩
    match i, hi with
    | i + 2, _ => simp at hc
  | three x b c h1 h2 h3 h4 h5 h6 =>
    cases e
    refine ⟨by unfold size1; rw [if_neg (by omega), if_pos h2]; rfl, b, rfl, h3, h4, fun i c' hi hc => ?_⟩
    match i, hi with
    | 2, _ => simp at hc; subst hc; exact ⟨h5, h6⟩
    | i + 3, _ => simp at hc
  | four x b c d h1 h2 h3 h4 h5 h6 h7 h8 =>
    cases e
    refine ⟨by unfold size1; rw [if_neg (by omega), if_neg (by omega)]; rfl, b, rfl, h3, h4, fun i c' hi hc => ?_⟩
    match i, hi with
    | 2, _ => simp at hc; subst hc; exact ⟨h5, h6⟩
    | 3, _ => simp at hc; subst hc; exact ⟨h7, h8⟩
    | i + 4, _ => simp at hc

theorem shape_size {x : Nat} (h1 : 0xC2 ≤ x) (h2 : x ≤ 0xF4) : size1 x = 2 ∧ x < 0xE0 ∨ size1 x = 3 ∧ 0xE0 ≤ x ∧ x < 0xF0 ∨ size1 x = 4 ∧ 0xF0 ≤ x := by
  unfold size1
  split
  · exact .inl ⟨rfl, by omega⟩
  · split
    · exact .inr (.inl ⟨rfl, by omega, by omega⟩)
    · exact .inr (.inr ⟨rfl, by omega⟩)

theorem range1_lt (x : Nat) : (range1 x).1 < 256 ∧ (range1 x).2 < 256 := by
  unfold range1
  repeat' split
  all_goals simp

theorem prefix_get {p s : List Byte} (h : p <+: s) {i : Nat} {c : Byte} (hc : p[i]? = some c) : s[i]? = some c := by
  obtain ⟨t, rfl⟩ := h
  rw [List.getElem?_append_left]
  · exact hc
  · exact (List.getElem?_eq_some_iff.1 hc).1

theorem rd_some {s : List Byte} {i : Nat} {c : Byte} (rest : List Byte) (h : s[i]? = some c) : rd (s ++ rest) i = .ok c := by
  unfold rd
  rw [List.getElem?_append_left (List.getElem?_eq_some_iff.1 h).1, h]

theorem decode_multi (a : Byte) (t rest : List Byte) (ha : 0xC2 ≤ a.toNat) (ha2 : a.toNat ≤ 0xF4) :
    ∃ w c, decode (a :: t ++ rest) (a :: t).length = .ok (w, c) ∧ Verdict (a :: t) w c := by
  obtain ⟨c1, c2, c3, c4⟩ := multi_class a ha ha2
  have hrl := range1_lt a.toNat
  have hsz := shape_size ha ha2
  have hszlt : size1 a.toNat < 256 := by omega
  have r0 : rd (a :: t ++ rest) 0 = .ok a := rfl
  rw [decode, if_pos (by simp), r0, except_ok_bind, first_ok, except_ok_bind, if_neg c1, if_neg c2, c3, except_ok_bind, c4, toNat_ofNat8 hszlt]
  by_cases hl : (a :: t).length < size1 a.toNat
  · rw [if_pos hl]
    refine ⟨1, runeInvalid, rfl, .inr ⟨rfl, rfl, fun p r hp hpre => ?_⟩⟩
    obtain ⟨x, u, rfl, -⟩ := shape_head hp
    have hx : x = a := by obtain ⟨v, hv⟩ := hpre; simp at hv; exact hv.1
    subst hx
    have := (shape_multi hp rfl ha).1
    have := hpre.length_le
    omega
  rw [if_neg hl]
  -- the bytes that are there
  obtain ⟨b, t1, rfl⟩ : ∃ b t1, t = b :: t1 := by
    cases t with
    | nil => simp at hl; omega
    | cons b t1 => exact ⟨b, t1, rfl⟩
  have r1 : rd (a :: b :: t1 ++ rest) 1 = .ok b := rfl
  rw [decodeTail, r1, except_ok_bind]
  dsimp only
  -- no shape is a prefix when some byte is out of range
  have reject : (∀ p r, Shape p r → p <+: a :: b :: t1 → False) →
      ∃ w c, (Except.ok (1, runeInvalid) : Except Fault (Nat × BitVec 32)) = .ok (w, c) ∧ Verdict (a :: b :: t1) w c :=
    fun h => ⟨1, runeInvalid, rfl, .inr ⟨rfl, rfl, h⟩⟩
  have facts : ∀ p r, Shape p r → p <+: a :: b :: t1 → p.length = size1 a.toNat ∧ (range1 a.toNat).1 ≤ b.toNat ∧ b.toNat ≤ (range1 a.toNat).2 ∧
      ∀ i c, 2 ≤ i → p[i]? = some c → 0x80 ≤ c.toNat ∧ c.toNat ≤ 0xBF := by
    intro p r hp hpre
    obtain ⟨x, u, rfl, -⟩ := shape_head hp
    have hx : x = a := by obtain ⟨v, hv⟩ := hpre; simp at hv; exact hv.1
    subst hx
    obtain ⟨hlen, b', hb', h1, h2, h3⟩ := shape_multi hp rfl ha
    have := prefix_get hpre hb'
    simp at this
    subst this
    exact ⟨hlen, h1, h2, h3⟩
  by_cases hb : b < BitVec.ofNat 8 (range1 a.toNat).1 ∨ BitVec.ofNat 8 (range1 a.toNat).2 < b
  · rw [if_pos hb]
    rw [lt8, lt8, toNat_ofNat8 hrl.1, toNat_ofNat8 hrl.2] at hb
    exact reject (fun p r hp hpre => by have := facts p r hp hpre; omega)
  rw [if_neg hb]
  rw [lt8, lt8, toNat_ofNat8 hrl.1, toNat_ofNat8 hrl.2] at hb
  have hb1 : (range1 a.toNat).1 ≤ b.toNat := by omega
  have hb2 : b.toNat ≤ (range1 a.toNat).2 := by omega
  have hrb := range1_bounds a.toNat
  rcases hsz with ⟨hs, hx⟩ | ⟨hs, hx, hx'⟩ | ⟨hs, hx⟩
  · rw [if_pos (by rw [hs])]
    refine ⟨2, _, rfl, .inl ⟨a.toNat % 32 * 64 + b.toNat % 64, .two a b ha hx (by omega) (by omega), rfl, ?_⟩⟩
    apply BitVec.eq_of_toNat_eq
    rw [rune2, BitVec.toNat_ofNat]
    exact (Nat.mod_eq_of_lt (by omega)).symm
  · rw [if_neg (by rw [hs]; decide)]
    obtain ⟨c, t2, rfl⟩ : ∃ c t2, t1 = c :: t2 := by
      cases t1 with
      | nil => simp at hl; omega
      | cons c t2 => exact ⟨c, t2, rfl⟩
    have r2 : rd (a :: b :: c :: t2 ++ rest) 2 = .ok c := rfl
    rw [r2, except_ok_bind]
    by_cases hc : ¬ (0x80#8 ≤ c ∧ c ≤ 0xbf#8)
    · rw [if_pos hc]
      refine reject (fun p r hp hpre => ?_)
      obtain ⟨hlen, -, -, h3⟩ := facts p r hp hpre
      have hlt : 2 < p.length := by omega
      have hpc : p[2]? = some p[2] := List.getElem?_eq_getElem hlt
      have := prefix_get hpre hpc
      simp at this
      have h4 := h3 2 _ (by omega) hpc
      rw [← this] at h4
      exact hc h4
    · rw [if_neg hc, if_pos (by rw [hs])]
      have hc' : 0x80 ≤ c.toNat ∧ c.toNat ≤ 0xbf := Classical.not_not.1 hc
      refine ⟨3, _, rfl, .inl ⟨a.toNat % 32 * 4096 + b.toNat % 64 * 64 + c.toNat % 64, .three a b c hx hx' hb1 hb2 hc'.1 hc'.2, rfl, ?_⟩⟩
      apply BitVec.eq_of_toNat_eq
      rw [rune3, BitVec.toNat_ofNat]
      exact (Nat.mod_eq_of_lt (by omega)).symm
  · rw [if_neg (by rw [hs]; decide)]
    obtain ⟨c, d, t2, rfl⟩ : ∃ c d t2, t1 = c :: d :: t2 := by
      match t1, hl with
      | [], hl => simp at hl; omega
      | [c], hl => simp at hl; omega
      | c :: d :: t2, _ => exact ⟨c, d, t2, rfl⟩
    have r2 : rd (a :: b :: c :: d :: t2 ++ rest) 2 = .ok c := rfl
    have r3 : rd (a :: b :: c :: d :: t2 ++ rest) 3 = .ok d := rfl
    rw [r2, except_ok_bind]
    have bad : ∀ (i : Nat) (y : Byte), (i = 2 ∨ i = 3) → (a :: b :: c :: d :: t2)[i]? = some y → ¬ (0x80 ≤ y.toNat ∧ y.toNat ≤ 0xbf) →
        ∀ p r, Shape p r → p <+: a :: b :: c :: d :: t2 → False := by
      intro i y hi hy hbad p r hp hpre
      obtain ⟨hlen, -, -, h3⟩ := facts p r hp hpre
      have hlt : i < p.length := by omega
      have hpc : p[i]? = some p[i] := List.getElem?_eq_getElem hlt
      have h5 := prefix_get hpre hpc
      rw [hy] at h5
      have h4 := h3 i _ (by omega) hpc
      rw [← Option.some.inj h5] at h4
      exact hbad h4
    by_cases hc : ¬ (0x80#8 ≤ c ∧ c ≤ 0xbf#8)
    · rw [if_pos hc]
      exact reject (bad 2 c (.inl rfl) rfl hc)
    · rw [if_neg hc, if_neg (by rw [hs]; decide), r3, except_ok_bind]
      have hc' : 0x80 ≤ c.toNat ∧ c.toNat ≤ 0xbf := Classical.not_not.1 hc
      by_cases hd : ¬ (0x80#8 ≤ d ∧ d ≤ 0xbf#8)
      · rw [if_pos hd]
        exact reject (bad 3 d (.inr rfl) rfl hd)
      · rw [if_neg hd]
        have hd' : 0x80 ≤ d.toNat ∧ d.toNat ≤ 0xbf := Classical.not_not.1 hd
        refine ⟨4, _, rfl, .inl ⟨a.toNat % 8 * 262144 + b.toNat % 64 * 4096 + c.toNat % 64 * 64 + d.toNat % 64, .four a b c d hx ha2 hb1 hb2 hc'.1 hc'.2 hd'.1 hd'.2, rfl, ?_⟩⟩
        apply BitVec.eq_of_toNat_eq
        rw [rune4, BitVec.toNat_ofNat]
        exact (Nat.mod_eq_of_lt (by omega)).symm

theorem decode_ok (s rest : List Byte) (hs : s ≠ []) : ∃ w c, decode (s ++ rest) s.length = .ok (w, c) ∧ Verdict s w c := by
  obtain ⟨a, t, rfl⟩ : ∃ a t, s = a :: t := by cases s with | nil => exact absurd rfl hs | cons a t => exact ⟨a, t, rfl⟩
  have r0 : rd (a :: t ++ rest) 0 = .ok a := rfl
  by_cases h1 : a.toNat < 0x80
  · obtain ⟨c1, c2⟩ := single_class a h1
    rw [decode, if_pos (by simp), r0, except_ok_bind, first_ok, except_ok_bind, if_pos c1]
    exact ⟨1, _, rfl, .inl ⟨a.toNat, .one a h1, rfl, c2⟩⟩
  · by_cases h2 : 0xC2 ≤ a.toNat ∧ a.toNat ≤ 0xF4
    · exact decode_multi a t rest h2.1 h2.2
    · obtain ⟨c1, c2⟩ := bad_class a (by omega)
      rw [decode, if_pos (by simp), r0, except_ok_bind, first_ok, except_ok_bind, if_pos c1]
      refine ⟨1, _, rfl, .inr ⟨rfl, c2, fun p r hp hpre => ?_⟩⟩
      obtain ⟨x, u, rfl, hx⟩ := shape_head hp
      have : x = a := by obtain ⟨v, hv⟩ := hpre; simp at hv; exact hv.1
      subst this
      omega

/-- The encodings are prefix-free. -/
theorem shape_prefix {p q : List Byte} {r r' : Nat} (hp : Shape p r) (hq : Shape q r') (s : List Byte) (h1 : p <+: s) (h2 : q <+: s) : p = q := by
  have hlen : p.length = q.length := by
    obtain ⟨a, t, rfl, ha⟩ := shape_head hp
    obtain ⟨b, u, rfl, hb⟩ := shape_head hq
    have hab : a = b := by
      obtain ⟨v, hv⟩ := h1; obtain ⟨w, hw⟩ := h2
      rw [← hw] at hv; simp at hv; exact hv.1
    subst hab
    by_cases h : 0xC2 ≤ a.toNat
    · rw [(shape_multi hp rfl h).1, (shape_multi hq rfl h).1]
    · have e1 : (a :: t).length = 1 := by cases hp <;> first | rfl | omega
      have e2 : (a :: u).length = 1 := by cases hq <;> first | rfl | omega
      rw [e1, e2]
  exact (List.prefix_of_prefix_length_le h1 h2 (by omega)).eq_of_length hlen

theorem leadInc_shape {p : List Byte} {r : Nat} (h : Shape p r) : ∃ a t, p = a :: t ∧ leadInc a = some p.length := by
  have k1 : ∀ a : Byte, a.toNat < 0x80 → leadInc a = some 1 := by decide +kernel
  have k2 : ∀ a : Byte, 0xC2 ≤ a.toNat → a.toNat < 0xE0 → leadInc a = some 2 := by decide +kernel
  have k3 : ∀ a : Byte, 0xE0 ≤ a.toNat → a.toNat < 0xF0 → leadInc a = some 3 := by decide +kernel
  have k4 : ∀ a : Byte, 0xF0 ≤ a.toNat → a.toNat ≤ 0xF4 → leadInc a = some 4 := by decide +kernel
  cases h with
  | one a h1 => exact ⟨_, _, rfl, k1 a h1⟩
  | two a b h1 h2 => exact ⟨_, _, rfl, k2 a h1 h2⟩
  | three a b c h1 h2 => exact ⟨_, _, rfl, k3 a h1 h2⟩
  | four a b c d h1 h2 => exact ⟨_, _, rfl, k4 a h1 h2⟩

theorem enc_ne_zero {r : Nat} (hr : Scalar r) (h0 : r ≠ 0) : Text (enc r) := by
  have h := enc_shape hr
  intro c hc e
  subst e
  have hz : (0 : Byte).toNat = 0 := rfl
  revert hc
  generalize hp : enc r = p at h
  cases h with
  | one a h1 => intro hc; simp at hc; rw [← hc] at h0; exact h0 rfl
  | two a b h1 h2 h3 h4 => intro hc; simp at hc; rcases hc with h | h <;> (have := congrArg BitVec.toNat h; simp at this; omega)
  | three a b c h1 h2 h3 h4 h5 h6 =>
    have := range1_bounds a.toNat
    intro hc; simp at hc; rcases hc with h | h | h <;> (have := congrArg BitVec.toNat h; simp at this; omega)
  | four a b c d h1 h2 h3 h4 h5 h6 h7 h8 =>
    have := range1_bounds a.toNat
    intro hc; simp at hc; rcases hc with h | h | h | h <;> (have := congrArg BitVec.toNat h; simp at this; omega)

theorem strlenLoop_ok (rs : List Nat) (rest : List Byte) : ∀ (done : List Byte) (n : Int) (fuel : Nat), (∀ r ∈ rs, Scalar r ∧ r ≠ 0) → rs.length < fuel →
    utf8StrlenLoop fuel (done ++ rs.flatMap enc ++ 0 :: rest) done.length n = .ok (n + rs.length) := by
  induction rs with
  | nil =>
    intro done n fuel _ hf
    obtain ⟨f, rfl⟩ : ∃ f, fuel = f + 1 := ⟨fuel - 1, by simp at hf; omega⟩
    have : rd (done ++ ([] : List Nat).flatMap enc ++ 0 :: rest) done.length = .ok 0 := by simp [rd]
    rw [utf8StrlenLoop, this, except_ok_bind, if_pos rfl]; simp
  | cons r rs ih =>
    intro done n fuel hrs hf
    obtain ⟨f, rfl⟩ : ∃ f, fuel = f + 1 := ⟨fuel - 1, by simp at hf; omega⟩
    obtain ⟨hr, h0⟩ := hrs r (by simp)
    obtain ⟨a, t, e, hl⟩ := leadInc_shape (enc_shape hr)
    have ha : a ≠ 0 := enc_ne_zero hr h0 a (by rw [e]; simp)
    have r1 : rd (done ++ (r :: rs).flatMap enc ++ 0 :: rest) done.length = .ok a := by
      rw [List.flatMap_cons, e]; simp [rd]
    rw [utf8StrlenLoop, r1, except_ok_bind, if_neg ha, hl]
    dsimp only
    have := ih (done ++ enc r) (n + 1) f (fun r' h => hrs r' (by simp [h])) (by simpa using hf)
    rw [List.length_append] at this
    have eb : done ++ (r :: rs).flatMap enc ++ 0 :: rest = done ++ enc r ++ rs.flatMap enc ++ 0 :: rest := by simp
    rw [eb, this]
    congr 1
    rw [List.length_cons]; omega

/-! ## Properties -/

/-- **C26, encoding.** For every scalar value, and a buffer with room for it, `zpl_utf8_encode_rune` writes exactly its UTF-8 encoding. -/
theorem C26_encode (r : BitVec 32) (hr : Scalar r.toNat) (buf : List Byte) (hb : (enc r.toNat).length ≤ buf.length) :
    encodeRune buf r = .ok (enc r.toNat ++ buf.drop (enc r.toNat).length, (enc r.toNat).length) := by
  obtain ⟨h1, h2⟩ := hr
  unfold encodeRune
  dsimp only
  by_cases c1 : r.toNat < 0x80
  · have e : [r.setWidth 8] = enc r.toNat := by
      unfold enc
      rw [if_pos c1]
      congr 1
    rw [if_pos (by omega), e, store_zero _ _ hb, except_ok_bind, ← e]; rfl
  rw [if_neg (by omega)]
  by_cases c2 : r.toNat < 0x800
  · rw [if_pos (by omega), enc_two r c1 c2, store_zero _ _ hb, except_ok_bind, ← enc_two r c1 c2]; rfl
  rw [if_neg (by omega), if_neg (by omega)]
  by_cases c3 : r.toNat < 0x10000
  · rw [if_pos (by omega), enc_three r c2 c3, store_zero _ _ hb, except_ok_bind, ← enc_three r c2 c3]; rfl
  · rw [if_neg (by omega), enc_four r c3 h1, store_zero _ _ hb, except_ok_bind, ← enc_four r c3 h1]; rfl

/-- Any other 32-bit value is encoded as the replacement character U+FFFD. -/
theorem C26_encode_invalid (r : BitVec 32) (hr : ¬ Scalar r.toNat) (buf : List Byte) (hb : 3 ≤ buf.length) :
    encodeRune buf r = .ok (enc 0xFFFD ++ buf.drop 3, 3) := by
  have h : r.toNat > 0x10ffff ∨ (0xd800 ≤ r.toNat ∧ r.toNat ≤ 0xdfff) := by
    unfold Scalar at hr; omega
  unfold encodeRune
  dsimp only
  rw [if_neg (by omega), if_neg (by omega), if_pos h]
  have e := enc_three runeInvalid (by decide) (by decide)
  have e' : runeInvalid.toNat = 0xFFFD := rfl
  have e3 : (enc 0xFFFD).length = 3 := by decide
  rw [e, e', store_zero _ _ (by rw [e3]; exact hb), except_ok_bind, e3]

/-- **C26, decoding.** Decoding the encoding of a scalar value, followed by anything, gives back the value and the width of the encoding. -/
theorem C26_decode (r : Nat) (hr : Scalar r) (more rest : List Byte) :
    decode (enc r ++ more ++ rest) (enc r ++ more).length = .ok ((enc r).length, BitVec.ofNat 32 r) := by
  have hsh := enc_shape hr
  have hne : enc r ≠ [] := by obtain ⟨a, t, e, -⟩ := shape_head hsh; rw [e]; simp
  obtain ⟨w, c, e, hv⟩ := decode_ok (enc r ++ more) rest (by simp [hne])
  rw [e]
  rcases hv with ⟨r', h1, h2, h3⟩ | ⟨-, -, h⟩
  · have hp := shape_prefix hsh h1 _ (List.prefix_append _ _) (List.take_prefix _ _)
    have hw : w = (enc r).length := h2.trans (congrArg List.length hp.symm)
    have hrr : r' = r := by
      have e1 := (shape_enc h1).2
      rw [← hp] at h1
      have : ∀ {p : List Byte} {x y : Nat}, Shape p x → Shape p y → x = y := by
        intro p x y hx hy
        cases hx <;> cases hy <;> rfl
      exact this h1 hsh
    rw [h3, hrr, hw]
  · exact absurd (List.prefix_append _ _) (h _ _ hsh)

/-- **C27.** For every byte string `s` (whatever lies behind it), decoding reads only `s` and either returns a scalar value whose encoding is
exactly the bytes consumed, or, only if no encoding of a scalar value stands at the front of `s`, the replacement character and width 1. -/
theorem C27_decode (s rest : List Byte) (hs : s ≠ []) :
    ∃ w c, decode (s ++ rest) s.length = .ok (w, c) ∧ 1 ≤ w ∧ w ≤ s.length ∧
      ((∃ r, Scalar r ∧ s.take w = enc r ∧ c = BitVec.ofNat 32 r) ∨
        (w = 1 ∧ c = 0xFFFD#32 ∧ ∀ r, Scalar r → ¬ enc r <+: s)) := by
  obtain ⟨w, c, e, hv⟩ := decode_ok s rest hs
  have hpos := List.length_pos_iff.2 hs
  rcases hv with ⟨r, h1, h2, h3⟩ | ⟨rfl, h2, h3⟩
  · obtain ⟨hsc, henc⟩ := shape_enc h1
    obtain ⟨a, t, e', -⟩ := shape_head h1
    refine ⟨w, c, e, ?_, ?_, .inl ⟨r, hsc, henc, h3⟩⟩
    · rw [h2, e']; simp
    · rw [List.length_take] at h2; omega
  · exact ⟨1, c, e, Nat.le_refl _, hpos, .inr ⟨rfl, h2, fun r hr => h3 _ r (enc_shape hr)⟩⟩

/-- **C27, empty input.** Width 0 and the replacement character; nothing is read. -/
theorem C27_decode_empty (rest : List Byte) : decode rest 0 = .ok (0, 0xFFFD#32) := by
  simp [decode, runeInvalid]

/-- **C66, partial.** On every well-formed UTF-8 text `zpl_utf8_strlen` returns the number of code points, reading no further than the terminator.  Missing:
ill-formed texts, see `C66_truncated_text`. -/
theorem C66_utf8_strlen_partial (rs : List Nat) (hrs : ∀ r ∈ rs, Scalar r ∧ r ≠ 0) (rest : List Byte) :
    utf8Strlen (rs.flatMap enc ++ 0 :: rest) = .ok rs.length := by
  have hlen : rs.length ≤ (rs.flatMap enc).length := by
    induction rs with
    | nil => simp
    | cons r rs ih =>
      have := ih (fun r' h => hrs r' (by simp [h]))
      obtain ⟨a, t, e, -⟩ := shape_head (enc_shape (hrs r (by simp)).1)
      rw [List.flatMap_cons, e, List.length_append]; simp only [List.length_cons]; omega
  have := strlenLoop_ok rs rest [] 0 ((rs.flatMap enc ++ 0 :: rest).length + 1) hrs (by rw [List.length_append]; simp only [List.length_cons]; omega)
  unfold utf8Strlen
  simpa using this

/-- Deviation: when a text ends inside a multi-byte sequence, the count runs over the terminator; here the block ends there. -/
theorem C66_truncated_text (rs : List Nat) (hrs : ∀ r ∈ rs, Scalar r ∧ r ≠ 0) (a : Byte) (ha : 0xE0 ≤ a.toNat) (ha2 : a.toNat < 0xF8) :
    utf8Strlen (rs.flatMap enc ++ [a, 0]) = .error .oob := by
  have key : ∀ (rs : List Nat) (done : List Byte) (n : Int) (fuel : Nat), (∀ r ∈ rs, Scalar r ∧ r ≠ 0) → rs.length + 1 < fuel →
      utf8StrlenLoop fuel (done ++ rs.flatMap enc ++ [a, 0]) done.length n = .error .oob := by
    intro rs
    induction rs with
    | nil =>
      intro done n fuel _ hf
      obtain ⟨f, rfl⟩ : ∃ f, fuel = f + 2 := ⟨fuel - 2, by simp at hf; omega⟩
      have r1 : rd (done ++ ([] : List Nat).flatMap enc ++ [a, 0]) done.length = .ok a := by simp [rd]
      have hz : a ≠ 0 := by intro h; subst h; simp at ha
      have hi : ∀ a : Byte, 0xE0 ≤ a.toNat → a.toNat < 0xF8 → leadInc a = some 3 ∨ leadInc a = some 4 := by decide +kernel
      rw [utf8StrlenLoop, r1, except_ok_bind, if_neg hz]
      rcases hi a ha ha2 with h | h <;> rw [h] <;> dsimp only <;> rw [utf8StrlenLoop, Sort.rd_oob (by simp), except_error_bind]
    | cons r rs ih =>
      intro done n fuel hrs hf
      obtain ⟨f, rfl⟩ : ∃ f, fuel = f + 1 := ⟨fuel - 1, by simp at hf; omega⟩
      obtain ⟨hr, h0⟩ := hrs r (by simp)
      obtain ⟨b, t, e, hl⟩ := leadInc_shape (enc_shape hr)
      have hb : b ≠ 0 := enc_ne_zero hr h0 b (by rw [e]; simp)
      have r1 : rd (done ++ (r :: rs).flatMap enc ++ [a, 0]) done.length = .ok b := by
        rw [List.flatMap_cons, e]; simp [rd]
      rw [utf8StrlenLoop, r1, except_ok_bind, if_neg hb, hl]
      dsimp only
      have := ih (done ++ enc r) (n + 1) f (fun r' h => hrs r' (by simp [h])) (by simp at hf ⊢; omega)
      rw [List.length_append] at this
      have eb : done ++ (r :: rs).flatMap enc ++ [a, 0] = done ++ enc r ++ rs.flatMap enc ++ [a, 0] := by simp
      rw [eb, this]
  have hlen : rs.length ≤ (rs.flatMap enc).length := by
    clear key
    induction rs with
    | nil => simp
    | cons r rs ih =>
      have := ih (fun r' h => hrs r' (by simp [h]))
      obtain ⟨a, t, e, -⟩ := shape_head (enc_shape (hrs r (by simp)).1)
      rw [List.flatMap_cons, e, List.length_append]; simp only [List.length_cons]; omega
  have := key rs [] 0 ((rs.flatMap enc ++ [a, 0]).length + 1) hrs (by rw [List.length_append]; simp only [List.length_cons]; omega)
  unfold utf8Strlen
  simpa using this

/-! ## The hypotheses are met -/

/-- U+20AC, the euro sign: E2 82 AC; and U+1F600. -/
example : Scalar 0x20AC ∧ enc 0x20AC = [0xE2#8, 0x82#8, 0xAC#8] ∧ encodeRune [1#8, 2#8, 3#8, 4#8] 0x20AC#32 = .ok ([0xE2#8, 0x82#8, 0xAC#8, 4#8], 3) ∧
    decode [0xE2#8, 0x82#8, 0xAC#8] 3 = .ok (3, 0x20AC#32) ∧ enc 0x1F600 = [0xF0#8, 0x9F#8, 0x98#8, 0x80#8] ∧
    decode [0xE2#8, 0x82#8] 2 = .ok (1, 0xFFFD#32) ∧ ¬ Scalar 0xD800 := by decide +kernel

end Zpl.Utf8
