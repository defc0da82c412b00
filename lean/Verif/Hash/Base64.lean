import Verif.Basic
import Verif.Hash.Fnv

/-!
# Base64 (code/source/hashing.c:176-324)  -  C45, C46

## Model

Bytes and text characters are `BitVec 8`.  A text is a list of cells that ends with the terminating NUL.  Allocation succeeds and
gives cells of arbitrary content (`junk`). -/

namespace Zpl.Base64

abbrev Byte := BitVec 8

/-- '=' -/
def padChar : Byte := 61

/-- hashing.c:178 `zpl__base64_chars` -/
def chars : List Byte := "ABCDEFGHIJKLMNOPQRSTUVWXYZabcdefghijklmnopqrstuvwxyz0123456789+/".toList.map (fun c => BitVec.ofNat 8 c.toNat)

/-- hashing.c:195-201 `zpl__base64_dec_table` -/
def decTable : List Int := [
    62, -1, -1, -1, 63, 52, 53, 54, 55, 56, 57, 58,
    59, 60, 61, -1, -1, -1, -1, -1, -1, -1, 0, 1, 2, 3, 4, 5,
    6, 7, 8, 9, 10, 11, 12, 13, 14, 15, 16, 17, 18, 19, 20,
    21, 22, 23, 24, 25, -1, -1, -1, -1, -1, -1, 26, 27, 28,
    29, 30, 31, 32, 33, 34, 35, 36, 37, 38, 39, 40, 41, 42,
    43, 44, 45, 46, 47, 48, 49, 50, 51 ]

/-- hashing.c:203-214 `zpl__base64_encoded_size` -/
def encodedSize (len : Nat) : Nat :=
  let ret := if len % 3 ≠ 0 then len + (3 - len % 3) else len
  ret / 3 * 4

/-- hashing.c:265-266, `(i < len) ? (v << 8 | s[i]) : (v << 8)`.  `v` stays below 2^24: no overflow. -/
def addByte (s : List Byte) (len i v : Nat) : Except Fault Nat :=
  if i < len then do
    let y ← rd s i
    .ok (v <<< 8 ||| y.toNat)
  else .ok (v <<< 8)

/-- hashing.c:264-266, the three bytes of one group in `v`. -/
def groupValue (s : List Byte) (len i : Nat) : Except Fault Nat := do
  let x ← rd s i
  let v ← addByte s len (i + 1) x.toNat
  addByte s len (i + 2) v

/-- hashing.c:271-279, a digit if byte `i` of the message exists, else '='. -/
def digitOrPad (len i n : Nat) : Except Fault Byte := if i < len then rd chars n else .ok padChar

/-- hashing.c:268-279, the four characters of one group. -/
def storeGroup (len i j v : Nat) (ret : List Byte) : Except Fault (List Byte) := do
  let c0 ← rd chars ((v >>> 18) &&& 0x3F)
  let c1 ← rd chars ((v >>> 12) &&& 0x3F)
  let c2 ← digitOrPad len (i + 1) ((v >>> 6) &&& 0x3F)
  let c3 ← digitOrPad len (i + 2) (v &&& 0x3F)
  let ret ← wr ret j c0
  let ret ← wr ret (j + 1) c1
  let ret ← wr ret (j + 2) c2
  wr ret (j + 3) c3

/-- hashing.c:263-281, the loop; the fuel is more than the number of rounds, running out of it would be a non-terminating loop. -/
def encLoop (s : List Byte) (len : Nat) : (fuel i j : Nat) → (ret : List Byte) → Except Fault (List Byte)
  | 0, _, _, _ => .error .diverge
  | fuel + 1, i, j, ret =>
    if i < len then do
      let v ← groupValue s len i
      let ret ← storeGroup len i j v ret
      encLoop s len fuel (i + 3) (j + 4) ret
    else .ok ret

/-- hashing.c:251-285 `zpl_base64_encode` of a non-NULL `data`; `none` is a NULL result. -/
def encode (junk : Byte) (s : List Byte) (len : Nat) : Except Fault (Option (List Byte)) :=
  if len = 0 then .ok none
  else do
    let encLen := encodedSize len
    let ret := List.replicate (encLen + 1) junk
    let ret ← wr ret encLen 0
    let ret ← encLoop s len (len + 1) 0 0 ret
    .ok (some ret)

/-- `zpl_strlen` (header/core/string.h:174-180) of a text in memory. -/
def strlen : List Byte → Except Fault Nat
  | [] => .error .oob
  | c :: cs => if c = 0 then .ok 0 else do .ok ((← strlen cs) + 1)

/-- hashing.c:227-233, count of '=' at the end of the first `i` characters. -/
def trailingPads (s : List Byte) : Nat → Except Fault Nat
  | 0 => .ok 0
  | i + 1 => do
    let c ← rd s i
    if c = padChar then .ok ((← trailingPads s i) + 1) else .ok 0

/-- hashing.c:216-236 `zpl__base64_decoded_size` of a non-NULL text. -/
def decodedSize (s : List Byte) : Except Fault Int := do
  let len ← strlen s
  let pads ← trailingPads s len
  .ok (((len / 4 * 3 : Nat) : Int) - (pads : Int))

/-- hashing.c:238-249 `zpl__base64_valid_char` -/
def validChar (c : Byte) : Bool :=
  (48 ≤ c.toNat && c.toNat ≤ 57) || (65 ≤ c.toNat && c.toNat ≤ 90) || (97 ≤ c.toNat && c.toNat ≤ 122) ||
    c.toNat = 43 || c.toNat = 47 || c.toNat = 61

/-- hashing.c:303-306, the validation loop. -/
def allValid (s : List Byte) (len : Nat) : (n : Nat) → Except Fault Bool
  | 0 => .ok true
  | n + 1 => do
    let c ← rd s (len - (n + 1))
    if validChar c then allValid s len n else .ok false

/-- `zpl__base64_dec_table[c-43]` converted to the `zpl_isize` that `v` is made of. -/
def lookup (c : Byte) : Except Fault (BitVec 64) :=
  if c.toNat < 43 then .error .oob else do .ok (BitVec.ofInt 64 (← rd decTable (c.toNat - 43)))

/-- hashing.c:311-312, the digits that '=' may stand for. -/
def lookupOrPad (c : Byte) : Except Fault (BitVec 64) := if c = padChar then .ok 0 else lookup c

/-- hashing.c:316-320, a byte is stored only if its character is not '='. -/
def wrUnlessPad (c : Byte) (ret : List Byte) (j : Nat) (x : Byte) : Except Fault (List Byte) :=
  if c ≠ padChar then wr ret j x else .ok ret

/-- hashing.c:309-321, one group of the decoding loop.  The shift of a negative `v` is taken as two's complement. -/
def decGroup (s : List Byte) (i j : Nat) (ret : List Byte) : Except Fault (List Byte) := do
  let s0 ← rd s i
  let s1 ← rd s (i + 1)
  let s2 ← rd s (i + 2)
  let s3 ← rd s (i + 3)
  let t0 ← lookup s0
  let t1 ← lookup s1
  let t2 ← lookupOrPad s2
  let t3 ← lookupOrPad s3
  let v := (((t0 <<< 6) ||| t1) <<< 6 ||| t2) <<< 6 ||| t3
  let ret ← wr ret j ((v >>> 16).setWidth 8)
  let ret ← wrUnlessPad s2 ret (j + 1) ((v >>> 8).setWidth 8)
  wrUnlessPad s3 ret (j + 2) (v.setWidth 8)

/-- hashing.c:308-322, the decoding loop. -/
def decLoop (s : List Byte) (len : Nat) : (fuel i j : Nat) → (ret : List Byte) → Except Fault (List Byte)
  | 0, _, _, _ => .error .diverge
  | fuel + 1, i, j, ret =>
    if i < len then do
      let ret ← decGroup s i j ret
      decLoop s len fuel (i + 4) (j + 3) ret
    else .ok ret

/-- hashing.c:287-324 `zpl_base64_decode` of a non-NULL text. -/
def decode (junk : Byte) (s : List Byte) (len : Nat) : Except Fault (Option (List Byte)) := do
  let alen ← decodedSize s
  if alen < 0 then .error .oob            -- hashing.c:301 `ret[alen] = 0` in front of the block
  else
    let ret := List.replicate (alen.toNat + 1) junk
    let ret ← wr ret alen.toNat 0
    if ← allValid s len len then do
      let ret ← decLoop s len (len + 1) 0 0 ret
      .ok (some ret)
    else .ok none

/-! ## Specification (RFC 4648, section 4): a bit stream cut into six-bit digits -/

/-- The `k` low bits of `n`, most significant first. -/
def bits : (k : Nat) → (n : Nat) → List Bool
  | 0, _ => []
  | k + 1, n => n.testBit k :: bits k n

/-- Value of a bit string, most significant first. -/
def value (bs : List Bool) : Nat := bs.foldl (fun acc b => 2 * acc + b.toNat) 0

/-- Cut into pieces of six bits, the last one filled up with zero bits on the right. -/
def sextets : List Bool → List Nat
  | [] => []
  | a :: b :: c :: d :: e :: f :: rest => value [a, b, c, d, e, f] :: sextets rest
  | part => [value (part ++ List.replicate (6 - part.length) false)]

/-- Cut into pieces of eight bits, an incomplete last one is dropped. -/
def octets : List Bool → List Byte
  | a :: b :: c :: d :: e :: f :: g :: h :: rest => BitVec.ofNat 8 (value [a, b, c, d, e, f, g, h]) :: octets rest
  | _ => []

/-- The base 64 alphabet of RFC 4648, table 1. -/
def alphabet (n : Nat) : Byte :=
  if n < 26 then BitVec.ofNat 8 (65 + n)             -- 'A'..'Z'
  else if n < 52 then BitVec.ofNat 8 (97 + (n - 26)) -- 'a'..'z'
  else if n < 62 then BitVec.ofNat 8 (48 + (n - 52)) -- '0'..'9'
  else if n = 62 then 43 else 47                     -- '+' '/'

/-- The text of a byte string: its bits as base 64 digits, then '=' up to a multiple of four characters. -/
def textOf (bytes : List Byte) : List Byte :=
  let digits := (sextets (bytes.flatMap (fun b => bits 8 b.toNat))).map alphabet
  digits ++ List.replicate ((4 - digits.length % 4) % 4) padChar

/-- Well-formed padded base 64: `digits` (each below 64) followed by `pads` '=' characters to a multiple of four. -/
structure Padded (text : List Byte) where
  digits : List Nat
  pads : Nat
  lt : ∀ d ∈ digits, d < 64
  two : pads ≤ 2
  four : (digits.length + pads) % 4 = 0
  eq : text = digits.map alphabet ++ List.replicate pads padChar

/-! ## Lemmas -/

/-- What the encoder writes, by groups. -/
def encList : List Byte → List Byte
  | [] => []
  | [a] =>
    let v := a.toNat * 65536
    [alphabet (v / 262144), alphabet (v / 4096 % 64), padChar, padChar]
  | [a, b] =>
    let v := a.toNat * 65536 + b.toNat * 256
    [alphabet (v / 262144), alphabet (v / 4096 % 64), alphabet (v / 64 % 64), padChar]
  | a :: b :: c :: rest =>
    let v := a.toNat * 65536 + b.toNat * 256 + c.toNat
    alphabet (v / 262144) :: alphabet (v / 4096 % 64) :: alphabet (v / 64 % 64) :: alphabet (v % 64) :: encList rest

theorem chars_rd (n : Nat) (h : n < 64) : rd chars n = .ok (alphabet n) := by
  have : ∀ m : Fin 64, rd chars m.1 = .ok (alphabet m.1) := by decide +kernel
  exact this ⟨n, h⟩

theorem or_shift (v : Nat) (y : Byte) : v <<< 8 ||| y.toNat = v * 256 + y.toNat := by
  rw [← Nat.shiftLeft_add_eq_or_of_lt y.isLt, Nat.shiftLeft_eq]

theorem and63 (v : Nat) : v &&& 0x3F = v % 64 := by
  rw [show (0x3F : Nat) = 2 ^ 6 - 1 from rfl, Nat.and_two_pow_sub_one_eq_mod]

theorem rd_mid {α : Type} (p : List α) (x : α) (r : List α) (k : Nat) (hk : k = p.length) : rd (p ++ x :: r) k = .ok x := by
  subst hk; rw [rd_ok (by simp)]; simp

theorem wr_mid {α : Type} (p : List α) (x y : α) (r : List α) (k : Nat) (hk : k = p.length) :
    wr (p ++ x :: r) k y = .ok (p ++ y :: r) := by
  subst hk; rw [wr_ok (by simp)]; simp [List.set_append]

theorem store4 {α : Type} (p : List α) (w x y z a b c d : α) (r : List α) (j : Nat) (hj : j = p.length) :
    (do let t ← wr (p ++ w :: x :: y :: z :: r) j a
        let t ← wr t (j + 1) b
        let t ← wr t (j + 2) c
        wr t (j + 3) d) = Except.ok (p ++ a :: b :: c :: d :: r) := by
  rw [wr_mid p w a _ j hj]
  simp only [except_ok_bind]
  rw [show p ++ a :: x :: y :: z :: r = (p ++ [a]) ++ x :: y :: z :: r by simp, wr_mid _ x b _ (j + 1) (by simp [hj])]
  simp only [except_ok_bind]
  rw [show p ++ [a] ++ b :: y :: z :: r = (p ++ [a, b]) ++ y :: z :: r by simp, wr_mid _ y c _ (j + 2) (by simp [hj])]
  simp only [except_ok_bind]
  rw [show p ++ [a, b] ++ c :: z :: r = (p ++ [a, b, c]) ++ z :: r by simp, wr_mid _ z d _ (j + 3) (by simp [hj])]
  simp

theorem storeGroup_eq (len i v : Nat) (done suf : List Byte) (w x y z : Byte) (j : Nat) (hj : j = done.length) (hv : v < 2 ^ 24) :
    storeGroup len i j v (done ++ w :: x :: y :: z :: suf) = .ok (done ++ alphabet (v / 262144) :: alphabet (v / 4096 % 64) ::
      (if i + 1 < len then alphabet (v / 64 % 64) else padChar) :: (if i + 2 < len then alphabet (v % 64) else padChar) :: suf) := by
  unfold storeGroup
  simp only [Nat.shiftRight_eq_div_pow, and63]
  have e1 : v / 2 ^ 18 % 64 = v / 262144 := by omega
  rw [e1, chars_rd _ (by omega), chars_rd (v / 2 ^ 12 % 64) (by omega)]
  have f2 : digitOrPad len (i + 1) (v / 2 ^ 6 % 64) = .ok (if i + 1 < len then alphabet (v / 64 % 64) else padChar) := by
    unfold digitOrPad; rw [chars_rd (v / 2 ^ 6 % 64) (by omega)]; split <;> rfl
  have f3 : digitOrPad len (i + 2) (v % 64) = .ok (if i + 2 < len then alphabet (v % 64) else padChar) := by
    unfold digitOrPad; rw [chars_rd (v % 64) (by omega)]; split <;> rfl
  simp only [f2, f3, except_ok_bind]
  exact store4 done w x y z _ _ _ _ suf j hj

theorem encLoop_eq : ∀ (fuel : Nat) (pre rest done suf : List Byte) (i j : Nat), i = pre.length → j = done.length →
    rest.length < fuel → encodedSize rest.length ≤ suf.length →
    encLoop (pre ++ rest) (pre ++ rest).length fuel i j (done ++ suf) = .ok (done ++ encList rest ++ suf.drop (encodedSize rest.length)) := by
  intro fuel
  induction fuel with
  | zero => intro pre rest done suf i j _ _ h; omega
  | succ fuel ih =>
    intro pre rest done suf i j hi hj hf hs
    have ex4 : ∀ l : List Byte, 4 ≤ l.length → ∃ w x y z r, l = w :: x :: y :: z :: r := by
      intro l hl
      match l, hl with
      | w :: x :: y :: z :: r, _ => exact ⟨w, x, y, z, r, rfl⟩
    have gt : ∀ (x y z : Byte), x.toNat * 65536 + y.toNat * 256 + z.toNat < 2 ^ 24 := by
      intro x y z; have := x.isLt; have := y.isLt; have := z.isLt; omega
    unfold encLoop
    match rest with
    | [] =>
      have h1 : ¬ i < (pre ++ []).length := by simp [hi]
      rw [if_neg h1]; simp [encList, encodedSize]
    | [a] =>
      have h1 : i < (pre ++ [a]).length := by simp [hi]
      have h2 : ¬ i + 1 < (pre ++ [a]).length := by simp [hi]
      have h3 : ¬ i + 2 < (pre ++ [a]).length := by simp [hi]
      obtain ⟨w, x, y, z, r, rfl⟩ := ex4 suf (by simpa [encodedSize] using hs)
      have hg : groupValue (pre ++ [a]) (pre ++ [a]).length i = .ok (a.toNat * 65536) := by
        unfold groupValue
        rw [rd_mid pre a [] i hi]
        simp only [except_ok_bind, addByte, if_neg h2, if_neg h3, Nat.shiftLeft_eq]
        exact congrArg Except.ok (by omega)
      have hb := gt a 0 0
      rw [if_pos h1, hg]
      simp only [except_ok_bind]
      rw [storeGroup_eq _ _ _ _ _ _ _ _ _ _ hj (by simpa using hb)]
      simp only [except_ok_bind, if_neg h2, if_neg h3]
      obtain ⟨f, rfl⟩ : ∃ f, fuel = f + 1 := ⟨fuel - 1, by simp at hf; omega⟩
      unfold encLoop
      rw [if_neg (by simp [hi])]
      simp [encList, encodedSize]
    | [a, b] =>
      have h1 : i < (pre ++ [a, b]).length := by simp [hi]
      have h2 : i + 1 < (pre ++ [a, b]).length := by simp [hi]
      have h3 : ¬ i + 2 < (pre ++ [a, b]).length := by simp [hi]
      obtain ⟨w, x, y, z, r, rfl⟩ := ex4 suf (by simpa [encodedSize] using hs)
      have hg : groupValue (pre ++ [a, b]) (pre ++ [a, b]).length i = .ok (a.toNat * 65536 + b.toNat * 256) := by
        unfold groupValue
        have e1 : rd (pre ++ [a, b]) i = .ok a := rd_mid pre a _ i hi
        have e2 : rd (pre ++ [a, b]) (i + 1) = .ok b := by
          have := rd_mid (pre ++ [a]) b [] (i + 1) (by simp [hi]); simpa using this
        simp only [e1, e2, except_ok_bind, addByte, if_pos h2, if_neg h3, or_shift]
        rw [Nat.shiftLeft_eq]
        exact congrArg Except.ok (by omega)
      have hb := gt a b 0
      rw [if_pos h1, hg]
      simp only [except_ok_bind]
      rw [storeGroup_eq _ _ _ _ _ _ _ _ _ _ hj (by simpa using hb)]
      simp only [except_ok_bind, if_pos h2, if_neg h3]
      obtain ⟨f, rfl⟩ : ∃ f, fuel = f + 1 := ⟨fuel - 1, by simp at hf; omega⟩
      unfold encLoop
      rw [if_neg (by simp [hi])]
      simp [encList, encodedSize]
    | a :: b :: c :: rest =>
      have h1 : i < (pre ++ a :: b :: c :: rest).length := by simp [hi]
      have h2 : i + 1 < (pre ++ a :: b :: c :: rest).length := by simp [hi]
      have h3 : i + 2 < (pre ++ a :: b :: c :: rest).length := by simp [hi]
      have hsz : encodedSize (a :: b :: c :: rest).length = encodedSize rest.length + 4 := by
        simp only [encodedSize, List.length_cons]; split <;> split <;> omega
      rw [hsz] at hs ⊢
      obtain ⟨w, x, y, z, r, rfl⟩ := ex4 suf (by omega)
      have hg : groupValue (pre ++ a :: b :: c :: rest) (pre ++ a :: b :: c :: rest).length i =
          .ok (a.toNat * 65536 + b.toNat * 256 + c.toNat) := by
        unfold groupValue
        have e1 : rd (pre ++ a :: b :: c :: rest) i = .ok a := rd_mid pre a _ i hi
        have e2 : rd (pre ++ a :: b :: c :: rest) (i + 1) = .ok b := by
          have := rd_mid (pre ++ [a]) b (c :: rest) (i + 1) (by simp [hi]); simpa using this
        have e3 : rd (pre ++ a :: b :: c :: rest) (i + 2) = .ok c := by
          have := rd_mid (pre ++ [a, b]) c rest (i + 2) (by simp [hi]); simpa using this
        simp only [e1, e2, e3, except_ok_bind, addByte, if_pos h2, if_pos h3, or_shift]
        exact congrArg Except.ok (by omega)
      rw [if_pos h1, hg]
      simp only [except_ok_bind]
      rw [storeGroup_eq _ _ _ _ _ _ _ _ _ _ hj (gt a b c)]
      simp only [except_ok_bind, if_pos h2, if_pos h3]
      have := ih (pre ++ [a, b, c]) rest (done ++ [alphabet ((a.toNat * 65536 + b.toNat * 256 + c.toNat) / 262144),
        alphabet ((a.toNat * 65536 + b.toNat * 256 + c.toNat) / 4096 % 64), alphabet ((a.toNat * 65536 + b.toNat * 256 + c.toNat) / 64 % 64),
        alphabet ((a.toNat * 65536 + b.toNat * 256 + c.toNat) % 64)]) r (i + 3) (j + 4) (by simp [hi]) (by simp [hj])
        (by simp at hf; omega) (by simp at hs; omega)
      simp only [List.append_assoc, List.cons_append, List.nil_append] at this
      rw [this]
      simp [encList]

theorem encList_length : ∀ bs : List Byte, (encList bs).length = encodedSize bs.length
  | [] => rfl
  | [_] => by simp [encList, encodedSize]
  | [_, _] => by simp [encList, encodedSize]
  | _ :: _ :: _ :: rest => by
    have := encList_length rest
    simp only [encList, List.length_cons, this, encodedSize]
    split <;> split <;> omega

/-! Bits -/

theorem bits_append (k l a b : Nat) (hb : b < 2 ^ l) : bits (k + l) (a * 2 ^ l + b) = bits k a ++ bits l b := by
  induction k with
  | zero =>
    simp only [bits, List.nil_append, Nat.zero_add]
    have : ∀ m, m ≤ l → bits m (a * 2 ^ l + b) = bits m b := by
      intro m
      induction m with
      | zero => intro _; rfl
      | succ m ih =>
        intro hm
        simp only [bits, ih (by omega)]
        rw [Nat.mul_comm, Nat.testBit_two_pow_mul_add _ hb, if_pos (by omega)]
    exact this l (Nat.le_refl _)
  | succ k ih =>
    rw [show k + 1 + l = (k + l) + 1 by omega]
    simp only [bits, List.cons_append, ih]
    rw [Nat.mul_comm, Nat.testBit_two_pow_mul_add _ hb, if_neg (by omega), show k + l - l = k by omega]

theorem value_bits (k n : Nat) (h : n < 2 ^ k) : value (bits k n) = n := by
  have gen : ∀ (k n acc : Nat), n < 2 ^ k → (bits k n).foldl (fun acc b => 2 * acc + b.toNat) acc = acc * 2 ^ k + n := by
    intro k
    induction k with
    | zero => intro n acc h; simp at h; simp [bits, h]
    | succ k ih =>
      intro n acc h
      have low : bits k n = bits k (n % 2 ^ k) := by
        have := bits_append 0 k (n / 2 ^ k) (n % 2 ^ k) (Nat.mod_lt _ (Nat.two_pow_pos k))
        simp only [Nat.zero_add, bits, List.nil_append] at this
        rw [← this, Nat.mul_comm, Nat.div_add_mod]
      simp only [bits, List.foldl_cons]
      rw [low, ih _ _ (Nat.mod_lt _ (Nat.two_pow_pos k))]
      have hd : n / 2 ^ k < 2 := Nat.div_lt_of_lt_mul (by rw [Nat.pow_succ] at h; omega)
      have ht : (n.testBit k).toNat = n / 2 ^ k := by
        rw [Nat.testBit_eq_decide_div_mod_eq]
        rcases Nat.lt_or_ge (n / 2 ^ k) 1 with h0 | h1
        · have : n / 2 ^ k = 0 := Nat.lt_one_iff.mp h0
          simp [this]
        · have : n / 2 ^ k = 1 := by omega
          simp [this]
      rw [ht, Nat.add_mul, Nat.pow_succ]
      have := Nat.div_add_mod n (2 ^ k)
      rw [Nat.mul_comm] at this
      have e : 2 * acc * 2 ^ k = acc * (2 ^ k * 2) := by rw [Nat.mul_comm 2 acc, Nat.mul_assoc, Nat.mul_comm 2]
      omega
  have := gen k n 0 h
  simpa [value] using this

theorem bits_length (k n : Nat) : (bits k n).length = k := by
  induction k with
  | zero => rfl
  | succ k ih => simp [bits, ih]

theorem sextets_cons (x : Nat) (hx : x < 64) (r : List Bool) : sextets (bits 6 x ++ r) = x :: sextets r := by
  have := value_bits 6 x hx
  simp only [bits, List.cons_append, List.nil_append, sextets] at this ⊢
  rw [this]

theorem octets_cons (x : Byte) (r : List Bool) : octets (bits 8 x.toNat ++ r) = x :: octets r := by
  have := value_bits 8 x.toNat x.isLt
  simp only [bits, List.cons_append, List.nil_append, octets] at this ⊢
  rw [this]; simp

/-- 24 bits as three bytes or as four digits. -/
theorem bits24 (a b c : Byte) :
    bits 8 a.toNat ++ (bits 8 b.toNat ++ bits 8 c.toNat) =
      let v := a.toNat * 65536 + b.toNat * 256 + c.toNat
      bits 6 (v / 262144) ++ (bits 6 (v / 4096 % 64) ++ (bits 6 (v / 64 % 64) ++ bits 6 (v % 64))) := by
  have ha := a.isLt
  have hb := b.isLt
  have hc := c.isLt
  rw [← bits_append 8 8 _ _ hc, ← bits_append 8 16 _ _ (by omega)]
  simp only []
  rw [← bits_append 6 6 _ _ (by omega), ← bits_append 6 12 _ _ (by omega), ← bits_append 6 18 _ _ (by omega)]
  exact congrArg (bits 24) (by omega)

theorem encList_eq_textOf : ∀ bs : List Byte, encList bs = textOf bs := by
  have digs : ∀ n : Nat, ∀ bs : List Byte, bs.length ≤ n →
      ∃ k, encList bs = (sextets (bs.flatMap (fun b => bits 8 b.toNat))).map alphabet ++ List.replicate k padChar ∧ k < 4 := by
    intro n
    induction n with
    | zero =>
      intro bs h
      have : bs = [] := List.length_eq_zero_iff.mp (by omega)
      subst this; exact ⟨0, by simp [encList, sextets], by omega⟩
    | succ n ih =>
      intro bs h
      match bs with
      | [] => exact ⟨0, by simp [encList, sextets], by omega⟩
      | [a] =>
        refine ⟨2, ?_, by omega⟩
        have ha := a.isLt
        have e : bits 8 a.toNat = bits 6 (a.toNat / 4) ++ bits 2 (a.toNat % 4) := by
          rw [← bits_append 6 2 _ _ (by omega)]; exact congrArg (bits _) (by omega)
        have e2 : sextets (bits 2 (a.toNat % 4)) = [a.toNat % 4 * 16] := by
          have := value_bits 6 (a.toNat % 4 * 16) (by omega)
          have e3 := bits_append 2 4 (a.toNat % 4) 0 (by omega)
          simp only [Nat.add_zero, Nat.reduceAdd, Nat.reducePow] at e3
          rw [e3] at this
          rw [← this]
          simp [bits, sextets]
        simp only [List.flatMap_cons, List.flatMap_nil, List.append_nil]
        rw [e, sextets_cons _ (by omega), e2]
        simp only [encList, List.map_cons, List.map_nil, List.replicate, List.cons_append, List.nil_append]
        rw [show a.toNat * 65536 / 262144 = a.toNat / 4 by omega, show a.toNat * 65536 / 4096 % 64 = a.toNat % 4 * 16 by omega]
      | [a, b] =>
        refine ⟨1, ?_, by omega⟩
        have ha := a.isLt
        have hb := b.isLt
        have e : bits 8 a.toNat ++ bits 8 b.toNat = bits 6 (a.toNat / 4) ++ (bits 6 (a.toNat % 4 * 16 + b.toNat / 16) ++ bits 4 (b.toNat % 16)) := by
          rw [← bits_append 8 8 _ _ hb, ← bits_append 6 4 _ _ (by omega), ← bits_append 6 10 _ _ (by omega)]; exact congrArg (bits _) (by omega)
        have e2 : sextets (bits 4 (b.toNat % 16)) = [b.toNat % 16 * 4] := by
          have := value_bits 6 (b.toNat % 16 * 4) (by omega)
          have e3 := bits_append 4 2 (b.toNat % 16) 0 (by omega)
          simp only [Nat.add_zero, Nat.reduceAdd, Nat.reducePow] at e3
          rw [e3] at this
          rw [← this]
          simp [bits, sextets]
        simp only [List.flatMap_cons, List.flatMap_nil, List.append_nil]
        rw [e, sextets_cons _ (by omega), sextets_cons _ (by omega), e2]
        simp only [encList, List.map_cons, List.map_nil, List.replicate, List.cons_append, List.nil_append]
        rw [show (a.toNat * 65536 + b.toNat * 256) / 262144 = a.toNat / 4 by omega,
          show (a.toNat * 65536 + b.toNat * 256) / 4096 % 64 = a.toNat % 4 * 16 + b.toNat / 16 by omega,
          show (a.toNat * 65536 + b.toNat * 256) / 64 % 64 = b.toNat % 16 * 4 by omega]
      | a :: b :: c :: rest =>
        obtain ⟨k, hk, hk4⟩ := ih rest (by simp at h; omega)
        refine ⟨k, ?_, hk4⟩
        have ha := a.isLt
        have hb := b.isLt
        have hc := c.isLt
        have e := bits24 a b c
        simp only [] at e
        simp only [List.flatMap_cons]
        rw [← List.append_assoc (bits 8 b.toNat), ← List.append_assoc (bits 8 a.toNat), e]
        simp only [List.append_assoc]
        rw [sextets_cons _ (by omega), sextets_cons _ (by omega), sextets_cons _ (by omega), sextets_cons _ (by omega)]
        simp only [encList, List.map_cons, List.cons_append, hk]
  intro bs
  obtain ⟨k, hk, hk4⟩ := digs bs.length bs (Nat.le_refl _)
  have hl := congrArg List.length hk
  rw [encList_length] at hl
  have h4 : encodedSize bs.length % 4 = 0 := by simp [encodedSize]
  simp only [List.length_append, List.length_replicate] at hl
  rw [hk, textOf]
  congr 2
  generalize (List.map alphabet _).length = m at *
  omega

/-! Decoding -/

theorem alphabet_ne (n : Nat) (h : n < 64) : alphabet n ≠ padChar ∧ alphabet n ≠ 0 ∧ validChar (alphabet n) = true := by
  have : ∀ m : Fin 64, alphabet m.1 ≠ padChar ∧ alphabet m.1 ≠ 0 ∧ validChar (alphabet m.1) = true := by decide +kernel
  exact this ⟨n, h⟩

theorem lookup_alphabet (n : Nat) (h : n < 64) : lookup (alphabet n) = .ok (BitVec.ofNat 64 n) := by
  have : ∀ m : Fin 64, lookup (alphabet m.1) = .ok (BitVec.ofNat 64 m.1) := by decide +kernel
  exact this ⟨n, h⟩

/-- What the decoder makes of the digits of one group. -/
def decList : List Nat → List Byte
  | [] => []
  | a :: b :: [] => [BitVec.ofNat 8 (a * 4 + b / 16)]
  | a :: b :: c :: [] => [BitVec.ofNat 8 (a * 4 + b / 16), BitVec.ofNat 8 (b % 16 * 16 + c / 4)]
  | a :: b :: c :: d :: rest =>
    BitVec.ofNat 8 (a * 4 + b / 16) :: BitVec.ofNat 8 (b % 16 * 16 + c / 4) :: BitVec.ofNat 8 (c % 4 * 64 + d) :: decList rest
  | [_] => []

theorem v_eq (a b c d : Nat) (ha : a < 64) (hb : b < 64) (hc : c < 64) (hd : d < 64) :
    (((BitVec.ofNat 64 a <<< 6 ||| BitVec.ofNat 64 b) <<< 6 ||| BitVec.ofNat 64 c) <<< 6 ||| BitVec.ofNat 64 d) =
      BitVec.ofNat 64 (a * 262144 + b * 4096 + c * 64 + d) := by
  have key : ∀ x y : Nat, x < 2 ^ 32 → y < 64 → (BitVec.ofNat 64 x <<< 6 ||| BitVec.ofNat 64 y) = BitVec.ofNat 64 (x * 64 + y) := by
    intro x y hx hy
    apply BitVec.eq_of_toNat_eq
    simp only [BitVec.toNat_or, BitVec.toNat_shiftLeft, BitVec.toNat_ofNat]
    rw [Nat.mod_eq_of_lt (a := x) (by omega), Nat.mod_eq_of_lt (a := y) (by omega), Nat.shiftLeft_eq,
      Nat.mod_eq_of_lt (a := x * 2 ^ 6) (by omega), ← Nat.shiftLeft_eq, ← Nat.shiftLeft_add_eq_or_of_lt (i := 6) (by omega), Nat.shiftLeft_eq,
      Nat.mod_eq_of_lt (by omega)]
  rw [key a b (by omega) hb, key _ c (by omega) hc, key _ d (by omega) hd]
  congr 1; omega

theorem byteOf (v k : Nat) (hv : v < 2 ^ 32) : ((BitVec.ofNat 64 v) >>> k).setWidth 8 = BitVec.ofNat 8 (v / 2 ^ k) := by
  apply BitVec.eq_of_toNat_eq
  simp only [BitVec.toNat_setWidth, BitVec.toNat_ushiftRight, BitVec.toNat_ofNat, Nat.shiftRight_eq_div_pow]
  rw [Nat.mod_eq_of_lt (a := v) (by omega)]

theorem byteOf0 (v : Nat) (hv : v < 2 ^ 32) : (BitVec.ofNat 64 v).setWidth 8 = BitVec.ofNat 8 v := by
  have := byteOf v 0 hv
  simpa using this

theorem ofNat8_congr {x y : Nat} (h : x % 256 = y % 256) : BitVec.ofNat 8 x = BitVec.ofNat 8 y := by
  apply BitVec.eq_of_toNat_eq; simpa using h

theorem rd4 {α : Type} (p : List α) (a b c d : α) (r : List α) (i : Nat) (hi : i = p.length) :
    rd (p ++ a :: b :: c :: d :: r) i = .ok a ∧ rd (p ++ a :: b :: c :: d :: r) (i + 1) = .ok b ∧
    rd (p ++ a :: b :: c :: d :: r) (i + 2) = .ok c ∧ rd (p ++ a :: b :: c :: d :: r) (i + 3) = .ok d := by
  refine ⟨rd_mid p a _ i hi, ?_, ?_, ?_⟩
  · have := rd_mid (p ++ [a]) b (c :: d :: r) (i + 1) (by simp [hi]); simpa using this
  · have := rd_mid (p ++ [a, b]) c (d :: r) (i + 2) (by simp [hi]); simpa using this
  · have := rd_mid (p ++ [a, b, c]) d r (i + 3) (by simp [hi]); simpa using this

theorem decGroup4 (pre tail done suf : List Byte) (a b c d : Nat) (x y z : Byte) (i j : Nat) (hi : i = pre.length) (hj : j = done.length)
    (ha : a < 64) (hb : b < 64) (hc : c < 64) (hd : d < 64) :
    decGroup (pre ++ alphabet a :: alphabet b :: alphabet c :: alphabet d :: tail) i j (done ++ x :: y :: z :: suf) =
      .ok (done ++ decList [a, b, c, d] ++ suf) := by
  obtain ⟨e0, e1, e2, e3⟩ := rd4 pre (alphabet a) (alphabet b) (alphabet c) (alphabet d) tail i hi
  unfold decGroup
  simp only [e0, e1, e2, e3, except_ok_bind, lookup_alphabet a ha, lookup_alphabet b hb, lookupOrPad, lookup_alphabet c hc, lookup_alphabet d hd,
    if_neg (alphabet_ne c hc).1, if_neg (alphabet_ne d hd).1, wrUnlessPad, if_pos (alphabet_ne c hc).1, if_pos (alphabet_ne d hd).1]
  rw [v_eq a b c d ha hb hc hd, byteOf _ 16 (by omega), byteOf _ 8 (by omega), byteOf0 _ (by omega)]
  rw [wr_mid done x _ _ j hj]
  simp only [except_ok_bind]
  rw [show ∀ u : Byte, done ++ u :: y :: z :: suf = (done ++ [u]) ++ y :: z :: suf by simp, wr_mid _ y _ _ (j + 1) (by simp [hj])]
  simp only [except_ok_bind]
  rw [show ∀ u v : Byte, done ++ [u] ++ v :: z :: suf = (done ++ [u, v]) ++ z :: suf by simp, wr_mid _ z _ _ (j + 2) (by simp [hj])]
  simp only [decList, List.append_assoc, List.cons_append, List.nil_append]
  have h1 : BitVec.ofNat 8 ((a * 262144 + b * 4096 + c * 64 + d) / 2 ^ 16) = BitVec.ofNat 8 (a * 4 + b / 16) := ofNat8_congr (by omega)
  have h2 : BitVec.ofNat 8 ((a * 262144 + b * 4096 + c * 64 + d) / 2 ^ 8) = BitVec.ofNat 8 (b % 16 * 16 + c / 4) := ofNat8_congr (by omega)
  have h3 : BitVec.ofNat 8 (a * 262144 + b * 4096 + c * 64 + d) = BitVec.ofNat 8 (c % 4 * 64 + d) := ofNat8_congr (by omega)
  rw [h1, h2, h3]

theorem decGroup3 (pre tail done suf : List Byte) (a b c : Nat) (x y : Byte) (i j : Nat) (hi : i = pre.length) (hj : j = done.length)
    (ha : a < 64) (hb : b < 64) (hc : c < 64) :
    decGroup (pre ++ alphabet a :: alphabet b :: alphabet c :: padChar :: tail) i j (done ++ x :: y :: suf) =
      .ok (done ++ decList [a, b, c] ++ suf) := by
  obtain ⟨e0, e1, e2, e3⟩ := rd4 pre (alphabet a) (alphabet b) (alphabet c) padChar tail i hi
  unfold decGroup
  simp only [e0, e1, e2, e3, except_ok_bind, lookup_alphabet a ha, lookup_alphabet b hb, lookupOrPad, lookup_alphabet c hc,
    if_neg (alphabet_ne c hc).1, wrUnlessPad, if_pos (alphabet_ne c hc).1, ne_eq, if_true, not_true_eq_false, if_false]
  rw [show (0 : BitVec 64) = BitVec.ofNat 64 0 from rfl, v_eq a b c 0 ha hb hc (by omega), byteOf _ 16 (by omega), byteOf _ 8 (by omega)]
  rw [wr_mid done x _ _ j hj]
  simp only [except_ok_bind]
  rw [show ∀ u : Byte, done ++ u :: y :: suf = (done ++ [u]) ++ y :: suf by simp, wr_mid _ y _ _ (j + 1) (by simp [hj])]
  simp only [except_ok_bind, decList, List.append_assoc, List.cons_append, List.nil_append]
  have h1 : BitVec.ofNat 8 ((a * 262144 + b * 4096 + c * 64 + 0) / 2 ^ 16) = BitVec.ofNat 8 (a * 4 + b / 16) := ofNat8_congr (by omega)
  have h2 : BitVec.ofNat 8 ((a * 262144 + b * 4096 + c * 64 + 0) / 2 ^ 8) = BitVec.ofNat 8 (b % 16 * 16 + c / 4) := ofNat8_congr (by omega)
  rw [h1, h2]

theorem decGroup2 (pre tail done suf : List Byte) (a b : Nat) (x : Byte) (i j : Nat) (hi : i = pre.length) (hj : j = done.length)
    (ha : a < 64) (hb : b < 64) :
    decGroup (pre ++ alphabet a :: alphabet b :: padChar :: padChar :: tail) i j (done ++ x :: suf) =
      .ok (done ++ decList [a, b] ++ suf) := by
  obtain ⟨e0, e1, e2, e3⟩ := rd4 pre (alphabet a) (alphabet b) padChar padChar tail i hi
  unfold decGroup
  simp only [e0, e1, e2, e3, except_ok_bind, lookup_alphabet a ha, lookup_alphabet b hb, lookupOrPad, wrUnlessPad,
    ne_eq, if_true, not_true_eq_false, if_false]
  rw [show (0 : BitVec 64) = BitVec.ofNat 64 0 from rfl, v_eq a b 0 0 ha hb (by omega) (by omega), byteOf _ 16 (by omega)]
  rw [wr_mid done x _ _ j hj]
  simp only [except_ok_bind, decList, List.append_assoc, List.cons_append, List.nil_append]
  have h1 : BitVec.ofNat 8 ((a * 262144 + b * 4096 + 0 * 64 + 0) / 2 ^ 16) = BitVec.ofNat 8 (a * 4 + b / 16) := ofNat8_congr (by omega)
  rw [h1]

theorem list2 {α : Type} {l : List α} (h : l.length = 2) : ∃ x y, l = [x, y] := by
  match l, h with
  | [x, y], _ => exact ⟨x, y, rfl⟩

theorem list3 {α : Type} {l : List α} (h : l.length = 3) : ∃ x y z, l = [x, y, z] := by
  match l, h with
  | [x, y, z], _ => exact ⟨x, y, z, rfl⟩

/-- The decoding loop over digits and padding. -/
theorem decLoop_eq : ∀ (fuel : Nat) (pre : List Byte) (ds : List Nat) (pads : Nat) (tail done suf : List Byte) (i j len : Nat),
    i = pre.length → j = done.length → len = pre.length + ds.length + pads → (∀ d ∈ ds, d < 64) → pads ≤ 2 → (ds.length + pads) % 4 = 0 →
    ds.length < fuel → suf.length = (ds.length + pads) / 4 * 3 - pads + 1 →
    ∃ z, decLoop (pre ++ (ds.map alphabet ++ List.replicate pads padChar) ++ tail) len fuel i j (done ++ suf) = .ok (done ++ decList ds ++ [z]) ∧
      suf.getLast? = some z := by
  intro fuel
  induction fuel with
  | zero => intro pre ds pads tail done suf i j len _ _ _ _ _ _ h; omega
  | succ fuel ih =>
    intro pre ds pads tail done suf i j len hi hj hl hd hp h4 hf hs
    unfold decLoop
    match ds with
    | [] =>
      have : pads = 0 := by simp at h4; omega
      subst this
      have hlt : ¬ i < len := by simp [hl, hi]
      rw [if_neg hlt]
      match suf, hs with
      | [z], _ => exact ⟨z, by simp [decList], rfl⟩
    | [_] => simp at h4; omega
    | [a, b] =>
      have : pads = 2 := by simp at h4; omega
      subst this
      have hlt : i < len := by simp only [hl, hi, List.length_cons]; omega
      obtain ⟨x, z, rfl⟩ := list2 (l := suf) (by simp at hs; omega)
      · refine ⟨z, ?_, rfl⟩
        rw [if_pos hlt]
        have := decGroup2 pre tail done [z] a b x i j hi hj (hd a (by simp)) (hd b (by simp))
        simp only [List.map_cons, List.map_nil, List.replicate, List.append_assoc, List.cons_append, List.nil_append] at this ⊢
        rw [this]
        obtain ⟨f, rfl⟩ : ∃ f, fuel = f + 1 := ⟨fuel - 1, by simp at hf; omega⟩
        simp only [except_ok_bind]
        unfold decLoop
        rw [if_neg (by simp [hl, hi])]
    | [a, b, c] =>
      have : pads = 1 := by simp at h4; omega
      subst this
      have hlt : i < len := by simp only [hl, hi, List.length_cons]; omega
      obtain ⟨x, y, z, rfl⟩ := list3 (l := suf) (by simp at hs; omega)
      · refine ⟨z, ?_, rfl⟩
        rw [if_pos hlt]
        have := decGroup3 pre tail done [z] a b c x y i j hi hj (hd a (by simp)) (hd b (by simp)) (hd c (by simp))
        simp only [List.map_cons, List.map_nil, List.replicate, List.append_assoc, List.cons_append, List.nil_append] at this ⊢
        rw [this]
        obtain ⟨f, rfl⟩ : ∃ f, fuel = f + 1 := ⟨fuel - 1, by simp at hf; omega⟩
        simp only [except_ok_bind]
        unfold decLoop
        rw [if_neg (by simp [hl, hi])]
    | a :: b :: c :: d :: ds =>
      have hlt : i < len := by simp only [hl, hi, List.length_cons]; omega
      have hs' : 4 ≤ suf.length := by simp only [List.length_cons] at hs h4; omega
      obtain ⟨x, y, z, suf, rfl⟩ : ∃ x y z r, suf = x :: y :: z :: r := by
        match suf, hs' with
        | x :: y :: z :: r, _ => exact ⟨x, y, z, r, rfl⟩
      rw [if_pos hlt]
      have hg := decGroup4 pre (ds.map alphabet ++ List.replicate pads padChar ++ tail) done suf a b c d x y z i j hi hj
        (hd a (by simp)) (hd b (by simp)) (hd c (by simp)) (hd d (by simp))
      simp only [List.map_cons, List.append_assoc, List.cons_append, List.nil_append] at hg ⊢
      rw [hg]
      simp only [except_ok_bind]
      obtain ⟨w, h1, h2⟩ := ih (pre ++ [alphabet a, alphabet b, alphabet c, alphabet d]) ds pads tail (done ++ decList [a, b, c, d]) suf
        (i + 4) (j + 3) len (by simp [hi]) (by simp [hj, decList]) (by simp [hl]; omega) (fun e he => hd e (by simp [he])) hp
        (by simp only [List.length_cons] at h4; omega) (by simp only [List.length_cons] at hf; omega) (by simp only [List.length_cons] at hs h4; omega)
      refine ⟨w, ?_, ?_⟩
      · simp only [List.append_assoc, List.cons_append, List.nil_append] at h1
        rw [h1]
        simp [decList]
      · have hne : suf ≠ [] := by rintro rfl; simp at h2
        rw [← h2]
        obtain ⟨u, rest, rfl⟩ := List.exists_cons_of_ne_nil hne
        simp [List.getLast?_cons_cons]

theorem strlen_text (t : List Byte) (h : ∀ c ∈ t, c ≠ 0) (r : List Byte) : strlen (t ++ 0 :: r) = .ok t.length := by
  induction t with
  | nil => simp [strlen]
  | cons c t ih =>
    have hc := h c (by simp)
    rw [List.cons_append, strlen, if_neg hc, ih (fun d hd => h d (by simp [hd]))]
    rfl

theorem trailingPads_text (l : List Byte) (pads : Nat) (r : List Byte) (hl : ∀ c, l.getLast? = some c → c ≠ padChar) :
    trailingPads (l ++ List.replicate pads padChar ++ r) (l.length + pads) = .ok pads := by
  induction pads generalizing r with
  | zero =>
    simp only [List.replicate_zero, List.append_nil, Nat.add_zero]
    rcases List.eq_nil_or_concat l with h | ⟨p, x, h⟩
    · subst h; simp [trailingPads]
    · rw [List.concat_eq_append] at h
      subst h
      have hx := hl x (by simp)
      rw [List.length_append, List.length_singleton, trailingPads, List.append_assoc, List.singleton_append, rd_mid _ _ _ _ rfl]
      simp [hx]
  | succ k ih =>
    rw [← Nat.add_assoc, trailingPads, List.replicate_succ']
    have e : l ++ (List.replicate k padChar ++ [padChar]) ++ r = (l ++ List.replicate k padChar) ++ padChar :: r := by simp
    rw [e, rd_mid _ _ _ _ (by simp)]
    simp only [except_ok_bind, if_true]
    rw [ih (padChar :: r)]
    rfl

theorem allValid_iff (s : List Byte) (len : Nat) (hl : len ≤ s.length) : ∀ n, n ≤ len →
    allValid s len n = .ok (((s.take len).drop (len - n)).all validChar)
  | 0, _ => by
    simp only [allValid, Nat.sub_zero]
    rw [List.drop_of_length_le (by simp; omega)]; rfl
  | n + 1, h => by
    have hi : len - (n + 1) < s.length := by omega
    have hd : (s.take len).drop (len - (n + 1)) = s[len - (n + 1)] :: (s.take len).drop (len - n) := by
      rw [List.drop_eq_getElem_cons (by simp; omega)]
      simp only [List.getElem_take]
      rw [show len - (n + 1) + 1 = len - n by omega]
    simp only [allValid, rd_ok hi, except_ok_bind, hd, List.all_cons]
    by_cases hv : validChar s[len - (n + 1)] = true
    · simp only [hv, if_true, Bool.true_and]
      exact allValid_iff s len hl n (by omega)
    · simp [hv]

theorem decList_spec : ∀ (n : Nat) (ds : List Nat), ds.length ≤ n → (∀ d ∈ ds, d < 64) → decList ds = octets (ds.flatMap (bits 6)) := by
  intro n
  induction n with
  | zero =>
    intro ds h _
    have : ds = [] := List.length_eq_zero_iff.mp (by omega)
    subst this; rfl
  | succ n ih =>
    intro ds h hd
    have b8 : ∀ x : Nat, x < 256 → bits 8 x = bits 8 (BitVec.ofNat 8 x).toNat := by
      intro x hx; simp [Nat.mod_eq_of_lt hx]
    have short : ∀ l : List Bool, l.length < 8 → octets l = [] := by
      intro l hl
      unfold octets
      split
      · simp at hl; omega
      · rfl
    match ds with
    | [] => rfl
    | [a] =>
      rw [short _ (by simp [bits_length])]; rfl
    | [a, b] =>
      have ha := hd a (by simp)
      have hb := hd b (by simp)
      have e : bits 6 a ++ bits 6 b = bits 8 (a * 4 + b / 16) ++ bits 4 (b % 16) := by
        rw [← bits_append 6 6 _ _ (by omega), ← bits_append 8 4 _ _ (by omega)]; exact congrArg (bits _) (by omega)
      simp only [List.flatMap_cons, List.flatMap_nil, List.append_nil, decList]
      rw [e, b8 _ (by omega), octets_cons, short _ (by simp [bits_length])]
    | [a, b, c] =>
      have ha := hd a (by simp)
      have hb := hd b (by simp)
      have hc := hd c (by simp)
      have e : bits 6 a ++ (bits 6 b ++ bits 6 c) = bits 8 (a * 4 + b / 16) ++ (bits 8 (b % 16 * 16 + c / 4) ++ bits 2 (c % 4)) := by
        rw [← bits_append 6 6 _ _ (by omega), ← bits_append 6 12 _ _ (by omega), ← bits_append 8 2 _ _ (by omega), ← bits_append 8 10 _ _ (by omega)]
        exact congrArg (bits _) (by omega)
      simp only [List.flatMap_cons, List.flatMap_nil, List.append_nil, decList]
      rw [e, b8 _ (by omega), octets_cons, b8 (b % 16 * 16 + c / 4) (by omega), octets_cons, short _ (by simp [bits_length])]
    | a :: b :: c :: d :: ds =>
      have ha := hd a (by simp)
      have hb := hd b (by simp)
      have hc := hd c (by simp)
      have hdd := hd d (by simp)
      have e : bits 6 a ++ (bits 6 b ++ (bits 6 c ++ bits 6 d)) = bits 8 (a * 4 + b / 16) ++ (bits 8 (b % 16 * 16 + c / 4) ++ bits 8 (c % 4 * 64 + d)) := by
        rw [← bits_append 6 6 _ _ (by omega), ← bits_append 6 12 _ _ (by omega), ← bits_append 6 18 _ _ (by omega),
          ← bits_append 8 8 _ _ (by omega), ← bits_append 8 16 _ _ (by omega)]
        exact congrArg (bits _) (by omega)
      simp only [List.flatMap_cons]
      rw [← List.append_assoc (bits 6 c), ← List.append_assoc (bits 6 b), ← List.append_assoc (bits 6 a), e]
      simp only [List.append_assoc]
      rw [b8 _ (by omega), octets_cons, b8 (b % 16 * 16 + c / 4) (by omega), octets_cons, b8 (c % 4 * 64 + d) (by omega), octets_cons]
      rw [← ih ds (by simp at h; omega) (fun x hx => hd x (by simp [hx]))]
      rfl

/-- Decoding well-formed padded text. -/
theorem decode_padded (junk : Byte) (text r : List Byte) (p : Padded text) :
    decode junk (text ++ 0 :: r) text.length = .ok (some (octets (p.digits.flatMap (bits 6)) ++ [0])) := by
  obtain ⟨ds, pads, hlt, htwo, hfour, heq⟩ := p
  simp only
  subst heq
  generalize ht : ds.map alphabet ++ List.replicate pads padChar = text
  have hlen : text.length = ds.length + pads := by rw [← ht]; simp
  have hnz : ∀ c ∈ text, c ≠ 0 := by
    intro c hc
    rw [← ht] at hc
    rcases List.mem_append.mp hc with h | h
    · obtain ⟨d, hd, rfl⟩ := List.mem_map.mp h; exact (alphabet_ne d (hlt d hd)).2.1
    · rw [(List.mem_replicate.mp h).2]; decide
  have hval : ∀ c ∈ text, validChar c = true := by
    intro c hc
    rw [← ht] at hc
    rcases List.mem_append.mp hc with h | h
    · obtain ⟨d, hd, rfl⟩ := List.mem_map.mp h; exact (alphabet_ne d (hlt d hd)).2.2
    · rw [(List.mem_replicate.mp h).2]; decide
  have hsize : decodedSize (text ++ 0 :: r) = .ok (((text.length / 4 * 3 : Nat) : Int) - (pads : Int)) := by
    unfold decodedSize
    rw [strlen_text text hnz]
    simp only [except_ok_bind]
    have := trailingPads_text (ds.map alphabet) pads (0 :: r) (by
      intro c hc
      have hm := List.mem_of_getLast? hc
      obtain ⟨d, hd, rfl⟩ := List.mem_map.mp hm
      exact (alphabet_ne d (hlt d hd)).1)
    rw [ht] at this
    rw [hlen]
    simp only [List.length_map] at this
    rw [this]
    rfl
  have hnn : pads ≤ text.length / 4 * 3 := by
    rw [hlen]
    rcases Nat.eq_zero_or_pos pads with h | h <;> omega
  have htn : ((((text.length / 4 * 3 : Nat) : Int) - (pads : Int))).toNat = text.length / 4 * 3 - pads := by omega
  unfold decode
  simp only [hsize, except_ok_bind]
  rw [if_neg (by omega), htn]
  rw [wr_ok (by simp)]
  simp only [except_ok_bind]
  rw [allValid_iff (text ++ 0 :: r) text.length (by simp) text.length (Nat.le_refl _)]
  have hall : ((text ++ 0 :: r).take text.length).drop (text.length - text.length) = text := by simp
  rw [hall, List.all_eq_true.mpr hval]
  simp only [except_ok_bind, if_true]
  obtain ⟨z, h1, h2⟩ := decLoop_eq (text.length + 1) [] ds pads (0 :: r) [] ((List.replicate (text.length / 4 * 3 - pads + 1) junk).set
    (text.length / 4 * 3 - pads) 0) 0 0 text.length rfl rfl (by simp [hlen]) hlt htwo hfour (by omega) (by simp [hlen])
  rw [ht] at h1
  simp only [List.nil_append] at h1
  rw [h1]
  have hz : z = 0 := by
    rw [List.getLast?_eq_getElem?] at h2
    simp at h2
    exact h2.symm
  simp only [except_ok_bind, hz, decList_spec ds.length ds (Nat.le_refl _) hlt]

/-! ## Properties -/

theorem encode_ok (junk : Byte) (bytes : List Byte) (h : bytes ≠ []) : encode junk bytes bytes.length = .ok (some (textOf bytes ++ [0])) := by
  have hl : bytes.length ≠ 0 := fun e => h (List.length_eq_zero_iff.mp e)
  have hm : wr (List.replicate (encodedSize bytes.length + 1) junk) (encodedSize bytes.length) 0 =
      .ok (List.replicate (encodedSize bytes.length) junk ++ [0]) := by
    rw [List.replicate_succ']
    exact wr_mid _ _ _ [] _ (by simp)
  have he := encLoop_eq (bytes.length + 1) [] bytes [] (List.replicate (encodedSize bytes.length) junk ++ [0])
    0 0 rfl rfl (by omega) (by simp)
  simp only [List.nil_append] at he
  unfold encode
  rw [if_neg hl]
  simp only [hm, except_ok_bind, he]
  rw [encList_eq_textOf, List.drop_left' (by simp)]

theorem bits_value6 : ∀ a b c d e f : Bool, bits 6 (value [a, b, c, d, e, f]) = [a, b, c, d, e, f] ∧ value [a, b, c, d, e, f] < 64 := by
  decide

theorem sextets_bits : ∀ (n : Nat) (l : List Bool), l.length ≤ n →
    (∃ k, k < 6 ∧ (sextets l).flatMap (bits 6) = l ++ List.replicate k false) ∧ (∀ d ∈ sextets l, d < 64) ∧
      (sextets l).length = (l.length + 5) / 6 := by
  intro n
  induction n with
  | zero =>
    intro l h
    have : l = [] := List.length_eq_zero_iff.mp (by omega)
    subst this; exact ⟨⟨0, by omega, rfl⟩, by simp [sextets], rfl⟩
  | succ n ih =>
    intro l h
    match l with
    | [] => exact ⟨⟨0, by omega, rfl⟩, by simp [sextets], rfl⟩
    | [a] =>
      have := bits_value6 a false false false false false
      exact ⟨⟨5, by omega, by simp [sextets, List.replicate, this.1]⟩, by simp [sextets, List.replicate, this.2], by simp [sextets]⟩
    | [a, b] =>
      have := bits_value6 a b false false false false
      exact ⟨⟨4, by omega, by simp [sextets, List.replicate, this.1]⟩, by simp [sextets, List.replicate, this.2], by simp [sextets]⟩
    | [a, b, c] =>
      have := bits_value6 a b c false false false
      exact ⟨⟨3, by omega, by simp [sextets, List.replicate, this.1]⟩, by simp [sextets, List.replicate, this.2], by simp [sextets]⟩
    | [a, b, c, d] =>
      have := bits_value6 a b c d false false
      exact ⟨⟨2, by omega, by simp [sextets, List.replicate, this.1]⟩, by simp [sextets, List.replicate, this.2], by simp [sextets]⟩
    | [a, b, c, d, e] =>
      have := bits_value6 a b c d e false
      exact ⟨⟨1, by omega, by simp [sextets, List.replicate, this.1]⟩, by simp [sextets, List.replicate, this.2], by simp [sextets]⟩
    | a :: b :: c :: d :: e :: f :: rest =>
      have := bits_value6 a b c d e f
      obtain ⟨⟨k, hk, h1⟩, h2, h3⟩ := ih rest (by simp at h; omega)
      refine ⟨⟨k, hk, ?_⟩, ?_, ?_⟩
      · simp only [sextets, List.flatMap_cons, this.1, h1]; rfl
      · intro x hx
        rcases List.mem_cons.mp (by simpa only [sextets] using hx) with rfl | hx
        · exact this.2
        · exact h2 x hx
      · simp only [sextets, List.length_cons, h3]; omega

theorem octets_bits (bytes : List Byte) (k : Nat) (hk : k < 8) :
    octets (bytes.flatMap (fun b => bits 8 b.toNat) ++ List.replicate k false) = bytes := by
  induction bytes with
  | nil =>
    unfold octets
    split
    · rename_i h
      have := congrArg List.length h
      simp at this; omega
    · rfl
  | cons b bytes ih => rw [List.flatMap_cons, List.append_assoc, octets_cons, ih]

theorem flat_length (bytes : List Byte) : (bytes.flatMap (fun b => bits 8 b.toNat)).length = 8 * bytes.length := by
  induction bytes with
  | nil => rfl
  | cons b bytes ih => simp only [List.flatMap_cons, List.length_append, ih, bits_length, List.length_cons]; omega

/-- The text of a byte string is well-formed padded base 64. -/
def textOf_padded (bytes : List Byte) : Padded (textOf bytes) where
  digits := sextets (bytes.flatMap (fun b => bits 8 b.toNat))
  pads := (4 - (sextets (bytes.flatMap (fun b => bits 8 b.toNat))).length % 4) % 4
  lt := (sextets_bits _ _ (Nat.le_refl _)).2.1
  two := by rw [(sextets_bits _ _ (Nat.le_refl _)).2.2, flat_length]; omega
  four := by omega
  eq := by simp [textOf]

/-- Every outcome is a result or an out-of-bounds access. -/
def OkOrOob {α : Type} (r : Except Fault α) : Prop := r = .error .oob ∨ ∃ x, r = .ok x

theorem OkOrOob.bind {α β : Type} {r : Except Fault α} {f : α → Except Fault β} (h : OkOrOob r) (hf : ∀ x, OkOrOob (f x)) :
    OkOrOob (r >>= f) := by
  rcases h with rfl | ⟨x, rfl⟩
  · exact Or.inl rfl
  · exact hf x

theorem rd_oo {α : Type} (l : List α) (i : Nat) : OkOrOob (rd l i) := by
  unfold rd OkOrOob; cases l[i]? <;> simp

theorem wr_oo {α : Type} (l : List α) (i : Nat) (x : α) : OkOrOob (wr l i x) := by
  unfold wr OkOrOob; split <;> simp

theorem lookup_oo (c : Byte) : OkOrOob (lookup c) := by
  unfold lookup
  split
  · exact Or.inl rfl
  · exact (rd_oo _ _).bind (fun x => Or.inr ⟨_, rfl⟩)

theorem lookupOrPad_oo (c : Byte) : OkOrOob (lookupOrPad c) := by
  unfold lookupOrPad; split
  · exact Or.inr ⟨_, rfl⟩
  · exact lookup_oo c

theorem wrUnlessPad_oo (c : Byte) (r : List Byte) (j : Nat) (x : Byte) : OkOrOob (wrUnlessPad c r j x) := by
  unfold wrUnlessPad; split
  · exact wr_oo _ _ _
  · exact Or.inr ⟨_, rfl⟩

theorem decGroup_oo (s : List Byte) (i j : Nat) (ret : List Byte) : OkOrOob (decGroup s i j ret) := by
  unfold decGroup
  refine (rd_oo _ _).bind fun _ => (rd_oo _ _).bind fun _ => (rd_oo _ _).bind fun _ => (rd_oo _ _).bind fun _ => ?_
  refine (lookup_oo _).bind fun _ => (lookup_oo _).bind fun _ => (lookupOrPad_oo _).bind fun _ => (lookupOrPad_oo _).bind fun _ => ?_
  exact (wr_oo _ _ _).bind fun _ => (wrUnlessPad_oo _ _ _ _).bind fun _ => wrUnlessPad_oo _ _ _ _

/-- A group that reaches the terminating NUL indexes the table in front of its start. -/
theorem decGroup_nul (s : List Byte) (i j k : Nat) (ret : List Byte) (hk : k = i + 1 ∨ k = i + 2 ∨ k = i + 3) (hs : s[k]? = some 0) :
    decGroup s i j ret = .error .oob := by
  have hrd : rd s k = .ok 0 := by simp [rd, hs]
  have l0 : lookup 0 = .error .oob := by decide
  have lp0 : lookupOrPad 0 = .error .oob := by decide
  have step : ∀ {α β : Type} {r : Except Fault α} {f : α → Except Fault β}, OkOrOob r → (∀ x, f x = .error .oob) → r >>= f = .error .oob := by
    intro α β r f h hf
    rcases h with rfl | ⟨x, rfl⟩
    · rfl
    · exact hf x
  unfold decGroup
  rcases hk with rfl | rfl | rfl
  · refine step (rd_oo _ _) fun _ => ?_
    rw [hrd]; simp only [except_ok_bind]
    refine step (rd_oo _ _) fun _ => step (rd_oo _ _) fun _ => step (lookup_oo _) fun _ => ?_
    rw [l0]; rfl
  · refine step (rd_oo _ _) fun _ => step (rd_oo _ _) fun _ => ?_
    rw [hrd]; simp only [except_ok_bind]
    refine step (rd_oo _ _) fun _ => step (lookup_oo _) fun _ => step (lookup_oo _) fun _ => ?_
    rw [lp0]; rfl
  · refine step (rd_oo _ _) fun _ => step (rd_oo _ _) fun _ => step (rd_oo _ _) fun _ => ?_
    rw [hrd]; simp only [except_ok_bind]
    refine step (lookup_oo _) fun _ => step (lookup_oo _) fun _ => step (lookupOrPad_oo _) fun _ => ?_
    rw [lp0]; rfl

theorem decLoop_misaligned (s : List Byte) (len : Nat) (hs : s[len]? = some 0) : ∀ (fuel i j : Nat) (ret : List Byte),
    len - i < fuel → i < len → (len - i) % 4 ≠ 0 → decLoop s len fuel i j ret = .error .oob := by
  intro fuel
  induction fuel with
  | zero => intro i j ret h; omega
  | succ fuel ih =>
    intro i j ret hf hi h4
    unfold decLoop
    rw [if_pos hi]
    by_cases hlast : len < i + 4
    · rw [decGroup_nul s i j len ret (by omega) hs]; rfl
    · rcases decGroup_oo s i j ret with h | ⟨r, h⟩
      · rw [h]; rfl
      · rw [h]; simp only [except_ok_bind]
        exact ih (i + 4) (j + 3) r (by omega) (by omega) (by omega)

theorem trailingPads_ok (s : List Byte) : ∀ n, n ≤ s.length → ∃ k, trailingPads s n = .ok k
  | 0, _ => ⟨0, rfl⟩
  | n + 1, h => by
    obtain ⟨k, hk⟩ := trailingPads_ok s n (by omega)
    simp only [trailingPads, rd_ok (show n < s.length by omega), except_ok_bind]
    split
    · rw [hk]; exact ⟨_, rfl⟩
    · exact ⟨_, rfl⟩

/-! ### C45 -/

/-- **C45.**  For every non-empty byte string `zpl_base64_encode` returns, NUL terminated, its RFC 4648 text; the text has
4 * ceil(n/3) characters. -/
theorem C45_encode (junk : Byte) (bytes : List Byte) (h : bytes ≠ []) :
    encode junk bytes bytes.length = .ok (some (textOf bytes ++ [0])) ∧ (textOf bytes).length = 4 * ((bytes.length + 2) / 3) := by
  refine ⟨encode_ok junk bytes h, ?_⟩
  rw [← encList_eq_textOf, encList_length]
  simp only [encodedSize]
  split <;> omega

/-- **C45.**  Decoding what was encoded gives the byte string back (followed by the NUL that the decoder appends); no call touches
memory outside its blocks. -/
theorem C45_round_trip (junk junk' : Byte) (bytes : List Byte) (h : bytes ≠ []) :
    ∃ text, encode junk bytes bytes.length = .ok (some text) ∧
      ∃ len, strlen text = .ok len ∧ decode junk' text len = .ok (some (bytes ++ [0])) := by
  refine ⟨_, encode_ok junk bytes h, (textOf bytes).length, ?_, ?_⟩
  · refine strlen_text _ (fun c hc => ?_) []
    have p := textOf_padded bytes
    rw [p.eq] at hc
    rcases List.mem_append.mp hc with h | h
    · obtain ⟨d, hd, rfl⟩ := List.mem_map.mp h; exact (alphabet_ne d (p.lt d hd)).2.1
    · rw [(List.mem_replicate.mp h).2]; decide
  · rw [decode_padded junk' (textOf bytes) [] (textOf_padded bytes)]
    obtain ⟨⟨k, hk, h1⟩, _, _⟩ := sextets_bits _ (bytes.flatMap (fun b => bits 8 b.toNat)) (Nat.le_refl _)
    have : octets ((textOf_padded bytes).digits.flatMap (bits 6)) = bytes := by
      show octets ((sextets (bytes.flatMap (fun b => bits 8 b.toNat))).flatMap (bits 6)) = bytes
      rw [h1, octets_bits bytes k (by omega)]
    rw [this]

/-- Non-vacuity: the RFC 4648 test vector "foobar" -> "Zm9vYmFy", "fooba" -> "Zm9vYmE=". -/
example : textOf ("foobar".toList.map (fun c => BitVec.ofNat 8 c.toNat)) = "Zm9vYmFy".toList.map (fun c => BitVec.ofNat 8 c.toNat) ∧
    textOf ("fooba".toList.map (fun c => BitVec.ofNat 8 c.toNat)) = "Zm9vYmE=".toList.map (fun c => BitVec.ofNat 8 c.toNat) := by
  decide +kernel

/-! ### C46 -/

/-- **C46 (partial).**  Every well-formed padded text is decoded without touching memory outside the blocks, and gives the
eight-bit groups of its digits.  The full property also asks for NULL on every other text: see the theorems below. -/
theorem C46_well_formed_partial (junk : Byte) (text r : List Byte) (p : Padded text) :
    decode junk (text ++ 0 :: r) text.length = .ok (some (octets (p.digits.flatMap (bits 6)) ++ [0])) :=
  decode_padded junk text r p

/-- **C46 (partial).**  A text containing a character outside the alphabet and '=' is refused with NULL and nothing outside
the blocks is touched, if it does not end in more '=' than 3/4 of its length. -/
theorem C46_invalid_character_partial (junk : Byte) (l : List Byte) (pads : Nat) (r : List Byte) (hl : ∀ c, l.getLast? = some c → c ≠ padChar)
    (hnz : ∀ c ∈ l, c ≠ 0) (hpads : pads ≤ (l.length + pads) / 4 * 3)
    (hbad : ∃ c ∈ l, c ≠ padChar ∧ ∀ n < 64, c ≠ alphabet n) :
    decode junk (l ++ List.replicate pads padChar ++ 0 :: r) (l.length + pads) = .ok none := by
  have hlen : (l ++ List.replicate pads padChar).length = l.length + pads := by simp
  have hsize : decodedSize (l ++ List.replicate pads padChar ++ 0 :: r) = .ok ((((l.length + pads) / 4 * 3 : Nat) : Int) - (pads : Int)) := by
    unfold decodedSize
    rw [strlen_text (l ++ List.replicate pads padChar) (by
      intro c hc
      rcases List.mem_append.mp hc with h | h
      · exact hnz c h
      · rw [(List.mem_replicate.mp h).2]; decide), hlen]
    simp only [except_ok_bind]
    rw [trailingPads_text l pads (0 :: r) hl]
    rfl
  unfold decode
  simp only [hsize, except_ok_bind]
  rw [if_neg (by omega), wr_ok (by simp)]
  simp only [except_ok_bind]
  rw [allValid_iff _ (l.length + pads) (by simp) (l.length + pads) (Nat.le_refl _)]
  have hf : ((l ++ List.replicate pads padChar ++ 0 :: r).take (l.length + pads)).drop (l.length + pads - (l.length + pads)) =
      l ++ List.replicate pads padChar := by
    rw [← hlen, Nat.sub_self, List.take_left, List.drop_zero]
  have hv : (l ++ List.replicate pads padChar).all validChar = false := by
    obtain ⟨c, hc, hcp, hca⟩ := hbad
    rw [List.all_eq_false]
    refine ⟨c, List.mem_append_left _ hc, ?_⟩
    have all : ∀ x : BitVec 8, validChar x = true → x = padChar ∨ ∃ n : Fin 64, x = alphabet n.1 := by decide +kernel
    intro hv
    rcases all c hv with h | ⟨n, h⟩
    · exact hcp h
    · exact hca n.1 n.2 h
  rw [hf, hv]
  rfl

/-- Deviation from C46: every text of valid characters whose length is not a multiple of four makes the decoder access memory out of
bounds instead of returning NULL. -/
theorem C46_length_not_multiple_of_4 (junk : Byte) (text r : List Byte) (hv : ∀ c ∈ text, c = padChar ∨ ∃ n < 64, c = alphabet n)
    (h4 : text.length % 4 ≠ 0) : decode junk (text ++ 0 :: r) text.length = .error .oob := by
  have hnz : ∀ c ∈ text, c ≠ 0 ∧ validChar c = true := by
    intro c hc
    rcases hv c hc with h | ⟨n, hn, h⟩
    · rw [h]; decide
    · rw [h]; exact (alphabet_ne n hn).2
  unfold decode decodedSize
  rw [strlen_text text (fun c hc => (hnz c hc).1)]
  obtain ⟨k, hk⟩ := trailingPads_ok (text ++ 0 :: r) text.length (by simp)
  simp only [except_ok_bind, hk]
  split
  · rfl
  · rw [wr_ok (by simp)]
    simp only [except_ok_bind]
    rw [allValid_iff _ text.length (by simp) text.length (Nat.le_refl _)]
    have hall : ((text ++ 0 :: r).take text.length).drop (text.length - text.length) = text := by simp
    rw [hall, List.all_eq_true.mpr (fun c hc => (hnz c hc).2)]
    simp only [except_ok_bind, if_true]
    rw [decLoop_misaligned (text ++ 0 :: r) text.length (by simp) _ _ _ _ (by omega) (by omega) (by omega)]
    rfl

/-- Deviations from C46: "====" writes in front of the result block; "=AAA" is not base 64 and is accepted. -/
theorem C46_bad_padding : decode 7 [61, 61, 61, 61, 0] 4 = .error .oob ∧ ∃ r, decode 7 [61, 65, 65, 65, 0] 4 = .ok (some r) :=
  ⟨by decide +kernel, [0xFC#8, 0, 0, 0], by decide +kernel⟩

/-- Non-vacuity of the C46 theorems: "QUI=" is padded, "Q-==" holds an invalid character, "QUI" has a bad length. -/
example : Nonempty (Padded [81, 85, 73, 61]) ∧ decode 7 [81, 45, 61, 61, 0] 4 = .ok none ∧ decode 7 [81, 85, 73, 0] 3 = .error .oob :=
  ⟨⟨[16, 20, 8], 1, by decide, by decide, by decide, by decide⟩, by decide +kernel, by decide +kernel⟩

end Zpl.Base64
