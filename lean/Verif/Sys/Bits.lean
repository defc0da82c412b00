import Verif.Basic

/-!
# Bits and bytes of integers — header/core/misc.h:34-72

`zpl_endian_swap16`/`32`/`64`, `zpl_next_pow2`, `zpl_bit_set`/`get`/`reset` and `zpl_count_set_bits`.
-/
namespace Zpl.Bits

/-! ## Model -/

/-- `zpl_endian_swap16` — header/core/misc.h:34-36.  The argument is promoted to `int`, the result cut to 16 bits: the same as
shifting 16 bits. -/
def swap16 (i : BitVec 16) : BitVec 16 := (i >>> 8) ||| (i <<< 8)

/-- `zpl_endian_swap32` — header/core/misc.h:38-41. -/
def swap32 (i : BitVec 32) : BitVec 32 :=
  (i >>> 24) ||| (i <<< 24) ||| ((i &&& 0x00ff0000#32) >>> 8) ||| ((i &&& 0x0000ff00#32) <<< 8)

/-- `zpl_endian_swap64` — header/core/misc.h:43-48. -/
def swap64 (i : BitVec 64) : BitVec 64 :=
  (i >>> 56) ||| (i <<< 56) |||
    ((i &&& 0x00ff000000000000#64) >>> 40) ||| ((i &&& 0x000000000000ff00#64) <<< 40) |||
    ((i &&& 0x0000ff0000000000#64) >>> 24) ||| ((i &&& 0x0000000000ff0000#64) <<< 24) |||
    ((i &&& 0x000000ff00000000#64) >>> 8) ||| ((i &&& 0x00000000ff000000#64) <<< 8)

/-- The five lines `x |= x >> n` of `zpl_next_pow2` — header/core/misc.h:52-56: `>>` of an `int` keeps the sign. -/
def smear (x : BitVec 32) : BitVec 32 :=
  let x := x ||| x.sshiftRight 1
  let x := x ||| x.sshiftRight 2
  let x := x ||| x.sshiftRight 4
  let x := x ||| x.sshiftRight 8
  x ||| x.sshiftRight 16

/-- `zpl_next_pow2` — header/core/misc.h:50-58: `x--` and `x + 1` of an `int` may overflow. -/
def nextPow2 (x : BitVec 32) : Except Fault (BitVec 32) :=
  if x = BitVec.intMin 32 then .error .arith
  else
    let y := smear (x - 1#32)
    if y = BitVec.intMax 32 then .error .arith else .ok (y + 1#32)

/-- `1 << bit` with `int` and an unsigned `bit` — header/core/misc.h:60-62: undefined from 31 on. -/
def oneShl (bit : BitVec 32) : Except Fault (BitVec 32) := if bit.toNat < 31 then .ok (1#32 <<< bit.toNat) else .error .arith

/-- `zpl_bit_set` — header/core/misc.h:60. -/
def bitSet (x bit : BitVec 32) : Except Fault (BitVec 32) := do
  let m ← oneShl bit
  .ok (x ||| m)

/-- `zpl_bit_get` — header/core/misc.h:61: the result type `zpl_b8` is a signed byte (header/essentials/types.h:89), so the word is cut
to eight bits. -/
def bitGet (x bit : BitVec 32) : Except Fault (BitVec 8) := do
  let m ← oneShl bit
  .ok ((x &&& m).setWidth 8)

/-- `zpl_bit_reset` — header/core/misc.h:62. -/
def bitReset (x bit : BitVec 32) : Except Fault (BitVec 32) := do
  let m ← oneShl bit
  .ok (x &&& ~~~m)

/-- The loop of `zpl_count_set_bits` — header/core/misc.h:66-69; the fuel is the number of rounds allowed. -/
def countLoop : Nat → BitVec 64 → Nat → Except Fault Nat
  | 0, mask, count => if mask = 0#64 then .ok count else .error .diverge
  | fuel + 1, mask, count =>
    if mask = 0#64 then .ok count else countLoop fuel (mask >>> 1) (count + (mask &&& 1#64).toNat)

/-- `zpl_count_set_bits` — header/core/misc.h:64-71. -/
def countSetBits (mask : BitVec 64) : Except Fault Nat := countLoop 64 mask 0

/-! ## Specification -/

/-- Byte `i` of a word, the least significant first. -/
def byte {w : Nat} (x : BitVec w) (i : Nat) : BitVec 8 := x.extractLsb' (8 * i) 8

/-! ## Byte order -/

theorem byte_bit {w : Nat} (x : BitVec w) (i j : Nat) (h : j < 8) : (byte x i).getLsbD j = x.getLsbD (8 * i + j) := by
  simp [byte, h]

theorem byte_ext {w v : Nat} (x : BitVec w) (y : BitVec v) (i k : Nat) (h : ∀ j, j < 8 → x.getLsbD (8 * i + j) = y.getLsbD (8 * k + j)) :
    byte x i = byte y k := by
  apply BitVec.eq_of_getLsbD_eq
  intro j hj
  rw [byte_bit _ _ _ hj, byte_bit _ _ _ hj, h j hj]

theorem lit8 {j : Nat} (h : j < 8) : j = 0 ∨ j = 1 ∨ j = 2 ∨ j = 3 ∨ j = 4 ∨ j = 5 ∨ j = 6 ∨ j = 7 := by omega

/-- **C112.**  `zpl_endian_swap16`, `32` and `64` reverse the bytes of every word. -/
theorem C112_endian_swap :
    (∀ (x : BitVec 16) (i : Nat), i < 2 → byte (swap16 x) i = byte x (1 - i)) ∧
    (∀ (x : BitVec 32) (i : Nat), i < 4 → byte (swap32 x) i = byte x (3 - i)) ∧
    (∀ (x : BitVec 64) (i : Nat), i < 8 → byte (swap64 x) i = byte x (7 - i)) := by
  refine ⟨?_, ?_, ?_⟩
  · intro x i hi
    apply byte_ext
    intro j hj
    have : i = 0 ∨ i = 1 := by omega
    rcases this with h | h <;> subst h <;> rcases lit8 hj with h | h | h | h | h | h | h | h <;> subst h <;> simp [swap16]
  · intro x i hi
    apply byte_ext
    intro j hj
    have : i = 0 ∨ i = 1 ∨ i = 2 ∨ i = 3 := by omega
    rcases this with h | h | h | h <;> subst h <;> rcases lit8 hj with h | h | h | h | h | h | h | h <;> subst h <;> simp [swap32]
  · intro x i hi
    apply byte_ext
    intro j hj
    rcases lit8 hi with h | h | h | h | h | h | h | h <;> subst h <;> rcases lit8 hj with h | h | h | h | h | h | h | h <;> subst h <;> simp [swap64]

/-- A word is determined by its bytes. -/
theorem eq_of_bytes {n : Nat} {x y : BitVec (8 * n)} (h : ∀ i, i < n → byte x i = byte y i) : x = y := by
  apply BitVec.eq_of_getLsbD_eq
  intro k hk
  have h1 := congrArg (fun b => b.getLsbD (k % 8)) (h (k / 8) (by omega))
  simp only [byte_bit _ _ _ (Nat.mod_lt k (show 0 < 8 by omega))] at h1
  rwa [show 8 * (k / 8) + k % 8 = k by omega] at h1

/-- **C112.**  Swapping twice gives the word back. -/
theorem C112_swap_twice : (∀ x : BitVec 16, swap16 (swap16 x) = x) ∧ (∀ x : BitVec 32, swap32 (swap32 x) = x) ∧ (∀ x : BitVec 64, swap64 (swap64 x) = x) := by
  obtain ⟨h1, h2, h3⟩ := C112_endian_swap
  refine ⟨fun x => ?_, fun x => ?_, fun x => ?_⟩
  · apply eq_of_bytes (n := 2); intro i hi
    rw [h1 _ _ hi, h1 _ _ (by omega), show 1 - (1 - i) = i by omega]
  · apply eq_of_bytes (n := 4); intro i hi
    rw [h2 _ _ hi, h2 _ _ (by omega), show 3 - (3 - i) = i by omega]
  · apply eq_of_bytes (n := 8); intro i hi
    rw [h3 _ _ hi, h3 _ _ (by omega), show 7 - (7 - i) = i by omega]

/-- Non-vacuity. -/
example : swap16 0x1234#16 = 0x3412#16 ∧ swap32 0x12345678#32 = 0x78563412#32 ∧ swap64 0x123456789abcdef0#64 = 0xf0debc9a78563412#64 := by decide

/-! ## Powers of two -/

/-- After `x |= x >> w` on a word whose bit `i` says whether one of the bits `i … i+w-1` of `y` is set. -/
theorem smear_step {y z : BitVec 32} {w : Nat} (hz : z.msb = false) (h : ∀ i, z.getLsbD i = true ↔ ∃ d, d < w ∧ y.getLsbD (i + d) = true) :
    (z ||| z.sshiftRight w).msb = (z.sshiftRight w).msb ∧
    ∀ i, (z ||| z.sshiftRight w).getLsbD i = true ↔ ∃ d, d < w + w ∧ y.getLsbD (i + d) = true := by
  have hs : z.sshiftRight w = z >>> w := BitVec.sshiftRight_eq_of_msb_false hz
  refine ⟨by rw [BitVec.msb_or, hz, Bool.false_or], ?_⟩
  intro i
  rw [hs, BitVec.getLsbD_or, BitVec.getLsbD_ushiftRight, Bool.or_eq_true, h, h]
  constructor
  · rintro (⟨d, h1, h2⟩ | ⟨d, h1, h2⟩)
    · exact ⟨d, by omega, h2⟩
    · exact ⟨w + d, by omega, by rwa [show i + (w + d) = w + i + d by omega]⟩
  · rintro ⟨d, h1, h2⟩
    by_cases hd : d < w
    · exact Or.inl ⟨d, hd, h2⟩
    · exact Or.inr ⟨d - w, by omega, by rwa [show w + i + (d - w) = i + d by omega]⟩

theorem msb_shift {z : BitVec 32} {w : Nat} (hz : z.msb = false) (hw : 0 < w) : (z ||| z.sshiftRight w).msb = false := by
  rw [BitVec.msb_or, hz, Bool.false_or, BitVec.sshiftRight_eq_of_msb_false hz, BitVec.msb_ushiftRight]
  simp [hw]

/-- Each bit of the smeared word says whether a bit at or above it is set. -/
theorem smear_bits {y : BitVec 32} (hy : y.msb = false) (i : Nat) : (smear y).getLsbD i = true ↔ ∃ j, i ≤ j ∧ y.getLsbD j = true := by
  have h0 : ∀ i, y.getLsbD i = true ↔ ∃ d, d < 1 ∧ y.getLsbD (i + d) = true := by
    intro i
    constructor
    · intro h; exact ⟨0, by omega, h⟩
    · rintro ⟨d, h1, h2⟩; rwa [show i + d = i by omega] at h2
  have m1 := msb_shift hy (show 0 < 1 by omega)
  have h1 := (smear_step hy h0).2
  have m2 := msb_shift m1 (show 0 < 2 by omega)
  have h2 := (smear_step m1 h1).2
  have m3 := msb_shift m2 (show 0 < 4 by omega)
  have h3 := (smear_step m2 h2).2
  have m4 := msb_shift m3 (show 0 < 8 by omega)
  have h4 := (smear_step m3 h3).2
  have h5 := (smear_step m4 h4).2 i
  unfold smear
  simp only
  rw [h5]
  constructor
  · rintro ⟨d, _, h⟩; exact ⟨i + d, by omega, h⟩
  · rintro ⟨j, hj, h⟩
    have : j < 32 := BitVec.lt_of_getLsbD h
    exact ⟨j - i, by omega, by rwa [show i + (j - i) = j by omega]⟩

theorem smear_neg {y : BitVec 32} (hy : y.msb = true) : smear y = BitVec.allOnes 32 := by
  have key : ∀ (w : Nat) (z : BitVec 32) (n : Nat), z.msb = true → (∀ i, i < 32 → 32 ≤ i + n → z.getLsbD i = true) →
      (z ||| z.sshiftRight w).msb = true ∧ ∀ i, i < 32 → 32 ≤ i + (n + w) → (z ||| z.sshiftRight w).getLsbD i = true := by
    intro w z n hm h
    refine ⟨by rw [BitVec.msb_or, hm, Bool.true_or], ?_⟩
    intro i hi hn
    rw [BitVec.getLsbD_or, BitVec.getLsbD_sshiftRight]
    by_cases hw : w + i < 32
    · rw [if_pos hw, h (w + i) hw (by omega)]; simp [hi]
    · rw [if_neg hw, hm]; simp [hi]
  have h0 : ∀ i, i < 32 → 32 ≤ i + 1 → y.getLsbD i = true := by
    intro i hi h; rw [show i = 31 by omega]; rw [BitVec.msb_eq_getLsbD_last] at hy; exact hy
  obtain ⟨m1, h1⟩ := key 1 y 1 hy h0
  obtain ⟨m2, h2⟩ := key 2 _ _ m1 h1
  obtain ⟨m3, h3⟩ := key 4 _ _ m2 h2
  obtain ⟨m4, h4⟩ := key 8 _ _ m3 h3
  obtain ⟨m5, h5⟩ := key 16 _ _ m4 h4
  apply BitVec.eq_of_getLsbD_eq
  intro i hi
  rw [BitVec.getLsbD_allOnes]
  unfold smear
  simp only
  rw [h5 i hi (by omega)]; simp [hi]

theorem smear_value {y : BitVec 32} (hy : y.msb = false) (k : Nat) (hlo : y.toNat = 0 ∧ k = 0 ∨ 0 < k ∧ 2 ^ (k - 1) ≤ y.toNat) (hhi : y.toNat < 2 ^ k) :
    (smear y).toNat = 2 ^ k - 1 := by
  apply Nat.eq_of_testBit_eq
  intro i
  rw [Nat.testBit_two_pow_sub_one]
  have hb := smear_bits hy i
  simp only [BitVec.getLsbD] at hb
  by_cases hi : i < k
  · rw [decide_eq_true hi, hb]
    rcases hlo with ⟨_, h⟩ | ⟨h1, h2⟩
    · omega
    · obtain ⟨j, hj1, hj2⟩ := Nat.exists_ge_and_testBit_of_ge_two_pow h2
      exact ⟨j, by omega, hj2⟩
  · rw [decide_eq_false hi]
    rw [Bool.eq_false_iff]
    intro hc
    obtain ⟨j, hj1, hj2⟩ := hb.mp hc
    have := Nat.ge_two_pow_of_testBit hj2
    have : 2 ^ k ≤ 2 ^ j := Nat.pow_le_pow_right (by omega) (by omega)
    omega

theorem exists_width (n : Nat) : ∃ k, (n = 0 ∧ k = 0 ∨ 0 < k ∧ 2 ^ (k - 1) ≤ n) ∧ n < 2 ^ k := by
  by_cases h : n = 0
  · exact ⟨0, Or.inl ⟨h, rfl⟩, by omega⟩
  · exact ⟨n.log2 + 1, Or.inr ⟨by omega, Nat.log2_self_le h⟩, Nat.lt_log2_self⟩

/-- **C112.**  For every `x` from 1 to 2³⁰, `zpl_next_pow2(x)` is the least power of two that is at least `x`. -/
theorem C112_next_pow2 (x : BitVec 32) (h1 : 1 ≤ x.toInt) (h2 : x.toInt ≤ 2 ^ 30) :
    ∃ r k, nextPow2 x = .ok r ∧ r.toInt = 2 ^ k ∧ x.toInt ≤ 2 ^ k ∧ ∀ j : Nat, x.toInt ≤ 2 ^ j → k ≤ j := by
  have hn : x.toInt = x.toNat ∧ x.toNat < 2 ^ 31 := by
    have := x.isLt
    rw [BitVec.toInt_eq_toNat_cond] at h1 h2 ⊢
    split at h1 <;> omega
  rw [hn.1] at h1 h2 ⊢
  have hy : (x - 1#32).toNat = x.toNat - 1 := by
    rw [BitVec.toNat_sub_of_le (by rw [BitVec.le_def]; simp only [BitVec.toNat_ofNat]; omega)]; rfl
  have hm : (x - 1#32).msb = false := by
    rw [BitVec.msb_eq_decide]; simp; omega
  obtain ⟨k, hk1, hk2⟩ := exists_width (x - 1#32).toNat
  have hv := smear_value hm k hk1 hk2
  have hk30 : k ≤ 30 := by
    rcases hk1 with h | h
    · omega
    · apply Decidable.byContradiction; intro hc
      have : 2 ^ 30 ≤ 2 ^ (k - 1) := Nat.pow_le_pow_right (by omega) (by omega)
      omega
  have hpk : 2 ^ k ≤ 2 ^ 30 := Nat.pow_le_pow_right (by omega) hk30
  have hpos := Nat.two_pow_pos k
  refine ⟨smear (x - 1#32) + 1#32, k, ?_, ?_, ?_, ?_⟩
  · unfold nextPow2
    have e1 : x ≠ BitVec.intMin 32 := by
      intro h; rw [h] at hn; revert hn; decide
    have e2 : smear (x - 1#32) ≠ BitVec.intMax 32 := by
      intro h; rw [h] at hv
      have : (BitVec.intMax 32).toNat = 2 ^ 31 - 1 := by decide
      omega
    rw [if_neg e1]; simp only; rw [if_neg e2]
  · have hr : (smear (x - 1#32) + 1#32).toNat = 2 ^ k := by
      rw [BitVec.toNat_add, hv]; simp; omega
    rw [BitVec.toInt_eq_toNat_cond, hr, if_pos (by omega)]; norm_cast
  · have : x.toNat ≤ 2 ^ k := by omega
    exact_mod_cast this
  · intro j hj
    have hj' : x.toNat ≤ 2 ^ j := by exact_mod_cast hj
    rcases hk1 with h | h
    · omega
    · apply Decidable.byContradiction; intro hc
      have : 2 ^ j ≤ 2 ^ (k - 1) := Nat.pow_le_pow_right (by omega) (by omega)
      omega

/-- **C112, the rest.**  Beyond 2³⁰ the next power of two is no `int` and the addition overflows; 0 and negative numbers give 0, but the
least `int` overflows. -/
theorem C112_next_pow2_rest (x : BitVec 32) :
    (2 ^ 30 < x.toInt → nextPow2 x = .error .arith) ∧ (x.toInt ≤ 0 → x ≠ BitVec.intMin 32 → nextPow2 x = .ok 0#32) ∧
    nextPow2 (BitVec.intMin 32) = .error .arith := by
  have hlt := x.isLt
  refine ⟨?_, ?_, rfl⟩
  · intro h
    have hn : 2 ^ 30 < x.toNat ∧ x.toNat < 2 ^ 31 := by
      rw [BitVec.toInt_eq_toNat_cond] at h; split at h <;> omega
    have hy : (x - 1#32).toNat = x.toNat - 1 := by
      rw [BitVec.toNat_sub_of_le (by rw [BitVec.le_def]; simp; omega)]; rfl
    have hm : (x - 1#32).msb = false := by
      rw [BitVec.msb_eq_decide]; simp; omega
    have hv := smear_value hm 31 (Or.inr ⟨by omega, by omega⟩) (by omega)
    unfold nextPow2
    have e1 : x ≠ BitVec.intMin 32 := by
      intro h; rw [h] at hn; revert hn; decide
    rw [if_neg e1]; simp only
    rw [if_pos]
    apply BitVec.eq_of_toNat_eq; rw [hv]; decide
  · intro h e1
    have hm : (x - 1#32).msb = true := by
      have hxm : x.toNat ≠ 2 ^ 31 := by
        intro hc; apply e1; apply BitVec.eq_of_toNat_eq; rw [hc]; decide
      rw [BitVec.msb_eq_decide, decide_eq_true_iff, BitVec.toNat_sub]
      rw [BitVec.toInt_eq_toNat_cond] at h
      simp only [BitVec.toNat_ofNat]
      split at h <;> omega
    unfold nextPow2
    rw [if_neg e1, smear_neg hm]
    decide

/-- Non-vacuity: 1, 17 and 2³⁰; beyond; below. -/
example : nextPow2 1#32 = .ok 1#32 ∧ nextPow2 17#32 = .ok 32#32 ∧ nextPow2 0x40000000#32 = .ok 0x40000000#32 ∧
    nextPow2 0x40000001#32 = .error .arith ∧ nextPow2 (-5#32) = .ok 0#32 := by decide

/-! ## Single bits -/

theorem oneShl_ok {bit : BitVec 32} (h : bit.toNat < 31) : oneShl bit = .ok (1#32 <<< bit.toNat) := if_pos h

theorem one_bit (n i : Nat) : (1#32 <<< n).getLsbD i = (decide (i < 32) && decide (i = n)) := by
  rw [BitVec.getLsbD_shiftLeft, BitVec.getLsbD_one]
  by_cases h : i < 32
  · by_cases h2 : i = n
    · subst h2; simp [h]
    · by_cases h3 : i < n
      · simp [h, h2, h3]
      · have : ¬ (i - n = 0) := by omega
        simp [h, h2, h3, this]
  · simp [h]

/-- **C112.**  For bits 0 to 30: setting and resetting a bit changes that bit and no other. -/
theorem C112_bit_set_reset (x bit : BitVec 32) (h : bit.toNat < 31) :
    (∃ r, bitSet x bit = .ok r ∧ ∀ i, i < 32 → r.getLsbD i = if i = bit.toNat then true else x.getLsbD i) ∧
    (∃ r, bitReset x bit = .ok r ∧ ∀ i, i < 32 → r.getLsbD i = if i = bit.toNat then false else x.getLsbD i) := by
  unfold bitSet bitReset
  rw [oneShl_ok h]
  refine ⟨⟨_, rfl, ?_⟩, ⟨_, rfl, ?_⟩⟩
  · intro i hi
    rw [BitVec.getLsbD_or, one_bit]
    by_cases h2 : i = bit.toNat <;> simp [h2, hi]
    omega
  · intro i hi
    rw [BitVec.getLsbD_and, BitVec.getLsbD_not, one_bit]
    by_cases h2 : i = bit.toNat
    · simp [h2]
    · simp [h2, hi]

/-- **C112, partial.**  For bits 0 to 7 `zpl_bit_get` is not zero exactly if the bit is set. -/
theorem C112_bit_get_partial (x bit : BitVec 32) (h : bit.toNat < 8) : ∃ r, bitGet x bit = .ok r ∧ (r ≠ 0#8 ↔ x.getLsbD bit.toNat = true) := by
  unfold bitGet
  rw [oneShl_ok (by omega)]
  refine ⟨_, rfl, ?_⟩
  constructor
  · intro hne
    apply Classical.byContradiction
    intro hx
    apply hne
    apply BitVec.eq_of_getLsbD_eq
    intro i hi
    rw [BitVec.getLsbD_setWidth, BitVec.getLsbD_and, one_bit]
    by_cases h2 : i = bit.toNat
    · subst h2; simp [hx]
    · simp [h2]
  · intro hx hc
    have := congrArg (fun b => b.getLsbD bit.toNat) hc
    simp only [BitVec.getLsbD_setWidth, BitVec.getLsbD_and, one_bit, hx] at this
    have h32 : bit.toNat < 32 := by omega
    simp [h, h32] at this

/-- **C112, refuted.**  For bits 8 to 30 `zpl_bit_get` is zero for every word, even if the bit is set; from bit 31 on all three
functions shift out of the `int`. -/
theorem C112_bit_get_wrong (x bit : BitVec 32) :
    (8 ≤ bit.toNat → bit.toNat < 31 → bitGet x bit = .ok 0#8) ∧
    (31 ≤ bit.toNat → bitGet x bit = .error .arith ∧ bitSet x bit = .error .arith ∧ bitReset x bit = .error .arith) := by
  constructor
  · intro h1 h2
    unfold bitGet
    rw [oneShl_ok h2]
    simp only [except_ok_bind]
    congr 1
    apply BitVec.eq_of_getLsbD_eq
    intro i hi
    rw [BitVec.getLsbD_setWidth, BitVec.getLsbD_and, one_bit]
    have : ¬ i = bit.toNat := by omega
    simp [this]
  · intro h
    have : oneShl bit = .error .arith := if_neg (by omega)
    simp [bitGet, bitSet, bitReset, this]

/-- Non-vacuity: bit 9 of 0x200 is set and read as 0. -/
example : bitSet 0#32 9#32 = .ok 0x200#32 ∧ bitGet 0x200#32 9#32 = .ok 0#8 ∧ bitGet 0x80#32 7#32 = .ok 0x80#8 ∧ bitReset 0xff#32 3#32 = .ok 0xf7#32 := by decide

/-! ## Counting -/

theorem countLoop_spec : ∀ (fuel : Nat) (mask : BitVec 64) (count : Nat), mask.toNat < 2 ^ fuel →
    countLoop fuel mask count = .ok (count + (List.range fuel).countP (fun i => mask.getLsbD i))
  | 0, mask, count, h => by
    have : mask = 0#64 := by apply BitVec.eq_of_toNat_eq; simp only [BitVec.toNat_ofNat]; omega
    simp [countLoop, this]
  | fuel + 1, mask, count, h => by
    rw [countLoop]
    by_cases h0 : mask = 0#64
    · rw [if_pos h0, h0]
      have : (List.range (fuel + 1)).countP (fun i => (0#64).getLsbD i) = 0 := by
        rw [List.countP_eq_zero]; intro i _; simp
      rw [this]; rfl
    · rw [if_neg h0, countLoop_spec fuel (mask >>> 1) _ (by rw [BitVec.toNat_ushiftRight, Nat.shiftRight_eq_div_pow]; rw [Nat.pow_succ] at h; omega)]
      congr 1
      rw [List.range_succ_eq_map, List.countP_cons, List.countP_map]
      have h1 : (mask &&& 1#64).toNat = if mask.getLsbD 0 = true then 1 else 0 := by
        rw [BitVec.toNat_and, BitVec.getLsbD]
        simp only [BitVec.toNat_ofNat, Nat.testBit_zero]
        rw [show 1 % 2 ^ 64 = 1 by decide, Nat.and_one_is_mod]
        have := Nat.mod_two_eq_zero_or_one mask.toNat
        rcases this with h | h <;> simp [h]
      rw [h1]
      have h2 : (List.range fuel).countP (fun i => (mask >>> 1).getLsbD i) = (List.range fuel).countP ((fun i => mask.getLsbD i) ∘ Nat.succ) := by
        apply List.countP_congr
        intro i _
        simp [Nat.add_comm]
      rw [h2]; omega

/-- **C112.**  `zpl_count_set_bits` ends and counts the bits that are set. -/
theorem C112_count_set_bits (mask : BitVec 64) : countSetBits mask = .ok ((List.range 64).countP (fun i => mask.getLsbD i)) := by
  unfold countSetBits
  rw [countLoop_spec 64 mask 0 mask.isLt, Nat.zero_add]

/-- Non-vacuity. -/
example : countSetBits 0xff00000000000001#64 = .ok 9 := by decide +kernel

end Zpl.Bits
