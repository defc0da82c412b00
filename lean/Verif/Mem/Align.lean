import Verif.Basic

/-!
# Alignment helpers — header/essentials/memory.h

Pointers, `zpl_uintptr`, `zpl_usize` and `zpl_u64` are 64-bit words (`BitVec 64`, wrapping); `zpl_isize` and `zpl_i64` are
integers that fault when a result leaves the 64-bit signed range (undefined behaviour in C).
-/
namespace Zpl.Align

/-! ## Model -/

/-- `zpl_is_power_of_two` — header/essentials/memory.h:262-265.  The argument is the bit pattern of the `zpl_isize`. -/
def isPow2 (x : BitVec 64) : Bool := if x.toInt ≤ 0 then false else (x &&& (x - 1)) == 0

/-- `zpl_align_forward` — header/essentials/memory.h:115-122: the assertion, then `(p + (a-1)) & ~(a-1)` on unsigned words. -/
def alignForward (p a : BitVec 64) : Except Fault (BitVec 64) :=
  if isPow2 a then .ok ((p + (a - 1)) &&& ~~~(a - 1)) else .error .assertion

/-- Signed 64-bit arithmetic: a result outside the range is undefined behaviour. -/
def chk (x : Int) : Except Fault Int := if -2^63 ≤ x ∧ x < 2^63 then .ok x else .error .arith

/-- C's `%` on `zpl_i64`: truncating; zero divisor and `INT64_MIN % -1` are undefined. -/
def remI64 (x y : Int) : Except Fault Int :=
  if y = 0 then .error .divZero else if x = -2^63 ∧ y = -1 then .error .arith else .ok (x.tmod y)

/-- `zpl_align_forward_i64` — header/essentials/memory.h:124-126. -/
def alignI64 (v a : Int) : Except Fault Int := do
  let r ← remI64 v a
  let d ← chk (a - r)
  let e ← remI64 d a
  chk (v + e)

/-- `zpl_align_forward_u64` — header/essentials/memory.h:128-130 (unsigned, wrapping). -/
def alignU64 (v a : BitVec 64) : Except Fault (BitVec 64) :=
  if a = 0 then .error .divZero else .ok (v + (a - v % a) % a)

/-! ## Lemmas -/

theorem toNat_sub_one {a : BitVec 64} (h : 0 < a.toNat) : (a - 1).toNat = a.toNat - 1 := by
  rw [BitVec.toNat_sub_of_le]
  · rfl
  · rw [BitVec.le_def]; exact h

theorem isPow2_iff (x : BitVec 64) : isPow2 x = true ↔ ∃ k, k < 63 ∧ x.toNat = 2 ^ k := by
  unfold isPow2
  have hlt := x.isLt
  by_cases h : x.toInt ≤ 0
  · rw [if_pos h]
    simp only [Bool.false_eq_true, false_iff]
    rintro ⟨k, hk, hx⟩
    have : 2 ^ k < 2 ^ 63 := Nat.pow_lt_pow_right (by omega) hk
    have h0 : 0 < 2 ^ k := Nat.two_pow_pos k
    rw [BitVec.toInt_eq_toNat_cond] at h
    split at h <;> omega
  · rw [if_neg h]
    have hpos : 0 < x.toNat ∧ x.toNat < 2 ^ 63 := by
      rw [BitVec.toInt_eq_toNat_cond] at h
      split at h <;> omega
    rw [beq_iff_eq, ← BitVec.toNat_inj, BitVec.toNat_and, toNat_sub_one hpos.1]
    rw [show BitVec.toNat (0 : BitVec 64) = 0 from rfl, Nat.and_sub_one_eq_zero_iff_isPowerOfTwo (by omega)]
    constructor
    · rintro ⟨k, hk⟩
      refine ⟨k, ?_, hk⟩
      by_cases hk' : k < 63
      · exact hk'
      · have : 2 ^ 63 ≤ 2 ^ k := Nat.pow_le_pow_right (by omega) (by omega)
        omega
    · rintro ⟨k, _, hk⟩; exact ⟨k, hk⟩

theorem and_not_mask (y : BitVec 64) (k : Nat) (hk : k < 64) :
    (y &&& ~~~ (BitVec.ofNat 64 (2 ^ k - 1))).toNat = y.toNat / 2 ^ k * 2 ^ k := by
  have : y &&& ~~~ (BitVec.ofNat 64 (2 ^ k - 1)) = (y >>> k) <<< k := by
    apply BitVec.eq_of_getLsbD_eq
    intro i hi
    simp only [BitVec.getLsbD_and, BitVec.getLsbD_not, BitVec.getLsbD_ofNat, Nat.testBit_two_pow_sub_one, BitVec.getLsbD_shiftLeft,
      BitVec.getLsbD_ushiftRight, hi, decide_true, Bool.true_and]
    by_cases h : i < k
    · simp [h]
    · simp [h, show k + (i - k) = i by omega]
  rw [this, BitVec.toNat_shiftLeft, BitVec.toNat_ushiftRight, Nat.shiftLeft_eq, Nat.shiftRight_eq_div_pow]
  have := Nat.div_mul_le_self y.toNat (2 ^ k)
  exact Nat.mod_eq_of_lt (by have := y.isLt; omega)

/-- Rounding `p + (a-1)` down to a multiple of `a` gives the least multiple that is at least `p`. -/
theorem round_up (p a : Nat) (ha : 0 < a) : a ∣ (p + (a - 1)) / a * a ∧ p ≤ (p + (a - 1)) / a * a ∧
    ∀ x, a ∣ x → p ≤ x → (p + (a - 1)) / a * a ≤ x := by
  refine ⟨Nat.dvd_mul_left a _, ?_, ?_⟩
  · have := Nat.div_add_mod (p + (a - 1)) a
    have := Nat.mod_lt (p + (a - 1)) ha
    rw [Nat.mul_comm]; omega
  · rintro x ⟨q, rfl⟩ hp
    rw [Nat.mul_comm a q]
    apply Nat.mul_le_mul_right
    rw [Nat.div_le_iff_le_mul_add_pred ha, Nat.mul_comm]
    rw [Nat.mul_comm a q] at hp
    omega

/-! ## Properties -/

/-- **C15.**  `zpl_is_power_of_two(x)` holds exactly for the positive powers of two representable as `zpl_isize`. -/
theorem C15_is_power_of_two (x : BitVec 64) : isPow2 x = true ↔ ∃ k : Nat, x.toInt = 2 ^ k := by
  rw [isPow2_iff]
  have hlt := x.isLt
  constructor
  · rintro ⟨k, hk, hx⟩
    refine ⟨k, ?_⟩
    have : 2 ^ k < 2 ^ 63 := Nat.pow_lt_pow_right (by omega) hk
    rw [BitVec.toInt_eq_toNat_cond, if_pos (by omega), hx]; norm_cast
  · rintro ⟨k, hx⟩
    have h0 : (0 : Int) < 2 ^ k := by exact_mod_cast Nat.two_pow_pos k
    rw [BitVec.toInt_eq_toNat_cond] at hx
    split at hx
    · have hx' : x.toNat = 2 ^ k := by exact_mod_cast hx
      refine ⟨k, ?_, hx'⟩
      by_cases hk' : k < 63
      · exact hk'
      · have : 2 ^ 63 ≤ 2 ^ k := Nat.pow_le_pow_right (by omega) (by omega)
        omega
    · omega

/-- **C15.**  For every pointer and every power-of-two alignment for which some multiple of the alignment that is at least `p` is
representable, `zpl_align_forward` returns the least such multiple. -/
theorem C15_align_forward (p a : BitVec 64) (k : Nat) (ha : a.toInt = 2 ^ k)
    (hrep : ∃ x, x < 2 ^ 64 ∧ a.toNat ∣ x ∧ p.toNat ≤ x) :
    ∃ r, alignForward p a = .ok r ∧ a.toNat ∣ r.toNat ∧ p.toNat ≤ r.toNat ∧ ∀ x, a.toNat ∣ x → p.toNat ≤ x → r.toNat ≤ x := by
  have hp2 : isPow2 a = true := (C15_is_power_of_two a).mpr ⟨k, ha⟩
  obtain ⟨k, hk, hak⟩ := (isPow2_iff a).mp hp2
  have hpos : 0 < a.toNat := by rw [hak]; exact Nat.two_pow_pos k
  unfold alignForward
  rw [if_pos hp2]
  refine ⟨_, rfl, ?_⟩
  have hm : a - 1 = BitVec.ofNat 64 (2 ^ k - 1) := by
    apply BitVec.eq_of_toNat_eq
    rw [toNat_sub_one hpos, hak, BitVec.toNat_ofNat]
    have : 2 ^ k < 2 ^ 63 := Nat.pow_lt_pow_right (by omega) hk
    omega
  rw [hm, and_not_mask _ k (by omega), ← hm, BitVec.toNat_add, toNat_sub_one hpos]
  have hno : p.toNat + (a.toNat - 1) < 2 ^ 64 := by
    obtain ⟨x, h1, ⟨q, rfl⟩, h3⟩ := hrep
    have : 2 ^ 64 = a.toNat * 2 ^ (64 - k) := by rw [hak, ← Nat.pow_add]; congr 1; omega
    rw [this] at h1
    have hq : q + 1 ≤ 2 ^ (64 - k) := Nat.lt_of_mul_lt_mul_left h1
    have := Nat.mul_le_mul_left a.toNat hq
    rw [Nat.mul_add, Nat.mul_one] at this
    omega
  rw [Nat.mod_eq_of_lt hno, ← hak]
  exact round_up p.toNat a.toNat hpos

/-- **C15.**  A non-power-of-two alignment is reported by the assertion, never by a wrong pointer. -/
theorem C15_align_forward_asserts (p a : BitVec 64) (h : ∀ k : Nat, a.toInt ≠ 2 ^ k) : alignForward p a = .error .assertion := by
  unfold alignForward
  rw [if_neg]
  intro hp
  obtain ⟨k, hk⟩ := (C15_is_power_of_two a).mp hp
  exact h k hk

/-- **C15.**  `zpl_align_forward_u64` returns the least multiple, for any positive alignment, whenever it is representable. -/
theorem C15_align_forward_u64 (v a : BitVec 64) (ha : 0 < a.toNat) (hrep : ∃ x, x < 2 ^ 64 ∧ a.toNat ∣ x ∧ v.toNat ≤ x) :
    ∃ r, alignU64 v a = .ok r ∧ a.toNat ∣ r.toNat ∧ v.toNat ≤ r.toNat ∧ ∀ x, a.toNat ∣ x → v.toNat ≤ x → r.toNat ≤ x := by
  unfold alignU64
  have h0 : a ≠ 0 := by rintro rfl; simp at ha
  rw [if_neg h0]
  refine ⟨_, rfl, ?_⟩
  have hm := Nat.mod_lt v.toNat ha
  have hd := Nat.div_add_mod v.toNat a.toNat
  have e1 : (a - v % a).toNat = a.toNat - v.toNat % a.toNat := by
    rw [BitVec.toNat_sub_of_le, BitVec.toNat_umod]
    rw [BitVec.le_def, BitVec.toNat_umod]; omega
  obtain ⟨x, h1, h2, h3⟩ := hrep
  have key : v.toNat + (a.toNat - v.toNat % a.toNat) % a.toNat = (v.toNat + (a.toNat - 1)) / a.toNat * a.toNat := by
    by_cases hz : v.toNat % a.toNat = 0
    · rw [hz, Nat.sub_zero, Nat.mod_self, Nat.add_zero]
      have : (v.toNat + (a.toNat - 1)) / a.toNat = v.toNat / a.toNat := by
        apply Nat.div_eq_of_lt_le
        · rw [Nat.mul_comm]; omega
        · rw [Nat.add_mul, Nat.mul_comm]; omega
      rw [this, Nat.mul_comm]; omega
    · rw [Nat.mod_eq_of_lt (by omega)]
      have : (v.toNat + (a.toNat - 1)) / a.toNat = v.toNat / a.toNat + 1 := by
        apply Nat.div_eq_of_lt_le
        · rw [Nat.add_mul, Nat.mul_comm]; omega
        · rw [Nat.add_mul, Nat.add_mul, Nat.mul_comm]; omega
      rw [this, Nat.add_mul, Nat.mul_comm]; omega
  obtain ⟨r1, r2, r3⟩ := round_up v.toNat a.toNat ha
  have e2 : (v + (a - v % a) % a).toNat = (v.toNat + (a.toNat - 1)) / a.toNat * a.toNat := by
    rw [BitVec.toNat_add, BitVec.toNat_umod, e1, key]
    exact Nat.mod_eq_of_lt (Nat.lt_of_le_of_lt (r3 x h2 h3) h1)
  rw [e2]
  exact ⟨r1, r2, r3⟩

/-- **C15 (partial).**  `zpl_align_forward_i64` returns the least multiple, for negative values too, whenever it is representable,
provided the value is not negative or the alignment is at most `2^62`.  Missing: the full claim has no such proviso, see
`C15_i64_overflow`. -/
theorem C15_align_forward_i64_partial (v a : Int) (hv : -2 ^ 63 ≤ v ∧ v < 2 ^ 63) (ha : 0 < a ∧ a < 2 ^ 63)
    (hcase : 0 ≤ v ∨ a ≤ 2 ^ 62) (hrep : ∃ x, x < 2 ^ 63 ∧ a ∣ x ∧ v ≤ x) :
    ∃ r, alignI64 v a = .ok r ∧ a ∣ r ∧ v ≤ r ∧ ∀ x, a ∣ x → v ≤ x → r ≤ x := by
  have t1 : v.tmod a < a := Int.tmod_lt_of_pos v ha.1
  have t2 : -a < v.tmod a := by
    have := Int.tmod_lt_of_pos (-v) ha.1
    rw [Int.neg_tmod] at this; omega
  have tpos : 0 ≤ v → 0 ≤ v.tmod a := fun h => Int.tmod_nonneg a h
  have hd := Int.mul_tdiv_add_tmod v a
  unfold alignI64 remI64
  rw [if_neg (by omega), if_neg (by omega)]
  simp only [except_ok_bind]
  unfold chk
  rw [if_pos (by omega)]
  simp only [except_ok_bind]
  rw [if_neg (by omega), if_neg (by omega)]
  simp only [except_ok_bind]
  have u0 : 0 ≤ (a - v.tmod a).tmod a := Int.tmod_nonneg a (by omega)
  have u1 : (a - v.tmod a).tmod a < a := Int.tmod_lt_of_pos _ ha.1
  have ud := Int.mul_tdiv_add_tmod (a - v.tmod a) a
  have hdvd : a ∣ v + (a - v.tmod a).tmod a := by
    refine ⟨v.tdiv a + 1 - (a - v.tmod a).tdiv a, ?_⟩
    rw [Int.mul_sub, Int.mul_add, Int.mul_one]
    omega
  have hmin : ∀ x, a ∣ x → v ≤ x → v + (a - v.tmod a).tmod a ≤ x := by
    intro x hx hvx
    have hsub := Int.dvd_sub hdvd hx
    obtain ⟨q, hq⟩ := hsub
    have hlt : a * q < a * 1 := by omega
    have := Int.lt_of_mul_lt_mul_left hlt (by omega)
    have : a * q ≤ a * 0 := Int.mul_le_mul_of_nonneg_left (by omega) (by omega)
    omega
  obtain ⟨x, x1, x2, x3⟩ := hrep
  have := hmin x x2 x3
  rw [if_pos (by omega)]
  exact ⟨_, rfl, hdvd, by omega, hmin⟩

/-- The proviso is needed: for a negative value and an alignment above `2^62` the subtraction overflows although the least
multiple (0 here) is representable. -/
theorem C15_i64_overflow : alignI64 (-2 ^ 62) (2 ^ 62 + 1) = .error .arith ∧ (2 ^ 62 + 1 : Int) ∣ 0 ∧ (-2 ^ 62 : Int) ≤ 0 := by
  refine ⟨by decide +kernel, ⟨0, by omega⟩, by omega⟩

/-- Non-vacuity: hypotheses met at an unaligned address, near the top of the range, and by a negative value. -/
example : alignForward 0x1003 16 = .ok 0x1010 ∧ alignForward 0xffffffffffffffe1 16 = .ok 0xfffffffffffffff0 ∧
    alignU64 1001 10 = .ok 1010 ∧ alignI64 (-3) 4 = .ok 0 ∧ alignI64 (-9) 4 = .ok (-8) ∧ (16#64).toInt = 2 ^ 4 ∧
    (0xfffffffffffffff0 < 2 ^ 64 ∧ (16#64).toNat ∣ 0xfffffffffffffff0 ∧ (0xffffffffffffffe1#64).toNat ≤ 0xfffffffffffffff0) := by
  decide +kernel

end Zpl.Align
