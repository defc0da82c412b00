import Verif.Basic
import Mathlib.Algebra.Order.Round
import Mathlib.Analysis.Real.Pi.Bounds
import Mathlib.Analysis.Complex.ExponentialBounds
import Mathlib.Tactic.Positivity
import Mathlib.Tactic.FieldSimp
import Mathlib.Tactic.LinearCombination
import Mathlib.Tactic.Linarith

/-!
# Rounding, remainders, signs and angles (code/source/math.c:15-76, 247-261)  -  C105, C106, C107

## Model

The numbers are real numbers and the arithmetic is exact; `zpl_copy_sign` is modelled on the bits of a `float` and, for its use inside `zpl_mod`, on
real numbers, which have one zero.  The conversion of a real number to `int` drops the fraction and is undefined when the result does not fit (C11
6.3.1.4).  The literal `0.9999999999999999f` of `zpl_floor` (math.c:260) is a `float` constant: its nearest `float` is 1, and 1 is what is modelled. -/

set_option linter.unusedVariables false

namespace Zpl.Math

/-! ## The code -/

/-- The value a conversion to an integer type keeps: the fraction is dropped. -/
noncomputable def whole (x : ℝ) : ℤ := if 0 ≤ x then ⌊x⌋ else ⌈x⌉

/-- `(int)x`: undefined when the whole part does not fit an `int`. -/
noncomputable def toInt32 (x : ℝ) : Except Fault ℤ :=
  if -2 ^ 31 ≤ whole x ∧ whole x < 2 ^ 31 then .ok (whole x) else .error .arith

/-- math.c:259 `zpl_floor`. -/
noncomputable def floor (x : ℝ) : Except Fault ℝ := do
  let n ← if 0 ≤ x then toInt32 x else toInt32 (x - 1)
  pure (n : ℝ)

/-- math.c:260 `zpl_ceil`.  The addition of 1 is done on `int`s. -/
noncomputable def ceil (x : ℝ) : Except Fault ℝ := do
  if x < 0 then
    let n ← toInt32 x
    pure (n : ℝ)
  else
    let n ← toInt32 x
    if n + 1 < 2 ^ 31 then pure ((n + 1 : ℤ) : ℝ) else .error .arith

/-- math.c:258 `zpl_round`. -/
noncomputable def round (x : ℝ) : Except Fault ℝ :=
  if 0 ≤ x then floor (x + 1 / 2) else ceil (x - 1 / 2)

/-- math.c:41 `zpl_remainder`.  Dividing by zero gives an infinity or NaN, whose conversion to `int` is undefined. -/
noncomputable def remainder (x y : ℝ) : Except Fault ℝ := do
  if y = 0 then .error .arith
  else
    let r ← round (x / y)
    pure (x - r * y)

/-- math.h:166 `zpl_sign`. -/
noncomputable def sign (x : ℝ) : ℝ := if 0 ≤ x then 1 else -1
/-- math.h:170 `zpl_sign0`. -/
noncomputable def sign0 (x : ℝ) : ℝ := if x = 0 then 0 else if 0 ≤ x then 1 else -1
/-- math.c:68 `zpl_sign64`. -/
noncomputable def sign64 (x : ℝ) : ℝ := if x < 0 then -1 else 1

/-- math.c:29-39 `zpl_copy_sign` on the numbers themselves; see `copySignBits` for the bits. -/
noncomputable def copySign (x y : ℝ) : ℝ := if y < 0 then -|x| else |x|

/-- math.c:43-49 `zpl_mod`. -/
noncomputable def mod (x y : ℝ) : Except Fault ℝ := do
  let r ← remainder |x| |y|
  pure (copySign (if sign r > 0 then r + |y| else r) x)

/-- math.c:70-76 `zpl_mod64`: the test is `if (zpl_sign64(result))`, which is never zero.  The rounding inside is that of `zpl_round64` (65): the same
formula for non-negative numbers, in a wider integer type; the range of the narrower one is kept here. -/
noncomputable def mod64 (x y : ℝ) : Except Fault ℝ := do
  let r ← remainder |x| |y|
  pure (copySign (if sign64 r ≠ 0 then r + |y| else r) x)

/-- math.c:22-27 `zpl_angle_diff`, for the number `T` of a full turn. -/
noncomputable def angleDiff (T a b : ℝ) : Except Fault ℝ := do
  let d ← mod (b - a) T
  let d ← mod (d + 3 / 2 * T) T
  pure (d - 1 / 2 * T)

/-- math.c:19 `zpl_to_radians`, for the number `T` of a full turn. -/
noncomputable def toRadians (T d : ℝ) : ℝ := d * T / 360
/-- math.c:20 `zpl_to_degrees`. -/
noncomputable def toDegrees (T r : ℝ) : ℝ := r * 360 / T

/-- math.c:29-39 `zpl_copy_sign` on the bits of the two `float`s. -/
def copySignBits (x y : BitVec 32) : BitVec 32 := (x &&& 0x7fffffff#32) ||| (y &&& 0x80000000#32)
/-- math.c:51-61 `zpl_copy_sign64` on the bits of the two `double`s. -/
def copySignBits64 (x y : BitVec 64) : BitVec 64 := (x &&& 0x7fffffffffffffff#64) ||| (y &&& 0x8000000000000000#64)

/-- math.c:250-254 `zpl_fast_exp`. -/
noncomputable def fastExp (x : ℝ) : ℝ :=
  1 + x * (1 + x * 0.5 * (1 + x * 0.3333333333 * (1 + x * 0.25 * (1 + x * 0.2))))

/-- header/math.h:153 `ZPL_LOG_TWO`. -/
noncomputable def LOG_TWO : ℝ := 0.693147180559945309417232121458176568
/-- header/math.h:139 `ZPL_TAU`. -/
noncomputable def TAU : ℝ := 6.28318530717958647692528676655900576
/-- header/math.h:140 `ZPL_PI`. -/
noncomputable def PI : ℝ := 3.14159265358979323846264338327950288
/-- header/math.h:141 `ZPL_ONE_OVER_TAU`. -/
noncomputable def ONE_OVER_TAU : ℝ := 0.636619772367581343075535053490057448
/-- header/math.h:142 `ZPL_ONE_OVER_PI`. -/
noncomputable def ONE_OVER_PI : ℝ := 0.159154943091895335768883763372514362
/-- header/math.h:149 `ZPL_SQRT_TWO`. -/
noncomputable def SQRT_TWO : ℝ := 1.41421356237309504880168872420969808
/-- header/math.h:150 `ZPL_SQRT_THREE`. -/
noncomputable def SQRT_THREE : ℝ := 1.73205080756887729352744634150587236
/-- header/math.h:151 `ZPL_SQRT_FIVE`. -/
noncomputable def SQRT_FIVE : ℝ := 2.23606797749978969640917366873127623
/-- header/math.h:148 `ZPL_E`. -/
noncomputable def E : ℝ := 2.71828182845904523536
/-- math.c:247 `zpl_exp2`. -/
noncomputable def exp2 (x : ℝ) : ℝ := Real.exp (LOG_TWO * x)
/-- math.c:248 `zpl_log2`. -/
noncomputable def log2 (x : ℝ) : ℝ := Real.log x / LOG_TWO
/-- math.c:256 `zpl_fast_exp2`. -/
noncomputable def fastExp2 (x : ℝ) : ℝ := fastExp (LOG_TWO * x)

/-! ## Conversion -/

theorem whole_ofInt (n : ℤ) : whole (n : ℝ) = n := by
  unfold whole; split <;> simp

theorem whole_nonneg {x : ℝ} (h : 0 ≤ x) : whole x = ⌊x⌋ := if_pos h
theorem whole_neg {x : ℝ} (h : x < 0) : whole x = ⌈x⌉ := if_neg (not_le.mpr h)

theorem toInt32_ok {x : ℝ} (h1 : -2 ^ 31 ≤ x) (h2 : x < 2 ^ 31) : toInt32 x = .ok (whole x) := by
  have hw : -2 ^ 31 ≤ whole x ∧ whole x < 2 ^ 31 := by
    unfold whole
    split
    · next h =>
      have := Int.floor_nonneg.mpr h
      refine ⟨by omega, ?_⟩
      exact Int.floor_lt.mpr (by push_cast; linarith)
    · next h =>
      push Not at h
      have : ⌈x⌉ ≤ 0 := Int.ceil_le.mpr (by push_cast; linarith)
      refine ⟨?_, by omega⟩
      have : (-2 ^ 31 : ℝ) ≤ ⌈x⌉ := le_trans h1 (Int.le_ceil x)
      exact_mod_cast this
  unfold toInt32
  rw [if_pos hw]

/-! ## C105: rounding -/

/-- Rounding to the nearest whole number: no whole number is nearer, and of two equally near ones the one further from zero is taken. -/
def Nearest (x : ℝ) (n : ℤ) : Prop := ∀ m : ℤ, |x - n| ≤ |x - m| ∧ (|x - m| = |x - n| → |m| ≤ |n|)

theorem nearest_of_half {x : ℝ} {n : ℤ} (h : |x - n| ≤ 1 / 2) (ht : |x - n| = 1 / 2 → |x| ≤ |(n : ℝ)|) : Nearest x n := by
  intro m
  by_cases hmn : m = n
  · subst hmn; exact ⟨le_refl _, fun _ => le_refl _⟩
  · have h1 : (1 : ℝ) ≤ |(m : ℝ) - n| := by
      have : 1 ≤ |m - n| := Int.one_le_abs (sub_ne_zero.mpr hmn)
      exact_mod_cast this
    have h2 : |(m : ℝ) - n| ≤ |x - m| + |x - n| := by
      have := abs_sub_le (m : ℝ) x n
      rwa [abs_sub_comm (m : ℝ) x] at this
    refine ⟨by linarith, fun he => ?_⟩
    have h3 : |x - n| = 1 / 2 := by linarith
    have h4 := ht h3
    have h5 : |x - m| = 1 / 2 := by linarith
    have h6 : |(m : ℝ)| ≤ |(n : ℝ)| := by
      have hi : ∀ k : ℤ, (k : ℝ) < 0 → (k : ℝ) ≤ -1 := fun k hk => by
        have hk' : k < 0 := by exact_mod_cast hk
        have : k ≤ -1 := by omega
        exact_mod_cast this
      rcases abs_cases (x - n) with ⟨e, _⟩ | ⟨e, _⟩ <;> rcases abs_cases (x - m) with ⟨e', _⟩ | ⟨e', _⟩ <;>
        rcases abs_cases (m : ℝ) with ⟨e'', _⟩ | ⟨e'', _⟩ <;> rcases abs_cases (n : ℝ) with ⟨e3, _⟩ | ⟨e3, _⟩ <;>
        rcases abs_cases x with ⟨e4, _⟩ | ⟨e4, _⟩ <;> (try rw [e3] at h4 ⊢) <;> (try rw [e''] ) <;> rw [e4] at h4 <;>
        first | linarith | linarith [hi n (by assumption)] | linarith [hi m (by assumption)]
    exact_mod_cast h6

theorem floor_nonneg {x : ℝ} (h0 : 0 ≤ x) (h : x < 2 ^ 31) : floor x = .ok (⌊x⌋ : ℝ) := by
  have ht := toInt32_ok (by linarith [show (-2 ^ 31 : ℝ) ≤ 0 by norm_num]) h
  unfold floor
  rw [if_pos h0, ht, whole_nonneg h0]
  rfl

theorem floor_neg {x : ℝ} (h0 : x < 0) (h : -2 ^ 31 + 1 ≤ x) : floor x = .ok ((⌈x⌉ - 1 : ℤ) : ℝ) := by
  have ht := toInt32_ok (x := x - 1) (by linarith) (by linarith [show (0 : ℝ) < 2 ^ 31 by norm_num])
  unfold floor
  rw [if_neg (not_le.mpr h0), ht, whole_neg (by linarith), Int.ceil_sub_one]
  rfl

theorem ceil_neg {x : ℝ} (h0 : x < 0) (h : -2 ^ 31 ≤ x) : ceil x = .ok (⌈x⌉ : ℝ) := by
  have ht := toInt32_ok h (by linarith [show (0 : ℝ) < 2 ^ 31 by norm_num])
  unfold ceil
  rw [if_pos h0, ht, whole_neg h0]
  rfl

theorem ceil_nonneg {x : ℝ} (h0 : 0 ≤ x) (h : x < 2 ^ 31 - 1) : ceil x = .ok ((⌊x⌋ + 1 : ℤ) : ℝ) := by
  have ht := toInt32_ok (by linarith [show (-2 ^ 31 : ℝ) ≤ 0 by norm_num]) (by linarith)
  have hl : ⌊x⌋ + 1 < 2 ^ 31 := by
    have : ⌊x⌋ < 2 ^ 31 - 1 := Int.floor_lt.mpr (by push_cast; linarith)
    omega
  unfold ceil
  rw [if_neg (not_lt.mpr h0), ht, whole_nonneg h0]
  simp only [bind, Except.bind]
  rw [if_pos hl]
  rfl

theorem not_int_floor {x : ℝ} (h : ∀ n : ℤ, x ≠ n) : ⌈x⌉ = ⌊x⌋ + 1 := by
  rw [Int.ceil_eq_iff]
  push_cast
  have h1 := Int.floor_le x
  have h2 := Int.lt_floor_add_one x
  refine ⟨?_, h2.le⟩
  have : (⌊x⌋ : ℝ) ≠ x := fun he => h _ he.symm
  have := lt_of_le_of_ne h1 this
  linarith

/-- **C105.**  `zpl_floor` gives the greatest whole number not above the argument, when the argument is not negative or is not whole. -/
theorem C105_floor_partial {x : ℝ} (hr : |x| < 2 ^ 31 - 1) (hx : 0 ≤ x ∨ ∀ n : ℤ, x ≠ n) :
    floor x = .ok (⌊x⌋ : ℝ) := by
  rw [abs_lt] at hr
  by_cases h0 : 0 ≤ x
  · exact floor_nonneg h0 (by linarith)
  · rcases hx with hx | hx
    · exact absurd hx h0
    · rw [floor_neg (not_le.mp h0) (by linarith), not_int_floor hx]
      simp

example : floor (-5 / 2) = .ok (⌊(-5 / 2 : ℝ)⌋ : ℝ) ∧ ⌊(-5 / 2 : ℝ)⌋ = -3 := by
  have hf : ⌊(-5 / 2 : ℝ)⌋ = -3 := by rw [Int.floor_eq_iff]; norm_num
  refine ⟨C105_floor_partial (by rw [abs_lt]; norm_num) (Or.inr fun n hn => ?_), hf⟩
  have h2 : (-5 : ℝ) = 2 * n := by linarith
  have h3 : (-5 : ℤ) = 2 * n := by exact_mod_cast h2
  omega

/-- **C105 (the code disagrees).**  `zpl_floor` of every negative whole number is that number minus one. -/
theorem C105_floor_whole_negative (n : ℤ) (h0 : n < 0) (hr : -2 ^ 31 < n) : floor (n : ℝ) = .ok ((n - 1 : ℤ) : ℝ) := by
  rw [floor_neg (by exact_mod_cast h0) (by have : -2 ^ 31 + 1 ≤ n := by omega
                                           exact_mod_cast this)]
  simp

/-- **C105.**  `zpl_ceil` gives the least whole number not below the argument, when the argument is negative or is not whole. -/
theorem C105_ceil_partial {x : ℝ} (hr : |x| < 2 ^ 31 - 1) (hx : x < 0 ∨ ∀ n : ℤ, x ≠ n) :
    ceil x = .ok (⌈x⌉ : ℝ) := by
  rw [abs_lt] at hr
  by_cases h0 : x < 0
  · exact ceil_neg h0 (by linarith)
  · rcases hx with hx | hx
    · exact absurd hx h0
    · rw [ceil_nonneg (not_lt.mp h0) (by linarith), not_int_floor hx]

example : ceil (5 / 2) = .ok (⌈(5 / 2 : ℝ)⌉ : ℝ) ∧ ⌈(5 / 2 : ℝ)⌉ = 3 := by
  have hf : ⌈(5 / 2 : ℝ)⌉ = 3 := by rw [Int.ceil_eq_iff]; norm_num
  refine ⟨C105_ceil_partial (by rw [abs_lt]; norm_num) (Or.inr fun n hn => ?_), hf⟩
  have h2 : (5 : ℝ) = 2 * n := by linarith
  have h3 : (5 : ℤ) = 2 * n := by exact_mod_cast h2
  omega

/-- **C105 (the code disagrees).**  `zpl_ceil` of every non-negative whole number, zero included, is that number plus one. -/
theorem C105_ceil_whole (n : ℤ) (h0 : 0 ≤ n) (hr : n < 2 ^ 31 - 1) : ceil (n : ℝ) = .ok ((n + 1 : ℤ) : ℝ) := by
  rw [ceil_nonneg (by exact_mod_cast h0) (by exact_mod_cast hr)]
  simp

/-- The whole number `zpl_round` finds. -/
theorem round_eq {x : ℝ} (hr : |x| < 2 ^ 31 - 2) :
    round x = .ok ((if 0 ≤ x then ⌊x + 1 / 2⌋ else ⌈x - 1 / 2⌉ : ℤ) : ℝ) := by
  rw [abs_lt] at hr
  unfold round
  by_cases h0 : 0 ≤ x
  · rw [if_pos h0, if_pos h0, floor_nonneg (by linarith) (by linarith)]
  · rw [if_neg h0, if_neg h0, ceil_neg (by push Not at h0; linarith) (by linarith)]

/-- **C105.**  `zpl_round` gives the nearest whole number; halfway it goes away from zero. -/
theorem C105_round {x : ℝ} (hr : |x| < 2 ^ 31 - 2) : ∃ n : ℤ, round x = .ok (n : ℝ) ∧ Nearest x n := by
  refine ⟨_, round_eq hr, ?_⟩
  by_cases h0 : 0 ≤ x
  · rw [if_pos h0]
    have h1 := Int.floor_le (x + 1 / 2)
    have h2 := Int.lt_floor_add_one (x + 1 / 2)
    have hn : (0 : ℝ) ≤ ⌊x + 1 / 2⌋ := by exact_mod_cast Int.floor_nonneg.mpr (by linarith)
    refine nearest_of_half (abs_le.mpr ⟨by linarith, by linarith⟩) fun he => ?_
    rw [abs_of_nonneg h0, abs_of_nonneg hn]
    rcases abs_cases (x - ⌊x + 1 / 2⌋) with ⟨e, _⟩ | ⟨e, _⟩ <;> linarith
  · rw [if_neg h0]
    push Not at h0
    have h1 := Int.le_ceil (x - 1 / 2)
    have h2 := Int.ceil_lt_add_one (x - 1 / 2)
    have hn : (⌈x - 1 / 2⌉ : ℝ) ≤ 0 := by
      exact_mod_cast Int.ceil_le.mpr (by push_cast; linarith)
    refine nearest_of_half (abs_le.mpr ⟨by linarith, by linarith⟩) fun he => ?_
    rw [abs_of_neg h0, abs_of_nonpos hn]
    rcases abs_cases (x - ⌈x - 1 / 2⌉) with ⟨e, _⟩ | ⟨e, _⟩ <;> linarith

example : round (-5 / 2) = .ok (-3) := by
  rw [round_eq (by rw [abs_lt]; norm_num), if_neg (by norm_num)]
  have : ⌈(-5 / 2 - 1 / 2 : ℝ)⌉ = -3 := by rw [Int.ceil_eq_iff]; norm_num
  rw [this]; norm_num

/-- **C105.**  Converting a number beyond the range of `int` is undefined: none of the three functions has an answer there. -/
theorem C105_out_of_range {x : ℝ} (h : 2 ^ 31 ≤ x) :
    floor x = .error .arith ∧ ceil x = .error .arith ∧ round x = .error .arith := by
  have h0 : 0 ≤ x := le_trans (by norm_num) h
  have key : ∀ {y : ℝ}, 2 ^ 31 ≤ y → toInt32 y = .error .arith := by
    intro y hy
    unfold toInt32
    rw [whole_nonneg (le_trans (by norm_num) hy), if_neg]
    rintro ⟨-, hl⟩
    have : (2 ^ 31 : ℤ) ≤ ⌊y⌋ := Int.le_floor.mpr (by push_cast; linarith)
    omega
  have hf : ∀ {y : ℝ}, 2 ^ 31 ≤ y → floor y = .error .arith := by
    intro y hy
    unfold floor
    rw [if_pos (le_trans (by norm_num) hy), key hy]; rfl
  refine ⟨hf h, ?_, ?_⟩
  · unfold ceil; rw [if_neg (not_lt.mpr h0), key h]; rfl
  · unfold round; rw [if_pos h0]; exact hf (by linarith)

/-! ## C106: remainders and angles -/

/-- The remainder of a division of non-negative numbers: what is left after taking `b` away as often as it fits. -/
noncomputable def rest (a b : ℝ) : ℝ := a - ⌊a / b⌋ * b

theorem rest_range {a b : ℝ} (hb : 0 < b) : 0 ≤ rest a b ∧ rest a b < b := by
  unfold rest
  have h1 := Int.floor_le (a / b)
  have h2 := Int.lt_floor_add_one (a / b)
  have h3 : a / b * b = a := div_mul_cancel₀ a hb.ne'
  constructor <;> nlinarith

/-- `rest` is the only number in `[0, b)` that differs from `a` by a whole multiple of `b`. -/
theorem rest_unique {a b r : ℝ} (hb : 0 < b) (k : ℤ) (h : a = k * b + r) (h0 : 0 ≤ r) (h1 : r < b) : rest a b = r := by
  have hf : ⌊a / b⌋ = k := by
    rw [Int.floor_eq_iff, le_div_iff₀ hb, div_lt_iff₀ hb]
    constructor <;> nlinarith
  unfold rest
  rw [hf, h]; ring

/-- The remainder of C's `fmod`: the sign of the dividend, the size of the remainder of the absolute values. -/
noncomputable def fmod (x y : ℝ) : ℝ := if x < 0 then -rest |x| |y| else rest |x| |y|

/-- **C106.**  `zpl_remainder` takes away a whole number of times the divisor, and what is left is at most half the divisor. -/
theorem C106_remainder {x y : ℝ} (hy : y ≠ 0) (hr : |x / y| < 2 ^ 31 - 2) :
    ∃ k : ℤ, ∃ r : ℝ, remainder x y = .ok r ∧ x = k * y + r ∧ |r| ≤ |y| / 2 := by
  obtain ⟨n, hn, hnear⟩ := C105_round hr
  refine ⟨n, x - n * y, ?_, by ring, ?_⟩
  · unfold remainder; rw [if_neg hy, hn]; rfl
  · have hx : x - n * y = (x / y - n) * y := by field_simp
    rw [hx, abs_mul]
    have hh : |x / y - n| ≤ 1 / 2 := by
      have h1 := (hnear (_root_.round (x / y))).1
      exact le_trans h1 (by simpa using abs_sub_round (x / y))
    nlinarith [abs_nonneg y]

example : ∃ k : ℤ, ∃ r : ℝ, remainder 7 4 = .ok r ∧ (7 : ℝ) = k * 4 + r ∧ |r| ≤ |(4 : ℝ)| / 2 :=
  C106_remainder (by norm_num) (by rw [abs_lt]; norm_num)

theorem remainder_pos {a b : ℝ} (ha : 0 ≤ a) (hb : 0 < b) (hr : a / b < 2 ^ 31 - 2) :
    remainder a b = .ok (if rest a b < b / 2 then rest a b else rest a b - b) := by
  have hq : 0 ≤ a / b := div_nonneg ha hb.le
  have hR := round_eq (x := a / b) (by rw [abs_of_nonneg hq]; exact hr)
  unfold remainder
  rw [if_neg hb.ne', hR, if_pos hq]
  simp only [bind, Except.bind, pure, Except.pure]
  have h1 := Int.floor_le (a / b)
  have h2 := Int.lt_floor_add_one (a / b)
  have h3 : a / b * b = a := div_mul_cancel₀ a hb.ne'
  congr 1
  split
  · next hs =>
    unfold rest at hs
    have : ⌊a / b + 1 / 2⌋ = ⌊a / b⌋ := by
      rw [Int.floor_eq_iff]
      refine ⟨by linarith, ?_⟩
      by_contra hc
      push Not at hc
      nlinarith
    rw [this]; rfl
  · next hs =>
    unfold rest at hs ⊢
    push Not at hs
    have : ⌊a / b + 1 / 2⌋ = ⌊a / b⌋ + 1 := by
      rw [Int.floor_eq_iff]
      push_cast
      refine ⟨?_, by linarith⟩
      by_contra hc
      push Not at hc
      nlinarith
    rw [this]; push_cast; ring

theorem copySign_fmod {x r : ℝ} (h : 0 ≤ r) : copySign r x = if x < 0 then -r else r := by
  unfold copySign; rw [abs_of_nonneg h]

/-- What `zpl_mod` returns, for every dividend and divisor in range: with `m` the remainder of the absolute values, `m + |y|` when `m` is below half
the divisor and `|y| - m` otherwise, with the sign of the dividend. -/
theorem mod_eq {x y : ℝ} (hy : y ≠ 0) (hr : |x / y| < 2 ^ 31 - 2) :
    mod x y = .ok (copySign (if rest |x| |y| < |y| / 2 then rest |x| |y| + |y| else |y| - rest |x| |y|) x) := by
  have hb : 0 < |y| := abs_pos.mpr hy
  have hm := rest_range (a := |x|) hb
  unfold mod
  rw [remainder_pos (abs_nonneg x) hb (by rw [← abs_div]; exact hr)]
  simp only [bind, Except.bind, pure, Except.pure]
  congr 1
  split
  · next hs =>
    rw [if_pos]
    unfold sign; rw [if_pos hm.1]; norm_num
  · next hs =>
    rw [if_neg]
    · unfold copySign
      rw [abs_of_neg (by linarith : rest |x| |y| - |y| < 0), abs_of_nonneg (by linarith : 0 ≤ |y| - rest |x| |y|)]
      split <;> ring
    · unfold sign; rw [if_neg (by linarith)]; norm_num

/-- **C106 (the code disagrees).**  `zpl_mod` is the remainder of the division only when the dividend is exactly halfway between two multiples of the
divisor. -/
theorem C106_mod_wrong {x y : ℝ} (hy : y ≠ 0) (hr : |x / y| < 2 ^ 31 - 2) :
    mod x y = .ok (fmod x y) ↔ rest |x| |y| = |y| / 2 := by
  have hb : 0 < |y| := abs_pos.mpr hy
  have hm := rest_range (a := |x|) hb
  rw [mod_eq hy hr]
  unfold fmod
  constructor
  · intro h
    injection h with h
    rw [copySign_fmod (by split <;> linarith)] at h
    by_cases hx : x < 0
    · rw [if_pos hx, if_pos hx] at h
      split at h <;> linarith
    · rw [if_neg hx, if_neg hx] at h
      split at h <;> linarith
  · intro h
    rw [if_neg (by rw [h]; exact lt_irrefl _), copySign_fmod (by linarith), show |y| - rest |x| |y| = rest |x| |y| by linarith]

example : mod 4 3 = .ok 4 ∧ fmod 4 3 = 1 := by
  have hrest : rest |(4 : ℝ)| |(3 : ℝ)| = 1 :=
    rest_unique (by norm_num) 1 (by norm_num) (by norm_num) (by norm_num)
  constructor
  · rw [mod_eq (by norm_num) (by rw [abs_lt]; norm_num), hrest, copySign_fmod (by norm_num)]
    norm_num
  · unfold fmod; rw [hrest]; norm_num

/-- **C106 (the code disagrees).**  When the dividend is a multiple of the divisor `zpl_mod` returns the divisor, not 0; the result is not below the
divisor. -/
theorem C106_mod_multiple (k : ℕ) {y : ℝ} (hy : 0 < y) (hk : (k : ℝ) < 2 ^ 31 - 2) : mod (k * y) y = .ok y := by
  have hrest : rest |(k : ℝ) * y| |y| = 0 := by
    rw [abs_of_pos hy, abs_of_nonneg (by positivity)]
    exact rest_unique hy k (by push_cast; ring) (le_refl _) hy
  rw [mod_eq hy.ne' (by rw [mul_div_assoc, div_self hy.ne', mul_one, abs_of_nonneg (by positivity)]; exact hk), hrest]
  rw [if_pos (by rw [abs_of_pos hy]; linarith), copySign_fmod (by rw [abs_of_pos hy]; linarith),
    if_neg (not_lt.mpr (by positivity)), abs_of_pos hy, zero_add]

/-- **C106.**  `zpl_mod64` is right when the remainder is at least half the divisor; below half it returns the divisor too much. -/
theorem C106_mod64_partial {x y : ℝ} (hy : y ≠ 0) (hr : |x / y| < 2 ^ 31 - 2) :
    mod64 x y = .ok (fmod x y) ↔ |y| / 2 ≤ rest |x| |y| := by
  have hb : 0 < |y| := abs_pos.mpr hy
  have hm := rest_range (a := |x|) hb
  have hs : ∀ r, sign64 r ≠ 0 := fun r => by unfold sign64; split <;> norm_num
  unfold mod64
  rw [remainder_pos (abs_nonneg x) hb (by rw [← abs_div]; exact hr)]
  simp only [bind, Except.bind, pure, Except.pure]
  rw [if_pos (hs _)]
  unfold fmod
  constructor
  · intro h
    by_contra hc
    push Not at hc
    injection h with h
    rw [if_pos hc, copySign_fmod (by linarith)] at h
    by_cases hx : x < 0
    · rw [if_pos hx, if_pos hx] at h; linarith
    · rw [if_neg hx, if_neg hx] at h; linarith
  · intro h
    rw [if_neg (not_lt.mpr h), copySign_fmod (by linarith)]
    congr 1
    split <;> ring

/-- **C106 (the code disagrees).**  Below half the divisor `zpl_mod64` returns a number as large as the divisor or larger. -/
theorem C106_mod64_wrong {x y : ℝ} (hx : 0 ≤ x) (hy : y ≠ 0) (hr : |x / y| < 2 ^ 31 - 2) (h : rest |x| |y| < |y| / 2) :
    mod64 x y = .ok (fmod x y + |y|) := by
  have hb : 0 < |y| := abs_pos.mpr hy
  have hm := rest_range (a := |x|) hb
  have hs : ∀ r, sign64 r ≠ 0 := fun r => by unfold sign64; split <;> norm_num
  unfold mod64
  rw [remainder_pos (abs_nonneg x) hb (by rw [← abs_div]; exact hr)]
  simp only [bind, Except.bind, pure, Except.pure]
  rw [if_pos (hs _), if_pos h, copySign_fmod (by linarith)]
  unfold fmod
  rw [if_neg (not_lt.mpr hx), if_neg (not_lt.mpr hx)]

/-- **C106 (the code disagrees).**  The difference of two angles is documented as the way from the first to the second.  When the second is ahead by less
than half a turn `zpl_angle_diff` returns the way back. -/
theorem C106_angle_diff_ahead {T a b : ℝ} (hT : 0 < T) (h0 : a < b) (h1 : b < a + T / 2) : angleDiff T a b = .ok (a - b) := by
  have hd0 : 0 < b - a := by linarith
  have hTa : |T| = T := abs_of_pos hT
  have hr1 : rest |b - a| |T| = b - a := by
    rw [hTa, abs_of_pos hd0]; exact rest_unique hT 0 (by push_cast; ring) hd0.le (by linarith)
  have hm1 : mod (b - a) T = .ok (b - a + T) := by
    rw [mod_eq hT.ne', hr1, hTa, if_pos (by linarith), copySign_fmod (by linarith), if_neg (by linarith)]
    rw [abs_of_nonneg (by positivity), div_lt_iff₀ hT]
    nlinarith
  have hr2 : rest |b - a + T + 3 / 2 * T| |T| = b - a + T / 2 := by
    rw [hTa, abs_of_pos (by linarith)]; exact rest_unique hT 2 (by push_cast; ring) (by linarith) (by linarith)
  have hm2 : mod (b - a + T + 3 / 2 * T) T = .ok (T / 2 - (b - a)) := by
    rw [mod_eq hT.ne', hr2, hTa, if_neg (by linarith), copySign_fmod (by linarith), if_neg (by linarith)]
    · congr 1; ring
    · rw [abs_of_nonneg (by apply div_nonneg <;> linarith), div_lt_iff₀ hT]
      nlinarith
  unfold angleDiff
  rw [hm1]
  simp only [bind, Except.bind, pure, Except.pure]
  rw [hm2]
  simp only []
  congr 1; ring

/-- **C106 (the code disagrees).**  When the second angle is behind by less than half a turn `zpl_angle_diff` returns the way forward, more than half a
turn. -/
theorem C106_angle_diff_behind {T a b : ℝ} (hT : 0 < T) (h0 : b < a) (h1 : a < b + T / 2) :
    angleDiff T a b = .ok (b - a + T) := by
  have hd0 : b - a < 0 := by linarith
  have hTa : |T| = T := abs_of_pos hT
  have hr1 : rest |b - a| |T| = a - b := by
    rw [hTa, abs_of_neg hd0]; exact rest_unique hT 0 (by push_cast; ring) (by linarith) (by linarith)
  have hm1 : mod (b - a) T = .ok (b - a - T) := by
    rw [mod_eq hT.ne', hr1, hTa, if_pos (by linarith), copySign_fmod (by linarith), if_pos (by linarith)]
    · congr 1; ring
    · rw [abs_div, hTa, abs_of_neg hd0, div_lt_iff₀ hT]
      nlinarith
  have hr2 : rest |b - a - T + 3 / 2 * T| |T| = b - a + T / 2 := by
    rw [hTa, abs_of_pos (by linarith)]; exact rest_unique hT 0 (by push_cast; ring) (by linarith) (by linarith)
  have hm2 : mod (b - a - T + 3 / 2 * T) T = .ok (b - a + T / 2 + T) := by
    rw [mod_eq hT.ne', hr2, hTa, if_pos (by linarith), copySign_fmod (by linarith), if_neg (by linarith)]
    rw [abs_of_nonneg (by apply div_nonneg <;> linarith), div_lt_iff₀ hT]
    nlinarith
  unfold angleDiff
  rw [hm1]
  simp only [bind, Except.bind, pure, Except.pure]
  rw [hm2]
  simp only []
  congr 1; ring

example : angleDiff 6 1 2 = .ok (-1) := by
  rw [C106_angle_diff_ahead (by norm_num) (by norm_num) (by norm_num)]; norm_num

/-- **C106.**  The difference of an angle to itself is 0. -/
theorem C106_angle_diff_same {T : ℝ} (hT : 0 < T) (a : ℝ) : angleDiff T a a = .ok 0 := by
  have hTa : |T| = T := abs_of_pos hT
  have hr1 : rest |a - a| |T| = 0 := by
    rw [hTa, sub_self, abs_zero]; exact rest_unique hT 0 (by push_cast; ring) (le_refl _) hT
  have hm1 : mod (a - a) T = .ok T := by
    rw [mod_eq hT.ne', hr1, hTa, if_pos (by linarith), copySign_fmod (by linarith), if_neg (by linarith), zero_add]
    rw [sub_self, zero_div, abs_zero]; norm_num
  have hr2 : rest |T + 3 / 2 * T| |T| = T / 2 := by
    rw [hTa, abs_of_pos (by linarith)]; exact rest_unique hT 2 (by push_cast; ring) (by linarith) (by linarith)
  have hm2 : mod (T + 3 / 2 * T) T = .ok (T / 2) := by
    rw [mod_eq hT.ne', hr2, hTa, if_neg (by linarith), copySign_fmod (by linarith), if_neg (by linarith)]
    · congr 1; ring
    · rw [abs_of_nonneg (by positivity), div_lt_iff₀ hT]
      nlinarith
  unfold angleDiff
  rw [hm1]
  simp only [bind, Except.bind, pure, Except.pure]
  rw [hm2]
  simp only []
  congr 1; ring

/-! ## C107: signs, units, constants, fast exponentials -/

/-- **C107.**  `zpl_copy_sign` and `zpl_copy_sign64` take the sign bit of the second number and every other bit of the first, whatever the numbers are:
zeros, infinities and NaNs included. -/
theorem C107_copy_sign (x y : BitVec 32) (x' y' : BitVec 64) :
    ((copySignBits x y).getLsbD 31 = y.getLsbD 31 ∧ ∀ i, i < 31 → (copySignBits x y).getLsbD i = x.getLsbD i)
    ∧ (copySignBits64 x' y').getLsbD 63 = y'.getLsbD 63 ∧ ∀ i, i < 63 → (copySignBits64 x' y').getLsbD i = x'.getLsbD i := by
  refine ⟨⟨?_, fun i hi => ?_⟩, ?_, fun i hi => ?_⟩
  · simp [copySignBits]
  · have h1 : (0x7fffffff#32).getLsbD i = true := by
      have : ∀ i : Fin 31, (0x7fffffff#32).getLsbD i.1 = true := by decide
      exact this ⟨i, hi⟩
    have h2 : (0x80000000#32).getLsbD i = false := by
      have : ∀ i : Fin 31, (0x80000000#32).getLsbD i.1 = false := by decide
      exact this ⟨i, hi⟩
    simp [copySignBits, BitVec.getLsbD_or, BitVec.getLsbD_and, h1, h2]
  · simp [copySignBits64]
  · have h1 : (0x7fffffffffffffff#64).getLsbD i = true := by
      have : ∀ i : Fin 63, (0x7fffffffffffffff#64).getLsbD i.1 = true := by decide
      exact this ⟨i, hi⟩
    have h2 : (0x8000000000000000#64).getLsbD i = false := by
      have : ∀ i : Fin 63, (0x8000000000000000#64).getLsbD i.1 = false := by decide
      exact this ⟨i, hi⟩
    simp [copySignBits64, BitVec.getLsbD_or, BitVec.getLsbD_and, h1, h2]

example : copySignBits 0x3f800000#32 0xbf000000#32 = 0xbf800000#32 := by decide

/-- **C107.**  The two signs: a number is its sign times its size; `zpl_sign0` is the sign that is 0 at 0. -/
theorem C107_sign (x : ℝ) : sign x * |x| = x ∧ sign0 x * |x| = x ∧ sign64 x * |x| = x ∧ sign0 x = SignType.sign x
    ∧ (sign x = 1 ∨ sign x = -1) := by
  unfold sign sign0 sign64
  rcases lt_trichotomy x 0 with h | h | h
  · rw [abs_of_neg h, if_neg (not_le.mpr h), if_neg h.ne, if_pos h, sign_neg h]
    norm_num
  · subst h; norm_num
  · rw [abs_of_pos h, if_pos h.le, if_neg h.ne', if_neg (not_lt.mpr h.le), sign_pos h]
    norm_num

/-- **C107.**  Degrees to radians and back, and radians to degrees and back, change nothing; a full turn is 360 degrees. -/
theorem C107_degrees {T : ℝ} (hT : T ≠ 0) (d : ℝ) :
    toDegrees T (toRadians T d) = d ∧ toRadians T (toDegrees T d) = d ∧ toRadians T 360 = T ∧ toDegrees T T = 360 := by
  unfold toDegrees toRadians
  refine ⟨?_, ?_, ?_, ?_⟩ <;> field_simp

/-- **C107.**  The constants for a half turn, a full turn and the roots are right to twenty digits, those for the logarithm of 2 and `e` to nine. -/
theorem C107_constants :
    |PI - Real.pi| < 1e-19 ∧ |TAU - 2 * Real.pi| < 1e-19 ∧ |SQRT_TWO ^ 2 - 2| < 1e-34 ∧ |SQRT_THREE ^ 2 - 3| < 1e-34
    ∧ |SQRT_FIVE ^ 2 - 5| < 1e-34 ∧ |LOG_TWO - Real.log 2| < 1e-9 ∧ |E - Real.exp 1| < 1e-9 := by
  have h1 := Real.pi_gt_d20
  have h2 := Real.pi_lt_d20
  have h3 := Real.log_two_gt_d9
  have h4 := Real.log_two_lt_d9
  have h5 := Real.exp_one_gt_d9
  have h6 := Real.exp_one_lt_d9
  unfold PI TAU SQRT_TWO SQRT_THREE SQRT_FIVE LOG_TWO E
  refine ⟨?_, ?_, ?_, ?_, ?_, ?_, ?_⟩ <;> rw [abs_lt] <;> constructor <;> first | linarith | norm_num

/-- **C107 (the code disagrees).**  `ZPL_ONE_OVER_TAU` is about four times 1/tau and `ZPL_ONE_OVER_PI` about half of 1/pi. -/
theorem C107_one_over_wrong : |ONE_OVER_TAU * TAU - 4| < 1e-30 ∧ |ONE_OVER_PI * PI - 1 / 2| < 1e-30 := by
  unfold ONE_OVER_TAU TAU ONE_OVER_PI PI
  constructor <;> rw [abs_lt] <;> constructor <;> norm_num

/-- **C107.**  `zpl_fast_exp` is within 0.0017 of the exponential on the documented range. -/
theorem C107_fast_exp {x : ℝ} (h : |x| ≤ 1) : |fastExp x - Real.exp x| ≤ 0.0017 := by
  have hb := Real.exp_bound h (n := 6) (by norm_num)
  have hp : ∀ k : ℕ, |x| ^ k ≤ 1 := fun k => pow_le_one₀ (abs_nonneg x) h
  have h6 : |x| ^ 6 * ((Nat.succ 6 : ℕ) / ((Nat.factorial 6 : ℕ) * (6 : ℕ) : ℝ)) ≤ 0.00163 := by
    have := hp 6
    norm_num [Nat.factorial]
    nlinarith
  have hs : ∑ m ∈ Finset.range 6, x ^ m / (m.factorial : ℝ) = 1 + x + x ^ 2 / 2 + x ^ 3 / 6 + x ^ 4 / 24 + x ^ 5 / 120 := by
    simp [Finset.sum_range_succ, Nat.factorial]
  rw [hs] at hb
  have hd : fastExp x - (1 + x + x ^ 2 / 2 + x ^ 3 / 6 + x ^ 4 / 24 + x ^ 5 / 120)
      = -(1 / 3 - 0.3333333333) * (x ^ 3 / 2 + x ^ 4 / 8 + x ^ 5 / 40) := by
    unfold fastExp; ring
  have hx : |x ^ 3 / 2 + x ^ 4 / 8 + x ^ 5 / 40| ≤ 1 := by
    have h3 := abs_le.mp ((abs_pow x 3).trans_le (hp 3))
    have h4 := abs_le.mp ((abs_pow x 4).trans_le (hp 4))
    have h5 := abs_le.mp ((abs_pow x 5).trans_le (hp 5))
    rw [abs_le]; constructor <;> linarith [h3.1, h3.2, h4.1, h4.2, h5.1, h5.2]
  have hb' := abs_le.mp (hb.trans h6)
  have hx' := abs_le.mp hx
  rw [abs_le]
  have e : fastExp x - Real.exp x = -(1 / 3 - 0.3333333333) * (x ^ 3 / 2 + x ^ 4 / 8 + x ^ 5 / 40)
      - (Real.exp x - (1 + x + x ^ 2 / 2 + x ^ 3 / 6 + x ^ 4 / 24 + x ^ 5 / 120)) := by
    rw [← hd]; ring
  rw [e]
  constructor <;> norm_num at * <;> linarith [hb'.1, hb'.2, hx'.1, hx'.2]

example : |fastExp (-1) - Real.exp (-1)| ≤ 0.0017 := C107_fast_exp (by norm_num)

/-- **C107.**  `zpl_exp2` and `zpl_log2` undo each other; sums become products; `zpl_fast_exp2` is within 0.0017 of `zpl_exp2` for arguments between -1
and 1. -/
theorem C107_exp2 (x y : ℝ) : log2 (exp2 x) = x ∧ (0 < x → exp2 (log2 x) = x) ∧ exp2 (x + y) = exp2 x * exp2 y
    ∧ (|x| ≤ 1 → |fastExp2 x - exp2 x| ≤ 0.0017) := by
  have hl : LOG_TWO ≠ 0 := by unfold LOG_TWO; norm_num
  refine ⟨?_, fun hx => ?_, ?_, fun h => ?_⟩
  · unfold log2 exp2; rw [Real.log_exp]; field_simp
  · unfold log2 exp2
    rw [mul_div_cancel₀ _ hl, Real.exp_log hx]
  · unfold exp2; rw [← Real.exp_add]; congr 1; ring
  · unfold fastExp2 exp2
    refine C107_fast_exp ?_
    rw [abs_mul]
    have : |LOG_TWO| ≤ 1 := by unfold LOG_TWO; rw [abs_le]; norm_num
    nlinarith [abs_nonneg x, abs_nonneg LOG_TWO]

end Zpl.Math
