import Verif.Basic
import Mathlib.Analysis.Real.Sqrt
import Mathlib.Tactic.Positivity
import Mathlib.Tactic.FieldSimp
import Mathlib.Tactic.LinearCombination
import Mathlib.Tactic.Linarith

/-!
# The fast reciprocal square root (code/source/math.c:78-94)  -  C108

## Model

A `float` is given by its bits, a natural number below 2^32; the number a normal positive `float` stands for is a real number.  The bit trick of line 88
is exact integer arithmetic; the two Newton steps are computed without rounding. -/

namespace Zpl.Math

/-- The number the bits of a positive normal `float` stand for (IEEE 754 binary32: 23 bits of fraction below 8 bits of exponent). -/
noncomputable def floatOf (i : ℕ) : ℝ := (1 + ((i % 2 ^ 23 : ℕ) : ℝ) / 2 ^ 23) * (2 : ℝ) ^ (((i / 2 ^ 23 : ℕ) : ℤ) - 127)

/-- math.c:89 and 90, one step of Newton's method for the number with half `x2`. -/
noncomputable def newton (x2 t : ℝ) : ℝ := t * (1.5 - (x2 * t * t))

/-- math.c:88, the first guess: integer arithmetic on the bits. -/
def guessBits (i : ℕ) : ℕ := 0x5f375a86 - (i >>> 1)

/-- math.c:78-93 `zpl_quake_rsqrt`, of the `float` with the bits `i`. -/
noncomputable def quakeRsqrt (i : ℕ) : ℝ :=
  let a := floatOf i
  let x2 := a * 0.5
  newton x2 (newton x2 (floatOf (guessBits i)))

/-- The bits of a positive normal `float`: not zero, not a denormal, not an infinity or NaN, no sign. -/
def NormalBits (i : ℕ) : Prop := 2 ^ 23 ≤ i ∧ i < 255 * 2 ^ 23

theorem floatOf_parts (e m : ℕ) (hm : m < 2 ^ 23) : floatOf (e * 2 ^ 23 + m) = (1 + (m : ℝ) / 2 ^ 23) * (2 : ℝ) ^ ((e : ℤ) - 127) := by
  unfold floatOf
  have h1 : (e * 2 ^ 23 + m) % 2 ^ 23 = m := by omega
  have h2 : (e * 2 ^ 23 + m) / 2 ^ 23 = e := by omega
  rw [h1, h2]

theorem floatOf_pos (i : ℕ) : 0 < floatOf i := by
  unfold floatOf
  refine mul_pos ?_ (zpow_pos (by norm_num) _)
  have : (0 : ℝ) ≤ ((i % 2 ^ 23 : ℕ) : ℝ) / 2 ^ 23 := div_nonneg (Nat.cast_nonneg _) (by norm_num)
  linarith

/-- The square of the guess times the number: `w v²` for `w` from 1 to 2 and `v` falling with half the slope. -/
theorem cubic_bounds {w v S : ℝ} (lo hi w0 w1 : ℝ) (hS : w + 2 * v = S) (hw0 : w0 ≤ w) (hw1 : w ≤ w1) (h2 : w + w0 + w1 ≤ 2 * S) (hw : 0 ≤ w) (hv : 0 ≤ v)
    (hlo0 : lo ≤ w0 * (S - w0) ^ 2 / 4) (hlo1 : lo ≤ w1 * (S - w1) ^ 2 / 4) (hhi : S ^ 3 / 27 ≤ hi) : lo ≤ w * v ^ 2 ∧ w * v ^ 2 ≤ hi := by
  have hv' : v = (S - w) / 2 := by linarith
  constructor
  · rcases eq_or_lt_of_le (le_trans hw0 hw1) with h | h
    · have : w = w0 := le_antisymm (by linarith) hw0
      rw [hv', this]
      have e : w0 * ((S - w0) / 2) ^ 2 = w0 * (S - w0) ^ 2 / 4 := by ring
      rw [e]; exact hlo0
    · have h1 : 0 ≤ (w - w0) * (w1 - w) * (2 * S - (w + w0 + w1)) :=
        mul_nonneg (mul_nonneg (by linarith) (by linarith)) (by linarith)
      have h3 := mul_le_mul_of_nonneg_left hlo0 (sub_nonneg.mpr hw1)
      have h4 := mul_le_mul_of_nonneg_left hlo1 (sub_nonneg.mpr hw0)
      have key : (w1 - w0) * lo ≤ (w1 - w0) * (w * v ^ 2) := by
        have e : (w1 - w0) * (w * v ^ 2) - ((w1 - w) * (w0 * (S - w0) ^ 2 / 4) + (w - w0) * (w1 * (S - w1) ^ 2 / 4))
            = (w1 - w0) * ((w - w0) * (w1 - w) * (2 * S - (w + w0 + w1))) / 4 := by
          rw [hv']; ring
        have h5 : 0 ≤ (w1 - w0) * ((w - w0) * (w1 - w) * (2 * S - (w + w0 + w1))) / 4 := by
          have := mul_nonneg (sub_nonneg.mpr h.le) h1
          linarith
        nlinarith
      exact le_of_mul_le_mul_left key (by linarith)
  · have e : S ^ 3 / 27 - w * v ^ 2 = (w - v) ^ 2 * (w + 8 * v) / 27 := by rw [← hS]; ring
    have : 0 ≤ (w - v) ^ 2 * (w + 8 * v) / 27 := by positivity
    linarith

theorem zpow_sq (a b : ℤ) (h : a + 2 * b = c) : (2 : ℝ) ^ a * ((2 : ℝ) ^ b) ^ 2 = (2 : ℝ) ^ c := by
  rw [← zpow_natCast, ← zpow_mul, ← zpow_add₀ (by norm_num)]
  congr 1; push_cast; omega

theorem sum_bounds {S : ℝ} (w : ℝ) (hw : 0 ≤ w) (l u : ℝ) (h0 : l ≤ S) (h1 : S ≤ u) (hl : w ≤ l) (lo hi : ℝ)
    (hlo : lo ≤ w * (l - w) ^ 2 / 4) (hhi : u ^ 3 / 27 ≤ hi) : lo ≤ w * (S - w) ^ 2 / 4 ∧ S ^ 3 / 27 ≤ hi := by
  have e1 : (l - w) ^ 2 ≤ (S - w) ^ 2 := pow_le_pow_left₀ (by linarith) (by linarith) 2
  have e2 : S ^ 3 ≤ u ^ 3 := pow_le_pow_left₀ (by linarith) h1 3
  have e3 := mul_le_mul_of_nonneg_left e1 hw
  constructor <;> linarith

/-- The three cases of the guess, on real numbers: `c` is the fraction of the magic constant, `x` the fraction of the number and `y` its half. -/
theorem guess_case {x y : ℝ} (c w0 w1 lo hi : ℝ) (hx0 : w0 ≤ 1 + x) (hx1 : 1 + x ≤ w1) (hw0 : 1 ≤ w0) (hw1 : w1 ≤ 2)
    (hy0 : 2 * y ≤ x) (hy1 : x ≤ 2 * y + 0.000001) (hc : 1 ≤ c)
    (h1 : lo ≤ w0 * (1 + 2 * c - w0) ^ 2 / 4) (h2 : lo ≤ w1 * (1 + 2 * c - w1) ^ 2 / 4) (h3 : (1 + 2 * c + 0.000001) ^ 3 / 27 ≤ hi) :
    lo ≤ (1 + x) * (c - y) ^ 2 ∧ (1 + x) * (c - y) ^ 2 ≤ hi := by
  have s0 : 1 + 2 * c ≤ 1 + x + 2 * (c - y) := by linarith
  have s1 : 1 + x + 2 * (c - y) ≤ 1 + 2 * c + 0.000001 := by linarith
  exact cubic_bounds lo hi w0 w1 rfl hx0 hx1 (by linarith) (by linarith) (by linarith)
    (sum_bounds w0 (by linarith) _ _ s0 s1 (by linarith) lo hi h1 h3).1
    (sum_bounds w1 (by linarith) _ _ s0 s1 (by linarith) lo hi h2 h3).1
    (sum_bounds w1 (by linarith) _ _ s0 s1 (by linarith) lo hi h2 h3).2

/-- The first guess is within 3.5 percent. -/
theorem guess_bounds (i : ℕ) (h : NormalBits i) :
    0.9323 ≤ floatOf i * floatOf (guessBits i) ^ 2 ∧ floatOf i * floatOf (guessBits i) ^ 2 ≤ 1.0693 := by
  obtain ⟨h0, h1⟩ := h
  obtain ⟨e, m, hm, rfl⟩ : ∃ e m, m < 2 ^ 23 ∧ i = e * 2 ^ 23 + m := ⟨i / 2 ^ 23, i % 2 ^ 23, Nat.mod_lt _ (by norm_num), by omega⟩
  have he0 : 1 ≤ e := by omega
  have he1 : e ≤ 254 := by omega
  have hg : guessBits (e * 2 ^ 23 + m) = 0x5f375a86 - (e * 2 ^ 23 + m) / 2 := by
    unfold guessBits; rw [Nat.shiftRight_eq_div_pow]
  rw [hg, floatOf_parts e m hm]
  -- half the fraction, rounded down
  obtain ⟨q, hq⟩ : ∃ q, q = m / 2 := ⟨_, rfl⟩
  have hq0 : (2 * q : ℝ) ≤ m := by exact_mod_cast (by omega : 2 * q ≤ m)
  have hq1 : (m : ℝ) ≤ 2 * q + 1 := by exact_mod_cast (by omega : m ≤ 2 * q + 1)
  have hmr0 : (0 : ℝ) ≤ m := Nat.cast_nonneg m
  have hmr1 : (m : ℝ) ≤ 8388607 := by exact_mod_cast (by omega : m ≤ 8388607)
  have hy0 : 2 * ((q : ℝ) / 2 ^ 23) ≤ (m : ℝ) / 2 ^ 23 := by linarith
  have hy1 : (m : ℝ) / 2 ^ 23 ≤ 2 * ((q : ℝ) / 2 ^ 23) + 0.000001 := by linarith
  rcases Nat.even_or_odd' e with ⟨k, hk | hk⟩
  · subst hk
    by_cases hb : q ≤ 3627654
    · have hJ : 0x5f375a86 - (2 * k * 2 ^ 23 + m) / 2 = (190 - k) * 2 ^ 23 + (3627654 - q) := by omega
      have hqr : (q : ℝ) ≤ 3627654 := by exact_mod_cast hb
      have hb' := guess_case (x := (m : ℝ) / 2 ^ 23) (y := (q : ℝ) / 2 ^ 23) (1 + 3627654 / 2 ^ 23) 1 1.86491 1.8646 2.1386
        (by linarith) (by linarith) (by norm_num) (by norm_num) hy0 hy1
        (by norm_num) (by norm_num) (by norm_num) (by norm_num)
      rw [hJ, floatOf_parts _ _ (by omega), mul_pow, mul_mul_mul_comm, zpow_sq (c := -1) _ _ (by omega), Nat.cast_sub hb]
      rw [show (1 + ((3627654 : ℕ) - (q : ℝ)) / 2 ^ 23) = 1 + 3627654 / 2 ^ 23 - (q : ℝ) / 2 ^ 23 by push_cast; ring,
        show (2 : ℝ) ^ (-1 : ℤ) = 1 / 2 by norm_num]
      constructor <;> linarith [hb'.1, hb'.2]
    · have hJ : 0x5f375a86 - (2 * k * 2 ^ 23 + m) / 2 = (189 - k) * 2 ^ 23 + (12016262 - q) := by omega
      have hqr : (3627655 : ℝ) ≤ q := by exact_mod_cast (by omega : 3627655 ≤ q)
      have hb' := guess_case (x := (m : ℝ) / 2 ^ 23) (y := (q : ℝ) / 2 ^ 23) (1 + 12016262 / 2 ^ 23) 1.8649 2 7.4584 8.5
        (by linarith) (by linarith) (by norm_num) (by norm_num) hy0 hy1
        (by norm_num) (by norm_num) (by norm_num) (by norm_num)
      rw [hJ, floatOf_parts _ _ (by omega), mul_pow, mul_mul_mul_comm, zpow_sq (c := -3) _ _ (by omega), Nat.cast_sub (by omega)]
      rw [show (1 + ((12016262 : ℕ) - (q : ℝ)) / 2 ^ 23) = 1 + 12016262 / 2 ^ 23 - (q : ℝ) / 2 ^ 23 by push_cast; ring,
        show (2 : ℝ) ^ (-3 : ℤ) = 1 / 8 by norm_num]
      constructor <;> linarith [hb'.1, hb'.2]
  · subst hk
    have hJ : 0x5f375a86 - ((2 * k + 1) * 2 ^ 23 + m) / 2 = (189 - k) * 2 ^ 23 + (7821958 - q) := by omega
    have hb' := guess_case (x := (m : ℝ) / 2 ^ 23) (y := (q : ℝ) / 2 ^ 23) (1 + 7821958 / 2 ^ 23) 1 2 3.7292 4.2772
        (by linarith) (by linarith) (by norm_num) (by norm_num) hy0 hy1
        (by norm_num) (by norm_num) (by norm_num) (by norm_num)
    rw [hJ, floatOf_parts _ _ (by omega), mul_pow, mul_mul_mul_comm, zpow_sq (c := -2) _ _ (by omega), Nat.cast_sub (by omega)]
    rw [show (1 + ((7821958 : ℕ) - (q : ℝ)) / 2 ^ 23) = 1 + 7821958 / 2 ^ 23 - (q : ℝ) / 2 ^ 23 by push_cast; ring,
      show (2 : ℝ) ^ (-2 : ℤ) = 1 / 4 by norm_num]
    constructor <;> linarith [hb'.1, hb'.2]

/-- One Newton step on the relative error. -/
theorem newton_rel {a t : ℝ} (ha : 0 < a) :
    newton (a * 0.5) t * Real.sqrt a - 1
      = -(3 / 2 * (t * Real.sqrt a - 1) ^ 2 + 1 / 2 * (t * Real.sqrt a - 1) ^ 3) := by
  have hs := Real.mul_self_sqrt ha.le
  unfold newton
  obtain ⟨s, hse⟩ : ∃ s, s = Real.sqrt a := ⟨_, rfl⟩
  rw [← hse] at hs ⊢
  rw [← hs]; ring

theorem step_bound {d e : ℝ} (b c : ℝ) (h : |d| ≤ b) (he : e = -(3 / 2 * d ^ 2 + 1 / 2 * d ^ 3)) (hb : b ≤ 1)
    (hc : 3 / 2 * b ^ 2 + 1 / 2 * b ^ 3 ≤ c) : |e| ≤ c := by
  have h0 : 0 ≤ b := le_trans (abs_nonneg d) h
  have h2 : |d| ^ 2 ≤ b ^ 2 := pow_le_pow_left₀ (abs_nonneg d) h 2
  have h3 : |d| ^ 3 ≤ b ^ 3 := pow_le_pow_left₀ (abs_nonneg d) h 3
  rw [he, abs_neg]
  calc |3 / 2 * d ^ 2 + 1 / 2 * d ^ 3| ≤ |3 / 2 * d ^ 2| + |1 / 2 * d ^ 3| := abs_add_le _ _
    _ = 3 / 2 * |d| ^ 2 + 1 / 2 * |d| ^ 3 := by rw [abs_mul, abs_mul, abs_pow, abs_pow]; norm_num
    _ ≤ c := by linarith

theorem newton_close (i : ℕ) (h : NormalBits i) :
    |newton (floatOf i * 0.5) (floatOf (guessBits i)) * Real.sqrt (floatOf i) - 1| ≤ 0.001804 := by
  have ha := floatOf_pos i
  obtain ⟨hlo, hhi⟩ := guess_bounds i h
  have hs := Real.mul_self_sqrt ha.le
  have hs0 := Real.sqrt_nonneg (floatOf i)
  have ht := floatOf_pos (guessBits i)
  have hd0 : |floatOf (guessBits i) * Real.sqrt (floatOf i) - 1| ≤ 0.03447 := by
    obtain ⟨z, hz⟩ : ∃ z, z = floatOf (guessBits i) * Real.sqrt (floatOf i) := ⟨_, rfl⟩
    have hzz : z ^ 2 = floatOf i * floatOf (guessBits i) ^ 2 := by
      rw [hz, mul_pow, pow_two (Real.sqrt _), hs]; ring
    have hz0 : 0 ≤ z := by rw [hz]; positivity
    rw [← hzz] at hlo hhi
    rw [← hz, abs_le]
    constructor
    · by_contra hc
      push Not at hc
      nlinarith
    · by_contra hc
      push Not at hc
      nlinarith
  exact step_bound 0.03447 0.001804 hd0 (newton_rel ha) (by norm_num) (by norm_num)

/-- **C108.**  For every positive normal `float` the fast reciprocal square root is within five millionths of the exact one. -/
theorem C108_quake (i : ℕ) (h : NormalBits i) :
    |quakeRsqrt i * Real.sqrt (floatOf i) - 1| ≤ 5e-6 :=
  step_bound 0.001804 5e-6 (newton_close i h) (newton_rel (floatOf_pos i)) (by norm_num) (by norm_num)

example : NormalBits 0x3f800000 ∧ floatOf 0x3f800000 = 1 ∧ floatOf 0x40800000 = 4 := by
  refine ⟨by unfold NormalBits; omega, ?_, ?_⟩
  · have := floatOf_parts 127 0 (by norm_num); norm_num at this; exact this
  · have := floatOf_parts 129 0 (by norm_num); norm_num at this; exact this

/-- **C108.**  The result is never above the exact one: both Newton steps approach it from below. -/
theorem C108_quake_below (i : ℕ) (h : NormalBits i) : quakeRsqrt i ≤ 1 / Real.sqrt (floatOf i) := by
  have ha := floatOf_pos i
  have hs0 := Real.sqrt_pos.mpr ha
  rw [le_div_iff₀ hs0]
  have e := newton_rel (t := newton (floatOf i * 0.5) (floatOf (guessBits i))) ha
  have hn : |newton (floatOf i * 0.5) (floatOf (guessBits i)) * Real.sqrt (floatOf i) - 1| ≤ 1 := by
    exact le_trans (newton_close i h) (by norm_num)
  unfold quakeRsqrt
  obtain ⟨d, hd⟩ : ∃ d, d = newton (floatOf i * 0.5) (floatOf (guessBits i)) * Real.sqrt (floatOf i) - 1 := ⟨_, rfl⟩
  rw [← hd] at e hn
  have := abs_le.mp hn
  nlinarith [sq_nonneg d]

end Zpl.Math
