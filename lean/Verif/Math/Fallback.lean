import Verif.Basic
import Mathlib.Analysis.SpecialFunctions.Trigonometric.Arctan
import Mathlib.Analysis.SpecialFunctions.Pow.Real
import Mathlib.Analysis.Complex.ExponentialBounds
import Mathlib.Tactic.Positivity
import Mathlib.Tactic.FieldSimp
import Mathlib.Tactic.LinearCombination
import Mathlib.Tactic.Linarith

/-!
# The functions used without a C mathematics library (code/source/math.c:95-209)  -  C109

## Model

With `ZPL_NO_MATH_H` and a Microsoft compiler the library computes angles and powers itself.  The rational approximation `zpl_arctan` (150-157) and the bit
trick `zpl_exp` (176-184) stand for the arc tangent and the exponential function of the real numbers, `ZPL_TAU_OVER_2` for pi; the arithmetic is exact.  Dividing
by zero, which happens only for the origin, is excluded by hypotheses. -/

namespace Zpl.Math.Fallback

/-- math.c:156-170 `zpl_arctan2`. -/
noncomputable def arctan2 (y x : ℝ) : ℝ :=
  if |x| > |y| then
    let a := Real.arctan (y / x)
    if x > 0 then a
    else if y > 0 then a + Real.pi else a - Real.pi
  else
    let a := Real.arctan (x / y)
    if x > 0 then
      if y > 0 then Real.pi / 2 - a else -(Real.pi / 2) - a
    else
      if y > 0 then Real.pi / 2 + a else -(Real.pi / 2) + a

/-- math.c:144 `zpl_arcsin`. -/
noncomputable def arcsin (a : ℝ) : ℝ := arctan2 a (Real.sqrt ((1 + a) * (1 - a)))
/-- math.c:145 `zpl_arccos`. -/
noncomputable def arccos (a : ℝ) : ℝ := arctan2 (Real.sqrt ((1 + a) * (1 - a))) a

/-- math.c:101-111 `zpl_sin`. -/
noncomputable def sin (a : ℝ) : ℝ :=
  1.91059300966915117e-31 + a * (1.00086760103908896 + a * (-1.21276126894734565e-2 + a * (-1.38078780785773762e-1 + a * (-2.67353392911981221e-2
    + a * (2.08026600266304389e-2 + a * (-3.03996055049204407e-3 + a * 1.38235642404333740e-4))))))

/-- math.c:201-205, the loop of `zpl_pow`: the exponent `e`, the square `a`, the result so far `r`. -/
noncomputable def powLoop : ℕ → ℕ → ℝ → ℝ → Except Fault ℝ
  | 0, _, _, _ => .error .diverge
  | fuel + 1, e, a, r =>
    if e = 0 then .ok r
    else powLoop fuel (e >>> 1) (a * a) (if e &&& 1 = 1 then r * a else r)

/-- math.c:190-209 `zpl_pow`; `(int)b` is undefined when it does not fit. -/
noncomputable def pow (a b : ℝ) : Except Fault ℝ := do
  let flipped := decide (b < 0)
  let b := if b < 0 then -b else b
  let e := ⌊b⌋₊
  if 2 ^ 31 ≤ e then .error .arith
  else
    let f := Real.exp (b - e)
    let r ← powLoop 32 e a 1
    let r := r * f
    pure (if flipped then 1 / r else r)

/-! ## Specification -/

/-- `θ` is the direction of the point `(x, y)`: the point is `θ` around from the first axis, at its own distance from the origin. -/
def Direction (x y θ : ℝ) : Prop :=
  -Real.pi < θ ∧ θ ≤ Real.pi ∧ x = Real.sqrt (x ^ 2 + y ^ 2) * Real.cos θ ∧ y = Real.sqrt (x ^ 2 + y ^ 2) * Real.sin θ

/-! ## Angles -/

theorem sqrt_ratio {x y : ℝ} (hx : 0 < x) : Real.sqrt (x ^ 2 + y ^ 2) = x * Real.sqrt (1 + (y / x) ^ 2) := by
  have : x ^ 2 + y ^ 2 = x ^ 2 * (1 + (y / x) ^ 2) := by field_simp
  rw [this, Real.sqrt_mul (sq_nonneg x), Real.sqrt_sq hx.le]

theorem arctan_polar {x y : ℝ} (hx : 0 < x) :
    x = Real.sqrt (x ^ 2 + y ^ 2) * Real.cos (Real.arctan (y / x)) ∧ y = Real.sqrt (x ^ 2 + y ^ 2) * Real.sin (Real.arctan (y / x)) := by
  have h : 0 < Real.sqrt (1 + (y / x) ^ 2) := Real.sqrt_pos.mpr (by positivity)
  rw [sqrt_ratio hx, Real.cos_arctan, Real.sin_arctan]
  constructor <;> field_simp

theorem arctan_lt_zero' {t : ℝ} (h : t < 0) : Real.arctan t < 0 := by
  rw [← Real.arctan_zero]; exact Real.arctan_strictMono h
theorem zero_lt_arctan' {t : ℝ} (h : 0 < t) : 0 < Real.arctan t := by
  rw [← Real.arctan_zero]; exact Real.arctan_strictMono h

/-- **C109.**  `zpl_arctan2` gives the direction of the point, when the point is not on the negative first axis and is nearer to the first axis than to the second
or is not left of the second. -/
theorem C109_arctan2_partial {x y : ℝ} (h : (|y| < |x| ∧ (0 < x ∨ y ≠ 0)) ∨ (0 ≤ x ∧ y ≠ 0)) : Direction x y (arctan2 y x) := by
  have hpi := Real.pi_pos
  unfold arctan2
  by_cases hxy : |x| > |y|
  · rw [if_pos hxy]
    dsimp only
    by_cases hx : x > 0
    · rw [if_pos hx]
      have := Real.neg_pi_div_two_lt_arctan (y / x)
      have := Real.arctan_lt_pi_div_two (y / x)
      exact ⟨by linarith, by linarith, arctan_polar hx⟩
    · rw [if_neg hx]
      have hx0 : x ≠ 0 := by rintro rfl; rw [abs_zero] at hxy; exact absurd hxy (not_lt.mpr (abs_nonneg y))
      have hxn : x < 0 := lt_of_le_of_ne (not_lt.mp hx) hx0
      have hp := arctan_polar (x := -x) (y := -y) (by linarith)
      rw [neg_div_neg_eq, neg_sq, neg_sq] at hp
      have hy : y ≠ 0 := by
        rcases h with ⟨-, h | h⟩ | h
        · exact absurd h hx
        · exact h
        · exact h.2
      rcases lt_or_gt_of_ne hy with hyn | hyp
      · have ha := zero_lt_arctan' (div_pos_of_neg_of_neg hyn hxn)
        have := Real.arctan_lt_pi_div_two (y / x)
        rw [if_neg (not_lt.mpr hyn.le)]
        refine ⟨by linarith, by linarith, ?_, ?_⟩
        · rw [Real.cos_sub_pi]; linarith [hp.1]
        · rw [Real.sin_sub_pi]; linarith [hp.2]
      · have ha := arctan_lt_zero' (div_neg_of_pos_of_neg hyp hxn)
        have := Real.neg_pi_div_two_lt_arctan (y / x)
        rw [if_pos hyp]
        refine ⟨by linarith, by linarith, ?_, ?_⟩
        · rw [Real.cos_add_pi]; linarith [hp.1]
        · rw [Real.sin_add_pi]; linarith [hp.2]
  · rw [if_neg hxy]
    dsimp only
    have hx : 0 ≤ x ∧ y ≠ 0 := by
      rcases h with h | h
      · exact absurd h.1 hxy
      · exact h
    obtain ⟨hx, hy⟩ := hx
    have hlt := Real.arctan_lt_pi_div_two (x / y)
    have hgt := Real.neg_pi_div_two_lt_arctan (x / y)
    rcases lt_or_gt_of_ne hy with hyn | hyp
    · have hp := arctan_polar (x := -y) (y := x) (by linarith)
      rw [neg_sq, add_comm (y ^ 2), div_neg, Real.arctan_neg, Real.sin_neg, Real.cos_neg] at hp
      rw [if_neg (not_lt.mpr hyn.le), if_neg (not_lt.mpr hyn.le)]
      have ha : Real.arctan (x / y) ≤ 0 := by
        rcases eq_or_lt_of_le hx with h0 | h0
        · rw [← h0, zero_div, Real.arctan_zero]
        · exact (arctan_lt_zero' (div_neg_of_pos_of_neg h0 hyn)).le
      by_cases hx' : x > 0
      · rw [if_pos hx']
        refine ⟨by linarith, by linarith, ?_, ?_⟩
        · rw [show -(Real.pi / 2) - Real.arctan (x / y) = -(Real.arctan (x / y) + Real.pi / 2) by ring, Real.cos_neg, Real.cos_add_pi_div_two]
          linarith [hp.2]
        · rw [show -(Real.pi / 2) - Real.arctan (x / y) = -(Real.arctan (x / y) + Real.pi / 2) by ring, Real.sin_neg, Real.sin_add_pi_div_two]
          linarith [hp.1]
      · have h0 : x = 0 := le_antisymm (not_lt.mp hx') hx
        subst h0
        rw [if_neg hx', zero_div, Real.arctan_zero, add_zero]
        refine ⟨by linarith, by linarith, by simp, ?_⟩
        rw [Real.sin_neg, Real.sin_pi_div_two]
        rw [zero_pow (by norm_num), zero_add, Real.sqrt_sq_eq_abs, abs_of_neg hyn]; ring
    · have hp := arctan_polar (x := y) (y := x) hyp
      rw [add_comm (y ^ 2)] at hp
      rw [if_pos hyp, if_pos hyp]
      have ha : 0 ≤ Real.arctan (x / y) := by
        rcases eq_or_lt_of_le hx with h0 | h0
        · rw [← h0, zero_div, Real.arctan_zero]
        · exact (zero_lt_arctan' (div_pos h0 hyp)).le
      by_cases hx' : x > 0
      · rw [if_pos hx']
        refine ⟨by linarith, by linarith, ?_, ?_⟩
        · rw [Real.cos_pi_div_two_sub]; exact hp.2
        · rw [Real.sin_pi_div_two_sub]; exact hp.1
      · have h0 : x = 0 := le_antisymm (not_lt.mp hx') hx
        subst h0
        rw [if_neg hx', zero_div, Real.arctan_zero, add_zero]
        refine ⟨by linarith, by linarith, by simp, ?_⟩
        rw [Real.sin_pi_div_two]
        rw [zero_pow (by norm_num), zero_add, Real.sqrt_sq_eq_abs, abs_of_pos hyp]; ring

example : Direction (-2) 1 (arctan2 1 (-2)) := C109_arctan2_partial (Or.inl ⟨by norm_num, Or.inr (by norm_num)⟩)

/-- **C109 (the code disagrees).**  For a point left of the second axis and not nearer to the first axis than to the second, `zpl_arctan2` gives the direction of the
mirror image on the right. -/
theorem C109_arctan2_mirrored {x y : ℝ} (hx : x < 0) (h : |x| ≤ |y|) : arctan2 y x = arctan2 y (-x) ∧ Direction (-x) y (arctan2 y x)
    ∧ ¬ Direction x y (arctan2 y x) := by
  have hy : y ≠ 0 := by rintro rfl; rw [abs_zero] at h; exact absurd (abs_nonpos_iff.mp h) hx.ne
  have he : arctan2 y x = arctan2 y (-x) := by
    unfold arctan2
    have h' : ¬ |(-x)| > |y| := by rw [abs_neg]; exact not_lt.mpr h
    rw [if_neg (not_lt.mpr h), if_neg h']
    dsimp only
    rw [if_neg (not_lt.mpr hx.le), if_pos (by linarith : -x > 0), neg_div, Real.arctan_neg]
    split <;> ring
  have hd : Direction (-x) y (arctan2 y x) := by
    rw [he]; exact C109_arctan2_partial (Or.inr ⟨by linarith, hy⟩)
  refine ⟨he, hd, fun hc => ?_⟩
  have h1 := hd.2.2.1
  have h2 := hc.2.2.1
  rw [neg_sq] at h1
  linarith

example : arctan2 1 (-1) = Real.pi / 4 := by
  rw [(C109_arctan2_mirrored (by norm_num) (by norm_num)).1]
  unfold arctan2
  norm_num
  ring

/-- **C109 (the code disagrees).**  On the negative first axis the direction comes out as minus half a turn. -/
theorem C109_arctan2_left {x : ℝ} (hx : x < 0) : arctan2 0 x = -Real.pi := by
  unfold arctan2
  rw [if_pos (by rw [abs_zero]; exact abs_pos.mpr hx.ne)]
  dsimp only
  rw [if_neg (not_lt.mpr hx.le), if_neg (lt_irrefl _), zero_div, Real.arctan_zero]
  ring

theorem direction_unit {x y θ : ℝ} (h : Direction x y θ) (h1 : x ^ 2 + y ^ 2 = 1) : x = Real.cos θ ∧ y = Real.sin θ := by
  obtain ⟨-, -, hc, hs⟩ := h
  rw [h1, Real.sqrt_one, one_mul] at hc hs
  exact ⟨hc, hs⟩

theorem unit_sq {a : ℝ} (h0 : -1 ≤ a) (h1 : a ≤ 1) : Real.sqrt ((1 + a) * (1 - a)) ^ 2 = 1 - a ^ 2 := by
  rw [Real.sq_sqrt (mul_nonneg (by linarith) (by linarith))]; ring

theorem direction_unique {x y θ φ : ℝ} (h1 : Direction x y θ) (h2 : Direction x y φ) (h0 : 0 < x ^ 2 + y ^ 2) : θ = φ := by
  have hs := Real.sqrt_pos.mpr h0
  have hc : Real.cos θ = Real.cos φ := mul_left_cancel₀ hs.ne' (h1.2.2.1.symm.trans h2.2.2.1)
  have hsn : Real.sin θ = Real.sin φ := mul_left_cancel₀ hs.ne' (h1.2.2.2.symm.trans h2.2.2.2)
  have hd : Real.cos (θ - φ) = 1 := by
    rw [Real.cos_sub, hc, hsn]; nlinarith [Real.sin_sq_add_cos_sq φ]
  rcases (Real.cos_eq_one_iff _).mp hd with ⟨n, hn⟩
  have hp := Real.pi_pos
  have a1 := h1.1
  have a2 := h1.2.1
  have b1 := h2.1
  have b2 := h2.2.1
  have n1 : (n : ℝ) < 1 := by
    by_contra hcon; push Not at hcon; nlinarith
  have n2 : (-1 : ℝ) < n := by
    by_contra hcon; push Not at hcon; nlinarith
  have n1' : n < 1 := by exact_mod_cast n1
  have n2' : -1 < n := by exact_mod_cast n2
  have n0 : n = 0 := by omega
  rw [n0] at hn
  push_cast at hn
  linarith

/-- **C109.**  `zpl_arcsin` is the arc sine on its whole range. -/
theorem C109_arcsin {a : ℝ} (h0 : -1 ≤ a) (h1 : a ≤ 1) : arcsin a = Real.arcsin a := by
  have hu := unit_sq h0 h1
  have hs0 := Real.sqrt_nonneg ((1 + a) * (1 - a))
  have hone : Real.sqrt ((1 + a) * (1 - a)) ^ 2 + a ^ 2 = 1 := by rw [hu]; ring
  have hd : Direction (Real.sqrt ((1 + a) * (1 - a))) a (arcsin a) := by
    refine C109_arctan2_partial ?_
    by_cases ha : a = 0
    · left
      subst ha
      norm_num
    · exact Or.inr ⟨hs0, ha⟩
  have hd2 : Direction (Real.sqrt ((1 + a) * (1 - a))) a (Real.arcsin a) := by
    have hp := Real.pi_pos
    refine ⟨by linarith [Real.neg_pi_div_two_le_arcsin a], by linarith [Real.arcsin_le_pi_div_two a], ?_, ?_⟩
    · rw [hone, Real.sqrt_one, one_mul, Real.cos_arcsin]; congr 1; ring
    · rw [hone, Real.sqrt_one, one_mul, Real.sin_arcsin h0 h1]
  exact direction_unique hd hd2 (by rw [hone]; norm_num)

theorem direction_arccos {a : ℝ} (h0 : -1 ≤ a) (h1 : a ≤ 1) : Direction a (Real.sqrt ((1 + a) * (1 - a))) (Real.arccos a) := by
  have hu := unit_sq h0 h1
  have hone : a ^ 2 + Real.sqrt ((1 + a) * (1 - a)) ^ 2 = 1 := by rw [hu]; ring
  have hp := Real.pi_pos
  refine ⟨by linarith [Real.arccos_nonneg a], Real.arccos_le_pi a, ?_, ?_⟩
  · rw [hone, Real.sqrt_one, one_mul, Real.cos_arccos h0 h1]
  · rw [hone, Real.sqrt_one, one_mul, Real.sin_arccos]; congr 1; ring

/-- **C109.**  `zpl_arccos` is the arc cosine for non-negative arguments and for arguments between -1 and minus the square root of a half. -/
theorem C109_arccos_partial {a : ℝ} (h0 : -1 < a) (h1 : a ≤ 1) (h : 0 ≤ a ∨ 1 / 2 < a ^ 2) : arccos a = Real.arccos a := by
  have hu := unit_sq h0.le h1
  have hs0 := Real.sqrt_nonneg ((1 + a) * (1 - a))
  have hone : a ^ 2 + Real.sqrt ((1 + a) * (1 - a)) ^ 2 = 1 := by rw [hu]; ring
  have hd : Direction a (Real.sqrt ((1 + a) * (1 - a))) (arccos a) := by
    refine C109_arctan2_partial ?_
    by_cases ha : 0 ≤ a
    · by_cases hone : a = 1
      · left; subst hone; norm_num
      · right
        exact ⟨ha, (Real.sqrt_pos.mpr (mul_pos (by linarith) (by have := lt_of_le_of_ne h1 hone; linarith))).ne'⟩
    · left
      have h2 : 1 / 2 < a ^ 2 := by
        rcases h with h | h
        · exact absurd h ha
        · exact h
      refine ⟨?_, Or.inr (Real.sqrt_pos.mpr (mul_pos (by linarith) (by linarith))).ne'⟩
      exact sq_lt_sq.mp (by rw [hu]; linarith)
  exact direction_unique hd (direction_arccos h0.le h1) (by rw [hone]; norm_num)

example : arccos (1 / 2) = Real.arccos (1 / 2) := C109_arccos_partial (by norm_num) (by norm_num) (Or.inl (by norm_num))

/-- **C109 (the code disagrees).**  For the other negative arguments `zpl_arccos` gives the angle to the other side, and for -1 the negative of the angle. -/
theorem C109_arccos_mirrored {a : ℝ} (h0 : a < 0) (h : a ^ 2 ≤ 1 / 2) : arccos a = Real.pi - Real.arccos a := by
  have hm1 : -1 < a := by nlinarith
  have hu := unit_sq hm1.le (by linarith)
  have hab : |a| ≤ |Real.sqrt ((1 + a) * (1 - a))| := sq_le_sq.mp (by rw [hu]; linarith)
  have hd := (C109_arctan2_mirrored h0 hab).2.1
  have hd2 := direction_arccos (a := -a) (by linarith) (by linarith)
  rw [show (1 + -a) * (1 - -a) = (1 + a) * (1 - a) by ring] at hd2
  have he := direction_unique hd hd2 (by nlinarith [sq_nonneg (Real.sqrt ((1 + a) * (1 - a)))])
  rw [Real.arccos_neg] at he
  exact he

/-- **C109 (the code disagrees).** -/
theorem C109_arccos_minus_one : arccos (-1) = -Real.pi := by
  unfold arccos
  norm_num
  exact C109_arctan2_left (by norm_num)

example : arccos (-1 / 2) = Real.pi - Real.arccos (-1 / 2) := C109_arccos_mirrored (by norm_num) (by norm_num)

/-! ## Sine and powers -/

/-- **C109 (the code disagrees).**  The polynomial for the sine is not odd: at -1 it is more than 0.03 away from the sine. -/
theorem C109_sin_negative : 0.03 < |sin (-1) - Real.sin (-1)| := by
  have h := Real.sin_bound (x := 1) (by norm_num)
  have h' := abs_le.mp h
  norm_num at h'
  have hs : sin (-1) < -0.92 := by unfold sin; norm_num
  rw [Real.sin_neg, lt_abs]
  right
  norm_num at hs ⊢
  linarith [h'.1, h'.2]

theorem powLoop_ok (fuel e : ℕ) (a r : ℝ) (h : e < 2 ^ fuel) : powLoop (fuel + 1) e a r = .ok (r * a ^ e) := by
  induction fuel generalizing e a r with
  | zero =>
    have : e = 0 := by omega
    subst this
    simp [powLoop]
  | succ fuel ih =>
    unfold powLoop
    split
    · next h0 => simp [h0]
    · next h0 =>
      have hh : e >>> 1 = e / 2 := by rw [Nat.shiftRight_eq_div_pow]
      rw [hh, ih _ _ _ (by rw [pow_succ] at h; omega), Nat.and_one_is_mod]
      congr 1
      have he : e = 2 * (e / 2) + e % 2 := by omega
      rcases Nat.mod_two_eq_zero_or_one e with hm | hm
      · rw [hm, if_neg (by omega)]
        conv_rhs => rw [he, hm, add_zero, pow_mul]
        rw [pow_two]
      · rw [hm, if_pos rfl]
        conv_rhs => rw [he, hm, pow_add, pow_mul, pow_one]
        rw [pow_two]; ring

/-- What `zpl_pow` computes: the whole part of the exponent is a power of the base, the rest a power of `e`. -/
theorem pow_eq (a b : ℝ) (h : |b| < 2 ^ 31) :
    pow a b = .ok (if b < 0 then 1 / (a ^ ⌊-b⌋₊ * Real.exp (-b - ⌊-b⌋₊)) else a ^ ⌊b⌋₊ * Real.exp (b - ⌊b⌋₊)) := by
  have hl : ∀ c : ℝ, 0 ≤ c → c < 2 ^ 31 → ⌊c⌋₊ < 2 ^ 31 := fun c h0 hc => (Nat.floor_lt h0).mpr (by push_cast; linarith)
  rw [abs_lt] at h
  unfold pow
  by_cases hb : b < 0
  · have := hl (-b) (by linarith) (by linarith)
    simp only [hb, if_true, decide_true, bind, Except.bind]
    rw [if_neg (by omega), powLoop_ok 31 _ _ _ this]
    simp [pure, Except.pure]
  · push Not at hb
    have := hl b hb (by linarith)
    simp only [not_lt.mpr hb, if_false, decide_false, bind, Except.bind]
    rw [if_neg (by omega), powLoop_ok 31 _ _ _ this]
    simp [pure, Except.pure]

/-- **C109.**  For a whole exponent, negative ones included, `zpl_pow` is the power. -/
theorem C109_pow_partial (a : ℝ) (n : ℤ) (h : |n| < 2 ^ 31) : pow a n = .ok (a ^ n) := by
  have h' : |(n : ℝ)| < 2 ^ 31 := by exact_mod_cast h
  rw [pow_eq a n h']
  by_cases hn : (n : ℝ) < 0
  · rw [if_pos hn]
    have hn' : n < 0 := by exact_mod_cast hn
    obtain ⟨k, hk⟩ : ∃ k : ℕ, n = -(k : ℤ) := ⟨n.natAbs, by omega⟩
    subst hk
    push_cast
    rw [neg_neg, Nat.floor_natCast, sub_self, Real.exp_zero, mul_one, zpow_neg, zpow_natCast, one_div]
  · rw [if_neg hn]
    have hn' : 0 ≤ n := by
      by_contra hc
      exact hn (by exact_mod_cast (not_le.mp hc))
    obtain ⟨k, hk⟩ : ∃ k : ℕ, n = (k : ℤ) := ⟨n.natAbs, by omega⟩
    subst hk
    push_cast
    rw [Nat.floor_natCast, sub_self, Real.exp_zero, mul_one, zpow_natCast]

example : pow 3 (-2 : ℤ) = .ok (1 / 9) := by
  rw [C109_pow_partial 3 (-2) (by norm_num)]; norm_num

/-- **C109 (the code disagrees).**  For a positive base and a positive exponent that is not whole, `zpl_pow` is the power only when the base is `e`. -/
theorem C109_pow_wrong {a b : ℝ} (ha : 0 < a) (hb : 0 < b) (hl : b < 2 ^ 31) (hn : ∀ n : ℕ, b ≠ n) :
    pow a b = .ok (a ^ b) ↔ a = Real.exp 1 := by
  rw [pow_eq a b (by rw [abs_of_pos hb]; exact hl), if_neg (not_lt.mpr hb.le)]
  have hf : 0 < b - ⌊b⌋₊ := by
    have h1 := Nat.floor_le hb.le
    have h2 := lt_of_le_of_ne h1 (fun he => hn _ he.symm)
    linarith
  have hsplit : a ^ b = a ^ ⌊b⌋₊ * a ^ (b - ⌊b⌋₊) := by
    rw [← Real.rpow_natCast, ← Real.rpow_add ha]; congr 1; ring
  rw [hsplit]
  have hp : 0 < a ^ ⌊b⌋₊ := pow_pos ha _
  constructor
  · intro h
    injection h with h
    have h2 := mul_left_cancel₀ hp.ne' h
    have h3 := congrArg Real.log h2
    rw [Real.log_exp, Real.log_rpow ha] at h3
    have h4 : Real.log a = 1 := by
      have : (b - ⌊b⌋₊) * (Real.log a - 1) = 0 := by linarith
      rcases mul_eq_zero.mp this with h | h
      · exact absurd h hf.ne'
      · linarith
    rw [← h4, Real.exp_log ha]
  · intro h
    rw [h, Real.exp_one_rpow]

example : ¬ pow 4 (1 / 2) = .ok ((4 : ℝ) ^ (1 / 2 : ℝ)) := by
  rw [C109_pow_wrong (by norm_num) (by norm_num) (by norm_num)]
  · have := Real.exp_one_lt_d9
    intro h
    rw [← h] at this
    norm_num at this
  · intro n hn
    have h2 : (1 : ℝ) = 2 * n := by linarith
    have h3 : 1 = 2 * n := by exact_mod_cast h2
    omega

end Zpl.Math.Fallback
