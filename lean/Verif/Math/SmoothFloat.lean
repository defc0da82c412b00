import Verif.Math.InterpFloat
import Verif.Math.RoundFloat

/-!
# The course of the smooth steps in single precision (code/source/math.c:1516-1523)  -  C145

The functions are modelled in `Math.InterpFloat`.

## Specification -/

namespace Zpl.MathF

open Math F32
open F64 (pow2 pow2_eq pow2_pos pow2_add pow2_le pow2_lt_iff logTwo logTwo_spec)

/-- The exact smooth step of a share of the way. -/
def smoothOf (x : ℚ) : ℚ := 3 * x ^ 2 - 2 * x ^ 3

/-- The exact smoother step of a share of the way. -/
def smootherOf (x : ℚ) : ℚ := 6 * x ^ 5 - 15 * x ^ 4 + 10 * x ^ 3

/-! ## Lemmas -/

/-- A difference of two numbers of the type has no error from underflow. -/
theorem sub_close {a b : ℚ} (ha : Representable a) (hb : Representable b) : |rounded (a - b) - (a - b)| ≤ |a - b| / 2 ^ 24 := by
  obtain ⟨m, e, hm, he, -, ea⟩ := ha
  obtain ⟨n, f, hn, hf, -, eb⟩ := hb
  obtain ⟨i, hi⟩ := Int.eq_ofNat_of_zero_le (show 0 ≤ e + 149 by omega)
  obtain ⟨j, hj⟩ := Int.eq_ofNat_of_zero_le (show 0 ≤ f + 149 by omega)
  have k : a - b = ((m * 2 ^ i - n * 2 ^ j : ℤ) : ℚ) * pow2 (-149) := by
    rw [ea, eb, show e = (i : ℤ) + -149 by omega, show f = (j : ℤ) + -149 by omega, pow2_add, pow2_add,
      show pow2 (i : ℤ) = 2 ^ i by rw [pow2_eq]; simp, show pow2 (j : ℤ) = 2 ^ j by rw [pow2_eq]; simp]
    push_cast
    ring
  rcases lt_or_ge |a - b| (pow2 (-125)) with h | h
  · have : |m * 2 ^ i - n * 2 ^ j| < 2 ^ 24 := by
      rw [k, abs_mul, abs_of_pos (pow2_pos _), show pow2 (-125) = 2 ^ 24 * pow2 (-149) by norm_num [pow2_eq]] at h
      have := lt_of_mul_lt_mul_right h (pow2_pos (-149)).le
      exact_mod_cast this
    rw [rounded_eq this (by norm_num) k, sub_self, abs_zero]
    positivity
  · have := rounded_error (le_refl |a - b|) ((pow2_le (by norm_num)).trans h)
    rw [show pow2 (-24) = 1 / 2 ^ 24 by norm_num [pow2_eq]] at this
    linarith

/-- The error of an operation whose result is at most `B`. -/
theorem err {q B : ℚ} (h : |q| ≤ B) (hB : 1 ≤ B) : |rounded q - q| ≤ B / 2 ^ 24 := by
  have := rounded_error h ((show pow2 (-126) ≤ 1 by norm_num [pow2_eq]).trans hB)
  rw [show pow2 (-24) = 1 / 2 ^ 24 by norm_num [pow2_eq]] at this
  linarith

/-- Below one the error is half as large. -/
theorem err_below {q : ℚ} (h0 : 0 ≤ q) (h1 : q < 1) : |rounded q - q| ≤ 1 / 2 ^ 25 := by
  rcases eq_or_lt_of_le h0 with rfl | hp
  · rw [rounded_zero, sub_zero, abs_zero]; norm_num
  · refine (rounded_near q).trans ?_
    have hl := (logTwo_spec (ne_of_gt hp)).1
    rw [abs_of_pos hp] at hl
    have : logTwo q < 0 := pow2_lt_iff.1 (lt_of_le_of_lt hl (by rw [show pow2 0 = 1 from rfl]; exact h1))
    have hpl : place q ≤ -24 := by unfold place; omega
    have := pow2_le hpl
    rw [show pow2 (-24) = 1 / 2 ^ 24 by norm_num [pow2_eq]] at this
    norm_num at this ⊢
    linarith

/-- The next number of the type after one is `2 ^ -23` away. -/
theorem to_one {q : ℚ} (h : q < 1 + 1 / 2 ^ 24) : rounded q ≤ 1 := by
  by_contra hc
  rw [not_le] at hc
  obtain ⟨m, hm⟩ := RoundF.multiple (rounded_grid q) (k := 0) (by
    rw [show pow2 0 = 1 from rfl, abs_of_pos (by linarith)]; exact hc.le)
  rw [show pow2 (0 - 23) = 1 / 2 ^ 23 by norm_num [pow2_eq]] at hm
  have h1 : (2 ^ 23 : ℤ) < m := by
    have : (2 ^ 23 : ℚ) < m := by
      rw [hm] at hc
      norm_num at hc ⊢
      linarith
    exact_mod_cast this
  have h2 : (2 ^ 23 + 1 : ℚ) ≤ m := by exact_mod_cast h1
  have h3 : 1 + 1 / 2 ^ 23 ≤ rounded q := by
    rw [hm]
    norm_num at h2 ⊢
    linarith
  have near := rounded_nearest q (m := 1) (e := 0) (by norm_num) (by norm_num)
  rw [show ((1 : ℤ) : ℚ) * pow2 0 = 1 by norm_num [pow2_eq]] at near
  rcases le_total q 1 with hq | hq
  · exact absurd (rounded_le_one hq) (not_le.2 hc)
  · rw [abs_of_nonpos (show 1 - q ≤ 0 by linarith)] at near
    have := le_abs_self (rounded q - q)
    norm_num at h h3 this near
    linarith

/-- The share of the way is close to the exact one. -/
theorem share_close {a b t : ℚ} (ha : Representable a) (hb : Representable b) (ht : Representable t) (hab : a < b) (h0 : a ≤ t) (h1 : t ≤ b) :
    |rounded (rounded (t - a) / rounded (b - a)) - (t - a) / (b - a)| ≤ 4 / 2 ^ 24 := by
  have e1 := sub_close ht ha
  have e2 := sub_close hb ha
  have p := rounded_pos_sub ha hb hab
  have n := rounded_nonneg (show 0 ≤ t - a by linarith)
  have l : rounded (t - a) ≤ rounded (b - a) := rounded_mono (by linarith)
  obtain ⟨N, hN⟩ : ∃ N, N = rounded (t - a) := ⟨_, rfl⟩
  obtain ⟨D, hD⟩ : ∃ D, D = rounded (b - a) := ⟨_, rfl⟩
  obtain ⟨v, hv⟩ : ∃ v, v = t - a := ⟨_, rfl⟩
  obtain ⟨w, hw⟩ : ∃ w, w = b - a := ⟨_, rfl⟩
  have w0 : 0 < w := by rw [hw]; linarith
  have v0 : 0 ≤ v := by rw [hv]; linarith
  have vw : v ≤ w := by rw [hv, hw]; linarith
  rw [← hv] at e1
  rw [← hw] at e2
  rw [← hv, ← hw]
  rw [← hv] at hN
  rw [← hw] at hD
  rw [← hN] at e1 ⊢
  rw [← hD] at e2 ⊢
  have p' : 0 < D := by rw [hD, hw]; exact p
  have n' : 0 ≤ N := by rw [hN, hv]; exact n
  have l' : N ≤ D := by rw [hN, hD, hv, hw]; exact l
  clear hN hD hv hw p n l h0 h1 hab
  rw [abs_of_nonneg v0] at e1
  rw [abs_of_pos w0] at e2
  have q1 : N / D ≤ 1 := by rw [div_le_one p']; exact l'
  have q0 : 0 ≤ N / D := by positivity
  have e3 := err (q := N / D) (B := 1) (by rw [abs_of_nonneg q0]; exact q1) le_rfl
  have e4 : |N / D - v / w| ≤ 5 / 2 / 2 ^ 24 := by
    rw [div_sub_div _ _ p'.ne' w0.ne', abs_div, abs_of_pos (mul_pos p' w0), div_le_iff₀ (mul_pos p' w0)]
    have : N * w - D * v = (N - v) * w - (D - w) * v := by ring
    rw [this]
    rw [abs_le] at e1 e2 ⊢
    have d1 : w * (1 - 1 / 2 ^ 24) ≤ D := by linarith [e2.1]
    have b1 : |(N - v) * w| ≤ v / 2 ^ 24 * w := by
      rw [abs_mul, abs_of_pos w0]
      exact mul_le_mul_of_nonneg_right (abs_le.2 e1) w0.le
    have b2 : |(D - w) * v| ≤ w / 2 ^ 24 * v := by
      rw [abs_mul, abs_of_nonneg v0]
      exact mul_le_mul_of_nonneg_right (abs_le.2 e2) v0
    have b3 : w * (w * (1 - 1 / 2 ^ 24)) ≤ w * D := mul_le_mul_of_nonneg_left d1 w0.le
    have b4 : w * v ≤ w * w := mul_le_mul_of_nonneg_left vw w0.le
    rw [abs_le] at b1 b2
    have ww : 0 < w * w := by positivity
    norm_num at b1 b2 b3 ⊢
    constructor <;> nlinarith
  calc _ ≤ |rounded (N / D) - N / D| + |N / D - v / w| := abs_sub_le _ _ _
    _ ≤ 4 / 2 ^ 24 := by norm_num at e3 e4 ⊢; linarith

/-- The two roundings before the last product of `zpl_smooth_step`. -/
theorem smooth_eq {a b t x : ℚ} (hx : unlerp (fin t) (fin a) (fin b) = fin x) (g : ∃ m e : ℤ, |m| < 2 ^ 24 ∧ -149 ≤ e ∧ x = m * pow2 e) (h0 : 0 ≤ x) (h1 : x ≤ 1) :
    smooth_step (fin a) (fin b) (fin t) = fin (rounded (rounded (x * x) * rounded (3 - 2 * x))) := by
  unfold unlerp at hx
  unfold smooth_step
  rw [hx]
  have big : ∀ {q : ℚ}, |q| ≤ 100 → F32.round q = fin (rounded q) := fun h => round_small (h.trans (by norm_num [pow2_eq]))
  have two : rounded (2 * x) = 2 * x := by
    obtain ⟨m, e, hm, he, rfl⟩ := g
    exact rounded_eq hm (e := e + 1) (by omega) (by rw [pow2_add, show pow2 1 = 2 from rfl]; ring)
  have xx0 : 0 ≤ x * x := by positivity
  have xx : x * x ≤ 1 := by nlinarith
  have r1 := rounded_le_one xx
  have r0 := rounded_nonneg xx0
  have d0 : 0 ≤ rounded (3 - 2 * x) := rounded_nonneg (by linarith)
  have d1 : rounded (3 - 2 * x) ≤ 3 := by
    have := rounded_mono (show 3 - 2 * x ≤ 3 by linarith)
    rwa [show rounded 3 = 3 by exact_mod_cast (rep_int (n := 3) (by norm_num)).rounded] at this
  dsimp only
  rw [mul_fin, mul_fin, big (by rw [abs_le]; constructor <;> linarith), big (by rw [abs_le]; constructor <;> linarith), two, sub_fin,
    big (by rw [abs_le]; constructor <;> linarith), mul_fin, big]
  rw [abs_le]
  constructor <;> nlinarith

/-! ## Properties -/

/-- **C145.**  `zpl_smooth_step` stays between 0 and 1 on the whole way, and is within `2 ^ -20` of the exact smooth step. -/
theorem C145_smooth_course {a b t : ℚ} (ha : Representable a) (hb : Representable b) (ht : Representable t) (hab : a < b) (hd : b - a ≤ pow2 127)
    (h0 : a ≤ t) (h1 : t ≤ b) :
    ∃ r, smooth_step (fin a) (fin b) (fin t) = fin r ∧ 0 ≤ r ∧ r ≤ 1 ∧ |r - smoothOf ((t - a) / (b - a))| ≤ 1 / 2 ^ 20 := by
  obtain ⟨e, n0, n1⟩ := unlerp_eq ha hb hab hd h0 h1
  have cl := share_close ha hb ht hab h0 h1
  have x0 := rounded_nonneg n0
  have x1 := rounded_le_one n1
  have g := rounded_grid (rounded (t - a) / rounded (b - a))
  have s := smooth_eq e g x0 x1
  have y0 : 0 ≤ (t - a) / (b - a) := div_nonneg (by linarith) (by linarith)
  have y1 : (t - a) / (b - a) ≤ 1 := by rw [div_le_one (by linarith)]; linarith
  obtain ⟨x, hx⟩ : ∃ x, x = rounded (rounded (t - a) / rounded (b - a)) := ⟨_, rfl⟩
  obtain ⟨y, hy⟩ : ∃ y, y = (t - a) / (b - a) := ⟨_, rfl⟩
  rw [← hx] at cl x0 x1 g s
  rw [← hy] at cl y0 y1 ⊢
  clear hx hy e n0 n1
  have xx0 : 0 ≤ x * x := by positivity
  have xx1 : x * x ≤ 1 := by nlinarith
  have p0 := rounded_nonneg xx0
  have p1 := rounded_le_one xx1
  have d0 : 0 ≤ rounded (3 - 2 * x) := rounded_nonneg (by linarith)
  have d1 : rounded (3 - 2 * x) ≤ 3 := by
    have := rounded_mono (show 3 - 2 * x ≤ 3 by linarith)
    rwa [show rounded 3 = 3 by exact_mod_cast (rep_int (n := 3) (by norm_num)).rounded] at this
  refine ⟨_, s, rounded_nonneg (mul_nonneg p0 d0), ?_, ?_⟩
  · rcases le_or_gt x (1 / 2) with hh | hh
    · refine rounded_le_one ?_
      have q : rounded (x * x) ≤ 1 / 4 := by
        refine rounded_le ⟨1, -2, by norm_num, by norm_num, by norm_num [pow2_eq]⟩ ?_
        nlinarith
      nlinarith
    · obtain ⟨k, hk⟩ := RoundF.multiple g (k := -1) (by rw [abs_of_nonneg x0, show pow2 (-1) = 1 / 2 by norm_num [pow2_eq]]; exact hh.le)
      rw [show pow2 (-1 - 23) = 1 / 2 ^ 24 by norm_num [pow2_eq]] at hk
      have dd : rounded (3 - 2 * x) = 3 - 2 * x := by
        refine rounded_eq (m := 3 * 2 ^ 23 - k) (e := -23) ?_ (by norm_num) ?_
        · have a1 : (2 ^ 23 : ℚ) < k := by rw [hk] at hh; norm_num at hh ⊢; linarith
          have a2 : (k : ℚ) ≤ 2 ^ 24 := by rw [hk] at x1; norm_num at x1 ⊢; linarith
          have a1' : 2 ^ 23 < k := by exact_mod_cast a1
          have a2' : k ≤ 2 ^ 24 := by exact_mod_cast a2
          rw [abs_lt]
          constructor <;> omega
        · rw [hk, show pow2 (-23) = 1 / 2 ^ 23 by norm_num [pow2_eq]]
          push_cast
          ring
      rw [dd]
      rcases eq_or_lt_of_le x1 with rfl | hlt
      · refine rounded_le_one ?_
        rw [one_mul] at p1 ⊢
        linarith
      · refine to_one ?_
        have er := (abs_le.1 (err_below xx0 (by nlinarith))).2
        have id : x * x * (3 - 2 * x) = 1 - (1 - x) ^ 2 * (1 + 2 * x) := by ring
        have pos : 0 < (1 - x) ^ 2 * (1 + 2 * x) := by
          have : 0 < 1 - x := by linarith
          positivity
        have : rounded (x * x) * (3 - 2 * x) ≤ (x * x + 1 / 2 ^ 25) * (3 - 2 * x) := mul_le_mul_of_nonneg_right (by linarith) (by linarith)
        norm_num at this ⊢
        nlinarith
  · have e1 := err (q := x * x) (B := 1) (by rw [abs_of_nonneg xx0]; exact xx1) le_rfl
    have e2 := err (q := 3 - 2 * x) (B := 3) (by rw [abs_of_nonneg (by linarith)]; linarith) (by norm_num)
    have m3 : rounded (x * x) * rounded (3 - 2 * x) ≤ 3 := by nlinarith
    have e3 := err (q := rounded (x * x) * rounded (3 - 2 * x)) (B := 3) (by rw [abs_of_nonneg (mul_nonneg p0 d0)]; exact m3) (by norm_num)
    have e4 : |rounded (x * x) * rounded (3 - 2 * x) - x * x * (3 - 2 * x)| ≤ 6 / 2 ^ 24 := by
      have : rounded (x * x) * rounded (3 - 2 * x) - x * x * (3 - 2 * x) =
          (rounded (x * x) - x * x) * rounded (3 - 2 * x) + x * x * (rounded (3 - 2 * x) - (3 - 2 * x)) := by ring
      rw [this]
      refine (abs_add_le _ _).trans ?_
      rw [abs_mul, abs_mul, abs_of_nonneg d0, abs_of_nonneg xx0]
      have := mul_le_mul e1 d1 d0 (by norm_num)
      have := mul_le_mul xx1 e2 (abs_nonneg _) (by norm_num)
      norm_num at *
      linarith
    have e5 : |x * x * (3 - 2 * x) - smoothOf y| ≤ 3 / 2 * (4 / 2 ^ 24) := by
      have : x * x * (3 - 2 * x) - smoothOf y = (x - y) * (3 * (x + y) - 2 * (x * x + x * y + y * y)) := by unfold smoothOf; ring
      rw [this, abs_mul]
      have b : |3 * (x + y) - 2 * (x * x + x * y + y * y)| ≤ 3 / 2 := by
        rw [abs_le]
        constructor
        · nlinarith [mul_nonneg x0 (sub_nonneg.2 x1), mul_nonneg y0 (sub_nonneg.2 y1), mul_nonneg x0 (sub_nonneg.2 y1), mul_nonneg y0 (sub_nonneg.2 x1)]
        · nlinarith [sq_nonneg (x - y), sq_nonneg (x + y - 1)]
      rw [mul_comm]
      exact mul_le_mul b cl (abs_nonneg _) (by norm_num)
    have := abs_sub_le (rounded (rounded (x * x) * rounded (3 - 2 * x))) (rounded (x * x) * rounded (3 - 2 * x)) (smoothOf y)
    have := abs_sub_le (rounded (x * x) * rounded (3 - 2 * x)) (x * x * (3 - 2 * x)) (smoothOf y)
    norm_num at *
    linarith

/-- **C145, deviation.**  On the way from 0 to 1 `zpl_smooth_step` goes back. -/
theorem C145_smooth_goes_back : ∃ t u r s, Representable t ∧ Representable u ∧ 0 < t ∧ t < u ∧ u < 1 ∧
    smooth_step (fin 0) (fin 1) (fin t) = fin r ∧ smooth_step (fin 0) (fin 1) (fin u) = fin s ∧ s < r :=
  ⟨(2 ^ 24 - 199972) / 2 ^ 24, (2 ^ 24 - 199971) / 2 ^ 24, 16770123 / 2 ^ 24, 16770122 / 2 ^ 24,
    ⟨2 ^ 24 - 199972, -24, by norm_num, by norm_num, by norm_num, by norm_num [pow2_eq]⟩,
    ⟨2 ^ 24 - 199971, -24, by norm_num, by norm_num, by norm_num, by norm_num [pow2_eq]⟩, by norm_num, by norm_num, by norm_num,
    by decide +kernel, by decide +kernel, by norm_num⟩

theorem slope_one {y : ℚ} (y0 : 0 ≤ y) (y1 : y ≤ 1) : 3 * y ^ 2 * (y * (6 * y - 15) + 10) ≤ 5 := by
  nlinarith [mul_nonneg y0 (sub_nonneg.2 y1), sq_nonneg (y - 3/4), sq_nonneg (y * (y - 3/4)), mul_nonneg (mul_nonneg y0 (sub_nonneg.2 y1)) (sq_nonneg (y - 3/4)), mul_nonneg y0 (sq_nonneg (y - 3/4)), mul_nonneg (sub_nonneg.2 y1) (sq_nonneg (y - 3/4))]

theorem slope_two {y : ℚ} (y0 : 0 ≤ y) (y1 : y ≤ 1) : y ^ 3 * (15 - 12 * y) ≤ 4 := by
  nlinarith [mul_nonneg y0 (sub_nonneg.2 y1), sq_nonneg (y - 15/16), sq_nonneg (y * (y - 15/16)), mul_nonneg (mul_nonneg y0 (sub_nonneg.2 y1)) (sq_nonneg (y - 15/16)), mul_nonneg y0 (sq_nonneg (y - 15/16)), sq_nonneg (y^2 - 1)]

/-- The smoother step changes at most nine times as fast as its argument. -/
theorem smoother_slope {x y : ℚ} (x0 : 0 ≤ x) (xy : x ≤ y) (y1 : y ≤ 1) : |smootherOf x - smootherOf y| ≤ 9 * (y - x) := by
  have y0 := x0.trans xy
  have x1 := xy.trans y1
  have s1 := slope_one y0 y1
  have s2 := slope_two x0 x1
  have T0 : 0 ≤ y * (6 * y - 15) + 10 := by nlinarith
  have id : smootherOf y - smootherOf x = (y - x) * ((x * x + x * y + y * y) * (y * (6 * y - 15) + 10) - x ^ 3 * (15 - 6 * (x + y))) := by
    unfold smootherOf; ring
  have k1 : (x * x + x * y + y * y) * (y * (6 * y - 15) + 10) ≤ 3 * y ^ 2 * (y * (6 * y - 15) + 10) := mul_le_mul_of_nonneg_right (by nlinarith) T0
  have k0 : 0 ≤ (x * x + x * y + y * y) * (y * (6 * y - 15) + 10) := by positivity
  have x3 : 0 ≤ x ^ 3 := by positivity
  have j0 : 0 ≤ x ^ 3 * (15 - 6 * (x + y)) := mul_nonneg x3 (by linarith)
  have j1 : x ^ 3 * (15 - 6 * (x + y)) ≤ x ^ 3 * (15 - 12 * x) := mul_le_mul_of_nonneg_left (by linarith) x3
  have d : 0 ≤ y - x := by linarith
  rw [abs_sub_comm, id, abs_mul, abs_of_nonneg d, mul_comm]
  refine mul_le_mul_of_nonneg_right ?_ d
  rw [abs_le]
  constructor <;> linarith

theorem smoother_eq {a b t x : ℚ} (hx : unlerp (fin t) (fin a) (fin b) = fin x) (h0 : 0 ≤ x) (h1 : x ≤ 1) :
    ∃ r, smoother_step (fin a) (fin b) (fin t) = fin r ∧ 0 ≤ r ∧ |r - smootherOf x| ≤ 90 / 2 ^ 24 := by
  unfold unlerp at hx
  unfold smoother_step
  rw [hx]
  have big : ∀ {q : ℚ}, |q| ≤ 100 → F32.round q = fin (rounded q) := fun h => round_small (h.trans (by norm_num [pow2_eq]))
  have xx0 : 0 ≤ x * x := by positivity
  have xx1 : x * x ≤ 1 := by nlinarith
  dsimp only
  rw [mul_fin, mul_fin, big (by rw [abs_le]; constructor <;> linarith), big (by rw [abs_le]; constructor <;> linarith)]
  have e1 := err (q := x * x) (B := 1) (by rw [abs_of_nonneg xx0]; exact xx1) le_rfl
  have e2 := err (q := 6 * x) (B := 6) (by rw [abs_le]; constructor <;> linarith) (by norm_num)
  have p0 := rounded_nonneg xx0
  have p1 := rounded_le_one xx1
  have c0 : 0 ≤ rounded (6 * x) := rounded_nonneg (by linarith)
  have c1 : rounded (6 * x) ≤ 6 := by
    have := rounded_mono (show 6 * x ≤ 6 by linarith)
    rwa [show rounded 6 = 6 by exact_mod_cast (rep_int (n := 6) (by norm_num)).rounded] at this
  obtain ⟨p, hp⟩ : ∃ p, p = rounded (x * x) := ⟨_, rfl⟩
  obtain ⟨c, hc⟩ : ∃ c, c = rounded (6 * x) := ⟨_, rfl⟩
  rw [← hp] at e1 p0 p1 ⊢
  rw [← hc] at e2 c0 c1 ⊢
  clear hp hc hx
  have px0 : 0 ≤ p * x := by positivity
  have px1 : p * x ≤ 1 := by nlinarith
  rw [mul_fin, sub_fin, big (by rw [abs_le]; constructor <;> linarith), big (by rw [abs_le]; constructor <;> linarith)]
  have e3 := err (q := p * x) (B := 1) (by rw [abs_of_nonneg px0]; exact px1) le_rfl
  have e4 := err (q := c - 15) (B := 15) (by rw [abs_le]; constructor <;> linarith) (by norm_num)
  have z0 := rounded_nonneg px0
  have z1 := rounded_le_one px1
  have d0 : -15 ≤ rounded (c - 15) := by
    have := rounded_mono (show -15 ≤ c - 15 by linarith)
    rwa [show rounded (-15) = -15 by exact_mod_cast (rep_int (n := -15) (by norm_num)).rounded] at this
  have d1 : rounded (c - 15) ≤ 0 := by
    have := rounded_mono (show c - 15 ≤ 0 by linarith)
    rwa [rounded_zero] at this
  obtain ⟨z, hz⟩ : ∃ z, z = rounded (p * x) := ⟨_, rfl⟩
  obtain ⟨d, hd⟩ : ∃ d, d = rounded (c - 15) := ⟨_, rfl⟩
  rw [← hz] at e3 z0 z1 ⊢
  rw [← hd] at e4 d0 d1 ⊢
  clear hz hd
  have xd0 : -15 ≤ x * d := by nlinarith
  have xd1 : x * d ≤ 0 := by nlinarith
  rw [mul_fin, big (by rw [abs_le]; constructor <;> linarith)]
  have e5 := err (q := x * d) (B := 15) (by rw [abs_le]; constructor <;> linarith) (by norm_num)
  have f0 : -15 ≤ rounded (x * d) := by
    have := rounded_mono xd0
    rwa [show rounded (-15) = -15 by exact_mod_cast (rep_int (n := -15) (by norm_num)).rounded] at this
  have f1 : rounded (x * d) ≤ 0 := by
    have := rounded_mono xd1
    rwa [rounded_zero] at this
  obtain ⟨f, hf⟩ : ∃ f, f = rounded (x * d) := ⟨_, rfl⟩
  rw [← hf] at e5 f0 f1 ⊢
  clear hf
  rw [add_fin, big (by rw [abs_le]; constructor <;> linarith)]
  have e6 := err (q := f + 10) (B := 10) (by rw [abs_le]; constructor <;> linarith) (by norm_num)
  have dx : |d - (6 * x - 15)| ≤ 21 / 2 ^ 24 := by
    have := abs_sub_le d (c - 15) (6 * x - 15)
    rw [show c - 15 - (6 * x - 15) = c - 6 * x by ring] at this
    norm_num at *
    linarith
  have fx : |f - x * (6 * x - 15)| ≤ 36 / 2 ^ 24 := by
    have h2 := abs_sub_le f (x * d) (x * (6 * x - 15))
    rw [← mul_sub, abs_mul, abs_of_nonneg h0] at h2
    have := mul_le_mul h1 dx (abs_nonneg _) (by norm_num)
    norm_num at *
    linarith
  have m1 : 1 ≤ x * (6 * x - 15) + 10 := by nlinarith [mul_nonneg (sub_nonneg.2 h1) (sub_nonneg.2 h1)]
  have g0 : 0 ≤ rounded (f + 10) := rounded_nonneg (by have := (abs_le.1 fx).1; norm_num at this; linarith)
  have g1 : rounded (f + 10) ≤ 10 := by
    have := rounded_mono (show f + 10 ≤ 10 by linarith)
    rwa [show rounded 10 = 10 by exact_mod_cast (rep_int (n := 10) (by norm_num)).rounded] at this
  obtain ⟨g, hg⟩ : ∃ g, g = rounded (f + 10) := ⟨_, rfl⟩
  rw [← hg] at e6 g0 g1 ⊢
  clear hg
  have zg0 : 0 ≤ z * g := by positivity
  have zg1 : z * g ≤ 10 := by nlinarith
  rw [mul_fin, big (by rw [abs_le]; constructor <;> linarith)]
  have e7 := err (q := z * g) (B := 10) (by rw [abs_of_nonneg zg0]; exact zg1) (by norm_num)
  refine ⟨_, rfl, rounded_nonneg zg0, ?_⟩
  have gx : |g - (x * (6 * x - 15) + 10)| ≤ 46 / 2 ^ 24 := by
    have := abs_sub_le g (f + 10) (x * (6 * x - 15) + 10)
    rw [show f + 10 - (x * (6 * x - 15) + 10) = f - x * (6 * x - 15) by ring] at this
    norm_num at *
    linarith
  have zx : |z - x * x * x| ≤ 2 / 2 ^ 24 := by
    have h2 := abs_sub_le z (p * x) (x * x * x)
    rw [← sub_mul, abs_mul, abs_of_nonneg h0] at h2
    have := mul_le_mul e1 h1 h0 (by norm_num)
    norm_num at *
    linarith
  have x3 : 0 ≤ x * x * x := by positivity
  have x31 : x * x * x ≤ 1 := by nlinarith
  have e8 : |z * g - smootherOf x| ≤ 66 / 2 ^ 24 := by
    have : z * g - smootherOf x = (z - x * x * x) * g + x * x * x * (g - (x * (6 * x - 15) + 10)) := by unfold smootherOf; ring
    rw [this]
    refine (abs_add_le _ _).trans ?_
    rw [abs_mul, abs_mul, abs_of_nonneg g0, abs_of_nonneg x3]
    have := mul_le_mul zx g1 g0 (by norm_num)
    have := mul_le_mul x31 gx (abs_nonneg _) (by norm_num)
    norm_num at *
    linarith
  have := abs_sub_le (rounded (z * g)) (z * g) (smootherOf x)
  norm_num at *
  linarith

/-- **C145.**  `zpl_smoother_step` is never negative on the way, and is within `2 ^ -17` of the exact smoother step. -/
theorem C145_smoother_course {a b t : ℚ} (ha : Representable a) (hb : Representable b) (ht : Representable t) (hab : a < b) (hd : b - a ≤ pow2 127)
    (h0 : a ≤ t) (h1 : t ≤ b) :
    ∃ r, smoother_step (fin a) (fin b) (fin t) = fin r ∧ 0 ≤ r ∧ |r - smootherOf ((t - a) / (b - a))| ≤ 1 / 2 ^ 17 := by
  obtain ⟨e, n0, n1⟩ := unlerp_eq ha hb hab hd h0 h1
  have cl := share_close ha hb ht hab h0 h1
  have x0 := rounded_nonneg n0
  have x1 := rounded_le_one n1
  obtain ⟨r, s, r0, er⟩ := smoother_eq e x0 x1
  refine ⟨r, s, r0, ?_⟩
  have y0 : 0 ≤ (t - a) / (b - a) := div_nonneg (by linarith) (by linarith)
  have y1 : (t - a) / (b - a) ≤ 1 := by rw [div_le_one (by linarith)]; linarith
  obtain ⟨x, hx⟩ : ∃ x, x = rounded (rounded (t - a) / rounded (b - a)) := ⟨_, rfl⟩
  obtain ⟨y, hy⟩ : ∃ y, y = (t - a) / (b - a) := ⟨_, rfl⟩
  rw [← hx] at cl x0 x1 er
  rw [← hy] at cl y0 y1 ⊢
  clear hx hy e n0 n1
  have e5 : |smootherOf x - smootherOf y| ≤ 9 * (4 / 2 ^ 24) := by
    rcases le_total x y with h | h
    · rw [abs_sub_comm, abs_of_nonneg (by linarith)] at cl
      have := smoother_slope x0 h y1
      linarith
    · rw [abs_of_nonneg (by linarith)] at cl
      have := smoother_slope y0 h x1
      rw [abs_sub_comm]
      linarith
  have := abs_sub_le r (smootherOf x) (smootherOf y)
  norm_num at *
  linarith

/-- **C145, deviation.**  On the way from 0 to 1 `zpl_smoother_step` goes over 1, and back. -/
theorem C145_smoother_over : ∃ t r, Representable t ∧ 0 < t ∧ t < 1 ∧ smoother_step (fin 0) (fin 1) (fin t) = fin r ∧ 1 < r :=
  ⟨0xfecfc9 / 2 ^ 24, 1 + 1 / 2 ^ 23, ⟨0xfecfc9, -24, by norm_num, by norm_num, by norm_num, by norm_num [pow2_eq]⟩, by norm_num, by norm_num,
    by decide +kernel, by norm_num⟩

/-- A tenth to seven, at one. -/
example : ∃ r, smooth_step (fin (0xcccccd / 2 ^ 27)) (fin 7) (fin 1) = fin r ∧ 0 ≤ r ∧ r ≤ 1 ∧
    |r - smoothOf ((1 - 0xcccccd / 2 ^ 27) / (7 - 0xcccccd / 2 ^ 27))| ≤ 1 / 2 ^ 20 :=
  C145_smooth_course rep_tenth (by exact_mod_cast rep_int (n := 7) (by norm_num)) rep_one (by norm_num) (by norm_num [pow2_eq]) (by norm_num) (by norm_num)

end Zpl.MathF
