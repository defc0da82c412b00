import Verif.Math.Mat
import Mathlib.LinearAlgebra.CrossProduct
import Mathlib.Analysis.Real.Sqrt
import Mathlib.Tactic.Positivity

/-!
# Lengths and directions (code/source/math.c:499-575)  -  C93

## Model

`zpl_sqrt` (math.c:232 `sqrtf`) is the square root of the real numbers; the arithmetic is exact.  With MSVC `zpl_rsqrt` (98) is the processor's approximation with 12 bits; that is not modelled.  Dividing by zero, which gives an infinity or NaN in C, is excluded by a
hypothesis wherever a result is described. -/

namespace Zpl.Math

/-- math.c:231 `zpl_rsqrt`. -/
noncomputable def rsqrt (a : ℝ) : ℝ := 1 / Real.sqrt a

/-- math.c:500 `zpl_vec2_mag`. -/
noncomputable def V2.mag (v : V2 ℝ) : ℝ := Real.sqrt (v.dot v)
/-- math.c:501 `zpl_vec3_mag`. -/
noncomputable def V3.mag (v : V3 ℝ) : ℝ := Real.sqrt (v.dot v)
/-- math.c:502 `zpl_vec4_mag`. -/
noncomputable def V4.mag (v : V4 ℝ) : ℝ := Real.sqrt (v.dot v)

/-- math.c:504-507 `zpl_vec2_norm`. -/
noncomputable def V2.norm (v : V2 ℝ) : V2 ℝ := v.mul (rsqrt (v.dot v))
/-- math.c:508-511 `zpl_vec3_norm`. -/
noncomputable def V3.norm (v : V3 ℝ) : V3 ℝ := v.mul (rsqrt (v.dot v))
/-- math.c:512-515 `zpl_vec4_norm`. -/
noncomputable def V4.norm (v : V4 ℝ) : V4 ℝ := v.mul (rsqrt (v.dot v))

/-- math.c:517-523 `zpl_vec2_norm0`. -/
noncomputable def V2.norm0 (v : V2 ℝ) : V2 ℝ := if v.mag > 0 then v.div v.mag else V2.zero
/-- math.c:524-530 `zpl_vec3_norm0`. -/
noncomputable def V3.norm0 (v : V3 ℝ) : V3 ℝ := if v.mag > 0 then v.div v.mag else V3.zero
/-- math.c:531-537 `zpl_vec4_norm0`. -/
noncomputable def V4.norm0 (v : V4 ℝ) : V4 ℝ := if v.mag > 0 then v.div v.mag else V4.zero

/-- math.c:551-561 `zpl_vec2_refract`; `(float)(k >= 0.0f)` is 1 or 0. -/
noncomputable def V2.refract (i n : V2 ℝ) (eta : ℝ) : V2 ℝ :=
  let dv := n.dot i
  let k := 1 - eta * eta * (1 - dv * dv)
  ((i.mul eta).sub (n.mul (eta * dv * Real.sqrt k))).mul (if k ≥ 0 then 1 else 0)

/-- math.c:563-573 `zpl_vec3_refract`. -/
noncomputable def V3.refract (i n : V3 ℝ) (eta : ℝ) : V3 ℝ :=
  let dv := n.dot i
  let k := 1 - eta * eta * (1 - dv * dv)
  ((i.mul eta).sub (n.mul (eta * dv * Real.sqrt k))).mul (if k ≥ 0 then 1 else 0)

/-! ## Specification -/

/-- `d` has length 1 and the direction of `v`. -/
def V2.Direction (v d : V2 ℝ) : Prop := d.x ^ 2 + d.y ^ 2 = 1 ∧ ∃ k : ℝ, 0 < k ∧ v = ⟨k * d.x, k * d.y⟩
/-- `d` has length 1 and the direction of `v`. -/
def V3.Direction (v d : V3 ℝ) : Prop := d.x ^ 2 + d.y ^ 2 + d.z ^ 2 = 1 ∧ ∃ k : ℝ, 0 < k ∧ v = ⟨k * d.x, k * d.y, k * d.z⟩
/-- `d` has length 1 and the direction of `v`. -/
def V4.Direction (v d : V4 ℝ) : Prop :=
  d.x ^ 2 + d.y ^ 2 + d.z ^ 2 + d.w ^ 2 = 1 ∧ ∃ k : ℝ, 0 < k ∧ v = ⟨k * d.x, k * d.y, k * d.z, k * d.w⟩

theorem V2.dot_self_pos {v : V2 ℝ} (h : v ≠ V2.zero) : 0 < v.dot v := by
  rcases lt_or_eq_of_le (show 0 ≤ v.dot v from add_nonneg (mul_self_nonneg _) (mul_self_nonneg _)) with h' | h'
  · exact h'
  · exfalso
    apply h
    simp only [V2.dot] at h'
    have h1 := mul_self_nonneg v.x; have h2 := mul_self_nonneg v.y
    have e1 : v.x = 0 := mul_self_eq_zero.mp (by linarith)
    have e2 : v.y = 0 := mul_self_eq_zero.mp (by linarith)
    exact V2.ext' e1 e2

theorem V3.dot_self_pos {v : V3 ℝ} (h : v ≠ V3.zero) : 0 < v.dot v := by
  rcases lt_or_eq_of_le (show 0 ≤ v.dot v from add_nonneg (add_nonneg (mul_self_nonneg _) (mul_self_nonneg _)) (mul_self_nonneg _)) with h' | h'
  · exact h'
  · exfalso
    apply h
    simp only [V3.dot] at h'
    have h1 := mul_self_nonneg v.x; have h2 := mul_self_nonneg v.y; have h3 := mul_self_nonneg v.z
    have e1 : v.x = 0 := mul_self_eq_zero.mp (by linarith)
    have e2 : v.y = 0 := mul_self_eq_zero.mp (by linarith)
    have e3 : v.z = 0 := mul_self_eq_zero.mp (by linarith)
    exact V3.ext' e1 e2 e3

theorem V4.dot_self_pos {v : V4 ℝ} (h : v ≠ V4.zero) : 0 < v.dot v := by
  rcases lt_or_eq_of_le (show 0 ≤ v.dot v from add_nonneg (add_nonneg (add_nonneg (mul_self_nonneg _) (mul_self_nonneg _)) (mul_self_nonneg _)) (mul_self_nonneg _)) with h' | h'
  · exact h'
  · exfalso
    apply h
    simp only [V4.dot] at h'
    have h1 := mul_self_nonneg v.x; have h2 := mul_self_nonneg v.y; have h3 := mul_self_nonneg v.z; have h4 := mul_self_nonneg v.w
    have e1 : v.x = 0 := mul_self_eq_zero.mp (by linarith)
    have e2 : v.y = 0 := mul_self_eq_zero.mp (by linarith)
    have e3 : v.z = 0 := mul_self_eq_zero.mp (by linarith)
    have e4 : v.w = 0 := mul_self_eq_zero.mp (by linarith)
    exact V4.ext' e1 e2 e3 e4

theorem rsqrt_mul (a : ℝ) (h : 0 < a) : a * (rsqrt a * rsqrt a) = 1 ∧ Real.sqrt a * rsqrt a = 1 ∧ 0 < Real.sqrt a := by
  have hp := Real.sqrt_pos.mpr h
  have hs := Real.mul_self_sqrt (le_of_lt h)
  have h1 : Real.sqrt a * rsqrt a = 1 := mul_one_div_cancel (ne_of_gt hp)
  refine ⟨?_, h1, hp⟩
  calc a * (rsqrt a * rsqrt a) = (Real.sqrt a * Real.sqrt a) * (rsqrt a * rsqrt a) := by rw [hs]
    _ = (Real.sqrt a * rsqrt a) * (Real.sqrt a * rsqrt a) := by ring
    _ = 1 := by rw [h1, one_mul]

/-- C93: the normalised vector has length 1 and the direction of the vector, unless that is zero. -/
theorem C93_norm (v2 : V2 ℝ) (v3 : V3 ℝ) (v4 : V4 ℝ) :
    (v2 ≠ V2.zero → v2.Direction v2.norm) ∧ (v3 ≠ V3.zero → v3.Direction v3.norm) ∧ (v4 ≠ V4.zero → v4.Direction v4.norm) := by
  refine ⟨fun h => ?_, fun h => ?_, fun h => ?_⟩
  · obtain ⟨h1, h2, h3⟩ := rsqrt_mul _ (V2.dot_self_pos h)
    refine ⟨?_, Real.sqrt (v2.dot v2), h3, ?_⟩
    · simp only [V2.norm, V2.mul]; simp only [V2.dot] at h1 ⊢; linear_combination h1
    · simp only [V2.norm, V2.mul]
      apply V2.ext' <;> dsimp only
      · linear_combination -v2.x * h2
      · linear_combination -v2.y * h2
  · obtain ⟨h1, h2, h3⟩ := rsqrt_mul _ (V3.dot_self_pos h)
    refine ⟨?_, Real.sqrt (v3.dot v3), h3, ?_⟩
    · simp only [V3.norm, V3.mul]; simp only [V3.dot] at h1 ⊢; linear_combination h1
    · simp only [V3.norm, V3.mul]
      apply V3.ext' <;> dsimp only
      · linear_combination -v3.x * h2
      · linear_combination -v3.y * h2
      · linear_combination -v3.z * h2
  · obtain ⟨h1, h2, h3⟩ := rsqrt_mul _ (V4.dot_self_pos h)
    refine ⟨?_, Real.sqrt (v4.dot v4), h3, ?_⟩
    · simp only [V4.norm, V4.mul]; simp only [V4.dot] at h1 ⊢; linear_combination h1
    · simp only [V4.norm, V4.mul]
      apply V4.ext' <;> dsimp only
      · linear_combination -v4.x * h2
      · linear_combination -v4.y * h2
      · linear_combination -v4.z * h2
      · linear_combination -v4.w * h2

/-- C93: the safe variant gives the same for every vector but zero, and zero for zero. -/
theorem C93_norm0 (v2 : V2 ℝ) (v3 : V3 ℝ) (v4 : V4 ℝ) :
    (v2 ≠ V2.zero → v2.norm0 = v2.norm) ∧ (v3 ≠ V3.zero → v3.norm0 = v3.norm) ∧ (v4 ≠ V4.zero → v4.norm0 = v4.norm) ∧
    (V2.zero : V2 ℝ).norm0 = V2.zero ∧ (V3.zero : V3 ℝ).norm0 = V3.zero ∧ (V4.zero : V4 ℝ).norm0 = V4.zero := by
  refine ⟨fun h => ?_, fun h => ?_, fun h => ?_, ?_, ?_, ?_⟩
  · rw [V2.norm0, if_pos (show v2.mag > 0 from Real.sqrt_pos.mpr (V2.dot_self_pos h))]; simp only [V2.norm, V2.mul, V2.div, rsqrt, V2.mag, mul_one_div]
  · rw [V3.norm0, if_pos (show v3.mag > 0 from Real.sqrt_pos.mpr (V3.dot_self_pos h))]; simp only [V3.norm, V3.mul, V3.div, rsqrt, V3.mag, mul_one_div]
  · rw [V4.norm0, if_pos (show v4.mag > 0 from Real.sqrt_pos.mpr (V4.dot_self_pos h))]; simp only [V4.norm, V4.mul, V4.div, rsqrt, V4.mag, mul_one_div]
  · simp [V2.norm0, V2.mag, V2.dot, V2.zero]
  · simp [V3.norm0, V3.mag, V3.dot, V3.zero]
  · simp [V4.norm0, V4.mag, V4.dot, V4.zero]

section algebra

variable {K : Type} [Field K]

/-- C93: the dot products and the cross product are those of linear algebra. -/
theorem C93_dot_cross (a b : V2 K) (c d : V3 K) (e f : V4 K) :
    a.dot b = dotProduct a.toFun b.toFun ∧ c.dot d = dotProduct c.toFun d.toFun ∧ e.dot f = dotProduct e.toFun f.toFun ∧
    (c.cross d).toFun = crossProduct c.toFun d.toFun := by
  refine ⟨?_, ?_, ?_, ?_⟩
  · simp [V2.dot, V2.toFun, dotProduct, Fin.sum_univ_two]
  · simp [V3.dot, V3.toFun, dotProduct, Fin.sum_univ_three]
  · simp [V4.dot, V4.toFun, dotProduct, Fin.sum_univ_four]
  · rw [cross_apply]; funext i; fin_cases i <;> simp [V3.cross, V3.toFun]

/-- C93: the cross product is at right angles to both vectors; its length is the area they span. -/
theorem C93_cross (a b : V3 K) :
    a.dot (a.cross b) = 0 ∧ b.dot (a.cross b) = 0 ∧ (a.cross b).mag2 = a.mag2 * b.mag2 - a.dot b ^ 2 := by
  simp only [V3.dot, V3.cross, V3.mag2]
  refine ⟨?_, ?_, ?_⟩ <;> ring

/-- C93: the side of a point with respect to a line is the cross product, it changes its sign with the direction and is zero on the line. -/
theorem C93_side (p q r : V2 K) (t : K) :
    p.side q r = (q.sub p).cross (r.sub p) ∧ q.side p r = -p.side q r ∧ p.side q (p.add ((q.sub p).mul t)) = 0 := by
  refine ⟨?_, ?_, ?_⟩ <;> simp only [V2.side, V2.cross, V2.sub, V2.add, V2.mul] <;> ring1

/-- C93: reflecting on a plane with a normal of length 1 keeps the length, turns the part along the normal round and keeps the part at right angles to it; twice gives the vector back. -/
theorem C93_reflect (i n t : V3 K) (hn : n.mag2 = 1) (ht : n.dot t = 0) :
    (i.reflect n).mag2 = i.mag2 ∧ n.dot (i.reflect n) = -n.dot i ∧ t.dot (i.reflect n) = t.dot i ∧ (i.reflect n).reflect n = i := by
  simp only [V3.mag2, V3.dot] at hn ht
  simp only [V3.reflect, V3.dot, V3.mag2, V3.sub, V3.mul]
  refine ⟨?_, ?_, ?_, ?_⟩
  · linear_combination (4 * (n.x * i.x + n.y * i.y + n.z * i.z) ^ 2) * hn
  · linear_combination (-2 * (n.x * i.x + n.y * i.y + n.z * i.z)) * hn
  · linear_combination (-2 * (n.x * i.x + n.y * i.y + n.z * i.z)) * ht
  · apply V3.ext' <;> dsimp only
    · linear_combination (4 * n.x * (n.x * i.x + n.y * i.y + n.z * i.z)) * hn
    · linear_combination (4 * n.y * (n.x * i.x + n.y * i.y + n.z * i.z)) * hn
    · linear_combination (4 * n.z * (n.x * i.x + n.y * i.y + n.z * i.z)) * hn

/-- C93, in the plane. -/
theorem C93_reflect2 (i n t : V2 K) (hn : n.mag2 = 1) (ht : n.dot t = 0) :
    (i.reflect n).mag2 = i.mag2 ∧ n.dot (i.reflect n) = -n.dot i ∧ t.dot (i.reflect n) = t.dot i ∧ (i.reflect n).reflect n = i := by
  simp only [V2.mag2, V2.dot] at hn ht
  simp only [V2.reflect, V2.dot, V2.mag2, V2.sub, V2.mul]
  refine ⟨?_, ?_, ?_, ?_⟩
  · linear_combination (4 * (n.x * i.x + n.y * i.y) ^ 2) * hn
  · linear_combination (-2 * (n.x * i.x + n.y * i.y)) * hn
  · linear_combination (-2 * (n.x * i.x + n.y * i.y)) * ht
  · apply V2.ext' <;> dsimp only
    · linear_combination (4 * n.x * (n.x * i.x + n.y * i.y)) * hn
    · linear_combination (4 * n.y * (n.x * i.x + n.y * i.y)) * hn

end algebra

/-- Snell's law for the direction `r` of a ray `i` behind a surface with normal `n`: `r` has length 1, its part along the surface is `eta` times that of `i`, and it goes on to the
other side. -/
def Refracted (i n : V3 ℝ) (eta : ℝ) (r : V3 ℝ) : Prop :=
  r.mag2 = 1 ∧ (∀ t : V3 ℝ, n.dot t = 0 → t.dot r = eta * t.dot i) ∧ n.dot r ≤ 0

/-- C93: the part of the refracted ray along the surface is right, and a ray that is reflected totally gives zero. -/
theorem C93_refract_partial (i n : V3 ℝ) (eta : ℝ) :
    (0 ≤ 1 - eta * eta * (1 - n.dot i * n.dot i) → ∀ t : V3 ℝ, n.dot t = 0 → t.dot (i.refract n eta) = eta * t.dot i) ∧
    (1 - eta * eta * (1 - n.dot i * n.dot i) < 0 → i.refract n eta = V3.zero) := by
  constructor
  · intro hk t ht
    simp only [V3.refract, if_pos (show 1 - eta * eta * (1 - n.dot i * n.dot i) ≥ 0 from hk)]
    generalize eta * n.dot i * Real.sqrt (1 - eta * eta * (1 - n.dot i * n.dot i)) = c
    simp only [V3.dot] at ht
    simp only [V3.dot, V3.mul, V3.sub]
    linear_combination -c * ht
  · intro hk
    simp only [V3.refract, if_neg (not_le.mpr hk)]
    simp [V3.mul, V3.zero]

/-- C93, what fails: a ray that falls on the surface at a right angle is refracted to zero, whatever the materials. -/
theorem C93_refract_straight_lost (n : V3 ℝ) (eta : ℝ) (hn : n.mag2 = 1) :
    (n.mul (-1)).refract n eta = V3.zero ∧ ¬ Refracted (n.mul (-1)) n eta ((n.mul (-1)).refract n eta) := by
  have hd : n.dot (n.mul (-1)) = -1 := by
    simp only [V3.mag2, V3.dot, V3.mul] at hn ⊢; linear_combination -hn
  have h0 : (n.mul (-1)).refract n eta = V3.zero := by
    simp only [V3.refract, hd]
    norm_num
    simp only [V3.mul, V3.sub, V3.zero]
    apply V3.ext' <;> dsimp only <;> ring
  refine ⟨h0, ?_⟩
  rintro ⟨h1, -, -⟩
  rw [h0] at h1
  norm_num [V3.mag2, V3.dot, V3.zero] at h1

/-- C93, what fails: even a ray that meets the same material on both sides is bent, unless it grazes the surface or runs along the normal. -/
theorem C93_refract_same_material_bends (i n : V3 ℝ) (hn : n.mag2 = 1) (hd : n.dot i ≠ 0) : i.refract n 1 ≠ i := by
  intro h
  have hk : (1 : ℝ) - 1 * 1 * (1 - n.dot i * n.dot i) = n.dot i * n.dot i := by ring
  simp only [V3.refract, hk, Real.sqrt_mul_self_eq_abs, if_pos (show n.dot i * n.dot i ≥ 0 from mul_self_nonneg _)] at h
  have hx := congrArg V3.x h; have hy := congrArg V3.y h; have hz := congrArg V3.z h
  simp only [V3.mul, V3.sub] at hx hy hz
  have hc : n.dot i * |n.dot i| ≠ 0 := mul_ne_zero hd (abs_ne_zero.mpr hd)
  have hne : n.dot i * |n.dot i| * n.mag2 = 0 := by
    simp only [V3.mag2]
    rw [show n.dot n = n.x * n.x + n.y * n.y + n.z * n.z from rfl]
    linear_combination -n.x * hx - n.y * hy - n.z * hz
  rw [hn, mul_one] at hne
  exact hc hne

example : (⟨0, 3, 4⟩ : V3 ℚ).mag2 = 25 ∧ (⟨1, -1, 0⟩ : V3 ℚ).reflect ⟨0, 1, 0⟩ = ⟨1, 1, 0⟩ ∧ (⟨0, 1, 0⟩ : V3 ℚ).mag2 = 1 ∧
    (⟨0, 1, 0⟩ : V3 ℚ).dot ⟨5, 0, 7⟩ = 0 := by decide +kernel

example : (⟨0, 3, 4⟩ : V3 ℝ) ≠ V3.zero := by intro h; have := congrArg V3.y h; norm_num [V3.zero] at this

/-! ## Aspect ratio and maximum -/

/-- C93: the largest coordinate is the largest. -/
theorem C93_max {K : Type} [LinearOrder K] (a : V2 K) (b : V3 K) :
    a.max = max a.x a.y ∧ b.max = max (max b.x b.y) b.z := by
  have hz : ∀ p q : K, zmax p q = max p q := by
    intro p q
    unfold zmax
    split
    · rename_i h; rw [max_eq_left (le_of_lt h)]
    · rename_i h; rw [max_eq_right (not_lt.mp h)]
  exact ⟨hz _ _, by rw [V3.max, hz, hz]⟩

end Zpl.Math
