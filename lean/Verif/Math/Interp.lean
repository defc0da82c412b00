import Verif.Math.Turn
import Mathlib.Analysis.Calculus.Deriv.Pow
import Mathlib.Analysis.Calculus.Deriv.Mul
import Mathlib.Analysis.Calculus.Deriv.Add

/-!
# Going from one value to another (code/source/math.c:1514-1654)  -  C103, C104

## Model

The arithmetic is exact, sine and arc cosine are those of the real numbers. -/

set_option linter.unusedSectionVars false
set_option linter.unusedSimpArgs false

namespace Zpl.Math

section model

variable {K : Type}

/-- math.c:1514 `zpl_lerp`. -/
def lerp [Ring K] (a b t : K) : K := a * (1 - t) + b * t
/-- math.c:1515 `zpl_unlerp`. -/
def unlerp [Field K] (t a b : K) : K := (t - a) / (b - a)
/-- math.c:1516-1519 `zpl_smooth_step`. -/
def smooth_step [Field K] (a b t : K) : K :=
  let x := (t - a) / (b - a)
  x * x * (3 - 2 * x)
/-- math.c:1520-1523 `zpl_smoother_step`. -/
def smoother_step [Field K] (a b t : K) : K :=
  let x := (t - a) / (b - a)
  x * x * x * (x * (6 * x - 15) + 10)

/-- math.c:1531 `zpl_vec2_lerp`. -/
def V2.lerp [Ring K] (a b : V2 K) (t : K) : V2 K := a.add ((b.sub a).mul t)
/-- math.c:1532 `zpl_vec3_lerp`. -/
def V3.lerp [Ring K] (a b : V3 K) (t : K) : V3 K := a.add ((b.sub a).mul t)
/-- math.c:1533 `zpl_vec4_lerp`. -/
def V4.lerp [Ring K] (a b : V4 K) (t : K) : V4 K := a.add ((b.sub a).mul t)

/-- math.c:1538-1545 and 1552-1559: one coordinate of `cslerp`. -/
def hermite [Ring K] (a v0 b v1 t : K) : K :=
  let t2 := t * t
  let ti := t - 1
  let ti2 := ti * ti
  let h00 := (1 + 2 * t) * ti2
  let h10 := t * ti2
  let h01 := t2 * (3 - 2 * t)
  let h11 := t2 * ti
  h00 * a + h10 * v0 + h01 * b + h11 * v1

/-- math.c:1537-1549 `zpl_vec2_cslerp`. -/
def V2.cslerp [Ring K] (a v0 b v1 : V2 K) (t : K) : V2 K := ⟨hermite a.x v0.x b.x v1.x t, hermite a.y v0.y b.y v1.y t⟩
/-- math.c:1551-1564 `zpl_vec3_cslerp`. -/
def V3.cslerp [Ring K] (a v0 b v1 : V3 K) (t : K) : V3 K := ⟨hermite a.x v0.x b.x v1.x t, hermite a.y v0.y b.y v1.y t, hermite a.z v0.z b.z v1.z t⟩

/-- math.c:1567-1572 and 1579-1584: one coordinate of `dcslerp`. -/
def dhermite [Ring K] (a v0 b v1 t : K) : K :=
  let t2 := t * t
  let dh00 := 6 * t2 - 6 * t
  let dh10 := 3 * t2 - 4 * t + 1
  let dh01 := -6 * t2 + 6 * t
  let dh11 := 3 * t2 - 2 * t
  dh00 * a + dh10 * v0 + dh01 * b + dh11 * v1

/-- math.c:1566-1576 `zpl_vec2_dcslerp`. -/
def V2.dcslerp [Ring K] (a v0 b v1 : V2 K) (t : K) : V2 K := ⟨dhermite a.x v0.x b.x v1.x t, dhermite a.y v0.y b.y v1.y t⟩
/-- math.c:1578-1589 `zpl_vec3_dcslerp`. -/
def V3.dcslerp [Ring K] (a v0 b v1 : V3 K) (t : K) : V3 K := ⟨dhermite a.x v0.x b.x v1.x t, dhermite a.y v0.y b.y v1.y t, dhermite a.z v0.z b.z v1.z t⟩

/-- math.c:1591 `zpl_quat_lerp`. -/
def Q.lerp [Ring K] (a b : Q K) (t : K) : Q K := a.add ((b.sub a).mulf t)

end model

/-- math.c:1592-1595 `zpl_quat_nlerp`. -/
noncomputable def Q.nlerp (a b : Q ℝ) (t : ℝ) : Q ℝ := (a.lerp b t).norm

open Classical in
/-- math.c:1597-1624 `zpl_quat_slerp`; `none` when it divides by zero.  The result of `zpl_quat_lerp` (1610-1613) is not returned but overwritten. -/
noncomputable def Q.slerp (a b : Q ℝ) (t : ℝ) : Option (Q ℝ) :=
  let neg := a.dot b < 0
  let z := if neg then (⟨-b.x, -b.y, -b.z, -b.w⟩ : Q ℝ) else b
  let cos_theta := if neg then -a.dot b else a.dot b
  let angle := Real.arccos cos_theta
  let s1 := Real.sin ((1 - t) * angle)
  let s0 := Real.sin (t * angle)
  if Real.sin angle = 0 then none
  else
    let is := 1 / Real.sin angle
    some (((a.mulf s1).add (z.mulf s0)).mulf is)

/-- math.c:1626-1633 `zpl_quat_slerp_approx`. -/
noncomputable def Q.slerp_approx (a b : Q ℝ) (t : ℝ) : Q ℝ :=
  let tp := t + (1 - a.dot b) / 3 * t * (-2 * t * t + 3 * t - 1)
  a.nlerp b tp

/-- math.c:1635-1640 `zpl_quat_nquad`. -/
noncomputable def Q.nquad (p a b q : Q ℝ) (t : ℝ) : Q ℝ := (p.nlerp q t).nlerp (a.nlerp b t) (2 * t * (1 - t))
/-- math.c:1649-1654 `zpl_quat_squad_approx`. -/
noncomputable def Q.squad_approx (p a b q : Q ℝ) (t : ℝ) : Q ℝ := (p.slerp_approx q t).slerp_approx (a.slerp_approx b t) (2 * t * (1 - t))

/-! ## C103 -/

section field

variable {K : Type} [Field K]

/-- C103: going from `a` to `b` starts at `a`, ends at `b`, and the share of the way can be read back. -/
theorem C103_lerp (a b t : K) :
    lerp a b 0 = a ∧ lerp a b 1 = b ∧ lerp b a (1 - t) = lerp a b t ∧
    (a ≠ b → unlerp (lerp a b t) a b = t ∧ lerp a b (unlerp t a b) = t) := by
  refine ⟨by simp [lerp], by simp [lerp], by simp only [lerp]; ring, fun h => ?_⟩
  have h' : b - a ≠ 0 := sub_ne_zero.mpr (Ne.symm h)
  constructor
  · simp only [lerp, unlerp]; field_simp; ring
  · simp only [lerp, unlerp]; field_simp; ring

/-- C103: vectors and quaternions go coordinate by coordinate. -/
theorem C103_vectors (a b : V2 K) (c d : V3 K) (e f : V4 K) (p q : Q K) (t : K) :
    a.lerp b t = ⟨lerp a.x b.x t, lerp a.y b.y t⟩ ∧ c.lerp d t = ⟨lerp c.x d.x t, lerp c.y d.y t, lerp c.z d.z t⟩ ∧
    e.lerp f t = ⟨lerp e.x f.x t, lerp e.y f.y t, lerp e.z f.z t, lerp e.w f.w t⟩ ∧
    p.lerp q t = ⟨lerp p.x q.x t, lerp p.y q.y t, lerp p.z q.z t, lerp p.w q.w t⟩ := by
  refine ⟨?_, ?_, ?_, ?_⟩
  · apply V2.ext' <;> simp only [V2.lerp, V2.add, V2.sub, V2.mul, lerp] <;> ring
  · apply V3.ext' <;> simp only [V3.lerp, V3.add, V3.sub, V3.mul, lerp] <;> ring
  · apply V4.ext' <;> simp only [V4.lerp, V4.add, V4.sub, V4.mul, lerp] <;> ring
  · apply Q.ext' <;> simp only [Q.lerp, Q.add, Q.sub, Q.mulf, lerp] <;> ring

end field

section ordered

variable {K : Type} [Field K] [LinearOrder K] [IsStrictOrderedRing K]

/-- C103: between the ends the values stay between the ends and grow with the share. -/
theorem C103_lerp_order (a b s t : K) (hab : a ≤ b) : (0 ≤ t → t ≤ 1 → a ≤ lerp a b t ∧ lerp a b t ≤ b) ∧ (s ≤ t → lerp a b s ≤ lerp a b t) := by
  simp only [lerp]
  refine ⟨fun h0 h1 => ⟨?_, ?_⟩, fun h => ?_⟩
  · nlinarith [mul_nonneg (sub_nonneg.mpr hab) h0]
  · nlinarith [mul_nonneg (sub_nonneg.mpr hab) (sub_nonneg.mpr h1)]
  · nlinarith [mul_nonneg (sub_nonneg.mpr hab) (sub_nonneg.mpr h)]

/-- C103: the smooth steps lead from 0 at `a` to 1 at `b`, never backwards, and are symmetric. -/
theorem C103_smooth (a b s t : K) (hab : a < b) :
    smooth_step a b a = 0 ∧ smooth_step a b b = 1 ∧ smoother_step a b a = 0 ∧ smoother_step a b b = 1 ∧
    smooth_step a b (a + b - t) = 1 - smooth_step a b t ∧ smoother_step a b (a + b - t) = 1 - smoother_step a b t ∧
    (a ≤ s → s ≤ t → t ≤ b → smooth_step a b s ≤ smooth_step a b t ∧ smoother_step a b s ≤ smoother_step a b t) := by
  have h : 0 < b - a := sub_pos.mpr hab
  have h' : b - a ≠ 0 := ne_of_gt h
  have hsym : (a + b - t - a) / (b - a) = 1 - (t - a) / (b - a) := by field_simp; ring
  refine ⟨by simp [smooth_step], by simp [smooth_step, h']; norm_num, by simp [smoother_step], by simp [smoother_step, h']; norm_num, ?_, ?_, ?_⟩
  · simp only [smooth_step, hsym]; ring
  · simp only [smoother_step, hsym]; ring
  · intro h1 h2 h3
    have hx0 : 0 ≤ (s - a) / (b - a) := div_nonneg (by linarith) (le_of_lt h)
    have hxy : (s - a) / (b - a) ≤ (t - a) / (b - a) := div_le_div_of_nonneg_right (by linarith) (le_of_lt h)
    have hy1 : (t - a) / (b - a) ≤ 1 := by rw [div_le_one h]; linarith
    simp only [smooth_step, smoother_step]
    generalize (s - a) / (b - a) = x at *
    generalize (t - a) / (b - a) = y at *
    have hd : 0 ≤ y - x := by linarith
    have hc : 0 ≤ 1 - y := by linarith
    have hy0 : 0 ≤ y := by linarith
    have hx1 : 0 ≤ 1 - x := by linarith
    constructor
    · have e : y * y * (3 - 2 * y) - x * x * (3 - 2 * x) = (y - x) * (2 * x * (1 - x) + 2 * y * (1 - y) + x * (1 - y) + y * (1 - x)) := by ring
      have : 0 ≤ (y - x) * (2 * x * (1 - x) + 2 * y * (1 - y) + x * (1 - y) + y * (1 - x)) := by positivity
      linarith
    · have e : y * y * y * (y * (6 * y - 15) + 10) - x * x * x * (x * (6 * x - 15) + 10) =
          (y - x) * (30 * x ^ 2 * (1 - y) ^ 2 + 30 * x ^ 2 * (1 - y) * (y - x) + 10 * x ^ 2 * (y - x) ^ 2 + 30 * x * (y - x) * (1 - y) ^ 2 + 20 * x * (1 - y) * (y - x) ^ 2 +
            5 * x * (y - x) ^ 3 + 10 * (1 - y) ^ 2 * (y - x) ^ 2 + 5 * (1 - y) * (y - x) ^ 3 + (y - x) ^ 4) := by ring
      have : 0 ≤ (y - x) * (30 * x ^ 2 * (1 - y) ^ 2 + 30 * x ^ 2 * (1 - y) * (y - x) + 10 * x ^ 2 * (y - x) ^ 2 + 30 * x * (y - x) * (1 - y) ^ 2 + 20 * x * (1 - y) * (y - x) ^ 2 +
            5 * x * (y - x) ^ 3 + 10 * (1 - y) ^ 2 * (y - x) ^ 2 + 5 * (1 - y) * (y - x) ^ 3 + (y - x) ^ 4) := by positivity
      linarith

end ordered

example : smooth_step (2 : ℚ) 4 3 = 1 / 2 ∧ smoother_step (2 : ℚ) 4 (5 / 2) = 53 / 512 ∧ lerp (2 : ℚ) 4 (1 / 4) = 5 / 2 := by decide +kernel

/-- C103: the curve through two points with given speeds starts and ends there, with these speeds; `zpl_vec2_dcslerp` and `zpl_vec3_dcslerp` give its speed at every moment. -/
theorem C103_curve (a v0 b v1 : V2 ℝ) (c w0 d w1 : V3 ℝ) (t : ℝ) :
    (a.cslerp v0 b v1 0 = a ∧ a.cslerp v0 b v1 1 = b ∧ a.dcslerp v0 b v1 0 = v0 ∧ a.dcslerp v0 b v1 1 = v1) ∧
    (c.cslerp w0 d w1 0 = c ∧ c.cslerp w0 d w1 1 = d ∧ c.dcslerp w0 d w1 0 = w0 ∧ c.dcslerp w0 d w1 1 = w1) ∧
    (HasDerivAt (fun t => (a.cslerp v0 b v1 t).x) (a.dcslerp v0 b v1 t).x t ∧ HasDerivAt (fun t => (a.cslerp v0 b v1 t).y) (a.dcslerp v0 b v1 t).y t) ∧
    (HasDerivAt (fun t => (c.cslerp w0 d w1 t).x) (c.dcslerp w0 d w1 t).x t ∧ HasDerivAt (fun t => (c.cslerp w0 d w1 t).y) (c.dcslerp w0 d w1 t).y t ∧
      HasDerivAt (fun t => (c.cslerp w0 d w1 t).z) (c.dcslerp w0 d w1 t).z t) := by
  have key : ∀ p u q v t : ℝ, HasDerivAt (fun t => hermite p u q v t) (dhermite p u q v t) t := by
    intro p u q v t
    have e : (fun t => hermite p u q v t) = fun t => (2 * p + u - 2 * q + v) * t ^ 3 + (-3 * p - 2 * u + 3 * q - v) * t ^ 2 + (u * t ^ 1 + p) := by
      funext t; simp only [hermite]; ring
    have h3 := (hasDerivAt_pow 3 t).const_mul (2 * p + u - 2 * q + v)
    have h2 := (hasDerivAt_pow 2 t).const_mul (-3 * p - 2 * u + 3 * q - v)
    have h1 := ((hasDerivAt_pow 1 t).const_mul u).add_const p
    rw [e]
    refine ((h3.add h2).add h1).congr_deriv ?_
    simp only [dhermite]; norm_num; ring
  refine ⟨⟨?_, ?_, ?_, ?_⟩, ⟨?_, ?_, ?_, ?_⟩, ⟨key _ _ _ _ _, key _ _ _ _ _⟩, key _ _ _ _ _, key _ _ _ _ _, key _ _ _ _ _⟩
  · apply V2.ext' <;> simp [V2.cslerp, hermite]
  · apply V2.ext' <;> simp [V2.cslerp, hermite] <;> ring
  · apply V2.ext' <;> simp [V2.dcslerp, dhermite]
  · apply V2.ext' <;> simp [V2.dcslerp, dhermite] <;> ring
  · apply V3.ext' <;> simp [V3.cslerp, hermite]
  · apply V3.ext' <;> simp [V3.cslerp, hermite] <;> ring
  · apply V3.ext' <;> simp [V3.dcslerp, dhermite]
  · apply V3.ext' <;> simp [V3.dcslerp, dhermite] <;> ring

/-! ## C104: rotations in between -/

/-- The opposite quaternion, which stands for the same rotation. -/
def Q.opposite (q : Q ℝ) : Q ℝ := ⟨-q.x, -q.y, -q.z, -q.w⟩

theorem norm_of_unit {q : Q ℝ} (h : q.dot q = 1) : q.norm = q := by
  simp [Q.norm, Q.mag, h, Q.divf]

/-- The quaternion `slerp` returns, for the angle `th` between `a` and `z`. -/
noncomputable def between (a z : Q ℝ) (th t : ℝ) : Q ℝ := ((a.mulf (Real.sin ((1 - t) * th))).add (z.mulf (Real.sin (t * th)))).mulf (1 / Real.sin th)

theorem between_ok (a z : Q ℝ) (ha : a.dot a = 1) (hz : z.dot z = 1) (th : ℝ) (hc : Real.cos th = a.dot z) (hs : Real.sin th ≠ 0) (t : ℝ) :
    between a z th 0 = a ∧ between a z th 1 = z ∧ (between a z th t).dot (between a z th t) = 1 ∧ a.dot (between a z th t) = Real.cos (t * th) ∧
    (between a z th t).dot z = Real.cos ((1 - t) * th) := by
  have e1 : ∀ q : Q ℝ, (q.mulf (Real.sin th)).mulf (1 / Real.sin th) = q := by
    intro q; apply Q.ext' <;> simp only [Q.mulf] <;> field_simp
  have hsplit : th = (1 - t) * th + t * th := by ring
  have hsin := Real.sin_add ((1 - t) * th) (t * th)
  have hcos := Real.cos_add ((1 - t) * th) (t * th)
  rw [← hsplit] at hsin hcos
  have p1 := Real.sin_sq_add_cos_sq ((1 - t) * th)
  have p2 := Real.sin_sq_add_cos_sq (t * th)
  have p3 := Real.sin_sq_add_cos_sq th
  refine ⟨?_, ?_, ?_⟩
  · simp only [between, sub_zero, one_mul, zero_mul, Real.sin_zero]
    have : (a.mulf (Real.sin th)).add (z.mulf 0) = a.mulf (Real.sin th) := by apply Q.ext' <;> simp [Q.add, Q.mulf]
    rw [this, e1]
  · simp only [between, sub_self, one_mul, zero_mul, Real.sin_zero]
    have : (a.mulf 0).add (z.mulf (Real.sin th)) = z.mulf (Real.sin th) := by apply Q.ext' <;> simp [Q.add, Q.mulf]
    rw [this, e1]
  · have l1 : ∀ u v k : ℝ, a.dot (((a.mulf u).add (z.mulf v)).mulf k) = (u * a.dot a + v * a.dot z) * k := by
      intro u v k; simp only [Q.dot, Q.xyz, V3.dot, Q.add, Q.mulf]; ring
    have l2 : ∀ u v k : ℝ, (((a.mulf u).add (z.mulf v)).mulf k).dot z = (u * a.dot z + v * z.dot z) * k := by
      intro u v k; simp only [Q.dot, Q.xyz, V3.dot, Q.add, Q.mulf]; ring
    have l3 : ∀ u v k : ℝ, (((a.mulf u).add (z.mulf v)).mulf k).dot (((a.mulf u).add (z.mulf v)).mulf k) = (u * u * a.dot a + v * v * z.dot z + 2 * u * v * a.dot z) * (k * k) := by
      intro u v k; simp only [Q.dot, Q.xyz, V3.dot, Q.add, Q.mulf]; ring
    simp only [between, l1, l2, l3, ha, hz, ← hc]
    generalize Real.sin ((1 - t) * th) = sa at *
    generalize Real.cos ((1 - t) * th) = ca at *
    generalize Real.sin (t * th) = sb at *
    generalize Real.cos (t * th) = cb at *
    generalize Real.sin th = S at *
    generalize Real.cos th = C at *
    refine ⟨?_, ?_, ?_⟩
    · field_simp
      rw [hsin, hcos]
      linear_combination -sb ^ 2 * p1 - sa ^ 2 * p2
    · field_simp
      rw [hsin, hcos]
      linear_combination (-sa) * p2
    · field_simp
      rw [hsin, hcos]
      linear_combination (-sb) * p1

theorem opposite_dot (a b : Q ℝ) : a.dot b.opposite = -a.dot b ∧ b.opposite.dot b.opposite = b.dot b := by
  simp only [Q.dot, Q.xyz, V3.dot, Q.opposite]
  constructor <;> ring

/-- C104: the quaternion between `a` and `b` (or its opposite, if that is nearer) has length 1; its angle from `a` is the share `t` of the whole angle; at the ends it is `a` and `b`. -/
theorem C104_slerp_partial (a b : Q ℝ) (ha : a.dot a = 1) (hb : b.dot b = 1) (hne : a.dot b ≠ 1) (hne' : a.dot b ≠ -1) (t : ℝ) :
    ∃ z r, (z = b ∧ 0 ≤ a.dot b ∨ z = b.opposite ∧ a.dot b < 0) ∧ a.slerp b 0 = some a ∧ a.slerp b 1 = some z ∧ a.slerp b t = some r ∧
      r.dot r = 1 ∧ a.dot r = Real.cos (t * Real.arccos (a.dot z)) ∧ r.dot z = Real.cos ((1 - t) * Real.arccos (a.dot z)) := by
  have core : ∀ z : Q ℝ, z.dot z = 1 → 0 ≤ a.dot z → a.dot z ≠ 1 → Real.cos (Real.arccos (a.dot z)) = a.dot z ∧ Real.sin (Real.arccos (a.dot z)) ≠ 0 := by
    intro z hz h0 h1
    have hle : a.dot z ≤ 1 := by
      have e : a.dot a + z.dot z - 2 * a.dot z = (a.x - z.x) ^ 2 + (a.y - z.y) ^ 2 + (a.z - z.z) ^ 2 + (a.w - z.w) ^ 2 := by
        simp only [Q.dot, Q.xyz, V3.dot]; ring
      have : 0 ≤ (a.x - z.x) ^ 2 + (a.y - z.y) ^ 2 + (a.z - z.z) ^ 2 + (a.w - z.w) ^ 2 := by positivity
      linarith
    have hlt : a.dot z < 1 := lt_of_le_of_ne hle h1
    refine ⟨Real.cos_arccos (by linarith) hle, ?_⟩
    rw [Real.sin_arccos]
    exact ne_of_gt (Real.sqrt_pos.mpr (by nlinarith))
  by_cases hneg : a.dot b < 0
  · obtain ⟨o1, o2⟩ := opposite_dot a b
    obtain ⟨h1, h2⟩ := core b.opposite (o2.trans hb) (by rw [o1]; linarith) (by rw [o1]; intro e; exact hne' (by linarith))
    have e : ∀ t, a.slerp b t = some (between a b.opposite (Real.arccos (a.dot b.opposite)) t) := by
      intro t
      have hs : Real.sin (Real.arccos (-a.dot b)) ≠ 0 := by rw [← o1]; exact h2
      simp only [Q.slerp, if_pos hneg, if_neg hs, between, o1]; rfl
    obtain ⟨k1, k2, k3⟩ := between_ok a b.opposite ha (o2.trans hb) _ h1 h2 t
    exact ⟨b.opposite, _, Or.inr ⟨rfl, hneg⟩, by rw [e, k1], by rw [e, k2], e t, k3⟩
  · obtain ⟨h1, h2⟩ := core b hb (not_lt.mp hneg) hne
    have e : ∀ t, a.slerp b t = some (between a b (Real.arccos (a.dot b)) t) := by
      intro t
      simp only [Q.slerp, if_neg hneg, if_neg h2, between]
    obtain ⟨k1, k2, k3⟩ := between_ok a b ha hb _ h1 h2 t
    exact ⟨b, _, Or.inl ⟨rfl, not_lt.mp hneg⟩, by rw [e, k1], by rw [e, k2], e t, k3⟩

/-- C104, what fails: between a rotation and itself nothing is found; it divides by zero.  So it does when the product is above 1: the linear result computed for this case is dropped. -/
theorem C104_slerp_same_fails (a b : Q ℝ) (t : ℝ) : (a.dot a = 1 → a.slerp a t = none) ∧ (1 ≤ a.dot b → a.slerp b t = none) := by
  have key : ∀ b : Q ℝ, 1 ≤ a.dot b → a.slerp b t = none := by
    intro b h
    have hneg : ¬ a.dot b < 0 := by linarith
    simp only [Q.slerp, if_neg hneg, Real.arccos_of_one_le h, Real.sin_zero, if_true]
  exact ⟨fun h => key a (le_of_eq h.symm), key b⟩

/-- C104: the cheaper ways have length 1 as long as they do not run through zero, and start and end at the given rotations. -/
theorem C104_cheap (a b p q : Q ℝ) (ha : a.dot a = 1) (hb : b.dot b = 1) (hp : p.dot p = 1) (hq : q.dot q = 1) (t : ℝ) :
    (a.lerp b t ≠ ⟨0, 0, 0, 0⟩ → (a.nlerp b t).dot (a.nlerp b t) = 1) ∧ a.nlerp b 0 = a ∧ a.nlerp b 1 = b ∧ a.slerp_approx b 0 = a ∧ a.slerp_approx b 1 = b ∧
    p.nquad a b q 0 = p ∧ p.nquad a b q 1 = q ∧ p.squad_approx a b q 0 = p ∧ p.squad_approx a b q 1 = q := by
  have l0 : ∀ a b : Q ℝ, a.lerp b 0 = a := by intro a b; apply Q.ext' <;> simp [Q.lerp, Q.add, Q.mulf, Q.sub]
  have l1 : ∀ a b : Q ℝ, a.lerp b 1 = b := by intro a b; apply Q.ext' <;> simp [Q.lerp, Q.add, Q.mulf, Q.sub]
  have n0 : ∀ a b : Q ℝ, a.dot a = 1 → a.nlerp b 0 = a := by intro a b h; rw [Q.nlerp, l0, norm_of_unit h]
  have n1 : ∀ a b : Q ℝ, b.dot b = 1 → a.nlerp b 1 = b := by intro a b h; rw [Q.nlerp, l1, norm_of_unit h]
  have s0 : ∀ a b : Q ℝ, a.dot a = 1 → a.slerp_approx b 0 = a := by intro a b h; simp only [Q.slerp_approx]; rw [show (0 : ℝ) + (1 - a.dot b) / 3 * 0 * (-2 * 0 * 0 + 3 * 0 - 1) = 0 by ring, n0 a b h]
  have s1 : ∀ a b : Q ℝ, b.dot b = 1 → a.slerp_approx b 1 = b := by intro a b h; simp only [Q.slerp_approx]; rw [show (1 : ℝ) + (1 - a.dot b) / 3 * 1 * (-2 * 1 * 1 + 3 * 1 - 1) = 1 by ring, n1 a b h]
  refine ⟨fun h => (C96_norm _ h).1, n0 a b ha, n1 a b hb, s0 a b ha, s1 a b hb, ?_, ?_, ?_, ?_⟩
  · rw [Q.nquad, n0 p q hp, n0 a b ha, show (2 * 0 * (1 - 0) : ℝ) = 0 by ring, n0 p a hp]
  · rw [Q.nquad, n1 p q hq, n1 a b hb, show (2 * 1 * (1 - 1) : ℝ) = 0 by ring, n0 q b hq]
  · rw [Q.squad_approx, s0 p q hp, s0 a b ha, show (2 * 0 * (1 - 0) : ℝ) = 0 by ring, s0 p a hp]
  · rw [Q.squad_approx, s1 p q hq, s1 a b hb, show (2 * 1 * (1 - 1) : ℝ) = 0 by ring, s0 q b hq]

example : (⟨0, 0, 0, 1⟩ : Q ℚ).dot ⟨0, 0, 0, 1⟩ = 1 ∧ (⟨3 / 5, 0, 0, 4 / 5⟩ : Q ℚ).dot ⟨3 / 5, 0, 0, 4 / 5⟩ = 1 ∧ (⟨0, 0, 0, 1⟩ : Q ℚ).dot ⟨3 / 5, 0, 0, 4 / 5⟩ = 4 / 5 := by decide +kernel

end Zpl.Math
