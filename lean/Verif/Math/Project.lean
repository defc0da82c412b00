import Verif.Math.Turn

/-!
# Projections and views (code/source/math.c:964-1134)  -  C100, C101

## Model

The arithmetic is exact, `zpl_tan` the tangent of the real numbers. -/

set_option linter.unusedSectionVars false
set_option linter.unusedSimpArgs false

namespace Zpl.Math

section model

variable {K : Type}

/-- `zpl_mat4 zero_mat = { 0 };` -/
def zeroMat [Zero K] : Mat 4 K := fun _ _ => 0

/-- math.c:964-974 `zpl_mat4_ortho2d`, 1019-1029 `zpl_mat4_ortho2d_dx`. -/
def ortho2d [Field K] (left right bottom top : K) : Mat 4 K :=
  (((((identity : Mat 4 K).set 0 0 (2 / (right - left))).set 1 1 (2 / (top - bottom))).set 2 2 (-1)).set
    3 0 (-(right + left) / (right - left))).set 3 1 (-(top + bottom) / (top - bottom))

/-- math.c:976-987 `zpl_mat4_ortho3d`. -/
def ortho3d [Field K] (left right bottom top z_near z_far : K) : Mat 4 K :=
  ((((((identity : Mat 4 K).set 0 0 (2 / (right - left))).set 1 1 (2 / (top - bottom))).set 2 2 (-2 / (z_far - z_near))).set
    3 0 (-(right + left) / (right - left))).set 3 1 (-(top + bottom) / (top - bottom))).set 3 2 (-(z_far + z_near) / (z_far - z_near))

/-- math.c:1031-1042 `zpl_mat4_ortho3d_dx`. -/
def ortho3d_dx [Field K] (left right bottom top z_near z_far : K) : Mat 4 K :=
  ((((((identity : Mat 4 K).set 0 0 (2 / (right - left))).set 1 1 (2 / (top - bottom))).set 2 2 (-1 / (z_far - z_near))).set
    3 0 (-(right + left) / (right - left))).set 3 1 (-(top + bottom) / (top - bottom))).set 3 2 (-z_near / (z_far - z_near))

end model

/-- math.c:989-1000 `zpl_mat4_perspective`. -/
noncomputable def perspective (fovy aspect z_near z_far : ℝ) : Mat 4 ℝ :=
  let t := Real.tan (1 / 2 * fovy)
  (((((zeroMat : Mat 4 ℝ).set 0 0 (1 / (aspect * t))).set 1 1 (1 / t)).set 2 2 (-(z_far + z_near) / (z_far - z_near))).set 2 3 (-1)).set
    3 2 (-2 * z_far * z_near / (z_far - z_near))

/-- math.c:1002-1017 `zpl_mat4_infinite_perspective`. -/
noncomputable def infinite_perspective (fovy aspect z_near : ℝ) : Mat 4 ℝ :=
  let range := Real.tan (1 / 2 * fovy) * z_near
  let left := -range * aspect
  let right := range * aspect
  let bottom := -range
  let top := range
  (((((zeroMat : Mat 4 ℝ).set 0 0 ((2 * z_near) / (right - left))).set 1 1 ((2 * z_near) / (top - bottom))).set 2 2 (-1)).set 2 3 (-1)).set 3 2 (-2 * z_near)

/-- math.c:1044-1055 `zpl_mat4_perspective_dx`. -/
noncomputable def perspective_dx (fovy aspect z_near z_far : ℝ) : Mat 4 ℝ :=
  let t := Real.tan (1 / 2 * fovy)
  (((((zeroMat : Mat 4 ℝ).set 0 0 (1 / (aspect * t))).set 1 1 (1 / t)).set 2 2 (-z_far / (z_far - z_near))).set 2 3 (-1)).set
    3 2 (-z_near / (z_far - z_near))

/-- math.c:1057-1068 `zpl_mat4_infinite_perspective_dx`. -/
noncomputable def infinite_perspective_dx (fovy aspect z_near : ℝ) : Mat 4 ℝ :=
  let t := Real.tan (1 / 2 * fovy)
  (((((zeroMat : Mat 4 ℝ).set 0 0 (1 / (aspect * t))).set 1 1 (1 / t)).set 2 2 (-1)).set 2 3 (-1)).set 3 2 (-z_near)

/-- math.c:1083-1101: the three rows `s`, `u`, `b` (`-f` or `f`) and the translation. -/
def view (s u b eye : V3 ℝ) : Mat 4 ℝ :=
  ((((((((((((identity : Mat 4 ℝ).set 0 0 s.x).set 1 0 s.y).set 2 0 s.z).set 0 1 u.x).set 1 1 u.y).set 2 1 u.z).set
    0 2 b.x).set 1 2 b.y).set 2 2 b.z).set 3 0 (-s.dot eye)).set 3 1 (-u.dot eye)).set 3 2 (-b.dot eye)

/-- math.c:1072-1102 `zpl_mat4_look_at`; `+dot(f, eye)` is `-dot(-f, eye)`. -/
noncomputable def look_at (eye centre up : V3 ℝ) : Mat 4 ℝ :=
  let f := (centre.sub eye).norm
  let s := (f.cross up).norm
  let u := s.cross f
  view s u (f.mul (-1)) eye

/-- math.c:1104-1134 `zpl_mat4_look_at_lh`. -/
noncomputable def look_at_lh (eye centre up : V3 ℝ) : Mat 4 ℝ :=
  let f := (centre.sub eye).norm
  let s := (up.cross f).norm
  let u := f.cross s
  view s u f eye

/-! ## Specification -/

/-- Where a point is drawn: the image divided by its last coordinate. -/
def drawn {K : Type} [Field K] (m : Mat 4 K) (p : V3 K) : V3 K :=
  let v := mulVec4 m p.point
  ⟨v.x / v.w, v.y / v.w, v.z / v.w⟩

/-- The point lies `d` before the camera, which looks along `-z`, within the opening angle. -/
def InCone (fovy aspect d : ℝ) (p : V3 ℝ) : Prop :=
  p.z = -d ∧ |p.x| ≤ aspect * Real.tan (1 / 2 * fovy) * d ∧ |p.y| ≤ Real.tan (1 / 2 * fovy) * d

/-! ## C100: projections -/

section field

variable {K : Type} [Field K]

/-- C100: the parallel projection maps the box between the planes linearly to the cube from -1 to 1, and with the other convention the depth from 0 to 1.
A point is given by its share `s`, `t`, `u` of the way through the box. -/
theorem C100_ortho (left right bottom top z_near z_far s t u : K) (h1 : right ≠ left) (h2 : top ≠ bottom) (h3 : z_far ≠ z_near) :
    drawn (ortho3d left right bottom top z_near z_far) ⟨left + s * (right - left), bottom + t * (top - bottom), -(z_near + u * (z_far - z_near))⟩ =
      ⟨-1 + 2 * s, -1 + 2 * t, -1 + 2 * u⟩ ∧
    drawn (ortho3d_dx left right bottom top z_near z_far) ⟨left + s * (right - left), bottom + t * (top - bottom), -(z_near + u * (z_far - z_near))⟩ =
      ⟨-1 + 2 * s, -1 + 2 * t, u⟩ ∧
    drawn (ortho2d left right bottom top) ⟨left + s * (right - left), bottom + t * (top - bottom), -u⟩ = ⟨-1 + 2 * s, -1 + 2 * t, u⟩ := by
  have h1 := sub_ne_zero.mpr h1
  have h2 := sub_ne_zero.mpr h2
  have h3 := sub_ne_zero.mpr h3
  refine ⟨?_, ?_, ?_⟩ <;>
    simp [drawn, mulVec4, V3.point, ortho3d, ortho3d_dx, ortho2d, Mat.set, identity] <;>
    (try refine ⟨?_, ?_, ?_⟩) <;> (try refine ⟨?_, ?_⟩) <;> field_simp <;> ring

end field

theorem tan_half_pos {fovy : ℝ} (h1 : 0 < fovy) (h2 : fovy < Real.pi) : 0 < Real.tan (1 / 2 * fovy) :=
  Real.tan_pos_of_pos_of_lt_pi_div_two (by linarith) (by linarith)

/-- `|x / (a d)| ≤ 1` -/
theorem within (x a d : ℝ) (ha : 0 < a) (hd : 0 < d) : |1 / a * x / d| ≤ 1 ↔ |x| ≤ a * d := by
  rw [show 1 / a * x / d = x / (a * d) by field_simp, abs_div, abs_of_pos (mul_pos ha hd), div_le_one (mul_pos ha hd)]

/-- C100: the perspective projection draws within the square from -1 to 1 and at a depth from -1 to 1 just the points before the camera that lie in the cone and between the planes. -/
theorem C100_perspective (fovy aspect z_near z_far : ℝ) (h1 : 0 < fovy) (h2 : fovy < Real.pi) (ha : 0 < aspect) (hn : 0 < z_near) (hf : z_near < z_far)
    (p : V3 ℝ) (d : ℝ) (hd : 0 < d) (hp : p.z = -d) :
    let r := drawn (perspective fovy aspect z_near z_far) p
    (|r.x| ≤ 1 ∧ |r.y| ≤ 1 ↔ InCone fovy aspect d p) ∧ (|r.z| ≤ 1 ↔ z_near ≤ d ∧ d ≤ z_far) := by
  have ht := tan_half_pos h1 h2
  have hfn : 0 < z_far - z_near := by linarith
  have hw : (mulVec4 (perspective fovy aspect z_near z_far) p.point).w = d := by simp [mulVec4, V3.point, perspective, Mat.set, zeroMat, hp]
  have hx : (mulVec4 (perspective fovy aspect z_near z_far) p.point).x = 1 / (aspect * Real.tan (1 / 2 * fovy)) * p.x := by
    simp [mulVec4, V3.point, perspective, Mat.set, zeroMat, hp]
  have hy : (mulVec4 (perspective fovy aspect z_near z_far) p.point).y = 1 / Real.tan (1 / 2 * fovy) * p.y := by
    simp [mulVec4, V3.point, perspective, Mat.set, zeroMat, hp]
  have hz : (mulVec4 (perspective fovy aspect z_near z_far) p.point).z = ((z_far + z_near) * d - 2 * z_far * z_near) / (z_far - z_near) := by
    simp [mulVec4, V3.point, perspective, Mat.set, zeroMat, hp]; field_simp; ring
  simp only [drawn, hw, hx, hy, hz, InCone]
  constructor
  · rw [within _ _ _ (mul_pos ha ht) hd, within _ _ _ ht hd]
    exact ⟨fun h => ⟨hp, h.1, h.2⟩, fun h => ⟨h.2.1, h.2.2⟩⟩
  · rw [div_div, abs_div, abs_of_pos (mul_pos hfn hd), div_le_one (mul_pos hfn hd), abs_le]
    constructor
    · rintro ⟨h3, h4⟩
      constructor
      · by_contra hc; push Not at hc
        nlinarith [mul_pos (sub_pos.mpr hc) (lt_trans hn hf)]
      · by_contra hc; push Not at hc
        nlinarith [mul_pos (sub_pos.mpr hc) hn]
    · rintro ⟨h3, h4⟩
      constructor
      · nlinarith [mul_nonneg (sub_nonneg.mpr h3) (le_of_lt (lt_trans hn hf))]
      · nlinarith [mul_nonneg (sub_nonneg.mpr h4) (le_of_lt hn)]

/-- C100: the projection without a far plane, in both conventions. -/
theorem C100_infinite (fovy aspect z_near : ℝ) (h1 : 0 < fovy) (h2 : fovy < Real.pi) (ha : 0 < aspect) (hn : 0 < z_near)
    (p : V3 ℝ) (d : ℝ) (hd : 0 < d) (hp : p.z = -d) :
    let r := drawn (infinite_perspective fovy aspect z_near) p
    let r' := drawn (infinite_perspective_dx fovy aspect z_near) p
    (|r.x| ≤ 1 ∧ |r.y| ≤ 1 ↔ InCone fovy aspect d p) ∧ (-1 ≤ r.z ∧ r.z < 1 ↔ z_near ≤ d) ∧
    (|r'.x| ≤ 1 ∧ |r'.y| ≤ 1 ↔ InCone fovy aspect d p) ∧ (0 ≤ r'.z ∧ r'.z < 1 ↔ z_near ≤ d) := by
  have ht := tan_half_pos h1 h2
  have hw : (mulVec4 (infinite_perspective fovy aspect z_near) p.point).w = d := by simp [mulVec4, V3.point, infinite_perspective, Mat.set, zeroMat, hp]
  have hw' : (mulVec4 (infinite_perspective_dx fovy aspect z_near) p.point).w = d := by simp [mulVec4, V3.point, infinite_perspective_dx, Mat.set, zeroMat, hp]
  have hx : (mulVec4 (infinite_perspective fovy aspect z_near) p.point).x = 1 / (aspect * Real.tan (1 / 2 * fovy)) * p.x := by
    simp only [mulVec4, V3.point, infinite_perspective]
    generalize Real.tan (1 / 2 * fovy) = t at ht ⊢
    simp [Mat.set, zeroMat, hp]; left; field_simp; ring
  have hy : (mulVec4 (infinite_perspective fovy aspect z_near) p.point).y = 1 / Real.tan (1 / 2 * fovy) * p.y := by
    simp only [mulVec4, V3.point, infinite_perspective]
    generalize Real.tan (1 / 2 * fovy) = t at ht ⊢
    simp [Mat.set, zeroMat, hp]; left; field_simp; ring
  have hx' : (mulVec4 (infinite_perspective_dx fovy aspect z_near) p.point).x = 1 / (aspect * Real.tan (1 / 2 * fovy)) * p.x := by
    simp [mulVec4, V3.point, infinite_perspective_dx, Mat.set, zeroMat, hp]
  have hy' : (mulVec4 (infinite_perspective_dx fovy aspect z_near) p.point).y = 1 / Real.tan (1 / 2 * fovy) * p.y := by
    simp [mulVec4, V3.point, infinite_perspective_dx, Mat.set, zeroMat, hp]
  have hz : (mulVec4 (infinite_perspective fovy aspect z_near) p.point).z = d - 2 * z_near := by
    simp [mulVec4, V3.point, infinite_perspective, Mat.set, zeroMat, hp]; ring
  have hz' : (mulVec4 (infinite_perspective_dx fovy aspect z_near) p.point).z = d - z_near := by
    simp [mulVec4, V3.point, infinite_perspective_dx, Mat.set, zeroMat, hp]; ring
  simp only [drawn, hw, hw', hx, hx', hy, hy', hz, hz', InCone]
  rw [within _ _ _ (mul_pos ha ht) hd, within _ _ _ ht hd, div_lt_one hd, le_div_iff₀ hd, div_lt_one hd, le_div_iff₀ hd]
  refine ⟨⟨fun h => ⟨hp, h.1, h.2⟩, fun h => ⟨h.2.1, h.2.2⟩⟩, ⟨fun h => by linarith [h.1], fun h => ⟨by linarith, by linarith⟩⟩,
    ⟨fun h => ⟨hp, h.1, h.2⟩, fun h => ⟨h.2.1, h.2.2⟩⟩, ⟨fun h => by linarith [h.1], fun h => ⟨by linarith, by linarith⟩⟩⟩

theorem perspective_dx_depth (fovy aspect z_near z_far : ℝ) (hf : z_near < z_far) (p : V3 ℝ) (d : ℝ) (hd : 0 < d) (hp : p.z = -d) :
    (drawn (perspective_dx fovy aspect z_near z_far) p).z * ((z_far - z_near) * d) = z_far * d - z_near := by
  have hfn : z_far - z_near ≠ 0 := by linarith
  have hw : (mulVec4 (perspective_dx fovy aspect z_near z_far) p.point).w = d := by simp [mulVec4, V3.point, perspective_dx, Mat.set, zeroMat, hp]
  have hz : (mulVec4 (perspective_dx fovy aspect z_near z_far) p.point).z = (z_far * d - z_near) / (z_far - z_near) := by
    simp [mulVec4, V3.point, perspective_dx, Mat.set, zeroMat, hp]; field_simp; ring
  simp only [drawn, hw, hz]
  field_simp

/-- C100: with the other convention the perspective projection draws the right square. -/
theorem C100_perspective_dx_partial (fovy aspect z_near z_far : ℝ) (h1 : 0 < fovy) (h2 : fovy < Real.pi) (ha : 0 < aspect)
    (p : V3 ℝ) (d : ℝ) (hd : 0 < d) (hp : p.z = -d) :
    let r := drawn (perspective_dx fovy aspect z_near z_far) p
    |r.x| ≤ 1 ∧ |r.y| ≤ 1 ↔ InCone fovy aspect d p := by
  have ht := tan_half_pos h1 h2
  have hw : (mulVec4 (perspective_dx fovy aspect z_near z_far) p.point).w = d := by simp [mulVec4, V3.point, perspective_dx, Mat.set, zeroMat, hp]
  have hx : (mulVec4 (perspective_dx fovy aspect z_near z_far) p.point).x = 1 / (aspect * Real.tan (1 / 2 * fovy)) * p.x := by
    simp [mulVec4, V3.point, perspective_dx, Mat.set, zeroMat, hp]
  have hy : (mulVec4 (perspective_dx fovy aspect z_near z_far) p.point).y = 1 / Real.tan (1 / 2 * fovy) * p.y := by
    simp [mulVec4, V3.point, perspective_dx, Mat.set, zeroMat, hp]
  simp only [drawn, hw, hx, hy, InCone]
  rw [within _ _ _ (mul_pos ha ht) hd, within _ _ _ ht hd]
  exact ⟨fun h => ⟨hp, h.1, h.2⟩, fun h => ⟨h.2.1, h.2.2⟩⟩

/-- C100, what fails: with the other convention neither the near plane is drawn at depth 0 nor the far plane at depth 1, unless the far plane is at 1; points on a far plane beyond 1 are drawn too deep. -/
theorem C100_perspective_dx_depth_wrong (fovy aspect z_near z_far : ℝ) (hn : 0 < z_near) (hf : z_near < z_far) (h1 : z_far ≠ 1) (p : V3 ℝ) :
    (p.z = -z_near → (drawn (perspective_dx fovy aspect z_near z_far) p).z ≠ 0) ∧
    (p.z = -z_far → (drawn (perspective_dx fovy aspect z_near z_far) p).z ≠ 1) ∧
    (p.z = -z_far → 1 < z_far → 1 < (drawn (perspective_dx fovy aspect z_near z_far) p).z) := by
  have hff : 0 < z_far := lt_trans hn hf
  refine ⟨fun hp e => ?_, fun hp e => ?_, fun hp h => ?_⟩
  · have := perspective_dx_depth fovy aspect z_near z_far hf p z_near hn hp
    rw [e, zero_mul] at this
    have h2 : (z_far - 1) * z_near = 0 := by linear_combination -this
    rcases mul_eq_zero.mp h2 with h3 | h3
    · exact h1 (by linarith)
    · linarith
  · have := perspective_dx_depth fovy aspect z_near z_far hf p z_far hff hp
    rw [e] at this
    have h2 : (z_far - 1) * z_near = 0 := by linear_combination -this
    rcases mul_eq_zero.mp h2 with h3 | h3
    · exact h1 (by linarith)
    · linarith
  · have := perspective_dx_depth fovy aspect z_near z_far hf p z_far hff hp
    by_contra hc; push Not at hc
    have h3 : 0 < (z_far - z_near) * z_far := mul_pos (by linarith) hff
    have h4 := mul_le_mul_of_nonneg_right hc (le_of_lt h3)
    nlinarith [mul_pos (sub_pos.mpr h) hn]

example : (0 : ℝ) < Real.pi / 2 ∧ Real.pi / 2 < Real.pi ∧ InCone (Real.pi / 2) 1 5 ⟨0, 0, -5⟩ := by
  have := Real.pi_pos
  have ht : 0 < Real.tan (1 / 2 * (Real.pi / 2)) := tan_half_pos (by linarith) (by linarith)
  refine ⟨by linarith, by linarith, rfl, ?_, ?_⟩
  · rw [abs_zero]; positivity
  · rw [abs_zero]; positivity

/-! ## C101: views -/

/-- Three vectors of length 1 at right angles to each other, right-handed. -/
def Frame (s u b : V3 ℝ) : Prop :=
  s.mag2 = 1 ∧ u.mag2 = 1 ∧ b.mag2 = 1 ∧ s.dot u = 0 ∧ s.dot b = 0 ∧ u.dot b = 0 ∧ s.cross u = b

/-- The coordinates of a point. -/
def V4.xyz (v : V4 ℝ) : V3 ℝ := ⟨v.x, v.y, v.z⟩

theorem view_point (s u b eye p : V3 ℝ) : mulVec4 (view s u b eye) p.point = ⟨s.dot (p.sub eye), u.dot (p.sub eye), b.dot (p.sub eye), 1⟩ := by
  apply V4.ext' <;> simp [mulVec4, view, Mat.set, identity, V3.point, V3.dot, V3.sub] <;> ring

/-- The coordinates with respect to a frame keep the dot product. -/
theorem frame_dot {s u b : V3 ℝ} (h : Frame s u b) (p q : V3 ℝ) :
    s.dot p * s.dot q + u.dot p * u.dot q + b.dot p * b.dot q = p.dot q := by
  obtain ⟨h1, h2, h3, h4, h5, h6, -⟩ := h
  simp only [V3.mag2, V3.dot] at *
  let R : Matrix (Fin 3) (Fin 3) ℝ := !![s.x, s.y, s.z; u.x, u.y, u.z; b.x, b.y, b.z]
  have hR : R * R.transpose = 1 := by
    ext i j
    fin_cases i <;> fin_cases j <;> simp [R, Matrix.mul_apply, Fin.sum_univ_three] <;> linarith
  have hR' : R.transpose * R = 1 := mul_eq_one_comm.mp hR
  have e := fun i j => congrFun (congrFun hR' i) j
  have e00 := e 0 0; have e01 := e 0 1; have e02 := e 0 2; have e11 := e 1 1; have e12 := e 1 2; have e22 := e 2 2
  simp [R, Matrix.mul_apply, Fin.sum_univ_three] at e00 e01 e02 e11 e12 e22
  linear_combination (p.x * q.x) * e00 + (p.x * q.y + p.y * q.x) * e01 + (p.x * q.z + p.z * q.x) * e02 + (p.y * q.y) * e11 + (p.y * q.z + p.z * q.y) * e12 + (p.z * q.z) * e22

theorem V3.norm_scaled {v : V3 ℝ} (h : v ≠ V3.zero) : v.norm.mag2 = 1 ∧ v = v.norm.mul v.mag ∧ 0 < v.mag := by
  obtain ⟨h1, h2, h3⟩ := rsqrt_mul _ (V3.dot_self_pos h)
  refine ⟨?_, ?_, h3⟩
  · have := V3.norm_unit h
    simp only [V3.mag2, V3.dot]; linarith
  · apply V3.ext' <;> simp only [V3.norm, V3.mul, V3.mag]
    · linear_combination -v.x * h2
    · linear_combination -v.y * h2
    · linear_combination -v.z * h2

theorem Frame.of_pair {s f : V3 ℝ} (hs : s.mag2 = 1) (hf : f.mag2 = 1) (h0 : s.dot f = 0) : Frame s (s.cross f) (f.mul (-1)) ∧ Frame s (f.cross s) f := by
  simp only [V3.mag2, V3.dot] at hs hf h0
  constructor
  · refine ⟨hs, ?_, ?_, ?_, ?_, ?_, ?_⟩
    · simp only [V3.mag2, V3.dot, V3.cross]
      linear_combination (f.x * f.x + f.y * f.y + f.z * f.z) * hs + hf - (s.x * f.x + s.y * f.y + s.z * f.z) * h0
    · simp only [V3.mag2, V3.dot, V3.mul]; linear_combination hf
    · simp only [V3.dot, V3.cross]; ring
    · simp only [V3.dot, V3.mul]; linear_combination -h0
    · simp only [V3.dot, V3.cross, V3.mul]; ring
    · apply V3.ext' <;> simp only [V3.cross, V3.mul]
      · linear_combination s.x * h0 - f.x * hs
      · linear_combination s.y * h0 - f.y * hs
      · linear_combination s.z * h0 - f.z * hs
  · refine ⟨hs, ?_, hf, ?_, h0, ?_, ?_⟩
    · simp only [V3.mag2, V3.dot, V3.cross]
      linear_combination (f.x * f.x + f.y * f.y + f.z * f.z) * hs + hf - (s.x * f.x + s.y * f.y + s.z * f.z) * h0
    · simp only [V3.dot, V3.cross]; ring
    · simp only [V3.dot, V3.cross]; ring
    · apply V3.ext' <;> simp only [V3.cross]
      · linear_combination -s.x * h0 + f.x * hs
      · linear_combination -s.y * h0 + f.y * hs
      · linear_combination -s.z * h0 + f.z * hs

/-- The other two products of a frame. -/
theorem Frame.cross {s u b : V3 ℝ} (h : Frame s u b) : u.cross b = s ∧ b.cross s = u := by
  obtain ⟨h1, h2, -, h4, -, -, rfl⟩ := h
  simp only [V3.mag2, V3.dot] at h1 h2 h4
  constructor
  · apply V3.ext' <;> simp only [V3.cross]
    · linear_combination s.x * h2 - u.x * h4
    · linear_combination s.y * h2 - u.y * h4
    · linear_combination s.z * h2 - u.z * h4
  · apply V3.ext' <;> simp only [V3.cross]
    · linear_combination u.x * h1 - s.x * h4
    · linear_combination u.y * h1 - s.y * h4
    · linear_combination u.z * h1 - s.z * h4

/-- A transformation of space that keeps distances and does not mirror. -/
def Rigid (m : Mat 4 ℝ) : Prop :=
  (∀ p : V3 ℝ, (mulVec4 m p.point).w = 1) ∧
  (∀ p q : V3 ℝ, ((mulVec4 m p.point).xyz.sub (mulVec4 m q.point).xyz).mag2 = (p.sub q).mag2) ∧
  ∀ o p q : V3 ℝ, ((mulVec4 m p.point).xyz.sub (mulVec4 m o.point).xyz).cross ((mulVec4 m q.point).xyz.sub (mulVec4 m o.point).xyz) =
    (mulVec4 m (o.add ((p.sub o).cross (q.sub o))).point).xyz.sub (mulVec4 m o.point).xyz

theorem view_rigid {s u b : V3 ℝ} (h : Frame s u b) (eye : V3 ℝ) : Rigid (view s u b eye) := by
  refine ⟨fun p => by rw [view_point], fun p q => ?_, fun o p q => ?_⟩
  · have e := frame_dot h (p.sub q) (p.sub q)
    have l : ∀ a : V3 ℝ, a.dot (p.sub eye) - a.dot (q.sub eye) = a.dot (p.sub q) := by
      intro a; simp only [V3.dot, V3.sub]; ring
    simp only [view_point, V4.xyz, V3.sub] at *
    simp only [V3.mag2, V3.dot] at *
    rw [← e, l, l, l]
  · obtain ⟨c1, c2⟩ := h.cross
    have c3 := h.2.2.2.2.2.2
    have l : ∀ (a p : V3 ℝ), a.dot (p.sub eye) - a.dot (o.sub eye) = a.dot (p.sub o) := by
      intro a p; simp only [V3.dot, V3.sub]; ring
    have l' : ∀ (a v : V3 ℝ), a.dot ((o.add v).sub eye) - a.dot (o.sub eye) = a.dot v := by
      intro a v; simp only [V3.dot, V3.sub, V3.add]; ring
    have bc : ∀ a b v w : V3 ℝ, a.dot v * b.dot w - b.dot v * a.dot w = (a.cross b).dot (v.cross w) := by
      intro a b v w; simp only [V3.dot, V3.cross]; ring
    simp only [view_point, V4.xyz]
    apply V3.ext'
    · show (u.dot (p.sub eye) - u.dot (o.sub eye)) * (b.dot (q.sub eye) - b.dot (o.sub eye)) - (b.dot (p.sub eye) - b.dot (o.sub eye)) * (u.dot (q.sub eye) - u.dot (o.sub eye)) = s.dot _ - s.dot _
      rw [l, l, l, l, l', bc, c1]
    · show (b.dot (p.sub eye) - b.dot (o.sub eye)) * (s.dot (q.sub eye) - s.dot (o.sub eye)) - (s.dot (p.sub eye) - s.dot (o.sub eye)) * (b.dot (q.sub eye) - b.dot (o.sub eye)) = u.dot _ - u.dot _
      rw [l, l, l, l, l', bc, c2]
    · show (s.dot (p.sub eye) - s.dot (o.sub eye)) * (u.dot (q.sub eye) - u.dot (o.sub eye)) - (u.dot (p.sub eye) - u.dot (o.sub eye)) * (s.dot (q.sub eye) - s.dot (o.sub eye)) = b.dot _ - b.dot _
      rw [l, l, l, l, l', bc, c3]

/-- C101: the view from `eye` to `centre` keeps distances and does not mirror; it puts the eye at the origin and the centre straight ahead on the negative `z` axis at its distance, and `up`
points upwards in the picture. -/
theorem C101_look_at (eye centre up : V3 ℝ) (h : centre.sub eye ≠ V3.zero) (hup : (centre.sub eye).norm.cross up ≠ V3.zero) :
    let m := look_at eye centre up
    Rigid m ∧ mulVec4 m eye.point = V3.zero.point ∧ mulVec4 m centre.point = V3.point ⟨0, 0, -(centre.sub eye).mag⟩ ∧
    (mulVec4 m (eye.add up).point).x = 0 ∧ 0 < (mulVec4 m (eye.add up).point).y := by
  obtain ⟨f1, f2, -⟩ := V3.norm_scaled h
  obtain ⟨s1, s2, s3⟩ := V3.norm_scaled hup
  simp only [look_at]
  generalize hf : (centre.sub eye).norm = f at *
  generalize hs : (f.cross up).norm = s at *
  generalize (f.cross up).mag = k at *
  generalize (centre.sub eye).mag = d at *
  have hsf : s.dot f = 0 := by
    have e : s.dot f * k = f.dot (s.mul k) := by simp only [V3.dot, V3.mul]; ring
    rw [← s2, (C93_cross f up).1] at e
    exact (mul_eq_zero.mp e).resolve_right (ne_of_gt s3)
  have hsu : s.dot up = 0 := by
    have e : s.dot up * k = up.dot (s.mul k) := by simp only [V3.dot, V3.mul]; ring
    rw [← s2, (C93_cross f up).2.1] at e
    exact (mul_eq_zero.mp e).resolve_right (ne_of_gt s3)
  have huu : (s.cross f).dot up = k := by
    have e : (s.cross f).dot up = s.dot (f.cross up) := by simp only [V3.dot, V3.cross]; ring
    rw [e, s2]
    simp only [V3.mag2, V3.dot, V3.mul] at s1 ⊢
    linear_combination k * s1
  have z : ∀ v : V3 ℝ, v.dot (eye.sub eye) = 0 := by intro v; simp only [V3.dot, V3.sub]; ring
  have a : ∀ v : V3 ℝ, v.dot ((eye.add up).sub eye) = v.dot up := by intro v; simp only [V3.dot, V3.sub, V3.add]; ring
  have c : ∀ v : V3 ℝ, v.dot (centre.sub eye) = d * v.dot f := by intro v; rw [f2]; simp only [V3.dot, V3.mul]; ring
  refine ⟨view_rigid (Frame.of_pair s1 f1 hsf).1 eye, ?_, ?_, ?_, ?_⟩
  · rw [view_point, z, z, z]; rfl
  · have h1 : (s.cross f).dot f = 0 := by simp only [V3.dot, V3.cross]; ring
    have h2 : (f.mul (-1)).dot f = -1 := by simp only [V3.mag2, V3.dot, V3.mul] at f1 ⊢; linear_combination -f1
    rw [view_point, c, c, c, hsf, h1, h2, mul_zero, mul_neg, mul_one]; rfl
  · rw [view_point]; exact (a s).trans hsu
  · rw [view_point]; show 0 < (s.cross f).dot _; rw [a, huu]; exact s3

/-- C101: the left-handed view puts the centre on the positive `z` axis instead. -/
theorem C101_look_at_lh (eye centre up : V3 ℝ) (h : centre.sub eye ≠ V3.zero) (hup : up.cross (centre.sub eye).norm ≠ V3.zero) :
    let m := look_at_lh eye centre up
    Rigid m ∧ mulVec4 m eye.point = V3.zero.point ∧ mulVec4 m centre.point = V3.point ⟨0, 0, (centre.sub eye).mag⟩ ∧
    (mulVec4 m (eye.add up).point).x = 0 ∧ 0 < (mulVec4 m (eye.add up).point).y := by
  obtain ⟨f1, f2, -⟩ := V3.norm_scaled h
  obtain ⟨s1, s2, s3⟩ := V3.norm_scaled hup
  simp only [look_at_lh]
  generalize hf : (centre.sub eye).norm = f at *
  generalize hs : (up.cross f).norm = s at *
  generalize (up.cross f).mag = k at *
  generalize (centre.sub eye).mag = d at *
  have hsf : s.dot f = 0 := by
    have e : s.dot f * k = f.dot (s.mul k) := by simp only [V3.dot, V3.mul]; ring
    rw [← s2, (C93_cross up f).2.1] at e
    exact (mul_eq_zero.mp e).resolve_right (ne_of_gt s3)
  have hsu : s.dot up = 0 := by
    have e : s.dot up * k = up.dot (s.mul k) := by simp only [V3.dot, V3.mul]; ring
    rw [← s2, (C93_cross up f).1] at e
    exact (mul_eq_zero.mp e).resolve_right (ne_of_gt s3)
  have huu : (f.cross s).dot up = k := by
    have e : (f.cross s).dot up = s.dot (up.cross f) := by simp only [V3.dot, V3.cross]; ring
    rw [e, s2]
    simp only [V3.mag2, V3.dot, V3.mul] at s1 ⊢
    linear_combination k * s1
  have z : ∀ v : V3 ℝ, v.dot (eye.sub eye) = 0 := by intro v; simp only [V3.dot, V3.sub]; ring
  have a : ∀ v : V3 ℝ, v.dot ((eye.add up).sub eye) = v.dot up := by intro v; simp only [V3.dot, V3.sub, V3.add]; ring
  have c : ∀ v : V3 ℝ, v.dot (centre.sub eye) = d * v.dot f := by intro v; rw [f2]; simp only [V3.dot, V3.mul]; ring
  refine ⟨view_rigid (Frame.of_pair s1 f1 hsf).2 eye, ?_, ?_, ?_, ?_⟩
  · rw [view_point, z, z, z]; rfl
  · have h1 : (f.cross s).dot f = 0 := by simp only [V3.dot, V3.cross]; ring
    have h2 : f.dot f = 1 := f1
    rw [view_point, c, c, c, hsf, h1, h2, mul_zero, mul_one]; rfl
  · rw [view_point]; exact (a s).trans hsu
  · rw [view_point]; show 0 < (f.cross s).dot _; rw [a, huu]; exact s3

/-- The hypotheses of the two theorems, met: looking from (1, 2, 3) at (1, 2, 0), with `y` up. -/
example : (⟨1, 2, 0⟩ : V3 ℝ).sub ⟨1, 2, 3⟩ ≠ V3.zero ∧ ((⟨1, 2, 0⟩ : V3 ℝ).sub ⟨1, 2, 3⟩).norm.cross ⟨0, 1, 0⟩ ≠ V3.zero := by
  have h : (⟨1, 2, 0⟩ : V3 ℝ).sub ⟨1, 2, 3⟩ ≠ V3.zero := by intro h; have := congrArg V3.z h; norm_num [V3.zero, V3.sub] at this
  refine ⟨h, fun h' => ?_⟩
  obtain ⟨-, h2, -⟩ := V3.norm_scaled h
  have h3 := congrArg V3.x h'
  have h4 := congrArg V3.z h2
  simp only [V3.cross, V3.zero, mul_zero, mul_one, zero_sub, neg_eq_zero] at h3
  simp only [V3.mul] at h4
  rw [h3, zero_mul] at h4
  norm_num [V3.sub] at h4

end Zpl.Math
