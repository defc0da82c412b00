import Verif.Math.Project
import Verif.Math.Rect

/-!
# What the camera sees (code/source/math.c:1353-1512)  -  C102

## Model

The arithmetic is exact, the square root that of the real numbers. -/

set_option linter.unusedSectionVars false
set_option linter.unusedSimpArgs false

namespace Zpl.Math

/-- `zpl_plane` -/
structure Plane where
  a : ℝ
  b : ℝ
  c : ℝ
  d : ℝ

/-- `zpl_frustum` -/
structure Frustum where
  x1 : Plane
  x2 : Plane
  y1 : Plane
  y2 : Plane
  z1 : Plane
  z2 : Plane

/-- math.c:1353-1355 `zpl_plane_distance`. -/
def Plane.distance (p : Plane) (v : V3 ℝ) : ℝ := p.a * v.x + p.b * v.y + p.c * v.z + p.d

/-- math.c:1371-1376: `rmag = zpl_rsqrt(…)` and the four multiplications. -/
noncomputable def Plane.scaled (p : Plane) : Plane :=
  let rmag := rsqrt (p.a * p.a + p.b * p.b + p.c * p.c)
  ⟨p.a * rmag, p.b * rmag, p.c * rmag, p.d * rmag⟩

/-- math.c:1362-1446: the six planes; `pv.x.w` is `pv[0][3]`. -/
noncomputable def planes (pv : Mat 4 ℝ) : Frustum where
  x1 := Plane.scaled ⟨pv 0 3 + pv 0 0, pv 1 3 + pv 0 1, pv 2 3 + pv 0 2, pv 3 3 + pv 0 3⟩
  x2 := Plane.scaled ⟨pv 0 3 - pv 0 0, pv 1 3 - pv 0 1, pv 2 3 - pv 0 2, pv 3 3 - pv 0 3⟩
  y1 := Plane.scaled ⟨pv 0 3 - pv 1 0, pv 1 3 - pv 1 1, pv 2 3 - pv 1 3, pv 3 3 - pv 1 2⟩
  y2 := Plane.scaled ⟨pv 0 3 + pv 1 0, pv 1 3 + pv 1 1, pv 2 3 + pv 1 2, pv 3 3 + pv 1 3⟩
  z1 := Plane.scaled ⟨pv 0 3 + pv 2 0, pv 1 3 + pv 2 1, pv 2 3 + pv 2 2, pv 3 3 + pv 2 3⟩
  z2 := Plane.scaled ⟨pv 0 3 - pv 2 0, pv 1 3 - pv 2 1, pv 2 3 - pv 2 2, pv 3 3 - pv 2 3⟩

/-- math.c:1357-1447 `zpl_frustum_create`.  `pv` is a variable of its own, so the product (C94) is `entry4`, place by place. -/
noncomputable def frustum_create (camera proj : Mat 4 ℝ) : Frustum := planes (fun j i => entry4 camera proj j i)

/-- math.c:1449-1458 `zpl_frustum_sphere_inside`. -/
noncomputable def sphere_inside (f : Frustum) (center : V3 ℝ) (radius : ℝ) : Bool :=
  if f.x1.distance center ≤ -radius then false
  else if f.x2.distance center ≤ -radius then false
  else if f.y1.distance center ≤ -radius then false
  else if f.y2.distance center ≤ -radius then false
  else if f.z1.distance center ≤ -radius then false
  else if f.z2.distance center ≤ -radius then false
  else true

/-- math.c:1460-1462 `zpl_frustum_point_inside`. -/
noncomputable def point_inside (f : Frustum) (p : V3 ℝ) : Bool := sphere_inside f p 0

/-- math.c:1464-1512 `zpl_frustum_box_inside`. -/
noncomputable def box_inside (f : Frustum) (aabb : Aabb3 ℝ) : Bool :=
  let box := (aabb.max.sub aabb.min).div 2
  let center := aabb.min.add box
  if point_inside f (V3.add ⟨-box.x, -box.y, -box.z⟩ center) then true
  else if point_inside f (V3.add ⟨box.x, -box.y, -box.z⟩ center) then true
  else if point_inside f (V3.add ⟨-box.x, box.y, -box.z⟩ center) then true
  else if point_inside f (V3.add ⟨box.x, box.y, -box.z⟩ center) then true
  else if point_inside f (V3.add ⟨box.x, box.y, box.z⟩ center) then true
  else if point_inside f (V3.add ⟨-box.x, box.y, box.z⟩ center) then true
  else if point_inside f (V3.add ⟨-box.x, -box.y, box.z⟩ center) then true
  else if point_inside f (V3.add ⟨box.x, -box.y, box.z⟩ center) then true
  else false

/-! ## Specification -/

/-- The signed distance of `v` from a plane whose normal `(a, b, c)` has length 1. -/
def Plane.dist (p : Plane) (v : V3 ℝ) : ℝ := p.a * v.x + p.b * v.y + p.c * v.z + p.d

/-- A point lies on the inner side of the six planes. -/
def Frustum.Holds (f : Frustum) (v : V3 ℝ) : Prop :=
  0 < f.x1.dist v ∧ 0 < f.x2.dist v ∧ 0 < f.y1.dist v ∧ 0 < f.y2.dist v ∧ 0 < f.z1.dist v ∧ 0 < f.z2.dist v

/-- The normals have length 1. -/
def Plane.Unit (p : Plane) : Prop := p.a ^ 2 + p.b ^ 2 + p.c ^ 2 = 1
/-- The six normals have length 1. -/
def Frustum.Unit (f : Frustum) : Prop := f.x1.Unit ∧ f.x2.Unit ∧ f.y1.Unit ∧ f.y2.Unit ∧ f.z1.Unit ∧ f.z2.Unit

/-- A point lies in a closed box. -/
def Aabb3.Holds (a : Aabb3 ℝ) (v : V3 ℝ) : Prop :=
  a.min.x ≤ v.x ∧ v.x ≤ a.max.x ∧ a.min.y ≤ v.y ∧ v.y ≤ a.max.y ∧ a.min.z ≤ v.z ∧ v.z ≤ a.max.z

/-- A corner of a box. -/
def Aabb3.Corner (a : Aabb3 ℝ) (v : V3 ℝ) : Prop :=
  (v.x = a.min.x ∨ v.x = a.max.x) ∧ (v.y = a.min.y ∨ v.y = a.max.y) ∧ (v.z = a.min.z ∨ v.z = a.max.z)

/-! ## C102 -/

theorem sphere_inside_iff (f : Frustum) (c : V3 ℝ) (r : ℝ) :
    sphere_inside f c r = true ↔ -r < f.x1.dist c ∧ -r < f.x2.dist c ∧ -r < f.y1.dist c ∧ -r < f.y2.dist c ∧ -r < f.z1.dist c ∧ -r < f.z2.dist c := by
  simp only [sphere_inside, show ∀ p : Plane, p.distance c = p.dist c from fun _ => rfl]
  by_cases h1 : f.x1.dist c ≤ -r
  · simp [h1]
  by_cases h2 : f.x2.dist c ≤ -r
  · simp [h1, h2]
  by_cases h3 : f.y1.dist c ≤ -r
  · simp [h1, h2, h3]
  by_cases h4 : f.y2.dist c ≤ -r
  · simp [h1, h2, h3, h4]
  by_cases h5 : f.z1.dist c ≤ -r
  · simp [h1, h2, h3, h4, h5]
  by_cases h6 : f.z2.dist c ≤ -r
  · simp [h1, h2, h3, h4, h5, h6]
  simp [h1, h2, h3, h4, h5, h6]
  exact ⟨not_le.mp h1, not_le.mp h2, not_le.mp h3, not_le.mp h4, not_le.mp h5, not_le.mp h6⟩

/-- C102: a point is reported inside exactly when it is on the inner side of the six planes. -/
theorem C102_point (f : Frustum) (v : V3 ℝ) : point_inside f v = true ↔ f.Holds v := by
  rw [point_inside, sphere_inside_iff, neg_zero]; rfl

/-- The distance from a plane changes by no more than the distance moved. -/
theorem Plane.near (p : Plane) (hp : p.Unit) (c v : V3 ℝ) (r : ℝ) (hr : 0 ≤ r) (h : (v.sub c).mag2 ≤ r ^ 2) : p.dist v ≤ p.dist c + r := by
  simp only [Plane.Unit] at hp
  simp only [V3.mag2, V3.dot, V3.sub] at h
  generalize hx : v.x - c.x = x at *
  generalize hy : v.y - c.y = y at *
  generalize hz : v.z - c.z = z at *
  have e : p.dist v = p.dist c + (p.a * x + p.b * y + p.c * z) := by
    simp only [Plane.dist, ← hx, ← hy, ← hz]; ring
  rw [e]
  have hcs : (p.a * x + p.b * y + p.c * z) ^ 2 ≤ r ^ 2 := by
    nlinarith [sq_nonneg (p.a * y - p.b * x), sq_nonneg (p.a * z - p.c * x), sq_nonneg (p.b * z - p.c * y)]
  linarith [abs_le_of_sq_le_sq' hcs hr]

/-- C102: no point of a ball that is reported outside is inside, so nothing that can be seen is left out. -/
theorem C102_sphere (f : Frustum) (hf : f.Unit) (c : V3 ℝ) (r : ℝ) (hr : 0 ≤ r) (h : sphere_inside f c r = false) (v : V3 ℝ) (hv : (v.sub c).mag2 ≤ r ^ 2) :
    ¬ f.Holds v := by
  intro hin
  have hn : ¬ sphere_inside f c r = true := by rw [h]; exact Bool.false_ne_true
  apply hn
  rw [sphere_inside_iff]
  obtain ⟨u1, u2, u3, u4, u5, u6⟩ := hf
  obtain ⟨h1, h2, h3, h4, h5, h6⟩ := hin
  refine ⟨?_, ?_, ?_, ?_, ?_, ?_⟩
  · linarith [f.x1.near u1 c v r hr hv]
  · linarith [f.x2.near u2 c v r hr hv]
  · linarith [f.y1.near u3 c v r hr hv]
  · linarith [f.y2.near u4 c v r hr hv]
  · linarith [f.z1.near u5 c v r hr hv]
  · linarith [f.z2.near u6 c v r hr hv]

/-- C102: a box is reported inside exactly when one of its corners is inside; so if it is, some point of the box is. -/
theorem C102_box_partial (f : Frustum) (a : Aabb3 ℝ) : box_inside f a = true ↔ ∃ v, a.Corner v ∧ f.Holds v := by
  have e : ∀ (i j k : ℝ), V3.add ⟨i, j, k⟩ (a.min.add ((a.max.sub a.min).div 2)) =
      ⟨i + (a.min.x + (a.max.x - a.min.x) / 2), j + (a.min.y + (a.max.y - a.min.y) / 2), k + (a.min.z + (a.max.z - a.min.z) / 2)⟩ := fun _ _ _ => rfl
  have n : ∀ p q : ℝ, -((q - p) / 2) + (p + (q - p) / 2) = p := by intros; ring
  have m : ∀ p q : ℝ, (q - p) / 2 + (p + (q - p) / 2) = q := by intros; ring
  have d : ∀ p q : V3 ℝ, (p.sub q).div 2 = ⟨(p.x - q.x) / 2, (p.y - q.y) / 2, (p.z - q.z) / 2⟩ := fun _ _ => rfl
  have c : ∀ (p b : Bool), (if p = true then true else b) = true ↔ p = true ∨ b = true := by intro p b; cases p <;> simp
  simp only [box_inside, e]
  simp only [d, n, m]
  simp only [c, C102_point, Bool.false_eq_true, or_false]
  constructor
  · rintro (h | h | h | h | h | h | h | h) <;> exact ⟨_, ⟨by simp, by simp, by simp⟩, h⟩
  · rintro ⟨⟨x, y, z⟩, ⟨h1, h2, h3⟩, h⟩
    simp only at h1 h2 h3
    rcases h1 with rfl | rfl <;> rcases h2 with rfl | rfl <;> rcases h3 with rfl | rfl <;> simp [h]

/-- The cube from -1 to 1. -/
def cube : Frustum := ⟨⟨1, 0, 0, 1⟩, ⟨-1, 0, 0, 1⟩, ⟨0, -1, 0, 1⟩, ⟨0, 1, 0, 1⟩, ⟨0, 0, 1, 1⟩, ⟨0, 0, -1, 1⟩⟩

/-- C102, what fails: a box that is reported outside may hold all that can be seen, however large it is. -/
theorem C102_box_around_lost (R : ℝ) (hR : 1 < R) :
    cube.Unit ∧ (∀ v, cube.Holds v → (⟨⟨-R, -R, -R⟩, ⟨R, R, R⟩⟩ : Aabb3 ℝ).Holds v) ∧ cube.Holds V3.zero ∧ box_inside cube ⟨⟨-R, -R, -R⟩, ⟨R, R, R⟩⟩ = false := by
  refine ⟨by simp [cube, Frustum.Unit, Plane.Unit], ?_, by simp [cube, Frustum.Holds, Plane.dist, V3.zero], ?_⟩
  · intro v h
    simp only [cube, Frustum.Holds, Plane.dist] at h
    obtain ⟨h1, h2, h3, h4, h5, h6⟩ := h
    refine ⟨?_, ?_, ?_, ?_, ?_, ?_⟩ <;> simp only <;> linarith
  · rw [Bool.eq_false_iff]
    intro h
    rw [C102_box_partial] at h
    obtain ⟨⟨x, y, z⟩, ⟨h1, -, -⟩, h⟩ := h
    simp only [cube, Frustum.Holds, Plane.dist] at h h1
    obtain ⟨a1, a2, -⟩ := h
    rcases h1 with rfl | rfl <;> linarith

/-! ### The planes of a camera -/

theorem scaled_pos (p : Plane) (h : 0 < p.a * p.a + p.b * p.b + p.c * p.c) (v : V3 ℝ) : 0 < p.scaled.dist v ↔ 0 < p.a * v.x + p.b * v.y + p.c * v.z + p.d := by
  obtain ⟨-, h2, h3⟩ := rsqrt_mul _ h
  have hr : 0 < rsqrt (p.a * p.a + p.b * p.b + p.c * p.c) := div_pos one_pos h3
  have e : p.scaled.dist v = (p.a * v.x + p.b * v.y + p.c * v.z + p.d) * rsqrt (p.a * p.a + p.b * p.b + p.c * p.c) := by
    simp only [Plane.scaled, Plane.dist]; ring
  rw [e]
  exact mul_pos_iff_of_pos_right hr

/-- C102: the normals of the planes have length 1, unless they vanish. -/
theorem C102_unit (p : Plane) (h : ¬ (p.a = 0 ∧ p.b = 0 ∧ p.c = 0)) : p.scaled.Unit := by
  have hp : 0 < p.a * p.a + p.b * p.b + p.c * p.c := by
    have h1 := mul_self_nonneg p.a; have h2 := mul_self_nonneg p.b; have h3 := mul_self_nonneg p.c
    rcases lt_or_eq_of_le (show 0 ≤ p.a * p.a + p.b * p.b + p.c * p.c by linarith) with h' | h'
    · exact h'
    · exact absurd ⟨mul_self_eq_zero.mp (by linarith), mul_self_eq_zero.mp (by linarith), mul_self_eq_zero.mp (by linarith)⟩ h
  obtain ⟨h1, -, -⟩ := rsqrt_mul _ hp
  simp only [Plane.Unit, Plane.scaled]
  linear_combination h1

/-- C102, what is found for a camera at the origin: the cone is right; the depth runs from `(far - near) / (2 far)` to `(far - near) / (2 near)`. -/
theorem C102_camera_partial (fovy aspect z_near z_far : ℝ) (h1 : 0 < fovy) (h2 : fovy < Real.pi) (ha : 0 < aspect) (hn : 0 < z_near) (hf : z_near < z_far) (v : V3 ℝ) :
    point_inside (frustum_create identity (perspective fovy aspect z_near z_far)) v = true ↔
      |v.x| < aspect * Real.tan (1 / 2 * fovy) * -v.z ∧ |v.y| < Real.tan (1 / 2 * fovy) * -v.z ∧
      (z_far - z_near) / (2 * z_far) < -v.z ∧ -v.z < (z_far - z_near) / (2 * z_near) := by
  have ht := tan_half_pos h1 h2
  have hfn : 0 < z_far - z_near := by linarith
  have hff : 0 < z_far := lt_trans hn hf
  rw [C102_point]
  simp only [Frustum.Holds, frustum_create, planes]
  have hc : ∀ j i, entry4 identity (perspective fovy aspect z_near z_far) j i = perspective fovy aspect z_near z_far j i := by
    intro j i; fin_cases i <;> simp [entry4, identity]
  simp only [hc]
  simp only [perspective]
  generalize Real.tan (1 / 2 * fovy) = t at *
  have hat : 0 < aspect * t := mul_pos ha ht
  generalize hA : 1 / (aspect * t) = A at *
  generalize hT : 1 / t = T at *
  generalize hM : -(z_far + z_near) / (z_far - z_near) = M at *
  simp [Mat.set, zeroMat]
  have hM1 : (-1 + M) * (z_far - z_near) = -2 * z_far := by rw [← hM]; field_simp; ring
  have hM2 : (-1 - M) * (z_far - z_near) = 2 * z_near := by rw [← hM]; field_simp; ring
  have p1 : 0 < (-1 + M) * (-1 + M) := mul_self_pos.mpr fun e => by rw [e, zero_mul] at hM1; linarith
  have p2 : 0 < (-1 - M) * (-1 - M) := mul_self_pos.mpr fun e => by rw [e, zero_mul] at hM2; linarith
  have qA := mul_self_nonneg A
  have qT := mul_self_nonneg T
  rw [scaled_pos ⟨A, 0, -1, 0⟩ (by simp only; linarith), scaled_pos ⟨-A, 0, -1, 0⟩ (by simp only; linarith), scaled_pos ⟨0, -T, -1, 0⟩ (by simp only; linarith),
    scaled_pos ⟨0, T, -1, 0⟩ (by simp only; linarith), scaled_pos ⟨0, 0, -1 + M, -1⟩ (by simp only; linarith), scaled_pos ⟨0, 0, -1 - M, 1⟩ (by simp only; linarith)]
  simp only
  have eA : ∀ x, A * x < -v.z ↔ x < aspect * t * -v.z := by
    intro x; rw [← hA, one_div, inv_mul_lt_iff₀ hat]
  have eT : ∀ x, T * x < -v.z ↔ x < t * -v.z := by
    intro x; rw [← hT, one_div, inv_mul_lt_iff₀ ht]
  have z1 : 0 < (-1 + M) * v.z - 1 ↔ (z_far - z_near) / (2 * z_far) < -v.z := by
    rw [div_lt_iff₀ (by linarith), ← mul_pos_iff_of_pos_right hfn]
    have : ((-1 + M) * v.z - 1) * (z_far - z_near) = -v.z * (2 * z_far) - (z_far - z_near) := by linear_combination v.z * hM1
    rw [this, sub_pos]
  have z2 : 0 < (-1 - M) * v.z + 1 ↔ -v.z < (z_far - z_near) / (2 * z_near) := by
    rw [lt_div_iff₀ (by linarith), ← mul_pos_iff_of_pos_right hfn]
    have : ((-1 - M) * v.z + 1) * (z_far - z_near) = (z_far - z_near) - -v.z * (2 * z_near) := by linear_combination v.z * hM2
    rw [this, sub_pos]
  have a1 := eA v.x; have a2 := eA (-v.x); have a3 := eT v.y; have a4 := eT (-v.y)
  rw [abs_lt, abs_lt, ← z1, ← z2]
  constructor
  · rintro ⟨h1, h2, h3, h4, h5, h6⟩
    refine ⟨⟨?_, ?_⟩, ⟨?_, ?_⟩, by linarith, by linarith⟩
    · linarith [a2.mp (by linarith)]
    · linarith [a1.mp (by linarith)]
    · linarith [a4.mp (by linarith)]
    · linarith [a3.mp (by linarith)]
  · rintro ⟨⟨h1, h2⟩, ⟨h3, h4⟩, h5, h6⟩
    refine ⟨?_, ?_, ?_, ?_, by linarith, by linarith⟩
    · linarith [a2.mpr (by linarith)]
    · linarith [a1.mpr (by linarith)]
    · linarith [a3.mpr (by linarith)]
    · linarith [a4.mpr (by linarith)]

/-- C102, what fails: so the near and far planes of the camera are not those of the projection, unless `1/near - 1/far = 2`: some point on the axis is between the planes and reported outside, or before
the near plane and reported inside. -/
theorem C102_depth_wrong (fovy aspect z_near z_far : ℝ) (h1 : 0 < fovy) (h2 : fovy < Real.pi) (ha : 0 < aspect) (hn : 0 < z_near) (hf : z_near < z_far)
    (hne : z_far - z_near ≠ 2 * z_near * z_far) :
    ∃ d, 0 < d ∧ ¬ (point_inside (frustum_create identity (perspective fovy aspect z_near z_far)) ⟨0, 0, -d⟩ = true ↔ z_near < d ∧ d < z_far) := by
  have ht := tan_half_pos h1 h2
  have hff : 0 < z_far := lt_trans hn hf
  have key : ∀ d : ℝ, 0 < d → (point_inside (frustum_create identity (perspective fovy aspect z_near z_far)) ⟨0, 0, -d⟩ = true ↔
      (z_far - z_near) / (2 * z_far) < d ∧ d < (z_far - z_near) / (2 * z_near)) := by
    intro d hd
    rw [C102_camera_partial fovy aspect z_near z_far h1 h2 ha hn hf]
    simp only [abs_zero, neg_neg]
    exact ⟨fun h => h.2.2, fun h => ⟨mul_pos (mul_pos ha ht) hd, mul_pos ht hd, h⟩⟩
  have hcmp : (z_far - z_near) / (2 * z_far) < (z_far - z_near) / (2 * z_near) := div_lt_div_of_pos_left (by linarith) (by linarith) (by linarith)
  have hpos : 0 < (z_far - z_near) / (2 * z_far) := div_pos (by linarith) (by linarith)
  rcases lt_or_gt_of_ne hne with h | h
  · -- the near plane found is too near
    have hlt : (z_far - z_near) / (2 * z_far) < z_near := by rw [div_lt_iff₀ (by linarith)]; linarith
    refine ⟨min z_near (((z_far - z_near) / (2 * z_far) + (z_far - z_near) / (2 * z_near)) / 2), lt_min hn (by linarith), ?_⟩
    rw [key _ (lt_min hn (by linarith))]
    intro hiff
    have := hiff.mp ⟨lt_min hlt (by linarith), lt_of_le_of_lt (min_le_right _ _) (by linarith)⟩
    exact absurd this.1 (not_lt.mpr (min_le_left _ _))
  · -- too far
    have hgt : z_near < (z_far - z_near) / (2 * z_far) := by rw [lt_div_iff₀ (by linarith)]; linarith
    refine ⟨min ((z_far - z_near) / (2 * z_far)) ((z_near + z_far) / 2), lt_min hpos (by linarith), ?_⟩
    rw [key _ (lt_min hpos (by linarith))]
    intro hiff
    have := hiff.mpr ⟨lt_min hgt (by linarith), lt_of_le_of_lt (min_le_right _ _) (by linarith)⟩
    exact absurd this.1 (not_lt.mpr (min_le_left _ _))

/-- C102, what fails: the position in the product of camera and projection is not looked at, so with no projection the camera sees the same wherever it is. -/
theorem C102_position_ignored (camera : Mat 4 ℝ) (x y z : ℝ) :
    frustum_create (((camera.set 3 0 x).set 3 1 y).set 3 2 z) identity = frustum_create camera identity := by
  have e : ∀ m : Mat 4 ℝ, (fun j i => entry4 m identity j i) = m := by
    intro m; funext j i; fin_cases j <;> simp [entry4, identity]
  simp only [frustum_create, e]
  simp [planes, Mat.set]

/-- C102: what the six planes of a matrix are, for every matrix: the coefficients in front of the point and the offset, up to a positive factor. -/
theorem C102_planes (m : Mat 4 ℝ) (v : V3 ℝ)
    (h1 : ¬ (m 0 3 + m 0 0 = 0 ∧ m 1 3 + m 0 1 = 0 ∧ m 2 3 + m 0 2 = 0)) (h2 : ¬ (m 0 3 - m 0 0 = 0 ∧ m 1 3 - m 0 1 = 0 ∧ m 2 3 - m 0 2 = 0))
    (h3 : ¬ (m 0 3 - m 1 0 = 0 ∧ m 1 3 - m 1 1 = 0 ∧ m 2 3 - m 1 3 = 0)) (h4 : ¬ (m 0 3 + m 1 0 = 0 ∧ m 1 3 + m 1 1 = 0 ∧ m 2 3 + m 1 2 = 0))
    (h5 : ¬ (m 0 3 + m 2 0 = 0 ∧ m 1 3 + m 2 1 = 0 ∧ m 2 3 + m 2 2 = 0)) (h6 : ¬ (m 0 3 - m 2 0 = 0 ∧ m 1 3 - m 2 1 = 0 ∧ m 2 3 - m 2 2 = 0)) :
    point_inside (frustum_create m identity) v = true ↔
      0 < (m 0 3 + m 0 0) * v.x + (m 1 3 + m 0 1) * v.y + (m 2 3 + m 0 2) * v.z + (m 3 3 + m 0 3) ∧
      0 < (m 0 3 - m 0 0) * v.x + (m 1 3 - m 0 1) * v.y + (m 2 3 - m 0 2) * v.z + (m 3 3 - m 0 3) ∧
      0 < (m 0 3 - m 1 0) * v.x + (m 1 3 - m 1 1) * v.y + (m 2 3 - m 1 3) * v.z + (m 3 3 - m 1 2) ∧
      0 < (m 0 3 + m 1 0) * v.x + (m 1 3 + m 1 1) * v.y + (m 2 3 + m 1 2) * v.z + (m 3 3 + m 1 3) ∧
      0 < (m 0 3 + m 2 0) * v.x + (m 1 3 + m 2 1) * v.y + (m 2 3 + m 2 2) * v.z + (m 3 3 + m 2 3) ∧
      0 < (m 0 3 - m 2 0) * v.x + (m 1 3 - m 2 1) * v.y + (m 2 3 - m 2 2) * v.z + (m 3 3 - m 2 3) := by
  have pos : ∀ a b c : ℝ, ¬ (a = 0 ∧ b = 0 ∧ c = 0) → 0 < a * a + b * b + c * c := by
    intro a b c h
    have e1 := mul_self_nonneg a; have e2 := mul_self_nonneg b; have e3 := mul_self_nonneg c
    rcases lt_or_eq_of_le (show 0 ≤ a * a + b * b + c * c by linarith) with h' | h'
    · exact h'
    · exact absurd ⟨mul_self_eq_zero.mp (by linarith), mul_self_eq_zero.mp (by linarith), mul_self_eq_zero.mp (by linarith)⟩ h
  have e : (fun j i => entry4 m identity j i) = m := by
    funext j i; fin_cases j <;> simp [entry4, identity]
  rw [C102_point, frustum_create, e]
  unfold Frustum.Holds planes
  dsimp only
  rw [scaled_pos _ (pos _ _ _ h1), scaled_pos _ (pos _ _ _ h2), scaled_pos _ (pos _ _ _ h3), scaled_pos _ (pos _ _ _ h4), scaled_pos _ (pos _ _ _ h5), scaled_pos _ (pos _ _ _ h6)]

/-- A camera turned by `t` around its viewing axis: a point `(x, y, z)` appears at `(x cos t - y sin t, x sin t + y cos t, z)`. -/
noncomputable def rolled (t : ℝ) : Mat 4 ℝ :=
  (((identity.set 0 0 (Real.cos t)).set 0 1 (Real.sin t)).set 1 0 (-Real.sin t)).set 1 1 (Real.cos t)

/-- C102, what fails: rows and columns are mixed up, so that a turned camera sees what a camera turned the other way should see. -/
theorem C102_turned (t : ℝ) (v : V3 ℝ) : point_inside (frustum_create (rolled t) identity) v = true ↔
    |v.x * Real.cos t + v.y * Real.sin t| < 1 ∧ |v.y * Real.cos t - v.x * Real.sin t| < 1 ∧ |v.z| < 1 := by
  have hsc := Real.sin_sq_add_cos_sq t
  have hne : ¬ (Real.cos t = 0 ∧ Real.sin t = 0) := by
    rintro ⟨h1, h2⟩
    rw [h1, h2] at hsc
    norm_num at hsc
  have hne' : ¬ (Real.sin t = 0 ∧ Real.cos t = 0) := fun h => hne ⟨h.2, h.1⟩
  have m00 : rolled t 0 0 = Real.cos t := by simp [rolled, Mat.set]
  have m01 : rolled t 0 1 = Real.sin t := by simp [rolled, Mat.set]
  have m10 : rolled t 1 0 = -Real.sin t := by simp [rolled, Mat.set]
  have m11 : rolled t 1 1 = Real.cos t := by simp [rolled, Mat.set]
  have m02 : rolled t 0 2 = 0 := by simp [rolled, Mat.set, identity]
  have m03 : rolled t 0 3 = 0 := by simp [rolled, Mat.set, identity]
  have m12 : rolled t 1 2 = 0 := by simp [rolled, Mat.set, identity]
  have m13 : rolled t 1 3 = 0 := by simp [rolled, Mat.set, identity]
  have m20 : rolled t 2 0 = 0 := by simp [rolled, Mat.set, identity]
  have m21 : rolled t 2 1 = 0 := by simp [rolled, Mat.set, identity]
  have m22 : rolled t 2 2 = 1 := by simp [rolled, Mat.set, identity]
  have m23 : rolled t 2 3 = 0 := by simp [rolled, Mat.set, identity]
  have m33 : rolled t 3 3 = 1 := by simp [rolled, Mat.set, identity]
  rw [C102_planes, m00, m01, m02, m03, m10, m11, m12, m13, m20, m21, m22, m23, m33, abs_lt, abs_lt, abs_lt]
  · constructor
    · rintro ⟨a, b, c, d, e, f⟩
      refine ⟨⟨?_, ?_⟩, ⟨?_, ?_⟩, ?_, ?_⟩ <;> linarith
    · rintro ⟨⟨a, b⟩, ⟨c, d⟩, e, f⟩
      refine ⟨?_, ?_, ?_, ?_, ?_, ?_⟩ <;> linarith
  · rw [m00, m01, m02, m03, m13, m23]; simpa using hne
  · rw [m00, m01, m02, m03, m13, m23]; simpa using hne
  · rw [m10, m11, m03, m13, m23]; simpa using hne'
  · rw [m10, m11, m12, m03, m13, m23]; simpa using hne'
  · rw [m20, m21, m22, m03, m13, m23]; simp
  · rw [m20, m21, m22, m03, m13, m23]; simp

/-- C102, what fails: for every small turn there is a point in view that is not found. -/
theorem C102_turned_wrong (t : ℝ) (h0 : 0 < t) (h1 : t < Real.pi / 4) : ∃ v : V3 ℝ,
    (|v.x * Real.cos t - v.y * Real.sin t| < 1 ∧ |v.x * Real.sin t + v.y * Real.cos t| < 1 ∧ |v.z| < 1) ∧
    point_inside (frustum_create (rolled t) identity) v = false := by
  have hs : 0 < Real.sin (2 * t) := Real.sin_pos_of_pos_of_lt_pi (by linarith) (by linarith)
  have hc : 0 < Real.cos (2 * t) := Real.cos_pos_of_mem_Ioo ⟨by linarith, by linarith⟩
  have hq := Real.sin_sq_add_cos_sq (2 * t)
  have hk : 1 < Real.sin (2 * t) + Real.cos (2 * t) := by nlinarith [mul_pos hs hc]
  have hsc := Real.sin_sq_add_cos_sq t
  have d1 := Real.sin_two_mul t
  have d2 := Real.cos_two_mul' t
  rw [d1, d2] at hk
  obtain ⟨k, hk'⟩ : ∃ k, k = 2 * Real.sin t * Real.cos t + (Real.cos t ^ 2 - Real.sin t ^ 2) := ⟨_, rfl⟩
  rw [← hk'] at hk
  have hr : 1 / k < 1 := by rw [div_lt_one (by linarith)]; exact hk
  have hr0 : 0 < 1 / k := by positivity
  have hrk : 1 / k * k = 1 := by field_simp
  generalize 1 / k = r at *
  refine ⟨⟨r * (Real.cos t + Real.sin t), r * (Real.cos t - Real.sin t), 0⟩, ⟨?_, ?_, by simp⟩, ?_⟩
  · have e : r * (Real.cos t + Real.sin t) * Real.cos t - r * (Real.cos t - Real.sin t) * Real.sin t = r := by linear_combination r * hsc
    dsimp only
    rw [e, abs_of_pos hr0]
    exact hr
  · have e : r * (Real.cos t + Real.sin t) * Real.sin t + r * (Real.cos t - Real.sin t) * Real.cos t = r := by linear_combination r * hsc
    dsimp only
    rw [e, abs_of_pos hr0]
    exact hr
  · rw [Bool.eq_false_iff]
    intro h
    have h2 := ((C102_turned t _).1 h).1
    dsimp only at h2
    have e : r * (Real.cos t + Real.sin t) * Real.cos t + r * (Real.cos t - Real.sin t) * Real.sin t = 1 := by
      rw [← hrk, hk']; ring
    rw [e, abs_one] at h2
    exact lt_irrefl _ h2

example : (1 : ℝ) < 100 ∧ (100 : ℝ) - 1 ≠ 2 * 1 * 100 := by norm_num

/-- `C102_turned_wrong` is met by a turn of a tenth. -/
example : (0 : ℝ) < 1 / 10 ∧ (1 / 10 : ℝ) < Real.pi / 4 := ⟨by norm_num, by linarith [Real.two_le_pi]⟩

/-- And `C102_planes` by the matrix of a camera that is not turned. -/
example : ¬ ((identity : Mat 4 ℝ) 0 3 + (identity : Mat 4 ℝ) 0 0 = 0 ∧ (identity : Mat 4 ℝ) 1 3 + (identity : Mat 4 ℝ) 0 1 = 0 ∧ (identity : Mat 4 ℝ) 2 3 + (identity : Mat 4 ℝ) 0 2 = 0) := by
  simp [identity]

end Zpl.Math
