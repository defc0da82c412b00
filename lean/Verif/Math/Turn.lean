import Verif.Math.Quat
import Mathlib.Analysis.SpecialFunctions.Trigonometric.Inverse
import Mathlib.Analysis.SpecialFunctions.Complex.Arg

/-!
# Turning by an angle (code/source/math.c:888-962, 1153-1172, 1226-1245)  -  C98, C99

## Model

`zpl_sin`, `zpl_cos`, `zpl_arcsin`, `zpl_arccos` and `zpl_arctan2` are the functions of the real numbers. -/

set_option linter.unusedSectionVars false
set_option linter.unusedSimpArgs false

namespace Zpl.Math

/-- math.c:888-916 `zpl_mat4_axis_angle`, also 922-924 `zpl_mat4_to_rotate`. -/
noncomputable def mat4_axis_angle (v : V3 ℝ) (angle : ℝ) : Mat 4 ℝ :=
  let c := Real.cos angle
  let s := Real.sin angle
  let axis := v.norm
  let t := axis.mul (1 - c)
  ((((((((((((identity : Mat 4 ℝ).set 0 0 (c + t.x * axis.x)).set 0 1 (0 + t.x * axis.y + s * axis.z)).set 0 2 (0 + t.x * axis.z - s * axis.y)).set 0 3 0).set
    1 0 (0 + t.y * axis.x - s * axis.z)).set 1 1 (c + t.y * axis.y)).set 1 2 (0 + t.y * axis.z + s * axis.x)).set 1 3 0).set
    2 0 (0 + t.z * axis.x + s * axis.y)).set 2 1 (0 + t.z * axis.y - s * axis.x)).set 2 2 (c + t.z * axis.z)).set 2 3 0

/-- math.c:918-921 `zpl_mat4_to_translate`. -/
def mat4_to_translate {K : Type} [Zero K] [One K] (v : V3 K) : Mat 4 K := (((identity : Mat 4 K).set 3 0 v.x).set 3 1 v.y).set 3 2 v.z

/-- math.c:927-932 `zpl_mat4_to_scale`. -/
def mat4_to_scale {K : Type} [Zero K] [One K] (v : V3 K) : Mat 4 K := (((identity : Mat 4 K).set 0 0 v.x).set 1 1 v.y).set 2 2 v.z

/-- math.c:933-938 `zpl_mat4_to_scalef`. -/
def mat4_to_scalef {K : Type} [Zero K] [One K] (s : K) : Mat 4 K := (((identity : Mat 4 K).set 0 0 s).set 1 1 s).set 2 2 s

/-- math.c:940-962 `zpl_mat4_translate`, `zpl_mat4_rotate`, `zpl_mat4_scale`, `zpl_mat4_scalef`: `mm` is made, then `zpl_mat4_mul(m, m, &mm)`.  `tmp` is where `mm` is. -/
def mat4_apply {K : Type} [Add K] [Mul K] (st : Mem 4 K) (m tmp : Nat) (mm : Mat 4 K) : Mem 4 K :=
  mul4 (fun l => if l = tmp then mm else st l) m m tmp

/-- math.c:1153-1159 `zpl_quat_axis_angle`. -/
noncomputable def quat_axis_angle (axis : V3 ℝ) (angle : ℝ) : Q ℝ :=
  let n := axis.norm
  let m := n.mul (Real.sin (1 / 2 * angle))
  ⟨m.x, m.y, m.z, Real.cos (1 / 2 * angle)⟩

/-- math.c:1161-1172 `zpl_quat_euler_angles`. -/
noncomputable def quat_euler_angles (pitch yaw roll : ℝ) : Q ℝ :=
  let p := quat_axis_angle ⟨1, 0, 0⟩ pitch
  let y := quat_axis_angle ⟨0, 1, 0⟩ yaw
  let r := quat_axis_angle ⟨0, 0, 1⟩ roll
  (y.mul p).mul r

/-- math.c:1226-1230 `zpl_quat_axis`. -/
noncomputable def quat_axis (q : Q ℝ) : V3 ℝ := q.norm.xyz.div (Real.sin (Real.arccos q.w))

/-- math.c:1232-1237 `zpl_quat_angle`. -/
noncomputable def quat_angle (q : Q ℝ) : ℝ := 2 * Real.arccos (q.w * (1 / q.mag))

/-- `zpl_arctan2(y, x)` -/
noncomputable def arctan2 (y x : ℝ) : ℝ := Complex.arg ⟨x, y⟩

/-- math.c:1239-1241 `zpl_quat_roll`. -/
noncomputable def quat_roll (q : Q ℝ) : ℝ := arctan2 (2 * q.x * q.y + q.z * q.w) (q.x * q.x + q.w * q.w - q.y * q.y - q.z * q.z)
/-- math.c:1242-1244 `zpl_quat_pitch`. -/
noncomputable def quat_pitch (q : Q ℝ) : ℝ := arctan2 (2 * q.y * q.z + q.w * q.x) (q.w * q.w - q.x * q.x - q.y * q.y + q.z * q.z)
/-- math.c:1245 `zpl_quat_yaw`. -/
noncomputable def quat_yaw (q : Q ℝ) : ℝ := Real.arcsin (-2 * (q.x * q.z - q.w * q.y))

/-! ## Specification -/

/-- The point `v` turned by `angle` round the axis `n` of length 1: the part along the axis stays, the part across turns towards `n × v`. -/
noncomputable def turned (n : V3 ℝ) (angle : ℝ) (v : V3 ℝ) : V3 ℝ :=
  let along := n.mul (n.dot v)
  (along.add ((v.sub along).mul (Real.cos angle))).add ((n.cross v).mul (Real.sin angle))

/-! ## C98 -/

theorem V3.norm_unit {v : V3 ℝ} (h : v ≠ V3.zero) : v.norm.x * v.norm.x + v.norm.y * v.norm.y + v.norm.z * v.norm.z = 1 := by
  have := ((C93_norm V2.zero v V4.zero).2.1 h).1
  linear_combination this

theorem half_angle (a : ℝ) :
    Real.cos a = 1 - 2 * (Real.sin (1 / 2 * a) * Real.sin (1 / 2 * a)) ∧ Real.sin a = 2 * (Real.sin (1 / 2 * a) * Real.cos (1 / 2 * a)) ∧
    Real.sin (1 / 2 * a) * Real.sin (1 / 2 * a) + Real.cos (1 / 2 * a) * Real.cos (1 / 2 * a) = 1 := by
  have h1 := Real.cos_sq_add_sin_sq (1 / 2 * a)
  have e : a = 2 * (1 / 2 * a) := by ring
  refine ⟨?_, ?_, ?_⟩
  · conv_lhs => rw [e]
    rw [Real.cos_two_mul]; linear_combination 2 * h1
  · conv_lhs => rw [e]
    rw [Real.sin_two_mul]; ring
  · linear_combination h1

/-- C98: the quaternion of an axis and an angle has length 1. -/
theorem C98_unit (v : V3 ℝ) (h : v ≠ V3.zero) (angle : ℝ) : (quat_axis_angle v angle).dot (quat_axis_angle v angle) = 1 := by
  have h1 := V3.norm_unit h
  have h2 := (half_angle angle).2.2
  simp only [Q.dot, Q.xyz, V3.dot, quat_axis_angle, V3.mul]
  linear_combination Real.sin (1 / 2 * angle) * Real.sin (1 / 2 * angle) * h1 + h2

/-- C98: rotating by the quaternion of an axis and an angle turns the point round the axis by the angle. -/
theorem C98_quat_turns (axis : V3 ℝ) (h : axis ≠ V3.zero) (angle : ℝ) (v : V3 ℝ) : (quat_axis_angle axis angle).rotate v = turned axis.norm angle v := by
  have h1 := V3.norm_unit h
  obtain ⟨h2, h3, h4⟩ := half_angle angle
  simp only [turned, h2, h3]
  simp only [Q.rotate, Q.xyz, quat_axis_angle, V3.mul, V3.cross, V3.add, V3.sub, V3.dot]
  generalize Real.sin (1 / 2 * angle) = s at *
  generalize Real.cos (1 / 2 * angle) = c at *
  generalize axis.norm = n at *
  apply V3.ext' <;> dsimp only
  · linear_combination (-2 * s * s * v.x) * h1
  · linear_combination (-2 * s * s * v.y) * h1
  · linear_combination (-2 * s * s * v.z) * h1

/-- C98: so does the matrix of an axis and an angle. -/
theorem C98_matrix_turns (axis : V3 ℝ) (_h : axis ≠ V3.zero) (angle : ℝ) (v : V3 ℝ) (w : ℝ) :
    mulVec4 (mat4_axis_angle axis angle) ⟨v.x, v.y, v.z, w⟩ =
      ⟨(turned axis.norm angle v).x, (turned axis.norm angle v).y, (turned axis.norm angle v).z, w⟩ := by
  apply V4.ext' <;> simp [mulVec4, mat4_axis_angle, Mat.set, identity, turned, V3.mul, V3.cross, V3.add, V3.sub, V3.dot] <;> ring

/-- C98: turning keeps the axis, turning by two angles is turning by their sum, and by the opposite angle undoes it; a quarter turn takes `x` to `y` round `z`. -/
theorem C98_turned (axis : V3 ℝ) (h : axis ≠ V3.zero) (a b : ℝ) (v : V3 ℝ) (k : ℝ) :
    turned axis.norm a (axis.norm.mul k) = axis.norm.mul k ∧ turned axis.norm a (turned axis.norm b v) = turned axis.norm (a + b) v ∧
    turned axis.norm (-a) (turned axis.norm a v) = v ∧ turned ⟨0, 0, 1⟩ (Real.pi / 2) ⟨1, 0, 0⟩ = ⟨0, 1, 0⟩ := by
  have h1 := V3.norm_unit h
  have hadd : ∀ a b, turned axis.norm a (turned axis.norm b v) = turned axis.norm (a + b) v := by
    intro a b
    rw [← C98_quat_turns axis h, ← C98_quat_turns axis h, ← C98_quat_turns axis h, ← C97_compose _ _ (C98_unit axis h a) (C98_unit axis h b)]
    congr 1
    have e : (1 / 2 * (a + b) : ℝ) = 1 / 2 * a + 1 / 2 * b := by ring
    simp only [quat_axis_angle, Q.mul, V3.mul, e, Real.cos_add, Real.sin_add]
    apply Q.ext' <;> dsimp only
    · ring
    · ring
    · ring
    · linear_combination (-Real.sin (1 / 2 * a) * Real.sin (1 / 2 * b)) * h1
  refine ⟨?_, hadd a b, ?_, ?_⟩
  · simp only [turned, V3.mul, V3.cross, V3.add, V3.sub, V3.dot]
    generalize axis.norm = n at *
    apply V3.ext' <;> dsimp only
    · linear_combination (n.x * k * (1 - Real.cos a)) * h1
    · linear_combination (n.y * k * (1 - Real.cos a)) * h1
    · linear_combination (n.z * k * (1 - Real.cos a)) * h1
  · rw [hadd, neg_add_cancel]
    simp only [turned, Real.cos_zero, Real.sin_zero, V3.mul, V3.cross, V3.add, V3.sub, V3.dot]
    apply V3.ext' <;> dsimp only <;> ring
  · simp [turned, V3.mul, V3.cross, V3.add, V3.sub, V3.dot]

/-- C98: translating moves points and leaves directions; scaling multiplies the coordinates. -/
theorem C98_translate_scale {K : Type} [CommRing K] (t v : V3 K) (s w : K) :
    mulVec4 (mat4_to_translate t) ⟨v.x, v.y, v.z, 1⟩ = ⟨v.x + t.x, v.y + t.y, v.z + t.z, 1⟩ ∧
    mulVec4 (mat4_to_translate t) ⟨v.x, v.y, v.z, 0⟩ = ⟨v.x, v.y, v.z, 0⟩ ∧
    mulVec4 (mat4_to_scale t) ⟨v.x, v.y, v.z, w⟩ = ⟨t.x * v.x, t.y * v.y, t.z * v.z, w⟩ ∧
    mulVec4 (mat4_to_scalef s) ⟨v.x, v.y, v.z, w⟩ = ⟨s * v.x, s * v.y, s * v.z, w⟩ := by
  refine ⟨?_, ?_, ?_, ?_⟩ <;>
    apply V4.ext' <;> simp [mulVec4, mat4_to_translate, mat4_to_scale, mat4_to_scalef, Mat.set, identity]

/-- C98: the functions that change a matrix put the new step before the others; no other matrix changes. -/
theorem C98_step_first {K : Type} [Field K] (st : Mem 4 K) (m tmp : Nat) (mm : Mat 4 K) (h : m ≠ tmp) (v : V4 K) :
    mulVec4 (mat4_apply st m tmp mm m) v = mulVec4 (st m) (mulVec4 mm v) ∧ ∀ l, l ≠ m → l ≠ tmp → mat4_apply st m tmp mm l = st l := by
  have e := C94_vec4_product (fun l => if l = tmp then mm else st l) m m tmp v
  simp only [if_neg h, if_true] at e
  constructor
  · exact e
  · intro l h1 h2
    rw [mat4_apply, (C94_mul4 _ m m tmp).2 l h1, if_neg h2]

/-- C98: the angle and the axis can be read back from the quaternion. -/
theorem C98_read_back (axis : V3 ℝ) (h : axis ≠ V3.zero) (angle : ℝ) (h0 : 0 ≤ angle) (h1 : angle ≤ 2 * Real.pi) :
    quat_angle (quat_axis_angle axis angle) = angle ∧
    (0 < angle → angle < 2 * Real.pi → quat_axis (quat_axis_angle axis angle) = axis.norm) := by
  have hu := C98_unit axis h angle
  have hm : (quat_axis_angle axis angle).mag = 1 := by rw [Q.mag, hu, Real.sqrt_one]
  have hac : Real.arccos (Real.cos (1 / 2 * angle)) = 1 / 2 * angle := Real.arccos_cos (by linarith) (by linarith)
  constructor
  · rw [quat_angle, hm, div_one, mul_one]
    show 2 * Real.arccos (Real.cos (1 / 2 * angle)) = angle
    rw [hac]; ring
  · intro h2 h3
    have hs : Real.sin (1 / 2 * angle) ≠ 0 := ne_of_gt (Real.sin_pos_of_pos_of_lt_pi (by linarith) (by linarith))
    have hw : (quat_axis_angle axis angle).w = Real.cos (1 / 2 * angle) := rfl
    simp only [quat_axis, Q.norm, hm, hw, hac]
    apply V3.ext' <;> simp only [V3.div, Q.xyz, Q.divf, quat_axis_angle, V3.mul, div_one, mul_div_assoc, div_self hs, mul_one]

/-- C98, what fails: from a quaternion that is not normalised the angle is read but not the axis, although `zpl_quat_axis` normalises it: the result does not have length 1. -/
theorem C98_axis_of_scaled (q : Q ℝ) (h : q.dot q = 1) (hw : q.w ≠ 0) (k : ℝ) (hk : 0 < k) (hk1 : k ≠ 1) (hkw : k * k * (q.w * q.w) < 1) :
    quat_angle (q.mulf k) = quat_angle q ∧ (quat_axis (q.mulf k)).mag2 ≠ 1 := by
  have h' : q.x * q.x + q.y * q.y + q.z * q.z + q.w * q.w = 1 := h
  have hm1 : q.mag = 1 := by rw [Q.mag, h, Real.sqrt_one]
  have hd : (q.mulf k).dot (q.mulf k) = k * k := by
    simp only [Q.dot, Q.xyz, V3.dot, Q.mulf]; linear_combination (k * k) * h'
  have hm : (q.mulf k).mag = k := by rw [Q.mag, hd, Real.sqrt_mul_self (le_of_lt hk)]
  have hk0 : k ≠ 0 := ne_of_gt hk
  constructor
  · rw [quat_angle, quat_angle, hm, hm1]
    simp only [Q.mulf]
    congr 2
    field_simp
  · have hsin : Real.sin (Real.arccos (q.w * k)) * Real.sin (Real.arccos (q.w * k)) = 1 - q.w * k * (q.w * k) := by
      rw [Real.sin_arccos, Real.mul_self_sqrt]
      · ring
      · nlinarith [hkw]
    have hpos : 0 < 1 - q.w * k * (q.w * k) := by nlinarith [hkw]
    have hs0 : Real.sin (Real.arccos (q.w * k)) ≠ 0 := fun e => by rw [e] at hsin; linarith
    have hval : (quat_axis (q.mulf k)).mag2 * (1 - q.w * k * (q.w * k)) = 1 - q.w * q.w := by
      rw [← hsin]
      simp only [quat_axis, Q.norm, hm, V3.mag2, V3.dot, V3.div, Q.xyz, Q.divf]
      simp only [Q.mulf, mul_div_cancel_right₀ _ hk0]
      field_simp
      linear_combination h'
    intro e
    rw [e, one_mul] at hval
    have h2 : q.w * q.w * ((k - 1) * (k + 1)) = 0 := by linear_combination -hval
    rcases mul_eq_zero.mp h2 with h3 | h3
    · exact hw (mul_self_eq_zero.mp h3)
    · rcases mul_eq_zero.mp h3 with h4 | h4
      · exact hk1 (by linarith)
      · linarith

example : (⟨0, 3 / 5, 0, 4 / 5⟩ : Q ℚ).dot ⟨0, 3 / 5, 0, 4 / 5⟩ = 1 ∧ (1 / 2 : ℚ) * (1 / 2) * (4 / 5 * (4 / 5)) < 1 := by decide +kernel

/-! ## C99: the three angles -/

theorem norm_axis : (⟨1, 0, 0⟩ : V3 ℝ).norm = ⟨1, 0, 0⟩ ∧ (⟨0, 1, 0⟩ : V3 ℝ).norm = ⟨0, 1, 0⟩ ∧ (⟨0, 0, 1⟩ : V3 ℝ).norm = ⟨0, 0, 1⟩ := by
  refine ⟨?_, ?_, ?_⟩ <;> simp [V3.norm, V3.mul, V3.dot, rsqrt]

/-- C99: the quaternion of three angles turns by `roll` round `z`, then by `pitch` round `x`, then by `yaw` round `y`. -/
theorem C99_angles (pitch yaw roll : ℝ) (v : V3 ℝ) :
    (quat_euler_angles pitch yaw roll).rotate v = turned ⟨0, 1, 0⟩ yaw (turned ⟨1, 0, 0⟩ pitch (turned ⟨0, 0, 1⟩ roll v)) := by
  have hx : (⟨1, 0, 0⟩ : V3 ℝ) ≠ V3.zero := by intro h; have := congrArg V3.x h; norm_num [V3.zero] at this
  have hy : (⟨0, 1, 0⟩ : V3 ℝ) ≠ V3.zero := by intro h; have := congrArg V3.y h; norm_num [V3.zero] at this
  have hz : (⟨0, 0, 1⟩ : V3 ℝ) ≠ V3.zero := by intro h; have := congrArg V3.z h; norm_num [V3.zero] at this
  have hyp := (C96_dot (quat_axis_angle ⟨0, 1, 0⟩ yaw) (quat_axis_angle ⟨1, 0, 0⟩ pitch)).2
  rw [C98_unit _ hy, C98_unit _ hx, one_mul] at hyp
  simp only [quat_euler_angles]
  rw [C97_compose _ _ hyp (C98_unit _ hz _), C97_compose _ _ (C98_unit _ hy _) (C98_unit _ hx _), C98_quat_turns _ hx, C98_quat_turns _ hy, C98_quat_turns _ hz,
    norm_axis.1, norm_axis.2.1, norm_axis.2.2]

/-- C99: `yaw` is read back from `yaw` and `pitch`, up to a right angle. -/
theorem C99_yaw_partial (pitch yaw : ℝ) (h1 : -(Real.pi / 2) ≤ yaw) (h2 : yaw ≤ Real.pi / 2) : quat_yaw (quat_euler_angles pitch yaw 0) = yaw := by
  obtain ⟨-, hs, -⟩ := half_angle yaw
  have hp := (half_angle pitch).2.2
  have e : -2 * ((quat_euler_angles pitch yaw 0).x * (quat_euler_angles pitch yaw 0).z - (quat_euler_angles pitch yaw 0).w * (quat_euler_angles pitch yaw 0).y) = Real.sin yaw := by
    rw [hs]
    simp only [quat_euler_angles, quat_axis_angle, norm_axis.1, norm_axis.2.1, norm_axis.2.2, Q.mul, V3.mul, mul_zero, Real.sin_zero, Real.cos_zero]
    linear_combination (2 * Real.sin (1 / 2 * yaw) * Real.cos (1 / 2 * yaw)) * hp
  rw [quat_yaw, e, Real.arcsin_sin h1 h2]

/-- C99, what fails: with a roll, what is read as `yaw` mixes all three angles. -/
theorem C99_yaw_mixed (pitch yaw roll : ℝ) :
    quat_yaw (quat_euler_angles pitch yaw roll) = Real.arcsin (Real.sin yaw * Real.cos roll - Real.cos yaw * Real.sin pitch * Real.sin roll) := by
  obtain ⟨a1, a2, a3⟩ := half_angle yaw
  obtain ⟨b1, b2, b3⟩ := half_angle pitch
  obtain ⟨c1, c2, c3⟩ := half_angle roll
  rw [quat_yaw]
  congr 1
  rw [a1, a2, b2, c1, c2]
  simp only [quat_euler_angles, quat_axis_angle, norm_axis.1, norm_axis.2.1, norm_axis.2.2, Q.mul, V3.mul]
  generalize Real.sin (1 / 2 * yaw) = sy at *
  generalize Real.cos (1 / 2 * yaw) = cy at *
  generalize Real.sin (1 / 2 * pitch) = sp at *
  generalize Real.cos (1 / 2 * pitch) = cp at *
  generalize Real.sin (1 / 2 * roll) = sr at *
  generalize Real.cos (1 / 2 * roll) = cr at *
  linear_combination 2 * sy * cy * (cr * cr - sr * sr) * b3 + 2 * sy * cy * c3 - 4 * sp * cp * sr * cr * a3

/-- C99, what fails: `zpl_quat_roll` of a pure roll gives the angle with half the tangent. -/
theorem C99_roll_wrong (roll : ℝ) (h : Real.tan roll ≠ 0) :
    Real.tan (quat_roll (quat_euler_angles 0 0 roll)) = Real.tan roll / 2 ∧ quat_roll (quat_euler_angles 0 0 roll) ≠ roll := by
  obtain ⟨h1, h2, h3⟩ := half_angle roll
  have e : Real.tan (quat_roll (quat_euler_angles 0 0 roll)) = Real.tan roll / 2 := by
    rw [quat_roll, arctan2, Complex.tan_arg]
    simp only [quat_euler_angles, quat_axis_angle, norm_axis.1, norm_axis.2.1, norm_axis.2.2, Q.mul, V3.mul, mul_zero, Real.sin_zero, Real.cos_zero]
    rw [Real.tan_eq_sin_div_cos, div_div, mul_comm (Real.cos roll) 2, ← div_div]
    congr 1
    · rw [h2]; ring
    · rw [h1]; linear_combination h3
  refine ⟨e, fun e' => h ?_⟩
  rw [e'] at e
  linarith

/-- C99, what fails: `zpl_quat_pitch` of a pure pitch gives the angle with half the tangent. -/
theorem C99_pitch_wrong (pitch : ℝ) (h : Real.tan pitch ≠ 0) :
    Real.tan (quat_pitch (quat_euler_angles pitch 0 0)) = Real.tan pitch / 2 ∧ quat_pitch (quat_euler_angles pitch 0 0) ≠ pitch := by
  obtain ⟨h1, h2, h3⟩ := half_angle pitch
  have e : Real.tan (quat_pitch (quat_euler_angles pitch 0 0)) = Real.tan pitch / 2 := by
    rw [quat_pitch, arctan2, Complex.tan_arg]
    simp only [quat_euler_angles, quat_axis_angle, norm_axis.1, norm_axis.2.1, norm_axis.2.2, Q.mul, V3.mul, mul_zero, Real.sin_zero, Real.cos_zero]
    rw [Real.tan_eq_sin_div_cos, div_div, mul_comm (Real.cos pitch) 2, ← div_div]
    congr 1
    · rw [h2]; ring
    · rw [h1]; linear_combination h3
  refine ⟨e, fun e' => h ?_⟩
  rw [e'] at e
  linarith

example : Real.tan (Real.pi / 4) ≠ 0 := by rw [Real.tan_pi_div_four]; norm_num

end Zpl.Math
