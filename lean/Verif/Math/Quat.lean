import Verif.Math.VecReal
import Mathlib.Algebra.Quaternion

/-!
# Quaternions (code/source/math.c:1136-1350)  -  C96, C97

## Model

The arithmetic is exact; the square root is that of the real numbers.  All arguments are passed by value, so a result may replace an argument. -/

set_option linter.unusedSectionVars false
set_option linter.unusedSimpArgs false

namespace Zpl.Math

/-- `zpl_quat`: `w` is the real part. -/
structure Q (K : Type) where
  x : K
  y : K
  z : K
  w : K
deriving DecidableEq

theorem Q.ext' {K : Type} {a b : Q K} (hx : a.x = b.x) (hy : a.y = b.y) (hz : a.z = b.z) (hw : a.w = b.w) : a = b := by
  cases a; cases b; simp_all

section model

variable {K : Type}

/-- `q.xyz` -/
def Q.xyz (q : Q K) : V3 K := ⟨q.x, q.y, q.z⟩

/-- math.c:1174-1177 `zpl_quat_identity`. -/
def Q.identity [Zero K] [One K] : Q K := ⟨0, 0, 0, 1⟩

/-- math.c:1179 `zpl_quat_add`. -/
def Q.add [Add K] (a b : Q K) : Q K := ⟨a.x + b.x, a.y + b.y, a.z + b.z, a.w + b.w⟩
/-- math.c:1180 `zpl_quat_sub`. -/
def Q.sub [Sub K] (a b : Q K) : Q K := ⟨a.x - b.x, a.y - b.y, a.z - b.z, a.w - b.w⟩

/-- math.c:1182-1187 `zpl_quat_mul`. -/
def Q.mul [Add K] [Sub K] [Mul K] (q0 q1 : Q K) : Q K :=
  ⟨q0.w * q1.x + q0.x * q1.w + q0.y * q1.z - q0.z * q1.y,
   q0.w * q1.y - q0.x * q1.z + q0.y * q1.w + q0.z * q1.x,
   q0.w * q1.z + q0.x * q1.y - q0.y * q1.x + q0.z * q1.w,
   q0.w * q1.w - q0.x * q1.x - q0.y * q1.y - q0.z * q1.z⟩

/-- math.c:1195 `zpl_quat_mulf`. -/
def Q.mulf [Mul K] (q : Q K) (s : K) : Q K := ⟨q.x * s, q.y * s, q.z * s, q.w * s⟩
/-- math.c:1196 `zpl_quat_divf`. -/
def Q.divf [Div K] (q : Q K) (s : K) : Q K := ⟨q.x / s, q.y / s, q.z / s, q.w / s⟩

/-- math.c:1206-1209 `zpl_quat_dot`. -/
def Q.dot [Add K] [Mul K] (a b : Q K) : K := a.xyz.dot b.xyz + a.w * b.w

/-- math.c:1217-1220 `zpl_quat_conj`. -/
def Q.conj [Neg K] (q : Q K) : Q K := ⟨-q.x, -q.y, -q.z, q.w⟩

/-- math.c:1221-1224 `zpl_quat_inverse`. -/
def Q.inverse [Add K] [Mul K] [Neg K] [Div K] (q : Q K) : Q K := q.conj.divf (q.dot q)

/-- math.c:1189-1193 `zpl_quat_div`. -/
def Q.div [Add K] [Sub K] [Mul K] [Neg K] [Div K] (q0 q1 : Q K) : Q K := q0.mul q1.inverse

/-- math.c:1247-1260 `zpl_quat_rotate_vec3`. -/
def Q.rotate [Add K] [Sub K] [Mul K] [OfNat K 2] (q : Q K) (v : V3 K) : V3 K :=
  let t := (q.xyz.cross v).mul 2
  let p := q.xyz.cross t
  ((t.mul q.w).add v).add p

end model

/-- math.c:1210-1213 `zpl_quat_mag`. -/
noncomputable def Q.mag (q : Q ℝ) : ℝ := Real.sqrt (q.dot q)

/-- math.c:1215 `zpl_quat_norm`. -/
noncomputable def Q.norm (q : Q ℝ) : Q ℝ := q.divf q.mag

/-- math.c:1278-1292: the matrix is the identity but for the nine entries; `a` is the normalised quaternion. -/
def rotation {K : Type} [Ring K] (a : Q K) : Mat 4 K :=
  let xx := a.x * a.x
  let yy := a.y * a.y
  let zz := a.z * a.z
  let xy := a.x * a.y
  let xz := a.x * a.z
  let yz := a.y * a.z
  let wx := a.w * a.x
  let wy := a.w * a.y
  let wz := a.w * a.z
  (((((((((identity : Mat 4 K).set 0 0 (1 - 2 * (yy + zz))).set 0 1 (2 * (xy + wz))).set 0 2 (2 * (xz - wy))).set
    1 0 (2 * (xy - wz))).set 1 1 (1 - 2 * (xx + zz))).set 1 2 (2 * (yz + wx))).set
    2 0 (2 * (xz + wy))).set 2 1 (2 * (yz - wx))).set 2 2 (1 - 2 * (xx + yy))

/-- math.c:1262-1293 `zpl_mat4_from_quat`. -/
noncomputable def mat4_from_quat (q : Q ℝ) : Mat 4 ℝ := rotation q.norm

/-- math.c:1303-1321: which of the four is biggest, and its value (`4 · biggest² - 1`). -/
noncomputable def biggest (m : Mat 4 ℝ) : Fin 4 × ℝ :=
  let x := m 0 0 - m 1 1 - m 2 2
  let y := m 1 1 - m 0 0 - m 2 2
  let z := m 2 2 - m 0 0 - m 1 1
  let w := m 0 0 + m 1 1 + m 2 2
  let b0 : Fin 4 × ℝ := (0, w)
  let b1 := if x > b0.2 then (1, x) else b0
  let b2 := if y > b1.2 then (2, y) else b1
  if z > b2.2 then (3, z) else b2

/-- math.c:1295-1350 `zpl_quat_from_mat4`. -/
noncomputable def quat_from_mat4 (m : Mat 4 ℝ) : Q ℝ :=
  let v := Real.sqrt ((biggest m).2 + 1) * (1 / 2)
  let mult := (1 / 4) / v
  match (biggest m).1 with
  | 0 => ⟨(m 1 2 - m 2 1) * mult, (m 2 0 - m 0 2) * mult, (m 0 1 - m 1 0) * mult, v⟩
  | 1 => ⟨v, (m 0 1 + m 1 0) * mult, (m 2 0 + m 0 2) * mult, (m 1 2 - m 2 1) * mult⟩
  | 2 => ⟨(m 0 1 + m 1 0) * mult, v, (m 1 2 + m 2 1) * mult, (m 2 0 - m 0 2) * mult⟩
  | 3 => ⟨(m 2 0 + m 0 2) * mult, (m 1 2 + m 2 1) * mult, v, (m 0 1 - m 1 0) * mult⟩

/-! ## Specification -/

/-- The quaternion of algebra. -/
def Q.toQ {K : Type} [CommRing K] (q : Q K) : Quaternion K := ⟨q.w, q.x, q.y, q.z⟩

/-- A vector as a quaternion without real part. -/
def V3.toQ {K : Type} [CommRing K] (v : V3 K) : Quaternion K := ⟨0, v.x, v.y, v.z⟩

/-- A point as a vector of four coordinates. -/
def V3.point {K : Type} [One K] (v : V3 K) : V4 K := ⟨v.x, v.y, v.z, 1⟩

/-! ## C96: the algebra of quaternions -/

section ring

variable {K : Type} [CommRing K]

theorem Q.re (q : Q K) : q.toQ.re = q.w := rfl
theorem Q.imI (q : Q K) : q.toQ.imI = q.x := rfl
theorem Q.imJ (q : Q K) : q.toQ.imJ = q.y := rfl
theorem Q.imK (q : Q K) : q.toQ.imK = q.z := rfl
theorem V3.re (q : V3 K) : q.toQ.re = 0 := rfl
theorem V3.imI (q : V3 K) : q.toQ.imI = q.x := rfl
theorem V3.imJ (q : V3 K) : q.toQ.imJ = q.y := rfl
theorem V3.imK (q : V3 K) : q.toQ.imK = q.z := rfl

/-- C96: sum, difference, product, conjugate and identity are those of the quaternions. -/
theorem C96_algebra (a b : Q K) :
    (a.add b).toQ = a.toQ + b.toQ ∧ (a.sub b).toQ = a.toQ - b.toQ ∧ (a.mul b).toQ = a.toQ * b.toQ ∧ a.conj.toQ = star a.toQ ∧
    (Q.identity : Q K).toQ = 1 := by
  refine ⟨?_, ?_, ?_, ?_, ?_⟩
  · ext <;> rfl
  · ext <;> rfl
  · ext <;> simp only [Q.mul, Q.re, Q.imI, Q.imJ, Q.imK, Quaternion.re_mul, Quaternion.imI_mul, Quaternion.imJ_mul, Quaternion.imK_mul, Quaternion.re_star, Quaternion.imI_star, Quaternion.imJ_star, Quaternion.imK_star]
  · ext <;> simp only [Q.conj, Q.re, Q.imI, Q.imJ, Q.imK, Quaternion.re_mul, Quaternion.imI_mul, Quaternion.imJ_mul, Quaternion.imK_mul, Quaternion.re_star, Quaternion.imI_star, Quaternion.imJ_star, Quaternion.imK_star]
  · ext <;> simp only [Q.identity, Q.re, Q.imI, Q.imJ, Q.imK, Quaternion.re_mul, Quaternion.imI_mul, Quaternion.imJ_mul, Quaternion.imK_mul, Quaternion.re_star, Quaternion.imI_star, Quaternion.imJ_star, Quaternion.imK_star] <;> rfl

/-- C96: the dot product of a quaternion with itself is its norm; it is multiplicative. -/
theorem C96_dot (a b : Q K) : a.dot a = Quaternion.normSq a.toQ ∧ (a.mul b).dot (a.mul b) = a.dot a * b.dot b := by
  constructor
  · rw [Quaternion.normSq_def']; simp only [Q.dot, Q.xyz, V3.dot, Q.re, Q.imI, Q.imJ, Q.imK]; ring
  · simp only [Q.dot, Q.xyz, V3.dot, Q.mul]; ring

end ring

section field

variable {K : Type} [Field K] [LinearOrder K] [IsStrictOrderedRing K]

theorem Q.toQ_eq_zero {q : Q K} : q.toQ = 0 ↔ q = ⟨0, 0, 0, 0⟩ := by
  constructor
  · intro h
    have h1 := congrArg QuaternionAlgebra.re h; have h2 := congrArg QuaternionAlgebra.imI h
    have h3 := congrArg QuaternionAlgebra.imJ h; have h4 := congrArg QuaternionAlgebra.imK h
    exact Q.ext' h2 h3 h4 h1
  · rintro rfl; ext <;> rfl

/-- C96: inverse and quotient are those of the quaternions. -/
theorem C96_inverse (a b : Q K) : b.inverse.toQ = b.toQ⁻¹ ∧ (a.div b).toQ = a.toQ / b.toQ := by
  have h : b.inverse.toQ = b.toQ⁻¹ := by
    rw [Quaternion.inv_def, ← (C96_dot b b).1]
    ext <;> simp only [Q.inverse, Q.conj, Q.divf, Q.re, Q.imI, Q.imJ, Q.imK, Quaternion.re_mul, Quaternion.imI_mul, Quaternion.imJ_mul, Quaternion.imK_mul, Quaternion.re_star, Quaternion.imI_star, Quaternion.imJ_star, Quaternion.imK_star, Quaternion.re_smul, Quaternion.imI_smul, Quaternion.imJ_smul, Quaternion.imK_smul, smul_eq_mul] <;> ring
  exact ⟨h, by rw [Q.div, (C96_algebra a b.inverse).2.2.1, h, div_eq_mul_inv]⟩

theorem Q.toQ_injective {a b : Q K} (h : a.toQ = b.toQ) : a = b := by
  have h1 := congrArg QuaternionAlgebra.re h; have h2 := congrArg QuaternionAlgebra.imI h
  have h3 := congrArg QuaternionAlgebra.imJ h; have h4 := congrArg QuaternionAlgebra.imK h
  exact Q.ext' h2 h3 h4 h1

/-- C96: what a product with a quaternion does, the quotient undoes, unless it is zero. -/
theorem C96_cancel (a b : Q K) (h : b ≠ ⟨0, 0, 0, 0⟩) : (a.mul b).div b = a ∧ b.mul b.inverse = Q.identity ∧ b.inverse.mul b = Q.identity := by
  have hb : b.toQ ≠ 0 := fun e => h (Q.toQ_eq_zero.mp e)
  refine ⟨Q.toQ_injective ?_, Q.toQ_injective ?_, Q.toQ_injective ?_⟩
  · rw [(C96_inverse (a.mul b) b).2, (C96_algebra a b).2.2.1, mul_div_cancel_right₀ _ hb]
  · rw [(C96_algebra b _).2.2.1, (C96_inverse a b).1, mul_inv_cancel₀ hb, (C96_algebra a a).2.2.2.2]
  · rw [(C96_algebra _ b).2.2.1, (C96_inverse a b).1, inv_mul_cancel₀ hb, (C96_algebra a a).2.2.2.2]

end field

example : ((⟨1, 2, 3, 4⟩ : Q ℚ).mul ⟨5, 6, 7, 8⟩) = ⟨24, 48, 48, -6⟩ := by decide +kernel

theorem Q.dot_self_pos {q : Q ℝ} (h : q ≠ ⟨0, 0, 0, 0⟩) : 0 < q.dot q := by
  simp only [Q.dot, Q.xyz, V3.dot]
  have h1 := mul_self_nonneg q.x; have h2 := mul_self_nonneg q.y; have h3 := mul_self_nonneg q.z; have h4 := mul_self_nonneg q.w
  rcases lt_or_eq_of_le (show 0 ≤ q.x * q.x + q.y * q.y + q.z * q.z + q.w * q.w by linarith) with h' | h'
  · exact h'
  · exfalso
    exact h (Q.ext' (mul_self_eq_zero.mp (by linarith)) (mul_self_eq_zero.mp (by linarith)) (mul_self_eq_zero.mp (by linarith)) (mul_self_eq_zero.mp (by linarith)))

/-- C96: normalising gives length 1 and the same direction, unless the quaternion is zero; quaternions of length 1 have products of length 1. -/
theorem C96_norm (q : Q ℝ) (h : q ≠ ⟨0, 0, 0, 0⟩) : q.norm.dot q.norm = 1 ∧ ∃ k, 0 < k ∧ q = q.norm.mulf k := by
  have hp : 0 < q.mag := Real.sqrt_pos.mpr (Q.dot_self_pos h)
  have hs : q.mag * q.mag = q.dot q := Real.mul_self_sqrt (le_of_lt (Q.dot_self_pos h))
  constructor
  · have : q.norm.dot q.norm = q.dot q / (q.mag * q.mag) := by
      simp only [Q.norm, Q.dot, Q.xyz, V3.dot, Q.divf]; ring
    rw [this, hs, div_self (ne_of_gt (Q.dot_self_pos h))]
  · refine ⟨q.mag, hp, ?_⟩
    simp only [Q.norm, Q.mulf, Q.divf, div_mul_cancel₀ _ (ne_of_gt hp)]

/-! ## C97: rotations -/

section ring

variable {K : Type} [CommRing K]

/-- C97: rotating a vector by a quaternion of length 1 is conjugation with it. -/
theorem C97_rotate (q : Q K) (h : q.dot q = 1) (v : V3 K) : (q.rotate v).toQ = q.toQ * v.toQ * star q.toQ := by
  have h' : q.x * q.x + q.y * q.y + q.z * q.z + q.w * q.w = 1 := h
  ext
  · simp only [V3.re, V3.imI, V3.imJ, V3.imK, Q.re, Q.imI, Q.imJ, Q.imK, Quaternion.re_mul, Quaternion.imI_mul, Quaternion.imJ_mul, Quaternion.imK_mul, Quaternion.re_star, Quaternion.imI_star, Quaternion.imJ_star, Quaternion.imK_star]; ring
  · simp only [V3.re, V3.imI, V3.imJ, V3.imK, Q.re, Q.imI, Q.imJ, Q.imK, Quaternion.re_mul, Quaternion.imI_mul, Quaternion.imJ_mul, Quaternion.imK_mul, Quaternion.re_star, Quaternion.imI_star, Quaternion.imJ_star, Quaternion.imK_star, Q.rotate, V3.cross, V3.mul, V3.add, Q.xyz]
    linear_combination -v.x * h'
  · simp only [V3.re, V3.imI, V3.imJ, V3.imK, Q.re, Q.imI, Q.imJ, Q.imK, Quaternion.re_mul, Quaternion.imI_mul, Quaternion.imJ_mul, Quaternion.imK_mul, Quaternion.re_star, Quaternion.imI_star, Quaternion.imJ_star, Quaternion.imK_star, Q.rotate, V3.cross, V3.mul, V3.add, Q.xyz]
    linear_combination -v.y * h'
  · simp only [V3.re, V3.imI, V3.imJ, V3.imK, Q.re, Q.imI, Q.imJ, Q.imK, Quaternion.re_mul, Quaternion.imI_mul, Quaternion.imJ_mul, Quaternion.imK_mul, Quaternion.re_star, Quaternion.imI_star, Quaternion.imJ_star, Quaternion.imK_star, Q.rotate, V3.cross, V3.mul, V3.add, Q.xyz]
    linear_combination -v.z * h'

theorem V3.toQ_injective {a b : V3 K} (h : a.toQ = b.toQ) : a = b := by
  have h2 := congrArg QuaternionAlgebra.imI h
  have h3 := congrArg QuaternionAlgebra.imJ h; have h4 := congrArg QuaternionAlgebra.imK h
  exact V3.ext' h2 h3 h4

/-- C97: rotating by a product of two quaternions is rotating by the second, then by the first. -/
theorem C97_compose (a b : Q K) (ha : a.dot a = 1) (hb : b.dot b = 1) (v : V3 K) : (a.mul b).rotate v = a.rotate (b.rotate v) := by
  have hab : (a.mul b).dot (a.mul b) = 1 := by rw [(C96_dot a b).2, ha, hb, one_mul]
  apply V3.toQ_injective
  rw [C97_rotate _ hab, C97_rotate _ ha, C97_rotate _ hb, (C96_algebra a b).2.2.1, star_mul]
  simp only [mul_assoc]

/-- C97: rotating by the conjugate undoes the rotation. -/
theorem C97_undo (q : Q K) (h : q.dot q = 1) (v : V3 K) : q.conj.rotate (q.rotate v) = v ∧ q.rotate (q.conj.rotate v) = v := by
  have hc : q.conj.dot q.conj = 1 := by simp only [Q.dot, Q.xyz, V3.dot, Q.conj] at h ⊢; linear_combination h
  have h1 : q.conj.mul q = Q.identity := by
    have h' : q.x * q.x + q.y * q.y + q.z * q.z + q.w * q.w = 1 := h
    apply Q.ext' <;> simp only [Q.mul, Q.conj, Q.identity]
    · ring
    · ring
    · ring
    · linear_combination h'
  have h2 : q.mul q.conj = Q.identity := by
    have h' : q.x * q.x + q.y * q.y + q.z * q.z + q.w * q.w = 1 := h
    apply Q.ext' <;> simp only [Q.mul, Q.conj, Q.identity]
    · ring
    · ring
    · ring
    · linear_combination h'
  have h3 : (Q.identity : Q K).rotate v = v := by
    apply V3.ext' <;> simp [Q.rotate, Q.identity, Q.xyz, V3.cross, V3.mul, V3.add]
  exact ⟨by rw [← C97_compose _ _ hc h, h1, h3], by rw [← C97_compose _ _ h hc, h2, h3]⟩

/-- C97: a rotation keeps lengths and angles, and the handedness. -/
theorem C97_rigid (q : Q K) (h : q.dot q = 1) (u v : V3 K) :
    (q.rotate u).dot (q.rotate v) = u.dot v ∧ (q.rotate u).cross (q.rotate v) = q.rotate (u.cross v) := by
  have hp : ∀ a b : V3 K, a.toQ * b.toQ = ((-(a.dot b) : K) : Quaternion K) + (a.cross b).toQ := by
    intro a b
    ext <;> simp only [V3.re, V3.imI, V3.imJ, V3.imK, Quaternion.re_mul, Quaternion.imI_mul, Quaternion.imJ_mul, Quaternion.imK_mul, Quaternion.re_add, Quaternion.imI_add,
      Quaternion.imJ_add, Quaternion.imK_add, Quaternion.re_coe, Quaternion.imI_coe, Quaternion.imJ_coe, Quaternion.imK_coe, V3.dot, V3.cross] <;> ring
  have hq : q.toQ * star q.toQ = 1 := by rw [Quaternion.self_mul_star, ← (C96_dot q q).1, h]; rfl
  have hq' : star q.toQ * q.toQ = 1 := by rw [Quaternion.star_mul_self, ← (C96_dot q q).1, h]; rfl
  have e : (q.rotate u).toQ * (q.rotate v).toQ = ((-(u.dot v) : K) : Quaternion K) + (q.rotate (u.cross v)).toQ := by
    rw [C97_rotate _ h, C97_rotate _ h, C97_rotate _ h]
    calc q.toQ * u.toQ * star q.toQ * (q.toQ * v.toQ * star q.toQ) = q.toQ * u.toQ * (star q.toQ * q.toQ) * v.toQ * star q.toQ := by simp only [mul_assoc]
      _ = q.toQ * (u.toQ * v.toQ) * star q.toQ := by rw [hq', mul_one]; simp only [mul_assoc]
      _ = _ := by
        rw [hp, mul_add, add_mul, ← Quaternion.coe_commutes, mul_assoc (_ : Quaternion K), hq, mul_one]
  rw [hp] at e
  have e1 := congrArg QuaternionAlgebra.re e
  simp only [V3.re, Quaternion.re_add, Quaternion.re_coe, add_zero, neg_inj] at e1
  rw [e1] at e
  exact ⟨e1, V3.toQ_injective (add_left_cancel e)⟩

/-! ### The matrix of a rotation -/

/-- The matrix of a quaternion rotates the first three coordinates and keeps the last. -/
theorem rotation_vec (q : Q K) (p : V4 K) :
    mulVec4 (rotation q) p = ⟨(q.rotate ⟨p.x, p.y, p.z⟩).x, (q.rotate ⟨p.x, p.y, p.z⟩).y, (q.rotate ⟨p.x, p.y, p.z⟩).z, p.w⟩ := by
  apply V4.ext' <;> simp [mulVec4, rotation, Mat.set, identity, Q.rotate, V3.cross, V3.mul, V3.add, Q.xyz] <;> ring

end ring

/-- C97: the matrix made of a quaternion takes every point where the normalised quaternion rotates it, and every direction too. -/
theorem C97_matrix (q : Q ℝ) (_h : q ≠ ⟨0, 0, 0, 0⟩) (v : V3 ℝ) :
    mulVec4 (mat4_from_quat q) v.point = (q.norm.rotate v).point ∧
    mulVec4 (mat4_from_quat q) ⟨v.x, v.y, v.z, 0⟩ = ⟨(q.norm.rotate v).x, (q.norm.rotate v).y, (q.norm.rotate v).z, 0⟩ :=
  ⟨rotation_vec q.norm _, rotation_vec q.norm _⟩

theorem norm_mul (a b : Q ℝ) (ha : a ≠ ⟨0, 0, 0, 0⟩) (hb : b ≠ ⟨0, 0, 0, 0⟩) : (a.mul b).norm = a.norm.mul b.norm := by
  have e : (a.mul b).mag = a.mag * b.mag := by
    simp only [Q.mag]; rw [(C96_dot a b).2, Real.sqrt_mul (le_of_lt (Q.dot_self_pos ha))]
  have h1 : a.mag ≠ 0 := ne_of_gt (Real.sqrt_pos.mpr (Q.dot_self_pos ha))
  have h2 : b.mag ≠ 0 := ne_of_gt (Real.sqrt_pos.mpr (Q.dot_self_pos hb))
  rw [Q.norm, e]
  apply Q.ext' <;> simp only [Q.norm, Q.divf, Q.mul] <;> field_simp

/-- C97: the matrix of a product acts as the product of the matrices. -/
theorem C97_matrix_product (a b : Q ℝ) (ha : a ≠ ⟨0, 0, 0, 0⟩) (hb : b ≠ ⟨0, 0, 0, 0⟩) (p : V4 ℝ) :
    mulVec4 (mat4_from_quat (a.mul b)) p = mulVec4 (mat4_from_quat a) (mulVec4 (mat4_from_quat b) p) := by
  simp only [mat4_from_quat, norm_mul a b ha hb, rotation_vec, C97_compose _ _ (C96_norm a ha).1 (C96_norm b hb).1]

/-- The diagonal of the matrix of a quaternion of length 1. -/
theorem biggest_ok (a : Q ℝ) (h : a.dot a = 1) :
    biggest (rotation a) = (0, 4 * (a.w * a.w) - 1) ∧ 0 < a.w * a.w ∨ biggest (rotation a) = (1, 4 * (a.x * a.x) - 1) ∧ 0 < a.x * a.x ∨
    biggest (rotation a) = (2, 4 * (a.y * a.y) - 1) ∧ 0 < a.y * a.y ∨ biggest (rotation a) = (3, 4 * (a.z * a.z) - 1) ∧ 0 < a.z * a.z := by
  have h' : a.x * a.x + a.y * a.y + a.z * a.z + a.w * a.w = 1 := h
  have e0 : rotation a 0 0 + rotation a 1 1 + rotation a 2 2 = 4 * (a.w * a.w) - 1 := by
    simp [rotation, Mat.set]; linear_combination -4 * h'
  have e1 : rotation a 0 0 - rotation a 1 1 - rotation a 2 2 = 4 * (a.x * a.x) - 1 := by
    simp [rotation, Mat.set]; ring
  have e2 : rotation a 1 1 - rotation a 0 0 - rotation a 2 2 = 4 * (a.y * a.y) - 1 := by
    simp [rotation, Mat.set]; ring
  have e3 : rotation a 2 2 - rotation a 0 0 - rotation a 1 1 = 4 * (a.z * a.z) - 1 := by
    simp [rotation, Mat.set]; ring
  simp only [biggest, e0, e1, e2, e3]
  by_cases c1 : 4 * (a.x * a.x) - 1 > 4 * (a.w * a.w) - 1
  · simp only [if_pos c1]
    by_cases c2 : 4 * (a.y * a.y) - 1 > 4 * (a.x * a.x) - 1
    · simp only [if_pos c2]
      by_cases c3 : 4 * (a.z * a.z) - 1 > 4 * (a.y * a.y) - 1
      · simp only [if_pos c3]; exact Or.inr (Or.inr (Or.inr ⟨trivial, by linarith⟩))
      · simp only [if_neg c3]; exact Or.inr (Or.inr (Or.inl ⟨trivial, by linarith⟩))
    · simp only [if_neg c2]
      by_cases c3 : 4 * (a.z * a.z) - 1 > 4 * (a.x * a.x) - 1
      · simp only [if_pos c3]; exact Or.inr (Or.inr (Or.inr ⟨trivial, by linarith⟩))
      · simp only [if_neg c3]; exact Or.inr (Or.inl ⟨trivial, by linarith⟩)
  · simp only [if_neg c1]
    by_cases c2 : 4 * (a.y * a.y) - 1 > 4 * (a.w * a.w) - 1
    · simp only [if_pos c2]
      by_cases c3 : 4 * (a.z * a.z) - 1 > 4 * (a.y * a.y) - 1
      · simp only [if_pos c3]; exact Or.inr (Or.inr (Or.inr ⟨trivial, by linarith⟩))
      · simp only [if_neg c3]; exact Or.inr (Or.inr (Or.inl ⟨trivial, by linarith⟩))
    · simp only [if_neg c2]
      by_cases c3 : 4 * (a.z * a.z) - 1 > 4 * (a.w * a.w) - 1
      · simp only [if_pos c3]; exact Or.inr (Or.inr (Or.inr ⟨trivial, by linarith⟩))
      · simp only [if_neg c3]; exact Or.inl ⟨trivial, by linarith⟩

/-- `sqrt (4 b² - 1 + 1) / 2` is `b` or `-b`, and the factor is its quarter inverse. -/
theorem root_ok (b : ℝ) (hb : 0 < b * b) :
    ∃ s : ℝ, (s = 1 ∨ s = -1) ∧ Real.sqrt (4 * (b * b) - 1 + 1) * (1 / 2) = s * b ∧ ∀ c, 4 * (b * c) * ((1 / 4) / (Real.sqrt (4 * (b * b) - 1 + 1) * (1 / 2))) = s * c := by
  have e : (4 * (b * b) - 1 + 1 : ℝ) = (2 * |b|) * (2 * |b|) := by rw [← abs_mul_abs_self b]; ring
  have e' : Real.sqrt (4 * (b * b) - 1 + 1) * (1 / 2) = |b| := by
    rw [e, Real.sqrt_mul_self (by positivity)]; ring
  have hne : b ≠ 0 := fun h0 => by rw [h0] at hb; simp at hb
  rw [e']
  rcases le_total 0 b with h | h
  · exact ⟨1, Or.inl rfl, by rw [abs_of_nonneg h, one_mul], fun c => by rw [abs_of_nonneg h]; field_simp⟩
  · exact ⟨-1, Or.inr rfl, by rw [abs_of_nonpos h, neg_one_mul], fun c => by rw [abs_of_nonpos h]; field_simp⟩

/-- C97: the quaternion read from the matrix of a quaternion is that quaternion, normalised, or its opposite, which stands for the same rotation. -/
theorem C97_round_trip (q : Q ℝ) (h : q ≠ ⟨0, 0, 0, 0⟩) :
    quat_from_mat4 (mat4_from_quat q) = q.norm ∨ quat_from_mat4 (mat4_from_quat q) = q.norm.mulf (-1) := by
  have hn := (C96_norm q h).1
  simp only [mat4_from_quat]
  generalize q.norm = a at hn ⊢
  have key : ∃ s : ℝ, (s = 1 ∨ s = -1) ∧ quat_from_mat4 (rotation a) = a.mulf s := by
    rcases biggest_ok a hn with ⟨h1, h2⟩ | ⟨h1, h2⟩ | ⟨h1, h2⟩ | ⟨h1, h2⟩ <;> obtain ⟨s, hs, e1, e2⟩ := root_ok _ h2 <;> refine ⟨s, hs, ?_⟩ <;>
      simp only [quat_from_mat4, h1, Q.mulf] <;> apply Q.ext' <;> dsimp only <;>
      first
      | (rw [e1]; ring1)
      | (rw [mul_comm _ s, ← e2]; congr 1; simp [rotation, Mat.set]; ring1)
  obtain ⟨s, rfl | rfl, e⟩ := key
  · left; rw [e]; simp [Q.mulf]
  · right; exact e

/-- C97: a quaternion and its opposite rotate alike. -/
theorem C97_opposite (q : Q ℝ) (v : V3 ℝ) : (q.mulf (-1)).rotate v = q.rotate v := by
  apply V3.ext' <;> simp only [Q.rotate, Q.mulf, Q.xyz, V3.cross, V3.mul, V3.add] <;> ring

example : (⟨0, 3 / 5, 0, 4 / 5⟩ : Q ℚ).dot ⟨0, 3 / 5, 0, 4 / 5⟩ = 1 ∧ (⟨0, 3 / 5, 0, 4 / 5⟩ : Q ℚ).rotate ⟨1, 2, 0⟩ = ⟨7 / 25, 2, -24 / 25⟩ := by decide +kernel

example : (⟨1, 2, 3, 4⟩ : Q ℝ) ≠ ⟨0, 0, 0, 0⟩ := by intro h; have := congrArg Q.x h; norm_num at this

end Zpl.Math
