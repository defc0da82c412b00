import Verif.Math.InterpFloat
import Verif.Math.Mat
import Verif.Math.Quat

/-!
# Products of vectors, matrices and quaternions in single precision (code/source/math.c)  -  C155

The functions are those of `Math/Vec`, `Math/Mat` and `Math/Quat`, which are written for any numbers with sums and products; here the numbers are those of single precision,
each operation rounding its result.  The compiler does not fuse a product with a sum.

## Model -/

namespace Zpl.MatF

open Math F32 MathF
open F64 (pow2 pow2_eq pow2_pos pow2_add pow2_le pow2_lt_iff)

/-- The `+` of `zpl_f32`, as in math.c:820. -/
instance : Add F32 := ⟨F32.add⟩
/-- The `*` of `zpl_f32`, as in math.c:820. -/
instance : Mul F32 := ⟨F32.mul⟩
/-- The `-` of `zpl_f32`, as in math.c:637. -/
instance : Sub F32 := ⟨F32.sub⟩
/-- The sign of math.c:1218. -/
instance : Neg F32 := ⟨F32.neg⟩
/-- The `0` of math.c:760. -/
instance : Zero F32 := ⟨fin 0⟩
/-- The `1` of math.c:759. -/
instance : One F32 := ⟨fin 1⟩
/-- The `2.0f` of math.c:1251. -/
instance : OfNat F32 2 := ⟨fin 2⟩

/-! ## Specification -/

/-- A matrix of numbers in single precision. -/
def inSingle {n : Nat} (m : Mat n ℚ) : Mat n F32 := fun j i => fin (m j i)

/-- A matrix whose entries are numbers of single precision. -/
def Finite {n : Nat} (m : Mat n F32) : Prop := ∀ j i, ∃ q, Representable q ∧ m j i = fin q

/-- The matrix of the absolute values. -/
def size {n : Nat} (m : Mat n ℚ) : Matrix (Fin n) (Fin n) ℚ := (toMatrix m).map abs

/-- The result is a number, and no farther than `e` from `x`. -/
def Within (r : F32) (x e : ℚ) : Prop := ∃ q, r = fin q ∧ |q - x| ≤ e

/-! ## Lemmas -/

theorem add_def (a b : F32) : a + b = F32.add a b := rfl
theorem mul_def (a b : F32) : a * b = F32.mul a b := rfl
theorem sub_def (a b : F32) : a - b = F32.add a (F32.neg b) := rfl

/-- One rounded term of a sum. -/
def Term (r : F32) (x : ℚ) : Prop := Within r x (|x| * pow2 (-24) + pow2 (-150))

theorem u_eq : pow2 (-24) = 1 / 16777216 := by norm_num [pow2_eq]

theorem term_mul {a b : ℚ} (h : |a * b| ≤ pow2 126) : Term (fin a * fin b) (a * b) := by
  refine ⟨rounded (a * b), ?_, rounded_close _⟩
  rw [mul_def, mul_fin, round_small (h.trans (pow2_le (by norm_num)))]

theorem term_neg {r : F32} {x : ℚ} (h : Term r x) : Term (F32.neg r) (-x) := by
  obtain ⟨q, rfl, h⟩ := h
  refine ⟨-q, rfl, ?_⟩
  rw [abs_neg, show -q - -x = -(q - x) by ring, abs_neg]
  exact h

/-- Adding a term to a sum. -/
theorem add_near {r s : F32} {x y e f : ℚ} (hr : Within r x e) (hs : Within s y f) (h : |x + y| + e + f ≤ pow2 127) :
    Within (r + s) (x + y) (e + f + (|x + y| + e + f) * pow2 (-24) + pow2 (-150)) := by
  obtain ⟨p, rfl, hp⟩ := hr
  obtain ⟨q, rfl, hq⟩ := hs
  have h1 : |p + q - (x + y)| ≤ e + f := by
    rw [show p + q - (x + y) = (p - x) + (q - y) by ring]
    exact (abs_add_le _ _).trans (add_le_add hp hq)
  have h2 : |p + q| ≤ |x + y| + e + f := by
    rw [show p + q = (x + y) + (p + q - (x + y)) by ring]
    exact (abs_add_le _ _).trans (by linarith)
  refine ⟨rounded (p + q), ?_, ?_⟩
  · rw [add_def, add_fin, round_small (h2.trans h)]
  · rw [show rounded (p + q) - (x + y) = (rounded (p + q) - (p + q)) + (p + q - (x + y)) by ring]
    refine (abs_add_le _ _).trans ?_
    have h3 := rounded_close (p + q)
    have h4 : |p + q| * pow2 (-24) ≤ (|x + y| + e + f) * pow2 (-24) := mul_le_mul_of_nonneg_right h2 (pow2_pos _).le
    linarith

theorem Within.mono {r : F32} {x e f : ℚ} (h : Within r x e) (hf : e ≤ f) : Within r x f := by
  obtain ⟨q, h1, h2⟩ := h
  exact ⟨q, h1, h2.trans hf⟩

theorem sum2 {a b : F32} {x y : ℚ} (ha : Term a x) (hb : Term b y) (h : |x| + |y| ≤ pow2 126) :
    Within (a + b) (x + y) ((|x| + |y|) * (3 * pow2 (-24)) + 4 * pow2 (-150)) := by
  have e0 := abs_nonneg x
  have e1 := abs_nonneg y
  have e2 := abs_add_le x y
  have e3 : 0 < pow2 (-150) := pow2_pos _
  have e4 : pow2 (-150) ≤ 1 := by rw [← show pow2 0 = 1 from rfl]; exact pow2_le (by norm_num)
  have e5 : 64 ≤ pow2 126 := by rw [← show pow2 6 = 64 from rfl]; exact pow2_le (by norm_num)
  have e6 : pow2 127 = 2 * pow2 126 := by rw [show (127 : ℤ) = 1 + 126 by norm_num, pow2_add]; rfl
  refine (add_near ha hb ?_).mono ?_
  · rw [u_eq, e6]; linarith
  · rw [u_eq]; linarith

theorem sum3 {a b c : F32} {x y z : ℚ} (ha : Term a x) (hb : Term b y) (hc : Term c z) (h : |x| + |y| + |z| ≤ pow2 126) :
    Within (a + b + c) (x + y + z) ((|x| + |y| + |z|) * (4 * pow2 (-24)) + 8 * pow2 (-150)) := by
  have e0 := abs_nonneg x
  have e1 := abs_nonneg y
  have ez := abs_nonneg z
  have e2 := abs_add_le x y
  have e2' := abs_add_le (x + y) z
  have e3 : 0 < pow2 (-150) := pow2_pos _
  have e4 : pow2 (-150) ≤ 1 := by rw [← show pow2 0 = 1 from rfl]; exact pow2_le (by norm_num)
  have e5 : 64 ≤ pow2 126 := by rw [← show pow2 6 = 64 from rfl]; exact pow2_le (by norm_num)
  have e6 : pow2 127 = 2 * pow2 126 := by rw [show (127 : ℤ) = 1 + 126 by norm_num, pow2_add]; rfl
  have s := add_near ha hb (by rw [u_eq, e6]; linarith)
  refine (add_near s hc ?_).mono ?_
  · rw [u_eq, e6]; linarith
  · rw [u_eq]; linarith

theorem sum4 {a b c d : F32} {x y z w : ℚ} (ha : Term a x) (hb : Term b y) (hc : Term c z) (hd : Term d w) (h : |x| + |y| + |z| + |w| ≤ pow2 126) :
    Within (a + b + c + d) (x + y + z + w) ((|x| + |y| + |z| + |w|) * (5 * pow2 (-24)) + 16 * pow2 (-150)) := by
  have e0 := abs_nonneg x
  have e1 := abs_nonneg y
  have ez := abs_nonneg z
  have ew := abs_nonneg w
  have e2 := abs_add_le x y
  have e2' := abs_add_le (x + y) z
  have e2'' := abs_add_le (x + y + z) w
  have e3 : 0 < pow2 (-150) := pow2_pos _
  have e4 : pow2 (-150) ≤ 1 := by rw [← show pow2 0 = 1 from rfl]; exact pow2_le (by norm_num)
  have e5 : 64 ≤ pow2 126 := by rw [← show pow2 6 = 64 from rfl]; exact pow2_le (by norm_num)
  have e6 : pow2 127 = 2 * pow2 126 := by rw [show (127 : ℤ) = 1 + 126 by norm_num, pow2_add]; rfl
  have s := add_near ha hb (by rw [u_eq, e6]; linarith)
  have s' := add_near s hc (by rw [u_eq, e6]; linarith)
  refine (add_near s' hd ?_).mono ?_
  · rw [u_eq, e6]; linarith
  · rw [u_eq]; linarith

/-! ## C155: products of matrices -/

/-- C155: an entry of the product of two matrices of four rows differs from the exact one by at most five units of 2⁻²⁴ of the sum of the absolute values of its terms
(and the smallest numbers there are), whichever matrices are replaced. -/
theorem C155_mul4 (st : Mem 4 F32) (out m1 m2 : Nat) (a b : Mat 4 ℚ) (ha : st m1 = inSingle a) (hb : st m2 = inSingle b) (i j : Fin 4)
    (h : (size a * size b) i j ≤ pow2 126) :
    Within (mul4 st out m1 m2 out j i) ((toMatrix a * toMatrix b) i j) ((size a * size b) i j * (5 * pow2 (-24)) + pow2 (-146)) := by
  have e := (mul_entries entry4 st out m1 m2).1 j i
  change mul4 st out m1 m2 out j i = _ at e
  simp only [Matrix.mul_apply, Fin.sum_univ_four, size, Matrix.map_apply, toMatrix, Matrix.of_apply, ← abs_mul] at h ⊢
  rw [e, ha, hb]
  have n0 := abs_nonneg (a 0 i * b j 0)
  have n1 := abs_nonneg (a 1 i * b j 1)
  have n2 := abs_nonneg (a 2 i * b j 2)
  have n3 := abs_nonneg (a 3 i * b j 3)
  have t : pow2 (-146) = 16 * pow2 (-150) := by rw [show (-146 : ℤ) = 4 + -150 by norm_num, pow2_add]; rfl
  rw [t]
  exact sum4 (term_mul (by linarith)) (term_mul (by linarith)) (term_mul (by linarith)) (term_mul (by linarith)) h

/-- C155, for matrices of three rows. -/
theorem C155_mul3 (st : Mem 3 F32) (out m1 m2 : Nat) (a b : Mat 3 ℚ) (ha : st m1 = inSingle a) (hb : st m2 = inSingle b) (i j : Fin 3)
    (h : (size a * size b) i j ≤ pow2 126) :
    Within (mul3 st out m1 m2 out j i) ((toMatrix a * toMatrix b) i j) ((size a * size b) i j * (4 * pow2 (-24)) + pow2 (-147)) := by
  have e := (mul_entries entry3 st out m1 m2).1 j i
  change mul3 st out m1 m2 out j i = _ at e
  simp only [Matrix.mul_apply, Fin.sum_univ_three, size, Matrix.map_apply, toMatrix, Matrix.of_apply, ← abs_mul] at h ⊢
  rw [e, ha, hb]
  have n0 := abs_nonneg (a 0 i * b j 0)
  have n1 := abs_nonneg (a 1 i * b j 1)
  have n2 := abs_nonneg (a 2 i * b j 2)
  have t : pow2 (-147) = 8 * pow2 (-150) := by rw [show (-147 : ℤ) = 3 + -150 by norm_num, pow2_add]; rfl
  rw [t]
  exact sum3 (term_mul (by linarith)) (term_mul (by linarith)) (term_mul (by linarith)) h

/-- C155, for matrices of two rows. -/
theorem C155_mul2 (st : Mem 2 F32) (out m1 m2 : Nat) (a b : Mat 2 ℚ) (ha : st m1 = inSingle a) (hb : st m2 = inSingle b) (i j : Fin 2)
    (h : (size a * size b) i j ≤ pow2 126) :
    Within (mul2 st out m1 m2 out j i) ((toMatrix a * toMatrix b) i j) ((size a * size b) i j * (3 * pow2 (-24)) + pow2 (-148)) := by
  have e := (mul_entries entry2 st out m1 m2).1 j i
  change mul2 st out m1 m2 out j i = _ at e
  simp only [Matrix.mul_apply, Fin.sum_univ_two, size, Matrix.map_apply, toMatrix, Matrix.of_apply, ← abs_mul] at h ⊢
  rw [e, ha, hb]
  have n0 := abs_nonneg (a 0 i * b j 0)
  have n1 := abs_nonneg (a 1 i * b j 1)
  have t : pow2 (-148) = 4 * pow2 (-150) := by rw [show (-148 : ℤ) = 2 + -150 by norm_num, pow2_add]; rfl
  rw [t]
  exact sum2 (term_mul (by linarith)) (term_mul (by linarith)) h

/-- C155: a matrix of four rows times a vector. -/
theorem C155_vec4 (m : Mat 4 ℚ) (v : V4 ℚ) (i : Fin 4) (h : ((size m).mulVec fun k => |v.toFun k|) i ≤ pow2 126) :
    Within ((mulVec4 (inSingle m) ⟨fin v.x, fin v.y, fin v.z, fin v.w⟩).toFun i) ((toMatrix m).mulVec v.toFun i)
      (((size m).mulVec fun k => |v.toFun k|) i * (5 * pow2 (-24)) + pow2 (-146)) := by
  have t : pow2 (-146) = 16 * pow2 (-150) := by rw [show (-146 : ℤ) = 4 + -150 by norm_num, pow2_add]; rfl
  rw [t]
  have g : ∀ a b c d x y z w : ℚ, |a * x| + |b * y| + |c * z| + |d * w| ≤ pow2 126 →
      Within (fin a * fin x + fin b * fin y + fin c * fin z + fin d * fin w) (a * x + b * y + c * z + d * w)
        ((|a * x| + |b * y| + |c * z| + |d * w|) * (5 * pow2 (-24)) + 16 * pow2 (-150)) := by
    intro a b c d x y z w h
    have n0 := abs_nonneg (a * x)
    have n1 := abs_nonneg (b * y)
    have n2 := abs_nonneg (c * z)
    have n3 := abs_nonneg (d * w)
    exact sum4 (term_mul (by linarith)) (term_mul (by linarith)) (term_mul (by linarith)) (term_mul (by linarith)) h
  simp only [Matrix.mulVec, dotProduct, Fin.sum_univ_four, size, Matrix.map_apply, toMatrix, Matrix.of_apply, ← abs_mul] at h ⊢
  fin_cases i <;> exact g _ _ _ _ _ _ _ _ h

/-! ## C155: vectors and quaternions -/

/-- C155: the dot product of two vectors. -/
theorem C155_dot4 (a b : V4 ℚ) (h : |a.x * b.x| + |a.y * b.y| + |a.z * b.z| + |a.w * b.w| ≤ pow2 126) :
    Within (V4.dot ⟨fin a.x, fin a.y, fin a.z, fin a.w⟩ ⟨fin b.x, fin b.y, fin b.z, fin b.w⟩) (a.x * b.x + a.y * b.y + a.z * b.z + a.w * b.w)
      ((|a.x * b.x| + |a.y * b.y| + |a.z * b.z| + |a.w * b.w|) * (5 * pow2 (-24)) + pow2 (-146)) := by
  have t : pow2 (-146) = 16 * pow2 (-150) := by rw [show (-146 : ℤ) = 4 + -150 by norm_num, pow2_add]; rfl
  rw [t]
  have n0 := abs_nonneg (a.x * b.x)
  have n1 := abs_nonneg (a.y * b.y)
  have n2 := abs_nonneg (a.z * b.z)
  have n3 := abs_nonneg (a.w * b.w)
  exact sum4 (term_mul (by linarith)) (term_mul (by linarith)) (term_mul (by linarith)) (term_mul (by linarith)) h

/-- C155, for three coordinates. -/
theorem C155_dot3 (a b : V3 ℚ) (h : |a.x * b.x| + |a.y * b.y| + |a.z * b.z| ≤ pow2 126) :
    Within (V3.dot ⟨fin a.x, fin a.y, fin a.z⟩ ⟨fin b.x, fin b.y, fin b.z⟩) (a.x * b.x + a.y * b.y + a.z * b.z)
      ((|a.x * b.x| + |a.y * b.y| + |a.z * b.z|) * (4 * pow2 (-24)) + pow2 (-147)) := by
  have t : pow2 (-147) = 8 * pow2 (-150) := by rw [show (-147 : ℤ) = 3 + -150 by norm_num, pow2_add]; rfl
  rw [t]
  have n0 := abs_nonneg (a.x * b.x)
  have n1 := abs_nonneg (a.y * b.y)
  have n2 := abs_nonneg (a.z * b.z)
  exact sum3 (term_mul (by linarith)) (term_mul (by linarith)) (term_mul (by linarith)) h

/-- The difference of two products. -/
theorem minor {a b c d : ℚ} (h : |a * b| + |c * d| ≤ pow2 126) :
    Within (fin a * fin b - fin c * fin d) (a * b - c * d) ((|a * b| + |c * d|) * (3 * pow2 (-24)) + 4 * pow2 (-150)) := by
  have n0 := abs_nonneg (a * b)
  have n1 := abs_nonneg (c * d)
  have := sum2 (term_mul (a := a) (b := b) (by linarith)) (term_neg (term_mul (a := c) (b := d) (by linarith))) (by rw [abs_neg]; exact h)
  rw [abs_neg, ← sub_eq_add_neg] at this
  exact this

/-- C155: each coordinate of a cross product, which is a difference of two products, differs from the exact one by at most three units of 2⁻²⁴ of the sum of the sizes of the two. -/
theorem C155_cross (a b : V3 ℚ) (hx : |a.y * b.z| + |a.z * b.y| ≤ pow2 126) (hy : |a.z * b.x| + |a.x * b.z| ≤ pow2 126)
    (hz : |a.x * b.y| + |a.y * b.x| ≤ pow2 126) :
    let r := V3.cross (K := F32) ⟨fin a.x, fin a.y, fin a.z⟩ ⟨fin b.x, fin b.y, fin b.z⟩
    Within r.x (a.cross b).x ((|a.y * b.z| + |a.z * b.y|) * (3 * pow2 (-24)) + pow2 (-148)) ∧
    Within r.y (a.cross b).y ((|a.z * b.x| + |a.x * b.z|) * (3 * pow2 (-24)) + pow2 (-148)) ∧
    Within r.z (a.cross b).z ((|a.x * b.y| + |a.y * b.x|) * (3 * pow2 (-24)) + pow2 (-148)) := by
  have t : pow2 (-148) = 4 * pow2 (-150) := by rw [show (-148 : ℤ) = 2 + -150 by norm_num, pow2_add]; rfl
  rw [t]
  exact ⟨minor hx, minor hy, minor hz⟩

/-- The quaternion of single precision with these numbers. -/
def quat (q : Q ℚ) : Q F32 := ⟨fin q.x, fin q.y, fin q.z, fin q.w⟩

theorem abs_mul_le {a b A B : ℚ} (ha : |a| ≤ A) (hb : |b| ≤ B) : |a * b| ≤ A * B := by
  rw [abs_mul]
  exact mul_le_mul ha hb (abs_nonneg _) ((abs_nonneg _).trans ha)

/-- C155: each component of a product of quaternions differs from that of the exact product by at most twenty units of 2⁻²⁴ of the product of the bounds of their components. -/
theorem C155_quat (p q : Q ℚ) {A B : ℚ} (hp : |p.x| ≤ A ∧ |p.y| ≤ A ∧ |p.z| ≤ A ∧ |p.w| ≤ A) (hq : |q.x| ≤ B ∧ |q.y| ≤ B ∧ |q.z| ≤ B ∧ |q.w| ≤ B)
    (h : A * B ≤ pow2 124) :
    let r := (quat p).mul (quat q)
    let e := A * B * (20 * pow2 (-24)) + pow2 (-146)
    Within r.x (p.toQ * q.toQ).imI e ∧ Within r.y (p.toQ * q.toQ).imJ e ∧ Within r.z (p.toQ * q.toQ).imK e ∧ Within r.w (p.toQ * q.toQ).re e := by
  obtain ⟨p1, p2, p3, p4⟩ := hp
  obtain ⟨q1, q2, q3, q4⟩ := hq
  have t : pow2 (-146) = 16 * pow2 (-150) := by rw [show (-146 : ℤ) = 4 + -150 by norm_num, pow2_add]; rfl
  have f : pow2 126 = 4 * pow2 124 := by rw [show (126 : ℤ) = 2 + 124 by norm_num, pow2_add]; rfl
  have pos := pow2_pos 124
  have g : ∀ {a b c d : F32} {x y z w s : ℚ}, |x| ≤ A * B → |y| ≤ A * B → |z| ≤ A * B → |w| ≤ A * B → Term a x → Term b y → Term c z → Term d w →
      s = x + y + z + w → Within (a + b + c + d) s (A * B * (20 * pow2 (-24)) + pow2 (-146)) := by
    intro a b c d x y z w s hx hy hz hw ha hb hc hd hs
    rw [hs]
    refine (sum4 ha hb hc hd (by linarith)).mono ?_
    rw [t, u_eq]
    linarith
  have m : ∀ {a b : ℚ}, |a| ≤ A → |b| ≤ B → |a * b| ≤ A * B ∧ Term (fin a * fin b) (a * b) ∧ |(-(a * b))| ≤ A * B ∧ Term (F32.neg (fin a * fin b)) (-(a * b)) := by
    intro a b ha hb
    have e := abs_mul_le ha hb
    have := term_mul (a := a) (b := b) (by linarith)
    exact ⟨e, this, by rw [abs_neg]; exact e, term_neg this⟩
  have s : ∀ a b : F32, a - b = a + F32.neg b := fun _ _ => rfl
  simp only [Q.mul, quat, s, Quaternion.imI_mul, Quaternion.imJ_mul, Quaternion.imK_mul, Quaternion.re_mul]
  refine ⟨?_, ?_, ?_, ?_⟩
  · exact g (m p4 q1).1 (m p1 q4).1 (m p2 q3).1 (m p3 q2).2.2.1 (m p4 q1).2.1 (m p1 q4).2.1 (m p2 q3).2.1 (m p3 q2).2.2.2 (by simp only [Q.toQ]; ring)
  · exact g (m p4 q2).1 (m p1 q3).2.2.1 (m p2 q4).1 (m p3 q1).1 (m p4 q2).2.1 (m p1 q3).2.2.2 (m p2 q4).2.1 (m p3 q1).2.1 (by simp only [Q.toQ]; ring)
  · exact g (m p4 q3).1 (m p1 q2).1 (m p2 q1).2.2.1 (m p3 q4).1 (m p4 q3).2.1 (m p1 q2).2.1 (m p2 q1).2.2.2 (m p3 q4).2.1 (by simp only [Q.toQ]; ring)
  · exact g (m p4 q4).1 (m p1 q1).2.2.1 (m p2 q2).2.2.1 (m p3 q3).2.2.1 (m p4 q4).2.1 (m p1 q1).2.2.2 (m p2 q2).2.2.2 (m p3 q3).2.2.2 (by simp only [Q.toQ]; ring)

/-! ## C155: turning a vector -/

/-- A rounded product of numbers known up to an error. -/
theorem mul_near {r s : F32} {x y e f X Y : ℚ} (hr : Within r x e) (hs : Within s y f) (hx : |x| ≤ X) (hy : |y| ≤ Y) (h : (X + e) * (Y + f) ≤ pow2 127) :
    Within (r * s) (x * y) (X * f + e * Y + e * f + (X + e) * (Y + f) * pow2 (-24) + pow2 (-150)) := by
  obtain ⟨p, rfl, hp⟩ := hr
  obtain ⟨q, rfl, hq⟩ := hs
  have h1 : |p * q - x * y| ≤ X * f + e * Y + e * f := by
    rw [show p * q - x * y = x * (q - y) + (p - x) * y + (p - x) * (q - y) by ring]
    exact (abs_add_le _ _).trans (add_le_add ((abs_add_le _ _).trans (add_le_add (abs_mul_le hx hq) (abs_mul_le hp hy))) (abs_mul_le hp hq))
  have hp' : |p| ≤ X + e := by
    rw [show p = x + (p - x) by ring]; exact (abs_add_le _ _).trans (add_le_add hx hp)
  have hq' : |q| ≤ Y + f := by
    rw [show q = y + (q - y) by ring]; exact (abs_add_le _ _).trans (add_le_add hy hq)
  have h2 := abs_mul_le hp' hq'
  refine ⟨rounded (p * q), ?_, ?_⟩
  · rw [mul_def, mul_fin, round_small (h2.trans h)]
  · rw [show rounded (p * q) - x * y = (rounded (p * q) - p * q) + (p * q - x * y) by ring]
    refine (abs_add_le _ _).trans ?_
    have h3 := rounded_close (p * q)
    have h4 : |p * q| * pow2 (-24) ≤ (X + e) * (Y + f) * pow2 (-24) := mul_le_mul_of_nonneg_right h2 (pow2_pos _).le
    linarith

theorem neg_near {r : F32} {x e : ℚ} (h : Within r x e) : Within (F32.neg r) (-x) e := by
  obtain ⟨q, rfl, h⟩ := h
  refine ⟨-q, rfl, ?_⟩
  rw [show -q - -x = -(q - x) by ring, abs_neg]
  exact h

theorem exactly (q : ℚ) : Within (fin q) q 0 := ⟨q, rfl, by simp⟩

/-- The vector of single precision with these numbers. -/
def vec (v : V3 ℚ) : V3 F32 := ⟨fin v.x, fin v.y, fin v.z⟩

/-- C155: turning a vector by a quaternion whose components are at most 1 (as those of a unit quaternion are): each coordinate differs from the exact one by at most 2⁻¹⁷ times
the largest coordinate of the vector. -/
theorem C155_rotate (q : Q ℚ) (v : V3 ℚ) {M : ℚ} (hq : |q.x| ≤ 1 ∧ |q.y| ≤ 1 ∧ |q.z| ≤ 1 ∧ |q.w| ≤ 1) (hv : |v.x| ≤ M ∧ |v.y| ≤ M ∧ |v.z| ≤ M) (hM : M ≤ pow2 120) :
    let r := (quat q).rotate (vec v)
    let e := M * pow2 (-17) + pow2 (-140)
    Within r.x (q.rotate v).x e ∧ Within r.y (q.rotate v).y e ∧ Within r.z (q.rotate v).z e := by
  obtain ⟨q1, q2, q3, q4⟩ := hq
  obtain ⟨v1, v2, v3⟩ := hv
  have m0 : 0 ≤ M := (abs_nonneg _).trans v1
  have t0 : pow2 (-140) = 1024 * pow2 (-150) := by rw [show (-140 : ℤ) = 10 + -150 by norm_num, pow2_add]; rfl
  have t1 : pow2 (-17) = 128 / 16777216 := by norm_num [pow2_eq]
  have f : pow2 127 = 128 * pow2 120 := by rw [show (127 : ℤ) = 7 + 120 by norm_num, pow2_add]; rfl
  have e3 : 0 < pow2 (-150) := pow2_pos _
  have e4 : pow2 (-150) ≤ 1 := by rw [← show pow2 0 = 1 from rfl]; exact pow2_le (by norm_num)
  have e5 : 1024 ≤ pow2 120 := by rw [← show pow2 10 = 1024 from rfl]; exact pow2_le (by norm_num)
  -- a coordinate of `t`, twice a difference of two products
  have ht : ∀ {a b c d : ℚ}, |a| ≤ 1 → |b| ≤ M → |c| ≤ 1 → |d| ≤ M →
      Within ((fin a * fin b - fin c * fin d) * 2) ((a * b - c * d) * 2) (M * (17 / 16777216) + 12 * pow2 (-150)) ∧ |(a * b - c * d) * 2| ≤ 4 * M := by
    intro a b c d ha hb hc hd
    have h1 : |a * b| ≤ M := by simpa using abs_mul_le ha hb
    have h2 : |c * d| ≤ M := by simpa using abs_mul_le hc hd
    have f' : pow2 126 = 64 * pow2 120 := by rw [show (126 : ℤ) = 6 + 120 by norm_num, pow2_add]; rfl
    have h3 : |a * b - c * d| ≤ 2 * M := by
      rw [sub_eq_add_neg]; refine (abs_add_le _ _).trans ?_; rw [abs_neg]; linarith
    refine ⟨?_, by rw [abs_mul, abs_of_nonneg (show (0 : ℚ) ≤ 2 by norm_num)]; linarith⟩
    have h4 := (minor (a := a) (b := b) (c := c) (d := d) (by linarith)).mono
      (show _ ≤ M * (6 / 16777216) + 4 * pow2 (-150) by rw [u_eq]; linarith)
    refine (mul_near h4 (exactly 2) h3 (show |(2 : ℚ)| ≤ 2 by norm_num) ?_).mono ?_
    · linarith
    · rw [u_eq]; linarith
  have fold : ∀ {T1 T2 T3 : F32} {x1 x2 x3 a b c d : ℚ}, |a| ≤ 1 → |b| ≤ 1 → |c| ≤ 1 → |d| ≤ M →
      (Within T1 x1 (M * (17 / 16777216) + 12 * pow2 (-150)) ∧ |x1| ≤ 4 * M) → (Within T2 x2 (M * (17 / 16777216) + 12 * pow2 (-150)) ∧ |x2| ≤ 4 * M) →
      (Within T3 x3 (M * (17 / 16777216) + 12 * pow2 (-150)) ∧ |x3| ≤ 4 * M) →
      Within (T1 * fin a + fin d + (fin b * T2 - fin c * T3)) (x1 * a + d + (b * x2 - c * x3)) (M * pow2 (-17) + pow2 (-140)) := by
    intro T1 T2 T3 x1 x2 x3 a b c d ha hb hc hd ⟨h1, l1⟩ ⟨h2, l2⟩ ⟨h3, l3⟩
    have k1 : |x1 * a| ≤ 4 * M := by simpa using abs_mul_le l1 ha
    have k2 : |b * x2| ≤ 4 * M := by simpa using abs_mul_le hb l2
    have k3 : |c * x3| ≤ 4 * M := by simpa using abs_mul_le hc l3
    have a1 := (mul_near h1 (exactly a) l1 ha (by linarith)).mono (show _ ≤ M * (22 / 16777216) + 16 * pow2 (-150) by rw [u_eq]; linarith)
    have a2 := (mul_near (exactly b) h2 hb l2 (by linarith)).mono (show _ ≤ M * (22 / 16777216) + 16 * pow2 (-150) by rw [u_eq]; linarith)
    have a3 := (mul_near (exactly c) h3 hc l3 (by linarith)).mono (show _ ≤ M * (22 / 16777216) + 16 * pow2 (-150) by rw [u_eq]; linarith)
    have b1 := abs_add_le (x1 * a) d
    have s1 := (add_near a1 (exactly d) (by linarith)).mono (show _ ≤ M * (28 / 16777216) + 20 * pow2 (-150) by rw [u_eq]; linarith)
    have b2 : |b * x2 + -(c * x3)| ≤ 8 * M := by refine (abs_add_le _ _).trans ?_; rw [abs_neg]; linarith
    have s2 := (add_near a2 (neg_near a3) (by linarith)).mono (show _ ≤ M * (53 / 16777216) + 36 * pow2 (-150) by rw [u_eq]; linarith)
    have b3 := abs_add_le (x1 * a + d) (b * x2 + -(c * x3))
    rw [sub_eq_add_neg (b * x2)]
    refine (add_near s1 s2 (by linarith)).mono ?_
    rw [u_eq, t1, t0]
    linarith
  have tx := ht q2 v3 q3 v2
  have ty := ht q3 v1 q1 v3
  have tz := ht q1 v2 q2 v1
  exact ⟨fold q4 q2 q3 v1 tx tz ty, fold q4 q3 q1 v2 ty tx tz, fold q4 q1 q2 v3 tz ty tx⟩

/-! ## C155: where nothing is lost -/

theorem mul_whole {m n : ℤ} (h : |m * n| < 2 ^ 24) : (fin (m : ℚ) * fin (n : ℚ) : F32) = fin ((m * n : ℤ) : ℚ) := by
  rw [mul_def, mul_fin, ← Int.cast_mul, round_rep (rep_int h)]

theorem add_whole {m n : ℤ} (h : |m + n| < 2 ^ 24) : (fin (m : ℚ) + fin (n : ℚ) : F32) = fin ((m + n : ℤ) : ℚ) := by
  rw [add_def, add_fin, ← Int.cast_add, round_rep (rep_int h)]

theorem whole4 {a b c d x y z w : ℤ} (h : |a * x| + |b * y| + |c * z| + |d * w| < 2 ^ 24) :
    (fin (a : ℚ) * fin (x : ℚ) + fin (b : ℚ) * fin (y : ℚ) + fin (c : ℚ) * fin (z : ℚ) + fin (d : ℚ) * fin (w : ℚ) : F32) = fin ((a * x + b * y + c * z + d * w : ℤ) : ℚ) := by
  have n0 := abs_nonneg (a * x)
  have n1 := abs_nonneg (b * y)
  have n2 := abs_nonneg (c * z)
  have n3 := abs_nonneg (d * w)
  have s1 := abs_add_le (a * x) (b * y)
  have s2 := abs_add_le (a * x + b * y) (c * z)
  have s3 := abs_add_le (a * x + b * y + c * z) (d * w)
  rw [mul_whole (by omega), mul_whole (by omega), mul_whole (by omega), mul_whole (by omega), add_whole (by omega), add_whole (by omega), add_whole (by omega)]

/-- A matrix of whole numbers. -/
def whole {n : Nat} (m : Mat n ℤ) : Mat n F32 := fun j i => fin (m j i)

/-- C155: the product of matrices of whole numbers is exact as long as the sum of the absolute values of the terms of each entry is less than 2²⁴. -/
theorem C155_whole (st : Mem 4 F32) (out m1 m2 : Nat) (a b : Mat 4 ℤ) (ha : st m1 = whole a) (hb : st m2 = whole b)
    (h : ∀ i j, ((toMatrix a).map abs * (toMatrix b).map abs) i j < 2 ^ 24) :
    ∀ i j, mul4 st out m1 m2 out j i = fin ((toMatrix a * toMatrix b) i j : ℤ) := by
  intro i j
  have e := (mul_entries entry4 st out m1 m2).1 j i
  change mul4 st out m1 m2 out j i = _ at e
  have h := h i j
  simp only [Matrix.mul_apply, Fin.sum_univ_four, Matrix.map_apply, toMatrix, Matrix.of_apply, ← abs_mul] at h ⊢
  rw [e, ha, hb]
  exact whole4 h

theorem mul_zero' (a : ℚ) : (fin a * fin 0 : F32) = fin 0 := by rw [mul_def, mul_fin, mul_zero, round_rep rep_zero]
theorem zero_mul' (a : ℚ) : (fin 0 * fin a : F32) = fin 0 := by rw [mul_def, mul_fin, zero_mul, round_rep rep_zero]
theorem mul_one' {a : ℚ} (h : Representable a) : (fin a * fin 1 : F32) = fin a := by rw [mul_def, mul_fin, mul_one, round_rep h]
theorem one_mul' {a : ℚ} (h : Representable a) : (fin 1 * fin a : F32) = fin a := by rw [mul_def, mul_fin, one_mul, round_rep h]
theorem add_zero' {a : ℚ} (h : Representable a) : (fin a + fin 0 : F32) = fin a := by rw [add_def, add_fin, add_zero, round_rep h]
theorem zero_add' {a : ℚ} (h : Representable a) : (fin 0 + fin a : F32) = fin a := by rw [add_def, add_fin, zero_add, round_rep h]

theorem identity_entry (j i : Fin 4) : (identity : Mat 4 F32) j i = if j = i then fin 1 else fin 0 := rfl

/-- C155: multiplying a matrix of finite numbers by the identity, from either side, changes nothing. -/
theorem C155_identity (st : Mem 4 F32) (out m1 m2 : Nat) (h1 : st m1 = identity) (h2 : Finite (st m2)) :
    mul4 st out m1 m2 out = st m2 ∧ mul4 st out m2 m1 out = st m2 := by
  constructor
  · funext j i
    have e := (mul_entries entry4 st out m1 m2).1 j i
    change mul4 st out m1 m2 out j i = _ at e
    rw [e, h1]
    obtain ⟨a, ra, ea⟩ := h2 j 0
    obtain ⟨b, rb, eb⟩ := h2 j 1
    obtain ⟨c, rc, ec⟩ := h2 j 2
    obtain ⟨d, rd, ed⟩ := h2 j 3
    unfold entry4
    simp only [identity_entry, ea, eb, ec, ed]
    fin_cases i <;> simp [zero_mul', one_mul', add_zero', zero_add', rep_zero, ra, rb, rc, rd, ea, eb, ec, ed]
  · funext j i
    have e := (mul_entries entry4 st out m2 m1).1 j i
    change mul4 st out m2 m1 out j i = _ at e
    rw [e, h1]
    obtain ⟨a, ra, ea⟩ := h2 0 i
    obtain ⟨b, rb, eb⟩ := h2 1 i
    obtain ⟨c, rc, ec⟩ := h2 2 i
    obtain ⟨d, rd, ed⟩ := h2 3 i
    unfold entry4
    simp only [identity_entry, ea, eb, ec, ed]
    fin_cases j <;> simp [mul_zero', mul_one', add_zero', zero_add', rep_zero, ra, rb, rc, rd, ea, eb, ec, ed]

theorem mul_comm' (a b : F32) : a * b = b * a := by
  rw [mul_def, mul_def]
  cases a <;> cases b <;> simp [F32.mul, mul_comm, Bool.xor_comm]

theorem transpose4_entry (m : Mat 4 F32) (j i : Fin 4) : transpose4 m j i = m i j := by
  fin_cases j <;> fin_cases i <;> rfl

/-- C155: the transpose of a product is the product of the transposes in the opposite order, to the bit, whatever the entries are. -/
theorem C155_transpose (st st' : Mem 4 F32) (out m1 m2 out' n1 n2 : Nat) (h1 : st' n1 = transpose4 (st m2)) (h2 : st' n2 = transpose4 (st m1)) :
    transpose4 (mul4 st out m1 m2 out) = mul4 st' out' n1 n2 out' := by
  funext j i
  have e := (mul_entries entry4 st out m1 m2).1 i j
  change mul4 st out m1 m2 out i j = _ at e
  have e' := (mul_entries entry4 st' out' n1 n2).1 j i
  change mul4 st' out' n1 n2 out' j i = _ at e'
  rw [transpose4_entry, e, e', h1, h2]
  simp only [entry4, transpose4_entry, mul_comm' (st m1 _ _)]

/-! ## C155: what does not hold in single precision -/

/-- C155, what fails: multiplying by a product is not multiplying twice. -/
theorem C155_not_associative : ∃ (st : Mem 4 F32) (v : V4 F32), Finite (st 0) ∧ Finite (st 1) ∧
    mulVec4 (mul4 st 2 0 1 2) v ≠ mulVec4 (st 0) (mulVec4 (st 1) v) := by
  refine ⟨fun l => whole fun j i => if j = 0 ∧ i = 0 then (if l = 0 then 3 else 5) else 0, ⟨fin 16777215, fin 0, fin 0, fin 0⟩, ?_, ?_, ?_⟩
  · exact fun j i => ⟨_, rep_int (n := if j = 0 ∧ i = 0 then _ else 0) (by split <;> norm_num), rfl⟩
  · exact fun j i => ⟨_, rep_int (n := if j = 0 ∧ i = 0 then _ else 0) (by split <;> norm_num), rfl⟩
  · intro h
    have hx := congrArg V4.x h
    revert hx
    decide +kernel

/-- C155, what fails: a matrix of determinant 1 whose determinant is computed as 0. -/
theorem C155_determinant : ∃ m : Mat 2 ℚ, (∀ j i, Representable (m j i)) ∧ det2 m = 1 ∧ det2 (inSingle m) = fin 0 := by
  refine ⟨fun j i => ((![![4097, 16785408], ![1, 4097]] j i : ℤ) : ℚ), ?_, by norm_num [det2], by decide +kernel⟩
  intro j i
  fin_cases j <;> fin_cases i
  · exact rep_int (by norm_num)
  · exact ⟨8392704, 1, by norm_num, by norm_num, by norm_num, by norm_num [pow2_eq]⟩
  · exact rep_int (by norm_num)
  · exact rep_int (by norm_num)

/-- C155, what fails: if the products are too large for single precision, perpendicular vectors have a dot product that is not a number. -/
theorem C155_too_large {a b : ℚ} (h : pow2 128 ≤ |a * b|) : V2.dot (K := F32) ⟨fin a, fin a⟩ ⟨fin b, fin (-b)⟩ = nan := by
  unfold V2.dot
  simp only [mul_def, add_def, mul_fin]
  have h' : pow2 128 ≤ |a * -b| := by rw [mul_neg, abs_neg]; exact h
  rw [round_large h, round_large h']
  have p := pow2_pos 128
  have ne : a * b ≠ 0 := by
    intro e; rw [e, abs_zero] at h; linarith
  by_cases hs : a * b < 0
  · simp [F32.add, hs, hs.le]
  · have : 0 < a * b := lt_of_le_of_ne (not_lt.mp hs) (Ne.symm ne)
    simp [F32.add, hs, this]

/-! ## Concrete cases -/

/-- A matrix of quarters. -/
def quarters : Mat 4 ℚ := fun j i => (j.val * 4 + i.val + 1 : ℕ) / 4

example : (size quarters * size quarters) 1 2 ≤ pow2 126 := by
  have : (64 : ℚ) ≤ pow2 126 := by rw [← show pow2 6 = 64 from rfl]; exact pow2_le (by norm_num)
  refine le_trans ?_ this
  norm_num [Matrix.mul_apply, Fin.sum_univ_four, size, quarters, toMatrix]

/-- A product that is rounded. -/
example : mul2 (fun l => inSingle fun j i => if j = i then (if l = 0 then 3 else 1 + pow2 (-23)) else pow2 (-24)) 2 0 1 2 0 0 = fin (3 + pow2 (-21)) := by decide +kernel

example : ∀ i j, ((toMatrix fun j i => (j.val * 1000 + i.val : ℤ) : Matrix (Fin 4) (Fin 4) ℤ).map abs * (toMatrix fun j i => (j.val + i.val : ℤ) : Matrix (Fin 4) (Fin 4) ℤ).map abs) i j < 2 ^ 24 := by
  decide +kernel

example : Finite (inSingle fun j i => (j.val * 4 + i.val : ℤ) : Mat 4 F32) := fun j i => ⟨_, rep_int (by rw [abs_of_nonneg (by positivity)]; omega), rfl⟩

/-- A third of a turn about the diagonal. -/
example : (quat ⟨1/2, 1/2, 1/2, 1/2⟩).rotate (vec ⟨1, 2, 3⟩) = vec ⟨3, 1, 2⟩ := by decide +kernel
example : (quat ⟨1/2, 1/2, 1/2, 1/2⟩).mul (quat ⟨1, 2, 3, 4⟩) = quat ⟨3, 2, 4, -1⟩ := by decide +kernel
example : |(1 / 2 : ℚ)| ≤ 1 ∧ |(3 : ℚ)| ≤ 3 ∧ (3 : ℚ) ≤ pow2 120 := by
  refine ⟨by norm_num [abs_le], by norm_num, ?_⟩
  exact le_trans (by norm_num) (le_trans (show (4 : ℚ) ≤ pow2 2 from le_of_eq rfl) (pow2_le (by norm_num)))

end Zpl.MatF
