import Verif.Math.Vec
import Mathlib.LinearAlgebra.Matrix.NonsingularInverse
import Mathlib.Tactic.FieldSimp
import Mathlib.Tactic.FinCases

/-!
# Matrices (code/source/math.c:577-886)  -  C94, C95

## Model

A matrix is the array `m[j][i]` the code works on, `j` the column: `zpl_mat4_mul` and `zpl_mat4_mul_vec4` treat it so.  The functions that take pointers to several matrices
work on a memory of matrices, in which the pointers may be the same; matrices that overlap in part are not modelled.  The numbers are those of a field: exact arithmetic. -/

set_option linter.unusedSectionVars false

namespace Zpl.Math

/-- `zpl_f32 m[n][n]`. -/
abbrev Mat (n : Nat) (K : Type) := Fin n → Fin n → K

/-- Matrices at addresses. -/
abbrev Mem (n : Nat) (K : Type) := Nat → Mat n K

section model

variable {n : Nat} {K : Type}

/-- `m[j][i] = v` -/
def Mat.set (m : Mat n K) (j i : Fin n) (v : K) : Mat n K := fun j' i' => if j' = j ∧ i' = i then v else m j' i'

/-- `out[j][i] = v` for the matrix at address `out`. -/
def write (st : Mem n K) (out : Nat) (j i : Fin n) (v : K) : Mem n K := fun l => if l = out then (st l).set j i v else st l

/-- math.c:606-610: one exchange `t = vec[i][j]; vec[i][j] = vec[j][i]; vec[j][i] = t;` -/
def Mat.swap (m : Mat n K) (i j : Fin n) : Mat n K := (m.set i j (m j i)).set j i (m i j)

/-- math.c:603-612 `zpl_float22_transpose`. -/
def transpose2 (m : Mat 2 K) : Mat 2 K := m.swap 1 0

/-- math.c:684-693 `zpl_float33_transpose`. -/
def transpose3 (m : Mat 3 K) : Mat 3 K := ((m.swap 1 0).swap 2 0).swap 2 1

/-- math.c:785-805 `zpl_float44_transpose`. -/
def transpose4 (m : Mat 4 K) : Mat 4 K := (((((m.swap 1 0).swap 2 0).swap 3 0).swap 2 1).swap 3 1).swap 3 2

/-- math.c:583-588 `zpl_float22_identity`, 663-673 `zpl_float33_identity`, 757-774 `zpl_float44_identity`. -/
def identity [Zero K] [One K] : Mat n K := fun j i => if j = i then 1 else 0

/-- math.c:626. -/
def entry2 [Add K] [Mul K] (a b : Mat 2 K) (j i : Fin 2) : K := a 0 i * b j 0 + a 1 i * b j 1

/-- math.c:708. -/
def entry3 [Add K] [Mul K] (a b : Mat 3 K) (j i : Fin 3) : K := a 0 i * b j 0 + a 1 i * b j 1 + a 2 i * b j 2

/-- math.c:820-822. -/
def entry4 [Add K] [Mul K] (a b : Mat 4 K) (j i : Fin 4) : K := a 0 i * b j 0 + a 1 i * b j 1 + a 2 i * b j 2 + a 3 i * b j 3

/-- math.c:625-627, 706-710, 818-824: `for (j …) for (i …) out[j][i] = …`.  `src1` and `src2` say where `mat1` and `mat2` point to: into memory, or to a copy. -/
def mulLoop (entry : Mat n K → Mat n K → Fin n → Fin n → K) (src1 src2 : Mem n K → Mat n K) (out : Nat) : List (Fin n × Fin n) → Mem n K → Mem n K
  | [], st => st
  | (j, i) :: ps, st => mulLoop entry src1 src2 out ps (write st out j i (entry (src1 st) (src2 st) j i))

/-- math.c:617-624, 698-705, 810-817: `if (mat == out) { zpl_memcopy(temp, mat, sizeof(temp)); mat = temp; }`. -/
def source (st : Mem n K) (out m : Nat) : Mem n K → Mat n K := if m = out then (fun _ => st m) else (fun s => s m)

/-- The places of an array, in the order of the loops. -/
def places (n : Nat) : List (Fin n × Fin n) := (List.finRange n).flatMap fun j => (List.finRange n).map fun i => (j, i)

/-- math.c:614-628 `zpl_float22_mul`, 579-581 `zpl_mat2_mul`. -/
def mul2 [Add K] [Mul K] (st : Mem 2 K) (out m1 m2 : Nat) : Mem 2 K := mulLoop entry2 (source st out m1) (source st out m2) out (places 2) st

/-- math.c:695-711 `zpl_float33_mul`, 659-661 `zpl_mat3_mul`. -/
def mul3 [Add K] [Mul K] (st : Mem 3 K) (out m1 m2 : Nat) : Mem 3 K := mulLoop entry3 (source st out m1) (source st out m2) out (places 3) st

/-- math.c:807-825 `zpl_float44_mul`, 753-755 `zpl_mat4_mul`. -/
def mul4 [Add K] [Mul K] (st : Mem 4 K) (out m1 m2 : Nat) : Mem 4 K := mulLoop entry4 (source st out m1) (source st out m2) out (places 4) st

/-- math.c:630-633 `zpl_float22_mul_vec2`. -/
def mulVec2 [Add K] [Mul K] (m : Mat 2 K) (v : V2 K) : V2 K := ⟨m 0 0 * v.x + m 0 1 * v.y, m 1 0 * v.x + m 1 1 * v.y⟩

/-- math.c:713-717 `zpl_float33_mul_vec3`. -/
def mulVec3 [Add K] [Mul K] (m : Mat 3 K) (v : V3 K) : V3 K :=
  ⟨m 0 0 * v.x + m 0 1 * v.y + m 0 2 * v.z, m 1 0 * v.x + m 1 1 * v.y + m 1 2 * v.z, m 2 0 * v.x + m 2 1 * v.y + m 2 2 * v.z⟩

/-- math.c:827-832 `zpl_float44_mul_vec4`. -/
def mulVec4 [Add K] [Mul K] (m : Mat 4 K) (v : V4 K) : V4 K :=
  ⟨m 0 0 * v.x + m 1 0 * v.y + m 2 0 * v.z + m 3 0 * v.w,
   m 0 1 * v.x + m 1 1 * v.y + m 2 1 * v.z + m 3 1 * v.w,
   m 0 2 * v.x + m 1 2 * v.y + m 2 2 * v.z + m 3 2 * v.w,
   m 0 3 * v.x + m 1 3 * v.y + m 2 3 * v.z + m 3 3 * v.w⟩

/-- math.c:635-638 `zpl_mat2_determinate`. -/
def det2 [Sub K] [Mul K] (e : Mat 2 K) : K := e 0 0 * e 1 1 - e 1 0 * e 0 1

/-- math.c:719-726 `zpl_mat3_determinate`. -/
def det3 [Add K] [Sub K] [Mul K] (e : Mat 3 K) : K :=
  e 0 0 * (e 1 1 * e 2 2 - e 1 2 * e 2 1) - e 0 1 * (e 1 0 * e 2 2 - e 1 2 * e 2 0) + e 0 2 * (e 1 0 * e 2 1 - e 1 1 * e 2 0)

/-- A sequence of assignments `out[j][i] = f(memory)`, one after another. -/
def assigns (out : Nat) : List (Fin n × Fin n × (Mem n K → K)) → Mem n K → Mem n K
  | [], st => st
  | (j, i, f) :: as, st => assigns out as (write st out j i (f st))

/-- math.c:640-650 `zpl_mat2_inverse`. -/
def inverse2 [Field K] (st : Mem 2 K) (out inp : Nat) : Mem 2 K :=
  let ood := 1 / det2 (st inp)
  assigns out [
    (0, 0, fun s => s inp 1 1 * ood),
    (0, 1, fun s => -s inp 0 1 * ood),
    (1, 0, fun s => -s inp 1 0 * ood),
    (1, 1, fun s => s inp 0 0 * ood)] st

/-- math.c:728-743 `zpl_mat3_inverse`. -/
def inverse3 [Field K] (st : Mem 3 K) (out inp : Nat) : Mem 3 K :=
  let ood := 1 / det3 (st inp)
  assigns out [
    (0, 0, fun s => (s inp 1 1 * s inp 2 2 - s inp 2 1 * s inp 1 2) * ood),
    (0, 1, fun s => -(s inp 1 0 * s inp 2 2 - s inp 2 0 * s inp 1 2) * ood),
    (0, 2, fun s => (s inp 1 0 * s inp 2 1 - s inp 2 0 * s inp 1 1) * ood),
    (1, 0, fun s => -(s inp 0 1 * s inp 2 2 - s inp 2 1 * s inp 0 2) * ood),
    (1, 1, fun s => (s inp 0 0 * s inp 2 2 - s inp 2 0 * s inp 0 2) * ood),
    (1, 2, fun s => -(s inp 0 0 * s inp 2 1 - s inp 2 0 * s inp 0 1) * ood),
    (2, 0, fun s => (s inp 0 1 * s inp 1 2 - s inp 1 1 * s inp 0 2) * ood),
    (2, 1, fun s => -(s inp 0 0 * s inp 1 2 - s inp 1 0 * s inp 0 2) * ood),
    (2, 2, fun s => (s inp 0 0 * s inp 1 1 - s inp 1 0 * s inp 0 1) * ood)] st

/-- math.c:840-878: the cofactors of `zpl_mat4_inverse`.  The products `sf..` are taken before anything is written; the rest of `in` is read while `out` is written. -/
def cofactors4 [Field K] (st : Mem 4 K) (out inp : Nat) : Mem 4 K :=
  let m := st inp
  let sf00 := m 2 2 * m 3 3 - m 3 2 * m 2 3
  let sf01 := m 2 1 * m 3 3 - m 3 1 * m 2 3
  let sf02 := m 2 1 * m 3 2 - m 3 1 * m 2 2
  let sf03 := m 2 0 * m 3 3 - m 3 0 * m 2 3
  let sf04 := m 2 0 * m 3 2 - m 3 0 * m 2 2
  let sf05 := m 2 0 * m 3 1 - m 3 0 * m 2 1
  let sf06 := m 1 2 * m 3 3 - m 3 2 * m 1 3
  let sf07 := m 1 1 * m 3 3 - m 3 1 * m 1 3
  let sf08 := m 1 1 * m 3 2 - m 3 1 * m 1 2
  let sf09 := m 1 0 * m 3 3 - m 3 0 * m 1 3
  let sf10 := m 1 0 * m 3 2 - m 3 0 * m 1 2
  let sf11 := m 1 1 * m 3 3 - m 3 1 * m 1 3
  let sf12 := m 1 0 * m 3 1 - m 3 0 * m 1 1
  let sf13 := m 1 2 * m 2 3 - m 2 2 * m 1 3
  let sf14 := m 1 1 * m 2 3 - m 2 1 * m 1 3
  let sf15 := m 1 1 * m 2 2 - m 2 1 * m 1 2
  let sf16 := m 1 0 * m 2 3 - m 2 0 * m 1 3
  let sf17 := m 1 0 * m 2 2 - m 2 0 * m 1 2
  let sf18 := m 1 0 * m 2 1 - m 2 0 * m 1 1
  assigns out [
    (0, 0, fun s => (s inp 1 1 * sf00 - s inp 1 2 * sf01 + s inp 1 3 * sf02)),
    (1, 0, fun s => -(s inp 1 0 * sf00 - s inp 1 2 * sf03 + s inp 1 3 * sf04)),
    (2, 0, fun s => (s inp 1 0 * sf01 - s inp 1 1 * sf03 + s inp 1 3 * sf05)),
    (3, 0, fun s => -(s inp 1 0 * sf02 - s inp 1 1 * sf04 + s inp 1 2 * sf05)),
    (0, 1, fun s => -(s inp 0 1 * sf00 - s inp 0 2 * sf01 + s inp 0 3 * sf02)),
    (1, 1, fun s => (s inp 0 0 * sf00 - s inp 0 2 * sf03 + s inp 0 3 * sf04)),
    (2, 1, fun s => -(s inp 0 0 * sf01 - s inp 0 1 * sf03 + s inp 0 3 * sf05)),
    (3, 1, fun s => (s inp 0 0 * sf02 - s inp 0 1 * sf04 + s inp 0 2 * sf05)),
    (0, 2, fun s => (s inp 0 1 * sf06 - s inp 0 2 * sf07 + s inp 0 3 * sf08)),
    (1, 2, fun s => -(s inp 0 0 * sf06 - s inp 0 2 * sf09 + s inp 0 3 * sf10)),
    (2, 2, fun s => (s inp 0 0 * sf11 - s inp 0 1 * sf09 + s inp 0 3 * sf12)),
    (3, 2, fun s => -(s inp 0 0 * sf08 - s inp 0 1 * sf10 + s inp 0 2 * sf12)),
    (0, 3, fun s => -(s inp 0 1 * sf13 - s inp 0 2 * sf14 + s inp 0 3 * sf15)),
    (1, 3, fun s => (s inp 0 0 * sf13 - s inp 0 2 * sf16 + s inp 0 3 * sf17)),
    (2, 3, fun s => -(s inp 0 0 * sf14 - s inp 0 1 * sf16 + s inp 0 3 * sf18)),
    (3, 3, fun s => (s inp 0 0 * sf15 - s inp 0 1 * sf17 + s inp 0 2 * sf18))] st

/-- math.c:834-886 `zpl_mat4_inverse`; the last sixteen assignments `o[j][i] *= ood` are made at once. -/
def inverse4 [Field K] (st : Mem 4 K) (out inp : Nat) : Mem 4 K :=
  let s := cofactors4 st out inp
  let ood := 1 / (s inp 0 0 * s out 0 0 + s inp 0 1 * s out 1 0 + s inp 0 2 * s out 2 0 + s inp 0 3 * s out 3 0)
  fun l => if l = out then fun j i => s out j i * ood else s l

end model

/-! ## Specification: Mathlib's matrices -/

/-- The matrix in the array: `m[j][i]` is the number in row `i` and column `j`. -/
def toMatrix {n : Nat} {K : Type} (m : Mat n K) : Matrix (Fin n) (Fin n) K := Matrix.of fun i j => m j i

/-- The vector as a column. -/
def V2.toFun {K : Type} (v : V2 K) : Fin 2 → K := ![v.x, v.y]
/-- The vector as a column. -/
def V3.toFun {K : Type} (v : V3 K) : Fin 3 → K := ![v.x, v.y, v.z]
/-- The vector as a column. -/
def V4.toFun {K : Type} (v : V4 K) : Fin 4 → K := ![v.x, v.y, v.z, v.w]

section lemmas

variable {n : Nat} {K : Type}

theorem write_other (st : Mem n K) (out : Nat) (j i : Fin n) (v : K) (l : Nat) (h : l ≠ out) : write st out j i v l = st l := by
  simp [write, h]

theorem write_self (st : Mem n K) (out : Nat) (j i j' i' : Fin n) (v : K) :
    write st out j i v out j' i' = if j' = j ∧ i' = i then v else st out j' i' := by
  simp [write, Mat.set]

theorem source_write (st s : Mem n K) (out m : Nat) (j i : Fin n) (v : K) : source st out m (write s out j i v) = source st out m s := by
  unfold source
  split
  · rfl
  · rename_i h; exact write_other _ _ _ _ _ _ h

theorem source_start (st : Mem n K) (out m : Nat) : source st out m st = st m := by
  unfold source; split <;> rfl

theorem mulLoop_ok (entry : Mat n K → Mat n K → Fin n → Fin n → K) (st : Mem n K) (out m1 m2 : Nat) (ps : List (Fin n × Fin n)) (s : Mem n K)
    (h1 : source st out m1 s = st m1) (h2 : source st out m2 s = st m2) (j i : Fin n) :
    mulLoop entry (source st out m1) (source st out m2) out ps s out j i = (if (j, i) ∈ ps then entry (st m1) (st m2) j i else s out j i) ∧
    ∀ l, l ≠ out → mulLoop entry (source st out m1) (source st out m2) out ps s l = s l := by
  induction ps generalizing s with
  | nil => simp [mulLoop]
  | cons p ps ih =>
    obtain ⟨j0, i0⟩ := p
    have hs1 := source_write st s out m1 j0 i0 (entry (source st out m1 s) (source st out m2 s) j0 i0)
    have hs2 := source_write st s out m2 j0 i0 (entry (source st out m1 s) (source st out m2 s) j0 i0)
    obtain ⟨h3, h4⟩ := ih _ (hs1.trans h1) (hs2.trans h2)
    constructor
    · rw [mulLoop, h3, write_self, h1, h2]
      by_cases hp : (j, i) ∈ ps
      · rw [if_pos hp, if_pos (List.mem_cons_of_mem _ hp)]
      · rw [if_neg hp]
        by_cases he : j = j0 ∧ i = i0
        · obtain ⟨rfl, rfl⟩ := he; simp
        · rw [if_neg he, if_neg]
          intro hm
          rcases List.mem_cons.mp hm with h | h
          · exact he ⟨congrArg Prod.fst h, congrArg Prod.snd h⟩
          · exact hp h
    · intro l hl
      rw [mulLoop, h4 l hl, write_other _ _ _ _ _ _ hl]

theorem mem_places (j i : Fin n) : (j, i) ∈ places n := by
  simp [places]

theorem mul_entries (entry : Mat n K → Mat n K → Fin n → Fin n → K) (st : Mem n K) (out m1 m2 : Nat) :
    (∀ j i, mulLoop entry (source st out m1) (source st out m2) out (places n) st out j i = entry (st m1) (st m2) j i) ∧
    ∀ l, l ≠ out → mulLoop entry (source st out m1) (source st out m2) out (places n) st l = st l := by
  constructor
  · intro j i
    rw [(mulLoop_ok entry st out m1 m2 (places n) st (source_start ..) (source_start ..) j i).1, if_pos (mem_places j i)]
  · intro l hl
    cases n with
    | zero => funext j; exact j.elim0
    | succ n => exact (mulLoop_ok entry st out m1 m2 (places (n + 1)) st (source_start ..) (source_start ..) 0 0).2 l hl

end lemmas

/-! ## C94: products -/

section C94

variable {K : Type} [Field K]

/-- C94: the product of two matrices is their product, also when it replaces one of them or both; no other matrix changes. -/
theorem C94_mul2 (st : Mem 2 K) (out m1 m2 : Nat) :
    toMatrix (mul2 st out m1 m2 out) = toMatrix (st m1) * toMatrix (st m2) ∧ ∀ l, l ≠ out → mul2 st out m1 m2 l = st l := by
  obtain ⟨h1, h2⟩ := mul_entries entry2 st out m1 m2
  refine ⟨?_, h2⟩
  ext i j
  simp only [toMatrix, Matrix.of_apply, Matrix.mul_apply, Fin.sum_univ_two]
  exact (h1 j i)

/-- C94, for matrices of three rows. -/
theorem C94_mul3 (st : Mem 3 K) (out m1 m2 : Nat) :
    toMatrix (mul3 st out m1 m2 out) = toMatrix (st m1) * toMatrix (st m2) ∧ ∀ l, l ≠ out → mul3 st out m1 m2 l = st l := by
  obtain ⟨h1, h2⟩ := mul_entries entry3 st out m1 m2
  refine ⟨?_, h2⟩
  ext i j
  simp only [toMatrix, Matrix.of_apply, Matrix.mul_apply, Fin.sum_univ_three]
  exact (h1 j i)

/-- C94, for matrices of four rows. -/
theorem C94_mul4 (st : Mem 4 K) (out m1 m2 : Nat) :
    toMatrix (mul4 st out m1 m2 out) = toMatrix (st m1) * toMatrix (st m2) ∧ ∀ l, l ≠ out → mul4 st out m1 m2 l = st l := by
  obtain ⟨h1, h2⟩ := mul_entries entry4 st out m1 m2
  refine ⟨?_, h2⟩
  ext i j
  simp only [toMatrix, Matrix.of_apply, Matrix.mul_apply, Fin.sum_univ_four]
  exact (h1 j i)

/-- C94: transposing exchanges rows and columns. -/
theorem C94_transpose (a : Mat 2 K) (b : Mat 3 K) (c : Mat 4 K) :
    toMatrix (transpose2 a) = (toMatrix a).transpose ∧ toMatrix (transpose3 b) = (toMatrix b).transpose ∧
    toMatrix (transpose4 c) = (toMatrix c).transpose := by
  refine ⟨?_, ?_, ?_⟩
  · ext i j; fin_cases i <;> fin_cases j <;> rfl
  · ext i j; fin_cases i <;> fin_cases j <;> rfl
  · ext i j; fin_cases i <;> fin_cases j <;> rfl

/-- C94: the identity is the identity. -/
theorem C94_identity (n : Nat) : toMatrix (identity : Mat n K) = 1 := by
  ext i j
  simp only [toMatrix, identity, Matrix.of_apply, Matrix.one_apply, eq_comm]

/-- C94: a matrix of four rows times a vector is their product. -/
theorem C94_vec4 (m : Mat 4 K) (v : V4 K) : (mulVec4 m v).toFun = (toMatrix m).mulVec v.toFun := by
  funext i
  fin_cases i <;> simp [mulVec4, V4.toFun, toMatrix, Matrix.mulVec, dotProduct, Fin.sum_univ_four]

/-- C94: so multiplying by a product is multiplying twice. -/
theorem C94_vec4_product (st : Mem 4 K) (out m1 m2 : Nat) (v : V4 K) :
    mulVec4 (mul4 st out m1 m2 out) v = mulVec4 (st m1) (mulVec4 (st m2) v) := by
  have inj : ∀ a b : V4 K, a.toFun = b.toFun → a = b := fun a b h =>
    V4.ext' (congrFun h 0) (congrFun h 1) (congrFun h 2) (congrFun h 3)
  apply inj
  rw [C94_vec4, C94_vec4, C94_vec4, (C94_mul4 st out m1 m2).1, Matrix.mulVec_mulVec]

/-- C94, what fails: a matrix of two or three rows times a vector is the product with the matrix transposed. -/
theorem C94_vec_transposed (m : Mat 2 K) (v : V2 K) (m3 : Mat 3 K) (v3 : V3 K) :
    (mulVec2 m v).toFun = (toMatrix m).transpose.mulVec v.toFun ∧ (mulVec3 m3 v3).toFun = (toMatrix m3).transpose.mulVec v3.toFun := by
  constructor
  · funext i; fin_cases i <;> simp [mulVec2, V2.toFun, toMatrix, Matrix.mulVec, dotProduct, Fin.sum_univ_two]
  · funext i; fin_cases i <;> simp [mulVec3, V3.toFun, toMatrix, Matrix.mulVec, dotProduct, Fin.sum_univ_three]

/-- C94, what fails: so multiplying by a product multiplies in the opposite order. -/
theorem C94_vec_reversed (st : Mem 2 K) (st3 : Mem 3 K) (out m1 m2 : Nat) (v : V2 K) (v3 : V3 K) :
    mulVec2 (mul2 st out m1 m2 out) v = mulVec2 (st m2) (mulVec2 (st m1) v) ∧
    mulVec3 (mul3 st3 out m1 m2 out) v3 = mulVec3 (st3 m2) (mulVec3 (st3 m1) v3) := by
  have inj : ∀ a b : V2 K, a.toFun = b.toFun → a = b := fun a b h => V2.ext' (congrFun h 0) (congrFun h 1)
  have inj3 : ∀ a b : V3 K, a.toFun = b.toFun → a = b := fun a b h => V3.ext' (congrFun h 0) (congrFun h 1) (congrFun h 2)
  constructor
  · apply inj
    rw [(C94_vec_transposed _ v _ v3).1, (C94_vec_transposed (st m2) _ (st3 m2) v3).1, (C94_vec_transposed (st m1) v (st3 m1) v3).1,
      (C94_mul2 st out m1 m2).1, Matrix.mulVec_mulVec, Matrix.transpose_mul]
    exact st3 m2
  · apply inj3
    rw [(C94_vec_transposed (st m1) v _ v3).2, (C94_vec_transposed (st m2) v (st3 m2) _).2, (C94_vec_transposed (st m1) v (st3 m1) v3).2,
      (C94_mul3 st3 out m1 m2).1, Matrix.mulVec_mulVec, Matrix.transpose_mul]

/-- C94: the product is the right one for symmetric matrices. -/
theorem C94_vec2_partial (m : Mat 2 K) (v : V2 K) (m3 : Mat 3 K) (v3 : V3 K) (h : m 0 1 = m 1 0)
    (h3 : m3 0 1 = m3 1 0 ∧ m3 0 2 = m3 2 0 ∧ m3 1 2 = m3 2 1) :
    (mulVec2 m v).toFun = (toMatrix m).mulVec v.toFun ∧ (mulVec3 m3 v3).toFun = (toMatrix m3).mulVec v3.toFun := by
  rw [(C94_vec_transposed m v m3 v3).1, (C94_vec_transposed m v m3 v3).2]
  have e : (toMatrix m).transpose = toMatrix m := by
    ext i j; fin_cases i <;> fin_cases j <;> first | rfl | exact h | exact h.symm
  have e3 : (toMatrix m3).transpose = toMatrix m3 := by
    ext i j
    fin_cases i <;> fin_cases j <;> first | rfl | exact h3.1 | exact h3.1.symm | exact h3.2.1 | exact h3.2.1.symm | exact h3.2.2 | exact h3.2.2.symm
  rw [e, e3]
  exact ⟨rfl, rfl⟩

end C94

/-- A shear, and a turn by a right angle. -/
def demo2 : Mem 2 ℚ := fun l => if l = 0 then fun j i => if j = 1 ∧ i = 0 then 5 else if j = i then 1 else 0
  else fun j i => if j = 0 ∧ i = 1 then 1 else if j = 1 ∧ i = 0 then -1 else 0

example : mulVec2 (mul2 demo2 0 0 1 0) ⟨1, 0⟩ ≠ mulVec2 (demo2 0) (mulVec2 (demo2 1) ⟨1, 0⟩) := by decide +kernel

/-! ## C95: determinants and inverses -/

section C95

variable {K : Type} [Field K]

/-- C95: the determinants are the determinants. -/
theorem C95_det (a : Mat 2 K) (b : Mat 3 K) : det2 a = (toMatrix a).det ∧ det3 b = (toMatrix b).det := by
  constructor
  · rw [Matrix.det_fin_two]; simp only [det2, toMatrix, Matrix.of_apply]
  · rw [Matrix.det_fin_three]; simp only [det3, toMatrix, Matrix.of_apply]; ring

theorem inverse2_entries (st : Mem 2 K) (out inp : Nat) (h : inp ≠ out) :
    inverse2 st out inp out 0 0 = st inp 1 1 * (1 / det2 (st inp)) ∧ inverse2 st out inp out 0 1 = -st inp 0 1 * (1 / det2 (st inp)) ∧
    inverse2 st out inp out 1 0 = -st inp 1 0 * (1 / det2 (st inp)) ∧ inverse2 st out inp out 1 1 = st inp 0 0 * (1 / det2 (st inp)) := by
  simp [inverse2, assigns, write_self, write_other _ _ _ _ _ _ h]

/-- C95: the inverse of a matrix of two rows is its inverse, when there is one and the result does not replace the argument. -/
theorem C95_inverse2_partial (st : Mem 2 K) (out inp : Nat) (h : inp ≠ out) (hd : (toMatrix (st inp)).det ≠ 0) :
    toMatrix (inverse2 st out inp out) = (toMatrix (st inp))⁻¹ := by
  symm
  apply Matrix.inv_eq_right_inv
  obtain ⟨h1, h2, h3, h4⟩ := inverse2_entries st out inp h
  rw [← (C95_det (st inp) identity).1] at hd
  have ho : det2 (st inp) * (1 / det2 (st inp)) = 1 := mul_one_div_cancel hd
  generalize 1 / det2 (st inp) = ood at *
  simp only [det2] at ho
  ext i j
  fin_cases i <;> fin_cases j <;> simp [toMatrix, Matrix.mul_apply, Fin.sum_univ_two, h1, h2, h3, h4] <;> first | ring1 | linear_combination ho

/-- C95, what fails: inverting a matrix of two rows in place puts a wrong number in the last place unless the diagonal happens to fit. -/
theorem C95_inverse2_in_place (st : Mem 2 K) (m : Nat) :
    inverse2 st m m m 1 1 = st m 1 1 * (1 / det2 (st m)) * (1 / det2 (st m)) := by
  simp [inverse2, assigns, write_self]

theorem inverse3_entries (st : Mem 3 K) (out inp : Nat) (h : inp ≠ out) :
    let m := st inp
    let ood := 1 / det3 m
    let o := inverse3 st out inp out
    (o 0 0 = (m 1 1 * m 2 2 - m 2 1 * m 1 2) * ood ∧ o 0 1 = -(m 1 0 * m 2 2 - m 2 0 * m 1 2) * ood ∧ o 0 2 = (m 1 0 * m 2 1 - m 2 0 * m 1 1) * ood) ∧
    (o 1 0 = -(m 0 1 * m 2 2 - m 2 1 * m 0 2) * ood ∧ o 1 1 = (m 0 0 * m 2 2 - m 2 0 * m 0 2) * ood ∧ o 1 2 = -(m 0 0 * m 2 1 - m 2 0 * m 0 1) * ood) ∧
    (o 2 0 = (m 0 1 * m 1 2 - m 1 1 * m 0 2) * ood ∧ o 2 1 = -(m 0 0 * m 1 2 - m 1 0 * m 0 2) * ood ∧ o 2 2 = (m 0 0 * m 1 1 - m 1 0 * m 0 1) * ood) := by
  simp [inverse3, assigns, write_self, write_other _ _ _ _ _ _ h]

/-- C95, what fails: what is computed for a matrix of three rows is the transpose of its inverse. -/
theorem C95_inverse3_transposed (st : Mem 3 K) (out inp : Nat) (h : inp ≠ out) (hd : (toMatrix (st inp)).det ≠ 0) :
    toMatrix (inverse3 st out inp out) = ((toMatrix (st inp))⁻¹).transpose := by
  rw [Matrix.transpose_nonsing_inv]
  symm
  apply Matrix.inv_eq_right_inv
  obtain ⟨⟨h1, h2, h3⟩, ⟨h4, h5, h6⟩, h7, h8, h9⟩ := inverse3_entries st out inp h
  rw [← (C95_det identity (st inp)).2] at hd
  have ho : det3 (st inp) * (1 / det3 (st inp)) = 1 := mul_one_div_cancel hd
  generalize 1 / det3 (st inp) = ood at *
  simp only [det3] at ho
  ext i j
  fin_cases i <;> fin_cases j <;> simp [toMatrix, Matrix.mul_apply, Fin.sum_univ_three, h1, h2, h3, h4, h5, h6, h7, h8, h9] <;> first | ring1 | linear_combination ho

/-- C95: so it is the inverse when the matrix is symmetric. -/
theorem C95_inverse3_partial (st : Mem 3 K) (out inp : Nat) (h : inp ≠ out) (hd : (toMatrix (st inp)).det ≠ 0)
    (hs : (toMatrix (st inp)).transpose = toMatrix (st inp)) : toMatrix (inverse3 st out inp out) = (toMatrix (st inp))⁻¹ := by
  rw [C95_inverse3_transposed st out inp h hd, Matrix.transpose_nonsing_inv, hs]

/-- C95, what fails: the product with the matrix is not the identity unless the matrix is symmetric. -/
theorem C95_inverse3_wrong (st : Mem 3 K) (out inp : Nat) (h : inp ≠ out) (hd : (toMatrix (st inp)).det ≠ 0)
    (hs : (toMatrix (st inp)).transpose ≠ toMatrix (st inp)) : toMatrix (st inp) * toMatrix (inverse3 st out inp out) ≠ 1 := by
  intro hc
  have h1 : (toMatrix (st inp))⁻¹ = toMatrix (inverse3 st out inp out) := Matrix.inv_eq_right_inv hc
  rw [C95_inverse3_transposed st out inp h hd] at h1
  apply hs
  have h2 : IsUnit (toMatrix (st inp)).det := IsUnit.mk0 _ hd
  have h3 : IsUnit (toMatrix (st inp)).transpose.det := by rw [Matrix.det_transpose]; exact h2
  rw [Matrix.transpose_nonsing_inv] at h1
  calc (toMatrix (st inp)).transpose = ((toMatrix (st inp)).transpose⁻¹)⁻¹ := (Matrix.nonsing_inv_nonsing_inv _ h3).symm
    _ = ((toMatrix (st inp))⁻¹)⁻¹ := by rw [h1]
    _ = toMatrix (st inp) := Matrix.nonsing_inv_nonsing_inv _ h2

theorem cofactors4_inp (st : Mem 4 K) (out inp : Nat) (h : inp ≠ out) : cofactors4 st out inp inp = st inp := by
  simp only [cofactors4, assigns, write_other _ _ _ _ _ _ h]

/-- The determinant of a matrix of four rows, developed by its first row. -/
def det4 (m : Mat 4 K) : K :=
  m 0 0 * (m 1 1 * (m 2 2 * m 3 3 - m 3 2 * m 2 3) - m 1 2 * (m 2 1 * m 3 3 - m 3 1 * m 2 3) + m 1 3 * (m 2 1 * m 3 2 - m 3 1 * m 2 2))
  - m 0 1 * (m 1 0 * (m 2 2 * m 3 3 - m 3 2 * m 2 3) - m 1 2 * (m 2 0 * m 3 3 - m 3 0 * m 2 3) + m 1 3 * (m 2 0 * m 3 2 - m 3 0 * m 2 2))
  + m 0 2 * (m 1 0 * (m 2 1 * m 3 3 - m 3 1 * m 2 3) - m 1 1 * (m 2 0 * m 3 3 - m 3 0 * m 2 3) + m 1 3 * (m 2 0 * m 3 1 - m 3 0 * m 2 1))
  - m 0 3 * (m 1 0 * (m 2 1 * m 3 2 - m 3 1 * m 2 2) - m 1 1 * (m 2 0 * m 3 2 - m 3 0 * m 2 2) + m 1 2 * (m 2 0 * m 3 1 - m 3 0 * m 2 1))

theorem det4_eq (m : Mat 4 K) : det4 m = (toMatrix m).det := by
  rw [← Matrix.det_transpose, Matrix.det_succ_row_zero]
  simp [Fin.sum_univ_succ, Matrix.det_fin_three, toMatrix, Matrix.submatrix, Fin.succAbove, det4]
  ring

theorem cofactors4_ok (st : Mem 4 K) (out inp : Nat) (h : inp ≠ out) :
    toMatrix (st inp) * toMatrix (cofactors4 st out inp out) = det4 (st inp) • 1 := by
  ext i j
  simp only [toMatrix, Matrix.mul_apply, Fin.sum_univ_four, Matrix.of_apply, Matrix.smul_apply, Matrix.one_apply, smul_eq_mul]
  fin_cases i <;> fin_cases j <;>
    simp [cofactors4, assigns, write_self, write_other _ _ _ _ _ _ h, det4] <;> ring

/-- C95: the inverse of a matrix of four rows is its inverse, when there is one and the result does not replace the argument. -/
theorem C95_inverse4_partial (st : Mem 4 K) (out inp : Nat) (h : inp ≠ out) (hd : (toMatrix (st inp)).det ≠ 0) :
    toMatrix (inverse4 st out inp out) = (toMatrix (st inp))⁻¹ := by
  symm
  apply Matrix.inv_eq_right_inv
  have hc := cofactors4_ok st out inp h
  have hden : cofactors4 st out inp inp 0 0 * cofactors4 st out inp out 0 0 + cofactors4 st out inp inp 0 1 * cofactors4 st out inp out 1 0 +
      cofactors4 st out inp inp 0 2 * cofactors4 st out inp out 2 0 + cofactors4 st out inp inp 0 3 * cofactors4 st out inp out 3 0 = det4 (st inp) := by
    simp [cofactors4, assigns, write_self, write_other _ _ _ _ _ _ h, det4]
    ring
  have he : toMatrix (inverse4 st out inp out) = (1 / det4 (st inp)) • toMatrix (cofactors4 st out inp out) := by
    ext i j
    simp only [toMatrix, inverse4, Matrix.of_apply, Matrix.smul_apply, if_true, smul_eq_mul, hden]
    exact mul_comm _ _
  rw [← det4_eq] at hd
  rw [he, Matrix.mul_smul, hc, smul_smul, one_div_mul_cancel hd, one_smul]

/-- C95: inverting a matrix of four rows changes no other matrix. -/
theorem C95_inverse4_frame (st : Mem 4 K) (out inp l : Nat) (h : l ≠ out) : inverse4 st out inp l = st l := by
  simp only [inverse4, if_neg h, cofactors4, assigns, write_other _ _ _ _ _ _ h]

end C95

/-- Scaling by 2 in each direction and moving by 3. -/
def demo4 : Mem 4 ℚ := fun _ j i => if j = 3 ∧ i = 0 then 3 else if j = i then (if j = 3 then 1 else 2) else 0

example : (toMatrix (demo4 0)).det ≠ 0 := by rw [← det4_eq]; decide +kernel

/-- C95, what fails: inverting a matrix of four rows in place does not give its inverse. -/
theorem C95_inverse4_in_place_fails : toMatrix (demo4 0) * toMatrix (inverse4 demo4 0 0 0) ≠ 1 := by
  intro h
  have h1 := congrFun (congrFun h 0) 0
  simp only [Matrix.mul_apply, Fin.sum_univ_four, toMatrix, Matrix.of_apply, Matrix.one_apply_eq] at h1
  revert h1
  decide +kernel

example : (toMatrix (demo2 0)).det ≠ 0 := by rw [← (C95_det (demo2 0) identity).1]; decide +kernel

/-- A turn by a right angle about the last axis, and a symmetric matrix. -/
def demo3 : Mem 3 ℚ := fun l => if l = 0 then fun j i => if j = 0 ∧ i = 1 then 1 else if j = 1 ∧ i = 0 then -1 else if j = 2 ∧ i = 2 then 1 else 0
  else fun j i => if j = i then 2 else if j + i = 1 then 1 else 0

example : (toMatrix (demo3 0)).det ≠ 0 ∧ (toMatrix (demo3 1)).det ≠ 0 := by
  rw [← (C95_det identity (demo3 0)).2, ← (C95_det identity (demo3 1)).2]; decide +kernel

end Zpl.Math
