import Verif.Basic
import Mathlib.Order.Defs.LinearOrder
import Mathlib.Order.MinMax
import Mathlib.Algebra.Order.Group.Abs
import Mathlib.Algebra.Order.Group.Int
import Mathlib.Data.Real.Basic
import Mathlib.Tactic.Linarith
import Mathlib.Tactic.Positivity

/-!
# Ranges, steps, bit masks; copying matrices; the aspect ratio (code/header/essentials/helpers.h:96-144, code/source/math.c:575-592, 655-657, 748-750)  -  C110

## Model

The macros are functions on any linearly ordered set; on machine integers the arithmetic ones report overflow.  Their arguments are evaluated more than once,
which is not modelled: the arguments are values.  A matrix is a block of `float`s in memory. -/

namespace Zpl.Macro

section Order
variable {α : Type*} [LinearOrder α]

/-- helpers.h:100 `zpl_min`. -/
def min (a b : α) : α := if a < b then a else b
/-- helpers.h:104 `zpl_max`. -/
def max (a b : α) : α := if a > b then a else b
/-- helpers.h:108 `zpl_min3`. -/
def min3 (a b c : α) : α := min (min a b) c
/-- helpers.h:112 `zpl_max3`. -/
def max3 (a b c : α) : α := max (max a b) c
/-- helpers.h:116 `zpl_clamp`. -/
def clamp (x lower upper : α) : α := min (max x lower) upper
/-- helpers.h:120 `zpl_clamp01`. -/
def clamp01 [Zero α] [One α] (x : α) : α := clamp x 0 1
/-- helpers.h:124 `zpl_is_between`. -/
def isBetween (x lower upper : α) : Bool := decide (lower ≤ x) && decide (x ≤ upper)
/-- helpers.h:128 `zpl_is_between_limit`. -/
def isBetweenLimit (x lower upper : α) : Bool := decide (lower ≤ x) && decide (x < upper)

theorem min_eq (a b : α) : min a b = Min.min a b := by
  unfold min; split
  · next h => exact (min_eq_left h.le).symm
  · next h => exact (min_eq_right (not_lt.mp h)).symm

theorem max_eq (a b : α) : max a b = Max.max a b := by
  unfold max; split
  · next h => exact (max_eq_left h.le).symm
  · next h => exact (max_eq_right (not_lt.mp h)).symm

/-- **C110.**  The least and the greatest of two and of three: one of the arguments, and on the right side of all of them. -/
theorem C110_min_max (a b c : α) :
    (min3 a b c = a ∨ min3 a b c = b ∨ min3 a b c = c) ∧ min3 a b c ≤ a ∧ min3 a b c ≤ b ∧ min3 a b c ≤ c
    ∧ (max3 a b c = a ∨ max3 a b c = b ∨ max3 a b c = c) ∧ a ≤ max3 a b c ∧ b ≤ max3 a b c ∧ c ≤ max3 a b c := by
  have e1 : min3 a b c = Min.min (Min.min a b) c := by unfold min3; rw [min_eq, min_eq]
  have e2 : max3 a b c = Max.max (Max.max a b) c := by unfold max3; rw [max_eq, max_eq]
  rw [e1, e2]
  refine ⟨?_, ?_, ?_, ?_, ?_, ?_, ?_, ?_⟩
  · rcases min_choice (Min.min a b) c with h | h
    · rcases min_choice a b with h' | h'
      · exact Or.inl (h.trans h')
      · exact Or.inr (Or.inl (h.trans h'))
    · exact Or.inr (Or.inr h)
  · simp
  · simp
  · simp
  · rcases max_choice (Max.max a b) c with h | h
    · rcases max_choice a b with h' | h'
      · exact Or.inl (h.trans h')
      · exact Or.inr (Or.inl (h.trans h'))
    · exact Or.inr (Or.inr h)
  · simp
  · simp
  · simp

example : min3 (2 : ℤ) 1 3 = 1 ∧ max3 (2 : ℤ) 1 3 = 3 := by decide

/-- **C110.**  Clamping into a range that is not empty gives a number of the range; a number of the range stays; a number below becomes the lower end and one above
the upper end.  Into an empty range it gives the upper end. -/
theorem C110_clamp (x lower upper : α) :
    (lower ≤ upper → (lower ≤ clamp x lower upper ∧ clamp x lower upper ≤ upper)
      ∧ (lower ≤ x → x ≤ upper → clamp x lower upper = x) ∧ (x < lower → clamp x lower upper = lower) ∧ (upper < x → clamp x lower upper = upper))
    ∧ (upper < lower → clamp x lower upper = upper) := by
  have e : clamp x lower upper = Min.min (Max.max x lower) upper := by unfold clamp; rw [min_eq, max_eq]
  rw [e]
  refine ⟨fun h => ⟨⟨?_, min_le_right _ _⟩, fun h1 h2 => ?_, fun h1 => ?_, fun h1 => ?_⟩, fun h => ?_⟩
  · exact le_min (le_max_right _ _) h
  · rw [max_eq_left h1, min_eq_left h2]
  · rw [max_eq_right h1.le, min_eq_left h]
  · rw [max_eq_left (h.trans h1.le), min_eq_right h1.le]
  · exact min_eq_right (h.le.trans (le_max_right _ _))

example : clamp (5 : ℤ) 0 3 = 3 ∧ clamp (-5 : ℤ) 0 3 = 0 ∧ clamp (2 : ℤ) 0 3 = 2 := by decide

/-- **C110.**  Being in a closed range is being unchanged by clamping into it; in a half-open range the upper end is left out. -/
theorem C110_between (x lower upper : α) :
    (isBetween x lower upper = true ↔ lower ≤ x ∧ x ≤ upper)
    ∧ (isBetweenLimit x lower upper = true ↔ lower ≤ x ∧ x < upper)
    ∧ (lower ≤ upper → (isBetween x lower upper = true ↔ clamp x lower upper = x)) := by
  have h1 : isBetween x lower upper = true ↔ lower ≤ x ∧ x ≤ upper := by simp [isBetween]
  refine ⟨h1, by simp [isBetweenLimit], fun h => ?_⟩
  rw [h1]
  have hc := (C110_clamp x lower upper).1 h
  constructor
  · rintro ⟨a, b⟩; exact hc.2.1 a b
  · intro e; rw [← e]; exact hc.1
end Order

/-- **C110.**  Clamping to the unit range. -/
theorem C110_clamp01 (x : ℝ) : 0 ≤ clamp01 x ∧ clamp01 x ≤ 1 ∧ (0 ≤ x → x ≤ 1 → clamp01 x = x) :=
  have h := (C110_clamp x 0 1).1 (by norm_num)
  ⟨h.1.1, h.1.2, h.2.1⟩

/-- helpers.h:132 `zpl_step` on `int`s: C's division drops the fraction; dividing by zero and the one overflowing quotient are undefined. -/
def step (x y : ℤ) : Except Fault ℤ :=
  if y = 0 then .error .divZero
  else if x = -2 ^ 31 ∧ y = -1 then .error .arith
  else .ok (x.tdiv y * y)

/-- helpers.h:136 `zpl_abs` on `int`s. -/
def abs (x : ℤ) : Except Fault ℤ := if x < 0 then (if x = -2 ^ 31 then .error .arith else .ok (-x)) else .ok x

/-- **C110.**  `zpl_step` gives a multiple of the step, not further from zero than the number, on the same side, and less than one step away; when it fails,
the step is 0 or the number is the least `int` and the step is -1. -/
theorem C110_step (x y : ℤ) :
    (∃ r k, step x y = .ok r ∧ r = k * y ∧ |r| ≤ |x| ∧ |x - r| < |y| ∧ 0 ≤ r * x) ∨ y = 0 ∨ (x = -2 ^ 31 ∧ y = -1) := by
  by_cases hy : y = 0
  · exact Or.inr (Or.inl hy)
  · by_cases ho : x = -2 ^ 31 ∧ y = -1
    · exact Or.inr (Or.inr ho)
    · left
      refine ⟨x.tdiv y * y, x.tdiv y, by unfold step; rw [if_neg hy, if_neg ho], rfl, ?_, ?_, ?_⟩
      all_goals
        have hm := Int.tdiv_mul_add_tmod x y
        have hb : |x.tmod y| < |y| := by
          rw [Int.abs_eq_natAbs, Int.abs_eq_natAbs, Int.natAbs_tmod]
          have : 0 < y.natAbs := by omega
          exact_mod_cast Nat.mod_lt _ this
      · rw [Int.abs_eq_natAbs, Int.abs_eq_natAbs, Int.natAbs_mul, Int.natAbs_tdiv]
        exact_mod_cast Nat.div_mul_le_self _ _
      · rw [show x - x.tdiv y * y = x.tmod y by linarith]; exact hb
      · have hs : 0 ≤ x.tdiv y * y * x := by
          rcases le_total 0 x with h | h
          · have : 0 ≤ x.tmod y := Int.tmod_nonneg y h
            have h3 : 0 ≤ x.tdiv y * y := by
              rcases le_total 0 y with h' | h'
              · exact mul_nonneg (Int.tdiv_nonneg h h') h'
              · exact mul_nonneg_of_nonpos_of_nonpos (Int.tdiv_nonpos_of_nonneg_of_nonpos h h') h'
            exact mul_nonneg h3 h
          · have h3 : x.tdiv y * y ≤ 0 := by
              have e : x.tdiv y * y = -((-x).tdiv y * y) := by rw [Int.neg_tdiv, neg_mul, neg_neg]
              have h4 : 0 ≤ (-x).tdiv y * y := by
                rcases le_total 0 y with h' | h'
                · exact mul_nonneg (Int.tdiv_nonneg (by linarith) h') h'
                · exact mul_nonneg_of_nonpos_of_nonpos (Int.tdiv_nonpos_of_nonneg_of_nonpos (by linarith) h') h'
              linarith
            exact mul_nonneg_of_nonpos_of_nonpos h3 h
        exact hs

example : step (-17) 5 = .ok (-15) ∧ step 17 5 = .ok 15 := by decide

/-- **C110.**  `zpl_abs` on `int`s is the absolute value except at the least `int`, where it is undefined. -/
theorem C110_abs (x : ℤ) (h : -2 ^ 31 < x) : abs x = .ok |x| := by
  unfold abs
  split
  · next hx => rw [if_neg (by omega), abs_of_neg hx]
  · next hx => rw [abs_of_nonneg (not_lt.mp hx)]

theorem C110_abs_least : abs (-2 ^ 31) = .error .arith := by decide

/-- helpers.h:140-147 `ZPL_MASK_SET`. -/
def maskSet {n : Nat} (var : BitVec n) (set : Bool) (mask : BitVec n) : BitVec n := if set then var ||| mask else var &&& ~~~mask

/-- **C110.**  `ZPL_MASK_SET` sets or clears exactly the bits of the mask. -/
theorem C110_mask_set {n : Nat} (var : BitVec n) (set : Bool) (mask : BitVec n) (i : Nat) (hi : i < n) :
    (maskSet var set mask).getLsbD i = if mask.getLsbD i then set else var.getLsbD i := by
  unfold maskSet
  cases set
  · simp only [Bool.false_eq_true, if_false, BitVec.getLsbD_and, BitVec.getLsbD_not, hi, decide_true, Bool.true_and]
    cases mask.getLsbD i <;> cases var.getLsbD i <;> rfl
  · simp only [if_true, BitVec.getLsbD_or]
    cases mask.getLsbD i <;> cases var.getLsbD i <;> rfl

example : maskSet 0b1010#4 false 0b0010#4 = 0b1000#4 ∧ maskSet 0b1010#4 true 0b0001#4 = 0b1011#4 := by decide

/-! ## Copying matrices -/

/-- `zpl_memcopy` of `n` elements from one block to another. -/
def copyBlock {α : Type} (out m : List α) (n : Nat) : Except Fault (List α) :=
  if n ≤ m.length ∧ n ≤ out.length then .ok (m.take n ++ out.drop n) else .error .oob

/-- math.c:590-592 `zpl_mat2_copy`: the size is that of a `zpl_mat3`, nine elements. -/
def mat2_copy {α : Type} (out m : List α) : Except Fault (List α) := copyBlock out m 9
/-- math.c:655-657 `zpl_mat3_copy`. -/
def mat3_copy {α : Type} (out m : List α) : Except Fault (List α) := copyBlock out m 9
/-- math.c:748-750 `zpl_mat4_copy`. -/
def mat4_copy {α : Type} (out m : List α) : Except Fault (List α) := copyBlock out m 16

/-- **C110.**  Copying a 3 by 3 or a 4 by 4 matrix gives the matrix. -/
theorem C110_copy_partial {α : Type} (out m out' m' : List α) (h1 : out.length = 9) (h2 : m.length = 9) (h1' : out'.length = 16) (h2' : m'.length = 16) :
    mat3_copy out m = .ok m ∧ mat4_copy out' m' = .ok m' := by
  unfold mat3_copy mat4_copy copyBlock
  rw [if_pos ⟨by omega, by omega⟩, if_pos ⟨by omega, by omega⟩, List.take_of_length_le (by omega), List.drop_eq_nil_of_le (by omega),
    List.take_of_length_le (by omega), List.drop_eq_nil_of_le (by omega), List.append_nil, List.append_nil]
  exact ⟨rfl, rfl⟩

/-- **C110 (the code disagrees).**  Copying a 2 by 2 matrix reads past its end and writes past the end of the target. -/
theorem C110_mat2_copy_overrun {α : Type} (out m : List α) (h : m.length = 4 ∨ out.length = 4) : mat2_copy out m = .error .oob := by
  unfold mat2_copy copyBlock
  rw [if_neg (by omega)]

/-! ## Aspect ratio -/

/-- math.c:575 `zpl_vec2_aspect_ratio`. -/
noncomputable def aspectRatio (x y : ℝ) : ℝ := if y < 0.0001 then 0 else x / y

/-- **C110.**  The aspect ratio times the height is the width; heights below a ten-thousandth, negative ones included, give 0. -/
theorem C110_aspect (x y : ℝ) : (0.0001 ≤ y → aspectRatio x y * y = x) ∧ (y < 0.0001 → aspectRatio x y = 0) := by
  unfold aspectRatio
  refine ⟨fun h => ?_, fun h => if_pos h⟩
  rw [if_neg (not_lt.mpr h)]
  exact div_mul_cancel₀ x (by intro h0; rw [h0] at h; norm_num at h)

example : aspectRatio 1920 1080 * 1080 = 1920 := (C110_aspect 1920 1080).1 (by norm_num)

end Zpl.Macro
