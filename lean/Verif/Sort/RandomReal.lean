import Verif.Sort.Random
import Verif.Math.Double

/-!
# Random real numbers (code/source/core/random.c:159-166)  -  C142

Doubles are those of `Math/Double`: exact rational numbers rounded to 53 places. -/

namespace Zpl.Random

open Zpl F64

/-! ## Model -/

/-- random.c:160: the draw as a part of 1.  `ZPL_U64_MAX` is converted to `zpl_f64` too. -/
def fraction (u : BitVec 64) : F64 := div (ofInt u.toNat) (ofInt (2 ^ 64 - 1))

/-- random.c:160-165, from the raw draw `u` on. -/
def realOf (u : BitVec 64) (lo hi : F64) : F64 := add (mul (fraction u) (sub hi lo)) lo

/-- random.c:159-166 `zpl_random_range_f64`. -/
def rangeReal (r : Rnd) (lo hi : F64) : F64 × Rnd :=
  let (u, r) := genU64 r
  (realOf u lo hi, r)

/-! ## Lemmas -/

theorem one_grid : ∃ m e : ℤ, |m| < 2 ^ 53 ∧ -1074 ≤ e ∧ (1 : ℚ) = m * pow2 e := ⟨1, 0, by norm_num, by norm_num, by norm_num [pow2_eq]⟩

theorem zero_grid : ∃ m e : ℤ, |m| < 2 ^ 53 ∧ -1074 ≤ e ∧ (0 : ℚ) = m * pow2 e := ⟨0, 0, by norm_num, by norm_num, by norm_num [pow2_eq]⟩

theorem grid64 : ∃ m e : ℤ, |m| < 2 ^ 53 ∧ -1074 ≤ e ∧ ((2 ^ 64 : ℕ) : ℚ) = m * pow2 e := ⟨1, 64, by norm_num, by norm_num, by rw [pow2_eq]; norm_num⟩

theorem max_u64 : ofInt (2 ^ 64 - 1) = .fin (2 ^ 64) := by decide +kernel

/-- The part of 1 is a finite number from 0 to 1. -/
theorem fraction_spec (u : BitVec 64) : ∃ f : ℚ, fraction u = .fin f ∧ 0 ≤ f ∧ f ≤ 1 := by
  have hu : (u.toNat : ℚ) ≤ 2 ^ 64 := by exact_mod_cast u.isLt.le
  have h100 : (2 : ℚ) ^ 64 ≤ pow2 100 := by rw [pow2_eq]; norm_num
  have hu0 : (0 : ℚ) ≤ u.toNat := Nat.cast_nonneg _
  have e1 : ofInt u.toNat = .fin (rounded u.toNat) := by
    rw [ofInt]
    push_cast
    exact round_fin (by rw [abs_of_nonneg hu0]; exact hu.trans h100)
  have b0 : 0 ≤ rounded (u.toNat : ℚ) := le_rounded zero_grid hu0
  have b1 : rounded (u.toNat : ℚ) ≤ 2 ^ 64 := by
    have := rounded_le (q := (u.toNat : ℚ)) grid64 (by push_cast; exact hu)
    push_cast at this
    exact this
  have c0 : 0 ≤ rounded (u.toNat : ℚ) / 2 ^ 64 := by positivity
  have c1 : rounded (u.toNat : ℚ) / 2 ^ 64 ≤ 1 := by rw [div_le_one (by positivity)]; exact b1
  refine ⟨rounded (rounded (u.toNat : ℚ) / 2 ^ 64), ?_, le_rounded zero_grid c0, rounded_le one_grid c1⟩
  rw [fraction, e1, max_u64, F64.div, if_neg (by positivity)]
  refine round_fin ?_
  rw [abs_of_nonneg c0]
  refine c1.trans ?_
  rw [pow2_eq]
  norm_num

theorem repr_grid {q : ℚ} (h : Representable q) : ∃ m e : ℤ, |m| < 2 ^ 53 ∧ -1074 ≤ e ∧ q = m * pow2 e := by
  obtain ⟨m, e, h1, h2, _, h3⟩ := h
  exact ⟨m, e, h1, h2, h3⟩

theorem repr_lt {q : ℚ} (h : Representable q) : |q| < pow2 1024 := by
  obtain ⟨m, e, h1, h2, h3, rfl⟩ := h
  rw [abs_mul, abs_of_pos (pow2_pos e)]
  have a1 : |(m : ℚ)| < 2 ^ 53 := by exact_mod_cast h1
  calc |(m : ℚ)| * pow2 e < 2 ^ 53 * pow2 e := by exact mul_lt_mul_of_pos_right a1 (pow2_pos e)
    _ ≤ 2 ^ 53 * pow2 971 := by exact mul_le_mul_of_nonneg_left (pow2_le h3) (by positivity)
    _ = pow2 1024 := by rw [show (2 : ℚ) ^ 53 = pow2 53 by rw [pow2_eq]; norm_num, ← pow2_add]; norm_num

/-- A result between two numbers of the type is finite. -/
theorem round_between {q a b : ℚ} (ha : Representable a) (hb : Representable b) (h1 : a ≤ q) (h2 : q ≤ b) :
    F64.round q = .fin (rounded q) ∧ a ≤ rounded q ∧ rounded q ≤ b := by
  have c1 := le_rounded (repr_grid ha) h1
  have c2 := rounded_le (repr_grid hb) h2
  refine ⟨?_, c1, c2⟩
  rw [F64.round, if_pos]
  have d1 := repr_lt ha
  have d2 := repr_lt hb
  rw [abs_lt] at d1 d2 ⊢
  exact ⟨by linarith, by linarith⟩

/-! ## Properties -/

/-- **C142 (partial).**  For limits whose distance is itself a double, the result is a finite number between them, whatever was drawn.

`_partial`: if the distance is not a double the result can be above the upper limit (`C142_above`), and if it is out of range no finite number is returned
(`C142_overflow`). -/
theorem C142_range_partial (r : Rnd) {lo hi : ℚ} (hlo : Representable lo) (hhi : Representable hi) (hle : lo ≤ hi) (hd : Representable (hi - lo)) :
    ∃ (x : ℚ) (r' : Rnd), rangeReal r (.fin lo) (.fin hi) = (.fin x, r') ∧ lo ≤ x ∧ x ≤ hi := by
  obtain ⟨f, hf, f0, f1⟩ := fraction_spec (genU64 r).1
  have e1 : sub (.fin hi) (.fin lo) = .fin (hi - lo) := by
    obtain ⟨k, -⟩ := round_between hd hd (le_refl _) (le_refl _)
    rw [sub, neg, add, ← sub_eq_add_neg, k, Representable.rounded hd]
  have h0 : Representable 0 := ⟨0, 0, by norm_num, by norm_num, by norm_num, by norm_num⟩
  have m0 : 0 ≤ f * (hi - lo) := mul_nonneg f0 (by linarith)
  have m1 : f * (hi - lo) ≤ hi - lo := mul_le_of_le_one_left (by linarith) f1
  obtain ⟨g1, g2, g3⟩ := round_between h0 hd m0 m1
  obtain ⟨k1, k2, k3⟩ := round_between hlo hhi (q := rounded (f * (hi - lo)) + lo) (by linarith) (by linarith)
  refine ⟨_, (genU64 r).2, ?_, k2, k3⟩
  rw [rangeReal]
  dsimp only
  rw [realOf, hf, e1, mul, g1, add, k1]

/-- **C142 (partial).**  For any limits whose distance is in range the result is never below the lower one, and never above the nearest double to it plus the nearest
double to the distance. -/
theorem C142_lower_partial (r : Rnd) {lo hi d t : ℚ} (hlo : Representable lo) (hle : lo ≤ hi)
    (hd : sub (.fin hi) (.fin lo) = .fin d) (ht : add (.fin lo) (.fin d) = .fin t) :
    ∃ (x : ℚ) (r' : Rnd), rangeReal r (.fin lo) (.fin hi) = (.fin x, r') ∧ lo ≤ x ∧ x ≤ t := by
  obtain ⟨f, hf, f0, f1⟩ := fraction_spec (genU64 r).1
  rw [sub, neg, add, ← sub_eq_add_neg] at hd
  have hdr := round_representable hd
  have htr := round_representable (q := lo + d) (by rw [← ht, add])
  have d0 : 0 ≤ d := by
    rw [F64.round] at hd
    split at hd
    · injection hd with hd
      rw [← hd]
      exact le_rounded zero_grid (by linarith)
    · cases hd
  have tt : rounded (lo + d) = t := by
    rw [add, F64.round] at ht
    split at ht
    · injection ht
    · cases ht
  have h0 : Representable 0 := ⟨0, 0, by norm_num, by norm_num, by norm_num, by norm_num⟩
  obtain ⟨g1, g2, g3⟩ := round_between h0 hdr (mul_nonneg f0 d0) (mul_le_of_le_one_left d0 f1)
  have b1 : lo ≤ rounded (rounded (f * d) + lo) := le_rounded (repr_grid hlo) (by linarith)
  have b2 : rounded (rounded (f * d) + lo) ≤ t := by rw [← tt]; exact rounded_mono (by linarith)
  refine ⟨_, (genU64 r).2, ?_, b1, b2⟩
  rw [rangeReal]
  dsimp only
  rw [realOf, hf, sub, neg, add, ← sub_eq_add_neg, hd, mul, g1, add, F64.round, if_pos]
  have d1 := repr_lt hlo
  have d2 := repr_lt htr
  rw [abs_lt] at d1 d2 ⊢
  exact ⟨by linarith, by linarith⟩

/-- A generator in the state `zpl_random_init` leaves (value 0), with offsets that make it draw all ones twice. -/
def ones : Rnd := ⟨[0, 0, 0, 0, 0, 0, 0, (0xffffffff#32 ^^^ 0x5bf03635#32) - qpr (([0, 0, 0, 0, 0, 0, 0] : List (BitVec 32)).foldl permute 0)], 0⟩

/-- **C142, false as stated.**  Between -1 and 2^-53 + 2^-60 a generator can return 2^-52, which is nearly twice the upper limit. -/
theorem C142_above : (rangeReal ones (.fin (-1)) (.fin (pow2 (-53) + pow2 (-60)))).1 = .fin (pow2 (-52)) ∧ pow2 (-53) + pow2 (-60) < pow2 (-52) ∧
    Representable (pow2 (-53) + pow2 (-60)) := by
  refine ⟨by decide +kernel, by decide +kernel, 129, -60, by norm_num, by norm_num, by norm_num, by decide +kernel⟩

/-- **C142, false as stated.**  If the distance of the limits is out of range, no draw gives a finite number. -/
theorem C142_overflow (r : Rnd) {lo hi : ℚ} (b : Bool) (h : sub (.fin hi) (.fin lo) = .inf b) (x : ℚ) :
    (rangeReal r (.fin lo) (.fin hi)).1 ≠ .fin x := by
  obtain ⟨f, hf, f0, f1⟩ := fraction_spec (genU64 r).1
  rw [rangeReal]
  dsimp only
  rw [realOf, hf, h, mul]
  split
  · rw [add]; simp
  · rw [add]; simp

/-! ## Non-vacuity -/

example : Representable (-3) ∧ Representable (1 / 2) ∧ (-3 : ℚ) ≤ 1 / 2 ∧ Representable (1 / 2 - -3) :=
  ⟨⟨-3, 0, by norm_num, by norm_num, by norm_num, by norm_num [pow2_eq]⟩, ⟨1, -1, by norm_num, by norm_num, by norm_num, by norm_num [pow2_eq]⟩, by norm_num,
    ⟨7, -1, by norm_num, by norm_num, by norm_num, by norm_num [pow2_eq]⟩⟩

example : ∃ x, (rangeReal ⟨[1, 2, 3, 4, 5, 6, 7, 8], 0⟩ (.fin 10) (.fin 20)).1 = .fin x ∧ 10 < x ∧ x < 20 := by
  refine ⟨rounded (rounded (rounded (rounded ((genU64 ⟨[1, 2, 3, 4, 5, 6, 7, 8], 0⟩).1.toNat : ℚ) / 2 ^ 64) * 10) + 10), by decide +kernel, by decide +kernel, by decide +kernel⟩

/-- The largest double and its negative. -/
example : sub (.fin (pow2 1023)) (.fin (-pow2 1023)) = .inf false := by decide +kernel

example : sub (.fin (pow2 (-53) + pow2 (-60))) (.fin (-1)) = .fin (1 + pow2 (-52)) ∧ add (.fin (-1)) (.fin (1 + pow2 (-52))) = .fin (pow2 (-52)) := by
  constructor <;> decide +kernel

end Zpl.Random
