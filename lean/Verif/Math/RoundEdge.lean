import Verif.Math.RoundDouble

/-!
# `zpl_floor64` and `zpl_ceil64` of large whole numbers  -  C146

The functions (code/source/math.c:63-64) are modelled in `Verif.Math.RoundFloat`.  Here the cases that
`C146_floor64_whole` and `C146_ceil64_whole` leave open are settled: from `2 ^ 52` on every double is whole.
-/

namespace Zpl.RoundD

open RoundF
open F64 (pow2 nearest logTwo pow2_eq pow2_pos pow2_add pow2_le pow2_lt_iff logTwo_spec nearest_near nearest_int)

/-- C146: from `-2 ^ 52` down to `-2 ^ 53` (excluded) `zpl_floor64` of a whole number is one too low, as for the smaller ones. -/
theorem C146_floor64_band {n : ℤ} (h0 : n ≤ -2 ^ 52) (h1 : -2 ^ 53 < n) : floor64 (.fin n) = .ok (.fin (n - 1 : ℤ)) := by
  have q0 : (n : ℚ) ≤ -2 ^ 52 := by exact_mod_cast h0
  have q1 : (-2 ^ 53 : ℚ) < n := by exact_mod_cast h1
  have g : ∃ m e : ℤ, |m| < 2 ^ 53 ∧ -1074 ≤ e ∧ ((n - 1 : ℤ) : ℚ) = m * pow2 e := by
    by_cases hn : n - 1 = -2 ^ 53
    · exact ⟨-1, 53, by norm_num, by norm_num, by rw [hn]; norm_num [pow2_eq]⟩
    · exact F64.int_grid (by rw [abs_lt]; constructor <;> omega)
  have e : F64.rounded ((n : ℚ) - (1 - 1 / 2 ^ 53)) = ((n - 1 : ℤ) : ℚ) := by
    have lo := F64.le_rounded g (show ((n - 1 : ℤ) : ℚ) ≤ (n : ℚ) - (1 - 1 / 2 ^ 53) by push_cast; norm_num; linarith)
    obtain ⟨m, k, hm, hk, ek⟩ := g
    have near := F64.rounded_nearest ((n : ℚ) - (1 - 1 / 2 ^ 53)) hm hk
    rw [← ek, show ((n - 1 : ℤ) : ℚ) - ((n : ℚ) - (1 - 1 / 2 ^ 53)) = -(1 / 2 ^ 53) by push_cast; ring, abs_neg,
      abs_of_nonneg (by norm_num : (0 : ℚ) ≤ 1 / 2 ^ 53)] at near
    have up := (abs_le.1 near).2
    have p52 : pow2 52 = 2 ^ 52 := by norm_num [pow2_eq]
    have neg : F64.rounded ((n : ℚ) - (1 - 1 / 2 ^ 53)) ≤ -2 ^ 52 := by norm_num at up q0 ⊢; linarith
    obtain ⟨j, hj⟩ := multiple (F64.rounded_grid ((n : ℚ) - (1 - 1 / 2 ^ 53))) (k := 52) (by
      rw [p52, abs_of_neg (by norm_num at neg; linarith)]; linarith)
    rw [show pow2 (52 - 52) = 1 from rfl, mul_one] at hj
    rw [hj] at lo up ⊢
    have a : n - 1 ≤ j := by exact_mod_cast lo
    have b : (j : ℚ) < n := by norm_num at up; linarith
    have b' : j < n := by exact_mod_cast b
    rw [show j = n - 1 by omega]
  have n0 : (n : ℚ) < 0 := by norm_num at q0; linarith
  unfold floor64
  rw [nonneg64_fin, decide_eq_false (not_le.2 n0), if_neg Bool.false_ne_true, literal64, sub_fin64, F64.round_fin (by
    rw [show pow2 100 = 2 ^ 100 by norm_num [pow2_eq], abs_le]
    norm_num at q1 ⊢
    constructor <;> linarith), e, toInt64_fin (trunc_int _) (by omega) (by omega)]
  change Except.ok (F64.ofInt (n - 1)) = _
  by_cases hn : n - 1 = -2 ^ 53
  · rw [hn]; decide +kernel
  · rw [F64.ofInt_eq (by rw [abs_lt]; constructor <;> omega)]

/-- What `zpl_ceil64` does to a whole number is the conversion of the next one. -/
theorem ceil64_next {n : ℤ} (h0 : 0 ≤ n) (h1 : n < 2 ^ 63 - 1) : ceil64 (.fin n) = .ok (F64.ofInt (n + 1)) := by
  unfold ceil64
  rw [show F64.lt (.fin n) (.fin 0) = decide ((n : ℚ) < 0) from rfl, decide_eq_false (by rw [not_lt]; exact_mod_cast h0), if_neg Bool.false_ne_true,
    toInt64_fin (trunc_int n) (by omega) (by omega)]
  change (if n + 1 < 2 ^ 63 then Except.ok (F64.ofInt (n + 1)) else Except.error Fault.arith) = _
  rw [if_pos (by omega)]

theorem ofInt_small {n : ℤ} (h : |n| < 2 ^ 64) : F64.ofInt n = .fin (F64.rounded n) := by
  refine round_small ?_
  have : |(n : ℚ)| < 2 ^ 64 := by exact_mod_cast h
  refine this.le.trans ?_
  rw [show (2 : ℚ) ^ 64 = pow2 64 by norm_num [pow2_eq]]
  exact pow2_le (by norm_num)

/-- C146: `zpl_ceil64` of the whole numbers from `2 ^ 53` to `2 ^ 54`, which are even: the multiples of four stay, the others become two larger. -/
theorem C146_ceil64_band {n : ℤ} (h0 : 2 ^ 53 ≤ n) (h1 : n < 2 ^ 54) (hn : n % 2 = 0) :
    ceil64 (.fin n) = .ok (.fin (if n % 4 = 0 then n else n + 2 : ℤ)) := by
  rw [ceil64_next (by omega) (by omega), ofInt_small (by rw [abs_lt]; constructor <;> omega)]
  obtain ⟨k, rfl⟩ : ∃ k, n = 2 * k := ⟨n / 2, by omega⟩
  have q0 : (2 : ℚ) ^ 53 ≤ 2 * k := by exact_mod_cast h0
  have q1 : (2 : ℚ) * k + 2 ≤ 2 ^ 54 := by
    have : 2 * k + 2 ≤ (2 : ℤ) ^ 54 := by omega
    exact_mod_cast this
  have c : ((2 * k + 1 : ℤ) : ℚ) = 2 * k + 1 := by push_cast; ring
  rw [c]
  have hne : (2 * k + 1 : ℚ) ≠ 0 := by intro h; norm_num at q0; linarith
  obtain ⟨l1, l2⟩ := logTwo_spec hne
  rw [abs_of_nonneg (by norm_num at q0; linarith)] at l1 l2
  have k1 : logTwo (2 * k + 1 : ℚ) < 54 := by
    refine pow2_lt_iff.1 (lt_of_le_of_lt l1 ?_)
    rw [show pow2 54 = 2 ^ 54 by norm_num [pow2_eq]]; linarith
  have k2 : 53 < logTwo (2 * k + 1 : ℚ) + 1 := by
    refine pow2_lt_iff.1 (lt_of_le_of_lt ?_ l2)
    rw [show pow2 53 = 2 ^ 53 by norm_num [pow2_eq]]; linarith
  have kl : logTwo (2 * k + 1 : ℚ) = 53 := by omega
  have hp : F64.place (2 * k + 1 : ℚ) = 1 := by unfold F64.place; rw [kl]; rfl
  have e : F64.rounded (2 * k + 1 : ℚ) = ((if 2 * k % 4 = 0 then 2 * k else 2 * k + 2 : ℤ) : ℚ) := by
    unfold F64.rounded
    rw [hp, show pow2 1 = 2 from rfl]
    unfold nearest
    dsimp only
    rw [floor_eq (n := k) (by linarith) (by linarith), if_neg (by linarith), if_neg (by linarith)]
    by_cases h : k % 2 = 0
    · rw [if_pos h, if_pos (by omega)]; push_cast; ring
    · rw [if_neg h, if_neg (by omega)]; push_cast; ring
  rw [e]

/-- C146: from `2 ^ 54` on `zpl_ceil64` is right: the one that is added is lost. -/
theorem C146_ceil64_large {x : ℚ} (hx : F64.Representable x) (h0 : 2 ^ 54 ≤ x) (h1 : x < 2 ^ 63) : ceil64 (.fin x) = .ok (.fin x) := by
  have p54 : pow2 54 = 2 ^ 54 := by norm_num [pow2_eq]
  have x0 : 0 ≤ x := le_trans (by norm_num) h0
  obtain ⟨i, hi⟩ := multiple (rep_grid hx) (k := 54) (by rw [p54, abs_of_nonneg x0]; exact h0)
  rw [show pow2 (54 - 52) = 4 from rfl] at hi
  have hn : x = ((4 * i : ℤ) : ℚ) := by rw [hi]; push_cast; ring
  have lo := F64.le_rounded (rep_grid hx) (show x ≤ x + 1 by linarith)
  obtain ⟨m, e, hm, he, ex⟩ := rep_grid hx
  have near := F64.rounded_nearest (x + 1) hm he
  rw [← ex, show x - (x + 1) = -1 by ring, abs_neg, abs_one] at near
  have up := (abs_le.1 near).2
  obtain ⟨j, hj⟩ := multiple (F64.rounded_grid (x + 1)) (k := 54) (by rw [p54, abs_of_nonneg (by linarith)]; linarith)
  rw [show pow2 (54 - 52) = 4 from rfl] at hj
  have r : F64.rounded (x + 1) = x := by
    rw [hj] at lo up ⊢
    rw [hi] at lo up ⊢
    have a : (i : ℚ) ≤ j := by linarith
    have b : (j : ℚ) < (i + 1 : ℤ) := by push_cast; linarith
    have a' : i ≤ j := by exact_mod_cast a
    have b' : j < i + 1 := by exact_mod_cast b
    rw [show j = i by omega]
  rw [hn] at h0 h1 r ⊢
  have n0 : 2 ^ 54 ≤ 4 * i := by exact_mod_cast h0
  have n1 : 4 * i < 2 ^ 63 := by exact_mod_cast h1
  rw [ceil64_next (by omega) (by omega), ofInt_small (by rw [abs_lt]; constructor <;> omega)]
  rw [show ((4 * i + 1 : ℤ) : ℚ) = ((4 * i : ℤ) : ℚ) + 1 by push_cast; ring, r]

/-- C146: the last whole number before `2 ^ 53` becomes `2 ^ 53`, as the smaller ones one too high. -/
theorem C146_ceil64_last : ceil64 (.fin (2 ^ 53 - 1)) = .ok (.fin (2 ^ 53)) := by decide +kernel

example : floor64 (.fin (-5000000000000000 : ℤ)) = .ok (.fin (-5000000000000001 : ℤ)) :=
  C146_floor64_band (n := -5000000000000000) (by norm_num) (by norm_num)

end Zpl.RoundD
