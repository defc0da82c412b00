import Verif.Math.RoundFloat

/-!
# Rounding to whole numbers in double precision (code/source/math.c:63-65)  -  C146

## Model -/

namespace Zpl.RoundD

open RoundF
open F64 (pow2 nearest logTwo pow2_eq pow2_pos pow2_add pow2_le pow2_lt_iff logTwo_spec nearest_near nearest_int)

/-- math.c:65 `zpl_round64`. -/
def round64 (x : F64) : Except Fault F64 :=
  if nonneg64 x then floor64 (F64.add x (.fin (1 / 2))) else ceil64 (F64.sub x (.fin (1 / 2)))

/-! ## Lemmas -/

theorem rep_grid {q : ℚ} (h : F64.Representable q) : ∃ m e : ℤ, |m| < 2 ^ 53 ∧ -1074 ≤ e ∧ q = m * pow2 e := by
  obtain ⟨m, e, h1, h2, -, h3⟩ := h
  exact ⟨m, e, h1, h2, h3⟩

theorem rep_neg {q : ℚ} (h : F64.Representable q) : F64.Representable (-q) := by
  obtain ⟨m, e, h1, h2, h4, h3⟩ := h
  exact ⟨-m, e, by rwa [abs_neg], h2, h4, by rw [h3]; push_cast; ring⟩

theorem pow2_grid {e : ℤ} (h : -1074 ≤ e) : ∃ m k : ℤ, |m| < 2 ^ 53 ∧ -1074 ≤ k ∧ pow2 e = m * pow2 k := ⟨1, e, by norm_num, h, by norm_num⟩

theorem neg_grid {q : ℚ} (h : ∃ m e : ℤ, |m| < 2 ^ 53 ∧ -1074 ≤ e ∧ q = m * pow2 e) : ∃ m e : ℤ, |m| < 2 ^ 53 ∧ -1074 ≤ e ∧ -q = m * pow2 e := by
  obtain ⟨m, e, h1, h2, h3⟩ := h
  exact ⟨-m, e, by rwa [abs_neg], h2, by rw [h3]; push_cast; ring⟩

theorem rounded_abs_le {q : ℚ} {e : ℤ} (he : -1074 ≤ e) (h : |q| ≤ pow2 e) : |F64.rounded q| ≤ pow2 e := by
  rw [abs_le] at h ⊢
  exact ⟨F64.le_rounded (neg_grid (pow2_grid he)) h.1, F64.rounded_le (pow2_grid he) h.2⟩

theorem round_small {q : ℚ} (h : |q| ≤ pow2 1023) : F64.round q = .fin (F64.rounded q) := by
  unfold F64.round
  rw [if_pos (lt_of_le_of_lt (rounded_abs_le (by norm_num) h) (pow2_lt_iff.2 (by norm_num)))]

theorem round_rep {q : ℚ} (h : F64.Representable q) : F64.round q = .fin q := by
  unfold F64.round
  rw [h.rounded, if_pos]
  obtain ⟨m, e, hm, he, he2, rfl⟩ := h
  have h1 : (|(m : ℚ)|) < pow2 53 := by
    rw [show pow2 53 = ((2 ^ 53 : ℤ) : ℚ) from rfl]
    exact_mod_cast hm
  rw [abs_mul, abs_of_pos (pow2_pos e)]
  have := pow2_pos e
  calc |(m : ℚ)| * pow2 e < pow2 53 * pow2 e := by nlinarith
    _ = pow2 (53 + e) := (pow2_add _ _).symm
    _ ≤ _ := pow2_le (by omega)

/-- A number of the type that is at least `2 ^ k` is a multiple of `2 ^ (k - 52)`. -/
theorem multiple {x : ℚ} (hx : ∃ m e : ℤ, |m| < 2 ^ 53 ∧ -1074 ≤ e ∧ x = m * pow2 e) {k : ℤ} (h : pow2 k ≤ |x|) : ∃ m : ℤ, x = m * pow2 (k - 52) := by
  obtain ⟨m, e, hm, -, rfl⟩ := hx
  have h1 : (|(m : ℚ)|) < pow2 53 := by
    rw [show pow2 53 = ((2 ^ 53 : ℤ) : ℚ) from rfl]
    exact_mod_cast hm
  have hp := pow2_pos e
  rw [abs_mul, abs_of_pos hp] at h
  have h2 : pow2 k < pow2 (53 + e) := by rw [pow2_add]; nlinarith
  have h3 := pow2_lt_iff.1 h2
  obtain ⟨d, hd⟩ := Int.eq_ofNat_of_zero_le (show 0 ≤ e - (k - 52) by omega)
  refine ⟨m * (2 ^ d : ℕ), ?_⟩
  rw [show e = (d : ℤ) + (k - 52) by omega, pow2_add]
  push_cast
  rw [show pow2 (d : ℤ) = 2 ^ d by rw [pow2_eq]; simp]
  ring

theorem whole {x : ℚ} (hx : F64.Representable x) (h : 2 ^ 52 ≤ |x|) : ∃ n : ℤ, x = n := by
  obtain ⟨m, hm⟩ := multiple (rep_grid hx) (k := 52) (by rw [show pow2 52 = 2 ^ 52 by norm_num [pow2_eq]]; exact h)
  exact ⟨m, by rw [hm, show pow2 (52 - 52) = 1 from rfl, mul_one]⟩

/-- Converting the whole part back is exact. -/
theorem ofInt_near {x : ℚ} {n : ℤ} (hx : F64.Representable x) (h : |x - n| < 1) : F64.ofInt n = .fin n := by
  rw [abs_lt] at h
  by_cases hn : |n| < 2 ^ 53
  · exact F64.ofInt_eq hn
  · have h3 : (2 : ℚ) ^ 53 ≤ |(n : ℚ)| := by
      have : (2 : ℤ) ^ 53 ≤ |n| := not_lt.1 hn
      exact_mod_cast this
    have h4 : (2 : ℚ) ^ 52 ≤ |x| := by
      rcases le_abs.1 h3 with h3 | h3
      · exact le_abs.2 (Or.inl (by norm_num at h3 ⊢; linarith))
      · exact le_abs.2 (Or.inr (by norm_num at h3 ⊢; linarith))
    obtain ⟨m, rfl⟩ := whole hx h4
    have : m = n := by
      have a : (m : ℚ) < (n + 1 : ℤ) := by push_cast; linarith
      have b : ((n - 1 : ℤ) : ℚ) < m := by push_cast; linarith
      have a' : m < n + 1 := by exact_mod_cast a
      have b' : n - 1 < m := by exact_mod_cast b
      omega
    rw [← this]
    exact round_rep hx

theorem nonneg64_fin (q : ℚ) : nonneg64 (.fin q) = decide (0 ≤ q) := rfl

/-- C146: `zpl_floor64` is right for numbers that are not negative. -/
theorem C146_floor64 {x : ℚ} (hx : F64.Representable x) (h0 : 0 ≤ x) (h1 : x < 2 ^ 63) : ∃ n : ℤ, floor64 (.fin x) = .ok (.fin n) ∧ IsFloor x n := by
  have a := Int.floor_le x
  have b := Int.lt_floor_add_one x
  have c : ⌊x⌋ < 2 ^ 63 := by
    have : (⌊x⌋ : ℚ) < 2 ^ 63 := lt_of_le_of_lt a h1
    exact_mod_cast this
  have d : 0 ≤ ⌊x⌋ := Int.floor_nonneg.2 h0
  refine ⟨⌊x⌋, ?_, a, b⟩
  unfold floor64
  rw [nonneg64_fin, decide_eq_true h0, if_pos rfl, toInt64_fin (trunc_nonneg h0 a b) (by omega) c]
  change Except.ok (F64.ofInt ⌊x⌋) = _
  rw [ofInt_near hx (by rw [abs_lt]; constructor <;> linarith)]

/-- C146: `zpl_ceil64` is right for negative numbers, and for those that are not whole. -/
theorem C146_ceil64_partial {x : ℚ} (hx : F64.Representable x) (h : |x| < 2 ^ 63 - 1) (hw : x < 0 ∨ ∀ n : ℤ, x ≠ n) : ∃ n : ℤ, ceil64 (.fin x) = .ok (.fin n) ∧ IsCeil x n := by
  rw [abs_lt] at h
  by_cases h0 : x < 0
  · have a := Int.le_ceil x
    have b := Int.ceil_lt_add_one x
    have c : ⌈x⌉ ≤ 0 := Int.ceil_le.2 (by push_cast; linarith)
    have d : -2 ^ 63 < ⌈x⌉ := Int.lt_ceil.2 (by push_cast; linarith)
    refine ⟨⌈x⌉, ?_, a, b⟩
    unfold ceil64
    rw [show F64.lt (.fin x) (.fin 0) = decide (x < 0) from rfl, decide_eq_true h0, if_pos rfl, toInt64_fin (trunc_neg h0 a b) (by omega) (by omega)]
    change Except.ok (F64.ofInt ⌈x⌉) = _
    rw [ofInt_near hx (by rw [abs_lt]; constructor <;> linarith)]
  · have hw' : ∀ n : ℤ, x ≠ n := hw.resolve_left h0
    have small : |x| < 2 ^ 52 := by
      by_contra hc
      obtain ⟨n, hn⟩ := whole hx (not_lt.1 hc)
      exact hw' n hn
    rw [abs_lt] at small
    have a := Int.floor_le x
    have b := Int.lt_floor_add_one x
    have c := lt_of_le_of_ne a (Ne.symm (hw' _))
    have d : 0 ≤ ⌊x⌋ := Int.floor_nonneg.2 (not_lt.1 h0)
    have e : ⌊x⌋ < 2 ^ 52 := Int.floor_lt.2 (by push_cast; exact small.2)
    refine ⟨⌊x⌋ + 1, ?_, by push_cast; linarith, by push_cast; linarith⟩
    unfold ceil64
    rw [show F64.lt (.fin x) (.fin 0) = decide (x < 0) from rfl, decide_eq_false h0, if_neg Bool.false_ne_true, toInt64_fin (trunc_nonneg (not_lt.1 h0) a b) (by omega) (by omega)]
    change (if ⌊x⌋ + 1 < 2 ^ 63 then Except.ok (F64.ofInt (⌊x⌋ + 1)) else Except.error Fault.arith) = _
    rw [if_pos (by omega), F64.ofInt_eq (by rw [abs_lt]; constructor <;> omega)]

theorem rounded_neg (q : ℚ) : F64.rounded (-q) = -F64.rounded q := by
  have hp : F64.place (-q) = F64.place q := by
    unfold F64.place logTwo
    simp only [Rat.neg_num, Rat.neg_den, Int.natAbs_neg, abs_neg]
  unfold F64.rounded
  rw [hp, neg_div, nearest_neg]
  push_cast
  ring

/-- The only number below `2 ^ 52` for which the addition in `zpl_round64` goes over a whole number: the one before a half. -/
def bad : ℚ := 1 / 2 - 1 / 2 ^ 54

/-- The sum in `zpl_round64` lies between the same whole numbers as the exact one. -/
theorem sum_floor {x : ℚ} (hx : F64.Representable x) (h0 : 0 ≤ x) (h1 : x < 2 ^ 52) (hb : x ≠ bad) :
    (⌊x + 1 / 2⌋ : ℚ) ≤ F64.rounded (x + 1 / 2) ∧ F64.rounded (x + 1 / 2) < ⌊x + 1 / 2⌋ + 1 := by
  have a := Int.floor_le (x + 1 / 2)
  have b := Int.lt_floor_add_one (x + 1 / 2)
  have n0 : 0 ≤ ⌊x + 1 / 2⌋ := Int.floor_nonneg.2 (by linarith)
  have n1 : ⌊x + 1 / 2⌋ ≤ 2 ^ 52 := by
    have : ⌊x + 1 / 2⌋ < 2 ^ 52 + 1 := Int.floor_lt.2 (by push_cast; linarith)
    omega
  generalize ⌊x + 1 / 2⌋ = N at *
  have N0 : (0 : ℚ) ≤ N := by exact_mod_cast n0
  refine ⟨F64.le_rounded (F64.int_grid (by rw [abs_lt]; constructor <;> omega)) a, ?_⟩
  by_cases hN : x ≤ N
  · rcases lt_or_ge N (2 ^ 52) with h | h
    · have g : ∃ m e : ℤ, |m| < 2 ^ 53 ∧ -1074 ≤ e ∧ (N : ℚ) + 1 / 2 = m * pow2 e :=
        ⟨2 * N + 1, -1, by rw [abs_lt]; constructor <;> omega, by norm_num, by rw [show pow2 (-1) = 1 / 2 from rfl]; push_cast; ring⟩
      have := F64.rounded_le g (show x + 1 / 2 ≤ N + 1 / 2 by linarith)
      linarith
    · have e : N = 2 ^ 52 := by omega
      have g : ∃ m e : ℤ, |m| < 2 ^ 53 ∧ -1074 ≤ e ∧ (N : ℚ) = m * pow2 e := F64.int_grid (by rw [abs_lt]; constructor <;> omega)
      obtain ⟨m, hm⟩ : ∃ m : ℤ, x = m * (1 / 2) := by
        have : pow2 51 ≤ |x| := by
          rw [show pow2 51 = 2 ^ 51 by norm_num [pow2_eq], abs_of_nonneg h0]
          have : (N : ℚ) = 2 ^ 52 := by exact_mod_cast e
          norm_num at this ⊢; linarith
        obtain ⟨m, hm⟩ := multiple (rep_grid hx) this
        exact ⟨m, by rw [hm]; rfl⟩
      have h5 : m < 2 ^ 53 := by
        have : (m : ℚ) < 2 ^ 53 := by rw [hm] at h1; norm_num at h1 ⊢; linarith
        exact_mod_cast this
      have h6 : (m : ℚ) + 1 ≤ 2 ^ 53 := by exact_mod_cast h5
      have h7 : (N : ℚ) = 2 ^ 52 := by exact_mod_cast e
      have := F64.rounded_le g (show x + 1 / 2 ≤ N by rw [hm, h7]; norm_num at h6 ⊢; linarith)
      linarith
  · have hN' : (N : ℚ) < x := not_le.1 hN
    rcases Nat.eq_zero_or_pos N.toNat with hz | hz
    · have hN0 : N = 0 := by omega
      subst hN0
      norm_num at b hN' ⊢
      have up : x < 1 / 2 := by linarith
      by_cases hq : x < 1 / 4
      · have := F64.rounded_le (g := 3 / 4) ⟨3, -2, by norm_num, by norm_num, by norm_num [pow2_eq]⟩ (show x + 1 / 2 ≤ 3 / 4 by linarith)
        linarith
      · obtain ⟨m, hm⟩ := multiple (rep_grid hx) (k := -2) (by rw [show pow2 (-2) = 1 / 4 by norm_num [pow2_eq], abs_of_nonneg h0]; linarith)
        have e25 : pow2 (-2 - 52) = 1 / 2 ^ 54 := by norm_num [pow2_eq]
        rw [e25] at hm
        have h5 : m < 2 ^ 53 := by
          have : (m : ℚ) < 2 ^ 53 := by rw [hm] at up; norm_num at up ⊢; linarith
          exact_mod_cast this
        have h6 : m ≠ 2 ^ 53 - 1 := by
          intro h; apply hb; rw [hm, h]; unfold bad; norm_num
        have h7 : m ≤ 2 ^ 53 - 2 := by omega
        have h8 : (m : ℚ) ≤ 2 ^ 53 - 2 := by exact_mod_cast h7
        have := F64.rounded_le (g := (2 ^ 53 - 1) / 2 ^ 53) ⟨2 ^ 53 - 1, -53, by norm_num, by norm_num, by norm_num [pow2_eq]⟩
          (show x + 1 / 2 ≤ (2 ^ 53 - 1) / 2 ^ 53 by rw [hm]; norm_num at h8 ⊢; linarith)
        norm_num at this ⊢
        linarith
    · have N1 : (1 : ℚ) ≤ N := by
        have : 1 ≤ N := by omega
        exact_mod_cast this
      have x0 : x ≠ 0 := by intro h; linarith
      obtain ⟨l1, l2⟩ := logTwo_spec x0
      rw [abs_of_nonneg h0] at l1 l2
      generalize logTwo x = k at *
      have k0 : 0 ≤ k := by
        by_contra hk
        have : pow2 (k + 1) ≤ pow2 0 := pow2_le (by omega)
        rw [show pow2 0 = 1 from rfl] at this
        linarith
      have k1 : k < 52 := by
        refine pow2_lt_iff.1 (lt_of_le_of_lt l1 ?_)
        rw [show pow2 52 = 2 ^ 52 by norm_num [pow2_eq]]; exact h1
      obtain ⟨m, hm⟩ := multiple (rep_grid hx) (k := k) (by rw [abs_of_nonneg h0]; exact l1)
      obtain ⟨d, hd⟩ := Int.eq_ofNat_of_zero_le (show 0 ≤ -1 - (k - 52) by omega)
      obtain ⟨j, hj⟩ := Int.eq_ofNat_of_zero_le k0
      have half : (1 / 2 : ℚ) = ((2 ^ d : ℕ) : ℚ) * pow2 (k - 52) := by
        rw [show (1 / 2 : ℚ) = pow2 (-1) from rfl, show (-1 : ℤ) = d + (k - 52) by omega, pow2_add]; congr 1
      have top : (N : ℚ) + 1 ≤ pow2 (k + 1) := by
        have e : pow2 (k + 1) = ((2 ^ (j + 1) : ℤ) : ℚ) := by rw [pow2_eq, hj]; push_cast; rw [← zpow_natCast]; push_cast; rfl
        rw [e] at l2 ⊢
        have : (N : ℚ) < ((2 ^ (j + 1) : ℤ) : ℚ) := by linarith
        have : N < 2 ^ (j + 1) := by exact_mod_cast this
        exact_mod_cast this
      have es : x + 1 / 2 = ((m + (2 ^ d : ℕ) : ℤ) : ℚ) * pow2 (k - 52) := by
        rw [half]; conv_lhs => rw [hm]
        push_cast; ring
      have hlt : |m + (2 ^ d : ℕ)| < 2 ^ 53 := by
        have hp := pow2_pos (k - 52)
        have h5 : ((m + (2 ^ d : ℕ) : ℤ) : ℚ) * pow2 (k - 52) < pow2 53 * pow2 (k - 52) := by
          rw [← es, ← pow2_add, show 53 + (k - 52) = k + 1 by ring]; linarith
        have h6 := lt_of_mul_lt_mul_right h5 hp.le
        rw [show pow2 53 = ((2 ^ 53 : ℤ) : ℚ) from rfl] at h6
        have h7 : m + (2 ^ d : ℕ) < 2 ^ 53 := by exact_mod_cast h6
        have h8 : (0 : ℚ) ≤ ((m + (2 ^ d : ℕ) : ℤ) : ℚ) := by
          by_contra hc
          have : x + 1 / 2 < 0 := by rw [es]; nlinarith [not_le.1 hc]
          linarith
        have h9 : 0 ≤ m + (2 ^ d : ℕ) := by exact_mod_cast h8
        rw [abs_lt]; constructor <;> omega
      rw [F64.rounded_eq hlt (by omega) es]
      exact b

/-- What `zpl_round64` does, from the rounded sum. -/
theorem round_core {y : ℚ} {n : ℤ} (h0 : 0 ≤ y) (h1 : y ≤ 2 ^ 62) (a : (n : ℚ) ≤ F64.rounded (y + 1 / 2)) (b : F64.rounded (y + 1 / 2) < n + 1) :
    round64 (.fin y) = .ok (.fin n) ∧ (0 < y → round64 (.fin (-y)) = .ok (.fin (-n : ℤ))) := by
  have half : F64.Representable (1 / 2) := ⟨1, -1, by norm_num, by norm_num, by norm_num, by norm_num [pow2_eq]⟩
  have s0 : 1 / 2 ≤ F64.rounded (y + 1 / 2) := F64.le_rounded (rep_grid half) (by linarith)
  have s1 : F64.rounded (y + 1 / 2) ≤ 2 ^ 62 + 2 ^ 10 := F64.rounded_le (g := 2 ^ 62 + 2 ^ 10) ⟨2 ^ 52 + 1, 10, by norm_num, by norm_num, by norm_num [pow2_eq]⟩ (by linarith)
  have small : |y + 1 / 2| ≤ pow2 1023 := by
    rw [abs_of_nonneg (by linarith)]
    refine le_trans ?_ (pow2_le (show (63 : ℤ) ≤ 1023 by norm_num))
    rw [show pow2 63 = 2 ^ 63 by norm_num [pow2_eq]]
    norm_num at h1 ⊢; linarith
  have rep := F64.round_representable (round_small small)
  have n0 : 0 ≤ n := by
    have : (-1 : ℚ) < n := by linarith
    have : -1 < n := by exact_mod_cast this
    omega
  have n1 : n < 2 ^ 63 := by
    have : (n : ℚ) < 2 ^ 63 := by norm_num at s1 ⊢; linarith
    exact_mod_cast this
  constructor
  · unfold round64
    rw [nonneg64_fin, decide_eq_true h0, if_pos rfl]
    change floor64 (F64.round (y + 1 / 2)) = _
    rw [round_small small]
    unfold floor64
    rw [nonneg64_fin, decide_eq_true (by linarith), if_pos rfl, toInt64_fin (trunc_nonneg (by linarith) a b) (by omega) n1]
    change Except.ok (F64.ofInt n) = _
    rw [ofInt_near rep (by rw [abs_lt]; constructor <;> linarith)]
  · intro hy
    have e : -y - 1 / 2 = -(y + 1 / 2) := by ring
    unfold round64
    rw [nonneg64_fin, decide_eq_false (by linarith), if_neg Bool.false_ne_true, sub_fin64, round_small (by rw [e, abs_neg]; exact small), e, rounded_neg]
    unfold ceil64
    rw [show ∀ q, F64.lt (.fin q) (.fin 0) = decide (q < 0) from fun _ => rfl, decide_eq_true (by linarith), if_pos rfl,
      toInt64_fin (n := -n) (trunc_neg (by linarith) (by push_cast; linarith) (by push_cast; linarith)) (by omega) (by omega)]
    change Except.ok (F64.ofInt (-n)) = _
    rw [ofInt_near (rep_neg rep) (by rw [abs_lt]; push_cast; constructor <;> linarith)]

/-- The sum for a whole number from `2 ^ 52` to `2 ^ 53` lies halfway between two numbers of the type. -/
theorem sum_large {n : ℤ} (h0 : 2 ^ 52 ≤ n) (h1 : n < 2 ^ 53) : F64.rounded ((n : ℚ) + 1 / 2) = ((if n % 2 = 0 then n else n + 1 : ℤ) : ℚ) := by
  have q0 : (2 : ℚ) ^ 52 ≤ n := by exact_mod_cast h0
  have q1 : (n : ℚ) + 1 ≤ 2 ^ 53 := by exact_mod_cast h1
  have hne : (n : ℚ) + 1 / 2 ≠ 0 := by intro h; norm_num at q0; linarith
  obtain ⟨l1, l2⟩ := logTwo_spec hne
  rw [abs_of_nonneg (by norm_num at q0; linarith)] at l1 l2
  have k1 : logTwo ((n : ℚ) + 1 / 2) < 53 := by
    refine pow2_lt_iff.1 (lt_of_le_of_lt l1 ?_)
    rw [show pow2 53 = 2 ^ 53 by norm_num [pow2_eq]]; linarith
  have k2 : 52 < logTwo ((n : ℚ) + 1 / 2) + 1 := by
    refine pow2_lt_iff.1 (lt_of_le_of_lt ?_ l2)
    rw [show pow2 52 = 2 ^ 52 by norm_num [pow2_eq]]; linarith
  have k : logTwo ((n : ℚ) + 1 / 2) = 52 := by omega
  have hp : F64.place ((n : ℚ) + 1 / 2) = 0 := by unfold F64.place; rw [k]; rfl
  unfold F64.rounded
  rw [hp, show pow2 0 = 1 from rfl, div_one, mul_one]
  congr 1
  unfold nearest
  dsimp only
  rw [floor_eq (n := n) (by linarith) (by linarith), if_neg (by linarith), if_neg (by linarith)]

/-- From `2 ^ 53` on the half is lost. -/
theorem sum_huge {x : ℚ} (hx : F64.Representable x) (h : 2 ^ 53 ≤ x) : F64.rounded (x + 1 / 2) = x := by
  have p24 : pow2 53 = 2 ^ 53 := by norm_num [pow2_eq]
  have x0 : 0 ≤ x := le_trans (by norm_num) h
  have lo := F64.le_rounded (rep_grid hx) (show x ≤ x + 1 / 2 by linarith)
  obtain ⟨m, e, hm, he, ex⟩ := (rep_grid hx)
  have near := F64.rounded_nearest (x + 1 / 2) hm he
  rw [← ex, show x - (x + 1 / 2) = -(1 / 2) by ring, abs_neg, abs_of_nonneg (by norm_num : (0 : ℚ) ≤ 1 / 2)] at near
  have up := (abs_le.1 near).2
  obtain ⟨i, hi⟩ := multiple (rep_grid hx) (k := 53) (by rw [p24, abs_of_nonneg x0]; exact h)
  obtain ⟨j, hj⟩ := multiple (F64.rounded_grid (x + 1 / 2)) (k := 53) (by rw [p24, abs_of_nonneg (by linarith)]; linarith)
  rw [show pow2 (53 - 52) = 2 from rfl] at hi hj
  rw [hj] at lo up ⊢
  have a : (i : ℚ) ≤ j := by linarith
  have b : (j : ℚ) < i + 1 := by linarith
  have a' : i ≤ j := by exact_mod_cast a
  have b' : j < i + 1 := by exact_mod_cast b
  have : i = j := by omega
  rw [hi, this]

/-- C146: `zpl_round64` gives the nearest whole number, halves away from zero, for every number of the type up to `2 ^ 62` but the one before a half and the odd whole numbers
from `2 ^ 52` to `2 ^ 53`, and their negatives.  For those see `C146_round64_misses`. -/
theorem C146_round64_partial {x : ℚ} (hx : F64.Representable x) (h : |x| ≤ 2 ^ 62) (hb : |x| ≠ bad) (ho : ∀ n : ℤ, 2 ^ 52 ≤ n → n < 2 ^ 53 → n % 2 = 1 → |x| ≠ n) :
    ∃ n : ℤ, round64 (.fin x) = .ok (.fin n) ∧ IsNearest x n := by
  have key : ∀ {y : ℚ}, F64.Representable y → 0 ≤ y → y ≤ 2 ^ 62 → y ≠ bad → (∀ n : ℤ, 2 ^ 52 ≤ n → n < 2 ^ 53 → n % 2 = 1 → y ≠ n) →
      ∃ n : ℤ, (n : ℚ) ≤ F64.rounded (y + 1 / 2) ∧ F64.rounded (y + 1 / 2) < n + 1 ∧ (n : ℚ) ≤ y + 1 / 2 ∧ y + 1 / 2 < n + 1 := by
    intro y hy h0 h1 hb ho
    rcases lt_or_ge y (2 ^ 52) with hs | hs
    · obtain ⟨a, b⟩ := sum_floor hy h0 hs hb
      exact ⟨_, a, b, Int.floor_le _, Int.lt_floor_add_one _⟩
    · obtain ⟨n, rfl⟩ := whole hy (by rw [abs_of_nonneg h0]; exact hs)
      refine ⟨n, ?_⟩
      have e : F64.rounded ((n : ℚ) + 1 / 2) = n := by
        rcases lt_or_ge n (2 ^ 53) with hl | hl
        · have h23 : 2 ^ 52 ≤ n := by exact_mod_cast hs
          rw [sum_large h23 hl, if_pos]
          by_contra hc
          exact ho n h23 hl (by omega) rfl
        · exact sum_huge hy (by exact_mod_cast hl)
      rw [e]
      refine ⟨le_rfl, by linarith, by linarith, by linarith⟩
  have habs : F64.Representable |x| := by
    rcases abs_choice x with e | e <;> rw [e]
    · exact hx
    · exact rep_neg hx
  obtain ⟨n, a, b, c, d⟩ := key habs (abs_nonneg x) h hb ho
  obtain ⟨r1, r2⟩ := round_core (abs_nonneg x) h a b
  rcases le_or_gt 0 x with h0 | h0
  · rw [abs_of_nonneg h0] at r1 c d
    refine ⟨n, r1, by rw [abs_le]; constructor <;> linarith, fun ht => ?_⟩
    have hn : x < n := by
      rcases abs_choice (x - n) with e | e <;> rw [e] at ht <;> linarith
    rw [abs_of_nonneg h0, abs_of_nonneg (by linarith)]
    exact hn
  · rw [abs_of_neg h0] at r2 c d
    rw [neg_neg] at r2
    refine ⟨-n, r2 (by linarith), by push_cast; rw [abs_le]; constructor <;> linarith, fun ht => ?_⟩
    have hn : -x < n := by
      push_cast at ht
      rcases abs_choice (x - -(n : ℚ)) with e | e <;> rw [e] at ht <;> linarith
    push_cast
    rw [abs_of_neg h0, abs_neg, abs_of_nonneg (by linarith)]
    exact hn

/-- C146: the number before a half becomes 1, and every odd whole number from `2 ^ 52` to `2 ^ 53` the next even one; so also for their negatives. -/
theorem C146_round64_misses : F64.Representable bad ∧ bad < 1 / 2 ∧ round64 (.fin bad) = .ok (.fin 1) ∧ round64 (.fin (-bad)) = .ok (.fin (-1)) ∧
    ∀ n : ℤ, 2 ^ 52 ≤ n → n < 2 ^ 53 → n % 2 = 1 → round64 (.fin n) = .ok (.fin (n + 1 : ℤ)) ∧ round64 (.fin (-n : ℤ)) = .ok (.fin (-(n + 1) : ℤ)) := by
  refine ⟨⟨2 ^ 53 - 1, -54, by norm_num, by norm_num, by norm_num, by norm_num [pow2_eq, bad]⟩, by norm_num [bad], by decide +kernel, by decide +kernel, fun n h0 h1 ho => ?_⟩
  have e := sum_large h0 h1
  rw [if_neg (by omega)] at e
  have q0 : (2 : ℚ) ^ 52 ≤ n := by exact_mod_cast h0
  have q1 : (n : ℚ) ≤ 2 ^ 53 := by exact_mod_cast h1.le
  obtain ⟨r1, r2⟩ := round_core (y := n) (n := n + 1) (by norm_num at q0; linarith) (by norm_num at q1 ⊢; linarith) (by rw [e]) (by rw [e]; linarith)
  refine ⟨r1, ?_⟩
  have := r2 (by norm_num at q0; linarith)
  push_cast at this ⊢
  exact this

/-! ### Negative numbers -/

theorem floor64_negative {x : ℚ} {n : ℤ} (h0 : x < 0) (h1 : -2 ^ 52 ≤ x) (a : F64.rounded (x - (1 - 1 / 2 ^ 53)) ≤ n) (b : (n : ℚ) < F64.rounded (x - (1 - 1 / 2 ^ 53)) + 1) :
    floor64 (.fin x) = .ok (.fin n) := by
  have lo : ((-2 ^ 52 - 1 : ℤ) : ℚ) ≤ F64.rounded (x - (1 - 1 / 2 ^ 53)) := F64.le_rounded (F64.int_grid (by norm_num)) (by norm_num at h1 ⊢; linarith)
  have up : F64.rounded (x - (1 - 1 / 2 ^ 53)) ≤ -1 / 2 := F64.rounded_le ⟨-1, -1, by norm_num, by norm_num, by norm_num [pow2_eq]⟩ (by norm_num; linarith)
  have n0 : -2 ^ 52 - 1 ≤ n := by
    have : ((-2 ^ 52 - 1 : ℤ) : ℚ) ≤ n := le_trans lo a
    exact_mod_cast this
  have n1 : n ≤ 0 := by
    have : (n : ℚ) < (1 : ℤ) := by push_cast; linarith
    have : n < 1 := by exact_mod_cast this
    omega
  unfold floor64
  rw [nonneg64_fin, decide_eq_false (not_le.2 h0), if_neg Bool.false_ne_true, literal64, sub_fin64, F64.round_fin (by
    rw [show pow2 100 = 2 ^ 100 by norm_num [pow2_eq], abs_le]
    norm_num at h1 ⊢
    constructor <;> linarith), toInt64_fin (trunc_neg (by linarith) a b) (by omega) (by omega)]
  change Except.ok (F64.ofInt n) = _
  rw [F64.ofInt_eq (by rw [abs_lt]; constructor <;> omega)]

theorem below_two : F64.rounded (-2 + 1 / 2 ^ 53) = -2 := by decide +kernel

theorem below_one : F64.rounded (-1 + 1 / 2 ^ 54) = -1 := by decide +kernel

theorem diff_le {x : ℚ} (h0 : x ≤ -1 / 2 ^ 54) (h1 : -2 ^ 52 ≤ x) : F64.rounded (x - (1 - 1 / 2 ^ 53)) ≤ ⌊x⌋ := by
  have neg : x < 0 := by norm_num at h0; linarith
  have b := Int.lt_floor_add_one x
  have l : -2 ^ 52 ≤ ⌊x⌋ := Int.le_floor.2 (by push_cast; exact h1)
  have n0 : ⌊x⌋ < 0 := Int.floor_lt.2 (by exact_mod_cast neg)
  rcases eq_or_ne ⌊x⌋ (-1) with h | h
  · rw [h, show ((-1 : ℤ) : ℚ) = -1 by norm_num, ← below_one]
    refine F64.rounded_mono ?_
    norm_num at h0 ⊢; linarith
  rcases eq_or_ne ⌊x⌋ (-2) with h' | h'
  · rw [h'] at b ⊢
    rw [show ((-2 : ℤ) : ℚ) = -2 by norm_num, ← below_two]
    refine F64.rounded_mono ?_
    norm_num at b ⊢; linarith
  · rw [← spacing64 (n := ⌊x⌋) (by omega) l]
    refine F64.rounded_mono ?_
    norm_num; linarith

/-- If a number of the type lies `s` above `a`, a number less than half of that away from it is not rounded to `a` or below. -/
theorem above {q a s : ℚ} (hg : ∃ m e : ℤ, |m| < 2 ^ 53 ∧ -1074 ≤ e ∧ a + s = m * pow2 e) (h : a + s / 2 < q) (hs : 0 < s) : a < F64.rounded q := by
  rcases le_or_gt (a + s) q with h1 | h1
  · have := F64.le_rounded hg h1
    linarith
  · obtain ⟨m, e, hm, he, hg⟩ := hg
    have near := F64.rounded_nearest q hm he
    rw [← hg, abs_of_pos (a := a + s - q) (by linarith)] at near
    have := (abs_le.1 near).1
    linarith

theorem lt_diff {x : ℚ} (hx : F64.Representable x) (h0 : x < 0) (h1 : -2 ^ 52 ≤ x) (hw : ∀ n : ℤ, x ≠ n) : ((⌊x⌋ - 1 : ℤ) : ℚ) < F64.rounded (x - (1 - 1 / 2 ^ 53)) := by
  have a := Int.floor_le x
  have b := Int.lt_floor_add_one x
  have c := lt_of_le_of_ne a (Ne.symm (hw _))
  have l : -2 ^ 52 ≤ ⌊x⌋ := Int.le_floor.2 (by push_cast; exact h1)
  rcases lt_or_ge (-1) x with hs | hs
  · have hf : ⌊x⌋ = -1 := Int.floor_eq_iff.2 ⟨by push_cast; linarith, by push_cast; linarith⟩
    rw [hf]
    refine above (s := 1 / 2 ^ 52) ⟨-(2 ^ 53 - 1), -52, by norm_num, by norm_num, by norm_num [pow2_eq]⟩ ?_ (by norm_num)
    norm_num; linarith
  · generalize ⌊x⌋ = f at a b c l ⊢
    obtain ⟨l1, l2⟩ := logTwo_spec h0.ne
    generalize logTwo x = j at l1 l2
    have j0 : 0 < j + 1 := by
      refine pow2_lt_iff.1 (lt_of_le_of_lt ?_ l2)
      rw [show pow2 0 = 1 from rfl, abs_of_neg h0]; linarith
    have j1 : j < 52 := by
      refine pow2_lt_iff.1 (lt_of_le_of_lt l1 ?_)
      rw [show pow2 52 = 2 ^ 52 by norm_num [pow2_eq], abs_of_neg h0]
      have : (-2 ^ 52 : ℚ) ≠ x := fun h => hw (-2 ^ 52) (by rw [← h]; norm_num)
      have := lt_of_le_of_ne h1 this
      linarith
    obtain ⟨m, hm⟩ := multiple (rep_grid hx) l1
    obtain ⟨d, hd⟩ := Int.eq_ofNat_of_zero_le (show 0 ≤ 51 - j by omega)
    have hp := pow2_pos (j - 52)
    have one : (2 : ℚ) ^ (d + 1) * pow2 (j - 52) = 1 := by
      rw [show j - 52 = -((d + 1 : ℕ) : ℤ) by push_cast; omega, pow2_eq, zpow_neg, zpow_natCast]
      exact mul_inv_cancel₀ (by positivity)
    have two : pow2 (j - 51) = 2 * pow2 (j - 52) := by rw [show j - 51 = 1 + (j - 52) by omega, pow2_add]; rfl
    have k : (f : ℚ) = ((f * 2 ^ (d + 1) : ℤ) : ℚ) * pow2 (j - 52) := by push_cast; rw [mul_assoc, one, mul_one]
    have low : (f : ℚ) + pow2 (j - 52) ≤ x := by
      have h2 : ((f * 2 ^ (d + 1) : ℤ) : ℚ) < m := by
        rw [k, hm] at c
        exact lt_of_mul_lt_mul_right c hp.le
      clear l1 l2 a b
      rw [k, hm]
      generalize f * 2 ^ (d + 1) = i at h2 ⊢
      have h3 : i + 1 ≤ m := Int.cast_lt.1 h2
      have h4 : (i : ℚ) + 1 ≤ m := by exact_mod_cast h3
      nlinarith
    refine above (s := pow2 (j - 51)) ⟨(f - 1) * 2 ^ d + 1, j - 51, ?_, by omega, ?_⟩ ?_ (pow2_pos _)
    · have big : (2 : ℚ) ^ d * pow2 j = 2 ^ 51 := by
        rw [show j = 51 - (d : ℤ) by omega, pow2_eq, zpow_sub₀ (by norm_num), zpow_natCast]
        field_simp
      have dl : (2 : ℚ) ^ d ≤ 2 ^ 51 := pow_le_pow_right₀ (by norm_num) (by omega)
      have dp : (0 : ℚ) < 2 ^ d := by positivity
      have f1 : -(2 * pow2 j) - 1 < (f : ℚ) := by
        rw [pow2_add, show pow2 1 = 2 from rfl, abs_of_neg h0] at l2
        linarith
      have f2 : (f : ℚ) < 0 := by linarith
      have g : |((((f - 1) * 2 ^ d + 1 : ℤ)) : ℚ)| < ((2 ^ 53 : ℤ) : ℚ) := by
        push_cast
        rw [abs_lt]
        constructor
        · have : (f : ℚ) * 2 ^ d > (-(2 * pow2 j) - 1) * 2 ^ d := by nlinarith
          have e : (-(2 * pow2 j) - 1) * 2 ^ d = -(2 * (2 ^ d * pow2 j)) - 2 ^ d := by ring
          rw [e, big] at this
          norm_num at this dl ⊢
          linarith
        · have : (f : ℚ) * 2 ^ d < 0 := by nlinarith
          norm_num
          linarith
      rw [← Int.cast_abs] at g
      exact Int.cast_lt.1 g
    · have half : (2 : ℚ) ^ d * pow2 (j - 51) = 1 := by rw [two]; rw [pow_succ] at one; linarith
      push_cast
      rw [add_mul, mul_assoc, half, one_mul, mul_one]
    · rw [two]
      push_cast
      norm_num
      linarith

/-- C146: for a negative number that is not whole `zpl_floor64` is right, but next to zero (see `C146_floor64_tiny`).  For whole numbers it is not, see `C146_floor64_whole`. -/
theorem C146_floor64_negative_partial {x : ℚ} (hx : F64.Representable x) (h0 : x ≤ -1 / 2 ^ 54) (h1 : -2 ^ 52 ≤ x) (hw : ∀ n : ℤ, x ≠ n) :
    ∃ n : ℤ, floor64 (.fin x) = .ok (.fin n) ∧ IsFloor x n := by
  have neg : x < 0 := by norm_num at h0; linarith
  have := lt_diff hx neg h1 hw
  push_cast at this
  exact ⟨⌊x⌋, floor64_negative neg h1 (diff_le h0 h1) (by linarith), Int.floor_le x, Int.lt_floor_add_one x⟩

/-- C146: from `-2 ^ 53` down the numbers of the type are whole, and their floor is right again. -/
theorem C146_floor64_large {x : ℚ} (hx : F64.Representable x) (h0 : x ≤ -2 ^ 53) (h1 : -2 ^ 63 ≤ x) : floor64 (.fin x) = .ok (.fin x) := by
  have p53 : pow2 53 = 2 ^ 53 := by norm_num [pow2_eq]
  have x0 : x < 0 := lt_of_le_of_lt h0 (by norm_num)
  have up := F64.rounded_le (rep_grid hx) (show x - (1 - 1 / 2 ^ 53) ≤ x by norm_num)
  have r : F64.rounded (x - (1 - 1 / 2 ^ 53)) = x := by
    obtain ⟨m, e, hm, he, ex⟩ := rep_grid hx
    have near := F64.rounded_nearest (x - (1 - 1 / 2 ^ 53)) hm he
    rw [← ex, show x - (x - (1 - 1 / 2 ^ 53)) = 1 - 1 / 2 ^ 53 by ring, abs_of_nonneg (by norm_num : (0 : ℚ) ≤ 1 - 1 / 2 ^ 53)] at near
    have lo := (abs_le.1 near).1
    obtain ⟨i, hi⟩ := multiple (rep_grid hx) (k := 53) (by rw [p53, abs_of_neg x0]; linarith)
    obtain ⟨j, hj⟩ := multiple (F64.rounded_grid (x - (1 - 1 / 2 ^ 53))) (k := 53) (by rw [p53, abs_of_neg (by linarith)]; linarith)
    rw [show pow2 (53 - 52) = 2 from rfl] at hi hj
    rw [hj] at lo up ⊢
    have a : (j : ℚ) ≤ i := by linarith
    have b : (i : ℚ) - 1 < j := by norm_num at lo; linarith
    have b2 : ((i - 1 : ℤ) : ℚ) < j := by push_cast; exact b
    have a' : j ≤ i := by exact_mod_cast a
    have b' : i - 1 < j := by exact_mod_cast b2
    rw [hi, show j = i by omega]
  obtain ⟨n, rfl⟩ := whole hx (by rw [abs_of_neg x0]; norm_num at h0 ⊢; linarith)
  have n0 : -2 ^ 63 ≤ n := by exact_mod_cast h1
  have n1 : n < 0 := by exact_mod_cast x0
  unfold floor64
  rw [nonneg64_fin, decide_eq_false (not_le.2 x0), if_neg Bool.false_ne_true, literal64, sub_fin64, F64.round_fin (by
    rw [show pow2 100 = 2 ^ 100 by norm_num [pow2_eq], abs_le]
    norm_num at h1 ⊢
    constructor <;> linarith), r, toInt64_fin (trunc_int _) (by omega) (by omega)]
  change Except.ok (F64.ofInt n) = _
  rw [ofInt_near hx (by simp)]

/-- C146: of the negative numbers next to zero the floor is given as zero. -/
theorem C146_floor64_tiny {x : ℚ} (h0 : x < 0) (h1 : -1 / 2 ^ 54 < x) : floor64 (.fin x) = .ok (.fin 0) ∧ IsFloor x (-1) := by
  refine ⟨?_, by push_cast; norm_num at h1 ⊢; linarith, by push_cast; linarith⟩
  have near := F64.rounded_nearest (x - (1 - 1 / 2 ^ 53)) (m := -(2 ^ 53 - 1)) (e := -53) (by norm_num) (by norm_num)
  rw [show ((-(2 ^ 53 - 1) : ℤ) : ℚ) * pow2 (-53) - (x - (1 - 1 / 2 ^ 53)) = -x by norm_num [pow2_eq]; ring, abs_of_pos (a := -x) (by linarith)] at near
  have := floor64_negative (n := 0) h0 (by norm_num at h1 ⊢; linarith) (by have := (abs_le.1 near).2; norm_num at this h1 ⊢; linarith)
    (by have := (abs_le.1 near).1; norm_num at this h1 ⊢; linarith)
  simpa using this

/-! ### The hypotheses can be met -/

/-- -1.5 -/
example : ∃ n : ℤ, floor64 (.fin (-3 / 2)) = .ok (.fin n) ∧ IsFloor (-3 / 2) n :=
  C146_floor64_negative_partial ⟨-3, -1, by norm_num, by norm_num, by norm_num, by norm_num [pow2_eq]⟩ (by norm_num) (by norm_num) (fun n h => by
    have h2 : ((2 * n : ℤ) : ℚ) = ((-3 : ℤ) : ℚ) := by push_cast; linarith
    have h3 : 2 * n = -3 := by exact_mod_cast h2
    omega)

/-- A hundred-thousandth of a billionth of a billionth below zero. -/
example : floor64 (.fin (-1 / 10 ^ 23)) = .ok (.fin 0) := (C146_floor64_tiny (by norm_num) (by norm_num)).1

/-- Seven and a quarter. -/
example : ∃ n : ℤ, round64 (.fin (29 / 4)) = .ok (.fin n) ∧ IsNearest (29 / 4) n := by
  have h : |(29 / 4 : ℚ)| = 29 / 4 := abs_of_nonneg (by norm_num)
  refine C146_round64_partial ⟨29, -2, by norm_num, by norm_num, by norm_num, by norm_num [pow2_eq]⟩ (by rw [h]; norm_num) (by rw [h]; norm_num [bad]) (fun n h0 _ _ e => ?_)
  rw [h] at e
  have : (2 : ℚ) ^ 52 ≤ n := by exact_mod_cast h0
  rw [← e] at this
  norm_num at this

end Zpl.RoundD
