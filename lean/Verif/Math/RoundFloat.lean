import Verif.Math.Single

/-!
# Rounding to whole numbers in single and double precision (code/source/math.c:63-65, 259-261)  -  C146

`Math/Round` has the same functions over exact numbers (C105).  Here the additions and subtractions inside them are rounded as `float` and `double` are.

## Model -/

namespace Zpl.RoundF

open F64 (pow2 nearest logTwo pow2_eq pow2_pos pow2_add pow2_le pow2_lt_iff logTwo_spec nearest_near nearest_int)

/-- Dropping the fraction. -/
def trunc (q : ℚ) : ℤ := if 0 ≤ q then q.floor else -(-q).floor

/-- `(int)x`: undefined when the whole part does not fit (C11 6.3.1.4). -/
def toInt : F32 → Except Fault ℤ
  | .fin q => if -2 ^ 31 ≤ trunc q ∧ trunc q < 2 ^ 31 then .ok (trunc q) else .error .arith
  | _ => .error .arith

/-- `x >= 0.0f` -/
def nonneg : F32 → Bool
  | .fin q => decide (0 ≤ q)
  | .inf negative => !negative
  | .nan => false

/-- math.c:259 `zpl_floor`. -/
def floor (x : F32) : Except Fault F32 := do
  let n ← if nonneg x then toInt x else toInt (F32.sub x (F32.round (9999999999999999 / 10 ^ 16)))
  pure (F32.ofInt n)

/-- math.c:260 `zpl_ceil`.  The addition of 1 is done on `int`s. -/
def ceil (x : F32) : Except Fault F32 := do
  if F32.lt x (.fin 0) then
    let n ← toInt x
    pure (F32.ofInt n)
  else
    let n ← toInt x
    if n + 1 < 2 ^ 31 then pure (F32.ofInt (n + 1)) else .error .arith

/-- math.c:258 `zpl_round`. -/
def round (x : F32) : Except Fault F32 :=
  if nonneg x then floor (F32.add x (.fin (1 / 2))) else ceil (F32.sub x (.fin (1 / 2)))

/-- `(zpl_i64)x` -/
def toInt64 : F64 → Except Fault ℤ
  | .fin q => if -2 ^ 63 ≤ trunc q ∧ trunc q < 2 ^ 63 then .ok (trunc q) else .error .arith
  | _ => .error .arith

/-- `x >= 0.0` -/
def nonneg64 : F64 → Bool
  | .fin q => decide (0 ≤ q)
  | .inf negative => !negative
  | .nan => false

/-- math.c:63 `zpl_floor64`. -/
def floor64 (x : F64) : Except Fault F64 := do
  let n ← if nonneg64 x then toInt64 x else toInt64 (F64.sub x (F64.round (9999999999999999 / 10 ^ 16)))
  pure (F64.ofInt n)

/-- math.c:64 `zpl_ceil64`. -/
def ceil64 (x : F64) : Except Fault F64 := do
  if F64.lt x (.fin 0) then
    let n ← toInt64 x
    pure (F64.ofInt n)
  else
    let n ← toInt64 x
    if n + 1 < 2 ^ 63 then pure (F64.ofInt (n + 1)) else .error .arith

/-! ## Specification -/

/-- `n` is the greatest whole number not above `x`. -/
def IsFloor (x : ℚ) (n : ℤ) : Prop := (n : ℚ) ≤ x ∧ x < n + 1

/-- `n` is the least whole number not below `x`. -/
def IsCeil (x : ℚ) (n : ℤ) : Prop := x ≤ n ∧ (n : ℚ) < x + 1

/-- `n` is the whole number nearest to `x`, halves away from zero. -/
def IsNearest (x : ℚ) (n : ℤ) : Prop := |x - n| ≤ 1 / 2 ∧ (|x - n| = 1 / 2 → |x| < |(n : ℚ)|)

/-! ## Lemmas -/

theorem floor_eq {q : ℚ} {n : ℤ} (h1 : (n : ℚ) ≤ q) (h2 : q < n + 1) : q.floor = n := by
  change ⌊q⌋ = n
  exact Int.floor_eq_iff.2 ⟨h1, h2⟩

theorem trunc_nonneg {q : ℚ} (h : 0 ≤ q) {n : ℤ} (h1 : (n : ℚ) ≤ q) (h2 : q < n + 1) : trunc q = n := by
  unfold trunc; rw [if_pos h, floor_eq h1 h2]

theorem trunc_neg {q : ℚ} (h : q < 0) {n : ℤ} (h1 : q ≤ n) (h2 : (n : ℚ) < q + 1) : trunc q = n := by
  unfold trunc
  rw [if_neg (not_le.2 h), floor_eq (n := -n) (by push_cast; linarith) (by push_cast; linarith), neg_neg]

theorem trunc_int (n : ℤ) : trunc n = n := by
  by_cases h : (0 : ℚ) ≤ n
  · exact trunc_nonneg h le_rfl (by linarith)
  · exact trunc_neg (not_le.1 h) le_rfl (by linarith)

theorem toInt_fin {q : ℚ} {n : ℤ} (h : trunc q = n) (h1 : -2 ^ 31 ≤ n) (h2 : n < 2 ^ 31) : toInt (.fin q) = .ok n := by
  simp only [toInt]; rw [h, if_pos ⟨h1, h2⟩]

theorem toInt64_fin {q : ℚ} {n : ℤ} (h : trunc q = n) (h1 : -2 ^ 63 ≤ n) (h2 : n < 2 ^ 63) : toInt64 (.fin q) = .ok n := by
  simp only [toInt64]; rw [h, if_pos ⟨h1, h2⟩]

/-- The literal of `zpl_floor` is 1. -/
theorem literal : F32.round (9999999999999999 / 10 ^ 16) = .fin 1 := by decide +kernel

/-- The literal of `zpl_floor64` is the number before 1. -/
theorem literal64 : F64.round (9999999999999999 / 10 ^ 16) = .fin (1 - 1 / 2 ^ 53) := by decide +kernel

/-- A number of the type that is at least `2 ^ k` is a multiple of `2 ^ (k - 23)`. -/
theorem multiple {x : ℚ} (hx : ∃ m e : ℤ, |m| < 2 ^ 24 ∧ -149 ≤ e ∧ x = m * pow2 e) {k : ℤ} (h : pow2 k ≤ |x|) : ∃ m : ℤ, x = m * pow2 (k - 23) := by
  obtain ⟨m, e, hm, -, rfl⟩ := hx
  have h1 : (|(m : ℚ)|) < pow2 24 := by
    rw [show pow2 24 = ((2 ^ 24 : ℤ) : ℚ) from rfl]
    exact_mod_cast hm
  have hp := pow2_pos e
  rw [abs_mul, abs_of_pos hp] at h
  have h2 : pow2 k < pow2 (24 + e) := by rw [pow2_add]; nlinarith
  have h3 := pow2_lt_iff.1 h2
  obtain ⟨d, hd⟩ := Int.eq_ofNat_of_zero_le (show 0 ≤ e - (k - 23) by omega)
  refine ⟨m * (2 ^ d : ℕ), ?_⟩
  rw [show e = (d : ℤ) + (k - 23) by omega, pow2_add]
  push_cast
  rw [show pow2 (d : ℤ) = 2 ^ d by rw [pow2_eq]; simp]
  ring

theorem whole {x : ℚ} (hx : F32.Representable x) (h : 2 ^ 23 ≤ |x|) : ∃ n : ℤ, x = n := by
  obtain ⟨m, hm⟩ := multiple hx.grid (k := 23) (by rw [show pow2 23 = 2 ^ 23 by norm_num [pow2_eq]]; exact h)
  exact ⟨m, by rw [hm, show pow2 (23 - 23) = 1 from rfl, mul_one]⟩

/-- Converting the whole part back is exact. -/
theorem ofInt_near {x : ℚ} {n : ℤ} (hx : F32.Representable x) (h : |x - n| < 1) : F32.ofInt n = .fin n := by
  rw [abs_lt] at h
  by_cases hn : |n| < 2 ^ 24
  · exact F32.ofInt_eq hn
  · have h3 : (2 : ℚ) ^ 24 ≤ |(n : ℚ)| := by
      have : (2 : ℤ) ^ 24 ≤ |n| := not_lt.1 hn
      exact_mod_cast this
    have h4 : (2 : ℚ) ^ 23 ≤ |x| := by
      rcases le_abs.1 h3 with h3 | h3
      · exact le_abs.2 (Or.inl (by norm_num at h3 ⊢; linarith))
      · exact le_abs.2 (Or.inr (by norm_num at h3 ⊢; linarith))
    obtain ⟨m, rfl⟩ := whole hx h4
    have : m = n := by
      have a : (m : ℚ) < (n + 1 : ℤ) := by push_cast; linarith
      have b : ((n - 1 : ℤ) : ℚ) < m := by push_cast; linarith
      have a' : m < n + 1 := by exact_mod_cast a
      have b' : n - 1 < m := by exact_mod_cast b
      omega
    rw [← this]
    exact F32.round_rep hx

theorem nonneg_fin (q : ℚ) : nonneg (.fin q) = decide (0 ≤ q) := rfl

theorem sub_fin (a b : ℚ) : F32.sub (.fin a) (.fin b) = F32.round (a - b) := by
  change F32.round (a + -b) = _
  rw [sub_eq_add_neg]

theorem sub_fin64 (a b : ℚ) : F64.sub (.fin a) (.fin b) = F64.round (a - b) := by
  change F64.round (a + -b) = _
  rw [sub_eq_add_neg]

/-! ## C146 -/

/-- C146: `zpl_floor` is right for numbers that are not negative. -/
theorem C146_floor {x : ℚ} (hx : F32.Representable x) (h0 : 0 ≤ x) (h1 : x < 2 ^ 31) : ∃ n : ℤ, floor (.fin x) = .ok (.fin n) ∧ IsFloor x n := by
  have a := Int.floor_le x
  have b := Int.lt_floor_add_one x
  have c : ⌊x⌋ < 2 ^ 31 := by
    have : (⌊x⌋ : ℚ) < 2 ^ 31 := lt_of_le_of_lt a h1
    exact_mod_cast this
  have d : 0 ≤ ⌊x⌋ := Int.floor_nonneg.2 h0
  refine ⟨⌊x⌋, ?_, a, b⟩
  unfold floor
  rw [nonneg_fin, decide_eq_true h0, if_pos rfl, toInt_fin (trunc_nonneg h0 a b) (by omega) c]
  change Except.ok (F32.ofInt ⌊x⌋) = _
  rw [ofInt_near hx (by rw [abs_lt]; constructor <;> linarith)]

/-- What `zpl_floor` does with a negative number. -/
theorem floor_negative {x : ℚ} (h0 : x < 0) (h1 : -2 ^ 23 ≤ x) {n : ℤ} (a : F32.rounded (x - 1) ≤ n) (b : (n : ℚ) < F32.rounded (x - 1) + 1) :
    floor (.fin x) = .ok (.fin n) := by
  have p : pow2 24 = 2 ^ 24 := by norm_num [pow2_eq]
  have r : |F32.rounded (x - 1)| ≤ pow2 24 := F32.rounded_abs_le (by norm_num) (by rw [p, abs_le]; constructor <;> linarith)
  have rn : F32.rounded (x - 1) ≤ -1 := F32.rounded_le ⟨-1, 0, by norm_num, by norm_num, by norm_num [pow2_eq]⟩ (by linarith)
  have r1 : -(2 ^ 23 + 1) ≤ F32.rounded (x - 1) := F32.le_rounded ⟨-(2 ^ 23 + 1), 0, by norm_num, by norm_num, by norm_num [pow2_eq]⟩ (by linarith)
  have n1 : -(2 ^ 23 + 1) ≤ n := by
    have : (-(2 ^ 23 + 1) : ℚ) ≤ n := by linarith
    exact_mod_cast this
  have n2 : n < 0 := by
    have : (n : ℚ) < 0 := by linarith
    exact_mod_cast this
  unfold floor
  rw [nonneg_fin, decide_eq_false (not_le.2 h0), if_neg Bool.false_ne_true, literal, sub_fin, F32.round_small (by
    rw [show pow2 127 = pow2 24 * pow2 103 by rw [← pow2_add]; norm_num, p, abs_le]
    have : (1 : ℚ) ≤ pow2 103 := by rw [show (1 : ℚ) = pow2 0 from rfl]; exact pow2_le (by norm_num)
    constructor <;> linarith), toInt_fin (trunc_neg (by linarith) a b) (by omega) (by omega)]
  change Except.ok (F32.ofInt n) = _
  rw [F32.ofInt_eq (by rw [abs_lt]; constructor <;> omega)]

/-- C146: for a negative number `zpl_floor` is right if the number is not whole and can be lowered by one without rounding.  Not in general, see `C146_floor_misses` and
`C146_floor_whole`. -/
theorem C146_floor_negative_partial {x : ℚ} (h0 : x < 0) (h1 : -2 ^ 23 ≤ x) (hw : ∀ n : ℤ, x ≠ n) (he : F32.Representable (x - 1)) :
    ∃ n : ℤ, floor (.fin x) = .ok (.fin n) ∧ IsFloor x n := by
  have a := Int.floor_le x
  have b := Int.lt_floor_add_one x
  have c := lt_of_le_of_ne a (Ne.symm (hw _))
  exact ⟨⌊x⌋, floor_negative h0 h1 (by rw [he.rounded]; linarith) (by rw [he.rounded]; linarith), a, b⟩

/-- C146: for any negative number it is at most one too low. -/
theorem C146_floor_off_by_one {x : ℚ} (h0 : x < 0) (h1 : -2 ^ 23 ≤ x) : ∃ n : ℤ, IsFloor x n ∧ (floor (.fin x) = .ok (.fin n) ∨ floor (.fin x) = .ok (.fin (n - 1 : ℤ))) := by
  have a := Int.floor_le x
  have b := Int.lt_floor_add_one x
  refine ⟨⌊x⌋, ⟨a, b⟩, ?_⟩
  have l : -2 ^ 23 ≤ ⌊x⌋ := Int.le_floor.2 (by push_cast; exact h1)
  have n0 : ⌊x⌋ < 0 := Int.floor_lt.2 (by exact_mod_cast h0)
  have s1 : ((⌊x⌋ - 1 : ℤ) : ℚ) ≤ F32.rounded (x - 1) := F32.le_rounded (F32.int_grid (by rw [abs_lt]; constructor <;> omega)) (by push_cast; linarith)
  have s2 : F32.rounded (x - 1) ≤ ⌊x⌋ := F32.rounded_le (F32.int_grid (by rw [abs_lt]; constructor <;> omega)) (by linarith)
  by_cases h : F32.rounded (x - 1) = ((⌊x⌋ - 1 : ℤ) : ℚ)
  · exact Or.inr (floor_negative h0 h1 (by rw [h]) (by rw [h]; linarith))
  · refine Or.inl (floor_negative h0 h1 s2 ?_)
    have := lt_of_le_of_ne s1 (Ne.symm h)
    push_cast at this
    linarith

/-- C146: of every negative whole number it is one too low. -/
theorem C146_floor_whole {n : ℤ} (h0 : n < 0) (h1 : -2 ^ 23 ≤ n) : floor (.fin n) = .ok (.fin (n - 1 : ℤ)) := by
  have e : F32.rounded ((n : ℚ) - 1) = ((n - 1 : ℤ) : ℚ) := by
    rw [show (n : ℚ) - 1 = ((n - 1 : ℤ) : ℚ) by push_cast; ring]
    obtain ⟨m, k, hm, hk, e⟩ := F32.int_grid (n := n - 1) (by rw [abs_lt]; constructor <;> omega)
    exact F32.rounded_eq hm hk e
  exact floor_negative (by exact_mod_cast h0) (by exact_mod_cast h1) (by rw [e]) (by rw [e]; linarith)

/-- C146: and also of the number next to each power of two, which is not whole. -/
theorem C146_floor_misses : ∀ k : Fin 23, floor (.fin (-2 ^ k.val + 2 ^ k.val / 2 ^ 24)) = .ok (.fin (-2 ^ k.val - 1)) ∧ IsFloor (-2 ^ k.val + 2 ^ k.val / 2 ^ 24) (-2 ^ k.val) := by
  intro k
  refine ⟨?_, ?_, ?_⟩
  · revert k; decide +kernel
  · push_cast; have : (0 : ℚ) < 2 ^ k.val := by positivity
    linarith [div_pos this (show (0 : ℚ) < 2 ^ 24 by norm_num)]
  · push_cast
    have h : (2 : ℚ) ^ k.val ≤ 2 ^ 23 := pow_le_pow_right₀ (by norm_num) (by omega)
    have : (2 : ℚ) ^ k.val / 2 ^ 24 < 1 := by rw [div_lt_one (by norm_num)]; norm_num at h ⊢; linarith
    linarith

/-- C146: `zpl_ceil` is right for negative numbers, and for those that are not whole. -/
theorem C146_ceil_partial {x : ℚ} (hx : F32.Representable x) (h : |x| < 2 ^ 31 - 1) (hw : x < 0 ∨ ∀ n : ℤ, x ≠ n) : ∃ n : ℤ, ceil (.fin x) = .ok (.fin n) ∧ IsCeil x n := by
  rw [abs_lt] at h
  by_cases h0 : x < 0
  · have a := Int.le_ceil x
    have b := Int.ceil_lt_add_one x
    have c : ⌈x⌉ ≤ 0 := Int.ceil_le.2 (by push_cast; linarith)
    have d : -2 ^ 31 < ⌈x⌉ := Int.lt_ceil.2 (by push_cast; linarith)
    refine ⟨⌈x⌉, ?_, a, b⟩
    unfold ceil
    rw [show F32.lt (.fin x) (.fin 0) = decide (x < 0) from rfl, decide_eq_true h0, if_pos rfl, toInt_fin (trunc_neg h0 a b) (by omega) (by omega)]
    change Except.ok (F32.ofInt ⌈x⌉) = _
    rw [ofInt_near hx (by rw [abs_lt]; constructor <;> linarith)]
  · have hw' : ∀ n : ℤ, x ≠ n := hw.resolve_left h0
    have small : |x| < 2 ^ 23 := by
      by_contra hc
      obtain ⟨n, hn⟩ := whole hx (not_lt.1 hc)
      exact hw' n hn
    rw [abs_lt] at small
    have a := Int.floor_le x
    have b := Int.lt_floor_add_one x
    have c := lt_of_le_of_ne a (Ne.symm (hw' _))
    have d : 0 ≤ ⌊x⌋ := Int.floor_nonneg.2 (not_lt.1 h0)
    have e : ⌊x⌋ < 2 ^ 23 := Int.floor_lt.2 (by push_cast; exact small.2)
    refine ⟨⌊x⌋ + 1, ?_, by push_cast; linarith, by push_cast; linarith⟩
    unfold ceil
    rw [show F32.lt (.fin x) (.fin 0) = decide (x < 0) from rfl, decide_eq_false h0, if_neg Bool.false_ne_true, toInt_fin (trunc_nonneg (not_lt.1 h0) a b) (by omega) (by omega)]
    change (if ⌊x⌋ + 1 < 2 ^ 31 then Except.ok (F32.ofInt (⌊x⌋ + 1)) else Except.error Fault.arith) = _
    rw [if_pos (by omega), F32.ofInt_eq (by rw [abs_lt]; constructor <;> omega)]

/-- C146: of every whole number that is not negative it is one too high. -/
theorem C146_ceil_whole {n : ℤ} (h0 : 0 ≤ n) (h1 : n < 2 ^ 24 - 1) : ceil (.fin n) = .ok (.fin (n + 1 : ℤ)) := by
  unfold ceil
  rw [show F32.lt (.fin n) (.fin 0) = decide ((n : ℚ) < 0) from rfl, decide_eq_false (by rw [not_lt]; exact_mod_cast h0), if_neg Bool.false_ne_true,
    toInt_fin (trunc_int n) (by omega) (by omega)]
  change (if n + 1 < 2 ^ 31 then Except.ok (F32.ofInt (n + 1)) else Except.error Fault.arith) = _
  rw [if_pos (by omega), F32.ofInt_eq (by rw [abs_lt]; constructor <;> omega)]

/-! ### Rounding to the nearest -/

/-- Rounding does not depend on the sign. -/
theorem nearest_neg (q : ℚ) : nearest (-q) = -nearest q := by
  have a := Int.floor_le q
  have b := Int.lt_floor_add_one q
  by_cases hw : ∃ n : ℤ, q = n
  · obtain ⟨n, rfl⟩ := hw
    rw [show -(n : ℚ) = ((-n : ℤ) : ℚ) by push_cast; ring, nearest_int, nearest_int]
  · have c : (⌊q⌋ : ℚ) < q := lt_of_le_of_ne a (fun h => hw ⟨_, h.symm⟩)
    have e1 : q.floor = ⌊q⌋ := rfl
    have e2 : (-q).floor = -⌊q⌋ - 1 := floor_eq (by push_cast; linarith) (by push_cast; linarith)
    unfold nearest
    dsimp only
    rw [e1, e2]
    push_cast
    generalize ⌊q⌋ = f at *
    have p : -q - (-(f : ℚ) - 1) = 1 - (q - f) := by ring
    rw [p]
    by_cases h1 : q - f < 1 / 2
    · rw [if_pos h1, if_neg (by linarith), if_pos (by linarith)]; omega
    · by_cases h2 : 1 / 2 < q - f
      · rw [if_neg h1, if_pos h2, if_pos (by linarith)]; omega
      · rw [if_neg h1, if_neg h2, if_neg (by linarith), if_neg (by linarith)]
        split <;> split <;> omega

theorem rounded_neg (q : ℚ) : F32.rounded (-q) = -F32.rounded q := by
  have hp : F32.place (-q) = F32.place q := by
    unfold F32.place logTwo
    simp only [Rat.neg_num, Rat.neg_den, Int.natAbs_neg, abs_neg]
  unfold F32.rounded
  rw [hp, neg_div, nearest_neg]
  push_cast
  ring

/-- The only number below `2 ^ 23` for which the addition in `zpl_round` goes over a whole number: the one before a half. -/
def bad : ℚ := 1 / 2 - 1 / 2 ^ 25

/-- The sum in `zpl_round` lies between the same whole numbers as the exact one. -/
theorem sum_floor {x : ℚ} (hx : F32.Representable x) (h0 : 0 ≤ x) (h1 : x < 2 ^ 23) (hb : x ≠ bad) :
    (⌊x + 1 / 2⌋ : ℚ) ≤ F32.rounded (x + 1 / 2) ∧ F32.rounded (x + 1 / 2) < ⌊x + 1 / 2⌋ + 1 := by
  have a := Int.floor_le (x + 1 / 2)
  have b := Int.lt_floor_add_one (x + 1 / 2)
  have n0 : 0 ≤ ⌊x + 1 / 2⌋ := Int.floor_nonneg.2 (by linarith)
  have n1 : ⌊x + 1 / 2⌋ ≤ 2 ^ 23 := by
    have : ⌊x + 1 / 2⌋ < 2 ^ 23 + 1 := Int.floor_lt.2 (by push_cast; linarith)
    omega
  generalize ⌊x + 1 / 2⌋ = N at *
  have N0 : (0 : ℚ) ≤ N := by exact_mod_cast n0
  refine ⟨F32.le_rounded (F32.int_grid (by rw [abs_lt]; constructor <;> omega)) a, ?_⟩
  by_cases hN : x ≤ N
  · rcases lt_or_ge N (2 ^ 23) with h | h
    · have g : ∃ m e : ℤ, |m| < 2 ^ 24 ∧ -149 ≤ e ∧ (N : ℚ) + 1 / 2 = m * pow2 e :=
        ⟨2 * N + 1, -1, by rw [abs_lt]; constructor <;> omega, by norm_num, by rw [show pow2 (-1) = 1 / 2 from rfl]; push_cast; ring⟩
      have := F32.rounded_le g (show x + 1 / 2 ≤ N + 1 / 2 by linarith)
      linarith
    · have e : N = 2 ^ 23 := by omega
      have g : ∃ m e : ℤ, |m| < 2 ^ 24 ∧ -149 ≤ e ∧ (N : ℚ) = m * pow2 e := F32.int_grid (by rw [abs_lt]; constructor <;> omega)
      obtain ⟨m, hm⟩ : ∃ m : ℤ, x = m * (1 / 2) := by
        have : pow2 22 ≤ |x| := by
          rw [show pow2 22 = 2 ^ 22 by norm_num [pow2_eq], abs_of_nonneg h0]
          have : (N : ℚ) = 2 ^ 23 := by exact_mod_cast e
          norm_num at this ⊢; linarith
        obtain ⟨m, hm⟩ := multiple hx.grid this
        exact ⟨m, by rw [hm]; rfl⟩
      have h5 : m < 2 ^ 24 := by
        have : (m : ℚ) < 2 ^ 24 := by rw [hm] at h1; norm_num at h1 ⊢; linarith
        exact_mod_cast this
      have h6 : (m : ℚ) + 1 ≤ 2 ^ 24 := by exact_mod_cast h5
      have h7 : (N : ℚ) = 2 ^ 23 := by exact_mod_cast e
      have := F32.rounded_le g (show x + 1 / 2 ≤ N by rw [hm, h7]; norm_num at h6 ⊢; linarith)
      linarith
  · have hN' : (N : ℚ) < x := not_le.1 hN
    rcases Nat.eq_zero_or_pos N.toNat with hz | hz
    · have hN0 : N = 0 := by omega
      subst hN0
      norm_num at b hN' ⊢
      have up : x < 1 / 2 := by linarith
      by_cases hq : x < 1 / 4
      · have := F32.rounded_le (g := 3 / 4) ⟨3, -2, by norm_num, by norm_num, by norm_num [pow2_eq]⟩ (show x + 1 / 2 ≤ 3 / 4 by linarith)
        linarith
      · obtain ⟨m, hm⟩ := multiple hx.grid (k := -2) (by rw [show pow2 (-2) = 1 / 4 by norm_num [pow2_eq], abs_of_nonneg h0]; linarith)
        have e25 : pow2 (-2 - 23) = 1 / 2 ^ 25 := by norm_num [pow2_eq]
        rw [e25] at hm
        have h5 : m < 2 ^ 24 := by
          have : (m : ℚ) < 2 ^ 24 := by rw [hm] at up; norm_num at up ⊢; linarith
          exact_mod_cast this
        have h6 : m ≠ 2 ^ 24 - 1 := by
          intro h; apply hb; rw [hm, h]; unfold bad; norm_num
        have h7 : m ≤ 2 ^ 24 - 2 := by omega
        have h8 : (m : ℚ) ≤ 2 ^ 24 - 2 := by exact_mod_cast h7
        have := F32.rounded_le (g := (2 ^ 24 - 1) / 2 ^ 24) ⟨2 ^ 24 - 1, -24, by norm_num, by norm_num, by norm_num [pow2_eq]⟩
          (show x + 1 / 2 ≤ (2 ^ 24 - 1) / 2 ^ 24 by rw [hm]; norm_num at h8 ⊢; linarith)
        norm_num at this ⊢
        linarith
    · have N1 : (1 : ℚ) ≤ N := by
        have : 1 ≤ N := by omega
        exact_mod_cast this
      have x0 : x ≠ 0 := by intro h; linarith
      obtain ⟨l1, l2⟩ := logTwo_spec x0
      rw [abs_of_nonneg h0] at l1 l2
      generalize logTwo x = k at *
      have k0 : 0 ≤ k := by
        by_contra hk
        have : pow2 (k + 1) ≤ pow2 0 := pow2_le (by omega)
        rw [show pow2 0 = 1 from rfl] at this
        linarith
      have k1 : k < 23 := by
        refine pow2_lt_iff.1 (lt_of_le_of_lt l1 ?_)
        rw [show pow2 23 = 2 ^ 23 by norm_num [pow2_eq]]; exact h1
      obtain ⟨m, hm⟩ := multiple hx.grid (k := k) (by rw [abs_of_nonneg h0]; exact l1)
      obtain ⟨d, hd⟩ := Int.eq_ofNat_of_zero_le (show 0 ≤ -1 - (k - 23) by omega)
      obtain ⟨j, hj⟩ := Int.eq_ofNat_of_zero_le k0
      have half : (1 / 2 : ℚ) = ((2 ^ d : ℕ) : ℚ) * pow2 (k - 23) := by
        rw [show (1 / 2 : ℚ) = pow2 (-1) from rfl, show (-1 : ℤ) = d + (k - 23) by omega, pow2_add]; congr 1
      have top : (N : ℚ) + 1 ≤ pow2 (k + 1) := by
        have e : pow2 (k + 1) = ((2 ^ (j + 1) : ℤ) : ℚ) := by rw [pow2_eq, hj]; push_cast; rw [← zpow_natCast]; push_cast; rfl
        rw [e] at l2 ⊢
        have : (N : ℚ) < ((2 ^ (j + 1) : ℤ) : ℚ) := by linarith
        have : N < 2 ^ (j + 1) := by exact_mod_cast this
        exact_mod_cast this
      have es : x + 1 / 2 = ((m + (2 ^ d : ℕ) : ℤ) : ℚ) * pow2 (k - 23) := by
        rw [half]; conv_lhs => rw [hm]
        push_cast; ring
      have hlt : |m + (2 ^ d : ℕ)| < 2 ^ 24 := by
        have hp := pow2_pos (k - 23)
        have h5 : ((m + (2 ^ d : ℕ) : ℤ) : ℚ) * pow2 (k - 23) < pow2 24 * pow2 (k - 23) := by
          rw [← es, ← pow2_add, show 24 + (k - 23) = k + 1 by ring]; linarith
        have h6 := lt_of_mul_lt_mul_right h5 hp.le
        rw [show pow2 24 = ((2 ^ 24 : ℤ) : ℚ) from rfl] at h6
        have h7 : m + (2 ^ d : ℕ) < 2 ^ 24 := by exact_mod_cast h6
        have h8 : (0 : ℚ) ≤ ((m + (2 ^ d : ℕ) : ℤ) : ℚ) := by
          by_contra hc
          have : x + 1 / 2 < 0 := by rw [es]; nlinarith [not_le.1 hc]
          linarith
        have h9 : 0 ≤ m + (2 ^ d : ℕ) := by exact_mod_cast h8
        rw [abs_lt]; constructor <;> omega
      rw [F32.rounded_eq hlt (by omega) es]
      exact b

/-- What `zpl_round` does, from the rounded sum. -/
theorem round_core {y : ℚ} {n : ℤ} (h0 : 0 ≤ y) (h1 : y ≤ 2 ^ 30) (a : (n : ℚ) ≤ F32.rounded (y + 1 / 2)) (b : F32.rounded (y + 1 / 2) < n + 1) :
    round (.fin y) = .ok (.fin n) ∧ (0 < y → round (.fin (-y)) = .ok (.fin (-n : ℤ))) := by
  have half : F32.Representable (1 / 2) := ⟨1, -1, by norm_num, by norm_num, by norm_num, by norm_num [pow2_eq]⟩
  have s0 : 1 / 2 ≤ F32.rounded (y + 1 / 2) := F32.le_rounded half.grid (by linarith)
  have s1 : F32.rounded (y + 1 / 2) ≤ 2 ^ 30 + 128 := F32.rounded_le (g := 2 ^ 30 + 128) ⟨2 ^ 23 + 1, 7, by norm_num, by norm_num, by norm_num [pow2_eq]⟩ (by linarith)
  have small : |y + 1 / 2| ≤ pow2 127 := by
    rw [abs_of_nonneg (by linarith)]
    refine le_trans ?_ (pow2_le (show (31 : ℤ) ≤ 127 by norm_num))
    rw [show pow2 31 = 2 ^ 31 by norm_num [pow2_eq]]
    norm_num at h1 ⊢; linarith
  have rep := F32.round_representable (F32.round_small small)
  have n0 : 0 ≤ n := by
    have : (-1 : ℚ) < n := by linarith
    have : -1 < n := by exact_mod_cast this
    omega
  have n1 : n < 2 ^ 31 := by
    have : (n : ℚ) < 2 ^ 31 := by norm_num at s1 ⊢; linarith
    exact_mod_cast this
  constructor
  · unfold round
    rw [nonneg_fin, decide_eq_true h0, if_pos rfl]
    change floor (F32.round (y + 1 / 2)) = _
    rw [F32.round_small small]
    unfold floor
    rw [nonneg_fin, decide_eq_true (by linarith), if_pos rfl, toInt_fin (trunc_nonneg (by linarith) a b) (by omega) n1]
    change Except.ok (F32.ofInt n) = _
    rw [ofInt_near rep (by rw [abs_lt]; constructor <;> linarith)]
  · intro hy
    have e : -y - 1 / 2 = -(y + 1 / 2) := by ring
    unfold round
    rw [nonneg_fin, decide_eq_false (by linarith), if_neg Bool.false_ne_true, sub_fin, F32.round_small (by rw [e, abs_neg]; exact small), e, rounded_neg]
    unfold ceil
    rw [show ∀ q, F32.lt (.fin q) (.fin 0) = decide (q < 0) from fun _ => rfl, decide_eq_true (by linarith), if_pos rfl,
      toInt_fin (n := -n) (trunc_neg (by linarith) (by push_cast; linarith) (by push_cast; linarith)) (by omega) (by omega)]
    change Except.ok (F32.ofInt (-n)) = _
    rw [ofInt_near rep.neg (by rw [abs_lt]; push_cast; constructor <;> linarith)]

/-- The sum for a whole number from `2 ^ 23` to `2 ^ 24` lies halfway between two numbers of the type. -/
theorem sum_large {n : ℤ} (h0 : 2 ^ 23 ≤ n) (h1 : n < 2 ^ 24) : F32.rounded ((n : ℚ) + 1 / 2) = ((if n % 2 = 0 then n else n + 1 : ℤ) : ℚ) := by
  have q0 : (2 : ℚ) ^ 23 ≤ n := by exact_mod_cast h0
  have q1 : (n : ℚ) + 1 ≤ 2 ^ 24 := by exact_mod_cast h1
  have hne : (n : ℚ) + 1 / 2 ≠ 0 := by intro h; norm_num at q0; linarith
  obtain ⟨l1, l2⟩ := logTwo_spec hne
  rw [abs_of_nonneg (by norm_num at q0; linarith)] at l1 l2
  have k1 : logTwo ((n : ℚ) + 1 / 2) < 24 := by
    refine pow2_lt_iff.1 (lt_of_le_of_lt l1 ?_)
    rw [show pow2 24 = 2 ^ 24 by norm_num [pow2_eq]]; linarith
  have k2 : 23 < logTwo ((n : ℚ) + 1 / 2) + 1 := by
    refine pow2_lt_iff.1 (lt_of_le_of_lt ?_ l2)
    rw [show pow2 23 = 2 ^ 23 by norm_num [pow2_eq]]; linarith
  have k : logTwo ((n : ℚ) + 1 / 2) = 23 := by omega
  have hp : F32.place ((n : ℚ) + 1 / 2) = 0 := by unfold F32.place; rw [k]; rfl
  unfold F32.rounded
  rw [hp, show pow2 0 = 1 from rfl, div_one, mul_one]
  congr 1
  unfold nearest
  dsimp only
  rw [floor_eq (n := n) (by linarith) (by linarith), if_neg (by linarith), if_neg (by linarith)]

/-- From `2 ^ 24` on the half is lost. -/
theorem sum_huge {x : ℚ} (hx : F32.Representable x) (h : 2 ^ 24 ≤ x) : F32.rounded (x + 1 / 2) = x := by
  have p24 : pow2 24 = 2 ^ 24 := by norm_num [pow2_eq]
  have x0 : 0 ≤ x := le_trans (by norm_num) h
  have lo := F32.le_rounded hx.grid (show x ≤ x + 1 / 2 by linarith)
  obtain ⟨m, e, hm, he, ex⟩ := hx.grid
  have near := F32.rounded_nearest (x + 1 / 2) hm he
  rw [← ex, show x - (x + 1 / 2) = -(1 / 2) by ring, abs_neg, abs_of_nonneg (by norm_num : (0 : ℚ) ≤ 1 / 2)] at near
  have up := (abs_le.1 near).2
  obtain ⟨i, hi⟩ := multiple hx.grid (k := 24) (by rw [p24, abs_of_nonneg x0]; exact h)
  obtain ⟨j, hj⟩ := multiple (F32.rounded_grid (x + 1 / 2)) (k := 24) (by rw [p24, abs_of_nonneg (by linarith)]; linarith)
  rw [show pow2 (24 - 23) = 2 from rfl] at hi hj
  rw [hj] at lo up ⊢
  have a : (i : ℚ) ≤ j := by linarith
  have b : (j : ℚ) < i + 1 := by linarith
  have a' : i ≤ j := by exact_mod_cast a
  have b' : j < i + 1 := by exact_mod_cast b
  have : i = j := by omega
  rw [hi, this]

/-- C146: `zpl_round` gives the nearest whole number, halves away from zero, for every number of the type up to `2 ^ 30` but the one before a half and the odd whole numbers
from `2 ^ 23` to `2 ^ 24`, and their negatives.  For those see `C146_round_misses`. -/
theorem C146_round_partial {x : ℚ} (hx : F32.Representable x) (h : |x| ≤ 2 ^ 30) (hb : |x| ≠ bad) (ho : ∀ n : ℤ, 2 ^ 23 ≤ n → n < 2 ^ 24 → n % 2 = 1 → |x| ≠ n) :
    ∃ n : ℤ, round (.fin x) = .ok (.fin n) ∧ IsNearest x n := by
  have key : ∀ {y : ℚ}, F32.Representable y → 0 ≤ y → y ≤ 2 ^ 30 → y ≠ bad → (∀ n : ℤ, 2 ^ 23 ≤ n → n < 2 ^ 24 → n % 2 = 1 → y ≠ n) →
      ∃ n : ℤ, (n : ℚ) ≤ F32.rounded (y + 1 / 2) ∧ F32.rounded (y + 1 / 2) < n + 1 ∧ (n : ℚ) ≤ y + 1 / 2 ∧ y + 1 / 2 < n + 1 := by
    intro y hy h0 h1 hb ho
    rcases lt_or_ge y (2 ^ 23) with hs | hs
    · obtain ⟨a, b⟩ := sum_floor hy h0 hs hb
      exact ⟨_, a, b, Int.floor_le _, Int.lt_floor_add_one _⟩
    · obtain ⟨n, rfl⟩ := whole hy (by rw [abs_of_nonneg h0]; exact hs)
      refine ⟨n, ?_⟩
      have e : F32.rounded ((n : ℚ) + 1 / 2) = n := by
        rcases lt_or_ge n (2 ^ 24) with hl | hl
        · have h23 : 2 ^ 23 ≤ n := by exact_mod_cast hs
          rw [sum_large h23 hl, if_pos]
          by_contra hc
          exact ho n h23 hl (by omega) rfl
        · exact sum_huge hy (by exact_mod_cast hl)
      rw [e]
      refine ⟨le_rfl, by linarith, by linarith, by linarith⟩
  have habs : F32.Representable |x| := by
    rcases abs_choice x with e | e <;> rw [e]
    · exact hx
    · exact hx.neg
  obtain ⟨n, a, b, c, d⟩ := key habs (abs_nonneg x) h hb ho
  obtain ⟨r1, r2⟩ := round_core (abs_nonneg x) h a b
  rcases le_or_gt 0 x with h0 | h0
  · rw [abs_of_nonneg h0] at r1 c d
    refine ⟨n, r1, by rw [abs_le]; constructor <;> linarith, fun ht => ?_⟩
    have hn : x < n := by
      rcases abs_choice (x - n) with e | e <;> rw [e] at ht <;> linarith
    rw [abs_of_nonneg h0, abs_of_nonneg (by linarith)]
    exact hn
  · rw [abs_of_neg h0] at r2 c d
    rw [neg_neg] at r2
    refine ⟨-n, r2 (by linarith), by push_cast; rw [abs_le]; constructor <;> linarith, fun ht => ?_⟩
    have hn : -x < n := by
      push_cast at ht
      rcases abs_choice (x - -(n : ℚ)) with e | e <;> rw [e] at ht <;> linarith
    push_cast
    rw [abs_of_neg h0, abs_neg, abs_of_nonneg (by linarith)]
    exact hn

/-- C146: the number before a half becomes 1, and every odd whole number from `2 ^ 23` to `2 ^ 24` the next even one; so also for their negatives. -/
theorem C146_round_misses : F32.Representable bad ∧ bad < 1 / 2 ∧ round (.fin bad) = .ok (.fin 1) ∧ round (.fin (-bad)) = .ok (.fin (-1)) ∧
    ∀ n : ℤ, 2 ^ 23 ≤ n → n < 2 ^ 24 → n % 2 = 1 → round (.fin n) = .ok (.fin (n + 1 : ℤ)) ∧ round (.fin (-n : ℤ)) = .ok (.fin (-(n + 1) : ℤ)) := by
  refine ⟨⟨2 ^ 24 - 1, -25, by norm_num, by norm_num, by norm_num, by norm_num [pow2_eq, bad]⟩, by norm_num [bad], by decide +kernel, by decide +kernel, fun n h0 h1 ho => ?_⟩
  have e := sum_large h0 h1
  rw [if_neg (by omega)] at e
  have q0 : (2 : ℚ) ^ 23 ≤ n := by exact_mod_cast h0
  have q1 : (n : ℚ) ≤ 2 ^ 24 := by exact_mod_cast h1.le
  obtain ⟨r1, r2⟩ := round_core (y := n) (n := n + 1) (by norm_num at q0; linarith) (by norm_num at q1 ⊢; linarith) (by rw [e]) (by rw [e]; linarith)
  refine ⟨r1, ?_⟩
  have := r2 (by norm_num at q0; linarith)
  push_cast at this ⊢
  exact this

/-! ### Double precision -/

theorem spacing64 {n : ℤ} (h0 : n ≤ -3) (h1 : -2 ^ 52 ≤ n) : F64.rounded ((n : ℚ) + 1 / 2 ^ 53) = n := by
  have q0 : (n : ℚ) ≤ -3 := by exact_mod_cast h0
  obtain ⟨m, e, hm, he, hg⟩ := F64.rounded_grid ((n : ℚ) + 1 / 2 ^ 53)
  have near := F64.rounded_nearest ((n : ℚ) + 1 / 2 ^ 53) (m := n) (e := 0) (by rw [abs_lt]; constructor <;> omega) (by norm_num)
  rw [show pow2 0 = 1 from rfl, mul_one, show (n : ℚ) - (n + 1 / 2 ^ 53) = -(1 / 2 ^ 53) by ring, abs_neg, abs_of_nonneg (show (0 : ℚ) ≤ 1 / 2 ^ 53 by norm_num)] at near
  have lo : (n : ℚ) ≤ F64.rounded ((n : ℚ) + 1 / 2 ^ 53) := F64.le_rounded (F64.int_grid (by rw [abs_lt]; constructor <;> omega)) (by norm_num)
  have up := (abs_le.1 near).2
  rw [hg] at lo up ⊢
  by_contra hne
  have hlt : (n : ℚ) < m * pow2 e := lt_of_le_of_ne lo (Ne.symm hne)
  have hp := pow2_pos e
  rcases le_or_gt (-51) e with h | h
  · obtain ⟨d, hd⟩ := Int.eq_ofNat_of_zero_le (show 0 ≤ e + 51 by omega)
    have e1 : (m : ℚ) * pow2 e = ((m * 2 ^ d : ℤ) : ℚ) / 2 ^ 51 := by
      rw [show e = (d : ℤ) + -51 by omega, pow2_add, show pow2 (d : ℤ) = 2 ^ d by rw [pow2_eq]; simp, show pow2 (-51) = 1 / 2 ^ 51 by norm_num [pow2_eq]]
      push_cast; ring
    rw [e1] at hlt up
    have a : ((n * 2 ^ 51 : ℤ) : ℚ) < ((m * 2 ^ d : ℤ) : ℚ) := by
      push_cast at hlt ⊢
      rw [lt_div_iff₀ (by norm_num)] at hlt
      exact hlt
    have a' : n * 2 ^ 51 + 1 ≤ m * 2 ^ d := by exact_mod_cast a
    have a'' : ((n : ℚ) * 2 ^ 51 + 1) ≤ ((m * 2 ^ d : ℤ) : ℚ) := by exact_mod_cast a'
    have b : ((m * 2 ^ d : ℤ) : ℚ) / 2 ^ 51 ≥ n + 1 / 2 ^ 51 := by
      rw [ge_iff_le, le_div_iff₀ (by norm_num)]
      linarith
    norm_num at b up
    linarith
  · have hm' : (m : ℚ) ≥ -(2 ^ 53 - 1) := by
      have : -(2 ^ 53 - 1) ≤ m := by rw [abs_lt] at hm; omega
      exact_mod_cast this
    have he' : pow2 e ≤ pow2 (-52) := pow2_le (by omega)
    rw [show pow2 (-52) = 1 / 2 ^ 52 by norm_num [pow2_eq]] at he'
    have : (m : ℚ) * pow2 e ≥ -2 := by
      have : -(2 ^ 53 - 1) * (1 / 2 ^ 52 : ℚ) ≥ -2 := by norm_num
      nlinarith
    norm_num at up
    linarith

/-- C146: in double precision `zpl_floor64` of every negative whole number is one too low: the constant meant to prevent that is lost in rounding. -/
theorem C146_floor64_whole {n : ℤ} (h0 : n < 0) (h1 : -2 ^ 52 < n) : floor64 (.fin n) = .ok (.fin (n - 1 : ℤ)) := by
  have q0 : (n : ℚ) < 0 := by exact_mod_cast h0
  have q1 : (-2 ^ 52 : ℚ) < n := by exact_mod_cast h1
  have e : F64.rounded ((n : ℚ) - (1 - 1 / 2 ^ 53)) = ((n - 1 : ℤ) : ℚ) := by
    rcases eq_or_ne n (-1) with rfl | hne
    · decide +kernel
    · rw [show (n : ℚ) - (1 - 1 / 2 ^ 53) = ((n - 1 : ℤ) : ℚ) + 1 / 2 ^ 53 by push_cast; ring]
      exact spacing64 (by omega) (by omega)
  unfold floor64
  rw [show nonneg64 (.fin (n : ℚ)) = decide (0 ≤ (n : ℚ)) from rfl, decide_eq_false (not_le.2 q0), if_neg Bool.false_ne_true, literal64, sub_fin64, F64.round_fin (by
    rw [show pow2 100 = 2 ^ 100 by norm_num [pow2_eq], abs_le]
    norm_num at q1 ⊢
    constructor <;> linarith), e, toInt64_fin (trunc_int _) (by omega) (by omega)]
  change Except.ok (F64.ofInt (n - 1)) = _
  rw [F64.ofInt_eq (by rw [abs_lt]; constructor <;> omega)]

/-- C146: `zpl_ceil64` of every whole number that is not negative is one too high. -/
theorem C146_ceil64_whole {n : ℤ} (h0 : 0 ≤ n) (h1 : n < 2 ^ 53 - 1) : ceil64 (.fin n) = .ok (.fin (n + 1 : ℤ)) := by
  unfold ceil64
  rw [show F64.lt (.fin n) (.fin 0) = decide ((n : ℚ) < 0) from rfl, decide_eq_false (by rw [not_lt]; exact_mod_cast h0), if_neg Bool.false_ne_true,
    toInt64_fin (trunc_int n) (by omega) (by omega)]
  change (if n + 1 < 2 ^ 63 then Except.ok (F64.ofInt (n + 1)) else Except.error Fault.arith) = _
  rw [if_pos (by omega), F64.ofInt_eq (by rw [abs_lt]; constructor <;> omega)]

/-! ### The hypotheses can be met -/

/-- -1.5 -/
example : ∃ n : ℤ, floor (.fin (-3 / 2)) = .ok (.fin n) ∧ IsFloor (-3 / 2) n :=
  C146_floor_negative_partial (by norm_num) (by norm_num) (fun n h => by
    have h2 : ((2 * n : ℤ) : ℚ) = ((-3 : ℤ) : ℚ) := by push_cast; linarith
    have h3 : 2 * n = -3 := by exact_mod_cast h2
    omega) ⟨-5, -1, by norm_num, by norm_num, by norm_num, by norm_num [pow2_eq]⟩

/-- A tenth and seven. -/
example : ∃ n : ℤ, round (.fin (7 + 209715 / 2 ^ 21)) = .ok (.fin n) ∧ IsNearest (7 + 209715 / 2 ^ 21) n := by
  have h : |(7 + 209715 / 2 ^ 21 : ℚ)| = 7 + 209715 / 2 ^ 21 := abs_of_nonneg (by norm_num)
  refine C146_round_partial ⟨14889779, -21, by norm_num, by norm_num, by norm_num, by norm_num [pow2_eq]⟩ (by rw [h]; norm_num) (by rw [h]; norm_num [bad]) (fun n h0 _ _ e => ?_)
  rw [h] at e
  have : (2 : ℚ) ^ 23 ≤ n := by exact_mod_cast h0
  rw [← e] at this
  norm_num at this

example : round (.fin 8388609) = .ok (.fin 8388610) := by
  have := (C146_round_misses.2.2.2.2 8388609 (by norm_num) (by norm_num) (by norm_num)).1
  exact_mod_cast this

end Zpl.RoundF
