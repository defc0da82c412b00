import Verif.Math.Double

/-!
# Single precision numbers

The arithmetic of `float` as IEEE 754 has it, rounding to nearest with ties to even, which is what the compilers use for `zpl_f32` on the modelled platform (no fused
operations, no extended precision).  A number that is not NaN or infinite is the rational number it stands for.  Simplification: the two zeros are one.  Only the theorems
about rounding in math.c (C145, C146, C147) depend on this file.

## Definitions -/

namespace Zpl

/-- The values of `zpl_f32`. -/
inductive F32 where
  | nan
  | inf (negative : Bool)
  | fin (q : ℚ)
  deriving DecidableEq

namespace F32

open F64 (pow2 nearest logTwo pow2_eq pow2_pos pow2_add pow2_le pow2_lt_iff nearest_near nearest_int nearest_best logTwo_spec)

/-- The exponent of the last of the 24 places of `q`; there are none below `2 ^ -149`. -/
def place (q : ℚ) : ℤ := max (logTwo q) (-126) - 23

/-- `q` with 24 places. -/
def rounded (q : ℚ) : ℚ := nearest (q / pow2 (place q)) * pow2 (place q)

/-- The result of an operation whose exact result is `q`. -/
def round (q : ℚ) : F32 := if |rounded q| < pow2 128 then .fin (rounded q) else .inf (decide (q < 0))

/-- The number is a value of `float`. -/
def Representable (q : ℚ) : Prop := ∃ m e : ℤ, |m| < 2 ^ 24 ∧ -149 ≤ e ∧ e ≤ 104 ∧ q = m * pow2 e

/-- Conversion of an integer. -/
def ofInt (n : ℤ) : F32 := round n

def neg : F32 → F32
  | nan => nan
  | inf b => inf (!b)
  | fin q => fin (-q)

def add : F32 → F32 → F32
  | fin a, fin b => round (a + b)
  | nan, _ => nan
  | _, nan => nan
  | inf a, inf b => if a = b then inf a else nan
  | inf a, fin _ => inf a
  | fin _, inf b => inf b

def sub (a b : F32) : F32 := add a (neg b)

def mul : F32 → F32 → F32
  | fin a, fin b => round (a * b)
  | nan, _ => nan
  | _, nan => nan
  | inf a, inf b => inf (a != b)
  | inf a, fin q => if q = 0 then nan else inf (a != decide (q < 0))
  | fin q, inf a => if q = 0 then nan else inf (a != decide (q < 0))

/-- Division; by zero only for the numerators that do not need the sign of the zero. -/
def div : F32 → F32 → F32
  | fin a, fin b => if b = 0 then (if a = 0 then nan else inf (decide (a < 0))) else round (a / b)
  | nan, _ => nan
  | _, nan => nan
  | inf _, inf _ => nan
  | inf a, fin q => inf (a != decide (q < 0))
  | fin _, inf _ => fin 0

/-- `a < b` -/
def lt : F32 → F32 → Bool
  | fin a, fin b => decide (a < b)
  | inf true, inf false => true
  | inf true, fin _ => true
  | fin _, inf false => true
  | _, _ => false

/-- Conversion to `double`, which is exact. -/
def toDouble : F32 → F64
  | nan => .nan
  | inf b => .inf b
  | fin q => .fin q

/-- Conversion from `double`. -/
def ofDouble : F64 → F32
  | .nan => nan
  | .inf b => inf b
  | .fin q => round q

/-- The value with the given bits. -/
def ofBits (b : BitVec 32) : F32 :=
  let s : ℚ := if b.getMsbD 0 then -1 else 1
  let e := (b.extractLsb' 23 8).toNat
  let m := (b.extractLsb' 0 23).toNat
  if e = 255 then (if m = 0 then inf (b.getMsbD 0) else nan)
  else if e = 0 then fin (s * m * pow2 (-149))
  else fin (s * ((m + 2 ^ 23 : ℕ) : ℚ) * pow2 ((e : ℤ) - 150))

/-- The bits of a value; of a NaN, one of them. -/
def toBits : F32 → BitVec 32
  | nan => 0x7fc00000#32
  | inf b => if b then 0xff800000#32 else 0x7f800000#32
  | fin q =>
    let e := max (logTwo q) (-126)
    let m := (|q| / pow2 (e - 23)).floor.toNat
    BitVec.ofNat 32 ((if q < 0 then 2 ^ 31 else 0) + if m < 2 ^ 23 then m else (e + 127).toNat * 2 ^ 23 + (m - 2 ^ 23))

/-! ## Facts -/

theorem rounded_zero : rounded 0 = 0 := by
  have h : nearest ((0 : ℤ) : ℚ) = 0 := nearest_int 0
  unfold rounded
  rw [zero_div, show (0 : ℚ) = ((0 : ℤ) : ℚ) by norm_num, h]
  norm_num

/-- The rounding error is half a unit of the last place. -/
theorem rounded_near (q : ℚ) : |rounded q - q| ≤ pow2 (place q) / 2 := by
  have hp := pow2_pos (place q)
  have h := nearest_near (q / pow2 (place q))
  have e : rounded q - q = (nearest (q / pow2 (place q)) - q / pow2 (place q)) * pow2 (place q) := by
    unfold rounded
    field_simp
  rw [e, abs_mul, abs_of_pos hp]
  nlinarith

/-- The rounding error, from a bound of the exact result. -/
theorem rounded_error {q B : ℚ} (h : |q| ≤ B) (hB : pow2 (-126) ≤ B) : |rounded q - q| ≤ B * pow2 (-24) := by
  by_cases hq : q = 0
  · subst hq
    rw [rounded_zero, sub_zero, abs_zero]
    have := pow2_pos (-24)
    have := pow2_pos (-126)
    nlinarith
  · refine (rounded_near q).trans ?_
    have hl : pow2 (max (logTwo q) (-126)) ≤ B := by
      rcases max_choice (logTwo q) (-126) with e | e <;> rw [e]
      · exact (logTwo_spec hq).1.trans h
      · exact hB
    have e : pow2 (place q) / 2 = pow2 (max (logTwo q) (-126)) * pow2 (-24) := by
      unfold place
      rw [show max (logTwo q) (-126) - 23 = max (logTwo q) (-126) + (-24) + 1 by ring, pow2_add, pow2_add, show pow2 1 = 2 from rfl]
      ring
    rw [e]
    have := pow2_pos (-24)
    nlinarith

theorem rounded_eq {q : ℚ} {m e : ℤ} (hm : |m| < 2 ^ 24) (he : -149 ≤ e) (hq : q = m * pow2 e) : rounded q = q := by
  by_cases h0 : q = 0
  · rw [h0, rounded_zero]
  · have hlt : |q| < pow2 (24 + e) := by
      rw [hq, abs_mul, abs_of_pos (pow2_pos e), pow2_add]
      have : (|(m : ℚ)|) < pow2 24 := by
        rw [show pow2 24 = ((2 ^ 24 : ℤ) : ℚ) from rfl]
        exact_mod_cast hm
      have := pow2_pos e
      nlinarith
    have hl : logTwo q < 24 + e := pow2_lt_iff.1 (lt_of_le_of_lt (logTwo_spec h0).1 hlt)
    have hpl : place q ≤ e := by unfold place; omega
    obtain ⟨k, hk⟩ := Int.eq_ofNat_of_zero_le (show 0 ≤ e - place q by omega)
    have hdiv : q / pow2 (place q) = ((m * 2 ^ k : ℤ) : ℚ) := by
      rw [div_eq_iff (pow2_pos _).ne']
      conv => lhs; rw [hq]
      conv => lhs; rw [show e = (k : ℤ) + place q by omega, pow2_add, show pow2 (k : ℤ) = 2 ^ k by rw [pow2_eq, zpow_natCast]]
      push_cast
      ring
    unfold rounded
    rw [hdiv, nearest_int, ← hdiv]
    have := (pow2_pos (place q)).ne'
    field_simp

theorem round_fin {q : ℚ} (h : |q| ≤ pow2 100) : round q = .fin (rounded q) := by
  have h1 := rounded_error h (pow2_le (by norm_num))
  have h2 : |rounded q| ≤ pow2 101 := by
    have h3 : pow2 (-24) ≤ 1 := by rw [show (1 : ℚ) = pow2 0 from rfl]; exact pow2_le (by norm_num)
    have h4 : pow2 101 = pow2 100 + pow2 100 := by rw [show (101 : ℤ) = 100 + 1 by norm_num, pow2_add, show pow2 1 = 2 from rfl]; ring
    have := abs_sub_abs_le_abs_sub (rounded q) q
    have := pow2_pos 100
    nlinarith
  exact if_pos (lt_of_le_of_lt h2 (pow2_lt_iff.2 (by norm_num)))

/-- Whole numbers up to `2 ^ 24` are exact. -/
theorem ofInt_eq {n : ℤ} (h : |n| < 2 ^ 24) : ofInt n = .fin n := by
  have e : rounded n = n := rounded_eq h (by norm_num : (-149 : ℤ) ≤ 0) (by rw [show pow2 0 = 1 from rfl, mul_one])
  have hb : |(n : ℚ)| ≤ pow2 100 := by
    have h1 : |(n : ℚ)| < pow2 24 := by
      rw [show pow2 24 = ((2 ^ 24 : ℤ) : ℚ) from rfl]
      exact_mod_cast h
    exact h1.le.trans (pow2_le (by norm_num))
  rw [ofInt, round_fin hb, e]

theorem Representable.rounded {q : ℚ} (h : Representable q) : rounded q = q := by
  obtain ⟨m, e, hm, he, -, hq⟩ := h
  exact rounded_eq hm he hq

/-- What bits stand for is representable. -/
theorem ofBits_representable {b : BitVec 32} {q : ℚ} (h : ofBits b = .fin q) : Representable q := by
  have he := (b.extractLsb' 23 8).isLt
  have hm := (b.extractLsb' 0 23).isLt
  unfold ofBits at h
  dsimp only at h
  have hs : ∃ s : ℤ, (if b.getMsbD 0 then (-1 : ℚ) else 1) = s ∧ |s| = 1 := by
    split
    · exact ⟨-1, by norm_num, by norm_num⟩
    · exact ⟨1, by norm_num, by norm_num⟩
  obtain ⟨s, es, has⟩ := hs
  rw [es] at h
  split at h
  · split at h <;> cases h
  · next h1 =>
    split at h
    · injection h with h
      refine ⟨s * (b.extractLsb' 0 23).toNat, -149, ?_, le_refl _, by norm_num, by rw [← h]; push_cast; ring⟩
      rw [abs_mul, has, one_mul, Nat.abs_cast]
      have : (b.extractLsb' 0 23).toNat < 2 ^ 24 := by omega
      exact_mod_cast this
    · next h2 =>
      injection h with h
      refine ⟨s * ((b.extractLsb' 0 23).toNat + 2 ^ 23 : ℕ), ((b.extractLsb' 23 8).toNat : ℤ) - 150, ?_, by omega, by omega, by rw [← h]; push_cast; ring⟩
      rw [abs_mul, has, one_mul, Nat.abs_cast]
      have : (b.extractLsb' 0 23).toNat + 2 ^ 23 < 2 ^ 24 := by omega
      exact_mod_cast this

theorem Representable.scaled {q : ℚ} (h : Representable q) (h0 : q ≠ 0) :
    ∃ m : ℕ, |q| = m * pow2 (max (logTwo q) (-126) - 23) ∧ m < 2 ^ 24 ∧ (m < 2 ^ 23 → max (logTwo q) (-126) = -126) ∧ max (logTwo q) (-126) ≤ 127 := by
  obtain ⟨k, e, hk, he, he2, hq⟩ := h
  obtain ⟨h1, h2⟩ := logTwo_spec h0
  have habs : |q| = (k.natAbs : ℕ) * pow2 e := by
    rw [hq, abs_mul, abs_of_pos (pow2_pos e), Nat.cast_natAbs, Int.cast_abs]
  have hk' : k.natAbs < 2 ^ 24 := by rw [Int.abs_eq_natAbs] at hk; omega
  have hlt : |q| < pow2 (e + 24) := by
    rw [habs, add_comm, pow2_add]
    refine mul_lt_mul_of_pos_right ?_ (pow2_pos e)
    rw [show pow2 24 = ((2 ^ 24 : ℕ) : ℚ) from rfl]
    exact_mod_cast hk'
  have hL : logTwo q ≤ e + 23 := by
    have := pow2_lt_iff.1 (lt_of_le_of_lt h1 hlt)
    omega
  generalize hM : max (logTwo q) (-126) = M
  have hMe : M - 23 ≤ e := by omega
  obtain ⟨d, hd⟩ := Int.eq_ofNat_of_zero_le (show 0 ≤ e - (M - 23) by omega)
  have hpe : pow2 e = (2 ^ d : ℕ) * pow2 (M - 23) := by
    rw [show e = (d : ℤ) + (M - 23) by omega, pow2_add]
    congr 1
  refine ⟨k.natAbs * 2 ^ d, ?_, ?_, ?_, by omega⟩
  · rw [habs, hpe]
    push_cast
    ring
  · have h3 : ((k.natAbs * 2 ^ d : ℕ) : ℚ) * pow2 (M - 23) < pow2 24 * pow2 (M - 23) := by
      rw [← pow2_add]
      have : |q| < pow2 (24 + (M - 23)) := lt_of_lt_of_le h2 (pow2_le (by omega))
      rw [habs, hpe] at this
      push_cast at this ⊢
      linarith
    have h4 := lt_of_mul_lt_mul_right h3 (pow2_pos _).le
    rw [show pow2 24 = ((2 ^ 24 : ℕ) : ℚ) from rfl] at h4
    exact_mod_cast h4
  · intro hm
    by_contra hne
    have hML : M = logTwo q := by omega
    have h3 : |q| < pow2 M := by
      rw [habs, hpe, ← mul_assoc, show pow2 M = pow2 23 * pow2 (M - 23) by rw [← pow2_add]; congr 1; ring]
      refine mul_lt_mul_of_pos_right ?_ (pow2_pos _)
      rw [show pow2 23 = ((2 ^ 23 : ℕ) : ℚ) from rfl]
      exact_mod_cast hm
    rw [hML] at h3
    linarith

theorem ofBits_ofNat {n e m : ℕ} (s : Bool) (he : e < 2 ^ 8) (hm : m < 2 ^ 23) (hn : n = (if s then 2 ^ 31 else 0) + (e * 2 ^ 23 + m)) :
    (BitVec.ofNat 32 n).getMsbD 0 = s ∧ ((BitVec.ofNat 32 n).extractLsb' 23 8).toNat = e ∧ ((BitVec.ofNat 32 n).extractLsb' 0 23).toNat = m := by
  subst hn
  refine ⟨?_, ?_, ?_⟩
  · rw [BitVec.getMsbD_eq_getLsbD, BitVec.getLsbD_ofNat]
    simp only [Nat.testBit_eq_decide_div_mod_eq]
    cases s <;> simp <;> omega
  · rw [BitVec.extractLsb'_toNat, BitVec.toNat_ofNat, Nat.shiftRight_eq_div_pow]
    cases s <;> simp <;> omega
  · rw [BitVec.extractLsb'_toNat, BitVec.toNat_ofNat, Nat.shiftRight_eq_div_pow]
    cases s <;> simp <;> omega

/-- The bits of a representable number stand for it. -/
theorem ofBits_toBits {q : ℚ} (h : Representable q) : ofBits (toBits (.fin q)) = .fin q := by
  by_cases h0 : q = 0
  · subst h0
    decide +kernel
  obtain ⟨m, e1, e2, e3, e4⟩ := h.scaled h0
  unfold toBits
  dsimp only
  generalize hM : max (logTwo q) (-126) = M at *
  have hpos := pow2_pos (M - 23)
  have hfl : (|q| / pow2 (M - 23)).floor.toNat = m := by
    rw [e1, mul_div_assoc, div_self hpos.ne', mul_one]
    change ⌊(m : ℚ)⌋.toNat = m
    rw [Int.floor_natCast]
    rfl
  rw [hfl]
  have hsq : ∀ x : ℚ, |q| = x → (if decide (q < 0) = true then (-1 : ℚ) else 1) * x = q := by
    intro x hx
    rw [← hx]
    by_cases hn : q < 0
    · rw [abs_of_neg hn]; simp [hn]
    · rw [abs_of_nonneg (not_lt.1 hn)]; simp [hn]
  have hif : (if q < 0 then 2 ^ 31 else 0) = if decide (q < 0) = true then 2 ^ 31 else 0 := by simp
  by_cases hm : m < 2 ^ 23
  · have hM2 := e3 hm
    obtain ⟨b1, b2, b3⟩ := ofBits_ofNat (n := (if q < 0 then 2 ^ 31 else 0) + m) (e := 0) (m := m) (decide (q < 0)) (by norm_num) hm (by rw [hif]; omega)
    rw [if_pos hm, ofBits]
    rw [b1, b2, b3, if_neg (by norm_num), if_pos rfl]
    congr 1
    rw [mul_assoc]
    refine hsq _ ?_
    rw [e1, hM2]
    norm_num
  · obtain ⟨b1, b2, b3⟩ := ofBits_ofNat (n := (if q < 0 then 2 ^ 31 else 0) + ((M + 127).toNat * 2 ^ 23 + (m - 2 ^ 23))) (e := (M + 127).toNat) (m := m - 2 ^ 23) (decide (q < 0)) (by omega)
      (by omega) (by rw [hif])
    rw [if_neg hm, ofBits]
    rw [b1, b2, b3, if_neg (by omega), if_neg (by omega), mul_assoc]
    refine congrArg fin (hsq _ ?_)
    rw [e1, Nat.sub_add_cancel (by omega), show (((M + 127).toNat : ℕ) : ℤ) - 150 = M - 23 by omega]

theorem rounded_grid (q : ℚ) : ∃ m e : ℤ, |m| < 2 ^ 24 ∧ -149 ≤ e ∧ rounded q = m * pow2 e := by
  by_cases h0 : q = 0
  · subst h0
    rw [rounded_zero]
    exact ⟨0, 0, by norm_num, by norm_num, by norm_num⟩
  have hpl : -149 ≤ place q := by unfold place; omega
  have hp := pow2_pos (place q)
  generalize hm : nearest (q / pow2 (place q)) = m
  have hr : rounded q = m * pow2 (place q) := by rw [rounded, hm]
  have hlt : |q / pow2 (place q)| < 2 ^ 24 := by
    rw [abs_div, abs_of_pos hp, div_lt_iff₀ hp]
    refine lt_of_lt_of_le (logTwo_spec h0).2 ?_
    rw [show (2 : ℚ) ^ 24 = pow2 24 from by norm_num [pow2_eq], ← pow2_add]
    refine pow2_le ?_
    unfold place
    omega
  have hm24 : |m| ≤ 2 ^ 24 := by
    have h1 := nearest_near (q / pow2 (place q))
    rw [hm] at h1
    have h2 : |(m : ℚ)| < 2 ^ 24 + 1 := by
      have := abs_sub_abs_le_abs_sub (m : ℚ) (q / pow2 (place q))
      linarith
    have : |m| < 2 ^ 24 + 1 := by exact_mod_cast h2
    omega
  rcases lt_or_eq_of_le hm24 with h | h
  · exact ⟨m, _, h, hpl, hr⟩
  · obtain ⟨k, hk⟩ : ∃ k, m = 2 * k ∧ |k| < 2 ^ 24 := by
      rcases abs_choice m with e | e
      · exact ⟨2 ^ 23, by omega, by norm_num⟩
      · exact ⟨-2 ^ 23, by omega, by norm_num⟩
    refine ⟨k, place q + 1, hk.2, by omega, ?_⟩
    rw [hr, pow2_add, hk.1, show pow2 1 = 2 from rfl]
    push_cast
    ring

/-- The result of an operation is representable. -/
theorem round_representable {q r : ℚ} (h : round q = .fin r) : Representable r := by
  unfold round at h
  split at h
  · next hlt =>
    injection h with h
    obtain ⟨m, e, hm, he, hq⟩ := rounded_grid q
    rw [h] at hq hlt
    by_cases he2 : e ≤ 104
    · exact ⟨m, e, hm, he, he2, hq⟩
    · obtain ⟨d, hd⟩ := Int.eq_ofNat_of_zero_le (show 0 ≤ e - 104 by omega)
      have hpe : pow2 e = ((2 ^ d : ℕ) : ℚ) * pow2 104 := by
        rw [show e = (d : ℤ) + 104 by omega, pow2_add]
        congr 1
      have hr : r = ((m * (2 ^ d : ℕ) : ℤ) : ℚ) * pow2 104 := by
        rw [hq, hpe]
        push_cast
        ring
      refine ⟨m * (2 ^ d : ℕ), 104, ?_, by norm_num, le_refl _, hr⟩
      rw [hr, abs_mul, abs_of_pos (pow2_pos 104), show (128 : ℤ) = 24 + 104 by norm_num, pow2_add] at hlt
      have h4 := lt_of_mul_lt_mul_right hlt (pow2_pos _).le
      rw [show pow2 24 = ((2 ^ 24 : ℤ) : ℚ) from rfl, ← Int.cast_abs] at h4
      exact_mod_cast h4
  · cases h

/-- No number with 24 places is nearer. -/
theorem rounded_nearest (q : ℚ) {m e : ℤ} (hm : |m| < 2 ^ 24) (he : -149 ≤ e) : |rounded q - q| ≤ |m * pow2 e - q| := by
  have hp := pow2_pos (place q)
  have grid : ∀ n : ℤ, |rounded q - q| ≤ |n * pow2 (place q) - q| := by
    intro n
    have h := nearest_best (q / pow2 (place q)) n
    have e1 : rounded q - q = (nearest (q / pow2 (place q)) - q / pow2 (place q)) * pow2 (place q) := by
      unfold rounded
      field_simp
    have e2 : n * pow2 (place q) - q = (n - q / pow2 (place q)) * pow2 (place q) := by field_simp
    rw [e1, e2, abs_mul, abs_mul, abs_of_pos hp]
    exact mul_le_mul_of_nonneg_right h hp.le
  by_cases h0 : q = 0
  · rw [h0, rounded_zero, sub_zero, abs_zero]; exact abs_nonneg _
  by_cases hpe : place q ≤ e
  · obtain ⟨k, hk⟩ := Int.eq_ofNat_of_zero_le (show 0 ≤ e - place q by omega)
    have h := grid (m * 2 ^ k)
    have e3 : (m : ℚ) * pow2 e = ((m * 2 ^ k : ℤ) : ℚ) * pow2 (place q) := by
      rw [show e = (k : ℤ) + place q by omega, pow2_add, show pow2 (k : ℤ) = 2 ^ k by rw [pow2_eq, zpow_natCast]]
      push_cast
      ring
    rw [e3]
    exact h
  · have hlt : |(m : ℚ) * pow2 e| ≤ pow2 (place q + 23) := by
      rw [abs_mul, abs_of_pos (pow2_pos e)]
      have h1 : (|(m : ℚ)|) < pow2 24 := by
        rw [show pow2 24 = ((2 ^ 24 : ℤ) : ℚ) from rfl]
        exact_mod_cast hm
      have h2 : pow2 24 * pow2 e ≤ pow2 (place q + 23) := by
        rw [← pow2_add]
        exact pow2_le (by omega)
      have := pow2_pos e
      nlinarith
    have hq : pow2 (place q + 23) ≤ |q| := by
      refine le_trans (pow2_le ?_) (logTwo_spec h0).1
      unfold place at hpe ⊢
      omega
    have e23 : pow2 (place q + 23) = 8388608 * pow2 (place q) := by
      rw [pow2_add, show pow2 23 = 8388608 by norm_num [pow2_eq]]
      ring
    rcases le_or_gt 0 q with hs | hs
    · have h := grid (2 ^ 23)
      push_cast at h
      rw [← e23, abs_of_nonpos (show pow2 (place q + 23) - q ≤ 0 by rw [abs_of_nonneg hs] at hq; linarith)] at h
      have h3 := le_abs_self ((m : ℚ) * pow2 e)
      have h4 := neg_abs_le ((m : ℚ) * pow2 e - q)
      linarith
    · have h := grid (-(2 ^ 23))
      push_cast at h
      rw [neg_mul, ← e23, abs_of_nonneg (show 0 ≤ -pow2 (place q + 23) - q by rw [abs_of_neg hs] at hq; linarith)] at h
      have h3 := neg_abs_le ((m : ℚ) * pow2 e)
      have h4 := le_abs_self ((m : ℚ) * pow2 e - q)
      linarith

theorem rounded_le {q g : ℚ} (hg : ∃ m e : ℤ, |m| < 2 ^ 24 ∧ -149 ≤ e ∧ g = m * pow2 e) (h : q ≤ g) : rounded q ≤ g := by
  obtain ⟨m, e, hm, he, rfl⟩ := hg
  have := rounded_nearest q hm he
  rw [abs_of_nonneg (show 0 ≤ m * pow2 e - q by linarith)] at this
  have := le_abs_self (rounded q - q)
  linarith

theorem le_rounded {q g : ℚ} (hg : ∃ m e : ℤ, |m| < 2 ^ 24 ∧ -149 ≤ e ∧ g = m * pow2 e) (h : g ≤ q) : g ≤ rounded q := by
  obtain ⟨m, e, hm, he, rfl⟩ := hg
  have := rounded_nearest q hm he
  rw [abs_of_nonpos (show m * pow2 e - q ≤ 0 by linarith)] at this
  have := neg_abs_le (rounded q - q)
  linarith

/-- Rounding does not change the order. -/
theorem rounded_mono {a b : ℚ} (h : a ≤ b) : rounded a ≤ rounded b := by
  by_contra hlt
  rw [not_le] at hlt
  have ga := rounded_grid a
  have gb := rounded_grid b
  have h1 : rounded b < a := by
    by_contra hn
    exact absurd (rounded_le gb (not_lt.1 hn)) (not_le.2 hlt)
  have h2 : b < rounded a := by
    by_contra hn
    exact absurd (le_rounded ga (not_lt.1 hn)) (not_le.2 hlt)
  obtain ⟨m, e, hm, he, e1⟩ := gb
  obtain ⟨m', e', hm', he', e2⟩ := ga
  have n1 := rounded_nearest a hm he
  have n2 := rounded_nearest b hm' he'
  rw [← e1, abs_of_nonneg (show 0 ≤ rounded a - a by linarith), abs_of_neg (show rounded b - a < 0 by linarith)] at n1
  rw [← e2, abs_of_nonneg (show 0 ≤ rounded a - b by linarith), abs_of_nonpos (show rounded b - b ≤ 0 by linarith)] at n2
  have hab : a = b := by linarith
  rw [hab] at hlt
  exact lt_irrefl _ hlt

theorem int_grid {n : ℤ} (h : |n| < 2 ^ 24) : ∃ m e : ℤ, |m| < 2 ^ 24 ∧ -149 ≤ e ∧ (n : ℚ) = m * pow2 e := ⟨n, 0, h, by norm_num, by norm_num [pow2_eq]⟩

theorem Representable.grid {q : ℚ} (h : Representable q) : ∃ m e : ℤ, |m| < 2 ^ 24 ∧ -149 ≤ e ∧ q = m * pow2 e := by
  obtain ⟨m, e, h1, h2, -, h3⟩ := h
  exact ⟨m, e, h1, h2, h3⟩

theorem pow2_grid {e : ℤ} (h : -149 ≤ e) : ∃ m k : ℤ, |m| < 2 ^ 24 ∧ -149 ≤ k ∧ pow2 e = m * pow2 k := ⟨1, e, by norm_num, h, by norm_num⟩

theorem neg_grid {q : ℚ} (h : ∃ m e : ℤ, |m| < 2 ^ 24 ∧ -149 ≤ e ∧ q = m * pow2 e) : ∃ m e : ℤ, |m| < 2 ^ 24 ∧ -149 ≤ e ∧ -q = m * pow2 e := by
  obtain ⟨m, e, h1, h2, h3⟩ := h
  exact ⟨-m, e, by rwa [abs_neg], h2, by rw [h3]; push_cast; ring⟩

theorem Representable.neg {q : ℚ} (h : Representable q) : Representable (-q) := by
  obtain ⟨m, e, h1, h2, h4, h3⟩ := h
  exact ⟨-m, e, by rwa [abs_neg], h2, h4, by rw [h3]; push_cast; ring⟩

/-- The rounding error: one part in `2 ^ 24`, or half the least positive number. -/
theorem rounded_close (q : ℚ) : |rounded q - q| ≤ |q| * pow2 (-24) + pow2 (-150) := by
  have hp := pow2_pos (-24)
  have e : pow2 (-150) = pow2 (-126) * pow2 (-24) := by rw [← pow2_add]; norm_num
  rcases le_total |q| (pow2 (-126)) with h | h
  · refine (rounded_error h le_rfl).trans ?_
    rw [e]
    have := abs_nonneg q
    nlinarith
  · refine (rounded_error le_rfl h).trans ?_
    have := pow2_pos (-150)
    linarith

/-- A bound that is a power of two stays a bound. -/
theorem rounded_abs_le {q : ℚ} {e : ℤ} (he : -149 ≤ e) (h : |q| ≤ pow2 e) : |rounded q| ≤ pow2 e := by
  rw [abs_le] at h ⊢
  exact ⟨le_rounded (neg_grid (pow2_grid he)) h.1, rounded_le (pow2_grid he) h.2⟩

theorem round_small {q : ℚ} (h : |q| ≤ pow2 127) : round q = .fin (rounded q) := by
  unfold round
  rw [if_pos (lt_of_le_of_lt (rounded_abs_le (by norm_num) h) (pow2_lt_iff.2 (by norm_num)))]

theorem round_rep {q : ℚ} (h : Representable q) : round q = .fin q := by
  unfold round
  rw [h.rounded, if_pos]
  obtain ⟨m, e, hm, he, he2, rfl⟩ := h
  have h1 : (|(m : ℚ)|) < pow2 24 := by
    rw [show pow2 24 = ((2 ^ 24 : ℤ) : ℚ) from rfl]
    exact_mod_cast hm
  rw [abs_mul, abs_of_pos (pow2_pos e)]
  have := pow2_pos e
  calc |(m : ℚ)| * pow2 e < pow2 24 * pow2 e := by nlinarith
    _ = pow2 (24 + e) := (pow2_add _ _).symm
    _ ≤ _ := pow2_le (by omega)

/-- Too large for the type. -/
theorem round_large {q : ℚ} (h : pow2 128 ≤ |q|) : round q = .inf (decide (q < 0)) := by
  unfold round
  rw [if_neg]
  rw [not_lt]
  rcases le_abs.1 h with h | h
  · exact le_abs.2 (Or.inl (le_rounded (pow2_grid (by norm_num)) h))
  · exact le_abs.2 (Or.inr (by
      have := rounded_le (neg_grid (pow2_grid (show (-149 : ℤ) ≤ 128 by norm_num))) (show q ≤ -pow2 128 by linarith)
      linarith))

/-- The difference of two different numbers is not zero, as there are numbers below the smallest normal one. -/
theorem rounded_sub_ne {a b : ℚ} (ha : Representable a) (hb : Representable b) (h : a ≠ b) : rounded (a - b) ≠ 0 := by
  have key : ∀ {a b : ℚ}, Representable a → Representable b → b < a → pow2 (-149) ≤ a - b := by
    intro a b ha hb hlt
    obtain ⟨m, e, hm, he, -, rfl⟩ := ha
    obtain ⟨n, f, hn, hf, -, rfl⟩ := hb
    obtain ⟨i, hi⟩ := Int.eq_ofNat_of_zero_le (show 0 ≤ e + 149 by omega)
    obtain ⟨j, hj⟩ := Int.eq_ofNat_of_zero_le (show 0 ≤ f + 149 by omega)
    have hp := pow2_pos (-149)
    have e1 : pow2 e = ((2 ^ i : ℕ) : ℚ) * pow2 (-149) := by
      rw [show e = (i : ℤ) + -149 by omega, pow2_add]; congr 1
    have e2 : pow2 f = ((2 ^ j : ℕ) : ℚ) * pow2 (-149) := by
      rw [show f = (j : ℤ) + -149 by omega, pow2_add]; congr 1
    rw [e1, e2] at hlt ⊢
    have h1 : ((m * (2 ^ i : ℕ) - n * (2 ^ j : ℕ) : ℤ) : ℚ) * pow2 (-149) = m * (((2 ^ i : ℕ) : ℚ) * pow2 (-149)) - n * (((2 ^ j : ℕ) : ℚ) * pow2 (-149)) := by
      push_cast; ring
    rw [← h1]
    have h2 : (0 : ℤ) < m * (2 ^ i : ℕ) - n * (2 ^ j : ℕ) := by
      by_contra hc
      rw [not_lt] at hc
      have : ((m * (2 ^ i : ℕ) - n * (2 ^ j : ℕ) : ℤ) : ℚ) ≤ 0 := by exact_mod_cast hc
      nlinarith
    have h3 : (1 : ℚ) ≤ ((m * (2 ^ i : ℕ) - n * (2 ^ j : ℕ) : ℤ) : ℚ) := by exact_mod_cast h2
    nlinarith
  rcases lt_or_gt_of_ne h with h | h
  · have h1 : rounded (a - b) ≤ -pow2 (-149) := rounded_le (neg_grid (pow2_grid le_rfl)) (by have := key hb ha h; linarith)
    have := pow2_pos (-149)
    exact ne_of_lt (by linarith)
  · exact ne_of_gt (lt_of_lt_of_le (pow2_pos (-149)) (le_rounded (pow2_grid le_rfl) (key ha hb h)))

end F32

end Zpl
