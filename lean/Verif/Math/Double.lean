import Mathlib.Data.Rat.Floor
import Mathlib.Algebra.Order.Field.Power
import Mathlib.Tactic.Linarith
import Mathlib.Tactic.NormNum
import Mathlib.Tactic.Positivity
import Mathlib.Tactic.Ring
import Mathlib.Tactic.FieldSimp
import Verif.Basic

/-!
# Double precision numbers

The arithmetic of `double` as IEEE 754 has it, rounding to nearest with ties to even, which is what the compilers use for `zpl_f64` on the modelled platform (no fused
operations, no extended precision).  A number that is not NaN or infinite is the rational number it stands for.  Simplification: the two zeros are one.  No theorem
depends on this file but those about printing and reading real numbers (C127, C128) and about real numbers in documents (C129).

## Definitions -/

namespace Zpl

/-- The values of `zpl_f64`. -/
inductive F64 where
  | nan
  | inf (negative : Bool)
  | fin (q : ℚ)
  deriving DecidableEq

namespace F64

/-- `2 ^ e`. -/
def pow2 (e : ℤ) : ℚ := if 0 ≤ e then ((2 ^ e.toNat : ℕ) : ℚ) else 1 / ((2 ^ (-e).toNat : ℕ) : ℚ)

/-- The whole number nearest to `q`, the even one of two. -/
def nearest (q : ℚ) : ℤ :=
  let f := q.floor
  if q - f < 1 / 2 then f else if 1 / 2 < q - f then f + 1 else if f % 2 = 0 then f else f + 1

/-- The greatest `e` with `2 ^ e ≤ |q|`, for `q` not 0. -/
def logTwo (q : ℚ) : ℤ :=
  let e := (q.num.natAbs.log2 : ℤ) - (q.den.log2 : ℤ)
  if |q| < pow2 e then e - 1 else e

/-- The exponent of the last of the 53 places of `q`; there are none below `2 ^ -1074`. -/
def place (q : ℚ) : ℤ := max (logTwo q) (-1022) - 52

/-- `q` with 53 places. -/
def rounded (q : ℚ) : ℚ := nearest (q / pow2 (place q)) * pow2 (place q)

/-- The result of an operation whose exact result is `q`. -/
def round (q : ℚ) : F64 := if |rounded q| < pow2 1024 then .fin (rounded q) else .inf (decide (q < 0))

/-- The number is a value of `double`. -/
def Representable (q : ℚ) : Prop := ∃ m e : ℤ, |m| < 2 ^ 53 ∧ -1074 ≤ e ∧ e ≤ 971 ∧ q = m * pow2 e

/-- Conversion of an integer. -/
def ofInt (n : ℤ) : F64 := round n

def neg : F64 → F64
  | nan => nan
  | inf b => inf (!b)
  | fin q => fin (-q)

def add : F64 → F64 → F64
  | fin a, fin b => round (a + b)
  | nan, _ => nan
  | _, nan => nan
  | inf a, inf b => if a = b then inf a else nan
  | inf a, fin _ => inf a
  | fin _, inf b => inf b

def sub (a b : F64) : F64 := add a (neg b)

def mul : F64 → F64 → F64
  | fin a, fin b => round (a * b)
  | nan, _ => nan
  | _, nan => nan
  | inf a, inf b => inf (a != b)
  | inf a, fin q => if q = 0 then nan else inf (a != decide (q < 0))
  | fin q, inf a => if q = 0 then nan else inf (a != decide (q < 0))

/-- Division; by zero only for the numerators that do not need the sign of the zero. -/
def div : F64 → F64 → F64
  | fin a, fin b => if b = 0 then (if a = 0 then nan else inf (decide (a < 0))) else round (a / b)
  | nan, _ => nan
  | _, nan => nan
  | inf _, inf _ => nan
  | inf a, fin q => inf (a != decide (q < 0))
  | fin _, inf _ => fin 0

/-- `a < b` -/
def lt : F64 → F64 → Bool
  | fin a, fin b => decide (a < b)
  | inf true, inf false => true
  | inf true, fin _ => true
  | fin _, inf false => true
  | _, _ => false

/-- Conversion to `zpl_u64`: the fraction is dropped; undefined if the rest is no value of the type (C11 6.3.1.4). -/
def toU64 : F64 → Except Fault (BitVec 64)
  | fin q => if -1 < q ∧ q < pow2 64 then .ok (BitVec.ofNat 64 q.floor.toNat) else .error .ub
  | _ => .error .ub

/-- The value with the given bits. -/
def ofBits (b : BitVec 64) : F64 :=
  let s : ℚ := if b.getMsbD 0 then -1 else 1
  let e := (b.extractLsb' 52 11).toNat
  let m := (b.extractLsb' 0 52).toNat
  if e = 2047 then (if m = 0 then inf (b.getMsbD 0) else nan)
  else if e = 0 then fin (s * m * pow2 (-1074))
  else fin (s * ((m + 2 ^ 52 : ℕ) : ℚ) * pow2 ((e : ℤ) - 1075))

/-- The bits of a value; of a NaN, one of them. -/
def toBits : F64 → BitVec 64
  | nan => 0x7ff8000000000000#64
  | inf b => if b then 0xfff0000000000000#64 else 0x7ff0000000000000#64
  | fin q =>
    let e := max (logTwo q) (-1022)
    let m := (|q| / pow2 (e - 52)).floor.toNat
    BitVec.ofNat 64 ((if q < 0 then 2 ^ 63 else 0) + if m < 2 ^ 52 then m else (e + 1023).toNat * 2 ^ 52 + (m - 2 ^ 52))

/-! ## Facts -/

theorem pow2_eq (e : ℤ) : pow2 e = (2 : ℚ) ^ e := by
  unfold pow2
  split
  · next h =>
    obtain ⟨n, rfl⟩ := Int.eq_ofNat_of_zero_le h
    simp
  · next h =>
    obtain ⟨n, hn⟩ := Int.eq_ofNat_of_zero_le (show 0 ≤ -e by omega)
    have : e = -(n : ℤ) := by omega
    subst this
    simp

theorem pow2_pos (e : ℤ) : 0 < pow2 e := by rw [pow2_eq]; positivity

theorem pow2_add (a b : ℤ) : pow2 (a + b) = pow2 a * pow2 b := by
  rw [pow2_eq, pow2_eq, pow2_eq, zpow_add₀ (by norm_num)]

theorem pow2_le {a b : ℤ} (h : a ≤ b) : pow2 a ≤ pow2 b := by
  rw [pow2_eq, pow2_eq]; exact zpow_le_zpow_right₀ (by norm_num) h

theorem pow2_lt_iff {a b : ℤ} : pow2 a < pow2 b ↔ a < b := by
  rw [pow2_eq, pow2_eq]; exact zpow_lt_zpow_iff_right₀ (by norm_num)

theorem nearest_near (q : ℚ) : |(nearest q : ℚ) - q| ≤ 1 / 2 := by
  have h1 : ((q.floor : ℤ) : ℚ) ≤ q := Int.floor_le q
  have h2 : q < (q.floor : ℤ) + 1 := Int.lt_floor_add_one q
  unfold nearest
  dsimp only
  split
  · rw [abs_le]; constructor <;> linarith
  · next h =>
    split
    · rw [abs_le]; push_cast; constructor <;> linarith
    · next h' =>
      split
      · rw [abs_le]; constructor <;> linarith
      · rw [abs_le]; push_cast; constructor <;> linarith

theorem nearest_int (n : ℤ) : nearest (n : ℚ) = n := by
  have h : ((n : ℚ)).floor = n := by
    change ⌊(n : ℚ)⌋ = n
    exact Int.floor_intCast n
  unfold nearest
  dsimp only
  rw [h, if_pos (by norm_num)]

/-- `logTwo` is the logarithm. -/
theorem logTwo_spec {q : ℚ} (hq : q ≠ 0) : pow2 (logTwo q) ≤ |q| ∧ |q| < pow2 (logTwo q + 1) := by
  have hn : q.num.natAbs ≠ 0 := by simpa using hq
  have hd : q.den ≠ 0 := q.den_nz
  have hd' : (0 : ℚ) < q.den := by exact_mod_cast Nat.pos_of_ne_zero hd
  have habs : |q| = (q.num.natAbs : ℚ) / q.den := by
    conv => lhs; rw [← Rat.num_div_den q]
    rw [abs_div, Nat.abs_cast, Nat.cast_natAbs, Int.cast_abs]
  have n1 := Nat.log2_self_le hn
  have n2 := @Nat.lt_log2_self q.num.natAbs
  have d1 := Nat.log2_self_le hd
  have d2 := @Nat.lt_log2_self q.den
  have n1' : (2 : ℚ) ^ q.num.natAbs.log2 ≤ q.num.natAbs := by exact_mod_cast n1
  have n2' : (q.num.natAbs : ℚ) < 2 ^ (q.num.natAbs.log2 + 1) := by exact_mod_cast n2
  have d1' : (2 : ℚ) ^ q.den.log2 ≤ q.den := by exact_mod_cast d1
  have d2' : (q.den : ℚ) < 2 ^ (q.den.log2 + 1) := by exact_mod_cast d2
  have up : |q| < pow2 ((q.num.natAbs.log2 : ℤ) - q.den.log2 + 1) := by
    rw [habs, div_lt_iff₀ hd', pow2_eq, show (q.num.natAbs.log2 : ℤ) - q.den.log2 + 1 = (q.num.natAbs.log2 + 1 : ℕ) - (q.den.log2 : ℕ) by push_cast; ring,
      zpow_sub₀ (by norm_num), zpow_natCast, zpow_natCast]
    calc (q.num.natAbs : ℚ) < 2 ^ (q.num.natAbs.log2 + 1) := n2'
      _ = 2 ^ (q.num.natAbs.log2 + 1) / 2 ^ q.den.log2 * 2 ^ q.den.log2 := by field_simp
      _ ≤ _ := by gcongr
  have lo : pow2 ((q.num.natAbs.log2 : ℤ) - q.den.log2 - 1) ≤ |q| := by
    rw [habs, le_div_iff₀ hd', pow2_eq, show (q.num.natAbs.log2 : ℤ) - q.den.log2 - 1 = (q.num.natAbs.log2 : ℕ) - (q.den.log2 + 1 : ℕ) by push_cast; ring,
      zpow_sub₀ (by norm_num), zpow_natCast, zpow_natCast]
    calc (2 : ℚ) ^ q.num.natAbs.log2 / 2 ^ (q.den.log2 + 1) * q.den ≤ 2 ^ q.num.natAbs.log2 / 2 ^ (q.den.log2 + 1) * 2 ^ (q.den.log2 + 1) := by gcongr
      _ = 2 ^ q.num.natAbs.log2 := by field_simp
      _ ≤ _ := n1'
  unfold logTwo
  dsimp only
  split
  · next h => exact ⟨lo, by simpa using h⟩
  · next h => exact ⟨not_lt.1 h, up⟩

theorem rounded_zero : rounded 0 = 0 := by
  have h : nearest ((0 : ℤ) : ℚ) = 0 := nearest_int 0
  unfold rounded
  rw [zero_div, show (0 : ℚ) = ((0 : ℤ) : ℚ) by norm_num, h]
  norm_num

/-- The rounding error is half a unit of the last place. -/
theorem rounded_near (q : ℚ) : |rounded q - q| ≤ pow2 (place q) / 2 := by
  have hp := pow2_pos (place q)
  have h := nearest_near (q / pow2 (place q))
  have e : rounded q - q = (nearest (q / pow2 (place q)) - q / pow2 (place q)) * pow2 (place q) := by
    unfold rounded
    field_simp
  rw [e, abs_mul, abs_of_pos hp]
  nlinarith

/-- The rounding error, from a bound of the exact result. -/
theorem rounded_error {q B : ℚ} (h : |q| ≤ B) (hB : pow2 (-1022) ≤ B) : |rounded q - q| ≤ B * pow2 (-53) := by
  by_cases hq : q = 0
  · subst hq
    rw [rounded_zero, sub_zero, abs_zero]
    have := pow2_pos (-53)
    have := pow2_pos (-1022)
    nlinarith
  · refine (rounded_near q).trans ?_
    have hl : pow2 (max (logTwo q) (-1022)) ≤ B := by
      rcases max_choice (logTwo q) (-1022) with e | e <;> rw [e]
      · exact (logTwo_spec hq).1.trans h
      · exact hB
    have e : pow2 (place q) / 2 = pow2 (max (logTwo q) (-1022)) * pow2 (-53) := by
      unfold place
      rw [show max (logTwo q) (-1022) - 52 = max (logTwo q) (-1022) + (-53) + 1 by ring, pow2_add, pow2_add, show pow2 1 = 2 from rfl]
      ring
    rw [e]
    have := pow2_pos (-53)
    nlinarith

theorem rounded_eq {q : ℚ} {m e : ℤ} (hm : |m| < 2 ^ 53) (he : -1074 ≤ e) (hq : q = m * pow2 e) : rounded q = q := by
  by_cases h0 : q = 0
  · rw [h0, rounded_zero]
  · have hlt : |q| < pow2 (53 + e) := by
      rw [hq, abs_mul, abs_of_pos (pow2_pos e), pow2_add]
      have : (|(m : ℚ)|) < pow2 53 := by
        rw [show pow2 53 = ((2 ^ 53 : ℤ) : ℚ) from rfl]
        exact_mod_cast hm
      have := pow2_pos e
      nlinarith
    have hl : logTwo q < 53 + e := pow2_lt_iff.1 (lt_of_le_of_lt (logTwo_spec h0).1 hlt)
    have hpl : place q ≤ e := by unfold place; omega
    obtain ⟨k, hk⟩ := Int.eq_ofNat_of_zero_le (show 0 ≤ e - place q by omega)
    have hdiv : q / pow2 (place q) = ((m * 2 ^ k : ℤ) : ℚ) := by
      rw [div_eq_iff (pow2_pos _).ne']
      conv => lhs; rw [hq]
      conv => lhs; rw [show e = (k : ℤ) + place q by omega, pow2_add, show pow2 (k : ℤ) = 2 ^ k by rw [pow2_eq, zpow_natCast]]
      push_cast
      ring
    unfold rounded
    rw [hdiv, nearest_int, ← hdiv]
    have := (pow2_pos (place q)).ne'
    field_simp

theorem round_fin {q : ℚ} (h : |q| ≤ pow2 100) : round q = .fin (rounded q) := by
  have h1 := rounded_error h (pow2_le (by norm_num))
  have h2 : |rounded q| ≤ pow2 101 := by
    have h3 : pow2 (-53) ≤ 1 := by rw [show (1 : ℚ) = pow2 0 from rfl]; exact pow2_le (by norm_num)
    have h4 : pow2 101 = pow2 100 + pow2 100 := by rw [show (101 : ℤ) = 100 + 1 by norm_num, pow2_add, show pow2 1 = 2 from rfl]; ring
    have := abs_sub_abs_le_abs_sub (rounded q) q
    have := pow2_pos 100
    nlinarith
  exact if_pos (lt_of_le_of_lt h2 (pow2_lt_iff.2 (by norm_num)))

/-- Whole numbers up to `2 ^ 53` are exact. -/
theorem ofInt_eq {n : ℤ} (h : |n| < 2 ^ 53) : ofInt n = .fin n := by
  have e : rounded n = n := rounded_eq h (by norm_num : (-1074 : ℤ) ≤ 0) (by rw [show pow2 0 = 1 from rfl, mul_one])
  have hb : |(n : ℚ)| ≤ pow2 100 := by
    have h1 : |(n : ℚ)| < pow2 53 := by
      rw [show pow2 53 = ((2 ^ 53 : ℤ) : ℚ) from rfl]
      exact_mod_cast h
    exact h1.le.trans (pow2_le (by norm_num))
  rw [ofInt, round_fin hb, e]

theorem Representable.rounded {q : ℚ} (h : Representable q) : rounded q = q := by
  obtain ⟨m, e, hm, he, -, hq⟩ := h
  exact rounded_eq hm he hq

/-- What bits stand for is representable. -/
theorem ofBits_representable {b : BitVec 64} {q : ℚ} (h : ofBits b = .fin q) : Representable q := by
  have he := (b.extractLsb' 52 11).isLt
  have hm := (b.extractLsb' 0 52).isLt
  unfold ofBits at h
  dsimp only at h
  have hs : ∃ s : ℤ, (if b.getMsbD 0 then (-1 : ℚ) else 1) = s ∧ |s| = 1 := by
    split
    · exact ⟨-1, by norm_num, by norm_num⟩
    · exact ⟨1, by norm_num, by norm_num⟩
  obtain ⟨s, es, has⟩ := hs
  rw [es] at h
  split at h
  · split at h <;> cases h
  · next h1 =>
    split at h
    · injection h with h
      refine ⟨s * (b.extractLsb' 0 52).toNat, -1074, ?_, le_refl _, by norm_num, by rw [← h]; push_cast; ring⟩
      rw [abs_mul, has, one_mul, Nat.abs_cast]
      have : (b.extractLsb' 0 52).toNat < 2 ^ 53 := by omega
      exact_mod_cast this
    · next h2 =>
      injection h with h
      refine ⟨s * ((b.extractLsb' 0 52).toNat + 2 ^ 52 : ℕ), ((b.extractLsb' 52 11).toNat : ℤ) - 1075, ?_, by omega, by omega, by rw [← h]; push_cast; ring⟩
      rw [abs_mul, has, one_mul, Nat.abs_cast]
      have : (b.extractLsb' 0 52).toNat + 2 ^ 52 < 2 ^ 53 := by omega
      exact_mod_cast this

theorem Representable.scaled {q : ℚ} (h : Representable q) (h0 : q ≠ 0) :
    ∃ m : ℕ, |q| = m * pow2 (max (logTwo q) (-1022) - 52) ∧ m < 2 ^ 53 ∧ (m < 2 ^ 52 → max (logTwo q) (-1022) = -1022) ∧ max (logTwo q) (-1022) ≤ 1023 := by
  obtain ⟨k, e, hk, he, he2, hq⟩ := h
  obtain ⟨h1, h2⟩ := logTwo_spec h0
  have habs : |q| = (k.natAbs : ℕ) * pow2 e := by
    rw [hq, abs_mul, abs_of_pos (pow2_pos e), Nat.cast_natAbs, Int.cast_abs]
  have hk' : k.natAbs < 2 ^ 53 := by rw [Int.abs_eq_natAbs] at hk; omega
  have hlt : |q| < pow2 (e + 53) := by
    rw [habs, add_comm, pow2_add]
    refine mul_lt_mul_of_pos_right ?_ (pow2_pos e)
    rw [show pow2 53 = ((2 ^ 53 : ℕ) : ℚ) from rfl]
    exact_mod_cast hk'
  have hL : logTwo q ≤ e + 52 := by
    have := pow2_lt_iff.1 (lt_of_le_of_lt h1 hlt)
    omega
  generalize hM : max (logTwo q) (-1022) = M
  have hMe : M - 52 ≤ e := by omega
  obtain ⟨d, hd⟩ := Int.eq_ofNat_of_zero_le (show 0 ≤ e - (M - 52) by omega)
  have hpe : pow2 e = (2 ^ d : ℕ) * pow2 (M - 52) := by
    rw [show e = (d : ℤ) + (M - 52) by omega, pow2_add]
    congr 1
  refine ⟨k.natAbs * 2 ^ d, ?_, ?_, ?_, by omega⟩
  · rw [habs, hpe]
    push_cast
    ring
  · have h3 : ((k.natAbs * 2 ^ d : ℕ) : ℚ) * pow2 (M - 52) < pow2 53 * pow2 (M - 52) := by
      rw [← pow2_add]
      have : |q| < pow2 (53 + (M - 52)) := lt_of_lt_of_le h2 (pow2_le (by omega))
      rw [habs, hpe] at this
      push_cast at this ⊢
      linarith
    have h4 := lt_of_mul_lt_mul_right h3 (pow2_pos _).le
    rw [show pow2 53 = ((2 ^ 53 : ℕ) : ℚ) from rfl] at h4
    exact_mod_cast h4
  · intro hm
    by_contra hne
    have hML : M = logTwo q := by omega
    have h3 : |q| < pow2 M := by
      rw [habs, hpe, ← mul_assoc, show pow2 M = pow2 52 * pow2 (M - 52) by rw [← pow2_add]; congr 1; ring]
      refine mul_lt_mul_of_pos_right ?_ (pow2_pos _)
      rw [show pow2 52 = ((2 ^ 52 : ℕ) : ℚ) from rfl]
      exact_mod_cast hm
    rw [hML] at h3
    linarith

theorem ofBits_ofNat {n e m : ℕ} (s : Bool) (he : e < 2 ^ 11) (hm : m < 2 ^ 52) (hn : n = (if s then 2 ^ 63 else 0) + (e * 2 ^ 52 + m)) :
    (BitVec.ofNat 64 n).getMsbD 0 = s ∧ ((BitVec.ofNat 64 n).extractLsb' 52 11).toNat = e ∧ ((BitVec.ofNat 64 n).extractLsb' 0 52).toNat = m := by
  subst hn
  refine ⟨?_, ?_, ?_⟩
  · rw [BitVec.getMsbD_eq_getLsbD, BitVec.getLsbD_ofNat]
    simp only [Nat.testBit_eq_decide_div_mod_eq]
    cases s <;> simp <;> omega
  · rw [BitVec.extractLsb'_toNat, BitVec.toNat_ofNat, Nat.shiftRight_eq_div_pow]
    cases s <;> simp <;> omega
  · rw [BitVec.extractLsb'_toNat, BitVec.toNat_ofNat, Nat.shiftRight_eq_div_pow]
    cases s <;> simp <;> omega

/-- The bits of a representable number stand for it. -/
theorem ofBits_toBits {q : ℚ} (h : Representable q) : ofBits (toBits (.fin q)) = .fin q := by
  by_cases h0 : q = 0
  · subst h0
    decide +kernel
  obtain ⟨m, e1, e2, e3, e4⟩ := h.scaled h0
  unfold toBits
  dsimp only
  generalize hM : max (logTwo q) (-1022) = M at *
  have hpos := pow2_pos (M - 52)
  have hfl : (|q| / pow2 (M - 52)).floor.toNat = m := by
    rw [e1, mul_div_assoc, div_self hpos.ne', mul_one]
    change ⌊(m : ℚ)⌋.toNat = m
    rw [Int.floor_natCast]
    rfl
  rw [hfl]
  have hsq : ∀ x : ℚ, |q| = x → (if decide (q < 0) = true then (-1 : ℚ) else 1) * x = q := by
    intro x hx
    rw [← hx]
    by_cases hn : q < 0
    · rw [abs_of_neg hn]; simp [hn]
    · rw [abs_of_nonneg (not_lt.1 hn)]; simp [hn]
  have hif : (if q < 0 then 2 ^ 63 else 0) = if decide (q < 0) = true then 2 ^ 63 else 0 := by simp
  by_cases hm : m < 2 ^ 52
  · have hM2 := e3 hm
    obtain ⟨b1, b2, b3⟩ := ofBits_ofNat (n := (if q < 0 then 2 ^ 63 else 0) + m) (e := 0) (m := m) (decide (q < 0)) (by norm_num) hm (by rw [hif]; omega)
    rw [if_pos hm, ofBits]
    rw [b1, b2, b3, if_neg (by norm_num), if_pos rfl]
    congr 1
    rw [mul_assoc]
    refine hsq _ ?_
    rw [e1, hM2]
    norm_num
  · obtain ⟨b1, b2, b3⟩ := ofBits_ofNat (n := (if q < 0 then 2 ^ 63 else 0) + ((M + 1023).toNat * 2 ^ 52 + (m - 2 ^ 52))) (e := (M + 1023).toNat) (m := m - 2 ^ 52) (decide (q < 0)) (by omega)
      (by omega) (by rw [hif])
    rw [if_neg hm, ofBits]
    rw [b1, b2, b3, if_neg (by omega), if_neg (by omega), mul_assoc]
    refine congrArg fin (hsq _ ?_)
    rw [e1, Nat.sub_add_cancel (by omega), show (((M + 1023).toNat : ℕ) : ℤ) - 1075 = M - 52 by omega]

theorem rounded_grid (q : ℚ) : ∃ m e : ℤ, |m| < 2 ^ 53 ∧ -1074 ≤ e ∧ rounded q = m * pow2 e := by
  by_cases h0 : q = 0
  · subst h0
    rw [rounded_zero]
    exact ⟨0, 0, by norm_num, by norm_num, by norm_num⟩
  have hpl : -1074 ≤ place q := by unfold place; omega
  have hp := pow2_pos (place q)
  generalize hm : nearest (q / pow2 (place q)) = m
  have hr : rounded q = m * pow2 (place q) := by rw [rounded, hm]
  have hlt : |q / pow2 (place q)| < 2 ^ 53 := by
    rw [abs_div, abs_of_pos hp, div_lt_iff₀ hp]
    refine lt_of_lt_of_le (logTwo_spec h0).2 ?_
    rw [show (2 : ℚ) ^ 53 = pow2 53 from by norm_num [pow2_eq], ← pow2_add]
    refine pow2_le ?_
    unfold place
    omega
  have hm53 : |m| ≤ 2 ^ 53 := by
    have h1 := nearest_near (q / pow2 (place q))
    rw [hm] at h1
    have h2 : |(m : ℚ)| < 2 ^ 53 + 1 := by
      have := abs_sub_abs_le_abs_sub (m : ℚ) (q / pow2 (place q))
      linarith
    have : |m| < 2 ^ 53 + 1 := by exact_mod_cast h2
    omega
  rcases lt_or_eq_of_le hm53 with h | h
  · exact ⟨m, _, h, hpl, hr⟩
  · obtain ⟨k, hk⟩ : ∃ k, m = 2 * k ∧ |k| < 2 ^ 53 := by
      rcases abs_choice m with e | e
      · exact ⟨2 ^ 52, by omega, by norm_num⟩
      · exact ⟨-2 ^ 52, by omega, by norm_num⟩
    refine ⟨k, place q + 1, hk.2, by omega, ?_⟩
    rw [hr, pow2_add, hk.1, show pow2 1 = 2 from rfl]
    push_cast
    ring

/-- The result of an operation is representable. -/
theorem round_representable {q r : ℚ} (h : round q = .fin r) : Representable r := by
  unfold round at h
  split at h
  · next hlt =>
    injection h with h
    obtain ⟨m, e, hm, he, hq⟩ := rounded_grid q
    rw [h] at hq hlt
    by_cases he2 : e ≤ 971
    · exact ⟨m, e, hm, he, he2, hq⟩
    · obtain ⟨d, hd⟩ := Int.eq_ofNat_of_zero_le (show 0 ≤ e - 971 by omega)
      have hpe : pow2 e = ((2 ^ d : ℕ) : ℚ) * pow2 971 := by
        rw [show e = (d : ℤ) + 971 by omega, pow2_add]
        congr 1
      have hr : r = ((m * (2 ^ d : ℕ) : ℤ) : ℚ) * pow2 971 := by
        rw [hq, hpe]
        push_cast
        ring
      refine ⟨m * (2 ^ d : ℕ), 971, ?_, by norm_num, le_refl _, hr⟩
      rw [hr, abs_mul, abs_of_pos (pow2_pos 971), show (1024 : ℤ) = 53 + 971 by norm_num, pow2_add] at hlt
      have h4 := lt_of_mul_lt_mul_right hlt (pow2_pos _).le
      rw [show pow2 53 = ((2 ^ 53 : ℤ) : ℚ) from rfl, ← Int.cast_abs] at h4
      exact_mod_cast h4
  · cases h

theorem nearest_best (q : ℚ) (n : ℤ) : |(nearest q : ℚ) - q| ≤ |(n : ℚ) - q| := by
  by_contra hlt
  rw [not_le] at hlt
  have h1 := nearest_near q
  have h2 : |(n : ℚ) - nearest q| < 1 := by
    calc |(n : ℚ) - nearest q| = |(n - q) - (nearest q - q)| := by ring_nf
      _ ≤ |(n : ℚ) - q| + |(nearest q : ℚ) - q| := abs_sub _ _
      _ < 1 := by linarith
  have h3 : |n - nearest q| < 1 := by exact_mod_cast h2
  have h4 : n = nearest q := by
    have := Int.abs_lt_one_iff.1 h3
    omega
  rw [h4] at hlt
  exact lt_irrefl _ hlt

/-- No number with 53 places is nearer. -/
theorem rounded_nearest (q : ℚ) {m e : ℤ} (hm : |m| < 2 ^ 53) (he : -1074 ≤ e) : |rounded q - q| ≤ |m * pow2 e - q| := by
  have hp := pow2_pos (place q)
  have grid : ∀ n : ℤ, |rounded q - q| ≤ |n * pow2 (place q) - q| := by
    intro n
    have h := nearest_best (q / pow2 (place q)) n
    have e1 : rounded q - q = (nearest (q / pow2 (place q)) - q / pow2 (place q)) * pow2 (place q) := by
      unfold rounded
      field_simp
    have e2 : n * pow2 (place q) - q = (n - q / pow2 (place q)) * pow2 (place q) := by field_simp
    rw [e1, e2, abs_mul, abs_mul, abs_of_pos hp]
    exact mul_le_mul_of_nonneg_right h hp.le
  by_cases h0 : q = 0
  · rw [h0, rounded_zero, sub_zero, abs_zero]; exact abs_nonneg _
  by_cases hpe : place q ≤ e
  · obtain ⟨k, hk⟩ := Int.eq_ofNat_of_zero_le (show 0 ≤ e - place q by omega)
    have h := grid (m * 2 ^ k)
    have e3 : (m : ℚ) * pow2 e = ((m * 2 ^ k : ℤ) : ℚ) * pow2 (place q) := by
      rw [show e = (k : ℤ) + place q by omega, pow2_add, show pow2 (k : ℤ) = 2 ^ k by rw [pow2_eq, zpow_natCast]]
      push_cast
      ring
    rw [e3]
    exact h
  · have hlt : |(m : ℚ) * pow2 e| ≤ pow2 (place q + 52) := by
      rw [abs_mul, abs_of_pos (pow2_pos e)]
      have h1 : (|(m : ℚ)|) < pow2 53 := by
        rw [show pow2 53 = ((2 ^ 53 : ℤ) : ℚ) from rfl]
        exact_mod_cast hm
      have h2 : pow2 53 * pow2 e ≤ pow2 (place q + 52) := by
        rw [← pow2_add]
        exact pow2_le (by omega)
      have := pow2_pos e
      nlinarith
    have hq : pow2 (place q + 52) ≤ |q| := by
      refine le_trans (pow2_le ?_) (logTwo_spec h0).1
      unfold place at hpe ⊢
      omega
    have e52 : pow2 (place q + 52) = 4503599627370496 * pow2 (place q) := by
      rw [pow2_add, show pow2 52 = 4503599627370496 by norm_num [pow2_eq]]
      ring
    rcases le_or_gt 0 q with hs | hs
    · have h := grid (2 ^ 52)
      push_cast at h
      rw [← e52, abs_of_nonpos (show pow2 (place q + 52) - q ≤ 0 by rw [abs_of_nonneg hs] at hq; linarith)] at h
      have h3 := le_abs_self ((m : ℚ) * pow2 e)
      have h4 := neg_abs_le ((m : ℚ) * pow2 e - q)
      linarith
    · have h := grid (-(2 ^ 52))
      push_cast at h
      rw [neg_mul, ← e52, abs_of_nonneg (show 0 ≤ -pow2 (place q + 52) - q by rw [abs_of_neg hs] at hq; linarith)] at h
      have h3 := neg_abs_le ((m : ℚ) * pow2 e)
      have h4 := le_abs_self ((m : ℚ) * pow2 e - q)
      linarith

theorem rounded_le {q g : ℚ} (hg : ∃ m e : ℤ, |m| < 2 ^ 53 ∧ -1074 ≤ e ∧ g = m * pow2 e) (h : q ≤ g) : rounded q ≤ g := by
  obtain ⟨m, e, hm, he, rfl⟩ := hg
  have := rounded_nearest q hm he
  rw [abs_of_nonneg (show 0 ≤ m * pow2 e - q by linarith)] at this
  have := le_abs_self (rounded q - q)
  linarith

theorem le_rounded {q g : ℚ} (hg : ∃ m e : ℤ, |m| < 2 ^ 53 ∧ -1074 ≤ e ∧ g = m * pow2 e) (h : g ≤ q) : g ≤ rounded q := by
  obtain ⟨m, e, hm, he, rfl⟩ := hg
  have := rounded_nearest q hm he
  rw [abs_of_nonpos (show m * pow2 e - q ≤ 0 by linarith)] at this
  have := neg_abs_le (rounded q - q)
  linarith

/-- Rounding does not change the order. -/
theorem rounded_mono {a b : ℚ} (h : a ≤ b) : rounded a ≤ rounded b := by
  by_contra hlt
  rw [not_le] at hlt
  have ga := rounded_grid a
  have gb := rounded_grid b
  have h1 : rounded b < a := by
    by_contra hn
    exact absurd (rounded_le gb (not_lt.1 hn)) (not_le.2 hlt)
  have h2 : b < rounded a := by
    by_contra hn
    exact absurd (le_rounded ga (not_lt.1 hn)) (not_le.2 hlt)
  obtain ⟨m, e, hm, he, e1⟩ := gb
  obtain ⟨m', e', hm', he', e2⟩ := ga
  have n1 := rounded_nearest a hm he
  have n2 := rounded_nearest b hm' he'
  rw [← e1, abs_of_nonneg (show 0 ≤ rounded a - a by linarith), abs_of_neg (show rounded b - a < 0 by linarith)] at n1
  rw [← e2, abs_of_nonneg (show 0 ≤ rounded a - b by linarith), abs_of_nonpos (show rounded b - b ≤ 0 by linarith)] at n2
  have hab : a = b := by linarith
  rw [hab] at hlt
  exact lt_irrefl _ hlt

theorem int_grid {n : ℤ} (h : |n| < 2 ^ 53) : ∃ m e : ℤ, |m| < 2 ^ 53 ∧ -1074 ≤ e ∧ (n : ℚ) = m * pow2 e := ⟨n, 0, h, by norm_num, by norm_num [pow2_eq]⟩

end F64

end Zpl
