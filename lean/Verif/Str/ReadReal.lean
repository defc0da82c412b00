import Verif.Str.Chars
import Verif.Str.Token
import Verif.Str.PrintReal

/-!
# Reading real numbers (code/source/core/string.c:150-206)  -  C128

`zpl_str_to_f64`, with the arithmetic of Math/Double.

## Model -/

namespace Zpl.ReadReal

open Zpl Zpl.Str Zpl.Print

/-- string.c:154 -/
def skipSpace : List Byte → Except Fault (List Byte)
  | [] => .error .oob
  | c :: s => if Token.isSpace c then skipSpace s else .ok (c :: s)

/-- string.c:156-162: the sign and the rest. -/
def readSign : List Byte → Except Fault (Bool × List Byte)
  | [] => .error .oob
  | c :: s => .ok (if c = 0x2d#8 then (true, s) else if c = 0x2b#8 then (false, s) else (false, c :: s))

/-- string.c:164 -/
def wholeLoop : List Byte → F64 → Except Fault (F64 × List Byte)
  | [], _ => .error .oob
  | c :: s, v => if Chars.isDigit c then wholeLoop s (F64.add (F64.mul v (.fin 10)) (F64.ofInt ((c.toNat : Int) - 0x30))) else .ok (v, c :: s)

/-- string.c:169-173 -/
def fracLoop : List Byte → F64 → F64 → Except Fault (F64 × List Byte)
  | [], _, _ => .error .oob
  | c :: s, v, p =>
    if Chars.isDigit c then fracLoop s (F64.add v (F64.div (F64.ofInt ((c.toNat : Int) - 0x30)) p)) (F64.mul p (.fin 10)) else .ok (v, c :: s)

/-- string.c:189 -/
def expLoop : List Byte → BitVec 32 → Except Fault (BitVec 32 × List Byte)
  | [], _ => .error .oob
  | c :: s, e => if Chars.isDigit c then expLoop s (e * 10 + BitVec.ofInt 32 ((c.toNat : Int) - 0x30)) else .ok (e, c :: s)

/-- string.c:192-203, one of the loops: while `exp` is at least `k`, multiply by `x`.  The first argument bounds the rounds. -/
def whileGe (k : Nat) (x : F64) : Nat → Nat → F64 → F64 × Nat
  | 0, e, s => (s, e)
  | n + 1, e, s => if k ≤ e then whileGe k x n (e - k) (F64.mul s x) else (s, e)

/-- string.c:190-203: `scale`. -/
def scaleOf (exp : BitVec 32) : F64 :=
  let e := if exp.toNat > 308 then 308 else exp.toNat
  let (s, e) := whileGe 50 (F64.round (10 ^ 50)) e e (.fin 1)
  let (s, e) := whileGe 8 (.fin (10 ^ 8)) e e s
  (whileGe 1 (.fin 10) e e s).1

/-- string.c:166-174 -/
def fraction (str : List Byte) (v : F64) : Except Fault (F64 × List Byte) :=
  match str with
  | [] => .error .oob
  | c :: s => if c = 0x2e#8 then fracLoop s v (.fin 10) else .ok (v, c :: s)

/-- string.c:176-204: is the exponent negative, the scale, and the rest. -/
def exponent (str : List Byte) : Except Fault (Bool × F64 × List Byte) :=
  match str with
  | [] => .error .oob
  | c :: s =>
    if c = 0x65#8 ∨ c = 0x45#8 then do
      let (frac, s) ← readSign s
      let (exp, s) ← expLoop s 0
      .ok (frac, scaleOf exp, s)
    else .ok (false, .fin 1, c :: s)

/-- string.c:150-211 `zpl_str_to_f64`: the number and how many characters were read. -/
def strToF64 (str : List Byte) : Except Fault (F64 × Nat) := do
  let s ← skipSpace str
  let (neg, s) ← readSign s
  let (value, s) ← wholeLoop s (.fin 0)
  let (value, s) ← fraction s value
  let (frac, scale, s) ← exponent s
  .ok (F64.mul (.fin (if neg then -1 else 1)) (if frac then F64.div value scale else F64.mul value scale), str.length - s.length)

/-! ## Specification -/

inductive Sgn where
  | none | plus | minus
  deriving DecidableEq, Repr

def Sgn.text : Sgn → List Byte
  | .none => [] | .plus => [0x2b#8] | .minus => [0x2d#8]

/-- A number as it is written: sign, digits, digits behind the point, exponent. -/
structure Decimal where
  sgn : Sgn := .none
  whole : List Nat
  frac : Option (List Nat) := none
  /-- capital `E`, sign, digits -/
  exp : Option (Bool × Sgn × List Nat) := none
  deriving DecidableEq, Repr

def digitsText (ds : List Nat) : List Byte := ds.map (digit false)

def fracText : Option (List Nat) → List Byte
  | none => []
  | some fs => 0x2e#8 :: digitsText fs

def expText : Option (Bool × Sgn × List Nat) → List Byte
  | none => []
  | some (capital, s, es) => (if capital then 0x45#8 else 0x65#8) :: (s.text ++ digitsText es)

def Decimal.text (d : Decimal) : List Byte := d.sgn.text ++ (digitsText d.whole ++ (fracText d.frac ++ expText d.exp))

/-- Digits are digits, there is at least one in front of the exponent and one in it. -/
def Decimal.Valid (d : Decimal) : Prop :=
  (∀ x ∈ d.whole, x < 10) ∧ (∀ fs, d.frac = some fs → ∀ x ∈ fs, x < 10) ∧ (d.whole ≠ [] ∨ ∃ fs, d.frac = some fs ∧ fs ≠ []) ∧
    ∀ cap s es, d.exp = some (cap, s, es) → es ≠ [] ∧ ∀ x ∈ es, x < 10

/-- What may follow: nothing that would belong to the number. -/
def Decimal.Stop (d : Decimal) (c : Byte) : Prop :=
  Chars.isDigit c = false ∧ (d.exp = none → c ≠ 0x65#8 ∧ c ≠ 0x45#8 ∧ (d.frac = none → c ≠ 0x2e#8))

/-- The digits behind the point. -/
def Decimal.places (d : Decimal) : List Nat := d.frac.getD []

/-- The number without sign and exponent. -/
def Decimal.mantissa (d : Decimal) : ℚ := (Num.value 10 (d.whole ++ d.places) : ℚ) / 10 ^ d.places.length

/-- The digits of the exponent as a number. -/
def Decimal.exponent (d : Decimal) : Nat :=
  match d.exp with
  | none => 0
  | some (_, _, es) => Num.value 10 es

/-- Is the exponent negative? -/
def Decimal.small (d : Decimal) : Bool :=
  match d.exp with
  | none => false
  | some (_, s, _) => s == .minus

/-! ## Lemmas

### Rounding -/

theorem round_fin' {q : ℚ} (h : |q| ≤ F64.pow2 1000) : F64.round q = .fin (F64.rounded q) := by
  have h1 := F64.rounded_error h (F64.pow2_le (by norm_num))
  have h2 : |F64.rounded q| ≤ F64.pow2 1001 := by
    have h3 : F64.pow2 (-53) ≤ 1 := by rw [show (1 : ℚ) = F64.pow2 0 from rfl]; exact F64.pow2_le (by norm_num)
    have h4 : F64.pow2 1001 = F64.pow2 1000 + F64.pow2 1000 := by rw [show (1001 : ℤ) = 1000 + 1 by norm_num, F64.pow2_add, show F64.pow2 1 = 2 from rfl]; ring
    have := abs_sub_abs_le_abs_sub (F64.rounded q) q
    have := F64.pow2_pos 1000
    nlinarith
  exact if_pos (lt_of_le_of_lt h2 (F64.pow2_lt_iff.2 (by norm_num)))

/-- Multiplying by 1 or -1 does not change the rest. -/
theorem mul_one_round {q : ℚ} (h : |q| ≤ F64.pow2 1000) (neg : Bool) :
    F64.mul (.fin (if neg then -1 else 1)) (F64.round q) = .fin ((if neg then -1 else 1) * F64.rounded q) := by
  rw [round_fin' h]
  obtain ⟨m, e, hm, he, hq⟩ := F64.rounded_grid q
  have hr : F64.rounded ((if neg then -1 else 1) * F64.rounded q) = (if neg then -1 else 1) * F64.rounded q := by
    cases neg
    · exact F64.rounded_eq hm he (by rw [hq]; simp)
    · exact F64.rounded_eq (m := -m) (by rwa [abs_neg]) he (by rw [hq]; push_cast; simp)
  have habs : |(if neg then (-1 : ℚ) else 1) * F64.rounded q| = |F64.rounded q| := by cases neg <;> simp
  change F64.round _ = _
  rw [F64.round, hr, habs]
  have := round_fin' h
  rw [F64.round] at this
  split at this
  · next hlt => rw [if_pos hlt]
  · cases this

/-- Powers of ten up to 10^22 are exact. -/
theorem pow10_round {k : Nat} (h : k ≤ 22) : F64.round (10 ^ k) = .fin (10 ^ k) := by
  have h5 : |((5 : ℤ) ^ k)| < 2 ^ 53 := by
    rw [abs_of_nonneg (by positivity)]
    calc (5 : ℤ) ^ k ≤ 5 ^ 22 := pow_le_pow_right₀ (by norm_num) h
      _ < 2 ^ 53 := by norm_num
  have hle : |(10 : ℚ) ^ k| ≤ F64.pow2 1000 := by
    rw [abs_of_nonneg (by positivity)]
    calc (10 : ℚ) ^ k ≤ 10 ^ 22 := pow_le_pow_right₀ (by norm_num) h
      _ ≤ F64.pow2 100 := by norm_num [F64.pow2_eq]
      _ ≤ F64.pow2 1000 := F64.pow2_le (by norm_num)
  rw [round_fin' hle, F64.rounded_eq h5 (show (-1074 : ℤ) ≤ k by omega)]
  rw [F64.pow2_eq, zpow_natCast]
  push_cast
  rw [← mul_pow]
  norm_num

theorem mul_pow10 {i j : Nat} (h : i + j ≤ 22) : F64.mul (.fin (10 ^ i)) (.fin (10 ^ j)) = .fin (10 ^ (i + j)) := by
  change F64.round _ = _
  rw [← pow_add, pow10_round h]

theorem whileGe_ok {k : Nat} (hk : 0 < k) (fuel e i : Nat) (hf : e ≤ fuel) (hi : i + e ≤ 22) :
    whileGe k (.fin (10 ^ k)) fuel e (.fin (10 ^ i)) = (.fin (10 ^ (i + e / k * k)), e % k) := by
  induction fuel generalizing e i with
  | zero =>
    obtain rfl : e = 0 := by omega
    simp [whileGe]
  | succ n ih =>
    rw [whileGe]
    by_cases h : k ≤ e
    · rw [if_pos h, mul_pow10 (by omega), ih (e - k) (i + k) (by omega) (by omega)]
      have h1 : e / k = (e - k) / k + 1 := Nat.div_eq_sub_div hk h
      have h2 : e % k = (e - k) % k := Nat.mod_eq_sub_mod h
      rw [h1, h2, Nat.add_mul, Nat.one_mul]
      congr 3
      omega
    · rw [if_neg h, Nat.div_eq_of_lt (by omega), Nat.mod_eq_of_lt (by omega)]
      simp

theorem scaleOf_ok {e : BitVec 32} (h : e.toNat ≤ 22) : scaleOf e = .fin (10 ^ e.toNat) := by
  generalize hn : e.toNat = n at h
  have h50 : whileGe 50 (F64.round (10 ^ 50)) n n (.fin 1) = (.fin 1, n) := by
    cases n with
    | zero => rfl
    | succ n => rw [whileGe, if_neg (by omega)]
  have h8 := whileGe_ok (k := 8) (by decide) n n 0 (le_refl _) (by omega)
  have h1 := whileGe_ok (k := 1) (by decide) (n % 8) (n % 8) (0 + n / 8 * 8) (le_refl _) (by omega)
  rw [pow_zero] at h8
  rw [pow_one] at h1
  unfold scaleOf
  rw [hn, if_neg (by omega)]
  dsimp only
  rw [h50]
  dsimp only
  rw [h8]
  dsimp only
  rw [h1]
  dsimp only
  congr 2
  omega

/-! ### The digits -/

theorem digit_facts : ∀ d : Fin 10, Chars.isDigit (digit false d.val) = true ∧ ((digit false d.val).toNat : Int) - 0x30 = d.val := by decide

theorem skip_spaces {sp : List Byte} (hs : ∀ c ∈ sp, Token.isSpace c = true) {c : Byte} (hc : Token.isSpace c = false) (r : List Byte) : skipSpace (sp ++ c :: r) = .ok (c :: r) := by
  induction sp with
  | nil => rw [List.nil_append, skipSpace, hc]; rfl
  | cons x sp ih => rw [List.cons_append, skipSpace, if_pos (hs x (by simp))]; exact ih fun y hy => hs y (by simp [hy])

/-- The digits before the point. -/
theorem whole_ok {ds : List Nat} (hd : ∀ x ∈ ds, x < 10) {c : Byte} (hc : Chars.isDigit c = false) (r : List Byte) (a : Nat) (h : ds.foldl (fun acc d => acc * 10 + d) a < 2 ^ 53) :
    wholeLoop (digitsText ds ++ c :: r) (.fin a) = .ok (.fin (ds.foldl (fun acc d => acc * 10 + d) a : Nat), c :: r) := by
  induction ds generalizing a with
  | nil => rw [digitsText, List.map_nil, List.nil_append, wholeLoop, hc]; rfl
  | cons d ds ih =>
    obtain ⟨h1, h2⟩ := digit_facts ⟨d, hd d (by simp)⟩
    dsimp only at h1 h2
    have hmono : a * 10 + d ≤ ds.foldl (fun acc d => acc * 10 + d) (a * 10 + d) := Num.value_mono 10 (by decide) ds _
    rw [List.foldl_cons] at h ⊢
    rw [digitsText, List.map_cons, List.cons_append, wholeLoop, if_pos h1, h2]
    have e1 : F64.mul (.fin (a : ℚ)) (.fin 10) = .fin ((a * 10 : Nat) : ℚ) := by
      have := F64.ofInt_eq (n := ((a * 10 : Nat) : ℤ)) (by rw [Nat.abs_cast]; omega)
      rw [F64.ofInt] at this
      change F64.round _ = _
      push_cast at this ⊢
      exact this
    have e2 : F64.add (.fin ((a * 10 : Nat) : ℚ)) (F64.ofInt (d : ℤ)) = .fin ((a * 10 + d : Nat) : ℚ) := by
      rw [F64.ofInt_eq (n := (d : ℤ)) (by rw [Nat.abs_cast]; omega)]
      have := F64.ofInt_eq (n := ((a * 10 + d : Nat) : ℤ)) (by rw [Nat.abs_cast]; omega)
      rw [F64.ofInt] at this
      change F64.round _ = _
      push_cast at this ⊢
      exact this
    rw [e1, e2]
    exact ih (fun x hx => hd x (by simp [hx])) _ h

theorem fold_value (fs : List Nat) (a : Nat) : ((fs.foldl (fun acc d => acc * 10 + d) a : Nat) : ℚ) = (a + PrintReal.valueOf fs) * 10 ^ fs.length := by
  induction fs generalizing a with
  | nil => simp [PrintReal.valueOf]
  | cons d fs ih =>
    rw [List.foldl_cons, ih, PrintReal.valueOf, List.length_cons, pow_succ]
    push_cast
    ring

theorem mantissa_eq (d : Decimal) : d.mantissa = Num.value 10 d.whole + PrintReal.valueOf d.places := by
  rw [Decimal.mantissa, Num.value, List.foldl_append, fold_value, ← Num.value]
  field_simp

theorem valueOf_bound {fs : List Nat} (hd : ∀ x ∈ fs, x < 10) : 0 ≤ PrintReal.valueOf fs ∧ PrintReal.valueOf fs < 1 := by
  induction fs with
  | nil => exact ⟨le_refl _, by norm_num [PrintReal.valueOf]⟩
  | cons d fs ih =>
    obtain ⟨h1, h2⟩ := ih fun x hx => hd x (by simp [hx])
    have h3 : (d : ℚ) ≤ 9 := by
      have := hd d (by simp)
      exact_mod_cast (by omega : d ≤ 9)
    have h4 : (0 : ℚ) ≤ d := by positivity
    rw [PrintReal.valueOf]
    constructor
    · positivity
    · rw [div_lt_iff₀ (by norm_num)]; linarith

/-- The digits behind the point. -/
theorem frac_ok {fs : List Nat} (hd : ∀ x ∈ fs, x < 10) {c : Byte} (hc : Chars.isDigit c = false) (r : List Byte) {V : ℚ} (hV0 : 0 ≤ V) (hV : V ≤ 2 ^ 53) {k : Nat}
    (hk : k + fs.length ≤ 22) {a v : ℚ} (hg : F64.rounded v = v) (ha : V ≤ a) (ha2 : a + 1 / 10 ^ k ≤ V + 1) (hv : |v - a| ≤ k * (V + 2) * F64.pow2 (-52)) {p : F64}
    (hp : fs ≠ [] → p = .fin (10 ^ (k + 1))) :
    ∃ v', fracLoop (digitsText fs ++ c :: r) (.fin v) p = .ok (.fin v', c :: r) ∧ F64.rounded v' = v' ∧
      |v' - (a + PrintReal.valueOf fs / 10 ^ k)| ≤ ((k + fs.length : Nat) : ℚ) * (V + 2) * F64.pow2 (-52) := by
  induction fs generalizing k a v p with
  | nil =>
    refine ⟨v, by rw [digitsText, List.map_nil, List.nil_append, fracLoop, hc]; rfl, hg, ?_⟩
    rw [PrintReal.valueOf, zero_div, add_zero]
    exact hv
  | cons d fs ih =>
    obtain ⟨h1, h2⟩ := digit_facts ⟨d, hd d (by simp)⟩
    have hd9 : (d : ℚ) ≤ 9 := by
      have := hd d (by simp)
      exact_mod_cast (by omega : d ≤ 9)
    have hd0 : (0 : ℚ) ≤ d := by positivity
    dsimp only at h1 h2
    rw [List.length_cons] at hk
    rw [hp (by simp)]
    have h10 : (10 : ℚ) ≤ 10 ^ (k + 1) := by
      calc (10 : ℚ) = 10 ^ 1 := by norm_num
        _ ≤ 10 ^ (k + 1) := pow_le_pow_right₀ (by norm_num) (by omega)
    have h10k : (10 : ℚ) ^ (k + 1) = 10 * 10 ^ k := by rw [pow_succ]; ring
    have h1k : (1 : ℚ) ≤ 10 ^ k := one_le_pow₀ (by norm_num)
    generalize hu : F64.pow2 (-53) = u at *
    have hu0 : 0 < u := hu ▸ F64.pow2_pos _
    have hus : u ≤ 1 / 2 ^ 53 := by rw [← hu]; norm_num [F64.pow2_eq]
    have hu2 : F64.pow2 (-52) = 2 * u := by rw [← hu]; norm_num [F64.pow2_eq]
    rw [hu2] at hv ih ⊢
    -- the quotient
    generalize ht : (d : ℚ) / 10 ^ (k + 1) = t
    have ht0 : 0 ≤ t := by rw [← ht]; positivity
    have ht1 : t ≤ 1 := by rw [← ht, div_le_one (by linarith)]; linarith
    have htk : t + 1 / 10 ^ (k + 1) ≤ 1 / 10 ^ k := by
      rw [← ht, ← add_div, h10k, div_le_div_iff₀ (by positivity) (by positivity)]
      nlinarith
    have hB1 : F64.pow2 (-1022) ≤ 1 := by rw [show (1 : ℚ) = F64.pow2 0 from rfl]; exact F64.pow2_le (by norm_num)
    have hbig : ∀ {x : ℚ}, |x| ≤ 2 ^ 60 → |x| ≤ F64.pow2 1000 := by
      intro x hx
      refine hx.trans (le_trans ?_ (F64.pow2_le (show (60 : ℤ) ≤ 1000 by norm_num)))
      norm_num [F64.pow2_eq]
    have hdiv : F64.div (F64.ofInt (d : ℤ)) (.fin (10 ^ (k + 1))) = .fin (F64.rounded t) := by
      rw [F64.ofInt_eq (n := (d : ℤ)) (by rw [Nat.abs_cast]; have := hd d (by simp); omega)]
      change (if (10 : ℚ) ^ (k + 1) = 0 then _ else F64.round _) = _
      rw [if_neg (by linarith), Int.cast_natCast, ht, round_fin' (hbig (by rw [abs_of_nonneg ht0]; linarith))]
    have hrt := F64.rounded_error (q := t) (B := 1) (by rwa [abs_of_nonneg ht0]) hB1
    rw [hu, one_mul] at hrt
    generalize F64.rounded t = t' at hdiv hrt
    -- the sum
    have hkq : (k : ℚ) ≤ 22 := by exact_mod_cast (by omega : k ≤ 22)
    have hk0 : (0 : ℚ) ≤ k := by positivity
    have hE : (k : ℚ) * (V + 2) * (2 * u) ≤ (V + 2) / 2 ^ 40 := by
      have : (k : ℚ) * (2 * u) ≤ 1 / 2 ^ 40 := by
        calc (k : ℚ) * (2 * u) ≤ 22 * (2 * (1 / 2 ^ 53)) := by gcongr
          _ ≤ 1 / 2 ^ 40 := by norm_num
      calc (k : ℚ) * (V + 2) * (2 * u) = (V + 2) * (k * (2 * u)) := by ring
        _ ≤ (V + 2) * (1 / 2 ^ 40) := by gcongr
        _ = (V + 2) / 2 ^ 40 := by ring
    have hk1 : (0 : ℚ) < 1 / 10 ^ (k + 1) := by positivity
    rw [abs_le] at hv hrt
    have hsum : |v + t'| ≤ 2 * V + 3 := by
      rw [abs_le]
      constructor <;> linarith
    have hadd : F64.add (.fin v) (.fin t') = .fin (F64.rounded (v + t')) := by
      change F64.round _ = _
      exact round_fin' (hbig (hsum.trans (by linarith)))
    have hB2 : F64.pow2 (-1022) ≤ 2 * V + 3 := by linarith
    have hrs := F64.rounded_error (q := v + t') (B := 2 * V + 3) hsum hB2
    rw [hu] at hrs
    obtain ⟨m, e, gm, ge, gq⟩ := F64.rounded_grid (v + t')
    have hgs : F64.rounded (F64.rounded (v + t')) = F64.rounded (v + t') := F64.rounded_eq gm ge gq
    generalize F64.rounded (v + t') = w at hadd hrs hgs
    have hw : |w - (a + t)| ≤ ((k + 1 : Nat) : ℚ) * (V + 2) * (2 * u) := by
      rw [abs_le] at hrs ⊢
      push_cast
      constructor <;> nlinarith
    obtain ⟨v', e1, e2, e3⟩ := ih (fun x hx => hd x (by simp [hx])) (k := k + 1) (a := a + t) (v := w) (by omega) hgs (by linarith) (by linarith) hw
      (p := F64.mul (.fin (10 ^ (k + 1))) (.fin 10)) (by
        intro hne
        have : 0 < fs.length := List.length_pos_iff.2 hne
        have := mul_pow10 (i := k + 1) (j := 1) (by omega)
        rwa [pow_one] at this)
    refine ⟨v', ?_, e2, ?_⟩
    · rw [digitsText, List.map_cons, List.cons_append, fracLoop, if_pos h1, h2, hdiv, hadd]
      exact e1
    · have : a + PrintReal.valueOf (d :: fs) / 10 ^ k = a + t + PrintReal.valueOf fs / 10 ^ (k + 1) := by
        rw [PrintReal.valueOf, ← ht, h10k]
        field_simp
        ring
      rw [this, List.length_cons, show k + (fs.length + 1) = k + 1 + fs.length by omega]
      exact e3

/-! ### The whole text -/

/-- The digits before the point, whatever they come to. -/
def wholeFold (ds : List Nat) (v : F64) : F64 := ds.foldl (fun v (d : Nat) => F64.add (F64.mul v (.fin 10)) (F64.ofInt d)) v

/-- The digits behind the point, whatever they come to. -/
def fracFold : List Nat → F64 → F64 → F64
  | [], v, _ => v
  | d :: fs, v, p => fracFold fs (F64.add v (F64.div (F64.ofInt (d : ℤ)) p)) (F64.mul p (.fin 10))

theorem whole_fold {ds : List Nat} (hd : ∀ x ∈ ds, x < 10) {c : Byte} (hc : Chars.isDigit c = false) (r : List Byte) (v : F64) :
    wholeLoop (digitsText ds ++ c :: r) v = .ok (wholeFold ds v, c :: r) := by
  induction ds generalizing v with
  | nil => rw [digitsText, List.map_nil, List.nil_append, wholeLoop, hc]; rfl
  | cons d ds ih =>
    obtain ⟨h1, h2⟩ := digit_facts ⟨d, hd d (by simp)⟩
    dsimp only at h1 h2
    rw [digitsText, List.map_cons, List.cons_append, wholeLoop, if_pos h1, h2]
    exact ih (fun x hx => hd x (by simp [hx])) _

theorem frac_fold {fs : List Nat} (hd : ∀ x ∈ fs, x < 10) {c : Byte} (hc : Chars.isDigit c = false) (r : List Byte) (v p : F64) :
    fracLoop (digitsText fs ++ c :: r) v p = .ok (fracFold fs v p, c :: r) := by
  induction fs generalizing v p with
  | nil => rw [digitsText, List.map_nil, List.nil_append, fracLoop, hc]; rfl
  | cons d ds ih =>
    obtain ⟨h1, h2⟩ := digit_facts ⟨d, hd d (by simp)⟩
    dsimp only at h1 h2
    rw [digitsText, List.map_cons, List.cons_append, fracLoop, if_pos h1, h2]
    exact ih (fun x hx => hd x (by simp [hx])) _ _

theorem exp_fold {es : List Nat} (hd : ∀ x ∈ es, x < 10) {c : Byte} (hc : Chars.isDigit c = false) (r : List Byte) (a : Nat) :
    expLoop (digitsText es ++ c :: r) (BitVec.ofNat 32 a) = .ok (BitVec.ofNat 32 (es.foldl (fun acc d => acc * 10 + d) a), c :: r) := by
  induction es generalizing a with
  | nil => rw [digitsText, List.map_nil, List.nil_append, expLoop, hc]; rfl
  | cons d es ih =>
    obtain ⟨h1, h2⟩ := digit_facts ⟨d, hd d (by simp)⟩
    dsimp only at h1 h2
    rw [digitsText, List.map_cons, List.cons_append, expLoop, if_pos h1, h2, BitVec.ofInt_natCast, List.foldl_cons]
    have : BitVec.ofNat 32 a * 10 + BitVec.ofNat 32 d = BitVec.ofNat 32 (a * 10 + d) := by
      rw [BitVec.ofNat_add, BitVec.ofNat_mul]
      rfl
    rw [this]
    exact ih (fun x hx => hd x (by simp [hx])) _

theorem sign_ok (s : Sgn) {c : Byte} (hc : s = .none → c ≠ 0x2d#8 ∧ c ≠ 0x2b#8) (r : List Byte) : readSign (s.text ++ c :: r) = .ok (s == .minus, c :: r) := by
  cases s with
  | none =>
    obtain ⟨h1, h2⟩ := hc rfl
    rw [Sgn.text, List.nil_append, readSign, if_neg h1, if_neg h2]
    rfl
  | plus => rfl
  | minus => rfl

theorem digits_head {ds : List Nat} (hn : ds ≠ []) (hd : ∀ x ∈ ds, x < 10) (r : List Byte) : ∃ c t, digitsText ds ++ r = c :: t ∧ Chars.isDigit c = true := by
  cases ds with
  | nil => exact absurd rfl hn
  | cons d ds => exact ⟨_, _, rfl, (digit_facts ⟨d, hd d (by simp)⟩).1⟩

theorem isDigit_facts : ∀ c : Byte, Chars.isDigit c = true → c ≠ 0x2d#8 ∧ c ≠ 0x2b#8 ∧ Token.isSpace c = false := by decide +kernel

theorem exponent_ok {d : Decimal} (hd : d.Valid) {c : Byte} (hc : d.Stop c) (r : List Byte) :
    exponent (expText d.exp ++ c :: r) = .ok (d.small, if d.exp = none then .fin 1 else scaleOf (BitVec.ofNat 32 d.exponent), c :: r) := by
  obtain ⟨-, -, -, h⟩ := hd
  unfold Decimal.small Decimal.exponent
  cases he : d.exp with
  | none =>
    obtain ⟨h1, h2, -⟩ := hc.2 he
    rw [expText, List.nil_append, exponent, if_neg (fun h => h.elim h1 h2), if_pos rfl]
  | some x =>
    obtain ⟨cap, s, es⟩ := x
    obtain ⟨hn, hes⟩ := h cap s es he
    obtain ⟨x, t, ht, hx⟩ := digits_head hn hes (c :: r)
    have hx' := isDigit_facts x hx
    rw [expText, List.cons_append, exponent, if_pos (by cases cap <;> simp), List.append_assoc, ht, sign_ok s (fun _ => ⟨hx'.1, hx'.2.1⟩), except_ok_bind]
    dsimp only
    have := exp_fold hes hc.1 r 0
    rw [show BitVec.ofNat 32 0 = 0 from rfl] at this
    rw [← ht, this, except_ok_bind, if_neg (by simp)]
    rfl

theorem exp_head {d : Decimal} {c : Byte} (hc : d.Stop c) (r : List Byte) : ∃ x t, expText d.exp ++ c :: r = x :: t ∧ Chars.isDigit x = false ∧ (d.frac = none → x ≠ 0x2e#8) := by
  cases he : d.exp with
  | none => exact ⟨c, r, rfl, hc.1, fun h => (hc.2 he).2.2 h⟩
  | some x =>
    obtain ⟨cap, s, es⟩ := x
    refine ⟨_, _, rfl, ?_, fun _ => ?_⟩ <;> cases cap <;> decide

theorem fraction_fold {d : Decimal} (hd : d.Valid) {c : Byte} (hc : d.Stop c) (r : List Byte) (v : F64) :
    fraction (fracText d.frac ++ (expText d.exp ++ c :: r)) v = .ok (fracFold d.places v (.fin 10), expText d.exp ++ c :: r) := by
  obtain ⟨x, t, e, hx, hx2⟩ := exp_head hc r
  unfold Decimal.places
  cases hf : d.frac with
  | none =>
    rw [fracText, List.nil_append, e, fraction, if_neg (hx2 hf)]
    rfl
  | some fs =>
    rw [fracText, List.cons_append, fraction, if_pos rfl, e]
    exact frac_fold (hd.2.1 fs hf) hx t v _

theorem frac_head {d : Decimal} {c : Byte} (hc : d.Stop c) (r : List Byte) : ∃ x t, fracText d.frac ++ (expText d.exp ++ c :: r) = x :: t ∧ Chars.isDigit x = false := by
  cases hf : d.frac with
  | none =>
    obtain ⟨x, t, e, hx, -⟩ := exp_head hc r
    exact ⟨x, t, e, hx⟩
  | some fs => exact ⟨_, _, rfl, by decide⟩

/-- What is read of a number, whatever the arithmetic comes to. -/
theorem read_fold {d : Decimal} (hd : d.Valid) {sp : List Byte} (hs : ∀ c ∈ sp, Token.isSpace c = true) {c : Byte} (hc : d.Stop c) (r : List Byte) :
    strToF64 (sp ++ (d.text ++ c :: r)) =
      .ok (F64.mul (.fin (if d.sgn == .minus then -1 else 1))
          (if d.small then F64.div (fracFold d.places (wholeFold d.whole (.fin 0)) (.fin 10)) (if d.exp = none then .fin 1 else scaleOf (BitVec.ofNat 32 d.exponent))
            else F64.mul (fracFold d.places (wholeFold d.whole (.fin 0)) (.fin 10)) (if d.exp = none then .fin 1 else scaleOf (BitVec.ofNat 32 d.exponent))),
        (sp ++ d.text).length) := by
  obtain ⟨y, t, ey, hy⟩ := frac_head hc r
  -- the first character
  obtain ⟨x, u, ex, hx⟩ : ∃ x u, digitsText d.whole ++ (fracText d.frac ++ (expText d.exp ++ c :: r)) = x :: u ∧ x ≠ 0x2d#8 ∧ x ≠ 0x2b#8 ∧ Token.isSpace x = false := by
    by_cases hw : d.whole = []
    · obtain ⟨fs, hf, -⟩ := hd.2.2.1.resolve_left (fun h => h hw)
      rw [hw, hf]
      exact ⟨_, _, rfl, by decide, by decide, by decide⟩
    · obtain ⟨x, u, e, hx⟩ := digits_head hw hd.1 (fracText d.frac ++ (expText d.exp ++ c :: r))
      exact ⟨x, u, e, isDigit_facts x hx⟩
  have etext : d.text ++ c :: r = d.sgn.text ++ x :: u := by
    rw [Decimal.text, ← ex]
    simp only [List.append_assoc]
  have hsk : skipSpace (sp ++ (d.text ++ c :: r)) = .ok (d.sgn.text ++ x :: u) := by
    rw [etext]
    cases hsg : d.sgn with
    | none => exact skip_spaces hs hx.2.2 u
    | plus => exact skip_spaces hs (by decide) _
    | minus => exact skip_spaces hs (by decide) _
  rw [strToF64, hsk, except_ok_bind, sign_ok d.sgn (fun _ => ⟨hx.1, hx.2.1⟩), except_ok_bind]
  dsimp only
  rw [← ex, ey, whole_fold hd.1 hy, except_ok_bind]
  dsimp only
  rw [← ey, fraction_fold hd hc r, except_ok_bind]
  dsimp only
  rw [exponent_ok hd hc r, except_ok_bind]
  dsimp only
  congr 2
  simp only [List.length_append, List.length_cons]
  omega

theorem whole_value {ds : List Nat} (hd : ∀ x ∈ ds, x < 10) (h : Num.value 10 ds < 2 ^ 53) : wholeFold ds (.fin 0) = .fin (Num.value 10 ds : ℚ) := by
  have h1 := whole_ok hd (c := 0) (by decide) [] 0 h
  rw [Nat.cast_zero, whole_fold hd (by decide)] at h1
  injection h1 with h1
  exact (Prod.mk.inj h1).1

theorem frac_value {fs : List Nat} (hd : ∀ x ∈ fs, x < 10) (hl : fs.length ≤ 22) {n : Nat} (h : n < 2 ^ 53) :
    ∃ v : ℚ, fracFold fs (.fin n) (.fin 10) = .fin v ∧ F64.rounded v = v ∧ |v - (n + PrintReal.valueOf fs)| ≤ fs.length * (n + 2) * F64.pow2 (-52) := by
  have hn : F64.rounded (n : ℚ) = n := F64.rounded_eq (m := n) (e := 0) (by rw [Nat.abs_cast]; omega) (by norm_num) (by norm_num [F64.pow2_eq])
  obtain ⟨v, e1, e2, e3⟩ := frac_ok hd (c := 0) (by decide) [] (V := n) (by positivity) (by exact_mod_cast (by omega : n ≤ 2 ^ 53)) (k := 0) (by omega) (a := n) (v := n) hn (le_refl _)
    (by simp) (by simp) (p := .fin 10) (by simp)
  rw [frac_fold hd (by decide)] at e1
  injection e1 with e1
  refine ⟨v, (Prod.mk.inj e1).1, e2, ?_⟩
  rw [pow_zero, div_one, Nat.zero_add] at e3
  exact e3

/-- Zeros behind the point change nothing. -/
theorem frac_zeros {n : Nat} (h : n < 2 ^ 53) (k : Nat) : ∀ {m : Nat}, m ≤ 22 → k ≤ 22 → fracFold (List.replicate m 0) (.fin (n : ℚ)) (.fin (10 ^ k)) = .fin (n : ℚ) ∨ k + m > 22 := by
  intro m
  induction m generalizing k with
  | zero => exact fun _ _ => .inl rfl
  | succ m ih =>
    intro hm hk
    by_cases hkm : k + (m + 1) > 22
    · exact .inr hkm
    · left
      have hn : F64.round (n : ℚ) = .fin n := F64.ofInt_eq (n := (n : ℤ)) (by rw [Nat.abs_cast]; omega)
      have h0 : F64.round 0 = .fin 0 := by decide +kernel
      have hadd : F64.add (.fin (n : ℚ)) (F64.div (F64.ofInt ((0 : Nat) : ℤ)) (.fin (10 ^ k))) = .fin n := by
        have e1 : F64.ofInt ((0 : Nat) : ℤ) = .fin 0 := by decide +kernel
        rw [e1]
        have e2 : F64.div (.fin 0) (.fin (10 ^ k)) = .fin 0 := by
          change (if (10 : ℚ) ^ k = 0 then _ else F64.round _) = _
          rw [if_neg (by positivity), zero_div, h0]
        rw [e2]
        change F64.round _ = _
        rw [add_zero, hn]
      rw [List.replicate_succ, fracFold, hadd]
      have hp := mul_pow10 (i := k) (j := 1) (by omega)
      rw [pow_one] at hp
      rw [hp]
      exact (ih (k + 1) (by omega) (by omega)).resolve_right (by omega)

/-! ## C128 -/

/-- A number in any notation, with up to 15 digits or so before the point, up to 22 behind it and an exponent of up to 22, is read whole: the mantissa with an error of at
most `n (V + 2) 2^-52`, where `n` is the number of digits behind the point and `V` the whole part, and the exponent and the sign are then applied with one rounding. -/
theorem C128_reads {d : Decimal} (hd : d.Valid) (hw : Num.value 10 d.whole < 2 ^ 53) (hf : d.places.length ≤ 22) (he : d.exponent ≤ 22) {sp : List Byte}
    (hs : ∀ c ∈ sp, Token.isSpace c = true) {c : Byte} (hc : d.Stop c) (rest : List Byte) :
    ∃ m : ℚ, |m - d.mantissa| ≤ d.places.length * (Num.value 10 d.whole + 2) * F64.pow2 (-52) ∧ F64.rounded m = m ∧
      strToF64 (sp ++ (d.text ++ c :: rest)) = .ok (.fin ((if d.sgn = .minus then -1 else 1) * F64.rounded (if d.small then m / 10 ^ d.exponent else m * 10 ^ d.exponent)), (sp ++ d.text).length) := by
  have hpl : ∀ x ∈ d.places, x < 10 := by
    unfold Decimal.places
    cases hfr : d.frac with
    | none => simp
    | some fs => exact hd.2.1 fs hfr
  obtain ⟨m, e1, e2, e3⟩ := frac_value hpl hf hw
  refine ⟨m, by rw [mantissa_eq]; exact e3, e2, ?_⟩
  rw [read_fold hd hs hc, whole_value hd.1 hw, e1]
  have hsc : (if d.exp = none then F64.fin 1 else scaleOf (BitVec.ofNat 32 d.exponent)) = .fin (10 ^ d.exponent) := by
    split
    · next h =>
      unfold Decimal.exponent
      rw [h, pow_zero]
    · rw [scaleOf_ok (by rw [BitVec.toNat_ofNat]; omega), BitVec.toNat_ofNat, Nat.mod_eq_of_lt (by omega)]
  have h10 : (1 : ℚ) ≤ 10 ^ d.exponent := one_le_pow₀ (by norm_num)
  have h10' : (10 : ℚ) ^ d.exponent ≤ 10 ^ 22 := pow_le_pow_right₀ (by norm_num) he
  obtain ⟨hb0, hb1⟩ := valueOf_bound hpl
  have hV : (Num.value 10 d.whole : ℚ) ≤ 2 ^ 53 := by exact_mod_cast hw.le
  have hV0 : (0 : ℚ) ≤ Num.value 10 d.whole := by positivity
  have hm : |m| ≤ 2 ^ 54 := by
    have hE : (d.places.length : ℚ) * (Num.value 10 d.whole + 2) * F64.pow2 (-52) ≤ 2 ^ 52 := by
      have h1 : (d.places.length : ℚ) ≤ 22 := by exact_mod_cast hf
      have h2 : F64.pow2 (-52) = 1 / 2 ^ 52 := by norm_num [F64.pow2_eq]
      rw [h2]
      calc (d.places.length : ℚ) * (Num.value 10 d.whole + 2) * (1 / 2 ^ 52) ≤ 22 * (2 ^ 53 + 2) * (1 / 2 ^ 52) := by gcongr
        _ ≤ 2 ^ 52 := by norm_num
    rw [abs_le] at e3 ⊢
    constructor <;> linarith
  have hq : |if d.small then m / 10 ^ d.exponent else m * 10 ^ d.exponent| ≤ F64.pow2 1000 := by
    refine le_trans (b := 2 ^ 54 * 10 ^ 22) ?_ (le_trans (b := F64.pow2 200) (by norm_num [F64.pow2_eq]) (F64.pow2_le (by norm_num)))
    split
    · rw [abs_div, abs_of_pos (show (0 : ℚ) < 10 ^ d.exponent by positivity), div_le_iff₀ (by positivity)]
      nlinarith [abs_nonneg m]
    · rw [abs_mul, abs_of_pos (show (0 : ℚ) < 10 ^ d.exponent by positivity)]
      exact mul_le_mul hm h10' (by positivity) (by positivity)
  rw [hsc]
  have hval : (if d.small then F64.div (.fin m) (.fin (10 ^ d.exponent)) else F64.mul (.fin m) (.fin (10 ^ d.exponent))) =
      F64.round (if d.small then m / 10 ^ d.exponent else m * 10 ^ d.exponent) := by
    split
    · change (if (10 : ℚ) ^ d.exponent = 0 then _ else F64.round _) = _
      rw [if_neg (by positivity)]
    · rfl
  have hsgn : (if (d.sgn == .minus) = true then (-1 : ℚ) else 1) = if d.sgn = .minus then -1 else 1 := by cases d.sgn <;> rfl
  rw [hval, mul_one_round hq, hsgn]

/-- Without digits behind the point the result is the exact one, correctly rounded. -/
theorem C128_exact {d : Decimal} (hd : d.Valid) (hw : Num.value 10 d.whole < 2 ^ 53) (hf : d.places = []) (he : d.exponent ≤ 22) {sp : List Byte}
    (hs : ∀ c ∈ sp, Token.isSpace c = true) {c : Byte} (hc : d.Stop c) (rest : List Byte) :
    strToF64 (sp ++ (d.text ++ c :: rest)) =
      .ok (.fin ((if d.sgn = .minus then -1 else 1) * F64.rounded (if d.small then d.mantissa / 10 ^ d.exponent else d.mantissa * 10 ^ d.exponent)), (sp ++ d.text).length) := by
  obtain ⟨m, h1, -, h2⟩ := C128_reads hd hw (by rw [hf]; simp) he hs hc rest
  have : m = d.mantissa := by
    rw [hf] at h1
    simp only [List.length_nil, Nat.cast_zero, zero_mul] at h1
    have := abs_nonpos_iff.1 h1
    linarith
  rw [h2, this]

/-- Only the exponent modulo 2^32 counts, and of this only whether it is at most 308. -/
theorem C128_exponent_wraps {d d' : Decimal} (hd : d.Valid) (hd' : d'.Valid) (h1 : d.sgn = d'.sgn) (h2 : d.whole = d'.whole) (h3 : d.frac = d'.frac) (h4 : d.exp ≠ none) (h4' : d'.exp ≠ none)
    (h5 : d.small = d'.small) (h : min (d.exponent % 2 ^ 32) 308 = min (d'.exponent % 2 ^ 32) 308) {c : Byte} (hc : d.Stop c) (hc' : d'.Stop c) (rest : List Byte) :
    ∃ x, strToF64 (d.text ++ c :: rest) = .ok (x, d.text.length) ∧ strToF64 (d'.text ++ c :: rest) = .ok (x, d'.text.length) := by
  have e1 := read_fold hd (sp := []) (by simp) hc rest
  have e2 := read_fold hd' (sp := []) (by simp) hc' rest
  rw [List.nil_append, List.nil_append] at e1 e2
  have hpl : d.places = d'.places := by unfold Decimal.places; rw [h3]
  have hsc : scaleOf (BitVec.ofNat 32 d.exponent) = scaleOf (BitVec.ofNat 32 d'.exponent) := by
    have key : ∀ n : Nat, (if (BitVec.ofNat 32 n).toNat > 308 then 308 else (BitVec.ofNat 32 n).toNat) = min (n % 2 ^ 32) 308 := by
      intro n
      rw [BitVec.toNat_ofNat]
      split <;> omega
    unfold scaleOf
    rw [key, key, h]
  refine ⟨_, e1, e2.trans ?_⟩
  rw [h1, h2, h5, hpl, if_neg h4, if_neg h4', hsc]

/-- Reading stops at the terminator at the latest, and is never undefined. -/
theorem C128_total (s : List Byte) (rest : List Byte) : ∃ x k, strToF64 (s ++ 0 :: rest) = .ok (x, k) ∧ k ≤ s.length := by
  -- where a loop stops
  have hsk : ∀ s : List Byte, ∃ t, skipSpace (s ++ 0 :: rest) = .ok (t ++ 0 :: rest) ∧ t.length ≤ s.length := by
    intro s
    induction s with
    | nil => exact ⟨[], rfl, le_refl _⟩
    | cons c s ih =>
      rw [List.cons_append, skipSpace]
      split
      · obtain ⟨t, e, h⟩ := ih
        exact ⟨t, e, by rw [List.length_cons]; omega⟩
      · exact ⟨c :: s, rfl, le_refl _⟩
  have hsg : ∀ s : List Byte, ∃ b t, readSign (s ++ 0 :: rest) = .ok (b, t ++ 0 :: rest) ∧ t.length ≤ s.length := by
    intro s
    cases s with
    | nil => exact ⟨false, [], rfl, le_refl _⟩
    | cons c s =>
      rw [List.cons_append, readSign]
      split
      · exact ⟨_, s, rfl, by simp⟩
      · split
        · exact ⟨_, s, rfl, by simp⟩
        · exact ⟨_, c :: s, rfl, le_refl _⟩
  have hwh : ∀ (s : List Byte) (v : F64), ∃ x t, wholeLoop (s ++ 0 :: rest) v = .ok (x, t ++ 0 :: rest) ∧ t.length ≤ s.length := by
    intro s
    induction s with
    | nil => exact fun v => ⟨v, [], rfl, le_refl _⟩
    | cons c s ih =>
      intro v
      rw [List.cons_append, wholeLoop]
      split
      · obtain ⟨x, t, e, h⟩ := ih (F64.add (F64.mul v (.fin 10)) (F64.ofInt ((c.toNat : Int) - 0x30)))
        exact ⟨x, t, e, by rw [List.length_cons]; omega⟩
      · exact ⟨_, c :: s, rfl, le_refl _⟩
  have hfl : ∀ (s : List Byte) (v p : F64), ∃ x t, fracLoop (s ++ 0 :: rest) v p = .ok (x, t ++ 0 :: rest) ∧ t.length ≤ s.length := by
    intro s
    induction s with
    | nil => exact fun v p => ⟨v, [], rfl, le_refl _⟩
    | cons c s ih =>
      intro v p
      rw [List.cons_append, fracLoop]
      split
      · obtain ⟨x, t, e, h⟩ := ih (F64.add v (F64.div (F64.ofInt ((c.toNat : Int) - 0x30)) p)) (F64.mul p (.fin 10))
        exact ⟨x, t, e, by rw [List.length_cons]; omega⟩
      · exact ⟨_, c :: s, rfl, le_refl _⟩
  have hel : ∀ (s : List Byte) (v : BitVec 32), ∃ x t, expLoop (s ++ 0 :: rest) v = .ok (x, t ++ 0 :: rest) ∧ t.length ≤ s.length := by
    intro s
    induction s with
    | nil => exact fun v => ⟨v, [], rfl, le_refl _⟩
    | cons c s ih =>
      intro v
      rw [List.cons_append, expLoop]
      split
      · obtain ⟨x, t, e, h⟩ := ih (v * 10 + BitVec.ofInt 32 ((c.toNat : Int) - 0x30))
        exact ⟨x, t, e, by rw [List.length_cons]; omega⟩
      · exact ⟨_, c :: s, rfl, le_refl _⟩
  have hfr : ∀ (s : List Byte) (v : F64), ∃ x t, fraction (s ++ 0 :: rest) v = .ok (x, t ++ 0 :: rest) ∧ t.length ≤ s.length := by
    intro s v
    cases s with
    | nil => exact ⟨v, [], rfl, le_refl _⟩
    | cons c s =>
      rw [List.cons_append, fraction]
      split
      · obtain ⟨x, t, e, h⟩ := hfl s v (.fin 10)
        exact ⟨x, t, e, by rw [List.length_cons]; omega⟩
      · exact ⟨_, c :: s, rfl, le_refl _⟩
  have hex : ∀ s : List Byte, ∃ b x t, exponent (s ++ 0 :: rest) = .ok (b, x, t ++ 0 :: rest) ∧ t.length ≤ s.length := by
    intro s
    cases s with
    | nil => exact ⟨false, _, [], rfl, le_refl _⟩
    | cons c s =>
      rw [List.cons_append, exponent]
      split
      · obtain ⟨b, t, e, h⟩ := hsg s
        obtain ⟨x, u, e', h'⟩ := hel t 0
        refine ⟨b, scaleOf x, u, ?_, by rw [List.length_cons]; omega⟩
        rw [e, except_ok_bind]
        dsimp only
        rw [e', except_ok_bind]
      · exact ⟨_, _, c :: s, rfl, le_refl _⟩
  obtain ⟨s1, e1, h1⟩ := hsk s
  obtain ⟨b, s2, e2, h2⟩ := hsg s1
  obtain ⟨v, s3, e3, h3⟩ := hwh s2 (.fin 0)
  obtain ⟨w, s4, e4, h4⟩ := hfr s3 v
  obtain ⟨fr, sc, s5, e5, h5⟩ := hex s4
  refine ⟨F64.mul (.fin (if b then -1 else 1)) (if fr then F64.div w sc else F64.mul w sc), (s ++ 0 :: rest).length - (s5 ++ 0 :: rest).length, ?_, by simp⟩
  rw [strToF64, e1, except_ok_bind, e2, except_ok_bind]
  dsimp only
  rw [e3, except_ok_bind]
  dsimp only
  rw [e4, except_ok_bind]
  dsimp only
  rw [e5, except_ok_bind]

/-- A text without a number reads as zero; the sign and the spaces before it count as read. -/
theorem C128_no_number {sp : List Byte} (hs : ∀ c ∈ sp, Token.isSpace c = true) (sg : Sgn) {c : Byte} (hc : Chars.isDigit c = false ∧ Token.isSpace c = false)
    (hc2 : c ≠ 0x2d#8 ∧ c ≠ 0x2b#8 ∧ c ≠ 0x2e#8 ∧ c ≠ 0x65#8 ∧ c ≠ 0x45#8) (rest : List Byte) :
    strToF64 (sp ++ (sg.text ++ c :: rest)) = .ok (.fin 0, (sp ++ sg.text).length) := by
  have hsk : skipSpace (sp ++ (sg.text ++ c :: rest)) = .ok (sg.text ++ c :: rest) := by
    cases sg with
    | none => exact skip_spaces hs hc.2 rest
    | plus => exact skip_spaces hs (by decide) _
    | minus => exact skip_spaces hs (by decide) _
  have hz : ∀ b : Bool, F64.mul (.fin (if b then -1 else 1)) (if false = true then F64.div (.fin 0) (.fin 1) else F64.mul (.fin 0) (.fin 1)) = .fin 0 := by decide +kernel
  rw [strToF64, hsk, except_ok_bind, sign_ok sg (fun _ => ⟨hc2.1, hc2.2.1⟩), except_ok_bind]
  dsimp only
  rw [wholeLoop, hc.1, if_neg (by decide), except_ok_bind]
  dsimp only
  rw [fraction, if_neg hc2.2.2.1, except_ok_bind]
  dsimp only
  rw [exponent, if_neg (fun h => h.elim hc2.2.2.2.1 hc2.2.2.2.2), except_ok_bind]
  dsimp only
  rw [hz]
  congr 2
  simp only [List.length_append, List.length_cons]
  omega

/-! ### Printing and reading -/

def lastNums (p n : Nat) : List Nat := (List.range p).map fun i => n / 10 ^ (p - 1 - i) % 10

theorem lastNums_succ (p n : Nat) : lastNums (p + 1) n = lastNums p (n / 10) ++ [n % 10] := by
  unfold lastNums
  rw [List.range_succ, List.map_append, List.map_singleton]
  congr 1
  · refine List.map_congr_left fun i hi => ?_
    have hi := List.mem_range.1 hi
    rw [show p + 1 - 1 - i = p - 1 - i + 1 by omega, pow_succ, mul_comm, Nat.div_div_eq_div_mul]
  · simp

theorem lastNums_lt (p n : Nat) : ∀ x ∈ lastNums p n, x < 10 := by
  intro x hx
  obtain ⟨i, -, rfl⟩ := List.mem_map.1 hx
  exact Nat.mod_lt _ (by decide)

theorem lastNums_length (p n : Nat) : (lastNums p n).length = p := by unfold lastNums; simp

theorem lastNums_value (p n : Nat) : (lastNums p n).foldl (fun acc d => acc * 10 + d) (n / 10 ^ p) = n := by
  induction p generalizing n with
  | zero => simp [lastNums]
  | succ p ih =>
    rw [lastNums_succ, List.foldl_append, show 10 ^ (p + 1) = 10 * 10 ^ p by rw [pow_succ, mul_comm], ← Nat.div_div_eq_div_mul, ih]
    simp only [List.foldl_cons, List.foldl_nil]
    omega

theorem lastNums_zero (p a : Nat) : lastNums p (a * 10 ^ p) = List.replicate p 0 := by
  induction p with
  | zero => rfl
  | succ p ih =>
    have e : a * 10 ^ (p + 1) = 10 * (a * 10 ^ p) := by rw [pow_succ]; ring
    rw [lastNums_succ, e, Nat.mul_div_cancel_left _ (by decide), ih, Nat.mul_mod_right, List.replicate_succ']

/-- The printed number, in parts. -/
def printed (p : Nat) (q : ℚ) : Decimal :=
  { sgn := if q < 0 then .minus else .none, whole := digits 10 ⌊|q|⌋.toNat, frac := if q ≠ 0 ∧ 0 < p then some (lastNums p ⌊|q| * 10 ^ p⌋.toNat) else none }

theorem printed_text (p : Nat) (q : ℚ) : (printed p q).text = PrintReal.decimal false false p q := by
  unfold printed Decimal.text PrintReal.decimal
  by_cases h0 : q = 0
  · subst h0
    rw [if_neg (by simp), if_pos rfl, if_neg (by simp), abs_zero, Int.floor_zero]
    decide +kernel
  rw [if_neg h0]
  have hnum : digitsText (digits 10 ⌊|q|⌋.toNat) = numeral false 10 ⌊|q|⌋.toNat := rfl
  have hsg : (if q < 0 then Sgn.minus else Sgn.none).text = if q < 0 then [0x2d#8] else if false = true then [0x2b#8] else [] := by
    split <;> rfl
  dsimp only
  rw [hnum, hsg, expText, List.append_nil, List.append_assoc]
  congr 2
  by_cases hp : 0 < p
  · rw [if_pos ⟨h0, hp⟩, if_pos (.inr hp), fracText]
    congr 1
    unfold digitsText lastNums PrintReal.lastDigits
    rw [List.map_map]
    rfl
  · rw [if_neg (fun h => hp h.2), if_neg (by simp [hp])]
    rfl

theorem printed_valid (p : Nat) (q : ℚ) : (printed p q).Valid := by
  refine ⟨digits_mem (by decide) _, ?_, .inl ?_, ?_⟩
  · intro fs hf
    unfold printed at hf
    dsimp only at hf
    split at hf
    · injection hf with hf
      subst hf
      exact lastNums_lt _ _
    · cases hf
  · obtain ⟨d, t, e⟩ := digits_cons (b := 10) (by decide) ⌊|q|⌋.toNat
    unfold printed
    rw [e]
    simp
  · intro cap s es h
    cases h

theorem floor_nat {x : ℚ} (h : 0 ≤ x) : ((⌊x⌋.toNat : ℕ) : ℚ) = ⌊x⌋ := by
  have : 0 ≤ ⌊x⌋ := Int.floor_nonneg.2 h
  exact_mod_cast Int.toNat_of_nonneg this

theorem floor_scale {x : ℚ} (h : 0 ≤ x) (p : Nat) : ⌊x⌋.toNat = ⌊x * 10 ^ p⌋.toNat / 10 ^ p := by
  have h1 := Int.floor_div_natCast (x * 10 ^ p) (10 ^ p)
  rw [show x * 10 ^ p / ((10 ^ p : ℕ) : ℚ) = x by push_cast; field_simp] at h1
  have h2 : 0 ≤ ⌊x * 10 ^ p⌋ := Int.floor_nonneg.2 (by positivity)
  obtain ⟨n, hn⟩ := Int.eq_ofNat_of_zero_le h2
  rw [hn] at h1
  rw [h1, hn]
  exact_mod_cast rfl

theorem printed_mantissa (p : Nat) (q : ℚ) : (printed p q).mantissa = ⌊|q| * 10 ^ p⌋ / 10 ^ p := by
  by_cases h0 : q = 0
  · subst h0
    unfold printed Decimal.mantissa Decimal.places
    rw [abs_zero, zero_mul, Int.floor_zero]
    simp only [ne_eq, not_true_eq_false, false_and, if_false, Option.getD_none, List.append_nil]
    rw [digits_value (by decide)]
    simp
  have hx := abs_nonneg q
  by_cases hp : 0 < p
  · unfold printed Decimal.mantissa Decimal.places
    dsimp only
    rw [if_pos ⟨h0, hp⟩, Option.getD_some, lastNums_length, Num.value, List.foldl_append]
    have := digits_value (b := 10) (by decide) ⌊|q|⌋.toNat
    rw [Num.value] at this
    rw [this, floor_scale hx p, lastNums_value, floor_nat (by positivity)]
  · obtain rfl : p = 0 := by omega
    unfold printed Decimal.mantissa Decimal.places
    simp only [Nat.lt_irrefl, and_false, if_false, Option.getD_none, List.append_nil]
    rw [digits_value (by decide), floor_nat hx]
    simp

theorem printed_places (p : Nat) (q : ℚ) : (printed p q).places.length ≤ p := by
  unfold printed Decimal.places
  dsimp only
  split
  · rw [Option.getD_some, lastNums_length]
  · simp

/-- The text of a number, read again, gives a number of the same sign that is at most `10^-p + p (|q| + 2) 2^-52` away, and all of the text is read. -/
theorem C128_print_read {q : ℚ} (hq : |q| < F64.pow2 53) {p : Nat} (hp : p ≤ 22) (rest : List Byte) :
    ∃ x : ℚ, strToF64 (PrintReal.decimal false false p q ++ 0 :: rest) = .ok (.fin x, (PrintReal.decimal false false p q).length) ∧
      |x - q| ≤ 1 / 10 ^ p + p * (|q| + 2) * F64.pow2 (-52) := by
  have hx := abs_nonneg q
  have hfl := Int.floor_le |q|
  have hw : Num.value 10 (printed p q).whole = ⌊|q|⌋.toNat := digits_value (by decide) _
  have hcast := floor_nat hx
  have hw53 : Num.value 10 (printed p q).whole < 2 ^ 53 := by
    rw [hw]
    have h1 : ((⌊|q|⌋.toNat : ℕ) : ℚ) < 2 ^ 53 := by
      rw [hcast]
      refine lt_of_le_of_lt hfl (lt_of_lt_of_eq hq ?_)
      norm_num [F64.pow2_eq]
    exact_mod_cast h1
  have hpl := printed_places p q
  obtain ⟨m, h1, h2, h3⟩ := C128_reads (printed_valid p q) hw53 (by omega) (Nat.zero_le _) (sp := []) (by simp) (c := 0) ⟨by decide, fun _ => ⟨by decide, by decide, fun _ => by decide⟩⟩ rest
  rw [List.nil_append, List.nil_append, printed_text] at h3
  have hsm : (printed p q).small = false := rfl
  have hex : (printed p q).exponent = 0 := rfl
  rw [hsm, hex, if_neg Bool.false_ne_true, pow_zero, mul_one, h2] at h3
  refine ⟨_, h3, ?_⟩
  rw [hw, hcast, printed_mantissa] at h1
  have hb : |m - ⌊|q| * 10 ^ p⌋ / 10 ^ p| ≤ p * (|q| + 2) * F64.pow2 (-52) := by
    refine h1.trans ?_
    have := F64.pow2_pos (-52)
    have hc : ((printed p q).places.length : ℚ) ≤ p := by exact_mod_cast hpl
    gcongr
  have ht : (0 : ℚ) < 10 ^ p := by positivity
  have hf1 : (⌊|q| * 10 ^ p⌋ : ℚ) / 10 ^ p ≤ |q| := by
    rw [div_le_iff₀ ht]
    exact Int.floor_le _
  have hf2 : |q| - 1 / 10 ^ p ≤ (⌊|q| * 10 ^ p⌋ : ℚ) / 10 ^ p := by
    rw [le_div_iff₀ ht, sub_mul, one_div, inv_mul_cancel₀ ht.ne']
    linarith [Int.lt_floor_add_one (|q| * 10 ^ p)]
  have hma : abs (m - |q|) ≤ 1 / 10 ^ p + p * (|q| + 2) * F64.pow2 (-52) := by
    rw [abs_le] at hb ⊢
    have h0 : (0 : ℚ) < 1 / 10 ^ p := by positivity
    constructor <;> linarith
  have hsg : (printed p q).sgn = if q < 0 then .minus else .none := rfl
  rw [hsg]
  by_cases hneg : q < 0
  · rw [if_pos hneg, if_pos rfl]
    rw [abs_of_neg hneg] at hma ⊢
    rw [show -1 * m - q = -(m - -q) by ring, abs_neg]
    exact hma
  · rw [if_neg hneg, if_neg (by decide), one_mul]
    have e : |q| = q := abs_of_nonneg (not_lt.1 hneg)
    rw [e] at hma ⊢
    exact hma

/-- Whole numbers below 2^53 come back as they were. -/
theorem C128_print_read_whole {n : ℤ} (hn : |n| < 2 ^ 53) {p : Nat} (hp : p ≤ 21) (rest : List Byte) :
    strToF64 (PrintReal.decimal false false p n ++ 0 :: rest) = .ok (.fin n, (PrintReal.decimal false false p n).length) := by
  have habs : |(n : ℚ)| = ((n.natAbs : ℕ) : ℚ) := by rw [Nat.cast_natAbs]; simp
  have hnn : n.natAbs < 2 ^ 53 := by rw [Int.abs_eq_natAbs] at hn; omega
  have hfl : ⌊|(n : ℚ)|⌋.toNat = n.natAbs := by rw [habs, Int.floor_natCast]; rfl
  have hfp : ⌊|(n : ℚ)| * 10 ^ p⌋.toNat = n.natAbs * 10 ^ p := by
    rw [habs, show ((n.natAbs : ℕ) : ℚ) * 10 ^ p = ((n.natAbs * 10 ^ p : ℕ) : ℚ) by push_cast; ring, Int.floor_natCast]
    rfl
  have h := read_fold (printed_valid p n) (sp := []) (by simp) (c := 0) ⟨by decide, fun _ => ⟨by decide, by decide, fun _ => by decide⟩⟩ rest
  rw [List.nil_append, List.nil_append, printed_text] at h
  rw [h]
  have hw : wholeFold (printed p n).whole (.fin 0) = .fin ((n.natAbs : ℕ) : ℚ) := by
    have e : (printed p n).whole = digits 10 n.natAbs := by rw [← hfl]; rfl
    rw [e, whole_value (digits_mem (by decide) _) (by rwa [digits_value (by decide)]), digits_value (by decide)]
  have hf : fracFold (printed p n).places (.fin ((n.natAbs : ℕ) : ℚ)) (.fin 10) = .fin ((n.natAbs : ℕ) : ℚ) := by
    unfold printed Decimal.places
    dsimp only
    split
    · rw [Option.getD_some, hfp, lastNums_zero]
      have := (frac_zeros hnn 1 (m := p) (by omega) (by omega)).resolve_right (by omega)
      rwa [pow_one] at this
    · rfl
  have hsm : (printed p n).small = false := rfl
  have hex : (printed p n).exp = none := rfl
  rw [hw, hf, hsm, hex, if_neg Bool.false_ne_true, if_pos rfl]
  have hr : F64.mul (.fin ((n.natAbs : ℕ) : ℚ)) (.fin 1) = F64.round ((n.natAbs : ℕ) : ℚ) := by
    change F64.round _ = _
    rw [mul_one]
  have hri : F64.rounded ((n.natAbs : ℕ) : ℚ) = ((n.natAbs : ℕ) : ℚ) :=
    F64.rounded_eq (m := n.natAbs) (e := 0) (by rw [Nat.abs_cast]; omega) (by norm_num) (by norm_num [F64.pow2_eq])
  have hbig : |((n.natAbs : ℕ) : ℚ)| ≤ F64.pow2 1000 := by
    refine le_trans (b := F64.pow2 53) ?_ (F64.pow2_le (by norm_num))
    rw [Nat.abs_cast, show F64.pow2 53 = ((2 ^ 53 : ℕ) : ℚ) by norm_num [F64.pow2_eq]]
    exact_mod_cast hnn.le
  rw [hr, mul_one_round hbig, hri]
  have hsg : (printed p n).sgn = if (n : ℚ) < 0 then .minus else .none := rfl
  have hval : (if ((printed p n).sgn == .minus) = true then (-1 : ℚ) else 1) * ((n.natAbs : ℕ) : ℚ) = n := by
    rw [hsg, ← habs]
    by_cases hneg : (n : ℚ) < 0
    · rw [if_pos hneg, abs_of_neg hneg, if_pos (by decide)]
      ring
    · rw [if_neg hneg, abs_of_nonneg (by linarith), if_neg (by decide), one_mul]
  rw [hval]

/-- `%.<p>f` and back, for the numbers of which C127 has the text. -/
theorem C128_round_trip_partial {b : BitVec 64} {q : ℚ} (hb : F64.ofBits b = .fin q) (hq : |q| < F64.pow2 53) {p : Nat} (hp : PrintReal.Printable p q) (rest text : List Byte) (maxLen : Nat)
    (hm : (PrintReal.decimal false false p q).length < maxLen) (ht : (PrintReal.decimal false false p q).length < text.length) :
    ∃ (text' : List Byte) (r : Int) (x : ℚ) (k : Nat), snprintf PrintReal.f64 text maxLen (0x25#8 :: 0x2e#8 :: (numeral false 10 p ++ 0x66#8 :: 0 :: rest)) [.real b] = .ok (text', r) ∧
      strToF64 text' = .ok (.fin x, k) ∧ |x - q| ≤ 1 / 10 ^ p + p * (|q| + 2) * F64.pow2 (-52) ∧ ((∃ n : ℤ, q = n) → x = q) := by
  have hr : PrintReal.Renders [([], .real { precision := .num p, conv := .f })] [.real b] (PrintReal.decimal false false p q) [] := by
    have := PrintReal.Renders.real (s := []) (d := { precision := .num p, conv := .f }) (items := []) (args := [.real b]) (args1 := [.real b]) (args2 := []) (args3 := []) (w := none)
      (p := some p) rfl rfl hb hp (.nil _)
    have e : PrintReal.realField { precision := .num p, conv := .f } none (some p) q = PrintReal.decimal false false p q := by
      unfold PrintReal.realField
      simp
    rwa [e, List.nil_append, List.append_nil] at this
  obtain ⟨text', h1, -, h2, -⟩ := PrintReal.C127_fits_partial (last := []) (by
      intro x hx
      obtain rfl := List.mem_singleton.1 hx
      exact ⟨by simp [Literal], by simp [PrintReal.Item.Valid]; have := hp.2.1; omega⟩) (by simp [Literal]) hr rfl rest text maxLen
    (by rwa [List.append_nil]) (PrintReal.decimal false false p q).length (by rw [List.append_nil]) ht (by
      rintro ⟨s, d, hd, -⟩
      simp at hd)
  rw [List.append_nil] at h1 h2
  have e : PrintReal.spellMixed [([], .real { precision := .num p, conv := .f })] [] ++ 0 :: rest = 0x25#8 :: 0x2e#8 :: (numeral false 10 p ++ 0x66#8 :: 0 :: rest) := by
    simp [PrintReal.spellMixed, PrintReal.spellItem, PrintReal.spellRealDirective, spellCount, spellLength, PrintReal.spellReal]
  rw [e] at h1
  have ht' : text' = PrintReal.decimal false false p q ++ 0 :: text'.drop ((PrintReal.decimal false false p q).length + 1) := by
    conv_lhs => rw [← List.take_append_drop ((PrintReal.decimal false false p q).length + 1) text', h2]
    simp
  obtain ⟨x, hx1, hx2⟩ := C128_print_read hq (p := p) (by have := hp.2.1; omega) (text'.drop ((PrintReal.decimal false false p q).length + 1))
  refine ⟨text', _, x, _, h1, by rw [ht']; exact hx1, hx2, ?_⟩
  rintro ⟨n, rfl⟩
  have hn : |n| < 2 ^ 53 := by
    rw [show F64.pow2 53 = ((2 ^ 53 : ℤ) : ℚ) by norm_num [F64.pow2_eq]] at hq
    exact_mod_cast hq
  have := C128_print_read_whole hn (p := p) (by have := hp.2.1; omega) (text'.drop ((PrintReal.decimal false false p n).length + 1))
  rw [hx1] at this
  injection this with this
  injection (Prod.mk.inj this).1

/-! ### Deviations -/

/-- `0.15` is not read as the double nearest to 0.15 but as the next one. -/
theorem C128_not_nearest (rest : List Byte) :
    ∃ x y : ℚ, strToF64 ([0x30#8, 0x2e#8, 0x31#8, 0x35#8] ++ 0 :: rest) = .ok (.fin x, 4) ∧ F64.round (15 / 100) = .fin y ∧ |y - 15 / 100| < |x - 15 / 100| := by
  have h := read_fold (d := { whole := [0], frac := some [1, 5] }) (by unfold Decimal.Valid; simp) (sp := []) (by simp) (c := 0) ⟨by decide, fun _ => ⟨by decide, by decide, fun _ => by decide⟩⟩ rest
  refine ⟨5404319552844596 / 2 ^ 55, 5404319552844595 / 2 ^ 55, h.trans ?_, by decide +kernel, by decide +kernel⟩
  decide +kernel

/-- An exponent above 308 counts as 308, so `1e309` is `1e308` rather than infinity, and `1e-400` is not zero. -/
theorem C128_exponent_308 {d d' : Decimal} (hd : d.Valid) (hd' : d'.Valid) (h1 : d.sgn = d'.sgn) (h2 : d.whole = d'.whole) (h3 : d.frac = d'.frac) (h4 : d.exp ≠ none) (h4' : d'.exp ≠ none)
    (h5 : d.small = d'.small) (h : 308 ≤ d.exponent ∧ d.exponent < 2 ^ 32) (h' : d'.exponent = 308) {c : Byte} (hc : d.Stop c) (hc' : d'.Stop c) (rest : List Byte) :
    ∃ x, strToF64 (d.text ++ c :: rest) = .ok (x, d.text.length) ∧ strToF64 (d'.text ++ c :: rest) = .ok (x, d'.text.length) :=
  C128_exponent_wraps hd hd' h1 h2 h3 h4 h4' h5 (by rw [Nat.mod_eq_of_lt h.2, h']; omega) hc hc' rest

/-! ## Cases that meet the hypotheses -/

example : ({ sgn := .minus, whole := [1, 2], frac := some [5], exp := some (true, .plus, [0, 3]) } : Decimal).text =
    [0x2d#8, 0x31#8, 0x32#8, 0x2e#8, 0x35#8, 0x45#8, 0x2b#8, 0x30#8, 0x33#8] := by decide

example : ({ sgn := .minus, whole := [1, 2], frac := some [5], exp := some (true, .plus, [0, 3]) } : Decimal).Valid := by
  unfold Decimal.Valid; simp

/-- ` -12.5E+03,` -/
example : strToF64 [0x20#8, 0x2d#8, 0x31#8, 0x32#8, 0x2e#8, 0x35#8, 0x45#8, 0x2b#8, 0x30#8, 0x33#8, 0x2c#8] = .ok (.fin (-12500), 10) := by decide +kernel

/-- `1e-2` is the double nearest to 0.01. -/
example : strToF64 [0x31#8, 0x65#8, 0x2d#8, 0x32#8, 0#8] = .ok (.fin (F64.rounded (1 / 100)), 4) := by decide +kernel

example : PrintReal.Printable 6 (1 / 3 : ℚ) → ∃ x : ℚ, strToF64 (PrintReal.decimal false false 6 (1 / 3) ++ [0]) = .ok (.fin x, (PrintReal.decimal false false 6 (1 / 3)).length) ∧
    |x - 1 / 3| ≤ 1 / 10 ^ 6 + (6 : Nat) * (|(1 / 3 : ℚ)| + 2) * F64.pow2 (-52) :=
  fun _ => C128_print_read (q := 1 / 3) (by norm_num [F64.pow2_eq, abs_of_pos]) (by decide) []

/-- `1e309` and `1e308`, `1e4294967296` and `1e0`. -/
example (rest : List Byte) : ∃ x, strToF64 ([0x31#8, 0x65#8, 0x33#8, 0x30#8, 0x39#8] ++ 0 :: rest) = .ok (x, 5) ∧ strToF64 ([0x31#8, 0x65#8, 0x33#8, 0x30#8, 0x38#8] ++ 0 :: rest) = .ok (x, 5) :=
  C128_exponent_308 (d := { whole := [1], exp := some (false, .none, [3, 0, 9]) }) (d' := { whole := [1], exp := some (false, .none, [3, 0, 8]) }) (by unfold Decimal.Valid; simp)
    (by unfold Decimal.Valid; simp) rfl rfl rfl (by simp) (by simp) rfl (by decide) (by decide) ⟨by decide, by simp⟩ ⟨by decide, by simp⟩ rest

example (rest : List Byte) : ∃ x, strToF64 ({ whole := [1], exp := some (false, .none, [4, 2, 9, 4, 9, 6, 7, 2, 9, 6]) : Decimal }.text ++ 0 :: rest) = .ok (x, 12) ∧
    strToF64 ({ whole := [1], exp := some (false, .none, [0]) : Decimal }.text ++ 0 :: rest) = .ok (x, 3) :=
  C128_exponent_wraps (d := { whole := [1], exp := some (false, .none, [4, 2, 9, 4, 9, 6, 7, 2, 9, 6]) }) (d' := { whole := [1], exp := some (false, .none, [0]) }) (by unfold Decimal.Valid; simp) (by unfold Decimal.Valid; simp) rfl rfl rfl (by simp) (by simp) rfl (by decide) ⟨by decide, by simp⟩ ⟨by decide, by simp⟩ rest

end Zpl.ReadReal
