import Mathlib.Data.Rat.Floor
import Mathlib.Tactic.Linarith
import Mathlib.Tactic.NormNum
import Mathlib.Tactic.FieldSimp
import Mathlib.Tactic.IntervalCases
import Mathlib.Data.List.Induction
import Mathlib.Algebra.Order.Floor.Semifield
import Verif.Math.Double
import Verif.Str.Print

/-!
# Printing real numbers (code/source/core/print.c:204-280)  -  C127

`zpl__print_f64`, with the arithmetic of double precision numbers of Math/Double, as the `FloatPrinter` that Str/Print leaves open.

## Model -/

namespace Zpl.PrintReal

open Zpl Zpl.Str Zpl.Print

/-- `text_begin`, `text - text_begin` and `remaining`. -/
structure Cur where
  text : List Byte
  pos : Nat
  rem : Nat

/-- `if (remaining > 1) *text = c, remaining--; text++;` -/
def put (c : Byte) (s : Cur) : Except Fault Cur :=
  if s.rem > 1 then do
    let t ← wr s.text s.pos c
    .ok { text := t, pos := s.pos + 1, rem := s.rem - 1 }
  else .ok { s with pos := s.pos + 1 }

/-- print.c:221-227, 238-243.  `zpl__print_u64` without information prints like one with base 10 and no flags. -/
def putU64 (v : BitVec 64) (s : Cur) : Except Fault Cur := do
  let (tail, len) ← printU64 (s.text.drop s.pos) s.rem { base := 10 } v
  .ok { text := s.text.take s.pos ++ tail, pos := s.pos + len, rem := if len ≥ s.rem then min s.rem 1 else s.rem - len }

/-- print.c:236-246, with the number of decimals to go, `mult` and `arg`. -/
def decimals : Nat → Int → F64 → Cur → Except Fault Cur
  | 0, _, _, s => .ok s
  | n + 1, mult, arg, s => do
    let value ← F64.toU64 (F64.mul arg (F64.ofInt mult))
    let s ← putU64 value s
    let arg := F64.sub arg (F64.div (F64.ofInt value.toNat) (F64.ofInt mult))
    if mult * 10 < 2 ^ 63 then decimals n (mult * 10) arg s else .error .arith

/-- print.c:220-247, for a number that is not negative. -/
def magnitude (alt : Bool) (precision : Int) (arg : F64) (s : Cur) : Except Fault Cur := do
  let value ← F64.toU64 arg
  let s ← putU64 value s
  let arg := F64.sub arg (F64.ofInt value.toNat)
  let prec := if precision < 0 then 6 else precision.toNat
  if alt = true ∨ prec > 0 then do
    let s ← put 0x2e#8 s
    decimals prec 10 arg s
  else .ok s

/-- print.c:209-255. -/
def digitsOf (info : Info) (arg : F64) (s : Cur) : Except Fault Cur :=
  if arg = .fin 0 then do
    let s ← put 0x30#8 s
    if info.alt then put 0x2e#8 s else .ok s
  else if F64.lt arg (.fin 0) then do
    let s ← put 0x2d#8 s
    magnitude info.alt info.precision (F64.neg arg) s
  else if info.minus then do
    let s ← put 0x2b#8 s
    magnitude info.alt info.precision arg s
  else magnitude info.alt info.precision arg s

/-- print.c:263-265, from the last character to the first; `stop` is `end - text_begin + 1`. -/
def shift (width stop : Nat) : Nat → List Byte → Except Fault (List Byte)
  | 0, t => .ok t
  | len + 1, t =>
    if len + width + 1 < stop then do
      let c ← rd t len
      let t ← wr t (len + width) c
      shift width stop len t
    else shift width stop len t

/-- print.c:274-276. -/
def fillUp (c : Byte) (stop : Nat) : Nat → List Byte → Except Fault (List Byte)
  | 0, t => .ok t
  | len + 1, t =>
    if len + 1 < stop then do
      let t ← wr t len c
      fillUp c stop len t
    else fillUp c stop len t

/-- print.c:204-280 `zpl__print_f64`: the bytes from `text` on and the number of characters.  The hexadecimal form that `%a` asks for is ignored by the code. -/
def printF64 (text : List Byte) (rem : Nat) (info : Info) (arg : F64) : Except Fault (List Byte × Nat) := do
  let s ← digitsOf info arg ⟨text, 0, rem⟩
  let width := info.width - s.pos
  if width > 0 then do
    let t ← shift width.toNat (s.pos + s.rem) s.pos s.text
    let t ← fillUp (if info.zero then 0x30#8 else 0x20#8) (s.pos + s.rem) width.toNat t
    .ok (t, s.pos + width.toNat)
  else .ok (s.text, s.pos)

/-- print.c:384-393: `zpl__print_f64` with the next argument. -/
def f64 : FloatPrinter := fun text rem info args =>
  match args with
  | .real b :: args => do
    let r ← printF64 text rem info (F64.ofBits b)
    .ok (r, args)
  | _ => .error .ub

/-! ## Specification -/

/-- The last `p` decimal digits of `n`. -/
def lastDigits (p n : Nat) : List Byte := (List.range p).map fun i => digit false (n / 10 ^ (p - 1 - i) % 10)

/-- A number with `p` decimals, further ones dropped.  Zero has no decimals; `plus` asks for a sign, `alt` for a point. -/
def decimal (plus alt : Bool) (p : Nat) (q : ℚ) : List Byte :=
  if q = 0 then 0x30#8 :: (if alt then [0x2e#8] else [])
  else (if q < 0 then [0x2d#8] else if plus then [0x2b#8] else []) ++ numeral false 10 ⌊|q|⌋.toNat ++
    (if alt = true ∨ 0 < p then 0x2e#8 :: lastDigits p ⌊|q| * 10 ^ p⌋.toNat else [])

/-- The numbers whose decimals come out right: not too large, not more than 14 decimals, and whole or not close to a number with `p` decimals. -/
def Printable (p : Nat) (q : ℚ) : Prop :=
  |q| < F64.pow2 64 ∧ p ≤ 14 ∧ (p = 0 ∨ (∃ n : ℤ, q = n) ∨ ∀ n : ℤ, F64.pow2 (-46) ≤ |q - n / 10 ^ p|)

inductive RealConv where
  | f | F | g | G | a | A
  deriving DecidableEq, Repr

def spellReal : RealConv → Byte
  | .f => 0x66#8 | .F => 0x46#8 | .g => 0x67#8 | .G => 0x47#8 | .a => 0x61#8 | .A => 0x41#8

/-- A conversion of a real number. -/
structure RealDirective where
  flags : List Flag := []
  width : Count := .none
  precision : Count := .none
  length : Length := .none
  conv : RealConv
  deriving DecidableEq, Repr

/-- A conversion of an integer, a character or a text, or one of a real number. -/
inductive Item where
  | plain (d : Directive)
  | real (d : RealDirective)

def spellRealDirective (d : RealDirective) : List Byte :=
  0x25#8 :: (d.flags.map spellFlag ++ (spellCount d.width ++ ((if d.precision = .none then [] else 0x2e#8 :: spellCount d.precision) ++
    (spellLength d.length ++ [spellReal d.conv]))))

def spellItem : Item → List Byte
  | .plain d => spellDirective d
  | .real d => spellRealDirective d

/-- A format text with literal texts before the conversions and one at the end. -/
def spellMixed (items : List (List Byte × Item)) (last : List Byte) : List Byte := items.flatMap (fun p => p.1 ++ spellItem p.2) ++ last

def Item.Valid : Item → Prop
  | .plain d => d.Valid
  | .real d => (∀ n, d.width = .num n → 0 < n ∧ n < 2 ^ 31) ∧ (∀ n, d.precision = .num n → n < 2 ^ 31)

/-- What a conversion of a real number prints: six decimals if no precision is given, at least as many characters as the width, filled up in front.  The flag `-` asks for
a plus sign; all six letters mean the same. -/
def realField (d : RealDirective) (w : Option Int) (p : Option Nat) (q : ℚ) : List Byte :=
  let text := decimal (decide (.minus ∈ d.flags ∨ w.getD 0 < 0)) (decide (.alt ∈ d.flags)) (p.getD 6) q
  List.replicate ((w.getD 0).natAbs - text.length) (if .zero ∈ d.flags ∧ d.precision = .none then 0x30#8 else 0x20#8) ++ text

/-- `Renders items args out rest`: the literal texts and conversions print `out` for the arguments and leave `rest`. -/
inductive Renders : List (List Byte × Item) → List Arg → List Byte → List Arg → Prop
  | nil (args : List Arg) : Renders [] args [] args
  | plain {s : List Byte} {d : Directive} {items : List (List Byte × Item)} {args args1 args2 : List Arg} {f t : List Byte} (h : renderDirective d args = some (f, args1))
      (ht : Renders items args1 t args2) : Renders ((s, .plain d) :: items) args (s ++ f ++ t) args2
  | real {s : List Byte} {d : RealDirective} {items : List (List Byte × Item)} {args args1 args2 args3 : List Arg} {w : Option Int} {p : Option Nat} {b : BitVec 64} {q : ℚ}
      {t : List Byte} (hw : widthOf d.width args = some (w, args1)) (hp : precisionOf d.precision args1 = some (p, .real b :: args2)) (hb : F64.ofBits b = .fin q)
      (hq : Printable (p.getD 6) q) (ht : Renders items args2 t args3) : Renders ((s, .real d) :: items) args (s ++ realField d w p q ++ t) args3

/-- The number that decimals stand for. -/
def valueOf : List Nat → ℚ
  | [] => 0
  | v :: vs => (v + valueOf vs) / 10

/-- What is printed of a number whose decimals are the numbers `vs`. -/
def spelled (plus alt : Bool) (p : Nat) (q : ℚ) (vs : List Nat) : List Byte :=
  if q = 0 then 0x30#8 :: (if alt then [0x2e#8] else [])
  else (if q < 0 then [0x2d#8] else if plus then [0x2b#8] else []) ++ numeral false 10 ⌊|q|⌋.toNat ++
    (if alt = true ∨ 0 < p then 0x2e#8 :: vs.flatMap (numeral false 10) else [])

/-- What a conversion of a real number prints: the number, with as many characters in front as the width asks for. -/
def padded (zero : Bool) (width : Int) (s : List Byte) : List Byte :=
  List.replicate (width - s.length).toNat (if zero then 0x30#8 else 0x20#8) ++ s

/-! ## Lemmas

### The arithmetic -/

/-- The numbers that are printed as decimals. -/
def values : Nat → Int → F64 → Except Fault (List Nat)
  | 0, _, _ => .ok []
  | n + 1, mult, arg => do
    let value ← F64.toU64 (F64.mul arg (F64.ofInt mult))
    let arg := F64.sub arg (F64.div (F64.ofInt value.toNat) (F64.ofInt mult))
    if mult * 10 < 2 ^ 63 then do
      let vs ← values n (mult * 10) arg
      .ok (value.toNat :: vs)
    else .error .arith

theorem u_bound : F64.pow2 (-53) * 10 ^ 17 ≤ 112 / 10 ∧ 0 < F64.pow2 (-53) := by
  constructor
  · norm_num [F64.pow2_eq]
  · exact F64.pow2_pos _

theorem tiny {B : ℚ} (h : 1 / 100 ≤ B) : F64.pow2 (-1022) ≤ B := by
  refine le_trans (F64.pow2_le (show (-1022 : ℤ) ≤ -10 by norm_num)) (le_trans ?_ h)
  norm_num [F64.pow2_eq]

theorem small {q : ℚ} (h : |q| ≤ 1000) : |q| ≤ F64.pow2 100 := by
  refine le_trans (le_trans h ?_) (F64.pow2_le (show (10 : ℤ) ≤ 100 by norm_num))
  norm_num [F64.pow2_eq]

/-- One decimal. -/
theorem step {j : Nat} (hj : j ≤ 13) {a s : ℚ} (hs0 : 0 ≤ s) (hs : s ≤ 56 * F64.pow2 (-53)) (h1 : -s ≤ a) (h2 : a ≤ 1 / 10 ^ j + s) :
    ∃ (v : Nat) (a' : ℚ), F64.toU64 (F64.mul (.fin a) (F64.ofInt (10 ^ (j + 1)))) = .ok (BitVec.ofNat 64 v) ∧ v < 12 ∧
      F64.sub (.fin a) (F64.div (F64.ofInt v) (F64.ofInt (10 ^ (j + 1)))) = .fin a' ∧
      |a' - (a - v / 10 ^ (j + 1))| ≤ 4 * F64.pow2 (-53) ∧ -(s + 4 * F64.pow2 (-53)) ≤ a' ∧ a' ≤ 1 / 10 ^ (j + 1) + (s + 4 * F64.pow2 (-53)) := by
  obtain ⟨hu, hu0⟩ := u_bound
  generalize hue : F64.pow2 (-53) = u at *
  have hm0 : (10 : ℚ) ≤ 10 ^ (j + 1) := by
    calc (10 : ℚ) = 10 ^ 1 := by norm_num
      _ ≤ 10 ^ (j + 1) := pow_le_pow_right₀ (by norm_num) (by omega)
  have hm1 : (10 : ℚ) ^ (j + 1) ≤ 10 ^ 14 := pow_le_pow_right₀ (by norm_num) (by omega)
  have hmj : (10 : ℚ) ^ (j + 1) = 10 * 10 ^ j := by rw [pow_succ]; ring
  have hj1 : (1 : ℚ) ≤ 10 ^ j := one_le_pow₀ (by norm_num)
  have hint : F64.ofInt (10 ^ (j + 1)) = .fin (10 ^ (j + 1)) := by
    have hlt : |((10 : ℤ) ^ (j + 1))| < 2 ^ 53 := by
      rw [abs_of_nonneg (by positivity)]
      calc (10 : ℤ) ^ (j + 1) ≤ 10 ^ 14 := pow_le_pow_right₀ (by norm_num) (by omega)
        _ < 2 ^ 53 := by norm_num
    rw [F64.ofInt_eq hlt]
    push_cast
    rfl
  generalize hme : (10 : ℚ) ^ (j + 1) = m at *
  have hu' : u ≤ 1 / 10 ^ 15 := by linarith
  -- the product
  have hz1 : -(s * m) ≤ a * m := by nlinarith
  have hz2 : a * m ≤ 10 + s * m := by
    have : (1 : ℚ) / 10 ^ j * m = 10 := by rw [hmj]; field_simp
    nlinarith
  have hsm : s * m ≤ 7 / 10 := by
    calc s * m ≤ (56 * u) * 10 ^ 14 := by gcongr
      _ ≤ 7 / 10 := by linarith
  have hzabs : |a * m| ≤ 11 := by rw [abs_le]; constructor <;> linarith
  have hy := F64.rounded_error hzabs (tiny (by norm_num))
  rw [hue, abs_le] at hy
  obtain ⟨y, hye⟩ : ∃ y, y = F64.rounded (a * m) := ⟨_, rfl⟩
  rw [← hye] at hy
  have hmul : F64.mul (.fin a) (.fin m) = .fin y := by
    rw [hye]; exact F64.round_fin (small (hzabs.trans (by norm_num)))
  have hylo : -1 < y := by linarith
  have hyhi : y < 12 := by linarith
  have hfl : y.floor = ⌊y⌋ := rfl
  have hf1 := Int.floor_le y
  have hf2 := Int.lt_floor_add_one y
  have hflhi : ⌊y⌋ < 12 := by exact_mod_cast lt_of_le_of_lt hf1 hyhi
  have hfllo : -1 ≤ ⌊y⌋ := by
    have : (-2 : ℚ) < ⌊y⌋ := by linarith
    have : (-2 : ℤ) < ⌊y⌋ := by exact_mod_cast this
    omega
  obtain ⟨v, hv⟩ : ∃ v, v = ⌊y⌋.toNat := ⟨_, rfl⟩
  have hvlt : v < 12 := by omega
  have hvq : (v : ℚ) < 12 := by exact_mod_cast hvlt
  have hv0 : (0 : ℚ) ≤ v := by positivity
  have hto : F64.toU64 (F64.fin y) = .ok (BitVec.ofNat 64 v) := by
    rw [F64.toU64, if_pos ⟨hylo, hyhi.trans (by norm_num [F64.pow2_eq])⟩, hfl, hv]
  have hvi : F64.ofInt (v : ℤ) = .fin v := by
    rw [F64.ofInt_eq (by rw [Nat.abs_cast]; have : v < 2 ^ 53 := by omega
                         exact_mod_cast this)]
    push_cast
    rfl
  -- the quotient
  have hm' : (0 : ℚ) < m := by linarith
  have hcabs : |(v : ℚ) / m| ≤ 12 / 10 := by
    rw [abs_of_nonneg (by positivity), div_le_iff₀ hm']
    linarith
  have hq := F64.rounded_error hcabs (tiny (by norm_num))
  rw [hue, abs_le] at hq
  obtain ⟨q, hqe⟩ : ∃ q, q = F64.rounded ((v : ℚ) / m) := ⟨_, rfl⟩
  rw [← hqe] at hq
  have hdiv : F64.div (.fin v) (.fin m) = .fin q := by
    have : F64.div (.fin (v : ℚ)) (.fin m) = F64.round (v / m) := by rw [F64.div, if_neg hm'.ne']
    rw [this, hqe]
    exact F64.round_fin (small (hcabs.trans (by norm_num)))
  -- what is left, exactly
  have hexact : -(s + 2 * u) ≤ a - v / m ∧ a - v / m ≤ 1 / m + 2 * u := by
    have e : a - v / m = (a * m - v) / m := by field_simp
    rw [e, le_div_iff₀ hm', div_le_iff₀ hm']
    have e1 : (1 / m + 2 * u) * m = 1 + 2 * u * m := by field_simp
    rw [e1]
    have hum : 20 * u ≤ 2 * u * m := by nlinarith
    by_cases hneg : ⌊y⌋ < 0
    · have hv0' : v = 0 := by omega
      have hyneg : y < 0 := by
        have : (⌊y⌋ : ℚ) ≤ -1 := by exact_mod_cast (by omega : ⌊y⌋ ≤ -1)
        linarith
      subst hv0'
      push_cast
      constructor <;> nlinarith
    · have hvf : (v : ℚ) = ⌊y⌋ := by
        have : (v : ℤ) = ⌊y⌋ := by omega
        exact_mod_cast this
      rw [hvf]
      have hsm0 : 0 ≤ s * m := by positivity
      constructor <;> nlinarith
  have hinv : 1 / m ≤ 1 / 10 := one_div_le_one_div_of_le (by norm_num) hm0
  have hrabs : |a - q| ≤ 2 / 10 := by rw [abs_le]; constructor <;> linarith
  have hr := F64.rounded_error hrabs (tiny (by norm_num))
  rw [hue, abs_le] at hr
  have hsub : F64.sub (.fin a) (.fin q) = .fin (F64.rounded (a - q)) := by
    rw [F64.sub, F64.neg, F64.add, ← sub_eq_add_neg]
    exact F64.round_fin (small (hrabs.trans (by norm_num)))
  refine ⟨v, F64.rounded (a - q), ?_, hvlt, ?_, ?_, ?_, ?_⟩
  · rw [hint, hmul, hto]
  · rw [hvi, hint, hdiv, hsub]
  · rw [abs_le]; constructor <;> linarith
  · linarith
  · linarith

/-- All decimals: after any number of them what is left is between nothing and one unit, but for the errors. -/
theorem values_ok (n : Nat) {j : Nat} (hj : j + n ≤ 14) {a s : ℚ} (hs0 : 0 ≤ s) (hs : s ≤ 4 * j * F64.pow2 (-53)) (h1 : -s ≤ a) (h2 : a ≤ 1 / 10 ^ j + s) :
    ∃ vs, values n (10 ^ (j + 1)) (.fin a) = .ok vs ∧ vs.length = n ∧ (∀ v ∈ vs, v < 12) ∧
      ∀ k ≤ n, -(s + 8 * n * F64.pow2 (-53)) ≤ a - valueOf (vs.take k) / 10 ^ j ∧ a - valueOf (vs.take k) / 10 ^ j ≤ 1 / 10 ^ (j + k) + (s + 8 * n * F64.pow2 (-53)) := by
  have hu0 := u_bound.2
  induction n generalizing j a s with
  | zero =>
    refine ⟨[], rfl, rfl, by simp, fun k hk => ?_⟩
    obtain rfl : k = 0 := by omega
    simp only [List.take_nil, valueOf, zero_div, sub_zero, Nat.cast_zero, mul_zero, zero_mul, add_zero]
    exact ⟨h1, h2⟩
  | succ n ih =>
    have hjq : (j : ℚ) ≤ 13 := by exact_mod_cast (by omega : j ≤ 13)
    obtain ⟨v, a', e1, hv, e2, h3, h4, h5⟩ := step (by omega : j ≤ 13) hs0 (by nlinarith) h1 h2
    obtain ⟨vs, e3, hl, hvs, h6⟩ := ih (j := j + 1) (by omega) (a := a') (s := s + 4 * F64.pow2 (-53)) (by linarith) (by push_cast; linarith) h4 h5
    refine ⟨v :: vs, ?_, by simp [hl], ?_, ?_⟩
    · rw [values, e1, except_ok_bind]
      have hvn : (BitVec.ofNat 64 v).toNat = v := by rw [BitVec.toNat_ofNat]; exact Nat.mod_eq_of_lt (by omega)
      dsimp only
      rw [hvn, e2, if_pos, show (10 : ℤ) ^ (j + 1) * 10 = 10 ^ (j + 1 + 1) by rw [pow_succ (10 : ℤ) (j + 1)], e3, except_ok_bind]
      calc (10 : ℤ) ^ (j + 1) * 10 = 10 ^ (j + 2) := by rw [pow_succ (10 : ℤ) (j + 1)]
        _ ≤ 10 ^ 15 := pow_le_pow_right₀ (by norm_num) (by omega)
        _ < 2 ^ 63 := by norm_num
    · intro x hx
      rcases List.mem_cons.1 hx with rfl | hx
      · exact hv
      · exact hvs x hx
    · intro k hk
      rw [abs_le] at h3
      cases k with
      | zero =>
        simp only [List.take_zero, valueOf, zero_div, sub_zero, add_zero]
        have : 0 ≤ 8 * ((n + 1 : ℕ) : ℚ) * F64.pow2 (-53) := by positivity
        constructor <;> linarith
      | succ k =>
        obtain ⟨h7, h8⟩ := h6 k (by omega)
        have e : valueOf ((v :: vs).take (k + 1)) / 10 ^ j = v / 10 ^ (j + 1) + valueOf (vs.take k) / 10 ^ (j + 1) := by
          rw [List.take_succ_cons, valueOf, pow_succ]
          field_simp
        rw [e, show j + (k + 1) = j + 1 + k by ring]
        push_cast
        constructor <;> linarith

/-- The whole part is exact, and so is what is left of it. -/
theorem split {x : ℚ} (hx : F64.Representable x) (h0 : 0 ≤ x) (h64 : x < F64.pow2 64) :
    F64.toU64 (.fin x) = .ok (BitVec.ofNat 64 ⌊x⌋.toNat) ∧ F64.sub (.fin x) (F64.ofInt ⌊x⌋) = .fin (x - ⌊x⌋) := by
  have hfl : x.floor = ⌊x⌋ := rfl
  refine ⟨by rw [F64.toU64, if_pos ⟨by linarith, h64⟩, hfl], ?_⟩
  have hf0 : 0 ≤ ⌊x⌋ := Int.floor_nonneg.2 h0
  have hf1 := Int.floor_le x
  have hf2 := Int.lt_floor_add_one x
  obtain ⟨m, e, hm, he, -, rfl⟩ := hx
  have hp := F64.pow2_pos e
  have hm0 : 0 ≤ m := by
    have : (0 : ℚ) ≤ m := by
      by_contra h
      nlinarith
    exact_mod_cast this
  have hb : |((⌊(m : ℚ) * F64.pow2 e⌋ : ℤ) : ℚ)| ≤ F64.pow2 100 := by
    rw [abs_of_nonneg (by exact_mod_cast hf0)]
    exact hf1.trans (h64.le.trans (F64.pow2_le (by norm_num)))
  -- the fraction has no more places than the number
  have key : F64.ofInt ⌊(m : ℚ) * F64.pow2 e⌋ = .fin ⌊(m : ℚ) * F64.pow2 e⌋ ∧ F64.rounded ((m : ℚ) * F64.pow2 e - ⌊(m : ℚ) * F64.pow2 e⌋) = (m : ℚ) * F64.pow2 e - ⌊(m : ℚ) * F64.pow2 e⌋ := by
    by_cases hepos : 0 ≤ e
    · obtain ⟨k, rfl⟩ := Int.eq_ofNat_of_zero_le hepos
      have hint : (m : ℚ) * F64.pow2 (k : ℤ) = ((m * 2 ^ k : ℤ) : ℚ) := by rw [F64.pow2_eq, zpow_natCast]; push_cast; ring
      have hfe : ⌊(m : ℚ) * F64.pow2 (k : ℤ)⌋ = m * 2 ^ k := by rw [hint, Int.floor_intCast]
      rw [hfe] at hb ⊢
      rw [F64.ofInt, F64.round_fin hb, F64.rounded_eq hm (by omega) hint.symm, hint, sub_self, F64.rounded_zero]
      exact ⟨rfl, rfl⟩
    · obtain ⟨k, hk⟩ := Int.eq_ofNat_of_zero_le (show 0 ≤ -e by omega)
      have he' : e = -(k : ℤ) := by omega
      have hxe : (m : ℚ) * F64.pow2 e = (m : ℚ) / (2 ^ k : ℤ) := by
        rw [F64.pow2_eq, he', zpow_neg, zpow_natCast]; push_cast; rfl
      have hfe : ⌊(m : ℚ) * F64.pow2 e⌋ = m / 2 ^ k := by
        rw [hxe]
        have := Rat.floor_intCast_div_natCast m (2 ^ k)
        push_cast at this ⊢
        exact this
      have hdm := Int.emod_add_mul_ediv m (2 ^ k)
      have hmod0 : 0 ≤ m % 2 ^ k := Int.emod_nonneg _ (by positivity)
      have hdiv0 : 0 ≤ m / 2 ^ k := Int.ediv_nonneg hm0 (by positivity)
      have hpk : (1 : ℤ) ≤ 2 ^ k := one_le_pow₀ (by norm_num)
      have hdle : m / 2 ^ k ≤ m := Int.ediv_le_self _ hm0
      have hmle : m % 2 ^ k ≤ m := by nlinarith
      rw [abs_of_nonneg hm0] at hm
      rw [hfe]
      constructor
      · rw [F64.ofInt_eq (by rw [abs_of_nonneg hdiv0]; omega)]
      · refine F64.rounded_eq (m := m % 2 ^ k) (e := e) (by rw [abs_of_nonneg hmod0]; omega) he ?_
        rw [hxe, show F64.pow2 e = 1 / ((2 ^ k : ℤ) : ℚ) by rw [F64.pow2_eq, he', zpow_neg, zpow_natCast]; push_cast; rw [one_div]]
        have h2k : ((2 ^ k : ℤ) : ℚ) ≠ 0 := by exact_mod_cast (by positivity : (0 : ℤ) < 2 ^ k).ne'
        field_simp
        have : (m : ℚ) = ((m % 2 ^ k + 2 ^ k * (m / 2 ^ k) : ℤ) : ℚ) := by rw [hdm]
        rw [this]
        push_cast
        ring
  rw [key.1, F64.sub, F64.neg, F64.add, ← sub_eq_add_neg, F64.round_fin, key.2]
  exact small (by rw [abs_le]; constructor <;> linarith)

/-! ### Decimals -/

/-- The whole number that digits stand for. -/
def natOf (vs : List Nat) : Nat := vs.foldl (fun n v => 10 * n + v) 0

theorem natOf_append (vs : List Nat) (v : Nat) : natOf (vs ++ [v]) = 10 * natOf vs + v := by simp [natOf]

theorem valueOf_append (vs : List Nat) (v : Nat) : valueOf (vs ++ [v]) = valueOf vs + v / 10 ^ (vs.length + 1) := by
  induction vs with
  | nil => simp [valueOf]
  | cons x vs ih =>
    rw [List.cons_append, valueOf, ih, valueOf, List.length_cons, pow_succ (10 : ℚ) (vs.length + 1)]
    field_simp
    ring

theorem valueOf_nat (vs : List Nat) : valueOf vs = natOf vs / 10 ^ vs.length := by
  induction vs using List.reverseRecOn with
  | nil => simp [valueOf, natOf]
  | append_singleton vs v ih =>
    rw [valueOf_append, natOf_append, ih, List.length_append, List.length_singleton, pow_succ]
    push_cast
    field_simp

theorem lastDigits_succ (p n : Nat) : lastDigits (p + 1) n = lastDigits p (n / 10) ++ [digit false (n % 10)] := by
  unfold lastDigits
  rw [List.range_succ, List.map_append, List.map_singleton]
  congr 1
  · refine List.map_congr_left fun i hi => ?_
    have hi := List.mem_range.1 hi
    rw [show p + 1 - 1 - i = p - 1 - i + 1 by omega, pow_succ, mul_comm, Nat.div_div_eq_div_mul]
  · simp

theorem lastDigits_add (p a b : Nat) : lastDigits p (a * 10 ^ p + b) = lastDigits p b := by
  induction p generalizing b with
  | zero => simp [lastDigits]
  | succ p ih =>
    rw [lastDigits_succ, lastDigits_succ]
    have e : a * 10 ^ (p + 1) = 10 * (a * 10 ^ p) := by rw [pow_succ]; ring
    rw [e, show (10 * (a * 10 ^ p) + b) / 10 = a * 10 ^ p + b / 10 by omega, ih, show (10 * (a * 10 ^ p) + b) % 10 = b % 10 by omega]

theorem numeral_digit {v : Nat} (h : v < 10) : numeral false 10 v = [digit false v] := by
  rw [numeral, Print.digits, dif_pos (.inl h)]
  rfl

theorem floor_step {fr : ℚ} (k : Nat) : ⌊fr * 10 ^ k⌋ = ⌊fr * 10 ^ (k + 1)⌋ / 10 := by
  have h := Int.floor_div_natCast (fr * 10 ^ (k + 1)) 10
  rw [← show fr * 10 ^ (k + 1) / ((10 : ℕ) : ℚ) = fr * 10 ^ k by rw [pow_succ]; push_cast; field_simp, h]
  rfl

/-- Numbers that agree with the decimals of `fr` so far are printed as these decimals. -/
theorem digits_of_floor {fr : ℚ} (_h0 : 0 ≤ fr) (vs : List Nat) (h : ∀ k ≤ vs.length, (natOf (vs.take k) : ℤ) = ⌊fr * 10 ^ k⌋) :
    vs.flatMap (numeral false 10) = lastDigits vs.length ⌊fr * 10 ^ vs.length⌋.toNat := by
  induction vs using List.reverseRecOn with
  | nil => rfl
  | append_singleton vs v ih =>
    have h1 := h (vs.length + 1) (by simp)
    have h2 := h vs.length (by simp)
    rw [List.take_append_of_le_length (Nat.le_refl _), List.take_of_length_le (Nat.le_refl _)] at h2
    rw [List.take_of_length_le (by simp), natOf_append] at h1
    rw [floor_step vs.length] at h2
    have ih := ih (fun k hk => by
      have := h k (by simp; omega)
      rwa [List.take_append_of_le_length hk] at this)
    rw [List.length_append, List.length_singleton, lastDigits_succ, List.flatMap_append, ih]
    have e1 : ⌊fr * 10 ^ vs.length⌋.toNat = ⌊fr * 10 ^ (vs.length + 1)⌋.toNat / 10 := by rw [floor_step vs.length]; omega
    have e2 : v = ⌊fr * 10 ^ (vs.length + 1)⌋.toNat % 10 := by push_cast at h1; omega
    rw [← e1, ← e2, List.flatMap_singleton, numeral_digit (by omega)]

theorem floor_split (x : ℚ) (h0 : 0 ≤ x) (p : Nat) : lastDigits p ⌊x * 10 ^ p⌋.toNat = lastDigits p ⌊(x - ⌊x⌋) * 10 ^ p⌋.toNat := by
  have hf0 : 0 ≤ ⌊x⌋ := Int.floor_nonneg.2 h0
  have hfr : 0 ≤ (x - ⌊x⌋) * 10 ^ p := mul_nonneg (by linarith [Int.floor_le x]) (by positivity)
  have e : x * 10 ^ p = (x - ⌊x⌋) * 10 ^ p + ((⌊x⌋ * 10 ^ p : ℤ) : ℚ) := by push_cast; ring
  have e2 : ⌊x * 10 ^ p⌋ = ⌊(x - ⌊x⌋) * 10 ^ p⌋ + ⌊x⌋ * 10 ^ p := by rw [e, Int.floor_add_intCast]
  have hn : 0 ≤ ⌊(x - ⌊x⌋) * 10 ^ p⌋ := Int.floor_nonneg.2 hfr
  obtain ⟨a, ha⟩ := Int.eq_ofNat_of_zero_le hf0
  obtain ⟨b, hb⟩ := Int.eq_ofNat_of_zero_le hn
  rw [e2, hb, ha]
  have : ((b : ℤ) + (a : ℤ) * 10 ^ p).toNat = a * 10 ^ p + b := by
    have : ((b : ℤ) + (a : ℤ) * 10 ^ p) = ((a * 10 ^ p + b : ℕ) : ℤ) := by push_cast; ring
    rw [this]; rfl
  rw [this, lastDigits_add]
  rfl

/-- The decimals of a printable number. -/
theorem values_printable {p : Nat} {x : ℚ} (h0 : 0 ≤ x) (hp : p ≤ 14) (h : p = 0 ∨ (∃ n : ℤ, x = n) ∨ ∀ n : ℤ, F64.pow2 (-46) ≤ |x - n / 10 ^ p|) :
    ∃ vs, values p 10 (.fin (x - ⌊x⌋)) = .ok vs ∧ vs.flatMap (numeral false 10) = lastDigits p ⌊x * 10 ^ p⌋.toNat := by
  have hfr0 : 0 ≤ x - ⌊x⌋ := by linarith [Int.floor_le x]
  have hfr1 : x - ⌊x⌋ < 1 := by linarith [Int.lt_floor_add_one x]
  obtain ⟨vs, e, hl, hlt, hb⟩ := values_ok p (j := 0) (by omega) (a := x - ⌊x⌋) (s := 0) (le_refl _) (by simp) (by linarith) (by rw [pow_zero]; linarith)
  refine ⟨vs, by simpa using e, ?_⟩
  rw [floor_split x h0]
  have hu0 := u_bound.2
  rcases h with rfl | ⟨n, rfl⟩ | h
  · obtain rfl := List.length_eq_zero_iff.1 hl
    rfl
  · -- whole numbers: every decimal is 0
    rw [Int.floor_intCast, sub_self] at e ⊢
    have hz : ∀ (p j : Nat), values p (10 ^ (j + 1)) (.fin 0) = .ok vs → vs = List.replicate p 0 := by
      clear e hb hl hlt
      intro p
      induction p generalizing vs with
      | zero => intro j e; injection e with e; rw [← e]; rfl
      | succ p ih =>
        intro j e
        rw [values] at e
        have h1 : F64.mul (.fin 0) (F64.ofInt (10 ^ (j + 1))) = .fin 0 ∨ ∀ v, F64.toU64 (F64.mul (.fin 0) (F64.ofInt (10 ^ (j + 1)))) ≠ .ok v := by
          cases F64.ofInt (10 ^ (j + 1)) with
          | nan => right; intro v hv; cases hv
          | inf b => right; intro v hv; cases hv
          | fin q => left; rw [F64.mul, zero_mul, F64.round_fin (by simp [(F64.pow2_pos 100).le]), F64.rounded_zero]
        rcases h1 with h1 | h1
        · rw [h1, show F64.toU64 (.fin 0) = .ok 0 from by decide +kernel, except_ok_bind] at e
          dsimp only at e
          have h2 : F64.sub (.fin 0) (F64.div (F64.ofInt ((0 : BitVec 64).toNat : ℤ)) (F64.ofInt (10 ^ (j + 1)))) = .fin 0 ∨
              F64.sub (.fin 0) (F64.div (F64.ofInt ((0 : BitVec 64).toNat : ℤ)) (F64.ofInt (10 ^ (j + 1)))) = .nan := by
            rw [show F64.ofInt ((0 : BitVec 64).toNat : ℤ) = .fin 0 from by decide +kernel]
            cases F64.ofInt (10 ^ (j + 1)) with
            | nan => right; rfl
            | inf b => left; cases b <;> decide +kernel
            | fin q =>
              by_cases hq : q = 0
              · right; rw [hq]; rfl
              · left
                rw [F64.div, if_neg hq, zero_div, F64.round_fin (by simp [(F64.pow2_pos 100).le]), F64.rounded_zero]
                decide +kernel
          split at e
          · rcases h2 with h2 | h2
            · rw [h2, show (10 : ℤ) ^ (j + 1) * 10 = 10 ^ (j + 1 + 1) by rw [pow_succ (10 : ℤ) (j + 1)]] at e
              cases hv : values p (10 ^ (j + 1 + 1)) (.fin 0) with
              | error f => rw [hv] at e; cases e
              | ok ws =>
                rw [hv, except_ok_bind] at e
                injection e with e
                rw [← e, ih ws (j + 1) hv]
                rfl
            · rw [h2] at e
              cases p with
              | zero =>
                rw [values, except_ok_bind] at e
                injection e with e
                rw [← e]
                rfl
              | succ p =>
                rw [values, show F64.mul .nan (F64.ofInt (10 ^ (j + 1) * 10)) = .nan from by cases F64.ofInt (10 ^ (j + 1) * 10) <;> rfl] at e
                cases e
          · cases e
        · cases hc : F64.toU64 (F64.mul (.fin 0) (F64.ofInt (10 ^ (j + 1)))) with
          | error f => rw [hc] at e; cases e
          | ok v => exact absurd hc (h1 v)
    rw [hz p 0 (by simpa using e), zero_mul, Int.floor_zero]
    have : ∀ p : Nat, (List.replicate p 0).flatMap (numeral false 10) = lastDigits p 0 := by
      intro p
      rw [List.flatMap_replicate, numeral_digit (by norm_num)]
      unfold lastDigits
      simp only [Nat.zero_div, Nat.zero_mod]
      rw [List.map_const']
      simp
    exact this p
  · rw [← hl]
    refine digits_of_floor hfr0 vs fun k hk => ?_
    obtain ⟨h1, h2⟩ := hb k (by omega)
    rw [pow_zero, div_one, valueOf_nat, List.length_take, Nat.min_eq_left hk] at h1 h2
    rw [Nat.zero_add] at h2
    have hpq : (p : ℚ) ≤ 14 := by exact_mod_cast hp
    have hpow : F64.pow2 (-46) = 128 * F64.pow2 (-53) := by rw [show (-46 : ℤ) = 7 + -53 by norm_num, F64.pow2_add, show F64.pow2 7 = 128 from rfl]
    have hclear : ∀ N : ℤ, 128 * F64.pow2 (-53) ≤ |x - ⌊x⌋ - N / 10 ^ k| := by
      intro N
      have := h (⌊x⌋ * 10 ^ p + N * 10 ^ (p - k))
      rw [hpow] at this
      have e : x - ⌊x⌋ - (N : ℚ) / 10 ^ k = x - ((⌊x⌋ * 10 ^ p + N * 10 ^ (p - k) : ℤ) : ℚ) / 10 ^ p := by
        have : (10 : ℚ) ^ p = 10 ^ (p - k) * 10 ^ k := by rw [← pow_add, Nat.sub_add_cancel (by omega)]
        push_cast
        rw [this]
        field_simp
        ring
      rw [e]
      exact this
    have hk10 : (0 : ℚ) < 10 ^ k := by positivity
    have c1 := hclear (natOf (vs.take k))
    have c2 := hclear (natOf (vs.take k) + 1)
    push_cast at c1 c2
    have hsum : (((natOf (vs.take k) : ℚ) + 1) / 10 ^ k) = (natOf (vs.take k) : ℚ) / 10 ^ k + 1 / 10 ^ k := by ring
    rw [hsum] at c2
    have g1 : 0 < x - ⌊x⌋ - (natOf (vs.take k) : ℚ) / 10 ^ k := by
      rcases le_abs.1 c1 with c | c
      · linarith
      · nlinarith
    have g2 : x - ⌊x⌋ - ((natOf (vs.take k) : ℚ) / 10 ^ k + 1 / 10 ^ k) < 0 := by
      rcases le_abs.1 c2 with c | c
      · nlinarith
      · linarith
    symm
    rw [Int.floor_eq_iff]
    have g1' : (natOf (vs.take k) : ℚ) / 10 ^ k < x - ⌊x⌋ := by linarith
    have g2' : x - ⌊x⌋ < ((natOf (vs.take k) : ℚ) + 1) / 10 ^ k := by rw [hsum]; linarith
    rw [div_lt_iff₀ hk10] at g1'
    rw [lt_div_iff₀ hk10] at g2'
    exact ⟨by push_cast; linarith, by push_cast; linarith⟩

/-! ### Writing -/

/-- `f` has been written. -/
def cur (f text : List Byte) (rem : Nat) : Cur := ⟨f ++ text.drop f.length, f.length, rem - f.length⟩

theorem wr_next (f text : List Byte) (c : Byte) (h : f.length < text.length) : wr (f ++ text.drop f.length) f.length c = .ok (f ++ [c] ++ text.drop (f.length + 1)) := by
  have e : text.drop f.length = text[f.length] :: text.drop (f.length + 1) := List.drop_eq_getElem_cons h
  have hl : f.length < (f ++ text.drop f.length).length := by rw [List.length_append, List.length_drop]; omega
  rw [wr, if_pos hl, e, List.set_append_right _ _ (Nat.le_refl _), Nat.sub_self, List.set_cons_zero, List.append_assoc]
  rfl

theorem put_ok {f text : List Byte} {rem : Nat} (c : Byte) (h1 : f.length + 1 < rem) (h2 : f.length < text.length) : put c (cur f text rem) = .ok (cur (f ++ [c]) text rem) := by
  unfold put cur
  dsimp only
  rw [if_pos (by omega), wr_next f text c h2, except_ok_bind, List.length_append, List.length_singleton]
  rw [show rem - f.length - 1 = rem - (f.length + 1) by omega]

theorem numeral_case (n : Nat) : (numeral true 10 n) = numeral false 10 n := by
  unfold numeral
  refine List.map_congr_left fun d hd => ?_
  have : d < 10 := digits_mem (b := 10) (by omega) n d hd
  unfold digit
  rw [if_pos this, if_pos this]

theorem printU64_ok (text : List Byte) (rem : Nat) (v : BitVec 64) (h1 : (numeral false 10 v.toNat).length ≤ rem) (h2 : (numeral false 10 v.toNat).length ≤ text.length) :
    printU64 text rem { base := 10 } v = .ok (numeral false 10 v.toNat ++ text.drop (numeral false 10 v.toNat).length, (numeral false 10 v.toNat).length) := by
  obtain ⟨r, e⟩ := u64_text v (b := 10) (by omega) (by omega)
  have ht := numeral_text false (b := 10) (by omega) (by omega) v.toNat
  rw [printU64, e, except_ok_bind, numeral_case, printString]
  generalize numeral false 10 v.toNat = s at *
  have hl : fieldLen { base := 10 } (s ++ 0 :: r) = .ok s.length := by
    rw [fieldLen, if_neg (by decide)]
    exact strlen_ok ht r
  rw [hl, except_ok_bind, if_neg (by decide), if_pos (by decide), printLeft, if_neg (by omega), copy_prefix ht _ _ h2, except_ok_bind]
  dsimp only
  rw [if_neg (by omega), fill, except_ok_bind, List.take_append_drop, caseText, if_neg (by decide), if_neg (by decide), except_ok_bind]
  rfl

theorem putU64_ok {f text : List Byte} {rem : Nat} (v : BitVec 64) (h1 : f.length + (numeral false 10 v.toNat).length < rem)
    (h2 : f.length + (numeral false 10 v.toNat).length ≤ text.length) : putU64 v (cur f text rem) = .ok (cur (f ++ numeral false 10 v.toNat) text rem) := by
  unfold putU64 cur
  dsimp only
  rw [List.drop_append_of_le_length (Nat.le_refl _), List.drop_of_length_le (Nat.le_refl _), List.nil_append,
    printU64_ok (text.drop f.length) (rem - f.length) v (by omega) (by rw [List.length_drop]; omega), except_ok_bind]
  dsimp only
  rw [if_neg (by omega), List.take_append_of_le_length (Nat.le_refl _), List.take_of_length_le (Nat.le_refl _), List.drop_drop, List.length_append, ← List.append_assoc]
  rw [show rem - f.length - (numeral false 10 v.toNat).length = rem - (f.length + (numeral false 10 v.toNat).length) by omega]

theorem decimals_ok {n : Nat} {mult : Int} {arg : F64} {vs : List Nat} (hv : values n mult arg = .ok vs) {f text : List Byte} {rem : Nat}
    (h1 : (f ++ vs.flatMap (numeral false 10)).length < rem) (h2 : (f ++ vs.flatMap (numeral false 10)).length ≤ text.length) :
    decimals n mult arg (cur f text rem) = .ok (cur (f ++ vs.flatMap (numeral false 10)) text rem) := by
  induction n generalizing mult arg vs f with
  | zero => injection hv with hv; rw [← hv]; simp [decimals]
  | succ n ih =>
    rw [values] at hv
    cases h : F64.toU64 (F64.mul arg (F64.ofInt mult)) with
    | error e => rw [h] at hv; cases hv
    | ok v =>
      rw [h, except_ok_bind] at hv
      dsimp only at hv
      split at hv
      · next hm =>
        cases hw : values n (mult * 10) (F64.sub arg (F64.div (F64.ofInt v.toNat) (F64.ofInt mult))) with
        | error e => rw [hw] at hv; cases hv
        | ok ws =>
          rw [hw, except_ok_bind] at hv
          injection hv with hv
          subst hv
          rw [List.flatMap_cons, ← List.append_assoc] at h1 h2 ⊢
          have l1 : (f ++ numeral false 10 v.toNat).length ≤ (f ++ numeral false 10 v.toNat ++ ws.flatMap (numeral false 10)).length := by simp
          rw [decimals, h, except_ok_bind, putU64_ok v (by rw [← List.length_append]; omega) (by rw [← List.length_append]; omega), except_ok_bind]
          dsimp only
          rw [if_pos hm]
          exact ih hw h1 h2
      · cases hv

/-- The number of decimals. -/
def places (precision : Int) : Nat := if precision < 0 then 6 else precision.toNat

theorem magnitude_ok {alt : Bool} {precision : Int} {x : ℚ} (hr : F64.Representable x) (h0 : 0 ≤ x) (h64 : x < F64.pow2 64) {vs : List Nat}
    (hv : values (places precision) 10 (.fin (x - ⌊x⌋)) = .ok vs) {f text : List Byte} {rem : Nat} {g : List Byte}
    (hg : g = f ++ (numeral false 10 ⌊x⌋.toNat ++ (if alt = true ∨ 0 < places precision then 0x2e#8 :: vs.flatMap (numeral false 10) else []))) (h1 : g.length < rem) (h2 : g.length ≤ text.length) :
    magnitude alt precision (.fin x) (cur f text rem) = .ok (cur g text rem) := by
  obtain ⟨e1, e2⟩ := split hr h0 h64
  have hf0 : 0 ≤ ⌊x⌋ := Int.floor_nonneg.2 h0
  have hlt : ⌊x⌋.toNat < 2 ^ 64 := by
    have : (⌊x⌋ : ℚ) < ((2 ^ 64 : ℤ) : ℚ) := by
      refine lt_of_le_of_lt (Int.floor_le x) (h64.trans_eq ?_)
      norm_num [F64.pow2_eq]
    have : ⌊x⌋ < 2 ^ 64 := by exact_mod_cast this
    omega
  have hvn : (BitVec.ofNat 64 ⌊x⌋.toNat).toNat = ⌊x⌋.toNat := by rw [BitVec.toNat_ofNat]; exact Nat.mod_eq_of_lt hlt
  have hl : f.length + (numeral false 10 ⌊x⌋.toNat).length ≤ g.length := by rw [hg]; simp
  rw [magnitude, e1, except_ok_bind, putU64_ok _ (by rw [hvn]; omega) (by rw [hvn]; omega), except_ok_bind]
  dsimp only
  rw [hvn, show (⌊x⌋.toNat : ℤ) = ⌊x⌋ by omega, e2]
  change (if alt = true ∨ places precision > 0 then _ else _) = _
  by_cases hc : alt = true ∨ 0 < places precision
  · rw [if_pos hc] at hg ⊢
    have hg' : g = f ++ numeral false 10 ⌊x⌋.toNat ++ [0x2e#8] ++ vs.flatMap (numeral false 10) := by rw [hg]; simp
    have hl2 : (f ++ numeral false 10 ⌊x⌋.toNat).length + 1 ≤ g.length := by rw [hg']; simp only [List.length_append, List.length_singleton]; omega
    rw [put_ok _ (by omega) (by omega), except_ok_bind, hg']
    exact decimals_ok hv (by rw [← hg']; exact h1) (by rw [← hg']; exact h2)
  · rw [if_neg hc] at hg ⊢
    rw [hg, List.append_nil]

theorem cur_nil (text : List Byte) (rem : Nat) : (⟨text, 0, rem⟩ : Cur) = cur [] text rem := rfl

theorem digitsOf_ok {info : Info} {q : ℚ} (hr : F64.Representable q) (h64 : |q| < F64.pow2 64) {vs : List Nat}
    (hv : values (places info.precision) 10 (.fin (|q| - ⌊|q|⌋)) = .ok vs) {text : List Byte} {rem : Nat} {g : List Byte} (hg : spelled info.minus info.alt (places info.precision) q vs = g)
    (h1 : g.length < rem) (h2 : g.length ≤ text.length) : digitsOf info (.fin q) ⟨text, 0, rem⟩ = .ok (cur g text rem) := by
  subst hg
  rw [cur_nil]
  unfold spelled at h1 h2 ⊢
  unfold digitsOf
  by_cases h0 : q = 0
  · rw [if_pos h0] at h1 h2 ⊢
    rw [if_pos (by rw [h0])]
    have hp : ∀ (l : List Byte), (0x30#8 :: l).length < rem → (0x30#8 :: l).length ≤ text.length → put 0x30#8 (cur [] text rem) = .ok (cur [0x30#8] text rem) :=
      fun l a b => put_ok _ (by simp at a ⊢; omega) (by simp at b ⊢; omega)
    rw [hp _ h1 h2, except_ok_bind]
    by_cases ha : info.alt = true
    · rw [if_pos ha] at h1 h2 ⊢
      rw [if_pos ha]
      exact put_ok _ (by simpa using h1) (by simp at h2 ⊢; omega)
    · rw [if_neg ha, if_neg ha]
  · rw [if_neg h0] at h1 h2 ⊢
    rw [if_neg (by intro h; injection h with h; exact h0 h)]
    have hsign : ∀ (c : Byte) (l : List Byte), ([c] ++ l).length < rem → ([c] ++ l).length ≤ text.length → 0 < l.length → put c (cur [] text rem) = .ok (cur [c] text rem) :=
      fun c l a b hl => put_ok _ (by simp at a ⊢; omega) (by simp at b ⊢; omega)
    have hnum : ∀ l : List Byte, 0 < (numeral false 10 ⌊|q|⌋.toNat ++ l).length := by
      intro l
      obtain ⟨d, ds, e⟩ := digits_cons (b := 10) (by omega) ⌊|q|⌋.toNat
      rw [numeral, e]
      simp
    by_cases hn : q < 0
    · rw [if_pos hn, List.append_assoc] at h1 h2 ⊢
      rw [if_pos (show F64.lt (.fin q) (.fin 0) = true from decide_eq_true hn), hsign _ _ h1 h2 (hnum _), except_ok_bind, F64.neg, ← abs_of_neg hn]
      refine magnitude_ok ?_ (abs_nonneg q) h64 hv rfl h1 h2
      rw [abs_of_neg hn]
      obtain ⟨m, e, a, b, c, d⟩ := hr
      exact ⟨-m, e, by rwa [abs_neg], b, c, by rw [d]; push_cast; ring⟩
    · have hpos : |q| = q := abs_of_nonneg (not_lt.1 hn)
      rw [if_neg hn] at h1 h2 ⊢
      rw [if_neg (show ¬ F64.lt (.fin q) (.fin 0) = true from by simpa [F64.lt] using hn)]
      have h64' : q < F64.pow2 64 := by rwa [hpos] at h64
      rw [hpos] at h1 h2 hv hnum ⊢
      by_cases hm : info.minus = true
      · rw [if_pos hm, List.append_assoc] at h1 h2 ⊢
        rw [if_pos hm, hsign _ _ h1 h2 (hnum _), except_ok_bind]
        exact magnitude_ok hr (not_lt.1 hn) h64' hv rfl h1 h2
      · rw [if_neg hm, List.append_assoc] at h1 h2 ⊢
        rw [if_neg hm]
        exact magnitude_ok hr (not_lt.1 hn) h64' hv rfl h1 h2

/-- The whole text moves. -/
theorem shift_ok {width stop : Nat} (hw : 0 < width) {f rest : List Byte} (hs : f.length + width < stop) (n : Nat) (hn : n ≤ f.length) (mid : List Byte) (hm : mid.length = width) :
    ∃ m : List Byte, m.length = width ∧ shift width stop n (f.take n ++ mid ++ f.drop n ++ rest) = .ok (m ++ f ++ rest) := by
  induction n generalizing mid with
  | zero => exact ⟨mid, hm, rfl⟩
  | succ n ih =>
    rcases List.eq_nil_or_concat' mid with rfl | ⟨mid, l, rfl⟩
    · simp at hm; omega
    rw [List.length_append, List.length_singleton] at hm
    obtain ⟨m, e1, e2⟩ := ih (by omega) (f[n] :: mid) (by simpa using hm)
    refine ⟨m, e1, ?_⟩
    rw [← e2, shift, if_pos (by omega)]
    have hc : f.take (n + 1) = f.take n ++ [f[n]] := (List.take_append_getElem (by omega)).symm
    have hr : rd (f.take (n + 1) ++ (mid ++ [l]) ++ f.drop (n + 1) ++ rest) n = .ok f[n] := by
      rw [rd, List.append_assoc, List.append_assoc, List.getElem?_append_left (by rw [List.length_take]; omega), List.getElem?_take_of_lt (by omega), List.getElem?_eq_getElem (by omega)]
    rw [hr, except_ok_bind]
    have hlen : (f.take n ++ ([f[n]] ++ mid)).length = n + width := by
      rw [List.length_append, List.length_take, List.length_append, List.length_singleton]
      omega
    have ee : f.take (n + 1) ++ (mid ++ [l]) ++ f.drop (n + 1) ++ rest = (f.take n ++ ([f[n]] ++ mid)) ++ (l :: (f.drop (n + 1) ++ rest)) := by
      rw [hc]; simp only [List.append_assoc, List.cons_append, List.nil_append]
    rw [ee, wr, if_pos (by rw [List.length_append, hlen, List.length_cons]; omega), ← hlen, List.set_append_right _ _ (Nat.le_refl _), Nat.sub_self, List.set_cons_zero, except_ok_bind]
    congr 1
    rw [List.drop_eq_getElem_cons (show n < f.length by omega)]
    simp only [List.append_assoc, List.cons_append, List.nil_append]

theorem fillUp_ok (c : Byte) {stop : Nat} {m rest : List Byte} (n : Nat) (hn : n ≤ m.length) (hs : m.length < stop) :
    fillUp c stop n (m.take n ++ rest) = .ok (List.replicate n c ++ rest) := by
  induction n generalizing rest with
  | zero => rfl
  | succ n ih =>
    have hc : m.take (n + 1) = m.take n ++ [m[n]] := (List.take_append_getElem (by omega)).symm
    have hlen : (m.take n).length = n := by rw [List.length_take]; omega
    rw [fillUp, if_pos (by omega), hc, List.append_assoc, wr, if_pos (by simp; omega), List.set_append_right _ _ (by omega), hlen, Nat.sub_self, List.singleton_append, List.set_cons_zero, except_ok_bind,
      ih (by omega)]
    rw [List.replicate_succ']
    simp

theorem printF64_ok {info : Info} {q : ℚ} (hr : F64.Representable q) (h64 : |q| < F64.pow2 64) {vs : List Nat}
    (hv : values (places info.precision) 10 (.fin (|q| - ⌊|q|⌋)) = .ok vs) {text : List Byte} {rem : Nat} {g : List Byte}
    (hg : padded info.zero info.width (spelled info.minus info.alt (places info.precision) q vs) = g)
    (h1 : g.length < rem) (h2 : g.length ≤ text.length) : printF64 text rem info (.fin q) = .ok (g ++ text.drop g.length, g.length) := by
  unfold padded at hg
  generalize hs : spelled info.minus info.alt (places info.precision) q vs = s at hg
  have hl : g.length = (info.width - s.length).toNat + s.length := by rw [← hg]; simp
  rw [printF64, digitsOf_ok hr h64 hv hs (by omega) (by omega), except_ok_bind]
  unfold cur
  dsimp only
  by_cases hw : info.width - (s.length : Int) > 0
  · rw [if_pos hw]
    generalize hwn : (info.width - (s.length : Int)).toNat = w at *
    have hw0 : 0 < w := by omega
    rw [show s.length + (rem - s.length) = rem by omega]
    have et : text.drop s.length = (text.drop s.length).take w ++ text.drop (s.length + w) := by
      rw [← List.drop_drop, List.take_append_drop]
    obtain ⟨m, e1, e2⟩ := shift_ok (f := s) (rest := text.drop (s.length + w)) hw0 (show s.length + w < rem by omega) s.length (Nat.le_refl _) ((text.drop s.length).take w)
      (by rw [List.length_take, List.length_drop]; omega)
    rw [List.take_of_length_le (Nat.le_refl _), List.drop_of_length_le (Nat.le_refl _), List.append_nil, List.append_assoc, ← et] at e2
    rw [e2, except_ok_bind, List.append_assoc]
    have hf := fillUp_ok (if info.zero then 0x30#8 else 0x20#8) (stop := rem) (m := m) (rest := s ++ text.drop (s.length + w)) w (by omega) (by omega)
    rw [List.take_of_length_le (by omega)] at hf
    rw [hf, except_ok_bind, ← List.append_assoc, hg, hl, Nat.add_comm w]
  · rw [if_neg hw]
    have h0 : (info.width - (s.length : Int)).toNat = 0 := by omega
    rw [h0, List.replicate_zero, List.nil_append] at hg
    rw [hg]

/-! ### The loop -/

/-- The conversion as one that prints nothing in particular. -/
def plainOf (d : RealDirective) : Directive := { flags := d.flags, width := d.width, precision := d.precision, length := d.length, conv := .percent }

theorem letter_real (c : RealConv) : Letter (spellReal c) := by
  cases c <;> decide

theorem convert_real (pf : FloatPrinter) (text : List Byte) (rem : Nat) (info : Info) (c : RealConv) (t : List Byte) {args args' : List Arg} {r : List Byte × Nat}
    (h : pf text rem info args = .ok (r, args')) : convert pf text rem info (spellReal c :: t) args = .ok (r, t, args') := by
  rw [convert, rd_cons, except_ok_bind]
  cases c <;> simp [spellReal, h]

theorem places_eq {p : Option Nat} {i : Int} (h : PrecIs p i) : places i = p.getD 6 := by
  cases p with
  | none => exact if_pos h
  | some k =>
    obtain rfl : i = k := h
    unfold places
    rw [if_neg (by omega)]
    simp

/-- Whatever decimals are printed. -/
theorem real_step {d : RealDirective} (hd : (Item.real d).Valid) (tail : List Byte) {args args1 args2 : List Arg} {w : Option Int} {p : Option Nat} {b : BitVec 64} {q : ℚ}
    (hw : widthOf d.width args = some (w, args1)) (hp : precisionOf d.precision args1 = some (p, .real b :: args2)) (hb : F64.ofBits b = .fin q) (h64 : |q| < F64.pow2 64)
    {vs : List Nat} (hv : values (p.getD 6) 10 (.fin (|q| - ⌊|q|⌋)) = .ok vs) {g : List Byte}
    (hg : padded (decide (Flag.zero ∈ d.flags ∧ d.precision = .none)) (w.getD 0).natAbs
      (spelled (decide (Flag.minus ∈ d.flags ∨ w.getD 0 < 0)) (decide (Flag.alt ∈ d.flags)) (p.getD 6) q vs) = g)
    {text : List Byte} {rem : Nat} (h1 : g.length < rem) (h2 : g.length ≤ text.length) :
    ∃ info, parse (spellRealDirective d ++ tail) args = .ok (info, spellReal d.conv :: tail, .real b :: args2) ∧
      convert f64 text rem info (spellReal d.conv :: tail) (.real b :: args2) = .ok ((g ++ text.drop g.length, g.length), tail, args2) := by
  obtain ⟨info, h, hR, ha⟩ := parse_as (plainOf d) hd (letter_real d.conv) tail hw hp
  refine ⟨info, h, convert_real f64 text rem info d.conv tail ?_⟩
  have hpl := places_eq hR.precision
  rw [f64, hb, printF64_ok (F64.ofBits_representable hb) h64 (by rw [hpl]; exact hv) (g := g) ?_ h1 h2]
  · rfl
  · rw [hpl, ha, hR.minus, hR.zero, hR.width]
    exact hg

theorem printable_spelled {p : Nat} {q : ℚ} (h : Printable p q) : ∃ vs, values p 10 (.fin (|q| - ⌊|q|⌋)) = .ok vs ∧ ∀ plus alt, spelled plus alt p q vs = decimal plus alt p q := by
  obtain ⟨h64, hp, h⟩ := h
  obtain ⟨vs, e1, e2⟩ := values_printable (abs_nonneg q) hp (by
    rcases h with h | ⟨n, h⟩ | h
    · exact .inl h
    · exact .inr (.inl ⟨|n|, by rw [h]; push_cast; rfl⟩)
    · refine .inr (.inr fun n => ?_)
      rcases abs_choice q with e | e
      · rw [e]; exact h n
      · have := h (-n)
        rw [e, show -q - n / 10 ^ p = -(q - ((-n : ℤ) : ℚ) / 10 ^ p) by push_cast; ring, abs_neg]
        exact this)
  exact ⟨vs, e1, fun plus alt => by rw [spelled, decimal, e2]⟩

/-- One literal text and one conversion. -/
theorem go_step (pf : FloatPrinter) {lit dir tail : List Byte} (hlit : Literal lit) {args args1 args2 : List Arg} {info : Info} {fmt : List Byte}
    (hparse : parse (0x25#8 :: dir ++ tail) args = .ok (info, fmt, args1)) {text : List Byte} {rem : Nat} {f r : List Byte} (hl : lit.length ≤ text.length)
    (hconv : convert pf (text.drop lit.length) rem info fmt args1 = .ok ((f ++ r, f.length), tail, args2)) (hf : f.length < rem) {fuel : Nat} {x : List Byte} {k : Nat}
    (hgo : go pf fuel tail args2 r (rem - f.length) = .ok (x, k)) :
    go pf (fuel + 1) (lit ++ (0x25#8 :: dir ++ tail)) args text rem = .ok (lit ++ f ++ x, lit.length + f.length + k) := by
  obtain ⟨c, r', hcr, hc0⟩ : ∃ c r', lit ++ (0x25#8 :: dir ++ tail) = c :: r' ∧ c ≠ 0 := by
    cases lit with
    | nil => exact ⟨_, _, rfl, by decide⟩
    | cons x lit => exact ⟨x, _, rfl, (hlit x (by simp)).1⟩
  rw [go, hcr, rd_cons, except_ok_bind, if_neg hc0, if_pos (by omega), ← hcr, List.cons_append, literal_ok hlit (.inr rfl) _ text hl, except_ok_bind]
  dsimp only
  rw [List.drop_append_of_le_length (Nat.le_refl _), List.drop_of_length_le (Nat.le_refl _), List.nil_append, ← List.cons_append, hparse, except_ok_bind]
  dsimp only
  rw [List.drop_append_of_le_length (Nat.le_refl _), List.drop_of_length_le (Nat.le_refl _), List.nil_append, hconv, except_ok_bind]
  dsimp only
  rw [List.drop_append_of_le_length (Nat.le_refl _), List.drop_of_length_le (Nat.le_refl _), List.nil_append, if_neg (by omega), hgo, except_ok_bind]
  dsimp only
  rw [List.take_append_of_le_length (Nat.le_refl _), List.take_of_length_le (Nat.le_refl _), List.take_append_of_le_length (Nat.le_refl _), List.take_of_length_le (Nat.le_refl _)]

theorem spellItem_cons (i : Item) : ∃ dir, spellItem i = 0x25#8 :: dir := by
  cases i <;> exact ⟨_, rfl⟩

/-- The conversion that prints letters in another case. -/
def CasedItem : Item → Prop
  | .plain d => Cased d.conv
  | .real _ => False

theorem go_mixed {items : List (List Byte × Item)} {args args' : List Arg} {out : List Byte} (hr : Renders items args out args')
    (hv : ∀ p ∈ items, Literal p.1 ∧ p.2.Valid) {last : List Byte} (hl : Literal last) (rest : List Byte) (fuel : Nat) (hf : items.length + 2 ≤ fuel)
    (text : List Byte) (rem z : Nat) (h1 : (out ++ last).length < rem) (h2 : (out ++ last).length ≤ z) (h3 : z < text.length)
    (h4 : (∃ p ∈ items, CasedItem p.2) → text[z]? = some 0) :
    ∃ rest', go f64 fuel (spellMixed items last ++ 0 :: rest) args text rem =
        .ok (out ++ last ++ 0 :: rest', (out ++ last).length + 1) ∧ rest'.drop (z - (out ++ last).length) = text.drop (z + 1) ∧
      rest'.length + (out ++ last).length + 1 = text.length ∧
      ((out ++ last).length < z → rest'.drop (z - (out ++ last).length - 1) = text.drop z) := by
  -- one conversion and the rest
  have key : ∀ {lit : List Byte} {i : Item} {items : List (List Byte × Item)} {args args1 args2 : List Arg} {f tl : List Byte} {info : Info} {fmt : List Byte} {fuel rem z : Nat} {text r' : List Byte},
      Literal lit → parse (spellItem i ++ (spellMixed items last ++ 0 :: rest)) args = .ok (info, fmt, args1) →
      convert f64 (text.drop lit.length) rem info fmt args1 = .ok ((f ++ r', f.length), spellMixed items last ++ 0 :: rest, args2) →
      r'.drop (z - lit.length - f.length) = text.drop z →
      (lit ++ f ++ tl ++ last).length < rem → (lit ++ f ++ tl ++ last).length ≤ z → z < text.length →
      (∃ rest', go f64 fuel (spellMixed items last ++ 0 :: rest) args2 r' (rem - f.length) = .ok (tl ++ last ++ 0 :: rest', (tl ++ last).length + 1) ∧
        rest'.drop (z - lit.length - f.length - (tl ++ last).length) = r'.drop (z - lit.length - f.length + 1) ∧
        rest'.length + (tl ++ last).length + 1 = r'.length ∧
        ((tl ++ last).length < z - lit.length - f.length → rest'.drop (z - lit.length - f.length - (tl ++ last).length - 1) = r'.drop (z - lit.length - f.length))) →
      ∃ rest', go f64 (fuel + 1) (spellMixed ((lit, i) :: items) last ++ 0 :: rest) args text rem = .ok (lit ++ f ++ tl ++ last ++ 0 :: rest', (lit ++ f ++ tl ++ last).length + 1) ∧
        rest'.drop (z - (lit ++ f ++ tl ++ last).length) = text.drop (z + 1) ∧ rest'.length + (lit ++ f ++ tl ++ last).length + 1 = text.length ∧
        ((lit ++ f ++ tl ++ last).length < z → rest'.drop (z - (lit ++ f ++ tl ++ last).length - 1) = text.drop z) := by
    intro lit i items args args1 args2 f tl info fmt fuel rem z text r' hlit hparse hconv hdrop h1 h2 h3 ⟨r2, hgo, hdrop2, hlen2, hdrop3⟩
    have hlens : (lit ++ f ++ tl ++ last).length = lit.length + f.length + (tl ++ last).length := by
      simp only [List.length_append]
      omega
    rw [hlens] at h1 h2 ⊢
    have hlr : r'.length = text.length - lit.length - f.length := by
      have := (get_of_drop hdrop h3).1
      have := congrArg List.length hdrop
      rw [List.length_drop, List.length_drop] at this
      omega
    refine ⟨r2, ?_, ?_, by omega, fun h => ?_⟩
    · obtain ⟨dir, hdir⟩ := spellItem_cons i
      have e : spellMixed ((lit, i) :: items) last ++ 0 :: rest = lit ++ (0x25#8 :: dir ++ (spellMixed items last ++ 0 :: rest)) := by
        simp [spellMixed, hdir]
      rw [hdir] at hparse
      rw [e, go_step f64 hlit hparse (by omega) hconv (by omega) hgo]
      simp only [List.append_assoc, Nat.add_assoc]
    · rw [show z - (lit.length + f.length + (tl ++ last).length) = z - lit.length - f.length - (tl ++ last).length by omega, hdrop2, ← List.drop_drop, hdrop, List.drop_drop]
    · rw [show z - (lit.length + f.length + (tl ++ last).length) - 1 = z - lit.length - f.length - (tl ++ last).length - 1 by omega, hdrop3 (by omega), hdrop]
  induction hr generalizing fuel text rem z with
  | nil args =>
    obtain ⟨fuel, rfl⟩ : ∃ k, fuel = k + 2 := ⟨fuel - 2, by simp at hf; omega⟩
    simp only [List.nil_append] at h1 h2 ⊢
    refine ⟨text.drop (last.length + 1), ?_, ?_, by rw [List.length_drop]; omega, fun h => by rw [List.drop_drop]; congr 1; omega⟩
    · rw [spellMixed, List.flatMap_nil, List.nil_append]
      exact go_end f64 fuel hl rest args text rem (by omega) (by omega)
    · rw [List.drop_drop]
      congr 1
      omega
  | @plain lit d items args args1 args2 f tl hd ht ih =>
    obtain ⟨fuel, rfl⟩ : ∃ k, fuel = k + 1 := ⟨fuel - 1, by simp at hf; omega⟩
    obtain ⟨hlit, hdv⟩ := hv (lit, .plain d) (by simp)
    have hlens : (lit ++ f ++ tl ++ last).length = lit.length + f.length + (tl ++ last).length := by
      simp only [List.length_append]
      omega
    rw [renderDirective] at hd
    cases hw : widthOf d.width args with
    | none => rw [hw] at hd; cases hd
    | some wa =>
      obtain ⟨w, a1⟩ := wa
      rw [hw, Option.bind_some] at hd
      dsimp only at hd
      cases hp : precisionOf d.precision a1 with
      | none => rw [hp] at hd; cases hd
      | some pa =>
        obtain ⟨p, a2⟩ := pa
        rw [hp, Option.bind_some] at hd
        dsimp only at hd
        cases hb : body d p a2 with
        | none => rw [hb] at hd; cases hd
        | some sa =>
          obtain ⟨s, a3⟩ := sa
          rw [hb] at hd
          simp only [Option.map_some, Option.some.injEq, Prod.mk.injEq] at hd
          obtain ⟨hlay, rfl⟩ := hd
          obtain ⟨info, hparse, hR⟩ := parse_ok d hdv (spellMixed items last ++ 0 :: rest) hw hp
          obtain ⟨r', hconv, hdrop⟩ := convert_ok f64 (text.drop lit.length) rem hR hb (spellMixed items last ++ 0 :: rest) (z - lit.length) hlay (by omega) (by omega)
            (by rw [List.length_drop]; omega)
            (by
              intro hc
              rw [List.getElem?_drop, show lit.length + (z - lit.length) = z by omega]
              exact h4 ⟨(lit, .plain d), by simp, hc⟩)
          rw [List.drop_drop, show lit.length + (z - lit.length) = z by omega] at hdrop
          obtain ⟨hz', hgz⟩ := get_of_drop hdrop h3
          exact key (i := .plain d) hlit hparse hconv hdrop h1 h2 h3 (ih (fun q hq => hv q (List.mem_cons_of_mem _ hq)) fuel (by simp at hf; omega) r' (rem - f.length)
            (z - lit.length - f.length) (by omega) (by omega) hz' (by
              rintro ⟨q, hq, hqc⟩
              rw [hgz]
              exact h4 ⟨q, List.mem_cons_of_mem _ hq, hqc⟩))
  | @real lit d items args args1 args2 args3 w p b q tl hw hp hb hq ht ih =>
    obtain ⟨fuel, rfl⟩ : ∃ k, fuel = k + 1 := ⟨fuel - 1, by simp at hf; omega⟩
    obtain ⟨hlit, hdv⟩ := hv (lit, .real d) (by simp)
    obtain ⟨vs, e1, e2⟩ := printable_spelled hq
    have hfield : padded (decide (Flag.zero ∈ d.flags ∧ d.precision = .none)) (w.getD 0).natAbs
        (spelled (decide (Flag.minus ∈ d.flags ∨ w.getD 0 < 0)) (decide (Flag.alt ∈ d.flags)) (p.getD 6) q vs) = realField d w p q := by
      rw [e2, padded, realField]
      congr 2
      · omega
      · simp
    generalize realField d w p q = f at *
    have hlens : (lit ++ f ++ tl ++ last).length = lit.length + f.length + (tl ++ last).length := by
      simp only [List.length_append]
      omega
    obtain ⟨info, hparse, hconv⟩ := real_step hdv (spellMixed items last ++ 0 :: rest) hw hp hb hq.1 e1 hfield (text := text.drop lit.length) (rem := rem) (by omega)
      (by rw [List.length_drop]; omega)
    have hdrop : ((text.drop lit.length).drop f.length).drop (z - lit.length - f.length) = text.drop z := by
      rw [List.drop_drop, List.drop_drop]
      congr 1
      omega
    obtain ⟨hz', hgz⟩ := get_of_drop hdrop h3
    exact key (i := .real d) hlit hparse hconv hdrop h1 h2 h3 (ih (fun q hq => hv q (List.mem_cons_of_mem _ hq)) fuel (by simp at hf; omega) _ (rem - f.length)
      (z - lit.length - f.length) (by omega) (by omega) hz' (by
        rintro ⟨q, hq, hqc⟩
        rw [hgz]
        exact h4 ⟨q, List.mem_cons_of_mem _ hq, hqc⟩))

/-! ## C127 -/

/-- A printed text that fits, together with its terminator, is printed in full; the result counts the terminator, except that an exact fit gives -1; no byte after `text[z]`
is touched (see `C54_fits_partial` for `z`).  The numbers are those of `Printable`: less than 2^64, up to 14 decimals, and not within 2^-46 of a number with so many
decimals, unless whole.

`_partial`: the decimals are cut off instead of rounded (`decimal` says what is printed); close to numbers with so many decimals the result is wrong (`C127_quarter`,
`C127_ten`); large numbers, infinities and NaN (`C127_undefined`) and 18 or more decimals (`C127_many_decimals`) are undefined behaviour. -/
theorem C127_fits_partial {items : List (List Byte × Item)} {last : List Byte} (hv : ∀ p ∈ items, Literal p.1 ∧ p.2.Valid) (hl : Literal last) {args args' : List Arg}
    {t out : List Byte} (hr : Renders items args t args') (ho : out = t ++ last) (fmtRest : List Byte) (text : List Byte) (maxLen : Nat) (hm : out.length < maxLen) (z : Nat)
    (hz : out.length ≤ z) (ht : z < text.length) (hc : (∃ s d, (s, Item.plain d) ∈ items ∧ (d.conv = .x ∨ d.conv = .X ∨ d.conv = .p)) → text[z]? = some 0) :
    ∃ text', snprintf f64 text maxLen (spellMixed items last ++ 0 :: fmtRest) args = .ok (text', if out.length + 1 = maxLen then -1 else ((out.length + 1 : Nat) : Int)) ∧
      text'.length = text.length ∧ text'.take (out.length + 1) = out ++ [0] ∧ text'.drop (z + 1) = text.drop (z + 1) ∧ (out.length < z → text'[z]? = text[z]?) := by
  subst ho
  have hfuel : items.length + 2 ≤ (spellMixed items last ++ 0 :: fmtRest).length + 1 := by
    have : items.length ≤ (items.flatMap (fun p => p.1 ++ spellItem p.2)).length := by
      generalize items = items
      induction items with
      | nil => simp
      | cons p items ih =>
        rw [List.flatMap_cons, List.length_append, List.length_append, List.length_cons]
        obtain ⟨dir, hdir⟩ := spellItem_cons p.2
        rw [hdir, List.length_cons]
        omega
    simp only [spellMixed, List.length_append, List.length_cons] at *
    omega
  obtain ⟨r, hgo, hd, hlen, hd2⟩ := go_mixed hr hv hl fmtRest _ hfuel text maxLen z hm hz ht (by
    rintro ⟨⟨s, i⟩, hi, hci⟩
    cases i with
    | plain d => exact hc ⟨s, d, hi, hci⟩
    | real d => exact hci.elim)
  refine ⟨(t ++ last) ++ 0 :: r, ?_, ?_, ?_, ?_, fun h => ?_⟩
  · rw [snprintf, hgo, except_ok_bind]
    dsimp only
    by_cases he : (t ++ last).length + 1 = maxLen
    · rw [if_pos (by omega), if_pos he]
    · rw [if_neg (by omega), if_neg he]
  · rw [List.length_append, List.length_cons]
    omega
  · rw [List.take_append, List.take_of_length_le (by omega)]
    simp
  · rw [List.drop_append, List.drop_eq_nil_of_le (by omega), List.nil_append, show z + 1 - (t ++ last).length = (z - (t ++ last).length) + 1 by omega,
      List.drop_succ_cons, hd]
  · have h1 := congrArg (fun l => l[0]?) (hd2 h)
    simp only [List.getElem?_drop, Nat.add_zero] at h1
    rw [List.getElem?_append_right (by omega), ← h1, show z - (t ++ last).length = z - (t ++ last).length - 1 + 1 by omega, List.getElem?_cons_succ]
    rfl

/-- A format with one conversion of a real number. -/
theorem one_ok {d : RealDirective} (hd : (Item.real d).Valid) (rest : List Byte) {args args1 args2 : List Arg} {w : Option Int} {p : Option Nat} {b : BitVec 64} {q : ℚ}
    (hw : widthOf d.width args = some (w, args1)) (hp : precisionOf d.precision args1 = some (p, .real b :: args2)) (hb : F64.ofBits b = .fin q) (h64 : |q| < F64.pow2 64)
    {vs : List Nat} (hv : values (p.getD 6) 10 (.fin (|q| - ⌊|q|⌋)) = .ok vs) {out : List Byte}
    (hg : padded (decide (Flag.zero ∈ d.flags ∧ d.precision = .none)) (w.getD 0).natAbs
      (spelled (decide (Flag.minus ∈ d.flags ∨ w.getD 0 < 0)) (decide (Flag.alt ∈ d.flags)) (p.getD 6) q vs) = out)
    (text : List Byte) (maxLen : Nat) (hm : out.length + 1 < maxLen) (ht : out.length < text.length) :
    snprintf f64 text maxLen (spellRealDirective d ++ 0 :: rest) args = .ok (out ++ 0 :: text.drop (out.length + 1), ((out.length + 1 : Nat) : Int)) := by
  obtain ⟨info, hparse, hconv⟩ := real_step hd (0 :: rest) hw hp hb h64 hv hg (text := text) (rem := maxLen) (by omega) (by omega)
  obtain ⟨dir, hdir⟩ := spellItem_cons (.real d)
  rw [spellItem] at hdir
  have hlen : (spellRealDirective d ++ 0 :: rest).length = dir.length + rest.length + 2 := by rw [hdir]; simp; omega
  have hgo : go f64 (dir.length + rest.length + 2) (0 :: rest) args2 (text.drop out.length) (maxLen - out.length) = _ :=
    go_end f64 (dir.length + rest.length) (last := []) (by simp [Literal]) rest args2 (text.drop out.length) (maxLen - out.length) (by omega) (by rw [List.length_drop]; simpa using ht)
  rw [snprintf, hlen]
  rw [hdir] at hparse ⊢
  have := go_step f64 (lit := []) (by simp [Literal]) hparse (Nat.zero_le _) hconv (by omega) hgo
  rw [List.nil_append] at this
  rw [this, except_ok_bind]
  simp only [List.nil_append, List.length_nil, Nat.zero_add, List.drop_drop]
  rw [if_neg (by omega)]

/-- For every number that is less than 2^64 and up to 14 decimals, what is printed is the sign, the whole part and, after the point, one number less than 12 for every
decimal; the fraction they stand for is less than 10^-p + 2^-46 away. -/
theorem C127_near {d : RealDirective} (hd : (Item.real d).Valid) (rest : List Byte) {args args1 args2 : List Arg} {w : Option Int} {p : Option Nat} {b : BitVec 64} {q : ℚ}
    (hw : widthOf d.width args = some (w, args1)) (hp : precisionOf d.precision args1 = some (p, .real b :: args2)) (hb : F64.ofBits b = .fin q) (h64 : |q| < F64.pow2 64)
    (h14 : p.getD 6 ≤ 14) :
    ∃ vs : List Nat, vs.length = p.getD 6 ∧ (∀ v ∈ vs, v < 12) ∧ |(|q| - ⌊|q|⌋) - valueOf vs| < 1 / 10 ^ (p.getD 6) + F64.pow2 (-46) ∧
      ∀ out, padded (decide (Flag.zero ∈ d.flags ∧ d.precision = .none)) (w.getD 0).natAbs
        (spelled (decide (Flag.minus ∈ d.flags ∨ w.getD 0 < 0)) (decide (Flag.alt ∈ d.flags)) (p.getD 6) q vs) = out →
      ∀ (text : List Byte) (maxLen : Nat), out.length + 1 < maxLen → out.length < text.length →
        snprintf f64 text maxLen (spellRealDirective d ++ 0 :: rest) args = .ok (out ++ 0 :: text.drop (out.length + 1), ((out.length + 1 : Nat) : Int)) := by
  have hfr0 : 0 ≤ |q| - ⌊|q|⌋ := by linarith [Int.floor_le |q|]
  have hfr1 : |q| - ⌊|q|⌋ < 1 := by linarith [Int.lt_floor_add_one |q|]
  obtain ⟨vs, e, hl, hlt, hbd⟩ := values_ok (p.getD 6) (j := 0) (by omega) (a := |q| - ⌊|q|⌋) (s := 0) (le_refl _) (by simp) (by linarith) (by rw [pow_zero]; linarith)
  refine ⟨vs, hl, hlt, ?_, fun out hg text maxLen hm ht => one_ok hd rest hw hp hb h64 (by simpa using e) hg text maxLen hm ht⟩
  obtain ⟨b1, b2⟩ := hbd (p.getD 6) (le_refl _)
  rw [List.take_of_length_le (by omega), pow_zero, div_one, zero_add] at b1 b2
  have hu := F64.pow2_pos (-53)
  have h8 : 8 * ((p.getD 6 : Nat) : ℚ) * F64.pow2 (-53) < F64.pow2 (-46) := by
    have hn : ((p.getD 6 : Nat) : ℚ) ≤ 14 := by exact_mod_cast h14
    have h46 : F64.pow2 (-46) = 128 * F64.pow2 (-53) := by norm_num [F64.pow2_eq]
    rw [h46]
    nlinarith
  have hp0 : (0 : ℚ) < 1 / 10 ^ (p.getD 6) := by positivity
  rw [zero_add] at b2
  rw [abs_lt]
  constructor <;> linarith

/-! ### Deviations -/

/-- `%f` of a number with the fraction 1/4 prints the decimals 249999. -/
theorem C127_quarter {b : BitVec 64} {n : Nat} (hb : F64.ofBits b = .fin (n + 1 / 4)) (hn : n < 2 ^ 64) (rest : List Byte) {out : List Byte}
    (ho : out = numeral false 10 n ++ [0x2e#8, 0x32#8, 0x34#8, 0x39#8, 0x39#8, 0x39#8, 0x39#8]) (text : List Byte) (maxLen : Nat) (hm : out.length + 1 < maxLen)
    (ht : out.length < text.length) :
    snprintf f64 text maxLen (0x25#8 :: 0x66#8 :: 0 :: rest) [.real b] = .ok (out ++ 0 :: text.drop (out.length + 1), ((out.length + 1 : Nat) : Int)) := by
  have hpos : (0 : ℚ) < n + 1 / 4 := by positivity
  have habs : |(n : ℚ) + 1 / 4| = n + 1 / 4 := abs_of_pos hpos
  have hfl : ⌊(n : ℚ) + 1 / 4⌋ = n := by
    rw [Int.floor_eq_iff]
    constructor
    · push_cast; linarith
    · push_cast; linarith
  have hv : values 6 10 (.fin (1 / 4)) = .ok [2, 4, 9, 9, 9, 9] := by decide +kernel
  refine one_ok (d := { conv := .f }) (w := none) (p := none) ⟨by simp, by simp⟩ rest rfl rfl hb (by
    rw [habs]
    have : (n : ℚ) + 1 ≤ ((2 ^ 64 : Nat) : ℚ) := by exact_mod_cast hn
    have h2 : F64.pow2 64 = ((2 ^ 64 : Nat) : ℚ) := by norm_num [F64.pow2_eq]
    rw [h2]
    exact lt_of_lt_of_le (by linarith) this) (vs := [2, 4, 9, 9, 9, 9]) (by
    rw [habs, hfl, show (n : ℚ) + 1 / 4 - ((n : ℤ) : ℚ) = 1 / 4 by push_cast; ring]
    exact hv) ?_ text maxLen hm ht
  have hs : spelled false false 6 (n + 1 / 4) [2, 4, 9, 9, 9, 9] = out := by
    rw [spelled, if_neg (ne_of_gt hpos), if_neg (not_lt.2 hpos.le), habs, hfl, ho, if_neg (by decide), if_pos (by decide), List.nil_append, Int.toNat_natCast]
    congr 1
    decide +kernel
  have e : spelled (decide (Flag.minus ∈ ([] : List Flag) ∨ (none : Option Int).getD 0 < 0)) (decide (Flag.alt ∈ ([] : List Flag))) ((none : Option Nat).getD 6) (n + 1 / 4)
      [2, 4, 9, 9, 9, 9] = out := hs
  rw [e, padded]
  simp

/-- A number can have a decimal that is printed as `10`: `%f` of 0.09999999999999999 prints `0.0100000`. -/
theorem C127_ten (rest text : List Byte) (ht : 9 < text.length) (maxLen : Nat) (hm : 10 < maxLen) :
    F64.ofBits 0x3fb9999999999999#64 = .fin (7205759403792793 / 72057594037927936) ∧
    snprintf f64 text maxLen (0x25#8 :: 0x66#8 :: 0 :: rest) [.real 0x3fb9999999999999#64] =
      .ok ([0x30#8, 0x2e#8, 0x30#8, 0x31#8, 0x30#8, 0x30#8, 0x30#8, 0x30#8, 0x30#8, 0#8] ++ text.drop 10, 10) := by
  have hb : F64.ofBits 0x3fb9999999999999#64 = .fin (7205759403792793 / 72057594037927936) := by decide +kernel
  have h1 : |(7205759403792793 / 72057594037927936 : ℚ)| = 7205759403792793 / 72057594037927936 := by rw [abs_of_pos (by norm_num)]
  have h2 : ⌊(7205759403792793 / 72057594037927936 : ℚ)⌋ = 0 := by rw [Int.floor_eq_iff]; norm_num
  refine ⟨hb, ?_⟩
  have hv : values 6 10 (.fin (7205759403792793 / 72057594037927936)) = .ok [0, 10, 0, 0, 0, 0] := by decide +kernel
  refine (one_ok (d := { conv := .f }) (w := none) (p := none) ⟨by simp, by simp⟩ rest rfl rfl hb (by rw [h1]; norm_num [F64.pow2_eq]) (vs := [0, 10, 0, 0, 0, 0])
    (by rw [h1, h2, Int.cast_zero, sub_zero]; exact hv) (out := [0x30#8, 0x2e#8, 0x30#8, 0x31#8, 0x30#8, 0x30#8, 0x30#8, 0x30#8, 0x30#8]) ?_ text maxLen (by simpa using hm) (by simpa using ht)).trans ?_
  · decide +kernel
  · rfl

theorem go_error (pf : FloatPrinter) {dir tail : List Byte} {args args1 : List Arg} {info : Info} {fmt : List Byte} (hparse : parse (0x25#8 :: dir ++ tail) args = .ok (info, fmt, args1))
    {text : List Byte} {rem : Nat} (hr : rem ≠ 0) {e : Fault} (hconv : convert pf text rem info fmt args1 = .error e) (fuel : Nat) :
    go pf (fuel + 1) (0x25#8 :: dir ++ tail) args text rem = .error e := by
  have hlit : literal (0x25#8 :: dir ++ tail) text = .ok (0, text) := literal_ok (s := []) (by simp [Literal]) (.inr rfl) (dir ++ tail) text (Nat.zero_le _)
  rw [go, List.cons_append, rd_cons, except_ok_bind, if_neg (by decide), if_pos hr, ← List.cons_append, hlit, except_ok_bind]
  dsimp only
  rw [List.drop_zero, hparse, except_ok_bind]
  dsimp only
  rw [List.drop_zero, hconv]
  rfl

/-- A conversion that goes wrong. -/
theorem one_error {d : RealDirective} (hd : (Item.real d).Valid) (rest : List Byte) {args args1 args2 : List Arg} {w : Option Int} {p : Option Nat} {b : BitVec 64}
    (hw : widthOf d.width args = some (w, args1)) (hp : precisionOf d.precision args1 = some (p, .real b :: args2)) (text : List Byte) (maxLen : Nat) (hm : maxLen ≠ 0) {E : Fault → Prop}
    (h : ∀ info : Info, places info.precision = p.getD 6 → ∃ e, E e ∧ printF64 text maxLen info (F64.ofBits b) = .error e) :
    ∃ e, E e ∧ snprintf f64 text maxLen (spellRealDirective d ++ 0 :: rest) args = .error e := by
  obtain ⟨info, hparse, hR, ha⟩ := parse_as (plainOf d) hd (letter_real d.conv) (0 :: rest) hw hp
  obtain ⟨e, he, hp⟩ := h info (places_eq hR.precision)
  refine ⟨e, he, ?_⟩
  obtain ⟨dir, hdir⟩ := spellItem_cons (.real d)
  rw [spellItem] at hdir
  have hdir' : spellAs (plainOf d) (spellReal d.conv) = 0x25#8 :: dir := hdir
  rw [hdir'] at hparse
  have hconv : convert f64 text maxLen info (spellReal d.conv :: 0 :: rest) (.real b :: args2) = .error e := by
    rw [convert, rd_cons, except_ok_bind]
    have hpf : f64 text maxLen info (.real b :: args2) = .error e := by rw [f64, hp]; rfl
    cases d.conv <;> simp [spellReal, hpf]
  rw [snprintf, hdir, go_error f64 hparse hm hconv]
  rfl

/-- Infinities, NaN and numbers from 2^64 on: the conversion to an integer is undefined behaviour. -/
theorem C127_undefined {d : RealDirective} (hd : (Item.real d).Valid) (rest : List Byte) {args args1 args2 : List Arg} {w : Option Int} {p : Option Nat} {b : BitVec 64}
    (hw : widthOf d.width args = some (w, args1)) (hp : precisionOf d.precision args1 = some (p, .real b :: args2)) (hb : ∀ q, F64.ofBits b = .fin q → F64.pow2 64 ≤ |q|)
    (text : List Byte) (ht : text ≠ []) (maxLen : Nat) (hm : maxLen ≠ 0) :
    snprintf f64 text maxLen (spellRealDirective d ++ 0 :: rest) args = .error .ub := by
  obtain ⟨e, rfl, h⟩ := one_error hd rest hw hp text maxLen hm (E := fun e => e = .ub) (by
    intro info _
    refine ⟨_, rfl, ?_⟩
    have hput : ∀ c, ∃ s, put c ⟨text, 0, maxLen⟩ = .ok s := by
      intro c
      unfold put
      split
      · exact ⟨_, by rw [show wr text 0 c = .ok (text.set 0 c) from if_pos (List.length_pos_iff.2 ht)]; rfl⟩
      · exact ⟨_, rfl⟩
    have hmag : ∀ (a : F64) (s : Cur), F64.toU64 a = .error .ub → magnitude info.alt info.precision a s = .error .ub := by
      intro a s h
      rw [magnitude, h]
      rfl
    have key : digitsOf info (F64.ofBits b) ⟨text, 0, maxLen⟩ = .error .ub := by
      have h64 : (0 : ℚ) < F64.pow2 64 := F64.pow2_pos _
      generalize F64.ofBits b = x at hb
      obtain ⟨s1, e1⟩ := hput 0x2d#8
      obtain ⟨s2, e2⟩ := hput 0x2b#8
      have hx0 : x ≠ .fin 0 := by
        rintro rfl
        have := hb 0 rfl
        rw [abs_zero] at this
        linarith
      have hu : F64.lt x (.fin 0) = true → F64.toU64 (F64.neg x) = .error .ub := by
        intro hlt
        cases x with
        | nan => rfl
        | inf n => rfl
        | fin q =>
          have hq := hb q rfl
          have hneg : q < 0 := by simpa [F64.lt] using hlt
          rw [abs_of_neg hneg] at hq
          rw [F64.neg, F64.toU64, if_neg (by rintro ⟨-, h⟩; have : F64.pow2 64 = 2 ^ 64 := (by norm_num [F64.pow2_eq]); linarith)]
      have hu' : ¬ F64.lt x (.fin 0) = true → F64.toU64 x = .error .ub := by
        intro hlt
        cases x with
        | nan => rfl
        | inf n => rfl
        | fin q =>
          have hq := hb q rfl
          have hneg : ¬ q < 0 := by simpa [F64.lt] using hlt
          rw [abs_of_nonneg (not_lt.1 hneg)] at hq
          rw [F64.toU64, if_neg (by rintro ⟨-, h⟩; have : F64.pow2 64 = 2 ^ 64 := (by norm_num [F64.pow2_eq]); linarith)]
      unfold digitsOf
      rw [if_neg hx0]
      by_cases hlt : F64.lt x (.fin 0) = true
      · rw [if_pos hlt, e1, except_ok_bind]
        exact hmag _ _ (hu hlt)
      · rw [if_neg hlt]
        split
        · rw [e2, except_ok_bind]
          exact hmag _ _ (hu' hlt)
        · exact hmag _ _ (hu' hlt)
    rw [printF64, key]
    rfl)
  exact h

theorem decimals_error (n : Nat) (mult : Int) (arg : F64) (s : Cur) (hm : 0 < mult) (h : 2 ^ 63 ≤ mult * 10 ^ (n + 1)) : ∃ e, decimals (n + 1) mult arg s = .error e := by
  induction n generalizing mult arg s with
  | zero =>
    rw [decimals]
    cases F64.toU64 (F64.mul arg (F64.ofInt mult)) with
    | error e => exact ⟨e, rfl⟩
    | ok v =>
      rw [except_ok_bind]
      cases putU64 v s with
      | error e => exact ⟨e, rfl⟩
      | ok s =>
        rw [except_ok_bind]
        dsimp only
        rw [if_neg (by simpa using h)]
        exact ⟨_, rfl⟩
  | succ n ih =>
    rw [decimals]
    cases F64.toU64 (F64.mul arg (F64.ofInt mult)) with
    | error e => exact ⟨e, rfl⟩
    | ok v =>
      rw [except_ok_bind]
      cases putU64 v s with
      | error e => exact ⟨e, rfl⟩
      | ok s =>
        rw [except_ok_bind]
        dsimp only
        split
        · exact ih (mult * 10) _ s (by omega) (by rw [mul_assoc, ← pow_succ']; exact h)
        · exact ⟨_, rfl⟩

/-- With 18 or more decimals `mult` overflows, whatever the number is, unless it is zero. -/
theorem C127_many_decimals {d : RealDirective} (hd : (Item.real d).Valid) (rest : List Byte) {args args1 args2 : List Arg} {w : Option Int} {p : Nat} {b : BitVec 64}
    (hw : widthOf d.width args = some (w, args1)) (hp : precisionOf d.precision args1 = some (some p, .real b :: args2)) (h18 : 18 ≤ p) (hb : F64.ofBits b ≠ .fin 0)
    (text : List Byte) (maxLen : Nat) (hm : maxLen ≠ 0) : ∃ e, snprintf f64 text maxLen (spellRealDirective d ++ 0 :: rest) args = .error e := by
  obtain ⟨e, -, h⟩ := one_error hd rest hw hp text maxLen hm (E := fun _ => True) (by
    intro info hpl
    have hmag : ∀ (a : F64) (s : Cur), ∃ e, magnitude info.alt info.precision a s = .error e := by
      intro a s
      rw [magnitude]
      cases F64.toU64 a with
      | error e => exact ⟨e, rfl⟩
      | ok v =>
        rw [except_ok_bind]
        cases putU64 v s with
        | error e => exact ⟨e, rfl⟩
        | ok s =>
          rw [except_ok_bind]
          dsimp only
          change ∃ e, (if info.alt = true ∨ places info.precision > 0 then _ else _) = _
          rw [hpl, Option.getD_some, if_pos (.inr (by omega))]
          cases put 0x2e#8 s with
          | error e => exact ⟨e, rfl⟩
          | ok s =>
            rw [except_ok_bind]
            change ∃ e, decimals (places info.precision) _ _ _ = _
            rw [hpl, Option.getD_some]
            obtain ⟨n, rfl⟩ : ∃ n, p = n + 1 := ⟨p - 1, by omega⟩
            refine decimals_error n 10 _ s (by decide) ?_
            calc (2 : ℤ) ^ 63 ≤ 10 * 10 ^ 18 := by norm_num
              _ ≤ 10 * 10 ^ (n + 1) := by
                have : (10 : ℤ) ^ 18 ≤ 10 ^ (n + 1) := pow_le_pow_right₀ (by norm_num) (by omega)
                omega
    have key : ∃ e, digitsOf info (F64.ofBits b) ⟨text, 0, maxLen⟩ = .error e := by
      unfold digitsOf
      rw [if_neg hb]
      split
      · cases put 0x2d#8 ⟨text, 0, maxLen⟩ with
        | error e => exact ⟨e, rfl⟩
        | ok s => exact hmag _ _
      · split
        · cases put 0x2b#8 ⟨text, 0, maxLen⟩ with
          | error e => exact ⟨e, rfl⟩
          | ok s => exact hmag _ _
        · exact hmag _ _
    obtain ⟨e, he⟩ := key
    exact ⟨e, trivial, by rw [printF64, he]; rfl⟩)
  exact ⟨e, h⟩

/-! ### The theorems are not vacuous -/

section Examples

/-- 2.718281828459045, as a double. -/
private def exp1 : BitVec 64 := 0x4005bf0a8b145769#64

/-- -1/3, as a double. -/
private def third : BitVec 64 := 0xbfd5555555555555#64

private theorem exp1_val : F64.ofBits exp1 = .fin (6121026514868073 / 2251799813685248) := by decide +kernel

private theorem third_val : F64.ofBits third = .fin (-(6004799503160661 / 18014398509481984)) := by decide +kernel

/-- A sufficient condition. -/
private theorem printable_of {p : Nat} {q : ℚ} (m : ℤ) (h64 : |q| < F64.pow2 64) (hp : p ≤ 14) (h1 : (m : ℚ) / 10 ^ p + F64.pow2 (-46) ≤ q) (h2 : q + F64.pow2 (-46) ≤ (m + 1) / 10 ^ p) : Printable p q := by
  refine ⟨h64, hp, .inr (.inr fun n => ?_)⟩
  have h10 : (0 : ℚ) < 10 ^ p := by positivity
  rcases lt_or_ge m n with h | h
  · have : ((m : ℚ) + 1) / 10 ^ p ≤ n / 10 ^ p := by
      have : (m : ℚ) + 1 ≤ n := by exact_mod_cast h
      gcongr
    rw [abs_of_nonpos (by have := F64.pow2_pos (-46); linarith)]
    linarith
  · have : (n : ℚ) / 10 ^ p ≤ m / 10 ^ p := by
      have : (n : ℚ) ≤ m := by exact_mod_cast h
      gcongr
    rw [abs_of_nonneg (by have := F64.pow2_pos (-46); linarith)]
    linarith

private theorem exp1_printable : Printable 6 (6121026514868073 / 2251799813685248) := by
  refine printable_of 2718281 ?_ (by decide) ?_ ?_
  · norm_num [F64.pow2_eq]
  all_goals norm_num [F64.pow2_eq]

private theorem third_printable : Printable 3 (-(6004799503160661 / 18014398509481984)) := by
  refine printable_of (-334) ?_ (by decide) ?_ ?_
  · norm_num [F64.pow2_eq, abs_of_pos]
  all_goals norm_num [F64.pow2_eq]

/-- The format `e=%f, %d: %8.3f!`. -/
private def mixed : List (List Byte × Item) :=
  [([0x65#8, 0x3d#8], .real { conv := .f }), ([0x2c#8, 0x20#8], .plain { conv := .d }), ([0x3a#8, 0x20#8], .real { width := .num 8, precision := .num 3, conv := .f })]

/-- It prints `e=2.718281, 7: ` and ` -0.333`. -/
private theorem mixed_renders : ∃ t, Renders mixed [.real exp1, .int 7#32, .real third] t [] ∧
    t = [0x65#8, 0x3d#8, 0x32#8, 0x2e#8, 0x37#8, 0x31#8, 0x38#8, 0x32#8, 0x38#8, 0x31#8, 0x2c#8, 0x20#8, 0x37#8, 0x3a#8, 0x20#8, 0x20#8, 0x20#8, 0x2d#8, 0x30#8, 0x2e#8, 0x33#8, 0x33#8, 0x33#8] := by
  refine ⟨_, .real (w := none) (p := none) rfl rfl exp1_val exp1_printable (.plain (f := [0x37#8]) (args1 := [.real third]) (by decide +kernel)
    (.real (w := some 8) (p := some 3) rfl rfl third_val third_printable (.nil _))), ?_⟩
  decide +kernel

example : ∃ text', snprintf f64 (List.replicate 40 0x55#8) 40 (spellMixed mixed [0x21#8] ++ [0]) [.real exp1, .int 7#32, .real third] = .ok (text', 25) ∧
    text'.take 25 = [0x65#8, 0x3d#8, 0x32#8, 0x2e#8, 0x37#8, 0x31#8, 0x38#8, 0x32#8, 0x38#8, 0x31#8, 0x2c#8, 0x20#8, 0x37#8, 0x3a#8, 0x20#8, 0x20#8, 0x20#8, 0x2d#8, 0x30#8, 0x2e#8, 0x33#8, 0x33#8, 0x33#8, 0x21#8, 0#8] := by
  obtain ⟨t, hr, rfl⟩ := mixed_renders
  obtain ⟨t', e, -, h, -⟩ := C127_fits_partial (items := mixed) (last := [0x21#8]) (by
    intro p hp
    simp only [mixed, List.mem_cons, List.not_mem_nil, or_false] at hp
    rcases hp with rfl | rfl | rfl
    · exact ⟨by unfold Literal; decide, by simp, by simp⟩
    · exact ⟨by unfold Literal; decide, by simp, by simp⟩
    · exact ⟨by unfold Literal; decide, by intro n hn; cases hn; decide, by intro n hn; cases hn; decide⟩) (by unfold Literal; decide) hr rfl [] (List.replicate 40 0x55#8) 40 (by decide) 24
    (by decide) (by decide) (by simp [mixed])
  exact ⟨t', e, h⟩

/-- What the model does with it. -/
example : snprintf f64 (List.replicate 12 0x55#8) 12 [0x25#8, 0x66#8, 0] [.real exp1] =
    .ok ([0x32#8, 0x2e#8, 0x37#8, 0x31#8, 0x38#8, 0x32#8, 0x38#8, 0x31#8, 0, 0x55#8, 0x55#8, 0x55#8], 9) := by decide +kernel

/-- 5.25 prints 5.249999. -/
example : snprintf f64 (List.replicate 10 0x55#8) 10 [0x25#8, 0x66#8, 0] [.real 0x4015000000000000#64] =
    .ok ([0x35#8, 0x2e#8, 0x32#8, 0x34#8, 0x39#8, 0x39#8, 0x39#8, 0x39#8, 0, 0x55#8], 9) :=
  C127_quarter (n := 5) (by decide +kernel) (by decide) [] (out := [0x35#8, 0x2e#8, 0x32#8, 0x34#8, 0x39#8, 0x39#8, 0x39#8, 0x39#8]) (by decide +kernel) _ 10 (by decide) (by decide)

/-- The flag `-` prints a plus sign and does not put the number to the left: `%-8.1f` of 0.5. -/
example : snprintf f64 (List.replicate 10 0x55#8) 10 [0x25#8, 0x2d#8, 0x38#8, 0x2e#8, 0x31#8, 0x66#8, 0] [.real 0x3fe0000000000000#64] =
    .ok ([0x20#8, 0x20#8, 0x20#8, 0x20#8, 0x2b#8, 0x30#8, 0x2e#8, 0x35#8, 0, 0x55#8], 9) := by decide +kernel

/-- Zero has no decimals, and a negative zero no sign. -/
example : snprintf f64 (List.replicate 4 0x55#8) 4 [0x25#8, 0x66#8, 0] [.real 0#64] = .ok ([0x30#8, 0, 0x55#8, 0x55#8], 2) ∧
    snprintf f64 (List.replicate 4 0x55#8) 4 [0x25#8, 0x66#8, 0] [.real 0x8000000000000000#64] = .ok ([0x30#8, 0, 0x55#8, 0x55#8], 2) := by decide +kernel

example : snprintf f64 (List.replicate 12 0x55#8) 12 [0x25#8, 0x66#8, 0] [.real 0x3fb9999999999999#64] =
    .ok ([0x30#8, 0x2e#8, 0x30#8, 0x31#8, 0x30#8, 0x30#8, 0x30#8, 0x30#8, 0x30#8, 0, 0x55#8, 0x55#8], 10) := (C127_ten [] _ (by decide) 12 (by decide)).2

/-- Infinity. -/
example : snprintf f64 [0x55#8] 1 [0x25#8, 0x66#8, 0] [.real 0x7ff0000000000000#64] = .error .ub :=
  C127_undefined (d := { conv := .f }) (w := none) (p := none) ⟨by simp, by simp⟩ [] rfl rfl
    (by intro q h; have : F64.ofBits 0x7ff0000000000000#64 = .inf false := by decide +kernel
        rw [this] at h; cases h) _ (by simp) 1 (by decide)

/-- One half with 18 decimals. -/
example : ∃ e, snprintf f64 (List.replicate 30 0#8) 30 [0x25#8, 0x2e#8, 0x31#8, 0x38#8, 0x66#8, 0] [.real 0x3fe0000000000000#64] = .error e := by
  rw [show [0x25#8, 0x2e#8, 0x31#8, 0x38#8, 0x66#8, 0] = spellRealDirective { precision := .num 18, conv := .f } ++ 0 :: [] by decide +kernel]
  exact C127_many_decimals (d := { precision := .num 18, conv := .f }) (w := none) (p := 18) ⟨by simp, by intro n hn; cases hn; decide⟩ [] rfl rfl (by decide) (by decide +kernel) _ 30 (by decide)

/-- `C127_near` applies to 1/10, which is not `Printable 6`. -/
example : ∃ vs : List Nat, vs.length = 6 ∧ (∀ v ∈ vs, v < 12) ∧ |(|(3602879701896397 / 36028797018963968 : ℚ)| - ⌊|(3602879701896397 / 36028797018963968 : ℚ)|⌋) - valueOf vs| < 1 / 10 ^ 6 + F64.pow2 (-46) := by
  obtain ⟨vs, h1, h2, h3, -⟩ := C127_near (d := { conv := .f }) (w := none) (p := none) (b := 0x3fb999999999999a#64) (q := 3602879701896397 / 36028797018963968) (args2 := []) ⟨by simp, by simp⟩ [] rfl rfl
    (by decide +kernel) (by rw [abs_of_pos (by norm_num)]; norm_num [F64.pow2_eq]) (by decide)
  exact ⟨vs, h1, h2, h3⟩

end Examples

end Zpl.PrintReal
