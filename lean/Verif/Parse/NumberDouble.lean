import Verif.Parse.NumberReal
import Verif.Str.ReadReal

/-!
# Real numbers in documents (code/source/adt.c:353-564)  -  C129

The parameter `Reals` of Parse/Number with the arithmetic of Math/Double, `zpl_str_to_f64` of Str/ReadReal and `%f` of Str/PrintReal.

## Model -/

namespace Zpl.Number

open Zpl Zpl.Str Zpl.Print Zpl.Fprintf

/-- adt.c:439, 447 `zpl_f32 eb = 10`, `eb = 0.1f`: the single precision number nearest to 0.1. -/
def tenth : ℚ := 13421773 / 134217728

/-- adt.c:465 `zpl_str_to_f64(buf, 0)`, adt.c:488 `node->real *= eb`, adt.c:557 `zpl_fprintf(file, "%f", node->real)`. -/
def doubles : Reals F64 where
  read s := do
    let (x, _) ← ReadReal.strToF64 s
    .ok x
  scale neg r := F64.mul r (.fin (if neg then tenth else 10))
  print o r := fprintf PrintReal.f64 o [0x25#8, 0x66#8, 0] [.real (F64.toBits r)]

/-! ## Lemmas -/

def Sign.sgn : Sign → ReadReal.Sgn
  | .none => .none | .plus => .plus | .minus => .minus

theorem spelled_length {q : ℚ} (h : |q| < F64.pow2 64) {vs : List Nat} (hl : vs.length = 6) (hv : ∀ v ∈ vs, v < 12) : (PrintReal.spelled false false 6 q vs).length ≤ 40 := by
  have hn : ⌊|q|⌋.toNat < 2 ^ 64 := by
    have h1 : (⌊|q|⌋ : ℚ) < ((2 ^ 64 : ℤ) : ℚ) := lt_of_le_of_lt (Int.floor_le _) (lt_of_lt_of_eq h (by norm_num [F64.pow2_eq]))
    have h2 : ⌊|q|⌋ < 2 ^ 64 := by exact_mod_cast h1
    omega
  have h1 : (numeral false 10 ⌊|q|⌋.toNat).length ≤ 20 := by
    rw [numeral, List.length_map]
    exact digits_length (by decide) 20 _ (by decide) (by omega)
  have h2 : ∀ vs : List Nat, (∀ v ∈ vs, v < 12) → (vs.flatMap (numeral false 10)).length ≤ 2 * vs.length := by
    intro vs
    induction vs with
    | nil => intro _; simp
    | cons v vs ih =>
      intro h
      have h3 := ih fun x hx => h x (by simp [hx])
      have h4 : (numeral false 10 v).length ≤ 2 := by
        rw [numeral, List.length_map]
        have := h v (by simp)
        exact digits_length (by decide) 2 _ (by decide) (by omega)
      rw [List.flatMap_cons, List.length_append, List.length_cons]
      omega
  have h3 := h2 vs hv
  unfold PrintReal.spelled
  split
  · simp
  · rw [if_pos (show false = true ∨ 0 < 6 from .inr (by decide))]
    have h5 : (if q < 0 then [0x2d#8] else if false = true then [0x2b#8] else []).length ≤ 1 := by split <;> simp
    simp only [List.length_append, List.length_cons]
    omega

/-- `%f` of a number, with the decimals as they are computed. -/
theorem print_values {o : Out} (ho : o.Ok) {q : ℚ} (hq : F64.Representable q) (h64 : |q| < F64.pow2 64) {vs : List Nat} (hv : PrintReal.values 6 10 (.fin (|q| - ⌊|q|⌋)) = .ok vs) :
    Appends o (PrintReal.spelled false false 6 q vs) (doubles.print o (.fin q)) := by
  have hfr0 : 0 ≤ |q| - ⌊|q|⌋ := by linarith [Int.floor_le |q|]
  have hfr1 : |q| - ⌊|q|⌋ < 1 := by linarith [Int.lt_floor_add_one |q|]
  obtain ⟨vs', e, hl, hlt, -⟩ := PrintReal.values_ok 6 (j := 0) (by omega) (a := |q| - ⌊|q|⌋) (s := 0) (le_refl _) (by simp) (by linarith) (by rw [pow_zero]; linarith)
  have e' : PrintReal.values 6 10 (.fin (|q| - ⌊|q|⌋)) = .ok vs' := by simpa using e
  rw [hv] at e'
  injection e' with e'
  subst e'
  have hlen := spelled_length h64 hl hlt
  generalize hs : PrintReal.spelled false false 6 q vs = s at hlen ⊢
  have hg : PrintReal.padded (decide (Flag.zero ∈ ([] : List Flag) ∧ (Count.none : Count) = .none)) ((none : Option Int).getD 0).natAbs
      (PrintReal.spelled (decide (Flag.minus ∈ ([] : List Flag) ∨ (none : Option Int).getD 0 < 0)) (decide (Flag.alt ∈ ([] : List Flag))) ((none : Option Nat).getD 6) q vs) = s := by
    have e : PrintReal.spelled (decide (Flag.minus ∈ ([] : List Flag) ∨ (none : Option Int).getD 0 < 0)) (decide (Flag.alt ∈ ([] : List Flag))) ((none : Option Nat).getD 6) q vs = s := hs
    rw [e, PrintReal.padded]
    simp
  have h := PrintReal.one_ok (d := { conv := .f }) (w := none) (p := none) (args := [.real (F64.toBits (.fin q))]) ⟨by simp, by simp⟩ [] rfl rfl (F64.ofBits_toBits hq) h64 hv hg o.buf maxLen
    (by unfold maxLen; omega) (by rw [ho.1]; unfold maxLen; omega)
  have hb := ho.1
  have hb2 := ho.2
  unfold maxLen at hb hb2
  refine ⟨⟨s ++ 0 :: o.buf.drop (s.length + 1), o.out ++ s⟩, ?_, ⟨?_, ?_⟩, rfl⟩
  · change fprintf PrintReal.f64 o (PrintReal.spellRealDirective { conv := .f } ++ 0 :: []) [.real (F64.toBits (.fin q))] = _
    rw [fprintf, h, except_ok_bind]
    dsimp only
    rw [if_neg (by omega), show (((s.length + 1 : Nat) : Int) - 1).toNat = s.length by omega]
    simp
  · simp only [List.length_append, List.length_cons, List.length_drop]
    unfold maxLen
    omega
  · unfold maxLen
    rw [List.getElem?_append_right (by omega), show 65536 - 1 - s.length = (65536 - 1 - s.length - 1) + 1 by omega, List.getElem?_cons_succ, List.getElem?_drop,
      show s.length + 1 + (65536 - 1 - s.length - 1) = 65536 - 1 by omega]
    exact hb2

/-- The decimals of any number can be computed. -/
theorem values_exist (q : ℚ) : ∃ vs, PrintReal.values 6 10 (.fin (|q| - ⌊|q|⌋)) = .ok vs := by
  have hfr0 : 0 ≤ |q| - ⌊|q|⌋ := by linarith [Int.floor_le |q|]
  have hfr1 : |q| - ⌊|q|⌋ < 1 := by linarith [Int.lt_floor_add_one |q|]
  obtain ⟨vs, e, -⟩ := PrintReal.values_ok 6 (j := 0) (by omega) (a := |q| - ⌊|q|⌋) (s := 0) (le_refl _) (by simp) (by linarith) (by rw [pow_zero]; linarith)
  exact ⟨vs, by simpa using e⟩

/-- A number made by a program, without any of the notes that the reader leaves. -/
def plainReal (q : ℚ) : Num F64 := { val := .real (.fin q) }

theorem cells_eq {s : List Byte} (h : s.length < 48) : cells 48 s = s ++ 0 :: List.replicate (47 - s.length) 0 := by
  unfold cells
  obtain ⟨k, hk⟩ : ∃ k, 48 - s.length = k + 1 := ⟨47 - s.length, by omega⟩
  rw [hk, List.replicate_succ, show k = 47 - s.length by omega]

/-- What `zpl_str_to_f64` makes of the buffer. -/
theorem read_buffer {s : Sign} {ds fs : List Nat} (hd : ∀ d ∈ ds, d < 10) (hf : ∀ d ∈ fs, d < 10) (hn : ds ≠ []) (hv : Zpl.Num.value 10 ds < 2 ^ 53)
    (hl : ds.length + fs.length ≤ 45) (hfl : fs.length ≤ 22) :
    ∃ m : ℚ, doubles.read (cells 48 (s.text ++ decimal ds ++ 0x2e#8 :: decimal fs)) = .ok (.fin ((if s = .minus then -1 else 1) * m)) ∧ F64.rounded m = m ∧
      |m - (Zpl.Num.value 10 ds + PrintReal.valueOf fs)| ≤ fs.length * (Zpl.Num.value 10 ds + 2) * F64.pow2 (-52) := by
  have hlen : (s.text ++ decimal ds ++ 0x2e#8 :: decimal fs).length < 48 := by
    have : s.text.length ≤ 1 := by cases s <;> simp [Sign.text]
    simp only [List.length_append, List.length_cons, decimal_length]
    omega
  have hd' : ({ sgn := s.sgn, whole := ds, frac := some fs } : ReadReal.Decimal).Valid := by
    refine ⟨hd, ?_, .inl hn, by simp⟩
    intro gs h
    injection h with h
    subst h
    exact hf
  obtain ⟨m, h1, h2, h3⟩ := ReadReal.C128_reads hd' hv hfl (Nat.zero_le _) (sp := []) (by simp) (c := 0) ⟨by decide, fun _ => ⟨by decide, by decide, fun _ => by decide⟩⟩
    (List.replicate (47 - (s.text ++ decimal ds ++ 0x2e#8 :: decimal fs).length) 0)
  refine ⟨m, ?_, h2, ?_⟩
  · have ht : ({ sgn := s.sgn, whole := ds, frac := some fs } : ReadReal.Decimal).text = s.text ++ decimal ds ++ 0x2e#8 :: decimal fs := by
      unfold ReadReal.Decimal.text ReadReal.fracText ReadReal.expText
      rw [List.append_nil, ← List.append_assoc]
      cases s <;> rfl
    rw [List.nil_append, ht, ← cells_eq hlen] at h3
    have hsm : ({ sgn := s.sgn, whole := ds, frac := some fs } : ReadReal.Decimal).small = false := rfl
    have hex : ({ sgn := s.sgn, whole := ds, frac := some fs } : ReadReal.Decimal).exponent = 0 := rfl
    rw [hsm, hex, if_neg Bool.false_ne_true, pow_zero, mul_one, h2] at h3
    have hsg : (if s.sgn = .minus then (-1 : ℚ) else 1) = if s = .minus then -1 else 1 := by cases s <;> rfl
    change (ReadReal.strToF64 _ >>= fun x => _) = _
    rw [h3, except_ok_bind]
    dsimp only
    rw [hsg]
  · rw [ReadReal.mantissa_eq] at h1
    exact h1

/-! ## C129 -/

/-- A number with a fraction is read with an error of at most `n (V + 2) 2^-52`, where `n` is the number of digits behind the point and `V` the whole part. -/
theorem C129_read (s : Sign) {ds fs : List Nat} (hd : ∀ d ∈ ds, d < 10) (hf : ∀ d ∈ fs, d < 10) (hn : ds ≠ []) (hn' : fs ≠ []) (hv : Zpl.Num.value 10 ds < 2 ^ 53)
    (hl : ds.length + fs.length ≤ 45) (hfl : fs.length ≤ 18) {c : Byte} (hc : Chars.isDigit c = false ∧ c ≠ 0x2e#8 ∧ c ≠ 0x65#8 ∧ c ≠ 0x45#8) (rest : List Byte) :
    ∃ (n : Num F64) (x : ℚ), parseNumber doubles (s.text ++ (decimal ds ++ 0x2e#8 :: (decimal fs ++ c :: rest))) = .ok (some n, s.text.length + (ds.length + (fs.length + 1))) ∧
      n.val = .real (.fin x) ∧ n.props = .none ∧
      |x - (if s = .minus then -1 else 1) * (Zpl.Num.value 10 (ds ++ fs) / 10 ^ fs.length)| ≤ fs.length * (Zpl.Num.value 10 ds + 2) * F64.pow2 (-52) := by
  obtain ⟨m, h1, h2, h3⟩ := read_buffer (s := if s = .minus then .minus else .none) hd hf hn hv hl (by omega)
  have hvf : Zpl.Num.value 10 fs < 2 ^ 63 := by
    refine lt_of_lt_of_le (value_lt hf) ?_
    calc 10 ^ fs.length ≤ 10 ^ 18 := Nat.pow_le_pow_right (by decide) hfl
      _ ≤ 2 ^ 63 := by decide
  have h := parse_real doubles s hd hf hn hn' (by omega) hvf hl h1 (x := .none) trivial (c := c) ⟨hc.1, hc.2⟩ rest
  refine ⟨_, _, h, rfl, rfl, ?_⟩
  have hm := ReadReal.mantissa_eq { whole := ds, frac := some fs }
  have hm' : (Zpl.Num.value 10 (ds ++ fs) : ℚ) / 10 ^ fs.length = Zpl.Num.value 10 ds + PrintReal.valueOf fs := hm
  rw [hm']
  by_cases hs : s = .minus
  · rw [if_pos hs, if_pos rfl, if_pos hs, ← mul_sub, abs_mul]
    simpa using h3
  · rw [if_neg hs, if_neg (by decide), if_neg hs, ← mul_sub, abs_mul]
    simpa using h3

/-- A real number that a program has put into a node is written with six decimals, further ones dropped; zero is written as `0`. -/
theorem C129_write_partial {o : Out} (ho : o.Ok) {q : ℚ} (hq : F64.Representable q) (hp : PrintReal.Printable 6 q) :
    Appends o (PrintReal.decimal false false 6 q) (printNumber doubles PrintReal.f64 o (plainReal q)) := by
  obtain ⟨vs, e1, e2⟩ := PrintReal.printable_spelled hp
  rw [← e2 false false]
  exact print_values ho hq hp.1 e1

theorem printed_parts {q : ℚ} (h0 : q ≠ 0) : PrintReal.decimal false false 6 q = (if q < 0 then Sign.minus else .none).text ++
    (decimal (digits 10 ⌊|q|⌋.toNat) ++ 0x2e#8 :: decimal (ReadReal.lastNums 6 ⌊|q| * 10 ^ 6⌋.toNat)) := by
  rw [← ReadReal.printed_text]
  have hf : (ReadReal.printed 6 q).frac = some (ReadReal.lastNums 6 ⌊|q| * 10 ^ 6⌋.toNat) := if_pos ⟨h0, by decide⟩
  have hs : (ReadReal.printed 6 q).sgn.text = (if q < 0 then Sign.minus else .none).text := by
    unfold ReadReal.printed
    dsimp only
    split <;> rfl
  unfold ReadReal.Decimal.text
  rw [hf, hs]
  unfold ReadReal.fracText
  have he : ReadReal.expText (ReadReal.printed 6 q).exp = [] := rfl
  rw [he, List.append_nil]
  rfl

theorem parse_printed {q : ℚ} (h0 : q ≠ 0) (h53 : |q| < F64.pow2 53) {c : Byte} (hc : Chars.isDigit c = false ∧ c ≠ 0x2e#8 ∧ c ≠ 0x65#8 ∧ c ≠ 0x45#8) (rest : List Byte) :
    ∃ x, doubles.read (cells 48 (PrintReal.decimal false false 6 q)) = .ok (.fin x) ∧ |x - q| ≤ 1 / 10 ^ 6 + 6 * (|q| + 2) * F64.pow2 (-52) ∧ ((∃ n : ℤ, q = n) → x = q) ∧
      parseNumber doubles (PrintReal.decimal false false 6 q ++ c :: rest) =
        .ok (some (realOf doubles (if q < 0 then .minus else .none) (digits 10 ⌊|q|⌋.toNat) (ReadReal.lastNums 6 ⌊|q| * 10 ^ 6⌋.toNat) .none .none true (.fin x)),
          (PrintReal.decimal false false 6 q).length) := by
  have hpt := printed_parts h0
  have hw : Zpl.Num.value 10 (digits 10 ⌊|q|⌋.toNat) = ⌊|q|⌋.toNat := digits_value (by decide) _
  have hx := abs_nonneg q
  have hcast := ReadReal.floor_nat hx
  have hw53 : ⌊|q|⌋.toNat < 2 ^ 53 := by
    have h1 : ((⌊|q|⌋.toNat : ℕ) : ℚ) < 2 ^ 53 := by
      rw [hcast]
      refine lt_of_le_of_lt (Int.floor_le _) (lt_of_lt_of_eq h53 ?_)
      norm_num [F64.pow2_eq]
    exact_mod_cast h1
  obtain ⟨e1, e2, e3, e4, e5⟩ := decimal_digits ⌊|q|⌋.toNat (by omega)
  have hf := ReadReal.lastNums_lt 6 ⌊|q| * 10 ^ 6⌋.toNat
  have hfl := ReadReal.lastNums_length 6 ⌊|q| * 10 ^ 6⌋.toNat
  generalize ReadReal.lastNums 6 ⌊|q| * 10 ^ 6⌋.toNat = fs at *
  have hvf : Zpl.Num.value 10 fs < 2 ^ 63 := by
    refine lt_of_lt_of_le (value_lt hf) ?_
    rw [hfl]
    decide
  have hlen : (PrintReal.decimal false false 6 q).length < 48 := by
    have : (if q < 0 then Sign.minus else .none).text.length ≤ 1 := by split <;> simp [Sign.text]
    rw [hpt]
    simp only [List.length_append, List.length_cons, decimal_length]
    omega
  obtain ⟨x, hx1, hx2⟩ := ReadReal.C128_print_read h53 (p := 6) (by decide) (List.replicate (47 - (PrintReal.decimal false false 6 q).length) 0)
  have hread : doubles.read (cells 48 (PrintReal.decimal false false 6 q)) = .ok (.fin x) := by
    rw [cells_eq hlen]
    change (ReadReal.strToF64 _ >>= fun x => _) = _
    rw [hx1]
    rfl
  refine ⟨x, hread, by exact_mod_cast hx2, ?_, ?_⟩
  · rintro ⟨n, rfl⟩
    have hn : |n| < 2 ^ 53 := by
      rw [show F64.pow2 53 = ((2 ^ 53 : ℤ) : ℚ) by norm_num [F64.pow2_eq]] at h53
      exact_mod_cast h53
    have := ReadReal.C128_print_read_whole hn (p := 6) (by decide) (List.replicate (47 - (PrintReal.decimal false false 6 n).length) 0)
    rw [hx1] at this
    injection this with this
    injection (Prod.mk.inj this).1
  · have hsg : (if (if q < 0 then Sign.minus else .none) = .minus then Sign.minus else .none) = if q < 0 then Sign.minus else .none := by split <;> rfl
    have h := parse_real doubles (if q < 0 then .minus else .none) e2 hf e3 (by intro h; rw [h] at hfl; cases hfl) (by rw [hw]; omega) hvf (by omega) (r := .fin x) (by
      rw [hsg, List.append_assoc, ← hpt]
      exact hread) (x := .none) trivial (c := c) ⟨hc.1, hc.2⟩ rest
    rw [hsg] at h
    have hA : PrintReal.decimal false false 6 q ++ c :: rest = (if q < 0 then Sign.minus else .none).text ++ (decimal (digits 10 ⌊|q|⌋.toNat) ++ 0x2e#8 :: (decimal fs ++ (Exponent.none.text ++ c :: rest))) := by
      rw [hpt]
      simp [Exponent.text]
    rw [hA, h, hpt]
    simp only [List.length_append, List.length_cons, decimal_length, Exponent.text, List.length_nil, Nat.add_zero]

/-- What is written of such a number is read as a real number that is at most `10^-6 + 6 (|q| + 2) 2^-52` away; a whole number is read as it was. -/
theorem C129_write_read_partial {q : ℚ} (hq : F64.Representable q) (hp : PrintReal.Printable 6 q) (h0 : q ≠ 0) (h53 : |q| < F64.pow2 53) :
    ∃ (text : List Byte) (n : Num F64) (x : ℚ), (∀ o : Out, o.Ok → Appends o text (printNumber doubles PrintReal.f64 o (plainReal q))) ∧
      (∀ c rest, Chars.isDigit c = false ∧ c ≠ 0x2e#8 ∧ c ≠ 0x65#8 ∧ c ≠ 0x45#8 → parseNumber doubles (text ++ c :: rest) = .ok (some n, text.length)) ∧
      n.val = .real (.fin x) ∧ |x - q| ≤ 1 / 10 ^ 6 + 6 * (|q| + 2) * F64.pow2 (-52) ∧ ((∃ n : ℤ, q = n) → x = q) := by
  obtain ⟨x, h1, h2, h3, -⟩ := parse_printed h0 h53 (c := 0) (by decide) []
  refine ⟨_, realOf doubles (if q < 0 then .minus else .none) (digits 10 ⌊|q|⌋.toNat) (ReadReal.lastNums 6 ⌊|q| * 10 ^ 6⌋.toNat) .none .none true (.fin x), x,
    fun o ho => C129_write_partial ho hq hp, fun c rest hc => ?_, rfl, h2, h3⟩
  obtain ⟨x', h1', -, -, h4⟩ := parse_printed h0 h53 hc rest
  rw [h1] at h1'
  injection h1' with h1'
  injection h1' with h1'
  rw [h1']
  exact h4

/-- So a real number that is whole, not zero and has less than 32 bits, as the reader leaves it, keeps its value and its notes in documents: the assumption `Printable` of
`Json.C49_round_trip_partial` is met. -/
theorem C129_json_whole {k : ℤ} (h0 : k ≠ 0) (h31 : |k| < 2 ^ 31) :
    ∃ n : Num F64, n.val = .real (.fin k) ∧ Json.Printable (jsonIO doubles PrintReal.f64) n := by
  have hq0 : (k : ℚ) ≠ 0 := by exact_mod_cast h0
  have hkn : k.natAbs < 2 ^ 31 := by rw [Int.abs_eq_natAbs] at h31; omega
  have hrep : F64.Representable (k : ℚ) := ⟨k, 0, by omega, by norm_num, by norm_num, by norm_num [F64.pow2_eq]⟩
  have hlt : |(k : ℚ)| < 2 ^ 31 := by
    have : ((|k| : ℤ) : ℚ) < ((2 ^ 31 : ℤ) : ℚ) := by exact_mod_cast h31
    rw [Int.cast_abs] at this
    exact_mod_cast this
  have h53 : |(k : ℚ)| < F64.pow2 53 := by norm_num [F64.pow2_eq]; linarith
  have hp : PrintReal.Printable 6 (k : ℚ) := ⟨by norm_num [F64.pow2_eq]; linarith, by decide, .inr (.inl ⟨k, rfl⟩)⟩
  obtain ⟨x, h1, -, h3, -⟩ := parse_printed hq0 h53 (c := 0) (by decide) []
  have hxk := h3 ⟨k, rfl⟩
  subst hxk
  have hfl : ⌊|(k : ℚ)|⌋.toNat = k.natAbs := by
    rw [← Int.cast_abs, Int.floor_intCast, Int.abs_eq_natAbs, Int.toNat_natCast]
  refine ⟨realOf doubles (if (k : ℚ) < 0 then .minus else .none) (digits 10 ⌊|(k : ℚ)|⌋.toNat) (ReadReal.lastNums 6 ⌊|(k : ℚ)| * 10 ^ 6⌋.toNat) .none .none true (.fin k), rfl,
    PrintReal.decimal false false 6 k, ⟨?_, fun c r hc => ?_⟩, fun o ho => ?_⟩
  · obtain ⟨-, e2, e3, -⟩ := decimal_digits ⌊|(k : ℚ)|⌋.toNat (by rw [hfl]; omega)
    obtain ⟨c, u, e, hc⟩ := decimal_head e2 e3
    rw [printed_parts hq0, e]
    by_cases hneg : (k : ℚ) < 0
    · rw [if_pos hneg]
      exact ⟨_, _, rfl, .inr (.inr (.inr ⟨rfl, c, _, rfl, hc⟩))⟩
    · rw [if_neg hneg]
      exact ⟨c, _, rfl, .inl hc⟩
  · have hs := follow_stop hc
    have hk : ∀ c : Byte, Stop c → Chars.isDigit c = false ∧ c ≠ 0x2e#8 ∧ c ≠ 0x65#8 ∧ c ≠ 0x45#8 := by unfold Stop Run; decide +kernel
    obtain ⟨x', h1', -, -, h4⟩ := parse_printed hq0 h53 (hk c hs) r
    rw [h1] at h1'
    injection h1' with h1'
    rw [h1']
    exact h4
  · obtain ⟨vs, e1, e2⟩ := PrintReal.printable_spelled hp
    rw [← e2 false false]
    have hb : toI32 ((if (k : ℚ) < 0 then Sign.minus else .none).apply (Zpl.Num.value 10 (digits 10 ⌊|(k : ℚ)|⌋.toNat))) = k := by
      rw [digits_value (by decide), hfl]
      by_cases hneg : (k : ℚ) < 0
      · have : k < 0 := by exact_mod_cast hneg
        rw [if_pos hneg, Sign.apply, if_pos rfl, toI32_id (by omega) (by omega)]
        omega
      · have : ¬ k < 0 := by exact_mod_cast hneg
        rw [if_neg hneg, Sign.apply, if_neg (by decide), toI32_id (by omega) (by omega)]
        omega
    have hnz : (realOf doubles (if (k : ℚ) < 0 then .minus else .none) (digits 10 ⌊|(k : ℚ)|⌋.toNat) (ReadReal.lastNums 6 ⌊|(k : ℚ)| * 10 ^ 6⌋.toNat) .none .none true (.fin k)).negZero = false := by
      unfold realOf
      dsimp only
      rw [hb]
      simp [h0]
    change Appends _ _ (printNumber _ _ _ _)
    rw [printNumber, hnz, if_neg (by decide), except_ok_bind]
    exact print_values ho hrep hp.1 e1

/-! ### Deviations -/

/-- The real number zero is written as `0` and read as an integer. -/
theorem C129_zero_becomes_integer : (∀ o : Out, o.Ok → Appends o [0x30#8] (printNumber doubles PrintReal.f64 o (plainReal 0))) ∧
    ∀ c r, Stop c → ∃ n, parseNumber doubles (0x30#8 :: c :: r) = .ok (some n, 1) ∧ n.val = .int 0 := by
  constructor
  · intro o ho
    have h := C129_write_partial ho (q := 0) ⟨0, 0, by norm_num, by norm_num, by norm_num, by norm_num⟩ ⟨by norm_num [F64.pow2_eq], by decide, .inr (.inl ⟨0, rfl⟩)⟩
    have e : PrintReal.decimal false false 6 0 = [0x30#8] := by decide +kernel
    rwa [e] at h
  · intro c r hc
    obtain ⟨n, h1, h2, -⟩ := C88_decimal_partial doubles .none (ds := [0]) (by simp) (by simp) (by decide) (by decide) hc r
    exact ⟨n, h1, h2⟩

/-- A number with the fraction 1/4 is written with the decimals 249999. -/
theorem C129_quarter {n : Nat} (hn : n < 2 ^ 50) :
    (∀ o : Out, o.Ok → Appends o (numeral false 10 n ++ [0x2e#8, 0x32#8, 0x34#8, 0x39#8, 0x39#8, 0x39#8, 0x39#8]) (printNumber doubles PrintReal.f64 o (plainReal (n + 1 / 4)))) ∧
    ∀ c rest, Chars.isDigit c = false ∧ c ≠ 0x2e#8 ∧ c ≠ 0x65#8 ∧ c ≠ 0x45#8 →
      ∃ m x, parseNumber doubles (numeral false 10 n ++ [0x2e#8, 0x32#8, 0x34#8, 0x39#8, 0x39#8, 0x39#8, 0x39#8] ++ c :: rest) = .ok (some m, (numeral false 10 n).length + 7) ∧ m.val = .real (.fin x) ∧
        (n < 2 ^ 20 → x < n + 1 / 4) := by
  have hpos : (0 : ℚ) < n + 1 / 4 := by positivity
  have hnq : (n : ℚ) < 2 ^ 50 := by exact_mod_cast hn
  have habs : |(n : ℚ) + 1 / 4| = n + 1 / 4 := abs_of_pos hpos
  have hfl : ⌊(n : ℚ) + 1 / 4⌋ = n := by
    rw [Int.floor_eq_iff]
    constructor
    · push_cast; linarith
    · push_cast; linarith
  have hv : PrintReal.values 6 10 (.fin (1 / 4)) = .ok [2, 4, 9, 9, 9, 9] := by decide +kernel
  constructor
  · intro o ho
    have hrep : F64.Representable ((n : ℚ) + 1 / 4) := by
      refine ⟨4 * n + 1, -2, ?_, by norm_num, by norm_num, by norm_num [F64.pow2_eq]; ring⟩
      rw [abs_of_nonneg (by positivity)]
      omega
    have hs : PrintReal.spelled false false 6 (n + 1 / 4) [2, 4, 9, 9, 9, 9] = numeral false 10 n ++ [0x2e#8, 0x32#8, 0x34#8, 0x39#8, 0x39#8, 0x39#8, 0x39#8] := by
      rw [PrintReal.spelled, if_neg (ne_of_gt hpos), if_neg (not_lt.2 hpos.le), habs, hfl, if_neg (by decide), if_pos (by decide), List.nil_append, Int.toNat_natCast]
      congr 1
      decide +kernel
    rw [← hs]
    refine print_values ho hrep ?_ ?_
    · rw [habs]
      norm_num [F64.pow2_eq]
      linarith
    · rw [habs, hfl, show (n : ℚ) + 1 / 4 - ((n : ℤ) : ℚ) = 1 / 4 by push_cast; ring]
      exact hv
  · intro c rest hc
    obtain ⟨e1, e2, e3, e4, e5⟩ := decimal_digits n (by omega)
    obtain ⟨m, x, h1, h2, -, h3⟩ := C129_read .none (ds := digits 10 n) (fs := [2, 4, 9, 9, 9, 9]) e2 (by simp) e3 (by simp) (by rw [e4]; omega) (by simp; omega) (by decide) hc rest
    refine ⟨m, x, ?_, h2, fun hn20 => ?_⟩
    · have : numeral false 10 n ++ [0x2e#8, 0x32#8, 0x34#8, 0x39#8, 0x39#8, 0x39#8, 0x39#8] ++ c :: rest = Sign.none.text ++ (decimal (digits 10 n) ++ 0x2e#8 :: (decimal [2, 4, 9, 9, 9, 9] ++ c :: rest)) := by
        rw [e1, List.append_assoc]
        rfl
      rw [this, h1, e1, decimal_length]
      simp [Sign.text]
    · have hm := ReadReal.mantissa_eq { whole := digits 10 n, frac := some [2, 4, 9, 9, 9, 9] }
      have hm' : (Zpl.Num.value 10 (digits 10 n ++ [2, 4, 9, 9, 9, 9]) : ℚ) / 10 ^ [2, 4, 9, 9, 9, 9].length = Zpl.Num.value 10 (digits 10 n) + PrintReal.valueOf [2, 4, 9, 9, 9, 9] := hm
      have hval : PrintReal.valueOf [2, 4, 9, 9, 9, 9] = 249999 / 1000000 := by norm_num [PrintReal.valueOf]
      rw [hm', hval, e4, if_neg (by decide), one_mul] at h3
      have hn2 : (n : ℚ) < 2 ^ 20 := by exact_mod_cast hn20
      have hu : F64.pow2 (-52) = 1 / 2 ^ 52 := by norm_num [F64.pow2_eq]
      rw [hu] at h3
      have hl6 : (([2, 4, 9, 9, 9, 9] : List Nat).length : ℚ) = 6 := by norm_num
      rw [hl6] at h3
      have := (abs_le.1 h3).2
      norm_num at this ⊢
      linarith

/-- A document that is read and written again and again can lose a millionth each time: `1.20` is written as `1.199999`, and this as `1.199998`. -/
theorem C129_drifts : ∃ n1 n2 : Num F64,
    (∀ r, parseNumber doubles ([0x31#8, 0x2e#8, 0x32#8, 0x30#8] ++ 0x5d#8 :: r) = .ok (some n1, 4)) ∧
    (∀ o : Out, o.Ok → Appends o [0x31#8, 0x2e#8, 0x31#8, 0x39#8, 0x39#8, 0x39#8, 0x39#8, 0x39#8] (printNumber doubles PrintReal.f64 o n1)) ∧
    (∀ r, parseNumber doubles ([0x31#8, 0x2e#8, 0x31#8, 0x39#8, 0x39#8, 0x39#8, 0x39#8, 0x39#8] ++ 0x5d#8 :: r) = .ok (some n2, 8)) ∧
    ∀ o : Out, o.Ok → Appends o [0x31#8, 0x2e#8, 0x31#8, 0x39#8, 0x39#8, 0x39#8, 0x39#8, 0x38#8] (printNumber doubles PrintReal.f64 o n2) := by
  have key : ∀ (fs out : List Nat) (m : ℤ), (∀ d ∈ fs, d < 10) → fs ≠ [] → fs.length ≤ 6 → doubles.read (cells 48 (Sign.none.text ++ decimal [1] ++ 0x2e#8 :: decimal fs)) = .ok (.fin (1 + m / 2 ^ 52)) →
      |m| < 2 ^ 52 → 0 < m → PrintReal.values 6 10 (.fin (m / 2 ^ 52)) = .ok out →
      (∀ r, parseNumber doubles (0x31#8 :: 0x2e#8 :: decimal fs ++ 0x5d#8 :: r) = .ok (some (realOf doubles .none [1] fs .none .none true (.fin (1 + m / 2 ^ 52))), fs.length + 2)) ∧
      ∀ o : Out, o.Ok → Appends o (0x31#8 :: 0x2e#8 :: out.flatMap (numeral false 10)) (printNumber doubles PrintReal.f64 o (realOf doubles .none [1] fs .none .none true (.fin (1 + m / 2 ^ 52)))) := by
    intro fs out m hf hn hl hr hm hm0 hv
    constructor
    · intro r
      have hvf : Zpl.Num.value 10 fs < 2 ^ 63 := by
        refine lt_of_lt_of_le (value_lt hf) ?_
        calc 10 ^ fs.length ≤ 10 ^ 18 := Nat.pow_le_pow_right (by decide) (by omega)
          _ ≤ 2 ^ 63 := by decide
      have h := parse_real doubles .none (ds := [1]) (by simp) hf (by simp) hn (by decide) hvf (by simp; omega) hr (x := .none) trivial (c := 0x5d#8) ⟨by decide, by decide, by decide, by decide⟩ r
      refine h.trans ?_
      congr 2
      simp [Sign.text, Exponent.text]
      omega
    · intro o ho
      have h0 : (0 : ℚ) < m := by exact_mod_cast hm0
      have h1 : (m : ℚ) < 2 ^ 52 := by
        have := (abs_lt.1 hm).2
        exact_mod_cast this
      have hpos : (0 : ℚ) < 1 + m / 2 ^ 52 := by positivity
      have habs : |(1 : ℚ) + m / 2 ^ 52| = (1 : ℚ) + m / 2 ^ 52 := abs_of_pos hpos
      have hlt : (m : ℚ) / 2 ^ 52 < 1 := by rw [div_lt_one (by positivity)]; exact h1
      have hge : (0 : ℚ) < m / 2 ^ 52 := by positivity
      have hfl : ⌊(1 : ℚ) + m / 2 ^ 52⌋ = 1 := by
        rw [Int.floor_eq_iff]
        constructor
        · push_cast; linarith
        · push_cast; linarith
      have hrep : F64.Representable ((1 : ℚ) + m / 2 ^ 52) := by
        refine ⟨2 ^ 52 + m, -52, ?_, by norm_num, by norm_num, by norm_num [F64.pow2_eq]; ring⟩
        rw [abs_lt] at hm ⊢
        constructor <;> omega
      have hs : PrintReal.spelled false false 6 (1 + m / 2 ^ 52) out = 0x31#8 :: 0x2e#8 :: out.flatMap (numeral false 10) := by
        rw [PrintReal.spelled, if_neg (ne_of_gt hpos), if_neg (not_lt.2 hpos.le), habs, hfl, if_neg (by decide), if_pos (by decide), List.nil_append]
        have : numeral false 10 (1 : ℤ).toNat = [0x31#8] := by decide +kernel
        rw [this]
        rfl
      rw [← hs]
      exact print_values ho hrep (by rw [habs]; norm_num [F64.pow2_eq]; linarith) (by
        rw [habs, hfl, show (1 : ℚ) + m / 2 ^ 52 - ((1 : ℤ) : ℚ) = m / 2 ^ 52 by push_cast; ring]
        exact hv)
  have r1 : doubles.read (cells 48 (Sign.none.text ++ decimal [1] ++ 0x2e#8 :: decimal [2, 0])) = .ok (.fin (1 + ((900719925474099 : ℤ) : ℚ) / 2 ^ 52)) := by decide +kernel
  have v1 : PrintReal.values 6 10 (.fin (((900719925474099 : ℤ) : ℚ) / 2 ^ 52)) = .ok [1, 9, 9, 9, 9, 9] := by decide +kernel
  have r2 : doubles.read (cells 48 (Sign.none.text ++ decimal [1] ++ 0x2e#8 :: decimal [1, 9, 9, 9, 9, 9])) = .ok (.fin (1 + ((900715421874471 : ℤ) : ℚ) / 2 ^ 52)) := by decide +kernel
  have v2 : PrintReal.values 6 10 (.fin (((900715421874471 : ℤ) : ℚ) / 2 ^ 52)) = .ok [1, 9, 9, 9, 9, 8] := by decide +kernel
  obtain ⟨a1, b1⟩ := key [2, 0] _ 900719925474099 (by simp) (by simp) (by simp) r1 (by norm_num) (by norm_num) v1
  obtain ⟨a2, b2⟩ := key [1, 9, 9, 9, 9, 9] _ 900715421874471 (by simp) (by simp) (by simp) r2 (by norm_num) (by norm_num) v2
  have o1 : ([1, 9, 9, 9, 9, 9] : List Nat).flatMap (numeral false 10) = [0x31#8, 0x39#8, 0x39#8, 0x39#8, 0x39#8, 0x39#8] := by decide +kernel
  have o2 : ([1, 9, 9, 9, 9, 8] : List Nat).flatMap (numeral false 10) = [0x31#8, 0x39#8, 0x39#8, 0x39#8, 0x39#8, 0x38#8] := by decide +kernel
  rw [o1] at b1
  rw [o2] at b2
  exact ⟨_, _, a1, b1, a2, b2⟩

theorem representable_neg {q : ℚ} (h : F64.Representable q) : F64.Representable (-q) := by
  obtain ⟨m, e, h1, h2, h3, h4⟩ := h
  exact ⟨-m, e, by rwa [abs_neg], h2, h3, by rw [h4]; push_cast; ring⟩

theorem valueOf_pos {fs : List Nat} (h : ∃ d ∈ fs, d ≠ 0) : 1 / 10 ^ fs.length ≤ PrintReal.valueOf fs := by
  induction fs with
  | nil => obtain ⟨d, hd, -⟩ := h; cases hd
  | cons f fs ih =>
    have hnn : ∀ gs : List Nat, 0 ≤ PrintReal.valueOf gs := by
      intro gs
      induction gs with
      | nil => exact le_refl _
      | cons g gs ih => rw [PrintReal.valueOf]; positivity
    rw [PrintReal.valueOf, List.length_cons, pow_succ, ← div_div]
    by_cases hf : f = 0
    · obtain ⟨d, hd, hd0⟩ := h
      rcases List.mem_cons.1 hd with rfl | hd
      · exact absurd hf hd0
      · have := ih ⟨d, hd, hd0⟩
        have : (0 : ℚ) ≤ f := by positivity
        gcongr
        linarith
    · have h1 : (1 : ℚ) ≤ f := by exact_mod_cast Nat.one_le_iff_ne_zero.2 hf
      have h2 : (1 : ℚ) / 10 ^ fs.length ≤ 1 := by rw [div_le_one (by positivity)]; exact one_le_pow₀ (by norm_num)
      have := hnn fs
      gcongr
      linarith

/-- A number between -1 and 0 that was read is written with two minus signs, and this is no number any more. -/
theorem C129_minus_doubled {fs : List Nat} (hf : ∀ d ∈ fs, d < 10) (hl : fs.length ≤ 14) (hnz : ∃ d ∈ fs, d ≠ 0) :
    ∃ n : Num F64, (∀ c rest, Chars.isDigit c = false ∧ c ≠ 0x2e#8 ∧ c ≠ 0x65#8 ∧ c ≠ 0x45#8 →
        parseNumber doubles (0x2d#8 :: 0x30#8 :: 0x2e#8 :: (decimal fs ++ c :: rest)) = .ok (some n, fs.length + 3)) ∧
      ∃ t, (∀ o : Out, o.Ok → Appends o (0x2d#8 :: 0x2d#8 :: t) (printNumber doubles PrintReal.f64 o n)) ∧ ∀ r, parseNumber doubles (0x2d#8 :: 0x2d#8 :: t ++ r) = .ok (none, 1) := by
  have hn : fs ≠ [] := by rintro rfl; obtain ⟨d, hd, -⟩ := hnz; cases hd
  obtain ⟨m, h1, h2, h3⟩ := read_buffer (s := .minus) (ds := [0]) (fs := fs) (by simp) hf (by simp) (by decide) (by simp; omega) (by omega)
  have hvp := valueOf_pos hnz
  obtain ⟨hv0, hv1⟩ := ReadReal.valueOf_bound hf
  have hu : F64.pow2 (-52) = 1 / 2 ^ 52 := by norm_num [F64.pow2_eq]
  have h0 : Zpl.Num.value 10 [0] = 0 := by decide
  rw [h0, Nat.cast_zero, zero_add, zero_add, hu] at h3
  have hlq : (fs.length : ℚ) ≤ 14 := by exact_mod_cast hl
  have h14 : (1 : ℚ) / 10 ^ 14 ≤ PrintReal.valueOf fs := by
    refine le_trans ?_ hvp
    exact one_div_le_one_div_of_le (by positivity) (pow_le_pow_right₀ (by norm_num) hl)
  have hE : (fs.length : ℚ) * 2 * (1 / 2 ^ 52) ≤ 14 * 2 * (1 / 2 ^ 52) := by gcongr
  have hE2 : (14 : ℚ) * 2 * (1 / 2 ^ 52) < 1 / 10 ^ 14 := by norm_num
  have hE3 : (1 : ℚ) / 10 ^ 14 < 1 := by norm_num
  rw [abs_le] at h3
  have hm0 : 0 < m := by linarith
  have hm2 : m < 2 := by linarith
  have hrep : F64.Representable m := by
    refine F64.round_representable (q := m) ?_
    rw [ReadReal.round_fin' (by
      rw [abs_of_pos hm0]
      refine hm2.le.trans (le_trans ?_ (F64.pow2_le (show (1 : ℤ) ≤ 1000 by norm_num)))
      norm_num [F64.pow2_eq]), h2]
  have hneg : -m < 0 := by linarith
  have hvf : Zpl.Num.value 10 fs < 2 ^ 63 := by
    refine lt_of_lt_of_le (value_lt hf) ?_
    calc 10 ^ fs.length ≤ 10 ^ 18 := Nat.pow_le_pow_right (by decide) (by omega)
      _ ≤ 2 ^ 63 := by decide
  rw [if_pos rfl, neg_one_mul] at h1
  refine ⟨realOf doubles .minus [0] fs .none .none true (.fin (-m)), fun c rest hc => ?_, ?_⟩
  · have h := parse_real doubles .minus (ds := [0]) (by simp) hf (by simp) hn (by decide) hvf (by simp; omega) h1 (x := .none) trivial (c := c) ⟨hc.1, hc.2⟩ rest
    refine h.trans ?_
    rw [if_pos rfl]
    congr 2
    simp [Sign.text, Exponent.text]
    omega
  · obtain ⟨vs, hvs⟩ := values_exist (-m)
    refine ⟨numeral false 10 ⌊|(-m)|⌋.toNat ++ 0x2e#8 :: vs.flatMap (numeral false 10), fun o ho => ?_, fun r => ?_⟩
    · have hs : PrintReal.spelled false false 6 (-m) vs = 0x2d#8 :: (numeral false 10 ⌊|(-m)|⌋.toNat ++ 0x2e#8 :: vs.flatMap (numeral false 10)) := by
        rw [PrintReal.spelled, if_neg (ne_of_lt hneg), if_pos hneg, if_pos (show false = true ∨ 0 < 6 from .inr (by decide))]
        simp
      have hnz : (realOf doubles .minus [0] fs .none .none true (.fin (-m))).negZero = true := by
        unfold realOf
        dsimp only
        rw [h0]
        decide
      rw [printNumber, hnz, if_pos rfl]
      refine Appends.bind (s := [0x2d#8]) (fprintf_lit _ ho (s := [0x2d#8]) (by simp [Literal]) [] [] (by decide)) fun o' ho' => ?_
      rw [← hs]
      exact print_values ho' (representable_neg hrep) (by rw [abs_neg, abs_of_pos hm0]; norm_num [F64.pow2_eq]; linarith) hvs
    · rfl

/-! ### Negative exponents -/

theorem tenth_step {v a : ℚ} (hv : 1 / 10 ^ 9 ≤ v) (hv2 : v ≤ 2 ^ 60) (ha : a ≤ v) (ha0 : 0 < a) :
    ∃ w, F64.mul (.fin v) (.fin tenth) = .fin w ∧ a / 10 * (1 + 1 / 10 ^ 8) ≤ w ∧ w ≤ v := by
  have ht : tenth = 13421773 / 134217728 := rfl
  have hv0 : 0 < v := lt_of_lt_of_le (by norm_num) hv
  have hp : 0 < v * tenth := by rw [ht]; positivity
  have hle : |v * tenth| ≤ F64.pow2 1000 := by
    rw [abs_of_pos hp]
    refine le_trans (b := F64.pow2 60) ?_ (F64.pow2_le (by norm_num))
    rw [show F64.pow2 60 = 2 ^ 60 by norm_num [F64.pow2_eq], ht]
    linarith
  refine ⟨F64.rounded (v * tenth), ReadReal.round_fin' hle, ?_, ?_⟩
  · have hB : F64.pow2 (-1022) ≤ v * tenth := by
      refine le_trans (F64.pow2_le (show (-1022 : ℤ) ≤ -100 by norm_num)) ?_
      have : F64.pow2 (-100) ≤ 1 / 10 ^ 9 * (1 / 16) := by norm_num [F64.pow2_eq]
      rw [ht]
      linarith
    have hr := F64.rounded_error (q := v * tenth) (B := v * tenth) (by rw [abs_of_pos hp]) hB
    have hu : F64.pow2 (-53) = 1 / 2 ^ 53 := by norm_num [F64.pow2_eq]
    rw [hu] at hr
    have := (abs_le.1 hr).1
    rw [ht] at this ⊢
    norm_num at this ⊢
    linarith
  · have hB : F64.pow2 (-1022) ≤ v * tenth := by
      refine le_trans (F64.pow2_le (show (-1022 : ℤ) ≤ -100 by norm_num)) ?_
      have : F64.pow2 (-100) ≤ 1 / 10 ^ 9 * (1 / 16) := by norm_num [F64.pow2_eq]
      rw [ht]
      linarith
    have hr := F64.rounded_error (q := v * tenth) (B := v * tenth) (by rw [abs_of_pos hp]) hB
    have hu : F64.pow2 (-53) = 1 / 2 ^ 53 := by norm_num [F64.pow2_eq]
    rw [hu] at hr
    have := (abs_le.1 hr).2
    rw [ht] at this ⊢
    norm_num at this ⊢
    linarith

theorem tenth_steps {v a : ℚ} (ha : 1 - 1 / 10 ^ 10 ≤ a) (hav : a ≤ v) (hv : v ≤ 2 ^ 60) : ∀ {x : Nat}, x ≤ 8 →
    ∃ w, Nat.repeat (doubles.scale true) x (.fin v) = .fin w ∧ a / 10 ^ x * (1 + 1 / 10 ^ 8) ^ x ≤ w ∧ w ≤ 2 ^ 60
  | 0, _ => ⟨v, rfl, by simpa using hav, hv⟩
  | x + 1, hx => by
    obtain ⟨w, h1, h2, h3⟩ := tenth_steps ha hav hv (x := x) (by omega)
    have ha0 : 0 < a := lt_of_lt_of_le (by norm_num) ha
    have hone : (1 : ℚ) ≤ (1 + 1 / 10 ^ 8) ^ x := one_le_pow₀ (by norm_num)
    have hlow : 1 / 10 ^ 9 ≤ w := by
      refine le_trans ?_ h2
      have hx8 : a / 10 ^ 8 ≤ a / 10 ^ x := by
        apply div_le_div_of_nonneg_left ha0.le (by positivity)
        exact pow_le_pow_right₀ (by norm_num) (by omega)
      have hax : 0 < a / 10 ^ x := by positivity
      have : a / 10 ^ x * 1 ≤ a / 10 ^ x * (1 + 1 / 10 ^ 8) ^ x := by gcongr
      norm_num at hx8 ha ⊢
      norm_num at this
      linarith
    obtain ⟨u, e1, e2, e3⟩ := tenth_step hlow h3 h2 (by positivity)
    refine ⟨u, ?_, ?_, e3.trans h3⟩
    · rw [Nat.repeat, h1]
      exact e1
    · refine le_trans (le_of_eq ?_) e2
      rw [pow_succ, pow_succ]
      field_simp

/-- The part in front of the exponent is read with an error of at most one part in 10^10. -/
theorem mantissa_near {b k m : Nat} (hb : 0 < b) (hb2 : b < 2 ^ 31) (hm : 0 < m) (hm2 : m < 2 ^ 31) (hk : k ≤ 12) :
    ∃ r : ℚ, (∀ rest, doubles.read (mantissa .none b k m ++ 0 :: rest) = .ok (.fin r)) ∧
      |r - (b + m / 10 ^ (k + (numeral false 10 m).length))| ≤ (b + m / 10 ^ (k + (numeral false 10 m).length)) / 10 ^ 10 ∧
      (m : ℚ) / 10 ^ (k + (numeral false 10 m).length) < 1 := by
  obtain ⟨b1, b2, b3, b4, -⟩ := decimal_digits b (by omega)
  obtain ⟨m1, m2, m3, m4, m5⟩ := frac_ok (k := k) hm
  have hml : (numeral false 10 m).length = (digits 10 m).length := by rw [numeral, List.length_map]
  have m6 : (fracDigits k m).length ≤ 22 := by
    rw [fracDigits, List.length_append, List.length_replicate]
    have := numeral_length (n := m) (k := 10) (by omega) (by omega)
    omega
  have m7 : (fracDigits k m).length = k + (numeral false 10 m).length := by
    rw [fracDigits, List.length_append, List.length_replicate, hml]
  have hd : ({ whole := digits 10 b, frac := some (fracDigits k m) } : ReadReal.Decimal).Valid := by
    refine ⟨b2, ?_, .inl b3, by simp⟩
    intro gs h
    injection h with h
    subst h
    exact m2
  have ht : ({ whole := digits 10 b, frac := some (fracDigits k m) } : ReadReal.Decimal).text = mantissa .none b k m := by
    unfold ReadReal.Decimal.text ReadReal.fracText ReadReal.expText mantissa
    rw [List.append_nil, b1, ← m1]
    rfl
  have hc : ({ whole := digits 10 b, frac := some (fracDigits k m) } : ReadReal.Decimal).Stop 0 := ⟨by decide, fun _ => ⟨by decide, by decide, fun _ => by decide⟩⟩
  obtain ⟨r, h1, h2, h3⟩ := ReadReal.C128_reads hd (by rw [b4]; omega) m6 (Nat.zero_le _) (sp := []) (by simp) hc []
  have hread : ∀ rest, doubles.read (mantissa .none b k m ++ 0 :: rest) = .ok (.fin r) := by
    intro rest
    have e : ReadReal.strToF64 ([] ++ (({ whole := digits 10 b, frac := some (fracDigits k m) } : ReadReal.Decimal).text ++ 0 :: rest)) =
        ReadReal.strToF64 ([] ++ (({ whole := digits 10 b, frac := some (fracDigits k m) } : ReadReal.Decimal).text ++ 0 :: [])) := by
      rw [ReadReal.read_fold hd (by simp) hc, ReadReal.read_fold hd (by simp) hc]
    rw [h3, List.nil_append, ht] at e
    have hsm : ({ whole := digits 10 b, frac := some (fracDigits k m) } : ReadReal.Decimal).small = false := rfl
    have hex : ({ whole := digits 10 b, frac := some (fracDigits k m) } : ReadReal.Decimal).exponent = 0 := rfl
    have hsg : ({ whole := digits 10 b, frac := some (fracDigits k m) } : ReadReal.Decimal).sgn = .none := rfl
    rw [hsm, hex, hsg, if_neg Bool.false_ne_true, pow_zero, mul_one, h2, if_neg (by decide), one_mul] at e
    change (ReadReal.strToF64 _ >>= fun x => _) = _
    rw [e, except_ok_bind]
  rw [ReadReal.mantissa_eq] at h1
  have h1' : |r - ((Zpl.Num.value 10 (digits 10 b) : ℚ) + PrintReal.valueOf (fracDigits k m))| ≤ (fracDigits k m).length * (Zpl.Num.value 10 (digits 10 b) + 2) * F64.pow2 (-52) := h1
  have hvo : PrintReal.valueOf (fracDigits k m) = m / 10 ^ (k + (numeral false 10 m).length) := by
    have h := ReadReal.mantissa_eq { whole := [], frac := some (fracDigits k m) }
    have h' : (Zpl.Num.value 10 ([] ++ fracDigits k m) : ℚ) / 10 ^ (fracDigits k m).length = Zpl.Num.value 10 [] + PrintReal.valueOf (fracDigits k m) := h
    have h0 : Zpl.Num.value 10 [] = 0 := rfl
    rw [List.nil_append, m4, m7, h0, Nat.cast_zero, zero_add] at h'
    exact h'.symm
  obtain ⟨-, hv1⟩ := ReadReal.valueOf_bound m2
  rw [hvo] at h1' hv1
  have hnn : (0 : ℚ) ≤ m / 10 ^ (k + (numeral false 10 m).length) := by positivity
  generalize (m : ℚ) / 10 ^ (k + (numeral false 10 m).length) = f at *
  have hbq : (1 : ℚ) ≤ b := by exact_mod_cast hb
  have hbq2 : (b : ℚ) < 2 ^ 31 := by exact_mod_cast hb2
  have hlq : ((fracDigits k m).length : ℚ) ≤ 22 := by exact_mod_cast m6
  have hu : F64.pow2 (-52) = 1 / 2 ^ 52 := by norm_num [F64.pow2_eq]
  rw [b4, hu] at h1'
  have hE : ((fracDigits k m).length : ℚ) * (b + 2) * (1 / 2 ^ 52) ≤ 22 * (b + 2) * (1 / 2 ^ 52) := by gcongr
  have hE2 : (22 : ℚ) * (b + 2) * (1 / 2 ^ 52) ≤ (b + f) / 10 ^ 10 := by
    norm_num
    linarith
  have hE3 := hE.trans hE2
  exact ⟨r, hread, h1'.trans hE3, hv1⟩

/-- A negative exponent is applied by multiplying with the single precision number nearest to 0.1, so that the number read is too large by more than one part in 10^9. -/
theorem C129_negative_exponent {b k m x : Nat} (hb : 0 < b) (hb2 : b < 2 ^ 31) (hm : 0 < m) (hm2 : m < 2 ^ 31) (hk : k ≤ 12) (hx : 0 < x) (hx2 : x ≤ 8) :
    ∃ (n : Num F64) (v : ℚ), n.val = .real (.fin v) ∧
      (∀ c rest, Chars.isDigit c = false → parseNumber doubles (scientific .none b k m .minus x ++ c :: rest) = .ok (some n, (scientific .none b k m .minus x).length)) ∧
      (b + m / 10 ^ (k + (numeral false 10 m).length)) / 10 ^ x * (1 + 1 / 10 ^ 9) < v := by
  obtain ⟨r, hread, hnear, hv1⟩ := mantissa_near hb hb2 hm hm2 hk
  obtain ⟨n, e1, e2, -⟩ := scientific_ok doubles PrintReal.f64 (s := .none) (by decide) .minus (b := b) (k := k) (m := m) (x := x) (by omega) hm (by omega) (by omega) hx (by omega) hread
  have hnn : (0 : ℚ) ≤ m / 10 ^ (k + (numeral false 10 m).length) := by positivity
  generalize (m : ℚ) / 10 ^ (k + (numeral false 10 m).length) = f at *
  have hbq : (1 : ℚ) ≤ b := by exact_mod_cast hb
  have hbq2 : (b : ℚ) < 2 ^ 31 := by exact_mod_cast hb2
  have h4 := abs_le.1 hnear
  have hlow : (b + f) * (1 - 1 / 10 ^ 10) ≤ r := by
    have := h4.1
    linarith
  have hup : r ≤ 2 ^ 60 := by
    have h5 := h4.2
    have h6 : (b + f) / 10 ^ 10 ≤ b + f := div_le_self (by positivity) (by norm_num)
    have h7 : (2 : ℚ) ^ 31 + 1 + 1 + 2 ^ 31 + 1 + 1 + 2 ^ 31 + 1 + 1 ≤ 2 ^ 60 := by norm_num
    linarith
  obtain ⟨v, g1, g2, -⟩ := tenth_steps (a := (b + f) * (1 - 1 / 10 ^ 10)) (by norm_num; linarith) hlow hup hx2
  refine ⟨n, v, ?_, e2, ?_⟩
  · rw [e1, show (Sign.minus == Sign.minus) = true by decide, g1]
  · refine lt_of_lt_of_le ?_ g2
    have hp : (1 + 1 / 10 ^ 8 : ℚ) ≤ (1 + 1 / 10 ^ 8) ^ x := le_self_pow₀ (by norm_num) (by omega)
    have hq : (b + f) / 10 ^ x * ((1 - 1 / 10 ^ 10) * (1 + 1 / 10 ^ 8)) ≤ (b + f) / 10 ^ x * ((1 - 1 / 10 ^ 10) * (1 + 1 / 10 ^ 8) ^ x) := by
      have : (0 : ℚ) ≤ 1 - 1 / 10 ^ 10 := by norm_num
      gcongr
    have hpos : 0 < (b + f) / 10 ^ x := by positivity
    calc (b + f) / 10 ^ x * (1 + 1 / 10 ^ 9) < (b + f) / 10 ^ x * ((1 - 1 / 10 ^ 10) * (1 + 1 / 10 ^ 8)) := by
          apply mul_lt_mul_of_pos_left _ hpos
          norm_num
      _ ≤ _ := hq
      _ = _ := by ring

/-! ### Positive exponents -/

theorem ten_step {v : ℚ} (hv : 1 / 2 ≤ v) (hv2 : v ≤ 2 ^ 240) : ∃ w, F64.mul (.fin v) (.fin 10) = .fin w ∧ |w - 10 * v| ≤ 10 * v / 2 ^ 53 := by
  have hv0 : 0 < v := lt_of_lt_of_le (by norm_num) hv
  have hp : 0 < v * 10 := by positivity
  have hle : |v * 10| ≤ F64.pow2 1000 := by
    rw [abs_of_pos hp]
    refine le_trans (b := F64.pow2 244) ?_ (F64.pow2_le (by norm_num))
    rw [show F64.pow2 244 = 2 ^ 240 * 16 by norm_num [F64.pow2_eq]]
    generalize (2 : ℚ) ^ 240 = y at *
    linarith
  refine ⟨F64.rounded (v * 10), ReadReal.round_fin' hle, ?_⟩
  have hB : F64.pow2 (-1022) ≤ v * 10 := by
    refine le_trans (F64.pow2_le (show (-1022 : ℤ) ≤ -1 by norm_num)) ?_
    have : F64.pow2 (-1) ≤ 1 / 2 := by norm_num [F64.pow2_eq]
    linarith
  have hr := F64.rounded_error (q := v * 10) (B := v * 10) (by rw [abs_of_pos hp]) hB
  rw [show F64.pow2 (-53) = 1 / 2 ^ 53 by norm_num [F64.pow2_eq]] at hr
  rw [mul_comm 10 v]
  refine hr.trans (le_of_eq ?_)
  ring

/-- `x` multiplications by ten: every one adds a relative error of at most 2^-52. -/
theorem ten_steps {v a : ℚ} (ha : 1 ≤ a) (ha2 : a ≤ 2 ^ 32) (hva : |v - a| ≤ a / 10 ^ 10) : ∀ {x : Nat}, x ≤ 60 →
    ∃ w, Nat.repeat (doubles.scale false) x (.fin v) = .fin w ∧ |w - a * 10 ^ x| ≤ a * 10 ^ x * (1 / 10 ^ 10 + x / 2 ^ 52)
  | 0, _ => ⟨v, rfl, by
      rw [pow_zero, mul_one, Nat.cast_zero, zero_div, add_zero]
      refine hva.trans (le_of_eq ?_)
      ring⟩
  | x + 1, hx => by
    obtain ⟨w, h1, h2⟩ := ten_steps ha ha2 hva (x := x) (by omega)
    have hA : (1 : ℚ) ≤ a * 10 ^ x := one_le_mul_of_one_le_of_one_le ha (one_le_pow₀ (by norm_num))
    have hA2 : a * 10 ^ x ≤ 2 ^ 232 := by
      have h10 : (10 : ℚ) ^ x ≤ 10 ^ 60 := pow_le_pow_right₀ (by norm_num) (by omega)
      calc a * 10 ^ x ≤ 2 ^ 32 * 10 ^ 60 := mul_le_mul ha2 h10 (by positivity) (by positivity)
        _ ≤ 2 ^ 232 := by norm_num
    have hS : a * 10 ^ (x + 1) = a * 10 ^ x * 10 := by ring
    rw [hS]
    generalize a * 10 ^ x = A at *
    have hx' : (x : ℚ) ≤ 60 := by exact_mod_cast (show x ≤ 60 by omega)
    have hx0 : (0 : ℚ) ≤ x := Nat.cast_nonneg x
    have he : (1 / 10 ^ 10 + x / 2 ^ 52 : ℚ) ≤ 1 / 10 := by
      norm_num
      linarith
    have he0 : (0 : ℚ) ≤ 1 / 10 ^ 10 + x / 2 ^ 52 := by positivity
    have h3 : |w - A| ≤ A / 10 := by
      refine h2.trans ?_
      have := mul_le_mul_of_nonneg_left he (show 0 ≤ A by linarith)
      linarith
    have h4 := abs_le.1 h3
    obtain ⟨u, e1, e2⟩ := ten_step (v := w) (by linarith) (by
      have : (2 : ℚ) ^ 240 = 2 ^ 232 * 256 := by norm_num
      rw [this]
      generalize (2 : ℚ) ^ 890 = y at *
      linarith)
    refine ⟨u, ?_, ?_⟩
    · rw [Nat.repeat, h1]
      exact e1
    · have h5 := abs_le.1 e2
      have h6 := abs_le.1 h2
      have h7 : (0 : ℚ) ≤ 1 / 10 ^ 10 + x / 2 ^ 52 := he0
      push_cast
      generalize hE : A * (1 / 10 ^ 10 + x / 2 ^ 52) = E at *
      have hE' : A * 10 * (1 / 10 ^ 10 + (x + 1) / 2 ^ 52) = 10 * E + A * 10 / 2 ^ 52 := by rw [← hE]; ring
      rw [hE', abs_le]
      have h8 : 10 * w / 2 ^ 53 ≤ A * 10 / 2 ^ 52 := by
        rw [show (2 : ℚ) ^ 53 = 2 ^ 52 * 2 by norm_num]
        rw [div_le_div_iff₀ (by positivity) (by positivity)]
        nlinarith [show (0:ℚ) < 2 ^ 52 by positivity]
      constructor <;> linarith [h5.1, h5.2, h6.1, h6.2]

/-- A positive exponent is applied by multiplying with ten: the number read differs from the number written by less than one part in 10^9. -/
theorem C129_positive_exponent {b k m x : Nat} (es : Sign) (hes : es ≠ .minus) (hb : 0 < b) (hb2 : b < 2 ^ 31) (hm : 0 < m) (hm2 : m < 2 ^ 31) (hk : k ≤ 12) (hx : 0 < x)
    (hx2 : x ≤ 60) :
    ∃ (n : Num F64) (v : ℚ), n.val = .real (.fin v) ∧
      (∀ c rest, Chars.isDigit c = false → parseNumber doubles (scientific .none b k m es x ++ c :: rest) = .ok (some n, (scientific .none b k m es x).length)) ∧
      |v - (b + m / 10 ^ (k + (numeral false 10 m).length)) * 10 ^ x| < (b + m / 10 ^ (k + (numeral false 10 m).length)) * 10 ^ x / 10 ^ 9 := by
  obtain ⟨r, hread, hnear, hv1⟩ := mantissa_near hb hb2 hm hm2 hk
  obtain ⟨n, e1, e2, -⟩ := scientific_ok doubles PrintReal.f64 (s := .none) (by decide) es (b := b) (k := k) (m := m) (x := x) (by omega) hm (by omega) (by omega) hx (by omega) hread
  have hnn : (0 : ℚ) ≤ m / 10 ^ (k + (numeral false 10 m).length) := by positivity
  generalize (m : ℚ) / 10 ^ (k + (numeral false 10 m).length) = f at *
  have hbq : (1 : ℚ) ≤ b := by exact_mod_cast hb
  have hbq2 : (b : ℚ) < 2 ^ 31 := by exact_mod_cast hb2
  obtain ⟨v, g1, g2⟩ := ten_steps (a := b + f) (by linarith) (by
    have hf : f ≤ 1 := hv1.le
    have h32 : (2 : ℚ) ^ 31 + 1 ≤ 2 ^ 32 := by norm_num
    linarith) hnear hx2
  refine ⟨n, v, ?_, e2, lt_of_le_of_lt g2 ?_⟩
  · rw [e1, show (es == Sign.minus) = false by cases es <;> first | rfl | exact absurd rfl hes, g1]
  · have hp : 0 < ((b : ℚ) + f) * 10 ^ x := by positivity
    have hxq : (x : ℚ) ≤ 60 := by exact_mod_cast hx2
    rw [div_eq_mul_one_div _ ((10 : ℚ) ^ 9)]
    apply mul_lt_mul_of_pos_left _ hp
    norm_num
    linarith

/-! ### Examples -/

/-- The hypotheses of `C129_read` are met: `-12.75]`. -/
example : ∃ (n : Num F64) (x : ℚ), parseNumber doubles (Sign.minus.text ++ (decimal [1, 2] ++ 0x2e#8 :: (decimal [7, 5] ++ 0x5d#8 :: []))) = .ok (some n, 6) ∧
    n.val = .real (.fin x) ∧ n.props = .none ∧ |x - (-1 * (1275 / 100))| ≤ 2 * (12 + 2) * F64.pow2 (-52) := by
  obtain ⟨n, x, h1, h2, h3, h4⟩ := C129_read .minus (ds := [1, 2]) (fs := [7, 5]) (by simp) (by simp) (by simp) (by simp) (by decide) (by decide) (by decide) (c := 0x5d#8) (by decide) []
  refine ⟨n, x, h1, h2, h3, ?_⟩
  rw [if_pos rfl, show Zpl.Num.value 10 [1, 2] = 12 by decide, show Zpl.Num.value 10 ([1, 2] ++ [7, 5]) = 1275 by decide] at h4
  norm_num at h4 ⊢
  exact h4

/-- Those of `C129_write_partial` and `C129_write_read_partial`: -17 and 1/3 rounded to 20 bits. -/
example : F64.Representable (-17) ∧ PrintReal.Printable 6 (-17) ∧ (-17 : ℚ) ≠ 0 ∧ |(-17 : ℚ)| < F64.pow2 53 :=
  ⟨⟨-17, 0, by norm_num, by norm_num, by norm_num, by norm_num [F64.pow2_eq]⟩, ⟨by norm_num [F64.pow2_eq], by decide, .inr (.inl ⟨-17, by norm_num⟩)⟩, by norm_num, by norm_num [F64.pow2_eq]⟩

/-- `C129_positive_exponent` holds for `12.005e40`. -/
example : ∃ (n : Num F64) (v : ℚ), n.val = .real (.fin v) ∧
    (∀ c rest, Chars.isDigit c = false → parseNumber doubles (scientific .none 12 2 5 .none 40 ++ c :: rest) = .ok (some n, (scientific .none 12 2 5 .none 40).length)) ∧
    |v - 12005 * 10 ^ 37| < 13 * 10 ^ 31 := by
  obtain ⟨n, v, h1, h2, h3⟩ := C129_positive_exponent (b := 12) (k := 2) (m := 5) (x := 40) .none (by decide) (by decide) (by decide) (by decide) (by decide) (by decide) (by decide)
    (by decide)
  refine ⟨n, v, h1, h2, ?_⟩
  rw [show (numeral false 10 5).length = 1 by decide +kernel] at h3
  rw [abs_lt] at h3 ⊢
  norm_num at h3 ⊢
  constructor <;> linarith [h3.1, h3.2]

/-- `C129_json_whole` holds for -17, `C129_minus_doubled` for `-0.05`, and `C129_negative_exponent` for `12.005e-3`. -/
example : ∃ n : Num F64, n.val = .real (.fin (-17)) ∧ Json.Printable (jsonIO doubles PrintReal.f64) n := by
  have := C129_json_whole (k := -17) (by decide) (by decide)
  simpa using this

example : ∃ (n : Num F64) (v : ℚ), n.val = .real (.fin v) ∧
    (∀ c rest, Chars.isDigit c = false → parseNumber doubles (scientific .none 12 2 5 .minus 3 ++ c :: rest) = .ok (some n, (scientific .none 12 2 5 .minus 3).length)) ∧
    (12005 : ℚ) / 1000000 * (1 + 1 / 10 ^ 9) < v := by
  obtain ⟨n, v, h1, h2, h3⟩ := C129_negative_exponent (b := 12) (k := 2) (m := 5) (x := 3) (by decide) (by decide) (by decide) (by decide) (by decide) (by decide) (by decide)
  refine ⟨n, v, h1, h2, ?_⟩
  rw [show (numeral false 10 5).length = 1 by decide +kernel] at h3
  norm_num at h3 ⊢
  exact h3

end Zpl.Number
