import Verif.Parse.NumberPrint

/-!
# Numbers in documents: numbers with a fraction  -  C89

Model and specification are in `Verif/Parse/Number.lean`. -/

namespace Zpl.Number

open Zpl Zpl.Str Zpl.Print Zpl.Fprintf

/-! ## Lemmas: reading -/

theorem decimal_digit {ds : List Nat} (hd : ∀ d ∈ ds, d < 10) : ∀ x ∈ decimal ds, Chars.isDigit x = true := by
  intro x hx
  obtain ⟨d, h, rfl⟩ := List.mem_map.1 hx
  exact (digit_dec ⟨d, hd d h⟩).2.2.1

theorem rd_app_cons {a : List Byte} (h : a ≠ []) (b : List Byte) : rd (a ++ b) 0 = .ok (a.head h) := by
  cases a with
  | nil => exact absurd rfl h
  | cons x a => rfl

theorem dotDigits_ok {f : List Byte} (hf : ∀ x ∈ f, Chars.isDigit x = true) {c : Byte} (hc : Chars.isDigit c = false) (r : List Byte) (x : Byte) (buf : List Byte) (step : Nat)
    (hl : buf.length + f.length + 1 ≤ 48) : dotDigits (x :: f ++ c :: r) buf step = .ok (c :: r, buf ++ x :: f, step + f.length + 1) := by
  induction f generalizing x buf step with
  | nil =>
    simp only [List.length_nil] at hl
    rw [List.cons_append, List.nil_append, dotDigits, push, if_pos (by omega), except_ok_bind, rd_cons, except_ok_bind, hc]
    rfl
  | cons y f ih =>
    simp only [List.length_cons] at hl
    rw [List.cons_append, dotDigits, push, if_pos (by omega), except_ok_bind, show rd (y :: f ++ c :: r) 0 = .ok y from rfl, except_ok_bind, if_pos (hf y (by simp)),
      ih (fun z hz => hf z (by simp [hz])) y _ _ (by simp only [List.length_append, List.length_cons, List.length_nil]; omega)]
    simp only [List.append_assoc, List.singleton_append, List.length_cons]
    congr 3
    omega

theorem expDigits_ok {f : List Byte} (hf : ∀ x ∈ f, Chars.isDigit x = true) {c : Byte} (hc : Chars.isDigit c = false) (r buf : List Byte) (hl : buf.length + f.length ≤ 6) :
    expDigits (f ++ c :: r) buf = .ok (c :: r, buf ++ f) := by
  induction f generalizing buf with
  | nil => rw [List.nil_append, expDigits, hc, if_neg (by decide), List.append_nil]
  | cons y f ih =>
    simp only [List.length_cons] at hl
    rw [List.cons_append, expDigits, if_pos (hf y (by simp)), push, if_pos (by omega), except_ok_bind,
      ih (fun z hz => hf z (by simp [hz])) _ (by simp only [List.length_append, List.length_cons, List.length_nil]; omega)]
    simp

theorem decimal_text {ds : List Nat} (hd : ∀ d ∈ ds, d < 10) : Text (decimal ds) := run_text fun x hx => .inl (decimal_run hd x hx).1

theorem decimal_length (ds : List Nat) : (decimal ds).length = ds.length := by rw [decimal, List.length_map]

/-- A decimal number, read with the base to be guessed or with base ten. -/
theorem strToI64_decimal {s : Sign} (hs : s ≠ .plus) {ds : List Nat} (hd : ∀ d ∈ ds, d < 10) (hv : Zpl.Num.value 10 ds < 2 ^ 63) (rest : List Byte) {base : Nat} (hb : base = 0 ∨ base = 10) :
    ∃ k, Zpl.Num.strToI64 (s.text ++ decimal ds ++ 0 :: rest) base = .ok (s.apply (Zpl.Num.value 10 ds), k) := by
  have ht : Text (s.text ++ decimal ds) := by
    intro x hx
    rcases List.mem_append.1 hx with hx | hx
    · cases s <;> simp [Sign.text] at hx <;> subst hx <;> decide
    · exact decimal_text hd x hx
  have hnp : ¬ [0x30#8, 0x78#8] <+: s.text ++ decimal ds := by
    rintro ⟨t, e⟩
    have : 0x78#8 ∈ s.text ++ decimal ds := by rw [← e]; simp
    rcases List.mem_append.1 this with h | h
    · cases s <;> simp [Sign.text] at h
    · exact (decimal_run hd _ h).2.2.2.2.1 rfl
  have h10 : ∃ k, Zpl.Num.strToI64 (s.text ++ decimal ds ++ 0 :: rest) 10 = .ok (s.apply (Zpl.Num.value 10 ds), k) := by
    rw [Zpl.Num.C25_i64_partial ht _ (by decide)]
    have hld : Zpl.Num.leadingDigits 10 (decimal ds) = ds := by
      have := leading_decimal ds hd [] (by simp)
      rwa [List.append_nil] at this
    cases s with
    | plus => exact absurd rfl hs
    | minus =>
      simp only [Sign.text, List.cons_append, List.nil_append, List.head?_cons, if_true, List.drop_succ_cons, List.drop_zero, after0x_ten, hld, if_pos hv, Sign.apply]
      exact ⟨_, rfl⟩
    | none =>
      have hm : ¬ ((decimal ds).head? = some 0x2d#8) := by
        intro h
        have : 0x2d#8 ∈ decimal ds := List.mem_of_mem_head? (by rw [h]; rfl)
        exact (decimal_run hd _ this).2.2.2.1 rfl
      simp only [Sign.text, List.nil_append, hm, if_false, after0x_ten, hld, if_pos hv, Sign.apply]
      exact ⟨_, rfl⟩
  rcases hb with rfl | rfl
  · rw [(Zpl.Num.C25_base_detection ht rest).2, if_neg (fun h => hnp h.2)]
    exact h10
  · exact h10

/-- The end of a number with a fraction: nothing, or an exponent. -/
inductive Exponent where
  | none
  | some (capital : Bool) (s : Sign) (ds : List Nat)

/-- Its text. -/
def Exponent.text : Exponent → List Byte
  | .none => []
  | .some cap s ds => (if cap then 0x45#8 else 0x65#8) :: s.text ++ decimal ds

/-- It has one to five digits. -/
def Exponent.Ok : Exponent → Prop
  | .none => True
  | .some _ _ ds => ds ≠ [] ∧ ds.length ≤ 5 ∧ ∀ d ∈ ds, d < 10

/-- The digits as a number. -/
def Exponent.size : Exponent → Nat
  | .none => 0
  | .some _ _ ds => Zpl.Num.value 10 ds

def Exponent.neg : Exponent → Bool
  | .none => false
  | .some _ s _ => s == .minus

/-- What may follow: no digit, and if there is no exponent, no dot and no `e`. -/
def Exponent.Stop (x : Exponent) (c : Byte) : Prop :=
  Chars.isDigit c = false ∧ match x with
    | .none => c ≠ 0x2e#8 ∧ c ≠ 0x65#8 ∧ c ≠ 0x45#8
    | .some _ _ _ => True

theorem value_lt {ds : List Nat} (hd : ∀ d ∈ ds, d < 10) : Zpl.Num.value 10 ds < 10 ^ ds.length := by
  have key : ∀ (ds : List Nat) (a : Nat), (∀ d ∈ ds, d < 10) → ds.foldl (fun acc d => acc * 10 + d) a < (a + 1) * 10 ^ ds.length := by
    intro ds
    induction ds with
    | nil => intro a _; simp
    | cons d ds ih =>
      intro a h
      have h1 := h d (by simp)
      have h2 := ih (a * 10 + d) (fun x hx => h x (by simp [hx]))
      rw [List.foldl_cons, List.length_cons, Nat.pow_succ]
      refine Nat.lt_of_lt_of_le h2 ?_
      rw [show (a + 1) * (10 ^ ds.length * 10) = ((a + 1) * 10) * 10 ^ ds.length by rw [Nat.mul_comm (10 ^ ds.length) 10, Nat.mul_assoc]]
      exact Nat.mul_le_mul_right _ (by omega)
  have := key ds 0 hd
  rwa [Nat.zero_add, Nat.one_mul] at this

theorem exponent_ok {x : Exponent} (hx : x.Ok) {c : Byte} (hc : x.Stop c) (r : List Byte) : exponent (x.text ++ c :: r) = .ok (c :: r, BitVec.ofNat 8 x.size, x.neg) := by
  cases x with
  | none =>
    rw [Exponent.text, List.nil_append, exponent, rd_cons, except_ok_bind, if_neg (fun h => h.elim hc.2.2.1 hc.2.2.2)]
    rfl
  | some cap s ds =>
    obtain ⟨h1, h2, h3⟩ := hx
    obtain ⟨y, u, hyu⟩ : ∃ y u, decimal ds = y :: u := by
      cases ds with
      | nil => exact absurd rfl h1
      | cons d ds => exact ⟨_, _, rfl⟩
    have hdig := decimal_digit h3
    have hy := hdig y (by rw [hyu]; simp)
    have hlen : (decimal ds).length = ds.length := decimal_length ds
    have hexp : expDigits (decimal ds ++ c :: r) [] = .ok (c :: r, decimal ds) := by rw [expDigits_ok hdig hc.1 r [] (by rw [hlen]; simp; omega)]; rfl
    have htext : expText (s.text ++ decimal ds ++ c :: r) = .ok (c :: r, decimal ds, s == .minus) := by
      cases s with
      | none =>
        have hm : (y == 0x2d#8) = false := by
          have : ∀ y : Byte, Chars.isDigit y = true → (y == 0x2d#8) = false := by decide +kernel
          exact this y hy
        rw [Sign.text, List.nil_append, expText, show rd (decimal ds ++ c :: r) 0 = .ok y by rw [hyu]; rfl, except_ok_bind, if_pos (.inr (.inr hy)), if_pos hy, hexp, except_ok_bind, hm]
        rfl
      | plus =>
        rw [Sign.text, expText, show rd ([0x2b#8] ++ decimal ds ++ c :: r) 0 = .ok 0x2b#8 from rfl, except_ok_bind, if_pos (.inl rfl), if_neg (by decide),
          show ([0x2b#8] ++ decimal ds ++ c :: r).drop 1 = decimal ds ++ c :: r from rfl, hexp, except_ok_bind]
        rfl
      | minus =>
        rw [Sign.text, expText, show rd ([0x2d#8] ++ decimal ds ++ c :: r) 0 = .ok 0x2d#8 from rfl, except_ok_bind, if_pos (.inr (.inl rfl)), if_neg (by decide),
          show ([0x2d#8] ++ decimal ds ++ c :: r).drop 1 = decimal ds ++ c :: r from rfl, hexp, except_ok_bind]
        rfl
    have hv : Zpl.Num.value 10 ds < 2 ^ 63 := by
      have := value_lt h3
      have h4 : 10 ^ ds.length ≤ 10 ^ 5 := Nat.pow_le_pow_right (by omega) h2
      omega
    obtain ⟨k, hk⟩ := strToI64_decimal (s := .none) (by decide) h3 hv (List.replicate (6 - ds.length - 1) 0) (.inr rfl)
    rw [Sign.text, List.nil_append] at hk
    have he : (if cap then 0x45#8 else 0x65#8) = 0x65#8 ∨ (if cap then 0x45#8 else 0x65#8) = 0x45#8 := by cases cap <;> simp
    rw [Exponent.text, List.cons_append, List.cons_append, exponent, rd_cons, except_ok_bind, if_pos he, List.drop_succ_cons, List.drop_zero, htext, except_ok_bind]
    dsimp only
    rw [cells_text (by omega), hlen, hk, except_ok_bind]
    dsimp only
    rw [show Sign.none.apply (Zpl.Num.value 10 ds) = ((Zpl.Num.value 10 ds : Nat) : Int) from rfl, BitVec.ofInt_natCast]
    rfl

theorem skip_dot {a : List Byte} (ha : ∀ x ∈ a, x ≠ 0 ∧ x ≠ 0x2e#8) (r : List Byte) : Token.skip 0x2e#8 (a ++ 0x2e#8 :: r) = .ok a.length := by
  induction a with
  | nil => rfl
  | cons x a ih =>
    have h := ha x (by simp)
    rw [List.cons_append, Token.skip, if_pos h, ih (fun y hy => ha y (by simp [hy])), except_ok_bind]
    rfl

theorem zeros_ok {fs : List Nat} (hd : ∀ d ∈ fs, d < 10) {c : Byte} (hc : c ≠ 0x30#8) (r : List Byte) (n : Nat) :
    zeros (decimal fs ++ c :: r) n = .ok (n + (fs.takeWhile (· = 0)).length) := by
  induction fs generalizing n with
  | nil => rw [decimal, List.map_nil, List.nil_append, zeros, if_neg hc]; rfl
  | cons d fs ih =>
    have hk : ∀ d : Fin 10, digit false d.val = 0x30#8 ↔ d.val = 0 := by decide
    have := hk ⟨d, hd d (by simp)⟩
    rw [decimal, List.map_cons, List.cons_append, zeros]
    by_cases h0 : d = 0
    · rw [if_pos (this.2 h0), List.takeWhile_cons_of_pos (by simpa using h0)]
      have := ih (fun x hx => hd x (by simp [hx])) (n + 1)
      rw [decimal] at this
      rw [this, List.length_cons]
      congr 1; omega
    · rw [if_neg (fun h => h0 (this.1 h)), List.takeWhile_cons_of_neg (by simpa using h0)]
      rfl

/-- The number that comes of a sign, the digits before the dot, the digits after it and an exponent; `buf` is the text that `zpl_str_to_f64` reads, `r` what it gives. -/
def realOf {ρ : Type} (F : Reals ρ) (s : Sign) (ds fs : List Nat) (x : Exponent) (props : Props) (lead : Bool) (r : ρ) : Num ρ :=
  { val := .real (scaleLoop F x.neg (BitVec.ofNat 8 x.size).toInt.toNat r),
    props := if BitVec.ofNat 8 x.size ≠ 0 then .isExp else props,
    base := toI32 (s.apply (Zpl.Num.value 10 ds)), base2 := toI32 (Zpl.Num.value 10 fs), base2Offset := (fs.takeWhile (· = 0)).length % 16,
    exp := ((if x.neg then -(BitVec.ofNat 8 x.size) else BitVec.ofNat 8 x.size).truncate 4).toInt,
    negZero := toI32 (s.apply (Zpl.Num.value 10 ds)) = 0 ∧ s = .minus, leadDigit := lead }

theorem finishReal_ok {ρ : Type} (F : Reals ρ) {s : Sign} (hs : s ≠ .plus) {ds fs : List Nat} (hd : ∀ d ∈ ds, d < 10) (hf : ∀ d ∈ fs, d < 10) (hn : ds ≠ []) (hvd : Zpl.Num.value 10 ds < 2 ^ 63)
    (hvf : Zpl.Num.value 10 fs < 2 ^ 63) (hl : ds.length + fs.length ≤ 45) {r : ρ} (hr : F.read (cells 48 (s.text ++ decimal ds ++ 0x2e#8 :: decimal fs)) = .ok r) (x : Exponent)
    (props : Props) (lead : Bool) :
    finishReal F (s.text ++ decimal ds ++ 0x2e#8 :: decimal fs) props lead (BitVec.ofNat 8 x.size) x.neg = .ok (realOf F s ds fs x props lead r) := by
  have hsl : s.text.length ≤ 1 := by cases s <;> simp [Sign.text]
  have hlen : (s.text ++ decimal ds ++ 0x2e#8 :: decimal fs).length < 48 := by
    simp only [List.length_append, List.length_cons, decimal_length]; omega
  have hnd : ∀ y ∈ s.text ++ decimal ds, y ≠ 0 ∧ y ≠ 0x2e#8 := by
    intro y hy
    rcases List.mem_append.1 hy with hy | hy
    · cases s <;> simp [Sign.text] at hy <;> subst hy <;> decide
    · have k : ∀ y : Byte, Chars.isHexDigit y = true → y ≠ 0 ∧ y ≠ 0x2e#8 := by decide +kernel
      exact k y (decimal_run hd y hy).1
  generalize hrep : List.replicate (48 - (s.text ++ decimal ds ++ 0x2e#8 :: decimal fs).length - 1) (0 : Byte) = rep
  have hc : cells 48 (s.text ++ decimal ds ++ 0x2e#8 :: decimal fs) = s.text ++ decimal ds ++ 0x2e#8 :: (decimal fs ++ 0 :: rep) := by
    rw [cells_text hlen, hrep]; simp
  obtain ⟨k1, hk1⟩ := strToI64_decimal hs hd hvd (decimal fs ++ 0 :: rep) (.inl rfl)
  obtain ⟨k2, hk2⟩ := strToI64_decimal (s := .none) (by decide) hf hvf rep (.inl rfl)
  rw [Sign.text, List.nil_append] at hk2
  have hw : wr (s.text ++ decimal ds ++ 0x2e#8 :: (decimal fs ++ 0 :: rep)) (s.text ++ decimal ds).length 0 = .ok (s.text ++ decimal ds ++ 0 :: (decimal fs ++ 0 :: rep)) := by
    rw [wr_ok (by simp)]
    congr 1
    rw [List.set_append_right _ _ (Nat.le_refl _), Nat.sub_self]
    rfl
  have hdrop : (s.text ++ decimal ds ++ 0 :: (decimal fs ++ 0 :: rep)).drop ((s.text ++ decimal ds).length + 1) = decimal fs ++ 0 :: rep := by
    rw [← List.drop_drop, List.drop_left]; rfl
  obtain ⟨y, u, hyu⟩ : ∃ y u, decimal ds = y :: u := by
    cases ds with
    | nil => exact absurd rfl hn
    | cons d ds => exact ⟨_, _, rfl⟩
  have hhead : ∃ c, rd (s.text ++ decimal ds ++ 0 :: (decimal fs ++ 0 :: rep)) 0 = .ok c ∧ (c = 0x2d#8 ↔ s = .minus) := by
    cases s with
    | plus => exact absurd rfl hs
    | minus => exact ⟨_, rfl, by simp⟩
    | none =>
      refine ⟨y, by rw [hyu]; rfl, ?_⟩
      have := (decimal_run hd y (by rw [hyu]; simp)).2.2.2.1
      simp [this]
  obtain ⟨c, hc1, hc2⟩ := hhead
  rw [finishReal, hr, except_ok_bind, hc, skip_dot hnd, except_ok_bind, hw, except_ok_bind, hdrop, zeros_ok hf (by decide), except_ok_bind, hk1, except_ok_bind]
  dsimp only
  rw [hk2, except_ok_bind]
  dsimp only
  rw [hc1, except_ok_bind, realOf, Nat.zero_add]
  simp only [hc2]
  rfl

theorem sign_bufs (s : Sign) : (if s = .minus then [0x2d#8] else ([] : List Byte)) = (if s = .minus then Sign.minus else .none).text := by split <;> rfl

theorem parse_sign {ρ : Type} (F : Reals ρ) (s : Sign) {x : Byte} {t : List Byte}
    (hx : (Chars.isHexDigit x = true ∧ x ≠ 0x65#8 ∧ x ≠ 0x45#8) ∨ (x = 0x2e#8 ∧ ∃ y t', t = y :: t' ∧ Chars.isHexDigit y = true)) :
    parseNumber F (s.text ++ x :: t) = afterSign F (s.text ++ x :: t) (x :: t) (if s = .minus then [0x2d#8] else []) := by
  have k : ∀ y : Byte, Chars.isHexDigit y = true → y ≠ 0 ∧ y ≠ 0x2e#8 ∧ y ≠ 0x2b#8 ∧ y ≠ 0x2d#8 := by decide +kernel
  have hxs : x ≠ 0x2b#8 ∧ x ≠ 0x2d#8 := by
    rcases hx with ⟨h, -⟩ | ⟨rfl, -⟩
    · exact (k x h).2.2
    · decide
  have hany : (!Chars.isHexDigit x && x != 0x2e#8) = false := by
    rcases hx with ⟨h, -⟩ | ⟨rfl, -⟩
    · rw [h]; rfl
    · decide
  cases s with
  | none =>
    have hf : falsePositive (x :: t) = .ok false := by
      rw [falsePositive, rd_cons, except_ok_bind]
      rcases hx with ⟨h, h1, h2⟩ | ⟨rfl, y, t', rfl, hy⟩
      · obtain ⟨k0, k1, k2, k3⟩ := k x h
        rw [if_neg (fun h => h.elim h1 (fun h => h.elim h2 k0)), if_neg (fun h => h.elim k1 (fun h => h.elim k2 k3))]
      · rw [if_neg (by decide), if_pos (by decide), show rd (0x2e#8 :: y :: t') 1 = .ok y from rfl, except_ok_bind, hy]
        rfl
    rw [Sign.text, List.nil_append, parseNumber, hf, except_ok_bind, if_neg (by decide), rd_cons, except_ok_bind, if_neg hxs.1, if_neg hxs.2]
    rfl
  | plus =>
    have hf : falsePositive (0x2b#8 :: x :: t) = .ok false := by
      rw [falsePositive, rd_cons, except_ok_bind, if_neg (by decide), if_pos (by decide), show rd (0x2b#8 :: x :: t) 1 = .ok x from rfl, except_ok_bind, hany]
    show parseNumber F (0x2b#8 :: x :: t) = _
    rw [parseNumber, hf, except_ok_bind, if_neg (by decide), rd_cons, except_ok_bind, if_pos rfl]
    rfl
  | minus =>
    have hf : falsePositive (0x2d#8 :: x :: t) = .ok false := by
      rw [falsePositive, rd_cons, except_ok_bind, if_neg (by decide), if_pos (by decide), show rd (0x2d#8 :: x :: t) 1 = .ok x from rfl, except_ok_bind, hany]
    show parseNumber F (0x2d#8 :: x :: t) = _
    rw [parseNumber, hf, except_ok_bind, if_neg (by decide), rd_cons, except_ok_bind, if_neg (by decide), if_pos rfl]
    rfl

/-- The part from the end of the fraction on. -/
theorem finish_real {ρ : Type} (F : Reals ρ) (s : Sign) {ds fs : List Nat} (hd : ∀ d ∈ ds, d < 10) (hf : ∀ d ∈ fs, d < 10) (hn : ds ≠ []) (hvd : Zpl.Num.value 10 ds < 2 ^ 63)
    (hvf : Zpl.Num.value 10 fs < 2 ^ 63) (hl : ds.length + fs.length ≤ 45) {r : ρ}
    (hr : F.read (cells 48 ((if s = .minus then Sign.minus else .none).text ++ decimal ds ++ 0x2e#8 :: decimal fs)) = .ok r) {x : Exponent} (hx : x.Ok) {c : Byte} (hc : x.Stop c)
    (b rest : List Byte) (props : Props) (lead : Bool) :
    finish F b (x.text ++ c :: rest) ((if s = .minus then [0x2d#8] else []) ++ decimal ds ++ 0x2e#8 :: decimal fs) true props lead =
      .ok (some (realOf F (if s = .minus then .minus else .none) ds fs x props lead r), b.length - (c :: rest).length) := by
  have hdot : ∃ y, rd (x.text ++ c :: rest) 0 = .ok y ∧ y ≠ 0x2e#8 := by
    cases x with
    | none => exact ⟨c, rfl, hc.2.1⟩
    | some cap s ds => exact ⟨_, rfl, by cases cap <;> decide⟩
  obtain ⟨y, h1, h2⟩ := hdot
  rw [finish, h1, except_ok_bind, if_neg h2, exponent_ok hx hc, except_ok_bind, sign_bufs]
  dsimp only
  rw [if_pos rfl, finishReal_ok F (by split <;> decide) hd hf hn hvd hvf hl hr, except_ok_bind]

theorem exponent_head {x : Exponent} {c : Byte} (hc : x.Stop c) (rest : List Byte) : ∃ y t, x.text ++ c :: rest = y :: t ∧ Chars.isDigit y = false := by
  cases x with
  | none => exact ⟨c, rest, rfl, hc.1⟩
  | some cap s ds => exact ⟨_, _, rfl, by cases cap <;> decide⟩

/-- Reading a number with digits before the dot. -/
theorem parse_real {ρ : Type} (F : Reals ρ) (s : Sign) {ds fs : List Nat} (hd : ∀ d ∈ ds, d < 10) (hf : ∀ d ∈ fs, d < 10) (hn : ds ≠ []) (hn' : fs ≠ []) (hvd : Zpl.Num.value 10 ds < 2 ^ 63)
    (hvf : Zpl.Num.value 10 fs < 2 ^ 63) (hl : ds.length + fs.length ≤ 45) {r : ρ}
    (hr : F.read (cells 48 ((if s = .minus then Sign.minus else .none).text ++ decimal ds ++ 0x2e#8 :: decimal fs)) = .ok r) {x : Exponent} (hx : x.Ok) {c : Byte} (hc : x.Stop c) (rest : List Byte) :
    parseNumber F (s.text ++ (decimal ds ++ 0x2e#8 :: (decimal fs ++ (x.text ++ c :: rest)))) =
      .ok (some (realOf F (if s = .minus then .minus else .none) ds fs x .none true r), s.text.length + (ds.length + (fs.length + 1 + x.text.length))) := by
  obtain ⟨z, u, hzu⟩ : ∃ z u, decimal ds = z :: u := by
    cases ds with
    | nil => exact absurd rfl hn
    | cons d ds => exact ⟨_, _, rfl⟩
  have hz := decimal_run hd z (by rw [hzu]; simp)
  have hzdot : z ≠ 0x2e#8 := by rintro rfl; exact absurd hz.1 (by decide)
  have hlx : toLower z ≠ 0x78#8 := by
    have : ∀ x : Byte, Chars.isHexDigit x = true → toLower x ≠ 0x78#8 := by decide +kernel
    exact this z hz.1
  obtain ⟨y, t, hyt, hy⟩ := exponent_head hc rest
  generalize htail : decimal fs ++ (x.text ++ c :: rest) = tail
  have hhex : hexPrefix (z :: (u ++ 0x2e#8 :: tail)) = .ok false := by
    cases u with
    | nil =>
      rw [List.nil_append, hexPrefix_two]
      simp
    | cons w u =>
      have hw := decimal_run hd w (by rw [hzu]; simp)
      rw [List.cons_append, hexPrefix_two]
      simp [hw.2.2.2.2.1, hw.2.2.2.2.2]
  have hsl : (if s = .minus then [0x2d#8] else ([] : List Byte)).length ≤ 1 := by split <;> simp
  have hfl : 0 < fs.length := List.length_pos_iff.2 hn'
  have hzul : (z :: u).length = ds.length := by rw [← hzu, decimal_length]
  rw [hzu, List.cons_append, parse_sign F s (.inl ⟨hz.1, hz.2.1, hz.2.2.1⟩), afterSign, rd_cons, except_ok_bind, if_neg hzdot, hhex, except_ok_bind, if_neg (fun h => hlx h.1),
    ← List.cons_append, hexDigits_run (by rw [← hzu]; exact fun y hy => .inl (decimal_run hd y hy).1) (by decide : ¬ Run 0x2e#8),
    if_pos (.inl (by omega)), except_ok_bind]
  dsimp only
  rw [fraction, rd_cons, except_ok_bind, if_pos rfl, ← htail, hyt, ← List.cons_append, dotDigits_ok (decimal_digit hf) hy _ _ _ _ (by
    rw [List.length_append, hzul, decimal_length]; omega), except_ok_bind]
  dsimp only
  rw [if_neg (by rw [decimal_length]; omega), except_ok_bind, ← hyt, ← hzu, finish_real F s hd hf hn hvd hvf hl hr hx hc]
  congr 2
  simp only [List.length_append, List.length_cons, decimal_length]
  omega

/-- Reading a number that begins with the dot. -/
theorem parse_dot {ρ : Type} (F : Reals ρ) (s : Sign) {fs : List Nat} (hf : ∀ d ∈ fs, d < 10) (hn' : fs ≠ []) (hvf : Zpl.Num.value 10 fs < 2 ^ 63) (hl : fs.length ≤ 44) {r : ρ}
    (hr : F.read (cells 48 ((if s = .minus then Sign.minus else .none).text ++ decimal [0] ++ 0x2e#8 :: decimal fs)) = .ok r) {x : Exponent} (hx : x.Ok) {c : Byte} (hc : x.Stop c) (rest : List Byte) :
    parseNumber F (s.text ++ 0x2e#8 :: (decimal fs ++ (x.text ++ c :: rest))) =
      .ok (some (realOf F (if s = .minus then .minus else .none) [0] fs x .isParsedReal false r), s.text.length + (fs.length + 1 + x.text.length)) := by
  obtain ⟨z, u, hzu⟩ : ∃ z u, decimal fs = z :: u := by
    cases fs with
    | nil => exact absurd rfl hn'
    | cons d ds => exact ⟨_, _, rfl⟩
  have hz := decimal_run hf z (by rw [hzu]; simp)
  obtain ⟨y, t, hyt, hy⟩ := exponent_head hc rest
  have hsl : (if s = .minus then [0x2d#8] else ([] : List Byte)).length ≤ 1 := by split <;> simp
  have hfl : 0 < fs.length := List.length_pos_iff.2 hn'
  rw [parse_sign F s (.inr ⟨rfl, z, _, by rw [hzu]; rfl, hz.1⟩), afterSign, rd_cons, except_ok_bind, if_pos rfl, push, if_pos (by omega), except_ok_bind, hyt, ← List.cons_append,
    dotDigits_ok (decimal_digit hf) hy _ _ _ _ (by rw [List.length_append, decimal_length]; simp only [List.length_cons, List.length_nil]; omega), except_ok_bind]
  dsimp only
  rw [← hyt]
  have := finish_real F s (ds := [0]) (by simp) hf (by simp) (by decide) hvf (by simp; omega) hr hx hc (s.text ++ 0x2e#8 :: (decimal fs ++ (x.text ++ c :: rest))) rest .isParsedReal false
  rw [show decimal [0] = [0x30#8] from rfl] at this
  rw [List.cons_append, this]
  congr 2
  simp only [List.length_append, List.length_cons, decimal_length]
  omega

/-! ## Lemmas: printing -/

theorem toI32_range (v : Int) : -(2 ^ 31) ≤ toI32 v ∧ toI32 v < 2 ^ 31 := by
  rw [toI32]
  have h1 := BitVec.le_toInt (BitVec.ofInt 32 v)
  have h2 := BitVec.toInt_lt (x := BitVec.ofInt 32 v)
  exact ⟨by simpa using h1, by simpa using h2⟩

theorem toI32_id {v : Int} (h1 : -(2 ^ 31) ≤ v) (h2 : v < 2 ^ 31) : toI32 v = v := by
  rw [toI32, BitVec.toInt_ofInt, Int.bmod_eq_of_le] <;> omega

theorem render_lld_item {v : Int} (h1 : -(2 ^ 63) < v) (h2 : v < 2 ^ 63) (args : List Arg) :
    renderDirective { conv := .d, length := .ll } (.long (BitVec.ofInt 64 v) :: args) = some (signed 10 v, args) := by
  have h3 : ¬ (v = -(2 ^ 63)) := by omega
  simp only [renderDirective, widthOf, precisionOf, body, intArg, Option.bind_some, Option.map_some, if_true, ofInt_toInt (by omega) h2, if_neg h3]
  simp only [layout, upTo, takeWhile_self (signed_text (b := 10) (by omega) (by omega) v)]
  simp

theorem render_zeros {k : Nat} (hk : k < 2 ^ 31) (args : List Arg) :
    renderDirective { flags := [.zero], width := .star, conv := .d } (.int (BitVec.ofNat 32 k) :: .int 0 :: args) = some (List.replicate k 0x30#8, args) := by
  have hw : (BitVec.ofNat 32 k).toInt = k := by rw [BitVec.toInt_eq_toNat_cond, BitVec.toNat_ofNat, Nat.mod_eq_of_lt (by omega), if_pos (by omega)]
  have h1 : ¬ ((k : Int) = -(2 ^ 31)) := by omega
  have e0 : signed 10 0 = [0x30#8] := by simp [signed, numeral, digits_lt, digit]
  have hz : ((0 : BitVec 32).toInt) = 0 := rfl
  have h2 : ¬ ((0 : Int) = -(2 ^ 63)) := by decide
  simp only [renderDirective, widthOf, hw, if_neg h1, precisionOf, body, intArg, Option.bind_some, Option.map_some, if_true, hz, if_neg h2, e0]
  simp only [layout, upTo]
  rcases Nat.eq_zero_or_pos k with rfl | h
  · simp
  · have h3 : ¬ (k = 0) := by omega
    have h4 : ¬ (Flag.minus ∈ [Flag.zero] ∨ (k : Int) < 0) := by simp
    have h5 : Flag.zero ∈ [Flag.zero] ∧ True := by simp
    have h6 : ¬ (Conv.d = .r) := by decide
    have h7 : ([0x30#8] : List Byte).takeWhile (fun c => decide (c ≠ 0)) = [0x30#8] := by decide
    simp only [if_neg h6, h7, Option.getD_some, Int.natAbs_natCast, List.length_singleton, if_neg h3, if_neg h4, if_pos h5]
    rw [show [0x30#8] = List.replicate 1 0x30#8 from rfl, List.replicate_append_replicate, Nat.sub_add_cancel h]

/-- What is written for a number with an exponent. -/
def expOut (base : Int) (k : Nat) (base2 exp : Int) : List Byte := signed 10 base ++ 0x2e#8 :: (List.replicate k 0x30#8 ++ signed 10 base2 ++ 0x65#8 :: signed 10 exp)

theorem signed_short {v : Int} (h1 : -(2 ^ 63) < v) (h2 : v < 2 ^ 63) : (signed 10 v).length ≤ 20 := signed_length h1 h2

theorem print_exp (pf : FloatPrinter) {o : Out} (ho : o.Ok) {b m e : Int} {k : Nat} (hb : -(2 ^ 63) < b ∧ b < 2 ^ 63) (hm : -(2 ^ 63) < m ∧ m < 2 ^ 63) (he : -(2 ^ 63) < e ∧ e < 2 ^ 63)
    (hk : k < 16) :
    Appends o (expOut b k m e) (fprintf pf o fmtExp [.long (BitVec.ofInt 64 b), .int (BitVec.ofNat 32 k), .int 0, .long (BitVec.ofInt 64 m), .long (BitVec.ofInt 64 e)]) := by
  refine fprintf_ok pf ho { items := [([], { conv := .d, length := .ll }), ([0x2e#8], { flags := [.zero], width := .star, conv := .d }), ([], { conv := .d, length := .ll }),
    ([0x65#8], { conv := .d, length := .ll })], last := [] } ⟨by simp [Literal, Directive.Valid], by simp [Literal]⟩ _ ?_ [] ?_
  · simp only [render, renderItems, render_lld_item hb.1 hb.2, render_lld_item hm.1 hm.2, render_lld_item he.1 he.2, render_zeros (show k < 2 ^ 31 by omega), Option.bind_some, Option.map_some]
    simp [expOut]
  · have h1 := signed_length hb.1 hb.2
    have h2 := signed_length hm.1 hm.2
    have h3 := signed_length he.1 he.2
    simp only [expOut, List.length_append, List.length_cons, List.length_replicate, maxLen]
    omega

theorem print_dot (pf : FloatPrinter) {o : Out} (ho : o.Ok) {m : Int} {k : Nat} (hm : -(2 ^ 63) < m ∧ m < 2 ^ 63) (hk : k < 16) :
    Appends o (0x2e#8 :: (List.replicate k 0x30#8 ++ signed 10 m)) (fprintf pf o fmtDot [.int (BitVec.ofNat 32 k), .int 0, .long (BitVec.ofInt 64 m)]) := by
  refine fprintf_ok pf ho { items := [([0x2e#8], { flags := [.zero], width := .star, conv := .d }), ([], { conv := .d, length := .ll })], last := [] }
    ⟨by simp [Literal, Directive.Valid], by simp [Literal]⟩ _ ?_ [] ?_
  · simp only [render, renderItems, render_lld_item hm.1 hm.2, render_zeros (show k < 2 ^ 31 by omega), Option.bind_some, Option.map_some]
    simp
  · have h2 := signed_length hm.1 hm.2
    simp only [List.length_append, List.length_cons, List.length_replicate, maxLen]
    omega

/-- Four bits. -/
def nibble (x : Exponent) : Int := ((if x.neg then -(BitVec.ofNat 8 x.size) else BitVec.ofNat 8 x.size).truncate 4).toInt

theorem nibble_range (x : Exponent) : -8 ≤ nibble x ∧ nibble x < 8 := by
  unfold nibble
  generalize ((if x.neg then -(BitVec.ofNat 8 x.size) else BitVec.ofNat 8 x.size).truncate 4) = y
  revert y
  decide

/-- What is written for a number that was read with an exponent. -/
theorem print_realOf {ρ : Type} (F : Reals ρ) (pf : FloatPrinter) {o : Out} (ho : o.Ok) (s : Sign) (ds fs : List Nat) (x : Exponent) (props : Props) (lead : Bool) (r : ρ)
    (hx : BitVec.ofNat 8 x.size ≠ 0) :
    Appends o ((if toI32 (s.apply (Zpl.Num.value 10 ds)) = 0 ∧ s = .minus then [0x2d#8] else []) ++
      expOut (toI32 (s.apply (Zpl.Num.value 10 ds))) ((fs.takeWhile (· = 0)).length % 16) (toI32 (Zpl.Num.value 10 fs)) (nibble x)) (printNumber F pf o (realOf F s ds fs x props lead r)) := by
  have hr1 := toI32_range (s.apply (Zpl.Num.value 10 ds))
  have hr2 := toI32_range (Zpl.Num.value 10 fs)
  have hr3 := nibble_range x
  have hm : ∀ o : Out, o.Ok → Appends o [0x2d#8] (fprintf pf o [0x2d#8, 0] []) := fun o ho => fprintf_lit pf ho (s := [0x2d#8]) (by simp [Literal]) [] [] (by decide)
  have hp : ∀ o : Out, o.Ok → Appends o (expOut (toI32 (s.apply (Zpl.Num.value 10 ds))) ((fs.takeWhile (· = 0)).length % 16) (toI32 (Zpl.Num.value 10 fs)) (nibble x))
      (printBody F pf o (realOf F s ds fs x props lead r)) := by
    intro o ho
    have h1 : (realOf F s ds fs x props lead r).props = .isExp := by rw [realOf, if_pos hx]
    have := print_exp pf ho (b := toI32 (s.apply (Zpl.Num.value 10 ds))) (m := toI32 (Zpl.Num.value 10 fs)) (e := nibble x) (k := (fs.takeWhile (· = 0)).length % 16)
      (by omega) (by omega) (by omega) (by omega)
    rw [printBody, h1]
    exact this
  rw [printNumber]
  by_cases h : toI32 (s.apply (Zpl.Num.value 10 ds)) = 0 ∧ s = .minus
  · rw [if_pos h]
    have h1 : (realOf F s ds fs x props lead r).negZero = true := by simpa [realOf] using h
    rw [if_pos h1]
    exact Appends.bind (hm o ho) hp
  · rw [if_neg h, List.nil_append]
    have h1 : ¬ ((realOf F s ds fs x props lead r).negZero = true) := by simpa [realOf] using h
    rw [if_neg h1, except_ok_bind]
    exact hp o ho

/-- The fraction digits `0…0m`. -/
def fracDigits (k m : Nat) : List Nat := List.replicate k 0 ++ digits 10 m

theorem value_append_zeros (k : Nat) (ds : List Nat) : Zpl.Num.value 10 (List.replicate k 0 ++ ds) = Zpl.Num.value 10 ds := by
  induction k with
  | zero => rfl
  | succ k ih =>
    rw [List.replicate_succ, List.cons_append]
    rw [← ih]
    simp [Zpl.Num.value]

theorem frac_ok {k m : Nat} (hm0 : 0 < m) : decimal (fracDigits k m) = List.replicate k 0x30#8 ++ numeral false 10 m ∧ (∀ d ∈ fracDigits k m, d < 10) ∧ fracDigits k m ≠ [] ∧
    Zpl.Num.value 10 (fracDigits k m) = m ∧ ((fracDigits k m).takeWhile (· = 0)).length = k := by
  have hd := digits_mem (b := 10) (by omega) m
  obtain ⟨d, t, e, hh⟩ := digits_head (b := 10) (by omega) m hm0
  refine ⟨?_, ?_, ?_, ?_, ?_⟩
  · rw [fracDigits, decimal, List.map_append, List.map_replicate]; rfl
  · intro x hx
    rcases List.mem_append.1 hx with h | h
    · rw [List.eq_of_mem_replicate h]; omega
    · exact hd x h
  · rw [fracDigits, e]; simp
  · rw [fracDigits, value_append_zeros, digits_value (by omega)]
  · rw [fracDigits, e, List.takeWhile_append_of_pos (by simp), List.takeWhile_cons_of_neg (by simpa using hh)]
    simp

theorem print_dotOf {ρ : Type} (F : Reals ρ) (pf : FloatPrinter) {o : Out} (ho : o.Ok) (s : Sign) (fs : List Nat) (r : ρ) :
    Appends o ((if s = .minus then [0x2d#8] else []) ++ 0x2e#8 :: (List.replicate ((fs.takeWhile (· = 0)).length % 16) 0x30#8 ++ signed 10 (toI32 (Zpl.Num.value 10 fs))))
      (printNumber F pf o (realOf F s [0] fs .none .isParsedReal false r)) := by
  have hr2 := toI32_range (Zpl.Num.value 10 fs)
  have hz : toI32 (s.apply (Zpl.Num.value 10 [0])) = 0 := by cases s <;> decide
  have hm : ∀ o : Out, o.Ok → Appends o [0x2d#8] (fprintf pf o [0x2d#8, 0] []) := fun o ho => fprintf_lit pf ho (s := [0x2d#8]) (by simp [Literal]) [] [] (by decide)
  have hp : ∀ o : Out, o.Ok → Appends o (0x2e#8 :: (List.replicate ((fs.takeWhile (· = 0)).length % 16) 0x30#8 ++ signed 10 (toI32 (Zpl.Num.value 10 fs))))
      (printBody F pf o (realOf F s [0] fs .none .isParsedReal false r)) := by
    intro o ho
    exact print_dot pf ho (m := toI32 (Zpl.Num.value 10 fs)) (k := (fs.takeWhile (· = 0)).length % 16) (by omega) (by omega)
  rw [printNumber]
  by_cases h : s = .minus
  · have h1 : (realOf F s [0] fs .none .isParsedReal false r).negZero = true := by simp [realOf, h, hz, Sign.apply, Zpl.Num.value, toI32]
    rw [if_pos h, if_pos h1]
    exact Appends.bind (hm o ho) hp
  · have h1 : ¬ ((realOf F s [0] fs .none .isParsedReal false r).negZero = true) := by simp [realOf, h]
    rw [if_neg h, if_neg h1, except_ok_bind, List.nil_append]
    exact hp o ho

/-! ## C89 -/

/-- `-12.0034`: a sign, the digits of `b`, a dot, `k` zeros and the digits of `m`. -/
def mantissa (s : Sign) (b k m : Nat) : List Byte := s.text ++ (numeral false 10 b ++ 0x2e#8 :: (List.replicate k 0x30#8 ++ numeral false 10 m))

/-- `-12.0034e-5`. -/
def scientific (s : Sign) (b k m : Nat) (es : Sign) (x : Nat) : List Byte := mantissa s b k m ++ 0x65#8 :: (es.text ++ numeral false 10 x)

theorem numeral_length {n k : Nat} (hk : 1 ≤ k) (h : n < 10 ^ k) : (digits 10 n).length ≤ k := digits_length (by omega) k n hk h

theorem scaleLoop_repeat {ρ : Type} (F : Reals ρ) (neg : Bool) (n : Nat) (r : ρ) : scaleLoop F neg n r = Nat.repeat (F.scale neg) n r := by
  have key : ∀ (n : Nat) (r : ρ), Nat.repeat (F.scale neg) n (F.scale neg r) = F.scale neg (Nat.repeat (F.scale neg) n r) := by
    intro n
    induction n with
    | zero => intro r; rfl
    | succ n ih => intro r; rw [Nat.repeat, ih, Nat.repeat]
  induction n generalizing r with
  | zero => rfl
  | succ n ih => rw [scaleLoop, ih, key, Nat.repeat]

/-- The shared part: how such a number is read, and what is written for it. -/
theorem scientific_ok {ρ : Type} (F : Reals ρ) (pf : FloatPrinter) {s : Sign} (hs : s ≠ .plus) (es : Sign) {b k m x : Nat} {r : ρ} (hb : b < 2 ^ 32) (hm : 0 < m) (hm2 : m < 2 ^ 32) (hk : k ≤ 25)
    (hx : 0 < x) (hx2 : x < 128) (hr : ∀ rest, F.read (mantissa s b k m ++ 0 :: rest) = .ok r) :
    ∃ n, n.val = .real (Nat.repeat (F.scale (es == .minus)) x r) ∧
      (∀ c rest, Chars.isDigit c = false → parseNumber F (scientific s b k m es x ++ c :: rest) = .ok (some n, (scientific s b k m es x).length)) ∧
      ∀ o : Out, o.Ok → Appends o ((if toI32 (s.apply b) = 0 ∧ s = .minus then [0x2d#8] else []) ++
        expOut (toI32 (s.apply b)) (k % 16) (toI32 m) ((if es = .minus then -(BitVec.ofNat 4 x) else BitVec.ofNat 4 x).toInt)) (printNumber F pf o n) := by
  obtain ⟨b1, b2, b3, b4, -⟩ := decimal_digits b (by omega)
  have b5 := numeral_length (n := b) (k := 10) (by omega) (by omega)
  obtain ⟨m1, m2, m3, m4, m5⟩ := frac_ok (k := k) hm
  have m6 : (fracDigits k m).length ≤ k + 10 := by
    rw [fracDigits, List.length_append, List.length_replicate]
    have := numeral_length (n := m) (k := 10) (by omega) (by omega)
    omega
  obtain ⟨x1, x2, x3, x4, -⟩ := decimal_digits x (by omega)
  have x5 := numeral_length (n := x) (k := 3) (by omega) (by omega)
  have hes : (if s = .minus then Sign.minus else .none) = s := by
    cases s with
    | plus => exact absurd rfl hs
    | minus => rfl
    | none => rfl
  have hbuf : s.text ++ decimal (digits 10 b) ++ 0x2e#8 :: decimal (fracDigits k m) = mantissa s b k m := by rw [mantissa, m1, ← b1, List.append_assoc]
  have hlen : (mantissa s b k m).length < 48 := by
    rw [← hbuf]
    have : s.text.length ≤ 1 := by cases s <;> simp [Sign.text]
    simp only [List.length_append, List.length_cons, decimal_length]
    omega
  have hr' : F.read (cells 48 ((if s = .minus then Sign.minus else .none).text ++ decimal (digits 10 b) ++ 0x2e#8 :: decimal (fracDigits k m))) = .ok r := by
    rw [hes, hbuf, cells_text hlen, hr]
  have hxo : (Exponent.some false es (digits 10 x)).Ok := ⟨x3, by omega, x2⟩
  have hsz : (Exponent.some false es (digits 10 x)).size = x := x4
  have hx8 : (BitVec.ofNat 8 x).toInt.toNat = x := by
    rw [BitVec.toInt_eq_toNat_cond, BitVec.toNat_ofNat, Nat.mod_eq_of_lt (by omega), if_pos (by omega)]
    omega
  refine ⟨realOf F s (digits 10 b) (fracDigits k m) (.some false es (digits 10 x)) .none true r, ?_, fun c rest hc => ?_, fun o ho => ?_⟩
  · simp only [realOf, hsz, hx8, scaleLoop_repeat]
    rfl
  · have h := parse_real F s b2 m2 b3 m3 (by omega) (by omega) (by omega) hr' hxo (c := c) ⟨hc, trivial⟩ rest
    rw [hes] at h
    have e : scientific s b k m es x ++ c :: rest = s.text ++ (decimal (digits 10 b) ++ 0x2e#8 :: (decimal (fracDigits k m) ++ ((Exponent.some false es (digits 10 x)).text ++ c :: rest))) := by
      rw [scientific, ← hbuf, Exponent.text]
      simp [x1]
    rw [e, h]
    congr 2
    rw [scientific, ← hbuf, x1]
    simp only [Exponent.text, List.length_append, List.length_cons, decimal_length, Bool.false_eq_true, if_false]
    omega
  · have h := print_realOf F pf ho s (digits 10 b) (fracDigits k m) (.some false es (digits 10 x)) .none true r (by
      rw [hsz]
      intro h
      have := congrArg BitVec.toNat h
      rw [BitVec.toNat_ofNat, Nat.mod_eq_of_lt (by omega)] at this
      simp at this
      omega)
    rw [b4, m4, m5] at h
    have hn : nibble (.some false es (digits 10 x)) = (if es = .minus then -(BitVec.ofNat 4 x) else BitVec.ofNat 4 x).toInt := by
      rw [nibble, hsz]
      congr 1
      cases es <;> apply BitVec.eq_of_toNat_eq <;> simp [Exponent.neg] <;> omega
    rw [hn] at h
    exact h

/-- **C89.** A number in scientific notation is read as the value of its mantissa, as `zpl_str_to_f64` reads it, multiplied by 10 or 0.1 as often as the exponent says; and it is written again
    exactly as it was, so that reading and writing it any number of times changes nothing.

    `_partial`: the exponent lies between -8 and 7, the digits before and after the dot are numbers below `2^31`, and the fraction has at most 15 leading zeros and is not zero; otherwise see
    `C89_large_exponent_changes`, `C89_large_fraction_changes`, `C89_many_zeros_lost` and `C89_zero_fraction_grows`. -/
theorem C89_exponent_partial {ρ : Type} (F : Reals ρ) (pf : FloatPrinter) {s es : Sign} (hs : s ≠ .plus) (hes : es ≠ .plus) {b k m x : Nat} {r : ρ} (hb : b < 2 ^ 31) (hm : 0 < m) (hm2 : m < 2 ^ 31)
    (hk : k ≤ 15) (hx : 0 < x) (hx2 : x ≤ if es = .minus then 8 else 7) (hr : ∀ rest, F.read (mantissa s b k m ++ 0 :: rest) = .ok r) :
    ∃ n, n.val = .real (Nat.repeat (F.scale (es == .minus)) x r) ∧
      (∀ c rest, Chars.isDigit c = false → parseNumber F (scientific s b k m es x ++ c :: rest) = .ok (some n, (scientific s b k m es x).length)) ∧
      ∀ o : Out, o.Ok → Appends o (scientific s b k m es x) (printNumber F pf o n) := by
  obtain ⟨n, h1, h2, h3⟩ := scientific_ok F pf hs es (b := b) (k := k) (m := m) (x := x) (by omega) hm (by omega) (by omega) hx (by split at hx2 <;> omega) hr
  refine ⟨n, h1, h2, fun o ho => ?_⟩
  have h := h3 o ho
  have e1 : toI32 (s.apply b) = s.apply b := by apply toI32_id <;> cases s <;> simp [Sign.apply] <;> omega
  have e2 : toI32 m = m := toI32_id (by omega) (by omega)
  have e3 : (if es = .minus then -(BitVec.ofNat 4 x) else BitVec.ofNat 4 x).toInt = es.apply x := by
    have k7 : ∀ x : Fin 8, (BitVec.ofNat 4 x.val).toInt = (x.val : Int) := by decide
    have k8 : ∀ x : Fin 9, (-(BitVec.ofNat 4 x.val)).toInt = -(x.val : Int) := by decide
    cases es with
    | plus => exact absurd rfl hes
    | minus => exact k8 ⟨x, by simp at hx2; omega⟩
    | none => exact k7 ⟨x, by simp at hx2; omega⟩
  have e4 : signed 10 (m : Int) = numeral false 10 m := by rw [signed, if_neg (by omega), Int.natAbs_natCast]
  have e5 : signed 10 (es.apply x) = es.text ++ numeral false 10 x := by
    cases es with
    | plus => exact absurd rfl hes
    | minus => rw [Sign.apply, if_pos rfl, signed, if_pos (by omega), Int.natAbs_neg, Int.natAbs_natCast]; rfl
    | none => rw [Sign.apply, if_neg (by decide), signed, if_neg (by omega), Int.natAbs_natCast]; rfl
  have e6 : (if s.apply b = 0 ∧ s = .minus then [0x2d#8] else []) ++ signed 10 (s.apply b) = s.text ++ numeral false 10 b := by
    cases s with
    | plus => exact absurd rfl hs
    | none => rw [if_neg (by simp), Sign.apply, if_neg (by decide), signed, if_neg (by omega), Int.natAbs_natCast]; rfl
    | minus =>
      rw [Sign.apply, if_pos rfl]
      by_cases h0 : b = 0
      · subst h0; rw [if_pos (by simp)]; rfl
      · rw [if_neg (by omega), signed, if_pos (by omega), Int.natAbs_neg, Int.natAbs_natCast]; rfl
  rw [e1, e2, e3, Nat.mod_eq_of_lt (by omega), expOut, ← List.append_assoc, e6, e4, e5] at h
  rw [scientific, mantissa]
  simpa using h

/-- **C89.** A number that begins with the dot, without exponent, is read as `zpl_str_to_f64` reads it with a zero before the dot, and written again exactly as it was.

    `_partial`: the same limits for the fraction. -/
theorem C89_dot_partial {ρ : Type} (F : Reals ρ) (pf : FloatPrinter) {s : Sign} (hs : s ≠ .plus) {k m : Nat} {r : ρ} (hm : 0 < m) (hm2 : m < 2 ^ 31) (hk : k ≤ 15)
    (hr : ∀ rest, F.read (mantissa s 0 k m ++ 0 :: rest) = .ok r) :
    ∃ n, n.val = .real r ∧
      (∀ c rest, Chars.isDigit c = false → c ≠ 0x2e#8 → c ≠ 0x65#8 → c ≠ 0x45#8 →
        parseNumber F (s.text ++ 0x2e#8 :: (List.replicate k 0x30#8 ++ numeral false 10 m) ++ c :: rest) =
          .ok (some n, (s.text ++ 0x2e#8 :: (List.replicate k 0x30#8 ++ numeral false 10 m)).length)) ∧
      ∀ o : Out, o.Ok → Appends o (s.text ++ 0x2e#8 :: (List.replicate k 0x30#8 ++ numeral false 10 m)) (printNumber F pf o n) := by
  obtain ⟨m1, m2, m3, m4, m5⟩ := frac_ok (k := k) hm
  have m6 : (fracDigits k m).length ≤ k + 10 := by
    rw [fracDigits, List.length_append, List.length_replicate]
    have := numeral_length (n := m) (k := 10) (by omega) (by omega)
    omega
  have hes : (if s = .minus then Sign.minus else .none) = s := by
    cases s with
    | plus => exact absurd rfl hs
    | minus => rfl
    | none => rfl
  have hbuf : s.text ++ decimal [0] ++ 0x2e#8 :: decimal (fracDigits k m) = mantissa s 0 k m := by
    rw [mantissa, m1, List.append_assoc]
    have : numeral false 10 0 = decimal [0] := by simp [numeral, decimal, digits_lt]
    rw [this]
  have hlen : (mantissa s 0 k m).length < 48 := by
    rw [← hbuf]
    have : s.text.length ≤ 1 := by cases s <;> simp [Sign.text]
    simp only [List.length_append, List.length_cons, decimal_length, List.length_nil]
    omega
  have hr' : F.read (cells 48 ((if s = .minus then Sign.minus else .none).text ++ decimal [0] ++ 0x2e#8 :: decimal (fracDigits k m))) = .ok r := by
    rw [hes, hbuf, cells_text hlen, hr]
  refine ⟨realOf F s [0] (fracDigits k m) .none .isParsedReal false r, rfl, fun c rest h1 h2 h3 h4 => ?_, fun o ho => ?_⟩
  · have h := parse_dot F s m2 m3 (by omega) (by omega) hr' (x := .none) trivial (c := c) ⟨h1, h2, h3, h4⟩ rest
    rw [hes, Exponent.text, List.nil_append, m1, List.length_nil] at h
    have hl : (s.text ++ 0x2e#8 :: (List.replicate k 0x30#8 ++ numeral false 10 m)).length = s.text.length + ((fracDigits k m).length + 1 + 0) := by
      rw [← m1]
      simp only [List.length_append, List.length_cons, decimal_length]
    rw [List.append_assoc, List.cons_append, h, hl]
  · have h := print_dotOf F pf ho s (fracDigits k m) r
    have e4 : signed 10 (m : Int) = numeral false 10 m := by rw [signed, if_neg (by omega), Int.natAbs_natCast]
    rw [m4, m5, toI32_id (by omega) (by omega), Nat.mod_eq_of_lt (by omega), e4] at h
    have : (if s = .minus then [0x2d#8] else []) = s.text := by
      cases s with
      | plus => exact absurd rfl hs
      | minus => rfl
      | none => rfl
    rwa [this] at h

/-- **C89 fails** for exponents from 8 to 15: `1.5e8` is read as it should be, but written as `1.5e-8`. -/
theorem C89_large_exponent_changes {ρ : Type} (F : Reals ρ) (pf : FloatPrinter) {b k m x : Nat} {r : ρ} (hb : b < 2 ^ 31) (hm : 0 < m) (hm2 : m < 2 ^ 31) (hk : k ≤ 15) (hx : 8 ≤ x) (hx2 : x ≤ 15)
    (hr : ∀ rest, F.read (mantissa .none b k m ++ 0 :: rest) = .ok r) :
    ∃ n, n.val = .real (Nat.repeat (F.scale false) x r) ∧
      (∀ c rest, Chars.isDigit c = false → parseNumber F (scientific .none b k m .none x ++ c :: rest) = .ok (some n, (scientific .none b k m .none x).length)) ∧
      ∀ o : Out, o.Ok → Appends o (scientific .none b k m .minus (16 - x)) (printNumber F pf o n) := by
  obtain ⟨n, h1, h2, h3⟩ := scientific_ok F pf (s := .none) (by decide) .none (b := b) (k := k) (m := m) (x := x) (by omega) hm (by omega) (by omega) (by omega) (by omega) hr
  refine ⟨n, h1, h2, fun o ho => ?_⟩
  have h := h3 o ho
  have e3 : (if Sign.none = .minus then -(BitVec.ofNat 4 x) else BitVec.ofNat 4 x).toInt = -((16 - x : Nat) : Int) := by
    have k7 : ∀ x : Fin 16, 8 ≤ x.val → (BitVec.ofNat 4 x.val).toInt = -((16 - x.val : Nat) : Int) := by decide
    exact k7 ⟨x, by omega⟩ hx
  rw [if_neg (by simp), List.nil_append, e3, Sign.apply, if_neg (by decide), toI32_id (by omega) (by omega), toI32_id (by omega) (by omega), Nat.mod_eq_of_lt (by omega), expOut] at h
  simp only [signed] at h
  rw [if_neg (by omega), if_neg (by omega), if_pos (by omega), Int.natAbs_natCast, Int.natAbs_natCast, Int.natAbs_neg, Int.natAbs_natCast] at h
  rw [scientific, mantissa]
  simpa [Sign.text] using h

/-- **C89 fails** for fractions of 2147483648 and more (as a number): `1.3000000000e2` is written as `1.-1294967296e2`. -/
theorem C89_large_fraction_changes {ρ : Type} (F : Reals ρ) (pf : FloatPrinter) {b k m x : Nat} {r : ρ} (hb : b < 2 ^ 31) (hm : 2 ^ 31 ≤ m) (hm2 : m < 2 ^ 32) (hk : k ≤ 15) (hx : 0 < x) (hx2 : x ≤ 7)
    (hr : ∀ rest, F.read (mantissa .none b k m ++ 0 :: rest) = .ok r) :
    ∃ n, (∀ c rest, Chars.isDigit c = false → parseNumber F (scientific .none b k m .none x ++ c :: rest) = .ok (some n, (scientific .none b k m .none x).length)) ∧
      ∀ o : Out, o.Ok → Appends o (numeral false 10 b ++ 0x2e#8 :: (List.replicate k 0x30#8 ++ 0x2d#8 :: numeral false 10 (2 ^ 32 - m) ++ 0x65#8 :: numeral false 10 x)) (printNumber F pf o n) := by
  obtain ⟨n, h1, h2, h3⟩ := scientific_ok F pf (s := .none) (by decide) .none (b := b) (k := k) (m := m) (x := x) (by omega) (by omega) (by omega) (by omega) (by omega) (by omega) hr
  refine ⟨n, h2, fun o ho => ?_⟩
  have h := h3 o ho
  have e3 : (if Sign.none = .minus then -(BitVec.ofNat 4 x) else BitVec.ofNat 4 x).toInt = (x : Int) := by
    have k7 : ∀ x : Fin 8, (BitVec.ofNat 4 x.val).toInt = (x.val : Int) := by decide
    exact k7 ⟨x, by omega⟩
  have e2 : toI32 m = -((2 ^ 32 - m : Nat) : Int) := by
    rw [toI32, BitVec.toInt_ofInt, Int.bmod_def]
    omega
  rw [if_neg (by simp), List.nil_append, e3, Sign.apply, if_neg (by decide), toI32_id (by omega) (by omega), e2, Nat.mod_eq_of_lt (by omega), expOut] at h
  simp only [signed] at h
  rw [if_neg (by omega), if_pos (by omega), if_neg (by omega), Int.natAbs_natCast, Int.natAbs_natCast, Int.natAbs_neg, Int.natAbs_natCast] at h
  simpa using h

/-- **C89 fails** for fractions with 16 to 25 leading zeros: 16 of them are dropped. -/
theorem C89_many_zeros_lost {ρ : Type} (F : Reals ρ) (pf : FloatPrinter) {b k m x : Nat} {r : ρ} (hb : b < 2 ^ 31) (hm : 0 < m) (hm2 : m < 2 ^ 31) (hk : 16 ≤ k) (hk2 : k ≤ 25) (hx : 0 < x) (hx2 : x ≤ 7)
    (hr : ∀ rest, F.read (mantissa .none b k m ++ 0 :: rest) = .ok r) :
    ∃ n, (∀ c rest, Chars.isDigit c = false → parseNumber F (scientific .none b k m .none x ++ c :: rest) = .ok (some n, (scientific .none b k m .none x).length)) ∧
      ∀ o : Out, o.Ok → Appends o (scientific .none b (k - 16) m .none x) (printNumber F pf o n) := by
  obtain ⟨n, h1, h2, h3⟩ := scientific_ok F pf (s := .none) (by decide) .none (b := b) (k := k) (m := m) (x := x) (by omega) (by omega) (by omega) (by omega) (by omega) (by omega) hr
  refine ⟨n, h2, fun o ho => ?_⟩
  have h := h3 o ho
  have e3 : (if Sign.none = .minus then -(BitVec.ofNat 4 x) else BitVec.ofNat 4 x).toInt = (x : Int) := by
    have k7 : ∀ x : Fin 8, (BitVec.ofNat 4 x.val).toInt = (x.val : Int) := by decide
    exact k7 ⟨x, by omega⟩
  rw [if_neg (by simp), List.nil_append, e3, Sign.apply, if_neg (by decide), toI32_id (by omega) (by omega), toI32_id (by omega) (by omega), show k % 16 = k - 16 by omega, expOut] at h
  simp only [signed] at h
  rw [if_neg (by omega), if_neg (by omega), if_neg (by omega), Int.natAbs_natCast, Int.natAbs_natCast, Int.natAbs_natCast] at h
  rw [scientific, mantissa]
  simpa [Sign.text] using h

/-- **C89 fails** for a fraction of zeros: `2.0e3` is written as `2.00e3`, and gets one more zero each time it is read and written. -/
theorem C89_zero_fraction_grows {ρ : Type} (F : Reals ρ) (pf : FloatPrinter) {b k x : Nat} {r : ρ} (hb : b < 2 ^ 31) (hk : 0 < k) (hk2 : k ≤ 15) (hx : 0 < x) (hx2 : x ≤ 7)
    (hr : ∀ rest, F.read (numeral false 10 b ++ 0x2e#8 :: List.replicate k 0x30#8 ++ 0 :: rest) = .ok r) :
    ∃ n, (∀ c rest, Chars.isDigit c = false →
        parseNumber F (numeral false 10 b ++ 0x2e#8 :: (List.replicate k 0x30#8 ++ 0x65#8 :: numeral false 10 x) ++ c :: rest) =
          .ok (some n, (numeral false 10 b ++ 0x2e#8 :: (List.replicate k 0x30#8 ++ 0x65#8 :: numeral false 10 x)).length)) ∧
      ∀ o : Out, o.Ok → Appends o (numeral false 10 b ++ 0x2e#8 :: (List.replicate (k + 1) 0x30#8 ++ 0x65#8 :: numeral false 10 x)) (printNumber F pf o n) := by
  obtain ⟨b1, b2, b3, b4, -⟩ := decimal_digits b (by omega)
  have b5 := numeral_length (n := b) (k := 10) (by omega) (by omega)
  obtain ⟨x1, x2, x3, x4, -⟩ := decimal_digits x (by omega)
  have x5 := numeral_length (n := x) (k := 1) (by omega) (by omega)
  have z1 : decimal (List.replicate k 0) = List.replicate k 0x30#8 := by rw [decimal, List.map_replicate]; rfl
  have z2 : Zpl.Num.value 10 (List.replicate k 0) = 0 := by
    have := value_append_zeros k []
    rwa [List.append_nil] at this
  have z3 : ((List.replicate k 0).takeWhile (· = 0)).length = k := by
    have := List.takeWhile_append_of_pos (p := fun d : Nat => decide (d = 0)) (l₁ := List.replicate k 0) (l₂ := []) (by simp)
    rw [List.append_nil] at this
    rw [this]; simp
  have hlen : (numeral false 10 b ++ 0x2e#8 :: List.replicate k 0x30#8).length < 48 := by
    rw [b1]; simp only [List.length_append, List.length_cons, decimal_length, List.length_replicate]; omega
  have hr' : F.read (cells 48 ((if Sign.none = .minus then Sign.minus else .none).text ++ decimal (digits 10 b) ++ 0x2e#8 :: decimal (List.replicate k 0))) = .ok r := by
    rw [if_neg (by decide), Sign.text, List.nil_append, z1, ← b1, cells_text hlen, hr]
  have hxo : (Exponent.some false .none (digits 10 x)).Ok := ⟨x3, by omega, x2⟩
  have hsz : (Exponent.some false .none (digits 10 x)).size = x := x4
  refine ⟨realOf F .none (digits 10 b) (List.replicate k 0) (.some false .none (digits 10 x)) .none true r, fun c rest hc => ?_, fun o ho => ?_⟩
  · have h := parse_real F .none b2 (fs := List.replicate k 0) (by intro d hd; rw [List.eq_of_mem_replicate hd]; omega) b3 (by simp; omega) (by omega) (by omega) (by simp; omega) hr' hxo (c := c)
      ⟨hc, trivial⟩ rest
    rw [if_neg (by decide), Sign.text, List.nil_append, z1, ← b1] at h
    have e : numeral false 10 b ++ 0x2e#8 :: (List.replicate k 0x30#8 ++ 0x65#8 :: numeral false 10 x) ++ c :: rest =
        numeral false 10 b ++ 0x2e#8 :: (List.replicate k 0x30#8 ++ ((Exponent.some false .none (digits 10 x)).text ++ c :: rest)) := by
      simp [Exponent.text, Sign.text, x1]
    rw [e, h]
    congr 2
    rw [b1, x1]
    simp only [Exponent.text, Sign.text, List.length_append, List.length_cons, decimal_length, List.length_replicate, List.length_nil]
    omega
  · have h := print_realOf F pf ho .none (digits 10 b) (List.replicate k 0) (.some false .none (digits 10 x)) .none true r (by
      rw [hsz]
      intro h
      have := congrArg BitVec.toNat h
      rw [BitVec.toNat_ofNat, Nat.mod_eq_of_lt (by omega)] at this
      simp at this
      omega)
    have hn : nibble (.some false .none (digits 10 x)) = (x : Int) := by
      rw [nibble, hsz]
      have k7 : ∀ x : Fin 8, ((BitVec.ofNat 8 x.val).truncate 4).toInt = (x.val : Int) := by decide
      exact k7 ⟨x, by omega⟩
    rw [b4, z2, z3, hn, if_neg (by simp), List.nil_append, Sign.apply, if_neg (by decide), toI32_id (by omega) (by omega), Nat.mod_eq_of_lt (by omega), expOut] at h
    have e0 : signed 10 (toI32 ((0 : Nat) : Int)) = [0x30#8] := by
      rw [toI32_id (by omega) (by omega)]
      simp [signed, numeral, digits_lt, digit]
    rw [e0] at h
    simp only [signed] at h
    rw [if_neg (by omega), if_neg (by omega), Int.natAbs_natCast, Int.natAbs_natCast] at h
    rw [List.replicate_succ']
    simpa using h

/-- **C89.** So documents may contain such numbers: the assumption `Printable` of `Json.C49_round_trip_partial` is met. -/
theorem C89_json_partial {ρ : Type} (F : Reals ρ) (pf : FloatPrinter) {s es : Sign} (hs : s ≠ .plus) (hes : es ≠ .plus) {b k m x : Nat} {r : ρ} (hb : b < 2 ^ 31) (hm : 0 < m) (hm2 : m < 2 ^ 31)
    (hk : k ≤ 15) (hx : 0 < x) (hx2 : x ≤ if es = .minus then 8 else 7) (hr : ∀ rest, F.read (mantissa s b k m ++ 0 :: rest) = .ok r) :
    ∃ n, n.val = .real (Nat.repeat (F.scale (es == .minus)) x r) ∧ Json.Printable (jsonIO F pf) n := by
  obtain ⟨n, h1, h2, h3⟩ := C89_exponent_partial F pf hs hes hb hm hm2 hk hx hx2 hr
  refine ⟨n, h1, _, ⟨?_, fun c r hc => h2 c r ?_⟩, h3⟩
  · obtain ⟨e1, e2, e3, -⟩ := decimal_digits b (by omega)
    obtain ⟨c, u, e, hc⟩ := decimal_head e2 e3
    rw [scientific, mantissa, e1, e]
    cases s with
    | plus => exact absurd rfl hs
    | none => exact ⟨c, _, rfl, .inl hc⟩
    | minus => exact ⟨_, _, rfl, .inr (.inr (.inr ⟨rfl, c, _, rfl, hc⟩))⟩
  · have := (follow_stop hc).1
    have k : ∀ c : Byte, ¬ Run c → Chars.isDigit c = false := by decide +kernel
    exact k c this

/-! ## Examples -/

/-- Floating-point numbers of which only the text is kept, with the powers of ten. -/
def textReals : Reals (List Byte × Int) := ⟨fun s => .ok (s.takeWhile (· ≠ 0), 0), fun neg r => (r.1, if neg then r.2 - 1 else r.2 + 1), fun o _ => .ok o⟩

theorem textReals_read {s : List Byte} (hs : Text s) (rest : List Byte) : textReals.read (s ++ 0 :: rest) = .ok (s, 0) := by
  show Except.ok _ = _
  rw [List.takeWhile_append_of_pos (by intro a ha; simpa using hs a ha)]
  simp

theorem mantissa_text {s : Sign} {b k m : Nat} : Text (mantissa s b k m) := by
  intro c hc
  rw [mantissa] at hc
  rcases List.mem_append.1 hc with h | h
  · cases s <;> simp [Sign.text] at h <;> subst h <;> decide
  · rcases List.mem_append.1 h with h | h
    · exact numeral_text false (b := 10) (by omega) (by omega) b c h
    · rcases List.mem_cons.1 h with rfl | h
      · decide
      · rcases List.mem_append.1 h with h | h
        · rw [List.eq_of_mem_replicate h]; decide
        · exact numeral_text false (b := 10) (by omega) (by omega) m c h

/-- The hypotheses of `C89_exponent_partial` are met: `-12.0034e-5`. -/
example (pf : FloatPrinter) : ∃ n, n.val = .real (mantissa .minus 12 2 34, -5) ∧
    (∀ c rest, Chars.isDigit c = false → parseNumber textReals (scientific .minus 12 2 34 .minus 5 ++ c :: rest) = .ok (some n, (scientific .minus 12 2 34 .minus 5).length)) ∧
    ∀ o : Out, o.Ok → Appends o (scientific .minus 12 2 34 .minus 5) (printNumber textReals pf o n) :=
  C89_exponent_partial textReals pf (s := .minus) (es := .minus) (b := 12) (k := 2) (m := 34) (x := 5) (by decide) (by decide) (by decide) (by decide) (by decide) (by decide) (by decide) (by decide) (textReals_read mantissa_text)

/-- So are those of `C89_dot_partial`: `-.05`. -/
example (pf : FloatPrinter) : ∃ n, n.val = .real (mantissa .minus 0 1 5, 0) ∧
    (∀ c rest, Chars.isDigit c = false → c ≠ 0x2e#8 → c ≠ 0x65#8 → c ≠ 0x45#8 →
      parseNumber textReals (Sign.minus.text ++ 0x2e#8 :: (List.replicate 1 0x30#8 ++ numeral false 10 5) ++ c :: rest) =
        .ok (some n, (Sign.minus.text ++ 0x2e#8 :: (List.replicate 1 0x30#8 ++ numeral false 10 5)).length)) ∧
    ∀ o : Out, o.Ok → Appends o (Sign.minus.text ++ 0x2e#8 :: (List.replicate 1 0x30#8 ++ numeral false 10 5)) (printNumber textReals pf o n) :=
  C89_dot_partial textReals pf (by decide) (by decide) (by decide) (by decide) (textReals_read mantissa_text)

/-- And those of the failures: `1.5e8`, `1.3000000000e2`, `1.` with 20 zeros and `7e2`, `2.0e3`. -/
example (pf : FloatPrinter) : ∃ n, n.val = .real (mantissa .none 1 0 5, 8) ∧
    (∀ c rest, Chars.isDigit c = false → parseNumber textReals (scientific .none 1 0 5 .none 8 ++ c :: rest) = .ok (some n, (scientific .none 1 0 5 .none 8).length)) ∧
    ∀ o : Out, o.Ok → Appends o (scientific .none 1 0 5 .minus 8) (printNumber textReals pf o n) :=
  C89_large_exponent_changes textReals pf (b := 1) (k := 0) (m := 5) (x := 8) (by decide) (by decide) (by decide) (by decide) (by decide) (by decide) (textReals_read mantissa_text)

example (pf : FloatPrinter) : ∃ n,
    (∀ c rest, Chars.isDigit c = false → parseNumber textReals (scientific .none 1 0 3000000000 .none 2 ++ c :: rest) = .ok (some n, (scientific .none 1 0 3000000000 .none 2).length)) ∧
    ∀ o : Out, o.Ok → Appends o (numeral false 10 1 ++ 0x2e#8 :: (List.replicate 0 0x30#8 ++ 0x2d#8 :: numeral false 10 (2 ^ 32 - 3000000000) ++ 0x65#8 :: numeral false 10 2)) (printNumber textReals pf o n) :=
  C89_large_fraction_changes textReals pf (by decide) (by decide) (by decide) (by decide) (by decide) (by decide) (textReals_read mantissa_text)

example (pf : FloatPrinter) : ∃ n,
    (∀ c rest, Chars.isDigit c = false → parseNumber textReals (scientific .none 1 20 7 .none 2 ++ c :: rest) = .ok (some n, (scientific .none 1 20 7 .none 2).length)) ∧
    ∀ o : Out, o.Ok → Appends o (scientific .none 1 (20 - 16) 7 .none 2) (printNumber textReals pf o n) :=
  C89_many_zeros_lost textReals pf (by decide) (by decide) (by decide) (by decide) (by decide) (by decide) (by decide) (textReals_read mantissa_text)

example (pf : FloatPrinter) : ∃ n, (∀ c rest, Chars.isDigit c = false →
      parseNumber textReals (numeral false 10 2 ++ 0x2e#8 :: (List.replicate 1 0x30#8 ++ 0x65#8 :: numeral false 10 3) ++ c :: rest) =
        .ok (some n, (numeral false 10 2 ++ 0x2e#8 :: (List.replicate 1 0x30#8 ++ 0x65#8 :: numeral false 10 3)).length)) ∧
    ∀ o : Out, o.Ok → Appends o (numeral false 10 2 ++ 0x2e#8 :: (List.replicate (1 + 1) 0x30#8 ++ 0x65#8 :: numeral false 10 3)) (printNumber textReals pf o n) :=
  C89_zero_fraction_grows textReals pf (by decide) (by decide) (by decide) (by decide) (by decide) (textReals_read (s := numeral false 10 2 ++ 0x2e#8 :: List.replicate 1 0x30#8) (by
    intro c hc
    rcases List.mem_append.1 hc with h | h
    · exact numeral_text false (b := 10) (by omega) (by omega) 2 c h
    · rcases List.mem_cons.1 h with rfl | h
      · decide
      · rw [List.eq_of_mem_replicate h]; decide))

/-- A document with numbers is written and read again: `[-7, 0x1f, -0, 12.0034e-5]` (C49 with C87 and C89). -/
example (pf : FloatPrinter) (o : Out) (ho : o.Ok) : ∃ n : Num (List Byte × Int), n.val = .real (mantissa .none 12 2 34, -5) ∧
    ∃ o' text, Json.write (jsonIO textReals pf) pf o (.mk none {} .arr [.mk none {} (.num { val := .int (-7) }) [], .mk none {} (.num { val := .int 31, props := .isHex }) [],
        .mk none {} (.num { val := .int 0, negZero := true }) [], .mk none {} (.num n) []]) 0 = .ok o' ∧ o'.out = o.out ++ text ∧
      ∀ rest, ∃ r, Json.parse (jsonIO textReals pf) (text ++ 0 :: rest) = .ok (.ok r) ∧
        r.plain = (Json.Node.mk none {} .arr [.mk none {} (.num { val := .int (-7) }) [], .mk none {} (.num { val := .int 31, props := .isHex }) [],
          .mk none {} (.num { val := .int 0, negZero := true }) [], .mk none {} (.num n) []]).plain := by
  obtain ⟨n, h1, h2⟩ := C89_json_partial textReals pf (s := .none) (es := .minus) (b := 12) (k := 2) (m := 34) (x := 5) (by decide) (by decide) (by decide) (by decide) (by decide) (by decide) (by decide)
    (by decide) (textReals_read mantissa_text)
  refine ⟨n, h1, Json.C49_round_trip_partial (cmp := false) pf ?_ (.inr rfl) (by simp [Json.Node.height, Json.heightL]) ho⟩
  have p1 := C87_json textReals pf (.decimal (v := -7) (by decide) (by decide))
  have p2 := C87_json textReals pf (.hex (n := 31) (by decide))
  have p3 := C87_json textReals pf (.negZero (p := .none) (.inl rfl))
  simp only [Json.Node.Document, Json.DocumentL]
  simp [Json.NameFits, Json.Node.name, Json.Node.style, h2, p1, p3]
  exact p2

end Zpl.Number
