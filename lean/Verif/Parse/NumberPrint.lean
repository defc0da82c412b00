import Verif.Parse.Number

/-!
# Numbers in documents: what is written is read again  -  C87

Model and specification are in `Verif/Parse/Number.lean`. -/

namespace Zpl.Number

open Zpl Zpl.Str Zpl.Print Zpl.Fprintf

/-! ## Lemmas -/

theorem digits_length {b : Nat} (hb : 2 ≤ b) : ∀ (k n : Nat), 1 ≤ k → n < b ^ k → (digits b n).length ≤ k := by
  intro k
  induction k with
  | zero => intro n h; omega
  | succ k ih =>
    intro n _ hn
    rcases Nat.lt_or_ge n b with h | h
    · rw [digits_lt h]; simp
    · rw [digits_ge hb h, List.length_append, List.length_singleton]
      have hk : 1 ≤ k := by
        rcases Nat.eq_zero_or_pos k with rfl | h'
        · simp at hn; omega
        · exact h'
      have : n / b < b ^ k := by
        rw [Nat.div_lt_iff_lt_mul (by omega)]
        rwa [Nat.pow_succ] at hn
      have := ih (n / b) hk this
      omega

/-- The digits of a decimal number of less than 64 bits. -/
theorem decimal_digits (n : Nat) (hn : n < 2 ^ 63) : numeral false 10 n = decimal (digits 10 n) ∧ (∀ d ∈ digits 10 n, d < 10) ∧ digits 10 n ≠ [] ∧ Zpl.Num.value 10 (digits 10 n) = n ∧ (digits 10 n).length ≤ 19 := by
  refine ⟨rfl, digits_mem (by omega) n, ?_, digits_value (by omega) n, digits_length (by omega) 19 n (by omega) (by omega)⟩
  obtain ⟨d, t, e⟩ := digits_cons (b := 10) (by omega) n
  rw [e]; simp

/-- The sign of a number as it is printed. -/
def signOf (v : Int) : Sign := if v < 0 then .minus else .none

theorem signed_eq (v : Int) : signed 10 v = (signOf v).text ++ decimal (digits 10 v.natAbs) := by
  unfold signed signOf
  split <;> rfl

theorem signed_length {v : Int} (h1 : -(2 ^ 63) < v) (h2 : v < 2 ^ 63) : (signed 10 v).length ≤ 20 := by
  have := (decimal_digits v.natAbs (by omega)).2.2.2.2
  rw [signed_eq, List.length_append, decimal, List.length_map]
  have : (signOf v).text.length ≤ 1 := by unfold signOf; split <;> simp [Sign.text]
  omega

theorem ofInt_toInt {v : Int} (h1 : -(2 ^ 63) ≤ v) (h2 : v < 2 ^ 63) : (BitVec.ofInt 64 v).toInt = v := by
  rw [BitVec.toInt_ofInt, Int.bmod_eq_of_le] <;> omega

theorem render_lld {v : Int} (h1 : -(2 ^ 63) < v) (h2 : v < 2 ^ 63) :
    render { items := [([], { conv := .d, length := .ll })], last := [] } [.long (BitVec.ofInt 64 v)] = some (signed 10 v) := by
  have h3 : ¬ (v = -(2 ^ 63)) := by omega
  simp only [render, renderItems, renderDirective, widthOf, precisionOf, body, intArg, Option.bind_some, Option.map_some, if_true, ofInt_toInt (by omega) h2, if_neg h3]
  simp only [layout, upTo, takeWhile_self (signed_text (b := 10) (by omega) (by omega) v)]
  simp

theorem print_lld (pf : FloatPrinter) {o : Out} (ho : o.Ok) {v : Int} (h1 : -(2 ^ 63) < v) (h2 : v < 2 ^ 63) :
    Appends o (signed 10 v) (fprintf pf o [0x25#8, 0x6c#8, 0x6c#8, 0x64#8, 0] [.long (BitVec.ofInt 64 v)]) :=
  fprintf_ok pf ho { items := [([], { conv := .d, length := .ll })], last := [] } ⟨by simp [Literal, Directive.Valid], by simp [Literal]⟩ _ (render_lld h1 h2) []
    (by have := signed_length h1 h2; unfold maxLen; omega)

theorem render_llx (x : BitVec 64) :
    render { items := [([0x30#8, 0x78#8], { conv := .x, length := .ll })], last := [] } [.long x] = some (0x30#8 :: 0x78#8 :: numeral false 16 x.toNat) := by
  simp only [render, renderItems, renderDirective, widthOf, precisionOf, body, intArg, Option.bind_some, Option.map_some, Bool.false_eq_true, if_false, Int.toNat_natCast]
  simp only [layout, upTo, takeWhile_self (numeral_text false (b := 16) (by omega) (by omega) _)]
  simp

theorem hex_length {n : Nat} (h : n < 2 ^ 64) : (numeral false 16 n).length ≤ 16 := by
  rw [numeral, List.length_map]
  exact digits_length (by omega) 16 n (by omega) (by omega)

theorem print_llx (pf : FloatPrinter) {o : Out} (ho : o.Ok) (x : BitVec 64) :
    Appends o (0x30#8 :: 0x78#8 :: numeral false 16 x.toNat) (fprintf pf o [0x30#8, 0x78#8, 0x25#8, 0x6c#8, 0x6c#8, 0x78#8, 0] [.long x]) :=
  fprintf_ok pf ho { items := [([0x30#8, 0x78#8], { conv := .x, length := .ll })], last := [] } ⟨by simp [Literal, Directive.Valid], by simp [Literal]⟩ _ (render_llx x) []
    (by have := hex_length x.isLt; unfold maxLen; simp only [List.length_cons]; omega)

/-- The digits of a hexadecimal number as they are printed. -/
theorem hex_digits (n : Nat) : numeral false 16 n = hexadecimal ((digits 16 n).map fun d => (false, d)) ∧ (∀ p ∈ (digits 16 n).map (fun d => (false, d)), p.2 < 16) ∧
    (digits 16 n).map (fun d => (false, d)) ≠ [] ∧ Zpl.Num.value 16 (((digits 16 n).map fun d => (false, d)).map (·.2)) = n := by
  refine ⟨?_, ?_, ?_, ?_⟩
  · rw [numeral, hexadecimal, List.map_map]; rfl
  · intro p hp
    obtain ⟨d, hd, rfl⟩ := List.mem_map.1 hp
    exact digits_mem (b := 16) (by omega) n d hd
  · obtain ⟨d, t, e⟩ := digits_cons (b := 16) (by omega) n
    rw [e]; simp
  · rw [List.map_map]
    have : ((fun p : Bool × Nat => p.2) ∘ fun d => (false, d)) = id := rfl
    rw [this, List.map_id, digits_value (by omega)]

/-! ## C87 -/

/-- What it means that a number survives: what is printed for it (nothing else is written, and the buffer stays in order) is read as the same number, up to its end, whatever follows it. -/
def Survives {ρ : Type} (F : Reals ρ) (pf : FloatPrinter) (n : Num ρ) : Prop :=
  ∃ t, (∀ o : Out, o.Ok → Appends o t (printNumber F pf o n)) ∧ ∀ c r, Stop c → parseNumber F (t ++ c :: r) = .ok (some n, t.length)

/-- **C87.** Every integer but the least one survives: it is written in decimal digits and read again. -/
theorem C87_decimal_partial {ρ : Type} (F : Reals ρ) (pf : FloatPrinter) {v : Int} (h1 : -(2 ^ 63) < v) (h2 : v < 2 ^ 63) :
    (∀ o : Out, o.Ok → Appends o (signed 10 v) (printNumber F pf o { val := .int v })) ∧
    ∀ c r, Stop c → parseNumber F (signed 10 v ++ c :: r) = .ok (some { val := .int v }, (signed 10 v).length) := by
  refine ⟨fun o ho => print_lld pf ho h1 h2, fun c r hc => ?_⟩
  obtain ⟨e1, e2, e3, e4, e5⟩ := decimal_digits v.natAbs (by omega)
  have h := parse_digits F (signOf v) e2 e3 (t := []) (by simp) (by simp) hc r
  rw [List.append_nil, ← signed_eq, List.length_nil, Nat.add_zero, e4, if_pos (by split <;> omega), if_pos (by omega)] at h
  have hl : (signed 10 v).length = (signOf v).text.length + (digits 10 v.natAbs).length := by rw [signed_eq, List.length_append, decimal, List.length_map]
  rw [h, ← hl]
  have ha : (signOf v).apply v.natAbs = v := by
    unfold signOf Sign.apply
    split
    · rw [if_pos rfl]; omega
    · rw [if_neg (by decide)]; omega
  have hz : decide (signOf v = .minus ∧ v.natAbs = 0) = false := by
    unfold signOf
    split
    · simp; omega
    · simp
  rw [ha, hz]

/-- **C87.** A hexadecimal number that is not negative survives, as a hexadecimal number. -/
theorem C87_hex_partial {ρ : Type} (F : Reals ρ) (pf : FloatPrinter) {n : Nat} (h : n < 2 ^ 63) :
    (∀ o : Out, o.Ok → Appends o (0x30#8 :: 0x78#8 :: numeral false 16 n) (printNumber F pf o { val := .int n, props := .isHex })) ∧
    ∀ c r, Stop c → parseNumber F (0x30#8 :: 0x78#8 :: numeral false 16 n ++ c :: r) = .ok (some { val := .int n, props := .isHex }, (numeral false 16 n).length + 2) := by
  refine ⟨fun o ho => ?_, fun c r hc => ?_⟩
  · have := print_llx pf ho (BitVec.ofInt 64 n)
    rw [BitVec.ofInt_natCast, BitVec.toNat_ofNat, Nat.mod_eq_of_lt (by omega)] at this
    show Appends o _ (fprintf pf o _ [.long (BitVec.ofInt 64 n)])
    rw [BitVec.ofInt_natCast]
    exact this
  · obtain ⟨e1, e2, e3, e4⟩ := hex_digits n
    have hl : ((digits 16 n).map fun d => (false, d)).length ≤ 16 := by
      have := hex_length (n := n) (by omega)
      rw [numeral, List.length_map] at this
      rwa [List.length_map]
    have := parse_0x F .none (.inl rfl) e2 e3 hc r (by omega)
    rw [if_pos ⟨rfl, by decide⟩, e4, if_pos h, ← e1] at this
    rw [show 0x30#8 :: 0x78#8 :: numeral false 16 n ++ c :: r = Sign.none.text ++ (0x30#8 :: 0x78#8 :: numeral false 16 n) ++ c :: r from rfl, this]
    simp [Sign.text, numeral]

/-- **C87.** Negative zero survives, in decimal and in hexadecimal: it is written as `-0` and `-0x0`. -/
theorem C87_negative_zero {ρ : Type} (F : Reals ρ) (pf : FloatPrinter) (hex : Bool) :
    (∀ o : Out, o.Ok → Appends o (if hex then [0x2d#8, 0x30#8, 0x78#8, 0x30#8] else [0x2d#8, 0x30#8]) (printNumber F pf o { val := .int 0, props := if hex then .isHex else .none, negZero := true })) ∧
    ∀ c r, Stop c → parseNumber F ((if hex then [0x2d#8, 0x30#8, 0x78#8, 0x30#8] else [0x2d#8, 0x30#8]) ++ c :: r) =
      .ok (some { val := .int 0, props := if hex then .isHex else .none, negZero := true }, if hex then 4 else 2) := by
  have hm : ∀ o : Out, o.Ok → Appends o [0x2d#8] (fprintf pf o [0x2d#8, 0] []) := fun o ho => fprintf_lit pf ho (s := [0x2d#8]) (by simp [Literal]) [] [] (by decide)
  cases hex with
  | false =>
    have e : signed 10 0 = [0x30#8] := by simp [signed, numeral, digits_lt, digit]
    refine ⟨fun o ho => Appends.bind (t := [0x30#8]) (hm o ho) (fun o' ho' => e ▸ print_lld pf ho' (by decide) (by decide)), fun c r hc => ?_⟩
    have h := parse_digits F .minus (ds := [0]) (by simp) (by simp) (t := []) (by simp) (by simp) hc r
    rw [if_pos (by decide), if_pos (by decide)] at h
    exact h
  | true =>
    have e : numeral false 16 0 = [0x30#8] := by simp [numeral, digits_lt, digit]
    refine ⟨fun o ho => Appends.bind (t := [0x30#8, 0x78#8, 0x30#8]) (hm o ho) (fun o' ho' => e ▸ print_llx pf ho' (BitVec.ofInt 64 0)), fun c r hc => ?_⟩
    have h := parse_0x F .minus (x := 0x78#8) (.inl rfl) (ds := [(false, 0)]) (by simp) (by simp) hc r (by simp)
    rw [if_neg (by simp)] at h
    exact h

/-- **C87 fails** for negative hexadecimal numbers: what is written for them overflows when it is read. -/
theorem C87_negative_hex_fails {ρ : Type} (F : Reals ρ) (pf : FloatPrinter) {v : Int} (h1 : -(2 ^ 63) ≤ v) (h2 : v < 0) :
    ∃ t, (∀ o : Out, o.Ok → Appends o t (printNumber F pf o { val := .int v, props := .isHex })) ∧ ∀ c r, Stop c → parseNumber F (t ++ c :: r) = .error .arith := by
  refine ⟨_, fun o ho => print_llx pf ho (BitVec.ofInt 64 v), fun c r hc => ?_⟩
  have hn : (BitVec.ofInt 64 v).toNat = (v + 2 ^ 64).toNat := by
    rw [BitVec.toNat_ofInt]
    omega
  obtain ⟨e1, e2, e3, e4⟩ := hex_digits (BitVec.ofInt 64 v).toNat
  have hl := hex_length (BitVec.ofInt 64 v).isLt
  rw [numeral, List.length_map] at hl
  have := parse_0x F .none (.inl rfl) e2 e3 hc r (by rw [List.length_map]; omega)
  rw [if_pos ⟨rfl, by decide⟩, e4, if_neg (by omega), ← e1] at this
  exact this

/-- **C87 fails** for the least integer: writing it overflows. -/
theorem C87_least_fails {ρ : Type} (F : Reals ρ) (pf : FloatPrinter) (o : Out) : printNumber F pf o { val := .int (-(2 ^ 63)) } = .error .arith := by
  show fprintf pf o [0x25#8, 0x6c#8, 0x6c#8, 0x64#8, 0] [.long (BitVec.ofInt 64 (-(2 ^ 63)))] = _
  have hp : parse [0x25#8, 0x6c#8, 0x6c#8, 0x64#8, 0] [.long (BitVec.ofInt 64 (-(2 ^ 63)))] = .ok ({ size := some .long }, [0x64#8, 0], [.long (BitVec.ofInt 64 (-(2 ^ 63)))]) := by decide +kernel
  have hn : Zpl.Num.i64ToStr (-(2 ^ 63)) (List.replicate 130 0) 10 = .error .arith := by decide +kernel
  have hc : convert pf o.buf maxLen { size := some .long } [0x64#8, 0] [.long (BitVec.ofInt 64 (-(2 ^ 63)))] = .error .arith := by
    simp only [convert, rd_cons, except_ok_bind]
    rw [if_neg (by decide), if_pos (by decide)]
    simp only [number, signedArg, vaLong, except_ok_bind, Bool.false_eq_true, if_false]
    rw [printI64, ofInt_toInt (by decide) (by decide), hn]
    rfl
  rw [fprintf, snprintf, show ([0x25#8, 0x6c#8, 0x6c#8, 0x64#8, 0] : List Byte).length + 1 = 5 + 1 from rfl, go, rd_cons, except_ok_bind, if_neg (by decide), if_pos (by decide)]
  have hl : literal [0x25#8, 0x6c#8, 0x6c#8, 0x64#8, 0] o.buf = .ok (0, o.buf) := by simp [literal]
  rw [hl, except_ok_bind]
  dsimp only
  rw [List.drop_zero, hp, except_ok_bind]
  dsimp only
  rw [List.drop_zero, hc]
  rfl

/-! ### Everything that is read as an integer survives -/

theorem bind_ok {α β : Type} {x : Except Fault α} {f : α → Except Fault β} {b : β} (h : (x >>= f) = .ok b) : ∃ a, x = .ok a ∧ f a = .ok b := by
  cases x with
  | ok a => exact ⟨a, rfl, h⟩
  | error e => cases h

theorem hexDigits_split : ∀ (e buf : List Byte) {e' buf' : List Byte}, hexDigits e buf = .ok (e', buf') →
    ∃ u c r, e = u ++ c :: r ∧ e' = c :: r ∧ buf' = buf ++ u ∧ (∀ x ∈ u, Run x) ∧ ¬ Run c := by
  intro e
  induction e with
  | nil => intro buf e' buf' h; cases h
  | cons c e ih =>
    intro buf e' buf' h
    rw [hexDigits] at h
    by_cases hc : Chars.isHexDigit c = true ∨ toLower c = 0x78#8
    · rw [if_pos hc, push] at h
      by_cases hl : buf.length < 48
      · rw [if_pos hl, except_ok_bind] at h
        obtain ⟨u, c', r, h1, h2, h3, h4, h5⟩ := ih _ h
        refine ⟨c :: u, c', r, by rw [h1]; rfl, h2, by rw [h3, List.append_assoc]; rfl, ?_, h5⟩
        intro x hx
        rcases List.mem_cons.1 hx with rfl | hx
        · exact (run_iff x).1 hc
        · exact h4 x hx
      · rw [if_neg hl] at h; cases h
    · rw [if_neg hc] at h
      cases h
      exact ⟨[], c, e, rfl, rfl, by simp, by simp, fun h => hc ((run_iff c).2 h)⟩

theorem hexPrefix_true {e : List Byte} (h : hexPrefix e = .ok true) : ∃ x r, e = 0x30#8 :: x :: r ∧ (x = 0x78#8 ∨ x = 0x58#8) := by
  cases e with
  | nil => cases h
  | cons a e =>
    cases e with
    | nil =>
      exfalso
      by_cases ha : a = 0x30#8
      · subst ha; revert h; decide
      · revert h; simp [hexPrefix, strncmp, ha, except_ok_bind]
    | cons b r =>
      rw [hexPrefix_two] at h
      have : a = 0x30#8 ∧ (b = 0x78#8 ∨ b = 0x58#8) := by simpa using h
      exact ⟨b, r, by rw [this.1], this.2⟩

/-- An integer comes from a sign and a run of characters. -/
theorem afterSign_int {ρ : Type} (F : Reals ρ) (b e buf : List Byte) {n : Num ρ} {k : Nat} {v : Int} (h : afterSign F b e buf = .ok (some n, k)) (hv : n.val = .int v) :
    ∃ u p, (∀ x ∈ u, Run x) ∧ finishInt (buf ++ u) p 0 false = .ok n ∧ (p = .none ∨ (p = .isHex ∧ ∃ x u', u = 0x30#8 :: x :: u' ∧ (x = 0x78#8 ∨ x = 0x58#8))) := by
  have real : ∀ (e' buf' : List Byte) (p : Props) (l : Bool), finish F b e' buf' true p l = .ok (some n, k) → False := by
    intro e' buf' p l h
    rw [finish] at h
    obtain ⟨c, -, h⟩ := bind_ok h
    by_cases hc : c = 0x2e#8
    · rw [if_pos hc] at h; cases h
    · rw [if_neg hc] at h
      obtain ⟨⟨e2, ex, ng⟩, -, h⟩ := bind_ok h
      dsimp only at h
      rw [if_pos rfl] at h
      obtain ⟨m, hm, h⟩ := bind_ok h
      cases h
      rw [finishReal] at hm
      obtain ⟨_, -, hm⟩ := bind_ok hm
      obtain ⟨_, -, hm⟩ := bind_ok hm
      obtain ⟨_, -, hm⟩ := bind_ok hm
      obtain ⟨_, -, hm⟩ := bind_ok hm
      obtain ⟨_, -, hm⟩ := bind_ok hm
      obtain ⟨_, -, hm⟩ := bind_ok hm
      obtain ⟨_, -, hm⟩ := bind_ok hm
      cases hm
      cases hv
  rw [afterSign] at h
  obtain ⟨c, -, h⟩ := bind_ok h
  by_cases hc : c = 0x2e#8
  · rw [if_pos hc] at h
    obtain ⟨_, -, h⟩ := bind_ok h
    obtain ⟨⟨_, _, _⟩, -, h⟩ := bind_ok h
    exact (real _ _ _ _ h).elim
  · rw [if_neg hc] at h
    obtain ⟨hex, hhex, h⟩ := bind_ok h
    by_cases hx : toLower c = 0x78#8 ∧ hex = false
    · rw [if_pos hx] at h; cases h
    · rw [if_neg hx] at h
      obtain ⟨⟨e', buf'⟩, hd, h⟩ := bind_ok h
      obtain ⟨u, c', r, h1, h2, h3, h4, h5⟩ := hexDigits_split _ _ hd
      dsimp only at h
      subst h2
      rw [fraction, rd_cons, except_ok_bind] at h
      by_cases hdot : c' = 0x2e#8
      · rw [if_pos hdot] at h
        obtain ⟨⟨_, _, step⟩, -, h⟩ := bind_ok h
        dsimp only at h
        by_cases hst : step < 2
        · rw [if_pos hst] at h
          obtain ⟨_, -, h⟩ := bind_ok h
          exact (real _ _ _ _ h).elim
        · rw [if_neg hst, except_ok_bind] at h
          exact (real _ _ _ _ h).elim
      · rw [if_neg hdot, finish, rd_cons, except_ok_bind, if_neg hdot, exponent_none h5, except_ok_bind] at h
        dsimp only at h
        rw [if_neg (by decide)] at h
        obtain ⟨m, hm, h⟩ := bind_ok h
        cases h
        refine ⟨u, _, h4, by rw [← h3]; exact hm, ?_⟩
        cases hex with
        | false => exact .inl rfl
        | true =>
          refine .inr ⟨rfl, ?_⟩
          obtain ⟨x, r', h6, h7⟩ := hexPrefix_true hhex
          rw [h1] at h6
          cases u with
          | nil =>
            have : c' = 0x30#8 := by simpa using congrArg List.head? h6
            exact absurd (by subst this; decide) h5
          | cons y u =>
            rw [List.cons_append] at h6
            obtain ⟨hy, h8⟩ := List.cons.inj h6
            subst hy
            cases u with
            | nil =>
              have : c' = x := (List.cons.inj h8).1
              exact absurd (.inr (this ▸ h7)) h5
            | cons z u =>
              rw [List.cons_append] at h8
              obtain ⟨hz, -⟩ := List.cons.inj h8
              exact ⟨z, u, rfl, hz ▸ h7⟩

/-- The integers that can be written and read again. -/
inductive Whole {ρ : Type} : Num ρ → Prop where
  | decimal {v : Int} : -(2 ^ 63) < v → v < 2 ^ 63 → Whole { val := .int v }
  | hex {n : Nat} : n < 2 ^ 63 → Whole { val := .int n, props := .isHex }
  | negZero {p : Props} : p = .none ∨ p = .isHex → Whole { val := .int 0, props := p, negZero := true }

theorem parse_whole {ρ : Type} (F : Reals ρ) {b : List Byte} {n : Num ρ} {k : Nat} {v : Int} (h : parseNumber F b = .ok (some n, k)) (hv : n.val = .int v) : Whole n := by
  have key : ∃ buf u p, (buf = [] ∨ buf = [0x2d#8]) ∧ (∀ x ∈ u, Run x) ∧ finishInt (buf ++ u) p 0 false = .ok n ∧
      (p = .none ∨ (p = .isHex ∧ ∃ x u', u = 0x30#8 :: x :: u' ∧ (x = 0x78#8 ∨ x = 0x58#8))) := by
    rw [parseNumber] at h
    obtain ⟨f, -, h⟩ := bind_ok h
    cases f with
    | true => simp at h
    | false =>
      rw [if_neg (by decide)] at h
      obtain ⟨c, -, h⟩ := bind_ok h
      by_cases h1 : c = 0x2b#8
      · rw [if_pos h1] at h
        obtain ⟨u, p, h⟩ := afterSign_int F _ _ _ h hv
        exact ⟨[], u, p, .inl rfl, h⟩
      · rw [if_neg h1] at h
        by_cases h2 : c = 0x2d#8
        · rw [if_pos h2] at h
          obtain ⟨u, p, h⟩ := afterSign_int F _ _ _ h hv
          exact ⟨[0x2d#8], u, p, .inr rfl, h⟩
        · rw [if_neg h2] at h
          obtain ⟨u, p, h⟩ := afterSign_int F _ _ _ h hv
          exact ⟨[], u, p, .inl rfl, h⟩
  obtain ⟨buf, u, p, hb, hu, hf, hp⟩ := key
  have ht : Text (buf ++ u) := by
    intro x hx
    rcases List.mem_append.1 hx with hx | hx
    · rcases hb with rfl | rfl
      · simp at hx
      · simp at hx; subst hx; decide
    · exact run_text hu x hx
  have hl : (buf ++ u).length ≤ 47 := by
    rcases Nat.lt_or_ge (buf ++ u).length 48 with h | h
    · omega
    · rw [finishInt_full ht h] at hf; cases hf
  have hrun0 : ∀ x : Byte, Run x → x ≠ 0x2d#8 := by decide +kernel
  rw [finishInt_ok ht hl, intOf] at hf
  generalize hbase : (if 2 < (buf ++ u).length ∧ [0x30#8, 0x78#8] <+: buf ++ u then 16 else 10) = base at hf
  generalize hval : Zpl.Num.value base (Zpl.Num.leadingDigits base (Zpl.Num.after0x base (if (buf ++ u).head? = some 0x2d#8 then (buf ++ u).drop 1 else buf ++ u))) = val at hf
  by_cases hlt : val < 2 ^ 63
  case neg => rw [if_neg hlt] at hf; cases hf
  case pos =>
    rw [if_pos hlt] at hf
    cases hf
    rcases hb with rfl | rfl
    · have hm : ¬ (([] ++ u).head? = some 0x2d#8) := by
        intro h
        cases u with
        | nil => simp at h
        | cons x u => exact hrun0 x (hu x (by simp)) (by simpa using h)
      simp only [hm, if_false, and_false, decide_false]  at hlt ⊢
      rcases hp with rfl | ⟨rfl, -⟩
      · exact .decimal (by omega) (by omega)
      · exact .hex (by simpa using hlt)
    · rw [← hval] at hlt ⊢
      have hbase' : base = 10 := by rw [← hbase, if_neg]; simp [List.cons_prefix_cons]
      subst hbase'
      simp only [List.cons_append, List.nil_append, List.head?_cons, if_true, List.drop_succ_cons, List.drop_zero, after0x_ten, and_true] at hlt ⊢
      rcases hp with rfl | ⟨rfl, x, u', rfl, hx⟩
      · by_cases h0 : Zpl.Num.value 10 (Zpl.Num.leadingDigits 10 u) = 0
        · rw [h0]; simpa using Whole.negZero (ρ := ρ) (.inl rfl)
        · rw [show decide (Zpl.Num.value 10 (Zpl.Num.leadingDigits 10 u) = 0) = false by simpa using h0]
          exact .decimal (by omega) (by omega)
      · have h0 : Zpl.Num.value 10 (Zpl.Num.leadingDigits 10 (0x30#8 :: x :: u')) = 0 := by rcases hx with rfl | rfl <;> rfl
        rw [h0]; simpa using Whole.negZero (ρ := ρ) (.inr rfl)

theorem decimal_head {ds : List Nat} (hd : ∀ d ∈ ds, d < 10) (hn : ds ≠ []) : ∃ c u, decimal ds = c :: u ∧ Json.Digit c := by
  cases ds with
  | nil => exact absurd rfl hn
  | cons d ds =>
    refine ⟨_, _, rfl, ?_⟩
    have : ∀ d : Fin 10, Json.Digit (digit false d.val) := by unfold Json.Digit; decide
    exact this ⟨d, hd d (by simp)⟩

theorem follow_stop {c : Byte} (h : Json.Follow c) : Stop c := by
  have : ∀ c : Byte, Json.Follow c → Stop c := by
    unfold Json.Follow Token.Blank
    decide +kernel
  exact this c h

/-- What is written for such an integer, and that it begins like a number. -/
theorem whole_text {ρ : Type} (F : Reals ρ) (pf : FloatPrinter) {n : Num ρ} (h : Whole n) :
    ∃ t, (∃ c u, t = c :: u ∧ (Json.Digit c ∨ (c = 0x2d#8 ∧ ∃ d u', u = d :: u' ∧ Json.Digit d))) ∧
      (∀ o : Out, o.Ok → Appends o t (printNumber F pf o n)) ∧ ∀ c r, Stop c → parseNumber F (t ++ c :: r) = .ok (some n, t.length) := by
  cases h with
  | @decimal v h1 h2 =>
    obtain ⟨ha, hp⟩ := C87_decimal_partial F pf h1 h2
    refine ⟨_, ?_, ha, hp⟩
    obtain ⟨e1, e2, e3, e4, e5⟩ := decimal_digits v.natAbs (by omega)
    obtain ⟨c, u, e, hc⟩ := decimal_head e2 e3
    rw [signed_eq, e]
    unfold signOf
    split
    · exact ⟨_, _, rfl, .inr ⟨rfl, c, u, rfl, hc⟩⟩
    · exact ⟨c, u, rfl, .inl hc⟩
  | @hex k h =>
    obtain ⟨ha, hp⟩ := C87_hex_partial F pf h
    refine ⟨_, ⟨_, _, rfl, .inl (by unfold Json.Digit; decide)⟩, ha, ?_⟩
    simpa using hp
  | @negZero p h =>
    have hd : Json.Digit 0x30#8 := by unfold Json.Digit; decide
    rcases h with rfl | rfl
    · obtain ⟨ha, hp⟩ := C87_negative_zero F pf false
      exact ⟨_, ⟨_, _, rfl, .inr ⟨rfl, _, _, rfl, hd⟩⟩, ha, hp⟩
    · obtain ⟨ha, hp⟩ := C87_negative_zero F pf true
      exact ⟨_, ⟨_, _, rfl, .inr ⟨rfl, _, _, rfl, hd⟩⟩, ha, hp⟩

/-- **C87.** Whatever text an integer was read from, it survives. -/
theorem C87_reread {ρ : Type} (F : Reals ρ) (pf : FloatPrinter) {b : List Byte} {n : Num ρ} {k : Nat} {v : Int} (h : parseNumber F b = .ok (some n, k)) (hv : n.val = .int v) : Survives F pf n := by
  obtain ⟨t, -, h⟩ := whole_text F pf (parse_whole F h hv)
  exact ⟨t, h⟩

/-- **C87.** So the JSON reader and writer may be used on documents with integers: the assumption `Printable` of `Json.C49_round_trip_partial` is met by each of them. -/
theorem C87_json {ρ : Type} (F : Reals ρ) (pf : FloatPrinter) {n : Num ρ} (h : Whole n) : Json.Printable (jsonIO F pf) n := by
  obtain ⟨t, ⟨c, u, rfl, hc⟩, ha, hp⟩ := whole_text F pf h
  refine ⟨_, ⟨⟨c, u, rfl, ?_⟩, fun c' r hc' => hp c' r (follow_stop hc')⟩, ha⟩
  rcases hc with hc | hc
  · exact .inl hc
  · exact .inr (.inr (.inr hc))

/-! ## Examples -/

/-- `-00120,` (C88). -/
example {ρ : Type} (F : Reals ρ) : ∃ n, parseNumber F (Sign.minus.text ++ decimal [0, 0, 1, 2, 0] ++ 0x2c#8 :: []) = .ok (some n, 6) ∧ n.val = .int (-120) ∧ n.props = .none ∧
    (n.negZero = true ↔ Sign.minus = .minus ∧ Zpl.Num.value 10 [0, 0, 1, 2, 0] = 0) :=
  C88_decimal_partial F .minus (by decide) (by decide) (by decide) (by decide) (by decide) []

/-- Its text is `-00120`. -/
example : Sign.minus.text ++ decimal [0, 0, 1, 2, 0] = [0x2d#8, 0x30#8, 0x30#8, 0x31#8, 0x32#8, 0x30#8] := by decide

/-- `0x1fA` and a blank. -/
example {ρ : Type} (F : Reals ρ) : ∃ n, parseNumber F (Sign.none.text ++ (0x30#8 :: 0x78#8 :: hexadecimal [(false, 1), (false, 15), (true, 10)]) ++ 0x20#8 :: []) = .ok (some n, 5) ∧
    n.val = .int 506 ∧ n.props = .isHex :=
  C88_hex_partial F .none (by decide) (by decide) (by decide) (by decide) (by decide) (by decide) []

/-- 48 digits. -/
example {ρ : Type} (F : Reals ρ) : parseNumber F (Sign.none.text ++ decimal (List.replicate 48 7) ++ 0 :: []) = .error .oob :=
  C88_long_number_overruns F .none (by intro d hd; rw [List.eq_of_mem_replicate hd]; omega) (by rw [List.length_replicate]; omega) (by decide) []

/-- `9223372036854775808`. -/
example {ρ : Type} (F : Reals ρ) : parseNumber F (Sign.minus.text ++ decimal [9, 2, 2, 3, 3, 7, 2, 0, 3, 6, 8, 5, 4, 7, 7, 5, 8, 0, 8] ++ 0 :: []) = .error .arith :=
  C88_large_number_undefined F .minus (by decide) (by decide) (by decide) (by decide) []

/-- `12e5`. -/
example {ρ : Type} (F : Reals ρ) : ∃ n, parseNumber F (Sign.none.text ++ (decimal [1, 2] ++ 0x65#8 :: decimal [5]) ++ 0 :: []) = .ok (some n, 4) ∧ n.val = .int 12 :=
  C88_exponent_ignored F .none (by decide) (by decide) (by decide) (by decide) (by decide) (.inl rfl) (by decide) []

/-- `-0x10`. -/
example {ρ : Type} (F : Reals ρ) : ∃ n, parseNumber F (0x2d#8 :: 0x30#8 :: 0x78#8 :: hexadecimal [(false, 1), (false, 0)] ++ 0 :: []) = .ok (some n, 5) ∧ n.val = .int 0 :=
  C88_negative_hex_lost F (.inl rfl) (by decide) (by decide) (by decide) (by decide) []

/-- `0X10`. -/
example {ρ : Type} (F : Reals ρ) : ∃ n, parseNumber F (Sign.none.text ++ (0x30#8 :: 0x58#8 :: hexadecimal [(false, 1), (false, 0)]) ++ 0 :: []) = .ok (some n, 4) ∧ n.val = .int 0 :=
  C88_capital_x_lost F .none (by decide) (by decide) (by decide) (by decide) []

/-- `bad`. -/
example {ρ : Type} (F : Reals ρ) : ∃ n, parseNumber F ([0x62#8, 0x61#8, 0x64#8] ++ 0 :: []) = .ok (some n, 3) ∧ n.val = .int 0 :=
  C88_words_are_zero F (by decide) (by decide) (by decide) (by decide) (by decide) []

/-- `12` and `1x`, as a whole. -/
example {ρ : Type} (F : Reals ρ) : ∃ n, parseNumberStrict F (Sign.plus.text ++ decimal [1, 2] ++ 0 :: []) = .ok (some n, 3) ∧ n.val = .int 12 :=
  C88_strict_partial F .plus (by decide) (by decide) (by decide) (by decide) []

example {ρ : Type} (F : Reals ρ) : parseNumberStrict F ([0x31#8, 0x78#8] ++ 0 :: []) = .ok (none, 0) :=
  C88_strict_refuses F (by unfold Text; decide) (x := 0x78#8) (by decide) (by decide) []

/-- The hypotheses of `C87_reread` are met: `+0x7F;` is read as 127, written as `0x7f`, and read again. -/
example {ρ : Type} (F : Reals ρ) (pf : FloatPrinter) : ∃ n, parseNumber F [0x2b#8, 0x30#8, 0x78#8, 0x37#8, 0x46#8, 0x3b#8] = .ok (some n, 5) ∧ n.val = .int 127 ∧ Survives F pf n := by
  obtain ⟨n, h1, h2, -⟩ := C88_hex_partial F .plus (by decide) (ds := [(false, 7), (true, 15)]) (by decide) (by decide) (by decide) (by decide) (c := 0x3b#8) (by decide) []
  exact ⟨n, h1, h2, C87_reread F pf h1 h2⟩

end Zpl.Number
