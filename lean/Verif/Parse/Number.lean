import Verif.Parse.Json

/-!
# Numbers in documents (code/source/adt.c:353-564, 593-618)  -  C87, C88

## Model

The library is compiled without `ZPL_PARSER_DISABLE_ANALYSIS`.  A position in the text is the text from there on.  Floating-point numbers are left open: their type is a
parameter, and so are `zpl_str_to_f64`, the multiplications by 10 and by 0.1, and what `%f` prints. -/

namespace Zpl.Number

open Zpl Zpl.Str Zpl.Print Zpl.Fprintf

/-- What is assumed of floating-point numbers: nothing. -/
structure Reals (ρ : Type) where
  /-- string.c:150-206 `zpl_str_to_f64` -/
  read : List Byte → Except Fault ρ
  /-- adt.c:488, `node->real *= eb` with `eb` 0.1f (`true`) or 10 (`false`) -/
  scale : Bool → ρ → ρ
  /-- adt.c:557, `"%f"` -/
  print : Out → ρ → Except Fault Out

/-- adt.h:15-29 `zpl_adt_props`. -/
inductive Props where
  | none | nan | negNan | inf | negInf | false | true | null | isExp | isHex | isParsedReal
  deriving DecidableEq

/-- adt.h:78-81, the union, with the type of the node. -/
inductive Val (ρ : Type) where
  | int (v : Int)
  | real (r : ρ)
  deriving DecidableEq

/-- adt.h:77-93: the fields of a node that holds a number.  `base2_offset` and `exp` are bit fields of four bits, `exp` a signed one. -/
structure Num (ρ : Type) where
  val : Val ρ
  props : Props := .none
  base : Int := 0
  base2 : Int := 0
  base2Offset : Nat := 0
  exp : Int := 0
  negZero : Bool := Bool.false
  leadDigit : Bool := Bool.false
  deriving DecidableEq

/-- adt.c:393 `char buf[48] = { 0 };` after `buf` has been written to it. -/
def cells (n : Nat) (buf : List Byte) : List Byte := buf ++ List.replicate (n - buf.length) 0

/-- `buf[ib++] = c` and `expbuf[expi++] = c` for an array of `n` characters. -/
def push (n : Nat) (buf : List Byte) (c : Byte) : Except Fault (List Byte) := if buf.length < n then .ok (buf ++ [c]) else .error .oob

/-- adt.c:408-410 and 425-428: `do { buf[ib++] = *e; ++step; } while (zpl_char_is_digit(*++e));`: the position, the buffer and `step`. -/
def dotDigits : List Byte → List Byte → Nat → Except Fault (List Byte × List Byte × Nat)
  | [], _, _ => .error .oob
  | c :: e, buf, step => do
    let buf ← push 48 buf c
    let d ← rd e 0
    if Chars.isDigit d then dotDigits e buf (step + 1) else .ok (e, buf, step + 1)

/-- adt.c:418. -/
def hexDigits : List Byte → List Byte → Except Fault (List Byte × List Byte)
  | [], _ => .error .oob
  | c :: e, buf =>
    if Chars.isHexDigit c ∨ toLower c = 0x78#8 then do
      let buf ← push 48 buf c
      hexDigits e buf
    else .ok (c :: e, buf)

/-- adt.c:449. -/
def expDigits : List Byte → List Byte → Except Fault (List Byte × List Byte)
  | [], _ => .error .oob
  | c :: e, buf =>
    if Chars.isDigit c then do
      let buf ← push 6 buf c
      expDigits e buf
    else .ok (c :: e, buf)

/-- adt.c:445-450, after the `e`: the position, what was written to `expbuf`, and whether `eb` became 0.1f. -/
def expText (e : List Byte) : Except Fault (List Byte × List Byte × Bool) := do
  let c ← rd e 0
  if c = 0x2b#8 ∨ c = 0x2d#8 ∨ Chars.isDigit c then do
    let (e, buf) ← expDigits (if Chars.isDigit c then e else e.drop 1) []
    .ok (e, buf, c == 0x2d#8)
  else .ok (e, [], Bool.false)

/-- adt.c:439-453: the position, `exp` (a `zpl_u8` put in a `zpl_i8`), and whether `eb` became 0.1f. -/
def exponent (e : List Byte) : Except Fault (List Byte × BitVec 8 × Bool) := do
  let c ← rd e 0
  if c = 0x65#8 ∨ c = 0x45#8 then do
    let (e, buf, neg) ← expText (e.drop 1)
    let (v, _) ← Zpl.Num.strToI64 (cells 6 buf) 10
    .ok (e, BitVec.ofInt 8 v, neg)
  else .ok (e, 0, Bool.false)

/-- adt.c:463. -/
def mulLoop (f : Int) : Nat → Int → Except Fault Int
  | 0, v => .ok v
  | n + 1, v => do mulLoop f n (← Zpl.Num.i64 (v * f))

/-- adt.c:455-463: an integer. -/
def finishInt {ρ : Type} (buf : List Byte) (props : Props) (exp : BitVec 8) (neg : Bool) : Except Fault (Num ρ) := do
  let (v, _) ← Zpl.Num.strToI64 (cells 48 buf) 0
  let c ← rd (cells 48 buf) 0
  let w ← mulLoop (if neg then 0 else 10) exp.toInt.toNat v
  .ok { val := .int w, props := props, exp := (exp.truncate 4).toInt, negZero := v = 0 ∧ c = 0x2d#8 }

/-- adt.c:473 `while (*base_string_off++ == '0') base2_offset++;` -/
def zeros : List Byte → Nat → Except Fault Nat
  | [], _ => .error .oob
  | c :: s, n => if c = 0x30#8 then zeros s (n + 1) else .ok n

/-- adt.c:488. -/
def scaleLoop {ρ : Type} (F : Reals ρ) (neg : Bool) : Nat → ρ → ρ
  | 0, r => r
  | n + 1, r => scaleLoop F neg n (F.scale neg r)

/-- adt.c:464-489: a floating-point number. -/
def finishReal {ρ : Type} (F : Reals ρ) (buf : List Byte) (props : Props) (lead : Bool) (exp : BitVec 8) (neg : Bool) : Except Fault (Num ρ) := do
  let r ← F.read (cells 48 buf)
  let k ← Token.skip 0x2e#8 (cells 48 buf)
  let q ← wr (cells 48 buf) k 0
  let off ← zeros (q.drop (k + 1)) 0
  let (base, _) ← Zpl.Num.strToI64 q 0
  let (base2, _) ← Zpl.Num.strToI64 (q.drop (k + 1)) 0
  let c ← rd q 0
  .ok { val := .real (scaleLoop F neg exp.toInt.toNat r),
        props := if exp ≠ 0 then .isExp else props,
        base := toI32 base, base2 := toI32 base2, base2Offset := off % 16,
        exp := ((if neg then -exp else exp).truncate 4).toInt,
        negZero := toI32 base = 0 ∧ c = 0x2d#8, leadDigit := lead }

/-- adt.c:434-508, from the check for another dot on. -/
def finish {ρ : Type} (F : Reals ρ) (b e buf : List Byte) (isReal : Bool) (props : Props) (lead : Bool) : Except Fault (Option (Num ρ) × Nat) := do
  let c ← rd e 0
  if c = 0x2e#8 then .ok (none, 1)
  else do
    let (e, exp, neg) ← exponent e
    let n ← if isReal then finishReal F buf props lead exp neg else finishInt buf props exp neg
    .ok (some n, b.length - e.length)

/-- adt.c:420-431: the part after the dot. -/
def fraction {ρ : Type} (F : Reals ρ) (b e buf : List Byte) (props : Props) : Except Fault (Option (Num ρ) × Nat) := do
  let c ← rd e 0
  if c = 0x2e#8 then do
    let (e, buf, step) ← dotDigits e buf 0
    let buf ← if step < 2 then push 48 buf 0x30#8 else .ok buf
    finish F b e buf Bool.true props Bool.true
  else finish F b e buf Bool.false props Bool.false

/-- adt.c:412 `!zpl_strncmp(e, "0x", 2) || !zpl_strncmp(e, "0X", 2)`. -/
def hexPrefix (e : List Byte) : Except Fault Bool := do
  if (← strncmp Bool.false e [0x30#8, 0x78#8, 0#8] 2) = 0 then .ok Bool.true
  else .ok ((← strncmp Bool.false e [0x30#8, 0x58#8, 0#8] 2) == 0)

/-- adt.c:403-432, after the sign. -/
def afterSign {ρ : Type} (F : Reals ρ) (b e buf : List Byte) : Except Fault (Option (Num ρ) × Nat) := do
  let c ← rd e 0
  if c = 0x2e#8 then do
    let buf ← push 48 buf 0x30#8
    let (e, buf, _) ← dotDigits e buf 0
    finish F b e buf Bool.true .isParsedReal Bool.false
  else do
    let hex ← hexPrefix e
    if toLower c = 0x78#8 ∧ hex = Bool.false then .ok (none, 1)
    else do
      let (e, buf) ← hexDigits e buf
      fraction F b e buf (if hex then .isHex else .none)

/-- adt.c:386-388: what is no number.  `zpl_strchr` finds the terminator as well. -/
def falsePositive (b : List Byte) : Except Fault Bool := do
  let c ← rd b 0
  if c = 0x65#8 ∨ c = 0x45#8 ∨ c = 0 then .ok Bool.true
  else if c = 0x2e#8 ∨ c = 0x2b#8 ∨ c = 0x2d#8 then do
    let d ← rd b 1
    .ok (!Chars.isHexDigit d && d != 0x2e#8)
  else .ok Bool.false

/-- adt.c:372-509 `zpl_adt_parse_number`: the number put in the node (`none`: the node is left as it was) and the offset of the returned pointer. -/
def parseNumber {ρ : Type} (F : Reals ρ) (b : List Byte) : Except Fault (Option (Num ρ) × Nat) := do
  if ← falsePositive b then .ok (none, 1)
  else do
    let c ← rd b 0
    if c = 0x2b#8 then afterSign F b (b.drop 1) []
    else if c = 0x2d#8 then afterSign F b (b.drop 1) [0x2d#8]
    else afterSign F b b []

/-- adt.c:361-363: is the text made of these characters only? -/
def onlyNumberChars : List Byte → Except Fault Bool
  | [] => .error .oob
  | c :: s => if c = 0 then .ok Bool.true
    else if c ∈ [0x65#8, 0x45#8, 0x2e#8, 0x2b#8, 0x2d#8] ∨ Chars.isHexDigit c then onlyNumberChars s
    else .ok Bool.false

/-- adt.c:353-370 `zpl_adt_parse_number_strict`. -/
def parseNumberStrict {ρ : Type} (F : Reals ρ) (b : List Byte) : Except Fault (Option (Num ρ) × Nat) := do
  if ← onlyNumberChars b then parseNumber F b else .ok (none, 0)

/-- `"%lld.%0*d%llde%lld"` -/
def fmtExp : List Byte := [0x25#8, 0x6c#8, 0x6c#8, 0x64#8, 0x2e#8, 0x25#8, 0x30#8, 0x2a#8, 0x64#8, 0x25#8, 0x6c#8, 0x6c#8, 0x64#8, 0x65#8, 0x25#8, 0x6c#8, 0x6c#8, 0x64#8, 0]

/-- `".%0*d%lld"` -/
def fmtDot : List Byte := [0x2e#8, 0x25#8, 0x30#8, 0x2a#8, 0x64#8, 0x25#8, 0x6c#8, 0x6c#8, 0x64#8, 0]

/-- `"%lld.%0*d%lld"` -/
def fmtLead : List Byte := [0x25#8, 0x6c#8, 0x6c#8, 0x64#8, 0x2e#8, 0x25#8, 0x30#8, 0x2a#8, 0x64#8, 0x25#8, 0x6c#8, 0x6c#8, 0x64#8, 0]

/-- adt.c:524-559: the number after the sign of a negative zero. -/
def printBody {ρ : Type} (F : Reals ρ) (pf : FloatPrinter) (o : Out) (n : Num ρ) : Except Fault Out :=
  match n.val with
  | .int v =>
    if n.props = .isHex then fprintf pf o [0x30#8, 0x78#8, 0x25#8, 0x6c#8, 0x6c#8, 0x78#8, 0] [.long (BitVec.ofInt 64 v)]
    else fprintf pf o [0x25#8, 0x6c#8, 0x6c#8, 0x64#8, 0] [.long (BitVec.ofInt 64 v)]
  | .real r =>
    match n.props with
    | .nan => fprintf pf o [0x4e#8, 0x61#8, 0x4e#8, 0] []
    | .negNan => fprintf pf o [0x2d#8, 0x4e#8, 0x61#8, 0x4e#8, 0] []
    | .inf => fprintf pf o [0x49#8, 0x6e#8, 0x66#8, 0x69#8, 0x6e#8, 0x69#8, 0x74#8, 0x79#8, 0] []
    | .negInf => fprintf pf o [0x2d#8, 0x49#8, 0x6e#8, 0x66#8, 0x69#8, 0x6e#8, 0x69#8, 0x74#8, 0x79#8, 0] []
    | .true => fprintf pf o [0x74#8, 0x72#8, 0x75#8, 0x65#8, 0] []
    | .false => fprintf pf o [0x66#8, 0x61#8, 0x6c#8, 0x73#8, 0x65#8, 0] []
    | .null => fprintf pf o [0x6e#8, 0x75#8, 0x6c#8, 0x6c#8, 0] []
    | .isExp => fprintf pf o fmtExp [.long (BitVec.ofInt 64 n.base), .int (BitVec.ofNat 32 n.base2Offset), .int 0, .long (BitVec.ofInt 64 n.base2), .long (BitVec.ofInt 64 n.exp)]
    | .isParsedReal =>
      if n.leadDigit then fprintf pf o fmtLead [.long (BitVec.ofNat 64 n.base2Offset), .int 0, .int (BitVec.ofInt 32 n.base), .long (BitVec.ofInt 64 n.base2)]
      else fprintf pf o fmtDot [.int (BitVec.ofNat 32 n.base2Offset), .int 0, .long (BitVec.ofInt 64 n.base2)]
    | _ => F.print o r

/-- adt.c:511-564 `zpl_adt_print_number`, for a node that holds a number. -/
def printNumber {ρ : Type} (F : Reals ρ) (pf : FloatPrinter) (o : Out) (n : Num ρ) : Except Fault Out := do
  let o ← if n.negZero then fprintf pf o [0x2d#8, 0] [] else .ok o
  printBody F pf o n

/-- json.c:209 and 485: how the JSON reader and writer treat numbers. -/
def jsonIO {ρ : Type} (F : Reals ρ) (pf : FloatPrinter) : Json.NumIO (Num ρ) := { read := parseNumber F, print := printNumber F pf }

/-! ## Specification -/

/-- A decimal or hexadecimal digit, or `x`: the characters that are taken for a part of an integer. -/
def Run (c : Byte) : Prop := Chars.isHexDigit c = true ∨ c = 0x78#8 ∨ c = 0x58#8

instance (c : Byte) : Decidable (Run c) := inferInstanceAs (Decidable (_ ∨ _))

/-- What ends an integer: none of these, and no dot. -/
def Stop (c : Byte) : Prop := ¬ Run c ∧ c ≠ 0x2e#8

instance (c : Byte) : Decidable (Stop c) := inferInstanceAs (Decidable (_ ∧ _))

/-- A sign. -/
inductive Sign where
  | none | plus | minus
  deriving DecidableEq

/-- The text of a sign. -/
def Sign.text : Sign → List Byte
  | .none => []
  | .plus => [0x2b#8]
  | .minus => [0x2d#8]

/-- The number with a sign. -/
def Sign.apply (s : Sign) (n : Nat) : Int := if s = .minus then -(n : Int) else n

/-- The text of digits below ten. -/
def decimal (ds : List Nat) : List Byte := ds.map (digit false)

/-- The text of digits below sixteen, each in capitals or not. -/
def hexadecimal (ds : List (Bool × Nat)) : List Byte := ds.map fun p => digit p.1 p.2

/-! ## Lemmas -/

theorem run_iff (c : Byte) : (Chars.isHexDigit c = true ∨ toLower c = 0x78#8) ↔ Run c := by
  revert c; decide +kernel

theorem hexDigits_run {u : List Byte} (hu : ∀ x ∈ u, Run x) {c : Byte} (hc : ¬ Run c) (r buf : List Byte) :
    hexDigits (u ++ c :: r) buf = if buf.length + u.length ≤ 48 ∨ u = [] then .ok (c :: r, buf ++ u) else .error .oob := by
  induction u generalizing buf with
  | nil => rw [List.nil_append, hexDigits, if_neg (fun h => hc ((run_iff c).1 h)), if_pos (.inr rfl), List.append_nil]
  | cons x u ih =>
    rw [List.cons_append, hexDigits, if_pos ((run_iff x).2 (hu x (by simp))), push]
    by_cases h : buf.length < 48
    · rw [if_pos h, except_ok_bind, ih (fun y hy => hu y (by simp [hy]))]
      simp only [List.length_append, List.length_cons, List.length_nil, List.append_assoc, List.singleton_append]
      by_cases h2 : buf.length + (u.length + 1) ≤ 48
      · rw [if_pos (.inl (by omega)), if_pos (.inl h2)]
      · rw [if_neg (fun h3 => h3.elim (by omega) (fun h4 => by subst h4; simp at h2; omega)), if_neg (fun h3 => h3.elim h2 (by simp))]
    · rw [if_neg h, except_error_bind, if_neg]
      simp only [List.length_cons]
      exact fun h3 => h3.elim (by omega) (by simp)

theorem hexPrefix_one (a : Byte) (ha : a ≠ 0) {c : Byte} (hc : ¬ Run c) (r : List Byte) : hexPrefix (a :: c :: r) = .ok false := by
  have h1 : c ≠ 0x78#8 := fun h => hc (.inr (.inl h))
  have h2 : c ≠ 0x58#8 := fun h => hc (.inr (.inr h))
  by_cases h : a = 0x30#8
  · subst h
    simp [hexPrefix, strncmp, h1, h2, except_ok_bind]
  · simp [hexPrefix, strncmp, h, except_ok_bind]

theorem hexPrefix_two (a b : Byte) (r : List Byte) : hexPrefix (a :: b :: r) = .ok (decide (a = 0x30#8 ∧ (b = 0x78#8 ∨ b = 0x58#8))) := by
  by_cases h : a = 0x30#8
  · subst h
    by_cases h1 : b = 0x78#8
    · subst h1; simp [hexPrefix, strncmp, except_ok_bind]
    · by_cases h2 : b = 0x58#8
      · subst h2; simp [hexPrefix, strncmp, except_ok_bind]
      · simp [hexPrefix, strncmp, h1, h2, except_ok_bind]
  · simp [hexPrefix, strncmp, h, except_ok_bind]

/-- The flag of a hexadecimal number. -/
def flagOf (u : List Byte) : Props := if [0x30#8, 0x78#8] <+: u ∨ [0x30#8, 0x58#8] <+: u then .isHex else .none

theorem hexPrefix_run {x : Byte} {u : List Byte} {c : Byte} (hc : ¬ Run c) (r : List Byte) :
    ∃ h, hexPrefix (x :: u ++ c :: r) = .ok h ∧ (if h then Props.isHex else Props.none) = flagOf (x :: u) := by
  have key : ∀ b : List Byte, ([0x30#8, 0x78#8] <+: x :: b ∨ [0x30#8, 0x58#8] <+: x :: b) ↔ x = 0x30#8 ∧ (b.head? = some 0x78#8 ∨ b.head? = some 0x58#8) := by
    intro b
    cases b with
    | nil => simp [List.prefix_cons_iff, List.cons_prefix_cons]
    | cons y b =>
      simp only [List.cons_prefix_cons, List.nil_prefix, and_true, List.head?_cons, Option.some.injEq]
      constructor
      · rintro (⟨rfl, rfl⟩ | ⟨rfl, rfl⟩) <;> simp
      · rintro ⟨rfl, rfl | rfl⟩ <;> simp
  cases u with
  | nil =>
    refine ⟨decide (x = 0x30#8 ∧ (c = 0x78#8 ∨ c = 0x58#8)), hexPrefix_two x c r, ?_⟩
    have : ¬ (x = 0x30#8 ∧ (c = 0x78#8 ∨ c = 0x58#8)) := fun h => hc (.inr h.2)
    rw [flagOf, if_neg (by simp [this]), if_neg (by rw [key]; simp)]
  | cons y u =>
    refine ⟨_, hexPrefix_two x y (u ++ c :: r), ?_⟩
    rw [flagOf]
    by_cases h : x = 0x30#8 ∧ (y = 0x78#8 ∨ y = 0x58#8)
    · rw [if_pos (by simpa using h), if_pos ((key _).2 (by simpa using h))]
    · rw [if_neg (by simpa using h), if_neg (fun h' => h (by simpa using (key _).1 h'))]

theorem exponent_none {c : Byte} (hc : ¬ Run c) (r : List Byte) : exponent (c :: r) = .ok (c :: r, 0, false) := by
  have h1 : c ≠ 0x65#8 := fun h => hc (by subst h; decide)
  have h2 : c ≠ 0x45#8 := fun h => hc (by subst h; decide)
  rw [exponent, rd_cons, except_ok_bind, if_neg (fun h => h.elim h1 h2)]

/-- What comes of a sign and a run of characters. -/
def runResult {ρ : Type} (s : Sign) (u : List Byte) : Except Fault (Option (Num ρ) × Nat) :=
  if (if s = .minus then 1 else 0) + u.length ≤ 48 then
    (finishInt ((if s = .minus then [0x2d#8] else []) ++ u) (flagOf u) 0 false).map fun n => (some n, s.text.length + u.length)
  else .error .oob

theorem afterSign_run {ρ : Type} (F : Reals ρ) {s : Sign} {x : Byte} {u : List Byte} (hx : Chars.isHexDigit x = true) (hu : ∀ y ∈ u, Run y) {c : Byte} (hc : Stop c) (r : List Byte) :
    afterSign F (s.text ++ (x :: u ++ c :: r)) (x :: u ++ c :: r) (if s = .minus then [0x2d#8] else []) = runResult s (x :: u) := by
  have hdot : x ≠ 0x2e#8 := by rintro rfl; exact absurd hx (by decide)
  have hlx : toLower x ≠ 0x78#8 := by
    have : ∀ x : Byte, Chars.isHexDigit x = true → toLower x ≠ 0x78#8 := by decide +kernel
    exact this x hx
  obtain ⟨h, eh, hh⟩ := hexPrefix_run (x := x) (u := u) hc.1 r
  have hrun : ∀ y ∈ x :: u, Run y := by
    intro y hy
    rcases List.mem_cons.1 hy with rfl | hy
    · exact .inl hx
    · exact hu y hy
  have hl : (if s = .minus then [0x2d#8] else ([] : List Byte)).length = if s = .minus then 1 else 0 := by split <;> rfl
  rw [afterSign, show rd (x :: u ++ c :: r) 0 = .ok x from rfl, except_ok_bind, if_neg hdot, eh, except_ok_bind, if_neg (fun h => hlx h.1), hexDigits_run hrun hc.1, runResult, hl]
  by_cases hle : (if s = .minus then 1 else 0) + (x :: u).length ≤ 48
  · rw [if_pos (.inl hle), if_pos hle, except_ok_bind]
    dsimp only
    rw [fraction, rd_cons, except_ok_bind, if_neg hc.2, finish, rd_cons, except_ok_bind, if_neg hc.2, exponent_none hc.1, except_ok_bind, hh]
    simp only [Bool.false_eq_true, if_false]
    have hlen : (s.text ++ (x :: u ++ c :: r)).length - (c :: r).length = s.text.length + (x :: u).length := by
      simp only [List.length_append, List.length_cons]; omega
    rw [hlen]
    cases finishInt (ρ := ρ) ((if s = .minus then [0x2d#8] else []) ++ x :: u) (flagOf (x :: u)) 0 false <;> rfl
  · rw [if_neg (fun h => h.elim hle (by simp)), if_neg hle, except_error_bind]

theorem parse_run {ρ : Type} (F : Reals ρ) {s : Sign} {x : Byte} {u : List Byte} (hx : Chars.isHexDigit x = true) (hs : s = .none → x ≠ 0x65#8 ∧ x ≠ 0x45#8)
    (hu : ∀ y ∈ u, Run y) {c : Byte} (hc : Stop c) (r : List Byte) :
    parseNumber F (s.text ++ (x :: u ++ c :: r)) = runResult s (x :: u) := by
  have h := afterSign_run F (s := s) hx hu hc r
  have k : ∀ y : Byte, Chars.isHexDigit y = true → y ≠ 0 ∧ y ≠ 0x2e#8 ∧ y ≠ 0x2b#8 ∧ y ≠ 0x2d#8 := by decide +kernel
  obtain ⟨k0, k1, k2, k3⟩ := k x hx
  cases s with
  | none =>
    obtain ⟨h1, h2⟩ := hs rfl
    have hf : falsePositive (x :: u ++ c :: r) = .ok false := by
      rw [falsePositive, show rd (x :: u ++ c :: r) 0 = .ok x from rfl, except_ok_bind, if_neg (fun h => h.elim h1 (fun h => h.elim h2 k0)),
        if_neg (fun h => h.elim k1 (fun h => h.elim k2 k3))]
    rw [← h, Sign.text, List.nil_append, parseNumber, hf, except_ok_bind]
    simp only [Bool.false_eq_true, if_false]
    rw [show rd (x :: u ++ c :: r) 0 = .ok x from rfl, except_ok_bind, if_neg k2, if_neg k3]
    rfl
  | plus =>
    have hf : falsePositive (0x2b#8 :: (x :: u ++ c :: r)) = .ok false := by
      rw [falsePositive, rd_cons, except_ok_bind, if_neg (by decide), if_pos (by decide), show rd (0x2b#8 :: (x :: u ++ c :: r)) 1 = .ok x from rfl, except_ok_bind, hx]
      rfl
    rw [← h]
    show parseNumber F (0x2b#8 :: (x :: u ++ c :: r)) = _
    rw [parseNumber, hf, except_ok_bind]
    simp only [Bool.false_eq_true, if_false]
    rw [rd_cons, except_ok_bind, if_pos rfl]
    rfl
  | minus =>
    have hf : falsePositive (0x2d#8 :: (x :: u ++ c :: r)) = .ok false := by
      rw [falsePositive, rd_cons, except_ok_bind, if_neg (by decide), if_pos (by decide), show rd (0x2d#8 :: (x :: u ++ c :: r)) 1 = .ok x from rfl, except_ok_bind, hx]
      rfl
    rw [← h]
    show parseNumber F (0x2d#8 :: (x :: u ++ c :: r)) = _
    rw [parseNumber, hf, except_ok_bind]
    simp only [Bool.false_eq_true, if_false]
    rw [rd_cons, except_ok_bind, if_neg (by decide), if_pos rfl]
    rfl

theorem cells_text {n : Nat} {buf : List Byte} (h : buf.length < n) : cells n buf = buf ++ 0 :: List.replicate (n - buf.length - 1) 0 := by
  rw [cells, show n - buf.length = (n - buf.length - 1) + 1 by omega, List.replicate_succ]
  rfl

/-- The number of a text without NUL. -/
def intOf {ρ : Type} (buf : List Byte) (props : Props) : Except Fault (Num ρ) :=
  let base := if 2 < buf.length ∧ [0x30#8, 0x78#8] <+: buf then 16 else 10
  let v := Zpl.Num.value base (Zpl.Num.leadingDigits base (Zpl.Num.after0x base (if buf.head? = some 0x2d#8 then buf.drop 1 else buf)))
  if v < 2 ^ 63 then .ok { val := .int (if buf.head? = some 0x2d#8 then -(v : Int) else v), props := props, negZero := v = 0 ∧ buf.head? = some 0x2d#8 } else .error .arith

theorem finishInt_ok {ρ : Type} {buf : List Byte} (ht : Text buf) (hl : buf.length ≤ 47) (props : Props) :
    finishInt (ρ := ρ) buf props 0 false = intOf buf props := by
  have hb := (Zpl.Num.C25_base_detection ht (List.replicate (48 - buf.length - 1) 0)).2
  have hrd : rd (buf ++ 0 :: List.replicate (48 - buf.length - 1) 0) 0 = .ok (buf.headD 0) := by
    cases buf with
    | nil => rfl
    | cons c buf => rfl
  have hhead : buf.headD 0 = 0x2d#8 ↔ buf.head? = some 0x2d#8 := by
    cases buf with
    | nil => simp
    | cons c buf => simp
  rw [finishInt, cells_text (by omega), hb, Zpl.Num.C25_i64_partial ht _ (by split <;> omega), intOf]
  dsimp only
  generalize hbase : (if 2 < buf.length ∧ [0x30#8, 0x78#8] <+: buf then 16 else 10) = base
  generalize Zpl.Num.value base (Zpl.Num.leadingDigits base (Zpl.Num.after0x base (if buf.head? = some 0x2d#8 then buf.drop 1 else buf))) = v
  by_cases hv : v < 2 ^ 63
  · rw [if_pos hv, if_pos hv, except_ok_bind]
    dsimp only
    rw [hrd, except_ok_bind, show (0 : BitVec 8).toInt.toNat = 0 from rfl, mulLoop, except_ok_bind]
    by_cases hm : buf.head? = some 0x2d#8
    · simp only [hm, hhead, if_true, and_true]
      congr 3
      simp
    · simp only [hm, hhead, if_false, and_false]
      rfl
  · rw [if_neg hv, if_neg hv, except_error_bind]

theorem strlen_full {s : List Byte} (hs : Text s) : strlen s = .error .oob := by
  induction s with
  | nil => rfl
  | cons c s ih =>
    have hc := Text.cons.1 hs
    rw [strlen, if_pos hc.1, ih hc.2, except_error_bind]

theorem finishInt_full {ρ : Type} {buf : List Byte} (ht : Text buf) (hl : 48 ≤ buf.length) (props : Props) : finishInt (ρ := ρ) buf props 0 false = .error .oob := by
  rw [finishInt, cells, Nat.sub_eq_zero_of_le hl, List.replicate_zero, List.append_nil, Zpl.Num.strToI64, Zpl.Num.defaultBase, if_pos rfl, strlen_full ht]
  rfl

theorem run_text {u : List Byte} (hu : ∀ x ∈ u, Run x) : Text u := by
  have : ∀ x : Byte, Run x → x ≠ 0 := by decide +kernel
  exact fun x hx => this x (hu x hx)

theorem runResult_ok {ρ : Type} {s : Sign} {u : List Byte} (hu : ∀ x ∈ u, Run x) :
    runResult (ρ := ρ) s u = if (if s = .minus then 1 else 0) + u.length ≤ 47 then
      (intOf ((if s = .minus then [0x2d#8] else []) ++ u) (flagOf u)).map fun n => (some n, s.text.length + u.length) else .error .oob := by
  have ht : Text ((if s = .minus then [0x2d#8] else []) ++ u) := by
    intro x hx
    rcases List.mem_append.1 hx with hx | hx
    · split at hx
      · simp at hx; subst hx; decide
      · simp at hx
    · exact run_text hu x hx
  have hlen : ((if s = .minus then [0x2d#8] else []) ++ u).length = (if s = .minus then 1 else 0) + u.length := by
    rw [List.length_append]; split <;> rfl
  rw [runResult]
  by_cases h : (if s = .minus then 1 else 0) + u.length ≤ 47
  · rw [if_pos (by omega), if_pos h, finishInt_ok ht (by omega)]
  · rw [if_neg h]
    by_cases h2 : (if s = .minus then 1 else 0) + u.length ≤ 48
    · rw [if_pos h2, finishInt_full ht (by omega)]
      rfl
    · rw [if_neg h2]

/-! ### Digits -/

theorem digit_hex : ∀ d : Fin 16, ∀ up : Bool, Chars.isHexDigit (digit up d.val) = true ∧ Zpl.Num.digitVal 16 (digit up d.val) = some d.val := by decide

theorem digit_dec : ∀ d : Fin 10, Zpl.Num.digitVal 10 (digit false d.val) = some d.val ∧ Chars.isHexDigit (digit false d.val) = true ∧ Chars.isDigit (digit false d.val) = true ∧
    digit false d.val ≠ 0x65#8 ∧ digit false d.val ≠ 0x45#8 ∧ digit false d.val ≠ 0x2d#8 ∧ digit false d.val ≠ 0x78#8 ∧ digit false d.val ≠ 0x58#8 := by decide

theorem leading_decimal (ds : List Nat) (hd : ∀ d ∈ ds, d < 10) (t : List Byte) (ht : ∀ c, t.head? = some c → Zpl.Num.digitVal 10 c = none) :
    Zpl.Num.leadingDigits 10 (decimal ds ++ t) = ds := by
  induction ds with
  | nil =>
    cases t with
    | nil => rfl
    | cons c t =>
      have := ht c rfl
      simp [decimal, Zpl.Num.leadingDigits, this]
  | cons d ds ih =>
    rw [decimal, List.map_cons, List.cons_append, Zpl.Num.leadingDigits, (digit_dec ⟨d, hd d (by simp)⟩).1]
    dsimp only
    have := ih (fun x hx => hd x (by simp [hx]))
    rw [decimal] at this
    rw [this]

theorem leading_hex (ds : List (Bool × Nat)) (hd : ∀ p ∈ ds, p.2 < 16) : Zpl.Num.leadingDigits 16 (hexadecimal ds) = ds.map (·.2) := by
  induction ds with
  | nil => rfl
  | cons p ds ih =>
    obtain ⟨up, d⟩ := p
    rw [hexadecimal, List.map_cons, Zpl.Num.leadingDigits, (digit_hex ⟨d, hd (up, d) (by simp)⟩ up).2]
    dsimp only
    have := ih (fun x hx => hd x (by simp [hx]))
    rw [hexadecimal] at this
    rw [this]
    rfl

theorem decimal_run {ds : List Nat} (hd : ∀ d ∈ ds, d < 10) : ∀ x ∈ decimal ds, Chars.isHexDigit x = true ∧ x ≠ 0x65#8 ∧ x ≠ 0x45#8 ∧ x ≠ 0x2d#8 ∧ x ≠ 0x78#8 ∧ x ≠ 0x58#8 := by
  intro x hx
  obtain ⟨d, h, rfl⟩ := List.mem_map.1 hx
  have := digit_dec ⟨d, hd d h⟩
  exact ⟨this.2.1, this.2.2.2⟩

theorem hex_run {ds : List (Bool × Nat)} (hd : ∀ p ∈ ds, p.2 < 16) : ∀ x ∈ hexadecimal ds, Chars.isHexDigit x = true := by
  intro x hx
  obtain ⟨p, h, rfl⟩ := List.mem_map.1 hx
  exact (digit_hex ⟨p.2, hd p h⟩ p.1).1

theorem not_hex_prefix {u : List Byte} (h : ∀ x ∈ u.drop 1, x ≠ 0x78#8 ∧ x ≠ 0x58#8) : flagOf u = .none ∧ ¬ [0x30#8, 0x78#8] <+: u := by
  have h1 : ¬ [0x30#8, 0x78#8] <+: u := by
    rintro ⟨t, rfl⟩
    exact (h 0x78#8 (by simp)).1 rfl
  have h2 : ¬ [0x30#8, 0x58#8] <+: u := by
    rintro ⟨t, rfl⟩
    exact (h 0x58#8 (by simp)).2 rfl
  exact ⟨by rw [flagOf, if_neg (fun h => h.elim h1 h2)], h1⟩

/-! ## C88: reading -/

/-- The shared part: a run that begins with the digits `ds`, at least one, and goes on with `t`, which does not begin with a digit and has no `x`. -/
theorem parse_digits {ρ : Type} (F : Reals ρ) (s : Sign) {ds : List Nat} (hd : ∀ d ∈ ds, d < 10) (hn : ds ≠ []) {t : List Byte} (ht : ∀ x ∈ t, Chars.isHexDigit x = true)
    (ht0 : ∀ c, t.head? = some c → Zpl.Num.digitVal 10 c = none) {c : Byte} (hc : Stop c) (r : List Byte) :
    parseNumber F (s.text ++ (decimal ds ++ t) ++ c :: r) =
      if (if s = .minus then 1 else 0) + (ds.length + t.length) ≤ 47 then
        if Zpl.Num.value 10 ds < 2 ^ 63 then
          .ok (some { val := .int (s.apply (Zpl.Num.value 10 ds)), negZero := s = .minus ∧ Zpl.Num.value 10 ds = 0 }, s.text.length + (ds.length + t.length))
        else .error .arith
      else .error .oob := by
  obtain ⟨d, ds', rfl⟩ : ∃ d ds', ds = d :: ds' := by
    cases ds with
    | nil => exact absurd rfl hn
    | cons d ds => exact ⟨d, ds, rfl⟩
  have hdr := decimal_run hd
  obtain ⟨x, u, hxu, hmem⟩ : ∃ x u, decimal (d :: ds') ++ t = x :: u ∧ x ∈ decimal (d :: ds') := ⟨_, _, rfl, by simp [decimal]⟩
  have hx := hdr x hmem
  have hall : ∀ y ∈ x :: u, Chars.isHexDigit y = true := by
    intro y hy
    rw [← hxu] at hy
    rcases List.mem_append.1 hy with hy | hy
    · exact (hdr y hy).1
    · exact ht y hy
  have hnox : ∀ y ∈ x :: u, y ≠ 0x78#8 ∧ y ≠ 0x58#8 := by
    have k : ∀ y : Byte, Chars.isHexDigit y = true → y ≠ 0x78#8 ∧ y ≠ 0x58#8 := by decide +kernel
    exact fun y hy => k y (hall y hy)
  have hlen : (x :: u).length = (d :: ds').length + t.length := by rw [← hxu, List.length_append, decimal, List.length_map]
  have hfl := not_hex_prefix (u := x :: u) (fun y hy => hnox y (List.mem_of_mem_drop hy))
  have hbase : ¬ [0x30#8, 0x78#8] <+: (if s = .minus then [0x2d#8] else []) ++ x :: u := by
    split
    · simp [List.cons_prefix_cons]
    · exact hfl.2
  rw [List.append_assoc, show decimal (d :: ds') ++ t ++ c :: r = x :: u ++ c :: r by rw [hxu], parse_run F hx.1 (fun _ => ⟨hx.2.1, hx.2.2.1⟩)
    (fun y hy => .inl (hall y (List.mem_cons_of_mem _ hy))) hc, runResult_ok (fun y hy => .inl (hall y hy)), hlen, hfl.1, intOf]
  rw [if_neg (c := 2 < _ ∧ _) (fun h => hbase h.2)]
  have hld : Zpl.Num.leadingDigits 10 (x :: u) = d :: ds' := by rw [← hxu, leading_decimal _ hd t ht0]
  have ha : ∀ y : List Byte, Zpl.Num.after0x 10 y = y := fun y => by rw [Zpl.Num.after0x, if_neg (fun h => by omega)]
  have hm : (if s = .minus then [0x2d#8] else []) ++ x :: u = if s = .minus then 0x2d#8 :: x :: u else x :: u := by split <;> rfl
  rw [ha, hm]
  by_cases hs : s = .minus
  · simp only [hs, if_true, List.head?_cons, List.drop_succ_cons, List.drop_zero, hld, Sign.apply, and_true, true_and]
    split
    · split <;> rfl
    · rfl
  · have hx0 : ¬ (some x = some 0x2d#8) := by simpa using hx.2.2.2.1
    simp only [hs, if_false, List.head?_cons, hx0, hld, Sign.apply, and_false, false_and]
    split
    · split <;> rfl
    · rfl

/-- **C88.** A sign or none and decimal digits, leading zeros allowed, are read as the number they denote, whatever follows that is no digit, letter up to `f`, `x` or dot; the returned
    pointer is at the end of the digits.

    `_partial`: the sign and the digits take up at most 47 characters, and the magnitude is below `2^63`; beyond that see `C88_long_number_overruns` and `C88_large_number_undefined`. -/
theorem C88_decimal_partial {ρ : Type} (F : Reals ρ) (s : Sign) {ds : List Nat} (hd : ∀ d ∈ ds, d < 10) (hn : ds ≠ []) (hv : Zpl.Num.value 10 ds < 2 ^ 63) (hl : ds.length ≤ 46) {c : Byte} (hc : Stop c)
    (r : List Byte) :
    ∃ n, parseNumber F (s.text ++ decimal ds ++ c :: r) = .ok (some n, s.text.length + ds.length) ∧ n.val = .int (s.apply (Zpl.Num.value 10 ds)) ∧ n.props = .none ∧
      (n.negZero = true ↔ s = .minus ∧ Zpl.Num.value 10 ds = 0) := by
  have h := parse_digits F s hd hn (t := []) (by simp) (by simp) hc r
  rw [List.append_nil, List.length_nil, Nat.add_zero, if_pos (by split <;> omega), if_pos hv] at h
  exact ⟨_, h, rfl, rfl, by simp⟩

/-- **C88 fails** for long numbers: with 48 characters or more the array `buf` overflows. -/
theorem C88_long_number_overruns {ρ : Type} (F : Reals ρ) (s : Sign) {ds : List Nat} (hd : ∀ d ∈ ds, d < 10) (hl : 48 ≤ ds.length) {c : Byte} (hc : Stop c) (r : List Byte) :
    parseNumber F (s.text ++ decimal ds ++ c :: r) = .error .oob := by
  have h := parse_digits F s hd (by rintro rfl; simp at hl) (t := []) (by simp) (by simp) hc r
  rw [List.append_nil, List.length_nil, Nat.add_zero, if_neg (by split <;> omega)] at h
  exact h

/-- **C88 fails** for numbers of magnitude `2^63` or more, in particular for the least 64-bit number: the arithmetic overflows. -/
theorem C88_large_number_undefined {ρ : Type} (F : Reals ρ) (s : Sign) {ds : List Nat} (hd : ∀ d ∈ ds, d < 10) (hv : 2 ^ 63 ≤ Zpl.Num.value 10 ds) (hl : ds.length ≤ 46) {c : Byte} (hc : Stop c)
    (r : List Byte) :
    parseNumber F (s.text ++ decimal ds ++ c :: r) = .error .arith := by
  have h := parse_digits F s hd (by rintro rfl; exact absurd hv (by decide)) (t := []) (by simp) (by simp) hc r
  rw [List.append_nil, List.length_nil, Nat.add_zero, if_pos (by split <;> omega), if_neg (by omega)] at h
  exact h

/-- **C88 fails** for an exponent without a dot, as in `12e5`: the `e` is taken for a hexadecimal digit, and the number is the one before it. -/
theorem C88_exponent_ignored {ρ : Type} (F : Reals ρ) (s : Sign) {ds es : List Nat} (hd : ∀ d ∈ ds, d < 10) (hn : ds ≠ []) (he : ∀ d ∈ es, d < 10) (hv : Zpl.Num.value 10 ds < 2 ^ 63)
    (hl : ds.length + es.length ≤ 45) {e : Byte} (hee : e = 0x65#8 ∨ e = 0x45#8) {c : Byte} (hc : Stop c) (r : List Byte) :
    ∃ n, parseNumber F (s.text ++ (decimal ds ++ e :: decimal es) ++ c :: r) = .ok (some n, s.text.length + (ds.length + (es.length + 1))) ∧ n.val = .int (s.apply (Zpl.Num.value 10 ds)) := by
  have hlen : (e :: decimal es).length = es.length + 1 := by rw [List.length_cons, decimal, List.length_map]
  have h := parse_digits F s hd hn (t := e :: decimal es) (by
    intro x hx
    rcases List.mem_cons.1 hx with rfl | hx
    · rcases hee with rfl | rfl <;> decide
    · exact (decimal_run he x hx).1) (by
    intro x hx
    simp only [List.head?_cons, Option.some.injEq] at hx
    subst hx
    rcases hee with rfl | rfl <;> decide) hc r
  rw [hlen, if_pos (by split <;> omega), if_pos hv] at h
  exact ⟨_, h, rfl⟩

theorem after0x_ten (y : List Byte) : Zpl.Num.after0x 10 y = y := by rw [Zpl.Num.after0x, if_neg (fun h => by omega)]

/-- The value of a run that begins with `0x` or `0X`. -/
theorem parse_0x {ρ : Type} (F : Reals ρ) (s : Sign) {x : Byte} (hx : x = 0x78#8 ∨ x = 0x58#8) {ds : List (Bool × Nat)} (hd : ∀ p ∈ ds, p.2 < 16) (hn : ds ≠ []) {c : Byte} (hc : Stop c)
    (r : List Byte) (hl : ds.length ≤ 44) :
    parseNumber F (s.text ++ (0x30#8 :: x :: hexadecimal ds) ++ c :: r) =
      if x = 0x78#8 ∧ s ≠ .minus then
        if Zpl.Num.value 16 (ds.map (·.2)) < 2 ^ 63 then .ok (some { val := .int (Zpl.Num.value 16 (ds.map (·.2))), props := .isHex }, s.text.length + (ds.length + 2)) else .error .arith
      else .ok (some { val := .int 0, props := .isHex, negZero := s = .minus }, s.text.length + (ds.length + 2)) := by
  have hrun : ∀ y ∈ x :: hexadecimal ds, Run y := by
    intro y hy
    rcases List.mem_cons.1 hy with rfl | hy
    · exact .inr hx
    · exact .inl (hex_run hd y hy)
  have hrun' : ∀ y ∈ 0x30#8 :: x :: hexadecimal ds, Run y := by
    intro y hy
    rcases List.mem_cons.1 hy with rfl | hy
    · decide
    · exact hrun y hy
  have hlen : (0x30#8 :: x :: hexadecimal ds).length = ds.length + 2 := by simp [hexadecimal]
  have hn' : 0 < ds.length := List.length_pos_iff.2 hn
  have hf : flagOf (0x30#8 :: x :: hexadecimal ds) = .isHex := by
    rw [flagOf, if_pos]
    rcases hx with rfl | rfl
    · exact .inl ⟨_, rfl⟩
    · exact .inr ⟨_, rfl⟩
  rw [List.append_assoc, parse_run F (by decide) (fun _ => by decide) hrun hc, runResult_ok hrun', hlen, hf, if_pos (by split <;> omega), intOf]
  by_cases hs : s = .minus
  · subst hs
    have h1 : ¬ (2 < (0x2d#8 :: 0x30#8 :: x :: hexadecimal ds).length ∧ [0x30#8, 0x78#8] <+: 0x2d#8 :: 0x30#8 :: x :: hexadecimal ds) := by
      rintro ⟨-, h⟩
      simp [List.cons_prefix_cons] at h
    have hv : Zpl.Num.value 10 (Zpl.Num.leadingDigits 10 (0x30#8 :: x :: hexadecimal ds)) = 0 := by
      rcases hx with rfl | rfl <;> rfl
    have h2 : ¬ (x = 0x78#8 ∧ Sign.minus ≠ .minus) := by simp
    simp only [if_true, List.cons_append, List.nil_append, if_neg h1, if_neg h2, after0x_ten, List.head?_cons, List.drop_succ_cons, List.drop_zero, hv]
    rfl
  · simp only [if_neg hs, List.nil_append]
    have h0 : ¬ ((0x30#8 :: x :: hexadecimal ds).head? = some 0x2d#8) := by simp
    simp only [if_neg h0, hs, ne_eq, not_false_eq_true, and_true]
    by_cases hxx : x = 0x78#8
    · subst hxx
      have h1 : 2 < (0x30#8 :: 0x78#8 :: hexadecimal ds).length ∧ [0x30#8, 0x78#8] <+: 0x30#8 :: 0x78#8 :: hexadecimal ds := ⟨by omega, ⟨_, rfl⟩⟩
      have h2 : Zpl.Num.after0x 16 (0x30#8 :: 0x78#8 :: hexadecimal ds) = hexadecimal ds := by rw [Zpl.Num.after0x, if_pos ⟨rfl, h1.2⟩]; rfl
      simp only [if_pos h1, h2, leading_hex ds hd, if_true]
      split
      · simp [Except.map]
      · rfl
    · have hxX : x = 0x58#8 := hx.resolve_left hxx
      subst hxX
      have h1 : ¬ (2 < (0x30#8 :: 0x58#8 :: hexadecimal ds).length ∧ [0x30#8, 0x78#8] <+: 0x30#8 :: 0x58#8 :: hexadecimal ds) := by
        rintro ⟨-, h⟩
        simp [List.cons_prefix_cons] at h
      have h2 : ¬ (0x58#8 = 0x78#8) := by decide
      simp only [if_neg h1, after0x_ten, if_neg h2]
      have hv : Zpl.Num.value 10 (Zpl.Num.leadingDigits 10 (0x30#8 :: 0x58#8 :: hexadecimal ds)) = 0 := rfl
      simp [hv, Except.map]

/-- **C88.** `0x` and hexadecimal digits, in capitals or not, are read as the number they denote, and as a hexadecimal number.

    `_partial`: not after a minus sign and not for `0X` (`C88_negative_hex_lost`, `C88_capital_x_lost`); the length and the magnitude are limited as for decimal numbers. -/
theorem C88_hex_partial {ρ : Type} (F : Reals ρ) (s : Sign) (hs : s ≠ .minus) {ds : List (Bool × Nat)} (hd : ∀ p ∈ ds, p.2 < 16) (hn : ds ≠ []) (hv : Zpl.Num.value 16 (ds.map (·.2)) < 2 ^ 63)
    (hl : ds.length ≤ 44) {c : Byte} (hc : Stop c) (r : List Byte) :
    ∃ n, parseNumber F (s.text ++ (0x30#8 :: 0x78#8 :: hexadecimal ds) ++ c :: r) = .ok (some n, s.text.length + (ds.length + 2)) ∧
      n.val = .int (Zpl.Num.value 16 (ds.map (·.2))) ∧ n.props = .isHex := by
  have h := parse_0x F s (.inl rfl) hd hn hc r hl
  rw [if_pos ⟨rfl, hs⟩, if_pos hv] at h
  exact ⟨_, h, rfl, rfl⟩

/-- **C88 fails** for negative hexadecimal numbers: each of them is read as (negative) zero. -/
theorem C88_negative_hex_lost {ρ : Type} (F : Reals ρ) {x : Byte} (hx : x = 0x78#8 ∨ x = 0x58#8) {ds : List (Bool × Nat)} (hd : ∀ p ∈ ds, p.2 < 16) (hn : ds ≠ []) (hl : ds.length ≤ 44) {c : Byte}
    (hc : Stop c) (r : List Byte) :
    ∃ n, parseNumber F (0x2d#8 :: 0x30#8 :: x :: hexadecimal ds ++ c :: r) = .ok (some n, ds.length + 3) ∧ n.val = .int 0 := by
  have h := parse_0x F .minus hx hd hn hc r hl
  rw [if_neg (by simp), show Sign.minus.text.length + (ds.length + 2) = ds.length + 3 by simp only [Sign.text, List.length_cons, List.length_nil]; omega] at h
  exact ⟨_, h, rfl⟩

/-- **C88 fails** for `0X`: such a number is read as zero. -/
theorem C88_capital_x_lost {ρ : Type} (F : Reals ρ) (s : Sign) {ds : List (Bool × Nat)} (hd : ∀ p ∈ ds, p.2 < 16) (hn : ds ≠ []) (hl : ds.length ≤ 44) {c : Byte} (hc : Stop c) (r : List Byte) :
    ∃ n, parseNumber F (s.text ++ (0x30#8 :: 0x58#8 :: hexadecimal ds) ++ c :: r) = .ok (some n, s.text.length + (ds.length + 2)) ∧ n.val = .int 0 := by
  have h := parse_0x F s (.inr rfl) hd hn hc r hl
  rw [if_neg (by simp)] at h
  exact ⟨_, h, rfl⟩

/-- **C88 fails** for words made of the letters `a` to `f` that do not begin with `e`, such as `bad`: they are read as zero. -/
theorem C88_words_are_zero {ρ : Type} (F : Reals ρ) {u : List Byte} (hu : ∀ x ∈ u, Chars.isHexDigit x = true ∧ Chars.isDigit x = false) (hn : u ≠ []) (he : u.head? ≠ some 0x65#8 ∧ u.head? ≠ some 0x45#8)
    (hl : u.length ≤ 47) {c : Byte} (hc : Stop c) (r : List Byte) :
    ∃ n, parseNumber F (u ++ c :: r) = .ok (some n, u.length) ∧ n.val = .int 0 := by
  obtain ⟨x, u, rfl⟩ : ∃ x v, u = x :: v := by
    cases u with
    | nil => exact absurd rfl hn
    | cons x v => exact ⟨x, v, rfl⟩
  have k : ∀ y : Byte, Chars.isHexDigit y = true → y ≠ 0x78#8 ∧ y ≠ 0x58#8 := by decide +kernel
  have k2 : ∀ y : Byte, Chars.isHexDigit y = true ∧ Chars.isDigit y = false → y ≠ 0x30#8 ∧ y ≠ 0x2d#8 ∧ Zpl.Num.digitVal 10 y = none := by decide +kernel
  have hx := hu x (by simp)
  have hrun : ∀ y ∈ x :: u, Run y := fun y hy => .inl (hu y hy).1
  have hpre : ¬ [0x30#8, 0x78#8] <+: x :: u := by
    simp only [List.cons_prefix_cons]
    exact fun h => (k2 x hx).1 h.1.symm
  have h := parse_run F (s := .none) hx.1 (fun _ => ⟨fun h => he.1 (by simp [h]), fun h => he.2 (by simp [h])⟩) (fun y hy => hrun y (List.mem_cons_of_mem _ hy)) hc r
  have h1 : ¬ (Sign.none = Sign.minus) := by decide
  have h2 : ¬ (2 < (x :: u).length ∧ [0x30#8, 0x78#8] <+: x :: u) := fun h => hpre h.2
  have h3 : ¬ ((x :: u).head? = some 0x2d#8) := by simpa using (k2 x hx).2.1
  have h4 : Zpl.Num.leadingDigits 10 (x :: u) = [] := by rw [Zpl.Num.leadingDigits, (k2 x hx).2.2]
  rw [runResult_ok hrun] at h
  simp only [h1, if_false, Nat.zero_add, if_pos hl, intOf, List.nil_append, if_neg h2, if_neg h3, after0x_ten, h4] at h
  have h5 : Zpl.Num.value 10 [] = 0 := rfl
  rw [h5, if_pos (by decide), Except.map, Sign.text, List.length_nil, Nat.zero_add] at h
  exact ⟨_, h, rfl⟩

/-- The strict reader does the same on a text made of digits, signs, dots and the letters up to `f` alone. -/
theorem onlyNumberChars_ok {t : List Byte} (ht : ∀ x ∈ t, Chars.isHexDigit x = true ∨ x ∈ [0x2e#8, 0x2b#8, 0x2d#8]) (r : List Byte) : onlyNumberChars (t ++ 0 :: r) = .ok true := by
  induction t with
  | nil => rw [List.nil_append, onlyNumberChars, if_pos rfl]
  | cons x t ih =>
    have hx := ht x (by simp)
    have h0 : x ≠ 0 := by rintro rfl; revert hx; decide
    rw [List.cons_append, onlyNumberChars, if_neg h0, if_pos, ih (fun y hy => ht y (by simp [hy]))]
    rcases hx with hx | hx
    · exact .inr hx
    · left
      simp only [List.mem_cons, List.not_mem_nil, or_false] at hx ⊢
      rcases hx with h | h | h <;> simp [h]

/-- **C88, the strict reader.** A text that is a decimal number as a whole is read as that number; a text with any character but digits, signs, dots and the letters up to `f` is no number.

    `_partial`: for the same reasons as `C88_decimal_partial`; and `x` is such a character, so that no hexadecimal number is one. -/
theorem C88_strict_partial {ρ : Type} (F : Reals ρ) (s : Sign) {ds : List Nat} (hd : ∀ d ∈ ds, d < 10) (hn : ds ≠ []) (hv : Zpl.Num.value 10 ds < 2 ^ 63) (hl : ds.length ≤ 46) (r : List Byte) :
    ∃ n, parseNumberStrict F (s.text ++ decimal ds ++ 0 :: r) = .ok (some n, s.text.length + ds.length) ∧ n.val = .int (s.apply (Zpl.Num.value 10 ds)) := by
  obtain ⟨n, e, h1, -⟩ := C88_decimal_partial F s hd hn hv hl (c := 0) (by decide) r
  refine ⟨n, ?_, h1⟩
  rw [parseNumberStrict, onlyNumberChars_ok, except_ok_bind, if_pos rfl, e]
  intro x hx
  rcases List.mem_append.1 hx with hx | hx
  · cases s <;> simp [Sign.text] at hx <;> subst hx <;> decide
  · exact .inl (decimal_run hd x hx).1

theorem C88_strict_refuses {ρ : Type} (F : Reals ρ) {t : List Byte} (ht : Text t) {x : Byte} (hx : x ∈ t) (hx2 : ¬ (Chars.isHexDigit x = true ∨ x ∈ [0x2e#8, 0x2b#8, 0x2d#8])) (r : List Byte) :
    parseNumberStrict F (t ++ 0 :: r) = .ok (none, 0) := by
  have : onlyNumberChars (t ++ 0 :: r) = .ok false := by
    induction t with
    | nil => simp at hx
    | cons y t ih =>
      have hy := Text.cons.1 ht
      rw [List.cons_append, onlyNumberChars, if_neg hy.1]
      by_cases h : y ∈ [0x65#8, 0x45#8, 0x2e#8, 0x2b#8, 0x2d#8] ∨ Chars.isHexDigit y = true
      · rw [if_pos h]
        refine ih hy.2 ?_
        rcases List.mem_cons.1 hx with rfl | hx
        · exfalso
          apply hx2
          rcases h with h | h
          · simp only [List.mem_cons, List.not_mem_nil, or_false] at h ⊢
            rcases h with rfl | rfl | h | h | h
            · exact .inl rfl
            · exact .inl rfl
            · exact .inr (.inl h)
            · exact .inr (.inr (.inl h))
            · exact .inr (.inr (.inr h))
          · exact .inl h
        · exact hx
      · rw [if_neg h]
  rw [parseNumberStrict, this, except_ok_bind]
  rfl

end Zpl.Number
