import Verif.Str.Num

/-!
# Formatted printing (code/source/core/print.c:81-202, 282-454)  -  C54

## Model

`text` is the list of the bytes from the pointer to the end of its block.  `long`, `long long`, `zpl_usize`, `zpl_isize` and pointers have 64 bits, `int` has 32.
`zpl__print_f64` (print.c:204-280) does floating-point arithmetic: it is a parameter `pf` of the model, and the theorems here are about formats without `%f`, `%g`, `%a`.
Str/PrintReal models it. -/

namespace Zpl.Print

open Str

/-- An argument of the variable part of the call. -/
inductive Arg where
  | int (v : BitVec 32)
  | long (v : BitVec 64)
  /-- a pointer to a block of bytes; `none` is NULL -/
  | str (b : Option (List Byte))
  /-- a `double`, as its bits -/
  | real (bits : BitVec 64)
  deriving DecidableEq, Repr

/-- print.c:98-104, the size flags; `ZPL_FMT_LONG`, `LLONG`, `SIZE` and `INTPTR` all mean 64 bits. -/
inductive Size where
  | char | short | long
  deriving DecidableEq, Repr

/-- print.c:91-123 `zpl__format_info`; `ZPL_FMT_PLUS` and `ZPL_FMT_SPACE` are set but never tested. -/
structure Info where
  base : Nat := 0
  minus : Bool := false
  alt : Bool := false
  zero : Bool := false
  hasWidth : Bool := false
  isUnsigned : Bool := false
  lower : Bool := false
  upper : Bool := false
  size : Option Size := none
  width : Int := 0
  precision : Int := -1
  deriving DecidableEq, Repr

/-- `while (n-- > 0) *text++ = c;` -/
def fill : Nat → Byte → List Byte → Except Fault (List Byte)
  | 0, _, t => .ok t
  | _ + 1, _, [] => .error .oob
  | n + 1, c, _ :: t => do .ok (c :: (← fill n c t))

/-- string.h:181-185 `zpl_strnlen`: the bytes are read one after another up to the bound (`zpl_memchr`, see Mem/Raw and C72). -/
def strnlen : Nat → List Byte → Except Fault Nat
  | 0, _ => .ok 0
  | _ + 1, [] => .error .oob
  | n + 1, c :: s => if c = 0 then .ok 0 else do .ok ((← strnlen n s) + 1)

/-- print.c:167-172. -/
def caseText (info : Info) (text : List Byte) : Except Fault (List Byte) :=
  if info.upper then strToUpper text else if info.lower then strToLower text else .ok text

/-- print.c:135-138. -/
def fieldLen (info : Info) (str : List Byte) : Except Fault Nat :=
  if info.precision ≥ 0 then strnlen info.precision.toNat str else strlen str

/-- print.c:144-155, left-justified or without width; the padding loop is bounded by all of `max_len`. -/
def printLeft (text : List Byte) (maxLen : Nat) (info : Info) (str : List Byte) (len : Nat) : Except Fault (List Byte × Nat) :=
  if len > maxLen then .ok (text, 0)
  else do
    let (text, res) ← strlcpy text str len
    let padding := if info.width > res then min (info.width - len).toNat maxLen else 0
    let tail ← fill padding (if info.zero then 0x30#8 else 0x20#8) (text.drop res)
    let text ← caseText info (text.take res ++ tail)
    .ok (text, res + padding)

/-- print.c:156-165. -/
def printRight (text : List Byte) (maxLen : Nat) (info : Info) (str : List Byte) (len : Nat) : Except Fault (List Byte × Nat) := do
  let padding := if info.width > 0 then min (info.width - len).toNat maxLen else 0
  let text ← fill padding (if info.zero then 0x30#8 else 0x20#8) text
  if padding + len > maxLen then .ok (text, padding)
  else do
    let (tail, n) ← strlcpy (text.drop padding) str len
    let text ← caseText info (text.take padding ++ tail)
    .ok (text, padding + n)

/-- print.c:125-175 `zpl__print_string` with `info` not NULL: the bytes from `text` on and the number of characters.  NULL with less than 6 bytes of room is not modelled
(`ub`). -/
def printString (text : List Byte) (maxLen : Nat) (info : Info) : Option (List Byte) → Except Fault (List Byte × Nat)
  | none => if 6 ≤ maxLen then strlcpy text [0x28#8, 0x6e#8, 0x75#8, 0x6c#8, 0x6c#8, 0x29#8, 0#8] 6 else .error .ub
  | some str => do
    let len ← fieldLen info str
    if info.width = 0 ∧ info.hasWidth then .ok (text, 0)
    else if info.width = 0 ∨ info.minus then printLeft text maxLen info str len
    else printRight text maxLen info str len

/-- print.c:177-181 `zpl__print_char`. -/
def printChar (text : List Byte) (maxLen : Nat) (info : Info) (c : Byte) : Except Fault (List Byte × Nat) :=
  printString text maxLen info (some [c, 0])

/-- print.c:183-190 `zpl__print_repeated_char`; `max_len` is ignored. -/
def printRepeated (text : List Byte) (info : Info) (c : Byte) : Except Fault (List Byte × Nat) := do
  let rem := if info.width > 0 then info.width.toNat else 1
  let text ← fill rem c text
  .ok (text, rem)

/-- print.c:192-196 `zpl__print_i64`; the local array is not initialised, only the text written into it is used. -/
def printI64 (text : List Byte) (maxLen : Nat) (info : Info) (value : Int) : Except Fault (List Byte × Nat) := do
  let num ← Num.i64ToStr value (List.replicate 130 0) info.base
  printString text maxLen info (some num)

/-- print.c:198-202 `zpl__print_u64`. -/
def printU64 (text : List Byte) (maxLen : Nat) (info : Info) (value : BitVec 64) : Except Fault (List Byte × Nat) := do
  let num ← Num.u64ToStr value (List.replicate 130 0) info.base
  printString text maxLen info (some num)

/-- `va_arg(va, int)`; an argument of another type is undefined. -/
def vaInt : List Arg → Except Fault (BitVec 32 × List Arg)
  | .int v :: args => .ok (v, args)
  | _ => .error .ub

def vaLong : List Arg → Except Fault (BitVec 64 × List Arg)
  | .long v :: args => .ok (v, args)
  | _ => .error .ub

def vaStr : List Arg → Except Fault (Option (List Byte) × List Arg)
  | .str b :: args => .ok (b, args)
  | _ => .error .ub

/-- print.c:291 `while (*fmt && *fmt != '%' && remaining) *text++ = *fmt++;` for `remaining` not 0: how many, and the bytes from `text` on.  `remaining` is not changed. -/
def literal : List Byte → List Byte → Except Fault (Nat × List Byte)
  | [], _ => .error .oob
  | c :: fmt, text =>
    if c ≠ 0 ∧ c ≠ 0x25#8 then
      match text with
      | [] => .error .oob
      | _ :: text => do
        let (n, text) ← literal fmt text
        .ok (n + 1, c :: text)
    else .ok (0, text)

/-- print.c:294-303. -/
def flags : List Byte → Info → Except Fault (Info × List Byte)
  | [], _ => .error .oob
  | c :: fmt, info =>
    if c = 0x2d#8 then flags fmt { info with minus := true }
    else if c = 0x2b#8 then flags fmt info
    else if c = 0x23#8 then flags fmt { info with alt := true }
    else if c = 0x20#8 then flags fmt info
    else if c = 0x30#8 then flags fmt { info with zero := true, hasWidth := true }
    else .ok (info, c :: fmt)

/-- `cast(zpl_i32)` of a 64-bit value. -/
def toI32 (v : Int) : Int := (BitVec.ofInt 32 v).toInt

/-- print.c:307-322. -/
def width (fmt : List Byte) (args : List Arg) (info : Info) : Except Fault (Info × List Byte × List Arg) := do
  let c ← rd fmt 0
  if c = 0x2a#8 then do
    let (w, args) ← vaInt args
    if w.toInt < 0 then
      if w.toInt = -(2 ^ 31) then .error .arith
      else .ok ({ info with minus := true, width := -w.toInt, hasWidth := true }, fmt.drop 1, args)
    else .ok ({ info with width := w.toInt, hasWidth := true }, fmt.drop 1, args)
  else do
    let (w, n) ← Num.strToI64 fmt 10
    .ok ({ info with width := toI32 w, hasWidth := info.hasWidth || toI32 w ≠ 0 }, fmt.drop n, args)

/-- print.c:325-334. -/
def precision (fmt : List Byte) (args : List Arg) (info : Info) : Except Fault (Info × List Byte × List Arg) := do
  let c ← rd fmt 0
  if c = 0x2e#8 then do
    let fmt := fmt.drop 1
    let c ← rd fmt 0
    if c = 0x2a#8 then do
      let (p, args) ← vaInt args
      .ok ({ info with precision := p.toInt, zero := false }, fmt.drop 1, args)
    else do
      let (p, n) ← Num.strToI64 fmt 10
      .ok ({ info with precision := toI32 p, zero := false }, fmt.drop n, args)
  else .ok (info, fmt, args)

/-- print.c:336-365. -/
def size (fmt : List Byte) (info : Info) : Except Fault (Info × List Byte) := do
  let c ← rd fmt 0
  if c = 0x68#8 then do
    let c2 ← rd fmt 1
    if c2 = 0x68#8 then .ok ({ info with size := some .char }, fmt.drop 2) else .ok ({ info with size := some .short }, fmt.drop 1)
  else if c = 0x6c#8 then do
    let c2 ← rd fmt 1
    if c2 = 0x6c#8 then .ok ({ info with size := some .long }, fmt.drop 2) else .ok ({ info with size := some .long }, fmt.drop 1)
  else if c = 0x7a#8 then .ok ({ info with isUnsigned := true, size := some .long }, fmt.drop 1)
  else if c = 0x74#8 then .ok ({ info with size := some .long }, fmt.drop 1)
  else .ok (info, fmt)

/-- print.c:293-365: what stands between `%` and the conversion character. -/
def parse (fmt : List Byte) (args : List Arg) : Except Fault (Info × List Byte × List Arg) := do
  let c ← rd fmt 0
  let (info, fmt) ← if c = 0x25#8 then flags (fmt.drop 1) {} else .ok ({}, fmt)
  let (info, fmt, args) ← width fmt args info
  let (info, fmt, args) ← precision fmt args info
  let (info, fmt) ← size fmt info
  .ok (info, fmt, args)

/-- print.c:415-424. -/
def unsignedArg (info : Info) (args : List Arg) : Except Fault (BitVec 64 × List Arg) :=
  match info.size with
  | some .char => do let (v, args) ← vaInt args; .ok ((v.truncate 8).zeroExtend 64, args)
  | some .short => do let (v, args) ← vaInt args; .ok ((v.truncate 16).zeroExtend 64, args)
  | some .long => vaLong args
  | none => do let (v, args) ← vaInt args; .ok (v.zeroExtend 64, args)

/-- print.c:429-438. -/
def signedArg (info : Info) (args : List Arg) : Except Fault (Int × List Arg) :=
  match info.size with
  | some .char => do let (v, args) ← vaInt args; .ok ((v.truncate 8).toInt, args)
  | some .short => do let (v, args) ← vaInt args; .ok ((v.truncate 16).toInt, args)
  | some .long => do let (v, args) ← vaLong args; .ok (v.toInt, args)
  | none => do let (v, args) ← vaInt args; .ok (v.toInt, args)

/-- print.c:413-442 for `info.base` not 0. -/
def number (text : List Byte) (rem : Nat) (info : Info) (args : List Arg) : Except Fault ((List Byte × Nat) × List Arg) :=
  if info.isUnsigned then do
    let (v, args) ← unsignedArg info args
    let r ← printU64 text rem info v
    .ok (r, args)
  else do
    let (v, args) ← signedArg info args
    let r ← printI64 text rem info v
    .ok (r, args)

/-- `zpl__print_f64`, see Str/PrintReal. -/
abbrev FloatPrinter := List Byte → Nat → Info → List Arg → Except Fault ((List Byte × Nat) × List Arg)

/-- print.c:367-442: the bytes from `text` on, the number of characters written, the rest of the format and of the arguments. -/
def convert (pf : FloatPrinter) (text : List Byte) (rem : Nat) (info : Info) (fmt : List Byte) (args : List Arg) :
    Except Fault ((List Byte × Nat) × List Byte × List Arg) := do
  let c ← rd fmt 0
  let after (r : Except Fault ((List Byte × Nat) × List Arg)) : Except Fault ((List Byte × Nat) × List Byte × List Arg) := do
    let (r, args) ← r
    .ok (r, fmt.drop 1, args)
  if c = 0x75#8 then after (number text rem { info with isUnsigned := true, base := 10 } args)
  else if c = 0x64#8 ∨ c = 0x69#8 then after (number text rem { info with base := 10 } args)
  else if c = 0x6f#8 then after (number text rem { info with base := 8 } args)
  else if c = 0x78#8 then after (number text rem { info with base := 16, isUnsigned := true, lower := true } args)
  else if c = 0x58#8 then after (number text rem { info with base := 16, isUnsigned := true, upper := true } args)
  else if c = 0x66#8 ∨ c = 0x46#8 ∨ c = 0x67#8 ∨ c = 0x47#8 ∨ c = 0x61#8 ∨ c = 0x41#8 then after (pf text rem info args)
  else if c = 0x63#8 then after (do
    let (v, args) ← vaInt args
    .ok (← printChar text rem info (v.truncate 8), args))
  else if c = 0x73#8 then after (do
    let (s, args) ← vaStr args
    .ok (← printString text rem info s, args))
  else if c = 0x72#8 then after (do
    let (v, args) ← vaInt args
    .ok (← printRepeated text info (v.truncate 8), args))
  else if c = 0x70#8 then   -- with a size flag before `p` two size bits are set and the default case of the switch at print.c:416 is taken
    after (number text rem { info with base := 16, lower := true, isUnsigned := true, alt := true, size := if info.size = none then some .long else none } args)
  else if c = 0x25#8 then after (do .ok (← printChar text rem info 0x25#8, args))
  else .ok ((text, 0), fmt, args)

/-- print.c:286-451: the bytes from `text` on, and how far `text` has moved after the terminator. -/
def go (pf : FloatPrinter) : Nat → List Byte → List Arg → List Byte → Nat → Except Fault (List Byte × Nat)
  | 0, _, _, _, _ => .error .diverge
  | fuel + 1, fmt, args, text, rem => do
    let c ← rd fmt 0
    if c = 0 then do
      let text ← wr text 0 0
      .ok (text, 1)
    else do
      let (n, text) ← if rem ≠ 0 then literal fmt text else .ok (0, text)
      let (info, fmt, args) ← parse (fmt.drop n) args
      let ((out, len), fmt, args) ← convert pf (text.drop n) rem info fmt args
      let (tail, k) ← go pf fuel fmt args (out.drop len) (if len ≥ rem then min rem 1 else rem - len)
      .ok (text.take n ++ out.take len ++ tail, n + len + k)

/-- print.c:282-454 `zpl_snprintf_va`, `zpl_snprintf`: the bytes from `text` on and the result.  Each round with `remaining` not 0 moves `fmt`; when it does not move the
call never returns (`C54_zero_diverges`). -/
def snprintf (pf : FloatPrinter) (text : List Byte) (maxLen : Nat) (fmt : List Byte) (args : List Arg) : Except Fault (List Byte × Int) := do
  let (text, res) ← go pf (fmt.length + 1) fmt args text maxLen
  .ok (text, if res ≥ maxLen then -1 else res)

/-! ## Specification

A format is a sequence of literal texts and directives; `spell` writes it down, `render` says what is to be printed. -/

inductive Flag where
  | minus | plus | alt | space | zero
  deriving DecidableEq, Repr

inductive Count where
  | none
  | num (n : Nat)
  | star
  deriving DecidableEq, Repr

inductive Length where
  | none | hh | h | l | ll | z | t
  deriving DecidableEq, Repr

inductive Conv where
  | d | i | u | o | x | X | p | c | s | r | percent
  deriving DecidableEq, Repr

structure Directive where
  flags : List Flag := []
  width : Count := .none
  precision : Count := .none
  length : Length := .none
  conv : Conv
  deriving DecidableEq, Repr

/-- Every format text without floating-point conversions and unknown letters is one of these. -/
structure Format where
  items : List (List Byte × Directive)
  last : List Byte

/-- The digits of a number, most significant first. -/
def digits (b n : Nat) : List Nat := if _ : n < b ∨ b < 2 then [n] else digits b (n / b) ++ [n % b]
termination_by n
decreasing_by exact Nat.div_lt_self (by omega) (by omega)

/-- A digit as a character; the letters are capitals if `up`. -/
def digit (up : Bool) (d : Nat) : Byte := if d < 10 then BitVec.ofNat 8 (48 + d) else if up then BitVec.ofNat 8 (55 + d) else BitVec.ofNat 8 (87 + d)

def numeral (up : Bool) (b n : Nat) : List Byte := (digits b n).map (digit up)

def signed (b : Nat) (v : Int) : List Byte := if v < 0 then 0x2d#8 :: numeral false b v.natAbs else numeral false b v.natAbs

def spellFlag : Flag → Byte
  | .minus => 0x2d#8 | .plus => 0x2b#8 | .alt => 0x23#8 | .space => 0x20#8 | .zero => 0x30#8

def spellCount : Count → List Byte
  | .none => [] | .num n => numeral false 10 n | .star => [0x2a#8]

def spellLength : Length → List Byte
  | .none => [] | .hh => [0x68#8, 0x68#8] | .h => [0x68#8] | .l => [0x6c#8] | .ll => [0x6c#8, 0x6c#8] | .z => [0x7a#8] | .t => [0x74#8]

def spellConv : Conv → Byte
  | .d => 0x64#8 | .i => 0x69#8 | .u => 0x75#8 | .o => 0x6f#8 | .x => 0x78#8 | .X => 0x58#8 | .p => 0x70#8 | .c => 0x63#8 | .s => 0x73#8 | .r => 0x72#8
  | .percent => 0x25#8

def spellDirective (d : Directive) : List Byte :=
  0x25#8 :: (d.flags.map spellFlag ++ (spellCount d.width ++ ((if d.precision = .none then [] else 0x2e#8 :: spellCount d.precision) ++
    (spellLength d.length ++ [spellConv d.conv]))))

def spell (f : Format) : List Byte := f.items.flatMap (fun p => p.1 ++ spellDirective p.2) ++ f.last

/-- Widths and precisions are representable, a width does not begin with 0; literals have neither NUL nor `%`. -/
def Directive.Valid (d : Directive) : Prop :=
  (∀ n, d.width = .num n → 0 < n ∧ n < 2 ^ 31) ∧ (∀ n, d.precision = .num n → n < 2 ^ 31)

def Literal (s : List Byte) : Prop := ∀ c ∈ s, c ≠ 0 ∧ c ≠ 0x25#8

def Format.Valid (f : Format) : Prop := (∀ p ∈ f.items, Literal p.1 ∧ p.2.Valid) ∧ Literal f.last

/-- Signed width (negative means left-justified), if one is given. -/
def widthOf (c : Count) (args : List Arg) : Option (Option Int × List Arg) :=
  match c, args with
  | .none, args => some (none, args)
  | .num n, args => some (some n, args)
  | .star, .int v :: args => if v.toInt = -(2 ^ 31) then none else some (some v.toInt, args)
  | .star, _ => none

/-- The precision, if one is given; a negative one counts as not given. -/
def precisionOf (c : Count) (args : List Arg) : Option (Option Nat × List Arg) :=
  match c, args with
  | .none, args => some (none, args)
  | .num n, args => some (some n, args)
  | .star, .int v :: args => some (if v.toInt < 0 then none else some v.toInt.toNat, args)
  | .star, _ => none

/-- The integer argument of a conversion, as the length modifier says; `signed` or not. -/
def intArg (sgn : Bool) (l : Length) (args : List Arg) : Option (Int × List Arg) :=
  match l, args with
  | .none, .int v :: args => some (if sgn then v.toInt else v.toNat, args)
  | .hh, .int v :: args => some (if sgn then (v.truncate 8).toInt else (v.truncate 8).toNat, args)
  | .h, .int v :: args => some (if sgn then (v.truncate 16).toInt else (v.truncate 16).toNat, args)
  | .l, .long v :: args => some (if sgn then v.toInt else v.toNat, args)
  | .ll, .long v :: args => some (if sgn then v.toInt else v.toNat, args)
  | .t, .long v :: args => some (if sgn then v.toInt else v.toNat, args)
  | .z, .long v :: args => some (v.toNat, args)
  | _, _ => none

/-- The text of an argument before precision and width.  The least 64-bit number cannot be printed in signed form.  `%s` needs a NUL or enough bytes for the precision. -/
def body (d : Directive) (prec : Option Nat) (args : List Arg) : Option (List Byte × List Arg) :=
  match d.conv with
  | .d | .i => (intArg true d.length args).bind fun (v, args) => if v = -(2 ^ 63) then none else some (signed 10 v, args)
  | .o => (intArg true d.length args).bind fun (v, args) => if v = -(2 ^ 63) then none else some (signed 8 v, args)
  | .u => (intArg false d.length args).map fun (v, args) => (numeral false 10 v.toNat, args)
  | .x => (intArg false d.length args).map fun (v, args) => (numeral false 16 v.toNat, args)
  | .X => (intArg false d.length args).map fun (v, args) => (numeral true 16 v.toNat, args)
  | .p => (intArg false (if d.length = .none then .l else .none) args).map fun (v, args) => (numeral false 16 v.toNat, args)
  | .c | .r => (match args with | .int v :: args => some ([v.truncate 8], args) | _ => none)
  | .percent => some ([0x25#8], args)
  | .s => (match args with
    | .str (some b) :: args => if 0 ∈ b ∨ (∃ p, prec = some p ∧ p ≤ b.length) then some (b, args) else none
    | _ => none)

/-- At most `p` characters. -/
def upTo (p : Option Nat) (s : List Byte) : List Byte :=
  match p with
  | some p => s.take p
  | none => s

/-- Precision and width applied to a text: at most `p` characters up to the first NUL, padded to the width. -/
def layout (d : Directive) (w : Option Int) (p : Option Nat) (s : List Byte) : List Byte :=
  let n := (w.getD 0).natAbs
  let text := upTo p (s.takeWhile (· ≠ 0))
  let fillChar := if .zero ∈ d.flags ∧ d.precision = .none then 0x30#8 else 0x20#8
  let pad := List.replicate (n - text.length) fillChar
  if d.conv = .r then List.replicate (max n 1) (s.headD 0)
  else if n = 0 then (if w.isSome ∨ .zero ∈ d.flags then [] else text)
  else if .minus ∈ d.flags ∨ w.getD 0 < 0 then text ++ pad
  else pad ++ text

/-- What one directive prints. -/
def renderDirective (d : Directive) (args : List Arg) : Option (List Byte × List Arg) :=
  (widthOf d.width args).bind fun (w, args) =>
  (precisionOf d.precision args).bind fun (p, args) =>
  (body d p args).map fun (s, args) => (layout d w p s, args)

def renderItems : List (List Byte × Directive) → List Arg → Option (List Byte × List Arg)
  | [], args => some ([], args)
  | (s, d) :: items, args =>
    (renderDirective d args).bind fun (f, args) => (renderItems items args).map fun (t, args) => (s ++ f ++ t, args)

/-- What a format prints for the arguments. -/
def render (f : Format) (args : List Arg) : Option (List Byte) := (renderItems f.items args).map fun (t, _) => t ++ f.last

/-! ## Lemmas -/

/-! ### Writing -/

theorem fill_ok (n : Nat) (c : Byte) (t : List Byte) (h : n ≤ t.length) : fill n c t = .ok (List.replicate n c ++ t.drop n) := by
  induction n generalizing t with
  | zero => rfl
  | succ n ih =>
    cases t with
    | nil => simp at h
    | cons x t =>
      rw [fill, ih t (by simpa using h), except_ok_bind]
      rfl

theorem copy_prefix {s : List Byte} (hs : Text s) (tail d : List Byte) (h : s.length ≤ d.length) :
    strlcpy d (s ++ tail) s.length = .ok (s ++ d.drop s.length, s.length) := by
  have h1 : copyLoop s.length d (s ++ tail) = .ok (s ++ d.drop s.length) := by
    induction s generalizing d with
    | nil => simp [copyLoop]
    | cons c s ih =>
      cases d with
      | nil => simp at h
      | cons x d =>
        have hc := Text.cons.1 hs
        simp only [List.length_cons, List.cons_append, copyLoop, ne_eq, hc.1, not_false_eq_true, if_true, ih hc.2 d (by simpa using h), except_ok_bind,
          List.drop_succ_cons]
  have h2 : copied s.length (s ++ tail) = s.length := by
    clear h1 h
    induction s with
    | nil => rfl
    | cons c s ih =>
      have hc := Text.cons.1 hs
      simp only [List.length_cons, List.cons_append, copied, ne_eq, hc.1, not_false_eq_true, if_true, ih hc.2]
  rw [strlcpy, h1, except_ok_bind, h2]

/-- The change of case at the end of `zpl__print_string`. -/
def caseFn (info : Info) : Byte → Byte := if info.upper then toUpper else if info.lower then toLower else id

theorem first_nul {b : List Byte} (h : 0 ∈ b) : ∃ a t, b = a ++ 0 :: t ∧ (0 : Byte) ∉ a := by
  induction b with
  | nil => cases h
  | cons c b ih =>
    by_cases hc : c = 0
    · exact ⟨[], b, by rw [hc]; rfl, by simp⟩
    · obtain ⟨a, t, rfl, ha⟩ := ih ((List.mem_cons.1 h).resolve_left (fun h => hc h.symm))
      exact ⟨c :: a, t, rfl, fun h => (List.mem_cons.1 h).elim (fun h => hc h.symm) ha⟩

theorem caseText_ok (info : Info) {fld : List Byte} (hf : Text fld) (rest : List Byte) (z : Nat)
    (hz : info.upper = true ∨ info.lower = true → rest[z]? = some 0) :
    ∃ rest', caseText info (fld ++ rest) = .ok (fld.map (caseFn info) ++ rest') ∧ rest'.drop z = rest.drop z := by
  have key : ∀ f : Byte → Byte, rest[z]? = some 0 → ∃ rest', mapStr f (fld ++ rest) = .ok (fld.map f ++ rest') ∧ rest'.drop z = rest.drop z := by
    intro f h0
    have hmem : (0 : Byte) ∈ rest := List.mem_of_getElem? h0
    obtain ⟨a, b, hab, ha⟩ := first_nul hmem
    have : Text (fld ++ a) := by
      intro c hc
      rcases List.mem_append.1 hc with h | h
      · exact hf c h
      · exact fun h0 => ha (h0 ▸ h)
    refine ⟨a.map f ++ 0 :: b, ?_, ?_⟩
    · rw [hab, ← List.append_assoc, mapStr_ok f this]
      simp
    · have hle : a.length ≤ z := by
        rcases Nat.lt_or_ge z a.length with h | h
        · rw [hab, List.getElem?_append_left h] at h0
          exact absurd (List.mem_of_getElem? h0) ha
        · exact h
      rw [hab, List.drop_append, List.drop_append, List.length_map, List.drop_eq_nil_of_le (by simpa using hle), List.drop_eq_nil_of_le hle]
  unfold caseText caseFn
  by_cases hu : info.upper = true
  · rw [if_pos hu, if_pos hu]
    exact key _ (hz (.inl hu))
  · rw [if_neg hu, if_neg hu]
    by_cases hl : info.lower = true
    · rw [if_pos hl, if_pos hl]
      exact key _ (hz (.inr hl))
    · rw [if_neg hl, if_neg hl]
      exact ⟨rest, by simp, rfl⟩

/-- What `zpl__print_string` puts down for the characters `s`. -/
def field (info : Info) (s : List Byte) : List Byte :=
  let pad := List.replicate (info.width.toNat - s.length) (if info.zero then 0x30#8 else 0x20#8)
  if info.width = 0 then (if info.hasWidth then [] else s) else if info.minus then s ++ pad else pad ++ s

/-- The characters of a block that are printed. -/
def cut (info : Info) (b : List Byte) : List Byte :=
  if info.precision ≥ 0 then (b.takeWhile (· ≠ 0)).take info.precision.toNat else b.takeWhile (· ≠ 0)

theorem takeWhile_text (b : List Byte) : Text (b.takeWhile (· ≠ 0)) := by
  induction b with
  | nil => intro c hc; cases hc
  | cons x b ih =>
    by_cases hx : x = 0
    · rw [List.takeWhile_cons_of_neg (by simpa using hx)]
      intro c hc
      cases hc
    · rw [List.takeWhile_cons_of_pos (by simpa using hx)]
      exact Text.cons.2 ⟨hx, ih⟩

theorem cut_text (info : Info) (b : List Byte) : Text (cut info b) := by
  unfold cut
  split
  · intro c hc
    exact takeWhile_text b c (List.mem_of_mem_take hc)
  · exact takeWhile_text b

theorem cut_prefix (info : Info) (b : List Byte) : ∃ tail, b = cut info b ++ tail := by
  have h : cut info b <+: b := by
    unfold cut
    split
    · exact (List.take_prefix _ _).trans (List.takeWhile_prefix _)
    · exact List.takeWhile_prefix _
  obtain ⟨t, ht⟩ := h
  exact ⟨t, ht.symm⟩

theorem strlen_block {b : List Byte} (h : 0 ∈ b) : strlen b = .ok (b.takeWhile (· ≠ 0)).length := by
  induction b with
  | nil => cases h
  | cons c b ih =>
    by_cases hc : c = 0
    · subst hc
      simp [strlen]
    · have : 0 ∈ b := by
        rcases List.mem_cons.1 h with h | h
        · exact absurd h.symm hc
        · exact h
      simp only [strlen, ne_eq, hc, not_false_eq_true, if_true, ih this, except_ok_bind]
      rw [List.takeWhile_cons_of_pos (by simpa using hc), List.length_cons]

theorem strnlen_block {b : List Byte} {p : Nat} (h : 0 ∈ b ∨ p ≤ b.length) : strnlen p b = .ok ((b.takeWhile (· ≠ 0)).take p).length := by
  induction p generalizing b with
  | zero => simp [strnlen]
  | succ p ih =>
    cases b with
    | nil => rcases h with h | h <;> simp at h
    | cons c b =>
      by_cases hc : c = 0
      · subst hc
        simp [strnlen]
      · have : 0 ∈ b ∨ p ≤ b.length := by
          rcases h with h | h
          · rcases List.mem_cons.1 h with h | h
            · exact absurd h.symm hc
            · exact .inl h
          · exact .inr (by simpa using h)
        rw [strnlen, if_neg hc, ih this, except_ok_bind, List.takeWhile_cons_of_pos (by simpa using hc), List.take_succ_cons, List.length_cons]

theorem fieldLen_ok (info : Info) (b : List Byte) (h : 0 ∈ b ∨ (0 ≤ info.precision ∧ info.precision.toNat ≤ b.length)) :
    fieldLen info b = .ok (cut info b).length := by
  unfold fieldLen cut
  by_cases hp : info.precision ≥ 0
  · rw [if_pos hp, if_pos hp]
    exact strnlen_block (h.imp id (·.2))
  · rw [if_neg hp, if_neg hp]
    rcases h with h | h
    · exact strlen_block h
    · exact absurd h.1 hp

theorem printString_ok (text : List Byte) (maxLen : Nat) (info : Info) (b : List Byte)
    (hb : 0 ∈ b ∨ (0 ≤ info.precision ∧ info.precision.toNat ≤ b.length)) (hw : 0 ≤ info.width) (z : Nat)
    (h1 : (field info (cut info b)).length ≤ maxLen) (h2 : (field info (cut info b)).length ≤ z) (h3 : z < text.length)
    (h4 : info.upper = true ∨ info.lower = true → text[z]? = some 0) :
    ∃ rest', printString text maxLen info (some b) = .ok ((field info (cut info b)).map (caseFn info) ++ rest', (field info (cut info b)).length) ∧
      rest'.drop (z - (field info (cut info b)).length) = text.drop z := by
  have hs := cut_text info b
  obtain ⟨tail, hbt⟩ := cut_prefix info b
  have hlen := fieldLen_ok info b hb
  generalize hsd : cut info b = s at *
  rw [printString, hlen, except_ok_bind]
  by_cases hw0 : info.width = 0
  · by_cases hhw : info.hasWidth = true
    · have hf : field info s = [] := by
        unfold field
        rw [if_pos hw0, if_pos hhw]
      rw [if_pos ⟨hw0, hhw⟩, hf]
      exact ⟨text, by simp, by simp⟩
    · have hf : field info s = s := by
        unfold field
        rw [if_pos hw0, if_neg hhw]
      rw [hf] at h1 h2 ⊢
      rw [if_neg (fun h => hhw h.2), if_pos (.inl hw0), printLeft, if_neg (by omega), hbt, copy_prefix hs tail text (by omega), except_ok_bind]
      dsimp only
      have hp : (if info.width > (s.length : Int) then min (info.width - s.length).toNat maxLen else 0) = 0 := by
        rw [if_neg (by omega)]
      rw [hp, fill, except_ok_bind, List.take_append_of_le_length (Nat.le_refl _), List.take_of_length_le (Nat.le_refl _),
        List.drop_append_of_le_length (Nat.le_refl _), List.drop_of_length_le (Nat.le_refl _), List.nil_append]
      obtain ⟨r, hr, hd⟩ := caseText_ok info hs (text.drop s.length) (z - s.length) (by
        intro h
        rw [List.getElem?_drop, Nat.add_sub_cancel' h2]
        exact h4 h)
      refine ⟨r, ?_, ?_⟩
      · rw [hr, except_ok_bind]
        simp
      · rw [hd, List.drop_drop, Nat.add_sub_cancel' h2]
  · have hwp : 0 < info.width := by omega
    rw [if_neg (fun h => hw0 h.1)]
    generalize hpc : (if info.zero = true then (0x30#8 : Byte) else 0x20#8) = pc
    have hpc0 : pc ≠ 0 := by
      rw [← hpc]
      split <;> decide
    by_cases hm : info.minus = true
    · have hf : field info s = s ++ List.replicate (info.width.toNat - s.length) pc := by
        unfold field
        rw [if_neg hw0, if_pos hm, hpc]
      rw [hf] at h1 h2 ⊢
      rw [List.length_append, List.length_replicate] at h1 h2
      rw [if_pos (.inr hm), printLeft, if_neg (by omega), hbt, copy_prefix hs tail text (by omega), except_ok_bind]
      dsimp only
      have hp : (if info.width > (s.length : Int) then min (info.width - s.length).toNat maxLen else 0) = info.width.toNat - s.length := by
        split
        · have : (info.width - s.length).toNat = info.width.toNat - s.length := by omega
          rw [this, Nat.min_eq_left (by omega)]
        · omega
      rw [hp, List.take_append_of_le_length (Nat.le_refl _), List.take_of_length_le (Nat.le_refl _),
        List.drop_append_of_le_length (Nat.le_refl _), List.drop_of_length_le (Nat.le_refl _), List.nil_append, hpc, fill_ok _ _ _ (by simp; omega), except_ok_bind,
        ← List.append_assoc, List.drop_drop]
      generalize hk : info.width.toNat - s.length = k at *
      have hT : Text (s ++ List.replicate k pc) := by
        intro c hc
        rcases List.mem_append.1 hc with h | h
        · exact hs c h
        · rw [List.eq_of_mem_replicate h]
          exact hpc0
      obtain ⟨r, hr, hd⟩ := caseText_ok info hT (text.drop (s.length + k)) (z - (s.length + k)) (by
        intro h
        rw [List.getElem?_drop, Nat.add_sub_cancel' h2]
        exact h4 h)
      refine ⟨r, ?_, ?_⟩
      · rw [hr, except_ok_bind, List.length_append, List.length_replicate]
      · rw [List.length_append, List.length_replicate, hd, List.drop_drop, Nat.add_sub_cancel' h2]
    · have hf : field info s = List.replicate (info.width.toNat - s.length) pc ++ s := by
        unfold field
        rw [if_neg hw0, if_neg hm, hpc]
      rw [hf] at h1 h2 ⊢
      rw [List.length_append, List.length_replicate] at h1 h2
      rw [if_neg (fun h => h.elim hw0 hm), printRight]
      have hp : (if info.width > 0 then min (info.width - s.length).toNat maxLen else 0) = info.width.toNat - s.length := by
        rw [if_pos hwp]
        have : (info.width - s.length).toNat = info.width.toNat - s.length := by omega
        rw [this, Nat.min_eq_left (by omega)]
      dsimp only
      rw [hp, hpc, fill_ok _ _ _ (by omega), except_ok_bind, if_neg (by omega)]
      generalize hk : info.width.toNat - s.length = k at *
      have e1 : (List.replicate k pc ++ text.drop k).drop k = text.drop k := by
        rw [List.drop_append, List.length_replicate, List.drop_eq_nil_of_le (by simp), Nat.sub_self]
        rfl
      have e2 : (List.replicate k pc ++ text.drop k).take k = List.replicate k pc := by
        rw [List.take_append_of_le_length (by simp), List.take_of_length_le (by simp)]
      rw [e1, e2, hbt, copy_prefix hs tail _ (by simp; omega), except_ok_bind, ← List.append_assoc, List.drop_drop]
      have hT : Text (List.replicate k pc ++ s) := by
        intro c hc
        rcases List.mem_append.1 hc with h | h
        · rw [List.eq_of_mem_replicate h]
          exact hpc0
        · exact hs c h
      obtain ⟨r, hr, hd⟩ := caseText_ok info hT (text.drop (k + s.length)) (z - (k + s.length)) (by
        intro h
        rw [List.getElem?_drop, Nat.add_sub_cancel' h2]
        exact h4 h)
      refine ⟨r, ?_, ?_⟩
      · rw [hr, except_ok_bind, List.length_append, List.length_replicate]
      · rw [List.length_append, List.length_replicate, hd, List.drop_drop, Nat.add_sub_cancel' h2]

/-! ### Numerals -/

theorem digits_lt {b n : Nat} (h : n < b) : digits b n = [n] := by
  rw [digits, dif_pos (.inl h)]

theorem digits_ge {b n : Nat} (hb : 2 ≤ b) (h : b ≤ n) : digits b n = digits b (n / b) ++ [n % b] := by
  rw [digits, dif_neg (by omega)]

theorem digits_mem {b : Nat} (hb : 2 ≤ b) (n : Nat) : ∀ d ∈ digits b n, d < b := by
  induction n using Nat.strongRecOn with
  | ind n ih =>
    by_cases h : n < b
    · rw [digits_lt h]
      simpa using h
    · rw [digits_ge hb (by omega)]
      intro d hd
      rcases List.mem_append.1 hd with h' | h'
      · exact ih _ (Nat.div_lt_self (by omega) (by omega)) d h'
      · rw [List.mem_singleton.1 h']
        exact Nat.mod_lt _ (by omega)

theorem digits_value {b : Nat} (hb : 2 ≤ b) (n : Nat) : Num.value b (digits b n) = n := by
  induction n using Nat.strongRecOn with
  | ind n ih =>
    by_cases h : n < b
    · rw [digits_lt h]
      simp [Num.value]
    · rw [digits_ge hb (by omega), Num.value, List.foldl_append]
      have := ih _ (Nat.div_lt_self (show 0 < n by omega) (show 1 < b by omega))
      rw [Num.value] at this
      rw [this]
      simp only [List.foldl_cons, List.foldl_nil]
      exact Nat.div_add_mod' n b

theorem digits_head {b : Nat} (hb : 2 ≤ b) (n : Nat) (hn : 0 < n) : ∃ d t, digits b n = d :: t ∧ d ≠ 0 := by
  induction n using Nat.strongRecOn with
  | ind n ih =>
    by_cases h : n < b
    · exact ⟨n, [], digits_lt h, by omega⟩
    · obtain ⟨d, t, e, hd⟩ := ih _ (Nat.div_lt_self hn (show 1 < b by omega)) (Nat.div_pos (by omega) (by omega))
      exact ⟨d, t ++ [n % b], by rw [digits_ge hb (by omega), e]; rfl, hd⟩

theorem digits_cons {b : Nat} (hb : 2 ≤ b) (n : Nat) : ∃ d t, digits b n = d :: t := by
  by_cases hn : 0 < n
  · obtain ⟨d, t, e, -⟩ := digits_head hb n hn
    exact ⟨d, t, e⟩
  · exact ⟨n, [], digits_lt (by omega)⟩

/-- A numeral without a leading zero is determined by its value. -/
theorem digits_unique {b : Nat} (hb : 2 ≤ b) (k : Nat) : ∀ (ds : List Nat), ds.length = k → (∀ d ∈ ds, d < b) →
    (ds = [0] ∨ ∃ d t, ds = d :: t ∧ d ≠ 0) → ds = digits b (Num.value b ds) := by
  induction k with
  | zero =>
    intro ds hl _ h
    rw [List.length_eq_zero_iff] at hl
    subst hl
    rcases h with h | ⟨_, _, h, _⟩ <;> cases h
  | succ k ih =>
    intro ds hl hd h
    obtain ⟨t, x, rfl⟩ : ∃ t x, ds = t ++ [x] := by
      rcases List.eq_nil_or_concat ds with h | ⟨t, x, h⟩
      · subst h; simp at hl
      · exact ⟨t, x, by rw [h, List.concat_eq_append]⟩
    have hx : x < b := hd x (by simp)
    have hv : Num.value b (t ++ [x]) = Num.value b t * b + x := by
      simp [Num.value, List.foldl_append]
    rw [hv]
    cases t with
    | nil =>
      have : Num.value b [] = 0 := rfl
      rw [this, Nat.zero_mul, Nat.zero_add, digits_lt hx]
      rfl
    | cons y t =>
      have hy : y ≠ 0 := by
        rcases h with h | ⟨d, t', h, hd⟩
        · simp at h
        · simp only [List.cons_append, List.cons.injEq] at h
          rw [h.1]
          exact hd
      have hi := ih (y :: t) (by simpa using hl) (fun d hd' => hd d (List.mem_append_left _ hd')) (.inr ⟨y, t, rfl, hy⟩)
      have hpos : 1 ≤ Num.value b (y :: t) := by
        apply Classical.byContradiction
        intro h0
        have h0 : Num.value b (y :: t) = 0 := by omega
        rw [h0, digits_lt (by omega)] at hi
        simp only [List.cons.injEq] at hi
        exact hy hi.1
      have hge : b ≤ Num.value b (y :: t) * b + x := by
        have := Nat.mul_le_mul_right b hpos
        omega
      rw [digits_ge hb hge]
      have e1 : (Num.value b (y :: t) * b + x) / b = Num.value b (y :: t) := by
        rw [Nat.mul_comm, Nat.mul_add_div (by omega), Nat.div_eq_of_lt hx, Nat.add_zero]
      have e2 : (Num.value b (y :: t) * b + x) % b = x := by
        rw [Nat.mul_comm, Nat.mul_add_mod, Nat.mod_eq_of_lt hx]
      rw [e1, e2, ← hi]

theorem isNumeral_eq {b n : Nat} {s : List Byte} (hb : 2 ≤ b) (hb2 : b ≤ 36) (h : Num.IsNumeral b n s) : s = numeral true b n := by
  obtain ⟨ds, rfl, hd, rfl, hl⟩ := h
  rw [numeral, ← digits_unique hb _ ds rfl hd hl]
  apply List.map_congr_left
  intro d hdm
  have hlt := hd d hdm
  unfold Num.digitChar digit
  by_cases h : d < 10
  · rw [if_pos h, if_pos h]
  · rw [if_neg h, if_neg h, if_pos (by omega), if_pos rfl]
    congr 1
    omega

theorem numeral_text (up : Bool) {b : Nat} (hb : 2 ≤ b) (hb2 : b ≤ 16) (n : Nat) : Text (numeral up b n) := by
  intro c hc
  obtain ⟨d, hd, rfl⟩ := List.mem_map.1 hc
  have := digits_mem hb n d hd
  have h : ∀ up : Bool, ∀ d : Fin 16, digit up d.val ≠ 0 := by decide
  exact h up ⟨d, by omega⟩

theorem numeral_up_eq {b : Nat} (hb : 2 ≤ b) (hb2 : b ≤ 10) (n : Nat) : numeral true b n = numeral false b n := by
  apply List.map_congr_left
  intro d hd
  have := digits_mem hb n d hd
  unfold digit
  rw [if_pos (by omega), if_pos (by omega)]

theorem numeral_map (f : Byte → Byte) (up up' : Bool) (hf : ∀ d : Fin 16, f (digit up d.val) = digit up' d.val) {b : Nat} (hb : 2 ≤ b) (hb2 : b ≤ 16) (n : Nat) :
    (numeral up b n).map f = numeral up' b n := by
  rw [numeral, numeral, List.map_map]
  apply List.map_congr_left
  intro d hd
  have := digits_mem hb n d hd
  exact hf ⟨d, by omega⟩

theorem u64_text (v : BitVec 64) {b : Nat} (hb : 2 ≤ b) (hb2 : b ≤ 16) : ∃ r, Num.u64ToStr v (List.replicate 130 0) b = .ok (numeral true b v.toNat ++ 0 :: r) := by
  have hp : v.toNat < b ^ 64 := Nat.lt_of_lt_of_le v.isLt (Nat.pow_le_pow_left hb 64)
  obtain ⟨s, e, hn, -, -⟩ := Num.C24_u64_text v (List.replicate 130 0) hb (by omega) (k := 64) (by omega) hp (by simp)
  rw [isNumeral_eq hb (by omega) hn] at e
  exact ⟨_, e⟩

theorem i64_text (v : Int) (hlo : -(2 ^ 63) < v) (hhi : v < 2 ^ 63) {b : Nat} (hb : 2 ≤ b) (hb2 : b ≤ 10) :
    ∃ r, Num.i64ToStr v (List.replicate 130 0) b = .ok (signed b v ++ 0 :: r) := by
  have h63 : v.natAbs < 2 ^ 64 := by omega
  have hp : v.natAbs < b ^ 64 := Nat.lt_of_lt_of_le h63 (Nat.pow_le_pow_left hb 64)
  obtain ⟨s, e, hn, -, -⟩ := Num.C24_i64_text v hlo hhi (List.replicate 130 0) hb (by omega) (k := 64) (by omega) hp (by simp)
  rw [isNumeral_eq hb (by omega) hn, numeral_up_eq hb hb2] at e
  exact ⟨_, e⟩

/-! ### Reading the format -/

theorem scan_loop (ds : List Nat) (hd : ∀ d ∈ ds, d < 10) (c : Byte) (t : List Byte) (hc : Num.scanDigit 10 c = none) (r n : Nat)
    (hv : ds.foldl (fun acc d => acc * 10 + d) r < 2 ^ 63) :
    Num.scanI64Loop 10 (ds.map (digit false) ++ c :: t) (r : Int) n = .ok ((ds.foldl (fun acc d => acc * 10 + d) r : Nat), n + ds.length) := by
  induction ds generalizing r n with
  | nil => simp [Num.scanI64Loop, hc]
  | cons d ds ih =>
    have hd10 : d < 10 := hd d (by simp)
    have hdig : Num.scanDigit 10 (digit false d) = some d := by
      have : ∀ d : Fin 10, Num.scanDigit 10 (digit false d.val) = some d.val := by decide
      exact this ⟨d, hd10⟩
    rw [List.foldl_cons] at hv
    have hm := Num.value_mono 10 (by omega) ds (r * 10 + d)
    have e1 : Num.i64 ((r : Int) * (10 : Nat)) = .ok ((r * 10 : Nat) : Int) := by
      have := Num.i64_of_nat (r * 10)
      rw [if_pos (by omega)] at this
      rw [← this]
      rfl
    have e2 : Num.i64 (((r * 10 : Nat) : Int) + (d : Nat)) = .ok ((r * 10 + d : Nat) : Int) := by
      have := Num.i64_of_nat (r * 10 + d)
      rw [if_pos (by omega)] at this
      rw [← this]
      rfl
    rw [List.map_cons, List.cons_append, Num.scanI64Loop, hdig]
    dsimp only
    rw [e1, except_ok_bind, e2, except_ok_bind, ih (fun d hd' => hd d (List.mem_cons_of_mem _ hd')) _ _ hv]
    simp only [List.foldl_cons, List.length_cons, Nat.add_assoc, Nat.add_comm 1]

/-- The characters after which a number ends: neither a digit, nor a minus, nor a star. -/
def Stop (c : Byte) : Prop := Num.scanDigit 10 c = none ∧ c ≠ 0x2d#8 ∧ c ≠ 0x2a#8

instance (c : Byte) : Decidable (Stop c) := inferInstanceAs (Decidable (_ ∧ _))

theorem scan_numeral {n : Nat} (hn : n < 2 ^ 31) (c : Byte) (t : List Byte) (hc : Stop c) :
    Num.strToI64 (numeral false 10 n ++ c :: t) 10 = .ok ((n : Int), (numeral false 10 n).length) := by
  obtain ⟨d, ds, e⟩ := digits_cons (b := 10) (by omega) n
  have hv := digits_value (b := 10) (by omega) n
  have hm := digits_mem (b := 10) (by omega) n
  have hsc := scan_loop (digits 10 n) hm c t hc.1 0 0 (by rw [Num.value] at hv; rw [hv]; omega)
  rw [Num.value] at hv
  rw [hv] at hsc
  have hneg : ∀ d : Fin 10, digit false d.val ≠ 0x2d#8 := by decide
  have hd0 : digit false d ≠ 0x2d#8 := hneg ⟨d, hm d (by rw [e]; simp)⟩
  rw [Num.strToI64, Num.defaultBase_ok _ (by omega), except_ok_bind, Num.scanI64]
  have hr : rd (numeral false 10 n ++ c :: t) 0 = .ok (digit false d) := by
    rw [numeral, e]
    rfl
  rw [hr, except_ok_bind]
  simp only [hd0, if_false, Num.skip0x, except_ok_bind, Nat.add_zero, List.drop_zero, show ¬ (10 : Nat) = 16 by omega]
  rw [numeral]
  have : ((0 : Nat) : Int) = 0 := rfl
  rw [this] at hsc
  rw [hsc, except_ok_bind]
  simp

theorem scan_none (c : Byte) (t : List Byte) (hc : Stop c) : Num.strToI64 (c :: t) 10 = .ok (0, 0) := by
  rw [Num.strToI64, Num.defaultBase_ok _ (by omega), except_ok_bind, Num.scanI64]
  have hr : rd (c :: t) 0 = .ok c := rfl
  rw [hr, except_ok_bind]
  have hs : Num.scanI64Loop 10 (c :: t) 0 0 = .ok (0, 0) := by
    rw [Num.scanI64Loop, hc.1]
  simp only [hc.2.1, if_false, Num.skip0x, except_ok_bind, Nat.add_zero, List.drop_zero, show ¬ (10 : Nat) = 16 by omega, hs]

theorem toI32_nat {n : Nat} (h : n < 2 ^ 31) : toI32 (n : Int) = n := by
  unfold toI32
  rw [BitVec.toInt_ofInt]
  rw [Int.bmod_def]
  omega

/-- Not a flag character. -/
def NoFlag (c : Byte) : Prop := c ≠ 0x2d#8 ∧ c ≠ 0x2b#8 ∧ c ≠ 0x23#8 ∧ c ≠ 0x20#8 ∧ c ≠ 0x30#8

instance (c : Byte) : Decidable (NoFlag c) := inferInstanceAs (Decidable (_ ∧ _))

theorem flags_ok (fl : List Flag) (c : Byte) (t : List Byte) (hc : NoFlag c) (info : Info) :
    flags (fl.map spellFlag ++ c :: t) info =
      .ok ({ info with minus := info.minus || decide (Flag.minus ∈ fl), alt := info.alt || decide (Flag.alt ∈ fl),
                       zero := info.zero || decide (Flag.zero ∈ fl), hasWidth := info.hasWidth || decide (Flag.zero ∈ fl) }, c :: t) := by
  induction fl generalizing info with
  | nil =>
    obtain ⟨h1, h2, h3, h4, h5⟩ := hc
    simp [flags, h1, h2, h3, h4, h5]
  | cons f fl ih =>
    cases f <;> simp [flags, spellFlag, ih]

/-- `q` represents the optional precision `p`. -/
def PrecIs (p : Option Nat) (q : Int) : Prop :=
  match p with
  | some k => q = k
  | none => q < 0

/-- The size a length modifier stands for. -/
def sizeOf : Length → Option Size
  | .none => none
  | .hh => some .char
  | .h => some .short
  | _ => some .long

/-- What stands in `info` after a directive has been read: `w` is the signed width, `p` the precision. -/
structure Read (d : Directive) (w : Option Int) (p : Option Nat) (info : Info) : Prop where
  base : info.base = 0
  minus : info.minus = decide (Flag.minus ∈ d.flags ∨ w.getD 0 < 0)
  zero : info.zero = decide (Flag.zero ∈ d.flags ∧ d.precision = .none)
  hasWidth : info.hasWidth = decide (w.isSome ∨ Flag.zero ∈ d.flags)
  width : info.width = (w.getD 0).natAbs
  precision : PrecIs p info.precision
  size : info.size = sizeOf d.length
  isUnsigned : info.isUnsigned = decide (d.length = .z)
  lower : info.lower = false
  upper : info.upper = false

theorem rd_cons (c : Byte) (t : List Byte) : rd (c :: t) 0 = .ok c := rfl

theorem width_ok (wc : Count) (c : Byte) (t : List Byte) (hc : Stop c) (hv : ∀ n, wc = .num n → 0 < n ∧ n < 2 ^ 31) {args args' : List Arg} {w : Option Int}
    (hw : widthOf wc args = some (w, args')) (info : Info) (hi : info.width = 0) :
    width (spellCount wc ++ c :: t) args info =
      .ok ({ info with minus := info.minus || decide (w.getD 0 < 0), width := (w.getD 0).natAbs, hasWidth := info.hasWidth || w.isSome }, c :: t, args') := by
  cases wc with
  | none =>
    simp only [widthOf, Option.some.injEq, Prod.mk.injEq] at hw
    obtain ⟨rfl, rfl⟩ := hw
    rw [spellCount, List.nil_append, width, rd_cons, except_ok_bind, if_neg hc.2.2, scan_none c t hc, except_ok_bind]
    have : toI32 0 = 0 := rfl
    simp [this]
  | num n =>
    simp only [widthOf, Option.some.injEq, Prod.mk.injEq] at hw
    obtain ⟨rfl, rfl⟩ := hw
    obtain ⟨h1, h2⟩ := hv n rfl
    obtain ⟨d, ds, e⟩ := digits_cons (b := 10) (by omega) n
    have hd10 : d < 10 := digits_mem (b := 10) (by omega) n d (by rw [e]; simp)
    have hstar : ∀ d : Fin 10, digit false d.val ≠ 0x2a#8 := by decide
    have hr : rd (spellCount (.num n) ++ c :: t) 0 = .ok (digit false d) := by
      rw [spellCount, numeral, e]
      rfl
    rw [width, hr, except_ok_bind, if_neg (hstar ⟨d, hd10⟩), spellCount, scan_numeral h2 c t hc, except_ok_bind]
    dsimp only
    rw [toI32_nat h2, List.drop_append_of_le_length (Nat.le_refl _), List.drop_of_length_le (Nat.le_refl _), List.nil_append]
    have h0 : n ≠ 0 := by omega
    have h3 : ¬ ((n : Int) < 0) := by omega
    simp [h0, h3]
  | star =>
    match args, hw with
    | .int v :: args, hw =>
      simp only [widthOf] at hw
      split at hw
      · cases hw
      · rename_i hne
        simp only [Option.some.injEq, Prod.mk.injEq] at hw
        obtain ⟨rfl, rfl⟩ := hw
        rw [spellCount, width]
        simp only [List.cons_append, List.nil_append, rd_cons, except_ok_bind, if_true, vaInt]
        by_cases hn : v.toInt < 0
        · rw [if_pos hn, if_neg hne]
          have : -v.toInt = v.toInt.natAbs := by omega
          simp [hn, this]
        · rw [if_neg hn]
          have : v.toInt = v.toInt.natAbs := by omega
          simp [hn]
          exact this

theorem precision_ok (pc : Count) (c : Byte) (t : List Byte) (hc : Stop c) (hdot : c ≠ 0x2e#8) (hv : ∀ n, pc = .num n → n < 2 ^ 31) {args args' : List Arg}
    {p : Option Nat} (hp : precisionOf pc args = some (p, args')) (info : Info) (hi : info.precision = -1) :
    ∃ q, precision ((if pc = .none then [] else 0x2e#8 :: spellCount pc) ++ c :: t) args info =
      .ok ({ info with zero := info.zero && decide (pc = .none), precision := q }, c :: t, args') ∧
      PrecIs p q := by
  cases pc with
  | none =>
    simp only [precisionOf, Option.some.injEq, Prod.mk.injEq] at hp
    obtain ⟨rfl, rfl⟩ := hp
    refine ⟨-1, ?_, by simp [PrecIs]⟩
    rw [if_pos rfl, List.nil_append, precision, rd_cons, except_ok_bind, if_neg hdot]
    rw [← hi]
    simp
  | num n =>
    simp only [precisionOf, Option.some.injEq, Prod.mk.injEq] at hp
    obtain ⟨rfl, rfl⟩ := hp
    have h2 := hv n rfl
    obtain ⟨d, ds, e⟩ := digits_cons (b := 10) (by omega) n
    have hd10 : d < 10 := digits_mem (b := 10) (by omega) n d (by rw [e]; simp)
    have hstar : ∀ d : Fin 10, digit false d.val ≠ 0x2a#8 := by decide
    have hr : rd (numeral false 10 n ++ c :: t) 0 = .ok (digit false d) := by
      rw [numeral, e]
      rfl
    refine ⟨n, ?_, rfl⟩
    rw [if_neg (by simp), spellCount, precision, List.cons_append, rd_cons, except_ok_bind, if_pos rfl, List.drop_succ_cons, List.drop_zero]
    dsimp only
    rw [hr, except_ok_bind, if_neg (hstar ⟨d, hd10⟩), scan_numeral h2 c t hc, except_ok_bind]
    dsimp only
    rw [toI32_nat h2, List.drop_append_of_le_length (Nat.le_refl _), List.drop_of_length_le (Nat.le_refl _), List.nil_append]
    simp
  | star =>
    match args, hp with
    | .int v :: args, hp =>
      simp only [precisionOf, Option.some.injEq, Prod.mk.injEq] at hp
      obtain ⟨rfl, rfl⟩ := hp
      refine ⟨v.toInt, ?_, ?_⟩
      · rw [if_neg (by simp), spellCount, precision]
        simp [rd, vaInt]
      · by_cases hn : v.toInt < 0
        · rw [if_pos hn]
          exact hn
        · rw [if_neg hn]
          show v.toInt = (v.toInt.toNat : Int)
          omega

/-- A character that ends what stands between `%` and the conversion character. -/
def Letter (c : Byte) : Prop := Stop c ∧ NoFlag c ∧ c ≠ 0x2e#8 ∧ c ≠ 0x68#8 ∧ c ≠ 0x6c#8 ∧ c ≠ 0x7a#8 ∧ c ≠ 0x74#8

instance (c : Byte) : Decidable (Letter c) := inferInstanceAs (Decidable (_ ∧ _))

theorem letter_conv (cv : Conv) : Letter (spellConv cv) := by
  cases cv <;> decide

/-- A directive with another conversion character. -/
def spellAs (d : Directive) (c : Byte) : List Byte :=
  0x25#8 :: (d.flags.map spellFlag ++ (spellCount d.width ++ ((if d.precision = .none then [] else 0x2e#8 :: spellCount d.precision) ++ (spellLength d.length ++ [c]))))

theorem size_ok (l : Length) {c : Byte} (hc : Letter c) (t : List Byte) (info : Info) :
    size (spellLength l ++ c :: t) info =
      .ok ({ info with isUnsigned := info.isUnsigned || decide (l = .z),
                       size := match l with | .none => info.size | .hh => some .char | .h => some .short | _ => some .long }, c :: t) := by
  obtain ⟨-, -, -, h1, h2, h3, h4⟩ := hc
  cases l <;> simp [size, spellLength, rd, h1, h2, h3, h4]

/-- What stands after the flags begins with a character that is not a flag, and so on. -/
theorem after_width (d : Directive) {c : Byte} (hc : Letter c) (t : List Byte) : ∃ c' r, (if d.precision = .none then [] else 0x2e#8 :: spellCount d.precision) ++
    (spellLength d.length ++ [c]) ++ t = c' :: r ∧ Stop c' ∧ NoFlag c' := by
  cases hp : d.precision with
  | none =>
    cases hl : d.length
    case none => exact ⟨c, _, rfl, hc.1, hc.2.1⟩
    all_goals
      refine ⟨_, _, rfl, ?_, ?_⟩ <;> decide
  | num n => exact ⟨0x2e#8, _, rfl, by decide, by decide⟩
  | star => exact ⟨0x2e#8, _, rfl, by decide, by decide⟩

theorem after_precision (l : Length) {c : Byte} (hc : Letter c) (t : List Byte) : ∃ c' r, spellLength l ++ c :: t = c' :: r ∧ Stop c' ∧ c' ≠ 0x2e#8 := by
  cases l
  case none => exact ⟨c, _, rfl, hc.1, hc.2.2.1⟩
  all_goals
    refine ⟨_, _, rfl, ?_, ?_⟩ <;> decide

theorem after_flags (d : Directive) (hd : d.Valid) (r : List Byte) {c : Byte} (hc : NoFlag c) :
    ∃ c' r', spellCount d.width ++ c :: r = c' :: r' ∧ NoFlag c' := by
  cases hw : d.width with
  | none => exact ⟨c, r, rfl, hc⟩
  | star => exact ⟨0x2a#8, _, rfl, by decide⟩
  | num n =>
    obtain ⟨k, t, e, hk⟩ := digits_head (b := 10) (by omega) n (hd.1 n hw).1
    have hk10 : k < 10 := digits_mem (b := 10) (by omega) n k (by rw [e]; simp)
    refine ⟨digit false k, t.map (digit false) ++ c :: r, ?_, ?_⟩
    · rw [spellCount, numeral, e]
      rfl
    · have : ∀ k : Fin 10, k.val ≠ 0 → NoFlag (digit false k.val) := by decide
      exact this ⟨k, hk10⟩ hk

theorem parse_as (d : Directive) (hd : d.Valid) {cv : Byte} (hcv : Letter cv) (t : List Byte) {args args1 args2 : List Arg} {w : Option Int} {p : Option Nat}
    (hw : widthOf d.width args = some (w, args1)) (hp : precisionOf d.precision args1 = some (p, args2)) :
    ∃ info, parse (spellAs d cv ++ t) args = .ok (info, cv :: t, args2) ∧ Read d w p info ∧ info.alt = decide (Flag.alt ∈ d.flags) := by
  obtain ⟨c1, r1, e1, hs1, hn1⟩ := after_width d hcv t
  obtain ⟨c2, r2, e2, hn2⟩ := after_flags d hd r1 hn1
  obtain ⟨c3, r3, e3, hs3, hd3⟩ := after_precision d.length hcv t
  have etext : spellAs d cv ++ t = 0x25#8 :: (d.flags.map spellFlag ++ c2 :: r2) := by
    rw [← e2, ← e1]
    simp [spellAs]
  rw [parse, etext, rd_cons, except_ok_bind, if_pos rfl, List.drop_succ_cons, List.drop_zero, flags_ok d.flags c2 r2 hn2, except_ok_bind]
  dsimp only
  rw [← e2, width_ok d.width c1 r1 hs1 hd.1 hw _ rfl, except_ok_bind]
  dsimp only
  have e4 : c1 :: r1 = (if d.precision = .none then [] else 0x2e#8 :: spellCount d.precision) ++ c3 :: r3 := by
    rw [← e3, ← e1]
    simp
  rw [e4]
  generalize hinfo : ({ ({} : Info) with minus := _, alt := _, zero := _, hasWidth := _, width := _ } : Info) = info1
  obtain ⟨q, hq, hpq⟩ := precision_ok d.precision c3 r3 hs3 hd3 hd.2 hp info1 (by rw [← hinfo])
  rw [hq, except_ok_bind]
  dsimp only
  rw [← e3, size_ok _ hcv, except_ok_bind]
  refine ⟨_, rfl, ?_, ?_⟩
  all_goals subst hinfo
  rotate_left
  · simp
  refine ⟨rfl, ?_, ?_, ?_, rfl, hpq, ?_, ?_, rfl, rfl⟩
  · simp
  · simp
  · simp [Bool.or_comm]
  · cases d.length <;> rfl
  · simp

theorem parse_ok (d : Directive) (hd : d.Valid) (t : List Byte) {args args1 args2 : List Arg} {w : Option Int} {p : Option Nat}
    (hw : widthOf d.width args = some (w, args1)) (hp : precisionOf d.precision args1 = some (p, args2)) :
    ∃ info, parse (spellDirective d ++ t) args = .ok (info, spellConv d.conv :: t, args2) ∧ Read d w p info := by
  obtain ⟨info, h, hR, -⟩ := parse_as d hd (letter_conv d.conv) t hw hp
  exact ⟨info, h, hR⟩

/-! ### Conversions -/

theorem cut_block (info : Info) {s : List Byte} (hs : Text s) (r : List Byte) : cut info (s ++ 0 :: r) = cut info s := by
  have h : (s ++ 0 :: r).takeWhile (· ≠ 0) = s.takeWhile (· ≠ 0) := by
    induction s with
    | nil => simp
    | cons c s ih =>
      have hc := Text.cons.1 hs
      rw [List.cons_append, List.takeWhile_cons_of_pos (by simpa using hc.1), List.takeWhile_cons_of_pos (by simpa using hc.1), ih hc.2]
  simp only [cut, h]

theorem takeWhile_self {s : List Byte} (hs : Text s) : s.takeWhile (· ≠ 0) = s := by
  induction s with
  | nil => rfl
  | cons c s ih =>
    have hc := Text.cons.1 hs
    rw [List.takeWhile_cons_of_pos (by simpa using hc.1), ih hc.2]

theorem field_map (info : Info) (f : Byte → Byte) (h0 : f 0x30#8 = 0x30#8) (h1 : f 0x20#8 = 0x20#8) (s : List Byte) :
    (field info s).map f = field info (s.map f) := by
  have hp : f (if info.zero = true then 0x30#8 else 0x20#8) = if info.zero = true then 0x30#8 else 0x20#8 := by
    split <;> assumption
  simp only [field, List.length_map]
  split
  · split <;> simp
  · split <;> simp only [List.map_append, List.map_replicate, hp]

theorem cut_map (info : Info) (f : Byte → Byte) {s : List Byte} (hs : Text s) (hf : Text (s.map f)) : (cut info s).map f = cut info (s.map f) := by
  unfold cut
  rw [takeWhile_self hs, takeWhile_self hf]
  split
  · rw [List.map_take]
  · rfl

theorem caseFn_fixed (info : Info) : caseFn info 0x30#8 = 0x30#8 ∧ caseFn info 0x20#8 = 0x20#8 := by
  unfold caseFn
  split
  · decide
  · split <;> decide

/-- `zpl__print_string` of a number text. -/
theorem printBlock_ok (text : List Byte) (maxLen : Nat) (info : Info) {s s' : List Byte} (hs : Text s) (hs' : Text s') (hm : s.map (caseFn info) = s') (r : List Byte)
    (hw : 0 ≤ info.width) (z : Nat) (h1 : (field info (cut info s')).length ≤ maxLen) (h2 : (field info (cut info s')).length ≤ z) (h3 : z < text.length)
    (h4 : info.upper = true ∨ info.lower = true → text[z]? = some 0) :
    ∃ rest', printString text maxLen info (some (s ++ 0 :: r)) = .ok (field info (cut info s') ++ rest', (field info (cut info s')).length) ∧
      rest'.drop (z - (field info (cut info s')).length) = text.drop z := by
  have hcm : cut info s' = (cut info s).map (caseFn info) := by
    rw [← hm, cut_map info _ hs (by rw [hm]; exact hs')]
  have hfm : field info (cut info s') = (field info (cut info s)).map (caseFn info) := by
    rw [hcm, field_map info _ (caseFn_fixed info).1 (caseFn_fixed info).2]
  have hl : (field info (cut info s')).length = (field info (cut info s)).length := by
    rw [hfm, List.length_map]
  obtain ⟨r', e, hr⟩ := printString_ok text maxLen info (s ++ 0 :: r) (.inl (by simp)) hw z (by rw [cut_block info hs]; omega) (by rw [cut_block info hs]; omega) h3 h4
  rw [cut_block info hs] at e hr
  exact ⟨r', by rw [e, hfm, List.length_map], by rw [hl]; exact hr⟩

/-- The part of `info` that decides the layout. -/
structure Shape (d : Directive) (w : Option Int) (p : Option Nat) (info : Info) : Prop where
  minus : info.minus = decide (Flag.minus ∈ d.flags ∨ w.getD 0 < 0)
  zero : info.zero = decide (Flag.zero ∈ d.flags ∧ d.precision = .none)
  hasWidth : info.hasWidth = decide (w.isSome ∨ Flag.zero ∈ d.flags)
  width : info.width = (w.getD 0).natAbs
  precision : PrecIs p info.precision

theorem layout_field {d : Directive} {w : Option Int} {p : Option Nat} {info : Info} (h : Shape d w p info) (hr : d.conv ≠ .r) (s : List Byte) :
    field info (cut info s) = layout d w p s := by
  have hcut : cut info s = upTo p (s.takeWhile (· ≠ 0)) := by
    have := h.precision
    clear h
    cases p with
    | some k =>
      have hk : info.precision = k := this
      simp only [cut, hk, upTo]
      rw [if_pos (by omega)]
      simp
    | none =>
      have hk : info.precision < 0 := this
      simp only [cut, upTo]
      rw [if_neg (by omega)]
  rw [hcut]
  simp only [layout, field, h.width, h.minus, h.zero, h.hasWidth, if_neg hr]
  simp only [decide_eq_true_eq, Int.toNat_natCast, Int.natCast_eq_zero]

/-- Whether printing a directive changes the case of letters. -/
def Cased (c : Conv) : Prop := c = .x ∨ c = .X ∨ c = .p

theorem signedArg_ok {info : Info} {l : Length} (hl : l ≠ .z) (hs : info.size = sizeOf l)
    {args args' : List Arg} {v : Int} (h : intArg true l args = some (v, args')) : signedArg info args = .ok (v, args') ∧ -(2 ^ 63) ≤ v ∧ v < 2 ^ 63 := by
  have b64 : ∀ x : BitVec 64, -(2 ^ 63) ≤ x.toInt ∧ x.toInt < 2 ^ 63 := fun x => ⟨BitVec.le_toInt x, BitVec.toInt_lt⟩
  have b32 : ∀ x : BitVec 32, -(2 ^ 63) ≤ x.toInt ∧ x.toInt < 2 ^ 63 := fun x => by
    have h1 := BitVec.le_toInt x; have h2 := @BitVec.toInt_lt _ x
    constructor <;> omega
  have b16 : ∀ x : BitVec 16, -(2 ^ 63) ≤ x.toInt ∧ x.toInt < 2 ^ 63 := fun x => by
    have h1 := BitVec.le_toInt x; have h2 := @BitVec.toInt_lt _ x
    constructor <;> omega
  have b8 : ∀ x : BitVec 8, -(2 ^ 63) ≤ x.toInt ∧ x.toInt < 2 ^ 63 := fun x => by
    have h1 := BitVec.le_toInt x; have h2 := @BitVec.toInt_lt _ x
    constructor <;> omega
  unfold signedArg
  rw [hs]
  match l, args, h with
  | .none, .int v :: args, h => cases h; exact ⟨rfl, b32 _⟩
  | .hh, .int v :: args, h => cases h; exact ⟨rfl, b8 _⟩
  | .h, .int v :: args, h => cases h; exact ⟨rfl, b16 _⟩
  | .l, .long v :: args, h => cases h; exact ⟨rfl, b64 _⟩
  | .ll, .long v :: args, h => cases h; exact ⟨rfl, b64 _⟩
  | .t, .long v :: args, h => cases h; exact ⟨rfl, b64 _⟩
  | .z, .long v :: args, h => exact absurd rfl hl

theorem unsignedArg_ok {info : Info} {l : Length} {sgn : Bool} (hg : sgn = false ∨ l = .z)
    (hs : info.size = sizeOf l)
    {args args' : List Arg} {v : Int} (h : intArg sgn l args = some (v, args')) : ∃ u : BitVec 64, unsignedArg info args = .ok (u, args') ∧ v = (u.toNat : Int) := by
  unfold unsignedArg
  rw [hs]
  have hg' : l ≠ .z → sgn = false := fun h => hg.resolve_right h
  have e8 : ∀ v : BitVec 32, ((v.truncate 8).zeroExtend 64).toNat = (v.truncate 8).toNat := by
    intro v
    have := (v.truncate 8).isLt
    rw [BitVec.toNat_setWidth]
    omega
  have e16 : ∀ v : BitVec 32, ((v.truncate 16).zeroExtend 64).toNat = (v.truncate 16).toNat := by
    intro v
    have := (v.truncate 16).isLt
    rw [BitVec.toNat_setWidth]
    omega
  have e32 : ∀ v : BitVec 32, (v.zeroExtend 64).toNat = v.toNat := by
    intro v
    have := v.isLt
    rw [BitVec.toNat_setWidth]
    omega
  match l, args, h, hg' with
  | .none, .int v :: args, h, hg' =>
    obtain rfl := hg' (by decide)
    cases h
    exact ⟨_, rfl, by rw [e32]; rfl⟩
  | .hh, .int v :: args, h, hg' =>
    obtain rfl := hg' (by decide)
    cases h
    exact ⟨_, rfl, by rw [e8]; rfl⟩
  | .h, .int v :: args, h, hg' =>
    obtain rfl := hg' (by decide)
    cases h
    exact ⟨_, rfl, by rw [e16]; rfl⟩
  | .l, .long v :: args, h, hg' => obtain rfl := hg' (by decide); cases h; exact ⟨_, rfl, rfl⟩
  | .ll, .long v :: args, h, hg' => obtain rfl := hg' (by decide); cases h; exact ⟨_, rfl, rfl⟩
  | .t, .long v :: args, h, hg' => obtain rfl := hg' (by decide); cases h; exact ⟨_, rfl, rfl⟩
  | .z, .long v :: args, h, hg' => cases h; exact ⟨_, rfl, rfl⟩

theorem signed_text {b : Nat} (hb : 2 ≤ b) (hb2 : b ≤ 16) (v : Int) : Text (signed b v) := by
  unfold signed
  split
  · exact Text.cons.2 ⟨by decide, numeral_text _ hb hb2 _⟩
  · exact numeral_text _ hb hb2 _

theorem number_signed_ok (text : List Byte) (rem : Nat) {info : Info} {b : Nat} (hb : 2 ≤ b) (hb2 : b ≤ 10) (hbase : info.base = b) (hu : info.isUnsigned = false)
    (hlo : info.lower = false) (hup : info.upper = false) {args args' : List Arg} {v : Int} (hv : signedArg info args = .ok (v, args'))
    (hv1 : -(2 ^ 63) < v) (hv2 : v < 2 ^ 63) (hw : 0 ≤ info.width) (z : Nat) {f : List Byte} (hf : field info (cut info (signed b v)) = f)
    (h1 : f.length ≤ rem) (h2 : f.length ≤ z) (h3 : z < text.length) :
    ∃ rest', number text rem info args = .ok ((f ++ rest', f.length), args') ∧ rest'.drop (z - f.length) = text.drop z := by
  subst hf
  obtain ⟨r, hr⟩ := i64_text v hv1 hv2 hb hb2
  obtain ⟨r', e, hd⟩ := printBlock_ok text rem info (signed_text hb (by omega) v) (signed_text hb (by omega) v) (by simp [caseFn, hlo, hup]) r hw z h1 h2 h3
    (by simp [hlo, hup])
  refine ⟨r', ?_, hd⟩
  rw [number, hu, if_neg (by decide), hv, except_ok_bind]
  dsimp only
  rw [printI64, hbase, hr, except_ok_bind, e, except_ok_bind]

theorem number_unsigned_ok (text : List Byte) (rem : Nat) {info : Info} {b : Nat} (hb : 2 ≤ b) (hb2 : b ≤ 16) (hbase : info.base = b) (hu : info.isUnsigned = true)
    {args args' : List Arg} {v : BitVec 64} (hv : unsignedArg info args = .ok (v, args')) {up : Bool} (hm : (numeral true b v.toNat).map (caseFn info) = numeral up b v.toNat)
    (hw : 0 ≤ info.width) (z : Nat) {f : List Byte} (hf : field info (cut info (numeral up b v.toNat)) = f)
    (h1 : f.length ≤ rem) (h2 : f.length ≤ z) (h3 : z < text.length) (h4 : info.upper = true ∨ info.lower = true → text[z]? = some 0) :
    ∃ rest', number text rem info args = .ok ((f ++ rest', f.length), args') ∧ rest'.drop (z - f.length) = text.drop z := by
  subst hf
  obtain ⟨r, hr⟩ := u64_text v hb hb2
  obtain ⟨r', e, hd⟩ := printBlock_ok text rem info (numeral_text true hb hb2 v.toNat) (numeral_text up hb hb2 v.toNat) hm r hw z h1 h2 h3 h4
  refine ⟨r', ?_, hd⟩
  rw [number, hu, if_pos rfl, hv, except_ok_bind]
  dsimp only
  rw [printU64, hbase, hr, except_ok_bind, e, except_ok_bind]

theorem lower_numeral {b : Nat} (hb : 2 ≤ b) (hb2 : b ≤ 16) (n : Nat) : (numeral true b n).map toLower = numeral false b n :=
  numeral_map toLower true false (by decide) hb hb2 n

theorem upper_numeral {b : Nat} (hb : 2 ≤ b) (hb2 : b ≤ 16) (n : Nat) : (numeral true b n).map toUpper = numeral true b n :=
  numeral_map toUpper true true (by decide) hb hb2 n

/-- Signed conversions of `%d`, `%i` and `%o`; with `z` the number is unsigned. -/
theorem convert_signed {d : Directive} {w : Option Int} {p : Option Nat} {info : Info} (hR : Read d w p info) (hr : d.conv ≠ .r) (text : List Byte) (rem : Nat)
    {b : Nat} (hb : 2 ≤ b) (hb2 : b ≤ 10) {args args' : List Arg} {s : List Byte}
    (hbody : ((intArg true d.length args).bind fun (v, args) => if v = -(2 ^ 63) then none else some (signed b v, args)) = some (s, args')) (z : Nat)
    (h1 : (layout d w p s).length ≤ rem) (h2 : (layout d w p s).length ≤ z) (h3 : z < text.length) :
    ∃ rest', number text rem { info with base := b } args = .ok ((layout d w p s ++ rest', (layout d w p s).length), args') ∧
      rest'.drop (z - (layout d w p s).length) = text.drop z := by
  cases hi : intArg true d.length args with
  | none => rw [hi] at hbody; cases hbody
  | some va =>
    obtain ⟨v, a⟩ := va
    rw [hi, Option.bind_some] at hbody
    dsimp only at hbody
    split at hbody
    · cases hbody
    · rename_i hne
      simp only [Option.some.injEq, Prod.mk.injEq] at hbody
      obtain ⟨rfl, rfl⟩ := hbody
      have hsh : Shape d w p { info with base := b } := ⟨hR.minus, hR.zero, hR.hasWidth, hR.width, hR.precision⟩
      have hw : 0 ≤ info.width := by rw [hR.width]; omega
      by_cases hz : d.length = .z
      · obtain ⟨u, hu, huv⟩ := unsignedArg_ok (info := { info with base := b }) (.inr hz) hR.size hi
        have e : signed b v = numeral false b u.toNat := by
          rw [huv, signed, if_neg (by omega), Int.natAbs_natCast]
        rw [e] at h1 h2 ⊢
        refine number_unsigned_ok (info := { info with base := b }) text rem hb (by omega) rfl (by show info.isUnsigned = true; rw [hR.isUnsigned]; simp [hz]) hu (up := false) ?_ hw z (layout_field hsh hr _) h1 h2 h3 ?_
        · rw [← numeral_up_eq hb hb2]
          simp [caseFn, hR.lower, hR.upper]
        · simp [hR.lower, hR.upper]
      · obtain ⟨hs, hl, hh⟩ := signedArg_ok (info := { info with base := b }) hz hR.size hi
        exact number_signed_ok (info := { info with base := b }) text rem hb hb2 rfl (by show info.isUnsigned = false; rw [hR.isUnsigned]; simp [hz]) hR.lower hR.upper hs (by omega) hh hw z
          (layout_field hsh hr _) h1 h2 h3

theorem convert_unsigned {d : Directive} {w : Option Int} {p : Option Nat} {info' : Info} (hsh : Shape d w p info') (hr : d.conv ≠ .r) (text : List Byte) (rem : Nat)
    {b : Nat} (hb : 2 ≤ b) (hb2 : b ≤ 16) (hbase : info'.base = b) (hu : info'.isUnsigned = true) {l : Length}
    (hsz : info'.size = sizeOf l) {up : Bool}
    (hm : ∀ n, (numeral true b n).map (caseFn info') = numeral up b n) {args args' : List Arg} {s : List Byte}
    (hbody : ((intArg false l args).map fun (v, args) => (numeral up b v.toNat, args)) = some (s, args')) (z : Nat)
    (h1 : (layout d w p s).length ≤ rem) (h2 : (layout d w p s).length ≤ z) (h3 : z < text.length) (h4 : info'.upper = true ∨ info'.lower = true → text[z]? = some 0) :
    ∃ rest', number text rem info' args = .ok ((layout d w p s ++ rest', (layout d w p s).length), args') ∧
      rest'.drop (z - (layout d w p s).length) = text.drop z := by
  cases hi : intArg false l args with
  | none => rw [hi] at hbody; cases hbody
  | some va =>
    obtain ⟨v, a⟩ := va
    rw [hi] at hbody
    simp only [Option.map_some, Option.some.injEq, Prod.mk.injEq] at hbody
    obtain ⟨rfl, rfl⟩ := hbody
    obtain ⟨u, hua, huv⟩ := unsignedArg_ok (info := info') (.inl rfl) hsz hi
    have e : v.toNat = u.toNat := by rw [huv, Int.toNat_natCast]
    rw [e] at h1 h2 ⊢
    exact number_unsigned_ok text rem hb hb2 hbase hu hua (hm _) (by rw [hsh.width]; omega) z (layout_field hsh hr _) h1 h2 h3 h4

theorem takeWhile_char (c : Byte) : [c, 0].takeWhile (· ≠ 0) = [c].takeWhile (· ≠ 0) := by
  by_cases h : c = 0
  · subst h
    rfl
  · have h' : (c != 0#8) = true := by simpa using h
    simp [List.takeWhile, h']

/-- `%c` and `%s`. -/
theorem convert_string {d : Directive} {w : Option Int} {p : Option Nat} {info : Info} (hR : Read d w p info) (hr : d.conv ≠ .r) (text : List Byte) (rem : Nat) {b s : List Byte}
    (hs : b.takeWhile (· ≠ 0) = s.takeWhile (· ≠ 0)) (hb : 0 ∈ b ∨ ∃ k, p = some k ∧ k ≤ b.length) (z : Nat)
    (h1 : (layout d w p s).length ≤ rem) (h2 : (layout d w p s).length ≤ z) (h3 : z < text.length) :
    ∃ rest', printString text rem info (some b) = .ok (layout d w p s ++ rest', (layout d w p s).length) ∧ rest'.drop (z - (layout d w p s).length) = text.drop z := by
  have hsh : Shape d w p info := ⟨hR.minus, hR.zero, hR.hasWidth, hR.width, hR.precision⟩
  have hc : cut info b = cut info s := by
    unfold cut
    rw [hs]
  have hf : field info (cut info b) = layout d w p s := by rw [hc, layout_field hsh hr]
  have hb' : 0 ∈ b ∨ (0 ≤ info.precision ∧ info.precision.toNat ≤ b.length) := by
    rcases hb with hb | ⟨k, rfl, hk⟩
    · exact .inl hb
    · have : info.precision = k := hR.precision
      right
      omega
  obtain ⟨r, e, hd⟩ := printString_ok text rem info b hb' (by rw [hR.width]; omega) z (by rw [hf]; exact h1) (by rw [hf]; exact h2) h3 (by simp [hR.lower, hR.upper])
  rw [hf] at e hd
  exact ⟨r, by rw [e]; simp [caseFn, hR.lower, hR.upper], hd⟩

theorem convert_ok (pf : FloatPrinter) (text : List Byte) (rem : Nat) {d : Directive} {w : Option Int} {p : Option Nat} {info : Info} (hR : Read d w p info)
    {args args' : List Arg} {s : List Byte} (hbody : body d p args = some (s, args')) (t : List Byte) (z : Nat) {f : List Byte} (hf : layout d w p s = f)
    (h1 : f.length ≤ rem) (h2 : f.length ≤ z) (h3 : z < text.length) (h4 : Cased d.conv → text[z]? = some 0) :
    ∃ rest', convert pf text rem info (spellConv d.conv :: t) args = .ok ((f ++ rest', f.length), t, args') ∧ rest'.drop (z - f.length) = text.drop z := by
  have fin : ∀ {x : Except Fault ((List Byte × Nat) × List Arg)}, (∃ rest', x = .ok ((f ++ rest', f.length), args') ∧ rest'.drop (z - f.length) = text.drop z) →
      ∃ rest', (do let (r, args) ← x; .ok (r, (spellConv d.conv :: t).drop 1, args) : Except Fault ((List Byte × Nat) × List Byte × List Arg)) =
        .ok ((f ++ rest', f.length), t, args') ∧ rest'.drop (z - f.length) = text.drop z := by
    rintro x ⟨r, rfl, hd⟩
    exact ⟨r, rfl, hd⟩
  have fin2 : ∀ {x : Except Fault (List Byte × Nat)}, (∃ rest', x = .ok (f ++ rest', f.length) ∧ rest'.drop (z - f.length) = text.drop z) →
      ∃ rest', (do .ok (← x, args') : Except Fault ((List Byte × Nat) × List Arg)) = .ok ((f ++ rest', f.length), args') ∧ rest'.drop (z - f.length) = text.drop z := by
    rintro x ⟨r, rfl, hd⟩
    exact ⟨r, rfl, hd⟩
  subst hf
  have hsh : ∀ info' : Info, info'.minus = info.minus → info'.zero = info.zero → info'.hasWidth = info.hasWidth → info'.width = info.width → info'.precision = info.precision →
      Shape d w p info' := by
    intro i e1 e2 e3 e4 e5
    exact ⟨e1 ▸ hR.minus, e2 ▸ hR.zero, e3 ▸ hR.hasWidth, e4 ▸ hR.width, e5 ▸ hR.precision⟩
  rw [convert, show rd (spellConv d.conv :: t) 0 = .ok (spellConv d.conv) from rfl, except_ok_bind]
  dsimp only
  unfold body at hbody
  cases hc : d.conv with
  | d =>
    simp only [hc] at hbody
    simp only [hc, spellConv] at fin ⊢
    exact fin (convert_signed hR (by simp [hc]) text rem (by omega) (by omega) hbody z h1 h2 h3)
  | i =>
    simp only [hc] at hbody
    simp only [hc, spellConv] at fin ⊢
    exact fin (convert_signed hR (by simp [hc]) text rem (by omega) (by omega) hbody z h1 h2 h3)
  | o =>
    simp only [hc] at hbody
    simp only [hc, spellConv] at fin ⊢
    exact fin (convert_signed hR (by simp [hc]) text rem (by omega) (by omega) hbody z h1 h2 h3)
  | u =>
    simp only [hc] at hbody
    simp only [hc, spellConv] at fin ⊢
    refine fin (convert_unsigned (b := 10) (info' := { info with isUnsigned := true, base := 10 }) (hsh _ rfl rfl rfl rfl rfl) (by simp [hc]) text rem (by omega) (by omega) rfl rfl hR.size ?_ hbody z h1 h2 h3 (by simp [hR.lower, hR.upper]))
    intro n
    rw [← numeral_up_eq (by omega) (by omega)]
    simp [caseFn, hR.lower, hR.upper]
  | x =>
    simp only [hc] at hbody
    simp only [hc, spellConv] at fin ⊢
    refine fin (convert_unsigned (b := 16) (info' := { info with base := 16, isUnsigned := true, lower := true }) (hsh _ rfl rfl rfl rfl rfl) (by simp [hc]) text rem (by omega) (by omega) rfl rfl hR.size ?_ hbody z h1 h2 h3 (fun _ => h4 (.inl hc)))
    intro n
    simp only [caseFn, hR.upper]
    exact lower_numeral (by omega) (by omega) n
  | X =>
    simp only [hc] at hbody
    simp only [hc, spellConv] at fin ⊢
    refine fin (convert_unsigned (b := 16) (info' := { info with base := 16, isUnsigned := true, upper := true }) (hsh _ rfl rfl rfl rfl rfl) (by simp [hc]) text rem (by omega) (by omega) rfl rfl hR.size ?_ hbody z h1 h2 h3 (fun _ => h4 (.inr (.inl hc))))
    intro n
    simp only [caseFn]
    exact upper_numeral (by omega) (by omega) n
  | p =>
    simp only [hc] at hbody
    simp only [hc, spellConv] at fin ⊢
    refine fin (convert_unsigned (b := 16) (info' := { info with base := 16, lower := true, isUnsigned := true, alt := true, size := if info.size = none then some .long else none }) (l := if d.length = .none then .l else .none) (hsh _ rfl rfl rfl rfl rfl) (by simp [hc]) text rem (by omega) (by omega) rfl rfl ?_ ?_ hbody z h1 h2 h3 (fun _ => h4 (.inr (.inr hc))))
    · show (if info.size = none then some Size.long else none) = _
      rw [hR.size]
      cases d.length <;> rfl
    · intro n
      simp only [caseFn, hR.upper]
      exact lower_numeral (by omega) (by omega) n
  | c =>
    simp only [hc] at hbody
    simp only [hc, spellConv] at fin ⊢
    match args, hbody with
    | .int v :: args, hbody =>
      simp only [Option.some.injEq, Prod.mk.injEq] at hbody
      obtain ⟨rfl, rfl⟩ := hbody
      exact fin (fin2 (convert_string hR (by simp [hc]) text rem (b := [v.truncate 8, 0]) (takeWhile_char _) (.inl (by simp)) z h1 h2 h3))
  | s =>
    simp only [hc] at hbody
    simp only [hc, spellConv] at fin ⊢
    match args, hbody with
    | .str (some b) :: args, hbody =>
      dsimp only at hbody
      split at hbody
      · rename_i hcond
        simp only [Option.some.injEq, Prod.mk.injEq] at hbody
        obtain ⟨rfl, rfl⟩ := hbody
        exact fin (fin2 (convert_string hR (by simp [hc]) text rem rfl hcond z h1 h2 h3))
      · cases hbody
  | r =>
    simp only [hc] at hbody
    simp only [hc, spellConv] at fin ⊢
    match args, hbody with
    | .int v :: args, hbody =>
      simp only [Option.some.injEq, Prod.mk.injEq] at hbody
      obtain ⟨rfl, rfl⟩ := hbody
      refine fin (fin2 ?_)
      have hl : layout d w p [v.truncate 8] = List.replicate (max (w.getD 0).natAbs 1) (v.truncate 8) := by
        simp [layout, hc]
      rw [hl] at h1 h2 ⊢
      have hrem : (if info.width > 0 then info.width.toNat else 1) = max (w.getD 0).natAbs 1 := by
        rw [hR.width]
        split <;> omega
      rw [List.length_replicate] at *
      refine ⟨text.drop (max (w.getD 0).natAbs 1), ?_, ?_⟩
      · rw [printRepeated, hrem, fill_ok _ _ _ (by omega)]
        rfl
      · rw [List.drop_drop, Nat.add_sub_cancel' h2]
  | percent =>
    simp only [hc] at hbody
    simp only [hc, spellConv] at fin ⊢
    simp only [Option.some.injEq, Prod.mk.injEq] at hbody
    obtain ⟨rfl, rfl⟩ := hbody
    exact fin (fin2 (convert_string hR (by simp [hc]) text rem (b := [0x25#8, 0]) (by simp) (.inl (by simp)) z h1 h2 h3))

/-! ### The loop -/

theorem literal_ok {s : List Byte} (hs : Literal s) {c : Byte} (hc : c = 0 ∨ c = 0x25#8) (t text : List Byte) (h : s.length ≤ text.length) :
    literal (s ++ c :: t) text = .ok (s.length, s ++ text.drop s.length) := by
  induction s generalizing text with
  | nil =>
    rw [List.nil_append, literal.eq_def]
    dsimp only
    rw [if_neg (by rcases hc with h | h <;> subst h <;> decide)]
    rfl
  | cons x s ih =>
    have hx := hs x (by simp)
    cases text with
    | nil => simp at h
    | cons y text =>
      rw [List.cons_append, literal.eq_def]
      dsimp only
      rw [if_pos hx]
      rw [ih (fun c hc => hs c (List.mem_cons_of_mem _ hc)) text (by simpa using h), except_ok_bind]
      rfl

theorem parse_end (t : List Byte) (args : List Arg) : parse (0 :: t) args = .ok ({}, 0 :: t, args) := by
  rw [parse, rd_cons, except_ok_bind, if_neg (by decide), except_ok_bind]
  dsimp only
  rw [width, rd_cons, except_ok_bind, if_neg (by decide), scan_none 0 t (by decide), except_ok_bind]
  rfl

theorem get_of_drop {r t : List Byte} {i j : Nat} (h : r.drop i = t.drop j) (hj : j < t.length) : i < r.length ∧ r[i]? = t[j]? := by
  have h1 : (r.drop i)[0]? = (t.drop j)[0]? := by rw [h]
  rw [List.getElem?_drop, List.getElem?_drop] at h1
  simp only [Nat.add_zero] at h1
  refine ⟨?_, h1⟩
  rcases Nat.lt_or_ge i r.length with hlt | hge
  · exact hlt
  · rw [List.getElem?_eq_none hge, List.getElem?_eq_getElem hj] at h1
    cases h1

theorem go_end (pf : FloatPrinter) (fuel : Nat) {last : List Byte} (hl : Literal last) (rest : List Byte) (args : List Arg) (text : List Byte) (rem : Nat) (hrem : rem ≠ 0)
    (h : last.length < text.length) :
    go pf (fuel + 2) (last ++ 0 :: rest) args text rem = .ok (last ++ 0 :: text.drop (last.length + 1), last.length + 1) := by
  have fin : ∀ (fuel : Nat) (t : List Byte) (rem : Nat), t ≠ [] → go pf (fuel + 1) (0 :: rest) args t rem = .ok (0 :: t.drop 1, 1) := by
    intro fuel t rem ht
    cases t with
    | nil => exact absurd rfl ht
    | cons x t =>
      rw [go, rd_cons, except_ok_bind, if_pos rfl]
      rfl
  cases last with
  | nil =>
    rw [List.nil_append, fin (fuel + 1) text rem (by rintro rfl; simp at h)]
    rfl
  | cons c last =>
    have hc := (hl c (by simp)).1
    rw [go, List.cons_append, rd_cons, except_ok_bind, if_neg hc, if_pos hrem, ← List.cons_append, literal_ok hl (.inl rfl) rest text (by omega), except_ok_bind]
    dsimp only
    rw [List.drop_append_of_le_length (Nat.le_refl _), List.drop_of_length_le (Nat.le_refl _), List.nil_append, parse_end, except_ok_bind]
    dsimp only
    rw [List.drop_append_of_le_length (Nat.le_refl _), List.drop_of_length_le (Nat.le_refl _), List.nil_append]
    have hcv : convert pf (text.drop (c :: last).length) rem {} (0 :: rest) args = .ok ((text.drop (c :: last).length, 0), 0 :: rest, args) := rfl
    rw [hcv, except_ok_bind]
    dsimp only
    rw [List.drop_zero, fin fuel _ _ (by
      intro h0
      have := List.drop_eq_nil_iff.1 h0
      omega), except_ok_bind]
    dsimp only
    rw [List.take_append_of_le_length (Nat.le_refl _), List.take_of_length_le (Nat.le_refl _), List.take_zero, List.append_nil, List.drop_drop]

theorem go_ok (pf : FloatPrinter) (items : List (List Byte × Directive)) (hv : ∀ p ∈ items, Literal p.1 ∧ p.2.Valid) {last : List Byte} (hl : Literal last)
    (rest : List Byte) (fuel : Nat) (hf : items.length + 2 ≤ fuel) {args args' : List Arg} {out : List Byte} (hr : renderItems items args = some (out, args'))
    (text : List Byte) (rem z : Nat) (h1 : (out ++ last).length < rem) (h2 : (out ++ last).length ≤ z) (h3 : z < text.length)
    (h4 : (∃ p ∈ items, Cased p.2.conv) → text[z]? = some 0) :
    ∃ rest', go pf fuel (items.flatMap (fun p => p.1 ++ spellDirective p.2) ++ last ++ 0 :: rest) args text rem =
        .ok (out ++ last ++ 0 :: rest', (out ++ last).length + 1) ∧ rest'.drop (z - (out ++ last).length) = text.drop (z + 1) ∧
      rest'.length + (out ++ last).length + 1 = text.length ∧
      ((out ++ last).length < z → rest'.drop (z - (out ++ last).length - 1) = text.drop z) := by
  induction items generalizing fuel args out text rem z with
  | nil =>
    simp only [renderItems, Option.some.injEq, Prod.mk.injEq] at hr
    obtain ⟨rfl, rfl⟩ := hr
    obtain ⟨fuel, rfl⟩ : ∃ k, fuel = k + 2 := ⟨fuel - 2, by simp at hf; omega⟩
    simp only [List.nil_append] at h1 h2 ⊢
    refine ⟨text.drop (last.length + 1), ?_, ?_, by rw [List.length_drop]; omega, fun h => by rw [List.drop_drop]; congr 1; omega⟩
    · rw [List.flatMap_nil, List.nil_append]
      exact go_end pf fuel hl rest args text rem (by omega) (by omega)
    · rw [List.drop_drop]
      congr 1
      omega
  | cons it items ih =>
    obtain ⟨lit, d⟩ := it
    obtain ⟨fuel, rfl⟩ : ∃ k, fuel = k + 1 := ⟨fuel - 1, by simp at hf; omega⟩
    simp only [renderItems] at hr
    cases hd : renderDirective d args with
    | none => rw [hd] at hr; cases hr
    | some fa =>
      obtain ⟨f, args1⟩ := fa
      rw [hd, Option.bind_some] at hr
      dsimp only at hr
      cases hi : renderItems items args1 with
      | none => rw [hi] at hr; cases hr
      | some ta =>
        obtain ⟨tl, args2⟩ := ta
        rw [hi] at hr
        simp only [Option.map_some, Option.some.injEq, Prod.mk.injEq] at hr
        obtain ⟨rfl, rfl⟩ := hr
        rw [renderDirective] at hd
        cases hw : widthOf d.width args with
        | none => rw [hw] at hd; cases hd
        | some wa =>
          obtain ⟨w, a1⟩ := wa
          rw [hw, Option.bind_some] at hd
          dsimp only at hd
          cases hp : precisionOf d.precision a1 with
          | none => rw [hp] at hd; cases hd
          | some pa =>
            obtain ⟨p, a2⟩ := pa
            rw [hp, Option.bind_some] at hd
            dsimp only at hd
            cases hb : body d p a2 with
            | none => rw [hb] at hd; cases hd
            | some sa =>
              obtain ⟨s, a3⟩ := sa
              rw [hb] at hd
              simp only [Option.map_some, Option.some.injEq, Prod.mk.injEq] at hd
              obtain ⟨hlay, rfl⟩ := hd
              obtain ⟨hlit, hdv⟩ := hv (lit, d) (by simp)
              have hlens : (lit ++ f ++ tl ++ last).length = lit.length + f.length + (tl ++ last).length := by
                simp only [List.length_append]
                omega
              rw [hlens] at h1 h2 ⊢
              -- the rest of the format
              obtain ⟨tail, htail⟩ : ∃ tail, tail = items.flatMap (fun p => p.1 ++ spellDirective p.2) ++ last ++ 0 :: rest := ⟨_, rfl⟩
              have hfmt : (((lit, d) :: items).flatMap (fun p => p.1 ++ spellDirective p.2) ++ last ++ 0 :: rest) = lit ++ (spellDirective d ++ tail) := by
                rw [htail]
                simp
              rw [hfmt]
              have hdir : spellDirective d ++ tail = 0x25#8 :: ((spellDirective d).drop 1 ++ tail) := by
                simp [spellDirective]
              obtain ⟨c, r, hcr, hc0⟩ : ∃ c r, lit ++ (spellDirective d ++ tail) = c :: r ∧ c ≠ 0 := by
                cases lit with
                | nil => exact ⟨_, _, by rw [List.nil_append, hdir], by decide⟩
                | cons x lit => exact ⟨x, _, rfl, (hlit x (by simp)).1⟩
              obtain ⟨info, hparse, hR⟩ := parse_ok d hdv tail hw hp
              obtain ⟨r', hconv, hdrop⟩ := convert_ok pf (text.drop lit.length) rem hR hb tail (z - lit.length) hlay (by omega) (by omega)
                (by rw [List.length_drop]; omega)
                (by
                  intro hc
                  rw [List.getElem?_drop, show lit.length + (z - lit.length) = z by omega]
                  exact h4 ⟨(lit, d), by simp, hc⟩)
              rw [List.drop_drop, show lit.length + (z - lit.length) = z by omega] at hdrop
              obtain ⟨hz', hgz⟩ := get_of_drop hdrop h3
              obtain ⟨r2, hgo, hdrop2, hlen2, hdrop3⟩ := ih (fun q hq => hv q (List.mem_cons_of_mem _ hq)) fuel (by simp at hf; omega) hi r' (rem - f.length) (z - lit.length - f.length)
                (by omega) (by omega) hz' (by
                  rintro ⟨q, hq, hqc⟩
                  rw [hgz]
                  exact h4 ⟨q, List.mem_cons_of_mem _ hq, hqc⟩)
              have hlr : r'.length = text.length - lit.length - f.length := by
                have := congrArg List.length hdrop
                rw [List.length_drop, List.length_drop] at this
                omega
              refine ⟨r2, ?_, ?_, by omega, fun h => ?_⟩
              · rw [go, hcr, rd_cons, except_ok_bind, if_neg hc0, if_pos (by omega), ← hcr]
                rw [show literal (lit ++ (spellDirective d ++ tail)) text = .ok (lit.length, lit ++ text.drop lit.length) by
                  rw [hdir]
                  exact literal_ok hlit (.inr rfl) _ text (show lit.length ≤ text.length by omega), except_ok_bind]
                dsimp only
                rw [List.drop_append_of_le_length (Nat.le_refl _), List.drop_of_length_le (Nat.le_refl _), List.nil_append, hparse, except_ok_bind]
                dsimp only
                rw [List.drop_append_of_le_length (Nat.le_refl _), List.drop_of_length_le (Nat.le_refl _), List.nil_append, hconv, except_ok_bind]
                dsimp only
                rw [List.drop_append_of_le_length (Nat.le_refl _), List.drop_of_length_le (Nat.le_refl _), List.nil_append, if_neg (by omega), htail, hgo, except_ok_bind]
                dsimp only
                rw [List.take_append_of_le_length (Nat.le_refl _), List.take_of_length_le (Nat.le_refl _), List.take_append_of_le_length (Nat.le_refl _),
                  List.take_of_length_le (Nat.le_refl _)]
                simp only [List.append_assoc, List.length_append, List.length_cons, Nat.add_assoc]
              · have e1 : z - (lit.length + f.length + (tl ++ last).length) = z - lit.length - f.length - (tl ++ last).length := by omega
                rw [e1, hdrop2]
                have e2 : z - lit.length - f.length + 1 = (z - lit.length - f.length) + 1 := rfl
                rw [e2, ← List.drop_drop, hdrop, List.drop_drop]
              · rw [show z - (lit.length + f.length + (tl ++ last).length) - 1 = z - lit.length - f.length - (tl ++ last).length - 1 by omega, hdrop3 (by omega), hdrop]

/-! ## C54 -/

/-- A printed text that fits, together with its terminator, is printed in full; the result counts the terminator, except that an exact fit gives -1; no byte after
`text[z]` is touched.  For formats without `%x`, `%X` and `%p`, `z` is any index not before the terminator (so no byte after the terminator is touched); for these
three, `text[z]` must hold a NUL.  With `z = max_len - 1` nothing outside `text[0 .. max_len)` is touched.

`_partial`: the claim that nothing outside `text[0 .. max_len)` is written does not hold when the text does not fit (`C54_exact_text_overflows`, `C54_literal_overflows`,
`C54_zero_writes`), and `%x`, `%X`, `%p` need a NUL in the buffer (`C54_case_runs_on`).  For floating-point conversions see Str/PrintReal. -/
theorem C54_fits_partial (pf : FloatPrinter) (f : Format) (hf : f.Valid) (args : List Arg) {out : List Byte} (hr : render f args = some out) (fmtRest : List Byte)
    (text : List Byte) (maxLen : Nat) (hm : out.length < maxLen) (z : Nat) (hz : out.length ≤ z) (ht : z < text.length)
    (hc : (∃ p ∈ f.items, p.2.conv = .x ∨ p.2.conv = .X ∨ p.2.conv = .p) → text[z]? = some 0) :
    ∃ text', snprintf pf text maxLen (spell f ++ 0 :: fmtRest) args = .ok (text', if out.length + 1 = maxLen then -1 else ((out.length + 1 : Nat) : Int)) ∧
      text'.length = text.length ∧ text'.take (out.length + 1) = out ++ [0] ∧ text'.drop (z + 1) = text.drop (z + 1) ∧ (out.length < z → text'[z]? = text[z]?) := by
  rw [render] at hr
  cases hi : renderItems f.items args with
  | none => rw [hi] at hr; cases hr
  | some ta =>
    obtain ⟨t, args'⟩ := ta
    rw [hi] at hr
    simp only [Option.map_some, Option.some.injEq] at hr
    subst hr
    have hfuel : f.items.length + 2 ≤ (spell f ++ 0 :: fmtRest).length + 1 := by
      have : f.items.length ≤ (f.items.flatMap (fun p => p.1 ++ spellDirective p.2)).length := by
        generalize f.items = items
        induction items with
        | nil => simp
        | cons p items ih =>
          rw [List.flatMap_cons, List.length_append, List.length_append, List.length_cons]
          have : 1 ≤ (spellDirective p.2).length := by simp [spellDirective]
          omega
      simp only [spell, List.length_append, List.length_cons] at *
      omega
    obtain ⟨r, hgo, hd, hlen, hd2⟩ := go_ok pf f.items hf.1 hf.2 fmtRest _ hfuel hi text maxLen z hm hz ht hc
    refine ⟨(t ++ f.last) ++ 0 :: r, ?_, ?_, ?_, ?_, fun h => ?_⟩
    · rw [snprintf]
      have : go pf ((spell f ++ 0 :: fmtRest).length + 1) (spell f ++ 0 :: fmtRest) args text maxLen = _ := hgo
      rw [this, except_ok_bind]
      dsimp only
      by_cases he : (t ++ f.last).length + 1 = maxLen
      · rw [if_pos (by omega), if_pos he]
      · rw [if_neg (by omega), if_neg he]
    · rw [List.length_append, List.length_cons]
      omega
    · rw [List.take_append, List.take_of_length_le (by omega)]
      simp
    · rw [List.drop_append, List.drop_eq_nil_of_le (by omega), List.nil_append, show z + 1 - (t ++ f.last).length = (z - (t ++ f.last).length) + 1 by omega,
        List.drop_succ_cons, hd]
    · have h1 := congrArg (fun l => l[0]?) (hd2 h)
      simp only [List.getElem?_drop, Nat.add_zero] at h1
      rw [List.getElem?_append_right (by omega), ← h1, show z - (t ++ f.last).length = z - (t ++ f.last).length - 1 + 1 by omega, List.getElem?_cons_succ]
      rfl

/-! ### Where the code breaks C54 -/

/-- `%s` with a text of exactly `max_len` characters: all of them are written, and the terminator to `text[max_len]`, which is outside. -/
theorem C54_exact_text_overflows (pf : FloatPrinter) {s : List Byte} (hs : Text s) (hn : s ≠ []) (sRest fmtRest : List Byte) (text : List Byte) (ht : s.length < text.length) :
    snprintf pf text s.length (0x25#8 :: 0x73#8 :: 0#8 :: fmtRest) [.str (some (s ++ 0 :: sRest))] = .ok (s ++ 0 :: text.drop (s.length + 1), -1) := by
  have hpos : s.length ≠ 0 := fun h => hn (List.length_eq_zero_iff.1 h)
  let d : Directive := { conv := .s }
  obtain ⟨info, hparse, hR⟩ := parse_ok d ⟨by simp [d], by simp [d]⟩ (0#8 :: fmtRest) (args := [.str (some (s ++ 0 :: sRest))]) (w := none) (p := none) rfl rfl
  have hbody : body d none [.str (some (s ++ 0 :: sRest))] = some (s ++ 0 :: sRest, []) := by simp [body, d]
  have hlay : layout d none none (s ++ 0 :: sRest) = s := by
    have h : (s ++ 0 :: sRest).takeWhile (· ≠ 0) = s := by
      have : (s ++ 0 :: sRest).takeWhile (· ≠ 0) = s.takeWhile (· ≠ 0) := cut_block ({} : Info) hs sRest
      rw [this, takeWhile_self hs]
    simp only [layout, d, upTo, h]
    rfl
  obtain ⟨r, hconv, hd⟩ := convert_ok pf text s.length hR hbody (0#8 :: fmtRest) s.length hlay (Nat.le_refl _) (Nat.le_refl _) ht (by rintro (h | h | h) <;> cases h)
  have hr : r = text.drop s.length := by simpa using hd
  have hlit : literal (0x25#8 :: 0x73#8 :: 0#8 :: fmtRest) text = .ok (0, text) := by
    have := literal_ok (s := []) (by intro c hc; cases hc) (.inr rfl : (0x25#8 : Byte) = 0 ∨ (0x25#8 : Byte) = 0x25#8) (0x73#8 :: 0#8 :: fmtRest) text (by simp)
    simpa using this
  have hp' : parse (0x25#8 :: 0x73#8 :: 0#8 :: fmtRest) [.str (some (s ++ 0 :: sRest))] = .ok (info, 0x73#8 :: 0#8 :: fmtRest, [.str (some (s ++ 0 :: sRest))]) := hparse
  have hc' : convert pf text s.length info (0x73#8 :: 0#8 :: fmtRest) [.str (some (s ++ 0 :: sRest))] = .ok ((s ++ r, s.length), 0#8 :: fmtRest, []) := hconv
  have hend := go_end pf fmtRest.length (last := []) (by intro c hc; cases hc) fmtRest [] r 1 (by omega) (by rw [hr, List.length_drop]; simp; omega)
  rw [snprintf, List.length_cons, List.length_cons, List.length_cons, go, rd_cons, except_ok_bind, if_neg (by decide), if_pos hpos, hlit, except_ok_bind]
  dsimp only
  rw [List.drop_zero, List.drop_zero, hp', except_ok_bind]
  dsimp only
  rw [hc', except_ok_bind]
  dsimp only
  rw [List.drop_append_of_le_length (Nat.le_refl _), List.drop_of_length_le (Nat.le_refl _), List.nil_append, if_pos (Nat.le_refl _), show min s.length 1 = 1 by omega,
    show fmtRest.length + 1 + 1 + 1 = fmtRest.length + 1 + 2 by omega]
  have hend' := go_end pf (fmtRest.length + 1) (last := []) (by intro c hc; cases hc) fmtRest [] r 1 (by omega) (by rw [hr, List.length_drop]; simp; omega)
  rw [List.nil_append] at hend'
  have hend2 : go pf (fmtRest.length + 1 + 2) (0#8 :: fmtRest) [] r 1 = .ok (0 :: text.drop (s.length + 1), 1) := by
    have e : go pf (fmtRest.length + 1 + 2) (0#8 :: fmtRest) [] r 1 = .ok ([] ++ 0 :: r.drop 1, 1) := hend'
    rw [e, hr, List.drop_drop, List.nil_append]
  rw [hend2, except_ok_bind]
  dsimp only
  rw [except_ok_bind]
  dsimp only
  rw [List.take_zero, List.nil_append, List.take_append_of_le_length (Nat.le_refl _), List.take_of_length_le (Nat.le_refl _), if_pos (by omega)]

/-- `%s` with a text of more than `max_len` characters: nothing of it is written, not its first `max_len - 1` characters, and the result is that of an empty text. -/
theorem C54_long_text_dropped (pf : FloatPrinter) {s : List Byte} (hs : Text s) (sRest fmtRest : List Byte) (c : Byte) (text : List Byte) {maxLen : Nat} (h0 : maxLen ≠ 0) (h : maxLen < s.length) :
    snprintf pf (c :: text) maxLen (0x25#8 :: 0x73#8 :: 0#8 :: fmtRest) [.str (some (s ++ 0 :: sRest))] = .ok (0 :: text, if 1 ≥ maxLen then -1 else 1) := by
  have hp : parse (0x25#8 :: 0x73#8 :: 0#8 :: fmtRest) [.str (some (s ++ 0 :: sRest))] = .ok ({}, 0x73#8 :: 0#8 :: fmtRest, [.str (some (s ++ 0 :: sRest))]) := rfl
  have hpr : printString (c :: text) maxLen {} (some (s ++ 0 :: sRest)) = .ok (c :: text, 0) := by
    rw [printString, fieldLen, if_neg (by decide), strlen_ok hs, except_ok_bind, if_neg (by decide), if_pos (by decide), printLeft, if_pos h]
  have hc : convert pf (c :: text) maxLen {} (0x73#8 :: 0#8 :: fmtRest) [.str (some (s ++ 0 :: sRest))] = .ok ((c :: text, 0), 0#8 :: fmtRest, []) := by
    have e : convert pf (c :: text) maxLen {} (0x73#8 :: 0#8 :: fmtRest) [.str (some (s ++ 0 :: sRest))] = (do
        let (r, args) ← (do
          let r ← printString (c :: text) maxLen {} (some (s ++ 0 :: sRest))
          .ok (r, [])
          : Except Fault ((List Byte × Nat) × List Arg))
        .ok (r, (0x73#8 :: 0#8 :: fmtRest).drop 1, args)) := rfl
    rw [e, hpr, except_ok_bind, except_ok_bind]
    rfl
  have hlit : literal (0x25#8 :: 0x73#8 :: 0#8 :: fmtRest) (c :: text) = .ok (0, c :: text) := rfl
  have hend := go_end pf (fmtRest.length + 1) (last := []) (by intro c hc; cases hc) fmtRest [] (c :: text) maxLen h0 (by simp)
  have hend2 : go pf (fmtRest.length + 1 + 2) (0#8 :: fmtRest) [] (c :: text) maxLen = .ok (0 :: text, 1) := by simpa using hend
  rw [snprintf, List.length_cons, List.length_cons, List.length_cons, go, rd_cons, except_ok_bind, if_neg (by decide), if_pos h0, hlit, except_ok_bind]
  dsimp only
  rw [List.drop_zero, List.drop_zero, hp, except_ok_bind]
  dsimp only
  rw [hc, except_ok_bind]
  dsimp only
  rw [if_neg (by omega), Nat.sub_zero, List.drop_zero, hend2, except_ok_bind]
  dsimp only
  rw [except_ok_bind]
  simp

/-- Literal text is written in full whatever `max_len` is (unless it is 0). -/
theorem C54_literal_overflows (pf : FloatPrinter) {s : List Byte} (hs : Literal s) (fmtRest : List Byte) (args : List Arg) (text : List Byte) (maxLen : Nat) (hm : maxLen ≠ 0)
    (ht : s.length < text.length) :
    snprintf pf text maxLen (s ++ 0 :: fmtRest) args = .ok (s ++ 0 :: text.drop (s.length + 1), if s.length + 1 ≥ maxLen then -1 else ((s.length + 1 : Nat) : Int)) := by
  have h : (s ++ 0 :: fmtRest).length + 1 = (s ++ fmtRest).length + 2 := by simp; omega
  rw [snprintf, h, go_end pf _ hs fmtRest args text maxLen hm ht, except_ok_bind]

/-- With room for nothing the terminator is written all the same. -/
theorem C54_zero_writes (pf : FloatPrinter) (fmtRest : List Byte) (args : List Arg) (c : Byte) (text : List Byte) :
    snprintf pf (c :: text) 0 (0 :: fmtRest) args = .ok (0 :: text, -1) := rfl

/-- With room for nothing and a format beginning with an ordinary character (one that means nothing after `%`) the call never returns. -/
theorem C54_zero_diverges (pf : FloatPrinter) (fuel : Nat) (c : Byte) (fmt : List Byte) (args : List Arg) (text : List Byte)
    (hc : c ∉ [0#8, 0x25#8, 0x2d#8, 0x2a#8, 0x2e#8, 0x30#8, 0x31#8, 0x32#8, 0x33#8, 0x34#8, 0x35#8, 0x36#8, 0x37#8, 0x38#8, 0x39#8, 0x68#8, 0x6c#8, 0x7a#8, 0x74#8,
      0x75#8, 0x64#8, 0x69#8, 0x6f#8, 0x78#8, 0x58#8, 0x66#8, 0x46#8, 0x67#8, 0x47#8, 0x61#8, 0x41#8, 0x63#8, 0x73#8, 0x72#8, 0x70#8]) :
    go pf fuel (c :: fmt) args text 0 = .error .diverge := by
  have hstop : ∀ c : Byte, c ∉ [0#8, 0x25#8, 0x2d#8, 0x2a#8, 0x2e#8, 0x30#8, 0x31#8, 0x32#8, 0x33#8, 0x34#8, 0x35#8, 0x36#8, 0x37#8, 0x38#8, 0x39#8] → Stop c := by
    decide +kernel
  simp only [List.mem_cons, List.not_mem_nil, or_false, not_or] at hc
  have hs : Stop c := hstop c (by simp only [List.mem_cons, List.not_mem_nil, or_false, not_or]; simp only [hc, not_false_eq_true, and_self])
  induction fuel with
  | zero => rfl
  | succ fuel ih =>
    have h0 : c ≠ 0 := hc.1
    have hparse : parse (c :: fmt) args = .ok ({}, c :: fmt, args) := by
      rw [parse, rd_cons, except_ok_bind, if_neg hc.2.1, except_ok_bind]
      dsimp only
      rw [width, rd_cons, except_ok_bind, if_neg hs.2.2, scan_none c fmt hs, except_ok_bind]
      dsimp only
      rw [except_ok_bind]
      dsimp only
      rw [List.drop_zero, precision, rd_cons, except_ok_bind, if_neg (by simp only [hc, not_false_eq_true]), except_ok_bind]
      dsimp only
      rw [size, rd_cons, except_ok_bind]
      simp only [hc, if_false, except_ok_bind]
      rfl
    have hconv : convert pf text 0 {} (c :: fmt) args = .ok ((text, 0), c :: fmt, args) := by
      rw [convert, rd_cons, except_ok_bind]
      simp only [hc, if_false, false_or]
    rw [go, rd_cons, except_ok_bind, if_neg h0, if_neg (by simp), except_ok_bind]
    dsimp only
    rw [List.drop_zero, List.drop_zero, hparse, except_ok_bind]
    dsimp only
    rw [hconv, except_ok_bind]
    dsimp only
    rw [List.drop_zero, if_pos (Nat.le_refl _), Nat.zero_min, ih]
    rfl

theorem mapStr_no_nul (f : Byte → Byte) {t : List Byte} (ht : Text t) : mapStr f t = .error .oob := by
  induction t with
  | nil => rfl
  | cons c t ih =>
    have hc := Text.cons.1 ht
    simp only [mapStr, hc.1, if_false, ih hc.2, ne_eq, not_false_eq_true, if_true]
    rfl

/-- The change of case after `%x` goes on to the next NUL: into a block without one it leaves the block, however large `max_len` and the block are. -/
theorem C54_case_runs_on (pf : FloatPrinter) (v : BitVec 32) (fmtRest : List Byte) {text : List Byte} (ht : Text text) (maxLen : Nat)
    (h1 : (numeral true 16 v.toNat).length ≤ maxLen) (h2 : (numeral true 16 v.toNat).length ≤ text.length) :
    snprintf pf text maxLen (0x25#8 :: 0x78#8 :: 0#8 :: fmtRest) [.int v] = .error .oob := by
  have hpos : maxLen ≠ 0 := by
    obtain ⟨d, t, e⟩ := digits_cons (b := 16) (by omega) v.toNat
    rw [numeral, e] at h1
    simp at h1
    omega
  have hlit : literal (0x25#8 :: 0x78#8 :: 0#8 :: fmtRest) text = .ok (0, text) := by
    have := literal_ok (s := []) (by intro c hc; cases hc) (.inr rfl : (0x25#8 : Byte) = 0 ∨ (0x25#8 : Byte) = 0x25#8) (0x78#8 :: 0#8 :: fmtRest) text (by simp)
    simpa using this
  have hparse : parse (0x25#8 :: 0x78#8 :: 0#8 :: fmtRest) [.int v] = .ok ({}, 0x78#8 :: 0#8 :: fmtRest, [.int v]) := by
    rw [parse, rd_cons, except_ok_bind, if_pos rfl, List.drop_succ_cons, List.drop_zero, flags]
    dsimp only
    rw [if_neg (by decide), if_neg (by decide), if_neg (by decide), if_neg (by decide), if_neg (by decide), except_ok_bind]
    dsimp only
    rw [width, rd_cons, except_ok_bind, if_neg (by decide), scan_none _ _ (by decide), except_ok_bind]
    rfl
  obtain ⟨r, hr⟩ := u64_text (v.zeroExtend 64) (b := 16) (by omega) (by omega)
  have hvv : (v.zeroExtend 64).toNat = v.toNat := by
    have := v.isLt
    rw [BitVec.toNat_setWidth]
    omega
  rw [hvv] at hr
  have hnt := numeral_text true (b := 16) (by omega) (by omega) v.toNat
  have hcase : Text (numeral true 16 v.toNat ++ text.drop (numeral true 16 v.toNat).length) := by
    intro c hc
    rcases List.mem_append.1 hc with h | h
    · exact hnt c h
    · exact ht c (List.mem_of_mem_drop h)
  have hstr : printString text maxLen { ({} : Info) with base := 16, isUnsigned := true, lower := true } (some (numeral true 16 v.toNat ++ 0 :: r)) = .error .oob := by
    generalize numeral true 16 v.toNat = s at *
    rw [printString, fieldLen]
    rw [if_neg (by decide), strlen_ok hnt r, except_ok_bind, if_neg (by decide), if_pos (by decide), printLeft, if_neg (by omega), copy_prefix hnt _ text h2, except_ok_bind]
    dsimp only
    rw [if_neg (by omega), fill, except_ok_bind, List.take_append_of_le_length (Nat.le_refl _), List.take_of_length_le (Nat.le_refl _),
      List.drop_append_of_le_length (Nat.le_refl _), List.drop_of_length_le (Nat.le_refl _), List.nil_append, caseText, if_neg (by decide), if_pos rfl, strToLower,
      mapStr_no_nul _ hcase]
    rfl
  rw [snprintf, go, rd_cons, except_ok_bind, if_neg (by decide), if_pos hpos, hlit, except_ok_bind]
  dsimp only
  rw [List.drop_zero, List.drop_zero, hparse, except_ok_bind]
  have hconv : convert pf text maxLen {} (0x78#8 :: 0#8 :: fmtRest) [.int v] = .error .oob := by
    have e : convert pf text maxLen {} (0x78#8 :: 0#8 :: fmtRest) [.int v] =
      (do let (r, args) ← number text maxLen { ({} : Info) with base := 16, isUnsigned := true, lower := true } [.int v]; .ok (r, 0#8 :: fmtRest, args)) := rfl
    rw [e, number, if_pos rfl]
    have : unsignedArg { ({} : Info) with base := 16, isUnsigned := true, lower := true } [.int v] = .ok (v.zeroExtend 64, []) := rfl
    rw [this, except_ok_bind]
    dsimp only
    rw [printU64, hr, except_ok_bind, hstr]
    rfl
  dsimp only
  rw [hconv]
  rfl

/-! ### The theorems are not vacuous -/

section Examples

private def noFloat : FloatPrinter := fun _ _ _ _ => .error .ub

/-- The format `n=%5d|%-4s|%X%%` with the arguments 42, "ab", 255. -/
private def sample : Format :=
  { items := [([0x6e#8, 0x3d#8], { width := .num 5, conv := .d }), ([0x7c#8], { flags := [.minus], width := .num 4, conv := .s }), ([0x7c#8], { conv := .X }),
      ([], { conv := .percent })], last := [0x2e#8] }

private def sampleArgs : List Arg := [.int 42#32, .str (some [0x61#8, 0x62#8, 0#8, 0x7a#8]), .int 255#32]

example : sample.Valid := by
  refine ⟨?_, ?_⟩
  · intro p hp
    simp [sample] at hp
    rcases hp with rfl | rfl | rfl | rfl <;> refine ⟨?_, ?_, ?_⟩ <;> simp [Literal] <;> decide
  · intro c hc
    simp [sample] at hc
    subst hc
    decide

/-- `n=   42|ab  |FF%.` -/
example : render sample sampleArgs = some [0x6e#8, 0x3d#8, 0x20#8, 0x20#8, 0x20#8, 0x34#8, 0x32#8, 0x7c#8, 0x61#8, 0x62#8, 0x20#8, 0x20#8, 0x7c#8, 0x46#8, 0x46#8, 0x25#8, 0x2e#8] := by
  decide +kernel

/-- Into a buffer of 20 bytes with `max_len` 19; the byte at 19 is kept. -/
example : snprintf noFloat (List.replicate 19 0 ++ [0x55#8]) 19 (spell sample ++ [0]) sampleArgs =
    .ok ([0x6e#8, 0x3d#8, 0x20#8, 0x20#8, 0x20#8, 0x34#8, 0x32#8, 0x7c#8, 0x61#8, 0x62#8, 0x20#8, 0x20#8, 0x7c#8, 0x46#8, 0x46#8, 0x25#8, 0x2e#8, 0, 0, 0x55#8], 18) := by
  decide +kernel

/-- A negative width given by `*` and a precision: `%*.*s` with -4, 1, "xy". -/
example : render { items := [([], { width := .star, precision := .star, conv := .s })], last := [] } [.int (-4#32), .int 1#32, .str (some [0x78#8, 0x79#8, 0#8])] =
    some [0x78#8, 0x20#8, 0x20#8, 0x20#8] := by decide +kernel

/-- Deviations from C that the specification `layout` records: the fill of `%05d` stands before the sign, a precision cuts numbers, `%0d` prints nothing. -/
example : render { items := [([], { flags := [.zero], width := .num 5, conv := .d })], last := [] } [.int (-3#32)] = some [0x30#8, 0x30#8, 0x30#8, 0x2d#8, 0x33#8] := by
  decide +kernel
example : render { items := [([], { precision := .num 2, conv := .d })], last := [] } [.int 12345#32] = some [0x31#8, 0x32#8] := by decide +kernel
example : render { items := [([], { flags := [.zero], conv := .d })], last := [] } [.int 7#32] = some [] := by decide +kernel

/-- `%s` with "abc" and `max_len` 3 changes `text[3]`. -/
example : snprintf noFloat [0x55#8, 0x55#8, 0x55#8, 0x55#8, 0x55#8] 3 [0x25#8, 0x73#8, 0] [.str (some [0x61#8, 0x62#8, 0x63#8, 0])] =
    .ok ([0x61#8, 0x62#8, 0x63#8, 0, 0x55#8], -1) := C54_exact_text_overflows noFloat (s := [0x61#8, 0x62#8, 0x63#8]) (by unfold Text; decide) (by simp) [] [] _ (by decide)

/-- `"hello"` with `max_len` 2 writes six bytes. -/
example : snprintf noFloat (List.replicate 8 0x55#8) 2 [0x68#8, 0x65#8, 0x6c#8, 0x6c#8, 0x6f#8, 0] [] =
    .ok ([0x68#8, 0x65#8, 0x6c#8, 0x6c#8, 0x6f#8, 0, 0x55#8, 0x55#8], -1) :=
  C54_literal_overflows noFloat (s := [0x68#8, 0x65#8, 0x6c#8, 0x6c#8, 0x6f#8]) (by unfold Literal; decide) [] [] (List.replicate 8 0x55#8) 2 (by decide) (by decide)

/-- The format `!` with `max_len` 0. -/
example (fuel : Nat) : go noFloat fuel [0x21#8, 0] [] [0x55#8] 0 = .error .diverge := C54_zero_diverges noFloat fuel 0x21#8 [0] [] [0x55#8] (by decide)

/-- `%x` of 1 into a block holding `ABCDEF`, with `max_len` 3: the letters up to the NUL become small, also those outside `text[0 .. 3)`. -/
example : snprintf noFloat [0x41#8, 0x42#8, 0x43#8, 0x44#8, 0x45#8, 0x46#8, 0] 3 [0x25#8, 0x78#8, 0] [.int 1#32] = .ok ([0x31#8, 0, 0x63#8, 0x64#8, 0x65#8, 0x66#8, 0], 2) := by
  decide +kernel

example : snprintf noFloat [0x41#8, 0x42#8, 0x43#8, 0x44#8] 4 [0x25#8, 0x78#8, 0] [.int 255#32] = .error .oob :=
  C54_case_runs_on noFloat 255#32 [] (text := [0x41#8, 0x42#8, 0x43#8, 0x44#8]) (by unfold Text; decide) 4 (by decide +kernel) (by decide +kernel)

end Examples

end Zpl.Print
