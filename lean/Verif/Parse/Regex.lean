import Verif.Basic
import Verif.Str.CStr
import Verif.Str.Chars

/-!
# Regular expressions (code/source/regex.c)

The compiler writes a buffer of operations, the matcher walks over it.  Properties C51, C82 and C83.

Simplifications, everywhere below: only the bytes below `buf_len` of the buffer are kept, so reading one at or above `buf_len` is a fault here (in C it is
whatever the allocator left there); allocations succeed; offsets and operation numbers are unbounded integers (`zpl_isize` is 64 bits wide and they never
exceed the lengths of the pattern and the text); captures hold offsets from the start of the text instead of addresses.
-/

namespace Zpl.Regex
open Zpl.Str

/-- regex.h:61-70 `zpl_regex_error`. -/
inductive Err where
  | none | noMatch | tooLong | mismatchedCaptures | mismatchedBlocks | branchFailure | invalidQuantifier | internalFailure
  deriving DecidableEq, Repr

/-- regex.h:47-53 `zpl_re`: the bytes of the buffer written so far, its capacity, whether it may grow, and the number of captures. -/
structure Re where
  buf : List Byte
  cap : Nat
  canRealloc : Bool
  captures : Nat
  deriving DecidableEq, Repr

/-- regex.h:55-58 `zpl_re_capture`; `start` is an offset from the start of the text. -/
structure Cap where
  start : Int
  len : Int
  deriving DecidableEq, Repr

/-- regex.c:46-48 `zpl_re_ctx`. -/
structure Ctx where
  op : Int
  off : Int
  deriving DecidableEq, Repr

/-- Read a byte of a block at a signed index. -/
def rdI (b : List Byte) (i : Int) : Except Fault Byte := if i < 0 then .error .oob else rd b i.toNat

/-! ## The matcher -/

/-- regex.c:56 `ZPL_RE__WHITESPACE`. -/
def whitespace : List Byte := [0x20#8, 0x0d#8, 0x09#8, 0x0a#8, 0x0b#8, 0x0c#8]

/-- regex.c:55 `ZPL_RE__META_CHARS`. -/
def metaChars : List Byte :=
  [0x5e#8, 0x24#8, 0x28#8, 0x29#8, 0x5b#8, 0x5d#8, 0x2e#8, 0x2a#8, 0x2b#8, 0x3f#8, 0x7c#8, 0x5c#8]

/-- regex.c:106: the hexadecimal digits. -/
def xdigits : List Byte :=
  [0x30#8, 0x31#8, 0x32#8, 0x33#8, 0x34#8, 0x35#8, 0x36#8, 0x37#8, 0x38#8, 0x39#8, 0x41#8, 0x42#8, 0x43#8, 0x44#8, 0x45#8, 0x46#8,
   0x61#8, 0x62#8, 0x63#8, 0x64#8, 0x65#8, 0x66#8]

/-- `c >= lo && c <= hi` for characters `lo`, `hi` of the ASCII range: as `char` is signed, a byte above 127 is in no such range. -/
def within (lo hi c : Byte) : Bool := lo ≤ c && c ≤ hi

/-- regex.c:90-112 `zpl_re__match_escape`; `code` is the byte stored in the buffer, the C code shifts it left by eight.  `zpl_re__strfind` (80-88) with the
whole literal is membership. -/
def matchEscape (c code : Byte) : Bool :=
  if code = 0x00#8 then c = 0
  else if code = 0x01#8 then whitespace.contains c
  else if code = 0x02#8 then !whitespace.contains c
  else if code = 0x03#8 then within 0x30#8 0x39#8 c
  else if code = 0x04#8 then !within 0x30#8 0x39#8 c
  else if code = 0x05#8 then within 0x41#8 0x5a#8 c || within 0x61#8 0x7a#8 c
  else if code = 0x06#8 then within 0x61#8 0x7a#8 c
  else if code = 0x07#8 then within 0x41#8 0x5a#8 c
  else if code = 0x08#8 then within 0x41#8 0x5a#8 c || within 0x61#8 0x7a#8 c || within 0x30#8 0x39#8 c || c = 0x5f#8
  else if code = 0x09#8 then !(within 0x41#8 0x5a#8 c || within 0x61#8 0x7a#8 c || within 0x30#8 0x39#8 c || c = 0x5f#8)
  else if code = 0x0a#8 then xdigits.contains c
  else if code = 0x0b#8 then within 0x20#8 0x7e#8 c
  else false

/-- regex.c:210-219 and 236-245: does one of the `n` characters and codes of a set, from `i` on, match `cin`?  `none` when a pair begins at the last byte
and does not match, and `i` runs past `buffer_len`. -/
def setLoop (buf : List Byte) (op : Int) (len : Int) (cin : Byte) : Nat → Int → Except Fault (Option Int)
  | 0, _ => .error .diverge
  | n + 1, i =>
    if i < len then do
      let c ← rdI buf (op + i)
      if c = 0 then do
        let k ← rdI buf (op + (i + 1))
        if matchEscape cin k then .ok (some (i + 1)) else setLoop buf op len cin n (i + 2)
      else if cin = c then .ok (some i)
      else setLoop buf op len cin n (i + 1)
    else .ok (if i = len then none else some i)

/-- regex.c:210-222 as it decides an `ANY_OF`: a hit is any `i` other than `buffer_len` (221). -/
def anyOf (buf : List Byte) (op : Int) (len : Int) (cin : Byte) : Except Fault Bool := do
  match ← setLoop buf op len cin (len.toNat + 1) 0 with
  | none => .ok false
  | some i => .ok (i ≠ len)

/-- regex.c:236-245 as it decides an `ANY_BUT`: a hit is a return from inside the loop, that is, with `i` below `buffer_len` or a matching code. -/
def anyBut (buf : List Byte) (op : Int) (len : Int) (cin : Byte) : Nat → Int → Except Fault Bool
  | 0, _ => .error .diverge
  | n + 1, i =>
    if i < len then do
      let c ← rdI buf (op + i)
      if c = 0 then do
        let k ← rdI buf (op + (i + 1))
        if matchEscape cin k then .ok false else anyBut buf op len cin n (i + 2)
      else if cin = c then .ok false
      else anyBut buf op len cin n (i + 1)
    else .ok true

/-- regex.c:154-158. -/
def beginCapture (caps : List Cap) (n : Byte) (off : Int) : List Cap := caps.modify n.toNat fun c => { c with start := off }

/-- regex.c:160-164. -/
def endCapture (caps : List Cap) (n : Byte) (off : Int) : List Cap := caps.modify n.toNat fun c => { c with len := off - c.start }

/-- regex.c:62-67 `zpl_re__ctx_no_match`. -/
def noMatch (op : Int) : Ctx := ⟨op, -1⟩

/-- regex.c:251-260 `EXACT_MATCH`; `op` is behind the operation byte.  A negative length compares nothing. -/
def exact (buf block : List Byte) (len : Int) (op off : Int) : Except Fault Ctx := do
  let n := (← rdI buf op).toInt
  if n > len - off then .ok (noMatch (op + 1 + n))
  else if n ≤ 0 then .ok ⟨op + 1 + n, off + n⟩
  else if off < 0 then .error .oob
  else do
    let r ← strncmp true (block.drop off.toNat) (buf.drop (op + 1).toNat) n.toNat
    if r ≠ 0 then .ok (noMatch (op + 1 + n)) else .ok ⟨op + 1 + n, off + n⟩

/-- regex.c:262-273 `META_MATCH`. -/
def metaMatch (buf block : List Byte) (op off : Int) : Except Fault Ctx := do
  let cin ← rdI buf op
  let cmatch ← rdI block off
  if cin = 0 then do
    let k ← rdI buf (op + 1)
    if matchEscape cmatch k then .ok ⟨op + 2, off + 1⟩ else .ok (noMatch (op + 2))
  else if cin = cmatch then .ok ⟨op + 1, off + 1⟩
  else .ok (noMatch (op + 1))

/-- regex.c:202-226 `ANY_OF` and 228-249 `ANY_BUT`. -/
def setMatch (neg : Bool) (buf block : List Byte) (len : Int) (op off : Int) : Except Fault Ctx := do
  let cin ← rdI block off
  let n := (← rdI buf op).toInt
  if off ≥ len then .ok (noMatch (op + 1 + n))
  else do
    let hit ← if neg then anyBut buf (op + 1) n cin (n.toNat + 1) 0 else anyOf buf (op + 1) n cin
    if hit then .ok ⟨op + 1 + n, off + 1⟩ else .ok (noMatch (op + 1 + n))

/-- regex.c:154-174, 189-273: the operations that do not call the matcher again.  `op` is behind the operation byte `code`; `none` for the other codes. -/
def simple (buf block : List Byte) (len : Int) (code : Byte) (op off : Int) (caps : List Cap) : Except Fault (Option (Ctx × List Cap)) :=
  if code = 0x00#8 then do .ok (some (⟨op + 1, off⟩, beginCapture caps (← rdI buf op) off))
  else if code = 0x01#8 then do .ok (some (⟨op + 1, off⟩, endCapture caps (← rdI buf op) off))
  else if code = 0x02#8 then .ok (some (if off ≠ 0 then noMatch op else ⟨op, off⟩, caps))
  else if code = 0x03#8 then .ok (some (if off ≠ len then noMatch op else ⟨op, off⟩, caps))
  else if code = 0x04#8 then do .ok (some (← exact buf block len op off, caps))
  else if code = 0x05#8 then do .ok (some (← metaMatch buf block op off, caps))
  else if code = 0x06#8 then .ok (some (if off < len then ⟨op, off + 1⟩ else noMatch op, caps))
  else if code = 0x07#8 then do .ok (some (← setMatch false buf block len op off, caps))
  else if code = 0x08#8 then do .ok (some (← setMatch true buf block len op off, caps))
  else if code = 0x0f#8 then do .ok (some (⟨op + 1 + (← rdI buf op).toInt, off⟩, caps))
  else .ok none

mutual

/-- regex.c:146-342 `zpl_re__exec_single`.  `caps` has `max_capture_count` cells; the empty list also stands for a null `captures`. -/
def single (buf block : List Byte) (len : Int) : Nat → Int → Int → List Cap → Except Fault (Ctx × List Cap)
  | 0, _, _, _ => .error .diverge
  | n + 1, op, off, caps => do
    let code ← rdI buf op
    match ← simple buf block len code (op + 1) off caps with
    | some r => .ok r
    | none =>
      if code = 0x09#8 then consume buf block len true n (op + 1) off ⟨-1, off⟩ caps
      else if code = 0x0b#8 then consume buf block len false n (op + 1) off ⟨-1, off⟩ caps
      else if code = 0x0a#8 ∨ code = 0x0c#8 then do
        let (c, caps) ← single buf block len n (op + 1) off caps
        if c.off > len then .ok (c, caps)
        else consume buf block len (code = 0x0a#8) n (op + 1) off ⟨-1, off⟩ caps
      else if code = 0x0d#8 then do
        let (c, caps) ← single buf block len n (op + 1) off caps
        if c.off ≤ len then do
          let (p, caps) ← exec buf block len n c.op c.off caps
          if p.off ≤ len then .ok (p, caps)
          else do
            let (d, caps) ← exec buf block len n c.op off caps
            if d.off ≤ len then .ok (d, caps) else .ok (noMatch (op + 1), caps)
        else do
          let (d, caps) ← exec buf block len n c.op off caps
          if d.off ≤ len then .ok (d, caps) else .ok (noMatch (op + 1), caps)
      else if code = 0x0e#8 then do
        let skip := (← rdI buf (op + 1)).toInt
        let (c, caps) ← exec buf block len n (op + 2) off caps
        if c.off ≤ len then .ok (c, caps)
        else exec buf block len n (op + 2 + skip) off caps
      else .ok (⟨op + 1, -2⟩, caps)

/-- regex.c:344-357 `zpl_re__exec`. -/
def exec (buf block : List Byte) (len : Int) : Nat → Int → Int → List Cap → Except Fault (Ctx × List Cap)
  | 0, _, _, _ => .error .diverge
  | n + 1, op, off, caps =>
    if op < buf.length then do
      let (c, caps) ← single buf block len n op off caps
      if c.off > len ∨ c.off = -1 then .ok (c, caps) else exec buf block len n c.op c.off caps
    else .ok (⟨op, off⟩, caps)

/-- regex.c:114-144 `zpl_re__consume`, from a round of its loop on: `off` is `c.offset`.  The second `zpl_re__exec` (132) is skipped in C for null
`captures`, where it has no effect. -/
def consume (buf block : List Byte) (len : Int) (greedy : Bool) : Nat → Int → Int → Ctx → List Cap → Except Fault (Ctx × List Cap)
  | 0, _, _, _, _ => .error .diverge
  | n + 1, op, off, best, caps => do
    let (c, _) ← single buf block len n op off []
    if c.off > len ∨ c.off = -1 then .ok (best, caps)
    else if c.op ≥ buf.length then .ok (c, caps)
    else do
      let (next, caps) ← exec buf block len n c.op c.off caps
      if next.off ≤ len then do
        let (_, caps) ← exec buf block len n c.op c.off caps
        if !greedy then .ok (next, caps)
        else consume buf block len greedy n op c.off (if next.op > buf.length then { next with op := c.op } else next) caps
      else consume buf block len greedy n op c.off (if best.op > buf.length then { best with op := c.op } else best) caps

end

/-- regex.c:722-727: the attempts from `i` on, `k` of them. -/
def matchLoop (re : Re) (block : List Byte) (len : Nat) (fuel : Nat) : Nat → Nat → List Cap → Except Fault (Bool × List Cap × Option Int)
  | 0, _, caps => .ok (false, caps, none)
  | k + 1, i, caps => do
    let (c, caps) ← exec re.buf block len fuel 0 i caps
    if c.off ≥ 0 ∧ c.off ≤ len then .ok (true, caps, some c.off)
    else if c.off = -2 then .ok (false, caps, none)
    else matchLoop re block len fuel k (i + 1) caps

/-- regex.c:715-732 `zpl_re_match` over the `len` characters at `block`: the result, the captures and, if it was set, `*offset`. -/
def reMatch (re : Re) (block : List Byte) (len : Nat) (fuel : Nat) (caps : List Cap) : Except Fault (Bool × List Cap × Option Int) :=
  if re.buf.length > 0 then do
    if (← rd re.buf 0) = 0x02#8 then do
      let (c, caps) ← exec re.buf block len fuel 0 0 caps
      if c.off ≥ 0 ∧ c.off ≤ len then .ok (true, caps, some c.off) else .ok (false, caps, none)
    else matchLoop re block len fuel len 0 caps
  else .ok (true, caps, none)

/-! ## The compiler -/

/-- What a step of the compiler comes to: a value, or an error; the buffer may have grown in both cases. -/
inductive Res (α : Type) where
  | ok (a : α) (re : Re)
  | err (e : Err) (re : Re)
  deriving DecidableEq, Repr

/-- regex.c:374-380: the values go to the buffer one by one; one above 256 ends it. -/
def emitLoop : List Int → Re → Res Unit
  | [], re => .ok () re
  | v :: vs, re => if v > 256 then .err .tooLong re else emitLoop vs { re with buf := re.buf ++ [BitVec.ofInt 8 v] }

/-- regex.c:362-371 and 387-396: make room for `n` bytes; `none` when the buffer may not grow. -/
def room (n : Nat) (re : Re) : Option Re :=
  if re.buf.length + n > re.cap then
    if re.canRealloc then some { re with cap := re.cap * 2 + n } else none
  else some re

/-- regex.c:359-384 `zpl_re__emit_ops`. -/
def emitOps (vs : List Int) (re : Re) : Res Unit :=
  match room vs.length re with
  | some re => emitLoop vs re
  | none => .err .tooLong re

/-- regex.c:386-404 `zpl_re__emit_ops_buffer`. -/
def emitBuffer (bs : List Byte) (re : Re) : Res Unit :=
  match room bs.length re with
  | some re => .ok () { re with buf := re.buf ++ bs }
  | none => .err .tooLong re

/-- regex.c:406-436 `zpl_re__encode_escape`; other characters stand for themselves, as signed values. -/
def encodeEscape (c : Byte) : Int :=
  if c = 0x74#8 then 9
  else if c = 0x6e#8 then 10
  else if c = 0x72#8 then 13
  else if c = 0x66#8 then 12
  else if c = 0x76#8 then 11
  else if c = 0x30#8 then 0
  else if c = 0x73#8 then 0x100
  else if c = 0x53#8 then 0x200
  else if c = 0x64#8 then 0x300
  else if c = 0x44#8 then 0x400
  else if c = 0x61#8 then 0x500
  else if c = 0x6c#8 then 0x600
  else if c = 0x75#8 then 0x700
  else if c = 0x77#8 then 0x800
  else if c = 0x57#8 then 0x900
  else if c = 0x78#8 then 0xa00
  else if c = 0x70#8 then 0xb00
  else c.toInt

/-- regex.c:478-488 and 647-653: the bytes that stand for an escaped character, a zero and a code, or the character. -/
def codeBytes (code : Int) : List Byte :=
  if code = 0 ∨ code > 0xff then [0, BitVec.ofInt 8 (code / 256)] else [BitVec.ofInt 8 code]

/-- regex.c:76-78 `zpl_re__hex`. -/
def hexByte (h l : Byte) : Byte := ((Chars.charToHexDigit h <<< 4) &&& 0xf0#8) ||| (Chars.charToHexDigit l &&& 0x0f#8)

/-- regex.c:468-495: one item of a set at `offset`: the bytes it adds, and the next offset. -/
def groupItem (pat : List Byte) (len offset : Nat) : Except Fault (List Byte × Nat) := do
  let c ← rd pat offset
  if c = 0x5c#8 then
    if offset + 1 < len then do
      let e ← rd pat (offset + 1)
      if offset + 2 < len ∧ Chars.isHexDigit e = true then do
        let l ← rd pat (offset + 2)
        .ok ([hexByte e l], offset + 3)
      else .ok (codeBytes (encodeEscape e), offset + 2)
    else .ok ([], offset + 2)
  else .ok ([c], offset + 1)

/-- What the loop over a set comes to. -/
inductive Group where
  | closed (buffer : List Byte) (offset : Nat)
  | tooLong
  | unclosed
  deriving DecidableEq, Repr

/-- regex.c:450-496: the loop of `zpl_re__parse_group` over its buffer of 256 bytes. -/
def groupLoop (pat : List Byte) (len : Nat) : Nat → Nat → List Byte → Except Fault Group
  | 0, _, _ => .error .diverge
  | n + 1, offset, buffer =>
    if offset < len then do
      if (← rd pat offset) = 0x5d#8 then .ok (.closed buffer (offset + 1))
      else if buffer.length ≥ 256 then .ok .tooLong
      else do
        let (bs, offset) ← groupItem pat len offset
        if buffer.length + bs.length > 256 then .ok .tooLong else groupLoop pat len n offset (buffer ++ bs)
    else .ok .unclosed

/-- regex.c:454-463, 498-501: the operations of a set that is closed. -/
def emitGroup (op : Int) (buffer : List Byte) (offset : Nat) (re : Re) : Res Nat :=
  match emitOps [op, buffer.length] re with
  | .err e re => .err e re
  | .ok _ re =>
    match emitBuffer buffer re with
    | .err e re => .err e re
    | .ok _ re => .ok offset re

/-- regex.c:438-502 `zpl_re__parse_group`; the value is `*new_offset`. -/
def parseGroup (pat : List Byte) (len offset : Nat) (re : Re) : Except Fault (Res Nat) := do
  let c ← rd pat offset
  let neg : Bool := c = 0x5e#8
  let offset := if neg then offset + 1 else offset
  match ← groupLoop pat len (len + 1) offset [] with
  | .tooLong => .ok (.err .tooLong re)
  | .unclosed => .ok (.err .mismatchedBlocks re)
  | .closed buffer offset => .ok (emitGroup (if neg then 8 else 7) buffer offset re)

/-- regex.c:508-509: is the quantified operation a run of several characters?  `char` is signed. -/
def splits (last : Nat) (re : Re) : Except Fault Bool := do
  let c ← rd re.buf last
  if c = 0x04#8 then do .ok (decide ((← rd re.buf (last + 1)).toInt > 1)) else .ok false

/-- regex.c:617-620: does a `?` follow at `offset`? -/
def lazyMark (pat : List Byte) (len offset : Nat) : Except Fault Bool :=
  if offset < len then do .ok (decide ((← rd pat offset) = 0x3f#8)) else .ok false

/-- regex.c:504-529 `zpl_re__compile_quantifier`.  The `memmove` (525) moves `move_size` bytes from `last` to `last + 1`: one more than there are, so
the last one it writes lies behind the operations and has to lie inside the capacity. -/
def compileQuantifier (last : Nat) (q : Byte) (re : Re) : Except Fault (Res Unit) := do
  if ← splits last re then do
    let n ← rd re.buf (last + 1)
    let lastChar ← rd re.buf (re.buf.length - 1)
    .ok (emitOps [q.toNat, 4, 1, lastChar.toNat] { re with buf := (re.buf.set (last + 1) (n - 1#8)).dropLast })
  else
    let moveSize := re.buf.length - last + 1
    match emitOps [0] re with
    | .err e re => .ok (.err e re)
    | .ok _ re' =>
      if last + 1 + moveSize > re'.cap then .error .oob
      else .ok (.ok () { re' with buf := re.buf.take last ++ q :: re.buf.drop last })

/-- regex.c:611-615, 627-631: is there something a quantifier can be put on?  `char` is signed. -/
def quantifiable (re : Re) (last : Nat) : Except Fault Bool :=
  if last ≥ re.buf.length then .ok false
  else do
    let c := (← rd re.buf last).toInt
    .ok (¬ (c < 4 ∨ c > 8))

/-- regex.c:663-666: the length of the run of ordinary characters at `offset`. -/
def runLength (pat : List Byte) (len : Nat) : Nat → Nat → Except Fault Nat
  | 0, _ => .error .diverge
  | n + 1, offset =>
    if offset < len then do
      if metaChars.contains (← rd pat offset) then .ok 0 else do .ok ((← runLength pat len n (offset + 1)) + 1)
    else .ok 0

/-- regex.c:658-673: a run of ordinary characters; the value is its length. -/
def literal (pat : List Byte) (len offset : Nat) (re : Re) : Except Fault (Res Nat) := do
  let size ← runLength pat len (len + 1) offset
  match emitOps [4, size] re with
  | .err e re => .ok (.err e re)
  | .ok _ re =>
    match emitBuffer ((pat.drop offset).take size) re with
    | .err e re => .ok (.err e re)
    | .ok _ re => .ok (.ok size re)

/-- regex.c:638-655: an escape whose backslash is in front of `offset`; the value is the next offset. -/
def escape (pat : List Byte) (len offset : Nat) (re : Re) : Except Fault (Res Nat) :=
  if offset < len then do
    let e ← rd pat offset
    if offset + 1 < len ∧ Chars.isHexDigit e = true then do
      let l ← rd pat (offset + 1)
      match emitOps [5, (hexByte e l).toNat] re with
      | .err e re => .ok (.err e re)
      | .ok _ re => .ok (.ok (offset + 2) re)
    else
      match emitOps (5 :: (codeBytes (encodeEscape e)).map fun b => (b.toNat : Int)) re with
      | .err e re => .ok (.err e re)
      | .ok _ re => .ok (.ok (offset + 1) re)
  else .ok (.ok offset re)

/-- regex.c:583-596: a branch. -/
def branch (begin_ : Nat) (re : Re) : Res Unit :=
  if begin_ ≥ re.buf.length then .err .branchFailure re
  else
    let size := re.buf.length - begin_
    match emitOps [0, 0, 15, 0] re with
    | .err e re => .err e re
    | .ok _ re' => .ok () { re' with buf := re.buf.take begin_ ++ [14#8, BitVec.ofNat 8 (size + 2)] ++ re.buf.drop begin_ ++ [15#8, 0#8] }

/-- regex.c:564-573: at a `)`, tell the last branch of this level where it ends. -/
def closeBranch (branchOp : Option Nat) (re : Re) : Re :=
  match branchOp with
  | none => re
  | some b => { re with buf := re.buf.set (b + 1) (BitVec.ofNat 8 (re.buf.length - (b + 2))) }

/-- regex.c:531-679 `zpl_re__parse`, from a round of its loop on; the value is `*new_offset`. -/
def parse (pat : List Byte) (len : Nat) : Nat → Re → Nat → Nat → Option Nat → Nat → Nat → Except Fault (Res Nat)
  | 0, _, _, _, _, _, _ => .error .diverge
  | n + 1, re, last, begin_, branchOp, offset, level =>
    if offset < len then do
      let c ← rd pat offset
      if c = 0x5e#8 then
        match emitOps [2] re with
        | .err e re => .ok (.err e re)
        | .ok _ re => parse pat len n re last begin_ branchOp (offset + 1) level
      else if c = 0x24#8 then
        match emitOps [3] re with
        | .err e re => .ok (.err e re)
        | .ok _ re => parse pat len n re last begin_ branchOp (offset + 1) level
      else if c = 0x28#8 then
        match emitOps [0, re.captures] { re with captures := re.captures + 1 } with
        | .err e re => .ok (.err e re)
        | .ok _ re' => do
          let (re', offset) := match ← parse pat len n re' re'.buf.length re'.buf.length none (offset + 1) (level + 1) with
            | .ok o re => (re, o)
            | .err _ re => (re, offset + 1)
          if offset > len then .ok (.err .mismatchedCaptures re')
          else do
            if (← rd pat (offset - 1)) ≠ 0x29#8 then .ok (.err .mismatchedCaptures re')
            else
              match emitOps [1, re.captures] re' with
              | .err e re => .ok (.err e re)
              | .ok _ re' => parse pat len n re' re.buf.length begin_ branchOp offset level
      else if c = 0x29#8 then
        let re := closeBranch branchOp re
        if level = 0 then .ok (.err .mismatchedCaptures re) else .ok (.ok (offset + 1) re)
      else if c = 0x5b#8 then do
        match ← parseGroup pat len (offset + 1) re with
        | .ok o re' => if o > len then .ok (.ok o re') else parse pat len n re' re.buf.length begin_ branchOp o level
        | .err _ re' => parse pat len n re' re.buf.length begin_ branchOp (offset + 1) level
      else if c = 0x7c#8 then
        match branch begin_ re with
        | .err e re => .ok (.err e re)
        | .ok _ re => parse pat len n re last begin_ (some (re.buf.length - 2)) (offset + 1) level
      else if c = 0x2e#8 then
        match emitOps [6] re with
        | .err e re => .ok (.err e re)
        | .ok _ re' => parse pat len n re' re.buf.length begin_ branchOp (offset + 1) level
      else if c = 0x2a#8 ∨ c = 0x2b#8 then do
        if ← quantifiable re last then do
          let lazy ← lazyMark pat len (offset + 1)
          let q := if lazy then 12#8 else if c = 0x2a#8 then 9#8 else 10#8
          match ← compileQuantifier last q re with
          | .err e re => .ok (.err e re)
          | .ok _ re => parse pat len n re last begin_ branchOp (if lazy then offset + 2 else offset + 1) level
        else .ok (.err .invalidQuantifier re)
      else if c = 0x3f#8 then do
        if ← quantifiable re last then do
          match ← compileQuantifier last 13#8 re with
          | .err e re => .ok (.err e re)
          | .ok _ re => parse pat len n re last begin_ branchOp (offset + 1) level
        else .ok (.err .invalidQuantifier re)
      else if c = 0x5c#8 then do
        match ← escape pat len (offset + 1) re with
        | .err e re => .ok (.err e re)
        | .ok o re' => parse pat len n re' re.buf.length begin_ branchOp o level
      else do
        match ← literal pat len offset re with
        | .err e re => .ok (.err e re)
        | .ok size re' => parse pat len n re' re.buf.length begin_ branchOp (offset + size) level
    else .ok (.ok offset re)

/-- regex.c:693-711 `zpl_re_compile` of the `len` characters at `pat`: the error, the expression, and whether its buffer was given back. -/
def compile (pat : List Byte) (len : Nat) : Except Fault (Err × Re × Bool) := do
  match ← parse pat len (len + 1) { buf := [], cap := len + 128, canRealloc := true, captures := 0 } 0 0 none 0 0 with
  | .ok o re => .ok (.none, re, o ≠ len)
  | .err e re => .ok (e, re, 0 ≠ len)

/-- regex.c:681-691 `zpl_re_compile_from_buffer`: the capacity is taken from `buf_len`, which is zero, instead of `buffer_len`. -/
def compileFromBuffer (pat : List Byte) (len : Nat) (_bufferLen : Nat) : Except Fault (Err × Re) := do
  match ← parse pat len (len + 1) { buf := [], cap := 0, canRealloc := false, captures := 0 } 0 0 none 0 0 with
  | .ok _ re => .ok (.none, re)
  | .err e re => .ok (e, re)

/-! ## Specification: patterns without alternatives -/

/-- The characters `lo` to `hi`. -/
def range (lo hi : Nat) (ch : Byte) : Bool := lo ≤ ch.toNat && ch.toNat ≤ hi

/-- The characters the escape `\e` stands for (regex.h:24-41); `e` is no hexadecimal digit. -/
def escHas (e ch : Byte) : Bool :=
  match e.toNat with
  | 115 => ch.toNat == 32 || range 9 13 ch                                                   -- \s
  | 83 => !(ch.toNat == 32 || range 9 13 ch)                                                 -- \S
  | 108 => range 97 122 ch                                                                   -- \l
  | 117 => range 65 90 ch                                                                    -- \u
  | 119 => range 65 90 ch || range 97 122 ch || range 48 57 ch || ch.toNat == 95             -- \w
  | 87 => !(range 65 90 ch || range 97 122 ch || range 48 57 ch || ch.toNat == 95)           -- \W
  | 120 => range 48 57 ch || range 65 70 ch || range 97 102 ch                               -- \x
  | 112 => range 32 126 ch                                                                   -- \p
  | 116 => ch.toNat == 9                                                                     -- \t
  | 110 => ch.toNat == 10                                                                    -- \n
  | 114 => ch.toNat == 13                                                                    -- \r
  | 118 => ch.toNat == 11                                                                    -- \v
  | k => ch.toNat == k

/-- One item between the brackets of a set. -/
inductive Item where
  /-- a character -/
  | chr (c : Byte)
  /-- `\e` -/
  | esc (e : Byte)
  /-- `\hl` -/
  | hex (h l : Byte)
  deriving DecidableEq, Repr

/-- The characters an item stands for. -/
def Item.has : Item → Byte → Bool
  | .chr c, ch => ch = c
  | .esc e, ch => escHas e ch
  | .hex h l, ch => ch.toNat = 16 * (h.toNat - 48) + (l.toNat - 48)

/-- An item as it is written. -/
def Item.spell : Item → List Byte
  | .chr c => [c]
  | .esc e => [0x5c#8, e]
  | .hex h l => [0x5c#8, h, l]

/-- What stands for one character of the text. -/
inductive Cls where
  /-- a character, under a quantifier -/
  | chr (c : Byte)
  /-- `.` -/
  | any
  /-- `\e` -/
  | esc (e : Byte)
  /-- `\hl` -/
  | hex (h l : Byte)
  /-- `[...]` or `[^...]` -/
  | set (neg : Bool) (items : List Item)
  deriving DecidableEq, Repr

/-- The characters a class stands for. -/
def Cls.has : Cls → Byte → Bool
  | .chr c, ch => ch = c
  | .any, _ => true
  | .esc e, ch => escHas e ch
  | .hex h l, ch => ch.toNat = 16 * (h.toNat - 48) + (l.toNat - 48)
  | .set neg items, ch => xor neg (items.any fun i => i.has ch)

/-- A class as it is written. -/
def Cls.spell : Cls → List Byte
  | .chr c => [c]
  | .any => [0x2e#8]
  | .esc e => [0x5c#8, e]
  | .hex h l => [0x5c#8, h, l]
  | .set neg items => 0x5b#8 :: (if neg then [0x5e#8] else []) ++ items.flatMap Item.spell ++ [0x5d#8]

/-- A pattern: a sequence of these. -/
inductive Pat where
  | nil
  /-- a run of ordinary characters -/
  | lit (s : List Byte) (p : Pat)
  /-- one character of a class -/
  | one (c : Cls) (p : Pat)
  /-- `c+` -/
  | plus (c : Cls) (p : Pat)
  /-- `^` -/
  | bol (p : Pat)
  /-- `$` -/
  | eol (p : Pat)
  /-- `(q)` -/
  | group (q p : Pat)
  deriving DecidableEq, Repr

/-- A pattern as it is written. -/
def Pat.spell : Pat → List Byte
  | .nil => []
  | .lit s p => s ++ p.spell
  | .one c p => c.spell ++ p.spell
  | .plus c p => c.spell ++ 0x2b#8 :: p.spell
  | .bol p => 0x5e#8 :: p.spell
  | .eol p => 0x24#8 :: p.spell
  | .group q p => 0x28#8 :: q.spell ++ 0x29#8 :: p.spell

/-- The number of parenthesised groups. -/
def Pat.groups : Pat → Nat
  | .nil => 0
  | .lit _ p | .one _ p | .plus _ p | .bol p | .eol p => p.groups
  | .group q p => 1 + q.groups + p.groups

/-- The pattern matches `text` from `i` to `j`, and its groups, numbered in the order of their opening parentheses, hold `cs` (start, length).  `c+` takes as
many characters as there are, and at least one. -/
inductive Matches (text : List Byte) : Pat → Nat → Nat → List (Nat × Nat) → Prop
  | nil {i} : Matches text .nil i i []
  | lit {s p i j cs} (h : s <+: text.drop i) (hp : Matches text p (i + s.length) j cs) : Matches text (.lit s p) i j cs
  | one {c p i j cs ch} (h : text[i]? = some ch) (hc : c.has ch = true) (hp : Matches text p (i + 1) j cs) : Matches text (.one c p) i j cs
  | plus {c p i k j cs} (hk : i < k) (h : ∀ m, i ≤ m → m < k → ∃ ch, text[m]? = some ch ∧ c.has ch = true)
      (hmax : ∀ ch, text[k]? = some ch → c.has ch = false) (hp : Matches text p k j cs) : Matches text (.plus c p) i j cs
  | bol {p j cs} (hp : Matches text p 0 j cs) : Matches text (.bol p) 0 j cs
  | eol {p j cs} (hp : Matches text p text.length j cs) : Matches text (.eol p) text.length j cs
  | group {q p i k j cs ds} (hq : Matches text q i k cs) (hp : Matches text p k j ds) :
      Matches text (.group q p) i j ((i, k - i) :: cs ++ ds)

/-- An attempt to match at `i` ends at something that is not there, and no `c+` on the way to it lacks its first character. -/
inductive Fails (text : List Byte) : Pat → Nat → Prop
  | lit {s p i} (h : ¬ s <+: text.drop i) : Fails text (.lit s p) i
  | litNext {s p i} (h : s <+: text.drop i) (hp : Fails text p (i + s.length)) : Fails text (.lit s p) i
  | one {c p i} (h : ∀ ch, text[i]? = some ch → c.has ch = false) : Fails text (.one c p) i
  | oneNext {c p i ch} (h : text[i]? = some ch) (hc : c.has ch = true) (hp : Fails text p (i + 1)) : Fails text (.one c p) i
  | plusNext {c p i k} (hk : i < k) (h : ∀ m, i ≤ m → m < k → ∃ ch, text[m]? = some ch ∧ c.has ch = true)
      (hmax : ∀ ch, text[k]? = some ch → c.has ch = false) (hp : Fails text p k) : Fails text (.plus c p) i
  | bol {p i} (h : i ≠ 0) : Fails text (.bol p) i
  | bolNext {p} (hp : Fails text p 0) : Fails text (.bol p) 0
  | eol {p i} (h : i ≠ text.length) : Fails text (.eol p) i
  | eolNext {p} (hp : Fails text p text.length) : Fails text (.eol p) text.length
  | groupIn {q p i} (hq : Fails text q i) : Fails text (.group q p) i
  | groupNext {q p i k cs} (hq : Matches text q i k cs) (hp : Fails text p k) : Fails text (.group q p) i

/-! ## The operations a pattern is compiled to -/

/-- The bytes an item of a set is compiled to. -/
def Item.bytes : Item → List Byte
  | .chr c => [c]
  | .esc e => codeBytes (encodeEscape e)
  | .hex h l => [hexByte h l]

/-- The bytes a class is compiled to. -/
def Cls.ops : Cls → List Byte
  | .chr c => [4, 1, c]
  | .any => [6]
  | .esc e => 5 :: codeBytes (encodeEscape e)
  | .hex h l => [5, hexByte h l]
  | .set neg items => (if neg then 8 else 7) :: BitVec.ofNat 8 (items.flatMap Item.bytes).length :: items.flatMap Item.bytes

/-- A pattern as a list: the parentheses are instructions of their own. -/
inductive Instr where
  | beg (n : Nat) | fin (n : Nat) | bol | eol | lit (s : List Byte) | one (c : Cls) | plus (c : Cls)
  deriving DecidableEq, Repr

/-- The bytes an instruction is compiled to. -/
def Instr.ops : Instr → List Byte
  | .beg n => [0, BitVec.ofNat 8 n]
  | .fin n => [1, BitVec.ofNat 8 n]
  | .bol => [2]
  | .eol => [3]
  | .lit s => 4 :: BitVec.ofNat 8 s.length :: s
  | .one c => c.ops
  | .plus c => 10 :: c.ops

/-- The instructions of a pattern whose first group has number `n`. -/
def Pat.flat : Pat → Nat → List Instr
  | .nil, _ => []
  | .lit s p, n => .lit s :: p.flat n
  | .one c p, n => .one c :: p.flat n
  | .plus c p, n => .plus c :: p.flat n
  | .bol p, n => .bol :: p.flat n
  | .eol p, n => .eol :: p.flat n
  | .group q p, n => .beg n :: q.flat (n + 1) ++ .fin n :: p.flat (n + 1 + q.groups)

/-- The bytes of a list of instructions. -/
def opsOf (is : List Instr) : List Byte := is.flatMap Instr.ops

/-! ## Which patterns -/

/-- Nothing but ordinary characters. -/
def Ordinary (s : List Byte) : Prop := ∀ c ∈ s, c ≠ 0 ∧ c ∉ metaChars

/-- An item that is read as it is written.  Two hexadecimal digits have to be decimal ones, and not both zero. -/
def Item.Ok : Item → Prop
  | .chr c => c ≠ 0 ∧ c ≠ 0x5c#8 ∧ c ≠ 0x5d#8
  | .esc e => e ≠ 0 ∧ Chars.isHexDigit e = false
  | .hex h l => Chars.isDigit h = true ∧ Chars.isDigit l = true ∧ ¬ (h = 0x30#8 ∧ l = 0x30#8)

/-- A class that is read as it is written.  A `^` in front has a meaning of its own; the set takes at most 127 bytes, two for some escapes. -/
def Cls.Ok : Cls → Prop
  | .chr c => c ≠ 0 ∧ c ∉ metaChars
  | .any => True
  | .esc e => e ≠ 0 ∧ Chars.isHexDigit e = false
  | .hex h l => Chars.isDigit h = true ∧ Chars.isDigit l = true ∧ ¬ (h = 0x30#8 ∧ l = 0x30#8)
  | .set neg items => (∀ i ∈ items, i.Ok) ∧ (neg = false → items.head? ≠ some (.chr 0x5e#8)) ∧ items.length ≤ 63

/-! ## Lemmas: classes -/

theorem esc_cases {e : Byte} (h0 : e ≠ 0) (hx : Chars.isHexDigit e = false) :
    (∃ k, codeBytes (encodeEscape e) = [0, k] ∧ ∀ ch, matchEscape ch k = escHas e ch) ∨
      (∃ b, codeBytes (encodeEscape e) = [b] ∧ b ≠ 0 ∧ ∀ ch, (ch = b ↔ escHas e ch = true)) := by
  by_cases h : e ∈ [0x73#8, 0x53#8, 0x6c#8, 0x75#8, 0x77#8, 0x57#8, 0x78#8, 0x70#8]
  · refine Or.inl ?_
    simp only [List.mem_cons, List.not_mem_nil, or_false] at h
    rcases h with h | h | h | h | h | h | h | h <;> subst h
    · exact ⟨1, by decide, by decide⟩
    · exact ⟨2, by decide, by decide⟩
    · exact ⟨6, by decide, by decide⟩
    · exact ⟨7, by decide, by decide⟩
    · exact ⟨8, by decide, by decide⟩
    · exact ⟨9, by decide, by decide⟩
    · exact ⟨10, by decide, by decide⟩
    · exact ⟨11, by decide, by decide⟩
  · refine Or.inr ?_
    by_cases h' : e ∈ [0x74#8, 0x6e#8, 0x72#8, 0x76#8]
    · simp only [List.mem_cons, List.not_mem_nil, or_false] at h'
      rcases h' with h' | h' | h' | h' <;> subst h'
      · exact ⟨9, by decide, by decide, by decide⟩
      · exact ⟨10, by decide, by decide, by decide⟩
      · exact ⟨13, by decide, by decide, by decide⟩
      · exact ⟨11, by decide, by decide, by decide⟩
    · refine ⟨e, ?_, h0, ?_⟩
      · revert e; decide
      · intro ch
        have hn : ∀ k : Nat, k < 256 → BitVec.ofNat 8 k ∈ [0x73#8, 0x53#8, 0x6c#8, 0x75#8, 0x77#8, 0x57#8, 0x78#8, 0x70#8, 0x74#8, 0x6e#8, 0x72#8, 0x76#8] →
            e.toNat ≠ k := by
          intro k hk hm he
          have : e = BitVec.ofNat 8 k := by apply BitVec.eq_of_toNat_eq; simp; omega
          rw [this] at h h'
          simp only [List.mem_cons, List.not_mem_nil, or_false] at h h' hm
          rcases hm with hm | hm | hm | hm | hm | hm | hm | hm | hm | hm | hm | hm <;> simp [hm] at h h'
        have : escHas e ch = (ch.toNat == e.toNat) := by
          unfold escHas
          split
          all_goals first
            | rfl
            | (rename_i hk; exact absurd hk (hn _ (by decide) (by decide)))
        rw [this, beq_iff_eq]
        exact ⟨fun h => h ▸ rfl, fun h => BitVec.eq_of_toNat_eq h⟩

theorem hexByte_toNat {h l : Byte} (hh : Chars.isDigit h = true) (hl : Chars.isDigit l = true) :
    (hexByte h l).toNat = 16 * (h.toNat - 48) + (l.toNat - 48) := by
  have key : ∀ a b : Fin 10, (hexByte (BitVec.ofNat 8 (48 + a.val)) (BitVec.ofNat 8 (48 + b.val))).toNat = 16 * a.val + b.val := by decide
  have d : ∀ c : Byte, Chars.isDigit c = true → ∃ a : Fin 10, c = BitVec.ofNat 8 (48 + a.val) := by decide
  obtain ⟨a, ha⟩ := d h hh
  obtain ⟨b, hb⟩ := d l hl
  rw [ha, hb, key a b]
  simp only [BitVec.toNat_ofNat]
  omega

theorem hexByte_ne_zero {h l : Byte} (hh : Chars.isDigit h = true) (hl : Chars.isDigit l = true) (hz : ¬ (h = 0x30#8 ∧ l = 0x30#8)) :
    hexByte h l ≠ 0 := by
  intro e
  have := hexByte_toNat hh hl
  rw [e] at this
  apply hz
  have d : ∀ c : Byte, Chars.isDigit c = true → 48 ≤ c.toNat := by decide
  have := d h hh
  have := d l hl
  constructor <;> apply BitVec.eq_of_toNat_eq <;> simp at * <;> omega

/-- An item is two bytes, a zero and a code, or one byte. -/
theorem item_cases {it : Item} (h : it.Ok) :
    (∃ k, it.bytes = [0, k] ∧ ∀ ch, matchEscape ch k = it.has ch) ∨
      (∃ b, it.bytes = [b] ∧ b ≠ 0 ∧ ∀ ch, (ch = b ↔ it.has ch = true)) := by
  cases it with
  | chr c => exact Or.inr ⟨c, rfl, h.1, fun ch => by simp [Item.has]⟩
  | esc e => exact esc_cases h.1 h.2
  | hex a b =>
    refine Or.inr ⟨_, rfl, hexByte_ne_zero h.1 h.2.1 h.2.2, fun ch => ?_⟩
    have := hexByte_toNat h.1 h.2.1
    simp only [Item.has, decide_eq_true_eq, ← this]
    exact ⟨fun e => by rw [e], fun e => BitVec.eq_of_toNat_eq e⟩

theorem rdI_append (pre suf : List Byte) (c : Byte) {i : Int} (h : i = pre.length) : rdI (pre ++ c :: suf) i = .ok c := by
  subst h
  have : ¬ ((pre.length : Int) < 0) := by omega
  simp [rdI, rd]

theorem setLoop_items (cin : Byte) : ∀ (items : List Item) (pre done suf : List Byte) (n : Nat) (len : Int), (∀ i ∈ items, i.Ok) →
    len = (done ++ items.flatMap Item.bytes).length → items.length < n →
    ∃ r, setLoop (pre ++ done ++ items.flatMap Item.bytes ++ suf) pre.length len cin n done.length = .ok r ∧
      (items.any (fun i => i.has cin) = true → ∃ j, r = some j ∧ j ≠ len) ∧ (items.any (fun i => i.has cin) = false → r = none)
  | [], pre, done, suf, n + 1, len, _, hl, hn => by
    refine ⟨none, ?_, by simp, by simp⟩
    simp only [List.flatMap_nil, List.append_nil, List.length_append] at hl ⊢
    rw [setLoop, if_neg (by omega), if_pos (by omega)]
  | it :: items, pre, done, suf, n + 1, len, hok, hl, hn => by
    have ho := hok it (by simp)
    simp only [List.length_cons] at hn
    rcases item_cases ho with ⟨k, hb, hm⟩ | ⟨b, hb, h0, hm⟩
    · have e1 : pre ++ done ++ (it :: items).flatMap Item.bytes ++ suf = (pre ++ done) ++ 0 :: ([k] ++ items.flatMap Item.bytes ++ suf) := by
        simp [hb]
      have e2 : pre ++ done ++ (it :: items).flatMap Item.bytes ++ suf = (pre ++ done ++ [0]) ++ k :: (items.flatMap Item.bytes ++ suf) := by
        simp [hb]
      rw [setLoop, if_pos (by rw [hl]; simp [hb]; omega), e1, rdI_append _ _ _ (by simp), ← e1]
      simp only [except_ok_bind, if_true]
      rw [e2, rdI_append _ _ _ (by simp), ← e2]
      simp only [except_ok_bind, hm]
      cases hh : it.has cin with
      | true =>
        refine ⟨_, if_pos rfl, ?_, by simp [hh]⟩
        intro _
        refine ⟨_, rfl, ?_⟩
        rw [hl]; simp [hb]; omega
      | false =>
        obtain ⟨r, er, h1, h2⟩ := setLoop_items cin items pre (done ++ [0, k]) suf n len (fun i hi => hok i (by simp [hi]))
          (by rw [hl]; simp [hb]) (by omega)
        refine ⟨r, ?_, by simpa [hh] using h1, by simpa [hh] using h2⟩
        simp only [Bool.false_eq_true, if_false]
        rw [← er]
        congr 1
        · simp [hb]
        · simp
    · have e1 : pre ++ done ++ (it :: items).flatMap Item.bytes ++ suf = (pre ++ done) ++ b :: (items.flatMap Item.bytes ++ suf) := by
        simp [hb]
      rw [setLoop, if_pos (by rw [hl]; simp [hb]; omega), e1, rdI_append _ _ _ (by simp), ← e1]
      simp only [except_ok_bind, if_neg h0]
      cases hh : it.has cin with
      | true =>
        rw [if_pos ((hm cin).2 hh)]
        refine ⟨_, rfl, ?_, by simp [hh]⟩
        intro _
        refine ⟨_, rfl, ?_⟩
        rw [hl]; simp [hb]; omega
      | false =>
        rw [if_neg (fun e => by rw [(hm cin).1 e] at hh; simp at hh)]
        obtain ⟨r, er, h1, h2⟩ := setLoop_items cin items pre (done ++ [b]) suf n len (fun i hi => hok i (by simp [hi]))
          (by rw [hl]; simp [hb]) (by omega)
        refine ⟨r, ?_, by simpa [hh] using h1, by simpa [hh] using h2⟩
        rw [← er]
        congr 1
        · simp [hb]
        · simp

theorem anyBut_items (cin : Byte) : ∀ (items : List Item) (pre done suf : List Byte) (n : Nat) (len : Int), (∀ i ∈ items, i.Ok) →
    len = (done ++ items.flatMap Item.bytes).length → items.length < n →
    anyBut (pre ++ done ++ items.flatMap Item.bytes ++ suf) pre.length len cin n done.length = .ok (!items.any (fun i => i.has cin))
  | [], pre, done, suf, n + 1, len, _, hl, hn => by
    simp only [List.flatMap_nil, List.append_nil, List.length_append] at hl ⊢
    rw [anyBut, if_neg (by omega)]
    simp
  | it :: items, pre, done, suf, n + 1, len, hok, hl, hn => by
    have ho := hok it (by simp)
    simp only [List.length_cons] at hn
    rcases item_cases ho with ⟨k, hb, hm⟩ | ⟨b, hb, h0, hm⟩
    · have e1 : pre ++ done ++ (it :: items).flatMap Item.bytes ++ suf = (pre ++ done) ++ 0 :: ([k] ++ items.flatMap Item.bytes ++ suf) := by
        simp [hb]
      have e2 : pre ++ done ++ (it :: items).flatMap Item.bytes ++ suf = (pre ++ done ++ [0]) ++ k :: (items.flatMap Item.bytes ++ suf) := by
        simp [hb]
      rw [anyBut, if_pos (by rw [hl]; simp [hb]; omega), e1, rdI_append _ _ _ (by simp), ← e1]
      simp only [except_ok_bind, if_true]
      rw [e2, rdI_append _ _ _ (by simp), ← e2]
      simp only [except_ok_bind, hm]
      cases hh : it.has cin with
      | true => simp [hh]
      | false =>
        have := anyBut_items cin items pre (done ++ [0, k]) suf n len (fun i hi => hok i (by simp [hi])) (by rw [hl]; simp [hb]) (by omega)
        simp only [Bool.false_eq_true, if_false, List.any_cons, hh, Bool.false_or]
        rw [← this]
        congr 1
        · simp [hb]
        · simp
    · have e1 : pre ++ done ++ (it :: items).flatMap Item.bytes ++ suf = (pre ++ done) ++ b :: (items.flatMap Item.bytes ++ suf) := by
        simp [hb]
      rw [anyBut, if_pos (by rw [hl]; simp [hb]; omega), e1, rdI_append _ _ _ (by simp), ← e1]
      simp only [except_ok_bind, if_neg h0]
      cases hh : it.has cin with
      | true => rw [if_pos ((hm cin).2 hh)]; simp [hh]
      | false =>
        rw [if_neg (fun e => by rw [(hm cin).1 e] at hh; simp at hh)]
        have := anyBut_items cin items pre (done ++ [b]) suf n len (fun i hi => hok i (by simp [hi])) (by rw [hl]; simp [hb]) (by omega)
        simp only [List.any_cons, hh, Bool.false_or]
        rw [← this]
        congr 1
        · simp [hb]
        · simp

theorem bytes_length {it : Item} (h : it.Ok) : 1 ≤ it.bytes.length ∧ it.bytes.length ≤ 2 := by
  rcases item_cases h with ⟨k, hb, -⟩ | ⟨b, hb, -⟩ <;> simp [hb]

theorem items_length : ∀ {items : List Item}, (∀ i ∈ items, i.Ok) →
    items.length ≤ (items.flatMap Item.bytes).length ∧ (items.flatMap Item.bytes).length ≤ 2 * items.length
  | [], _ => by simp
  | it :: items, h => by
    have := bytes_length (h it (by simp))
    have := items_length (items := items) (fun i hi => h i (by simp [hi]))
    simp only [List.flatMap_cons, List.length_append, List.length_cons]
    omega

/-- What a class makes of the text at `i`: the next offset, or -1.  An escape at the end of the text reads the character behind it. -/
def clsRun (block : List Byte) (len : Nat) (c : Cls) (i : Nat) : Int :=
  match block[i]? with
  | none => -1
  | some ch =>
    if i < len then if c.has ch then i + 1 else -1
    else
      match c with
      | .esc _ | .hex _ _ => if c.has ch then i + 1 else -1
      | _ => -1

/-- The class looks at the text even where it has ended. -/
def Cls.reads : Cls → Bool
  | .chr _ | .any => false
  | _ => true

theorem strncmp_prefix (before : Bool) : ∀ (s t u : List Byte), Text s → s.length ≤ t.length →
    ∃ r, strncmp before t (s ++ u) s.length = .ok r ∧ (r = 0 ↔ s <+: t)
  | [], t, u, _, _ => ⟨0, by simp [strncmp], by simp⟩
  | c :: s, d :: t, u, hs, hl => by
    simp only [List.length_cons, List.cons_append, strncmp]
    by_cases h : d = c
    · subst h
      obtain ⟨r, e, hr⟩ := strncmp_prefix before s t u (Text.cons.1 hs).2 (by simpa using hl)
      exact ⟨r, by rw [if_neg (by simp), if_neg (Text.cons.1 hs).1, e], by simp [hr, List.cons_prefix_cons]⟩
    · refine ⟨if before then -1 else 1, by simp [h], ?_⟩
      simp only [List.cons_prefix_cons]
      constructor
      · intro h0; split at h0 <;> simp at h0
      · rintro ⟨h0, -⟩; exact absurd h0.symm h

theorem toInt_small {n : Nat} (h : n ≤ 127) : (BitVec.ofNat 8 n).toInt = n := by
  rw [BitVec.toInt_eq_toNat_cond]
  simp only [BitVec.toNat_ofNat]
  have : n % 2 ^ 8 = n := Nat.mod_eq_of_lt (by omega)
  rw [this, if_pos (by omega)]

/-- `EXACT_MATCH`. -/
theorem exact_ok {s pre suf block : List Byte} {len i : Nat} {op : Int} (hs : Text s) (h1 : s ≠ []) (h127 : s.length ≤ 127) (hl : len ≤ block.length)
    (hi : i ≤ len) (hop : op = pre.length) :
    exact (pre ++ BitVec.ofNat 8 s.length :: s ++ suf) block len op i =
      .ok (if s <+: (block.take len).drop i then ⟨op + 1 + s.length, i + s.length⟩ else noMatch (op + 1 + s.length)) := by
  have hn := toInt_small h127
  have hp : 0 < s.length := List.length_pos_iff.2 h1
  unfold exact
  rw [List.append_assoc, List.cons_append, rdI_append _ _ _ hop]
  simp only [except_ok_bind, hn]
  by_cases hlen : (s.length : Int) > len - i
  · rw [if_pos hlen, if_neg]
    intro h
    have := h.length_le
    simp at this
    omega
  · rw [if_neg hlen, if_neg (by omega), if_neg (by omega)]
    have e1 : (op + 1).toNat = pre.length + 1 := by omega
    have e2 : (pre ++ BitVec.ofNat 8 s.length :: (s ++ suf)).drop (op + 1).toNat = s ++ suf := by
      rw [e1, List.drop_append, List.drop_eq_nil_of_le (by omega)]
      simp
    rw [e2]
    obtain ⟨r, er, hr⟩ := strncmp_prefix true s (block.drop i) suf hs (by simp; omega)
    simp only [Int.toNat_natCast]
    rw [er]
    have hpre : s <+: (block.take len).drop i ↔ s <+: block.drop i := by
      rw [List.drop_take]
      rw [List.prefix_take_iff]
      constructor
      · exact fun h => h.1
      · exact fun h => ⟨h, by omega⟩
    simp only [except_ok_bind, ne_eq]
    by_cases h : s <+: (block.take len).drop i
    · rw [if_pos h, if_neg (by simp [hr, hpre.1 h])]
    · rw [if_neg h, if_pos (by rw [hr, ← hpre]; exact h)]

theorem single_simple {buf block : List Byte} {len op off : Int} {caps : List Cap} {code : Byte} {r : Ctx × List Cap} (n : Nat)
    (h1 : rdI buf op = .ok code) (h2 : simple buf block len code (op + 1) off caps = .ok (some r)) :
    single buf block len (n + 1) op off caps = .ok r := by
  rw [single, h1]
  simp only [except_ok_bind, h2]

theorem rdI_nat (b : List Byte) (i : Nat) : rdI b i = rd b i := by simp [rdI]; omega

/-- `META_MATCH` of a character. -/
theorem metaMatch_chr {pre suf block : List Byte} {b ch : Byte} {op : Int} {i : Nat} (hb : b ≠ 0) (hop : op = pre.length) (hi : block[i]? = some ch) :
    metaMatch (pre ++ b :: suf) block op i = .ok (if ch = b then ⟨op + 1, i + 1⟩ else noMatch (op + 1)) := by
  unfold metaMatch
  rw [rdI_append _ _ _ hop, rdI_nat]
  simp only [rd, hi, except_ok_bind, if_neg hb]
  by_cases h : ch = b
  · rw [if_pos h.symm, if_pos h]
  · rw [if_neg (fun e => h e.symm), if_neg h]

/-- `META_MATCH` of a code. -/
theorem metaMatch_code {pre suf block : List Byte} {k ch : Byte} {op : Int} {i : Nat} (hop : op = pre.length) (hi : block[i]? = some ch) :
    metaMatch (pre ++ 0 :: k :: suf) block op i = .ok (if matchEscape ch k then ⟨op + 2, i + 1⟩ else noMatch (op + 2)) := by
  unfold metaMatch
  have e : pre ++ 0 :: k :: suf = (pre ++ [0]) ++ k :: suf := by simp
  rw [rdI_append _ _ _ hop, rdI_nat]
  simp only [rd, hi, except_ok_bind, if_true]
  rw [e, rdI_append _ _ _ (by simp; omega)]
  simp only [except_ok_bind]
  split <;> rfl

theorem setMatch_ok {neg : Bool} {items : List Item} {pre suf block : List Byte} {ch : Byte} {op : Int} {i len : Nat} (hok : (Cls.set neg items).Ok)
    (hop : op = pre.length) (hi : block[i]? = some ch) :
    setMatch neg (pre ++ BitVec.ofNat 8 (items.flatMap Item.bytes).length :: items.flatMap Item.bytes ++ suf) block len op i =
      .ok (if i < len ∧ (Cls.set neg items).has ch = true then ⟨op + 1 + (items.flatMap Item.bytes).length, i + 1⟩
        else noMatch (op + 1 + (items.flatMap Item.bytes).length)) := by
  have hlen := items_length hok.1
  have h63 := hok.2.2
  have hn := toInt_small (n := (items.flatMap Item.bytes).length) (by omega)
  unfold setMatch
  rw [List.append_assoc, List.cons_append, rdI_append _ _ _ hop, rdI_nat]
  simp only [rd, hi, except_ok_bind, hn]
  by_cases hl : (i : Int) ≥ len
  · rw [if_pos hl, if_neg (by omega)]
  · rw [if_neg hl]
    have e : pre ++ BitVec.ofNat 8 (items.flatMap Item.bytes).length :: (items.flatMap Item.bytes ++ suf) =
        (pre ++ [BitVec.ofNat 8 (items.flatMap Item.bytes).length]) ++ [] ++ items.flatMap Item.bytes ++ suf := by simp
    have eop : op + 1 = ((pre ++ [BitVec.ofNat 8 (items.flatMap Item.bytes).length]).length : Int) := by simp; omega
    rw [e, eop]
    cases neg with
    | true =>
      have := anyBut_items ch items (pre ++ [BitVec.ofNat 8 (items.flatMap Item.bytes).length]) [] suf
        ((items.flatMap Item.bytes).length + 1) (items.flatMap Item.bytes).length hok.1 (by simp) (by omega)
      simp only [List.length_nil, Int.natCast_zero] at this
      simp only [if_true, Int.toNat_natCast]
      rw [this]
      have hil : i < len := by omega
      simp only [except_ok_bind, Cls.has, Bool.true_xor, hil, true_and]
      split <;> rfl
    | false =>
      obtain ⟨r, er, h1, h2⟩ := setLoop_items ch items (pre ++ [BitVec.ofNat 8 (items.flatMap Item.bytes).length]) [] suf
        ((items.flatMap Item.bytes).length + 1) (items.flatMap Item.bytes).length hok.1 (by simp) (by omega)
      simp only [List.length_nil, Int.natCast_zero] at er
      simp only [Bool.false_eq_true, if_false, anyOf, Int.toNat_natCast]
      rw [er]
      have hil : i < len := by omega
      simp only [except_ok_bind, Cls.has, Bool.false_xor, hil, true_and]
      cases hh : items.any (fun i => i.has ch) with
      | true =>
        obtain ⟨j, rj, hj⟩ := h1 hh
        subst rj
        simp only [hj, except_ok_bind, ne_eq, not_false_eq_true, decide_true, if_true]
      | false =>
        rw [h2 hh]
        simp only [except_ok_bind, Bool.false_eq_true, if_false]

theorem simple_exact (buf block : List Byte) (len op off : Int) (caps : List Cap) :
    simple buf block len 4 op off caps = (exact buf block len op off >>= fun c => .ok (some (c, caps))) := rfl

theorem simple_meta (buf block : List Byte) (len op off : Int) (caps : List Cap) :
    simple buf block len 5 op off caps = (metaMatch buf block op off >>= fun c => .ok (some (c, caps))) := rfl

theorem simple_any (buf block : List Byte) (len op off : Int) (caps : List Cap) :
    simple buf block len 6 op off caps = .ok (some (if off < len then ⟨op, off + 1⟩ else noMatch op, caps)) := rfl

theorem simple_set (neg : Bool) (buf block : List Byte) (len op off : Int) (caps : List Cap) :
    simple buf block len (if neg then 8 else 7) op off caps = (setMatch neg buf block len op off >>= fun c => .ok (some (c, caps))) := by
  cases neg <;> rfl

theorem clsRun_text {block : List Byte} {len i : Nat} {c : Cls} {ch : Byte} (hi : i < len) (h : block[i]? = some ch) :
    clsRun block len c i = if c.has ch then (i : Int) + 1 else -1 := by
  unfold clsRun; rw [h]; simp only [hi, if_true]

theorem clsRun_end {block : List Byte} {len i : Nat} {c : Cls} (hi : ¬ i < len) (h : ∀ e, c ≠ .esc e) (h' : ∀ a b, c ≠ .hex a b) :
    clsRun block len c i = -1 := by
  unfold clsRun
  split
  · rfl
  · simp only [hi, if_false]

theorem prefix_one {block : List Byte} {len i : Nat} {c : Byte} (hl : len ≤ block.length) :
    [c] <+: (block.take len).drop i ↔ i < len ∧ block[i]? = some c := by
  constructor
  · rintro ⟨t, ht⟩
    have h0 : ((block.take len).drop i)[0]? = some c := by rw [← ht]; rfl
    rw [List.getElem?_drop, List.getElem?_take] at h0
    split at h0
    · exact ⟨by omega, by simpa using h0⟩
    · simp at h0
  · rintro ⟨h1, h2⟩
    have hlt : i < block.length := by omega
    have h3 : i < (block.take len).length := by simp; omega
    rw [List.drop_eq_getElem_cons h3, List.getElem_take]
    rw [List.getElem?_eq_getElem hlt] at h2
    rw [Option.some.inj h2]
    exact ⟨_, rfl⟩

/-- One step of the matcher at a class. -/
def StepCls (c : Cls) (pre suf block : List Byte) (len i n : Nat) (caps : List Cap) : Prop :=
  ∃ o : Int, single (pre ++ c.ops ++ suf) block len (n + 1) pre.length i caps = .ok (⟨o, clsRun block len c i⟩, caps) ∧
      o = pre.length + c.ops.length

theorem stepCls_of {c : Cls} {pre suf block : List Byte} {len i n : Nat} {caps : List Cap} {code : Byte} {tail : List Byte} {x : Ctx}
    (hops : c.ops = code :: tail) (hx : x.off = clsRun block len c i) (hop : x.op = pre.length + c.ops.length)
    (hs : simple ((pre ++ [code]) ++ (tail ++ suf)) block len code (((pre ++ [code]).length : Nat) : Int) i caps = .ok (some (x, caps))) :
    StepCls c pre suf block len i n caps := by
  refine ⟨x.op, ?_, hop⟩
  rw [← hx]
  apply single_simple (code := code)
  · rw [hops, List.append_assoc]; exact rdI_append _ _ _ rfl
  · rw [← hs, hops]
    congr 1
    · simp
    · simp

theorem stepCls_chr {c : Byte} (hc : (Cls.chr c).Ok) (pre suf block : List Byte) {len i : Nat} (hl : len ≤ block.length) (hi : i ≤ len)
    (n : Nat) (caps : List Cap) : StepCls (.chr c) pre suf block len i n caps := by
  have := exact_ok (s := [c]) (pre := pre ++ [4]) (suf := suf) (by intro d hd; simp at hd; exact hd ▸ hc.1) (by simp) (by simp) hl hi rfl
  refine stepCls_of (x := ⟨pre.length + 3, clsRun block len (.chr c) i⟩) (code := 4) (tail := [1, c]) rfl rfl (by simp [Cls.ops]) ?_
  rw [simple_exact]
  have e1 : pre ++ [4] ++ ([1, c] ++ suf) = pre ++ [4] ++ BitVec.ofNat 8 [c].length :: [c] ++ suf := by simp
  rw [e1, this, except_ok_bind]
  by_cases hp : [c] <+: (block.take len).drop i
  · rw [if_pos hp]
    obtain ⟨h1, h2⟩ := (prefix_one hl).1 hp
    rw [clsRun_text h1 h2]
    simp [Cls.has]
    omega
  · rw [if_neg hp]
    have : clsRun block len (.chr c) i = -1 := by
      by_cases hlt : i < len
      · have hb : block[i]? = some block[i] := List.getElem?_eq_getElem (by omega)
        rw [clsRun_text hlt hb, if_neg]
        intro h
        simp only [Cls.has, decide_eq_true_eq] at h
        exact hp ((prefix_one hl).2 ⟨hlt, h ▸ hb⟩)
      · exact clsRun_end hlt (by simp) (by simp)
    rw [this]
    simp [noMatch]
    omega

theorem stepCls_any (pre suf block : List Byte) {len i : Nat} (hl : len ≤ block.length)
    (n : Nat) (caps : List Cap) : StepCls .any pre suf block len i n caps := by
  refine stepCls_of (x := ⟨pre.length + 1, clsRun block len .any i⟩) (code := 6) (tail := []) rfl rfl (by simp [Cls.ops]) ?_
  rw [simple_any]
  by_cases hlt : i < len
  · have hb : block[i]? = some block[i] := List.getElem?_eq_getElem (by omega)
    rw [clsRun_text hlt hb, if_pos (by omega)]
    simp [Cls.has]
  · rw [clsRun_end hlt (by simp) (by simp), if_neg (by omega)]
    simp [noMatch]

theorem stepCls_esc {e : Byte} (hc : (Cls.esc e).Ok) (pre suf block : List Byte) {len i : Nat} (hb : len < block.length) (hi : i ≤ len)
    (n : Nat) (caps : List Cap) : StepCls (.esc e) pre suf block len i n caps := by
  have hi' : block[i]? = some block[i] := List.getElem?_eq_getElem (by omega)
  have hrun : clsRun block len (.esc e) i = if escHas e block[i] then (i : Int) + 1 else -1 := by
    unfold clsRun; rw [hi']; simp only [Cls.has]; split <;> rfl
  rcases esc_cases hc.1 hc.2 with ⟨k, hk, hm⟩ | ⟨b, hk, h0, hm⟩
  · refine stepCls_of (x := ⟨pre.length + 3, clsRun block len (.esc e) i⟩) (code := 5) (tail := [0, k]) (by simp [Cls.ops, hk]) rfl (by simp [Cls.ops, hk]) ?_
    have := metaMatch_code (pre := pre ++ [5]) (suf := suf) (k := k) rfl hi'
    have e1 : pre ++ [5] ++ ([0, k] ++ suf) = pre ++ [5] ++ 0 :: k :: suf := by simp
    rw [simple_meta, e1, this, except_ok_bind, hrun, hm]
    split <;> simp [noMatch] <;> omega
  · refine stepCls_of (x := ⟨pre.length + 2, clsRun block len (.esc e) i⟩) (code := 5) (tail := [b]) (by simp [Cls.ops, hk]) rfl (by simp [Cls.ops, hk]) ?_
    have := metaMatch_chr (pre := pre ++ [5]) (suf := suf) (b := b) h0 rfl hi'
    have e1 : pre ++ [5] ++ ([b] ++ suf) = pre ++ [5] ++ b :: suf := by simp
    rw [simple_meta, e1, this, except_ok_bind, hrun]
    simp only [hm]
    split <;> simp [noMatch] <;> omega

theorem stepCls_hex {h l : Byte} (hc : (Cls.hex h l).Ok) (pre suf block : List Byte) {len i : Nat} (hb : len < block.length) (hi : i ≤ len)
    (n : Nat) (caps : List Cap) : StepCls (.hex h l) pre suf block len i n caps := by
  have hi' : block[i]? = some block[i] := List.getElem?_eq_getElem (by omega)
  have hh : (Cls.hex h l).has block[i] = true ↔ block[i] = hexByte h l := by
    simp only [Cls.has, decide_eq_true_eq, ← hexByte_toNat hc.1 hc.2.1]
    exact ⟨fun e => BitVec.eq_of_toNat_eq e, fun e => by rw [e]⟩
  have hrun : clsRun block len (.hex h l) i = if block[i] = hexByte h l then (i : Int) + 1 else -1 := by
    unfold clsRun; rw [hi']; simp only [hh]; split <;> rfl
  refine stepCls_of (x := ⟨pre.length + 2, clsRun block len (.hex h l) i⟩) (code := 5) (tail := [hexByte h l]) rfl rfl (by simp [Cls.ops]) ?_
  have := metaMatch_chr (pre := pre ++ [5]) (suf := suf) (hexByte_ne_zero hc.1 hc.2.1 hc.2.2) rfl hi'
  have e1 : pre ++ [5] ++ ([hexByte h l] ++ suf) = pre ++ [5] ++ hexByte h l :: suf := by simp
  rw [simple_meta, e1, this, except_ok_bind, hrun]
  split <;> simp [noMatch] <;> omega

theorem stepCls_set {neg : Bool} {items : List Item} (hc : (Cls.set neg items).Ok) (pre suf block : List Byte) {len i : Nat} (hb : len < block.length)
    (hi : i ≤ len) (n : Nat) (caps : List Cap) : StepCls (.set neg items) pre suf block len i n caps := by
  have hi' : block[i]? = some block[i] := List.getElem?_eq_getElem (by omega)
  refine stepCls_of (x := ⟨pre.length + 2 + (items.flatMap Item.bytes).length, clsRun block len (.set neg items) i⟩) (code := if neg then 8 else 7)
    (tail := BitVec.ofNat 8 (items.flatMap Item.bytes).length :: items.flatMap Item.bytes) rfl rfl
    (by simp only [Cls.ops, List.length_cons]; omega) ?_
  have := setMatch_ok (pre := pre ++ [if neg then 8 else 7]) (suf := suf) (len := len) hc rfl hi'
  rw [simple_set, ← List.append_assoc, this, except_ok_bind]
  by_cases hlt : i < len
  · rw [clsRun_text hlt hi']
    simp only [hlt, true_and]
    split <;> simp [noMatch] <;> omega
  · rw [clsRun_end hlt (by simp) (by simp), if_neg (fun h => hlt h.1)]
    simp [noMatch]
    omega

theorem single_cls_op {c : Cls} (hc : c.Ok) (pre suf block : List Byte) {len i : Nat} (hl : len ≤ block.length) (hi : i ≤ len)
    (hr : c.reads = true → len < block.length) (n : Nat) (caps : List Cap) : StepCls c pre suf block len i n caps := by
  cases c with
  | chr c => exact stepCls_chr hc pre suf block hl hi n caps
  | any => exact stepCls_any pre suf block hl n caps
  | esc e => exact stepCls_esc hc pre suf block (hr rfl) hi n caps
  | hex h l => exact stepCls_hex hc pre suf block (hr rfl) hi n caps
  | set neg items => exact stepCls_set hc pre suf block (hr rfl) hi n caps

theorem single_cls {c : Cls} (hc : c.Ok) (pre suf block : List Byte) {len i : Nat} (hl : len ≤ block.length) (hi : i ≤ len)
    (hr : c.reads = true → len < block.length) (n : Nat) (caps : List Cap) :
    ∃ o : Int, single (pre ++ c.ops ++ suf) block len (n + 1) pre.length i caps = .ok (⟨o, clsRun block len c i⟩, caps) ∧
      (0 ≤ clsRun block len c i → o = pre.length + c.ops.length) := by
  obtain ⟨o, h1, h2⟩ := single_cls_op hc pre suf block hl hi hr n caps
  exact ⟨o, h1, fun _ => h2⟩

/-! ## Lemmas: the matcher on instructions -/

/-- The rounds of a greedy `c+` with `k` more characters, in front of the instructions that `f` runs. -/
def plusLoop (f : Nat → List Cap → Except Fault (Int × List Cap)) (len : Nat) : Nat → Nat → Option Int → List Cap → Except Fault (Int × List Cap)
  | 0, _, none, _ => .error .oob
  | 0, _, some b, caps => .ok (b, caps)
  | k + 1, i, best, caps => do
    let (r, caps) ← f (i + 1) caps
    if r ≤ len then do
      let (_, caps) ← f (i + 1) caps
      plusLoop f len k (i + 1) (some r) caps
    else plusLoop f len k (i + 1) best caps

/-- How many characters of the class stand at the front. -/
def count (c : Cls) : List Byte → Nat
  | [] => 0
  | ch :: s => if c.has ch then count c s + 1 else 0

/-- What the matcher does with instructions.  A fault where a `c+` has no character to take. -/
def run (block : List Byte) (len : Nat) : List Instr → Nat → List Cap → Except Fault (Int × List Cap)
  | [], i, caps => .ok (i, caps)
  | .beg n :: is, i, caps => run block len is i (beginCapture caps (BitVec.ofNat 8 n) i)
  | .fin n :: is, i, caps => run block len is i (endCapture caps (BitVec.ofNat 8 n) i)
  | .bol :: is, i, caps => if i = 0 then run block len is i caps else .ok (-1, caps)
  | .eol :: is, i, caps => if i = len then run block len is i caps else .ok (-1, caps)
  | .lit s :: is, i, caps => if s <+: (block.take len).drop i then run block len is (i + s.length) caps else .ok (-1, caps)
  | .one c :: is, i, caps =>
    if clsRun block len c i = -1 ∨ clsRun block len c i > len then .ok (clsRun block len c i, caps) else run block len is (i + 1) caps
  | .plus c :: is, i, caps =>
    if is = [] then (if count c ((block.take len).drop i) = 0 then .error .oob else .ok (i + 1, caps))
    else plusLoop (fun i caps => run block len is i caps) len (count c ((block.take len).drop i)) i none caps

/-- Instructions the compiler makes from the patterns above. -/
def Instr.Ok : Instr → Prop
  | .beg n | .fin n => n ≤ 255
  | .bol | .eol => True
  | .lit s => s ≠ [] ∧ Text s ∧ s.length ≤ 127
  | .one c | .plus c => c.Ok

/-- The instruction looks at the text even where it has ended. -/
def Instr.reads : Instr → Bool
  | .one c | .plus c => c.reads
  | _ => false

theorem clsRun_cases (block : List Byte) (len : Nat) (c : Cls) (i : Nat) : clsRun block len c i = -1 ∨ clsRun block len c i = i + 1 := by
  unfold clsRun
  split
  · exact Or.inl rfl
  · split
    · split <;> simp
    · split
      · split <;> simp
      · split <;> simp
      · simp

theorem plusLoop_ge {f : Nat → List Cap → Except Fault (Int × List Cap)} {len : Nat}
    (hf : ∀ i caps r caps', f i caps = .ok (r, caps') → r = -1 ∨ 0 ≤ r) : ∀ (k i : Nat) (best : Option Int) (caps : List Cap) (r : Int) (caps' : List Cap),
    (∀ b, best = some b → b = -1 ∨ 0 ≤ b) → plusLoop f len k i best caps = .ok (r, caps') → r = -1 ∨ 0 ≤ r
  | 0, i, none, caps, r, caps', hb, h => by simp [plusLoop] at h
  | 0, i, some b, caps, r, caps', hb, h => by
    simp only [plusLoop, Except.ok.injEq, Prod.mk.injEq] at h
    exact h.1 ▸ hb b rfl
  | k + 1, i, best, caps, r, caps', hb, h => by
    rw [plusLoop] at h
    cases h1 : f (i + 1) caps with
    | error e => rw [h1] at h; simp at h
    | ok x =>
      obtain ⟨r1, c1⟩ := x
      rw [h1, except_ok_bind] at h
      dsimp only at h
      split at h
      · cases h2 : f (i + 1) c1 with
        | error e => rw [h2] at h; simp at h
        | ok x =>
          obtain ⟨r2, c2⟩ := x
          rw [h2, except_ok_bind] at h
          dsimp only at h
          exact plusLoop_ge hf k (i + 1) (some r1) c2 r caps' (fun b e => by cases e; exact hf _ _ _ _ h1) h
      · exact plusLoop_ge hf k (i + 1) best c1 r caps' hb h

theorem run_ge (block : List Byte) (len : Nat) : ∀ (is : List Instr) (i : Nat) (caps : List Cap) (r : Int) (caps' : List Cap),
    run block len is i caps = .ok (r, caps') → r = -1 ∨ 0 ≤ r
  | [], i, caps, r, caps', h => by
    simp only [run, Except.ok.injEq, Prod.mk.injEq] at h
    omega
  | .beg n :: is, i, caps, r, caps', h => run_ge block len is _ _ _ _ h
  | .fin n :: is, i, caps, r, caps', h => run_ge block len is _ _ _ _ h
  | .bol :: is, i, caps, r, caps', h => by
    rw [run] at h
    split at h
    · exact run_ge block len is _ _ _ _ h
    · simp only [Except.ok.injEq, Prod.mk.injEq] at h; omega
  | .eol :: is, i, caps, r, caps', h => by
    rw [run] at h
    split at h
    · exact run_ge block len is _ _ _ _ h
    · simp only [Except.ok.injEq, Prod.mk.injEq] at h; omega
  | .lit s :: is, i, caps, r, caps', h => by
    rw [run] at h
    split at h
    · exact run_ge block len is _ _ _ _ h
    · simp only [Except.ok.injEq, Prod.mk.injEq] at h; omega
  | .one c :: is, i, caps, r, caps', h => by
    rw [run] at h
    split at h
    · simp only [Except.ok.injEq, Prod.mk.injEq] at h
      have := clsRun_cases block len c i
      omega
    · exact run_ge block len is _ _ _ _ h
  | .plus c :: is, i, caps, r, caps', h => by
    rw [run] at h
    split at h
    · split at h
      · simp at h
      · simp only [Except.ok.injEq, Prod.mk.injEq] at h; omega
    · exact plusLoop_ge (fun i caps r caps' h => run_ge block len is i caps r caps' h) _ _ _ _ _ _ (by simp) h

/-- From the operation at `pre.length` the matcher does what `run` does. -/
def Runs (block : List Byte) (len : Nat) (pre : List Byte) (is : List Instr) (i : Nat) (caps : List Cap) (r : Int) (caps' : List Cap) : Prop :=
  ∃ N, ∀ n, N ≤ n → ∃ o : Int, exec (pre ++ opsOf is) block len n pre.length i caps = .ok (⟨o, r⟩, caps') ∧
    (0 ≤ r → r ≤ len → o = (pre ++ opsOf is).length)

theorem ops_ne_nil (ins : Instr) : ins.ops ≠ [] := by
  cases ins with
  | one c => cases c <;> simp [Instr.ops, Cls.ops]
  | _ => simp [Instr.ops]

theorem opsOf_cons (ins : Instr) (is : List Instr) : opsOf (ins :: is) = ins.ops ++ opsOf is := by simp [opsOf]

/-- A step that succeeds and goes on with the next instruction. -/
theorem runs_next {block : List Byte} {len : Nat} {pre : List Byte} {ins : Instr} {is : List Instr} {i j : Nat} {caps caps1 caps' : List Cap} {r : Int}
    (hj : j ≤ len) (hstep : ∀ n, single (pre ++ opsOf (ins :: is)) block len (n + 1) pre.length i caps = .ok (⟨pre.length + ins.ops.length, j⟩, caps1))
    (hrest : Runs block len (pre ++ ins.ops) is j caps1 r caps') : Runs block len pre (ins :: is) i caps r caps' := by
  obtain ⟨N, hN⟩ := hrest
  refine ⟨N + 2, fun n hn => ?_⟩
  obtain ⟨m, rfl⟩ : ∃ m, n = m + 2 := ⟨n - 2, by omega⟩
  obtain ⟨o, ho, ho'⟩ := hN (m + 1) (by omega)
  refine ⟨o, ?_, ?_⟩
  · have hpos : 0 < ins.ops.length := List.length_pos_iff.2 (ops_ne_nil ins)
    rw [exec, if_pos (by rw [opsOf_cons]; simp; omega), hstep m, except_ok_bind]
    dsimp only
    rw [if_neg (by omega)]
    rw [opsOf_cons, ← List.append_assoc, ← ho]
    congr 1
    simp
  · intro h1 h2
    rw [ho' h1 h2, opsOf_cons, ← List.append_assoc]

/-- A step that ends the attempt. -/
theorem runs_end {block : List Byte} {len : Nat} {pre : List Byte} {ins : Instr} {is : List Instr} {i : Nat} {caps caps' : List Cap} {r : Int}
    (hr : r = -1 ∨ r > len) (hstep : ∀ n, ∃ o, single (pre ++ opsOf (ins :: is)) block len (n + 1) pre.length i caps = .ok (⟨o, r⟩, caps')) :
    Runs block len pre (ins :: is) i caps r caps' := by
  refine ⟨2, fun n hn => ?_⟩
  obtain ⟨m, rfl⟩ : ∃ m, n = m + 2 := ⟨n - 2, by omega⟩
  obtain ⟨o, ho⟩ := hstep m
  refine ⟨o, ?_, by omega⟩
  have hpos : 0 < ins.ops.length := List.length_pos_iff.2 (ops_ne_nil ins)
  rw [exec, if_pos (by rw [opsOf_cons]; simp; omega), ho, except_ok_bind]
  dsimp only
  rw [if_pos (by omega)]

theorem count_zero {c : Cls} {block : List Byte} {len i : Nat} (hl : len ≤ block.length) (hi : i ≤ len)
    (h : count c ((block.take len).drop i) = 0) : clsRun block len c i = -1 ∨ clsRun block len c i > len := by
  by_cases hlt : i < len
  · have hb : block[i]? = some block[i] := List.getElem?_eq_getElem (by omega)
    have h3 : i < (block.take len).length := by simp; omega
    rw [List.drop_eq_getElem_cons h3, List.getElem_take, count] at h
    rw [clsRun_text hlt hb]
    split at h
    · omega
    · rename_i h'; rw [if_neg h']; exact Or.inl rfl
  · have := clsRun_cases block len c i
    omega

theorem count_succ {c : Cls} {block : List Byte} {len i k : Nat} (hl : len ≤ block.length)
    (h : count c ((block.take len).drop i) = k + 1) :
    i < len ∧ clsRun block len c i = i + 1 ∧ count c ((block.take len).drop (i + 1)) = k := by
  have h3 : i < (block.take len).length := by
    by_cases h3 : i < (block.take len).length
    · exact h3
    · rw [List.drop_eq_nil_of_le (by omega), count] at h; omega
  have hlt : i < len := by simp at h3; omega
  have hb : block[i]? = some block[i] := List.getElem?_eq_getElem (by omega)
  rw [List.drop_eq_getElem_cons h3, List.getElem_take, count] at h
  rw [clsRun_text hlt hb]
  split at h
  · rename_i h'; exact ⟨hlt, by rw [if_pos h'], by omega⟩
  · omega

theorem consume_run {block : List Byte} {len : Nat} {pre : List Byte} {c : Cls} {is : List Instr} (hl : len ≤ block.length) (hc : c.Ok)
    (hr : c.reads = true → len < block.length) (his : is ≠ [])
    (hrun : ∀ i caps r caps', i ≤ len → run block len is i caps = .ok (r, caps') → Runs block len (pre ++ 10 :: c.ops) is i caps r caps') :
    ∀ (k i : Nat) (best : Option Int) (caps : List Cap) (r : Int) (caps' : List Cap), i ≤ len → count c ((block.take len).drop i) = k →
      plusLoop (fun i caps => run block len is i caps) len k i best caps = .ok (r, caps') →
      ∃ N, ∀ n, N ≤ n → ∀ b : Ctx, (∀ x, best = some x → b.off = x ∧ (0 ≤ x → x ≤ len → b.op = (pre ++ 10 :: c.ops ++ opsOf is).length)) →
        ∃ o : Int, consume (pre ++ 10 :: c.ops ++ opsOf is) block len true n (pre.length + 1) i b caps = .ok (⟨o, r⟩, caps') ∧
          (0 ≤ r → r ≤ len → o = (pre ++ 10 :: c.ops ++ opsOf is).length)
  | 0, i, none, caps, r, caps', hi, hk, h => by simp [plusLoop] at h
  | 0, i, some x, caps, r, caps', hi, hk, h => by
    simp only [plusLoop, Except.ok.injEq, Prod.mk.injEq] at h
    obtain ⟨rfl, rfl⟩ := h
    refine ⟨2, fun n hn b hb => ?_⟩
    obtain ⟨m, rfl⟩ : ∃ m, n = m + 2 := ⟨n - 2, by omega⟩
    obtain ⟨hb1, hb2⟩ := hb x rfl
    obtain ⟨o, ho, -⟩ := single_cls hc (pre ++ [10]) (opsOf is) block hl hi hr m []
    refine ⟨b.op, ?_, hb2⟩
    have e : pre ++ 10 :: c.ops ++ opsOf is = pre ++ [10] ++ c.ops ++ opsOf is := by simp
    have e2 : ((pre ++ [10]).length : Int) = pre.length + 1 := by simp
    rw [e2] at ho
    rw [consume, e, ho, except_ok_bind]
    dsimp only
    rw [if_pos (by have := count_zero hl hi hk; omega), ← hb1]
  | k + 1, i, best, caps, r, caps', hi, hk, h => by
    obtain ⟨hlt, hcr, hk'⟩ := count_succ hl hk
    rw [plusLoop] at h
    have e : pre ++ 10 :: c.ops ++ opsOf is = pre ++ [10] ++ c.ops ++ opsOf is := by simp
    have e2 : ((pre ++ [10]).length : Int) = pre.length + 1 := by simp
    have hpos : 0 < (opsOf is).length := by
      cases is with
      | nil => exact absurd rfl his
      | cons a is =>
        have : 0 < a.ops.length := List.length_pos_iff.2 (ops_ne_nil a)
        rw [opsOf_cons]; simp; omega
    cases h1 : run block len is (i + 1) caps with
    | error e => rw [h1] at h; simp at h
    | ok x =>
      obtain ⟨r1, c1⟩ := x
      rw [h1, except_ok_bind] at h
      dsimp only at h
      obtain ⟨N1, hN1⟩ := hrun (i + 1) caps r1 c1 (by omega) h1
      split at h
      · rename_i hle
        cases h2 : run block len is (i + 1) c1 with
        | error e => rw [h2] at h; simp at h
        | ok x =>
          obtain ⟨r2, c2⟩ := x
          rw [h2, except_ok_bind] at h
          dsimp only at h
          obtain ⟨N2, hN2⟩ := hrun (i + 1) c1 r2 c2 (by omega) h2
          obtain ⟨N3, hN3⟩ := consume_run hl hc hr his hrun k (i + 1) (some r1) c2 r caps' (by omega) hk' h
          refine ⟨N1 + N2 + N3 + 2, fun n hn b hb => ?_⟩
          obtain ⟨m, rfl⟩ : ∃ m, n = m + 2 := ⟨n - 2, by omega⟩
          obtain ⟨o, ho, ho'⟩ := single_cls hc (pre ++ [10]) (opsOf is) block hl hi hr m []
          rw [hcr] at ho ho'
          have ho' := ho' (by omega)
          rw [e2] at ho ho'
          obtain ⟨o1, ho1, ho1'⟩ := hN1 (m + 1) (by omega)
          obtain ⟨o2, ho2, -⟩ := hN2 (m + 1) (by omega)
          have e3 : ((pre ++ 10 :: c.ops).length : Int) = o := by rw [ho']; simp; omega
          rw [e3] at ho1 ho2
          obtain ⟨o4, ho4, ho4'⟩ := hN3 (m + 1) (by omega)
            (if (o1 : Int) > ((pre ++ 10 :: c.ops ++ opsOf is).length : Int) then ⟨o, r1⟩ else ⟨o1, r1⟩)
            (by
              intro x hx
              cases hx
              refine ⟨by split <;> rfl, fun h1 h2 => ?_⟩
              rw [ho1' h1 h2, if_neg (by omega)])
          refine ⟨o4, ?_, ho4'⟩
          rw [consume, e, ho, except_ok_bind, ← e]
          dsimp only
          rw [if_neg (by omega), if_neg (by rw [ho']; simp; omega)]
          have e5 : ((i + 1 : Nat) : Int) = (i : Int) + 1 := by omega
          rw [e5] at ho1 ho2 ho4
          rw [ho1, except_ok_bind]
          dsimp only
          rw [if_pos hle, ho2, except_ok_bind]
          dsimp only
          exact ho4
      · rename_i hle
        obtain ⟨N3, hN3⟩ := consume_run hl hc hr his hrun k (i + 1) best c1 r caps' (by omega) hk' h
        refine ⟨N1 + N3 + 2, fun n hn b hb => ?_⟩
        obtain ⟨m, rfl⟩ : ∃ m, n = m + 2 := ⟨n - 2, by omega⟩
        obtain ⟨o, ho, ho'⟩ := single_cls hc (pre ++ [10]) (opsOf is) block hl hi hr m []
        rw [hcr] at ho ho'
        have ho' := ho' (by omega)
        rw [e2] at ho ho'
        obtain ⟨o1, ho1, -⟩ := hN1 (m + 1) (by omega)
        have e3 : ((pre ++ 10 :: c.ops).length : Int) = o := by rw [ho']; simp; omega
        rw [e3] at ho1
        obtain ⟨o4, ho4, ho4'⟩ := hN3 (m + 1) (by omega)
          (if (b.op : Int) > ((pre ++ 10 :: c.ops ++ opsOf is).length : Int) then { b with op := o } else b)
          (by
            intro x hx
            obtain ⟨h1, h2⟩ := hb x hx
            refine ⟨by split <;> exact h1, fun h3 h4 => ?_⟩
            rw [h2 h3 h4, if_neg (by omega)]
            exact h2 h3 h4)
        refine ⟨o4, ?_, ho4'⟩
        rw [consume, e, ho, except_ok_bind, ← e]
        dsimp only
        rw [if_neg (by omega), if_neg (by rw [ho']; simp; omega)]
        have e5 : ((i + 1 : Nat) : Int) = (i : Int) + 1 := by omega
        rw [e5] at ho1 ho4
        rw [ho1, except_ok_bind]
        dsimp only
        rw [if_neg hle]
        exact ho4

theorem simple_plus (buf block : List Byte) (len op off : Int) (caps : List Cap) : simple buf block len 10 op off caps = .ok none := rfl

theorem simple_beg {buf block : List Byte} {len op off : Int} {caps : List Cap} {b : Byte} (h : rdI buf op = .ok b) :
    simple buf block len 0 op off caps = .ok (some (⟨op + 1, off⟩, beginCapture caps b off)) := by
  show (rdI buf op >>= fun b => _) = _
  rw [h]; rfl

theorem simple_fin {buf block : List Byte} {len op off : Int} {caps : List Cap} {b : Byte} (h : rdI buf op = .ok b) :
    simple buf block len 1 op off caps = .ok (some (⟨op + 1, off⟩, endCapture caps b off)) := by
  show (rdI buf op >>= fun b => _) = _
  rw [h]; rfl

theorem simple_bol (buf block : List Byte) (len op off : Int) (caps : List Cap) :
    simple buf block len 2 op off caps = .ok (some (if off ≠ 0 then noMatch op else ⟨op, off⟩, caps)) := rfl

theorem simple_eol (buf block : List Byte) (len op off : Int) (caps : List Cap) :
    simple buf block len 3 op off caps = .ok (some (if off ≠ len then noMatch op else ⟨op, off⟩, caps)) := rfl

/-- The matcher on the operations of instructions is `run`. -/
theorem exec_run {block : List Byte} {len : Nat} (hl : len ≤ block.length) : ∀ (is : List Instr) (pre : List Byte) (i : Nat) (caps : List Cap) (r : Int)
    (caps' : List Cap), i ≤ len → (∀ ins ∈ is, ins.Ok) → (∀ ins ∈ is, ins.reads = true → len < block.length) →
    run block len is i caps = .ok (r, caps') → Runs block len pre is i caps r caps'
  | [], pre, i, caps, r, caps', hi, hok, hr, h => by
    simp only [run, Except.ok.injEq, Prod.mk.injEq] at h
    obtain ⟨rfl, rfl⟩ := h
    refine ⟨1, fun n hn => ?_⟩
    obtain ⟨m, rfl⟩ : ∃ m, n = m + 1 := ⟨n - 1, by omega⟩
    exact ⟨pre.length, by rw [exec, if_neg (by simp [opsOf])], by simp [opsOf]⟩
  | .beg k :: is, pre, i, caps, r, caps', hi, hok, hr, h => by
    refine runs_next hi (fun n => ?_) (exec_run hl is _ i _ r caps' hi (fun a ha => hok a (by simp [ha])) (fun a ha => hr a (by simp [ha])) h)
    apply single_simple (code := 0)
    · rw [opsOf_cons]; exact rdI_append _ _ _ rfl
    · rw [simple_beg (b := BitVec.ofNat 8 k)]
      · simp [Instr.ops]; omega
      · have e : pre ++ opsOf (.beg k :: is) = (pre ++ [0]) ++ BitVec.ofNat 8 k :: opsOf is := by rw [opsOf_cons]; simp [Instr.ops]
        rw [e, rdI_append _ _ _ (by simp)]
  | .fin k :: is, pre, i, caps, r, caps', hi, hok, hr, h => by
    refine runs_next hi (fun n => ?_) (exec_run hl is _ i _ r caps' hi (fun a ha => hok a (by simp [ha])) (fun a ha => hr a (by simp [ha])) h)
    apply single_simple (code := 1)
    · rw [opsOf_cons]; exact rdI_append _ _ _ rfl
    · rw [simple_fin (b := BitVec.ofNat 8 k)]
      · simp [Instr.ops]; omega
      · have e : pre ++ opsOf (.fin k :: is) = (pre ++ [1]) ++ BitVec.ofNat 8 k :: opsOf is := by rw [opsOf_cons]; simp [Instr.ops]
        rw [e, rdI_append _ _ _ (by simp)]
  | .bol :: is, pre, i, caps, r, caps', hi, hok, hr, h => by
    have h1 : ∀ n, single (pre ++ opsOf (.bol :: is)) block len (n + 1) pre.length i caps =
        .ok (if (i : Int) ≠ 0 then noMatch (pre.length + 1) else ⟨pre.length + 1, i⟩, caps) := fun n => by
      apply single_simple (code := 2)
      · rw [opsOf_cons]; exact rdI_append _ _ _ rfl
      · exact simple_bol ..
    rw [run] at h
    split at h
    · rename_i h0
      refine runs_next hi (fun n => ?_) (exec_run hl is _ i _ r caps' hi (fun a ha => hok a (by simp [ha])) (fun a ha => hr a (by simp [ha])) h)
      rw [h1, if_neg (by omega)]
      simp [Instr.ops]
    · simp only [Except.ok.injEq, Prod.mk.injEq] at h
      obtain ⟨rfl, rfl⟩ := h
      refine runs_end (Or.inl rfl) (fun n => ⟨pre.length + 1, ?_⟩)
      rw [h1, if_pos (by omega)]
      rfl
  | .eol :: is, pre, i, caps, r, caps', hi, hok, hr, h => by
    have h1 : ∀ n, single (pre ++ opsOf (.eol :: is)) block len (n + 1) pre.length i caps =
        .ok (if (i : Int) ≠ len then noMatch (pre.length + 1) else ⟨pre.length + 1, i⟩, caps) := fun n => by
      apply single_simple (code := 3)
      · rw [opsOf_cons]; exact rdI_append _ _ _ rfl
      · exact simple_eol ..
    rw [run] at h
    split at h
    · rename_i h0
      refine runs_next hi (fun n => ?_) (exec_run hl is _ i _ r caps' hi (fun a ha => hok a (by simp [ha])) (fun a ha => hr a (by simp [ha])) h)
      rw [h1, if_neg (by omega)]
      simp [Instr.ops]
    · simp only [Except.ok.injEq, Prod.mk.injEq] at h
      obtain ⟨rfl, rfl⟩ := h
      refine runs_end (Or.inl rfl) (fun n => ⟨pre.length + 1, ?_⟩)
      rw [h1, if_pos (by omega)]
      rfl
  | .lit s :: is, pre, i, caps, r, caps', hi, hok, hr, h => by
    obtain ⟨hs0, hs, h127⟩ := hok (.lit s) (by simp)
    have hx := exact_ok (s := s) (pre := pre ++ [4]) (suf := opsOf is) hs hs0 h127 hl hi rfl
    have h1 : ∀ n, single (pre ++ opsOf (.lit s :: is)) block len (n + 1) pre.length i caps =
        .ok (if s <+: (block.take len).drop i then ⟨pre.length + 2 + s.length, i + s.length⟩ else noMatch (pre.length + 2 + s.length), caps) := fun n => by
      apply single_simple (code := 4)
      · rw [opsOf_cons]; exact rdI_append _ _ _ rfl
      · have e : pre ++ opsOf (.lit s :: is) = pre ++ [4] ++ BitVec.ofNat 8 s.length :: s ++ opsOf is := by rw [opsOf_cons]; simp [Instr.ops]
        have e2 : ((pre ++ [4]).length : Int) = pre.length + 1 := by simp
        have e3 : (pre.length : Int) + 1 + 1 = pre.length + 2 := by omega
        rw [e2, e3] at hx
        rw [simple_exact, e, hx, except_ok_bind]
    rw [run] at h
    split at h
    · rename_i h0
      have hj : i + s.length ≤ len := by
        have := h0.length_le
        simp at this
        omega
      refine runs_next hj (fun n => ?_) (exec_run hl is _ _ _ r caps' hj (fun a ha => hok a (by simp [ha])) (fun a ha => hr a (by simp [ha])) h)
      rw [h1, if_pos h0]
      simp [Instr.ops]; omega
    · rename_i h0
      simp only [Except.ok.injEq, Prod.mk.injEq] at h
      obtain ⟨rfl, rfl⟩ := h
      refine runs_end (Or.inl rfl) (fun n => ⟨pre.length + 2 + s.length, ?_⟩)
      rw [h1, if_neg h0]
      rfl
  | .one c :: is, pre, i, caps, r, caps', hi, hok, hr, h => by
    have hc : c.Ok := hok (.one c) (by simp)
    have hcr : c.reads = true → len < block.length := hr (.one c) (by simp)
    rw [run] at h
    have e : pre ++ opsOf (.one c :: is) = pre ++ c.ops ++ opsOf is := by rw [opsOf_cons]; simp [Instr.ops]
    split at h
    · rename_i h0
      simp only [Except.ok.injEq, Prod.mk.injEq] at h
      obtain ⟨rfl, rfl⟩ := h
      refine runs_end h0 (fun n => ?_)
      obtain ⟨o, ho, -⟩ := single_cls hc pre (opsOf is) block hl hi hcr n caps
      exact ⟨o, by rw [e]; exact ho⟩
    · rename_i h0
      have h2 : clsRun block len c i = i + 1 := by have := clsRun_cases block len c i; omega
      have hj : i + 1 ≤ len := by omega
      refine runs_next hj (fun n => ?_) (exec_run hl is _ _ _ r caps' hj (fun a ha => hok a (by simp [ha])) (fun a ha => hr a (by simp [ha])) h)
      obtain ⟨o, ho, ho'⟩ := single_cls hc pre (opsOf is) block hl hi hcr n caps
      rw [h2] at ho ho'
      rw [e, ho, ho' (by omega)]
      simp [Instr.ops]
  | .plus c :: is, pre, i, caps, r, caps', hi, hok, hr, h => by
    have hc : c.Ok := hok (.plus c) (by simp)
    have hcr : c.reads = true → len < block.length := hr (.plus c) (by simp)
    have e : pre ++ opsOf (.plus c :: is) = pre ++ [10] ++ c.ops ++ opsOf is := by rw [opsOf_cons]; simp [Instr.ops]
    have e0 : pre ++ opsOf (.plus c :: is) = pre ++ 10 :: c.ops ++ opsOf is := by rw [e]; simp
    have e2 : ((pre ++ [10]).length : Int) = pre.length + 1 := by simp
    have hcode : rdI (pre ++ opsOf (.plus c :: is)) pre.length = .ok 10 := by rw [opsOf_cons]; exact rdI_append _ _ _ rfl
    have h10 : ∀ n, single (pre ++ opsOf (.plus c :: is)) block len (n + 1) pre.length i caps =
        (single (pre ++ opsOf (.plus c :: is)) block len n (pre.length + 1) i caps >>= fun x =>
          if x.1.off > len then .ok (x.1, x.2)
          else consume (pre ++ opsOf (.plus c :: is)) block len true n (pre.length + 1) i ⟨-1, i⟩ x.2) := fun n => by
      rw [single, hcode, except_ok_bind, simple_plus, except_ok_bind]
      rfl
    rw [run] at h
    by_cases hk : count c ((block.take len).drop i) = 0
    · rw [hk] at h
      split at h
      · simp at h
      · simp [plusLoop] at h
    · obtain ⟨k, hk'⟩ : ∃ k, count c ((block.take len).drop i) = k + 1 := ⟨count c ((block.take len).drop i) - 1, by omega⟩
      obtain ⟨hlt, hcr1, -⟩ := count_succ hl hk'
      by_cases hnil : is = []
      · subst hnil
        rw [if_pos rfl, if_neg hk] at h
        simp only [Except.ok.injEq, Prod.mk.injEq] at h
        obtain ⟨rfl, rfl⟩ := h
        refine ⟨5, fun n hn => ?_⟩
        obtain ⟨m, rfl⟩ : ∃ m, n = m + 5 := ⟨n - 5, by omega⟩
        obtain ⟨o, ho, ho'⟩ := single_cls hc (pre ++ [10]) (opsOf []) block hl hi hcr (m + 2) caps
        obtain ⟨o1, ho1, ho1'⟩ := single_cls hc (pre ++ [10]) (opsOf []) block hl hi hcr (m + 1) []
        rw [hcr1, ← e, e2] at ho ho1
        rw [hcr1, e2] at ho' ho1'
        have ho' := ho' (by omega)
        have ho1' := ho1' (by omega)
        have hlen : ((pre ++ opsOf [Instr.plus c]).length : Int) = o1 := by rw [ho1', e]; simp [opsOf]; omega
        refine ⟨o1, ?_, fun _ _ => hlen.symm⟩
        rw [exec, if_pos (by rw [hlen, ho1']; have : 0 ≤ (c.ops.length : Int) := by omega
                             omega), h10, ho, except_ok_bind]
        dsimp only
        rw [if_neg (by omega), consume, ho1, except_ok_bind]
        dsimp only
        rw [if_neg (by omega), if_pos (by omega), except_ok_bind]
        dsimp only
        rw [if_neg (by omega), exec, if_neg (by omega)]
      · rw [if_neg hnil] at h
        obtain ⟨N, hN⟩ := consume_run (pre := pre) hl hc hcr hnil
          (fun i caps r caps' hi h => exec_run hl is _ i caps r caps' hi (fun a ha => hok a (by simp [ha])) (fun a ha => hr a (by simp [ha])) h)
          _ i none caps r caps' hi rfl h
        have hge := run_ge block len (.plus c :: is) i caps r caps' (by rw [run, if_neg hnil]; exact h)
        refine ⟨N + 4, fun n hn => ?_⟩
        obtain ⟨m, rfl⟩ : ∃ m, n = m + 4 := ⟨n - 4, by omega⟩
        obtain ⟨o, ho, ho'⟩ := single_cls hc (pre ++ [10]) (opsOf is) block hl hi hcr (m + 1) caps
        rw [hcr1, ← e, e2] at ho
        rw [hcr1, e2] at ho'
        obtain ⟨o2, ho2, ho2'⟩ := hN (m + 2) (by omega) ⟨-1, i⟩ (by simp)
        rw [← e0] at ho2 ho2'
        have hpos : (pre.length : Int) < (pre ++ opsOf (.plus c :: is)).length := by rw [e]; simp; omega
        by_cases hbr : r > len ∨ r = -1
        · refine ⟨o2, ?_, by omega⟩
          rw [exec, if_pos hpos, h10, ho, except_ok_bind]
          dsimp only
          rw [if_neg (by omega), ho2, except_ok_bind]
          dsimp only
          rw [if_pos hbr]
        · have hoo := ho2' (by omega) (by omega)
          refine ⟨o2, ?_, fun _ _ => hoo⟩
          rw [exec, if_pos hpos, h10, ho, except_ok_bind]
          dsimp only
          rw [if_neg (by omega), ho2, except_ok_bind]
          dsimp only
          rw [if_neg hbr, exec, if_neg (by omega)]

/-! ## Lemmas: what the instructions leave in the captures -/

/-- The captures differ at most where the instructions write. -/
def Same (is : List Instr) (caps caps' : List Cap) : Prop :=
  caps'.length = caps.length ∧ ∀ m c, caps[m]? = some c →
    ∃ c', caps'[m]? = some c' ∧ (.beg m ∉ is → c'.start = c.start) ∧ (.fin m ∉ is → c'.len = c.len)

theorem Same.refl (is : List Instr) (caps : List Cap) : Same is caps caps := ⟨rfl, fun _ c h => ⟨c, h, fun _ => rfl, fun _ => rfl⟩⟩

theorem Same.trans {is : List Instr} {a b c : List Cap} (h1 : Same is a b) (h2 : Same is b c) : Same is a c := by
  refine ⟨h2.1.trans h1.1, fun m x hx => ?_⟩
  obtain ⟨y, hy, y1, y2⟩ := h1.2 m x hx
  obtain ⟨z, hz, z1, z2⟩ := h2.2 m y hy
  exact ⟨z, hz, fun h => (z1 h).trans (y1 h), fun h => (z2 h).trans (y2 h)⟩

theorem Same.mono {is is' : List Instr} {a b : List Cap} (h : Same is a b) (hs : ∀ ins ∈ is, ins ∈ is') : Same is' a b := by
  refine ⟨h.1, fun m x hx => ?_⟩
  obtain ⟨y, hy, y1, y2⟩ := h.2 m x hx
  exact ⟨y, hy, fun h' => y1 fun h'' => h' (hs _ h''), fun h' => y2 fun h'' => h' (hs _ h'')⟩

theorem byte_toNat {n : Nat} (h : n ≤ 255) : (BitVec.ofNat 8 n).toNat = n := by simp; omega

theorem begin_get {caps : List Cap} {n m : Nat} {off : Int} (hn : n ≤ 255) :
    (beginCapture caps (BitVec.ofNat 8 n) off)[m]? = (caps[m]?).map fun c => if m = n then { c with start := off } else c := by
  rw [beginCapture, byte_toNat hn, List.getElem?_modify]
  by_cases h : n = m
  · subst h; simp
  · have h' : ¬ m = n := fun e => h e.symm
    simp [h, h']

theorem end_get {caps : List Cap} {n m : Nat} {off : Int} (hn : n ≤ 255) :
    (endCapture caps (BitVec.ofNat 8 n) off)[m]? = (caps[m]?).map fun c => if m = n then { c with len := off - c.start } else c := by
  rw [endCapture, byte_toNat hn, List.getElem?_modify]
  by_cases h : n = m
  · subst h; simp
  · have h' : ¬ m = n := fun e => h e.symm
    simp [h, h']

theorem begin_same {caps : List Cap} {n : Nat} {off : Int} {is : List Instr} (hn : n ≤ 255) :
    Same (.beg n :: is) caps (beginCapture caps (BitVec.ofNat 8 n) off) := by
  refine ⟨by simp [beginCapture], fun m c hc => ⟨_, by rw [begin_get hn, hc]; rfl, ?_, ?_⟩⟩
  · intro h
    split
    · rename_i e; subst e; simp at h
    · rfl
  · intro _; split <;> rfl

theorem end_same {caps : List Cap} {n : Nat} {off : Int} {is : List Instr} (hn : n ≤ 255) :
    Same (.fin n :: is) caps (endCapture caps (BitVec.ofNat 8 n) off) := by
  refine ⟨by simp [endCapture], fun m c hc => ⟨_, by rw [end_get hn, hc]; rfl, ?_, ?_⟩⟩
  · intro _; split <;> rfl
  · intro h
    split
    · rename_i e; subst e; simp at h
    · rfl

theorem plusLoop_same {f : Nat → List Cap → Except Fault (Int × List Cap)} {len : Nat} {is : List Instr}
    (hf : ∀ i caps r caps', f i caps = .ok (r, caps') → Same is caps caps') : ∀ (k i : Nat) (best : Option Int) (caps : List Cap) (r : Int) (caps' : List Cap),
    plusLoop f len k i best caps = .ok (r, caps') → Same is caps caps'
  | 0, i, none, caps, r, caps', h => by simp [plusLoop] at h
  | 0, i, some b, caps, r, caps', h => by
    simp only [plusLoop, Except.ok.injEq, Prod.mk.injEq] at h
    exact h.2 ▸ Same.refl _ _
  | k + 1, i, best, caps, r, caps', h => by
    rw [plusLoop] at h
    cases h1 : f (i + 1) caps with
    | error e => rw [h1] at h; simp at h
    | ok x =>
      obtain ⟨r1, c1⟩ := x
      rw [h1, except_ok_bind] at h
      dsimp only at h
      split at h
      · cases h2 : f (i + 1) c1 with
        | error e => rw [h2] at h; simp at h
        | ok x =>
          obtain ⟨r2, c2⟩ := x
          rw [h2, except_ok_bind] at h
          dsimp only at h
          exact ((hf _ _ _ _ h1).trans (hf _ _ _ _ h2)).trans (plusLoop_same hf k (i + 1) (some r1) c2 r caps' h)
      · exact (hf _ _ _ _ h1).trans (plusLoop_same hf k (i + 1) best c1 r caps' h)

theorem run_same (block : List Byte) (len : Nat) : ∀ (is : List Instr) (i : Nat) (caps : List Cap) (r : Int) (caps' : List Cap), (∀ ins ∈ is, ins.Ok) →
    run block len is i caps = .ok (r, caps') → Same is caps caps'
  | [], i, caps, r, caps', hok, h => by
    simp only [run, Except.ok.injEq, Prod.mk.injEq] at h
    exact h.2 ▸ Same.refl _ _
  | .beg n :: is, i, caps, r, caps', hok, h =>
    (begin_same (hok (.beg n) (by simp))).trans ((run_same block len is _ _ _ _ (fun a ha => hok a (by simp [ha])) h).mono (fun a ha => by simp [ha]))
  | .fin n :: is, i, caps, r, caps', hok, h =>
    (end_same (hok (.fin n) (by simp))).trans ((run_same block len is _ _ _ _ (fun a ha => hok a (by simp [ha])) h).mono (fun a ha => by simp [ha]))
  | .bol :: is, i, caps, r, caps', hok, h => by
    rw [run] at h
    split at h
    · exact (run_same block len is _ _ _ _ (fun a ha => hok a (by simp [ha])) h).mono (fun a ha => by simp [ha])
    · simp only [Except.ok.injEq, Prod.mk.injEq] at h; exact h.2 ▸ Same.refl _ _
  | .eol :: is, i, caps, r, caps', hok, h => by
    rw [run] at h
    split at h
    · exact (run_same block len is _ _ _ _ (fun a ha => hok a (by simp [ha])) h).mono (fun a ha => by simp [ha])
    · simp only [Except.ok.injEq, Prod.mk.injEq] at h; exact h.2 ▸ Same.refl _ _
  | .lit s :: is, i, caps, r, caps', hok, h => by
    rw [run] at h
    split at h
    · exact (run_same block len is _ _ _ _ (fun a ha => hok a (by simp [ha])) h).mono (fun a ha => by simp [ha])
    · simp only [Except.ok.injEq, Prod.mk.injEq] at h; exact h.2 ▸ Same.refl _ _
  | .one c :: is, i, caps, r, caps', hok, h => by
    rw [run] at h
    split at h
    · simp only [Except.ok.injEq, Prod.mk.injEq] at h; exact h.2 ▸ Same.refl _ _
    · exact (run_same block len is _ _ _ _ (fun a ha => hok a (by simp [ha])) h).mono (fun a ha => by simp [ha])
  | .plus c :: is, i, caps, r, caps', hok, h => by
    rw [run] at h
    split at h
    · split at h
      · simp at h
      · simp only [Except.ok.injEq, Prod.mk.injEq] at h; exact h.2 ▸ Same.refl _ _
    · exact (plusLoop_same (fun i caps r caps' h => run_same block len is i caps r caps' (fun a ha => hok a (by simp [ha])) h) _ _ _ _ _ _ h).mono
        (fun a ha => by simp [ha])

theorem plusLoop_indep {f : Nat → List Cap → Except Fault (Int × List Cap)} {len : Nat}
    (hf : ∀ i caps r caps', f i caps = .ok (r, caps') → ∀ caps2, ∃ caps2', f i caps2 = .ok (r, caps2')) :
    ∀ (k i : Nat) (best : Option Int) (caps : List Cap) (r : Int) (caps' : List Cap),
    plusLoop f len k i best caps = .ok (r, caps') → ∀ caps2, ∃ caps2', plusLoop f len k i best caps2 = .ok (r, caps2')
  | 0, i, none, caps, r, caps', h => by simp [plusLoop] at h
  | 0, i, some b, caps, r, caps', h => by
    simp only [plusLoop, Except.ok.injEq, Prod.mk.injEq] at h
    intro caps2
    exact ⟨caps2, by rw [plusLoop, h.1]⟩
  | k + 1, i, best, caps, r, caps', h => by
    intro caps2
    rw [plusLoop] at h
    cases h1 : f (i + 1) caps with
    | error e => rw [h1] at h; simp at h
    | ok x =>
      obtain ⟨r1, c1⟩ := x
      rw [h1, except_ok_bind] at h
      dsimp only at h
      obtain ⟨d1, g1⟩ := hf _ _ _ _ h1 caps2
      split at h
      · rename_i hle
        cases h2 : f (i + 1) c1 with
        | error e => rw [h2] at h; simp at h
        | ok x =>
          obtain ⟨r2, c2⟩ := x
          rw [h2, except_ok_bind] at h
          dsimp only at h
          obtain ⟨d2, g2⟩ := hf _ _ _ _ h2 d1
          obtain ⟨d3, g3⟩ := plusLoop_indep hf k (i + 1) (some r1) c2 r caps' h d2
          refine ⟨d3, ?_⟩
          rw [plusLoop, g1, except_ok_bind]
          dsimp only
          rw [if_pos hle, g2, except_ok_bind]
          exact g3
      · rename_i hle
        obtain ⟨d3, g3⟩ := plusLoop_indep hf k (i + 1) best c1 r caps' h d1
        refine ⟨d3, ?_⟩
        rw [plusLoop, g1, except_ok_bind]
        dsimp only
        rw [if_neg hle]
        exact g3

/-- The captures have no influence on the result. -/
theorem run_indep (block : List Byte) (len : Nat) : ∀ (is : List Instr) (i : Nat) (caps : List Cap) (r : Int) (caps' : List Cap),
    run block len is i caps = .ok (r, caps') → ∀ caps2, ∃ caps2', run block len is i caps2 = .ok (r, caps2')
  | [], i, caps, r, caps', h => by
    simp only [run, Except.ok.injEq, Prod.mk.injEq] at h
    exact fun caps2 => ⟨caps2, by rw [run, h.1]⟩
  | .beg n :: is, i, caps, r, caps', h => fun caps2 => run_indep block len is _ _ _ _ h _
  | .fin n :: is, i, caps, r, caps', h => fun caps2 => run_indep block len is _ _ _ _ h _
  | .bol :: is, i, caps, r, caps', h => by
    intro caps2
    rw [run] at h ⊢
    split at h
    · rename_i h0; rw [if_pos h0]; exact run_indep block len is _ _ _ _ h _
    · rename_i h0; rw [if_neg h0]; simp only [Except.ok.injEq, Prod.mk.injEq] at h; exact ⟨caps2, by rw [h.1]⟩
  | .eol :: is, i, caps, r, caps', h => by
    intro caps2
    rw [run] at h ⊢
    split at h
    · rename_i h0; rw [if_pos h0]; exact run_indep block len is _ _ _ _ h _
    · rename_i h0; rw [if_neg h0]; simp only [Except.ok.injEq, Prod.mk.injEq] at h; exact ⟨caps2, by rw [h.1]⟩
  | .lit s :: is, i, caps, r, caps', h => by
    intro caps2
    rw [run] at h ⊢
    split at h
    · rename_i h0; rw [if_pos h0]; exact run_indep block len is _ _ _ _ h _
    · rename_i h0; rw [if_neg h0]; simp only [Except.ok.injEq, Prod.mk.injEq] at h; exact ⟨caps2, by rw [h.1]⟩
  | .one c :: is, i, caps, r, caps', h => by
    intro caps2
    rw [run] at h ⊢
    split at h
    · rename_i h0; rw [if_pos h0]; simp only [Except.ok.injEq, Prod.mk.injEq] at h; exact ⟨caps2, by rw [h.1]⟩
    · rename_i h0; rw [if_neg h0]; exact run_indep block len is _ _ _ _ h _
  | .plus c :: is, i, caps, r, caps', h => by
    intro caps2
    rw [run] at h ⊢
    split at h
    · rename_i h0
      rw [if_pos h0]
      split at h
      · simp at h
      · rename_i h1; rw [if_neg h1]; simp only [Except.ok.injEq, Prod.mk.injEq] at h; exact ⟨caps2, by rw [h.1]⟩
    · rename_i h0
      rw [if_neg h0]
      exact plusLoop_indep (fun i caps r caps' h => run_indep block len is i caps r caps' h) _ _ _ _ _ _ h _

/-- No escape matches the character behind the text. -/
def Quiet (block : List Byte) (len : Nat) (is : List Instr) : Prop := ∀ c, .one c ∈ is → clsRun block len c len = -1

theorem Quiet.tail {block : List Byte} {len : Nat} {a : Instr} {is : List Instr} (h : Quiet block len (a :: is)) : Quiet block len is :=
  fun c hc => h c (by simp [hc])

theorem plusLoop_le {f : Nat → List Cap → Except Fault (Int × List Cap)} {len : Nat} :
    ∀ (k i : Nat) (best : Option Int) (caps : List Cap) (r : Int) (caps' : List Cap), (∀ b, best = some b → b ≤ len) →
    plusLoop f len k i best caps = .ok (r, caps') → r ≤ len
  | 0, i, none, caps, r, caps', hb, h => by simp [plusLoop] at h
  | 0, i, some b, caps, r, caps', hb, h => by
    simp only [plusLoop, Except.ok.injEq, Prod.mk.injEq] at h
    exact h.1 ▸ hb b rfl
  | k + 1, i, best, caps, r, caps', hb, h => by
    rw [plusLoop] at h
    cases h1 : f (i + 1) caps with
    | error e => rw [h1] at h; simp at h
    | ok x =>
      obtain ⟨r1, c1⟩ := x
      rw [h1, except_ok_bind] at h
      dsimp only at h
      split at h
      · rename_i hle
        cases h2 : f (i + 1) c1 with
        | error e => rw [h2] at h; simp at h
        | ok x =>
          obtain ⟨r2, c2⟩ := x
          rw [h2, except_ok_bind] at h
          exact plusLoop_le k (i + 1) (some r1) c2 r caps' (fun b e => by cases e; exact hle) h
      · exact plusLoop_le k (i + 1) best c1 r caps' hb h

theorem run_le {block : List Byte} {len : Nat} (hl : len ≤ block.length) : ∀ (is : List Instr) (i : Nat) (caps : List Cap) (r : Int) (caps' : List Cap),
    Quiet block len is → i ≤ len → run block len is i caps = .ok (r, caps') → r ≤ len
  | [], i, caps, r, caps', hq, hi, h => by
    simp only [run, Except.ok.injEq, Prod.mk.injEq] at h
    omega
  | .beg n :: is, i, caps, r, caps', hq, hi, h => run_le hl is _ _ _ _ hq.tail hi h
  | .fin n :: is, i, caps, r, caps', hq, hi, h => run_le hl is _ _ _ _ hq.tail hi h
  | .bol :: is, i, caps, r, caps', hq, hi, h => by
    rw [run] at h
    split at h
    · exact run_le hl is _ _ _ _ hq.tail hi h
    · simp only [Except.ok.injEq, Prod.mk.injEq] at h; omega
  | .eol :: is, i, caps, r, caps', hq, hi, h => by
    rw [run] at h
    split at h
    · exact run_le hl is _ _ _ _ hq.tail hi h
    · simp only [Except.ok.injEq, Prod.mk.injEq] at h; omega
  | .lit s :: is, i, caps, r, caps', hq, hi, h => by
    rw [run] at h
    split at h
    · rename_i h0
      have := h0.length_le
      simp at this
      exact run_le hl is _ _ _ _ hq.tail (by omega) h
    · simp only [Except.ok.injEq, Prod.mk.injEq] at h; omega
  | .one c :: is, i, caps, r, caps', hq, hi, h => by
    rw [run] at h
    have h1 := clsRun_cases block len c i
    split at h
    · simp only [Except.ok.injEq, Prod.mk.injEq] at h
      have := hq c (by simp)
      by_cases e : i = len
      · subst e; omega
      · omega
    · exact run_le hl is _ _ _ _ hq.tail (by omega) h
  | .plus c :: is, i, caps, r, caps', hq, hi, h => by
    rw [run] at h
    split at h
    · split at h
      · simp at h
      · rename_i h0
        simp only [Except.ok.injEq, Prod.mk.injEq] at h
        have : i < len := by
          by_cases hlt : i < len
          · exact hlt
          · rw [List.drop_eq_nil_of_le (by simp; omega)] at h0
            simp [count] at h0
        omega
    · exact plusLoop_le _ _ _ _ _ _ (by simp) h

/-- At a character of `c` the instructions run without a fault: the next thing they want from the text is another character, or its end. -/
def Avoids (c : Cls) : List Instr → Prop
  | [] => True
  | .beg _ :: is | .fin _ :: is => Avoids c is
  | .bol :: _ | .eol :: _ => True
  | .lit s :: _ => ∀ d, s.head? = some d → c.has d = false
  | .one d :: _ => ∀ ch, d.has ch = true → c.has ch = false
  | .plus _ :: _ => False

theorem avoids_run {block : List Byte} {len : Nat} {c : Cls} {ch : Byte} (hl : len ≤ block.length) (hch : c.has ch = true) : ∀ (is : List Instr) (i : Nat)
    (caps : List Cap), Avoids c is → (∀ ins ∈ is, ins.Ok) → 0 < i → i < len → block[i]? = some ch →
    ∃ r caps', run block len is i caps = .ok (r, caps')
  | [], i, caps, ha, hok, h0, hi, hb => ⟨_, _, rfl⟩
  | .beg n :: is, i, caps, ha, hok, h0, hi, hb => avoids_run hl hch is i _ ha (fun a ha => hok a (by simp [ha])) h0 hi hb
  | .fin n :: is, i, caps, ha, hok, h0, hi, hb => avoids_run hl hch is i _ ha (fun a ha => hok a (by simp [ha])) h0 hi hb
  | .bol :: is, i, caps, ha, hok, h0, hi, hb => ⟨_, _, by rw [run, if_neg (by omega)]⟩
  | .eol :: is, i, caps, ha, hok, h0, hi, hb => ⟨_, _, by rw [run, if_neg (by omega)]⟩
  | .lit s :: is, i, caps, ha, hok, h0, hi, hb => by
    refine ⟨-1, caps, ?_⟩
    rw [run, if_neg]
    intro hp
    cases s with
    | nil => exact (hok (.lit []) (by simp)).1 rfl
    | cons d s =>
      have h1 : [d] <+: (block.take len).drop i := List.IsPrefix.trans ⟨s, rfl⟩ hp
      obtain ⟨-, h2⟩ := (prefix_one hl).1 h1
      rw [hb] at h2
      have := ha d rfl
      rw [← Option.some.inj h2, hch] at this
      simp at this
  | .one d :: is, i, caps, ha, hok, h0, hi, hb => by
    refine ⟨_, _, by rw [run, if_pos]; left; rw [clsRun_text hi hb, if_neg]; intro h; have := ha ch h; rw [hch] at this; simp at this⟩
  | .plus d :: is, i, caps, ha, hok, h0, hi, hb => ha.elim

theorem plusLoop_eq {f : Nat → List Cap → Except Fault (Int × List Cap)} {len : Nat} {is : List Instr}
    (hsame : ∀ i caps r caps', f i caps = .ok (r, caps') → Same is caps caps')
    (hind : ∀ i caps r caps', f i caps = .ok (r, caps') → ∀ caps2, ∃ caps2', f i caps2 = .ok (r, caps2')) :
    ∀ (k i : Nat) (best : Option Int) (caps : List Cap), (∀ m caps, i < m → m ≤ i + k → ∃ r caps', f m caps = .ok (r, caps')) →
    (∀ caps r caps', f (i + k + 1) caps = .ok (r, caps') → r ≤ len) → (∀ caps, ∃ r caps', f (i + k + 1) caps = .ok (r, caps')) →
    ∃ caps1, Same is caps caps1 ∧ plusLoop f len (k + 1) i best caps = f (i + k + 1) caps1
  | 0, i, best, caps, hmid, hle, hok => by
    obtain ⟨r, c1, h1⟩ := hok caps
    obtain ⟨r2, c2, h2⟩ := hok c1
    obtain ⟨c3, h3⟩ := hind _ _ _ _ h1 c1
    simp only [Nat.add_zero] at *
    refine ⟨c1, hsame _ _ _ _ h1, ?_⟩
    rw [plusLoop, h1, except_ok_bind]
    dsimp only
    rw [if_pos (hle _ _ _ h1), h3, except_ok_bind]
    dsimp only
    rw [plusLoop]
  | k + 1, i, best, caps, hmid, hle, hok => by
    obtain ⟨r, c1, h1⟩ := hmid (i + 1) caps (by omega) (by omega)
    have e : i + 1 + k + 1 = i + (k + 1) + 1 := by omega
    have hmid' : ∀ m caps, i + 1 < m → m ≤ i + 1 + k → ∃ r caps', f m caps = .ok (r, caps') := fun m caps a b => hmid m caps (by omega) (by omega)
    rw [plusLoop, h1, except_ok_bind]
    dsimp only
    by_cases hr : r ≤ len
    · obtain ⟨c2, h2⟩ := hind _ _ _ _ h1 c1
      rw [if_pos hr, h2, except_ok_bind]
      dsimp only
      obtain ⟨c3, hs, he⟩ := plusLoop_eq hsame hind k (i + 1) (some r) c2 hmid' (e ▸ hle) (e ▸ hok)
      exact ⟨c3, ((hsame _ _ _ _ h1).trans (hsame _ _ _ _ h2)).trans hs, e ▸ he⟩
    · rw [if_neg hr]
      obtain ⟨c3, hs, he⟩ := plusLoop_eq hsame hind k (i + 1) best c1 hmid' (e ▸ hle) (e ▸ hok)
      exact ⟨c3, (hsame _ _ _ _ h1).trans hs, e ▸ he⟩

theorem getElem?_take_of_lt {block : List Byte} {len i : Nat} {ch : Byte} (h : (block.take len)[i]? = some ch) : i < len ∧ block[i]? = some ch := by
  rw [List.getElem?_take] at h
  split at h
  · exact ⟨by omega, h⟩
  · simp at h

theorem count_of {c : Cls} {text : List Byte} : ∀ (d i : Nat), (∀ m, i ≤ m → m < i + d → ∃ ch, text[m]? = some ch ∧ c.has ch = true) →
    (∀ ch, text[i + d]? = some ch → c.has ch = false) → count c (text.drop i) = d
  | 0, i, _, h2 => by
    by_cases hi : i < text.length
    · rw [List.drop_eq_getElem_cons hi, count, if_neg]
      have := h2 text[i] (by simp)
      simp [this]
    · rw [List.drop_eq_nil_of_le (by omega), count]
  | d + 1, i, h1, h2 => by
    obtain ⟨ch, h3, h4⟩ := h1 i (by omega) (by omega)
    obtain ⟨hi, h5⟩ := List.getElem?_eq_some_iff.1 h3
    rw [List.drop_eq_getElem_cons hi, h5, count, if_pos h4, count_of d (i + 1) (fun m a b => h1 m (by omega) (by omega))]
    intro ch hch
    exact h2 ch (by rw [← hch]; congr 1; omega)

/-- Every `c+` is followed by something, and by nothing that would run into a fault in its intermediate rounds. -/
def Calm (block : List Byte) (len : Nat) : List Instr → Prop
  | [] => True
  | .plus c :: is => is ≠ [] ∧ Avoids c is ∧ Quiet block len is ∧ Calm block len is
  | .beg _ :: is | .fin _ :: is | .bol :: is | .eol :: is | .lit _ :: is | .one _ :: is => Calm block len is

/-- A `c+` takes what there is. -/
theorem run_plus {block : List Byte} {len : Nat} (hl : len ≤ block.length) {c : Cls} {is : List Instr} {i k : Nat} (hok : ∀ ins ∈ is, ins.Ok)
    (hcalm : Calm block len (.plus c :: is)) (hik : i < k) (hkl : k ≤ len) (h : ∀ m, i ≤ m → m < k → ∃ ch, (block.take len)[m]? = some ch ∧ c.has ch = true)
    (hmax : ∀ ch, (block.take len)[k]? = some ch → c.has ch = false) {r : Int}
    (hrest : ∀ caps, ∃ caps', run block len is k caps = .ok (r, caps')) (caps : List Cap) :
    ∃ caps1, Same is caps caps1 ∧ run block len (.plus c :: is) i caps = run block len is k caps1 := by
  obtain ⟨h0, hav, hq, -⟩ := hcalm
  obtain ⟨d, rfl⟩ : ∃ d, k = i + d + 1 := ⟨k - i - 1, by omega⟩
  have hc := count_of (d + 1) i (text := block.take len) (c := c) (fun m a b => h m a (by omega)) (fun ch hch => hmax ch hch)
  rw [run, if_neg h0, hc]
  apply plusLoop_eq (fun i caps r caps' h => run_same block len is i caps r caps' hok h) (fun i caps r caps' h => run_indep block len is i caps r caps' h)
  · intro m caps hm1 hm2
    obtain ⟨ch, h1, h2⟩ := h m (by omega) (by omega)
    obtain ⟨h3, h4⟩ := getElem?_take_of_lt h1
    exact avoids_run hl h2 is m caps hav hok (by omega) h3 h4
  · intro caps r caps' h
    exact run_le hl is _ _ _ _ hq hkl h
  · intro caps
    obtain ⟨caps', h⟩ := hrest caps
    exact ⟨r, caps', h⟩

theorem matches_le {text : List Byte} {p : Pat} {i j : Nat} {cs : List (Nat × Nat)} (h : Matches text p i j cs) : i ≤ text.length → j ≤ text.length := by
  induction h with
  | nil => exact id
  | lit h hp ih =>
    intro hi
    have := h.length_le
    simp at this
    exact ih (by omega)
  | one h hc hp ih => intro _; exact ih (by obtain ⟨h, -⟩ := List.getElem?_eq_some_iff.1 h; omega)
  | plus hk h hmax hp ih =>
    rename_i k _ _
    intro _
    obtain ⟨ch, h1, -⟩ := h (k - 1) (by omega) (by omega)
    obtain ⟨h, -⟩ := List.getElem?_eq_some_iff.1 h1
    exact ih (by omega)
  | bol hp ih => exact ih
  | eol hp ih => exact ih
  | group hq hp ih1 ih2 => exact fun hi => ih2 (ih1 hi)

theorem matches_ge {text : List Byte} {p : Pat} {i j : Nat} {cs : List (Nat × Nat)} (h : Matches text p i j cs) : i ≤ j := by
  induction h with
  | nil => omega
  | _ => omega

theorem matches_length {text : List Byte} {p : Pat} {i j : Nat} {cs : List (Nat × Nat)} (h : Matches text p i j cs) : cs.length = p.groups := by
  induction h with
  | nil => rfl
  | group hq hp ih1 ih2 => simp [Pat.groups, ih1, ih2]; omega
  | _ => assumption

/-- The instructions write only to captures numbered below `n`, or not below `m`. -/
def Outside (n m : Nat) (is : List Instr) : Prop := ∀ k, (.beg k ∈ is ∨ .fin k ∈ is) → k < n ∨ m ≤ k

theorem flat_bounds : ∀ (p : Pat) (n k : Nat), (.beg k ∈ p.flat n ∨ .fin k ∈ p.flat n) → n ≤ k ∧ k < n + p.groups
  | .nil, n, k, h => by simp [Pat.flat] at h
  | .lit s p, n, k, h => flat_bounds p n k (by simpa [Pat.flat] using h)
  | .one s p, n, k, h => flat_bounds p n k (by simpa [Pat.flat] using h)
  | .plus s p, n, k, h => flat_bounds p n k (by simpa [Pat.flat] using h)
  | .bol p, n, k, h => flat_bounds p n k (by simpa [Pat.flat] using h)
  | .eol p, n, k, h => flat_bounds p n k (by simpa [Pat.flat] using h)
  | .group q p, n, k, h => by
    simp only [Pat.flat, List.cons_append, List.mem_cons, List.mem_append, reduceCtorEq, false_or, Instr.beg.injEq, Instr.fin.injEq] at h
    simp only [Pat.groups]
    have h1 := flat_bounds q (n + 1) k
    have h2 := flat_bounds p (n + 1 + q.groups) k
    rcases h with (h | h | h) | (h | h | h)
    · omega
    · have := h1 (Or.inl h); omega
    · have := h2 (Or.inl h); omega
    · have := h1 (Or.inr h); omega
    · omega
    · have := h2 (Or.inr h); omega

/-- The captures `cs` stand in the cells from `n` on. -/
def Holds (cs : List (Nat × Nat)) (n : Nat) (caps : List Cap) : Prop :=
  ∀ k a b : Nat, cs[k]? = some (a, b) → n + k < caps.length → caps[n + k]? = some ⟨a, b⟩

theorem calm_drop {block : List Byte} {len : Nat} : ∀ {is : List Instr} {a : Instr} {js : List Instr}, Calm block len (is ++ a :: js) → Calm block len js
  | [], .plus c, js, h => h.2.2.2
  | [], .beg _, js, h => h
  | [], .fin _, js, h => h
  | [], .bol, js, h => h
  | [], .eol, js, h => h
  | [], .lit _, js, h => h
  | [], .one _, js, h => h
  | .plus c :: is, a, js, h => calm_drop (is := is) h.2.2.2
  | .beg _ :: is, a, js, h => calm_drop (is := is) h
  | .fin _ :: is, a, js, h => calm_drop (is := is) h
  | .bol :: is, a, js, h => calm_drop (is := is) h
  | .eol :: is, a, js, h => calm_drop (is := is) h
  | .lit _ :: is, a, js, h => calm_drop (is := is) h
  | .one _ :: is, a, js, h => calm_drop (is := is) h

theorem outside_fin {n : Nat} {q p : Pat} {rest : List Instr} (hout : Outside n (n + (Pat.group q p).groups) rest) :
    Outside (n + 1) (n + 1 + q.groups) (.fin n :: (p.flat (n + 1 + q.groups) ++ rest)) := by
  intro m hm
  simp only [Pat.groups] at hout
  simp only [List.mem_cons, reduceCtorEq, false_or, List.mem_append, Instr.fin.injEq] at hm
  have h1 := flat_bounds p (n + 1 + q.groups) m
  have h2 := hout m
  rcases hm with (h | h) | (h | h | h)
  · have := h1 (Or.inl h); omega
  · have := h2 (Or.inl h); omega
  · omega
  · have := h1 (Or.inr h); omega
  · have := h2 (Or.inr h); omega

/-- Where a pattern matches, its instructions are run up to the ones behind it; its captures are set, and others only if the ones behind it write them. -/
theorem matches_run {block text : List Byte} {len : Nat} (hl : len ≤ block.length) (ht : block.take len = text) {p : Pat} {i j : Nat} {cs : List (Nat × Nat)}
    (h : Matches text p i j cs) : i ≤ len → ∀ (n : Nat) (rest : List Instr) (r : Int), (∀ ins ∈ p.flat n ++ rest, ins.Ok) →
    Calm block len (p.flat n ++ rest) → Outside n (n + p.groups) rest → (∀ caps, ∃ caps', run block len rest j caps = .ok (r, caps')) →
    ∀ caps, ∃ caps1, run block len (p.flat n ++ rest) i caps = run block len rest j caps1 ∧ caps1.length = caps.length ∧ Holds cs n caps1 ∧
      ∀ m c, m < n ∨ n + p.groups ≤ m → caps[m]? = some c →
        ∃ c', caps1[m]? = some c' ∧ (.beg m ∉ rest → c'.start = c.start) ∧ (.fin m ∉ rest → c'.len = c.len) := by
  have hlen : text.length = len := by rw [← ht]; simp; omega
  induction h with
  | nil =>
    intro hi n rest r hok hcalm hout hrest caps
    exact ⟨caps, rfl, rfl, by simp [Holds], fun m c _ hc => ⟨c, hc, fun _ => rfl, fun _ => rfl⟩⟩
  | lit h hp ih =>
    intro hi n rest r hok hcalm hout hrest caps
    have := h.length_le
    simp at this
    obtain ⟨caps1, h1, h2⟩ := ih (by omega) n rest r (fun a ha => hok a (by simp only [Pat.flat, List.cons_append, List.mem_cons]; exact Or.inr ha)) hcalm hout hrest caps
    exact ⟨caps1, by rw [Pat.flat, List.cons_append, run, ht, if_pos h, h1], h2⟩
  | one h hc hp ih =>
    intro hi n rest r hok hcalm hout hrest caps
    rename_i c p i j cs ch
    obtain ⟨h3, h4⟩ := getElem?_take_of_lt (ht ▸ h)
    obtain ⟨caps1, h1, h2⟩ := ih (by omega) n rest r (fun a ha => hok a (by simp only [Pat.flat, List.cons_append, List.mem_cons]; exact Or.inr ha)) hcalm hout hrest caps
    refine ⟨caps1, ?_, h2⟩
    rw [Pat.flat, List.cons_append, run, clsRun_text h3 h4, if_pos hc, if_neg (by omega), h1]
  | plus hk h hmax hp ih =>
    intro hi n rest r hok hcalm hout hrest caps
    rename_i c p i k j cs
    have hkl : k ≤ len := by
      obtain ⟨ch, h1, -⟩ := h (k - 1) (by omega) (by omega)
      obtain ⟨h, -⟩ := List.getElem?_eq_some_iff.1 h1
      omega
    have hok' : ∀ ins ∈ p.flat n ++ rest, ins.Ok := fun a ha => hok a (by simp only [Pat.flat, List.cons_append, List.mem_cons]; exact Or.inr ha)
    have hcalm' : Calm block len (.plus c :: (p.flat n ++ rest)) := hcalm
    have hr : ∀ caps, ∃ caps', run block len (p.flat n ++ rest) k caps = .ok (r, caps') := by
      intro caps
      obtain ⟨c1, h1, -⟩ := ih hkl n rest r hok' hcalm'.2.2.2 hout hrest caps
      rw [h1]
      exact hrest c1
    obtain ⟨c0, hs, he⟩ := run_plus hl hok' hcalm' hk hkl (ht ▸ h) (ht ▸ hmax) hr caps
    obtain ⟨c1, h1, h2, h3, h4⟩ := ih hkl n rest r hok' hcalm'.2.2.2 hout hrest c0
    refine ⟨c1, ?_, h2.trans hs.1, h3, ?_⟩
    · rw [Pat.flat, List.cons_append, he, h1]
    · intro m c hm hc
      obtain ⟨c', e1, e2, e3⟩ := hs.2 m c hc
      obtain ⟨c'', g1, g2, g3⟩ := h4 m c' hm e1
      have hm' : ¬ (n ≤ m ∧ m < n + p.groups) := by simp only [Pat.groups] at hm; omega
      refine ⟨c'', g1, fun hb => (g2 hb).trans (e2 ?_), fun hb => (g3 hb).trans (e3 ?_)⟩
      · rw [List.mem_append]; rintro (h | h)
        · exact hm' (flat_bounds p n m (Or.inl h))
        · exact hb h
      · rw [List.mem_append]; rintro (h | h)
        · exact hm' (flat_bounds p n m (Or.inr h))
        · exact hb h
  | bol hp ih =>
    intro hi n rest r hok hcalm hout hrest caps
    obtain ⟨caps1, h1, h2⟩ := ih hi n rest r (fun a ha => hok a (by simp only [Pat.flat, List.cons_append, List.mem_cons]; exact Or.inr ha)) hcalm hout hrest caps
    exact ⟨caps1, by rw [Pat.flat, List.cons_append, run, if_pos rfl, h1], h2⟩
  | eol hp ih =>
    intro hi n rest r hok hcalm hout hrest caps
    obtain ⟨caps1, h1, h2⟩ := ih hi n rest r (fun a ha => hok a (by simp only [Pat.flat, List.cons_append, List.mem_cons]; exact Or.inr ha)) hcalm hout hrest caps
    exact ⟨caps1, by rw [Pat.flat, List.cons_append, run, if_pos hlen, h1], h2⟩
  | group hq hp ih1 ih2 =>
    intro hi n rest r hok hcalm hout hrest caps
    rename_i q p i k j cs ds
    have hkl : k ≤ len := hlen ▸ matches_le hq (by omega)
    have hik : i ≤ k := matches_ge hq
    have e1 : (Pat.group q p).flat n ++ rest = .beg n :: (q.flat (n + 1) ++ (.fin n :: (p.flat (n + 1 + q.groups) ++ rest))) := by simp [Pat.flat]
    rw [e1] at hok hcalm ⊢
    have hn : n ≤ 255 := hok (.beg n) (by simp)
    have hokq : ∀ ins ∈ q.flat (n + 1) ++ (.fin n :: (p.flat (n + 1 + q.groups) ++ rest)), ins.Ok := fun a ha => hok a (by simp only [List.mem_cons]; exact Or.inr ha)
    have hokp : ∀ ins ∈ p.flat (n + 1 + q.groups) ++ rest, ins.Ok := fun a ha => hokq a (by rw [List.mem_append]; exact Or.inr (by rw [List.mem_cons]; exact Or.inr ha))
    have hcalmq : Calm block len (q.flat (n + 1) ++ (.fin n :: (p.flat (n + 1 + q.groups) ++ rest))) := hcalm
    have hcalmp : Calm block len (p.flat (n + 1 + q.groups) ++ rest) := calm_drop hcalmq
    have houtq := outside_fin hout
    simp only [Pat.groups] at hout ⊢
    have houtp : Outside (n + 1 + q.groups) (n + 1 + q.groups + p.groups) rest := fun m hm => by have := hout m hm; omega
    have hp' := ih2 hkl (n + 1 + q.groups) rest r hokp hcalmp houtp hrest
    have hrq : ∀ caps, ∃ caps', run block len (.fin n :: (p.flat (n + 1 + q.groups) ++ rest)) k caps = .ok (r, caps') := by
      intro caps
      obtain ⟨c1, h1, -⟩ := hp' (endCapture caps (BitVec.ofNat 8 n) k)
      rw [run, h1]
      exact hrest c1
    obtain ⟨c1, a1, a2, a3, a4⟩ := ih1 hi (n + 1) _ r hokq hcalmq houtq hrq (beginCapture caps (BitVec.ofNat 8 n) i)
    obtain ⟨c2, b1, b2, b3, b4⟩ := hp' (endCapture c1 (BitVec.ofNat 8 n) k)
    have l1 : (beginCapture caps (BitVec.ofNat 8 n) i).length = caps.length := by simp [beginCapture]
    have l2 : (endCapture c1 (BitVec.ofNat 8 n) k).length = c1.length := by simp [endCapture]
    refine ⟨c2, ?_, by rw [b2, l2, a2, l1], ?_, ?_⟩
    · rw [run, a1, run, b1]
    · intro x a b hx hlt
      have hclen := matches_length hq
      cases x with
      | zero =>
        simp only [List.cons_append, List.getElem?_cons_zero, Option.some.injEq, Prod.mk.injEq] at hx
        obtain ⟨rfl, rfl⟩ := hx
        simp only [Nat.add_zero] at hlt ⊢
        have hn0 : n < caps.length := by rw [b2, l2, a2, l1] at hlt; exact hlt
        obtain ⟨c, hc⟩ : ∃ c, caps[n]? = some c := ⟨_, List.getElem?_eq_getElem hn0⟩
        obtain ⟨d, d1, d2, -⟩ := a4 n { c with start := i } (by omega) (by rw [begin_get hn, hc]; simp)
        have d2 := d2 (by
          intro hm
          have hb := flat_bounds p (n + 1 + q.groups) n
          have ho := hout n
          simp only [List.mem_cons, reduceCtorEq, false_or, List.mem_append] at hm
          rcases hm with h | h
          · have := hb (Or.inl h); omega
          · have := ho (Or.inl h); omega)
        obtain ⟨e, g1, g2, g3⟩ := b4 n { d with len := k - d.start } (by omega) (by rw [end_get hn, d1]; simp)
        have ho := hout n
        have g2 := g2 (fun h => by have := ho (Or.inl h); omega)
        have g3 := g3 (fun h => by have := ho (Or.inr h); omega)
        rw [g1]
        congr 1
        cases e
        simp only at d2 g2 g3
        rw [d2] at g2 g3
        simp only [Cap.mk.injEq]
        omega
      | succ x =>
        rw [List.cons_append, List.getElem?_cons_succ] at hx
        by_cases hxl : x < cs.length
        · rw [List.getElem?_append_left hxl] at hx
          have h1 := a3 x a b hx (by rw [b2, l2] at hlt; omega)
          obtain ⟨e, g1, g2, g3⟩ := b4 (n + 1 + x) ⟨a, b⟩ (by omega) (by rw [end_get hn, h1]; simp; omega)
          have ho := hout (n + 1 + x)
          have g2 := g2 (fun h => by have := ho (Or.inl h); omega)
          have g3 := g3 (fun h => by have := ho (Or.inr h); omega)
          have e5 : n + (x + 1) = n + 1 + x := by omega
          rw [e5, g1]
          cases e
          simp only at g2 g3
          rw [g2, g3]
        · rw [List.getElem?_append_right (by omega)] at hx
          have h1 := b3 (x - cs.length) a b hx (by omega)
          rw [← h1]
          congr 1
          omega
    · intro m c hm hc
      have hmn : m ≠ n := by omega
      obtain ⟨d, d1, d2, d3⟩ := a4 m c (by omega) (by rw [begin_get hn, hc]; simp [hmn])
      obtain ⟨e, g1, g2, g3⟩ := b4 m d (by omega) (by rw [end_get hn, d1]; simp [hmn])
      have hb := flat_bounds p (n + 1 + q.groups) m
      refine ⟨e, g1, fun h => (g2 h).trans (d2 ?_), fun h => (g3 h).trans (d3 ?_)⟩
      · simp only [List.mem_cons, reduceCtorEq, false_or, List.mem_append]
        rintro (h' | h')
        · have := hb (Or.inl h'); omega
        · exact h h'
      · simp only [List.mem_cons, List.mem_append, Instr.fin.injEq]
        rintro (h' | h' | h')
        · omega
        · have := hb (Or.inr h'); omega
        · exact h h'

/-- Where an attempt fails, the instructions end with no match. -/
theorem fails_run {block text : List Byte} {len : Nat} (hl : len ≤ block.length) (ht : block.take len = text) {p : Pat} {i : Nat}
    (h : Fails text p i) : i ≤ len → ∀ (n : Nat) (rest : List Instr), (∀ ins ∈ p.flat n ++ rest, ins.Ok) →
    Calm block len (p.flat n ++ rest) → Outside n (n + p.groups) rest →
    ∃ r : Int, (r = -1 ∨ r > len) ∧ ∀ caps, ∃ caps', run block len (p.flat n ++ rest) i caps = .ok (r, caps') := by
  have hlen : text.length = len := by rw [← ht]; simp; omega
  induction h with
  | lit h =>
    intro hi n rest hok hcalm hout
    exact ⟨-1, Or.inl rfl, fun caps => ⟨caps, by rw [Pat.flat, List.cons_append, run, ht, if_neg h]⟩⟩
  | litNext h hp ih =>
    intro hi n rest hok hcalm hout
    have := h.length_le
    simp at this
    obtain ⟨r, hr, h1⟩ := ih (by omega) n rest (fun a ha => hok a (by simp only [Pat.flat, List.cons_append, List.mem_cons]; exact Or.inr ha)) hcalm hout
    exact ⟨r, hr, fun caps => by rw [Pat.flat, List.cons_append, run, ht, if_pos h]; exact h1 caps⟩
  | one h =>
    intro hi n rest hok hcalm hout
    rename_i c p i
    have key : clsRun block len c i = -1 ∨ clsRun block len c i > len := by
      by_cases hlt : i < len
      · have hb : block[i]? = some block[i] := List.getElem?_eq_getElem (by omega)
        have e : text[i]? = block[i]? := by subst ht; rw [List.getElem?_take, if_pos hlt]
        have := h block[i] (e.trans hb)
        rw [clsRun_text hlt hb, this]
        simp
      · have := clsRun_cases block len c i
        omega
    exact ⟨clsRun block len c i, key, fun caps => ⟨caps, by rw [Pat.flat, List.cons_append, run, if_pos key]⟩⟩
  | oneNext h hc hp ih =>
    intro hi n rest hok hcalm hout
    obtain ⟨h3, h4⟩ := getElem?_take_of_lt (ht ▸ h)
    obtain ⟨r, hr, h1⟩ := ih (by omega) n rest (fun a ha => hok a (by simp only [Pat.flat, List.cons_append, List.mem_cons]; exact Or.inr ha)) hcalm hout
    refine ⟨r, hr, fun caps => ?_⟩
    rw [Pat.flat, List.cons_append, run, clsRun_text h3 h4, if_pos hc, if_neg (by omega)]
    exact h1 caps
  | plusNext hk h hmax hp ih =>
    intro hi n rest hok hcalm hout
    rename_i c p i k
    have hkl : k ≤ len := by
      obtain ⟨ch, h1, -⟩ := h (k - 1) (by omega) (by omega)
      obtain ⟨h, -⟩ := List.getElem?_eq_some_iff.1 h1
      omega
    have hok' : ∀ ins ∈ p.flat n ++ rest, ins.Ok := fun a ha => hok a (by simp only [Pat.flat, List.cons_append, List.mem_cons]; exact Or.inr ha)
    have hcalm' : Calm block len (.plus c :: (p.flat n ++ rest)) := hcalm
    obtain ⟨r, hr, h1⟩ := ih hkl n rest hok' hcalm'.2.2.2 hout
    refine ⟨r, hr, fun caps => ?_⟩
    obtain ⟨c0, -, he⟩ := run_plus hl hok' hcalm' hk hkl (ht ▸ h) (ht ▸ hmax) h1 caps
    rw [Pat.flat, List.cons_append, he]
    exact h1 c0
  | bol h =>
    intro hi n rest hok hcalm hout
    exact ⟨-1, Or.inl rfl, fun caps => ⟨caps, by rw [Pat.flat, List.cons_append, run, if_neg h]⟩⟩
  | bolNext hp ih =>
    intro hi n rest hok hcalm hout
    obtain ⟨r, hr, h1⟩ := ih (by omega) n rest (fun a ha => hok a (by simp only [Pat.flat, List.cons_append, List.mem_cons]; exact Or.inr ha)) hcalm hout
    exact ⟨r, hr, fun caps => by rw [Pat.flat, List.cons_append, run, if_pos rfl]; exact h1 caps⟩
  | eol h =>
    intro hi n rest hok hcalm hout
    exact ⟨-1, Or.inl rfl, fun caps => ⟨caps, by rw [Pat.flat, List.cons_append, run, if_neg (hlen ▸ h)]⟩⟩
  | eolNext hp ih =>
    intro hi n rest hok hcalm hout
    obtain ⟨r, hr, h1⟩ := ih (by omega) n rest (fun a ha => hok a (by simp only [Pat.flat, List.cons_append, List.mem_cons]; exact Or.inr ha)) hcalm hout
    exact ⟨r, hr, fun caps => by rw [Pat.flat, List.cons_append, run, if_pos hlen]; exact h1 caps⟩
  | groupIn hq ih =>
    intro hi n rest hok hcalm hout
    rename_i q p i
    have e1 : (Pat.group q p).flat n ++ rest = .beg n :: (q.flat (n + 1) ++ (.fin n :: (p.flat (n + 1 + q.groups) ++ rest))) := by simp [Pat.flat]
    rw [e1] at hok hcalm ⊢
    obtain ⟨r, hr, h1⟩ := ih hi (n + 1) _ (fun a ha => hok a (by simp only [List.mem_cons]; exact Or.inr ha)) hcalm (outside_fin hout)
    exact ⟨r, hr, fun caps => by rw [run]; exact h1 _⟩
  | groupNext hq hp ih =>
    intro hi n rest hok hcalm hout
    rename_i q p i k cs
    have hkl : k ≤ len := hlen ▸ matches_le hq (by omega)
    have e1 : (Pat.group q p).flat n ++ rest = .beg n :: (q.flat (n + 1) ++ (.fin n :: (p.flat (n + 1 + q.groups) ++ rest))) := by simp [Pat.flat]
    rw [e1] at hok hcalm ⊢
    have hokq : ∀ ins ∈ q.flat (n + 1) ++ (.fin n :: (p.flat (n + 1 + q.groups) ++ rest)), ins.Ok := fun a ha => hok a (by simp only [List.mem_cons]; exact Or.inr ha)
    have hokp : ∀ ins ∈ p.flat (n + 1 + q.groups) ++ rest, ins.Ok := fun a ha => hokq a (by rw [List.mem_append]; exact Or.inr (by rw [List.mem_cons]; exact Or.inr ha))
    have hcalmq : Calm block len (q.flat (n + 1) ++ (.fin n :: (p.flat (n + 1 + q.groups) ++ rest))) := hcalm
    obtain ⟨r, hr, h1⟩ := ih hkl (n + 1 + q.groups) rest hokp (calm_drop hcalmq) (fun m hm => by have := hout m hm; simp only [Pat.groups] at this; omega)
    refine ⟨r, hr, fun caps => ?_⟩
    have hrq : ∀ caps, ∃ caps', run block len (.fin n :: (p.flat (n + 1 + q.groups) ++ rest)) k caps = .ok (r, caps') := fun caps => by rw [run]; exact h1 _
    obtain ⟨c1, a1, -⟩ := matches_run hl ht hq hi (n + 1) _ r hokq hcalmq (outside_fin hout) hrq (beginCapture caps (BitVec.ofNat 8 n) i)
    rw [run, a1]
    exact hrq c1

/-! ## Lemmas: the compiler -/

/-- `re'` is `re` with `bs` behind its operations and `k` more groups. -/
structure Grown (re re' : Re) (bs : List Byte) (k : Nat) : Prop where
  buf : re'.buf = re.buf ++ bs
  cap : re.cap ≤ re'.cap
  can : re'.canRealloc = true
  caps : re'.captures = re.captures + k

theorem emitLoop_ok : ∀ (vs : List Int) (re : Re), (∀ v ∈ vs, v ≤ 256) → emitLoop vs re = .ok () { re with buf := re.buf ++ vs.map (BitVec.ofInt 8) }
  | [], re, _ => by simp [emitLoop]
  | v :: vs, re, h => by
    have := h v (by simp)
    rw [emitLoop, if_neg (by omega), emitLoop_ok vs _ (fun a ha => h a (by simp [ha]))]
    simp

theorem room_ok (n : Nat) {re : Re} (hc : re.canRealloc = true) : ∃ cap, re.cap ≤ cap ∧ room n re = some { re with cap := cap } := by
  unfold room
  split
  · exact ⟨re.cap * 2 + n, by omega, by simp [hc]⟩
  · exact ⟨re.cap, by omega, rfl⟩

theorem emitOps_ok {vs : List Int} {re : Re} (hc : re.canRealloc = true) (hv : ∀ v ∈ vs, v ≤ 256) :
    ∃ re', emitOps vs re = .ok () re' ∧ Grown re re' (vs.map (BitVec.ofInt 8)) 0 := by
  obtain ⟨cap, h1, h2⟩ := room_ok vs.length hc
  refine ⟨{ re with buf := re.buf ++ vs.map (BitVec.ofInt 8), cap := cap }, by rw [emitOps, h2]; exact emitLoop_ok _ _ hv, rfl, h1, hc, rfl⟩

theorem emitBuffer_ok {bs : List Byte} {re : Re} (hc : re.canRealloc = true) : ∃ re', emitBuffer bs re = .ok () re' ∧ Grown re re' bs 0 := by
  obtain ⟨cap, h1, h2⟩ := room_ok bs.length hc
  refine ⟨{ re with buf := re.buf ++ bs, cap := cap }, by rw [emitBuffer, h2], rfl, h1, hc, rfl⟩

theorem Grown.trans {a b c : Re} {xs ys : List Byte} {k m : Nat} (h : Grown a b xs k) (h' : Grown b c ys m) : Grown a c (xs ++ ys) (k + m) :=
  ⟨by rw [h'.buf, h.buf, List.append_assoc], Nat.le_trans h.cap h'.cap, h'.can, by rw [h'.caps, h.caps]; omega⟩

theorem at_cons {pat t : List Byte} {len off : Nat} {c : Byte} (h : (pat.take len).drop off = c :: t) :
    off < len ∧ rd pat off = .ok c ∧ (pat.take len).drop (off + 1) = t := by
  have h1 : (pat.take len)[off]? = some c := by
    have := congrArg (fun l => l[0]?) h
    simpa using this
  obtain ⟨h2, h3⟩ := getElem?_take_of_lt h1
  refine ⟨h2, by simp [rd, h3], ?_⟩
  rw [← List.drop_drop, h]
  rfl

theorem at_append {pat s t : List Byte} {len off : Nat} (h : (pat.take len).drop off = s ++ t) : (pat.take len).drop (off + s.length) = t := by
  rw [← List.drop_drop, h, List.drop_left]

theorem at_nil {pat : List Byte} {len off : Nat} (hl : len ≤ pat.length) (h : (pat.take len).drop off = []) : ¬ off < len := by
  have := congrArg List.length h
  simp at this
  omega

theorem at_length {pat t : List Byte} {len off : Nat} (hl : len ≤ pat.length) (h : (pat.take len).drop off = t) : len - off = t.length := by
  have := congrArg List.length h
  simp at this
  omega

/-- A run of ordinary characters ends here. -/
def Stops (t : List Byte) : Prop := ∀ c, t.head? = some c → c ∈ metaChars

theorem runLength_ok {pat : List Byte} {len : Nat} (hl : len ≤ pat.length) : ∀ (s t : List Byte) (off n : Nat), Ordinary s → Stops t →
    (pat.take len).drop off = s ++ t → s.length < n → runLength pat len n off = .ok s.length
  | [], [], off, n + 1, _, _, h, _ => by rw [runLength, if_neg (at_nil hl h)]; rfl
  | [], c :: t, off, n + 1, _, ht, h, _ => by
    obtain ⟨h1, h2, -⟩ := at_cons h
    rw [runLength, if_pos h1, h2, except_ok_bind, if_pos (by simpa using ht c rfl)]
    rfl
  | c :: s, t, off, n + 1, hs, ht, h, hn => by
    obtain ⟨h1, h2, h3⟩ := at_cons h
    rw [runLength, if_pos h1, h2, except_ok_bind, if_neg (by simpa using (hs c (by simp)).2),
      runLength_ok hl s t (off + 1) n (fun a ha => hs a (by simp [ha])) ht h3 (by simp at hn; omega)]
    rfl

theorem ofInt_nat (n : Nat) : BitVec.ofInt 8 (n : Int) = BitVec.ofNat 8 n := by simp

theorem literal_ok {pat s t : List Byte} {len off : Nat} {re : Re} (hl : len ≤ pat.length) (hc : re.canRealloc = true) (hs : Ordinary s) (h256 : s.length ≤ 256)
    (ht : Stops t) (h : (pat.take len).drop off = s ++ t) :
    ∃ re', literal pat len off re = .ok (.ok s.length re') ∧ Grown re re' (4 :: BitVec.ofNat 8 s.length :: s) 0 := by
  have hlen := at_length hl h
  simp only [List.length_append] at hlen
  obtain ⟨re1, e1, g1⟩ := emitOps_ok (vs := [4, (s.length : Int)]) hc (by simp; omega)
  obtain ⟨re2, e2, g2⟩ := emitBuffer_ok (bs := s) g1.can
  have e3 : (pat.drop off).take s.length = s := by
    have : ((pat.take len).drop off).take s.length = s := by rw [h, List.take_left]
    rw [List.drop_take, List.take_take, Nat.min_eq_left (by omega)] at this
    exact this
  refine ⟨re2, ?_, ?_⟩
  · rw [literal, runLength_ok hl s t off (len + 1) hs ht h (by omega), except_ok_bind]
    rw [e1]
    dsimp only
    rw [e3, e2]
  · have := g1.trans g2
    simpa [ofInt_nat] using this

theorem isHexDigit_of_digit {c : Byte} (h : Chars.isDigit c = true) : Chars.isHexDigit c = true := by
  revert c; decide

theorem groupItem_ok {pat t : List Byte} {len off : Nat} {it : Item} (h : it.Ok) (ht : (pat.take len).drop off = it.spell ++ t) :
    groupItem pat len off = .ok (it.bytes, off + it.spell.length) := by
  cases it with
  | chr c =>
    obtain ⟨-, h2, -⟩ := at_cons ht
    rw [groupItem, h2, except_ok_bind, if_neg h.2.1]
    rfl
  | esc e =>
    obtain ⟨-, h2, h3⟩ := at_cons ht
    obtain ⟨h4, h5, -⟩ := at_cons h3
    rw [groupItem, h2, except_ok_bind, if_pos rfl, if_pos h4, h5, except_ok_bind, if_neg (by simp [h.2])]
    rfl
  | hex a b =>
    obtain ⟨-, h2, h3⟩ := at_cons ht
    obtain ⟨h4, h5, h6⟩ := at_cons h3
    obtain ⟨h7, h8, -⟩ := at_cons h6
    rw [groupItem, h2, except_ok_bind, if_pos rfl, if_pos h4, h5, except_ok_bind, if_pos ⟨h7, isHexDigit_of_digit h.1⟩, h8]
    rfl

theorem item_spell {it : Item} (h : it.Ok) : ∃ c r, it.spell = c :: r ∧ c ≠ 0x5d#8 := by
  cases it with
  | chr c => exact ⟨c, [], rfl, h.2.2⟩
  | esc e => exact ⟨_, _, rfl, by decide⟩
  | hex a b => exact ⟨_, _, rfl, by decide⟩

theorem groupLoop_ok {pat t : List Byte} {len : Nat} : ∀ (items : List Item) (off n : Nat) (done : List Byte), (∀ i ∈ items, i.Ok) →
    (pat.take len).drop off = items.flatMap Item.spell ++ 0x5d#8 :: t → done.length + 2 * items.length ≤ 255 → items.length < n →
    groupLoop pat len n off done = .ok (.closed (done ++ items.flatMap Item.bytes) (off + (items.flatMap Item.spell).length + 1))
  | [], off, n + 1, done, _, h, hd, _ => by
    obtain ⟨h1, h2, -⟩ := at_cons h
    rw [groupLoop, if_pos h1, h2, except_ok_bind, if_pos rfl]
    simp
  | it :: items, off, n + 1, done, hok, h, hd, hn => by
    have ho := hok it (by simp)
    rw [List.flatMap_cons, List.append_assoc] at h
    obtain ⟨c, r, hc, hne⟩ := item_spell ho
    obtain ⟨h1, h2, -⟩ := at_cons (h.trans (by rw [hc]; rfl))
    have hb := bytes_length ho
    simp only [List.length_cons] at hd hn
    rw [groupLoop, if_pos h1, h2, except_ok_bind, if_neg hne, if_neg (by omega), groupItem_ok ho h, except_ok_bind]
    dsimp only
    rw [if_neg (by omega), groupLoop_ok items _ n (done ++ it.bytes) (fun i hi => hok i (by simp [hi])) (at_append h)
      (by simp only [List.length_append]; omega) (by omega)]
    simp [Nat.add_assoc]

theorem parseGroup_ok {pat t : List Byte} {len off : Nat} {re : Re} {neg : Bool} {items : List Item} (hl : len ≤ pat.length) (hc : re.canRealloc = true)
    (hok : (Cls.set neg items).Ok) (h : (pat.take len).drop off = (if neg then [0x5e#8] else []) ++ items.flatMap Item.spell ++ 0x5d#8 :: t) :
    ∃ re', parseGroup pat len off re = .ok (.ok (off + (if neg then 1 else 0) + (items.flatMap Item.spell).length + 1) re') ∧
      Grown re re' (Cls.set neg items).ops 0 := by
  obtain ⟨hi, hh, h63⟩ := hok
  have hb := items_length hi
  have hlen := at_length hl h
  have hsp : items.length ≤ (items.flatMap Item.spell).length := by
    clear h hlen hb hh h63
    induction items with
    | nil => simp
    | cons it items ih =>
      obtain ⟨c, r, hc, -⟩ := item_spell (hi it (by simp))
      have := ih (fun i h => hi i (by simp [h]))
      simp only [List.flatMap_cons, List.length_append, List.length_cons, hc]
      omega
  simp only [List.length_append, List.length_cons] at hlen
  have key : ∀ (op : Int) (off : Nat), op = (if neg then 8 else 7) → ∃ re', emitGroup op (items.flatMap Item.bytes) off re = .ok off re' ∧ Grown re re' (Cls.set neg items).ops 0 := by
    intro op off hop
    obtain ⟨re1, e1, g1⟩ := emitOps_ok (vs := [op, ((items.flatMap Item.bytes).length : Int)]) hc (by
      simp only [List.mem_cons, List.not_mem_nil, or_false, forall_eq_or_imp, forall_eq]
      refine ⟨by cases neg <;> simp at hop <;> omega, ?_⟩
      omega)
    obtain ⟨re2, e2, g2⟩ := emitBuffer_ok (bs := items.flatMap Item.bytes) g1.can
    refine ⟨re2, by rw [emitGroup, e1]; dsimp only; rw [e2], ?_⟩
    have := g1.trans g2
    cases neg <;> simp only [Bool.false_eq_true, if_false, if_true] at hop <;> subst hop <;>
      (simp only [List.map_cons, List.map_nil, ofInt_nat, List.cons_append, List.nil_append] at this; exact this)
  cases neg with
  | true =>
    simp only [if_true] at h hlen
    obtain ⟨h1, h2, h3⟩ := at_cons (c := 0x5e#8) (t := items.flatMap Item.spell ++ 0x5d#8 :: t) (by simpa using h)
    obtain ⟨re', k1, k2⟩ := key 8 (off + 1 + (items.flatMap Item.spell).length + 1) rfl
    refine ⟨re', ?_, k2⟩
    rw [parseGroup, h2, except_ok_bind]
    simp only [decide_true, if_true]
    rw [groupLoop_ok items (off + 1) (len + 1) [] hi h3 (by simp; omega) (by omega), except_ok_bind]
    simp only [List.nil_append]
    rw [k1]
  | false =>
    simp only [Bool.false_eq_true, if_false, List.nil_append] at h hlen
    obtain ⟨re', k1, k2⟩ := key 7 (off + (items.flatMap Item.spell).length + 1) rfl
    have hfirst : ∃ c r, items.flatMap Item.spell ++ 0x5d#8 :: t = c :: r ∧ c ≠ 0x5e#8 := by
      cases items with
      | nil => exact ⟨_, _, rfl, by decide⟩
      | cons it items =>
        cases it with
        | chr c => exact ⟨c, _, rfl, fun e => hh rfl (by rw [e]; rfl)⟩
        | esc e => exact ⟨_, _, rfl, by decide⟩
        | hex a b => exact ⟨_, _, rfl, by decide⟩
    obtain ⟨c, r, hcr, hne⟩ := hfirst
    obtain ⟨h1, h2, h3⟩ := at_cons (h.trans hcr)
    refine ⟨re', ?_, k2⟩
    rw [parseGroup, h2, except_ok_bind]
    simp only [decide_eq_false hne, Bool.false_eq_true, if_false, Nat.add_zero]
    rw [groupLoop_ok items off (len + 1) [] hi h (by simp; omega) (by omega), except_ok_bind]
    simp only [List.nil_append]
    rw [k1]

theorem escape_esc {pat t : List Byte} {len off : Nat} {re : Re} {e : Byte} (hc : re.canRealloc = true) (hok : (Cls.esc e).Ok)
    (h : (pat.take len).drop off = e :: t) : ∃ re', escape pat len off re = .ok (.ok (off + 1) re') ∧ Grown re re' (Cls.esc e).ops 0 := by
  obtain ⟨h1, h2, -⟩ := at_cons h
  obtain ⟨re', e1, g⟩ := emitOps_ok (vs := 5 :: (codeBytes (encodeEscape e)).map fun b => (b.toNat : Int)) hc (by
    intro v hv
    simp only [List.mem_cons, List.mem_map] at hv
    rcases hv with rfl | ⟨b, -, rfl⟩
    · decide
    · have := b.isLt; omega)
  refine ⟨re', ?_, ?_⟩
  · rw [escape, if_pos h1, h2, except_ok_bind, if_neg (by simp [hok.2]), e1]
  · have e2 : List.map (BitVec.ofInt 8) (5 :: (codeBytes (encodeEscape e)).map fun b => (b.toNat : Int)) = (Cls.esc e).ops := by
      simp only [List.map_cons, List.map_map, Cls.ops]
      congr 1
      conv => rhs; rw [← List.map_id (codeBytes (encodeEscape e))]
      apply List.map_congr_left
      intro b _
      simp
    rw [e2] at g
    exact g

theorem escape_hex {pat t : List Byte} {len off : Nat} {re : Re} {a b : Byte} (hc : re.canRealloc = true) (hok : (Cls.hex a b).Ok)
    (h : (pat.take len).drop off = a :: b :: t) : ∃ re', escape pat len off re = .ok (.ok (off + 2) re') ∧ Grown re re' (Cls.hex a b).ops 0 := by
  obtain ⟨h1, h2, h3⟩ := at_cons h
  obtain ⟨h4, h5, -⟩ := at_cons h3
  obtain ⟨re', e1, g⟩ := emitOps_ok (vs := [5, ((hexByte a b).toNat : Int)]) hc (by
    intro v hv
    simp only [List.mem_cons, List.not_mem_nil, or_false] at hv
    rcases hv with rfl | rfl
    · decide
    · have := (hexByte a b).isLt; omega)
  refine ⟨re', ?_, ?_⟩
  · rw [escape, if_pos h1, h2, except_ok_bind, if_pos ⟨h4, isHexDigit_of_digit hok.1⟩, h5, except_ok_bind, e1]
  · have e2 : List.map (BitVec.ofInt 8) [5, ((hexByte a b).toNat : Int)] = (Cls.hex a b).ops := by
      simp [Cls.ops]
    rw [e2] at g
    exact g

theorem parse_lit {pat s t : List Byte} {len off n last begin_ level : Nat} {re : Re} {b : Option Nat} (hl : len ≤ pat.length) (hc : re.canRealloc = true)
    (hs : Ordinary s) (h0 : s ≠ []) (h256 : s.length ≤ 256) (ht : Stops t) (h : (pat.take len).drop off = s ++ t) :
    ∃ re', Grown re re' (4 :: BitVec.ofNat 8 s.length :: s) 0 ∧
      parse pat len (n + 1) re last begin_ b off level = parse pat len n re' re.buf.length begin_ b (off + s.length) level := by
  obtain ⟨re', e, g⟩ := literal_ok hl hc hs h256 ht h
  refine ⟨re', g, ?_⟩
  cases s with
  | nil => exact absurd rfl h0
  | cons c s =>
    obtain ⟨h1, h2, -⟩ := at_cons h
    have hm := (hs c (by simp)).2
    simp only [metaChars, List.mem_cons, List.not_mem_nil, or_false, not_or] at hm
    rw [parse, if_pos h1, h2, except_ok_bind]
    simp only [hm, if_false, or_self]
    rw [e]
    rfl

theorem parse_cls {pat t : List Byte} {len off n last begin_ level : Nat} {re : Re} {b : Option Nat} {c : Cls} (hl : len ≤ pat.length)
    (hc : re.canRealloc = true) (hok : c.Ok) (ht : ∀ x, c = .chr x → Stops t) (h : (pat.take len).drop off = c.spell ++ t) :
    ∃ re', Grown re re' c.ops 0 ∧
      parse pat len (n + 1) re last begin_ b off level = parse pat len n re' re.buf.length begin_ b (off + c.spell.length) level := by
  cases c with
  | chr x => exact parse_lit hl hc (s := [x]) (by intro a ha; rw [List.mem_singleton] at ha; subst ha; exact hok) (by simp) (by simp) (ht x rfl) h
  | any =>
    obtain ⟨h1, h2, -⟩ := at_cons h
    obtain ⟨re', e, g⟩ := emitOps_ok (vs := [6]) hc (by simp)
    refine ⟨re', g, ?_⟩
    rw [parse, if_pos h1, h2, except_ok_bind]
    simp [e, Cls.spell]
  | esc x =>
    obtain ⟨h1, h2, h3⟩ := at_cons h
    obtain ⟨re', e, g⟩ := escape_esc hc hok h3
    refine ⟨re', g, ?_⟩
    rw [parse, if_pos h1, h2, except_ok_bind]
    simp [e, Cls.spell]
  | hex x y =>
    obtain ⟨h1, h2, h3⟩ := at_cons h
    obtain ⟨re', e, g⟩ := escape_hex hc hok h3
    refine ⟨re', g, ?_⟩
    rw [parse, if_pos h1, h2, except_ok_bind]
    simp [e, Cls.spell]
  | set neg items =>
    have h' : (pat.take len).drop off = 0x5b#8 :: ((if neg then [0x5e#8] else []) ++ items.flatMap Item.spell ++ 0x5d#8 :: t) := by
      rw [h]; simp [Cls.spell]
    obtain ⟨h1, h2, h3⟩ := at_cons h'
    obtain ⟨re', e, g⟩ := parseGroup_ok hl hc hok h3
    have hlen := at_length hl h3
    simp only [List.length_append, List.length_cons] at hlen
    refine ⟨re', g, ?_⟩
    rw [parse, if_pos h1, h2, except_ok_bind]
    simp only [BitVec.reduceEq, if_false, if_true]
    rw [e, except_ok_bind]
    dsimp only
    have e4 : (if neg then [0x5e#8] else []).length = if neg then 1 else 0 := by cases neg <;> rfl
    rw [if_neg (by rw [e4] at hlen; omega)]
    congr 1
    simp only [Cls.spell, List.length_append, List.length_cons, List.length_nil, e4]
    omega

theorem cls_ops_first {c : Cls} : ∃ a r, c.ops = a :: r ∧ 4 ≤ a.toInt ∧ a.toInt ≤ 8 ∧ (a = 4 → ∃ x, r = [1, x]) := by
  cases c with
  | chr x => exact ⟨_, _, rfl, by decide, by decide, fun _ => ⟨x, rfl⟩⟩
  | any => exact ⟨_, _, rfl, by decide, by decide, by decide⟩
  | esc e => exact ⟨_, _, rfl, by decide, by decide, fun h => absurd h (by decide)⟩
  | hex a b => exact ⟨_, _, rfl, by decide, by decide, fun h => absurd h (by decide)⟩
  | set neg items => cases neg <;> exact ⟨_, _, rfl, by decide, by decide, fun h => absurd h (by decide)⟩

theorem rd_last (b r : List Byte) (c : Byte) : rd (b ++ c :: r) b.length = .ok c := by simp [rd]

theorem rd_last1 (b r : List Byte) (c d : Byte) : rd (b ++ c :: d :: r) (b.length + 1) = .ok d := by simp [rd]

theorem parse_rep (star : Bool) {pat t b : List Byte} {len off n begin_ level : Nat} {re : Re} {br : Option Nat} {c : Cls} (hc : re.canRealloc = true)
    (hbuf : re.buf = b ++ c.ops) (hcap : re.buf.length + 2 ≤ re.cap) (ht : t.head? ≠ some 0x3f#8) (hl : len ≤ pat.length)
    (h : (pat.take len).drop off = (if star then 0x2a#8 else 0x2b#8) :: t) :
    ∃ re', re'.buf = b ++ (if star then 9#8 else 10#8) :: c.ops ∧ re.cap ≤ re'.cap ∧ re'.canRealloc = true ∧ re'.captures = re.captures ∧
      parse pat len (n + 1) re b.length begin_ br off level = parse pat len n re' b.length begin_ br (off + 1) level := by
  obtain ⟨h1, h2, h3⟩ := at_cons h
  obtain ⟨a, r, ho, ha1, ha2, ha3⟩ := cls_ops_first (c := c)
  obtain ⟨re1, e1, g1⟩ := emitOps_ok (vs := [0]) (re := re) hc (by simp)
  have hlazy : lazyMark pat len (off + 1) = .ok false := by
    unfold lazyMark
    cases t with
    | nil => rw [if_neg (at_nil hl h3)]
    | cons d t =>
      obtain ⟨h4, h5, -⟩ := at_cons h3
      rw [if_pos h4, h5, except_ok_bind]
      simpa using ht
  have hq : quantifiable re b.length = .ok true := by
    rw [quantifiable, if_neg (by rw [hbuf, ho]; simp), hbuf, ho, rd_last, except_ok_bind]
    simp; omega
  have hcq : compileQuantifier b.length (if star then 9#8 else 10#8) re = .ok (.ok () { re1 with buf := b ++ (if star then 9#8 else 10#8) :: c.ops }) := by
    have hsplit : splits b.length re = .ok false := by
      rw [splits, hbuf, ho, rd_last, except_ok_bind]
      split
      · obtain ⟨x, rfl⟩ := ha3 (by assumption)
        rw [rd_last1, except_ok_bind]
        rfl
      · rfl
    rw [compileQuantifier, hsplit, except_ok_bind]
    simp only [Bool.false_eq_true, if_false]
    rw [e1]
    dsimp only
    have := g1.cap
    have hlen : re.buf.length = b.length + (r.length + 1) := by rw [hbuf, ho]; simp
    rw [if_neg (by omega), hbuf, List.take_left, List.drop_left]
  refine ⟨{ re1 with buf := b ++ (if star then 9#8 else 10#8) :: c.ops }, rfl, g1.cap, g1.can, g1.caps, ?_⟩
  have e3 : ∀ {α : Type} (x y : α), (if (if star then 0x2a#8 else 0x2b#8 : Byte) = 0x2a#8 then x else y) = if star then x else y := by
    intro α x y; cases star <;> rfl
  have e4 : ((if star then 0x2a#8 else 0x2b#8 : Byte) = 0x2a#8 ∨ (if star then 0x2a#8 else 0x2b#8 : Byte) = 0x2b#8) := by cases star <;> simp
  have e5 : ∀ d : Byte, d ≠ 0x2a#8 → d ≠ 0x2b#8 → ¬ ((if star then 0x2a#8 else 0x2b#8 : Byte) = d) := by
    intro d k1 k2; cases star <;> simp [Ne.symm k1, Ne.symm k2]
  rw [parse, if_pos h1, h2, except_ok_bind, if_neg (e5 _ (by decide) (by decide)), if_neg (e5 _ (by decide) (by decide)), if_neg (e5 _ (by decide) (by decide)),
    if_neg (e5 _ (by decide) (by decide)), if_neg (e5 _ (by decide) (by decide)), if_neg (e5 _ (by decide) (by decide)), if_neg (e5 _ (by decide) (by decide)),
    if_pos e4, hq, except_ok_bind]
  simp only [if_true]
  rw [hlazy, except_ok_bind]
  simp only [Bool.false_eq_true, if_false]
  rw [e3, hcq, except_ok_bind]

theorem parse_plus {pat t b : List Byte} {len off n begin_ level : Nat} {re : Re} {br : Option Nat} {c : Cls} (hc : re.canRealloc = true)
    (hbuf : re.buf = b ++ c.ops) (hcap : re.buf.length + 2 ≤ re.cap) (ht : t.head? ≠ some 0x3f#8) (hl : len ≤ pat.length)
    (h : (pat.take len).drop off = 0x2b#8 :: t) :
    ∃ re', re'.buf = b ++ 10 :: c.ops ∧ re.cap ≤ re'.cap ∧ re'.canRealloc = true ∧ re'.captures = re.captures ∧
      parse pat len (n + 1) re b.length begin_ br off level = parse pat len n re' b.length begin_ br (off + 1) level :=
  parse_rep false hc hbuf hcap ht hl h

theorem parse_plus_split {pat t b s : List Byte} {len off n begin_ level : Nat} {re : Re} {br : Option Nat} {x : Byte} (hc : re.canRealloc = true)
    (hbuf : re.buf = b ++ 4 :: BitVec.ofNat 8 (s.length + 1) :: (s ++ [x])) (h0 : s ≠ []) (h127 : s.length + 1 ≤ 127) (ht : t.head? ≠ some 0x3f#8)
    (hl : len ≤ pat.length) (h : (pat.take len).drop off = 0x2b#8 :: t) :
    ∃ re', re'.buf = b ++ 4 :: BitVec.ofNat 8 s.length :: s ++ 10 :: (Cls.chr x).ops ∧ re.cap ≤ re'.cap ∧ re'.canRealloc = true ∧
      re'.captures = re.captures ∧
      parse pat len (n + 1) re b.length begin_ br off level = parse pat len n re' b.length begin_ br (off + 1) level := by
  obtain ⟨h1, h2, h3⟩ := at_cons h
  have hlazy : lazyMark pat len (off + 1) = .ok false := by
    unfold lazyMark
    cases t with
    | nil => rw [if_neg (at_nil hl h3)]
    | cons d t =>
      obtain ⟨h4, h5, -⟩ := at_cons h3
      rw [if_pos h4, h5, except_ok_bind]
      simpa using ht
  have hq : quantifiable re b.length = .ok true := by
    rw [quantifiable, if_neg (by rw [hbuf]; simp), hbuf, rd_last, except_ok_bind]
    decide
  obtain ⟨re1, e1, g1⟩ := emitOps_ok (vs := [10, 4, 1, (x.toNat : Int)]) (re := { re with buf := b ++ 4 :: BitVec.ofNat 8 s.length :: s }) hc (by
    have := x.isLt
    simp only [List.mem_cons, List.not_mem_nil, or_false, forall_eq_or_imp, forall_eq]
    omega)
  have hpos : 0 < s.length := List.length_pos_iff.2 h0
  have hcq : compileQuantifier b.length 10#8 re = .ok (.ok () re1) := by
    have hsplit : splits b.length re = .ok true := by
      rw [splits, hbuf, rd_last, except_ok_bind, if_pos (show (4 : Byte) = 4#8 from rfl), rd_last1, except_ok_bind, toInt_small (by omega)]
      simp; omega
    rw [compileQuantifier, hsplit, except_ok_bind, if_pos rfl, hbuf, rd_last1, except_ok_bind]
    have e2 : b ++ 4 :: BitVec.ofNat 8 (s.length + 1) :: (s ++ [x]) = (b ++ 4 :: BitVec.ofNat 8 (s.length + 1) :: s) ++ [x] := by simp
    have e3 : (b ++ 4 :: BitVec.ofNat 8 (s.length + 1) :: (s ++ [x])).length - 1 = (b ++ 4 :: BitVec.ofNat 8 (s.length + 1) :: s).length := by simp
    have e4 : ((b ++ 4 :: BitVec.ofNat 8 (s.length + 1) :: (s ++ [x])).set (b.length + 1) (BitVec.ofNat 8 (s.length + 1) - 1#8)).dropLast
        = b ++ 4 :: BitVec.ofNat 8 s.length :: s := by
      have e5 : BitVec.ofNat 8 (s.length + 1) - 1#8 = BitVec.ofNat 8 s.length := by
        apply BitVec.eq_of_toNat_eq; simp; omega
      rw [e5]
      have : (b ++ 4 :: BitVec.ofNat 8 (s.length + 1) :: (s ++ [x])).set (b.length + 1) (BitVec.ofNat 8 s.length)
          = (b ++ 4 :: BitVec.ofNat 8 s.length :: s) ++ [x] := by
        simp
      rw [this, List.dropLast_concat]
    rw [e4, e3]
    conv => lhs; rw [e2]
    rw [rd_last, except_ok_bind]
    exact congrArg _ e1
  refine ⟨re1, ?_, g1.cap, g1.can, g1.caps, ?_⟩
  · rw [g1.buf]; simp [Cls.ops]
  rw [parse, if_pos h1, h2, except_ok_bind]
  simp only [BitVec.reduceEq, if_false, if_true, or_true]
  rw [hq, except_ok_bind]
  simp only [if_true]
  rw [hlazy, except_ok_bind]
  simp only [Bool.false_eq_true, if_false]
  rw [hcq, except_ok_bind]

/-- A `c+` on a plain character comes first. -/
def Pat.extra : Pat → Nat
  | .plus (.chr _) _ => 1
  | _ => 0

/-- A pattern that is read as it is written: the runs of ordinary characters are not empty, as long as possible and at most 127 characters long. -/
def Pat.Ok (afterLit : Bool) : Pat → Prop
  | .nil => True
  | .lit s p => afterLit = false ∧ s ≠ [] ∧ Ordinary s ∧ s.length + p.extra ≤ 127 ∧ p.Ok true
  | .one c p => (∀ x, c ≠ .chr x) ∧ c.Ok ∧ p.Ok false
  | .plus c p => c.Ok ∧ p.Ok false
  | .bol p | .eol p => p.Ok false
  | .group q p => q.Ok false ∧ p.Ok false

/-- There is a `c+`. -/
def Pat.hasPlus : Pat → Bool
  | .nil => false
  | .plus _ _ => true
  | .lit _ p | .one _ p | .bol p | .eol p => p.hasPlus
  | .group q p => q.hasPlus || p.hasPlus

/-- The end of a pattern, or of a group. -/
def Ends (level : Nat) (tail : List Byte) : Prop := tail = [] ∨ (level ≠ 0 ∧ ∃ t, tail = 0x29#8 :: t)

theorem cls_spell {c : Cls} (h : ∀ x, c ≠ .chr x) : ∃ a r, c.spell = a :: r ∧ a ∈ metaChars ∧ a ≠ 0x3f#8 := by
  cases c with
  | chr x => exact absurd rfl (h x)
  | any => exact ⟨_, _, rfl, by decide, by decide⟩
  | esc e => exact ⟨_, _, rfl, by decide, by decide⟩
  | hex a b => exact ⟨_, _, rfl, by decide, by decide⟩
  | set neg items => exact ⟨_, _, rfl, by decide, by decide⟩

theorem stops_pat {p : Pat} {level : Nat} {tail : List Byte} (h : p.Ok true) (hx : p.extra = 0) (ht : Ends level tail) : Stops (p.spell ++ tail) := by
  intro d hd
  have key : ∀ (c : Cls) (s : List Byte), (∀ x, c ≠ .chr x) → (c.spell ++ s).head? = some d → d ∈ metaChars := by
    intro c s hc hd
    obtain ⟨a, r, h1, h2, -⟩ := cls_spell hc
    rw [h1] at hd
    simp at hd
    exact hd ▸ h2
  cases p with
  | nil =>
    rcases ht with rfl | ⟨-, t, rfl⟩
    · simp [Pat.spell] at hd
    · simp [Pat.spell] at hd; subst hd; decide
  | lit s p => exact absurd h.1 (by decide)
  | one c p => exact key c (p.spell ++ tail) h.1 (by simpa [Pat.spell] using hd)
  | plus c p => exact key c (0x2b#8 :: p.spell ++ tail) (fun x e => by subst e; simp [Pat.extra] at hx) (by simpa [Pat.spell] using hd)
  | bol p => simp [Pat.spell] at hd; subst hd; decide
  | eol p => simp [Pat.spell] at hd; subst hd; decide
  | group q p => simp [Pat.spell] at hd; subst hd; decide

theorem head_pat {p : Pat} {level : Nat} {tail : List Byte} {l : Bool} (h : p.Ok l) (ht : Ends level tail) : (p.spell ++ tail).head? ≠ some 0x3f#8 := by
  intro hd
  have key : ∀ (c : Cls) (s : List Byte), c.Ok → (c.spell ++ s).head? = some 0x3f#8 → False := by
    intro c s hc hd
    cases c with
    | chr x => simp [Cls.spell] at hd; subst hd; exact hc.2 (by decide)
    | _ => simp [Cls.spell] at hd
  cases p with
  | nil =>
    rcases ht with rfl | ⟨-, t, rfl⟩
    · simp [Pat.spell] at hd
    · simp [Pat.spell] at hd
  | lit s p =>
    obtain ⟨-, h0, ho, -⟩ := h
    cases s with
    | nil => exact h0 rfl
    | cons c s => simp [Pat.spell] at hd; subst hd; exact (ho 0x3f#8 (by simp)).2 (by decide)
  | one c p => exact key c (p.spell ++ tail) h.2.1 (by simpa [Pat.spell] using hd)
  | plus c p => exact key c (0x2b#8 :: p.spell ++ tail) h.1 (by simpa [Pat.spell] using hd)
  | bol p => simp [Pat.spell] at hd
  | eol p => simp [Pat.spell] at hd
  | group q p => simp [Pat.spell] at hd

/-- The offset behind the closing parenthesis, if there is one. -/
def past (tail : List Byte) : Nat := if tail = [] then 0 else 1

theorem parse_end {pat tail : List Byte} {len off n last begin_ level : Nat} {re : Re} (hl : len ≤ pat.length) (ht : Ends level tail)
    (h : (pat.take len).drop off = tail) : parse pat len (n + 1) re last begin_ none off level = .ok (.ok (off + past tail) re) := by
  rcases ht with rfl | ⟨h0, t, rfl⟩
  · rw [parse, if_neg (at_nil hl h)]; rfl
  · obtain ⟨h1, h2, -⟩ := at_cons h
    rw [parse, if_pos h1, h2, except_ok_bind]
    simp [h0, closeBranch, past]

theorem parse_ok {pat : List Byte} {len : Nat} (hl : len ≤ pat.length) : ∀ (p : Pat) (l : Bool) (n : Nat) (re : Re) (last begin_ off level : Nat)
    (tail : List Byte), p.Ok l → Ends level tail → (pat.take len).drop off = p.spell ++ tail → len - off < n → re.canRealloc = true →
    re.captures + p.groups ≤ 256 → (p.hasPlus = true → re.buf.length + (opsOf (p.flat re.captures)).length < re.cap) →
    ∃ re', parse pat len n re last begin_ none off level = .ok (.ok (off + p.spell.length + past tail) re') ∧
      Grown re re' (opsOf (p.flat re.captures)) p.groups
  | .nil, l, n + 1, re, last, begin_, off, level, tail, hok, ht, h, hn, hc, hg, hp => by
    refine ⟨re, ?_, by simp [Pat.flat, opsOf], by omega, hc, rfl⟩
    rw [parse_end hl ht h]; rfl
  | .bol p, l, n + 1, re, last, begin_, off, level, tail, hok, ht, h, hn, hc, hg, hp => by
    obtain ⟨h1, h2, h3⟩ := at_cons (t := p.spell ++ tail) (by simpa [Pat.spell] using h)
    obtain ⟨re1, e1, g1⟩ := emitOps_ok (vs := [2]) hc (by simp)
    obtain ⟨re2, e2, g2⟩ := parse_ok hl p false n re1 last begin_ (off + 1) level tail hok ht h3 (by omega) g1.can (by rw [g1.caps]; exact hg) (by
      intro hh
      have := hp hh
      have := g1.cap
      rw [g1.caps, g1.buf]
      simp only [Pat.flat, opsOf_cons, List.length_append, List.length_map, List.length_cons, List.length_nil, Instr.ops, Nat.add_zero] at *
      omega)
    refine ⟨re2, ?_, ?_⟩
    · rw [parse, if_pos h1, h2, except_ok_bind]
      simp only [if_true]
      rw [e1]
      dsimp only
      rw [e2]
      simp only [Pat.spell, List.length_cons]
      congr 2; omega
    · have := g1.trans g2
      rw [g1.caps] at this
      simpa [Pat.flat, opsOf_cons, Instr.ops, Pat.groups] using this
  | .eol p, l, n + 1, re, last, begin_, off, level, tail, hok, ht, h, hn, hc, hg, hp => by
    obtain ⟨h1, h2, h3⟩ := at_cons (t := p.spell ++ tail) (by simpa [Pat.spell] using h)
    obtain ⟨re1, e1, g1⟩ := emitOps_ok (vs := [3]) hc (by simp)
    obtain ⟨re2, e2, g2⟩ := parse_ok hl p false n re1 last begin_ (off + 1) level tail hok ht h3 (by omega) g1.can (by rw [g1.caps]; exact hg) (by
      intro hh
      have := hp hh
      have := g1.cap
      rw [g1.caps, g1.buf]
      simp only [Pat.flat, opsOf_cons, List.length_append, List.length_map, List.length_cons, List.length_nil, Instr.ops, Nat.add_zero] at *
      omega)
    refine ⟨re2, ?_, ?_⟩
    · rw [parse, if_pos h1, h2, except_ok_bind]
      simp only [BitVec.reduceEq, if_false, if_true]
      rw [e1]
      dsimp only
      rw [e2]
      simp only [Pat.spell, List.length_cons]
      congr 2; omega
    · have := g1.trans g2
      rw [g1.caps] at this
      simpa [Pat.flat, opsOf_cons, Instr.ops, Pat.groups] using this
  | .one c p, l, n + 1, re, last, begin_, off, level, tail, hok, ht, h, hn, hc, hg, hp => by
    have h' : (pat.take len).drop off = c.spell ++ (p.spell ++ tail) := by simpa [Pat.spell] using h
    have hlen := at_length hl h'
    obtain ⟨a, r, ha, -⟩ := cls_spell hok.1
    obtain ⟨re1, g1, e1⟩ := parse_cls (n := n) (last := last) (begin_ := begin_) (level := level) (b := none) hl hc hok.2.1
      (fun x e => absurd e (hok.1 x)) h'
    obtain ⟨re2, e2, g2⟩ := parse_ok hl p false n re1 re.buf.length begin_ (off + c.spell.length) level tail hok.2.2 ht (at_append h') (by
        rw [ha] at hlen ⊢; simp only [List.length_append, List.length_cons] at hlen ⊢; omega) g1.can (by rw [g1.caps]; exact hg) (by
      intro hh
      have := hp hh
      have := g1.cap
      rw [g1.caps, g1.buf]
      simp only [Pat.flat, opsOf_cons, List.length_append, Instr.ops, Nat.add_zero] at *
      omega)
    refine ⟨re2, ?_, ?_⟩
    · rw [e1, e2]
      simp only [Pat.spell, List.length_append]
      congr 2; omega
    · have := g1.trans g2
      rw [g1.caps] at this
      simpa [Pat.flat, opsOf_cons, Instr.ops, Pat.groups] using this
  | .plus c p, l, n + 1, re, last, begin_, off, level, tail, hok, ht, h, hn, hc, hg, hp => by
    have h' : (pat.take len).drop off = c.spell ++ (0x2b#8 :: (p.spell ++ tail)) := by simpa [Pat.spell] using h
    have hlen := at_length hl h'
    simp only [List.length_append, List.length_cons] at hlen
    have hcap := hp rfl
    simp only [Pat.flat, opsOf_cons, List.length_append, Instr.ops, List.length_cons] at hcap
    obtain ⟨re1, g1, e1⟩ := parse_cls (n := n) (last := last) (begin_ := begin_) (level := level) (b := none) hl hc hok.1
      (fun x e => by intro d hd; simp at hd; subst hd; decide) h'
    have hs : 1 ≤ c.spell.length := by cases c <;> simp [Cls.spell]
    obtain ⟨m, rfl⟩ : ∃ m, n = m + 1 := ⟨n - 1, by omega⟩
    have h2 := at_append h'
    obtain ⟨re2, b2, c2, r2, k2, e2⟩ := parse_plus (n := m) (begin_ := begin_) (level := level) (br := none) (c := c) g1.can g1.buf (by
      have := g1.cap
      rw [g1.buf, List.length_append]; omega) (head_pat hok.2 ht) hl h2
    obtain ⟨-, -, h3⟩ := at_cons h2
    have hk : re2.captures = re.captures := by rw [k2, g1.caps]; rfl
    obtain ⟨re3, e3, g3⟩ := parse_ok hl p false m re2 re.buf.length begin_ (off + c.spell.length + 1) level tail hok.2 ht h3 (by omega) r2 (by
        rw [hk]; exact hg) (by
      intro _
      have := g1.cap
      rw [hk, b2]
      simp only [List.length_append, List.length_cons]
      omega)
    refine ⟨re3, ?_, ?_, Nat.le_trans g1.cap (Nat.le_trans c2 g3.cap), g3.can, by rw [g3.caps, hk]; rfl⟩
    · rw [e1, e2, e3]
      simp only [Pat.spell, List.length_append, List.length_cons]
      congr 2; omega
    · rw [g3.buf, b2, hk]
      simp [Pat.flat, opsOf_cons, Instr.ops]
  | .lit s p, l, n + 1, re, last, begin_, off, level, tail, hok, ht, h, hn, hc, hg, hp => by
    by_cases hx : p.extra = 0
    · obtain ⟨-, h0, ho, h127, hokp⟩ := hok
      have h' : (pat.take len).drop off = s ++ (p.spell ++ tail) := by simpa [Pat.spell] using h
      have hlen := at_length hl h'
      simp only [List.length_append] at hlen
      have hs : 0 < s.length := List.length_pos_iff.2 h0
      obtain ⟨re1, g1, e1⟩ := parse_lit (n := n) (last := last) (begin_ := begin_) (level := level) (b := none) hl hc ho h0 (by omega)
        (stops_pat hokp hx ht) h'
      obtain ⟨re2, e2, g2⟩ := parse_ok hl p true n re1 re.buf.length begin_ (off + s.length) level tail hokp ht (at_append h') (by omega) g1.can
        (by rw [g1.caps]; exact hg) (by
        intro hh
        have := hp hh
        have := g1.cap
        rw [g1.caps, g1.buf]
        simp only [Pat.flat, opsOf_cons, List.length_append, List.length_cons, Instr.ops, Nat.add_zero] at *
        omega)
      refine ⟨re2, ?_, ?_⟩
      · rw [e1, e2]
        simp only [Pat.spell, List.length_append]
        congr 2; omega
      · have := g1.trans g2
        rw [g1.caps] at this
        simpa [Pat.flat, opsOf_cons, Instr.ops, Pat.groups] using this
    · obtain ⟨x, p, rfl⟩ : ∃ x p', p = .plus (.chr x) p' := by
        unfold Pat.extra at hx
        split at hx
        · exact ⟨_, _, rfl⟩
        · exact absurd rfl hx
      obtain ⟨-, h0, ho, h127, hx, hokp⟩ := hok
      simp only [Pat.extra] at h127
      have h' : (pat.take len).drop off = (s ++ [x]) ++ (0x2b#8 :: (p.spell ++ tail)) := by simpa [Pat.spell, Cls.spell] using h
      have hlen := at_length hl h'
      simp only [List.length_append, List.length_cons, List.length_nil] at hlen
      have hcap := hp rfl
      simp only [Pat.flat, opsOf_cons, List.length_append, Instr.ops, List.length_cons, Cls.ops, List.length_nil] at hcap
      obtain ⟨re1, g1, e1⟩ := parse_lit (n := n) (last := last) (begin_ := begin_) (level := level) (b := none) hl hc (s := s ++ [x]) (by
        intro a ha
        simp only [List.mem_append, List.mem_singleton] at ha
        rcases ha with ha | rfl
        · exact ho a ha
        · exact hx) (by simp) (by simp; omega) (by intro d hd; simp at hd; subst hd; decide) h'
      obtain ⟨m, rfl⟩ : ∃ m, n = m + 1 := ⟨n - 1, by omega⟩
      have h2 := at_append h'
      obtain ⟨re2, b2, c2, r2, k2, e2⟩ := parse_plus_split (n := m) (begin_ := begin_) (level := level) (br := none) (s := s) (x := x) (b := re.buf) g1.can
        (by rw [g1.buf]; simp) h0 h127 (head_pat hokp ht) hl h2
      obtain ⟨-, -, h3⟩ := at_cons h2
      have hk : re2.captures = re.captures := by rw [k2, g1.caps]; rfl
      obtain ⟨re3, e3, g3⟩ := parse_ok hl p false m re2 re.buf.length begin_ (off + (s ++ [x]).length + 1) level tail hokp ht h3 (by
          simp only [List.length_append, List.length_cons, List.length_nil]; omega) r2 (by
          rw [hk]; exact hg) (by
        intro _
        have := g1.cap
        rw [hk, b2]
        simp only [List.length_append, List.length_cons, Cls.ops, List.length_nil]
        omega)
      refine ⟨re3, ?_, ?_, Nat.le_trans g1.cap (Nat.le_trans c2 g3.cap), g3.can, by rw [g3.caps, hk]; rfl⟩
      · rw [e1, e2, e3]
        simp only [Pat.spell, List.length_append, List.length_cons, Cls.spell, List.length_nil]
        congr 2; omega
      · rw [g3.buf, b2, hk]
        simp [Pat.flat, opsOf_cons, Instr.ops]
  | .group q p, l, n + 1, re, last, begin_, off, level, tail, hok, ht, h, hn, hc, hg, hp => by
    simp only [Pat.groups] at hg
    have h' : (pat.take len).drop off = 0x28#8 :: (q.spell ++ (0x29#8 :: (p.spell ++ tail))) := by simpa [Pat.spell] using h
    obtain ⟨h1, h2, h3⟩ := at_cons h'
    have hlen := at_length hl h3
    simp only [List.length_append, List.length_cons] at hlen
    obtain ⟨re1, e1, g1⟩ := emitOps_ok (vs := [0, (re.captures : Int)]) (re := { re with captures := re.captures + 1 }) hc (by simp; omega)
    have k1 : re1.captures = re.captures + 1 := g1.caps
    have b1 : re1.buf = re.buf ++ [0, BitVec.ofNat 8 re.captures] := by rw [g1.buf]; simp
    have hcap : (Pat.group q p).hasPlus = true → re.buf.length + 4 + (opsOf (q.flat (re.captures + 1))).length +
        (opsOf (p.flat (re.captures + 1 + q.groups))).length < re.cap := by
      intro hh
      have := hp hh
      simp only [Pat.flat, opsOf, List.cons_append, List.flatMap_cons, List.flatMap_append, List.length_append, Instr.ops, List.length_cons, List.length_nil] at this ⊢
      omega
    have c1 : re.cap ≤ re1.cap := g1.cap
    obtain ⟨re2, e2, g2⟩ := parse_ok hl q false n re1 re1.buf.length re1.buf.length (off + 1) (level + 1) _ hok.1 (Or.inr ⟨by omega, _, rfl⟩) h3
      (by omega) g1.can (by omega) (by
        intro hh
        have := hcap (by simp [Pat.hasPlus, hh])
        rw [k1, b1]
        simp only [List.length_append, List.length_cons, List.length_nil]
        omega)
    rw [k1] at g2
    simp only [past, List.cons_ne_nil, if_false] at e2
    obtain ⟨re3, e3, g3⟩ := emitOps_ok (vs := [1, (re.captures : Int)]) g2.can (by simp; omega)
    have h4 := at_append h3
    obtain ⟨-, h5, h6⟩ := at_cons h4
    have k3 : re3.captures = re.captures + 1 + q.groups := by rw [g3.caps, g2.caps, k1]; rfl
    obtain ⟨re4, e4, g4⟩ := parse_ok hl p false n re3 re.buf.length begin_ (off + 1 + q.spell.length + 1) level tail hok.2 ht h6
      (by omega) g3.can (by omega) (by
        intro hh
        have := hcap (by simp [Pat.hasPlus, hh])
        have := g2.cap
        have := g3.cap
        rw [k3, g3.buf, g2.buf, b1]
        simp only [List.length_append, List.length_cons, List.length_nil, List.length_map]
        omega)
    refine ⟨re4, ?_, ?_, ?_, g4.can, ?_⟩
    · rw [parse, if_pos h1, h2, except_ok_bind]
      simp only [BitVec.reduceEq, if_false, if_true]
      rw [e1]
      dsimp only
      rw [e2, except_ok_bind]
      dsimp only
      rw [if_neg (by omega), Nat.add_sub_cancel, h5, except_ok_bind, if_neg (by simp), e3]
      dsimp only
      rw [e4]
      simp only [Pat.spell, List.length_append, List.length_cons]
      congr 2; omega
    · rw [g4.buf, g3.buf, g2.buf, b1, k3]
      simp [Pat.flat, opsOf, Instr.ops]
    · have := g2.cap
      have := g3.cap
      have := g4.cap
      omega
    · rw [g4.caps, k3]; simp [Pat.groups]; omega

/-! ## Lemmas: compiling and matching together -/

/-- The number of elements. -/
def Pat.size : Pat → Nat
  | .nil => 0
  | .lit _ p | .one _ p | .plus _ p | .bol p | .eol p => p.size + 1
  | .group q p => q.size + p.size + 1

theorem bytes_spell {it : Item} (h : it.Ok) : it.bytes.length ≤ it.spell.length := by
  have := bytes_length h
  cases it <;> simp [Item.bytes, Item.spell] at * <;> omega

theorem cls_length {c : Cls} (h : c.Ok) : c.ops.length ≤ c.spell.length + 2 := by
  cases c with
  | chr x => simp [Cls.ops, Cls.spell]
  | any => simp [Cls.ops, Cls.spell]
  | esc e =>
    have := bytes_length (it := .esc e) h
    simp only [Item.bytes] at this
    simp [Cls.ops, Cls.spell]; omega
  | hex a b => simp [Cls.ops, Cls.spell]
  | set neg items =>
    have key : ∀ items : List Item, (∀ i ∈ items, i.Ok) → (items.flatMap Item.bytes).length ≤ (items.flatMap Item.spell).length := by
      intro items hi
      induction items with
      | nil => simp
      | cons it items ih =>
        have := ih (fun i h => hi i (by simp [h]))
        have := bytes_spell (hi it (by simp))
        simp only [List.flatMap_cons, List.length_append]
        omega
    have := key items h.1
    simp only [Cls.ops, Cls.spell, List.length_append, List.length_cons, List.length_nil]
    omega

theorem cls_length_plus {c : Cls} (h : c.Ok) : c.ops.length + 1 ≤ (c.spell.length + 1) + 2 := by
  have := cls_length h
  omega

theorem flat_length : ∀ (p : Pat) (l : Bool) (n : Nat), p.Ok l → (opsOf (p.flat n)).length ≤ p.spell.length + 2 * p.size
  | .nil, l, n, h => by simp [Pat.flat, opsOf]
  | .lit s p, l, n, h => by
    have := flat_length p true n h.2.2.2.2
    simp only [Pat.flat, opsOf_cons, List.length_append, Instr.ops, List.length_cons, Pat.spell, Pat.size]
    omega
  | .one c p, l, n, h => by
    have := flat_length p false n h.2.2
    have := cls_length h.2.1
    simp only [Pat.flat, opsOf_cons, List.length_append, Instr.ops, Pat.spell, Pat.size]
    omega
  | .plus c p, l, n, h => by
    have := flat_length p false n h.2
    have := cls_length h.1
    simp only [Pat.flat, opsOf_cons, List.length_append, Instr.ops, List.length_cons, Pat.spell, Pat.size]
    omega
  | .bol p, l, n, h => by
    have := flat_length p false n h
    simp only [Pat.flat, opsOf_cons, List.length_append, Instr.ops, List.length_cons, List.length_nil, Pat.spell, Pat.size]
    omega
  | .eol p, l, n, h => by
    have := flat_length p false n h
    simp only [Pat.flat, opsOf_cons, List.length_append, Instr.ops, List.length_cons, List.length_nil, Pat.spell, Pat.size]
    omega
  | .group q p, l, n, h => by
    have := flat_length q false (n + 1) h.1
    have := flat_length p false (n + 1 + q.groups) h.2
    have e : opsOf ((Pat.group q p).flat n) = [0, BitVec.ofNat 8 n] ++ opsOf (q.flat (n + 1)) ++ [1, BitVec.ofNat 8 n] ++ opsOf (p.flat (n + 1 + q.groups)) := by
      simp [Pat.flat, opsOf, Instr.ops]
    rw [e]
    simp only [List.length_append, List.length_cons, List.length_nil, Pat.spell, Pat.size]
    omega

theorem Ordinary.text {s : List Byte} (h : Ordinary s) : Text s := fun c hc => (h c hc).1

theorem flat_ok : ∀ (p : Pat) (l : Bool) (n : Nat), p.Ok l → n + p.groups ≤ 256 → ∀ ins ∈ p.flat n, ins.Ok
  | .nil, l, n, h, hg, ins, hi => by simp [Pat.flat] at hi
  | .lit s p, l, n, h, hg, ins, hi => by
    simp only [Pat.flat, List.mem_cons] at hi
    rcases hi with rfl | hi
    · exact ⟨h.2.1, h.2.2.1.text, by have := h.2.2.2.1; omega⟩
    · exact flat_ok p true n h.2.2.2.2 hg ins hi
  | .one c p, l, n, h, hg, ins, hi => by
    simp only [Pat.flat, List.mem_cons] at hi
    rcases hi with rfl | hi
    · exact h.2.1
    · exact flat_ok p false n h.2.2 hg ins hi
  | .plus c p, l, n, h, hg, ins, hi => by
    simp only [Pat.flat, List.mem_cons] at hi
    rcases hi with rfl | hi
    · exact h.1
    · exact flat_ok p false n h.2 hg ins hi
  | .bol p, l, n, h, hg, ins, hi => by
    simp only [Pat.flat, List.mem_cons] at hi
    rcases hi with rfl | hi
    · trivial
    · exact flat_ok p false n h hg ins hi
  | .eol p, l, n, h, hg, ins, hi => by
    simp only [Pat.flat, List.mem_cons] at hi
    rcases hi with rfl | hi
    · trivial
    · exact flat_ok p false n h hg ins hi
  | .group q p, l, n, h, hg, ins, hi => by
    simp only [Pat.groups] at hg
    simp only [Pat.flat, List.cons_append, List.mem_cons, List.mem_append] at hi
    rcases hi with rfl | hi | rfl | hi
    · show n ≤ 255; omega
    · exact flat_ok q false (n + 1) h.1 (by omega) ins hi
    · show n ≤ 255; omega
    · exact flat_ok p false (n + 1 + q.groups) h.2 (by omega) ins hi

theorem compile_ok {p : Pat} {pat : List Byte} {len : Nat} (hl : len ≤ pat.length) (hp : pat.take len = p.spell) (hok : p.Ok false) (hg : p.groups ≤ 256)
    (hplus : p.hasPlus = true → p.size ≤ 63) :
    ∃ re, compile pat len = .ok (.none, re, false) ∧ re.buf = opsOf (p.flat 0) ∧ re.captures = p.groups := by
  have hlen : p.spell.length = len := by rw [← hp]; simp; omega
  obtain ⟨re, e, g⟩ := parse_ok hl p false (len + 1) { buf := [], cap := len + 128, canRealloc := true, captures := 0 } 0 0 0 0 [] hok (Or.inl rfl)
    (by simpa using hp) (by omega) rfl (by simpa using hg) (by
      intro hh
      have := flat_length p false 0 hok
      have := hplus hh
      simp
      omega)
  refine ⟨re, ?_, by simpa using g.buf, by simpa using g.caps⟩
  rw [compile, e]
  simp [except_ok_bind, past, hlen]

/-- The text behind a successful and a failed attempt, as the matcher sees them. -/
theorem attempt_match {p : Pat} {block : List Byte} {len i j : Nat} {cs : List (Nat × Nat)} (hl : len ≤ block.length) (hok : ∀ ins ∈ p.flat 0, ins.Ok)
    (hcalm : Calm block len (p.flat 0)) (hr : ∀ ins ∈ p.flat 0, ins.reads = true → len < block.length) (hi : i ≤ len)
    (h : Matches (block.take len) p i j cs) (caps : List Cap) :
    ∃ caps', (∃ N, ∀ n, N ≤ n → ∃ o : Int, exec (opsOf (p.flat 0)) block len n 0 i caps = .ok (⟨o, j⟩, caps')) ∧ caps'.length = caps.length ∧
      Holds cs 0 caps' ∧ ∀ m, p.groups ≤ m → caps'[m]? = caps[m]? := by
  obtain ⟨caps1, h1, h2, h3, h4⟩ := matches_run hl rfl h hi 0 [] j (by simpa using hok) (by simpa using hcalm) (by simp [Outside]) (fun c => ⟨c, rfl⟩) caps
  rw [List.append_nil, run] at h1
  obtain ⟨N, hN⟩ := exec_run hl (p.flat 0) [] i caps j caps1 hi hok hr h1
  refine ⟨caps1, ⟨N, fun n hn => ?_⟩, h2, h3, ?_⟩
  · obtain ⟨o, ho, -⟩ := hN n hn
    exact ⟨o, by simpa using ho⟩
  · intro m hm
    cases hc : caps[m]? with
    | none => rw [List.getElem?_eq_none_iff] at hc ⊢; omega
    | some c =>
      obtain ⟨c', h5, h6, h7⟩ := h4 m c (by omega) hc
      rw [h5]
      have := h6 (by simp)
      have := h7 (by simp)
      cases c; cases c'
      simp_all

theorem attempt_fail {p : Pat} {block : List Byte} {len i : Nat} (hl : len ≤ block.length) (hok : ∀ ins ∈ p.flat 0, ins.Ok)
    (hcalm : Calm block len (p.flat 0)) (hr : ∀ ins ∈ p.flat 0, ins.reads = true → len < block.length) (hi : i ≤ len)
    (h : Fails (block.take len) p i) (caps : List Cap) :
    ∃ (r : Int) (caps' : List Cap), (r = -1 ∨ r > len) ∧ (∃ N, ∀ n, N ≤ n → ∃ o : Int, exec (opsOf (p.flat 0)) block len n 0 i caps = .ok (⟨o, r⟩, caps')) ∧
      caps'.length = caps.length ∧ ∀ m, p.groups ≤ m → caps'[m]? = caps[m]? := by
  obtain ⟨r, hr', h1⟩ := fails_run hl rfl h hi 0 [] (by simpa using hok) (by simpa using hcalm) (by simp [Outside])
  obtain ⟨caps1, h1⟩ := h1 caps
  rw [List.append_nil] at h1
  obtain ⟨N, hN⟩ := exec_run hl (p.flat 0) [] i caps r caps1 hi hok hr h1
  obtain ⟨s1, s2⟩ := run_same block len (p.flat 0) i caps r caps1 hok h1
  refine ⟨r, caps1, hr', ⟨N, fun n hn => ?_⟩, s1, ?_⟩
  · obtain ⟨o, ho, -⟩ := hN n hn
    exact ⟨o, by simpa using ho⟩
  · intro m hm
    cases hc : caps[m]? with
    | none => rw [List.getElem?_eq_none_iff] at hc ⊢; omega
    | some c =>
      obtain ⟨c', h5, h6, h7⟩ := s2 m c hc
      have hb := flat_bounds p 0 m
      rw [h5]
      have := h6 (fun h => by have := hb (Or.inl h); omega)
      have := h7 (fun h => by have := hb (Or.inr h); omega)
      cases c; cases c'
      simp_all

/-- The attempts from `i` on that all fail. -/
theorem loop_fail {p : Pat} {re : Re} {block : List Byte} {len : Nat} (hl : len ≤ block.length) (hbuf : re.buf = opsOf (p.flat 0))
    (hok : ∀ ins ∈ p.flat 0, ins.Ok) (hcalm : Calm block len (p.flat 0)) (hr : ∀ ins ∈ p.flat 0, ins.reads = true → len < block.length) :
    ∀ (k i : Nat) (caps : List Cap), i + k ≤ len → (∀ m, i ≤ m → m < i + k → Fails (block.take len) p m) →
    ∃ caps', caps'.length = caps.length ∧ (∀ m, p.groups ≤ m → caps'[m]? = caps[m]?) ∧
      ∃ N, ∀ n, N ≤ n → ∀ d, matchLoop re block len n (k + d) i caps = matchLoop re block len n d (i + k) caps'
  | 0, i, caps, hi, h => ⟨caps, rfl, fun _ _ => rfl, 0, fun n _ d => by simp⟩
  | k + 1, i, caps, hi, h => by
    obtain ⟨r, c1, h1, ⟨N1, h2⟩, h3, h4⟩ := attempt_fail hl hok hcalm hr (i := i) (by omega) (h i (by omega) (by omega)) caps
    obtain ⟨c2, h5, h6, N2, h7⟩ := loop_fail hl hbuf hok hcalm hr k (i + 1) c1 (by omega) (fun m a b => h m (by omega) (by omega))
    refine ⟨c2, by omega, fun m hm => (h6 m hm).trans (h4 m hm), max N1 N2, fun n hn d => ?_⟩
    obtain ⟨o, ho⟩ := h2 n (by omega)
    rw [show k + 1 + d = (k + d) + 1 by omega, matchLoop, hbuf, ho, except_ok_bind]
    dsimp only
    rw [if_neg (by omega), if_neg (by omega), h7 n (by omega) d]
    congr 1
    omega

/-- Where an attempt to match can begin: a pattern with a leading `^` is tried at the start of the text, any other at each of its characters. -/
def Pat.Starts (len i : Nat) : Pat → Prop
  | .bol _ => i = 0
  | _ => i < len

/-- No `c+` without something behind it that the characters of `c` cannot begin. -/
def Separated : List Instr → Prop
  | [] => True
  | .plus c :: is => is ≠ [] ∧ Avoids c is ∧ Separated is
  | .beg _ :: is | .fin _ :: is | .bol :: is | .eol :: is | .lit _ :: is | .one _ :: is => Separated is

/-- The character behind the text, which the escapes look at, is none of theirs. -/
def Sealed (block : List Byte) (len : Nat) (is : List Instr) : Prop :=
  ∀ c ch, .one c ∈ is → c.reads = true → block[len]? = some ch → c.has ch = false

theorem calm_of {block : List Byte} {len : Nat} : ∀ {is : List Instr}, Separated is → Sealed block len is → Calm block len is
  | [], _, _ => trivial
  | .plus c :: is, h, hs => ⟨h.1, h.2.1, by
      intro d hd
      unfold clsRun
      split
      · rfl
      · rename_i ch hch
        rw [if_neg (by omega)]
        split
        · rw [if_neg (by rw [hs _ ch (by simp [hd]) rfl hch]; simp)]
        · rw [if_neg (by rw [hs _ ch (by simp [hd]) rfl hch]; simp)]
        · rfl, calm_of h.2.2 (fun c ch hc => hs c ch (by simp [hc]))⟩
  | .beg _ :: is, h, hs => calm_of (is := is) h (fun c ch hc => hs c ch (by simp [hc]))
  | .fin _ :: is, h, hs => calm_of (is := is) h (fun c ch hc => hs c ch (by simp [hc]))
  | .bol :: is, h, hs => calm_of (is := is) h (fun c ch hc => hs c ch (by simp [hc]))
  | .eol :: is, h, hs => calm_of (is := is) h (fun c ch hc => hs c ch (by simp [hc]))
  | .lit _ :: is, h, hs => calm_of (is := is) h (fun c ch hc => hs c ch (by simp [hc]))
  | .one _ :: is, h, hs => calm_of (is := is) h (fun c ch hc => hs c ch (by simp [hc]))

theorem calm_append {block : List Byte} {len : Nat} : ∀ {is js : List Instr}, (∀ c, .plus c ∉ is) → Calm block len js → Calm block len (is ++ js)
  | [], js, _, h => h
  | .plus c :: is, js, hn, _ => absurd (by simp) (hn c)
  | .beg _ :: is, js, hn, h => calm_append (is := is) (fun c hc => hn c (by simp [hc])) h
  | .fin _ :: is, js, hn, h => calm_append (is := is) (fun c hc => hn c (by simp [hc])) h
  | .bol :: is, js, hn, h => calm_append (is := is) (fun c hc => hn c (by simp [hc])) h
  | .eol :: is, js, hn, h => calm_append (is := is) (fun c hc => hn c (by simp [hc])) h
  | .lit _ :: is, js, hn, h => calm_append (is := is) (fun c hc => hn c (by simp [hc])) h
  | .one _ :: is, js, hn, h => calm_append (is := is) (fun c hc => hn c (by simp [hc])) h

theorem no_plus : ∀ {p : Pat} (n : Nat), p.hasPlus = false → ∀ c, .plus c ∉ p.flat n
  | .nil, n, h, c => by simp [Pat.flat]
  | .lit s p, n, h, c => by simpa [Pat.flat] using no_plus (p := p) n h c
  | .one d p, n, h, c => by simpa [Pat.flat] using no_plus (p := p) n h c
  | .plus d p, n, h, c => by simp [Pat.hasPlus] at h
  | .bol p, n, h, c => by simpa [Pat.flat] using no_plus (p := p) n h c
  | .eol p, n, h, c => by simpa [Pat.flat] using no_plus (p := p) n h c
  | .group q p, n, h, c => by
    simp only [Pat.hasPlus, Bool.or_eq_false_iff] at h
    simp only [Pat.flat, List.cons_append, List.mem_cons, reduceCtorEq, List.mem_append, false_or, not_or]
    exact ⟨no_plus _ h.1 c, no_plus _ h.2 c⟩

/-- A pattern without `c+` matches at a place or fails there. -/
theorem matches_or_fails {text : List Byte} : ∀ (p : Pat) (i : Nat), p.hasPlus = false → i ≤ text.length →
    (∃ j cs, Matches text p i j cs) ∨ Fails text p i
  | .nil, i, _, _ => Or.inl ⟨_, _, .nil⟩
  | .lit s p, i, h, hi => by
    by_cases hs : s <+: text.drop i
    · have := hs.length_le
      simp at this
      rcases matches_or_fails (text := text) p (i + s.length) h (by omega) with ⟨j, cs, hm⟩ | hf
      · exact Or.inl ⟨_, _, .lit hs hm⟩
      · exact Or.inr (.litNext hs hf)
    · exact Or.inr (.lit hs)
  | .one c p, i, h, hi => by
    cases ht : text[i]? with
    | none => exact Or.inr (.one (by simp [ht]))
    | some ch =>
      cases hc : c.has ch with
      | false => exact Or.inr (.one (fun d hd => by rw [ht] at hd; cases hd; exact hc))
      | true =>
        obtain ⟨hlt, -⟩ := List.getElem?_eq_some_iff.1 ht
        rcases matches_or_fails (text := text) p (i + 1) h (by omega) with ⟨j, cs, hm⟩ | hf
        · exact Or.inl ⟨_, _, .one ht hc hm⟩
        · exact Or.inr (.oneNext ht hc hf)
  | .plus c p, i, h, hi => by simp [Pat.hasPlus] at h
  | .bol p, i, h, hi => by
    by_cases h0 : i = 0
    · subst h0
      rcases matches_or_fails (text := text) p 0 h (by omega) with ⟨j, cs, hm⟩ | hf
      · exact Or.inl ⟨_, _, .bol hm⟩
      · exact Or.inr (.bolNext hf)
    · exact Or.inr (.bol h0)
  | .eol p, i, h, hi => by
    by_cases h0 : i = text.length
    · subst h0
      rcases matches_or_fails (text := text) p text.length h (by omega) with ⟨j, cs, hm⟩ | hf
      · exact Or.inl ⟨_, _, .eol hm⟩
      · exact Or.inr (.eolNext hf)
    · exact Or.inr (.eol h0)
  | .group q p, i, h, hi => by
    simp only [Pat.hasPlus, Bool.or_eq_false_iff] at h
    rcases matches_or_fails (text := text) q i h.1 hi with ⟨k, cs, hm⟩ | hf
    · rcases matches_or_fails (text := text) p k h.2 (matches_le hm hi) with ⟨j, ds, hn⟩ | hf
      · exact Or.inl ⟨_, _, .group hm hn⟩
      · exact Or.inr (.groupNext hm hf)
    · exact Or.inr (.groupIn hf)

theorem opsOf_ne_nil {is : List Instr} (h : is ≠ []) : opsOf is ≠ [] := by
  cases is with
  | nil => exact absurd rfl h
  | cons a is => rw [opsOf_cons]; simp [ops_ne_nil]

theorem flat_ne_nil {p : Pat} {n : Nat} (h : p ≠ .nil) : p.flat n ≠ [] := by
  cases p <;> simp [Pat.flat] at *

theorem ops_first {c : Cls} : ∃ a r, c.ops = a :: r ∧ a ≠ 2#8 := by
  obtain ⟨a, r, h, h4, -⟩ := cls_ops_first (c := c)
  exact ⟨a, r, h, fun e => by subst e; exact absurd h4 (by decide)⟩

theorem flat_first {p : Pat} (h0 : p ≠ .nil) : (∃ q, p = .bol q ∧ ∃ r, opsOf (p.flat 0) = 2#8 :: r) ∨
    ((∀ q, p ≠ .bol q) ∧ ∃ a r, opsOf (p.flat 0) = a :: r ∧ a ≠ 2#8) := by
  cases p with
  | nil => exact absurd rfl h0
  | bol q => exact Or.inl ⟨q, rfl, _, rfl⟩
  | lit s p => exact Or.inr ⟨by simp, _, _, rfl, by decide⟩
  | one c p =>
    obtain ⟨a, r, h1, h2⟩ := ops_first (c := c)
    exact Or.inr ⟨by simp, a, r ++ opsOf (p.flat 0), by rw [Pat.flat, opsOf_cons, Instr.ops, h1]; rfl, h2⟩
  | plus c p => exact Or.inr ⟨by simp, _, _, rfl, by decide⟩
  | eol p => exact Or.inr ⟨by simp, _, _, rfl, by decide⟩
  | group q p => exact Or.inr ⟨by simp, _, _, rfl, by decide⟩

theorem starts_le {p : Pat} {len i : Nat} (h : p.Starts len i) : i ≤ len := by
  cases p <;> simp [Pat.Starts] at h <;> omega

/-- The leftmost match is found. -/
theorem reMatch_found {p : Pat} {re : Re} {block : List Byte} {len i j : Nat} {cs : List (Nat × Nat)} (h0 : p ≠ .nil) (hl : len ≤ block.length)
    (hbuf : re.buf = opsOf (p.flat 0)) (hok : ∀ ins ∈ p.flat 0, ins.Ok) (hcalm : Calm block len (p.flat 0))
    (hr : ∀ ins ∈ p.flat 0, ins.reads = true → len < block.length) (hs : p.Starts len i)
    (hearlier : ∀ k, k < i → Fails (block.take len) p k) (hm : Matches (block.take len) p i j cs) (caps : List Cap) :
    ∃ caps', caps'.length = caps.length ∧ Holds cs 0 caps' ∧ (∀ m, p.groups ≤ m → caps'[m]? = caps[m]?) ∧
      ∃ N, ∀ n, N ≤ n → reMatch re block len n caps = .ok (true, caps', some j) := by
  have hil := starts_le hs
  have hj : j ≤ len := by
    have := matches_le hm (by simp; omega)
    simp at this
    omega
  rcases flat_first h0 with ⟨q, rfl, r, hf⟩ | ⟨hnb, a, r, hf, ha⟩
  · simp only [Pat.Starts] at hs
    subst hs
    obtain ⟨caps', ⟨N, h1⟩, h2, h3, h4⟩ := attempt_match hl hok hcalm hr hil hm caps
    refine ⟨caps', h2, h3, h4, N, fun n hn => ?_⟩
    obtain ⟨o, ho⟩ := h1 n hn
    rw [reMatch, if_pos (by rw [hbuf, hf]; simp)]
    have : rd re.buf 0 = .ok 2#8 := by rw [hbuf, hf]; rfl
    rw [this, except_ok_bind, if_pos rfl, hbuf]
    rw [show ((0 : Nat) : Int) = 0 from rfl] at ho
    rw [ho, except_ok_bind]
    dsimp only
    rw [if_pos (by omega)]
  · have hs : i < len := by cases p <;> simp [Pat.Starts] at hs hnb <;> exact hs
    obtain ⟨c1, h1, h2, N1, h3⟩ := loop_fail hl hbuf hok hcalm hr i 0 caps (by omega) (fun m _ b => hearlier m (by omega))
    obtain ⟨c2, ⟨N2, h4⟩, h5, h6, h7⟩ := attempt_match hl hok hcalm hr hil hm c1
    refine ⟨c2, by omega, h6, fun m hm => (h7 m hm).trans (h2 m hm), max N1 N2, fun n hn => ?_⟩
    obtain ⟨o, ho⟩ := h4 n (by omega)
    rw [reMatch, if_pos (by rw [hbuf, hf]; simp)]
    have : rd re.buf 0 = .ok a := by rw [hbuf, hf]; rfl
    rw [this, except_ok_bind, if_neg ha]
    have h8 := h3 n (by omega) (len - i)
    rw [show i + (len - i) = len by omega, Nat.zero_add] at h8
    rw [h8, show len - i = (len - i - 1) + 1 by omega, matchLoop, hbuf, ho, except_ok_bind]
    dsimp only
    rw [if_pos (by omega)]

/-- Where every attempt fails, nothing is found. -/
theorem reMatch_none {p : Pat} {re : Re} {block : List Byte} {len : Nat} (h0 : p ≠ .nil) (hl : len ≤ block.length)
    (hbuf : re.buf = opsOf (p.flat 0)) (hok : ∀ ins ∈ p.flat 0, ins.Ok) (hcalm : Calm block len (p.flat 0))
    (hr : ∀ ins ∈ p.flat 0, ins.reads = true → len < block.length) (hfail : ∀ i, p.Starts len i → Fails (block.take len) p i) (caps : List Cap) :
    ∃ caps', caps'.length = caps.length ∧ (∀ m, p.groups ≤ m → caps'[m]? = caps[m]?) ∧
      ∃ N, ∀ n, N ≤ n → reMatch re block len n caps = .ok (false, caps', none) := by
  rcases flat_first h0 with ⟨q, rfl, r, hf⟩ | ⟨hnb, a, r, hf, ha⟩
  · obtain ⟨r', caps', h1, ⟨N, h2⟩, h3, h4⟩ := attempt_fail hl hok hcalm hr (i := 0) (by omega) (hfail 0 rfl) caps
    refine ⟨caps', h3, h4, N, fun n hn => ?_⟩
    obtain ⟨o, ho⟩ := h2 n hn
    rw [reMatch, if_pos (by rw [hbuf, hf]; simp)]
    have : rd re.buf 0 = .ok 2#8 := by rw [hbuf, hf]; rfl
    rw [this, except_ok_bind, if_pos rfl, hbuf]
    rw [show ((0 : Nat) : Int) = 0 from rfl] at ho
    rw [ho, except_ok_bind]
    dsimp only
    rw [if_neg (by omega)]
  · have hst : ∀ i, i < len → p.Starts len i := by
      intro i hi
      cases p <;> simp [Pat.Starts] at hnb ⊢ <;> exact hi
    obtain ⟨c1, h1, h2, N1, h3⟩ := loop_fail hl hbuf hok hcalm hr len 0 caps (by omega) (fun m _ b => hfail m (hst m (by omega)))
    refine ⟨c1, h1, h2, N1, fun n hn => ?_⟩
    rw [reMatch, if_pos (by rw [hbuf, hf]; simp)]
    have : rd re.buf 0 = .ok a := by rw [hbuf, hf]; rfl
    rw [this, except_ok_bind, if_neg ha]
    have := h3 n hn 0
    rw [Nat.add_zero] at this
    rw [this, matchLoop]

/-! ## Property theorems -/

/-- C82: a pattern without quantifiers and alternatives compiles.  `zpl_re_match` then finds its leftmost match: the offset is the end of that match, and
the captures hold what each group matched, as far as there is room for them; other captures stay as they are.  It finds nothing exactly when there is no match. -/
theorem C82_straight_patterns {p : Pat} {pat block : List Byte} {plen len : Nat} (h0 : p ≠ .nil) (hok : p.Ok false) (hplus : p.hasPlus = false)
    (hg : p.groups ≤ 256) (hpl : plen ≤ pat.length) (hp : pat.take plen = p.spell) (hl : len < block.length) :
    ∃ re, compile pat plen = .ok (.none, re, false) ∧ re.captures = p.groups ∧
      (∀ i j cs, p.Starts len i → Matches (block.take len) p i j cs → (∀ k, k < i → ∀ j cs, ¬ Matches (block.take len) p k j cs) → ∀ caps,
        ∃ caps', caps'.length = caps.length ∧ Holds cs 0 caps' ∧ (∀ m, p.groups ≤ m → caps'[m]? = caps[m]?) ∧
          ∃ N, ∀ n, N ≤ n → reMatch re block len n caps = .ok (true, caps', some j)) ∧
      ((∀ i, p.Starts len i → ∀ j cs, ¬ Matches (block.take len) p i j cs) → ∀ caps,
        ∃ caps', caps'.length = caps.length ∧ (∀ m, p.groups ≤ m → caps'[m]? = caps[m]?) ∧
          ∃ N, ∀ n, N ≤ n → reMatch re block len n caps = .ok (false, caps', none)) := by
  obtain ⟨re, hc, hb, hk⟩ := compile_ok hpl hp hok hg (by simp [hplus])
  have hins := flat_ok p false 0 hok (by omega)
  have hcalm : Calm block len (p.flat 0) := by
    have := calm_append (block := block) (len := len) (js := []) (no_plus 0 hplus) trivial
    simpa using this
  have hor : ∀ i, i ≤ len → (∀ j cs, ¬ Matches (block.take len) p i j cs) → Fails (block.take len) p i := by
    intro i hi hn
    rcases matches_or_fails (text := block.take len) p i hplus (by simp; omega) with ⟨j, cs, h⟩ | h
    · exact absurd h (hn j cs)
    · exact h
  refine ⟨re, hc, hk, ?_, ?_⟩
  · intro i j cs hs hm hearlier caps
    exact reMatch_found h0 (by omega) hb hins hcalm (fun _ _ _ => hl) hs (fun k hk => hor k (by have := starts_le hs; omega) (hearlier k hk)) hm caps
  · intro hn caps
    exact reMatch_none h0 (by omega) hb hins hcalm (fun _ _ _ => hl) (fun i hi => hor i (starts_le hi) (hn i hi)) caps

theorem matches_lit {text s : List Byte} {i j : Nat} {cs : List (Nat × Nat)} : Matches text (.lit s .nil) i j cs ↔ s <+: text.drop i ∧ j = i + s.length ∧ cs = [] := by
  constructor
  · intro h
    cases h with
    | lit h hp => cases hp; exact ⟨h, rfl, rfl⟩
  · rintro ⟨h, rfl, rfl⟩
    exact .lit h .nil

/-- C51: a pattern of ordinary characters, at most 127 of them, compiles, and is found exactly in the texts it occurs in; the offset is the end of its
first occurrence.  Nothing is read behind the text. -/
theorem C51_literal_search_partial {s pat block : List Byte} {plen len : Nat} (hs : Ordinary s) (h0 : s ≠ []) (h127 : s.length ≤ 127) (hpl : plen ≤ pat.length)
    (hp : pat.take plen = s) (hl : len ≤ block.length) :
    ∃ re, compile pat plen = .ok (.none, re, false) ∧ re.captures = 0 ∧ ∀ caps,
      (∀ a b, block.take len = a ++ s ++ b → (∀ k, k < a.length → ¬ s <+: (block.take len).drop k) →
        ∃ N, ∀ n, N ≤ n → reMatch re block len n caps = .ok (true, caps, some (a.length + s.length : Nat))) ∧
      (¬ s <:+: block.take len → ∃ N, ∀ n, N ≤ n → reMatch re block len n caps = .ok (false, caps, none)) := by
  have hok : (Pat.lit s .nil).Ok false := ⟨rfl, h0, hs, by simpa [Pat.extra] using h127, trivial⟩
  obtain ⟨re, hc, hb, hk⟩ := compile_ok (p := .lit s .nil) hpl (by simpa [Pat.spell] using hp) hok (by simp [Pat.groups]) (by simp [Pat.hasPlus])
  have hins := flat_ok _ false 0 hok (by simp [Pat.groups])
  have hreads : ∀ ins ∈ (Pat.lit s .nil).flat 0, ins.reads = true → len < block.length := by simp [Pat.flat, Instr.reads]
  have heq : ∀ caps' caps : List Cap, caps'.length = caps.length → (∀ m, (Pat.lit s .nil).groups ≤ m → caps'[m]? = caps[m]?) → caps' = caps :=
    fun caps' caps _ h => List.ext_getElem? (fun m => h m (by simp [Pat.groups]))
  refine ⟨re, hc, hk, fun caps => ⟨?_, ?_⟩⟩
  · intro a b hab hfirst
    have hspos : 0 < s.length := List.length_pos_iff.2 h0
    have hlen := congrArg List.length hab
    simp only [List.length_take, List.length_append] at hlen
    obtain ⟨caps', h1, -, h2, N, h3⟩ := reMatch_found (p := .lit s .nil) (re := re) (block := block) (len := len) (i := a.length) (j := a.length + s.length)
      (cs := []) (by simp) hl hb hins (by simp [Pat.flat, Calm]) hreads (show a.length < len by omega) (fun k hk => .lit (hfirst k hk))
      (matches_lit.2 ⟨by rw [hab, List.append_assoc, List.drop_left]; exact ⟨b, rfl⟩, rfl, rfl⟩) caps
    rw [heq caps' caps h1 h2] at h3
    exact ⟨N, h3⟩
  · intro hn
    obtain ⟨caps', h1, h2, N, h3⟩ := reMatch_none (p := .lit s .nil) (re := re) (block := block) (len := len) (by simp) hl hb hins
      (by simp [Pat.flat, Calm]) hreads (fun i _ => .lit (fun ⟨b, hb⟩ => hn ⟨(block.take len).take i, b, by
        rw [List.append_assoc, hb, List.take_append_drop]⟩)) caps
    rw [heq caps' caps h1 h2] at h3
    exact ⟨N, h3⟩

/-- C51: the empty pattern compiles and is found in every text. -/
theorem C51_empty_pattern (pat block : List Byte) (len n : Nat) (caps : List Cap) :
    ∃ re, compile pat 0 = .ok (.none, re, false) ∧ reMatch re block len n caps = .ok (true, caps, none) := by
  exact ⟨_, rfl, rfl⟩

/-- C83, the part that holds: a pattern with `c+`, each followed by something no character of `c` can begin, compiles.  If the pattern matches somewhere and
every attempt before that ends without a `c+` that finds nothing to repeat, the match is found, with `c+` taking as many characters as there are. -/
theorem C83_repeat_partial {p : Pat} {pat block : List Byte} {plen len : Nat} (h0 : p ≠ .nil) (hok : p.Ok false) (hsep : Separated (p.flat 0))
    (hg : p.groups ≤ 256) (hsize : p.size ≤ 63) (hpl : plen ≤ pat.length) (hp : pat.take plen = p.spell) (hl : len < block.length)
    (hseal : Sealed block len (p.flat 0)) :
    ∃ re, compile pat plen = .ok (.none, re, false) ∧ re.captures = p.groups ∧
      (∀ i j cs, p.Starts len i → Matches (block.take len) p i j cs → (∀ k, k < i → Fails (block.take len) p k) → ∀ caps,
        ∃ caps', caps'.length = caps.length ∧ Holds cs 0 caps' ∧ (∀ m, p.groups ≤ m → caps'[m]? = caps[m]?) ∧
          ∃ N, ∀ n, N ≤ n → reMatch re block len n caps = .ok (true, caps', some j)) ∧
      ((∀ i, p.Starts len i → Fails (block.take len) p i) → ∀ caps,
        ∃ caps', caps'.length = caps.length ∧ (∀ m, p.groups ≤ m → caps'[m]? = caps[m]?) ∧
          ∃ N, ∀ n, N ≤ n → reMatch re block len n caps = .ok (false, caps', none)) := by
  obtain ⟨re, hc, hb, hk⟩ := compile_ok hpl hp hok hg (fun _ => hsize)
  have hins := flat_ok p false 0 hok (by omega)
  have hcalm := calm_of hsep hseal
  refine ⟨re, hc, hk, ?_, ?_⟩
  · intro i j cs hs hm hearlier caps
    exact reMatch_found h0 (by omega) hb hins hcalm (fun _ _ _ => hl) hs hearlier hm caps
  · intro hn caps
    exact reMatch_none h0 (by omega) hb hins hcalm (fun _ _ _ => hl) hn caps

/-! ## Repetition in the ordinary sense -/

/-- The pattern matches `text` from `i` to `j` in the usual sense: `c+` takes any number of characters of `c`, at least one. -/
inductive Can (text : List Byte) : Pat → Nat → Nat → Prop
  | nil {i} : Can text .nil i i
  | lit {s p i j} (h : s <+: text.drop i) (hp : Can text p (i + s.length) j) : Can text (.lit s p) i j
  | one {c p i j ch} (h : text[i]? = some ch) (hc : c.has ch = true) (hp : Can text p (i + 1) j) : Can text (.one c p) i j
  | plus {c p i k j} (hk : i < k) (h : ∀ m, i ≤ m → m < k → ∃ ch, text[m]? = some ch ∧ c.has ch = true) (hp : Can text p k j) : Can text (.plus c p) i j
  | bol {p j} (hp : Can text p 0 j) : Can text (.bol p) 0 j
  | eol {p j} (hp : Can text p text.length j) : Can text (.eol p) text.length j
  | group {q p i k j} (hq : Can text q i k) (hp : Can text p k j) : Can text (.group q p) i j

/-- The same for instructions. -/
inductive CanI (text : List Byte) : List Instr → Nat → Nat → Prop
  | nil {i} : CanI text [] i i
  | beg {n is i j} (hp : CanI text is i j) : CanI text (.beg n :: is) i j
  | fin {n is i j} (hp : CanI text is i j) : CanI text (.fin n :: is) i j
  | lit {s is i j} (h : s <+: text.drop i) (hp : CanI text is (i + s.length) j) : CanI text (.lit s :: is) i j
  | one {c is i j ch} (h : text[i]? = some ch) (hc : c.has ch = true) (hp : CanI text is (i + 1) j) : CanI text (.one c :: is) i j
  | plus {c is i k j} (hk : i < k) (h : ∀ m, i ≤ m → m < k → ∃ ch, text[m]? = some ch ∧ c.has ch = true) (hp : CanI text is k j) :
      CanI text (.plus c :: is) i j
  | bol {is j} (hp : CanI text is 0 j) : CanI text (.bol :: is) 0 j
  | eol {is j} (hp : CanI text is text.length j) : CanI text (.eol :: is) text.length j

/-- The same, with every `c+` taking all it can. -/
inductive MaxI (text : List Byte) : List Instr → Nat → Nat → Prop
  | nil {i} : MaxI text [] i i
  | beg {n is i j} (hp : MaxI text is i j) : MaxI text (.beg n :: is) i j
  | fin {n is i j} (hp : MaxI text is i j) : MaxI text (.fin n :: is) i j
  | lit {s is i j} (h : s <+: text.drop i) (hp : MaxI text is (i + s.length) j) : MaxI text (.lit s :: is) i j
  | one {c is i j ch} (h : text[i]? = some ch) (hc : c.has ch = true) (hp : MaxI text is (i + 1) j) : MaxI text (.one c :: is) i j
  | plus {c is i k j} (hk : i < k) (h : ∀ m, i ≤ m → m < k → ∃ ch, text[m]? = some ch ∧ c.has ch = true)
      (hmax : ∀ ch, text[k]? = some ch → c.has ch = false) (hp : MaxI text is k j) : MaxI text (.plus c :: is) i j
  | bol {is j} (hp : MaxI text is 0 j) : MaxI text (.bol :: is) 0 j
  | eol {is j} (hp : MaxI text is text.length j) : MaxI text (.eol :: is) text.length j

theorem canI_flat {text : List Byte} {p : Pat} {i k : Nat} (h : Can text p i k) : ∀ (n : Nat) {rest : List Instr} {j : Nat}, CanI text rest k j →
    CanI text (p.flat n ++ rest) i j := by
  induction h with
  | nil => intro n rest j hr; exact hr
  | lit h hp ih => intro n rest j hr; exact .lit h (ih n hr)
  | one h hc hp ih => intro n rest j hr; exact .one h hc (ih n hr)
  | plus hk h hp ih => intro n rest j hr; exact .plus hk h (ih n hr)
  | bol hp ih => intro n rest j hr; exact .bol (ih n hr)
  | eol hp ih => intro n rest j hr; exact .eol (ih n hr)
  | group hq hp ih1 ih2 =>
    intro n rest j hr
    rename_i q p i k j'
    have e : (Pat.group q p).flat n ++ rest = .beg n :: (q.flat (n + 1) ++ (.fin n :: (p.flat (n + 1 + q.groups) ++ rest))) := by simp [Pat.flat]
    rw [e]
    exact .beg (ih1 _ (.fin (ih2 _ hr)))

theorem maxI_flat {text : List Byte} : ∀ (p : Pat) (n i : Nat) (rest : List Instr) (j : Nat), MaxI text (p.flat n ++ rest) i j →
    ∃ k cs, Matches text p i k cs ∧ MaxI text rest k j
  | .nil, n, i, rest, j, h => ⟨i, [], .nil, h⟩
  | .lit s p, n, i, rest, j, h => by
    cases h with
    | lit h hp => obtain ⟨k, cs, h1, h2⟩ := maxI_flat p n _ rest j hp; exact ⟨k, cs, .lit h h1, h2⟩
  | .one c p, n, i, rest, j, h => by
    cases h with
    | one h hc hp => obtain ⟨k, cs, h1, h2⟩ := maxI_flat p n _ rest j hp; exact ⟨k, cs, .one h hc h1, h2⟩
  | .plus c p, n, i, rest, j, h => by
    cases h with
    | plus hk h hmax hp => obtain ⟨k, cs, h1, h2⟩ := maxI_flat p n _ rest j hp; exact ⟨k, cs, .plus hk h hmax h1, h2⟩
  | .bol p, n, i, rest, j, h => by
    cases h with
    | bol hp => obtain ⟨k, cs, h1, h2⟩ := maxI_flat p n _ rest j hp; exact ⟨k, cs, .bol h1, h2⟩
  | .eol p, n, i, rest, j, h => by
    cases h with
    | eol hp => obtain ⟨k, cs, h1, h2⟩ := maxI_flat p n _ rest j hp; exact ⟨k, cs, .eol h1, h2⟩
  | .group q p, n, i, rest, j, h => by
    have e : (Pat.group q p).flat n ++ rest = .beg n :: (q.flat (n + 1) ++ (.fin n :: (p.flat (n + 1 + q.groups) ++ rest))) := by simp [Pat.flat]
    rw [e] at h
    cases h with
    | beg hp =>
      obtain ⟨k, cs, h1, h2⟩ := maxI_flat q _ _ _ _ hp
      cases h2 with
      | fin hp =>
        obtain ⟨k2, ds, h3, h4⟩ := maxI_flat p _ _ _ _ hp
        exact ⟨k2, _, .group h1 h3, h4⟩

theorem matches_can {text : List Byte} {p : Pat} {i j : Nat} {cs : List (Nat × Nat)} (h : Matches text p i j cs) : Can text p i j := by
  induction h with
  | nil => exact .nil
  | lit h _ ih => exact .lit h ih
  | one h hc _ ih => exact .one h hc ih
  | plus hk h _ _ ih => exact .plus hk h ih
  | bol _ ih => exact .bol ih
  | eol _ ih => exact .eol ih
  | group _ _ ih1 ih2 => exact .group ih1 ih2

/-- Where the rest can match at a character of `c` although it avoids `c`, it is because nothing more is wanted. -/
theorem avoids_can {text : List Byte} {c : Cls} {ch : Byte} (hch : c.has ch = true) : ∀ {is : List Instr} {i j : Nat}, Avoids c is →
    (∀ s, .lit s ∈ is → s ≠ []) → 0 < i → text[i]? = some ch → CanI text is i j → ∀ k, i ≤ k → k ≤ text.length → ∃ j', MaxI text is k j'
  | [], i, j, ha, hl, h0, ht, h, k, hk, hkl => ⟨k, .nil⟩
  | .beg n :: is, i, j, ha, hl, h0, ht, h, k, hk, hkl => by
    cases h with
    | beg hp => obtain ⟨j', h'⟩ := avoids_can hch (is := is) ha (fun s hs => hl s (by simp [hs])) h0 ht hp k hk hkl; exact ⟨j', .beg h'⟩
  | .fin n :: is, i, j, ha, hl, h0, ht, h, k, hk, hkl => by
    cases h with
    | fin hp => obtain ⟨j', h'⟩ := avoids_can hch (is := is) ha (fun s hs => hl s (by simp [hs])) h0 ht hp k hk hkl; exact ⟨j', .fin h'⟩
  | .bol :: is, i, j, ha, hl, h0, ht, h, k, hk, hkl => by
    cases h with
    | bol hp => exact absurd h0 (by decide)
  | .eol :: is, i, j, ha, hl, h0, ht, h, k, hk, hkl => by
    cases h with
    | eol hp => simp at ht
  | .lit s :: is, i, j, ha, hl, h0, ht, h, k, hk, hkl => by
    cases h with
    | lit hs hp =>
      exfalso
      cases s with
      | nil => exact hl [] (by simp) rfl
      | cons d s =>
        obtain ⟨t, ht'⟩ := hs
        have : text[i]? = some d := by
          have := congrArg (fun l => l[0]?) ht'
          simp at this
          exact this.symm
        rw [ht] at this
        cases this
        rw [ha ch rfl] at hch
        exact absurd hch (by decide)
  | .one d :: is, i, j, ha, hl, h0, ht, h, k, hk, hkl => by
    cases h with
    | one h1 hc hp =>
      exfalso
      rw [ht] at h1
      cases h1
      rw [ha ch hc] at hch
      exact absurd hch (by decide)
  | .plus d :: is, i, j, ha, hl, h0, ht, h, k, hk, hkl => ha.elim

theorem canI_max {text : List Byte} : ∀ {is : List Instr} {i j : Nat}, Separated is → (∀ s, .lit s ∈ is → s ≠ []) → CanI text is i j → ∃ j', MaxI text is i j'
  | [], i, j, hs, hl, h => ⟨i, .nil⟩
  | .beg n :: is, i, j, hs, hl, h => by
    cases h with
    | beg hp => obtain ⟨j', h'⟩ := canI_max (is := is) hs (fun s hs => hl s (by simp [hs])) hp; exact ⟨j', .beg h'⟩
  | .fin n :: is, i, j, hs, hl, h => by
    cases h with
    | fin hp => obtain ⟨j', h'⟩ := canI_max (is := is) hs (fun s hs => hl s (by simp [hs])) hp; exact ⟨j', .fin h'⟩
  | .bol :: is, i, j, hs, hl, h => by
    cases h with
    | bol hp => obtain ⟨j', h'⟩ := canI_max (is := is) hs (fun s hs => hl s (by simp [hs])) hp; exact ⟨j', .bol h'⟩
  | .eol :: is, i, j, hs, hl, h => by
    cases h with
    | eol hp => obtain ⟨j', h'⟩ := canI_max (is := is) hs (fun s hs => hl s (by simp [hs])) hp; exact ⟨j', .eol h'⟩
  | .lit s :: is, i, j, hs, hl, h => by
    cases h with
    | lit h1 hp => obtain ⟨j', h'⟩ := canI_max (is := is) hs (fun s hs => hl s (by simp [hs])) hp; exact ⟨j', .lit h1 h'⟩
  | .one c :: is, i, j, hs, hl, h => by
    cases h with
    | one h1 hc hp => obtain ⟨j', h'⟩ := canI_max (is := is) hs (fun s hs => hl s (by simp [hs])) hp; exact ⟨j', .one h1 hc h'⟩
  | .plus c :: is, i, j, hs, hl, h => by
    have hl' : ∀ s, .lit s ∈ is → s ≠ [] := fun s hs => hl s (by simp [hs])
    cases h with
    | plus hk h1 hp =>
      rename_i k
      have hkl : k ≤ text.length := by
        obtain ⟨ch, h2, -⟩ := h1 (k - 1) (by omega) (by omega)
        obtain ⟨h3, -⟩ := List.getElem?_eq_some_iff.1 h2
        omega
      obtain ⟨e, hke, hel, hall, hend⟩ : ∃ e, k ≤ e ∧ e ≤ text.length ∧ (∀ m, i ≤ m → m < e → ∃ ch, text[m]? = some ch ∧ c.has ch = true) ∧
          ∀ ch, text[e]? = some ch → c.has ch = false := by
        have key : ∀ d k, text.length - k = d → k ≤ text.length → (∀ m, i ≤ m → m < k → ∃ ch, text[m]? = some ch ∧ c.has ch = true) →
            ∃ e, k ≤ e ∧ e ≤ text.length ∧ (∀ m, i ≤ m → m < e → ∃ ch, text[m]? = some ch ∧ c.has ch = true) ∧
              ∀ ch, text[e]? = some ch → c.has ch = false := by
          intro d
          induction d with
          | zero =>
            intro k hd hkl h
            exact ⟨k, by omega, hkl, h, fun ch hch => by
              obtain ⟨h3, -⟩ := List.getElem?_eq_some_iff.1 hch
              omega⟩
          | succ d ih =>
            intro k hd hkl h
            have hlt : k < text.length := by omega
            cases hc : c.has text[k] with
            | false =>
              exact ⟨k, by omega, hkl, h, fun ch hch => by
                rw [List.getElem?_eq_getElem hlt] at hch
                cases hch
                exact hc⟩
            | true =>
              obtain ⟨e, h1, h2, h3, h4⟩ := ih (k + 1) (by omega) (by omega) (fun m a b => by
                by_cases hm : m < k
                · exact h m a hm
                · have : m = k := by omega
                  subst this
                  exact ⟨_, List.getElem?_eq_getElem hlt, hc⟩)
              exact ⟨e, by omega, h2, h3, h4⟩
        exact key _ k rfl hkl h1
      by_cases hek : e = k
      · subst hek
        obtain ⟨j', h'⟩ := canI_max (is := is) hs.2.2 hl' hp
        exact ⟨j', .plus hk h1 hend h'⟩
      · obtain ⟨ch, h2, h3⟩ := hall k (by omega) (by omega)
        obtain ⟨j', h'⟩ := avoids_can h3 hs.2.1 hl' (by omega) h2 hp e (by omega) hel
        exact ⟨j', .plus (by omega) hall hend h'⟩

theorem lit_ne_nil {p : Pat} {l : Bool} (hok : p.Ok l) (hg : p.groups ≤ 256) : ∀ s, .lit s ∈ p.flat 0 → s ≠ [] :=
  fun s hs => (flat_ok p l 0 hok (by omega) _ hs).1

/-- C83: for these patterns it makes no difference to where there is a match that `c+` never gives anything back. -/
theorem C83_greedy_is_enough {p : Pat} {text : List Byte} {i : Nat} (hok : p.Ok false) (hg : p.groups ≤ 256) (hsep : Separated (p.flat 0)) :
    (∃ j cs, Matches text p i j cs) ↔ ∃ j, Can text p i j := by
  constructor
  · rintro ⟨j, cs, h⟩
    exact ⟨j, matches_can h⟩
  · rintro ⟨j, h⟩
    have h1 := canI_flat h 0 (rest := []) (j := j) .nil
    rw [List.append_nil] at h1
    obtain ⟨j', h2⟩ := canI_max hsep (lit_ne_nil hok hg) h1
    obtain ⟨k, cs, h3, -⟩ := maxI_flat p 0 i [] j' (by rwa [List.append_nil])
    exact ⟨k, cs, h3⟩

/-- C82, C83: there is only one way a pattern matches at a place. -/
theorem C82_match_unique {text : List Byte} {p : Pat} {i j j' : Nat} {cs cs' : List (Nat × Nat)} (h : Matches text p i j cs) (h' : Matches text p i j' cs') :
    j = j' ∧ cs = cs' := by
  induction h generalizing j' cs' with
  | nil => cases h'; exact ⟨rfl, rfl⟩
  | lit h _ ih => cases h' with | lit _ hp => exact ih hp
  | one h hc _ ih => cases h' with | one _ _ hp => exact ih hp
  | plus hk h hmax _ ih =>
    rename_i c p i k j cs hp0
    cases h' with
    | plus hk' h1 hmax' hp =>
      rename_i k'
      have : k = k' := by
        rcases Nat.lt_trichotomy k k' with hlt | he | hlt
        · obtain ⟨ch, h2, h3⟩ := h1 k (by omega) hlt
          rw [hmax ch h2] at h3
          exact absurd h3 (by decide)
        · exact he
        · obtain ⟨ch, h2, h3⟩ := h k' (by omega) hlt
          rw [hmax' ch h2] at h3
          exact absurd h3 (by decide)
      subst this
      exact ih hp
  | bol _ ih => cases h' with | bol hp => exact ih hp
  | eol _ ih => cases h' with | eol hp => exact ih hp
  | group _ _ ih1 ih2 =>
    cases h' with
    | group hq hp =>
      obtain ⟨rfl, rfl⟩ := ih1 hq
      obtain ⟨rfl, rfl⟩ := ih2 hp
      exact ⟨rfl, rfl⟩

/-- C82, C83: a place where an attempt fails is no place where the pattern matches. -/
theorem C82_fails_no_match {text : List Byte} {p : Pat} {i : Nat} (h : Fails text p i) : ∀ j cs, ¬ Matches text p i j cs := by
  induction h with
  | lit h => intro j cs h'; cases h' with | lit h1 _ => exact h h1
  | litNext _ _ ih => intro j cs h'; cases h' with | lit _ hp => exact ih _ _ hp
  | one h => intro j cs h'; cases h' with | one h1 hc _ => rw [h _ h1] at hc; exact absurd hc (by decide)
  | oneNext _ _ _ ih => intro j cs h'; cases h' with | one _ _ hp => exact ih _ _ hp
  | plusNext hk h hmax _ ih =>
    rename_i c p i k _
    intro j cs h'
    cases h' with
    | plus hk' h1 hmax' hp =>
      rename_i k'
      have : k = k' := by
        rcases Nat.lt_trichotomy k k' with hlt | he | hlt
        · obtain ⟨ch, h2, h3⟩ := h1 k (by omega) hlt
          rw [hmax ch h2] at h3
          exact absurd h3 (by decide)
        · exact he
        · obtain ⟨ch, h2, h3⟩ := h k' (by omega) hlt
          rw [hmax' ch h2] at h3
          exact absurd h3 (by decide)
      subst this
      exact ih _ _ hp
  | bol h => intro j cs h'; cases h' with | bol _ => exact h rfl
  | bolNext _ ih => intro j cs h'; cases h' with | bol hp => exact ih _ _ hp
  | eol h => intro j cs h'; cases h' with | eol _ => exact h rfl
  | eolNext _ ih => intro j cs h'; cases h' with | eol hp => exact ih _ _ hp
  | groupIn _ ih => intro j cs h'; cases h' with | group hq _ => exact ih _ _ hq
  | groupNext hq _ ih =>
    intro j cs h'
    cases h' with
    | group hq' hp =>
      obtain ⟨rfl, -⟩ := C82_match_unique hq hq'
      exact ih _ _ hp

/-- C82: `$` alone is found in no text, not even in the empty one, although every text has an end. -/
theorem C82_end_alone {pat block : List Byte} {plen len : Nat} (hpl : plen ≤ pat.length) (hp : pat.take plen = [0x24#8]) (hl : len < block.length) :
    ∃ re, compile pat plen = .ok (.none, re, false) ∧ ∀ caps, ∃ N, ∀ n, N ≤ n → reMatch re block len n caps = .ok (false, caps, none) := by
  obtain ⟨re, h1, -, -, h2⟩ := C82_straight_patterns (p := .eol .nil) (block := block) (len := len) (by simp) trivial rfl (by simp [Pat.groups]) hpl hp hl
  refine ⟨re, h1, fun caps => ?_⟩
  obtain ⟨caps', -, h3, N, h4⟩ := h2 (by
    intro i hi j cs hm
    simp only [Pat.Starts] at hi
    cases hm with
    | eol _ => simp at hi; omega) caps
  have : caps' = caps := List.ext_getElem? (fun m => h3 m (by simp [Pat.groups]))
  exact ⟨N, this ▸ h4⟩

theorem exec_rep_nothing (star : Bool) {c : Cls} {rest block : List Byte} {len : Nat} {d : Byte} (hc : c.Ok) (hl : len < block.length) (h0 : 0 < len)
    (hd : block[0]? = some d) (hn : c.has d = false) (n : Nat) (caps : List Cap) :
    exec ((if star then 9#8 else 10#8) :: (c.ops ++ rest)) block len (n + 4) 0 0 caps = .error .oob := by
  have e : (if star then 9#8 else 10#8) :: (c.ops ++ rest) = [if star then 9#8 else 10#8] ++ c.ops ++ rest := by simp
  have hrun : clsRun block len c 0 = -1 := by rw [clsRun_text h0 hd, if_neg (by simp [hn])]
  have hstep : ∀ n caps, ∃ o : Int, single ((if star then 9#8 else 10#8) :: (c.ops ++ rest)) block len (n + 1) 1 0 caps = .ok (⟨o, -1⟩, caps) := by
    intro n caps
    obtain ⟨o, ho, -⟩ := single_cls hc [if star then 9#8 else 10#8] rest block (by omega) (Nat.zero_le _) (fun _ => hl) n caps
    exact ⟨o, by rw [e, ← hrun]; exact ho⟩
  have hcons : ∀ greedy n caps, consume ((if star then 9#8 else 10#8) :: (c.ops ++ rest)) block len greedy (n + 2) 1 0 ⟨-1, 0⟩ caps = .ok (⟨-1, 0⟩, caps) := by
    intro greedy n caps
    obtain ⟨o, ho⟩ := hstep n []
    rw [consume, ho, except_ok_bind]
    dsimp only
    rw [if_pos (Or.inr rfl)]
  have hsingle : single ((if star then 9#8 else 10#8) :: (c.ops ++ rest)) block len (n + 3) 0 0 caps = .ok (⟨-1, 0⟩, caps) := by
    rw [single]
    have h1 : rdI ((if star then 9#8 else 10#8) :: (c.ops ++ rest)) 0 = .ok (if star then 9#8 else 10#8) := rfl
    rw [h1, except_ok_bind]
    obtain ⟨o, ho⟩ := hstep (n + 1) caps
    cases star with
    | true =>
      simp only [if_true] at ho hcons ⊢
      rw [show simple (9#8 :: (c.ops ++ rest)) block len 9#8 (0 + 1) 0 caps = .ok none from rfl, except_ok_bind]
      exact hcons true n caps
    | false =>
      simp only [Bool.false_eq_true, if_false] at ho hcons ⊢
      rw [show simple (10#8 :: (c.ops ++ rest)) block len 10#8 (0 + 1) 0 caps = .ok none from rfl, except_ok_bind]
      simp only [BitVec.reduceEq, if_false, true_or, if_true]
      rw [show (0 : Int) + 1 = 1 from rfl, ho, except_ok_bind]
      dsimp only
      rw [if_neg (by omega)]
      exact hcons _ n caps
  rw [exec, if_pos (by simp; omega), hsingle, except_ok_bind]
  dsimp only
  rw [if_neg (by omega), exec, if_pos (by simp; omega), single]
  rfl

/-- C83 is false in full: `c+` and `c*` at the start of a pattern, where the text begins with something else, make the matcher read in front of its
buffer, whatever the rest of the pattern is, and although the pattern may match further on; for `c*` it may even match there. -/
theorem C83_repeat_nothing (star : Bool) {c : Cls} {p : Pat} {pat block : List Byte} {plen len : Nat} {d : Byte} (hc : c.Ok) (hok : p.Ok false)
    (hg : p.groups ≤ 256) (hsize : p.size ≤ 62) (hpl : plen ≤ pat.length) (hp : pat.take plen = c.spell ++ (if star then 0x2a#8 else 0x2b#8) :: p.spell)
    (hl : len < block.length) (h0 : 0 < len) (hd : block[0]? = some d) (hn : c.has d = false) :
    ∃ re, compile pat plen = .ok (.none, re, false) ∧ ∀ n caps, 4 ≤ n → reMatch re block len n caps = .error .oob := by
  have hlen := congrArg List.length hp
  simp only [List.length_take, List.length_append, List.length_cons] at hlen
  have hfl := flat_length p false 0 hok
  have hcl := cls_length hc
  have hcs : 1 ≤ c.spell.length := by cases c <;> simp [Cls.spell]
  have hend : Ends 0 [] := Or.inl rfl
  obtain ⟨re1, g1, e1⟩ := parse_cls (n := plen) (last := 0) (begin_ := 0) (level := 0) (b := none) (off := 0)
    (re := { buf := [], cap := plen + 128, canRealloc := true, captures := 0 }) (t := (if star then 0x2a#8 else 0x2b#8) :: p.spell) hpl rfl hc
    (fun x e => by intro d hd; simp at hd; subst hd; cases star <;> decide) (by simpa using hp)
  have b1 : re1.buf = c.ops := by simpa using g1.buf
  have c1 : plen + 128 ≤ re1.cap := g1.cap
  have hat : (pat.take plen).drop (0 + c.spell.length) = (if star then 0x2a#8 else 0x2b#8) :: p.spell := at_append (by simpa using hp)
  obtain ⟨m, hm⟩ : ∃ m, plen = m + 1 := ⟨plen - 1, by omega⟩
  obtain ⟨re2, b2, c2, r2, k2, e2⟩ := parse_rep star (n := m) (begin_ := 0) (level := 0) (br := none) (c := c) (b := []) g1.can (by rw [b1]; rfl)
    (by rw [b1]; omega) (by simpa using head_pat hok hend) hpl hat
  obtain ⟨-, -, h3⟩ := at_cons hat
  have hk : re2.captures = 0 := by rw [k2, g1.caps]
  obtain ⟨re3, e3, g3⟩ := parse_ok hpl p false m re2 0 0 (0 + c.spell.length + 1) 0 [] hok hend (by simpa using h3) (by omega) r2 (by omega) (by
    intro _
    rw [b2, hk]
    simp only [List.nil_append, List.length_cons]
    omega)
  refine ⟨re3, ?_, ?_⟩
  · have e4 : parse pat plen (plen + 1) { buf := [], cap := plen + 128, canRealloc := true, captures := 0 } 0 0 none 0 0 = .ok (.ok plen re3) := by
      rw [e1]
      conv => lhs; rw [show (plen : Nat) = plen from rfl]
      have : parse pat plen plen re1 0 0 none (0 + c.spell.length) 0 = parse pat plen (m + 1) re1 0 0 none (0 + c.spell.length) 0 := by rw [← hm]
      refine this.trans (e2.trans (e3.trans ?_))
      simp only [past, if_true]
      congr 2
      omega
    rw [compile, e4]
    simp [except_ok_bind]
  · intro n caps hn4
    have hbuf : re3.buf = (if star then 9#8 else 10#8) :: (c.ops ++ opsOf (p.flat 0)) := by rw [g3.buf, b2, hk]; simp
    obtain ⟨m, rfl⟩ : ∃ m, n = m + 4 := ⟨n - 4, by omega⟩
    have hex := exec_rep_nothing star (rest := opsOf (p.flat 0)) hc hl h0 hd hn m caps
    have hrd : rd re3.buf 0 = .ok (if star then 9#8 else 10#8) := by rw [hbuf]; rfl
    obtain ⟨k, rfl⟩ : ∃ k, len = k + 1 := ⟨len - 1, by omega⟩
    rw [reMatch, if_pos (by rw [hbuf]; simp), hrd, except_ok_bind, if_neg (by cases star <;> decide), matchLoop, hbuf,
      show (((0 : Nat) : Int)) = 0 from rfl, hex]
    rfl

/-- C83 is false in full: `c+` at the end of a pattern takes one character, however many there are. -/
theorem C83_last_takes_one {c : Cls} {pat block : List Byte} {plen len : Nat} {d : Byte} (hc : c.Ok) (hpl : plen ≤ pat.length)
    (hp : pat.take plen = c.spell ++ [0x2b#8]) (hl : len < block.length) (h0 : 0 < len) (hd : block[0]? = some d) (hn : c.has d = true) :
    ∃ re, compile pat plen = .ok (.none, re, false) ∧ ∀ caps, ∃ N, ∀ n, N ≤ n → reMatch re block len n caps = .ok (true, caps, some 1) := by
  obtain ⟨re, h1, h2, -⟩ := compile_ok (p := .plus c .nil) hpl (by simpa [Pat.spell] using hp) ⟨hc, trivial⟩ (by simp [Pat.groups]) (by simp [Pat.size])
  refine ⟨re, h1, fun caps => ?_⟩
  have hrun : run block len ((Pat.plus c .nil).flat 0) 0 caps = .ok (1, caps) := by
    cases hb : block with
    | nil => rw [hb] at hl; simp at hl
    | cons e b =>
      rw [hb] at hd
      simp at hd
      subst hd
      obtain ⟨k, rfl⟩ : ∃ k, len = k + 1 := ⟨len - 1, by omega⟩
      rw [Pat.flat, Pat.flat, run, if_pos rfl, if_neg (by simp [count, hn])]
      rfl
  obtain ⟨N, hN⟩ := exec_run (by omega) ((Pat.plus c .nil).flat 0) [] 0 caps 1 caps (Nat.zero_le _) (by intro a ha; simp [Pat.flat] at ha; subst ha; exact hc)
    (fun _ _ _ => hl) hrun
  refine ⟨N, fun n hn => ?_⟩
  obtain ⟨o, ho, -⟩ := hN n hn
  have hrd : rd re.buf 0 = .ok 10#8 := by rw [h2]; rfl
  obtain ⟨k, rfl⟩ : ∃ k, len = k + 1 := ⟨len - 1, by omega⟩
  rw [reMatch, if_pos (by rw [h2]; simp [Pat.flat, opsOf, Instr.ops]), hrd, except_ok_bind, if_neg (by decide), matchLoop, h2]
  have ho : exec (opsOf ((Pat.plus c .nil).flat 0)) block ((k + 1 : Nat) : Int) n 0 ((0 : Nat) : Int) caps = .ok (⟨o, 1⟩, caps) := ho
  rw [ho, except_ok_bind]
  dsimp only
  rw [if_pos (by omega)]

theorem plusLoop_last {f : Nat → List Cap → Except Fault (Int × List Cap)} {len e : Nat} {caps : List Cap} (hf : ∀ i, i < e → ∃ r, r ≤ len ∧ f i caps = .ok (r, caps))
    (he : f e caps = .ok (-1, caps)) : ∀ (k i : Nat) (best : Option Int), i + (k + 1) = e → plusLoop f len (k + 1) i best caps = .ok (-1, caps)
  | 0, i, best, h => by
    have he : f (i + 1) caps = .ok (-1, caps) := by rw [← he, ← h]
    rw [plusLoop, he, except_ok_bind]
    dsimp only
    rw [if_pos (by omega), he, except_ok_bind]
    rfl
  | k + 1, i, best, h => by
    obtain ⟨r, hr, hf1⟩ := hf (i + 1) (by omega)
    rw [plusLoop, hf1, except_ok_bind]
    dsimp only
    rw [if_pos (by omega), hf1, except_ok_bind]
    exact plusLoop_last hf he k (i + 1) _ (by omega)

/-- C83 is false in full: `c+c` is found in no text of `c`s, as `c+` keeps what it has taken. -/
theorem C83_repeat_possessive {x : Byte} {pat rest : List Byte} {plen k : Nat} (hx : (Cls.chr x).Ok) (hpl : plen ≤ pat.length)
    (hp : pat.take plen = [x, 0x2b#8, x]) :
    ∃ re, compile pat plen = .ok (.none, re, false) ∧ ∀ caps, ∃ N, ∀ n, N ≤ n → reMatch re (List.replicate k x ++ rest) k n caps = .ok (false, caps, none) := by
  have hp' : pat.take plen = (Pat.plus (.chr x) (.lit [x] .nil)).spell := hp
  have hok : (Pat.plus (.chr x) (.lit [x] .nil)).Ok false :=
    ⟨hx, rfl, by simp, by intro a ha; rw [List.mem_singleton] at ha; subst ha; exact hx, by simp [Pat.extra], trivial⟩
  obtain ⟨re, h1, h2, -⟩ := compile_ok hpl hp' hok (by simp [Pat.groups]) (by simp [Pat.size])
  refine ⟨re, h1, fun caps => ?_⟩
  have hl : k ≤ (List.replicate k x ++ rest).length := by simp
  have htake : (List.replicate k x ++ rest).take k = List.replicate k x := by
    rw [List.take_append_of_le_length (by simp), List.take_of_length_le (by simp)]
  have hins := flat_ok _ false 0 hok (by simp [Pat.groups])
  have hlit : ∀ i, run (List.replicate k x ++ rest) k [.lit [x]] i caps = .ok (if i < k then (i + 1 : Nat) else -1, caps) := by
    intro i
    rw [run, htake]
    have e : (List.replicate k x).drop i = List.replicate (k - i) x := by simp
    rw [e]
    by_cases hi : i < k
    · rw [if_pos hi, if_pos (by obtain ⟨m, hm⟩ : ∃ m, k - i = m + 1 := ⟨k - i - 1, by omega⟩; rw [hm]; exact ⟨List.replicate m x, rfl⟩)]
      rfl
    · rw [if_neg hi, if_neg (by rw [show k - i = 0 by omega]; simp)]
  have hrun : ∀ i, i < k → run (List.replicate k x ++ rest) k [.plus (.chr x), .lit [x]] i caps = .ok (-1, caps) := by
    intro i hi
    have hcount : count (.chr x) (((List.replicate k x ++ rest).take k).drop i) = k - i := by
      rw [htake, show (List.replicate k x).drop i = List.replicate (k - i) x by simp]
      generalize k - i = m
      induction m with
      | zero => rfl
      | succ m ih => rw [List.replicate_succ, count, if_pos (by simp [Cls.has]), ih]
    rw [run, if_neg (by simp), hcount, show k - i = (k - i - 1) + 1 by omega]
    refine plusLoop_last (e := k) (fun i hi => ⟨(i + 1 : Nat), by omega, ?_⟩) ?_ (k - i - 1) i none (by omega)
    · rw [hlit, if_pos hi]
    · rw [hlit, if_neg (by omega)]
  have hloop : ∀ m i, i + m = k → ∃ N, ∀ n, N ≤ n → matchLoop re (List.replicate k x ++ rest) k n m i caps = .ok (false, caps, none) := by
    intro m
    induction m with
    | zero => intro i _; exact ⟨0, fun n _ => rfl⟩
    | succ m ih =>
      intro i him
      obtain ⟨N1, h3⟩ := ih (i + 1) (by omega)
      obtain ⟨N2, h4⟩ := exec_run hl _ [] i caps (-1) caps (by omega) hins (by simp [Pat.flat, Instr.reads, Cls.reads]) (hrun i (by omega))
      refine ⟨max N1 N2, fun n hn => ?_⟩
      obtain ⟨o, ho, -⟩ := h4 n (by omega)
      have ho : exec (opsOf ((Pat.plus (.chr x) (.lit [x] .nil)).flat 0)) (List.replicate k x ++ rest) k n 0 i caps = .ok (⟨o, -1⟩, caps) := ho
      rw [matchLoop, h2, ho, except_ok_bind]
      dsimp only
      rw [if_neg (by omega), if_neg (by omega)]
      exact h3 n (by omega)
  obtain ⟨N, hN⟩ := hloop k 0 (by omega)
  refine ⟨N, fun n hn => ?_⟩
  have hrd : rd re.buf 0 = .ok 10#8 := by rw [h2]; rfl
  rw [reMatch, if_pos (by rw [h2]; simp [Pat.flat, opsOf, Instr.ops]), hrd, except_ok_bind, if_neg (by decide)]
  exact hN n hn

/-! ## Property theorems: the compiler on other patterns -/

/-- At a `]` outside a set the compiler adds an empty run again and again. -/
theorem parse_bracket {pat t : List Byte} {len off : Nat} (hl : len ≤ pat.length) (h : (pat.take len).drop off = 0x5d#8 :: t) :
    ∀ (n : Nat) (re : Re) (last begin_ level : Nat) (b : Option Nat), re.canRealloc = true → parse pat len n re last begin_ b off level = .error .diverge
  | 0, re, last, begin_, level, b, hc => rfl
  | n + 1, re, last, begin_, level, b, hc => by
    obtain ⟨h1, h2, -⟩ := at_cons h
    obtain ⟨re', e, g⟩ := literal_ok (s := []) hl hc (by simp [Ordinary]) (by simp) (by intro d hd; simp at hd; subst hd; decide) h
    rw [parse, if_pos h1, h2, except_ok_bind]
    simp only [BitVec.reduceEq, if_false, or_self]
    rw [e, except_ok_bind]
    exact parse_bracket hl h n re' _ _ _ _ g.can

/-- C84 is false in full: compiling a pattern with a `]` that closes no set never ends; here it follows a run of ordinary characters.  The buffer grows all
the while. -/
theorem C84_bracket_diverges {s t pat : List Byte} {plen : Nat} (hs : Ordinary s) (h256 : s.length ≤ 256) (hpl : plen ≤ pat.length)
    (hp : pat.take plen = s ++ 0x5d#8 :: t) (n : Nat) (re : Re) (hc : re.canRealloc = true) :
    parse pat plen n re 0 0 none 0 0 = .error .diverge ∧ compile pat plen = .error .diverge := by
  have key : ∀ (n : Nat) (re : Re), re.canRealloc = true → parse pat plen n re 0 0 none 0 0 = .error .diverge := by
    intro n re hc
    cases n with
    | zero => rfl
    | succ n =>
      by_cases h0 : s = []
      · subst h0
        exact parse_bracket hpl (off := 0) (t := t) (by simpa using hp) _ _ _ _ _ _ hc
      · obtain ⟨re', g, e⟩ := parse_lit (n := n) (last := 0) (begin_ := 0) (level := 0) (b := none) (off := 0) hpl hc hs h0 h256
          (t := 0x5d#8 :: t) (by intro d hd; simp at hd; subst hd; decide) (by simpa using hp)
        rw [e]
        exact parse_bracket hpl (t := t) (at_append (by simpa using hp)) _ _ _ _ _ _ g.can
  refine ⟨key n re hc, ?_⟩
  rw [compile, key _ _ rfl]
  rfl

/-- C84 is false in full: compiling `a+` 64 times over writes behind the buffer. -/
theorem C84_quantifier_overflow :
    compile (List.replicate 64 [0x61#8, 0x2b#8]).flatten 128 = .error .oob := by
  decide +kernel

/-- C84 is false in full: with a buffer of the caller's, of whatever size, no pattern that begins with an ordinary character compiles. -/
theorem C84_from_buffer {s t pat : List Byte} {plen : Nat} (bufferLen : Nat) (hs : Ordinary s) (h0 : s ≠ []) (ht : Stops t) (hpl : plen ≤ pat.length)
    (hp : pat.take plen = s ++ t) : ∃ re, compileFromBuffer pat plen bufferLen = .ok (.tooLong, re) := by
  have h : (pat.take plen).drop 0 = s ++ t := by simpa using hp
  have hlen := at_length hpl h
  simp only [List.length_append] at hlen
  cases s with
  | nil => exact absurd rfl h0
  | cons c s =>
    obtain ⟨h1, h2, -⟩ := at_cons h
    have hm := (hs c (by simp)).2
    simp only [metaChars, List.mem_cons, List.not_mem_nil, or_false, not_or] at hm
    refine ⟨{ buf := [], cap := 0, canRealloc := false, captures := 0 }, ?_⟩
    rw [compileFromBuffer, parse, if_pos h1, h2, except_ok_bind]
    simp only [hm, if_false, or_self]
    rw [literal, runLength_ok hpl (c :: s) t 0 (plen + 1) hs ht h (by omega), except_ok_bind]
    rfl

/-- C51, the bound: a run of more than 256 ordinary characters does not compile, and its buffer is given back. -/
theorem C51_too_long {s t pat : List Byte} {plen : Nat} (hs : Ordinary s) (h256 : 256 < s.length) (ht : Stops t) (hpl : plen ≤ pat.length)
    (hp : pat.take plen = s ++ t) : ∃ re, compile pat plen = .ok (.tooLong, re, true) := by
  have h : (pat.take plen).drop 0 = s ++ t := by simpa using hp
  have hlen := at_length hpl h
  simp only [List.length_append] at hlen
  obtain ⟨cap, h3, h4⟩ := room_ok 2 (re := { buf := [], cap := plen + 128, canRealloc := true, captures := 0 }) rfl
  have e : emitOps [4, (s.length : Int)] { buf := [], cap := plen + 128, canRealloc := true, captures := 0 } =
      .err .tooLong { buf := [4], cap := cap, canRealloc := true, captures := 0 } := by
    rw [emitOps, show ([4, (s.length : Int)] : List Int).length = 2 from rfl, h4]
    dsimp only
    rw [emitLoop, if_neg (by decide), emitLoop, if_pos (by omega)]
    rfl
  cases s with
  | nil => simp at h256
  | cons c s =>
    obtain ⟨h1, h2, -⟩ := at_cons h
    have hm := (hs c (by simp)).2
    simp only [metaChars, List.mem_cons, List.not_mem_nil, or_false, not_or] at hm
    refine ⟨{ buf := [4], cap := cap, canRealloc := true, captures := 0 }, ?_⟩
    rw [compile, parse, if_pos h1, h2, except_ok_bind]
    simp only [hm, if_false, or_self]
    rw [literal, runLength_ok hpl (c :: s) t 0 (plen + 1) hs ht h (by omega), except_ok_bind, e]
    have : (0 : Nat) ≠ plen := by omega
    simp [except_ok_bind, this]

/-- C51, the bound: a pattern of 128 to 253 ordinary characters compiles, and looking for it in a text that is not empty reads in front of the buffer. -/
theorem C51_long_literal_fault {s pat block : List Byte} {plen len : Nat} (hs : Ordinary s) (h128 : 128 ≤ s.length) (h253 : s.length ≤ 253)
    (hpl : plen ≤ pat.length) (hp : pat.take plen = s) (h0 : 0 < len) :
    ∃ re, compile pat plen = .ok (.none, re, false) ∧ ∀ n caps, 3 ≤ n → reMatch re block len n caps = .error .oob := by
  have h : (pat.take plen).drop 0 = s ++ [] := by simpa using hp
  have hlen := at_length hpl h
  simp only [List.length_append, List.length_nil] at hlen
  obtain ⟨re', g, e⟩ := parse_lit (n := plen) (last := 0) (begin_ := 0) (level := 0) (b := none) (off := 0)
    (re := { buf := [], cap := plen + 128, canRealloc := true, captures := 0 }) hpl rfl hs (by intro e; subst e; simp at h128) (by omega)
    (t := []) (by intro d hd; simp at hd) h
  have hbuf : re'.buf = 4 :: BitVec.ofNat 8 s.length :: s := by simpa using g.buf
  refine ⟨re', ?_, ?_⟩
  · obtain ⟨m, hm⟩ : ∃ m, plen = m + 1 := ⟨plen - 1, by omega⟩
    have h3 := at_append h
    have e2 : parse pat plen plen re' 0 0 none (0 + s.length) 0 = .ok (.ok plen re') := by
      conv => lhs; arg 3; rw [hm]
      rw [parse_end hpl (Or.inl rfl) h3]
      simp [past]; omega
    rw [compile, e]
    rw [show ({ buf := [], cap := plen + 128, canRealloc := true, captures := 0 } : Re).buf.length = 0 from rfl, e2]
    simp [except_ok_bind]
  · intro n caps hn
    obtain ⟨m, rfl⟩ : ∃ m, n = m + 3 := ⟨n - 3, by omega⟩
    obtain ⟨k, rfl⟩ : ∃ k, len = k + 1 := ⟨len - 1, by omega⟩
    have hneg : (BitVec.ofNat 8 s.length).toInt = (s.length : Int) - 256 := by
      rw [BitVec.toInt_eq_toNat_cond]
      simp only [BitVec.toNat_ofNat]
      rw [if_neg (by omega)]
      omega
    have hexact : exact re'.buf block ((k + 1 : Nat) : Int) 1 0 = .ok ⟨2 + ((s.length : Int) - 256), (s.length : Int) - 256⟩ := by
      rw [exact, hbuf, show rdI (4 :: BitVec.ofNat 8 s.length :: s) 1 = .ok (BitVec.ofNat 8 s.length) from rfl, except_ok_bind, hneg]
      dsimp only
      rw [if_neg (by omega), if_pos (by omega)]
      simp
    have hsingle : single re'.buf block ((k + 1 : Nat) : Int) (m + 2) 0 0 caps = .ok (⟨2 + ((s.length : Int) - 256), (s.length : Int) - 256⟩, caps) := by
      apply single_simple (m + 1) (code := 4)
      · rw [hbuf]; rfl
      · rw [simple_exact, show (0 : Int) + 1 = 1 from rfl, hexact]
        rfl
    have hrd : rd re'.buf 0 = .ok 4#8 := by rw [hbuf]; rfl
    have hpos : 0 < re'.buf.length := by rw [hbuf]; simp
    rw [reMatch, if_pos hpos, hrd, except_ok_bind, if_neg (by decide), matchLoop, show ((0 : Nat) : Int) = 0 from rfl, exec, if_pos (by omega), hsingle,
      except_ok_bind]
    dsimp only
    have hrdI : rdI re'.buf (2 + ((s.length : Int) - 256)) = .error .oob := by rw [rdI, if_pos (by omega)]
    rw [if_neg (by omega), exec, if_pos (by omega), single, hrdI]
    rfl

/-! ## Cases -/

/-- `a(b.)$` in the text `xabc`: found, and the capture is `bc`. -/
example (caps : List Cap) : ∃ re, compile [0x61#8, 0x28#8, 0x62#8, 0x2e#8, 0x29#8, 0x24#8] 6 = .ok (.none, re, false) ∧ re.captures = 1 ∧
    ∃ caps', Holds [(2, 2)] 0 caps' ∧ ∃ N, ∀ n, N ≤ n → reMatch re [0x78#8, 0x61#8, 0x62#8, 0x63#8, 0#8] 4 n caps = .ok (true, caps', some 4) := by
  obtain ⟨re, h1, h2, h3, -⟩ := C82_straight_patterns (p := .lit [0x61#8] (.group (.lit [0x62#8] (.one .any .nil)) (.eol .nil)))
    (pat := [0x61#8, 0x28#8, 0x62#8, 0x2e#8, 0x29#8, 0x24#8]) (plen := 6) (block := [0x78#8, 0x61#8, 0x62#8, 0x63#8, 0#8]) (len := 4)
    (by simp) (by simp [Pat.Ok, Ordinary, metaChars, Pat.extra, Cls.Ok]) rfl (by simp [Pat.groups]) (by simp) rfl (by simp)
  have hm : Matches [0x78#8, 0x61#8, 0x62#8, 0x63#8] (.lit [0x61#8] (.group (.lit [0x62#8] (.one .any .nil)) (.eol .nil))) 1 4 [(2, 2)] :=
    .lit (by decide) (.group (k := 4) (cs := []) (.lit (by decide) (.one (ch := 0x63#8) rfl rfl .nil)) (.eol .nil))
  obtain ⟨caps', -, h4, -, N, h5⟩ := h3 1 4 [(2, 2)] (by simp [Pat.Starts]) hm (by
    intro k hk j cs hh
    obtain rfl : k = 0 := by omega
    cases hh with
    | lit h _ => exact absurd h (by decide)) caps
  exact ⟨re, h1, h2, caps', h4, N, h5⟩

/-- `ab` in the text `xab`, and in the text `xa`. -/
example (caps : List Cap) : ∃ re, compile [0x61#8, 0x62#8] 2 = .ok (.none, re, false) ∧
    (∃ N, ∀ n, N ≤ n → reMatch re [0x78#8, 0x61#8, 0x62#8] 3 n caps = .ok (true, caps, some 3)) := by
  obtain ⟨re, h1, -, h2⟩ := C51_literal_search_partial (s := [0x61#8, 0x62#8]) (pat := [0x61#8, 0x62#8]) (plen := 2) (block := [0x78#8, 0x61#8, 0x62#8]) (len := 3)
    (by unfold Ordinary; decide) (by simp) (by simp) (by simp) rfl (by simp)
  exact ⟨re, h1, (h2 caps).1 [0x78#8] [] rfl (by intro k hk; obtain rfl : k = 0 := by simp at hk; omega
                                                 decide)⟩

example (caps : List Cap) : ∃ re, compile [0x61#8, 0x62#8] 2 = .ok (.none, re, false) ∧
    (∃ N, ∀ n, N ≤ n → reMatch re [0x78#8, 0x61#8, 0x62#8] 2 n caps = .ok (false, caps, none)) := by
  obtain ⟨re, h1, -, h2⟩ := C51_literal_search_partial (s := [0x61#8, 0x62#8]) (pat := [0x61#8, 0x62#8]) (plen := 2) (block := [0x78#8, 0x61#8, 0x62#8]) (len := 2)
    (by unfold Ordinary; decide) (by simp) (by simp) (by simp) rfl (by simp)
  exact ⟨re, h1, (h2 caps).2 (by decide)⟩

/-- `x+y` in the text `xxxy`. -/
example (caps : List Cap) : ∃ re, compile [0x78#8, 0x2b#8, 0x79#8] 3 = .ok (.none, re, false) ∧ re.captures = 0 ∧
    ∃ caps' N, ∀ n, N ≤ n → reMatch re [0x78#8, 0x78#8, 0x78#8, 0x79#8, 0#8] 4 n caps = .ok (true, caps', some 4) := by
  obtain ⟨re, h1, h2, h3, -⟩ := C83_repeat_partial (p := .plus (.chr 0x78#8) (.lit [0x79#8] .nil))
    (pat := [0x78#8, 0x2b#8, 0x79#8]) (plen := 3) (block := [0x78#8, 0x78#8, 0x78#8, 0x79#8, 0#8]) (len := 4)
    (by simp) (by simp [Pat.Ok, Ordinary, metaChars, Pat.extra, Cls.Ok]) (by simp [Pat.flat, Separated, Avoids, Cls.has]) (by simp [Pat.groups]) (by simp [Pat.size]) (by simp) rfl (by simp)
    (by intro c ch hc; simp [Pat.flat] at hc)
  have hm : Matches [0x78#8, 0x78#8, 0x78#8, 0x79#8] (.plus (.chr 0x78#8) (.lit [0x79#8] .nil)) 0 4 [] :=
    .plus (k := 3) (by omega) (by
      intro m _ hm
      match m, hm with
      | 0, _ => exact ⟨_, rfl, rfl⟩
      | 1, _ => exact ⟨_, rfl, rfl⟩
      | 2, _ => exact ⟨_, rfl, rfl⟩) (by intro ch hch; simp at hch; subst hch; rfl) (.lit (by decide) .nil)
  obtain ⟨caps', -, -, -, N, h5⟩ := h3 0 4 [] (by simp [Pat.Starts]) hm (by intro k hk; omega) caps
  exact ⟨re, h1, h2, caps', N, h5⟩

/-- `x+` in a text that begins with `y`; `[ab]+`, and so on. -/
example (caps : List Cap) (n : Nat) (hn : 4 ≤ n) : ∃ re, compile [0x78#8, 0x2b#8] 2 = .ok (.none, re, false) ∧ reMatch re [0x79#8, 0x78#8, 0#8] 2 n caps = .error .oob := by
  obtain ⟨re, h1, h2⟩ := C83_repeat_nothing false (c := .chr 0x78#8) (p := .nil) (pat := [0x78#8, 0x2b#8]) (plen := 2) (block := [0x79#8, 0x78#8, 0#8]) (len := 2) (d := 0x79#8)
    (by simp [Cls.Ok, metaChars]) trivial (by simp [Pat.groups]) (by simp [Pat.size]) (by simp) rfl (by simp) (by omega) rfl rfl
  exact ⟨re, h1, h2 n caps hn⟩

/-- `x+` takes one of the three. -/
example (caps : List Cap) : ∃ re, compile [0x78#8, 0x2b#8] 2 = .ok (.none, re, false) ∧ ∃ N, ∀ n, N ≤ n → reMatch re [0x78#8, 0x78#8, 0x78#8, 0#8] 3 n caps = .ok (true, caps, some 1) := by
  obtain ⟨re, h1, h2⟩ := C83_last_takes_one (c := .chr 0x78#8) (pat := [0x78#8, 0x2b#8]) (plen := 2) (block := [0x78#8, 0x78#8, 0x78#8, 0#8]) (len := 3) (d := 0x78#8)
    (by simp [Cls.Ok, metaChars]) (by simp) rfl (by simp) (by omega) rfl rfl
  exact ⟨re, h1, h2 caps⟩

/-- `x+x` in `xxx`. -/
example (caps : List Cap) : ∃ re, compile [0x78#8, 0x2b#8, 0x78#8] 3 = .ok (.none, re, false) ∧
    ∃ N, ∀ n, N ≤ n → reMatch re [0x78#8, 0x78#8, 0x78#8, 0#8] 3 n caps = .ok (false, caps, none) := by
  obtain ⟨re, h1, h2⟩ := C83_repeat_possessive (x := 0x78#8) (pat := [0x78#8, 0x2b#8, 0x78#8]) (plen := 3) (k := 3) (rest := [0#8]) (by simp [Cls.Ok, metaChars]) (by simp) rfl
  exact ⟨re, h1, h2 caps⟩

/-- `ab]c`. -/
example : compile [0x61#8, 0x62#8, 0x5d#8, 0x63#8] 4 = .error .diverge :=
  (C84_bracket_diverges (s := [0x61#8, 0x62#8]) (t := [0x63#8]) (pat := [0x61#8, 0x62#8, 0x5d#8, 0x63#8]) (plen := 4) (by unfold Ordinary; decide) (by simp) (by simp) rfl 0
    { buf := [], cap := 0, canRealloc := true, captures := 0 } rfl).2

/-- `ab` with a buffer of a thousand bytes. -/
example : ∃ re, compileFromBuffer [0x61#8, 0x62#8] 2 1000 = .ok (.tooLong, re) :=
  C84_from_buffer (s := [0x61#8, 0x62#8]) (t := []) 1000 (by unfold Ordinary; decide) (by simp) (by simp [Stops]) (by simp) rfl

/-- Two hundred, and three hundred, letters `a`. -/
example (n : Nat) (hn : 3 ≤ n) : ∃ re, compile (List.replicate 200 0x61#8) 200 = .ok (.none, re, false) ∧ reMatch re [0x61#8] 1 n [] = .error .oob := by
  obtain ⟨re, h1, h2⟩ := C51_long_literal_fault (s := List.replicate 200 0x61#8) (pat := List.replicate 200 0x61#8) (plen := 200) (block := [0x61#8]) (len := 1)
    (by intro c hc; rw [List.eq_of_mem_replicate hc]; decide) (by rw [List.length_replicate]; omega) (by rw [List.length_replicate]; omega) (by rw [List.length_replicate]; omega)
    (by rw [List.take_of_length_le (by rw [List.length_replicate]; omega)]) (by omega)
  exact ⟨re, h1, h2 n [] hn⟩

example : ∃ re, compile (List.replicate 300 0x61#8) 300 = .ok (.tooLong, re, true) :=
  C51_too_long (s := List.replicate 300 0x61#8) (t := []) (pat := List.replicate 300 0x61#8) (plen := 300)
    (by intro c hc; rw [List.eq_of_mem_replicate hc]; decide) (by rw [List.length_replicate]; omega) (by simp [Stops])
    (by rw [List.length_replicate]; omega) (by rw [List.take_of_length_le (by rw [List.length_replicate]; omega), List.append_nil])

end Zpl.Regex
