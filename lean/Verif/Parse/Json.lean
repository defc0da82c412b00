import Verif.Parse.AdtText
import Verif.Str.Chars

/-!
# JSON texts (code/source/parsers/json.c:32-520)  -  C49

The analysis fields of the nodes (naming, assignment and delimiter style) are modelled, as in the default build.  A text under the parser is the list of bytes
from the current position on; what is before it is never looked at again, so that names and texts of nodes are given as texts.  Allocations succeed.
Parent pointers are not modelled (they are in `Parse/Adt`).  Numbers are read by `zpl_adt_parse_number` and printed by `zpl_adt_print_number`: these two are parameters.

## Model -/

namespace Zpl.Json

open Zpl Zpl.Str Zpl.Token Zpl.Print Zpl.Fprintf Zpl.AdtText

/-- header/adt.h:31-35. -/
inductive NameStyle where
  | doubleQuote
  | singleQuote
  | noQuotes
  deriving DecidableEq

/-- header/adt.h:37-41. -/
inductive AssignStyle where
  | colon
  | equals
  | line
  deriving DecidableEq

/-- header/adt.h:43-47. -/
inductive DelimStyle where
  | comma
  | line
  | newline
  deriving DecidableEq

/-- header/adt.h:65-71: the analysis fields; a node made by a program has them all zero. -/
structure Style where
  cfg : Bool := false
  name : NameStyle := .doubleQuote
  assign : AssignStyle := .colon
  delim : DelimStyle := .comma
  delimWidth : Nat := 0
  assignWidth : Nat := 0
  deriving DecidableEq

/-- json.c:166-200: the constants, which are nodes of the type of reals with a mark. -/
inductive Const where
  | true
  | false
  | null
  | inf
  | negInf
  | nan
  | negNan
  deriving DecidableEq

/-- The type of a node with its data other than descendants; `unset` is the type of a zeroed node; `ν` are numbers. -/
inductive Kind (ν : Type) where
  | unset
  | str (multi : Bool) (s : List Byte)
  | const (c : Const)
  | num (n : ν)
  | arr
  | obj
  deriving DecidableEq

/-- header/adt.h:59-92 `zpl_adt_node`: the name (`none` is NULL), the style, the data and the descendants. -/
inductive Node (ν : Type) where
  | mk (name : Option (List Byte)) (style : Style) (kind : Kind ν) (kids : List (Node ν))

def Node.name {ν : Type} : Node ν → Option (List Byte)
  | .mk n _ _ _ => n

def Node.style {ν : Type} : Node ν → Style
  | .mk _ s _ _ => s

def Node.kind {ν : Type} : Node ν → Kind ν
  | .mk _ _ k _ => k

def Node.kids {ν : Type} : Node ν → List (Node ν)
  | .mk _ _ _ k => k

/-- Reading a number at the start of a text (`none`: it was none after all), with the number of bytes passed; printing a number. -/
structure NumIO (ν : Type) where
  read : List Byte → Except Fault (Option ν × Nat)
  print : Out → ν → Except Fault Out

/-- header/parsers/json.h:6-16 `zpl_json_error`. -/
inductive Err where
  | internal
  | invalidName
  | invalidAssignment
  | unknownKeyword
  | arrayLeftOpen
  | endPairMismatched
  deriving DecidableEq

/-- What a parsing function gives: an error, or a result with the text from the returned pointer on. -/
inductive Res (α : Type) where
  | err (e : Err)
  | ok (a : α) (p : List Byte)

/-- `!!zpl_strchr(list, c)`; it is true for the terminator. -/
def strchr (list : List Byte) (c : Byte) : Except Fault Bool := (firstOcc c list).map Option.isSome

/-- json.c:373 `while (*p++)`: the step and whether the loop goes on; `none` is the NULL that is returned at the end. -/
def stepOn : List Byte → Except Fault (Option (List Byte))
  | [] => .error .oob
  | c :: p => .ok (if c ≠ 0 then some p else Option.none)

/-- json.c:356-372: one round of the loop of `zpl__json_trim`: `inl` is the text to return, `inr` the text to step on from. -/
def trimRound (catchNewline : Bool) (p : List Byte) : Except Fault (List Byte ⊕ List Byte) := do
  if ← hasPrefix p [0x2f#8, 0x2f#8, 0] then do
    let k ← skip 0x0a#8 p
    .ok (.inr (p.drop k))
  else if ← hasPrefix p [0x2f#8, 0x2a#8, 0] then do
    let k ← skip 0x2a#8 (p.drop 2)
    let e := (p.drop 2).drop k
    if (← rd e 0) ≠ 0 then do
      if (← rd e 1) = 0x2f#8 then .ok (.inr (e.drop 2)) else .ok (.inr p)
    else .ok (.inr p)
  else do
    let c ← rd p 0
    if (c = 0x0a#8 ∧ catchNewline = true) ∨ isSpace c = false then .ok (.inl p) else .ok (.inr p)

/-- json.c:352-375 `zpl__json_trim`: the text from the result on; a NULL result is dereferenced by every caller. -/
def jtrim (catchNewline : Bool) : Nat → List Byte → Except Fault (List Byte)
  | 0, _ => .error .diverge
  | n + 1, p => do
    match ← trimRound catchNewline p with
    | .inl p => .ok p
    | .inr p =>
      match ← stepOn p with
      | some p => jtrim catchNewline n p
      | Option.none => .error .ub

/-- `zpl__json_trim` with enough rounds. -/
def trimText (catchNewline : Bool) (p : List Byte) : Except Fault (List Byte) := jtrim catchNewline (p.length + 1) p

/-- json.c:80 `zpl__json_is_assign_char`. -/
def isAssign (c : Byte) : Except Fault Bool := strchr [0x3a#8, 0x3d#8, 0x7c#8, 0] c

/-- json.c:81 `zpl__json_is_delim_char`. -/
def isDelim (c : Byte) : Except Fault Bool := strchr [0x2c#8, 0x7c#8, 0x0a#8, 0] c

/-- json.c:93-106 `zpl__json_validate_name`, on the bytes from the name on. -/
def validateName : List Byte → Except Fault Bool
  | [] => .error .oob
  | c :: s =>
    if c = 0 then .ok Bool.true
    else if c ≠ 0x5c#8 then validateName s
    else do
      let c1 ← rd s 0
      if ← isControl c1 then validateName s
      else if Chars.isHexDigit c1 then validateName s
      else if Chars.isHexDigit (← rd s 1) then validateName s
      else if Chars.isHexDigit (← rd s 2) then validateName s
      else if Chars.isHexDigit (← rd s 3) then validateName s
      else .ok Bool.false

/-- json.c:306, from the second character on: the length of the rest of a name without quotes. -/
def bareLen : List Byte → Except Fault Nat
  | [] => .error .oob
  | c :: s => do
    if c ≠ 0 ∧ (Chars.isAlphanumeric c = true ∨ c = 0x5f#8) ∧ isSpace c = false ∧ (← isAssign c) = false then do .ok ((← bareLen s) + 1) else .ok 0

/-- What `zpl__json_parse_name` finds out: the name and its styles. -/
structure NameInfo where
  name : Option (List Byte) := none
  style : Style := {}

/-- json.c:326-330: the assignment style. -/
def assignOf (c : Byte) : AssignStyle := if c = 0x3d#8 then .equals else if c = 0x7c#8 then .line else .colon

/-- json.c:335-340: the terminator of a name without quotes; at the end of the text the style is not stored. -/
def cutName (b : List Byte) (len : Nat) (ns : NameStyle) : Except Fault (List Byte × NameStyle) := do
  if ns = .noQuotes then do
    if (← rd b len) ≠ 0 then do .ok (← wr b len 0, ns) else .ok (b, .doubleQuote)
  else .ok (b, ns)

/-- json.c:312-347 after the end of a name: `b` is the text from the name on, `len` the length of the name, `e` the distance of `assign_p` from `b`. -/
def finishName (b : List Byte) (len e : Nat) (ns : NameStyle) : Except Fault (Res NameInfo) := do
  let p ← trimText false (b.drop e)
  let c ← rd p 0
  if c ≠ 0 ∧ (← isAssign c) = false then .ok (.err .invalidAssignment)
  else do
    let w := (b.length - e - p.length) % 16
    let (b, ns) ← cutName b len ns
    if (← validateName b) = false then .ok (.err .invalidName)
    else .ok (.ok { name := some (b.take len), style := { name := ns, assign := assignOf c, assignWidth := w } } p)

/-- json.c:283-350 `zpl__json_parse_name`.  The terminator put at the end of a name in quotes is behind the text that goes on; that of a name
    without quotes may fall on the assignment character, which the caller steps over. -/
def parseName (p : List Byte) : Except Fault (Res NameInfo) := do
  let c ← rd p 0
  if c = 0x22#8 ∨ c = 0x27#8 then do
    let b := p.drop 1
    let k ← controlSkip c c b
    let b ← wr b k 0
    finishName b k (k + 1) (if c = 0x27#8 then .singleQuote else .doubleQuote)
  else if Chars.isAlpha c = true ∨ c = 0x5f#8 ∨ c = 0x24#8 then do
    let k ← bareLen (p.drop 1)
    finishName p (k + 1) (k + 1) .noQuotes
  else .ok (.ok {} p)

/-- json.c:166-200: the words of the constants, in the order in which they are tried. -/
def words : List (List Byte × Const) :=
  [([0x74#8, 0x72#8, 0x75#8, 0x65#8], .true),
   ([0x66#8, 0x61#8, 0x6c#8, 0x73#8, 0x65#8], .false),
   ([0x6e#8, 0x75#8, 0x6c#8, 0x6c#8], .null),
   ([0x49#8, 0x6e#8, 0x66#8, 0x69#8, 0x6e#8, 0x69#8, 0x74#8, 0x79#8], .inf),
   ([0x2d#8, 0x49#8, 0x6e#8, 0x66#8, 0x69#8, 0x6e#8, 0x69#8, 0x74#8, 0x79#8], .negInf),
   ([0x4e#8, 0x61#8, 0x4e#8], .nan),
   ([0x2d#8, 0x4e#8, 0x61#8, 0x4e#8], .negNan)]

/-- json.c:166-205: the first word that the text begins with. -/
def findWord (p : List Byte) : List (List Byte × Const) → Except Fault (Option (Const × Nat))
  | [] => .ok Option.none
  | (w, c) :: ws => do if ← hasPrefix p (w ++ [0]) then .ok (some (c, w.length)) else findWord p ws

/-- json.c:157-163: a text in quotes. -/
def parseQuoted {ν : Type} (c : Byte) (p : List Byte) : Except Fault (Res (Kind ν × List (Node ν))) := do
  let b := p.drop 1
  let e ← skipLiteral c b
  let b ← wr b e 0
  let len ← strlen b
  .ok (.ok (.str (c == 0x60#8) (b.take len), []) (b.drop (e + 1)))

/-- json.c:164: does a constant begin here? -/
def startsWord (p : List Byte) : Except Fault Bool := do
  let c ← rd p 0
  if Chars.isAlpha c = true then .ok Bool.true
  else if c = 0x2d#8 then do .ok (!Chars.isDigit (← rd p 1))
  else .ok Bool.false

/-- json.c:257-277: the delimiter after a pair: the style, whether parsing ends here, and the text that goes on. -/
def delimiter (p : List Byte) : Except Fault (Style → Style × Bool × List Byte) := do
  let q ← trimText true p
  let c ← rd q 0
  if ← isDelim c then
    let f : Style → Style := fun s => if c = 0x0a#8 then { s with delim := .newline }
      else if c = 0x7c#8 then { s with delim := .line, delimWidth := (p.length - q.length) % 16 } else { s with delim := .comma }
    .ok fun s => (f s, c == 0, if c = 0 then q else q.drop 1)
  else .ok fun s => (s, Bool.false, q)

mutual
/-- json.c:152-217 `zpl__json_parse_value`: the data and the descendants it gives to the node. -/
def parseValue {ν : Type} (io : NumIO ν) : Nat → List Byte → Except Fault (Res (Kind ν × List (Node ν)))
  | 0, _ => .error .diverge
  | n + 1, p => do
    let c ← rd p 0
    if ← strchr [0x60#8, 0x22#8, 0x27#8, 0] c then parseQuoted c p
    else if ← startsWord p then do
      match ← findWord p words with
      | some (k, len) => .ok (.ok (.const k, []) (p.drop len))
      | Option.none => .ok (.err .unknownKeyword)
    else if Chars.isDigit c = Bool.true ∨ c = 0x2b#8 ∨ c = 0x2d#8 ∨ c = 0x2e#8 then do
      let (v, k) ← io.read p
      .ok (.ok (match v with | some v => .num v | Option.none => .unset, []) (p.drop k))
    else if ← strchr [0x5b#8, 0x7b#8, 0] c then do
      match ← parseObject io n p with
      | .err e => .ok (.err e)
      | .ok a p => .ok (.ok a (p.drop 1))
    else .ok (.ok (.unset, []) p)

/-- json.c:219-235: the start of `zpl__json_parse_object`. -/
def parseObject {ν : Type} (io : NumIO ν) : Nat → List Byte → Except Fault (Res (Kind ν × List (Node ν)))
  | 0, _ => .error .diverge
  | n + 1, p => do
    let p ← trimText Bool.false p
    let c ← rd p 0
    if c = 0x7b#8 then parseMembers io n [] (p.drop 1)
    else if c = 0x5b#8 then parseElements io n [] (p.drop 1)
    else parseMembers io n [] p

/-- json.c:119-149: the loop of `zpl__json_parse_array`. -/
def parseElements {ν : Type} (io : NumIO ν) : Nat → List (Node ν) → List Byte → Except Fault (Res (Kind ν × List (Node ν)))
  | 0, _, _ => .error .diverge
  | n + 1, done, p => do
    if (← rd p 0) = 0 then .ok (.err .internal)
    else do
      let p ← trimText Bool.false p
      if (← rd p 0) = 0x5d#8 then .ok (.ok (.arr, done) p)
      else do
        match ← parseValue io n p with
        | .err e => .ok (.err e)
        | .ok (k, kids) p => do
          let done := done ++ [.mk none {} k kids]
          let p ← trimText Bool.false p
          let c ← rd p 0
          if c = 0x2c#8 then parseElements io n done (p.drop 1)
          else if c ≠ 0x5d#8 then .ok (.err .arrayLeftOpen)
          else .ok (.ok (.arr, done) p)

/-- json.c:237-280: the loop of `zpl__json_parse_object`. -/
def parseMembers {ν : Type} (io : NumIO ν) : Nat → List (Node ν) → List Byte → Except Fault (Res (Kind ν × List (Node ν)))
  | 0, _, _ => .error .diverge
  | n + 1, done, p => do
    let p ← trimText Bool.false p
    let c ← rd p 0
    if c = 0x7d#8 then .ok (.ok (.obj, done) p)
    else if ← strchr [0x7d#8, 0x5d#8, 0] c then .ok (.err .endPairMismatched)
    else do
      match ← parseName p with
      | .err e => .ok (.err e)
      | .ok info p => do
        let p ← trimText Bool.false (p.drop 1)
        match ← parseValue io n p with
        | .err e => .ok (.err e)
        | .ok (k, kids) p => do
          let f ← delimiter p
          let (style, stop, p) := f info.style
          let done := done ++ [.mk info.name style k kids]
          if stop then .ok (.ok (.obj, done) p)
          else do
            let p ← trimText Bool.false p
            if (← rd p 0) ≠ 0 then parseMembers io n done p else .ok (.ok (.obj, done) p)
end

/-- json.c:32-47 `zpl_json_parse`: an error or the root. -/
def parse {ν : Type} (io : NumIO ν) (text : List Byte) : Except Fault (Except Err (Node ν)) := do
  let p ← trimText Bool.true text
  let cfg := !(← strchr [0x7b#8, 0x5b#8, 0] (← rd p 0))
  match ← parseObject io (4 * text.length + 4) p with
  | .err e => .ok (.error e)
  | .ok (k, kids) _ => .ok (.ok (.mk none { cfg := cfg } k kids))

/-- json.h:18-20. -/
def compact : Int := -1000

/-- json.c:30 `zpl___ind`.  The 64-bit width handed to `%*r` is read as an `int`, as the x86-64 and AArch64 calling conventions do. -/
def ind (pf : FloatPrinter) (o : Out) (x : Int) : Except Fault Out :=
  if x > 0 then fprintf pf o [0x25#8, 0x2a#8, 0x72#8, 0] [.int (BitVec.ofInt 32 x), .int 0x20#32] else .ok o

/-- json.c:82 `zpl__json_string_space`. -/
def space (indent : Int) : List Byte := if indent = compact then [0] else [0x20#8, 0]

/-- json.c:83-89 `zpl__json_string_eol`. -/
def eol (d : DelimStyle) (indent : Int) : List Byte := if d = .comma ∧ indent = compact then [0] else [0x0a#8, 0]

/-- adt.c:530-546: the word of a constant. -/
def word : Const → List Byte
  | .true => [0x74#8, 0x72#8, 0x75#8, 0x65#8]
  | .false => [0x66#8, 0x61#8, 0x6c#8, 0x73#8, 0x65#8]
  | .null => [0x6e#8, 0x75#8, 0x6c#8, 0x6c#8]
  | .inf => [0x49#8, 0x6e#8, 0x66#8, 0x69#8, 0x6e#8, 0x69#8, 0x74#8, 0x79#8]
  | .negInf => [0x2d#8, 0x49#8, 0x6e#8, 0x66#8, 0x69#8, 0x6e#8, 0x69#8, 0x74#8, 0x79#8]
  | .nan => [0x4e#8, 0x61#8, 0x4e#8]
  | .negNan => [0x2d#8, 0x4e#8, 0x61#8, 0x4e#8]

/-- json.c:426-438: the name. -/
def writeName (pf : FloatPrinter) (o : Out) (name : Option (List Byte)) : NameStyle → Except Fault Out
  | .doubleQuote => fprintf pf o [0x22#8, 0x25#8, 0x73#8, 0x22#8, 0] [.str (name.map (· ++ [0]))]
  | .singleQuote => fprintf pf o [0x27#8, 0x25#8, 0x73#8, 0x27#8, 0] [.str (name.map (· ++ [0]))]
  | .noQuotes => fprintf pf o [0x25#8, 0x73#8, 0] [.str (name.map (· ++ [0]))]

/-- json.c:443-444. -/
def assignPad (pf : FloatPrinter) (o : Out) (st : Style) (indent : Int) : Except Fault Out :=
  if indent ≠ compact then ind pf o (max st.assignWidth 1) else .ok o

/-- json.c:440-451: the assignment. -/
def writeAssign (pf : FloatPrinter) (o : Out) (st : Style) (indent : Int) : Except Fault Out :=
  match st.assign with
  | .colon => fprintf pf o [0x3a#8, 0x25#8, 0x73#8, 0] [.str (some (space indent))]
  | .equals => do
    let o ← assignPad pf o st indent
    fprintf pf o [0x3d#8, 0x25#8, 0x73#8, 0] [.str (some (space indent))]
  | .line => do
    let o ← assignPad pf o st indent
    fprintf pf o [0x7c#8, 0x25#8, 0x73#8, 0] [.str (some (space indent))]

/-- json.c:493-509: the delimiter. -/
def writeDelim (pf : FloatPrinter) (o : Out) (st : Style) (indent : Int) (isLast : Bool) : Except Fault Out :=
  match st.delim with
  | .newline => fprintf pf o [0x0a#8, 0] []
  | .line => do
    let o ← ind pf o st.delimWidth
    fprintf pf o [0x7c#8, 0x0a#8, 0] []
  | .comma =>
    if isLast then fprintf pf o [0x25#8, 0x73#8, 0] [.str (some (eol st.delim indent))]
    else fprintf pf o [0x2c#8, 0x25#8, 0x73#8, 0] [.str (some (eol st.delim indent))]

/-- json.c:421-456 before the value; `inArr`: the container is an array. -/
def writeHead {ν : Type} (pf : FloatPrinter) (o : Out) (node : Node ν) (inArr : Bool) (indent : Int) : Except Fault Out := do
  let o ← ind pf o indent
  if inArr then .ok o else writeName pf o node.name node.style.name >>= fun o => writeAssign pf o node.style indent

/-- json.c:475-476 of an array: the indentation of an element. -/
def elemIndent {ν : Type} (k : Kind ν) (indent : Int) : Int :=
  if indent = compact then indent
  else match k with
    | .obj => 0
    | .arr => 0
    | _ => -4

/-- json.c:383-393: the opening of `zpl_json_write`, and the indentation that goes on. -/
def writeOpen (pf : FloatPrinter) (o : Out) (c : BitVec 32) (st : Style) (indent : Int) : Except Fault (Out × Int) := do
  let o ← ind pf o (indent - 4)
  if st.cfg then .ok (o, indent - 4)
  else do
    let o ← fprintf pf o [0x25#8, 0x63#8, 0x25#8, 0x73#8, 0] [.int c, .str (some (eol st.delim indent))]
    .ok (o, indent)

/-- json.c:403-412: the closing of `zpl_json_write`. -/
def writeClose (pf : FloatPrinter) (o : Out) (c : BitVec 32) (st : Style) (indent : Int) : Except Fault Out := do
  let o ← ind pf o indent
  if indent > 0 then fprintf pf o [0x25#8, 0x63#8, 0] [.int c]
  else if st.cfg then .ok o
  else fprintf pf o [0x25#8, 0x63#8, 0x25#8, 0x73#8, 0] [.int c, .str (some (eol st.delim indent))]

/-- json.c:419: the indentation inside. -/
def deeper (indent : Int) : Int := if indent ≠ compact then indent + 4 else indent

/-- json.c:421, 493. -/
def unlessInline (isInline : Bool) (o : Out) (r : Except Fault Out) : Except Fault Out := if isInline then .ok o else r

/-- json.c:478: `", "` between elements. -/
def comma (pf : FloatPrinter) (isLast : Bool) (o : Out) : Except Fault Out := if isLast then .ok o else fprintf pf o [0x2c#8, 0x20#8, 0] []

/-- json.c:417-520 `zpl__json_write_value` but for the value, which `body` writes. -/
def writeAround {ν : Type} (pf : FloatPrinter) (o : Out) (node : Node ν) (inArr : Bool) (indent : Int) (isInline isLast : Bool) (body : Out → Int → Except Fault Out) :
    Except Fault Out := do
  let indent := deeper indent
  let o ← unlessInline isInline o (writeHead pf o node inArr indent)
  let o ← body o indent
  unlessInline isInline o (writeDelim pf o node.style indent isLast)

mutual
/-- json.c:458-491: the value of a node. -/
def writeBody {ν : Type} (io : NumIO ν) (pf : FloatPrinter) (node : Node ν) (o : Out) (indent : Int) : Except Fault Out :=
  match node with
  | .mk _ st kind kids =>
    match kind with
    | .str Bool.false s => do
      let o ← fprintf pf o [0x22#8, 0] []
      let o ← printString pf [0x22#8, 0] [0x5c#8, 0] o (some (s ++ [0]))
      fprintf pf o [0x22#8, 0] []
    | .str Bool.true s => do
      let o ← fprintf pf o [0x60#8, 0] []
      let o ← printString pf [0x60#8, 0] [0x5c#8, 0] o (some (s ++ [0]))
      fprintf pf o [0x60#8, 0] []
    | .arr => do
      let o ← fprintf pf o [0x5b#8, 0] []
      let o ← writeElements io pf kids o indent
      fprintf pf o [0x5d#8, 0] []
    | .const c => fprintf pf o (word c ++ [0]) []
    | .num v => io.print o v
    | .obj => do
      let (o, i) ← writeOpen pf o 0x7b#32 st indent
      let o ← writeKids io pf kids o Bool.false i
      writeClose pf o 0x7d#32 st i
    | .unset => .ok o

/-- json.c:472-480: the elements of an array that is a value. -/
def writeElements {ν : Type} (io : NumIO ν) (pf : FloatPrinter) (kids : List (Node ν)) (o : Out) (indent : Int) : Except Fault Out :=
  match kids with
  | [] => .ok o
  | k :: ks => do
    let o ← writeAround pf o k Bool.true (elemIndent k.kind indent) Bool.true Bool.true (writeBody io pf k)
    let o ← comma pf ks.isEmpty o
    writeElements io pf ks o indent

/-- json.c:395-401: the descendants of an object or of a root array. -/
def writeKids {ν : Type} (io : NumIO ν) (pf : FloatPrinter) (kids : List (Node ν)) (o : Out) (inArr : Bool) (indent : Int) : Except Fault Out :=
  match kids with
  | [] => .ok o
  | k :: ks => do
    let o ← writeAround pf o k inArr indent Bool.false ks.isEmpty (writeBody io pf k)
    writeKids io pf ks o inArr indent
end

/-- json.c:377-415 `zpl_json_write` of a root, which must be an object or an array. -/
def write {ν : Type} (io : NumIO ν) (pf : FloatPrinter) (o : Out) (root : Node ν) (indent : Int) : Except Fault Out :=
  match root with
  | .mk _ st .obj kids => do
    let (o, i) ← writeOpen pf o 0x7b#32 st indent
    let o ← writeKids io pf kids o Bool.false i
    writeClose pf o 0x7d#32 st i
  | .mk _ st .arr kids => do
    let (o, i) ← writeOpen pf o 0x5b#32 st indent
    let o ← writeKids io pf kids o Bool.true i
    writeClose pf o 0x5d#32 st i
  | _ => .error .assertion

/-! ## Specification -/

mutual
/-- The node without its styles. -/
def Node.plain {ν : Type} : Node ν → Node ν
  | .mk n _ k kids => .mk n {} k (plainL kids)
def plainL {ν : Type} : List (Node ν) → List (Node ν)
  | [] => []
  | k :: ks => k.plain :: plainL ks
end

/-- Only blanks. -/
def Blanks (w : List Byte) : Prop := ∀ c ∈ w, Blank c

/-- Only blanks, and no newline. -/
def Inline (w : List Byte) : Prop := ∀ c ∈ w, Blank c ∧ c ≠ 0x0a#8

/-- What may come after a value: a blank, `,`, `|`, `]`, `}`, or the end of the text. -/
def Follow (c : Byte) : Prop := Blank c ∨ c ∈ [0x2c#8, 0x7c#8, 0x5d#8, 0x7d#8, 0#8]

/-- A decimal digit. -/
def Digit (c : Byte) : Prop := 0x30 ≤ c.toNat ∧ c.toNat ≤ 0x39

/-- `t` is a text of the number `v`: it begins with a digit, `+`, `.`, or `-` and a digit, and the number reader reads it as `v` whatever follows it. -/
def NumText {ν : Type} (io : NumIO ν) (v : ν) (t : List Byte) : Prop :=
  (∃ c u, t = c :: u ∧ (Digit c ∨ c = 0x2b#8 ∨ c = 0x2e#8 ∨ (c = 0x2d#8 ∧ ∃ d u', u = d :: u' ∧ Digit d))) ∧
  ∀ c r, Follow c → io.read (t ++ c :: r) = .ok (some v, t.length)

/-- A text that may stand between two `q`: each `q` in it comes after a backslash, and it does not end with a backslash. -/
def Between (q : Byte) (s : List Byte) : Prop :=
  Text s ∧ (∀ a b, s = a ++ q :: b → a.getLast? = some 0x5c#8) ∧ s.getLast? ≠ some 0x5c#8

/-- Each backslash is followed by one of the characters of the JSON escapes `"`, `\`, `/`, `b`, `f`, `n`, `r`, `t`, or by a hexadecimal digit. -/
def Escapes (s : List Byte) : Prop :=
  ∀ a b, s = a ++ 0x5c#8 :: b → ∃ c b', b = c :: b' ∧
    (c ∈ [0x22#8, 0x5c#8, 0x2f#8, 0x62#8, 0x66#8, 0x6e#8, 0x72#8, 0x74#8] ∨ Chars.isHexDigit c = Bool.true)

/-- A name as it is found in a text: in double quotes, in single quotes, or an identifier. -/
inductive NameText : NameStyle → List Byte → List Byte → Prop where
  | double {s : List Byte} : Between 0x22#8 s → Escapes s → NameText .doubleQuote s (0x22#8 :: s ++ [0x22#8])
  | single {s : List Byte} : Text s → 0x27#8 ∉ s → Escapes s → NameText .singleQuote s (0x27#8 :: s ++ [0x27#8])
  | bare {c : Byte} {s : List Byte} : (Chars.isAlpha c = Bool.true ∨ c = 0x5f#8 ∨ c = 0x24#8) → (∀ x ∈ s, Chars.isAlphanumeric x = Bool.true ∨ x = 0x5f#8) →
      NameText .noQuotes (c :: s) (c :: s)

/-- What is spelled: a value with its descendants, the elements of an array, or the members of an object. -/
inductive Part (ν : Type) where
  | value (k : Kind ν) (kids : List (Node ν))
  | elems (ns : List (Node ν))
  | members (ns : List (Node ν))

/-- The texts of JSON values in the wider sense of the library: any white space between the parts; quotes or no quotes around names; `:`, `=` or `|` after names;
    `,`, `|` or a newline after members, which may be left out after the last one, and no newline before `,` or `|` there. -/
inductive Spell {ν : Type} (io : NumIO ν) : Part ν → List Byte → Prop where
  | str {q : Byte} {s : List Byte} : q ∈ [0x60#8, 0x22#8, 0x27#8] → Between q s → Spell io (.value (.str (q == 0x60#8) s) []) (q :: s ++ [q])
  | const (c : Const) : Spell io (.value (.const c) []) (word c)
  | num {v : ν} {t : List Byte} : NumText io v t → Spell io (.value (.num v) []) t
  | arr {ns : List (Node ν)} {t : List Byte} : Spell io (.elems ns) t → Spell io (.value .arr ns) (0x5b#8 :: t ++ [0x5d#8])
  | obj {ns : List (Node ν)} {w t : List Byte} : Blanks w → Spell io (.members ns) t → Spell io (.value .obj ns) (0x7b#8 :: w ++ t ++ [0x7d#8])
  | noElems {w : List Byte} : Blanks w → Spell io (.elems []) w
  | lastElem {w w' t : List Byte} {st : Style} {k : Kind ν} {kids : List (Node ν)} : Blanks w → Blanks w' → Spell io (.value k kids) t →
      Spell io (.elems [.mk none st k kids]) (w ++ t ++ w')
  | elem {w w' t u : List Byte} {st : Style} {k : Kind ν} {kids ns : List (Node ν)} : Blanks w → Blanks w' → Spell io (.value k kids) t → Spell io (.elems ns) u →
      Spell io (.elems (.mk none st k kids :: ns)) (w ++ t ++ w' ++ 0x2c#8 :: u)
  | noMembers : Spell io (.members []) []
  | lastMember {nt w w' t a name : List Byte} {asg : Byte} {ns : NameStyle} {st : Style} {k : Kind ν} {kids : List (Node ν)} :
      NameText ns name nt → Blanks w → asg ∈ [0x3a#8, 0x3d#8, 0x7c#8] → Blanks w' → Spell io (.value k kids) t → Inline a →
      Spell io (.members [.mk (some name) st k kids]) (nt ++ w ++ asg :: w' ++ t ++ a)
  | member {nt w w' t a b u name : List Byte} {asg d : Byte} {ns : NameStyle} {st : Style} {k : Kind ν} {kids ms : List (Node ν)} :
      NameText ns name nt → Blanks w → asg ∈ [0x3a#8, 0x3d#8, 0x7c#8] → Blanks w' → Spell io (.value k kids) t →
      Inline a → d ∈ [0x2c#8, 0x7c#8, 0x0a#8] → Blanks b → Spell io (.members ms) u →
      Spell io (.members (.mk (some name) st k kids :: ms)) (nt ++ w ++ asg :: w' ++ t ++ a ++ d :: b ++ u)

mutual
/-- How deep a tree is. -/
def Node.height {ν : Type} : Node ν → Nat
  | .mk _ _ _ kids => heightL kids + 1
def heightL {ν : Type} : List (Node ν) → Nat
  | [] => 0
  | k :: ks => max k.height (heightL ks)
end

/-- A number can be printed: what is printed is a text of it. -/
def Printable {ν : Type} (io : NumIO ν) (v : ν) : Prop := ∃ t, NumText io v t ∧ ∀ o : Out, o.Ok → Appends o t (io.print o v)

/-- What a node must be like for its name to be written: in an array it has none, and a comma after it; in an object it has one that its style can show. -/
def NameFits {ν : Type} (inArr : Bool) (n : Node ν) : Prop :=
  if inArr then n.name = none ∧ n.style.delim = .comma
  else ∃ name nt, n.name = some name ∧ NameText n.style.name name nt ∧ nt.length + 1 < maxLen

mutual
/-- A document: a tree of objects, arrays, strings, constants and numbers.  The strings are texts without the quote they are written in that do not end with a
    backslash; no node but the root is in configuration mode; the widths are those of 4-bit fields; and for compact output members have commas after them. -/
def Node.Document {ν : Type} (io : NumIO ν) (cmp : Bool) : Node ν → Prop
  | .mk _ st kind kids => st.cfg = Bool.false ∧ (cmp = Bool.true → st.delim = .comma) ∧ st.delimWidth < 16 ∧ st.assignWidth < 16 ∧
    match kind with
    | .str multi s => kids = [] ∧ Text s ∧ s.length + 1 < maxLen ∧ (if multi then 0x60#8 else 0x22#8) ∉ s ∧ s.getLast? ≠ some 0x5c#8
    | .const _ => kids = []
    | .num v => kids = [] ∧ Printable io v
    | .arr => DocumentL io cmp Bool.true kids
    | .obj => DocumentL io cmp Bool.false kids
    | .unset => False
def DocumentL {ν : Type} (io : NumIO ν) (cmp inArr : Bool) : List (Node ν) → Prop
  | [] => True
  | k :: ks => NameFits inArr k ∧ k.Document io cmp ∧ DocumentL io cmp inArr ks
end

/-! ## Proofs: reading -/

theorem isSpace_iff : ∀ c : Byte, isSpace c = true ↔ Blank c := by
  unfold Blank; decide +kernel

theorem hasPrefix_no {c d : Byte} (h : c ≠ d) (hd : d ≠ 0) (u pre : List Byte) : hasPrefix (c :: u) (d :: pre) = .ok Bool.false := by
  rw [hasPrefix, if_pos hd]
  simp [h]

theorem trimRound_other {nl : Bool} {c : Byte} (hc : c ≠ 0x2f#8) (u : List Byte) :
    trimRound nl (c :: u) = .ok (if (c = 0x0a#8 ∧ nl = true) ∨ isSpace c = false then .inl (c :: u) else .inr (c :: u)) := by
  unfold trimRound
  rw [hasPrefix_no hc (by decide), except_ok_bind, if_neg (by simp), hasPrefix_no hc (by decide), except_ok_bind, if_neg (by simp)]
  have : rd (c :: u) 0 = .ok c := rfl
  rw [this, except_ok_bind]
  split <;> rfl

/-- Where `zpl__json_trim` stops. -/
def Stop (nl : Bool) (c : Byte) : Prop := c ≠ 0x2f#8 ∧ (¬ Blank c ∨ (c = 0x0a#8 ∧ nl = true))

theorem blank_ne {c : Byte} (h : Blank c) : c ≠ 0x2f#8 ∧ c ≠ 0 := by
  constructor <;> (rintro rfl; revert h; unfold Blank; decide)

theorem jtrim_ok {nl : Bool} {w : List Byte} (hw : ∀ c ∈ w, Blank c ∧ (nl = true → c ≠ 0x0a#8)) {c : Byte} (hc : Stop nl c) (u : List Byte) (n : Nat) (hn : w.length < n) :
    jtrim nl n (w ++ c :: u) = .ok (c :: u) := by
  induction w generalizing n with
  | nil =>
    obtain ⟨n, rfl⟩ : ∃ m, n = m + 1 := ⟨n - 1, by simp at hn; omega⟩
    rw [List.nil_append, jtrim, trimRound_other hc.1, if_pos, except_ok_bind]
    rcases hc.2 with h | h
    · right; rw [← Bool.not_eq_true, isSpace_iff]; exact h
    · exact .inl h
  | cons x w ih =>
    obtain ⟨n, rfl⟩ : ∃ m, n = m + 1 := ⟨n - 1, by simp at hn; omega⟩
    have hx := hw x (by simp)
    rw [List.cons_append, jtrim, trimRound_other (blank_ne hx.1).1, if_neg, except_ok_bind]
    · have : stepOn (x :: (w ++ c :: u)) = .ok (some (w ++ c :: u)) := by rw [stepOn, if_pos (blank_ne hx.1).2]
      dsimp only
      rw [this, except_ok_bind]
      exact ih (fun y hy => hw y (by simp [hy])) n (by simp at hn; omega)
    · rintro (⟨h, h'⟩ | h)
      · exact hx.2 h' h
      · rw [← Bool.not_eq_true, isSpace_iff] at h; exact h hx.1

theorem trim_blanks {w : List Byte} (hw : Blanks w) {c : Byte} (hc : Stop Bool.false c) (u : List Byte) : trimText Bool.false (w ++ c :: u) = .ok (c :: u) :=
  jtrim_ok (fun c h => ⟨hw c h, by simp⟩) hc u _ (by simp; omega)

theorem trim_stop {c : Byte} (hc : Stop Bool.false c) (u : List Byte) : trimText Bool.false (c :: u) = .ok (c :: u) :=
  trim_blanks (w := []) (by simp [Blanks]) hc u

theorem trim_inline {w : List Byte} (hw : Inline w) {c : Byte} (hc : Stop Bool.true c) (u : List Byte) : trimText Bool.true (w ++ c :: u) = .ok (c :: u) :=
  jtrim_ok (fun c h => ⟨(hw c h).1, fun _ => (hw c h).2⟩) hc u _ (by simp; omega)

theorem skipLiteralLoop_to {q : Byte} (h0 : q ≠ 0) : ∀ (s : List Byte) (prev : Byte), Text s → (∀ a b, s = a ++ q :: b → (prev :: a).getLast? = some 0x5c#8) →
    (prev :: s).getLast? ≠ some 0x5c#8 → ∀ r, skipLiteralLoop q prev (s ++ q :: r) = .ok s.length
  | [], prev, _, _, h, r => by
    rw [List.nil_append, skipLiteralLoop, if_neg]
    · rfl
    · rintro (⟨-, h'⟩ | ⟨-, h'⟩)
      · exact h' rfl
      · simp [h'] at h
  | x :: s, prev, ht, hq, hl, r => by
    have hx := Text.cons.1 ht
    rw [List.cons_append, skipLiteralLoop, if_pos, skipLiteralLoop_to h0 s x hx.2 (fun a b h => ?_) (by simpa using hl) r, except_ok_bind]
    · rfl
    · have := hq (x :: a) b (by rw [h]; rfl)
      simpa using this
    · by_cases h : x = q
      · right
        refine ⟨h, ?_⟩
        have := hq [] s (by rw [h]; rfl)
        simpa using this
      · exact .inl ⟨hx.1, h⟩

theorem skipLiteral_to {q : Byte} (h0 : q ≠ 0) {s : List Byte} (hs : Between q s) (r : List Byte) : skipLiteral q (s ++ q :: r) = .ok s.length := by
  obtain ⟨ht, hq, hl⟩ := hs
  cases s with
  | nil => rw [List.nil_append, skipLiteral, if_pos (.inr rfl)]; rfl
  | cons x s =>
    have hx := Text.cons.1 ht
    have hxq : x ≠ q := by
      rintro rfl
      have := hq [] s rfl
      simp at this
    rw [List.cons_append, skipLiteral, if_neg (fun h => h.elim hx.1 hxq), skipLiteralLoop_to h0 s x hx.2 (fun a b h => ?_) (by simpa using hl) r, except_ok_bind]
    · rfl
    · have := hq (x :: a) b (by rw [h]; rfl)
      simpa using this

theorem strlen_to {s : List Byte} (hs : Text s) (r : List Byte) : strlen (s ++ 0 :: r) = .ok s.length := strlen_ok hs r

theorem parseQuoted_ok {ν : Type} {q : Byte} (h0 : q ≠ 0) {s : List Byte} (hs : Between q s) (r : List Byte) :
    parseQuoted (ν := ν) q (q :: s ++ [q] ++ r) = .ok (.ok (.str (q == 0x60#8) s, []) r) := by
  unfold parseQuoted
  have e1 : (q :: s ++ [q] ++ r).drop 1 = s ++ q :: r := by simp
  rw [e1]
  dsimp only
  rw [skipLiteral_to h0 hs, except_ok_bind]
  have e2 : wr (s ++ q :: r) s.length 0 = .ok (s ++ 0 :: r) := by
    rw [wr_ok (by simp)]; simp
  rw [e2, except_ok_bind, strlen_to hs.1, except_ok_bind]
  simp

theorem isControl_ok (c : Byte) : ∃ b, isControl c = .ok b ∧ (c ∈ [0x22#8, 0x5c#8, 0x2f#8, 0x62#8, 0x66#8, 0x6e#8, 0x72#8, 0x74#8] → b = true) := by
  have h : ∀ c : Byte, (match isControl c with
    | .ok b => decide (c ∈ [0x22#8, 0x5c#8, 0x2f#8, 0x62#8, 0x66#8, 0x6e#8, 0x72#8, 0x74#8] → b = true)
    | .error _ => false) = true := by decide +kernel
  have := h c
  split at this
  · rename_i b e
    exact ⟨b, e, of_decide_eq_true this⟩
  · cases this

theorem validateName_ok {s : List Byte} (ht : Text s) (he : Escapes s) (r : List Byte) : validateName (s ++ 0 :: r) = .ok Bool.true := by
  induction s with
  | nil => simp [validateName]
  | cons x s ih =>
    have hx := Text.cons.1 ht
    have ih' := ih hx.2 (fun a b h => he (x :: a) b (by rw [h]; rfl))
    rw [List.cons_append, validateName, if_neg hx.1]
    by_cases h5 : x = 0x5c#8
    · rw [if_neg (fun h => h h5)]
      obtain ⟨c, b', hb, hc⟩ := he [] s (by rw [h5]; rfl)
      subst hb
      have : rd (c :: b' ++ 0 :: r) 0 = .ok c := rfl
      rw [this, except_ok_bind]
      obtain ⟨b, eb, hb⟩ := isControl_ok c
      rw [eb, except_ok_bind]
      rcases hc with hc | hc
      · rw [hb hc, if_pos rfl]; exact ih'
      · rw [hc]; cases b <;> exact ih'
    · rw [if_pos h5]; exact ih'

theorem controlSkip_double : ∀ (s : List Byte) (prev : Byte), Text s → (∀ a b, s = a ++ 0x22#8 :: b → (prev :: a).getLast? = some 0x5c#8) →
    (prev :: s).getLast? ≠ some 0x5c#8 → ∀ r, controlSkip 0x22#8 prev (s ++ 0x22#8 :: r) = .ok s.length
  | [], prev, _, _, h, r => by
    rw [List.nil_append, controlSkip, if_neg (by simp), if_neg]
    · rfl
    · rintro ⟨h', -⟩
      simp [h'] at h
  | x :: s, prev, ht, hq, hl, r => by
    have hx := Text.cons.1 ht
    have ih := controlSkip_double s x hx.2 (fun a b h => by
      have := hq (x :: a) b (by rw [h]; rfl)
      simpa using this) (by simpa using hl) r
    rw [List.cons_append, controlSkip]
    by_cases h : x = 0x22#8
    · have := hq [] s (by rw [h]; rfl)
      have hp : prev = 0x5c#8 := by simpa using this
      rw [if_neg (fun h' => h'.2 h), if_pos ⟨hp, h⟩]
      have : isControl 0x22#8 = .ok true := by decide +kernel
      rw [this, except_ok_bind, if_pos rfl, ih, except_ok_bind]
      rfl
    · rw [if_pos ⟨hx.1, h⟩, ih, except_ok_bind]
      rfl

theorem controlSkip_single {s : List Byte} (ht : Text s) (hs : 0x27#8 ∉ s) (r : List Byte) : ∀ prev, controlSkip 0x27#8 prev (s ++ 0x27#8 :: r) = .ok s.length := by
  induction s with
  | nil =>
    intro prev
    rw [List.nil_append, controlSkip, if_neg (by simp)]
    have : isControl 0x27#8 = .ok Bool.false := by decide +kernel
    rw [this, except_ok_bind]
    split <;> rfl
  | cons x s ih =>
    intro prev
    have hx := Text.cons.1 ht
    rw [List.cons_append, controlSkip, if_pos ⟨hx.1, fun h => hs (by simp [h])⟩, ih hx.2 (fun h => hs (by simp [h])), except_ok_bind]
    rfl

theorem isAssign_iff (c : Byte) : ∃ b, isAssign c = .ok b ∧ (b = true ↔ c ∈ [0x3a#8, 0x3d#8, 0x7c#8, 0]) := by
  have h : ∀ c : Byte, (match isAssign c with
    | .ok b => decide (b = true ↔ c ∈ [0x3a#8, 0x3d#8, 0x7c#8, 0])
    | .error _ => false) = true := by decide +kernel
  have := h c
  split at this
  · rename_i b e
    exact ⟨b, e, of_decide_eq_true this⟩
  · cases this

theorem bareLen_ok {s : List Byte} (hs : ∀ x ∈ s, Chars.isAlphanumeric x = Bool.true ∨ x = 0x5f#8) {c : Byte} (hc : ¬ (Chars.isAlphanumeric c = Bool.true ∨ c = 0x5f#8)) (r : List Byte) :
    bareLen (s ++ c :: r) = .ok s.length := by
  have key : ∀ x : Byte, (Chars.isAlphanumeric x = Bool.true ∨ x = 0x5f#8) → x ≠ 0 ∧ isSpace x = false ∧ isAssign x = .ok Bool.false := by decide +kernel
  induction s with
  | nil =>
    obtain ⟨b, e, -⟩ := isAssign_iff c
    rw [List.nil_append, bareLen, e, except_ok_bind, if_neg (fun h => hc h.2.1)]
    rfl
  | cons x s ih =>
    obtain ⟨h1, h2, h3⟩ := key x (hs x (by simp))
    rw [List.cons_append, bareLen, h3, except_ok_bind, if_pos ⟨h1, hs x (by simp), h2, rfl⟩, ih (fun y hy => hs y (by simp [hy])), except_ok_bind]
    rfl

theorem assign_stop {c : Byte} (h : c ∈ [0x3a#8, 0x3d#8, 0x7c#8]) : Stop Bool.false c ∧ c ≠ 0 ∧ ¬ (Chars.isAlphanumeric c = Bool.true ∨ c = 0x5f#8) ∧ isAssign c = .ok Bool.true := by
  have : ∀ c : Byte, c ∈ [0x3a#8, 0x3d#8, 0x7c#8] → (c ≠ 0x2f#8 ∧ isSpace c = Bool.false) ∧ c ≠ 0 ∧ ¬ (Chars.isAlphanumeric c = Bool.true ∨ c = 0x5f#8) ∧ isAssign c = .ok Bool.true := by decide +kernel
  obtain ⟨⟨h1, h2⟩, h3, h4⟩ := this c h
  refine ⟨⟨h1, .inl ?_⟩, h3, h4⟩
  rw [← isSpace_iff, h2]; simp

theorem blank_nameEnd {c : Byte} (h : Blank c) : ¬ (Chars.isAlphanumeric c = Bool.true ∨ c = 0x5f#8) := by
  have : ∀ c : Byte, isSpace c = Bool.true → ¬ (Chars.isAlphanumeric c = Bool.true ∨ c = 0x5f#8) := by decide +kernel
  exact this c ((isSpace_iff c).2 h)

/-- The style of a name with `w` before the assignment character. -/
def nameStyle (ns : NameStyle) (w : List Byte) (asg : Byte) : Style := { name := ns, assign := assignOf asg, assignWidth := w.length % 16 }

theorem drop_one {α : Type} (x : α) (l : List α) : (x :: l).drop 1 = l := rfl

theorem rd_cons {α : Type} (x : α) (l : List α) : rd (x :: l) 0 = .ok x := rfl

theorem drop_past (s : List Byte) (x : Byte) (u : List Byte) : (s ++ x :: u).drop (s.length + 1) = u := by
  rw [← List.drop_drop, List.drop_left]; rfl

theorem wr_at (s : List Byte) (x y : Byte) (u : List Byte) : wr (s ++ x :: u) s.length y = .ok (s ++ y :: u) := by
  rw [wr_ok (by simp)]; simp

theorem parseName_ok {ns : NameStyle} {name nt : List Byte} (h : NameText ns name nt) {w : List Byte} (hw : Blanks w) {asg : Byte} (ha : asg ∈ [0x3a#8, 0x3d#8, 0x7c#8]) (r : List Byte) :
    parseName (nt ++ w ++ asg :: r) = .ok (.ok { name := some name, style := nameStyle ns w asg } (asg :: r)) := by
  obtain ⟨hst, h0, hal, has⟩ := assign_stop ha
  -- after a name in quotes
  have quoted : ∀ (sty : NameStyle) (s : List Byte), sty ≠ .noQuotes → Text s → Escapes s →
      finishName (s ++ 0 :: (w ++ asg :: r)) s.length (s.length + 1) sty = .ok (.ok { name := some s, style := nameStyle sty w asg } (asg :: r)) := by
    intro sty s hsty hs he
    unfold finishName
    rw [drop_past, trim_blanks hw hst, except_ok_bind, rd_cons, except_ok_bind, has, except_ok_bind, if_neg (by simp)]
    dsimp only
    rw [cutName, if_neg hsty, except_ok_bind]
    dsimp only
    rw [validateName_ok hs he, except_ok_bind, if_neg (by simp), List.take_left, nameStyle]
    have : (s ++ 0 :: (w ++ asg :: r)).length - (s.length + 1) - (asg :: r).length = w.length := by simp; omega
    rw [this]
  cases h with
  | double hb he =>
    unfold parseName
    have e1 : (0x22#8 :: name ++ [0x22#8] ++ w ++ asg :: r) = 0x22#8 :: (name ++ 0x22#8 :: (w ++ asg :: r)) := by simp
    rw [e1, rd_cons, except_ok_bind, if_pos (.inl rfl)]
    dsimp only
    rw [drop_one, controlSkip_double name 0x22#8 hb.1 (fun a b h => ?_) ?_, except_ok_bind, wr_at, except_ok_bind]
    · exact quoted .doubleQuote name (by simp) hb.1 he
    · cases name with
      | nil => simp
      | cons x a => simpa using hb.2.2
    · have := hb.2.1 a b h
      cases a with
      | nil => simp at this
      | cons x a => simpa using this
  | single ht hn he =>
    unfold parseName
    have e1 : (0x27#8 :: name ++ [0x27#8] ++ w ++ asg :: r) = 0x27#8 :: (name ++ 0x27#8 :: (w ++ asg :: r)) := by simp
    rw [e1, rd_cons, except_ok_bind, if_pos (.inr rfl)]
    dsimp only
    rw [drop_one, controlSkip_single ht hn, except_ok_bind, wr_at, except_ok_bind]
    exact quoted .singleQuote name (by simp) ht he
  | @bare c s hc hs =>
    unfold parseName
    have hcq : ¬ (c = 0x22#8 ∨ c = 0x27#8) := by
      rintro (rfl | rfl) <;> exact absurd hc (by decide)
    obtain ⟨y, v, hv, hy⟩ : ∃ y v, w ++ asg :: r = y :: v ∧ ¬ (Chars.isAlphanumeric y = Bool.true ∨ y = 0x5f#8) := by
      cases w with
      | nil => exact ⟨asg, r, rfl, hal⟩
      | cons y w => exact ⟨y, w ++ asg :: r, rfl, blank_nameEnd (hw y (by simp))⟩
    have e1 : (c :: s ++ w ++ asg :: r) = c :: (s ++ y :: v) := by rw [← hv]; simp
    rw [e1, rd_cons, except_ok_bind, if_neg hcq, if_pos hc]
    rw [drop_one, bareLen_ok hs hy, except_ok_bind]
    unfold finishName
    have e2 : (c :: (s ++ y :: v)).drop (s.length + 1) = w ++ asg :: r := by
      rw [List.drop_succ_cons, List.drop_left, hv]
    rw [e2, trim_blanks hw hst, except_ok_bind, rd_cons, except_ok_bind, has, except_ok_bind, if_neg (by simp)]
    dsimp only
    have hy0 : y ≠ 0 := by
      cases w with
      | nil => cases hv; exact h0
      | cons z w => cases hv; exact (blank_ne (hw y (by simp))).2
    have e3 : rd (c :: (s ++ y :: v)) (s.length + 1) = .ok y := by
      rw [rd_ok (by simp)]
      simp
    have e4 : wr (c :: (s ++ y :: v)) (s.length + 1) 0 = .ok (c :: s ++ 0 :: v) := by
      have := wr_at (c :: s) y 0 v
      simpa using this
    have ht : Text (c :: s) := by
      intro x hx
      have key : ∀ x : Byte, ((Chars.isAlphanumeric x = Bool.true ∨ x = 0x5f#8) ∨ (Chars.isAlpha x = Bool.true ∨ x = 0x5f#8 ∨ x = 0x24#8)) → x ≠ 0 := by decide +kernel
      rcases List.mem_cons.1 hx with rfl | hx
      · exact key _ (.inr hc)
      · exact key _ (.inl (hs x hx))
    have he : Escapes (c :: s) := by
      intro a b hab
      exfalso
      have key : ∀ x : Byte, ((Chars.isAlphanumeric x = Bool.true ∨ x = 0x5f#8) ∨ (Chars.isAlpha x = Bool.true ∨ x = 0x5f#8 ∨ x = 0x24#8)) → x ≠ 0x5c#8 := by decide +kernel
      have hx : 0x5c#8 ∈ c :: s := by rw [hab]; simp
      rcases List.mem_cons.1 hx with hx | hx
      · exact key _ (.inr hc) hx.symm
      · exact key _ (.inl (hs _ hx)) rfl
    rw [cutName, if_pos rfl, e3, except_ok_bind, if_pos hy0, e4, except_ok_bind, except_ok_bind]
    dsimp only
    rw [validateName_ok ht he, except_ok_bind, if_neg (by simp), nameStyle]
    have e5 : (c :: (s ++ y :: v)).length - (s.length + 1) - (asg :: r).length = w.length := by rw [← hv]; simp
    have e6 : (c :: s ++ 0 :: v).take (s.length + 1) = c :: s := List.take_left (l₁ := c :: s)
    rw [e5, e6]

theorem hasPrefix_nil (r : List Byte) : hasPrefix r [0#8] = .ok Bool.true := by
  unfold hasPrefix; simp

theorem findWord_ok (c : Const) (r : List Byte) : findWord (word c ++ r) words = .ok (some (c, (word c).length)) := by
  cases c <;> simp [findWord, words, word, hasPrefix, hasPrefix_nil]

theorem startsWord_ok (c : Const) (r : List Byte) : startsWord (word c ++ r) = .ok Bool.true := by
  cases c <;> rfl

/-- How a value begins. -/
def Begins (c : Byte) : Prop := c ∈ [0x60#8, 0x22#8, 0x27#8, 0x2b#8, 0x2e#8, 0x2d#8, 0x5b#8, 0x7b#8] ∨ Digit c ∨ Chars.isAlpha c = Bool.true

theorem digit_iff : ∀ c : Byte, Chars.isDigit c = true ↔ Digit c := by
  unfold Digit; decide +kernel

theorem begins_stop {c : Byte} (h : Begins c) : Stop Bool.false c ∧ c ≠ 0x5d#8 ∧ c ≠ 0 := by
  have : ∀ c : Byte, (c ∈ [0x60#8, 0x22#8, 0x27#8, 0x2b#8, 0x2e#8, 0x2d#8, 0x5b#8, 0x7b#8] ∨ Chars.isDigit c = true ∨ Chars.isAlpha c = Bool.true) →
    (c ≠ 0x2f#8 ∧ isSpace c = Bool.false) ∧ c ≠ 0x5d#8 ∧ c ≠ 0 := by decide +kernel
  obtain ⟨⟨h1, h2⟩, h3⟩ := this c (by rw [digit_iff]; exact h)
  refine ⟨⟨h1, .inl ?_⟩, h3⟩
  rw [← isSpace_iff, h2]; simp

theorem name_begins {ns : NameStyle} {name nt : List Byte} (h : NameText ns name nt) :
    ∃ c u, nt = c :: u ∧ Stop Bool.false c ∧ c ≠ 0x7d#8 ∧ strchr [0x7d#8, 0x5d#8, 0] c = .ok Bool.false := by
  have key : ∀ c : Byte, (c = 0x22#8 ∨ c = 0x27#8 ∨ (Chars.isAlpha c = Bool.true ∨ c = 0x5f#8 ∨ c = 0x24#8)) →
    (c ≠ 0x2f#8 ∧ isSpace c = Bool.false) ∧ c ≠ 0x7d#8 ∧ strchr [0x7d#8, 0x5d#8, 0] c = .ok Bool.false := by decide +kernel
  have key' : ∀ c : Byte, (c = 0x22#8 ∨ c = 0x27#8 ∨ (Chars.isAlpha c = Bool.true ∨ c = 0x5f#8 ∨ c = 0x24#8)) →
      Stop Bool.false c ∧ c ≠ 0x7d#8 ∧ strchr [0x7d#8, 0x5d#8, 0] c = .ok Bool.false := by
    intro c hc
    obtain ⟨⟨h1, h2⟩, h3⟩ := key c hc
    refine ⟨⟨h1, .inl ?_⟩, h3⟩
    rw [← isSpace_iff, h2]; simp
  cases h with
  | double => exact ⟨_, _, rfl, key' _ (.inl rfl)⟩
  | single => exact ⟨_, _, rfl, key' _ (.inr (.inl rfl))⟩
  | bare h => exact ⟨_, _, rfl, key' _ (.inr (.inr h))⟩

theorem value_begins {ν : Type} {io : NumIO ν} {k : Kind ν} {kids : List (Node ν)} {t : List Byte} (h : Spell io (.value k kids) t) : ∃ c u, t = c :: u ∧ Begins c := by
  cases h with
  | str hq => exact ⟨_, _, rfl, .inl (by revert hq; simp; rintro (rfl | rfl | rfl) <;> simp)⟩
  | const c => cases c <;> exact ⟨_, _, rfl, by unfold Begins; simp [Chars.isAlpha]⟩
  | num h =>
    obtain ⟨⟨c, u, e, h⟩, -⟩ := h
    refine ⟨c, u, e, ?_⟩
    rcases h with h | rfl | rfl | ⟨rfl, -⟩
    · exact .inr (.inl h)
    · left; simp
    · left; simp
    · left; simp
  | arr => exact ⟨_, _, rfl, by left; simp⟩
  | obj => exact ⟨_, _, rfl, by left; simp⟩

theorem isDelim_iff (c : Byte) : ∃ b, isDelim c = .ok b ∧ (b = true ↔ c ∈ [0x2c#8, 0x7c#8, 0x0a#8, 0]) := by
  have h : ∀ c : Byte, (match isDelim c with
    | .ok b => decide (b = true ↔ c ∈ [0x2c#8, 0x7c#8, 0x0a#8, 0])
    | .error _ => false) = true := by decide +kernel
  have := h c
  split at this
  · rename_i b e
    exact ⟨b, e, of_decide_eq_true this⟩
  · cases this

theorem delimiter_ok {a : List Byte} (ha : Inline a) {d : Byte} (hd : d ∈ [0x2c#8, 0x7c#8, 0x0a#8]) (u : List Byte) (st : Style) :
    ∃ f, delimiter (a ++ d :: u) = .ok f ∧ f st = ((f st).1, Bool.false, u) := by
  have hs : Stop Bool.true d := by
    simp only [List.mem_cons, List.not_mem_nil, or_false] at hd
    rcases hd with rfl | rfl | rfl
    · exact ⟨by decide, .inl (by unfold Blank; decide)⟩
    · exact ⟨by decide, .inl (by unfold Blank; decide)⟩
    · exact ⟨by decide, .inr ⟨rfl, rfl⟩⟩
  obtain ⟨b, e, hb⟩ := isDelim_iff d
  have hb' : b = true := hb.2 (by simp only [List.mem_cons, List.not_mem_nil, or_false] at hd ⊢; rcases hd with h | h | h <;> simp [h])
  have h0 : d ≠ 0 := by rintro rfl; simp at hd
  unfold delimiter
  rw [trim_inline ha hs, except_ok_bind, rd_cons, except_ok_bind, e, except_ok_bind, if_pos hb']
  refine ⟨_, rfl, ?_⟩
  simp
  exact h0

theorem delimiter_none {a : List Byte} (ha : Inline a) (u : List Byte) (st : Style) :
    ∃ f, delimiter (a ++ 0x7d#8 :: u) = .ok f ∧ f st = (st, Bool.false, 0x7d#8 :: u) := by
  unfold delimiter
  have e : isDelim 0x7d#8 = .ok Bool.false := by decide +kernel
  rw [trim_inline ha ⟨by decide, .inl (by unfold Blank; decide)⟩, except_ok_bind, rd_cons, except_ok_bind, e, except_ok_bind, if_neg (by simp)]
  exact ⟨_, rfl, rfl⟩

theorem delimiter_end {a : List Byte} (ha : Inline a) (u : List Byte) (st : Style) :
    ∃ f, delimiter (a ++ 0#8 :: u) = .ok f ∧ f st = ((f st).1, Bool.true, 0#8 :: u) := by
  unfold delimiter
  have e : isDelim 0#8 = .ok Bool.true := by decide +kernel
  rw [trim_inline ha ⟨by decide, .inl (by unfold Blank; decide)⟩, except_ok_bind, rd_cons, except_ok_bind, e, except_ok_bind, if_pos rfl]
  exact ⟨_, rfl, rfl⟩

/-- What the parser does with a text. -/
def Reads {ν : Type} (io : NumIO ν) : Part ν → List Byte → Prop
  | .value k kids, t => ∀ c r n, Follow c → 2 * t.length ≤ n → ∃ ks, parseValue io n (t ++ c :: r) = .ok (.ok (k, ks) (c :: r)) ∧ plainL ks = plainL kids
  | .elems ns, t => ∀ r n done, 2 * t.length + 1 ≤ n →
      ∃ ks, parseElements io n done (t ++ 0x5d#8 :: r) = .ok (.ok (.arr, done ++ ks) (0x5d#8 :: r)) ∧ plainL ks = plainL ns
  | .members ns, t => ∀ w e r n done, Blanks w → (e = 0x7d#8 ∨ (e = 0#8 ∧ ns ≠ [])) → 2 * t.length + 1 ≤ n →
      ∃ ks, parseMembers io n done (w ++ t ++ e :: r) = .ok (.ok (.obj, done ++ ks) (e :: r)) ∧ plainL ks = plainL ns

theorem head_follow {w : List Byte} (hw : Blanks w) {x : Byte} (hx : Follow x) (u : List Byte) : ∃ y v, w ++ x :: u = y :: v ∧ Follow y := by
  cases w with
  | nil => exact ⟨x, u, rfl, hx⟩
  | cons y w => exact ⟨y, w ++ x :: u, rfl, .inl (hw y (by simp))⟩

theorem plainL_append {ν : Type} (a b : List (Node ν)) : plainL (a ++ b) = plainL a ++ plainL b := by
  induction a with
  | nil => simp [plainL]
  | cons x a ih => rw [List.cons_append, plainL, ih, plainL, List.cons_append]

theorem stop_of {c : Byte} (h : c ∈ [0x2c#8, 0x7c#8, 0x5d#8, 0x7d#8, 0#8]) (nl : Bool) : Stop nl c := by
  have : ∀ c : Byte, c ∈ [0x2c#8, 0x7c#8, 0x5d#8, 0x7d#8, 0#8] → c ≠ 0x2f#8 ∧ isSpace c = Bool.false := by decide +kernel
  obtain ⟨h1, h2⟩ := this c h
  refine ⟨h1, .inl ?_⟩
  rw [← isSpace_iff, h2]; simp

/-- One value, from the blanks before it on. -/
theorem elem_read {ν : Type} {io : NumIO ν} {w w' t : List Byte} (hw : Blanks w) (hw' : Blanks w') {k : Kind ν} {kids : List (Node ν)} (hs : Spell io (.value k kids) t)
    (ih : Reads io (.value k kids) t) {x : Byte} (hx : x = 0x2c#8 ∨ x = 0x5d#8) (r : List Byte) (n : Nat) (hn : 2 * t.length ≤ n) (done : List (Node ν)) :
    ∃ ks, plainL ks = plainL kids ∧ parseElements io (n + 1) done (w ++ t ++ w' ++ x :: r) =
      (if x = 0x2c#8 then parseElements io n (done ++ [.mk none {} k ks]) r else .ok (.ok (.arr, done ++ [.mk none {} k ks]) (x :: r))) := by
  obtain ⟨c, u, rfl, hc⟩ := value_begins hs
  obtain ⟨h1, h2, h3⟩ := begins_stop hc
  have hfx : Follow x := by rcases hx with rfl | rfl <;> (right; simp)
  have hsx : Stop Bool.false x := stop_of (by rcases hx with rfl | rfl <;> simp) _
  obtain ⟨y, v, hv, hy⟩ := head_follow hw' hfx r
  obtain ⟨ks, e, hks⟩ := ih y v n hy hn
  refine ⟨ks, hks, ?_⟩
  have e1 : w ++ c :: u ++ w' ++ x :: r = w ++ c :: (u ++ y :: v) := by rw [← hv]; simp
  have e0 : ∃ z, rd (w ++ c :: (u ++ y :: v)) 0 = .ok z ∧ z ≠ 0 := by
    cases w with
    | nil => exact ⟨c, rfl, h3⟩
    | cons z w => exact ⟨z, rfl, (blank_ne (hw z (by simp))).2⟩
  obtain ⟨z, e0, hz⟩ := e0
  rw [e1, parseElements, e0, except_ok_bind, if_neg hz, trim_blanks hw h1, except_ok_bind, rd_cons, except_ok_bind, if_neg h2]
  have e2 : c :: (u ++ y :: v) = c :: u ++ y :: v := rfl
  rw [e2, e, except_ok_bind]
  dsimp only
  rw [← hv, trim_blanks hw' hsx, except_ok_bind, rd_cons, except_ok_bind, drop_one]
  rcases hx with rfl | rfl
  · rfl
  · rfl

/-- One member, from the blanks before it on, up to what follows its value. -/
theorem member_read {ν : Type} {io : NumIO ν} {nt w0 w w' t name v : List Byte} {asg y : Byte} {ns : NameStyle} {k : Kind ν} {kids : List (Node ν)}
    (h0 : Blanks w0) (hnt : NameText ns name nt) (hw : Blanks w) (ha : asg ∈ [0x3a#8, 0x3d#8, 0x7c#8]) (hw' : Blanks w') (hs : Spell io (.value k kids) t)
    (ih : Reads io (.value k kids) t) (hy : Follow y) (n : Nat) (hn : 2 * t.length ≤ n) (done : List (Node ν)) :
    ∃ ks, plainL ks = plainL kids ∧ parseMembers io (n + 1) done (w0 ++ (nt ++ w ++ asg :: w' ++ t) ++ y :: v) = (do
      let f ← delimiter (y :: v)
      let (style, stop, p) := f (nameStyle ns w asg)
      let done := done ++ [.mk (some name) style k ks]
      if stop then .ok (.ok (.obj, done) p)
      else do
        let p ← trimText Bool.false p
        if (← rd p 0) ≠ 0 then parseMembers io n done p else .ok (.ok (.obj, done) p)) := by
  obtain ⟨ks, e, hks⟩ := ih y v n hy hn
  refine ⟨ks, hks, ?_⟩
  obtain ⟨c, u, hcu, hc1, hc2, hc3⟩ := name_begins hnt
  obtain ⟨d, u', hdu, hd⟩ := value_begins hs
  have e1 : w0 ++ (nt ++ w ++ asg :: w' ++ t) ++ y :: v = w0 ++ c :: (u ++ (w ++ asg :: (w' ++ (t ++ y :: v)))) := by rw [hcu]; simp
  have e2 : c :: (u ++ (w ++ asg :: (w' ++ (t ++ y :: v)))) = nt ++ w ++ asg :: (w' ++ (t ++ y :: v)) := by rw [hcu]; simp
  rw [e1, parseMembers, trim_blanks h0 hc1, except_ok_bind, rd_cons, except_ok_bind, if_neg hc2, hc3, except_ok_bind, if_neg (by simp), e2, parseName_ok hnt hw ha, except_ok_bind]
  dsimp only
  have e3 : trimText Bool.false (w' ++ (t ++ y :: v)) = .ok (t ++ y :: v) := by
    rw [hdu, List.cons_append]
    exact trim_blanks hw' (begins_stop hd).1 _
  rw [drop_one, e3, except_ok_bind, e, except_ok_bind]

theorem reads {ν : Type} {io : NumIO ν} {p : Part ν} {t : List Byte} (h : Spell io p t) : Reads io p t := by
  induction h with
  | @str q s hq hb =>
    intro c r n hc hn
    obtain ⟨n, rfl⟩ : ∃ m, n = m + 1 := ⟨n - 1, by simp at hn; omega⟩
    refine ⟨[], ?_, rfl⟩
    have hq0 : q ≠ 0 := by rintro rfl; simp at hq
    have hq1 : strchr [0x60#8, 0x22#8, 0x27#8, 0] q = .ok Bool.true := by
      simp only [List.mem_cons, List.not_mem_nil, or_false] at hq
      rcases hq with rfl | rfl | rfl <;> decide
    have : rd (q :: s ++ [q] ++ c :: r) 0 = .ok q := rfl
    rw [parseValue, this, except_ok_bind, hq1, except_ok_bind, if_pos rfl, parseQuoted_ok hq0 hb]
  | const k =>
    intro c r n hc hn
    obtain ⟨n, rfl⟩ : ∃ m, n = m + 1 := ⟨n - 1, by cases k <;> simp [word] at hn <;> omega⟩
    refine ⟨[], ?_, rfl⟩
    have hq1 : ∃ q, rd (word k ++ c :: r) 0 = .ok q ∧ strchr [0x60#8, 0x22#8, 0x27#8, 0] q = .ok Bool.false := by
      cases k <;> exact ⟨_, rfl, by decide⟩
    obtain ⟨q, e0, hq1⟩ := hq1
    rw [parseValue, e0, except_ok_bind, hq1, except_ok_bind, if_neg (by simp), startsWord_ok, except_ok_bind, if_pos rfl, findWord_ok, except_ok_bind]
    dsimp only
    rw [List.drop_left]
  | @num v t hv =>
    intro c r n hc hn
    obtain ⟨⟨x, u, rfl, hx⟩, hr⟩ := hv
    obtain ⟨n, rfl⟩ : ∃ m, n = m + 1 := ⟨n - 1, by simp at hn; omega⟩
    refine ⟨[], ?_, rfl⟩
    have h1 : strchr [0x60#8, 0x22#8, 0x27#8, 0] x = .ok Bool.false ∧ Chars.isAlpha x = Bool.false ∧ (Chars.isDigit x = Bool.true ∨ x = 0x2b#8 ∨ x = 0x2d#8 ∨ x = 0x2e#8) := by
      have key : ∀ x : Byte, (Chars.isDigit x = Bool.true ∨ x = 0x2b#8 ∨ x = 0x2d#8 ∨ x = 0x2e#8) →
        strchr [0x60#8, 0x22#8, 0x27#8, 0] x = .ok Bool.false ∧ Chars.isAlpha x = Bool.false := by decide +kernel
      have hx' : Chars.isDigit x = Bool.true ∨ x = 0x2b#8 ∨ x = 0x2d#8 ∨ x = 0x2e#8 := by
        rcases hx with h | h | h | ⟨h, -⟩
        · exact .inl ((digit_iff x).2 h)
        · exact .inr (.inl h)
        · exact .inr (.inr (.inr h))
        · exact .inr (.inr (.inl h))
      exact ⟨(key x hx').1, (key x hx').2, hx'⟩
    have h2 : startsWord (x :: u ++ c :: r) = .ok Bool.false := by
      rw [startsWord, List.cons_append, rd_cons, except_ok_bind, if_neg (by rw [h1.2.1]; simp)]
      by_cases hm : x = 0x2d#8
      · rw [if_pos hm]
        subst hm
        rcases hx with h | h | h | ⟨-, d, u', rfl, hd⟩
        · exact absurd h (by unfold Digit; decide)
        · exact absurd h (by decide)
        · exact absurd h (by decide)
        · have : rd (0x2d#8 :: (d :: u' ++ c :: r)) 1 = .ok d := rfl
          rw [this, except_ok_bind, (digit_iff d).2 hd]
          rfl
      · rw [if_neg hm]
    rw [parseValue, List.cons_append, rd_cons, except_ok_bind, h1.1, except_ok_bind, if_neg (by simp), ← List.cons_append, h2, except_ok_bind, if_neg (by simp), if_pos h1.2.2,
      hr c r hc, except_ok_bind]
    dsimp only
    rw [List.drop_left]
  | @arr ns t hs ih =>
    intro c r n hc hn
    obtain ⟨n, rfl⟩ : ∃ m, n = m + 1 + 1 := ⟨n - 2, by simp at hn; omega⟩
    obtain ⟨ks, e, hks⟩ := ih (c :: r) n [] (by simp at hn; omega)
    refine ⟨ks, ?_, hks⟩
    have e1 : 0x5b#8 :: t ++ [0x5d#8] ++ c :: r = 0x5b#8 :: (t ++ 0x5d#8 :: c :: r) := by simp
    have h1 : strchr [0x60#8, 0x22#8, 0x27#8, 0] 0x5b#8 = .ok Bool.false := by decide
    have h2 : ∀ u, startsWord (0x5b#8 :: u) = .ok Bool.false := fun u => rfl
    have h3 : strchr [0x5b#8, 0x7b#8, 0] 0x5b#8 = .ok Bool.true := by decide
    rw [e1, parseValue, rd_cons, except_ok_bind, h1, except_ok_bind, if_neg (by simp), h2, except_ok_bind, if_neg (by simp), if_neg (by decide), h3, except_ok_bind, if_pos rfl,
      parseObject, trim_stop (by exact ⟨by decide, .inl (by unfold Blank; decide)⟩), except_ok_bind, rd_cons, except_ok_bind, if_neg (by decide), if_pos rfl, drop_one, e, except_ok_bind]
    rfl
  | @obj ns w t hw hs ih =>
    intro c r n hc hn
    obtain ⟨n, rfl⟩ : ∃ m, n = m + 1 + 1 := ⟨n - 2, by simp at hn; omega⟩
    obtain ⟨ks, e, hks⟩ := ih w 0x7d#8 (c :: r) n [] hw (.inl rfl) (by simp at hn; omega)
    refine ⟨ks, ?_, hks⟩
    have e1 : 0x7b#8 :: w ++ t ++ [0x7d#8] ++ c :: r = 0x7b#8 :: (w ++ t ++ 0x7d#8 :: c :: r) := by simp
    have h1 : strchr [0x60#8, 0x22#8, 0x27#8, 0] 0x7b#8 = .ok Bool.false := by decide
    have h2 : ∀ u, startsWord (0x7b#8 :: u) = .ok Bool.false := fun u => rfl
    have h3 : strchr [0x5b#8, 0x7b#8, 0] 0x7b#8 = .ok Bool.true := by decide
    rw [e1, parseValue, rd_cons, except_ok_bind, h1, except_ok_bind, if_neg (by simp), h2, except_ok_bind, if_neg (by simp), if_neg (by decide), h3, except_ok_bind, if_pos rfl,
      parseObject, trim_stop (by exact ⟨by decide, .inl (by unfold Blank; decide)⟩), except_ok_bind, rd_cons, except_ok_bind, if_pos rfl, drop_one, e, except_ok_bind]
    rfl
  | @noElems w hw =>
    intro r n done hn
    obtain ⟨n, rfl⟩ : ∃ m, n = m + 1 := ⟨n - 1, by omega⟩
    refine ⟨[], ?_, rfl⟩
    have e0 : ∃ z, rd (w ++ 0x5d#8 :: r) 0 = .ok z ∧ z ≠ 0 := by
      cases w with
      | nil => exact ⟨_, rfl, by decide⟩
      | cons z w => exact ⟨z, rfl, (blank_ne (hw z (by simp))).2⟩
    obtain ⟨z, e0, hz⟩ := e0
    rw [parseElements, e0, except_ok_bind, if_neg hz, trim_blanks hw (stop_of (by simp) _), except_ok_bind, rd_cons, except_ok_bind, if_pos rfl, List.append_nil]
  | @lastElem w w' t st k kids hw hw' hs ih =>
    intro r n done hn
    obtain ⟨n, rfl⟩ : ∃ m, n = m + 1 := ⟨n - 1, by omega⟩
    obtain ⟨ks, hks, e⟩ := elem_read hw hw' hs ih (.inr rfl) r n (by simp at hn; omega) done
    refine ⟨[.mk none {} k ks], ?_, ?_⟩
    · rw [e, if_neg (by decide)]
    · simp only [plainL, Node.plain, hks]
  | @elem w w' t u st k kids ns hw hw' hs hs2 ih ih2 =>
    intro r n done hn
    obtain ⟨n, rfl⟩ : ∃ m, n = m + 1 := ⟨n - 1, by omega⟩
    obtain ⟨ks, hks, e⟩ := elem_read hw hw' hs ih (.inl rfl) (u ++ 0x5d#8 :: r) n (by simp at hn; omega) done
    obtain ⟨ks2, e2, hks2⟩ := ih2 r n (done ++ [.mk none {} k ks]) (by simp at hn; omega)
    refine ⟨.mk none {} k ks :: ks2, ?_, ?_⟩
    · have e1 : w ++ t ++ w' ++ 0x2c#8 :: u ++ 0x5d#8 :: r = w ++ t ++ w' ++ 0x2c#8 :: (u ++ 0x5d#8 :: r) := by simp
      rw [e1, e, if_pos rfl, e2, List.append_assoc, List.singleton_append]
    · simp only [plainL, Node.plain, hks, hks2]
  | noMembers =>
    intro w e r n done hw he hn
    obtain ⟨n, rfl⟩ : ∃ m, n = m + 1 := ⟨n - 1, by omega⟩
    rcases he with rfl | ⟨-, h⟩
    · refine ⟨[], ?_, rfl⟩
      rw [List.append_nil, parseMembers, trim_blanks hw (stop_of (by simp) _), except_ok_bind, rd_cons, except_ok_bind, if_pos rfl, List.append_nil]
    · exact absurd rfl h
  | @lastMember nt w w' t a name asg ns st k kids hnt hw ha hw' hs hi ih =>
    intro w0 e r n done h0 he hn
    obtain ⟨n, rfl⟩ : ∃ m, n = m + 1 + 1 := ⟨n - 2, by
      have := List.length_pos_iff.2 (show t ≠ [] by obtain ⟨c, u, rfl, -⟩ := value_begins hs; simp)
      simp at hn; omega⟩
    have he' : e = 0x7d#8 ∨ e = 0#8 := by exact he.elim .inl (fun h => .inr h.1)
    have hfe : Follow e := by rcases he' with rfl | rfl <;> (right; simp)
    obtain ⟨y, v, hv, hy⟩ := head_follow (fun c h => (hi c h).1) hfe r
    obtain ⟨ks, hks, em⟩ := member_read h0 hnt hw ha hw' hs ih hy (v := v) (n + 1) (by simp at hn; omega) done
    have e1 : w0 ++ (nt ++ w ++ asg :: w' ++ t ++ a) ++ e :: r = w0 ++ (nt ++ w ++ asg :: w' ++ t) ++ y :: v := by rw [← hv]; simp
    rw [e1, em, ← hv]
    rcases he' with rfl | rfl
    · obtain ⟨f, ef, hf⟩ := delimiter_none hi r (nameStyle ns w asg)
      refine ⟨[.mk (some name) (nameStyle ns w asg) k ks], ?_, by simp only [plainL, Node.plain, hks]⟩
      rw [ef, except_ok_bind, hf]
      dsimp only
      rw [if_neg (by simp), trim_stop (stop_of (by simp) _), except_ok_bind, rd_cons, except_ok_bind, if_pos (by decide), parseMembers, trim_stop (stop_of (by simp) _), except_ok_bind, rd_cons,
        except_ok_bind, if_pos rfl]
    · obtain ⟨f, ef, hf⟩ := delimiter_end hi r (nameStyle ns w asg)
      refine ⟨[.mk (some name) (f (nameStyle ns w asg)).1 k ks], ?_, by simp only [plainL, Node.plain, hks]⟩
      rw [ef, except_ok_bind, hf]
      rfl
  | @member nt w w' t a b u name asg d ns st k kids ms hnt hw ha hw' hs hi hd hb hs2 ih ih2 =>
    intro w0 e r n done h0 he hn
    obtain ⟨n, rfl⟩ : ∃ m, n = m + 1 := ⟨n - 1, by omega⟩
    have he' : e = 0x7d#8 ∨ e = 0#8 := by exact he.elim .inl (fun h => .inr h.1)
    have hfd : Follow d := by
      simp only [List.mem_cons, List.not_mem_nil, or_false] at hd
      rcases hd with rfl | rfl | rfl
      · right; simp
      · right; simp
      · left; unfold Blank; decide
    obtain ⟨y, v, hv, hy⟩ := head_follow (fun c h => (hi c h).1) hfd (b ++ (u ++ e :: r))
    obtain ⟨ks, hks, em⟩ := member_read h0 hnt hw ha hw' hs ih hy (v := v) n (by simp at hn; omega) done
    have e1 : w0 ++ (nt ++ w ++ asg :: w' ++ t ++ a ++ d :: b ++ u) ++ e :: r = w0 ++ (nt ++ w ++ asg :: w' ++ t) ++ y :: v := by rw [← hv]; simp
    obtain ⟨f, ef, hf⟩ := delimiter_ok hi hd (b ++ (u ++ e :: r)) (nameStyle ns w asg)
    rw [e1, em, ← hv, ef, except_ok_bind, hf]
    dsimp only
    rw [if_neg (by simp)]
    -- the text after the delimiter
    obtain ⟨z, x, hzx, hz, hz0⟩ : ∃ z x, u ++ e :: r = z :: x ∧ Stop Bool.false z ∧ (z = 0 → ms = []) := by
      cases hs2 with
      | noMembers =>
        refine ⟨e, r, rfl, ?_, fun _ => rfl⟩
        rcases he' with rfl | rfl <;> exact stop_of (by simp) _
      | lastMember hnt' =>
        obtain ⟨c, u', rfl, h1, h2, h3⟩ := name_begins hnt'
        refine ⟨c, _, by simp only [List.cons_append]; rfl, h1, ?_⟩
        rintro rfl
        exact absurd h3 (by decide)
      | member hnt' =>
        obtain ⟨c, u', rfl, h1, h2, h3⟩ := name_begins hnt'
        refine ⟨c, _, by simp only [List.cons_append]; rfl, h1, ?_⟩
        rintro rfl
        exact absurd h3 (by decide)
    rw [hzx, trim_blanks hb hz, except_ok_bind, rd_cons, except_ok_bind]
    by_cases hzz : z = 0
    · have hms := hz0 hzz
      subst hms
      cases hs2
      cases hzx
      refine ⟨[.mk (some name) (f (nameStyle ns w asg)).1 k ks], ?_, by simp only [plainL, Node.plain, hks]⟩
      rw [if_neg (fun h => h hzz)]
    · rw [if_pos hzz]
      have hms : e = 0x7d#8 ∨ (e = 0#8 ∧ ms ≠ []) := by
        rcases he' with h | h
        · exact .inl h
        · refine .inr ⟨h, ?_⟩
          rintro rfl
          cases hs2
          cases hzx
          exact hzz h
      obtain ⟨ks2, e2, hks2⟩ := ih2 [] e r n (done ++ [.mk (some name) (f (nameStyle ns w asg)).1 k ks]) (by simp [Blanks]) hms (by simp at hn; omega)
      refine ⟨.mk (some name) (f (nameStyle ns w asg)).1 k ks :: ks2, ?_, by simp only [plainL, Node.plain, hks, hks2]⟩
      rw [List.nil_append, hzx] at e2
      rw [e2, List.append_assoc, List.singleton_append]

/-! ## Proofs: writing -/

/-- The spaces of `zpl___ind`. -/
def spaces (x : Int) : List Byte := List.replicate x.toNat 0x20#8

theorem spaces_inline (x : Int) : Inline (spaces x) := by
  intro c hc
  rw [spaces, List.mem_replicate] at hc
  rw [hc.2]
  exact ⟨by unfold Blank; decide, by decide⟩

theorem Inline.blanks {w : List Byte} (h : Inline w) : Blanks w := fun c hc => (h c hc).1

theorem ind_ok (pf : FloatPrinter) {o : Out} (ho : o.Ok) {x : Int} (hx : x < 65535) : Appends o (spaces x) (ind pf o x) := by
  unfold ind
  by_cases h : x > 0
  · rw [if_pos h]
    have := fprintf_r pf ho (n := x.toNat) (by omega) (by unfold maxLen; omega) 0x20#32 []
    rw [Int.toNat_of_nonneg (by omega)] at this
    exact this
  · rw [if_neg h]
    have : spaces x = [] := by rw [spaces, Int.toNat_of_nonpos (by omega)]; rfl
    rw [this]
    exact Appends.pure ho

/-- The texts of `zpl__json_string_space`, `zpl__json_string_eol`. -/
def spaceText (i : Int) : List Byte := if i = compact then [] else [0x20#8]
def eolText (d : DelimStyle) (i : Int) : List Byte := if d = .comma ∧ i = compact then [] else [0x0a#8]

theorem space_eq (i : Int) : space i = spaceText i ++ 0 :: [] := by unfold space spaceText; split <;> rfl
theorem eol_eq (d : DelimStyle) (i : Int) : eol d i = eolText d i ++ 0 :: [] := by unfold eol eolText; split <;> rfl

theorem spaceText_inline (i : Int) : Inline (spaceText i) := by
  unfold spaceText
  split
  · simp [Inline]
  · intro c hc
    rw [List.mem_singleton.1 hc]
    exact ⟨by unfold Blank; decide, by decide⟩

theorem eolText_blanks (d : DelimStyle) (i : Int) : Blanks (eolText d i) := by
  unfold eolText
  split
  · simp [Blanks]
  · intro c hc
    rw [List.mem_singleton.1 hc]
    unfold Blank; decide

theorem spaceText_text (i : Int) : Text (spaceText i) ∧ (spaceText i).length ≤ 1 := by
  unfold spaceText
  split <;> simp [Text]

theorem eolText_text (d : DelimStyle) (i : Int) : Text (eolText d i) ∧ (eolText d i).length ≤ 1 := by
  unfold eolText
  split <;> simp [Text]

/-- One character and a text. -/
theorem lit_s (pf : FloatPrinter) {o : Out} (ho : o.Ok) (c : Byte) (hc : c ≠ 0 ∧ c ≠ 0x25#8) {s : List Byte} (hs : Text s ∧ s.length ≤ 1) :
    Appends o (c :: s) (fprintf pf o [c, 0x25#8, 0x73#8, 0] [.str (some (s ++ 0 :: []))]) := by
  have := fprintf_psp pf ho hs.1 [] (pre := [c]) (post := []) (by simpa [Literal] using hc) (by simp [Literal]) [] (by
    have : maxLen = 65536 := rfl
    simp only [List.length_cons, List.length_nil]; omega)
  simpa using this

theorem writeName_ok (pf : FloatPrinter) {o : Out} (ho : o.Ok) {ns : NameStyle} {name nt : List Byte} (h : NameText ns name nt) (hl : nt.length + 1 < maxLen) :
    Appends o nt (writeName pf o (some name) ns) := by
  cases h with
  | double hb =>
    have := fprintf_psp pf ho hb.1 [] (pre := [0x22#8]) (post := [0x22#8]) (by simp [Literal]) (by simp [Literal]) [] (by simp at hl ⊢; omega)
    exact this
  | single ht =>
    have := fprintf_psp pf ho ht [] (pre := [0x27#8]) (post := [0x27#8]) (by simp [Literal]) (by simp [Literal]) [] (by simp at hl ⊢; omega)
    exact this
  | @bare c s hc hs =>
    have ht : Text (c :: s) := by
      intro x hx
      have key : ∀ x : Byte, ((Chars.isAlphanumeric x = Bool.true ∨ x = 0x5f#8) ∨ (Chars.isAlpha x = Bool.true ∨ x = 0x5f#8 ∨ x = 0x24#8)) → x ≠ 0 := by decide +kernel
      rcases List.mem_cons.1 hx with rfl | hx
      · exact key _ (.inr hc)
      · exact key _ (.inl (hs x hx))
    exact fprintf_s pf ho ht [] [] hl

theorem writeAssign_ok (pf : FloatPrinter) {o : Out} (ho : o.Ok) (st : Style) (hst : st.assignWidth < 16) (i : Int) :
    ∃ w asg w', Blanks w ∧ asg ∈ [0x3a#8, 0x3d#8, 0x7c#8] ∧ Blanks w' ∧ Appends o (w ++ asg :: w') (writeAssign pf o st i) := by
  have hsp := spaceText_text i
  have hi : ∀ {o : Out}, o.Ok → ∃ w, Blanks w ∧ Appends o w (assignPad pf o st i) := by
    intro o ho
    unfold assignPad
    split
    · exact ⟨_, (spaces_inline _).blanks, ind_ok pf ho (by omega)⟩
    · exact ⟨[], by simp [Blanks], Appends.pure ho⟩
  unfold writeAssign
  rw [space_eq]
  cases st.assign with
  | colon => exact ⟨[], 0x3a#8, spaceText i, by simp [Blanks], by simp, (spaceText_inline i).blanks, lit_s pf ho _ (by decide) hsp⟩
  | equals =>
    obtain ⟨w, hw, h⟩ := hi ho
    exact ⟨w, 0x3d#8, spaceText i, hw, by simp, (spaceText_inline i).blanks, h.bind fun o' ho' => lit_s pf ho' _ (by decide) hsp⟩
  | line =>
    obtain ⟨w, hw, h⟩ := hi ho
    exact ⟨w, 0x7c#8, spaceText i, hw, by simp, (spaceText_inline i).blanks, h.bind fun o' ho' => lit_s pf ho' _ (by decide) hsp⟩

/-- The delimiter: in compact output it is empty after the last member. -/
theorem writeDelim_ok (pf : FloatPrinter) {o : Out} (ho : o.Ok) (st : Style) (hst : st.delimWidth < 16) (i : Int) (last : Bool) :
    ∃ s, Appends o s (writeDelim pf o st i last) ∧
      ((∃ a d b, s = a ++ d :: b ∧ Inline a ∧ d ∈ [0x2c#8, 0x7c#8, 0x0a#8] ∧ Blanks b ∧ (st.delim = .comma → a = [] ∧ (last = Bool.false → d = 0x2c#8) ∧ (last = Bool.true → d = 0x0a#8))) ∨
        (s = [] ∧ last = Bool.true)) := by
  have hb := eolText_blanks st.delim i
  have hsp := eolText_text st.delim i
  unfold writeDelim
  cases hd : st.delim with
  | newline =>
    exact ⟨[0x0a#8], fprintf_lit pf ho (s := [0x0a#8]) (by simp [Literal]) [] [] (by decide), .inl ⟨[], 0x0a#8, [], rfl, by simp [Inline], by simp, by simp [Blanks], by simp⟩⟩
  | line =>
    refine ⟨spaces st.delimWidth ++ [0x7c#8, 0x0a#8], (ind_ok pf ho (by omega)).bind fun o' ho' => fprintf_lit pf ho' (s := [0x7c#8, 0x0a#8]) (by simp [Literal]) [] [] (by decide),
      .inl ⟨spaces st.delimWidth, 0x7c#8, [0x0a#8], rfl, spaces_inline _, by simp, ?_, by simp⟩⟩
    intro c hc
    rw [List.mem_singleton.1 hc]
    unfold Blank; decide
  | comma =>
    rw [hd] at hb hsp
    dsimp only
    rw [eol_eq]
    cases last with
    | true =>
      rw [if_pos rfl]
      refine ⟨eolText .comma i, fprintf_s pf ho hsp.1 [] [] (by have : maxLen = 65536 := rfl; omega), ?_⟩
      by_cases h : i = compact
      · right
        simp [eolText, h]
      · left
        refine ⟨[], 0x0a#8, [], by simp [eolText, h], by simp [Inline], by simp, by simp [Blanks], by simp⟩
    | false =>
      rw [if_neg (by simp)]
      exact ⟨0x2c#8 :: eolText .comma i, lit_s pf ho _ (by decide) hsp, .inl ⟨[], 0x2c#8, _, rfl, by simp [Inline], by simp, hb, by simp⟩⟩

theorem writeOpen_ok (pf : FloatPrinter) {o : Out} (ho : o.Ok) {c : BitVec 32} (hc : c.truncate 8 ≠ 0) {st : Style} (hst : st.cfg = Bool.false) {i : Int} (hi : i < 65535) :
    ∃ o' w w', writeOpen pf o c st i = .ok (o', i) ∧ o'.Ok ∧ Blanks w ∧ Blanks w' ∧ o'.out = o.out ++ (w ++ c.truncate 8 :: w') := by
  obtain ⟨o1, e1, h1, h2⟩ := ind_ok pf ho (x := i - 4) (by omega)
  have hsp := eolText_text st.delim i
  obtain ⟨o2, e2, h3, h4⟩ := fprintf_cs pf h1 hsp.1 [] hc [] (by have : maxLen = 65536 := rfl; omega)
  refine ⟨o2, spaces (i - 4), eolText st.delim i, ?_, h3, (spaces_inline _).blanks, eolText_blanks _ _, by rw [h4, h2, List.append_assoc]⟩
  rw [writeOpen, e1, except_ok_bind, hst, if_neg (by simp), eol_eq, e2, except_ok_bind]

theorem writeClose_ok (pf : FloatPrinter) {o : Out} (ho : o.Ok) {c : BitVec 32} (hc : c.truncate 8 ≠ 0) {st : Style} (hst : st.cfg = Bool.false) {i : Int} (hi : i < 65535) :
    ∃ w, Inline w ∧ Appends o (w ++ c.truncate 8 :: (if i > 0 then [] else eolText st.delim i)) (writeClose pf o c st i) := by
  have hsp := eolText_text st.delim i
  refine ⟨spaces i, spaces_inline _, (ind_ok pf ho hi).bind fun o' ho' => ?_⟩
  by_cases h : i > 0
  · rw [if_pos h, if_pos h]
    exact fprintf_c pf ho' hc []
  · rw [if_neg h, if_neg h, hst, if_neg (by simp), eol_eq]
    exact fprintf_cs pf ho' hsp.1 [] hc [] (by have : maxLen = 65536 := rfl; omega)

/-- An indentation the writer may be called with for the value of a node of height `h`. -/
def At {ν : Type} (cmp : Bool) (i : Int) (k : Kind ν) (h : Nat) : Prop :=
  if cmp then i = compact else (0 < i ∨ (0 ≤ i ∧ k ≠ .obj ∧ k ≠ .arr)) ∧ i + 4 * h < 65535

/-- An indentation the writer may be called with for the members of an object. -/
def AtL (cmp : Bool) (i : Int) (h : Nat) : Prop := if cmp then i = compact else 0 ≤ i ∧ i + 4 * h + 4 < 65535

theorem blanks_append {a b : List Byte} (ha : Blanks a) (hb : Blanks b) : Blanks (a ++ b) := fun c hc => (List.mem_append.1 hc).elim (ha c) (hb c)

theorem inline_append {a b : List Byte} (ha : Inline a) (hb : Inline b) : Inline (a ++ b) := fun c hc => (List.mem_append.1 hc).elim (ha c) (hb c)

theorem Spell.blanks_elems {ν : Type} {io : NumIO ν} {ns : List (Node ν)} {t w : List Byte} (hw : Blanks w) (h : Spell io (.elems ns) t) : Spell io (.elems ns) (w ++ t) := by
  cases h with
  | noElems h => exact .noElems (blanks_append hw h)
  | lastElem h1 h2 h3 =>
    rename_i w0 w' t' st k kids
    have := Spell.lastElem (io := io) (st := st) (blanks_append hw h1) h2 h3
    simp only [List.append_assoc] at this ⊢
    exact this
  | elem h1 h2 h3 h4 =>
    rename_i w0 w' t' u st k kids ns'
    have := Spell.elem (io := io) (st := st) (blanks_append hw h1) h2 h3 h4
    simp only [List.append_assoc] at this ⊢
    exact this

theorem escape_self {E s : List Byte} (sym : List Byte) (h : ∀ c ∈ s, c ∉ E) : escape E sym s = s := by
  have := escape_plain (m := s) sym [] h
  simpa [escape_nil] using this

theorem quoted_ok (pf : FloatPrinter) {q : Byte} (hq : q ≠ 0 ∧ q ≠ 0x25#8) {s : List Byte} (hs : Text s) (hl : s.length + 1 < maxLen) (hn : q ∉ s) {o : Out} (ho : o.Ok) :
    Appends o (q :: s ++ [q]) (do
      let o ← fprintf pf o [q, 0] []
      let o ← printString pf [q, 0] [0x5c#8, 0] o (some (s ++ [0]))
      fprintf pf o [q, 0] []) := by
  have hlit : Literal [q] := by simpa [Literal] using hq
  have h1 : ∀ {o : Out}, o.Ok → Appends o [q] (fprintf pf o [q, 0] []) := fun ho => fprintf_lit pf ho hlit [] [] (by simp [maxLen])
  have hE : Text [q] := by simpa [Text] using hq.1
  have hr : Runs [q] s := by
    intro a m b h _
    have : m.length ≤ s.length := by rw [h]; simp; omega
    omega
  have h2 : ∀ {o : Out}, o.Ok → Appends o s (printString pf [q, 0] [0x5c#8, 0] o (some (s ++ [0]))) := by
    intro o ho
    have := printString_ok pf hE (sym := [0x5c#8]) (by simp [Text]) [] [] (by decide) ho hs hr []
    rw [escape_self] at this
    · exact this
    · intro c hc hm
      rw [List.mem_singleton.1 hm] at hc
      exact hn hc
  have := (h1 ho).bind fun o1 ho1 => (h2 ho1).bind fun o2 ho2 => h1 ho2
  simpa using this

theorem between_of {q : Byte} {s : List Byte} (hs : Text s) (hn : q ∉ s) (hl : s.getLast? ≠ some 0x5c#8) : Between q s :=
  ⟨hs, fun a b h => absurd (by rw [h]; simp) hn, hl⟩

theorem word_literal (c : Const) : Literal (word c) ∧ (word c).length < 10 := by
  cases c <;> simp [word, Literal]

/-- A member, from what `zpl___ind` prints before its name to its value. -/
theorem head_member (pf : FloatPrinter) {ν : Type} {k : Node ν} (h : NameFits Bool.false k) (hw : k.style.assignWidth < 16) {j : Int} (hj : j < 65535) {o : Out} (ho : o.Ok) :
    ∃ name nt w asg w', k.name = some name ∧ NameText k.style.name name nt ∧ Blanks w ∧ asg ∈ [0x3a#8, 0x3d#8, 0x7c#8] ∧ Blanks w' ∧
      Appends o (spaces j ++ (nt ++ (w ++ asg :: w'))) (writeHead pf o k Bool.false j) := by
  obtain ⟨name, nt, h1, h2, h3⟩ := h
  obtain ⟨o1, e1, g1, g2⟩ := ind_ok pf ho hj
  obtain ⟨o2, e2, g3, g4⟩ := writeName_ok pf g1 h2 h3
  obtain ⟨w, asg, w', k1, k2, k3, o3, e3, g5, g6⟩ := writeAssign_ok pf g3 k.style hw j
  refine ⟨name, nt, w, asg, w', h1, h2, k1, k2, k3, o3, ?_, g5, ?_⟩
  · rw [writeHead, e1, except_ok_bind, if_neg (by simp), h1, e2, except_ok_bind, e3]
  · rw [g6, g4, g2]; simp

mutual
theorem body_ok {ν : Type} {io : NumIO ν} {cmp : Bool} (pf : FloatPrinter) : (n : Node ν) → n.Document io cmp → (i : Int) → At cmp i n.kind n.height → (o : Out) → o.Ok →
    ∃ w t, Appends o (w ++ t) (writeBody io pf n o i) ∧ Blanks w ∧ Spell io (.value n.kind n.kids) t
  | .mk name st kind kids, hd, i, hi, o, ho => by
    rw [Node.Document.eq_def] at hd
    obtain ⟨hcfg, hcmp, hdw, haw, hk⟩ := hd
    rw [writeBody.eq_def]
    simp only [Node.kind, Node.kids, Node.height] at hi ⊢
    cases kind with
    | unset => exact absurd hk id
    | str multi s =>
      obtain ⟨rfl, h1, h2, h3, h4⟩ := hk
      cases multi with
      | false =>
        refine ⟨[], _, quoted_ok pf (q := 0x22#8) (by decide) h1 h2 h3 ho, by simp [Blanks], ?_⟩
        exact Spell.str (q := 0x22#8) (by simp) (between_of h1 h3 h4)
      | true =>
        refine ⟨[], _, quoted_ok pf (q := 0x60#8) (by decide) h1 h2 h3 ho, by simp [Blanks], ?_⟩
        exact Spell.str (q := 0x60#8) (by simp) (between_of h1 h3 h4)
    | const c =>
      dsimp only at hk
      subst hk
      exact ⟨[], word c, fprintf_lit pf ho (word_literal c).1 [] [] (by have := (word_literal c).2; have : maxLen = 65536 := rfl; omega), by simp [Blanks], .const c⟩
    | num v =>
      obtain ⟨rfl, t, h1, h2⟩ := hk
      exact ⟨[], t, h2 o ho, by simp [Blanks], .num h1⟩
    | arr =>
      have hil : if cmp then i = compact else i ≠ compact ∧ 4 * (heightL kids : Int) + 4 < 65535 := by
        unfold At at hi
        cases cmp with
        | true => simpa using hi
        | false =>
          simp only [Bool.false_eq_true, if_false] at hi ⊢
          refine ⟨by unfold compact; omega, by omega⟩
      obtain ⟨o1, e1, g1, g2⟩ := fprintf_lit pf ho (s := [0x5b#8]) (by simp [Literal]) [] [] (by decide)
      obtain ⟨T, ⟨o2, e2, g3, g4⟩, hT⟩ := elements_ok pf kids hk i hil o1 g1
      obtain ⟨o3, e3, g5, g6⟩ := fprintf_lit pf g3 (s := [0x5d#8]) (by simp [Literal]) [] [] (by decide)
      refine ⟨[], 0x5b#8 :: T ++ [0x5d#8], ⟨o3, ?_, g5, ?_⟩, by simp [Blanks], .arr hT⟩
      · dsimp only
        rw [show [0x5b#8, 0] = [0x5b#8] ++ 0 :: [] from rfl, e1, except_ok_bind, e2, except_ok_bind, show [0x5d#8, 0] = [0x5d#8] ++ 0 :: [] from rfl, e3]
      · rw [g6, g4, g2]; simp
    | obj =>
      have hil : AtL cmp i (heightL kids) := by
        unfold At at hi
        unfold AtL
        cases cmp with
        | true => simpa using hi
        | false =>
          simp only [Bool.false_eq_true, if_false] at hi ⊢
          omega
      have hi' : i < 65535 := by
        unfold AtL at hil
        cases cmp with
        | true => simp at hil; rw [hil]; decide
        | false => simp at hil; omega
      obtain ⟨o1, w, w', e1, g1, k1, k2, g2⟩ := writeOpen_ok pf ho (c := 0x7b#32) (by decide) hcfg hi'
      obtain ⟨T, ⟨o2, e2, g3, g4⟩, hT⟩ := kids_ok pf kids hk i hil o1 g1
      obtain ⟨x, k3, o3, e3, g5, g6⟩ := writeClose_ok pf g3 (c := 0x7d#32) (by decide) hcfg hi'
      obtain ⟨w2, t, h1, h2, h3⟩ := hT x k3
      have he : (if i > 0 then [] else eolText st.delim i) = [] := by
        unfold At at hi
        cases cmp with
        | true =>
          rw [if_neg, eolText, if_pos]
          · exact ⟨hcmp rfl, by simpa using hi⟩
          · simp at hi; rw [hi]; decide
        | false =>
          simp at hi
          rw [if_pos]
          omega
      rw [he] at g6
      refine ⟨w, 0x7b#8 :: (w' ++ w2) ++ t ++ [0x7d#8], ⟨o3, ?_, g5, ?_⟩, k1, .obj (blanks_append k2 h2) h3⟩
      · dsimp only
        rw [e1, except_ok_bind]
        dsimp only
        rw [e2, except_ok_bind, e3]
      · rw [g6, g4, g2]
        have : T ++ (x ++ [0x7d#8]) = w2 ++ (t ++ [0x7d#8]) := by rw [← List.append_assoc, h1, List.append_assoc]
        simp only [List.append_assoc, List.cons_append] at this ⊢
        rw [show BitVec.truncate 8 0x7d#32 = 0x7d#8 from rfl, this]
        rfl

theorem elements_ok {ν : Type} {io : NumIO ν} {cmp : Bool} (pf : FloatPrinter) : (ks : List (Node ν)) → DocumentL io cmp Bool.true ks → (i : Int) →
    (if cmp then i = compact else i ≠ compact ∧ 4 * (heightL ks : Int) + 4 < 65535) → (o : Out) → o.Ok →
    ∃ T, Appends o T (writeElements io pf ks o i) ∧ Spell io (.elems ks) T
  | [], _, i, _, o, ho => ⟨[], by rw [writeElements]; exact Appends.pure ho, .noElems (by simp [Blanks])⟩
  | k :: ks, hd, i, hi, o, ho => by
    rw [DocumentL] at hd
    obtain ⟨hn, hk, hks⟩ := hd
    rw [heightL] at hi
    have hia : At cmp (deeper (elemIndent k.kind i)) k.kind k.height := by
      unfold At
      cases cmp with
      | true =>
        rw [if_pos rfl] at hi ⊢
        rw [elemIndent.eq_def, if_pos hi, hi]
        decide
      | false =>
        simp only [Bool.false_eq_true, if_false] at hi ⊢
        rw [elemIndent.eq_def, if_neg hi.1]
        obtain ⟨h0, h1⟩ := hi
        have hc0 : deeper 0 = 4 := by decide
        have hc4 : deeper (-4) = 0 := by decide
        cases k.kind with
        | obj => dsimp only; rw [hc0]; exact ⟨.inl (by decide), by omega⟩
        | arr => dsimp only; rw [hc0]; exact ⟨.inl (by decide), by omega⟩
        | _ => dsimp only; rw [hc4]; exact ⟨.inr ⟨by decide, by simp, by simp⟩, by omega⟩
    have hil : if cmp then i = compact else i ≠ compact ∧ 4 * (heightL ks : Int) + 4 < 65535 := by
      cases cmp with
      | true => rw [if_pos rfl] at hi ⊢; exact hi
      | false =>
        simp only [Bool.false_eq_true, if_false] at hi ⊢
        exact ⟨hi.1, by omega⟩
    obtain ⟨w, t, ⟨o1, e1, g1, g2⟩, h1, h2⟩ := body_ok pf k hk _ hia o ho
    obtain ⟨name, st, kind, kids⟩ := k
    have hname : name = none := by
      simp only [NameFits, if_true, Node.name] at hn
      exact hn.1
    subst hname
    rw [writeElements, writeAround]
    rw [unlessInline, if_pos rfl, except_ok_bind, e1, except_ok_bind, unlessInline, if_pos rfl, except_ok_bind]
    cases ks with
    | nil =>
      rw [comma, List.isEmpty_nil, if_pos rfl, except_ok_bind, writeElements]
      refine ⟨w ++ t ++ [], ⟨o1, rfl, g1, by rw [g2, List.append_nil]⟩, .lastElem h1 (by simp [Blanks]) h2⟩
    | cons k2 ks =>
      obtain ⟨o2, e2, g3, g4⟩ := fprintf_lit pf g1 (s := [0x2c#8, 0x20#8]) (by simp [Literal]) [] [] (by decide)
      obtain ⟨T, ⟨o3, e3, g5, g6⟩, hT⟩ := elements_ok pf (k2 :: ks) hks i hil o2 g3
      rw [comma, List.isEmpty_cons, if_neg (by simp), show [0x2c#8, 0x20#8, 0] = [0x2c#8, 0x20#8] ++ 0 :: [] from rfl, e2, except_ok_bind, e3]
      refine ⟨w ++ t ++ [] ++ 0x2c#8 :: ([0x20#8] ++ T), ⟨o3, rfl, g5, by rw [g6, g4, g2]; simp⟩, .elem h1 (by simp [Blanks]) h2 (hT.blanks_elems ?_)⟩
      intro c hc
      rw [List.mem_singleton.1 hc]
      unfold Blank; decide

theorem kids_ok {ν : Type} {io : NumIO ν} {cmp : Bool} (pf : FloatPrinter) : (ks : List (Node ν)) → DocumentL io cmp Bool.false ks → (i : Int) → AtL cmp i (heightL ks) → (o : Out) → o.Ok →
    ∃ T, Appends o T (writeKids io pf ks o Bool.false i) ∧ ∀ x, Inline x → ∃ w t, T ++ x = w ++ t ∧ Blanks w ∧ Spell io (.members ks) t
  | [], _, i, _, o, ho => ⟨[], by rw [writeKids]; exact Appends.pure ho, fun x hx => ⟨x, [], by simp, hx.blanks, .noMembers⟩⟩
  | k :: ks, hd, i, hi, o, ho => by
    rw [DocumentL] at hd
    obtain ⟨hn, hk, hks⟩ := hd
    rw [heightL] at hi
    have hj : deeper i < 65535 := by
      unfold AtL at hi
      unfold deeper
      cases cmp with
      | true => simp at hi; rw [hi]; decide
      | false =>
        simp only [Bool.false_eq_true, if_false] at hi
        split <;> omega
    have hia : At cmp (deeper i) k.kind k.height := by
      unfold AtL at hi
      unfold At deeper
      cases cmp with
      | true => simp at hi; rw [hi, if_pos rfl]; decide
      | false =>
        simp only [Bool.false_eq_true, if_false] at hi ⊢
        rw [if_pos (by unfold compact; omega)]
        exact ⟨.inl (by omega), by omega⟩
    have hil : AtL cmp i (heightL ks) := by
      unfold AtL at hi ⊢
      cases cmp with
      | true => exact hi
      | false =>
        simp only [Bool.false_eq_true, if_false] at hi ⊢
        omega
    have hsty : k.style.delimWidth < 16 ∧ k.style.assignWidth < 16 := by
      cases k with
      | mk a b c d =>
        rw [Node.Document.eq_def] at hk
        exact ⟨hk.2.2.1, hk.2.2.2.1⟩
    obtain ⟨name, nt, w1, asg, w2, hname, hnt, hw1, hasg, hw2, o1, e1, g1, g2⟩ := head_member pf hn hsty.2 hj ho
    obtain ⟨w3, t, ⟨o2, e2, g3, g4⟩, hw3, ht⟩ := body_ok pf k hk _ hia o1 g1
    obtain ⟨s, ⟨o3, e3, g5, g6⟩, hs⟩ := writeDelim_ok pf g3 k.style hsty.1 (deeper i) ks.isEmpty
    obtain ⟨T, ⟨o4, e4, g7, g8⟩, hT⟩ := kids_ok pf ks hks i hil o3 g5
    refine ⟨spaces (deeper i) ++ (nt ++ (w1 ++ asg :: w2)) ++ (w3 ++ t) ++ s ++ T, ⟨o4, ?_, g7, by rw [g8, g6, g4, g2]; simp⟩, ?_⟩
    · rw [writeKids, writeAround]
      rw [unlessInline, if_neg (by simp), e1, except_ok_bind, e2, except_ok_bind, unlessInline, if_neg (by simp), e3, except_ok_bind, e4]
    · intro x hx
      obtain ⟨w4, u, h1, h2, h3⟩ := hT x hx
      obtain ⟨name', st, kind, kids⟩ := k
      simp only [Node.name] at hname
      subst hname
      rcases hs with ⟨a, d, b, rfl, ha, hd, hb, -⟩ | ⟨rfl, hl⟩
      · refine ⟨spaces (deeper i), nt ++ w1 ++ asg :: (w2 ++ w3) ++ t ++ a ++ d :: (b ++ w4) ++ u, ?_, (spaces_inline _).blanks,
          .member hnt hw1 hasg (blanks_append hw2 hw3) ht ha hd (blanks_append hb h2) h3⟩
        simp only [List.append_assoc, List.cons_append, h1]
      · have hks0 : ks = [] := by cases ks <;> simp at hl ⊢
        subst hks0
        rw [writeKids] at e4
        have hT0 : T = [] := by
          injection e4 with e4
          rw [e4] at g8
          simpa using g8
        subst hT0
        refine ⟨spaces (deeper i), nt ++ w1 ++ asg :: (w2 ++ w3) ++ t ++ x, ?_, (spaces_inline _).blanks, .lastMember hnt hw1 hasg (blanks_append hw2 hw3) ht hx⟩
        simp only [List.append_assoc, List.cons_append, List.append_nil, List.nil_append]
end

/-- The elements of a root array. -/
theorem rootElems_ok {ν : Type} {io : NumIO ν} {cmp : Bool} (pf : FloatPrinter) (ks : List (Node ν)) (hd : DocumentL io cmp Bool.true ks) (i : Int) (hi : AtL cmp i (heightL ks)) (o : Out) (ho : o.Ok) :
    ∃ T, Appends o T (writeKids io pf ks o Bool.true i) ∧ ∀ x, Inline x → Spell io (.elems ks) (T ++ x) := by
  induction ks generalizing o with
  | nil => exact ⟨[], by rw [writeKids]; exact Appends.pure ho, fun x hx => .noElems hx.blanks⟩
  | cons k ks ih =>
    rw [DocumentL] at hd
    obtain ⟨hn, hk, hks⟩ := hd
    rw [heightL] at hi
    have hj : deeper i < 65535 := by
      unfold AtL at hi
      unfold deeper
      cases cmp with
      | true => simp at hi; rw [hi]; decide
      | false =>
        simp only [Bool.false_eq_true, if_false] at hi
        split <;> omega
    have hia : At cmp (deeper i) k.kind k.height := by
      unfold AtL at hi
      unfold At deeper
      cases cmp with
      | true => simp at hi; rw [hi, if_pos rfl]; decide
      | false =>
        simp only [Bool.false_eq_true, if_false] at hi ⊢
        rw [if_pos (by unfold compact; omega)]
        exact ⟨.inl (by omega), by omega⟩
    have hil : AtL cmp i (heightL ks) := by
      unfold AtL at hi ⊢
      cases cmp with
      | true => exact hi
      | false =>
        simp only [Bool.false_eq_true, if_false] at hi ⊢
        omega
    have hsty : k.style.delimWidth < 16 := by
      cases k with
      | mk a b c d =>
        rw [Node.Document.eq_def] at hk
        exact hk.2.2.1
    obtain ⟨o1, e1, g1, g2⟩ := ind_ok pf ho hj
    obtain ⟨w3, t, ⟨o2, e2, g3, g4⟩, hw3, ht⟩ := body_ok pf k hk _ hia o1 g1
    obtain ⟨s, ⟨o3, e3, g5, g6⟩, hs⟩ := writeDelim_ok pf g3 k.style hsty (deeper i) ks.isEmpty
    obtain ⟨T, ⟨o4, e4, g7, g8⟩, hT⟩ := ih hks hil o3 g5
    have e1' : writeHead pf o k Bool.true (deeper i) = .ok o1 := by rw [writeHead, e1, except_ok_bind, if_pos rfl]
    refine ⟨spaces (deeper i) ++ (w3 ++ t) ++ s ++ T, ⟨o4, ?_, g7, by rw [g8, g6, g4, g2]; simp⟩, ?_⟩
    · rw [writeKids, writeAround]
      rw [unlessInline, if_neg (by simp), e1', except_ok_bind, e2, except_ok_bind, unlessInline, if_neg (by simp), e3, except_ok_bind, e4]
    · intro x hx
      obtain ⟨name', st, kind, kids⟩ := k
      obtain ⟨hname, hdelim⟩ : name' = none ∧ st.delim = .comma := by simpa [NameFits, Node.name, Node.style] using hn
      subst hname
      have hlast : ks.isEmpty = Bool.true → T = [] := by
        intro hl
        have : ks = [] := by simpa using hl
        subst this
        rw [writeKids] at e4
        injection e4 with e4
        rw [e4] at g8
        simpa using g8
      rcases hs with ⟨a, d, b, rfl, ha, hd, hb, hcomma⟩ | ⟨rfl, hl⟩
      · obtain ⟨rfl, h1, h2⟩ := hcomma hdelim
        cases hl : ks.isEmpty with
        | false =>
          have hd' := h1 hl
          subst hd'
          have := Spell.elem (io := io) (st := st) (blanks_append (spaces_inline (deeper i)).blanks hw3) (w' := []) (by simp [Blanks]) ht ((hT x hx).blanks_elems hb)
          simp only [List.append_assoc, List.nil_append, List.cons_append] at this ⊢
          exact this
        | true =>
          have hd' := h2 hl
          have hT0 := hlast hl
          have hks0 : ks = [] := by simpa using hl
          subst hd' hT0 hks0
          have hnl : Blank 0x0a#8 := by unfold Blank; decide
          have := Spell.lastElem (io := io) (st := st) (blanks_append (spaces_inline (deeper i)).blanks hw3) (w' := 0x0a#8 :: b ++ x)
            (blanks_append (fun c hc => (List.mem_cons.1 hc).elim (fun h => h ▸ hnl) (hb c)) hx.blanks) ht
          simp only [List.append_assoc, List.nil_append, List.cons_append, List.append_nil] at this ⊢
          exact this
      · have hT0 := hlast hl
        have hks0 : ks = [] := by simpa using hl
        subst hT0 hks0
        have := Spell.lastElem (io := io) (st := st) (blanks_append (spaces_inline (deeper i)).blanks hw3) (w' := x) hx.blanks ht
        simp only [List.append_assoc, List.append_nil] at this ⊢
        exact this

/-- A root is written as a value with blanks before it and after it. -/
theorem write_ok {ν : Type} {io : NumIO ν} {cmp : Bool} (pf : FloatPrinter) {n : Node ν} (hd : n.Document io cmp) (hk : n.kind = .obj ∨ n.kind = .arr) {i : Int}
    (hi : if cmp then i = compact else 0 ≤ i ∧ i + 4 * n.height < 65535) {o : Out} (ho : o.Ok) :
    ∃ w t w', Appends o (w ++ t ++ w') (write io pf o n i) ∧ Inline w ∧ Blanks w' ∧ Spell io (.value n.kind n.kids) t := by
  obtain ⟨name, st, kind, kids⟩ := n
  rw [Node.Document.eq_def] at hd
  obtain ⟨hcfg, hcmp, hdw, haw, hd⟩ := hd
  simp only [Node.kind, Node.kids, Node.height] at hk hi ⊢
  have hil : AtL cmp i (heightL kids) := by
    unfold AtL
    cases cmp with
    | true => simpa using hi
    | false =>
      simp only [Bool.false_eq_true, if_false] at hi ⊢
      omega
  have hi' : i < 65535 := by
    unfold AtL at hil
    cases cmp with
    | true => simp at hil; rw [hil]; decide
    | false => simp at hil; omega
  have htail : Blanks (if i > 0 then [] else eolText st.delim i) := by
    split
    · simp [Blanks]
    · exact eolText_blanks _ _
  have hop : ∀ c : BitVec 32, c.truncate 8 ≠ 0 → ∃ o' w', writeOpen pf o c st i = .ok (o', i) ∧ o'.Ok ∧ Blanks w' ∧ o'.out = o.out ++ (spaces (i - 4) ++ c.truncate 8 :: w') := by
    intro c hc
    obtain ⟨o1, e1, h1, h2⟩ := ind_ok pf ho (x := i - 4) (by omega)
    have hsp := eolText_text st.delim i
    obtain ⟨o2, e2, h3, h4⟩ := fprintf_cs pf h1 hsp.1 [] hc [] (by have : maxLen = 65536 := rfl; omega)
    refine ⟨o2, eolText st.delim i, ?_, h3, eolText_blanks _ _, by rw [h4, h2, List.append_assoc]⟩
    rw [writeOpen, e1, except_ok_bind, hcfg, if_neg (by simp), eol_eq, e2, except_ok_bind]
  rcases hk with rfl | rfl
  · obtain ⟨o1, w', e1, g1, k2, g2⟩ := hop 0x7b#32 (by decide)
    obtain ⟨T, ⟨o2, e2, g3, g4⟩, hT⟩ := kids_ok pf kids hd i hil o1 g1
    obtain ⟨x, k3, o3, e3, g5, g6⟩ := writeClose_ok pf g3 (c := 0x7d#32) (by decide) hcfg hi'
    obtain ⟨w2, t, h1, h2, h3⟩ := hT x k3
    refine ⟨spaces (i - 4), 0x7b#8 :: (w' ++ w2) ++ t ++ [0x7d#8], _, ⟨o3, ?_, g5, ?_⟩, spaces_inline _, htail, .obj (blanks_append k2 h2) h3⟩
    · rw [write, e1, except_ok_bind]
      dsimp only
      rw [e2, except_ok_bind, e3]
    · rw [g6, g4, g2]
      have : ∀ z, T ++ (x ++ 0x7d#8 :: z) = w2 ++ (t ++ 0x7d#8 :: z) := by intro z; rw [← List.append_assoc, h1, List.append_assoc]
      simp only [List.append_assoc, List.cons_append, List.nil_append] at this ⊢
      rw [show BitVec.truncate 8 0x7d#32 = 0x7d#8 from rfl, this]
      rfl
  · obtain ⟨o1, w', e1, g1, k2, g2⟩ := hop 0x5b#32 (by decide)
    obtain ⟨T, ⟨o2, e2, g3, g4⟩, hT⟩ := rootElems_ok pf kids hd i hil o1 g1
    obtain ⟨x, k3, o3, e3, g5, g6⟩ := writeClose_ok pf g3 (c := 0x5d#32) (by decide) hcfg hi'
    refine ⟨spaces (i - 4), 0x5b#8 :: (w' ++ (T ++ x)) ++ [0x5d#8], _, ⟨o3, ?_, g5, ?_⟩, spaces_inline _, htail, .arr ((hT x k3).blanks_elems k2)⟩
    · rw [write, e1, except_ok_bind]
      dsimp only
      rw [e2, except_ok_bind, e3]
    · rw [g6, g4, g2]
      simp only [List.append_assoc, List.cons_append, List.nil_append]
      rfl

/-- The first call of `zpl__json_trim`. -/
theorem trim_first {w : List Byte} (hw : Blanks w) {c : Byte} (hc : Stop Bool.false c) (u : List Byte) :
    ∃ w2, Blanks w2 ∧ (Inline w → w2 = []) ∧ trimText Bool.true (w ++ c :: u) = .ok (w2 ++ c :: u) := by
  have hc' : Stop Bool.true c := by
    refine ⟨hc.1, .inl ?_⟩
    rcases hc.2 with h | h
    · exact h
    · exact absurd h.2 (by simp)
  have : ∀ a : List Byte, Inline a → ∀ b, Blanks b → ∃ w2, Blanks w2 ∧ (Inline (a ++ b) → w2 = []) ∧ trimText Bool.true (a ++ b ++ c :: u) = .ok (w2 ++ c :: u) := by
    intro a ha b
    induction b generalizing a with
    | nil =>
      intro _
      exact ⟨[], by simp [Blanks], fun _ => rfl, by rw [List.append_nil]; exact trim_inline ha hc' u⟩
    | cons x b ih =>
      intro hb
      by_cases hx : x = 0x0a#8
      · refine ⟨x :: b, hb, fun h => absurd hx (h x (by simp)).2, ?_⟩
        rw [List.append_assoc, List.cons_append]
        exact trim_inline ha ⟨(blank_ne (hb x (by simp))).1, .inr ⟨hx, rfl⟩⟩ _
      · have := ih (a ++ [x]) (inline_append ha (fun y hy => by rw [List.mem_singleton.1 hy]; exact ⟨hb x (by simp), hx⟩)) (fun y hy => hb y (by simp [hy]))
        simpa using this
  exact this [] (by simp [Inline]) w hw

/-- Parsing a text: white space, a value that is an object or an array, and anything after it. -/
theorem parse_ok {ν : Type} {io : NumIO ν} {k : Kind ν} (hk : k = .obj ∨ k = .arr) {kids : List (Node ν)} {w t : List Byte} (hw : Blanks w) (ht : Spell io (.value k kids) t) (rest : List Byte) :
    ∃ cfg ks, parse io (w ++ t ++ rest) = .ok (.ok (.mk none { cfg := cfg } k ks)) ∧ plainL ks = plainL kids ∧ (Inline w → cfg = Bool.false) := by
  have h1 : strchr [0x7b#8, 0x5b#8, 0] 0x7b#8 = .ok Bool.true := by decide
  have h2 : strchr [0x7b#8, 0x5b#8, 0] 0x5b#8 = .ok Bool.true := by decide
  have h3 : ∀ c, ∃ b, strchr [0x7b#8, 0x5b#8, 0] c = .ok b := by
    intro c
    obtain ⟨r, e, -⟩ := firstOcc_ok (s := [0x7b#8, 0x5b#8]) (by simp [Text]) [] c
    exact ⟨r.isSome, by rw [strchr, show [0x7b#8, 0x5b#8, 0] = [0x7b#8, 0x5b#8] ++ 0 :: [] from rfl, e]; rfl⟩
  cases ht with
  | @obj ns w' t hw' hs =>
    have hst : Stop Bool.false 0x7b#8 := ⟨by decide, .inl (by unfold Blank; decide)⟩
    have e0 : w ++ (0x7b#8 :: w' ++ t ++ [0x7d#8]) ++ rest = w ++ 0x7b#8 :: (w' ++ t ++ 0x7d#8 :: rest) := by simp
    obtain ⟨w2, hw2, hin, e1⟩ := trim_first hw hst (w' ++ t ++ 0x7d#8 :: rest)
    obtain ⟨ks, e, hks⟩ := reads hs w' 0x7d#8 rest (4 * (w ++ 0x7b#8 :: (w' ++ t ++ 0x7d#8 :: rest)).length + 3) [] hw' (.inl rfl) (by simp; omega)
    obtain ⟨c, v, hcv⟩ : ∃ c v, w2 ++ 0x7b#8 :: (w' ++ t ++ 0x7d#8 :: rest) = c :: v := by cases w2 <;> exact ⟨_, _, rfl⟩
    obtain ⟨b, hb⟩ := h3 c
    refine ⟨!b, ks, ?_, hks, ?_⟩
    · rw [e0, parse, e1, except_ok_bind, hcv, rd_cons, except_ok_bind, hb, except_ok_bind, parseObject, ← hcv, trim_blanks hw2 hst, except_ok_bind, rd_cons, except_ok_bind, if_pos rfl, drop_one, e,
        except_ok_bind]
      rfl
    · intro h
      rw [hin h] at hcv
      cases hcv
      rw [h1] at hb
      injection hb with hb
      rw [← hb]
      rfl
  | @arr ns t hs =>
    have hst : Stop Bool.false 0x5b#8 := ⟨by decide, .inl (by unfold Blank; decide)⟩
    have e0 : w ++ (0x5b#8 :: t ++ [0x5d#8]) ++ rest = w ++ 0x5b#8 :: (t ++ 0x5d#8 :: rest) := by simp
    obtain ⟨w2, hw2, hin, e1⟩ := trim_first hw hst (t ++ 0x5d#8 :: rest)
    obtain ⟨ks, e, hks⟩ := reads hs rest (4 * (w ++ 0x5b#8 :: (t ++ 0x5d#8 :: rest)).length + 3) [] (by simp; omega)
    obtain ⟨c, v, hcv⟩ : ∃ c v, w2 ++ 0x5b#8 :: (t ++ 0x5d#8 :: rest) = c :: v := by cases w2 <;> exact ⟨_, _, rfl⟩
    obtain ⟨b, hb⟩ := h3 c
    refine ⟨!b, ks, ?_, hks, ?_⟩
    · rw [e0, parse, e1, except_ok_bind, hcv, rd_cons, except_ok_bind, hb, except_ok_bind, parseObject, ← hcv, trim_blanks hw2 hst, except_ok_bind, rd_cons, except_ok_bind, if_neg (by decide), if_pos rfl,
        drop_one, e, except_ok_bind]
      rfl
    · intro h
      rw [hin h] at hcv
      cases hcv
      rw [h2] at hb
      injection hb with hb
      rw [← hb]
      rfl
  | str => rcases hk with h | h <;> cases h
  | const => rcases hk with h | h <;> cases h
  | num => rcases hk with h | h <;> cases h

/-! ## Properties -/

/-- **C49.** What `zpl_json_write` writes for a document, at any indentation from 0 on (`cmp` is false) or in the compact style (`cmp` is true), is read back by `zpl_json_parse` as the same
    document, up to the fields that describe its layout.  What is missing: strings that hold the quote they are written in or end with a backslash, and names with a quote or a stray backslash
    (see the theorems below). -/
theorem C49_round_trip_partial {ν : Type} {io : NumIO ν} {cmp : Bool} (pf : FloatPrinter) {st : Style} {kind : Kind ν} {kids : List (Node ν)}
    (hd : (Node.mk none st kind kids).Document io cmp) (hk : kind = .obj ∨ kind = .arr) {indent : Int}
    (hi : if cmp then indent = compact else 0 ≤ indent ∧ indent + 4 * (Node.mk none st kind kids).height < 65535) {o : Out} (ho : o.Ok) :
    ∃ o' text, write io pf o (.mk none st kind kids) indent = .ok o' ∧ o'.out = o.out ++ text ∧
      ∀ rest, ∃ r, parse io (text ++ 0 :: rest) = .ok (.ok r) ∧ r.plain = (Node.mk none st kind kids).plain := by
  obtain ⟨w, t, w', ⟨o', e, -, h⟩, h1, h2, h3⟩ := write_ok pf hd hk hi ho
  refine ⟨o', w ++ t ++ w', e, h, fun rest => ?_⟩
  obtain ⟨cfg, ks, e2, h4, -⟩ := parse_ok hk h1.blanks h3 (w' ++ 0 :: rest)
  refine ⟨_, by rw [List.append_assoc]; exact e2, ?_⟩
  rw [Node.plain, Node.plain, h4]
  rfl

/-- **C77.** Any text of an object or an array in the sense of `Spell`, after white space and before anything at all, is read as the object or array it denotes. -/
theorem C77_layout_partial {ν : Type} {io : NumIO ν} {kind : Kind ν} (hk : kind = .obj ∨ kind = .arr) {kids : List (Node ν)} {w text : List Byte} (hw : Blanks w)
    (ht : Spell io (.value kind kids) text) (rest : List Byte) :
    ∃ r, parse io (w ++ text ++ rest) = .ok (.ok r) ∧ r.plain = .mk none {} kind (plainL kids) := by
  obtain ⟨cfg, ks, e, h, -⟩ := parse_ok hk hw ht rest
  exact ⟨_, e, by rw [Node.plain, h]⟩

/-- Members without an opening brace. -/
theorem config_ok {ν : Type} {io : NumIO ν} {kids : List (Node ν)} (hne : kids ≠ []) {w text : List Byte} (hw : Blanks w) (ht : Spell io (.members kids) text) {f : Byte} (hf : f = 0x7d#8 ∨ f = 0) (rest : List Byte) :
    ∃ r, parse io (w ++ text ++ f :: rest) = .ok (.ok r) ∧ r.plain = .mk none {} .obj (plainL kids) ∧ r.style.cfg = Bool.true := by
  obtain ⟨c, u, rfl, hc⟩ : ∃ c u, text = c :: u ∧ Stop Bool.false c ∧ c ≠ 0x7b#8 ∧ c ≠ 0x5b#8 ∧ c ≠ 0 := by
    have key : ∀ {ns : NameStyle} {name nt : List Byte}, NameText ns name nt → ∃ c u, nt = c :: u ∧ Stop Bool.false c ∧ c ≠ 0x7b#8 ∧ c ≠ 0x5b#8 ∧ c ≠ 0 := by
      intro ns name nt h
      obtain ⟨c, u, h1, h2, h3⟩ := name_begins h
      have h4 : c = 0x22#8 ∨ c = 0x27#8 ∨ Chars.isAlpha c = Bool.true ∨ c = 0x5f#8 ∨ c = 0x24#8 := by
        cases h with
        | double _ _ => cases h1; simp
        | single _ _ _ => cases h1; simp
        | bare h _ => cases h1; exact .inr (.inr h)
      have : ∀ c : Byte, (c = 0x22#8 ∨ c = 0x27#8 ∨ Chars.isAlpha c = Bool.true ∨ c = 0x5f#8 ∨ c = 0x24#8) → c ≠ 0x7b#8 ∧ c ≠ 0x5b#8 ∧ c ≠ 0 := by decide +kernel
      exact ⟨c, u, h1, h2, this c h4⟩
    cases ht with
    | noMembers => exact absurd rfl hne
    | lastMember hn => obtain ⟨c, u, rfl, h⟩ := key hn; exact ⟨_, _, rfl, h⟩
    | member hn => obtain ⟨c, u, rfl, h⟩ := key hn; exact ⟨_, _, rfl, h⟩
  obtain ⟨hst, n1, n2, n3⟩ := hc
  obtain ⟨w2, hw2, -, e1⟩ := trim_first hw hst (u ++ f :: rest)
  obtain ⟨ks, e, hks⟩ := reads ht [] f rest (4 * (w ++ c :: (u ++ f :: rest)).length + 3) [] (by simp [Blanks]) (hf.imp id fun h => ⟨h, hne⟩) (by simp; omega)
  obtain ⟨d, v, hdv, hd⟩ : ∃ d v, w2 ++ c :: (u ++ f :: rest) = d :: v ∧ strchr [0x7b#8, 0x5b#8, 0] d = .ok Bool.false := by
    have : ∀ d : Byte, d ≠ 0x7b#8 → d ≠ 0x5b#8 → d ≠ 0 → strchr [0x7b#8, 0x5b#8, 0] d = .ok Bool.false := by decide +kernel
    cases w2 with
    | nil => exact ⟨c, _, rfl, this c n1 n2 n3⟩
    | cons x w2 =>
      have hb : ∀ x : Byte, isSpace x = Bool.true → x ≠ 0x7b#8 ∧ x ≠ 0x5b#8 ∧ x ≠ 0 := by decide +kernel
      obtain ⟨a1, a2, a3⟩ := hb x ((isSpace_iff x).2 (hw2 x (by simp)))
      exact ⟨x, _, rfl, this x a1 a2 a3⟩
  have e0 : w ++ c :: u ++ f :: rest = w ++ c :: (u ++ f :: rest) := by simp
  refine ⟨.mk none { cfg := Bool.true } .obj ks, ?_, by rw [Node.plain, hks], rfl⟩
  rw [List.nil_append] at e
  have e2 : c :: (u ++ f :: rest) = c :: u ++ f :: rest := rfl
  rw [← e2] at e
  rw [e0, parse, e1, except_ok_bind, hdv, rd_cons, except_ok_bind, hd, except_ok_bind, parseObject, ← hdv, trim_blanks hw2 hst, except_ok_bind, rd_cons, except_ok_bind, if_neg n1, if_neg n2, e,
    except_ok_bind]
  rfl

/-- **C77.** The same for the members of an object without its braces, up to the end of the text; the root is marked as being in configuration mode. -/
theorem C77_config_partial {ν : Type} {io : NumIO ν} {kids : List (Node ν)} (hne : kids ≠ []) {w text : List Byte} (hw : Blanks w) (ht : Spell io (.members kids) text) (rest : List Byte) :
    ∃ r, parse io (w ++ text ++ 0 :: rest) = .ok (.ok r) ∧ r.plain = .mk none {} .obj (plainL kids) ∧ r.style.cfg = Bool.true :=
  config_ok hne hw ht (.inr rfl) rest

/-- **C49.** A root in configuration mode, which is written without its braces, when the indentation is at least 4. -/
theorem C49_config_partial {ν : Type} {io : NumIO ν} (pf : FloatPrinter) {st : Style} (hst : st.cfg = Bool.true) {kids : List (Node ν)} (hne : kids ≠ []) (hd : DocumentL io Bool.false Bool.false kids)
    {indent : Int} (h4 : 4 ≤ indent) (hi : indent + 4 * heightL kids < 65535) {o : Out} (ho : o.Ok) :
    ∃ o' text, write io pf o (.mk none st .obj kids) indent = .ok o' ∧ o'.out = o.out ++ text ∧
      ∀ rest, ∃ r, parse io (text ++ 0 :: rest) = .ok (.ok r) ∧ r.plain = (Node.mk none st .obj kids).plain := by
  obtain ⟨o1, e1, g1, g2⟩ := ind_ok pf ho (x := indent - 4) (by omega)
  have e2 : writeOpen pf o 0x7b#32 st indent = .ok (o1, indent - 4) := by rw [writeOpen, e1, except_ok_bind, if_pos hst]
  obtain ⟨T, ⟨o2, e3, g3, g4⟩, hT⟩ := kids_ok (cmp := Bool.false) pf kids hd (indent - 4) (by unfold AtL; simp; omega) o1 g1
  obtain ⟨o3, e4, g5, g6⟩ := ind_ok pf g3 (x := indent - 4) (by omega)
  obtain ⟨w2, t, h1, h2, h3⟩ := hT (spaces (indent - 4)) (spaces_inline _)
  by_cases hz : indent - 4 > 0
  · obtain ⟨o4, e5, g7, g8⟩ := fprintf_c pf g5 (c := 0x7d#32) (by decide) []
    refine ⟨o4, spaces (indent - 4) ++ w2 ++ t ++ [0x7d#8], ?_, ?_, fun rest => ?_⟩
    · rw [write, e2, except_ok_bind]
      dsimp only
      rw [e3, except_ok_bind, writeClose, e4, except_ok_bind, if_pos hz, e5]
    · rw [g8, g6, g4, g2]
      simp only [List.append_assoc] at h1 ⊢
      rw [← List.append_assoc T, h1]
      simp
    · obtain ⟨r, e, h, -⟩ := config_ok hne (blanks_append (spaces_inline (indent - 4)).blanks h2) h3 (.inl rfl) (0 :: rest)
      refine ⟨r, ?_, by rw [h, Node.plain]⟩
      rw [← e]
      simp
  · have hs : spaces (indent - 4) = [] := by rw [show indent - 4 = 0 by omega]; rfl
    rw [hs] at g2 g6 h1
    refine ⟨o3, w2 ++ t, ?_, ?_, fun rest => ?_⟩
    · rw [write, e2, except_ok_bind]
      dsimp only
      rw [e3, except_ok_bind, writeClose, e4, except_ok_bind, if_neg hz, if_pos hst]
    · rw [g6, g4, g2, ← h1]
      simp
    · obtain ⟨r, e, h, -⟩ := config_ok hne h2 h3 (.inr rfl) rest
      exact ⟨r, e, by rw [h, Node.plain]⟩

/-! ## Where the round trip fails -/

/-- The root array `["s"]` is written like this at indentation 0. -/
theorem write_single {ν : Type} (io : NumIO ν) (pf : FloatPrinter) {s : List Byte} (hs : Text s) (hl : s.length + 1 < maxLen) {o : Out} (ho : o.Ok) :
    Appends o ([0x5b#8, 0x0a#8, 0x20#8, 0x20#8, 0x20#8, 0x20#8, 0x22#8] ++ escape [0x22#8] [0x5c#8] s ++ [0x22#8, 0x0a#8, 0x5d#8, 0x0a#8])
      (write io pf o (.mk none {} .arr [.mk none {} (.str Bool.false s) []]) 0) := by
  have hr : Runs [0x22#8] s := by
    intro a m b h _
    have : m.length ≤ s.length := by rw [h]; simp; omega
    omega
  have hlit : Literal [0x22#8] := by simp [Literal]
  have h1 : ∀ {o : Out}, o.Ok → Appends o [0x22#8] (fprintf pf o [0x22#8, 0] []) := fun ho => fprintf_lit pf ho hlit [] [] (by simp [maxLen])
  have hnl : Text [0x0a#8] := by simp [Text]
  obtain ⟨o1, e1, g1, k1⟩ := fprintf_cs pf ho hnl [] (c := 0x5b#32) (by decide) [] (by simp [maxLen])
  obtain ⟨o2, e2, g2, k2⟩ := ind_ok pf g1 (x := 4) (by decide)
  obtain ⟨o3, e3, g3, k3⟩ := h1 g2
  obtain ⟨o4, e4, g4, k4⟩ := printString_ok pf (E := [0x22#8]) (by simp [Text]) (sym := [0x5c#8]) (by simp [Text]) [] [] (by decide) g3 hs hr []
  obtain ⟨o5, e5, g5, k5⟩ := h1 g4
  obtain ⟨o6, e6, g6, k6⟩ := fprintf_s pf g5 hnl [] [] (by simp [maxLen])
  obtain ⟨o7, e7, g7, k7⟩ := fprintf_cs pf g6 hnl [] (c := 0x5d#32) (by decide) [] (by simp [maxLen])
  refine ⟨o7, ?_, g7, ?_⟩
  · have hw : writeOpen pf o 0x5b#32 {} 0 = .ok (o1, 0) := by
      rw [writeOpen, ind, if_neg (by decide), except_ok_bind, if_neg (by decide)]
      rw [show eol DelimStyle.comma 0 = [0x0a#8] ++ 0 :: [] from rfl, e1]
      rfl
    rw [write, hw, except_ok_bind]
    dsimp only
    rw [writeKids, writeAround, unlessInline, if_neg (by decide), writeHead, show deeper 0 = 4 from rfl, e2, except_ok_bind, if_pos rfl, except_ok_bind, writeBody, e3, except_ok_bind]
    rw [show ([0x22#8, 0] : List Byte) = [0x22#8] ++ 0 :: [] from rfl, show ([0x5c#8, 0] : List Byte) = [0x5c#8] ++ 0 :: [] from rfl, e4, except_ok_bind]
    rw [show ([0x22#8] ++ 0 :: [] : List Byte) = [0x22#8, 0] from rfl, e5, except_ok_bind, unlessInline, if_neg (by decide), writeDelim]
    dsimp only [Node.style]
    rw [show ([] : List (Node ν)).isEmpty = Bool.true from rfl, if_pos rfl, show eol DelimStyle.comma 4 = [0x0a#8] ++ 0 :: [] from rfl, e6, except_ok_bind, writeKids, except_ok_bind, writeClose, ind, if_neg (by decide), except_ok_bind, if_neg (by decide),
      if_neg (by decide), show eol DelimStyle.comma 0 = [0x0a#8] ++ 0 :: [] from rfl, e7]
  · rw [k7, k6, k5, k4, k3, k2, k1]
    simp [spaces]

/-- A text in which each quote has got a backslash may stand between quotes. -/
theorem escape_between {s : List Byte} (hs : Text s) (hl : s.getLast? ≠ some 0x5c#8) : Between 0x22#8 (escape [0x22#8] [0x5c#8] s) := by
  induction s with
  | nil => exact ⟨by simp [escape, Text], by simp [escape], by simp [escape]⟩
  | cons c s ih =>
    have hc : c ≠ 0 := hs c (by simp)
    have hs' : Text s := fun x hx => hs x (by simp [hx])
    have hlast : ∀ t : List Byte, (t = [] ↔ s = []) → t.getLast? ≠ some 0x5c#8 → (c :: t).getLast? ≠ some 0x5c#8 := by
      intro t h1 h2
      cases t with
      | nil =>
        have : s = [] := h1.1 rfl
        subst this
        simpa using hl
      | cons x t => rw [List.getLast?_cons_cons]; exact h2
    have hnil : escape [0x22#8] [0x5c#8] s = [] ↔ s = [] := by
      constructor
      · intro h
        cases s with
        | nil => rfl
        | cons x s =>
          exfalso
          rw [escape, List.flatMap_cons] at h
          split at h <;> simp at h
      · rintro rfl; rfl
    have hl' : s.getLast? ≠ some 0x5c#8 := by
      cases s with
      | nil => simp
      | cons x s => rw [List.getLast?_cons_cons] at hl; exact hl
    obtain ⟨h1, h2, h3⟩ := ih hs' hl'
    by_cases hq : c = 0x22#8
    · subst hq
      rw [escape_hit _ _ (by simp), List.cons_append, List.nil_append]
      refine ⟨?_, ?_, ?_⟩
      · intro x hx
        rcases List.mem_cons.1 hx with rfl | hx
        · decide
        · rcases List.mem_cons.1 hx with rfl | hx
          · decide
          · exact h1 x hx
      · intro a b h
        cases a with
        | nil => simp at h
        | cons x a =>
          rw [List.cons_append, List.cons.injEq] at h
          obtain ⟨rfl, h⟩ := h
          cases a with
          | nil => rfl
          | cons y a =>
            rw [List.cons_append, List.cons.injEq] at h
            obtain ⟨rfl, h⟩ := h
            have := h2 a b h
            cases a with
            | nil => simp at this
            | cons z a => rw [List.getLast?_cons_cons, List.getLast?_cons_cons]; exact this
      · rw [List.getLast?_cons_cons]
        exact hlast _ hnil h3
    · rw [show c :: s = [c] ++ s from rfl, escape_plain _ _ (by simpa using hq), List.cons_append, List.nil_append]
      refine ⟨?_, ?_, hlast _ hnil h3⟩
      · intro x hx
        rcases List.mem_cons.1 hx with rfl | hx
        · exact hc
        · exact h1 x hx
      · intro a b h
        cases a with
        | nil => rw [List.nil_append, List.cons.injEq] at h; exact absurd h.1 hq
        | cons x a =>
          rw [List.cons_append, List.cons.injEq] at h
          obtain ⟨rfl, h⟩ := h
          have := h2 a b h
          cases a with
          | nil => simp at this
          | cons z a => rw [List.getLast?_cons_cons]; exact this

theorem escape_length (s : List Byte) : (escape [0x22#8] [0x5c#8] s).length = s.length + s.count 0x22#8 := by
  induction s with
  | nil => rfl
  | cons c s ih =>
    by_cases h : c = 0x22#8
    · subst h
      rw [escape_hit _ _ (by simp)]
      simp [ih]
      omega
    · rw [show c :: s = [c] ++ s from rfl, escape_plain _ _ (by simpa using h)]
      simp [ih, List.count_cons, h]
      omega

/-- **C49 fails** for strings with a double quote: it is written with a backslash before it, and the backslash stays when the text is read. -/
theorem C49_quote_comes_back_escaped {ν : Type} (io : NumIO ν) (pf : FloatPrinter) {s : List Byte} (hs : Text s) (hl : s.length + 1 < maxLen) (hb : s.getLast? ≠ some 0x5c#8) (hq : 0x22#8 ∈ s)
    {o : Out} (ho : o.Ok) :
    ∃ o' text s', write io pf o (.mk none {} .arr [.mk none {} (.str Bool.false s) []]) 0 = .ok o' ∧ o'.out = o.out ++ text ∧ s' ≠ s ∧
      ∀ rest, ∃ r, parse io (text ++ 0 :: rest) = .ok (.ok r) ∧ r.plain = .mk none {} .arr [.mk none {} (.str Bool.false s') []] := by
  obtain ⟨o', e, -, h⟩ := write_single io pf hs hl ho
  refine ⟨o', _, escape [0x22#8] [0x5c#8] s, e, h, ?_, fun rest => ?_⟩
  · intro h
    have := congrArg List.length h
    rw [escape_length] at this
    have := List.count_pos_iff.2 hq
    omega
  · have hbl : ∀ c ∈ ([0x0a#8, 0x20#8, 0x20#8, 0x20#8, 0x20#8] : List Byte), Blank c := by unfold Blank; decide
    have h1 : Spell io (.value .arr [.mk none {} (.str Bool.false (escape [0x22#8] [0x5c#8] s)) []]) _ :=
      .arr (.lastElem (w' := [0x0a#8]) hbl (by intro c hc; rw [List.mem_singleton.1 hc]; unfold Blank; decide) (Spell.str (q := 0x22#8) (by decide) (escape_between hs hb)))
    obtain ⟨r, e2, h2⟩ := C77_layout_partial (.inr rfl) (w := []) (by simp [Blanks]) h1 (0x0a#8 :: 0 :: rest)
    refine ⟨r, ?_, h2⟩
    rw [← e2]
    simp

/-- Reading a text whose last string has no end, when the block of the text ends with the terminator. -/
theorem parse_unclosed {ν : Type} (io : NumIO ν) {w s : List Byte} (hw : Blanks w) (hs : Text s) (hq : ∀ a b, s = a ++ 0x22#8 :: b → a.getLast? = some 0x5c#8) :
    parse io (0x5b#8 :: w ++ 0x22#8 :: s ++ [0]) = .error .oob := by
  have hst : ∀ nl, Stop nl 0x5b#8 := fun nl => ⟨by decide, .inl (by unfold Blank; decide)⟩
  have hst2 : Stop Bool.false 0x22#8 := ⟨by decide, .inl (by unfold Blank; decide)⟩
  have e0 : 0x5b#8 :: w ++ 0x22#8 :: s ++ [0] = 0x5b#8 :: (w ++ 0x22#8 :: (s ++ [0])) := by simp
  have e1 : trimText Bool.true (0x5b#8 :: (w ++ 0x22#8 :: (s ++ [0]))) = .ok (0x5b#8 :: (w ++ 0x22#8 :: (s ++ [0]))) := trim_inline (w := []) (by simp [Inline]) (hst _) _
  have e2 : trimText Bool.false (0x5b#8 :: (w ++ 0x22#8 :: (s ++ [0]))) = .ok (0x5b#8 :: (w ++ 0x22#8 :: (s ++ [0]))) := trim_stop (hst _) _
  obtain ⟨k, e3, h1, h2, h3⟩ := C70_skip_literal (c := 0x22#8) (by decide) hs []
  have hk : k = s.length := by
    rcases Nat.lt_or_ge k s.length with hlt | hge
    · exfalso
      obtain ⟨h4, h5⟩ := h3 hlt
      have e : s = s.take k ++ 0x22#8 :: s.drop (k + 1) := by
        rw [List.getElem?_eq_some_iff] at h4
        obtain ⟨hlt', h4⟩ := h4
        rw [← h4, List.getElem_cons_drop, List.take_append_drop]
      have h6 := hq _ _ e
      cases k with
      | zero => simp at h6
      | succ k =>
        rcases h5 with h5 | h5
        · cases h5
        · apply h5
          rw [List.getLast?_eq_getElem?, List.length_take, Nat.min_eq_left (by omega)] at h6
          rw [List.getElem?_take_of_lt (by omega)] at h6
          exact h6
    · omega
  have e4 : parseQuoted (ν := ν) 0x22#8 (0x22#8 :: (s ++ [0])) = .ok (.ok (.str Bool.false s, []) []) := by
    unfold parseQuoted
    rw [drop_one]
    dsimp only
    rw [e3, except_ok_bind, hk, wr_at, except_ok_bind, strlen_to hs, except_ok_bind]
    simp
  have e5 : ∃ z, rd (w ++ 0x22#8 :: (s ++ [0])) 0 = .ok z ∧ z ≠ 0 := by
    cases w with
    | nil => exact ⟨_, rfl, by decide⟩
    | cons z w => exact ⟨z, rfl, (blank_ne (hw z (by simp))).2⟩
  obtain ⟨z, e5, hz⟩ := e5
  have hm : ∀ m, 4 * (0x5b#8 :: (w ++ 0x22#8 :: (s ++ [0]))).length + 4 = m + 4 → parseObject io (m + 4) (0x5b#8 :: (w ++ 0x22#8 :: (s ++ [0]))) = .error .oob := by
    intro m _
    rw [parseObject, e2, except_ok_bind, rd_cons, except_ok_bind, if_neg (by decide), if_pos rfl, drop_one, parseElements, e5, except_ok_bind, if_neg hz, trim_blanks hw hst2, except_ok_bind,
      rd_cons, except_ok_bind, if_neg (by decide), parseValue, rd_cons, except_ok_bind, show strchr [0x60#8, 0x22#8, 0x27#8, 0] 0x22#8 = .ok Bool.true by decide, except_ok_bind, if_pos rfl, e4,
      except_ok_bind]
    rfl
  rw [e0, parse, e1, except_ok_bind, rd_cons, except_ok_bind, show strchr [0x7b#8, 0x5b#8, 0] 0x5b#8 = .ok Bool.true by decide, except_ok_bind, hm _ rfl]
  rfl

/-- **C49 fails** for strings that end with a backslash: it hides the quote after it, so that the end of the string is not found, and the parser goes on behind the end of the text. -/
theorem C49_final_backslash_reads_outside {ν : Type} (io : NumIO ν) (pf : FloatPrinter) {s : List Byte} (hs : Text s) (hl : s.length + 1 < maxLen) (hb : s.getLast? = some 0x5c#8) (hq : 0x22#8 ∉ s)
    {o : Out} (ho : o.Ok) :
    ∃ o' text, write io pf o (.mk none {} .arr [.mk none {} (.str Bool.false s) []]) 0 = .ok o' ∧ o'.out = o.out ++ text ∧ parse io (text ++ [0]) = .error .oob := by
  obtain ⟨o', e, -, h⟩ := write_single io pf hs hl ho
  refine ⟨o', _, e, h, ?_⟩
  rw [escape_self _ (fun c hc hm => hq (by rw [List.mem_singleton.1 hm] at hc; exact hc))]
  have := parse_unclosed io (w := [0x0a#8, 0x20#8, 0x20#8, 0x20#8, 0x20#8]) (s := s ++ [0x22#8, 0x0a#8, 0x5d#8, 0x0a#8]) (by unfold Blanks Blank; decide)
    (fun c hc => (List.mem_append.1 hc).elim (hs c) ((show ∀ c ∈ ([0x22#8, 0x0a#8, 0x5d#8, 0x0a#8] : List Byte), c ≠ 0 by decide) c)) ?_
  · rw [← this]
    simp
  · intro a b h
    obtain ⟨s0, rfl⟩ : ∃ s0, s = s0 ++ [0x5c#8] := by
      rcases List.eq_nil_or_concat s with rfl | ⟨s0, x, rfl⟩
      · simp at hb
      · refine ⟨s0, ?_⟩
        simp at hb
        rw [hb]; simp
    rcases List.append_eq_append_iff.1 h with ⟨a', rfl, h'⟩ | ⟨c', h1, h2⟩
    · cases a' with
      | nil => simp
      | cons x a' =>
        exfalso
        rw [List.cons_append, List.cons.injEq] at h'
        have : 0x22#8 ∈ ([0x0a#8, 0x5d#8, 0x0a#8] : List Byte) := by rw [h'.2]; simp
        revert this
        decide
    · cases c' with
      | nil => rw [List.append_nil] at h1; rw [← h1]; simp
      | cons x c' =>
        exfalso
        rw [List.cons_append, List.cons.injEq] at h2
        apply hq
        rw [h1, ← h2.1]
        simp

/-- **C77 fails**: a text that is cut off within a string is read behind its end. -/
theorem C77_cut_off_string_reads_outside {ν : Type} (io : NumIO ν) {w s : List Byte} (hw : Blanks w) (hs : Text s) (hq : 0x22#8 ∉ s) : parse io (0x5b#8 :: w ++ 0x22#8 :: s ++ [0]) = .error .oob :=
  parse_unclosed io hw hs (fun a b h => absurd (by rw [h]; simp) hq)

/-- **C77 fails**: in an object a newline is itself a delimiter, so that a comma on the next line stands for a name.  In the first text, `{"a":true⏎,"b":false}`, the name `b` becomes a
    string without a name; the others are `a:true //` and `[/**/true]`: a comment at the end of the text makes the parser dereference a null pointer, and a comment between `/*` and `*/`
    takes the character after it with it. -/
theorem C77_layouts_misread {ν : Type} (io : NumIO ν) :
    parse io [0x7b#8, 0x22#8, 0x61#8, 0x22#8, 0x3a#8, 0x74#8, 0x72#8, 0x75#8, 0x65#8, 0x0a#8, 0x2c#8, 0x22#8, 0x62#8, 0x22#8, 0x3a#8, 0x66#8, 0x61#8, 0x6c#8, 0x73#8, 0x65#8, 0x7d#8, 0] =
      .ok (.ok (.mk none {} .obj [.mk (some [0x61#8]) { delim := .newline } (.const .true) [], .mk none {} (.str Bool.false [0x62#8]) [], .mk none {} (.const .false) []])) ∧
    parse io [0x61#8, 0x3a#8, 0x74#8, 0x72#8, 0x75#8, 0x65#8, 0x20#8, 0x2f#8, 0x2f#8, 0] = .error .ub ∧
    parse io [0x5b#8, 0x2f#8, 0x2a#8, 0x2a#8, 0x2f#8, 0x74#8, 0x72#8, 0x75#8, 0x65#8, 0x5d#8, 0] = .ok (.error .unknownKeyword) := ⟨rfl, rfl, rfl⟩

/-- **C49 fails** for a root in configuration mode written at indentation 0, if an object in it is followed by another member: the newline after the brace of the object comes before the
    comma.  The document is `a: {}, b: true`; what is written cannot be read. -/
theorem C49_config_at_zero_fails {ν : Type} (io : NumIO ν) (pf : FloatPrinter) {o : Out} (ho : o.Ok) :
    ∃ o' text, write io pf o (.mk none { cfg := Bool.true } .obj [.mk (some [0x61#8]) { name := .noQuotes } .obj [], .mk (some [0x62#8]) { name := .noQuotes } (.const .true) []]) 0 = .ok o' ∧
      o'.out = o.out ++ text ∧ ∀ rest, parse io (text ++ 0 :: rest) = .ok (.error .unknownKeyword) := by
  have hnl : Text [0x0a#8] := by simp [Text]
  have hsp : Text [0x20#8] := by simp [Text]
  have hs : ∀ (c : Byte), c ≠ 0 ∧ c ≠ 0x25#8 → ∀ {o : Out}, o.Ok → ∀ {s : List Byte}, (Text s ∧ s.length ≤ 1) → Appends o (c :: s) (fprintf pf o [c, 0x25#8, 0x73#8, 0] [.str (some (s ++ 0 :: []))]) :=
    fun c hc o ho s hs => lit_s pf ho c hc hs
  obtain ⟨o1, e1, g1, k1⟩ := fprintf_s pf ho (s := [0x61#8]) (by simp [Text]) [] [] (by simp [maxLen])
  obtain ⟨o2, e2, g2, k2⟩ := hs 0x3a#8 (by decide) g1 ⟨hsp, by decide⟩
  obtain ⟨o3, e3, g3, k3⟩ := fprintf_cs pf g2 hnl [] (c := 0x7b#32) (by decide) [] (by simp [maxLen])
  obtain ⟨o4, e4, g4, k4⟩ := fprintf_cs pf g3 hnl [] (c := 0x7d#32) (by decide) [] (by simp [maxLen])
  obtain ⟨o5, e5, g5, k5⟩ := hs 0x2c#8 (by decide) g4 ⟨hnl, by decide⟩
  obtain ⟨o6, e6, g6, k6⟩ := fprintf_s pf g5 (s := [0x62#8]) (by simp [Text]) [] [] (by simp [maxLen])
  obtain ⟨o7, e7, g7, k7⟩ := hs 0x3a#8 (by decide) g6 ⟨hsp, by decide⟩
  obtain ⟨o8, e8, g8, k8⟩ := fprintf_lit pf g7 (word_literal .true).1 [] [] (by decide)
  obtain ⟨o9, e9, g9, k9⟩ := fprintf_s pf g8 hnl [] [] (by simp [maxLen])
  have h0 : ∀ (o : Out) (x : Int), x ≤ 0 → ind pf o x = .ok o := fun o x hx => by rw [ind, if_neg (by omega)]
  refine ⟨o9, [0x61#8, 0x3a#8, 0x20#8, 0x7b#8, 0x0a#8, 0x7d#8, 0x0a#8, 0x2c#8, 0x0a#8, 0x62#8, 0x3a#8, 0x20#8, 0x74#8, 0x72#8, 0x75#8, 0x65#8, 0x0a#8], ?_, ?_, fun rest => rfl⟩
  · have ea : writeHead pf o (Node.mk (ν := ν) (some [0x61#8]) { name := .noQuotes } .obj []) Bool.false 0 = .ok o2 := by
      rw [writeHead, h0 _ _ (by decide), except_ok_bind, if_neg (by decide)]
      exact (congrArg (· >>= _) e1).trans e2
    have eb : writeHead pf o5 (Node.mk (ν := ν) (some [0x62#8]) { name := .noQuotes } (.const .true) []) Bool.false 0 = .ok o7 := by
      rw [writeHead, h0 _ _ (by decide), except_ok_bind, if_neg (by decide)]
      exact (congrArg (· >>= _) e6).trans e7
    have ec : writeOpen pf o2 0x7b#32 { name := .noQuotes } 0 = .ok (o3, 0) := by
      rw [writeOpen, h0 _ _ (by decide), except_ok_bind, if_neg (by decide)]
      exact (congrArg (· >>= _) e3).trans rfl
    have ed : writeClose pf o3 0x7d#32 { name := .noQuotes } 0 = .ok o4 := by
      rw [writeClose, h0 _ _ (by decide), except_ok_bind, if_neg (by decide), if_neg (by decide)]
      exact e4
    have ee : writeOpen pf o 0x7b#32 { cfg := Bool.true } 0 = .ok (o, -4) := by
      rw [writeOpen, h0 _ _ (by decide), except_ok_bind, if_pos rfl]
      rfl
    have ef : writeClose pf o9 0x7d#32 { cfg := Bool.true } (-4) = .ok o9 := by
      rw [writeClose, h0 _ _ (by decide), except_ok_bind, if_neg (by decide), if_pos rfl]
    rw [write, ee, except_ok_bind]
    dsimp only
    rw [writeKids, writeAround, unlessInline, if_neg (by decide), show deeper (-4) = 0 from rfl, ea, except_ok_bind, writeBody, ec, except_ok_bind]
    dsimp only
    rw [writeKids, except_ok_bind, ed, except_ok_bind, unlessInline, if_neg (by decide)]
    rw [show writeDelim pf o4 (Node.mk (ν := ν) (some [0x61#8]) { name := .noQuotes } .obj []).style 0 (List.isEmpty [Node.mk (ν := ν) (some [0x62#8]) { name := .noQuotes } (.const .true) []]) = .ok o5 from e5,
      except_ok_bind]
    rw [writeKids, writeAround, unlessInline, if_neg (by decide), show deeper (-4) = 0 from rfl, eb, except_ok_bind, writeBody]
    rw [show fprintf pf o7 (word Const.true ++ [0]) [] = .ok o8 from e8, except_ok_bind, unlessInline, if_neg (by decide)]
    rw [show writeDelim pf o8 (Node.mk (ν := ν) (some [0x62#8]) { name := .noQuotes } (.const .true) []).style 0 (List.isEmpty ([] : List (Node ν))) = .ok o9 from e9, except_ok_bind, writeKids, except_ok_bind,
      ef]
  · rw [k9, k8, k7, k6, k5, k4, k3, k2, k1]
    simp [word]

/-! ## Examples -/

/-- A number type with no printable numbers, for examples. -/
def noNumbers : NumIO Empty := ⟨fun _ => .ok (none, 0), fun o _ => .ok o⟩

/-- `{"a": {"b" = [true, `x"`, []] ⏎}, c | "y" }` -/
def sample : Node Empty :=
  .mk none {} .obj
    [.mk (some [0x61#8]) {} .obj
      [.mk (some [0x62#8]) { assign := .equals, assignWidth := 3 } .arr
        [.mk none {} (.const .true) [], .mk none {} (.str Bool.true [0x78#8, 0x22#8]) [], .mk none {} .arr []]],
     .mk (some [0x63#8]) { name := .noQuotes, assign := .line } (.str Bool.false [0x79#8]) []]

theorem sample_document (cmp : Bool) : sample.Document noNumbers cmp := by
  have h1 : NameText .doubleQuote [0x61#8] [0x22#8, 0x61#8, 0x22#8] := .double (s := [0x61#8]) (between_of (by simp [Text]) (by decide) (by decide)) (by
    intro a b h
    exact absurd (show 0x5c#8 ∈ [0x61#8] by rw [h]; simp) (by decide))
  have h2 : NameText .doubleQuote [0x62#8] [0x22#8, 0x62#8, 0x22#8] := .double (s := [0x62#8]) (between_of (by simp [Text]) (by decide) (by decide)) (by
    intro a b h
    exact absurd (show 0x5c#8 ∈ [0x62#8] by rw [h]; simp) (by decide))
  have h3 : NameText .noQuotes [0x63#8] [0x63#8] := .bare (by decide) (by simp)
  have f1 : NameFits Bool.false (Node.mk (ν := Empty) (some [0x61#8]) {} .obj
      [.mk (some [0x62#8]) { assign := .equals, assignWidth := 3 } .arr [.mk none {} (.const .true) [], .mk none {} (.str Bool.true [0x78#8, 0x22#8]) [], .mk none {} .arr []]]) :=
    ⟨_, _, rfl, h1, by decide⟩
  have f2 : NameFits Bool.false (Node.mk (ν := Empty) (some [0x62#8]) { assign := .equals, assignWidth := 3 } .arr
      [.mk none {} (.const .true) [], .mk none {} (.str Bool.true [0x78#8, 0x22#8]) [], .mk none {} .arr []]) := ⟨_, _, rfl, h2, by decide⟩
  have f3 : NameFits Bool.false (Node.mk (ν := Empty) (some [0x63#8]) { name := .noQuotes, assign := .line } (.str Bool.false [0x79#8]) []) := ⟨_, _, rfl, h3, by decide⟩
  simp only [sample, Node.Document, DocumentL, f1, f2, f3]
  simp [NameFits, Node.name, Node.style, Text, maxLen]

/-- The hypotheses of `C49_round_trip_partial` are met, at indentation 0 and compactly. -/
example (pf : FloatPrinter) (o : Out) (ho : o.Ok) (cmp : Bool) :
    ∃ o' text, write noNumbers pf o sample (if cmp then compact else 0) = .ok o' ∧ o'.out = o.out ++ text ∧
      ∀ rest, ∃ r, parse noNumbers (text ++ 0 :: rest) = .ok (.ok r) ∧ r.plain = sample.plain :=
  C49_round_trip_partial pf (sample_document cmp) (.inl rfl) (by cases cmp <;> simp [Node.height, heightL]) ho

/-- The hypotheses of `C49_config_partial` are met. -/
example (pf : FloatPrinter) (o : Out) (ho : o.Ok) :
    ∃ o' text, write noNumbers pf o (.mk none { cfg := Bool.true } .obj sample.kids) 8 = .ok o' ∧ o'.out = o.out ++ text ∧
      ∀ rest, ∃ r, parse noNumbers (text ++ 0 :: rest) = .ok (.ok r) ∧ r.plain = (Node.mk none { cfg := Bool.true } .obj sample.kids).plain := by
  refine C49_config_partial pf rfl (by simp [sample, Node.kids]) ?_ (by decide) (by simp [sample, Node.kids, heightL, Node.height]) ho
  have := sample_document Bool.false
  rw [sample, Node.Document.eq_def] at this
  exact this.2.2.2.2

/-- A text of the grammar: `[ true ,⏎"x" ]`. -/
example : Spell noNumbers (.value .arr [.mk none {} (.const .true) [], .mk none {} (.str Bool.false [0x78#8]) []])
    [0x5b#8, 0x20#8, 0x74#8, 0x72#8, 0x75#8, 0x65#8, 0x20#8, 0x2c#8, 0x0a#8, 0x22#8, 0x78#8, 0x22#8, 0x20#8, 0x5d#8] := by
  have h1 : Blanks [0x20#8] := by unfold Blanks Blank; decide
  have h2 : Blanks [0x0a#8] := by unfold Blanks Blank; decide
  exact .arr (.elem h1 h1 (.const .true) (.lastElem h2 h1 (.str (q := 0x22#8) (s := [0x78#8]) (by decide) (between_of (by simp [Text]) (by decide) (by decide)))))

/-- Members without braces: `a = null⏎b : true`. -/
example : Spell noNumbers (.members [.mk (some [0x61#8]) {} (.const .null) [], .mk (some [0x62#8]) {} (.const .true) []])
    [0x61#8, 0x20#8, 0x3d#8, 0x20#8, 0x6e#8, 0x75#8, 0x6c#8, 0x6c#8, 0x0a#8, 0x62#8, 0x20#8, 0x3a#8, 0x20#8, 0x74#8, 0x72#8, 0x75#8, 0x65#8] := by
  have h1 : Blanks [0x20#8] := by unfold Blanks Blank; decide
  have h2 : Inline [] := by simp [Inline]
  exact .member (d := 0x0a#8) (a := []) (b := []) (.bare (s := []) (by decide) (by simp)) h1 (by decide) h1 (.const .null) h2 (by decide) (by simp [Blanks])
    (.lastMember (a := []) (.bare (s := []) (by decide) (by simp)) h1 (by decide) h1 (.const .true) h2)

/-- The strings of the failures: `a"b` and `a\`. -/
example : Text [0x61#8, 0x22#8, 0x62#8] ∧ [0x61#8, 0x22#8, 0x62#8].getLast? ≠ some 0x5c#8 ∧ 0x22#8 ∈ [0x61#8, 0x22#8, 0x62#8] ∧
    Text [0x61#8, 0x5c#8] ∧ [0x61#8, 0x5c#8].getLast? = some 0x5c#8 ∧ 0x22#8 ∉ [0x61#8, 0x5c#8] := by
  simp [Text]

end Zpl.Json
