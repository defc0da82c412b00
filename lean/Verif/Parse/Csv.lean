import Verif.Parse.NumberReal

/-!
# Comma separated tables (code/source/parsers/csv.c:13-213)  -  C50

A table is a list of columns.  A text under the parser is the list of bytes from the current position on: the parser never goes back before
it, and only writes behind it, so that a cell is given by its text instead of by an address into the buffer.  All allocations succeed.
Reading and printing the number in a cell is a parameter here; C87 and C88 (Parse/Number, Parse/NumberPrint) are about what the library puts in its place.

## Model -/

namespace Zpl.Csv

open Zpl Zpl.Str Zpl.Token Zpl.Print Zpl.Fprintf Zpl.AdtText

variable {ν : Type}

/-- A cell with its text: a text cell written in quotes (the style of every cell a program makes), a text cell written as it is (the style the
    parser gives to cells it found without quotes), or a number. -/
inductive Cell (ν : Type) where
  | quoted (s : List Byte)
  | plain (s : List Byte)
  | number (n : ν)
  deriving DecidableEq

/-- A column: its name (`NULL` if `none`) and its cells. -/
structure Column (ν : Type) where
  name : Option (List Byte)
  cells : List (Cell ν)
  deriving DecidableEq

/-- header/parsers/csv.h:6-11 `zpl_csv_error` (the `INTERNAL` code is never given). -/
inductive Err where
  | none
  | unexpectedEnd
  | mismatchedRows
  deriving DecidableEq

/-- csv.c:39-45: from `e`, the distance to the quote that ends the cell (or to the terminator). -/
def closing : Nat → List Byte → Except Fault Nat
  | 0, _ => .error .diverge
  | n + 1, e => do
    let k ← skip 0x22#8 e
    if (← rd e k) ≠ 0 then
      if (← rd e (k + 1)) = 0x22#8 then
        if (← rd e (k + 2)) ≠ 0 then do .ok (k + 2 + (← closing n (e.drop (k + 2)))) else .ok (k + 2)
      else .ok k
    else .ok k

/-- csv.c:60 `zpl_memmove(ep, ep+1, zpl_strlen(ep))`, on the text from `ep` on. -/
def dropFirst (ep : List Byte) : Except Fault (List Byte) := do
  let n ← strlen ep
  if n < ep.length then .ok ((ep.drop 1).take n ++ ep.drop n) else .error .oob

/-- csv.c:59-61, on the text from `ep` on. -/
def undouble : List Byte → Except Fault (List Byte)
  | [] => .error .oob
  | c :: u =>
    if c = 0x22#8 then do
      if (← rd u 0) = 0x22#8 then dropFirst (c :: u) else .ok (c :: u)
    else .ok (c :: u)

/-- csv.c:57-63: the text from `b` on after the loop. -/
def unescape : Nat → List Byte → Except Fault (List Byte)
  | 0, _ => .error .diverge
  | n + 1, ep => do
    match ← undouble ep with
    | [] => .error .oob
    | c :: u => if (← rd u 0) ≠ 0 then do .ok (c :: (← unescape n u)) else .ok (c :: u)

/-- csv.c:34-64, `b` on: the cell, the character `d` after it and the text from `p` on; `none` if the closing quote is missing. -/
def readQuoted (b : List Byte) : Except Fault (Option (Cell ν × Byte × List Byte)) := do
  let e ← closing (b.length + 1) b
  if (← rd b e) = 0 then .ok Option.none
  else do
    let b ← wr b e 0
    let k ← trim true (b.drop (e + 1))
    let d ← rd b (e + 1 + k)
    let b ← unescape (b.length + 1) b
    let len ← strlen b
    .ok (some (.quoted (b.take len), d, b.drop (e + 1 + k)))

/-- csv.c:74-76, from the second character on. -/
def plainEnd (delim : Byte) : List Byte → Except Fault Nat
  | [] => .error .oob
  | c :: s => if c ≠ 0 ∧ c ≠ delim ∧ c ≠ 0x0a#8 then do .ok ((← plainEnd delim s) + 1) else .ok 0

/-- csv.c:79: step back over the blanks before `e`. -/
def backUp (b : List Byte) : Nat → Except Fault Nat
  | 0 => .error .oob
  | e + 1 => do if isSpace (← rd b e) then backUp b e else .ok (e + 1)

/-- csv.c:89-96: may the text be a number? -/
def numeric : List Byte → Except Fault Bool
  | [] => .error .oob
  | c :: s => do
    if Chars.isHexDigit c = false ∧ (← firstOcc c [0x2b#8, 0x2d#8, 0x2e#8, 0x65#8, 0x45#8, 0x78#8, 0x58#8, 0]).isNone then .ok false
    else if c ≠ 0 then numeric s else .ok true

/-- csv.c:72-86, `b` on: the end of the cell, the text from `b` on, the distance from `b` to `p`, and `d`. -/
def cutPlain (delim : Byte) (b : List Byte) : Except Fault (Nat × List Byte × Nat × Byte) := do
  let e ← plainEnd delim (b.drop 1)
  let e := e + 1
  if (← rd b e) ≠ 0 then do
    let k ← trim true (b.drop e)
    let d ← rd b (e + k)
    let e' ← backUp b e
    let b ← wr b e' 0
    .ok (e', b, e + k, d)
  else .ok (e, b, e, 0)

/-- csv.c:88-100, the text from `b` on, a cell of `e` characters.  `zpl_adt_str_to_number` (adt.c:593-604) leaves the cell as it is if its text is no number after all. -/
def convert (io : Json.NumIO ν) (e : Nat) (b : List Byte) : Except Fault (Cell ν) := do
  if ← numeric b then do
    match (← io.read b).1 with
    | some n => .ok (.number n)
    | none => .ok (.plain (b.take e))
  else .ok (.plain (b.take e))

/-- csv.c:71-100. -/
def readPlain (io : Json.NumIO ν) (delim : Byte) (b : List Byte) : Except Fault (Option (Cell ν × Byte × List Byte)) := do
  let (e, b, p, d) ← cutPlain delim b
  let cell ← convert io e b
  .ok (some (cell, d, b.drop p))

/-- csv.c:32-101: one cell, from the first character that is no blank. -/
def readCell (io : Json.NumIO ν) (delim : Byte) (p : List Byte) : Except Fault (Option (Cell ν × Byte × List Byte)) := do
  let c ← rd p 0
  if c = 0x22#8 then readQuoted (p.drop 1)
  else if c = delim then .ok (some (.plain [], c, p))
  else readPlain io delim p

/-- csv.c:20: the columns so far, `colc` and `total_colc`. -/
structure St (ν : Type) where
  cols : List (Column ν)
  colc : Nat
  total : Nat

/-- csv.c:103-107. -/
def place (s : St ν) (cell : Cell ν) : Except Fault (St ν) := do
  let cols := if s.colc ≥ s.cols.length then s.cols ++ [{ name := none, cells := [] }] else s.cols
  let col ← rd cols s.colc
  let cols ← wr cols s.colc { col with cells := col.cells ++ [cell] }
  .ok { s with cols := cols }

/-- csv.c:109-123: what follows the cell; `none` if the rows do not match. -/
def advance (delim : Byte) (s : St ν) (d : Byte) (p : List Byte) : Option (St ν × List Byte) :=
  if d = delim then some ({ s with colc := s.colc + 1 }, p.drop 1)
  else if d = 0x0a#8 ∨ d = 0 then
    if s.total < s.colc ∨ s.total = s.colc then
      some ({ s with total := s.colc, colc := 0 }, if d ≠ 0 then p.drop 1 else p)
    else Option.none
  else some (s, p)

/-- csv.c:22-124. -/
def parseLoop (io : Json.NumIO ν) (delim : Byte) : Nat → St ν → List Byte → Except Fault (Err × St ν)
  | 0, _, _ => .error .diverge
  | n + 1, s, p => do
    let k ← trim false p
    let p := p.drop k
    if (← rd p 0) = 0 then .ok (.none, s)
    else
      match ← readCell io delim p with
      | Option.none => .ok (.unexpectedEnd, s)
      | some (cell, d, p) =>
        let s ← place s cell
        match advance delim s d p with
        | Option.none => .ok (.mismatchedRows, s)
        | some (s, p) => if (← rd p 0) ≠ 0 then parseLoop io delim n s p else .ok (.none, s)

/-- csv.c:133-139, one column: its first cell becomes its name.  A cell that has become a number has no text: its name would be the bytes of the number
    read as an address. -/
def header (c : Column ν) : Except Fault (Column ν) :=
  match c.cells with
  | .quoted s :: cells => .ok { name := some s, cells := cells }
  | .plain s :: cells => .ok { name := some s, cells := cells }
  | _ => .error .ub

/-- csv.c:13-143 `zpl_csv_parse_delimiter`: the error and the columns. -/
def parse (io : Json.NumIO ν) (hasHeader : Bool) (delim : Byte) (text : List Byte) : Except Fault (Err × List (Column ν)) := do
  let (err, s) ← parseLoop io delim (text.length + 1) { cols := [], colc := 0, total := 0 } text
  if err ≠ .none then .ok (err, s.cols)
  else if s.cols.length = 0 then .ok (.unexpectedEnd, s.cols)
  else if hasHeader then do .ok (.none, ← s.cols.mapM header)
  else .ok (.none, s.cols)

/-- csv.c:148-173 `zpl__csv_write_record`. -/
def writeRecord (io : Json.NumIO ν) (pf : FloatPrinter) (o : Out) : Cell ν → Except Fault Out
  | .quoted s => do
    let o ← fprintf pf o [0x22#8, 0] []
    let o ← printString pf [0x22#8, 0] [0x22#8, 0] o (some (s ++ [0]))
    fprintf pf o [0x22#8, 0] []
  | .plain s => fprintf pf o [0x25#8, 0x73#8, 0] [.str (some (s ++ [0]))]
  | .number n => io.print o n

/-- csv.c:195-200, 205-210: the cells of a row from the `i`th on, with the delimiter between them. -/
def writeCells (io : Json.NumIO ν) (pf : FloatPrinter) (delim : Byte) : Out → List (Cell ν) → Except Fault Out
  | o, [] => .ok o
  | o, [c] => writeRecord io pf o c
  | o, c :: cs => do
    let o ← writeRecord io pf o c
    let o ← fprintf pf o [0x25#8, 0x63#8, 0] [.int (delim.signExtend 32)]
    writeCells io pf delim o cs

/-- csv.c:195-201, 205-211. -/
def writeRow (io : Json.NumIO ν) (pf : FloatPrinter) (delim : Byte) (o : Out) (cs : List (Cell ν)) : Except Fault Out := do
  let o ← writeCells io pf delim o cs
  fprintf pf o [0x0a#8, 0] []

/-- csv.c:204-212, the rows from the `r`th on, `n` to go. -/
def writeRows (io : Json.NumIO ν) (pf : FloatPrinter) (delim : Byte) (cols : List (Column ν)) : Nat → Nat → Out → Except Fault Out
  | 0, _, o => .ok o
  | n + 1, r, o => do
    let cs ← cols.mapM fun c => rd c.cells r
    let o ← writeRow io pf delim o cs
    writeRows io pf delim cols n (r + 1) o

/-- csv.c:175-180 `zpl__csv_write_header`: the name as a cell.  Columns are made by the parser and by `zpl_adt_append_arr`, with the style
    for double quotes.  A null name is handed on to `zpl_adt_print_string`, which prints nothing for it. -/
def headerCell (c : Column ν) : Cell ν := .quoted (c.name.getD [])

/-- csv.c:182-213 `zpl_csv_write_delimiter`. -/
def write (io : Json.NumIO ν) (pf : FloatPrinter) (delim : Byte) (o : Out) (cols : List (Column ν)) : Except Fault Out :=
  match cols with
  | [] => .ok o
  | c :: _ =>
    if c.cells.length = 0 then .ok o
    else do
      let o ← if c.name.isSome then writeRow io pf delim o (cols.map headerCell) else .ok o
      writeRows io pf delim cols c.cells.length 0 o

/-! ## Specification -/

/-- The text of a cell, if it is a text cell. -/
def Cell.text : Cell ν → Option (List Byte)
  | .quoted s => some s
  | .plain s => some s
  | .number _ => none

/-- The cells in the order in which they are written: row by row, the names first if there are any. -/
def inOrder (cols : List (Column ν)) : List (Cell ν) :=
  (if cols.any (·.name.isSome) then cols.map fun c => .quoted (c.name.getD []) else []) ++
  (List.range ((cols.head?.map (·.cells.length)).getD 0)).flatMap fun r => cols.filterMap (·.cells[r]?)

/-- A rectangular table: at least one column and one row, all columns of the same length, and either all of them with a name or none. -/
def Rectangular (named : Bool) (cols : List (Column ν)) : Prop :=
  cols ≠ [] ∧ (∀ c ∈ cols, c.name.isSome = named) ∧ ∃ n, 0 < n ∧ ∀ c ∈ cols, c.cells.length = n

/-- A character that occurs in numbers. -/
def NumberChar (c : Byte) : Prop := Chars.isHexDigit c = true ∨ c ∈ [0x2b#8, 0x2d#8, 0x2e#8, 0x65#8, 0x45#8, 0x78#8, 0x58#8]

/-- A text fit for a cell without quotes: it is not empty, holds neither the delimiter nor a newline, begins with neither a blank nor a quote, does not end with
    a blank. -/
def Bare (delim : Byte) (s : List Byte) : Prop :=
  delim ∉ s ∧ 0x0a#8 ∉ s ∧ (∃ c t, s = c :: t ∧ ¬ Blank c ∧ c ≠ 0x22#8) ∧ ∃ t c, s = t ++ [c] ∧ ¬ Blank c

/-- A text that is not taken for a number: it is not made of characters of numbers only, or the reader of numbers finds that it is none. -/
def NoNumber (io : Json.NumIO ν) (s : List Byte) : Prop :=
  (∃ c ∈ s, ¬ NumberChar c) ∨ ((∀ c ∈ s, NumberChar c) ∧ ∀ r, ∃ k, io.read (s ++ 0 :: r) = .ok (none, k))

/-- `t` is a text of the number `n`: it is made of characters of numbers other than the delimiter, at least one of them; it is what is printed for the number; and up to a
    terminator it is read as the number. -/
def Spelt (io : Json.NumIO ν) (delim : Byte) (n : ν) (t : List Byte) : Prop :=
  t ≠ [] ∧ (∀ c ∈ t, NumberChar c ∧ c ≠ delim) ∧ (∀ o : Out, o.Ok → Appends o t (io.print o n)) ∧ ∀ r, ∃ k, io.read (t ++ 0 :: r) = .ok (some n, k)

/-- A cell that can be written: any text in quotes, a fit text without quotes, or a number whose text is read as the number. -/
def Cell.Ok (io : Json.NumIO ν) (delim : Byte) : Cell ν → Prop
  | .quoted s => Text s ∧ s.length + 1 < maxLen
  | .plain s => Text s ∧ s.length + 1 < maxLen ∧ Bare delim s ∧ NoNumber io s
  | .number n => ∃ t, Spelt io delim n t

/-- No empty cell comes before a cell that is empty too or holds a quote. -/
def EmptyLast (cells : List (Cell ν)) : Prop :=
  ∀ a b, cells = a ++ .quoted [] :: b → ∀ c ∈ b, ∀ t, c.text = some t → t ≠ [] ∧ 0x22#8 ∉ t

/-! ## Proofs -/

variable {io : Json.NumIO ν} {delim : Byte}

open Classical in
/-- What is written for a cell. -/
noncomputable def enc (io : Json.NumIO ν) (delim : Byte) : Cell ν → List Byte
  | .quoted s => 0x22#8 :: escape [0x22#8] [0x22#8] s ++ [0x22#8]
  | .plain s => s
  | .number n => if h : ∃ t, Spelt io delim n t then h.choose else []

theorem enc_number {n : ν} (h : ∃ t, Spelt io delim n t) : Spelt io delim n (enc io delim (.number n)) := by
  rw [enc, dif_pos h]
  exact h.choose_spec

theorem isSpace_iff : ∀ c : Byte, isSpace c = true ↔ Blank c := by
  unfold Blank; decide +kernel

theorem writeRecord_ok (pf : FloatPrinter) {delim : Byte} {c : Cell ν} (hc : c.Ok io delim) {o : Out} (ho : o.Ok) :
    Appends o (enc io delim c) (writeRecord io pf o c) := by
  cases c with
  | quoted s =>
    have h1 := fprintf_lit pf ho (s := [0x22#8]) (by simp [Literal]) [] [] (by unfold maxLen; simp)
    refine Appends.bind (s := [0x22#8]) h1 fun o1 ho1 => ?_
    have hr : Runs [0x22#8] s := by
      intro a m b h _
      have := hc.2
      rw [h] at this
      simp at this ⊢
      omega
    have h2 := printString_ok pf (E := [0x22#8]) (sym := [0x22#8]) (by simp [Text]) (by simp [Text]) [] [] (by unfold maxLen; simp) ho1 hc.1 hr []
    refine Appends.bind h2 fun o2 ho2 => ?_
    exact fprintf_lit pf ho2 (s := [0x22#8]) (by simp [Literal]) [] [] (by unfold maxLen; simp)
  | plain s => exact fprintf_s pf ho hc.1 [] [] hc.2.1
  | number n => exact (enc_number hc).2.2.1 o ho

/-- The cells of a row with the character after each. -/
def tokens (delim : Byte) : List (Cell ν) → List (Cell ν × Byte)
  | [] => []
  | [c] => [(c, 0x0a#8)]
  | c :: cs => (c, delim) :: tokens delim cs

/-- The text of cells with the character after each. -/
noncomputable def textOf (io : Json.NumIO ν) (delim : Byte) (ts : List (Cell ν × Byte)) : List Byte := ts.flatMap fun t => enc io delim t.1 ++ [t.2]

theorem textOf_cons (t : Cell ν × Byte) (ts : List (Cell ν × Byte)) : textOf io delim (t :: ts) = enc io delim t.1 ++ t.2 :: textOf io delim ts := by
  simp [textOf]

theorem writeRow_ok (pf : FloatPrinter) {delim : Byte} (hd : delim ≠ 0) {cs : List (Cell ν)} (hcs : ∀ c ∈ cs, c.Ok io delim) (hne : cs ≠ []) {o : Out} (ho : o.Ok) :
    Appends o (textOf io delim (tokens delim cs)) (writeRow io pf delim o cs) := by
  unfold writeRow
  induction cs generalizing o with
  | nil => exact absurd rfl hne
  | cons c cs ih =>
    cases cs with
    | nil =>
      rw [tokens, textOf_cons]
      refine Appends.bind (writeRecord_ok pf (hcs c (by simp)) ho) fun o1 ho1 => ?_
      exact fprintf_lit pf ho1 (s := [0x0a#8]) (by simp [Literal]) [] [] (by unfold maxLen; simp)
    | cons d cs =>
      rw [tokens, textOf_cons, writeCells, bind_assoc]
      refine Appends.bind (writeRecord_ok pf (hcs c (by simp)) ho) fun o1 ho1 => ?_
      rw [bind_assoc]
      have hb := fprintf_c pf ho1 (c := delim.signExtend 32) (by rw [char_int]; exact hd) []
      rw [char_int] at hb
      refine Appends.bind (s := [delim]) hb fun o2 ho2 => ?_
      exact ih (fun x hx => hcs x (by simp [hx])) (by simp) ho2
      all_goals simp

theorem skip_to {c : Byte} {m : List Byte} (hm : Text m) (hc : c ∉ m) (w : List Byte) : skip c (m ++ c :: w) = .ok m.length := by
  induction m with
  | nil => simp [skip]
  | cons x m ih =>
    have hx := Text.cons.1 hm
    rw [List.cons_append, skip, if_pos ⟨hx.1, fun h => hc (by simp [h])⟩, ih hx.2 (fun h => hc (by simp [h])), except_ok_bind]
    rfl

theorem quote_ne : (0x22#8 : Byte) ≠ 0 := by decide

/-- The text inside the quotes. -/
def inner (s : List Byte) : List Byte := escape [0x22#8] [0x22#8] s

theorem inner_cons (c : Byte) (s : List Byte) : inner (c :: s) = (if c = 0x22#8 then [0x22#8, 0x22#8] else [c]) ++ inner s := by
  by_cases h : c = 0x22#8
  · subst h; rw [inner, escape_hit _ _ (by simp)]; rfl
  · have := escape_plain (E := [0x22#8]) (m := [c]) [0x22#8] s (by simpa using h)
    rw [if_neg h]
    exact this

theorem inner_nil : inner [] = [] := rfl

theorem inner_text {s : List Byte} (hs : Text s) : Text (inner s) := by
  induction s with
  | nil => simp [inner_nil, Text]
  | cons c s ih =>
    have hc := Text.cons.1 hs
    rw [inner_cons]
    intro x hx
    rcases List.mem_append.1 hx with hx | hx
    · split at hx
      · simp at hx; rw [hx]; exact quote_ne
      · rw [List.mem_singleton.1 hx]; exact hc.1
    · exact ih hc.2 x hx

/-- Cutting a text at its first quote. -/
theorem first_quote (s : List Byte) : (0x22#8 ∉ s) ∨ ∃ m t, s = m ++ 0x22#8 :: t ∧ 0x22#8 ∉ m := by
  induction s with
  | nil => left; simp
  | cons c s ih =>
    by_cases hc : c = 0x22#8
    · exact .inr ⟨[], s, by rw [hc]; rfl, by simp⟩
    · rcases ih with h | ⟨m, t, e, hn⟩
      · exact .inl (by simp [Ne.symm hc, h])
      · exact .inr ⟨c :: m, t, by rw [e]; rfl, by simp [Ne.symm hc, hn]⟩

theorem inner_plain {m : List Byte} (s : List Byte) (h : 0x22#8 ∉ m) : inner (m ++ s) = m ++ inner s :=
  escape_plain _ _ fun c hc he => h (by rw [← List.mem_singleton.1 he]; exact hc)

theorem closing_ok (n : Nat) : ∀ {s : List Byte} (_ : Text s) {y : Byte} (_ : y ≠ 0x22#8) (w : List Byte), s.length < n →
    closing n (inner s ++ 0x22#8 :: y :: w) = .ok (inner s).length := by
  induction n with
  | zero => intros; omega
  | succ n ih =>
    intro s hs y hy w hn
    rcases first_quote s with h | ⟨m, t, rfl, h⟩
    · have e : inner s = s := by have := inner_plain [] h; simpa [inner_nil] using this
      rw [e, closing, skip_to hs h, except_ok_bind]
      have r1 : rd (s ++ 0x22#8 :: y :: w) s.length = .ok 0x22#8 := by rw [rd_ok (by simp)]; simp
      have r2 : rd (s ++ 0x22#8 :: y :: w) (s.length + 1) = .ok y := by rw [rd_ok (by simp)]; simp
      rw [r1, except_ok_bind, if_pos quote_ne, r2, except_ok_bind, if_neg hy]
    · have hm : Text m := fun c hc => hs c (by simp [hc])
      have ht : Text t := fun c hc => hs c (by simp [hc])
      have e : inner (m ++ 0x22#8 :: t) = m ++ 0x22#8 :: 0x22#8 :: inner t := by rw [inner_plain _ h, inner_cons]; simp
      obtain ⟨x, v, hxv, hx⟩ : ∃ x v, inner t ++ 0x22#8 :: y :: w = x :: v ∧ x ≠ 0 := by
        cases hi : inner t with
        | nil => exact ⟨_, _, rfl, quote_ne⟩
        | cons x v => exact ⟨x, _, rfl, inner_text ht x (by simp [hi])⟩
      rw [e, List.append_assoc, List.cons_append, closing, skip_to hm h, except_ok_bind]
      have r1 : rd (m ++ 0x22#8 :: (0x22#8 :: inner t ++ 0x22#8 :: y :: w)) m.length = .ok 0x22#8 := by rw [rd_ok (by simp)]; simp
      have r2 : rd (m ++ 0x22#8 :: (0x22#8 :: inner t ++ 0x22#8 :: y :: w)) (m.length + 1) = .ok 0x22#8 := by rw [rd_ok (by simp)]; simp
      have r3 : rd (m ++ 0x22#8 :: (0x22#8 :: inner t ++ 0x22#8 :: y :: w)) (m.length + 2) = .ok x := by
        rw [List.cons_append, hxv, rd_ok (by simp)]; simp
      have r4 : (m ++ 0x22#8 :: (0x22#8 :: inner t ++ 0x22#8 :: y :: w)).drop (m.length + 2) = inner t ++ 0x22#8 :: y :: w := by
        rw [← List.drop_drop]; simp
      rw [r1, except_ok_bind, if_pos quote_ne, r2, except_ok_bind, if_pos rfl, r3, except_ok_bind, if_pos hx, r4,
        ih ht hy w (by simp at hn; omega), except_ok_bind]
      congr 1
      simp
      omega

theorem dropFirst_ok {c : Byte} {t : List Byte} (hc : c ≠ 0) (ht : Text t) (w : List Byte) :
    dropFirst (c :: t ++ 0 :: w) = .ok (t ++ 0 :: 0 :: w) := by
  rw [dropFirst, strlen_ok (Text.cons.2 ⟨hc, ht⟩), except_ok_bind, if_pos (by simp)]
  have e1 : ((c :: t ++ 0 :: w).drop 1).take (c :: t).length = t ++ [0] := by
    rw [List.cons_append, List.drop_one, List.tail_cons, List.length_cons, List.take_append]
    rw [List.take_of_length_le (by omega), Nat.add_sub_cancel_left]
    rfl
  have e2 : (c :: t ++ 0 :: w).drop (c :: t).length = 0 :: w := by simp
  rw [e1, e2]
  simp

theorem unescape_ok (n : Nat) : ∀ {s : List Byte} (_ : Text s) (_ : s ≠ []) (w : List Byte), s.length < n →
    ∃ y, unescape n (inner s ++ 0 :: w) = .ok (s ++ 0 :: (y ++ w)) ∧ s.length + y.length = (inner s).length := by
  induction n with
  | zero => intros; omega
  | succ n ih =>
    intro s hs hne w hn
    cases s with
    | nil => exact absurd rfl hne
    | cons c s =>
      have hc := Text.cons.1 hs
      have hi := inner_text hc.2
      /- after the first step the text is the character, the rest as it was, the end and maybe one more zero -/
      obtain ⟨z, e, hz⟩ : ∃ z, undouble (inner (c :: s) ++ 0 :: w) = .ok (c :: (inner s ++ 0 :: (z ++ w))) ∧ 1 + z.length + (inner s).length = (inner (c :: s)).length := by
        rw [inner_cons]
        by_cases hq : c = 0x22#8
        · subst hq
          refine ⟨[0], ?_, by simp; omega⟩
          have hd := dropFirst_ok quote_ne (t := 0x22#8 :: inner s) (Text.cons.2 ⟨quote_ne, hi⟩) w
          have e2 : (if (0x22#8 : Byte) = 0x22#8 then [0x22#8, 0x22#8] else [0x22#8]) ++ inner s ++ 0 :: w = 0x22#8 :: (0x22#8 :: inner s ++ 0 :: w) := by simp
          rw [e2, undouble, if_pos rfl]
          have r1 : rd (0x22#8 :: inner s ++ 0 :: w) 0 = .ok 0x22#8 := by simp [rd]
          rw [r1, except_ok_bind, if_pos rfl]
          exact hd
        · refine ⟨[], ?_, by simp [hq]; omega⟩
          rw [if_neg hq, List.singleton_append, List.cons_append, undouble, if_neg hq]
          rfl
      rw [unescape, e, except_ok_bind]
      dsimp only
      cases s with
      | nil =>
        have r1 : rd (inner [] ++ 0 :: (z ++ w)) 0 = .ok 0 := by simp [rd, inner_nil]
        rw [r1, except_ok_bind, if_neg (by simp)]
        exact ⟨z, rfl, by rw [← hz]; simp [inner_nil]⟩
      | cons d s =>
        obtain ⟨x, v, hxv, hx⟩ : ∃ x v, inner (d :: s) ++ 0 :: (z ++ w) = x :: v ∧ x ≠ 0 := by
          cases hi' : inner (d :: s) with
          | nil => rw [inner_cons] at hi'; split at hi' <;> simp at hi'
          | cons x v => exact ⟨x, _, rfl, hi x (by simp [hi'])⟩
        have r1 : rd (inner (d :: s) ++ 0 :: (z ++ w)) 0 = .ok x := by rw [hxv]; simp [rd]
        rw [r1, except_ok_bind, if_pos hx]
        obtain ⟨y, e3, hy⟩ := ih hc.2 (by simp) (z ++ w) (by simp at hn ⊢; omega)
        rw [e3, except_ok_bind]
        refine ⟨y ++ z, by simp, ?_⟩
        rw [← hz, ← hy]
        simp
        omega

/-- No two quotes after one another. -/
def Single : List Byte → Prop
  | a :: b :: t => ¬ (a = 0x22#8 ∧ b = 0x22#8) ∧ Single (b :: t)
  | _ => True

theorem unescape_same (n : Nat) : ∀ (c : Byte) {u : List Byte} (_ : Text u) (_ : Single (c :: u)) (rest : List Byte), u.length < n →
    unescape n (c :: u ++ 0 :: rest) = .ok (c :: u ++ 0 :: rest) := by
  induction n with
  | zero => intros; omega
  | succ n ih =>
    intro c u hu hs rest hn
    have e : undouble (c :: u ++ 0 :: rest) = .ok (c :: u ++ 0 :: rest) := by
      rw [List.cons_append, undouble]
      split
      · rename_i hq
        cases u with
        | nil => simp [rd, except_ok_bind]
        | cons d u =>
          have r1 : rd (d :: u ++ 0 :: rest) 0 = .ok d := by simp [rd]
          rw [r1, except_ok_bind, if_neg (fun h => hs.1 ⟨hq, h⟩)]
      · rfl
    rw [unescape, e, except_ok_bind]
    dsimp only [List.cons_append]
    cases u with
    | nil =>
      have r1 : rd (([] : List Byte) ++ 0 :: rest) 0 = .ok 0 := by simp [rd]
      rw [r1, except_ok_bind, if_neg (by simp)]
    | cons d u =>
      have r1 : rd (d :: u ++ 0 :: rest) 0 = .ok d := by simp [rd]
      rw [r1, except_ok_bind, if_pos (Text.cons.1 hu).1, ih d (Text.cons.1 hu).2 hs.2 rest (by simp at hn; omega), except_ok_bind]

theorem trim_none (nl : Bool) {c : Byte} (hc : ¬ Blank c ∨ (nl = true ∧ c = 0x0a#8)) (w : List Byte) : trim nl (c :: w) = .ok 0 := by
  rw [trim, if_neg]
  rintro ⟨-, h2, h3⟩
  rcases hc with hc | ⟨rfl, rfl⟩
  · exact hc ((isSpace_iff c).1 h2)
  · simp at h3

/-- The character after a cell. -/
structure Sep (delim y : Byte) : Prop where
  ne0 : y ≠ 0
  neq : y ≠ 0x22#8
  stop : y = delim ∨ y = 0x0a#8
  blank : ¬ Blank y ∨ y = 0x0a#8

theorem Sep.trim {delim y : Byte} (h : Sep delim y) (w : List Byte) : Token.trim true (y :: w) = .ok 0 :=
  trim_none true (h.blank.imp id fun h => ⟨rfl, h⟩) w

theorem readQuoted_ok {delim y : Byte} (hy : Sep delim y) {s u : List Byte} (hs : Text s) (hu : Text u) (h0 : s = [] → Single (y :: u)) (rest : List Byte) :
    readQuoted (ν := ν) (inner s ++ 0x22#8 :: y :: (u ++ 0 :: rest)) = .ok (some (.quoted s, y, y :: (u ++ 0 :: rest))) := by
  have hlen : s.length ≤ (inner s).length := by
    clear hs h0
    induction s with
    | nil => simp
    | cons c s ih => rw [inner_cons]; split <;> simp <;> omega
  rw [readQuoted, closing_ok _ hs hy.neq _ (by simp; omega), except_ok_bind]
  have r1 : rd (inner s ++ 0x22#8 :: y :: (u ++ 0 :: rest)) (inner s).length = .ok 0x22#8 := by rw [rd_ok (by simp)]; simp
  have w1 : wr (inner s ++ 0x22#8 :: y :: (u ++ 0 :: rest)) (inner s).length 0 = .ok (inner s ++ 0 :: y :: (u ++ 0 :: rest)) := by
    rw [wr_ok (by simp)]; simp
  have d1 : (inner s ++ 0 :: y :: (u ++ 0 :: rest)).drop ((inner s).length + 1) = y :: (u ++ 0 :: rest) := by rw [← List.drop_drop]; simp
  have r2 : rd (inner s ++ 0 :: y :: (u ++ 0 :: rest)) ((inner s).length + 1 + 0) = .ok y := by rw [rd_ok (by simp)]; simp
  rw [r1, except_ok_bind, if_neg quote_ne, w1, except_ok_bind, d1, hy.trim, except_ok_bind, r2, except_ok_bind]
  cases s with
  | nil =>
    have e := unescape_same (u.length + rest.length + 4) 0 (u := y :: u) (Text.cons.2 ⟨hy.ne0, hu⟩) ⟨by simp, h0 rfl⟩ rest (by simp; omega)
    have e' : unescape ((inner [] ++ 0 :: y :: (u ++ 0 :: rest)).length + 1) (inner [] ++ 0 :: y :: (u ++ 0 :: rest)) = .ok (0 :: y :: (u ++ 0 :: rest)) := by
      rw [inner_nil, List.nil_append]
      have hl : (0 :: y :: (u ++ 0 :: rest)).length + 1 = u.length + rest.length + 4 := by simp; omega
      rw [hl]
      simpa using e
    have hl0 : strlen (0 :: y :: (u ++ 0 :: rest)) = .ok 0 := by simp [strlen]
    rw [e', except_ok_bind, hl0, except_ok_bind]
    simp [inner_nil]
  | cons c s =>
    obtain ⟨z, e, hz⟩ := unescape_ok ((inner (c :: s) ++ 0 :: y :: (u ++ 0 :: rest)).length + 1) hs (by simp) (y :: (u ++ 0 :: rest)) (by
      have := hlen
      simp at this ⊢; omega)
    rw [e, except_ok_bind, strlen_ok hs, except_ok_bind, ← hz]
    have t1 : (c :: s ++ 0 :: (z ++ y :: (u ++ 0 :: rest))).take (c :: s).length = c :: s := by simp
    have t2 : (c :: s ++ 0 :: (z ++ y :: (u ++ 0 :: rest))).drop ((c :: s).length + z.length + 1 + 0) = y :: (u ++ 0 :: rest) := by
      have : (c :: s).length + z.length + 1 + 0 = (c :: s ++ 0 :: z).length := by simp; omega
      rw [this]
      have : c :: s ++ 0 :: (z ++ y :: (u ++ 0 :: rest)) = (c :: s ++ 0 :: z) ++ y :: (u ++ 0 :: rest) := by simp
      rw [this]
      simp
    rw [t1, t2]

theorem plainEnd_ok {delim y : Byte} (hy : Sep delim y) {s : List Byte} (hs : Text s) (h1 : delim ∉ s) (h2 : 0x0a#8 ∉ s) (w : List Byte) :
    plainEnd delim (s ++ y :: w) = .ok s.length := by
  induction s with
  | nil =>
    rw [List.nil_append, plainEnd, if_neg]
    · rfl
    · rintro ⟨-, a, b⟩; exact hy.stop.elim a b
  | cons c s ih =>
    rw [List.cons_append, plainEnd, if_pos ⟨(Text.cons.1 hs).1, fun h => h1 (by simp [h]), fun h => h2 (by simp [h])⟩,
      ih (Text.cons.1 hs).2 (fun h => h1 (by simp [h])) (fun h => h2 (by simp [h])), except_ok_bind]
    rfl

theorem numeric_no {s : List Byte} (hs : Text s) (h : ∃ c ∈ s, ¬ NumberChar c) (w : List Byte) : numeric (s ++ 0 :: w) = .ok false := by
  induction s with
  | nil => obtain ⟨c, hc, _⟩ := h; simp at hc
  | cons c s ih =>
    have hc := Text.cons.1 hs
    obtain ⟨o, e, ho⟩ := firstOcc_none (D := [0x2b#8, 0x2d#8, 0x2e#8, 0x65#8, 0x45#8, 0x78#8, 0x58#8]) (by simp [Text]) [] hc.1
    rw [List.cons_append, numeric]
    simp only [List.cons_append, List.nil_append] at e
    rw [e, except_ok_bind]
    split
    · rfl
    · rename_i hn
      rw [if_pos hc.1]
      apply ih hc.2
      obtain ⟨d, hd, hnd⟩ := h
      rcases List.mem_cons.1 hd with rfl | hd
      · exfalso
        apply hn
        refine ⟨?_, ?_⟩
        · cases hh : Chars.isHexDigit d
          · rfl
          · exact absurd (.inl hh) hnd
        · rw [ho.2 (fun h => hnd (.inr h))]; rfl
      · exact ⟨d, hd, hnd⟩

theorem numberChar_ne {c : Byte} : NumberChar c → c ≠ 0 := by
  unfold NumberChar; revert c; decide +kernel

theorem numberChar_quote : ¬ NumberChar 0x22#8 := by
  unfold NumberChar; decide +kernel

theorem numberChar_blank {c : Byte} : NumberChar c → ¬ Blank c ∧ c ≠ 0x22#8 ∧ c ≠ 0x0a#8 := by
  unfold NumberChar Blank; revert c; decide +kernel

theorem numeric_yes {s : List Byte} (h : ∀ c ∈ s, NumberChar c) (w : List Byte) : numeric (s ++ 0 :: w) = .ok true := by
  have key : ∀ c : Byte, NumberChar c ∨ c = 0 → ∃ o, firstOcc c [0x2b#8, 0x2d#8, 0x2e#8, 0x65#8, 0x45#8, 0x78#8, 0x58#8, 0] = .ok o ∧
      ¬ (Chars.isHexDigit c = false ∧ o.isNone = true) := by
    have : ∀ c : Byte, NumberChar c ∨ c = 0 → Chars.isHexDigit c = true ∨ c ∈ [0x2b#8, 0x2d#8, 0x2e#8, 0x65#8, 0x45#8, 0x78#8, 0x58#8, 0] := by unfold NumberChar; decide +kernel
    have occ : ∀ (c : Byte) (l : List Byte), Text l → ∃ o, firstOcc c (l ++ [0]) = .ok o ∧ (c ∈ l ++ [0] → o.isNone = false) := by
      intro c l hl
      obtain ⟨o, e, -, h⟩ := firstOcc_ok hl [] c
      refine ⟨o, e, fun hc => ?_⟩
      cases o with
      | none => exact absurd hc (h.1 rfl)
      | some _ => rfl
    intro c hc
    obtain ⟨o, e, ho⟩ := occ c [0x2b#8, 0x2d#8, 0x2e#8, 0x65#8, 0x45#8, 0x78#8, 0x58#8] (by simp [Text])
    refine ⟨o, e, fun h => ?_⟩
    rcases this c hc with h1 | h1
    · rw [h1] at h; exact absurd h.1 (by simp)
    · rw [ho h1] at h; exact absurd h.2 (by simp)
  induction s with
  | nil =>
    obtain ⟨o, e, ho⟩ := key 0 (.inr rfl)
    rw [List.nil_append, numeric, e, except_ok_bind, if_neg ho, if_neg (by simp)]
  | cons c s ih =>
    obtain ⟨o, e, ho⟩ := key c (.inl (h c (by simp)))
    rw [List.cons_append, numeric, e, except_ok_bind, if_neg ho, if_pos (numberChar_ne (h c (by simp)))]
    exact ih fun c hc => h c (by simp [hc])

/-- The cell is cut off at the separator. -/
theorem cutPlain_ok {delim y : Byte} (hy : Sep delim y) {s : List Byte} (hs : Text s) (hb : Bare delim s) (w : List Byte) :
    cutPlain delim (s ++ y :: w) = .ok (s.length, s ++ 0 :: w, s.length + 0, y) := by
  obtain ⟨h1, h2, ⟨c, t, rfl, hc, hq⟩, ⟨t', d, hd, hnb⟩⟩ := hb
  have e1 : plainEnd delim ((c :: t ++ y :: w).drop 1) = .ok t.length := by
    rw [List.cons_append, List.drop_one, List.tail_cons]
    exact plainEnd_ok hy (Text.cons.1 hs).2 (fun h => h1 (by simp [h])) (fun h => h2 (by simp [h])) w
  have e2 : rd (c :: t ++ y :: w) (t.length + 1) = .ok y := by rw [rd_ok (by simp)]; simp
  have e3 : (c :: t ++ y :: w).drop (t.length + 1) = y :: w := by simp
  have e5 : backUp (c :: t ++ y :: w) (t.length + 1) = .ok (t.length + 1) := by
    have hl : t.length = t'.length := by have := congrArg List.length hd; simp at this; omega
    have r : rd (c :: t ++ y :: w) t.length = .ok d := by
      rw [hl, hd, List.append_assoc, rd_ok (by simp)]; simp
    rw [backUp, r, except_ok_bind, if_neg (fun h => hnb ((isSpace_iff d).1 h))]
  have e6 : wr (c :: t ++ y :: w) (t.length + 1) 0 = .ok (c :: t ++ 0 :: w) := by rw [wr_ok (by simp)]; simp
  rw [cutPlain, e1, except_ok_bind]
  dsimp only
  rw [e2, except_ok_bind, if_pos hy.ne0, e3, hy.trim, except_ok_bind, Nat.add_zero, e2, except_ok_bind, e5, except_ok_bind, e6, except_ok_bind]
  rfl

theorem readPlain_ok {delim y : Byte} (hy : Sep delim y) {s : List Byte} (hs : Text s) (hb : Bare delim s) (hn : NoNumber io s) (w : List Byte) :
    readPlain io delim (s ++ y :: w) = .ok (some (.plain s, y, 0 :: w)) := by
  rw [readPlain, cutPlain_ok hy hs hb, except_ok_bind]
  dsimp only
  have : convert io s.length (s ++ 0 :: w) = .ok (.plain s) := by
    rcases hn with hn | ⟨h1, h2⟩
    · rw [convert, numeric_no hs hn, except_ok_bind, if_neg (by simp)]; simp
    · obtain ⟨k, e⟩ := h2 w
      rw [convert, numeric_yes h1, except_ok_bind, if_pos rfl, e, except_ok_bind]; simp
  rw [this, except_ok_bind]
  simp

theorem spelt_bare {n : ν} {t : List Byte} (h : Spelt io delim n t) : Text t ∧ Bare delim t := by
  obtain ⟨h1, h2, -⟩ := h
  refine ⟨fun x hx => numberChar_ne (h2 x hx).1, fun hx => (h2 _ hx).2 rfl, fun hx => (numberChar_blank (h2 _ hx).1).2.2 rfl, ?_, ?_⟩
  · obtain ⟨c, u, rfl⟩ := List.exists_cons_of_ne_nil h1
    have := numberChar_blank (h2 c (by simp)).1
    exact ⟨c, u, rfl, this.1, this.2.1⟩
  · exact ⟨t.dropLast, t.getLast h1, (List.dropLast_concat_getLast h1).symm, (numberChar_blank (h2 _ (List.getLast_mem h1)).1).1⟩

theorem readNumber_ok {delim y : Byte} (hy : Sep delim y) {n : ν} {t : List Byte} (h : Spelt io delim n t) (w : List Byte) :
    readPlain io delim (t ++ y :: w) = .ok (some (.number n, y, 0 :: w)) := by
  obtain ⟨k, e⟩ := h.2.2.2 w
  rw [readPlain, cutPlain_ok hy (spelt_bare h).1 (spelt_bare h).2, except_ok_bind]
  dsimp only
  rw [convert, numeric_yes (fun c hc => (h.2.1 c hc).1), except_ok_bind, if_pos rfl, e, except_ok_bind]
  simp

/-- What the parser makes of a cell and the character after it. -/
theorem readCell_ok {delim y : Byte} (hy : Sep delim y) {c : Cell ν} (hc : c.Ok io delim) {u : List Byte} (hu : Text u)
    (h0 : c = .quoted [] → Single (y :: u)) (rest : List Byte) :
    ∃ x, readCell io delim (enc io delim c ++ y :: (u ++ 0 :: rest)) = .ok (some (c, y, x :: (u ++ 0 :: rest))) ∧
      ∃ a v, enc io delim c ++ y :: (u ++ 0 :: rest) = a :: v ∧ a ≠ 0 ∧ ¬ Blank a := by
  cases c with
  | quoted s =>
    refine ⟨y, ?_, 0x22#8, _, rfl, quote_ne, by unfold Blank; decide⟩
    have e : enc io delim (.quoted s) ++ y :: (u ++ 0 :: rest) = 0x22#8 :: (inner s ++ 0x22#8 :: y :: (u ++ 0 :: rest)) := by simp [enc, inner]
    have r : rd (0x22#8 :: (inner s ++ 0x22#8 :: y :: (u ++ 0 :: rest))) 0 = .ok 0x22#8 := by simp [rd]
    rw [e, readCell, r, except_ok_bind, if_pos rfl, List.drop_one, List.tail_cons]
    exact readQuoted_ok hy hc.1 hu (fun h => h0 (by rw [h])) rest
  | plain s =>
    obtain ⟨⟨h1, h2, ⟨a, t, rfl, ha, hq⟩, h4⟩, hn⟩ := id hc.2.2
    refine ⟨0, ?_, a, _, rfl, (Text.cons.1 hc.1).1, ha⟩
    have r : rd (enc io delim (.plain (a :: t)) ++ y :: (u ++ 0 :: rest)) 0 = .ok a := by simp [rd, enc]
    rw [readCell, r, except_ok_bind, if_neg hq, if_neg (fun h => h1 (by simp [h]))]
    exact readPlain_ok hy hc.1 hc.2.2.1 hn _
  | number n =>
    have h := enc_number hc
    obtain ⟨h1, h2, ⟨a, t, e, ha, hq⟩, -⟩ := (spelt_bare h).2
    refine ⟨0, ?_, a, t ++ y :: (u ++ 0 :: rest), by rw [e]; rfl, (spelt_bare h).1 a (by rw [e]; simp), ha⟩
    have r : rd (enc io delim (.number n) ++ y :: (u ++ 0 :: rest)) 0 = .ok a := by rw [e]; simp [rd]
    rw [readCell, r, except_ok_bind, if_neg hq, if_neg (fun h => h1 (by rw [e]; simp [h]))]
    exact readNumber_ok hy h _

/-- One more row of cells under the columns. -/
def addRow : List (Column ν) → List (Cell ν) → List (Column ν)
  | old, [] => old
  | [], c :: cs => { name := none, cells := [c] } :: addRow [] cs
  | col :: old, c :: cs => { col with cells := col.cells ++ [c] } :: addRow old cs

/-- The next column with a cell more. -/
def under (old : List (Column ν)) (c : Cell ν) : Column ν :=
  match old with
  | [] => { name := none, cells := [c] }
  | col :: _ => { col with cells := col.cells ++ [c] }

theorem place_ok (done old : List (Column ν)) (c : Cell ν) (total : Nat) :
    place { cols := done ++ old, colc := done.length, total := total } c =
      .ok { cols := done ++ under old c :: old.tail,
            colc := done.length, total := total } := by
  cases old with
  | nil =>
    simp only [place]
    rw [if_pos (by simp), rd_ok (by simp), except_ok_bind, wr_ok (by simp), except_ok_bind]
    simp [under]
  | cons col old =>
    simp only [place]
    rw [if_neg (by simp), rd_ok (by simp), except_ok_bind, wr_ok (by simp), except_ok_bind]
    simp [under]

theorem parse_step {delim y : Byte} (hy : Sep delim y) {c : Cell ν} (hc : c.Ok io delim) {u : List Byte} (hu : Text u)
    (h0 : c = .quoted [] → Single (y :: u)) (rest : List Byte) (n : Nat) {s s1 s2 : St ν} (h1 : place s c = .ok s1)
    (h2 : ∀ p, advance delim s1 y p = some (s2, p.drop 1)) :
    parseLoop io delim (n + 1) s (enc io delim c ++ y :: (u ++ 0 :: rest)) = if u = [] then .ok (.none, s2) else parseLoop io delim n s2 (u ++ 0 :: rest) := by
  obtain ⟨x, e, a, v, hav, ha, hb⟩ := readCell_ok hy hc hu h0 rest
  rw [parseLoop]
  have t : trim false (enc io delim c ++ y :: (u ++ 0 :: rest)) = .ok 0 := by rw [hav]; exact trim_none _ (.inl hb) _
  have r : rd (enc io delim c ++ y :: (u ++ 0 :: rest)) 0 = .ok a := by rw [hav]; simp [rd]
  rw [t, except_ok_bind, List.drop_zero]
  dsimp only
  rw [r, except_ok_bind, if_neg ha, e, except_ok_bind]
  dsimp only
  rw [h1, except_ok_bind, h2]
  dsimp only
  have hdr : (x :: (u ++ 0 :: rest)).drop 1 = u ++ 0 :: rest := rfl
  rw [hdr]
  cases u with
  | nil =>
    have r : rd (([] : List Byte) ++ 0 :: rest) 0 = .ok 0 := by simp [rd]
    rw [r, except_ok_bind, if_neg (by simp), if_pos rfl]
  | cons d u =>
    have r : rd (d :: u ++ 0 :: rest) 0 = .ok d := by simp [rd]
    rw [r, except_ok_bind, if_pos (Text.cons.1 hu).1, if_neg (by simp)]

/-- No empty cell comes before two quotes after one another. -/
def Safe (io : Json.NumIO ν) (delim : Byte) (ts : List (Cell ν × Byte)) : Prop := ∀ a y b, ts = a ++ (.quoted [], y) :: b → Single (y :: textOf io delim b)

theorem Safe.tail {t : Cell ν × Byte} {ts : List (Cell ν × Byte)} (h : Safe io delim (t :: ts)) : Safe io delim ts := fun a y b e => h (t :: a) y b (by rw [e]; rfl)

theorem Safe.append {a b : List (Cell ν × Byte)} (h : Safe io delim (a ++ b)) : Safe io delim b := by
  induction a with
  | nil => exact h
  | cons t a ih => exact ih h.tail

/-- A delimiter: no blank, no quote, no zero. -/
structure Delim (delim : Byte) : Prop where
  ne0 : delim ≠ 0
  neq : delim ≠ 0x22#8
  blank : ¬ Blank delim

theorem Delim.sep {delim : Byte} (h : Delim delim) : Sep delim delim := ⟨h.ne0, h.neq, .inl rfl, .inl h.blank⟩

theorem Delim.newline {delim : Byte} (_ : Delim delim) : Sep delim 0x0a#8 := ⟨by decide, by decide, .inr rfl, .inr rfl⟩

theorem Delim.ne_newline {delim : Byte} (h : Delim delim) : (0x0a#8 : Byte) ≠ delim := by
  intro e
  apply h.blank
  rw [← e]
  unfold Blank
  decide

theorem enc_text {delim : Byte} {c : Cell ν} (hc : c.Ok io delim) : Text (enc io delim c) := by
  cases c with
  | quoted s =>
    intro x hx
    have : x = 0x22#8 ∨ x ∈ inner s := by
      simp only [enc, List.cons_append, List.mem_cons, List.mem_append, List.not_mem_nil, or_false] at hx
      rcases hx with h | h | h
      · exact .inl h
      · exact .inr h
      · exact .inl h
    rcases this with rfl | h
    · exact quote_ne
    · exact inner_text hc.1 x h
  | plain s => exact hc.1
  | number n => exact fun x hx => numberChar_ne (((enc_number hc).2.1 x hx).1)

/-- Cells fit to be written, each followed by a delimiter or a newline. -/
def TokensOk (io : Json.NumIO ν) (delim : Byte) (ts : List (Cell ν × Byte)) : Prop := ∀ t ∈ ts, t.1.Ok io delim ∧ Sep delim t.2

theorem textOf_text {delim : Byte} {ts : List (Cell ν × Byte)} (h : TokensOk io delim ts) : Text (textOf io delim ts) := by
  induction ts with
  | nil => simp [textOf, Text]
  | cons t ts ih =>
    rw [textOf_cons]
    intro x hx
    rcases List.mem_append.1 hx with hx | hx
    · exact enc_text (h t (by simp)).1 x hx
    · rcases List.mem_cons.1 hx with rfl | hx
      · exact (h t (by simp)).2.ne0
      · exact ih (fun t ht => h t (by simp [ht])) x hx

theorem textOf_append (a b : List (Cell ν × Byte)) : textOf io delim (a ++ b) = textOf io delim a ++ textOf io delim b := by simp [textOf]

theorem parse_row {delim : Byte} (hd : Delim delim) {cs : List (Cell ν)} (hcs : ∀ c ∈ cs, c.Ok io delim) (hne : cs ≠ []) (more : List (Cell ν × Byte))
    (hm : TokensOk io delim more) (hsafe : Safe io delim (tokens delim cs ++ more)) (rest : List Byte) (n : Nat) (done old : List (Column ν)) (total : Nat)
    (ht : total ≤ done.length + cs.length - 1) :
    parseLoop io delim (n + cs.length) { cols := done ++ old, colc := done.length, total := total } (textOf io delim (tokens delim cs ++ more) ++ 0 :: rest) =
      if textOf io delim more = [] then .ok (.none, { cols := done ++ addRow old cs, colc := 0, total := done.length + cs.length - 1 })
      else parseLoop io delim n { cols := done ++ addRow old cs, colc := 0, total := done.length + cs.length - 1 } (textOf io delim more ++ 0 :: rest) := by
  induction cs generalizing done old with
  | nil => exact absurd rfl hne
  | cons c cs ih =>
    have hadd : ∀ old : List (Column ν), addRow old (c :: cs) = under old c :: addRow old.tail cs := by
      intro old
      cases old <;> rfl
    cases cs with
    | nil =>
      have hp := place_ok done old c total
      have hst := parse_step hd.newline (hcs c (by simp)) (textOf_text hm)
        (fun h => hsafe [] _ more (by rw [h]; rfl)) rest n hp
        (s2 := { cols := done ++ addRow old [c], colc := 0, total := done.length + [c].length - 1 }) (fun p => by
          rw [advance, if_neg hd.ne_newline, if_pos (.inl rfl)]
          dsimp only
          have h1 : total < done.length ∨ total = done.length := by simp at ht; omega
          rw [if_pos h1, if_pos (by decide), hadd]
          rfl)
      rw [tokens, List.cons_append, textOf_cons, List.append_assoc]
      exact hst
    | cons d cs =>
      have hp := place_ok done old c total
      have hrec : TokensOk io delim (tokens delim (d :: cs) ++ more) := by
        intro t ht
        rcases List.mem_append.1 ht with ht | ht
        · have : ∀ (l : List (Cell ν)), (∀ c ∈ l, c.Ok io delim) → ∀ t ∈ tokens delim l, t.1.Ok io delim ∧ Sep delim t.2 := by
            intro l
            induction l with
            | nil => intro _ t ht; simp [tokens] at ht
            | cons c l ih =>
              intro hl t ht
              cases l with
              | nil => rw [tokens, List.mem_singleton] at ht; rw [ht]; exact ⟨hl c (by simp), hd.newline⟩
              | cons e l =>
                rw [tokens, List.mem_cons] at ht
                · rcases ht with rfl | ht
                  · exact ⟨hl c (by simp), hd.sep⟩
                  · exact ih (fun x hx => hl x (by simp [hx])) t ht
                · simp
          exact this _ (fun x hx => hcs x (by simp [hx])) t ht
        · exact hm t ht
      have etok : tokens delim (c :: d :: cs) = (c, delim) :: tokens delim (d :: cs) := by rw [tokens]; simp
      rw [etok, List.cons_append] at hsafe ⊢
      have hst := parse_step hd.sep (hcs c (by simp)) (textOf_text hrec)
        (fun h => hsafe [] _ _ (by rw [h]; rfl)) rest (n + (d :: cs).length) hp
        (s2 := { cols := done ++ under old c :: old.tail,
                 colc := done.length + 1, total := total }) (fun p => by
          rw [advance, if_pos rfl])
      rw [textOf_cons, List.append_assoc]
      have hn1 : n + (c :: d :: cs).length = n + (d :: cs).length + 1 := rfl
      rw [hn1]
      refine Eq.trans hst ?_
      have hne' : textOf io delim (tokens delim (d :: cs) ++ more) ≠ [] := by
        cases cs with
        | nil => rw [tokens, List.cons_append, textOf_cons]; simp
        | cons e cs => rw [tokens, List.cons_append, textOf_cons] <;> simp
      rw [if_neg hne']
      have hi := ih (fun x hx => hcs x (by simp [hx])) (by simp) hsafe.tail
        (done ++ [under old c]) old.tail
        (by simp at ht ⊢; omega)
      have hl : (done ++ [under old c]).length = done.length + 1 := by simp
      rw [hl] at hi
      rw [hadd]
      have hl2 : done.length + 1 + (d :: cs).length - 1 = done.length + (c :: d :: cs).length - 1 := by simp; omega
      rw [hl2] at hi
      simpa only [List.append_assoc, List.singleton_append] using hi

theorem single_cons {a : Byte} (h : a ≠ 0x22#8) {t : List Byte} (ht : Single t) : Single (a :: t) := by
  cases t with
  | nil => trivial
  | cons b t => exact ⟨fun hh => h hh.1, ht⟩

theorem single_append {m t : List Byte} (h : 0x22#8 ∉ m) (ht : Single t) : Single (m ++ t) := by
  induction m with
  | nil => exact ht
  | cons a m ih => exact single_cons (fun e => h (by simp [e])) (ih fun hm => h (by simp [hm]))

theorem single_quote {t : List Byte} (h : ∀ b u, t = b :: u → b ≠ 0x22#8) (ht : Single t) : Single (0x22#8 :: t) := by
  cases t with
  | nil => trivial
  | cons b t => exact ⟨fun hh => h b t rfl hh.2, ht⟩

theorem single_tokens {delim : Byte} {ts : List (Cell ν × Byte)} (h : TokensOk io delim ts) (hq : ∀ t ∈ ts, ∀ s, t.1.text = some s → s ≠ [] ∧ 0x22#8 ∉ s) :
    Single (textOf io delim ts) := by
  induction ts with
  | nil => trivial
  | cons t ts ih =>
    obtain ⟨hc, hy⟩ := h t (by simp)
    have hqt := hq t (by simp)
    have hi := ih (fun t ht => h t (by simp [ht])) (fun t ht => hq t (by simp [ht]))
    have hy' : Single (t.2 :: textOf io delim ts) := single_cons hy.neq hi
    rw [textOf_cons]
    obtain ⟨c, y⟩ := t
    cases c with
    | quoted s =>
      obtain ⟨hne, hnq⟩ := hqt s rfl
      have e : inner s = s := by have := inner_plain [] hnq; simpa [inner_nil] using this
      have e2 : enc io delim (.quoted s) ++ y :: textOf io delim ts = 0x22#8 :: (s ++ 0x22#8 :: y :: textOf io delim ts) := by
        have : enc io delim (.quoted s) = 0x22#8 :: (inner s ++ [0x22#8]) := rfl
        rw [this, e]
        simp
      dsimp only at hy' ⊢
      rw [e2]
      refine single_quote (fun b u hb => ?_) (single_append hnq (single_quote (fun b u hb => ?_) hy'))
      · cases s with
        | nil => exact absurd rfl hne
        | cons a s =>
          cases hb
          exact fun h => hnq (by simp [h])
      · cases hb
        exact hy.neq
    | plain s => exact single_append (hqt s rfl).2 hy'
    | number n => exact single_append (fun hx => numberChar_quote (((enc_number hc).2.1 _ hx).1)) hy'

theorem tokens_fst (delim : Byte) (cs : List (Cell ν)) : (tokens delim cs).map Prod.fst = cs := by
  induction cs with
  | nil => rfl
  | cons c cs ih =>
    cases cs with
    | nil => rfl
    | cons d cs => rw [tokens, List.map_cons, ih]; simp

theorem tokens_ok {delim : Byte} (hd : Delim delim) {cs : List (Cell ν)} (hcs : ∀ c ∈ cs, c.Ok io delim) : TokensOk io delim (tokens delim cs) := by
  induction cs with
  | nil => intro t ht; simp [tokens] at ht
  | cons c cs ih =>
    intro t ht
    cases cs with
    | nil => rw [tokens, List.mem_singleton] at ht; rw [ht]; exact ⟨hcs c (by simp), hd.newline⟩
    | cons e l =>
      rw [tokens, List.mem_cons] at ht
      · rcases ht with rfl | ht
        · exact ⟨hcs c (by simp), hd.sep⟩
        · exact ih (fun x hx => hcs x (by simp [hx])) t ht
      · simp

theorem safe_of {delim : Byte} {ts : List (Cell ν × Byte)} (h : TokensOk io delim ts) (he : EmptyLast (ts.map Prod.fst)) : Safe io delim ts := by
  intro a y b e
  subst e
  have hb := he (a.map Prod.fst) (b.map Prod.fst) (by simp)
  have hy := (h (.quoted [], y) (by simp)).2
  refine single_cons hy.neq (single_tokens (delim := delim) (fun t ht => h t (by simp [ht])) fun t ht => hb t.1 (List.mem_map_of_mem ht))

theorem parse_rows {delim : Byte} (hd : Delim delim) {k : Nat} (hk : 0 < k) (rest : List Byte) (rows : List (List (Cell ν))) (n : Nat) (cols : List (Column ν)) (total : Nat)
    (hrows : ∀ r ∈ rows, r.length = k ∧ ∀ c ∈ r, c.Ok io delim) (hne : rows ≠ []) (hsafe : Safe io delim (rows.flatMap (tokens delim))) (ht : total ≤ k - 1)
    (hn : rows.length * k ≤ n) :
    parseLoop io delim n { cols := cols, colc := 0, total := total } (textOf io delim (rows.flatMap (tokens delim)) ++ 0 :: rest) =
      .ok (.none, { cols := rows.foldl addRow cols, colc := 0, total := k - 1 }) := by
  induction rows generalizing n cols total with
  | nil => exact absurd rfl hne
  | cons r rows ih =>
    obtain ⟨hr, hrc⟩ := hrows r (by simp)
    have hn' : n = (n - k) + r.length := by
      have : k ≤ n := Nat.le_trans (by simp [Nat.add_mul]) hn
      omega
    have hmore : TokensOk io delim (rows.flatMap (tokens delim)) := by
      intro t ht
      obtain ⟨r', hr', ht'⟩ := List.mem_flatMap.1 ht
      exact tokens_ok hd (hrows r' (by simp [hr'])).2 t ht'
    rw [List.flatMap_cons] at hsafe ⊢
    have hp := parse_row hd hrc (by rintro rfl; simp at hr; omega) _ hmore hsafe rest (n - k) [] cols total (by simp; omega)
    simp only [List.nil_append, List.length_nil, Nat.zero_add] at hp
    rw [hn', hp, hr]
    cases rows with
    | nil => rw [if_pos (by simp [textOf])]; rfl
    | cons r' rows =>
      have hne' : textOf io delim ((r' :: rows).flatMap (tokens delim)) ≠ [] := by
        have h' := (hrows r' (by simp)).1
        cases r' with
        | nil => simp at h'; omega
        | cons c cs =>
          cases cs with
          | nil => rw [List.flatMap_cons, tokens, List.cons_append, textOf_cons]; simp
          | cons e cs => rw [List.flatMap_cons, tokens, List.cons_append, textOf_cons] <;> simp
      rw [if_neg hne']
      have hle : (r' :: rows).length * k ≤ n - k := by
        have : (r :: r' :: rows).length * k = (r' :: rows).length * k + k := by
          rw [List.length_cons, Nat.add_mul, Nat.one_mul]
        omega
      exact ih _ _ _ (fun x hx => hrows x (by simp [hx])) (by simp) hsafe.append (Nat.le_refl _) hle

/-- The `r`th row. -/
def rowAt (cols : List (Column ν)) (r : Nat) : List (Cell ν) := cols.filterMap (·.cells[r]?)

theorem rowAt_cons {c : Column ν} {r : Nat} (h : r < c.cells.length) (cols : List (Column ν)) : rowAt (c :: cols) r = c.cells[r] :: rowAt cols r := by
  rw [rowAt, List.filterMap_cons, List.getElem?_eq_getElem h]
  rfl

theorem addRow_first {cols : List (Column ν)} (h : ∀ c ∈ cols, c.name = none ∧ 0 < c.cells.length) :
    addRow [] (rowAt cols 0) = cols.map fun c => { c with cells := c.cells.take 1 } := by
  induction cols with
  | nil => rfl
  | cons c cols ih =>
    obtain ⟨h1, h2⟩ := h c (by simp)
    rw [rowAt_cons h2, addRow, ih fun c hc => h c (by simp [hc])]
    simp [h1, List.take_one, List.head?_eq_getElem?, List.getElem?_eq_getElem h2]

theorem addRow_next {cols : List (Column ν)} {r : Nat} (h : ∀ c ∈ cols, r < c.cells.length) :
    addRow (cols.map fun c => { c with cells := c.cells.take r }) (rowAt cols r) = cols.map fun c => { c with cells := c.cells.take (r + 1) } := by
  induction cols with
  | nil => rfl
  | cons c cols ih =>
    have h2 := h c (by simp)
    rw [rowAt_cons h2, List.map_cons, addRow, ih fun c hc => h c (by simp [hc])]
    rw [List.map_cons, List.take_add_one, List.getElem?_eq_getElem h2]
    rfl

theorem fold_rows {cols : List (Column ν)} {n : Nat} (h : ∀ c ∈ cols, c.name = none ∧ c.cells.length = n) (r : Nat) (hr : r < n) :
    ((List.range (r + 1)).map (rowAt cols)).foldl addRow [] = cols.map fun c => { c with cells := c.cells.take (r + 1) } := by
  induction r with
  | zero => exact addRow_first fun c hc => ⟨(h c hc).1, by have := (h c hc).2; omega⟩
  | succ r ih =>
    rw [List.range_succ, List.map_append, List.foldl_append, ih (by omega)]
    exact addRow_next fun c hc => by have := (h c hc).2; omega

theorem fold_all {cols : List (Column ν)} {n : Nat} (hn : 0 < n) (h : ∀ c ∈ cols, c.name = none ∧ c.cells.length = n) :
    ((List.range n).map (rowAt cols)).foldl addRow [] = cols := by
  have := fold_rows h (n - 1) (by omega)
  rw [Nat.sub_add_cancel hn] at this
  rw [this]
  clear this
  induction cols with
  | nil => rfl
  | cons c cols ih =>
    rw [List.map_cons, ih fun c hc => h c (by simp [hc]), List.take_of_length_le (by rw [(h c (by simp)).2]; exact Nat.le_refl _)]

theorem mapM_row {cols : List (Column ν)} {r : Nat} (h : ∀ c ∈ cols, r < c.cells.length) : (cols.mapM fun c => rd c.cells r) = .ok (rowAt cols r) := by
  induction cols with
  | nil => rfl
  | cons c cols ih =>
    have h2 := h c (by simp)
    rw [List.mapM_cons, rd_ok h2, except_ok_bind, ih fun c hc => h c (by simp [hc]), except_ok_bind, rowAt_cons h2]
    rfl

theorem rowAt_length {cols : List (Column ν)} {r : Nat} (h : ∀ c ∈ cols, r < c.cells.length) : (rowAt cols r).length = cols.length := by
  induction cols with
  | nil => rfl
  | cons c cols ih => rw [rowAt_cons (h c (by simp)), List.length_cons, ih fun c hc => h c (by simp [hc]), List.length_cons]

theorem rowAt_mem {cols : List (Column ν)} {r : Nat} {x : Cell ν} (h : x ∈ rowAt cols r) : ∃ c ∈ cols, x ∈ c.cells := by
  obtain ⟨c, hc, e⟩ := List.mem_filterMap.1 h
  exact ⟨c, hc, List.mem_of_getElem? e⟩

theorem writeRows_ok (pf : FloatPrinter) {delim : Byte} (hd : delim ≠ 0) {cols : List (Column ν)} (hne : cols ≠ []) (n r : Nat)
    (h : ∀ c ∈ cols, c.cells.length = r + n ∧ ∀ x ∈ c.cells, x.Ok io delim) {o : Out} (ho : o.Ok) :
    Appends o (textOf io delim ((List.range' r n).flatMap fun r => tokens delim (rowAt cols r))) (writeRows io pf delim cols n r o) := by
  induction n generalizing r o with
  | zero => exact Appends.pure ho
  | succ n ih =>
    have hr : ∀ c ∈ cols, r < c.cells.length := fun c hc => by have := (h c hc).1; omega
    rw [writeRows, mapM_row hr, except_ok_bind, List.range'_succ, List.flatMap_cons, textOf_append]
    refine Appends.bind (writeRow_ok pf hd (fun x hx => ?_) ?_ ho) fun o1 ho1 => ih (r + 1) (fun c hc => ⟨by have := (h c hc).1; omega, (h c hc).2⟩) ho1
    · obtain ⟨c, hc, hx⟩ := rowAt_mem hx
      exact (h c hc).2 x hx
    · intro e
      have := rowAt_length hr
      rw [e] at this
      simp at this
      exact hne (List.length_eq_zero_iff.1 this.symm)

/-- The text of a table without names is parsed to the table. -/
theorem parse_table {delim : Byte} (hd : Delim delim) {cols : List (Column ν)} (hne : cols ≠ []) {n : Nat} (hn : 0 < n)
    (h : ∀ c ∈ cols, c.name = none ∧ c.cells.length = n ∧ ∀ x ∈ c.cells, x.Ok io delim)
    (he : EmptyLast ((List.range n).flatMap (rowAt cols))) (rest : List Byte) (m : Nat) (hm : n * cols.length ≤ m) :
    ∃ s : St ν, parseLoop io delim m { cols := [], colc := 0, total := 0 } (textOf io delim ((List.range n).flatMap fun r => tokens delim (rowAt cols r)) ++ 0 :: rest) = .ok (.none, s) ∧
      s.cols = cols := by
  have hk : 0 < cols.length := List.length_pos_iff.2 hne
  have hrows : ∀ r ∈ (List.range n).map (rowAt cols), r.length = cols.length ∧ ∀ c ∈ r, c.Ok io delim := by
    intro r hr
    obtain ⟨i, hi, rfl⟩ := List.mem_map.1 hr
    refine ⟨rowAt_length fun c hc => by have := (h c hc).2.1; simp at hi; omega, fun x hx => ?_⟩
    obtain ⟨c, hc, hx⟩ := rowAt_mem hx
    exact (h c hc).2.2 x hx
  have e : ((List.range n).flatMap fun r => tokens delim (rowAt cols r)) = ((List.range n).map (rowAt cols)).flatMap (tokens delim) := by
    rw [List.flatMap_map]
  have hok : TokensOk io delim (((List.range n).map (rowAt cols)).flatMap (tokens delim)) := by
    intro t ht
    obtain ⟨r, hr, ht⟩ := List.mem_flatMap.1 ht
    exact tokens_ok hd (hrows r hr).2 t ht
  have hsafe := safe_of hok (by
    rw [List.map_flatMap]
    simp only [tokens_fst]
    rw [List.flatMap_map]
    exact he)
  rw [e, parse_rows hd hk rest _ m [] 0 hrows (by simp; omega) hsafe (by omega) (by simpa using hm)]
  exact ⟨_, rfl, fold_all hn fun c hc => ⟨(h c hc).1, (h c hc).2.1⟩⟩

theorem textOf_length (ts : List (Cell ν × Byte)) : ts.length ≤ (textOf io delim ts).length := by
  induction ts with
  | nil => simp
  | cons t ts ih => rw [textOf_cons]; simp; omega

theorem tokens_length (delim : Byte) (cs : List (Cell ν)) : (tokens delim cs).length = cs.length := by
  rw [← List.length_map Prod.fst, tokens_fst]

theorem flat_length {cols : List (Column ν)} {n : Nat} (h : ∀ c ∈ cols, c.cells.length = n) (delim : Byte) :
    ∀ k, k ≤ n → ((List.range k).flatMap fun r => tokens delim (rowAt cols r)).length = k * cols.length
  | 0, _ => by simp
  | k + 1, hk => by
    rw [List.range_succ, List.flatMap_append, List.length_append, flat_length h delim k (by omega)]
    simp only [List.flatMap_cons, List.flatMap_nil, List.append_nil]
    rw [tokens_length, rowAt_length fun c hc => by have := h c hc; omega, Nat.add_mul, Nat.one_mul]

/-- The whole of `parse` for a table without names. -/
theorem parse_plain {delim : Byte} (hd : Delim delim) {cols : List (Column ν)} (hne : cols ≠ []) {n : Nat} (hn : 0 < n)
    (h : ∀ c ∈ cols, c.name = none ∧ c.cells.length = n ∧ ∀ x ∈ c.cells, x.Ok io delim)
    (he : EmptyLast ((List.range n).flatMap (rowAt cols))) (rest : List Byte) (hasHeader : Bool) :
    parse io hasHeader delim (textOf io delim ((List.range n).flatMap fun r => tokens delim (rowAt cols r)) ++ 0 :: rest) =
      if hasHeader then do .ok (.none, ← cols.mapM header) else .ok (.none, cols) := by
  obtain ⟨s, e, rfl⟩ := parse_table hd hne hn h he rest ((textOf io delim ((List.range n).flatMap fun r => tokens delim (rowAt cols r)) ++ 0 :: rest).length + 1) (by
    have h1 := textOf_length (io := io) (delim := delim) ((List.range n).flatMap fun r => tokens delim (rowAt cols r))
    rw [flat_length (fun c hc => (h c hc).2.1) delim n (Nat.le_refl _)] at h1
    simp; omega)
  rw [parse, e, except_ok_bind]
  dsimp only
  rw [if_neg (by simp), if_neg (by simpa using hne)]

theorem inOrder_eq {cols : List (Column ν)} {named : Bool} (h1 : ∀ c ∈ cols, c.name.isSome = named) {n : Nat} (h : ∀ c ∈ cols, c.cells.length = n) (hne : cols ≠ []) :
    inOrder cols = (if named then cols.map headerCell else []) ++ (List.range n).flatMap (rowAt cols) := by
  cases cols with
  | nil => exact absurd rfl hne
  | cons c cols =>
    have e1 : (c :: cols).any (·.name.isSome) = named := by
      cases named with
      | false => rw [List.any_eq_false]; intro x hx; rw [h1 x hx]; simp
      | true => rw [List.any_eq_true]; exact ⟨c, by simp, h1 c (by simp)⟩
    have e2 : (((c :: cols).head?.map (·.cells.length)).getD 0) = n := h c (by simp)
    rw [inOrder, e1, e2]
    rfl

theorem cells_ok {cols : List (Column ν)} {n : Nat} (h : ∀ c ∈ cols, c.cells.length = n) {P : Cell ν → Prop} (hp : ∀ x ∈ (List.range n).flatMap (rowAt cols), P x) :
    ∀ c ∈ cols, ∀ x ∈ c.cells, P x := by
  intro c hc x hx
  obtain ⟨r, hr, rfl⟩ := List.getElem_of_mem hx
  apply hp
  rw [List.mem_flatMap]
  refine ⟨r, by rw [List.mem_range, ← h c hc]; exact hr, List.mem_filterMap.2 ⟨c, hc, List.getElem?_eq_getElem hr⟩⟩

/-- **C50, for tables without a hazard.** Let a table be rectangular, of any size, with or without column names; let its cells be text cells (texts of any
    characters written in quotes, or texts fit to stand without), and let no empty cell come before another empty cell or a cell that holds a quote.
    Writing it with a delimiter that is neither a blank nor a quote and parsing the text that is written gives the same table and no error. -/
theorem C50_round_trip_partial (pf : FloatPrinter) {delim : Byte} (hd0 : delim ≠ 0) (hdq : delim ≠ 0x22#8) (hdb : ¬ Blank delim)
    {cols : List (Column ν)} {named : Bool} (hr : Rectangular named cols) (hok : ∀ c ∈ inOrder cols, c.Ok io delim) (he : EmptyLast (inOrder cols))
    {o : Out} (ho : o.Ok) (rest : List Byte) :
    ∃ text, Appends o text (write io pf delim o cols) ∧ parse io named delim (text ++ 0 :: rest) = .ok (.none, cols) := by
  obtain ⟨hne, hnm, n, hn, hlen⟩ := hr
  have hd : Delim delim := ⟨hd0, hdq, hdb⟩
  rw [inOrder_eq hnm hlen hne] at hok he
  have hcells := cells_ok hlen fun x hx => hok x (List.mem_append.2 (.inr hx))
  have hw := fun {o : Out} (ho : o.Ok) => writeRows_ok pf hd0 hne n 0 (fun c hc => ⟨by rw [hlen c hc, Nat.zero_add], hcells c hc⟩) ho
  rw [← List.range_eq_range'] at hw
  obtain ⟨c0, cols0, hc0⟩ := List.exists_cons_of_ne_nil hne
  have hwr : ∀ o, write io pf delim o cols = (if named then writeRow io pf delim o (cols.map headerCell) else .ok o) >>= writeRows io pf delim cols n 0 := by
    intro o
    have h1 := hnm c0 (by simp [hc0])
    have h2 := hlen c0 (by simp [hc0])
    rw [hc0, write, if_neg (by omega), h1, h2, ← hc0]
    cases named <;> rfl
  cases named with
  | false =>
    refine ⟨textOf io delim ((List.range n).flatMap fun r => tokens delim (rowAt cols r)), ?_, ?_⟩
    · rw [hwr, if_neg (by simp), except_ok_bind]
      exact hw ho
    · rw [parse_plain hd hne hn (fun c hc => ⟨by simpa using hnm c hc, hlen c hc, hcells c hc⟩) (by simpa using he)]
      rfl
  | true =>
    /- the table with the names as cells -/
    let full := cols.map fun c => ({ name := none, cells := headerCell c :: c.cells } : Column ν)
    have hrow0 : rowAt full 0 = cols.map headerCell := by
      have : ∀ l : List (Column ν), rowAt (l.map fun c => ({ name := none, cells := headerCell c :: c.cells } : Column ν)) 0 = l.map headerCell := by
        intro l
        rw [rowAt, List.filterMap_map]
        exact congrFun (List.filterMap_eq_map (f := headerCell)) l
      exact this cols
    have hrow : ∀ r, rowAt full (r + 1) = rowAt cols r := by
      intro r
      show rowAt (cols.map fun c => ({ name := none, cells := headerCell c :: c.cells } : Column ν)) (r + 1) = _
      rw [rowAt, List.filterMap_map]
      rfl
    have hall : ((List.range (n + 1)).flatMap (rowAt full)) = cols.map headerCell ++ (List.range n).flatMap (rowAt cols) := by
      rw [List.range_succ_eq_map, List.flatMap_cons, hrow0, List.flatMap_map]
      congr 2
      funext r
      exact hrow r
    have htok : ((List.range (n + 1)).flatMap fun r => tokens delim (rowAt full r)) =
        tokens delim (cols.map headerCell) ++ (List.range n).flatMap fun r => tokens delim (rowAt cols r) := by
      rw [List.range_succ_eq_map, List.flatMap_cons, hrow0, List.flatMap_map]
      congr 2
      funext r
      show tokens delim (rowAt full (r + 1)) = _
      rw [hrow r]
    have hfull : ∀ c ∈ full, c.name = none ∧ c.cells.length = n + 1 ∧ ∀ x ∈ c.cells, x.Ok io delim := by
      intro c hc
      obtain ⟨c, hcm, rfl⟩ := List.mem_map.1 hc
      replace hc := hcm
      refine ⟨rfl, by simp [hlen c hc], fun x hx => ?_⟩
      rcases List.mem_cons.1 hx with rfl | hx
      · exact hok _ (List.mem_append.2 (.inl (by rw [if_pos rfl]; exact List.mem_map_of_mem hc)))
      · exact hcells c hc x hx
    have hp := parse_plain hd (cols := full) (by simpa [full] using hne) (Nat.succ_pos n) hfull (by rw [hall]; simpa using he) rest true
    rw [htok, textOf_append] at hp
    refine ⟨textOf io delim (tokens delim (cols.map headerCell)) ++ textOf io delim ((List.range n).flatMap fun r => tokens delim (rowAt cols r)), ?_, ?_⟩
    · rw [hwr, if_pos rfl]
      refine Appends.bind (writeRow_ok pf hd0 (fun x hx => hok x (List.mem_append.2 (.inl (by simpa using hx)))) (by simpa using hne) ho) fun o1 ho1 => hw ho1
    · rw [hp, if_pos rfl]
      have : full.mapM header = .ok cols := by
        have : ∀ l : List (Column ν), (∀ c ∈ l, c.name.isSome = true) →
            (l.map fun c => ({ name := none, cells := headerCell c :: c.cells } : Column ν)).mapM header = .ok l := by
          intro l hl
          induction l with
          | nil => rfl
          | cons c l ih =>
            rw [List.map_cons, List.mapM_cons, ih fun c hc => hl c (by simp [hc])]
            have hc := hl c (by simp)
            obtain ⟨name, cells⟩ := c
            cases name with
            | none => simp at hc
            | some nm => rfl
        exact this cols hnm
      rw [this, except_ok_bind]

theorem readQuoted_any {y : Byte} (hy : y ≠ 0x22#8) {s : List Byte} (hs : Text s) (hne : s ≠ []) (w : List Byte) {k : Nat} (ht : trim true (y :: w) = .ok k)
    {d : Byte} (hd : rd (y :: w) k = .ok d) :
    readQuoted (ν := ν) (inner s ++ 0x22#8 :: y :: w) = .ok (some (.quoted s, d, (y :: w).drop k)) := by
  have hlen : s.length ≤ (inner s).length := by
    clear hs hne
    induction s with
    | nil => simp
    | cons c s ih => rw [inner_cons]; split <;> simp <;> omega
  have hk : k < (y :: w).length := by
    unfold rd at hd
    split at hd
    · rename_i h; exact (List.getElem?_eq_some_iff.1 h).1
    · cases hd
  rw [readQuoted, closing_ok _ hs hy _ (by simp; omega), except_ok_bind]
  have r1 : rd (inner s ++ 0x22#8 :: y :: w) (inner s).length = .ok 0x22#8 := by rw [rd_ok (by simp)]; simp
  have w1 : wr (inner s ++ 0x22#8 :: y :: w) (inner s).length 0 = .ok (inner s ++ 0 :: y :: w) := by
    rw [wr_ok (by simp)]; simp
  have d1 : (inner s ++ 0 :: y :: w).drop ((inner s).length + 1) = y :: w := by rw [← List.drop_drop]; simp
  have r2 : rd (inner s ++ 0 :: y :: w) ((inner s).length + 1 + k) = .ok d := by
    rw [← hd, rd, rd]
    have : (inner s ++ 0 :: y :: w)[(inner s).length + 1 + k]? = (y :: w)[k]? := by
      have h := List.getElem?_drop (xs := inner s ++ 0 :: y :: w) (i := (inner s).length + 1) (j := k)
      rw [d1] at h
      exact h.symm
    rw [this]
  obtain ⟨z, e, hz⟩ := unescape_ok ((inner s ++ 0 :: y :: w).length + 1) hs hne (y :: w) (by simp; omega)
  rw [r1, except_ok_bind, if_neg quote_ne, w1, except_ok_bind, d1, ht, except_ok_bind, r2, except_ok_bind]
  rw [e, except_ok_bind, strlen_ok hs, except_ok_bind, ← hz]
  have t1 : (s ++ 0 :: (z ++ y :: w)).take s.length = s := by simp
  have t2 : (s ++ 0 :: (z ++ y :: w)).drop (s.length + z.length + 1 + k) = (y :: w).drop k := by
    rw [← List.drop_drop]
    congr 1
    have : s.length + z.length + 1 = (s ++ 0 :: z).length := by simp; omega
    rw [this]
    have : s ++ 0 :: (z ++ y :: w) = (s ++ 0 :: z) ++ y :: w := by simp
    rw [this]
    simp
  rw [t1, t2]

/-- The text written for one row of two cells in quotes. -/
theorem write_pair (pf : FloatPrinter) {delim : Byte} (hd0 : delim ≠ 0) {s t : List Byte} (hs : Text s) (ht : Text t) (hls : s.length + 1 < maxLen)
    (hlt : t.length + 1 < maxLen) {o : Out} (ho : o.Ok) :
    Appends o (0x22#8 :: (inner s ++ 0x22#8 :: delim :: 0x22#8 :: (inner t ++ [0x22#8, 0x0a#8])))
      (write io pf delim o [{ name := none, cells := [.quoted s] }, { name := none, cells := [.quoted t] }]) := by
  have h := writeRow_ok (io := io) pf hd0 (delim := delim) (cs := [.quoted s, .quoted t]) (by
    intro c hc
    simp only [List.mem_cons, List.not_mem_nil, or_false] at hc
    rcases hc with rfl | rfl
    · exact ⟨hs, hls⟩
    · exact ⟨ht, hlt⟩) (by simp) ho
  have e : textOf io delim (tokens delim [.quoted s, .quoted t]) = 0x22#8 :: (inner s ++ 0x22#8 :: delim :: 0x22#8 :: (inner t ++ [0x22#8, 0x0a#8])) := by
    simp [tokens, textOf, enc, inner]
  rw [e] at h
  have e2 : write io pf delim o [{ name := none, cells := [.quoted s] }, { name := none, cells := [.quoted t] }] =
      writeRow io pf delim o [.quoted s, .quoted t] >>= fun o => .ok o := rfl
  rw [e2]
  obtain ⟨o', h1, h2, h3⟩ := h
  exact ⟨o', by rw [h1]; rfl, h2, h3⟩

/-- **C50 fails for empty cells.** The row of two empty cells is written as `"","" ` and a newline, for any delimiter; parsing that text is an error. -/
theorem C50_two_empty_cells (pf : FloatPrinter) {delim : Byte} (hd0 : delim ≠ 0) (hdq : delim ≠ 0x22#8) (hdb : ¬ Blank delim) {o : Out} (ho : o.Ok) (rest : List Byte) :
    ∃ text, Appends o text (write io pf delim o [{ name := none, cells := [.quoted []] }, { name := none, cells := [.quoted []] }]) ∧
      ∃ cols, parse io false delim (text ++ 0 :: rest) = .ok (.unexpectedEnd, cols) := by
  refine ⟨_, write_pair pf hd0 text_nil text_nil (by decide) (by decide) ho, ?_⟩
  have hdel : Delim delim := ⟨hd0, hdq, hdb⟩
  have hd8 : delim ≠ 0#8 := hd0
  have e1 : readQuoted (ν := ν) (0x22#8 :: delim :: 0x22#8 :: 0x22#8 :: 0x0a#8 :: 0 :: rest) =
      .ok (some (.quoted [], delim, delim :: 0x22#8 :: 0x0a#8 :: 0 :: 0 :: rest)) := by
    have hc := closing_ok (rest.length + 7) text_nil hdq (0x22#8 :: 0x22#8 :: 0x0a#8 :: 0 :: rest) (by simp)
    simp only [inner_nil, List.nil_append, List.length_nil] at hc
    have hdf := dropFirst_ok (c := 0x22#8) (t := [0x22#8, 0x0a#8]) quote_ne (by simp [Text]) rest
    simp only [List.cons_append, List.nil_append] at hdf
    simp only [BitVec.ofNat_eq_ofNat] at hdf
    have hu : unescape (rest.length + 1 + 1 + 1 + 1 + 1 + 1 + 1) (0 :: delim :: 0x22#8 :: 0x22#8 :: 0x0a#8 :: 0 :: rest) =
        .ok (0 :: delim :: 0x22#8 :: 0x0a#8 :: 0 :: 0 :: rest) := by
      simp [unescape, undouble, rd, hd8, hdq, hdf, except_ok_bind]
    simp only [BitVec.ofNat_eq_ofNat] at hu
    rw [readQuoted]
    simp only [List.length_cons]
    rw [hc, except_ok_bind]
    simp only [rd, wr, List.getElem?_cons_zero, except_ok_bind, if_neg quote_ne]
    simp [hdel.sep.trim, except_ok_bind, hu, strlen]
  have e2 : readQuoted (ν := ν) (0x0a#8 :: 0 :: 0 :: rest) = .ok Option.none := by
    simp [readQuoted, closing, skip, rd, except_ok_bind]
  simp only [BitVec.ofNat_eq_ofNat] at e1 e2
  have tq : ∀ w, trim false (0x22#8 :: w) = .ok 0 := fun w => trim_none _ (.inl (by unfold Blank; decide)) w
  simp only [inner_nil, List.nil_append, List.cons_append]
  rw [parse]
  simp only [List.length_cons]
  simp [parseLoop, tq, rd, except_ok_bind, readCell, e1, e2, place, wr, advance]

/-- **C50 fails for an empty cell before a cell that holds a quote**, and without an error: the row of the cells (empty) and `a"b` comes back as a table whose
    second column has the two cells `a` and `b"`. -/
theorem C50_silent_change (pf : FloatPrinter) {o : Out} (ho : o.Ok) :
    ∃ text, Appends o text (write io pf 0x2c#8 o [{ name := none, cells := [.quoted []] }, { name := none, cells := [.quoted [0x61#8, 0x22#8, 0x62#8]] }]) ∧
      parse io false 0x2c#8 (text ++ [0]) =
        .ok (.none, [{ name := none, cells := [.quoted []] }, { name := none, cells := [.quoted [0x61#8], .plain [0x62#8, 0x22#8]] }]) :=
  ⟨_, write_pair pf (by decide) text_nil (by simp [Text]) (by decide) (by decide) ho, rfl⟩

/-- **C50 fails for a delimiter that is a blank**, such as the tab: a row of two cells comes back as one column of two cells. -/
theorem C50_blank_delimiter (pf : FloatPrinter) {delim : Byte} (hdb : Blank delim) (hdn : delim ≠ 0x0a#8) {s t : List Byte} (hs : Text s) (ht : Text t)
    (hs0 : s ≠ []) (ht0 : t ≠ []) (hls : s.length + 1 < maxLen) (hlt : t.length + 1 < maxLen) {o : Out} (ho : o.Ok) (rest : List Byte) :
    ∃ text, Appends o text (write io pf delim o [{ name := none, cells := [.quoted s] }, { name := none, cells := [.quoted t] }]) ∧
      parse io false delim (text ++ 0 :: rest) = .ok (.none, [{ name := none, cells := [.quoted s, .quoted t] }]) := by
  have hd0 : delim ≠ 0 := by rintro rfl; revert hdb; unfold Blank; decide
  have hdq : delim ≠ 0x22#8 := by rintro rfl; revert hdb; unfold Blank; decide
  have hnq : ¬ Blank 0x22#8 := by unfold Blank; decide
  refine ⟨_, write_pair pf hd0 hs ht hls hlt ho, ?_⟩
  have t1 : ∀ w, trim true (delim :: 0x22#8 :: w) = .ok 1 := by
    intro w
    rw [trim, if_pos ⟨hd0, (isSpace_iff delim).2 hdb, .inr ⟨rfl, hdn⟩⟩, trim_none _ (.inl hnq)]
    rfl
  have e1 := readQuoted_any (ν := ν) hdq hs hs0 (0x22#8 :: (inner t ++ 0x22#8 :: 0x0a#8 :: 0 :: rest)) (t1 _) (d := 0x22#8) (by simp [rd])
  have e2 := readQuoted_any (ν := ν) (y := 0x0a#8) (by decide) ht ht0 (0 :: rest) (trim_none true (.inr ⟨rfl, rfl⟩) _) (d := 0x0a#8) (by simp [rd])
  have tq : ∀ w, trim false (0x22#8 :: w) = .ok 0 := fun w => trim_none _ (.inl hnq) w
  simp only [List.drop_succ_cons, List.drop_zero, BitVec.ofNat_eq_ofNat] at e1 e2
  have e3 : (0x22#8 :: (inner s ++ 0x22#8 :: delim :: 0x22#8 :: (inner t ++ [0x22#8, 0x0a#8]))) ++ 0 :: rest =
      0x22#8 :: (inner s ++ 0x22#8 :: delim :: 0x22#8 :: (inner t ++ 0x22#8 :: 0x0a#8 :: 0 :: rest)) := by simp
  rw [e3, parse]
  obtain ⟨n, hn⟩ : ∃ n, (0x22#8 :: (inner s ++ 0x22#8 :: delim :: 0x22#8 :: (inner t ++ 0x22#8 :: 0x0a#8 :: 0 :: rest))).length + 1 = n + 2 := by
    simp
  rw [hn]
  have h1 : (0x22#8 : Byte) ≠ delim := Ne.symm hdq
  have h2 : (0x0a#8 : Byte) ≠ delim := Ne.symm hdn
  simp [parseLoop, tq, rd, except_ok_bind, readCell, e1, e2, place, wr, advance, h1, h2]

/-! ## The numbers of the library -/

open Zpl.Number

theorem digit_number {c : Byte} (h : Chars.isHexDigit c = true) : NumberChar c := .inl h

theorem whole_spelt {ρ : Type} (F : Reals ρ) (pf : FloatPrinter) {n : Num ρ} (h : Whole n) {delim : Byte} (hd : ¬ NumberChar delim) : ∃ t, Spelt (jsonIO F pf) delim n t := by
  have hstop : Number.Stop 0 := by decide
  have ne : ∀ {t : List Byte}, (∀ c ∈ t, NumberChar c) → ∀ c ∈ t, NumberChar c ∧ c ≠ delim := fun ht c hc => ⟨ht c hc, fun e => hd (e ▸ ht c hc)⟩
  cases h with
  | @decimal v h1 h2 =>
    obtain ⟨ha, hp⟩ := C87_decimal_partial F pf h1 h2
    obtain ⟨e1, e2, e3, e4, e5⟩ := decimal_digits v.natAbs (by omega)
    refine ⟨_, ?_, ne fun c hc => ?_, ha, fun r => ⟨_, hp 0 r hstop⟩⟩
    · obtain ⟨c, u, e, hc⟩ := decimal_head e2 e3
      rw [signed_eq, e]; simp
    · rw [signed_eq, List.mem_append] at hc
      rcases hc with hc | hc
      · unfold signOf at hc
        split at hc
        · simp only [Sign.text, List.mem_singleton] at hc; rw [hc]; unfold NumberChar; decide
        · simp [Sign.text] at hc
      · exact digit_number (decimal_run e2 c hc).1
  | @hex k h =>
    obtain ⟨ha, hp⟩ := C87_hex_partial F pf h
    obtain ⟨e1, e2, e3, e4⟩ := hex_digits k
    refine ⟨_, by simp, ne fun c hc => ?_, ha, fun r => ⟨_, hp 0 r hstop⟩⟩
    rcases List.mem_cons.1 hc with rfl | hc
    · unfold NumberChar; decide
    · rcases List.mem_cons.1 hc with rfl | hc
      · unfold NumberChar; decide
      · rw [e1] at hc; exact digit_number (hex_run e2 c hc)
  | @negZero p h =>
    rcases h with rfl | rfl
    · obtain ⟨ha, hp⟩ := C87_negative_zero F pf false
      exact ⟨_, by simp, ne (by unfold NumberChar; decide), ha, fun r => ⟨_, hp 0 r hstop⟩⟩
    · obtain ⟨ha, hp⟩ := C87_negative_zero F pf true
      exact ⟨_, by simp, ne (by unfold NumberChar; decide), ha, fun r => ⟨_, hp 0 r hstop⟩⟩

/-- A cell of a table with texts and integers that can be written: any text in quotes, a fit text without quotes that is not made of characters of numbers only, or an integer (other than the
    least one, and none of the negative ones in hexadecimal notation). -/
def Cell.Plain {ρ : Type} (delim : Byte) : Cell (Num ρ) → Prop
  | .quoted s => Text s ∧ s.length + 1 < maxLen
  | .plain s => Text s ∧ s.length + 1 < maxLen ∧ Bare delim s ∧ ∃ c ∈ s, ¬ NumberChar c
  | .number n => Whole n

theorem plain_ok {ρ : Type} (F : Reals ρ) (pf : FloatPrinter) {delim : Byte} (hd : ¬ NumberChar delim) {c : Cell (Num ρ)} (h : c.Plain delim) : c.Ok (jsonIO F pf) delim := by
  cases c with
  | quoted s => exact h
  | plain s => exact ⟨h.1, h.2.1, h.2.2.1, .inl h.2.2.2⟩
  | number n => exact whole_spelt F pf h hd

/-- **C50, for tables of texts and integers.** With the library's own reader and printer of numbers: let the cells be texts or integers, and let the delimiter be no character that
    occurs in numbers. Then the table comes back, the integers as the same integers in the same notation. -/
theorem C50_integers_partial {ρ : Type} (F : Reals ρ) (pf : FloatPrinter) {delim : Byte} (hd0 : delim ≠ 0) (hdq : delim ≠ 0x22#8) (hdb : ¬ Blank delim) (hdn : ¬ NumberChar delim)
    {cols : List (Column (Num ρ))} {named : Bool} (hr : Rectangular named cols) (hok : ∀ c ∈ inOrder cols, c.Plain delim) (he : EmptyLast (inOrder cols))
    {o : Out} (ho : o.Ok) (rest : List Byte) :
    ∃ text, Appends o text (write (jsonIO F pf) pf delim o cols) ∧ parse (jsonIO F pf) named delim (text ++ 0 :: rest) = .ok (.none, cols) :=
  C50_round_trip_partial pf hd0 hdq hdb hr (fun c hc => plain_ok F pf hdn (hok c hc)) he ho rest

theorem mapM_header_ub {cols : List (Column ν)} {n : Nat} (hn : 0 < n) (h : ∀ c ∈ cols, c.cells.length = n) (hx : ∃ c ∈ cols, ∃ v l, c.cells = .number v :: l) : cols.mapM header = .error .ub := by
  induction cols with
  | nil => obtain ⟨c, hc, -⟩ := hx; simp at hc
  | cons c cols ih =>
    rw [List.mapM_cons]
    have hl := h c (by simp)
    have ht : (∃ c ∈ cols, ∃ v l, c.cells = .number v :: l) → cols.mapM header = .error .ub := ih fun c hc => h c (by simp [hc])
    obtain ⟨name, cells⟩ := c
    obtain ⟨d, hd, v, l, e⟩ := hx
    cases cells with
    | nil => simp at hl; omega
    | cons x cells =>
      rcases List.mem_cons.1 hd with rfl | hd
      · simp only at e
        rw [e]; rfl
      · have e' := ht ⟨d, hd, v, l, e⟩
        cases x with
        | quoted s => rw [e']; rfl
        | plain s => rw [e']; rfl
        | number v => rfl

/-- **C50: a number in the first row.** Let a table without names be written, and let some column begin with a number. If the text is then parsed with its first row as the names, the number of that
    column (the bytes of the integer) is taken for the address of its name. -/
theorem C50_number_as_name (pf : FloatPrinter) {delim : Byte} (hd0 : delim ≠ 0) (hdq : delim ≠ 0x22#8) (hdb : ¬ Blank delim)
    {cols : List (Column ν)} (hr : Rectangular false cols) (hok : ∀ c ∈ inOrder cols, c.Ok io delim) (he : EmptyLast (inOrder cols)) (hx : ∃ c ∈ cols, ∃ v l, c.cells = .number v :: l)
    {o : Out} (ho : o.Ok) (rest : List Byte) :
    ∃ text, Appends o text (write io pf delim o cols) ∧ parse io true delim (text ++ 0 :: rest) = .error .ub := by
  obtain ⟨text, h1, h2⟩ := C50_round_trip_partial pf hd0 hdq hdb hr hok he ho rest
  refine ⟨text, h1, ?_⟩
  obtain ⟨hne, -, n, hn, hlen⟩ := hr
  unfold parse at h2 ⊢
  cases e : parseLoop io delim ((text ++ 0 :: rest).length + 1) { cols := [], colc := 0, total := 0 } (text ++ 0 :: rest) with
  | error f => rw [e] at h2; exact absurd h2 (by simp [bind, Except.bind])
  | ok p =>
    obtain ⟨err, s⟩ := p
    rw [e, except_ok_bind] at h2
    rw [except_ok_bind]
    dsimp only at h2 ⊢
    split at h2
    · rename_i hne'; simp at h2; exact absurd h2.1 hne'
    · split at h2
      · simp at h2
      · rename_i k1 k2
        simp at h2
        rw [if_neg k1, if_neg k2, if_pos rfl, h2, mapM_header_ub hn hlen hx]
        rfl

/-- The text of a cell without quotes in a table of one cell, and a newline. -/
theorem parse_one {delim : Byte} (hd : Delim delim) {s : List Byte} (hs : Text s) (hb : Bare delim s) (hnum : ∀ c ∈ s, NumberChar c) {r : Except Fault (Option ν × Nat)} (rest : List Byte)
    (hread : io.read (s ++ 0 :: 0 :: rest) = r) :
    parse io false delim (s ++ 0x0a#8 :: 0 :: rest) = r >>= fun p => .ok (.none, [{ name := none, cells := [match p.1 with | some n => .number n | none => .plain s] }]) := by
  have hc := cutPlain_ok hd.newline hs hb (0 :: rest)
  obtain ⟨h1, h2, ⟨a, t, e, ha, hq⟩, -⟩ := hb
  have tr : trim false (s ++ 0x0a#8 :: 0 :: rest) = .ok 0 := by rw [e]; exact trim_none _ (.inl ha) _
  have r0 : rd (s ++ 0x0a#8 :: 0 :: rest) 0 = .ok a := by rw [e]; simp [rd]
  have hrp : readPlain io delim (s ++ 0x0a#8 :: 0 :: rest) = r >>= fun p => .ok (some ((match p.1 with | some n => .number n | none => .plain s), 0x0a#8, 0 :: 0 :: rest)) := by
    rw [readPlain, hc, except_ok_bind]
    dsimp only
    rw [convert, numeric_yes hnum, except_ok_bind, if_pos rfl, hread]
    cases r with
    | error f => rfl
    | ok p =>
      obtain ⟨o, k⟩ := p
      rw [except_ok_bind, except_ok_bind]
      cases o <;> simp [except_ok_bind]
  rw [parse, parseLoop, tr, except_ok_bind, List.drop_zero]
  dsimp only
  rw [r0, except_ok_bind, if_neg (hs a (by rw [e]; simp)), readCell, r0, except_ok_bind, if_neg hq, if_neg (fun h => h1 (by rw [e]; simp [h])), hrp]
  cases r with
  | error f => rfl
  | ok p =>
    obtain ⟨o, k⟩ := p
    have hnd := hd.ne_newline
    cases o <;> simp [except_ok_bind, place, wr, rd, advance, hnd]

/-- **C50 fails for words such as `bad`** that have no quotes in the text and are made of the letters `a` to `f` (and do not begin with `e`): the cell is the number zero. -/
theorem C50_words_become_zero {ρ : Type} (F : Reals ρ) (pf : FloatPrinter) {delim : Byte} (hd0 : delim ≠ 0) (hdq : delim ≠ 0x22#8) (hdb : ¬ Blank delim)
    {u : List Byte} (hu : ∀ x ∈ u, Chars.isHexDigit x = true ∧ Chars.isDigit x = false) (hn : u ≠ []) (he : u.head? ≠ some 0x65#8 ∧ u.head? ≠ some 0x45#8) (hl : u.length ≤ 47) (hdu : delim ∉ u) (rest : List Byte) :
    ∃ n : Num ρ, n.val = .int 0 ∧ parse (jsonIO F pf) false delim (u ++ 0x0a#8 :: 0 :: rest) = .ok (.none, [{ name := none, cells := [.number n] }]) := by
  obtain ⟨n, h1, h2⟩ := C88_words_are_zero F hu hn he hl (c := 0) (by decide) (0 :: rest)
  have hnum : ∀ c ∈ u, NumberChar c := fun c hc => digit_number (hu c hc).1
  refine ⟨n, h2, ?_⟩
  have hb : Bare delim u := by
    refine ⟨hdu, fun hx => (numberChar_blank (hnum _ hx)).2.2 rfl, ?_, u.dropLast, u.getLast hn, (List.dropLast_concat_getLast hn).symm, (numberChar_blank (hnum _ (List.getLast_mem hn))).1⟩
    obtain ⟨c, t, rfl⟩ := List.exists_cons_of_ne_nil hn
    have := numberChar_blank (hnum c (by simp))
    exact ⟨c, t, rfl, this.1, this.2.1⟩
  rw [parse_one (io := jsonIO F pf) ⟨hd0, hdq, hdb⟩ (fun x hx => numberChar_ne (hnum x hx)) hb hnum rest h1]
  rfl

/-- **C50 fails for long numbers:** a cell of 48 digits or more makes the parser write past the end of an array. -/
theorem C50_long_number_overruns {ρ : Type} (F : Reals ρ) (pf : FloatPrinter) {delim : Byte} (hd0 : delim ≠ 0) (hdq : delim ≠ 0x22#8) (hdb : ¬ Blank delim)
    {ds : List Nat} (hds : ∀ d ∈ ds, d < 10) (hl : 48 ≤ ds.length) (hdu : delim ∉ decimal ds) (rest : List Byte) :
    parse (jsonIO F pf) false delim (decimal ds ++ 0x0a#8 :: 0 :: rest) = .error .oob := by
  have h1 := C88_long_number_overruns F .none hds hl (c := 0) (by decide) (0 :: rest)
  have hn : decimal ds ≠ [] := by intro h; have := congrArg List.length h; simp [decimal] at this; simp [this] at hl
  have hnum : ∀ c ∈ decimal ds, NumberChar c := fun c hc => digit_number (decimal_run hds c hc).1
  have hb : Bare delim (decimal ds) := by
    refine ⟨hdu, fun hx => (numberChar_blank (hnum _ hx)).2.2 rfl, ?_, (decimal ds).dropLast, (decimal ds).getLast hn, (List.dropLast_concat_getLast hn).symm, (numberChar_blank (hnum _ (List.getLast_mem hn))).1⟩
    obtain ⟨c, t, e⟩ := List.exists_cons_of_ne_nil hn
    rw [e] at hnum
    have := numberChar_blank (hnum c (by simp))
    exact ⟨c, t, e, this.1, this.2.1⟩
  rw [parse_one (io := jsonIO F pf) ⟨hd0, hdq, hdb⟩ (fun x hx => numberChar_ne (hnum x hx)) hb hnum rest h1]
  rfl

theorem numeral_chars (n : Nat) : ∀ c ∈ numeral false 10 n, NumberChar c := by
  intro c hc
  rw [numeral, List.mem_map] at hc
  obtain ⟨d, hd, rfl⟩ := hc
  exact digit_number (digit_dec ⟨d, digits_mem (by omega) n d hd⟩).2.1

/-- **C50, for reals in scientific notation:** the numbers of `Number.C89_exponent_partial` can stand in cells as well, whatever floating-point arithmetic is. -/
theorem C50_reals_partial {ρ : Type} (F : Reals ρ) (pf : FloatPrinter) {delim : Byte} (hdn : ¬ NumberChar delim) {s es : Sign} (hs : s ≠ .plus) (hes : es ≠ .plus) {b k m x : Nat} {r : ρ}
    (hb : b < 2 ^ 31) (hm : 0 < m) (hm2 : m < 2 ^ 31) (hk : k ≤ 15) (hx : 0 < x) (hx2 : x ≤ if es = .minus then 8 else 7) (hr : ∀ rest, F.read (mantissa s b k m ++ 0 :: rest) = .ok r) :
    ∃ n, n.val = .real (Nat.repeat (F.scale (es == .minus)) x r) ∧ (Cell.number n).Ok (jsonIO F pf) delim := by
  obtain ⟨n, h1, h2, h3⟩ := C89_exponent_partial F pf hs hes hb hm hm2 hk hx hx2 hr
  have hsg : ∀ s : Sign, ∀ c ∈ s.text, NumberChar c := by
    intro s c hc
    cases s <;> simp [Sign.text] at hc <;> rw [hc] <;> unfold NumberChar <;> decide
  have hch : ∀ c ∈ scientific s b k m es x, NumberChar c := by
    intro c hc
    simp only [scientific, mantissa, List.mem_append, List.mem_cons] at hc
    rcases hc with (hc | hc | rfl | hc | hc) | rfl | hc | hc
    · exact hsg s c hc
    · exact numeral_chars b c hc
    · unfold NumberChar; decide
    · rw [List.eq_of_mem_replicate hc]; unfold NumberChar; decide
    · exact numeral_chars m c hc
    · unfold NumberChar; decide
    · exact hsg es c hc
    · exact numeral_chars x c hc
  refine ⟨n, h1, _, ?_, fun c hc => ⟨hch c hc, fun e => hdn (e ▸ hch c hc)⟩, h3, fun r => ⟨_, h2 0 r (by decide)⟩⟩
  simp [scientific, mantissa]

/-! ## Cases that meet the hypotheses -/

section
variable {ρ : Type}

/-- The columns `k` with the cells `a"b`, `x y`, `v` with the numbers -7 and 31 (written as `0x1f`), and `w` with `1` and an empty cell. -/
def exampleTable : List (Column (Num ρ)) :=
  [{ name := some [0x6b#8], cells := [.quoted [0x61#8, 0x22#8, 0x62#8], .plain [0x78#8, 0x20#8, 0x79#8]] },
   { name := some [0x76#8], cells := [.number { val := .int (-7) }, .number { val := .int 31, props := .isHex }] },
   { name := some [0x77#8], cells := [.quoted [0x31#8], .quoted []] }]

example : Rectangular true (exampleTable (ρ := ρ)) := ⟨by simp [exampleTable], by simp [exampleTable], 2, by decide, by simp [exampleTable]⟩

instance (c : Byte) : Decidable (Blank c) := by unfold Blank; infer_instance

instance (c : Byte) : Decidable (NumberChar c) := by unfold NumberChar; infer_instance

theorem example_order : inOrder (exampleTable (ρ := ρ)) = [.quoted [0x6b#8], .quoted [0x76#8], .quoted [0x77#8], .quoted [0x61#8, 0x22#8, 0x62#8], .number { val := .int (-7) }, .quoted [0x31#8],
    .plain [0x78#8, 0x20#8, 0x79#8], .number { val := .int 31, props := .isHex }, .quoted []] := rfl

example : ∀ c ∈ inOrder (exampleTable (ρ := ρ)), c.Plain 0x2c#8 := by
  rw [example_order]
  intro c hc
  simp only [List.mem_cons, List.not_mem_nil, or_false] at hc
  rcases hc with rfl | rfl | rfl | rfl | rfl | rfl | rfl | rfl | rfl
  all_goals first
    | exact ⟨by simp [Text], by decide⟩
    | exact ⟨by simp [Text], by decide, ⟨by decide, by decide, ⟨_, _, rfl, by decide, by decide⟩, ⟨[0x78#8, 0x20#8], 0x79#8, rfl, by decide⟩⟩, ⟨0x79#8, by decide, by decide⟩⟩
    | exact Whole.decimal (by decide) (by decide)
    | exact Whole.hex (n := 31) (by decide)

example : ¬ NumberChar 0x2c#8 ∧ ¬ Blank 0x2c#8 := by decide

example : EmptyLast (inOrder (exampleTable (ρ := ρ))) := by
  rw [example_order]
  intro a b h c hc
  have : b = [] := by
    rcases a with _ | ⟨a1, _ | ⟨a2, _ | ⟨a3, _ | ⟨a4, _ | ⟨a5, _ | ⟨a6, _ | ⟨a7, _ | ⟨a8, a⟩⟩⟩⟩⟩⟩⟩⟩ <;> simp at h
    have := h.2.2.2.2.2.2.2.2
    cases a with
    | nil => simpa using this
    | cons x a => simp at this
  rw [this] at hc
  simp at hc

/-- The text `ee`, made of characters of numbers, is none. -/
example (F : Reals ρ) (pf : FloatPrinter) : (Cell.plain [0x65#8, 0x65#8]).Ok (jsonIO F pf) 0x2c#8 :=
  ⟨by simp [Text], by decide, ⟨by decide, by decide, ⟨_, _, rfl, by decide, by decide⟩, ⟨[0x65#8], 0x65#8, rfl, by decide⟩⟩, .inr ⟨by decide, fun r => ⟨1, rfl⟩⟩⟩

/-- A column that begins with a number (C50_number_as_name). -/
example : Rectangular false [({ name := none, cells := [.number { val := .int 2020 }] } : Column (Num ρ))] := ⟨by simp, by simp, 1, by decide, by simp⟩

/-- The word `bad`. -/
example : ∀ x ∈ [0x62#8, 0x61#8, 0x64#8], Chars.isHexDigit x = true ∧ Chars.isDigit x = false := by decide

example : ∀ d ∈ List.replicate 60 7, d < 10 := by simp

end

/-- `12.0034e-5`, with reals that keep the text of the mantissa and the exponent. -/
example (pf : FloatPrinter) : ∃ n, n.val = Val.real (Nat.repeat (textReals.scale true) 5 (mantissa .none 12 2 34, (0 : Int))) ∧ (Cell.number n).Ok (jsonIO textReals pf) 0x2c#8 :=
  C50_reals_partial textReals pf (s := .none) (es := .minus) (b := 12) (k := 2) (m := 34) (x := 5) (by unfold NumberChar; decide) (by decide) (by decide) (by decide) (by decide) (by decide)
    (by decide) (by decide) (by decide) (textReals_read mantissa_text)

example : ({ buf := List.replicate 65536 0, out := [] } : Out).Ok := ⟨List.length_replicate, by rw [List.getElem?_replicate]; rfl⟩

end Zpl.Csv
