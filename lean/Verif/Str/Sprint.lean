import Verif.Str.Fprintf
import Verif.Str.ZString

/-!
# Printing into memory (print.c:21-35, 65-84; stringlib.c:48-65, 194-202; memory_custom.c:28-30, memory_custom.h:284-290)  -  C126

The functions differ in where the text goes: `zpl_bprintf` returns a buffer shared by all its calls of a thread, `zpl_asprintf` and the functions of strings make
a copy.  All allocations succeed; `junk` is what fresh memory holds.

## Model -/

namespace Zpl.Sprint

open Zpl.Str Zpl.Print Zpl.Fprintf

/-- print.c:21-25, 65-72 `zpl_bprintf`, `zpl_bprintf_va`: the buffer afterwards; the result is its address. -/
def bprintf (pf : FloatPrinter) (buf fmt : List Byte) (args : List Arg) : Except Fault (List Byte) := do
  let (buf, _) ← snprintf pf buf maxLen fmt args
  .ok buf

/-- memory_custom.h:284-290 `zpl_alloc_str_len`: a new block with the first `len` bytes and a NUL. -/
def allocStrLen (junk : Nat → Byte) (str : List Byte) (len : Nat) : Except Fault (List Byte) := do
  let block ← ZString.put (ZString.fresh junk (len + 1)) 0 str len
  wr block len 0

/-- memory_custom.c:28-30 `zpl_alloc_str`. -/
def allocStr (junk : Nat → Byte) (str : List Byte) : Except Fault (List Byte) := do
  let n ← strlen str
  allocStrLen junk str n

/-- print.c:27-35, 74-81 `zpl_asprintf`, `zpl_asprintf_va`: the thread's own buffer afterwards, the new block, and the result. -/
def asprintf (pf : FloatPrinter) (junk : Nat → Byte) (tmp fmt : List Byte) (args : List Arg) : Except Fault (List Byte × List Byte × Int) := do
  let (tmp, res) ← snprintf pf tmp maxLen fmt args
  let block ← allocStr junk tmp
  .ok (tmp, block, res)

/-- stringlib.c:48-56 `zpl_string_sprintf_buf`: the thread's buffer afterwards and the string. -/
def sprintfBuf (pf : FloatPrinter) (junk : Nat → Byte) (buf fmt : List Byte) (args : List Arg) : Except Fault (List Byte × ZString.ZStr) := do
  let (buf, _) ← snprintf pf buf maxLen fmt args
  let z ← ZString.make junk (some buf)
  .ok (buf, z)

/-- stringlib.c:58-65 `zpl_string_sprintf`, with the caller's buffer. -/
def sprintf (pf : FloatPrinter) (junk : Nat → Byte) (buf : List Byte) (numBytes : Nat) (fmt : List Byte) (args : List Arg) : Except Fault (List Byte × ZString.ZStr) := do
  let (buf, _) ← snprintf pf buf numBytes fmt args
  let z ← ZString.make junk (some buf)
  .ok (buf, z)

/-- stringlib.c:194-202 `zpl_string_append_fmt`: a cleared buffer of its own, all but one byte of it to be used. -/
def appendFmt (pf : FloatPrinter) (junk : Nat → Byte) (z : ZString.ZStr) (fmt : List Byte) (args : List Arg) : Except Fault ZString.ZStr := do
  let (buf, res) ← snprintf pf (List.replicate maxLen 0) (maxLen - 1) fmt args
  ZString.appendLength junk z buf (res - 1)

/-! ## Specification -/

/-- A call: its format and its arguments. -/
abbrev Call := Format × List Arg

/-- The call prints `s`: the format is well formed, the arguments fit it and give the text `s`. -/
def Prints (c : Call) (s : List Byte) : Prop := c.1.Valid ∧ render c.1 c.2 = some s

/-- A buffer with its full size and a NUL at its end, such as one that is cleared. -/
def Buffer (buf : List Byte) : Prop := buf.length = maxLen ∧ buf[maxLen - 1]? = some 0

/-- `zpl_bprintf` several times. -/
def bprintfs (pf : FloatPrinter) : List Call → List Byte → Except Fault (List Byte)
  | [], buf => .ok buf
  | c :: cs, buf => bprintf pf buf (spell c.1 ++ [0]) c.2 >>= bprintfs pf cs

/-- `zpl_asprintf` several times: all blocks and results. -/
def asprintfs (pf : FloatPrinter) (junk : Nat → Byte) : List Call → List Byte → Except Fault (List (List Byte × Int))
  | [], _ => .ok []
  | c :: cs, tmp => do
    let (tmp, block, res) ← asprintf pf junk tmp (spell c.1 ++ [0]) c.2
    let rest ← asprintfs pf junk cs tmp
    .ok ((block, res) :: rest)

/-- `zpl_string_append_fmt` several times. -/
def appendFmts (pf : FloatPrinter) (junk : Nat → Byte) : List Call → ZString.ZStr → Except Fault ZString.ZStr
  | [], z => .ok z
  | c :: cs, z => appendFmt pf junk z (spell c.1 ++ [0]) c.2 >>= appendFmts pf junk cs

/-! ## Lemmas -/

theorem layout_text {d : Directive} (hd : d.conv ≠ .r) (w : Option Int) (p : Option Nat) (s : List Byte) : Text (layout d w p s) := by
  have h1 : Text (upTo p (s.takeWhile (· ≠ 0))) := by
    have h0 : Text (s.takeWhile (· ≠ 0)) := by
      intro c hc
      have := List.all_takeWhile (p := fun c : Byte => decide (c ≠ 0)) (l := s)
      simpa using List.all_eq_true.1 this c hc
    cases p with
    | none => exact h0
    | some p => exact fun c hc => h0 c (List.mem_of_mem_take hc)
  have h2 : ∀ n (x : Byte), x ≠ 0 → Text (List.replicate n x) := fun n x hx c hc => by rw [(List.mem_replicate.1 hc).2]; exact hx
  have h3 : ∀ n, Text (List.replicate n (if .zero ∈ d.flags ∧ d.precision = .none then 0x30#8 else 0x20#8)) := by
    intro n; apply h2; split <;> decide
  have happ : ∀ {a b : List Byte}, Text a → Text b → Text (a ++ b) := fun ha hb c hc => (List.mem_append.1 hc).elim (ha c) (hb c)
  unfold layout
  dsimp only
  rw [if_neg hd]
  split
  · split
    · intro c hc; simp at hc
    · exact h1
  · split
    · exact happ h1 (h3 _)
    · exact happ (h3 _) h1

/-- Only `%r` can print a NUL. -/
theorem prints_text {c : Call} {s : List Byte} (h : Prints c s) (hr : ∀ p ∈ c.1.items, p.2.conv ≠ .r) : Text s := by
  obtain ⟨⟨⟨hv, hl⟩, h⟩⟩ := (⟨h⟩ : PLift _)
  have key : ∀ (items : List (List Byte × Directive)) (args rest : List Arg) (t : List Byte), (∀ p ∈ items, Literal p.1 ∧ p.2.conv ≠ .r) → renderItems items args = some (t, rest) → Text t := by
    intro items
    induction items with
    | nil => intro args rest t _ h; injection h with h; injection h with h1 h2; subst h1; intro c hc; simp at hc
    | cons p items ih =>
      intro args rest t hp h
      obtain ⟨s, d⟩ := p
      rw [renderItems] at h
      cases h1 : renderDirective d args with
      | none => rw [h1] at h; cases h
      | some fa =>
        obtain ⟨f, args'⟩ := fa
        rw [h1, Option.bind_some] at h
        dsimp only at h
        cases h2 : renderItems items args' with
        | none => rw [h2] at h; cases h
        | some tb =>
          obtain ⟨t', args2⟩ := tb
          rw [h2, Option.map_some] at h
          injection h with h
          injection h with h3 h4
          subst h3
          have hf : Text f := by
            unfold renderDirective at h1
            cases hw : widthOf d.width args with
            | none => rw [hw] at h1; cases h1
            | some wa =>
              rw [hw, Option.bind_some] at h1
              dsimp only at h1
              cases hpr : precisionOf d.precision wa.2 with
              | none => rw [hpr] at h1; cases h1
              | some pa =>
                rw [hpr, Option.bind_some] at h1
                cases hb : body d pa.1 pa.2 with
                | none => rw [hb] at h1; cases h1
                | some ba =>
                  rw [hb, Option.map_some] at h1
                  injection h1 with h1
                  injection h1 with h1 _
                  rw [← h1]
                  exact layout_text (hp (s, d) (by simp)).2 _ _ _
          have ht := ih args' args2 t' (fun q hq => hp q (by simp [hq])) h2
          intro c hc
          rcases List.mem_append.1 hc with hc | hc
          · rcases List.mem_append.1 hc with hc | hc
            · exact ((hp (s, d) (by simp)).1 c hc).1
            · exact hf c hc
          · exact ht c hc
  rw [render] at h
  cases hi : renderItems c.1.items c.2 with
  | none => rw [hi] at h; cases h
  | some ta =>
    rw [hi, Option.map_some] at h
    injection h with h
    subst h
    have := key _ _ ta.2 ta.1 (fun p hp => ⟨(hv p hp).1, hr p hp⟩) hi
    intro x hx
    rcases List.mem_append.1 hx with hx | hx
    · exact this x hx
    · exact (hl x hx).1

/-- Printing a text that fits into a buffer. -/
theorem snprintf_ok (pf : FloatPrinter) {buf : List Byte} (hb : Buffer buf) {c : Call} {s : List Byte} (h : Prints c s) {n : Nat} (hn : n ≤ maxLen) (hs : s.length < n) :
    ∃ buf', snprintf pf buf n (spell c.1 ++ [0]) c.2 = .ok (buf', if s.length + 1 = n then -1 else ((s.length + 1 : Nat) : Int)) ∧ Buffer buf' ∧
      ∃ rest, buf' = s ++ 0 :: rest := by
  have hm : (0 : Nat) < maxLen := by decide
  obtain ⟨t, e, hl, ht, -, h3⟩ := C54_fits_partial pf c.1 h.1 c.2 h.2 [] buf n hs (maxLen - 1) (by omega) (by rw [hb.1]; omega) (fun _ => hb.2)
  have hsplit : t = s ++ 0 :: t.drop (s.length + 1) := by
    conv => lhs; rw [← List.take_append_drop (s.length + 1) t, ht]
    simp
  refine ⟨t, e, ⟨hl.trans hb.1, ?_⟩, _, hsplit⟩
  by_cases hlast : s.length < maxLen - 1
  · exact (h3 hlast).trans hb.2
  · have : maxLen - 1 = s.length := by omega
    rw [this, hsplit, List.getElem?_append_right (by omega), Nat.sub_self]
    rfl

theorem allocStr_ok (junk : Nat → Byte) {s : List Byte} (hs : Text s) (rest : List Byte) : allocStr junk (s ++ 0 :: rest) = .ok (s ++ [0]) := by
  have hf : (ZString.fresh junk (s.length + 1)).length = s.length + 1 := by simp [ZString.fresh]
  rw [allocStr, strlen_ok hs, except_ok_bind, allocStrLen, ZString.put_ok (by rw [hf]; omega) (by simp), except_ok_bind]
  rw [List.take_zero, List.nil_append, Nat.zero_add, List.take_append_of_le_length (Nat.le_refl _), List.take_of_length_le (Nat.le_refl _)]
  have h1 : ∃ x, (ZString.fresh junk (s.length + 1)).drop s.length = [x] := by
    refine List.length_eq_one_iff.1 ?_
    rw [List.length_drop, hf]; omega
  obtain ⟨x, hx⟩ := h1
  rw [hx, ZString.wr_mid]

theorem make_ok (junk : Nat → Byte) {s : List Byte} (hs : Text s) (rest : List Byte) : ∃ z, ZString.make junk (some (s ++ 0 :: rest)) = .ok z ∧ ZString.Holds z s := by
  rw [ZString.make, strlen_ok hs, except_ok_bind, ZString.makeLength_ok junk _ _ (by simp)]
  refine ⟨_, rfl, ZString.holds_iff.2 ⟨[], ?_⟩⟩
  simp

/-! ## C126 -/

/-- **C126, the shared buffer.** After any number of calls of `zpl_bprintf`, each with a text of less than 64 KiB: the buffer, whose address every one of them has returned, holds the
text of the last call with a NUL behind it. -/
theorem C126_bprintf (pf : FloatPrinter) {buf : List Byte} (hb : Buffer buf) (cs : List (Call × List Byte)) (h : ∀ c ∈ cs, Prints c.1 c.2 ∧ c.2.length < maxLen) :
    ∃ buf', bprintfs pf (cs.map Prod.fst) buf = .ok buf' ∧ Buffer buf' ∧ ∀ c, cs.getLast? = some c → ∃ rest, buf' = c.2 ++ 0 :: rest := by
  induction cs generalizing buf with
  | nil => exact ⟨buf, rfl, hb, by simp⟩
  | cons c cs ih =>
    obtain ⟨h1, h2⟩ := h c (by simp)
    obtain ⟨b1, e1, hb1, rest, hr⟩ := snprintf_ok pf hb h1 (Nat.le_refl _) h2
    obtain ⟨b2, e2, hb2, hl⟩ := ih hb1 (fun c' hc' => h c' (by simp [hc']))
    refine ⟨b2, ?_, hb2, ?_⟩
    · rw [List.map_cons, bprintfs, bprintf, e1, except_ok_bind]
      exact e2
    · intro x hx
      cases cs with
      | nil =>
        injection hx with hx
        subst hx
        injection e2 with e2
        exact ⟨rest, by rw [← e2]; exact hr⟩
      | cons y ys =>
        rw [List.getLast?_cons_cons] at hx
        exact hl x hx

/-- **C126, copies.** Any number of calls of `zpl_asprintf`, each with a text of less than 64 KiB without a NUL: every call has returned a block of its own with its text, which the
later calls have left alone, and a count that includes the NUL; but -1 for the longest texts. -/
theorem C126_asprintf (pf : FloatPrinter) (junk : Nat → Byte) {tmp : List Byte} (hb : Buffer tmp) (cs : List (Call × List Byte))
    (h : ∀ c ∈ cs, Prints c.1 c.2 ∧ Text c.2 ∧ c.2.length < maxLen) :
    asprintfs pf junk (cs.map Prod.fst) tmp = .ok (cs.map (fun c => (c.2 ++ [0], if c.2.length + 1 = maxLen then -1 else ((c.2.length + 1 : Nat) : Int)))) := by
  induction cs generalizing tmp with
  | nil => rfl
  | cons c cs ih =>
    obtain ⟨h1, h2, h3⟩ := h c (by simp)
    obtain ⟨b1, e1, hb1, rest, hr⟩ := snprintf_ok pf hb h1 (Nat.le_refl _) h3
    have ih := ih hb1 (fun c' hc' => h c' (by simp [hc']))
    rw [List.map_cons, asprintfs, asprintf, e1, except_ok_bind]
    dsimp only
    rw [hr, allocStr_ok junk h2, except_ok_bind, except_ok_bind]
    dsimp only
    rw [← hr, ih, except_ok_bind]
    rfl

/-- **C126, strings.** `zpl_string_sprintf_buf` makes a string of the text that is printed. -/
theorem C126_sprintf_buf (pf : FloatPrinter) (junk : Nat → Byte) {buf : List Byte} (hb : Buffer buf) {c : Call} {s : List Byte} (h : Prints c s) (hs : Text s) (hl : s.length < maxLen) :
    ∃ buf' z, sprintfBuf pf junk buf (spell c.1 ++ [0]) c.2 = .ok (buf', z) ∧ Buffer buf' ∧ ZString.Holds z s := by
  obtain ⟨b1, e1, hb1, rest, hr⟩ := snprintf_ok pf hb h (Nat.le_refl _) hl
  obtain ⟨z, ez, hz⟩ := make_ok junk hs rest
  refine ⟨b1, z, ?_, hb1, hz⟩
  rw [sprintfBuf, e1, except_ok_bind]
  dsimp only
  rw [hr, ez, except_ok_bind]

/-- **C126, strings.** The same for `zpl_string_sprintf` and a buffer of the caller's, of which `n` bytes may be used: the text and its NUL must fit, and the buffer must be
cleared. -/
theorem C126_sprintf (pf : FloatPrinter) (junk : Nat → Byte) {n : Nat} {c : Call} {s : List Byte} (h : Prints c s) (hs : Text s) (hl : s.length < n) :
    ∃ buf' z, sprintf pf junk (List.replicate n 0) n (spell c.1 ++ [0]) c.2 = .ok (buf', z) ∧ buf'.length = n ∧ ZString.Holds z s := by
  obtain ⟨t, e, hlen, ht, -, -⟩ := C54_fits_partial pf c.1 h.1 c.2 h.2 [] (List.replicate n 0) n hl (n - 1) (by omega) (by simp; omega) (fun _ => by
    rw [List.getElem?_replicate, if_pos (by omega)])
  have hsplit : t = s ++ 0 :: t.drop (s.length + 1) := by
    conv => lhs; rw [← List.take_append_drop (s.length + 1) t, ht]
    simp
  obtain ⟨z, ez, hz⟩ := make_ok junk hs (t.drop (s.length + 1))
  refine ⟨t, z, ?_, by simpa using hlen, hz⟩
  rw [sprintf, e, except_ok_bind]
  dsimp only
  rw [← hsplit] at ez
  rw [ez, except_ok_bind]

theorem cleared : Buffer (List.replicate maxLen 0) := ⟨by simp, by rw [List.getElem?_replicate, if_pos (by decide)]⟩

/-- **C126, appending.** Any number of calls of `zpl_string_append_fmt`, each with a text of at most 65533 characters: the string holds what it held, followed by all the texts in
order. -/
theorem C126_append_fmt_partial (pf : FloatPrinter) (junk : Nat → Byte) {z : ZString.ZStr} {t : List Byte} (hz : ZString.Holds z t) (cs : List (Call × List Byte))
    (h : ∀ c ∈ cs, Prints c.1 c.2 ∧ c.2.length + 2 < maxLen) :
    ∃ z', appendFmts pf junk (cs.map Prod.fst) z = .ok z' ∧ ZString.Holds z' (t ++ (cs.map Prod.snd).flatten) := by
  induction cs generalizing z t with
  | nil => exact ⟨z, rfl, by simpa using hz⟩
  | cons c cs ih =>
    obtain ⟨h1, h2⟩ := h c (by simp)
    obtain ⟨b1, e1, hb1, rest, hr⟩ := snprintf_ok pf cleared h1 (n := maxLen - 1) (by omega) (by omega)
    rw [if_neg (by omega)] at e1
    obtain ⟨z1, e2, hz1⟩ := ZString.appendLength_ok junk hz b1 (((c.2.length + 1 : Nat) : Int) - 1) (by rw [hr]; simp; omega)
    have ht : b1.take (((c.2.length + 1 : Nat) : Int) - 1).toNat = c.2 := by
      have : (((c.2.length + 1 : Nat) : Int) - 1).toNat = c.2.length := by omega
      rw [this, hr, List.take_append_of_le_length (Nat.le_refl _), List.take_of_length_le (Nat.le_refl _)]
    rw [ht] at hz1
    obtain ⟨z2, e3, hz2⟩ := ih hz1 (fun c' hc' => h c' (by simp [hc']))
    refine ⟨z2, ?_, by simpa using hz2⟩
    rw [List.map_cons, appendFmts, appendFmt, e1, except_ok_bind]
    dsimp only
    rw [e2, except_ok_bind]
    exact e3

/-- **C126, deviation.** A text of 65534 characters fits, but nothing of it is appended, and nothing tells. -/
theorem C126_append_fmt_drops (pf : FloatPrinter) (junk : Nat → Byte) (z : ZString.ZStr) {c : Call} {s : List Byte} (h : Prints c s) (hs : s.length + 2 = maxLen) :
    appendFmt pf junk z (spell c.1 ++ [0]) c.2 = .ok z := by
  obtain ⟨b1, e1, -⟩ := snprintf_ok pf cleared h (n := maxLen - 1) (by omega) (by omega)
  rw [if_pos (by omega)] at e1
  rw [appendFmt, e1, except_ok_bind]
  rfl

/-- **C126, copies of C strings.** `zpl_alloc_str` makes a block of exactly the text and its NUL. -/
theorem C126_alloc_str (junk : Nat → Byte) {s : List Byte} (hs : Text s) (rest : List Byte) : allocStr junk (s ++ 0 :: rest) = .ok (s ++ [0]) := allocStr_ok junk hs rest

/-! ## The hypotheses are met -/

/-- `"n=%d"` with 7. -/
def exampleCall (v : BitVec 32) : Call := ({ items := [([0x6e#8, 0x3d#8], { conv := .d })], last := [] }, [.int v])

theorem exampleCall_prints : Prints (exampleCall 7) [0x6e#8, 0x3d#8, 0x37#8] ∧ Prints (exampleCall 42) [0x6e#8, 0x3d#8, 0x34#8, 0x32#8] := by
  refine ⟨⟨⟨by simp [exampleCall, Literal, Directive.Valid], by simp [exampleCall, Literal]⟩, by decide +kernel⟩,
    ⟨⟨by simp [exampleCall, Literal, Directive.Valid], by simp [exampleCall, Literal]⟩, by decide +kernel⟩⟩

/-- The text of the first call is gone after the second. -/
example (pf : FloatPrinter) : ∃ buf rest, bprintfs pf [exampleCall 7, exampleCall 42] (List.replicate maxLen 0) = .ok buf ∧ buf = [0x6e#8, 0x3d#8, 0x34#8, 0x32#8] ++ 0 :: rest := by
  obtain ⟨buf, e, -, h⟩ := C126_bprintf pf cleared [(exampleCall 7, _), (exampleCall 42, _)] (by
    intro c hc
    rcases List.mem_cons.1 hc with rfl | hc
    · exact ⟨exampleCall_prints.1, by decide⟩
    · rw [List.mem_singleton.1 hc]; exact ⟨exampleCall_prints.2, by decide⟩)
  obtain ⟨rest, hr⟩ := h _ rfl
  exact ⟨buf, rest, e, hr⟩

example (pf : FloatPrinter) (junk : Nat → Byte) : asprintfs pf junk [exampleCall 7, exampleCall 42] (List.replicate maxLen 0) =
    .ok [([0x6e#8, 0x3d#8, 0x37#8, 0], 4), ([0x6e#8, 0x3d#8, 0x34#8, 0x32#8, 0], 5)] :=
  C126_asprintf pf junk cleared [(exampleCall 7, [0x6e#8, 0x3d#8, 0x37#8]), (exampleCall 42, [0x6e#8, 0x3d#8, 0x34#8, 0x32#8])] (by
    intro c hc
    rcases List.mem_cons.1 hc with rfl | hc
    · exact ⟨exampleCall_prints.1, by simp [Text], by decide⟩
    · rw [List.mem_singleton.1 hc]; exact ⟨exampleCall_prints.2, by simp [Text], by decide⟩)

example (pf : FloatPrinter) (junk : Nat → Byte) {z : ZString.ZStr} (hz : ZString.Holds z [0x61#8]) :
    ∃ z', appendFmts pf junk [exampleCall 7, exampleCall 42] z = .ok z' ∧ ZString.Holds z' [0x61#8, 0x6e#8, 0x3d#8, 0x37#8, 0x6e#8, 0x3d#8, 0x34#8, 0x32#8] :=
  C126_append_fmt_partial pf junk hz [(exampleCall 7, [0x6e#8, 0x3d#8, 0x37#8]), (exampleCall 42, [0x6e#8, 0x3d#8, 0x34#8, 0x32#8])] (by
    intro c hc
    rcases List.mem_cons.1 hc with rfl | hc
    · exact ⟨exampleCall_prints.1, by decide⟩
    · rw [List.mem_singleton.1 hc]; exact ⟨exampleCall_prints.2, by decide⟩)

/-- A literal of 65534 characters. -/
example (pf : FloatPrinter) (junk : Nat → Byte) (z : ZString.ZStr) : ∃ c : Call, appendFmt pf junk z (spell c.1 ++ [0]) c.2 = .ok z :=
  ⟨({ items := [], last := List.replicate 65534 0x61#8 }, []), C126_append_fmt_drops pf junk z (c := ({ items := [], last := List.replicate 65534 0x61#8 }, []))
    (s := List.replicate 65534 0x61#8) ⟨⟨by simp, fun x hx => by rw [(List.mem_replicate.1 hx).2]; decide⟩, rfl⟩ (by rw [List.length_replicate]; rfl)⟩

example (pf : FloatPrinter) (junk : Nat → Byte) : ∃ buf' z, sprintf pf junk (List.replicate 8 0) 8 (spell (exampleCall 7).1 ++ [0]) (exampleCall 7).2 = .ok (buf', z) ∧ buf'.length = 8 ∧
    ZString.Holds z [0x6e#8, 0x3d#8, 0x37#8] := C126_sprintf pf junk exampleCall_prints.1 (by simp [Text]) (by decide)

end Zpl.Sprint
