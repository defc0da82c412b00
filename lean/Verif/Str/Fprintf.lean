import Verif.Str.Print

/-!
# Printing to a file (code/source/core/print.c:14-19)

## Model -/

namespace Zpl.Fprintf

open Str Print

/-- The thread-local buffer of `zpl_fprintf_va`, with whatever it holds, and the bytes written to the file so far.  Writing to the file itself is taken to append (for
memory streams see Sys/Stream and C47). -/
structure Out where
  buf : List Byte
  out : List Byte
  deriving DecidableEq, Repr

/-- print.h:14 `ZPL_PRINTF_MAXLEN`. -/
def maxLen : Nat := 65536

/-- print.c:14-19 `zpl_fprintf_va`, `zpl_fprintf`.  If printing fails, the length is -1 and -2 bytes are "written": `ub`. -/
def fprintf (pf : FloatPrinter) (o : Out) (fmt : List Byte) (args : List Arg) : Except Fault Out := do
  let (buf, len) ← snprintf pf o.buf maxLen fmt args
  if len < 1 then .error .ub else .ok { buf := buf, out := o.out ++ buf.take (len - 1).toNat }

/-! ## What is written -/

/-- The buffer has its size, and its last byte is still the NUL of the zero-initialised buffer, as long as no text has filled it. -/
def Out.Ok (o : Out) : Prop := o.buf.length = maxLen ∧ o.buf[maxLen - 1]? = some 0

/-- `fprintf` has appended `s`. -/
def Appends (o : Out) (s : List Byte) (r : Except Fault Out) : Prop := ∃ o', r = .ok o' ∧ o'.Ok ∧ o'.out = o.out ++ s

theorem fprintf_ok (pf : FloatPrinter) {o : Out} (ho : o.Ok) (f : Format) (hf : f.Valid) (args : List Arg) {s : List Byte} (hr : render f args = some s) (rest : List Byte)
    (hs : s.length + 1 < maxLen) :
    Appends o s (fprintf pf o (spell f ++ 0 :: rest) args) := by
  obtain ⟨t, e, hl, ht, -, h3⟩ := C54_fits_partial pf f hf args hr rest o.buf maxLen (by omega) (maxLen - 1) (by omega) (by rw [ho.1]; decide) (by
    exact fun _ => ho.2)
  rw [if_neg (by omega)] at e
  refine ⟨⟨t, o.out ++ s⟩, ?_, ⟨hl.trans ho.1, (h3 (by omega)).trans ho.2⟩, rfl⟩
  rw [fprintf, e, except_ok_bind]
  dsimp only
  rw [if_neg (by omega)]
  have h1 : (((s.length + 1 : Nat) : Int) - 1).toNat = s.length := by omega
  have h2 : t.take s.length = s := by
    have := congrArg (List.take s.length) ht
    rw [List.take_take, Nat.min_eq_left (by omega), List.take_append_of_le_length (Nat.le_refl _), List.take_of_length_le (Nat.le_refl _)] at this
    exact this
  rw [h1, h2]

/-- `zpl_fprintf(f, "%s", s)`. -/
theorem fprintf_s (pf : FloatPrinter) {o : Out} (ho : o.Ok) {s : List Byte} (hs : Text s) (rest r : List Byte) (hl : s.length + 1 < maxLen) :
    Appends o s (fprintf pf o (0x25#8 :: 0x73#8 :: 0 :: r) [.str (some (s ++ 0 :: rest))]) := by
  have hr : render { items := [([], { conv := .s })], last := [] } [.str (some (s ++ 0 :: rest))] = some s := by
    have h : (s ++ 0 :: rest).takeWhile (· ≠ 0) = s := by
      have : (s ++ 0 :: rest).takeWhile (· ≠ 0) = s.takeWhile (· ≠ 0) := cut_block ({} : Info) hs rest
      rw [this, takeWhile_self hs]
    have hm : (0 : Byte) ∈ s ++ 0 :: rest := by simp
    simp only [render, renderItems, renderDirective, widthOf, precisionOf, body, Option.bind_some, if_pos (Or.inl hm), Option.map_some]
    simp only [layout, upTo, h]
    simp
  have := fprintf_ok pf ho { items := [([], { conv := .s })], last := [] } ⟨by simp [Literal, Directive.Valid], by simp [Literal]⟩ _ hr r hl
  exact this

/-- `zpl_fprintf(f, "%c", c)`. -/
theorem fprintf_c (pf : FloatPrinter) {o : Out} (ho : o.Ok) {c : BitVec 32} (hc : c.truncate 8 ≠ 0) (r : List Byte) :
    Appends o [c.truncate 8] (fprintf pf o (0x25#8 :: 0x63#8 :: 0 :: r) [.int c]) := by
  have hr : render { items := [([], { conv := .c })], last := [] } [.int c] = some [c.truncate 8] := by
    generalize hx : c.truncate 8 = x at hc
    have h : [x].takeWhile (· ≠ 0) = [x] := takeWhile_self (fun y hy => by rw [List.mem_singleton.1 hy]; exact hc)
    simp only [render, renderItems, renderDirective, widthOf, precisionOf, body, Option.bind_some, Option.map_some, hx]
    simp only [layout, upTo, h]
    simp
  exact fprintf_ok pf ho { items := [([], { conv := .c })], last := [] } ⟨by simp [Literal, Directive.Valid], by simp [Literal]⟩ _ hr r (by simp [maxLen])

/-- `zpl_fprintf(f, "literal")`. -/
theorem fprintf_lit (pf : FloatPrinter) {o : Out} (ho : o.Ok) {s : List Byte} (hs : Literal s) (args : List Arg) (r : List Byte) (hl : s.length + 1 < maxLen) :
    Appends o s (fprintf pf o (s ++ 0 :: r) args) := by
  have := fprintf_ok pf ho { items := [], last := s } ⟨by simp, hs⟩ args (s := s) rfl r hl
  exact this

/-- Two calls after one another. -/
theorem Appends.bind {o : Out} {s t : List Byte} {r : Except Fault Out} {f : Out → Except Fault Out} (h : Appends o s r)
    (hf : ∀ o', o'.Ok → Appends o' t (f o')) : Appends o (s ++ t) (r >>= f) := by
  obtain ⟨o', rfl, h1, h2⟩ := h
  obtain ⟨o2, e, h3, h4⟩ := hf o' h1
  exact ⟨o2, by rw [except_ok_bind]; exact e, h3, by rw [h4, h2, List.append_assoc]⟩

theorem Appends.pure {o : Out} (ho : o.Ok) : Appends o [] (.ok o) := ⟨o, rfl, ho, by simp⟩

/-- What `%.*s` prints: at most so many characters. -/
theorem render_prec {s : List Byte} (hs : Text s) (hl : s.length < 2 ^ 31) (more : List Byte) :
    render { items := [([], { conv := .s, precision := .star })], last := [] } [.int (BitVec.ofNat 32 s.length), .str (some (s ++ more))] = some s := by
  have h1 : (BitVec.ofNat 32 s.length).toInt = (s.length : Int) := by
    rw [BitVec.toInt_eq_toNat_of_lt] <;> simp <;> omega
  have h2 : ((s ++ more).takeWhile (· ≠ 0)).take s.length = s := by
    rw [List.takeWhile_append, takeWhile_self hs, if_pos rfl]
    simp
  have h3 : ¬ ((s.length : Int) < 0) := by omega
  simp only [render, renderItems, renderDirective, widthOf, precisionOf, body, Option.bind_some, h1, h3, if_false, Int.toNat_natCast]
  have h4 : (0 ∈ s ++ more ∨ ∃ p, some s.length = some p ∧ p ≤ (s ++ more).length) := Or.inr ⟨s.length, rfl, by simp⟩
  simp only [if_pos h4, Option.map_some, Option.bind_some, layout, upTo, h2]
  simp

/-- `zpl_fprintf(f, "%.*s", n, s)`. -/
theorem fprintf_prec (pf : FloatPrinter) {o : Out} (ho : o.Ok) {s : List Byte} (hs : Text s) (more r : List Byte) (hl : s.length + 1 < maxLen) :
    Appends o s (fprintf pf o (0x25#8 :: 0x2e#8 :: 0x2a#8 :: 0x73#8 :: 0 :: r) [.int (BitVec.ofNat 32 s.length), .str (some (s ++ more))]) := by
  have hr := render_prec hs (by unfold maxLen at hl; omega) more
  exact fprintf_ok pf ho _ ⟨by simp [Literal, Directive.Valid], by simp [Literal]⟩ _ hr r hl

/-- `zpl_fprintf(f, "%s%c", s, c)`. -/
theorem fprintf_sc (pf : FloatPrinter) {o : Out} (ho : o.Ok) {s : List Byte} (hs : Text s) (rest : List Byte) {c : BitVec 32} (hc : c.truncate 8 ≠ 0) (r : List Byte)
    (hl : s.length + 2 < maxLen) :
    Appends o (s ++ [c.truncate 8]) (fprintf pf o (0x25#8 :: 0x73#8 :: 0x25#8 :: 0x63#8 :: 0 :: r) [.str (some (s ++ 0 :: rest)), .int c]) := by
  have hr : render { items := [([], { conv := .s }), ([], { conv := .c })], last := [] } [.str (some (s ++ 0 :: rest)), .int c] = some (s ++ [c.truncate 8]) := by
    generalize hx : c.truncate 8 = x at hc
    have h : (s ++ 0 :: rest).takeWhile (· ≠ 0) = s := by
      have : (s ++ 0 :: rest).takeWhile (· ≠ 0) = s.takeWhile (· ≠ 0) := cut_block ({} : Info) hs rest
      rw [this, takeWhile_self hs]
    have h2 : [x].takeWhile (· ≠ 0) = [x] := takeWhile_self (fun y hy => by rw [List.mem_singleton.1 hy]; exact hc)
    have hm : (0 : Byte) ∈ s ++ 0 :: rest := by simp
    simp only [render, renderItems, renderDirective, widthOf, precisionOf, body, Option.bind_some, if_pos (Or.inl hm), Option.map_some, hx]
    simp only [layout, upTo, h, h2]
    simp
  exact fprintf_ok pf ho _ ⟨by simp [Literal, Directive.Valid], by simp [Literal]⟩ _ hr r (by simp; omega)

theorem render_s {s : List Byte} (hs : Text s) (rest pre post : List Byte) :
    render { items := [(pre, { conv := .s })], last := post } [.str (some (s ++ 0 :: rest))] = some (pre ++ s ++ post) := by
  have h : (s ++ 0 :: rest).takeWhile (· ≠ 0) = s := by
    have : (s ++ 0 :: rest).takeWhile (· ≠ 0) = s.takeWhile (· ≠ 0) := cut_block ({} : Info) hs rest
    rw [this, takeWhile_self hs]
  have hm : (0 : Byte) ∈ s ++ 0 :: rest := by simp
  simp only [render, renderItems, renderDirective, widthOf, precisionOf, body, Option.bind_some, if_pos (Or.inl hm), Option.map_some]
  simp only [layout, upTo, h]
  simp

/-- A text between two literals: `zpl_fprintf(f, "...%s...", s)`. -/
theorem fprintf_psp (pf : FloatPrinter) {o : Out} (ho : o.Ok) {s : List Byte} (hs : Text s) (rest : List Byte) {pre post : List Byte} (h1 : Literal pre) (h2 : Literal post) (r : List Byte)
    (hl : pre.length + s.length + post.length + 1 < maxLen) :
    Appends o (pre ++ s ++ post) (fprintf pf o (pre ++ 0x25#8 :: 0x73#8 :: (post ++ 0 :: r)) [.str (some (s ++ 0 :: rest))]) := by
  have := fprintf_ok pf ho { items := [(pre, { conv := .s })], last := post } ⟨by simp [Directive.Valid, h1], h2⟩ _ (render_s hs rest pre post) r (by simp; omega)
  have e : spell { items := [(pre, { conv := .s })], last := post } ++ 0 :: r = pre ++ 0x25#8 :: 0x73#8 :: (post ++ 0 :: r) := by
    simp [spell, spellDirective, spellCount, spellLength, spellConv]
  rwa [e] at this

/-- `zpl_fprintf(f, "%c%s", c, s)`. -/
theorem fprintf_cs (pf : FloatPrinter) {o : Out} (ho : o.Ok) {s : List Byte} (hs : Text s) (rest : List Byte) {c : BitVec 32} (hc : c.truncate 8 ≠ 0) (r : List Byte)
    (hl : s.length + 2 < maxLen) :
    Appends o (c.truncate 8 :: s) (fprintf pf o (0x25#8 :: 0x63#8 :: 0x25#8 :: 0x73#8 :: 0 :: r) [.int c, .str (some (s ++ 0 :: rest))]) := by
  have hr : render { items := [([], { conv := .c }), ([], { conv := .s })], last := [] } [.int c, .str (some (s ++ 0 :: rest))] = some (c.truncate 8 :: s) := by
    generalize hx : c.truncate 8 = x at hc
    have h : (s ++ 0 :: rest).takeWhile (· ≠ 0) = s := by
      have : (s ++ 0 :: rest).takeWhile (· ≠ 0) = s.takeWhile (· ≠ 0) := cut_block ({} : Info) hs rest
      rw [this, takeWhile_self hs]
    have h2 : [x].takeWhile (· ≠ 0) = [x] := takeWhile_self (fun y hy => by rw [List.mem_singleton.1 hy]; exact hc)
    have hm : (0 : Byte) ∈ s ++ 0 :: rest := by simp
    simp only [render, renderItems, renderDirective, widthOf, precisionOf, body, Option.bind_some, if_pos (Or.inl hm), Option.map_some, hx]
    simp only [layout, upTo, h, h2]
    simp
  exact fprintf_ok pf ho _ ⟨by simp [Literal, Directive.Valid], by simp [Literal]⟩ _ hr r (by simp; omega)

theorem render_r {n : Nat} (h0 : 0 < n) (hn : n + 1 < maxLen) (c : BitVec 32) :
    render { items := [([], { conv := .r, width := .star })], last := [] } [.int (BitVec.ofInt 32 n), .int c] = some (List.replicate n (c.truncate 8)) := by
  have hv : (BitVec.ofInt 32 n).toInt = n := by
    have : n + 1 < 65536 := hn
    rw [BitVec.toInt_ofInt, Int.bmod_eq_of_le] <;> omega
  have h1 : ¬ ((n : Int) = -(2 ^ 31)) := by omega
  have h2 : max n 1 = n := by omega
  simp only [render, renderItems, renderDirective, widthOf, precisionOf, body, Option.bind_some, Option.map_some, hv, if_neg h1]
  simp only [layout, Option.getD_some, Int.natAbs_natCast, h2]
  simp

/-- `zpl_fprintf(f, "%*r", n, c)`. -/
theorem fprintf_r (pf : FloatPrinter) {o : Out} (ho : o.Ok) {n : Nat} (h0 : 0 < n) (hn : n + 1 < maxLen) (c : BitVec 32) (r : List Byte) :
    Appends o (List.replicate n (c.truncate 8)) (fprintf pf o (0x25#8 :: 0x2a#8 :: 0x72#8 :: 0 :: r) [.int (BitVec.ofInt 32 n), .int c]) := by
  exact fprintf_ok pf ho _ ⟨by simp [Literal, Directive.Valid], by simp [Literal]⟩ _ (render_r h0 hn c) r (by simp; omega)

/-- The same with whatever the buffer holds. -/
theorem fprintf_r_any (pf : FloatPrinter) {o : Out} (ho : o.buf.length = maxLen) {n : Nat} (h0 : 0 < n) (hn : n + 1 < maxLen) (c : BitVec 32) (r : List Byte) :
    ∃ o', fprintf pf o (0x25#8 :: 0x2a#8 :: 0x72#8 :: 0 :: r) [.int (BitVec.ofInt 32 n), .int c] = .ok o' ∧ o'.out = o.out ++ List.replicate n (c.truncate 8) := by
  have hl : (List.replicate n (c.truncate 8)).length = n := List.length_replicate
  obtain ⟨t, e, -, ht, -⟩ := C54_fits_partial pf { items := [([], { conv := .r, width := .star })], last := [] } ⟨by simp [Literal, Directive.Valid], by simp [Literal]⟩ _ (render_r h0 hn c) r o.buf maxLen
    (by omega) n (by omega) (by omega) (by simp)
  rw [if_neg (by omega)] at e
  refine ⟨⟨t, o.out ++ List.replicate n (c.truncate 8)⟩, ?_, rfl⟩
  rw [fprintf, show (0x25#8 :: 0x2a#8 :: 0x72#8 :: 0 :: r) = spell { items := [([], { conv := .r, width := .star })], last := [] } ++ 0 :: r from rfl, e, except_ok_bind]
  dsimp only
  rw [if_neg (by omega)]
  have h1 : ((((List.replicate n (c.truncate 8)).length + 1 : Nat) : Int) - 1).toNat = n := by omega
  have h2 : t.take n = List.replicate n (c.truncate 8) := by
    have := congrArg (List.take n) ht
    rw [List.take_take, Nat.min_eq_left (by omega), List.take_append_of_le_length (by omega)] at this
    rw [this, List.take_of_length_le (by omega)]
  rw [h1, h2]

end Zpl.Fprintf
