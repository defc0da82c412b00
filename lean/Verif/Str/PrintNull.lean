import Verif.Str.Print

/-!
# Printing NULL (code/source/core/print.c:125-133)  -  C54

`%s` with a NULL argument.  `Verif.Str.Print` has the model; `render` there leaves NULL out. -/

namespace Zpl.Print

open Zpl Zpl.Str

theorem null_convert (pf : FloatPrinter) (text : List Byte) (rem : Nat) (info : Info) (t : List Byte) (args : List Arg) {r : Except Fault (List Byte × Nat)}
    (h : printString text rem info none = r) : convert pf text rem info (0x73#8 :: t) (.str none :: args) = r.bind fun r => .ok (r, t, args) := by
  have e : convert pf text rem info (0x73#8 :: t) (.str none :: args) = (do
      let (r, args) ← (do
        let r ← printString text rem info none
        .ok (r, args)
        : Except Fault ((List Byte × Nat) × List Arg))
      .ok (r, (0x73#8 :: t).drop 1, args)) := rfl
  rw [e, h]
  cases r <;> rfl

theorem null_start (pf : FloatPrinter) {d : Directive} (hd : d.Valid) (hs : d.conv = .s) {args args1 rest : List Arg} {w : Option Int} {p : Option Nat} (hw : widthOf d.width args = some (w, args1))
    (hp : precisionOf d.precision args1 = some (p, .str none :: rest)) (fmt : List Byte) (text : List Byte) {rem : Nat} (h0 : rem ≠ 0) (fuel : Nat) :
    ∃ info, go pf (fuel + 1) (spellDirective d ++ fmt) args text rem = (do
      let ((out, len), fmt, args) ← (printString text rem info none).bind fun r => .ok (r, fmt, rest)
      let (tail, k) ← go pf fuel fmt args (out.drop len) (if len ≥ rem then min rem 1 else rem - len)
      .ok (out.take len ++ tail, len + k)) := by
  obtain ⟨info, hparse, -⟩ := parse_ok d hd fmt hw hp
  refine ⟨info, ?_⟩
  rw [hs] at hparse
  have hlit : literal (spellDirective d ++ fmt) text = .ok (0, text) := by
    have := literal_ok (s := []) (by intro c hc; cases hc) (.inr rfl : (0x25#8 : Byte) = 0 ∨ (0x25#8 : Byte) = 0x25#8) ((spellDirective d ++ fmt).tail) text (by simp)
    simpa [spellDirective] using this
  have hrd : rd (spellDirective d ++ fmt) 0 = .ok 0x25#8 := rfl
  rw [go, hrd, except_ok_bind, if_neg (by decide), if_pos h0, hlit, except_ok_bind]
  dsimp only
  rw [List.drop_zero, List.drop_zero, hparse, except_ok_bind]
  dsimp only
  rw [show spellConv .s = 0x73#8 from rfl, null_convert pf text rem info fmt rest rfl]
  cases printString text rem info none with
  | error f => rfl
  | ok r =>
    change (do let (tail, k) ← go pf fuel fmt rest (r.1.drop r.2) _; _) = (do let (tail, k) ← go pf fuel fmt rest (r.1.drop r.2) _; _)
    simp

/-- **C54, NULL.** For a NULL text `(null)` is printed, whatever width, precision and flags say, and terminated, if `max_len` is six or more; with six the terminator falls outside. -/
theorem C54_null (pf : FloatPrinter) {d : Directive} (hd : d.Valid) (hs : d.conv = .s) {args args1 rest : List Arg} {w : Option Int} {p : Option Nat} (hw : widthOf d.width args = some (w, args1))
    (hp : precisionOf d.precision args1 = some (p, .str none :: rest)) (fmtRest : List Byte) (text : List Byte) {maxLen : Nat} (hm : 6 ≤ maxLen) (ht : 7 ≤ text.length) :
    snprintf pf text maxLen (spellDirective d ++ 0 :: fmtRest) args = .ok ("(null)".toUTF8.toList.map (fun b => BitVec.ofNat 8 b.toNat) ++ 0 :: text.drop 7, if maxLen ≤ 7 then -1 else 7) := by
  have hn : "(null)".toUTF8.toList.map (fun b => BitVec.ofNat 8 b.toNat) = [0x28#8, 0x6e#8, 0x75#8, 0x6c#8, 0x6c#8, 0x29#8] := by decide +kernel
  rw [hn]
  match text, ht with
  | a0 :: a1 :: a2 :: a3 :: a4 :: a5 :: a6 :: text, _ =>
    obtain ⟨info, e⟩ := null_start pf hd hs hw hp (0 :: fmtRest) (a0 :: a1 :: a2 :: a3 :: a4 :: a5 :: a6 :: text) (rem := maxLen) (by omega) (spellDirective d ++ 0 :: fmtRest).length
    have hps : printString (a0 :: a1 :: a2 :: a3 :: a4 :: a5 :: a6 :: text) maxLen info none = .ok ([0x28#8, 0x6e#8, 0x75#8, 0x6c#8, 0x6c#8, 0x29#8] ++ a6 :: text, 6) := by
      rw [printString, if_pos hm]
      rfl
    have hfuel : (spellDirective d ++ 0 :: fmtRest).length = ((spellDirective d).tail ++ fmtRest).length + 2 := by simp [spellDirective]; omega
    have hend := go_end pf ((spellDirective d).tail ++ fmtRest).length (last := []) (by intro c hc; cases hc) fmtRest rest (a6 :: text) (if 6 ≥ maxLen then min maxLen 1 else maxLen - 6)
      (by split <;> omega) (by simp)
    rw [hps] at e
    have e2 : go pf ((spellDirective d ++ 0 :: fmtRest).length + 1) (spellDirective d ++ 0 :: fmtRest) args (a0 :: a1 :: a2 :: a3 :: a4 :: a5 :: a6 :: text) maxLen =
        .ok ([0x28#8, 0x6e#8, 0x75#8, 0x6c#8, 0x6c#8, 0x29#8] ++ 0 :: text, 7) := by
      refine e.trans ?_
      rw [show ∀ x : List Byte × Nat, (Except.ok x : Except Fault _).bind (fun r => Except.ok (r, (0 :: fmtRest : List Byte), rest)) = .ok (x, 0 :: fmtRest, rest) from fun _ => rfl, except_ok_bind]
      dsimp only
      rw [hfuel]
      rw [List.nil_append, List.nil_append] at hend
      erw [hend]
      rfl
    rw [snprintf, e2]
    rfl

/-- With less room NULL itself is read. -/
theorem C54_null_read (pf : FloatPrinter) {d : Directive} (hd : d.Valid) (hs : d.conv = .s) {args args1 rest : List Arg} {w : Option Int} {p : Option Nat} (hw : widthOf d.width args = some (w, args1))
    (hp : precisionOf d.precision args1 = some (p, .str none :: rest)) (fmtRest : List Byte) (text : List Byte) {maxLen : Nat} (h0 : maxLen ≠ 0) (hm : maxLen < 6) :
    snprintf pf text maxLen (spellDirective d ++ 0 :: fmtRest) args = .error .ub := by
  obtain ⟨info, e⟩ := null_start pf hd hs hw hp (0 :: fmtRest) text h0 (spellDirective d ++ 0 :: fmtRest).length
  have hps : printString text maxLen info none = .error .ub := by rw [printString, if_neg (by omega)]
  rw [hps] at e
  rw [snprintf, e]
  rfl

/-- `%-10.3s` with NULL: six characters all the same. -/
example (pf : FloatPrinter) : snprintf pf (List.replicate 12 0x2e#8) 12 (spellDirective { flags := [.minus], width := .num 10, precision := .num 3, conv := .s } ++ [0]) [.str none] =
    .ok ([0x28#8, 0x6e#8, 0x75#8, 0x6c#8, 0x6c#8, 0x29#8, 0, 0x2e#8, 0x2e#8, 0x2e#8, 0x2e#8, 0x2e#8], 7) :=
  (C54_null pf ⟨by rintro n ⟨⟩; decide, by rintro n ⟨⟩; decide⟩ rfl rfl rfl [] _ (by decide) (by decide)).trans (by decide +kernel)

end Zpl.Print
