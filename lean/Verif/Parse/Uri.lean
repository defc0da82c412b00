import Verif.Str.Fprintf
import Verif.Str.Copy
import Verif.Str.Chars

/-!
# URI text encoding (code/source/parsers/uri.c:5-31, 114-138)  -  C48

## Model -/

namespace Zpl.Uri

open Str Print Fprintf

/-- uri.c:9-28: the bytes put into `buf`.  A `%` takes the two bytes after it whatever they are. -/
def decodeLoop : List Byte → Except Fault (List Byte)
  | [] => .error .oob
  | ch :: tp =>
    if ch = 0 then .ok []
    else if ch ≠ 0x25#8 then do .ok ((if ch = 0x2b#8 then 0x20#8 else ch) :: (← decodeLoop tp))
    else
      match tp with
      | h0 :: h1 :: tp => do
        let (v, _) ← Num.strToI64 [h0, h1, 0] 16
        .ok (BitVec.ofInt 8 v :: (← decodeLoop tp))
      | _ => .error .oob

/-- uri.c:5-31 `zpl__uri_decode_str`: the block of the text, decoded in place through a zeroed array of 65536 bytes. -/
def decode (text : List Byte) : Except Fault (List Byte) := do
  let bytes ← decodeLoop text
  if bytes.length > maxLen then .error .oob
  else do
    let text ← Copy.strcpy text (bytes ++ List.replicate (maxLen - bytes.length) 0)
    wr text bytes.length 0

/-- uri.c:127-135, one character; `buf` is the local array of 10 bytes. -/
def printChar (pf : FloatPrinter) (buf : List Byte) (o : Out) (ch : Byte) : Except Fault (List Byte × Out) :=
  if ch = 0x20#8 then do
    let o ← fprintf pf o [0x25#8, 0x73#8, 0] [.str (some [0x2b#8, 0])]
    .ok (buf, o)
  else do
    let r ← firstOcc ch [0x2d#8, 0x5f#8, 0x2e#8, 0x7e#8, 0]
    if Chars.isAlphanumeric ch || r.isSome then do
      let o ← fprintf pf o [0x25#8, 0x63#8, 0] [.int (ch.zeroExtend 32)]
      .ok (buf, o)
    else do
      let (buf, _) ← snprintf pf buf 10 [0x25#8, 0x30#8, 0x32#8, 0x58#8, 0] [.int (ch.zeroExtend 32)]
      let o ← fprintf pf o [0x25#8, 0x63#8, 0x25#8, 0x73#8, 0] [.int 0x25#32, .str (some buf)]
      .ok (buf, o)

/-- uri.c:125-136. -/
def printLoop (pf : FloatPrinter) (buf : List Byte) (o : Out) : List Byte → Except Fault Out
  | [] => .error .oob
  | ch :: p =>
    if ch = 0 then .ok o
    else do
      let (buf, o) ← printChar pf buf o ch
      printLoop pf buf o p

/-- uri.c:114-138 `zpl__uri_print_str` for a text that is not NULL. -/
def printStr (pf : FloatPrinter) (o : Out) (text : List Byte) : Except Fault Out := printLoop pf (List.replicate 10 0) o text

/-! ## Specification -/

/-- RFC 3986, 2.3: letters, digits, `-`, `.`, `_`, `~`. -/
def Unreserved (c : Byte) : Prop :=
  (0x41 ≤ c.toNat ∧ c.toNat ≤ 0x5a) ∨ (0x61 ≤ c.toNat ∧ c.toNat ≤ 0x7a) ∨ (0x30 ≤ c.toNat ∧ c.toNat ≤ 0x39) ∨ c.toNat = 0x2d ∨ c.toNat = 0x2e ∨ c.toNat = 0x5f ∨ c.toNat = 0x7e

/-- A hexadecimal digit. -/
def HexDigit (c : Byte) : Prop := (0x30 ≤ c.toNat ∧ c.toNat ≤ 0x39) ∨ (0x41 ≤ c.toNat ∧ c.toNat ≤ 0x46) ∨ (0x61 ≤ c.toNat ∧ c.toNat ≤ 0x66)

/-- Sequences of unreserved characters, `+` and `%HH`. -/
inductive Encoded : List Byte → Prop where
  | nil : Encoded []
  | plain {c : Byte} {s : List Byte} : Unreserved c → Encoded s → Encoded (c :: s)
  | plus {s : List Byte} : Encoded s → Encoded (0x2b#8 :: s)
  | escape {a b : Byte} {s : List Byte} : HexDigit a → HexDigit b → Encoded s → Encoded (0x25#8 :: a :: b :: s)

/-! ## Lemmas -/

instance (c : Byte) : Decidable (Unreserved c) := by unfold Unreserved; infer_instance

instance (c : Byte) : Decidable (HexDigit c) := by unfold HexDigit; infer_instance

/-- The two digits of a byte. -/
def hex2 (c : Byte) : List Byte := [digit true (c.toNat / 16), digit true (c.toNat % 16)]

/-- What one character becomes. -/
def enc1 (c : Byte) : List Byte := if c = 0x20#8 then [0x2b#8] else if Unreserved c then [c] else 0x25#8 :: hex2 c

def enc (s : List Byte) : List Byte := s.flatMap enc1

theorem enc_cons (c : Byte) (s : List Byte) : enc (c :: s) = enc1 c ++ enc s := List.flatMap_cons

theorem class_ok : ∀ c : Byte, c ≠ 0 → ((Chars.isAlphanumeric c || (c == 0x2d#8 || c == 0x5f#8 || c == 0x2e#8 || c == 0x7e#8)) = true ↔ Unreserved c) := by
  decide +kernel

theorem strchr_ok (c : Byte) (hc : c ≠ 0) : ∃ r, firstOcc c [0x2d#8, 0x5f#8, 0x2e#8, 0x7e#8, 0] = .ok r ∧
    r.isSome = (c == 0x2d#8 || c == 0x5f#8 || c == 0x2e#8 || c == 0x7e#8) := by
  have h : ∀ c : Byte, c ≠ 0 → (match firstOcc c [0x2d#8, 0x5f#8, 0x2e#8, 0x7e#8, 0] with
      | .ok r => r.isSome == (c == 0x2d#8 || c == 0x5f#8 || c == 0x2e#8 || c == 0x7e#8) | _ => false) = true := by decide +kernel
  have := h c hc
  split at this
  · rename_i r e
    exact ⟨r, e, by simpa using this⟩
  · cases this

theorem hexDigit_digit : ∀ d : Fin 16, HexDigit (digit true d.val) := by decide +kernel

theorem decode_hex : ∀ c : Byte, Num.strToI64 [digit true (c.toNat / 16), digit true (c.toNat % 16), 0] 16 = .ok ((c.toNat : Int), 2) := by
  decide +kernel

theorem hex2_text (c : Byte) : Text (hex2 c) := by
  have h : ∀ d : Fin 16, digit true d.val ≠ 0 := by decide
  have hlt := c.isLt
  intro x hx
  simp only [hex2, List.mem_cons, List.not_mem_nil, or_false] at hx
  rcases hx with rfl | rfl
  · exact h ⟨c.toNat / 16, by omega⟩
  · exact h ⟨c.toNat % 16, by omega⟩

/-- `%02X` of a byte. -/
theorem render_hex (c : Byte) : render { items := [([], { flags := [.zero], width := .num 2, conv := .X })], last := [] } [.int (c.zeroExtend 32)] = some (hex2 c) := by
  have h : ∀ c : Byte, render { items := [([], { flags := [.zero], width := .num 2, conv := .X })], last := [] } [.int (c.zeroExtend 32)] = some (hex2 c) := by
    decide +kernel
  exact h c

/-- The local array: 10 bytes with a NUL after the first two. -/
def BufOk (buf : List Byte) : Prop := buf.length = 10 ∧ buf[2]? = some 0

theorem snprintf_hex (pf : FloatPrinter) (c : Byte) {buf : List Byte} (hb : BufOk buf) :
    ∃ r rest, snprintf pf buf 10 [0x25#8, 0x30#8, 0x32#8, 0x58#8, 0] [.int (c.zeroExtend 32)] = .ok (hex2 c ++ 0 :: rest, r) ∧ BufOk (hex2 c ++ 0 :: rest) := by
  have hspell : spell { items := [([], { flags := [.zero], width := .num 2, conv := .X })], last := [] } ++ 0 :: [] = [0x25#8, 0x30#8, 0x32#8, 0x58#8, 0] := by
    decide +kernel
  obtain ⟨t, e, hl, ht, hd⟩ := C54_fits_partial pf { items := [([], { flags := [.zero], width := .num 2, conv := .X })], last := [] }
    ⟨by simp [Literal, Directive.Valid], by simp [Literal]⟩ _ (render_hex c) [] buf 10 (by simp [hex2]) 2 (by simp [hex2]) (by rw [hb.1]; decide) (fun _ => hb.2)
  rw [hspell] at e
  have ht' : t = hex2 c ++ 0 :: t.drop 3 := by
    have h3 : (hex2 c).length + 1 = 3 := rfl
    rw [h3] at ht
    calc t = t.take 3 ++ t.drop 3 := (List.take_append_drop 3 t).symm
      _ = _ := by rw [ht, List.append_assoc]; rfl
  rw [ht'] at e hl
  exact ⟨_, t.drop 3, e, hl.trans hb.1, rfl⟩

theorem printChar_ok (pf : FloatPrinter) {buf : List Byte} (hb : BufOk buf) {o : Out} (ho : o.Ok) {c : Byte} (hc : c ≠ 0) :
    ∃ buf' o', printChar pf buf o c = .ok (buf', o') ∧ BufOk buf' ∧ o'.Ok ∧ o'.out = o.out ++ enc1 c := by
  have hz : (c.zeroExtend 32).truncate 8 = c := by
    apply BitVec.eq_of_toNat_eq
    have := c.isLt
    simp
  unfold printChar enc1
  by_cases h20 : c = 0x20#8
  · rw [if_pos h20, if_pos h20]
    obtain ⟨o', e, h1, h2⟩ := fprintf_s pf ho (s := [0x2b#8]) (by unfold Text; decide) [] [] (by decide)
    exact ⟨buf, o', by rw [show ([0x2b#8, 0] : List Byte) = [0x2b#8] ++ 0 :: [] from rfl, e]; rfl, hb, h1, h2⟩
  · rw [if_neg h20, if_neg h20]
    obtain ⟨r, hr, hs⟩ := strchr_ok c hc
    rw [hr, except_ok_bind, hs]
    by_cases hu : Unreserved c
    · rw [if_pos ((class_ok c hc).2 hu), if_pos hu]
      obtain ⟨o', e, h1, h2⟩ := fprintf_c pf ho (c := c.zeroExtend 32) (by rw [hz]; exact hc) []
      rw [hz] at h2
      exact ⟨buf, o', by rw [e]; rfl, hb, h1, h2⟩
    · rw [if_neg (fun h => hu ((class_ok c hc).1 h)), if_neg hu]
      obtain ⟨k, rest, e, hb'⟩ := snprintf_hex pf c hb
      rw [e, except_ok_bind]
      dsimp only
      have hren : render { items := [([], { conv := .c }), ([], { conv := .s })], last := [] } [.int 0x25#32, .str (some (hex2 c ++ 0 :: rest))] = some (0x25#8 :: hex2 c) := by
        have h : (hex2 c ++ 0 :: rest).takeWhile (· ≠ 0) = hex2 c := by
          have : (hex2 c ++ 0 :: rest).takeWhile (· ≠ 0) = (hex2 c).takeWhile (· ≠ 0) := cut_block ({} : Info) (hex2_text c) rest
          rw [this, takeWhile_self (hex2_text c)]
        have hm : (0 : Byte) ∈ hex2 c ++ 0 :: rest := by simp
        have h25 : (0x25#32).truncate 8 = 0x25#8 := by decide
        simp only [render, renderItems, renderDirective, widthOf, precisionOf, body, Option.bind_some, if_pos (Or.inl hm), Option.map_some, h25]
        simp only [layout, upTo, h]
        simp
      obtain ⟨o', e', h1, h2⟩ := fprintf_ok pf ho { items := [([], { conv := .c }), ([], { conv := .s })], last := [] } ⟨by simp [Literal, Directive.Valid], by simp [Literal]⟩ _ hren []
        (by simp [hex2, maxLen])
      exact ⟨hex2 c ++ 0 :: rest, o', by
        rw [show ([0x25#8, 0x63#8, 0x25#8, 0x73#8, 0] : List Byte) = spell { items := [([], { conv := .c }), ([], { conv := .s })], last := [] } ++ 0 :: [] from rfl, e']
        rfl, hb', h1, h2⟩

theorem printLoop_ok (pf : FloatPrinter) {s : List Byte} (hs : Text s) (rest : List Byte) {buf : List Byte} (hb : BufOk buf) {o : Out} (ho : o.Ok) :
    Appends o (enc s) (printLoop pf buf o (s ++ 0 :: rest)) := by
  induction s generalizing buf o with
  | nil =>
    rw [List.nil_append, printLoop, if_pos rfl]
    exact Appends.pure ho
  | cons c s ih =>
    obtain ⟨hc, hs'⟩ := Text.cons.1 hs
    obtain ⟨buf', o', e, hb', ho', h2⟩ := printChar_ok pf hb ho hc
    obtain ⟨o2, e2, ho2, h3⟩ := ih hs' hb' ho'
    refine ⟨o2, ?_, ho2, ?_⟩
    · rw [List.cons_append, printLoop, if_neg hc, e, except_ok_bind]
      exact e2
    · rw [h3, h2, enc_cons, List.append_assoc]

theorem unreserved_plain : ∀ c : Byte, Unreserved c → c ≠ 0 ∧ c ≠ 0x25#8 ∧ c ≠ 0x2b#8 := by decide +kernel

theorem decodeLoop_enc {s : List Byte} (hs : Text s) (rest : List Byte) : decodeLoop (enc s ++ 0 :: rest) = .ok s := by
  induction s with
  | nil => rw [enc, List.flatMap_nil, List.nil_append, decodeLoop.eq_def]; rfl
  | cons c s ih =>
    obtain ⟨hc, hs'⟩ := Text.cons.1 hs
    rw [enc_cons, List.append_assoc]
    have ih' := ih hs'
    unfold enc1
    by_cases h20 : c = 0x20#8
    · subst h20
      rw [if_pos rfl, List.cons_append, List.nil_append, decodeLoop.eq_def]
      dsimp only
      rw [if_neg (by decide), if_pos (by decide), if_pos rfl, ih', except_ok_bind]
    · rw [if_neg h20]
      by_cases hu : Unreserved c
      · obtain ⟨h0, h1, h2⟩ := unreserved_plain c hu
        rw [if_pos hu, List.cons_append, List.nil_append, decodeLoop.eq_def]
        dsimp only
        rw [if_neg h0, if_pos h1, if_neg h2, ih', except_ok_bind]
      · rw [if_neg hu, hex2, List.cons_append, List.cons_append, List.cons_append, List.nil_append, decodeLoop.eq_def]
        dsimp only
        rw [if_neg (by decide), if_neg (by decide), decode_hex c, except_ok_bind]
        dsimp only
        rw [ih', except_ok_bind]
        congr 2
        apply BitVec.eq_of_toNat_eq
        have := c.isLt
        rw [BitVec.toNat_ofInt]
        omega

theorem encoded_enc (s : List Byte) : Encoded (enc s) := by
  induction s with
  | nil => exact .nil
  | cons c s ih =>
    rw [enc, List.flatMap_cons]
    unfold enc1
    split
    · exact .plus ih
    · split
      · rename_i h
        exact .plain h ih
      · have := c.isLt
        exact .escape (hexDigit_digit ⟨c.toNat / 16, by omega⟩) (hexDigit_digit ⟨c.toNat % 16, by omega⟩) ih

theorem enc_length (s : List Byte) : s.length ≤ (enc s).length := by
  induction s with
  | nil => simp
  | cons c s ih =>
    have : 1 ≤ (enc1 c).length := by
      unfold enc1
      split
      · simp
      · split <;> simp
    rw [enc, List.flatMap_cons, List.length_append]
    rw [enc] at ih
    simp only [List.length_cons]
    omega

/-- Copying a text that has no terminator leaves its block. -/
theorem copyText_unterminated {s : List Byte} (hs : Text s) (d : List Byte) : Copy.copyText d s = .error .oob := by
  induction s generalizing d with
  | nil => rw [Copy.copyText.eq_def]
  | cons c s ih =>
    obtain ⟨hc, hs'⟩ := Text.cons.1 hs
    rw [Copy.copyText.eq_def]
    dsimp only
    rw [if_pos hc]
    cases d with
    | nil => rfl
    | cons x d =>
      dsimp only
      rw [ih hs' d]
      rfl

/-! ## C48 -/

/-- The encoding of a text without NUL consists of unreserved characters, `+` and `%HH`, and decoding it in place gives the text back.

`_partial`: the text has at most 65535 bytes; for longer ones the decoder overflows its array (`C48_long_text_overflows`). -/
theorem C48_round_trip_partial (pf : FloatPrinter) {s : List Byte} (hs : Text s) (hl : s.length < 65536) (rest : List Byte) (o : Out) (ho : o.Ok) :
    ∃ o' e, printStr pf o (s ++ 0 :: rest) = .ok o' ∧ o'.out = o.out ++ e ∧ Encoded e ∧ ∀ rest', ∃ r, decode (e ++ 0 :: rest') = .ok (s ++ 0 :: r) := by
  obtain ⟨o', e, -, h⟩ := printLoop_ok pf hs rest (buf := List.replicate 10 0) ⟨rfl, rfl⟩ (o := o) ho
  refine ⟨o', enc s, e, h, encoded_enc s, fun rest' => ?_⟩
  have hlen := enc_length s
  rw [decode, decodeLoop_enc hs, except_ok_bind, if_neg (by unfold maxLen; omega)]
  have hz : List.replicate (maxLen - s.length) (0 : Byte) = 0 :: List.replicate (maxLen - s.length - 1) 0 := by
    obtain ⟨k, hk⟩ : ∃ k, maxLen - s.length = k + 1 := ⟨maxLen - s.length - 1, by unfold maxLen; omega⟩
    rw [hk, List.replicate_succ]
    rfl
  have hc := Copy.copyText_ok hs (List.replicate (maxLen - s.length - 1) 0) (enc s ++ 0 :: rest') (by rw [List.length_append]; omega)
  rw [hz, Copy.strcpy, hc, except_ok_bind]
  refine ⟨(enc s ++ 0 :: rest').drop (s.length + 1), ?_⟩
  rw [wr, if_pos (by simp; omega)]
  congr 1
  rw [List.set_append_right _ _ (Nat.le_refl _), Nat.sub_self]
  congr 1
  have : s.length < (enc s ++ 0 :: rest').length := by simp; omega
  rw [List.drop_eq_getElem_cons this]
  rfl

/-- A text of 65536 bytes or more does not survive: decoding its encoding overflows the array `buf`. -/
theorem C48_long_text_overflows (pf : FloatPrinter) {s : List Byte} (hs : Text s) (hl : 65536 ≤ s.length) (rest : List Byte) (o : Out) (ho : o.Ok) :
    ∃ o' e, printStr pf o (s ++ 0 :: rest) = .ok o' ∧ o'.out = o.out ++ e ∧ Encoded e ∧ ∀ rest', decode (e ++ 0 :: rest') = .error .oob := by
  obtain ⟨o', e, -, h⟩ := printLoop_ok pf hs rest (buf := List.replicate 10 0) ⟨rfl, rfl⟩ (o := o) ho
  refine ⟨o', enc s, e, h, encoded_enc s, fun rest' => ?_⟩
  rw [decode, decodeLoop_enc hs, except_ok_bind]
  by_cases hgt : s.length > maxLen
  · rw [if_pos hgt]
  · have : maxLen - s.length = 0 := by unfold maxLen; omega
    rw [if_neg hgt, this, List.replicate_zero, List.append_nil, Copy.strcpy, copyText_unterminated hs]
    rfl

/-- A `%` at the end of a text: the decoder reads behind the terminator. -/
theorem C48_cut_escape {s : List Byte} (hs : ∀ c ∈ s, c ≠ 0 ∧ c ≠ 0x25#8) : decode (s ++ [0x25#8, 0]) = .error .oob := by
  have : decodeLoop (s ++ [0x25#8, 0]) = .error .oob := by
    induction s with
    | nil => rw [List.nil_append, decodeLoop.eq_def]; rfl
    | cons c s ih =>
      have hc := hs c (by simp)
      rw [List.cons_append, decodeLoop.eq_def]
      dsimp only
      rw [if_neg hc.1, if_pos hc.2, ih (fun c h => hs c (List.mem_cons_of_mem _ h))]
      rfl
  rw [decode, this]
  rfl

/-! ### The theorems are not vacuous -/

/-- `a b/c` is written as `a+b%2Fc`, and that is decoded to `a b/c`. -/
example : enc [0x61#8, 0x20#8, 0x62#8, 0x2f#8, 0x63#8] = [0x61#8, 0x2b#8, 0x62#8, 0x25#8, 0x32#8, 0x46#8, 0x63#8] := by decide +kernel
example : decode ([0x61#8, 0x2b#8, 0x62#8, 0x25#8, 0x32#8, 0x46#8, 0x63#8] ++ [0]) = .ok [0x61#8, 0x20#8, 0x62#8, 0x2f#8, 0x63#8, 0, 0x63#8, 0] := by decide +kernel
example : Text [0x61#8, 0x20#8, 0x62#8, 0x2f#8, 0x63#8] := by unfold Text; decide
example : Text (List.replicate 65536 0x61#8) ∧ (List.replicate 65536 0x61#8).length = 65536 :=
  ⟨fun c hc => by rw [List.eq_of_mem_replicate hc]; decide, List.length_replicate⟩
example : decode [0x61#8, 0x25#8, 0] = .error .oob := C48_cut_escape (s := [0x61#8]) (by decide)

end Zpl.Uri
