import Verif.Str.Token
import Verif.Str.Num
import Verif.Str.Utf8
import Verif.Mem.Raw

/-!
# Character classes, digit values and bounded lengths (code/header/core/string.h:104-156, 181-228, code/source/core/string.c:406-412)
-  C71, C72

## Model

`char` is taken unsigned, as in `CStr`: the comparisons are with ASCII constants, and a negative `char` fails each of them just as a byte from 128 on
does.  Integer results are `Int`. -/

namespace Zpl.Chars

open Str

/-- string.h:119-122 `zpl_char_is_digit`. -/
def isDigit (c : Byte) : Bool := c ≥ 0x30#8 && c ≤ 0x39#8

/-- string.h:124-127 `zpl_char_is_hex_digit`. -/
def isHexDigit (c : Byte) : Bool := isDigit c || (c ≥ 0x61#8 && c ≤ 0x66#8) || (c ≥ 0x41#8 && c ≤ 0x46#8)

/-- string.h:129-132 `zpl_char_is_alpha`. -/
def isAlpha (c : Byte) : Bool := (c ≥ 0x41#8 && c ≤ 0x5a#8) || (c ≥ 0x61#8 && c ≤ 0x7a#8)

/-- string.h:134 `zpl_char_is_alphanumeric`. -/
def isAlphanumeric (c : Byte) : Bool := isAlpha c || isDigit c

/-- string.h:136 `zpl_digit_to_int`: for other characters, `c - 'W'`. -/
def digitToInt (c : Byte) : Int := if isDigit c then (c.toNat : Int) - 0x30 else (c.toNat : Int) - 0x57

/-- string.h:138-146 `zpl_hex_digit_to_int`. -/
def hexDigitToInt (c : Byte) : Int :=
  if isDigit c then digitToInt c
  else if c ≥ 0x61#8 ∧ c ≤ 0x66#8 then (c.toNat : Int) - 0x61 + 10
  else if c ≥ 0x41#8 ∧ c ≤ 0x46#8 then (c.toNat : Int) - 0x41 + 10
  else -1

/-- string.h:148-156 `zpl_char_to_hex_digit`. -/
def charToHexDigit (c : Byte) : Byte :=
  if c ≥ 0x30#8 ∧ c ≤ 0x39#8 then c - 0x30#8
  else if c ≥ 0x61#8 ∧ c ≤ 0x66#8 then c - 0x61#8
  else if c ≥ 0x41#8 ∧ c ≤ 0x46#8 then c - 0x41#8
  else 0

/-- string.h:208-228 `zpl_utf8_strnlen`: line 210 reads `*str` before it looks at `max_len`.  The fuel bounds the number of characters. -/
def utf8StrnlenLoop : Nat → List Byte → Nat → Int → Int → Except Fault Int
  | 0, _, _, _, _ => .error .diverge
  | fuel + 1, str, p, maxLen, count => do
    let c ← rd str p
    if c ≠ 0 ∧ maxLen > 0 then
      match Utf8.leadInc c with
      | some inc => utf8StrnlenLoop fuel str (p + inc) (maxLen - inc) (count + 1)
      | none => .ok (-1)
    else .ok count

def utf8Strnlen (str : List Byte) (maxLen : Int) : Except Fault Int := utf8StrnlenLoop (str.length + 1) str 0 maxLen 0

/-- string.c:408-410, `n` bytes left. -/
def codepointSizeLoop (str : List Byte) : Nat → Nat → Except Fault Nat
  | 0, i => .ok i
  | n + 1, i => do
    let c ← rd str i
    if c = 0 then .ok i
    else if c &&& 0xc0#8 ≠ 0x80#8 then .ok i
    else codepointSizeLoop str n (i + 1)

/-- string.c:406-412 `zpl_utf8_codepoint_size`. -/
def codepointSize (str : List Byte) (strLen : Nat) : Except Fault Nat := do
  let i ← codepointSizeLoop str strLen 0
  .ok (i + 1)

/-- string.h:181-185 `zpl_strnlen`, on the byte-addressed memory of `Verif/Mem`. -/
def strnlen (m : Mem.Memory) (str maxLen : Nat) : Except Fault Nat := do
  match ← Mem.memchr m str 0 maxLen with
  | some fin => .ok (fin - str)
  | none => .ok maxLen

/-! ## Specification -/

/-- The value of a hexadecimal digit. -/
def hexValue (c : Byte) : Option Nat :=
  [48#8, 49#8, 50#8, 51#8, 52#8, 53#8, 54#8, 55#8, 56#8, 57#8, 97#8, 98#8, 99#8, 100#8, 101#8, 102#8].idxOf? (toLower c)

/-! ## Lemmas -/

theorem strnlenLoop_ok (rs : List Nat) (rest done : List Byte) (n : Int) (maxLen : Int) (fuel : Nat) (hrs : ∀ r ∈ rs, Utf8.Scalar r ∧ r ≠ 0)
    (hf : rs.length < fuel) :
    ∃ k, k ≤ rs.length ∧ utf8StrnlenLoop fuel (done ++ rs.flatMap Utf8.enc ++ 0 :: rest) done.length maxLen n = .ok (n + k) ∧
      (∀ j, j ≤ rs.length → (j ≤ k ↔ j = 0 ∨ (((rs.take (j - 1)).flatMap Utf8.enc).length : Int) < maxLen)) := by
  induction rs generalizing done n maxLen fuel with
  | nil =>
    obtain ⟨f, rfl⟩ : ∃ f, fuel = f + 1 := ⟨fuel - 1, by simp at hf; omega⟩
    refine ⟨0, by simp, ?_, ?_⟩
    · simp [utf8StrnlenLoop, rd]
    · intro j hj
      obtain rfl : j = 0 := by simpa using hj
      simp
  | cons r rs ih =>
    obtain ⟨f, rfl⟩ : ∃ f, fuel = f + 1 := ⟨fuel - 1, by simp at hf; omega⟩
    obtain ⟨hr, h0⟩ := hrs r (by simp)
    obtain ⟨b, t, e, hl⟩ := Utf8.leadInc_shape (Utf8.enc_shape hr)
    have hb : b ≠ 0 := Utf8.enc_ne_zero hr h0 b (by rw [e]; simp)
    have r1 : rd (done ++ (r :: rs).flatMap Utf8.enc ++ 0 :: rest) done.length = .ok b := by
      rw [List.flatMap_cons, e]; simp [rd]
    by_cases hm : maxLen > 0
    · obtain ⟨k, hk, ek, h⟩ := ih (done ++ Utf8.enc r) (n + 1) (maxLen - (Utf8.enc r).length) f (fun r' h => hrs r' (by simp [h])) (by simp at hf ⊢; omega)
      refine ⟨k + 1, by simp; omega, ?_, ?_⟩
      · rw [utf8StrnlenLoop, r1, except_ok_bind, if_pos ⟨hb, hm⟩, hl]
        dsimp only
        rw [List.length_append] at ek
        have eb : done ++ (r :: rs).flatMap Utf8.enc ++ 0 :: rest = done ++ Utf8.enc r ++ rs.flatMap Utf8.enc ++ 0 :: rest := by simp
        rw [eb, ek]
        congr 1; omega
      · intro j hj
        cases j with
        | zero => simp
        | succ j =>
          cases j with
          | zero => simp; omega
          | succ j =>
            have := h (j + 1) (by simpa using hj)
            simp only [Nat.add_sub_cancel, List.take_succ_cons, List.flatMap_cons] at this ⊢
            rw [List.length_append, Int.natCast_add]
            constructor
            · intro hjk
              have := this.1 (by omega)
              right; omega
            · intro hjk
              have := this.2 (.inr (by omega))
              omega
    · refine ⟨0, by simp, ?_, ?_⟩
      · rw [utf8StrnlenLoop, r1, except_ok_bind, if_neg (fun h => hm h.2)]
        simp
      · intro j hj
        constructor
        · intro h; left; omega
        · rintro (h | h)
          · omega
          · omega

/-! ## Properties -/

/-- **C71, classes.** For every character: blanks, decimal digits, hexadecimal digits, letters and letters-or-digits are exactly the ASCII ones. -/
theorem C71_classes (c : Byte) :
    (Token.isSpace c = true ↔ c.toNat = 32 ∨ (9 ≤ c.toNat ∧ c.toNat ≤ 13)) ∧
    (isDigit c = true ↔ 48 ≤ c.toNat ∧ c.toNat ≤ 57) ∧
    (isHexDigit c = true ↔ (hexValue c).isSome) ∧
    (isAlpha c = true ↔ (65 ≤ c.toNat ∧ c.toNat ≤ 90) ∨ (97 ≤ c.toNat ∧ c.toNat ≤ 122)) ∧
    (isAlphanumeric c = true ↔ isAlpha c = true ∨ isDigit c = true) := by
  revert c; decide +kernel

/-- **C71, digit values.** `zpl_hex_digit_to_int` is the value of the digit, and -1 for every other character; `zpl_digit_to_int` is the value of a decimal
digit or of a small letter digit. -/
theorem C71_digit_values (c : Byte) :
    hexDigitToInt c = (match hexValue c with | some v => (v : Int) | none => -1) ∧
    (isDigit c = true ∨ (97 ≤ c.toNat ∧ c.toNat ≤ 102) → hexValue c = some (digitToInt c).toNat ∧ 0 ≤ digitToInt c) := by
  revert c; decide +kernel

/-- **C71, `zpl_char_to_hex_digit`, partial.** It is the value of a decimal digit.  Missing: the letters, see `C71_hex_letters_wrong`. -/
theorem C71_char_to_hex_digit_partial (c : Byte) (h : isDigit c = true) : hexValue c = some (charToHexDigit c).toNat := by
  revert h; revert c; decide +kernel

/-- Deviation: for the letters `zpl_char_to_hex_digit` is too small by ten, so `'a'` and `'0'` have the same value. -/
theorem C71_hex_letters_wrong (c : Byte) (h : isHexDigit c = true) (hd : isDigit c = false) :
    hexValue c = some ((charToHexDigit c).toNat + 10) := by
  revert h hd; revert c; decide +kernel

/-- **C72, `zpl_strnlen`.** Reading only the `maxLen` bytes at `str`, it returns the index of the first NUL among them, or `maxLen`. -/
theorem C72_strnlen (m : Mem.Memory) (str maxLen : Nat) (h : Mem.Mapped m str maxLen) :
    ∃ k, strnlen m str maxLen = .ok k ∧ k ≤ maxLen ∧ (k < maxLen → m (str + k) = some 0) ∧ ∀ j, j < k → m (str + j) ≠ some 0 := by
  obtain ⟨r, e, h⟩ := Mem.C13_memchr m str maxLen 0 h
  cases r with
  | none =>
    simp only at h
    refine ⟨maxLen, by rw [strnlen, e]; rfl, Nat.le_refl _, by omega, fun j hj => ?_⟩
    exact h (str + j) (by omega) (by omega)
  | some fin =>
    simp only at h
    obtain ⟨h1, h2, h3, h4⟩ := h
    refine ⟨fin - str, by rw [strnlen, e]; rfl, by omega, fun _ => ?_, fun j hj => ?_⟩
    · have : str + (fin - str) = fin := by omega
      rw [this]; exact h3
    · exact h4 (str + j) (by omega) (by omega)

/-- **C72, `zpl_utf8_strnlen`, partial.** On a terminated well-formed UTF-8 text it counts the code points whose first byte is among the first `maxLen` bytes:
the result `k` is the number of leading code points, and code point number `j` is counted exactly if the ones before it take less than `maxLen` bytes.  Missing: a buffer of `maxLen` bytes without
terminator, see `C72_strnlen_reads_past`. -/
theorem C72_utf8_strnlen_partial (rs : List Nat) (hrs : ∀ r ∈ rs, Utf8.Scalar r ∧ r ≠ 0) (rest : List Byte) (maxLen : Int) :
    ∃ k : Nat, k ≤ rs.length ∧ utf8Strnlen (rs.flatMap Utf8.enc ++ 0 :: rest) maxLen = .ok k ∧
      ∀ j, j < rs.length → (j < k ↔ (((rs.take j).flatMap Utf8.enc).length : Int) < maxLen) := by
  have hlen : rs.length ≤ (rs.flatMap Utf8.enc).length := by
    induction rs with
    | nil => simp
    | cons r rs ih =>
      have := ih (fun r' h => hrs r' (by simp [h]))
      obtain ⟨a, t, e, -⟩ := Utf8.shape_head (Utf8.enc_shape (hrs r (by simp)).1)
      rw [List.flatMap_cons, e, List.length_append]; simp only [List.length_cons]; omega
  obtain ⟨k, hk, e, h⟩ := strnlenLoop_ok rs rest [] 0 maxLen ((rs.flatMap Utf8.enc ++ 0 :: rest).length + 1) hrs
    (by rw [List.length_append]; simp only [List.length_cons]; omega)
  refine ⟨k, hk, ?_, fun j hj => ?_⟩
  · unfold utf8Strnlen
    simpa using e
  · have := h (j + 1) (by omega)
    simp only [Nat.add_sub_cancel] at this
    rw [← Nat.succ_le_iff, this]
    simp

/-- Deviation: on a buffer of exactly `maxLen` bytes that has no terminator, `zpl_utf8_strnlen` reads the byte behind it; here for every well-formed
text. -/
theorem C72_strnlen_reads_past (rs : List Nat) (hrs : ∀ r ∈ rs, Utf8.Scalar r ∧ r ≠ 0) :
    utf8Strnlen (rs.flatMap Utf8.enc) (rs.flatMap Utf8.enc).length = .error .oob := by
  have key : ∀ (rs : List Nat) (done : List Byte) (n maxLen : Int) (fuel : Nat), (∀ r ∈ rs, Utf8.Scalar r ∧ r ≠ 0) → rs.length < fuel →
      maxLen = ((rs.flatMap Utf8.enc).length : Int) →
      utf8StrnlenLoop fuel (done ++ rs.flatMap Utf8.enc) done.length maxLen n = .error .oob := by
    intro rs
    induction rs with
    | nil =>
      intro done n maxLen fuel _ hf _
      obtain ⟨f, rfl⟩ : ∃ f, fuel = f + 1 := ⟨fuel - 1, by simp at hf; omega⟩
      rw [utf8StrnlenLoop, Sort.rd_oob (by simp), except_error_bind]
    | cons r rs ih =>
      intro done n maxLen fuel hrs hf hm
      obtain ⟨f, rfl⟩ : ∃ f, fuel = f + 1 := ⟨fuel - 1, by simp at hf; omega⟩
      obtain ⟨hr, h0⟩ := hrs r (by simp)
      obtain ⟨b, t, e, hl⟩ := Utf8.leadInc_shape (Utf8.enc_shape hr)
      have hb : b ≠ 0 := Utf8.enc_ne_zero hr h0 b (by rw [e]; simp)
      have r1 : rd (done ++ (r :: rs).flatMap Utf8.enc) done.length = .ok b := by
        rw [List.flatMap_cons, e]; simp [rd]
      have hpos : maxLen > 0 := by
        rw [hm, List.flatMap_cons, e, List.length_append]; simp only [List.length_cons]; omega
      rw [utf8StrnlenLoop, r1, except_ok_bind, if_pos ⟨hb, hpos⟩, hl]
      dsimp only
      have := ih (done ++ Utf8.enc r) (n + 1) (maxLen - (Utf8.enc r).length) f (fun r' h => hrs r' (by simp [h])) (by simp at hf ⊢; omega)
        (by rw [hm, List.flatMap_cons, List.length_append]; omega)
      rw [List.length_append] at this
      rw [← this]
      congr 1; simp
  have hlen : rs.length ≤ (rs.flatMap Utf8.enc).length := by
    clear key
    induction rs with
    | nil => simp
    | cons r rs ih =>
      have := ih (fun r' h => hrs r' (by simp [h]))
      obtain ⟨a, t, e, -⟩ := Utf8.shape_head (Utf8.enc_shape (hrs r (by simp)).1)
      rw [List.flatMap_cons, e, List.length_append]; simp only [List.length_cons]; omega
  have := key rs [] 0 _ ((rs.flatMap Utf8.enc).length + 1) hrs (by omega) rfl
  simpa [utf8Strnlen] using this

/-- **C72, `zpl_utf8_codepoint_size`, partial.** On a pointer at an ASCII character it is 1.  Missing: all other code points, see
`C72_codepoint_size_wrong`. -/
theorem C72_codepoint_size_partial (c : Byte) (hc : c.toNat < 128) (s : List Byte) (n : Nat) : codepointSize (c :: s) n = .ok 1 := by
  cases n with
  | zero => rfl
  | succ n =>
    have : ∀ c : Byte, c.toNat < 128 → c = 0 ∨ c &&& 0xc0#8 ≠ 0x80#8 := by decide +kernel
    rw [codepointSize, codepointSizeLoop]
    have r1 : rd (c :: s) 0 = .ok c := rfl
    rw [r1, except_ok_bind]
    rcases this c hc with h | h
    · rw [if_pos h]; rfl
    · by_cases h0 : c = 0
      · rw [if_pos h0]; rfl
      · rw [if_neg h0, if_pos h]; rfl

/-- Deviation: the size of every code point is reported as 1, also of those that take 2, 3 or 4 bytes: the loop stops at the lead byte. -/
theorem C72_codepoint_size_wrong (r : Nat) (hr : Utf8.Scalar r) (rest : List Byte) (n : Nat) :
    codepointSize (Utf8.enc r ++ rest) n = .ok 1 := by
  obtain ⟨b, t, e, hl⟩ := Utf8.leadInc_shape (Utf8.enc_shape hr)
  rw [e, List.cons_append]
  cases n with
  | zero => rfl
  | succ n =>
    have : ∀ c : Byte, (Utf8.leadInc c).isSome → c = 0 ∨ c &&& 0xc0#8 ≠ 0x80#8 := by decide +kernel
    rw [codepointSize, codepointSizeLoop]
    have r1 : rd (b :: (t ++ rest)) 0 = .ok b := rfl
    rw [r1, except_ok_bind]
    rcases this b (by rw [hl]; rfl) with h | h
    · rw [if_pos h]; rfl
    · by_cases h0 : b = 0
      · rw [if_pos h0]; rfl
      · rw [if_neg h0, if_pos h]; rfl

/-! ## The hypotheses are met -/

/-- "a€b": three code points, of which two begin within the first two bytes; the size of € is 3 but reported as 1. -/
example : [97, 0x20AC, 98].flatMap Utf8.enc = [97#8, 0xe2#8, 0x82#8, 0xac#8, 98#8] ∧
    (∀ r ∈ [97, 0x20AC, 98], Utf8.Scalar r ∧ r ≠ 0) ∧ utf8Strnlen [97#8, 0xe2#8, 0x82#8, 0xac#8, 98#8, 0#8] 2 = .ok 2 ∧
    (Utf8.enc 0x20AC).length = 3 ∧ hexValue 70#8 = some 15 ∧ charToHexDigit 70#8 = 5#8 := by
  refine ⟨by decide, ?_, by decide, by decide, by decide, by decide⟩
  unfold Utf8.Scalar; decide

end Zpl.Chars
