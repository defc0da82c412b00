import Verif.Str.CStr

/-!
# Unbounded copies, concatenation and duplication (code/header/core/string.h:235-252, 409-417, 425-433)  -  C67, C68

## Model

As in `CStr`: a pointer is the list of bytes from there to the end of its block.  `dest` and `source` are different blocks. -/

namespace Zpl.Copy

open Str

/-- string.h:239 and 249: `while (*source) *str++ = *source++;` on the bytes `d` from `str` on. -/
def copyText : List Byte → List Byte → Except Fault (List Byte)
  | _, [] => .error .oob
  | d, c :: s =>
    if c ≠ 0 then
      match d with
      | [] => .error .oob
      | _ :: d => do .ok (c :: (← copyText d s))
    else .ok d

/-- string.h:235-242 `zpl_strcpy`: the bytes from `dest` on, afterwards. -/
def strcpy (dest source : List Byte) : Except Fault (List Byte) := copyText dest source

/-- string.h:244-252 `zpl_strcat`: line 248 walks to the terminator of `dest`. -/
def strcat : List Byte → List Byte → Except Fault (List Byte)
  | [], _ => .error .oob
  | c :: d, source => if c ≠ 0 then do .ok (c :: (← strcat d source)) else copyText (c :: d) source

/-- `zpl_memcopy` of the first `n` bytes of `src` to offset `at_` of `dest`. -/
def put (dest : List Byte) (at_ : Nat) (src : List Byte) (n : Nat) : Except Fault (List Byte) :=
  if n = 0 then .ok dest
  else if n ≤ src.length ∧ at_ + n ≤ dest.length then .ok (dest.take at_ ++ src.take n ++ dest.drop (at_ + n))
  else .error .oob

/-- string.h:409-417 `zpl_str_concat` for a `dest` that is not NULL.  The lengths are the ones the caller states. -/
def concat (dest : List Byte) (destLen : Nat) (a : List Byte) (aLen : Nat) (b : List Byte) (bLen : Nat) : Except Fault (List Byte) :=
  if aLen + bLen + 1 ≤ destLen then do
    let dest ← put dest 0 a aLen
    let dest ← put dest aLen b bLen
    wr dest (aLen + bLen) 0
  else .error .assertion

/-- string.h:425-433 `zpl_strdup`; `junk` is what the allocated block of `max_len` bytes holds.  When `max_len < len` the count
`max_len - len` of the `zpl_memset` is negative, which as a `size_t` is huge: out of bounds. -/
def strdup (junk : List Byte) (src : List Byte) : Except Fault (List Byte) := do
  let len ← strlen src
  if len ≤ junk.length then
    let dest := junk.take len ++ List.replicate (junk.length - len) 0
    strncpy dest src junk.length
  else .error .oob

/-! ## Specification -/

/-- The bytes from a pointer on read as the C string `s`. -/
def Reads (block s : List Byte) : Prop := Text s ∧ ∃ rest, block = s ++ 0 :: rest

/-! ## Lemmas -/

theorem copyText_ok {s : List Byte} (hs : Text s) (rest d : List Byte) (hd : s.length ≤ d.length) :
    copyText d (s ++ 0 :: rest) = .ok (s ++ d.drop s.length) := by
  induction s generalizing d with
  | nil => unfold copyText; simp
  | cons c s ih =>
    cases d with
    | nil => simp at hd
    | cons x d =>
      have hc := Text.cons.1 hs
      simp only [List.cons_append, copyText, ne_eq, hc.1, not_false_eq_true, if_true, ih hc.2 d (by simpa using hd), except_ok_bind,
        List.length_cons, List.drop_succ_cons]

theorem copyText_oob {s : List Byte} (hs : Text s) (rest d : List Byte) (hd : d.length < s.length) :
    copyText d (s ++ 0 :: rest) = .error .oob := by
  induction s generalizing d with
  | nil => simp at hd
  | cons c s ih =>
    have hc := Text.cons.1 hs
    cases d with
    | nil => simp only [List.cons_append, copyText, ne_eq, hc.1, not_false_eq_true, if_true]
    | cons x d =>
      simp only [List.cons_append, copyText, ne_eq, hc.1, not_false_eq_true, if_true, ih hc.2 d (by simpa using hd), except_error_bind]

theorem strcat_walk {t : List Byte} (ht : Text t) (r source : List Byte) :
    strcat (t ++ 0 :: r) source = (copyText (0 :: r) source).map (t ++ ·) := by
  induction t with
  | nil =>
    rw [List.nil_append, strcat, if_neg (by simp)]
    cases copyText (0 :: r) source <;> rfl
  | cons c t ih =>
    have hc := Text.cons.1 ht
    simp only [List.cons_append, strcat, ne_eq, hc.1, not_false_eq_true, if_true, ih hc.2]
    cases copyText (0 :: r) source <;> simp [Except.map]

/-- A block reads as at most one text. -/
theorem reads_inj {s t a b : List Byte} (hs : Text s) (ht : Text t) (h : s ++ 0 :: a = t ++ 0 :: b) : s = t := by
  have h1 := strlen_ok hs a
  have h2 := strlen_ok ht b
  rw [h, h2] at h1
  exact (List.append_inj h (by injection h1 with h1; exact h1.symm)).1

/-! ## Properties -/

/-- **C67, `zpl_strcpy`, partial.** The characters of the source are copied and nothing else is touched; the destination reads as the source
text if and only if the byte after the copied characters was NUL already.  Missing: the terminator, which the code never writes
(`C67_strcpy_not_terminated`). -/
theorem C67_strcpy_partial {s : List Byte} (hs : Text s) (rest dest : List Byte) (hd : s.length < dest.length) :
    ∃ out, strcpy dest (s ++ 0 :: rest) = .ok out ∧ out.take s.length = s ∧ out.drop s.length = dest.drop s.length ∧
      (Reads out s ↔ dest[s.length]? = some 0) := by
  refine ⟨s ++ dest.drop s.length, copyText_ok hs rest dest (by omega), by simp, by simp, ?_⟩
  rw [List.drop_eq_getElem_cons hd, List.getElem?_eq_getElem hd]
  constructor
  · rintro ⟨-, r, e⟩
    have e := List.append_cancel_left e
    injection e with e1 e2
    rw [e1]
  · intro h
    injection h with h
    exact ⟨hs, _, by rw [h]⟩

/-- Deviation: into a destination that held another text (a byte other than NUL where the terminator belongs), `zpl_strcpy` never produces the source
text. -/
theorem C67_strcpy_not_terminated {s : List Byte} (hs : Text s) (rest dest : List Byte) (c : Byte) (hc : dest[s.length]? = some c) (h0 : c ≠ 0) :
    ∃ out, strcpy dest (s ++ 0 :: rest) = .ok out ∧ ¬ Reads out s := by
  have hd : s.length < dest.length := by
    rcases Nat.lt_or_ge s.length dest.length with h | h
    · exact h
    · rw [List.getElem?_eq_none h] at hc; cases hc
  obtain ⟨out, e, -, -, h⟩ := C67_strcpy_partial hs rest dest hd
  refine ⟨out, e, fun hr => ?_⟩
  rw [h, hc] at hr
  injection hr with hr
  exact h0 hr

/-- **C67, `zpl_strcat`, partial.** The source is written over the terminator of the destination and after it; the result reads as the concatenation if
and only if the source is empty or the byte after it was NUL already.  Missing: the terminator, as for `zpl_strcpy`. -/
theorem C67_strcat_partial {s t : List Byte} (hs : Text s) (ht : Text t) (rest r : List Byte) (hd : s.length ≤ r.length) :
    ∃ out, strcat (t ++ 0 :: r) (s ++ 0 :: rest) = .ok out ∧ out.take (t.length + s.length) = t ++ s ∧
      out.drop (t.length + s.length) = (t ++ 0 :: r).drop (t.length + s.length) ∧
      (Reads out (t ++ s) ↔ (0 :: r)[s.length]? = some 0) := by
  have hd' : s.length < (0 :: r : List Byte).length := by simp; omega
  refine ⟨t ++ (s ++ (0 :: r : List Byte).drop s.length), ?_, ?_, ?_, ?_⟩
  · rw [strcat_walk ht, copyText_ok hs rest _ (by omega)]; rfl
  · rw [← List.append_assoc, ← List.length_append, List.take_left']; rfl
  · rw [← List.append_assoc, ← List.length_append, List.drop_left' rfl, List.length_append, ← List.drop_drop, List.drop_left' rfl]
  · rw [List.drop_eq_getElem_cons hd', List.getElem?_eq_getElem hd', ← List.append_assoc]
    constructor
    · rintro ⟨-, q, e⟩
      have e := List.append_cancel_left e
      injection e with e1 e2
      rw [e1]
    · intro h
      injection h with h
      refine ⟨?_, _, by rw [h]⟩
      intro x hx
      rcases List.mem_append.1 hx with hx | hx
      · exact ht x hx
      · exact hs x hx

/-- Deviation: appending a non-empty text in front of a byte other than NUL leaves the result unterminated there. -/
theorem C67_strcat_not_terminated {s t : List Byte} (hs : Text s) (ht : Text t) (rest r : List Byte) (c : Byte)
    (hc : (0 :: r)[s.length]? = some c) (h0 : c ≠ 0) :
    ∃ out, strcat (t ++ 0 :: r) (s ++ 0 :: rest) = .ok out ∧ ¬ Reads out (t ++ s) := by
  have hd : s.length ≤ r.length := by
    rcases Nat.lt_or_ge s.length (0 :: r : List Byte).length with h | h
    · simp at h; omega
    · rw [List.getElem?_eq_none h] at hc; cases hc
  obtain ⟨out, e, -, -, h⟩ := C67_strcat_partial hs ht rest r hd
  refine ⟨out, e, fun hr => ?_⟩
  rw [h, hc] at hr
  injection hr with hr
  exact h0 hr

/-- Neither function looks at the size of the destination: a source longer than the destination is written past its end. -/
theorem C67_unbounded {s : List Byte} (hs : Text s) (rest dest : List Byte) (hd : dest.length < s.length) :
    strcpy dest (s ++ 0 :: rest) = .error .oob := copyText_oob hs rest dest hd

/-- **C68, `zpl_str_concat`.** With lengths within the sources and a destination of `destLen` bytes, the call either stops at its assertion, exactly when
`destLen` is too small for both parts and a terminator, or stores the first part, the second part and a NUL, and nothing else. -/
theorem C68_concat (dest a b : List Byte) (aLen bLen : Nat) (ha : aLen ≤ a.length) (hb : bLen ≤ b.length) :
    concat dest dest.length a aLen b bLen =
      if aLen + bLen + 1 ≤ dest.length then .ok (a.take aLen ++ b.take bLen ++ 0 :: dest.drop (aLen + bLen + 1)) else .error .assertion := by
  unfold concat
  by_cases h : aLen + bLen + 1 ≤ dest.length
  · rw [if_pos h, if_pos h]
    have h1 : put dest 0 a aLen = .ok (a.take aLen ++ dest.drop aLen) := by
      unfold put
      by_cases h0 : aLen = 0
      · rw [if_pos h0]; simp [h0]
      · rw [if_neg h0, if_pos (by omega)]; simp
    have h2 : put (a.take aLen ++ dest.drop aLen) aLen b bLen = .ok (a.take aLen ++ b.take bLen ++ dest.drop (aLen + bLen)) := by
      have hl : (a.take aLen).length = aLen := by simp; omega
      unfold put
      by_cases h0 : bLen = 0
      · rw [if_pos h0]; simp [h0]
      · rw [if_neg h0, if_pos (by simp; omega), List.take_left' hl, List.drop_append, hl,
          List.drop_eq_nil_of_le (as := a.take aLen) (by omega), List.drop_drop]
        have : aLen + (aLen + bLen - aLen) = aLen + bLen := by omega
        simp [this]
    have hl : (a.take aLen ++ b.take bLen).length = aLen + bLen := by simp; omega
    rw [h1, except_ok_bind, h2, except_ok_bind, wr_ok (by simp; omega), List.set_append_right _ _ (by omega), hl, Nat.sub_self,
      List.drop_eq_getElem_cons (i := aLen + bLen) (by omega), List.set_cons_zero]
  · rw [if_neg h, if_neg h]

/-- **C68, `zpl_str_concat` of two whole texts.** The destination reads as their concatenation. -/
theorem C68_concat_texts {s t : List Byte} (hs : Text s) (ht : Text t) (rs rt dest : List Byte) (hd : s.length + t.length + 1 ≤ dest.length) :
    ∃ out, concat dest dest.length (s ++ 0 :: rs) s.length (t ++ 0 :: rt) t.length = .ok out ∧ Reads out (s ++ t) ∧ out.length = dest.length := by
  refine ⟨s ++ t ++ 0 :: dest.drop (s.length + t.length + 1), ?_, ⟨?_, dest.drop (s.length + t.length + 1), rfl⟩, ?_⟩
  · rw [C68_concat _ _ _ _ _ (by simp) (by simp), if_pos hd, List.take_left' rfl, List.take_left' rfl]
  · intro x hx
    rcases List.mem_append.1 hx with hx | hx
    · exact hs x hx
    · exact ht x hx
  · simp; omega

/-- **C68, `zpl_strdup`, partial.** When `max_len` is larger than the text, the new block of `max_len` bytes reads as the text and is NUL up to its end.
With `max_len` equal to the length it holds the characters without a terminator.  Missing: a `max_len` below the length of the text, where the call runs
out of bounds (`C68_strdup_short`). -/
theorem C68_strdup_partial {s : List Byte} (hs : Text s) (rest junk : List Byte) (hj : s.length ≤ junk.length) :
    ∃ out, strdup junk (s ++ 0 :: rest) = .ok out ∧ out = s ++ List.replicate (junk.length - s.length) 0 ∧ (s.length < junk.length ↔ Reads out s) := by
  refine ⟨_, ?_, rfl, ?_⟩
  · simp only [strdup, strlen_ok hs, except_ok_bind, if_pos hj]
    rw [C30_strncpy hs rest _ _ (by simp; omega)]
    simp only [List.take_of_length_le hj]
    rw [List.drop_eq_nil_of_le (by simp; omega), List.append_nil]
  · constructor
    · intro h
      refine ⟨hs, List.replicate (junk.length - s.length - 1) 0, ?_⟩
      obtain ⟨k, e⟩ : ∃ k, junk.length - s.length = k + 1 := ⟨junk.length - s.length - 1, by omega⟩
      rw [e, List.replicate_succ, Nat.add_sub_cancel]
    · rintro ⟨-, r, e⟩
      have := congrArg List.length e
      simp at this
      omega

/-- Deviation: a `max_len` below the length of the text does not cut the copy, it clears memory outside the block. -/
theorem C68_strdup_short {s : List Byte} (hs : Text s) (rest junk : List Byte) (hj : junk.length < s.length) :
    strdup junk (s ++ 0 :: rest) = .error .oob := by
  simp only [strdup, strlen_ok hs, except_ok_bind, if_neg (Nat.not_le.2 hj)]

/-! ## The hypotheses are met -/

/-- "ab" copied over "wxyz" reads "abyz"; concatenation and duplication. -/
example : Text [97#8, 98#8] ∧ strcpy [119#8, 120#8, 121#8, 122#8, 0#8] [97#8, 98#8, 0#8] = .ok [97#8, 98#8, 121#8, 122#8, 0#8] ∧
    strcat [99#8, 0#8, 0#8, 7#8, 0#8] [97#8, 98#8, 0#8] = .ok [99#8, 97#8, 98#8, 7#8, 0#8] ∧
    concat [1#8, 2#8, 3#8, 4#8, 5#8] 5 [97#8, 98#8] 2 [99#8, 100#8] 1 = .ok [97#8, 98#8, 99#8, 0#8, 5#8] ∧
    strdup [1#8, 2#8, 3#8, 4#8] [97#8, 98#8, 0#8] = .ok [97#8, 98#8, 0#8, 0#8] := by
  refine ⟨by unfold Text; decide, by decide, by decide, by decide, by decide⟩

end Zpl.Copy
