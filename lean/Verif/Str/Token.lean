import Verif.Str.Copy

/-!
# Tokens and skipping (code/header/core/string.h:312-345, 379-407)  -  C69, C70

## Model

As in `CStr`: a pointer is the list of bytes from there to the end of its block, a returned pointer is its distance from the argument. -/

namespace Zpl.Token

open Str Copy

/-- Lines 315 / 328: `*output = 0`. -/
def putNul : List Byte → Except Fault (List Byte)
  | [] => .error .oob
  | _ :: o => .ok (0 :: o)

/-- string.h:312-317 `zpl_strtok`: the bytes from `output` on, afterwards, and the returned pointer. -/
def strtok (delimit : List Byte) : List Byte → List Byte → Except Fault (List Byte × Nat)
  | _, [] => .error .oob
  | output, c :: src =>
    if c ≠ 0 then do
      let o ← firstOcc c delimit
      if o = none then
        match output with
        | [] => .error .oob
        | _ :: output => do
          let (out, k) ← strtok delimit output src
          .ok (c :: out, k + 1)
      else do .ok (← putNul output, 1)
    else do .ok (← putNul output, 0)

/-- string.h:322-328, with `len` bytes left. -/
def strntokLoop (delimit : List Byte) : List Byte → Nat → List Byte → Except Fault (List Byte × Nat)
  | _, _, [] => .error .oob
  | output, len, c :: src =>
    if c ≠ 0 then do
      let o ← firstOcc c delimit
      if o = none ∧ 0 < len then
        match output with
        | [] => .error .oob
        | _ :: output => do
          let (out, k) ← strntokLoop delimit output (len - 1) src
          .ok (c :: out, k + 1)
      else if 0 < len then do .ok (← putNul output, 1) else .ok (output, 1)
    else if 0 < len then do .ok (← putNul output, 0) else .ok (output, 0)

/-- string.h:319-330 `zpl_strntok`. -/
def strntok (delimit output : List Byte) (len : Nat) (src : List Byte) : Except Fault (List Byte × Nat) :=
  if 0 < len then do
    let output ← wr output (len - 1) 0
    strntokLoop delimit output len src
  else .error .assertion

/-- string.h:114-117 `zpl_char_is_space`. -/
def isSpace (c : Byte) : Bool := c == 0x20#8 || c == 0x09#8 || c == 0x0a#8 || c == 0x0d#8 || c == 0x0c#8 || c == 0x0b#8

/-- string.h:379-383 `zpl_str_trim`. -/
def trim (catchNewline : Bool) : List Byte → Except Fault Nat
  | [] => .error .oob
  | c :: s =>
    if c ≠ 0 ∧ isSpace c = true ∧ (catchNewline = false ∨ (catchNewline = true ∧ c ≠ 0x0a#8)) then do .ok ((← trim catchNewline s) + 1)
    else .ok 0

/-- string.h:385-388 `zpl_str_skip`. -/
def skip (c : Byte) : List Byte → Except Fault Nat
  | [] => .error .oob
  | x :: s => if x ≠ 0 ∧ x ≠ c then do .ok ((← skip c s) + 1) else .ok 0

/-- string.h:393-396, the loop of `zpl_str_skip_any`, `n` characters of the list to go. -/
def skipAnyLoop (str : List Byte) : Nat → List Byte → Nat → Except Fault Nat
  | 0, _, closest => .ok closest
  | _ + 1, [], _ => .error .oob
  | n + 1, c :: list, closest => do
    let p ← skip c str
    skipAnyLoop str n list (if closest < p then closest else p)

/-- string.h:390-398 `zpl_str_skip_any`. -/
def skipAny (str charList : List Byte) : Except Fault Nat := do
  let closest ← strlen str
  let count ← strlen charList
  skipAnyLoop str count charList closest

/-- string.h:405: `prev` is `*(str-1)`. -/
def skipLiteralLoop (c : Byte) : Byte → List Byte → Except Fault Nat
  | _, [] => .error .oob
  | prev, x :: s => if (x ≠ 0 ∧ x ≠ c) ∨ (x = c ∧ prev = 0x5c#8) then do .ok ((← skipLiteralLoop c x s) + 1) else .ok 0

/-- string.h:400-407 `zpl_str_skip_literal`. -/
def skipLiteral (c : Byte) : List Byte → Except Fault Nat
  | [] => .error .oob
  | x :: s => if x = 0 ∨ x = c then .ok 0 else do .ok ((← skipLiteralLoop c x s) + 1)

/-- string.h:332-334 `zpl_char_is_control`: is `c` found in `"\"\\/bfnrt"`? -/
def isControl (c : Byte) : Except Fault Bool := do
  let o ← firstOcc c [0x22#8, 0x5c#8, 0x2f#8, 0x62#8, 0x66#8, 0x6e#8, 0x72#8, 0x74#8, 0#8]
  .ok o.isSome

/-- string.h:341-345 `zpl_str_control_skip`: `prev` is `*(str - 1)`, which is read at the start as well. -/
def controlSkip (c : Byte) : Byte → List Byte → Except Fault Nat
  | _, [] => .error .oob
  | prev, x :: s =>
    if x ≠ 0 ∧ x ≠ c then do .ok ((← controlSkip c x s) + 1)
    else if prev = 0x5c#8 ∧ x = c then do
      if ← isControl c then do .ok ((← controlSkip c x s) + 1) else .ok 0
    else .ok 0

/-- How a caller splits a text: `while (*src) { src = zpl_strtok(buf, src, delimit); ... }`, collecting what `buf` reads as each time.  The fuel bounds the
number of rounds. -/
def tokens (delimit : List Byte) : Nat → List Byte → List Byte → Except Fault (List (List Byte))
  | 0, _, _ => .error .diverge
  | fuel + 1, buf, src => do
    let c ← rd src 0
    if c = 0 then .ok []
    else do
      let (buf, k) ← strtok delimit buf src
      let n ← strlen buf
      .ok (buf.take n :: (← tokens delimit fuel buf (src.drop k)))

/-! ## Specification -/

/-- The text `s` consists of the fields `ts`, each field but perhaps the last one being followed by one character of `D`; no field contains a character of
`D`.  A `D` character at the very end does not open another field. -/
inductive Fields (D : List Byte) : List Byte → List (List Byte) → Prop
  | none : Fields D [] []
  | last {t : List Byte} (ht : t ≠ []) (hD : ∀ c ∈ t, c ∉ D) : Fields D t [t]
  | field {t : List Byte} (hD : ∀ c ∈ t, c ∉ D) {d : Byte} (hd : d ∈ D) {s : List Byte} {ts : List (List Byte)} (h : Fields D s ts) :
      Fields D (t ++ d :: s) (t :: ts)

/-- `k` is the first index below `n` with `P`, or `n` if there is none. -/
def FirstOrEnd (P : Nat → Prop) (n k : Nat) : Prop := k ≤ n ∧ (∀ j, j < k → ¬ P j) ∧ (k < n → P k)

/-- Blank characters: space, and the control characters tab, line feed, vertical tab, form feed, carriage return. -/
def Blank (c : Byte) : Prop := c = 32#8 ∨ (9 ≤ c.toNat ∧ c.toNat ≤ 13)

/-! ## Lemmas -/

theorem firstOcc_none {D : List Byte} (hD : Text D) (rd : List Byte) {c : Byte} (hc : c ≠ 0) :
    ∃ o, firstOcc c (D ++ 0 :: rd) = .ok o ∧ (o = none ↔ c ∉ D) := by
  obtain ⟨r, e, -, h⟩ := firstOcc_ok hD rd c
  refine ⟨r, e, ?_⟩
  rw [h, List.mem_append, List.mem_singleton]
  exact ⟨fun h h' => h (.inl h'), fun h h' => h'.elim h hc⟩

theorem putNul_ok {o : List Byte} (h : 0 < o.length) : putNul o = .ok (0 :: o.drop 1) := by
  cases o with
  | nil => simp at h
  | cons x o => rfl

/-- The copying part of `zpl_strtok`. -/
theorem strtok_walk {D : List Byte} (hD : Text D) (rd : List Byte) {t : List Byte} (ht : Text t) (hn : ∀ c ∈ t, c ∉ D) (out src : List Byte)
    (ho : t.length ≤ out.length) :
    strtok (D ++ 0 :: rd) out (t ++ src) = (strtok (D ++ 0 :: rd) (out.drop t.length) src).map (fun r => (t ++ r.1, r.2 + t.length)) := by
  induction t generalizing out with
  | nil =>
    simp only [List.nil_append, List.length_nil, List.drop_zero, Nat.add_zero]
    cases strtok (D ++ 0 :: rd) out src <;> rfl
  | cons c t ih =>
    have hc := Text.cons.1 ht
    obtain ⟨o, e, h⟩ := firstOcc_none hD rd hc.1
    have h := h.2 (hn c (by simp))
    cases out with
    | nil => simp at ho
    | cons x out =>
      rw [List.cons_append, strtok, if_pos hc.1, e, except_ok_bind, if_pos h]
      dsimp only
      rw [ih hc.2 (fun d hd => hn d (by simp [hd])) out (by simpa using ho)]
      simp only [List.length_cons, List.drop_succ_cons]
      cases strtok (D ++ 0 :: rd) (out.drop t.length) src <;> simp [Except.map]
      omega

theorem strtok_delim {D : List Byte} (hD : Text D) (rd : List Byte) {d : Byte} (hd : d ∈ D) (out src : List Byte) (ho : 0 < out.length) :
    strtok (D ++ 0 :: rd) out (d :: src) = .ok (0 :: out.drop 1, 1) := by
  have h0 : d ≠ 0 := hD d hd
  obtain ⟨o, e, h⟩ := firstOcc_none hD rd h0
  have : ¬ o = none := fun hn => h.1 hn hd
  rw [strtok.eq_def]; dsimp only
  rw [if_pos h0, e, except_ok_bind, if_neg this, putNul_ok ho, except_ok_bind]

theorem strtok_end (delimit out src : List Byte) (ho : 0 < out.length) :
    strtok delimit out (0 :: src) = .ok (0 :: out.drop 1, 0) := by
  rw [strtok.eq_def]; dsimp only
  rw [if_neg (by simp), putNul_ok ho, except_ok_bind]

theorem strntok_walk {D : List Byte} (hD : Text D) (rd : List Byte) {t : List Byte} (ht : Text t) (hn : ∀ c ∈ t, c ∉ D) (out src : List Byte)
    (len : Nat) (hl : t.length ≤ len) (ho : t.length ≤ out.length) :
    strntokLoop (D ++ 0 :: rd) out len (t ++ src) =
      (strntokLoop (D ++ 0 :: rd) (out.drop t.length) (len - t.length) src).map (fun r => (t ++ r.1, r.2 + t.length)) := by
  induction t generalizing out len with
  | nil =>
    simp only [List.nil_append, List.length_nil, List.drop_zero, Nat.add_zero, Nat.sub_zero]
    cases strntokLoop (D ++ 0 :: rd) out len src <;> rfl
  | cons c t ih =>
    have hc := Text.cons.1 ht
    obtain ⟨o, e, h⟩ := firstOcc_none hD rd hc.1
    have h := h.2 (hn c (by simp))
    have hp : 0 < len := by simp at hl; omega
    cases out with
    | nil => simp at ho
    | cons x out =>
      rw [List.cons_append, strntokLoop, if_pos hc.1, e, except_ok_bind, if_pos ⟨h, hp⟩]
      dsimp only
      rw [ih hc.2 (fun d hd => hn d (by simp [hd])) out (len - 1) (by simp at hl; omega) (by simpa using ho)]
      simp only [List.length_cons, List.drop_succ_cons]
      have : len - 1 - t.length = len - (t.length + 1) := by omega
      rw [this]
      cases strntokLoop (D ++ 0 :: rd) (out.drop t.length) (len - (t.length + 1)) src <;> simp [Except.map]
      omega

theorem trim_ok (nl : Bool) {s : List Byte} (hs : Text s) (rest : List Byte) :
    ∃ k, trim nl (s ++ 0 :: rest) = .ok k ∧
      FirstOrEnd (fun j => ∃ c, s[j]? = some c ∧ ¬ (Blank c ∧ (nl = true → c ≠ 10#8))) s.length k := by
  have hsp : ∀ c : Byte, isSpace c = true ↔ Blank c := by
    unfold Blank; decide +kernel
  induction s with
  | nil => exact ⟨0, by simp [trim], by simp [FirstOrEnd]⟩
  | cons c s ih =>
    have hc := Text.cons.1 hs
    obtain ⟨k, e, h1, h2, h3⟩ := ih hc.2
    by_cases hb : Blank c ∧ (nl = true → c ≠ 10#8)
    · refine ⟨k + 1, ?_, by simp; omega, ?_, ?_⟩
      · rw [List.cons_append, trim, if_pos, e, except_ok_bind]
        refine ⟨hc.1, (hsp c).2 hb.1, ?_⟩
        cases nl
        · exact .inl rfl
        · exact .inr ⟨rfl, hb.2 rfl⟩
      · intro j hj
        cases j with
        | zero => simpa using hb
        | succ j => simpa using h2 j (by omega)
      · intro hk
        simpa using h3 (by simpa using hk)
    · refine ⟨0, ?_, by simp, by simp, fun _ => ⟨c, by simp, hb⟩⟩
      rw [List.cons_append, trim, if_neg]
      rintro ⟨-, h2, h3⟩
      refine hb ⟨(hsp c).1 h2, fun h => ?_⟩
      rcases h3 with h3 | h3
      · rw [h] at h3; cases h3
      · exact h3.2

theorem skip_ok (c : Byte) {s : List Byte} (hs : Text s) (rest : List Byte) :
    ∃ k, skip c (s ++ 0 :: rest) = .ok k ∧ FirstOrEnd (fun j => s[j]? = some c) s.length k := by
  induction s with
  | nil => exact ⟨0, by simp [skip], by simp [FirstOrEnd]⟩
  | cons x s ih =>
    have hc := Text.cons.1 hs
    obtain ⟨k, e, h1, h2, h3⟩ := ih hc.2
    by_cases hb : x = c
    · exact ⟨0, by rw [List.cons_append, skip, if_neg (fun h => h.2 hb)], by simp, by simp, fun _ => by simp [hb]⟩
    · refine ⟨k + 1, ?_, by simp; omega, ?_, ?_⟩
      · rw [List.cons_append, skip, if_pos ⟨hc.1, hb⟩, e, except_ok_bind]
      · intro j hj
        cases j with
        | zero => simpa using hb
        | succ j => simpa using h2 j (by omega)
      · intro hk
        simpa using h3 (by simpa using hk)

theorem skipAnyLoop_ok {s : List Byte} (hs : Text s) (rest rl : List Byte) (D : List Byte) (done : List Byte) (closest : Nat)
    (h : FirstOrEnd (fun j => ∃ c ∈ done, s[j]? = some c) s.length closest) :
    ∃ k, skipAnyLoop (s ++ 0 :: rest) D.length (D ++ rl) closest = .ok k ∧ FirstOrEnd (fun j => ∃ c ∈ done ++ D, s[j]? = some c) s.length k := by
  induction D generalizing done closest with
  | nil => exact ⟨closest, by simp [skipAnyLoop], by simpa using h⟩
  | cons c D ih =>
    obtain ⟨p, e, p1, p2, p3⟩ := skip_ok c hs rest
    obtain ⟨q1, q2, q3⟩ := h
    have hnext : FirstOrEnd (fun j => ∃ d ∈ done ++ [c], s[j]? = some d) s.length (if closest < p then closest else p) := by
      refine ⟨by split <;> assumption, ?_, ?_⟩
      · rintro j hj ⟨d, hd, hs⟩
        rcases List.mem_append.1 hd with hd | hd
        · exact q2 j (by split at hj <;> omega) ⟨d, hd, hs⟩
        · obtain rfl : d = c := by simpa using hd
          exact p2 j (by split at hj <;> omega) hs
      · intro hk
        split
        · rename_i hlt
          rw [if_pos hlt] at hk
          obtain ⟨d, hd, hs⟩ := q3 hk
          exact ⟨d, by simp [hd], hs⟩
        · rename_i hlt
          rw [if_neg hlt] at hk
          exact ⟨c, by simp, p3 hk⟩
    obtain ⟨k, e2, hk⟩ := ih (done ++ [c]) _ hnext
    refine ⟨k, ?_, by simpa using hk⟩
    rw [List.length_cons, List.cons_append, skipAnyLoop, e, except_ok_bind, e2]

theorem skipLiteralLoop_ok {c : Byte} (h0 : c ≠ 0) (prev : Byte) {s : List Byte} (hs : Text s) (rest : List Byte) :
    ∃ k, skipLiteralLoop c prev (s ++ 0 :: rest) = .ok k ∧
      FirstOrEnd (fun j => s[j]? = some c ∧ (prev :: s)[j]? ≠ some 0x5c#8) s.length k := by
  induction s generalizing prev with
  | nil =>
    refine ⟨0, ?_, by simp [FirstOrEnd]⟩
    rw [List.nil_append, skipLiteralLoop, if_neg]
    rintro (h | h)
    · exact h.1 rfl
    · exact h0 h.1.symm
  | cons x s ih =>
    have hc := Text.cons.1 hs
    obtain ⟨k, e, h1, h2, h3⟩ := ih x hc.2
    by_cases hb : x = c ∧ prev ≠ 0x5c#8
    · refine ⟨0, ?_, by simp, by simp, fun _ => by simp [hb.1, hb.2]⟩
      rw [List.cons_append, skipLiteralLoop, if_neg]
      rintro (h | h)
      · exact h.2 hb.1
      · exact hb.2 h.2
    · refine ⟨k + 1, ?_, by simp; omega, ?_, ?_⟩
      · rw [List.cons_append, skipLiteralLoop, if_pos, e, except_ok_bind]
        by_cases hx : x = c
        · refine .inr ⟨hx, ?_⟩
          by_cases hp : prev = 0x5c#8
          · exact hp
          · exact absurd ⟨hx, hp⟩ hb
        · exact .inl ⟨hc.1, hx⟩
      · intro j hj
        cases j with
        | zero => simpa using hb
        | succ j => simpa using h2 j (by omega)
      · intro hk
        simpa using h3 (by simpa using hk)

theorem isControl_ok (c : Byte) (h0 : c ≠ 0) :
    isControl c = .ok (decide (c ∈ [0x22#8, 0x5c#8, 0x2f#8, 0x62#8, 0x66#8, 0x6e#8, 0x72#8, 0x74#8])) := by
  revert h0; revert c; decide +kernel

theorem controlSkip_ok {c : Byte} (h0 : c ≠ 0) (prev : Byte) {s : List Byte} (hs : Text s) (rest : List Byte) :
    ∃ k, controlSkip c prev (s ++ 0 :: rest) = .ok k ∧
      FirstOrEnd (fun j => s[j]? = some c ∧
        ¬ ((prev :: s)[j]? = some 0x5c#8 ∧ c ∈ [0x22#8, 0x5c#8, 0x2f#8, 0x62#8, 0x66#8, 0x6e#8, 0x72#8, 0x74#8])) s.length k := by
  induction s generalizing prev with
  | nil =>
    refine ⟨0, ?_, by simp [FirstOrEnd]⟩
    rw [List.nil_append, controlSkip, if_neg (fun h => h.1 rfl), if_neg (fun h => h0 h.2.symm)]
  | cons x s ih =>
    have hc := Text.cons.1 hs
    obtain ⟨k, e, h1, h2, h3⟩ := ih x hc.2
    by_cases hx : x = c
    · by_cases hb : prev = 0x5c#8 ∧ c ∈ [0x22#8, 0x5c#8, 0x2f#8, 0x62#8, 0x66#8, 0x6e#8, 0x72#8, 0x74#8]
      · refine ⟨k + 1, ?_, by simp; omega, ?_, ?_⟩
        · rw [List.cons_append, controlSkip, if_neg (fun h => h.2 hx), if_pos ⟨hb.1, hx⟩, isControl_ok c h0, except_ok_bind,
            if_pos (by simpa using hb.2), e, except_ok_bind]
        · intro j hj
          cases j with
          | zero => exact fun h => h.2 ⟨by simp [hb.1], hb.2⟩
          | succ j => simpa using h2 j (by omega)
        · intro hk
          simpa using h3 (by simpa using hk)
      · refine ⟨0, ?_, by simp, by simp, fun _ => ⟨by simp [hx], fun h => hb ⟨by simpa using h.1, h.2⟩⟩⟩
        rw [List.cons_append, controlSkip, if_neg (fun h => h.2 hx)]
        by_cases hp : prev = 0x5c#8
        · rw [if_pos ⟨hp, hx⟩, isControl_ok c h0, except_ok_bind, if_neg]
          simpa using fun h => hb ⟨hp, h⟩
        · rw [if_neg (fun h => hp h.1)]
    · refine ⟨k + 1, ?_, by simp; omega, ?_, ?_⟩
      · rw [List.cons_append, controlSkip, if_pos ⟨hc.1, hx⟩, e, except_ok_bind]
      · intro j hj
        cases j with
        | zero => exact fun h => hx (by simpa using h.1)
        | succ j => simpa using h2 j (by omega)
      · intro hk
        simpa using h3 (by simpa using hk)

theorem fields_text {D s : List Byte} {ts : List (List Byte)} (h : Fields D s ts) (hs : Text s) : ∀ t ∈ ts, Text t := by
  induction h with
  | none => simp
  | last => simpa using hs
  | field hD hd h ih =>
    intro t ht
    rcases List.mem_cons.1 ht with rfl | ht
    · exact fun c hc => hs c (by simp [hc])
    · exact ih (fun c hc => hs c (by simp [hc])) t ht

theorem reads_strlen {t : List Byte} (ht : Text t) (rest : List Byte) : strlen (t ++ 0 :: rest) = .ok t.length := strlen_ok ht rest

/-! ## Properties -/

/-- **C69, `zpl_strtok`.** With room for the token and a terminator, the characters before the first delimiter are stored and terminated, nothing else is
written, and the returned pointer is just after the delimiter, or at the terminator if there is no delimiter. -/
theorem C69_strtok {D : List Byte} (hD : Text D) (rd : List Byte) {tok : List Byte} (ht : Text tok) (hn : ∀ c ∈ tok, c ∉ D) (out : List Byte)
    (ho : tok.length < out.length) (rest : List Byte) :
    strtok (D ++ 0 :: rd) out (tok ++ 0 :: rest) = .ok (tok ++ 0 :: out.drop (tok.length + 1), tok.length) ∧
    ∀ d ∈ D, strtok (D ++ 0 :: rd) out (tok ++ d :: rest) = .ok (tok ++ 0 :: out.drop (tok.length + 1), tok.length + 1) := by
  constructor
  · rw [strtok_walk hD rd ht hn out _ (by omega), strtok_end _ _ _ (by simp; omega)]
    simp [Except.map, Nat.add_comm]
  · intro d hd
    rw [strtok_walk hD rd ht hn out _ (by omega), strtok_delim hD rd hd _ _ (by simp; omega)]
    simp [Except.map, Nat.add_comm]

/-- **C69, splitting a text by repeated `zpl_strtok`.** The tokens are exactly the fields of the text, in order. -/
theorem C69_fields {D : List Byte} (hD : Text D) (rd : List Byte) {s : List Byte} (hs : Text s) {ts : List (List Byte)} (h : Fields D s ts)
    (rest buf : List Byte) (hb : s.length < buf.length) :
    tokens (D ++ 0 :: rd) (s.length + 1) buf (s ++ 0 :: rest) = .ok ts := by
  suffices ∀ fuel, s.length < fuel → tokens (D ++ 0 :: rd) fuel buf (s ++ 0 :: rest) = .ok ts from this _ (by omega)
  induction h generalizing buf with
  | none =>
    intro fuel hf
    obtain ⟨f, rfl⟩ : ∃ f, fuel = f + 1 := ⟨fuel - 1, by omega⟩
    simp [tokens, Zpl.rd]
  | @last t hne hn =>
    intro fuel hf
    obtain ⟨f, rfl⟩ : ∃ f, fuel = f + 1 := ⟨fuel - 1, by omega⟩
    have e := (C69_strtok hD rd hs hn buf hb rest).1
    obtain ⟨f, rfl⟩ : ∃ f', f = f' + 1 := by
      refine ⟨f - 1, ?_⟩
      have : 0 < t.length := List.length_pos_iff.2 hne
      omega
    have h0 : ∃ c t', t = c :: t' ∧ c ≠ 0 := by
      cases t with
      | nil => exact absurd rfl hne
      | cons c t' => exact ⟨c, t', rfl, (Text.cons.1 hs).1⟩
    obtain ⟨c, t', rfl, hc⟩ := h0
    rw [tokens]
    have r1 : Zpl.rd (c :: t' ++ 0 :: rest) 0 = .ok c := rfl
    rw [r1, except_ok_bind, if_neg hc, e, except_ok_bind]
    dsimp only
    rw [strlen_ok hs, except_ok_bind, List.take_left' rfl, List.drop_left' rfl, tokens]
    simp [Zpl.rd]
  | @field t hn d hd s ts hF ih =>
    intro fuel hf
    obtain ⟨f, rfl⟩ : ∃ f, fuel = f + 1 := ⟨fuel - 1, by omega⟩
    have htx : Text t := fun c hc => hs c (by simp [hc])
    have hsx : Text s := fun c hc => hs c (by simp [hc])
    have hlt : t.length < buf.length := by simp at hb; omega
    have e := (C69_strtok hD rd htx hn buf hlt (s ++ 0 :: rest)).2 d hd
    have hb2 : s.length < (t ++ 0 :: buf.drop (t.length + 1)).length := by simp at hb ⊢; omega
    have key := ih hsx (t ++ 0 :: buf.drop (t.length + 1)) hb2 f (by simp at hf; omega)
    have h0 : ∃ c, Zpl.rd (t ++ d :: s ++ 0 :: rest) 0 = .ok c ∧ c ≠ 0 := by
      cases t with
      | nil => exact ⟨d, rfl, hD d hd⟩
      | cons c t' => exact ⟨c, rfl, (Text.cons.1 htx).1⟩
    obtain ⟨c, r1, hc⟩ := h0
    rw [tokens, r1, except_ok_bind, if_neg hc, List.append_assoc, List.cons_append, e, except_ok_bind]
    dsimp only
    have hdrop : (t ++ d :: (s ++ 0 :: rest)).drop (t.length + 1) = s ++ 0 :: rest := by
      rw [← List.drop_drop, List.drop_left' rfl, List.drop_one, List.tail_cons]
    rw [strlen_ok htx, except_ok_bind, List.take_left' rfl, hdrop, key, except_ok_bind]

/-- Every text has fields, so `C69_fields` covers every text. -/
theorem C69_fields_exist (D s : List Byte) : ∃ ts, Fields D s ts := by
  suffices ∀ n (s : List Byte), s.length ≤ n → ∃ ts, Fields D s ts from this s.length s (Nat.le_refl _)
  intro n
  induction n with
  | zero => intro s hs; obtain rfl : s = [] := List.length_eq_zero_iff.1 (by omega); exact ⟨[], .none⟩
  | succ n ih =>
    intro s hs
    by_cases hd : ∃ d ∈ s, d ∈ D
    · obtain ⟨t, d, u, rfl, hdD, hn⟩ : ∃ t d u, s = t ++ d :: u ∧ d ∈ D ∧ ∀ c ∈ t, c ∉ D := by
        clear ih hs
        induction s with
        | nil => simp at hd
        | cons c s ih =>
          by_cases hc : c ∈ D
          · exact ⟨[], c, s, rfl, hc, by simp⟩
          · obtain ⟨d, hds, hdD⟩ := hd
            have : d ∈ s := by
              rcases List.mem_cons.1 hds with rfl | h
              · exact absurd hdD hc
              · exact h
            obtain ⟨t, e, u, rfl, he, hn⟩ := ih ⟨d, this, hdD⟩
            refine ⟨c :: t, e, u, rfl, he, fun x hx => ?_⟩
            rcases List.mem_cons.1 hx with rfl | hx
            · exact hc
            · exact hn x hx
      obtain ⟨ts, h⟩ := ih u (by simp at hs; omega)
      exact ⟨_, .field hn hdD h⟩
    · cases s with
      | nil => exact ⟨[], .none⟩
      | cons c s => exact ⟨_, .last (by simp) (fun x hx hD => hd ⟨x, hx, hD⟩)⟩

/-- **C69, `zpl_strntok`, partial.** It writes only the `len` bytes at `output`.  A token shorter than `len` is stored and terminated and the returned
pointer is that of `zpl_strtok`.  Missing: longer tokens, see `C69_strntok_long`. -/
theorem C69_strntok_partial {D : List Byte} (hD : Text D) (rd : List Byte) {tok : List Byte} (ht : Text tok) (hn : ∀ c ∈ tok, c ∉ D) (out : List Byte)
    (len : Nat) (hl : tok.length < len) (ho : len ≤ out.length) (rest : List Byte) (x : Byte) (hx : x = 0 ∨ x ∈ D) :
    ∃ out', strntok (D ++ 0 :: rd) out len (tok ++ x :: rest) = .ok (out', if x = 0 then tok.length else tok.length + 1) ∧
      Reads out' tok ∧ out'.length = out.length ∧ out'.drop len = out.drop len := by
  have hw : wr out (len - 1) 0 = .ok (out.set (len - 1) 0) := wr_ok (by omega)
  have hwalk := strntok_walk hD rd ht hn (out.set (len - 1) 0) (x :: rest) len (by omega) (by simp; omega)
  have hput : putNul ((out.set (len - 1) 0).drop tok.length) = .ok (0 :: (out.set (len - 1) 0).drop (tok.length + 1)) := by
    rw [putNul_ok (by simp; omega)]; simp
  have hlast : strntokLoop (D ++ 0 :: rd) ((out.set (len - 1) 0).drop tok.length) (len - tok.length) (x :: rest) =
      .ok (0 :: (out.set (len - 1) 0).drop (tok.length + 1), if x = 0 then 0 else 1) := by
    by_cases h0 : x = 0
    · rw [strntokLoop.eq_def]; dsimp only
      rw [if_neg (by simp [h0]), if_pos (by omega), hput, except_ok_bind, if_pos h0]
    · have hxD : x ∈ D := by
        rcases hx with h | h
        · exact absurd h h0
        · exact h
      obtain ⟨o, e, h⟩ := firstOcc_none hD rd h0
      have : ¬ o = none := fun hn => h.1 hn hxD
      rw [strntokLoop.eq_def]; dsimp only
      rw [if_pos h0, e, except_ok_bind, if_neg (fun h => this h.1), if_pos (by omega), hput, except_ok_bind, if_neg h0]
  refine ⟨tok ++ 0 :: (out.set (len - 1) 0).drop (tok.length + 1), ?_, ⟨ht, _, rfl⟩, by simp; omega, ?_⟩
  · rw [strntok, if_pos (by omega), hw, except_ok_bind, hwalk, hlast]
    by_cases h0 : x = 0
    · rw [if_pos h0, if_pos h0]; simp [Except.map]
    · rw [if_neg h0, if_neg h0]; simp [Except.map, Nat.add_comm]
  · obtain ⟨n, rfl⟩ : ∃ n, len = tok.length + (n + 1) := ⟨len - tok.length - 1, by omega⟩
    rw [← List.drop_drop, List.drop_left' rfl, List.drop_succ_cons, List.drop_drop]
    have : tok.length + 1 + n = tok.length + (n + 1) := by omega
    rw [this, List.drop_set_of_lt (by omega)]

/-- Deviation: a token of `len` or more characters fills all `len` bytes, no terminator is left, and the returned pointer has skipped one character of the
token, which no later call will see. -/
theorem C69_strntok_long {D : List Byte} (hD : Text D) (rd : List Byte) {tok more : List Byte} (ht : Text tok) (hn : ∀ c ∈ tok, c ∉ D) (out : List Byte)
    (len : Nat) (hp : 0 < len) (hl : tok.length = len) (ho : len ≤ out.length) (c : Byte) (hc : c ≠ 0) :
    ∃ out', strntok (D ++ 0 :: rd) out len (tok ++ c :: more) = .ok (out', len + 1) ∧
      out'.take len = tok ∧ out'.drop len = out.drop len ∧ ∀ i, i < len → out'[i]? ≠ some 0 := by
  have hw : wr out (len - 1) 0 = .ok (out.set (len - 1) 0) := wr_ok (by omega)
  have hwalk := strntok_walk hD rd ht hn (out.set (len - 1) 0) (c :: more) len (by omega) (by simp; omega)
  obtain ⟨o, e, h⟩ := firstOcc_none hD rd hc
  have hlast : strntokLoop (D ++ 0 :: rd) ((out.set (len - 1) 0).drop tok.length) (len - tok.length) (c :: more) =
      .ok ((out.set (len - 1) 0).drop tok.length, 1) := by
    rw [strntokLoop.eq_def]; dsimp only
    rw [if_pos hc, e, except_ok_bind, if_neg (fun h => by omega), if_neg (by omega)]
  refine ⟨tok ++ out.drop len, ?_, by rw [← hl]; simp, by rw [← hl]; simp, fun i hi hz => ?_⟩
  · rw [strntok, if_pos hp, hw, except_ok_bind, hwalk, hlast, hl, List.drop_set_of_lt (by omega)]
    simp [Except.map, Nat.add_comm]
  · rw [List.getElem?_append_left (by omega)] at hz
    exact ht 0 (List.mem_of_getElem? hz) rfl

/-- **C70, `zpl_str_trim`.** The returned pointer is at the first character that is not blank (with `catch_newline`, a line feed counts as not blank), or at
the terminator. -/
theorem C70_trim (nl : Bool) {s : List Byte} (hs : Text s) (rest : List Byte) :
    ∃ k, trim nl (s ++ 0 :: rest) = .ok k ∧
      FirstOrEnd (fun j => ∃ c, s[j]? = some c ∧ ¬ (Blank c ∧ (nl = true → c ≠ 10#8))) s.length k := trim_ok nl hs rest

/-- **C70, `zpl_str_skip`.** The returned pointer is at the first `c`, or at the terminator. -/
theorem C70_skip (c : Byte) {s : List Byte} (hs : Text s) (rest : List Byte) :
    ∃ k, skip c (s ++ 0 :: rest) = .ok k ∧ FirstOrEnd (fun j => s[j]? = some c) s.length k := skip_ok c hs rest

/-- **C70, `zpl_str_skip_any`.** The returned pointer is at the first character that is in the list, or at the terminator. -/
theorem C70_skip_any {s D : List Byte} (hs : Text s) (hD : Text D) (rest rd : List Byte) :
    ∃ k, skipAny (s ++ 0 :: rest) (D ++ 0 :: rd) = .ok k ∧ FirstOrEnd (fun j => ∃ c ∈ D, s[j]? = some c) s.length k := by
  obtain ⟨k, e, h⟩ := skipAnyLoop_ok hs rest (0 :: rd) D [] s.length (by simp [FirstOrEnd])
  refine ⟨k, ?_, by simpa using h⟩
  rw [skipAny, strlen_ok hs, except_ok_bind, strlen_ok hD, except_ok_bind, e]

/-- **C70, `zpl_str_skip_literal`.** The returned pointer is at the first `c` that does not follow a backslash, or at the terminator. -/
theorem C70_skip_literal {c : Byte} (h0 : c ≠ 0) {s : List Byte} (hs : Text s) (rest : List Byte) :
    ∃ k, skipLiteral c (s ++ 0 :: rest) = .ok k ∧
      FirstOrEnd (fun j => s[j]? = some c ∧ (j = 0 ∨ s[j - 1]? ≠ some 0x5c#8)) s.length k := by
  cases s with
  | nil => exact ⟨0, by simp [skipLiteral], by simp [FirstOrEnd]⟩
  | cons x s =>
    have hc := Text.cons.1 hs
    by_cases hx : x = c
    · refine ⟨0, by rw [List.cons_append, skipLiteral, if_pos (.inr hx)], by simp, by simp, fun _ => by simp [hx]⟩
    · obtain ⟨k, e, h1, h2, h3⟩ := skipLiteralLoop_ok h0 x hc.2 rest
      refine ⟨k + 1, ?_, by simp; omega, ?_, ?_⟩
      · rw [List.cons_append, skipLiteral, if_neg (fun h => h.elim hc.1 hx), e, except_ok_bind]
      · intro j hj
        cases j with
        | zero => exact fun h => hx (by simpa using h.1)
        | succ j => simpa using h2 j (by omega)
      · intro hk
        simpa using h3 (by simpa using hk)

/-- **C70, `zpl_str_control_skip`.** `prev` is the character before the pointer, which the function reads.  The returned pointer is at the first `c` not
escaped by a backslash (only the characters `"\/bfnrt` can be escaped), or at the terminator. -/
theorem C70_control_skip {c : Byte} (h0 : c ≠ 0) (prev : Byte) {s : List Byte} (hs : Text s) (rest : List Byte) :
    ∃ k, controlSkip c prev (s ++ 0 :: rest) = .ok k ∧
      FirstOrEnd (fun j => s[j]? = some c ∧
        ¬ ((prev :: s)[j]? = some 0x5c#8 ∧ c ∈ [0x22#8, 0x5c#8, 0x2f#8, 0x62#8, 0x66#8, 0x6e#8, 0x72#8, 0x74#8])) s.length k :=
  controlSkip_ok h0 prev hs rest

/-! ## The hypotheses are met -/

/-- "ab,c" split at commas; "abcd" into three bytes; skipping in `a\"b"`. -/
example : Text [44#8] ∧ Text [97#8, 98#8, 44#8, 99#8] ∧
    tokens [44#8, 0#8] 5 [1#8, 2#8, 3#8, 4#8, 5#8] [97#8, 98#8, 44#8, 99#8, 0#8] = .ok [[97#8, 98#8], [99#8]] ∧
    strntok [44#8, 0#8] [1#8, 2#8, 3#8, 4#8] 3 [97#8, 98#8, 99#8, 100#8, 101#8, 0#8] = .ok ([97#8, 98#8, 99#8, 4#8], 4) ∧
    strntok [44#8, 0#8] [1#8, 2#8, 3#8, 4#8] 4 [97#8, 98#8, 44#8, 100#8, 101#8, 0#8] = .ok ([97#8, 98#8, 0#8, 0#8], 3) ∧
    trim true [32#8, 9#8, 10#8, 97#8, 0#8] = .ok 2 ∧ skipAny [97#8, 98#8, 99#8, 0#8] [99#8, 98#8, 0#8] = .ok 1 ∧
    skipLiteral 34#8 [97#8, 92#8, 34#8, 98#8, 34#8, 0#8] = .ok 4 ∧ controlSkip 34#8 34#8 [97#8, 92#8, 34#8, 98#8, 34#8, 0#8] = .ok 4 := by
  refine ⟨by unfold Text; decide, by unfold Text; decide, by decide, by decide, by decide, by decide, by decide, by decide, by decide⟩

end Zpl.Token
