import Verif.Str.Utf8

/-!
# `zpl_string` (code/header/core/stringlib.h, code/source/core/stringlib.c)  -  C22, C23

## Model

A string is its header fields `length` and `capacity` and the `capacity + 1` bytes after the header.  Allocations succeed; the bytes of a block fresh from the allocator are given
by a function `junk`.  `zpl_resize` keeps the bytes of the old size it is given (C21); it is called with a larger size only.  `zpl_memcopy` and `zpl_memmove` (C10) are
`put`: they replace bytes of the block, inside it.  A text argument is the block of bytes from its address on. -/

namespace Zpl.ZString

open Str Utf8

/-- stringlib.h:8-12 `zpl_string_header`, and the bytes that follow it. -/
structure ZStr where
  block : List Byte
  length : Nat
  capacity : Nat
  deriving DecidableEq, Repr

/-- `zpl_memcopy` / `zpl_memmove` to offset `i` of the block of the first `n` bytes of `src`. -/
def put (block : List Byte) (i : Nat) (src : List Byte) (n : Nat) : Except Fault (List Byte) :=
  if i + n ≤ block.length ∧ n ≤ src.length then .ok (block.take i ++ src.take n ++ block.drop (i + n)) else .error .oob

/-- `k` bytes nobody has written. -/
def fresh (junk : Nat → Byte) (k : Nat) : List Byte := (List.range k).map junk

/-- stringlib.c:6-24 `zpl_string_make_reserve`. -/
def makeReserve (capacity : Nat) : Except Fault ZStr := do
  let block := List.replicate (capacity + 1) 0#8
  let block ← wr block capacity 0
  .ok ⟨block, 0, capacity⟩

/-- stringlib.c:27-46 `zpl_string_make_length`; `none` is the null pointer. -/
def makeLength (junk : Nat → Byte) (init : Option (List Byte)) (n : Nat) : Except Fault ZStr := do
  let block ← match init with
    | none => Except.ok (List.replicate (n + 1) 0#8)
    | some src => if n ≠ 0 then put (fresh junk (n + 1)) 0 src n else .ok (fresh junk (n + 1))
  let block ← wr block n 0
  .ok ⟨block, n, n⟩

/-- stringlib.h:45-48 `zpl_string_make`. -/
def make (junk : Nat → Byte) : Option (List Byte) → Except Fault ZStr
  | none => makeLength junk none 0
  | some str => do
    let len ← strlen str
    makeLength junk (some str) len

/-- stringlib.h:64-68 `zpl_string_available_space`. -/
def available (z : ZStr) : Nat := if z.capacity > z.length then z.capacity - z.length else 0

/-- stringlib.c:116-144 `zpl_string_make_space_for`.  The resize is told the size up to the terminator, so what lies after it is lost. -/
def makeSpaceFor (junk : Nat → Byte) (z : ZStr) (addLen : Int) : Except Fault ZStr :=
  if (available z : Int) ≥ addLen then .ok z
  else
    let newLen := ((z.length : Int) + addLen).toNat
    let oldSize := z.length + 1
    .ok ⟨z.block.take oldSize ++ fresh junk (newLen + 1 - oldSize), z.length, newLen⟩

/-- stringlib.c:67-79 `zpl_string_append_length`. -/
def appendLength (junk : Nat → Byte) (z : ZStr) (other : List Byte) (otherLen : Int) : Except Fault ZStr :=
  if otherLen > 0 then do
    let curr := z.length
    let z ← makeSpaceFor junk z otherLen
    let block ← put z.block curr other otherLen.toNat
    let block ← wr block (curr + otherLen.toNat) 0
    .ok ⟨block, curr + otherLen.toNat, z.capacity⟩
  else .ok z

/-- stringlib.c:81-83 `zpl_string_appendc`. -/
def appendc (junk : Nat → Byte) (z : ZStr) (other : List Byte) : Except Fault ZStr := do
  let len ← strlen other
  appendLength junk z other len

/-- stringlib.h:75-77 `zpl_string_append`; `other` is another string. -/
def append (junk : Nat → Byte) (z other : ZStr) : Except Fault ZStr := appendLength junk z other.block other.length

/-- stringlib.c:102-114 `zpl_string_set`; the text lies outside the string. -/
def set (junk : Nat → Byte) (z : ZStr) (cstr : List Byte) : Except Fault ZStr := do
  let len ← strlen cstr
  let z ← if z.capacity < len then makeSpaceFor junk z ((len : Int) - z.length) else .ok z
  let block ← put z.block 0 cstr len
  let block ← wr block len 0
  .ok ⟨block, len, z.capacity⟩

/-- stringlib.h:70-73 `zpl_string_clear`. -/
def clear (z : ZStr) : Except Fault ZStr := do
  .ok ⟨← wr z.block 0 0, 0, z.capacity⟩

/-- stringlib.c:184-192 `zpl_string_append_rune`. -/
def appendRune (junk : Nat → Byte) (z : ZStr) (r : BitVec 32) : Except Fault ZStr :=
  if 0 ≤ r.toInt then do
    let (buf, len) ← encodeRune (List.replicate 8 0) r
    appendLength junk z buf len
  else .ok z

/-- stringlib.c:171, the first loop of `zpl_string_trim`. -/
def startLoop (block cut : List Byte) (last : Int) : Nat → Nat → Except Fault Nat
  | 0, _ => .error .diverge
  | fuel + 1, start =>
    if (start : Int) ≤ last then do
      let c ← rd block start
      match ← firstOcc c cut with
      | some _ => startLoop block cut last fuel (start + 1)
      | none => .ok start
    else .ok start

/-- stringlib.c:172, the second loop. -/
def endLoop (block cut : List Byte) (start : Nat) : Nat → Int → Except Fault Int
  | 0, _ => .error .diverge
  | fuel + 1, last =>
    if last > start then do
      let c ← rd block last.toNat
      match ← firstOcc c cut with
      | some _ => endLoop block cut start fuel (last - 1)
      | none => .ok last
    else .ok last

/-- stringlib.c:174, the length that remains. -/
def trimLen (start : Nat) (last : Int) : Nat := if (start : Int) > last then 0 else ((last - start) + 1).toNat

/-- stringlib.c:176. -/
def moveFront (block : List Byte) (start len : Nat) : Except Fault (List Byte) :=
  if start ≠ 0 then put block 0 (block.drop start) len else .ok block

/-- stringlib.c:164-182 `zpl_string_trim`. -/
def trim (z : ZStr) (cut : List Byte) : Except Fault ZStr := do
  let last : Int := (z.length : Int) - 1
  let start ← startLoop z.block cut last (z.length + 1) 0
  let last ← endLoop z.block cut start (z.length + 1) last
  let block ← moveFront z.block start (trimLen start last)
  let block ← wr block (trimLen start last) 0
  .ok ⟨block, trimLen start last, z.capacity⟩

/-- stringlib.h:79 `zpl_string_trim_space`: blank, tab, carriage return, newline, vertical tab, form feed. -/
def trimSpace (z : ZStr) : Except Fault ZStr := trim z [0x20, 0x09, 0x0D, 0x0A, 0x0B, 0x0C, 0]

/-- stringlib.h:57-59 `zpl_string_duplicate`. -/
def duplicate (junk : Nat → Byte) (z : ZStr) : Except Fault ZStr := makeLength junk (some z.block) z.length

/-- stringlib.c:157-159, the loop of `zpl_string_are_equal`; `fuel` is `lhs_len - i`. -/
def equalLoop (a b : List Byte) : Nat → Nat → Except Fault Bool
  | 0, _ => .ok true
  | fuel + 1, i => do
    let x ← rd a i
    let y ← rd b i
    if x ≠ y then .ok false else equalLoop a b fuel (i + 1)

/-- stringlib.c:151-162 `zpl_string_are_equal`. -/
def areEqual (a b : ZStr) : Except Fault Bool :=
  if a.length ≠ b.length then .ok false else equalLoop a.block b.block a.length 0

/-- stringlib.c:91-97, the loop of `zpl_string_join` over the parts that remain. -/
def joinLoop (junk : Nat → Byte) (glue : List Byte) : List (List Byte) → ZStr → Except Fault ZStr
  | [], z => .ok z
  | part :: parts, z => do
    let z ← appendc junk z part
    match parts with
    | [] => joinLoop junk glue parts z
    | _ :: _ => do
      let z ← appendc junk z glue
      joinLoop junk glue parts z

/-- stringlib.c:85-100 `zpl_string_join`. -/
def join (junk : Nat → Byte) (parts : List (List Byte)) (glue : List Byte) : Except Fault ZStr := do
  let z ← make junk none
  joinLoop junk glue parts z

/-! ## Specification -/

/-- The text in a block: the bytes before the first NUL. -/
def textOf (block : List Byte) : List Byte := block.takeWhile (· ≠ 0)

/-- The string holds the bytes `s`: its length is their number and does not exceed the capacity, the block has one byte more than the capacity and
begins with `s` and a NUL. -/
structure Holds (z : ZStr) (s : List Byte) : Prop where
  length : z.length = s.length
  fits : z.length ≤ z.capacity
  size : z.block.length = z.capacity + 1
  bytes : z.block.take (s.length + 1) = s ++ [0]

/-- Removing the bytes that satisfy `p` from both ends. -/
def strip (p : Byte → Bool) (s : List Byte) : List Byte := ((s.dropWhile p).reverse.dropWhile p).reverse

/-- The ways of making a string. -/
inductive Maker where
  | reserve (capacity : Nat)
  | length (src : List Byte) (n : Nat)
  | zeros (n : Nat)
  | text (block : List Byte)
  | empty

/-- The operations on it. -/
inductive Op where
  | appendLength (other : List Byte) (n : Int)
  | appendc (block : List Byte)
  | append (other : ZStr)
  | appendRune (r : BitVec 32)
  | set (block : List Byte)
  | clear
  | trim (cut : List Byte)
  | trimSpace
  | makeSpaceFor (n : Int)

def runMaker (junk : Nat → Byte) : Maker → Except Fault ZStr
  | .reserve c => makeReserve c
  | .length src n => makeLength junk (some src) n
  | .zeros n => makeLength junk none n
  | .text b => make junk (some b)
  | .empty => make junk none

def runOp (junk : Nat → Byte) (z : ZStr) : Op → Except Fault ZStr
  | .appendLength other n => appendLength junk z other n
  | .appendc b => appendc junk z b
  | .append o => append junk z o
  | .appendRune r => appendRune junk z r
  | .set b => set junk z b
  | .clear => clear z
  | .trim cut => trim z cut
  | .trimSpace => trimSpace z
  | .makeSpaceFor n => makeSpaceFor junk z n

def runOps (z : ZStr) : List (Op × (Nat → Byte)) → Except Fault ZStr
  | [] => .ok z
  | (op, junk) :: ops => do
    let z ← runOp junk z op
    runOps z ops

/-- What the caller must provide: as many bytes as said, terminated texts. -/
def Maker.Valid : Maker → Prop
  | .length src n => n ≤ src.length
  | .text b => 0 ∈ b
  | _ => True

def Op.Valid : Op → Prop
  | .appendLength other n => n ≤ other.length
  | .appendc b => 0 ∈ b
  | .append o => ∃ s, Holds o s
  | .set b => 0 ∈ b
  | .trim cut => 0 ∈ cut
  | _ => True

/-- The bytes a new string holds. -/
def Maker.bytes : Maker → List Byte
  | .reserve _ => []
  | .length src n => src.take n
  | .zeros n => List.replicate n 0
  | .text b => textOf b
  | .empty => []

/-- The operations on byte sequences. -/
def Op.apply (s : List Byte) : Op → List Byte
  | .appendLength other n => s ++ other.take n.toNat
  | .appendc b => s ++ textOf b
  | .append o => s ++ o.block.take o.length
  | .appendRune r => if r.toNat < 2 ^ 31 then s ++ enc (if Scalar r.toNat then r.toNat else 0xFFFD) else s
  | .set b => textOf b
  | .clear => []
  | .trim cut => strip (fun c => c ∈ textOf cut ∨ c = 0) s
  | .trimSpace => strip (fun c => c ∈ [0x20#8, 0x09#8, 0x0D#8, 0x0A#8, 0x0B#8, 0x0C#8] ∨ c = 0) s
  | .makeSpaceFor _ => s

/-! ## Lemmas -/

theorem holds_iff {z : ZStr} {s : List Byte} : Holds z s ↔ ∃ tail, z = ⟨s ++ 0 :: tail, s.length, s.length + tail.length⟩ := by
  constructor
  · rintro ⟨h1, h2, h3, h4⟩
    obtain ⟨block, len, cap⟩ := z
    dsimp only at *
    refine ⟨block.drop (s.length + 1), ?_⟩
    have e : block = s ++ 0 :: block.drop (s.length + 1) := by
      calc block = block.take (s.length + 1) ++ block.drop (s.length + 1) := (List.take_append_drop _ _).symm
        _ = _ := by rw [h4]; simp
    have hl : (block.drop (s.length + 1)).length = cap - s.length := by rw [List.length_drop]; omega
    congr 1
    omega
  · rintro ⟨tail, rfl⟩
    refine ⟨rfl, by simp, by simp; omega, ?_⟩
    rw [show s ++ 0 :: tail = (s ++ [0]) ++ tail by simp]
    rw [show s.length + 1 = (s ++ [0#8]).length by simp, List.take_left']
    rfl

theorem split_text {b : List Byte} (h : 0 ∈ b) : ∃ rest, b = textOf b ++ 0 :: rest ∧ Text (textOf b) := by
  induction b with
  | nil => simp at h
  | cons x b ih =>
    by_cases hx : x = 0
    · subst hx; exact ⟨b, by simp [textOf], by simp [textOf, Text]⟩
    · obtain ⟨rest, e, ht⟩ := ih (by rcases List.mem_cons.1 h with h | h; exact absurd h.symm hx; exact h)
      have ex : textOf (x :: b) = x :: textOf b := by
        unfold textOf; rw [List.takeWhile_cons_of_pos (by simpa using hx)]
      refine ⟨rest, ?_, ?_⟩
      · rw [ex, List.cons_append, ← e]
      · rw [ex, Text.cons]; exact ⟨hx, ht⟩

theorem strlen_textOf {b : List Byte} (h : 0 ∈ b) : strlen b = .ok (textOf b).length := by
  obtain ⟨rest, e, ht⟩ := split_text h
  have := strlen_ok ht rest
  rwa [← e] at this

theorem take_textOf {b : List Byte} (h : 0 ∈ b) : b.take (textOf b).length = textOf b := by
  obtain ⟨rest, e, -⟩ := split_text h
  have : b.take (textOf b).length = (textOf b ++ 0 :: rest).take (textOf b).length := by rw [← e]
  rw [this, List.take_left']
  rfl

theorem textOf_length_lt {b : List Byte} (h : 0 ∈ b) : (textOf b).length < b.length := by
  obtain ⟨rest, e, -⟩ := split_text h
  have := congrArg List.length e
  simp only [List.length_append, List.length_cons] at this
  omega

theorem fresh_length (junk : Nat → Byte) (k : Nat) : (fresh junk k).length = k := by simp [fresh]

theorem put_ok {block src : List Byte} {i n : Nat} (h : i + n ≤ block.length) (hs : n ≤ src.length) :
    put block i src n = .ok (block.take i ++ src.take n ++ block.drop (i + n)) := by
  unfold put; rw [if_pos ⟨h, hs⟩]

theorem wr_mid (s tail : List Byte) (x : Byte) : wr (s ++ x :: tail) s.length 0 = .ok (s ++ 0 :: tail) := by
  rw [wr_ok (by simp), List.set_append_right _ _ (by omega), Nat.sub_self, List.set_cons_zero]

theorem wr_at {s : List Byte} {n : Nat} (hn : n = s.length) (tail : List Byte) (h : 1 ≤ tail.length) :
    wr (s ++ tail) n 0 = .ok (s ++ 0 :: tail.drop 1) := by
  subst hn
  cases tail with
  | nil => simp at h
  | cons x t => rw [wr_mid]; rfl

theorem makeLength_ok (junk : Nat → Byte) (src : List Byte) (n : Nat) (h : n ≤ src.length) :
    makeLength junk (some src) n = .ok ⟨src.take n ++ [0], n, n⟩ := by
  unfold makeLength
  by_cases h0 : n ≠ 0
  · dsimp only
    rw [if_pos h0, put_ok (by rw [fresh_length]; omega) h, except_ok_bind, List.take_zero, List.nil_append, Nat.zero_add,
      wr_at (s := src.take n) (by rw [List.length_take]; omega) _ (by rw [List.length_drop, fresh_length]; omega), except_ok_bind,
      List.drop_drop, List.drop_eq_nil_of_le (by rw [fresh_length]; omega)]
  · have : n = 0 := by omega
    subst this
    dsimp only
    rw [if_neg (by simp), except_ok_bind]
    rfl

theorem makeZeros_ok (junk : Nat → Byte) (n : Nat) : makeLength junk none n = .ok ⟨List.replicate n 0 ++ [0], n, n⟩ := by
  unfold makeLength
  dsimp only
  have e : List.replicate (n + 1) (0#8) = List.replicate n 0 ++ [0#8] := by rw [List.replicate_succ']; rfl
  rw [except_ok_bind, e, wr_at (s := List.replicate n 0) (by simp) _ (by simp), except_ok_bind]
  rfl

theorem makeReserve_ok (c : Nat) : makeReserve c = .ok ⟨List.replicate (c + 1) 0, 0, c⟩ := by
  unfold makeReserve
  dsimp only
  rw [wr_ok (by simp), except_ok_bind]
  congr 2
  apply List.ext_getElem (by simp)
  intro i h1 h2
  rw [List.getElem_set]
  split
  · rw [List.getElem_replicate]
  · rfl

theorem makeSpaceFor_ok (junk : Nat → Byte) {z : ZStr} {s : List Byte} (h : Holds z s) (n : Int) :
    ∃ tail, makeSpaceFor junk z n = .ok ⟨s ++ 0 :: tail, s.length, s.length + tail.length⟩ ∧ n ≤ tail.length := by
  obtain ⟨tail, rfl⟩ := holds_iff.1 h
  unfold makeSpaceFor
  have hav : available ⟨s ++ 0 :: tail, s.length, s.length + tail.length⟩ = tail.length := by
    unfold available; dsimp only; split <;> omega
  rw [hav]
  split
  · rename_i hge
    exact ⟨tail, rfl, by omega⟩
  · rename_i hlt
    dsimp only
    refine ⟨fresh junk ((↑s.length + n).toNat + 1 - (s.length + 1)), ?_, by rw [fresh_length]; omega⟩
    rw [fresh_length, show s ++ 0 :: tail = (s ++ [0]) ++ tail by simp, List.take_left' (l₁ := s ++ [0]) (by simp)]
    congr 2
    · simp
    · omega

theorem appendLength_ok (junk : Nat → Byte) {z : ZStr} {s : List Byte} (h : Holds z s) (other : List Byte) (n : Int) (hn : n ≤ other.length) :
    ∃ z', appendLength junk z other n = .ok z' ∧ Holds z' (s ++ other.take n.toNat) := by
  unfold appendLength
  have hlen := h.length
  split
  · rename_i hpos
    obtain ⟨tail, e, ht⟩ := makeSpaceFor_ok junk h n
    dsimp only
    rw [e, except_ok_bind]
    dsimp only
    have hlt : n.toNat ≤ tail.length := by omega
    have hlo : n.toNat ≤ other.length := by omega
    rw [put_ok (by simp; omega) hlo, except_ok_bind, hlen, List.take_left' rfl]
    have hd : (s ++ 0 :: tail).drop (s.length + n.toNat) = (0 :: tail).drop n.toNat := by
      rw [List.drop_append, List.drop_eq_nil_of_le (by omega), List.nil_append]; congr 1; omega
    rw [hd, wr_at (s := s ++ other.take n.toNat) (by rw [List.length_append, List.length_take]; omega) _ (by rw [List.length_drop, List.length_cons]; omega),
      except_ok_bind]
    refine ⟨_, rfl, holds_iff.2 ⟨((0 :: tail).drop n.toNat).drop 1, ?_⟩⟩
    congr 1
    · rw [List.length_append, List.length_take]; omega
    · rw [List.length_append, List.length_take, List.length_drop, List.length_drop, List.length_cons]; omega
  · rename_i hneg
    have : n.toNat = 0 := by omega
    exact ⟨z, rfl, by rw [this]; simpa using h⟩

theorem appendc_ok (junk : Nat → Byte) {z : ZStr} {s : List Byte} (h : Holds z s) {b : List Byte} (hb : 0 ∈ b) :
    ∃ z', appendc junk z b = .ok z' ∧ Holds z' (s ++ textOf b) := by
  unfold appendc
  rw [strlen_textOf hb, except_ok_bind]
  have := textOf_length_lt hb
  obtain ⟨z', e, h'⟩ := appendLength_ok junk h b (textOf b).length (by omega)
  rw [Int.toNat_natCast, take_textOf hb] at h'
  exact ⟨z', e, h'⟩

theorem set_ok (junk : Nat → Byte) {z : ZStr} {s : List Byte} (h : Holds z s) {b : List Byte} (hb : 0 ∈ b) :
    ∃ z', set junk z b = .ok z' ∧ Holds z' (textOf b) := by
  unfold set
  rw [strlen_textOf hb, except_ok_bind]
  have hlt := textOf_length_lt hb
  have key : ∀ (block : List Byte) (l c : Nat), block.length = c + 1 → (textOf b).length ≤ c →
      ∃ z', (do let block ← put block 0 b (textOf b).length
                let block ← wr block (textOf b).length 0
                Except.ok (⟨block, (textOf b).length, c⟩ : ZStr) : Except Fault ZStr) = .ok z' ∧ Holds z' (textOf b) := by
    intro block l c h1 h2
    rw [put_ok (by omega) (by omega), except_ok_bind, List.take_zero, List.nil_append, Nat.zero_add, take_textOf hb,
      wr_at rfl _ (by rw [List.length_drop]; omega), except_ok_bind]
    refine ⟨_, rfl, holds_iff.2 ⟨(block.drop (textOf b).length).drop 1, ?_⟩⟩
    congr 1
    rw [List.length_drop, List.length_drop]; omega
  by_cases hc : z.capacity < (textOf b).length
  · rw [if_pos hc]
    obtain ⟨tail, e, ht⟩ := makeSpaceFor_ok junk h ((textOf b).length - z.length)
    rw [e, except_ok_bind]
    have := h.length
    exact key _ 0 _ (by simp; omega) (by dsimp only; omega)
  · rw [if_neg hc, except_ok_bind]
    exact key _ 0 _ h.size (by omega)

theorem clear_ok {z : ZStr} {s : List Byte} (h : Holds z s) : ∃ z', clear z = .ok z' ∧ Holds z' [] := by
  unfold clear
  have := h.size
  have e := wr_at (s := []) (n := 0) rfl z.block (by omega)
  rw [List.nil_append] at e
  rw [e, except_ok_bind]
  refine ⟨_, rfl, holds_iff.2 ⟨z.block.drop 1, ?_⟩⟩
  congr 1
  rw [List.length_drop]; simp; omega

theorem enc_length_le (r : Nat) : (enc r).length ≤ 4 := by
  unfold enc
  split
  · simp
  · split
    · simp
    · split <;> simp

theorem appendRune_ok (junk : Nat → Byte) {z : ZStr} {s : List Byte} (h : Holds z s) (r : BitVec 32) :
    ∃ z', appendRune junk z r = .ok z' ∧ Holds z' (Op.apply s (.appendRune r)) := by
  unfold appendRune
  have hsign : 0 ≤ r.toInt ↔ r.toNat < 2 ^ 31 := by
    rw [BitVec.toInt_eq_toNat_cond]
    have := r.isLt
    split <;> omega
  by_cases hr : r.toNat < 2 ^ 31
  · rw [if_pos (hsign.2 hr)]
    have hap : Op.apply s (.appendRune r) = s ++ enc (if Scalar r.toNat then r.toNat else 0xFFFD) := by
      show (if r.toNat < 2 ^ 31 then _ else _) = _
      rw [if_pos hr]
    rw [hap]
    obtain ⟨more, e⟩ : ∃ more, encodeRune (List.replicate 8 0) r = .ok (enc (if Scalar r.toNat then r.toNat else 0xFFFD) ++ more,
        (enc (if Scalar r.toNat then r.toNat else 0xFFFD)).length) := by
      by_cases hs : Scalar r.toNat
      · rw [if_pos hs]
        exact ⟨_, C26_encode r hs _ (by have := enc_length_le r.toNat; simp; omega)⟩
      · rw [if_neg hs]
        exact ⟨_, C26_encode_invalid r hs _ (by simp)⟩
    rw [e, except_ok_bind]
    dsimp only
    obtain ⟨z', e', h'⟩ := appendLength_ok junk h (enc (if Scalar r.toNat then r.toNat else 0xFFFD) ++ more)
      (enc (if Scalar r.toNat then r.toNat else 0xFFFD)).length (by rw [List.length_append]; omega)
    rw [Int.toNat_natCast, List.take_left' rfl] at h'
    exact ⟨z', e', h'⟩
  · rw [if_neg (fun h => hr (hsign.1 h))]
    have hap : Op.apply s (.appendRune r) = s := by
      show (if r.toNat < 2 ^ 31 then _ else _) = _
      rw [if_neg hr]
    rw [hap]
    exact ⟨z, rfl, h⟩

theorem inCut {cut : List Byte} (hc : 0 ∈ cut) (c : Byte) :
    if c ∈ textOf cut ∨ c = 0 then ∃ i, firstOcc c cut = .ok (some i) else firstOcc c cut = .ok none := by
  obtain ⟨rest, e, ht⟩ := split_text hc
  obtain ⟨r, e1, -, e3⟩ := firstOcc_ok ht rest c
  rw [← e] at e1
  have hm : c ∈ textOf cut ++ [0] ↔ c ∈ textOf cut ∨ c = 0 := by
    rw [List.mem_append, List.mem_singleton]
  cases r with
  | none =>
    have := e3.1 rfl
    rw [hm] at this
    rw [if_neg this]; exact e1
  | some i =>
    have : c ∈ textOf cut ++ [0] := by
      apply Classical.byContradiction
      intro h; have := e3.2 h; cases this
    rw [hm] at this
    rw [if_pos this]; exact ⟨i, e1⟩

theorem startLoop_ok {cut : List Byte} (hc : 0 ∈ cut) (tail : List Byte) (t : List Byte) : ∀ (pre : List Byte) (fuel : Nat), t.length < fuel →
    startLoop (pre ++ t ++ 0 :: tail) cut ((pre.length + t.length : Nat) - 1 : Int) fuel pre.length =
      .ok (pre.length + (t.takeWhile (fun c => c ∈ textOf cut ∨ c = 0)).length) := by
  induction t with
  | nil =>
    intro pre fuel hf
    obtain ⟨f, rfl⟩ : ∃ f, fuel = f + 1 := ⟨fuel - 1, by simp at hf; omega⟩
    rw [startLoop, if_neg (by simp only [List.length_nil]; omega)]
    simp
  | cons c t ih =>
    intro pre fuel hf
    obtain ⟨f, rfl⟩ : ∃ f, fuel = f + 1 := ⟨fuel - 1, by simp at hf; omega⟩
    rw [startLoop, if_pos (by simp only [List.length_cons]; omega), rd_ok (by simp), except_ok_bind]
    have hget : (pre ++ c :: t ++ 0 :: tail)[pre.length]'(by simp) = c := by simp
    rw [hget]
    have hin := inCut hc c
    by_cases hm : c ∈ textOf cut ∨ c = 0
    · rw [if_pos hm] at hin
      obtain ⟨i, e⟩ := hin
      rw [e, except_ok_bind]
      dsimp only
      have := ih (pre ++ [c]) f (by simp at hf; omega)
      rw [List.takeWhile_cons_of_pos (by simpa using hm)]
      simp only [List.length_append, List.length_nil, Nat.zero_add, List.append_assoc, List.nil_append, List.cons_append, List.length_cons] at this ⊢
      rw [show pre.length + (t.length + 1) = pre.length + 1 + t.length by omega, this]
      congr 1
      omega
    · rw [if_neg hm] at hin
      rw [hin, except_ok_bind, List.takeWhile_cons_of_neg (by simpa using hm)]
      simp

/-- The second loop, on the bytes `m ++ suf` after `pre`, where the first byte is not to be cut. -/
theorem endLoop_ok {cut : List Byte} (hc : 0 ∈ cut) (pre : List Byte) (c0 : Byte) (hc0 : ¬ (c0 ∈ textOf cut ∨ c0 = 0)) (u : List Byte) :
    ∀ (tail : List Byte) (fuel : Nat), u.length < fuel →
    endLoop (pre ++ c0 :: u.reverse ++ tail) cut pre.length fuel ((pre.length + u.length : Nat) : Int) =
      .ok ((pre.length + (u.dropWhile (fun c => c ∈ textOf cut ∨ c = 0)).length : Nat) : Int) := by
  induction u with
  | nil =>
    intro tail fuel hf
    obtain ⟨f, rfl⟩ : ∃ f, fuel = f + 1 := ⟨fuel - 1, by simp at hf; omega⟩
    rw [endLoop, if_neg (by simp)]
    simp
  | cons c u ih =>
    intro tail fuel hf
    obtain ⟨f, rfl⟩ : ∃ f, fuel = f + 1 := ⟨fuel - 1, by simp at hf; omega⟩
    rw [endLoop, if_pos (by simp only [List.length_cons]; omega), Int.toNat_natCast, rd_ok (by simp), except_ok_bind]
    have hget : (pre ++ c0 :: (c :: u).reverse ++ tail)[pre.length + (c :: u).length]'(by simp) = c := by
      have : pre ++ c0 :: (c :: u).reverse ++ tail = (pre ++ c0 :: u.reverse) ++ c :: tail := by simp
      rw [List.getElem_of_eq this, List.getElem_append_right (by simp)]
      simp
    rw [hget]
    have hin := inCut hc c
    by_cases hm : c ∈ textOf cut ∨ c = 0
    · rw [if_pos hm] at hin
      obtain ⟨i, e⟩ := hin
      rw [e, except_ok_bind]
      dsimp only
      have := ih (c :: tail) f (by simp at hf; omega)
      rw [List.dropWhile_cons_of_pos (by simpa using hm), ← this]
      simp only [List.length_cons, List.reverse_cons, List.append_assoc, List.cons_append, List.nil_append]
      congr 1
      omega
    · rw [if_neg hm] at hin
      rw [hin, except_ok_bind, List.dropWhile_cons_of_neg (by simpa using hm)]

theorem moveFront_ok {block : List Byte} {start len : Nat} (h : start + len ≤ block.length) :
    moveFront block start len = .ok ((block.drop start).take len ++ block.drop len) := by
  unfold moveFront
  by_cases h0 : start ≠ 0
  · rw [if_pos h0, put_ok (by omega) (by rw [List.length_drop]; omega)]
    simp
  · have : start = 0 := by omega
    subst this
    rw [if_neg (by simp), List.drop_zero, List.take_append_drop]

theorem trim_ok {z : ZStr} {s : List Byte} (h : Holds z s) {cut : List Byte} (hc : 0 ∈ cut) :
    ∃ z', trim z cut = .ok z' ∧ Holds z' (strip (fun c => c ∈ textOf cut ∨ c = 0) s) := by
  obtain ⟨tail, rfl⟩ := holds_iff.1 h
  unfold trim
  dsimp only
  have h1 := startLoop_ok hc tail s [] (s.length + 1) (by omega)
  simp only [List.nil_append, List.length_nil, Nat.zero_add] at h1
  rw [h1, except_ok_bind]
  clear h1
  generalize hp : (fun c : Byte => (decide (c ∈ textOf cut ∨ c = 0) : Bool)) = p
  have hpc : ∀ c, p c = true ↔ c ∈ textOf cut ∨ c = 0 := by intro c; rw [← hp]; simp
  -- s = pre ++ mid
  have hs : s = s.takeWhile p ++ s.dropWhile p := (List.takeWhile_append_dropWhile).symm
  have hstrip : strip p s = ((s.dropWhile p).reverse.dropWhile p).reverse := rfl
  rw [hstrip]
  generalize hpre : s.takeWhile p = pre at hs
  have hmid0 : ∀ c t, s.dropWhile p = c :: t → p c = false := by
    intro c t e
    have h := List.head_dropWhile_not p (l := s) (by rw [e]; simp)
    have e2 : (s.dropWhile p).head (by rw [e]; simp) = c := by simp only [e, List.head_cons]
    rwa [e2] at h
  generalize hmid : s.dropWhile p = mid at hs hmid0
  clear hpre hmid
  subst hs
  cases mid with
  | nil =>
    have e2 : endLoop (pre ++ [] ++ 0 :: tail) cut pre.length ((pre ++ []).length + 1) ((pre ++ []).length - 1 : Int) = .ok (pre.length - 1 : Int) := by
      rw [endLoop, List.append_nil, if_neg (by omega)]
    have e3 : trimLen pre.length (pre.length - 1 : Int) = 0 := by
      unfold trimLen; rw [if_pos (by omega)]
    rw [e2, except_ok_bind, e3, moveFront_ok (by simp), except_ok_bind, List.take_zero, List.nil_append, List.drop_zero]
    have e4 := wr_at (s := []) (n := 0) rfl (pre ++ [] ++ 0 :: tail) (by simp; omega)
    rw [List.nil_append] at e4
    rw [e4, except_ok_bind]
    refine ⟨_, rfl, holds_iff.2 ⟨(pre ++ [] ++ 0 :: tail).drop 1, ?_⟩⟩
    simp
  | cons c0 u =>
    have hc0 : ¬ (c0 ∈ textOf cut ∨ c0 = 0) := by
      rw [← hpc, hmid0 c0 u rfl]; simp
    have e2 := endLoop_ok hc pre c0 hc0 u.reverse (0 :: tail) ((pre ++ c0 :: u).length + 1) (by simp; omega)
    rw [hp, List.reverse_reverse, List.length_reverse] at e2
    have elast : ((pre ++ c0 :: u).length - 1 : Int) = ((pre.length + u.length : Nat) : Int) := by
      simp only [List.length_append, List.length_cons]; omega
    rw [elast, e2, except_ok_bind]
    have hrev : ((c0 :: u).reverse.dropWhile p).reverse = c0 :: (u.reverse.dropWhile p).reverse := by
      rw [List.reverse_cons, List.dropWhile_append]
      split
      · rename_i hz
        have : u.reverse.dropWhile p = [] := by simpa using hz
        rw [this, List.dropWhile_cons_of_neg (by rw [hmid0 c0 u rfl]; simp)]
        simp
      · rw [List.reverse_append]; simp
    rw [hrev]
    -- the suffix that is cut
    obtain ⟨suf, hsuf⟩ : ∃ suf, u = (u.reverse.dropWhile p).reverse ++ suf := by
      refine ⟨(u.reverse.takeWhile p).reverse, ?_⟩
      rw [← List.reverse_append, List.takeWhile_append_dropWhile, List.reverse_reverse]
    have hml : (u.reverse.dropWhile p).length = (u.reverse.dropWhile p).reverse.length := by rw [List.length_reverse]
    rw [hml]
    generalize (u.reverse.dropWhile p).reverse = m at *
    subst hsuf
    have e3 : trimLen pre.length ((pre.length + m.length : Nat) : Int) = (c0 :: m).length := by
      unfold trimLen; rw [if_neg (by omega), List.length_cons]; omega
    rw [e3, moveFront_ok (by simp), except_ok_bind]
    have ed : ((pre ++ c0 :: (m ++ suf)) ++ 0 :: tail).drop pre.length = (c0 :: m) ++ (suf ++ 0 :: tail) := by
      rw [List.append_assoc, List.drop_left' rfl]; simp
    rw [ed, List.take_left' rfl, wr_at (s := c0 :: m) rfl _ (by simp; omega), except_ok_bind]
    refine ⟨_, rfl, holds_iff.2 ⟨((pre ++ c0 :: (m ++ suf) ++ 0 :: tail).drop (c0 :: m).length).drop 1, ?_⟩⟩
    congr 1
    simp only [List.length_append, List.length_cons, List.length_drop]
    omega

theorem maker_ok (junk : Nat → Byte) (m : Maker) (hm : m.Valid) : ∃ z, runMaker junk m = .ok z ∧ Holds z m.bytes := by
  cases m with
  | reserve c =>
    refine ⟨_, makeReserve_ok c, holds_iff.2 ⟨List.replicate c 0, ?_⟩⟩
    simp [Maker.bytes, List.replicate_succ]
  | length src n =>
    have hn : n ≤ src.length := hm
    refine ⟨_, makeLength_ok junk src n hn, holds_iff.2 ⟨[], ?_⟩⟩
    have : (src.take n).length = n := by rw [List.length_take]; omega
    show _ = ZStr.mk (src.take n ++ [0]) (src.take n).length ((src.take n).length + 0)
    rw [this]
    rfl
  | zeros n =>
    refine ⟨_, makeZeros_ok junk n, holds_iff.2 ⟨[], ?_⟩⟩
    simp [Maker.bytes]
  | text b =>
    have hb : 0 ∈ b := hm
    refine ⟨_, ?_, holds_iff.2 ⟨[], rfl⟩⟩
    show make junk (some b) = _
    have := textOf_length_lt hb
    unfold make
    dsimp only
    rw [strlen_textOf hb, except_ok_bind, makeLength_ok junk b _ (by omega), take_textOf hb]
    rfl
  | empty =>
    exact ⟨_, makeZeros_ok junk 0, holds_iff.2 ⟨[], rfl⟩⟩

theorem op_ok (junk : Nat → Byte) {z : ZStr} {s : List Byte} (h : Holds z s) (op : Op) (hop : op.Valid) :
    ∃ z', runOp junk z op = .ok z' ∧ Holds z' (op.apply s) := by
  cases op with
  | appendLength other n => exact appendLength_ok junk h other n hop
  | appendc b => exact appendc_ok junk h hop
  | append o =>
    obtain ⟨t, ho⟩ := hop
    have h1 := ho.size
    have h2 := ho.fits
    obtain ⟨z', e, h'⟩ := appendLength_ok junk h o.block o.length (by omega)
    rw [Int.toNat_natCast] at h'
    exact ⟨z', e, h'⟩
  | appendRune r => exact appendRune_ok junk h r
  | set b => exact set_ok junk h hop
  | clear => exact clear_ok h
  | trim cut => exact trim_ok h hop
  | trimSpace =>
    exact trim_ok h (cut := [0x20, 0x09, 0x0D, 0x0A, 0x0B, 0x0C, 0]) (by decide)
  | makeSpaceFor n =>
    obtain ⟨tail, e, -⟩ := makeSpaceFor_ok junk h n
    exact ⟨_, e, holds_iff.2 ⟨tail, rfl⟩⟩

theorem ops_ok (ops : List (Op × (Nat → Byte))) : ∀ {z : ZStr} {s : List Byte}, Holds z s → (∀ o ∈ ops, o.1.Valid) →
    ∃ z', runOps z ops = .ok z' ∧ Holds z' (ops.foldl (fun s o => o.1.apply s) s) := by
  induction ops with
  | nil => intro z s h _; exact ⟨z, rfl, h⟩
  | cons o ops ih =>
    intro z s h hv
    obtain ⟨op, junk⟩ := o
    obtain ⟨z1, e1, h1⟩ := op_ok junk h op (hv (op, junk) (by simp))
    obtain ⟨z2, e2, h2⟩ := ih h1 (fun o ho => hv o (by simp [ho]))
    refine ⟨z2, ?_, h2⟩
    rw [runOps, e1, except_ok_bind, e2]

theorem equalLoop_ok (n : Nat) : ∀ (a b : List Byte) (i : Nat), i + n ≤ a.length → i + n ≤ b.length →
    equalLoop a b n i = .ok (decide ((a.drop i).take n = (b.drop i).take n)) := by
  induction n with
  | zero => intro a b i _ _; simp [equalLoop]
  | succ n ih =>
    intro a b i ha hb
    have hia : i < a.length := by omega
    have hib : i < b.length := by omega
    rw [equalLoop, rd_ok hia, except_ok_bind, rd_ok hib, except_ok_bind]
    rw [List.drop_eq_getElem_cons hia, List.drop_eq_getElem_cons hib, List.take_succ_cons, List.take_succ_cons]
    by_cases hx : a[i] = b[i]
    · rw [if_neg (by simpa using hx), ih a b (i + 1) (by omega) (by omega)]
      congr 1
      simp [hx]
    · rw [if_pos hx]
      simp [hx]

theorem joinLoop_ok (junk : Nat → Byte) {glue : List Byte} (hg : 0 ∈ glue) (parts : List (List Byte)) : ∀ {z : ZStr} {s : List Byte}, Holds z s →
    (∀ b ∈ parts, 0 ∈ b) → ∃ z', joinLoop junk glue parts z = .ok z' ∧ Holds z' (s ++ List.intercalate (textOf glue) (parts.map textOf)) := by
  induction parts with
  | nil => intro z s h _; exact ⟨z, rfl, by simpa [List.intercalate] using h⟩
  | cons b parts ih =>
    intro z s h hv
    obtain ⟨z1, e1, h1⟩ := appendc_ok junk h (hv b (by simp))
    rw [joinLoop, e1, except_ok_bind]
    cases parts with
    | nil =>
      exact ⟨z1, rfl, by simpa [List.intercalate] using h1⟩
    | cons b' parts =>
      dsimp only
      obtain ⟨z2, e2, h2⟩ := appendc_ok junk h1 hg
      rw [e2, except_ok_bind]
      obtain ⟨z3, e3, h3⟩ := ih h2 (fun b hb => hv b (by simp [hb]))
      refine ⟨z3, e3, ?_⟩
      rw [show s ++ List.intercalate (textOf glue) ((b :: b' :: parts).map textOf) =
        s ++ textOf b ++ textOf glue ++ List.intercalate (textOf glue) ((b' :: parts).map textOf) by
          simp [List.intercalate, List.append_assoc]]
      exact h3

/-! ## Properties -/

/-- **C22.** A string made in any of the ways and put through any sequence of operations holds the bytes obtained by the same operations on byte sequences; its length is their number,
a NUL follows them, the length does not exceed the capacity and no access leaves the block. -/
theorem C22_history (m : Maker) (hm : m.Valid) (junk : Nat → Byte) (ops : List (Op × (Nat → Byte))) (hops : ∀ o ∈ ops, o.1.Valid) :
    ∃ z, (do let z ← runMaker junk m; runOps z ops) = .ok z ∧ Holds z (ops.foldl (fun s o => o.1.apply s) m.bytes) := by
  obtain ⟨z, e, h⟩ := maker_ok junk m hm
  obtain ⟨z', e', h'⟩ := ops_ok ops h hops
  exact ⟨z', by rw [e, except_ok_bind, e'], h'⟩

/-- What `strip` means: the text is what is left between a prefix and a suffix made of bytes of the set, and neither its first nor its last byte is
in the set. -/
theorem C22_strip (p : Byte → Bool) (s : List Byte) :
    ∃ pre suf, s = pre ++ strip p s ++ suf ∧ (∀ c ∈ pre, p c = true) ∧ (∀ c ∈ suf, p c = true) ∧
      (∀ c, (strip p s).head? = some c → p c = false) ∧ (∀ c, (strip p s).getLast? = some c → p c = false) := by
  have hd : ∀ (l : List Byte) c, (l.dropWhile p).head? = some c → p c = false := by
    intro l c h
    induction l with
    | nil => simp at h
    | cons x l ih =>
      by_cases hx : p x = true
      · rw [List.dropWhile_cons_of_pos hx] at h; exact ih h
      · rw [List.dropWhile_cons_of_neg hx] at h
        simp at h; subst h; simpa using hx
  have ht : ∀ (l : List Byte) c, c ∈ l.takeWhile p → p c = true := by
    intro l c h
    induction l with
    | nil => simp at h
    | cons x l ih =>
      by_cases hx : p x = true
      · rw [List.takeWhile_cons_of_pos hx] at h
        rcases List.mem_cons.1 h with rfl | h
        · exact hx
        · exact ih h
      · rw [List.takeWhile_cons_of_neg hx] at h; simp at h
  refine ⟨s.takeWhile p, ((s.dropWhile p).reverse.takeWhile p).reverse, ?_, ht s, ?_, ?_, ?_⟩
  · unfold strip
    rw [List.append_assoc, ← List.reverse_append, List.takeWhile_append_dropWhile, List.reverse_reverse, List.takeWhile_append_dropWhile]
  · intro c hc
    exact ht _ c (List.mem_reverse.1 hc)
  · intro c hc
    have hpre : ∃ q, s.dropWhile p = strip p s ++ q := by
      refine ⟨((s.dropWhile p).reverse.takeWhile p).reverse, ?_⟩
      unfold strip
      rw [← List.reverse_append, List.takeWhile_append_dropWhile, List.reverse_reverse]
    obtain ⟨q, hq⟩ := hpre
    apply hd s c
    rw [hq]
    cases hst : strip p s with
    | nil => rw [hst] at hc; simp at hc
    | cons x l => rw [hst] at hc; simpa using hc
  · intro c hc
    unfold strip at hc
    rw [List.getLast?_reverse] at hc
    exact hd _ c hc

/-- **C22, duplicate.** -/
theorem C22_duplicate (junk : Nat → Byte) {z : ZStr} {s : List Byte} (h : Holds z s) : ∃ z', duplicate junk z = .ok z' ∧ Holds z' s := by
  unfold duplicate
  have h1 := h.size
  have h2 := h.fits
  obtain ⟨tail, rfl⟩ := holds_iff.1 h
  rw [makeLength_ok junk _ _ (by simp)]
  refine ⟨_, rfl, holds_iff.2 ⟨[], ?_⟩⟩
  dsimp only
  rw [List.take_left' rfl]
  rfl

/-- **C23, equality.** -/
theorem C23_are_equal {a b : ZStr} {s t : List Byte} (ha : Holds a s) (hb : Holds b t) : areEqual a b = .ok (decide (s = t)) := by
  obtain ⟨ta, rfl⟩ := holds_iff.1 ha
  obtain ⟨tb, rfl⟩ := holds_iff.1 hb
  unfold areEqual
  dsimp only
  by_cases hl : s.length = t.length
  · rw [if_neg (by simpa using hl), equalLoop_ok _ _ _ _ (by simp) (by simp; omega)]
    rw [List.drop_zero, List.drop_zero, List.take_left' rfl, List.take_left' hl.symm]
  · rw [if_pos hl]
    congr 1
    symm
    rw [decide_eq_false_iff_not]
    rintro rfl
    exact hl rfl

/-- **C23, join.** The joined string holds the concatenation of the parts with the glue between consecutive ones. -/
theorem C23_join (junk : Nat → Byte) (parts : List (List Byte)) (glue : List Byte) (hp : ∀ b ∈ parts, 0 ∈ b) (hg : 0 ∈ glue) :
    ∃ z, join junk parts glue = .ok z ∧ Holds z (List.intercalate (textOf glue) (parts.map textOf)) := by
  unfold join
  obtain ⟨z, e, h⟩ := maker_ok junk .empty trivial
  have e' : make junk none = .ok z := e
  rw [e', except_ok_bind]
  obtain ⟨z', e2, h2⟩ := joinLoop_ok junk hg parts h hp
  exact ⟨z', e2, by simpa [Maker.bytes] using h2⟩

/-! ## The hypotheses are met -/

def junk0 : Nat → Byte := fun i => BitVec.ofNat 8 (i + 200)

example : (Maker.text [104, 105, 0, 9]).Valid ∧ (∀ o ∈ [(Op.appendc [33, 0], junk0), (.appendRune 0x20AC, junk0), (.trim [104, 0], junk0), (.set [98, 0], junk0)], o.1.Valid) := by
  constructor
  · exact (by decide : (0 : Byte) ∈ [104, 105, 0, 9])
  · intro o ho
    simp only [List.mem_cons, List.not_mem_nil, or_false] at ho
    rcases ho with rfl | rfl | rfl | rfl
    · exact (by decide : (0 : Byte) ∈ [33, 0])
    · trivial
    · exact (by decide : (0 : Byte) ∈ [104, 0])
    · exact (by decide : (0 : Byte) ∈ [98, 0])

example : (do let z ← runMaker junk0 (.text [104, 105, 0, 9]); runOps z [(Op.appendc [33, 0], junk0), (.appendRune 0x20AC, junk0), (.trim [104, 0], junk0)]) =
    .ok ⟨[105, 33, 0xE2, 0x82, 0xAC, 0, 0], 5, 6⟩ := by decide +kernel

example : join junk0 [[97, 0], [98, 99, 0], [0]] [44, 32, 0] = .ok ⟨[97, 44, 32, 98, 99, 44, 32, 0], 7, 7⟩ := by decide +kernel

example : areEqual ⟨[97, 0, 5], 1, 2⟩ ⟨[97, 0], 1, 1⟩ = .ok true := by decide +kernel

end Zpl.ZString
