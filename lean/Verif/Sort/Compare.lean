import Verif.Sort.Search
import Verif.Str.CStr
import Verif.Math.Single
import Mathlib.Order.WithBot
import Mathlib.Algebra.Order.Ring.Rat
import Mathlib.Algebra.BigOperators.Ring.List
import Mathlib.Tactic.Ring

/-!
# The comparison functions of the library (code/source/core/sort.c:6-36)  -  C159

## Model

A record is a list of bytes, little-endian.  `zpl_i32_cmp(offset)` stores the offset in a global variable, one for each type, and returns the address of the one comparison function
of that type; so a function pointer is the type.  Offsets are not negative.  Records are aligned. -/

namespace Zpl.Compare

open Zpl.Sort Zpl.Search
open Str (strcmp Text DictLt strcmp_ok)

abbrev Byte := BitVec 8

/-- sort.c:18-24: the types with a comparison function. -/
inductive Kind where
  | u8 | i16 | i32 | i64 | isize | f32 | f64
  deriving DecidableEq

/-- sort.c:7, 27: the global variables. -/
structure Globals where
  offset : Kind → Nat
  str : Nat

/-- The size of the type. -/
def Kind.size : Kind → Nat
  | u8 => 1 | i16 => 2 | i32 => 4 | i64 => 8 | isize => 8 | f32 => 4 | f64 => 8

/-- sort.c:13-16 `zpl_i32_cmp` and the others: what is left in the global variable. -/
def ask (g : Globals) (k : Kind) (offset : Nat) : Globals := { g with offset := fun k' => if k' = k then offset else g.offset k' }

/-- sort.c:33-36 `zpl_str_cmp`. -/
def askStr (g : Globals) (offset : Nat) : Globals := { g with str := offset }

/-- The number in the bytes, the lowest first. -/
def word : List Byte → Nat
  | [] => 0
  | b :: bs => b.toNat + 256 * word bs

/-- `*(Type const *)zpl_pointer_add_const(a, offset)` as bits. -/
def load (r : List Byte) (offset size : Nat) : Except Fault Nat :=
  if offset + size ≤ r.length then .ok (word ((r.drop offset).take size)) else .error .oob

/-- sort.c:11 `p < q ? -1 : p > q` -/
def sign {β : Type} (lt : β → β → Bool) (p q : β) : Int := if lt p q then -1 else if lt q p then 1 else 0

/-- sort.c:11 for the type of the numbers whose bits are `p` and `q`. -/
def order (k : Kind) (p q : Nat) : Int :=
  match k with
  | .u8 => sign (fun a b : Nat => decide (a < b)) p q
  | .i16 => sign (fun a b : Int => decide (a < b)) (BitVec.ofNat 16 p).toInt (BitVec.ofNat 16 q).toInt
  | .i32 => sign (fun a b : Int => decide (a < b)) (BitVec.ofNat 32 p).toInt (BitVec.ofNat 32 q).toInt
  | .i64 => sign (fun a b : Int => decide (a < b)) (BitVec.ofNat 64 p).toInt (BitVec.ofNat 64 q).toInt
  | .isize => sign (fun a b : Int => decide (a < b)) (BitVec.ofNat 64 p).toInt (BitVec.ofNat 64 q).toInt
  | .f32 => sign F32.lt (F32.ofBits (BitVec.ofNat 32 p)) (F32.ofBits (BitVec.ofNat 32 q))
  | .f64 => sign F64.lt (F64.ofBits (BitVec.ofNat 64 p)) (F64.ofBits (BitVec.ofNat 64 q))

/-- sort.c:8-12 `zpl_i32__cmp` and the others. -/
def cmp (g : Globals) (k : Kind) (a b : List Byte) : Except Fault Int := do
  let p ← load a (g.offset k) k.size
  let q ← load b (g.offset k) k.size
  .ok (order k p q)

/-- sort.c:28-32 `zpl__str_cmp`; `mem` is what the pointers point to. -/
def strCmp (g : Globals) (mem : Nat → List Byte) (a b : List Byte) : Except Fault Int := do
  let p ← load a g.str 8
  let q ← load b g.str 8
  strcmp (mem p) (mem q)

/-- What a comparison that does not fail returns. -/
def result : Except Fault Int → Int
  | .ok c => c
  | .error _ => 0

/-! ## Specification -/

/-- The numbers with the two infinities. -/
abbrev Num := WithBot (WithTop ℚ)

def ofF32 : F32 → Option Num
  | .nan => none
  | .inf true => some ⊥
  | .inf false => some ((⊤ : WithTop ℚ) : Num)
  | .fin q => some ((q : WithTop ℚ) : Num)

def ofF64 : F64 → Option Num
  | .nan => none
  | .inf true => some ⊥
  | .inf false => some ((⊤ : WithTop ℚ) : Num)
  | .fin q => some ((q : WithTop ℚ) : Num)

def ofInt (n : Int) : Num := (((n : ℚ) : WithTop ℚ) : Num)

/-- The number with the given bits; there is none for a NaN. -/
def number (k : Kind) (n : Nat) : Option Num :=
  match k with
  | .u8 => some (ofInt n)
  | .i16 => some (ofInt (BitVec.ofNat 16 n).toInt)
  | .i32 => some (ofInt (BitVec.ofNat 32 n).toInt)
  | .i64 => some (ofInt (BitVec.ofNat 64 n).toInt)
  | .isize => some (ofInt (BitVec.ofNat 64 n).toInt)
  | .f32 => ofF32 (F32.ofBits (BitVec.ofNat 32 n))
  | .f64 => ofF64 (F64.ofBits (BitVec.ofNat 64 n))

/-- The bits of the field of the record at the offset: each byte counts 256 times the one before. -/
def digits (r : List Byte) (offset size : Nat) : Nat := ((List.range size).map fun i => (r.getD (offset + i) 0).toNat * 256 ^ i).sum

/-- The field of the record at the offset, if it is inside the record and a number. -/
def field (k : Kind) (offset : Nat) (r : List Byte) : Option Num :=
  if offset + k.size ≤ r.length then number k (digits r offset k.size) else none

/-- The records whose field is a number. -/
abbrev Record (k : Kind) (offset : Nat) := { r : List Byte // (field k offset r).isSome }

/-- Its number. -/
def Record.key {k : Kind} {offset : Nat} (r : Record k offset) : Num := (field k offset r.1).get r.2

/-! ## C159 -/

theorem ofInt_lt (a b : Int) : ofInt a < ofInt b ↔ a < b := by
  simp [ofInt, WithBot.coe_lt_coe, WithTop.coe_lt_coe]

theorem sign_int (a b : Int) : sign (fun a b : Int => decide (a < b)) a b = sign (fun x y : Num => decide (x < y)) (ofInt a) (ofInt b) := by
  simp [sign, ofInt_lt]

theorem lt_f32 {a b : F32} {x y : Num} (ha : ofF32 a = some x) (hb : ofF32 b = some y) : F32.lt a b = decide (x < y) := by
  rcases a with _ | s | p <;> rcases b with _ | t | q
  all_goals try (cases ha; done)
  all_goals try (cases hb; done)
  · cases s <;> cases t <;> cases ha <;> cases hb <;> simp [F32.lt] <;> decide
  · cases s <;> cases ha <;> cases hb <;> simp [F32.lt] <;> exact le_top
  · cases t <;> cases ha <;> cases hb <;> simp [F32.lt]
    exact WithBot.coe_lt_coe.mpr (WithTop.coe_lt_top _)
  · cases ha; cases hb
    simp [F32.lt, WithBot.coe_lt_coe, WithTop.coe_lt_coe]

theorem lt_f64 {a b : F64} {x y : Num} (ha : ofF64 a = some x) (hb : ofF64 b = some y) : F64.lt a b = decide (x < y) := by
  rcases a with _ | s | p <;> rcases b with _ | t | q
  all_goals try (cases ha; done)
  all_goals try (cases hb; done)
  · cases s <;> cases t <;> cases ha <;> cases hb <;> simp [F64.lt] <;> decide
  · cases s <;> cases ha <;> cases hb <;> simp [F64.lt] <;> exact le_top
  · cases t <;> cases ha <;> cases hb <;> simp [F64.lt]
    exact WithBot.coe_lt_coe.mpr (WithTop.coe_lt_top _)
  · cases ha; cases hb
    simp [F64.lt, WithBot.coe_lt_coe, WithTop.coe_lt_coe]

theorem order_eq {k : Kind} {p q : Nat} {x y : Num} (hp : number k p = some x) (hq : number k q = some y) :
    order k p q = sign (fun x y : Num => decide (x < y)) x y := by
  cases k
  case f32 => simp only [order, sign, lt_f32 hp hq, lt_f32 hq hp]
  case f64 => simp only [order, sign, lt_f64 hp hq, lt_f64 hq hp]
  case u8 =>
    cases hp; cases hq
    simp [order, sign, ofInt_lt]
  all_goals
    cases hp; cases hq
    exact sign_int _ _

theorem word_digits (r : List Byte) (size offset : Nat) (h : offset + size ≤ r.length) : word ((r.drop offset).take size) = digits r offset size := by
  induction size generalizing offset with
  | zero => rfl
  | succ n ih =>
    rw [List.drop_eq_getElem_cons (by omega), List.take_succ_cons, word, ih (offset + 1) (by omega), digits, digits, List.range_succ_eq_map, List.map_cons, List.sum_cons]
    have e : r.getD (offset + 0) 0 = r[offset] := by simp [List.getD, List.getElem?_eq_getElem (show offset < r.length by omega)]
    rw [e, List.map_map, ← List.sum_map_mul_left, pow_zero, mul_one]
    congr 3
    funext i
    simp only [Function.comp_apply, Nat.succ_eq_add_one, pow_succ, show offset + 1 + i = offset + (i + 1) by omega]
    ring

theorem field_some {k : Kind} {offset : Nat} {r : List Byte} {x : Num} (h : field k offset r = some x) :
    ∃ n, load r offset k.size = .ok n ∧ number k n = some x := by
  unfold field at h
  split at h
  · next hf => exact ⟨_, by rw [load, if_pos hf, word_digits _ _ _ hf], h⟩
  · cases h

/-- C159: the function `zpl_i32_cmp(offset)` returns, and those of the other types, compares the numbers in the fields at the offset: it reads nothing else, and returns a
negative number, zero or a positive number if the first is less than, equal to or greater than the second. -/
theorem C159_compare (g : Globals) (k : Kind) (offset : Nat) (a b : List Byte) (x y : Num) (ha : field k offset a = some x) (hb : field k offset b = some y) :
    ∃ c, cmp (ask g k offset) k a b = .ok c ∧ (c < 0 ↔ x < y) ∧ (c = 0 ↔ x = y) ∧ (0 < c ↔ y < x) := by
  obtain ⟨p, hp, np⟩ := field_some ha
  obtain ⟨q, hq, nq⟩ := field_some hb
  refine ⟨sign (fun x y : Num => decide (x < y)) x y, ?_, ?_⟩
  · have : (ask g k offset).offset k = offset := by simp [ask]
    simp only [cmp, this, hp, hq]
    rw [← order_eq np nq]
    rfl
  · rcases lt_trichotomy x y with h | h | h
    · simp [sign, h, h.ne, h.le]
    · simp [sign, h]
    · simp [sign, h, h.ne', h.le, not_lt.mpr h.le]

theorem result_cmp (g : Globals) (k : Kind) (offset : Nat) (a b : Record k offset) :
    (result (cmp (ask g k offset) k a.1 b.1) < 0 ↔ a.key < b.key) ∧ (result (cmp (ask g k offset) k a.1 b.1) = 0 ↔ a.key = b.key) ∧
      (0 < result (cmp (ask g k offset) k a.1 b.1) ↔ b.key < a.key) := by
  obtain ⟨c, hc, h⟩ := C159_compare g k offset a.1 b.1 a.key b.key (by simp [Record.key]) (by simp [Record.key])
  rw [hc]
  exact h

theorem consistent (g : Globals) (k : Kind) (offset : Nat) : Consistent (fun a b : Record k offset => result (cmp (ask g k offset) k a.1 b.1)) := by
  refine ⟨fun a b => ?_, fun a b c h1 h2 => ?_⟩
  · rw [(result_cmp g k offset a b).2.2, (result_cmp g k offset b a).1]
  · have e1 := not_lt.mp (mt (result_cmp g k offset a b).2.2.mpr (not_lt.mpr h1))
    have e2 := not_lt.mp (mt (result_cmp g k offset b c).2.2.mpr (not_lt.mpr h2))
    exact not_lt.mp (mt (result_cmp g k offset a c).2.2.mp (not_lt.mpr (e1.trans e2)))

/-- C159: `zpl_sort(records, count, size, zpl_i32_cmp(offset))`, and so for the other types, puts the records in the order of their fields at the offset, if none is a NaN. -/
theorem C159_sort_partial (g : Globals) (k : Kind) (offset : Nat) (xs : List (Record k offset)) (hn : xs.length ≤ 2 ^ 35) :
    ∃ ys, sort (fun a b => result (cmp (ask g k offset) k a.1 b.1)) xs = .ok ys ∧ ys.Perm xs ∧ ys.Pairwise (fun a b => a.key ≤ b.key) := by
  obtain ⟨ys, h1, h2, h3⟩ := C33_sort (consistent g k offset) xs hn
  refine ⟨ys, h1, h2, h3.imp fun {a b} h => ?_⟩
  exact not_lt.mp (mt (result_cmp g k offset a b).2.2.mpr (not_lt.mpr h))

/-- C159: and `zpl_binary_search` with it finds a record whose field is that of the key, in records in the order of their fields, or says that there is none. -/
theorem C159_search (g : Globals) (k : Kind) (offset : Nat) (xs : List (Record k offset)) (hs : xs.Pairwise (fun a b => a.key ≤ b.key)) (key : Record k offset) :
    ∃ r, binarySearch (fun a b : Record k offset => result (cmp (ask g k offset) k a.1 b.1)) key xs = .ok r ∧
      ((∃ i, ∃ h : i < xs.length, r = i ∧ xs[i].key = key.key) ∨ (r = -1 ∧ ∀ x ∈ xs, x.key ≠ key.key)) := by
  obtain ⟨r, h1, h2⟩ := C36_binary_search (consistent g k offset) xs (hs.imp fun {a b} h => not_lt.mp (mt (result_cmp g k offset a b).2.2.mp (not_lt.mpr h))) key
  refine ⟨r, h1, ?_⟩
  rcases h2 with ⟨i, hi, e, h⟩ | ⟨e, h⟩
  · exact .inl ⟨i, hi, e, ((result_cmp g k offset key xs[i]).2.1.mp h).symm⟩
  · exact .inr ⟨e, fun x hx hk => h x hx ((result_cmp g k offset key x).2.1.mpr hk.symm)⟩

/-- C159: asking for a comparison function of one type does not change those of another. -/
theorem C159_kinds (g : Globals) (k k' : Kind) (h : k ≠ k') (offset : Nat) (a b : List Byte) (mem : Nat → List Byte) :
    cmp (ask g k' offset) k a b = cmp g k a b ∧ cmp (askStr g offset) k a b = cmp g k a b ∧ strCmp (ask g k offset) mem a b = strCmp g mem a b := by
  refine ⟨?_, rfl, rfl⟩
  simp [cmp, ask, h]

/-- C159, what fails: the function asked for first compares the field asked for last.  For any two offsets there are two records that it puts in the wrong order. -/
theorem C159_kept (g : Globals) (o1 o2 : Nat) (h : o1 ≠ o2) :
    ∃ a b : List Byte, ∃ x y, field .u8 o1 a = some x ∧ field .u8 o1 b = some y ∧ x < y ∧ cmp (ask (ask g .u8 o1) .u8 o2) .u8 a b = .ok 1 := by
  let n := o1 + o2 + 1
  have h8 : ∀ (o o' : Nat), o < n → o' < n →
      load ((List.replicate n (0#8)).set o 1#8) o' 1 = .ok (if o' = o then 1 else 0) := by
    intro o o' ho ho'
    have hl : o' + 1 ≤ ((List.replicate n (0#8)).set o 1#8).length := by simp; omega
    rw [load, if_pos hl]
    rw [List.drop_eq_getElem_cons (by omega), List.take_succ_cons, List.take_zero, List.getElem_set]
    by_cases e : o = o'
    · simp [e, word]
    · simp [e, Ne.symm e, word]
  have hf : ∀ (o o' : Nat), o < n → o' < n → field .u8 o' ((List.replicate n (0#8)).set o 1#8) = some (ofInt (if o' = o then 1 else 0)) := by
    intro o o' ho ho'
    have hl : o' + 1 ≤ ((List.replicate n (0#8)).set o 1#8).length := by simp; omega
    have := h8 o o' ho ho'
    rw [load, if_pos hl, word_digits _ _ _ hl] at this
    simp only [Except.ok.injEq] at this
    rw [field, Kind.size, if_pos hl, this]
    simp [number]
  have n1 : o1 < n := by omega
  have n2 : o2 < n := by omega
  refine ⟨(List.replicate n (0#8)).set o2 1#8, (List.replicate n (0#8)).set o1 1#8, _, _, hf o2 o1 n2 n1, hf o1 o1 n1 n1, ?_, ?_⟩
  · rw [ofInt_lt]; simp [h]
  · have : (ask (ask g .u8 o1) .u8 o2).offset .u8 = o2 := by simp [ask]
    simp only [cmp, this, Kind.size, h8 o2 o2 n2 n2, h8 o1 o2 n1 n2]
    simp [order, sign, Ne.symm h]

/-- The bits of a single precision number as bytes. -/
def bytes (n : Nat) : List Byte := [BitVec.ofNat 8 n, BitVec.ofNat 8 (n / 256), BitVec.ofNat 8 (n / 65536), BitVec.ofNat 8 (n / 16777216)]

/-- C159, what fails: a NaN in between leaves the numbers in the wrong order. -/
theorem C159_nan (g : Globals) : ∃ two one : Record .f32 0, ∃ nan : List Byte, one.key < two.key ∧
    sort (fun a b => result (cmp (ask g .f32 0) .f32 a b)) [two.1, nan, one.1] = .ok [two.1, nan, one.1] := by
  have any : ∀ a b, cmp (ask g .f32 0) .f32 a b = cmp (ask ⟨fun _ => 0, 0⟩ .f32 0) .f32 a b := fun a b => by simp [cmp, ask]
  have e : sort (fun a b => result (cmp (ask ⟨fun _ => 0, 0⟩ .f32 0) .f32 a b)) [bytes 0x40000000, bytes 0x7fc00000, bytes 0x3f800000] =
      .ok [bytes 0x40000000, bytes 0x7fc00000, bytes 0x3f800000] := by decide +kernel
  refine ⟨⟨bytes 0x40000000, by decide +kernel⟩, ⟨bytes 0x3f800000, by decide +kernel⟩, bytes 0x7fc00000, ?_, ?_⟩
  · decide +kernel
  · simp only [any]; exact e

/-! ### Texts -/

theorem dict_trans {s t u : List Byte} (h1 : DictLt s t) (h2 : DictLt t u) : DictLt s u := by
  induction h1 generalizing u with
  | nil c t => cases h2 <;> exact .nil _ _
  | head s t h =>
    cases h2 with
    | head _ _ h' => exact .head _ _ (h.trans h')
    | tail _ _ => exact .head _ _ h
  | tail c _ ih =>
    cases h2 with
    | head _ _ h' => exact .head _ _ h'
    | tail _ h' => exact .tail _ (ih h')

/-- The records that hold a pointer to a text. -/
abbrev TextRecord (offset : Nat) (mem : Nat → List Byte) := { r : List Byte × List Byte // Text r.2 ∧ ∃ p rest, load r.1 offset 8 = .ok p ∧ mem p = r.2 ++ 0 :: rest }

theorem str_cmp (g : Globals) (offset : Nat) (mem : Nat → List Byte) (a b : TextRecord offset mem) :
    ∃ c, strCmp (askStr g offset) mem a.1.1 b.1.1 = .ok c ∧ (c < 0 ↔ DictLt a.1.2 b.1.2) ∧ (c = 0 ↔ a.1.2 = b.1.2) ∧ (0 < c ↔ DictLt b.1.2 a.1.2) := by
  obtain ⟨⟨r, s⟩, hs, p, rest, hp, hm⟩ := a
  obtain ⟨⟨r', s'⟩, hs', p', rest', hp', hm'⟩ := b
  obtain ⟨c, hc, h⟩ := strcmp_ok hs hs' rest rest'
  refine ⟨c, ?_, h⟩
  simp only [strCmp, askStr]
  simp only at hp hp' hm hm'
  rw [hp, hp']
  show strcmp (mem p) (mem p') = _
  rw [hm, hm', hc]

/-- C159: `zpl_sort` with `zpl_str_cmp(offset)` puts the records in the dictionary order of the texts their pointers at the offset point to. -/
theorem C159_texts (g : Globals) (offset : Nat) (mem : Nat → List Byte) (xs : List (TextRecord offset mem)) (hn : xs.length ≤ 2 ^ 35) :
    ∃ ys, sort (fun a b : TextRecord offset mem => result (strCmp (askStr g offset) mem a.1.1 b.1.1)) xs = .ok ys ∧ ys.Perm xs ∧
      ys.Pairwise (fun a b => a.1.2 = b.1.2 ∨ DictLt a.1.2 b.1.2) := by
  have key : ∀ a b : TextRecord offset mem, (result (strCmp (askStr g offset) mem a.1.1 b.1.1) < 0 ↔ DictLt a.1.2 b.1.2) ∧
      (result (strCmp (askStr g offset) mem a.1.1 b.1.1) = 0 ↔ a.1.2 = b.1.2) ∧ (0 < result (strCmp (askStr g offset) mem a.1.1 b.1.1) ↔ DictLt b.1.2 a.1.2) := by
    intro a b
    obtain ⟨c, hc, h⟩ := str_cmp g offset mem a b
    rw [hc]
    exact h
  have le : ∀ a b : TextRecord offset mem, result (strCmp (askStr g offset) mem a.1.1 b.1.1) ≤ 0 ↔ a.1.2 = b.1.2 ∨ DictLt a.1.2 b.1.2 := by
    intro a b
    rw [← (key a b).1, ← (key a b).2.1]
    omega
  have hc : Consistent (fun a b : TextRecord offset mem => result (strCmp (askStr g offset) mem a.1.1 b.1.1)) := by
    refine ⟨fun a b => ?_, fun a b c h1 h2 => ?_⟩
    · rw [(key a b).2.2, (key b a).1]
    · rw [le] at h1 h2 ⊢
      rcases h1 with h1 | h1 <;> rcases h2 with h2 | h2
      · exact .inl (h1.trans h2)
      · exact .inr (h1 ▸ h2)
      · exact .inr (h2 ▸ h1)
      · exact .inr (dict_trans h1 h2)
  obtain ⟨ys, h1, h2, h3⟩ := C33_sort hc xs hn
  exact ⟨ys, h1, h2, h3.imp fun {a b} h => (le a b).mp h⟩

/-! ### Cases -/

/-- Records with an `zpl_i32` at offset 4, sorted by it, −1 and −2147483648 among them. -/
def records : List (Record .i32 4) :=
  [⟨[0, 0, 0, 0, 5, 0, 0, 0], by decide +kernel⟩, ⟨[1, 0, 0, 0, 255, 255, 255, 255], by decide +kernel⟩, ⟨[2, 0, 0, 0, 0, 0, 0, 128], by decide +kernel⟩,
    ⟨[3, 0, 0, 0, 0, 1, 0, 0], by decide +kernel⟩]

example : (sort (fun a b => result (cmp (ask ⟨fun _ => 0, 0⟩ .i32 4) .i32 a.1 b.1)) records).map (fun ys => ys.map fun r => r.1.take 1) =
    .ok [[2], [1], [0], [3]] := by decide +kernel

/-- Two records that point to `"b"` and to `"ab"`. -/
def texts : Nat → List Byte := fun p => if p = 1 then [98, 0] else [97, 98, 0]

example : ∃ xs : List (TextRecord 0 texts), xs.length = 2 ∧ xs.map (·.1.2) = [[98], [97, 98]] :=
  ⟨[⟨([1, 0, 0, 0, 0, 0, 0, 0], [98]), by simp [Text], 1, [], by decide +kernel, rfl⟩, ⟨([2, 0, 0, 0, 0, 0, 0, 0], [97, 98]), by simp [Text], 2, [], by decide +kernel, rfl⟩], rfl, rfl⟩

end Zpl.Compare
