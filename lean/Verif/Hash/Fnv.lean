import Verif.Basic

/-!
# FNV hashes (code/source/hashing.c:136-174)  -  C42

## Model -/

namespace Zpl.Fnv

abbrev Byte := BitVec 8

/-- hashing.c:136-144 `zpl_fnv32`. -/
def fnv32 (data : List Byte) : BitVec 32 :=
  data.foldl (fun h c => (h * 0x01000193#32) ^^^ c.setWidth 32) 0x811c9dc5#32

/-- hashing.c:146-154 `zpl_fnv64`. -/
def fnv64 (data : List Byte) : BitVec 64 :=
  data.foldl (fun h c => (h * 0x100000001b3#64) ^^^ c.setWidth 64) 0xcbf29ce484222325#64

/-- hashing.c:156-164 `zpl_fnv32a`. -/
def fnv32a (data : List Byte) : BitVec 32 :=
  data.foldl (fun h c => (h ^^^ c.setWidth 32) * 0x01000193#32) 0x811c9dc5#32

/-- hashing.c:166-174 `zpl_fnv64a`. -/
def fnv64a (data : List Byte) : BitVec 64 :=
  data.foldl (fun h c => (h ^^^ c.setWidth 64) * 0x100000001b3#64) 0xcbf29ce484222325#64

/-! ## Specification: the published recurrences over natural numbers

Offset bases and primes as published (decimal), <http://www.isthe.com/chongo/tech/comp/fnv/>. -/

/-- FNV-1: multiply, then xor. -/
def fnv1 (size prime : Nat) (h : Nat) : List Byte → Nat
  | [] => h
  | c :: cs => fnv1 size prime (((h * prime) % 2 ^ size) ^^^ c.toNat) cs

/-- FNV-1a: xor, then multiply. -/
def fnv1a (size prime : Nat) (h : Nat) : List Byte → Nat
  | [] => h
  | c :: cs => fnv1a size prime (((h ^^^ c.toNat) * prime) % 2 ^ size) cs

/-! ## Lemmas -/

variable {w : Nat}

theorem toNat_byte (c : Byte) (hw : 8 ≤ w) : (c.setWidth w).toNat = c.toNat := by
  rw [BitVec.toNat_setWidth]
  apply Nat.mod_eq_of_lt
  exact Nat.lt_of_lt_of_le c.isLt (Nat.pow_le_pow_right (by omega) hw)

theorem fnv1_toNat (m : BitVec w) (hw : 8 ≤ w) : ∀ (data : List Byte) (h : BitVec w),
    (data.foldl (fun h c => (h * m) ^^^ c.setWidth w) h).toNat = fnv1 w m.toNat h.toNat data
  | [], _ => rfl
  | c :: cs, h => by
    rw [List.foldl_cons, fnv1_toNat m hw cs]
    simp only [fnv1, BitVec.toNat_xor, BitVec.toNat_mul, toNat_byte c hw]

theorem fnv1a_toNat (m : BitVec w) (hw : 8 ≤ w) : ∀ (data : List Byte) (h : BitVec w),
    (data.foldl (fun h c => (h ^^^ c.setWidth w) * m) h).toNat = fnv1a w m.toNat h.toNat data
  | [], _ => rfl
  | c :: cs, h => by
    rw [List.foldl_cons, fnv1a_toNat m hw cs]
    simp only [fnv1a, BitVec.toNat_xor, BitVec.toNat_mul, toNat_byte c hw]

theorem mul_inj (m inv : BitVec w) (hm : m * inv = 1#w) {x y : BitVec w} (h : x * m = y * m) : x = y := by
  have := congrArg (· * inv) h
  simpa [BitVec.mul_assoc, hm] using this

theorem xor_inj {x y z : BitVec w} (h : x ^^^ z = y ^^^ z) : x = y := by
  have := congrArg (· ^^^ z) h
  simpa [BitVec.xor_assoc] using this

theorem xor_inj_left {x y z : BitVec w} (h : z ^^^ x = z ^^^ y) : x = y := by
  rw [BitVec.xor_comm z, BitVec.xor_comm z] at h; exact xor_inj h

theorem byte_inj (hw : 8 ≤ w) {a b : Byte} (h : a.setWidth w = b.setWidth w) : a = b := by
  apply BitVec.eq_of_toNat_eq
  rw [← toNat_byte a hw, ← toNat_byte b hw, h]

theorem foldl_step_inj {f : BitVec w → Byte → BitVec w} (hf : ∀ c x y, f x c = f y c → x = y) :
    ∀ (data : List Byte) (x y : BitVec w), data.foldl f x = data.foldl f y → x = y
  | [], _, _, h => h
  | c :: cs, x, y, h => hf c x y (foldl_step_inj hf cs _ _ h)

theorem change_one {f : BitVec w → Byte → BitVec w} (hf : ∀ c x y, f x c = f y c → x = y) (hb : ∀ x a b, f x a = f x b → a = b)
    (h0 : BitVec w) (p s : List Byte) (a b : Byte) (hne : a ≠ b) :
    (p ++ a :: s).foldl f h0 ≠ (p ++ b :: s).foldl f h0 := by
  intro h
  simp only [List.foldl_append, List.foldl_cons] at h
  exact hne (hb _ _ _ (foldl_step_inj hf s _ _ h))

/-! ## Properties -/

/-- **C42.**  The four functions are the published FNV-1 and FNV-1a recurrences, for every byte string. -/
theorem C42_published_recurrence (data : List Byte) :
    (fnv32 data).toNat = fnv1 32 16777619 2166136261 data ∧
    (fnv64 data).toNat = fnv1 64 1099511628211 14695981039346656037 data ∧
    (fnv32a data).toNat = fnv1a 32 16777619 2166136261 data ∧
    (fnv64a data).toNat = fnv1a 64 1099511628211 14695981039346656037 data :=
  ⟨fnv1_toNat _ (by omega) data _, fnv1_toNat _ (by omega) data _, fnv1a_toNat _ (by omega) data _, fnv1a_toNat _ (by omega) data _⟩

/-- **C42.**  Strings of the same length that differ in exactly one byte have different hashes. -/
theorem C42_single_byte_changes_hash (p s : List Byte) (a b : Byte) (hne : a ≠ b) :
    fnv32 (p ++ a :: s) ≠ fnv32 (p ++ b :: s) ∧ fnv64 (p ++ a :: s) ≠ fnv64 (p ++ b :: s) ∧
    fnv32a (p ++ a :: s) ≠ fnv32a (p ++ b :: s) ∧ fnv64a (p ++ a :: s) ≠ fnv64a (p ++ b :: s) := by
  have i32 : 0x01000193#32 * 0x359c449b#32 = 1#32 := by decide
  have i64 : 0x100000001b3#64 * 0xce965057aff6957b#64 = 1#64 := by decide
  refine ⟨?_, ?_, ?_, ?_⟩
  · exact change_one (f := fun h c => (h * 0x01000193#32) ^^^ c.setWidth 32) (fun c x y h => mul_inj _ _ i32 (xor_inj h))
      (fun x a b h => byte_inj (w := 32) (by omega) (xor_inj_left h)) _ p s a b hne
  · exact change_one (f := fun h c => (h * 0x100000001b3#64) ^^^ c.setWidth 64) (fun c x y h => mul_inj _ _ i64 (xor_inj h))
      (fun x a b h => byte_inj (w := 64) (by omega) (xor_inj_left h)) _ p s a b hne
  · exact change_one (f := fun h c => (h ^^^ c.setWidth 32) * 0x01000193#32) (fun c x y h => xor_inj (mul_inj _ _ i32 h))
      (fun x a b h => byte_inj (w := 32) (by omega) (xor_inj_left (mul_inj _ _ i32 h))) _ p s a b hne
  · exact change_one (f := fun h c => (h ^^^ c.setWidth 64) * 0x100000001b3#64) (fun c x y h => xor_inj (mul_inj _ _ i64 h))
      (fun x a b h => byte_inj (w := 64) (by omega) (xor_inj_left (mul_inj _ _ i64 h))) _ p s a b hne

/-- Published test values for "foobar". -/
example : let d := [102, 111, 111, 98, 97, 114].map (BitVec.ofNat 8)
    fnv32 d = 0x31f0b262#32 ∧ fnv32a d = 0xbf9cf968#32 ∧ fnv64 d = 0x340d8765a4dda9c2#64 ∧ fnv64a d = 0x85944171f73967e8#64 := by decide +kernel

end Zpl.Fnv
