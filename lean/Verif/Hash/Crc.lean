import Verif.Basic
import Verif.Hash.CrcTables

/-!
# `zpl_crc32`, `zpl_crc64` (code/source/hashing.c:42-134)  -  C41

## Model -/

namespace Zpl.Crc

abbrev Byte := BitVec 8

variable {w : Nat}

/-- One iteration of hashing.c:124 / 132. -/
def tableStep (table : List (BitVec w)) (result : BitVec w) (c : Byte) : Except Fault (BitVec w) := do
  let t ← rd table ((result ^^^ c.setWidth w) &&& 0xff#w).toNat
  .ok ((result >>> 8) ^^^ t)

def tableLoop (table : List (BitVec w)) : BitVec w → List Byte → Except Fault (BitVec w)
  | r, [] => .ok r
  | r, c :: cs => do tableLoop table (← tableStep table r c) cs

/-- hashing.c:120-126 `zpl_crc32`. -/
def crc32 (data : List Byte) : Except Fault (BitVec 32) := do
  let r ← tableLoop table32 (~~~ 0#32) data
  .ok (~~~ r)

/-- hashing.c:128-134 `zpl_crc64`. -/
def crc64 (data : List Byte) : Except Fault (BitVec 64) := tableLoop table64 0#64 data

/-! ## Specification: the reflected bit-at-a-time CRC -/

/-- Divide by the reflected polynomial: shift one bit out, subtract (xor) the polynomial if it was set. -/
def bit (poly r : BitVec w) : BitVec w := if r.getLsbD 0 then (r >>> 1) ^^^ poly else r >>> 1

def bits (poly : BitVec w) : Nat → BitVec w → BitVec w
  | 0, r => r
  | n + 1, r => bits poly n (bit poly r)

/-- Feed one byte, low bit first. -/
def feed (poly r : BitVec w) (c : Byte) : BitVec w := bits poly 8 (r ^^^ c.setWidth w)

def poly32 : BitVec 32 := 0xEDB88320#32

def poly64 : BitVec 64 := 0x95AC9329AC4BC9B5#64

def spec32 (data : List Byte) : BitVec 32 := ~~~ (data.foldl (feed poly32) (BitVec.allOnes 32))

def spec64 (data : List Byte) : BitVec 64 := data.foldl (feed poly64) 0#64

/-! ## Lemmas -/

theorem bit_xor (poly x y : BitVec w) : bit poly (x ^^^ y) = bit poly x ^^^ bit poly y := by
  unfold bit
  rw [BitVec.getLsbD_xor, BitVec.ushiftRight_xor_distrib]
  cases x.getLsbD 0 <;> cases y.getLsbD 0 <;> simp [BitVec.xor_assoc]
  · rw [BitVec.xor_comm poly]
  · rw [BitVec.xor_comm poly, BitVec.xor_assoc, BitVec.xor_self, BitVec.xor_zero]

theorem bits_xor (poly : BitVec w) (n : Nat) (x y : BitVec w) : bits poly n (x ^^^ y) = bits poly n x ^^^ bits poly n y := by
  induction n generalizing x y with
  | zero => rfl
  | succ n ih => simp only [bits, bit_xor, ih]

theorem bits_add (poly : BitVec w) (m n : Nat) (x : BitVec w) : bits poly (m + n) x = bits poly n (bits poly m x) := by
  induction m generalizing x with
  | zero => simp [bits]
  | succ m ih => rw [Nat.succ_add]; exact ih _

/-- Without set low bits nothing is subtracted. -/
theorem bits_shift (poly : BitVec w) (n : Nat) (x : BitVec w) (h : ∀ i < n, x.getLsbD i = false) : bits poly n x = x >>> n := by
  induction n generalizing x with
  | zero => simp [bits]
  | succ n ih =>
    have h0 := h 0 (by omega)
    simp only [bits, bit, h0, Bool.false_eq_true, if_false]
    rw [ih _ (fun i hi => by rw [BitVec.getLsbD_ushiftRight]; exact h _ (by omega)), ← BitVec.shiftRight_add, Nat.add_comm]

theorem setWidth_getLsbD (c : Byte) (i : Nat) : (c.setWidth w).getLsbD i = (decide (i < w) && c.getLsbD i) := by
  simp [BitVec.getLsbD_setWidth]

/-- Splitting the register into its low byte and the rest. -/
theorem feed_eq (poly r : BitVec w) (c : Byte) :
    feed poly r c = (r >>> 8) ^^^ bits poly 8 ((r ^^^ c.setWidth w) &&& 0xff#w) := by
  have hff : ∀ i, (0xff#w).getLsbD i = (decide (i < 8) && decide (i < w)) := by
    intro i
    rw [BitVec.getLsbD_ofNat]
    have : Nat.testBit 255 i = decide (i < 8) := by
      have := @Nat.testBit_two_pow_sub_one 8 i
      simpa using this
    rw [this, Bool.and_comm]
  have split : r ^^^ c.setWidth w = ((r ^^^ c.setWidth w) &&& ~~~ 0xff#w) ^^^ ((r ^^^ c.setWidth w) &&& 0xff#w) := by
    apply BitVec.eq_of_getLsbD_eq
    intro i hi
    simp only [BitVec.getLsbD_xor, BitVec.getLsbD_and, BitVec.getLsbD_not, hi, decide_true, Bool.true_and]
    cases (0xff#w).getLsbD i <;> simp
  unfold feed
  rw [split, bits_xor]
  congr 1
  · rw [bits_shift]
    · apply BitVec.eq_of_getLsbD_eq
      intro i hi
      simp only [BitVec.getLsbD_ushiftRight, BitVec.getLsbD_and, BitVec.getLsbD_xor, BitVec.getLsbD_not, hff, setWidth_getLsbD]
      have h8 : ¬ (8 + i < 8) := by omega
      have hc : c.getLsbD (8 + i) = false := BitVec.getLsbD_of_ge _ _ (by omega)
      by_cases hw : 8 + i < w
      · simp [h8, hw]
      · simp [h8, hw, BitVec.getLsbD_of_ge r (8 + i) (by omega)]
    · intro i hi
      simp only [BitVec.getLsbD_and, BitVec.getLsbD_not, hff, hi, decide_true, Bool.true_and]
      cases decide (i < w) <;> simp
  · rw [← split]

/-- A table whose 256 entries are the 8-bit remainders. -/
def GoodTable (poly : BitVec w) (table : List (BitVec w)) : Prop :=
  ∀ i < 256, table[i]? = some (bits poly 8 (BitVec.ofNat w i))

theorem tableStep_eq {poly : BitVec w} {table : List (BitVec w)} (hw : 8 ≤ w) (ht : GoodTable poly table) (r : BitVec w) (c : Byte) :
    tableStep table r c = .ok (feed poly r c) := by
  have hlt : ((r ^^^ c.setWidth w) &&& 0xff#w).toNat < 256 := by
    rw [BitVec.toNat_and, BitVec.toNat_ofNat]
    have h2 : 2 ^ 8 ≤ 2 ^ w := Nat.pow_le_pow_right (by omega) hw
    rw [Nat.mod_eq_of_lt (a := 255) (by omega)]
    have := Nat.and_le_right (n := (r ^^^ c.setWidth w).toNat) (m := 255)
    omega
  have := ht _ hlt
  simp only [tableStep, rd, this, except_ok_bind, feed_eq, BitVec.ofNat_toNat, BitVec.setWidth_eq]

theorem tableLoop_eq {poly : BitVec w} {table : List (BitVec w)} (hw : 8 ≤ w) (ht : GoodTable poly table) :
    ∀ (data : List Byte) (r : BitVec w), tableLoop table r data = .ok (data.foldl (feed poly) r)
  | [], r => rfl
  | c :: cs, r => by simp [tableLoop, tableStep_eq hw ht, tableLoop_eq hw ht cs]

theorem table32_good : GoodTable poly32 table32 := by
  intro i hi
  have : ∀ i : Fin 256, table32[i.val]? = some (bits poly32 8 (BitVec.ofNat 32 i.val)) := by decide +kernel
  exact this ⟨i, hi⟩

theorem table64_good : GoodTable poly64 table64 := by
  intro i hi
  have : ∀ i : Fin 256, table64[i.val]? = some (bits poly64 8 (BitVec.ofNat 64 i.val)) := by decide +kernel
  exact this ⟨i, hi⟩

/-- With the top bit of the polynomial set the division step loses nothing. -/
theorem bit_inj (poly : BitVec w) (hp : poly.getLsbD (w - 1) = true) (hw : 0 < w) {x y : BitVec w} (h : bit poly x = bit poly y) : x = y := by
  have hd : bit poly (x ^^^ y) = 0#w := by rw [bit_xor, h, BitVec.xor_self]
  have hz : x ^^^ y = 0#w := by
    generalize x ^^^ y = z at hd
    apply BitVec.eq_of_getLsbD_eq
    have htop : z.getLsbD 0 = false := by
      cases hb : z.getLsbD 0 with
      | false => rfl
      | true =>
        simp only [bit, hb, if_true] at hd
        have := congrArg (fun v : BitVec w => v.getLsbD (w - 1)) hd
        simp only [BitVec.getLsbD_xor, BitVec.getLsbD_ushiftRight, hp] at this
        rw [BitVec.getLsbD_of_ge z (1 + (w - 1)) (by omega)] at this
        simp at this
    simp only [bit, htop, Bool.false_eq_true, if_false] at hd
    intro i hi
    cases i with
    | zero => simpa using htop
    | succ i =>
      have := congrArg (fun v : BitVec w => v.getLsbD i) hd
      simp only [BitVec.getLsbD_ushiftRight, BitVec.getLsbD_zero] at this
      rw [Nat.add_comm] at this
      simpa using this
  have := congrArg (· ^^^ y) hz
  simpa [BitVec.xor_assoc] using this

theorem bits_inj (poly : BitVec w) (hp : poly.getLsbD (w - 1) = true) (hw : 0 < w) (n : Nat) {x y : BitVec w}
    (h : bits poly n x = bits poly n y) : x = y := by
  induction n generalizing x y with
  | zero => exact h
  | succ n ih => exact bit_inj poly hp hw (ih h)

theorem foldl_inj (poly : BitVec w) (hp : poly.getLsbD (w - 1) = true) (hw : 0 < w) (data : List Byte) {r s : BitVec w}
    (h : data.foldl (feed poly) r = data.foldl (feed poly) s) : r = s := by
  induction data generalizing r s with
  | nil => exact h
  | cons c cs ih =>
    have := bits_inj poly hp hw 8 (ih h)
    have := congrArg (· ^^^ c.setWidth w) this
    simpa [BitVec.xor_assoc] using this

/-- The bytes as one number, first byte lowest. -/
def pack : List Byte → BitVec w
  | [] => 0#w
  | c :: cs => c.setWidth w ^^^ (pack cs <<< 8)

theorem pack_high : ∀ (cs : List Byte) (i : Nat), 8 * cs.length ≤ i → (pack cs : BitVec w).getLsbD i = false
  | [], i, _ => by simp [pack]
  | c :: cs, i, h => by
    simp only [List.length_cons] at h
    have := pack_high cs (i - 8) (by omega)
    simp only [pack, BitVec.getLsbD_xor, BitVec.getLsbD_shiftLeft, setWidth_getLsbD, this]
    rw [BitVec.getLsbD_of_ge c i (by omega)]
    simp

theorem foldl_pack (poly : BitVec w) : ∀ (cs : List Byte) (r : BitVec w), 8 * cs.length ≤ w →
    cs.foldl (feed poly) r = bits poly (8 * cs.length) (r ^^^ pack cs)
  | [], r, _ => by simp [bits, pack]
  | c :: cs, r, h => by
    simp only [List.length_cons] at h
    simp only [List.foldl_cons, List.length_cons]
    rw [foldl_pack poly cs _ (by omega), show 8 * (cs.length + 1) = 8 + 8 * cs.length by omega, bits_add]
    congr 1
    have hp : (pack cs : BitVec w) = bits poly 8 (pack cs <<< 8) := by
      rw [bits_shift]
      · apply BitVec.eq_of_getLsbD_eq
        intro i hi
        simp only [BitVec.getLsbD_ushiftRight, BitVec.getLsbD_shiftLeft]
        by_cases hw : 8 + i < w
        · simp [hw, show ¬ (8 + i < 8) by omega]
        · rw [pack_high cs i (by omega)]; simp [hw]
      · intro i hi
        simp [BitVec.getLsbD_shiftLeft, hi]
    conv => lhs; rw [hp]
    rw [feed, ← bits_xor, pack, BitVec.xor_assoc]

theorem pack_inj : ∀ (u v : List Byte), u.length = v.length → 8 * u.length ≤ w → (pack u : BitVec w) = pack v → u = v
  | [], [], _, _, _ => rfl
  | c :: cs, d :: ds, hl, hw, h => by
    simp only [List.length_cons] at hl hw
    have hbit : ∀ i, (pack (c :: cs) : BitVec w).getLsbD i = (pack (d :: ds) : BitVec w).getLsbD i := fun i => by rw [h]
    simp only [pack, BitVec.getLsbD_xor, BitVec.getLsbD_shiftLeft, setWidth_getLsbD] at hbit
    have hcd : c = d := by
      apply BitVec.eq_of_getLsbD_eq
      intro i hi
      have := hbit i
      simpa [show i < w by omega, hi] using this
    subst hcd
    have : (pack cs : BitVec w) = pack ds := by
      apply BitVec.eq_of_getLsbD_eq
      intro i hi
      by_cases hw8 : 8 + i < w
      · have := hbit (8 + i)
        simpa [hw8, show ¬ (8 + i < 8) by omega] using this
      · rw [pack_high cs i (by omega), pack_high ds i (by omega)]
    rw [pack_inj cs ds (by omega) (by omega) this]

theorem burst (poly : BitVec w) (hp : poly.getLsbD (w - 1) = true) (hw : 0 < w) (r : BitVec w) (p u v s : List Byte)
    (hl : u.length = v.length) (hlen : 8 * u.length ≤ w) (hne : u ≠ v) :
    (p ++ u ++ s).foldl (feed poly) r ≠ (p ++ v ++ s).foldl (feed poly) r := by
  intro h
  simp only [List.foldl_append] at h
  have h1 := foldl_inj poly hp hw s h
  rw [foldl_pack poly u _ hlen, foldl_pack poly v _ (by omega), hl] at h1
  have h2 := bits_inj poly hp hw _ h1
  have h3 : (pack u : BitVec w) = pack v := by
    have := congrArg (p.foldl (feed poly) r ^^^ ·) h2
    simpa [← BitVec.xor_assoc] using this
  exact hne (pack_inj u v hl hlen h3)

/-- Byte-wise exclusive or of equally long strings. -/
def xorBytes (x y : List Byte) : List Byte := List.zipWith (· ^^^ ·) x y

theorem foldl_xor (poly : BitVec w) : ∀ (x y : List Byte) (r s : BitVec w), x.length = y.length →
    (xorBytes x y).foldl (feed poly) (r ^^^ s) = x.foldl (feed poly) r ^^^ y.foldl (feed poly) s
  | [], [], r, s, _ => rfl
  | c :: cs, d :: ds, r, s, h => by
    simp only [xorBytes, List.zipWith_cons_cons, List.foldl_cons]
    have : feed poly (r ^^^ s) (c ^^^ d) = feed poly r c ^^^ feed poly s d := by
      unfold feed
      rw [← bits_xor]
      congr 1
      rw [BitVec.setWidth_xor]
      ac_rfl
    rw [this]
    exact foldl_xor poly cs ds _ _ (by simpa using h)

/-! ## Properties -/

/-- **C41.**  For every byte string, `zpl_crc32` stays inside its table and equals the bit-at-a-time CRC with polynomial 0xEDB88320. -/
theorem C41_crc32_is_polynomial_remainder (data : List Byte) : crc32 data = .ok (spec32 data) := by
  have : (~~~ 0#32) = BitVec.allOnes 32 := by decide
  simp [crc32, tableLoop_eq (by omega) table32_good, spec32]

/-- **C41.**  The same for `zpl_crc64`, polynomial 0x95AC9329AC4BC9B5, initial value 0. -/
theorem C41_crc64_is_polynomial_remainder (data : List Byte) : crc64 data = .ok (spec64 data) := by
  simp [crc64, tableLoop_eq (by omega) table64_good, spec64]

/-- **C41.**  A change confined to at most four consecutive bytes, anywhere in a string, changes the CRC-32. -/
theorem C41_crc32_detects_bursts (p u v s : List Byte) (hl : u.length = v.length) (h4 : u.length ≤ 4) (hne : u ≠ v) :
    crc32 (p ++ u ++ s) ≠ crc32 (p ++ v ++ s) := by
  rw [C41_crc32_is_polynomial_remainder, C41_crc32_is_polynomial_remainder]
  intro h
  injection h with h
  exact burst poly32 (by decide) (by omega) _ p u v s hl (by omega) hne (by simpa [spec32] using h)

/-- **C41.**  A change confined to at most eight consecutive bytes, anywhere in a string, changes the CRC-64. -/
theorem C41_crc64_detects_bursts (p u v s : List Byte) (hl : u.length = v.length) (h4 : u.length ≤ 8) (hne : u ≠ v) :
    crc64 (p ++ u ++ s) ≠ crc64 (p ++ v ++ s) := by
  rw [C41_crc64_is_polynomial_remainder, C41_crc64_is_polynomial_remainder]
  intro h
  injection h with h
  exact burst poly64 (by decide) (by omega) _ p u v s hl (by omega) hne h

/-- **C41**, the single byte case as stated in the property. -/
theorem C41_single_byte (p s : List Byte) (a b : Byte) (hne : a ≠ b) :
    crc32 (p ++ a :: s) ≠ crc32 (p ++ b :: s) ∧ crc64 (p ++ a :: s) ≠ crc64 (p ++ b :: s) := by
  have h1 := C41_crc32_detects_bursts p [a] [b] s rfl (by simp) (by simpa using hne)
  have h2 := C41_crc64_detects_bursts p [a] [b] s rfl (by simp) (by simpa using hne)
  simp only [List.append_assoc, List.singleton_append] at h1 h2
  exact ⟨h1, h2⟩

/-- **C41.**  CRC-32 is affine and CRC-64 linear over byte-wise exclusive or of strings of equal length. -/
theorem C41_affine (x y z : List Byte) (hy : y.length = x.length) (hz : z.length = x.length) :
    ∃ cx cy cz, crc32 x = .ok cx ∧ crc32 y = .ok cy ∧ crc32 z = .ok cz ∧
      crc32 (xorBytes (xorBytes x y) z) = .ok (cx ^^^ cy ^^^ cz) ∧
      ∃ dx dy, crc64 x = .ok dx ∧ crc64 y = .ok dy ∧ crc64 (xorBytes x y) = .ok (dx ^^^ dy) := by
  refine ⟨_, _, _, C41_crc32_is_polynomial_remainder x, C41_crc32_is_polynomial_remainder y, C41_crc32_is_polynomial_remainder z, ?_,
    _, _, C41_crc64_is_polynomial_remainder x, C41_crc64_is_polynomial_remainder y, ?_⟩
  · rw [C41_crc32_is_polynomial_remainder]
    congr 1
    have hxy : (xorBytes x y).length = z.length := by simp [xorBytes]; omega
    have h1 := foldl_xor poly32 (xorBytes x y) z (BitVec.allOnes 32 ^^^ BitVec.allOnes 32) (BitVec.allOnes 32) hxy
    rw [foldl_xor poly32 x y _ _ hy.symm] at h1
    simp only [spec32]
    have e : BitVec.allOnes 32 ^^^ BitVec.allOnes 32 ^^^ BitVec.allOnes 32 = BitVec.allOnes 32 := by decide
    rw [e] at h1
    rw [h1]
    apply BitVec.eq_of_getLsbD_eq
    intro i hi
    simp only [BitVec.getLsbD_not, BitVec.getLsbD_xor, hi, decide_true, Bool.true_and]
    generalize BitVec.getLsbD _ i = a
    generalize BitVec.getLsbD _ i = b
    generalize BitVec.getLsbD _ i = c
    cases a <;> cases b <;> cases c <;> rfl
  · rw [C41_crc64_is_polynomial_remainder]
    congr 1
    have h1 := foldl_xor poly64 x y 0#64 0#64 hy.symm
    rwa [BitVec.xor_self] at h1

/-- Concrete check values: "123456789". -/
example : crc32 ([49, 50, 51, 52, 53, 54, 55, 56, 57].map (BitVec.ofNat 8)) = .ok 0xCBF43926#32 := by decide +kernel

example : crc64 ([49, 50, 51, 52, 53, 54, 55, 56, 57].map (BitVec.ofNat 8)) = .ok 0xE9C6D914C4B8D9CA#64 := by decide +kernel

end Zpl.Crc
