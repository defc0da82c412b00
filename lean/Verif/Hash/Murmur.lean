import Verif.Basic
import Verif.Hash.Crc
import Verif.Hash.Fnv

/-!
# Murmur hashes (code/source/hashing.c:326-408)  -  C43, C44

## Model

The code reads the message as an array of 32- or 64-bit words; the model takes a little-endian machine. -/

namespace Zpl.Murmur

abbrev Byte := BitVec 8

open Zpl.Crc (pack)

/-- A little-endian load of the given bytes. -/
def loadLE (w : Nat) (bs : List Byte) : BitVec w := BitVec.ofNat w (bs.foldr (fun b n => b.toNat + 256 * n) 0)

/-- hashing.c:341-343 -/
def mixK (k : BitVec 32) : BitVec 32 :=
  let k := k * 0xcc9e2d51#32
  let k := (k <<< 15) ||| (k >>> (32 - 15))
  k * 0x1b873593#32

/-- hashing.c:340-346, one block. -/
@[irreducible] def block32 (hash k : BitVec 32) : BitVec 32 :=
  let hash := hash ^^^ mixK k
  ((hash <<< 13) ||| (hash >>> (32 - 13))) * 5#32 + 0xe6546b64#32

/-- hashing.c:339-347: consume whole 4-byte blocks; returns the rest of the data (`tail`). -/
def blocks32 : BitVec 32 → List Byte → BitVec 32 × List Byte
  | hash, a :: b :: c :: d :: rest => blocks32 (block32 hash (loadLE 32 [a, b, c, d])) rest
  | hash, tail => (hash, tail)

/-- hashing.c:349-359, the switch with fall through; `tail` has `len & 3` bytes. -/
def tail32 (hash : BitVec 32) : List Byte → BitVec 32
  | [t0, t1, t2] =>
    let k1 := 0#32 ^^^ (t2.setWidth 32 <<< 16)
    let k1 := k1 ^^^ (t1.setWidth 32 <<< 8)
    let k1 := k1 ^^^ t0.setWidth 32
    hash ^^^ mixK k1
  | [t0, t1] =>
    let k1 := 0#32 ^^^ (t1.setWidth 32 <<< 8)
    let k1 := k1 ^^^ t0.setWidth 32
    hash ^^^ mixK k1
  | [t0] => hash ^^^ mixK (0#32 ^^^ t0.setWidth 32)
  | _ => hash

/-- hashing.c:361-366 -/
def final32 (len : Nat) (hash : BitVec 32) : BitVec 32 :=
  let hash := hash ^^^ BitVec.ofNat 32 len
  let hash := hash ^^^ (hash >>> 16)
  let hash := hash * 0x85ebca6b#32
  let hash := hash ^^^ (hash >>> 13)
  let hash := hash * 0xc2b2ae35#32
  hash ^^^ (hash >>> 16)

/-- hashing.c:326-369 `zpl_murmur32_seed`. -/
def murmur32 (seed : BitVec 32) (data : List Byte) : BitVec 32 :=
  let (hash, tail) := blocks32 seed data
  final32 data.length (tail32 hash tail)

/-- hashing.c:384-389, one block of `zpl_murmur64_seed`. -/
@[irreducible] def block64 (h k : BitVec 64) : BitVec 64 :=
  let k := k * 0xc6a4a7935bd1e995#64
  let k := k ^^^ (k >>> 47)
  let k := k * 0xc6a4a7935bd1e995#64
  (h ^^^ k) * 0xc6a4a7935bd1e995#64

/-- hashing.c:381-390: consume whole 8-byte blocks; the remaining count is `len & 7`. -/
def blocks64 : BitVec 64 → List Byte → BitVec 64 × Nat
  | h, a :: b :: c :: d :: e :: f :: g :: i :: rest => blocks64 (block64 h (loadLE 64 [a, b, c, d, e, f, g, i])) rest
  | h, tail => (h, tail.length)

/-- hashing.c:392-401, the switch with fall through.  `data2` points to the start of the message (hashing.c:378): it is not
advanced past the blocks. -/
def tail64 (h : BitVec 64) (data2 : List Byte) (n : Nat) : Except Fault (BitVec 64) :=
  if n = 0 then .ok h
  else do
    let rec go (h : BitVec 64) : Nat → Except Fault (BitVec 64)
      | 0 => .ok h
      | i + 1 => do
        let x ← rd data2 i
        go (h ^^^ (x.setWidth 64 <<< (8 * i))) i
    let h ← go h n
    .ok (h * 0xc6a4a7935bd1e995#64)

/-- hashing.c:403-405 -/
def final64 (h : BitVec 64) : BitVec 64 :=
  let h := h ^^^ (h >>> 47)
  let h := h * 0xc6a4a7935bd1e995#64
  h ^^^ (h >>> 47)

/-- hashing.c:371-408 `zpl_murmur64_seed`. -/
def murmur64 (seed : BitVec 64) (data : List Byte) : Except Fault (BitVec 64) := do
  let h := seed ^^^ (BitVec.ofNat 64 data.length * 0xc6a4a7935bd1e995#64)
  let (h, n) := blocks64 h data
  let h ← tail64 h data n
  .ok (final64 h)

/-! ## Specification: MurmurHash3_x86_32 as published (A. Appleby), with rotations and indexed blocks -/

def refScramble (k : BitVec 32) : BitVec 32 := (k * 0xcc9e2d51#32).rotateLeft 15 * 0x1b873593#32

/-- Body: block `i` of `n`. -/
def refBody (data : List Byte) (h : BitVec 32) : Nat → BitVec 32
  | 0 => h
  | n + 1 =>
    let h := refBody data h n
    (h ^^^ refScramble (loadLE 32 ((data.drop (4 * n)).take 4))).rotateLeft 13 * 5#32 + 0xe6546b64#32

def refFmix (h : BitVec 32) : BitVec 32 :=
  let h := h ^^^ (h >>> 16)
  let h := h * 0x85ebca6b#32
  let h := h ^^^ (h >>> 13)
  let h := h * 0xc2b2ae35#32
  h ^^^ (h >>> 16)

/-- Body, tail (the remaining bytes as one little-endian number, nothing if there are none), length, finalizer. -/
def refMurmur3 (seed : BitVec 32) (data : List Byte) : BitVec 32 :=
  let n := data.length / 4
  let h := refBody data seed n
  let tail := data.drop (4 * n)
  let h := if tail = [] then h else h ^^^ refScramble (loadLE 32 tail)
  refFmix (h ^^^ BitVec.ofNat 32 data.length)

/-! ## Lemmas -/

theorem loadLE_inj {w : Nat} : ∀ (u v : List Byte), u.length = v.length → 8 * u.length ≤ w → loadLE w u = loadLE w v → u = v := by
  have bound : ∀ u : List Byte, u.foldr (fun b n => b.toNat + 256 * n) 0 < 2 ^ (8 * u.length) := by
    intro u
    induction u with
    | nil => simp
    | cons a u ih =>
      have ha := a.isLt
      simp only [List.foldr_cons, List.length_cons]
      have : 2 ^ (8 * (u.length + 1)) = 256 * 2 ^ (8 * u.length) := by rw [Nat.mul_add, Nat.pow_add]; omega
      rw [this]; omega
  have inj : ∀ u v : List Byte, u.length = v.length →
      u.foldr (fun b n => b.toNat + 256 * n) 0 = v.foldr (fun b n => b.toNat + 256 * n) 0 → u = v := by
    intro u
    induction u with
    | nil => intro v hl _; cases v <;> simp at hl ⊢
    | cons a u ih =>
      intro v hl h
      cases v with
      | nil => simp at hl
      | cons b v =>
        have ha := a.isLt
        have hb := b.isLt
        simp only [List.foldr_cons] at h
        have h1 : a.toNat = b.toNat := by omega
        rw [BitVec.eq_of_toNat_eq h1, ih v (by simpa using hl) (by omega)]
  intro u v hl hw h
  apply inj u v hl
  have := congrArg BitVec.toNat h
  have hp : 2 ^ (8 * u.length) ≤ 2 ^ w := Nat.pow_le_pow_right (by omega) hw
  simp only [loadLE, BitVec.toNat_ofNat] at this
  have h1 := bound u
  have h2 := bound v
  rw [← hl] at h2
  rwa [Nat.mod_eq_of_lt (by omega), Nat.mod_eq_of_lt (by omega)] at this

variable {w : Nat}

theorem rot_eq (x : BitVec 32) (r : Nat) (h : r < 32) : (x <<< r) ||| (x >>> (32 - r)) = x.rotateLeft r := by
  rw [BitVec.rotateLeft_def, Nat.mod_eq_of_lt h]

theorem mixK_eq (k : BitVec 32) : mixK k = refScramble k := by
  simp only [mixK, refScramble, rot_eq _ 15 (by omega)]

theorem block32_eq (h k : BitVec 32) :
    block32 h k = (h ^^^ refScramble k).rotateLeft 13 * 5#32 + 0xe6546b64#32 := by
  unfold block32
  simp only [mixK_eq, rot_eq _ 13 (by omega)]

theorem rotateLeft_inj {x y : BitVec 32} {r : Nat} (h : x.rotateLeft r = y.rotateLeft r) : x = y := by
  apply BitVec.eq_of_getLsbD_eq
  intro i hi
  have key : ∀ z : BitVec 32, z.getLsbD i = (z.rotateLeft r).getLsbD ((i + r % 32) % 32) := by
    intro z
    rw [BitVec.getLsbD_rotateLeft]
    by_cases h1 : i + r % 32 < 32
    · rw [Nat.mod_eq_of_lt h1]
      simp [show ¬ (i + r % 32 < r % 32) by omega, h1]
    · have h2 : (i + r % 32) % 32 = i + r % 32 - 32 := by omega
      rw [h2]
      simp only [show i + r % 32 - 32 < r % 32 by omega, decide_true, cond_true]
      congr 1
      omega
  rw [key x, key y, h]

theorem refScramble_inj {x y : BitVec 32} (h : refScramble x = refScramble y) : x = y := by
  have i1 : 0xcc9e2d51#32 * 0xdee13bb1#32 = 1#32 := by decide
  have i2 : 0x1b873593#32 * 0x56ed309b#32 = 1#32 := by decide
  exact Fnv.mul_inj _ _ i1 (rotateLeft_inj (Fnv.mul_inj _ _ i2 h))

theorem add_inj {x y c : BitVec 32} (h : x + c = y + c) : x = y := by
  have := congrArg (· - c) h
  simpa [BitVec.add_sub_cancel] using this

theorem block32_inj_hash {g h k : BitVec 32} (e : block32 g k = block32 h k) : g = h := by
  have i1 : 5#32 * 0xcccccccd#32 = 1#32 := by decide
  rw [block32_eq, block32_eq] at e
  exact Fnv.xor_inj (rotateLeft_inj (Fnv.mul_inj _ _ i1 (add_inj e)))

theorem block32_inj_key {h k l : BitVec 32} (e : block32 h k = block32 h l) : k = l := by
  have i1 : 5#32 * 0xcccccccd#32 = 1#32 := by decide
  rw [block32_eq, block32_eq] at e
  exact refScramble_inj (Fnv.xor_inj_left (rotateLeft_inj (Fnv.mul_inj _ _ i1 (add_inj e))))

/-- `x ^ (x >> r)` loses nothing. -/
theorem xorshift_inj (r : Nat) (hr : 0 < r) {x y : BitVec w} (h : x ^^^ (x >>> r) = y ^^^ (y >>> r)) : x = y := by
  have hz : (x ^^^ y) ^^^ ((x ^^^ y) >>> r) = 0#w := by
    rw [BitVec.ushiftRight_xor_distrib]
    calc x ^^^ y ^^^ (x >>> r ^^^ y >>> r) = (x ^^^ x >>> r) ^^^ (y ^^^ y >>> r) := by ac_rfl
      _ = 0#w := by rw [h, BitVec.xor_self]
  generalize hzz : x ^^^ y = z at hz
  have hbits : ∀ n i, w - i ≤ n → z.getLsbD i = false := by
    intro n
    induction n with
    | zero => intro i hi; exact BitVec.getLsbD_of_ge _ _ (by omega)
    | succ n ih =>
      intro i hi
      have := congrArg (fun v : BitVec w => v.getLsbD i) hz
      simp only [BitVec.getLsbD_xor, BitVec.getLsbD_ushiftRight, BitVec.getLsbD_zero] at this
      by_cases hiw : w ≤ i
      · exact BitVec.getLsbD_of_ge _ _ hiw
      · rw [ih (r + i) (by omega)] at this
        simpa using this
  have : z = 0#w := BitVec.eq_of_getLsbD_eq (fun i _ => by rw [hbits w i (by omega)]; simp)
  rw [this] at hzz
  have := congrArg (· ^^^ y) hzz
  simpa [BitVec.xor_assoc] using this

theorem refFmix_inj {x y : BitVec 32} (h : refFmix x = refFmix y) : x = y := by
  have i1 : 0x85ebca6b#32 * 0xa5cb9243#32 = 1#32 := by decide
  have i2 : 0xc2b2ae35#32 * 0x7ed1b41d#32 = 1#32 := by decide
  exact xorshift_inj 16 (by omega) (Fnv.mul_inj _ _ i1 (xorshift_inj 13 (by omega) (Fnv.mul_inj _ _ i2 (xorshift_inj 16 (by omega) h))))

theorem final32_eq (n : Nat) (h : BitVec 32) : final32 n h = refFmix (h ^^^ BitVec.ofNat 32 n) := rfl

theorem four {u : List Byte} (hu : u.length = 4) : ∃ a b c d, u = [a, b, c, d] := by
  match u, hu with
  | [a, b, c, d], _ => exact ⟨a, b, c, d, rfl⟩

theorem eight {u : List Byte} (hu : u.length = 8) : ∃ a b c d e f g i, u = [a, b, c, d, e, f, g, i] := by
  match u, hu with
  | [a, b, c, d, e, f, g, i], _ => exact ⟨a, b, c, d, e, f, g, i, rfl⟩

theorem blocks32_cons (h : BitVec 32) (a b c d : Byte) (r : List Byte) :
    blocks32 h (a :: b :: c :: d :: r) = blocks32 (block32 h (loadLE 32 [a, b, c, d])) r := by rw [blocks32]

theorem blocks32_short {t : List Byte} (x : BitVec 32) (ht : t.length < 4) : blocks32 x t = (x, t) := by
  match t, ht with
  | [], _ => simp [blocks32]
  | [_], _ => simp [blocks32]
  | [_, _], _ => simp [blocks32]
  | [_, _, _], _ => simp [blocks32]
  | _ :: _ :: _ :: _ :: _, h => simp at h; omega

theorem blocks64_cons (x : BitVec 64) (a b c d e f g i : Byte) (r : List Byte) :
    blocks64 x (a :: b :: c :: d :: e :: f :: g :: i :: r) = blocks64 (block64 x (loadLE 64 [a, b, c, d, e, f, g, i])) r := by
  rw [blocks64]

/-- Whole blocks are consumed one by one. -/
theorem blocks32_append : ∀ (p s : List Byte) (h : BitVec 32), p.length % 4 = 0 →
    ∃ g, (blocks32 h p = (g, [])) ∧ ∀ s, blocks32 h (p ++ s) = blocks32 g s
  | [], _, h, _ => ⟨h, by simp [blocks32], fun _ => rfl⟩
  | [_], _, _, hp => by simp at hp
  | [_, _], _, _, hp => by simp at hp
  | [_, _, _], _, _, hp => by simp at hp
  | a :: b :: c :: d :: p, s, h, hp => by
    obtain ⟨g, h1, h2⟩ := blocks32_append p s (block32 h (loadLE 32 [a, b, c, d])) (by simp at hp; omega)
    exact ⟨g, by rw [blocks32_cons, h1], fun s => by simp only [List.cons_append, blocks32_cons, h2]⟩

theorem blocks32_split (data : List Byte) (h : BitVec 32) :
    (blocks32 h data).2 = data.drop (4 * (data.length / 4)) ∧ (blocks32 h data).1 = refBody data h (data.length / 4) := by
  -- consume block by block from the front; `refBody` counts from the back
  have body_shift : ∀ (n : Nat) (a b c d : Byte) (rest : List Byte) (h : BitVec 32),
      refBody (a :: b :: c :: d :: rest) h (n + 1) = refBody rest (block32 h (loadLE 32 [a, b, c, d])) n := by
    intro n
    induction n with
    | zero => intro a b c d rest h; simp [refBody, block32_eq]
    | succ n ih =>
      intro a b c d rest h
      rw [refBody, ih]
      simp only [refBody]
      rw [show 4 * (n + 1) = 4 * n + 4 by omega]
      simp only [List.drop_succ_cons]
  have main : ∀ (n : Nat) (data : List Byte) (h : BitVec 32), data.length ≤ n →
      (blocks32 h data).2 = data.drop (4 * (data.length / 4)) ∧ (blocks32 h data).1 = refBody data h (data.length / 4) := by
    intro n
    induction n with
    | zero =>
      intro data h hl
      have : data = [] := List.length_eq_zero_iff.mp (by omega)
      subst this; simp [blocks32, refBody]
    | succ n ih =>
      intro data h hl
      match data with
      | [] => simp [blocks32, refBody]
      | [_] => simp [blocks32, refBody]
      | [_, _] => simp [blocks32, refBody]
      | [_, _, _] => simp [blocks32, refBody]
      | a :: b :: c :: d :: rest =>
        have hlen : (a :: b :: c :: d :: rest).length / 4 = rest.length / 4 + 1 := by simp only [List.length_cons]; omega
        obtain ⟨h1, h2⟩ := ih rest (block32 h (loadLE 32 [a, b, c, d])) (by simp at hl; omega)
        rw [hlen, body_shift, show 4 * (rest.length / 4 + 1) = 4 * (rest.length / 4) + 4 by omega]
        rw [blocks32_cons]; exact ⟨by rw [h1]; rfl, h2⟩
  exact main data.length data h (Nat.le_refl _)

theorem loadLE_cons (a : Byte) (u : List Byte) (hw : 8 * (u.length + 1) ≤ w) :
    loadLE w (a :: u) = (loadLE w u <<< 8) ^^^ a.setWidth w := by
  apply BitVec.eq_of_toNat_eq
  have ha := a.isLt
  have hw8 : 2 ^ 8 ≤ 2 ^ w := Nat.pow_le_pow_right (by omega) (by omega)
  rw [BitVec.toNat_xor, BitVec.toNat_shiftLeft, Fnv.toNat_byte a (by omega), Nat.shiftLeft_eq]
  simp only [loadLE, BitVec.toNat_ofNat, List.foldr_cons]
  generalize u.foldr (fun b n => b.toNat + 256 * n) 0 = m
  rw [Nat.mod_mul_mod]
  obtain ⟨v, hv⟩ : ∃ v, w = 8 + v := ⟨w - 8, by omega⟩
  subst hv
  have e1 : m * 2 ^ 8 % 2 ^ (8 + v) = 2 ^ 8 * (m % 2 ^ v) := by
    rw [Nat.pow_add, Nat.mul_comm m, Nat.mul_mod_mul_left]
  have e2 : (a.toNat + 256 * m) % 2 ^ (8 + v) = 2 ^ 8 * (m % 2 ^ v) + a.toNat := by
    rw [Nat.pow_add, Nat.mod_mul]
    have h1 : (a.toNat + 256 * m) % 2 ^ 8 = a.toNat := by omega
    have h2 : (a.toNat + 256 * m) / 2 ^ 8 = m := by omega
    rw [h1, h2, Nat.add_comm]
  rw [e1, e2]
  apply Nat.eq_of_testBit_eq
  intro i
  rw [Nat.testBit_xor, Nat.testBit_two_pow_mul_add _ ha, Nat.testBit_two_pow_mul]
  by_cases hi : i < 8
  · simp [hi, show ¬ (8 ≤ i) by omega]
  · have : a.toNat.testBit i = false := Nat.testBit_lt_two_pow (Nat.lt_of_lt_of_le ha (Nat.pow_le_pow_right (by omega) (by omega)))
    simp [hi, show 8 ≤ i by omega, this]

theorem tail32_eq (h : BitVec 32) (tail : List Byte) (hl : tail.length < 4) :
    tail32 h tail = if tail = [] then h else h ^^^ refScramble (loadLE 32 tail) := by
  have hnil : loadLE 32 [] = 0#32 := rfl
  match tail, hl with
  | [], _ => rfl
  | [a], _ =>
    rw [loadLE_cons a [] (by simp), hnil]
    simp [tail32, mixK_eq]
  | [a, b], _ =>
    rw [loadLE_cons a [b] (by simp), loadLE_cons b [] (by simp), hnil]
    simp [tail32, mixK_eq]
  | [a, b, c], _ =>
    rw [loadLE_cons a [b, c] (by simp), loadLE_cons b [c] (by simp), loadLE_cons c [] (by simp), hnil]
    simp [tail32, mixK_eq, BitVec.shiftLeft_xor_distrib, ← BitVec.shiftLeft_add]
  | _ :: _ :: _ :: _ :: _, h => simp at h; omega

/-! ### 64 bit -/

theorem block64_inj_hash {g h k : BitVec 64} (e : block64 g k = block64 h k) : g = h := by
  have i1 : 0xc6a4a7935bd1e995#64 * 0x5f7a0ea7e59b19bd#64 = 1#64 := by decide
  unfold block64 at e
  exact Fnv.xor_inj (Fnv.mul_inj _ _ i1 e)

theorem block64_inj_key {h k l : BitVec 64} (e : block64 h k = block64 h l) : k = l := by
  have i1 : 0xc6a4a7935bd1e995#64 * 0x5f7a0ea7e59b19bd#64 = 1#64 := by decide
  unfold block64 at e
  exact Fnv.mul_inj _ _ i1 (xorshift_inj 47 (by omega) (Fnv.mul_inj _ _ i1 (Fnv.xor_inj_left (Fnv.mul_inj _ _ i1 e))))

theorem final64_inj {g h : BitVec 64} (e : final64 g = final64 h) : g = h := by
  have i1 : 0xc6a4a7935bd1e995#64 * 0x5f7a0ea7e59b19bd#64 = 1#64 := by decide
  exact xorshift_inj 47 (by omega) (Fnv.mul_inj _ _ i1 (xorshift_inj 47 (by omega) e))

theorem blocks64_append : ∀ (p : List Byte) (h : BitVec 64), p.length % 8 = 0 →
    ∃ g, ∀ s, blocks64 h (p ++ s) = blocks64 g s
  | [], h, _ => ⟨h, fun _ => rfl⟩
  | [_], _, hp => by simp at hp
  | [_, _], _, hp => by simp at hp
  | [_, _, _], _, hp => by simp at hp
  | [_, _, _, _], _, hp => by simp at hp
  | [_, _, _, _, _], _, hp => by simp at hp
  | [_, _, _, _, _, _], _, hp => by simp at hp
  | [_, _, _, _, _, _, _], _, hp => by simp at hp
  | a :: b :: c :: d :: e :: f :: g :: i :: p, h, hp => by
    obtain ⟨g', h2⟩ := blocks64_append p (block64 h (loadLE 64 [a, b, c, d, e, f, g, i])) (by simp at hp; omega)
    exact ⟨g', fun s => by simp only [List.cons_append, blocks64_cons, h2]⟩

theorem blocks64_short {u : List Byte} (h : BitVec 64) (hu : u.length < 8) : blocks64 h u = (h, u.length) := by
  match u, hu with
  | [], _ => simp [blocks64]
  | [_], _ => simp [blocks64]
  | [_, _], _ => simp [blocks64]
  | [_, _, _], _ => simp [blocks64]
  | [_, _, _, _], _ => simp [blocks64]
  | [_, _, _, _, _], _ => simp [blocks64]
  | [_, _, _, _, _, _], _ => simp [blocks64]
  | [_, _, _, _, _, _, _], _ => simp [blocks64]
  | _ :: _ :: _ :: _ :: _ :: _ :: _ :: _ :: _, h => simp at h; omega

theorem blocks64_ind {P : List Byte → Prop} (short : ∀ u, u.length < 8 → P u)
    (step : ∀ a b c d e f g i r, P r → P (a :: b :: c :: d :: e :: f :: g :: i :: r)) : ∀ s, P s
  | [] => short _ (by simp)
  | [_] => short _ (by simp)
  | [_, _] => short _ (by simp)
  | [_, _, _] => short _ (by simp)
  | [_, _, _, _] => short _ (by simp)
  | [_, _, _, _, _] => short _ (by simp)
  | [_, _, _, _, _, _] => short _ (by simp)
  | [_, _, _, _, _, _, _] => short _ (by simp)
  | _ :: _ :: _ :: _ :: _ :: _ :: _ :: _ :: r => step _ _ _ _ _ _ _ _ r (blocks64_ind short step r)

theorem blocks64_inj (s : List Byte) : ∀ (g h : BitVec 64), (blocks64 g s).1 = (blocks64 h s).1 → g = h := by
  induction s using blocks64_ind with
  | short u hu => intro g h e; simpa [blocks64_short _ hu] using e
  | step a b c d e f g i r ih => intro x y e; rw [blocks64_cons, blocks64_cons] at e; exact block64_inj_hash (ih _ _ e)

theorem blocks64_count (s : List Byte) : ∀ (h : BitVec 64), (blocks64 h s).2 = s.length % 8 := by
  induction s using blocks64_ind with
  | short u hu => intro h; rw [blocks64_short _ hu]; exact (Nat.mod_eq_of_lt hu).symm
  | step a b c d e f g i r ih => intro x; rw [blocks64_cons, ih]; simp only [List.length_cons]; omega

/-- The xor of the first `n` bytes into the hash is one little-endian number. -/
theorem go_eq (data : List Byte) : ∀ (n : Nat) (h : BitVec 64), n ≤ data.length →
    ∃ k : BitVec 64, tail64.go data h n = .ok (h ^^^ k) ∧ (∀ g, tail64.go data g n = .ok (g ^^^ k)) ∧
      ∀ data' : List Byte, data'.take n = data.take n → ∀ g, tail64.go data' g n = .ok (g ^^^ k)
  | 0, h, _ => ⟨0#64, by simp [tail64.go], fun g => by simp [tail64.go], fun _ _ g => by simp [tail64.go]⟩
  | n + 1, h, hn => by
    obtain ⟨k, _, h2, h3⟩ := go_eq data n h (by omega)
    have hx : rd data n = .ok data[n] := rd_ok (by omega)
    refine ⟨(data[n].setWidth 64 <<< (8 * n)) ^^^ k, ?_, fun g => ?_, fun d' hd g => ?_⟩
    · simp only [tail64.go, hx, except_ok_bind, h2]; simp [BitVec.xor_assoc]
    · simp only [tail64.go, hx, except_ok_bind, h2]; simp [BitVec.xor_assoc]
    · have hlen : n < d'.length := by
        have := congrArg List.length hd
        simp only [List.length_take] at this
        omega
      have hxd : d'[n] = data[n] := by
        have h1 : (d'.take (n + 1))[n]? = (data.take (n + 1))[n]? := by rw [hd]
        rw [List.getElem?_take_of_lt (by omega), List.getElem?_take_of_lt (by omega), List.getElem?_eq_getElem hlen,
          List.getElem?_eq_getElem (by omega)] at h1
        exact Option.some.inj h1
      have htk : d'.take n = data.take n := by
        have := congrArg (List.take n) hd
        simpa [List.take_take, Nat.min_eq_left (Nat.le_succ n)] using this
      simp only [tail64.go, rd_ok hlen, hxd, except_ok_bind, h3 d' htk]; simp [BitVec.xor_assoc]

theorem tail64_congr (h : BitVec 64) {d d' : List Byte} {n : Nat} (hn : n ≤ d.length) (ht : d'.take n = d.take n) :
    tail64 h d' n = tail64 h d n := by
  unfold tail64
  obtain ⟨k, _, h2, h3⟩ := go_eq d n h hn
  rw [h3 d' ht, h2]

theorem tail64_inj {g h r : BitVec 64} {d : List Byte} {n : Nat} (hn : n ≤ d.length)
    (e1 : tail64 g d n = .ok r) (e2 : tail64 h d n = .ok r) : g = h := by
  have i1 : 0xc6a4a7935bd1e995#64 * 0x5f7a0ea7e59b19bd#64 = 1#64 := by decide
  unfold tail64 at e1 e2
  by_cases h0 : n = 0
  · simp only [h0, if_true] at e1 e2
    injection e1 with e1; injection e2 with e2; rw [e1, e2]
  · simp only [h0, if_false] at e1 e2
    obtain ⟨k, _, h2, _⟩ := go_eq d n g hn
    rw [h2] at e1 e2
    simp only [except_ok_bind] at e1 e2
    injection e1 with e1; injection e2 with e2
    exact Fnv.xor_inj (Fnv.mul_inj _ _ i1 (e1.trans e2.symm))

theorem tail64_ok (h : BitVec 64) {d : List Byte} {n : Nat} (hn : n ≤ d.length) : ∃ r, tail64 h d n = .ok r := by
  unfold tail64
  obtain ⟨k, _, h2, _⟩ := go_eq d n h hn
  rw [h2]
  by_cases h0 : n = 0
  · exact ⟨h, by simp [h0]⟩
  · exact ⟨_, by simp only [h0, if_false, except_ok_bind]; rfl⟩

/-- The tail switch reads a little-endian number. -/
theorem go_loadLE : ∀ (u : List Byte) (n : Nat) (h : BitVec 64), u.length < 8 → n = u.length →
    tail64.go u h n = .ok (h ^^^ loadLE 64 u) := by
  have snoc : ∀ (u : List Byte) (x : Byte), u.length < 8 → loadLE 64 (u ++ [x]) = (x.setWidth 64 <<< (8 * u.length)) ^^^ loadLE 64 u := by
    intro u
    induction u with
    | nil => intro x _; rw [List.nil_append, loadLE_cons x [] (by simp)]; simp [loadLE]
    | cons a u ih =>
      intro x hl
      simp only [List.length_cons] at hl
      rw [List.cons_append, loadLE_cons a (u ++ [x]) (by simp; omega), loadLE_cons a u (by omega), ih x (by omega)]
      rw [BitVec.shiftLeft_xor_distrib, ← BitVec.shiftLeft_add, List.length_cons, Nat.mul_add, Nat.mul_one, BitVec.xor_assoc]
  have main : ∀ (n : Nat) (u v : List Byte) (h : BitVec 64), u.length < 8 → n = u.length →
      tail64.go (u ++ v) h n = .ok (h ^^^ loadLE 64 u) := by
    intro n
    induction n with
    | zero =>
      intro u v h _ hn
      have : u = [] := List.length_eq_zero_iff.mp hn.symm
      subst this; simp [tail64.go, loadLE]
    | succ n ih =>
      intro u v h hl hn
      have hne : u ≠ [] := by rintro rfl; simp at hn
      have hu : u = u.dropLast ++ [u.getLast hne] := (List.dropLast_concat_getLast hne).symm
      have hdl : u.dropLast.length = n := by simp; omega
      generalize u.getLast hne = x at hu
      generalize u.dropLast = t at hu hdl
      subst hu
      have hx : rd (t ++ [x] ++ v) n = .ok x := by
        rw [rd_ok (by simp; omega)]; simp [List.getElem_append, hdl.symm]
      simp only [tail64.go, hx, except_ok_bind]
      rw [List.append_assoc, ih t ([x] ++ v) _ (by omega) hdl.symm, snoc t x (by omega), hdl, BitVec.xor_assoc]
  intro u n h hl hn
  have := main n u [] h hl hn
  rwa [List.append_nil] at this

/-! ## Properties -/

/-- **C43.**  For every seed and message `zpl_murmur32_seed` is the published MurmurHash3_x86_32. -/
theorem C43_murmur32_is_murmur3 (seed : BitVec 32) (data : List Byte) : murmur32 seed data = refMurmur3 seed data := by
  obtain ⟨h1, h2⟩ := blocks32_split data seed
  simp only [murmur32, refMurmur3, final32_eq, h1, h2]
  rw [tail32_eq]
  simp only [List.length_drop]; omega

/-- **C43.**  Changing the contents of one aligned 4-byte block, anywhere, changes the hash. -/
theorem C43_block_change (seed : BitVec 32) (p u v s : List Byte) (hp : p.length % 4 = 0) (hu : u.length = 4) (hv : v.length = 4)
    (hne : u ≠ v) : murmur32 seed (p ++ u ++ s) ≠ murmur32 seed (p ++ v ++ s) := by
  intro h
  have hlen : (p ++ u ++ s).length = (p ++ v ++ s).length := by simp [hu, hv]
  obtain ⟨g, _, hg⟩ := blocks32_append p [] seed hp
  simp only [murmur32, List.append_assoc, hg, final32_eq] at h
  simp only [List.append_assoc] at hlen
  rw [hlen] at h
  have h := Fnv.xor_inj (refFmix_inj h)
  obtain ⟨a, b, c, d, rfl⟩ : ∃ a b c d, u = [a, b, c, d] := four hu
  obtain ⟨a', b', c', d', rfl⟩ : ∃ a b c d, v = [a, b, c, d] := four hv
  simp only [List.cons_append, List.nil_append, blocks32_cons] at h
  -- the rest of the message is processed by injective steps
  have rest : ∀ (s : List Byte) (x y : BitVec 32), tail32 (blocks32 x s).1 (blocks32 x s).2 = tail32 (blocks32 y s).1 (blocks32 y s).2 → x = y := by
    intro s x y e
    rw [(blocks32_split s x).1, (blocks32_split s y).1, tail32_eq _ _ (by simp; omega), tail32_eq _ _ (by simp; omega)] at e
    have e : (blocks32 x s).1 = (blocks32 y s).1 := by
      split at e
      · exact e
      · exact Fnv.xor_inj e
    have bl : ∀ (n : Nat) (s : List Byte) (x y : BitVec 32), s.length ≤ n → (blocks32 x s).1 = (blocks32 y s).1 → x = y := by
      intro n
      induction n with
      | zero =>
        intro s x y hl e
        have : s = [] := List.length_eq_zero_iff.mp (by omega)
        subst this; simpa [blocks32] using e
      | succ n ih =>
        intro s x y hl e
        match s with
        | [] => simpa [blocks32] using e
        | [_] => simpa [blocks32] using e
        | [_, _] => simpa [blocks32] using e
        | [_, _, _] => simpa [blocks32] using e
        | _ :: _ :: _ :: _ :: s =>
          rw [blocks32_cons, blocks32_cons] at e
          exact block32_inj_hash (ih s _ _ (by simp at hl; omega) e)
    exact bl s.length s x y (Nat.le_refl _) e
  have hk := block32_inj_key (rest s _ _ h)
  exact hne (loadLE_inj _ _ rfl (by simp) hk)

/-- **C43.**  Changing bytes of the tail (the last one, two or three bytes after the whole blocks) changes the hash. -/
theorem C43_tail_change (seed : BitVec 32) (p u v : List Byte) (hp : p.length % 4 = 0) (hu : u.length < 4) (hv : v.length = u.length)
    (hne : u ≠ v) : murmur32 seed (p ++ u) ≠ murmur32 seed (p ++ v) := by
  intro h
  have hlen : (p ++ u).length = (p ++ v).length := by simp [hv]
  obtain ⟨g, _, hg⟩ := blocks32_append p [] seed hp
  simp only [murmur32, hg, final32_eq, hlen] at h
  have h := Fnv.xor_inj (refFmix_inj h)
  rw [blocks32_short g hu, blocks32_short g (t := v) (by omega)] at h
  simp only [] at h
  rw [tail32_eq g u hu, tail32_eq g v (by omega)] at h
  have hun : u ≠ [] := by
    rintro rfl
    exact hne (List.length_eq_zero_iff.mp hv).symm
  have hvn : v ≠ [] := by
    rintro rfl
    exact hne (List.length_eq_zero_iff.mp hv.symm)
  simp only [hun, hvn, if_false] at h
  exact hne (loadLE_inj u v hv.symm (by omega) (refScramble_inj (Fnv.xor_inj_left h)))

/-- Non-vacuity and a published test value: "test" with seed 0 hashes to 0xba6bd213. -/
example : murmur32 0 ([116, 101, 115, 116].map (BitVec.ofNat 8)) = 0xba6bd213#32 := by decide +kernel

/-- **C44 (partial).**  `zpl_murmur64_seed` reads only the message, and for every seed changing one aligned 8-byte block changes the
hash, provided it is not the first block of a message whose length is not a multiple of 8.  Missing from the full property:
that first block (its bytes also enter through the tail) and the tail bytes of messages of 8 bytes or more, which
`C44_tail_ignored` shows to be ignored. -/
theorem C44_block_change_partial (seed : BitVec 64) (p u v s : List Byte) (hp : p.length % 8 = 0) (hu : u.length = 8)
    (hv : v.length = 8) (hne : u ≠ v) (hnt : p ≠ [] ∨ s.length % 8 = 0) :
    ∃ x y, murmur64 seed (p ++ u ++ s) = .ok x ∧ murmur64 seed (p ++ v ++ s) = .ok y ∧ x ≠ y := by
  have hlen : (p ++ v ++ s).length = (p ++ u ++ s).length := by simp [hu, hv]
  obtain ⟨g, hg⟩ := blocks64_append p (seed ^^^ (BitVec.ofNat 64 (p ++ u ++ s).length * 0xc6a4a7935bd1e995#64)) hp
  have hc : ∀ (x : BitVec 64) (t : List Byte), (blocks64 x t).2 ≤ t.length := fun x t => by
    rw [blocks64_count]; exact Nat.mod_le _ _
  -- both messages give the same bytes to the tail switch
  have hn1 : (blocks64 g (u ++ s)).2 ≤ (p ++ u ++ s).length := by
    have := hc g (u ++ s); simp only [List.length_append] at this ⊢; omega
  have hnn : (blocks64 g (v ++ s)).2 = (blocks64 g (u ++ s)).2 := by
    rw [blocks64_count, blocks64_count]; simp [hu, hv]
  have htake : (p ++ v ++ s).take (blocks64 g (u ++ s)).2 = (p ++ u ++ s).take (blocks64 g (u ++ s)).2 := by
    have hle : (blocks64 g (u ++ s)).2 = s.length % 8 := by
      rw [blocks64_count]; simp only [List.length_append, hu]; omega
    rcases hnt with hpn | hs
    · have hp8 : 8 ≤ p.length := by
        have : p.length ≠ 0 := fun h => hpn (List.length_eq_zero_iff.mp h)
        omega
      rw [hle, List.append_assoc, List.append_assoc, List.take_append_of_le_length (by omega),
        List.take_append_of_le_length (by omega)]
    · rw [hle, hs]; simp
  obtain ⟨x, hx⟩ := tail64_ok (blocks64 g (u ++ s)).1 hn1
  have e1 : murmur64 seed (p ++ u ++ s) = .ok (final64 x) := by
    simp only [murmur64]
    rw [show blocks64 _ (p ++ u ++ s) = blocks64 g (u ++ s) by rw [List.append_assoc]; rw [List.append_assoc] at hg; exact hg _]
    simp only [hx, except_ok_bind]
  obtain ⟨y, hy⟩ := tail64_ok (blocks64 g (v ++ s)).1 hn1
  have e2 : murmur64 seed (p ++ v ++ s) = .ok (final64 y) := by
    simp only [murmur64, hlen]
    rw [show blocks64 _ (p ++ v ++ s) = blocks64 g (v ++ s) by rw [List.append_assoc (as := p) (bs := v)]; exact hg _]
    simp only [hnn]
    rw [tail64_congr _ hn1 htake, hy]
    simp
  refine ⟨_, _, e1, e2, fun h => ?_⟩
  have hxy := final64_inj h
  rw [← hxy] at hy
  have hb := tail64_inj hn1 hx hy
  obtain ⟨a, b, c, d, e, f, g1, i, rfl⟩ : ∃ a b c d e f g i, u = [a, b, c, d, e, f, g, i] := eight hu
  obtain ⟨a', b', c', d', e', f', g1', i', rfl⟩ : ∃ a b c d e f g i, v = [a, b, c, d, e, f, g, i] := eight hv
  simp only [List.cons_append, List.nil_append, blocks64_cons] at hb
  have hk := block64_inj_key (blocks64_inj s _ _ hb)
  exact hne (loadLE_inj _ _ rfl (by simp) hk)

/-- **C44 (partial).**  For messages shorter than 8 bytes every change of the bytes changes the hash. -/
theorem C44_short_message_partial (seed : BitVec 64) (u v : List Byte) (hu : u.length < 8) (hv : v.length = u.length) (hne : u ≠ v) :
    ∃ x y, murmur64 seed u = .ok x ∧ murmur64 seed v = .ok y ∧ x ≠ y := by
  have i1 : 0xc6a4a7935bd1e995#64 * 0x5f7a0ea7e59b19bd#64 = 1#64 := by decide
  have h0 : u.length ≠ 0 := by
    intro h
    have h1 : u = [] := List.length_eq_zero_iff.mp h
    have h2 : v = [] := List.length_eq_zero_iff.mp (by omega)
    exact hne (h1.trans h2.symm)
  have e : ∀ t : List Byte, t.length = u.length → murmur64 seed t = .ok (final64 (((seed ^^^ (BitVec.ofNat 64 u.length * 0xc6a4a7935bd1e995#64)) ^^^ loadLE 64 t) * 0xc6a4a7935bd1e995#64)) := by
    intro t ht
    have hb := blocks64_short (seed ^^^ (BitVec.ofNat 64 u.length * 0xc6a4a7935bd1e995#64)) (u := t) (by omega)
    have hg := go_loadLE t t.length (seed ^^^ (BitVec.ofNat 64 u.length * 0xc6a4a7935bd1e995#64)) (by omega) rfl
    have h0' : t.length ≠ 0 := by omega
    simp only [murmur64, ht, hb, tail64, h0, if_false]
    rw [ht] at hg
    rw [hg]
    simp
  refine ⟨_, _, e u rfl, e v hv, fun h => ?_⟩
  exact hne (loadLE_inj u v hv.symm (by omega) (Fnv.xor_inj_left (Fnv.mul_inj _ _ i1 (final64_inj h))))

/-- Deviation from C44: in every message of at least 8 bytes the bytes after the last whole block do not influence the hash
(hashing.c:393-399 index `data2`, which still points to the start). -/
theorem C44_tail_ignored (seed : BitVec 64) (p u v : List Byte) (hp : p.length % 8 = 0) (hp0 : p ≠ []) (hu : u.length < 8)
    (hv : v.length = u.length) : murmur64 seed (p ++ u) = murmur64 seed (p ++ v) := by
  have hlen : (p ++ v).length = (p ++ u).length := by simp [hv]
  obtain ⟨g, hg⟩ := blocks64_append p (seed ^^^ (BitVec.ofNat 64 (p ++ u).length * 0xc6a4a7935bd1e995#64)) hp
  have hp8 : 8 ≤ p.length := by
    have : p.length ≠ 0 := fun h => hp0 (List.length_eq_zero_iff.mp h)
    omega
  simp only [murmur64, hlen, hg, blocks64_short g hu, blocks64_short g (u := v) (by omega), hv]
  rw [tail64_congr g (d := p ++ u) (d' := p ++ v) (by simp) (by
    rw [List.take_append_of_le_length (by omega), List.take_append_of_le_length (by omega)])]

/-- Non-vacuity of the C44 theorems. -/
example : (∃ x y, murmur64 7 ([1, 2, 3, 4, 5, 6, 7, 8].map (BitVec.ofNat 8)) = .ok x ∧
    murmur64 7 ([1, 2, 3, 4, 5, 6, 7, 9].map (BitVec.ofNat 8)) = .ok y ∧ x ≠ y) ∧
    murmur64 7 ([1, 2, 3, 4, 5, 6, 7, 8, 9].map (BitVec.ofNat 8)) = murmur64 7 ([1, 2, 3, 4, 5, 6, 7, 8, 10].map (BitVec.ofNat 8)) :=
  ⟨C44_block_change_partial 7 [] ([1, 2, 3, 4, 5, 6, 7, 8].map (BitVec.ofNat 8)) ([1, 2, 3, 4, 5, 6, 7, 9].map (BitVec.ofNat 8)) [] rfl rfl rfl (by decide) (Or.inr rfl), by decide +kernel⟩

end Zpl.Murmur
