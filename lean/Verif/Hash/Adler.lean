import Verif.Basic

/-!
# `zpl_adler32` (code/source/hashing.c:11-40)  -  C40

## Model

The byte pointer is the list of the bytes that follow it; reading past its end is a fault. -/

namespace Zpl.Adler

abbrev Byte := BitVec 8

/-- `a += *bytes, b += a` (hashing.c:21-28, 32) on 32-bit registers. -/
def acc (s : BitVec 32 × BitVec 32) (x : Byte) : BitVec 32 × BitVec 32 :=
  let a := s.1 + x.setWidth 32
  (a, s.2 + a)

/-- hashing.c:32, the byte-by-byte loop over `n` bytes. -/
def tailLoop : Nat → List Byte → BitVec 32 × BitVec 32 → Except Fault (List Byte × (BitVec 32 × BitVec 32))
  | 0, bs, s => .ok (bs, s)
  | n + 1, x :: bs, s => tailLoop n bs (acc s x)
  | _ + 1, [], _ => .error .oob

/-- hashing.c:20-32: the loop unrolled by eight, then the rest; `n` is `block_len - i`. -/
def block (n : Nat) (bs : List Byte) (s : BitVec 32 × BitVec 32) : Except Fault (List Byte × (BitVec 32 × BitVec 32)) :=
  if 8 ≤ n then
    match bs with
    | x0 :: x1 :: x2 :: x3 :: x4 :: x5 :: x6 :: x7 :: bs =>
      block (n - 8) bs (acc (acc (acc (acc (acc (acc (acc (acc s x0) x1) x2) x3) x4) x5) x6) x7)
    | _ => .error .oob
  else tailLoop n bs s
termination_by n

/-- hashing.c:34 -/
def reduce (s : BitVec 32 × BitVec 32) : BitVec 32 × BitVec 32 := (s.1 % 65521#32, s.2 % 65521#32)

/-- hashing.c:19-37, the outer loop; `len` and `blockLen` are the C variables, `fuel` bounds the iterations. -/
def outer : Nat → Nat → Nat → List Byte → BitVec 32 × BitVec 32 → Except Fault (BitVec 32 × BitVec 32)
  | 0, _, _, _, _ => .error .diverge
  | fuel + 1, len, blockLen, bs, s =>
    if len = 0 then .ok s
    else if len < blockLen then .error .arith   -- `len` would become negative and the loop would not end
    else do
      let (bs, s) ← block blockLen bs s
      outer fuel (len - blockLen) 5552 bs (reduce s)

/-- hashing.c:11-40 `zpl_adler32`. -/
def adler32 (data : List Byte) : Except Fault (BitVec 32) := do
  let (a, b) ← outer (data.length + 2) data.length (data.length % 5552) data (1#32, 0#32)
  .ok ((b <<< 16) ||| a)

/-! ## Specification (RFC 1950): plain sums of natural numbers -/

/-- One plus the sum of the bytes. -/
def sumA (data : List Byte) : Nat := 1 + (data.map BitVec.toNat).sum

/-- The sum over all non-empty prefixes of `sumA`. -/
def sumB (data : List Byte) : Nat := ((List.range data.length).map (fun i => sumA (data.take (i + 1)))).sum

/-! ## Lemmas -/

/-- The unbounded accumulators. -/
def nacc (s : Nat × Nat) (x : Byte) : Nat × Nat := (s.1 + x.toNat, s.2 + (s.1 + x.toNat))

theorem nacc_foldl (bs : List Byte) (a b : Nat) :
    bs.foldl nacc (a, b) = (a + (bs.map BitVec.toNat).sum, b + ((List.range bs.length).map (fun i => a + ((bs.take (i + 1)).map BitVec.toNat).sum)).sum) := by
  induction bs generalizing a b with
  | nil => simp
  | cons x bs ih =>
    simp only [List.foldl_cons, nacc, ih, List.map_cons, List.sum_cons, List.length_cons, List.range_succ_eq_map, List.map_map]
    refine Prod.ext (by simp; omega) ?_
    have : ((List.range bs.length).map (fun i => a + x.toNat + ((bs.take (i + 1)).map BitVec.toNat).sum))
        = (List.range bs.length).map ((fun i => a + (((x :: bs).take (i + 1)).map BitVec.toNat).sum) ∘ Nat.succ) := by
      apply List.map_congr_left
      intro i _
      simp [Nat.add_assoc]
    rw [← this]
    simp only [Nat.zero_add, List.take_succ_cons, List.take_zero, List.map_cons, List.map_nil, List.sum_cons, List.sum_nil]
    omega

theorem nacc_spec (bs : List Byte) : bs.foldl nacc (1, 0) = (sumA bs, sumB bs) := by
  rw [nacc_foldl]; simp [sumA, sumB]

/-- Bounds that hold for the unbounded accumulators. -/
theorem nacc_bound (bs : List Byte) (a b : Nat) :
    (bs.foldl nacc (a, b)).1 ≤ a + 255 * bs.length ∧
    (bs.foldl nacc (a, b)).2 ≤ b + bs.length * (a + 255 * bs.length) := by
  induction bs generalizing a b with
  | nil => simp
  | cons x bs ih =>
    have hx : x.toNat ≤ 255 := by have := x.isLt; omega
    obtain ⟨h1, h2⟩ := ih (a + x.toNat) (b + (a + x.toNat))
    simp only [List.foldl_cons, nacc, List.length_cons]
    generalize bs.length = n at *
    have e1 : n * (a + x.toNat + 255 * n) ≤ n * (a + 255 * (n + 1)) := Nat.mul_le_mul_left _ (by omega)
    have e2 : (n + 1) * (a + 255 * (n + 1)) = n * (a + 255 * (n + 1)) + (a + 255 * (n + 1)) := by
      rw [Nat.add_mul, Nat.one_mul]
    omega

/-- The sharper quadratic bound needed for 5552 bytes. -/
theorem nacc_bound2 (bs : List Byte) (a b : Nat) :
    2 * (bs.foldl nacc (a, b)).2 ≤ 2 * b + 2 * (bs.length * a) + 255 * (bs.length * (bs.length + 1)) := by
  induction bs generalizing a b with
  | nil => simp
  | cons x bs ih =>
    have hx : x.toNat ≤ 255 := by have := x.isLt; omega
    have h2 := ih (a + x.toNat) (b + (a + x.toNat))
    simp only [List.foldl_cons, nacc, List.length_cons]
    generalize bs.length = n at *
    have e1 : n * (a + x.toNat) ≤ n * a + n * 255 := by rw [← Nat.mul_add]; exact Nat.mul_le_mul_left _ (by omega)
    have e2 : (n + 1) * a = n * a + a := by rw [Nat.add_mul, Nat.one_mul]
    have e3 : (n + 1) * (n + 1 + 1) = n * (n + 1) + (2 * n + 2) := by
      rw [Nat.add_mul, Nat.one_mul, Nat.mul_add n (n + 1) 1]; omega
    omega

/-- A register pair holds the given pair of numbers. -/
def Holds (s : BitVec 32 × BitVec 32) (n : Nat × Nat) : Prop := s.1.toNat = n.1 ∧ s.2.toNat = n.2

theorem holds_foldl (bs : List Byte) (s : BitVec 32 × BitVec 32) (n : Nat × Nat) (h : Holds s n)
    (hb1 : (bs.foldl nacc n).1 < 2 ^ 32) (hb2 : (bs.foldl nacc n).2 < 2 ^ 32) : Holds (bs.foldl acc s) (bs.foldl nacc n) := by
  induction bs generalizing s n with
  | nil => exact h
  | cons x bs ih =>
    obtain ⟨h1, h2⟩ := h
    have mono : ∀ (bs : List Byte) (m : Nat × Nat), m.1 ≤ (bs.foldl nacc m).1 ∧ m.2 ≤ (bs.foldl nacc m).2 := by
      intro bs
      induction bs with
      | nil => intro m; exact ⟨Nat.le_refl _, Nat.le_refl _⟩
      | cons y bs ih =>
        intro m
        have := ih (nacc m y)
        simp only [List.foldl_cons]
        simp only [nacc] at this ⊢
        omega
    have hm := mono bs (nacc n x)
    simp only [List.foldl_cons] at hb1 hb2 ⊢
    have hx : x.toNat < 2 ^ 32 := by have := x.isLt; omega
    apply ih _ _ _ hb1 hb2
    have e1 : (nacc n x).1 = n.1 + x.toNat := rfl
    have e2 : (nacc n x).2 = n.2 + (n.1 + x.toNat) := rfl
    constructor
    · simp only [acc, nacc, BitVec.toNat_add, BitVec.toNat_setWidth, h1]
      rw [Nat.mod_eq_of_lt (a := x.toNat) hx, Nat.mod_eq_of_lt (by omega)]
    · simp only [acc, nacc, BitVec.toNat_add, BitVec.toNat_setWidth, h1, h2]
      rw [Nat.mod_eq_of_lt (a := x.toNat) hx, Nat.mod_eq_of_lt (a := n.1 + x.toNat) (by omega), Nat.mod_eq_of_lt (by omega)]

theorem tailLoop_eq : ∀ (n : Nat) (bs : List Byte) (s), n ≤ bs.length → tailLoop n bs s = .ok (bs.drop n, (bs.take n).foldl acc s)
  | 0, bs, s, _ => by simp [tailLoop]
  | n + 1, [], s, h => by simp at h
  | n + 1, x :: bs, s, h => by simp [tailLoop, tailLoop_eq n bs _ (by simpa using h)]

theorem block_eq (n : Nat) (bs : List Byte) (s) (h : n ≤ bs.length) : block n bs s = .ok (bs.drop n, (bs.take n).foldl acc s) := by
  induction n using Nat.strongRecOn generalizing bs s with
  | ind n ih =>
    unfold block
    by_cases h8 : 8 ≤ n
    · rw [if_pos h8]
      match bs, h with
      | x0 :: x1 :: x2 :: x3 :: x4 :: x5 :: x6 :: x7 :: bs, h =>
        have hn : n = (n - 8) + 8 := by omega
        simp only [List.length_cons] at h
        simp only [ih (n - 8) (by omega) bs _ (by omega)]
        conv => rhs; rw [hn]
        simp
      | [], h => simp at h; omega
      | [_], h => simp at h; omega
      | [_, _], h => simp at h; omega
      | [_, _, _], h => simp at h; omega
      | [_, _, _, _], h => simp at h; omega
      | [_, _, _, _, _], h => simp at h; omega
      | [_, _, _, _, _, _], h => simp at h; omega
      | [_, _, _, _, _, _, _], h => simp at h; omega
    · rw [if_neg h8]; exact tailLoop_eq n bs s h

/-- The residues modulo 65521 of the accumulators depend only on the residues before. -/
theorem nacc_mod (bs : List Byte) (a b a' b' : Nat) (ha : a % 65521 = a' % 65521) (hb : b % 65521 = b' % 65521) :
    (bs.foldl nacc (a, b)).1 % 65521 = (bs.foldl nacc (a', b')).1 % 65521 ∧
    (bs.foldl nacc (a, b)).2 % 65521 = (bs.foldl nacc (a', b')).2 % 65521 := by
  induction bs generalizing a b a' b' with
  | nil => exact ⟨ha, hb⟩
  | cons x bs ih => exact ih _ _ _ _ (by omega) (by omega)

theorem outer_eq : ∀ (fuel : Nat) (done bs : List Byte) (bl : Nat) (s : BitVec 32 × BitVec 32), bl ≤ bs.length → bl ≤ 5552 →
    (bs.length - bl) % 5552 = 0 → bs.length + 1 < fuel + (if bl = 0 then 0 else 1) →
    s.1.toNat = sumA done % 65521 → s.2.toNat = sumB done % 65521 →
    ∃ t, outer fuel bs.length bl bs s = .ok t ∧ t.1.toNat = sumA (done ++ bs) % 65521 ∧ t.2.toNat = sumB (done ++ bs) % 65521
  | 0, _, bs, bl, _, h1, h2, h3, h4, _, _ => by split at h4 <;> omega
  | fuel + 1, done, bs, bl, s, h1, h2, h3, h4, ha, hb => by
    unfold outer
    by_cases h0 : bs.length = 0
    · have : bs = [] := List.length_eq_zero_iff.mp h0
      subst this
      exact ⟨s, by simp, by simpa using ha, by simpa using hb⟩
    · rw [if_neg h0, if_neg (by omega)]
      simp only [block_eq bl bs s h1, except_ok_bind]
      -- the block, without overflow
      have hspec := nacc_spec done
      have hbnd1 := (nacc_bound (bs.take bl) s.1.toNat s.2.toNat).1
      have hbnd2 := nacc_bound2 (bs.take bl) s.1.toNat s.2.toNat
      have hlen : (bs.take bl).length = bl := by simp; omega
      rw [hlen] at hbnd1 hbnd2
      have hs1 : s.1.toNat ≤ 65520 := by rw [ha]; omega
      have hs2 : s.2.toNat ≤ 65520 := by rw [hb]; omega
      have hm1 : bl * s.1.toNat ≤ 5552 * 65520 := Nat.mul_le_mul h2 hs1
      have hm2 : bl * (bl + 1) ≤ 5552 * 5553 := Nat.mul_le_mul h2 (by omega)
      have hh := holds_foldl (bs.take bl) s (s.1.toNat, s.2.toNat) ⟨rfl, rfl⟩ (by omega) (by omega)
      generalize hs' : (bs.take bl).foldl acc s = s' at hh ⊢
      have hmod := nacc_mod (bs.take bl) s.1.toNat s.2.toNat (sumA done) (sumB done) (by rw [ha]; omega) (by rw [hb]; omega)
      rw [← hspec, ← List.foldl_append, nacc_spec] at hmod
      have hr1 : (reduce s').1.toNat = sumA (done ++ bs.take bl) % 65521 := by
        simp only [reduce, BitVec.toNat_umod, hh.1]; exact hmod.1
      have hr2 : (reduce s').2.toNat = sumB (done ++ bs.take bl) % 65521 := by
        simp only [reduce, BitVec.toNat_umod, hh.2]; exact hmod.2
      have hdl : (bs.drop bl).length = bs.length - bl := by simp
      have key : 5552 ≤ (bs.drop bl).length ∨ (bs.drop bl).length = 0 := by rw [hdl]; omega
      rcases key with hk | hk
      · obtain ⟨t, t1, t2, t3⟩ := outer_eq fuel (done ++ bs.take bl) (bs.drop bl) 5552 (reduce s') hk (by omega)
          (by rw [hdl]; omega) (by rw [hdl] at hk ⊢; simp only [show ¬ (5552 = 0) by omega, if_false]; split at h4 <;> omega) hr1 hr2
        refine ⟨t, by rw [← hdl]; exact t1, ?_, ?_⟩
        · rw [t2]; simp
        · rw [t3]; simp
      · have hnil : bs.drop bl = [] := List.length_eq_zero_iff.mp hk
        have hfull : bs.take bl = bs := by
          have := List.take_append_drop bl bs
          rw [hnil, List.append_nil] at this; exact this
        rw [hdl] at hk
        refine ⟨reduce s', ?_, by rw [hr1, hfull], by rw [hr2, hfull]⟩
        rw [hk, hnil]
        cases fuel with
        | zero => split at h4 <;> omega
        | succ f => simp [outer]

theorem or_shift (a b : BitVec 32) (ha : a.toNat < 65536) (hb : b.toNat < 65536) :
    ((b <<< 16) ||| a).toNat = a.toNat + 65536 * b.toNat := by
  have hsl : (b <<< 16).toNat = b.toNat * 2 ^ 16 := by
    rw [BitVec.toNat_shiftLeft, Nat.shiftLeft_eq, Nat.mod_eq_of_lt (by omega)]
  rw [BitVec.toNat_or, hsl]
  have := Nat.two_pow_add_eq_or_of_lt (i := 16) (b := a.toNat) (by omega) b.toNat
  rw [Nat.mul_comm b.toNat, ← this]; omega

/-! ## Property -/

/-- **C40.**  For every byte string `zpl_adler32` reads only the string, terminates, and returns
`(1 + sum of bytes) mod 65521 + 65536 * ((sum of all prefix values) mod 65521)`: no 32-bit sum overflows. -/
theorem C40_adler32 (data : List Byte) :
    ∃ r, adler32 data = .ok r ∧ r.toNat = sumA data % 65521 + 65536 * (sumB data % 65521) := by
  have hm : data.length % 5552 ≤ data.length := Nat.mod_le _ _
  obtain ⟨t, t1, t2, t3⟩ := outer_eq (data.length + 2) [] data (data.length % 5552) (1#32, 0#32) hm (by omega)
    (by omega) (by split <;> omega) rfl rfl
  refine ⟨(t.2 <<< 16) ||| t.1, by simp [adler32, t1], ?_⟩
  rw [or_shift _ _ (by omega) (by omega), t2, t3]
  simp

/-- A concrete value (RFC 1950 example "Wikipedia"). -/
example : adler32 ([87, 105, 107, 105, 112, 101, 100, 105, 97].map (BitVec.ofNat 8)) = .ok 0x11E60398#32 := by decide +kernel

end Zpl.Adler
