import Verif.Hash.Adler
import Mathlib.Data.Nat.Prime.Int
import Mathlib.Data.Int.ModEq
import Mathlib.Tactic.NormNum.Prime
import Mathlib.Tactic.Ring
import Mathlib.Tactic.LinearCombination

/-!
# What `zpl_adler32` notices

`zpl_adler32` (code/source/hashing.c:11-40) is modelled in `Verif.Hash.Adler`; here its result for two
byte strings is compared.  A user stores the sum next to the data and calls the function again later: the
question is which damage changes the sum.
-/

namespace Zpl.Adler

/-- Weighted form of the accumulators: the sum, and the sum of the bytes counted once per later position. -/
def wsum : List Byte → Nat
  | [] => 0
  | x :: bs => (bs.length + 1) * x.toNat + wsum bs

theorem nacc_wsum (bs : List Byte) (a b : Nat) :
    bs.foldl nacc (a, b) = (a + (bs.map BitVec.toNat).sum, b + bs.length * a + wsum bs) := by
  induction bs generalizing a b with
  | nil => simp [wsum]
  | cons x bs ih =>
    simp only [List.foldl_cons, nacc, ih, List.map_cons, List.sum_cons, List.length_cons, wsum]
    refine Prod.ext (by simp only; omega) ?_
    simp only
    ring

theorem sumB_wsum (bs : List Byte) : sumB bs = bs.length + wsum bs := by
  have h := nacc_spec bs
  rw [nacc_wsum] at h
  have := congrArg Prod.snd h
  simp only at this
  omega

theorem wsum_append (p s : List Byte) : wsum (p ++ s) = wsum p + s.length * (p.map BitVec.toNat).sum + wsum s := by
  induction p with
  | nil => simp [wsum]
  | cons x p ih =>
    simp only [List.cons_append, wsum, ih, List.length_append, List.map_cons, List.sum_cons]
    ring

theorem same_iff (d e : List Byte) :
    adler32 d = adler32 e ↔ sumA d % 65521 = sumA e % 65521 ∧ sumB d % 65521 = sumB e % 65521 := by
  obtain ⟨r, h1, h2⟩ := C40_adler32 d
  obtain ⟨q, h3, h4⟩ := C40_adler32 e
  constructor
  · intro h
    rw [h1, h3] at h
    have : r = q := by injection h
    rw [this, h4] at h2
    have a1 := Nat.mod_lt (sumA d) (show 0 < 65521 by omega)
    have a2 := Nat.mod_lt (sumA e) (show 0 < 65521 by omega)
    omega
  · rintro ⟨ha, hb⟩
    rw [h1, h3]
    congr 1
    apply BitVec.eq_of_toNat_eq
    rw [h2, h4, ha, hb]

theorem sumA_append (p s : List Byte) : sumA (p ++ s) = sumA p + (s.map BitVec.toNat).sum := by
  simp [sumA]; omega

/-- **C167.**  A single changed byte, wherever it stands in a string of any length, always changes the sum. -/
theorem C167_one_byte (p s : List Byte) (a b : Byte) (h : a ≠ b) :
    adler32 (p ++ a :: s) ≠ adler32 (p ++ b :: s) := by
  intro hh
  have h1 := ((same_iff _ _).1 hh).1
  simp only [sumA_append, List.map_cons, List.sum_cons] at h1
  have ha := a.isLt
  have hb := b.isLt
  have : a.toNat = b.toNat := by omega
  exact h (BitVec.eq_of_toNat_eq this)

/-- **C167.**  Exchanging two different bytes that stand fewer than 65521 places apart always changes the
sum, so text with two letters swapped is noticed although the plain sum of the bytes is the same. -/
theorem C167_swap (p m s : List Byte) (a b : Byte) (h : a ≠ b) (hm : m.length + 1 < 65521) :
    adler32 (p ++ a :: m ++ b :: s) ≠ adler32 (p ++ b :: m ++ a :: s) := by
  intro hh
  have h1 := ((same_iff _ _).1 hh).2
  simp only [sumB_wsum, wsum_append, wsum, List.map_append, List.map_cons, List.sum_cons, List.sum_append,
    List.length_append, List.length_cons] at h1
  have ha := a.isLt
  have hb := b.isLt
  have hd : (65521 : ℤ) ∣ ((m.length : ℤ) + 1) * ((b.toNat : ℤ) - a.toNat) := by
    have h2 := (Nat.modEq_iff_dvd (n := 65521)).1 h1
    refine h2.trans (dvd_of_eq ?_)
    push_cast
    ring
  have hp : Prime (65521 : ℤ) := by
    have : Nat.Prime 65521 := by norm_num
    exact_mod_cast Nat.prime_iff_prime_int.1 this
  rcases hp.dvd_or_dvd hd with h2 | h2
  · have := Int.le_of_dvd (by omega) h2
    omega
  · have h3 : (b.toNat : ℤ) - a.toNat = 0 := Int.eq_zero_of_abs_lt_dvd h2 (by rw [abs_lt]; constructor <;> omega)
    exact h (BitVec.eq_of_toNat_eq (by omega))

/-- **C167.**  Not every damage is noticed: three neighbouring bytes changed by `+1`, `-2`, `+1` give the
same sum, in every string where this is possible. -/
theorem C167_unnoticed (p s : List Byte) (a b c : Byte) (ha : a.toNat < 255) (hb : 2 ≤ b.toNat) (hc : c.toNat < 255) :
    p ++ (a + 1#8) :: (b - 2#8) :: (c + 1#8) :: s ≠ p ++ a :: b :: c :: s ∧
    adler32 (p ++ (a + 1#8) :: (b - 2#8) :: (c + 1#8) :: s) = adler32 (p ++ a :: b :: c :: s) := by
  have e1 : (a + 1#8).toNat = a.toNat + 1 := by rw [BitVec.toNat_add]; simp; omega
  have e2 : (b - 2#8).toNat = b.toNat - 2 := by
    have := b.isLt
    rw [BitVec.toNat_sub]; simp; omega
  have e3 : (c + 1#8).toNat = c.toNat + 1 := by rw [BitVec.toNat_add]; simp; omega
  constructor
  · intro h
    have h1 := List.append_cancel_left h
    injection h1 with h2 _
    rw [h2] at e1
    omega
  · obtain ⟨k, hk⟩ : ∃ k, b.toNat = k + 2 := ⟨b.toNat - 2, by omega⟩
    refine (same_iff _ _).2 ⟨?_, ?_⟩
    · simp only [sumA_append, List.map_cons, List.sum_cons, e1, e2, e3]
      congr 1
      omega
    · simp only [sumB_wsum, wsum_append, wsum, List.length_append, List.length_cons, e1, e2, e3, hk]
      congr 1
      rw [Nat.add_sub_cancel]
      ring

theorem sumB_append (p s : List Byte) : sumB (p ++ s) = sumB p + (s.length * sumA p + wsum s) := by
  simp only [sumB_wsum, wsum_append, sumA, List.length_append]
  ring

/-- **C167.**  What follows neither hides nor creates a difference: two strings, of whatever lengths, have
the same sum exactly when they have the same sum with the same bytes appended. -/
theorem C167_same_rest (d e s : List Byte) :
    adler32 (d ++ s) = adler32 (e ++ s) ↔ adler32 d = adler32 e := by
  rw [same_iff, same_iff]
  simp only [sumA_append, sumB_append]
  constructor
  · rintro ⟨h1, h2⟩
    have h3 : sumA d ≡ sumA e [MOD 65521] := Nat.ModEq.add_right_cancel' _ h1
    refine ⟨h3, ?_⟩
    have h4 : s.length * sumA d + wsum s ≡ s.length * sumA e + wsum s [MOD 65521] :=
      (h3.mul_left _).add_right _
    exact Nat.ModEq.add_right_cancel h4 h2
  · rintro ⟨h1, h2⟩
    have h3 : sumA d ≡ sumA e [MOD 65521] := h1
    have h4 : s.length * sumA d + wsum s ≡ s.length * sumA e + wsum s [MOD 65521] :=
      (h3.mul_left _).add_right _
    exact ⟨h3.add_right _, Nat.ModEq.add (show sumB d ≡ sumB e [MOD 65521] from h2) h4⟩

/-- "form" and "from" have different sums; a changed letter is noticed. -/
example : adler32 ([102, 111, 114, 109].map (BitVec.ofNat 8)) ≠ adler32 ([102, 114, 111, 109].map (BitVec.ofNat 8)) :=
  C167_swap [102#8] [] [109#8] 111#8 114#8 (by decide) (by simp)

example : adler32 ([97, 98, 99].map (BitVec.ofNat 8)) = adler32 ([98, 96, 100].map (BitVec.ofNat 8)) :=
  ((C167_unnoticed [] [] 97#8 98#8 99#8 (by decide) (by decide) (by decide)).2).symm

end Zpl.Adler
