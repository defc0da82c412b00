import Verif.Mem.Words

/-!
# Scratch allocator — source/essentials/memory_custom.c:304-391, header/essentials/memory_custom.h:417-428
-/
namespace Zpl.Scratch
open Mem
open Arena (SameDom sameDom_filled alignPtr zeroSize)

/-! ## Model -/

/-- `ZPL_ISIZE_HIGH_BIT` on a 64-bit target — header/essentials/memory_custom.h:202-206. -/
@[irreducible] def highBit : Nat := 2 ^ 63

/-- `zpl_scratch_memory` — header/essentials/memory_custom.h. -/
structure Scratch where
  start : Nat
  total : Nat
  allocPoint : Nat
  freePoint : Nat
  deriving DecidableEq, Repr

/-- `zpl_scratch_memory_init` — source/essentials/memory_custom.c:304-309. -/
def init (start total : Nat) : Scratch := ⟨start, total, start, start⟩

/-- `zpl_scratch_memory_is_in_use` — source/essentials/memory_custom.c:311-315. -/
def isInUse (s : Scratch) (p : Nat) : Bool :=
  if s.freePoint = s.allocPoint then false
  else if s.allocPoint > s.freePoint then decide (s.freePoint ≤ p ∧ p < s.allocPoint)
  else decide (s.freePoint ≤ p ∨ p < s.allocPoint)

/-- The loop of `zpl_allocation_header_fill` — header/essentials/memory_custom.h:427: words of all ones from `p` up to `data`. -/
def fillLoop (m : Memory) (p data : Nat) : Except Fault Memory :=
  if p < data then do
    let m ← st64w m p (2 ^ 64 - 1)
    fillLoop m (p + 8) data
  else .ok m
termination_by data - p

/-- `zpl_allocation_header_fill` — header/essentials/memory_custom.h:423-428. -/
def headerFill (m : Memory) (header data size : Nat) : Except Fault Memory := do
  let m ← st64w m header size
  fillLoop m (header + 8) data

/-- `zpl_zero_size` on a possibly NULL pointer: `zpl_memset` returns at once for NULL — header/essentials/memory.h:189-193. -/
def zeroMaybe (m : Memory) (p : Option Nat) (size : Nat) : Except Fault Memory :=
  match p with
  | none => .ok m
  | some p => zeroSize m p size

/-- Lines 349-355 of the allocation: grant the block if the new allocation point is not in use, then clear it. -/
def finish (s : Scratch) (m : Memory) (header data pt size : Nat) : Except Fault (Option Nat × Scratch × Memory) :=
  if isInUse s pt then do
    let m ← zeroMaybe m none size
    .ok (none, s, m)
  else do
    let m ← headerFill m header pt (pt - header)
    let m ← zeroMaybe m (some data) size
    .ok (some data, { s with allocPoint := pt }, m)

/-- `ZPL_ALLOCATION_ALLOC` — source/essentials/memory_custom.c:330-356. -/
def alloc (s : Scratch) (m : Memory) (size a : Nat) : Except Fault (Option Nat × Scratch × Memory) := do
  let header := s.allocPoint
  let data ← alignPtr (header + 8) a
  let en := s.start + s.total
  if a % 4 ≠ 0 then .error .assertion
  else do
    let size := (size + 3) / 4 * 4
    let pt := s.allocPoint + size
    if en < pt then do
      let m ← st64w m header ((en - header) + highBit)
      let data ← alignPtr (s.start + 8) a
      finish s m s.start data (s.start + size) size
    else finish s m header data pt size

/-- The loop of `zpl_allocation_header` — header/essentials/memory_custom.h:417-421: back over words of all ones. -/
def headerOf (m : Memory) (p : Nat) : Except Fault Nat :=
  if p < 8 then .error .oob
  else do
    let v ← ld64 m (p - 8)
    if v = 2 ^ 64 - 1 then headerOf m (p - 8) else .ok (p - 8)
termination_by p

/-- The loop of `ZPL_ALLOCATION_FREE` — source/essentials/memory_custom.c:370-376: `hsize` is the size stored in the freed block's
header.  Out of fuel is divergence. -/
def freeLoop (s : Scratch) (m : Memory) (hsize : Nat) : Nat → Except Fault Scratch
  | 0 => .error .diverge
  | fuel + 1 =>
    if s.freePoint = s.allocPoint then .ok s
    else do
      let v ← ld64 m s.freePoint
      if v < highBit then .ok s
      else
        let fp := s.freePoint + (hsize % highBit)
        freeLoop { s with freePoint := if fp = s.start + s.total then s.start else fp } m hsize fuel

/-- `ZPL_ALLOCATION_FREE` — source/essentials/memory_custom.c:358-379. -/
def free (s : Scratch) (m : Memory) (p fuel : Nat) : Except Fault (Scratch × Memory) :=
  if p = 0 then .ok (s, m)
  else if p < s.start ∨ s.start + s.total ≤ p then .error .assertion
  else do
    let h ← headerOf m p
    let v ← ld64 m h
    if highBit ≤ v then .error .assertion
    else do
      let m ← st64w m h (v + highBit)
      let s ← freeLoop s m (v + highBit) fuel
      .ok (s, m)

/-- `ZPL_ALLOCATION_FREE_ALL` — source/essentials/memory_custom.c:382-385. -/
def freeAll (s : Scratch) : Scratch := { s with allocPoint := s.start, freePoint := s.start }

/-! ## Lemmas -/

theorem fillLoop_ok (m : Memory) (p data : Nat) (h : ∃ k, p + 8 * k = data ∧ Mapped m p (8 * k)) :
    ∃ m', fillLoop m p data = .ok m' ∧ SameDom m' m ∧ ∀ x, x < p → m' x = m x := by
  obtain ⟨k, hk, hm⟩ := h
  induction k generalizing m p with
  | zero =>
    unfold fillLoop
    rw [if_neg (by omega)]
    exact ⟨m, rfl, fun _ => rfl, fun _ _ => rfl⟩
  | succ k ih =>
    have hm8 : Mapped m p 8 := hm.mono (by omega) (by omega)
    unfold fillLoop
    rw [if_pos (by omega), st64w_ok hm8, except_ok_bind]
    have sd := sameDom_put (v := 2 ^ 64 - 1) hm8
    obtain ⟨m', h1, h2, h3⟩ := ih (put m p (2 ^ 64 - 1)) (p + 8) (by omega) ((sd.mapped _ _).mpr (hm.mono (by omega) (by omega)))
    exact ⟨m', h1, h2.trans sd, fun x hx => by rw [h3 x (by omega)]; exact put_outside (by omega)⟩

/-! ## Properties -/

/-- **C20 (partial).**  The first block of a scratch allocator (fresh, or after `free_all`), for sizes that are a positive multiple
of 8 and a region in which header, padding and block fit, is aligned and lies inside the memory.  Missing: every later block
(`C20_blocks_overlap`) and requests that only just fit (`C20_out_of_bounds`). -/
theorem C20_first_block_partial (s : Scratch) (m : Memory) (k j data : Nat) (hfree : s.freePoint = s.start ∧ s.allocPoint = s.start)
    (hm : Mapped m s.start s.total) (hj : 2 ≤ j) (hk : 0 < k) (hd : alignPtr (s.start + 8) (2 ^ j) = .ok data)
    (hfit : data + 8 * k ≤ s.start + s.total) :
    ∃ s' m', alloc s m (8 * k) (2 ^ j) = .ok (some data, s', m') ∧ 2 ^ j ∣ data ∧ s.start ≤ data ∧ data + 8 * k ≤ s.start + s.total ∧
      s' = { s with allocPoint := s.start + 8 * k } ∧ (∀ i, i < 8 * k → m' (data + i) = some 0) ∧
      (8 * k < 2 ^ 64 → Holds m' s.start (8 * k)) ∧ Mapped m' s.start s.total := by
  have hspec : 2 ^ j ∣ data ∧ s.start + 8 ≤ data := by
    unfold alignPtr at hd
    rw [if_pos ⟨j, rfl⟩] at hd
    injection hd with hd
    obtain ⟨u1, u2, _⟩ := Align.round_up (s.start + 8) (2 ^ j) (Nat.two_pow_pos j)
    exact ⟨by rw [← hd]; exact u1, by omega⟩
  have h4 : 2 ^ j % 4 = 0 := Nat.mod_eq_zero_of_dvd (Nat.pow_dvd_pow 2 hj)
  have hsz : (8 * k + 3) / 4 * 4 = 8 * k := by omega
  have hu : isInUse s (s.start + 8 * k) = false := by unfold isInUse; rw [if_pos (by omega)]
  have hm8 : Mapped m s.start 8 := hm.mono (by omega) (by omega)
  have sd := sameDom_put (v := s.start + 8 * k - s.start) hm8
  obtain ⟨m', f1, f2, f3⟩ := fillLoop_ok (put m s.start (s.start + 8 * k - s.start)) (s.start + 8) (s.start + 8 * k)
    ⟨k - 1, by omega, (sd.mapped _ _).mpr (hm.mono (by omega) (by omega))⟩
  have hmd : Mapped m' data (8 * k) := ((f2.trans sd).mapped _ _).mpr (hm.mono (by omega) (by omega))
  refine ⟨{ s with allocPoint := s.start + 8 * k }, filled m' data (8 * k) 0, ?_, hspec.1, by omega, hfit, rfl, ?_, ?_, ?_⟩
  rotate_left
  · intro i hi; unfold filled; rw [if_pos (by omega)]
  · intro hlt
    have := holds_put m (a := s.start) (v := s.start + 8 * k - s.start) (by omega)
    rw [show s.start + 8 * k - s.start = 8 * k by omega] at this f3
    refine this.frame ?_
    intro x hx1 hx2
    rw [filled_outside (by omega), f3 x (by omega)]
  · exact (((sameDom_filled hmd).trans (f2.trans sd)).mapped _ _).mpr hm
  unfold alloc
  simp only [hfree.2, hd, except_ok_bind, h4, ne_eq, not_true_eq_false, ite_false, hsz]
  rw [if_neg (by omega)]
  unfold finish headerFill zeroMaybe zeroSize
  simp only [hu, Bool.false_eq_true, ite_false, st64w_ok hm8, except_ok_bind, f1, if_pos hmd]

/-- **C20 is false of the code**: the allocation point advances by the size only, without the header and the padding.  In every
scratch memory at a 16-byte boundary, two allocations of 4 bytes with the default alignment return the same address. -/
theorem C20_blocks_overlap (start total : Nat) (m : Memory) (hs : 16 ∣ start) (ht : 32 ≤ total) (hm : Mapped m start total) :
    ∃ s1 m1 s2 m2, alloc (init start total) m 4 16 = .ok (some (start + 16), s1, m1) ∧ alloc s1 m1 4 16 = .ok (some (start + 16), s2, m2) := by
  have p16 : Nat.isPowerOfTwo 16 := ⟨4, rfl⟩
  have e1 : alignPtr (start + 8) 16 = .ok (start + 16) := by unfold alignPtr; rw [if_pos p16]; exact congrArg _ (by omega)
  have e2 : alignPtr (start + 4 + 8) 16 = .ok (start + 16) := by unfold alignPtr; rw [if_pos p16]; exact congrArg _ (by omega)
  have fl : ∀ (m : Memory) (p q : Nat), q ≤ p → fillLoop m p q = .ok m := by
    intro m p q h; unfold fillLoop; rw [if_neg (by omega)]
  have a1 : Mapped m start 8 := hm.mono (by omega) (by omega)
  have d1 := sameDom_put (v := 4) a1
  have a2 : Mapped (put m start 4) (start + 16) 4 := (d1.mapped _ _).mpr (hm.mono (by omega) (by omega))
  have d2 := (sameDom_filled (c := 0) a2).trans d1
  have a3 : Mapped (filled (put m start 4) (start + 16) 4 0) (start + 4) 8 := (d2.mapped _ _).mpr (hm.mono (by omega) (by omega))
  have d3 := (sameDom_put (v := 4) a3).trans d2
  have a4 : Mapped (put (filled (put m start 4) (start + 16) 4 0) (start + 4) 4) (start + 16) 4 := (d3.mapped _ _).mpr (hm.mono (by omega) (by omega))
  have i2 : isInUse ⟨start, total, start + 4, start⟩ (start + 4 + 4) = false := by
    unfold isInUse
    simp only
    rw [if_neg (by omega), if_pos (by omega)]
    simp
  refine ⟨⟨start, total, start + 4, start⟩, filled (put m start 4) (start + 16) 4 0, ⟨start, total, start + 4 + 4, start⟩,
    filled (put (filled (put m start 4) (start + 16) 4 0) (start + 4) 4) (start + 16) 4 0, ?_, ?_⟩
  · unfold alloc
    simp only [init, e1, except_ok_bind, show ¬ 16 % 4 ≠ 0 by omega, ite_false, show (4 + 3) / 4 * 4 = 4 by omega]
    rw [if_neg (by omega)]
    unfold finish headerFill zeroMaybe zeroSize isInUse
    simp only [ite_true, Bool.false_eq_true, ite_false, show start + 4 - start = 4 by omega, st64w_ok a1, except_ok_bind, if_pos a2,
      fl _ (start + 8) (start + 4) (by omega)]
  · unfold alloc
    simp only [e2, except_ok_bind, show ¬ 16 % 4 ≠ 0 by omega, ite_false, show (4 + 3) / 4 * 4 = 4 by omega]
    rw [if_neg (by omega)]
    unfold finish headerFill zeroMaybe zeroSize
    simp only [i2, Bool.false_eq_true, ite_false, show start + 4 + 4 - (start + 4) = 4 by omega, st64w_ok a3, except_ok_bind, if_pos a4,
      fl _ (start + 4 + 8) (start + 4 + 4) (by omega)]

/-- **C20 is false of the code**: a block that fills the remaining memory exactly is granted although header and padding come on
top of it; clearing it runs past the end. -/
theorem C20_out_of_bounds (start : Nat) (m : Memory) (hs : 16 ∣ start) (hm : Mapped m start 16) (hend : m (start + 16) = none) :
    alloc (init start 16) m 16 16 = .error .oob := by
  have p16 : Nat.isPowerOfTwo 16 := ⟨4, rfl⟩
  have e1 : alignPtr (start + 8) 16 = .ok (start + 16) := by unfold alignPtr; rw [if_pos p16]; exact congrArg _ (by omega)
  have a1 : Mapped m start 8 := hm.mono (by omega) (by omega)
  have d1 := sameDom_put (v := 16) a1
  obtain ⟨m', f1, f2, f3⟩ := fillLoop_ok (put m start 16) (start + 8) (start + 16)
    ⟨1, by omega, (d1.mapped _ _).mpr (hm.mono (by omega) (by omega))⟩
  have hno : ¬ Mapped m' (start + 16) 16 := by
    rw [(f2.trans d1).mapped]
    intro h
    have := h 0 (by omega)
    rw [Nat.add_zero, hend] at this
    simp at this
  unfold alloc
  simp only [init, e1, except_ok_bind, show ¬ 16 % 4 ≠ 0 by omega, ite_false, show (16 + 3) / 4 * 4 = 16 by omega]
  rw [if_neg (by omega)]
  unfold finish headerFill zeroMaybe zeroSize isInUse
  simp only [ite_true, Bool.false_eq_true, ite_false, show start + 16 - start = 16 by omega, st64w_ok a1, except_ok_bind, f1, if_neg hno,
    except_error_bind]

/-- **C20 (partial).**  If that first block directly follows its header (alignment 4 or 8 at an 8-byte boundary), freeing it succeeds
and leaves the allocator with nothing in use. -/
theorem C20_free_first_block_partial (s : Scratch) (m : Memory) (k j fuel : Nat) (hfree : s.freePoint = s.start ∧ s.allocPoint = s.start)
    (hm : Mapped m s.start s.total) (hs : 8 ∣ s.start) (h0 : 0 < s.start) (hj : 2 ≤ j ∧ j ≤ 3) (hk : 0 < k) (hfuel : 2 ≤ fuel)
    (hfit : s.start + 8 + 8 * k ≤ s.start + s.total) (hlt : s.start + s.total < 2 ^ 63) :
    ∃ s' m' s'' m'', alloc s m (8 * k) (2 ^ j) = .ok (some (s.start + 8), s', m') ∧ free s' m' (s.start + 8) fuel = .ok (s'', m'') ∧
      s''.freePoint = s''.allocPoint ∧ ∀ p, isInUse s'' p = false := by
  have hd : alignPtr (s.start + 8) (2 ^ j) = .ok (s.start + 8) :=
    Arena.alignPtr_aligned ⟨j, rfl⟩ (Nat.dvd_trans (Nat.pow_dvd_pow 2 hj.2) (Nat.dvd_add hs (Nat.dvd_refl 8)))
  obtain ⟨s', m', h1, _, _, _, h5, _, h7, h8⟩ := C20_first_block_partial s m k j _ hfree hm hj.1 hk hd hfit
  have h7 := h7 (by omega)
  have hH : highBit = 2 ^ 63 := by unfold highBit; rfl
  have hm8 : Mapped m' s.start 8 := h8.mono (by omega) (by omega)
  have hw : Holds (put m' s.start (8 * k + highBit)) s.start (8 * k + highBit) := holds_put m' (by omega)
  have hmod : (8 * k + highBit) % highBit = 8 * k := by rw [Nat.add_mod_right]; exact Nat.mod_eq_of_lt (by omega)
  refine ⟨s', m', { s' with freePoint := s.start + 8 * k }, put m' s.start (8 * k + highBit), h1, ?_, ?_, ?_⟩
  · unfold free
    rw [if_neg (by omega), h5]
    simp only
    rw [if_neg (by omega)]
    have hh : headerOf m' (s.start + 8) = .ok s.start := by
      unfold headerOf
      rw [if_neg (by omega), show s.start + 8 - 8 = s.start by omega, ld64_ok h7, except_ok_bind, if_neg (by omega)]
    obtain ⟨f, rfl⟩ : ∃ f, fuel = f + 2 := ⟨fuel - 2, by omega⟩
    have n1 : ¬ highBit ≤ 8 * k := by omega
    have n2 : ¬ s.start = s.start + 8 * k := by omega
    have n3 : ¬ 8 * k + highBit < highBit := by omega
    have n4 : ¬ s.start + 8 * k = s.start + s.total := by omega
    rw [hh, except_ok_bind, ld64_ok h7, except_ok_bind, if_neg n1, st64w_ok hm8, except_ok_bind]
    have hloop : freeLoop { s with allocPoint := s.start + 8 * k } (put m' s.start (8 * k + highBit)) (8 * k + highBit) (f + 2) =
        .ok { s with allocPoint := s.start + 8 * k, freePoint := s.start + 8 * k } := by
      rw [freeLoop]
      simp only [hfree.1]
      rw [if_neg n2, ld64_ok hw, except_ok_bind, if_neg n3, hmod, if_neg n4, freeLoop, if_pos rfl]
    rw [hloop]
    rfl
  · rw [h5]
  · intro p
    unfold isInUse
    rw [h5]
    simp

/-- `free_all` makes the allocator as good as new. -/
theorem C20_free_all (s : Scratch) : freeAll s = init s.start s.total := rfl

/-! ### Non-vacuity -/

def exMem : Memory := fun a => if 64 ≤ a ∧ a < 160 then some 7 else none

example : alignPtr (64 + 8) (2 ^ 4) = .ok 80 ∧ 80 + 8 * 3 ≤ 64 + 96 ∧ Mapped exMem 64 96 := by decide +kernel

example : ∃ s' m', alloc (init 64 96) exMem (8 * 3) (2 ^ 4) = .ok (some 80, s', m') := by
  obtain ⟨s', m', h, _⟩ := C20_first_block_partial (init 64 96) exMem 3 4 80 ⟨rfl, rfl⟩ (by decide +kernel) (by omega) (by omega)
    (by decide +kernel) (by decide)
  exact ⟨s', m', h⟩

end Zpl.Scratch
