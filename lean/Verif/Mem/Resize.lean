import Verif.Mem.Words

/-!
# `zpl_default_resize_align` — header/essentials/memory_custom.h:292-312

The allocator is arbitrary: a state and two procedures.  What the theorems need of it is stated as hypotheses about the calls
made (an allocator contract), which the arena satisfies.
-/
namespace Zpl.Resize
open Mem
open Arena (SameDom)

/-- An allocator's `ALLOC` and `FREE` procedures — header/essentials/memory_custom.h:258-271 (`zpl_alloc_align`, `zpl_free`). -/
structure Allocator (σ : Type) where
  alloc : σ → Memory → Nat → Nat → Except Fault (Option Nat × σ × Memory)
  free : σ → Memory → Nat → Except Fault (σ × Memory)

variable {σ : Type}

/-- `zpl_default_resize_align` — header/essentials/memory_custom.h:292-312.  `none` is NULL; lines 301-303 return the old memory if
the new size is not larger; the copy is the model of `zpl_memmove`. -/
def resize (A : Allocator σ) (s : σ) (m : Memory) (old : Option Nat) (oldSize newSize align : Nat) : Except Fault (Option Nat × σ × Memory) :=
  match old with
  | none => A.alloc s m newSize align
  | some o =>
    if newSize = 0 then do
      let (s, m) ← A.free s m o
      .ok (none, s, m)
    else
      let newSize := if newSize < oldSize then oldSize else newSize
      if oldSize = newSize then .ok (some o, s, m)
      else do
        let (r, s, m) ← A.alloc s m newSize align
        match r with
        | none => .ok (none, s, m)
        | some p => do
          let (_, m) ← memmove m p o (min newSize oldSize)
          let (s, m) ← A.free s m o
          .ok (some p, s, m)

/-! ## The allocator contract, for the calls a resize makes -/

/-- A successful allocation returns a mapped non-NULL block disjoint from the old block and leaves the old block's bytes alone. -/
def AllocOk (m m' : Memory) (o oldSize p newSize : Nat) : Prop :=
  p ≠ 0 ∧ Mapped m' p newSize ∧ (p + newSize ≤ o ∨ o + oldSize ≤ p) ∧ ∀ i, i < oldSize → m' (o + i) = m (o + i)

/-! ## Properties -/

/-- **C21.**  Growing a block, when the allocation succeeds: the result is the new block, its first `oldSize` bytes are those of
the old block, and the old block is freed (by the one `free` call). -/
theorem C21_grow (A : Allocator σ) (s s1 s2 : σ) (m m1 m2 : Memory) (o p oldSize newSize align : Nat) (hnew : oldSize < newSize)
    (hold : Mapped m o oldSize) (ho : o ≠ 0) (halloc : A.alloc s m newSize align = .ok (some p, s1, m1)) (hc : AllocOk m m1 o oldSize p newSize)
    (hfree : A.free s1 (copied m1 p o oldSize) o = .ok (s2, m2)) (hkeep : ∀ i, i < newSize → m2 (p + i) = copied m1 p o oldSize (p + i)) :
    resize A s m (some o) oldSize newSize align = .ok (some p, s2, m2) ∧ ∀ i, i < oldSize → m2 (p + i) = m (o + i) := by
  obtain ⟨c1, c2, c3, c4⟩ := hc
  have hold1 : Mapped m1 o oldSize := fun i hi => by rw [c4 i hi]; exact hold i hi
  have hmv := C10_memmove m1 p o oldSize c1 hold1 (c2.mono (by omega) (by omega))
  constructor
  · unfold resize
    simp only [if_neg (show ¬ newSize = 0 by omega), if_neg (show ¬ newSize < oldSize by omega), if_neg (show ¬ oldSize = newSize by omega),
      halloc, except_ok_bind, Nat.min_eq_right (Nat.le_of_lt hnew), hmv, hfree]
  · intro i hi
    rw [hkeep i (by omega), (C10_copied_bytes m1 p o oldSize).1 i hi, c4 i hi]

/-- **C21.**  Growing when the allocation fails: NULL is returned, nothing is freed, and the state and memory are what the failed
allocation left: if that changes nothing, the resize changes nothing. -/
theorem C21_failure_keeps_old (A : Allocator σ) (s : σ) (m : Memory) (o oldSize newSize align : Nat) (hnew : oldSize < newSize)
    (halloc : A.alloc s m newSize align = .ok (none, s, m)) : resize A s m (some o) oldSize newSize align = .ok (none, s, m) := by
  unfold resize
  simp only [if_neg (show ¬ newSize = 0 by omega), if_neg (show ¬ newSize < oldSize by omega), if_neg (show ¬ oldSize = newSize by omega),
    halloc, except_ok_bind]

/-- **C21.**  Shrinking (not to zero), or asking for the same size, returns the old block: all its bytes are kept and no allocator
call is made. -/
theorem C21_shrink (A : Allocator σ) (s : σ) (m : Memory) (o oldSize newSize align : Nat) (h0 : newSize ≠ 0) (hle : newSize ≤ oldSize) :
    resize A s m (some o) oldSize newSize align = .ok (some o, s, m) := by
  unfold resize
  simp only [if_neg h0]
  by_cases h : newSize < oldSize
  · simp only [if_pos h, if_true]
  · simp only [if_neg h, if_pos (show oldSize = newSize by omega)]

/-- **C21.**  A new size of zero frees the block and returns NULL. -/
theorem C21_zero_frees (A : Allocator σ) (s s' : σ) (m m' : Memory) (o oldSize align : Nat) (hfree : A.free s m o = .ok (s', m')) :
    resize A s m (some o) oldSize 0 align = .ok (none, s', m') := by
  simp [resize, hfree]

/-- **C21.**  A NULL old block makes it an allocation. -/
theorem C21_null_allocates (A : Allocator σ) (s : σ) (m : Memory) (oldSize newSize align : Nat) :
    resize A s m none oldSize newSize align = A.alloc s m newSize align := rfl

/-! ## The arena satisfies the contract -/

/-- The arena as an allocator: `FREE` does nothing — source/essentials/memory_custom.c:187-190. -/
def arenaAllocator : Allocator Arena.Arena where
  alloc := fun A m size a => Arena.alloc A m size a
  free := fun A m _ => .ok (A, m)

/-- Non-vacuity: growing the most recent block of an arena meets all hypotheses of `C21_grow`. -/
example : ∃ s1 s2 m1 m2 p, arenaAllocator.alloc ⟨32, 64, 8, 0⟩ Arena.exMem 20 8 = .ok (some p, s1, m1) ∧
    AllocOk Arena.exMem m1 32 5 p 20 ∧ arenaAllocator.free s1 (copied m1 p 32 5) 32 = .ok (s2, m2) ∧
    (∀ i, i < 20 → m2 (p + i) = copied m1 p 32 5 (p + i)) ∧ m2 40 = some 7 ∧ m2 45 = some 0 := by
  refine ⟨_, _, _, _, 40, rfl, ⟨by omega, by decide +kernel, Or.inr (by omega), by decide +kernel⟩, rfl, fun i hi => rfl, ?_⟩
  decide +kernel

/-- The arena's own resize (in the arena model) is this function. -/
theorem arena_resize_eq (A : Arena.Arena) (m : Memory) (old : Option Nat) (oldSize size a : Nat)
    (hold : ∀ o, old = some o → Mapped m o oldSize) (hpos : 0 < A.start + A.allocated) :
    resize arenaAllocator A m old oldSize size a = Arena.resize A m old oldSize size a := by
  cases old with
  | none => rfl
  | some o =>
    have hm := hold o rfl
    unfold resize Arena.resize
    simp only
    by_cases h0 : size = 0
    · simp [h0, arenaAllocator]
    simp only [if_neg h0]
    by_cases hle : size ≤ oldSize
    · rw [if_pos hle]
      by_cases h : size < oldSize
      · simp only [if_pos h, if_true]
      · simp only [if_neg h, if_pos (show oldSize = size by omega)]
    · rw [if_neg hle]
      simp only [if_neg (show ¬ size < oldSize by omega), if_neg (show ¬ oldSize = size by omega), Nat.min_eq_right (show oldSize ≤ size by omega)]
      simp only [arenaAllocator]
      cases hal : Arena.alloc A m size a with
      | error e => rfl
      | ok r =>
        obtain ⟨q, A', m'⟩ := r
        cases q with
        | none => rfl
        | some p =>
          simp only [except_ok_bind]
          have hsd := Arena.alloc_sameDom hal
          have hmo : Mapped m' o oldSize := (hsd.mapped _ _).mpr hm
          have hblock : p ≠ 0 ∧ Mapped m' p size := by
            unfold Arena.alloc at hal
            split at hal
            · simp at hal
            split at hal
            · simp at hal
            · obtain ⟨c, h1, h2⟩ := Arena.bind_ok hal
              obtain ⟨m2, h3, h4⟩ := Arena.bind_ok h2
              injection h4 with h4; injection h4 with h4 h5; injection h4 with h4; injection h5 with h5 h6
              subst h4 h6
              unfold Arena.zeroSize at h3
              split at h3
              · next hmp =>
                injection h3 with h3
                subst h3
                refine ⟨?_, ((Arena.sameDom_filled hmp).mapped _ _).mpr hmp⟩
                unfold Arena.alignPtr at h1
                split at h1
                · next hp =>
                  injection h1 with h1
                  have ha : 0 < a := by obtain ⟨k, rfl⟩ := hp; exact Nat.two_pow_pos k
                  have := (Align.round_up (A.start + A.allocated) a ha).2.1
                  omega
                · simp at h1
              · simp at h3
          rw [C10_memmove m' p o oldSize hblock.1 hmo (hblock.2.mono (by omega) (by omega))]
          simp only [except_ok_bind, Arena.move]
          rw [if_pos ⟨hblock.2.mono (by omega) (by omega), hmo⟩]
          rfl

end Zpl.Resize
