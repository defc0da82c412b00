import Verif.Mem.Pool
import Verif.Mem.Resize
import Verif.Mem.Heap

/-!
# Full names of files (code/source/core/file_misc.c:191-208)  -  C144

The branch for systems other than Windows.  `realpath` of the C library returns a block of the C library's own heap (the heap of `Mem.Heap`), or NULL. -/

namespace Zpl.FullName

open Mem
open Resize (Allocator AllocOk arenaAllocator)
open Heap (H)

/-! ## Model -/

/-- `zpl_strlen` of a text in memory (header/essentials/helpers.h, C26); the fuel is the number of bytes looked at. -/
def strlenAt (m : Memory) : Nat → Nat → Except Fault Nat
  | 0, _ => .error .diverge
  | fuel + 1, a => do
    let c ← ld m a
    if c = 0 then .ok 0
    else do
      let n ← strlenAt m fuel (a + 1)
      .ok (n + 1)

/-- file_misc.c:192-208 `zpl_path_get_full_name`; `real` is what `realpath` returned.  The memory for the result has the default alignment; that it may be NULL is not looked at.  `zpl_free` does
nothing with NULL. -/
def fullName {σ : Type} (A : Allocator σ) (fuel : Nat) (s : σ) (m : Memory) (path : Nat) (real : Option Nat) : Except Fault (Nat × σ × Memory) := do
  let full := real.getD path
  let len ← strlenAt m fuel full
  let (r, s, m) ← A.alloc s m (len + 1) 16
  let result := r.getD 0
  let (_, m) ← memmove m result full len
  let m ← st m (result + len) 0
  match real with
  | none => .ok (result, s, m)
  | some p => do
    let (s, m) ← A.free s m p
    .ok (result, s, m)

/-- An allocator of the client beside the C library's heap, which it does not touch. -/
def beside {σ : Type} (A : Allocator σ) : Allocator (H × σ) where
  alloc := fun (h, s) m size align => do
    let (r, s, m) ← A.alloc s m size align
    .ok (r, (h, s), m)
  free := fun (h, s) m p => do
    let (s, m) ← A.free s m p
    .ok ((h, s), m)

/-- The pool as an allocator (source/essentials/memory_custom.c:239-297). -/
def poolAllocator : Allocator Pool.Pool where
  alloc := fun P m size align => do
    let (p, P, m) ← Pool.alloc P m size align
    .ok (some p, P, m)
  free := Pool.free

/-! ## Specification -/

/-- At an address there is a text and its end. -/
def Holds (m : Memory) (a : Nat) (t : List Byte) : Prop := (∀ c ∈ t, c ≠ 0) ∧ ∀ i, i ≤ t.length → m (a + i) = (t ++ [0])[i]?

/-! ## Lemmas -/

theorem ok_bind {α β : Type} (a : α) (f : α → Except Fault β) : (Except.ok a >>= f) = f a := rfl

theorem strlen_ok {m : Memory} : ∀ {t : List Byte} {a fuel : Nat}, Holds m a t → t.length < fuel → strlenAt m fuel a = .ok t.length := by
  intro t
  induction t with
  | nil =>
    intro a fuel h hf
    obtain ⟨f, rfl⟩ : ∃ f, fuel = f + 1 := ⟨fuel - 1, by simp at hf; omega⟩
    have := h.2 0 (Nat.zero_le _)
    simp at this
    rw [strlenAt, ld_ok this, ok_bind, if_pos (show (0#8 : Byte) = 0 from rfl), List.length_nil]
  | cons c t ih =>
    intro a fuel h hf
    obtain ⟨f, rfl⟩ : ∃ f, fuel = f + 1 := ⟨fuel - 1, by simp at hf; omega⟩
    have h0 := h.2 0 (Nat.zero_le _)
    simp at h0
    have hc : c ≠ 0 := h.1 c (by simp)
    have ht : Holds m (a + 1) t := by
      refine ⟨fun x hx => h.1 x (by simp [hx]), fun i hi => ?_⟩
      have := h.2 (i + 1) (by simp; omega)
      rw [show a + 1 + i = a + (i + 1) by omega, this]
      simp
    rw [strlenAt, ld_ok h0, ok_bind, if_neg hc, ih ht (by simp at hf; omega), ok_bind, List.length_cons]

theorem holds_mapped {m : Memory} {a : Nat} {t : List Byte} (h : Holds m a t) : Mapped m a (t.length + 1) := by
  intro i hi
  rw [h.2 i (by omega)]
  rw [List.getElem?_eq_getElem (by simp; omega)]
  rfl

/-- What there is before the block of `realpath` is freed. -/
theorem copy_ok {σ : Type} (A : Allocator σ) {fuel path : Nat} {s s1 : σ} {m m1 : Memory} {real : Option Nat} {t : List Byte} {r : Nat} (ht : Holds m (real.getD path) t) (hf : t.length < fuel)
    (ha : A.alloc s m (t.length + 1) 16 = .ok (some r, s1, m1)) (hc : AllocOk m m1 (real.getD path) (t.length + 1) r (t.length + 1)) :
    ∃ m2, Holds m2 r t ∧ (∀ x, ¬ (r ≤ x ∧ x ≤ r + t.length) → m2 x = m1 x) ∧ fullName A fuel s m path real =
      (match real with
        | none => .ok (r, s1, m2)
        | some p => do
          let (s, m) ← A.free s1 m2 p
          .ok (r, s, m)) := by
  obtain ⟨c1, c2, c3, c4⟩ := hc
  have hm1 : Holds m1 (real.getD path) t := ⟨ht.1, fun i hi => by rw [c4 i (by omega), ht.2 i hi]⟩
  have mv := C10_memmove m1 r (real.getD path) t.length c1 ((holds_mapped hm1).mono (by omega) (by omega)) (c2.mono (by omega) (by omega))
  have mp : (copied m1 r (real.getD path) t.length (r + t.length)).isSome := by
    rw [copied, if_neg (by omega)]
    exact c2 _ (by omega)
  refine ⟨fun x => if x = r + t.length then some 0 else copied m1 r (real.getD path) t.length x, ⟨ht.1, fun i hi => ?_⟩, fun x hx => ?_, ?_⟩
  · by_cases h : i = t.length
    · subst h
      simp
    · simp only
      rw [if_neg (by omega), copied, if_pos (by omega), show r + i - r = i by omega, hm1.2 i hi]
  · simp only
    rw [if_neg (by omega), copied, if_neg (by omega)]
  · rw [fullName]
    dsimp only
    rw [strlen_ok ht hf, ok_bind, ha, ok_bind]
    dsimp only [Option.getD_some]
    rw [mv, ok_bind]
    dsimp only
    rw [st_ok mp, ok_bind]

/-! ## Properties -/

/-- **C144.**  For a path that does not exist the result is a copy of it, in memory of the client's allocator. -/
theorem C144_missing {σ : Type} (A : Allocator σ) {fuel path : Nat} {s s1 : σ} {m m1 : Memory} {t : List Byte} {r : Nat} (ht : Holds m path t) (hf : t.length < fuel)
    (ha : A.alloc s m (t.length + 1) 16 = .ok (some r, s1, m1)) (hc : AllocOk m m1 path (t.length + 1) r (t.length + 1)) :
    ∃ m2, fullName A fuel s m path none = .ok (r, s1, m2) ∧ Holds m2 r t ∧ ∀ x, ¬ (r ≤ x ∧ x ≤ r + t.length) → m2 x = m1 x := by
  obtain ⟨m2, h1, h2, h3⟩ := copy_ok A (real := none) (path := path) ht hf ha hc
  exact ⟨m2, h3, h1, h2⟩

/-- **C144 (partial).**  With the heap allocator: the result is the full name, and the block of `realpath` is freed, that one alone.

`_partial`: for other allocators the block is lost (`C144_arena_leak`) or handed out by the wrong allocator (`C144_pool_mixed`). -/
theorem C144_heap_partial (pol : Heap.Policy) {fuel path p n : Nat} {h h1 : H} {m m1 : Memory} {t : List Byte} {r : Nat} (ht : Holds m p t) (hf : t.length < fuel)
    (ha : (Heap.allocator false pol).alloc h m (t.length + 1) 16 = .ok (some r, h1, m1)) (hc : AllocOk m m1 p (t.length + 1) r (t.length + 1))
    (hp : p ≠ 0) (hl : h1.blocks.find? (fun b => b.1 == p) = some (p, n)) (hd : r + (t.length + 1) ≤ p ∨ p + n ≤ r) :
    ∃ h2 m2, fullName (Heap.allocator false pol) fuel h m path (some p) = .ok (r, h2, m2) ∧ Holds m2 r t ∧
      (∀ b, b ∈ h2.blocks ↔ b ∈ h1.blocks ∧ b.1 ≠ p) ∧ ∀ x, p ≤ x → x < p + n → m2 x = none := by
  obtain ⟨m2, k1, k2, k3⟩ := copy_ok (Heap.allocator false pol) (real := some p) (path := path) ht hf ha hc
  refine ⟨{ h1 with blocks := h1.blocks.filter (fun b => b.1 != p) }, fun x => if p ≤ x ∧ x < p + n then none else m2 x, ?_, ⟨k1.1, fun i hi => ?_⟩, ?_, ?_⟩
  · rw [k3]
    dsimp only [Heap.allocator]
    rw [if_neg hp, Heap.free, if_neg hp, if_neg Bool.false_ne_true, Heap.osFree, if_neg hp, hl]
    rfl
  · simp only
    rw [if_neg (by omega)]
    exact k1.2 i hi
  · intro b
    simp
  · intro x h1 h2
    simp [h1, h2]

/-- **C144, false as stated.**  With an arena the result is right, but the block of `realpath` stays allocated in the C library's heap for ever: the arena's `free` does nothing. -/
theorem C144_arena_leak {fuel path p : Nat} {h : H} {a a1 : Arena.Arena} {m m1 : Memory} {t : List Byte} {r : Nat} (ht : Holds m p t) (hf : t.length < fuel)
    (ha : arenaAllocator.alloc a m (t.length + 1) 16 = .ok (some r, a1, m1)) (hc : AllocOk m m1 p (t.length + 1) r (t.length + 1)) :
    ∃ m2, fullName (beside arenaAllocator) fuel (h, a) m path (some p) = .ok (r, (h, a1), m2) ∧ Holds m2 r t := by
  obtain ⟨m2, k1, k2, k3⟩ := copy_ok (beside arenaAllocator) (s := (h, a)) (s1 := (h, a1)) (real := some p) (path := path) ht hf (by dsimp only [beside]; rw [ha]; rfl) hc
  exact ⟨m2, by rw [k3]; rfl, k1⟩

/-- **C144, false as stated.**  With a pool the block of `realpath`, which is still allocated in the C library's heap, becomes a block of the pool: the next block the pool hands out is that one. -/
theorem C144_pool_mixed {fuel path p : Nat} {h h2 : H} {P P1 P2 : Pool.Pool} {m m1 m2 : Memory} {t : List Byte} {r r2 : Nat} (ht : Holds m p t) (hf : t.length < fuel) (hp : p ≠ 0)
    (ha : poolAllocator.alloc P m (t.length + 1) 16 = .ok (some r, P1, m1)) (hc : AllocOk m m1 p (t.length + 1) r (t.length + 1))
    (hr : fullName (beside poolAllocator) fuel (h, P) m path (some p) = .ok (r2, (h2, P2), m2)) :
    h2 = h ∧ ∀ size align q P3 m3, Pool.alloc P2 m2 size align = .ok (q, P3, m3) → q = p := by
  obtain ⟨m', k1, k2, k3⟩ := copy_ok (beside poolAllocator) (s := (h, P)) (s1 := (h, P1)) (real := some p) (path := path) ht hf (by dsimp only [beside]; rw [ha]; rfl) hc
  rw [hr] at k3
  dsimp only [beside, poolAllocator] at k3
  rw [Pool.free, if_neg hp] at k3
  cases e : st64w m' p P1.freeList with
  | error x => rw [e] at k3; cases k3
  | ok m4 =>
    rw [e] at k3
    simp only [ok_bind, Except.ok.injEq, Prod.mk.injEq] at k3
    obtain ⟨-, ⟨rfl, rfl⟩, rfl⟩ := k3
    refine ⟨rfl, fun size align q P3 m3 h => ?_⟩
    rw [Pool.alloc] at h
    dsimp only at h
    split at h
    · cases h
    split at h
    · cases h
    cases e1 : ld64 m2 p with
    | error x => rw [e1] at h; cases h
    | ok v =>
      rw [e1, ok_bind] at h
      cases e2 : Arena.zeroSize m2 p size with
      | error x => rw [e2] at h; cases h
      | ok v =>
        rw [e2, ok_bind] at h
        simp only [Except.ok.injEq, Prod.mk.injEq] at h
        exact h.1.symm

/-! ## Non-vacuity -/

/-- The texts `/a` at 200 (of `realpath`) and `a` at 300; room at 64. -/
def exMem : Memory := fun x =>
  if x = 200 then some 0x2f#8 else if x = 201 then some 0x61#8 else if 202 ≤ x ∧ x < 216 then some 0 else if x = 300 then some 0x61#8 else if x = 301 then some 0
  else if 64 ≤ x ∧ x < 160 then some 7 else none

theorem ex_full : Holds exMem 200 [0x2f#8, 0x61#8] := by
  refine ⟨by decide, ?_⟩
  decide +kernel

theorem ex_path : Holds exMem 300 [0x61#8] := by
  refine ⟨by decide, ?_⟩
  decide +kernel

example : ∃ a1 m1 r, arenaAllocator.alloc ⟨64, 96, 0, 0⟩ exMem 3 16 = .ok (some r, a1, m1) ∧ AllocOk exMem m1 200 3 r 3 := by
  refine ⟨_, _, 64, rfl, by omega, by decide +kernel, Or.inl (by omega), by decide +kernel⟩

example : ∃ a1 m1 r, arenaAllocator.alloc ⟨64, 96, 0, 0⟩ exMem 2 16 = .ok (some r, a1, m1) ∧ AllocOk exMem m1 300 2 r 2 := by
  refine ⟨_, _, 64, rfl, by omega, by decide +kernel, Or.inl (by omega), by decide +kernel⟩

/-- The answer of the C library: address 400. -/
def exPolicy : Heap.Policy := ⟨fun _ _ _ _ => some 400, fun _ _ => 9⟩

example : ∃ h1 m1, (Heap.allocator false exPolicy).alloc ⟨[(200, 16)], 0, 0, 0⟩ exMem 3 16 = .ok (some 400, h1, m1) ∧ AllocOk exMem m1 200 3 400 3 ∧
    h1.blocks.find? (fun b => b.1 == 200) = some (200, 16) := by
  refine ⟨_, _, rfl, ⟨by omega, by decide +kernel, Or.inr (by omega), by decide +kernel⟩, by decide +kernel⟩

/-- A pool of one block of 3 bytes. -/
def exPool : Pool.Pool := ⟨64, 64, 3, 16, 1, 0⟩

/-- Its memory: the block is the last of the list. -/
def exPoolMem : Memory := fun x => if 64 ≤ x ∧ x < 72 then some 0 else exMem x

def exAfter : Except Fault (Nat × (H × Pool.Pool) × Memory) := fullName (beside poolAllocator) 10 (⟨[(200, 16)], 0, 0, 0⟩, exPool) exPoolMem 300 (some 200)

/-- Which block the pool hands out next. -/
def exNext : Except Fault Nat := do
  let (_, (_, P), m) ← exAfter
  let (q, _, _) ← Pool.alloc P m 3 16
  .ok q

example : exNext = .ok 200 := by decide +kernel

end Zpl.FullName
