import Verif.Mem.Base
import Verif.Hash.Murmur

/-!
# Raw memory routines (code/header/essentials/memory.h:150-260, code/source/essentials/memory.c)  -  C10, C11, C12, C13, C14

## Model

Addresses are natural numbers, NULL is 0, `zpl_isize` has eight bytes.  Word accesses through cast pointers are checked for
alignment.  `memcpy` of the C library is modelled by its contract: undefined on overlapping regions, otherwise an exact copy. -/

namespace Zpl.Mem

/-! ### memcopy, memmove -/

/-- Byte loop `for (; n; n--) *d++ = *s++` (memory.h:173). -/
def bytesFwd (m : Memory) (d s : Nat) : Nat → Except Fault Memory
  | 0 => .ok m
  | n + 1 => do
    let b ← ld m s
    let m ← st m d b
    bytesFwd m (d + 1) (s + 1) n

/-- `memcpy` of the C library (contract). -/
def memcpy (m : Memory) (d s n : Nat) : Except Fault Memory :=
  if s + n ≤ d ∨ d + n ≤ s then bytesFwd m d s n else .error .ub

/-- memory.c:70-74 `zpl_memcopy`; the returned pointer and the memory. -/
def memcopy (m : Memory) (dest src n : Nat) : Except Fault (Nat × Memory) :=
  if dest = 0 then .ok (0, m)
  else do
    let m ← memcpy m dest src n
    .ok (dest, m)

/-- memory.h:166-171, `while (n >= 8)` word by word, then line 173. -/
def wordsFwd (m : Memory) (d s : Nat) : Nat → Except Fault Memory
  | n + 8 => do
    let w ← ldW m s 8
    let m ← stW m d w
    wordsFwd m (d + 8) (s + 8) n
  | n => bytesFwd m d s n

/-- memory.h:162-165, byte by byte until `d` is aligned, `if (!n--) return dest`; then the words. -/
def alignFwd (m : Memory) (d s : Nat) : Nat → Except Fault Memory
  | 0 => if d % 8 ≠ 0 then .ok m else wordsFwd m d s 0
  | n + 1 =>
    if d % 8 ≠ 0 then do
      let b ← ld m s
      let m ← st m d b
      alignFwd m (d + 1) (s + 1) n
    else wordsFwd m d s (n + 1)

/-- memory.h:185 `while (n) n--, d[n] = s[n]`. -/
def bytesBwd (m : Memory) (d s : Nat) : Nat → Except Fault Memory
  | 0 => .ok m
  | n + 1 => do
    let b ← ld m (s + n)
    let m ← st m (d + n) b
    bytesBwd m d s n

/-- memory.h:180-183. -/
def wordsBwd (m : Memory) (d s : Nat) : Nat → Except Fault Memory
  | n + 8 => do
    let w ← ldW m (s + n) 8
    let m ← stW m (d + n) w
    wordsBwd m d s n
  | n => bytesBwd m d s n

/-- memory.h:176-179. -/
def alignBwd (m : Memory) (d s : Nat) : Nat → Except Fault Memory
  | 0 => if d % 8 ≠ 0 then .ok m else wordsBwd m d s 0
  | n + 1 =>
    if (d + (n + 1)) % 8 ≠ 0 then do
      let b ← ld m (s + n)
      let m ← st m (d + n) b
      alignBwd m d s n
    else wordsBwd m d s (n + 1)

/-- memory.h:150-189 `zpl_memmove`. -/
def memmove (m : Memory) (dest src n : Nat) : Except Fault (Nat × Memory) :=
  if dest = 0 then .ok (0, m)
  else if dest = src then .ok (dest, m)
  else if src + n ≤ dest ∨ dest + n ≤ src then memcopy m dest src n
  else if dest < src then do
    let m ← if src % 8 = dest % 8 then alignFwd m dest src n else bytesFwd m dest src n
    .ok (dest, m)
  else do
    let m ← if src % 8 = dest % 8 then alignBwd m dest src n else bytesBwd m dest src n
    .ok (dest, m)

/-! ### memset -/

/-- The `k` bytes of the word `v`, little endian. -/
def wordBytes {w : Nat} (v : BitVec w) : Nat → List Byte
  | 0 => []
  | k + 1 => v.setWidth 8 :: wordBytes (v >>> 8) k

/-- memory.h:196 -/
def c32 (c : Byte) : BitVec 32 := 0xFFFFFFFF#32 / 255#32 * c.setWidth 32

/-- memory.h:233 -/
def c64 (c : Byte) : BitVec 64 := ((c32 c).setWidth 64 <<< 32) ||| (c32 c).setWidth 64

/-- `*cast(zpl_u32 *)a = c32` -/
def st32 (m : Memory) (a : Nat) (c : Byte) : Except Fault Memory := stW m a (wordBytes (c32 c) 4)

/-- `*cast(zpl_u64 *)a = c64` -/
def st64 (m : Memory) (a : Nat) (c : Byte) : Except Fault Memory := stW m a (wordBytes (c64 c) 8)

/-- memory.h:234-243, the loop of 32-byte strides. -/
def setLoop (m : Memory) (s : Nat) (c : Byte) : Nat → Except Fault Memory
  | n + 32 => do
    let m ← st64 m (s + 0) c
    let m ← st64 m (s + 8) c
    let m ← st64 m (s + 16) c
    let m ← st64 m (s + 24) c
    setLoop m (s + 32) c n
  | _ => .ok m

/-- memory.h:222-243 -/
def set25 (m : Memory) (s n : Nat) (c : Byte) : Except Fault Memory := do
  let m ← st32 m (s + 12) c
  let m ← st32 m (s + 16) c
  let m ← st32 m (s + 20) c
  let m ← st32 m (s + 24) c
  let m ← st32 m (s + n - 28) c
  let m ← st32 m (s + n - 24) c
  let m ← st32 m (s + n - 20) c
  let m ← st32 m (s + n - 16) c
  let k := 24 + (if s % 8 < 4 then 0 else 4)      -- `24 + (s & 4)`
  setLoop m (s + k) c (n - k)

/-- memory.h:213-221; `s` is aligned to 4 and `n` a multiple of 4. -/
def set9 (m : Memory) (s n : Nat) (c : Byte) : Except Fault Memory := do
  let m ← st32 m (s + 0) c
  let m ← st32 m (s + n - 4) c
  if n < 9 then .ok m
  else do
    let m ← st32 m (s + 4) c
    let m ← st32 m (s + 8) c
    let m ← st32 m (s + n - 12) c
    let m ← st32 m (s + n - 8) c
    if n < 25 then .ok m else set25 m s n c

/-- memory.h:191-247 `zpl_memset` after the NULL test.  `n` is not negative. -/
def setBody (m : Memory) (s n : Nat) (c : Byte) : Except Fault Memory :=
  if n = 0 then .ok m
  else do
    let m ← st m (s + n - 1) c
    let m ← st m (s + 0) c
    if n < 3 then .ok m
    else do
      let m ← st m (s + n - 2) c
      let m ← st m (s + 1) c
      let m ← st m (s + n - 3) c
      let m ← st m (s + 2) c
      if n < 7 then .ok m
      else do
        let m ← st m (s + n - 4) c
        let m ← st m (s + 3) c
        if n < 9 then .ok m
        else
          let k := (4 - s % 4) % 4                -- `-s & 3`
          let n' := n - k
          set9 m (s + k) (n' - n' % 4) c          -- `n &= -4`

/-- memory.h:191-247 `zpl_memset`. -/
def memset (m : Memory) (dest : Nat) (c : Byte) (n : Nat) : Except Fault (Nat × Memory) :=
  if dest = 0 then .ok (0, m)
  else do
    let m ← setBody m dest n c
    .ok (dest, m)

/-! ### memswap -/

/-- `zpl_swap` of two words of `k` bytes (header/essentials/helpers.h:53).  Alignment is not checked here: `zpl_memswap` is
called with arbitrary element addresses and relies on the machine to allow it. -/
def swapWord (m : Memory) (i j k : Nat) : Except Fault Memory := do
  let tmp ← ldN m i k
  let w ← ldN m j k
  let m ← stN m i w
  stN m j tmp

/-- memory.c:20 `while (size--) { zpl_swap(zpl_u8, *a++, *b++); }` -/
def swapBytes (m : Memory) (a b : Nat) : Nat → Except Fault Memory
  | 0 => .ok m
  | n + 1 => do
    let m ← swapWord m a b 1
    swapBytes m (a + 1) (b + 1) n

/-- memory.c:32-34: through a buffer on the stack, which is disjoint from everything and is not part of the memory. -/
def swapBuffer (m : Memory) (i j n : Nat) : Except Fault Memory := do
  let buffer ← ldN m i n
  let m ← memcpy m i j n
  stN m j buffer

/-- memory.c:25-34, chunks of 256 bytes (`zpl_memswap` of 256 bytes goes straight to the buffer), then the rest. -/
def swapChunks (m : Memory) (i j n : Nat) : Except Fault Memory :=
  if 256 < n then do
    let m ← swapBuffer m i j 256
    swapChunks m (i + 256) (j + 256) (n - 256)
  else swapBuffer m i j n
termination_by n
decreasing_by omega

/-- memory.c:9-36 `zpl_memswap`. -/
def memswap (m : Memory) (i j size : Nat) : Except Fault Memory :=
  if i = j then .ok m
  else if size = 4 then swapWord m i j 4
  else if size = 8 then swapWord m i j 8
  else if size < 8 then swapBytes m i j size
  else swapChunks m i j size

/-! ### memchr, memrchr, memcompare -/

/-- `ZPL__ONES`, memory.h:111: `(zpl_usize)-1 / 255`. -/
def ones : BitVec 64 := 0xFFFFFFFFFFFFFFFF#64 / 255#64

/-- memory.h:112-113 -/
def highs : BitVec 64 := ones * (255#64 / 2#64 + 1#64)

def hasZero (x : BitVec 64) : BitVec 64 := (x - ones) &&& ~~~x &&& highs

/-- The value of a little-endian word. -/
def wordOf (bs : List Byte) : BitVec 64 := BitVec.ofNat 64 (bs.foldr (fun b n => b.toNat + 256 * n) 0)

/-- memory.c:52-55 and 58: byte loop; NULL is `none`. -/
def chrBytes (m : Memory) (s : Nat) (c : Byte) : Nat → Except Fault (Option Nat)
  | 0 => .ok none
  | n + 1 => do
    let b ← ld m s
    if b ≠ c then chrBytes m (s + 1) c n else .ok (some s)

/-- memory.c:46-50: word loop. -/
def chrWords (m : Memory) (s : Nat) (c : Byte) : Nat → Except Fault (Option Nat)
  | n + 8 => do
    let w ← ldW m s 8
    if hasZero (wordOf w ^^^ (ones * c.setWidth 64)) = 0 then chrWords m (s + 8) c n
    else chrBytes m s c (n + 8)
  | n => chrBytes m s c n

/-- memory.c:38-60 `zpl_memchr`: bytes up to alignment, then words. -/
def memchr (m : Memory) (s : Nat) (c : Byte) : Nat → Except Fault (Option Nat)
  | 0 => .ok none
  | n + 1 =>
    if s % 8 ≠ 0 then do
      let b ← ld m s
      if b ≠ c then memchr m (s + 1) c n else .ok (some s)
    else do
      let b ← ld m s
      if b ≠ c then chrWords m s c (n + 1) else .ok (some s)

/-- memory.c:62-68 `zpl_memrchr`. -/
def memrchr (m : Memory) (s : Nat) (c : Byte) : Nat → Except Fault (Option Nat)
  | 0 => .ok none
  | n + 1 => do
    let b ← ld m (s + n)
    if b = c then .ok (some (s + n)) else memrchr m s c n

/-- memory.h:255-258 -/
def cmpLoop (m : Memory) (a b : Nat) : Nat → Except Fault Int
  | 0 => .ok 0
  | n + 1 => do
    let x ← ld m a
    let y ← ld m b
    let d := (x.toNat : Int) - (y.toNat : Int)
    if d ≠ 0 then .ok d else cmpLoop m (a + 1) (b + 1) n

/-- memory.h:249-260 `zpl_memcompare`. -/
def memcompare (m : Memory) (a b n : Nat) : Except Fault Int :=
  if a = 0 ∨ b = 0 then .ok 0 else cmpLoop m a b n

/-! ## Specification of the swap -/

/-- The memory after the disjoint regions of `n` bytes at `i` and `j` have been exchanged. -/
def swapped (m : Memory) (i j n : Nat) : Memory := fun a =>
  if i ≤ a ∧ a < i + n then m (j + (a - i)) else if j ≤ a ∧ a < j + n then m (i + (a - j)) else m a

/-! ## Lemmas -/

theorem copy1 {m : Memory} {d s : Nat} {α : Type} (f : Memory → Except Fault α) (hs : Mapped m s 1) (hd : Mapped m d 1) :
    (do let b ← ld m s; let m ← st m d b; f m) = f (copied m d s 1) := by
  have := copyN_ok hs hd
  simp only [ldN, stN] at this
  obtain ⟨b, hb⟩ := Option.isSome_iff_exists.mp (hs.at (x := s) (by omega) (by omega))
  have hd' := hd.at (x := d) (by omega) (by omega)
  simp only [ld_ok hb, st_ok hd', except_ok_bind, stN] at this ⊢
  injection this with this
  rw [this]

theorem copyW {m : Memory} {d s : Nat} {α : Type} (f : Memory → Except Fault α) (hs : Mapped m s 8) (hd : Mapped m d 8)
    (h8 : s % 8 = 0) (h8' : d % 8 = 0) :
    (do let w ← ldW m s 8; let m ← stW m d w; f m) = f (copied m d s 8) := by
  have hc := copyN_ok hs hd
  obtain ⟨bs, h1, h2, _⟩ := ldN_ok 8 s hs
  simp only [ldW, if_pos h8, h1, except_ok_bind, stW, h2, if_pos h8'] at hc ⊢
  rw [hc]; rfl

theorem bytesFwd_ok : ∀ (n : Nat) (m : Memory) (d s : Nat), Mapped m s n → Mapped m d n → (d ≤ s ∨ s + n ≤ d) →
    bytesFwd m d s n = .ok (copied m d s n)
  | 0, m, d, s, _, _, _ => by simp [bytesFwd, copied_zero]
  | n + 1, m, d, s, hs, hd, h => by
    rw [bytesFwd, copy1 (fun m => bytesFwd m (d + 1) (s + 1) n) (hs.mono (by omega) (by omega)) (hd.mono (by omega) (by omega))]
    rw [bytesFwd_ok n _ (d + 1) (s + 1) (mapped_copied (hs.mono (by omega) (by omega)) (hs.mono (by omega) (by omega)))
      (mapped_copied (hs.mono (by omega) (by omega)) (hd.mono (by omega) (by omega))) (by omega)]
    rw [copied_up m 1 n (by omega), Nat.add_comm 1 n]

theorem wordsFwd_ok : ∀ (n : Nat) (m : Memory) (d s : Nat), Mapped m s n → Mapped m d n → d ≤ s → d % 8 = 0 → s % 8 = 0 →
    wordsFwd m d s n = .ok (copied m d s n) := by
  intro n
  induction n using Nat.strongRecOn with
  | ind n ih =>
    intro m d s hs hd h h8 h8'
    by_cases hn : 8 ≤ n
    · obtain ⟨k, rfl⟩ : ∃ k, n = k + 8 := ⟨n - 8, by omega⟩
      rw [wordsFwd, copyW (fun m => wordsFwd m (d + 8) (s + 8) k) (hs.mono (by omega) (by omega)) (hd.mono (by omega) (by omega)) h8' h8]
      rw [ih k (by omega) _ (d + 8) (s + 8) (mapped_copied (hs.mono (by omega) (by omega)) (hs.mono (by omega) (by omega)))
        (mapped_copied (hs.mono (by omega) (by omega)) (hd.mono (by omega) (by omega))) (by omega) (by omega) (by omega)]
      rw [copied_up m 8 k (by omega), Nat.add_comm 8 k]
    · have : wordsFwd m d s n = bytesFwd m d s n := by
        unfold wordsFwd
        split
        · omega
        · rfl
      rw [this, bytesFwd_ok n m d s hs hd (by omega)]

theorem alignFwd_ok : ∀ (n : Nat) (m : Memory) (d s : Nat), Mapped m s n → Mapped m d n → d ≤ s → s % 8 = d % 8 →
    alignFwd m d s n = .ok (copied m d s n)
  | 0, m, d, s, hs, hd, h, h8 => by
    unfold alignFwd
    split
    · rw [copied_zero]
    · rw [wordsFwd_ok 0 m d s hs hd h (by omega) (by omega)]
  | n + 1, m, d, s, hs, hd, h, h8 => by
    unfold alignFwd
    split
    · rw [copy1 (fun m => alignFwd m (d + 1) (s + 1) n) (hs.mono (by omega) (by omega)) (hd.mono (by omega) (by omega))]
      rw [alignFwd_ok n _ (d + 1) (s + 1) (mapped_copied (hs.mono (by omega) (by omega)) (hs.mono (by omega) (by omega)))
        (mapped_copied (hs.mono (by omega) (by omega)) (hd.mono (by omega) (by omega))) (by omega) (by omega)]
      rw [copied_up m 1 n (by omega), Nat.add_comm 1 n]
    · rw [wordsFwd_ok _ m d s hs hd h (by omega) (by omega)]

theorem bytesBwd_ok : ∀ (n : Nat) (m : Memory) (d s : Nat), Mapped m s n → Mapped m d n → s ≤ d →
    bytesBwd m d s n = .ok (copied m d s n)
  | 0, m, d, s, _, _, _ => by simp [bytesBwd, copied_zero]
  | n + 1, m, d, s, hs, hd, h => by
    rw [bytesBwd, copy1 (fun m => bytesBwd m d s n) (hs.mono (by omega) (by omega)) (hd.mono (by omega) (by omega))]
    rw [bytesBwd_ok n _ d s (mapped_copied (hs.mono (by omega) (by omega)) (hs.mono (by omega) (by omega)))
      (mapped_copied (hs.mono (by omega) (by omega)) (hd.mono (by omega) (by omega))) h]
    rw [copied_down m n 1 h]

theorem wordsBwd_ok : ∀ (n : Nat) (m : Memory) (d s : Nat), Mapped m s n → Mapped m d n → s ≤ d → (d + n) % 8 = 0 → (s + n) % 8 = 0 →
    wordsBwd m d s n = .ok (copied m d s n) := by
  intro n
  induction n using Nat.strongRecOn with
  | ind n ih =>
    intro m d s hs hd h h8 h8'
    by_cases hn : 8 ≤ n
    · obtain ⟨k, rfl⟩ : ∃ k, n = k + 8 := ⟨n - 8, by omega⟩
      rw [wordsBwd, copyW (fun m => wordsBwd m d s k) (hs.mono (by omega) (by omega)) (hd.mono (by omega) (by omega)) (by omega) (by omega)]
      rw [ih k (by omega) _ d s (mapped_copied (hs.mono (by omega) (by omega)) (hs.mono (by omega) (by omega)))
        (mapped_copied (hs.mono (by omega) (by omega)) (hd.mono (by omega) (by omega))) (by omega) (by omega) (by omega)]
      rw [copied_down m k 8 h]
    · have : wordsBwd m d s n = bytesBwd m d s n := by
        unfold wordsBwd
        split
        · omega
        · rfl
      rw [this, bytesBwd_ok n m d s hs hd (by omega)]

theorem alignBwd_ok : ∀ (n : Nat) (m : Memory) (d s : Nat), Mapped m s n → Mapped m d n → s ≤ d → s % 8 = d % 8 →
    alignBwd m d s n = .ok (copied m d s n)
  | 0, m, d, s, hs, hd, h, h8 => by
    unfold alignBwd
    split
    · rw [copied_zero]
    · rw [wordsBwd_ok 0 m d s hs hd h (by omega) (by omega)]
  | n + 1, m, d, s, hs, hd, h, h8 => by
    unfold alignBwd
    split
    · rw [copy1 (fun m => alignBwd m d s n) (hs.mono (by omega) (by omega)) (hd.mono (by omega) (by omega))]
      rw [alignBwd_ok n _ d s (mapped_copied (hs.mono (by omega) (by omega)) (hs.mono (by omega) (by omega)))
        (mapped_copied (hs.mono (by omega) (by omega)) (hd.mono (by omega) (by omega))) (by omega) (by omega)]
      rw [copied_down m n 1 h]
    · rw [wordsBwd_ok _ m d s hs hd h (by omega) (by omega)]

theorem copied_self (m : Memory) (d n : Nat) : copied m d d n = m := by
  funext a; unfold copied; split
  · congr 1; omega
  · rfl

/-! memset: the set of bytes written so far, as a list of intervals -/

def fillL (m : Memory) (c : Byte) (ivs : List (Nat × Nat)) : Memory := fun x =>
  if ivs.any (fun iv => decide (iv.1 ≤ x ∧ x < iv.1 + iv.2)) then some c else m x

theorem fillL_mapped {m : Memory} {c : Byte} {ivs : List (Nat × Nat)} {a n : Nat} (h : Mapped m a n) : Mapped (fillL m c ivs) a n := by
  intro i hi
  unfold fillL
  split
  · rfl
  · exact h i hi

theorem filled_fillL (m : Memory) (c : Byte) (ivs : List (Nat × Nat)) (a n : Nat) :
    filled (fillL m c ivs) a n c = fillL m c ((a, n) :: ivs) := by
  funext x
  unfold filled fillL
  rw [List.any_cons]
  by_cases h : a ≤ x ∧ x < a + n
  · rw [if_pos h, decide_eq_true h]; simp
  · rw [if_neg h, decide_eq_false h, Bool.false_or]

theorem cov_cons (x a n : Nat) (l : List (Nat × Nat)) : (∃ iv ∈ (a, n) :: l, iv.1 ≤ x ∧ x < iv.1 + iv.2) ↔
    (a ≤ x ∧ x < a + n) ∨ ∃ iv ∈ l, iv.1 ≤ x ∧ x < iv.1 + iv.2 := by
  constructor
  · rintro ⟨iv, h, h2⟩
    rcases List.mem_cons.mp h with rfl | h
    · exact Or.inl h2
    · exact Or.inr ⟨iv, h, h2⟩
  · rintro (h | ⟨iv, h, h2⟩)
    · exact ⟨_, List.mem_cons_self, h⟩
    · exact ⟨iv, List.mem_cons_of_mem _ h, h2⟩

theorem cov_nil (x : Nat) : (∃ iv ∈ ([] : List (Nat × Nat)), iv.1 ≤ x ∧ x < iv.1 + iv.2) ↔ False := by simp

theorem st_fill {m : Memory} {c : Byte} {ivs : List (Nat × Nat)} {d n a : Nat} (h : Mapped m d n) (h1 : d ≤ a) (h2 : a < d + n) :
    st (fillL m c ivs) a c = .ok (fillL m c ((a, 1) :: ivs)) := by
  rw [← filled_fillL, st_ok ((fillL_mapped h).at h1 h2)]
  congr 1; funext x; unfold filled
  by_cases hx : x = a
  · rw [if_pos hx, if_pos (by omega)]
  · rw [if_neg hx, if_neg (by omega)]

theorem c32_bytes (c : Byte) : wordBytes (c32 c) 4 = List.replicate 4 c := by
  have : ∀ c : BitVec 8, wordBytes (c32 c) 4 = List.replicate 4 c := by decide +kernel
  exact this c

theorem c64_bytes (c : Byte) : wordBytes (c64 c) 8 = List.replicate 8 c := by
  have : ∀ c : BitVec 8, wordBytes (c64 c) 8 = List.replicate 8 c := by decide +kernel
  exact this c

theorem st32_fill {m : Memory} {c : Byte} {ivs : List (Nat × Nat)} {d n a : Nat} (h : Mapped m d n) (h1 : d ≤ a) (h2 : a + 4 ≤ d + n)
    (h4 : a % 4 = 0) : st32 (fillL m c ivs) a c = .ok (fillL m c ((a, 4) :: ivs)) := by
  unfold st32 stW
  rw [c32_bytes, if_pos (by simpa using h4), stN_replicate ((fillL_mapped h).mono h1 h2), filled_fillL]

theorem st64_fill {m : Memory} {c : Byte} {ivs : List (Nat × Nat)} {d n a : Nat} (h : Mapped m d n) (h1 : d ≤ a) (h2 : a + 8 ≤ d + n)
    (h4 : a % 8 = 0) : st64 (fillL m c ivs) a c = .ok (fillL m c ((a, 8) :: ivs)) := by
  unfold st64 stW
  rw [c64_bytes, if_pos (by simpa using h4), stN_replicate ((fillL_mapped h).mono h1 h2), filled_fillL]

theorem fillL_congr (m : Memory) (c : Byte) {is js : List (Nat × Nat)}
    (h : ∀ x, (∃ iv ∈ is, iv.1 ≤ x ∧ x < iv.1 + iv.2) ↔ (∃ iv ∈ js, iv.1 ≤ x ∧ x < iv.1 + iv.2)) : fillL m c is = fillL m c js := by
  funext x
  unfold fillL
  have : is.any (fun iv => decide (iv.1 ≤ x ∧ x < iv.1 + iv.2)) = js.any (fun iv => decide (iv.1 ≤ x ∧ x < iv.1 + iv.2)) := by
    rw [Bool.eq_iff_iff, List.any_eq_true, List.any_eq_true]
    simpa using h x
  rw [this]

theorem setLoop_fill {m : Memory} {c : Byte} {d N : Nat} (h : Mapped m d N) : ∀ (n s : Nat) (ivs : List (Nat × Nat)), d ≤ s → s + n ≤ d + N →
    s % 8 = 0 → setLoop (fillL m c ivs) s c n = .ok (fillL m c ((s, n / 32 * 32) :: ivs)) := by
  intro n
  induction n using Nat.strongRecOn with
  | ind n ih =>
    intro s ivs h1 h2 h8
    by_cases hn : 32 ≤ n
    · obtain ⟨k, rfl⟩ : ∃ k, n = k + 32 := ⟨n - 32, by omega⟩
      unfold setLoop
      rw [st64_fill h (by omega) (by omega) (by omega), except_ok_bind, st64_fill h (by omega) (by omega) (by omega), except_ok_bind,
        st64_fill h (by omega) (by omega) (by omega), except_ok_bind, st64_fill h (by omega) (by omega) (by omega), except_ok_bind,
        ih k (by omega) _ _ (by omega) (by omega) (by omega)]
      congr 1
      apply fillL_congr
      intro x
      simp only [cov_cons]
      have e : (k + 32) / 32 * 32 = k / 32 * 32 + 32 := by omega
      constructor
      · rintro (h | h | h | h | h | h)
        · left; omega
        · left; omega
        · left; omega
        · left; omega
        · left; omega
        · right; exact h
      · rintro (h | h)
        · by_cases a1 : x < s + 8
          · right; right; right; right; left; omega
          · by_cases a2 : x < s + 16
            · right; right; right; left; omega
            · by_cases a3 : x < s + 24
              · right; right; left; omega
              · by_cases a4 : x < s + 32
                · right; left; omega
                · left; omega
        · right; right; right; right; right; exact h
    · have : setLoop (fillL m c ivs) s c n = .ok (fillL m c ivs) := by
        unfold setLoop
        split
        · omega
        · rfl
      rw [this]
      congr 1
      apply fillL_congr
      intro x
      simp only [cov_cons]
      constructor
      · intro h; right; exact h
      · rintro (h | h)
        · omega
        · exact h

theorem fillL_nil (m : Memory) (c : Byte) : fillL m c [] = m := by
  funext x; simp [fillL]

/-- A set of intervals that covers exactly the region is the fill. -/
theorem fillL_eq_filled (m : Memory) (c : Byte) (d n : Nat) (ivs : List (Nat × Nat))
    (h : ∀ x, (∃ iv ∈ ivs, iv.1 ≤ x ∧ x < iv.1 + iv.2) ↔ d ≤ x ∧ x < d + n) : fillL m c ivs = filled m d n c := by
  rw [show filled m d n c = fillL m c [(d, n)] by rw [← filled_fillL, fillL_nil]]
  apply fillL_congr
  intro x
  rw [h x]
  simp

theorem setBody_ok (m : Memory) (d n : Nat) (c : Byte) (h : Mapped m d n) : setBody m d n c = .ok (filled m d n c) := by
  unfold setBody
  by_cases h0 : n = 0
  · subst h0
    rw [if_pos rfl]; congr 1; funext x; unfold filled; rw [if_neg (by omega)]
  rw [if_neg h0]
  have hm : m = fillL m c [] := (fillL_nil m c).symm
  conv => lhs; rw [hm]
  rw [st_fill h (by omega) (by omega), except_ok_bind, st_fill h (by omega) (by omega), except_ok_bind]
  by_cases h3 : n < 3
  · rw [if_pos h3]; congr 1
    apply fillL_eq_filled
    intro x
    simp only [cov_cons, cov_nil, or_false]
    omega
  rw [if_neg h3, st_fill h (by omega) (by omega), except_ok_bind, st_fill h (by omega) (by omega), except_ok_bind,
    st_fill h (by omega) (by omega), except_ok_bind, st_fill h (by omega) (by omega), except_ok_bind]
  by_cases h7 : n < 7
  · rw [if_pos h7]; congr 1
    apply fillL_eq_filled
    intro x
    simp only [cov_cons, cov_nil, or_false]
    omega
  rw [if_neg h7, st_fill h (by omega) (by omega), except_ok_bind, st_fill h (by omega) (by omega), except_ok_bind]
  by_cases h9 : n < 9
  · rw [if_pos h9]; congr 1
    apply fillL_eq_filled
    intro x
    simp only [cov_cons, cov_nil, or_false]
    omega
  rw [if_neg h9]
  -- head bytes [d, d+4) and tail bytes [d+n-4, d+n) are written
  generalize hivs : ([(d + 3, 1), (d + n - 4, 1), (d + 2, 1), (d + n - 3, 1), (d + 1, 1), (d + n - 2, 1), (d + 0, 1), (d + n - 1, 1)] : List (Nat × Nat)) = ivs
  have hcov : ∀ x, (∃ iv ∈ ivs, iv.1 ≤ x ∧ x < iv.1 + iv.2) ↔ (d ≤ x ∧ x < d + 4) ∨ (d + n - 4 ≤ x ∧ x < d + n) := by
    intro x
    rw [← hivs]
    simp only [cov_cons, cov_nil, or_false]
    omega
  simp only []
  generalize hs : d + (4 - d % 4) % 4 = s
  generalize hn : n - (4 - d % 4) % 4 - (n - (4 - d % 4) % 4) % 4 = n'
  have hs4 : s % 4 = 0 := by omega
  have hn4 : n' % 4 = 0 := by omega
  have hsd : d ≤ s ∧ s ≤ d + 3 := by omega
  have hend : s + n' ≤ d + n ∧ d + n ≤ s + n' + 3 := by omega
  have hn4' : 4 ≤ n' := by omega
  unfold set9
  rw [st32_fill h (by omega) (by omega) (by omega), except_ok_bind, st32_fill h (by omega) (by omega) (by omega), except_ok_bind]
  by_cases h9' : n' < 9
  · rw [if_pos h9']; congr 1
    apply fillL_eq_filled
    intro x
    simp only [cov_cons, hcov]
    omega
  rw [if_neg h9', st32_fill h (by omega) (by omega) (by omega), except_ok_bind, st32_fill h (by omega) (by omega) (by omega), except_ok_bind,
    st32_fill h (by omega) (by omega) (by omega), except_ok_bind, st32_fill h (by omega) (by omega) (by omega), except_ok_bind]
  by_cases h25 : n' < 25
  · rw [if_pos h25]; congr 1
    apply fillL_eq_filled
    intro x
    simp only [cov_cons, hcov]
    omega
  rw [if_neg h25]
  unfold set25
  rw [st32_fill h (by omega) (by omega) (by omega), except_ok_bind, st32_fill h (by omega) (by omega) (by omega), except_ok_bind,
    st32_fill h (by omega) (by omega) (by omega), except_ok_bind, st32_fill h (by omega) (by omega) (by omega), except_ok_bind,
    st32_fill h (by omega) (by omega) (by omega), except_ok_bind, st32_fill h (by omega) (by omega) (by omega), except_ok_bind,
    st32_fill h (by omega) (by omega) (by omega), except_ok_bind, st32_fill h (by omega) (by omega) (by omega), except_ok_bind]
  simp only []
  generalize hk : 24 + (if s % 8 < 4 then 0 else 4) = k
  have hk8 : (s + k) % 8 = 0 ∧ 24 ≤ k ∧ k ≤ 28 := by
    split at hk <;> omega
  rw [setLoop_fill h _ _ _ (by omega) (by omega) (by omega)]
  congr 1
  apply fillL_eq_filled
  intro x
  simp only [cov_cons, hcov]
  generalize hq : (n' - k) / 32 * 32 = q
  have hq' : n' - k < q + 32 ∧ q ≤ n' - k ∧ q % 4 = 0 := by omega
  clear hq hk hivs hcov hs hn
  omega

/-! memswap -/

theorem bytes_mapped {m m' : Memory} {a n : Nat} (h : ∀ x, (m x).isSome → (m' x).isSome) (hm : Mapped m a n) : Mapped m' a n :=
  fun i hi => h _ (hm i hi)

theorem swapped_isSome {m : Memory} {i j n : Nat} (hi : Mapped m i n) (hj : Mapped m j n) (x : Nat) (h : (m x).isSome) :
    (swapped m i j n x).isSome := by
  unfold swapped
  split
  · exact hj.at (by omega) (by omega)
  · split
    · exact hi.at (by omega) (by omega)
    · exact h

theorem swapWord_ok {m : Memory} {i j k : Nat} (hi : Mapped m i k) (hj : Mapped m j k) (hd : i + k ≤ j ∨ j + k ≤ i) :
    swapWord m i j k = .ok (swapped m i j k) := by
  obtain ⟨tmp, t1, t2, t3⟩ := ldN_ok k i hi
  obtain ⟨w, w1, w2, w3⟩ := ldN_ok k j hj
  unfold swapWord
  rw [t1, except_ok_bind, w1, except_ok_bind, stN_ok w m i (by rwa [w2]), except_ok_bind, stN_ok tmp]
  · congr 1; funext x
    unfold swapped
    rw [t2, w2]
    by_cases h1 : i ≤ x ∧ x < i + k
    · rw [if_neg (by omega), if_pos h1, if_pos h1, w3 _ (by omega)]
    · by_cases h2 : j ≤ x ∧ x < j + k
      · rw [if_pos h2, if_neg h1, if_pos h2, t3 _ (by omega)]
      · rw [if_neg h2, if_neg h1, if_neg h1, if_neg h2]
  · intro x hx
    rw [t2] at hx
    simp only
    split
    · rw [w3 _ (by omega)]; exact hj.at (by omega) (by omega)
    · exact hj.at (by omega) (by omega)

theorem swapBuffer_ok {m : Memory} {i j n : Nat} (hi : Mapped m i n) (hj : Mapped m j n) (hd : i + n ≤ j ∨ j + n ≤ i) :
    swapBuffer m i j n = .ok (swapped m i j n) := by
  obtain ⟨tmp, t1, t2, t3⟩ := ldN_ok n i hi
  unfold swapBuffer memcpy
  rw [t1, except_ok_bind, if_pos (by omega), bytesFwd_ok n m i j hj hi (by omega), except_ok_bind, stN_ok tmp]
  · congr 1; funext x
    unfold swapped copied
    rw [t2]
    by_cases h1 : i ≤ x ∧ x < i + n
    · rw [if_neg (by omega), if_pos h1, if_pos h1]
    · by_cases h2 : j ≤ x ∧ x < j + n
      · rw [if_pos h2, if_neg h1, if_pos h2, t3 _ (by omega)]
      · rw [if_neg h2, if_neg h1, if_neg h1, if_neg h2]
  · rw [t2]; exact mapped_copied hj hj

theorem swapped_split (m : Memory) {i j : Nat} (k n : Nat) (hd : i + (k + n) ≤ j ∨ j + (k + n) ≤ i) :
    swapped (swapped m i j k) (i + k) (j + k) n = swapped m i j (k + n) := by
  funext x
  unfold swapped
  by_cases h1 : i + k ≤ x ∧ x < i + k + n
  · rw [if_pos h1, if_neg (by omega), if_neg (by omega), if_pos (by omega)]; congr 1; omega
  · rw [if_neg h1]
    by_cases h2 : j + k ≤ x ∧ x < j + k + n
    · rw [if_pos h2, if_neg (by omega), if_neg (by omega), if_neg (by omega), if_pos (by omega)]; congr 1; omega
    · rw [if_neg h2]
      by_cases h3 : i ≤ x ∧ x < i + k
      · rw [if_pos h3, if_pos (by omega)]
      · rw [if_neg h3]
        by_cases h4 : j ≤ x ∧ x < j + k
        · rw [if_pos h4, if_neg (by omega), if_pos (by omega)]
        · rw [if_neg h4, if_neg (by omega), if_neg (by omega)]

theorem swapped_zero (m : Memory) (i j : Nat) : swapped m i j 0 = m := by
  funext x; unfold swapped; rw [if_neg (by omega), if_neg (by omega)]

theorem swapBytes_ok : ∀ (n : Nat) (m : Memory) (i j : Nat), Mapped m i n → Mapped m j n → (i + n ≤ j ∨ j + n ≤ i) →
    swapBytes m i j n = .ok (swapped m i j n)
  | 0, m, i, j, _, _, _ => by rw [swapBytes, swapped_zero]
  | n + 1, m, i, j, hi, hj, hd => by
    have hi1 : Mapped m i 1 := hi.mono (by omega) (by omega)
    have hj1 : Mapped m j 1 := hj.mono (by omega) (by omega)
    rw [swapBytes, swapWord_ok hi1 hj1 (by omega), except_ok_bind,
      swapBytes_ok n _ (i + 1) (j + 1) (bytes_mapped (swapped_isSome hi1 hj1) (hi.mono (by omega) (by omega)))
        (bytes_mapped (swapped_isSome hi1 hj1) (hj.mono (by omega) (by omega))) (by omega),
      swapped_split m 1 n (by omega), Nat.add_comm 1 n]

theorem swapChunks_ok : ∀ (n : Nat) (m : Memory) (i j : Nat), Mapped m i n → Mapped m j n → (i + n ≤ j ∨ j + n ≤ i) →
    swapChunks m i j n = .ok (swapped m i j n) := by
  intro n
  induction n using Nat.strongRecOn with
  | ind n ih =>
    intro m i j hi hj hd
    unfold swapChunks
    by_cases hn : 256 < n
    · have hi1 : Mapped m i 256 := hi.mono (by omega) (by omega)
      have hj1 : Mapped m j 256 := hj.mono (by omega) (by omega)
      rw [if_pos hn, swapBuffer_ok hi1 hj1 (by omega), except_ok_bind, ih (n - 256) (by omega) _ _ _
        (bytes_mapped (swapped_isSome hi1 hj1) (hi.mono (by omega) (by omega)))
        (bytes_mapped (swapped_isSome hi1 hj1) (hj.mono (by omega) (by omega))) (by omega),
        swapped_split m 256 (n - 256) (by omega), show 256 + (n - 256) = n by omega]
    · rw [if_neg hn, swapBuffer_ok hi hj hd]

/-! memchr -/

/-- The value of eight bytes. -/
theorem wordOf_toNat (b0 b1 b2 b3 b4 b5 b6 b7 : Byte) : (wordOf [b0, b1, b2, b3, b4, b5, b6, b7]).toNat =
    b0.toNat + 256 * (b1.toNat + 256 * (b2.toNat + 256 * (b3.toNat + 256 * (b4.toNat + 256 * (b5.toNat + 256 * (b6.toNat + 256 * b7.toNat)))))) := by
  simp only [wordOf, BitVec.toNat_ofNat, List.foldr]
  have := b0.isLt; have := b1.isLt; have := b2.isLt; have := b3.isLt
  have := b4.isLt; have := b5.isLt; have := b6.isLt; have := b7.isLt
  omega

/-- A word all of whose bytes are different from `c` passes; the converse: if the test says "no zero byte", no byte is `c`. -/
theorem hasZero_sound (b : Nat → Byte) (x : BitVec 64) (hx : x = wordOf [b 0, b 1, b 2, b 3, b 4, b 5, b 6, b 7]) (h : hasZero x = 0) :
    ∀ i, i < 8 → b i ≠ 0 := by
  have hN := wordOf_toNat (b 0) (b 1) (b 2) (b 3) (b 4) (b 5) (b 6) (b 7)
  rw [← hx] at hN
  have bit : ∀ i, i < 8 → ¬ ((x - ones).toNat.testBit (8 * i + 7) = true ∧ x.toNat.testBit (8 * i + 7) = false) := by
    intro i hi ⟨h1, h2⟩
    have hh := congrArg (fun v : BitVec 64 => v.getLsbD (8 * i + 7)) h
    have hhi : highs.getLsbD (8 * i + 7) = true := by
      have : ∀ i : Fin 8, highs.getLsbD (8 * i.1 + 7) = true := by decide +kernel
      exact this ⟨i, hi⟩
    simp only [hasZero, BitVec.getLsbD_and, BitVec.getLsbD_not, hhi] at hh
    rw [← BitVec.testBit_toNat, ← BitVec.testBit_toNat, h1, h2] at hh
    simp [show 8 * i + 7 < 64 by omega] at hh
  have hb := fun i => (b i).isLt
  have hsub : (x - ones).toNat = (2 ^ 64 - 72340172838076673 + x.toNat) % 2 ^ 64 := by
    rw [BitVec.toNat_sub, show ones.toNat = 72340172838076673 by decide +kernel]
  -- the lowest zero byte gives a contradiction
  have low : ∀ i, i < 8 → (∀ k, k < i → b k ≠ 0) → b i ≠ 0 := by
    intro i hi hk hz
    have pos : ∀ k, k < i → 1 ≤ (b k).toNat := by
      intro k hki
      have := hk k hki
      have : (b k).toNat ≠ 0 := fun e => this (BitVec.eq_of_toNat_eq (by simpa using e))
      omega
    have hz0 : (b i).toNat = 0 := by rw [hz]; rfl
    have := hb 0; have := hb 1; have := hb 2; have := hb 3; have := hb 4; have := hb 5; have := hb 6; have := hb 7
    apply bit i hi
    rw [hsub, Nat.testBit_eq_decide_div_mod_eq, Nat.testBit_eq_decide_div_mod_eq, decide_eq_true_eq, decide_eq_false_iff_not, hN]
    clear bit hN hsub
    match i, hi with
    | 0, _ => constructor <;> omega
    | 1, _ =>
      have := pos 0 (by omega)
      constructor <;> omega
    | 2, _ =>
      have := pos 0 (by omega); have := pos 1 (by omega)
      constructor <;> omega
    | 3, _ =>
      have := pos 0 (by omega); have := pos 1 (by omega); have := pos 2 (by omega)
      constructor <;> omega
    | 4, _ =>
      have := pos 0 (by omega); have := pos 1 (by omega); have := pos 2 (by omega); have := pos 3 (by omega)
      constructor <;> omega
    | 5, _ =>
      have := pos 0 (by omega); have := pos 1 (by omega); have := pos 2 (by omega); have := pos 3 (by omega); have := pos 4 (by omega)
      constructor <;> omega
    | 6, _ =>
      have := pos 0 (by omega); have := pos 1 (by omega); have := pos 2 (by omega); have := pos 3 (by omega); have := pos 4 (by omega)
      have := pos 5 (by omega)
      constructor <;> omega
    | 7, _ =>
      have := pos 0 (by omega); have := pos 1 (by omega); have := pos 2 (by omega); have := pos 3 (by omega); have := pos 4 (by omega)
      have := pos 5 (by omega); have := pos 6 (by omega)
      constructor <;> omega
  intro i
  induction i using Nat.strongRecOn with
  | ind i ih => intro hi; exact low i hi (fun k hk => ih k hk (by omega))

theorem wordOf_cons (a : Byte) (u : List Byte) (h : u.length < 8) : wordOf (a :: u) = (wordOf u <<< 8) ^^^ a.setWidth 64 :=
  Murmur.loadLE_cons (w := 64) a u (by omega)

theorem wordOf_xor : ∀ (u v : List Byte), u.length = v.length → u.length ≤ 8 →
    wordOf u ^^^ wordOf v = wordOf (List.zipWith (· ^^^ ·) u v)
  | [], [], _, _ => by simp [wordOf]
  | [], _ :: _, h, _ => by simp at h
  | _ :: _, [], h, _ => by simp at h
  | a :: u, b :: v, h, h8 => by
    simp only [List.length_cons] at h h8
    rw [wordOf_cons a u (by omega), wordOf_cons b v (by omega), List.zipWith_cons_cons,
      wordOf_cons _ _ (by simp only [List.length_zipWith]; omega), ← wordOf_xor u v (by omega) (by omega), BitVec.shiftLeft_xor_distrib,
      BitVec.setWidth_xor]
    ac_rfl

theorem ones_mul (c : Byte) : ones * c.setWidth 64 = wordOf (List.replicate 8 c) := by
  have : ∀ c : BitVec 8, ones * c.setWidth 64 = wordOf (List.replicate 8 c) := by decide +kernel
  exact this c

/-- If the word test finds no zero byte, none of the eight bytes is `c`. -/
theorem word_test (bs : List Byte) (c : Byte) (hl : bs.length = 8) (h : hasZero (wordOf bs ^^^ (ones * c.setWidth 64)) = 0) : c ∉ bs := by
  obtain ⟨b0, b1, b2, b3, b4, b5, b6, b7, rfl⟩ := Murmur.eight hl
  rw [ones_mul, wordOf_xor _ _ (by simp) (by simp)] at h
  have := hasZero_sound (fun i => (([b0, b1, b2, b3, b4, b5, b6, b7] : List Byte)[i]?.getD 0) ^^^ c) _ rfl
    (by simpa [List.replicate] using h)
  intro hc
  obtain ⟨i, hi, he⟩ := List.getElem_of_mem hc
  have hn := this i (by simpa using hi)
  simp only [List.getElem?_eq_getElem hi, Option.getD_some] at hn
  rw [he, BitVec.xor_self] at hn
  exact hn rfl

/-- Result of a search: the least address of a byte `c`, or none. -/
def IsFirst (m : Memory) (s n : Nat) (c : Byte) (r : Option Nat) : Prop :=
  match r with
  | some a => s ≤ a ∧ a < s + n ∧ m a = some c ∧ ∀ x, s ≤ x → x < a → m x ≠ some c
  | none => ∀ x, s ≤ x → x < s + n → m x ≠ some c

def IsLast (m : Memory) (s n : Nat) (c : Byte) (r : Option Nat) : Prop :=
  match r with
  | some a => s ≤ a ∧ a < s + n ∧ m a = some c ∧ ∀ x, a < x → x < s + n → m x ≠ some c
  | none => ∀ x, s ≤ x → x < s + n → m x ≠ some c

/-- Skipping `k` bytes none of which is `c`. -/
theorem IsFirst.skip {m : Memory} {s n k : Nat} {c : Byte} {r : Option Nat} (h : IsFirst m (s + k) n c r)
    (hk : ∀ x, s ≤ x → x < s + k → m x ≠ some c) : IsFirst m s (n + k) c r := by
  unfold IsFirst at *
  cases r with
  | none =>
    intro x h1 h2
    by_cases hx : x < s + k
    · exact hk x h1 hx
    · exact h x (by omega) (by omega)
  | some a =>
    obtain ⟨h1, h2, h3, h4⟩ := h
    refine ⟨by omega, by omega, h3, ?_⟩
    intro x hx1 hx2
    by_cases hx : x < s + k
    · exact hk x hx1 hx
    · exact h4 x (by omega) hx2

theorem chrBytes_ok {m : Memory} {c : Byte} : ∀ (n s : Nat), Mapped m s n → ∃ r, chrBytes m s c n = .ok r ∧ IsFirst m s n c r
  | 0, s, _ => ⟨none, rfl, by intro x h1 h2; omega⟩
  | n + 1, s, h => by
    obtain ⟨b, hb⟩ := Option.isSome_iff_exists.mp (h.at (x := s) (by omega) (by omega))
    obtain ⟨r, h1, h2⟩ := chrBytes_ok (m := m) (c := c) n (s + 1) (h.mono (by omega) (by omega))
    rw [chrBytes, ld_ok hb, except_ok_bind]
    by_cases hc : b ≠ c
    · rw [if_pos hc]
      refine ⟨r, h1, h2.skip ?_⟩
      intro x hx1 hx2
      rw [show x = s by omega, hb]; simpa using hc
    · rw [if_neg hc]
      have : b = c := by simpa using hc
      subst this
      exact ⟨some s, rfl, by omega, by omega, hb, by intro x h1 h2; omega⟩

theorem chrWords_ok {m : Memory} {c : Byte} : ∀ (n s : Nat), Mapped m s n → s % 8 = 0 → ∃ r, chrWords m s c n = .ok r ∧ IsFirst m s n c r := by
  intro n
  induction n using Nat.strongRecOn with
  | ind n ih =>
    intro s h h8
    by_cases hn : 8 ≤ n
    · obtain ⟨k, rfl⟩ : ∃ k, n = k + 8 := ⟨n - 8, by omega⟩
      obtain ⟨bs, b1, b2, b3⟩ := ldN_ok 8 s (h.mono (by omega) (by omega))
      unfold chrWords ldW
      rw [if_pos h8, b1, except_ok_bind]
      by_cases hz : hasZero (wordOf bs ^^^ (ones * c.setWidth 64)) = 0
      · rw [if_pos hz]
        obtain ⟨r, h1, h2⟩ := ih k (by omega) (s + 8) (h.mono (by omega) (by omega)) (by omega)
        refine ⟨r, h1, h2.skip ?_⟩
        intro x hx1 hx2 hm
        have := b3 (x - s) (by omega)
        rw [show s + (x - s) = x by omega, hm] at this
        exact word_test bs c b2 hz (List.mem_of_getElem? this)
      · rw [if_neg hz]
        exact chrBytes_ok (k + 8) s h
    · have : chrWords m s c n = chrBytes m s c n := by
        unfold chrWords
        split
        · omega
        · rfl
      rw [this]
      exact chrBytes_ok n s h

theorem memchr_ok {m : Memory} {c : Byte} : ∀ (n s : Nat), Mapped m s n → ∃ r, memchr m s c n = .ok r ∧ IsFirst m s n c r
  | 0, s, _ => ⟨none, rfl, by intro x h1 h2; omega⟩
  | n + 1, s, h => by
    obtain ⟨b, hb⟩ := Option.isSome_iff_exists.mp (h.at (x := s) (by omega) (by omega))
    obtain ⟨r, h1, h2⟩ := memchr_ok (m := m) (c := c) n (s + 1) (h.mono (by omega) (by omega))
    rw [memchr, ld_ok hb, except_ok_bind, except_ok_bind]
    have found : b = c → IsFirst m s (n + 1) c (some s) := by
      rintro rfl
      exact ⟨by omega, by omega, hb, by intro x h1 h2; omega⟩
    by_cases h8 : s % 8 ≠ 0
    · rw [if_pos h8]
      by_cases hc : b ≠ c
      · rw [if_pos hc]
        refine ⟨r, h1, h2.skip ?_⟩
        intro x hx1 hx2
        rw [show x = s by omega, hb]; simpa using hc
      · rw [if_neg hc]
        exact ⟨_, rfl, found (by simpa using hc)⟩
    · rw [if_neg h8]
      by_cases hc : b ≠ c
      · rw [if_pos hc]
        exact chrWords_ok (n + 1) s h (by omega)
      · rw [if_neg hc]
        exact ⟨_, rfl, found (by simpa using hc)⟩

theorem memrchr_ok {m : Memory} {c : Byte} {s : Nat} : ∀ (n : Nat), Mapped m s n → ∃ r, memrchr m s c n = .ok r ∧ IsLast m s n c r
  | 0, _ => ⟨none, rfl, by intro x h1 h2; omega⟩
  | n + 1, h => by
    obtain ⟨b, hb⟩ := Option.isSome_iff_exists.mp (h.at (x := s + n) (by omega) (by omega))
    obtain ⟨r, h1, h2⟩ := memrchr_ok (m := m) (c := c) (s := s) n (h.mono (by omega) (by omega))
    rw [memrchr, ld_ok hb, except_ok_bind]
    by_cases hc : b = c
    · rw [if_pos hc]
      subst hc
      exact ⟨_, rfl, by omega, by omega, hb, by intro x h1 h2; omega⟩
    · rw [if_neg hc]
      refine ⟨r, h1, ?_⟩
      have last : m (s + n) ≠ some c := by rw [hb]; simpa using hc
      unfold IsLast at *
      cases r with
      | none =>
        intro x hx1 hx2
        by_cases hx : x = s + n
        · rw [hx]; exact last
        · exact h2 x hx1 (by omega)
      | some a =>
        obtain ⟨g1, g2, g3, g4⟩ := h2
        refine ⟨g1, by omega, g3, ?_⟩
        intro x hx1 hx2
        by_cases hx : x = s + n
        · rw [hx]; exact last
        · exact g4 x hx1 (by omega)

/-- Comparison of two regions, as the code's result determines it. -/
theorem cmpLoop_ok {m : Memory} : ∀ (n a b : Nat), Mapped m a n → Mapped m b n → ∃ d, cmpLoop m a b n = .ok d ∧
    ((d = 0 ∧ ∀ i, i < n → m (a + i) = m (b + i)) ∨
     (∃ i x y, i < n ∧ (∀ k, k < i → m (a + k) = m (b + k)) ∧ m (a + i) = some x ∧ m (b + i) = some y ∧ x ≠ y ∧
      d = (x.toNat : Int) - y.toNat))
  | 0, a, b, _, _ => ⟨0, rfl, Or.inl ⟨rfl, by intro i hi; omega⟩⟩
  | n + 1, a, b, ha, hb => by
    obtain ⟨x, hx⟩ := Option.isSome_iff_exists.mp (ha.at (x := a) (by omega) (by omega))
    obtain ⟨y, hy⟩ := Option.isSome_iff_exists.mp (hb.at (x := b) (by omega) (by omega))
    obtain ⟨d, h1, h2⟩ := cmpLoop_ok (m := m) n (a + 1) (b + 1) (ha.mono (by omega) (by omega)) (hb.mono (by omega) (by omega))
    rw [cmpLoop, ld_ok hx, except_ok_bind, ld_ok hy, except_ok_bind]
    simp only []
    by_cases hd : (x.toNat : Int) - (y.toNat : Int) ≠ 0
    · rw [if_pos hd]
      refine ⟨_, rfl, Or.inr ⟨0, x, y, by omega, by intro k hk; omega, by simpa using hx, by simpa using hy, ?_, rfl⟩⟩
      rintro rfl; omega
    · rw [if_neg hd]
      have hxy : x = y := BitVec.eq_of_toNat_eq (by omega)
      subst hxy
      refine ⟨d, h1, ?_⟩
      have shift : ∀ (P : Nat → Prop) (j : Nat), P 0 → (∀ i, i < j → P (i + 1)) → ∀ i, i < j + 1 → P i := by
        intro P j h0 hs i hi
        cases i with
        | zero => exact h0
        | succ i => exact hs i (by omega)
      rcases h2 with ⟨rfl, h2⟩ | ⟨i, u, v, hi, h3, h4, h5, h6, h7⟩
      · left
        refine ⟨rfl, shift _ n (by simp [hx, hy]) ?_⟩
        intro i hi
        have := h2 i hi
        rwa [show a + 1 + i = a + (i + 1) by omega, show b + 1 + i = b + (i + 1) by omega] at this
      · right
        refine ⟨i + 1, u, v, by omega, shift _ i (by simp [hx, hy]) ?_, ?_, ?_, h6, h7⟩
        · intro k hk
          have := h3 k hk
          rwa [show a + 1 + k = a + (k + 1) by omega, show b + 1 + k = b + (k + 1) by omega] at this
        · rwa [show a + 1 + i = a + (i + 1) by omega] at h4
        · rwa [show b + 1 + i = b + (i + 1) by omega] at h5

/-! ## Properties -/

/-- **C10.**  For every memory and every two mapped regions, overlapping or not and of any alignment, `zpl_memmove` returns `dest`
and the memory in which exactly the destination has changed, to what the source held before.  (No byte outside the two
regions is touched: all others may be unmapped.) -/
theorem C10_memmove (m : Memory) (d s n : Nat) (h0 : d ≠ 0) (hs : Mapped m s n) (hd : Mapped m d n) :
    memmove m d s n = .ok (d, copied m d s n) := by
  unfold memmove
  rw [if_neg h0]
  by_cases h1 : d = s
  · subst h1; rw [if_pos rfl, copied_self]
  rw [if_neg h1]
  by_cases h2 : s + n ≤ d ∨ d + n ≤ s
  · rw [if_pos h2]
    unfold memcopy memcpy
    rw [if_neg h0, if_pos h2, bytesFwd_ok n m d s hs hd (by omega)]
    rfl
  rw [if_neg h2]
  by_cases h3 : d < s
  · rw [if_pos h3]
    by_cases h4 : s % 8 = d % 8
    · simp only [if_pos h4]; rw [alignFwd_ok n m d s hs hd (by omega) h4]; rfl
    · simp only [if_neg h4]; rw [bytesFwd_ok n m d s hs hd (by omega)]; rfl
  · rw [if_neg h3]
    by_cases h4 : s % 8 = d % 8
    · simp only [if_pos h4]; rw [alignBwd_ok n m d s hs hd (by omega) h4]; rfl
    · simp only [if_neg h4]; rw [bytesBwd_ok n m d s hs hd (by omega)]; rfl

/-- **C10.**  `zpl_memcopy` does the same for regions that do not overlap (`memcpy` of the C library leaves the rest undefined). -/
theorem C10_memcopy (m : Memory) (d s n : Nat) (h0 : d ≠ 0) (hs : Mapped m s n) (hd : Mapped m d n) (hno : s + n ≤ d ∨ d + n ≤ s) :
    memcopy m d s n = .ok (d, copied m d s n) := by
  unfold memcopy memcpy
  rw [if_neg h0, if_pos hno, bytesFwd_ok n m d s hs hd (by omega)]
  rfl

/-- What `copied` means byte for byte. -/
theorem C10_copied_bytes (m : Memory) (d s n : Nat) :
    (∀ i, i < n → copied m d s n (d + i) = m (s + i)) ∧ ∀ a, (a < d ∨ d + n ≤ a) → copied m d s n a = m a := by
  constructor
  · intro i hi; unfold copied; rw [if_pos (by omega)]; congr 1; omega
  · intro a ha; unfold copied; rw [if_neg (by omega)]

/-- **C11.**  For every address, alignment, length and byte value `zpl_memset` returns `dest` and sets exactly the `n` bytes. -/
theorem C11_memset (m : Memory) (d n : Nat) (c : Byte) (h0 : d ≠ 0) (hd : Mapped m d n) :
    memset m d c n = .ok (d, filled m d n c) := by
  unfold memset
  rw [if_neg h0, setBody_ok m d n c hd]
  rfl

/-- **C12.**  For two disjoint (or identical) mapped regions `zpl_memswap` exchanges their contents and changes nothing else. -/
theorem C12_memswap (m : Memory) (i j n : Nat) (hi : Mapped m i n) (hj : Mapped m j n) (hd : i = j ∨ i + n ≤ j ∨ j + n ≤ i) :
    memswap m i j n = .ok (swapped m i j n) := by
  unfold memswap
  by_cases h : i = j
  · subst h
    rw [if_pos rfl]; congr 1; funext x; unfold swapped
    split
    · congr 1; omega
    · rfl
  rw [if_neg h]
  have hd : i + n ≤ j ∨ j + n ≤ i := by omega
  split
  · subst_vars; exact swapWord_ok hi hj hd
  · split
    · subst_vars; exact swapWord_ok hi hj hd
    · split
      · exact swapBytes_ok n m i j hi hj hd
      · exact swapChunks_ok n m i j hi hj hd

/-- What `swapped` means byte for byte. -/
theorem C12_swapped_bytes (m : Memory) (i j n : Nat) (hd : i + n ≤ j ∨ j + n ≤ i) :
    (∀ k, k < n → swapped m i j n (i + k) = m (j + k) ∧ swapped m i j n (j + k) = m (i + k)) ∧
    ∀ a, (a < i ∨ i + n ≤ a) → (a < j ∨ j + n ≤ a) → swapped m i j n a = m a := by
  constructor
  · intro k hk
    unfold swapped
    constructor
    · rw [if_pos (by omega)]; congr 1; omega
    · rw [if_neg (by omega), if_pos (by omega)]; congr 1; omega
  · intro a h1 h2; unfold swapped; rw [if_neg (by omega), if_neg (by omega)]

/-- **C13.**  `zpl_memchr` reads only the `n` bytes and returns the first occurrence of `c`, or NULL if there is none. -/
theorem C13_memchr (m : Memory) (s n : Nat) (c : Byte) (h : Mapped m s n) : ∃ r, memchr m s c n = .ok r ∧
    match r with
    | some a => s ≤ a ∧ a < s + n ∧ m a = some c ∧ ∀ x, s ≤ x → x < a → m x ≠ some c
    | none => ∀ x, s ≤ x → x < s + n → m x ≠ some c :=
  memchr_ok n s h

/-- **C13.**  `zpl_memrchr` returns the last occurrence. -/
theorem C13_memrchr (m : Memory) (s n : Nat) (c : Byte) (h : Mapped m s n) : ∃ r, memrchr m s c n = .ok r ∧
    match r with
    | some a => s ≤ a ∧ a < s + n ∧ m a = some c ∧ ∀ x, a < x → x < s + n → m x ≠ some c
    | none => ∀ x, s ≤ x → x < s + n → m x ≠ some c :=
  memrchr_ok n h

/-- **C14.**  `zpl_memcompare` of two mapped regions returns 0 exactly if they hold the same bytes; otherwise the result has the
sign of the difference of the first two bytes that differ. -/
theorem C14_memcompare (m : Memory) (a b n : Nat) (ha0 : a ≠ 0) (hb0 : b ≠ 0) (ha : Mapped m a n) (hb : Mapped m b n) :
    ∃ d, memcompare m a b n = .ok d ∧ (d = 0 ↔ ∀ i, i < n → m (a + i) = m (b + i)) ∧
      (d ≠ 0 → ∃ i x y, i < n ∧ (∀ k, k < i → m (a + k) = m (b + k)) ∧ m (a + i) = some x ∧ m (b + i) = some y ∧
        (d < 0 ↔ x.toNat < y.toNat) ∧ (0 < d ↔ y.toNat < x.toNat)) := by
  have h0 : ¬ (a = 0 ∨ b = 0) := by omega
  obtain ⟨d, h1, h2⟩ := cmpLoop_ok n a b ha hb
  refine ⟨d, by unfold memcompare; rw [if_neg h0]; exact h1, ?_, ?_⟩
  · rcases h2 with ⟨rfl, h2⟩ | ⟨i, x, y, hi, h3, h4, h5, h6, h7⟩
    · exact ⟨fun _ => h2, fun _ => rfl⟩
    · have hxy : x.toNat ≠ y.toNat := fun e => h6 (BitVec.eq_of_toNat_eq e)
      constructor
      · intro hd; omega
      · intro hall
        have := hall i hi
        rw [h4, h5] at this
        exact absurd (Option.some.inj this) h6
  · intro hd
    rcases h2 with ⟨rfl, h2⟩ | ⟨i, x, y, hi, h3, h4, h5, h6, h7⟩
    · exact absurd rfl hd
    · exact ⟨i, x, y, hi, h3, h4, h5, by omega, by omega⟩

/-- **C14.**  The order is antisymmetric: exchanging the arguments negates the result. -/
theorem C14_antisymmetric (m : Memory) (a b n : Nat) (ha : Mapped m a n) (hb : Mapped m b n) :
    ∃ d, memcompare m a b n = .ok d ∧ memcompare m b a n = .ok (-d) := by
  unfold memcompare
  by_cases h0 : a = 0 ∨ b = 0
  · rw [if_pos h0, if_pos (by omega)]; exact ⟨0, rfl, rfl⟩
  rw [if_neg h0, if_neg (by omega)]
  clear h0
  induction n generalizing a b with
  | zero => exact ⟨0, rfl, rfl⟩
  | succ n ih =>
    obtain ⟨x, hx⟩ := Option.isSome_iff_exists.mp (ha.at (x := a) (by omega) (by omega))
    obtain ⟨y, hy⟩ := Option.isSome_iff_exists.mp (hb.at (x := b) (by omega) (by omega))
    obtain ⟨d, h1, h2⟩ := ih (a + 1) (b + 1) (ha.mono (by omega) (by omega)) (hb.mono (by omega) (by omega))
    rw [cmpLoop, cmpLoop, ld_ok hx, ld_ok hy]
    simp only [except_ok_bind]
    by_cases hd : (x.toNat : Int) - (y.toNat : Int) ≠ 0
    · rw [if_pos hd, if_pos (by omega)]
      exact ⟨_, rfl, congrArg Except.ok (by omega)⟩
    · rw [if_neg hd, if_neg (by omega)]
      exact ⟨d, h1, h2⟩

/-- **C14.**  The order is transitive (for `≤`, and strict if one of the steps is). -/
theorem C14_transitive (m : Memory) (a b c n : Nat) (h0 : a ≠ 0 ∧ b ≠ 0 ∧ c ≠ 0) (ha : Mapped m a n) (hb : Mapped m b n) (hc : Mapped m c n)
    (d e : Int) (h1 : memcompare m a b n = .ok d) (h2 : memcompare m b c n = .ok e) (hd : d ≤ 0) (he : e ≤ 0) :
    ∃ f, memcompare m a c n = .ok f ∧ f ≤ 0 ∧ ((d < 0 ∨ e < 0) → f < 0) := by
  unfold memcompare at *
  rw [if_neg (by omega)] at h1 h2 ⊢
  clear h0
  induction n generalizing a b c with
  | zero =>
    simp only [cmpLoop] at h1 h2 ⊢
    injection h1 with h1; injection h2 with h2
    exact ⟨0, rfl, by omega, by omega⟩
  | succ n ih =>
    obtain ⟨x, hx⟩ := Option.isSome_iff_exists.mp (ha.at (x := a) (by omega) (by omega))
    obtain ⟨y, hy⟩ := Option.isSome_iff_exists.mp (hb.at (x := b) (by omega) (by omega))
    obtain ⟨z, hz⟩ := Option.isSome_iff_exists.mp (hc.at (x := c) (by omega) (by omega))
    obtain ⟨f0, g0, _⟩ := cmpLoop_ok n (a + 1) (c + 1) (ha.mono (by omega) (by omega)) (hc.mono (by omega) (by omega))
    simp only [cmpLoop, ld_ok hx, ld_ok hy, ld_ok hz, except_ok_bind] at h1 h2 ⊢
    by_cases hxy : (x.toNat : Int) - (y.toNat : Int) ≠ 0
    · rw [if_pos hxy] at h1
      injection h1 with h1
      by_cases hyz : (y.toNat : Int) - (z.toNat : Int) ≠ 0
      · rw [if_pos hyz] at h2
        injection h2 with h2
        rw [if_pos (by omega)]
        exact ⟨_, rfl, by omega, by omega⟩
      · rw [if_pos (by omega)]
        exact ⟨_, rfl, by omega, by omega⟩
    · rw [if_neg hxy] at h1
      by_cases hyz : (y.toNat : Int) - (z.toNat : Int) ≠ 0
      · rw [if_pos hyz] at h2
        injection h2 with h2
        rw [if_pos (by omega)]
        exact ⟨_, rfl, by omega, by omega⟩
      · rw [if_neg hyz] at h2
        rw [if_neg (by omega)]
        exact ih (a + 1) (b + 1) (c + 1) (ha.mono (by omega) (by omega)) (hb.mono (by omega) (by omega)) (hc.mono (by omega) (by omega)) h1 h2

/-- Non-vacuity: overlapping regions in a memory where only the bytes 3..30 are mapped. -/
example : Mapped (fun a => if 3 ≤ a ∧ a < 30 then some (BitVec.ofNat 8 a) else none) 3 20 ∧
    Mapped (fun a => if 3 ≤ a ∧ a < 30 then some (BitVec.ofNat 8 a) else none) 5 20 := by
  constructor <;> intro i hi <;> simp <;> omega

/-- The C10 and C13 models on that memory. -/
example : ((memmove (fun a => if 3 ≤ a ∧ a < 30 then some (BitVec.ofNat 8 a) else none) 11 3 18).toOption.map (fun r => (r.1, r.2 11, r.2 28, r.2 10, r.2 30))) =
      some (11, some 3, some 20, some 10, none) ∧
    memchr (fun a => if 3 ≤ a ∧ a < 30 then some (BitVec.ofNat 8 a) else none) 3 25 20 = .ok none ∧
    memchr (fun a => if 3 ≤ a ∧ a < 30 then some (BitVec.ofNat 8 a) else none) 3 20 20 = .ok (some 20) := by
  refine ⟨by decide +kernel, by decide +kernel, by decide +kernel⟩

end Zpl.Mem
