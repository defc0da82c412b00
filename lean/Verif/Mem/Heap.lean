import Verif.Mem.Resize
import Verif.Mem.Align

/-!
# The heap allocator — source/essentials/memory_custom.c:32-160

`zpl_heap_allocator_proc` on Linux (`aligned_alloc` and `free`), with and without `ZPL_HEAP_ANALYSIS`, and the heap statistics.

The operating system's allocator is a parameter: a policy that answers every request, as it likes, from the number of the request,
the blocks alive, the size and the alignment.  What is assumed of it is `Policy.Ok`: an answer is a non-NULL multiple of the
alignment, above the null page, whose bytes overlap no block alive.  Fresh memory holds arbitrary bytes.
-/
namespace Zpl.Heap
open Mem

/-! ## Model -/

/-- The operating system: its answer to request number `t` with the given live blocks, size and alignment (`none` is NULL), and the
bytes found in the fresh block. -/
structure Policy where
  pick : Nat → List (Nat × Nat) → Nat → Nat → Option Nat
  junk : Nat → Nat → Byte

/-- The state: the operating system's live blocks (start, size), the number of requests made, and the statistics of
source/essentials/memory_custom.c:44-50 (`used_memory`, `alloc_count`; the magic number is a parameter of the functions reading it).
The statistics are unbounded integers. -/
structure H where
  blocks : List (Nat × Nat)
  tick : Nat
  used : Int
  count : Int

/-- `aligned_alloc` of the C library. -/
def osAlloc (pol : Policy) (h : H) (m : Memory) (align n : Nat) : Option Nat × H × Memory :=
  match pol.pick h.tick h.blocks n align with
  | none => (none, { h with tick := h.tick + 1 }, m)
  | some p => (some p, { h with tick := h.tick + 1, blocks := (p, n) :: h.blocks },
      fun x => if p ≤ x ∧ x < p + n then some (pol.junk h.tick x) else m x)

/-- `free` of the C library: freeing what is not the start of a live block is undefined. -/
def osFree (h : H) (m : Memory) (p : Nat) : Except Fault (H × Memory) :=
  if p = 0 then .ok (h, m)
  else
    match h.blocks.find? (fun b => b.1 == p) with
    | none => .error .ub
    | some b => .ok ({ h with blocks := h.blocks.filter (fun b => b.1 != p) }, fun x => if p ≤ x ∧ x < p + b.2 then none else m x)

/-- The request size — source/essentials/memory_custom.c:116: `(size + alignment - 1) & ~(alignment - 1)`, in 64 bits. -/
def roundUp (size align : Nat) : Nat :=
  ((BitVec.ofNat 64 size + (BitVec.ofNat 64 align - 1)) &&& ~~~(BitVec.ofNat 64 align - 1)).toNat

/-- `if (flags & ZPL_ALLOCATOR_FLAG_CLEAR_TO_ZERO) { zpl_zero_size(ptr, size); }` — source/essentials/memory_custom.c:118. -/
def clearBlock (clear : Bool) (m : Memory) (p size : Nat) : Except Fault (Nat × Memory) := if clear then memset m p 0 size else .ok (p, m)

/-- `ZPL_ALLOCATION_ALLOC` of `zpl_heap_allocator_proc` — source/essentials/memory_custom.c:75-160: the default alignment (79), the
tracking size (82-84, 94), the request (115-119), the record in front of the user's bytes (147-156).  `an` says whether
`ZPL_HEAP_ANALYSIS` is defined; `clear` is the flag `ZPL_ALLOCATOR_FLAG_CLEAR_TO_ZERO`.  `zpl__heap_alloc_info` is two words. -/
def alloc (an : Bool) (pol : Policy) (clear : Bool) (h : H) (m : Memory) (size align : Nat) : Except Fault (Option Nat × H × Memory) :=
  let align := if align = 0 then 16 else align
  let rem := 16 % align
  let track := max 16 align + rem
  let total := if an then size + track else size
  match osAlloc pol h m align (roundUp total align) with
  | (r, h, m) => do
    let p := r.getD 0
    let (_, m) ← clearBlock clear m p total
    if an then do
      let info := p + rem
      let (_, m) ← memset m info 0 16
      let m ← st64w m info (total - track)
      let m ← st64w m (info + 8) p
      .ok (some (info + 16), { h with used := h.used + ((total - track : Nat) : Int), count := h.count + 1 }, m)
    else .ok (r, h, m)

/-- `ZPL_ALLOCATION_FREE` of `zpl_heap_allocator_proc` — source/essentials/memory_custom.c:86-92, 121-123. -/
def free (an : Bool) (h : H) (m : Memory) (old : Nat) : Except Fault (H × Memory) :=
  if old = 0 then osFree h m 0
  else if an then do
    let size ← ld64 m (old - 16)
    let phys ← ld64 m (old - 8)
    osFree { h with used := h.used - (BitVec.ofNat 64 size).toInt, count := h.count - 1 } m phys
  else osFree h m old

/-- The heap as an allocator: `zpl_alloc_align` and `zpl_free` — header/essentials/memory_custom.h:258-266; the default flags clear. -/
def allocator (an : Bool) (pol : Policy) : Resize.Allocator H where
  alloc := fun h m size align => alloc an pol true h m size align
  free := fun h m p => if p = 0 then .ok (h, m) else free an h m p

/-- `ZPL_ALLOCATION_RESIZE` — source/essentials/memory_custom.c:125-128. -/
def resize (an : Bool) (pol : Policy) (h : H) (m : Memory) (old : Option Nat) (oldSize newSize align : Nat) :
    Except Fault (Option Nat × H × Memory) :=
  Resize.resize (allocator an pol) h m old oldSize newSize (if align = 0 then 16 else align)

/-- `ZPL_HEAP_STATS_MAGIC` — source/essentials/memory_custom.c:42. -/
def magic : BitVec 32 := 0xDEADC0DE#32

/-- `zpl_heap_stats_init` — source/essentials/memory_custom.c:52-55: the statistics after it, with the magic number. -/
def statsInit (h : H) : BitVec 32 × H := (magic, { h with used := 0, count := 0 })

/-- `zpl_heap_stats_used_memory` — source/essentials/memory_custom.c:56-59. -/
def statsUsed (mg : BitVec 32) (h : H) : Except Fault Int := if mg = magic then .ok h.used else .error .assertion

/-- `zpl_heap_stats_alloc_count` — source/essentials/memory_custom.c:60-63. -/
def statsCount (mg : BitVec 32) (h : H) : Except Fault Int := if mg = magic then .ok h.count else .error .assertion

/-- `zpl_heap_stats_check` — source/essentials/memory_custom.c:64-68. -/
def statsCheck (mg : BitVec 32) (h : H) : Except Fault Unit :=
  if mg = magic then if h.used = 0 then if h.count = 0 then .ok () else .error .assertion else .error .assertion else .error .assertion

/-- What a client can do. -/
inductive Op where
  /-- allocate: size, alignment, flag -/
  | alloc (size align : Nat) (clear : Bool)
  /-- free (`none` is NULL) -/
  | free (p : Option Nat)
  /-- store a byte at offset `i` of the block at `p` -/
  | write (p i : Nat) (b : Byte)
  /-- resize -/
  | resize (p : Option Nat) (oldSize newSize align : Nat)

/-- One action on the model; the result is the returned pointer. -/
def step (an : Bool) (pol : Policy) (h : H) (m : Memory) : Op → Except Fault (Option Nat × H × Memory)
  | .alloc size align clear => alloc an pol clear h m size align
  | .free none => .ok (none, h, m)
  | .free (some p) => do
    let (h, m) ← (allocator an pol).free h m p
    .ok (none, h, m)
  | .write p i b => do
    let m ← st m (p + i) b
    .ok (none, h, m)
  | .resize p oldSize newSize align => resize an pol h m p oldSize newSize align

/-- A client decides what to do next from the pointers it has been given (latest first).  The first `n` actions from a program start
with no block and the statistics initialised; the result has the pointers returned. -/
def run (an : Bool) (pol : Policy) (client : List (Option Nat) → Op) : Nat → Except Fault (List (Option Nat) × H × Memory)
  | 0 => .ok ([], ⟨[], 0, 0, 0⟩, fun _ => none)
  | n + 1 => do
    let (hist, h, m) ← run an pol client n
    let (r, h, m) ← step an pol h m (client hist)
    .ok (r :: hist, h, m)

/-! ## Specification -/

/-- The blocks a client owns: address and bytes. -/
abbrev Live := List (Nat × List Byte)

/-- `n` bytes at `p` are a new block: not NULL, and sharing neither a byte nor its address with a block owned. -/
def Fresh (live : Live) (p n : Nat) : Prop := p ≠ 0 ∧ ∀ x ∈ live, (p + n ≤ x.1 ∨ x.1 + x.2.length ≤ p) ∧ p ≠ x.1

/-- The alignment promised, as far as it is kept: up to 32 bytes. -/
def Aligned (align p : Nat) : Prop := (align = 0 → 16 ∣ p) ∧ (align ≤ 32 → align ≠ 0 → align ∣ p)

/-- What a heap does, whatever the program behind it: `canFail` says whether an allocation may return NULL. -/
inductive Step (canFail : Prop) : Live → Op → Option Nat → Live → Prop
  | alloc {live size align clear p bs} : Fresh live p size → Aligned align p → bs.length = size →
      (clear = true → bs = List.replicate size 0) → Step canFail live (.alloc size align clear) (some p) ((p, bs) :: live)
  | allocFail {live size align clear} : canFail → Step canFail live (.alloc size align clear) none live
  | freeNull {live} : Step canFail live (.free none) none live
  | free {live p} : Step canFail live (.free (some p)) none (live.filter (fun x => x.1 != p))
  | write {live p i b} : Step canFail live (.write p i b) none (live.map (fun x => if x.1 = p then (x.1, x.2.set i b) else x))
  | resizeNull {live oldSize newSize align p} : Fresh live p newSize → Aligned align p →
      Step canFail live (.resize none oldSize newSize align) (some p) ((p, List.replicate newSize 0) :: live)
  | resizeNullFail {live oldSize newSize align} : canFail → Step canFail live (.resize none oldSize newSize align) none live
  | resizeZero {live p oldSize align} : Step canFail live (.resize (some p) oldSize 0 align) none (live.filter (fun x => x.1 != p))
  | resizeKeep {live p oldSize newSize align} : newSize ≠ 0 → newSize ≤ oldSize →
      Step canFail live (.resize (some p) oldSize newSize align) (some p) live
  | resizeGrow {live p bs q oldSize newSize align} : oldSize < newSize → (p, bs) ∈ live → Fresh live q newSize → Aligned align q →
      Step canFail live (.resize (some p) oldSize newSize align) (some q)
        ((q, bs.take oldSize ++ List.replicate (newSize - oldSize) 0) :: live.filter (fun x => x.1 != p))
  | resizeFail {live p oldSize newSize align} : oldSize < newSize → canFail →
      Step canFail live (.resize (some p) oldSize newSize align) none live

/-- A size and an alignment that can be asked for: a power of two or 0 (the default), without overflow. -/
def SizeOk (size align : Nat) : Prop := size < 2 ^ 61 ∧ (align = 0 ∨ ∃ k, k ≤ 60 ∧ align = 2 ^ k)

/-- The client keeps the rules: it frees, resizes and writes only what it owns. -/
def OpOk (live : Live) : Op → Prop
  | .alloc size align _ => SizeOk size align
  | .free none => True
  | .free (some p) => ∃ bs, (p, bs) ∈ live
  | .write p i _ => ∃ bs, (p, bs) ∈ live ∧ i < bs.length
  | .resize none _ newSize align => SizeOk newSize align
  | .resize (some p) oldSize newSize align => SizeOk newSize align ∧ ∃ bs, (p, bs) ∈ live ∧ oldSize ≤ bs.length

/-- The histories a client can see when it runs on a heap that behaves as `Step` says. -/
inductive Seen (canFail : Prop) (client : List (Option Nat) → Op) : List (Option Nat) → Live → Prop
  | start : Seen canFail client [] []
  | next {hist live r live'} : Seen canFail client hist live → Step canFail live (client hist) r live' → Seen canFail client (r :: hist) live'

/-- The client keeps the rules on every such history. -/
def Behaves (canFail : Prop) (client : List (Option Nat) → Op) : Prop := ∀ hist live, Seen canFail client hist live → OpOk live (client hist)

/-- The contract of `aligned_alloc`: an answer lies above the null page and within the address space. -/
def Policy.Ok (pol : Policy) : Prop := ∀ t blocks n a p, pol.pick t blocks n a = some p →
  4096 ≤ p ∧ a ∣ p ∧ p + n ≤ 2 ^ 63 ∧ ∀ b ∈ blocks, (p + n ≤ b.1 ∨ b.1 + b.2 ≤ p) ∧ p ≠ b.1

/-- The operating system may refuse. -/
def Policy.CanFail (pol : Policy) : Prop := ∃ t blocks n a, pol.pick t blocks n a = none

/-! ## The invariant -/

/-- One allocation: the operating system's block, the user's address and the user's bytes. -/
structure Rec where
  phys : Nat
  total : Nat
  p : Nat
  bs : List Byte

/-- An allocation is in order. -/
def RecOk (an : Bool) (m : Memory) (r : Rec) : Prop :=
  4096 ≤ r.phys ∧ r.phys + r.total ≤ 2 ^ 63 ∧ r.phys ≤ r.p ∧ r.p + r.bs.length ≤ r.phys + r.total ∧ Mapped m r.phys r.total ∧
  (∀ i, i < r.bs.length → m (r.p + i) = r.bs[i]?) ∧
  (an = true → r.phys + 16 ≤ r.p ∧ Holds m (r.p - 16) r.bs.length ∧ Holds m (r.p - 8) r.phys) ∧ (an = false → r.p = r.phys)

/-- Two allocations share nothing. -/
def Apart (r s : Rec) : Prop := (r.phys + r.total ≤ s.phys ∨ s.phys + s.total ≤ r.phys) ∧ r.phys ≠ s.phys

/-- The total size of the blocks owned. -/
def bytesOwned : Live → Int
  | [] => 0
  | x :: rest => (x.2.length : Int) + bytesOwned rest

/-- The state represents the blocks owned. -/
def Rel (an : Bool) (h : H) (m : Memory) (live : Live) : Prop :=
  ∃ recs : List Rec, live = recs.map (fun r => (r.p, r.bs)) ∧ h.blocks = recs.map (fun r => (r.phys, r.total)) ∧
    (∀ r ∈ recs, RecOk an m r) ∧ recs.Pairwise Apart ∧ (∀ x, x < 4096 → m x = none) ∧
    (h.used = if an then bytesOwned live else 0) ∧ (h.count = if an then (live.length : Int) else 0)

theorem RecOk.frame {an : Bool} {m m' : Memory} {r : Rec} (h : RecOk an m r)
    (hf : ∀ x, r.phys ≤ x → x < r.phys + r.total → m' x = m x) : RecOk an m' r := by
  obtain ⟨h1, h2, h3, h4, h5, h6, h7, h8⟩ := h
  refine ⟨h1, h2, h3, h4, ?_, ?_, ?_, h8⟩
  · intro i hi; rw [hf _ (by omega) (by omega)]; exact h5 i hi
  · intro i hi; rw [hf _ (by omega) (by omega)]; exact h6 i hi
  · intro ha
    obtain ⟨h9, h10, h11⟩ := h7 ha
    exact ⟨h9, h10.frame (fun x hx hy => hf x (by omega) (by omega)), h11.frame (fun x hx hy => hf x (by omega) (by omega))⟩

theorem roundUp_spec {size align k : Nat} (hk : k ≤ 60) (ha : align = 2 ^ k) (hs : size < 2 ^ 63) :
    align ∣ roundUp size align ∧ size ≤ roundUp size align := by
  have hpow : 2 ^ k ≤ 2 ^ 60 := Nat.pow_le_pow_right (by omega) hk
  have hpos : 0 < 2 ^ k := Nat.two_pow_pos k
  have han : (BitVec.ofNat 64 align).toNat = 2 ^ k := by rw [BitVec.toNat_ofNat, ha]; omega
  have hsn : (BitVec.ofNat 64 size).toNat = size := by rw [BitVec.toNat_ofNat]; omega
  have hai : (BitVec.ofNat 64 align).toInt = 2 ^ k := by
    rw [BitVec.toInt_eq_toNat_cond, if_pos (by omega), han]; norm_cast
  obtain ⟨r, h1, h2, h3, _⟩ := Align.C15_align_forward (BitVec.ofNat 64 size) (BitVec.ofNat 64 align) k hai (by
    rw [han, hsn]
    refine ⟨2 ^ k * (size / 2 ^ k + 1), ?_, Nat.dvd_mul_right _ _, ?_⟩
    · have := Nat.mul_div_le size (2 ^ k)
      rw [Nat.mul_add]; omega
    · rw [Nat.mul_add]
      have := Nat.div_add_mod size (2 ^ k)
      have := Nat.mod_lt size hpos
      omega)
  unfold Align.alignForward at h1
  rw [if_pos ((Align.C15_is_power_of_two _).mpr ⟨k, hai⟩)] at h1
  injection h1 with h1
  unfold roundUp
  rw [h1]
  rw [han] at h2
  rw [hsn] at h3
  exact ⟨ha ▸ h2, h3⟩

/-- The bytes put into a fresh block. -/
theorem alloc_some (an clear : Bool) (pol : Policy) (hp : pol.Ok) (h : H) (m : Memory) (size align a P : Nat) (hsz : SizeOk size align)
    (ha : a = if align = 0 then 16 else align)
    (hpick : pol.pick h.tick h.blocks (roundUp (if an then size + (max 16 a + 16 % a) else size) a) a = some P) :
    ∃ n p m', alloc an pol clear h m size align = .ok (some p, ⟨(P, n) :: h.blocks, h.tick + 1,
        h.used + (if an then (size : Int) else 0), h.count + (if an then 1 else 0)⟩, m') ∧
      n = roundUp (if an then size + (max 16 a + 16 % a) else size) a ∧ p = P + (if an then 16 % a + 16 else 0) ∧
      (∀ x, x < P ∨ P + n ≤ x → m' x = m x) ∧ Mapped m' P n ∧ p + size ≤ P + n ∧
      (clear = true → ∀ i, i < size → m' (p + i) = some 0) ∧
      (an = true → Holds m' (p - 16) size ∧ Holds m' (p - 8) P) := by
  obtain ⟨hs, hal⟩ := hsz
  have hak : ∃ k, k ≤ 60 ∧ a = 2 ^ k := by
    rcases hal with h0 | ⟨k, hk, hkk⟩
    · exact ⟨4, by omega, by rw [ha, if_pos h0]⟩
    · refine ⟨k, hk, ?_⟩
      rw [ha, if_neg, hkk]
      have := Nat.two_pow_pos k; omega
  obtain ⟨k, hk, hak⟩ := hak
  have hpow : 2 ^ k ≤ 2 ^ 60 := Nat.pow_le_pow_right (by omega) hk
  have hpos : 0 < a := by rw [hak]; exact Nat.two_pow_pos k
  have hrem : 16 % a ≤ 16 := Nat.mod_le _ _
  obtain ⟨p1, p2, p3, p4⟩ := hp _ _ _ _ _ hpick
  generalize htot : (if an then size + (max 16 a + 16 % a) else size) = total at *
  have htot2 : total < 2 ^ 63 := by cases an <;> simp at htot <;> omega
  obtain ⟨r1, r2⟩ := roundUp_spec hk hak htot2
  generalize hn : roundUp total a = n at *
  -- memory after the operating system has answered
  let m1 : Memory := fun x => if P ≤ x ∧ x < P + n then some (pol.junk h.tick x) else m x
  have hm1 : Mapped m1 P n := by intro i hi; simp only [m1]; rw [if_pos (by omega)]; rfl
  have hos : osAlloc pol h m a n = (some P, { h with tick := h.tick + 1, blocks := (P, n) :: h.blocks }, m1) := by
    unfold osAlloc; rw [hpick]
  let m2 : Memory := if clear then filled m1 P total 0 else m1
  have hclr : clearBlock clear m1 P total = .ok (P, m2) := by
    unfold clearBlock
    cases clear
    · rfl
    · simp only [if_true, m2]
      exact C11_memset m1 P total 0 (by omega) (hm1.mono (by omega) (by omega))
  have hm2 : Mapped m2 P n := by
    intro i hi; simp only [m2]; split
    · unfold filled; split
      · rfl
      · exact hm1 i hi
    · exact hm1 i hi
  have hout2 : ∀ x, x < P ∨ P + n ≤ x → m2 x = m x := by
    intro x hx
    have : m1 x = m x := by simp only [m1]; rw [if_neg (by omega)]
    simp only [m2]; split
    · rw [filled_outside (by omega), this]
    · exact this
  have hzero2 : clear = true → ∀ i, i < total → m2 (P + i) = some 0 := by
    intro hc i hi
    simp only [m2, hc, if_true]
    unfold filled; rw [if_pos (by omega)]
  unfold alloc
  simp only [← ha]
  cases an with
  | false =>
    simp only [Bool.false_eq_true, if_false] at htot ⊢
    subst htot
    rw [hn, hos]
    simp only [Option.getD_some, hclr, except_ok_bind]
    exact ⟨n, P, m2, by simp, rfl, by omega, hout2, hm2, by omega, hzero2, nofun⟩
  | true =>
    simp only [if_true] at htot ⊢
    rw [htot, hn, hos]
    simp only [Option.getD_some, hclr, except_ok_bind]
    have hsub : total - (max 16 a + 16 % a) = size := by omega
    rw [hsub]
    have hin : 16 % a + 16 + size ≤ total := by omega
    generalize hr : 16 % a = rem at *
    rw [C11_memset m2 (P + rem) 16 0 (by omega) (hm2.mono (by omega) (by omega))]
    simp only [except_ok_bind]
    have hm3 : Mapped (filled m2 (P + rem) 16 0) P n := by
      intro i hi; unfold filled; split
      · rfl
      · exact hm2 i hi
    rw [st64w_ok (hm3.mono (by omega) (by omega))]
    simp only [except_ok_bind]
    have hm4 : Mapped (put (filled m2 (P + rem) 16 0) (P + rem) size) P n := by
      intro i hi; unfold put; split
      · rfl
      · exact hm3 i hi
    rw [st64w_ok (hm4.mono (by omega) (by omega))]
    simp only [except_ok_bind]
    refine ⟨n, P + rem + 16, _, rfl, rfl, by omega, ?_, ?_, by omega, ?_, ?_⟩
    · intro x hx
      rw [put_outside (by omega), put_outside (by omega), filled_outside (by omega), hout2 x hx]
    · intro i hi; rw [put]; split
      · rfl
      · exact hm4 i hi
    · intro hc i hi
      rw [put_outside (by omega), put_outside (by omega), filled_outside (by omega)]
      rw [show P + rem + 16 + i = P + (rem + 16 + i) by omega]
      exact hzero2 hc _ (by omega)
    · intro _
      rw [show P + rem + 16 - 16 = P + rem by omega, show P + rem + 16 - 8 = P + rem + 8 by omega]
      refine ⟨(holds_put _ (by omega)).frame (fun x hx hy => put_outside (by omega)), holds_put _ (by omega)⟩

theorem bytesOwned_cons (x : Nat × List Byte) (l : Live) : bytesOwned (x :: l) = (x.2.length : Int) + bytesOwned l := rfl

theorem exists_bytes {m : Memory} {p n : Nat} (h : Mapped m p n) : ∃ bs : List Byte, bs.length = n ∧ ∀ i, i < n → m (p + i) = bs[i]? := by
  obtain ⟨bs, _, h2, h3⟩ := ldN_ok n p h
  exact ⟨bs, h2, fun i hi => (h3 i hi).symm⟩

theorem aligned_of {align a P p : Nat} {an : Bool} (hal : align = 0 ∨ ∃ k, k ≤ 60 ∧ align = 2 ^ k) (ha : a = if align = 0 then 16 else align)
    (hd : a ∣ P) (hp : p = P + (if an then 16 % a + 16 else 0)) : Aligned align p := by
  subst hp
  rcases hal with h0 | ⟨k, _, hk⟩
  · subst h0; simp at ha; subst ha
    refine ⟨fun _ => ?_, fun _ h => absurd rfl h⟩
    cases an <;> simp <;> omega
  · have hpos := Nat.two_pow_pos k
    rw [if_neg (by omega)] at ha
    refine ⟨fun h => by omega, fun hle _ => ?_⟩
    have hk5 : k ≤ 5 := by
      apply Decidable.byContradiction; intro hn
      have : 2 ^ 6 ≤ 2 ^ k := Nat.pow_le_pow_right (by omega) (by omega)
      omega
    have hcase : k = 0 ∨ k = 1 ∨ k = 2 ∨ k = 3 ∨ k = 4 ∨ k = 5 := by omega
    rcases hcase with h | h | h | h | h | h <;> subst h <;> subst hk <;> subst ha <;> cases an <;> simp at hd ⊢ <;> omega

/-- Allocation keeps the invariant and does what `Step` says. -/
theorem rel_alloc {an clear : Bool} {pol : Policy} (hp : pol.Ok) {h : H} {m : Memory} {live : Live} {size align a P : Nat}
    (hrel : Rel an h m live) (hsz : SizeOk size align) (ha : a = if align = 0 then 16 else align)
    (hpick : pol.pick h.tick h.blocks (roundUp (if an then size + (max 16 a + 16 % a) else size) a) a = some P) :
    ∃ p bs h' m', alloc an pol clear h m size align = .ok (some p, h', m') ∧ Rel an h' m' ((p, bs) :: live) ∧ Fresh live p size ∧
      Aligned align p ∧ bs.length = size ∧ (clear = true → bs = List.replicate size 0) ∧
      (∀ x ∈ live, ∀ i, i < x.2.length → m' (x.1 + i) = m (x.1 + i)) ∧ Mapped m' p size := by
  obtain ⟨n, p, m', e1, e2, e3, e4, e5, e6, e7, e8⟩ := alloc_some an clear pol hp h m size align a P hsz ha hpick
  rw [← e2] at hpick
  obtain ⟨p1, p2, p3, p4⟩ := hp _ _ _ _ _ hpick
  obtain ⟨recs, r1, r2, r3, r4, r0, r5, r6⟩ := hrel
  have hple : P ≤ p := by omega
  obtain ⟨bs, b1, b2⟩ := exists_bytes (e5.mono hple e6)
  have hap : ∀ r ∈ recs, (P + n ≤ r.phys ∨ r.phys + r.total ≤ P) ∧ P ≠ r.phys := by
    intro r hr
    exact p4 (r.phys, r.total) (by rw [r2]; exact List.mem_map.mpr ⟨r, hr, rfl⟩)
  have hbs : clear = true → bs = List.replicate size 0 := by
    intro hc
    apply List.ext_getElem?
    intro i
    by_cases hi : i < size
    · rw [← b2 i hi, e7 hc i hi, List.getElem?_replicate, if_pos hi]
    · rw [List.getElem?_eq_none (by omega), List.getElem?_eq_none (by simp; omega)]
  refine ⟨p, bs, _, m', e1, ?_, ?_, aligned_of hsz.2 ha p2 e3, b1, hbs, ?_, e5.mono hple e6⟩
  · refine ⟨⟨P, n, p, bs⟩ :: recs, by simp [r1], by simp [r2], ?_, ?_, ?_, ?_, ?_⟩
    · intro r hr
      rcases List.mem_cons.mp hr with h0 | h0
      · subst h0
        refine ⟨p1, p3, hple, by simp only [b1]; exact e6, e5, by simp only [b1]; exact b2, ?_, ?_⟩
        · intro han
          simp only [b1]
          have := e8 han
          refine ⟨?_, this⟩
          rw [e3, if_pos han]; omega
        · intro han; simp only [e3, han]; rfl
      · have := hap r h0
        exact (r3 r h0).frame (fun x hx hy => e4 x (by omega))
    · refine List.pairwise_cons.mpr ⟨?_, r4⟩
      intro r hr
      exact hap r hr
    · intro x hx; rw [e4 x (by omega)]; exact r0 x hx
    · simp only [r5, bytesOwned_cons, b1]
      cases an <;> simp; omega
    · simp only [r6, List.length_cons]
      cases an <;> simp
  · refine ⟨by omega, ?_⟩
    intro x hx
    rw [r1] at hx
    obtain ⟨r, hr, rfl⟩ := List.mem_map.mp hx
    have ho := r3 r hr
    have hh := hap r hr
    obtain ⟨o1, o2, o3, o4, o5, o6, o7, o8⟩ := ho
    dsimp only
    cases an with
    | false => have := o8 rfl; simp at e3; omega
    | true => have := (o7 rfl).1; simp at e3; omega
  · intro x hx i hi
    rw [r1] at hx
    obtain ⟨r, hr, rfl⟩ := List.mem_map.mp hx
    obtain ⟨o1, o2, o3, o4, o5, o6, o7, o8⟩ := r3 r hr
    have hh := hap r hr
    dsimp only at hi ⊢
    exact e4 _ (by omega)

theorem bytesOwned_filter {recs : List Rec} {r : Rec} (hr : r ∈ recs) (hnd : recs.Pairwise (fun a b => a.p ≠ b.p)) :
    bytesOwned ((recs.map (fun r => (r.p, r.bs))).filter (fun x => x.1 != r.p)) + r.bs.length = bytesOwned (recs.map (fun r => (r.p, r.bs))) ∧
    ((recs.map (fun r => (r.p, r.bs))).filter (fun x => x.1 != r.p)).length + 1 = recs.length := by
  induction recs with
  | nil => cases hr
  | cons s rest ih =>
    obtain ⟨h1, h2⟩ := List.pairwise_cons.mp hnd
    rcases List.mem_cons.mp hr with h0 | h0
    · subst h0
      have : (rest.map (fun r => (r.p, r.bs))).filter (fun x => x.1 != r.p) = rest.map (fun r => (r.p, r.bs)) := by
        apply List.filter_eq_self.mpr
        intro x hx
        obtain ⟨s, hs, rfl⟩ := List.mem_map.mp hx
        have := h1 s hs
        simp; omega
      simp only [List.map_cons, List.filter_cons, bne_self_eq_false, Bool.false_eq_true, if_false, this, bytesOwned_cons]
      simp; omega
    · have := ih h0 h2
      have hne := h1 r h0
      simp only [List.map_cons, List.filter_cons, bne_iff_ne, ne_eq, hne, not_false_eq_true, if_true, bytesOwned_cons, List.length_cons]
      omega

theorem find_block {recs : List Rec} {r : Rec} (hr : r ∈ recs) (hd : recs.Pairwise Apart) :
    (recs.map (fun r => (r.phys, r.total))).find? (fun b => b.1 == r.phys) = some (r.phys, r.total) := by
  induction recs with
  | nil => cases hr
  | cons s rest ih =>
    obtain ⟨h1, h2⟩ := List.pairwise_cons.mp hd
    rcases List.mem_cons.mp hr with h0 | h0
    · subst h0; simp
    · have := (h1 r h0).2
      simp only [List.map_cons, List.find?_cons]
      rw [show (s.phys == r.phys) = false by simpa using this]
      exact ih h0 h2

theorem distinct_users {an : Bool} {m : Memory} {recs : List Rec} (h : ∀ r ∈ recs, RecOk an m r) (hd : recs.Pairwise Apart) :
    recs.Pairwise (fun a b => a.p ≠ b.p) := by
  refine List.Pairwise.imp_of_mem ?_ hd
  intro a b ha hb hab
  obtain ⟨o1, o2, o3, o4, o5, o6, o7, o8⟩ := h a ha
  obtain ⟨q1, q2, q3, q4, q5, q6, q7, q8⟩ := h b hb
  obtain ⟨h1, h2⟩ := hab
  cases an with
  | false => have := o8 rfl; have := q8 rfl; omega
  | true => have := o7 rfl; have := q7 rfl; omega

theorem pairwise_mem {α : Type _} {R : α → α → Prop} (hsymm : ∀ a b, R a b → R b a) {l : List α} (h : l.Pairwise R) {a b : α}
    (ha : a ∈ l) (hb : b ∈ l) (hne : a ≠ b) : R a b := by
  induction l with
  | nil => cases ha
  | cons c rest ih =>
    obtain ⟨h1, h2⟩ := List.pairwise_cons.mp h
    rcases List.mem_cons.mp ha with h3 | h3 <;> rcases List.mem_cons.mp hb with h4 | h4
    · exact absurd (h3.trans h4.symm) hne
    · subst h3; exact h1 b h4
    · subst h4; exact hsymm _ _ (h1 a h3)
    · exact ih h2 h3 h4

/-- Freeing keeps the invariant. -/
theorem rel_free {an : Bool} {pol : Policy} {h : H} {m : Memory} {live : Live} {p : Nat} {bs : List Byte}
    (hrel : Rel an h m live) (hin : (p, bs) ∈ live) :
    ∃ h' m', (allocator an pol).free h m p = .ok (h', m') ∧ Rel an h' m' (live.filter (fun x => x.1 != p)) ∧
      (∀ x ∈ live, x.1 ≠ p → ∀ i, i < x.2.length → m' (x.1 + i) = m (x.1 + i)) ∧ h'.tick = h.tick := by
  obtain ⟨recs, r1, r2, r3, r4, r0, r5, r6⟩ := hrel
  rw [r1] at hin
  obtain ⟨r, hr, he⟩ := List.mem_map.mp hin
  injection he with he1 he2
  have hro := r3 r hr
  have hdu := distinct_users r3 r4
  obtain ⟨o1, o2, o3, o4, o5, o6, o7, o8⟩ := hro
  have hp0 : p ≠ 0 := by omega
  have hfind := find_block hr r4
  obtain ⟨c1, c2⟩ := bytesOwned_filter hr hdu
  have happ : ∀ s ∈ recs, s.p ≠ r.p → (s.phys + s.total ≤ r.phys ∨ r.phys + r.total ≤ s.phys) ∧ s.phys ≠ r.phys := by
    intro s hs hne
    exact pairwise_mem (fun a b hab => ⟨by rcases hab.1 with h | h <;> omega, Ne.symm hab.2⟩) r4 hs hr (fun he => hne (by rw [he]))
  -- the state after `free` of the C library
  have hos : ∀ u c, osFree { h with used := u, count := c } m r.phys = .ok ({ h with blocks := h.blocks.filter (fun b => b.1 != r.phys), used := u, count := c },
      fun x => if r.phys ≤ x ∧ x < r.phys + r.total then none else m x) := by
    intro u c
    unfold osFree
    rw [if_neg (by omega)]
    simp only [r2, hfind]
  have hres : (allocator an pol).free h m p = .ok (⟨h.blocks.filter (fun b => b.1 != r.phys), h.tick,
      h.used - (if an then (r.bs.length : Int) else 0), h.count - (if an then 1 else 0)⟩,
      fun x => if r.phys ≤ x ∧ x < r.phys + r.total then none else m x) := by
    simp only [allocator, free, if_neg hp0]
    cases an with
    | false =>
      simp only [Bool.false_eq_true, if_false]
      have := o8 rfl
      rw [show p = r.phys by omega]
      have := hos h.used h.count
      simpa using this
    | true =>
      obtain ⟨o9, o10, o11⟩ := o7 rfl
      simp only [if_true]
      rw [he1] at o10 o11
      rw [ld64_ok o10, except_ok_bind, ld64_ok o11, except_ok_bind, hos]
      have : (BitVec.ofNat 64 r.bs.length).toInt = r.bs.length := by
        rw [BitVec.toInt_eq_toNat_cond, BitVec.toNat_ofNat]
        have : r.bs.length < 2 ^ 63 := by omega
        rw [Nat.mod_eq_of_lt (by omega), if_pos (by omega)]
      rw [this]
  refine ⟨_, _, hres, ⟨recs.filter (fun s => s.p != r.p), ?_, ?_, ?_, r4.sublist List.filter_sublist, ?_, ?_, ?_⟩, ?_, rfl⟩
  · rw [r1, List.filter_map, he1]; rfl
  · simp only [r2, List.filter_map]
    congr 1
    apply List.filter_congr
    intro s hs
    simp only [Function.comp]
    by_cases hsr : s.p = r.p
    · have hse : s = r := by
        apply Classical.byContradiction; intro hne
        exact pairwise_mem (R := fun a b : Rec => a.p ≠ b.p) (fun a b hab => Ne.symm hab) hdu hs hr hne hsr
      subst hse; simp
    · have h3 := (happ s hs hsr).2
      have e1 : (s.phys != r.phys) = true := by simpa using h3
      have e2 : (s.p != r.p) = true := by simpa using hsr
      exact e1.trans e2.symm
  · intro s hs
    obtain ⟨hs1, hs2⟩ := List.mem_filter.mp hs
    have hsp : s.p ≠ r.p := by simpa using hs2
    have := happ s hs1 hsp
    refine (r3 s hs1).frame ?_
    intro x hx hy
    exact if_neg (by omega)
  · intro x hx
    simp only
    split
    · rfl
    · exact r0 x hx
  · rw [r5, r1, ← he1]
    cases an <;> simp <;> omega
  · rw [r6, r1, ← he1]
    cases an <;> simp <;> omega
  · intro x hx hne i hi
    rw [r1] at hx
    obtain ⟨s, hs, rfl⟩ := List.mem_map.mp hx
    obtain ⟨q1, q2, q3, q4, q5, q6, q7, q8⟩ := r3 s hs
    have := happ s hs (by simpa [he1] using hne)
    dsimp only at hi ⊢
    rw [if_neg (by omega)]

theorem bytesOwned_congr : ∀ (l l' : Live), l.map (fun x => x.2.length) = l'.map (fun x => x.2.length) → bytesOwned l = bytesOwned l'
  | [], [], _ => rfl
  | [], _ :: _, h => by simp at h
  | _ :: _, [], h => by simp at h
  | x :: l, y :: l', h => by
    simp only [List.map_cons, List.cons.injEq] at h
    rw [bytesOwned_cons, bytesOwned_cons, bytesOwned_congr l l' h.2, h.1]

/-- Changing the bytes of one block keeps the invariant. -/
theorem rel_set {an : Bool} {h : H} {m m' : Memory} {live : Live} {q : Nat} {bs bs' : List Byte} (hrel : Rel an h m live)
    (hin : (q, bs) ∈ live) (hlen : bs'.length = bs.length) (hb : ∀ i, i < bs.length → m' (q + i) = bs'[i]?)
    (hout : ∀ x, x < q ∨ q + bs.length ≤ x → m' x = m x) : Rel an h m' (live.map (fun x => if x.1 = q then (x.1, bs') else x)) := by
  obtain ⟨recs, r1, r2, r3, r4, r0, r5, r6⟩ := hrel
  have hdu := distinct_users r3 r4
  rw [r1] at hin
  obtain ⟨r, hr, he⟩ := List.mem_map.mp hin
  injection he with he1 he2
  have huniq : ∀ s ∈ recs, s.p = q → s = r := by
    intro s hs hsq
    apply Classical.byContradiction; intro hne
    exact pairwise_mem (R := fun a b : Rec => a.p ≠ b.p) (fun a b hab => Ne.symm hab) hdu hs hr hne (by omega)
  refine ⟨recs.map (fun s => if s.p = q then { s with bs := bs' } else s), ?_, ?_, ?_, ?_, ?_, ?_, ?_⟩
  · rw [r1, List.map_map, List.map_map]
    apply List.map_congr_left
    intro s _
    simp only [Function.comp]
    by_cases hs : s.p = q
    · rw [if_pos hs, if_pos hs]
    · rw [if_neg hs, if_neg hs]
  · rw [r2, List.map_map]
    apply List.map_congr_left
    intro s _
    simp only [Function.comp]
    by_cases hs : s.p = q
    · rw [if_pos hs]
    · rw [if_neg hs]
  · intro s' hs'
    obtain ⟨s, hs, rfl⟩ := List.mem_map.mp hs'
    obtain ⟨o1, o2, o3, o4, o5, o6, o7, o8⟩ := r3 r hr
    rw [he2] at o4 o6 o7
    by_cases hq : s.p = q
    · rw [if_pos hq]
      have := huniq s hs hq
      subst this
      refine ⟨o1, o2, o3, by simp only [hlen]; exact o4, ?_, by simp only [hlen, he1]; exact hb, ?_, o8⟩
      · intro i hi
        by_cases hx : s.phys + i < q ∨ q + bs.length ≤ s.phys + i
        · simp only; rw [hout _ hx]; exact o5 i hi
        · have := hb (s.phys + i - q) (by omega)
          rw [show q + (s.phys + i - q) = s.phys + i by omega] at this
          simp only; rw [this, List.getElem?_eq_getElem (by omega)]; rfl
      · intro han
        obtain ⟨o9, o10, o11⟩ := o7 han
        simp only [hlen]
        exact ⟨o9, o10.frame (fun x hx hy => hout x (by omega)), o11.frame (fun x hx hy => hout x (by omega))⟩
    · rw [if_neg hq]
      have hap := pairwise_mem (fun a b hab => ⟨by rcases hab.1 with h | h <;> omega, Ne.symm hab.2⟩) r4 hs hr (fun he => hq (by rw [he]; exact he1))
      obtain ⟨ha1, ha2⟩ := hap
      exact (r3 s hs).frame (fun x hx hy => hout x (by omega))
  · rw [List.pairwise_map]
    refine r4.imp ?_
    intro a b hab
    unfold Apart at hab ⊢
    split <;> split <;> exact hab
  · intro x hx
    obtain ⟨o1, o2, o3, o4, o5, o6, o7, o8⟩ := r3 r hr
    rw [hout x (by omega)]; exact r0 x hx
  · rw [r5]
    congr 1
    apply bytesOwned_congr
    rw [r1, List.map_map, List.map_map]
    rw [List.map_map]
    apply List.map_congr_left
    intro s hs
    simp only [Function.comp]
    by_cases hq : s.p = q
    · rw [if_pos hq]
      have := huniq s hs hq
      subst this
      simp only [hlen, he2]
    · rw [if_neg hq]
  · rw [r6, List.length_map]

theorem rel_byte {an : Bool} {h : H} {m : Memory} {live : Live} {p : Nat} {bs : List Byte} (hrel : Rel an h m live) (hin : (p, bs) ∈ live) :
    p ≠ 0 ∧ ∀ i, i < bs.length → m (p + i) = bs[i]? := by
  obtain ⟨recs, r1, r2, r3, r4, r0, r5, r6⟩ := hrel
  rw [r1] at hin
  obtain ⟨r, hr, he⟩ := List.mem_map.mp hin
  injection he with he1 he2
  obtain ⟨o1, o2, o3, o4, o5, o6, o7, o8⟩ := r3 r hr
  rw [he1, he2] at o6
  exact ⟨by omega, o6⟩

theorem rel_tick {an : Bool} {h : H} {m : Memory} {live : Live} (hrel : Rel an h m live) (t : Nat) : Rel an { h with tick := t } m live := by
  obtain ⟨recs, r1, r2, r3, r4, r0, r5, r6⟩ := hrel
  exact ⟨recs, r1, r2, r3, r4, r0, r5, r6⟩

theorem alloc_none {pol : Policy} {clear : Bool} {h : H} {m : Memory} {size align a : Nat} (ha : a = if align = 0 then 16 else align)
    (hpick : pol.pick h.tick h.blocks (roundUp size a) a = none) :
    alloc false pol clear h m size align = .ok (none, { h with tick := h.tick + 1 }, m) := by
  unfold alloc
  simp only [← ha, Bool.false_eq_true, if_false]
  unfold osAlloc
  rw [hpick]
  unfold clearBlock memset
  cases clear <;> simp

/-- **C111, refuted.**  With the analysis an allocation the operating system refuses is not reported: the record is written through the
null pointer (the lowest 48 bytes are no object). -/
theorem C111_analysis_failure_crashes (pol : Policy) (clear : Bool) (h : H) (m : Memory) (size align a : Nat) (ha : a = if align = 0 then 16 else align)
    (hnull : ∀ x, x < 48 → m x = none)
    (hpick : pol.pick h.tick h.blocks (roundUp (size + (max 16 a + 16 % a)) a) a = none) :
    alloc true pol clear h m size align = .error .oob := by
  unfold alloc
  simp only [← ha, if_true]
  unfold osAlloc
  rw [hpick]
  have hclr : clearBlock clear m 0 (size + (max 16 a + 16 % a)) = .ok (0, m) := by
    unfold clearBlock memset; cases clear <;> simp
  simp only [Option.getD_none, hclr, except_ok_bind, Nat.zero_add]
  have hrem : 16 % a ≤ 16 := Nat.mod_le _ _
  by_cases h0 : 16 % a = 0
  · rw [h0]
    have : memset m 0 0 16 = .ok (0, m) := rfl
    rw [this, except_ok_bind]
    simp only [st64w, wordLE, List.range, List.range.loop, List.map_cons, List.map_nil, stN, st, hnull 0 (by omega), except_error_bind]
  · have hn0 := hnull (16 % a + 15) (by omega)
    have : memset m (16 % a) 0 16 = .error .oob := by
      unfold memset
      rw [if_neg h0]
      simp [setBody, st, hn0]
    rw [this]; rfl

/-- An allocation, whatever the answer. -/
theorem rel_alloc_any {an clear : Bool} {pol : Policy} (hp : pol.Ok) {h : H} {m : Memory} {live : Live}
    {size align : Nat} (hrel : Rel an h m live) (hsz : SizeOk size align) :
    (∃ p bs h' m', alloc an pol clear h m size align = .ok (some p, h', m') ∧ Rel an h' m' ((p, bs) :: live) ∧ Fresh live p size ∧
      Aligned align p ∧ bs.length = size ∧ (clear = true → bs = List.replicate size 0) ∧
      (∀ x ∈ live, ∀ i, i < x.2.length → m' (x.1 + i) = m (x.1 + i)) ∧ Mapped m' p size) ∨
    ((an = false ∧ pol.CanFail) ∧ ∃ h', alloc an pol clear h m size align = .ok (none, h', m) ∧ Rel an h' m live) ∨
    (an = true ∧ (∃ n a, pol.pick h.tick h.blocks n a = none) ∧ alloc an pol clear h m size align = .error .oob) := by
  obtain ⟨a, ha⟩ : ∃ a, a = if align = 0 then 16 else align := ⟨_, rfl⟩
  cases hpick : pol.pick h.tick h.blocks (roundUp (if an then size + (max 16 a + 16 % a) else size) a) a with
  | some P => exact Or.inl (rel_alloc hp hrel hsz ha hpick)
  | none =>
    have hcf : pol.CanFail := ⟨_, _, _, _, hpick⟩
    cases an with
    | true =>
      obtain ⟨recs, r1, r2, r3, r4, r0, r5, r6⟩ := hrel
      exact Or.inr (Or.inr ⟨rfl, ⟨_, _, hpick⟩, C111_analysis_failure_crashes pol clear h m size align a ha (fun x hx => r0 x (by omega)) hpick⟩)
    | false => exact Or.inr (Or.inl ⟨⟨rfl, hcf⟩, _, alloc_none ha hpick, rel_tick hrel _⟩)

/-- One action. -/
theorem rel_step {an : Bool} {pol : Policy} (hp : pol.Ok) {h : H} {m : Memory} {live : Live} {op : Op}
    (hrel : Rel an h m live) (hop : OpOk live op) :
    (∃ r h' m' live', step an pol h m op = .ok (r, h', m') ∧ Step (an = false ∧ pol.CanFail) live op r live' ∧ Rel an h' m' live') ∨
    (an = true ∧ (∃ n a, pol.pick h.tick h.blocks n a = none) ∧ step an pol h m op = .error .oob) := by
  cases op with
  | alloc size align clear =>
    rcases rel_alloc_any (clear := clear) hp hrel hop with ⟨p, bs, h', m', e1, e2, e3, e4, e5, e6, _, _⟩ | ⟨hcf, h', e1, e2⟩ | hbad
    · exact Or.inl ⟨_, h', m', _, e1, .alloc e3 e4 e5 e6, e2⟩
    · exact Or.inl ⟨_, h', m, _, e1, .allocFail hcf, e2⟩
    · exact Or.inr hbad
  | free p =>
    cases p with
    | none => exact Or.inl ⟨none, h, m, live, rfl, .freeNull, hrel⟩
    | some p =>
      obtain ⟨bs, hb⟩ := hop
      obtain ⟨h', m', e1, e2, _, _⟩ := rel_free (pol := pol) hrel hb
      exact Or.inl ⟨none, h', m', _, by simp only [step, e1, except_ok_bind], .free, e2⟩
  | write p i b =>
    obtain ⟨bs, hb, hi⟩ := hop
    obtain ⟨h0, hbytes⟩ := rel_byte hrel hb
    have hmap : (m (p + i)).isSome := by rw [hbytes i hi, List.getElem?_eq_getElem hi]; rfl
    refine Or.inl ⟨none, h, fun x => if x = p + i then some b else m x, _, by simp only [step, st_ok hmap, except_ok_bind], .write, ?_⟩
    have hset := rel_set (m' := fun x => if x = p + i then some b else m x) (bs' := bs.set i b) hrel hb (by simp) (by
      intro j hj
      by_cases hji : j = i
      · subst hji; rw [if_pos rfl, List.getElem?_set_self hj]
      · rw [if_neg (by omega), List.getElem?_set_ne (by omega)]; exact hbytes j hj) (by
      intro x hx; exact if_neg (by omega))
    have heq : (live.map (fun x => if x.1 = p then (x.1, bs.set i b) else x)) = live.map (fun x => if x.1 = p then (x.1, x.2.set i b) else x) := by
      apply List.map_congr_left
      intro x hx
      by_cases hxp : x.1 = p
      · rw [if_pos hxp, if_pos hxp]
        -- the block at `p` is unique
        obtain ⟨recs, r1, r2, r3, r4, r0, r5, r6⟩ := hrel
        have hdu := distinct_users r3 r4
        rw [r1] at hx hb
        obtain ⟨s, hs, rfl⟩ := List.mem_map.mp hx
        obtain ⟨r, hr, he⟩ := List.mem_map.mp hb
        injection he with he1 he2
        have : s = r := by
          apply Classical.byContradiction; intro hne
          exact pairwise_mem (R := fun a b : Rec => a.p ≠ b.p) (fun a b hab => Ne.symm hab) hdu hs hr hne (by simp only at hxp; omega)
        subst this; rw [he2]
      · rw [if_neg hxp, if_neg hxp]
    rw [heq] at hset
    exact hset
  | resize old oldSize newSize align =>
    have hal : ∀ x, (if (if align = 0 then 16 else align) = 0 then 16 else (if align = 0 then 16 else align)) = x ↔ (if align = 0 then 16 else align) = x := by
      intro x; by_cases h0 : align = 0 <;> simp [h0]
    have hsz' : SizeOk newSize align → SizeOk newSize (if align = 0 then 16 else align) := by
      intro hs; refine ⟨hs.1, Or.inr ?_⟩
      by_cases h0 : align = 0
      · exact ⟨4, by omega, by rw [if_pos h0]⟩
      · rw [if_neg h0]; exact hs.2.resolve_left h0
    have hald : ∀ p, Aligned (if align = 0 then 16 else align) p → Aligned align p := by
      intro p h1
      by_cases h0 : align = 0
      · rw [if_pos h0] at h1; exact ⟨fun _ => h1.2 (by omega) (by omega), fun _ h => absurd h0 h⟩
      · rw [if_neg h0] at h1; exact h1
    cases old with
    | none =>
      rcases rel_alloc_any (clear := true) hp hrel (hsz' hop) with ⟨p, bs, h', m', e1, e2, e3, e4, e5, e6, _, _⟩ | ⟨hcf, h', e1, e2⟩ | hbad
      · refine Or.inl ⟨_, h', m', _, e1, .resizeNull e3 (hald _ e4), ?_⟩
        rw [← e6 rfl]; exact e2
      · exact Or.inl ⟨_, h', m, _, e1, .resizeNullFail hcf, e2⟩
      · exact Or.inr hbad
    | some p =>
      obtain ⟨hsz, bs, hb, hos⟩ := hop
      simp only [step, resize]
      by_cases h0 : newSize = 0
      · subst h0
        obtain ⟨h', m', e1, e2, _, _⟩ := rel_free (pol := pol) hrel hb
        exact Or.inl ⟨none, h', m', _, Resize.C21_zero_frees _ _ _ _ _ _ _ _ e1, .resizeZero, e2⟩
      by_cases hle : newSize ≤ oldSize
      · exact Or.inl ⟨some p, h, m, live, Resize.C21_shrink _ _ _ _ _ _ _ h0 hle, .resizeKeep h0 hle, hrel⟩
      obtain ⟨hp0, hbytes⟩ := rel_byte hrel hb
      rcases rel_alloc_any (clear := true) hp hrel (hsz' hsz) with ⟨q, bs1, h1, m1, e1, e2, e3, e4, e5, e6, e7, e8⟩ | ⟨hcf, h', e1, e2⟩ | ⟨hb1, hb2, hb3⟩
      · have hz := e6 rfl
        subst hz
        have hfr := e3.2 _ hb
        -- the copy
        have hcp : Rel an h1 (copied m1 q p oldSize) ((q, bs.take oldSize ++ List.replicate (newSize - oldSize) 0) :: live) := by
          have := rel_set (m' := copied m1 q p oldSize) (bs' := bs.take oldSize ++ List.replicate (newSize - oldSize) 0) e2 (List.mem_cons_self)
            (by simp; omega) (by
              intro i hi
              simp only [List.length_replicate] at hi
              unfold copied
              by_cases hio : i < oldSize
              · rw [if_pos (by omega), show p + (q + i - q) = p + i by omega, e7 _ hb i (by simp only; omega), hbytes i (by omega),
                  List.getElem?_append_left (by simp; omega), List.getElem?_take, if_pos hio]
              · rw [if_neg (by omega), (rel_byte e2 List.mem_cons_self).2 i (by simpa using hi),
                  List.getElem?_append_right (by simp; omega), List.getElem?_replicate, List.getElem?_replicate, if_pos hi, if_pos (by simp; omega)])
            (by intro x hx; simp only [List.length_replicate] at hx; unfold copied; exact if_neg (by omega))
          rw [List.map_cons, if_pos rfl] at this
          rw [show live.map (fun x => if x.1 = q then (x.1, bs.take oldSize ++ List.replicate (newSize - oldSize) (0 : Byte)) else x) = live by
            conv => rhs; rw [← List.map_id live]
            apply List.map_congr_left
            intro x hx
            exact if_neg (Ne.symm (e3.2 x hx).2)] at this
          exact this
        obtain ⟨h2, m2, f1, f2, f3, f4⟩ := rel_free (pol := pol) hcp (List.mem_cons_of_mem _ hb)
        have hg := Resize.C21_grow (allocator an pol) h h1 h2 m m1 m2 p q oldSize newSize (if align = 0 then 16 else align) (by omega)
          (fun i hi => by rw [hbytes i (by omega), List.getElem?_eq_getElem (by omega)]; rfl) hp0 e1
          ⟨e3.1, e8, by simp only at hfr; omega, fun i hi => e7 _ hb i (by simp only; omega)⟩ f1 (by
            intro i hi
            exact f3 _ List.mem_cons_self hfr.2 i (by simp; omega))
        refine Or.inl ⟨some q, h2, m2, _, hg.1, .resizeGrow (by omega) hb e3 (hald _ e4), ?_⟩
        rw [List.filter_cons] at f2
        rw [show ((q != p) = true) by simpa using hfr.2] at f2
        exact f2
      · refine Or.inl ⟨none, h', m, live, ?_, .resizeFail (by omega) hcf, e2⟩
        have ef : (allocator an pol).alloc h m newSize (if align = 0 then 16 else align) = .ok (none, h', m) := e1
        unfold Resize.resize
        simp only [if_neg h0, if_neg (show ¬ newSize < oldSize by omega), if_neg (show ¬ oldSize = newSize by omega), ef, except_ok_bind]
      · refine Or.inr ⟨hb1, hb2, ?_⟩
        have ef : (allocator an pol).alloc h m newSize (if align = 0 then 16 else align) = .error .oob := hb3
        unfold Resize.resize
        simp only [if_neg h0, if_neg (show ¬ newSize < oldSize by omega), if_neg (show ¬ oldSize = newSize by omega), ef, except_error_bind]

/-! ## Properties -/

/-- **C111.**  The heap, with or without the analysis: for every operating system that keeps the contract of `aligned_alloc` and every
client that keeps the rules, the first `n` actions run without a fault, and everything the client sees is what `Step` says of a
heap: fresh blocks that overlap nothing, zeroed when asked, whose bytes stay what the client stored until it frees them.  All bytes
the client owns are in memory, and there are as many operating system blocks as blocks owned: nothing leaks.  The one exception
is that, with the analysis, an allocation that the operating system refuses faults (without it, NULL is returned). -/
theorem C111_heap (an : Bool) (pol : Policy) (hp : pol.Ok) (client : List (Option Nat) → Op)
    (hcl : Behaves (an = false ∧ pol.CanFail) client) (n : Nat) :
    (∃ hist h m live, run an pol client n = .ok (hist, h, m) ∧ Seen (an = false ∧ pol.CanFail) client hist live ∧
      (∀ x ∈ live, x.1 ≠ 0 ∧ ∀ i, i < x.2.length → m (x.1 + i) = x.2[i]?) ∧
      h.used = (if an then bytesOwned live else 0) ∧ h.count = (if an then (live.length : Int) else 0) ∧ h.blocks.length = live.length) ∨
    (an = true ∧ run an pol client n = .error .oob ∧ ∃ k hist h m, k < n ∧ run an pol client k = .ok (hist, h, m) ∧
      ∃ size align, pol.pick h.tick h.blocks size align = none) := by
  suffices hs : (∃ hist h m live, run an pol client n = .ok (hist, h, m) ∧ Seen (an = false ∧ pol.CanFail) client hist live ∧ Rel an h m live) ∨
      (an = true ∧ run an pol client n = .error .oob ∧ ∃ k hist h m, k < n ∧ run an pol client k = .ok (hist, h, m) ∧
        ∃ size align, pol.pick h.tick h.blocks size align = none) by
    rcases hs with ⟨hist, h, m, live, h1, h2, h3⟩ | hs
    · refine Or.inl ⟨hist, h, m, live, h1, h2, fun x hx => rel_byte h3 hx, ?_⟩
      obtain ⟨recs, r1, r2, r3, r4, r0, r5, r6⟩ := h3
      exact ⟨r5, r6, by rw [r1, r2, List.length_map, List.length_map]⟩
    · exact Or.inr hs
  induction n with
  | zero => exact Or.inl ⟨[], _, _, [], rfl, .start, [], rfl, rfl, nofun, List.Pairwise.nil, fun _ _ => rfl, by cases an <;> rfl, by cases an <;> rfl⟩
  | succ n ih =>
    rcases ih with ⟨hist, h, m, live, h1, h2, h3⟩ | ⟨i1, i2, k, hist, h, m, i3, i4, i5⟩
    · rcases rel_step hp h3 (hcl hist live h2) with ⟨r, h', m', live', e1, e2, e3⟩ | ⟨b1, b2, b3⟩
      · exact Or.inl ⟨r :: hist, h', m', live', by simp only [run, h1, except_ok_bind, e1], .next h2 e2, e3⟩
      · exact Or.inr ⟨b1, by simp only [run, h1, except_ok_bind, b3, except_error_bind], n, hist, h, m, by omega, h1, b2⟩
    · exact Or.inr ⟨i1, by simp only [run, i2, except_error_bind], k, hist, h, m, by omega, i4, i5⟩

/-- **C111.**  With the analysis, as long as the operating system refuses nothing, the statistics say how many blocks the client owns and
how many bytes they have, and the leak check passes exactly if the client owns nothing. -/
theorem C111_statistics (pol : Policy) (hp : pol.Ok) (client : List (Option Nat) → Op) (hcl : Behaves False client) (n : Nat)
    (hrun : run true pol client n ≠ .error .oob) :
    ∃ hist h m live, run true pol client n = .ok (hist, h, m) ∧ Seen False client hist live ∧
      statsUsed magic h = .ok (bytesOwned live) ∧ statsCount magic h = .ok live.length ∧
      (statsCheck magic h = .ok () ↔ live = []) := by
  have hF : (true = false ∧ pol.CanFail) = False := by simp
  rcases C111_heap true pol hp client (by rw [hF]; exact hcl) n with ⟨hist, h, m, live, h1, h2, h3, h4, h5, h6⟩ | hb
  rotate_left
  · exact absurd hb.2.1 hrun
  rw [hF] at h2
  simp only [if_true] at h4 h5
  refine ⟨hist, h, m, live, h1, h2, by rw [statsUsed, if_pos rfl, h4], by rw [statsCount, if_pos rfl, h5], ?_⟩
  unfold statsCheck
  rw [if_pos rfl, h4, h5]
  constructor
  · intro hh
    by_cases hu : bytesOwned live = 0
    · rw [if_pos hu] at hh
      by_cases hl : (live.length : Int) = 0
      · exact List.eq_nil_of_length_eq_zero (by omega)
      · rw [if_neg hl] at hh; exact absurd hh nofun
    · rw [if_neg hu] at hh; exact absurd hh nofun
  · intro hl; subst hl; rfl

/-- **C111.**  The statistics cannot be read, nor the check run, before they are initialised (whatever else the magic number is). -/
theorem C111_uninitialised (mg : BitVec 32) (h : H) (hm : mg ≠ magic) :
    statsUsed mg h = .error .assertion ∧ statsCount mg h = .error .assertion ∧ statsCheck mg h = .error .assertion ∧
    statsUsed (statsInit h).1 (statsInit h).2 = .ok 0 ∧ statsCheck (statsInit h).1 (statsInit h).2 = .ok () := by
  refine ⟨if_neg hm, if_neg hm, if_neg hm, rfl, rfl⟩

/-- **C111.**  Without the analysis every block has the alignment asked for. -/
theorem C111_plain_alignment (pol : Policy) (hp : pol.Ok) (clear : Bool) (h h' : H) (m m' : Memory) (size align p : Nat) (hsz : SizeOk size align)
    (ha : align ≠ 0) (h1 : alloc false pol clear h m size align = .ok (some p, h', m')) : align ∣ p := by
  cases hpick : pol.pick h.tick h.blocks (roundUp size align) align with
  | none =>
    rw [alloc_none (by rw [if_neg ha]) hpick] at h1
    injection h1 with h1; injection h1 with h1; exact absurd h1 nofun
  | some P =>
    obtain ⟨n, q, m'', e1, e2, e3, _⟩ := alloc_some false clear pol hp h m size align align P hsz (by rw [if_neg ha]) (by simpa using hpick)
    rw [e1] at h1
    injection h1 with h1; injection h1 with h1; injection h1 with h1
    have := (hp _ _ _ _ _ hpick).2.1
    simp only [Bool.false_eq_true, if_false, Nat.add_zero] at e3
    rw [← h1, e3]; exact this

/-- **C111, refuted.**  With the analysis no block has an alignment of 64 or more: the user's bytes always start 32 bytes into the
aligned block. -/
theorem C111_analysis_misaligned (pol : Policy) (hp : pol.Ok) (clear : Bool) (h : H) (m : Memory) (size k P : Nat) (hk : 6 ≤ k ∧ k ≤ 60) (hs : size < 2 ^ 61)
    (hpick : pol.pick h.tick h.blocks (roundUp (size + (max 16 (2 ^ k) + 16 % 2 ^ k)) (2 ^ k)) (2 ^ k) = some P) :
    ∃ p h' m', alloc true pol clear h m size (2 ^ k) = .ok (some p, h', m') ∧ p % 2 ^ k = 32 := by
  have hpos := Nat.two_pow_pos k
  obtain ⟨n, p, m', e1, e2, e3, _⟩ := alloc_some true clear pol hp h m size (2 ^ k) (2 ^ k) P ⟨hs, Or.inr ⟨k, hk.2, rfl⟩⟩
    (by rw [if_neg (by omega)]) (by simpa using hpick)
  refine ⟨p, _, m', e1, ?_⟩
  have hd := (hp _ _ _ _ _ hpick).2.1
  have h64 : 2 ^ 6 ≤ 2 ^ k := Nat.pow_le_pow_right (by omega) hk.1
  simp only [if_true] at e3
  rw [Nat.mod_eq_of_lt (show 16 < 2 ^ k by omega)] at e3
  obtain ⟨q, rfl⟩ := hd
  rw [e3, Nat.mul_add_mod, Nat.mod_eq_of_lt (by omega)]

/-! ### A concrete operating system and client -/

/-- The first address above all blocks. -/
def top : List (Nat × Nat) → Nat
  | [] => 4096
  | b :: rest => max (b.1 + b.2 + 1) (top rest)

/-- An operating system that puts each block above all others, as long as the address space lasts. -/
def bump : Policy where
  pick := fun _ blocks n a => if 0 < a ∧ a * (top blocks / a + 1) + n ≤ 2 ^ 63 then some (a * (top blocks / a + 1)) else none
  junk := fun t x => BitVec.ofNat 8 (t + x)

theorem top_spec : ∀ blocks : List (Nat × Nat), 4096 ≤ top blocks ∧ ∀ b ∈ blocks, b.1 + b.2 < top blocks
  | [] => ⟨Nat.le_refl _, nofun⟩
  | b :: rest => by
    obtain ⟨h1, h2⟩ := top_spec rest
    simp only [top]
    refine ⟨by omega, ?_⟩
    intro c hc
    rcases List.mem_cons.mp hc with h | h
    · subst h; omega
    · have := h2 c h; omega

theorem bump_ok : bump.Ok := by
  intro t blocks n a p h
  simp only [bump] at h
  split at h
  · next hc =>
    injection h with h
    obtain ⟨h1, h2⟩ := top_spec blocks
    have h3 : top blocks < a * (top blocks / a + 1) := by
      have := Nat.lt_mul_div_succ (top blocks) hc.1
      omega
    rw [h] at h3 hc
    refine ⟨by omega, ⟨_, h.symm⟩, hc.2, ?_⟩
    intro b hb
    have := h2 b hb
    omega
  · exact absurd h nofun

/-- A client: ten bytes, the fourth set to 7, grown to forty, freed. -/
def exClient : List (Option Nat) → Op
  | [] => .alloc 10 0 true
  | [some p] => .write p 3 7
  | [none, some p] => .resize (some p) 10 40 64
  | [some q, none, some _] => .free (some q)
  | _ => .free none

theorem exClient_behaves (cf : Prop) : Behaves cf exClient := by
  have s0 : ∀ live, Seen cf exClient [] live → live = [] := by intro live h; cases h; rfl
  have s1 : ∀ p live, Seen cf exClient [some p] live → ∃ bs, live = [(p, bs)] ∧ bs.length = 10 := by
    intro p live h
    cases h with
    | next h1 h2 =>
      have := s0 _ h1; subst this
      cases h2 with
      | alloc a b c d => exact ⟨_, rfl, c⟩
  have s2 : ∀ p live, Seen cf exClient [none, some p] live → ∃ bs, live = [(p, bs)] ∧ bs.length = 10 := by
    intro p live h
    cases h with
    | next h1 h2 =>
      obtain ⟨bs, hl, hb⟩ := s1 _ _ h1
      subst hl
      cases h2 with
      | write => exact ⟨bs.set 3 7, by simp, by simpa using hb⟩
  have s3 : ∀ q p live, Seen cf exClient [some q, none, some p] live → ∃ bs, live = [(q, bs)] := by
    intro q p live h
    cases h with
    | next h1 h2 =>
      obtain ⟨bs, hl, hb⟩ := s2 _ _ h1
      subst hl
      cases h2 with
      | resizeKeep a b => omega
      | resizeGrow a b c d =>
        have hf : [(p, bs)].filter (fun x => x.1 != p) = [] := by simp
        rw [hf]; exact ⟨_, rfl⟩
  intro hist live hs
  match hist, hs with
  | [], hs => exact ⟨by omega, Or.inl rfl⟩
  | [none], hs => trivial
  | [some p], hs =>
    obtain ⟨bs, hl, hb⟩ := s1 _ _ hs
    exact ⟨bs, by rw [hl]; exact List.mem_cons_self, by omega⟩
  | [none, none], _ => trivial
  | [some _, none], _ => trivial
  | [some _, some _], _ => trivial
  | [none, some p], hs =>
    obtain ⟨bs, hl, hb⟩ := s2 _ _ hs
    exact ⟨⟨by omega, Or.inr ⟨6, by omega, rfl⟩⟩, bs, by rw [hl]; exact List.mem_cons_self, by omega⟩
  | [some q, none, some p], hs =>
    obtain ⟨bs, hl⟩ := s3 _ _ _ hs
    exact ⟨bs, by rw [hl]; exact List.mem_cons_self⟩
  | [none, none, _], _ => trivial
  | [none, some _, _], _ => trivial
  | [some _, some _, _], _ => trivial
  | [some _, none, none], _ => trivial
  | a :: b :: c :: d :: e, _ =>
    cases a <;> cases b <;> cases c <;> trivial

/-- Non-vacuity of `C111_heap` and `C111_statistics`: this client on this operating system.  After three actions one block of forty
bytes is alive, 32 bytes into its aligned block (the fourth byte is 7, the twentieth 0); after four nothing is. -/
example : (run true bump exClient 3).map (fun r => (r.1, r.2.1.used, r.2.1.count)) = .ok ([some 4192, none, some 4128], 40, 1) ∧
    (run true bump exClient 3).map (fun r => (r.2.2 (4192 + 3), r.2.2 (4192 + 19))) = .ok (some 7, some 0) ∧
    (run true bump exClient 4).map (fun r => (r.2.1.used, r.2.1.count, r.2.1.blocks)) = .ok (0, 0, []) ∧
    (run false bump exClient 3).map (fun r => (r.1, r.2.1.used)) = .ok ([some 4160, none, some 4112], 0) := by
  refine ⟨?_, ?_, ?_, ?_⟩
  · decide +kernel
  · decide +kernel
  · decide +kernel
  · decide +kernel

/-- Non-vacuity of `C111_analysis_misaligned`, `C111_plain_alignment` and `C111_analysis_failure_crashes`. -/
example : (alloc true bump true ⟨[], 0, 0, 0⟩ (fun _ => none) 8 64).map (fun r => r.1) = .ok (some 4192) ∧
    (alloc false bump true ⟨[], 0, 0, 0⟩ (fun _ => none) 8 64).map (fun r => r.1) = .ok (some 4160) ∧
    bump.pick 0 [] (roundUp (2 ^ 63 + (max 16 16 + 16 % 16)) 16) 16 = none := by
  decide +kernel

end Zpl.Heap
