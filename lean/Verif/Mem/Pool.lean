import Verif.Mem.Words

/-!
# Pool allocator — source/essentials/memory_custom.c:207-297

The free list is stored inside the free blocks, in byte memory.  The memory obtained from the backing allocator is a parameter
(the code does not check for NULL).  Addresses are natural numbers below `2^64`.
-/
namespace Zpl.Pool
open Mem
open Arena (SameDom zeroSize sameDom_filled)

/-! ## Model -/

/-- `zpl_pool` — header/essentials/memory_custom.h. -/
structure Pool where
  start : Nat
  freeList : Nat
  bsize : Nat
  balign : Nat
  nblocks : Nat
  totalSize : Int
  deriving DecidableEq, Repr

/-- Distance between two blocks — source/essentials/memory_custom.c:219 and 275. -/
def Pool.stride (P : Pool) : Nat := P.bsize + P.balign

/-- The loop that links the blocks — source/essentials/memory_custom.c:225-230 and 280-284. -/
def linkLoop (m : Memory) (curr stride : Nat) : Nat → Except Fault (Nat × Memory)
  | 0 => .ok (curr, m)
  | k + 1 => do
    let m ← st64w m curr (curr + stride)
    linkLoop m (curr + stride) stride k

/-- Building the free list — source/essentials/memory_custom.c:225-233 and 279-287. -/
def linkAll (m : Memory) (start stride n : Nat) : Except Fault Memory := do
  let (curr, m) ← linkLoop m start stride (n - 1)
  st64w m curr 0

/-- `zpl_pool_init_align` — source/essentials/memory_custom.c:207-237; `start` is what the backing allocator returned. -/
def init (m : Memory) (start n bsize balign : Nat) : Except Fault (Pool × Memory) := do
  let m ← linkAll m start (bsize + balign) n
  .ok (⟨start, start, bsize, balign, n, 0⟩, m)

/-- `ZPL_ALLOCATION_ALLOC` — source/essentials/memory_custom.c:246-257. -/
def alloc (P : Pool) (m : Memory) (size align : Nat) : Except Fault (Nat × Pool × Memory) :=
  if size ≠ P.bsize then .error .assertion
  else if align ≠ P.balign then .error .assertion
  else if P.freeList = 0 then .error .assertion
  else do
    let next ← ld64 m P.freeList
    let m ← zeroSize m P.freeList size
    .ok (P.freeList, { P with freeList := next, totalSize := P.totalSize + P.bsize }, m)

/-- `ZPL_ALLOCATION_FREE` — source/essentials/memory_custom.c:259-267. -/
def free (P : Pool) (m : Memory) (p : Nat) : Except Fault (Pool × Memory) :=
  if p = 0 then .ok (P, m)
  else do
    let m ← st64w m p P.freeList
    .ok ({ P with freeList := p, totalSize := P.totalSize - P.bsize }, m)

/-- `ZPL_ALLOCATION_FREE_ALL` — source/essentials/memory_custom.c:269-289. -/
def freeAll (P : Pool) (m : Memory) : Except Fault (Pool × Memory) := do
  let m ← linkAll m P.start P.stride P.nblocks
  .ok ({ P with freeList := P.start, totalSize := 0 }, m)

/-! ## Histories -/

/-- Requests, and writes of the client into its blocks. -/
inductive Op where
  | alloc (size align : Nat)
  | free (p : Nat)
  | freeAll
  | write (p off : Nat) (b : Byte)

/-- The pool and its memory, and for the specification the blocks the client holds. -/
structure State where
  pool : Pool
  mem : Memory
  live : List Nat

/-- One request.  Freeing or writing to a block that is not held, or past its end, is a client error (`ub`). -/
def step (S : State) : Op → Except Fault (Option Nat × State)
  | .alloc size align => do
    let (p, P, m) ← alloc S.pool S.mem size align
    .ok (some p, ⟨P, m, p :: S.live⟩)
  | .free p =>
    if p ∈ S.live then do
      let (P, m) ← free S.pool S.mem p
      .ok (none, ⟨P, m, S.live.erase p⟩)
    else .error .ub
  | .freeAll => do
    let (P, m) ← freeAll S.pool S.mem
    .ok (none, ⟨P, m, []⟩)
  | .write p off b =>
    if p ∈ S.live ∧ off < S.pool.bsize then do
      let m ← st S.mem (p + off) b
      .ok (none, { S with mem := m })
    else .error .ub

/-- A history: what each request returns, and the final state. -/
def run (S : State) : List Op → Except Fault (List (Option Nat) × State)
  | [] => .ok ([], S)
  | o :: os => do
    let (r, S) ← step S o
    let (rs, S) ← run S os
    .ok (r :: rs, S)

/-- States a client can reach from a freshly initialised pool. -/
def Reachable (m : Memory) (start n bsize balign : Nat) (S : State) : Prop :=
  ∃ P m' ops rs, init m start n bsize balign = .ok (P, m') ∧ run ⟨P, m', []⟩ ops = .ok (rs, S)

/-! ## Lemmas -/

/-- The addresses of `n` blocks. -/
def blocks (start stride : Nat) : Nat → List Nat
  | 0 => []
  | n + 1 => start :: blocks (start + stride) stride n

theorem mem_blocks {stride : Nat} : ∀ (n start x : Nat), x ∈ blocks start stride n ↔ ∃ i, i < n ∧ x = start + i * stride
  | 0, start, x => by simp [blocks]
  | n + 1, start, x => by
    simp only [blocks, List.mem_cons, mem_blocks n (start + stride) x]
    constructor
    · rintro (rfl | ⟨i, hi, rfl⟩)
      · exact ⟨0, by omega, by omega⟩
      · exact ⟨i + 1, by omega, by rw [Nat.add_mul]; omega⟩
    · rintro ⟨i, hi, rfl⟩
      cases i with
      | zero => left; omega
      | succ i => right; exact ⟨i, by omega, by rw [Nat.add_mul]; omega⟩

theorem blocks_length (stride : Nat) : ∀ (n start : Nat), (blocks start stride n).length = n
  | 0, _ => rfl
  | n + 1, start => by simp [blocks, blocks_length stride n]

theorem blocks_sep {start stride n x y : Nat} (hx : x ∈ blocks start stride n) (hy : y ∈ blocks start stride n) (h : x ≠ y) :
    x + stride ≤ y ∨ y + stride ≤ x := by
  obtain ⟨i, hi, rfl⟩ := (mem_blocks n start x).mp hx
  obtain ⟨j, hj, rfl⟩ := (mem_blocks n start y).mp hy
  have hij : i ≠ j := by rintro rfl; exact h rfl
  rcases Nat.lt_or_gt_of_ne hij with h' | h'
  · left
    have := Nat.mul_le_mul_right stride (show i + 1 ≤ j from h')
    rw [Nat.add_mul] at this; omega
  · right
    have := Nat.mul_le_mul_right stride (show j + 1 ≤ i from h')
    rw [Nat.add_mul] at this; omega

theorem blocks_bound {start stride n x : Nat} (hx : x ∈ blocks start stride n) : start ≤ x ∧ x + stride ≤ start + n * stride := by
  obtain ⟨i, hi, rfl⟩ := (mem_blocks n start x).mp hx
  have := Nat.mul_le_mul_right stride (show i + 1 ≤ n from hi)
  rw [Nat.add_mul] at this
  omega

theorem blocks_nodup {stride : Nat} (hs : 0 < stride) : ∀ (n start : Nat), (blocks start stride n).Nodup
  | 0, _ => List.nodup_nil
  | n + 1, start => by
    refine List.nodup_cons.mpr ⟨?_, blocks_nodup hs n _⟩
    intro h
    have := (blocks_bound h).1
    omega

/-- The free list starting at `h` consists of `xs`. -/
def FL (m : Memory) : Nat → List Nat → Prop
  | h, [] => h = 0
  | h, x :: xs => h = x ∧ x ≠ 0 ∧ ∃ v, Holds m x v ∧ FL m v xs

theorem FL.frame {m m' : Memory} : ∀ {xs : List Nat} {h : Nat}, FL m h xs →
    (∀ x ∈ xs, ∀ y, x ≤ y → y < x + 8 → m' y = m y) → FL m' h xs
  | [], _, hf, _ => hf
  | x :: xs, _, hf, hfr => by
    obtain ⟨h1, h2, v, h3, h4⟩ := hf
    exact ⟨h1, h2, v, h3.frame (hfr x (by simp)), h4.frame (fun y hy => hfr y (by simp [hy]))⟩

theorem linkAll_one (m : Memory) (start stride : Nat) : linkAll m start stride 1 = st64w m start 0 := rfl

theorem linkAll_succ (m : Memory) (start stride k : Nat) : linkAll m start stride (k + 2) = (do
    let m ← st64w m start (start + stride)
    linkAll m (start + stride) stride (k + 1)) := by
  unfold linkAll
  rw [show k + 2 - 1 = k + 1 by omega, show k + 1 - 1 = k by omega, linkLoop]
  cases st64w m start (start + stride) <;> rfl

theorem link_ok {stride : Nat} (h8 : 8 ≤ stride) : ∀ (n : Nat) (m : Memory) (start : Nat), 0 < n → 0 < start →
    start + n * stride < 2 ^ 64 → Mapped m start (n * stride) →
    ∃ m', linkAll m start stride n = .ok m' ∧ FL m' start (blocks start stride n) ∧ SameDom m' m ∧
      ∀ x, (x < start ∨ start + n * stride ≤ x) → m' x = m x
  | 0, _, _, h, _, _, _ => by omega
  | 1, m, start, _, h0, hlt, hm => by
    rw [linkAll_one, st64w_ok (hm.mono (by omega) (by omega))]
    refine ⟨_, rfl, ⟨rfl, by omega, 0, holds_put m (by omega), rfl⟩, sameDom_put (hm.mono (by omega) (by omega)), ?_⟩
    intro x hx
    exact put_outside (by omega)
  | n + 2, m, start, _, h0, hlt, hm => by
    have e : (n + 2) * stride = (n + 1) * stride + stride := by rw [Nat.add_mul, Nat.add_mul]; omega
    have m8 : Mapped m start 8 := hm.mono (by omega) (by omega)
    rw [linkAll_succ, st64w_ok m8, except_ok_bind]
    have sd := sameDom_put (v := start + stride) m8
    obtain ⟨m', h1, h2, h3, h4⟩ := link_ok h8 (n + 1) (put m start (start + stride)) (start + stride) (by omega) (by omega) (by omega)
      ((sd.mapped _ _).mpr (hm.mono (by omega) (by omega)))
    refine ⟨m', h1, ⟨rfl, by omega, start + stride, ?_, h2⟩, h3.trans sd, ?_⟩
    · exact (holds_put m (by omega)).frame (fun x hx1 hx2 => h4 x (by omega))
    · intro x hx
      rw [h4 x (by omega)]
      exact put_outside (by omega)

/-- The pool's invariant. -/
structure Inv (start n bsize balign : Nat) (S : State) : Prop where
  hstart : S.pool.start = start
  hb : S.pool.bsize = bsize
  ha : S.pool.balign = balign
  hn : S.pool.nblocks = n
  hmap : Mapped S.mem start (n * (bsize + balign))
  hfree : ∃ fr, FL S.mem S.pool.freeList fr ∧ (fr ++ S.live).Perm (blocks start (bsize + balign) n)
  htotal : S.pool.totalSize = bsize * S.live.length

/-- Preconditions on the geometry. -/
structure Geometry (start n bsize balign : Nat) : Prop where
  hn : 0 < n
  hstart : 0 < start
  h8 : 8 ≤ bsize + balign
  hlt : start + n * (bsize + balign) < 2 ^ 64

section
variable {start n bsize balign : Nat}

theorem inv_init (G : Geometry start n bsize balign) {m : Memory} (hm : Mapped m start (n * (bsize + balign))) :
    ∃ P m', init m start n bsize balign = .ok (P, m') ∧ Inv start n bsize balign ⟨P, m', []⟩ := by
  obtain ⟨m', h1, h2, h3, _⟩ := link_ok G.h8 n m start G.hn G.hstart G.hlt hm
  refine ⟨⟨start, start, bsize, balign, n, 0⟩, m', by simp only [init, h1, except_ok_bind], ?_⟩
  exact {
    hstart := rfl, hb := rfl, ha := rfl, hn := rfl
    hmap := (h3.mapped _ _).mpr hm
    hfree := ⟨_, h2, by simp⟩
    htotal := by simp }

theorem inv_nodup (G : Geometry start n bsize balign) {live fr : List Nat} (hp : (fr ++ live).Perm (blocks start (bsize + balign) n)) :
    (fr ++ live).Nodup := (hp.nodup_iff).mpr (blocks_nodup (by have := G.h8; omega) n start)

/-- What an allocation does. -/
theorem alloc_cases (G : Geometry start n bsize balign) {S : State} (h : Inv start n bsize balign S) :
    (S.live.length = n ∧ step S (.alloc bsize balign) = .error .assertion) ∨
    (S.live.length < n ∧ ∃ p S', step S (.alloc bsize balign) = .ok (some p, S') ∧ p = S.pool.freeList ∧ p ∉ S.live ∧
      p ∈ blocks start (bsize + balign) n ∧ S'.live = p :: S.live ∧ Inv start n bsize balign S' ∧
      (∀ x, S'.mem x = if p ≤ x ∧ x < p + bsize then some 0 else S.mem x)) := by
  obtain ⟨fr, hf, hp⟩ := h.hfree
  have hlen := hp.length_eq
  rw [List.length_append, blocks_length] at hlen
  cases fr with
  | nil =>
    left
    have h0 : S.pool.freeList = 0 := hf
    refine ⟨by simpa using hlen, ?_⟩
    simp [step, alloc, h.hb, h.ha, h0]
  | cons x xs =>
    right
    simp only [List.length_cons] at hlen
    obtain ⟨h1, h2, v, h3, h4⟩ := hf
    have hx : x ∈ blocks start (bsize + balign) n := hp.subset (by simp)
    have hbd := blocks_bound hx
    have hnd := inv_nodup G hp
    rw [List.cons_append, List.nodup_cons] at hnd
    have hmx : Mapped S.mem x bsize := h.hmap.mono (by omega) (by omega)
    refine ⟨by omega, x, ⟨{ S.pool with freeList := v, totalSize := S.pool.totalSize + S.pool.bsize }, filled S.mem x bsize 0, x :: S.live⟩,
      ?_, h1.symm, fun hm => hnd.1 (by simp [hm]), hx, rfl, ?_, fun y => rfl⟩
    · simp only [step, alloc, h.hb, h.ha, h1, ne_eq, not_true_eq_false, ite_false, if_neg h2, ld64_ok h3, except_ok_bind, zeroSize,
        if_pos hmx]
    · have hsub : ∀ y ∈ xs, y ∈ blocks start (bsize + balign) n := fun y hy => hp.subset (by simp [hy])
      exact {
        hstart := h.hstart, hb := h.hb, ha := h.ha, hn := h.hn
        hmap := ((sameDom_filled hmx).mapped _ _).mpr h.hmap
        hfree := by
          refine ⟨xs, h4.frame ?_, ?_⟩
          · intro y hy z hz1 hz2
            have hne : x ≠ y := fun e => hnd.1 (by rw [e]; simp [hy])
            have h8 := G.h8
            rcases blocks_sep hx (hsub y hy) hne with hs | hs
            · exact filled_outside (by omega)
            · exact filled_outside (by omega)
          · exact (List.perm_middle).trans hp
        htotal := by
          show S.pool.totalSize + S.pool.bsize = bsize * ((x :: S.live).length : Int)
          rw [h.htotal, h.hb, List.length_cons]
          push_cast
          rw [Int.mul_add, Int.mul_one] }

/-- What freeing a block does. -/
theorem free_ok (G : Geometry start n bsize balign) {S : State} (h : Inv start n bsize balign S) {p : Nat} (hp : p ∈ S.live) :
    ∃ S', step S (.free p) = .ok (none, S') ∧ S'.live = S.live.erase p ∧ S'.pool.freeList = p ∧ Inv start n bsize balign S' ∧
      (∀ x, (x < p ∨ p + 8 ≤ x) → S'.mem x = S.mem x) := by
  obtain ⟨fr, hf, hperm⟩ := h.hfree
  have hx : p ∈ blocks start (bsize + balign) n := hperm.subset (by simp [hp])
  have hbd := blocks_bound hx
  have h8 := G.h8
  have hm8 : Mapped S.mem p 8 := h.hmap.mono (by omega) (by omega)
  have h0 : p ≠ 0 := by have := G.hstart; omega
  have hnd := inv_nodup G hperm
  have hfl : S.pool.freeList < 2 ^ 64 := by
    cases fr with
    | nil => rw [show S.pool.freeList = 0 from hf]; omega
    | cons y ys =>
      have hy := blocks_bound (hperm.subset (a := y) (by simp))
      have := G.hlt
      rw [show S.pool.freeList = y from hf.1]; omega
  refine ⟨⟨{ S.pool with freeList := p, totalSize := S.pool.totalSize - S.pool.bsize }, put S.mem p S.pool.freeList, S.live.erase p⟩,
    ?_, rfl, rfl, ?_, fun x hx => put_outside hx⟩
  · simp only [step, if_pos hp, free, if_neg h0, st64w_ok hm8, except_ok_bind]
  · exact {
      hstart := h.hstart, hb := h.hb, ha := h.ha, hn := h.hn
      hmap := ((sameDom_put hm8).mapped _ _).mpr h.hmap
      hfree := by
        refine ⟨p :: fr, ⟨rfl, h0, S.pool.freeList, holds_put S.mem hfl, hf.frame ?_⟩, ?_⟩
        · intro y hy z hz1 hz2
          have hne : p ≠ y := by
            rintro rfl
            exact (List.nodup_append.mp hnd).2.2 p hy p hp rfl
          rcases blocks_sep hx (hperm.subset (by simp [hy])) hne with hs | hs
          · exact put_outside (by omega)
          · exact put_outside (by omega)
        · refine List.Perm.trans ?_ hperm
          rw [List.cons_append]
          exact (List.perm_middle.symm).trans (List.Perm.append_left fr (List.perm_cons_erase hp).symm)
      htotal := by
        show S.pool.totalSize - S.pool.bsize = bsize * ((S.live.erase p).length : Int)
        have hl : 0 < S.live.length := List.length_pos_of_mem hp
        rw [h.htotal, h.hb, List.length_erase_of_mem hp, show S.live.length = (S.live.length - 1) + 1 by omega, Nat.add_sub_cancel]
        push_cast
        rw [Int.mul_add, Int.mul_one]
        omega }

theorem freeAll_ok (G : Geometry start n bsize balign) {S : State} (h : Inv start n bsize balign S) :
    ∃ S', step S .freeAll = .ok (none, S') ∧ S'.live = [] ∧ Inv start n bsize balign S' := by
  obtain ⟨m', h1, h2, h3, _⟩ := link_ok G.h8 n S.mem start G.hn G.hstart G.hlt h.hmap
  refine ⟨⟨{ S.pool with freeList := S.pool.start, totalSize := 0 }, m', []⟩, ?_, rfl, ?_⟩
  · simp only [step, freeAll, Pool.stride, h.hstart, h.hb, h.ha, h.hn, h1, except_ok_bind]
  · exact {
      hstart := h.hstart, hb := h.hb, ha := h.ha, hn := h.hn
      hmap := (h3.mapped _ _).mpr h.hmap
      hfree := ⟨_, by show FL m' S.pool.start _; rw [h.hstart]; exact h2, by simp⟩
      htotal := by simp }

theorem write_ok (G : Geometry start n bsize balign) {S : State} (h : Inv start n bsize balign S) {p off : Nat} {b : Byte}
    (hp : p ∈ S.live) (ho : off < bsize) :
    ∃ S', step S (.write p off b) = .ok (none, S') ∧ S'.live = S.live ∧ Inv start n bsize balign S' ∧
      (∀ x, x ≠ p + off → S'.mem x = S.mem x) := by
  obtain ⟨fr, hf, hperm⟩ := h.hfree
  have hx : p ∈ blocks start (bsize + balign) n := hperm.subset (by simp [hp])
  have hbd := blocks_bound hx
  have h8 := G.h8
  have hnd := inv_nodup G hperm
  have hm : (S.mem (p + off)).isSome := h.hmap.at (by omega) (by omega)
  have hsd : SameDom (fun x => if x = p + off then some b else S.mem x) S.mem := by
    intro x
    by_cases hxe : x = p + off
    · subst hxe; simp [hm]
    · simp [hxe]
  refine ⟨{ S with mem := fun x => if x = p + off then some b else S.mem x }, ?_, rfl, ?_, fun x hx => by simp [hx]⟩
  · have hc : p ∈ S.live ∧ off < S.pool.bsize := ⟨hp, by rw [h.hb]; exact ho⟩
    simp only [step, if_pos hc, st_ok hm, except_ok_bind]
  · exact {
      hstart := h.hstart, hb := h.hb, ha := h.ha, hn := h.hn
      hmap := (hsd.mapped _ _).mpr h.hmap
      hfree := by
        refine ⟨fr, hf.frame ?_, hperm⟩
        intro y hy z hz1 hz2
        have hne : p ≠ y := by
          rintro rfl
          exact (List.nodup_append.mp hnd).2.2 p hy p hp rfl
        rcases blocks_sep hx (hperm.subset (by simp [hy])) hne with hs | hs
        · exact if_neg (by omega)
        · exact if_neg (by omega)
      htotal := h.htotal }

theorem inv_step (G : Geometry start n bsize balign) {S S' : State} (h : Inv start n bsize balign S) {o : Op} {r : Option Nat}
    (hs : step S o = .ok (r, S')) : Inv start n bsize balign S' := by
  cases o with
  | alloc size align =>
    by_cases h1 : size = bsize
    · by_cases h2 : align = balign
      · subst h1 h2
        rcases alloc_cases G h with ⟨_, he⟩ | ⟨_, p, S'', he, _, _, _, _, hi, _⟩
        · rw [he] at hs; simp at hs
        · rw [he] at hs; injection hs with hs; injection hs with _ hs; subst hs; exact hi
      · simp only [step, alloc, h.hb, h.ha, h1] at hs
        simp [h2] at hs
    · simp only [step, alloc, h.hb] at hs
      simp [h1] at hs
  | free p =>
    by_cases hp : p ∈ S.live
    · obtain ⟨S'', he, _, _, hi, _⟩ := free_ok G h hp
      rw [he] at hs; injection hs with hs; injection hs with _ hs; subst hs; exact hi
    · simp [step, hp] at hs
  | freeAll =>
    obtain ⟨S'', he, _, hi⟩ := freeAll_ok G h
    rw [he] at hs; injection hs with hs; injection hs with _ hs; subst hs; exact hi
  | write p off b =>
    by_cases hc : p ∈ S.live ∧ off < bsize
    · obtain ⟨S'', he, _, hi, _⟩ := write_ok G h hc.1 hc.2 (b := b)
      rw [he] at hs; injection hs with hs; injection hs with _ hs; subst hs; exact hi
    · simp [step, h.hb, hc] at hs

theorem inv_run (G : Geometry start n bsize balign) : ∀ (ops : List Op) (S S' : State) (rs : List (Option Nat)), Inv start n bsize balign S →
    run S ops = .ok (rs, S') → Inv start n bsize balign S'
  | [], S, S', rs, h, hr => by injection hr with hr; injection hr with _ hr; subst hr; exact h
  | o :: os, S, S', rs, h, hr => by
    obtain ⟨⟨r, T⟩, h1, h2⟩ := Arena.bind_ok hr
    obtain ⟨⟨r', T'⟩, h3, h4⟩ := Arena.bind_ok h2
    injection h4 with h4; injection h4 with _ h4; subst h4
    exact inv_run G os T _ r' (inv_step G h h1) h3

theorem inv_reachable (G : Geometry start n bsize balign) {m : Memory} (hm : Mapped m start (n * (bsize + balign))) {S : State}
    (h : Reachable m start n bsize balign S) : Inv start n bsize balign S := by
  obtain ⟨P, m', ops, rs, h1, h2⟩ := h
  obtain ⟨P0, m0, g1, g2⟩ := inv_init G hm
  rw [h1] at g1
  injection g1 with g1; injection g1 with e1 e2; subst e1 e2
  exact inv_run G ops _ _ rs g2 h2

end

/-! ## Properties -/

/-- **C18.**  Initialisation of a pool over a mapped region succeeds. -/
theorem C18_init (m : Memory) (start n bsize balign : Nat) (G : Geometry start n bsize balign) (hm : Mapped m start (n * (bsize + balign))) :
    ∃ P m', init m start n bsize balign = .ok (P, m') := by
  obtain ⟨P, m', h, _⟩ := inv_init G hm
  exact ⟨P, m', h⟩

/-- **C18.**  In every state a client can reach, the blocks it holds are distinct blocks of the pool, inside the pool's memory and
pairwise disjoint; there are at most `n` of them and the pool's size counter is their total size. -/
theorem C18_live_blocks (m : Memory) (start n bsize balign : Nat) (G : Geometry start n bsize balign)
    (hm : Mapped m start (n * (bsize + balign))) (S : State) (h : Reachable m start n bsize balign S) :
    (∀ p ∈ S.live, ∃ i, i < n ∧ p = start + i * (bsize + balign)) ∧
    (∀ p ∈ S.live, start ≤ p ∧ p + bsize ≤ start + n * (bsize + balign)) ∧
    S.live.Nodup ∧ S.live.Pairwise (fun p q => p + bsize ≤ q ∨ q + bsize ≤ p) ∧ S.live.length ≤ n ∧
    S.pool.totalSize = bsize * S.live.length := by
  have hi := inv_reachable G hm h
  obtain ⟨fr, hf, hp⟩ := hi.hfree
  have hmem : ∀ p ∈ S.live, p ∈ blocks start (bsize + balign) n := fun p hpl => hp.subset (by simp [hpl])
  have hnd : S.live.Nodup := (List.nodup_append.mp (inv_nodup G hp)).2.1
  have hlen := hp.length_eq
  rw [List.length_append, blocks_length] at hlen
  refine ⟨fun p hpl => (mem_blocks _ _ _).mp (hmem p hpl), ?_, hnd, ?_, by omega, hi.htotal⟩
  · intro p hpl
    have := blocks_bound (hmem p hpl)
    omega
  · refine List.Pairwise.imp_of_mem ?_ hnd
    intro p q hpl hql hne
    have := blocks_sep (hmem p hpl) (hmem q hql) hne
    omega

/-- **C18.**  In every reachable state an allocation fails exactly when all `n` blocks are held; otherwise it returns a block that
is not held, cleared to zero, and changes no other byte. -/
theorem C18_alloc (m : Memory) (start n bsize balign : Nat) (G : Geometry start n bsize balign)
    (hm : Mapped m start (n * (bsize + balign))) (S : State) (h : Reachable m start n bsize balign S) :
    (S.live.length = n → step S (.alloc bsize balign) = .error .assertion) ∧
    (S.live.length < n → ∃ p S', step S (.alloc bsize balign) = .ok (some p, S') ∧ p ∉ S.live ∧ S'.live = p :: S.live ∧
      (∃ i, i < n ∧ p = start + i * (bsize + balign)) ∧
      ∀ x, S'.mem x = if p ≤ x ∧ x < p + bsize then some 0 else S.mem x) := by
  rcases alloc_cases G (inv_reachable G hm h) with ⟨h1, h2⟩ | ⟨h1, p, S', h2, _, h3, h4, h5, _, h6⟩
  · exact ⟨fun _ => h2, fun hl => by omega⟩
  · exact ⟨fun hl => by omega, fun _ => ⟨p, S', h2, h3, h5, (mem_blocks _ _ _).mp h4, h6⟩⟩

/-- **C18.**  Freeing a block that is held succeeds, and makes it available: the next allocation returns it. -/
theorem C18_free_makes_available (m : Memory) (start n bsize balign : Nat) (G : Geometry start n bsize balign)
    (hm : Mapped m start (n * (bsize + balign))) (S : State) (h : Reachable m start n bsize balign S) (p : Nat) (hp : p ∈ S.live) :
    ∃ S', step S (.free p) = .ok (none, S') ∧ S'.live = S.live.erase p ∧ ∃ S'', step S' (.alloc bsize balign) = .ok (some p, S'') := by
  obtain ⟨S', h1, h2, h3, h4, _⟩ := free_ok G (inv_reachable G hm h) hp
  refine ⟨S', h1, h2, ?_⟩
  have hl := (C18_live_blocks m start n bsize balign G hm S h).2.2.2.2.1
  have hpos : 0 < S.live.length := List.length_pos_of_mem hp
  rcases alloc_cases G h4 with ⟨g1, _⟩ | ⟨_, q, S'', g2, g3, _⟩
  · rw [h2, List.length_erase_of_mem hp] at g1; omega
  · rw [h3] at g3; subst g3; exact ⟨S'', g2⟩

/-- **C18.**  `free_all` always succeeds; afterwards all `n` blocks can be allocated again. -/
theorem C18_free_all (m : Memory) (start n bsize balign : Nat) (G : Geometry start n bsize balign)
    (hm : Mapped m start (n * (bsize + balign))) (S : State) (h : Reachable m start n bsize balign S) :
    ∃ S', step S .freeAll = .ok (none, S') ∧ S'.live = [] ∧
      ∃ rs S'', run S' (List.replicate n (.alloc bsize balign)) = .ok (rs, S'') ∧ S''.live.length = n := by
  obtain ⟨S', h1, h2, h3⟩ := freeAll_ok G (inv_reachable G hm h)
  refine ⟨S', h1, h2, ?_⟩
  have key : ∀ (k : Nat) (T : State), Inv start n bsize balign T → T.live.length + k ≤ n →
      ∃ rs T', run T (List.replicate k (.alloc bsize balign)) = .ok (rs, T') ∧ T'.live.length = T.live.length + k := by
    intro k
    induction k with
    | zero => intro T _ _; exact ⟨[], T, rfl, rfl⟩
    | succ k ih =>
      intro T hT hk
      rcases alloc_cases G hT with ⟨g1, _⟩ | ⟨_, q, T', g2, _, _, _, g5, g6, _⟩
      · omega
      · have hl : T'.live.length = T.live.length + 1 := by rw [g5]; rfl
        obtain ⟨rs, T'', e1, e2⟩ := ih T' g6 (by omega)
        exact ⟨some q :: rs, T'', by simp only [List.replicate_succ, run, g2, except_ok_bind, e1], by omega⟩
  obtain ⟨rs, T, e1, e2⟩ := key n S' h3 (by rw [h2]; simp)
  exact ⟨rs, T, e1, by rw [e2, h2]; simp⟩

/-- **C18.**  No request changes the contents of a block that is held before and after it, except a write of the client to it. -/
theorem C18_contents (m : Memory) (start n bsize balign : Nat) (G : Geometry start n bsize balign)
    (hm : Mapped m start (n * (bsize + balign))) (S S' : State) (h : Reachable m start n bsize balign S) (o : Op) (r : Option Nat)
    (hs : step S o = .ok (r, S')) (q : Nat) (hq : q ∈ S.live) (hq' : q ∈ S'.live) (ho : ∀ off b, o ≠ .write q off b) (i : Nat) (hi : i < bsize) :
    S'.mem (q + i) = S.mem (q + i) := by
  have hI := inv_reachable G hm h
  obtain ⟨fr, hf, hp⟩ := hI.hfree
  have hmem : ∀ p ∈ S.live, p ∈ blocks start (bsize + balign) n := fun p hpl => hp.subset (by simp [hpl])
  have hnd : S.live.Nodup := (List.nodup_append.mp (inv_nodup G hp)).2.1
  have h8 := G.h8
  cases o with
  | alloc size align =>
    by_cases h1 : size = bsize
    · by_cases h2 : align = balign
      · subst h1 h2
        rcases alloc_cases G hI with ⟨_, he⟩ | ⟨_, p, S'', he, _, g1, g2, _, _, g3⟩
        · rw [he] at hs; simp at hs
        · rw [he] at hs; injection hs with hs; injection hs with _ hs; subst hs
          rw [g3]
          have hne : p ≠ q := by rintro rfl; exact g1 hq
          rcases blocks_sep g2 (hmem q hq) hne with hs | hs
          · exact if_neg (by omega)
          · exact if_neg (by omega)
      · simp only [step, alloc, hI.hb, hI.ha, h1] at hs
        simp [h2] at hs
    · simp only [step, alloc, hI.hb] at hs
      simp [h1] at hs
  | free p =>
    by_cases hpl : p ∈ S.live
    · obtain ⟨S'', he, g1, _, _, g3⟩ := free_ok G hI hpl
      rw [he] at hs; injection hs with hs; injection hs with _ hs; subst hs
      have hne : p ≠ q := by
        rintro rfl
        rw [g1] at hq'
        exact absurd rfl (hnd.mem_erase_iff.mp hq').1
      rcases blocks_sep (hmem p hpl) (hmem q hq) hne with hs | hs
      · exact g3 _ (by omega)
      · exact g3 _ (by omega)
    · simp [step, hpl] at hs
  | freeAll =>
    obtain ⟨S'', he, g1, _⟩ := freeAll_ok G hI
    rw [he] at hs; injection hs with hs; injection hs with _ hs; subst hs
    rw [g1] at hq'; simp at hq'
  | write p off b =>
    by_cases hc : p ∈ S.live ∧ off < bsize
    · obtain ⟨S'', he, _, _, g3⟩ := write_ok G hI hc.1 hc.2 (b := b)
      rw [he] at hs; injection hs with hs; injection hs with _ hs; subst hs
      have hne : p ≠ q := by rintro rfl; exact ho off b rfl
      rcases blocks_sep (hmem p hc.1) (hmem q hq) hne with hs | hs
      · exact g3 _ (by omega)
      · exact g3 _ (by omega)
    · simp [step, hI.hb, hc] at hs

/-- Blocks are aligned to the pool's alignment if the memory is and the block size is a multiple of it. -/
theorem C18_aligned (m : Memory) (start n bsize balign : Nat) (G : Geometry start n bsize balign)
    (hm : Mapped m start (n * (bsize + balign))) (S : State) (h : Reachable m start n bsize balign S) (hs : balign ∣ start)
    (hb : balign ∣ bsize) : ∀ p ∈ S.live, balign ∣ p := by
  intro p hp
  obtain ⟨i, _, rfl⟩ := (C18_live_blocks m start n bsize balign G hm S h).1 p hp
  exact Nat.dvd_add hs (Nat.dvd_mul_left_of_dvd (Nat.dvd_add hb (Nat.dvd_refl _)) i)

/-! ### Non-vacuity and limits -/

def exMem : Memory := fun a => if 64 ≤ a ∧ a < 160 then some 7 else none

example : Geometry 64 3 16 16 ∧ Mapped exMem 64 (3 * (16 + 16)) := by
  refine ⟨⟨by omega, by omega, by omega, by omega⟩, by decide +kernel⟩

/-- A history: fill the pool, free the middle block, write, allocate again. -/
example : (do
    let (P, m) ← init exMem 64 3 16 16
    let (rs, S) ← run ⟨P, m, []⟩ [.alloc 16 16, .alloc 16 16, .write 96 3 9, .alloc 16 16, .free 96, .write 64 0 5, .alloc 16 16]
    .ok (rs, S.live, S.mem 64, S.mem 99, S.pool.totalSize)) =
    .ok ([some 64, some 96, none, some 128, none, none, some 96], [96, 128, 64], some 5, some 0, 48) := by decide +kernel

/-- A pool of no blocks writes into memory it does not have. -/
theorem C18_no_blocks (m : Memory) (start bsize balign : Nat) (h : m start = none) : init m start 0 bsize balign = .error .oob := by
  simp [init, linkAll, linkLoop, st64w, wordLE, List.range, List.range.loop, stN, st, h]

/-- If the block size is not a multiple of the alignment, blocks are handed out misaligned: 20-byte blocks aligned to 16. -/
theorem C18_misaligned_block : (do
    let (P, m) ← init (fun _ => some 0) 64 2 20 16
    let (rs, _) ← run ⟨P, m, []⟩ [.alloc 20 16, .alloc 20 16]
    .ok rs) = (.ok [some 64, some 100] : Except Fault _) ∧ ¬ 16 ∣ 100 := by
  refine ⟨by decide +kernel, by omega⟩

end Zpl.Pool
