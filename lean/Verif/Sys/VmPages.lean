import Verif.Basic

/-!
# Virtual memory in pages (code/source/core/memory_virtual.c:11-112)  -  C168

Both branches, for Windows and for the other systems.  `Sys.Vm` (C64) has the trimming of the second branch without pages.

The systems underneath are modelled from their documentation and are trusted: `mmap`, `munmap` and `madvise` on whole pages; `VirtualAlloc`,
`VirtualQuery` and `VirtualFree` on reservations that begin at multiples of the granularity and that are committed as a whole (nothing else in
the program reserves or changes parts of them).  Addresses and sizes are natural numbers: no address goes beyond the end of the address space.
Where the system may choose or refuse, its answer is an argument.

## Model -/

namespace Zpl.VmPages

/-- The size of a page, and the granularity of reservations on Windows. -/
structure Cfg where
  page : Nat
  gran : Nat

/-- memory_virtual.h:12-15 `zpl_virtual_memory`. -/
structure Vm where
  data : Nat
  size : Nat
  deriving DecidableEq, Repr

/-- The greatest multiple of `g` that is not above `x`. -/
def down (g x : Nat) : Nat := x / g * g

/-- The least multiple of `g` that is not below `x`. -/
def up (g x : Nat) : Nat := (x + g - 1) / g * g

/-! ### POSIX systems -/

/-- The bytes of the mapped addresses. -/
abbrev Space := Nat → Option (BitVec 8)

/-- `mmap` of fresh memory: the system picks an address (`some`) or refuses (`none`); a refusal is the pointer -1. -/
def mmap (c : Cfg) (m : Space) (size : Nat) : Option Nat → Nat × Space
  | none => (2 ^ 64 - 1, m)
  | some a => (a, fun x => if a ≤ x ∧ x < a + up c.page size then some 0 else m x)

/-- `munmap`: refused when the address is no multiple of the page size or the length is 0; otherwise all pages of the range go. -/
def munmap (c : Cfg) (m : Space) (a n : Nat) : Space :=
  if a % c.page ≠ 0 ∨ n = 0 then m else fun x => if a ≤ x ∧ x < a + up c.page n then none else m x

/-- `madvise(…, MADV_DONTNEED)`: the result (0 for success) and the space.  `whole` says whether all pages of the range are mapped. -/
def madvise (c : Cfg) (m : Space) (a n : Nat) (whole : Bool) : Int × Space :=
  if a % c.page ≠ 0 then (-1, m)
  else (if whole then 0 else -1, fun x => if a ≤ x ∧ x < a + up c.page n then (m x).map (fun _ => 0) else m x)

/-- memory_virtual.c:76-82 `zpl_vm_alloc`. -/
def alloc (c : Cfg) (m : Space) (size : Nat) (pick : Option Nat) : Except Fault (Vm × Space) :=
  if size > 0 then
    let r := mmap c m size pick
    .ok (⟨r.1, size⟩, r.2)
  else .error .assertion

/-- memory_virtual.c:84-87 `zpl_vm_free`. -/
def free (c : Cfg) (m : Space) (vm : Vm) : Bool × Space := (true, munmap c m vm.data vm.size)

/-- memory_virtual.c:89-100 `zpl_vm_trim`. -/
def trim (c : Cfg) (m : Space) (vm : Vm) (lead size : Nat) : Except Fault (Vm × Space) :=
  if vm.size ≥ lead + size then
    let ptr := vm.data + lead
    let trail := vm.size - lead - size
    let m := if lead ≠ 0 then (free c m ⟨vm.data, lead⟩).2 else m
    let m := if trail ≠ 0 then (free c m ⟨ptr, trail⟩).2 else m
    .ok (⟨ptr, size⟩, m)
  else .error .assertion

/-- memory_virtual.c:102-105 `zpl_vm_purge`. -/
def purge (c : Cfg) (m : Space) (vm : Vm) (whole : Bool) : Bool × Space :=
  let r := madvise c m vm.data vm.size whole
  (decide (r.1 ≠ 0), r.2)

/-! ### Windows -/

/-- The reservations (start and length) and the bytes. -/
structure Win where
  allocs : List (Nat × Nat)
  mem : Nat → BitVec 8

/-- Is some byte from `lo` to `hi` reserved? -/
def overlaps (s : Win) (lo hi : Nat) : Bool := s.allocs.any (fun a => decide (a.1 < hi) && decide (lo < a.1 + a.2))

/-- `VirtualAlloc(addr, size, MEM_COMMIT | MEM_RESERVE, …)`: the start is rounded down to the granularity and the end up to a page; for `addr` 0
the system picks the start.  `none`: the system refuses. -/
def virtualAlloc (c : Cfg) (s : Win) (addr size : Nat) : Option Nat → Nat × Win
  | none => (0, s)
  | some b =>
    let base := if addr = 0 then b else down c.gran addr
    let hi := up c.page ((if addr = 0 then b else addr) + size)
    if overlaps s base hi then (0, s)
    else (base, ⟨(base, hi - base) :: s.allocs, fun x => if base ≤ x ∧ x < hi then 0 else s.mem x⟩)

/-- `VirtualQuery`: the fields `AllocationBase`, `BaseAddress`, `RegionSize` if the page is committed (`State = MEM_COMMIT`). -/
def virtualQuery (c : Cfg) (s : Win) (p : Nat) : Option (Nat × Nat × Nat) :=
  match s.allocs.find? (fun a => decide (a.1 ≤ p) && decide (p < a.1 + a.2)) with
  | some a => some (a.1, down c.page p, a.1 + a.2 - down c.page p)
  | none => none

/-- `VirtualFree(p, 0, MEM_RELEASE)`: only whole reservations. -/
def virtualFree (s : Win) (p : Nat) : Option Win :=
  match s.allocs.find? (fun a => decide (a.1 = p)) with
  | some a => some { s with allocs := s.allocs.erase a }
  | none => none

/-- memory_virtual.c:19-25 `zpl_vm_alloc`. -/
def winAlloc (c : Cfg) (s : Win) (addr size : Nat) (pick : Option Nat) : Except Fault (Vm × Win) :=
  if size > 0 then
    let r := virtualAlloc c s addr size pick
    .ok (⟨r.1, size⟩, r.2)
  else .error .assertion

/-- memory_virtual.c:27-40 `zpl_vm_free`: the loop. -/
def winFreeLoop (c : Cfg) : Nat → Win → Nat → Nat → Except Fault (Bool × Win)
  | 0, _, _, _ => .error .diverge
  | fuel + 1, s, data, size =>
    if size > 0 then
      match virtualQuery c s data with
      | none => .ok (false, s)
      | some (allocBase, base, region) =>
        if base ≠ data ∨ allocBase ≠ data ∨ region > size then .ok (false, s)
        else match virtualFree s data with
          | none => .ok (false, s)
          | some s' => winFreeLoop c fuel s' (data + region) (size - region)
    else .ok (true, s)

/-- memory_virtual.c:27-40 `zpl_vm_free`. -/
def winFree (c : Cfg) (s : Win) (vm : Vm) : Except Fault (Bool × Win) := winFreeLoop c (vm.size + 1) s vm.data vm.size

/-- memory_virtual.c:42-54 `zpl_vm_trim`. -/
def winTrim (c : Cfg) (s : Win) (vm : Vm) (lead size : Nat) (pick : Option Nat) : Except Fault (Vm × Win) :=
  if vm.size ≥ lead + size then do
    let ptr := vm.data + lead
    let f ← winFree c s vm
    let n ← winAlloc c f.2 ptr size pick
    if n.1.data = ptr then .ok n
    else if n.1.data ≠ 0 then do
      let g ← winFree c n.2 n.1
      .ok (n.1, g.2)
    else .ok n
  else .error .assertion

/-- memory_virtual.c:56-60 `zpl_vm_purge`: after `MEM_RESET` the bytes are what the system makes of them (`junk`). -/
def winPurge (s : Win) (vm : Vm) (junk : Nat → BitVec 8) : Bool × Win :=
  (true, { s with mem := fun x => if vm.data ≤ x ∧ x < vm.data + vm.size then junk x else s.mem x })

/-! ## Specification -/

/-- The sizes of pages and reservations of a machine. -/
structure Machine (c : Cfg) : Prop where
  page : 0 < c.page
  gran : 0 < c.gran
  whole : c.gran % c.page = 0

/-- Every byte of the block can be used. -/
def Usable (m : Space) (vm : Vm) : Prop := ∀ x, vm.data ≤ x → x < vm.data + vm.size → m x ≠ none

/-- The block was kept with its contents. -/
def Kept (m m' : Space) (vm : Vm) : Prop := ∀ x, vm.data ≤ x → x < vm.data + vm.size → m' x = m x

/-- No byte of the pages of such a block is in use. -/
def Unused (c : Cfg) (m : Space) (a size : Nat) : Prop := ∀ x, a ≤ x → x < a + up c.page size → m x = none

/-- The reservations of a Windows process. -/
structure Valid (c : Cfg) (s : Win) : Prop where
  start : ∀ a ∈ s.allocs, 0 < a.1 ∧ a.1 % c.gran = 0 ∧ 0 < a.2
  apart : s.allocs.Pairwise (fun a b => a.1 + a.2 ≤ b.1 ∨ b.1 + b.2 ≤ a.1)

/-- A block of `zpl_vm_alloc` that was not released: the reservation of its pages. -/
def Held (c : Cfg) (s : Win) (vm : Vm) : Prop := 0 < vm.size ∧ (vm.data, up c.page vm.size) ∈ s.allocs

/-! ## Lemmas -/

theorem up_ge {g : Nat} (hg : 0 < g) (x : Nat) : x ≤ up g x := by
  unfold up
  have := Nat.div_add_mod (x + g - 1) g
  have := Nat.mod_lt (x + g - 1) hg
  rw [Nat.mul_comm]; omega

theorem up_lt {g : Nat} (hg : 0 < g) (x : Nat) : up g x < x + g := by
  unfold up
  have := Nat.div_mul_le_self (x + g - 1) g
  omega

theorem up_mod (g x : Nat) : up g x % g = 0 := by unfold up; exact Nat.mul_mod_left _ _

theorem down_mod (g x : Nat) : down g x % g = 0 := by unfold down; exact Nat.mul_mod_left _ _

theorem down_le (g x : Nat) : down g x ≤ x := Nat.div_mul_le_self _ _

theorem lt_down {g : Nat} (hg : 0 < g) (x : Nat) : x < down g x + g := by
  unfold down
  have := Nat.div_add_mod x g
  have := Nat.mod_lt x hg
  rw [Nat.mul_comm]; omega

/-- Two multiples that are less than `g` apart are equal. -/
theorem mult_eq {g a b : Nat} (ha : a % g = 0) (hb : b % g = 0) (h1 : a < b + g) (h2 : b < a + g) : a = b := by
  obtain ⟨i, rfl⟩ := Nat.dvd_of_mod_eq_zero ha
  obtain ⟨j, rfl⟩ := Nat.dvd_of_mod_eq_zero hb
  have e1 : i < j + 1 := Nat.lt_of_mul_lt_mul_left (a := g) (by rw [Nat.mul_add, Nat.mul_one]; exact h1)
  have e2 : j < i + 1 := Nat.lt_of_mul_lt_mul_left (a := g) (by rw [Nat.mul_add, Nat.mul_one]; exact h2)
  rw [show i = j by omega]

theorem up_eq {g : Nat} (hg : 0 < g) {x : Nat} (h : x % g = 0) : up g x = x :=
  mult_eq (up_mod g x) h (up_lt hg x) (by have := up_ge hg x; omega)

theorem down_eq {g : Nat} (hg : 0 < g) {x : Nat} (h : x % g = 0) : down g x = x :=
  mult_eq (down_mod g x) h (by have := down_le g x; omega) (lt_down hg x)

theorem up_add {g : Nat} (hg : 0 < g) {a : Nat} (ha : a % g = 0) (x : Nat) : up g (a + x) = a + up g x :=
  mult_eq (up_mod g _) (by rw [Nat.add_mod, ha, up_mod]; simp) (by have := up_lt hg (a + x); have := up_ge hg x; omega)
    (by have := up_ge hg (a + x); have := up_lt hg x; omega)

theorem up_mono_mult {g : Nat} (hg : 0 < g) {x y : Nat} (hy : y % g = 0) (h : x ≤ y) : up g x ≤ y := by
  have h1 := up_lt hg x
  rcases Nat.lt_or_ge y (up g x) with h2 | h2
  · have := mult_eq (up_mod g x) hy (by omega) (by omega)
    omega
  · exact h2

theorem page_of_gran {c : Cfg} (hc : Machine c) {x : Nat} (h : x % c.gran = 0) : x % c.page = 0 := by
  obtain ⟨i, rfl⟩ := Nat.dvd_of_mod_eq_zero h
  obtain ⟨j, hj⟩ := Nat.dvd_of_mod_eq_zero hc.whole
  rw [hj, Nat.mul_assoc]
  exact Nat.mul_mod_right _ _

/-- In a valid state only the reservation itself holds an address of it. -/
theorem find_addr {l : List (Nat × Nat)} (hp : l.Pairwise (fun a b => a.1 + a.2 ≤ b.1 ∨ b.1 + b.2 ≤ a.1)) {a : Nat × Nat} (ha : a ∈ l) {p : Nat}
    (h1 : a.1 ≤ p) (h2 : p < a.1 + a.2) : l.find? (fun a => decide (a.1 ≤ p) && decide (p < a.1 + a.2)) = some a := by
  induction l with
  | nil => simp at ha
  | cons b l ih =>
    rw [List.pairwise_cons] at hp
    rw [List.find?_cons]
    rcases List.mem_cons.1 ha with rfl | hm
    · simp [h1, h2]
    · have := hp.1 a hm
      have hn : (decide (b.1 ≤ p) && decide (p < b.1 + b.2)) = false := by
        rw [Bool.and_eq_false_iff, decide_eq_false_iff_not, decide_eq_false_iff_not]
        omega
      rw [hn]
      exact ih hp.2 hm

theorem find_start {l : List (Nat × Nat)} (hs : ∀ a ∈ l, 0 < a.2) (hp : l.Pairwise (fun a b => a.1 + a.2 ≤ b.1 ∨ b.1 + b.2 ≤ a.1))
    {a : Nat × Nat} (ha : a ∈ l) : l.find? (fun b => decide (b.1 = a.1)) = some a := by
  induction l with
  | nil => simp at ha
  | cons b l ih =>
    rw [List.pairwise_cons] at hp
    rw [List.find?_cons]
    rcases List.mem_cons.1 ha with rfl | hm
    · simp
    · have := hp.1 a hm
      have h1 := hs a ha
      have h2 := hs b (by simp)
      have hn : decide (b.1 = a.1) = false := by rw [decide_eq_false_iff_not]; omega
      rw [hn]
      exact ih (fun a ha => hs a (by simp [ha])) hp.2 hm

theorem query_held {c : Cfg} (hc : Machine c) {s : Win} (hv : Valid c s) {a : Nat × Nat} (ha : a ∈ s.allocs) :
    virtualQuery c s a.1 = some (a.1, a.1, a.2) := by
  obtain ⟨h1, h2, h3⟩ := hv.start a ha
  unfold virtualQuery
  rw [find_addr hv.apart ha (Nat.le_refl _) (by omega)]
  dsimp only
  rw [down_eq hc.page (page_of_gran hc h2), Nat.add_sub_cancel_left]

theorem free_held {c : Cfg} {s : Win} (hv : Valid c s) {a : Nat × Nat} (ha : a ∈ s.allocs) :
    virtualFree s a.1 = some { s with allocs := s.allocs.erase a } := by
  unfold virtualFree
  rw [find_start (fun a ha => (hv.start a ha).2.2) hv.apart ha]

theorem winFree_whole {c : Cfg} (hc : Machine c) {s : Win} (hv : Valid c s) {vm : Vm} (h : (vm.data, vm.size) ∈ s.allocs) :
    winFree c s vm = .ok (true, { s with allocs := s.allocs.erase (vm.data, vm.size) }) := by
  have h3 := (hv.start _ h).2.2
  dsimp only at h3
  unfold winFree
  rw [winFreeLoop, if_pos h3, query_held hc hv h]
  dsimp only
  rw [if_neg (by omega), free_held hv h]
  dsimp only
  rw [Nat.sub_self]
  obtain ⟨k, hk⟩ : ∃ k, vm.size = k + 1 := ⟨vm.size - 1, by omega⟩
  rw [hk, winFreeLoop, if_neg (by omega)]

theorem winFree_short {c : Cfg} (hc : Machine c) {s : Win} (hv : Valid c s) {d n len : Nat} (h : (d, len) ∈ s.allocs) (hn : 0 < n) (hl : n < len) :
    winFree c s ⟨d, n⟩ = .ok (false, s) := by
  unfold winFree
  dsimp only
  rw [winFreeLoop, if_pos hn, query_held hc hv h]
  dsimp only
  rw [if_pos (by omega)]

theorem winAlloc_at {c : Cfg} {s : Win} {addr size b : Nat} (h : addr ≠ 0) (hs : 0 < size) : winAlloc c s addr size (some b) =
    if overlaps s (down c.gran addr) (up c.page (addr + size)) then .ok (⟨0, size⟩, s)
    else .ok (⟨down c.gran addr, size⟩, ⟨(down c.gran addr, up c.page (addr + size) - down c.gran addr) :: s.allocs,
      fun x => if down c.gran addr ≤ x ∧ x < up c.page (addr + size) then 0 else s.mem x⟩) := by
  unfold winAlloc virtualAlloc
  simp only [if_pos hs, if_neg h]
  split <;> rfl

theorem winAlloc_none {c : Cfg} {s : Win} {addr size : Nat} (hs : 0 < size) : winAlloc c s addr size none = .ok (⟨0, size⟩, s) := by
  unfold winAlloc
  rw [if_pos hs]
  rfl

/-! ## Properties -/

/-- **C168.**  A block of `zpl_vm_alloc` on POSIX systems: all of it can be used, it holds zeros, nothing that was in use changes, and
`zpl_vm_free` makes everything as it was. -/
theorem C168_alloc_free {c : Cfg} (hc : Machine c) (m : Space) {size a : Nat} (hs : 0 < size) (ha : a % c.page = 0) (hu : Unused c m a size) :
    ∃ m', alloc c m size (some a) = .ok (⟨a, size⟩, m') ∧ (∀ x, a ≤ x → x < a + size → m' x = some 0) ∧
      (∀ x, m x ≠ none → m' x = m x) ∧ free c m' ⟨a, size⟩ = (true, m) := by
  refine ⟨fun x => if a ≤ x ∧ x < a + up c.page size then some 0 else m x, ?_, ?_, ?_, ?_⟩
  · rw [alloc, if_pos hs]; rfl
  · intro x h1 h2
    have := up_ge hc.page size
    dsimp only
    rw [if_pos (by omega)]
  · intro x hx
    dsimp only
    rw [if_neg]
    intro h
    exact hx (hu x h.1 h.2)
  · unfold free munmap
    dsimp only
    rw [if_neg (by omega)]
    congr 1
    funext x
    split
    · rename_i h
      exact (hu x h.1 h.2).symm
    · rfl

/-- **C168, deviation.**  A refused request of `zpl_vm_alloc` on POSIX systems is a block with a pointer that is not NULL, and `zpl_vm_free` of
it reports success. -/
theorem C168_refused (c : Cfg) (m : Space) {size : Nat} (hs : 0 < size) :
    ∃ vm, alloc c m size none = .ok (vm, m) ∧ vm.data ≠ 0 ∧ vm.size = size ∧ (free c m vm).1 = true :=
  ⟨⟨2 ^ 64 - 1, size⟩, by rw [alloc, if_pos hs]; rfl, by simp, rfl, rfl⟩

/-- **C168.**  What `zpl_vm_trim` keeps on POSIX systems: the kept part keeps its contents if and only if the cut at the front is a number of
whole pages and nothing is cut at the end. -/
theorem C168_trim_iff {c : Cfg} (hc : Machine c) {m : Space} {vm : Vm} (hd : vm.data % c.page = 0) (hu : Usable m vm) {lead size : Nat} (hs : 0 < size)
    (h : lead + size ≤ vm.size) :
    ∃ m', trim c m vm lead size = .ok (⟨vm.data + lead, size⟩, m') ∧
      (Kept m m' ⟨vm.data + lead, size⟩ ↔ lead % c.page = 0 ∧ lead + size = vm.size) := by
  refine ⟨_, by rw [trim, if_pos h], ?_⟩
  have here : m (vm.data + lead) ≠ none := hu _ (by omega) (by omega)
  constructor
  · intro hk
    have hk := hk (vm.data + lead) (Nat.le_refl _) (by dsimp only; omega)
    by_cases hl : lead % c.page = 0
    · refine ⟨hl, ?_⟩
      by_cases ht : vm.size - lead - size = 0
      · omega
      · exfalso
        have ha : (vm.data + lead) % c.page = 0 := by rw [Nat.add_mod, hd, hl]; simp
        rw [if_pos ht] at hk
        simp only [free, munmap] at hk
        rw [if_neg (by omega)] at hk
        have := up_ge hc.page (vm.size - lead - size)
        rw [if_pos (by omega)] at hk
        exact here hk.symm
    · exfalso
      have h0 : lead ≠ 0 := by rintro rfl; simp at hl
      have hm : (munmap c m vm.data lead) (vm.data + lead) = none := by
        unfold munmap
        rw [if_neg (by omega)]
        have := up_ge hc.page lead
        have : up c.page lead ≠ lead := fun h => hl (by rw [← h]; exact up_mod _ _)
        rw [if_pos (by omega)]
      rw [if_pos h0] at hk
      simp only [free] at hk
      apply here
      rw [← hk]
      split
      · rw [show ∀ m' : Space, ∀ a n x, munmap c m' a n x = if (a % c.page ≠ 0 ∨ n = 0) then m' x else if a ≤ x ∧ x < a + up c.page n then none else m' x by
          intro m' a n x
          unfold munmap
          split <;> rfl]
        split
        · exact hm
        · split
          · rfl
          · exact hm
      · exact hm
  · rintro ⟨hl, ht⟩ x h1 h2
    dsimp only at h1 h2 ⊢
    rw [if_neg (show ¬ (vm.size - lead - size ≠ 0) by omega)]
    split
    · simp only [free, munmap]
      split
      · rfl
      · dsimp only
        rw [if_neg]
        rw [up_eq hc.page hl]
        omega
    · rfl

/-- **C168.**  Purging on POSIX systems: the contents are gone and the block stays usable; deviation: it then reports *failure*, and success
when it failed. -/
theorem C168_purge {c : Cfg} (hc : Machine c) {m : Space} {vm : Vm} (hd : vm.data % c.page = 0) (hu : Usable m vm) :
    (∃ m', purge c m vm true = (false, m') ∧ ∀ x, vm.data ≤ x → x < vm.data + vm.size → m' x = some 0) ∧
    ∀ vm' : Vm, (vm'.data % c.page ≠ 0 → ∀ w, purge c m vm' w = (true, m)) ∧ (purge c m vm' false).1 = true := by
  refine ⟨⟨_, by unfold purge madvise; rw [if_neg (by omega)]; rfl, ?_⟩, fun vm' => ⟨fun h w => ?_, ?_⟩⟩
  · intro x h1 h2
    have := up_ge hc.page vm.size
    dsimp only
    rw [if_pos (by omega)]
    have := hu x h1 h2
    cases h : m x with
    | none => exact absurd h this
    | some b => rfl
  · unfold purge madvise
    rw [if_pos h]
    rfl
  · unfold purge madvise
    split <;> rfl

/-- **C168.**  A block of `zpl_vm_alloc` on Windows, wherever the system puts it: it is held, holds zeros, and no byte in use changes. -/
theorem C168_win_alloc {c : Cfg} (hc : Machine c) {s : Win} (hv : Valid c s) {size b : Nat} (hs : 0 < size) (hb : 0 < b) (hg : b % c.gran = 0)
    (hf : ∀ a ∈ s.allocs, a.1 + a.2 ≤ b ∨ b + up c.page size ≤ a.1) :
    ∃ s', winAlloc c s 0 size (some b) = .ok (⟨b, size⟩, s') ∧ Valid c s' ∧ Held c s' ⟨b, size⟩ ∧
      (∀ x, b ≤ x → x < b + size → s'.mem x = 0) ∧ (∀ vm, Held c s vm → Held c s' vm) ∧
      ∀ a ∈ s.allocs, ∀ x, a.1 ≤ x → x < a.1 + a.2 → s'.mem x = s.mem x := by
  have e : up c.page (b + size) = b + up c.page size := up_add hc.page (page_of_gran hc hg) size
  have hu := up_ge hc.page size
  have ho : overlaps s b (b + up c.page size) = false := by
    unfold overlaps
    rw [List.any_eq_false]
    intro a ha
    have := hf a ha
    simp only [Bool.and_eq_true, decide_eq_true_eq]
    omega
  refine ⟨⟨(b, up c.page size) :: s.allocs, fun x => if b ≤ x ∧ x < b + up c.page size then 0 else s.mem x⟩, ?_, ⟨?_, ?_⟩, ⟨hs, by simp⟩, ?_, ?_, ?_⟩
  · rw [winAlloc, if_pos hs]
    simp only [virtualAlloc, if_true]
    rw [e, ho]
    simp
  · intro a ha
    rcases List.mem_cons.1 ha with rfl | ha
    · exact ⟨hb, hg, by dsimp only; omega⟩
    · exact hv.start a ha
  · refine List.pairwise_cons.2 ⟨fun a ha => ?_, hv.apart⟩
    have := hf a ha
    dsimp only
    omega
  · intro x h1 h2
    dsimp only
    rw [if_pos (by omega)]
  · exact fun vm h => ⟨h.1, List.mem_cons_of_mem _ h.2⟩
  · intro a ha x h1 h2
    have := hf a ha
    dsimp only
    rw [if_neg (by omega)]

/-- **C168, partial.**  `zpl_vm_free` on Windows gives a held block of whole pages back, and nothing else.  Missing: other sizes, see
`C168_win_free_refused`. -/
theorem C168_win_free_partial {c : Cfg} (hc : Machine c) {s : Win} (hv : Valid c s) {vm : Vm} (hh : Held c s vm) (hp : vm.size % c.page = 0) :
    ∃ s', winFree c s vm = .ok (true, s') ∧ s'.allocs = s.allocs.erase (vm.data, vm.size) ∧ s'.mem = s.mem := by
  have h := hh.2
  rw [up_eq hc.page hp] at h
  exact ⟨_, winFree_whole hc hv h, rfl, rfl⟩

/-- **C168, deviation.**  On Windows no block whose size is not a number of whole pages can ever be given back. -/
theorem C168_win_free_refused {c : Cfg} (hc : Machine c) {s : Win} (hv : Valid c s) {vm : Vm} (hh : Held c s vm) (hp : vm.size % c.page ≠ 0) :
    winFree c s vm = .ok (false, s) := by
  refine winFree_short hc hv hh.2 hh.1 ?_
  have := up_ge hc.page vm.size
  have : up c.page vm.size ≠ vm.size := fun h => hp (by rw [← h]; exact up_mod _ _)
  omega

/-- **C168, partial.**  `zpl_vm_trim` on Windows, of a block of whole pages by a number of whole granules, if the system grants the new
reservation: the block is where it should be.  Missing: its contents (`C168_win_trim_lost`), other cuts and sizes. -/
theorem C168_win_trim_partial {c : Cfg} (hc : Machine c) {s : Win} (hv : Valid c s) {vm : Vm} (hh : Held c s vm) (hp : vm.size % c.page = 0)
    {lead size b : Nat} (hs : 0 < size) (h : lead + size ≤ vm.size) (hl : lead % c.gran = 0) :
    ∃ s', winTrim c s vm lead size (some b) = .ok (⟨vm.data + lead, size⟩, s') ∧ Held c s' ⟨vm.data + lead, size⟩ ∧
      s'.allocs = (vm.data + lead, up c.page size) :: s.allocs.erase (vm.data, vm.size) ∧
      ∀ x, x < vm.data ∨ vm.data + vm.size ≤ x → s'.mem x = s.mem x := by
  have hm := hh.2
  rw [up_eq hc.page hp] at hm
  obtain ⟨d0, d1, -⟩ := hv.start _ hm
  dsimp only at d0 d1
  have hg : (vm.data + lead) % c.gran = 0 := by rw [Nat.add_mod, d1, hl]; simp
  have e1 : down c.gran (vm.data + lead) = vm.data + lead := down_eq hc.gran hg
  have e2 : up c.page (vm.data + lead + size) = vm.data + lead + up c.page size := up_add hc.page (page_of_gran hc hg) size
  have hle : vm.data + lead + up c.page size ≤ vm.data + vm.size := by
    rw [← e2]
    exact up_mono_mult hc.page (by rw [Nat.add_mod, page_of_gran hc d1, hp]; simp) (by omega)
  have ho : overlaps { s with allocs := s.allocs.erase (vm.data, vm.size) } (vm.data + lead) (vm.data + lead + up c.page size) = false := by
    unfold overlaps
    rw [List.any_eq_false]
    intro a ha
    have hpw := (List.perm_cons_erase hm).pairwise_iff (R := fun a b : Nat × Nat => a.1 + a.2 ≤ b.1 ∨ b.1 + b.2 ≤ a.1) (fun {_ _} h => h.symm) |>.1 hv.apart
    have := (List.pairwise_cons.1 hpw).1 a ha
    dsimp only at this
    simp only [Bool.and_eq_true, decide_eq_true_eq]
    omega
  refine ⟨⟨(vm.data + lead, up c.page size) :: s.allocs.erase (vm.data, vm.size),
    fun x => if vm.data + lead ≤ x ∧ x < vm.data + lead + up c.page size then 0 else s.mem x⟩, ?_, ⟨hs, by simp⟩, rfl, fun x hx => by dsimp only; rw [if_neg (by omega)]⟩
  rw [winTrim, if_pos h]
  simp only [winFree_whole hc hv hm, except_ok_bind, winAlloc_at (show vm.data + lead ≠ 0 by omega) hs, e1, e2, ho, Bool.false_eq_true, if_false, if_true,
    Nat.add_sub_cancel_left]

/-- **C168, deviation.**  Whenever `zpl_vm_trim` on Windows returns the block that was asked for, its contents are lost: it holds zeros. -/
theorem C168_win_trim_lost {c : Cfg} (hc : Machine c) {s s' : Win} {vm r : Vm} {lead size : Nat} {pick : Option Nat} (hd : 0 < vm.data)
    (h : winTrim c s vm lead size pick = .ok (r, s')) (hr : r.data = vm.data + lead) :
    ∀ x, r.data ≤ x → x < r.data + size → s'.mem x = 0 := by
  unfold winTrim at h
  split at h
  · cases hf : winFree c s vm with
    | error e => rw [hf] at h; simp [bind, Except.bind] at h
    | ok f =>
      rw [hf, except_ok_bind] at h
      by_cases hs : 0 < size
      · cases pick with
        | none =>
          rw [winAlloc_none hs, except_ok_bind] at h
          dsimp only at h
          rw [if_neg (by omega), if_neg (by omega)] at h
          simp only [Except.ok.injEq, Prod.mk.injEq] at h
          rw [← h.1] at hr
          dsimp only at hr
          omega
        | some b =>
          rw [winAlloc_at (show vm.data + lead ≠ 0 by omega) hs] at h
          split at h
          · rw [except_ok_bind] at h
            dsimp only at h
            rw [if_neg (by omega), if_neg (by omega)] at h
            simp only [Except.ok.injEq, Prod.mk.injEq] at h
            rw [← h.1] at hr
            dsimp only at hr
            omega
          · rw [except_ok_bind] at h
            dsimp only at h
            split at h
            · rename_i he
              simp only [Except.ok.injEq, Prod.mk.injEq] at h
              intro x h1 h2
              rw [← h.2]
              dsimp only
              have := up_ge hc.page (vm.data + lead + size)
              rw [if_pos (by omega)]
            · rename_i he
              exfalso
              split at h
              · cases hg : winFree c _ _ with
                | error e => rw [hg] at h; simp [bind, Except.bind] at h
                | ok g =>
                  rw [hg, except_ok_bind] at h
                  simp only [Except.ok.injEq, Prod.mk.injEq] at h
                  rw [← h.1] at hr
                  exact he hr
              · simp only [Except.ok.injEq, Prod.mk.injEq] at h
                rw [← h.1] at hr
                exact he hr
      · rw [winAlloc, if_neg hs] at h
        cases h
  · cases h

/-- **C168, deviation.**  A cut that is not a number of whole granules: the block returned begins before the place asked for, and it can never be
given back. -/
theorem C168_win_trim_moved {c : Cfg} (hc : Machine c) {s : Win} (hv : Valid c s) {vm : Vm} (hh : Held c s vm) (hp : vm.size % c.page = 0)
    {lead size b : Nat} (hs : 0 < size) (h : lead + size ≤ vm.size) (hl : lead % c.gran ≠ 0) :
    ∃ r s', winTrim c s vm lead size (some b) = .ok (r, s') ∧ vm.data ≤ r.data ∧ r.data < vm.data + lead ∧ r.size = size ∧
      winFree c s' r = .ok (false, s') := by
  have hm := hh.2
  rw [up_eq hc.page hp] at hm
  obtain ⟨d0, d1, -⟩ := hv.start _ hm
  dsimp only at d0 d1
  have hg : (vm.data + lead) % c.gran ≠ 0 := by
    rw [Nat.add_mod, d1]
    simpa using hl
  have b1 : vm.data ≤ down c.gran (vm.data + lead) := by
    have := lt_down hc.gran (vm.data + lead)
    rcases Nat.lt_or_ge (down c.gran (vm.data + lead)) vm.data with hlt | hge
    · have := mult_eq (down_mod c.gran (vm.data + lead)) d1 (by omega) (by omega)
      omega
    · exact hge
  have b2 : down c.gran (vm.data + lead) < vm.data + lead := by
    have := down_le c.gran (vm.data + lead)
    have : down c.gran (vm.data + lead) ≠ vm.data + lead := fun e => hg (by rw [← e]; exact down_mod _ _)
    omega
  have hle : up c.page (vm.data + lead + size) ≤ vm.data + vm.size :=
    up_mono_mult hc.page (by rw [Nat.add_mod, page_of_gran hc d1, hp]; simp) (by omega)
  have hge := up_ge hc.page (vm.data + lead + size)
  have hpw := (List.perm_cons_erase hm).pairwise_iff (R := fun a b : Nat × Nat => a.1 + a.2 ≤ b.1 ∨ b.1 + b.2 ≤ a.1) (fun {_ _} h => h.symm) |>.1 hv.apart
  have hfar := (List.pairwise_cons.1 hpw).1
  have hin : ∀ a ∈ s.allocs.erase (vm.data, vm.size), a ∈ s.allocs := fun a ha => List.mem_of_mem_erase ha
  have ho : overlaps { s with allocs := s.allocs.erase (vm.data, vm.size) } (down c.gran (vm.data + lead)) (up c.page (vm.data + lead + size)) = false := by
    unfold overlaps
    rw [List.any_eq_false]
    intro a ha
    have := hfar a ha
    dsimp only at this
    simp only [Bool.and_eq_true, decide_eq_true_eq]
    omega
  let s2 : Win := ⟨(down c.gran (vm.data + lead), up c.page (vm.data + lead + size) - down c.gran (vm.data + lead)) :: s.allocs.erase (vm.data, vm.size),
    fun x => if down c.gran (vm.data + lead) ≤ x ∧ x < up c.page (vm.data + lead + size) then 0 else s.mem x⟩
  have hv2 : Valid c s2 := by
    refine ⟨fun a ha => ?_, List.pairwise_cons.2 ⟨fun a ha => ?_, (List.pairwise_cons.1 hpw).2⟩⟩
    · rcases List.mem_cons.1 ha with rfl | ha
      · exact ⟨by dsimp only; omega, down_mod _ _, by dsimp only; omega⟩
      · exact hv.start a (hin a ha)
    · have := hfar a ha
      dsimp only at this ⊢
      omega
  have hfree : winFree c s2 ⟨down c.gran (vm.data + lead), size⟩ = .ok (false, s2) :=
    winFree_short hc hv2 (List.mem_cons_self ..) hs (by omega)
  refine ⟨⟨down c.gran (vm.data + lead), size⟩, s2, ?_, b1, b2, rfl, hfree⟩
  rw [winTrim, if_pos h]
  simp only [winFree_whole hc hv hm, except_ok_bind, winAlloc_at (show vm.data + lead ≠ 0 by omega) hs, ho, Bool.false_eq_true, if_false]
  rw [if_neg (by omega), if_pos (by omega)]
  change (do let g ← winFree c s2 ⟨down c.gran (vm.data + lead), size⟩; Except.ok (_, g.2)) = _
  rw [hfree]
  rfl

/-- **C168, deviation.**  Trimming a block whose size is not a number of whole pages, on Windows: NULL comes back, and the block stays reserved. -/
theorem C168_win_trim_null {c : Cfg} (hc : Machine c) {s : Win} (hv : Valid c s) {vm : Vm} (hh : Held c s vm) (hp : vm.size % c.page ≠ 0)
    {lead size : Nat} (hs : 0 < size) (h : lead + size ≤ vm.size) (pick : Option Nat) :
    winTrim c s vm lead size pick = .ok (⟨0, size⟩, s) := by
  obtain ⟨d0, d1, -⟩ := hv.start _ hh.2
  dsimp only at d0 d1
  rw [winTrim, if_pos h]
  simp only [C168_win_free_refused hc hv hh hp, except_ok_bind]
  cases pick with
  | none =>
    simp only [winAlloc_none hs, except_ok_bind]
    rw [if_neg (by omega), if_neg (by omega)]
  | some b =>
    have ho : overlaps s (down c.gran (vm.data + lead)) (up c.page (vm.data + lead + size)) = true := by
      unfold overlaps
      rw [List.any_eq_true]
      refine ⟨_, hh.2, ?_⟩
      have := up_ge hc.page (vm.data + lead + size)
      have := up_ge hc.page vm.size
      have := down_le c.gran (vm.data + lead)
      simp only [Bool.and_eq_true, decide_eq_true_eq]
      omega
    simp only [winAlloc_at (show vm.data + lead ≠ 0 by omega) hs, ho, if_true, except_ok_bind]
    rw [if_neg (by omega), if_neg (by omega)]

/-- **C168, deviation.**  The two systems report a successful purge by opposite values. -/
theorem C168_purge_opposite {c : Cfg} {m : Space} {vm : Vm} (hd : vm.data % c.page = 0) (s : Win) (junk : Nat → BitVec 8) :
    (purge c m vm true).1 = false ∧ (winPurge s vm junk).1 = true := by
  refine ⟨?_, rfl⟩
  unfold purge madvise
  rw [if_neg (by omega)]
  rfl

/-! ## The hypotheses are met -/

def pc : Cfg := ⟨4096, 65536⟩

theorem pc_machine : Machine pc := ⟨by decide, by decide, by decide⟩

/-- Two blocks of a Windows process, of 8192 and of 100 bytes. -/
def two : Win := ⟨[(65536, 8192), (131072, 4096)], fun _ => 1⟩

theorem two_valid : Valid pc two :=
  ⟨fun a ha => by
    simp only [two, List.mem_cons, List.not_mem_nil, or_false] at ha
    rcases ha with rfl | rfl <;> decide, by decide⟩

theorem two_held : Held pc two ⟨65536, 8192⟩ ∧ Held pc two ⟨131072, 100⟩ := ⟨⟨by decide, by decide⟩, by decide, by decide⟩

example : winFree pc two ⟨131072, 100⟩ = .ok (false, two) :=
  C168_win_free_refused pc_machine two_valid (vm := ⟨131072, 100⟩) two_held.2 (by decide)

example : ∃ r s', winTrim pc two ⟨65536, 8192⟩ 4096 4096 (some 0) = .ok (r, s') ∧ 65536 ≤ r.data ∧ r.data < 65536 + 4096 ∧ r.size = 4096 ∧
    winFree pc s' r = .ok (false, s') :=
  C168_win_trim_moved pc_machine two_valid (vm := ⟨65536, 8192⟩) two_held.1 (by decide) (by decide) (by decide) (by decide)

example : ∃ s', winTrim pc two ⟨65536, 8192⟩ 0 4096 (some 0) = .ok (⟨65536, 4096⟩, s') ∧ Held pc s' ⟨65536, 4096⟩ ∧
    s'.allocs = (65536, 4096) :: two.allocs.erase (65536, 8192) ∧ ∀ x, x < 65536 ∨ 65536 + 8192 ≤ x → s'.mem x = two.mem x :=
  C168_win_trim_partial pc_machine two_valid (vm := ⟨65536, 8192⟩) two_held.1 (by decide) (by decide) (by decide) (by decide)

example : ∃ m', trim pc (fun x => if 4096 ≤ x ∧ x < 16384 then some 7 else none) ⟨4096, 12288⟩ 4096 8192 = .ok (⟨8192, 8192⟩, m') ∧
    (Kept (fun x => if 4096 ≤ x ∧ x < 16384 then some 7 else none) m' ⟨8192, 8192⟩ ↔ 4096 % 4096 = 0 ∧ 4096 + 8192 = 12288) :=
  C168_trim_iff pc_machine (vm := ⟨4096, 12288⟩) (by decide) (fun x h1 h2 => by
    dsimp only at h1 h2 ⊢
    rw [if_pos (by omega)]
    simp) (by decide) (by decide)

end Zpl.VmPages
