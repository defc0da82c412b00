import Verif.Mem.Raw
import Verif.Mem.Align

/-!
# Arena allocator — header/essentials/memory_custom.h:329-396, source/essentials/memory_custom.c:166-201

Addresses and sizes are natural numbers; the 64-bit address space is assumed not to be exhausted (no wraparound), and negative
sizes are not modelled.  `alignPtr_eq` ties the address arithmetic to the 64-bit model of `zpl_align_forward`.
-/
namespace Zpl.Arena
open Mem

/-! ## Model -/

/-- `zpl_align_forward_i64` for non-negative values and positive alignments — header/essentials/memory.h:124-126. -/
def up (n a : Nat) : Nat := n + (a - n % a) % a

/-- `zpl_align_forward` — header/essentials/memory.h:115-122, on addresses that do not wrap around. -/
def alignPtr (p a : Nat) : Except Fault Nat := if a.isPowerOfTwo then .ok ((p + (a - 1)) / a * a) else .error .assertion

instance (m : Memory) (a n : Nat) : Decidable (Mapped m a n) := by unfold Mapped; infer_instance

/-- `zpl_zero_size` — header/essentials/memory.h: `zpl_memset(ptr, 0, size)`.  Its effect is the one proved in `C11_memset`. -/
def zeroSize (m : Memory) (p n : Nat) : Except Fault Memory := if Mapped m p n then .ok (filled m p n 0) else .error .oob

/-- `zpl_memmove`, with the effect proved in `C10_memmove`. -/
def move (m : Memory) (d s n : Nat) : Except Fault Memory :=
  if Mapped m d n ∧ Mapped m s n then .ok (copied m d s n) else .error .oob

/-- `zpl_arena` — header/essentials/memory_custom.h (fields `physical_start`, `total_size`, `total_allocated`, `temp_count`). -/
structure Arena where
  start : Nat
  total : Nat
  allocated : Nat
  temp : Nat
  deriving DecidableEq, Repr

/-- `zpl_arena_init_from_memory` — header/essentials/memory_custom.h:329-336. -/
def init (start total : Nat) : Arena := ⟨start, total, 0, 0⟩

/-- `ZPL_ALLOCATION_ALLOC` of `zpl_arena_allocator_proc` — source/essentials/memory_custom.c:173-186 (default flags: clear to zero). -/
def alloc (A : Arena) (m : Memory) (size a : Nat) : Except Fault (Option Nat × Arena × Memory) :=
  if a = 0 then .error .divZero
  else if A.total < A.allocated + up size a then .ok (none, A, m)
  else do
    let p ← alignPtr (A.start + A.allocated) a
    let m ← zeroSize m p size
    .ok (some p, { A with allocated := A.allocated + up size a }, m)

/-- `ZPL_ALLOCATION_RESIZE` — source/essentials/memory_custom.c:195-199, through `zpl_default_resize_align`
— header/essentials/memory_custom.h:292-312.  Freeing is a no-op (187-190). -/
def resize (A : Arena) (m : Memory) (old : Option Nat) (oldSize size a : Nat) : Except Fault (Option Nat × Arena × Memory) :=
  match old with
  | none => alloc A m size a
  | some o =>
    if size = 0 then .ok (none, A, m)
    else if size ≤ oldSize then .ok (some o, A, m)
    else do
      let r ← alloc A m size a
      match r with
      | (none, A, m) => .ok (none, A, m)
      | (some p, A, m) => do
        let m ← move m p o oldSize
        .ok (some p, A, m)

/-- `zpl_arena_snapshot_begin` — header/essentials/memory_custom.h:383-389: the snapshot is the allocated count. -/
def snapBegin (A : Arena) : Nat × Arena := (A.allocated, { A with temp := A.temp + 1 })

/-- `zpl_arena_snapshot_end` — header/essentials/memory_custom.h:391-396. -/
def snapEnd (A : Arena) (count : Nat) : Except Fault Arena :=
  if A.allocated < count then .error .assertion
  else if A.temp = 0 then .error .assertion
  else .ok { A with allocated := count, temp := A.temp - 1 }

/-- `zpl_arena_alignment_of` — header/essentials/memory_custom.h:357-367. -/
def alignmentOf (A : Arena) (a : Nat) : Except Fault Nat :=
  if a.isPowerOfTwo then
    let r := A.start + A.allocated
    .ok (if r &&& (a - 1) ≠ 0 then a - (r &&& (a - 1)) else 0)
  else .error .assertion

/-- `zpl_arena_size_remaining` — header/essentials/memory_custom.h:369-372. -/
def sizeRemaining (A : Arena) (a : Nat) : Except Fault Int := do
  let o ← alignmentOf A a
  .ok ((A.total : Int) - (A.allocated + o))

/-! ## Histories -/

/-- A request of the client. -/
inductive Op where
  | alloc (size align : Nat)
  | free (p : Nat)
  | freeAll
  | resize (old : Option Nat) (oldSize size align : Nat)
  | snapBegin
  | snapEnd
  deriving DecidableEq, Repr

/-- A block handed out to the client: address and size. -/
abbrev Block := Nat × Nat

/-- The allocator with its memory, and for the specification the blocks handed out since the last `free_all` that have not been
given back by a snapshot, and the snapshots the client holds (count and the blocks live at that time). -/
structure State where
  arena : Arena
  mem : Memory
  live : List Block
  snaps : List (Nat × List Block)

/-- Record a block in the specification part of the state. -/
def grant (S : State) (r : Option Nat × Arena × Memory) (size : Nat) : Option Nat × State :=
  match r with
  | (none, A, m) => (none, { S with arena := A, mem := m })
  | (some p, A, m) => (some p, { S with arena := A, mem := m, live := (p, size) :: S.live })

/-- One request and what it returns.  A resize of something that is not a block, or the end of a snapshot the client does not
hold, is a client error (`ub`). -/
def step (S : State) : Op → Except Fault (Option Nat × State)
  | .alloc size a => do
    let r ← alloc S.arena S.mem size a
    .ok (grant S r size)
  | .free _ => .ok (none, S)
  | .freeAll => .ok (none, { S with arena := { S.arena with allocated := 0 }, live := [], snaps := S.snaps.map (fun s => (s.1, [])) })
  | .resize old oldSize size a =>
    match old with
    | none => do
      let r ← resize S.arena S.mem none oldSize size a
      .ok (grant S r size)
    | some o =>
      if (o, oldSize) ∈ S.live then do
        let r ← resize S.arena S.mem (some o) oldSize size a
        if size ≤ oldSize then .ok (r.1, { S with arena := r.2.1, mem := r.2.2 }) else .ok (grant S r size)
      else .error .ub
  | .snapBegin => let (c, A) := snapBegin S.arena; .ok (none, { S with arena := A, snaps := (c, S.live) :: S.snaps })
  | .snapEnd =>
    match S.snaps with
    | [] => .error .ub
    | (c, lv) :: r => do
      let A ← snapEnd S.arena c
      .ok (none, { S with arena := A, live := lv, snaps := r })

/-- A history: what each request returns, and the final state. -/
def run (S : State) : List Op → Except Fault (List (Option Nat) × State)
  | [] => .ok ([], S)
  | o :: os => do
    let (r, S) ← step S o
    let (rs, S) ← run S os
    .ok (r :: rs, S)

/-- A fresh arena over the memory region `[start, start+total)`. -/
def fresh (start total : Nat) (m : Memory) : State := ⟨init start total, m, [], []⟩

/-! ## Specification -/

def Disjoint (x y : Block) : Prop := x.1 + x.2 ≤ y.1 ∨ y.1 + y.2 ≤ x.1

/-- Blocks are aligned, lie in `[start, start+n)` and are pairwise disjoint. -/
def Good (a start n : Nat) (live : List Block) : Prop :=
  (∀ b ∈ live, a ∣ b.1 ∧ start ≤ b.1 ∧ b.1 + b.2 ≤ start + n) ∧ live.Pairwise Disjoint

/-- All alignments requested are `a`. -/
def Uniform (a : Nat) : Op → Prop
  | .alloc _ b => b = a
  | .resize _ _ _ b => b = a
  | _ => True

/-! ## Lemmas -/

theorem up_eq (n a : Nat) (ha : 0 < a) : up n a = (n + (a - 1)) / a * a := by
  unfold up
  have hd := Nat.div_add_mod n a
  have hm := Nat.mod_lt n ha
  by_cases hz : n % a = 0
  · rw [hz, Nat.sub_zero, Nat.mod_self, Nat.add_zero]
    have : (n + (a - 1)) / a = n / a := by
      apply Nat.div_eq_of_lt_le
      · rw [Nat.mul_comm]; omega
      · rw [Nat.add_mul, Nat.mul_comm]; omega
    rw [this, Nat.mul_comm]; omega
  · rw [Nat.mod_eq_of_lt (by omega)]
    have : (n + (a - 1)) / a = n / a + 1 := by
      apply Nat.div_eq_of_lt_le
      · rw [Nat.add_mul, Nat.mul_comm]; omega
      · rw [Nat.add_mul, Nat.add_mul, Nat.mul_comm]; omega
    rw [this, Nat.add_mul, Nat.mul_comm]; omega

theorem up_spec (n a : Nat) (ha : 0 < a) : a ∣ up n a ∧ n ≤ up n a ∧ ∀ x, a ∣ x → n ≤ x → up n a ≤ x := by
  rw [up_eq n a ha]; exact Align.round_up n a ha

/-- The address model agrees with the 64-bit `zpl_align_forward` wherever that does not wrap around. -/
theorem alignPtr_eq (p a : BitVec 64) (k : Nat) (ha : a.toInt = 2 ^ k) (hrep : p.toNat + (a.toNat - 1) < 2 ^ 64) :
    ∃ r, Align.alignForward p a = .ok r ∧ alignPtr p.toNat a.toNat = .ok r.toNat := by
  have hp2 := (Align.C15_is_power_of_two a).mpr ⟨k, ha⟩
  obtain ⟨j, hj, haj⟩ := (Align.isPow2_iff a).mp hp2
  have hpos : 0 < a.toNat := by rw [haj]; exact Nat.two_pow_pos j
  obtain ⟨u1, u2, u3⟩ := Align.round_up p.toNat a.toNat hpos
  have hle : (p.toNat + (a.toNat - 1)) / a.toNat * a.toNat ≤ p.toNat + (a.toNat - 1) := Nat.div_mul_le_self _ _
  obtain ⟨r, h1, h2, h3, h4⟩ := Align.C15_align_forward p a k ha ⟨_, Nat.lt_of_le_of_lt hle hrep, u1, u2⟩
  refine ⟨r, h1, ?_⟩
  unfold alignPtr
  rw [if_pos ⟨j, haj⟩]
  exact congrArg Except.ok (Nat.le_antisymm (u3 _ h2 h3) (h4 _ u1 u2))

theorem alignPtr_aligned {p a : Nat} (ha : a.isPowerOfTwo) (h : a ∣ p) : alignPtr p a = .ok p := by
  have hpos : 0 < a := by obtain ⟨k, rfl⟩ := ha; exact Nat.two_pow_pos k
  unfold alignPtr
  rw [if_pos ha]
  obtain ⟨u1, u2, u3⟩ := Align.round_up p a hpos
  exact congrArg Except.ok (Nat.le_antisymm (u3 p h (Nat.le_refl p)) u2)

/-- Domains of memories agree. -/
def SameDom (m m' : Memory) : Prop := ∀ x, (m x).isSome = (m' x).isSome

theorem SameDom.mapped {m m' : Memory} (h : SameDom m m') (a n : Nat) : Mapped m a n ↔ Mapped m' a n := by
  unfold Mapped; simp only [h _]

theorem sameDom_filled {m : Memory} {d n : Nat} {c : Byte} (h : Mapped m d n) : SameDom (filled m d n c) m := by
  intro x
  unfold filled
  split
  · next hx => have := h (x - d) (by omega); rw [show d + (x - d) = x by omega] at this; rw [this]; rfl
  · rfl

theorem sameDom_copied {m : Memory} {d s n : Nat} (h : Mapped m d n) (hs : Mapped m s n) : SameDom (copied m d s n) m := by
  intro x
  unfold copied
  split
  · next hx =>
    have := h (x - d) (by omega); rw [show d + (x - d) = x by omega] at this; rw [this]
    exact hs (x - d) (by omega)
  · rfl

theorem SameDom.trans {a b c : Memory} (h : SameDom a b) (g : SameDom b c) : SameDom a c := fun x => (h x).trans (g x)

/-- What an allocation does when the alignment divides the current end. -/
theorem alloc_ok {A : Arena} {m : Memory} {size a : Nat} (ha : a.isPowerOfTwo) (hdvd : a ∣ A.start + A.allocated)
    (hm : Mapped m A.start A.total) :
    alloc A m size a = if A.total < A.allocated + up size a then .ok (none, A, m)
      else .ok (some (A.start + A.allocated), { A with allocated := A.allocated + up size a }, filled m (A.start + A.allocated) size 0) := by
  have hpos : 0 < a := by obtain ⟨k, rfl⟩ := ha; exact Nat.two_pow_pos k
  have hu := (up_spec size a hpos).2.1
  unfold alloc
  rw [if_neg (by omega)]
  split
  · rfl
  · next h =>
    rw [alignPtr_aligned ha hdvd]
    simp only [except_ok_bind]
    unfold zeroSize
    rw [if_pos (hm.mono (by omega) (by omega))]
    rfl

theorem alloc_sameDom {A A' : Arena} {m m' : Memory} {size a : Nat} {r : Option Nat} (h : alloc A m size a = .ok (r, A', m')) :
    SameDom m' m := by
  unfold alloc at h
  split at h
  · simp at h
  split at h
  · injection h with h; injection h with h1 h; injection h with h2 h3; subst h3; intro x; rfl
  · cases hp : alignPtr (A.start + A.allocated) a with
    | error e => rw [hp] at h; simp at h
    | ok p =>
      rw [hp] at h
      simp only [except_ok_bind] at h
      unfold zeroSize at h
      split at h
      · next hm =>
        simp only [except_ok_bind] at h
        injection h with h; injection h with h1 h; injection h with h2 h3; subst h3
        exact sameDom_filled hm
      · simp at h

theorem alloc_temp {A A' : Arena} {m m' : Memory} {size a : Nat} {r : Option Nat} (h : alloc A m size a = .ok (r, A', m')) :
    A'.start = A.start ∧ A'.total = A.total ∧ A'.temp = A.temp ∧ A.allocated ≤ A'.allocated := by
  unfold alloc at h
  split at h
  · simp at h
  split at h
  · injection h with h; injection h with h1 h; injection h with h2 h3; subst h2; exact ⟨rfl, rfl, rfl, Nat.le_refl _⟩
  · cases hp : alignPtr (A.start + A.allocated) a with
    | error e => rw [hp] at h; simp at h
    | ok p =>
      rw [hp] at h
      simp only [except_ok_bind] at h
      unfold zeroSize at h
      split at h
      · simp only [except_ok_bind] at h
        injection h with h; injection h with h1 h; injection h with h2 h3; subst h2
        exact ⟨rfl, rfl, rfl, by simp⟩
      · simp at h

theorem Good.mono {a start n n' : Nat} {lv : List Block} (h : Good a start n lv) (hn : n ≤ n') : Good a start n' lv :=
  ⟨fun b hb => ⟨(h.1 b hb).1, (h.1 b hb).2.1, by have := (h.1 b hb).2.2; omega⟩, h.2⟩

theorem Good.push {a start n size k : Nat} {lv : List Block} (h : Good a start n lv) (hd : a ∣ start + n) (hk : size ≤ k) :
    Good a start (n + k) ((start + n, size) :: lv) := by
  have hm := h.mono (n' := n + k) (by omega)
  refine ⟨?_, List.pairwise_cons.mpr ⟨?_, h.2⟩⟩
  · intro b hb
    rcases List.mem_cons.mp hb with rfl | hb
    · exact ⟨hd, by simp, by simp; omega⟩
    · exact hm.1 b hb
  · intro b hb
    have := h.1 b hb
    right
    simp only; omega

/-- The invariant of a history in which all alignments are `a`. -/
structure Inv (a start total : Nat) (S : State) : Prop where
  hstart : S.arena.start = start
  htotal : S.arena.total = total
  hmap : Mapped S.mem start total
  hdvd : a ∣ S.arena.allocated
  hle : S.arena.allocated ≤ total
  hlive : Good a start S.arena.allocated S.live
  hsnaps : ∀ s ∈ S.snaps, a ∣ s.1 ∧ s.1 ≤ total ∧ Good a start s.1 s.2

theorem inv_grant {a start total : Nat} {S : State} (ha : a.isPowerOfTwo) (hs : a ∣ start) (h : Inv a start total S) (size : Nat) :
    ∃ r, alloc S.arena S.mem size a = .ok r ∧ Inv a start total (grant S r size).2 ∧
      (r.1 = none → r.2 = (S.arena, S.mem)) ∧ (∀ p, r.1 = some p → start ≤ p ∧ p + size ≤ start + total) := by
  have hpos : 0 < a := by obtain ⟨k, rfl⟩ := ha; exact Nat.two_pow_pos k
  obtain ⟨u1, u2, _⟩ := up_spec size a hpos
  have hd : a ∣ S.arena.start + S.arena.allocated := by rw [h.hstart]; exact Nat.dvd_add hs h.hdvd
  rw [alloc_ok ha hd (by rw [h.hstart, h.htotal]; exact h.hmap)]
  by_cases hfit : S.arena.total < S.arena.allocated + up size a
  · rw [if_pos hfit]
    exact ⟨_, rfl, h, fun _ => rfl, fun p hp => by simp at hp⟩
  · rw [if_neg hfit]
    have htot := h.htotal
    have hst := h.hstart
    refine ⟨_, rfl, ?_, fun hp => by simp at hp, ?_⟩
    · have hm : Mapped S.mem (start + S.arena.allocated) size := h.hmap.mono (by omega) (by omega)
      exact {
        hstart := hst, htotal := htot
        hmap := by
          show Mapped (filled S.mem (S.arena.start + S.arena.allocated) size 0) start total
          rw [hst]
          exact ((sameDom_filled hm).mapped _ _).mpr h.hmap
        hdvd := Nat.dvd_add h.hdvd u1
        hle := by show S.arena.allocated + up size a ≤ total; omega
        hlive := by
          show Good a start (S.arena.allocated + up size a) ((S.arena.start + S.arena.allocated, size) :: S.live)
          rw [hst]
          exact h.hlive.push (Nat.dvd_add hs h.hdvd) u2
        hsnaps := h.hsnaps }
    · intro p hp
      simp only [Option.some.injEq] at hp
      omega

/-- One request keeps the invariant; only a client error faults. -/
theorem inv_step {a start total : Nat} {S : State} (ha : a.isPowerOfTwo) (hs : a ∣ start) (h : Inv a start total S) (o : Op)
    (ho : Uniform a o) :
    (∃ r S', step S o = .ok (r, S') ∧ Inv a start total S') ∨
    (∃ f, step S o = .error f ∧ (f = .ub ∨ f = .assertion) ∧ (o = .snapEnd ∨ ∃ p n s b, o = .resize (some p) n s b)) := by
  cases o with
  | alloc size b =>
    have : b = a := ho
    subst this
    obtain ⟨r, h1, h2, _⟩ := inv_grant ha hs h size
    left
    refine ⟨(grant S r size).1, (grant S r size).2, ?_, h2⟩
    simp only [step, h1, except_ok_bind]
  | free p => exact Or.inl ⟨none, S, rfl, h⟩
  | freeAll =>
    refine Or.inl ⟨none, _, rfl, ?_⟩
    exact {
      hstart := h.hstart, htotal := h.htotal, hmap := h.hmap
      hdvd := Nat.dvd_zero a
      hle := Nat.zero_le _
      hlive := ⟨fun b hb => (by simp at hb), List.Pairwise.nil⟩
      hsnaps := by
        intro s hsn
        obtain ⟨t, ht, rfl⟩ := List.mem_map.mp hsn
        obtain ⟨t1, t2, _⟩ := h.hsnaps t ht
        exact ⟨t1, t2, fun b hb => (by simp at hb), List.Pairwise.nil⟩ }
  | resize old oldSize size b =>
    have : b = a := ho
    subst this
    obtain ⟨r, h1, h2, h3, h4⟩ := inv_grant ha hs h size
    cases old with
    | none =>
      left
      refine ⟨(grant S r size).1, (grant S r size).2, ?_, h2⟩
      simp only [step, resize, h1, except_ok_bind]
    | some p =>
      by_cases hmem : (p, oldSize) ∈ S.live
      · left
        simp only [step, resize, if_pos hmem]
        by_cases h0 : size = 0
        · simp only [if_pos h0, except_ok_bind]
          rw [if_pos (by omega)]
          exact ⟨_, _, rfl, h⟩
        by_cases hle : size ≤ oldSize
        · simp only [if_neg h0, if_pos hle, except_ok_bind]
          exact ⟨_, _, rfl, h⟩
        · simp only [if_neg h0, if_neg hle, h1, except_ok_bind]
          obtain ⟨q, A', m'⟩ := r
          cases q with
          | none => exact ⟨_, _, rfl, h2⟩
          | some q =>
            have hq := h4 q rfl
            have hm' : Mapped m' start total := h2.hmap
            have hp := (h.hlive.1 _ hmem)
            have hal := h.hle
            simp only at hp
            have hmv : Mapped m' q oldSize ∧ Mapped m' p oldSize :=
              ⟨hm'.mono (by omega) (by omega), hm'.mono (by omega) (by omega)⟩
            unfold move
            simp only [if_pos hmv, except_ok_bind]
            refine ⟨some q, _, rfl, ?_⟩
            exact {
              hstart := h2.hstart, htotal := h2.htotal
              hmap := ((sameDom_copied hmv.1 hmv.2).mapped _ _).mpr hm'
              hdvd := h2.hdvd, hle := h2.hle, hlive := h2.hlive, hsnaps := h2.hsnaps }
      · right
        refine ⟨.ub, ?_, Or.inl rfl, Or.inr ⟨p, oldSize, size, b, rfl⟩⟩
        simp only [step, if_neg hmem]
  | snapBegin =>
    left
    refine ⟨none, _, rfl, ?_⟩
    exact {
      hstart := h.hstart, htotal := h.htotal, hmap := h.hmap, hdvd := h.hdvd, hle := h.hle, hlive := h.hlive
      hsnaps := by
        intro s hsn
        rcases List.mem_cons.mp hsn with rfl | hsn
        · exact ⟨h.hdvd, h.hle, h.hlive⟩
        · exact h.hsnaps s hsn }
  | snapEnd =>
    simp only [step]
    cases hsn : S.snaps with
    | nil => exact Or.inr ⟨.ub, rfl, Or.inl rfl, Or.inl trivial⟩
    | cons x r =>
      obtain ⟨c, lv⟩ := x
      obtain ⟨c1, c2, c3⟩ := h.hsnaps (c, lv) (by rw [hsn]; simp)
      simp only []
      unfold snapEnd
      by_cases hc : S.arena.allocated < c
      · rw [if_pos hc]; exact Or.inr ⟨_, rfl, Or.inr rfl, Or.inl trivial⟩
      rw [if_neg hc]
      by_cases ht : S.arena.temp = 0
      · rw [if_pos ht]; exact Or.inr ⟨_, rfl, Or.inr rfl, Or.inl trivial⟩
      rw [if_neg ht]
      refine Or.inl ⟨none, _, rfl, ?_⟩
      exact {
        hstart := h.hstart, htotal := h.htotal, hmap := h.hmap, hdvd := c1, hle := c2, hlive := c3
        hsnaps := fun s hs' => h.hsnaps s (by rw [hsn]; simp [hs']) }

theorem inv_run {a start total : Nat} (ha : a.isPowerOfTwo) (hs : a ∣ start) : ∀ (ops : List Op) (S : State), Inv a start total S →
    (∀ o ∈ ops, Uniform a o) →
    (∃ rs S', run S ops = .ok (rs, S') ∧ Inv a start total S') ∨
    (∃ f, run S ops = .error f ∧ (f = .ub ∨ f = .assertion) ∧ ∃ o ∈ ops, o = .snapEnd ∨ ∃ p n s b, o = .resize (some p) n s b)
  | [], S, h, _ => Or.inl ⟨[], S, rfl, h⟩
  | o :: os, S, h, hu => by
    rcases inv_step ha hs h o (hu o (by simp)) with ⟨r, S', h1, h2⟩ | ⟨f, h1, h2, h3⟩
    · rcases inv_run ha hs os S' h2 (fun x hx => hu x (by simp [hx])) with ⟨rs, S'', g1, g2⟩ | ⟨f, g1, g2, o', go, g3⟩
      · exact Or.inl ⟨r :: rs, S'', by simp [run, h1, g1], g2⟩
      · exact Or.inr ⟨f, by simp [run, h1, g1], g2, o', by simp [go], g3⟩
    · exact Or.inr ⟨f, by simp [run, h1], h2, o, by simp, h3⟩

/-! ## Properties -/

/-- **C16 (partial).**  One allocation from an arena whose current end is a multiple of the requested alignment: if the request
does not fit NULL is returned and nothing changes; otherwise the block is aligned, begins where everything handed out before
ends, lies inside the arena, is zero, and no other byte of memory has changed.  Missing: alignments that do not divide the
current end, see `C16_mixed_alignments_overlap`. -/
theorem C16_alloc_partial (A : Arena) (m : Memory) (size a : Nat) (ha : ∃ k, a = 2 ^ k) (hdvd : a ∣ A.start + A.allocated)
    (hm : Mapped m A.start A.total) :
    ∃ r A' m', alloc A m size a = .ok (r, A', m') ∧
      match r with
      | none => A' = A ∧ m' = m ∧ ∀ k, a ∣ k → size ≤ k → A.total < A.allocated + k
      | some p => a ∣ p ∧ A.start + A.allocated ≤ p ∧ p + size ≤ A'.start + A'.allocated ∧ A'.allocated ≤ A'.total ∧
          A'.start = A.start ∧ A'.total = A.total ∧
          ∀ x, m' x = if p ≤ x ∧ x < p + size then some 0 else m x := by
  have hpos : 0 < a := by obtain ⟨k, rfl⟩ := ha; exact Nat.two_pow_pos k
  obtain ⟨u1, u2, u3⟩ := up_spec size a hpos
  rw [alloc_ok ha hdvd hm]
  by_cases hfit : A.total < A.allocated + up size a
  · rw [if_pos hfit]
    exact ⟨_, _, _, rfl, rfl, rfl, fun k h1 h2 => by have := u3 k h1 h2; omega⟩
  · rw [if_neg hfit]
    exact ⟨_, _, _, rfl, hdvd, Nat.le_refl _, by simp only; omega, by simp only; omega, rfl, rfl, fun x => rfl⟩

/-- **C16 (partial).**  For every arena whose memory is aligned to `a` and every history of allocations (all of alignment `a`,
any sizes), resizes, frees, `free_all` and snapshots: the blocks handed out and not given back are aligned, lie inside the
arena and are pairwise disjoint.  The only faults are client errors: resizing something that is not a block, and ending a
snapshot that is not held or is older than a `free_all`.  Missing: histories that mix alignments. -/
theorem C16_history_partial (a start total : Nat) (m : Memory) (ops : List Op) (ha : ∃ k, a = 2 ^ k) (hs : a ∣ start)
    (hm : Mapped m start total) (hu : ∀ o ∈ ops, Uniform a o) :
    (∃ rs S, run (fresh start total m) ops = .ok (rs, S) ∧
      (∀ b ∈ S.live, a ∣ b.1 ∧ start ≤ b.1 ∧ b.1 + b.2 ≤ start + total) ∧ S.live.Pairwise Disjoint) ∨
    (∃ f, run (fresh start total m) ops = .error f ∧ (f = .ub ∨ f = .assertion) ∧
      ∃ o ∈ ops, o = .snapEnd ∨ ∃ p n s b, o = .resize (some p) n s b) := by
  have h0 : Inv a start total (fresh start total m) :=
    { hstart := rfl, htotal := rfl, hmap := hm, hdvd := Nat.dvd_zero a, hle := Nat.zero_le _
      hlive := ⟨fun b hb => by simp [fresh] at hb, List.Pairwise.nil⟩
      hsnaps := fun s hs => by simp [fresh] at hs }
  rcases inv_run ha hs ops _ h0 hu with ⟨rs, S, h1, h2⟩ | h
  · left
    have := h2.hlive.mono h2.hle
    exact ⟨rs, S, h1, this.1, this.2⟩
  · exact Or.inr h

/-- Allocation requests with alignments that never increase. -/
theorem descending {start total : Nat} : ∀ (reqs : List (Nat × Nat)) (S : State) (c : Nat),
    S.arena.start = start → S.arena.total = total → Mapped S.mem start total → S.arena.allocated ≤ total → c ∣ S.arena.allocated →
    Good 1 start S.arena.allocated S.live → (∀ r ∈ reqs, (∃ k, r.2 = 2 ^ k) ∧ r.2 ∣ start ∧ r.2 ∣ c) →
    reqs.Pairwise (fun x y => y.2 ≤ x.2) →
    ∃ rs S', run S (reqs.map (fun r => .alloc r.1 r.2)) = .ok (rs, S') ∧ Good 1 start total S'.live ∧ (∀ b ∈ S.live, b ∈ S'.live) ∧
      rs.length = reqs.length ∧ ∀ (i p : Nat) (q : Nat × Nat), rs[i]? = some (some p) → reqs[i]? = some q → q.2 ∣ p ∧ (p, q.1) ∈ S'.live
  | [], S, c, _, _, _, hle, _, hg, _, _ => ⟨[], S, rfl, hg.mono hle, fun b hb => hb, rfl, by simp⟩
  | (size, a) :: reqs, S, c, h1, h2, h3, hle, hc, hg, hr, hp => by
    obtain ⟨hpow, hst, hac⟩ := hr (size, a) (by simp)
    simp only at hpow hst hac
    have hpos : 0 < a := by obtain ⟨k, rfl⟩ := hpow; exact Nat.two_pow_pos k
    obtain ⟨u1, u2, _⟩ := up_spec size a hpos
    have hdall : a ∣ S.arena.allocated := Nat.dvd_trans hac hc
    have hd : a ∣ S.arena.start + S.arena.allocated := by rw [h1]; exact Nat.dvd_add hst hdall
    have hal := alloc_ok (size := size) hpow hd (by rw [h1, h2]; exact h3)
    obtain ⟨hp1, hp2⟩ := List.pairwise_cons.mp hp
    have hrest : ∀ r ∈ reqs, (∃ k, r.2 = 2 ^ k) ∧ r.2 ∣ start ∧ r.2 ∣ a := by
      intro r hrm
      obtain ⟨⟨k, hk⟩, r2, _⟩ := hr r (by simp [hrm])
      refine ⟨⟨k, hk⟩, r2, ?_⟩
      have hle' := hp1 r hrm
      obtain ⟨j, hj⟩ := hpow
      simp only [hk, hj] at hle' ⊢
      exact Nat.pow_dvd_pow 2 ((Nat.pow_le_pow_iff_right (by omega)).mp hle')
    by_cases hfit : S.arena.total < S.arena.allocated + up size a
    · rw [if_pos hfit] at hal
      obtain ⟨rs, S', g1, g2, g3, g4, g5⟩ := descending reqs S a h1 h2 h3 hle hdall hg hrest hp2
      refine ⟨none :: rs, S', ?_, g2, g3, by simp [g4], ?_⟩
      · simp [run, step, hal, grant, g1]
      · intro i p q hi hq
        cases i with
        | zero => simp at hi
        | succ i => exact g5 i p q (by simpa using hi) (by simpa using hq)
    · rw [if_neg hfit] at hal
      have hm : Mapped S.mem (S.arena.start + S.arena.allocated) size := h3.mono (by omega) (by omega)
      obtain ⟨rs, S', g1, g2, g3, g4, g5⟩ := descending reqs
        { S with
          arena := { S.arena with allocated := S.arena.allocated + up size a }
          mem := filled S.mem (S.arena.start + S.arena.allocated) size 0
          live := (S.arena.start + S.arena.allocated, size) :: S.live } a h1 h2
        (((sameDom_filled hm).mapped _ _).mpr h3) (by simp only; omega) (Nat.dvd_add hdall u1)
        (by simp only [h1]; exact hg.push (Nat.one_dvd _) u2) hrest hp2
      refine ⟨some (S.arena.start + S.arena.allocated) :: rs, S', ?_, g2, fun b hb => g3 b (by simp [hb]), by simp [g4], ?_⟩
      · simp only [List.map_cons, run, step, hal, grant, except_ok_bind, g1]
      · intro i p q hi hq
        cases i with
        | zero =>
          simp only [List.getElem?_cons_zero, Option.some.injEq] at hi hq
          subst hi hq
          exact ⟨hd, g3 _ (by simp)⟩
        | succ i => exact g5 i p q (by simpa using hi) (by simpa using hq)

/-- **C16 (partial).**  Mixed alignments are safe if they never increase and the arena's memory is aligned to all of them: every
block is aligned as requested, inside the arena and disjoint from the others. -/
theorem C16_descending_partial (start total : Nat) (m : Memory) (reqs : List (Nat × Nat)) (hm : Mapped m start total)
    (hr : ∀ r ∈ reqs, (∃ k, r.2 = 2 ^ k) ∧ r.2 ∣ start) (hp : reqs.Pairwise (fun x y => y.2 ≤ x.2)) :
    ∃ rs S, run (fresh start total m) (reqs.map (fun r => .alloc r.1 r.2)) = .ok (rs, S) ∧ rs.length = reqs.length ∧
      (∀ (i p : Nat) (q : Nat × Nat), rs[i]? = some (some p) → reqs[i]? = some q → q.2 ∣ p ∧ (p, q.1) ∈ S.live) ∧
      (∀ b ∈ S.live, start ≤ b.1 ∧ b.1 + b.2 ≤ start + total) ∧ S.live.Pairwise Disjoint := by
  obtain ⟨rs, S, g1, g2, _, g4, g5⟩ := descending reqs (fresh start total m) 0 rfl rfl hm (Nat.zero_le _) (Nat.dvd_refl 0)
    ⟨fun b hb => by simp [fresh] at hb, List.Pairwise.nil⟩ (fun r h => ⟨(hr r h).1, (hr r h).2, Nat.dvd_zero _⟩) hp
  exact ⟨rs, S, g1, g4, g5, fun b hb => (g2.1 b hb).2, g2.2⟩

/-- **C16 is false of the code when alignments are mixed.**  In every arena of 64 bytes at a 16-byte boundary, allocating 8 bytes
at alignment 8, 16 bytes at alignment 16 and 8 bytes at alignment 8 hands out `[s, s+8)`, `[s+16, s+32)` and `[s+24, s+32)`: the
second and third overlap. -/
theorem C16_mixed_alignments_overlap (start : Nat) (m : Memory) (hs : 16 ∣ start) (hm : Mapped m start 64) :
    ∃ S, run (fresh start 64 m) [.alloc 8 8, .alloc 16 16, .alloc 8 8] = .ok ([some start, some (start + 16), some (start + 24)], S) ∧
      ¬ Disjoint (start + 16, 16) (start + 24, 8) := by
  have p8 : Nat.isPowerOfTwo 8 := ⟨3, rfl⟩
  have p16 : Nat.isPowerOfTwo 16 := ⟨4, rfl⟩
  have e1 : alignPtr (start + 0) 8 = .ok start := by unfold alignPtr; rw [if_pos p8]; exact congrArg _ (by omega)
  have e2 : alignPtr (start + 8) 16 = .ok (start + 16) := by unfold alignPtr; rw [if_pos p16]; exact congrArg _ (by omega)
  have e3 : alignPtr (start + 24) 8 = .ok (start + 24) := by unfold alignPtr; rw [if_pos p8]; exact congrArg _ (by omega)
  have m1 : Mapped m start 8 := hm.mono (by omega) (by omega)
  have d1 := sameDom_filled (c := 0) m1
  have m2 : Mapped (filled m start 8 0) (start + 16) 16 := (d1.mapped _ _).mpr (hm.mono (by omega) (by omega))
  have d2 := (sameDom_filled (c := 0) m2).trans d1
  have m3 : Mapped (filled (filled m start 8 0) (start + 16) 16 0) (start + 24) 8 := (d2.mapped _ _).mpr (hm.mono (by omega) (by omega))
  refine ⟨⟨⟨start, 64, 32, 0⟩, filled (filled (filled m start 8 0) (start + 16) 16 0) (start + 24) 8 0,
    [(start + 24, 8), (start + 16, 16), (start, 8)], []⟩, ?_, by unfold Disjoint; omega⟩
  simp only [Nat.add_zero] at e1
  simp only [BitVec.ofNat_eq_ofNat] at m2 m3
  simp [run, step, alloc, fresh, init, up, e1, e2, e3, zeroSize, m1, m2, m3, grant]

/-- It also hands out memory beyond the arena: in an arena of 24 bytes the second of those allocations is granted although only
16 aligned bytes at offset 16 would have to fit in 24; clearing it writes past the end. -/
theorem C16_mixed_alignments_out_of_bounds (start : Nat) (m : Memory) (hs : 16 ∣ start) (hm : Mapped m start 24)
    (hend : m (start + 24) = none) : run (fresh start 24 m) [.alloc 8 8, .alloc 16 16] = .error .oob := by
  have p8 : Nat.isPowerOfTwo 8 := ⟨3, rfl⟩
  have p16 : Nat.isPowerOfTwo 16 := ⟨4, rfl⟩
  have e1 : alignPtr (start + 0) 8 = .ok start := by unfold alignPtr; rw [if_pos p8]; exact congrArg _ (by omega)
  have e2 : alignPtr (start + 8) 16 = .ok (start + 16) := by unfold alignPtr; rw [if_pos p16]; exact congrArg _ (by omega)
  have m1 : Mapped m start 8 := hm.mono (by omega) (by omega)
  have d1 := sameDom_filled (c := 0) m1
  have m2 : ¬ Mapped (filled m start 8 0) (start + 16) 16 := by
    rw [d1.mapped]
    intro h
    have := h 8 (by omega)
    rw [show start + 16 + 8 = start + 24 by omega, hend] at this
    simp at this
  simp only [Nat.add_zero] at e1
  simp only [BitVec.ofNat_eq_ofNat] at m2
  simp [run, step, alloc, fresh, init, up, e1, e2, zeroSize, m1, m2, grant]

/-- **C16.**  If the current end is aligned, `zpl_arena_size_remaining` tells exactly which requests succeed. -/
theorem C16_size_remaining_partial (A : Arena) (m : Memory) (size a : Nat) (ha : ∃ k, a = 2 ^ k) (hdvd : a ∣ A.start + A.allocated)
    (hm : Mapped m A.start A.total) :
    ∃ n, sizeRemaining A a = .ok n ∧
      ((∃ p A' m', alloc A m size a = .ok (some p, A', m')) ↔ ∃ k : Nat, a ∣ k ∧ size ≤ k ∧ (k : Int) ≤ n) := by
  obtain ⟨j, rfl⟩ := ha
  have hpos : 0 < 2 ^ j := Nat.two_pow_pos j
  obtain ⟨u1, u2, u3⟩ := up_spec size (2 ^ j) hpos
  unfold sizeRemaining alignmentOf
  rw [if_pos ⟨j, rfl⟩]
  simp only [Nat.and_two_pow_sub_one_eq_mod, Nat.mod_eq_zero_of_dvd hdvd, except_ok_bind]
  refine ⟨_, rfl, ?_⟩
  rw [alloc_ok ⟨j, rfl⟩ hdvd hm]
  constructor
  · rintro ⟨p, A', m', h⟩
    split at h
    · simp at h
    · next hf => exact ⟨up size (2 ^ j), u1, u2, by simp; omega⟩
  · rintro ⟨k, k1, k2, k3⟩
    have := u3 k k1 k2
    rw [if_neg (by simp at k3; omega)]
    exact ⟨_, _, _, rfl⟩

/-! ### Snapshots -/

/-- Requests between a snapshot and its end: allocations, frees, resizes and complete nested snapshots. -/
inductive Balanced : List Op → Prop
  | nil : Balanced []
  | alloc {size a os} : Balanced os → Balanced (.alloc size a :: os)
  | free {p os} : Balanced os → Balanced (.free p :: os)
  | resize {o n s a os} : Balanced os → Balanced (.resize o n s a :: os)
  | bracket {os os'} : Balanced os → Balanced os' → Balanced (.snapBegin :: os ++ .snapEnd :: os')

theorem run_append (S : State) (xs ys : List Op) : run S (xs ++ ys) = (do
    let (rs, S) ← run S xs
    let (rs', S) ← run S ys
    .ok (rs ++ rs', S)) := by
  induction xs generalizing S with
  | nil =>
    simp only [List.nil_append, run, except_ok_bind]
    cases run S ys <;> simp
  | cons x xs ih =>
    simp only [List.cons_append, run]
    cases hs : step S x with
    | error e => simp
    | ok r =>
      simp only [except_ok_bind, ih]
      cases run r.2 xs with
      | error e => simp
      | ok r' =>
        simp only [except_ok_bind]
        cases run r'.2 ys <;> simp

/-- Between two states of a bracket: the allocation only grows, snapshots are as before. -/
structure Grown (S S' : State) : Prop where
  hstart : S'.arena.start = S.arena.start
  htotal : S'.arena.total = S.arena.total
  htemp : S'.arena.temp = S.arena.temp
  hall : S.arena.allocated ≤ S'.arena.allocated
  hsnaps : S'.snaps = S.snaps
  hdom : SameDom S'.mem S.mem

theorem Grown.refl (S : State) : Grown S S := ⟨rfl, rfl, rfl, Nat.le_refl _, rfl, fun _ => rfl⟩

theorem Grown.trans {S T U : State} (h : Grown S T) (g : Grown T U) : Grown S U :=
  ⟨g.hstart.trans h.hstart, g.htotal.trans h.htotal, g.htemp.trans h.htemp, Nat.le_trans h.hall g.hall, g.hsnaps.trans h.hsnaps,
    g.hdom.trans h.hdom⟩

theorem grown_grant {S : State} {size a n : Nat} {r : Option Nat × Arena × Memory} (h : alloc S.arena S.mem size a = .ok r) :
    Grown S (grant S r n).2 := by
  obtain ⟨q, A', m'⟩ := r
  obtain ⟨h1, h2, h3, h4⟩ := alloc_temp h
  have hd := alloc_sameDom h
  cases q <;> exact ⟨h1, h2, h3, h4, rfl, hd⟩

theorem bind_ok {α β : Type} {x : Except Fault α} {f : α → Except Fault β} {b : β} (h : (x >>= f) = .ok b) :
    ∃ a, x = .ok a ∧ f a = .ok b := by
  cases x with
  | error e => simp at h
  | ok a => exact ⟨a, rfl, h⟩

theorem grown_step {S S' : State} {o : Op} {r : Option Nat} (h : step S o = .ok (r, S'))
    (ho : (∃ s a, o = .alloc s a) ∨ (∃ p, o = .free p) ∨ ∃ p n s a, o = .resize p n s a) : Grown S S' := by
  rcases ho with ⟨s, a, rfl⟩ | ⟨p, rfl⟩ | ⟨p, n, s, a, rfl⟩
  · obtain ⟨q, h1, h2⟩ := bind_ok h
    injection h2 with h2
    have := grown_grant (n := s) h1
    rw [h2] at this; exact this
  · injection h with h; injection h with h1 h2; subst h2; exact Grown.refl S
  · cases p with
    | none =>
      obtain ⟨q, h1, h2⟩ := bind_ok h
      injection h2 with h2
      have := grown_grant (n := s) (show alloc S.arena S.mem s a = .ok q from h1)
      rw [h2] at this; exact this
    | some o =>
      simp only [step] at h
      split at h
      · obtain ⟨q, h1, h2⟩ := bind_ok h
        unfold resize at h1
        simp only at h1
        split at h1
        · injection h1 with h1; subst h1
          rw [if_pos (by omega)] at h2
          injection h2 with h2; injection h2 with _ h2; subst h2; exact Grown.refl S
        split at h1
        · next hle =>
          injection h1 with h1; subst h1
          rw [if_pos hle] at h2
          injection h2 with h2; injection h2 with _ h2; subst h2; exact Grown.refl S
        · next hle =>
          rw [if_neg hle] at h2
          obtain ⟨⟨t, A', m'⟩, g1, g2⟩ := bind_ok h1
          have hg := grown_grant (n := s) g1
          cases t with
          | none =>
            injection g2 with g2; subst g2
            injection h2 with h2
            rw [h2] at hg; exact hg
          | some t =>
            obtain ⟨m'', e1, e2⟩ := bind_ok g2
            injection e2 with e2; subst e2
            injection h2 with h2
            injection h2 with _ h2
            unfold move at e1
            split at e1
            · next hm =>
              injection e1 with e1; subst e1
              subst h2
              exact ⟨hg.hstart, hg.htotal, hg.htemp, hg.hall, hg.hsnaps, (sameDom_copied hm.1 hm.2).trans hg.hdom⟩
            · simp at e1
      · simp at h

/-- Ending a snapshot after a balanced history succeeds and restores the arena. -/
theorem end_ok {S S1 : State} (h : Grown (({ S with arena := (snapBegin S.arena).2, snaps := ((snapBegin S.arena).1, S.live) :: S.snaps })) S1) :
    step S1 .snapEnd = .ok (none, { S1 with arena := S.arena, live := S.live, snaps := S.snaps }) := by
  have h1 := h.hstart
  have h2 := h.htotal
  have h3 := h.htemp
  have h4 := h.hall
  have h5 := h.hsnaps
  simp only [snapBegin] at h1 h2 h3 h4 h5
  simp only [step]
  rw [h5]
  simp only [snapEnd]
  rw [if_neg (by omega), if_neg (by omega)]
  simp only [except_ok_bind, h1, h2, h3, Nat.add_sub_cancel]

theorem balanced_grown {ops : List Op} (hb : Balanced ops) : ∀ (S S' : State) (rs : List (Option Nat)), run S ops = .ok (rs, S') → Grown S S' := by
  induction hb with
  | nil => intro S S' rs h; injection h with h; injection h with _ h; subst h; exact Grown.refl S
  | @alloc size a os hb ih =>
    intro S S' rs h
    obtain ⟨⟨r, T⟩, h1, h2⟩ := bind_ok h
    obtain ⟨⟨r', T'⟩, h3, h4⟩ := bind_ok h2
    injection h4 with h4; injection h4 with _ h4; subst h4
    exact (grown_step h1 (Or.inl ⟨_, _, rfl⟩)).trans (ih _ _ _ h3)
  | @free p os hb ih =>
    intro S S' rs h
    obtain ⟨⟨r, T⟩, h1, h2⟩ := bind_ok h
    obtain ⟨⟨r', T'⟩, h3, h4⟩ := bind_ok h2
    injection h4 with h4; injection h4 with _ h4; subst h4
    exact (grown_step h1 (Or.inr (Or.inl ⟨_, rfl⟩))).trans (ih _ _ _ h3)
  | @resize o n s a os hb ih =>
    intro S S' rs h
    obtain ⟨⟨r, T⟩, h1, h2⟩ := bind_ok h
    obtain ⟨⟨r', T'⟩, h3, h4⟩ := bind_ok h2
    injection h4 with h4; injection h4 with _ h4; subst h4
    exact (grown_step h1 (Or.inr (Or.inr ⟨_, _, _, _, rfl⟩))).trans (ih _ _ _ h3)
  | @bracket os os' hb hb' ih ih' =>
    intro S S' rs h
    rw [run_append] at h
    obtain ⟨⟨r1, T⟩, h1, h2⟩ := bind_ok h
    obtain ⟨⟨r2, T'⟩, h3, h4⟩ := bind_ok h2
    injection h4 with h4; injection h4 with _ h4; subst h4
    obtain ⟨⟨r3, U⟩, g1, g2⟩ := bind_ok h1
    obtain ⟨⟨r4, U'⟩, g3, g4⟩ := bind_ok g2
    injection g4 with g4; injection g4 with _ g4; subst g4
    injection g1 with g1; injection g1 with _ g1; subst g1
    have hG := ih _ _ _ g3
    obtain ⟨⟨r5, V⟩, k1, k2⟩ := bind_ok h3
    obtain ⟨⟨r6, V'⟩, k3, k4⟩ := bind_ok k2
    injection k4 with k4; injection k4 with _ k4; subst k4
    rw [end_ok hG] at k1
    injection k1 with k1; injection k1 with _ k1; subst k1
    have hG' := ih' _ _ _ k3
    refine Grown.trans ?_ hG'
    exact ⟨rfl, rfl, rfl, Nat.le_refl _, rfl, hG.hdom⟩

/-- **C17.**  Take a snapshot of any arena, run any allocations, frees, resizes and complete nested snapshots, and end it: the end
never fails, and the arena, the blocks handed out and the snapshots held are exactly what they were before; the same memory
belongs to the arena. -/
theorem C17_snapshot_restores (S S0 S1 : State) (ops : List Op) (rs : List (Option Nat)) (hb : Balanced ops)
    (h0 : step S .snapBegin = .ok (none, S0)) (h1 : run S0 ops = .ok (rs, S1)) :
    ∃ S2, step S1 .snapEnd = .ok (none, S2) ∧ S2.arena = S.arena ∧ S2.live = S.live ∧ S2.snaps = S.snaps ∧
      ∀ x, (S2.mem x).isSome = (S.mem x).isSome := by
  injection h0 with h0; injection h0 with _ h0; subst h0
  have hg := balanced_grown hb _ _ _ h1
  exact ⟨_, end_ok hg, rfl, rfl, rfl, hg.hdom⟩

/-- States that differ only in the bytes stored. -/
structure Sim (S T : State) : Prop where
  harena : S.arena = T.arena
  hlive : S.live = T.live
  hsnaps : S.snaps = T.snaps
  hdom : SameDom S.mem T.mem

/-- Two results of a request that agree up to the bytes stored. -/
def SimR (x y : Except Fault (Option Nat × State)) : Prop :=
  match x, y with
  | .ok (r, S), .ok (q, T) => r = q ∧ Sim S T
  | .error e, .error f => e = f
  | _, _ => False

def SimA (x y : Except Fault (Option Nat × Arena × Memory)) : Prop :=
  match x, y with
  | .ok (r, A, m), .ok (q, B, k) => r = q ∧ A = B ∧ SameDom m k
  | .error e, .error f => e = f
  | _, _ => False

theorem sim_alloc (A : Arena) {m k : Memory} (h : SameDom m k) (size a : Nat) : SimA (alloc A m size a) (alloc A k size a) := by
  unfold alloc
  split
  · rfl
  split
  · exact ⟨rfl, rfl, h⟩
  cases alignPtr (A.start + A.allocated) a with
  | error e => rfl
  | ok p =>
    simp only [except_ok_bind, zeroSize]
    by_cases hm : Mapped m p size
    · have hk := (h.mapped p size).mp hm
      rw [if_pos hm, if_pos hk]
      exact ⟨rfl, rfl, ((sameDom_filled hm).trans h).trans (fun x => (sameDom_filled hk x).symm)⟩
    · have hk := fun hk => hm ((h.mapped p size).mpr hk)
      rw [if_neg hm, if_neg hk]
      rfl

theorem simA_cases {x y : Except Fault (Option Nat × Arena × Memory)} (h : SimA x y) :
    (∃ e, x = .error e ∧ y = .error e) ∨ (∃ r A m k, x = .ok (r, A, m) ∧ y = .ok (r, A, k) ∧ SameDom m k) := by
  match x, y, h with
  | .ok (r, A, m), .ok (q, B, k), h => obtain ⟨rfl, rfl, h⟩ := h; exact Or.inr ⟨r, A, m, k, rfl, rfl, h⟩
  | .error e, .error f, h => exact Or.inl ⟨e, rfl, by rw [show e = f from h]⟩

theorem sim_resize (A : Arena) {m k : Memory} (h : SameDom m k) (old : Option Nat) (n size a : Nat) :
    SimA (resize A m old n size a) (resize A k old n size a) := by
  cases old with
  | none => exact sim_alloc A h size a
  | some o =>
    unfold resize
    simp only
    split
    · exact ⟨rfl, rfl, h⟩
    split
    · exact ⟨rfl, rfl, h⟩
    rcases simA_cases (sim_alloc A h size a) with ⟨e, h1, h2⟩ | ⟨r, B, m', k', h1, h2, h3⟩
    · rw [h1, h2]; rfl
    · rw [h1, h2]
      simp only [except_ok_bind]
      cases r with
      | none => exact ⟨rfl, rfl, h3⟩
      | some p =>
        simp only [move]
        by_cases hm : Mapped m' p n ∧ Mapped m' o n
        · have hk : Mapped k' p n ∧ Mapped k' o n := ⟨(h3.mapped _ _).mp hm.1, (h3.mapped _ _).mp hm.2⟩
          rw [if_pos hm, if_pos hk]
          exact ⟨rfl, rfl, ((sameDom_copied hm.1 hm.2).trans h3).trans (fun x => (sameDom_copied hk.1 hk.2 x).symm)⟩
        · have hk : ¬ (Mapped k' p n ∧ Mapped k' o n) := fun hk => hm ⟨(h3.mapped _ _).mpr hk.1, (h3.mapped _ _).mpr hk.2⟩
          rw [if_neg hm, if_neg hk]
          rfl

theorem sim_grant {S T : State} (h : Sim S T) {r : Option Nat} {A : Arena} {m k : Memory} (hd : SameDom m k) (size : Nat) :
    (grant S (r, A, m) size).1 = (grant T (r, A, k) size).1 ∧ Sim (grant S (r, A, m) size).2 (grant T (r, A, k) size).2 := by
  cases r with
  | none => exact ⟨rfl, rfl, h.hlive, h.hsnaps, hd⟩
  | some p => exact ⟨rfl, rfl, by simp [grant, h.hlive], h.hsnaps, hd⟩

theorem sim_step {S T : State} (h : Sim S T) (o : Op) : SimR (step S o) (step T o) := by
  cases o with
  | alloc size a =>
    simp only [step]
    rw [← h.harena]
    rcases simA_cases (sim_alloc S.arena h.hdom size a) with ⟨e, h1, h2⟩ | ⟨r, B, m', k', h1, h2, h3⟩
    · rw [h1, h2]; rfl
    · rw [h1, h2]; exact sim_grant h h3 size
  | free p => exact ⟨rfl, h⟩
  | freeAll => exact ⟨rfl, by simp [h.harena], rfl, by simp [h.hsnaps], h.hdom⟩
  | resize old n size a =>
    cases old with
    | none =>
      simp only [step]
      rw [← h.harena]
      rcases simA_cases (sim_resize S.arena h.hdom none n size a) with ⟨e, h1, h2⟩ | ⟨r, B, m', k', h1, h2, h3⟩
      · rw [h1, h2]; rfl
      · rw [h1, h2]; exact sim_grant h h3 size
    | some p =>
      simp only [step, ← h.harena, ← h.hlive]
      split
      · rcases simA_cases (sim_resize S.arena h.hdom (some p) n size a) with ⟨e, h1, h2⟩ | ⟨r, B, m', k', h1, h2, h3⟩
        · rw [h1, h2]; rfl
        · rw [h1, h2]
          simp only [except_ok_bind]
          split
          · exact ⟨rfl, rfl, rfl, h.hsnaps, h3⟩
          · exact sim_grant h h3 size
      · rfl
  | snapBegin => exact ⟨rfl, by simp [h.harena], h.hlive, by simp [h.hsnaps, h.harena, h.hlive], h.hdom⟩
  | snapEnd =>
    simp only [step]
    rw [← h.hsnaps, ← h.harena]
    cases S.snaps with
    | nil => rfl
    | cons x r =>
      simp only
      cases snapEnd S.arena x.1 with
      | error e => rfl
      | ok A => exact ⟨rfl, rfl, rfl, rfl, h.hdom⟩

theorem sim_run {S T : State} (h : Sim S T) (ops : List Op) : (run S ops).map (fun r => r.1) = (run T ops).map (fun r => r.1) := by
  induction ops generalizing S T with
  | nil => rfl
  | cons o os ih =>
    have := sim_step h o
    unfold run
    cases hs : step S o with
    | error e =>
      cases ht : step T o with
      | error f => rw [hs, ht] at this; rw [show e = f from this]
      | ok y => rw [hs, ht] at this; exact absurd this (by simp [SimR])
    | ok x =>
      cases ht : step T o with
      | error f => rw [hs, ht] at this; exact absurd this (by simp [SimR])
      | ok y =>
        rw [hs, ht] at this
        have hx : x.1 = y.1 := this.1
        have := ih this.2
        simp only [except_ok_bind]
        cases h1 : run x.2 os with
        | error e =>
          cases h2 : run y.2 os with
          | error f => rw [h1, h2] at this; simpa [Except.map] using this
          | ok b => rw [h1, h2] at this; simp [Except.map] at this
        | ok a =>
          cases h2 : run y.2 os with
          | error f => rw [h1, h2] at this; simp [Except.map] at this
          | ok b =>
            rw [h1, h2] at this
            simp only [Except.map, Except.ok.injEq] at this
            simp [Except.map, hx, this]

/-- **C17.**  Every later history returns, after a snapshot bracket, exactly what it would have returned had the bracketed requests
never happened. -/
theorem C17_later_requests (S S0 S1 S2 : State) (ops later : List Op) (rs : List (Option Nat)) (hb : Balanced ops)
    (h0 : step S .snapBegin = .ok (none, S0)) (h1 : run S0 ops = .ok (rs, S1)) (h2 : step S1 .snapEnd = .ok (none, S2)) :
    (run S2 later).map (fun r => r.1) = (run S later).map (fun r => r.1) := by
  obtain ⟨T, g1, g2, g3, g4, g5⟩ := C17_snapshot_restores S S0 S1 ops rs hb h0 h1
  rw [h2] at g1
  injection g1 with g1; injection g1 with _ g1; subst g1
  exact sim_run ⟨g2, g3, g4, g5⟩ later

/-- Non-vacuity: a memory with one mapped region, uniform histories with snapshots, resizes and a request that does not fit. -/
def exMem : Memory := fun a => if 32 ≤ a ∧ a < 96 then some 7 else none

example : (run (fresh 32 64 exMem) [.alloc 3 8, .snapBegin, .alloc 20 8, .resize (some 40) 20 30 8, .snapEnd, .alloc 9 8, .freeAll,
      .alloc 65 8, .alloc 64 8]).map (fun r => (r.1, r.2.live)) =
    .ok ([some 32, none, some 40, some 64, none, some 40, none, none, some 32], [(32, 64)]) := by decide +kernel

example : Mapped exMem 32 64 ∧ 8 ∣ 32 ∧ (8 = 2 ^ 3) := by decide +kernel

example : (run (fresh 32 64 exMem) ([(20, 16), (3, 8), (1, 1)].map (fun r => .alloc r.1 r.2))).map (fun r => r.1) =
    .ok [some 32, some 64, some 72] := by decide +kernel

example : Balanced [.alloc 1 8, .snapBegin, .free 3, .snapEnd, .resize none 0 3 8] :=
  .alloc (.bracket (os := [.free 3]) (.free .nil) (.resize .nil))

end Zpl.Arena
