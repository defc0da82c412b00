import Verif.Mem.Words

/-!
# Stack allocator — header/essentials/memory_custom.h:437-470, source/essentials/memory_custom.c:396-451
-/
namespace Zpl.Stack
open Mem
open Arena (SameDom sameDom_filled alignPtr Block Disjoint)

/-! ## Model -/

/-- `zpl_stack_memory` — header/essentials/memory_custom.h; `total` may become negative through the growth path. -/
structure Stack where
  start : Nat
  total : Int
  allocated : Nat
  deriving DecidableEq, Repr

/-- `zpl_stack_memory_init_from_memory` — header/essentials/memory_custom.h:440-444. -/
def init (start total : Nat) : Stack := ⟨start, total, 0⟩

/-- The end of `ZPL_ALLOCATION_ALLOC` — source/essentials/memory_custom.c:426-431: `size` includes the 8 bytes for the offset. -/
def place (s : Stack) (m : Memory) (curr size offset : Nat) : Except Fault (Nat × Stack × Memory) := do
  let m ← st64w m curr offset
  .ok (curr + 8, { s with allocated := curr - s.start + size }, m)

/-- `ZPL_ALLOCATION_ALLOC` for a stack without backing allocator — source/essentials/memory_custom.c:404-432.  `ZPL_PANIC` is an
assertion failure. -/
def alloc (s : Stack) (m : Memory) (size a : Nat) : Except Fault (Nat × Stack × Memory) := do
  let curr ← alignPtr (s.start + s.allocated) a
  if (s.start : Int) + s.total < curr + (size + 8 : Nat) then .error .assertion
  else place s m curr (size + 8) s.allocated

/-- The same with a backing allocator, which moves the stack's memory to `newStart` (contents in `m'`) when it must grow
— source/essentials/memory_custom.c:412-420. -/
def allocGrow (s : Stack) (m m' : Memory) (newStart size a : Nat) : Except Fault (Nat × Stack × Memory) := do
  let curr ← alignPtr (s.start + s.allocated) a
  if (s.start : Int) + s.total < curr + (size + 8 : Nat) then do
    let curr ← alignPtr (newStart + s.allocated) a
    place { s with start := newStart, total := (newStart : Int) - s.start } m' curr (size + 8) s.allocated
  else place s m curr (size + 8) s.allocated

/-- `ZPL_ALLOCATION_FREE` — source/essentials/memory_custom.c:434-442. -/
def free (s : Stack) (m : Memory) (p : Nat) : Except Fault Stack :=
  if p = 0 then .ok s
  else do
    let offset ← ld64 m (p - 8)
    .ok { s with allocated := offset }

/-- `ZPL_ALLOCATION_FREE_ALL` — source/essentials/memory_custom.c:444-446. -/
def freeAll (s : Stack) : Stack := { s with allocated := 0 }

/-! ## Histories -/

/-- Requests, and writes of the client into its blocks. -/
inductive Op where
  | alloc (size align : Nat)
  | free (p : Nat)
  | freeAll
  | write (p off : Nat) (b : Byte)

/-- The stack and its memory, and for the specification the blocks the client holds, most recent first. -/
structure State where
  stack : Stack
  mem : Memory
  live : List Block

/-- One request.  Freeing anything but the most recent block, or writing outside a held block, is a client error (`ub`). -/
def step (S : State) : Op → Except Fault (Option Nat × State)
  | .alloc size a => do
    let (p, s, m) ← alloc S.stack S.mem size a
    .ok (some p, ⟨s, m, (p, size) :: S.live⟩)
  | .free p =>
    match S.live with
    | [] => .error .ub
    | (q, _) :: r =>
      if p = q then do
        let s ← free S.stack S.mem p
        .ok (none, { S with stack := s, live := r })
      else .error .ub
  | .freeAll => .ok (none, { S with stack := freeAll S.stack, live := [] })
  | .write p off b =>
    if S.live.any (fun x => x.1 == p && decide (off < x.2)) then do
      let m ← st S.mem (p + off) b
      .ok (none, { S with mem := m })
    else .error .ub

/-- A history: what each request returns, and the final state. -/
def run (S : State) : List Op → Except Fault (List (Option Nat) × State)
  | [] => .ok ([], S)
  | o :: os => do
    let (r, S) ← step S o
    let (rs, S) ← run S os
    .ok (r :: rs, S)

/-- A fresh stack over `[start, start+total)`. -/
def fresh (start total : Nat) (m : Memory) : State := ⟨init start total, m, []⟩

/-- States a client can reach. -/
def Reachable (start total : Nat) (m : Memory) (S : State) : Prop := ∃ ops rs, run (fresh start total m) ops = .ok (rs, S)

/-! ## Lemmas -/

/-- The blocks held, most recent first, with the saved offsets in front of them; `al` is the allocated count. -/
def Chain (m : Memory) (start : Nat) : Nat → List Block → Prop
  | al, [] => al = 0
  | al, (p, n) :: r => ∃ prev, start + prev + 8 ≤ p ∧ start + al = p + n ∧ Holds m (p - 8) prev ∧ Chain m start prev r

/-- The allocated count is determined by the most recent block. -/
def topOf (start : Nat) : List Block → Nat
  | [] => 0
  | (p, n) :: _ => p + n - start

theorem Chain.top {m : Memory} {start : Nat} : ∀ {live : List Block} {al : Nat}, Chain m start al live → al = topOf start live
  | [], _, h => h
  | (p, n) :: r, al, ⟨prev, h1, h2, _⟩ => by simp only [topOf]; omega

/-- All blocks of a chain lie below the top and after the start, with their header. -/
theorem Chain.bound {m : Memory} {start : Nat} : ∀ {live : List Block} {al : Nat}, Chain m start al live →
    ∀ b ∈ live, start + 8 ≤ b.1 ∧ b.1 + b.2 ≤ start + al
  | [], _, _, b, hb => by simp at hb
  | (p, n) :: r, al, ⟨prev, h1, h2, _, h4⟩, b, hb => by
    rcases List.mem_cons.mp hb with rfl | hb
    · simp only; omega
    · have := h4.bound b hb; omega

theorem Chain.disjoint {m : Memory} {start : Nat} : ∀ {live : List Block} {al : Nat}, Chain m start al live →
    live.Pairwise (fun x y => y.1 + y.2 + 8 ≤ x.1)
  | [], _, _ => List.Pairwise.nil
  | (p, n) :: r, al, ⟨prev, h1, h2, _, h4⟩ => by
    refine List.pairwise_cons.mpr ⟨?_, h4.disjoint⟩
    intro b hb
    have := h4.bound b hb
    simp only; omega

theorem Chain.frame {m m' : Memory} {start : Nat} : ∀ {live : List Block} {al : Nat}, Chain m start al live →
    (∀ b ∈ live, ∀ x, b.1 - 8 ≤ x → x < b.1 → m' x = m x) → Chain m' start al live
  | [], _, h, _ => h
  | (p, n) :: r, al, ⟨prev, h1, h2, h3, h4⟩, hf => by
    refine ⟨prev, h1, h2, h3.frame (fun x hx1 hx2 => hf (p, n) (by simp) x hx1 (by simp only; omega)), h4.frame (fun b hb => hf b (by simp [hb]))⟩

theorem pairwise_mem {α : Type} {R : α → α → Prop} : ∀ {l : List α}, l.Pairwise R → ∀ {x y : α}, x ∈ l → y ∈ l → x = y ∨ R x y ∨ R y x
  | [], _, x, _, hx, _ => by simp at hx
  | a :: l, h, x, y, hx, hy => by
    obtain ⟨h1, h2⟩ := List.pairwise_cons.mp h
    rcases List.mem_cons.mp hx with rfl | hx'
    · rcases List.mem_cons.mp hy with rfl | hy'
      · exact Or.inl rfl
      · exact Or.inr (Or.inl (h1 y hy'))
    · rcases List.mem_cons.mp hy with rfl | hy'
      · exact Or.inr (Or.inr (h1 x hx'))
      · exact pairwise_mem h2 hx' hy'

/-- Invariant of a stack without backing allocator. -/
structure Inv (start total : Nat) (S : State) : Prop where
  hstart : S.stack.start = start
  htotal : S.stack.total = total
  hmap : Mapped S.mem start total
  hle : S.stack.allocated ≤ total
  hchain : Chain S.mem start S.stack.allocated S.live

theorem alignPtr_spec {p a c : Nat} (h : alignPtr p a = .ok c) : (∃ k, a = 2 ^ k) ∧ a ∣ c ∧ p ≤ c := by
  unfold alignPtr at h
  split at h
  · next hp =>
    injection h with h
    have hpos : 0 < a := by obtain ⟨k, rfl⟩ := hp; exact Nat.two_pow_pos k
    obtain ⟨u1, u2, _⟩ := Align.round_up p a hpos
    exact ⟨hp, by rw [← h]; exact u1, by omega⟩
  · simp at h

section
variable {start total : Nat}

/-- What an allocation does. -/
theorem alloc_ok (hlt : start + total < 2 ^ 64) {S : State} (h : Inv start total S) {size a c : Nat} (hc : alignPtr (start + S.stack.allocated) a = .ok c)
    (hfit : c + 8 + size ≤ start + total) :
    ∃ S', step S (.alloc size a) = .ok (some (c + 8), S') ∧ S'.live = (c + 8, size) :: S.live ∧ Inv start total S' ∧
      (∀ x, (x < c ∨ c + 8 ≤ x) → S'.mem x = S.mem x) := by
  obtain ⟨_, _, hle⟩ := alignPtr_spec hc
  have hm8 : Mapped S.mem c 8 := h.hmap.mono (by omega) (by omega)
  have hal := h.hle
  refine ⟨⟨{ S.stack with allocated := c - S.stack.start + (size + 8) }, put S.mem c S.stack.allocated, (c + 8, size) :: S.live⟩, ?_, rfl, ?_,
    fun x hx => put_outside hx⟩
  · have hnf : ¬ ((S.stack.start : Int) + S.stack.total < c + (size + 8 : Nat)) := by rw [h.hstart, h.htotal]; omega
    simp only [step, alloc, h.hstart, hc, except_ok_bind]
    rw [h.hstart] at hnf
    simp only [if_neg hnf, place, st64w_ok hm8, except_ok_bind, h.hstart]
  · have hst := h.hstart
    exact {
      hstart := hst, htotal := h.htotal
      hmap := ((sameDom_put hm8).mapped _ _).mpr h.hmap
      hle := by show c - S.stack.start + (size + 8) ≤ total; omega
      hchain := by
        refine ⟨S.stack.allocated, by omega, by show start + (c - S.stack.start + (size + 8)) = c + 8 + size; omega, ?_, h.hchain.frame ?_⟩
        · rw [show c + 8 - 8 = c by omega]
          exact holds_put S.mem (by omega)
        · intro b hb x hx1 hx2
          have := h.hchain.bound b hb
          exact put_outside (by omega) }

/-- What freeing the most recent block does. -/
theorem free_ok {S : State} (h : Inv start total S) {p n : Nat} {r : List Block} (hl : S.live = (p, n) :: r) :
    ∃ S', step S (.free p) = .ok (none, S') ∧ S'.live = r ∧ S'.mem = S.mem ∧ Inv start total S' := by
  have hc := h.hchain
  rw [hl] at hc
  obtain ⟨prev, h1, h2, h3, h4⟩ := hc
  have hal := h.hle
  refine ⟨{ S with stack := { S.stack with allocated := prev }, live := r }, ?_, rfl, rfl, ?_⟩
  · simp only [step, hl, free, if_neg (show p ≠ 0 by omega), ld64_ok h3, except_ok_bind, if_true]
  · exact { hstart := h.hstart, htotal := h.htotal, hmap := h.hmap, hle := by show prev ≤ total; omega, hchain := h4 }

theorem write_ok {S : State} (h : Inv start total S) {p off n : Nat} {b : Byte} (hp : (p, n) ∈ S.live) (ho : off < n) :
    ∃ S', step S (.write p off b) = .ok (none, S') ∧ S'.live = S.live ∧ S'.stack = S.stack ∧ Inv start total S' ∧
      (∀ x, x ≠ p + off → S'.mem x = S.mem x) := by
  have hbd := h.hchain.bound _ hp
  have hal := h.hle
  simp only at hbd
  have hm : (S.mem (p + off)).isSome := h.hmap.at (by omega) (by omega)
  have hsd : SameDom (fun x => if x = p + off then some b else S.mem x) S.mem := by
    intro x
    by_cases hxe : x = p + off
    · subst hxe; simp [hm]
    · simp [hxe]
  refine ⟨{ S with mem := fun x => if x = p + off then some b else S.mem x }, ?_, rfl, rfl, ?_, fun x hx => by simp [hx]⟩
  · have hc : S.live.any (fun x => x.1 == p && decide (off < x.2)) = true := by
      rw [List.any_eq_true]; exact ⟨(p, n), hp, by simp [ho]⟩
    simp only [step, if_pos hc, st_ok hm, except_ok_bind]
  · have hd := h.hchain.disjoint
    exact {
      hstart := h.hstart, htotal := h.htotal, hmap := (hsd.mapped _ _).mpr h.hmap, hle := hal
      hchain := by
        refine h.hchain.frame ?_
        intro c hc x hx1 hx2
        have hb2 := h.hchain.bound c hc
        by_cases he : c = (p, n)
        · subst he; exact if_neg (by simp only at hx1 hx2; omega)
        · have : (c.1 + c.2 + 8 ≤ p) ∨ (p + n + 8 ≤ c.1) := by
            rcases pairwise_mem hd hc hp with hh | hh | hh
            · exact absurd hh he
            · exact Or.inr hh
            · exact Or.inl hh
          exact if_neg (by omega) }

theorem inv_step (hlt : start + total < 2 ^ 64) {S S' : State} (h : Inv start total S) {o : Op} {r : Option Nat} (hs : step S o = .ok (r, S')) :
    Inv start total S' := by
  cases o with
  | alloc size a =>
    cases hc : alignPtr (start + S.stack.allocated) a with
    | error e => simp [step, alloc, h.hstart, hc] at hs
    | ok c =>
      by_cases hfit : c + 8 + size ≤ start + total
      · obtain ⟨T, h1, _, h2, _⟩ := alloc_ok hlt h hc hfit
        rw [h1] at hs; injection hs with hs; injection hs with _ hs; subst hs; exact h2
      · have hnf : (start : Int) + (total : Int) < c + (size + 8 : Nat) := by omega
        simp only [step, alloc, h.hstart, h.htotal, hc, except_ok_bind, if_pos hnf] at hs
        simp at hs
  | free p =>
    cases hl : S.live with
    | nil => simp [step, hl] at hs
    | cons x rest =>
      obtain ⟨q, n⟩ := x
      by_cases hpq : p = q
      · subst hpq
        obtain ⟨T, h1, _, _, h2⟩ := free_ok h hl
        rw [h1] at hs; injection hs with hs; injection hs with _ hs; subst hs; exact h2
      · simp [step, hl, hpq] at hs
  | freeAll =>
    injection hs with hs; injection hs with _ hs; subst hs
    exact { hstart := h.hstart, htotal := h.htotal, hmap := h.hmap, hle := Nat.zero_le _, hchain := rfl }
  | write p off b =>
    by_cases hc : S.live.any (fun x => x.1 == p && decide (off < x.2)) = true
    · obtain ⟨⟨q, n⟩, hm, hb⟩ := List.any_eq_true.mp hc
      simp only [Bool.and_eq_true, beq_iff_eq, decide_eq_true_eq] at hb
      obtain ⟨rfl, hb⟩ := hb
      obtain ⟨T, h1, _, _, h2, _⟩ := write_ok h hm hb (b := b)
      rw [h1] at hs; injection hs with hs; injection hs with _ hs; subst hs; exact h2
    · simp only [step, if_neg hc] at hs
      simp at hs

theorem inv_run (hlt : start + total < 2 ^ 64) : ∀ (ops : List Op) (S S' : State) (rs : List (Option Nat)), Inv start total S →
    run S ops = .ok (rs, S') → Inv start total S'
  | [], S, S', rs, h, hr => by injection hr with hr; injection hr with _ hr; subst hr; exact h
  | o :: os, S, S', rs, h, hr => by
    obtain ⟨⟨r, T⟩, h1, h2⟩ := Arena.bind_ok hr
    obtain ⟨⟨r', T'⟩, h3, h4⟩ := Arena.bind_ok h2
    injection h4 with h4; injection h4 with _ h4; subst h4
    exact inv_run hlt os T _ r' (inv_step hlt h h1) h3

theorem inv_reachable (hlt : start + total < 2 ^ 64) {m : Memory} (hm : Mapped m start total) {S : State} (h : Reachable start total m S) :
    Inv start total S := by
  obtain ⟨ops, rs, h⟩ := h
  exact inv_run hlt ops (fresh start total m) _ rs { hstart := rfl, htotal := rfl, hmap := hm, hle := Nat.zero_le _, hchain := rfl } h

/-- Two states with the same blocks have the same allocator. -/
theorem stack_eq {S T : State} (h : Inv start total S) (g : Inv start total T) (hl : S.live = T.live) : S.stack = T.stack := by
  have h1 := h.hchain.top
  have h2 := g.hchain.top
  have e1 := h.hstart
  have e2 := g.hstart
  have e3 := h.htotal
  have e4 := g.htotal
  rw [hl] at h1
  cases hs : S.stack; cases ht : T.stack
  rw [hs] at h1 e1 e3
  rw [ht] at h2 e2 e4
  simp only at h1 h2 e1 e2 e3 e4
  rw [h1, h2, e1, e2, e3, e4]

end

/-! ## Properties -/

/-- **C19 (partial).**  In every state a client can reach, the blocks it holds lie inside the stack's memory and are pairwise
disjoint.  Missing from the full property: alignment above 8, see `C19_never_aligned_above_8`. -/
theorem C19_blocks_partial (start total : Nat) (m : Memory) (hlt : start + total < 2 ^ 64) (hm : Mapped m start total) (S : State)
    (h : Reachable start total m S) :
    (∀ b ∈ S.live, start ≤ b.1 ∧ b.1 + b.2 ≤ start + total) ∧ S.live.Pairwise Disjoint := by
  have hi := inv_reachable hlt hm h
  have hal := hi.hle
  refine ⟨?_, hi.hchain.disjoint.imp ?_⟩
  · intro b hb
    have := hi.hchain.bound b hb
    omega
  · intro x y hxy
    unfold Disjoint; right; omega

/-- **C19 (partial).**  In every reachable state an allocation with power-of-two alignment at most 8 succeeds exactly if the block
with its 8-byte offset fits after the blocks held, and otherwise panics; the block is aligned, and no byte of the blocks held
changes. -/
theorem C19_alloc_partial (start total : Nat) (m : Memory) (hlt : start + total < 2 ^ 64) (hm : Mapped m start total) (S : State)
    (h : Reachable start total m S) (size k : Nat) (hk : k ≤ 3) :
    ∃ c, 2 ^ k ∣ c ∧ start + S.stack.allocated ≤ c ∧ (∀ x, 2 ^ k ∣ x → start + S.stack.allocated ≤ x → c ≤ x) ∧
      (start + total < c + 8 + size → step S (.alloc size (2 ^ k)) = .error .assertion) ∧
      (c + 8 + size ≤ start + total → ∃ S', step S (.alloc size (2 ^ k)) = .ok (some (c + 8), S') ∧ 2 ^ k ∣ c + 8 ∧
        S'.live = (c + 8, size) :: S.live ∧ ∀ b ∈ S.live, ∀ i, i < b.2 → S'.mem (b.1 + i) = S.mem (b.1 + i)) := by
  have hi := inv_reachable hlt hm h
  have hpos : 0 < 2 ^ k := Nat.two_pow_pos k
  obtain ⟨u1, u2, u3⟩ := Align.round_up (start + S.stack.allocated) (2 ^ k) hpos
  have hc : alignPtr (start + S.stack.allocated) (2 ^ k) = .ok ((start + S.stack.allocated + (2 ^ k - 1)) / 2 ^ k * 2 ^ k) := by
    unfold alignPtr; rw [if_pos ⟨k, rfl⟩]
  refine ⟨_, u1, u2, u3, ?_, ?_⟩
  · intro hf
    have hnf : (start : Int) + (total : Int) < ((start + S.stack.allocated + (2 ^ k - 1)) / 2 ^ k * 2 ^ k : Nat) + (size + 8 : Nat) := by omega
    simp only [step, alloc, hi.hstart, hi.htotal, hc, except_ok_bind, if_pos hnf]
    rfl
  · intro hf
    obtain ⟨S', h1, h2, _, h4⟩ := alloc_ok hlt hi hc hf
    refine ⟨S', h1, Nat.dvd_add u1 (Nat.pow_dvd_pow 2 hk), h2, ?_⟩
    intro b hb i hi'
    have := hi.hchain.bound b hb
    exact h4 _ (by omega)

/-- **C19.**  Allocate from any reachable state, do anything that leaves the client holding the same blocks (a LIFO history,
including writes into the blocks), and free the block: the allocator is exactly in the state before the allocation, the other
blocks are still held, and nothing is written. -/
theorem C19_free_restores (start total : Nat) (m : Memory) (hlt : start + total < 2 ^ 64) (hm : Mapped m start total) (S S1 S2 : State)
    (h : Reachable start total m S) (size a p : Nat) (h1 : step S (.alloc size a) = .ok (some p, S1)) (ops : List Op) (rs : List (Option Nat))
    (h2 : run S1 ops = .ok (rs, S2)) (hl : S2.live = S1.live) :
    ∃ S3, step S2 (.free p) = .ok (none, S3) ∧ S3.stack = S.stack ∧ S3.live = S.live ∧ S3.mem = S2.mem := by
  have hi := inv_reachable hlt hm h
  have hi1 := inv_step hlt hi h1
  have hi2 := inv_run hlt ops _ _ rs hi1 h2
  have hlive : S1.live = (p, size) :: S.live := by
    obtain ⟨⟨q, s, m'⟩, g1, g2⟩ := Arena.bind_ok h1
    injection g2 with g2; injection g2 with g2 g3
    injection g2 with g2
    subst g2 g3; rfl
  obtain ⟨S3, g1, g2, g3, g4⟩ := free_ok hi2 (by rw [hl, hlive])
  exact ⟨S3, g1, stack_eq g4 hi g2, g2, g3⟩

/-- **C19.**  A whole LIFO history, one that ends with no block held, returns the allocator to its initial state. -/
theorem C19_lifo_returns_to_initial (start total : Nat) (m : Memory) (hlt : start + total < 2 ^ 64) (hm : Mapped m start total) (S : State)
    (h : Reachable start total m S) (hl : S.live = []) : S.stack = init start total :=
  stack_eq (inv_reachable hlt hm h)
    (show Inv start total (fresh start total m) from { hstart := rfl, htotal := rfl, hmap := hm, hle := Nat.zero_le _, hchain := rfl }) hl

/-- **C19 is false of the code for alignments above 8**: the 8-byte offset is stored at the aligned address and the block begins
after it, so no block is ever aligned as requested. -/
theorem C19_never_aligned_above_8 (s s' : Stack) (m m' : Memory) (size k p : Nat) (hk : 4 ≤ k)
    (h : alloc s m size (2 ^ k) = .ok (p, s', m')) : ¬ 2 ^ k ∣ p := by
  obtain ⟨c, h1, h2⟩ := Arena.bind_ok h
  obtain ⟨_, hd, _⟩ := alignPtr_spec h1
  split at h2
  · simp at h2
  · obtain ⟨m'', g1, g2⟩ := Arena.bind_ok h2
    injection g2 with g2; injection g2 with g2 _
    intro hp
    rw [← g2] at hp
    have h8 : 2 ^ k ∣ 8 := (Nat.dvd_add_right hd).mp hp
    have := Nat.le_of_dvd (by omega) h8
    have : 2 ^ 4 ≤ 2 ^ k := Nat.pow_le_pow_right (by omega) hk
    omega

/-- **The growth path is wrong**: after the backing allocator has moved the memory to `newStart`, the recorded size is the
distance between the two addresses instead of the size of the memory: whatever the old and the new size, a move downwards
leaves a stack of negative size, so that the next allocation grows again. -/
theorem C19_growth_size (s s' : Stack) (m m' m'' : Memory) (newStart size a p c : Nat) (hc : alignPtr (s.start + s.allocated) a = .ok c)
    (hfull : (s.start : Int) + s.total < c + (size + 8 : Nat)) (h : allocGrow s m m' newStart size a = .ok (p, s', m'')) :
    s'.total = (newStart : Int) - s.start := by
  simp only [allocGrow, hc, except_ok_bind, if_pos hfull] at h
  obtain ⟨c', h1, h2⟩ := Arena.bind_ok h
  obtain ⟨m3, h3, h4⟩ := Arena.bind_ok h2
  injection h4 with h4; injection h4 with _ h4; injection h4 with h4 _
  rw [← h4]

/-! ### Non-vacuity -/

def exMem : Memory := fun a => if 64 ≤ a ∧ a < 160 then some 7 else none

example : Mapped exMem 64 96 ∧ 64 + 96 < 2 ^ 64 := by refine ⟨by decide +kernel, by omega⟩

/-- A LIFO history with nested blocks and writes; the panic when memory is exhausted. -/
example : (run (fresh 64 96 exMem) [.alloc 3 8, .alloc 10 4, .write 84 9 1, .free 84, .alloc 5 1, .free 83, .free 72]).map
      (fun r => (r.1, r.2.live, r.2.stack)) =
    .ok ([some 72, some 84, none, none, some 83, none, none], [], init 64 96) := by decide +kernel

end Zpl.Stack
