import Verif.Mem.Heap
import Verif.Mem.Pool
import Verif.Mem.Stack

/-!
# Pools and stacks on the heap, and copies made on the heap — header/essentials/memory_custom.h:267-282, 402-408, 437-463,
source/essentials/memory_custom.c:207-237

`Verif.Mem.Pool` and `Verif.Mem.Stack` take the memory they work in as given.  Here it comes from the heap of `Verif.Mem.Heap`, and
goes back to it.  Not modelled: a stack that outgrows its memory and asks the backing allocator for more (`C19_growth_size` says
what is wrong with it); the histories below are those that fit.
-/
namespace Zpl.Backed
open Mem
open Heap (Policy H Live Rel Fresh Aligned SizeOk)

/-! ## Model -/

/-- `zpl_pool_init_align` with the heap as backing allocator — source/essentials/memory_custom.c:207-237: what the heap returns is
used without looking (`none` is NULL, address 0). -/
def poolInitAlign (an : Bool) (pol : Policy) (h : H) (m : Memory) (n bsize balign : Nat) : Except Fault (Pool.Pool × H × Memory) := do
  let (r, h, m) ← Heap.alloc an pol true h m (n * (bsize + balign)) balign
  let (P, m) ← Pool.init m (r.getD 0) n bsize balign
  .ok (P, h, m)

/-- `zpl_pool_init` — header/essentials/memory_custom.h:402-404: the default alignment, two words. -/
def poolInit (an : Bool) (pol : Policy) (h : H) (m : Memory) (n bsize : Nat) : Except Fault (Pool.Pool × H × Memory) :=
  poolInitAlign an pol h m n bsize 16

/-- `zpl_pool_free` — header/essentials/memory_custom.h:406-408; the pool itself is not changed. -/
def poolFree (an : Bool) (pol : Policy) (P : Pool.Pool) (h : H) (m : Memory) : Except Fault (H × Memory) :=
  (Heap.allocator an pol).free h m P.start

/-- `zpl_stack_memory_init` — header/essentials/memory_custom.h:443-448; `zpl_alloc` asks for the default alignment. -/
def stackInit (an : Bool) (pol : Policy) (h : H) (m : Memory) (size : Nat) : Except Fault (Stack.Stack × H × Memory) := do
  let (r, h, m) ← Heap.alloc an pol true h m size 16
  .ok (⟨r.getD 0, size, 0⟩, h, m)

/-- `zpl_stack_memory_free` — header/essentials/memory_custom.h:458-463, for a stack with a backing allocator. -/
def stackFree (an : Bool) (pol : Policy) (s : Stack.Stack) (h : H) (m : Memory) : Except Fault (Stack.Stack × H × Memory) := do
  let (h, m) ← (Heap.allocator an pol).free h m s.start
  .ok ({ s with start := 0 }, h, m)

/-- `zpl_stack_memory_is_in_use` — header/essentials/memory_custom.h:450-456. -/
def stackInUse (s : Stack.Stack) (p : Nat) : Bool :=
  if s.allocated = 0 then false
  else if s.start < p ∧ (p : Int) < (s.start : Int) + s.total then true
  else false

/-- `zpl_alloc_copy_align` — header/essentials/memory_custom.h:280-282: `zpl_memcopy(zpl_alloc_align(a, size, alignment), src, size)`
on the heap. -/
def allocCopyAlign (an : Bool) (pol : Policy) (h : H) (m : Memory) (src size align : Nat) : Except Fault (Option Nat × H × Memory) := do
  let (r, h, m) ← Heap.alloc an pol true h m size align
  let (d, m) ← memcopy m (r.getD 0) src size
  .ok (if d = 0 then none else some d, h, m)

/-- `zpl_alloc_copy` — header/essentials/memory_custom.h:277-279. -/
def allocCopy (an : Bool) (pol : Policy) (h : H) (m : Memory) (src size : Nat) : Except Fault (Option Nat × H × Memory) :=
  allocCopyAlign an pol h m src size 16

/-! ## Lemmas -/

theorem okBind {α β : Type} (a : α) (f : α → Except Fault β) : (Except.ok a : Except Fault α) >>= f = f a := rfl

theorem map_id_of_fresh {live : Live} {p n : Nat} (hf : Fresh live p n) (bs : List Byte) :
    live.map (fun x => if x.1 = p then (x.1, bs) else x) = live := by
  conv => rhs; rw [← List.map_id live]
  apply List.map_congr_left
  intro x hx
  exact if_neg (Ne.symm (hf.2 x hx).2)

/-- The bytes of one block change. -/
theorem rel_region {an : Bool} {h : H} {m m' : Memory} {live : Live} {p n : Nat} {bs : List Byte} (hrel : Rel an h m ((p, bs) :: live))
    (hl : bs.length = n) (hf : Fresh live p n) (hm : Mapped m' p n) (hout : ∀ x, x < p ∨ p + n ≤ x → m' x = m x) :
    ∃ bs', bs'.length = n ∧ Rel an h m' ((p, bs') :: live) := by
  subst hl
  obtain ⟨bs', b1, b2⟩ := Heap.exists_bytes hm
  refine ⟨bs', b1, ?_⟩
  have := Heap.rel_set (m' := m') (bs' := bs') hrel List.mem_cons_self b1 b2 hout
  rw [List.map_cons, if_pos rfl, map_id_of_fresh hf] at this
  exact this

/-- The block goes back. -/
theorem rel_free_head {an : Bool} {pol : Policy} {h : H} {m : Memory} {live : Live} {p n : Nat} {bs : List Byte}
    (hrel : Rel an h m ((p, bs) :: live)) (hf : Fresh live p n) :
    ∃ h' m', (Heap.allocator an pol).free h m p = .ok (h', m') ∧ Rel an h' m' live := by
  obtain ⟨h', m', e1, e2, _, _⟩ := Heap.rel_free (pol := pol) hrel List.mem_cons_self
  refine ⟨h', m', e1, ?_⟩
  rw [List.filter_cons] at e2
  rw [if_neg (show ¬ ((p, bs).1 != p) = true by simp)] at e2
  rwa [List.filter_eq_self.mpr (by intro x hx; simpa using Ne.symm (hf.2 x hx).2)] at e2

theorem rel_bounds {an : Bool} {h : H} {m : Memory} {live : Live} {p : Nat} {bs : List Byte} (hrel : Rel an h m ((p, bs) :: live)) :
    4096 ≤ p ∧ p + bs.length ≤ 2 ^ 63 := by
  obtain ⟨recs, r1, r2, r3, _⟩ := hrel
  have hin : (p, bs) ∈ recs.map (fun r => (r.p, r.bs)) := by rw [← r1]; exact List.mem_cons_self
  obtain ⟨r, hr, he⟩ := List.mem_map.mp hin
  injection he with he1 he2
  obtain ⟨o1, o2, o3, o4, _⟩ := r3 r hr
  rw [he1, he2] at o4
  omega

theorem rel_null {an : Bool} {h : H} {m : Memory} {live : Live} (hrel : Rel an h m live) : ∀ x, x < 4096 → m x = none := by
  obtain ⟨recs, r1, r2, r3, r4, r0, _⟩ := hrel
  exact r0

/-- What happens in a pool stays in its memory. -/
theorem pool_step_frame {start n bsize balign : Nat} (G : Pool.Geometry start n bsize balign) {S S' : Pool.State}
    (h : Pool.Inv start n bsize balign S) {o : Pool.Op} {r : Option Nat} (hs : Pool.step S o = .ok (r, S')) :
    ∀ x, x < start ∨ start + n * (bsize + balign) ≤ x → S'.mem x = S.mem x := by
  have h8 := G.h8
  have hblk : ∀ p ∈ S.live, p ∈ Pool.blocks start (bsize + balign) n := by
    obtain ⟨fr, _, hp⟩ := h.hfree
    exact fun p hp' => hp.subset (by simp [hp'])
  cases o with
  | alloc size align =>
    by_cases h1 : size = bsize
    · by_cases h2 : align = balign
      · subst h1 h2
        rcases Pool.alloc_cases G h with ⟨_, he⟩ | ⟨_, p, S'', he, _, _, hb, _, _, hfr⟩
        · rw [he] at hs; simp at hs
        · rw [he] at hs; injection hs with hs; injection hs with _ hs; subst hs
          have := Pool.blocks_bound hb
          intro x hx
          rw [hfr x, if_neg (by omega)]
      · simp only [Pool.step, Pool.alloc, h.hb, h.ha, h1] at hs
        simp [h2] at hs
    · simp only [Pool.step, Pool.alloc, h.hb] at hs
      simp [h1] at hs
  | free p =>
    by_cases hp : p ∈ S.live
    · obtain ⟨S'', he, _, _, _, hfr⟩ := Pool.free_ok G h hp
      rw [he] at hs; injection hs with hs; injection hs with _ hs; subst hs
      have := Pool.blocks_bound (hblk p hp)
      intro x hx
      exact hfr x (by omega)
    · simp [Pool.step, hp] at hs
  | freeAll =>
    obtain ⟨m', h1, _, _, h4⟩ := Pool.link_ok G.h8 n S.mem start G.hn G.hstart G.hlt h.hmap
    simp only [Pool.step, Pool.freeAll, Pool.Pool.stride, h.hstart, h.hb, h.ha, h.hn, h1, except_ok_bind] at hs
    injection hs with hs; injection hs with _ hs; subst hs
    exact h4
  | write p off b =>
    by_cases hc : p ∈ S.live ∧ off < bsize
    · obtain ⟨S'', he, _, _, hfr⟩ := Pool.write_ok G h hc.1 hc.2 (b := b)
      rw [he] at hs; injection hs with hs; injection hs with _ hs; subst hs
      have := Pool.blocks_bound (hblk p hc.1)
      intro x hx
      exact hfr x (by omega)
    · simp [Pool.step, h.hb, hc] at hs

theorem pool_run_frame {start n bsize balign : Nat} (G : Pool.Geometry start n bsize balign) : ∀ (ops : List Pool.Op) (S S' : Pool.State)
    (rs : List (Option Nat)), Pool.Inv start n bsize balign S → Pool.run S ops = .ok (rs, S') →
    ∀ x, x < start ∨ start + n * (bsize + balign) ≤ x → S'.mem x = S.mem x
  | [], S, S', rs, _, hr => by injection hr with hr; injection hr with _ hr; subst hr; exact fun _ _ => rfl
  | o :: os, S, S', rs, h, hr => by
    obtain ⟨⟨r, T⟩, h1, h2⟩ := Arena.bind_ok hr
    obtain ⟨⟨r', T'⟩, h3, h4⟩ := Arena.bind_ok h2
    injection h4 with h4; injection h4 with _ h4; subst h4
    intro x hx
    rw [pool_run_frame G os T _ r' (Pool.inv_step G h h1) h3 x hx, pool_step_frame G h h1 x hx]

/-- What happens in a stack stays in its memory. -/
theorem stack_step_frame {start total : Nat} (hlt : start + total < 2 ^ 64) {S S' : Stack.State} (h : Stack.Inv start total S)
    {o : Stack.Op} {r : Option Nat} (hs : Stack.step S o = .ok (r, S')) :
    ∀ x, x < start ∨ start + total ≤ x → S'.mem x = S.mem x := by
  cases o with
  | alloc size a =>
    cases hc : Arena.alignPtr (start + S.stack.allocated) a with
    | error e => simp [Stack.step, Stack.alloc, h.hstart, hc] at hs
    | ok c =>
      by_cases hfit : c + 8 + size ≤ start + total
      · obtain ⟨T, h1, _, _, h2⟩ := Stack.alloc_ok hlt h hc hfit
        obtain ⟨_, _, hle⟩ := Stack.alignPtr_spec hc
        rw [h1] at hs; injection hs with hs; injection hs with _ hs; subst hs
        intro x hx
        exact h2 x (by omega)
      · have hnf : (start : Int) + (total : Int) < c + (size + 8 : Nat) := by omega
        simp only [Stack.step, Stack.alloc, h.hstart, h.htotal, hc, except_ok_bind, if_pos hnf] at hs
        simp at hs
  | free p =>
    cases hl : S.live with
    | nil => simp [Stack.step, hl] at hs
    | cons x rest =>
      obtain ⟨q, n⟩ := x
      by_cases hpq : p = q
      · subst hpq
        obtain ⟨T, h1, _, h2, _⟩ := Stack.free_ok h hl
        rw [h1] at hs; injection hs with hs; injection hs with _ hs; subst hs
        intro x _; rw [h2]
      · simp [Stack.step, hl, hpq] at hs
  | freeAll =>
    injection hs with hs; injection hs with _ hs; subst hs
    exact fun _ _ => rfl
  | write p off b =>
    by_cases hc : S.live.any (fun x => x.1 == p && decide (off < x.2)) = true
    · obtain ⟨⟨q, n⟩, hm, hb⟩ := List.any_eq_true.mp hc
      simp only [Bool.and_eq_true, beq_iff_eq, decide_eq_true_eq] at hb
      obtain ⟨rfl, hb⟩ := hb
      obtain ⟨T, h1, _, _, _, h2⟩ := Stack.write_ok h hm hb (b := b)
      have hbd := h.hchain.bound _ hm
      have hal := h.hle
      rw [h1] at hs; injection hs with hs; injection hs with _ hs; subst hs
      simp only at hbd
      intro x hx
      exact h2 x (by omega)
    · simp only [Stack.step, if_neg hc] at hs
      simp at hs

theorem stack_run_frame {start total : Nat} (hlt : start + total < 2 ^ 64) : ∀ (ops : List Stack.Op) (S S' : Stack.State)
    (rs : List (Option Nat)), Stack.Inv start total S → Stack.run S ops = .ok (rs, S') →
    ∀ x, x < start ∨ start + total ≤ x → S'.mem x = S.mem x
  | [], S, S', rs, _, hr => by injection hr with hr; injection hr with _ hr; subst hr; exact fun _ _ => rfl
  | o :: os, S, S', rs, h, hr => by
    obtain ⟨⟨r, T⟩, h1, h2⟩ := Arena.bind_ok hr
    obtain ⟨⟨r', T'⟩, h3, h4⟩ := Arena.bind_ok h2
    injection h4 with h4; injection h4 with _ h4; subst h4
    intro x hx
    rw [stack_run_frame hlt os T _ r' (Stack.inv_step hlt h h1) h3 x hx, stack_step_frame hlt h h1 x hx]

theorem linkAll_null {m : Memory} (hm : ∀ x, x < 4096 → m x = none) (stride n : Nat) : Pool.linkAll m 0 stride n = .error .oob := by
  have h0 : ∀ v, st64w m 0 v = .error .oob := by
    intro v
    simp only [st64w, wordLE, List.range, List.range.loop, List.map_cons, List.map_nil, stN, st, hm 0 (by omega), except_error_bind]
  unfold Pool.linkAll
  cases n - 1 with
  | zero => rw [Pool.linkLoop, okBind]; exact h0 0
  | succ k => rw [Pool.linkLoop, h0]; rfl

/-! ## Properties -/

/-- **C152.**  A pool on the heap.  From any state of the heap in which a client owns the blocks `live`, a pool that is made lies in a block
of its own; whatever is then done with the pool, the client's other blocks keep their bytes and the heap remains in order; and
freeing the pool gives all its memory back: the client owns exactly `live` again, with the same bytes, and the statistics say so
(`Rel` says all this, see `C152_rel`). -/
theorem C152_pool (an : Bool) (pol : Policy) (hp : pol.Ok) (h h1 : H) (m m1 : Memory) (live : Live) (hrel : Rel an h m live)
    (n bsize balign : Nat) (hn : 0 < n) (h8 : 8 ≤ bsize + balign) (hsz : SizeOk (n * (bsize + balign)) balign) (P : Pool.Pool)
    (hi : poolInitAlign an pol h m n bsize balign = .ok (P, h1, m1)) :
    Fresh live P.start (n * (bsize + balign)) ∧ Aligned balign P.start ∧
    ∀ (ops : List Pool.Op) (rs : List (Option Nat)) (S : Pool.State), Pool.run ⟨P, m1, []⟩ ops = .ok (rs, S) →
      (∃ bs, bs.length = n * (bsize + balign) ∧ Rel an h1 S.mem ((P.start, bs) :: live)) ∧
      ∃ h2 m2, poolFree an pol S.pool h1 S.mem = .ok (h2, m2) ∧ Rel an h2 m2 live := by
  unfold poolInitAlign at hi
  rcases Heap.rel_alloc_any (clear := true) hp hrel hsz with ⟨p, bs, h', m', e1, e2, e3, e4, e5, _, _, e8⟩ | ⟨_, h', e1, e2⟩ | ⟨_, _, e1⟩
  · rw [e1, okBind] at hi
    simp only [Option.getD_some] at hi
    have hb := rel_bounds e2
    have G : Pool.Geometry p n bsize balign := ⟨hn, by omega, h8, by omega⟩
    obtain ⟨P0, m0, g1, g2⟩ := Pool.inv_init G e8
    obtain ⟨ml, l1, _, _, l4⟩ := Pool.link_ok G.h8 n m' p G.hn G.hstart G.hlt e8
    have g3 : Pool.init m' p n bsize balign = .ok (⟨p, p, bsize, balign, n, 0⟩, ml) := by simp only [Pool.init, l1, except_ok_bind]
    rw [g1] at g3
    injection g3 with g3; injection g3 with g3 g4
    rw [g1, okBind] at hi
    injection hi with hi; injection hi with hi1 hi2; injection hi2 with hi2 hi3
    subst hi1 hi2 hi3
    have hst : P0.start = p := g2.hstart
    rw [hst]
    refine ⟨e3, e4, ?_⟩
    intro ops rs S hr
    have hI := Pool.inv_run G ops _ _ rs g2 hr
    have hF := pool_run_frame G ops _ _ rs g2 hr
    obtain ⟨bs', b1, b2⟩ := rel_region e2 e5 e3 hI.hmap (fun x hx => by rw [hF x hx]; show m0 x = m' x; rw [g4]; exact l4 x hx)
    refine ⟨⟨bs', b1, b2⟩, ?_⟩
    unfold poolFree
    rw [hI.hstart]
    exact rel_free_head b2 e3
  · rw [e1, okBind] at hi
    simp only [Option.getD_none, Pool.init, linkAll_null (rel_null e2), except_error_bind] at hi
    exact absurd hi nofun
  · rw [e1] at hi; exact absurd hi nofun

/-- **C152.**  When is a pool made: always, unless the operating system refuses the memory. -/
theorem C152_pool_made (an : Bool) (pol : Policy) (hp : pol.Ok) (h : H) (m : Memory) (live : Live) (hrel : Rel an h m live)
    (n bsize balign : Nat) (hn : 0 < n) (h8 : 8 ≤ bsize + balign) (hsz : SizeOk (n * (bsize + balign)) balign)
    (hos : ∀ k a, pol.pick h.tick h.blocks k a ≠ none) : ∃ P h1 m1, poolInitAlign an pol h m n bsize balign = .ok (P, h1, m1) := by
  unfold poolInitAlign
  obtain ⟨a, ha⟩ : ∃ a, a = if balign = 0 then 16 else balign := ⟨_, rfl⟩
  cases hpick : pol.pick h.tick h.blocks (Heap.roundUp (if an then n * (bsize + balign) + (max 16 a + 16 % a) else n * (bsize + balign)) a) a with
  | none => exact absurd hpick (hos _ _)
  | some Q =>
    obtain ⟨p, bs, h', m', e1, e2, e3, e4, e5, _, _, e8⟩ := Heap.rel_alloc (clear := true) hp hrel hsz ha hpick
    have hb := rel_bounds e2
    have G : Pool.Geometry p n bsize balign := ⟨hn, by omega, h8, by omega⟩
    obtain ⟨P0, m0, g1, _⟩ := Pool.inv_init G e8
    refine ⟨P0, h', m0, ?_⟩
    rw [e1, okBind]
    simp only [Option.getD_some]
    rw [g1]; rfl

/-- **C152, refuted** for an operating system that refuses: `zpl_pool_init` does not look at what it got, and writes its list of free
blocks to the null pointer. -/
theorem C152_pool_refused (an : Bool) (pol : Policy) (h : H) (m : Memory) (live : Live) (hrel : Rel an h m live) (n bsize balign : Nat)
    (hos : ∀ k a, pol.pick h.tick h.blocks k a = none) : poolInitAlign an pol h m n bsize balign = .error .oob := by
  unfold poolInitAlign
  cases an with
  | false =>
    rw [Heap.alloc_none rfl (hos _ _), okBind]
    simp only [Option.getD_none, Pool.init, linkAll_null (rel_null hrel), except_error_bind]
  | true =>
    rw [Heap.C111_analysis_failure_crashes pol true h m _ balign _ rfl (fun x hx => rel_null hrel x (by omega)) (hos _ _)]
    rfl

/-- **C152.**  A stack on the heap, the same way; the histories are those in which the stack does not outgrow its memory.  Freeing the
stack a second time does nothing. -/
theorem C152_stack (an : Bool) (pol : Policy) (hp : pol.Ok) (h h1 : H) (m m1 : Memory) (live : Live) (hrel : Rel an h m live)
    (size : Nat) (hsz : size < 2 ^ 61) (s : Stack.Stack) (hi : stackInit an pol h m size = .ok (s, h1, m1)) (h0 : s.start ≠ 0) :
    Fresh live s.start size ∧ s = Stack.init s.start size ∧ Mapped m1 s.start size ∧
    ∀ (ops : List Stack.Op) (rs : List (Option Nat)) (S : Stack.State), Stack.run ⟨s, m1, []⟩ ops = .ok (rs, S) →
      (∃ bs, bs.length = size ∧ Rel an h1 S.mem ((s.start, bs) :: live)) ∧
      ∃ s2 h2 m2, stackFree an pol S.stack h1 S.mem = .ok (s2, h2, m2) ∧ Rel an h2 m2 live ∧ stackFree an pol s2 h2 m2 = .ok (s2, h2, m2) := by
  unfold stackInit at hi
  rcases Heap.rel_alloc_any (clear := true) hp hrel (show SizeOk size 16 from ⟨hsz, Or.inr ⟨4, by omega, rfl⟩⟩) with
    ⟨p, bs, h', m', e1, e2, e3, e4, e5, _, _, e8⟩ | ⟨_, h', e1, e2⟩ | ⟨_, _, e1⟩
  · rw [e1, okBind] at hi
    simp only [Option.getD_some] at hi
    injection hi with hi; injection hi with hi1 hi2; injection hi2 with hi2 hi3
    subst hi1 hi2 hi3
    have hb := rel_bounds e2
    have hlt : p + size < 2 ^ 64 := by omega
    refine ⟨e3, rfl, e8, ?_⟩
    intro ops rs S hr
    have hI0 : Stack.Inv p size ⟨⟨p, size, 0⟩, m', []⟩ := { hstart := rfl, htotal := rfl, hmap := e8, hle := Nat.zero_le _, hchain := rfl }
    have hI := Stack.inv_run hlt ops _ _ rs hI0 hr
    have hF := stack_run_frame hlt ops _ _ rs hI0 hr
    obtain ⟨bs', b1, b2⟩ := rel_region e2 e5 e3 hI.hmap hF
    refine ⟨⟨bs', b1, b2⟩, ?_⟩
    obtain ⟨h2, m2, f1, f2⟩ := rel_free_head (pol := pol) b2 e3
    refine ⟨{ S.stack with start := 0 }, h2, m2, ?_, f2, rfl⟩
    unfold stackFree
    rw [hI.hstart, f1]; rfl
  · rw [e1, okBind] at hi
    simp only [Option.getD_none] at hi
    injection hi with hi; injection hi with hi1 _
    subst hi1
    exact absurd rfl h0
  · rw [e1] at hi; exact absurd hi nofun

/-- **C152, refuted** for an operating system that refuses (without the analysis): the stack is made all the same, on the null pointer,
and the first block that fits writes there. -/
theorem C152_stack_refused (pol : Policy) (h : H) (m : Memory) (live : Live) (hrel : Rel false h m live) (size : Nat)
    (hos : ∀ k a, pol.pick h.tick h.blocks k a = none) :
    ∃ h1, stackInit false pol h m size = .ok (Stack.init 0 size, h1, m) ∧
      ∀ k j, j + 8 ≤ size → Stack.alloc (Stack.init 0 size) m j (2 ^ k) = .error .oob := by
  refine ⟨{ h with tick := h.tick + 1 }, ?_, ?_⟩
  · unfold stackInit
    rw [Heap.alloc_none rfl (hos _ _)]
    rfl
  · intro k j hj
    have hc : Arena.alignPtr 0 (2 ^ k) = .ok 0 := by
      unfold Arena.alignPtr
      rw [if_pos ⟨k, rfl⟩]
      have := Nat.two_pow_pos k
      rw [Nat.div_eq_of_lt (by omega), Nat.zero_mul]
    unfold Stack.alloc
    simp only [Stack.init, Nat.add_zero, hc, except_ok_bind]
    simp only [Stack.place, st64w, wordLE, List.range, List.range.loop, List.map_cons, List.map_nil, stN, st, rel_null hrel 0 (by omega), except_error_bind]
    split
    · omega
    · rfl

/-- What `Rel` says, in terms of the memory and the statistics: every byte of every block owned is in memory, the operating system has as
many live blocks as the client, and with the analysis the statistics count the blocks and their bytes. -/
theorem C152_rel (an : Bool) (h : H) (m : Memory) (live : Live) (hrel : Rel an h m live) :
    (∀ x ∈ live, x.1 ≠ 0 ∧ ∀ i, i < x.2.length → m (x.1 + i) = x.2[i]?) ∧ h.blocks.length = live.length ∧
    h.used = (if an then Heap.bytesOwned live else 0) ∧ h.count = (if an then (live.length : Int) else 0) := by
  refine ⟨fun x hx => Heap.rel_byte hrel hx, ?_⟩
  obtain ⟨recs, r1, r2, r3, r4, r0, r5, r6⟩ := hrel
  exact ⟨by rw [r1, r2, List.length_map, List.length_map], r5, r6⟩

/-- **C153.**  In every state a client can reach, `zpl_stack_memory_is_in_use` says yes exactly for the addresses strictly inside the
stack's memory while the client holds a block. -/
theorem C153_in_use (start total : Nat) (m : Memory) (hlt : start + total < 2 ^ 64) (hm : Mapped m start total) (S : Stack.State)
    (h : Stack.Reachable start total m S) (p : Nat) :
    stackInUse S.stack p = true ↔ S.live ≠ [] ∧ start < p ∧ p < start + total := by
  have hi := Stack.inv_reachable hlt hm h
  have hnil : S.stack.allocated = 0 ↔ S.live = [] := by
    have hc := hi.hchain
    constructor
    · intro h0
      rw [h0] at hc
      cases hl : S.live with
      | nil => rfl
      | cons x r =>
        rw [hl] at hc
        obtain ⟨q, k⟩ := x
        obtain ⟨prev, h1, h2, _⟩ := hc
        omega
    · intro hl
      rw [hl] at hc
      exact hc
  unfold stackInUse
  rw [hi.hstart, hi.htotal]
  by_cases h0 : S.stack.allocated = 0
  · rw [if_pos h0]; exact ⟨nofun, fun hh => absurd (hnil.mp h0) hh.1⟩
  · rw [if_neg h0]
    have hl : S.live ≠ [] := fun e => h0 (hnil.mpr e)
    by_cases hin : start < p ∧ (p : Int) < (start : Int) + (total : Int)
    · rw [if_pos hin]; exact ⟨fun _ => ⟨hl, hin.1, by omega⟩, fun _ => rfl⟩
    · rw [if_neg hin]; exact ⟨nofun, fun hh => absurd ⟨hh.2.1, by omega⟩ hin⟩

/-- **C153 (partial).**  It says yes for every byte of every block held, and for nothing when no block is held or outside the stack's
memory.  Missing from the full property: that it says no for the bytes that are free, see `C153_free_bytes`. -/
theorem C153_held_partial (start total : Nat) (m : Memory) (hlt : start + total < 2 ^ 64) (hm : Mapped m start total) (S : Stack.State)
    (h : Stack.Reachable start total m S) :
    (∀ b ∈ S.live, ∀ i, i < b.2 → stackInUse S.stack (b.1 + i) = true) ∧ (S.live = [] → ∀ p, stackInUse S.stack p = false) ∧
    ∀ p, p < start ∨ start + total ≤ p → stackInUse S.stack p = false := by
  have hi := Stack.inv_reachable hlt hm h
  have key := C153_in_use start total m hlt hm S h
  have no : ∀ p, ¬ (S.live ≠ [] ∧ start < p ∧ p < start + total) → stackInUse S.stack p = false := by
    intro p hp
    cases he : stackInUse S.stack p with
    | false => rfl
    | true => exact absurd ((key p).mp he) hp
  refine ⟨?_, ?_, ?_⟩
  · intro b hb i hib
    have h1 := hi.hchain.bound b hb
    have h2 := hi.hle
    exact (key _).mpr ⟨fun e => (by rw [e] at hb; cases hb), by omega, by omega⟩
  · intro hl p
    exact no p (fun hh => hh.1 hl)
  · intro p hp
    exact no p (fun hh => by omega)

/-- **C153, refuted.**  With a block held, every free byte behind the blocks is said to be in use too. -/
theorem C153_free_bytes (start total : Nat) (m : Memory) (hlt : start + total < 2 ^ 64) (hm : Mapped m start total) (S : Stack.State)
    (h : Stack.Reachable start total m S) (hl : S.live ≠ []) (p : Nat) (h1 : start + S.stack.allocated ≤ p) (h2 : p < start + total) :
    (∀ b ∈ S.live, b.1 + b.2 ≤ p) ∧ stackInUse S.stack p = true := by
  have hi := Stack.inv_reachable hlt hm h
  have hb : ∀ b ∈ S.live, start + 8 ≤ b.1 ∧ b.1 + b.2 ≤ start + S.stack.allocated := hi.hchain.bound
  refine ⟨fun b hb' => by have := hb b hb'; omega, (C153_in_use start total m hlt hm S h p).mpr ⟨hl, ?_, h2⟩⟩
  cases hl' : S.live with
  | nil => exact absurd hl' hl
  | cons x r =>
    have := hb x (by rw [hl']; exact List.mem_cons_self)
    omega

/-- **C154.**  `zpl_alloc_copy_align` on the heap, for a source inside a block the client owns: either a fresh block, aligned as the heap
aligns, that holds the bytes of the source, while every block owned keeps its bytes; or NULL and nothing changed, if the
operating system refuses; or with the analysis the crash of `C111_analysis_failure_crashes`. -/
theorem C154_copy (an : Bool) (pol : Policy) (hp : pol.Ok) (h : H) (m : Memory) (live : Live) (hrel : Rel an h m live)
    (q off size align : Nat) (bs : List Byte) (hin : (q, bs) ∈ live) (hle : off + size ≤ bs.length) (hsz : SizeOk size align) :
    (∃ p h' m', allocCopyAlign an pol h m (q + off) size align = .ok (some p, h', m') ∧
      Rel an h' m' ((p, (bs.drop off).take size) :: live) ∧ Fresh live p size ∧ Aligned align p) ∨
    (an = false ∧ pol.CanFail ∧ ∃ h', allocCopyAlign an pol h m (q + off) size align = .ok (none, h', m) ∧ Rel an h' m live) ∨
    (an = true ∧ pol.CanFail ∧ allocCopyAlign an pol h m (q + off) size align = .error .oob) := by
  unfold allocCopyAlign
  rcases Heap.rel_alloc_any (clear := true) hp hrel hsz with ⟨p, bz, h', m', e1, e2, e3, e4, e5, _, e7, e8⟩ | ⟨hcf, h', e1, e2⟩ | ⟨ha, ⟨k, a, hpk⟩, e1⟩
  · refine Or.inl ⟨p, h', copied m' p (q + off) size, ?_, ?_, e3, e4⟩
    · rw [e1, okBind]
      simp only [Option.getD_some]
      have hb := Heap.rel_byte e2 (List.mem_cons_of_mem (p, bz) hin)
      have hfr := e3.2 _ hin
      simp only at hfr
      rw [C10_memcopy m' p (q + off) size e3.1 (by
        intro i hi
        rw [Nat.add_assoc, hb.2 (off + i) (by omega), List.getElem?_eq_getElem (by omega)]; rfl) e8 (by omega), okBind]
      simp only [if_neg e3.1]
    · have hb := Heap.rel_byte e2 (List.mem_cons_of_mem (p, bz) hin)
      have := Heap.rel_set (m' := copied m' p (q + off) size) (bs' := (bs.drop off).take size) e2 List.mem_cons_self
        (by rw [List.length_take, List.length_drop]; omega) (by
          intro i hi
          rw [e5] at hi
          rw [(C10_copied_bytes m' p (q + off) size).1 i hi, Nat.add_assoc, hb.2 (off + i) (by omega), List.getElem?_take, if_pos hi,
            List.getElem?_drop]) (by
          intro x hx
          rw [e5] at hx
          exact (C10_copied_bytes m' p (q + off) size).2 x hx)
      rw [List.map_cons, if_pos rfl, map_id_of_fresh e3] at this
      exact this
  · refine Or.inr (Or.inl ⟨hcf.1, hcf.2, h', ?_, e2⟩)
    rw [e1, okBind]
    rfl
  · refine Or.inr (Or.inr ⟨ha, ⟨_, _, _, _, hpk⟩, ?_⟩)
    rw [e1]; rfl

/-! ### Non-vacuity -/

/-- The empty heap. -/
theorem rel_empty (an : Bool) : Rel an ⟨[], 0, 0, 0⟩ (fun _ => none) [] :=
  ⟨[], rfl, rfl, nofun, List.Pairwise.nil, fun _ _ => rfl, by cases an <;> rfl, by cases an <;> rfl⟩

/-- A pool of three blocks is made, used and freed: addresses, statistics in between, and after. -/
def exPool (an : Bool) : Nat × List (Option Nat) × Int × Int × List (Nat × Nat) := ((Except.toOption do
  let (P, h, m) ← poolInit an Heap.bump ⟨[], 0, 0, 0⟩ (fun _ => none) 3 24
  let (rs, S) ← Pool.run ⟨P, m, []⟩ [.alloc 24 16, .alloc 24 16, .write P.start 3 9, .free P.start]
  let (h', _) ← poolFree an Heap.bump S.pool h S.mem
  .ok (P.start, rs, h.used, h'.used, h'.blocks)) : Option _).getD (0, [], 1, 1, [])

example : exPool true = (4128, [some 4128, some 4168, none, none], 120, 0, []) ∧
    exPool false = (4112, [some 4112, some 4152, none, none], 0, 0, []) ∧ Heap.bump.Ok ∧
    SizeOk (3 * (24 + 16)) 16 ∧ Rel true ⟨[], 0, 0, 0⟩ (fun _ => none) [] :=
  ⟨by decide +kernel, by decide +kernel, Heap.bump_ok, ⟨by omega, Or.inr ⟨4, by omega, rfl⟩⟩, rel_empty true⟩

/-- An operating system that refuses everything. -/
def never : Policy := ⟨fun _ _ _ _ => none, fun _ _ => 0⟩

example : (poolInit false never ⟨[], 0, 0, 0⟩ (fun _ => none) 3 24).map (fun r => r.1) = .error .oob ∧
    ∀ k a, never.pick 0 [] k a = none := ⟨by decide +kernel, fun _ _ => rfl⟩

/-- A stack, and a copy of what was written into it, after which the stack is freed twice. -/
def exStack : Nat × List (Option Nat) × List Bool × List Nat × List (Nat × Nat) := ((Except.toOption do
  let (s, h, m) ← stackInit true Heap.bump ⟨[], 0, 0, 0⟩ (fun _ => none) 64
  let before := stackInUse s (s.start + 9)
  let (rs, S) ← Stack.run ⟨s, m, []⟩ [.alloc 5 8, .write (s.start + 8) 2 7]
  let held := stackInUse S.stack (s.start + 10)
  let free := stackInUse S.stack (s.start + 40)
  let (r, h, m) ← allocCopy true Heap.bump h S.mem (s.start + 8) 5
  let (s, h, m) ← stackFree true Heap.bump S.stack h m
  let (_, h, m) ← stackFree true Heap.bump s h m
  .ok (S.stack.start, rs, [before, held, free], [r.getD 0, ((m (r.getD 0 + 2)).getD 0).toNat], h.blocks)) : Option _).getD (0, [], [], [], [])

example : exStack = (4128, [some 4136, none], [false, true, true], [4224, 7], [(4208, 32)]) := by decide +kernel

end Zpl.Backed

