import Verif.Sys.Bits

/-!
# Processors (code/source/threading/affinity.c)  -  C135

The answers of the system are parameters: on Windows the list of processor relations, on macOS the two counts, on Linux the number of processors.

## Model -/

namespace Zpl.Affinity

open Zpl

/-- affinity.h:8-16, 20-25 `zpl_affinity`.  `masks` has the cells that were set (Windows); `threadsPerCore` is for the other systems. -/
structure Aff where
  isAccurate : Bool := false
  coreCount : Int := 0
  threadCount : Int := 0
  masks : List (BitVec 64) := []
  threadsPerCore : Int := 0
  deriving DecidableEq, Repr

/-- affinity.h:13 `ZPL_WIN32_MAX_THREADS`. -/
def maxThreads : Int := 64

/-- affinity.c:30-46: one entry of the list of the system; the flag says whether the entry is about a core. -/
def winEntry (a : Aff) (e : Bool × BitVec 64) : Except Fault Aff :=
  if e.1 then do
    let thread ← Bits.countSetBits e.2
    if thread = 0 then .ok { a with isAccurate := false }
    else if a.threadCount + thread > maxThreads then .ok { a with isAccurate := false }
    else if ¬ (a.coreCount ≤ a.threadCount ∧ a.threadCount < maxThreads) then .error .assertion
    else if ¬ (a.masks.length < 64) then .error .oob
    else .ok { a with masks := a.masks ++ [e.2], coreCount := a.coreCount + 1, threadCount := a.threadCount + thread }
  else .ok a

/-- affinity.c:27-47 the loop. -/
def winLoop (a : Aff) : List (Bool × BitVec 64) → Except Fault Aff
  | [] => .ok a
  | e :: es => do
    let a ← winEntry a e
    winLoop a es

/-- affinity.c:12-62 `zpl_affinity_init` on Windows; `none` when the system gives no list. -/
def winInit (answer : Option (List (Bool × BitVec 64))) : Except Fault Aff := do
  let a ← match answer with
    | none => Except.ok {}
    | some es => winLoop { isAccurate := true } es
  if ¬ (a.coreCount ≤ a.threadCount) then .error .assertion
  else if a.threadCount = 0 then .ok { a with isAccurate := false, coreCount := 1, threadCount := 1, masks := [1] }
  else .ok a

/-- affinity.c:82-85 `zpl_affinity_thread_count_for_core` on Windows. -/
def winThreadCountForCore (a : Aff) (core : Int) : Except Fault Int :=
  if ¬ (0 ≤ core ∧ core < a.coreCount) then .error .assertion
  else
    match a.masks[core.toNat]? with
    | none => .error .oob
    | some m => (fun n => (n : Int)) <$> Bits.countSetBits m

/-- affinity.c:72-80: the loop of `zpl_affinity_set`; the result is the mask given to the system. -/
def setLoop (available : BitVec 64) : Nat → BitVec 64 → Int → Except Fault (BitVec 64)
  | 0, _, _ => .error .diverge
  | fuel + 1, check, thread =>
    if available &&& check ≠ 0 then
      if thread = 0 then .ok check else setLoop available fuel (check <<< 1) (thread - 1)
    else setLoop available fuel (check <<< 1) thread

/-- affinity.c:68-81 `zpl_affinity_set` on Windows: the mask given to the system. -/
def winSet (fuel : Nat) (a : Aff) (core thread : Int) : Except Fault (BitVec 64) := do
  let n ← winThreadCountForCore a core
  if ¬ (thread < n) then .error .assertion
  else
    match a.masks[core.toNat]? with
    | none => .error .oob
    | some m => setLoop m fuel 1 thread

/-- affinity.c:88-114 `zpl_affinity_init` on macOS; `none` when the system gives no count. -/
def macInit (logical physical : Option Nat) : Aff :=
  let a : Aff := { isAccurate := false, threadCount := 1, coreCount := 1, threadsPerCore := 1 }
  match logical with
  | none => a
  | some n =>
    if n > 0 then
      let a : Aff := { a with threadCount := n }
      match physical with
      | none => a
      | some c =>
        if c > 0 then
          let a : Aff := { a with coreCount := c, threadsPerCore := a.threadCount.tdiv c }
          if a.threadsPerCore < 1 then { a with threadsPerCore := 1 } else { a with isAccurate := true }
        else a
    else a

/-- affinity.c:119-133 `zpl_affinity_set` on macOS: the tag given to the system. -/
def macSet (a : Aff) (core thread : Int) : Except Fault Int :=
  if ¬ core < a.coreCount then .error .assertion
  else if ¬ thread < a.threadsPerCore then .error .assertion
  else .ok (core * a.threadsPerCore + thread)

/-- affinity.c:141-148 `zpl_affinity_init` on Linux; the answer of `sysconf`. -/
def linuxInit (answer : Int) : Aff :=
  let a : Aff := { coreCount := answer, threadsPerCore := 1 }
  let a : Aff := { a with isAccurate := decide (a.coreCount > 0) }
  let a : Aff := { a with coreCount := if a.isAccurate then a.coreCount else 1 }
  { a with threadCount := a.coreCount }

/-- affinity.c:154-159 `zpl_affinity_set` on Linux: the requests made to the system, and what is returned. -/
def linuxSet (_ : Aff) (_ _ : Int) : List (Int × Int) × Bool := ([], true)

/-- affinity.c:135-138, 161-164 `zpl_affinity_thread_count_for_core` elsewhere. -/
def threadCountForCore (a : Aff) (core : Int) : Except Fault Int := if ¬ (0 ≤ core ∧ core < a.coreCount) then .error .assertion else .ok a.threadsPerCore

/-! ## Specification -/

/-- The places of the bits of a mask, in order. -/
def places (m : BitVec 64) : List Nat := (List.range 64).filter fun i => m.getLsbD i

/-- The masks of the cores that are taken: those with processors, as long as they fit into 64. -/
def taken : Nat → List (BitVec 64) → List (BitVec 64)
  | _, [] => []
  | n, m :: ms => if places m = [] ∨ n + (places m).length > 64 then taken n ms else m :: taken (n + (places m).length) ms

/-- The masks of the cores in the list of the system. -/
def cores (es : List (Bool × BitVec 64)) : List (BitVec 64) := (es.filter fun e => e.1).map fun e => e.2

/-! ## Lemmas -/

theorem count_places (m : BitVec 64) : Bits.countSetBits m = .ok (places m).length := by
  rw [Bits.C112_count_set_bits, List.countP_eq_length_filter]
  rfl

theorem places_pos {m : BitVec 64} (h : places m ≠ []) : 0 < (places m).length := by
  cases hp : places m with
  | nil => exact absurd hp h
  | cons x l => simp

def total (ms : List (BitVec 64)) : Nat := (ms.map fun m => (places m).length).sum

structure Good (a : Aff) : Prop where
  cores : a.coreCount = a.masks.length
  threads : a.threadCount = total a.masks
  nonzero : ∀ m ∈ a.masks, places m ≠ []
  fits : total a.masks ≤ 64

theorem length_le_total : ∀ {ms : List (BitVec 64)}, (∀ m ∈ ms, places m ≠ []) → ms.length ≤ total ms
  | [], _ => by simp [total]
  | m :: ms, h => by
    have h1 := places_pos (h m (by simp))
    have h2 := length_le_total (ms := ms) (fun x hx => h x (by simp [hx]))
    have h3 : total (m :: ms) = (places m).length + total ms := by simp [total]
    rw [List.length_cons]
    omega

theorem total_append (xs ys : List (BitVec 64)) : total (xs ++ ys) = total xs + total ys := by simp [total]

theorem winEntry_ok {a : Aff} (h : Good a) (e : Bool × BitVec 64) :
    ∃ a', winEntry a e = .ok a' ∧ Good a' ∧ a'.masks = (if e.1 = true ∧ places e.2 ≠ [] ∧ total a.masks + (places e.2).length ≤ 64 then a.masks ++ [e.2] else a.masks) ∧
      (a'.isAccurate = true ↔ a.isAccurate = true ∧ (e.1 = true → places e.2 ≠ [] ∧ total a.masks + (places e.2).length ≤ 64)) := by
  obtain ⟨b, m⟩ := e
  unfold winEntry
  dsimp only
  cases b with
  | false => exact ⟨a, rfl, h, by simp, by simp⟩
  | true =>
    rw [if_pos rfl, count_places]
    show ∃ a', (if (places m).length = 0 then _ else _) = _ ∧ _
    by_cases hp : places m = []
    · rw [if_pos (by rw [hp]; rfl)]
      exact ⟨_, rfl, ⟨h.cores, h.threads, h.nonzero, h.fits⟩, by simp [hp], by simp [hp]⟩
    · have hpos := places_pos hp
      rw [if_neg (by omega)]
      by_cases hf : total a.masks + (places m).length ≤ 64
      · have hl := length_le_total h.nonzero
        rw [if_neg (by rw [h.threads]; unfold maxThreads; omega), if_neg (by rw [h.cores, h.threads]; unfold maxThreads; omega), if_neg (by omega)]
        refine ⟨_, rfl, ⟨?_, ?_, ?_, ?_⟩, ?_, ?_⟩
        · dsimp only
          rw [h.cores, List.length_append]
          simp
        · dsimp only
          rw [h.threads, total_append]
          simp [total]
        · intro x hx
          rcases List.mem_append.1 hx with hx | hx
          · exact h.nonzero x hx
          · rw [List.mem_singleton] at hx
            rw [hx]
            exact hp
        · dsimp only
          rw [total_append]
          simpa [total] using hf
        · rw [if_pos ⟨rfl, hp, hf⟩]
        · dsimp only
          exact ⟨fun h => ⟨h, fun _ => ⟨hp, hf⟩⟩, fun h => h.1⟩
      · rw [if_pos (by rw [h.threads]; unfold maxThreads; omega)]
        refine ⟨_, rfl, ⟨h.cores, h.threads, h.nonzero, h.fits⟩, ?_, ?_⟩
        · rw [if_neg (fun h => hf h.2.2)]
        · dsimp only
          constructor
          · intro h; cases h
          · intro h; exact absurd (h.2 rfl).2 hf

theorem taken_length : ∀ (ms : List (BitVec 64)) (n : Nat), (taken n ms).length ≤ ms.length
  | [], n => by simp [taken]
  | y :: ys, n => by
    rw [taken]
    split
    · have := taken_length ys n; simp only [List.length_cons]; omega
    · have := taken_length ys (n + (places y).length); simp only [List.length_cons]; omega

theorem winLoop_ok : ∀ (es : List (Bool × BitVec 64)) {a : Aff}, Good a →
    ∃ a', winLoop a es = .ok a' ∧ Good a' ∧ a'.masks = a.masks ++ taken (total a.masks) (cores es) ∧
      (a'.isAccurate = true ↔ a.isAccurate = true ∧ taken (total a.masks) (cores es) = cores es)
  | [], a, h => ⟨a, rfl, h, by simp [cores, taken], by simp [cores, taken]⟩
  | e :: es, a, h => by
    obtain ⟨a1, h1, g1, m1, x1⟩ := winEntry_ok h e
    obtain ⟨a2, h2, g2, m2, x2⟩ := winLoop_ok es g1
    refine ⟨a2, ?_, g2, ?_, ?_⟩
    · rw [winLoop, h1]
      exact h2
    all_goals
      obtain ⟨b, m⟩ := e
      cases b
      · have hc : cores ((false, m) :: es) = cores es := by simp [cores]
        rw [hc]
        rw [if_neg (by simp)] at m1
        rw [m1] at m2 x2
        first
        | exact m2
        | rw [x2, x1]; simp
      · have hc : cores ((true, m) :: es) = m :: cores es := by simp [cores]
        rw [hc, taken]
        dsimp only at m1 x1
        by_cases hp : places m ≠ [] ∧ total a.masks + (places m).length ≤ 64
        · rw [if_pos ⟨rfl, hp⟩] at m1
          rw [if_neg (fun h => h.elim (fun h => hp.1 h) (fun h => by have := hp.2; omega))]
          have ht : total a1.masks = total a.masks + (places m).length := by rw [m1, total_append]; simp [total]
          rw [ht] at m2 x2
          first
          | rw [m2, m1]; simp
          | rw [x2, x1]; simp [hp]
        · rw [if_neg (fun h => hp h.2)] at m1
          have hq : places m = [] ∨ total a.masks + (places m).length > 64 := by
            by_cases h : places m = []
            · exact .inl h
            · exact .inr (by have : ¬ total a.masks + (places m).length ≤ 64 := fun h' => hp ⟨h, h'⟩
                             omega)
          rw [if_pos hq]
          rw [m1] at m2 x2
          first
          | exact m2
          | (rw [x2, x1]
             constructor
             · rintro ⟨⟨-, h⟩, -⟩
               exact absurd (h rfl) hp
             · rintro ⟨-, h⟩
               have h1 := taken_length (cores es) (total a.masks)
               rw [h] at h1
               simp at h1
               omega)

/-! ## C135 -/

/-- Whatever Windows answers, the description is sound: at least one core, no core without a thread, no more than 64 threads, and the count of threads is that of all cores together.  The
cores are those of the list, in order, except those without threads and those that do not fit, and the description says it is accurate when none was left out and there is one. -/
theorem C135_windows_init (answer : Option (List (Bool × BitVec 64))) :
    ∃ a, winInit answer = .ok a ∧ 1 ≤ a.coreCount ∧ a.coreCount ≤ a.threadCount ∧ a.threadCount ≤ 64 ∧ a.coreCount = a.masks.length ∧
      a.threadCount = ((a.masks.map fun m => (places m).length).sum : Nat) ∧ (∀ m ∈ a.masks, places m ≠ []) ∧
      (∀ es, answer = some es → a.masks = if taken 0 (cores es) = [] then [1] else taken 0 (cores es)) ∧
      (a.isAccurate = true ↔ ∃ es, answer = some es ∧ cores es ≠ [] ∧ taken 0 (cores es) = cores es) := by
  have hone : places 1#64 = [0] := by decide +kernel
  cases answer with
  | none =>
    refine ⟨_, rfl, by decide, by decide, by decide, by decide, ?_, ?_, ?_, ?_⟩
    · simp [hone]
    · simp [hone]
    · simp
    · simp
  | some es =>
    have g0 : Good { isAccurate := true } := ⟨rfl, rfl, by simp, by simp [total]⟩
    obtain ⟨a, h1, g, hm, hx⟩ := winLoop_ok es g0
    have hl := length_le_total g.nonzero
    have hm' : a.masks = taken 0 (cores es) := by simpa [total] using hm
    have hx' : a.isAccurate = true ↔ taken 0 (cores es) = cores es := by simpa [total] using hx
    unfold winInit
    dsimp only
    rw [h1]
    show ∃ a', (if ¬ (a.coreCount ≤ a.threadCount) then _ else _) = _ ∧ _
    rw [if_neg (by rw [g.cores, g.threads]; omega)]
    by_cases ht : a.threadCount = 0
    · rw [if_pos ht]
      have hn : a.masks = [] := by
        have : total a.masks = 0 := by have := g.threads; omega
        cases hms : a.masks with
        | nil => rfl
        | cons x l => rw [hms] at hl this; simp at hl; omega
      refine ⟨_, rfl, by simp, by simp, by simp, by simp, by simp [hone], by simp [hone], ?_, ?_⟩
      · rintro es' h
        cases h
        rw [← hm', if_pos hn]
      · constructor
        · intro h; cases h
        · rintro ⟨es', h, hc, ht'⟩
          cases h
          rw [← hm', hn] at ht'
          exact absurd ht'.symm hc
    · rw [if_neg ht]
      have hne : a.masks ≠ [] := by
        intro h
        apply ht
        rw [g.threads, h]
        rfl
      have hlen : 0 < a.masks.length := List.length_pos_iff.2 hne
      refine ⟨a, rfl, by rw [g.cores]; omega, by rw [g.cores, g.threads]; omega, by have := g.fits; rw [g.threads]; omega, g.cores, g.threads, g.nonzero, ?_, ?_⟩
      · rintro es' h
        cases h
        rw [← hm', if_neg hne]
      · rw [hx']
        constructor
        · intro h
          refine ⟨es, rfl, ?_, h⟩
          rw [← h, ← hm']
          exact hne
        · rintro ⟨es', h, -, h'⟩
          cases h
          exact h'

theorem and_bit (m : BitVec 64) {i : Nat} (hi : i < 64) : (m &&& BitVec.twoPow 64 i ≠ 0) ↔ m.getLsbD i = true := by
  rw [BitVec.and_twoPow]
  cases hb : m.getLsbD i with
  | false => simp
  | true =>
    simp only [if_pos]
    refine ⟨fun _ => trivial, fun _ h => ?_⟩
    have h1 := congrArg (fun x : BitVec 64 => x.getLsbD i) h
    simp [hi] at h1

theorem setLoop_ok (m : BitVec 64) : ∀ (d i : Nat), i + d = 64 → ∀ (t : Nat) (p : Nat), ((List.range' i d).filter fun j => m.getLsbD j)[t]? = some p →
    ∀ extra, setLoop m (d + extra) (BitVec.twoPow 64 i) t = .ok (BitVec.twoPow 64 p)
  | 0, i, _, t, p, h => by simp at h
  | d + 1, i, hi, t, p, h => by
    intro extra
    have hsh : BitVec.twoPow 64 i <<< 1 = BitVec.twoPow 64 (i + 1) := by
      apply BitVec.eq_of_toNat_eq
      rw [BitVec.toNat_shiftLeft, BitVec.toNat_twoPow, BitVec.toNat_twoPow, Nat.shiftLeft_eq, Nat.mod_mul_mod, ← Nat.pow_succ]
    rw [show d + 1 + extra = (d + extra) + 1 by omega, setLoop, hsh]
    rw [List.range'_succ] at h
    have ih := setLoop_ok m d (i + 1) (by omega)
    by_cases hb : m.getLsbD i = true
    · rw [List.filter_cons_of_pos hb] at h
      rw [if_pos ((and_bit m (by omega)).2 hb)]
      cases t with
      | zero =>
        simp at h
        subst h
        simp
      | succ t =>
        rw [if_neg (by omega)]
        have := ih t p (by simpa using h) extra
        rwa [show ((t + 1 : Nat) : Int) - 1 = (t : Int) by omega]
    · rw [List.filter_cons_of_neg hb] at h
      rw [if_neg (fun h => hb ((and_bit m (by omega)).1 h))]
      exact ih t p h extra

theorem places_lt {m : BitVec 64} {t p : Nat} (h : (places m)[t]? = some p) : p < 64 := by
  have := List.mem_of_getElem? h
  unfold places at this
  rw [List.mem_filter, List.mem_range] at this
  exact this.1

theorem twoPow_inj {i j : Nat} (hi : i < 64) (hj : j < 64) (h : BitVec.twoPow 64 i = BitVec.twoPow 64 j) : i = j := by
  have h1 := congrArg (fun x : BitVec 64 => x.getLsbD i) h
  simp [hi] at h1
  omega

theorem winThreadCountForCore_ok {a : Aff} {core : Nat} {m : BitVec 64} (hc : a.coreCount = a.masks.length) (hm : a.masks[core]? = some m) :
    winThreadCountForCore a core = .ok ((places m).length : Int) := by
  have hl : core < a.masks.length := by
    rw [List.getElem?_eq_some_iff] at hm
    exact hm.1
  unfold winThreadCountForCore
  rw [if_neg (by rw [hc]; omega), Int.toNat_natCast, hm]
  dsimp only
  rw [count_places]
  rfl

/-- A thread of a core is put on the processor that is the one of that number among those of the core, and no other. -/
theorem C135_windows_set_partial {a : Aff} (hc : a.coreCount = a.masks.length) {core thread p : Nat} {m : BitVec 64} (hm : a.masks[core]? = some m) (hp : (places m)[thread]? = some p)
    {fuel : Nat} (hf : 64 ≤ fuel) : winSet fuel a core thread = .ok (BitVec.twoPow 64 p) ∧ ∀ i, (BitVec.twoPow 64 p).getLsbD i = decide (i = p) := by
  constructor
  · unfold winSet
    rw [winThreadCountForCore_ok hc hm]
    show (if ¬ ((thread : Int) < _) then _ else _) = _
    have hl : thread < (places m).length := by
      rw [List.getElem?_eq_some_iff] at hp
      exact hp.1
    rw [if_neg (by omega), Int.toNat_natCast, hm]
    dsimp only
    have h := setLoop_ok m 64 0 rfl thread p (by rw [← List.range_eq_range']; exact hp) (fuel - 64)
    rw [show 64 + (fuel - 64) = fuel by omega] at h
    exact h
  · intro i
    have := places_lt hp
    rw [BitVec.getLsbD_twoPow]
    by_cases h : i = p
    · subst h; simp [this]
    · simp [h]; omega

/-- Different threads of one core get different processors. -/
theorem C135_windows_distinct {a : Aff} (hc : a.coreCount = a.masks.length) {core thread thread' p p' : Nat} {m : BitVec 64} (hm : a.masks[core]? = some m) (hp : (places m)[thread]? = some p)
    (hp' : (places m)[thread']? = some p') {fuel : Nat} (hf : 64 ≤ fuel) (h : winSet fuel a core thread = winSet fuel a core thread') : thread = thread' := by
  rw [(C135_windows_set_partial hc hm hp hf).1, (C135_windows_set_partial hc hm hp' hf).1] at h
  have h1 := twoPow_inj (places_lt hp) (places_lt hp') (Except.ok.inj h)
  subst h1
  have hnd : (places m).Nodup := List.Nodup.sublist List.filter_sublist List.nodup_range
  rw [List.getElem?_eq_some_iff] at hp hp'
  obtain ⟨i1, e1⟩ := hp
  obtain ⟨i2, e2⟩ := hp'
  have := List.pairwise_iff_getElem.1 hnd
  rcases Nat.lt_trichotomy thread thread' with h | h | h
  · exact absurd (e1.trans e2.symm) (this _ _ i1 i2 h)
  · exact h
  · exact absurd (e2.trans e1.symm) (this _ _ i2 i1 h)

theorem setLoop_negative (m : BitVec 64) : ∀ (fuel : Nat) (check : BitVec 64) (t : Int), t < 0 → setLoop m fuel check t = .error .diverge
  | 0, _, _, _ => rfl
  | fuel + 1, check, t, h => by
    rw [setLoop]
    split
    · rw [if_neg (by omega)]
      exact setLoop_negative m fuel _ _ (by omega)
    · exact setLoop_negative m fuel _ _ h

/-- A negative number of a thread passes the assertion and the search never ends. -/
theorem C135_windows_negative {a : Aff} (hc : a.coreCount = a.masks.length) {core : Nat} {m : BitVec 64} (hm : a.masks[core]? = some m) {thread : Int} (ht : thread < 0) (fuel : Nat) :
    winSet fuel a core thread = .error .diverge := by
  unfold winSet
  rw [winThreadCountForCore_ok hc hm]
  show (if ¬ (thread < _) then _ else _) = _
  rw [if_neg (by omega), Int.toNat_natCast, hm]
  exact setLoop_negative m fuel _ _ ht

/-- On macOS the counts are positive whatever the system answers; when they are said to be accurate they are the system's, the threads of all cores fit into the threads there are, and
different pairs of a core and a thread get different tags, below the number of threads. -/
theorem C135_mac (logical physical : Option Nat) : let a := macInit logical physical
    1 ≤ a.coreCount ∧ 1 ≤ a.threadCount ∧ 1 ≤ a.threadsPerCore ∧
      (a.isAccurate = true → logical = some a.threadCount.toNat ∧ physical = some a.coreCount.toNat ∧ a.coreCount * a.threadsPerCore ≤ a.threadCount) ∧
      ∀ c t c' t' : Int, 0 ≤ c → c < a.coreCount → 0 ≤ t → t < a.threadsPerCore → 0 ≤ c' → c' < a.coreCount → 0 ≤ t' → t' < a.threadsPerCore →
        (∃ i, macSet a c t = .ok i ∧ 0 ≤ i ∧ (a.isAccurate = true → i < a.threadCount)) ∧ (macSet a c t = macSet a c' t' → c = c' ∧ t = t') := by
  dsimp only
  have hinit : 1 ≤ (macInit logical physical).coreCount ∧ 1 ≤ (macInit logical physical).threadCount ∧ 1 ≤ (macInit logical physical).threadsPerCore ∧
      ((macInit logical physical).isAccurate = true → logical = some (macInit logical physical).threadCount.toNat ∧ physical = some (macInit logical physical).coreCount.toNat ∧
        (macInit logical physical).coreCount * (macInit logical physical).threadsPerCore ≤ (macInit logical physical).threadCount) := by
    unfold macInit
    dsimp only
    cases logical with
    | none => simp
    | some n =>
      dsimp only
      by_cases hn : n > 0
      · rw [if_pos hn]
        cases physical with
        | none => simp; omega
        | some c =>
          dsimp only
          by_cases hc : c > 0
          · rw [if_pos hc]
            by_cases hd : (n : Int).tdiv c < 1
            · rw [if_pos hd]
              simp
              omega
            · rw [if_neg hd]
              refine ⟨by dsimp only; omega, by dsimp only; omega, by dsimp only; omega, fun _ => ⟨by simp, by simp, ?_⟩⟩
              dsimp only
              rw [Int.tdiv_eq_ediv_of_nonneg (by omega)]
              exact Int.mul_ediv_self_le (by omega)
          · rw [if_neg hc]; simp; omega
      · rw [if_neg hn]; simp
  obtain ⟨h1, h2, h3, h4⟩ := hinit
  refine ⟨h1, h2, h3, h4, ?_⟩
  generalize macInit logical physical = a at *
  intro c t c' t' hc0 hc ht0 ht hc0' hc' ht0' ht'
  have e1 : macSet a c t = .ok (c * a.threadsPerCore + t) := by
    unfold macSet
    rw [if_neg (by omega), if_neg (by omega)]
  have e2 : macSet a c' t' = .ok (c' * a.threadsPerCore + t') := by
    unfold macSet
    rw [if_neg (by omega), if_neg (by omega)]
  have hpos : 0 ≤ c * a.threadsPerCore := Int.mul_nonneg hc0 (by omega)
  refine ⟨⟨_, e1, by omega, fun hacc => ?_⟩, fun h => ?_⟩
  · have hle := (h4 hacc).2.2
    have : (c + 1) * a.threadsPerCore ≤ a.coreCount * a.threadsPerCore := Int.mul_le_mul_of_nonneg_right (by omega) (by omega)
    rw [Int.add_mul] at this
    omega
  · rw [e1, e2] at h
    have h := Except.ok.inj h
    have k1 : ∀ x y : Int, 0 ≤ y → y < a.threadsPerCore → (x * a.threadsPerCore + y) / a.threadsPerCore = x := by
      intro x y hy0 hy
      rw [Int.add_comm, Int.add_mul_ediv_right _ _ (by omega), Int.ediv_eq_zero_of_lt hy0 hy]
      omega
    have hcc : c = c' := by rw [← k1 c t ht0 ht, h, k1 c' t' ht0' ht']
    subst hcc
    exact ⟨rfl, by omega⟩

/-- But negative numbers pass the assertions, and can stand for the processor of another pair. -/
theorem C135_mac_negative {a : Aff} (h1 : 2 ≤ a.threadsPerCore) (hc : 1 < a.coreCount) : macSet a 1 (-1) = macSet a 0 (a.threadsPerCore - 1) ∧ ∃ i, macSet a 1 (-1) = .ok i := by
  unfold macSet
  rw [if_neg (by omega), if_neg (by omega), if_neg (by omega), if_neg (by omega)]
  refine ⟨?_, _, rfl⟩
  congr 1
  omega

/-- On macOS, when the system does not say how many processors there are, or says none, one is assumed. -/
theorem C135_mac_default (physical : Option Nat) : ∀ logical ∈ [none, some 0],
    macInit logical physical = { isAccurate := false, coreCount := 1, threadCount := 1, masks := [], threadsPerCore := 1 } := by
  intro logical h
  simp only [List.mem_cons, List.not_mem_nil, or_false] at h
  rcases h with rfl | rfl <;> rfl

/-- Outside of Windows every core there is has the same number of threads, and no other core may be asked for. -/
theorem C135_thread_count (a : Aff) (core t : Int) : threadCountForCore a core = .ok t ↔ (0 ≤ core ∧ core < a.coreCount) ∧ t = a.threadsPerCore := by
  unfold threadCountForCore
  by_cases h : 0 ≤ core ∧ core < a.coreCount
  · rw [if_neg (by simp [h])]
    simp [h, eq_comm]
  · rw [if_pos h]
    simp [h]

example : threadCountForCore (macInit (some 8) (some 4)) 3 = .ok 2 ∧ ∀ t, threadCountForCore (macInit (some 8) (some 4)) 4 ≠ .ok t :=
  ⟨(C135_thread_count _ _ _).2 (by decide), fun t h => absurd ((C135_thread_count _ _ _).1 h).1 (by decide)⟩

/-- On Linux the counts are those of the system, or one. -/
theorem C135_linux_init (n : Int) : linuxInit n = { isAccurate := decide (0 < n), coreCount := max n 1, threadCount := max n 1, masks := [], threadsPerCore := 1 } := by
  unfold linuxInit
  dsimp only
  by_cases h : 0 < n
  · simp [h]
    omega
  · simp [h]
    omega

/-- But there the request is never made, whatever the core and the thread, even for cores that do not exist, and it is told to have succeeded. -/
theorem C135_linux_set_ignored (a : Aff) (core thread : Int) : linuxSet a core thread = ([], true) := rfl

/-! ### Examples -/

example : winInit (some [(true, 0b11#64), (false, 0xff#64), (true, 0b1100#64), (true, 0#64)]) = .ok { isAccurate := false, coreCount := 2, threadCount := 4, masks := [0b11#64, 0b1100#64] } := by
  decide +kernel

example : winSet 64 { coreCount := 2, threadCount := 4, masks := [0b11#64, 0b1010#64] } 1 1 = .ok 0b1000#64 := by decide +kernel

example : (places 0b1010#64)[1]? = some 3 := by decide +kernel

example : macInit (some 8) (some 4) = { isAccurate := true, coreCount := 4, threadCount := 8, threadsPerCore := 2 } := by decide +kernel

end Zpl.Affinity
