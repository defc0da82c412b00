import Verif.Basic

/-!
# Spin locks (code/source/threading/atomic.c:144-152, 348-350, 402-448)  -  C59

## Model

Threads interleave; each atomic operation is one step and memory is sequentially consistent (trusted: `lock cmpxchg`, `volatile` accesses with
`mfence`).  The 32- and the 64-bit functions have the same text.  A thread is outside, inside a call that has not succeeded yet, or holds
the lock.  A call that gives up (time-out, or `try_acquire` failing) goes back outside; both `zpl_atomic32_spin_lock` and
`zpl_atomic32_try_acquire_lock` are sequences of the step `attempt`, so every time-out is covered. -/

namespace Zpl.Spin

/-- Where a thread is. -/
inductive Pc where
  /-- not holding the lock, no call pending -/
  | outside
  /-- in `zpl_atomic32_spin_lock`, an attempt failed and another one follows -/
  | spinning
  /-- the last call returned true and no unlock followed -/
  | inside
  deriving DecidableEq, Repr

/-- The lock word and the threads. -/
structure State where
  value : Int
  pc : Nat → Pc

/-- Which `compare_exchange` is compiled: the x86 one returns the previous value (atomic.c:144-152), the one for other processors returns whether
the exchange took place (atomic.c:348-350). -/
inductive Arch where
  | x86
  | other
  deriving DecidableEq, Repr

/-- atomic.c:144-152 / 348-350 `zpl_atomic32_compare_exchange`: new value and result. -/
def compareExchange (arch : Arch) (value expected desired : Int) : Int × Int :=
  if value = expected then (desired, match arch with | .x86 => value | .other => 1)
  else (value, match arch with | .x86 => value | .other => 0)

/-- One step of thread `t`. -/
inductive Ev where
  /-- atomic.c:403, 407 and 436: one `compare_exchange`; the call returns true if its result is 0, otherwise it goes on or gives up -/
  | attempt (t : Nat) (giveUp : Bool)
  /-- atomic.c:413-416 `zpl_atomic32_spin_unlock` -/
  | unlock (t : Nat)

/-- The step, with the arguments of `compare_exchange` as parameters; `none` if the thread is not there. -/
def stepWith (expected desired : Int) (arch : Arch) (s : State) : Ev → Option State
  | .attempt t giveUp =>
    if s.pc t = .inside then none
    else
      let (v, old) := compareExchange arch s.value expected desired
      some { value := v, pc := fun u => if u = t then (if old = 0 then .inside else if giveUp then .outside else .spinning) else s.pc u }
  | .unlock t =>
    if s.pc t = .inside then some { value := 0, pc := fun u => if u = t then .outside else s.pc u } else none

/-- The step of the code, which calls `zpl_atomic32_compare_exchange(a, 1, 0)`. -/
def step : Arch → State → Ev → Option State := stepWith 1 0

/-- A schedule. -/
def runWith (expected desired : Int) (arch : Arch) (s : State) : List Ev → Option State
  | [] => some s
  | e :: es => do
    let s ← stepWith expected desired arch s e
    runWith expected desired arch s es

def run : Arch → State → List Ev → Option State := runWith 1 0

/-- A free lock: the word is 0 and every thread is outside. -/
def start : State := { value := 0, pc := fun _ => .outside }

/-! ## Specification -/

/-- Mutual exclusion. -/
def AtMostOneInside (s : State) : Prop := ∀ t u, s.pc t = .inside → s.pc u = .inside → t = u

/-! ## Lemmas -/

theorem attempt_free (arch : Arch) (s : State) (t : Nat) (g : Bool) (hv : s.value = 0) (ht : s.pc t ≠ .inside) :
    step arch s (.attempt t g) = some { value := 0, pc := fun u => if u = t then .inside else s.pc u } := by
  simp only [step, stepWith, if_neg ht, compareExchange, hv]
  cases arch <;> simp

theorem run_all (arch : Arch) (ts : List Nat) (s : State) (hv : s.value = 0) (ho : ∀ t ∈ ts, s.pc t ≠ .inside) (hn : ts.Nodup) :
    ∃ s', run arch s (ts.map (fun t => .attempt t false)) = some s' ∧ s'.value = 0 ∧ (∀ t ∈ ts, s'.pc t = .inside) ∧
      ∀ t, t ∉ ts → s'.pc t = s.pc t := by
  induction ts generalizing s with
  | nil => exact ⟨s, rfl, hv, by simp, fun _ _ => rfl⟩
  | cons t ts ih =>
    have hn' := List.nodup_cons.1 hn
    obtain ⟨s', e, h1, h2, h3⟩ := ih { value := 0, pc := fun u => if u = t then .inside else s.pc u } rfl
      (fun u hu => by
        have : u ≠ t := fun h => hn'.1 (h ▸ hu)
        simpa [this] using ho u (by simp [hu])) hn'.2
    refine ⟨s', ?_, h1, fun u hu => ?_, fun u hu => ?_⟩
    · have := attempt_free arch s t false hv (ho t (by simp))
      rw [step] at this
      rw [List.map_cons, run, runWith, this]
      exact e
    · rcases List.mem_cons.1 hu with rfl | hu
      · rw [h3 u hn'.1]; simp
      · exact h2 u hu
    · simp only [List.mem_cons, not_or] at hu
      rw [h3 u hu.2]
      simp [hu.1]

/-! ## Properties -/

/-- **C59, what holds (partial).** From a free lock a single thread acquires it at the first attempt, and after its unlock the lock is free again.  Missing:
mutual exclusion, which does not hold (`C59_no_mutual_exclusion`). -/
theorem C59_single_thread_partial (arch : Arch) (t : Nat) (g : Bool) (s : State) (hv : s.value = 0) (ht : s.pc t ≠ .inside) :
    ∃ s1 s2, step arch s (.attempt t g) = some s1 ∧ s1.pc t = .inside ∧ step arch s1 (.unlock t) = some s2 ∧ s2.value = 0 ∧ s2.pc t = .outside := by
  refine ⟨_, { value := 0, pc := fun u => if u = t then .outside else if u = t then .inside else s.pc u }, attempt_free arch s t g hv ht, by simp, ?_, rfl, by simp⟩
  simp only [step, stepWith]
  rw [if_pos (by simp)]

/-- Deviation: the code exchanges 1 for 0, so a free lock (0) stays 0 when it is acquired.  Hence, on every processor and for every set of threads, each of
them acquires the lock with one attempt while all the others hold it. -/
theorem C59_no_mutual_exclusion (arch : Arch) (ts : List Nat) (hn : ts.Nodup) :
    ∃ s, run arch start (ts.map (fun t => .attempt t false)) = some s ∧ ∀ t ∈ ts, s.pc t = .inside := by
  obtain ⟨s, e, -, h, -⟩ := run_all arch ts start rfl (by simp [start]) hn
  exact ⟨s, e, h⟩

/-- In particular mutual exclusion is violated by two threads. -/
theorem C59_two_inside (arch : Arch) : ∃ es s, run arch start es = some s ∧ ¬ AtMostOneInside s := by
  obtain ⟨s, e, h⟩ := C59_no_mutual_exclusion arch [0, 1] (by decide)
  refine ⟨_, s, e, fun ha => ?_⟩
  have := ha 0 1 (h 0 (by simp)) (h 1 (by simp))
  cases this

/-- The specification is the right one: with the two arguments exchanged, `zpl_atomic32_compare_exchange(a, 0, 1)`, the same code does give mutual exclusion on
x86, for every number of threads and every schedule.  (This is about the intended program, not the existing one.) -/
theorem C59_with_swapped_arguments (es : List Ev) (s : State) (h : runWith 0 1 .x86 start es = some s) : AtMostOneInside s := by
  -- invariant: at most one inside, and the word is 1 exactly if somebody is inside
  suffices ∀ (es : List Ev) (s0 s : State), AtMostOneInside s0 → ((∃ t, s0.pc t = .inside) → s0.value = 1) → ((∀ t, s0.pc t ≠ .inside) → s0.value = 0) →
      runWith 0 1 .x86 s0 es = some s → AtMostOneInside s from
    this es start s (by intro t u h; simp [start] at h) (by rintro ⟨t, h⟩; simp [start] at h) (fun _ => rfl) h
  clear h es
  intro es
  induction es with
  | nil => intro s0 s h1 _ _ h; injection h with h; subst h; exact h1
  | cons e es ih =>
    intro s0 s h1 h2 h3 h
    rw [runWith] at h
    cases hs : stepWith 0 1 .x86 s0 e with
    | none => rw [hs] at h; cases h
    | some s1 =>
      rw [hs] at h
      have h : runWith 0 1 .x86 s1 es = some s := h
      cases e with
      | attempt t g =>
        simp only [stepWith] at hs
        by_cases ht : s0.pc t = .inside
        · rw [if_pos ht] at hs; cases hs
        · rw [if_neg ht] at hs
          by_cases hv : s0.value = 0
          · have hno : ∀ u, s0.pc u ≠ .inside := by
              intro u hu
              have := h2 ⟨u, hu⟩
              omega
            simp [compareExchange, hv] at hs
            subst hs
            refine ih _ _ ?_ (fun _ => rfl) ?_ h
            · intro u w hu hw
              simp only at hu hw
              split at hu
              · split at hw
                · omega
                · exact absurd hw (hno w)
              · exact absurd hu (hno u)
            · intro hall
              exact absurd (by simp) (hall t)
          · simp [compareExchange, hv] at hs
            subst hs
            have hpc : ∀ u, (if u = t then (if g = true then Pc.outside else Pc.spinning) else s0.pc u) = .inside ↔ s0.pc u = .inside := by
              intro u
              split
              · rename_i hu
                subst hu
                cases g <;> simp [ht]
              · rfl
            refine ih _ _ ?_ ?_ ?_ h
            · intro u w hu hw
              exact h1 u w ((hpc u).1 hu) ((hpc w).1 hw)
            · rintro ⟨u, hu⟩
              exact h2 ⟨u, (hpc u).1 hu⟩
            · intro hall
              exact h3 (fun u hu => hall u ((hpc u).2 hu))
      | unlock t =>
        simp only [stepWith] at hs
        by_cases ht : s0.pc t = .inside
        · rw [if_pos ht] at hs
          injection hs with hs
          subst hs
          have hno : ∀ u, (if u = t then Pc.outside else s0.pc u) ≠ .inside := by
            intro u
            split
            · simp
            · rename_i hu
              exact fun hui => hu (h1 u t hui ht)
          refine ih _ _ ?_ ?_ (fun _ => rfl) h
          · intro u w hu
            exact absurd hu (hno u)
          · rintro ⟨u, hu⟩
            exact absurd hu (hno u)
        · rw [if_neg ht] at hs; cases hs

/-! ## The hypotheses are met -/

example : start.value = 0 ∧ start.pc 3 ≠ .inside ∧ [0, 1, 2].Nodup := ⟨rfl, by simp [start], by decide⟩

end Zpl.Spin
