import Verif.Basic

/-!
# Atomic operations (code/source/threading/atomic.c)  -  C134

Threads work on one atomic variable of `w` bits.  A locked instruction is one step; the loops around `cmpxchg` are two steps for each round, one that reads and one that compares and
exchanges.  Memory is sequentially consistent.  The unlocked `cmpxchg8b` of `zpl_atomic64_store` on 32-bit machines is not modelled.

## Model -/

namespace Zpl.Atomic

open Zpl

/-- The operations of a program. -/
inductive Op (w : Nat) where
  | load
  | store (v : BitVec w)
  | compareExchange (expected desired : BitVec w)
  | exchange (v : BitVec w)
  | fetchAdd (v : BitVec w)
  | fetchAnd (v : BitVec w)
  | fetchOr (v : BitVec w)
  deriving DecidableEq, Repr

/-- How an operation is made: one locked instruction, or a loop, that reads the variable again in each round or uses what the failed exchange has returned. -/
inductive Kind where
  | single
  | loop (reload : Bool)
  deriving DecidableEq, Repr

structure Variant where
  exchange : Kind
  add : Kind
  and : Kind
  or : Kind

/-- atomic.c:141-203 `zpl_atomic32_load` … `zpl_atomic32_fetch_or` on x86 with GCC, and atomic.c:206-338 `zpl_atomic64_load` … `zpl_atomic64_fetch_or` on a 64-bit machine. -/
def gcc64 : Variant := ⟨.single, .single, .loop true, .loop true⟩

/-- atomic.c:206-338 for 64 bits on a 32-bit machine with GCC: `zpl_atomic64_exchange` goes on with what the exchange returned, the others read again.  The plain reads of 64 bits are
taken to be one step. -/
def gcc32 : Variant := ⟨.loop false, .loop true, .loop true, .loop true⟩

/-- atomic.c:75-137 for 64 bits on a 32-bit machine with the compiler of Microsoft. -/
def msvc32 : Variant := ⟨.loop false, .loop false, .loop false, .loop false⟩

/-- atomic.c:14-137 with the compiler of Microsoft on a 64-bit machine, and atomic.c:341-394 on other machines, apart from `otherCompareExchange`.  The functions `zpl_atomic_ptr_load` …
`zpl_atomic_ptr_fetch_or` (atomic.c:455-511) are those for integers of the size of a pointer. -/
def msvc64 : Variant := ⟨.single, .single, .single, .single⟩

def Variant.kind (V : Variant) {w : Nat} : Op w → Kind
  | .load => .single
  | .store _ => .single
  | .compareExchange _ _ => .single
  | .exchange _ => V.exchange
  | .fetchAdd _ => V.add
  | .fetchAnd _ => V.and
  | .fetchOr _ => V.or

/-- What a locked instruction does to the variable. -/
def instruction {w : Nat} (value : BitVec w) : Op w → BitVec w × BitVec w
  | .load => (value, value)
  | .store v => (0, v)
  | .compareExchange e d => (value, if value = e then d else value)
  | .exchange v => (value, v)
  | .fetchAdd v => (value, value + v)
  | .fetchAnd v => (value, value &&& v)
  | .fetchOr v => (value, value ||| v)

/-- What a loop tries to store when it has read `original`. -/
def desired {w : Nat} (original : BitVec w) : Op w → BitVec w
  | .exchange v => v
  | .fetchAdd v => original + v
  | .fetchAnd v => original &&& v
  | .fetchOr v => original ||| v
  | _ => original

/-- A thread: what is left of its program, and what a loop has read. -/
structure Thread (w : Nat) where
  prog : List (Op w)
  read : Option (BitVec w) := none
  deriving DecidableEq, Repr

structure State (w : Nat) where
  value : BitVec w
  threads : List (Thread w)
  deriving DecidableEq, Repr

/-- An operation that has returned: the thread, the operation and its result. -/
abbrev Event (w : Nat) := Nat × Op w × BitVec w

/-- One step of a thread. -/
def step (V : Variant) {w : Nat} (s : State w) (t : Nat) : State w × List (Event w) :=
  match s.threads[t]? with
  | none => (s, [])
  | some ⟨[], _⟩ => (s, [])
  | some ⟨op :: rest, read⟩ =>
    match V.kind op with
    | .single => (⟨(instruction s.value op).2, s.threads.set t ⟨rest, none⟩⟩, [(t, op, (instruction s.value op).1)])
    | .loop reload =>
      match read with
      | none => (⟨s.value, s.threads.set t ⟨op :: rest, some s.value⟩⟩, [])
      | some original =>
        if s.value = original then (⟨desired original op, s.threads.set t ⟨rest, none⟩⟩, [(t, op, original)])
        else (⟨s.value, s.threads.set t ⟨op :: rest, if reload then none else some s.value⟩⟩, [])

/-- A run, and the operations that have returned, in the order of their returns. -/
def run (V : Variant) {w : Nat} (s : State w) : List Nat → State w × List (Event w)
  | [] => (s, [])
  | t :: ts =>
    let (s, es) := step V s t
    let (s, es') := run V s ts
    (s, es ++ es')

/-- atomic.c:348-350, 376-378 `zpl_atomic32_compare_exchange` and `zpl_atomic64_compare_exchange` on other machines: the result of the variable is as it should be, what is returned
is whether it was exchanged. -/
def otherCompareExchange {w : Nat} (value expected desired : BitVec w) : BitVec w × BitVec w := if value = expected then (1, desired) else (0, value)

/-! ## Specification -/

/-- What an operation returns and leaves when nothing else happens. -/
def meaning {w : Nat} (value : BitVec w) : Op w → BitVec w × BitVec w
  | .load => (value, value)
  | .store v => (0, v)
  | .compareExchange e d => if value = e then (value, d) else (value, value)
  | .exchange v => (value, v)
  | .fetchAdd v => (value, value + v)
  | .fetchAnd v => (value, value &&& v)
  | .fetchOr v => (value, value ||| v)

/-- The operations, one after the other: each returns what it should, and the last value. -/
inductive Sequential {w : Nat} : BitVec w → List (Event w) → BitVec w → Prop
  | nil (v : BitVec w) : Sequential v [] v
  | cons {v r v' v'' : BitVec w} {t : Nat} {op : Op w} {es : List (Event w)} : meaning v op = (r, v') → Sequential v' es v'' → Sequential v ((t, op, r) :: es) v''

/-- The operations of one thread among those that have returned. -/
def ofThread {w : Nat} (t : Nat) (es : List (Event w)) : List (Op w) := (es.filter fun e => e.1 = t).map fun e => e.2.1

/-- What is left of the program of a thread. -/
def left {w : Nat} (s : State w) (t : Nat) : List (Op w) := (s.threads[t]?.map Thread.prog).getD []

/-! ## Lemmas -/

theorem Sequential.append {w : Nat} {a b c : BitVec w} {es fs : List (Event w)} (h : Sequential a es b) (h' : Sequential b fs c) : Sequential a (es ++ fs) c := by
  induction h with
  | nil => exact h'
  | cons hm _ ih => exact .cons hm (ih h')

theorem instruction_meaning {w : Nat} (v : BitVec w) (op : Op w) : meaning v op = instruction v op := by
  cases op <;> first | rfl | skip
  unfold meaning instruction
  dsimp only
  split <;> rfl

theorem desired_meaning {V : Variant} {w : Nat} {op : Op w} {b : Bool} (h : V.kind op = .loop b) (v : BitVec w) : meaning v op = (v, desired v op) := by
  cases op <;> first | rfl | cases h

theorem set_some {α : Type} {l : List α} {t : Nat} {a b : α} (h : l[t]? = some a) (u : Nat) : (l.set t b)[u]? = if u = t then some b else l[u]? := by
  have hl : t < l.length := by
    rw [List.getElem?_eq_some_iff] at h
    exact h.1
  rw [List.getElem?_set]
  by_cases hu : t = u
  · subst hu
    rw [if_pos rfl, if_pos hl, if_pos rfl]
  · rw [if_neg hu, if_neg (fun h => hu h.symm)]

/-- One step returns at most one operation, which is the next of its thread, with the right result. -/
theorem step_cases (V : Variant) {w : Nat} (s : State w) (t : Nat) :
    ((step V s t).2 = [] ∧ (step V s t).1.value = s.value ∧ ∀ u, left (step V s t).1 u = left s u) ∨
    ∃ op r rest, (step V s t).2 = [(t, op, r)] ∧ meaning s.value op = (r, (step V s t).1.value) ∧ left s t = op :: rest ∧ left (step V s t).1 t = rest ∧
      ∀ u, u ≠ t → left (step V s t).1 u = left s u := by
  unfold step
  cases ht : s.threads[t]? with
  | none => exact .inl ⟨rfl, rfl, fun _ => rfl⟩
  | some th =>
    obtain ⟨prog, read⟩ := th
    cases prog with
    | nil => exact .inl ⟨rfl, rfl, fun _ => rfl⟩
    | cons op rest =>
      dsimp only
      have hl : left s t = op :: rest := by
        unfold left
        rw [ht]
        rfl
      have hset : ∀ (v : BitVec w) (x : Thread w) (u : Nat), left ⟨v, s.threads.set t x⟩ u = if u = t then x.prog else left s u := by
        intro v x u
        unfold left
        dsimp only
        rw [set_some ht]
        split <;> rfl
      cases hk : V.kind op with
      | single =>
        refine .inr ⟨op, _, rest, rfl, ?_, hl, ?_, fun u hu => ?_⟩
        · exact instruction_meaning _ _
        · rw [hset, if_pos rfl]
        · rw [hset, if_neg hu]
      | loop reload =>
        dsimp only
        have hsame : ∀ (x : Option (BitVec w)) (u : Nat), left ⟨s.value, s.threads.set t ⟨op :: rest, x⟩⟩ u = left s u := by
          intro x u
          rw [hset]
          split
          · next h => subst h; exact hl.symm
          · rfl
        cases read with
        | none => exact .inl ⟨rfl, rfl, fun u => hsame _ u⟩
        | some original =>
          dsimp only
          by_cases he : s.value = original
          · rw [if_pos he]
            refine .inr ⟨op, _, rest, rfl, ?_, hl, ?_, fun u hu => ?_⟩
            · rw [he]
              exact desired_meaning hk original
            · rw [hset, if_pos rfl]
            · rw [hset, if_neg hu]
          · rw [if_neg he]
            exact .inl ⟨rfl, rfl, fun u => hsame _ u⟩

/-! ## C134 -/

/-- Whatever the threads do at whatever speed, the operations work as if each happened at one moment, that of its return: in the order of the returns each gives the result it has when
nothing else happens, and the variable has the value after all of them. -/
theorem C134_atomic (V : Variant) {w : Nat} : ∀ (ts : List Nat) (s : State w), Sequential s.value (run V s ts).2 (run V s ts).1.value
  | [], s => .nil _
  | t :: ts, s => by
    have ih := C134_atomic V ts (step V s t).1
    show Sequential s.value ((step V s t).2 ++ (run V (step V s t).1 ts).2) (run V (step V s t).1 ts).1.value
    refine Sequential.append ?_ ih
    rcases step_cases V s t with ⟨h1, h2, -⟩ | ⟨op, r, rest, h1, h2, -⟩
    · rw [h1, h2]
      exact .nil _
    · rw [h1]
      exact .cons h2 (.nil _)

/-- And each thread does the operations of its program, in order: those that have returned and those that are left are the program. -/
theorem C134_program_order (V : Variant) {w : Nat} (u : Nat) : ∀ (ts : List Nat) (s : State w), ofThread u (run V s ts).2 ++ left (run V s ts).1 u = left s u
  | [], s => rfl
  | t :: ts, s => by
    have ih := C134_program_order V u ts (step V s t).1
    show ofThread u ((step V s t).2 ++ (run V (step V s t).1 ts).2) ++ left (run V (step V s t).1 ts).1 u = left s u
    have ha : ∀ a b : List (Event w), ofThread u (a ++ b) = ofThread u a ++ ofThread u b := by
      intro a b
      unfold ofThread
      rw [List.filter_append, List.map_append]
    rw [ha, List.append_assoc, ih]
    rcases step_cases V s t with ⟨h1, -, h3⟩ | ⟨op, r, rest, h1, -, h3, h4, h5⟩
    · rw [h1, h3]
      rfl
    · rw [h1]
      by_cases hu : u = t
      · subst hu
        rw [h3, h4]
        unfold ofThread
        rw [List.filter_cons_of_pos (by simp)]
        rfl
      · rw [h5 u hu]
        unfold ofThread
        rw [List.filter_cons_of_neg (by simpa using fun h => hu h.symm)]
        rfl

/-- How many steps a thread can take before it returns from an operation when no other does. -/
def wait (V : Variant) {w : Nat} (v : BitVec w) (th : Thread w) : Nat :=
  match th.prog with
  | [] => 0
  | op :: _ =>
    match V.kind op with
    | .single => 0
    | .loop reload =>
      match th.read with
      | none => 1
      | some o => if v = o then 0 else if reload then 2 else 1

theorem wait_le (V : Variant) {w : Nat} (v : BitVec w) (th : Thread w) : wait V v th ≤ 2 := by
  unfold wait
  split
  · omega
  · split
    · omega
    · split
      · omega
      · split
        · omega
        · split <;> omega

def waits (V : Variant) {w : Nat} (s : State w) : Nat := (s.threads.map (wait V s.value)).sum

theorem sum_set {α : Type} (f : α → Nat) : ∀ {l : List α} {t : Nat} {a : α} (b : α), l[t]? = some a → ((l.set t b).map f).sum + f a = (l.map f).sum + f b
  | [], t, a, b, h => by simp at h
  | x :: l, 0, a, b, h => by
    simp at h
    subst h
    simp
    omega
  | x :: l, t + 1, a, b, h => by
    have := sum_set f (l := l) (t := t) (a := a) b (by simpa using h)
    simp only [List.set_cons_succ, List.map_cons, List.sum_cons]
    omega

theorem step_waits (V : Variant) {w : Nat} (s : State w) (t : Nat) (hl : left s t ≠ []) (he : (step V s t).2 = []) : waits V (step V s t).1 < waits V s := by
  unfold left at hl
  unfold step at he ⊢
  cases ht : s.threads[t]? with
  | none => rw [ht] at hl; simp at hl
  | some th =>
    obtain ⟨prog, read⟩ := th
    rw [ht] at he hl
    cases prog with
    | nil => simp at hl
    | cons op rest =>
      dsimp only at he ⊢
      cases hk : V.kind op with
      | single => rw [hk] at he; simp at he
      | loop reload =>
        rw [hk] at he
        dsimp only at he ⊢
        cases read with
        | none =>
          have h := sum_set (wait V s.value) ⟨op :: rest, some s.value⟩ ht
          have e1 : wait V s.value ⟨op :: rest, none⟩ = 1 := by unfold wait; dsimp only; rw [hk]
          have e2 : wait V s.value ⟨op :: rest, some s.value⟩ = 0 := by unfold wait; dsimp only; rw [hk]; dsimp only; rw [if_pos rfl]
          unfold waits
          dsimp only
          omega
        | some original =>
          dsimp only at he ⊢
          by_cases hv : s.value = original
          · rw [if_pos hv] at he
            simp at he
          · rw [if_neg hv]
            have h := sum_set (wait V s.value) ⟨op :: rest, if reload then none else some s.value⟩ ht
            have e1 : wait V s.value ⟨op :: rest, some original⟩ = if reload then 2 else 1 := by unfold wait; dsimp only; rw [hk]; dsimp only; rw [if_neg hv]
            have e2 : wait V s.value ⟨op :: rest, if reload then none else some s.value⟩ = if reload then 1 else 0 := by
              unfold wait
              dsimp only
              rw [hk]
              cases reload
              · simp
              · rfl
            have e3 : (if reload then 1 else 0) < (if reload then 2 else 1) := by cases reload <;> decide
            unfold waits
            dsimp only
            omega

theorem run_waits (V : Variant) {w : Nat} : ∀ (ts : List Nat) (s : State w), (∀ t ∈ ts, left s t ≠ []) → (run V s ts).2 = [] → ts.length ≤ waits V s
  | [], s, _, _ => by simp
  | t :: ts, s, h, he => by
    have he' : (step V s t).2 ++ (run V (step V s t).1 ts).2 = [] := he
    obtain ⟨h1, h2⟩ := List.append_eq_nil_iff.1 he'
    have h3 : ∀ u, left (step V s t).1 u = left s u := by
      rcases step_cases V s t with ⟨-, -, h3⟩ | ⟨op, r, rest, h4, -⟩
      · exact h3
      · rw [h1] at h4; cases h4
    have ih := run_waits V ts (step V s t).1 (fun u hu => by rw [h3]; exact h u (by simp [hu])) h2
    have := step_waits V s t (h t (by simp)) h1
    rw [List.length_cons]
    omega

/-- The threads cannot hold each other up for ever: when threads that have something to do take more than twice as many steps as there are threads, some operation returns. -/
theorem C134_lock_free (V : Variant) {w : Nat} (s : State w) {ts : List Nat} (h : ∀ t ∈ ts, left s t ≠ []) (hl : 2 * s.threads.length < ts.length) : (run V s ts).2 ≠ [] := by
  intro he
  have h1 := run_waits V ts s h he
  have h2 : ∀ l : List (Thread w), (l.map (wait V s.value)).sum ≤ 2 * l.length := by
    intro l
    induction l with
    | nil => simp
    | cons x l ih =>
      have := wait_le V s.value x
      simp only [List.map_cons, List.sum_cons, List.length_cons]
      omega
  have := h2 s.threads
  unfold waits at h1
  omega

/-- So no addition is lost: when every thread only adds, the variable has grown by the sum of all additions that have returned. -/
theorem C134_counter (V : Variant) {w : Nat} (s : State w) (h : ∀ t, ∀ op ∈ left s t, ∃ v, op = .fetchAdd v) (ts : List Nat) :
    (run V s ts).1.value = s.value + ((run V s ts).2.map fun e => match e.2.1 with | .fetchAdd v => v | _ => 0).foldr (· + ·) 0 := by
  have hop : ∀ e ∈ (run V s ts).2, ∃ v, e.2.1 = .fetchAdd v := by
    intro e he
    have := C134_program_order V e.1 ts s
    refine h e.1 e.2.1 ?_
    rw [← this]
    refine List.mem_append_left _ ?_
    unfold ofThread
    exact List.mem_map.2 ⟨e, List.mem_filter.2 ⟨he, by simp⟩, rfl⟩
  have key : ∀ {a b : BitVec w} {es : List (Event w)}, Sequential a es b → (∀ e ∈ es, ∃ v, e.2.1 = .fetchAdd v) →
      b = a + (es.map fun e => match e.2.1 with | .fetchAdd v => v | _ => 0).foldr (· + ·) 0 := by
    intro a b es hs
    induction hs with
    | nil v => intro _; simp
    | @cons v r v' v'' t op es hm _ ih =>
      intro he
      obtain ⟨x, hx⟩ := he (t, op, r) (by simp)
      dsimp only at hx
      subst hx
      rw [ih fun e h => he e (by simp [h])]
      injection hm with h1 h2
      rw [← h2]
      simp only [List.map_cons, List.foldr_cons]
      rw [BitVec.add_assoc]
  exact key (C134_atomic V ts s) hop

/-- On machines other than x86 the exchange works, but what is returned is not the old value, unless that happens to be the answer. -/
theorem C134_returns_flag {w : Nat} (value expected desired : BitVec w) :
    (otherCompareExchange value expected desired).2 = (meaning value (.compareExchange expected desired)).2 ∧
      ((otherCompareExchange value expected desired).1 = (meaning value (.compareExchange expected desired)).1 ↔ (value = expected ∧ value = 1) ∨ (value ≠ expected ∧ value = 0)) := by
  unfold otherCompareExchange meaning
  by_cases h : value = expected
  · rw [if_pos h]
    dsimp only
    rw [if_pos h]
    refine ⟨rfl, fun h1 => .inl ⟨h, h1.symm⟩, ?_⟩
    rintro (⟨-, h1⟩ | ⟨h1, -⟩)
    · exact h1.symm
    · exact absurd h h1
  · rw [if_neg h]
    dsimp only
    rw [if_neg h]
    refine ⟨rfl, fun h1 => .inr ⟨h, h1.symm⟩, ?_⟩
    rintro (⟨h1, -⟩ | ⟨-, h1⟩)
    · exact absurd h1 h
    · exact h1.symm

/-! ### Examples -/

/-- Two threads; the exchange of the first one fails and is tried again. -/
example : run gcc64 (⟨0b1111#8, [⟨[.fetchAnd 0b0111#8], none⟩, ⟨[.fetchOr 0b10000#8, .load], none⟩]⟩ : State 8) [0, 1, 1, 0, 0, 0, 1] =
    (⟨0b00111#8, [⟨[], none⟩, ⟨[], none⟩]⟩, [(1, .fetchOr 0b10000#8, 0b1111#8), (0, .fetchAnd 0b0111#8, 0b11111#8), (1, .load, 0b00111#8)]) := by decide +kernel

example : (run gcc32 (⟨5#8, [⟨[.fetchAdd 1#8, .fetchAdd 2#8], none⟩, ⟨[.fetchAdd 3#8], none⟩]⟩ : State 8) [0, 1, 0, 1, 1, 1, 0, 0]).1.value = 11#8 := by decide +kernel

example : ∀ t ∈ [0, 1, 0, 1, 0], left (⟨5#8, [⟨[.fetchAdd 1#8, .fetchAdd 2#8], none⟩, ⟨[.fetchAdd 3#8], none⟩]⟩ : State 8) t ≠ [] := by decide

end Zpl.Atomic
