import Verif.Basic

/-!
# Mutexes and semaphores (code/source/threading/mutex.c, code/source/threading/sem.c)  -  C157

## Model

Threads interleave; each call of the operating system is one step.  The operating system keeps its contract: a mutex is held by at most one thread, a semaphore is a counter that
is taken from only when it is not zero.  A mutex locked again by the thread that holds it is not modelled (the thread would wait for itself, or hold it twice).  The semaphores of
Windows and macOS are in `Verif.Conc.SemOther`. -/

namespace Zpl.Sem

/-- The systems mutex.c distinguishes. -/
inductive System where
  | posix | windows
  deriving DecidableEq

/-- The mutex, and the threads that take it that they hold it. -/
structure Mutex where
  owner : Option Nat
  inside : Nat → Bool

/-- mutex.c:32-38 `zpl_mutex_try_lock`: what it returns.  `TryEnterCriticalSection` returns nonzero if the mutex was free, `pthread_mutex_trylock` returns 0 then and `EBUSY`
otherwise. -/
def tryResult : System → Bool → Int
  | .windows, free => if free then 1 else 0
  | .posix, free => if free then 0 else 16

/-- mutex.c:6-13 `zpl_mutex_init`: what it returns; `ok` is false if the operating system has no mutex left (only `pthread_mutex_init` can say so). -/
def initResult : System → Bool → Int
  | .windows, _ => 1
  | .posix, ok => if ok then 0 else 11

/-- What a thread does. -/
inductive Ev where
  /-- mutex.c:24-30 `zpl_mutex_lock`, the step at which it is granted -/
  | lock (t : Nat)
  /-- mutex.c:32-38 `zpl_mutex_try_lock` -/
  | tryLock (t : Nat)
  /-- mutex.c:40-46 `zpl_mutex_unlock` -/
  | unlock (t : Nat)

/-- How a client reads the result of `zpl_mutex_try_lock`: whether it holds the mutex now. -/
abbrev Reading := Int → Bool

/-- One step; `none` if it cannot happen: a thread that holds the mutex does not ask for it, `zpl_mutex_lock` waits while another thread holds it, and only a thread that takes it
that it holds the mutex gives it back.  Giving back a mutex that the thread does not hold is undefined. -/
def step (sys : System) (reads : Reading) (m : Mutex) : Ev → Option (Except Fault Mutex)
  | .lock t =>
    if m.inside t then none
    else match m.owner with
      | some _ => none
      | none => some (.ok { owner := some t, inside := fun u => if u = t then true else m.inside u })
  | .tryLock t =>
    if m.inside t then none
    else
      let free := m.owner.isNone
      let r := tryResult sys free
      some (.ok { owner := if free then some t else m.owner, inside := fun u => if u = t then reads r else m.inside u })
  | .unlock t =>
    if m.inside t then
      if m.owner = some t then some (.ok { owner := none, inside := fun u => if u = t then false else m.inside u })
      else some (.error .ub)
    else none

/-- A schedule. -/
def run (sys : System) (reads : Reading) : List Ev → Mutex → Option (Except Fault Mutex)
  | [], m => some (.ok m)
  | e :: es, m =>
    match step sys reads m e with
    | none => none
    | some (.error f) => some (.error f)
    | some (.ok m) => run sys reads es m

/-- A mutex after `zpl_mutex_init`. -/
def fresh : Mutex := { owner := none, inside := fun _ => false }

/-- The reading that is right for the system. -/
def proper : System → Reading
  | .windows, r => decide (r ≠ 0)
  | .posix, r => decide (r = 0)

/-! ## Specification -/

/-- At most one thread takes it that it holds the mutex. -/
def Exclusive (m : Mutex) : Prop := ∀ t u, m.inside t = true → m.inside u = true → t = u

/-! ## C157: mutexes -/

/-- The threads that take it that they hold the mutex are those that do. -/
def Agree (m : Mutex) : Prop := ∀ t, m.inside t = true ↔ m.owner = some t

theorem step_agree (sys : System) (m : Mutex) (e : Ev) (h : Agree m) (r : Except Fault Mutex) (hr : step sys (proper sys) m e = some r) :
    ∃ m', r = .ok m' ∧ Agree m' := by
  cases e with
  | lock t =>
    simp only [step] at hr
    split at hr
    · cases hr
    · split at hr
      · cases hr
      · next ho =>
        refine ⟨_, (Option.some.inj hr).symm, fun u => ?_⟩
        have := h u
        by_cases hu : u = t
        · simp [hu]
        · simp [hu, this, ho, Ne.symm hu]
  | tryLock t =>
    simp only [step] at hr
    split at hr
    · cases hr
    · next hi =>
      refine ⟨_, (Option.some.inj hr).symm, fun u => ?_⟩
      have := h u
      have ht := h t
      cases ho : m.owner with
      | none =>
        by_cases hu : u = t
        · cases sys <;> simp [hu, tryResult, proper]
        · simp [hu, this, ho, Ne.symm hu]
      | some w =>
        by_cases hu : u = t
        · subst hu
          have : w ≠ u := fun hw => hi (ht.mpr (by rw [ho, hw]))
          cases sys <;> simp [tryResult, proper, this]
        · simp [hu, this, ho]
  | unlock t =>
    simp only [step] at hr
    split at hr
    · next hi =>
      rw [if_pos ((h t).mp hi)] at hr
      refine ⟨_, (Option.some.inj hr).symm, fun u => ?_⟩
      by_cases hu : u = t
      · simp [hu]
      · have := h u
        rw [(h t).mp hi] at this
        simp [hu, this, Ne.symm hu]
    · cases hr

theorem run_agree (sys : System) (es : List Ev) (m : Mutex) (h : Agree m) (r : Except Fault Mutex) (hr : run sys (proper sys) es m = some r) :
    ∃ m', r = .ok m' ∧ Agree m' := by
  induction es generalizing m with
  | nil => exact ⟨m, (Option.some.inj hr).symm, h⟩
  | cons e es ih =>
    rw [run] at hr
    cases hs : step sys (proper sys) m e with
    | none => rw [hs] at hr; cases hr
    | some q =>
      obtain ⟨m', rfl, h'⟩ := step_agree sys m e h q hs
      rw [hs] at hr
      exact ih m' h' hr

/-- C157: threads that use a mutex, reading the result of `zpl_mutex_try_lock` as the system means it, are never inside two at a time and never give back what they do not hold,
whatever the schedule. -/
theorem C157_exclusive_partial (sys : System) (es : List Ev) (r : Except Fault Mutex) (h : run sys (proper sys) es fresh = some r) :
    ∃ m, r = .ok m ∧ Exclusive m := by
  obtain ⟨m, rfl, ha⟩ := run_agree sys es fresh (fun t => by simp [fresh]) r h
  refine ⟨m, rfl, fun t u ht hu => ?_⟩
  have h1 := (ha t).mp ht
  rw [(ha u).mp hu] at h1
  exact (Option.some.inj h1).symm

/-- C157: a free mutex is granted to whoever asks, by either call. -/
theorem C157_granted (sys : System) (m : Mutex) (h : Agree m) (hf : m.owner = none) (t : Nat) :
    ∃ m1 m2, step sys (proper sys) m (.lock t) = some (.ok m1) ∧ m1.inside t = true ∧ step sys (proper sys) m (.tryLock t) = some (.ok m2) ∧ m2.inside t = true := by
  have hi : ¬ m.inside t = true := fun hi => by have := (h t).mp hi; rw [hf] at this; cases this
  refine ⟨_, _, by simp only [step]; rw [if_neg hi, hf], ?_, by simp only [step]; rw [if_neg hi], ?_⟩
  · simp
  · cases sys <;> simp [hf, tryResult, proper]

/-- C157, what fails: no reading of the result is right on both systems. -/
theorem C157_no_common_reading (reads : Reading) : ¬ ((∀ free, reads (tryResult .posix free) = free) ∧ ∀ free, reads (tryResult .windows free) = free) := by
  intro ⟨h1, h2⟩
  have a := h1 true
  have b := h2 false
  simp [tryResult] at a b
  rw [a] at b
  cases b

/-- C157, what fails: read as a truth value, as its type says, the result lets a second thread in on POSIX systems while the first is inside. -/
theorem C157_posix_two_inside (t u : Nat) (h : t ≠ u) :
    ∃ m, run .posix (fun r => decide (r ≠ 0)) [.lock t, .tryLock u] fresh = some (.ok m) ∧ m.inside t = true ∧ m.inside u = true := by
  refine ⟨_, by simp [run, step, fresh, Ne.symm h]; rfl, ?_, ?_⟩
  · simp [h]
  · simp [tryResult]

/-- Nobody is inside and the mutex belongs to a thread that does not know. -/
def Lost (t : Nat) (m : Mutex) : Prop := m.owner = some t ∧ m.inside t = false

/-- C157, what fails: and one such call on a free mutex takes it for good: as long as that thread only waits for the mutex, no call of `zpl_mutex_lock` by any thread is granted. -/
theorem C157_posix_lost (t : Nat) (es : List Ev) (m : Mutex) (hes : ∀ e ∈ es, e ≠ .tryLock t) (hr : run .posix (fun r => decide (r ≠ 0)) (.tryLock t :: es) fresh = some (.ok m)) :
    m.owner = some t ∧ ∀ u, Ev.lock u ∉ es := by
  have key : ∀ (es : List Ev) (a m : Mutex), (∀ e ∈ es, e ≠ .tryLock t) → Lost t a → run .posix (fun r => decide (r ≠ 0)) es a = some (.ok m) → Lost t m ∧ ∀ u, Ev.lock u ∉ es := by
    intro es
    induction es with
    | nil => intro a m _ ha hr; cases hr; exact ⟨ha, by simp⟩
    | cons e es ih =>
      intro a m hes ha hr
      rw [run] at hr
      obtain ⟨h1, h2⟩ := ha
      cases e with
      | lock u =>
        have hn : step .posix (fun r => decide (r ≠ 0)) a (.lock u) = none := by
          simp only [step, h1]; split <;> rfl
        rw [hn] at hr; cases hr
      | tryLock u =>
        have hu : u ≠ t := fun hu => hes _ List.mem_cons_self (by rw [hu])
        simp only [step] at hr
        split at hr
        · cases hr
        · next hs =>
          split at hs
          · cases hs
          · cases hs
        · next m' hs =>
          split at hs
          · cases hs
          · cases Option.some.inj hs
            obtain ⟨h3, h4⟩ := ih _ m (fun e he => hes e (List.mem_cons_of_mem _ he)) ⟨by simp [h1], by simp [Ne.symm hu, h2]⟩ hr
            exact ⟨h3, by simpa using h4⟩
      | unlock u =>
        simp only [step] at hr
        by_cases hi : a.inside u = true
        · by_cases ho : a.owner = some u
          · rw [h1] at ho; cases ho; rw [h2] at hi; cases hi
          · simp [hi, ho] at hr
        · simp [hi] at hr
  rw [run] at hr
  have : step .posix (fun r => decide (r ≠ 0)) fresh (.tryLock t) = some (.ok { owner := some t, inside := fun u => if u = t then false else false }) := by
    simp [step, fresh, tryResult]
  rw [this] at hr
  obtain ⟨h1, h2⟩ := key es _ m hes ⟨rfl, by simp⟩ hr
  exact ⟨h1.1, h2⟩

/-- C157, what fails: `zpl_mutex_init` returns 0 for success on POSIX systems (`EAGAIN` is 11 otherwise) and 1 on Windows. -/
theorem C157_init_result : initResult .posix true = 0 ∧ initResult .posix false = 11 ∧ initResult .windows true = 1 := ⟨rfl, rfl, rfl⟩

example : ∃ m, run .windows (proper .windows) [.lock 1, .tryLock 2, .unlock 1, .tryLock 2, .tryLock 1] fresh = some (.ok m) ∧ m.inside 2 = true ∧ m.inside 1 = false :=
  ⟨_, by simp [run, step, fresh]; rfl, by simp [tryResult, proper], by simp [tryResult, proper]⟩

/-- A schedule as in `C157_posix_lost`: thread 1 loses the mutex, thread 2 tries in vain. -/
example : ∃ m, run .posix (fun r => decide (r ≠ 0)) [.tryLock 1, .tryLock 2] fresh = some (.ok m) ∧ m.owner = some 1 := ⟨_, by simp [run, step, fresh]; rfl, by simp⟩

/-! ## Semaphores: model -/

/-- Where a thread is. -/
inductive Pc where
  | idle
  /-- in `zpl_semaphore_post`, `count` in hand -/
  | posting (count : Int)
  /-- in `zpl_semaphore_wait` -/
  | waiting
  deriving DecidableEq

/-- What has happened so far. -/
inductive Done where
  /-- a `sem_post` that counted -/
  | posted (t : Nat)
  /-- a `sem_post` that failed because the counter is at its limit -/
  | refused (t : Nat)
  /-- `zpl_semaphore_wait` returned -/
  | got (t : Nat)
  /-- `zpl_semaphore_trywait` returned `r` -/
  | tried (t : Nat) (r : Int)
  deriving DecidableEq

/-- The counter of the operating system, the threads, and what has happened, the latest first. -/
structure State where
  value : Nat
  pc : Nat → Pc
  log : List Done

/-- `SEM_VALUE_MAX` -/
def limit : Nat := 2147483647

/-- Steps of the threads. -/
inductive Act where
  /-- sem.c:28 `zpl_semaphore_post` is called, `zpl_semaphore_release` (sem.c:6) with 1 -/
  | post (t : Nat) (count : Int)
  /-- sem.c:28 `count --> 0` and, if so, `sem_post` -/
  | postStep (t : Nat)
  /-- sem.c:29 `zpl_semaphore_wait` is called -/
  | wait (t : Nat)
  /-- sem.c:29 `sem_wait` returns, possibly because a signal arrived -/
  | waitStep (t : Nat) (interrupted : Bool)
  /-- sem.c:30 `zpl_semaphore_trywait` -/
  | trywait (t : Nat)

/-- Thread `t` goes to `p`. -/
def State.go (s : State) (t : Nat) (p : Pc) : State := { s with pc := fun u => if u = t then p else s.pc u }

/-- One step; `none` if the thread is not there or has to wait. -/
def act (s : State) : Act → Option (Except Fault State)
  | .post t count => if s.pc t = .idle then some (.ok (s.go t (.posting count))) else none
  | .postStep t =>
    match s.pc t with
    | .posting count =>
      if count = -2147483648 then some (.error .arith)
      else if 0 < count then
        let s := s.go t (.posting (count - 1))
        if s.value < limit then some (.ok { s with value := s.value + 1, log := .posted t :: s.log })
        else some (.ok { s with log := .refused t :: s.log })
      else some (.ok (s.go t .idle))
    | _ => none
  | .wait t => if s.pc t = .idle then some (.ok (s.go t .waiting)) else none
  | .waitStep t interrupted =>
    if s.pc t = .waiting then
      if interrupted then some (.ok s)
      else if 0 < s.value then some (.ok { s.go t .idle with value := s.value - 1, log := .got t :: s.log })
      else none
    else none
  | .trywait t =>
    if s.pc t = .idle then
      if 0 < s.value then some (.ok { s with value := s.value - 1, log := .tried t 0 :: s.log })
      else some (.ok { s with log := .tried t (-1) :: s.log })
    else none

/-- A schedule. -/
def acts : List Act → State → Option (Except Fault State)
  | [], s => some (.ok s)
  | a :: as, s =>
    match act s a with
    | none => none
    | some (.error f) => some (.error f)
    | some (.ok s) => acts as s

/-- sem.c:26 `zpl_semaphore_init`. -/
def created : State := { value := 0, pc := fun _ => .idle, log := [] }

/-! ## Semaphores: specification -/

/-- Whether the event took one from the semaphore. -/
def Done.takes : Done → Bool
  | .got _ => true
  | .tried _ r => decide (r = 0)
  | _ => false

/-- Whether the event put one into it. -/
def Done.puts : Done → Bool
  | .posted _ => true
  | _ => false

/-- Whether the event is a `sem_post` of thread `t`, counted or not. -/
def Done.postBy (t : Nat) : Done → Bool
  | .posted u => u = t
  | .refused u => u = t
  | _ => false

/-- How many the calls of `zpl_semaphore_post` by thread `t` are to put in, together. -/
def asked (t : Nat) : List Act → Nat
  | [] => 0
  | .post u count :: as => (if u = t then count.toNat else 0) + asked t as
  | _ :: as => asked t as

/-- What a thread has still to put in. -/
def remaining : Pc → Nat
  | .posting count => count.toNat
  | _ => 0

/-! ## C157: semaphores -/

def Counted (s : State) : Prop := s.value + s.log.countP Done.takes = s.log.countP Done.puts ∧ s.value ≤ limit

theorem act_counted (s s' : State) (a : Act) (h : Counted s) (e : act s a = some (.ok s')) : Counted s' := by
  obtain ⟨h1, h2⟩ := h
  unfold Counted
  cases a with
  | post t c =>
    simp only [act] at e
    split at e
    · cases e; exact ⟨h1, h2⟩
    · cases e
  | postStep t =>
    simp only [act] at e
    split at e
    · split at e
      · cases e
      · split at e
        · split at e
          · next hl =>
            cases e
            simp only [State.go] at hl ⊢
            rw [List.countP_cons_of_neg (by simp [Done.takes]), List.countP_cons_of_pos (by rfl)]
            omega
          · cases e
            simp only [State.go]
            rw [List.countP_cons_of_neg (by simp [Done.takes]), List.countP_cons_of_neg (by simp [Done.puts])]
            exact ⟨h1, h2⟩
        · cases e; exact ⟨h1, h2⟩
    · cases e
  | wait t =>
    simp only [act] at e
    split at e
    · cases e; exact ⟨h1, h2⟩
    · cases e
  | waitStep t i =>
    simp only [act] at e
    split at e
    · split at e
      · cases e; exact ⟨h1, h2⟩
      · split at e
        · cases e
          simp only
          rw [List.countP_cons_of_pos (by rfl), List.countP_cons_of_neg (by simp [Done.puts])]
          omega
        · cases e
    · cases e
  | trywait t =>
    simp only [act] at e
    split at e
    · split at e
      · cases e
        simp only
        rw [List.countP_cons_of_pos (by rfl), List.countP_cons_of_neg (by simp [Done.puts])]
        omega
      · cases e
        simp only
        rw [List.countP_cons_of_neg (by simp [Done.takes]), List.countP_cons_of_neg (by simp [Done.puts])]
        exact ⟨h1, h2⟩
    · cases e

theorem acts_counted (as : List Act) (s s' : State) (h : Counted s) (e : acts as s = some (.ok s')) : Counted s' := by
  induction as generalizing s with
  | nil => cases e; exact h
  | cons a as ih =>
    rw [acts] at e
    split at e
    · cases e
    · cases e
    · next s1 h1 => exact ih s1 (act_counted s s1 a h h1) e

/-- C157: whatever the schedule and whatever signals arrive, the semaphore has been taken from exactly as often as it was put into, less what is left; so never more often. -/
theorem C157_semaphore (as : List Act) (s : State) (h : acts as created = some (.ok s)) :
    s.value + s.log.countP Done.takes = s.log.countP Done.puts ∧ s.log.countP Done.takes ≤ s.log.countP Done.puts := by
  have := (acts_counted as created s ⟨rfl, by decide⟩ h).1
  exact ⟨this, by omega⟩

theorem act_posts (s s' : State) (a : Act) (t : Nat) (e : act s a = some (.ok s')) :
    s'.log.countP (Done.postBy t) + remaining (s'.pc t) = s.log.countP (Done.postBy t) + remaining (s.pc t) + asked t [a] := by
  cases a with
  | post u c =>
    simp only [act] at e
    split at e
    · next hp =>
      cases e
      by_cases hu : u = t
      · subst hu; simp [State.go, remaining, asked, hp]
      · simp [State.go, asked, hu, Ne.symm hu]
    · cases e
  | postStep u =>
    simp only [act] at e
    split at e
    · next c hp =>
      split at e
      · cases e
      · split at e
        · next hc =>
          by_cases hu : u = t
          · subst hu
            split at e
            · cases e
              simp only [State.go, asked, hp, remaining, if_pos]
              rw [List.countP_cons_of_pos (by simp [Done.postBy])]
              omega
            · cases e
              simp only [State.go, asked, hp, remaining, if_pos]
              rw [List.countP_cons_of_pos (by simp [Done.postBy])]
              omega
          · split at e
            · cases e
              simp only [State.go, asked, if_neg (Ne.symm hu)]
              rw [List.countP_cons_of_neg (by simp [Done.postBy, hu])]
              omega
            · cases e
              simp only [State.go, asked, if_neg (Ne.symm hu)]
              rw [List.countP_cons_of_neg (by simp [Done.postBy, hu])]
              omega
        · next hc =>
          cases e
          by_cases hu : u = t
          · subst hu
            simp only [State.go, asked, hp, remaining, if_pos]
            omega
          · simp [State.go, asked, Ne.symm hu]
    · cases e
  | wait u =>
    simp only [act] at e
    split at e
    · next hp =>
      cases e
      by_cases hu : u = t
      · subst hu; simp [State.go, remaining, asked, hp]
      · simp [State.go, asked, Ne.symm hu]
    · cases e
  | waitStep u i =>
    simp only [act] at e
    split at e
    · next hp =>
      split at e
      · cases e; simp [asked]
      · split at e
        · cases e
          simp only [State.go]
          rw [List.countP_cons_of_neg (by simp [Done.postBy])]
          by_cases hu : u = t
          · subst hu; simp [remaining, asked, hp]
          · simp [asked, Ne.symm hu]
        · cases e
    · cases e
  | trywait u =>
    simp only [act] at e
    split at e
    · split at e
      · cases e
        simp only
        rw [List.countP_cons_of_neg (by simp [Done.postBy])]
        simp [asked]
      · cases e
        simp only
        rw [List.countP_cons_of_neg (by simp [Done.postBy])]
        simp [asked]
    · cases e

theorem asked_cons (t : Nat) (a : Act) (as : List Act) : asked t (a :: as) = asked t [a] + asked t as := by
  cases a <;> simp [asked]

/-- C157: `zpl_semaphore_post` with a count puts in so many, one by one, and none for a count below one: what a thread has put in and what it has still to put in is what its
calls asked for. -/
theorem C157_post (as : List Act) (s : State) (h : acts as created = some (.ok s)) (t : Nat) :
    s.log.countP (Done.postBy t) + remaining (s.pc t) = asked t as := by
  have key : ∀ (as : List Act) (a s : State), acts as a = some (.ok s) →
      s.log.countP (Done.postBy t) + remaining (s.pc t) = a.log.countP (Done.postBy t) + remaining (a.pc t) + asked t as := by
    intro as
    induction as with
    | nil => intro a s h; cases h; simp [asked]
    | cons e es ih =>
      intro a s h
      rw [acts] at h
      split at h
      · cases h
      · cases h
      · next s1 h1 =>
        rw [ih s1 s h, act_posts a s1 e t h1, asked_cons t e es]
        omega
  simpa [created, remaining] using key as created s h

/-- C157: a signal does not end the waiting, and nobody waits while there is something to take: a thread that waits gets it at its next step. -/
theorem C157_wait (s : State) (t : Nat) (h : s.pc t = .waiting) :
    act s (.waitStep t true) = some (.ok s) ∧
    ((act s (.waitStep t false) = none ↔ s.value = 0) ∧
      ∀ s', act s (.waitStep t false) = some (.ok s') → s'.pc t = .idle ∧ s'.value + 1 = s.value ∧ s'.log = .got t :: s.log) := by
  simp only [act, if_pos h]
  refine ⟨rfl, ?_, ?_⟩
  · by_cases hv : 0 < s.value
    · simp [hv]; omega
    · simp [hv]; omega
  · intro s' e
    by_cases hv : 0 < s.value
    · simp only [hv, if_true] at e
      cases e
      refine ⟨by simp [State.go], ?_, rfl⟩
      simp only
      omega
    · simp [hv] at e

/-- C157, what fails: at the limit of the counter `zpl_semaphore_post` loses what it should put in, and says nothing. -/
theorem C157_post_lost (s : State) (t : Nat) (count : Int) (h : s.pc t = .posting count) (h0 : 0 < count) (hv : s.value = limit) :
    ∃ s', act s (.postStep t) = some (.ok s') ∧ s'.value = s.value ∧ s'.pc t = .posting (count - 1) := by
  refine ⟨{ s.go t (.posting (count - 1)) with log := .refused t :: s.log }, ?_, rfl, by simp [State.go]⟩
  simp only [act, h]
  rw [if_neg (by omega), if_pos h0, if_neg (by simp [State.go, hv])]
  rfl

/-- C157, what fails: with the least count of all, counting down overflows. -/
theorem C157_post_least (s : State) (t : Nat) (h : s.pc t = .posting (-2147483648)) : act s (.postStep t) = some (.error .arith) := by
  simp [act, h]

/-- Two threads wait, a third puts two in, one of the two is interrupted on the way. -/
example : ∃ s, acts [.wait 1, .wait 2, .post 3 2, .postStep 3, .waitStep 2 true, .waitStep 1 false, .postStep 3, .waitStep 2 false, .trywait 1, .postStep 3] created = some (.ok s) ∧
    s.log = [.tried 1 (-1), .got 2, .posted 3, .got 1, .posted 3] ∧ s.value = 0 ∧ s.pc 3 = .idle := by
  refine ⟨_, rfl, ?_, ?_, ?_⟩ <;> decide

end Zpl.Sem
