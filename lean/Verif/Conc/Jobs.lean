import Verif.Basic

/-!
# Thread pool (code/source/jobs.c)  -  C55, C56, C57, C58

## Model

The threads are the workers (`zpl__jobs_entry`) and one client thread that makes all calls on the pool.  A step is one atomic operation of one thread
together with the thread's local work after it; memory is sequentially consistent (trusted: `zpl_atomic32_*`).  The queues belong to the client thread
alone; a queue is a bounded first-in-first-out list of at most `max_jobs` jobs, which is what the ring of `jobs.c:10` is (theorem
`Zpl.Ring.C06_ring_is_bounded_fifo`).  A job is its procedure and data pair, of an arbitrary type `α`.  Running a job is one step. -/

namespace Zpl.Jobs

/-- jobs.h:27-32. -/
inductive Status where
  | ready | busy | waiting | term
  deriving DecidableEq, Repr

/-- Where a worker is in `zpl__jobs_entry`. -/
inductive WPc where
  /-- jobs.c:20 -/
  | top
  /-- jobs.c:24, it has read READY -/
  | ready
  /-- jobs.c:25 -/
  | busy
  /-- jobs.c:26 -/
  | ran
  /-- jobs.c:41 -/
  | exited
  deriving DecidableEq, Repr

/-- jobs.h:50-58 `zpl_thread_worker`, with the position of its thread. -/
structure Worker (α : Type) where
  status : Status
  job : Option α
  pc : WPc
  deriving DecidableEq, Repr

/-- Where the client is. -/
inductive CPc (α : Type) where
  | idle
  /-- jobs.c:161 for worker `i` -/
  | load (i : Nat)
  /-- jobs.c:165-176 for worker `i`, which was seen WAITING -/
  | assign (i : Nat)
  /-- jobs.c:177 for worker `i`; `v` is the job just written to `tw->job` -/
  | publish (i : Nat) (v : α)
  /-- jobs.c:128 for worker `i` -/
  | check (i : Nat)
  /-- jobs.c:85 for worker `i` -/
  | term (i : Nat)
  /-- jobs.c:86, joining worker `i` -/
  | join (i : Nat)
  /-- `zpl_jobs_free` has returned -/
  | freed
  deriving DecidableEq, Repr

/-- What an observer sees. -/
inductive Obs (α : Type) where
  /-- `zpl_jobs_enqueue_with_priority` returned true -/
  | accepted (v : α)
  /-- it returned false -/
  | refused (v : α)
  /-- the procedure of the job was called with its data and returned -/
  | ran (v : α)
  /-- `zpl_jobs_done` returned -/
  | done (b : Bool)
  /-- `zpl_jobs_process` returned -/
  | processed (b : Bool)
  deriving DecidableEq, Repr

/-- jobs.h:68-73 `zpl_jobs_system`, the client and the record of what happened. -/
structure Sys (α : Type) where
  workers : List (Worker α)
  queues : List (List α)
  maxJobs : Nat
  counter : BitVec 32
  cpc : CPc α
  log : List (Obs α)

variable {α : Type}

/-- jobs.c:53-79 `zpl_jobs_init_with_limit` (the threads have been started). -/
def init (maxThreads maxJobs : Nat) : Sys α :=
  { workers := List.replicate maxThreads { status := .waiting, job := none, pc := .top }, queues := List.replicate 5 [], maxJobs := maxJobs,
    counter := 0, cpc := .idle, log := [] }

/-- jobs.c:12-14 `zpl__jobs_chances`. -/
def chances : List Nat := [2, 3, 5, 7, 11]

/-- jobs.c:165-173: the loop over the queues from number `j` on: the queue chosen and the new counter. -/
def pickLoop (j : Nat) (lastEmpty : Bool) (counter : BitVec 32) : List (List α) → Option Nat × BitVec 32
  | [] => (none, counter)
  | q :: qs =>
    if q.isEmpty then pickLoop (j + 1) (j + 1 == 5) counter qs
    else if lastEmpty then (some j, counter)
    else if counter.toNat % (chances[j]?.getD 1) ≠ 0 then pickLoop (j + 1) lastEmpty (counter + 1) qs
    else (some j, counter + 1)

/-- jobs.c:162-182, the choice for one worker. -/
def pick (queues : List (List α)) (counter : BitVec 32) : Option Nat × BitVec 32 := pickLoop 0 false counter queues

/-- jobs.c:136-143 `zpl_jobs_empty_all`. -/
def emptyAll (queues : List (List α)) : Bool := queues.all (·.isEmpty)

/-- Steps: calls of the client, the next step of the call it is in, and steps of workers. -/
inductive Ev (α : Type) where
  | enqueue (v : α) (priority : Nat)
  | process
  | done
  | free
  | client
  | worker (i : Nat)

/-- jobs.c:16-47, one step of a worker; `none` if it has exited (or has no job to run, which never happens: `C55_worker_never_stuck`). -/
def workerStep (w : Worker α) : Option (Worker α × List (Obs α)) :=
  match w.pc with
  | .top =>
    match w.status with
    | .ready => some ({ w with pc := .ready }, [])
    | .waiting => some (w, [])
    | .term => some ({ w with pc := .exited }, [])
    | .busy => some (w, [])
  | .ready => some ({ w with status := .busy, pc := .busy }, [])
  | .busy =>
    match w.job with
    | some v => some ({ w with pc := .ran }, [.ran v])
    | none => none
  | .ran => some ({ w with status := if w.status = .busy then .waiting else w.status, pc := .top }, [])
  | .exited => none

/-- The client's next step inside a call. -/
def clientStep (s : Sys α) : Option (Sys α) :=
  match s.cpc with
  | .idle => none
  | .freed => none
  | .load i =>                                    -- jobs.c:159-164
    match s.workers[i]? with
    | none => some { s with cpc := .idle, log := s.log ++ [.processed true] }
    | some w => some { s with cpc := if w.status = .waiting then .assign i else .load (i + 1) }
  | .assign i =>                                  -- jobs.c:165-176
    match s.workers[i]? with
    | none => none
    | some w =>
      match pick s.queues s.counter with
      | (none, c) => some { s with counter := c, cpc := .load (i + 1) }
      | (some j, c) =>
        match s.queues[j]? with
        | some (v :: q) =>
          some { s with counter := c, queues := s.queues.set j q, workers := s.workers.set i { w with job := some v }, cpc := .publish i v }
        | _ => none
  | .publish i _ =>                               -- jobs.c:177
    match s.workers[i]? with
    | none => none
    | some w => some { s with workers := s.workers.set i { w with status := .ready }, cpc := .load (i + 1) }
  | .check i =>                                   -- jobs.c:125-134
    match s.workers[i]? with
    | none => some { s with cpc := .idle, log := s.log ++ [.done (emptyAll s.queues)] }
    | some w =>
      if w.status = .waiting then some { s with cpc := .check (i + 1) }
      else some { s with cpc := .idle, log := s.log ++ [.done false] }
  | .term i =>                                    -- jobs.c:82-85
    match s.workers[i]? with
    | none => some { s with cpc := .freed }
    | some w => some { s with workers := s.workers.set i { w with status := .term }, cpc := .join i }
  | .join i =>                                    -- jobs.c:86
    match s.workers[i]? with
    | none => none
    | some w => if w.pc = .exited then some { s with cpc := .term (i + 1) } else none

/-- One step of the system; `none` if it cannot be taken. -/
def step (s : Sys α) : Ev α → Option (Sys α)
  | .enqueue v p =>                               -- jobs.c:97-109
    match s.cpc, s.queues[p]? with
    | .idle, some q =>
      if q.length = s.maxJobs then some { s with log := s.log ++ [.refused v] }
      else some { s with queues := s.queues.set p (q ++ [v]), log := s.log ++ [.accepted v] }
    | _, _ => none
  | .process =>                                   -- jobs.c:154-159
    match s.cpc with
    | .idle => if emptyAll s.queues then some { s with log := s.log ++ [.processed false] } else some { s with cpc := .load 0 }
    | _ => none
  | .done => match s.cpc with | .idle => some { s with cpc := .check 0 } | _ => none
  | .free => match s.cpc with | .idle => some { s with cpc := .term 0 } | _ => none
  | .client => clientStep s
  | .worker i =>
    match s.workers[i]? with
    | none => none
    | some w =>
      match workerStep w with
      | none => none
      | some (w', os) => some { s with workers := s.workers.set i w', log := s.log ++ os }

/-- A schedule. -/
def run (s : Sys α) : List (Ev α) → Option (Sys α)
  | [] => some s
  | e :: es =>
    match step s e with
    | some s' => run s' es
    | none => none

/-! ## Specification -/

/-- Jobs accepted so far, and jobs that have run. -/
def accepted (log : List (Obs α)) : List α := log.filterMap (fun o => match o with | .accepted v => some v | _ => none)
def ran (log : List (Obs α)) : List α := log.filterMap (fun o => match o with | .ran v => some v | _ => none)

/-- Jobs still in the queues. -/
def queued (s : Sys α) : List α := s.queues.flatten

/-- A job that a worker has been given and has not run. -/
def pendingOf (w : Worker α) : List α :=
  if (w.status = .ready ∧ w.pc = .top) ∨ w.pc = .ready ∨ w.pc = .busy then w.job.toList else []

/-- A job that the client has just taken out of a queue for a worker. -/
def hand : CPc α → List α
  | .publish _ v => [v]
  | _ => []

/-- Jobs assigned to a worker and not yet run. -/
def assigned (s : Sys α) : List α := hand s.cpc ++ s.workers.flatMap pendingOf

/-- `zpl_jobs_free` has been called. -/
def freeing : CPc α → Prop
  | .term _ => True
  | .join _ => True
  | .freed => True
  | _ => False

/-! ## Invariant -/

/-- Consistent workers. -/
structure WOk (w : Worker α) : Prop where
  top : w.pc = .top → w.status ≠ .busy
  ready : w.pc = .ready → (w.status = .ready ∨ w.status = .term) ∧ w.job.isSome
  busy : w.pc = .busy → (w.status = .busy ∨ w.status = .term) ∧ w.job.isSome
  ran : w.pc = .ran → w.status = .busy ∨ w.status = .term
  exited : w.pc = .exited → w.status = .term
  job : w.status = .ready → w.job.isSome

/-- What the client knows about the workers. -/
def ClientOk (s : Sys α) : Prop :=
  match s.cpc with
  | .assign i => ∃ w, s.workers[i]? = some w ∧ w.status = .waiting
  | .publish i v => ∃ w, s.workers[i]? = some w ∧ w.status = .waiting ∧ w.job = some v
  | .check i => ∀ k w, k < i → s.workers[k]? = some w → w.status = .waiting
  | _ => True

variable [DecidableEq α]

structure Inv (s : Sys α) : Prop where
  workers : ∀ w ∈ s.workers, WOk w
  client : ClientOk s
  queues : s.queues.length = 5
  /-- no job is run or held more often than it was accepted -/
  most : ∀ v, (ran s.log).count v + (queued s).count v + (assigned s).count v ≤ (accepted s.log).count v
  /-- and before `zpl_jobs_free` none is lost -/
  least : ¬ freeing s.cpc → ∀ v, (accepted s.log).count v = (ran s.log).count v + (queued s).count v + (assigned s).count v
  live : ¬ freeing s.cpc → ∀ w ∈ s.workers, w.status ≠ .term

/-! ## Lemmas -/

theorem count_flatMap_set {β : Type} (f : β → List α) (l : List β) (i : Nat) (a b : β) (v : α) (h : l[i]? = some a) :
    ((l.set i b).flatMap f).count v + (f a).count v = (l.flatMap f).count v + (f b).count v := by
  induction l generalizing i with
  | nil => simp at h
  | cons x l ih =>
    cases i with
    | zero =>
      simp at h
      subst h
      simp [List.count_append]
      omega
    | succ i =>
      have := ih i (by simpa using h)
      simp only [List.set_cons_succ, List.flatMap_cons, List.count_append]
      omega

theorem count_flatten_set (l : List (List α)) (i : Nat) (a b : List α) (v : α) (h : l[i]? = some a) :
    (l.set i b).flatten.count v + a.count v = l.flatten.count v + b.count v := by
  have := count_flatMap_set (fun x => x) l i a b v h
  simpa [List.flatMap] using this

theorem mem_set {β : Type} {l : List β} {i : Nat} {a b : β} (h : a ∈ l.set i b) : a ∈ l ∨ a = b := List.mem_or_eq_of_mem_set h

theorem getElem?_set' {β : Type} (l : List β) (i k : Nat) (b : β) {a c : β} (h : l[i]? = some a) (hc : (l.set i b)[k]? = some c) :
    (k = i ∧ c = b) ∨ (k ≠ i ∧ l[k]? = some c) := by
  by_cases hk : k = i
  · subst hk
    have : k < l.length := by
      rcases Nat.lt_or_ge k l.length with h' | h'
      · exact h'
      · rw [List.getElem?_eq_none h'] at h; cases h
    rw [List.getElem?_set_self this] at hc
    injection hc with hc
    exact .inl ⟨rfl, hc.symm⟩
  · rw [List.getElem?_set_ne (fun h => hk h.symm)] at hc
    exact .inr ⟨hk, hc⟩

theorem get_set_self {β : Type} (l : List β) (i : Nat) (b : β) {a : β} (h : l[i]? = some a) : (l.set i b)[i]? = some b := by
  have : i < l.length := by
    rcases Nat.lt_or_ge i l.length with h' | h'
    · exact h'
    · rw [List.getElem?_eq_none h'] at h; cases h
  exact List.getElem?_set_self this

omit [DecidableEq α] in
@[simp] theorem accepted_append (l m : List (Obs α)) : accepted (l ++ m) = accepted l ++ accepted m := by simp [accepted]
omit [DecidableEq α] in
@[simp] theorem ran_append (l m : List (Obs α)) : ran (l ++ m) = ran l ++ ran m := by simp [ran]

/-- Steps of workers keep consistency; a WAITING worker does not move; the job is neither lost nor doubled. -/
theorem workerStep_ok {w w' : Worker α} {os : List (Obs α)} (h : WOk w) (hs : workerStep w = some (w', os)) :
    WOk w' ∧ (w.status = .waiting → w' = w ∧ os = []) ∧ (w.status ≠ .term → w'.status ≠ .term) ∧ accepted os = [] ∧
      ∀ v, (ran os).count v + (pendingOf w').count v = (pendingOf w).count v := by
  obtain ⟨st, job, pc⟩ := w
  have ht := h.top; have hr := h.ready; have hb := h.busy; have hn := h.ran; have hx := h.exited; have hj := h.job
  simp only at ht hr hb hn hx hj
  cases pc with
  | top =>
    cases st with
    | ready =>
      simp [workerStep] at hs
      obtain ⟨rfl, rfl⟩ := hs
      exact ⟨⟨by simp, by simpa using hj, by simp, by simp, by simp, by simpa using hj⟩, by simp, by simp, rfl, by simp [ran, pendingOf]⟩
    | waiting =>
      simp [workerStep] at hs
      obtain ⟨rfl, rfl⟩ := hs
      exact ⟨h, by simp, by simp, rfl, by simp [ran]⟩
    | term =>
      simp [workerStep] at hs
      obtain ⟨rfl, rfl⟩ := hs
      exact ⟨⟨by simp, by simp, by simp, by simp, by simp, by simp⟩, by simp, by simp, rfl, by simp [ran, pendingOf]⟩
    | busy => exact absurd rfl (ht rfl)
  | ready =>
    simp [workerStep] at hs
    obtain ⟨rfl, rfl⟩ := hs
    obtain ⟨h1, h2⟩ := hr rfl
    refine ⟨⟨by simp, by simp, by simpa using h2, by simp, by simp, by simp⟩, ?_, by simp, rfl, by simp [ran, pendingOf]⟩
    intro hw
    simp only at hw
    rcases h1 with h1 | h1 <;> rw [hw] at h1 <;> cases h1
  | busy =>
    obtain ⟨h1, h2⟩ := hb rfl
    cases job with
    | none => simp at h2
    | some v =>
      simp [workerStep] at hs
      obtain ⟨rfl, rfl⟩ := hs
      refine ⟨⟨by simp, by simp, by simp, by simpa using h1, by simp, by simp⟩, ?_, by simp, rfl, ?_⟩
      · intro hw
        simp only at hw
        rcases h1 with h1 | h1 <;> rw [hw] at h1 <;> cases h1
      · intro u
        simp [ran, pendingOf]
  | ran =>
    simp [workerStep] at hs
    obtain ⟨rfl, rfl⟩ := hs
    rcases hn rfl with h1 | h1 <;> subst h1
    · exact ⟨⟨by simp, by simp, by simp, by simp, by simp, by simp⟩, by simp, by simp, rfl, by simp [ran, pendingOf]⟩
    · exact ⟨⟨by simp, by simp, by simp, by simp, by simp, by simp⟩, by simp, by simp, rfl, by simp [ran, pendingOf]⟩
  | exited => simp [workerStep] at hs

theorem inv_init (n m : Nat) : Inv (init n m : Sys α) := by
  have hw : ∀ w ∈ (init n m : Sys α).workers, w = ⟨.waiting, none, .top⟩ := by
    intro w hw
    exact List.eq_of_mem_replicate hw
  have hz : (init n m : Sys α).workers.flatMap pendingOf = [] := by
    rw [List.flatMap_eq_nil_iff]
    intro w h
    rw [hw w h]
    simp [pendingOf]
  have hq : (init n m : Sys α).queues.flatten = [] := by simp [init, List.replicate]
  refine ⟨?_, trivial, by simp [init], ?_, ?_, ?_⟩
  · intro w h
    rw [hw w h]
    exact ⟨by simp, by simp, by simp, by simp, by simp, by simp⟩
  · intro v
    simp only [queued, hq, assigned, hz]
    simp [init, ran, accepted, hand]
  · intro _ v
    simp only [queued, hq, assigned, hz]
    simp [init, ran, accepted, hand]
  · intro _ w h
    rw [hw w h]
    simp

/-- Only the client's position changes (or a neutral observation is logged). -/
theorem inv_move {s : Sys α} (h : Inv s) (c : CPc α) (os : List (Obs α)) (hh : hand s.cpc = []) (hh' : hand c = []) (ha : accepted os = [])
    (hr : ran os = []) (cnt : BitVec 32) (hf : freeing s.cpc → freeing c) (hc : ClientOk { s with cpc := c, log := s.log ++ os, counter := cnt }) :
    Inv { s with cpc := c, log := s.log ++ os, counter := cnt } := by
  refine ⟨h.workers, hc, h.queues, ?_, ?_, ?_⟩
  · intro v
    have := h.most v
    simp [queued, assigned, hh, hh', ha, hr] at this ⊢
    exact this
  · intro hn v
    have := h.least (fun x => hn (hf x)) v
    simp [queued, assigned, hh, hh', ha, hr] at this ⊢
    exact this
  · exact fun hn => h.live (fun x => hn (hf x))

omit [DecidableEq α] in
theorem pick_nonempty (j : Nat) (le : Bool) (c : BitVec 32) (qs : List (List α)) {k : Nat} {c' : BitVec 32} (h : pickLoop j le c qs = (some k, c')) :
    ∃ i v q, k = j + i ∧ qs[i]? = some (v :: q) := by
  induction qs generalizing j le c with
  | nil => simp [pickLoop] at h
  | cons q qs ih =>
    rw [pickLoop] at h
    cases q with
    | nil =>
      simp only [List.isEmpty_nil, if_true] at h
      obtain ⟨i, v, q, e, h'⟩ := ih _ _ _ h
      exact ⟨i + 1, v, q, by omega, by simpa using h'⟩
    | cons v q =>
      simp only [List.isEmpty_cons] at h
      rw [if_neg (by simp)] at h
      split at h
      · injection h with h1 h2
        injection h1 with h1
        exact ⟨0, v, q, by omega, rfl⟩
      · split at h
        · obtain ⟨i, v, q, e, h'⟩ := ih _ _ _ h
          exact ⟨i + 1, v, q, by omega, by simpa using h'⟩
        · injection h with h1 h2
          injection h1 with h1
          exact ⟨0, v, q, by omega, rfl⟩

theorem inv_step {s s' : Sys α} {e : Ev α} (h : Inv s) (he : step s e = some s') : Inv s' := by
  cases e with
  | enqueue v p =>
    simp only [step] at he
    split at he
    · rename_i q hcpc hq
      split at he
      · injection he with he
        subst he
        have := inv_move h .idle [.refused v] (by simp [hcpc, hand]) rfl rfl rfl s.counter (by simp [hcpc, freeing]) trivial
        simpa [hcpc] using this
      · injection he with he
        subst he
        have hcnt : ∀ u, ((s.queues.set p (q ++ [v])).flatten).count u = s.queues.flatten.count u + [v].count u := by
          intro u
          have := count_flatten_set s.queues p q (q ++ [v]) u hq
          rw [List.count_append] at this
          omega
        refine ⟨h.workers, ?_, by simpa using h.queues, ?_, ?_, ?_⟩
        · simp [ClientOk, hcpc]
        · intro u
          have := h.most u
          have := hcnt u
          simp only [queued, assigned, accepted_append, ran_append, List.count_append] at *
          simp [accepted, ran] at *
          omega
        · intro hn u
          have := h.least hn u
          have := hcnt u
          simp only [queued, assigned, accepted_append, ran_append, List.count_append] at *
          simp [accepted, ran] at *
          omega
        · exact h.live
    · cases he
  | process =>
    simp only [step] at he
    split at he
    · rename_i hcpc
      split at he
      · injection he with he
        subst he
        have := inv_move h .idle [.processed false] (by simp [hcpc, hand]) rfl rfl rfl s.counter (by simp [hcpc, freeing]) trivial
        simpa [hcpc] using this
      · injection he with he
        subst he
        have := inv_move h (.load 0) [] (by simp [hcpc, hand]) rfl rfl rfl s.counter (by simp [hcpc, freeing]) trivial
        simpa using this
    · cases he
  | done =>
    simp only [step] at he
    split at he
    · rename_i hcpc
      injection he with he
      subst he
      have := inv_move h (.check 0) [] (by simp [hcpc, hand]) rfl rfl rfl s.counter (by simp [hcpc, freeing])
        (by intro k w hk; omega)
      simpa using this
    · cases he
  | free =>
    simp only [step] at he
    split at he
    · rename_i hcpc
      injection he with he
      subst he
      have := inv_move h (.term 0) [] (by simp [hcpc, hand]) rfl rfl rfl s.counter (by simp [freeing]) trivial
      simpa using this
    · cases he
  | client =>
    simp only [step, clientStep] at he
    split at he
    · cases he
    · cases he
    · rename_i i hcpc
      split at he
      · injection he with he
        subst he
        exact inv_move h .idle [.processed true] (by simp [hcpc, hand]) rfl rfl rfl s.counter (by simp [hcpc, freeing]) trivial
      · rename_i w hw
        injection he with he
        subst he
        by_cases hst : w.status = .waiting
        · have := inv_move h (.assign i) [] (by simp [hcpc, hand]) rfl rfl rfl s.counter (by simp [hcpc, freeing]) ⟨w, hw, hst⟩
          simpa [hst] using this
        · have := inv_move h (.load (i + 1)) [] (by simp [hcpc, hand]) rfl rfl rfl s.counter (by simp [hcpc, freeing]) trivial
          simpa [hst] using this
    · rename_i i hcpc
      split at he
      · cases he
      · rename_i w hw
        split at he
        · rename_i c hp
          injection he with he
          subst he
          have := inv_move h (.load (i + 1)) [] (by simp [hcpc, hand]) rfl rfl rfl c (by simp [hcpc, freeing]) trivial
          simpa using this
        · rename_i j c hp
          split at he
          · rename_i v q hq
            injection he with he
            subst he
            have hcl := h.client
            simp only [ClientOk, hcpc] at hcl
            obtain ⟨w', hw', hst⟩ := hcl
            obtain rfl : w = w' := by rw [hw] at hw'; injection hw'
            have hwo := h.workers w (List.mem_of_getElem? hw)
            have hpc : w.pc = .top := by
              cases hpc : w.pc with
              | top => rfl
              | ready => have := (hwo.ready hpc).1; rw [hst] at this; rcases this with h | h <;> cases h
              | busy => have := (hwo.busy hpc).1; rw [hst] at this; rcases this with h | h <;> cases h
              | ran => have := hwo.ran hpc; rw [hst] at this; rcases this with h | h <;> cases h
              | exited => have := hwo.exited hpc; rw [hst] at this; cases this
            have h1 : ∀ u, ((s.workers.set i { w with job := some v }).flatMap pendingOf).count u = (s.workers.flatMap pendingOf).count u := by
              intro u
              have := count_flatMap_set pendingOf s.workers i w { w with job := some v } u hw
              have e1 : pendingOf w = [] := by simp [pendingOf, hst, hpc]
              have e2 : pendingOf { w with job := some v } = [] := by simp [pendingOf, hst, hpc]
              rw [e1, e2] at this
              simpa using this
            have h2 : ∀ u, (s.queues.set j q).flatten.count u + [v].count u = s.queues.flatten.count u := by
              intro u
              have := count_flatten_set s.queues j (v :: q) q u hq
              rw [show (v :: q) = [v] ++ q from rfl, List.count_append] at this
              omega
            have hcp : hand s.cpc = [] := by simp [hcpc, hand]
            refine ⟨?_, ⟨_, get_set_self _ _ _ hw, hst, rfl⟩, by simpa using h.queues, ?_, ?_, ?_⟩
            · intro x hx
              rcases mem_set hx with hx | rfl
              · exact h.workers x hx
              · exact ⟨by simp [hst], by simp [hpc], by simp [hpc], by simp [hpc], by simp [hpc], by simp [hst]⟩
            · intro u
              have a1 := h.most u
              have a2 := h1 u
              have a3 := h2 u
              simp only [queued, assigned, List.count_append, hcp] at *
              simp only [hand, List.count_nil] at *
              omega
            · intro _ u
              have a1 := h.least (by simp [hcpc, freeing]) u
              have a2 := h1 u
              have a3 := h2 u
              simp only [queued, assigned, List.count_append, hcp] at *
              simp only [hand, List.count_nil] at *
              omega
            · intro _ x hx
              rcases mem_set hx with hx | rfl
              · exact h.live (by simp [hcpc, freeing]) x hx
              · simp [hst]
          · cases he
    · rename_i i v hcpc
      split at he
      · cases he
      · rename_i w hw
        injection he with he
        subst he
        have hcl := h.client
        simp only [ClientOk, hcpc] at hcl
        obtain ⟨w', hw', hst, hjob⟩ := hcl
        obtain rfl : w = w' := by rw [hw] at hw'; injection hw'
        have hwo := h.workers w (List.mem_of_getElem? hw)
        have hpc : w.pc = .top := by
          cases hpc : w.pc with
          | top => rfl
          | ready => have := (hwo.ready hpc).1; rw [hst] at this; rcases this with h | h <;> cases h
          | busy => have := (hwo.busy hpc).1; rw [hst] at this; rcases this with h | h <;> cases h
          | ran => have := hwo.ran hpc; rw [hst] at this; rcases this with h | h <;> cases h
          | exited => have := hwo.exited hpc; rw [hst] at this; cases this
        have h1 : ∀ u, ((s.workers.set i { w with status := .ready }).flatMap pendingOf).count u = (s.workers.flatMap pendingOf).count u + [v].count u := by
          intro u
          have := count_flatMap_set pendingOf s.workers i w { w with status := .ready } u hw
          have e1 : pendingOf w = [] := by simp [pendingOf, hst, hpc]
          have e2 : pendingOf { w with status := .ready } = [v] := by simp [pendingOf, hpc, hjob]
          rw [e1, e2] at this
          simpa using this
        have hcp : hand s.cpc = [v] := by simp [hcpc, hand]
        refine ⟨?_, trivial, h.queues, ?_, ?_, ?_⟩
        · intro x hx
          rcases mem_set hx with hx | rfl
          · exact h.workers x hx
          · exact ⟨by simp, by simp [hpc], by simp [hpc], by simp [hpc], by simp [hpc], by simp [hjob]⟩
        · intro u
          have a1 := h.most u
          have a2 := h1 u
          simp only [queued, assigned, List.count_append, hcp] at *
          simp only [hand, List.count_nil] at *
          omega
        · intro _ u
          have a1 := h.least (by simp [hcpc, freeing]) u
          have a2 := h1 u
          simp only [queued, assigned, List.count_append, hcp] at *
          simp only [hand, List.count_nil] at *
          omega
        · intro _ x hx
          rcases mem_set hx with hx | rfl
          · exact h.live (by simp [hcpc, freeing]) x hx
          · simp
    · rename_i i hcpc
      have hcl := h.client
      simp only [ClientOk, hcpc] at hcl
      split at he
      · injection he with he
        subst he
        exact inv_move h .idle [.done (emptyAll s.queues)] (by simp [hcpc, hand]) rfl rfl rfl s.counter (by simp [hcpc, freeing]) trivial
      · rename_i w hw
        split at he
        · rename_i hst
          injection he with he
          subst he
          have := inv_move h (.check (i + 1)) [] (by simp [hcpc, hand]) rfl rfl rfl s.counter (by simp [hcpc, freeing])
            (by
              intro k x hk hx
              by_cases hki : k = i
              · subst hki
                rw [hw] at hx
                injection hx with hx
                subst hx
                exact hst
              · exact hcl k x (by omega) hx)
          simpa using this
        · injection he with he
          subst he
          exact inv_move h .idle [.done false] (by simp [hcpc, hand]) rfl rfl rfl s.counter (by simp [hcpc, freeing]) trivial
    · rename_i i hcpc
      split at he
      · injection he with he
        subst he
        have := inv_move h .freed [] (by simp [hcpc, hand]) rfl rfl rfl s.counter (by simp [freeing]) trivial
        simpa using this
      · rename_i w hw
        injection he with he
        subst he
        have hwo := h.workers w (List.mem_of_getElem? hw)
        have h1 : ∀ u, ((s.workers.set i { w with status := .term }).flatMap pendingOf).count u ≤ (s.workers.flatMap pendingOf).count u := by
          intro u
          have := count_flatMap_set pendingOf s.workers i w { w with status := .term } u hw
          have e : (pendingOf { w with status := .term }).count u ≤ (pendingOf w).count u := by
            unfold pendingOf
            dsimp only
            by_cases hp : w.pc = .ready ∨ w.pc = .busy
            · rw [if_pos (.inr hp), if_pos (.inr hp)]
              exact Nat.le_refl _
            · rw [if_neg (by rintro (h | h); · cases h.1
                             · exact hp h)]
              simp
          omega
        have hcp : hand s.cpc = [] := by simp [hcpc, hand]
        refine ⟨?_, trivial, h.queues, ?_, ?_, ?_⟩
        · intro x hx
          rcases mem_set hx with hx | rfl
          · exact h.workers x hx
          · exact ⟨by simp, fun hp => ⟨.inr rfl, (hwo.ready hp).2⟩, fun hp => ⟨.inr rfl, (hwo.busy hp).2⟩, fun _ => .inr rfl, fun _ => rfl, by simp⟩
        · intro u
          have a1 := h.most u
          have a2 := h1 u
          simp only [queued, assigned, List.count_append, hcp] at *
          simp only [hand, List.count_nil] at *
          omega
        · intro hn; exact absurd trivial hn
        · intro hn; exact absurd trivial hn
    · rename_i i hcpc
      split at he
      · cases he
      · split at he
        · injection he with he
          subst he
          have := inv_move h (.term (i + 1)) [] (by simp [hcpc, hand]) rfl rfl rfl s.counter (by simp [freeing]) trivial
          simpa using this
        · cases he
  | worker i =>
    simp only [step] at he
    split at he
    · cases he
    · rename_i w hw
      split at he
      · cases he
      · rename_i w' os hws
        injection he with he
        subst he
        obtain ⟨k1, k2, k3, k4, k5⟩ := workerStep_ok (h.workers w (List.mem_of_getElem? hw)) hws
        have h1 : ∀ u, ((s.workers.set i w').flatMap pendingOf).count u + (ran os).count u = (s.workers.flatMap pendingOf).count u := by
          intro u
          have a := count_flatMap_set pendingOf s.workers i w w' u hw
          have b := k5 u
          omega
        -- a WAITING worker stays as it is, so what the client knows stays true
        have hstay : ∀ (k : Nat) (x : Worker α), s.workers[k]? = some x → x.status = .waiting → (s.workers.set i w')[k]? = some x := by
          intro k x hx hst
          by_cases hki : k = i
          · subst hki
            rw [hw] at hx
            injection hx with hx
            subst hx
            rw [get_set_self _ _ _ hw, (k2 hst).1]
          · rw [List.getElem?_set_ne (fun h => hki h.symm)]
            exact hx
        refine ⟨?_, ?_, h.queues, ?_, ?_, ?_⟩
        · intro x hx
          rcases mem_set hx with hx | rfl
          · exact h.workers x hx
          · exact k1
        · have hcl := h.client
          unfold ClientOk at hcl ⊢
          dsimp only at hcl ⊢
          split
          · rename_i k hcpc
            simp only [hcpc] at hcl
            obtain ⟨x, h1, h2⟩ := hcl
            exact ⟨x, hstay k x h1 h2, h2⟩
          · rename_i k v hcpc
            simp only [hcpc] at hcl
            obtain ⟨x, h1, h2, h3⟩ := hcl
            exact ⟨x, hstay k x h1 h2, h2, h3⟩
          · rename_i m hcpc
            simp only [hcpc] at hcl
            intro k x hk hx
            rcases getElem?_set' _ _ _ _ hw hx with ⟨rfl, rfl⟩ | ⟨hne, hx⟩
            · have := hcl k w hk hw
              rw [(k2 this).1]
              exact this
            · exact hcl k x hk hx
          · trivial
        · intro u
          have a1 := h.most u
          have a2 := h1 u
          simp only [queued, assigned, List.count_append, ran_append, accepted_append, k4, List.count_nil] at *
          omega
        · intro hn u
          have a1 := h.least hn u
          have a2 := h1 u
          simp only [queued, assigned, List.count_append, ran_append, accepted_append, k4, List.count_nil] at *
          omega
        · intro hn x hx
          rcases mem_set hx with hx | rfl
          · exact h.live hn x hx
          · exact k3 (h.live hn w (List.mem_of_getElem? hw))

theorem inv_run {s s' : Sys α} {es : List (Ev α)} (h : Inv s) (hr : run s es = some s') : Inv s' := by
  induction es generalizing s with
  | nil => simp only [run] at hr; injection hr with hr; exact hr ▸ h
  | cons e es ih =>
    rw [run] at hr
    split at hr
    · rename_i s1 h1
      exact ih (inv_step h h1) hr
    · cases hr

/-! ## Properties C55 and C56 -/

/-- **C55, at most once.** In every execution, including those that call `zpl_jobs_free`, a job has run at most as often as it was accepted, with the procedure
and data it was enqueued with. -/
theorem C55_at_most_once {n m : Nat} {es : List (Ev α)} {s : Sys α} (hr : run (init n m) es = some s) (v : α) :
    (ran s.log).count v ≤ (accepted s.log).count v := by
  have := (inv_run (inv_init n m) hr).most v
  omega

/-- **C55, none lost.** In every execution, until `zpl_jobs_free` is called, every accepted job is in exactly one place: still queued, assigned to one worker,
or run. -/
theorem C55_every_job_in_one_place {n m : Nat} {es : List (Ev α)} {s : Sys α} (hr : run (init n m) es = some s) (hf : ¬ freeing s.cpc) (v : α) :
    (accepted s.log).count v = (queued s).count v + (assigned s).count v + (ran s.log).count v := by
  have := (inv_run (inv_init n m) hr).least hf v
  omega

/-- **C55, workers.** No worker calls a job it was not given: a worker that has not exited can always take its next step. -/
theorem C55_worker_never_stuck {n m : Nat} {es : List (Ev α)} {s : Sys α} (hr : run (init n m) es = some s) (i : Nat) (w : Worker α)
    (hw : s.workers[i]? = some w) (hx : w.pc ≠ .exited) : ∃ s', step s (.worker i) = some s' := by
  have hwo := (inv_run (inv_init n m) hr).workers w (List.mem_of_getElem? hw)
  simp only [step, hw]
  have : ∃ r, workerStep w = some r := by
    unfold workerStep
    cases hpc : w.pc with
    | top => cases w.status <;> exact ⟨_, rfl⟩
    | ready => exact ⟨_, rfl⟩
    | busy =>
      have := (hwo.busy hpc).2
      cases hj : w.job with
      | none => rw [hj] at this; cases this
      | some v => exact ⟨_, rfl⟩
    | ran => exact ⟨_, rfl⟩
    | exited => exact absurd hpc hx
  obtain ⟨⟨w', os⟩, e⟩ := this
  rw [e]
  exact ⟨_, rfl⟩

omit [DecidableEq α] in
/-- `zpl_jobs_done` returns true only after its last load, with empty queues. -/
theorem done_true {s s' : Sys α} (e : Ev α) (he : step s e = some s') (hl : s'.log = s.log ++ [.done true]) :
    ∃ i, s.cpc = .check i ∧ s.workers[i]? = none ∧ emptyAll s.queues = true ∧ s'.cpc = .idle ∧ s'.workers = s.workers := by
  have hne : ∀ l : List (Obs α), l = s.log ++ [.done true] → l ≠ s.log := by
    intro l h h'
    rw [h'] at h
    have := congrArg List.length h
    simp at this
  cases e with
  | enqueue v p =>
    simp only [step] at he
    split at he
    · split at he <;> (injection he with he; subst he; simp at hl)
    · cases he
  | process =>
    simp only [step] at he
    split at he
    · split at he
      · injection he with he; subst he; simp at hl
      · injection he with he; subst he; exact absurd rfl (hne _ hl)
    · cases he
  | done =>
    simp only [step] at he
    split at he
    · injection he with he; subst he; exact absurd rfl (hne _ hl)
    · cases he
  | free =>
    simp only [step] at he
    split at he
    · injection he with he; subst he; exact absurd rfl (hne _ hl)
    · cases he
  | client =>
    simp only [step, clientStep] at he
    split at he
    · cases he
    · cases he
    · split at he
      · injection he with he; subst he; simp at hl
      · injection he with he; subst he; exact absurd rfl (hne _ hl)
    · split at he
      · cases he
      · split at he
        · injection he with he; subst he; exact absurd rfl (hne _ hl)
        · split at he
          · injection he with he; subst he; exact absurd rfl (hne _ hl)
          · cases he
    · split at he
      · cases he
      · injection he with he; subst he; exact absurd rfl (hne _ hl)
    · rename_i i hcpc
      split at he
      · rename_i hw
        injection he with he
        subst he
        simp at hl
        exact ⟨i, hcpc, hw, hl, rfl, rfl⟩
      · split at he
        · injection he with he; subst he; exact absurd rfl (hne _ hl)
        · injection he with he; subst he; simp at hl
    · split at he
      · injection he with he; subst he; exact absurd rfl (hne _ hl)
      · injection he with he; subst he; exact absurd rfl (hne _ hl)
    · split at he
      · cases he
      · split at he
        · injection he with he; subst he; exact absurd rfl (hne _ hl)
        · cases he
  | worker i =>
    simp only [step] at he
    split at he
    · cases he
    · split at he
      · cases he
      · rename_i w hw w' os hws
        injection he with he
        subst he
        have hos : os = [.done true] := by simpa using hl
        subst hos
        unfold workerStep at hws
        split at hws
        · split at hws <;> (injection hws with hws; injection hws with h1 h2; cases h2)
        · injection hws with hws; injection hws with h1 h2; cases h2
        · split at hws
          · injection hws with hws; injection hws with h1 h2; cases h2
          · cases hws
        · injection hws with hws; injection hws with h1 h2; cases h2
        · cases hws

/-- After the last load of `zpl_jobs_done` every worker is WAITING. -/
theorem all_waiting {s : Sys α} (h : Inv s) {i : Nat} (hc : s.cpc = .check i) (hw : s.workers[i]? = none) :
    ∀ w ∈ s.workers, w.status = .waiting ∧ w.pc = .top := by
  have hcl := h.client
  simp only [ClientOk, hc] at hcl
  have hlen : s.workers.length ≤ i := by
    rcases Nat.lt_or_ge i s.workers.length with h' | h'
    · rw [List.getElem?_eq_getElem h'] at hw; cases hw
    · exact h'
  intro w hw
  have hwo := h.workers _ hw
  obtain ⟨k, hk, rfl⟩ := List.getElem_of_mem hw
  have hst := hcl k _ (by omega) (List.getElem?_eq_getElem hk)
  refine ⟨hst, ?_⟩
  generalize s.workers[k] = w at hst hwo
  cases hpc : w.pc with
  | top => rfl
  | ready => have := (hwo.ready hpc).1; rw [hst] at this; rcases this with h | h <;> cases h
  | busy => have := (hwo.busy hpc).1; rw [hst] at this; rcases this with h | h <;> cases h
  | ran => have := hwo.ran hpc; rw [hst] at this; rcases this with h | h <;> cases h
  | exited => have := hwo.exited hpc; rw [hst] at this; cases this

/-- **C56.** In every execution, when `zpl_jobs_done` returns true every job accepted before has run: exactly as often as it was accepted. -/
theorem C56_done {n m : Nat} {es : List (Ev α)} {s s' : Sys α} (hr : run (init n m) es = some s) (e : Ev α) (he : step s e = some s')
    (hl : s'.log = s.log ++ [.done true]) (v : α) : (ran s'.log).count v = (accepted s'.log).count v := by
  have h := inv_run (inv_init n m) hr
  obtain ⟨i, hc, hw, hq, -, -⟩ := done_true e he hl
  have hall := all_waiting h hc hw
  have hz : s.workers.flatMap pendingOf = [] := by
    rw [List.flatMap_eq_nil_iff]
    intro w hw
    simp [pendingOf, (hall w hw).1, (hall w hw).2]
  have hqz : s.queues.flatten = [] := by
    rw [List.flatten_eq_nil_iff]
    intro q hq'
    have := List.all_eq_true.1 hq q hq'
    simpa using this
  have := h.least (by simp [hc, freeing]) v
  simp only [queued, hqz, assigned, hz, hc, hand] at this
  simp at this
  rw [hl]
  simp [ran, accepted] at this ⊢
  omega

/-! ## C57: shutdown -/

omit [DecidableEq α] in
/-- Deviation: if `zpl_jobs_free` stores TERM while a worker is between reading READY and storing BUSY (jobs.c:20-24), the worker overwrites TERM, runs its
job and goes back to WAITING; it never sees TERM and `zpl_jobs_free` waits for it for ever, whatever the schedule. -/
theorem C57_shutdown_can_hang (s : Sys α) (i : Nat) (v : α) (st : Status) (hc : s.cpc = .term i) (hw : s.workers[i]? = some ⟨st, some v, .ready⟩) :
    ∃ s', run s [.client, .worker i, .worker i, .worker i] = some s' ∧
      ∀ es s'', run s' es = some s'' → s''.cpc = .join i := by
  have hstay : ∀ es (s0 s'' : Sys α), s0.cpc = .join i → s0.workers[i]? = some ⟨.waiting, some v, .top⟩ → run s0 es = some s'' → s''.cpc = .join i := by
    intro es
    induction es with
    | nil => intro s0 s'' h _ h'; simp only [run] at h'; injection h' with h'; exact h' ▸ h
    | cons e es ih =>
      intro s0 s'' h1 h2 h3
      rw [run] at h3
      split at h3
      · rename_i s1 hs
        cases e with
        | enqueue v p => simp [step, h1] at hs
        | process => simp [step, h1] at hs
        | done => simp [step, h1] at hs
        | free => simp [step, h1] at hs
        | client => simp [step, clientStep, h1, h2] at hs
        | worker k =>
          simp only [step] at hs
          split at hs
          · cases hs
          · rename_i w hk
            split at hs
            · cases hs
            · rename_i w' os hws
              injection hs with hs
              subst hs
              refine ih { s0 with workers := s0.workers.set k w', log := s0.log ++ os } s'' h1 ?_ h3
              dsimp only
              by_cases hki : k = i
              · subst hki
                rw [h2] at hk
                injection hk with hk
                subst hk
                simp [workerStep] at hws
                obtain ⟨rfl, -⟩ := hws
                exact get_set_self _ _ _ h2
              · rw [List.getElem?_set_ne hki]
                exact h2
      · cases h3
  refine ⟨{ s with workers := s.workers.set i ⟨.waiting, some v, .top⟩, cpc := .join i, log := s.log ++ [.ran v] }, ?_, fun es s'' h =>
    hstay es _ s'' rfl (by dsimp only; exact get_set_self _ _ _ hw) h⟩
  have e1 : step s .client = some { s with workers := s.workers.set i ⟨.term, some v, .ready⟩, cpc := .join i } := by
    simp only [step, clientStep, hc, hw]
  rw [run, e1]
  dsimp only
  have stepW : ∀ (t : Sys α) (w w' : Worker α) (os : List (Obs α)), t.workers[i]? = some w → workerStep w = some (w', os) →
      step t (.worker i) = some { t with workers := t.workers.set i w', log := t.log ++ os } := by
    intro t w w' os h1 h2
    simp only [step, h1, h2]
  rw [run, stepW _ _ ⟨.busy, some v, .busy⟩ [] (get_set_self _ _ _ hw) rfl]
  dsimp only
  rw [run, stepW _ ⟨.busy, some v, .busy⟩ ⟨.busy, some v, .ran⟩ [.ran v] (by simp only [List.set_set]; exact get_set_self _ _ _ hw) rfl]
  dsimp only
  rw [run, stepW _ ⟨.busy, some v, .ran⟩ ⟨.waiting, some v, .top⟩ [] (by simp only [List.set_set]; exact get_set_self _ _ _ hw) rfl]
  dsimp only
  rw [run]
  simp only [List.set_set, List.append_nil]

/-- A worker that has not been given a job it has yet to pick up, and has not been told to stop. -/
def Calm (w : Worker α) : Prop := WOk w ∧ w.status ≠ .ready ∧ w.status ≠ .term

/-- All workers before `i` are gone, worker `i` is being joined or not yet told, the others are calm. -/
def Stopping (s : Sys α) : Prop :=
  match s.cpc with
  | .term i => i ≤ s.workers.length ∧ ∀ k w, s.workers[k]? = some w → i ≤ k → Calm w
  | .join i => i < s.workers.length ∧ (∀ w, s.workers[i]? = some w → WOk w ∧ w.status = .term ∧ w.pc ≠ .ready) ∧
      ∀ k w, s.workers[k]? = some w → i < k → Calm w
  | .freed => True
  | _ => False

omit [DecidableEq α] in
theorem calm_step {w w' : Worker α} {os : List (Obs α)} (h : Calm w) (hs : workerStep w = some (w', os)) : Calm w' := by
  obtain ⟨h1, h2, h3⟩ := h
  obtain ⟨st, job, pc⟩ := w
  cases pc with
  | top =>
    cases st with
    | ready => exact absurd rfl h2
    | term => exact absurd rfl h3
    | busy => exact absurd rfl (h1.top rfl)
    | waiting => simp [workerStep] at hs; rw [← hs.1]; exact ⟨h1, h2, h3⟩
  | ready => rcases (h1.ready rfl).1 with h | h
             · exact absurd h h2
             · exact absurd h h3
  | busy =>
    cases job with
    | none => simp [workerStep] at hs
    | some v =>
      simp [workerStep] at hs
      rw [← hs.1]
      exact ⟨⟨by simp, by simp, by simp, fun _ => (h1.busy rfl).1, by simp, by simp⟩, h2, h3⟩
  | ran =>
    rcases h1.ran rfl with h | h
    · simp only at h
      subst h
      simp [workerStep] at hs
      rw [← hs.1]
      exact ⟨⟨by simp, by simp, by simp, by simp, by simp, by simp⟩, by simp, by simp⟩
    · exact absurd h h3
  | exited => simp [workerStep] at hs

omit [DecidableEq α] in
theorem told_step {w w' : Worker α} {os : List (Obs α)} (h : WOk w ∧ w.status = .term ∧ w.pc ≠ .ready) (hs : workerStep w = some (w', os)) :
    WOk w' ∧ w'.status = .term ∧ w'.pc ≠ .ready := by
  obtain ⟨h1, h2, h3⟩ := h
  obtain ⟨st, job, pc⟩ := w
  simp only at h2
  subst h2
  cases pc with
  | top =>
    simp [workerStep] at hs
    rw [← hs.1]
    exact ⟨⟨by simp, by simp, by simp, by simp, by simp, by simp⟩, rfl, by simp⟩
  | ready => exact absurd rfl h3
  | busy =>
    cases job with
    | none => simp [workerStep] at hs
    | some v =>
      simp [workerStep] at hs
      rw [← hs.1]
      exact ⟨⟨by simp, by simp, by simp, by simp, by simp, by simp⟩, rfl, by simp⟩
  | ran =>
    simp [workerStep] at hs
    rw [← hs.1]
    exact ⟨⟨by simp, by simp, by simp, by simp, by simp, by simp⟩, rfl, by simp⟩
  | exited => simp [workerStep] at hs

/-- Client steps that `zpl_jobs_free` still has to make. -/
def left (s : Sys α) : Nat :=
  match s.cpc with
  | .term i => 2 * (s.workers.length - i) + 1
  | .join i => 2 * (s.workers.length - i)
  | _ => 0

/-- 1 for a step of the client inside a call. -/
def clientCost : Ev α → Nat
  | .client => 1
  | _ => 0

omit [DecidableEq α] in
theorem stopping_step {s s' : Sys α} {e : Ev α} (h : Stopping s) (he : step s e = some s') :
    Stopping s' ∧ left s' + clientCost e = left s := by
  cases hc : s.cpc with
  | idle => simp [Stopping, hc] at h
  | load i => simp [Stopping, hc] at h
  | assign i => simp [Stopping, hc] at h
  | publish i v => simp [Stopping, hc] at h
  | check i => simp [Stopping, hc] at h
  | freed =>
    cases e with
    | enqueue v p => simp [step, hc] at he
    | process => simp [step, hc] at he
    | done => simp [step, hc] at he
    | free => simp [step, hc] at he
    | client => simp [step, clientStep, hc] at he
    | worker k =>
      simp only [step] at he
      split at he
      · cases he
      · split at he
        · cases he
        · injection he with he
          subst he
          simp [Stopping, hc, left, clientCost]
  | term i =>
    simp only [Stopping, hc] at h
    obtain ⟨h0, h⟩ := h
    cases e with
    | enqueue v p => simp [step, hc] at he
    | process => simp [step, hc] at he
    | done => simp [step, hc] at he
    | free => simp [step, hc] at he
    | client =>
      simp only [step, clientStep, hc] at he
      split at he
      · rename_i hw
        injection he with he
        subst he
        have : s.workers.length ≤ i := by
          rcases Nat.lt_or_ge i s.workers.length with h' | h'
          · rw [List.getElem?_eq_getElem h'] at hw; cases hw
          · exact h'
        simp [Stopping, left, hc, clientCost]
        omega
      · rename_i w hw
        injection he with he
        subst he
        have hlt : i < s.workers.length := by
          rcases Nat.lt_or_ge i s.workers.length with h' | h'
          · exact h'
          · rw [List.getElem?_eq_none h'] at hw; cases hw
        have hwi := h i w hw (Nat.le_refl _)
        refine ⟨?_, by simp [left, hc, clientCost]⟩
        simp only [Stopping, List.length_set]
        refine ⟨hlt, ?_, ?_⟩
        · intro x hx
          rw [get_set_self _ _ _ hw] at hx
          injection hx with hx
          subst hx
          have hr : w.pc ≠ .ready := fun hp => (hwi.1.ready hp).1.elim hwi.2.1 hwi.2.2
          exact ⟨⟨by simp, fun hp => absurd hp hr, fun hp => ⟨.inr rfl, (hwi.1.busy hp).2⟩, fun _ => .inr rfl, fun _ => rfl, by simp⟩, rfl, hr⟩
        · intro k x hx hk
          rw [List.getElem?_set_ne (by omega)] at hx
          exact h k x hx (by omega)
    | worker k =>
      simp only [step] at he
      split at he
      · cases he
      · rename_i w hw
        split at he
        · cases he
        · rename_i w' os hws
          injection he with he
          subst he
          refine ⟨?_, by simp [left, hc, clientCost]⟩
          simp only [Stopping, hc, List.length_set]
          refine ⟨h0, ?_⟩
          intro j x hx hij
          rcases getElem?_set' _ _ _ _ hw hx with ⟨rfl, rfl⟩ | ⟨hne, hx⟩
          · exact calm_step (h j w hw hij) hws
          · exact h j x hx hij
  | join i =>
    simp only [Stopping, hc] at h
    obtain ⟨h0, h1, h2⟩ := h
    cases e with
    | enqueue v p => simp [step, hc] at he
    | process => simp [step, hc] at he
    | done => simp [step, hc] at he
    | free => simp [step, hc] at he
    | client =>
      simp only [step, clientStep, hc] at he
      split at he
      · cases he
      · split at he
        · injection he with he
          subst he
          refine ⟨?_, by simp [left, hc, clientCost]; omega⟩
          simp only [Stopping]
          exact ⟨h0, fun k w hw hk => h2 k w hw hk⟩
        · cases he
    | worker k =>
      simp only [step] at he
      split at he
      · cases he
      · rename_i w hw
        split at he
        · cases he
        · rename_i w' os hws
          injection he with he
          subst he
          refine ⟨?_, by simp [left, hc, clientCost]⟩
          simp only [Stopping, hc, List.length_set]
          refine ⟨h0, ?_, ?_⟩
          · intro x hx
            rcases getElem?_set' _ _ _ _ hw hx with ⟨rfl, rfl⟩ | ⟨hne, hx⟩
            · exact told_step (h1 w hw) hws
            · exact h1 x hx
          · intro j x hx hij
            rcases getElem?_set' _ _ _ _ hw hx with ⟨rfl, rfl⟩ | ⟨hne, hx⟩
            · exact calm_step (h2 j w hw hij) hws
            · exact h2 j x hx hij

/-- Number of client steps in a schedule. -/
def clientSteps (es : List (Ev α)) : Nat := (es.map clientCost).sum

omit [DecidableEq α] in
theorem stopping_run {s s' : Sys α} {es : List (Ev α)} (h : Stopping s) (hr : run s es = some s') : Stopping s' ∧ left s' + clientSteps es = left s := by
  induction es generalizing s with
  | nil => simp only [run] at hr; injection hr with hr; subst hr; exact ⟨h, by simp [clientSteps]⟩
  | cons e es ih =>
    rw [run] at hr
    split at hr
    · rename_i s1 h1
      obtain ⟨k1, k2⟩ := stopping_step h h1
      obtain ⟨j1, j2⟩ := ih k1 hr
      refine ⟨j1, ?_⟩
      simp only [clientSteps, List.map_cons, List.sum_cons] at j2 ⊢
      omega
    · cases hr

/-- **C57, partial.** If no worker is READY (given a job it has not picked up) when `zpl_jobs_free` is called - workers may be busy - then whatever the
schedule does afterwards, `zpl_jobs_free` has returned or its next step can be taken after at most three steps of the worker it joins (finishing its job is
one of them); and it returns after `2 * max_threads + 1` steps of its own.  Missing: READY workers, see `C57_shutdown_can_hang`. -/
theorem C57_shutdown_partial {n m : Nat} {es0 : List (Ev α)} {s : Sys α} (h0 : run (init n m) es0 = some s) (hc : s.cpc = .idle)
    (hall : ∀ w ∈ s.workers, w.status ≠ .ready) (es : List (Ev α)) {s' : Sys α} (hr : run s (.free :: es) = some s') :
    (s'.cpc = .freed ∨ ∃ i k s2, k ≤ 3 ∧ run s' (List.replicate k (.worker i) ++ [.client]) = some s2) ∧
    clientSteps es ≤ 2 * s.workers.length + 1 ∧ (clientSteps es = 2 * s.workers.length + 1 ↔ s'.cpc = .freed) := by
  have hinv := inv_run (inv_init n m) h0
  have e0 : step s .free = some { s with cpc := .term 0 } := by simp [step, hc]
  rw [run, e0] at hr
  have h0 : Stopping { s with cpc := CPc.term 0 } := by
    simp only [Stopping]
    exact ⟨Nat.zero_le _, fun k w hw _ => ⟨hinv.workers w (List.mem_of_getElem? hw), hall w (List.mem_of_getElem? hw),
      hinv.live (by simp [hc, freeing]) w (List.mem_of_getElem? hw)⟩⟩
  obtain ⟨h, hl⟩ := stopping_run h0 hr
  have hl : left s' + clientSteps es = 2 * s.workers.length + 1 := by
    simpa [left] using hl
  have hfr : left s' = 0 ↔ s'.cpc = .freed := by
    cases hc' : s'.cpc with
    | join i => simp [Stopping, hc'] at h; simp [left, hc']; omega
    | term i => simp [left, hc']
    | freed => simp [left, hc']
    | idle => simp [Stopping, hc'] at h
    | load i => simp [Stopping, hc'] at h
    | assign i => simp [Stopping, hc'] at h
    | publish i v => simp [Stopping, hc'] at h
    | check i => simp [Stopping, hc'] at h
  refine ⟨?_, by omega, by rw [← hfr]; omega⟩
  cases hc' : s'.cpc with
  | freed => exact .inl rfl
  | term i =>
    refine .inr ⟨i, 0, ?_⟩
    simp only [List.replicate_zero, List.nil_append, run, step, clientStep, hc']
    cases s'.workers[i]? with
    | none => exact ⟨_, by omega, rfl⟩
    | some w => exact ⟨_, by omega, rfl⟩
  | join i =>
    simp only [Stopping, hc'] at h
    obtain ⟨h1, h2, -⟩ := h
    have hw : s'.workers[i]? = some s'.workers[i] := List.getElem?_eq_getElem h1
    generalize s'.workers[i] = w at hw
    have stepW : ∀ (t : Sys α) (w w' : Worker α) (os : List (Obs α)), t.workers[i]? = some w → workerStep w = some (w', os) →
        step t (.worker i) = some { t with workers := t.workers.set i w', log := t.log ++ os } := by
      intro t w w' os h1 h2
      simp only [step, h1, h2]
    -- from each position, one step nearer to the exit
    have kx : ∀ (t : Sys α) (w : Worker α), t.cpc = .join i → t.workers[i]? = some w → w.pc = .exited → ∃ s2, run t [.client] = some s2 := by
      intro t w h1 h2 h3
      simp only [run, step, clientStep, h1, h2, h3, if_true]
      exact ⟨_, rfl⟩
    have kt : ∀ (t : Sys α) (w : Worker α), t.cpc = .join i → t.workers[i]? = some w → w.pc = .top → w.status = .term →
        ∃ s2, run t [.worker i, .client] = some s2 := by
      intro t w h1 h2 h3 h4
      rw [run, stepW t w { w with pc := .exited } [] h2 (by simp [workerStep, h3, h4])]
      exact kx _ _ h1 (get_set_self _ _ _ h2) rfl
    have kr : ∀ (t : Sys α) (w : Worker α), t.cpc = .join i → t.workers[i]? = some w → w.pc = .ran → w.status = .term →
        ∃ s2, run t [.worker i, .worker i, .client] = some s2 := by
      intro t w h1 h2 h3 h4
      rw [run, stepW t w { w with pc := .top } [] h2 (by simp [workerStep, h3, h4])]
      exact kt _ _ h1 (get_set_self _ _ _ h2) rfl h4
    have kb : ∀ (t : Sys α) (w : Worker α), t.cpc = .join i → t.workers[i]? = some w → w.pc = .busy → w.status = .term → w.job.isSome →
        ∃ s2, run t [.worker i, .worker i, .worker i, .client] = some s2 := by
      intro t w h1 h2 h3 h4 h5
      obtain ⟨v, hv⟩ := Option.isSome_iff_exists.1 h5
      rw [run, stepW t w { w with pc := .ran } [.ran v] h2 (by simp [workerStep, h3, hv])]
      exact kr _ _ h1 (get_set_self _ _ _ h2) rfl h4
    obtain ⟨hwo, hst, hpc⟩ := h2 w hw
    cases hp : w.pc with
    | exited => obtain ⟨s2, e⟩ := kx s' w hc' hw hp; exact .inr ⟨i, 0, s2, by omega, e⟩
    | top => obtain ⟨s2, e⟩ := kt s' w hc' hw hp hst; exact .inr ⟨i, 1, s2, by omega, e⟩
    | ran => obtain ⟨s2, e⟩ := kr s' w hc' hw hp hst; exact .inr ⟨i, 2, s2, by omega, e⟩
    | busy => obtain ⟨s2, e⟩ := kb s' w hc' hw hp hst (hwo.busy hp).2; exact .inr ⟨i, 3, s2, by omega, e⟩
    | ready => exact absurd hp hpc
  | idle => simp [Stopping, hc'] at h
  | load i => simp [Stopping, hc'] at h
  | assign i => simp [Stopping, hc'] at h
  | publish i v => simp [Stopping, hc'] at h
  | check i => simp [Stopping, hc'] at h

/-- **C57, after `zpl_jobs_done`.** When `zpl_jobs_done` has just returned true, the hypotheses of `C57_shutdown_partial` hold. -/
theorem C57_after_done {n m : Nat} {es : List (Ev α)} {s s' : Sys α} (hr : run (init n m) es = some s) (e : Ev α) (he : step s e = some s')
    (hl : s'.log = s.log ++ [.done true]) : s'.cpc = .idle ∧ ∀ w ∈ s'.workers, w.status ≠ .ready := by
  obtain ⟨i, hc, hw, -, h1, h2⟩ := done_true e he hl
  refine ⟨h1, fun w hx => ?_⟩
  rw [h2] at hx
  rw [(all_waiting (inv_run (inv_init n m) hr) hc hw w hx).1]
  simp

/-! ## C58: priorities -/

/-- Successive choices for one free worker, the queues being as given each time. -/
def passes : List (List (List α)) → BitVec 32 → List (Option Nat)
  | [], _ => []
  | qs :: rest, c => (pick qs c).1 :: passes rest (pick qs c).2

/-- Only queue `j` of the five has jobs. -/
def Only (j : Nat) (qs : List (List α)) : Prop := ∃ v q, qs = (List.replicate 5 []).set j (v :: q)

omit [DecidableEq α] in
theorem pick_only {j : Nat} (hj : j < 5) {qs : List (List α)} (h : Only j qs) (c : BitVec 32) :
    pick qs c = (if c.toNat % chances[j] = 0 then some j else none, c + 1) := by
  obtain ⟨v, q, rfl⟩ := h
  match j, hj with
  | 0, _ => simp [pick, pickLoop, List.replicate, chances]; split <;> simp_all
  | 1, _ => simp [pick, pickLoop, List.replicate, chances]; split <;> simp_all
  | 2, _ => simp [pick, pickLoop, List.replicate, chances]; split <;> simp_all
  | 3, _ => simp [pick, pickLoop, List.replicate, chances]; split <;> simp_all
  | 4, _ => simp [pick, pickLoop, List.replicate, chances]; split <;> simp_all

omit [DecidableEq α] in
/-- **C58, the choice.** A job is only ever taken from a queue that has one. -/
theorem C58_choice (qs : List (List α)) (c : BitVec 32) {k : Nat} {c' : BitVec 32} (h : pick qs c = (some k, c')) : ∃ v q, qs[k]? = some (v :: q) := by
  obtain ⟨i, v, q, e, h'⟩ := pick_nonempty 0 false c qs h
  exact ⟨v, q, by rw [e]; simpa using h'⟩

omit [DecidableEq α] in
/-- **C58, partial.** A queue that is the only one with jobs is served at least once in every `chance` consecutive passes (2, 3, 5, 7 or 11), whatever the
counter, wrap-around included.  Missing: several non-empty queues, see `C58_highest_priority_starves`. -/
theorem C58_sole_queue_partial {j : Nat} (hj : j < 5) (snaps : List (List (List α))) (hs : ∀ qs ∈ snaps, Only j qs) (hl : chances[j] ≤ snaps.length)
    (c : BitVec 32) : some j ∈ passes snaps c := by
  have hch : 0 < chances[j] := by
    match j, hj with
    | 0, _ => simp [chances]
    | 1, _ => simp [chances]
    | 2, _ => simp [chances]
    | 3, _ => simp [chances]
    | 4, _ => simp [chances]
  -- `d` passes before the counter is a multiple of the chance
  have key : ∀ (d : Nat) (snaps : List (List (List α))) (c : BitVec 32), (∀ qs ∈ snaps, Only j qs) → (c.toNat + d) % 2 ^ 32 % chances[j] = 0 →
      d < snaps.length → some j ∈ passes snaps c := by
    intro d
    induction d with
    | zero =>
      intro snaps c hs hm hl
      cases snaps with
      | nil => simp at hl
      | cons qs rest =>
        have := c.isLt
        rw [Nat.add_zero, Nat.mod_eq_of_lt this] at hm
        rw [passes, pick_only hj (hs qs (by simp)), if_pos hm]
        simp
    | succ d ih =>
      intro snaps c hs hm hl
      cases snaps with
      | nil => simp at hl
      | cons qs rest =>
        rw [passes, pick_only hj (hs qs (by simp))]
        refine List.mem_cons_of_mem _ (ih rest (c + 1) (fun q hq => hs q (by simp [hq])) ?_ (by simp at hl; omega))
        rw [BitVec.toNat_add, ← hm]
        congr 1
        rw [Nat.mod_add_mod]
        congr 1
        simp
        omega
  -- such a `d` below the chance exists: up to the next multiple, or up to the wrap-around
  have hd : ∃ d, d < chances[j] ∧ (c.toNat + d) % 2 ^ 32 % chances[j] = 0 := by
    have hlt := c.isLt
    generalize c.toNat = n at *
    generalize chances[j] = ch at *
    by_cases hz : n % ch = 0
    · exact ⟨0, hch, by rw [Nat.add_zero, Nat.mod_eq_of_lt hlt]; exact hz⟩
    · have h1 : n % ch < ch := Nat.mod_lt _ hch
      by_cases hw : n + (ch - n % ch) < 2 ^ 32
      · refine ⟨ch - n % ch, by omega, ?_⟩
        rw [Nat.mod_eq_of_lt hw]
        have e := Nat.div_add_mod n ch
        have : n + (ch - n % ch) = ch * (n / ch + 1) := by
          rw [Nat.mul_add]
          omega
        rw [this]
        exact Nat.mul_mod_right _ _
      · refine ⟨2 ^ 32 - n, by omega, ?_⟩
        have : n + (2 ^ 32 - n) = 2 ^ 32 := by omega
        rw [this, Nat.mod_self]
        exact Nat.zero_mod _
  obtain ⟨d, h1, h2⟩ := hd
  exact key d snaps c hs h2 (by omega)

/-- Exactly the two highest priorities have jobs. -/
def TopTwo (qs : List (List α)) : Prop := ∃ v q w r, qs = [v :: q, w :: r, [], [], []]

omit [DecidableEq α] in
theorem pick_topTwo {qs : List (List α)} (h : TopTwo qs) (c : BitVec 32) (ho : c.toNat % 2 = 1) :
    (pick qs c).1 ≠ some 0 ∧ (pick qs c).2 = c + 2 := by
  obtain ⟨v, q, w, r, rfl⟩ := h
  have : ¬ c.toNat % 2 = 0 := by omega
  have h2 : c + 1 + 1 = c + 2#32 := by rw [BitVec.add_assoc]; rfl
  simp only [pick, pickLoop, chances]
  simp [this]
  split
  · exact ⟨by simp, h2⟩
  · exact ⟨by simp, h2⟩

omit [DecidableEq α] in
/-- Deviation: from a fresh pool, as long as the two highest priorities both have jobs (and the others none), the *highest* one is served by the first
pass and never again, for any number of passes: the counter moves by two in every pass and stays odd. -/
theorem C58_highest_priority_starves (snaps : List (List (List α))) (hs : ∀ qs ∈ snaps, TopTwo qs) :
    some 0 ∉ (passes snaps 0).tail := by
  have key : ∀ (snaps : List (List (List α))) (c : BitVec 32), (∀ qs ∈ snaps, TopTwo qs) → c.toNat % 2 = 1 → some 0 ∉ passes snaps c := by
    intro snaps
    induction snaps with
    | nil => intro c _ _; simp [passes]
    | cons qs rest ih =>
      intro c hs ho
      obtain ⟨h1, h2⟩ := pick_topTwo (hs qs (by simp)) c ho
      rw [passes, List.mem_cons, not_or]
      refine ⟨fun h => h1 h.symm, ?_⟩
      rw [h2]
      refine ih _ (fun q hq => hs q (by simp [hq])) ?_
      rw [BitVec.toNat_add]
      have := c.isLt
      simp
      omega
  cases snaps with
  | nil => simp [passes]
  | cons qs rest =>
    rw [passes, List.tail_cons]
    obtain ⟨v, q, w, r, hq⟩ := hs qs (by simp)
    have : (pick qs 0).2 = 1#32 := by
      rw [hq]
      simp [pick, pickLoop, chances]
    rw [this]
    exact key rest 1#32 (fun q hq => hs q (by simp [hq])) (by decide)

omit [DecidableEq α] in
/-- Deviation: a pass that finds nothing does not make the next one take the highest non-empty priority; with only queue `j ≥ 1` non-empty there are
two passes in a row that find nothing, for every counter that has remainder 1 by its chance. -/
theorem C58_two_empty_passes {j : Nat} (hj : j < 5) (h1 : 1 ≤ j) {qs : List (List α)} (h : Only j qs) (c : BitVec 32) (hc : c.toNat % chances[j] = 1)
    (hw : c.toNat + 1 < 2 ^ 32) :
    passes [qs, qs] c = [none, none] := by
  have hch : 3 ≤ chances[j] := by
    match j, hj, h1 with
    | 1, _, _ => simp [chances]
    | 2, _, _ => simp [chances]
    | 3, _, _ => simp [chances]
    | 4, _, _ => simp [chances]
  have h2 : ¬ (c + 1).toNat % chances[j] = 0 := by
    rw [BitVec.toNat_add]
    have : (c.toNat + (1 : BitVec 32).toNat) % 2 ^ 32 = c.toNat + 1 := by
      rw [Nat.mod_eq_of_lt]
      · rfl
      · simpa using hw
    rw [this, Nat.add_mod, hc]
    rw [Nat.mod_eq_of_lt (a := 1) (by omega), Nat.mod_eq_of_lt (by omega)]
    omega
  simp only [passes, pick_only hj h]
  rw [if_neg (by omega), if_neg h2]

/-! ## The hypotheses are met -/

/-- One worker: a job is enqueued, assigned, run; `zpl_jobs_done` says so. -/
example : ∃ s : Sys Nat, run (init 1 4) [.enqueue 7 2, .enqueue 8 2, .process, .client, .client, .client, .worker 0, .worker 0, .worker 0] = some s ∧
    ran s.log = [7] ∧ accepted s.log = [7, 8] ∧ queued s = [8] ∧ ¬ freeing s.cpc := ⟨_, rfl, rfl, rfl, rfl, by simp [freeing]⟩

example : ∃ s s' : Sys Nat, run (init 1 4) [.enqueue 7 2, .process, .client, .client, .client, .client, .worker 0, .worker 0, .worker 0, .worker 0,
    .done, .client] = some s ∧ step s .client = some s' ∧ s'.log = s.log ++ [.done true] ∧ accepted s'.log = [7] := ⟨_, _, rfl, rfl, rfl, rfl⟩

/-- The hanging shutdown is reachable: the worker has read READY when `zpl_jobs_free` is called. -/
example : ∃ s : Sys Nat, run (init 1 4) [.enqueue 7 2, .process, .client, .client, .client, .client, .worker 0, .free] = some s ∧ s.cpc = .term 0 ∧
    s.workers[0]? = some ⟨.ready, some 7, .ready⟩ := ⟨_, rfl, rfl, rfl⟩

/-- A busy worker at shutdown: it finishes its job and leaves. -/
example : ∃ s s' : Sys Nat, run (init 1 4) [.enqueue 7 2, .process, .client, .client, .client, .client, .worker 0, .worker 0] = some s ∧ s.cpc = .idle ∧
    (∀ w ∈ s.workers, w.status ≠ .ready) ∧ run s [.free, .client, .worker 0, .worker 0, .worker 0, .client, .client] = some s' ∧ s'.cpc = .freed ∧
    ran s'.log = [7] :=
  ⟨_, _, rfl, rfl, by decide, rfl, rfl, rfl⟩

/-- A fresh pool meets the hypotheses of the partial theorem, and the shutdown completes. -/
example : ∃ s : Sys Nat, run (init 2 4) [.free, .client, .worker 0, .client, .client, .worker 1, .client, .client] = some s ∧ s.cpc = .freed := ⟨_, rfl, rfl⟩

example : Only 2 ([[], [], [5], [], []] : List (List Nat)) ∧ TopTwo ([[1], [2], [], [], []] : List (List Nat)) :=
  ⟨⟨5, [], rfl⟩, ⟨1, [], 2, [], rfl⟩⟩

/-! ## C75: the limit of a queue -/

omit [DecidableEq α] in
/-- What a step does to one queue: nothing, a job at the end, or the first job taken. -/
theorem queue_step {s s' : Sys α} {e : Ev α} (he : step s e = some s') : s'.maxJobs = s.maxJobs ∧ s'.queues.length = s.queues.length ∧
    ∀ p q, s.queues[p]? = some q →
      s'.queues[p]? = some q ∨ (∃ v, e = .enqueue v p ∧ q.length ≠ s.maxJobs ∧ s'.queues[p]? = some (q ++ [v])) ∨ (∃ v q', q = v :: q' ∧ s'.queues[p]? = some q') := by
  have same : ∀ {s' : Sys α}, s'.maxJobs = s.maxJobs → s'.queues = s.queues → s'.maxJobs = s.maxJobs ∧ s'.queues.length = s.queues.length ∧
      ∀ p q, s.queues[p]? = some q →
        s'.queues[p]? = some q ∨ (∃ v, e = .enqueue v p ∧ q.length ≠ s.maxJobs ∧ s'.queues[p]? = some (q ++ [v])) ∨ (∃ v q', q = v :: q' ∧ s'.queues[p]? = some q') := by
    intro s' h1 h2
    exact ⟨h1, by rw [h2], fun p q hq => .inl (by rw [h2]; exact hq)⟩
  cases e with
  | enqueue v p =>
    simp only [step] at he
    split at he
    · rename_i q hcpc hq
      split at he
      · injection he with he
        subst he
        exact same rfl rfl
      · rename_i hfull
        injection he with he
        subst he
        refine ⟨rfl, by simp, fun p' q' hq' => ?_⟩
        by_cases hp : p' = p
        · subst hp
          obtain rfl : q = q' := by rw [hq] at hq'; injection hq'
          exact .inr (.inl ⟨v, rfl, hfull, get_set_self _ _ _ hq⟩)
        · left
          show (s.queues.set p (q ++ [v]))[p']? = _
          rw [List.getElem?_set_ne (fun h => hp h.symm)]
          exact hq'
    · cases he
  | process =>
    simp only [step] at he
    split at he
    · split at he <;> injection he with he <;> subst he <;> exact same rfl rfl
    · cases he
  | done =>
    simp only [step] at he
    split at he
    · injection he with he; subst he; exact same rfl rfl
    · cases he
  | free =>
    simp only [step] at he
    split at he
    · injection he with he; subst he; exact same rfl rfl
    · cases he
  | worker i =>
    simp only [step] at he
    split at he
    · cases he
    · split at he
      · cases he
      · injection he with he; subst he; exact same rfl rfl
  | client =>
    simp only [step, clientStep] at he
    split at he
    · cases he
    · cases he
    · split at he <;> injection he with he <;> subst he <;> exact same rfl rfl
    · split at he
      · cases he
      · split at he
        · injection he with he; subst he; exact same rfl rfl
        · rename_i j c hpk
          split at he
          · rename_i v q hq
            injection he with he
            subst he
            refine ⟨rfl, by simp, fun p' q' hq' => ?_⟩
            by_cases hp : p' = j
            · subst hp
              obtain rfl : v :: q = q' := by rw [hq] at hq'; injection hq'
              exact .inr (.inr ⟨v, q, rfl, get_set_self _ _ _ hq⟩)
            · left
              show (s.queues.set j q)[p']? = _
              rw [List.getElem?_set_ne (fun h => hp h.symm)]
              exact hq'
          · cases he
    · split at he
      · cases he
      · injection he with he; subst he; exact same rfl rfl
    · split at he
      · injection he with he; subst he; exact same rfl rfl
      · split at he <;> injection he with he <;> subst he <;> exact same rfl rfl
    · split at he
      · injection he with he; subst he; exact same rfl rfl
      · injection he with he; subst he; exact same rfl rfl
    · split at he
      · cases he
      · split at he
        · injection he with he; subst he; exact same rfl rfl
        · cases he

omit [DecidableEq α] in
theorem limit_run {m : Nat} (es : List (Ev α)) (s s' : Sys α) (h : s.maxJobs = m ∧ ∀ q ∈ s.queues, q.length ≤ m) (hr : run s es = some s') :
    s'.maxJobs = m ∧ ∀ q ∈ s'.queues, q.length ≤ m := by
  induction es generalizing s with
  | nil =>
    simp only [run, Option.some.injEq] at hr
    rw [← hr]
    exact h
  | cons e es ih =>
    rw [run] at hr
    cases he : step s e with
    | none => rw [he] at hr; cases hr
    | some s1 =>
      rw [he] at hr
      obtain ⟨h1, h2, h3⟩ := queue_step he
      refine ih s1 ⟨h1.trans h.1, fun q hq => ?_⟩ hr
      obtain ⟨p, hp⟩ := List.getElem?_of_mem hq
      have hlt : p < s.queues.length := by
        rw [← h2]
        rcases Nat.lt_or_ge p s1.queues.length with h' | h'
        · exact h'
        · rw [List.getElem?_eq_none h'] at hp; cases hp
      have hb := h.2 _ (List.getElem_mem hlt)
      rcases h3 p _ (List.getElem?_eq_getElem hlt) with h' | ⟨v, -, hne, h'⟩ | ⟨v, q', hv, h'⟩ <;> rw [hp] at h' <;> injection h' with h' <;> subst h'
      · exact hb
      · rw [h.1] at hne
        simp only [List.length_append, List.length_singleton]
        omega
      · rw [hv] at hb
        simp at hb
        omega

omit [DecidableEq α] in
/-- In every history no priority has more than `max_jobs` jobs waiting. -/
theorem C75_limit {n m : Nat} {es : List (Ev α)} {s : Sys α} (hr : run (init n m) es = some s) (p : Nat) (q : List α) (hq : s.queues[p]? = some q) : q.length ≤ m := by
  refine (limit_run es (init n m) s ⟨rfl, ?_⟩ hr).2 q (List.mem_of_getElem? hq)
  intro q hq
  rw [List.eq_of_mem_replicate hq]
  exact Nat.zero_le _

omit [DecidableEq α] in
/-- A job is refused exactly when `max_jobs` jobs of its priority are waiting; an accepted one becomes the last of its priority, and the other priorities are left alone. -/
theorem C75_refused_iff_full {n m : Nat} {es : List (Ev α)} {s s' : Sys α} (hr : run (init n m) es = some s) {v : α} {p : Nat} {q : List α} (hq : s.queues[p]? = some q)
    (he : step s (.enqueue v p) = some s') :
    (q.length = m ∧ s'.log = s.log ++ [.refused v] ∧ s'.queues = s.queues) ∨ (q.length < m ∧ s'.log = s.log ++ [Obs.accepted v] ∧ s'.queues = s.queues.set p (q ++ [v])) := by
  have hm : s.maxJobs = m := (limit_run es (init n m) s ⟨rfl, by
    intro q hq
    rw [List.eq_of_mem_replicate hq]
    exact Nat.zero_le _⟩ hr).1
  have hle := C75_limit hr p q hq
  simp only [step] at he
  split at he
  · rename_i q' hcpc hq'
    obtain rfl : q = q' := by rw [hq] at hq'; injection hq'
    split at he
    · rename_i h
      injection he with he
      subst he
      exact .inl ⟨h.trans hm, rfl, rfl⟩
    · rename_i h
      injection he with he
      subst he
      rw [hm] at h
      exact .inr ⟨by omega, rfl, rfl⟩
  · cases he

/-! ## C76: the order of jobs of one priority -/

/-- One worker; the jobs of each priority (given by `prio`) are in line. -/
structure Fifo (prio : α → Nat) (p : Nat) (s : Sys α) : Prop where
  one : s.workers.length = 1
  tags : ∀ j q, s.queues[j]? = some q → ∀ v ∈ q, prio v = j
  order : (ran s.log ++ assigned s).filter (fun v => decide (prio v = p)) <+: (accepted s.log).filter (fun v => decide (prio v = p))
  line : ¬ freeing s.cpc → (accepted s.log).filter (fun v => decide (prio v = p)) =
    (ran s.log ++ assigned s).filter (fun v => decide (prio v = p)) ++ (s.queues[p]?.getD [])

omit [DecidableEq α] in
theorem pendingOf_length (w : Worker α) : (pendingOf w).length ≤ 1 := by
  unfold pendingOf
  split
  · cases w.job <;> simp
  · simp

/-- The list version of the count in `workerStep_ok`. -/
theorem workerStep_list {w w' : Worker α} {os : List (Obs α)} (h : WOk w) (hs : workerStep w = some (w', os)) : ran os ++ pendingOf w' = pendingOf w := by
  have hp : (ran os ++ pendingOf w').Perm (pendingOf w) := by
    rw [List.perm_iff_count]
    intro v
    rw [List.count_append]
    exact (workerStep_ok h hs).2.2.2.2 v
  have := pendingOf_length w
  match hpw : pendingOf w, this with
  | [], _ => rw [hpw] at hp; exact List.perm_nil.1 hp
  | [v], _ => rw [hpw] at hp; exact List.perm_singleton.1 hp

theorem fifo_step {prio : α → Nat} {p : Nat} {s s' : Sys α} {e : Ev α} (hI : Inv s) (h : Fifo prio p s) (hp : ∀ v j, e = .enqueue v j → prio v = j) (he : step s e = some s') :
    Fifo prio p s' := by
  have move : ∀ (c : CPc α) (os : List (Obs α)) (cnt : BitVec 32), hand s.cpc = [] → hand c = [] → accepted os = [] → ran os = [] → (freeing s.cpc → freeing c) →
      Fifo prio p { s with cpc := c, log := s.log ++ os, counter := cnt } := by
    intro c os cnt h1 h2 h3 h4 h5
    refine ⟨h.one, h.tags, ?_, ?_⟩
    · have := h.order
      simp only [assigned, ran_append, accepted_append, h1, h2, h3, h4, List.append_nil] at this ⊢
      exact this
    · intro hf
      have := h.line (fun x => hf (h5 x))
      simp only [assigned, ran_append, accepted_append, h1, h2, h3, h4, List.append_nil] at this ⊢
      exact this
  cases e with
  | enqueue v j =>
    have hv := hp v j rfl
    simp only [step] at he
    split at he
    · rename_i q hcpc hq
      split at he
      · injection he with he
        subst he
        have := move .idle [.refused v] s.counter (by simp [hcpc, hand]) rfl rfl rfl (by simp [hcpc, freeing])
        simpa [hcpc] using this
      · injection he with he
        subst he
        have hl := h.line (by simp [hcpc, freeing])
        have hl' : (accepted (s.log ++ [Obs.accepted v])).filter (fun v => decide (prio v = p)) =
            (ran (s.log ++ [Obs.accepted v]) ++ assigned s).filter (fun v => decide (prio v = p)) ++ ((s.queues.set j (q ++ [v]))[p]?.getD []) := by
          rw [accepted_append, List.filter_append, hl]
          have e1 : ran (s.log ++ [Obs.accepted v]) = ran s.log := by simp [ran]
          have e2 : accepted [Obs.accepted v] = [v] := rfl
          rw [e1, e2, List.append_assoc]
          congr 1
          by_cases hjp : j = p
          · subst hjp
            rw [get_set_self _ _ _ hq, hq]
            simp [hv]
          · rw [List.getElem?_set_ne hjp]
            simp [hv, hjp]
        refine ⟨h.one, ?_, ?_, fun _ => hl'⟩
        · intro k q' hk x hx
          rcases getElem?_set' _ _ _ _ hq hk with ⟨rfl, rfl⟩ | ⟨-, hk'⟩
          · rcases List.mem_append.1 hx with hx | hx
            · exact h.tags _ _ hq x hx
            · rw [List.mem_singleton.1 hx]; exact hv
          · exact h.tags _ _ hk' x hx
        · show (ran (s.log ++ [Obs.accepted v]) ++ assigned s).filter _ <+: (accepted (s.log ++ [Obs.accepted v])).filter _
          rw [hl']
          exact List.prefix_append _ _
    · cases he
  | process =>
    simp only [step] at he
    split at he
    · rename_i hcpc
      split at he
      · injection he with he
        subst he
        have := move .idle [.processed false] s.counter (by simp [hcpc, hand]) rfl rfl rfl (by simp [hcpc, freeing])
        simpa [hcpc] using this
      · injection he with he
        subst he
        have := move (.load 0) [] s.counter (by simp [hcpc, hand]) rfl rfl rfl (by simp [hcpc, freeing])
        simpa using this
    · cases he
  | done =>
    simp only [step] at he
    split at he
    · rename_i hcpc
      injection he with he
      subst he
      have := move (.check 0) [] s.counter (by simp [hcpc, hand]) rfl rfl rfl (by simp [hcpc, freeing])
      simpa using this
    · cases he
  | free =>
    simp only [step] at he
    split at he
    · rename_i hcpc
      injection he with he
      subst he
      have := move (.term 0) [] s.counter (by simp [hcpc, hand]) rfl rfl rfl (by simp [freeing])
      simpa using this
    · cases he
  | worker i =>
    simp only [step] at he
    split at he
    · cases he
    · rename_i w hw
      split at he
      · cases he
      · rename_i w' os hws
        injection he with he
        subst he
        have hwok := hI.workers w (List.mem_of_getElem? hw)
        have hlist := workerStep_list hwok hws
        have hacc := (workerStep_ok hwok hws).2.2.2.1
        obtain ⟨x, hx⟩ : ∃ x, s.workers = [x] := List.length_eq_one_iff.1 h.one
        have hi : i = 0 := by
          rw [hx] at hw
          match i, hw with
          | 0, _ => rfl
        subst hi
        obtain rfl : w = x := by
          rw [hx] at hw
          injection hw with hw
          exact hw.symm
        have hset : s.workers.set 0 w' = [w'] := by rw [hx]; rfl
        -- a job in the client's hand means that the worker is waiting
        have hhand : hand s.cpc ≠ [] → w' = w ∧ os = [] := by
          intro hh
          have hcl := hI.client
          cases hc : s.cpc with
          | publish k v =>
            simp only [ClientOk, hc] at hcl
            obtain ⟨y, hy, hst, -⟩ := hcl
            have : k = 0 ∧ y = w := by
              rw [hx] at hy
              match k, hy with
              | 0, hy => injection hy with hy; exact ⟨rfl, hy.symm⟩
            exact (workerStep_ok hwok hws).2.1 (by rw [← this.2]; exact hst)
          | _ => rw [hc] at hh; exact absurd rfl hh
        have hra : ran (s.log ++ os) ++ assigned { s with workers := [w'], log := s.log ++ os } = ran s.log ++ assigned s := by
          simp only [assigned, ran_append, hx, List.flatMap_cons, List.flatMap_nil, List.append_nil]
          by_cases hh : hand s.cpc = []
          · rw [hh, List.nil_append, List.nil_append, List.append_assoc, hlist]
          · obtain ⟨rfl, rfl⟩ := hhand hh
            simp [ran]
        rw [hset]
        refine ⟨rfl, h.tags, ?_, ?_⟩
        · show (ran (s.log ++ os) ++ assigned { s with workers := [w'], log := s.log ++ os }).filter _ <+: (accepted (s.log ++ os)).filter _
          rw [hra, accepted_append, hacc, List.append_nil]
          exact h.order
        · intro hf
          show (accepted (s.log ++ os)).filter _ = (ran (s.log ++ os) ++ assigned { s with workers := [w'], log := s.log ++ os }).filter _ ++ _
          rw [hra, accepted_append, hacc, List.append_nil]
          exact h.line hf
  | client =>
    obtain ⟨x, hx⟩ : ∃ x, s.workers = [x] := List.length_eq_one_iff.1 h.one
    have only : ∀ {i : Nat} {w : Worker α}, s.workers[i]? = some w → i = 0 ∧ w = x := by
      intro i w hw
      rw [hx] at hw
      match i, hw with
      | 0, hw => injection hw with hw; exact ⟨rfl, hw.symm⟩
    have waits : ∀ {w : Worker α}, w ∈ s.workers → w.status = .waiting → w.pc = .top := by
      intro w hw hst
      have hwo := hI.workers w hw
      cases hpc : w.pc with
      | top => rfl
      | ready => have := (hwo.ready hpc).1; rw [hst] at this; rcases this with h | h <;> cases h
      | busy => have := (hwo.busy hpc).1; rw [hst] at this; rcases this with h | h <;> cases h
      | ran => have := hwo.ran hpc; rw [hst] at this; rcases this with h | h <;> cases h
      | exited => have := hwo.exited hpc; rw [hst] at this; cases this
    simp only [step, clientStep] at he
    split at he
    · cases he
    · cases he
    · rename_i i hcpc
      split at he
      · injection he with he
        subst he
        exact move .idle [.processed true] s.counter (by simp [hcpc, hand]) rfl rfl rfl (by simp [hcpc, freeing])
      · rename_i w hw
        injection he with he
        subst he
        by_cases hst : w.status = .waiting
        · have := move (.assign i) [] s.counter (by simp [hcpc, hand]) rfl rfl rfl (by simp [hcpc, freeing])
          simpa [hst] using this
        · have := move (.load (i + 1)) [] s.counter (by simp [hcpc, hand]) rfl rfl rfl (by simp [hcpc, freeing])
          simpa [hst] using this
    · rename_i i hcpc
      split at he
      · cases he
      · rename_i w hw
        split at he
        · rename_i c hpk
          injection he with he
          subst he
          have := move (.load (i + 1)) [] c (by simp [hcpc, hand]) rfl rfl rfl (by simp [hcpc, freeing])
          simpa using this
        · rename_i j c hpk
          split at he
          · rename_i v q hq
            injection he with he
            subst he
            have hcl := hI.client
            simp only [ClientOk, hcpc] at hcl
            obtain ⟨w', hw', hst⟩ := hcl
            obtain rfl : w = w' := by rw [hw] at hw'; injection hw'
            obtain ⟨rfl, rfl⟩ := only hw
            have hpc := waits (List.mem_of_getElem? hw) hst
            have hv : prio v = j := h.tags j _ hq v (by simp)
            have hset : s.workers.set 0 { w with job := some v } = [{ w with job := some v }] := by rw [hx]; rfl
            have ha : assigned s = [] := by
              simp [assigned, hcpc, hand, hx, pendingOf, hst, hpc]
            have ha' : assigned { s with counter := c, queues := s.queues.set j q, workers := s.workers.set 0 { w with job := some v }, cpc := .publish 0 v } = [v] := by
              show hand (.publish 0 v) ++ (s.workers.set 0 { w with job := some v }).flatMap pendingOf = [v]
              rw [hset]
              simp [hand, pendingOf, hst, hpc]
            have hl := h.line (by simp [hcpc, freeing])
            have hl' : (accepted s.log).filter (fun v => decide (prio v = p)) = (ran s.log ++ [v]).filter (fun v => decide (prio v = p)) ++ ((s.queues.set j q)[p]?.getD []) := by
              rw [hl, ha, List.append_nil, List.filter_append, List.append_assoc]
              congr 1
              by_cases hjp : j = p
              · subst hjp
                rw [get_set_self _ _ _ hq, hq]
                simp [hv]
              · rw [List.getElem?_set_ne hjp]
                simp [hv, hjp]
            refine ⟨by simpa using h.one, ?_, ?_, fun _ => ?_⟩
            · intro k q' hk y hy
              rcases getElem?_set' _ _ _ _ hq hk with ⟨rfl, rfl⟩ | ⟨-, hk'⟩
              · exact h.tags _ _ hq y (List.mem_cons_of_mem _ hy)
              · exact h.tags _ _ hk' y hy
            · rw [ha']
              show (ran s.log ++ [v]).filter _ <+: (accepted s.log).filter _
              rw [hl']
              exact List.prefix_append _ _
            · rw [ha']
              exact hl'
          · cases he
    · rename_i i v hcpc
      split at he
      · cases he
      · rename_i w hw
        injection he with he
        subst he
        have hcl := hI.client
        simp only [ClientOk, hcpc] at hcl
        obtain ⟨w', hw', hst, hjob⟩ := hcl
        obtain rfl : w = w' := by rw [hw] at hw'; injection hw'
        obtain ⟨rfl, rfl⟩ := only hw
        have hpc := waits (List.mem_of_getElem? hw) hst
        have hset : s.workers.set 0 { w with status := .ready } = [{ w with status := .ready }] := by rw [hx]; rfl
        have ha : assigned s = [v] := by
          simp [assigned, hcpc, hand, hx, pendingOf, hst, hpc]
        have ha' : assigned { s with workers := s.workers.set 0 { w with status := .ready }, cpc := .load (0 + 1) } = [v] := by
          show hand (.load (0 + 1)) ++ (s.workers.set 0 { w with status := .ready }).flatMap pendingOf = [v]
          rw [hset]
          simp [hand, pendingOf, hpc, hjob]
        refine ⟨by simpa using h.one, h.tags, ?_, fun _ => ?_⟩
        · rw [ha', ← ha]
          exact h.order
        · rw [ha', ← ha]
          exact h.line (by simp [hcpc, freeing])
    · rename_i i hcpc
      split at he
      · injection he with he
        subst he
        exact move .idle [.done (emptyAll s.queues)] s.counter (by simp [hcpc, hand]) rfl rfl rfl (by simp [hcpc, freeing])
      · rename_i w hw
        split at he
        · injection he with he
          subst he
          have := move (.check (i + 1)) [] s.counter (by simp [hcpc, hand]) rfl rfl rfl (by simp [hcpc, freeing])
          simpa using this
        · injection he with he
          subst he
          exact move .idle [.done false] s.counter (by simp [hcpc, hand]) rfl rfl rfl (by simp [hcpc, freeing])
    · rename_i i hcpc
      split at he
      · injection he with he
        subst he
        have := move .freed [] s.counter (by simp [hcpc, hand]) rfl rfl rfl (by simp [freeing])
        simpa using this
      · rename_i w hw
        injection he with he
        subst he
        obtain ⟨rfl, rfl⟩ := only hw
        have hset : s.workers.set 0 { w with status := .term } = [{ w with status := .term }] := by rw [hx]; rfl
        have hsub : pendingOf { w with status := .term } = pendingOf w ∨ pendingOf { w with status := .term } = [] := by
          unfold pendingOf
          by_cases h1 : w.pc = .ready ∨ w.pc = .busy
          · left
            rw [if_pos (.inr h1), if_pos (.inr h1)]
          · right
            rw [if_neg (by
              rintro (h | h)
              · cases h.1
              · exact h1 h)]
        have hpre : assigned { s with workers := s.workers.set 0 { w with status := .term }, cpc := .join 0 } <+: assigned s := by
          show hand (.join 0) ++ (s.workers.set 0 { w with status := .term }).flatMap pendingOf <+: assigned s
          rw [hset]
          simp only [assigned, hcpc, hand, hx, List.flatMap_cons, List.flatMap_nil, List.append_nil, List.nil_append]
          rcases hsub with h | h <;> rw [h]
          · exact List.prefix_refl _
          · exact List.nil_prefix
        refine ⟨by simpa using h.one, h.tags, ?_, fun hf => absurd trivial hf⟩
        refine List.IsPrefix.trans ?_ h.order
        rw [List.filter_append, List.filter_append]
        exact (List.prefix_append_right_inj _).2 (hpre.filter _)
    · rename_i i hcpc
      split at he
      · cases he
      · split at he
        · injection he with he
          subst he
          have := move (.term (i + 1)) [] s.counter (by simp [hcpc, hand]) rfl rfl rfl (by simp [freeing])
          simpa using this
        · cases he

theorem fifo_run {prio : α → Nat} {p : Nat} (es : List (Ev α)) (hp : ∀ v j, Ev.enqueue v j ∈ es → prio v = j) {s s' : Sys α} (hI : Inv s) (h : Fifo prio p s)
    (hr : run s es = some s') : Fifo prio p s' := by
  induction es generalizing s with
  | nil =>
    simp only [run, Option.some.injEq] at hr
    rw [← hr]
    exact h
  | cons e es ih =>
    rw [run] at hr
    cases he : step s e with
    | none => rw [he] at hr; cases hr
    | some s1 =>
      rw [he] at hr
      exact ih (fun v j hv => hp v j (List.mem_cons_of_mem _ hv)) (inv_step hI he) (fifo_step hI h (fun v j hv => hp v j (by rw [← hv]; simp)) he) hr

/-- With one worker, the jobs of each priority run in the order in which they were accepted, in every history. -/
theorem C76_fifo {m : Nat} {es : List (Ev α)} {s : Sys α} (prio : α → Nat) (hp : ∀ v j, Ev.enqueue v j ∈ es → prio v = j) (hr : run (init 1 m) es = some s) (p : Nat) :
    (ran s.log).filter (fun v => decide (prio v = p)) <+: (accepted s.log).filter (fun v => decide (prio v = p)) := by
  have h0 : Fifo prio p (init 1 m : Sys α) := by
    refine ⟨rfl, ?_, ?_, ?_⟩
    · intro j q hq v hv
      rw [List.eq_of_mem_replicate (List.mem_of_getElem? hq)] at hv
      cases hv
    · exact List.prefix_refl _
    · intro _
      have : ((init 1 m : Sys α).queues[p]?.getD []) = [] := by
        cases hq : (init 1 m : Sys α).queues[p]? with
        | none => rfl
        | some q => rw [List.eq_of_mem_replicate (List.mem_of_getElem? hq)]; rfl
      rw [this]
      rfl
  have := (fifo_run es hp (inv_init 1 m) h0 hr).order
  rw [List.filter_append] at this
  exact (List.prefix_append _ _).trans this

/-- Three jobs of two priorities and a queue of one place: the third is refused, the others run in order. -/
example : ∃ s : Sys Nat, run (init 1 1) [.enqueue 20 2, .enqueue 30 3, .enqueue 21 2, .process, .client, .client, .client, .worker 0, .worker 0, .worker 0] = some s ∧
    s.log = [.accepted 20, .accepted 30, .refused 21, .ran 20] ∧ s.queues = [[], [], [], [30], []] := ⟨_, rfl, rfl, rfl⟩

end Zpl.Jobs
