import Mathlib.Data.Nat.Pairing
import Verif.Basic

/-!
# Threads: start, join, destroy (code/source/threading/thread.c, sem.c)  -  C120

One `zpl_thread` object, used by one parent thread, and the threads that `zpl_thread_start` makes from it, under every interleaving.

Simplifications: memory is sequentially consistent (the accesses to `is_running` are plain in the code; `C120_poll_races` says where they race); the semaphore is a
counter (trusted: `sem_post`, `sem_wait`); a procedure together with its data is a number, takes `len` steps and returns `val`; `pthread_create` makes a thread or
fails with an error number; `pthread_join` waits until the thread has ended.  The stack size and the name of a thread are not modelled. -/

namespace Zpl.Thread

/-! ## Model -/

/-- `t->proc` with `t->user_data`. -/
abbrev Proc := Nat

/-- The procedures of a program: how many steps each takes, and what it returns. -/
structure Code where
  len : Proc → Nat
  val : Proc → Int

/-- Where a thread that was started is: thread.c:52-58 `zpl__thread_proc` with 37-41 `zpl__thread_run` inlined.  `p` is the procedure that it has called. -/
inductive Phase where
  /-- before line 58, `t->is_running = true` -/
  | created
  /-- before line 41, the release of the semaphore -/
  | running
  /-- before line 43, the call -/
  | posted
  /-- in the procedure -/
  | inProc (p : Proc) (left : Nat)
  /-- before line 60, `t->is_running = false` -/
  | stored (p : Proc)
  /-- it has ended -/
  | finished
  deriving DecidableEq, Repr

/-- What `t->posix_handle` holds: 0, a thread, or what a failed `pthread_create` left there. -/
inductive Handle where
  | zero
  | thread (i : Nat)
  | junk
  deriving DecidableEq, Repr

/-- What the parent calls. -/
inductive Op where
  /-- `zpl_thread_start` -/
  | start (p : Proc)
  /-- `zpl_thread_join` -/
  | join
  /-- `zpl_thread_is_running` -/
  | poll
  /-- a read of `t->return_value` -/
  | result
  /-- `zpl_thread_destroy` -/
  | destroy
  deriving DecidableEq, Repr

/-- What the parent is told. -/
inductive Ans where
  | start (r : Int)
  | poll (b : Bool)
  | result (v : Int)
  deriving DecidableEq, Repr

/-- Where the parent is inside a call. -/
inductive Pc where
  /-- between calls (a call of `zpl_thread_join` that must wait is not yet counted as begun) -/
  | idle
  /-- before thread.c:85, `pthread_create` -/
  | create
  /-- at thread.c:93, in `zpl_semaphore_wait` -/
  | wait
  /-- before thread.c:104, `t->posix_handle = 0` -/
  | joinClear
  /-- before thread.c:37, the end of the semaphore -/
  | destroySem
  deriving DecidableEq, Repr

structure State where
  /-- the calls the parent has still to make -/
  todo : List Op
  pc : Pc
  answers : List Ans
  handle : Handle
  proc : Proc
  ret : Int
  isRunning : Bool
  nowait : Bool
  sem : Nat
  semLive : Bool
  /-- the threads made, in order -/
  kids : List Phase
  /-- the procedures called, in order -/
  calls : List Proc
  deriving DecidableEq, Repr

/-- thread.c:8-23 `zpl_thread_init_nowait` and `zpl_thread_init`, with the calls that follow. -/
def init (nowait : Bool) (prog : List Op) : State :=
  { todo := prog, pc := .idle, answers := [], handle := .zero, proc := 0, ret := 0, isRunning := false, nowait := nowait, sem := 0, semLive := true, kids := [], calls := [] }

/-- Who takes the next step.  `refused err`: the parent, and if it is in `pthread_create` that fails with the number `err`. -/
inductive Choice where
  | parent
  | refused (err : Int)
  | child (i : Nat)
  deriving DecidableEq, Repr

/-- Has thread `i` ended? -/
def ended (s : State) (i : Nat) : Bool := decide (s.kids[i]? = some .finished)

/-- A step of the parent: thread.c:6, 25-38, 68-106.  A thread that must wait stays where it is. -/
def parentStep (err : Int) (s : State) : Except Fault State :=
  match s.pc with
  | .idle =>
    match s.todo with
    | [] => .ok s
    | .start p :: r => if s.isRunning then .error .assertion else .ok { s with todo := r, proc := p, pc := .create }
    | .poll :: r => .ok { s with todo := r, answers := s.answers ++ [.poll s.isRunning] }
    | .result :: r => .ok { s with todo := r, answers := s.answers ++ [.result s.ret] }
    | .join :: r =>
      match s.handle with
      | .thread i => .ok (if ended s i then { s with todo := r, pc := .joinClear } else s)
      | _ => .error .ub
    | .destroy :: r =>
      match s.handle with
      | .zero => .ok { s with todo := r, pc := .destroySem }
      | .thread i => .ok (if ended s i then { s with todo := r, handle := .zero, pc := .destroySem } else s)
      | .junk => .error .ub
  | .create =>
    if err ≠ 0 then .ok { s with handle := .junk, pc := .idle, answers := s.answers ++ [.start err] }
    else
      let s : State := { s with handle := .thread s.kids.length, kids := s.kids ++ [.created] }
      .ok (if s.nowait then { s with pc := .idle, answers := s.answers ++ [.start 1] } else { s with pc := .wait })
  | .wait =>
    if s.semLive = false then .error .ub
    else .ok (if s.sem = 0 then s else { s with sem := s.sem - 1, pc := .idle, answers := s.answers ++ [.start 1] })
  | .joinClear => .ok { s with handle := .zero, pc := .idle }
  | .destroySem => .ok (if s.nowait then { s with pc := .idle } else { s with semLive := false, pc := .idle })

/-- A step of thread `i`: thread.c:57-61, 40-44. -/
def childStep (C : Code) (i : Nat) (s : State) : Except Fault State :=
  match s.kids[i]? with
  | none => .ok s
  | some .created => .ok { s with isRunning := true, kids := s.kids.set i .running }
  | some .running =>
    if s.nowait then .ok { s with kids := s.kids.set i .posted }
    else if s.semLive = false then .error .ub
    else .ok { s with sem := s.sem + 1, kids := s.kids.set i .posted }
  | some .posted => .ok { s with calls := s.calls ++ [s.proc], kids := s.kids.set i (.inProc s.proc (C.len s.proc)) }
  | some (.inProc p (n + 1)) => .ok { s with kids := s.kids.set i (.inProc p n) }
  | some (.inProc p 0) => .ok { s with ret := C.val p, kids := s.kids.set i (.stored p) }
  | some (.stored _) => .ok { s with isRunning := false, kids := s.kids.set i .finished }
  | some .finished => .ok s

def step (C : Code) (s : State) : Choice → Except Fault State
  | .parent => parentStep 0 s
  | .refused err => parentStep err s
  | .child i => childStep C i s

/-- An execution: the schedule says who moves. -/
def exec (C : Code) (s : State) : List Choice → Except Fault State
  | [] => .ok s
  | c :: cs => do exec C (← step C s c) cs

/-! ## Specification -/

/-- The calls follow the life of a thread: it is started when it is not in use, joined after it was started, destroyed at the end. -/
def Life : Bool → List Op → Prop
  | _, [] => True
  | used, .poll :: r => Life used r
  | used, .result :: r => Life used r
  | used, .start _ :: r => used = false ∧ Life true r
  | used, .join :: r => used = true ∧ Life false r
  | _, .destroy :: r => r = []

/-- The procedures that a program starts. -/
def starts : List Op → List Proc
  | [] => []
  | .start p :: r => p :: starts r
  | _ :: r => starts r

/-- The system makes every thread it is asked for. -/
def Granted (cs : List Choice) : Prop := ∀ c ∈ cs, ∀ e, c ≠ .refused e

/-- Every thread that was made has ended. -/
def AllEnded (s : State) : Prop := ∀ k ∈ s.kids, k = .finished

/-- The parent has made the calls before `rest`, and the last of them has returned. -/
def Returned (s : State) (rest : List Op) : Prop := s.pc = .idle ∧ s.todo = rest

/-! ## The invariant -/

/-- Whether the thread is in use after a call. -/
def after (u : Bool) : Op → Bool
  | .start _ => true
  | .join => false
  | .destroy => false
  | _ => u

/-- The calls before `todo` have left the thread in use, or not. -/
def Past (prog todo : List Op) (u : Bool) : Prop := ∃ pre, prog = pre ++ todo ∧ pre.foldl after false = u

theorem past_next {prog r : List Op} {u : Bool} {o : Op} (h : Past prog (o :: r) u) : Past prog r (after u o) := by
  obtain ⟨pre, h1, h2⟩ := h
  exact ⟨pre ++ [o], by simp [h1], by simp [h2]⟩

def Phase.early : Phase → Bool
  | .created => true
  | .running => true
  | .posted => true
  | _ => false

/-- the procedure, once it is called, is `q` -/
def Phase.calls (q : Proc) : Phase → Prop
  | .inProc p _ => p = q
  | .stored p => p = q
  | _ => True

/-- No thread is alive. -/
structure Rest (C : Code) (prog : List Op) (s : State) : Prop where
  kids : AllEnded s
  handle : s.handle = .zero
  running : s.isRunning = false
  sem : s.sem = 0
  ret : ∀ p, s.calls.getLast? = some p → s.ret = C.val p
  pc : (s.pc = .idle ∧ (Life false s.todo ∧ Past prog s.todo false) ∧ (s.semLive = true ∨ s.todo = []) ∧ s.calls ++ starts s.todo = starts prog) ∨
       (s.pc = .create ∧ (Life true s.todo ∧ Past prog s.todo true) ∧ s.semLive = true ∧ s.calls ++ s.proc :: starts s.todo = starts prog) ∨
       (s.pc = .destroySem ∧ (s.todo = [] ∧ Past prog s.todo false) ∧ s.calls = starts prog)

/-- The last thread made is in the phase `ph`, the others have ended. -/
structure Busy (C : Code) (prog : List Op) (old : List Phase) (ph : Phase) (s : State) : Prop where
  kids : s.kids = old ++ [ph]
  before : ∀ k ∈ old, k = .finished
  handle : s.handle = .thread old.length
  running : s.isRunning = decide (ph ≠ .created ∧ ph ≠ .finished)
  live : s.semLive = true
  called : s.calls ++ (if ph.early then [s.proc] else []) ++ starts s.todo = starts prog
  proc : ph.calls s.proc
  last : ph.early = false → s.calls.getLast? = some s.proc
  ret : ph = .finished ∨ ph = .stored s.proc → s.ret = C.val s.proc
  pc : (s.pc = .idle ∧ (Life true s.todo ∧ Past prog s.todo true) ∧ s.sem = 0 ∧ (s.nowait = false → ph ≠ .created ∧ ph ≠ .running)) ∨
       (s.pc = .wait ∧ (Life true s.todo ∧ Past prog s.todo true) ∧ s.nowait = false ∧ s.sem = if ph = .created ∨ ph = .running then 0 else 1) ∨
       (s.pc = .joinClear ∧ (Life false s.todo ∧ Past prog s.todo false) ∧ s.sem = 0 ∧ ph = .finished)

def Inv (C : Code) (prog : List Op) (s : State) : Prop := Rest C prog s ∨ ∃ old ph, Busy C prog old ph s

/-- What is left to do. -/
def Op.cost (C : Code) : Op → Nat
  | .start p => C.len p + 20
  | _ => 5

def Phase.cost (C : Code) (q : Proc) : Phase → Nat
  | .created => C.len q + 7
  | .running => C.len q + 6
  | .posted => C.len q + 5
  | .inProc _ n => n + 3
  | .stored _ => 1
  | .finished => 0

def Pc.cost (C : Code) (q : Proc) : Pc → Nat
  | .idle => 0
  | .create => C.len q + 15
  | _ => 2

def left (C : Code) (s : State) : Nat := (s.todo.map (Op.cost C)).sum + s.pc.cost C s.proc + (s.kids.map (Phase.cost C s.proc)).sum

theorem kids_cost (C : Code) (q : Proc) : ∀ (l : List Phase), (∀ k ∈ l, k = .finished) → (l.map (Phase.cost C q)).sum = 0
  | [], _ => rfl
  | k :: l, h => by
    have := h k (by simp)
    subst this
    simp [Phase.cost, kids_cost C q l (fun k hk => h k (by simp [hk]))]

theorem old_cost {C : Code} {q : Proc} {old : List Phase} (ho : ∀ k ∈ old, k = .finished) (ph : Phase) : ((old ++ [ph]).map (Phase.cost C q)).sum = ph.cost C q := by
  simp [kids_cost C q old ho]

theorem rest_child {C : Code} {prog : List Op} {s : State} (h : Rest C prog s) (i : Nat) : childStep C i s = .ok s := by
  unfold childStep
  cases e : s.kids[i]? with
  | none => rfl
  | some k => rw [h.kids k (List.mem_of_getElem? e)]

/-- The parent when no thread is alive. -/
theorem rest_parent {C : Code} {prog : List Op} {s : State} (h : Rest C prog s) :
    ∃ s', parentStep 0 s = .ok s' ∧ Inv C prog s' ∧ ((s' = s ∧ s.pc = .idle ∧ s.todo = []) ∨ left C s' < left C s) := by
  obtain ⟨todo, pc, answers, handle, proc, ret, isRunning, nowait, sem, semLive, kids, calls⟩ := s
  obtain ⟨h1, h2, h3, h4, h5, h6⟩ := h
  dsimp only at h1 h2 h3 h4 h5 h6
  subst h2 h3 h4
  rcases h6 with ⟨rfl, ⟨hl, hu⟩, hs, hc⟩ | ⟨rfl, ⟨hl, hu⟩, hs, hc⟩ | ⟨rfl, ⟨hl, hu⟩, hc⟩
  · cases todo with
    | nil => exact ⟨_, rfl, .inl ⟨h1, rfl, rfl, rfl, h5, .inl ⟨rfl, ⟨hl, hu⟩, hs, hc⟩⟩, .inl ⟨rfl, rfl, rfl⟩⟩
    | cons o r =>
      have hs' : semLive = true := by rcases hs with hs | hs; exact hs; cases hs
      cases o with
      | start p => exact ⟨_, rfl, .inl ⟨h1, rfl, rfl, rfl, h5, .inr (.inl ⟨rfl, ⟨hl.2, past_next hu⟩, hs', hc⟩)⟩, .inr (by
          have e1 := kids_cost C proc kids h1
          have e2 := kids_cost C p kids h1
          simp only [left, Op.cost, Pc.cost, List.map_cons, List.sum_cons, e1, e2]; omega)⟩
      | join => exact absurd hl.1 (by decide)
      | poll => exact ⟨_, rfl, .inl ⟨h1, rfl, rfl, rfl, h5, .inl ⟨rfl, ⟨hl, past_next hu⟩, .inl hs', hc⟩⟩, .inr (by simp only [left, Op.cost, Pc.cost, List.map_cons, List.sum_cons]; omega)⟩
      | result => exact ⟨_, rfl, .inl ⟨h1, rfl, rfl, rfl, h5, .inl ⟨rfl, ⟨hl, past_next hu⟩, .inl hs', hc⟩⟩, .inr (by simp only [left, Op.cost, Pc.cost, List.map_cons, List.sum_cons]; omega)⟩
      | destroy =>
        have hl : r = [] := hl
        subst hl
        exact ⟨_, rfl, .inl ⟨h1, rfl, rfl, rfl, h5, .inr (.inr ⟨rfl, ⟨rfl, past_next hu⟩, by simpa [starts] using hc⟩)⟩, .inr (by
          simp only [left, Op.cost, Pc.cost, List.map_cons, List.sum_cons]; omega)⟩
  · cases nowait with
    | true =>
      refine ⟨_, rfl, .inr ⟨kids, .created, rfl, h1, rfl, rfl, hs, by simpa [Phase.early] using hc, trivial, by simp [Phase.early], by simp, .inl ⟨rfl, ⟨hl, hu⟩, rfl, by simp⟩⟩, .inr ?_⟩
      simp only [left, Pc.cost, if_true, old_cost h1, kids_cost C proc kids h1, Phase.cost]; omega
    | false =>
      refine ⟨_, rfl, .inr ⟨kids, .created, rfl, h1, rfl, rfl, hs, by simpa [Phase.early] using hc, trivial, by simp [Phase.early], by simp, .inr (.inl ⟨rfl, ⟨hl, hu⟩, rfl, by simp⟩)⟩,
        .inr ?_⟩
      simp only [left, Pc.cost, Bool.false_eq_true, if_false, old_cost h1, kids_cost C proc kids h1, Phase.cost]; omega
  · subst hl
    cases nowait with
    | true => exact ⟨_, rfl, .inl ⟨h1, rfl, rfl, rfl, h5, .inl ⟨rfl, ⟨trivial, hu⟩, .inr rfl, by simpa [starts] using hc⟩⟩, .inr (by simp only [left, Pc.cost, if_true]; omega)⟩
    | false => exact ⟨_, rfl, .inl ⟨h1, rfl, rfl, rfl, h5, .inl ⟨rfl, ⟨trivial, hu⟩, .inr rfl, by simpa [starts] using hc⟩⟩, .inr (by
        simp only [left, Pc.cost, Bool.false_eq_true, if_false]; omega)⟩

/-- The parent while a thread is alive. -/
theorem busy_parent {C : Code} {prog : List Op} {old : List Phase} {ph : Phase} {s : State} (h : Busy C prog old ph s) :
    ∃ s', parentStep 0 s = .ok s' ∧ Inv C prog s' ∧ ((s' = s ∧ (ph = .finished → s.pc = .idle ∧ s.todo = [])) ∨ left C s' < left C s) := by
  obtain ⟨todo, pc, answers, handle, proc, ret, isRunning, nowait, sem, semLive, kids, calls⟩ := s
  obtain ⟨h1, h2, h3, h4, h5, h6, h7, h8, h9, h10⟩ := h
  dsimp only at h1 h2 h3 h4 h5 h6 h7 h8 h9 h10
  subst h1 h3 h5
  rcases h10 with ⟨rfl, ⟨hl, hu⟩, hs, hn⟩ | ⟨rfl, ⟨hl, hu⟩, hn, hs⟩ | ⟨rfl, ⟨hl, hu⟩, hs, rfl⟩
  · cases todo with
    | nil => exact ⟨_, rfl, .inr ⟨old, ph, rfl, h2, rfl, h4, rfl, h6, h7, h8, h9, .inl ⟨rfl, ⟨hl, hu⟩, hs, hn⟩⟩, .inl ⟨rfl, fun _ => ⟨rfl, rfl⟩⟩⟩
    | cons o r =>
      cases o with
      | start p => exact absurd hl.1 (by decide)
      | poll => exact ⟨_, rfl, .inr ⟨old, ph, rfl, h2, rfl, h4, rfl, h6, h7, h8, h9, .inl ⟨rfl, ⟨hl, past_next hu⟩, hs, hn⟩⟩, .inr (by
          simp only [left, Op.cost, Pc.cost, List.map_cons, List.sum_cons]; omega)⟩
      | result => exact ⟨_, rfl, .inr ⟨old, ph, rfl, h2, rfl, h4, rfl, h6, h7, h8, h9, .inl ⟨rfl, ⟨hl, past_next hu⟩, hs, hn⟩⟩, .inr (by
          simp only [left, Op.cost, Pc.cost, List.map_cons, List.sum_cons]; omega)⟩
      | join =>
        by_cases hp : ph = .finished
        · refine ⟨⟨r, .joinClear, answers, .thread old.length, proc, ret, isRunning, nowait, sem, true, old ++ [ph], calls⟩, ?_,
            .inr ⟨old, ph, rfl, h2, rfl, h4, rfl, h6, h7, h8, h9, .inr (.inr ⟨rfl, ⟨hl.2, past_next hu⟩, hs, hp⟩)⟩, .inr (by
              simp only [left, Op.cost, Pc.cost, List.map_cons, List.sum_cons]; omega)⟩
          simp [parentStep, ended, hp]
        · refine ⟨_, ?_, .inr ⟨old, ph, rfl, h2, rfl, h4, rfl, h6, h7, h8, h9, .inl ⟨rfl, ⟨hl, hu⟩, hs, hn⟩⟩, .inl ⟨rfl, fun h => absurd h hp⟩⟩
          simp [parentStep, ended, hp]
      | destroy =>
        have hl' : r = [] := hl
        subst hl'
        by_cases hp : ph = .finished
        · subst hp
          refine ⟨⟨[], .destroySem, answers, .zero, proc, ret, isRunning, nowait, sem, true, old ++ [.finished], calls⟩, ?_,
            .inl ⟨?_, rfl, by simpa using h4, hs, ?_, .inr (.inr ⟨rfl, ⟨rfl, past_next hu⟩, by simpa [Phase.early, starts] using h6⟩)⟩, .inr (by
              simp only [left, Op.cost, Pc.cost, List.map_cons, List.sum_cons]; omega)⟩
          · simp [parentStep, ended]
          · intro k hk
            rcases List.mem_append.1 hk with hk | hk
            · exact h2 k hk
            · simpa using hk
          · intro p hp
            dsimp only at hp
            rw [h8 rfl] at hp
            cases hp
            exact h9 (.inl rfl)
        · refine ⟨_, ?_, .inr ⟨old, ph, rfl, h2, rfl, h4, rfl, h6, h7, h8, h9, .inl ⟨rfl, ⟨hl, hu⟩, hs, hn⟩⟩, .inl ⟨rfl, fun h => absurd h hp⟩⟩
          simp [parentStep, ended, hp]
  · by_cases he : ph = .created ∨ ph = .running
    · rw [if_pos he] at hs
      subst hs
      exact ⟨_, rfl, .inr ⟨old, ph, rfl, h2, rfl, h4, rfl, h6, h7, h8, h9, .inr (.inl ⟨rfl, ⟨hl, hu⟩, hn, by simp [he]⟩)⟩, .inl ⟨rfl, fun h => by subst h; simp at he⟩⟩
    · rw [if_neg he] at hs
      subst hs
      exact ⟨_, rfl, .inr ⟨old, ph, rfl, h2, rfl, h4, rfl, h6, h7, h8, h9, .inl ⟨rfl, ⟨hl, hu⟩, rfl, fun _ => ⟨fun h => he (.inl h), fun h => he (.inr h)⟩⟩⟩, .inr (by
        simp only [left, Pc.cost, Nat.one_ne_zero, if_false]; omega)⟩
  · refine ⟨_, rfl, .inl ⟨?_, rfl, by simpa using h4, hs, ?_, .inl ⟨rfl, ⟨hl, hu⟩, .inl rfl, by simpa [Phase.early] using h6⟩⟩, .inr (by simp only [left, Pc.cost]; omega)⟩
    · intro k hk
      rcases List.mem_append.1 hk with hk | hk
      · exact h2 k hk
      · simpa using hk
    · intro p hp
      dsimp only at hp
      rw [h8 rfl] at hp
      cases hp
      exact h9 (.inl rfl)

theorem set_last (old : List Phase) (a b : Phase) : (old ++ [a]).set old.length b = old ++ [b] := by simp

/-- The thread that is alive. -/
theorem busy_child {C : Code} {prog : List Op} {old : List Phase} {ph : Phase} {s : State} (h : Busy C prog old ph s) (hp : ph ≠ .finished) :
    ∃ s', childStep C old.length s = .ok s' ∧ Inv C prog s' ∧ left C s' < left C s := by
  obtain ⟨todo, pc, answers, handle, proc, ret, isRunning, nowait, sem, semLive, kids, calls⟩ := s
  obtain ⟨h1, h2, h3, h4, h5, h6, h7, h8, h9, h10⟩ := h
  dsimp only at h1 h2 h3 h4 h5 h6 h7 h8 h9 h10
  subst h1 h3 h5
  have hk : (old ++ [ph])[old.length]? = some ph := by simp
  unfold childStep
  simp only [hk, set_last]
  cases ph with
  | finished => exact absurd rfl hp
  | created =>
    refine ⟨_, rfl, .inr ⟨old, .running, rfl, h2, rfl, by simp, rfl, h6, trivial, by simp [Phase.early], by simp, ?_⟩, ?_⟩
    · rcases h10 with ⟨a, b, c, d⟩ | ⟨a, b, c, d⟩ | ⟨a, b, c, d⟩
      · exact .inl ⟨a, b, c, fun h => absurd rfl (d h).1⟩
      · exact .inr (.inl ⟨a, b, c, by simpa using d⟩)
      · cases d
    · simp only [left, old_cost h2, Phase.cost]; omega
  | running =>
    cases nowait with
    | true =>
      refine ⟨_, rfl, .inr ⟨old, .posted, rfl, h2, rfl, by simpa using h4, rfl, h6, trivial, by simp [Phase.early], by simp, ?_⟩, ?_⟩
      · rcases h10 with ⟨a, b, c, d⟩ | ⟨a, b, c, d⟩ | ⟨a, b, c, d⟩
        · exact .inl ⟨a, b, c, by simp⟩
        · cases c
        · cases d
      · simp only [left, old_cost h2, Phase.cost]; omega
    | false =>
      refine ⟨_, rfl, .inr ⟨old, .posted, rfl, h2, rfl, by simpa using h4, rfl, h6, trivial, by simp [Phase.early], by simp, ?_⟩, ?_⟩
      · rcases h10 with ⟨a, b, c, d⟩ | ⟨a, b, c, d⟩ | ⟨a, b, c, d⟩
        · exact absurd rfl (d rfl).2
        · exact .inr (.inl ⟨a, b, c, by simpa using d⟩)
        · cases d
      · simp only [left, old_cost h2, Phase.cost]; omega
  | posted =>
    refine ⟨_, rfl, .inr ⟨old, .inProc proc (C.len proc), rfl, h2, rfl, by simpa using h4, rfl, by simpa [Phase.early] using h6, rfl, by simp, by simp, ?_⟩, ?_⟩
    · rcases h10 with ⟨a, b, c, d⟩ | ⟨a, b, c, d⟩ | ⟨a, b, c, d⟩
      · exact .inl ⟨a, b, c, by simp⟩
      · exact .inr (.inl ⟨a, b, c, by simpa using d⟩)
      · cases d
    · simp only [left, old_cost h2, Phase.cost]; omega
  | inProc p n =>
    have h7 : p = proc := h7
    subst h7
    cases n with
    | zero =>
      refine ⟨_, rfl, .inr ⟨old, .stored p, rfl, h2, rfl, by simpa using h4, rfl, by simpa [Phase.early] using h6, rfl, fun _ => h8 rfl, fun _ => rfl, ?_⟩, ?_⟩
      · rcases h10 with ⟨a, b, c, d⟩ | ⟨a, b, c, d⟩ | ⟨a, b, c, d⟩
        · exact .inl ⟨a, b, c, by simp⟩
        · exact .inr (.inl ⟨a, b, c, by simpa using d⟩)
        · cases d
      · simp only [left, old_cost h2, Phase.cost]; omega
    | succ n =>
      refine ⟨_, rfl, .inr ⟨old, .inProc p n, rfl, h2, rfl, by simpa using h4, rfl, by simpa [Phase.early] using h6, rfl, fun _ => h8 rfl, by simp, ?_⟩, ?_⟩
      · rcases h10 with ⟨a, b, c, d⟩ | ⟨a, b, c, d⟩ | ⟨a, b, c, d⟩
        · exact .inl ⟨a, b, c, by simp⟩
        · exact .inr (.inl ⟨a, b, c, by simpa using d⟩)
        · cases d
      · simp only [left, old_cost h2, Phase.cost]; omega
  | stored p =>
    have h7 : p = proc := h7
    subst h7
    refine ⟨_, rfl, .inr ⟨old, .finished, rfl, h2, rfl, by simp, rfl, by simpa [Phase.early] using h6, trivial, fun _ => h8 rfl, fun _ => h9 (.inr rfl), ?_⟩, ?_⟩
    · rcases h10 with ⟨a, b, c, d⟩ | ⟨a, b, c, d⟩ | ⟨a, b, c, d⟩
      · exact .inl ⟨a, b, c, by simp⟩
      · exact .inr (.inl ⟨a, b, c, by simpa using d⟩)
      · cases d
    · simp only [left, old_cost h2, Phase.cost]; omega

/-- Every other thread. -/
theorem busy_other {C : Code} {prog : List Op} {old : List Phase} {ph : Phase} {s : State} (h : Busy C prog old ph s) (i : Nat) (hi : i ≠ old.length ∨ ph = .finished) :
    childStep C i s = .ok s := by
  unfold childStep
  cases e : s.kids[i]? with
  | none => rfl
  | some k =>
    have : k = .finished := by
      rw [h.kids] at e
      rcases hi with hi | hi
      · by_cases hl : i < old.length
        · rw [List.getElem?_append_left hl] at e
          exact h.before k (List.mem_of_getElem? e)
        · have : old.length < i := by omega
          rw [List.getElem?_eq_none (by simp; omega)] at e
          cases e
      · subst hi
        have := List.mem_of_getElem? e
        rcases List.mem_append.1 this with hk | hk
        · exact h.before k hk
        · simpa using hk
    rw [this]

/-- A step keeps the invariant, and either changes nothing or leaves less to do. -/
theorem inv_step {C : Code} {prog : List Op} {s : State} (h : Inv C prog s) {c : Choice} (hc : ∀ e, c ≠ .refused e) :
    ∃ s', step C s c = .ok s' ∧ Inv C prog s' ∧ (s' = s ∨ left C s' < left C s) := by
  cases c with
  | refused e => exact absurd rfl (hc e)
  | parent =>
    rcases h with h | ⟨old, ph, h⟩
    · obtain ⟨s', h1, h2, h3⟩ := rest_parent h
      exact ⟨s', h1, h2, h3.imp (·.1) id⟩
    · obtain ⟨s', h1, h2, h3⟩ := busy_parent h
      exact ⟨s', h1, h2, h3.imp (·.1) id⟩
  | child i =>
    rcases h with h | ⟨old, ph, h⟩
    · exact ⟨s, rest_child h i, .inl h, .inl rfl⟩
    · by_cases hi : i ≠ old.length ∨ ph = .finished
      · exact ⟨s, busy_other h i hi, .inr ⟨old, ph, h⟩, .inl rfl⟩
      · have hi1 : i = old.length := by by_cases h : i = old.length; exact h; exact absurd (.inl h) hi
        subst hi1
        obtain ⟨s', h1, h2, h3⟩ := busy_child h (fun h => hi (.inr h))
        exact ⟨s', h1, h2, .inr h3⟩

theorem inv_exec {C : Code} {prog : List Op} : ∀ {cs : List Choice} {s : State}, Inv C prog s → Granted cs → ∃ s', exec C s cs = .ok s' ∧ Inv C prog s'
  | [], s, h, _ => ⟨s, rfl, h⟩
  | c :: cs, s, h, hg => by
    obtain ⟨s1, h1, h2, -⟩ := inv_step h (hg c (by simp))
    obtain ⟨s', h3, h4⟩ := inv_exec (cs := cs) h2 (fun c hc => hg c (by simp [hc]))
    refine ⟨s', ?_, h4⟩
    unfold exec
    rw [h1]
    exact h3

theorem inv_init (C : Code) (nowait : Bool) {prog : List Op} (h : Life false prog) : Inv C prog (init nowait prog) :=
  .inl ⟨by simp [AllEnded, init], rfl, rfl, rfl, by simp [init], .inl ⟨rfl, ⟨h, [], rfl, rfl⟩, .inl rfl, rfl⟩⟩

theorem starts_append (a b : List Op) : starts (a ++ b) = starts a ++ starts b := by
  induction a with
  | nil => rfl
  | cons o a ih => cases o <;> simp [starts, ih]

theorem nowait_step {C : Code} {s s' : State} {c : Choice} (h : step C s c = .ok s') : s'.nowait = s.nowait := by
  have hp : ∀ e, parentStep e s = .ok s' → s'.nowait = s.nowait := by
    intro e h
    unfold parentStep at h
    split at h
    · split at h
      · cases h; rfl
      · split at h <;> cases h; rfl
      · cases h; rfl
      · cases h; rfl
      · split at h <;> cases h; split <;> rfl
      · split at h <;> cases h
        · rfl
        · split <;> rfl
    · split at h <;> cases h
      · rfl
      · split <;> rfl
    · split at h <;> cases h; split <;> rfl
    · cases h; rfl
    · cases h; split <;> rfl
  cases c with
  | parent => exact hp 0 h
  | refused e => exact hp e h
  | child i =>
    change childStep C i s = .ok s' at h
    unfold childStep at h
    split at h
    · cases h; rfl
    · cases h; rfl
    · split at h
      · cases h; rfl
      · split at h <;> cases h; rfl
    all_goals (cases h; rfl)

theorem nowait_exec {C : Code} : ∀ (cs : List Choice) {s s' : State}, exec C s cs = .ok s' → s'.nowait = s.nowait
  | [], s, s', h => by cases h; rfl
  | c :: cs, s, s', h => by
    unfold exec at h
    cases e : step C s c with
    | error x => rw [e] at h; cases h
    | ok t => rw [e] at h; rw [nowait_exec cs h, nowait_step e]

/-! ## C120 -/

/-- C120.  A program that follows the life of a thread does no wrong under any schedule - no assertion fails, nothing is joined that is not a thread, no semaphore is used
after its end - and the procedures are called in the order in which they were started, each at most once. -/
theorem C120_safe (C : Code) (nowait : Bool) {prog : List Op} (h : Life false prog) {cs : List Choice} (hg : Granted cs) :
    ∃ s, exec C (init nowait prog) cs = .ok s ∧ s.calls <+: starts prog := by
  obtain ⟨s, h1, h2⟩ := inv_exec (inv_init C nowait h) hg
  refine ⟨s, h1, ?_⟩
  rcases h2 with h2 | ⟨old, ph, h2⟩
  · rcases h2.pc with ⟨-, -, -, e⟩ | ⟨-, -, -, e⟩ | ⟨-, -, e⟩
    · exact ⟨_, e⟩
    · exact ⟨_, e⟩
    · rw [e]; exact List.prefix_rfl
  · exact ⟨_, by rw [← List.append_assoc]; exact h2.called⟩

theorem past_join {prog pre rest : List Op} {o : Op} {u : Bool} (e : prog = pre ++ o :: rest) (h : Past prog rest u) : u = after (pre.foldl after false) o := by
  obtain ⟨pre', h1, h2⟩ := h
  have : pre' = pre ++ [o] := by
    apply List.append_cancel_right (bs := rest)
    rw [← h1, e]; simp
  rw [← h2, this]; simp

/-- C120.  When a call of `zpl_thread_join` has returned: every procedure started so far has been called once, in order, and nothing else; every thread has ended; the thread
is not running; and the return value is that of the procedure started last. -/
theorem C120_join (C : Code) (nowait : Bool) {pre rest : List Op} (h : Life false (pre ++ .join :: rest)) {cs : List Choice} (hg : Granted cs) {s : State}
    (he : exec C (init nowait (pre ++ .join :: rest)) cs = .ok s) (hr : Returned s rest) :
    s.calls = starts pre ∧ AllEnded s ∧ s.isRunning = false ∧ ∀ p, (starts pre).getLast? = some p → s.ret = C.val p := by
  obtain ⟨s', h1, h2⟩ := inv_exec (inv_init C nowait h) hg
  rw [he] at h1
  cases h1
  obtain ⟨r1, r2⟩ := hr
  have hst : starts (pre ++ .join :: rest) = starts pre ++ starts rest := by rw [starts_append]; rfl
  rcases h2 with h2 | ⟨old, ph, h2⟩
  · rcases h2.pc with ⟨-, -, -, e⟩ | ⟨e, -⟩ | ⟨e, -⟩
    · rw [r2, hst] at e
      have e := List.append_cancel_right e
      exact ⟨e, h2.kids, h2.running, fun p hp => h2.ret p (by rw [e]; exact hp)⟩
    · rw [r1] at e; cases e
    · rw [r1] at e; cases e
  · exfalso
    rcases h2.pc with ⟨-, ⟨-, e⟩, -⟩ | ⟨e, -⟩ | ⟨e, -⟩
    · rw [r2] at e
      have := past_join rfl e
      simp [after] at this
    · rw [r1] at e; cases e
    · rw [r1] at e; cases e

/-- C120.  When a call of `zpl_thread_start` has returned, in the waiting mode: the new thread has announced itself - it is running, unless it has already ended with its procedure
called and the return value stored. -/
theorem C120_start_waits (C : Code) {pre rest : List Op} {p : Proc} (h : Life false (pre ++ .start p :: rest)) {cs : List Choice} (hg : Granted cs) {s : State}
    (he : exec C (init false (pre ++ .start p :: rest)) cs = .ok s) (hr : Returned s rest) :
    s.isRunning = true ∨ (AllEnded s ∧ s.calls = starts pre ++ [p] ∧ s.ret = C.val p) := by
  obtain ⟨s', h1, h2⟩ := inv_exec (inv_init C false h) hg
  rw [he] at h1
  cases h1
  obtain ⟨r1, r2⟩ := hr
  have hnw : s.nowait = false := nowait_exec cs he
  have hst : starts (pre ++ .start p :: rest) = starts pre ++ [p] ++ starts rest := by rw [starts_append]; simp [starts]
  rcases h2 with h2 | ⟨old, ph, h2⟩
  · exfalso
    rcases h2.pc with ⟨-, ⟨-, e⟩, -⟩ | ⟨e, -⟩ | ⟨e, -⟩
    · rw [r2] at e
      have := past_join rfl e
      simp [after] at this
    · rw [r1] at e; cases e
    · rw [r1] at e; cases e
  · rcases h2.pc with ⟨-, -, -, e⟩ | ⟨e, -⟩ | ⟨e, -⟩
    · by_cases hf : ph = .finished
      · right
        subst hf
        have hc := h2.called
        rw [r2, hst] at hc
        have hc := List.append_cancel_right hc
        have hc : s.calls = starts pre ++ [p] := by simpa [Phase.early] using hc
        have hl := h2.last rfl
        rw [hc] at hl
        have hl : p = s.proc := by simpa using hl
        refine ⟨?_, hc, by rw [hl]; exact h2.ret (.inl rfl)⟩
        intro k hk
        rw [h2.kids] at hk
        rcases List.mem_append.1 hk with hk | hk
        · exact h2.before k hk
        · simpa using hk
      · left
        rw [h2.running]
        simp [hf, (e hnw).1]
    · rw [r1] at e; cases e
    · rw [r1] at e; cases e

/-- C120.  When `zpl_thread_destroy` has returned, every thread has ended and every procedure has been called: nothing uses the object any more. -/
theorem C120_destroy (C : Code) (nowait : Bool) {pre : List Op} (h : Life false (pre ++ [.destroy])) {cs : List Choice} (hg : Granted cs) {s : State}
    (he : exec C (init nowait (pre ++ [.destroy])) cs = .ok s) (hr : Returned s []) : AllEnded s ∧ s.calls = starts pre ∧ s.isRunning = false := by
  obtain ⟨s', h1, h2⟩ := inv_exec (inv_init C nowait h) hg
  rw [he] at h1
  cases h1
  obtain ⟨r1, r2⟩ := hr
  have hst : starts (pre ++ [.destroy]) = starts pre := by rw [starts_append]; simp [starts]
  rcases h2 with h2 | ⟨old, ph, h2⟩
  · rcases h2.pc with ⟨-, -, -, e⟩ | ⟨e, -⟩ | ⟨e, -⟩
    · rw [r2, hst] at e
      exact ⟨h2.kids, by simpa [starts] using e, h2.running⟩
    · rw [r1] at e; cases e
    · rw [r1] at e; cases e
  · exfalso
    rcases h2.pc with ⟨-, ⟨-, e⟩, -⟩ | ⟨e, -⟩ | ⟨e, -⟩
    · rw [r2] at e
      have := past_join rfl e
      simp [after] at this
    · rw [r1] at e; cases e
    · rw [r1] at e; cases e

/-- Everybody gets a turn again and again, and threads are made when asked for. -/
structure Fair (σ : Nat → Choice) : Prop where
  parent : ∀ n, ∃ m, n ≤ m ∧ σ m = .parent
  child : ∀ i n, ∃ m, n ≤ m ∧ σ m = .child i
  granted : ∀ n e, σ n ≠ .refused e

theorem exec_append (C : Code) : ∀ (a b : List Choice) (s s' : State), exec C s a = .ok s' → exec C s (a ++ b) = exec C s' b
  | [], b, s, s', h => by cases h; rfl
  | c :: a, b, s, s', h => by
    unfold exec at h
    cases e : step C s c with
    | error x => rw [e] at h; cases h
    | ok t =>
      rw [e] at h
      show (step C s c >>= fun x => exec C x (a ++ b)) = _
      rw [e]
      exact exec_append C a b t s' h

/-- Somebody can move, unless all is done. -/
theorem inv_progress {C : Code} {prog : List Op} {s : State} (h : Inv C prog s) :
    (Returned s [] ∧ AllEnded s) ∨ ∃ c s', (c = .parent ∨ ∃ i, c = .child i) ∧ step C s c = .ok s' ∧ left C s' < left C s := by
  rcases h with h | ⟨old, ph, h⟩
  · obtain ⟨s', h1, -, h3⟩ := rest_parent h
    rcases h3 with ⟨-, a, b⟩ | h3
    · exact .inl ⟨⟨a, b⟩, h.kids⟩
    · exact .inr ⟨.parent, s', .inl rfl, h1, h3⟩
  · by_cases hp : ph = .finished
    · obtain ⟨s', h1, -, h3⟩ := busy_parent h
      rcases h3 with ⟨-, a⟩ | h3
      · refine .inl ⟨a hp, ?_⟩
        intro k hk
        rw [h.kids] at hk
        rcases List.mem_append.1 hk with hk | hk
        · exact h.before k hk
        · rw [List.mem_singleton.1 hk, hp]
      · exact .inr ⟨.parent, s', .inl rfl, h1, h3⟩
    · obtain ⟨s', h1, -, h3⟩ := busy_child h hp
      exact .inr ⟨_, s', .inr ⟨_, rfl⟩, h1, h3⟩

/-- C120.  No deadlock and no endless wait: under every fair schedule the parent makes all its calls, every call returns, and all threads end. -/
theorem C120_terminates (C : Code) (nowait : Bool) {prog : List Op} (h : Life false prog) {σ : Nat → Choice} (hσ : Fair σ) :
    ∃ n s, exec C (init nowait prog) ((List.range n).map σ) = .ok s ∧ Returned s [] ∧ AllEnded s ∧ s.calls = starts prog := by
  -- from any point that is not the end, later less is left
  have key : ∀ (k n : Nat) (s : State), left C s = k → exec C (init nowait prog) ((List.range n).map σ) = .ok s → Inv C prog s →
      ∃ n s, exec C (init nowait prog) ((List.range n).map σ) = .ok s ∧ Returned s [] ∧ AllEnded s ∧ Inv C prog s := by
    intro k
    induction k using Nat.strongRecOn with
    | _ k ih =>
      intro n s hk he hi
      rcases inv_progress hi with ⟨a, b⟩ | ⟨c, s', hc, h1, h2⟩
      · exact ⟨n, s, he, a, b, hi⟩
      · obtain ⟨m, hm, hcm⟩ : ∃ m, n ≤ m ∧ σ m = c := by
          rcases hc with rfl | ⟨i, rfl⟩
          · exact hσ.parent n
          · exact hσ.child i n
        -- walk from n to m + 1
        have walk : ∀ d, n + d ≤ m → (∃ n' t, exec C (init nowait prog) ((List.range n').map σ) = .ok t ∧ Inv C prog t ∧ left C t < k) ∨
            exec C (init nowait prog) ((List.range (n + d)).map σ) = .ok s := by
          intro d
          induction d with
          | zero => intro _; exact .inr he
          | succ d ihd =>
            intro hd
            rcases ihd (by omega) with h | h
            · exact .inl h
            · obtain ⟨t, t1, t2, t3⟩ := inv_step hi (hσ.granted (n + d))
              have et : exec C (init nowait prog) ((List.range (n + d + 1)).map σ) = .ok t := by
                rw [List.range_succ, List.map_append, exec_append C _ _ _ _ h]
                simp only [List.map_cons, List.map_nil, exec, t1]
                rfl
              rcases t3 with rfl | t3
              · exact .inr et
              · exact .inl ⟨_, t, et, t2, by omega⟩
        have fin : ∃ n' t, exec C (init nowait prog) ((List.range n').map σ) = .ok t ∧ Inv C prog t ∧ left C t < k := by
          rcases walk (m - n) (by omega) with h | h
          · exact h
          · have hmn : n + (m - n) = m := by omega
            rw [hmn] at h
            obtain ⟨t, t1, t2, -⟩ := inv_step hi (hσ.granted m)
            rw [hcm, h1] at t1
            cases t1
            refine ⟨m + 1, s', ?_, t2, by omega⟩
            rw [List.range_succ, List.map_append, exec_append C _ _ _ _ h]
            simp only [List.map_cons, List.map_nil, exec, hcm, h1]
            rfl
        obtain ⟨n', t, t1, t2, t3⟩ := fin
        exact ih _ t3 n' t rfl t1 t2
  obtain ⟨n, s, h1, h2, h3, h4⟩ := key _ 0 _ rfl rfl (inv_init C nowait h)
  refine ⟨n, s, h1, h2, h3, ?_⟩
  rcases h4 with h4 | ⟨old, ph, h4⟩
  · rcases h4.pc with ⟨-, -, -, e⟩ | ⟨e, -⟩ | ⟨e, -⟩
    · rw [h2.2] at e; simpa [starts] using e
    · rw [h2.1] at e; cases e
    · rw [h2.1] at e; cases e
  · have hp : ph = .finished := h3 ph (by rw [h4.kids]; simp)
    have := h4.called
    rw [h2.2, hp] at this
    simpa [starts, Phase.early] using this

/-! ## Where it fails -/

/-- C120, where it fails: in the mode without waiting, `zpl_thread_start` may return before the thread runs: `zpl_thread_is_running` says no though the procedure is still to be
called; and a second start then is not noticed: the second procedure is called twice, the first never. -/
theorem C120_nowait_lost (C : Code) (p q : Proc) :
    ∃ cs s, Granted cs ∧ exec C (init true [.start p, .poll, .start q, .join]) cs = .ok s ∧ s.answers = [.start 1, .poll false, .start 1] ∧ s.calls = [q, q] := by
  refine ⟨[.parent, .parent, .parent, .parent, .parent, .child 0, .child 0, .child 1, .child 1, .child 0, .child 1], _, ?_, rfl, rfl, rfl⟩
  intro c hc e
  simp only [List.mem_cons, List.not_mem_nil, or_false] at hc
  rcases hc with rfl | rfl | rfl | rfl | rfl | rfl | rfl | rfl | rfl | rfl | rfl <;> simp

/-- C120, where it fails: what a failed start returns is not 0 but the error number; for `EPERM`, which is 1, exactly what a successful one returns.  Joining the thread then is
undefined, and so is destroying it. -/
theorem C120_failed_start (C : Code) (nowait : Bool) (p : Proc) (err : Int) (he : err ≠ 0) :
    (∃ s, exec C (init nowait [.start p]) [.parent, .refused err] = .ok s ∧ s.answers = [.start err] ∧ s.kids = []) ∧
    exec C (init nowait [.start p, .join]) [.parent, .refused err, .parent] = .error .ub ∧
    exec C (init nowait [.start p, .destroy]) [.parent, .refused err, .parent] = .error .ub := by
  refine ⟨⟨{ (init nowait [.start p]) with todo := [], proc := p, handle := .junk, answers := [.start err] }, ?_, rfl, rfl⟩, ?_, ?_⟩ <;>
    simp [exec, step, parentStep, init, he, bind, Except.bind]

/-- C120, where it fails: a second join, after one that has returned, is undefined (`pthread_join` of 0). -/
theorem C120_join_twice (C : Code) (nowait : Bool) {pre rest : List Op} (h : Life false (pre ++ [.join])) {cs : List Choice} (hg : Granted cs) {s : State}
    (he : exec C (init nowait (pre ++ [.join])) cs = .ok s) (hr : Returned s []) : step C { s with todo := .join :: rest } .parent = .error .ub := by
  obtain ⟨s', h1, h2⟩ := inv_exec (inv_init C nowait h) hg
  rw [he] at h1
  cases h1
  obtain ⟨r1, r2⟩ := hr
  rcases h2 with h2 | ⟨old, ph, h2⟩
  · simp [step, parentStep, r1, h2.handle]
  · exfalso
    rcases h2.pc with ⟨-, ⟨-, e⟩, -⟩ | ⟨e, -⟩ | ⟨e, -⟩
    · rw [r2] at e
      have := past_join rfl e
      simp [after] at this
    · rw [r1] at e; cases e
    · rw [r1] at e; cases e

/-- Two plain accesses to one variable, one of them a write, can happen at the same time. -/
def RaceOnRunning (s : State) : Prop :=
  (∃ r, s.pc = .idle ∧ s.todo = .poll :: r) ∧ ∃ k ∈ s.kids, k = .created ∨ ∃ p, k = .stored p

/-- C120, where it fails: asking whether a thread is running while it may end is a race on a plain variable. -/
theorem C120_poll_races (C : Code) (nowait : Bool) (p : Proc) : ∃ cs s, Granted cs ∧ exec C (init nowait [.start p, .poll, .join]) cs = .ok s ∧ RaceOnRunning s := by
  have run : ∀ (n : Nat) (s : State) (l : List Op), s.kids = [.inProc p n] → s.pc = .idle → s.todo = .poll :: l →
      ∃ s', exec C s (List.replicate (n + 1) (.child 0)) = .ok s' ∧ RaceOnRunning s' := by
    intro n
    induction n with
    | zero =>
      intro s l h1 h2 h3
      refine ⟨{ s with ret := C.val p, kids := [.stored p] }, ?_, ⟨⟨l, h2, h3⟩, .stored p, by simp, .inr ⟨p, rfl⟩⟩⟩
      simp [List.replicate, exec, step, childStep, h1, bind, Except.bind]
    | succ n ih =>
      intro s l h1 h2 h3
      obtain ⟨s', h4, h5⟩ := ih { s with kids := [.inProc p n] } l rfl h2 h3
      refine ⟨s', ?_, h5⟩
      rw [List.replicate_succ]
      unfold exec
      have : step C s (.child 0) = .ok { s with kids := [.inProc p n] } := by simp [step, childStep, h1]
      rw [this]
      exact h4
  let pre : List Choice := [.parent, .parent, .child 0, .child 0, .parent, .child 0]
  let pre' : List Choice := [.parent, .parent, .child 0, .child 0, .child 0]
  cases nowait with
  | false =>
    obtain ⟨s', h1, h2⟩ := run (C.len p) ⟨[.poll, .join], .idle, [.start 1], .thread 0, p, 0, true, false, 0, true, [.inProc p (C.len p)], [p]⟩ _ rfl rfl rfl
    refine ⟨pre ++ List.replicate (C.len p + 1) (.child 0), s', ?_, ?_, h2⟩
    · intro c hc e
      rcases List.mem_append.1 hc with hc | hc
      · simp only [pre, List.mem_cons, List.not_mem_nil, or_false] at hc
        rcases hc with rfl | rfl | rfl | rfl | rfl | rfl <;> simp
      · rw [List.eq_of_mem_replicate hc]; simp
    · rw [exec_append C pre _ _ _ rfl]
      exact h1
  | true =>
    obtain ⟨s', h1, h2⟩ := run (C.len p) ⟨[.poll, .join], .idle, [.start 1], .thread 0, p, 0, true, true, 0, true, [.inProc p (C.len p)], [p]⟩ _ rfl rfl rfl
    refine ⟨pre' ++ List.replicate (C.len p + 1) (.child 0), s', ?_, ?_, h2⟩
    · intro c hc e
      rcases List.mem_append.1 hc with hc | hc
      · simp only [pre', List.mem_cons, List.not_mem_nil, or_false] at hc
        rcases hc with rfl | rfl | rfl | rfl | rfl <;> simp
      · rw [List.eq_of_mem_replicate hc]; simp
    · rw [exec_append C pre' _ _ _ rfl]
      exact h1

/-! ## The hypotheses are met -/

/-- A thread that is started and joined twice, asked and destroyed follows its life. -/
example : Life false [.start 7, .poll, .join, .result, .start 8, .join, .destroy] := by simp [Life]

/-- A schedule of it up to the return of the first join. -/
example : ∃ s, exec ⟨fun _ => 1, fun p => p + 100⟩ (init false [.start 7, .join, .result]) [.parent, .parent, .child 0, .child 0, .parent, .parent, .child 0, .child 0, .child 0, .child 0,
    .parent, .parent] = .ok s ∧ Returned s [.result] ∧ s.calls = [7] ∧ s.ret = 107 := ⟨_, rfl, ⟨rfl, rfl⟩, rfl, rfl⟩

/-- The schedule in which parent and threads take turns in growing rounds is fair. -/
theorem fair_exists : ∃ σ, Fair σ := by
  have key : ∀ i n, ∃ m, n ≤ m ∧ (Nat.unpair m).1 = i := fun i n => ⟨Nat.pair i n, Nat.right_le_pair i n, by rw [Nat.unpair_pair]⟩
  refine ⟨fun n => match (Nat.unpair n).1 with | 0 => .parent | i + 1 => .child i, ⟨?_, ?_, ?_⟩⟩
  · intro n
    obtain ⟨m, h1, h2⟩ := key 0 n
    exact ⟨m, h1, by simp only [h2]⟩
  · intro i n
    obtain ⟨m, h1, h2⟩ := key (i + 1) n
    exact ⟨m, h1, by simp only [h2]⟩
  · intro n e
    split <;> simp

end Zpl.Thread
