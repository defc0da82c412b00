import Verif.Basic

/-!
# Thread merge barrier (code/source/threading/sync.c)  -  C60

## Model

Every access to `target`, `current` and `waiting` happens between `zpl_mutex_lock(&s->mutex)` and the matching unlock, so one critical section is one atomic
step and `mutex` itself does not appear.  `start` is a flag (trusted: a mutex that any thread may unlock; the code unlocks it from a thread other than
the one that locked it, which POSIX leaves undefined for a default mutex).  The semaphore is a counter.  A thread that waits is in `blocked` after the
first critical section of `zpl_sync_reach_and_wait`, in `woken` between its `zpl_semaphore_wait` and the second critical section. -/

namespace Zpl.Sync

/-- The barrier and the threads inside `zpl_sync_reach_and_wait` and `zpl_sync_set_target`. -/
structure State where
  target : Nat
  current : Nat
  waiting : Nat
  /-- `start` is locked -/
  start : Bool
  /-- the count of the semaphore `release` -/
  release : Nat
  /-- a thread has locked `start` at sync.c:24 for this target and not yet stored it -/
  pending : Option Nat
  /-- threads at sync.c:64 -/
  blocked : List Nat
  /-- threads at sync.c:65 -/
  woken : List Nat
  deriving DecidableEq, Repr

/-- sync.c:6-11 `zpl_sync_init`. -/
def init : State :=
  { target := 0, current := 0, waiting := 0, start := false, release := 0, pending := none, blocked := [], woken := [] }

/-- Atomic steps. -/
inductive Ev where
  /-- sync.c:24, the lock of `start` succeeds -/
  | lockStart (n : Nat)
  /-- sync.c:26-31, then `zpl_sync_set_target` returns -/
  | setTarget (n : Nat)
  /-- sync.c:45-51 `zpl_sync_reach` -/
  | reach
  /-- sync.c:55-63 `zpl_sync_reach_and_wait` of thread `t`; it returns at once if it was the last -/
  | reachWait (t : Nat)
  /-- sync.c:64, the semaphore lets thread `t` pass -/
  | wake (t : Nat)
  /-- sync.c:65-68, then `zpl_sync_reach_and_wait` of thread `t` returns -/
  | finish (t : Nat)
  deriving DecidableEq, Repr

/-- sync.c:34-41 `zpl_sync_release`. -/
def doRelease (s : State) : State :=
  if s.waiting ≠ 0 then { s with release := s.release + 1 }
  else { s with target := 0, start := false }

/-- One step: `.error` is a failed assertion, `.ok none` a step that cannot be taken now (the thread is not there, or it blocks). -/
def step (s : State) : Ev → Except Fault (Option State)
  | .lockStart n => .ok (if s.start then none else some { s with start := true, pending := some n })
  | .setTarget n =>
    if s.pending ≠ some n then .ok none
    else if s.target ≠ 0 then .error .assertion
    else .ok (some { s with target := n, current := 0, waiting := 0, pending := none })
  | .reach =>
    if s.current < s.target then
      let s := { s with current := s.current + 1 }
      .ok (some (if s.current = s.target then doRelease s else s))
    else .error .assertion
  | .reachWait t =>
    if t ∈ s.blocked ∨ t ∈ s.woken then .ok none
    else if s.current < s.target then
      let s := { s with current := s.current + 1 }
      .ok (some (if s.current = s.target then doRelease s else { s with waiting := s.waiting + 1, blocked := t :: s.blocked }))
    else .error .assertion
  | .wake t =>
    .ok (if t ∈ s.blocked ∧ s.release ≠ 0 then some { s with release := s.release - 1, blocked := s.blocked.erase t, woken := t :: s.woken } else none)
  | .finish t =>
    .ok (if t ∈ s.woken then some (doRelease { s with waiting := s.waiting - 1, woken := s.woken.erase t }) else none)

/-- A schedule without failed assertions. -/
def run (s : State) : List Ev → Option State
  | [] => some s
  | e :: es =>
    match step s e with
    | .ok (some s') => run s' es
    | _ => none

/-! ## Specification: functions of the history alone -/

/-- The target of the current round. -/
def goal : List Ev → Nat := List.foldl (fun g e => match e with | .setTarget n => n | _ => g) 0

/-- Number of `zpl_sync_reach` and `zpl_sync_reach_and_wait` calls since the last `zpl_sync_set_target`. -/
def reached : List Ev → Nat :=
  List.foldl (fun k e => match e with | .setTarget _ => 0 | .reach => k + 1 | .reachWait _ => k + 1 | _ => k) 0

/-- Threads that called `zpl_sync_reach_and_wait` since the last `zpl_sync_set_target`. -/
def arrived : List Ev → List Nat :=
  List.foldl (fun l e => match e with | .setTarget _ => [] | .reachWait t => t :: l | _ => l) []

/-- A call of `zpl_sync_set_target` is between its lock of `start` and its return. -/
def setting : List Ev → Bool :=
  List.foldl (fun b e => match e with | .lockStart _ => true | .setTarget _ => false | _ => b) false

/-- Threads inside `zpl_sync_reach_and_wait`. -/
def waiters (s : State) : List Nat := s.blocked ++ s.woken

/-- A step by which waiting threads leave. -/
def Ev.leaving : Ev → Prop
  | .wake _ => True
  | .finish _ => True
  | _ => False

/-- Targets are positive (with target 0 the round never ends, see `C60_zero_target`). -/
def GoodTargets (es : List Ev) : Prop := ∀ n, Ev.lockStart n ∈ es → 0 < n

/-! ## Invariant -/

inductive Phase (s : State) : Prop where
  /-- no round -/
  | idle (h1 : s.target = 0) (h2 : s.start = false) (h3 : s.pending = none) (h4 : s.blocked = []) (h5 : s.woken = []) (h6 : s.release = 0)
      (h7 : s.waiting = 0)
  /-- `start` locked, target not yet stored -/
  | setting (n : Nat) (h0 : 0 < n) (h1 : s.target = 0) (h2 : s.start = true) (h3 : s.pending = some n) (h4 : s.blocked = []) (h5 : s.woken = [])
      (h6 : s.release = 0) (h7 : s.waiting = 0)
  /-- fewer than `target` calls so far -/
  | gathering (h1 : s.current < s.target) (h2 : s.start = true) (h3 : s.pending = none) (h5 : s.woken = []) (h6 : s.release = 0)
      (h7 : s.waiting = s.blocked.length)
  /-- all calls happened, threads are leaving one by one -/
  | leaving (h1 : s.current = s.target) (h0 : 0 < s.target) (h2 : s.start = true) (h3 : s.pending = none)
      (h6 : s.release + s.woken.length = 1) (h7 : s.waiting = s.blocked.length + s.woken.length) (h8 : s.waiting ≠ 0)

/-- What the history says about the state. -/
structure Inv (es : List Ev) (s : State) : Prop where
  phase : Phase s
  current : s.current = reached es
  goal : s.target ≠ 0 → s.target = goal es
  over : s.target = 0 → setting es = false → reached es = Sync.goal es
  pend : s.pending.isSome = setting es
  arr : ∀ t ∈ waiters s, t ∈ arrived es

theorem inv_init : Inv [] init :=
  ⟨.idle rfl rfl rfl rfl rfl rfl rfl, rfl, fun h => absurd rfl h, fun _ _ => rfl, rfl, by simp [waiters, init]⟩

theorem length_erase' {l : List Nat} {a : Nat} (h : a ∈ l) : (l.erase a).length + 1 = l.length := by
  have := List.length_erase_of_mem h
  have : 0 < l.length := List.length_pos_of_mem h
  omega

theorem inv_step {es : List Ev} {s s' : State} {e : Ev} (h : Inv es s) (hg : GoodTargets (es ++ [e])) (he : step s e = .ok (some s')) :
    Inv (es ++ [e]) s' := by
  have hc := h.current
  have hp := h.pend
  cases e with
  | lockStart n =>
    have hn : 0 < n := hg n (by simp)
    simp only [step] at he
    cases hs : s.start with
    | true => simp [hs] at he
    | false =>
      simp [hs] at he
      subst he
      have hph := h.phase
      rcases hph with ⟨h1, h2, h3, h4, h5, h6, h7⟩ | ⟨m, h0, h1, h2, h3, h4, h5, h6, h7⟩ | ⟨h1, h2, h3, h5, h6, h7⟩ | ⟨h1, h0, h2, h3, h6, h7, h8⟩
      · refine ⟨.setting n hn h1 rfl rfl h4 h5 h6 h7, ?_, ?_, ?_, ?_, ?_⟩
        · simpa [reached] using hc
        · exact fun h => absurd h1 h
        · simp [Sync.setting]
        · simp [Sync.setting]
        · simp [waiters, h4, h5]
      · rw [hs] at h2; cases h2
      · rw [hs] at h2; cases h2
      · rw [hs] at h2; cases h2
  | setTarget n =>
    simp only [step] at he
    by_cases hpn : s.pending ≠ some n
    · rw [if_pos hpn] at he; injection he with he; cases he
    · rw [if_neg hpn] at he
      have hpn : s.pending = some n := Classical.not_not.1 hpn
      by_cases ht : s.target ≠ 0
      · rw [if_pos ht] at he; cases he
      · rw [if_neg ht] at he
        injection he with he
        injection he with he
        subst he
        rcases h.phase with ⟨h1, h2, h3, h4, h5, h6, h7⟩ | ⟨m, h0, h1, h2, h3, h4, h5, h6, h7⟩ | ⟨h1, h2, h3, h5, h6, h7⟩ | ⟨h1, h0, h2, h3, h6, h7, h8⟩
        · rw [hpn] at h3; cases h3
        · obtain rfl : n = m := by rw [hpn] at h3; injection h3
          refine ⟨.gathering h0 h2 rfl h5 h6 (by simp [h4]), ?_, ?_, ?_, ?_, ?_⟩
          · simp [reached]
          · intro _; simp [Sync.goal]
          · intro h; simp only at h; omega
          · simp [Sync.setting]
          · simp [waiters, h4, h5]
        · rw [hpn] at h3; cases h3
        · rw [hpn] at h3; cases h3
  | reach =>
    simp only [step] at he
    by_cases hlt : s.current < s.target
    · rw [if_pos hlt] at he
      injection he with he
      injection he with he
      rcases h.phase with ⟨h1, h2, h3, h4, h5, h6, h7⟩ | ⟨m, h0, h1, h2, h3, h4, h5, h6, h7⟩ | ⟨h1, h2, h3, h5, h6, h7⟩ | ⟨h1, h0, h2, h3, h6, h7, h8⟩
      · omega
      · omega
      · have hgl := h.goal (by omega)
        by_cases hl : s.current + 1 = s.target
        · rw [if_pos hl] at he
          unfold doRelease at he
          dsimp only at he
          by_cases hw : s.waiting ≠ 0
          · rw [if_pos hw] at he
            subst he
            refine ⟨.leaving hl (by dsimp only; omega) h2 h3 (by simp [h5, h6]) (by simp [h5, h7]) hw, ?_, ?_, ?_, ?_, ?_⟩
            · simp [reached] at hc ⊢; omega
            · intro _; simp [Sync.goal] at hgl ⊢; exact hgl
            · intro h; simp only at h; omega
            · simpa [Sync.setting] using hp
            · have := h.arr; simpa [waiters, arrived] using this
          · rw [if_neg hw] at he
            subst he
            have hb : s.blocked = [] := by
              apply List.eq_nil_of_length_eq_zero; omega
            refine ⟨.idle rfl rfl h3 hb h5 h6 (by dsimp only; omega), ?_, ?_, ?_, ?_, ?_⟩
            · simp [reached] at hc ⊢; omega
            · intro h; exact absurd rfl h
            · intro _ _
              simp [Sync.goal, reached] at hgl hc ⊢
              omega
            · simpa [Sync.setting] using hp
            · simp [waiters, hb, h5]
        · rw [if_neg hl] at he
          subst he
          refine ⟨.gathering (by dsimp only; omega) h2 h3 h5 h6 h7, ?_, ?_, ?_, ?_, ?_⟩
          · simp [reached] at hc ⊢; omega
          · intro _; simp [Sync.goal] at hgl ⊢; exact hgl
          · intro h; simp only at h; omega
          · simpa [Sync.setting] using hp
          · have := h.arr; simpa [waiters, arrived] using this
      · omega
    · rw [if_neg hlt] at he; cases he
  | reachWait t =>
    simp only [step] at he
    by_cases hin : t ∈ s.blocked ∨ t ∈ s.woken
    · rw [if_pos hin] at he; injection he with he; cases he
    rw [if_neg hin] at he
    by_cases hlt : s.current < s.target
    · rw [if_pos hlt] at he
      injection he with he
      injection he with he
      rcases h.phase with ⟨h1, h2, h3, h4, h5, h6, h7⟩ | ⟨m, h0, h1, h2, h3, h4, h5, h6, h7⟩ | ⟨h1, h2, h3, h5, h6, h7⟩ | ⟨h1, h0, h2, h3, h6, h7, h8⟩
      · omega
      · omega
      · have hgl := h.goal (by omega)
        have harr : ∀ u ∈ waiters s, u ∈ arrived (es ++ [.reachWait t]) := by
          intro u hu
          have := h.arr u hu
          simp [arrived] at this ⊢
          exact .inr this
        by_cases hl : s.current + 1 = s.target
        · rw [if_pos hl] at he
          unfold doRelease at he
          dsimp only at he
          by_cases hw : s.waiting ≠ 0
          · rw [if_pos hw] at he
            subst he
            refine ⟨.leaving hl (by dsimp only; omega) h2 h3 (by simp [h5, h6]) (by simp [h5, h7]) hw, ?_, ?_, ?_, ?_, ?_⟩
            · simp [reached] at hc ⊢; omega
            · intro _; simp [Sync.goal] at hgl ⊢; exact hgl
            · intro h; simp only at h; omega
            · simpa [Sync.setting] using hp
            · exact harr
          · rw [if_neg hw] at he
            subst he
            have hb : s.blocked = [] := by
              apply List.eq_nil_of_length_eq_zero; omega
            refine ⟨.idle rfl rfl h3 hb h5 h6 (by dsimp only; omega), ?_, ?_, ?_, ?_, ?_⟩
            · simp [reached] at hc ⊢; omega
            · intro h; exact absurd rfl h
            · intro _ _
              simp [Sync.goal, reached] at hgl hc ⊢
              omega
            · simpa [Sync.setting] using hp
            · simp [waiters, hb, h5]
        · rw [if_neg hl] at he
          subst he
          refine ⟨.gathering (by dsimp only; omega) h2 h3 h5 h6 (by simp [h7]), ?_, ?_, ?_, ?_, ?_⟩
          · simp [reached] at hc ⊢; omega
          · intro _; simp [Sync.goal] at hgl ⊢; exact hgl
          · intro h; simp only at h; omega
          · simpa [Sync.setting] using hp
          · intro u hu
            simp only [waiters, List.cons_append, List.mem_cons] at hu
            rcases hu with rfl | hu
            · simp [arrived]
            · exact harr u hu
      · omega
    · rw [if_neg hlt] at he; cases he
  | wake t =>
    simp only [step] at he
    by_cases hb : t ∈ s.blocked ∧ s.release ≠ 0
    · rw [if_pos hb] at he
      injection he with he
      injection he with he
      subst he
      have hl := length_erase' hb.1
      rcases h.phase with ⟨h1, h2, h3, h4, h5, h6, h7⟩ | ⟨m, h0, h1, h2, h3, h4, h5, h6, h7⟩ | ⟨h1, h2, h3, h5, h6, h7⟩ | ⟨h1, h0, h2, h3, h6, h7, h8⟩
      · omega
      · omega
      · omega
      · refine ⟨.leaving h1 h0 h2 h3 (by simp only [List.length_cons]; omega) (by simp only [List.length_cons]; omega) h8, ?_, ?_, ?_, ?_, ?_⟩
        · simpa [reached] using hc
        · intro _; have := h.goal (by omega); simpa [Sync.goal] using this
        · intro h; simp only at h; omega
        · simpa [Sync.setting] using hp
        · intro u hu
          have : u ∈ waiters s := by
            simp only [waiters, List.mem_append, List.mem_cons] at hu ⊢
            rcases hu with hu | rfl | hu
            · exact .inl (List.mem_of_mem_erase hu)
            · exact .inl hb.1
            · exact .inr hu
          simpa [arrived] using h.arr u this
    · rw [if_neg hb] at he; injection he with he; cases he
  | finish t =>
    simp only [step] at he
    by_cases hb : t ∈ s.woken
    · rw [if_pos hb] at he
      injection he with he
      injection he with he
      have hl := length_erase' hb
      have harr : ∀ u, u ∈ s.blocked ++ s.woken.erase t → u ∈ arrived (es ++ [.finish t]) := by
        intro u hu
        have : u ∈ waiters s := by
          simp only [waiters, List.mem_append] at hu ⊢
          rcases hu with hu | hu
          · exact .inl hu
          · exact .inr (List.mem_of_mem_erase hu)
        simpa [arrived] using h.arr u this
      rcases h.phase with ⟨h1, h2, h3, h4, h5, h6, h7⟩ | ⟨m, h0, h1, h2, h3, h4, h5, h6, h7⟩ | ⟨h1, h2, h3, h5, h6, h7⟩ | ⟨h1, h0, h2, h3, h6, h7, h8⟩
      · rw [h5] at hb; simp at hb
      · rw [h5] at hb; simp at hb
      · rw [h5] at hb; simp at hb
      · unfold doRelease at he
        dsimp only at he
        by_cases hw : s.waiting - 1 ≠ 0
        · rw [if_pos hw] at he
          subst he
          refine ⟨.leaving h1 h0 h2 h3 (by dsimp only; omega) (by dsimp only; omega) hw, ?_, ?_, ?_, ?_, harr⟩
          · simpa [reached] using hc
          · intro _; have := h.goal (by omega); simpa [Sync.goal] using this
          · intro h; simp only at h; omega
          · simpa [Sync.setting] using hp
        · rw [if_neg hw] at he
          subst he
          have hb0 : s.blocked = [] := by apply List.eq_nil_of_length_eq_zero; omega
          have hb1 : s.woken.erase t = [] := by apply List.eq_nil_of_length_eq_zero; omega
          refine ⟨.idle rfl rfl h3 hb0 hb1 (by dsimp only; omega) (by dsimp only; omega), ?_, ?_, ?_, ?_, harr⟩
          · simpa [reached] using hc
          · intro h; exact absurd rfl h
          · intro _ _
            have := h.goal (by omega)
            simp [Sync.goal, reached] at this hc ⊢
            omega
          · simpa [Sync.setting] using hp
    · rw [if_neg hb] at he; injection he with he; cases he

theorem inv_run {es fs : List Ev} {s s' : State} (h : Inv es s) (hg : GoodTargets (es ++ fs)) (hr : run s fs = some s') : Inv (es ++ fs) s' := by
  induction fs generalizing es s with
  | nil => simp only [run] at hr; injection hr with hr; subst hr; simpa using h
  | cons e fs ih =>
    rw [run] at hr
    split at hr
    · rename_i s1 h1
      have := inv_step h (fun n hn => hg n (by
        simp only [List.mem_append, List.mem_cons, List.not_mem_nil, or_false] at hn ⊢
        rcases hn with hn | hn
        · exact .inl hn
        · exact .inr (.inl hn))) h1
      have := ih this (by simpa using hg) hr
      simpa using this
    · cases hr

theorem inv_of_run {es : List Ev} {s : State} (hg : GoodTargets es) (hr : run init es = some s) : Inv es s := by
  have := inv_run inv_init (fs := es) (by simpa using hg) hr
  simpa using this

/-! ## Properties -/

/-- **C60, nobody returns early.** In every history, when a call of `zpl_sync_reach_and_wait` by thread `t` returns - in the second critical section, or at
once in the first one - the number of reach calls of the round equals the target, and the call belongs to this round. -/
theorem C60_no_early_return {es : List Ev} {s s' : State} (hg : GoodTargets es) (hr : run init es = some s) (t : Nat) :
    (step s (.finish t) = .ok (some s') → reached es = goal es ∧ t ∈ arrived es) ∧
    (step s (.reachWait t) = .ok (some s') → t ∉ waiters s' → reached (es ++ [.reachWait t]) = goal (es ++ [.reachWait t])) := by
  have h := inv_of_run hg hr
  constructor
  · intro he
    simp only [step] at he
    by_cases hb : t ∈ s.woken
    · refine ⟨?_, h.arr t (by simp [waiters, hb])⟩
      rcases h.phase with ⟨h1, h2, h3, h4, h5, h6, h7⟩ | ⟨m, h0, h1, h2, h3, h4, h5, h6, h7⟩ | ⟨h1, h2, h3, h5, h6, h7⟩ | ⟨h1, h0, h2, h3, h6, h7, h8⟩
      · rw [h5] at hb; simp at hb
      · rw [h5] at hb; simp at hb
      · rw [h5] at hb; simp at hb
      · rw [← h.current, ← h.goal (by omega), h1]
    · rw [if_neg hb] at he; injection he with he; cases he
  · intro he hnot
    simp only [step] at he
    by_cases hin : t ∈ s.blocked ∨ t ∈ s.woken
    · rw [if_pos hin] at he; injection he with he; cases he
    rw [if_neg hin] at he
    by_cases hlt : s.current < s.target
    · rw [if_pos hlt] at he
      injection he with he
      injection he with he
      by_cases hl : s.current + 1 = s.target
      · have h1 := h.current
        have h2 := h.goal (by omega)
        simp only [reached, goal, List.foldl_append, List.foldl_cons, List.foldl_nil] at h1 h2 ⊢
        omega
      · rw [if_neg hl] at he
        subst he
        simp [waiters] at hnot
    · rw [if_neg hlt] at he; cases he

/-- **C60, numbering.** `zpl_sync_reach` returns the number of the call within its round. -/
theorem C60_reach_number {es : List Ev} {s s' : State} (hg : GoodTargets es) (hr : run init es = some s) (he : step s .reach = .ok (some s')) :
    s'.current = reached es + 1 := by
  have h := (inv_of_run hg hr).current
  simp only [step] at he
  split at he
  · injection he with he
    injection he with he
    subst he
    split
    · unfold doRelease; split <;> simp [h]
    · simp [h]
  · cases he

/-- **C60, the assertions.** As long as the threads make at most `target` reach calls per round, after `zpl_sync_set_target` returned, no assertion fails. -/
theorem C60_no_assertion {es : List Ev} {s : State} (hg : GoodTargets es) (hr : run init es = some s) (e : Ev)
    (hc : e = .reach ∨ (∃ t, e = .reachWait t) → setting es = false ∧ reached es < goal es) : step s e ≠ .error .assertion := by
  have h := inv_of_run hg hr
  have hlt : setting es = false ∧ reached es < goal es → s.current < s.target := by
    rintro ⟨h1, h2⟩
    by_cases ht : s.target = 0
    · have := h.over ht h1; omega
    · rw [h.current, h.goal ht]; exact h2
  cases e with
  | lockStart n => simp [step]
  | setTarget n =>
    simp only [step]
    by_cases hpn : s.pending ≠ some n
    · rw [if_pos hpn]; simp
    · rw [if_neg hpn]
      have hpn : s.pending = some n := Classical.not_not.1 hpn
      rcases h.phase with ⟨h1, h2, h3, h4, h5, h6, h7⟩ | ⟨m, h0, h1, h2, h3, h4, h5, h6, h7⟩ | ⟨h1, h2, h3, h5, h6, h7⟩ | ⟨h1, h0, h2, h3, h6, h7, h8⟩
      · rw [hpn] at h3; cases h3
      · simp [h1]
      · rw [hpn] at h3; cases h3
      · rw [hpn] at h3; cases h3
  | reach =>
    have := hlt (hc (.inl rfl))
    simp only [step]
    rw [if_pos this]
    simp
  | reachWait t =>
    have := hlt (hc (.inr ⟨t, rfl⟩))
    simp only [step]
    split
    · simp
    · simp
  | wake t => simp [step]
  | finish t => simp [step]

/-- **C60, no deadlock.** Once all calls of the round happened, as long as a thread is inside `zpl_sync_reach_and_wait`, one of those threads can take a
step; no matter which of them do, after at most two steps per thread all have returned. -/
theorem C60_everybody_leaves {es : List Ev} {s : State} (hg : GoodTargets es) (hr : run init es = some s) (hset : setting es = false)
    (hall : reached es = goal es) :
    (waiters s ≠ [] → ∃ t ∈ waiters s, ∃ s', step s (.wake t) = .ok (some s') ∨ step s (.finish t) = .ok (some s')) ∧
    (∀ fs s', (∀ e ∈ fs, e.leaving) → run s fs = some s' → fs.length ≤ 2 * (waiters s).length ∧ (waiters s').length ≤ (waiters s).length ∧
      reached (es ++ fs) = goal (es ++ fs) ∧ setting (es ++ fs) = false) := by
  have h := inv_of_run hg hr
  constructor
  · intro hw
    rcases h.phase with ⟨h1, h2, h3, h4, h5, h6, h7⟩ | ⟨m, h0, h1, h2, h3, h4, h5, h6, h7⟩ | ⟨h1, h2, h3, h5, h6, h7⟩ | ⟨h1, h0, h2, h3, h6, h7, h8⟩
    · exact absurd (by simp [waiters, h4, h5]) hw
    · exact absurd (by simp [waiters, h4, h5]) hw
    · have := h.current
      have := h.goal (by omega)
      omega
    · cases hwk : s.woken with
      | nil =>
        rw [hwk] at h6 h7
        cases hbl : s.blocked with
        | nil => rw [hbl] at h7; simp at h7; omega
        | cons t l =>
          have e : ∃ s', step s (.wake t) = .ok (some s') := by
            simp only [step]
            rw [if_pos ⟨by simp [hbl], by simp at h6; omega⟩]
            exact ⟨_, rfl⟩
          exact ⟨t, by simp [waiters, hbl], e.imp fun _ => .inl⟩
      | cons t l =>
        have e : ∃ s', step s (.finish t) = .ok (some s') := by
          simp only [step]
          rw [if_pos (by simp [hwk])]
          exact ⟨_, rfl⟩
        exact ⟨t, by simp [waiters, hwk], e.imp fun _ => .inr⟩
  · -- the measure 2 * blocked + woken falls with every step
    have key : ∀ (fs : List Ev) (s s' : State), (∀ e ∈ fs, e.leaving) → run s fs = some s' →
        fs.length + (2 * s'.blocked.length + s'.woken.length) = 2 * s.blocked.length + s.woken.length ∧
          s'.blocked.length + s'.woken.length ≤ s.blocked.length + s.woken.length := by
      intro fs
      induction fs with
      | nil => intro s s' _ h; simp only [run] at h; injection h with h; subst h; simp
      | cons e fs ih =>
        intro s s' hl h
        rw [run] at h
        split at h
        · rename_i s1 h1
          have i := ih s1 s' (fun x hx => hl x (by simp [hx])) h
          have := hl e (by simp)
          cases e with
          | wake t =>
            simp only [step] at h1
            split at h1
            · rename_i hc
              injection h1 with h1
              injection h1 with h1
              subst h1
              have := length_erase' hc.1
              simp only [List.length_cons] at i ⊢
              omega
            · injection h1 with h1; cases h1
          | finish t =>
            simp only [step] at h1
            split at h1
            · rename_i hc
              injection h1 with h1
              injection h1 with h1
              subst h1
              have := length_erase' hc
              unfold doRelease at i
              split at i <;> (simp only [List.length_cons] at i ⊢; omega)
            · injection h1 with h1; cases h1
          | lockStart n => exact absurd this id
          | setTarget n => exact absurd this id
          | reach => exact absurd this id
          | reachWait t => exact absurd this id
        · cases h
    intro fs s' hl hrun
    have k := key fs s s' hl hrun
    have hfold : reached (es ++ fs) = reached es ∧ goal (es ++ fs) = goal es ∧ setting (es ++ fs) = setting es := by
      clear k hrun hall hset hr hg h key
      induction fs generalizing es with
      | nil => simp
      | cons e fs ih =>
        have := ih (es := es ++ [e]) (fun x hx => hl x (by simp [hx]))
        have hle := hl e (by simp)
        rw [List.append_assoc, List.singleton_append] at this
        rw [this.1, this.2.1, this.2.2]
        cases e with
        | wake t => simp [reached, goal, setting]
        | finish t => simp [reached, goal, setting]
        | lockStart n => exact absurd hle id
        | setTarget n => exact absurd hle id
        | reach => exact absurd hle id
        | reachWait t => exact absurd hle id
    rw [hfold.1, hfold.2.1, hfold.2.2]
    simp only [waiters, List.length_append]
    exact ⟨by omega, k.2, hall, hset⟩

/-- **C60, the next round.** Once all calls happened and the last waiter has left, `zpl_sync_set_target` does not block, its assertion holds, and the new
round begins with the new target and no calls. -/
theorem C60_next_round {es : List Ev} {s : State} (hg : GoodTargets es) (hr : run init es = some s) (hset : setting es = false)
    (hall : reached es = goal es) (hw : waiters s = []) (n : Nat) :
    ∃ s1 s2, step s (.lockStart n) = .ok (some s1) ∧ step s1 (.setTarget n) = .ok (some s2) ∧ s2.target = n ∧ s2.current = 0 ∧ waiters s2 = [] := by
  have h := inv_of_run hg hr
  simp only [waiters, List.append_eq_nil_iff] at hw
  rcases h.phase with ⟨h1, h2, h3, h4, h5, h6, h7⟩ | ⟨m, h0, h1, h2, h3, h4, h5, h6, h7⟩ | ⟨h1, h2, h3, h5, h6, h7⟩ | ⟨h1, h0, h2, h3, h6, h7, h8⟩
  · refine ⟨_, { s with start := true, target := n, current := 0, waiting := 0, pending := none }, by simp only [step]; rw [h2]; rfl, ?_, rfl, rfl, by
      simp [waiters, h4, h5]⟩
    simp only [step]
    rw [if_neg (by simp), if_neg (by simp [h1])]
  · have := h.pend
    rw [h3, hset] at this
    cases this
  · have := h.current
    have := h.goal (by omega)
    omega
  · rw [hw.1, hw.2] at h7
    exact absurd h7 h8

/-- **C60, rounds do not overlap.** While a call of the round is missing or a waiter has not left, the next `zpl_sync_set_target` blocks. -/
theorem C60_rounds_do_not_overlap {es : List Ev} {s : State} (hg : GoodTargets es) (hr : run init es = some s)
    (h : waiters s ≠ [] ∨ reached es ≠ goal es ∨ setting es = true) (n : Nat) : step s (.lockStart n) = .ok none := by
  have hi := inv_of_run hg hr
  rcases hi.phase with ⟨h1, h2, h3, h4, h5, h6, h7⟩ | ⟨m, h0, h1, h2, h3, h4, h5, h6, h7⟩ | ⟨h1, h2, h3, h5, h6, h7⟩ | ⟨h1, h0, h2, h3, h6, h7, h8⟩
  · have hp := hi.pend
    rw [h3] at hp
    rcases h with h | h | h
    · exact absurd (by simp [waiters, h4, h5]) h
    · exact absurd (hi.over h1 hp.symm) h
    · rw [h] at hp; cases hp
  · simp [step, h2]
  · simp [step, h2]
  · simp [step, h2]

/-- Remark: a round with target 0 never ends.  Every reach call fails its assertion and every later `zpl_sync_set_target` blocks. -/
theorem C60_zero_target {s : State} (h1 : s.target = 0) (h2 : s.start = true) (t n : Nat) (ht : t ∉ waiters s) :
    step s .reach = .error .assertion ∧ step s (.reachWait t) = .error .assertion ∧ step s (.lockStart n) = .ok none := by
  refine ⟨?_, ?_, by simp [step, h2]⟩
  · simp [step, h1]
  · simp only [waiters, List.mem_append, not_or] at ht
    simp [step, h1, ht.1, ht.2]

/-! ## The hypotheses are met -/

/-- Three threads: two wait, the third does not. -/
example : GoodTargets [.lockStart 3, .setTarget 3, .reachWait 1, .reachWait 2, .reach] ∧
    ∃ s, run init [.lockStart 3, .setTarget 3, .reachWait 1, .reachWait 2, .reach] = some s ∧ waiters s = [2, 1] ∧
      reached [.lockStart 3, .setTarget 3, .reachWait 1, .reachWait 2, .reach] = 3 ∧ goal [.lockStart 3, .setTarget 3, .reachWait 1, .reachWait 2, .reach] = 3 ∧
      setting [.lockStart 3, .setTarget 3, .reachWait 1, .reachWait 2, .reach] = false := by
  refine ⟨?_, _, rfl, rfl, rfl, rfl, rfl⟩
  intro n hn
  simp at hn
  omega

/-- And all of them leave; the next round can begin. -/
example : ∃ s, run init [.lockStart 3, .setTarget 3, .reachWait 1, .reachWait 2, .reach, .wake 1, .finish 1, .wake 2, .finish 2] = some s ∧
    waiters s = [] ∧ s.start = false := ⟨_, rfl, rfl, rfl⟩

/-- The state of `C60_zero_target` is reachable. -/
example : ∃ s, run init [.lockStart 0, .setTarget 0] = some s ∧ s.target = 0 ∧ s.start = true ∧ 5 ∉ waiters s := ⟨_, rfl, rfl, rfl, by decide⟩

end Zpl.Sync
