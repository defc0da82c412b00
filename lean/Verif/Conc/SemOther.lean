import Verif.Basic

/-!
# Semaphores on Windows and macOS (code/source/threading/sem.c:8-22)  -  C157

## Model

Threads interleave; each call of the operating system is one step.  `ReleaseSemaphore` adds its whole count at once, or nothing if the count is not positive or the sum exceeds the
greatest count the semaphore was created with.  On macOS `semaphore_signal` adds one, and `semaphore_wait` may return because the waiting was aborted. -/

namespace Zpl.SemOther

/-- The systems. -/
inductive System where
  | windows | mac
  deriving DecidableEq

/-- Where a thread is. -/
inductive Pc where
  | idle
  /-- in `zpl_semaphore_post` of macOS, `count` in hand -/
  | posting (count : Int)
  /-- in `zpl_semaphore_wait` -/
  | waiting
  deriving DecidableEq

/-- What a thread sees: calls that have returned. -/
inductive Seen where
  /-- `zpl_semaphore_wait` returned -/
  | got (t : Nat)
  /-- `zpl_semaphore_trywait` returned `r` -/
  | tried (t : Nat) (r : Int)
  deriving DecidableEq

/-- The counter of the operating system, the threads, and the calls that have returned, the latest first. -/
structure State where
  value : Nat
  pc : Nat → Pc
  seen : List Seen

/-- sem.c:10 `ZPL_I32_MAX`, the greatest count of a semaphore of Windows. -/
def most : Nat := 2147483647

/-- Steps of the threads. -/
inductive Act where
  /-- sem.c:12 and 20 `zpl_semaphore_post` is called, `zpl_semaphore_release` (sem.c:6) with 1 -/
  | post (t : Nat) (count : Int)
  /-- sem.c:20 `count --> 0` and, if so, `semaphore_signal` -/
  | signal (t : Nat)
  /-- sem.c:13 and 21 `zpl_semaphore_wait` is called -/
  | wait (t : Nat)
  /-- sem.c:13 and 21 the waiting ends because there is something to take -/
  | granted (t : Nat)
  /-- sem.c:21 the waiting is aborted (macOS: `KERN_ABORTED`) -/
  | aborted (t : Nat)
  /-- sem.c:14 and 22 `zpl_semaphore_trywait` -/
  | trywait (t : Nat)

/-- Thread `t` goes to `p`. -/
def State.go (s : State) (t : Nat) (p : Pc) : State := { s with pc := fun u => if u = t then p else s.pc u }

/-- What `zpl_semaphore_trywait` returns when there is nothing to take: `WAIT_TIMEOUT`, `KERN_OPERATION_TIMED_OUT`. -/
def nothing : System → Int
  | .windows => 258
  | .mac => 49

/-- sem.c:8-22, one step; `none` if the thread is not there or has to wait. -/
def act (sys : System) (s : State) : Act → Option (Except Fault State)
  | .post t count =>
    if s.pc t = .idle then
      match sys with
      | .windows => some (.ok (if 0 < count ∧ (s.value : Int) + count ≤ most then { s with value := s.value + count.toNat } else s))
      | .mac => some (.ok (s.go t (.posting count)))
    else none
  | .signal t =>
    match s.pc t with
    | .posting count =>
      if count = -2147483648 then some (.error .arith)
      else if 0 < count then some (.ok { s.go t (.posting (count - 1)) with value := s.value + 1 })
      else some (.ok (s.go t .idle))
    | _ => none
  | .wait t => if s.pc t = .idle then some (.ok (s.go t .waiting)) else none
  | .granted t =>
    if s.pc t = .waiting then
      if 0 < s.value then some (.ok { s.go t .idle with value := s.value - 1, seen := .got t :: s.seen }) else none
    else none
  | .aborted t => if s.pc t = .waiting ∧ sys = .mac then some (.ok { s.go t .idle with seen := .got t :: s.seen }) else none
  | .trywait t =>
    if s.pc t = .idle then
      if 0 < s.value then some (.ok { s with value := s.value - 1, seen := .tried t 0 :: s.seen })
      else some (.ok { s with seen := .tried t (nothing sys) :: s.seen })
    else none

/-- A schedule. -/
def acts (sys : System) : List Act → State → Option (Except Fault State)
  | [], s => some (.ok s)
  | a :: as, s =>
    match act sys s a with
    | none => none
    | some (.error f) => some (.error f)
    | some (.ok s) => acts sys as s

/-- sem.c:10 and 18 `zpl_semaphore_init`. -/
def created : State := { value := 0, pc := fun _ => .idle, seen := [] }

/-! ## Specification -/

/-- Whether a thread has reason to think that it took one. -/
def Seen.takes : Seen → Bool
  | .got _ => true
  | .tried _ r => decide (r = 0)

/-- How many the calls of `zpl_semaphore_post` are to put in, together. -/
def asked : List Act → Nat
  | [] => 0
  | .post _ count :: as => count.toNat + asked as
  | _ :: as => asked as

/-! ## C157 -/

/-- Windows: the balance of the semaphore over any schedule, from any state with room for all that is asked. -/
theorem windows_balance : ∀ (as : List Act) (s s' : State), s.value + asked as ≤ 2147483647 → acts .windows as s = some (.ok s') → (∀ t, s.pc t = .idle ∨ s.pc t = .waiting) →
    s'.value + s'.seen.countP Seen.takes = s.value + s.seen.countP Seen.takes + asked as
  | [], s, s', _, h, _ => by
    cases h
    rfl
  | a :: as, s, s', hb, h, hpc => by
    rw [acts] at h
    cases a with
    | post t count =>
      simp only [act] at h
      by_cases hi : s.pc t = .idle
      · rw [if_pos hi] at h
        simp only [asked] at hb ⊢
        by_cases hc : 0 < count
        · rw [if_pos ⟨hc, by unfold most; omega⟩] at h
          have := windows_balance as { s with value := s.value + count.toNat } s' (by simp only; omega) h hpc
          simp only at this
          omega
        · rw [if_neg (fun hh => hc hh.1)] at h
          have := windows_balance as s s' (by omega) h hpc
          omega
      · simp [hi] at h
    | signal t =>
      simp only [act] at h
      rcases hpc t with hi | hi <;> simp [hi] at h
    | wait t =>
      simp only [act] at h
      by_cases hi : s.pc t = .idle
      · rw [if_pos hi] at h
        exact windows_balance as (s.go t .waiting) s' hb h (fun u => by by_cases hu : u = t <;> simp [State.go, hu, hpc u])
      · simp [hi] at h
    | granted t =>
      simp only [act] at h
      by_cases hi : s.pc t = .waiting
      · rw [if_pos hi] at h
        by_cases hv : 0 < s.value
        · rw [if_pos hv] at h
          simp only [asked] at hb ⊢
          have := windows_balance as { s.go t .idle with value := s.value - 1, seen := .got t :: s.seen } s' (by simp only; omega) h
            (fun u => by by_cases hu : u = t <;> simp [State.go, hu, hpc u])
          simp only [List.countP_cons, Seen.takes, if_true] at this
          omega
        · simp [hv] at h
      · simp [hi] at h
    | aborted t => simp [act] at h
    | trywait t =>
      simp only [act] at h
      by_cases hi : s.pc t = .idle
      · rw [if_pos hi] at h
        simp only [asked] at hb ⊢
        by_cases hv : 0 < s.value
        · rw [if_pos hv] at h
          have := windows_balance as { s with value := s.value - 1, seen := .tried t 0 :: s.seen } s' (by simp only; omega) h hpc
          simp [List.countP_cons, Seen.takes] at this
          omega
        · rw [if_neg hv] at h
          have := windows_balance as { s with seen := .tried t (nothing .windows) :: s.seen } s' (by simp only; omega) h hpc
          simp [List.countP_cons, Seen.takes, nothing] at this
          omega
      · simp [hi] at h

/-- C157 on Windows: whatever the schedule, the semaphore has been taken from exactly as often as it was asked to put in, less what is left, if all that is asked stays within 2^31 - 1. -/
theorem C157_windows_semaphore (as : List Act) (s : State) (h : acts .windows as created = some (.ok s)) (hb : asked as ≤ 2147483647) :
    s.value + s.seen.countP Seen.takes = asked as := by
  have := windows_balance as created s (by simpa [created] using hb) h (fun _ => .inl rfl)
  simpa [created] using this

/-- C157 on Windows and macOS: nobody waits while there is something to take. -/
theorem C157_other_wait (sys : System) (s : State) (t : Nat) (h : s.pc t = .waiting) :
    (act sys s (.granted t) = none ↔ s.value = 0) ∧ ∀ s', act sys s (.granted t) = some (.ok s') → s'.pc t = .idle ∧ s'.value + 1 = s.value ∧ s'.seen = .got t :: s.seen := by
  simp only [act, if_pos h]
  by_cases hv : 0 < s.value
  · refine ⟨by simp [hv]; omega, fun s' e => ?_⟩
    rw [if_pos hv] at e
    cases e
    refine ⟨by simp [State.go], ?_, rfl⟩
    simp only
    omega
  · exact ⟨by simp [hv]; omega, fun s' e => by simp [hv] at e⟩

/-- C157, what fails on Windows: if the sum exceeds the greatest count, the whole count is lost (elsewhere what fits is put in), and nothing is said. -/
theorem C157_windows_post_lost (s : State) (t : Nat) (count : Int) (h : s.pc t = .idle) (hv : 2147483647 < (s.value : Int) + count) : act .windows s (.post t count) = some (.ok s) := by
  simp only [act, if_pos h]
  rw [if_neg]
  unfold most
  omega

/-- C157, what fails on macOS: a wait that is aborted returns as if it had taken one, so that more is taken than was ever put in. -/
theorem C157_mac_wait_aborted (s : State) (t : Nat) (h : s.pc t = .waiting) :
    ∃ s', act .mac s (.aborted t) = some (.ok s') ∧ s'.pc t = .idle ∧ s'.value = s.value ∧ s'.seen.countP Seen.takes = s.seen.countP Seen.takes + 1 :=
  ⟨{ s.go t .idle with seen := .got t :: s.seen }, by simp [act, h], by simp [State.go], rfl, by simp [List.countP_cons, Seen.takes]⟩

/-- C157 on macOS: a call of `zpl_semaphore_post` puts in one after the other, `count` of them, and then returns; nothing else of the state changes. -/
theorem C157_mac_post (t : Nat) : ∀ (n : Nat) (s : State), s.pc t = .posting n → ∃ s', acts .mac (List.replicate (n + 1) (.signal t)) s = some (.ok s') ∧
    s'.value = s.value + n ∧ s'.seen = s.seen ∧ s'.pc t = .idle ∧ ∀ u, u ≠ t → s'.pc u = s.pc u
  | 0, s, h => by
    refine ⟨s.go t .idle, ?_, rfl, rfl, by simp [State.go], fun u hu => by simp [State.go, hu]⟩
    simp [acts, act, h]
  | n + 1, s, h => by
    obtain ⟨s', e1, e2, e3, e4, e5⟩ := C157_mac_post t n { s.go t (.posting n) with value := s.value + 1 } (by simp [State.go])
    refine ⟨s', ?_, ?_, e3, e4, fun u hu => ?_⟩
    · rw [List.replicate_succ, acts]
      have : act .mac s (.signal t) = some (.ok { s.go t (.posting n) with value := s.value + 1 }) := by
        simp only [act, h]
        rw [if_neg (by omega), if_pos (by omega), show ((n + 1 : Nat) : Int) - 1 = n by omega]
      rw [this]
      exact e1
    · simp only at e2
      omega
    · rw [e5 u hu]
      simp [State.go, hu]

/-- Windows: two threads wait, a third puts three in at once, and a fourth tries twice. -/
example : ∃ s, acts .windows [.wait 1, .wait 2, .post 3 3, .granted 2, .granted 1, .trywait 4, .trywait 4] created = some (.ok s) ∧ s.seen = [.tried 4 258, .tried 4 0, .got 1, .got 2] ∧ s.value = 0 ∧
    asked [.wait 1, .wait 2, .post 3 3, .granted 2, .granted 1, .trywait 4, .trywait 4] ≤ 2147483647 := by
  refine ⟨_, rfl, ?_, ?_, ?_⟩ <;> decide

/-- Windows: with one place left, a post of two puts nothing in. -/
example : ∃ s, acts .windows [.post 3 2147483646, .post 3 2] created = some (.ok s) ∧ s.value = 2147483646 := ⟨_, rfl, by decide⟩

/-- macOS: a thread is aborted and goes on, though nothing was put in. -/
example : ∃ s, acts .mac [.wait 1, .aborted 1, .post 2 2, .signal 2, .signal 2, .signal 2] created = some (.ok s) ∧ s.seen = [.got 1] ∧ s.value = 2 := by
  refine ⟨_, rfl, ?_, ?_⟩ <;> decide

end Zpl.SemOther
