import Verif.Str.ZString

/-!
# Processes (code/source/process.c)  -  C132

The Windows variant; on other systems every function panics.  The system is an oracle that decides which calls succeed; its state is the open handles, the open streams of the C
library and the children that run.

## Model -/

namespace Zpl.Process

open Zpl Str ZString

/-- The handles of the system: the two ends of a pipe, and processes. -/
inductive Handle where
  | readEnd (pipe : Nat)
  | writeEnd (pipe : Nat)
  | process (n : Nat)
  deriving DecidableEq, Repr

/-- What this program has open, the running children with the handles they hold, and a number that is not in use. -/
structure Os where
  handles : List Handle
  streams : List (Nat × Handle)
  kids : List (Nat × List Handle)
  next : Nat
  deriving DecidableEq, Repr

/-- The value in a file: a stream of the C library or a handle of the system. -/
inductive Ptr where
  | stream (i : Nat)
  | handle (h : Handle)
  deriving DecidableEq, Repr

/-- process.h:22-30 `zpl_pr`; `none` is the null pointer. -/
structure Pr where
  fileIn : Option Ptr := none
  fileOut : Option Ptr := none
  fileErr : Option Ptr := none
  stdin : Option Nat := none
  stdout : Option Nat := none
  stderr : Option Nat := none
  handle : Option Handle := none
  deriving DecidableEq, Repr

/-- Which calls for a pipe succeed: `CreatePipe`, `SetHandleInformation`, `_open_osfhandle`, `_fdopen`. -/
structure PipeAnswers where
  pipe : Bool := true
  info : Bool := true
  descriptor : Bool := true
  stream : Bool := true

/-- process.c:38-66 `zpl__pr_open_handle`: the stream, and the end of the pipe for the child. -/
def openHandle (a : PipeAnswers) (write : Bool) (os : Os) : Os × Option Nat × Option Handle :=
  if a.pipe = false then (os, none, none)
  else
    let p := os.next
    let os : Os := { os with handles := .readEnd p :: .writeEnd p :: os.handles, next := p + 1 }
    let mine := if write then Handle.writeEnd p else .readEnd p
    let other := if write then Handle.readEnd p else .writeEnd p
    if a.info = false ∨ a.descriptor = false then (os, none, none)
    else if a.stream = false then (os, none, some other)
    else ({ os with streams := (p, mine) :: os.streams }, some p, some other)

/-- file.c:326-337 `zpl_file_connect_handle` -/
def connect : Option Nat → Except Fault (Option Ptr)
  | none => .error .assertion
  | some i => .ok (some (.stream i))

structure Answers where
  input : PipeAnswers := {}
  output : PipeAnswers := {}
  error : PipeAnswers := {}
  create : Bool := true

/-- process.c:68-156 `zpl_pr_create`: handles and streams.  The handle of the thread is opened and closed at once. -/
def create (a : Answers) (combine : Bool) (os : Os) : Except Fault (Os × Pr × Int) :=
  let (os, sin, hin) := openHandle a.input true os
  let (os, sout, hout) := openHandle a.output false os
  let (os, serr, herr) := if combine then (os, sout, hout) else openHandle a.error false os
  let pr : Pr := { stdin := sin, stdout := sout, stderr := serr }
  if a.create = false then .ok (os, pr, -1)
  else do
    let n := os.next
    let os : Os := { os with handles := .process n :: os.handles, kids := (n, [hin, hout, herr].reduceOption) :: os.kids, next := n + 1 }
    let i ← connect sin
    let o ← connect sout
    let e ← connect serr
    .ok (os, { pr with handle := some (.process n), fileIn := i, fileOut := o, fileErr := e }, 0)

/-- `fclose`: the stream and its handle are closed; for a stream that is not open the behaviour is undefined. -/
def fclose (os : Os) : Option Nat → Except Fault Os
  | none => .error .ub
  | some i =>
    match os.streams.find? (fun p => p.1 == i) with
    | none => .error .ub
    | some p => .ok { os with streams := os.streams.filter (fun q => q.1 ≠ i), handles := os.handles.filter (fun h => h ≠ p.2) }

/-- `CloseHandle` -/
def closeHandle (os : Os) : Option Handle → Os
  | none => os
  | some h => { os with handles := os.handles.filter (fun k => k ≠ h) }

/-- process.c:186-206 `zpl_pr_destroy` with process.c:11-30 `zpl__pr_close_file_handles`. -/
def destroy (os : Os) (pr : Pr) : Except Fault (Os × Pr) := do
  let os ← if pr.stdin.isSome then fclose os pr.stdin else .ok os
  let os ← fclose os pr.stdout
  let os ← if pr.stderr ≠ pr.stdout then fclose os pr.stderr else .ok os
  .ok (closeHandle os pr.handle, {})

/-- The end of a child: it gives back what it holds. -/
def exits (os : Os) : Option Handle → Os
  | some (.process n) => { os with kids := os.kids.filter fun k => k.1 ≠ n }
  | _ => os

/-- process.c:159-184 `zpl_pr_join`; `code` is the answer of `GetExitCodeProcess`. -/
def join (code : Option Int) (os : Os) (pr : Pr) : Except Fault (Os × Pr × Int) := do
  let os ← if pr.stdin.isSome then fclose os pr.stdin else .ok os
  let os := exits os pr.handle
  let (os, pr) ← destroy os pr
  .ok (os, pr, match code with | some c => c | none => -1)

/-- process.c:208-217 `zpl_pr_terminate` -/
def terminate (os : Os) (pr : Pr) : Except Fault (Os × Pr) := destroy (exits os pr.handle) pr

/-- process.c:105 the command line. -/
def commandLine (junk : Nat → Byte) (args : List (List Byte)) : Except Fault ZStr := ZString.join junk args [0x20#8, 0]

/-- process.c:85-86 the environment: the glue and the text appended at the end begin with a NUL. -/
def environment (junk : Nat → Byte) (env : List (List Byte)) : Except Fault ZStr := do
  let z ← ZString.join junk env [0, 0, 0]
  ZString.appendc junk z [0, 0]

/-! ## Specification -/

/-- The numbers in use are below the next one. -/
structure Os.Fresh (os : Os) : Prop where
  handles : ∀ h ∈ os.handles, match h with | .readEnd p => p < os.next | .writeEnd p => p < os.next | .process p => p < os.next
  streams : ∀ s ∈ os.streams, s.1 < os.next
  kids : ∀ k ∈ os.kids, k.1 < os.next

/-- A read of the pipe would tell the end: nobody can write to it any more. -/
def Os.Ended (os : Os) (p : Nat) : Prop := Handle.writeEnd p ∉ os.handles ∧ ∀ k ∈ os.kids, Handle.writeEnd p ∉ k.2

/-- The operations of a file work on handles that are open. -/
def Os.Usable (os : Os) (f : Option Ptr) : Prop := ∃ h ∈ os.handles, f = some (.handle h)

def blank (c : Byte) : Bool := c == 0x20 || c == 0x09

/-- The arguments in a command line without quotes: the words between blanks. -/
def words : List Byte → List Byte → List (List Byte)
  | [], w => if w = [] then [] else [w]
  | c :: s, w => if blank c then (if w = [] then words s [] else w :: words s []) else words s (w ++ [c])

/-- The variables in an environment block: texts with a NUL behind each, up to an empty one. -/
def variables : List Byte → List Byte → Except Fault (List (List Byte))
  | [], _ => .error .oob
  | c :: s, w => if c = 0 then (if w = [] then .ok [] else do let l ← variables s []; .ok (w :: l)) else variables s (w ++ [c])

/-! ## Handles and streams -/

theorem filter_fresh {α : Type} [DecidableEq α] {l : List α} {x : α} (h : x ∉ l) : l.filter (fun y => y ≠ x) = l := by
  rw [List.filter_eq_self]
  intro y hy
  have : y ≠ x := by rintro rfl; exact h hy
  simpa using this

theorem filter_streams {l : List (Nat × Handle)} {i : Nat} (h : ∀ s ∈ l, s.1 < i) : l.filter (fun q => q.1 ≠ i) = l := by
  rw [List.filter_eq_self]
  intro y hy
  have := h y hy
  have : y.1 ≠ i := by omega
  simpa using this

theorem filter_kids {l : List (Nat × List Handle)} {i : Nat} (h : ∀ s ∈ l, s.1 < i) : l.filter (fun q => q.1 ≠ i) = l := by
  rw [List.filter_eq_self]
  intro y hy
  have := h y hy
  have : y.1 ≠ i := by omega
  simpa using this

/-- What a process holds after it was created, output and errors apart. -/
theorem create_apart (os : Os) : create {} false os = .ok
    (⟨.process (os.next + 3) :: .readEnd (os.next + 2) :: .writeEnd (os.next + 2) :: .readEnd (os.next + 1) :: .writeEnd (os.next + 1) :: .readEnd os.next :: .writeEnd os.next :: os.handles,
      (os.next + 2, .readEnd (os.next + 2)) :: (os.next + 1, .readEnd (os.next + 1)) :: (os.next, .writeEnd os.next) :: os.streams,
      (os.next + 3, [.readEnd os.next, .writeEnd (os.next + 1), .writeEnd (os.next + 2)]) :: os.kids, os.next + 4⟩,
     ⟨some (.stream os.next), some (.stream (os.next + 1)), some (.stream (os.next + 2)), some os.next, some (os.next + 1), some (os.next + 2), some (.process (os.next + 3))⟩, 0) := rfl

/-- And with output and errors in one pipe. -/
theorem create_combined (os : Os) : create {} true os = .ok
    (⟨.process (os.next + 2) :: .readEnd (os.next + 1) :: .writeEnd (os.next + 1) :: .readEnd os.next :: .writeEnd os.next :: os.handles,
      (os.next + 1, .readEnd (os.next + 1)) :: (os.next, .writeEnd os.next) :: os.streams,
      (os.next + 2, [.readEnd os.next, .writeEnd (os.next + 1), .writeEnd (os.next + 1)]) :: os.kids, os.next + 3⟩,
     ⟨some (.stream os.next), some (.stream (os.next + 1)), some (.stream (os.next + 1)), some os.next, some (os.next + 1), some (os.next + 1), some (.process (os.next + 2))⟩, 0) := rfl

/-- Whether all calls for a pipe succeed. -/
def PipeAnswers.all (a : PipeAnswers) : Bool := a.pipe && a.info && a.descriptor && a.stream

/-- Whether all calls that are made succeed. -/
def Answers.pipes (a : Answers) (combine : Bool) : Bool := a.input.all && a.output.all && (combine || a.error.all)

theorem openHandle_all {a : PipeAnswers} (h : a.all = true) (w : Bool) (os : Os) : openHandle a w os = openHandle {} w os := by
  obtain ⟨a1, a2, a3, a4⟩ := a
  unfold PipeAnswers.all at h
  simp only [Bool.and_eq_true] at h
  obtain ⟨⟨⟨rfl, rfl⟩, rfl⟩, rfl⟩ := h
  rfl

theorem openHandle_fails {a : PipeAnswers} (h : a.all = false) (w : Bool) (os : Os) : (openHandle a w os).2.1 = none := by
  obtain ⟨a1, a2, a3, a4⟩ := a
  unfold PipeAnswers.all at h
  unfold openHandle
  cases a1 <;> cases a2 <;> cases a3 <;> cases a4 <;> first | rfl | cases h

theorem openHandle_succeeds (w : Bool) (os : Os) : (openHandle {} w os).2.1 = some os.next := by
  cases w <;> rfl

theorem create_all {a : Answers} {combine : Bool} (h : a.pipes combine = true) (os : Os) : create a combine os = create { create := a.create } combine os := by
  unfold Answers.pipes at h
  rw [Bool.and_eq_true, Bool.and_eq_true, Bool.or_eq_true] at h
  obtain ⟨⟨h1, h2⟩, h3⟩ := h
  unfold create
  rw [openHandle_all h1]
  dsimp only
  rw [openHandle_all h2]
  rcases h3 with h3 | h3
  · rw [if_pos h3, if_pos h3]
  · rw [openHandle_all h3]

/-- When a pipe could not be made and the child runs, an assertion stops the program. -/
theorem create_asserts {a : Answers} {combine : Bool} (h : a.pipes combine = false) (hc : a.create = true) (os : Os) : create a combine os = .error .assertion := by
  unfold create
  dsimp only
  rw [if_neg (by rw [hc]; decide)]
  by_cases h1 : a.input.all = true
  · by_cases h2 : a.output.all = true
    · have h3 : combine = false ∧ a.error.all = false := by
        unfold Answers.pipes at h
        rw [h1, h2] at h
        cases combine
        · exact ⟨rfl, by simpa using h⟩
        · simp at h
      rw [h3.1]
      simp only [Bool.false_eq_true, if_false]
      rw [openHandle_fails h3.2, openHandle_all h1, openHandle_all h2, openHandle_succeeds, openHandle_succeeds]
      rfl
    · rw [openHandle_fails (Bool.eq_false_iff.2 h2), openHandle_all h1, openHandle_succeeds]
      rfl
  · rw [openHandle_fails (Bool.eq_false_iff.2 h1)]
    rfl

theorem create_zero {a : Answers} {combine : Bool} {os os' : Os} {pr : Pr} (h : create a combine os = .ok (os', pr, 0)) : create {} combine os = .ok (os', pr, 0) := by
  cases hp : a.pipes combine with
  | true =>
    rw [create_all hp] at h
    cases hc : a.create with
    | true => rw [hc] at h; exact h
    | false =>
      rw [hc] at h
      unfold create at h
      dsimp only at h
      rw [if_pos rfl] at h
      simp at h
  | false =>
    cases hc : a.create with
    | true => rw [create_asserts hp hc] at h; cases h
    | false =>
      unfold create at h
      dsimp only at h
      rw [if_pos hc] at h
      simp at h

/-! ## C132 -/

/-- The ends of the pipes for the child, which this program has open too. -/
def childEnds (combine : Bool) (n : Nat) : List Handle := if combine then [.writeEnd (n + 1), .readEnd n] else [.writeEnd (n + 2), .writeEnd (n + 1), .readEnd n]

theorem destroy_apart {os : Os} (hf : os.Fresh) (kids : List (Nat × List Handle)) (m : Nat) (f g h : Option Ptr) :
    destroy ⟨.process (os.next + 3) :: .readEnd (os.next + 2) :: .writeEnd (os.next + 2) :: .readEnd (os.next + 1) :: .writeEnd (os.next + 1) :: .readEnd os.next :: .writeEnd os.next :: os.handles,
      (os.next + 2, .readEnd (os.next + 2)) :: (os.next + 1, .readEnd (os.next + 1)) :: (os.next, .writeEnd os.next) :: os.streams, kids, m⟩
      ⟨f, g, h, some os.next, some (os.next + 1), some (os.next + 2), some (.process (os.next + 3))⟩ =
    .ok (⟨childEnds false os.next ++ os.handles, os.streams, kids, m⟩, {}) := by
  have h1 : ∀ k, Handle.writeEnd (os.next + k) ∉ os.handles := fun k hm => by have := hf.handles _ hm; dsimp only at this; omega
  have h2 : ∀ k, Handle.readEnd (os.next + k) ∉ os.handles := fun k hm => by have := hf.handles _ hm; dsimp only at this; omega
  have h3 : ∀ k, Handle.process (os.next + k) ∉ os.handles := fun k hm => by have := hf.handles _ hm; dsimp only at this; omega
  have h4 : ∀ k, os.streams.filter (fun q => q.1 ≠ os.next + k) = os.streams := fun k => filter_streams fun s hs => by have := hf.streams s hs; omega
  have h10 := h1 0
  have h40 := h4 0
  simp only [Nat.add_zero] at h10 h40
  unfold destroy
  simp only [Option.isSome_some, if_true, fclose]
  rw [List.find?_cons_of_neg (by simp), List.find?_cons_of_neg (by simp), List.find?_cons_of_pos (by simp)]
  simp only [except_ok_bind]
  rw [List.filter_cons_of_pos (by simp), List.filter_cons_of_pos (by simp), List.filter_cons_of_neg (by simp), h40]
  rw [List.find?_cons_of_neg (by simp), List.find?_cons_of_pos (by simp)]
  simp only [except_ok_bind]
  rw [if_pos (by simp), List.filter_cons_of_pos (by simp), List.filter_cons_of_neg (by simp), h4 1]
  rw [List.find?_cons_of_pos (by simp)]
  simp only [except_ok_bind]
  rw [List.filter_cons_of_neg (a := ((os.next + 2, Handle.readEnd (os.next + 2)) : Nat × Handle)) (by simp), h4 2]
  simp only [closeHandle, childEnds, Bool.false_eq_true, if_false]
  congr 3
  simp only [List.filter_cons]
  simp
  intro x hx
  refine ⟨fun e => h3 3 (e ▸ hx), fun e => h2 2 (e ▸ hx), fun e => h2 1 (e ▸ hx), fun e => h10 (e ▸ hx)⟩

theorem destroy_combined {os : Os} (hf : os.Fresh) (kids : List (Nat × List Handle)) (m : Nat) (f g h : Option Ptr) :
    destroy ⟨.process (os.next + 2) :: .readEnd (os.next + 1) :: .writeEnd (os.next + 1) :: .readEnd os.next :: .writeEnd os.next :: os.handles,
      (os.next + 1, .readEnd (os.next + 1)) :: (os.next, .writeEnd os.next) :: os.streams, kids, m⟩
      ⟨f, g, h, some os.next, some (os.next + 1), some (os.next + 1), some (.process (os.next + 2))⟩ =
    .ok (⟨childEnds true os.next ++ os.handles, os.streams, kids, m⟩, {}) := by
  have h1 : ∀ k, Handle.writeEnd (os.next + k) ∉ os.handles := fun k hm => by have := hf.handles _ hm; dsimp only at this; omega
  have h2 : ∀ k, Handle.readEnd (os.next + k) ∉ os.handles := fun k hm => by have := hf.handles _ hm; dsimp only at this; omega
  have h3 : ∀ k, Handle.process (os.next + k) ∉ os.handles := fun k hm => by have := hf.handles _ hm; dsimp only at this; omega
  have h4 : ∀ k, os.streams.filter (fun q => q.1 ≠ os.next + k) = os.streams := fun k => filter_streams fun s hs => by have := hf.streams s hs; omega
  have h10 := h1 0
  have h40 := h4 0
  simp only [Nat.add_zero] at h10 h40
  unfold destroy
  simp only [Option.isSome_some, if_true, fclose]
  rw [List.find?_cons_of_neg (by simp), List.find?_cons_of_pos (by simp)]
  simp only [except_ok_bind]
  rw [List.filter_cons_of_pos (by simp), List.filter_cons_of_neg (by simp), h40]
  rw [List.find?_cons_of_pos (by simp)]
  simp only [except_ok_bind]
  rw [if_neg (by simp), List.filter_cons_of_neg (a := ((os.next + 1, Handle.readEnd (os.next + 1)) : Nat × Handle)) (by simp), h4 1]
  simp only [closeHandle, childEnds, if_true]
  congr 3
  simp only [List.filter_cons]
  simp
  intro x hx
  refine ⟨fun e => h3 2 (e ▸ hx), fun e => h2 1 (e ▸ hx), fun e => h10 (e ▸ hx)⟩

/-- What is known after a process was created: how it is destroyed whatever children run, and its number. -/
theorem created_facts {a : Answers} {combine : Bool} {os os' : Os} {pr : Pr} (hf : os.Fresh) (h : create a combine os = .ok (os', pr, 0)) :
    (∀ kids, destroy { os' with kids := kids } pr = .ok (⟨childEnds combine os.next ++ os.handles, os.streams, kids, os'.next⟩, {})) ∧
      (∃ n l, os.next ≤ n ∧ pr.handle = some (.process n) ∧ os'.kids = (n, l) :: os.kids) ∧ pr.stdin = some os.next ∧ pr.stdout = some (os.next + 1) ∧
      Handle.writeEnd (os.next + 1) ∈ os'.handles ∧ (∃ i j k, pr.fileIn = some (.stream i) ∧ pr.fileOut = some (.stream j) ∧ pr.fileErr = some (.stream k)) := by
  have h' := create_zero h
  cases combine with
  | true =>
    rw [create_combined] at h'
    injection h' with h'
    injection h' with h1 h2
    injection h2 with h2
    subst h1 h2
    exact ⟨fun kids => destroy_combined hf kids _ _ _ _, ⟨_, _, by omega, rfl, rfl⟩, rfl, rfl, by simp, ⟨_, _, _, rfl, rfl, rfl⟩⟩
  | false =>
    rw [create_apart] at h'
    injection h' with h'
    injection h' with h1 h2
    injection h2 with h2
    subst h1 h2
    exact ⟨fun kids => destroy_apart hf kids _ _ _ _, ⟨_, _, by omega, rfl, rfl⟩, rfl, rfl, by simp, ⟨_, _, _, rfl, rfl, rfl⟩⟩

/-- Destroying a process closes its streams and its handle, and leaves the child running.  But the ends of the pipes for the child stay open in this program. -/
theorem C132_destroy_partial {a : Answers} {combine : Bool} {os os' : Os} {pr : Pr} (hf : os.Fresh) (h : create a combine os = .ok (os', pr, 0)) :
    ∃ os'', destroy os' pr = .ok (os'', {}) ∧ os''.streams = os.streams ∧ os''.kids = os'.kids ∧ os''.handles = childEnds combine os.next ++ os.handles :=
  ⟨_, (created_facts hf h).1 os'.kids, rfl, rfl, rfl⟩

theorem exits_kids {os os' : Os} {pr : Pr} {n : Nat} {l : List Handle} (hf : os.Fresh) (hn : os.next ≤ n) (hh : pr.handle = some (.process n)) (hk : os'.kids = (n, l) :: os.kids) :
    exits os' pr.handle = { os' with kids := os.kids } := by
  rw [hh]
  unfold exits
  rw [hk]
  dsimp only
  rw [List.filter_cons_of_neg (by simp), filter_kids fun s hs => Nat.lt_of_lt_of_le (hf.kids s hs) hn]

/-- Ending a process ends the child too. -/
theorem C132_terminate_partial {a : Answers} {combine : Bool} {os os' : Os} {pr : Pr} (hf : os.Fresh) (h : create a combine os = .ok (os', pr, 0)) :
    ∃ os'', terminate os' pr = .ok (os'', {}) ∧ os''.streams = os.streams ∧ os''.kids = os.kids ∧ os''.handles = childEnds combine os.next ++ os.handles := by
  obtain ⟨hd, ⟨n, l, hn, hh, hk⟩, -⟩ := created_facts hf h
  unfold terminate
  rw [exits_kids hf hn hh hk]
  exact ⟨_, hd _, rfl, rfl, rfl⟩

/-- Waiting for any process that has a stream for its input closes this stream twice, which is undefined. -/
theorem C132_join_closes_twice (code : Option Int) (os : Os) {pr : Pr} (h : pr.stdin.isSome = true) : join code os pr = .error .ub := by
  obtain ⟨i, hi⟩ := Option.isSome_iff_exists.1 h
  unfold join
  rw [if_pos h, hi, fclose]
  cases hs : os.streams.find? (fun p => p.1 == i) with
  | none => rfl
  | some p =>
    dsimp only
    rw [except_ok_bind]
    have e : ∀ o : Os, (exits o pr.handle).streams = o.streams := by
      intro o
      unfold exits
      split <;> rfl
    generalize ho : exits { os with streams := os.streams.filter (fun q => q.1 ≠ i), handles := os.handles.filter (fun h => h ≠ p.2) } pr.handle = o
    have ho' : o.streams = os.streams.filter (fun q => q.1 ≠ i) := by rw [← ho, e]
    have : destroy o pr = .error .ub := by
      unfold destroy
      rw [if_pos h, hi, fclose, ho', show (os.streams.filter (fun q => q.1 ≠ i)).find? (fun p => p.1 == i) = none by
        rw [List.find?_eq_none]
        intro q hq
        rw [List.mem_filter] at hq
        simpa using hq.2]
      rfl
    rw [this]
    rfl

theorem fclose_kids {os os2 : Os} {f : Option Nat} (h : fclose os f = .ok os2) (kids : List (Nat × List Handle)) : fclose { os with kids := kids } f = .ok { os2 with kids := kids } := by
  unfold fclose at h ⊢
  cases f with
  | none => cases h
  | some i =>
    dsimp only at h ⊢
    cases hs : os.streams.find? (fun p => p.1 == i) with
    | none => rw [hs] at h; cases h
    | some p =>
      rw [hs] at h
      injection h with h
      subst h
      rfl

/-- So a program has to close the input itself and to clear it before it waits: then the result is that of the child, or -1 if the system does not know it. -/
theorem C132_join_partial {a : Answers} {combine : Bool} {os os1 os2 : Os} {pr : Pr} (hf : os.Fresh) (h : create a combine os = .ok (os1, pr, 0)) (hc : fclose os1 pr.stdin = .ok os2) (code : Option Int) :
    ∃ os3, join code os2 { pr with stdin := none } = .ok (os3, {}, code.getD (-1)) ∧ os3.streams = os.streams ∧ os3.kids = os.kids ∧ os3.handles = childEnds combine os.next ++ os.handles := by
  obtain ⟨hd, ⟨n, l, hn, hh, hk⟩, hs, -⟩ := created_facts hf h
  have hk2 : os2.kids = (n, l) :: os.kids := by
    rw [← hk]
    unfold fclose at hc
    rw [hs] at hc
    dsimp only at hc
    split at hc
    · cases hc
    · injection hc with hc
      rw [← hc]
  have e := exits_kids (os' := os2) (pr := pr) hf hn hh hk2
  have hdk := hd os.kids
  have e2 : destroy { os2 with kids := os.kids } { pr with stdin := none } = .ok (⟨childEnds combine os.next ++ os.handles, os.streams, os.kids, os1.next⟩, {}) := by
    rw [← hdk]
    conv => rhs; unfold destroy
    rw [if_pos (by rw [hs]; rfl), fclose_kids hc]
    rfl
  refine ⟨⟨childEnds combine os.next ++ os.handles, os.streams, os.kids, os1.next⟩, ?_, rfl, rfl, rfl⟩
  · unfold join
    change (destroy (exits os2 pr.handle) { pr with stdin := none } >>= fun r => Except.ok (r.1, r.2, match code with | some c => c | none => -1)) = _
    rw [e, e2]
    cases code <;> rfl

/-- Since this program can still write to the pipe, reading all of the output of a child never comes to an end, even when the child has ended. -/
theorem C132_output_never_ends {a : Answers} {combine : Bool} {os os' : Os} {pr : Pr} (hf : os.Fresh) (h : create a combine os = .ok (os', pr, 0)) {p : Nat} (hp : pr.stdout = some p) :
    ¬ (exits os' pr.handle).Ended p := by
  obtain ⟨-, ⟨n, l, hn, hh, hk⟩, -, hs, hm, -⟩ := created_facts hf h
  rw [exits_kids hf hn hh hk]
  rw [hs] at hp
  injection hp with hp
  subst hp
  exact fun he => he.1 hm

/-- The three files of a process are not usable: they have streams of the C library where handles of the system are expected. -/
theorem C132_files_unusable {a : Answers} {combine : Bool} {os os' : Os} {pr : Pr} (hf : os.Fresh) (h : create a combine os = .ok (os', pr, 0)) (os'' : Os) :
    ¬ os''.Usable pr.fileIn ∧ ¬ os''.Usable pr.fileOut ∧ ¬ os''.Usable pr.fileErr := by
  obtain ⟨-, -, -, -, -, i, j, k, h1, h2, h3⟩ := created_facts hf h
  rw [h1, h2, h3]
  refine ⟨?_, ?_, ?_⟩ <;> rintro ⟨h, -, e⟩ <;> cases e

/-- When there is no such program, all pipes and streams stay open. -/
theorem C132_failed_create_leaks {a : Answers} {combine : Bool} (hp : a.pipes combine = true) (hc : a.create = false) (os : Os) :
    ∃ os' pr, create a combine os = .ok (os', pr, -1) ∧ os'.streams.length = os.streams.length + (if combine then 2 else 3) ∧ os'.handles.length = os.handles.length + (if combine then 4 else 6) := by
  rw [create_all hp, hc]
  cases combine
  · exact ⟨_, _, rfl, rfl, rfl⟩
  · exact ⟨_, _, rfl, rfl, rfl⟩

/-- When a pipe cannot be made, the child is started and then an assertion stops the program. -/
theorem C132_no_pipe_asserts {a : Answers} {combine : Bool} (h : a.pipes combine = false) (hc : a.create = true) (os : Os) : create a combine os = .error .assertion := create_asserts h hc os

/-- Success is told only when every call has succeeded. -/
theorem C132_created {a : Answers} {combine : Bool} {os os' : Os} {pr : Pr} (h : create a combine os = .ok (os', pr, 0)) : a.create = true ∧ a.pipes combine = true := by
  cases hc : a.create with
  | false =>
    unfold create at h
    dsimp only at h
    rw [if_pos hc] at h
    simp at h
  | true =>
    cases hp : a.pipes combine with
    | true => exact ⟨rfl, rfl⟩
    | false => rw [create_asserts hp hc] at h; cases h

/-! ### Arguments -/

theorem words_cons {w : List Byte} (hw : ∀ c ∈ w, blank c = false) (s : List Byte) : ∀ v : List Byte, words (w ++ s) v = words s (v ++ w) := by
  induction w with
  | nil => intro v; simp
  | cons c w ih =>
    intro v
    rw [List.cons_append, words, if_neg (by rw [hw c (by simp)]; decide), ih (fun d hd => hw d (by simp [hd]))]
    simp

theorem words_join : ∀ {l : List (List Byte)}, (∀ w ∈ l, w ≠ [] ∧ ∀ c ∈ w, blank c = false) → words (List.intercalate [0x20#8] l) [] = l
  | [], _ => rfl
  | [w], h => by
    have h1 := h w (by simp)
    have e : List.intercalate [0x20#8] [w] = w ++ [] := by simp [List.intercalate]
    rw [e, words_cons h1.2, List.nil_append, words, if_neg h1.1]
  | w :: v :: l, h => by
    have h1 := h w (by simp)
    have e : List.intercalate [0x20#8] (w :: v :: l) = w ++ 0x20#8 :: List.intercalate [0x20#8] (v :: l) := by simp [List.intercalate]
    rw [e, words_cons h1.2, List.nil_append, words, if_pos (by decide), if_neg h1.1, words_join fun u hu => h u (by simp [hu])]

theorem words_blankless (s : List Byte) : ∀ v : List Byte, (∀ c ∈ v, blank c = false) → ∀ w ∈ words s v, w ≠ [] ∧ ∀ c ∈ w, blank c = false := by
  induction s with
  | nil =>
    intro v hv w hw
    rw [words] at hw
    split at hw
    · cases hw
    · rw [List.mem_singleton] at hw
      subst hw
      exact ⟨by assumption, hv⟩
  | cons c s ih =>
    intro v hv w hw
    rw [words] at hw
    split at hw
    · split at hw
      · exact ih [] (by simp) w hw
      · rcases List.mem_cons.1 hw with rfl | hw
        · exact ⟨by assumption, hv⟩
        · exact ih [] (by simp) w hw
    · next hc =>
      refine ih (v ++ [c]) ?_ w hw
      intro d hd
      rcases List.mem_append.1 hd with hd | hd
      · exact hv d hd
      · rw [List.mem_singleton] at hd
        subst hd
        exact Bool.eq_false_iff.2 hc

/-- The child gets the arguments exactly when none of them is empty or has a blank in it: they are put together with blanks between, without quotes. -/
theorem C132_arguments_partial (junk : Nat → Byte) (args : List (List Byte)) (hp : ∀ b ∈ args, 0 ∈ b) :
    ∃ z s, commandLine junk args = .ok z ∧ Holds z s ∧ (words s [] = args.map textOf ↔ ∀ b ∈ args, textOf b ≠ [] ∧ ∀ c ∈ textOf b, blank c = false) := by
  obtain ⟨z, e, h⟩ := C23_join junk args [0x20#8, 0] hp (by simp)
  refine ⟨z, _, e, h, fun he b hb => ?_, fun ha => ?_⟩
  · rw [show textOf [0x20#8, 0] = [0x20#8] from rfl] at he
    exact words_blankless _ [] (by simp) (textOf b) (by rw [he]; exact List.mem_map_of_mem hb)
  · refine words_join fun w hw => ?_
    obtain ⟨b, hb, rfl⟩ := List.mem_map.1 hw
    exact ha b hb

/-! ### Environment -/

theorem appendLength_tight (junk : Nat → Byte) {z z' : ZStr} {b : List Byte} {n : Int} (h : z.length = z.capacity) (e : appendLength junk z b n = .ok z') : z'.length = z'.capacity := by
  unfold appendLength at e
  split at e
  · next hn =>
    dsimp only at e
    have hm : makeSpaceFor junk z n = .ok ⟨z.block.take (z.length + 1) ++ fresh junk (((z.length : Int) + n).toNat + 1 - (z.length + 1)), z.length, ((z.length : Int) + n).toNat⟩ := by
      unfold makeSpaceFor
      rw [if_neg (by unfold available; rw [if_neg (by omega)]; omega)]
    rw [hm, except_ok_bind] at e
    dsimp only at e
    cases hp : put (z.block.take (z.length + 1) ++ fresh junk (((z.length : Int) + n).toNat + 1 - (z.length + 1))) z.length b n.toNat with
    | error f => rw [hp] at e; cases e
    | ok x =>
      rw [hp, except_ok_bind] at e
      cases hw : wr x (z.length + n.toNat) 0 with
      | error f => rw [hw] at e; cases e
      | ok y =>
        rw [hw, except_ok_bind] at e
        injection e with e
        rw [← e]
        show z.length + n.toNat = ((z.length : Int) + n).toNat
        omega
  · injection e with e
    rw [← e]
    exact h

theorem appendc_tight (junk : Nat → Byte) {z z' : ZStr} {b : List Byte} (h : z.length = z.capacity) (e : appendc junk z b = .ok z') : z'.length = z'.capacity := by
  unfold appendc at e
  cases hs : strlen b with
  | error f => rw [hs] at e; cases e
  | ok n =>
    rw [hs, except_ok_bind] at e
    exact appendLength_tight junk h e

theorem joinLoop_tight (junk : Nat → Byte) (glue : List Byte) : ∀ {l : List (List Byte)} {z z' : ZStr}, z.length = z.capacity → joinLoop junk glue l z = .ok z' → z'.length = z'.capacity
  | [], z, z', h, e => by
    injection e with e
    rw [← e]
    exact h
  | b :: l, z, z', h, e => by
    rw [joinLoop] at e
    cases h1 : appendc junk z b with
    | error f => rw [h1] at e; cases e
    | ok z1 =>
      rw [h1, except_ok_bind] at e
      have t1 := appendc_tight junk h h1
      cases l with
      | nil => exact joinLoop_tight junk glue t1 e
      | cons b' l =>
        dsimp only at e
        cases h2 : appendc junk z1 glue with
        | error f => rw [h2] at e; cases e
        | ok z2 =>
          rw [h2, except_ok_bind] at e
          exact joinLoop_tight junk glue (appendc_tight junk t1 h2) e

theorem environment_ok (junk : Nat → Byte) (env : List (List Byte)) (hp : ∀ b ∈ env, 0 ∈ b) : ∃ z, environment junk env = .ok z ∧ z.block = (env.map textOf).flatten ++ [0] := by
  obtain ⟨z, e, h⟩ := C23_join junk env [0, 0, 0] hp (by simp)
  obtain ⟨z', e', h'⟩ := appendc_ok junk h (b := [0, 0]) (by simp)
  refine ⟨z', ?_, ?_⟩
  · unfold environment
    rw [e, except_ok_bind]
    exact e'
  · have t : z'.length = z'.capacity := by
      refine appendc_tight junk ?_ e'
      unfold ZString.join at e
      cases hm : make junk none with
      | error f => rw [hm] at e; cases e
      | ok z0 =>
        rw [hm, except_ok_bind] at e
        refine joinLoop_tight junk _ ?_ e
        rw [show make junk none = makeLength junk none 0 from rfl, makeZeros_ok] at hm
        injection hm with hm
        rw [← hm]
    have h1 := h'.size
    have h2 := h'.length
    have h3 := h'.bytes
    rw [List.take_of_length_le (by omega)] at h3
    rw [h3, show textOf [(0 : Byte), 0] = [] from rfl, show textOf [(0 : Byte), 0, 0] = [] from rfl, List.append_nil]
    congr 1
    generalize env.map textOf = l
    induction l with
    | nil => rfl
    | cons a l ih =>
      cases l with
      | nil => simp [List.intercalate]
      | cons b l =>
        rw [List.flatten_cons, ← ih]
        simp [List.intercalate]

theorem variables_text {t : List Byte} (ht : ∀ c ∈ t, c ≠ 0) (s : List Byte) : ∀ w : List Byte, variables (t ++ s) w = variables s (w ++ t) := by
  induction t with
  | nil => intro w; simp
  | cons c t ih =>
    intro w
    rw [List.cons_append, variables, if_neg (ht c (by simp)), ih fun d hd => ht d (by simp [hd])]
    simp

theorem text_flatten {env : List (List Byte)} : ∀ c ∈ (env.map textOf).flatten, c ≠ 0 := by
  intro c hc
  rw [List.mem_flatten] at hc
  obtain ⟨t, ht, hc⟩ := hc
  obtain ⟨b, -, rfl⟩ := List.mem_map.1 ht
  unfold textOf at hc
  have : ∀ l : List Byte, ∀ c ∈ l.takeWhile (· ≠ 0), c ≠ 0 := by
    intro l
    induction l with
    | nil => intro c hc; cases hc
    | cons a l ih =>
      intro c hc
      rw [List.takeWhile_cons] at hc
      split at hc
      · next ha =>
        rcases List.mem_cons.1 hc with rfl | hc
        · simpa using ha
        · exact ih c hc
      · cases hc
  exact this b c hc

/-- The variables of a given environment run together: the child sees one variable, all of them in one, whatever lies behind the block. -/
theorem C132_environment_merged (junk : Nat → Byte) {env : List (List Byte)} (hp : ∀ b ∈ env, 0 ∈ b) (hne : (env.map textOf).flatten ≠ []) :
    ∃ z, environment junk env = .ok z ∧ ∀ behind l, variables (z.block ++ behind) [] = .ok l → l.head? = some (env.map textOf).flatten := by
  obtain ⟨z, e, hz⟩ := environment_ok junk env hp
  refine ⟨z, e, fun behind l h => ?_⟩
  rw [hz, List.append_assoc, variables_text text_flatten, List.nil_append, List.singleton_append, variables, if_pos rfl, if_neg hne] at h
  cases hv : variables behind [] with
  | error f => rw [hv] at h; cases h
  | ok k =>
    rw [hv] at h
    injection h with h
    rw [← h]
    rfl

/-- And its end is not marked, so that the system reads beyond it. -/
theorem C132_environment_unterminated (junk : Nat → Byte) {env : List (List Byte)} (hp : ∀ b ∈ env, 0 ∈ b) (hne : (env.map textOf).flatten ≠ []) :
    ∃ z, environment junk env = .ok z ∧ variables z.block [] = .error .oob := by
  obtain ⟨z, e, hz⟩ := environment_ok junk env hp
  refine ⟨z, e, ?_⟩
  rw [hz, variables_text text_flatten, List.nil_append, variables, if_pos rfl, if_neg hne]
  rfl

/-! ### Examples -/

def sample : Os := ⟨[.writeEnd 3, .process 4], [(3, .writeEnd 3)], [(4, [])], 5⟩

theorem sample_fresh : sample.Fresh := by
  refine ⟨?_, ?_, ?_⟩
  · intro h hh
    simp only [sample, List.mem_cons, List.not_mem_nil, or_false] at hh
    rcases hh with rfl | rfl <;> decide
  · intro s hs
    simp only [sample, List.mem_cons, List.not_mem_nil, or_false] at hs
    subst hs
    decide
  · intro s hs
    simp only [sample, List.mem_cons, List.not_mem_nil, or_false] at hs
    subst hs
    decide

example : ∃ os' pr, create {} false sample = .ok (os', pr, 0) ∧ pr.stdin = some 5 := ⟨_, _, rfl, rfl⟩

example : ∃ os' pr os'', create {} true sample = .ok (os', pr, 0) ∧ fclose os' pr.stdin = .ok os'' := ⟨_, _, _, rfl, rfl⟩

example : (commandLine (fun _ => 7) [[0x61, 0], [0x62, 0x20, 0x63, 0]]).toOption.map (fun z => words (z.block.take z.length) []) = some [[0x61], [0x62], [0x63]] := by decide +kernel

example : (environment (fun _ => 7) [[0x41, 0x3d, 0x31, 0], [0x42, 0x3d, 0x32, 0]]).toOption.map (fun z => variables (z.block ++ [0, 0]) []) = some (.ok [[0x41, 0x3d, 0x31, 0x42, 0x3d, 0x32]]) := by
  decide +kernel

end Zpl.Process
