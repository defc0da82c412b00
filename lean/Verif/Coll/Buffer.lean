import Verif.Basic

/-!
# `zpl_buffer` (code/header/essentials/collections/buffer.h)  -  C08

## Model
-/

namespace Zpl.Buf

/-- buffer.h:22-26 with the block of cells behind the header; `capacity` is stored in the header (line 45) and the block
has that many cells (line 42). -/
structure Buf (α : Type _) where
  count : Nat
  capacity : Nat
  cells : List α

variable {α : Type _}

/-- buffer.h:38-47 `zpl_buffer_init` (the allocation result is not checked by the code; assumed to succeed). -/
def init (z : α) (cap : Nat) : Buf α := { count := 0, capacity := cap, cells := List.replicate cap z }

/-- buffer.h:51-52 `zpl_buffer_append`: no capacity check. -/
def append (b : Buf α) (item : α) : Except Fault (Buf α) := do
  let cells ← wr b.cells b.count item
  return { b with cells := cells, count := b.count + 1 }

/-- buffer.h:54-60 `zpl_buffer_appendv`: asserts the capacity, then copies. -/
def appendv (b : Buf α) (items : List α) : Except Fault (Buf α) :=
  if b.count + items.length ≤ b.capacity then
    if items.length = 0 ∨ b.count + items.length ≤ b.cells.length then
      .ok { b with
        cells := b.cells.take b.count ++ items ++ b.cells.drop (b.count + items.length)
        count := b.count + items.length }
    else .error .oob
  else .error .assertion

/-- buffer.h:62-67 `zpl_buffer_copy_init`. -/
def copyInit (x : Buf α) : Buf α := { count := x.count, capacity := x.capacity, cells := x.cells.take x.capacity }

/-- buffer.h:69-73 `zpl_buffer_pop`. -/
def pop (b : Buf α) : Except Fault (Buf α) :=
  if b.count > 0 then .ok { b with count := b.count - 1 } else .error .assertion

/-- buffer.h:74-75 `zpl_buffer_clear`. -/
def clear (b : Buf α) : Buf α := { b with count := 0 }

/-- The visible contents `x[0] .. x[count-1]`. -/
def Buf.toList (b : Buf α) : List α := b.cells.take b.count

inductive Op (α : Type _) where
  | append (x : α)
  | appendv (xs : List α)
  | pop
  | clear

def step (b : Buf α) : Op α → Except Fault (Buf α)
  | .append x => append b x
  | .appendv xs => appendv b xs
  | .pop => pop b
  | .clear => .ok (clear b)

def run : List (Op α) → Buf α → Except Fault (Buf α)
  | [], b => .ok b
  | op :: ops, b => do
    let b ← step b op
    run ops b

/-! ## Specification: a sequence of bounded length; `none` when the call is a misuse -/

def specStep (cap : Nat) (q : List α) : Op α → Option (List α)
  | .append x => if q.length < cap then some (q ++ [x]) else none
  | .appendv xs => if q.length + xs.length ≤ cap then some (q ++ xs) else none
  | .pop => if q = [] then none else some q.dropLast
  | .clear => some []

def specRun (cap : Nat) : List (Op α) → List α → Option (List α)
  | [], q => some q
  | op :: ops, q => (specStep cap q op).bind (specRun cap ops)

/-! ## Lemmas -/

structure Rep (cap : Nat) (b : Buf α) (q : List α) : Prop where
  hcap : b.capacity = cap
  len : b.cells.length = cap
  cnt : b.count = q.length
  split : ∃ s, b.cells = q ++ s

theorem rep_step {cap : Nat} {b : Buf α} {q : List α} (h : Rep cap b q) (op : Op α) :
    match specStep cap q op with
    | some q' => ∃ b', step b op = .ok b' ∧ Rep cap b' q'
    | none => ∃ f, step b op = .error f := by
  obtain ⟨h1, h2, h3, s, hs⟩ := h
  have hl : q.length + s.length = cap := by rw [← h2, hs]; simp
  obtain ⟨n, c, cells⟩ := b
  simp only at h1 h2 h3 hs
  subst h1 h3 hs
  cases op with
  | append x =>
    simp only [specStep, step, append]
    by_cases hc : q.length < c
    · simp only [hc, if_true]
      cases s with
      | nil => simp at hl; omega
      | cons y s =>
        rw [wr_ok (by simp)]
        refine ⟨⟨q.length + 1, c, q ++ x :: s⟩, by simp, ?_⟩
        exact ⟨rfl, by simpa using h2, by simp, s, by simp⟩
    · simp only [hc, if_false]
      have : s = [] := by apply List.eq_nil_of_length_eq_zero; omega
      subst this
      simp [wr]
  | appendv xs =>
    simp only [specStep, step, appendv]
    by_cases hc : q.length + xs.length ≤ c
    · have : q.length + xs.length ≤ (q ++ s).length := by rw [h2]; exact hc
      simp only [hc, this, or_true, if_true]
      refine ⟨_, rfl, ?_⟩
      refine ⟨rfl, ?_, by simp, s.drop xs.length, ?_⟩
      · simp; omega
      · simp
    · simp only [hc, if_false]; exact ⟨_, rfl⟩
  | pop =>
    simp only [specStep, step, pop]
    by_cases hne : q = []
    · simp [hne]
    · have hp : 0 < q.length := List.length_pos_iff.mpr hne
      simp only [hne, gt_iff_lt, hp, if_true, if_false]
      refine ⟨_, rfl, ⟨rfl, h2, by simp, q.getLast hne :: s, ?_⟩⟩
      show q ++ s = q.dropLast ++ q.getLast hne :: s
      rw [List.append_cons, List.dropLast_concat_getLast]
  | clear =>
    exact ⟨_, rfl, rfl, h2, rfl, q ++ s, rfl⟩

/-! ## Properties -/

/-- **C08.**  For every capacity and every history on a fresh buffer: if the calls respect the capacity and never pop an
empty buffer, no call faults and the buffer holds exactly the sequence obtained by the same calls. -/
theorem C08_buffer_is_bounded_sequence (z : α) (cap : Nat) (ops : List (Op α)) (q : List α)
    (hq : specRun cap ops [] = some q) :
    ∃ b, run ops (init z cap) = .ok b ∧ b.toList = q ∧ b.count = q.length ∧ q.length ≤ cap ∧
      b.capacity = cap ∧ b.cells.length = cap := by
  have key : ∀ (ops : List (Op α)) (b : Buf α) (p : List α), Rep cap b p → specRun cap ops p = some q →
      ∃ b', run ops b = .ok b' ∧ Rep cap b' q := by
    intro ops
    induction ops with
    | nil => intro b p h hr; simp [specRun] at hr; subst hr; exact ⟨b, rfl, h⟩
    | cons op ops ih =>
      intro b p h hr
      have hs := rep_step h op
      simp only [specRun] at hr
      cases hsp : specStep cap p op with
      | none => simp [hsp] at hr
      | some p' =>
        simp only [hsp, Option.bind_some] at hr hs
        obtain ⟨b1, h1, h2⟩ := hs
        obtain ⟨b2, h3, h4⟩ := ih b1 p' h2 hr
        exact ⟨b2, by simp [run, h1, h3], h4⟩
  obtain ⟨b, h1, h2, h3, h4, s, hs⟩ :=
    key ops (init z cap) [] ⟨rfl, by simp [init], rfl, List.replicate cap z, rfl⟩ hq
  refine ⟨b, h1, by simp [Buf.toList, h4, hs], h4, ?_, h2, h3⟩
  have := congrArg List.length hs
  simp at this; omega

/-- Non-vacuity of C08. -/
example : specRun 4 [.append 1, .appendv [2, 3], .pop, .append 4, .append 5] ([] : List Nat) = some [1, 2, 4, 5] := by decide

/-- A call that does not respect the capacity, or a pop of an empty buffer, is a fault (never silently accepted), in every
state reached by a well-behaved history. -/
theorem C08_misuse_faults (z : α) (cap : Nat) (ops : List (Op α)) (op : Op α) (q : List α) (b : Buf α)
    (hq : specRun cap ops [] = some q) (hb : run ops (init z cap) = .ok b) (hop : specStep cap q op = none) :
    ∃ f, step b op = .error f := by
  obtain ⟨b', h1, h2, h3, h4, h5, h6⟩ := C08_buffer_is_bounded_sequence z cap ops q hq
  rw [hb] at h1; cases h1
  have hr : Rep cap b q := ⟨h5, h6, h3, b.cells.drop b.count, by rw [← h2]; simp [Buf.toList]⟩
  have := rep_step hr op
  rw [hop] at this
  exact this

example : specRun 1 [.append 1] ([] : List Nat) = some [1] ∧ specStep 1 [1] (.append 2) = none := by decide

/-- `copy_init` gives a buffer with the same contents and capacity. -/
theorem C08_copy_init (z : α) (cap : Nat) (ops : List (Op α)) (q : List α) (b : Buf α)
    (hq : specRun cap ops [] = some q) (hb : run ops (init z cap) = .ok b) :
    (copyInit b).toList = q ∧ (copyInit b).capacity = cap := by
  obtain ⟨b', h1, h2, h3, h4, h5, h6⟩ := C08_buffer_is_bounded_sequence z cap ops q hq
  rw [hb] at h1; cases h1
  refine ⟨?_, h5⟩
  rw [← h2]
  simp [copyInit, Buf.toList, List.take_take, h3, h5]
  omega

end Zpl.Buf
