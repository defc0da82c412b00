import Verif.Basic

/-!
# `ZPL_RING` (code/header/essentials/collections/ring.h)  -  C06, C07

## Model
-/

namespace Zpl.Ring

/-- ring.h:32-37.  `buf` is the block of `capacity` cells allocated by `zpl_buffer_init` (ring.h:55); `backing` is left out. -/
structure Ring (α : Type _) where
  buf : List α
  head : Nat
  tail : Nat
  capacity : Nat

variable {α : Type _}

/-- ring.h:50-58 `init`; `z` is the content of the fresh zeroed cells.  The allocation is assumed to succeed
(the code dereferences the result without a check). -/
def init (z : α) (maxSize : Nat) : Ring α :=
  { buf := List.replicate (maxSize + 1) z, head := 0, tail := 0, capacity := maxSize + 1 }

/-- ring.h:63-65 `full`. -/
def full (r : Ring α) : Except Fault Bool :=
  if r.capacity = 0 then .error .divZero else .ok ((r.head + 1) % r.capacity == r.tail)

/-- ring.h:67 `empty`. -/
def empty (r : Ring α) : Bool := r.head == r.tail

/-- ring.h:69-74 `append`. -/
def append (r : Ring α) (data : α) : Except Fault (Ring α) := do
  let buf ← wr r.buf r.head data
  if r.capacity = 0 then .error .divZero
  else
    let head := (r.head + 1) % r.capacity
    let tail := if head = r.tail then (r.tail + 1) % r.capacity else r.tail
    return { r with buf := buf, head := head, tail := tail }

/-- ring.h:76-79 `append_array`. -/
def appendArray (r : Ring α) : List α → Except Fault (Ring α)
  | [] => .ok r
  | x :: xs => do
    let r ← append r x
    appendArray r xs

/-- ring.h:81-88 `get`: `none` is NULL.  The C function returns a pointer into the buffer; the model returns the pointed-to
value (which is what the pointer shows until the cell is overwritten by a later append). -/
def get (r : Ring α) : Except Fault (Ring α × Option α) := do
  if empty r then return (r, none)
  else
    let data ← rd r.buf r.tail
    if r.capacity = 0 then .error .divZero
    else return ({ r with tail := (r.tail + 1) % r.capacity }, some data)

/-- ring.h:94-96, the loop of `get_array` after the decrement of `max_size` to `m`. -/
def getArrayLoop : Nat → Ring α → Except Fault (Ring α × List α)
  | 0, r => .ok (r, [])
  | m + 1, r =>
    if empty r then .ok (r, [])
    else do
      let (r, v) ← get r
      match v with
      | none => .error .oob          -- `*NULL`
      | some v =>
        let (r, vs) ← getArrayLoop m r
        return (r, v :: vs)

/-- ring.h:90-98 `get_array`: the test is `--max_size`, on a 64-bit unsigned count.  The result array is a list (its
appends are assumed to succeed). -/
def getArray (r : Ring α) (maxSize : UInt64) : Except Fault (Ring α × List α) :=
  getArrayLoop (maxSize - 1).toNat r

/-! ## Specification: a queue that keeps the newest `n` items -/

/-- Calls a user can make. -/
inductive Op (α : Type _) where
  | append (x : α)
  | appendArray (xs : List α)
  | get
  | full
  | empty
  | getArray (m : UInt64)

/-- What a call shows to the user. -/
inductive Out (α : Type _) where
  | unit
  | item (v : Option α)
  | bool (b : Bool)
  | items (vs : List α)
  deriving DecidableEq

/-- Keep the newest `n` items. -/
def newest (n : Nat) (q : List α) : List α := q.drop (q.length - n)

/-- The queue specification; `q` is oldest first.  `get_array m` hands out the `m - 1` oldest items (what the code does,
see `C07_get_array_short`). -/
def specStep (n : Nat) (q : List α) : Op α → List α × Out α
  | .append x => (newest n (q ++ [x]), .unit)
  | .appendArray xs => (newest n (q ++ xs), .unit)
  | .get => (q.tail, .item q.head?)
  | .full => (q, .bool (q.length == n))
  | .empty => (q, .bool (q.length == 0))
  | .getArray m => (q.drop (m - 1).toNat, .items (q.take (m - 1).toNat))

def specRun (n : Nat) : List (Op α) → List α → List α × List (Out α)
  | [], q => (q, [])
  | op :: ops, q =>
    let (q, o) := specStep n q op
    let (q, os) := specRun n ops q
    (q, o :: os)

/-- The model's step. -/
def step (r : Ring α) : Op α → Except Fault (Ring α × Out α)
  | .append x => do let r ← append r x; return (r, .unit)
  | .appendArray xs => do let r ← appendArray r xs; return (r, .unit)
  | .get => do let (r, v) ← get r; return (r, .item v)
  | .full => do let b ← full r; return (r, .bool b)
  | .empty => return (r, .bool (empty r))
  | .getArray m => do let (r, vs) ← getArray r m; return (r, .items vs)

def run : List (Op α) → Ring α → Except Fault (Ring α × List (Out α))
  | [], r => .ok (r, [])
  | op :: ops, r => do
    let (r, o) ← step r op
    let (r, os) ← run ops r
    return (r, o :: os)

/-! ## Lemmas -/

/-- `Rep n r q`: the ring `r` of maximal size `n` represents the queue `q`. -/
structure Rep (n : Nat) (r : Ring α) (q : List α) : Prop where
  cap : r.capacity = n + 1
  len : r.buf.length = n + 1
  tail : r.tail < n + 1
  size : q.length ≤ n
  head : r.head = (r.tail + q.length) % (n + 1)
  items : ∀ k, k < q.length → r.buf[(r.tail + k) % (n + 1)]? = q[k]?

theorem mod_lt_cases {a c : Nat} (h : a < 2 * c) : a % c = if a < c then a else a - c := by
  split
  · exact Nat.mod_eq_of_lt ‹_›
  · rw [Nat.mod_eq_sub_mod (by omega), Nat.mod_eq_of_lt (by omega)]

theorem rep_init (z : α) (n : Nat) : Rep n (init z n) [] := by
  constructor <;> simp [init]

theorem rep_empty {n : Nat} {r : Ring α} {q : List α} (h : Rep n r q) : empty r = (q.length == 0) := by
  have h1 := h.head
  have h2 := h.tail
  have h3 := h.size
  rw [mod_lt_cases (by omega)] at h1
  rw [Bool.eq_iff_iff]
  simp only [empty, beq_iff_eq, h1]
  split <;> omega

theorem rep_full {n : Nat} {r : Ring α} {q : List α} (h : Rep n r q) : full r = .ok (q.length == n) := by
  have h1 := h.head
  have h2 := h.tail
  have h3 := h.size
  rw [mod_lt_cases (by omega)] at h1
  simp only [full, h.cap, Nat.succ_ne_zero, if_false, Except.ok.injEq]
  rw [Bool.eq_iff_iff]
  simp only [beq_iff_eq]
  rw [mod_lt_cases (by split at h1 <;> omega), h1]
  split <;> split <;> omega

theorem rep_append {n : Nat} {r : Ring α} {q : List α} (h : Rep n r q) (x : α) :
    ∃ r', append r x = .ok r' ∧ Rep n r' (newest n (q ++ [x])) := by
  have h1 := h.head
  have h2 := h.tail
  have h3 := h.size
  have h4 := h.len
  rw [mod_lt_cases (by omega)] at h1
  have hh : r.head < n + 1 := by split at h1 <;> omega
  refine ⟨{ r with
    buf := r.buf.set r.head x
    head := (r.head + 1) % (n + 1)
    tail := if (r.head + 1) % (n + 1) = r.tail then (r.tail + 1) % (n + 1) else r.tail }, ?_, ?_⟩
  · simp only [append, wr_ok (show r.head < r.buf.length by omega), except_ok_bind, h.cap, Nat.succ_ne_zero, if_false, except_pure]
  · by_cases hf : q.length = n
    · -- full: the oldest item is dropped
      have hn : newest n (q ++ [x]) = (q ++ [x]).tail := by
        simp [newest, hf, Nat.add_sub_cancel_left]
      have e : (r.head + 1) % (n + 1) = r.tail := by
        rw [mod_lt_cases (by omega), h1]; split <;> split <;> omega
      rw [hn]
      constructor
      · simp [h.cap]
      · simp [h.len]
      · simp only [e, if_true]; exact Nat.mod_lt _ (by omega)
      · simp; omega
      · simp only [e, if_true]
        simp only [List.length_tail, List.length_append, List.length_singleton, hf]
        rw [show n + 1 - 1 = n by omega, Nat.mod_add_mod, show r.tail + 1 + n = r.tail + (n + 1) by omega,
          Nat.add_mod_right, Nat.mod_eq_of_lt h2]
      · intro k hk
        simp only [e, if_true, List.getElem?_tail]
        simp at hk
        rw [Nat.mod_add_mod]
        have hh' : r.head = (r.tail + n) % (n + 1) := by rw [h.head, hf]
        by_cases hk' : k + 1 < q.length
        · rw [List.getElem?_set_ne, show r.tail + 1 + k = r.tail + (k + 1) by omega, h.items _ hk']
          · rw [List.getElem?_append_left hk']
          · rw [hh', mod_lt_cases (by omega), mod_lt_cases (by omega)]; split <;> split <;> omega
        · have : k + 1 = q.length := by omega
          rw [show r.tail + 1 + k = r.tail + n by omega, ← hh', List.getElem?_set_self (by omega), this]
          simp
    · have hn : newest n (q ++ [x]) = q ++ [x] := by
        simp [newest, show q.length + 1 - n = 0 by omega]
      have e : ¬ ((r.head + 1) % (n + 1) = r.tail) := by
        rw [mod_lt_cases (by omega), h1]; split <;> split <;> omega
      rw [hn]
      constructor
      · simp [h.cap]
      · simp [h.len]
      · simp only [e, if_false]; exact h2
      · simp; omega
      · simp only [e, if_false, List.length_append, List.length_singleton]
        rw [h.head, Nat.mod_add_mod]; rfl
      · intro k hk
        simp only [e, if_false]
        simp at hk
        by_cases hk' : k < q.length
        · rw [List.getElem?_set_ne, h.items _ hk', List.getElem?_append_left hk']
          rw [h.head, mod_lt_cases (by omega), mod_lt_cases (by omega)]; split <;> split <;> omega
        · have : k = q.length := by omega
          rw [this, ← h.head, List.getElem?_set_self (by omega)]; simp

theorem rep_get {n : Nat} {r : Ring α} {q : List α} (h : Rep n r q) :
    ∃ r', get r = .ok (r', q.head?) ∧ Rep n r' q.tail := by
  have h1 := h.head
  have h2 := h.tail
  have h3 := h.size
  have h4 := h.len
  cases q with
  | nil =>
    refine ⟨r, ?_, h⟩
    have := rep_empty h
    simp at this
    simp [get, this]
  | cons v q =>
    have he := rep_empty h
    have h0 := h.items 0 (by simp)
    simp [Nat.mod_eq_of_lt h2] at h0
    have hrd : rd r.buf r.tail = .ok v := by simp [rd, h0]
    refine ⟨{ r with tail := (r.tail + 1) % (n + 1) }, ?_, ?_⟩
    · simp [get, he, hrd, h.cap]
    · constructor
      · exact h.cap
      · exact h.len
      · exact Nat.mod_lt _ (by omega)
      · simp at h3 ⊢; omega
      · simp at h1 ⊢; rw [h1, show r.tail + (q.length + 1) = r.tail + 1 + q.length by omega]
      · intro k hk
        have := h.items (k + 1) (by simp at hk ⊢; omega)
        simp at this ⊢
        rw [← this, show r.tail + (k + 1) = r.tail + 1 + k by omega]

theorem newest_append (n : Nat) (q : List α) (x : α) (xs : List α) :
    newest n (newest n (q ++ [x]) ++ xs) = newest n (q ++ x :: xs) := by
  unfold newest
  rw [show q ++ x :: xs = (q ++ [x]) ++ xs by simp]
  generalize q ++ [x] = p
  rw [← List.drop_append_of_le_length (by omega), List.drop_drop]
  congr 1; simp; omega

theorem rep_appendArray {n : Nat} (xs : List α) : ∀ {r : Ring α} {q : List α}, Rep n r q →
    ∃ r', appendArray r xs = .ok r' ∧ Rep n r' (newest n (q ++ xs)) := by
  induction xs with
  | nil =>
    intro r q h
    refine ⟨r, rfl, ?_⟩
    have : newest n (q ++ []) = q := by simp [newest, show q.length - n = 0 by have := h.size; omega]
    rw [this]; exact h
  | cons x xs ih =>
    intro r q h
    obtain ⟨r1, h1, h2⟩ := rep_append h x
    obtain ⟨r2, h3, h4⟩ := ih h2
    exact ⟨r2, by simp [appendArray, h1, h3], by rw [newest_append] at h4; exact h4⟩

theorem rep_getArrayLoop {n : Nat} (m : Nat) : ∀ {r : Ring α} {q : List α}, Rep n r q →
    ∃ r', getArrayLoop m r = .ok (r', q.take m) ∧ Rep n r' (q.drop m) := by
  induction m with
  | zero => intro r q h; exact ⟨r, by simp [getArrayLoop], by simpa using h⟩
  | succ m ih =>
    intro r q h
    have he := rep_empty h
    cases q with
    | nil => exact ⟨r, by simp at he; simp [getArrayLoop, he], by simpa using h⟩
    | cons v q =>
      obtain ⟨r1, h1, h2⟩ := rep_get h
      obtain ⟨r2, h3, h4⟩ := ih h2
      simp at he h1 h3 h4
      exact ⟨r2, by simp [getArrayLoop, he, h1, h3], by simpa using h4⟩

theorem rep_step {n : Nat} {r : Ring α} {q : List α} (h : Rep n r q) (op : Op α) :
    ∃ r', step r op = .ok (r', (specStep n q op).2) ∧ Rep n r' (specStep n q op).1 := by
  cases op with
  | append x => obtain ⟨r', h1, h2⟩ := rep_append h x; exact ⟨r', by simp [step, h1, specStep], h2⟩
  | appendArray xs => obtain ⟨r', h1, h2⟩ := rep_appendArray xs h; exact ⟨r', by simp [step, h1, specStep], h2⟩
  | get => obtain ⟨r', h1, h2⟩ := rep_get h; exact ⟨r', by simp [step, h1, specStep], h2⟩
  | full => exact ⟨r, by simp [step, rep_full h, specStep], h⟩
  | empty => exact ⟨r, by simp [step, rep_empty h, specStep], h⟩
  | getArray m =>
    obtain ⟨r', h1, h2⟩ := rep_getArrayLoop (m - 1).toNat h
    exact ⟨r', by simp only [step, getArray, h1]; rfl, h2⟩

theorem rep_run {n : Nat} (ops : List (Op α)) : ∀ {r : Ring α} {q : List α}, Rep n r q →
    ∃ r', run ops r = .ok (r', (specRun n ops q).2) ∧ Rep n r' (specRun n ops q).1 := by
  induction ops with
  | nil => intro r q h; exact ⟨r, rfl, h⟩
  | cons op ops ih =>
    intro r q h
    obtain ⟨r1, h1, h2⟩ := rep_step h op
    obtain ⟨r2, h3, h4⟩ := ih h2
    exact ⟨r2, by simp [run, h1, h3, specRun], by simpa [specRun] using h4⟩

/-! ## Properties -/

/-- **C06.**  For every maximal size `n` and every history of calls on a fresh ring, no access is out of bounds and every
observable result is that of a queue that keeps the newest `n` items: FIFO order, `get` on empty gives NULL,
an append to a full ring drops exactly the oldest item, `full`/`empty` tell whether `n`/0 items are held. -/
theorem C06_ring_is_bounded_fifo (z : α) (n : Nat) (ops : List (Op α)) :
    ∃ r, run ops (init z n) = .ok (r, (specRun n ops []).2) ∧ (specRun n ops []).1.length ≤ n := by
  obtain ⟨r, h1, h2⟩ := rep_run ops (rep_init z n)
  exact ⟨r, h1, h2.size⟩

/-- Non-vacuity of C06: a wrapping history on a ring of size 2. -/
example : (specRun 2 [.append 1, .append 2, .full, .append 3, .get, .get, .get, .empty] ([] : List Nat)).2 =
    [.unit, .unit, .bool true, .unit, .item (some 2), .item (some 3), .item none, .bool true] := by decide

/-- Appending to a full ring drops exactly the oldest item; otherwise nothing is dropped. -/
theorem C06_append_drops_oldest (n : Nat) (q : List α) (x : α) (h : q.length ≤ n) (hn : 0 < n) :
    (specStep n q (.append x)).1 = if q.length = n then q.tail ++ [x] else q ++ [x] := by
  simp only [specStep, newest]
  split
  · have : (q ++ [x]).length - n = 1 := by simp; omega
    rw [this]
    cases q with
    | nil => simp at *; omega
    | cons a q => simp
  · have : (q ++ [x]).length - n = 0 := by simp; omega
    rw [this]; simp

example : (specStep 2 [1, 2] (.append 3)).1 = [2, 3] := by decide

/-- **C07 (append).**  `append_array xs` has the same effect as appending the items one by one, in every reachable state. -/
theorem C07_append_array (r : Ring α) (xs : List α) :
    appendArray r xs = xs.foldlM append r := by
  induction xs generalizing r with
  | nil => rfl
  | cons x xs ih => simp only [appendArray, List.foldlM_cons]; congr 1; funext r'; exact ih r'

/-- **C07 (get, partial).**  In every state reached by any history, `get_array m` with `m ≥ 1` returns the oldest
`min (m-1) size` items in order and removes exactly these (every later history sees the queue without them).  The full property asks for `min m size`; it is false, see
`C07_get_array_short`. -/
theorem C07_get_array_partial (z : α) (n : Nat) (ops : List (Op α)) (m : UInt64) (hm : 1 ≤ m) :
    ∃ r r', run ops (init z n) = .ok (r, (specRun n ops []).2) ∧
      getArray r m = .ok (r', (specRun n ops []).1.take (m.toNat - 1)) ∧
      ∀ more : List (Op α), ∃ r'', run more r' =
        .ok (r'', (specRun n more ((specRun n ops []).1.drop (m.toNat - 1))).2) := by
  obtain ⟨r, h1, h2⟩ := rep_run ops (rep_init z n)
  obtain ⟨r', h3, h4⟩ := rep_getArrayLoop (m - 1).toNat h2
  have : (m - 1).toNat = m.toNat - 1 := by
    rw [UInt64.toNat_sub_of_le _ _ hm]; rfl
  rw [this] at h3 h4
  exact ⟨r, r', h1, by rw [getArray, this]; exact h3,
    fun more => (rep_run more h4).imp fun _ h => h.1⟩

/-- Non-vacuity of C07: three items held, `get_array 3` returns two of them. -/
example : ∃ r r', run [.append 1, .append 2, .append 3] (init 0 4) = .ok (r, [.unit, .unit, .unit]) ∧
    getArray r 3 = .ok (r', [1, 2]) := ⟨_, _, rfl, rfl⟩

/-- Deviation: `get_array m` returns one item fewer than asked for (ring.h:94 decrements before testing), and `get_array 0`
drains the ring because the unsigned counter wraps. -/
theorem C07_get_array_short :
    (∃ r r', run [.append 1, .append 2] (init 0 4) = .ok (r, [.unit, .unit]) ∧ getArray r 1 = .ok (r', [])) ∧
    (∃ r r', run [.append 1, .append 2] (init 0 4) = .ok (r, [.unit, .unit]) ∧ getArray r 2 = .ok (r', [1])) := by
  exact ⟨⟨_, _, rfl, rfl⟩, ⟨_, _, rfl, rfl⟩⟩

/-- Deviation, general form: `get_array 0` returns everything (for fewer than 2^64 - 1 items). -/
theorem C07_get_array_zero_drains (n : Nat) (r : Ring α) (q : List α) (h : Rep n r q) (hq : q.length < 2 ^ 64 - 1) :
    ∃ r', getArray r 0 = .ok (r', q) := by
  obtain ⟨r', h1, h2⟩ := rep_getArrayLoop ((0 : UInt64) - 1).toNat h
  refine ⟨r', ?_⟩
  rw [getArray, h1, List.take_of_length_le]
  have : ((0 : UInt64) - 1).toNat = 2 ^ 64 - 1 := by decide
  omega

end Zpl.Ring
