import Verif.Basic

/-!
# `zpl_array` (code/header/essentials/collections/array.h)

The array is a pointer just past a header `{elem_size, count, capacity, allocator}`.  The model keeps `count`
and the block of element cells behind the header; the number of cells is the allocated capacity
(array.h:91-92, 119-120).  Element bytes are abstracted to one cell per element.  Moves of whole elements
by `zpl_memmove`/`zpl_memcopy` are `moveCells`/`putCells`; the byte level behaviour of those two functions is
modelled and proved separately (`Verif/Mem`).  `elem_size` and the `allocator` field never change and are left out.

Allocation goes through a user supplied allocator, so its outcome is a Boolean argument `ok` of every call that may
allocate.  `zpl_alloc` passes `ZPL_DEFAULT_ALLOCATOR_FLAGS` = clear to zero, so fresh cells hold the zero
element `z`.
-/

namespace Zpl.Arr

/-- array.h:66-71 (`zpl_array_header`) together with the element block that follows it. -/
structure Arr (α : Type _) where
  count : Nat
  cells : List α

variable {α : Type _}

/-- array.h:87 `zpl_array_capacity`. -/
def Arr.capacity (a : Arr α) : Nat := a.cells.length

/-- What user code sees as the contents: `x[0] .. x[count-1]`. -/
def Arr.toList (a : Arr α) : List α := a.cells.take a.count

/-- array.h:78 `ZPL_ARRAY_GROW_FORMULA`. -/
def growFormula (x : Nat) : Nat := 2 * x + 8

/-- `zpl_memmove` inside one block, in units of elements: cells `[src, src+n)` are copied to `[dst, dst+n)`. -/
def moveCells (cells : List α) (dst src n : Nat) : Except Fault (List α) :=
  if n = 0 then .ok cells
  else if src + n ≤ cells.length ∧ dst + n ≤ cells.length then
    .ok (cells.take dst ++ (cells.drop src).take n ++ cells.drop (dst + n))
  else .error .oob

/-- `zpl_memcopy` from a user buffer `items` into the block at cell `dst`. -/
def putCells (cells : List α) (dst : Nat) (items : List α) : Except Fault (List α) :=
  if items.length = 0 then .ok cells
  else if dst + items.length ≤ cells.length then
    .ok (cells.take dst ++ items ++ cells.drop (dst + items.length))
  else .error .oob

/-- array.h:90-100 `zpl__array_init_reserve`; `none` is the `false` return. -/
def initReserve (z : α) (cap : Nat) (ok : Bool) : Option (Arr α) :=
  if ok then some { count := 0, cells := List.replicate cap z } else none

/-- array.h:105 `zpl_array_init`. -/
def init (z : α) (ok : Bool) : Option (Arr α) := initReserve z (growFormula 0) ok

/-- array.h:115-130 `zpl__array_set_capacity`.  Line 118 truncates the count before the allocation is tried. -/
def setCapacity (z : α) (ok : Bool) (a : Arr α) (capacity : Nat) : Arr α × Bool :=
  if capacity = a.capacity then (a, true)
  else
    let count := if capacity < a.count then capacity else a.count
    if ok then
      -- fresh block, then memmove of the header and the first `count` elements
      ({ count := count, cells := a.cells.take count ++ List.replicate (capacity - count) z }, true)
    else ({ a with count := count }, false)

/-- array.h:134-138 `zpl__array_grow`. -/
def grow (z : α) (ok : Bool) (a : Arr α) (minCapacity : Nat) : Arr α × Bool :=
  let newCapacity := growFormula a.capacity
  let newCapacity := if newCapacity < minCapacity then minCapacity else newCapacity
  setCapacity z ok a newCapacity

/-- array.h:142-147 `zpl__array_append_helper`. -/
def appendHelper (z : α) (ok : Bool) (a : Arr α) : Arr α × Bool :=
  if a.capacity < a.count + 1 then grow z ok a 0 else (a, true)

/-- array.h:149 `zpl_array_append`. -/
def append (z : α) (ok : Bool) (a : Arr α) (item : α) : Except Fault (Arr α × Bool) := do
  let (a, r) := appendHelper z ok a
  if r then
    let cells ← wr a.cells a.count item
    return ({ count := a.count + 1, cells := cells }, true)
  else return (a, false)

/-- array.h:151-160 `zpl__array_append_at_helper`: here the index is clamped into the array. -/
def appendAtHelper (z : α) (ok : Bool) (a : Arr α) (ind : Int) : Except Fault (Arr α × Bool) := do
  let ind := if ind ≥ a.count then (a.count : Int) - 1 else ind
  let ind := if ind < 0 then 0 else ind
  let (a, r) := if a.capacity < a.count + 1 then grow z ok a 0 else (a, true)
  if r then
    let cells ← moveCells a.cells (ind.toNat + 1) ind.toNat (a.count - ind.toNat)
    return ({ a with cells := cells }, true)
  else return (a, false)

/-- array.h:162 `zpl_array_append_at`: the macro stores through the *unclamped* index. -/
def appendAt (z : α) (ok : Bool) (a : Arr α) (item : α) (ind : Int) : Except Fault (Arr α × Bool) := do
  let (a, r) ← appendAtHelper z ok a ind
  if r then
    if ind < 0 then .error .oob
    else
      let cells ← wr a.cells ind.toNat item
      return ({ count := a.count + 1, cells := cells }, true)
  else return (a, false)

/-- array.h:164-172 `zpl__array_appendv` (`item_size == elem_size` holds by typing). -/
def appendv (z : α) (ok : Bool) (a : Arr α) (items : List α) : Except Fault (Arr α × Bool) := do
  let (a, r) := if a.capacity < a.count + items.length then grow z ok a (a.count + items.length) else (a, true)
  if r then
    let cells ← putCells a.cells a.count items
    return ({ count := a.count + items.length, cells := cells }, true)
  else return (a, false)

/-- array.h:176-187 `zpl__array_appendv_at`. -/
def appendvAt (z : α) (ok : Bool) (a : Arr α) (items : List α) (ind : Int) : Except Fault (Arr α × Bool) := do
  if ind ≥ a.count then appendv z ok a items
  else
    let (a, r) := if a.capacity < a.count + items.length then grow z ok a (a.count + items.length) else (a, true)
    if r then
      if ind < 0 then .error .oob
      else
        let cells ← moveCells a.cells (ind.toNat + items.length) ind.toNat (a.count - ind.toNat)
        let cells ← putCells cells ind.toNat items
        return ({ count := a.count + items.length, cells := cells }, true)
    else return (a, false)

/-- array.h:195 the loop of `zpl_array_fill`: store `value` at `i`, `i+1`, ... for `n` cells. -/
def fillLoop (value : α) : Nat → Nat → List α → Except Fault (List α)
  | _, 0, cells => .ok cells
  | i, n + 1, cells => do
    let cells ← wr cells i value
    fillLoop value (i + 1) n cells

/-- array.h:191-196 `zpl_array_fill`. -/
def fill (a : Arr α) (beg fin : Int) (value : α) : Except Fault (Arr α) := do
  if 0 ≤ beg ∧ fin ≤ a.count then
    let cells ← fillLoop value beg.toNat (fin - beg).toNat a.cells
    return { a with cells := cells }
  else .error .assertion

/-- array.h:198-204 `zpl_array_remove_at`: asserts `index < count` only, a negative index moves memory before the block. -/
def removeAt (a : Arr α) (index : Int) : Except Fault (Arr α) := do
  if index < a.count then
    if index < 0 then .error .oob
    else
      let cells ← moveCells a.cells index.toNat (index.toNat + 1) (a.count - index.toNat - 1)
      return { count := a.count - 1, cells := cells }
  else .error .assertion

/-- array.h:206-212 `zpl__array_copy_init`: copies the whole capacity. -/
def copyInit (z : α) (ok : Bool) (x : Arr α) : Except Fault (Option (Arr α)) := do
  match initReserve z x.capacity ok with
  | none => return none
  | some y =>
    let cells ← putCells y.cells 0 x.cells
    return some { count := x.count, cells := cells }

/-- array.h:216-220 `zpl_array_pop`. -/
def pop (a : Arr α) : Except Fault (Arr α) :=
  if a.count > 0 then .ok { a with count := a.count - 1 } else .error .assertion

/-- array.h:221 `zpl_array_back` (a read of `x[count-1]`). -/
def back (a : Arr α) : Except Fault α :=
  if a.count = 0 then .error .oob else rd a.cells (a.count - 1)

/-- array.h:222 `zpl_array_front` (a read of `x[0]`). -/
def front (a : Arr α) : Except Fault α := rd a.cells 0

/-- array.h:223-224 `zpl_array_clear`. -/
def clear (a : Arr α) : Arr α := { a with count := 0 }

/-- array.h:226-232 `zpl__array_resize`. -/
def resize (z : α) (ok : Bool) (a : Arr α) (newCount : Nat) : Arr α × Bool :=
  let (a, r) := if a.capacity < newCount then grow z ok a newCount else (a, true)
  if r then ({ a with count := newCount }, true) else (a, false)

/-- array.h:236-239 `zpl__array_reserve`. -/
def reserve (z : α) (ok : Bool) (a : Arr α) (newCapacity : Nat) : Arr α × Bool :=
  if a.capacity < newCapacity then setCapacity z ok a newCapacity else (a, true)

/-- A user read `x[i]`. -/
def get (a : Arr α) (i : Nat) : Except Fault α := rd a.cells i

/-- A user store `x[i] = v`. -/
def set (a : Arr α) (i : Nat) (v : α) : Except Fault (Arr α) := do
  let cells ← wr a.cells i v
  return { a with cells := cells }

/-- The calls a user can make on an array. -/
inductive Op (α : Type _) where
  | append (item : α)
  | appendAt (item : α) (ind : Int)
  | appendv (items : List α)
  | appendvAt (items : List α) (ind : Int)
  | fill (beg fin : Int) (value : α)
  | removeAt (index : Int)
  | pop
  | clear
  | resize (n : Nat)
  | reserve (n : Nat)
  | grow (n : Nat)
  | setCapacity (n : Nat)
  | store (i : Nat) (v : α)

/-- One user call; `ok` says whether the allocation succeeds in case this call makes one.  The Boolean returned is the
value of the C expression (`true` for the statements that have no value). -/
def step (z : α) (op : Op α) (ok : Bool) (a : Arr α) : Except Fault (Arr α × Bool) :=
  match op with
  | .append x => append z ok a x
  | .appendAt x i => appendAt z ok a x i
  | .appendv xs => appendv z ok a xs
  | .appendvAt xs i => appendvAt z ok a xs i
  | .fill b e v => do let a ← fill a b e v; return (a, true)
  | .removeAt i => do let a ← removeAt a i; return (a, true)
  | .pop => do let a ← pop a; return (a, true)
  | .clear => return (clear a, true)
  | .resize n => return resize z ok a n
  | .reserve n => return reserve z ok a n
  | .grow n => return grow z ok a n
  | .setCapacity n => return setCapacity z ok a n
  | .store i v => do let a ← set a i v; return (a, true)

end Zpl.Arr
