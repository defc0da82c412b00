/-!
# Common vocabulary of the model

Faults are the ways a modelled C function can leave defined behaviour.  A model function that touches memory returns
`Except Fault r`; a theorem saying that it returns `.ok r` therefore says that none of these happened.
-/

namespace Zpl

/-- Ways in which a modelled C call can go wrong. -/
inductive Fault where
  /-- a load or store outside the allocated block -/
  | oob
  /-- `ZPL_ASSERT` failed (code/source/core/../essentials/debug.h: the process aborts) -/
  | assertion
  /-- integer division or remainder by zero -/
  | divZero
  /-- signed overflow or another arithmetic undefined behaviour -/
  | arith
  /-- the loop runs for ever -/
  | diverge
  /-- another undefined behaviour: overlapping `memcpy`, misaligned word access -/
  | ub
  deriving DecidableEq, Repr

/-- Read cell `i` of a block of cells; out of bounds is a fault. -/
def rd {α : Type _} (cells : List α) (i : Nat) : Except Fault α :=
  match cells[i]? with
  | some v => .ok v
  | none => .error .oob

/-- Write cell `i` of a block of cells; out of bounds is a fault. -/
def wr {α : Type _} (cells : List α) (i : Nat) (v : α) : Except Fault (List α) :=
  if i < cells.length then .ok (cells.set i v) else .error .oob

theorem rd_ok {α : Type _} {cells : List α} {i : Nat} (h : i < cells.length) : rd cells i = .ok cells[i] := by
  simp [rd, h]

theorem wr_ok {α : Type _} {cells : List α} {i : Nat} {v : α} (h : i < cells.length) :
    wr cells i v = .ok (cells.set i v) := by
  simp [wr, h]

@[simp] theorem except_ok_bind {ε α β : Type _} (a : α) (f : α → Except ε β) :
    ((Except.ok a : Except ε α) >>= f) = f a := rfl

@[simp] theorem except_error_bind {ε α β : Type _} (e : ε) (f : α → Except ε β) :
    ((Except.error e : Except ε α) >>= f) = Except.error e := rfl

@[simp] theorem except_pure {ε α : Type _} (a : α) : (pure a : Except ε α) = Except.ok a := rfl

/-- Equality of results is decidable (used by concrete examples only). -/
instance {ε α : Type _} [DecidableEq ε] [DecidableEq α] : DecidableEq (Except ε α)
  | .ok a, .ok b => if h : a = b then isTrue (h ▸ rfl) else isFalse (fun e => h (Except.ok.inj e))
  | .error a, .error b => if h : a = b then isTrue (h ▸ rfl) else isFalse (fun e => h (Except.error.inj e))
  | .ok _, .error _ => isFalse nofun
  | .error _, .ok _ => isFalse nofun

end Zpl
