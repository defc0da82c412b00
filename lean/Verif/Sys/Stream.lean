import Verif.Array.Props

/-!
# Memory streams (code/source/core/file_stream.c, code/header/core/file.h:336-395)  -  C47

## Model

`Fd` is the descriptor.  A cloned stream keeps its bytes in a `zpl_array` (`Verif/Array`), another one in the caller's buffer; `buf.cells` is the
block in both cases, and `buf.count` means something in the first case only.  `zpl_alloc` clears the descriptor (`ZPL_DEFAULT_ALLOCATOR_FLAGS`), so
the cursor starts at 0.  Offsets and sizes are exact integers: the code adds them as `zpl_i64`, which is the same as long as they stay below
2^62 in absolute value.  A `zpl_memcopy` with a negative count, or one that leaves the block, is the fault `oob`.  The outcome of an allocation is the
Boolean `ok`. -/

namespace Zpl.Stream

open Arr

abbrev Byte := BitVec 8

/-- file.h `zpl_file_stream_flags`: 0, `ZPL_FILE_STREAM_WRITABLE`, `ZPL_FILE_STREAM_CLONE_WRITABLE`. -/
inductive Mode where
  | readOnly
  | writable
  | clone
  deriving DecidableEq, Repr

/-- file_stream.c:12-20 `zpl__memory_fd`. -/
structure Fd where
  mode : Mode
  buf : Arr Byte
  cursor : Int
  cap : Nat

/-- file_stream.c:39-56 `zpl_file_stream_new`, for allocations that succeed. -/
def new : Option Fd :=
  match Arr.init 0 true with
  | some a => some { mode := .clone, buf := a, cursor := 0, cap := 0 }
  | none => none

/-- file_stream.c:57-80 `zpl_file_stream_open` on the buffer `buffer`, of which the first `size` bytes are named; allocations succeed. -/
def «open» (buffer : List Byte) (size : Nat) (mode : Mode) : Except Fault Fd :=
  if mode = .clone then
    match initReserve (0 : Byte) size true with
    | some a =>
      if size ≤ buffer.length then do
        let cells ← putCells a.cells 0 (buffer.take size)
        .ok { mode := mode, buf := { count := size, cells := cells }, cursor := 0, cap := size }
      else .error .oob
    | none => .error .assertion
  else .ok { mode := mode, buf := { count := 0, cells := buffer }, cursor := 0, cap := size }

/-- file_stream.c:82-87 `zpl_file_stream_buf`: pointer and size, that is the named bytes. -/
def buf (d : Fd) : List Byte := d.buf.cells.take d.cap

/-- file.h `zpl_seek_whence_type`. -/
inductive Whence where
  | begin
  | current
  | end
  deriving DecidableEq

/-- file_stream.c:93-96: where the offset counts from. -/
def seekBase (d : Fd) : Whence → Int
  | .begin => 0
  | .end => d.cap
  | .current => d.cursor

/-- file_stream.c:89-101 `zpl__memory_file_seek`; helpers.h:103-117 for `zpl_max` and `zpl_clamp`. -/
def seekProc (d : Fd) (offset : Int) (whence : Whence) : Fd × Int :=
  let x := seekBase d whence + offset
  let x := if x > 0 then x else 0
  let x := if x < d.cap then x else (d.cap : Int)
  let x := if 0 > x then 0 else x
  ({ d with cursor := x }, x)

/-- file_stream.c:103-109 `zpl__memory_file_read`: the bytes copied to the caller's buffer. -/
def readProc (d : Fd) (size : Nat) (offset : Int) : Except Fault (List Byte) :=
  if size = 0 then .ok []
  else if 0 ≤ offset ∧ offset + size ≤ d.buf.cells.length then .ok ((d.buf.cells.drop offset.toNat).take size)
  else .error .oob

/-- `zpl_memcopy(d->buf + dst, items, n)` where `n` may be negative. -/
def copyIn (cells : List Byte) (dst : Int) (items : List Byte) (n : Int) : Except Fault (List Byte) :=
  if n < 0 ∨ dst < 0 then .error .oob else putCells cells dst.toNat (items.take n.toNat)

/-- Lines 119-123: make room in the array; `none` is `return false`. -/
def makeRoom (ok : Bool) (d : Fd) (newCap : Int) : Option (Arr Byte) :=
  if d.mode = .clone ∧ (d.buf.capacity : Int) < newCap then
    let (a, r) := grow 0 ok d.buf newCap.toNat
    if r then some a else none
  else some d.buf

/-- file_stream.c:111-135 `zpl__memory_file_write`: the descriptor, the result and `*bytes_written`. -/
def writeProc (ok : Bool) (d : Fd) (buffer : List Byte) (offset : Int) : Except Fault (Fd × Bool × Int) :=
  if d.mode = .readOnly then .ok (d, false, 0)
  else
    let size : Int := buffer.length
    let buflen : Int := d.cap
    let extralen := if 0 > size - (buflen - offset) then 0 else size - (buflen - offset)
    let rwlen := size - extralen
    let newCap := buflen + extralen
    match makeRoom ok d newCap with
    | none => .ok (d, false, 0)
    | some a => do
      let cells ← copyIn a.cells offset buffer rwlen
      if d.mode = .clone ∧ extralen > 0 then do
        let cells ← copyIn cells (offset + rwlen) (buffer.drop rwlen.toNat) extralen
        .ok ({ d with buf := { count := newCap.toNat, cells := cells }, cap := newCap.toNat }, true, rwlen + extralen)
      else .ok ({ d with buf := { a with cells := cells } }, true, rwlen)

/-- file.h:354-359 `zpl_file_seek`. -/
def seek (d : Fd) (offset : Int) : Fd × Int := seekProc d offset .begin

/-- file.h:361-366 `zpl_file_seek_to_end`. -/
def seekToEnd (d : Fd) : Fd × Int := seekProc d 0 .end

/-- file.h:369-374 `zpl_file_skip`. -/
def skip (d : Fd) (bytes : Int) : Fd × Int := seekProc d bytes .current

/-- file.h:376-381 `zpl_file_tell`. -/
def tell (d : Fd) : Fd × Int := seekProc d 0 .current

/-- file.h:383-388 `zpl_file_read`. -/
def read (d : Fd) (size : Nat) : Except Fault (Fd × List Byte) := do
  let (d, cur) := tell d
  let (d, pos) := tell d
  let bytes ← readProc d size pos
  let (d, _) := seek d (cur + size)
  .ok (d, bytes)

/-- file.h:390-395 `zpl_file_write`. -/
def write (ok : Bool) (d : Fd) (buffer : List Byte) : Except Fault (Fd × Bool) := do
  let (d, cur) := tell d
  let (d, pos) := tell d
  let (d, result, _) ← writeProc ok d buffer pos
  let (d, _) := seek d (cur + buffer.length)
  .ok (d, result)

/-- One call on a stream. -/
inductive Op where
  | write (data : List Byte)
  | writeAt (data : List Byte) (offset : Int)
  | seek (offset : Int)
  | seekToEnd
  | skip (bytes : Int)
  | tell
  | read (size : Nat)
  | readAt (size : Nat) (offset : Int)

/-- What a call returns. -/
inductive Out where
  | result (b : Bool)
  | pos (x : Int)
  | bytes (bs : List Byte)
  deriving DecidableEq

/-- The call; allocations succeed. -/
def step (d : Fd) : Op → Except Fault (Fd × Out)
  | .write data => do
    let (d, r) ← write true d data
    .ok (d, .result r)
  | .writeAt data offset => do
    let (d, r, _) ← writeProc true d data offset
    .ok (d, .result r)
  | .seek offset => let (d, x) := seek d offset; .ok (d, .pos x)
  | .seekToEnd => let (d, x) := seekToEnd d; .ok (d, .pos x)
  | .skip n => let (d, x) := skip d n; .ok (d, .pos x)
  | .tell => let (d, x) := tell d; .ok (d, .pos x)
  | .read n => do
    let (d, bs) ← read d n
    .ok (d, .bytes bs)
  | .readAt n offset => do
    let bs ← readProc d n offset
    .ok (d, .bytes bs)

/-- A history of calls. -/
def run (d : Fd) : List Op → Except Fault (Fd × List Out)
  | [] => .ok (d, [])
  | op :: ops => do
    let (d, o) ← step d op
    let (d, os) ← run d ops
    .ok (d, o :: os)

/-! ## Specification: a byte sequence with a position -/

/-- A byte file: its bytes and the position of the next transfer. -/
structure File where
  bytes : List Byte
  at_ : Nat

/-- Positions are kept between the beginning and the end. -/
def File.moveTo (f : File) (x : Int) : File := { f with at_ := min x.toNat f.bytes.length }

/-- `data` overwrites the bytes from `off` on; with `grow` the file becomes longer if needed, otherwise what does not fit is dropped. -/
def overwrite (grow : Bool) (bytes data : List Byte) (off : Nat) : List Byte :=
  if grow then bytes.take off ++ data ++ bytes.drop (off + data.length)
  else (bytes.take off ++ data ++ bytes.drop (off + data.length)).take bytes.length

/-- What a call does to a byte file; `none` for transfers that begin, or for reads that end, past the end of the file. -/
def File.step (mode : Mode) (f : File) : Op → Option (File × Out)
  | .write data =>
    if mode = .readOnly then some (f.moveTo (f.at_ + data.length), .result false)
    else
      let f' : File := { f with bytes := overwrite (decide (mode = .clone)) f.bytes data f.at_ }
      some (f'.moveTo (f.at_ + data.length), .result true)
  | .writeAt data off =>
    if mode = .readOnly then some (f, .result false)
    else if 0 ≤ off ∧ off ≤ f.bytes.length then
      some ({ f with bytes := overwrite (decide (mode = .clone)) f.bytes data off.toNat }, .result true)
    else none
  | .seek off => some (f.moveTo off, .pos (f.moveTo off).at_)
  | .seekToEnd => some (f.moveTo f.bytes.length, .pos f.bytes.length)
  | .skip n => some (f.moveTo (f.at_ + n), .pos (f.moveTo (f.at_ + n)).at_)
  | .tell => some (f, .pos f.at_)
  | .read n => if f.at_ + n ≤ f.bytes.length then some (f.moveTo (f.at_ + n), .bytes ((f.bytes.drop f.at_).take n)) else none
  | .readAt n off =>
    if 0 ≤ off ∧ off + n ≤ f.bytes.length then some (f, .bytes ((f.bytes.drop off.toNat).take n)) else none

def File.run (mode : Mode) (f : File) : List Op → Option (File × List Out)
  | [] => some (f, [])
  | op :: ops => do
    let (f, o) ← f.step mode op
    let (f, os) ← f.run mode ops
    some (f, o :: os)

/-! ## Lemmas -/

/-- The descriptor stands for the file. -/
structure Inv (d : Fd) (f : File) : Prop where
  bytes : buf d = f.bytes
  room : d.cap ≤ d.buf.cells.length
  count : d.mode = .clone → d.buf.count = d.cap
  cursor : d.cursor = f.at_
  inside : f.at_ ≤ f.bytes.length

theorem Inv.len {d : Fd} {f : File} (h : Inv d f) : f.bytes.length = d.cap := by
  rw [← h.bytes, buf, List.length_take]; have := h.room; omega

theorem seekProc_ok {d : Fd} {f : File} (h : Inv d f) (offset : Int) (w : Whence) (base : Int)
    (hb : base = match w with | .begin => 0 | .current => (f.at_ : Int) | .end => (f.bytes.length : Int)) :
    ∃ d', seekProc d offset w = (d', ((f.moveTo (base + offset)).at_ : Int)) ∧ Inv d' (f.moveTo (base + offset)) ∧ d'.mode = d.mode := by
  have hl := h.len
  have hbase : base = seekBase d w := by
    subst hb; cases w <;> simp [h.cursor, hl, seekBase]
  have hx : (seekProc d offset w).2 = ((f.moveTo (base + offset)).at_ : Int) := by
    simp only [seekProc, File.moveTo, hl]
    rw [← hbase]
    split <;> split <;> split <;> omega
  have hc : (seekProc d offset w).1 = { d with cursor := (seekProc d offset w).2 } := rfl
  refine ⟨(seekProc d offset w).1, by rw [← hx], ?_, by rw [hc]⟩
  rw [hc]
  refine ⟨h.bytes, h.room, h.count, hx, ?_⟩
  simp only [File.moveTo]; omega

theorem tell_ok {d : Fd} {f : File} (h : Inv d f) : ∃ d', tell d = (d', (f.at_ : Int)) ∧ Inv d' f ∧ d'.mode = d.mode := by
  obtain ⟨d', e, hi, hm⟩ := seekProc_ok h 0 .current f.at_ rfl
  have : f.moveTo ((f.at_ : Int) + 0) = f := by
    have := h.inside
    cases f
    simp only [File.moveTo, Int.add_zero, Int.toNat_natCast] at *
    congr 1; omega
  rw [this] at e hi
  exact ⟨d', e, hi, hm⟩

theorem readProc_ok {d : Fd} {f : File} (h : Inv d f) (n : Nat) (off : Int) (h0 : 0 ≤ off) (hn : off + n ≤ f.bytes.length) :
    readProc d n off = .ok ((f.bytes.drop off.toNat).take n) := by
  have hl := h.len
  have hr := h.room
  unfold readProc
  by_cases hz : n = 0
  · simp [hz]
  · rw [if_neg hz, if_pos ⟨h0, by omega⟩, ← h.bytes, buf]
    congr 1
    apply List.ext_getElem?
    intro i
    simp only [List.getElem?_take, List.getElem?_drop]
    split
    · rw [if_pos (by omega)]
    · rfl

theorem putCells_ok (cells items : List Byte) (dst : Nat) (h : dst + items.length ≤ cells.length) :
    putCells cells dst items = .ok (cells.take dst ++ items ++ cells.drop (dst + items.length)) := by
  unfold putCells
  split
  · rename_i hz
    have : items = [] := List.length_eq_zero_iff.1 hz
    subst this
    simp
  · rfl

theorem makeRoom_ok {d : Fd} {f : File} (h : Inv d f) (newCap : Nat) (hn : d.cap ≤ newCap) :
    ∃ a, makeRoom true d newCap = some a ∧ a.cells.take d.cap = f.bytes ∧ d.cap ≤ a.cells.length ∧ (d.mode = .clone → newCap ≤ a.cells.length) ∧
      a.count = d.buf.count := by
  have hb := h.bytes
  have hr := h.room
  unfold makeRoom
  by_cases hc : d.mode = .clone ∧ (d.buf.capacity : Int) < newCap
  · rw [if_pos hc]
    have hcnt := h.count hc.1
    have hlt : d.buf.cells.length < newCap := by have := hc.2; unfold Arr.capacity at this; omega
    obtain ⟨q, hq, hq2⟩ : ∃ q, (grow 0 true d.buf (newCap : Int).toNat) = setCapacity 0 true d.buf q ∧ newCap ≤ q := by
      refine ⟨_, rfl, ?_⟩
      simp only [Int.toNat_natCast]
      split <;> omega
    have hne : ¬ q = d.buf.capacity := by unfold Arr.capacity; omega
    have hnc : ¬ q < d.buf.count := by omega
    rw [hq]
    simp only [setCapacity, if_neg hne, if_neg hnc, if_true]
    refine ⟨_, rfl, ?_, ?_, fun _ => ?_, rfl⟩
    · rw [hcnt, List.take_left' (by simp; omega)]
      exact hb
    · simp; omega
    · simp; omega
  · rw [if_neg hc]
    refine ⟨_, rfl, hb, hr, fun hm => ?_, rfl⟩
    rcases Nat.lt_or_ge d.buf.cells.length newCap with h | h
    · exact absurd ⟨hm, by unfold Arr.capacity; omega⟩ hc
    · exact h

theorem writeProc_ok {d : Fd} {f : File} (h : Inv d f) (data : List Byte) (off : Nat) (ho : off ≤ f.bytes.length) (hm : d.mode ≠ .readOnly) :
    ∃ d' n, writeProc true d data off = .ok (d', true, n) ∧ d'.mode = d.mode ∧ d'.cursor = d.cursor ∧
      buf d' = overwrite (decide (d.mode = .clone)) f.bytes data off ∧ d'.cap ≤ d'.buf.cells.length ∧ (d.mode = .clone → d'.buf.count = d'.cap) ∧
      n = (overwrite (decide (d.mode = .clone)) f.bytes data off).length - f.bytes.length + min data.length (f.bytes.length - off) := by
  have hl := h.len
  have hr := h.room
  unfold writeProc
  rw [if_neg hm]
  dsimp only
  by_cases hext : (0 : Int) > data.length - ((d.cap : Int) - off)
  · -- everything fits
    have hfit : off + data.length < d.cap := by omega
    rw [if_pos hext]
    have e1 : (d.cap : Int) + 0 = (d.cap : Nat) := by omega
    rw [e1]
    obtain ⟨a, ea, hb, hca, -, hcnt⟩ := makeRoom_ok h d.cap (Nat.le_refl _)
    rw [ea]
    dsimp only
    have e2 : ((data.length : Int) - 0).toNat = data.length := by omega
    rw [copyIn, if_neg (by omega), e2, List.take_of_length_le (Nat.le_refl _), Int.toNat_natCast, putCells_ok _ _ _ (by omega), except_ok_bind,
      if_neg (by omega)]
    have hlen : (a.cells.take off ++ data ++ a.cells.drop (off + data.length)).length = a.cells.length := by simp; omega
    have hbuf : (a.cells.take off ++ data ++ a.cells.drop (off + data.length)).take d.cap = f.bytes.take off ++ data ++ f.bytes.drop (off + data.length) := by
      rw [← hb]
      apply List.ext_getElem?
      intro i
      simp only [List.getElem?_take, List.getElem?_append, List.getElem?_drop, List.length_append, List.length_take]
      repeat' split
      all_goals first | rfl | omega | (congr 1; omega) | (rw [List.getElem?_eq_none]; omega) | (rw [eq_comm, List.getElem?_eq_none]; omega)
    have hol : (f.bytes.take off ++ data ++ f.bytes.drop (off + data.length)).length = f.bytes.length := by simp; omega
    refine ⟨_, _, rfl, rfl, rfl, ?_, ?_, fun hmc => ?_, ?_⟩
    · rw [buf]
      dsimp only
      rw [hbuf, overwrite]
      split
      · rfl
      · rw [List.take_of_length_le (l := f.bytes.take off ++ data ++ f.bytes.drop (off + data.length)) (by omega)]
    · dsimp only; omega
    · dsimp only; rw [hcnt]; exact h.count hmc
    · have : (overwrite (decide (d.mode = .clone)) f.bytes data off).length = f.bytes.length := by
        rw [overwrite]; split
        · exact hol
        · rw [List.take_of_length_le (l := f.bytes.take off ++ data ++ f.bytes.drop (off + data.length)) (by omega)]; exact hol
      rw [this]; omega
  · rw [if_neg hext]
    have hge : d.cap ≤ off + data.length := by omega
    obtain ⟨k, hk⟩ : ∃ k : Nat, off + data.length = d.cap + k := ⟨off + data.length - d.cap, by omega⟩
    have e0 : (data.length : Int) - ((d.cap : Int) - off) = (k : Nat) := by omega
    rw [e0]
    have e1 : (d.cap : Int) + (k : Int) = ((d.cap + k : Nat) : Int) := by omega
    have e2 : (data.length : Int) - (k : Int) = ((d.cap - off : Nat) : Int) := by omega
    rw [e1, e2]
    obtain ⟨a, ea, hb, hca, hcap, hcnt⟩ := makeRoom_ok h (d.cap + k) (by omega)
    rw [ea]
    dsimp only
    have hl1 : (data.take (d.cap - off)).length = d.cap - off := by simp; omega
    have hlen1 : (a.cells.take off ++ data.take (d.cap - off) ++ a.cells.drop d.cap).length = a.cells.length := by
      simp; omega
    have hone : copyIn a.cells (off : Int) data ((d.cap - off : Nat) : Int) = .ok (a.cells.take off ++ data.take (d.cap - off) ++ a.cells.drop d.cap) := by
      have e3 : off + (d.cap - off) = d.cap := by omega
      rw [copyIn, if_neg (by omega), Int.toNat_natCast, Int.toNat_natCast, putCells_ok _ _ _ (by rw [hl1]; omega), hl1, e3]
    have htake : a.cells.take off = f.bytes.take off := by
      rw [← hb, List.take_take]; congr 1; omega
    have hdrop : f.bytes.drop (off + data.length) = [] := List.drop_eq_nil_of_le (by omega)
    rw [hone, except_ok_bind]
    by_cases hc : d.mode = .clone ∧ (k : Int) > 0
    · rw [if_pos hc]
      have hcap := hcap hc.1
      have e4 : (off : Int) + ((d.cap - off : Nat) : Int) = (d.cap : Nat) := by omega
      have hl2 : (data.drop (d.cap - off)).length = k := by simp; omega
      rw [e4, copyIn, if_neg (by omega), Int.toNat_natCast, Int.toNat_natCast, Int.toNat_natCast, Int.toNat_natCast,
        List.take_of_length_le (l := data.drop (d.cap - off)) (by omega), putCells_ok _ _ _ (by omega), except_ok_bind, hl2]
      have hfirst : (a.cells.take off ++ data.take (d.cap - off) ++ a.cells.drop d.cap).take d.cap = f.bytes.take off ++ data.take (d.cap - off) := by
        rw [htake, List.take_left' (by rw [List.length_append, hl1, List.length_take]; omega)]
      refine ⟨_, _, rfl, rfl, rfl, ?_, ?_, fun _ => rfl, ?_⟩
      · rw [buf]
        dsimp only
        rw [hfirst]
        rw [overwrite, if_pos (by simp [hc.1]), hdrop, List.append_nil]
        rw [List.append_assoc (f.bytes.take off), List.take_append_drop]
        rw [List.take_left' (by simp; omega)]
      · dsimp only
        simp only [List.length_append, List.length_take, List.length_drop, hl2, hlen1]; omega
      · rw [overwrite, if_pos (by simp [hc.1]), hdrop, List.append_nil, List.length_append, List.length_take]
        omega
    · rw [if_neg hc]
      have hbuf : (a.cells.take off ++ data.take (d.cap - off) ++ a.cells.drop d.cap).take d.cap = f.bytes.take off ++ data.take (d.cap - off) := by
        rw [htake, List.take_left' (by rw [List.length_append, hl1, List.length_take]; omega)]
      have hov : overwrite (decide (d.mode = .clone)) f.bytes data off = f.bytes.take off ++ data.take (d.cap - off) := by
        rw [overwrite, hdrop, List.append_nil]
        split
        · rename_i hcl
          have hk0 : k = 0 := by
            rcases Nat.eq_zero_or_pos k with h | h
            · exact h
            · exact absurd ⟨by simpa using hcl, by omega⟩ hc
          rw [List.take_of_length_le (l := data) (by omega)]
        · rw [List.take_append, List.take_take, List.length_take]
          congr 2 <;> omega
      refine ⟨_, _, rfl, rfl, rfl, ?_, ?_, fun hmc => ?_, ?_⟩
      · rw [buf]
        dsimp only
        rw [hbuf, hov]
      · dsimp only; rw [hlen1]; omega
      · dsimp only; rw [hcnt]; exact h.count hmc
      · rw [hov, List.length_append, hl1, List.length_take]; omega

theorem overwrite_len (g : Bool) (bytes data : List Byte) (off : Nat) (h : off ≤ bytes.length) : bytes.length ≤ (overwrite g bytes data off).length := by
  unfold overwrite
  split <;> simp <;> omega

theorem step_ok {d : Fd} {f f' : File} {o : Out} (h : Inv d f) (op : Op) (hs : f.step d.mode op = some (f', o)) :
    ∃ d', step d op = .ok (d', o) ∧ Inv d' f' ∧ d'.mode = d.mode := by
  cases op with
  | write data =>
    obtain ⟨d1, e1, h1, m1⟩ := tell_ok h
    obtain ⟨d2, e2, h2, m2⟩ := tell_ok h1
    simp only [File.step] at hs
    by_cases hm : d.mode = .readOnly
    · rw [if_pos hm] at hs
      injection hs with hs
      injection hs with hs1 hs2
      subst hs1; subst hs2
      obtain ⟨d3, e3, h3, m3⟩ := seekProc_ok h2 ((f.at_ : Int) + data.length) .begin 0 rfl
      refine ⟨d3, ?_, by simpa using h3, by rw [m3, m2, m1]⟩
      have hm2 : d2.mode = .readOnly := by rw [m2, m1, hm]
      simp only [step, write, e1, e2, writeProc, if_pos hm2, except_ok_bind, seek, e3]
    · rw [if_neg hm] at hs
      injection hs with hs
      injection hs with hs1 hs2
      subst hs1; subst hs2
      have hm2 : d2.mode ≠ .readOnly := by rw [m2, m1]; exact hm
      obtain ⟨d3, n, e3, m3, c3, b3, r3, k3, -⟩ := writeProc_ok h2 data f.at_ h2.inside hm2
      have mm : d2.mode = d.mode := by rw [m2, m1]
      rw [mm] at b3 m3 k3
      have h3 : Inv d3 { f with bytes := overwrite (decide (d.mode = .clone)) f.bytes data f.at_ } :=
        ⟨b3, r3, fun hc => k3 (by rw [← m3]; exact hc), by rw [c3, h2.cursor], Nat.le_trans h2.inside (overwrite_len _ _ _ _ h2.inside)⟩
      obtain ⟨d4, e4, h4, m4⟩ := seekProc_ok h3 ((f.at_ : Int) + data.length) .begin 0 rfl
      refine ⟨d4, ?_, by simpa using h4, by rw [m4, m3]⟩
      simp only [step, write, e1, e2, e3, except_ok_bind, seek, e4]
  | writeAt data off =>
    simp only [File.step] at hs
    by_cases hm : d.mode = .readOnly
    · rw [if_pos hm] at hs
      injection hs with hs
      injection hs with hs1 hs2
      subst hs1; subst hs2
      exact ⟨d, by simp only [step, writeProc, if_pos hm, except_ok_bind], h, rfl⟩
    · rw [if_neg hm] at hs
      split at hs
      · rename_i ho
        injection hs with hs
        injection hs with hs1 hs2
        subst hs1; subst hs2
        obtain ⟨n, rfl⟩ : ∃ n : Nat, off = n := ⟨off.toNat, by omega⟩
        obtain ⟨d3, k, e3, m3, c3, b3, r3, k3, -⟩ := writeProc_ok h data n (by omega) hm
        refine ⟨d3, by simp only [step, e3, except_ok_bind], ?_, m3⟩
        exact ⟨b3, r3, fun hc => k3 (by rw [← m3]; exact hc), by rw [c3, h.cursor], Nat.le_trans h.inside (overwrite_len _ _ _ _ (by omega))⟩
      · cases hs
  | seek off =>
    injection hs with hs
    injection hs with hs1 hs2
    subst hs1; subst hs2
    obtain ⟨d3, e3, h3, m3⟩ := seekProc_ok h off .begin 0 rfl
    rw [Int.zero_add] at e3 h3
    exact ⟨d3, by simp only [step, seek, e3], h3, m3⟩
  | seekToEnd =>
    injection hs with hs
    injection hs with hs1 hs2
    subst hs1; subst hs2
    obtain ⟨d3, e3, h3, m3⟩ := seekProc_ok h 0 .end f.bytes.length rfl
    rw [Int.add_zero] at e3 h3
    refine ⟨d3, ?_, h3, m3⟩
    simp only [step, seekToEnd, e3]
    simp [File.moveTo]
  | skip n =>
    injection hs with hs
    injection hs with hs1 hs2
    subst hs1; subst hs2
    obtain ⟨d3, e3, h3, m3⟩ := seekProc_ok h n .current f.at_ rfl
    exact ⟨d3, by simp only [step, skip, e3], h3, m3⟩
  | tell =>
    injection hs with hs
    injection hs with hs1 hs2
    subst hs1; subst hs2
    obtain ⟨d3, e3, h3, m3⟩ := tell_ok h
    exact ⟨d3, by simp only [step, e3], h3, m3⟩
  | read n =>
    simp only [File.step] at hs
    split at hs
    · rename_i hn
      injection hs with hs
      injection hs with hs1 hs2
      subst hs1; subst hs2
      obtain ⟨d1, e1, h1, m1⟩ := tell_ok h
      obtain ⟨d2, e2, h2, m2⟩ := tell_ok h1
      obtain ⟨d3, e3, h3, m3⟩ := seekProc_ok h2 ((f.at_ : Int) + n) .begin 0 rfl
      refine ⟨d3, ?_, by simpa using h3, by rw [m3, m2, m1]⟩
      simp only [step, read, e1, e2, readProc_ok h2 n (f.at_ : Int) (by omega) (by omega), except_ok_bind, seek, e3, Int.toNat_natCast]
    · cases hs
  | readAt n off =>
    simp only [File.step] at hs
    split at hs
    · rename_i hn
      injection hs with hs
      injection hs with hs1 hs2
      subst hs1; subst hs2
      exact ⟨d, by simp only [step, readProc_ok h n off hn.1 hn.2, except_ok_bind], h, rfl⟩
    · cases hs

theorem run_ok {d : Fd} {f f' : File} {os : List Out} (h : Inv d f) (ops : List Op) (hs : f.run d.mode ops = some (f', os)) :
    ∃ d', run d ops = .ok (d', os) ∧ Inv d' f' := by
  induction ops generalizing d f os with
  | nil =>
    injection hs with hs
    injection hs with hs1 hs2
    subst hs1; subst hs2
    exact ⟨d, rfl, h⟩
  | cons op ops ih =>
    simp only [File.run] at hs
    cases h1 : f.step d.mode op with
    | none => rw [h1] at hs; cases hs
    | some p =>
      obtain ⟨f1, o1⟩ := p
      rw [h1] at hs
      obtain ⟨d1, e1, i1, m1⟩ := step_ok h op h1
      cases h2 : f1.run d.mode ops with
      | none => simp [h2] at hs
      | some p =>
        obtain ⟨f2, o2⟩ := p
        simp [h2] at hs
        obtain ⟨rfl, rfl⟩ := hs
        obtain ⟨d2, e2, i2⟩ := ih i1 (by rw [m1]; exact h2)
        exact ⟨d2, by simp only [run, e1, e2, except_ok_bind], i2⟩

/-! ## Properties -/

/-- **C47, new streams.** A fresh stream is the empty file; a stream opened on a buffer is the file of its named bytes, at the beginning. -/
theorem C47_open (buffer : List Byte) (size : Nat) (mode : Mode) (h : size ≤ buffer.length) :
    (∃ d, new = some d ∧ d.mode = .clone ∧ Inv d ⟨[], 0⟩) ∧
    (∃ d, «open» buffer size mode = .ok d ∧ d.mode = mode ∧ Inv d ⟨buffer.take size, 0⟩) := by
  constructor
  · exact ⟨_, rfl, rfl, ⟨rfl, by simp, fun _ => rfl, rfl, by simp⟩⟩
  · unfold «open»
    by_cases hm : mode = .clone
    · rw [if_pos hm]
      have : initReserve (0 : Byte) size true = some { count := 0, cells := List.replicate size 0 } := rfl
      rw [this]
      dsimp only
      rw [if_pos h, putCells_ok _ _ _ (by simp; omega), except_ok_bind]
      refine ⟨_, rfl, rfl, ?_, ?_, fun _ => rfl, rfl, by simp⟩
      · rw [buf]; dsimp only
        rw [List.length_take, Nat.min_eq_left h, Nat.zero_add, List.drop_eq_nil_of_le (by simp)]
        simp [List.take_take]
      · simp; omega
    · rw [if_neg hm]
      exact ⟨_, rfl, rfl, ⟨rfl, h, fun hc => absurd hc hm, rfl, by simp⟩⟩

theorem history {d : Fd} {f f' : File} {os : List Out} (h : Inv d f) (ops : List Op) (hs : f.run d.mode ops = some (f', os)) :
    ∃ d', run d ops = .ok (d', os) ∧ buf d' = f'.bytes ∧ (tell d').2 = f'.at_ := by
  obtain ⟨d', e, i⟩ := run_ok h ops hs
  obtain ⟨d2, e2, -, -⟩ := tell_ok i
  exact ⟨d', e, i.bytes, by rw [e2]⟩

/-- **C47, partial.** On a stream opened over the first `size` bytes of a buffer, after every history of calls that a byte file allows (`File.run`), each
call returned what it returns on the byte file, nothing outside the block was touched, and `zpl_file_stream_buf` and `zpl_file_tell` show the bytes and the position of that file.  In particular
a read within the contents returns the bytes last written there.  Missing: transfers that begin past the end, reads that end past it, and failed
allocations: see `C47_write_past_end`, `C47_read_past_end`, `C47_failed_write_moves`. -/
theorem C47_history_partial (buffer : List Byte) (size : Nat) (hb : size ≤ buffer.length) (mode : Mode) (ops : List Op) {f' : File} {os : List Out}
    (hs : (⟨buffer.take size, 0⟩ : File).run mode ops = some (f', os)) :
    ∃ d d', «open» buffer size mode = .ok d ∧ run d ops = .ok (d', os) ∧ buf d' = f'.bytes ∧ (tell d').2 = f'.at_ := by
  obtain ⟨d, e, m, i⟩ := (C47_open buffer size mode hb).2
  obtain ⟨d', e', h⟩ := history i ops (by rw [m]; exact hs)
  exact ⟨d, d', e, e', h⟩

/-- **C47, partial, new streams.** The same for a fresh stream, which is an empty growing file. -/
theorem C47_new_history_partial (ops : List Op) {f' : File} {os : List Out} (hs : (⟨[], 0⟩ : File).run .clone ops = some (f', os)) :
    ∃ d d', new = some d ∧ run d ops = .ok (d', os) ∧ buf d' = f'.bytes ∧ (tell d').2 = f'.at_ := by
  obtain ⟨d, e, m, i⟩ := (C47_open [] 0 .clone (by simp)).1
  obtain ⟨d', e', h⟩ := history i ops (by rw [m]; exact hs)
  exact ⟨d, d', e, e', h⟩

/-- **C47, transfers counted.** The count reported by a write is the number of bytes stored: all of them on a growing stream, those up to the end of the
buffer on a fixed one. -/
theorem C47_bytes_written {d : Fd} {f : File} (h : Inv d f) (data : List Byte) (off : Nat) (ho : off ≤ f.bytes.length) (hm : d.mode ≠ .readOnly) :
    ∃ d', writeProc true d data off = .ok (d', true, if d.mode = .clone then (data.length : Int) else (min data.length (f.bytes.length - off) : Nat)) := by
  obtain ⟨d', n, e, -, -, -, -, -, hn⟩ := writeProc_ok h data off ho hm
  refine ⟨d', ?_⟩
  rw [e, hn]
  congr 3
  unfold overwrite
  by_cases hc : d.mode = .clone
  · rw [if_pos (by simp [hc]), if_pos hc]; simp; omega
  · rw [if_neg (by simp [hc]), if_neg hc]; simp; omega

/-- Deviation: a write that begins past the end of the contents, even an empty one, computes a negative count and runs out of the block. -/
theorem C47_write_past_end {d : Fd} {f : File} (h : Inv d f) (data : List Byte) (off : Nat) (ho : f.bytes.length < off) (hm : d.mode ≠ .readOnly) :
    writeProc true d data off = .error .oob := by
  have hl := h.len
  unfold writeProc
  rw [if_neg hm]
  dsimp only
  rw [if_neg (by omega)]
  obtain ⟨k, hk⟩ : ∃ k : Nat, (data.length : Int) - ((d.cap : Int) - off) = k := ⟨(data.length + off - d.cap), by omega⟩
  have e1 : (d.cap : Int) + k = ((d.cap + k : Nat) : Int) := by omega
  rw [hk, e1]
  obtain ⟨a, ea, -⟩ := makeRoom_ok h (d.cap + k) (by omega)
  rw [ea]
  dsimp only
  rw [copyIn, if_pos (by omega), except_error_bind]

/-- Deviation: a read is not cut at the end of the contents.  On a stream over the caller's buffer that takes all of it, every read that goes past the end
leaves the buffer. -/
theorem C47_read_past_end (buffer : List Byte) (mode : Mode) (hm : mode ≠ .clone) (n : Nat) (off : Int) (hn : 0 < n) (ho : buffer.length < off + n) :
    ∃ d, «open» buffer buffer.length mode = .ok d ∧ readProc d n off = .error .oob := by
  refine ⟨_, by rw [«open», if_neg hm], ?_⟩
  rw [readProc, if_neg (by omega), if_neg]
  dsimp only
  omega

theorem failed_write {d : Fd} {f : File} (h : Inv d f) (data : List Byte) (hm : d.mode = .clone)
    (hgrow : d.buf.capacity < f.at_ + data.length) :
    ∃ d', write false d data = .ok (d', false) ∧ Inv d' (f.moveTo (0 + ((f.at_ : Int) + data.length))) ∧ d'.mode = d.mode := by
  obtain ⟨d1, e1, h1, m1⟩ := tell_ok h
  obtain ⟨d2, e2, h2, m2⟩ := tell_ok h1
  have hl := h.len
  have hl2 := h2.len
  have hb1 : d1.buf = d.buf := by
    have : d1 = (tell d).1 := by rw [e1]
    rw [this]; rfl
  have hb2 : d2.buf = d.buf := by
    have : d2 = (tell d1).1 := by rw [e2]
    rw [this, ← hb1]; rfl
  have hr := h.room
  unfold Arr.capacity at hgrow
  have hw : writeProc false d2 data (f.at_ : Int) = .ok (d2, false, 0) := by
    have hm2 : d2.mode = .clone := by rw [m2, m1, hm]
    unfold writeProc
    rw [if_neg (by rw [hm2]; decide)]
    dsimp only
    rw [if_neg (by omega)]
    have : makeRoom false d2 ((d2.cap : Int) + (data.length - ((d2.cap : Int) - f.at_))) = none := by
      unfold makeRoom Arr.capacity
      rw [if_pos ⟨hm2, by rw [hb2]; omega⟩]
      have e : (d2.cap : Int) + (data.length - ((d2.cap : Int) - f.at_)) = ((f.at_ + data.length : Nat) : Int) := by omega
      rw [e, Int.toNat_natCast]
      have : (grow (0 : Byte) false d2.buf (f.at_ + data.length)).2 = false := by
        unfold grow
        dsimp only
        have hq : ¬ (if growFormula d2.buf.capacity < f.at_ + data.length then f.at_ + data.length else growFormula d2.buf.capacity) = d2.buf.capacity := by
          unfold Arr.capacity growFormula
          rw [hb2]; split <;> omega
        rw [setCapacity, if_neg hq]
        rfl
      generalize grow (0 : Byte) false d2.buf (f.at_ + data.length) = g at this ⊢
      obtain ⟨g1, g2⟩ := g
      dsimp only at this
      subst this
      rfl
    rw [this]
  obtain ⟨d4, e4, h4, m4⟩ := seekProc_ok h2 ((f.at_ : Int) + data.length) .begin 0 rfl
  refine ⟨d4, ?_, h4, by rw [m4, m2, m1]⟩
  simp only [write, e1, e2, hw, except_ok_bind, seek, e4]

/-- Deviation: when the array cannot grow, `zpl_file_write` reports failure and leaves the contents alone, but it still moves the position forward, up
to the end of the contents. -/
theorem C47_failed_write_moves {d : Fd} {f : File} (h : Inv d f) (data : List Byte) (hm : d.mode = .clone)
    (hgrow : d.buf.capacity < f.at_ + data.length) :
    ∃ d', write false d data = .ok (d', false) ∧ buf d' = f.bytes ∧ (tell d').2 = f.bytes.length := by
  obtain ⟨d', e, h', -⟩ := failed_write h data hm hgrow
  refine ⟨d', e, h'.bytes, ?_⟩
  obtain ⟨d5, e5, -, -⟩ := tell_ok h'
  rw [e5]
  have hl := h.len
  have hr := h.room
  unfold Arr.capacity at hgrow
  simp only [File.moveTo]
  omega

/-! ## The hypotheses are met -/

/-- A growing stream: write "abc", go back to 1, write "xyz", read at 0. -/
example : ∃ d, new = some d ∧ (⟨[], 0⟩ : File).run d.mode
      [.write [97#8, 98#8, 99#8], .seek 1, .write [120#8, 121#8, 122#8], .tell, .readAt 4 0] =
      some (⟨[97#8, 120#8, 121#8, 122#8], 4⟩, [.result true, .pos 1, .result true, .pos 4, .bytes [97#8, 120#8, 121#8, 122#8]]) := by
  refine ⟨_, rfl, ?_⟩
  rfl

end Zpl.Stream
