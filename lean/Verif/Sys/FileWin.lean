import Verif.Sys.File

/-!
# Files on Windows (code/source/core/file.c:25-157, 339-346, code/header/core/file.h)  -  C163

The Windows branch of the files.  The system underneath is modelled by the state `Win` and by the calls of the section *system calls*: they are what the documentation of
Windows says, are trusted, and are not part of the code.  What the calls on an open file should mean is the specification of the POSIX branch (`Verif.Sys.File`).

* File names are opaque byte strings; a name denotes nothing, a folder, or a file.  Simplification: letters in different case are different names.
* Every call that can fail or move fewer bytes than asked for asks `grant`, as in the POSIX branch; an opening that fails for a reason of its own gives the error code `codes`.
* Simplifications: the table of operations of a file is the default one; sizes are not negative; memory is not exhausted; a handle that was closed is not given out again (the model
  refuses every use of a closed file); the standard and the temporary files are not modelled. -/

namespace Zpl.FileWin

open Zpl.File (Byte Name Ent Whence limit upd overlay fill addOff View Op Answer stored meaning)

/-! ## System calls -/

/-- What is behind a handle. -/
structure Hnd where
  ino : Nat
  pos : Nat
  rd : Bool
  wr : Bool
  deriving DecidableEq, Repr

/-- The state of the system as far as this process can see it.  Handle 0 is `NULL`; `live` counts the file name buffers of zpl that have not been freed; `utf8` says which names
`MultiByteToWideChar` accepts. -/
structure Win where
  names : Name → Option Ent
  data : Nat → List Byte
  handles : Nat → Option Hnd
  nextH : Nat
  nextIno : Nat
  live : Nat
  tick : Nat
  grant : Nat → Nat → Option Nat
  codes : Nat → Nat
  utf8 : Name → Bool

def Win.ask (s : Win) (n : Nat) : Option Nat × Win := (s.grant s.tick n, { s with tick := s.tick + 1 })

def Win.setH (s : Win) (h : Nat) (o : Hnd) : Win := { s with handles := upd s.handles h (some o) }

def Win.store (s : Win) (ino off : Nat) (bs : List Byte) : Win := { s with data := upd s.data ino (overlay (s.data ino) off bs) }

/-- Where an offset counts from. -/
def origin (s : Win) (o : Hnd) : Whence → Int
  | .begin => 0
  | .current => o.pos
  | .fromEnd => (s.data o.ino).length

/-- `SetFilePointerEx`: `none` for `FALSE`. -/
def setPointer (s : Win) (h : Nat) (off : Int) (w : Whence) : Option Int × Win :=
  match s.handles h with
  | none => (none, s)
  | some o =>
    let n : Int := origin s o w + off
    if n < 0 ∨ (limit : Int) ≤ n then (none, s) else (some n, s.setH h { o with pos := n.toNat })

/-- `ReadFile` without an `OVERLAPPED`: from the cursor, which moves over what was read; `none` for `FALSE`. -/
def readFile (s : Win) (h n : Nat) : Option (List Byte) × Win :=
  match s.handles h with
  | none => (none, s)
  | some o =>
    if o.rd = false then (none, s)
    else match s.ask n with
      | (none, s) => (none, s)
      | (some g, s) =>
        let bs := ((s.data o.ino).drop o.pos).take (min n g)
        (some bs, s.setH h { o with pos := o.pos + bs.length })

/-- `WriteFile` without an `OVERLAPPED`. -/
def writeFile (s : Win) (h : Nat) (bs : List Byte) : Option Nat × Win :=
  match s.handles h with
  | none => (none, s)
  | some o =>
    if o.wr = false then (none, s)
    else match s.ask bs.length with
      | (none, s) => (none, s)
      | (some g, s) => (some (bs.take g).length, (s.store o.ino o.pos (bs.take g)).setH h { o with pos := o.pos + (bs.take g).length })

/-- `SetEndOfFile` given something that is not a handle: `FALSE`. -/
def setEndOfNoFile (s : Win) : Bool × Win := (false, s)

/-- `CloseHandle`. -/
def closeHandle (s : Win) (h : Nat) : Win := { s with handles := upd s.handles h none }

/-- The ways `CreateFileW` treats a file that is there or is not. -/
inductive Disposition where
  | openExisting | createAlways | openAlways
  deriving DecidableEq, Repr

/-- The rules of sharing when every opening allows `FILE_SHARE_READ | FILE_SHARE_DELETE`: a file that is open cannot be opened for writing, one that is open for writing cannot be opened. -/
def sharingViolation (s : Win) (ino : Nat) (wr : Bool) : Bool :=
  (List.range s.nextH).any fun h => match s.handles h with | some o => o.ino == ino && (wr || o.wr) | none => false

/-- A new handle. -/
def Win.newH (s : Win) (o : Hnd) : Nat × Win := (s.nextH, { s with handles := upd s.handles s.nextH (some o), nextH := s.nextH + 1 })

/-- `CreateFileW` with the share mode above: an error code (2 not found, 5 access denied, 32 sharing violation), or the handle. -/
def createFile (s : Win) (name : Name) (rd wr : Bool) (d : Disposition) : Except Nat Nat × Win :=
  match s.ask 1 with
  | (none, s') => (.error (s.codes s.tick), s')
  | (some _, s) =>
    match s.names name with
    | none =>
      if d = .openExisting then (.error 2, s)
      else
        let r := Win.newH { s with names := upd s.names name (some (.file s.nextIno)), data := upd s.data s.nextIno [], nextIno := s.nextIno + 1 } ⟨s.nextIno, 0, rd, wr⟩
        (.ok r.1, r.2)
    | some .folder => (.error 5, s)
    | some (.file i) =>
      if sharingViolation s i wr then (.error 32, s)
      else
        let r := Win.newH (if d = .createAlways then { s with data := upd s.data i [] } else s) ⟨i, 0, rd, wr⟩
        (.ok r.1, r.2)

/-! ## Model -/

/-- file.h:97-105 `zpl_file`; `nameFreed` is a ghost. -/
structure FileW where
  h : Nat
  name : Option Name
  nameFreed : Bool
  deriving DecidableEq, Repr

/-- file.h:31-42 -/
inductive OpenErr where
  | none | invalid | exists_ | notExists | permission
  deriving DecidableEq, Repr

/-- file.c:56-63 `zpl__win32_file_seek`: the value of `*new_offset`, which the callers initialise with 0. -/
def seekBy (s : Win) (h : Nat) (off : Int) (w : Whence) : Int × Win :=
  match setPointer s h off w with
  | (none, s) => (0, s)
  | (some n, s) => (n, s)

/-- file.h:354-359 `zpl_file_seek` -/
def seek (f : FileW) (off : Int) (s : Win) : Int × Win := seekBy s f.h off .begin
/-- file.h:361-366 `zpl_file_seek_to_end` -/
def seekToEnd (f : FileW) (s : Win) : Int × Win := seekBy s f.h 0 .fromEnd
/-- file.h:369-374 `zpl_file_skip` -/
def skip (f : FileW) (n : Int) (s : Win) : Int × Win := seekBy s f.h n .current
/-- file.h:376-381 `zpl_file_tell` -/
def tell (f : FileW) (s : Win) : Int × Win := seekBy s f.h 0 .current

/-- file.c:69, 80: `size > ZPL_I32_MAX ? ZPL_I32_MAX : size` -/
def cap (n : Nat) : Nat := if 2147483647 < n then 2147483647 else n

/-- file.h:336-339, 346-348 over file.c:65-77 `zpl__win32_file_read`: the result, the number of bytes, the buffer. -/
def readAt (f : FileW) (buf : List (Option Byte)) (n : Nat) (off : Int) (s : Win) : Except Fault ((Bool × Option Nat × List (Option Byte)) × Win) :=
  match readFile (seekBy s f.h off .begin).2 f.h (cap n) with
  | (none, s) => .ok ((false, none, buf), s)
  | (some bs, s) => do
    let buf ← fill buf bs
    .ok ((true, some bs.length, buf), s)

/-- file.h:341-344, 350-352 over file.c:79-88 `zpl__win32_file_write`: the result and the number of bytes. -/
def writeAt (f : FileW) (bs : List Byte) (off : Int) (s : Win) : (Bool × Option Nat) × Win :=
  match writeFile (seekBy s f.h off .begin).2 f.h (bs.take (cap bs.length)) with
  | (none, s) => ((false, none), s)
  | (some k, s) => ((true, some k), s)

/-- file.h:383-388 `zpl_file_read` -/
def read (f : FileW) (buf : List (Option Byte)) (n : Nat) (s : Win) : Except Fault ((Bool × List (Option Byte)) × Win) :=
  let t := tell f s
  let u := tell f t.2
  match readAt f buf n u.1 u.2 with
  | .error e => .error e
  | .ok r =>
    match addOff t.1 n with
    | .error e => .error e
    | .ok e => .ok ((r.1.1, r.1.2.2), (seek f e r.2).2)

/-- file.h:390-395 `zpl_file_write` -/
def write (f : FileW) (bs : List Byte) (s : Win) : Except Fault (Bool × Win) :=
  let t := tell f s
  let u := tell f t.2
  let r := writeAt f bs u.1 u.2
  match addOff t.1 bs.length with
  | .error e => .error e
  | .ok e => .ok (r.1.1, (seek f e r.2).2)

/-- file.c:339-346 `zpl_file_truncate`: `SetEndOfFile` is given the address of the `zpl_file`, not the handle in it. -/
def truncate (f : FileW) (n : Int) (s : Win) : File.Err × Win :=
  let t := tell f s
  let u := seek f n t.2
  let r := setEndOfNoFile u.2
  let w := seek f t.1 r.2
  (if r.1 then .none else .truncationFailure, w.2)

/-- file.c:391-398 `zpl_file_size` -/
def size (f : FileW) (s : Win) : Int × Win :=
  let t := tell f s
  let u := seekToEnd f t.2
  let r := tell f u.2
  let w := seek f t.1 r.2
  (r.1, w.2)

/-- file.c:101-127: what a mode asks for: reading, writing, disposition; `none` is the panic of line 126. -/
def openHow (mode : BitVec 32) : Option (Bool × Bool × Disposition) :=
  let m := mode &&& 15
  if m = 1 then some (true, false, .openExisting)
  else if m = 2 then some (false, true, .createAlways)
  else if m = 4 then some (false, true, .openAlways)
  else if m = 1 ||| 8 then some (true, true, .openExisting)
  else if m = 2 ||| 8 then some (true, true, .createAlways)
  else if m = 4 ||| 8 then some (true, true, .openAlways)
  else none

/-- file.c:137-143: the error for a code of `GetLastError` -/
def errOf (code : Nat) : OpenErr :=
  if code = 2 then .notExists else if code = 80 then .exists_ else if code = 183 then .exists_ else if code = 5 then .permission else .invalid

/-- file.c:239-250 `zpl_file_open_mode` with file.c:95-157 `zpl__win32_file_open`, file.c:27-53 `zpl__alloc_utf8_to_ucs2` (an empty or ill-formed name becomes `NULL`, which `CreateFileW`
refuses with a code that is none of those of lines 138-141) and file.c:225-237 `zpl_file_new`. -/
def openMode (mode : BitVec 32) (name : Name) (s : Win) : Except Fault ((OpenErr × FileW) × Win) :=
  match openHow mode with
  | none => .error .assertion
  | some (rd, wr, d) =>
    if name = [] ∨ s.utf8 name = false then .ok ((.invalid, ⟨0, none, false⟩), s)
    else match createFile s name rd wr d with
      | (.error code, s) => .ok ((errOf code, ⟨0, none, false⟩), s)
      | (.ok h, s) =>
        if mode &&& 4 ≠ 0 then
          match setPointer s h 0 .fromEnd with
          | (none, s) => .ok ((.invalid, ⟨0, none, false⟩), closeHandle s h)
          | (some _, s) => .ok ((.none, ⟨h, some name, false⟩), { s with live := s.live + 1 })
        else .ok ((.none, ⟨h, some name, false⟩), { s with live := s.live + 1 })

/-- file.c:254-281 `zpl_file_close` -/
def close (f : FileW) (s : Win) : Except Fault ((File.Err × FileW) × Win) :=
  match f.name with
  | none => .ok ((.none, f), closeHandle s f.h)
  | some _ => if f.nameFreed then .error .ub else .ok ((.none, { f with nameFreed := true }), closeHandle { s with live := s.live - 1 } f.h)

/-- The calls made on a file; a read is given a new buffer of just the size asked for. -/
def perform (f : FileW) (s : Win) : Op → Except Fault (Answer × Win)
  | .seek off => .ok (.offset (seek f off s).1, (seek f off s).2)
  | .seekToEnd => .ok (.offset (seekToEnd f s).1, (seekToEnd f s).2)
  | .skip k => .ok (.offset (skip f k s).1, (skip f k s).2)
  | .tell => .ok (.offset (tell f s).1, (tell f s).2)
  | .size => .ok (.offset (size f s).1, (size f s).2)
  | .read n => match read f (List.replicate n none) n s with | .error e => .error e | .ok r => .ok (.got r.1.1 r.1.2, r.2)
  | .readAt n off => match readAt f (List.replicate n none) n off s with | .error e => .error e | .ok r => .ok (.got r.1.1 r.1.2.2, r.2)
  | .write bs => match write f bs s with | .error e => .error e | .ok r => .ok (.wrote r.1, r.2)
  | .writeAt bs off => .ok (.wrote (writeAt f bs off s).1.1, (writeAt f bs off s).2)
  | .truncate n => .ok (.err (truncate f n s).1, (truncate f n s).2)

def performAll (f : FileW) (s : Win) : List Op → Except Fault (List Answer × Win)
  | [] => .ok ([], s)
  | op :: ops =>
    match perform f s op with
    | .error e => .error e
    | .ok r => match performAll f r.2 ops with | .error e => .error e | .ok q => .ok (r.1 :: q.1, q.2)

/-! ## Specification -/

/-- The calls that mean the same on both systems: no access at a given offset, no cutting, and at most 2147483647 bytes at once. -/
def Portable : Op → Prop
  | .read n => n ≤ 2147483647
  | .write bs => bs.length ≤ 2147483647
  | .readAt .. | .writeAt .. | .truncate .. => False
  | _ => True

/-- What the calls mean on Windows: accesses at a given offset leave the cursor behind what they touched, and a file cannot be cut. -/
def meaningW (v : View) : Op → Option (Answer × View)
  | .read n => if n ≤ 2147483647 then meaning v (.read n) else none
  | .write bs => if bs.length ≤ 2147483647 then meaning v (.write bs) else none
  | .readAt n off =>
    if n ≤ 2147483647 ∧ off + n < limit then
      some (.got true (((v.data.drop off).take n).map some ++ List.replicate (n - (v.data.length - off)) none), { v with pos := off + min n (v.data.length - off) })
    else none
  | .writeAt bs off => if bs.length ≤ 2147483647 ∧ off + bs.length < limit then some (.wrote true, ⟨stored v.data off bs, off + bs.length⟩) else none
  | .truncate _ => some (.err .truncationFailure, v)
  | op => meaning v op

def historyW (v : View) : List Op → Option (List Answer × View)
  | [] => some ([], v)
  | op :: ops => do
    let (a, v) ← meaningW v op
    let (as, v) ← historyW v ops
    some (a :: as, v)

/-- The system does all that is asked of it. -/
def Benign (s : Win) : Prop := ∀ t n, ∃ g, s.grant t n = some g ∧ n ≤ g

/-- `f` is open on the file `ino` for reading and writing, and what is there is `v`. -/
def At (s : Win) (f : FileW) (ino : Nat) (v : View) : Prop :=
  s.handles f.h = some ⟨ino, v.pos, true, true⟩ ∧ s.data ino = v.data ∧ v.pos < limit

/-- Nothing but the file `ino` and the handle `h` has changed. -/
structure Only (h ino : Nat) (s s' : Win) : Prop where
  names : s'.names = s.names
  files : ∀ i, i ≠ ino → s'.data i = s.data i
  others : ∀ i, i ≠ h → s'.handles i = s.handles i
  live : s'.live = s.live
  nextIno : s'.nextIno = s.nextIno
  nextH : s'.nextH = s.nextH
  grant : s'.grant = s.grant

/-! ## Lemmas -/

theorem Only.refl (h ino : Nat) (s : Win) : Only h ino s s := ⟨rfl, fun _ _ => rfl, fun _ _ => rfl, rfl, rfl, rfl, rfl⟩

theorem Only.trans {h ino : Nat} {a b c : Win} (p : Only h ino a b) (q : Only h ino b c) : Only h ino a c :=
  ⟨q.names.trans p.names, fun i hi => (q.files i hi).trans (p.files i hi), fun i hi => (q.others i hi).trans (p.others i hi), q.live.trans p.live,
    q.nextIno.trans p.nextIno, q.nextH.trans p.nextH, q.grant.trans p.grant⟩

theorem Benign.of_only {h ino : Nat} {s s' : Win} (o : Only h ino s s') (hb : Benign s) : Benign s' := by
  intro t n; rw [o.grant]; exact hb t n

theorem upd_same {α β : Type} [DecidableEq α] (f : α → β) (a : α) (b : β) : upd f a b a = b := by simp [upd]

theorem upd_other {α β : Type} [DecidableEq α] (f : α → β) (a : α) (b : β) {x : α} (h : x ≠ a) : upd f a b x = f x := by simp [upd, h]

theorem upd_upd {α β : Type} [DecidableEq α] (f : α → β) (a : α) (b c : β) : upd (upd f a b) a c = upd f a c := by
  funext x; unfold upd; split <;> rfl

theorem upd_id {α β : Type} [DecidableEq α] (f : α → β) (a : α) (b : β) (h : f a = b) : upd f a b = f := by
  funext x; unfold upd; split
  · rename_i e; rw [e, h]
  · rfl

theorem setH_handles (s : Win) (h : Nat) (o : Hnd) : (s.setH h o).handles h = some o := by simp [Win.setH, upd]

theorem setH_self {s : Win} {h : Nat} {o : Hnd} (e : s.handles h = some o) : s.setH h o = s := by
  unfold Win.setH; rw [upd_id _ _ _ e]

theorem setH_setH (s : Win) (h : Nat) (a b : Hnd) : (s.setH h a).setH h b = s.setH h b := by
  simp [Win.setH, upd_upd]

theorem only_setH (s : Win) (h ino : Nat) (o : Hnd) : Only h ino s (s.setH h o) :=
  ⟨rfl, fun _ _ => rfl, fun i hi => by simp [Win.setH, upd, hi], rfl, rfl, rfl, rfl⟩

theorem seekBy_ok {s : Win} {h : Nat} {o : Hnd} (e : s.handles h = some o) (off : Int) (w : Whence) (n : Nat) (hn : n < limit)
    (he : origin s o w + off = n) :
    seekBy s h off w = ((n : Int), s.setH h { o with pos := n }) := by
  have h1 : ¬ ((n : Int) < 0 ∨ (limit : Int) ≤ n) := by omega
  unfold seekBy setPointer
  simp only [e]
  rw [he, if_neg h1]
  simp

theorem seekBy_bad {s : Win} {h : Nat} {o : Hnd} (e : s.handles h = some o) (off : Int) (w : Whence)
    (he : origin s o w + off < 0) :
    seekBy s h off w = (0, s) := by
  unfold seekBy setPointer
  simp only [e]
  rw [if_pos (Or.inl he)]

theorem tell_ok {s : Win} {f : FileW} {o : Hnd} (e : s.handles f.h = some o) (hp : o.pos < limit) : tell f s = ((o.pos : Int), s) := by
  unfold tell
  rw [seekBy_ok e 0 .current o.pos hp (by simp [origin]), setH_self e]

theorem seek_ok {s : Win} {f : FileW} {o : Hnd} (e : s.handles f.h = some o) (n : Nat) (hn : n < limit) : seek f n s = ((n : Int), s.setH f.h { o with pos := n }) := by
  unfold seek
  exact seekBy_ok e n .begin n hn (by simp [origin])

theorem size_ok {s : Win} {f : FileW} {o : Hnd} (e : s.handles f.h = some o) (hp : o.pos < limit) (hd : (s.data o.ino).length < limit) :
    size f s = (((s.data o.ino).length : Int), s) := by
  unfold size
  rw [tell_ok e hp]
  dsimp only
  unfold seekToEnd
  rw [seekBy_ok e 0 .fromEnd _ hd (by simp [origin])]
  dsimp only
  have h2 := setH_handles s f.h { o with pos := (s.data o.ino).length }
  rw [tell_ok h2 hd]
  dsimp only
  rw [seek_ok h2 o.pos hp]
  dsimp only
  rw [setH_setH]
  rw [show ({ o with pos := o.pos } : Hnd) = o from rfl, setH_self e]

/-- The state after a request. -/
def Win.asked (s : Win) : Win := { s with tick := s.tick + 1 }

theorem cap_le {n : Nat} (h : n ≤ 2147483647) : cap n = n := by unfold cap; rw [if_neg (by omega)]

theorem cap_gt {n : Nat} (h : 2147483647 < n) : cap n = 2147483647 := by unfold cap; rw [if_pos h]

theorem readAt_gen {s : Win} {f : FileW} {o : Hnd} (e : s.handles f.h = some o) (hr : o.rd = true) (n off g : Nat) (hoff : off < limit) (hg : s.grant s.tick (cap n) = some g) (m : Nat)
    (hm : min (cap n) g ≤ m) :
    readAt f (List.replicate m none) n off s = .ok ((true, some (((s.data o.ino).drop off).take (min (cap n) g)).length,
      (((s.data o.ino).drop off).take (min (cap n) g)).map some ++ List.replicate (m - (((s.data o.ino).drop off).take (min (cap n) g)).length) none),
      s.asked.setH f.h { o with pos := off + (((s.data o.ino).drop off).take (min (cap n) g)).length }) := by
  unfold readAt
  rw [seekBy_ok e off .begin off hoff (by simp [origin])]
  dsimp only
  unfold readFile
  simp only [setH_handles, Win.ask]
  rw [if_neg (by simp [hr])]
  rw [show (s.setH f.h { o with pos := off }).grant (s.setH f.h { o with pos := off }).tick (cap n) = some g from hg]
  dsimp only
  rw [show ({ s.setH f.h { o with pos := off } with tick := (s.setH f.h { o with pos := off }).tick + 1 } : Win) = s.asked.setH f.h { o with pos := off } from rfl]
  rw [setH_setH]
  rw [show (s.setH f.h { o with pos := off }).data o.ino = s.data o.ino from rfl]
  rw [File.fill_ok m _ (by simp; omega)]
  rw [File.ok_bind]

theorem writeAt_gen {s : Win} {f : FileW} {o : Hnd} (e : s.handles f.h = some o) (hw : o.wr = true) (bs : List Byte) (off g : Nat) (hoff : off < limit)
    (hg : s.grant s.tick (bs.take (cap bs.length)).length = some g) :
    writeAt f bs off s = ((true, some ((bs.take (cap bs.length)).take g).length), (s.asked.store o.ino off ((bs.take (cap bs.length)).take g)).setH f.h
      { o with pos := off + ((bs.take (cap bs.length)).take g).length }) := by
  unfold writeAt
  rw [seekBy_ok e off .begin off hoff (by simp [origin])]
  dsimp only
  unfold writeFile
  simp only [setH_handles, Win.ask]
  rw [if_neg (by simp [hw])]
  rw [show (s.setH f.h { o with pos := off }).grant (s.setH f.h { o with pos := off }).tick (bs.take (cap bs.length)).length = some g from hg]
  dsimp only
  congr 1
  unfold Win.store Win.setH Win.asked
  simp [upd_upd]

theorem only_store {s : Win} {h ino : Nat} (off : Nat) (bs : List Byte) (o : Hnd) : Only h ino s ((s.asked.store ino off bs).setH h o) :=
  ⟨rfl, fun i hi => by simp [Win.setH, Win.store, Win.asked, upd, hi], fun i hi => by simp [Win.setH, Win.store, Win.asked, upd, hi], rfl, rfl, rfl, rfl⟩

theorem only_asked {s : Win} {h ino : Nat} (o : Hnd) : Only h ino s (s.asked.setH h o) :=
  ⟨rfl, fun _ _ => rfl, fun i hi => by simp [Win.setH, Win.asked, upd, hi], rfl, rfl, rfl, rfl⟩

theorem read_eq {f : FileW} {buf : List (Option Byte)} {n : Nat} {s s' : Win} {cur e : Int} {r : Bool × Option Nat × List (Option Byte)} (h1 : tell f s = (cur, s))
    (h2 : readAt f buf n cur s = .ok (r, s')) (h3 : addOff cur n = .ok e) : read f buf n s = .ok ((r.1, r.2.2), (seek f e s').2) := by
  unfold read; simp only [h1, h2, h3]

theorem write_eq {f : FileW} {bs : List Byte} {s s' : Win} {cur e : Int} {r : Bool × Option Nat} (h1 : tell f s = (cur, s))
    (h2 : writeAt f bs cur s = (r, s')) (h3 : addOff cur bs.length = .ok e) : write f bs s = .ok (r.1, (seek f e s').2) := by
  unfold write; simp only [h1, h2, h3]

theorem read_gen {s : Win} {f : FileW} {o : Hnd} (e : s.handles f.h = some o) (hp : o.pos < limit) (hr : o.rd = true) (n g : Nat) (hg : s.grant s.tick (cap n) = some g) (hl : o.pos + n < limit) :
    read f (List.replicate n none) n s = .ok ((true, (((s.data o.ino).drop o.pos).take (min (cap n) g)).map some ++
      List.replicate (n - (((s.data o.ino).drop o.pos).take (min (cap n) g)).length) none), s.asked.setH f.h { o with pos := o.pos + n }) := by
  have hc : cap n ≤ n := by unfold cap; split <;> omega
  rw [read_eq (tell_ok e hp) (readAt_gen e hr n o.pos g hp hg n (by omega)) (File.addOff_ok o.pos n hl)]
  rw [seek_ok (setH_handles _ _ _) (o.pos + n) hl, setH_setH]

theorem write_gen {s : Win} {f : FileW} {o : Hnd} (e : s.handles f.h = some o) (hp : o.pos < limit) (hw : o.wr = true) (bs : List Byte) (g : Nat)
    (hg : s.grant s.tick (bs.take (cap bs.length)).length = some g) (hl : o.pos + bs.length < limit) :
    write f bs s = .ok (true, (s.asked.store o.ino o.pos ((bs.take (cap bs.length)).take g)).setH f.h { o with pos := o.pos + bs.length }) := by
  rw [write_eq (tell_ok e hp) (writeAt_gen e hw bs o.pos g hp hg) (File.addOff_ok o.pos bs.length hl)]
  rw [seek_ok (setH_handles _ _ _) (o.pos + bs.length) hl, setH_setH]

theorem truncate_any {s : Win} {f : FileW} {o : Hnd} (e : s.handles f.h = some o) (hp : o.pos < limit) (n : Int) : truncate f n s = (.truncationFailure, s) := by
  unfold truncate
  rw [tell_ok e hp]
  dsimp only
  unfold setEndOfNoFile
  dsimp only
  by_cases hn : n < 0 ∨ (limit : Int) ≤ n
  · have : seek f n s = (0, s) := by
      unfold seek seekBy setPointer
      have ho : origin s o .begin + n = n := by simp [origin]
      simp only [e, ho]
      rw [if_pos hn]
    rw [this]
    dsimp only
    rw [seek_ok e o.pos hp, show ({ o with pos := o.pos } : Hnd) = o from rfl, setH_self e]
    rfl
  · have hn' : n = (n.toNat : Int) := by omega
    rw [hn', seek_ok e n.toNat (by omega)]
    dsimp only
    rw [seek_ok (setH_handles _ _ _) o.pos hp, setH_setH, show ({ o with pos := o.pos } : Hnd) = o from rfl, setH_self e]
    rfl

theorem take_cap {bs : List Byte} (h : bs.length ≤ 2147483647) : bs.take (cap bs.length) = bs := by rw [cap_le h, List.take_length]

theorem at_setH {s : Win} {f : FileW} {ino p : Nat} (hd : s.data ino = d) (hp : p < limit) : At (s.setH f.h ⟨ino, p, true, true⟩) f ino ⟨d, p⟩ :=
  ⟨setH_handles _ _ _, hd, hp⟩

/-- One call. -/
theorem perform_ok {s : Win} {f : FileW} {ino : Nat} {v v' : View} {op : Op} {a : Answer} (hb : Benign s) (h : At s f ino v) (hm : meaningW v op = some (a, v')) :
    ∃ s', perform f s op = .ok (a, s') ∧ At s' f ino v' ∧ Only f.h ino s s' := by
  obtain ⟨e, hd, hp⟩ := h
  cases op with
  | seek off =>
    simp only [meaningW, meaning] at hm
    split at hm
    · rename_i c
      cases hm
      have ho : off = (off.toNat : Int) := by omega
      have := seek_ok e off.toNat (by omega)
      rw [← ho] at this
      simp only [perform, this]
      exact ⟨_, rfl, ⟨setH_handles _ _ _, hd, by show off.toNat < limit; omega⟩, only_setH _ _ _ _⟩
    · cases hm
  | seekToEnd =>
    simp only [meaningW, meaning] at hm
    split at hm
    · rename_i c
      cases hm
      have : seekToEnd f s = _ := seekBy_ok e 0 .fromEnd v.data.length c (by simp [origin, hd])
      simp only [perform, this]
      exact ⟨_, rfl, ⟨setH_handles _ _ _, hd, c⟩, only_setH _ _ _ _⟩
    · cases hm
  | skip n =>
    simp only [meaningW, meaning] at hm
    split at hm
    · rename_i c
      cases hm
      have hn : ((v.pos : Int) + n) = ((v.pos + n).toNat : Int) := by omega
      have : skip f n s = _ := seekBy_ok e n .current (v.pos + n).toNat (by omega) (by simp only [origin]; omega)
      rw [← hn] at this
      simp only [perform, this]
      exact ⟨_, rfl, ⟨setH_handles _ _ _, hd, by show ((v.pos : Int) + n).toNat < limit; omega⟩, only_setH _ _ _ _⟩
    · cases hm
  | tell =>
    simp only [meaningW, meaning] at hm
    cases hm
    simp only [perform, tell_ok e hp]
    exact ⟨_, rfl, ⟨e, hd, hp⟩, Only.refl _ _ _⟩
  | size =>
    simp only [meaningW, meaning] at hm
    split at hm
    · rename_i c
      cases hm
      have := size_ok e hp (by rw [hd]; exact c)
      rw [hd] at this
      simp only [perform, this]
      exact ⟨_, rfl, ⟨e, hd, hp⟩, Only.refl _ _ _⟩
    · cases hm
  | read n =>
    simp only [meaningW, meaning] at hm
    split at hm
    · rename_i c0
      split at hm
      · rename_i c
        cases hm
        obtain ⟨g, hg, hgn⟩ := hb s.tick (cap n)
        have := read_gen e hp rfl n g hg c.2
        rw [cap_le c0] at this hgn
        dsimp only at this
        rw [hd, Nat.min_eq_left hgn, show n - ((v.data.drop v.pos).take n).length = 0 by simp; omega] at this
        simp only [perform, this]
        exact ⟨s.asked.setH f.h ⟨ino, v.pos + n, true, true⟩, by simp, ⟨setH_handles _ _ _, hd, c.2⟩, only_asked _⟩
      · cases hm
    · cases hm
  | readAt n off =>
    simp only [meaningW] at hm
    split at hm
    · rename_i c
      cases hm
      obtain ⟨g, hg, hgn⟩ := hb s.tick (cap n)
      have := readAt_gen e rfl n off g (by omega) hg n (by rw [cap_le c.1]; omega)
      rw [cap_le c.1] at this hgn
      dsimp only at this
      rw [hd, Nat.min_eq_left hgn] at this
      have hlen : ((v.data.drop off).take n).length = min n (v.data.length - off) := by simp
      rw [hlen, show n - min n (v.data.length - off) = n - (v.data.length - off) by omega] at this
      simp only [perform, this]
      exact ⟨_, rfl, ⟨setH_handles _ _ _, hd, by show off + min n (v.data.length - off) < limit; omega⟩, only_asked _⟩
    · cases hm
  | write bs =>
    simp only [meaningW, meaning] at hm
    split at hm
    · rename_i c0
      split at hm
      · rename_i c
        cases hm
        obtain ⟨g, hg, hgn⟩ := hb s.tick (bs.take (cap bs.length)).length
        have := write_gen e hp rfl bs g hg c
        rw [take_cap c0] at this hgn
        rw [List.take_of_length_le hgn] at this
        simp only [perform, this]
        refine ⟨_, rfl, ⟨setH_handles _ _ _, ?_, c⟩, only_store _ _ _⟩
        simp [Win.setH, Win.store, Win.asked, upd, hd, File.stored_eq]
      · cases hm
    · cases hm
  | writeAt bs off =>
    simp only [meaningW] at hm
    split at hm
    · rename_i c
      cases hm
      obtain ⟨g, hg, hgn⟩ := hb s.tick (bs.take (cap bs.length)).length
      have := writeAt_gen e rfl bs off g (by omega) hg
      rw [take_cap c.1] at this hgn
      rw [List.take_of_length_le hgn] at this
      simp only [perform, this]
      refine ⟨_, rfl, ⟨setH_handles _ _ _, ?_, c.2⟩, only_store _ _ _⟩
      simp [Win.setH, Win.store, Win.asked, upd, hd, File.stored_eq]
    · cases hm
  | truncate n =>
    simp only [meaningW] at hm
    cases hm
    simp only [perform, truncate_any e hp]
    exact ⟨_, rfl, ⟨e, hd, hp⟩, Only.refl _ _ _⟩

/-! ## The calls on an open file -/

/-- **C163.**  Any history of calls means what the specification says. -/
theorem C163_history {f : FileW} {ino : Nat} {v v' : View} {as : List Answer} (ops : List Op) (s : Win) (hb : Benign s) (h : At s f ino v) (hm : historyW v ops = some (as, v')) :
    ∃ s', performAll f s ops = .ok (as, s') ∧ At s' f ino v' ∧ Only f.h ino s s' := by
  induction ops generalizing s v as with
  | nil =>
    simp only [historyW] at hm
    cases hm
    exact ⟨s, rfl, h, Only.refl _ _ _⟩
  | cons op ops ih =>
    simp only [historyW] at hm
    cases h1 : meaningW v op with
    | none => rw [h1] at hm; cases hm
    | some r =>
      obtain ⟨a, v1⟩ := r
      rw [h1] at hm
      cases h2 : historyW v1 ops with
      | none => simp [h2] at hm
      | some q =>
        obtain ⟨as1, v2⟩ := q
        simp [h2] at hm
        obtain ⟨e1, e2⟩ := hm
        subst e1 e2
        obtain ⟨s1, p1, p2, p3⟩ := perform_ok hb h h1
        obtain ⟨s2, q1, q2, q3⟩ := ih s1 (Benign.of_only p3 hb) p2 h2
        refine ⟨s2, ?_, q2, p3.trans q3⟩
        simp only [performAll, p1, q1]

/-- **C163.**  A history that neither reads or writes at a given offset, nor cuts, nor moves more than 2147483647 bytes at once means the same as on the other systems (C114). -/
theorem C163_same_as_posix (ops : List Op) (hp : ∀ op ∈ ops, Portable op) (v : View) : historyW v ops = File.history v ops := by
  induction ops generalizing v with
  | nil => rfl
  | cons op ops ih =>
    have h1 : meaningW v op = meaning v op := by
      have := hp op (by simp)
      cases op <;> simp [Portable] at this <;> simp [meaningW, this]
    simp only [historyW, File.history, h1]
    congr 1
    funext r
    rw [ih (fun o ho => hp o (List.mem_cons_of_mem _ ho))]

/-- **C163 (deviation).**  A write of more than 2147483647 bytes stores only so many of them, says that it succeeded, and moves the cursor over all. -/
theorem C163_big_write {s : Win} {f : FileW} {ino : Nat} {v : View} (hb : Benign s) (h : At s f ino v) (bs : List Byte) (hbig : 2147483647 < bs.length) (c : v.pos + bs.length < limit) :
    ∃ s', write f bs s = .ok (true, s') ∧ At s' f ino ⟨stored v.data v.pos (bs.take 2147483647), v.pos + bs.length⟩ := by
  obtain ⟨e, hd, hp⟩ := h
  obtain ⟨g, hg, hgn⟩ := hb s.tick (bs.take (cap bs.length)).length
  have := write_gen e hp rfl bs g hg c
  rw [cap_gt hbig] at this hgn
  rw [List.take_of_length_le hgn] at this
  refine ⟨_, this, setH_handles _ _ _, ?_, c⟩
  simp [Win.setH, Win.store, Win.asked, upd, hd, File.stored_eq]

/-- **C163 (deviation).**  A read of more than 2147483647 bytes fills only so many, says that it succeeded, and moves the cursor over all. -/
theorem C163_big_read {s : Win} {f : FileW} {ino : Nat} {v : View} (hb : Benign s) (h : At s f ino v) (n : Nat) (hbig : 2147483647 < n) (c : v.pos + n < limit) (hn : v.pos + n ≤ v.data.length) :
    ∃ s', read f (List.replicate n none) n s = .ok ((true, ((v.data.drop v.pos).take 2147483647).map some ++ List.replicate (n - 2147483647) none), s') ∧ At s' f ino { v with pos := v.pos + n } := by
  obtain ⟨e, hd, hp⟩ := h
  obtain ⟨g, hg, hgn⟩ := hb s.tick (cap n)
  have := read_gen e hp rfl n g hg c
  rw [cap_gt hbig] at this hgn
  dsimp only at this
  rw [hd, Nat.min_eq_left hgn, show ((v.data.drop v.pos).take 2147483647).length = 2147483647 by simp; omega] at this
  exact ⟨_, this, setH_handles _ _ _, hd, c⟩

/-- **C163 (deviation).**  A write at an offset before the start of the file succeeds: it goes to the cursor. -/
theorem C163_write_before_start {s : Win} {f : FileW} {ino : Nat} {v : View} (hb : Benign s) (h : At s f ino v) (bs : List Byte) (off : Int) (ho : off < 0) (hl : bs.length ≤ 2147483647)
    (c : v.pos + bs.length < limit) :
    ∃ s', writeAt f bs off s = ((true, some bs.length), s') ∧ At s' f ino ⟨stored v.data v.pos bs, v.pos + bs.length⟩ := by
  obtain ⟨e, hd, hp⟩ := h
  obtain ⟨g, hg, hgn⟩ := hb s.tick bs.length
  have h1 : seekBy s f.h off .begin = (0, s) := seekBy_bad e off .begin (by simpa [origin] using ho)
  unfold writeAt
  rw [h1, take_cap hl]
  unfold writeFile
  simp only [e, Win.ask, hg]
  rw [if_neg (by simp), List.take_of_length_le hgn]
  refine ⟨_, rfl, setH_handles _ _ _, ?_, c⟩
  simp [Win.setH, Win.store, upd, hd, File.stored_eq]

/-- **C163 (deviation).**  A file can never be cut or extended. -/
theorem C163_never_truncated {s : Win} {f : FileW} {ino : Nat} {v : View} (h : At s f ino v) (n : Int) : truncate f n s = (.truncationFailure, s) :=
  truncate_any h.1 h.2.2 n

/-! ## Opening -/

/-- Every name denotes a file that has been made, every handle that is in use has been given out and is on a file that has been made, and `NULL` is not in use. -/
structure Wf (s : Win) : Prop where
  names : ∀ n i, s.names n = some (.file i) → i < s.nextIno
  handles : ∀ h o, s.handles h = some o → h < s.nextH ∧ h ≠ 0 ∧ o.ino < s.nextIno
  pos : 0 < s.nextH

/-- The contents of the file a name denotes. -/
def contents (s : Win) (n : Name) : Option (List Byte) :=
  match s.names n with
  | some (.file i) => some (s.data i)
  | _ => none

inductive Access where
  | read | write | append
  deriving DecidableEq, Repr

/-- file.h:16-22: the bits of a mode -/
def modeBits (a : Access) (rw : Bool) : BitVec 32 := (match a with | .read => 1 | .write => 2 | .append => 4) ||| (if rw then 8 else 0)

/-- What becomes of a file: for reading it must be there, for writing it starts empty, for appending it is made if it is not there. -/
def how : Access → Disposition
  | .read => .openExisting
  | .write => .createAlways
  | .append => .openAlways

theorem openHow_bits (a : Access) (rw : Bool) (extra : BitVec 32) (hx : extra &&& 15 = 0) :
    openHow (modeBits a rw ||| extra) = some ((a = .read ∨ rw = true : Bool), (a ≠ .read ∨ rw = true : Bool), (how a)) ∧
      ((modeBits a rw ||| extra) &&& 4 ≠ 0 ↔ a = .append) := by
  have h4 : extra &&& 4 = 0 := by
    have : extra &&& 4 = (extra &&& 15) &&& 4 := by rw [BitVec.and_assoc]; rfl
    rw [this, hx]; rfl
  have h15 : ∀ m : BitVec 32, m &&& 15 = m → (m ||| extra) &&& 15 = m := by
    intro m hm
    have : (m ||| extra) &&& 15 = (m &&& 15) ||| (extra &&& 15) := by
      ext i
      simp only [BitVec.getElem_and, BitVec.getElem_or]
      cases m[i] <;> cases extra[i] <;> simp
    rw [this, hx, hm]; simp
  have h4' : ∀ m : BitVec 32, (m ||| extra) &&& 4 = m &&& 4 := by
    intro m
    have : (m ||| extra) &&& 4 = (m &&& 4) ||| (extra &&& 4) := by
      ext i
      simp only [BitVec.getElem_and, BitVec.getElem_or]
      cases m[i] <;> cases extra[i] <;> simp
    rw [this, h4]; simp
  unfold openHow
  rw [h15 (modeBits a rw) (by cases a <;> cases rw <;> decide), h4' (modeBits a rw)]
  cases a <;> cases rw <;> decide

theorem violation_iff {s : Win} (hw : Wf s) (i : Nat) (wr : Bool) : sharingViolation s i wr = true ↔ ∃ h o, s.handles h = some o ∧ o.ino = i ∧ (wr = true ∨ o.wr = true) := by
  unfold sharingViolation
  rw [List.any_eq_true]
  constructor
  · rintro ⟨h, _, hh⟩
    cases e : s.handles h with
    | none => simp [e] at hh
    | some o => simp [e] at hh; exact ⟨h, o, e, hh.1, hh.2⟩
  · rintro ⟨h, o, e, h1, h2⟩
    exact ⟨h, by simpa using (hw.handles h o e).1, by simp [e, h1, h2]⟩

theorem createFile_new {s : Win} {name : Name} (rd wr : Bool) {d : Disposition} {g : Nat} (hg : s.grant s.tick 1 = some g) (hn : s.names name = none) (hd : d ≠ .openExisting) :
    createFile s name rd wr d = (.ok s.nextH, { s with tick := s.tick + 1, names := upd s.names name (some (.file s.nextIno)), data := upd s.data s.nextIno [], nextIno := s.nextIno + 1, handles := upd s.handles s.nextH (some ⟨s.nextIno, 0, rd, wr⟩), nextH := s.nextH + 1 }) := by
  unfold createFile
  simp only [Win.ask, hg, hn, if_neg hd, Win.newH]

theorem createFile_old {s : Win} {name : Name} (rd wr : Bool) (d : Disposition) {g i : Nat} (hg : s.grant s.tick 1 = some g) (hn : s.names name = some (.file i))
    (hv : sharingViolation s i wr = false) :
    createFile s name rd wr d = (.ok s.nextH, { s with tick := s.tick + 1, data := if d = .createAlways then upd s.data i [] else s.data, handles := upd s.handles s.nextH (some ⟨i, 0, rd, wr⟩), nextH := s.nextH + 1 }) := by
  unfold createFile
  simp only [Win.ask, hg, hn]
  rw [show sharingViolation { s with tick := s.tick + 1 } i wr = sharingViolation s i wr from rfl, hv]
  by_cases c : d = .createAlways <;> simp [Win.newH, c]

/-- A file that was just opened, whatever the way: the steps of `openMode` after `CreateFileW`. -/
theorem openMode_of {s s1 : Win} {mode : BitVec 32} {name : Name} {rd wr : Bool} {d : Disposition} {h ino : Nat} (h1 : openHow mode = some (rd, wr, d)) (hne : name ≠ []) (hu : s.utf8 name = true)
    (h2 : createFile s name rd wr d = (.ok h, s1)) (h3 : s1.handles h = some ⟨ino, 0, rd, wr⟩) (hl : (s1.data ino).length < limit) :
    ∃ s2, openMode mode name s = .ok ((.none, ⟨h, some name, false⟩), s2) ∧ s2.handles = upd s1.handles h (some ⟨ino, if mode &&& 4 ≠ 0 then (s1.data ino).length else 0, rd, wr⟩) ∧
      s2.names = s1.names ∧ s2.data = s1.data ∧ s2.nextH = s1.nextH ∧ s2.nextIno = s1.nextIno ∧ s2.live = s1.live + 1 ∧ s2.grant = s1.grant := by
  unfold openMode
  simp only [h1, h2]
  rw [if_neg (by simp [hne, hu])]
  by_cases c : mode &&& 4 ≠ 0
  · rw [if_pos c, if_pos c]
    have : setPointer s1 h 0 .fromEnd = (some ((s1.data ino).length : Int), s1.setH h ⟨ino, (s1.data ino).length, rd, wr⟩) := by
      unfold setPointer
      have ho : origin s1 ⟨ino, 0, rd, wr⟩ .fromEnd + 0 = ((s1.data ino).length : Int) := by simp [origin]
      simp only [h3, ho]
      rw [if_neg (by omega)]
      simp
    rw [this]
    exact ⟨_, rfl, rfl, rfl, rfl, rfl, rfl, rfl, rfl⟩
  · rw [if_neg c, if_neg c]
    exact ⟨_, rfl, (upd_id _ _ _ h3).symm, rfl, rfl, rfl, rfl, rfl, rfl⟩

/-- **C163.**  Opening a file that no other handle excludes: what it holds, where the cursor is, what one may do, and that nothing else changes. -/
theorem C163_open {s : Win} (hw : Wf s) (a : Access) (rw : Bool) (extra : BitVec 32) (hx : extra &&& 15 = 0) (name : Name) (g : Nat) (hg : s.grant s.tick 1 = some g) (hne : name ≠ [])
    (hu : s.utf8 name = true) (hn : s.names name ≠ some .folder) (hr : a = .read → s.names name ≠ none)
    (hs : ∀ h o, s.handles h = some o → s.names name = some (.file o.ino) → o.wr = false ∧ a = .read ∧ rw = false) (hl : ∀ d, contents s name = some d → d.length < limit) :
    ∃ f s' ino, openMode (modeBits a rw ||| extra) name s = .ok ((.none, f), s') ∧ Wf s' ∧ s'.names name = some (.file ino) ∧
      contents s' name = some (if a = .write then [] else (contents s name).getD []) ∧
      s.handles f.h = none ∧ s'.handles f.h = some ⟨ino, if a = .append then ((contents s name).getD []).length else 0, (a = .read ∨ rw = true : Bool), (a ≠ .read ∨ rw = true : Bool)⟩ ∧
      f.name = some name ∧ s'.live = s.live + 1 ∧ (∀ i, i ≠ f.h → s'.handles i = s.handles i) ∧ (∀ n, n ≠ name → s'.names n = s.names n) ∧
      (∀ n, s.names n ≠ s.names name → contents s' n = contents s n) := by
  obtain ⟨h1, h4⟩ := openHow_bits a rw extra hx
  have fresh : s.handles s.nextH = none := by
    cases e : s.handles s.nextH with
    | none => rfl
    | some o => have := (hw.handles _ _ e).1; omega
  cases hnm : s.names name with
  | none =>
    have had : a ≠ .read := fun c => hr c hnm
    have h2 := createFile_new (s := s) (name := name) (a = .read ∨ rw = true : Bool) (a ≠ .read ∨ rw = true : Bool)
      (d := how a) hg hnm (by cases a <;> simp [how] at had ⊢)
    obtain ⟨s2, e1, e2, e3, e4, e5, e6, e7, e8⟩ := openMode_of (ino := s.nextIno) h1 hne hu h2 (by simp [upd]) (by simp [upd]; decide)
    have hc : contents s name = none := by simp [contents, hnm]
    refine ⟨_, s2, s.nextIno, e1, ?_, by rw [e3]; simp [upd], ?_, fresh, ?_, rfl, e7, ?_, ?_, ?_⟩
    · constructor
      · intro n i hi
        rw [e3] at hi
        rw [e6]
        by_cases c : n = name
        · simp [upd, c] at hi; dsimp only; omega
        · simp [upd, c] at hi; have := hw.names n i hi; dsimp only; omega
      · intro h o ho
        rw [e2] at ho
        rw [e5, e6]
        by_cases c : h = s.nextH
        · simp [upd, c] at ho; subst ho; have := hw.pos; dsimp only; omega
        · simp [upd, c] at ho; have := hw.handles h o ho; dsimp only; omega
      · rw [e5]; dsimp only; omega
    · unfold contents; rw [e3, e4]; simp [upd, hnm]
    · rw [e2, hc]
      simp [upd]
    · intro i hi; rw [e2]; dsimp only at hi; simp [upd, hi]
    · intro n c; rw [e3]; simp [upd, c]
    · intro n c
      have c' : n ≠ name := fun h => c (by rw [h, hnm])
      unfold contents
      rw [e3, e4]
      simp only [upd_other _ _ _ c']
      cases e : s.names n with
      | none => rfl
      | some x =>
        cases x with
        | folder => rfl
        | file i =>
          have := hw.names n i e
          simp [upd, show i ≠ s.nextIno by omega]
  | some x =>
    cases x with
    | folder => exact absurd hnm hn
    | file i =>
      have hv : sharingViolation s i (a ≠ .read ∨ rw = true : Bool) = false := by
        rw [Bool.eq_false_iff]
        intro hv
        obtain ⟨h, o, q1, q2, q3⟩ := (violation_iff hw i _).1 hv
        obtain ⟨p1, p2, p3⟩ := hs h o q1 (by rw [hnm, q2])
        rcases q3 with q3 | q3
        · simp [p2, p3] at q3
        · rw [p1] at q3; cases q3
      have hc : contents s name = some (s.data i) := by simp [contents, hnm]
      have h2 := createFile_old (s := s) (name := name) (a = .read ∨ rw = true : Bool) (a ≠ .read ∨ rw = true : Bool)
        (how a) hg hnm hv
      have hdi : ∀ (d : Disposition), (if d = .createAlways then upd s.data i [] else s.data) i = if d = .createAlways then [] else s.data i := by
        intro d; split <;> simp [upd]
      obtain ⟨s2, e1, e2, e3, e4, e5, e6, e7, e8⟩ := openMode_of (ino := i) h1 hne hu h2 (by simp [upd]) (by
        dsimp only; rw [hdi]; split
        · decide
        · exact hl _ hc)
      have hi := hw.names name i hnm
      refine ⟨_, s2, i, e1, ?_, by rw [e3]; exact hnm, ?_, fresh, ?_, rfl, e7, ?_, ?_, ?_⟩
      · constructor
        · intro n j hj; rw [e3] at hj; rw [e6]; exact hw.names n j hj
        · intro h o ho
          rw [e2] at ho
          rw [e5, e6]
          by_cases c : h = s.nextH
          · simp [upd, c] at ho; subst ho; have := hw.pos; dsimp only; omega
          · simp [upd, c] at ho; have := hw.handles h o ho; dsimp only; omega
        · rw [e5]; dsimp only; omega
      · unfold contents; rw [e3, e4]
        simp only [hnm]
        rw [hdi]
        cases a <;> simp [how]
      · rw [e2, hc]
        simp only [h4]
        rw [upd_same]
        rw [hdi]
        cases a <;> simp [how]
      · intro j hj; rw [e2]; dsimp only at hj; simp [upd, hj]
      · intro n c; rw [e3]
      · intro n c
        unfold contents
        rw [e3, e4]
        dsimp only
        cases e : s.names n with
        | none => rfl
        | some x =>
          cases x with
          | folder => rfl
          | file j =>
            have hj : j ≠ i := by intro h; subst h; exact c e
            dsimp only
            split <;> simp [upd, hj]

/-- **C163.**  A file that is open is not opened for writing, and one that is open for writing is not opened at all, through any name; nothing changes. -/
theorem C163_open_shared {s : Win} (hw : Wf s) (a : Access) (rw : Bool) (extra : BitVec 32) (hx : extra &&& 15 = 0) (name : Name) (g : Nat) (hg : s.grant s.tick 1 = some g) {h : Nat} {o : Hnd}
    (e : s.handles h = some o) (hn : s.names name = some (.file o.ino)) (hc : o.wr = true ∨ a ≠ .read ∨ rw = true) :
    ∃ f, openMode (modeBits a rw ||| extra) name s = .ok ((.invalid, f), s) ∨ openMode (modeBits a rw ||| extra) name s = .ok ((.invalid, f), s.asked) := by
  obtain ⟨h1, h4⟩ := openHow_bits a rw extra hx
  unfold openMode
  simp only [h1]
  split
  · exact ⟨_, Or.inl rfl⟩
  · have hv : sharingViolation s o.ino (a ≠ .read ∨ rw = true : Bool) = true := (violation_iff hw _ _).2 ⟨h, o, e, rfl, by
      rcases hc with c | c | c
      · exact Or.inr c
      · exact Or.inl (by simp [c])
      · exact Or.inl (by simp [c])⟩
    unfold createFile
    simp only [Win.ask, hg, hn]
    rw [show sharingViolation { s with tick := s.tick + 1 } o.ino _ = sharingViolation s o.ino _ from rfl, hv]
    exact ⟨_, Or.inr rfl⟩

/-- **C163.**  What a failed opening reports: a file that is not there, a folder, a name that is empty or not UTF-8, and the reasons of the system. -/
theorem C163_open_fails {s : Win} (a : Access) (rw : Bool) (extra : BitVec 32) (hx : extra &&& 15 = 0) (name : Name) :
    (name = [] ∨ s.utf8 name = false → openMode (modeBits a rw ||| extra) name s = .ok ((.invalid, ⟨0, none, false⟩), s)) ∧
    (name ≠ [] → s.utf8 name = true →
      (∀ g, s.grant s.tick 1 = some g → a = .read → s.names name = none → openMode (modeBits a rw ||| extra) name s = .ok ((.notExists, ⟨0, none, false⟩), s.asked)) ∧
      (∀ g, s.grant s.tick 1 = some g → s.names name = some .folder → openMode (modeBits a rw ||| extra) name s = .ok ((.permission, ⟨0, none, false⟩), s.asked)) ∧
      (s.grant s.tick 1 = none → ∃ e, e ≠ .none ∧ openMode (modeBits a rw ||| extra) name s = .ok ((e, ⟨0, none, false⟩), s.asked) ∧
        (e = .notExists ↔ s.codes s.tick = 2) ∧ (e = .permission ↔ s.codes s.tick = 5) ∧ (e = .exists_ ↔ s.codes s.tick = 80 ∨ s.codes s.tick = 183))) := by
  obtain ⟨h1, h4⟩ := openHow_bits a rw extra hx
  refine ⟨fun h => ?_, fun hne hu => ⟨fun g hg ha hn => ?_, fun g hg hn => ?_, fun hg => ?_⟩⟩
  · unfold openMode
    simp only [h1]
    rw [if_pos h]
  · unfold openMode
    simp only [h1]
    rw [if_neg (by simp [hne, hu])]
    unfold createFile
    simp only [Win.ask, hg, hn, ha]
    rfl
  · unfold openMode
    simp only [h1]
    rw [if_neg (by simp [hne, hu])]
    unfold createFile
    simp only [Win.ask, hg, hn]
    rfl
  · refine ⟨errOf (s.codes s.tick), ?_, ?_, ?_, ?_, ?_⟩
    · unfold errOf; repeat' split
      all_goals decide
    · unfold openMode
      simp only [h1]
      rw [if_neg (by simp [hne, hu])]
      unfold createFile
      simp only [Win.ask, hg]
      rfl
    all_goals
      unfold errOf
      by_cases c1 : s.codes s.tick = 2
      · simp [c1]
      by_cases c2 : s.codes s.tick = 80
      · simp [c2]
      by_cases c3 : s.codes s.tick = 183
      · simp [c3]
      by_cases c4 : s.codes s.tick = 5
      · simp [c4]
      simp [c1, c2, c3, c4]

/-- **C163 (deviation).**  Appending is only where the cursor starts: after going back to the start a write replaces what was there (on the other systems it goes to the end: C115). -/
theorem C163_append_overwrites {s : Win} (hb : Benign s) {f : FileW} {ino p : Nat} {rd : Bool} (e : s.handles f.h = some ⟨ino, p, rd, true⟩) (bs : List Byte) (hl : bs.length ≤ 2147483647) :
    ∃ s1 s2, perform f s (.seek 0) = .ok (.offset 0, s1) ∧ perform f s1 (.write bs) = .ok (.wrote true, s2) ∧ s2.data ino = stored (s.data ino) 0 bs := by
  have hs := seek_ok e 0 (by decide)
  have hlim : bs.length < limit := by have : limit = 9223372036854775808 := rfl; omega
  obtain ⟨g, hg, hgn⟩ := hb s.tick (bs.take (cap bs.length)).length
  have hw : ∃ s2, write f bs (s.setH f.h ⟨ino, 0, rd, true⟩) = .ok (true, s2) ∧ s2.data ino = stored (s.data ino) 0 bs := by
    refine ⟨_, write_gen (f := f) (setH_handles s f.h ⟨ino, 0, rd, true⟩) (by dsimp only; decide) rfl bs g hg (by dsimp only; omega), ?_⟩
    rw [take_cap hl] at hgn ⊢
    rw [List.take_of_length_le hgn]
    simp [Win.setH, Win.store, Win.asked, upd, File.stored_eq]
  obtain ⟨s2, w1, w2⟩ := hw
  refine ⟨s.setH f.h ⟨ino, 0, rd, true⟩, s2, ?_, ?_, w2⟩
  · simp only [perform]
    rw [show (0 : Int) = ((0 : Nat) : Int) from rfl, hs]
  · simp only [perform, w1]

/-- **C163.**  Closing a file that is open gives back its handle and its name, and changes nothing else; a second time it must not be closed. -/
theorem C163_close {s : Win} {f : FileW} {name : Name} (hn : f.name = some name) (hf : f.nameFreed = false) (hlive : 1 ≤ s.live) :
    ∃ f' s', close f s = .ok ((.none, f'), s') ∧ s'.live + 1 = s.live ∧ s'.handles f.h = none ∧ (∀ i, i ≠ f.h → s'.handles i = s.handles i) ∧
      s'.names = s.names ∧ s'.data = s.data ∧ ∀ s'', close f' s'' = .error .ub := by
  refine ⟨{ f with nameFreed := true }, closeHandle { s with live := s.live - 1 } f.h, ?_, ?_, ?_, ?_, rfl, rfl, ?_⟩
  · unfold close
    rw [hn]
    simp only [hf, Bool.false_eq_true, if_false]
  · show s.live - 1 + 1 = s.live
    omega
  · simp [closeHandle, upd]
  · intro i hi
    simp [closeHandle, upd, hi]
  · intro s''
    unfold close
    simp only [hn, if_true]

/-- **C163 (deviation).**  A file whose opening failed is closed without an error, and `NULL` is what is closed. -/
theorem C163_close_failed {mode : BitVec 32} {name : Name} {s s' : Win} {e : OpenErr} {f : FileW} (hw : Wf s') (h : openMode mode name s = .ok ((e, f), s')) (he : e ≠ .none) :
    close f s' = .ok ((.none, f), s') := by
  have hf : f = ⟨0, none, false⟩ := by
    unfold openMode at h
    split at h
    · cases h
    · split at h
      · cases h; rfl
      · split at h
        · cases h; rfl
        · split at h
          · split at h
            · cases h; rfl
            · cases h; exact absurd rfl he
          · cases h; exact absurd rfl he
  subst hf
  have h0 : s'.handles 0 = none := by
    cases e : s'.handles 0 with
    | none => rfl
    | some o => exact absurd rfl (hw.handles 0 o e).2.1
  unfold close closeHandle
  dsimp only
  rw [upd_id _ _ _ h0]

/-! ## Several files at once -/

/-- What a program does: open a file, make a call on the `i`-th file it opened, close that file. -/
inductive Act where
  | open_ (mode : BitVec 32) (name : Name)
  | on (i : Nat) (op : Op)
  | close (i : Nat)

/-- The program and the system; `none`: the file was closed, or its opening failed. -/
structure Prog where
  s : Win
  files : List (Option FileW)

/-- One step; using a file that is not open is a mistake of the program. -/
def act (p : Prog) : Act → Except Fault Prog
  | .open_ mode name =>
    match openMode mode name p.s with
    | .error e => .error e
    | .ok r => .ok ⟨r.2, p.files ++ [if r.1.1 = .none then some r.1.2 else none]⟩
  | .on i op =>
    match p.files[i]? with
    | some (some f) => match perform f p.s op with | .error e => .error e | .ok r => .ok { p with s := r.2 }
    | _ => .error .ub
  | .close i =>
    match p.files[i]? with
    | some (some f) => match close f p.s with | .error e => .error e | .ok r => .ok ⟨r.2, p.files.set i none⟩
    | _ => .error .ub

def acts (p : Prog) : List Act → Except Fault Prog
  | [] => .ok p
  | x :: xs => match act p x with | .error e => .error e | .ok p => acts p xs

/-- A file that is open for writing is open only once. -/
def Exclusive (s : Win) : Prop := ∀ h1 h2 o1 o2, s.handles h1 = some o1 → s.handles h2 = some o2 → o1.ino = o2.ino → o1.wr = true → h1 = h2

/-- Nothing but the cursor of `h` and, if it may be written, the file of `h` has changed. -/
structure Quiet (h : Nat) (s s' : Win) : Prop where
  names : s'.names = s.names
  nextH : s'.nextH = s.nextH
  nextIno : s'.nextIno = s.nextIno
  others : ∀ i, i ≠ h → s'.handles i = s.handles i
  here : (s.handles h = none ∧ s'.handles h = none) ∨ ∃ o p, s.handles h = some o ∧ s'.handles h = some { o with pos := p }
  data : ∀ i, (∀ o, s.handles h = some o → o.wr = true → o.ino ≠ i) → s'.data i = s.data i

theorem Quiet.refl (h : Nat) (s : Win) : Quiet h s s := by
  refine ⟨rfl, rfl, rfl, fun _ _ => rfl, ?_, fun _ _ => rfl⟩
  cases e : s.handles h with
  | none => exact Or.inl ⟨rfl, rfl⟩
  | some o => exact Or.inr ⟨o, o.pos, rfl, rfl⟩

theorem Quiet.trans {h : Nat} {a b c : Win} (p : Quiet h a b) (q : Quiet h b c) : Quiet h a c := by
  refine ⟨q.names.trans p.names, q.nextH.trans p.nextH, q.nextIno.trans p.nextIno, fun i hi => (q.others i hi).trans (p.others i hi), ?_, ?_⟩
  · rcases p.here with ⟨h1, h2⟩ | ⟨o, x, h1, h2⟩
    · rcases q.here with ⟨h3, h4⟩ | ⟨o', y, h3, h4⟩
      · exact Or.inl ⟨h1, h4⟩
      · rw [h2] at h3; cases h3
    · rcases q.here with ⟨h3, h4⟩ | ⟨o', y, h3, h4⟩
      · rw [h2] at h3; cases h3
      · rw [h2] at h3; cases h3; exact Or.inr ⟨o, y, h1, h4⟩
  · intro i hi
    rw [q.data i ?_, p.data i hi]
    intro o ho hwr
    rcases p.here with ⟨h1, h2⟩ | ⟨o', x, h1, h2⟩
    · rw [h2] at ho; cases ho
    · rw [h2] at ho; cases ho
      exact hi o' h1 hwr

theorem quiet_seekBy (s : Win) (h : Nat) (off : Int) (w : Whence) : Quiet h s (seekBy s h off w).2 := by
  unfold seekBy setPointer
  cases e : s.handles h with
  | none => exact Quiet.refl _ _
  | some o =>
    by_cases c : origin s o w + off < 0 ∨ (limit : Int) ≤ origin s o w + off
    · simp only [if_pos c]; exact Quiet.refl _ _
    · simp only [if_neg c]
      exact ⟨rfl, rfl, rfl, fun i hi => by simp [Win.setH, upd, hi], Or.inr ⟨o, _, e, setH_handles _ _ _⟩, fun _ _ => rfl⟩

theorem quiet_readFile (s : Win) (h n : Nat) : Quiet h s (readFile s h n).2 := by
  unfold readFile
  cases e : s.handles h with
  | none => exact Quiet.refl _ _
  | some o =>
    dsimp only
    split
    · exact Quiet.refl _ _
    · unfold Win.ask
      cases s.grant s.tick n with
      | none => exact ⟨rfl, rfl, rfl, fun _ _ => rfl, (Quiet.refl h s).here, fun _ _ => rfl⟩
      | some g => exact ⟨rfl, rfl, rfl, fun i hi => by simp [Win.setH, upd, hi], Or.inr ⟨o, _, e, setH_handles _ _ _⟩, fun _ _ => rfl⟩

theorem quiet_writeFile (s : Win) (h : Nat) (bs : List Byte) : Quiet h s (writeFile s h bs).2 := by
  unfold writeFile
  cases e : s.handles h with
  | none => exact Quiet.refl _ _
  | some o =>
    dsimp only
    split
    · exact Quiet.refl _ _
    · rename_i hwr
      unfold Win.ask
      cases s.grant s.tick bs.length with
      | none => exact ⟨rfl, rfl, rfl, fun _ _ => rfl, (Quiet.refl h s).here, fun _ _ => rfl⟩
      | some g =>
        refine ⟨rfl, rfl, rfl, fun i hi => by simp [Win.setH, Win.store, upd, hi], Or.inr ⟨o, _, e, setH_handles _ _ _⟩, fun i hi => ?_⟩
        have := hi o e (by simpa using hwr)
        simp [Win.setH, Win.store, upd, Ne.symm this]

theorem quiet_readAt {f : FileW} {buf : List (Option Byte)} {n : Nat} {off : Int} {s s' : Win} {r : Bool × Option Nat × List (Option Byte)} (h : readAt f buf n off s = .ok (r, s')) : Quiet f.h s s' := by
  have q := (quiet_seekBy s f.h off .begin).trans (quiet_readFile (seekBy s f.h off .begin).2 f.h (cap n))
  unfold readAt at h
  generalize readFile (seekBy s f.h off .begin).2 f.h (cap n) = x at h q
  obtain ⟨x1, x2⟩ := x
  cases x1 with
  | none => cases h; exact q
  | some bs =>
    dsimp only at h
    cases e : fill buf bs with
    | error e' => rw [e] at h; cases h
    | ok b => rw [e] at h; cases h; exact q

theorem quiet_writeAt (f : FileW) (bs : List Byte) (off : Int) (s : Win) : Quiet f.h s (writeAt f bs off s).2 := by
  have q := (quiet_seekBy s f.h off .begin).trans (quiet_writeFile (seekBy s f.h off .begin).2 f.h (bs.take (cap bs.length)))
  unfold writeAt
  generalize writeFile (seekBy s f.h off .begin).2 f.h (bs.take (cap bs.length)) = x at q ⊢
  obtain ⟨x1, x2⟩ := x
  cases x1 <;> exact q

theorem quiet_perform {f : FileW} {s s' : Win} {op : Op} {a : Answer} (h : perform f s op = .ok (a, s')) : Quiet f.h s s' := by
  have tq : ∀ s, Quiet f.h s (tell f s).2 := fun s => quiet_seekBy _ _ _ _
  have sq : ∀ s n, Quiet f.h s (seek f n s).2 := fun s n => quiet_seekBy _ _ _ _
  cases op with
  | seek off => cases h; exact quiet_seekBy _ _ _ _
  | seekToEnd => cases h; exact quiet_seekBy _ _ _ _
  | skip n => cases h; exact quiet_seekBy _ _ _ _
  | tell => cases h; exact quiet_seekBy _ _ _ _
  | size =>
    cases h
    unfold size
    exact (tq _).trans ((quiet_seekBy _ _ _ _).trans ((tq _).trans (sq _ _)))
  | read n =>
    simp only [perform] at h
    split at h
    · cases h
    · rename_i r hr
      cases h
      unfold read at hr
      dsimp only at hr
      split at hr
      · cases hr
      · rename_i r' hr'
        split at hr
        · cases hr
        · cases hr
          exact (tq _).trans ((tq _).trans ((quiet_readAt (r := r'.1) (s' := r'.2) hr').trans (sq _ _)))
  | readAt n off =>
    simp only [perform] at h
    split at h
    · cases h
    · rename_i r hr
      cases h
      exact quiet_readAt (r := r.1) (s' := r.2) hr
  | write bs =>
    simp only [perform] at h
    split at h
    · cases h
    · rename_i r hr
      cases h
      unfold write at hr
      dsimp only at hr
      split at hr
      · cases hr
      · cases hr
        exact (tq _).trans ((tq _).trans ((quiet_writeAt _ _ _ _).trans (sq _ _)))
  | writeAt bs off => cases h; exact quiet_writeAt _ _ _ _
  | truncate n =>
    cases h
    unfold truncate
    exact (tq _).trans ((sq _ _).trans (sq _ _))

/-- What a step may do: handles are only made new or closed, a new one does not clash, and the file of a handle that is open before is written through it only. -/
structure Step (through : Option Nat) (s s' : Win) : Prop where
  wf : Wf s'
  nextH : s.nextH ≤ s'.nextH
  old : ∀ h o', h < s.nextH → s'.handles h = some o' → ∃ o, s.handles h = some o ∧ o'.ino = o.ino ∧ o'.wr = o.wr ∧ o'.rd = o.rd
  new : ∀ h o', s.nextH ≤ h → s'.handles h = some o' → h = s.nextH ∧ ∀ h2 o2, h2 < s.nextH → s.handles h2 = some o2 → o2.ino = o'.ino → o2.wr = false ∧ o'.wr = false
  data : ∀ h o, s.handles h = some o → (o.wr = true → through ≠ some h) → s'.data o.ino = s.data o.ino

theorem step_quiet {h : Nat} {s s' : Win} (hw : Wf s) (hx : Exclusive s) (q : Quiet h s s') : Step (some h) s s' := by
  refine ⟨?_, by rw [q.nextH]; exact Nat.le_refl _, ?_, ?_, ?_⟩
  · refine ⟨fun n i => by rw [q.names, q.nextIno]; exact hw.names n i, ?_, by rw [q.nextH]; exact hw.pos⟩
    intro i o ho
    rw [q.nextH, q.nextIno]
    by_cases c : i = h
    · subst c
      rcases q.here with ⟨_, h2⟩ | ⟨o', p, h1, h2⟩
      · rw [h2] at ho; cases ho
      · rw [h2] at ho; cases ho; exact hw.handles i o' h1
    · rw [q.others i c] at ho; exact hw.handles i o ho
  · intro i o' _ ho
    by_cases c : i = h
    · subst c
      rcases q.here with ⟨_, h2⟩ | ⟨o, p, h1, h2⟩
      · rw [h2] at ho; cases ho
      · rw [h2] at ho; cases ho; exact ⟨o, h1, rfl, rfl, rfl⟩
    · rw [q.others i c] at ho; exact ⟨o', ho, rfl, rfl, rfl⟩
  · intro i o' hi ho
    exfalso
    by_cases c : i = h
    · subst c
      rcases q.here with ⟨_, h2⟩ | ⟨o, p, h1, h2⟩
      · rw [h2] at ho; cases ho
      · have := (hw.handles i o h1).1; omega
    · rw [q.others i c] at ho; have := (hw.handles i o' ho).1; omega
  · intro i o ho hne
    apply q.data
    intro o2 ho2 hwr he
    have := hx h i o2 o ho2 ho he hwr
    subst this
    rw [ho] at ho2; cases ho2
    exact hne hwr rfl

theorem step_trivial {s s' : Win} (hw : Wf s) (h1 : s'.names = s.names) (h2 : s'.nextH = s.nextH) (h3 : s'.nextIno = s.nextIno) (h4 : ∀ h o, s'.handles h = some o → s.handles h = some o)
    (h5 : s'.data = s.data) : Step none s s' := by
  refine ⟨⟨fun n i => by rw [h1, h3]; exact hw.names n i, fun h o ho => by rw [h2, h3]; exact hw.handles h o (h4 h o ho), by rw [h2]; exact hw.pos⟩, by omega, ?_, ?_, ?_⟩
  · intro h o' _ ho; exact ⟨o', h4 h o' ho, rfl, rfl, rfl⟩
  · intro h o' hh ho; have := (hw.handles h o' (h4 h o' ho)).1; omega
  · intro h o _ _; rw [h5]

theorem step_open {mode : BitVec 32} {name : Name} {s s' : Win} {e : OpenErr} {f : FileW} (hw : Wf s) (h : openMode mode name s = .ok ((e, f), s')) :
    Step none s s' ∧ (e = .none → s.nextH ≤ f.h ∧ f.h < s'.nextH) := by
  unfold openMode at h
  split at h
  · cases h
  · rename_i rd wr d hd
    split at h
    · cases h
      exact ⟨step_trivial hw rfl rfl rfl (fun _ _ h => h) rfl, fun h => by cases h⟩
    · have key : ∀ s1 hh, createFile s name rd wr d = (.ok hh, s1) → hh = s.nextH ∧ s1.nextH = s.nextH + 1 ∧ Step none s s1 := by
        intro s1 hh hc
        unfold createFile at hc
        unfold Win.ask at hc
        cases hgr : s.grant s.tick 1 with
        | none => simp only [hgr] at hc; cases hc
        | some g =>
          simp only [hgr] at hc
          split at hc
          · split at hc
            · cases hc
            · cases hc
              refine ⟨rfl, rfl, ⟨?_, ?_, ?_⟩, Nat.le_succ _, ?_, ?_, ?_⟩
              · intro n i hi
                simp only [Win.newH] at hi ⊢
                by_cases c : n = name
                · simp [upd, c] at hi; omega
                · simp [upd, c] at hi; have := hw.names n i hi; omega
              · intro x o ho
                simp only [Win.newH] at ho ⊢
                by_cases c : x = s.nextH
                · simp [upd, c] at ho; subst ho; have := hw.pos; dsimp only; omega
                · simp [upd, c] at ho; have := hw.handles x o ho; omega
              · exact Nat.succ_pos _
              · intro x o' hx ho
                simp only [Win.newH] at ho
                rw [upd_other _ _ _ (by omega)] at ho
                exact ⟨o', ho, rfl, rfl, rfl⟩
              · intro x o' hx ho
                simp only [Win.newH] at ho
                by_cases c : x = s.nextH
                · refine ⟨c, ?_⟩
                  simp [upd, c] at ho; subst ho
                  intro h2 o2 _ ho2 hi
                  have := (hw.handles h2 o2 ho2).2.2
                  dsimp only at hi
                  omega
                · rw [upd_other _ _ _ c] at ho; have := (hw.handles x o' ho).1; omega
              · intro x o ho _
                have := (hw.handles x o ho).2.2
                simp only [Win.newH]
                rw [upd_other _ _ _ (by omega)]
          · cases hc
          · rename_i i hi
            split at hc
            · cases hc
            · rename_i hv
              cases hc
              have hv' : ∀ x o, s.handles x = some o → o.ino = i → wr = false ∧ o.wr = false := by
                intro x o ho hoi
                rw [← Bool.not_eq_true wr, ← Bool.not_eq_true o.wr]
                constructor
                · intro c; exact hv ((violation_iff hw i wr).2 ⟨x, o, ho, hoi, Or.inl c⟩)
                · intro c; exact hv ((violation_iff hw i wr).2 ⟨x, o, ho, hoi, Or.inr c⟩)
              have ht : ∀ {t : Win}, t = (if d = .createAlways then { ({ s with tick := s.tick + 1 } : Win) with data := upd s.data i [] } else ({ s with tick := s.tick + 1 } : Win)) →
                  t.names = s.names ∧ t.nextH = s.nextH ∧ t.nextIno = s.nextIno ∧ t.handles = s.handles ∧ (d ≠ .createAlways → t.data = s.data) ∧ (∀ j, j ≠ i → t.data j = s.data j) := by
                intro t et
                subst et
                split
                · rename_i c; exact ⟨rfl, rfl, rfl, rfl, fun c' => absurd c c', fun j hj => by simp [upd, hj]⟩
                · exact ⟨rfl, rfl, rfl, rfl, fun _ => rfl, fun _ _ => rfl⟩
              generalize et : (if d = .createAlways then { ({ s with tick := s.tick + 1 } : Win) with data := upd s.data i [] } else ({ s with tick := s.tick + 1 } : Win)) = t
              obtain ⟨t1, t2, t3, t4, t5, t6⟩ := ht et.symm
              simp only [Win.newH]
              refine ⟨t2, by omega, ⟨?_, ?_, ?_⟩, by dsimp only; omega, ?_, ?_, ?_⟩
              · intro n j hj; dsimp only at hj ⊢; rw [t1] at hj; rw [t3]; exact hw.names n j hj
              · intro x o ho
                dsimp only at ho ⊢
                rw [t2, t4] at ho
                rw [t2, t3]
                by_cases c : x = s.nextH
                · simp [upd, c] at ho; subst ho; have := hw.pos; have := hw.names name i hi; dsimp only; omega
                · simp [upd, c] at ho; have := hw.handles x o ho; omega
              · exact Nat.succ_pos _
              · intro x o' hx ho
                dsimp only at ho
                rw [t2, t4, upd_other _ _ _ (by omega)] at ho
                exact ⟨o', ho, rfl, rfl, rfl⟩
              · intro x o' hx ho
                dsimp only at ho
                rw [t2, t4] at ho
                by_cases c : x = s.nextH
                · refine ⟨c, ?_⟩
                  simp [upd, c] at ho; subst ho
                  intro h2 o2 _ ho2 hi2
                  exact (hv' h2 o2 ho2 hi2).symm
                · rw [upd_other _ _ _ c] at ho; have := (hw.handles x o' ho).1; omega
              · intro x o ho _
                dsimp only
                by_cases c : o.ino = i
                · have hwr := (hv' x o ho c).1
                  have hda : d ≠ .createAlways := by
                    intro hda
                    subst hda hwr
                    unfold openHow at hd
                    dsimp only at hd
                    repeat' split at hd
                    all_goals cases hd
                  rw [t5 hda]
                · exact t6 _ c
      split at h
      · rename_i code s1 hc
        cases h
        have : s'.names = s.names ∧ s'.nextH = s.nextH ∧ s'.nextIno = s.nextIno ∧ s'.handles = s.handles ∧ s'.data = s.data := by
          unfold createFile at hc
          unfold Win.ask at hc
          cases hgr : s.grant s.tick 1 with
          | none => simp only [hgr] at hc; cases hc; exact ⟨rfl, rfl, rfl, rfl, rfl⟩
          | some g =>
            simp only [hgr] at hc
            split at hc
            · split at hc
              · cases hc; exact ⟨rfl, rfl, rfl, rfl, rfl⟩
              · cases hc
            · cases hc; exact ⟨rfl, rfl, rfl, rfl, rfl⟩
            · split at hc
              · cases hc; exact ⟨rfl, rfl, rfl, rfl, rfl⟩
              · cases hc
        obtain ⟨a1, a2, a3, a4, a5⟩ := this
        refine ⟨step_trivial hw a1 a2 a3 (fun x o ho => by rw [← a4]; exact ho) a5, fun he => ?_⟩
        exfalso
        revert he
        unfold errOf; repeat' split
        all_goals decide
      · rename_i hh s1 hc
        obtain ⟨k1, k2, k3⟩ := key s1 hh hc
        have tail : ∀ s2 : Win, s2.names = s1.names → s2.nextH = s1.nextH → s2.nextIno = s1.nextIno → s2.data = s1.data →
            (∀ x o, s2.handles x = some o → ∃ p, s1.handles x = some { o with pos := p }) → Step none s s2 := by
          intro s2 b1 b2 b3 b4 b5
          refine ⟨⟨fun n i => by rw [b1, b3]; exact k3.wf.names n i, fun x o ho => ?_, by rw [b2]; exact k3.wf.pos⟩, by rw [b2]; exact k3.nextH, ?_, ?_, ?_⟩
          · obtain ⟨p, hp⟩ := b5 x o ho
            rw [b2, b3]; exact k3.wf.handles x { o with pos := p } hp
          · intro x o' hx ho
            obtain ⟨p, hp⟩ := b5 x o' ho
            exact k3.old x { o' with pos := p } hx hp
          · intro x o' hx ho
            obtain ⟨p, hp⟩ := b5 x o' ho
            exact k3.new x { o' with pos := p } hx hp
          · intro x o ho hn; rw [b4]; exact k3.data x o ho hn
        have same : ∀ x o, s1.handles x = some o → ∃ p, s1.handles x = some { o with pos := p } := fun x o ho => ⟨o.pos, ho⟩
        split at h
        · have q := quiet_seekBy s1 hh 0 .fromEnd
          unfold seekBy at q
          split at h
          · rename_i s3 hsp
            cases h
            rw [hsp] at q
            dsimp only at q
            refine ⟨tail _ q.names q.nextH q.nextIno ?_ ?_, fun he => by cases he⟩
            · show s3.data = s1.data
              unfold setPointer at hsp
              split at hsp
              · cases hsp; rfl
              · dsimp only at hsp
                split at hsp
                · cases hsp; rfl
                · cases hsp
            · intro x o ho
              unfold closeHandle at ho
              dsimp only at ho
              by_cases c : x = hh
              · simp [upd, c] at ho
              · rw [upd_other _ _ _ c, q.others x c] at ho; exact same x o ho
          · rename_i s3 hsp
            cases h
            rw [hsp] at q
            dsimp only at q
            refine ⟨tail _ q.names q.nextH q.nextIno ?_ ?_, fun _ => by have := q.nextH; dsimp only at this ⊢; omega⟩
            · show s3.data = s1.data
              unfold setPointer at hsp
              split at hsp
              · cases hsp
              · dsimp only at hsp
                split at hsp
                · cases hsp
                · cases hsp; rfl
            · intro x o ho
              dsimp only at ho
              by_cases c : x = hh
              · subst c
                rcases q.here with ⟨_, h2⟩ | ⟨o1, p, h1, h2⟩
                · rw [h2] at ho; cases ho
                · rw [h2] at ho; cases ho; exact ⟨o1.pos, h1⟩
              · rw [q.others x c] at ho; exact same x o ho
        · cases h
          exact ⟨tail _ rfl rfl rfl rfl same, fun _ => by dsimp only; omega⟩

theorem step_exclusive {t : Option Nat} {s s' : Win} (hx : Exclusive s) (st : Step t s s') : Exclusive s' := by
  intro h1 h2 o1 o2 e1 e2 hi hwr
  by_cases c1 : h1 < s.nextH
  · obtain ⟨p1, a1, a2, a3, a4⟩ := st.old h1 o1 c1 e1
    by_cases c2 : h2 < s.nextH
    · obtain ⟨p2, b1, b2, b3, b4⟩ := st.old h2 o2 c2 e2
      exact hx h1 h2 p1 p2 a1 b1 (by rw [← a2, ← b2]; exact hi) (by rw [← a3]; exact hwr)
    · have := (st.new h2 o2 (by omega) e2).2 h1 p1 c1 a1 (by rw [← a2]; exact hi)
      rw [a3, this.1] at hwr; cases hwr
  · obtain ⟨d1, d2⟩ := st.new h1 o1 (by omega) e1
    by_cases c2 : h2 < s.nextH
    · obtain ⟨p2, b1, b2, b3, b4⟩ := st.old h2 o2 c2 e2
      have := d2 h2 p2 c2 b1 (by rw [← b2]; exact hi.symm)
      rw [this.2] at hwr; cases hwr
    · rw [d1, (st.new h2 o2 (by omega) e2).1]

/-- Every file the program holds has a handle that was given out. -/
def Held (p : Prog) : Prop := ∀ (i : Nat) (f : FileW), p.files[i]? = some (some f) → f.h < p.s.nextH

theorem act_step {p p' : Prog} {x : Act} (hw : Wf p.s) (hx : Exclusive p.s) (hh : Held p) (h : act p x = .ok p') :
    ∃ t, Step t p.s p'.s ∧ Held p' ∧ (∀ hd, t = some hd → ∃ (i : Nat) (f : FileW) (op : Op), x = .on i op ∧ p.files[i]? = some (some f) ∧ f.h = hd) ∧
      (∀ (i : Nat) (f : FileW), p'.files[i]? = some (some f) → f.h < p.s.nextH → p.files[i]? = some (some f)) := by
  cases x with
  | open_ mode name =>
    simp only [act] at h
    split at h
    · cases h
    · rename_i r hr
      cases h
      obtain ⟨st, hf⟩ := step_open hw (e := r.1.1) (f := r.1.2) (s' := r.2) hr
      refine ⟨none, st, ?_, fun hd c => (by cases c), ?_⟩
      · intro i f hi
        dsimp only at hi ⊢
        by_cases c : i < p.files.length
        · rw [List.getElem?_append_left c] at hi
          exact Nat.lt_of_lt_of_le (hh i f hi) st.nextH
        · rw [List.getElem?_append_right (by omega)] at hi
          split at hi
          · rename_i he
            cases hn : i - p.files.length with
            | zero => simp [hn] at hi; subst hi; exact (hf he).2
            | succ k => simp [hn] at hi
          · cases hn : i - p.files.length with
            | zero => simp [hn] at hi
            | succ k => simp [hn] at hi
      · intro i f hi hlt
        dsimp only at hi
        by_cases c : i < p.files.length
        · rw [List.getElem?_append_left c] at hi; exact hi
        · exfalso
          rw [List.getElem?_append_right (by omega)] at hi
          split at hi
          · rename_i he
            cases hn : i - p.files.length with
            | zero => simp [hn] at hi; subst hi; have := (hf he).1; omega
            | succ k => simp [hn] at hi
          · cases hn : i - p.files.length with
            | zero => simp [hn] at hi
            | succ k => simp [hn] at hi
  | on i op =>
    simp only [act] at h
    split at h
    · rename_i f hf
      split at h
      · cases h
      · rename_i r hr
        cases h
        have st := step_quiet hw hx (quiet_perform (a := r.1) (s' := r.2) hr)
        exact ⟨some f.h, st, fun j g hj => Nat.lt_of_lt_of_le (hh j g hj) st.nextH, fun hd c => by cases c; exact ⟨i, f, op, rfl, hf, rfl⟩, fun j g hj _ => hj⟩
    · cases h
  | close i =>
    simp only [act] at h
    split at h
    · rename_i f hf
      split at h
      · cases h
      · rename_i r hr
        cases h
        have hr2 : r.2.names = p.s.names ∧ r.2.nextH = p.s.nextH ∧ r.2.nextIno = p.s.nextIno ∧ r.2.data = p.s.data ∧ r.2.handles = upd p.s.handles f.h none := by
          unfold close at hr
          split at hr
          · cases hr; exact ⟨rfl, rfl, rfl, rfl, rfl⟩
          · split at hr
            · cases hr
            · cases hr; exact ⟨rfl, rfl, rfl, rfl, rfl⟩
        obtain ⟨a1, a2, a3, a4, a5⟩ := hr2
        have sub : ∀ (j : Nat) (g : FileW), (p.files.set i none)[j]? = some (some g) → p.files[j]? = some (some g) := by
          intro j g hj
          rw [List.getElem?_set] at hj
          split at hj
          · split at hj <;> cases hj
          · exact hj
        refine ⟨none, step_trivial hw a1 a2 a3 ?_ a4, ?_, fun hd c => (by cases c), fun j g hj _ => sub j g hj⟩
        · intro x o ho
          rw [a5] at ho
          by_cases c : x = f.h
          · simp [upd, c] at ho
          · rw [upd_other _ _ _ c] at ho; exact ho
        · intro j g hj
          dsimp only at hj ⊢
          rw [a2]
          exact hh j g (sub j g hj)
    · cases h

/-- **C163.**  Whatever files a program opens, uses and closes, one that is open for writing is open only once. -/
theorem C163_single_writer {p p' : Prog} (xs : List Act) (hw : Wf p.s) (hx : Exclusive p.s) (hh : Held p) (h : acts p xs = .ok p') : Wf p'.s ∧ Exclusive p'.s ∧ Held p' := by
  induction xs generalizing p with
  | nil => cases h; exact ⟨hw, hx, hh⟩
  | cons x xs ih =>
    simp only [acts] at h
    split at h
    · cases h
    · rename_i q hq
      obtain ⟨t, st, hh', _, _⟩ := act_step hw hx hh hq
      exact ih st.wf (step_exclusive hx st) hh' h

theorem acts_old {p p' : Prog} (xs : List Act) (hw : Wf p.s) (hx : Exclusive p.s) (hh : Held p) (h : acts p xs = .ok p') {hd : Nat} (hlt : hd < p.s.nextH) {o' : Hnd}
    (e : p'.s.handles hd = some o') : ∃ o, p.s.handles hd = some o ∧ o'.ino = o.ino ∧ o'.wr = o.wr ∧ o'.rd = o.rd := by
  induction xs generalizing p with
  | nil => cases h; exact ⟨o', e, rfl, rfl, rfl⟩
  | cons x xs ih =>
    simp only [acts] at h
    split at h
    · cases h
    · rename_i q hq
      obtain ⟨t, st, hh', _, _⟩ := act_step hw hx hh hq
      obtain ⟨o, e1, e2, e3, e4⟩ := ih st.wf (step_exclusive hx st) hh' h (Nat.lt_of_lt_of_le hlt st.nextH)
      obtain ⟨o2, f1, f2, f3, f4⟩ := st.old hd o hlt e1
      exact ⟨o2, f1, e2.trans f2, e3.trans f3, e4.trans f4⟩

/-- **C163.**  While a file is open for reading its contents do not change, and while it is open for writing they change through that file only, whatever else the program opens, writes and
closes.  (`hd` is the handle; it is still open at the end.) -/
theorem C163_no_interference {p p' : Prog} (xs : List Act) (hw : Wf p.s) (hx : Exclusive p.s) (hh : Held p) (h : acts p xs = .ok p') {hd : Nat} {o o' : Hnd}
    (e : p.s.handles hd = some o) (e' : p'.s.handles hd = some o') (hn : o.wr = false ∨ ∀ (i : Nat) (f : FileW) (op : Op), p.files[i]? = some (some f) → f.h = hd → Act.on i op ∉ xs) :
    p'.s.data o.ino = p.s.data o.ino := by
  induction xs generalizing p o with
  | nil => cases h; rfl
  | cons x xs ih =>
    simp only [acts] at h
    split at h
    · cases h
    · rename_i q hq
      obtain ⟨t, st, hh', ht, hf⟩ := act_step hw hx hh hq
      have hlt := (hw.handles hd o e).1
      obtain ⟨o1, f1, f2, f3, f4⟩ := acts_old xs st.wf (step_exclusive hx st) hh' h (Nat.lt_of_lt_of_le hlt st.nextH) e'
      obtain ⟨o2, g1, g2, g3, g4⟩ := st.old hd o1 hlt f1
      rw [e] at g1
      cases g1
      have hdat : q.s.data o.ino = p.s.data o.ino := by
        apply st.data hd o e
        intro hwr c
        obtain ⟨i, f, op, rfl, hi, hfh⟩ := ht hd c
        rcases hn with hn | hn
        · rw [hwr] at hn; cases hn
        · exact hn i f op hi hfh (List.mem_cons_self ..)
      rw [← hdat, ← g2]
      apply ih st.wf (step_exclusive hx st) hh' h f1
      rcases hn with hn | hn
      · exact Or.inl (g3.trans hn)
      · right
        intro i f op hi hfh hmem
        exact hn i f op (hf i f hi (by rw [hfh]; exact hlt)) hfh (List.mem_cons_of_mem _ hmem)

/-! ## Examples -/

/-- A file "f" with three bytes, open for reading and writing with the cursor at 1. -/
def exWin : Win where
  names := fun n => if n = [0x66#8] then some (.file 0) else none
  data := fun _ => [0x61#8, 0x62#8, 0x63#8]
  handles := fun h => if h = 4 then some ⟨0, 1, true, true⟩ else none
  nextH := 5
  nextIno := 1
  live := 1
  tick := 0
  grant := fun _ n => some n
  codes := fun _ => 0
  utf8 := fun _ => true

def exFile : FileW := ⟨4, some [0x66#8], false⟩

theorem exWin_benign : Benign exWin := fun _ n => ⟨n, rfl, Nat.le_refl _⟩

theorem exWin_at : At exWin exFile 0 ⟨[0x61#8, 0x62#8, 0x63#8], 1⟩ := ⟨rfl, rfl, by decide⟩

theorem exWin_wf : Wf exWin := by
  refine ⟨fun n i h => ?_, fun h o e => ?_, by decide⟩
  · unfold exWin at h; dsimp only at h; split at h
    · cases h; decide
    · cases h
  · unfold exWin at e; dsimp only at e; split at e
    · rename_i c; subst c; cases e; decide
    · cases e

theorem exWin_exclusive : Exclusive exWin := by
  intro h1 h2 o1 o2 e1 e2 _ _
  unfold exWin at e1 e2; dsimp only at e1 e2
  split at e1
  · split at e2
    · omega
    · cases e2
  · cases e1

/-- `C163_history` says something: reading at an offset leaves the cursor behind what was read, so that the write goes there. -/
example : ∃ s', performAll exFile exWin [.readAt 1 0, .write [0x58#8], .truncate 0, .size]
    = .ok ([.got true [some 0x61#8], .wrote true, .err .truncationFailure, .offset 3], s') ∧ At s' exFile 0 ⟨[0x61#8, 0x58#8, 0x63#8], 2⟩ ∧ Only 4 0 exWin s' :=
  C163_history _ exWin exWin_benign exWin_at (by decide)

/-- `C163_close` for the file that is open. -/
example : ∃ f' s', close exFile exWin = .ok ((.none, f'), s') ∧ s'.live = 0 ∧ s'.handles 4 = none := by
  obtain ⟨f', s', h1, h2, h3, -⟩ := C163_close (s := exWin) (f := exFile) rfl rfl (by decide)
  have h2 : s'.live + 1 = 1 := h2
  exact ⟨f', s', h1, by omega, h3⟩

/-- Three thousand million bytes are within the hypotheses of `C163_big_write`. -/
example (bs : List Byte) (h : bs.length = 3000000000) : ∃ s', write exFile bs exWin = .ok (true, s') ∧
    At s' exFile 0 ⟨stored [0x61#8, 0x62#8, 0x63#8] 1 (bs.take 2147483647), 1 + bs.length⟩ :=
  C163_big_write exWin_benign exWin_at bs (by omega) (by rw [h]; decide)

example : ∃ s', writeAt exFile [0x58#8] (-5) exWin = ((true, some 1), s') ∧ At s' exFile 0 ⟨[0x61#8, 0x58#8, 0x63#8], 2⟩ :=
  C163_write_before_start exWin_benign exWin_at [0x58#8] (-5) (by decide) (by decide) (by decide)

example : ∃ s1 s2, perform exFile exWin (.seek 0) = .ok (.offset 0, s1) ∧ perform exFile s1 (.write [0x58#8]) = .ok (.wrote true, s2) ∧ s2.data 0 = [0x58#8, 0x62#8, 0x63#8] :=
  C163_append_overwrites exWin_benign (p := 1) (rd := true) rfl [0x58#8] (by decide)

/-- The hypotheses of `C163_open` hold for a new file; those of `C163_open_shared` for the file that is open. -/
example : ∃ f s' ino, openMode (modeBits .append false ||| 0) [0x67#8] exWin = .ok ((.none, f), s') ∧ s'.names [0x67#8] = some (.file ino) ∧ f.name = some [0x67#8] := by
  obtain ⟨f, s', ino, h1, _, h2, _, _, _, h3, _⟩ := C163_open exWin_wf .append false 0 rfl [0x67#8] 1 rfl (by decide) rfl (by decide) (by decide)
    (fun h o e c => by simp [exWin] at c) (fun d hd => by simp [contents, exWin] at hd)
  exact ⟨f, s', ino, h1, h2, h3⟩

example : ∃ f, openMode (modeBits .read false ||| 0) [0x66#8] exWin = .ok ((.invalid, f), exWin) ∨ openMode (modeBits .read false ||| 0) [0x66#8] exWin = .ok ((.invalid, f), exWin.asked) :=
  C163_open_shared exWin_wf .read false 0 rfl [0x66#8] 1 rfl (h := 4) rfl rfl (Or.inl rfl)

/-- A program that holds "f", and opens and writes another file: "f" stays as it was. -/
example : ∃ p', acts ⟨exWin, [some exFile]⟩ [.open_ 2 [0x67#8], .on 1 (.write [1#8, 2#8]), .open_ 2 [0x66#8], .close 1] = .ok p' ∧ p'.s.data 0 = [0x61#8, 0x62#8, 0x63#8] := by
  refine ⟨_, rfl, ?_⟩
  exact C163_no_interference (p := ⟨exWin, [some exFile]⟩) (hd := 4) [.open_ 2 [0x67#8], .on 1 (.write [1#8, 2#8]), .open_ 2 [0x66#8], .close 1] exWin_wf exWin_exclusive (by
    intro i f hi
    match i, hi with
    | 0, hi => cases hi; decide) rfl rfl rfl (Or.inr (by
    intro i f op hi hfh hm
    match i, hi with
    | 0, hi => simp at hm))

end Zpl.FileWin
