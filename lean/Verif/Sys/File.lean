import Verif.Str.Lines

/-!
# Files (code/header/core/file.h, code/source/core/file.c)  -  C114 to C117

The POSIX branch is modelled.  The operating system underneath is modelled by the state `Os` and by the system calls of the section *system calls*: they are
what POSIX says, are trusted, and are not part of the code.

* File names are opaque byte strings; a name denotes nothing, a folder, or a file (an inode number); several names may denote one file (hard links).
* Every call that can fail or move fewer bytes than asked for asks `grant`: the answer to the `t`-th such request for `n` bytes is `none` (the call fails: no permission, no
  descriptor left, I/O error) or `some g` (at most `g` bytes are moved).  The theorems either hold for every `grant`, or say what they need of it.
* Offsets are 64 bit and signed.

Simplifications: the table of operations (`zpl_file_operations`) of a file is always the default one (a zeroed one is replaced by it before use: file.h:338 etc.; memory
streams are in `Verif.Sys.Stream`); sizes are not negative; memory is not exhausted; the inode of a removed file is not reused. -/

namespace Zpl.File

abbrev Byte := BitVec 8
abbrev Name := List Byte

/-! ## System calls -/

/-- Offsets are below this number: `off_t` and `zpl_i64`. -/
def limit : Nat := 2 ^ 63

/-- What a name denotes. -/
inductive Ent where
  | file (ino : Nat)
  | folder
  deriving DecidableEq, Repr

/-- An open file description. -/
structure Open where
  ino : Nat
  pos : Nat
  rd : Bool
  wr : Bool
  app : Bool
  deriving DecidableEq, Repr

/-- The state of the system as far as this process can see it.  `live` counts the file name buffers of zpl (file.c:233) that have not been freed. -/
structure Os where
  names : Name → Option Ent
  data : Nat → List Byte
  mtime : Nat → Nat
  fds : List (Option Open)
  nextIno : Nat
  live : Nat
  tick : Nat
  grant : Nat → Nat → Option Nat
  /-- Linux lets `pwrite` on a descriptor opened with `O_APPEND` append whatever the offset says; POSIX does not -/
  pwriteAppends : Bool

/-- Function update. -/
def upd {α β : Type} [DecidableEq α] (f : α → β) (a : α) (b : β) : α → β := fun x => if x = a then b else f x

/-- The bytes of a file after `bs` have been stored at `off`: a gap is filled with zeros. -/
def overlay (d : List Byte) (off : Nat) (bs : List Byte) : List Byte :=
  if bs = [] then d else d.take off ++ List.replicate (off - d.length) 0 ++ bs ++ d.drop (off + bs.length)

/-- The open file description behind a descriptor. -/
def Os.getFd (s : Os) (fd : Int) : Option Open := if fd < 0 then none else (s.fds[fd.toNat]?).join

def Os.setFd (s : Os) (fd : Int) (o : Option Open) : Os := { s with fds := s.fds.set fd.toNat o }

/-- Ask the system for `n` bytes. -/
def Os.ask (s : Os) (n : Nat) : Option Nat × Os := (s.grant s.tick n, { s with tick := s.tick + 1 })

/-- Store bytes in a file, and note the time. -/
def Os.store (s : Os) (ino off : Nat) (bs : List Byte) : Os :=
  { s with data := upd s.data ino (overlay (s.data ino) off bs), mtime := upd s.mtime ino s.tick }

/-- The flags of `open(2)`. -/
structure Flags where
  rd : Bool
  wr : Bool
  app : Bool
  creat : Bool
  trunc : Bool
  deriving DecidableEq, Repr

/-- A new descriptor: the lowest one that is free. -/
def Os.newFd (s : Os) (o : Open) : Int × Os :=
  let i := s.fds.findIdx (·.isNone)
  (i, { s with fds := if i < s.fds.length then s.fds.set i (some o) else s.fds ++ [some o] })

/-- `open(2)`: -1 for failure.  What a folder opened for reading does is not modelled (`ub`). -/
def sysOpen (s : Os) (name : Name) (fl : Flags) : Except Fault (Int × Os) :=
  match s.ask 1 with
  | (none, s) => .ok (-1, s)
  | (some _, s) =>
    match s.names name with
    | none =>
      if fl.creat then
        .ok (Os.newFd { s with names := upd s.names name (some (.file s.nextIno)), data := upd s.data s.nextIno [],
                               mtime := upd s.mtime s.nextIno s.tick, nextIno := s.nextIno + 1 }
          { ino := s.nextIno, pos := 0, rd := fl.rd, wr := fl.wr, app := fl.app })
      else .ok (-1, s)
    | some .folder => if fl.wr then .ok (-1, s) else .error .ub
    | some (.file i) =>
      .ok (Os.newFd (if fl.trunc then { s with data := upd s.data i [], mtime := upd s.mtime i s.tick } else s)
        { ino := i, pos := 0, rd := fl.rd, wr := fl.wr, app := fl.app })

inductive Whence where
  | begin
  | current
  | fromEnd
  deriving DecidableEq, Repr

/-- `lseek(2)`: `none` for -1. -/
def sysSeek (s : Os) (fd : Int) (off : Int) (w : Whence) : Option Int × Os :=
  match s.getFd fd with
  | none => (none, s)
  | some o =>
    let n : Int := (match w with | .begin => 0 | .current => (o.pos : Int) | .fromEnd => ((s.data o.ino).length : Int)) + off
    if n < 0 ∨ (limit : Int) ≤ n then (none, s) else (some n, s.setFd fd (some { o with pos := n.toNat }))

/-- `pread(2)`: the bytes, `none` for -1. -/
def sysPread (s : Os) (fd : Int) (n : Nat) (off : Int) : Option (List Byte) × Os :=
  match s.getFd fd with
  | none => (none, s)
  | some o =>
    if o.rd = false ∨ off < 0 then (none, s)
    else match s.ask n with
      | (none, s) => (none, s)
      | (some g, s) => (some (((s.data o.ino).drop off.toNat).take (min n g)), s)

/-- `write(2)`: the number of bytes written, `none` for -1. -/
def sysWrite (s : Os) (fd : Int) (bs : List Byte) : Option Nat × Os :=
  match s.getFd fd with
  | none => (none, s)
  | some o =>
    if o.wr = false then (none, s)
    else match s.ask bs.length with
      | (none, s) => (none, s)
      | (some g, s) =>
        let k := bs.take g
        let at_ := if o.app then (s.data o.ino).length else o.pos
        (some k.length, (s.store o.ino at_ k).setFd fd (some { o with pos := at_ + k.length }))

/-- `pwrite(2)`. -/
def sysPwrite (s : Os) (fd : Int) (bs : List Byte) (off : Int) : Option Nat × Os :=
  match s.getFd fd with
  | none => (none, s)
  | some o =>
    if o.wr = false ∨ off < 0 then (none, s)
    else match s.ask bs.length with
      | (none, s) => (none, s)
      | (some g, s) =>
        let k := bs.take g
        let at_ := if o.app ∧ s.pwriteAppends then (s.data o.ino).length else off.toNat
        (some k.length, s.store o.ino at_ k)

/-- `ftruncate(2)`: whether it succeeded. -/
def sysTruncate (s : Os) (fd : Int) (n : Int) : Bool × Os :=
  match s.getFd fd with
  | none => (false, s)
  | some o =>
    if o.wr = false ∨ n < 0 then (false, s)
    else match s.ask 1 with
      | (none, s) => (false, s)
      | (some _, s) =>
        let d := s.data o.ino
        (true, { s with data := upd s.data o.ino (d.take n.toNat ++ List.replicate (n.toNat - d.length) 0), mtime := upd s.mtime o.ino s.tick })

/-- `close(2)`: on a descriptor that is not one it does nothing. -/
def sysClose (s : Os) (fd : Int) : Os := { s with fds := if fd < 0 then s.fds else s.fds.set fd.toNat none }

/-! ## Model -/

/-- file.h:97-105 `zpl_file`, without the operations and without the directory listing.  `nameFreed` is a ghost: whether the buffer of the name has been freed. -/
structure File where
  fd : Int
  isTemp : Bool
  name : Option Name
  nameFreed : Bool
  lastWrite : Nat
  deriving DecidableEq, Repr

/-- `zpl_file f = {0}` -/
def File.zero : File := ⟨0, false, none, false, 0⟩

/-- file.h:31-42 -/
inductive Err where
  | none | invalid | truncationFailure
  deriving DecidableEq, Repr

/-- file.c:162-171 `zpl__posix_file_seek`: the value of `*new_offset`, which the callers initialise with 0 and which stays when the call fails. -/
def seekBy (s : Os) (fd : Int) (off : Int) (w : Whence) : Int × Os :=
  match sysSeek s fd off w with
  | (none, s) => (0, s)
  | (some n, s) => (n, s)

/-- file.h:354-359 `zpl_file_seek` -/
def seek (f : File) (off : Int) (s : Os) : Int × Os := seekBy s f.fd off .begin
/-- file.h:361-366 `zpl_file_seek_to_end` -/
def seekToEnd (f : File) (s : Os) : Int × Os := seekBy s f.fd 0 .fromEnd
/-- file.h:369-374 `zpl_file_skip` -/
def skip (f : File) (n : Int) (s : Os) : Int × Os := seekBy s f.fd n .current
/-- file.h:376-381 `zpl_file_tell` -/
def tell (f : File) (s : Os) : Int × Os := seekBy s f.fd 0 .current

/-- A destination buffer after the system has written `bs` at its start; a cell that has never been written is `none`. -/
def fill (buf : List (Option Byte)) (bs : List Byte) : Except Fault (List (Option Byte)) :=
  if bs.length ≤ buf.length then .ok (bs.map some ++ buf.drop bs.length) else .error .oob

/-- file.h:336-339, 346-348 `zpl_file_read_at_check` and `zpl_file_read_at` over file.c:173-179 `zpl__posix_file_read`: the result, the number of bytes, the buffer. -/
def readAt (f : File) (buf : List (Option Byte)) (n : Nat) (off : Int) (s : Os) : Except Fault ((Bool × Option Nat × List (Option Byte)) × Os) :=
  match sysPread s f.fd n off with
  | (none, s) => .ok ((false, none, buf), s)
  | (some bs, s) => do
    let buf ← fill buf bs
    .ok ((true, some bs.length, buf), s)

/-- file.h:341-344, 350-352 `zpl_file_write_at_check` and `zpl_file_write_at` over file.c:181-194 `zpl__posix_file_write`: the result and the number of bytes. -/
def writeAt (f : File) (bs : List Byte) (off : Int) (s : Os) : (Bool × Option Nat) × Os :=
  let (cur, s) := seekBy s f.fd 0 .current
  match (if cur = off then sysWrite s f.fd bs else sysPwrite s f.fd bs off) with
  | (none, s) => ((false, none), s)
  | (some k, s) => ((true, some k), s)

/-- `cur_offset + size` in 64 bits. -/
def addOff (cur : Int) (n : Nat) : Except Fault Int := if cur + n < (limit : Int) then .ok (cur + n) else .error .arith

/-- file.h:383-388 `zpl_file_read` -/
def read (f : File) (buf : List (Option Byte)) (n : Nat) (s : Os) : Except Fault ((Bool × List (Option Byte)) × Os) := do
  let (cur, s) := tell f s
  let (off, s) := tell f s
  let ((ok, _, buf), s) ← readAt f buf n off s
  let e ← addOff cur n
  .ok ((ok, buf), (seek f e s).2)

/-- file.h:390-395 `zpl_file_write` -/
def write (f : File) (bs : List Byte) (s : Os) : Except Fault (Bool × Os) := do
  let (cur, s) := tell f s
  let (off, s) := tell f s
  let ((ok, _), s) := writeAt f bs off s
  let e ← addOff cur bs.length
  .ok (ok, (seek f e s).2)

/-- file.c:380-385 `zpl_file_truncate` -/
def truncate (f : File) (n : Int) (s : Os) : Err × Os :=
  match sysTruncate s f.fd n with
  | (true, s) => (.none, s)
  | (false, s) => (.truncationFailure, s)

/-- file.c:391-398 `zpl_file_size` -/
def size (f : File) (s : Os) : Int × Os :=
  let (prev, s) := tell f s
  let (_, s) := seekToEnd f s
  let (n, s) := tell f s
  let (_, s) := seek f prev s
  (n, s)

/-- file.h:16-22: the bits of `zpl_file_mode` -/
def modeRead : BitVec 32 := 1
def modeWrite : BitVec 32 := 2
def modeAppend : BitVec 32 := 4
def modeRw : BitVec 32 := 8

/-- file.c:203-211: the flags for a mode; `none` is the panic of line 210. -/
def openFlags (mode : BitVec 32) : Option Flags :=
  let m := mode &&& 15
  if m = modeRead then some ⟨true, false, false, false, false⟩
  else if m = modeWrite then some ⟨false, true, false, true, true⟩
  else if m = modeAppend then some ⟨false, true, true, true, false⟩
  else if m = modeRead ||| modeRw then some ⟨true, true, false, false, false⟩
  else if m = modeWrite ||| modeRw then some ⟨true, true, false, true, true⟩
  else if m = modeAppend ||| modeRw then some ⟨true, true, true, true, false⟩
  else none

/-- file.c:239-250 `zpl_file_open_mode` with file.c:201-221 `zpl__posix_file_open` and file.c:225-237 `zpl_file_new` -/
def openMode (mode : BitVec 32) (name : Name) (s : Os) : Except Fault ((Err × File) × Os) :=
  match openFlags mode with
  | none => .error .assertion
  | some fl => do
    let (fd, s) ← sysOpen s name fl
    if fd < 0 then .ok ((.invalid, { File.zero with fd := fd }), s)
    else .ok ((.none, ⟨fd, false, some name, false, 0⟩), { s with live := s.live + 1 })

/-- file.c:284-286 `zpl_file_create` -/
def create (name : Name) (s : Os) : Except Fault ((Err × File) × Os) := openMode (modeWrite ||| modeRw) name s

/-- file.c:288-290 `zpl_file_open` -/
def openRead (name : Name) (s : Os) : Except Fault ((Err × File) × Os) := openMode modeRead name s

/-- file.c:254-281 `zpl_file_close` (the directory listing is not modelled): freeing the name a second time is `ub`. -/
def close (f : File) (s : Os) : Except Fault ((Err × File) × Os) := do
  let (f, s) ← match f.name with
    | none => .ok (f, s)
    | some _ => if f.nameFreed then .error .ub else .ok ({ f with nameFreed := true }, { s with live := s.live - 1 })
  if f.fd < 0 then .ok ((.invalid, f), s) else .ok ((.none, f), sysClose s f.fd)

/-- file.c:292 `zpl_file_name` -/
def fileName (f : File) : Name := f.name.getD []

/-- file.c:366-378 `zpl_file_get_standard` -/
def standard (i : Fin 3) : File := { File.zero with fd := i.val }

/-- file_misc.c:399-424 `zpl_fs_get_type` -/
inductive DirType where
  | file | folder | unknown
  deriving DecidableEq, Repr

/-- file_misc.c:399-424 `zpl_fs_get_type` -/
def getType (name : Name) (s : Os) : DirType :=
  match s.names name with
  | some (.file _) => .file
  | some .folder => .folder
  | none => .unknown

/-- file.c:387 `zpl_fs_exists` -/
def fsExists (name : Name) (s : Os) : Bool := (s.names name).isSome

/-- file.c:426-454 `zpl_file_read_contents`: `none` is a null `data` (with size 0); otherwise the block, whose cells start out unwritten, and `size`. -/
def readContents (zeroTerminate : Bool) (path : Name) (s : Os) : Except Fault (Option (List (Option Byte) × Nat) × Os) :=
  if getType path s = .folder then .ok (none, s)
  else do
    let ((e, f), s) ← openRead path s
    if e = .none then do
      let (n, s) := size f s
      if 0 < n then do
        let data : List (Option Byte) := List.replicate (if zeroTerminate then n.toNat + 1 else n.toNat) none
        let ((_, _, data), s) ← readAt f data n.toNat 0 s
        let data ← if zeroTerminate then wr data n.toNat (some 0) else .ok data
        let (_, s) ← close f s
        .ok (some (data, n.toNat), s)
      else do
        let (_, s) ← close f s
        .ok (none, s)
    else .ok (none, s)

/-- file.c:463-480 `zpl_file_write_contents`: the result, and what was stored in `*err` if anything. -/
def writeContents (path : Name) (bs : List Byte) (s : Os) : Except Fault ((Bool × Option Err) × Os) := do
  let ((e, f), s) ← openMode modeWrite path s
  if e ≠ .none then .ok ((false, some e), s)
  else do
    let (ok, s) ← write f bs s
    let (_, s) ← close f s
    .ok ((ok, none), s)

/-- A block as a C string reads it: a cell that was never written is `ub`. -/
def initialised : List (Option Byte) → Except Fault (List Byte)
  | [] => .ok []
  | none :: _ => .error .ub
  | some b :: t => do let r ← initialised t; .ok (b :: r)

/-- file.c:482-494 `zpl_file_read_lines`: the line pointers as offsets in the contents, and the contents. -/
def readLines (strip : Bool) (path : Name) (s : Os) : Except Fault ((List Nat × List Byte) × Os) := do
  let ((_, f), s) ← openRead path s
  let (n, s) := size f s
  let buf : List (Option Byte) := List.replicate (n.toNat + 1) none
  let ((_, buf), s) ← read f buf n.toNat s
  let buf ← wr buf n.toNat (some 0)
  let contents ← initialised buf
  let r ← Str.splitLines strip contents
  let (_, s) ← close f s
  .ok (r, s)

/-! ## Specification of an open file (C114)

An open file is a list of bytes and a position in it. -/

structure View where
  data : List Byte
  pos : Nat
  deriving DecidableEq, Repr

/-- What can be asked of an open file. -/
inductive Op where
  | seek (off : Int)
  | seekToEnd
  | skip (n : Int)
  | tell
  | size
  | read (n : Nat)
  | readAt (n off : Nat)
  | write (bs : List Byte)
  | writeAt (bs : List Byte) (off : Nat)
  | truncate (n : Nat)
  deriving DecidableEq, Repr

inductive Answer where
  | offset (n : Int)
  | wrote (ok : Bool)
  | got (ok : Bool) (buf : List (Option Byte))
  | err (e : Err)
  deriving DecidableEq, Repr

/-- Byte `i` of the file after `bs` have been stored at `off`. -/
def storedByte (d : List Byte) (off : Nat) (bs : List Byte) (i : Nat) : Byte :=
  if off ≤ i ∧ i < off + bs.length then bs.getD (i - off) 0 else d.getD i 0

/-- The file after `bs` have been stored at `off`, byte by byte: it reaches to the end of what is stored, and a gap reads as zeros. -/
def stored (d : List Byte) (off : Nat) (bs : List Byte) : List Byte :=
  (List.range (if bs = [] then d.length else max d.length (off + bs.length))).map (storedByte d off bs)

/-- What the calls mean.  `none`: outside the domain of the theorem - offsets that 64 bits do not hold or that lie before the start, a read that reaches past the end with the moving
cursor, and a write at a given offset that happens to be the cursor. -/
def meaning (v : View) : Op → Option (Answer × View)
  | .seek off => if 0 ≤ off ∧ off < limit then some (.offset off, { v with pos := off.toNat }) else none
  | .seekToEnd => if v.data.length < limit then some (.offset v.data.length, { v with pos := v.data.length }) else none
  | .skip n => if 0 ≤ v.pos + n ∧ v.pos + n < limit then some (.offset (v.pos + n), { v with pos := (v.pos + n).toNat }) else none
  | .tell => some (.offset v.pos, v)
  | .size => if v.data.length < limit then some (.offset v.data.length, v) else none
  | .read n =>
    if v.pos + n ≤ v.data.length ∧ v.pos + n < limit then some (.got true (((v.data.drop v.pos).take n).map some), { v with pos := v.pos + n }) else none
  | .readAt n off =>
    some (.got true (((v.data.drop off).take n).map some ++ List.replicate (n - (v.data.length - off)) none), v)
  | .write bs =>
    if v.pos + bs.length < limit then some (.wrote true, { data := stored v.data v.pos bs, pos := v.pos + bs.length }) else none
  | .writeAt bs off => if off ≠ v.pos then some (.wrote true, { v with data := stored v.data off bs }) else none
  | .truncate n => some (.err .none, { v with data := (List.range n).map (v.data.getD · 0) })

/-- A whole history. -/
def history (v : View) : List Op → Option (List Answer × View)
  | [] => some ([], v)
  | op :: ops => do
    let (a, v) ← meaning v op
    let (as, v) ← history v ops
    some (a :: as, v)

/-- The same calls made on a file; a read is given a new buffer of just the size asked for. -/
def perform (f : File) (s : Os) : Op → Except Fault (Answer × Os)
  | .seek off => let (n, s) := seek f off s; .ok (.offset n, s)
  | .seekToEnd => let (n, s) := seekToEnd f s; .ok (.offset n, s)
  | .skip k => let (n, s) := skip f k s; .ok (.offset n, s)
  | .tell => let (n, s) := tell f s; .ok (.offset n, s)
  | .size => let (n, s) := size f s; .ok (.offset n, s)
  | .read n => do let ((ok, buf), s) ← read f (List.replicate n none) n s; .ok (.got ok buf, s)
  | .readAt n off => do let ((ok, _, buf), s) ← readAt f (List.replicate n none) n off s; .ok (.got ok buf, s)
  | .write bs => do let (ok, s) ← write f bs s; .ok (.wrote ok, s)
  | .writeAt bs off => let ((ok, _), s) := writeAt f bs off s; .ok (.wrote ok, s)
  | .truncate n => let (e, s) := truncate f n s; .ok (.err e, s)

def performAll (f : File) (s : Os) : List Op → Except Fault (List Answer × Os)
  | [] => .ok ([], s)
  | op :: ops => do
    let (a, s) ← perform f s op
    let (as, s) ← performAll f s ops
    .ok (a :: as, s)

/-- The system does all that is asked of it. -/
def Benign (s : Os) : Prop := ∀ t n, ∃ g, s.grant t n = some g ∧ n ≤ g

/-- `f` is open on the file `ino` for reading and writing (not appending), and what is there is `v`. -/
def At (s : Os) (f : File) (ino : Nat) (v : View) : Prop :=
  s.getFd f.fd = some ⟨ino, v.pos, true, true, false⟩ ∧ s.data ino = v.data ∧ v.pos < limit

/-- Nothing but the file `ino` and the cursor of the descriptor `fd` differs. -/
structure Only (fd : Int) (ino : Nat) (s s' : Os) : Prop where
  names : s'.names = s.names
  files : ∀ i, i ≠ ino → s'.data i = s.data i
  others : ∀ i, i ≠ fd → s'.getFd i = s.getFd i
  live : s'.live = s.live
  nextIno : s'.nextIno = s.nextIno
  grant : s'.grant = s.grant

/-! ## Lemmas -/

theorem ok_bind {α β : Type} (a : α) (f : α → Except Fault β) : ((Except.ok a : Except Fault α) >>= f) = f a := (rfl)

theorem Only.refl (fd : Int) (ino : Nat) (s : Os) : Only fd ino s s := ⟨rfl, fun _ _ => rfl, fun _ _ => rfl, rfl, rfl, rfl⟩

theorem Only.trans {fd : Int} {ino : Nat} {a b c : Os} (h : Only fd ino a b) (k : Only fd ino b c) : Only fd ino a c :=
  ⟨k.names.trans h.names, fun i hi => (k.files i hi).trans (h.files i hi), fun i hi => (k.others i hi).trans (h.others i hi), k.live.trans h.live,
    k.nextIno.trans h.nextIno, k.grant.trans h.grant⟩

theorem getFd_some {s : Os} {fd : Int} {o : Open} (h : s.getFd fd = some o) : 0 ≤ fd ∧ s.fds[fd.toNat]? = some (some o) := by
  unfold Os.getFd at h
  split at h
  · cases h
  · refine ⟨by omega, ?_⟩
    cases e : s.fds[fd.toNat]? with
    | none => simp [e] at h
    | some x => simp [e] at h; simp [h]

theorem setFd_self {s : Os} {fd : Int} {o : Open} (h : s.getFd fd = some o) : s.setFd fd (some o) = s := by
  obtain ⟨h0, h1⟩ := getFd_some h
  have : s.fds.set fd.toNat (some o) = s.fds := by
    apply List.ext_getElem?
    intro i
    rw [List.getElem?_set]
    split
    · rename_i e; subst e
      obtain ⟨hl, he⟩ := List.getElem?_eq_some_iff.1 h1
      simp [hl, he]
    · rfl
  simp [Os.setFd, this]

theorem getFd_setFd {s : Os} {fd : Int} {o : Open} (h : s.getFd fd = some o) (o' : Option Open) : (s.setFd fd o').getFd fd = o' := by
  obtain ⟨h0, h1⟩ := getFd_some h
  obtain ⟨hl, he⟩ := List.getElem?_eq_some_iff.1 h1
  simp [Os.getFd, Os.setFd, hl, show ¬ fd < 0 by omega]

theorem getFd_setFd_other {s : Os} {fd : Int} {o : Open} (h : s.getFd fd = some o) (o' : Option Open) {i : Int} (hi : i ≠ fd) : (s.setFd fd o').getFd i = s.getFd i := by
  obtain ⟨h0, h1⟩ := getFd_some h
  unfold Os.getFd Os.setFd
  split
  · rfl
  · have : fd.toNat ≠ i.toNat := by omega
    simp [this]

theorem setFd_setFd (s : Os) (fd : Int) (a b : Option Open) : (s.setFd fd a).setFd fd b = s.setFd fd b := by
  simp [Os.setFd]

theorem stored_eq (d : List Byte) (off : Nat) (bs : List Byte) : overlay d off bs = stored d off bs := by
  unfold overlay stored
  by_cases hb : bs = []
  · subst hb
    simp only [if_pos]
    apply List.ext_getElem
    · simp
    · intro i h1 h2
      simp [storedByte, show ¬ (off ≤ i ∧ i < off) by omega, h1]
  · have : 0 < bs.length := List.length_pos_iff.2 hb
    simp only [if_neg hb]
    apply List.ext_getElem
    · simp; omega
    · intro i h1 h2
      simp only [List.getElem_map, List.getElem_range, storedByte, List.getElem_append, List.length_append, List.length_take, List.length_replicate,
        List.getElem_take, List.getElem_replicate, List.getElem_drop]
      simp at h2
      by_cases ha : i < off
      · simp only [show ¬ (off ≤ i ∧ i < off + bs.length) by omega, if_false]
        by_cases hc : i < d.length
        · simp [show i < min off d.length by omega, show i < min off d.length + (off - d.length) by omega, show i < min off d.length + (off - d.length) + bs.length by omega, hc]
        · simp [show ¬ i < min off d.length by omega, show i < min off d.length + (off - d.length) by omega, show i < min off d.length + (off - d.length) + bs.length by omega, hc]
      · by_cases hc : i < off + bs.length
        · simp only [show off ≤ i ∧ i < off + bs.length by omega, if_true, show i < min off d.length + (off - d.length) + bs.length by omega, dif_pos,
            show ¬ i < min off d.length + (off - d.length) by omega, dif_neg, not_false_eq_true]
          have e : i - (min off d.length + (off - d.length)) = i - off := by omega
          simp only [e]
          rw [List.getD_eq_getElem?_getD, List.getElem?_eq_getElem (by omega)]
          rfl
        · simp only [show ¬ (off ≤ i ∧ i < off + bs.length) by omega, if_false, show ¬ i < min off d.length + (off - d.length) + bs.length by omega, dif_neg, not_false_eq_true]
          have e : off + bs.length + (i - (min off d.length + (off - d.length) + bs.length)) = i := by omega
          simp only [e]
          rw [List.getD_eq_getElem?_getD, List.getElem?_eq_getElem (by omega)]
          rfl

theorem cut_eq (d : List Byte) (n : Nat) : d.take n ++ List.replicate (n - d.length) 0 = (List.range n).map (d.getD · 0) := by
  apply List.ext_getElem
  · simp; omega
  · intro i h1 h2
    simp at h2
    simp only [List.getElem_map, List.getElem_range, List.getElem_append, List.length_take, List.getElem_take, List.getElem_replicate]
    by_cases hc : i < d.length
    · simp [show i < min n d.length by omega, hc]
    · simp [show ¬ i < min n d.length by omega, hc]

theorem seekBy_ok {s : Os} {fd : Int} {o : Open} (h : s.getFd fd = some o) (off : Int) (w : Whence) (n : Nat) (hn : n < limit)
    (he : (match w with | .begin => 0 | .current => (o.pos : Int) | .fromEnd => ((s.data o.ino).length : Int)) + off = n) :
    seekBy s fd off w = ((n : Int), s.setFd fd (some { o with pos := n })) := by
  have h1 : ¬ ((n : Int) < 0 ∨ (limit : Int) ≤ n) := by omega
  unfold seekBy sysSeek
  simp only [h]
  rw [he, if_neg h1]
  simp

theorem tell_ok {s : Os} {f : File} {o : Open} (h : s.getFd f.fd = some o) (hp : o.pos < limit) : tell f s = ((o.pos : Int), s) := by
  unfold tell
  rw [seekBy_ok h 0 .current o.pos hp (by simp)]
  rw [setFd_self h]

theorem size_ok {s : Os} {f : File} {o : Open} (h : s.getFd f.fd = some o) (hp : o.pos < limit) (hd : (s.data o.ino).length < limit) :
    size f s = (((s.data o.ino).length : Int), s) := by
  unfold size
  rw [tell_ok h hp]
  dsimp only
  unfold seekToEnd
  rw [seekBy_ok h 0 .fromEnd _ hd (by simp)]
  dsimp only
  have h2 := getFd_setFd h (some { o with pos := (s.data o.ino).length })
  rw [tell_ok h2 hd]
  dsimp only
  unfold seek
  rw [seekBy_ok h2 o.pos .begin o.pos hp (by simp)]
  dsimp only
  rw [setFd_setFd, setFd_self h]

/-- The state after a request. -/
def Os.asked (s : Os) : Os := { s with tick := s.tick + 1 }

/-- The state after the contents of a file have been replaced. -/
def Os.put (s : Os) (ino : Nat) (d : List Byte) : Os := { s with data := upd s.data ino d, mtime := upd s.mtime ino s.tick }

theorem truncate_ok {s : Os} {fd : Int} {o : Open} (h : s.getFd fd = some o) (hw : o.wr = true) (n g : Nat) (hg : s.grant s.tick 1 = some g) :
    sysTruncate s fd n = (true, s.asked.put o.ino ((s.data o.ino).take n ++ List.replicate (n - (s.data o.ino).length) 0)) := by
  unfold sysTruncate
  simp only [h, hw, Os.ask, hg]
  rw [if_neg (by simp)]
  rfl

theorem fill_ok (n : Nat) (bs : List Byte) (h : bs.length ≤ n) : fill (List.replicate n none) bs = .ok (bs.map some ++ List.replicate (n - bs.length) none) := by
  simp [fill, h]

theorem pread_ok {s : Os} {fd : Int} {o : Open} (h : s.getFd fd = some o) (hr : o.rd = true) (n off : Nat) (g : Nat) (hg : s.grant s.tick n = some g) :
    sysPread s fd n off = (some (((s.data o.ino).drop off).take (min n g)), s.asked) := by
  unfold sysPread
  simp only [h, hr, Os.ask, hg]
  rw [if_neg (by simp)]
  simp [Os.asked]

theorem writeAt_cursor {s : Os} {f : File} {o : Open} (h : s.getFd f.fd = some o) (hp : o.pos < limit) (hw : o.wr = true) (bs : List Byte) (g : Nat)
    (hg : s.grant s.tick bs.length = some g) :
    writeAt f bs o.pos s = ((true, some (min g bs.length)), ((s.asked.store o.ino (if o.app then (s.data o.ino).length else o.pos) (bs.take g)).setFd f.fd
      (some { o with pos := (if o.app then (s.data o.ino).length else o.pos) + min g bs.length }))) := by
  unfold writeAt
  rw [seekBy_ok h 0 .current o.pos hp (by simp)]
  dsimp only
  rw [setFd_self h]
  simp only [if_true]
  unfold sysWrite
  simp only [h, hw, Os.ask, hg]
  simp [Os.asked]

theorem writeAt_elsewhere {s : Os} {f : File} {o : Open} (h : s.getFd f.fd = some o) (hp : o.pos < limit) (hw : o.wr = true) (bs : List Byte) (off : Nat) (ho : off ≠ o.pos)
    (g : Nat) (hg : s.grant s.tick bs.length = some g) :
    writeAt f bs off s = ((true, some (min g bs.length)),
      s.asked.store o.ino (if o.app ∧ s.pwriteAppends then (s.data o.ino).length else off) (bs.take g)) := by
  unfold writeAt
  rw [seekBy_ok h 0 .current o.pos hp (by simp)]
  dsimp only
  have hne : ¬ ((o.pos : Int) = (off : Int)) := by omega
  rw [setFd_self h, if_neg hne]
  unfold sysPwrite
  simp only [h, hw, Os.ask, hg]
  rw [if_neg (by simp)]
  simp [Os.asked]

theorem addOff_ok (a n : Nat) (h : a + n < limit) : addOff a n = .ok (((a + n : Nat)) : Int) := by
  unfold addOff
  rw [if_pos (by omega)]
  simp

theorem only_asked (fd : Int) (ino : Nat) (s : Os) : Only fd ino s s.asked := ⟨rfl, fun _ _ => rfl, fun _ _ => rfl, rfl, rfl, rfl⟩

theorem only_store (fd : Int) (ino : Nat) (s : Os) (off : Nat) (bs : List Byte) : Only fd ino s (s.store ino off bs) :=
  ⟨rfl, fun i hi => by simp [Os.store, upd, hi], fun _ _ => rfl, rfl, rfl, rfl⟩

theorem only_put (fd : Int) (ino : Nat) (s : Os) (d : List Byte) : Only fd ino s (s.put ino d) :=
  ⟨rfl, fun i hi => by simp [Os.put, upd, hi], fun _ _ => rfl, rfl, rfl, rfl⟩

theorem only_setFd {s : Os} {fd : Int} {o : Open} (h : s.getFd fd = some o) (ino : Nat) (o' : Option Open) : Only fd ino s (s.setFd fd o') :=
  ⟨rfl, fun _ _ => rfl, fun _ hi => getFd_setFd_other h o' hi, rfl, rfl, rfl⟩

theorem Benign.of_only {fd : Int} {ino : Nat} {s s' : Os} (h : Only fd ino s s') (hb : Benign s) : Benign s' := by
  intro t n; rw [h.grant]; exact hb t n

theorem read_ok {s : Os} {f : File} {o : Open} (h : s.getFd f.fd = some o) (hp : o.pos < limit) (hr : o.rd = true) (n g : Nat) (hg : s.grant s.tick n = some g)
    (c : o.pos + n < limit) :
    read f (List.replicate n none) n s =
      .ok ((true, (((s.data o.ino).drop o.pos).take (min n g)).map some ++ List.replicate (n - (((s.data o.ino).drop o.pos).take (min n g)).length) none),
        s.asked.setFd f.fd (some { o with pos := o.pos + n })) := by
  have hf' : s.asked.getFd f.fd = some o := h
  have e : seek f ((o.pos + n : Nat) : Int) s.asked = (((o.pos + n : Nat) : Int), s.asked.setFd f.fd (some { o with pos := o.pos + n })) := by
    unfold seek
    exact seekBy_ok hf' _ .begin (o.pos + n) c (by simp)
  unfold read
  rw [tell_ok h hp]
  dsimp only
  rw [tell_ok h hp]
  dsimp only
  unfold readAt
  rw [pread_ok h hr n o.pos g hg]
  dsimp only
  rw [fill_ok _ _ (by simp; omega)]
  simp only [ok_bind]
  rw [addOff_ok _ _ c]
  simp only [ok_bind]
  rw [e]

theorem perform_ok {s : Os} {f : File} {ino : Nat} {v v' : View} {op : Op} {a : Answer} (hb : Benign s) (h : At s f ino v) (hm : meaning v op = some (a, v')) :
    ∃ s', perform f s op = .ok (a, s') ∧ At s' f ino v' ∧ Only f.fd ino s s' := by
  obtain ⟨hf, hd, hp⟩ := h
  cases op with
  | seek off =>
    simp only [meaning] at hm
    split at hm
    · rename_i c
      simp only [Option.some.injEq, Prod.mk.injEq] at hm
      obtain ⟨rfl, rfl⟩ := hm
      have hn : off.toNat < limit := by omega
      refine ⟨s.setFd f.fd (some ⟨ino, off.toNat, true, true, false⟩), ?_, ⟨getFd_setFd hf _, hd, hn⟩, only_setFd hf _ _⟩
      simp only [perform, seek]
      rw [seekBy_ok hf off .begin off.toNat hn (by simp; omega)]
      simp only [Int.toNat_of_nonneg c.1]
    · cases hm
  | seekToEnd =>
    simp only [meaning] at hm
    split at hm
    · rename_i c
      simp only [Option.some.injEq, Prod.mk.injEq] at hm
      obtain ⟨rfl, rfl⟩ := hm
      refine ⟨s.setFd f.fd (some ⟨ino, v.data.length, true, true, false⟩), ?_, ⟨getFd_setFd hf _, hd, c⟩, only_setFd hf _ _⟩
      simp only [perform, seekToEnd]
      rw [seekBy_ok hf 0 .fromEnd v.data.length c (by simp [hd])]
    · cases hm
  | skip n =>
    simp only [meaning] at hm
    split at hm
    · rename_i c
      simp only [Option.some.injEq, Prod.mk.injEq] at hm
      obtain ⟨rfl, rfl⟩ := hm
      have hn : (v.pos + n).toNat < limit := by omega
      refine ⟨s.setFd f.fd (some ⟨ino, (v.pos + n).toNat, true, true, false⟩), ?_, ⟨getFd_setFd hf _, hd, hn⟩, only_setFd hf _ _⟩
      simp only [perform, skip]
      rw [seekBy_ok hf n .current (v.pos + n).toNat hn (by simp; omega)]
      simp only [Int.toNat_of_nonneg c.1]
    · cases hm
  | tell =>
    simp only [meaning, Option.some.injEq, Prod.mk.injEq] at hm
    obtain ⟨rfl, rfl⟩ := hm
    exact ⟨s, by simp only [perform]; rw [tell_ok hf hp], ⟨hf, hd, hp⟩, Only.refl _ _ _⟩
  | size =>
    simp only [meaning] at hm
    split at hm
    · rename_i c
      simp only [Option.some.injEq, Prod.mk.injEq] at hm
      obtain ⟨rfl, rfl⟩ := hm
      exact ⟨s, by simp only [perform]; rw [size_ok hf hp (by simpa [hd] using c)]; simp [hd], ⟨hf, hd, hp⟩, Only.refl _ _ _⟩
    · cases hm
  | read n =>
    simp only [meaning] at hm
    split at hm
    · rename_i c
      simp only [Option.some.injEq, Prod.mk.injEq] at hm
      obtain ⟨rfl, rfl⟩ := hm
      obtain ⟨g, hg, hgn⟩ := hb s.tick n
      have hf' : s.asked.getFd f.fd = some ⟨ino, v.pos, true, true, false⟩ := hf
      refine ⟨s.asked.setFd f.fd (some ⟨ino, v.pos + n, true, true, false⟩), ?_, ⟨getFd_setFd hf' _, hd, c.2⟩, (only_asked _ _ _).trans (only_setFd hf' _ _)⟩
      have hl : ((v.data.drop v.pos).take n).length = n := by simp; omega
      have e := read_ok hf hp rfl n g hg c.2
      dsimp only at e
      rw [hd, Nat.min_eq_left hgn, hl, Nat.sub_self] at e
      simp only [perform, e, ok_bind, List.replicate_zero, List.append_nil]
    · cases hm
  | readAt n off =>
    simp only [meaning, Option.some.injEq, Prod.mk.injEq] at hm
    obtain ⟨rfl, rfl⟩ := hm
    obtain ⟨g, hg, hgn⟩ := hb s.tick n
    refine ⟨s.asked, ?_, ⟨hf, hd, hp⟩, only_asked _ _ _⟩
    simp only [perform, readAt]
    rw [pread_ok hf rfl n off g hg]
    dsimp only
    rw [hd, Nat.min_eq_left hgn, fill_ok _ _ (by simp; omega)]
    simp only [ok_bind]
    congr 4
    simp; omega
  | write bs =>
    simp only [meaning] at hm
    split at hm
    · rename_i c
      simp only [Option.some.injEq, Prod.mk.injEq] at hm
      obtain ⟨rfl, rfl⟩ := hm
      obtain ⟨g, hg, hgn⟩ := hb s.tick bs.length
      have hf' : (s.asked.store ino v.pos bs).getFd f.fd = some ⟨ino, v.pos, true, true, false⟩ := hf
      have hf2 := getFd_setFd hf' (some ⟨ino, v.pos + bs.length, true, true, false⟩)
      refine ⟨(s.asked.store ino v.pos bs).setFd f.fd (some ⟨ino, v.pos + bs.length, true, true, false⟩), ?_,
        ⟨hf2, by simp [Os.setFd, Os.store, upd, Os.asked, hd, stored_eq], c⟩,
        (only_asked _ _ _).trans ((only_store _ _ _ _ _).trans (only_setFd hf' _ _))⟩
      simp only [perform, write]
      rw [tell_ok hf hp]
      dsimp only
      rw [tell_ok hf hp]
      dsimp only
      have := writeAt_cursor hf hp rfl bs g hg
      dsimp only at this
      rw [this]
      dsimp only
      rw [addOff_ok _ _ c]
      simp only [ok_bind, seek, Bool.false_eq_true, if_false]
      rw [List.take_of_length_le hgn, Nat.min_eq_right hgn]
      rw [seekBy_ok hf2 _ .begin (v.pos + bs.length) c (by simp)]
      simp [setFd_setFd]
    · cases hm
  | writeAt bs off =>
    simp only [meaning] at hm
    split at hm
    · rename_i c
      simp only [Option.some.injEq, Prod.mk.injEq] at hm
      obtain ⟨rfl, rfl⟩ := hm
      obtain ⟨g, hg, hgn⟩ := hb s.tick bs.length
      refine ⟨s.asked.store ino off bs, ?_, ⟨hf, by simp [Os.store, upd, Os.asked, hd, stored_eq], hp⟩, (only_asked _ _ _).trans (only_store _ _ _ _ _)⟩
      simp only [perform]
      have := writeAt_elsewhere hf hp rfl bs off c g hg
      rw [this, List.take_of_length_le hgn]
      simp
    · cases hm
  | truncate n =>
    simp only [meaning, Option.some.injEq, Prod.mk.injEq] at hm
    obtain ⟨rfl, rfl⟩ := hm
    obtain ⟨g, hg, hgn⟩ := hb s.tick 1
    refine ⟨s.asked.put ino ((List.range n).map (v.data.getD · 0)), ?_, ⟨hf, by simp [Os.put, upd], hp⟩, only_asked _ _ _ |>.trans (only_put _ _ _ _)⟩
    simp only [perform, truncate]
    rw [truncate_ok hf rfl n g hg]
    dsimp only
    rw [hd, cut_eq]

/-! ## C114: an open file is a list of bytes and a position -/

/-- C114.  For every open file, every contents and cursor, and every history of calls: what the calls answer and what is in the file afterwards is what the list of bytes and the
position say, and no other file, no name and no other descriptor changes.  Partial: `meaning` leaves out a read that reaches past the end (`C114_read_past_end`), a write at an
offset that happens to be the cursor (`C114_write_at_moves_cursor`), seeks before the start (`C114_failed_seek`), and a system that does less than it is asked to
(`C114_short_write`). -/
theorem C114_history_partial {f : File} {ino : Nat} {v v' : View} {as : List Answer} (ops : List Op) (s : Os) (hb : Benign s) (h : At s f ino v)
    (hm : history v ops = some (as, v')) :
    ∃ s', performAll f s ops = .ok (as, s') ∧ At s' f ino v' ∧ Only f.fd ino s s' := by
  induction ops generalizing s v as with
  | nil =>
    simp only [history, Option.some.injEq, Prod.mk.injEq] at hm
    obtain ⟨rfl, rfl⟩ := hm
    exact ⟨s, rfl, h, Only.refl _ _ _⟩
  | cons op ops ih =>
    simp only [history] at hm
    cases e : meaning v op with
    | none => simp [e] at hm
    | some r =>
      obtain ⟨a, v1⟩ := r
      simp only [e, Option.bind_eq_bind, Option.bind_some] at hm
      cases e2 : history v1 ops with
      | none => simp [e2] at hm
      | some r2 =>
        obtain ⟨as2, v2⟩ := r2
        simp only [e2, Option.bind_some, Option.some.injEq, Prod.mk.injEq] at hm
        obtain ⟨rfl, rfl⟩ := hm
        obtain ⟨s1, p1, h1, o1⟩ := perform_ok hb h e
        obtain ⟨s2, p2, h2, o2⟩ := ih s1 (hb.of_only o1) h1 e2
        exact ⟨s2, by simp [performAll, p1, p2], h2, o1.trans o2⟩

/-- A system with one file "f" holding "abc", which is open (descriptor 3) for reading and writing, the cursor at 1. -/
def exOs : Os where
  names := fun n => if n = [0x66#8] then some (.file 0) else if n = [0x64#8] then some .folder else none
  data := fun i => if i = 0 then [0x61#8, 0x62#8, 0x63#8] else []
  mtime := fun _ => 0
  fds := [none, none, none, some ⟨0, 1, true, true, false⟩]
  nextIno := 1
  live := 1
  tick := 0
  grant := fun _ n => some n
  pwriteAppends := true

def exFile : File := ⟨3, false, some [0x66#8], false, 0⟩

theorem exOs_benign : Benign exOs := fun _ n => ⟨n, rfl, Nat.le_refl _⟩

theorem exOs_at : At exOs exFile 0 ⟨[0x61#8, 0x62#8, 0x63#8], 1⟩ := ⟨rfl, rfl, by decide⟩

/-- The hypotheses of `C114_history_partial` are met: read, write over the end, look at the size, read it all from the start. -/
example : ∃ s', performAll exFile exOs [.read 1, .write [0x58#8, 0x59#8], .size, .seek 0, .read 4]
      = .ok ([.got true [some 0x62#8], .wrote true, .offset 4, .offset 0, .got true [some 0x61#8, some 0x62#8, some 0x58#8, some 0x59#8]], s') ∧
    At s' exFile 0 ⟨[0x61#8, 0x62#8, 0x58#8, 0x59#8], 4⟩ ∧ Only exFile.fd 0 exOs s' :=
  C114_history_partial _ _ exOs_benign exOs_at (by decide)

theorem write_gen {s : Os} {f : File} {o : Open} (h : s.getFd f.fd = some o) (hp : o.pos < limit) (hw : o.wr = true) (bs : List Byte) (g : Nat)
    (hg : s.grant s.tick bs.length = some g) (c : o.pos + bs.length < limit) :
    write f bs s = .ok (true, (s.asked.store o.ino (if o.app then (s.data o.ino).length else o.pos) (bs.take g)).setFd f.fd (some { o with pos := o.pos + bs.length })) := by
  have hf' : (s.asked.store o.ino (if o.app then (s.data o.ino).length else o.pos) (bs.take g)).getFd f.fd = some o := h
  have hf2 := getFd_setFd hf' (some { o with pos := (if o.app then (s.data o.ino).length else o.pos) + min g bs.length })
  have e : seek f ((o.pos + bs.length : Nat) : Int) _ = _ := seekBy_ok hf2 _ .begin (o.pos + bs.length) c (by simp)
  unfold write
  rw [tell_ok h hp]
  dsimp only
  rw [tell_ok h hp]
  dsimp only
  rw [writeAt_cursor h hp hw bs g hg]
  dsimp only
  rw [addOff_ok _ _ c]
  simp only [ok_bind]
  rw [e, setFd_setFd]

/-- C114, where it fails: a read with the moving cursor that reaches past the end says that it succeeded and moves the cursor past the end by all that was asked for; what is
written next leaves a gap of zeros in the file. -/
theorem C114_read_past_end {s : Os} {f : File} {ino : Nat} {v : View} (hb : Benign s) (h : At s f ino v) (n : Nat) (hn : v.data.length < v.pos + n) (c : v.pos + n < limit) :
    ∃ buf s', read f (List.replicate n none) n s = .ok ((true, buf), s') ∧ At s' f ino { v with pos := v.pos + n } ∧
      ∀ bs : List Byte, bs ≠ [] → v.pos + n + bs.length < limit →
        ∃ s'', write f bs s' = .ok (true, s'') ∧ s''.data ino = v.data ++ List.replicate (v.pos + n - v.data.length) 0 ++ bs := by
  obtain ⟨hf, hd, hp⟩ := h
  obtain ⟨g, hg, hgn⟩ := hb s.tick n
  have e := read_ok hf hp rfl n g hg c
  have hf' : s.asked.getFd f.fd = some ⟨ino, v.pos, true, true, false⟩ := hf
  refine ⟨_, _, e, ⟨getFd_setFd hf' _, hd, c⟩, ?_⟩
  intro bs hbs c2
  obtain ⟨g2, hg2, hgn2⟩ := hb (s.tick + 1) bs.length
  have hs := getFd_setFd hf' (some ⟨ino, v.pos + n, true, true, false⟩)
  refine ⟨_, write_gen hs c rfl bs g2 hg2 c2, ?_⟩
  rw [List.take_of_length_le hgn2]
  simp [Os.setFd, Os.store, upd, Os.asked, hd, overlay, hbs]
  rw [List.take_of_length_le (by omega), List.drop_eq_nil_of_le (by omega)]
  simp

/-- C114, where it fails: writing at a given offset leaves the cursor alone (`C114_history_partial`) unless the offset is the cursor - then it moves. -/
theorem C114_write_at_moves_cursor {s : Os} {f : File} {ino : Nat} {v : View} (hb : Benign s) (h : At s f ino v) (bs : List Byte) (c : v.pos + bs.length < limit) :
    ∃ s', writeAt f bs v.pos s = ((true, some bs.length), s') ∧ At s' f ino { data := stored v.data v.pos bs, pos := v.pos + bs.length } := by
  obtain ⟨hf, hd, hp⟩ := h
  obtain ⟨g, hg, hgn⟩ := hb s.tick bs.length
  have e := writeAt_cursor hf hp rfl bs g hg
  have hf' : (s.asked.store ino v.pos bs).getFd f.fd = some ⟨ino, v.pos, true, true, false⟩ := hf
  simp only [Bool.false_eq_true, if_false, List.take_of_length_le hgn, Nat.min_eq_right hgn] at e
  exact ⟨_, e, getFd_setFd hf' _, by simp [Os.setFd, Os.store, upd, Os.asked, hd, stored_eq], c⟩

/-- C114, where it fails: a seek to before the start answers 0, as a seek to the start does, but does not move the cursor. -/
theorem C114_failed_seek {s : Os} {f : File} {ino : Nat} {v : View} (h : At s f ino v) (off : Int) (ho : off < 0) : seek f off s = (0, s) := by
  unfold seek seekBy sysSeek
  simp only [h.1]
  rw [if_pos (by simp; omega)]

/-- C114, where it fails: when the system takes only `g` of the bytes (a full disk), the write reports success, the rest is not in the file, and the cursor moves as if it were. -/
theorem C114_short_write {s : Os} {f : File} {ino : Nat} {v : View} (h : At s f ino v) (bs : List Byte) (g : Nat) (hg : s.grant s.tick bs.length = some g)
    (c : v.pos + bs.length < limit) :
    ∃ s', write f bs s = .ok (true, s') ∧ At s' f ino { data := stored v.data v.pos (bs.take g), pos := v.pos + bs.length } := by
  obtain ⟨hf, hd, hp⟩ := h
  have hf' : (s.asked.store ino v.pos (bs.take g)).getFd f.fd = some ⟨ino, v.pos, true, true, false⟩ := hf
  refine ⟨_, write_gen hf hp rfl bs g hg c, ?_, ?_, c⟩
  · exact getFd_setFd hf' _
  · simp [Os.setFd, Os.store, upd, Os.asked, hd, stored_eq]

example : ∃ s', write exFile [1#8, 2#8] { exOs with grant := fun _ _ => some 1 } = .ok (true, s') ∧
    At s' exFile 0 ⟨[0x61#8, 1#8, 0x63#8], 3⟩ :=
  C114_short_write (v := ⟨[0x61#8, 0x62#8, 0x63#8], 1⟩) ⟨rfl, rfl, by decide⟩ [1#8, 2#8] 1 rfl (by decide)

/-! ## C115: modes, descriptors, names

### Specification -/

/-- The ways to open a file. -/
inductive Access where
  | read | write | append
  deriving DecidableEq, Repr

/-- The mode word: one access bit, and 8 for reading and writing. -/
def modeBits (a : Access) (rw : Bool) : BitVec 32 :=
  (match a with | .read => 1 | .write => 2 | .append => 4) ||| (if rw then 8 else 0)

/-- What a name holds, if it is a file. -/
def contents (s : Os) (n : Name) : Option (List Byte) :=
  match s.names n with
  | some (.file i) => some (s.data i)
  | _ => none

/-- Every file there is, and every open one, has a number that is in use. -/
structure Wf (s : Os) : Prop where
  names : ∀ n i, s.names n = some (.file i) → i < s.nextIno
  fds : ∀ fd o, s.getFd fd = some o → o.ino < s.nextIno

/-- Two names for one file. -/
def SameFile (s : Os) (a b : Name) : Prop := ∃ i, s.names a = some (.file i) ∧ s.names b = some (.file i)

/-- Nothing that can be seen of files and descriptors has changed. -/
structure Unchanged (s s' : Os) : Prop where
  names : s'.names = s.names
  data : s'.data = s.data
  fds : ∀ i, s'.getFd i = s.getFd i
  live : s'.live = s.live
  grant : s'.grant = s.grant

/-! ### Lemmas -/

theorem newFd_spec (s : Os) (o : Open) :
    0 ≤ (s.newFd o).1 ∧ s.getFd (s.newFd o).1 = none ∧ (s.newFd o).2.getFd (s.newFd o).1 = some o ∧ (∀ i, i ≠ (s.newFd o).1 → (s.newFd o).2.getFd i = s.getFd i) := by
  have h0 : ∀ i : Nat, ¬ ((i : Int) < 0) := by intro i; omega
  by_cases hl : s.fds.findIdx (·.isNone) < s.fds.length
  · have hn := List.findIdx_getElem (w := hl)
    refine ⟨?_, ?_, ?_, ?_⟩
    · simp only [Os.newFd]; omega
    · simp only [Os.newFd, Os.getFd, h0, if_false, Int.toNat_natCast]
      rw [List.getElem?_eq_getElem hl]
      simpa using hn
    · simp only [Os.newFd, Os.getFd, h0, if_false, Int.toNat_natCast, if_pos hl]
      rw [List.getElem?_set_self hl]
      rfl
    · intro i hi
      simp only [Os.newFd] at hi
      simp only [Os.newFd, Os.getFd, if_pos hl]
      by_cases hc : i < 0
      · simp [hc]
      · simp only [hc, if_false]
        rw [List.getElem?_set_ne (by omega)]
  · have hle : s.fds.findIdx (·.isNone) = s.fds.length := by
      have := List.findIdx_le_length (xs := s.fds) (p := (·.isNone))
      omega
    refine ⟨?_, ?_, ?_, ?_⟩
    · simp only [Os.newFd]; omega
    · simp only [Os.newFd, Os.getFd, h0, if_false, Int.toNat_natCast, hle]
      simp
    · simp only [Os.newFd, Os.getFd, h0, if_false, Int.toNat_natCast, if_neg hl, hle]
      simp
    · intro i hi
      simp only [Os.newFd] at hi
      simp only [Os.newFd, Os.getFd, if_neg hl]
      by_cases hc : i < 0
      · simp [hc]
      · simp only [hc, if_false]
        rw [hle] at hi
        by_cases hlt : i.toNat < s.fds.length
        · rw [List.getElem?_append_left hlt]
        · rw [List.getElem?_eq_none (by simp; omega), List.getElem?_eq_none (by omega)]

theorem openFlags_bits (a : Access) (rw : Bool) (extra : BitVec 32) (hx : extra &&& 15 = 0) :
    openFlags (modeBits a rw ||| extra) =
      some ⟨decide (a = .read) || rw, decide (a ≠ .read) || rw, decide (a = .append), decide (a ≠ .read), decide (a = .write)⟩ := by
  have : (modeBits a rw ||| extra) &&& 15 = modeBits a rw := by
    have e : modeBits a rw &&& 15 = modeBits a rw := by cases a <;> cases rw <;> decide
    apply BitVec.eq_of_getLsbD_eq
    intro i hi
    have h1 := congrArg (·.getLsbD i) hx
    have h2 := congrArg (·.getLsbD i) e
    simp only [BitVec.getLsbD_and, BitVec.getLsbD_or] at h1 h2 ⊢
    rw [Bool.and_or_distrib_right, h1, h2]
    simp
  unfold openFlags
  rw [this]
  cases a <;> cases rw <;> decide

/-- The state in which `open` takes a descriptor. -/
def Os.made (s : Os) (name : Name) (trunc : Bool) : Nat × Os :=
  match s.names name with
  | some (.file i) => (i, if trunc then s.asked.put i [] else s.asked)
  | _ => (s.nextIno, { s.asked with names := upd s.names name (some (.file s.nextIno)), data := upd s.data s.nextIno [],
                                    mtime := upd s.mtime s.nextIno s.asked.tick, nextIno := s.nextIno + 1 })

theorem sysOpen_ok {s : Os} {name : Name} {fl : Flags} {g : Nat} (hg : s.grant s.tick 1 = some g) (hn : s.names name ≠ some .folder)
    (hc : s.names name = none → fl.creat = true) :
    sysOpen s name fl = .ok ((s.made name fl.trunc).2.newFd ⟨(s.made name fl.trunc).1, 0, fl.rd, fl.wr, fl.app⟩) := by
  unfold sysOpen Os.ask Os.made
  simp only [hg]
  cases e : s.names name with
  | none => simp only [hc e, if_true]; rfl
  | some x =>
    cases x with
    | folder => exact absurd e hn
    | file i => rfl

theorem made_props {s : Os} (hw : Wf s) (name : Name) (trunc : Bool) (hn : s.names name ≠ some .folder) :
    (s.made name trunc).2.names name = some (.file (s.made name trunc).1) ∧
    (s.made name trunc).2.data (s.made name trunc).1 = (if trunc then [] else (contents s name).getD []) ∧
    (∀ n, n ≠ name → (s.made name trunc).2.names n = s.names n) ∧
    (∀ i, i ≠ (s.made name trunc).1 → (s.made name trunc).2.data i = s.data i) ∧
    (∀ fd, (s.made name trunc).2.getFd fd = s.getFd fd) ∧
    (s.made name trunc).1 < (s.made name trunc).2.nextIno ∧ s.nextIno ≤ (s.made name trunc).2.nextIno ∧
    (s.made name trunc).2.live = s.live ∧ (s.made name trunc).2.grant = s.grant ∧ (s.made name trunc).2.tick = s.tick + 1 ∧
    (∀ i, s.names name = some (.file i) → (s.made name trunc).1 = i) ∧ (s.names name = none → (s.made name trunc).1 = s.nextIno) := by
  unfold Os.made contents
  cases e : s.names name with
  | none =>
    refine ⟨by simp [upd], by simp [upd], fun n hn => by simp [upd, hn], fun i hi => by simp only at hi; simp [upd, hi], fun _ => rfl, by simp, by simp, rfl, rfl, rfl,
      by simp, by simp⟩
  | some x =>
    cases x with
    | folder => exact absurd e hn
    | file i =>
      have := hw.names _ _ e
      cases trunc with
      | false => exact ⟨e, rfl, fun _ _ => rfl, fun _ _ => rfl, fun _ => rfl, this, Nat.le_refl _, rfl, rfl, rfl, fun j hj => by cases hj; rfl, by simp⟩
      | true =>
        exact ⟨e, by simp [Os.put, upd], fun _ _ => rfl, fun j hj => by simp only at hj; simp [Os.put, upd, hj, Os.asked], fun _ => rfl, this, Nat.le_refl _, rfl, rfl, rfl,
          fun j hj => by cases hj; rfl, by simp⟩

/-! ### Theorems -/

/-- C115.  For every system, name and mode (the bits above the four that make up a mode are ignored), when the system lets the file be opened and the file exists or the mode is
one that creates it: the file is empty afterwards if the mode is *write*, and has the contents it had otherwise (empty if it is new); the files that are not this one are as they
were; the descriptor is one that was not in use, is at position 0, and can be read from and written to as the mode says; the other descriptors are as they were; and the file
knows its name. -/
theorem C115_open {s : Os} (hw : Wf s) (a : Access) (rw : Bool) (extra : BitVec 32) (hx : extra &&& 15 = 0) (name : Name) (g : Nat) (hg : s.grant s.tick 1 = some g)
    (hn : s.names name ≠ some .folder) (hc : a = .read → s.names name ≠ none) :
    ∃ f s' ino, openMode (modeBits a rw ||| extra) name s = .ok ((.none, f), s') ∧
      contents s' name = some (if a = .write then [] else (contents s name).getD []) ∧
      (∀ n, n ≠ name → ¬ SameFile s n name → contents s' n = contents s n) ∧ (∀ n, n ≠ name → s'.names n = s.names n) ∧
      s'.names name = some (.file ino) ∧ s'.getFd f.fd = some ⟨ino, 0, decide (a = .read) || rw, decide (a ≠ .read) || rw, decide (a = .append)⟩ ∧
      s.getFd f.fd = none ∧ (∀ i, i ≠ f.fd → s'.getFd i = s.getFd i) ∧ fileName f = name ∧ f.isTemp = false ∧ f.nameFreed = false ∧ f.name = some name ∧ 0 ≤ f.fd ∧
      Wf s' ∧ s'.live = s.live + 1 ∧ s'.grant = s.grant ∧ s'.tick = s.tick + 1 ∧ (∀ i, s.names name = some (.file i) → ino = i) ∧
      (∀ n, n ≠ name → ¬ SameFile s n name → s.names n ≠ some (.file ino)) := by
  obtain ⟨m1, m2, m3, m4, m5, m6, m7, m8, m9, m10, m11, m12⟩ := made_props hw name (decide (a = .write)) hn
  generalize hm : s.made name (decide (a = .write)) = m at *
  obtain ⟨ino, t⟩ := m
  simp only at m1 m2 m3 m4 m5 m6 m7 m8 m9 m10 m11 m12
  have ho : sysOpen s name ⟨decide (a = .read) || rw, decide (a ≠ .read) || rw, decide (a = .append), decide (a ≠ .read), decide (a = .write)⟩ =
      .ok (t.newFd ⟨ino, 0, decide (a = .read) || rw, decide (a ≠ .read) || rw, decide (a = .append)⟩) := by
    rw [sysOpen_ok hg hn (fun e => by simp only [decide_eq_true_eq]; exact fun h => hc h e)]
    simp only [hm]
  obtain ⟨n1, n2, n3, n4⟩ := newFd_spec t ⟨ino, 0, decide (a = .read) || rw, decide (a ≠ .read) || rw, decide (a = .append)⟩
  have hfr : (t.newFd ⟨ino, 0, decide (a = .read) || rw, decide (a ≠ .read) || rw, decide (a = .append)⟩).2.names = t.names ∧
      (t.newFd ⟨ino, 0, decide (a = .read) || rw, decide (a ≠ .read) || rw, decide (a = .append)⟩).2.data = t.data ∧
      (t.newFd ⟨ino, 0, decide (a = .read) || rw, decide (a ≠ .read) || rw, decide (a = .append)⟩).2.nextIno = t.nextIno ∧
      (t.newFd ⟨ino, 0, decide (a = .read) || rw, decide (a ≠ .read) || rw, decide (a = .append)⟩).2.live = t.live ∧
      (t.newFd ⟨ino, 0, decide (a = .read) || rw, decide (a ≠ .read) || rw, decide (a = .append)⟩).2.grant = t.grant ∧
      (t.newFd ⟨ino, 0, decide (a = .read) || rw, decide (a ≠ .read) || rw, decide (a = .append)⟩).2.tick = t.tick := ⟨rfl, rfl, rfl, rfl, rfl, rfl⟩
  generalize t.newFd ⟨ino, 0, decide (a = .read) || rw, decide (a ≠ .read) || rw, decide (a = .append)⟩ = r at *
  obtain ⟨fd, u⟩ := r
  simp only at n1 n2 n3 n4 hfr
  obtain ⟨u1, u2, u3, u4, u5, u6⟩ := hfr
  refine ⟨⟨fd, false, some name, false, 0⟩, { u with live := u.live + 1 }, ino, ?_, ?_, ?_, ?_, ?_, n3, ?_, ?_, rfl, rfl, rfl, rfl, n1, ?_, ?_, ?_, ?_, m11, ?_⟩
  · unfold openMode
    rw [openFlags_bits a rw extra hx]
    simp only [ho, ok_bind]
    rw [if_neg (by omega)]
  · simp only [contents, u1, m1, u2, m2]
    simp [contents]
  · intro n h1 h2
    simp only [contents, u1, m3 n h1, u2]
    cases e : s.names n with
    | none => rfl
    | some x =>
      cases x with
      | folder => rfl
      | file j =>
        simp only
        rw [m4 j]
        rintro rfl
        cases e2 : s.names name with
        | none => have := hw.names _ _ e; have := m12 e2; omega
        | some y =>
          cases y with
          | folder => exact hn e2
          | file k => have := m11 k e2; subst this; exact h2 ⟨j, e, e2⟩
  · intro n h1; simp only [u1, m3 n h1]
  · simp only [u1, m1]
  · exact (m5 fd) ▸ n2
  · intro i hi; exact (n4 i hi).trans (m5 i)
  · constructor
    · intro n i hi
      simp only [u1, u3] at hi ⊢
      by_cases hnn : n = name
      · subst hnn; rw [m1] at hi; cases hi; exact m6
      · rw [m3 n hnn] at hi; have := hw.names _ _ hi; omega
    · intro i o hi
      simp only [u3]
      have hi' : u.getFd i = some o := hi
      by_cases hii : i = fd
      · subst hii; rw [n3] at hi'; cases hi'; exact m6
      · rw [n4 i hii, m5] at hi'; have := hw.fds _ _ hi'; omega
  · simp only [u4, m8]
  · simp only [u5, m9]
  · simp only [u6, m10]
  · intro n h1 h2 e
    cases e2 : s.names name with
    | none => have := hw.names _ _ e; have := m12 e2; omega
    | some y =>
      cases y with
      | folder => exact hn e2
      | file k => have := m11 k e2; subst this; exact h2 ⟨ino, e, e2⟩

/-- C115.  A mode that is none of the six is refused with a panic, and no other one is. -/
theorem C115_bad_mode (mode : BitVec 32) : openFlags mode = none ↔ ∀ a rw, mode &&& 15 ≠ modeBits a rw := by
  unfold openFlags
  generalize mode &&& 15 = m
  constructor
  · intro h a rw e
    subst e
    cases a <;> cases rw <;> simp [modeBits, modeRead, modeWrite, modeAppend, modeRw] at h
  · intro h
    have h1 : m ≠ modeRead := h .read false
    have h2 : m ≠ modeWrite := h .write false
    have h3 : m ≠ modeAppend := h .append false
    have h4 : m ≠ modeRead ||| modeRw := h .read true
    have h5 : m ≠ modeWrite ||| modeRw := h .write true
    have h6 : m ≠ modeAppend ||| modeRw := h .append true
    dsimp only
    rw [if_neg h1, if_neg h2, if_neg h3, if_neg h4, if_neg h5, if_neg h6]

/-- C115.  When the file cannot be opened - it does not exist and the mode is *read*, it is a folder and the mode writes, or the system refuses - the call says so and nothing has changed. -/
theorem C115_open_fails {s : Os} (a : Access) (rw : Bool) (extra : BitVec 32) (hx : extra &&& 15 = 0) (name : Name)
    (h : (s.names name = none ∧ a = .read) ∨ (s.names name = some .folder ∧ (a ≠ .read ∨ rw = true)) ∨ s.grant s.tick 1 = none) :
    ∃ f s', openMode (modeBits a rw ||| extra) name s = .ok ((.invalid, f), s') ∧ f.fd < 0 ∧ f.name = none ∧ Unchanged s s' := by
  have ho : sysOpen s name ⟨decide (a = .read) || rw, decide (a ≠ .read) || rw, decide (a = .append), decide (a ≠ .read), decide (a = .write)⟩ = .ok (-1, s.asked) := by
    unfold sysOpen Os.ask
    cases hg : s.grant s.tick 1 with
    | none => rfl
    | some g =>
      rcases h with ⟨h1, h2⟩ | ⟨h1, h2⟩ | h1
      · simp only [h1, h2]; rfl
      · simp only [h1]
        rw [if_pos]
        · rfl
        · rcases h2 with h2 | h2 <;> simp [h2]
      · rw [hg] at h1; cases h1
  refine ⟨{ File.zero with fd := -1 }, s.asked, ?_, by decide, rfl, ⟨rfl, rfl, fun _ => rfl, rfl, rfl⟩⟩
  unfold openMode
  rw [openFlags_bits a rw extra hx]
  simp only [ho, ok_bind]
  rfl

/-- What no call on an open file changes, whatever the system does: the names, the other descriptors, the files other than the one that is open, and that it is open. -/
structure Quiet (fd : Int) (s s' : Os) : Prop where
  names : s'.names = s.names
  live : s'.live = s.live
  grant : s'.grant = s.grant
  others : ∀ i, i ≠ fd → s'.getFd i = s.getFd i
  self : (s'.getFd fd).map Open.ino = (s.getFd fd).map Open.ino
  files : ∀ i, (s.getFd fd).map Open.ino ≠ some i → s'.data i = s.data i

theorem Quiet.refl (fd : Int) (s : Os) : Quiet fd s s := ⟨rfl, rfl, rfl, fun _ _ => rfl, rfl, fun _ _ => rfl⟩

theorem Quiet.trans {fd : Int} {a b c : Os} (h : Quiet fd a b) (k : Quiet fd b c) : Quiet fd a c :=
  ⟨k.names.trans h.names, k.live.trans h.live, k.grant.trans h.grant, fun i hi => (k.others i hi).trans (h.others i hi), k.self.trans h.self,
    fun i hi => (k.files i (h.self ▸ hi)).trans (h.files i hi)⟩

theorem quiet_setFd {s : Os} {fd : Int} {o : Open} (h : s.getFd fd = some o) (p : Nat) : Quiet fd s (s.setFd fd (some { o with pos := p })) :=
  ⟨rfl, rfl, rfl, fun _ hi => getFd_setFd_other h _ hi, by rw [getFd_setFd h, h]; rfl, fun _ _ => rfl⟩

theorem quiet_asked (fd : Int) (s : Os) : Quiet fd s s.asked := ⟨rfl, rfl, rfl, fun _ _ => rfl, rfl, fun _ _ => rfl⟩

theorem quiet_store {s : Os} {fd : Int} {o : Open} (h : s.getFd fd = some o) (off : Nat) (bs : List Byte) : Quiet fd s (s.store o.ino off bs) :=
  ⟨rfl, rfl, rfl, fun _ _ => rfl, rfl, fun i hi => by
    have : i ≠ o.ino := by rintro rfl; simp [h] at hi
    simp [Os.store, upd, this]⟩

theorem quiet_put {s : Os} {fd : Int} {o : Open} (h : s.getFd fd = some o) (d : List Byte) : Quiet fd s (s.put o.ino d) :=
  ⟨rfl, rfl, rfl, fun _ _ => rfl, rfl, fun i hi => by
    have : i ≠ o.ino := by rintro rfl; simp [h] at hi
    simp [Os.put, upd, this]⟩

theorem quiet_seekBy (s : Os) (fd : Int) (off : Int) (w : Whence) : Quiet fd s (seekBy s fd off w).2 := by
  unfold seekBy sysSeek
  cases h : s.getFd fd with
  | none => exact Quiet.refl _ _
  | some o =>
    dsimp only
    by_cases c : (match w with | .begin => 0 | .current => (o.pos : Int) | .fromEnd => ((s.data o.ino).length : Int)) + off < 0 ∨
        (limit : Int) ≤ (match w with | .begin => 0 | .current => (o.pos : Int) | .fromEnd => ((s.data o.ino).length : Int)) + off
    · rw [if_pos c]; exact Quiet.refl _ _
    · rw [if_neg c]; exact quiet_setFd h _

theorem quiet_pread (s : Os) (fd : Int) (n : Nat) (off : Int) : Quiet fd s (sysPread s fd n off).2 := by
  unfold sysPread
  cases h : s.getFd fd with
  | none => exact Quiet.refl _ _
  | some o =>
    dsimp only [Os.ask]
    split
    · exact Quiet.refl _ _
    · cases s.grant s.tick n <;> exact quiet_asked _ _

theorem quiet_write (s : Os) (fd : Int) (bs : List Byte) : Quiet fd s (sysWrite s fd bs).2 := by
  unfold sysWrite
  cases h : s.getFd fd with
  | none => exact Quiet.refl _ _
  | some o =>
    dsimp only [Os.ask]
    split
    · exact Quiet.refl _ _
    · cases s.grant s.tick bs.length with
      | none => exact quiet_asked _ _
      | some g =>
        dsimp only
        have h1 : s.asked.getFd fd = some o := h
        have h2 : (s.asked.store o.ino (if o.app = true then (s.data o.ino).length else o.pos) (bs.take g)).getFd fd = some o := h
        exact (quiet_asked fd s).trans ((quiet_store h1 _ _).trans (quiet_setFd h2 _))

theorem quiet_pwrite (s : Os) (fd : Int) (bs : List Byte) (off : Int) : Quiet fd s (sysPwrite s fd bs off).2 := by
  unfold sysPwrite
  cases h : s.getFd fd with
  | none => exact Quiet.refl _ _
  | some o =>
    dsimp only [Os.ask]
    split
    · exact Quiet.refl _ _
    · cases s.grant s.tick bs.length with
      | none => exact quiet_asked _ _
      | some g =>
        dsimp only
        have h1 : s.asked.getFd fd = some o := h
        exact (quiet_asked fd s).trans (quiet_store h1 _ _)

theorem quiet_truncate (s : Os) (fd : Int) (n : Int) : Quiet fd s (sysTruncate s fd n).2 := by
  unfold sysTruncate
  cases h : s.getFd fd with
  | none => exact Quiet.refl _ _
  | some o =>
    dsimp only [Os.ask]
    split
    · exact Quiet.refl _ _
    · cases s.grant s.tick 1 with
      | none => exact quiet_asked _ _
      | some g =>
        have h1 : s.asked.getFd fd = some o := h
        exact (quiet_asked fd s).trans (quiet_put h1 _)

theorem quiet_writeAt (f : File) (bs : List Byte) (off : Int) (s : Os) : Quiet f.fd s (writeAt f bs off s).2 := by
  unfold writeAt
  have h := quiet_seekBy s f.fd 0 .current
  generalize seekBy s f.fd 0 .current = r at *
  obtain ⟨cur, t⟩ := r
  dsimp only at h ⊢
  have h2 : Quiet f.fd s (if cur = off then sysWrite t f.fd bs else sysPwrite t f.fd bs off).2 := by
    split
    · exact h.trans (quiet_write _ _ _)
    · exact h.trans (quiet_pwrite _ _ _ _)
  generalize (if cur = off then sysWrite t f.fd bs else sysPwrite t f.fd bs off) = r at *
  obtain ⟨x, u⟩ := r
  cases x <;> exact h2

theorem quiet_readAt {f : File} {buf : List (Option Byte)} {n : Nat} {off : Int} {s s' : Os} {r : Bool × Option Nat × List (Option Byte)}
    (h : readAt f buf n off s = .ok (r, s')) : Quiet f.fd s s' := by
  unfold readAt at h
  have q := quiet_pread s f.fd n off
  generalize sysPread s f.fd n off = x at *
  obtain ⟨y, t⟩ := x
  cases y with
  | none => simp only [Except.ok.injEq, Prod.mk.injEq] at h; obtain ⟨-, rfl⟩ := h; exact q
  | some bs =>
    dsimp only at h
    cases e : fill buf bs with
    | error e' => simp [e] at h
    | ok b => simp only [e, ok_bind, Except.ok.injEq, Prod.mk.injEq] at h; obtain ⟨-, rfl⟩ := h; exact q

theorem quiet_size (f : File) (s : Os) : Quiet f.fd s (size f s).2 :=
  (quiet_seekBy s f.fd 0 .current).trans ((quiet_seekBy _ f.fd 0 .fromEnd).trans ((quiet_seekBy _ f.fd 0 .current).trans (quiet_seekBy _ f.fd _ .begin)))

theorem quiet_read {f : File} {buf : List (Option Byte)} {n : Nat} {s s' : Os} {r : Bool × List (Option Byte)} (h : read f buf n s = .ok (r, s')) : Quiet f.fd s s' := by
  unfold read at h
  dsimp only at h
  cases e : readAt f buf n (tell f (tell f s).2).1 (tell f (tell f s).2).2 with
  | error e' => simp [e] at h
  | ok x =>
    obtain ⟨⟨ok, k, b⟩, t⟩ := x
    simp only [e, ok_bind] at h
    cases e2 : addOff (tell f s).1 n with
    | error e' => simp [e2] at h
    | ok y =>
      simp only [e2, ok_bind, Except.ok.injEq, Prod.mk.injEq] at h
      obtain ⟨-, rfl⟩ := h
      exact (quiet_seekBy s f.fd 0 .current).trans ((quiet_seekBy _ f.fd 0 .current).trans ((quiet_readAt e).trans (quiet_seekBy _ f.fd _ .begin)))

theorem quiet_fileWrite {f : File} {bs : List Byte} {s s' : Os} {r : Bool} (h : write f bs s = .ok (r, s')) : Quiet f.fd s s' := by
  unfold write at h
  dsimp only at h
  cases e2 : addOff (tell f s).1 bs.length with
  | error e' => simp [e2] at h
  | ok y =>
    simp only [e2, ok_bind, Except.ok.injEq, Prod.mk.injEq] at h
    obtain ⟨-, rfl⟩ := h
    exact (quiet_seekBy s f.fd 0 .current).trans ((quiet_seekBy _ f.fd 0 .current).trans ((quiet_writeAt f bs _ _).trans (quiet_seekBy _ f.fd _ .begin)))

theorem quiet_perform {f : File} {s s' : Os} {op : Op} {a : Answer} (h : perform f s op = .ok (a, s')) : Quiet f.fd s s' := by
  cases op with
  | seek off => simp only [perform, Except.ok.injEq, Prod.mk.injEq] at h; obtain ⟨-, rfl⟩ := h; exact quiet_seekBy _ _ _ _
  | seekToEnd => simp only [perform, Except.ok.injEq, Prod.mk.injEq] at h; obtain ⟨-, rfl⟩ := h; exact quiet_seekBy _ _ _ _
  | skip n => simp only [perform, Except.ok.injEq, Prod.mk.injEq] at h; obtain ⟨-, rfl⟩ := h; exact quiet_seekBy _ _ _ _
  | tell => simp only [perform, Except.ok.injEq, Prod.mk.injEq] at h; obtain ⟨-, rfl⟩ := h; exact quiet_seekBy _ _ _ _
  | size => simp only [perform, Except.ok.injEq, Prod.mk.injEq] at h; obtain ⟨-, rfl⟩ := h; exact quiet_size _ _
  | read n =>
    simp only [perform] at h
    cases e : read f (List.replicate n none) n s with
    | error e' => simp [e] at h
    | ok x =>
      obtain ⟨⟨ok, b⟩, t⟩ := x
      simp only [e, ok_bind, Except.ok.injEq, Prod.mk.injEq] at h
      obtain ⟨-, rfl⟩ := h
      exact quiet_read e
  | readAt n off =>
    simp only [perform] at h
    cases e : readAt f (List.replicate n none) n off s with
    | error e' => simp [e] at h
    | ok x =>
      obtain ⟨⟨ok, k, b⟩, t⟩ := x
      simp only [e, ok_bind, Except.ok.injEq, Prod.mk.injEq] at h
      obtain ⟨-, rfl⟩ := h
      exact quiet_readAt e
  | write bs =>
    simp only [perform] at h
    cases e : write f bs s with
    | error e' => simp [e] at h
    | ok x =>
      obtain ⟨ok, t⟩ := x
      simp only [e, ok_bind, Except.ok.injEq, Prod.mk.injEq] at h
      obtain ⟨-, rfl⟩ := h
      exact quiet_fileWrite e
  | writeAt bs off => simp only [perform, Except.ok.injEq, Prod.mk.injEq] at h; obtain ⟨-, rfl⟩ := h; exact quiet_writeAt _ _ _ _
  | truncate n =>
    simp only [perform, Except.ok.injEq, Prod.mk.injEq] at h
    obtain ⟨-, rfl⟩ := h
    unfold truncate
    have q := quiet_truncate s f.fd n
    generalize sysTruncate s f.fd n = r at *
    obtain ⟨b, t⟩ := r
    cases b <;> exact q

/-- C114.  Whatever the system does (short transfers, errors), whatever the mode of the file, and whatever is asked: names, other descriptors and other files stay as they are, and
the descriptor stays open on its file. -/
theorem C114_nothing_else {f : File} (ops : List Op) {s s' : Os} {as : List Answer} (h : performAll f s ops = .ok (as, s')) : Quiet f.fd s s' := by
  induction ops generalizing s as with
  | nil => simp only [performAll, Except.ok.injEq, Prod.mk.injEq] at h; obtain ⟨-, rfl⟩ := h; exact Quiet.refl _ _
  | cons op ops ih =>
    simp only [performAll] at h
    cases e : perform f s op with
    | error e' => simp [e] at h
    | ok x =>
      obtain ⟨a, t⟩ := x
      simp only [e, ok_bind] at h
      cases e2 : performAll f t ops with
      | error e' => simp [e2] at h
      | ok y =>
        obtain ⟨as2, u⟩ := y
        simp only [e2, ok_bind, Except.ok.injEq, Prod.mk.injEq] at h
        obtain ⟨-, rfl⟩ := h
        exact (quiet_perform e).trans (ih e2)

theorem openMode_cases {mode : BitVec 32} {name : Name} {s s' : Os} {e : Err} {f : File} (h : openMode mode name s = .ok ((e, f), s')) :
    (e = .none ∧ 0 ≤ f.fd ∧ f.name = some name ∧ f.nameFreed = false ∧ s.getFd f.fd = none ∧ (s'.getFd f.fd).isSome = true ∧ (∀ i, i ≠ f.fd → s'.getFd i = s.getFd i) ∧
      s'.live = s.live + 1) ∨
    (e = .invalid ∧ f.fd = -1 ∧ f.name = none ∧ (∀ i, s'.getFd i = s.getFd i) ∧ s'.live = s.live) := by
  unfold openMode at h
  cases ef : openFlags mode with
  | none => simp [ef] at h
  | some fl =>
    simp only [ef] at h
    have key : ∀ fd t, sysOpen s name fl = .ok (fd, t) → (fd = -1 ∧ (∀ i, t.getFd i = s.getFd i) ∧ t.live = s.live) ∨
        (0 ≤ fd ∧ s.getFd fd = none ∧ (t.getFd fd).isSome = true ∧ (∀ i, i ≠ fd → t.getFd i = s.getFd i) ∧ t.live = s.live) := by
      intro fd t ho
      unfold sysOpen Os.ask at ho
      cases hg : s.grant s.tick 1 with
      | none =>
        simp only [hg, Except.ok.injEq, Prod.mk.injEq] at ho
        obtain ⟨rfl, rfl⟩ := ho
        exact .inl ⟨rfl, fun _ => rfl, rfl⟩
      | some g =>
        simp only [hg] at ho
        cases hn : s.names name with
        | none =>
          simp only [hn] at ho
          cases hc : fl.creat with
          | false =>
            simp only [hc, Bool.false_eq_true, if_false, Except.ok.injEq, Prod.mk.injEq] at ho
            obtain ⟨rfl, rfl⟩ := ho
            exact .inl ⟨rfl, fun _ => rfl, rfl⟩
          | true =>
            simp only [hc, if_true, Except.ok.injEq] at ho
            have n := newFd_spec { s.asked with names := upd s.names name (some (.file s.nextIno)), data := upd s.data s.nextIno [], mtime := upd s.mtime s.nextIno s.asked.tick, nextIno := s.nextIno + 1 } ⟨s.nextIno, 0, fl.rd, fl.wr, fl.app⟩
            have e2 : Os.newFd { s.asked with names := upd s.names name (some (.file s.nextIno)), data := upd s.data s.nextIno [], mtime := upd s.mtime s.nextIno s.asked.tick, nextIno := s.nextIno + 1 } ⟨s.nextIno, 0, fl.rd, fl.wr, fl.app⟩ = (fd, t) := ho
            have hl : (Os.newFd { s.asked with names := upd s.names name (some (.file s.nextIno)), data := upd s.data s.nextIno [], mtime := upd s.mtime s.nextIno s.asked.tick, nextIno := s.nextIno + 1 } ⟨s.nextIno, 0, fl.rd, fl.wr, fl.app⟩).2.live = s.live := rfl
            rw [e2] at n hl
            exact .inr ⟨n.1, n.2.1, by rw [n.2.2.1]; rfl, n.2.2.2, hl⟩
        | some x =>
          cases x with
          | folder =>
            simp only [hn] at ho
            cases hc : fl.wr with
            | false => simp [hc] at ho
            | true =>
              simp only [hc, if_true, Except.ok.injEq, Prod.mk.injEq] at ho
              obtain ⟨rfl, rfl⟩ := ho
              exact .inl ⟨rfl, fun _ => rfl, rfl⟩
          | file i =>
            simp only [hn, Except.ok.injEq] at ho
            cases hc : fl.trunc with
            | false =>
              have n := newFd_spec s.asked ⟨i, 0, fl.rd, fl.wr, fl.app⟩
              have e2 : Os.newFd s.asked ⟨i, 0, fl.rd, fl.wr, fl.app⟩ = (fd, t) := by rw [← ho]; simp only [hc, Bool.false_eq_true, if_false]; rfl
              have hl : (Os.newFd s.asked ⟨i, 0, fl.rd, fl.wr, fl.app⟩).2.live = s.live := rfl
              rw [e2] at n hl
              exact .inr ⟨n.1, n.2.1, by rw [n.2.2.1]; rfl, n.2.2.2, hl⟩
            | true =>
              have n := newFd_spec (s.asked.put i []) ⟨i, 0, fl.rd, fl.wr, fl.app⟩
              have e2 : Os.newFd (s.asked.put i []) ⟨i, 0, fl.rd, fl.wr, fl.app⟩ = (fd, t) := by rw [← ho]; simp only [hc, if_true]; rfl
              have hl : (Os.newFd (s.asked.put i []) ⟨i, 0, fl.rd, fl.wr, fl.app⟩).2.live = s.live := rfl
              rw [e2] at n hl
              exact .inr ⟨n.1, n.2.1, by rw [n.2.2.1]; rfl, n.2.2.2, hl⟩
    cases ho : sysOpen s name fl with
    | error e' => simp [ho] at h
    | ok r =>
      obtain ⟨fd, t⟩ := r
      simp only [ho, ok_bind] at h
      rcases key fd t ho with ⟨rfl, k1, k2⟩ | ⟨k0, k1, k2, k3, k4⟩
      · rw [if_pos (by decide)] at h
        simp only [Except.ok.injEq, Prod.mk.injEq] at h
        obtain ⟨⟨rfl, rfl⟩, rfl⟩ := h
        exact .inr ⟨rfl, rfl, rfl, k1, k2⟩
      · rw [if_neg (by omega)] at h
        simp only [Except.ok.injEq, Prod.mk.injEq] at h
        obtain ⟨⟨rfl, rfl⟩, rfl⟩ := h
        exact .inl ⟨rfl, k0, rfl, rfl, k1, k2, k3, by simp only [k4]⟩

theorem close_named {f : File} {nm : Name} (hn : f.name = some nm) (hf : f.nameFreed = false) (h0 : 0 ≤ f.fd) (s : Os) :
    close f s = .ok ((.none, { f with nameFreed := true }), sysClose { s with live := s.live - 1 } f.fd) := by
  unfold close
  simp only [hn, hf, Bool.false_eq_true, if_false, ok_bind]
  rw [if_neg (by omega)]

theorem close_failed {f : File} (hn : f.name = none) (h0 : f.fd < 0) (s : Os) : close f s = .ok ((.invalid, f), s) := by
  unfold close
  simp only [hn, ok_bind]
  rw [if_pos h0]

theorem sysClose_eq {fd : Int} (h : 0 ≤ fd) (s : Os) : sysClose s fd = s.setFd fd none := by
  unfold sysClose Os.setFd
  rw [if_neg (by omega)]

theorem closed_table {s t : Os} {fd : Int} (h0 : 0 ≤ fd) (h1 : s.getFd fd = none) (h2 : (t.getFd fd).isSome = true) (h3 : ∀ i, i ≠ fd → t.getFd i = s.getFd i) (l : Nat) :
    ∀ i, (sysClose { t with live := l } fd).getFd i = s.getFd i := by
  intro i
  obtain ⟨o, ho⟩ := Option.isSome_iff_exists.1 h2
  have ho' : Os.getFd { t with live := l } fd = some o := ho
  by_cases hi : i = fd
  · subst hi; rw [sysClose_eq h0, getFd_setFd ho', h1]
  · rw [sysClose_eq h0, getFd_setFd_other ho' _ hi]; exact h3 i hi

/-- C115.  Opening a file in any mode, on any system, using it in any way, and closing it leaves the descriptors and the memory held for names as they were; closing reports an error
exactly if opening did. -/
theorem C115_close {mode : BitVec 32} {name : Name} {s s1 s2 : Os} {e : Err} {f : File} (h : openMode mode name s = .ok ((e, f), s1)) {ops : List Op} {as : List Answer}
    (hp : performAll f s1 ops = .ok (as, s2)) :
    ∃ f' s3, close f s2 = .ok ((e, f'), s3) ∧ (∀ i, s3.getFd i = s.getFd i) ∧ s3.live = s.live := by
  have q := C114_nothing_else ops hp
  rcases openMode_cases h with ⟨rfl, h0, hn, hf, h1, h2, h3, h4⟩ | ⟨rfl, h0, hn, h1, h2⟩
  · refine ⟨_, _, close_named hn hf h0 s2, closed_table h0 h1 ?_ (fun i hi => (q.others i hi).trans (h3 i hi)) _, ?_⟩
    · have := congrArg Option.isSome q.self
      simpa [h2] using this
    · show s2.live - 1 = s.live
      rw [q.live, h4]; omega
  · refine ⟨_, _, close_failed hn (by omega) s2, ?_, q.live.trans h2⟩
    intro i
    by_cases hi : i = f.fd
    · subst hi
      have hs : ∀ t : Os, t.getFd f.fd = none := by intro t; unfold Os.getFd; rw [if_pos (by omega)]
      rw [hs, hs]
    · exact (q.others i hi).trans (h1 i)

/-- C115, where it fails: the name stays in the file when it is closed, so that closing a file a second time frees it a second time. -/
theorem C115_close_twice {mode : BitVec 32} {name : Name} {s s1 s2 s3 : Os} {f f' : File} {e' : Err} (h : openMode mode name s = .ok ((.none, f), s1))
    (hc : close f s2 = .ok ((e', f'), s3)) (s4 : Os) : close f' s4 = .error .ub := by
  rcases openMode_cases h with ⟨-, h0, hn, hf, -⟩ | ⟨h, -⟩
  · rw [close_named hn hf h0 s2] at hc
    simp only [Except.ok.injEq, Prod.mk.injEq] at hc
    obtain ⟨⟨-, rfl⟩, -⟩ := hc
    unfold close
    simp [hn]
  · cases h

/-- A file that is created, written to, read back and closed: the hypotheses of `C115_open` and `C115_close` are met. -/
theorem exOs_wf : Wf exOs := by
  constructor
  · intro n i h
    have : (if n = [0x66#8] then some (Ent.file 0) else if n = [0x64#8] then some .folder else none) = some (.file i) := h
    split at this
    · cases this; decide
    · split at this <;> cases this
  · intro fd o h
    obtain ⟨h0, h1⟩ := getFd_some h
    have : ([none, none, none, some ⟨0, 1, true, true, false⟩] : List (Option Open))[fd.toNat]? = some (some o) := h1
    match hk : fd.toNat with
    | 0 | 1 | 2 => rw [hk] at this; simp at this
    | 3 => rw [hk] at this; simp at this; subst this; decide
    | k + 4 => rw [hk] at this; simp at this

example : ∃ f s' ino, openMode (modeBits .write true ||| 0x10) [0x6e#8] exOs = .ok ((.none, f), s') ∧ contents s' [0x6e#8] = some [] ∧ s'.names [0x6e#8] = some (.file ino) ∧
    s'.getFd f.fd = some ⟨ino, 0, true, true, false⟩ := by
  obtain ⟨f, s', ino, h1, h2, -, -, h3, h4, -⟩ := C115_open exOs_wf .write true 0x10 (by decide) [0x6e#8] 1 rfl (by decide) nofun
  exact ⟨f, s', ino, h1, by simpa using h2, h3, by simpa using h4⟩

/-! ### Appending -/

/-- Calls that are not writes at a given offset, reads, or truncations. -/
def Op.moves : Op → Bool
  | .seek _ | .seekToEnd | .skip _ | .tell | .size | .write _ => true
  | _ => false

/-- What a history writes. -/
def written : List Op → List Byte
  | [] => []
  | .write bs :: ops => bs ++ written ops
  | _ :: ops => written ops

theorem seekBy_keeps {s : Os} {fd : Int} {o : Open} (h : s.getFd fd = some o) (off : Int) (w : Whence) :
    ∃ p, (seekBy s fd off w).2.getFd fd = some { o with pos := p } ∧ (seekBy s fd off w).2.data = s.data ∧ (seekBy s fd off w).2.grant = s.grant := by
  unfold seekBy sysSeek
  simp only [h]
  by_cases c : (match w with | .begin => 0 | .current => (o.pos : Int) | .fromEnd => ((s.data o.ino).length : Int)) + off < 0 ∨
      (limit : Int) ≤ (match w with | .begin => 0 | .current => (o.pos : Int) | .fromEnd => ((s.data o.ino).length : Int)) + off
  · rw [if_pos c]; exact ⟨o.pos, h, rfl, rfl⟩
  · rw [if_neg c]; exact ⟨_, getFd_setFd h _, rfl, rfl⟩

theorem tell_same {s : Os} {f : File} {o : Open} (h : s.getFd f.fd = some o) : (tell f s).2 = s := by
  unfold tell seekBy sysSeek
  simp only [h, Int.add_zero]
  by_cases c : (o.pos : Int) < 0 ∨ (limit : Int) ≤ o.pos
  · rw [if_pos c]
  · rw [if_neg c]; simp only [Int.toNat_natCast]; exact setFd_self h

theorem append_perform {s s' : Os} {f : File} {ino p : Nat} {r : Bool} {op : Op} {a : Answer} (hb : Benign s) (h : s.getFd f.fd = some ⟨ino, p, r, true, true⟩)
    (hm : op.moves = true) (hp : perform f s op = .ok (a, s')) :
    ∃ p', s'.getFd f.fd = some ⟨ino, p', r, true, true⟩ ∧ s'.data ino = s.data ino ++ written [op] ∧ Benign s' := by
  have hbn := (quiet_perform hp).grant
  have hb' : Benign s' := by intro t n; rw [hbn]; exact hb t n
  have seeks : ∀ off w, s' = (seekBy s f.fd off w).2 → ∃ p', s'.getFd f.fd = some ⟨ino, p', r, true, true⟩ ∧ s'.data ino = s.data ino ++ [] ∧ Benign s' := by
    intro off w e
    obtain ⟨q, q1, q2, -⟩ := seekBy_keeps h off w
    rw [← e] at q1 q2
    exact ⟨q, q1, by rw [q2]; simp, hb'⟩
  cases op with
  | seek off => simp only [perform, Except.ok.injEq, Prod.mk.injEq] at hp; exact seeks _ _ hp.2.symm
  | seekToEnd => simp only [perform, Except.ok.injEq, Prod.mk.injEq] at hp; exact seeks _ _ hp.2.symm
  | skip n => simp only [perform, Except.ok.injEq, Prod.mk.injEq] at hp; exact seeks _ _ hp.2.symm
  | tell => simp only [perform, Except.ok.injEq, Prod.mk.injEq] at hp; exact seeks _ _ hp.2.symm
  | size =>
    simp only [perform, Except.ok.injEq, Prod.mk.injEq] at hp
    obtain ⟨-, rfl⟩ := hp
    unfold size
    dsimp only [seekToEnd, seek]
    rw [tell_same h]
    obtain ⟨p1, a1, b1, -⟩ := seekBy_keeps h 0 .fromEnd
    have t1 : (tell f (seekBy s f.fd 0 .fromEnd).2).2 = (seekBy s f.fd 0 .fromEnd).2 := tell_same a1
    rw [t1]
    obtain ⟨p2, a2, b2, -⟩ := seekBy_keeps a1 (tell f s).1 .begin
    exact ⟨p2, a2, by rw [b2, b1]; simp [written], by
      intro t n
      have := (quiet_size f s).grant
      unfold size at this
      dsimp only [seekToEnd, seek] at this
      rw [tell_same h, t1] at this
      rw [this]; exact hb t n⟩
  | write bs =>
    simp only [perform] at hp
    cases e : write f bs s with
    | error e' => simp [e] at hp
    | ok x =>
      obtain ⟨ok, t⟩ := x
      simp only [e, ok_bind, Except.ok.injEq, Prod.mk.injEq] at hp
      obtain ⟨-, rfl⟩ := hp
      unfold write at e
      dsimp only at e
      rw [tell_same h] at e
      rw [tell_same h] at e
      cases e2 : addOff (tell f s).1 bs.length with
      | error e' => simp [e2] at e
      | ok y =>
        simp only [e2, ok_bind, Except.ok.injEq, Prod.mk.injEq] at e
        obtain ⟨-, rfl⟩ := e
        obtain ⟨g, hg, hgn⟩ := hb s.tick bs.length
        have ew : (writeAt f bs (tell f s).1 s).2 = (s.asked.store ino (s.data ino).length bs).setFd f.fd (some ⟨ino, (s.data ino).length + bs.length, r, true, true⟩) := by
          unfold writeAt
          have : seekBy s f.fd 0 .current = ((tell f s).1, s) := by
            have := tell_same h
            unfold tell at this ⊢
            exact Prod.ext rfl this
          rw [this]
          dsimp only
          rw [if_pos rfl]
          unfold sysWrite
          simp only [h, Os.ask, hg, Bool.true_eq_false, if_false, if_true]
          rw [List.take_of_length_le hgn]
          rfl
        rw [ew] at hb' ⊢
        have h3 : (s.asked.store ino (s.data ino).length bs).getFd f.fd = some ⟨ino, p, r, true, true⟩ := h
        have h4 := getFd_setFd h3 (some ⟨ino, (s.data ino).length + bs.length, r, true, true⟩)
        obtain ⟨p5, a5, b5, -⟩ := seekBy_keeps h4 y .begin
        refine ⟨p5, a5, ?_, hb'⟩
        unfold seek
        rw [b5]
        simp only [Os.setFd, Os.store, upd, if_true, overlay, written, List.append_nil]
        by_cases hbs : bs = []
        · simp [hbs, Os.asked]
        · simp [hbs, Os.asked]
  | read n => simp [Op.moves] at hm
  | readAt n off => simp [Op.moves] at hm
  | writeAt bs off => simp [Op.moves] at hm
  | truncate n => simp [Op.moves] at hm

/-- C115.  A file opened for appending: wherever the cursor is sent between the writes, what was in the file stays, and what is written is behind it in the order of the writes. -/
theorem C115_append_only {f : File} {ino p : Nat} {r : Bool} (ops : List Op) {s s' : Os} {as : List Answer} (hb : Benign s)
    (h : s.getFd f.fd = some ⟨ino, p, r, true, true⟩) (hm : ∀ op ∈ ops, op.moves = true) (hp : performAll f s ops = .ok (as, s')) :
    s'.data ino = s.data ino ++ written ops := by
  induction ops generalizing s p as with
  | nil => simp only [performAll, Except.ok.injEq, Prod.mk.injEq] at hp; obtain ⟨-, rfl⟩ := hp; simp [written]
  | cons op ops ih =>
    simp only [performAll] at hp
    cases e : perform f s op with
    | error e' => simp [e] at hp
    | ok x =>
      obtain ⟨a, t⟩ := x
      simp only [e, ok_bind] at hp
      cases e2 : performAll f t ops with
      | error e' => simp [e2] at hp
      | ok y =>
        obtain ⟨as2, u⟩ := y
        simp only [e2, ok_bind, Except.ok.injEq, Prod.mk.injEq] at hp
        obtain ⟨-, rfl⟩ := hp
        obtain ⟨p', h1, h2, h3⟩ := append_perform hb h (hm op (by simp)) e
        rw [ih h3 h1 (fun o ho => hm o (by simp [ho])) e2, h2, List.append_assoc]
        congr 1
        cases op <;> simp [written]

/-- C115, where it fails: after a write to a file opened for appending the cursor is where it was plus what was written, not at the end of what was written. -/
theorem C115_append_cursor {s : Os} {f : File} {ino p : Nat} {r : Bool} (hb : Benign s) (h : s.getFd f.fd = some ⟨ino, p, r, true, true⟩) (bs : List Byte)
    (c : p + bs.length < limit) :
    ∃ s', write f bs s = .ok (true, s') ∧ s'.data ino = s.data ino ++ bs ∧ (tell f s').1 = (p + bs.length : Nat) := by
  obtain ⟨g, hg, hgn⟩ := hb s.tick bs.length
  have e := write_gen h (by simp only; omega) rfl bs g hg c
  have h3 : (s.asked.store ino (s.data ino).length (bs.take g)).getFd f.fd = some ⟨ino, p, r, true, true⟩ := h
  have hq := getFd_setFd h3 (some ⟨ino, p + bs.length, r, true, true⟩)
  simp only [if_true] at e
  generalize ((s.asked.store ino (s.data ino).length (bs.take g)).setFd f.fd (some ⟨ino, p + bs.length, r, true, true⟩)) = s' at e hq
  refine ⟨s', e, ?_, ?_⟩
  · have hp : performAll f s [.write bs] = .ok ([.wrote true], s') := by simp only [performAll, perform, e, ok_bind]
    have := C115_append_only [.write bs] hb h (by simp [Op.moves]) hp
    simpa [written] using this
  · rw [tell_ok hq c]

/-- The hypotheses are met: "f" opened for appending when it holds three bytes; after one byte is written the cursor is at 1 although the file has four. -/
example : ∃ s', write ⟨0, false, none, false, 0⟩ [7#8] { exOs with fds := [some ⟨0, 0, false, true, true⟩] } = .ok (true, s') ∧
    s'.data 0 = [0x61#8, 0x62#8, 0x63#8, 7#8] ∧ (tell ⟨0, false, none, false, 0⟩ s').1 = 1 :=
  C115_append_cursor (s := { exOs with fds := [some ⟨0, 0, false, true, true⟩] }) (f := ⟨0, false, none, false, 0⟩) (ino := 0) (p := 0) (r := false)
    (fun _ n => ⟨n, rfl, Nat.le_refl _⟩) rfl [7#8] (by decide)

/-! ## C116: the whole contents of a file -/

theorem openRead_eq (name : Name) (s : Os) : openRead name s = openMode (modeBits .read false ||| 0) name s := rfl

theorem openWrite_eq (name : Name) (s : Os) : openMode modeWrite name s = openMode (modeBits .write false ||| 0) name s := rfl

theorem readAt_gen {s : Os} {f : File} {o : Open} (h : s.getFd f.fd = some o) (hr : o.rd = true) (n m off g : Nat) (hg : s.grant s.tick n = some g) (hm : n ≤ m) :
    readAt f (List.replicate m none) n off s =
      .ok ((true, some (((s.data o.ino).drop off).take (min n g)).length,
        (((s.data o.ino).drop off).take (min n g)).map some ++ List.replicate (m - (((s.data o.ino).drop off).take (min n g)).length) none), s.asked) := by
  unfold readAt
  rw [pread_ok h hr n off g hg]
  dsimp only
  rw [fill_ok _ _ (by simp; omega)]
  rfl

theorem closed_wf {s : Os} (hw : Wf s) {fd : Int} {o : Open} (h : s.getFd fd = some o) (l : Nat) : Wf (sysClose { s with live := l } fd) := by
  have h' : Os.getFd { s with live := l } fd = some o := h
  have h0 := (getFd_some h).1
  have e : sysClose { s with live := l } fd = Os.setFd { s with live := l } fd none := sysClose_eq h0 _
  rw [e]
  constructor
  · exact hw.names
  · intro i p hi
    by_cases e : i = fd
    · subst e; rw [getFd_setFd h'] at hi; cases hi
    · rw [getFd_setFd_other h' _ e] at hi; exact hw.fds i p hi

/-- C116.  Writing the contents of a file, on a system that does what it is asked to, whatever the file was before and whether or not it existed: it holds just these bytes; the
other files are as they were; no descriptor is left open and no memory is held. -/
theorem C116_write_contents {s : Os} (hw : Wf s) (hb : Benign s) (path : Name) (bs : List Byte) (hn : s.names path ≠ some .folder) (hl : bs.length < limit) :
    ∃ s', writeContents path bs s = .ok ((true, none), s') ∧ contents s' path = some bs ∧
      (∀ n, n ≠ path → ¬ SameFile s n path → contents s' n = contents s n) ∧
      (∀ i, s'.getFd i = s.getFd i) ∧ s'.live = s.live ∧ Wf s' ∧ Benign s' := by
  obtain ⟨g, hg, -⟩ := hb s.tick 1
  obtain ⟨f, s1, ino, o1, o2, o3, o4, o5, o6, o7, o8, -, -, o9, o10, o11, o12, o13, o14, o15, o16, o17⟩ :=
    C115_open hw .write false 0 (by decide) path g hg hn nofun
  have hd : s1.data ino = [] := by
    unfold contents at o2
    rw [o5] at o2
    simpa using o2
  obtain ⟨g2, hg2, hgn⟩ := hb s1.tick bs.length
  rw [← o14] at hg2
  have ew := write_gen o6 (by simp only; omega) (by simp) bs g2 hg2 (by simp only; omega)
  simp only [decide_false, Bool.false_eq_true, if_false, List.take_of_length_le hgn, reduceCtorEq] at ew
  have o6' : (s1.asked.store ino 0 bs).getFd f.fd = some ⟨ino, 0, decide (Access.write = .read) || false, decide (Access.write ≠ .read) || false, decide (Access.write = .append)⟩ := o6
  have hq := quiet_fileWrite ew
  have hopen := getFd_setFd o6' (some ⟨ino, 0 + bs.length, decide (Access.write = .read) || false, decide (Access.write ≠ .read) || false, decide (Access.write = .append)⟩)
  simp only [decide_false, reduceCtorEq] at hopen
  have hdata : ((s1.asked.store ino 0 bs).setFd f.fd (some ⟨ino, 0 + bs.length, false || false, decide (Access.write ≠ .read) || false, false⟩)).data ino = bs := by
    simp only [Os.setFd, Os.store, upd, if_true, Os.asked, hd]
    unfold overlay
    split
    · rename_i e; exact e.symm
    · simp
  have hnx : ((s1.asked.store ino 0 bs).setFd f.fd (some ⟨ino, 0 + bs.length, false || false, decide (Access.write ≠ .read) || false, false⟩)).nextIno = s1.nextIno := rfl
  generalize ((s1.asked.store ino 0 bs).setFd f.fd (some ⟨ino, 0 + bs.length, false || false, decide (Access.write ≠ .read) || false, false⟩)) = s2 at ew hq hopen hdata hnx
  have hw2 : Wf s2 := by
    constructor
    · intro n i hi; rw [hnx]; rw [hq.names] at hi; exact o12.names n i hi
    · intro i o hi
      rw [hnx]
      by_cases e : i = f.fd
      · subst e; rw [hopen] at hi; cases hi; exact o12.names _ _ o5
      · rw [hq.others i e] at hi; exact o12.fds i o hi
  refine ⟨sysClose { s2 with live := s2.live - 1 } f.fd, ?_, ?_, ?_, ?_, ?_, closed_wf hw2 hopen _, ?_⟩
  · unfold writeContents
    rw [openWrite_eq, o1]
    simp only [ok_bind, ne_eq, not_true_eq_false, if_false, ew, close_named o10 o9 o11]
  · show contents s2 path = some bs
    unfold contents
    rw [hq.names, o5]
    simp only [hdata]
  · intro n h1 h2
    show contents s2 n = contents s n
    rw [← o3 n h1 h2]
    unfold contents
    rw [hq.names]
    have hne := o17 n h1 h2
    rw [← o4 n h1] at hne
    cases e : s1.names n with
    | none => rfl
    | some x =>
      cases x with
      | folder => rfl
      | file j =>
        simp only
        rw [hq.files j]
        rw [o6]
        intro h; apply hne; rw [e]; simp only [Option.map_some, Option.some.injEq] at h; rw [h]
  · exact closed_table o11 o7 (by rw [hopen]; rfl) (fun i hi => (hq.others i hi).trans (o8 i hi)) _
  · show s2.live - 1 = s.live
    rw [hq.live, o13]; omega
  · intro t n
    show ∃ g, s2.grant t n = some g ∧ n ≤ g
    rw [hq.grant, o14]; exact hb t n

/-- C116.  Reading the contents of a file that is not empty, on a system that does what it is asked to: the block holds the bytes of the file, all of them, and a zero behind them if
that was asked for; the size is that of the file.  No file has changed, no descriptor is left open and no memory is held but for the block. -/
theorem C116_read_contents {s : Os} (hw : Wf s) (hb : Benign s) (zt : Bool) (path : Name) (bs : List Byte) (hc : contents s path = some bs) (hne : bs ≠ []) (hl : bs.length < limit) :
    ∃ s', readContents zt path s = .ok (some (bs.map some ++ (if zt then [some 0] else []), bs.length), s') ∧
      (∀ n, contents s' n = contents s n) ∧ (∀ i, s'.getFd i = s.getFd i) ∧ s'.live = s.live := by
  obtain ⟨i, hi, hdi⟩ : ∃ i, s.names path = some (.file i) ∧ s.data i = bs := by
    unfold contents at hc
    cases e : s.names path with
    | none => simp [e] at hc
    | some x =>
      cases x with
      | folder => simp [e] at hc
      | file i => simp only [e, Option.some.injEq] at hc; exact ⟨i, rfl, hc⟩
  obtain ⟨g, hg, -⟩ := hb s.tick 1
  obtain ⟨f, s1, ino, o1, o2, o3, o4, o5, o6, o7, o8, -, -, o9, o10, o11, o12, o13, o14, o15, o16, o17⟩ :=
    C115_open hw .read false 0 (by decide) path g hg (by rw [hi]; simp) (by rw [hi]; simp)
  obtain rfl := o16 i hi
  have hd : s1.data ino = bs := by
    unfold contents at o2
    rw [o5, hi] at o2
    simpa [hdi] using o2
  have hpos : 0 < bs.length := List.length_pos_iff.2 hne
  have es := size_ok o6 (by simp only; omega) (by simp only [hd]; exact hl)
  simp only [hd] at es
  obtain ⟨g2, hg2, hgn⟩ := hb s1.tick bs.length
  rw [← o14] at hg2
  have er := readAt_gen o6 (by simp) bs.length (if zt then bs.length + 1 else bs.length) 0 g2 hg2 (by split <;> omega)
  simp only [hd, Nat.min_eq_left hgn, List.drop_zero, List.take_length] at er
  refine ⟨sysClose { s1.asked with live := s1.asked.live - 1 } f.fd, ?_, ?_, ?_, ?_⟩
  · unfold readContents getType
    rw [hi]
    simp only [reduceCtorEq, if_false]
    rw [openRead_eq, o1]
    simp only [ok_bind, if_true, es]
    rw [if_pos (by omega)]
    simp only [Int.toNat_natCast, Int.natCast_zero] at er ⊢
    rw [er]
    simp only [ok_bind]
    cases zt with
    | false => simp [close_named o10 o9 o11]
    | true =>
      simp only [if_true]
      have e1 : bs.length + 1 - bs.length = 1 := by omega
      rw [e1, wr_ok (by simp)]
      simp only [ok_bind, close_named o10 o9 o11]
      have e5 : (bs.map some ++ List.replicate 1 none).set bs.length (some 0) = bs.map some ++ [some 0] := by
        rw [List.set_append_right _ _ (by simp)]
        simp
      rw [e5]
  · intro n
    show contents s1 n = contents s n
    by_cases hnn : n = path
    · subst hnn; rw [hc, o2, hc]; simp
    · by_cases hs : SameFile s n path
      · obtain ⟨j, j1, j2⟩ := hs
        rw [hi] at j2; cases j2
        unfold contents
        rw [o4 n hnn, j1]
        simp only [hd, hdi]
      · exact o3 n hnn hs
  · have o6' : (s1.asked.getFd f.fd).isSome = true := by
      have : s1.asked.getFd f.fd = _ := o6
      rw [this]; rfl
    exact closed_table o11 o7 o6' (fun i hi => o8 i hi) _
  · show s1.live - 1 = s.live
    rw [o13]; omega

/-- C116.  Written and read back: the same bytes, for every name and whatever else is on the system. -/
theorem C116_round_trip {s : Os} (hw : Wf s) (hb : Benign s) (zt : Bool) (path : Name) (bs : List Byte) (hn : s.names path ≠ some .folder) (hne : bs ≠ []) (hl : bs.length < limit) :
    ∃ s1 s2, writeContents path bs s = .ok ((true, none), s1) ∧
      readContents zt path s1 = .ok (some (bs.map some ++ (if zt then [some 0] else []), bs.length), s2) ∧ (∀ i, s2.getFd i = s.getFd i) ∧ s2.live = s.live := by
  obtain ⟨s1, w1, w2, w3, w4, w5, w6, w7⟩ := C116_write_contents hw hb path bs hn hl
  obtain ⟨s2, r1, r2, r3, r4⟩ := C116_read_contents w6 w7 zt path bs w2 hne hl
  exact ⟨s1, s2, w1, r1, fun i => (r3 i).trans (w4 i), r4.trans w5⟩

/-- The hypotheses are met: "n", which does not exist, is written and read. -/
example : ∃ s1 s2, writeContents [0x6e#8] [1#8, 0#8, 2#8] exOs = .ok ((true, none), s1) ∧
    readContents true [0x6e#8] s1 = .ok (some ([some 1#8, some 0#8, some 2#8, some 0#8], 3), s2) ∧ (∀ i, s2.getFd i = exOs.getFd i) ∧ s2.live = exOs.live :=
  C116_round_trip exOs_wf exOs_benign true [0x6e#8] [1#8, 0#8, 2#8] (by decide) (by decide) (by decide)

/-- C116.  Whatever the system does: reading the contents of a file leaves no descriptor open and no memory held but for the block. -/
theorem C116_read_no_leak {zt : Bool} {path : Name} {s s' : Os} {r : Option (List (Option Byte) × Nat)} (h : readContents zt path s = .ok (r, s')) :
    (∀ i, s'.getFd i = s.getFd i) ∧ s'.live = s.live ∧ ∀ d n, r = some (d, n) → d.length = (if zt then n + 1 else n) := by
  unfold readContents at h
  split at h
  · simp only [Except.ok.injEq, Prod.mk.injEq] at h
    obtain ⟨rfl, rfl⟩ := h
    exact ⟨fun _ => rfl, rfl, nofun⟩
  · cases eo : openRead path s with
    | error e' => simp [eo] at h
    | ok x =>
      obtain ⟨⟨e, f⟩, s1⟩ := x
      simp only [eo, ok_bind] at h
      rcases openMode_cases eo with ⟨rfl, h0, hn, hf, h1, h2, h3, h4⟩ | ⟨rfl, h0, hn, h1, h2⟩
      · simp only [if_true] at h
        have finish : ∀ t : Os, Quiet f.fd s1 t → (∀ i, (sysClose { t with live := t.live - 1 } f.fd).getFd i = s.getFd i) ∧ t.live - 1 = s.live := by
          intro t q
          refine ⟨closed_table h0 h1 ?_ (fun i hi => (q.others i hi).trans (h3 i hi)) _, ?_⟩
          · have := congrArg Option.isSome q.self
            simpa [h2] using this
          · rw [q.live, h4]; omega
        have qs := quiet_size f s1
        generalize size f s1 = z at *
        obtain ⟨n, s2⟩ := z
        simp only at h qs
        split at h
        · cases er : readAt f (List.replicate (if zt then n.toNat + 1 else n.toNat) none) n.toNat 0 s2 with
          | error e' => simp [er] at h
          | ok y =>
            obtain ⟨⟨ok, k, d⟩, s3⟩ := y
            simp only [er, ok_bind] at h
            have q3 := qs.trans (quiet_readAt er)
            have hdl : d.length = (if zt then n.toNat + 1 else n.toNat) := by
              unfold readAt at er
              generalize sysPread s2 f.fd n.toNat 0 = p at er
              obtain ⟨x, t⟩ := p
              cases x with
              | none =>
                simp only [Except.ok.injEq, Prod.mk.injEq] at er
                rw [← er.1.2.2]; simp
              | some b =>
                dsimp only at er
                by_cases hle : b.length ≤ (List.replicate (if zt then n.toNat + 1 else n.toNat) (none : Option Byte)).length
                · have ef : fill (List.replicate (if zt then n.toNat + 1 else n.toNat) none) b =
                      .ok (b.map some ++ (List.replicate (if zt then n.toNat + 1 else n.toNat) none).drop b.length) := if_pos hle
                  rw [ef] at er
                  simp only [ok_bind, Except.ok.injEq, Prod.mk.injEq] at er
                  rw [← er.1.2.2]
                  simp at hle ⊢
                  omega
                · have ef : fill (List.replicate (if zt then n.toNat + 1 else n.toNat) none) b = .error .oob := if_neg hle
                  rw [ef] at er
                  cases er
            cases zt with
            | false =>
              simp only [Bool.false_eq_true, if_false, ok_bind, close_named hn hf h0, Except.ok.injEq, Prod.mk.injEq] at h hdl
              obtain ⟨rfl, rfl⟩ := h
              obtain ⟨f1, f2⟩ := finish s3 q3
              exact ⟨f1, f2, fun d' n' e => by cases e; simpa using hdl⟩
            | true =>
              simp only [if_true] at h hdl
              rw [wr_ok (by omega)] at h
              simp only [ok_bind, close_named hn hf h0, Except.ok.injEq, Prod.mk.injEq] at h
              obtain ⟨rfl, rfl⟩ := h
              obtain ⟨f1, f2⟩ := finish s3 q3
              exact ⟨f1, f2, fun d' n' e => by cases e; simpa using hdl⟩
        · simp only [close_named hn hf h0, ok_bind, Except.ok.injEq, Prod.mk.injEq] at h
          obtain ⟨rfl, rfl⟩ := h
          obtain ⟨f1, f2⟩ := finish s2 qs
          exact ⟨f1, f2, nofun⟩
      · simp only [reduceCtorEq, if_false, Except.ok.injEq, Prod.mk.injEq] at h
        obtain ⟨rfl, rfl⟩ := h
        exact ⟨h1, h2, nofun⟩

/-- C116.  Whatever the system does: writing the contents of a file leaves no descriptor open and no memory held. -/
theorem C116_write_no_leak {path : Name} {bs : List Byte} {s s' : Os} {r : Bool × Option Err} (h : writeContents path bs s = .ok (r, s')) :
    (∀ i, s'.getFd i = s.getFd i) ∧ s'.live = s.live := by
  unfold writeContents at h
  cases eo : openMode modeWrite path s with
  | error e' => simp [eo] at h
  | ok x =>
    obtain ⟨⟨e, f⟩, s1⟩ := x
    simp only [eo, ok_bind] at h
    rcases openMode_cases eo with ⟨rfl, h0, hn, hf, h1, h2, h3, h4⟩ | ⟨rfl, h0, hn, h1, h2⟩
    · simp only [ne_eq, not_true_eq_false, if_false] at h
      cases ew : write f bs s1 with
      | error e' => simp [ew] at h
      | ok y =>
        obtain ⟨ok, s2⟩ := y
        simp only [ew, ok_bind, close_named hn hf h0, Except.ok.injEq, Prod.mk.injEq] at h
        obtain ⟨-, rfl⟩ := h
        have q := quiet_fileWrite ew
        refine ⟨closed_table h0 h1 ?_ (fun i hi => (q.others i hi).trans (h3 i hi)) _, ?_⟩
        · have := congrArg Option.isSome q.self
          simpa [h2] using this
        · show s2.live - 1 = s.live
          rw [q.live, h4]; omega
    · simp only [ne_eq, reduceCtorEq, not_false_eq_true, if_true, Except.ok.injEq, Prod.mk.injEq] at h
      obtain ⟨-, rfl⟩ := h
      exact ⟨h1, h2⟩

/-- C116, where it fails: nothing distinguishes a file that does not exist, one that cannot be opened, a folder and an empty file - the answer is a null block of size 0 in each case. -/
theorem C116_nothing_to_read {s : Os} (zt : Bool) (path : Name) (h : s.names path = some .folder ∨ s.names path = none ∨ (s.names path ≠ some .folder ∧ s.grant s.tick 1 = none) ∨
      (Wf s ∧ Benign s ∧ contents s path = some [])) :
    ∃ s', readContents zt path s = .ok (none, s') ∧ (∀ i, s'.getFd i = s.getFd i) ∧ s'.live = s.live := by
  have key : ∃ s', readContents zt path s = .ok (none, s') := by
    by_cases hf : s.names path = some .folder
    · exact ⟨s, by unfold readContents getType; rw [hf]; rfl⟩
    · have hnf : getType path s ≠ .folder := by
        unfold getType
        cases e : s.names path with
        | none => simp
        | some x =>
          cases x with
          | folder => exact absurd e hf
          | file i => simp
      have fails : ((s.names path = none ∧ Access.read = .read) ∨ (s.names path = some .folder ∧ (Access.read ≠ .read ∨ false = true)) ∨ s.grant s.tick 1 = none) →
          ∃ s', readContents zt path s = .ok (none, s') := by
        intro hx
        obtain ⟨f, s1, o1, -⟩ := C115_open_fails .read false 0 (by decide) path hx
        refine ⟨s1, ?_⟩
        unfold readContents
        rw [if_neg hnf, openRead_eq, o1]
        simp only [ok_bind, reduceCtorEq, if_false]
      rcases h with h | h | ⟨-, h⟩ | ⟨hw, hb, hc⟩
      · exact absurd h hf
      · exact fails (.inl ⟨h, rfl⟩)
      · exact fails (.inr (.inr h))
      · have hi : s.names path ≠ none := by intro e; simp [contents, e] at hc
        obtain ⟨g, hg, -⟩ := hb s.tick 1
        obtain ⟨f, s1, ino, o1, o2, o3, o4, o5, o6, o7, o8, -, -, o9, o10, o11, -⟩ := C115_open hw .read false 0 (by decide) path g hg hf (fun _ => hi)
        have hd : s1.data ino = [] := by
          unfold contents at o2
          rw [o5] at o2
          simp only [Option.some.injEq] at o2
          rw [o2]
          have : contents s path = some [] := hc
          unfold contents at this
          rw [this]
          rfl
        have es := size_ok o6 (by show 0 < limit; decide) (by simp only [hd]; decide)
        simp only [hd, List.length_nil] at es
        refine ⟨sysClose { s1 with live := s1.live - 1 } f.fd, ?_⟩
        unfold readContents
        rw [if_neg hnf, openRead_eq, o1]
        simp only [ok_bind, if_true, es]
        rw [if_neg (by decide), close_named o10 o9 o11]
        rfl
  obtain ⟨s', e⟩ := key
  exact ⟨s', e, (C116_read_no_leak e).1, (C116_read_no_leak e).2.1⟩

/-- C116, where it fails: the old contents are thrown away before the new ones are written.  When the system refuses the write, the call returns false but gives no reason (`err` is not
set), and the file is empty. -/
theorem C116_failed_write_loses_file {s : Os} (hw : Wf s) (path : Name) (bs : List Byte) (g : Nat) (hn : s.names path ≠ some .folder) (hl : bs.length < limit)
    (hg : s.grant s.tick 1 = some g) (hg2 : s.grant (s.tick + 1) bs.length = none) :
    ∃ s', writeContents path bs s = .ok ((false, none), s') ∧ contents s' path = some [] := by
  obtain ⟨f, s1, ino, o1, o2, o3, o4, o5, o6, o7, o8, -, -, o9, o10, o11, o12, o13, o14, o15, o16, o17⟩ :=
    C115_open hw .write false 0 (by decide) path g hg hn nofun
  rw [← o15, ← o14] at hg2
  have h6 : s1.asked.getFd f.fd = _ := o6
  have ew : write f bs s1 = .ok (false, s1.asked.setFd f.fd (some ⟨ino, bs.length, false, true, false⟩)) := by
    have ea : writeAt f bs ((0 : Nat) : Int) s1 = ((false, none), s1.asked) := by
      unfold writeAt
      rw [seekBy_ok o6 0 .current 0 (by decide) rfl]
      dsimp only
      rw [setFd_self o6, if_pos rfl]
      unfold sysWrite
      simp only [o6, Os.ask, hg2]
      rfl
    have e : seek f ((0 + bs.length : Nat) : Int) s1.asked = _ := seekBy_ok h6 _ .begin (0 + bs.length) (by omega) (by simp)
    unfold write
    rw [tell_ok o6 (by show 0 < limit; decide)]
    dsimp only
    rw [tell_ok o6 (by show 0 < limit; decide)]
    dsimp only
    rw [ea]
    dsimp only
    rw [addOff_ok _ _ (by omega)]
    simp only [ok_bind]
    rw [e]
    simp
  refine ⟨sysClose { (s1.asked.setFd f.fd (some ⟨ino, bs.length, false, true, false⟩)) with live := s1.live - 1 } f.fd, ?_, ?_⟩
  · unfold writeContents
    rw [openWrite_eq, o1]
    simp only [ok_bind, ne_eq, not_true_eq_false, if_false, ew, close_named o10 o9 o11]
    rfl
  · show contents s1 path = some []
    rw [o2]; rfl

example : ∃ s', writeContents [0x66#8] [1#8] { exOs with grant := fun t n => if t = 0 then some n else none } = .ok ((false, none), s') ∧ contents s' [0x66#8] = some [] :=
  C116_failed_write_loses_file (s := { exOs with grant := fun t n => if t = 0 then some n else none }) ⟨exOs_wf.names, exOs_wf.fds⟩ [0x66#8] [1#8] 1 (by decide) (by decide) rfl rfl

/-- C116, where it fails: when the system takes only a part of the bytes the call still reports success. -/
theorem C116_short_write_is_success {s : Os} (hw : Wf s) (path : Name) (bs : List Byte) (g g2 : Nat) (hn : s.names path ≠ some .folder) (hl : bs.length < limit)
    (hg : s.grant s.tick 1 = some g) (hg2 : s.grant (s.tick + 1) bs.length = some g2) :
    ∃ s', writeContents path bs s = .ok ((true, none), s') ∧ contents s' path = some (bs.take g2) := by
  obtain ⟨f, s1, ino, o1, o2, o3, o4, o5, o6, o7, o8, -, -, o9, o10, o11, o12, o13, o14, o15, o16, o17⟩ :=
    C115_open hw .write false 0 (by decide) path g hg hn nofun
  rw [← o15, ← o14] at hg2
  have hd : s1.data ino = [] := by
    unfold contents at o2
    rw [o5] at o2
    simpa using o2
  have ew := write_gen o6 (by show 0 < limit; decide) (by simp) bs g2 hg2 (by simp only; omega)
  have hq := quiet_fileWrite ew
  have hdata : ((s1.asked.store ino 0 (bs.take g2)).setFd f.fd (some ⟨ino, 0 + bs.length, false, true, false⟩)).data ino = bs.take g2 := by
    simp only [Os.setFd, Os.store, upd, if_true, Os.asked, hd]
    unfold overlay
    split
    · rename_i e; exact e.symm
    · simp
  have ew' : write f bs s1 = .ok (true, (s1.asked.store ino 0 (bs.take g2)).setFd f.fd (some ⟨ino, 0 + bs.length, false, true, false⟩)) := ew
  generalize ((s1.asked.store ino 0 (bs.take g2)).setFd f.fd (some ⟨ino, 0 + bs.length, false, true, false⟩)) = s2 at ew' hdata
  have hq := quiet_fileWrite ew'
  refine ⟨sysClose { s2 with live := s2.live - 1 } f.fd, ?_, ?_⟩
  · unfold writeContents
    rw [openWrite_eq, o1]
    simp only [ok_bind, ne_eq, not_true_eq_false, if_false, ew', close_named o10 o9 o11]
  · show contents s2 path = some (bs.take g2)
    unfold contents
    rw [hq.names, o5]
    simp only [hdata]

example : ∃ s', writeContents [0x66#8] [1#8, 2#8] { exOs with grant := fun _ _ => some 1 } = .ok ((true, none), s') ∧ contents s' [0x66#8] = some [1#8] :=
  C116_short_write_is_success (s := { exOs with grant := fun _ _ => some 1 }) ⟨exOs_wf.names, exOs_wf.fds⟩ [0x66#8] [1#8, 2#8] 1 1 (by decide) (by decide) rfl rfl

/-- C116, where it fails: when fewer bytes come back than the file is long (it has been cut since, or an error), the rest of the block has never been written, and the size says it has. -/
theorem C116_short_read_is_success {s : Os} (hw : Wf s) (path : Name) (bs : List Byte) (g g2 : Nat) (hc : contents s path = some bs) (hne : bs ≠ []) (hl : bs.length < limit)
    (hg : s.grant s.tick 1 = some g) (hg2 : s.grant (s.tick + 1) bs.length = some g2) :
    ∃ s', readContents false path s = .ok (some ((bs.take g2).map some ++ List.replicate (bs.length - g2) none, bs.length), s') := by
  obtain ⟨i, hi, hdi⟩ : ∃ i, s.names path = some (.file i) ∧ s.data i = bs := by
    unfold contents at hc
    cases e : s.names path with
    | none => simp [e] at hc
    | some x =>
      cases x with
      | folder => simp [e] at hc
      | file i => simp only [e, Option.some.injEq] at hc; exact ⟨i, rfl, hc⟩
  obtain ⟨f, s1, ino, o1, o2, o3, o4, o5, o6, o7, o8, -, -, o9, o10, o11, o12, o13, o14, o15, o16, o17⟩ :=
    C115_open hw .read false 0 (by decide) path g hg (by rw [hi]; simp) (by rw [hi]; simp)
  obtain rfl := o16 i hi
  rw [← o15, ← o14] at hg2
  have hd : s1.data ino = bs := by
    unfold contents at o2
    rw [o5, hi] at o2
    simpa [hdi] using o2
  have hpos : 0 < bs.length := List.length_pos_iff.2 hne
  have es := size_ok o6 (by show 0 < limit; decide) (by simp only [hd]; exact hl)
  simp only [hd] at es
  have er := readAt_gen o6 (by simp) bs.length bs.length 0 g2 hg2 (Nat.le_refl _)
  have ht : bs.take (min bs.length g2) = bs.take g2 := by simp [List.take_eq_take_iff, Nat.min_comm]
  have hk : bs.length - (bs.take g2).length = bs.length - g2 := by simp; omega
  simp only [hd, List.drop_zero, ht, hk] at er
  refine ⟨sysClose { s1.asked with live := s1.asked.live - 1 } f.fd, ?_⟩
  unfold readContents getType
  rw [hi]
  simp only [reduceCtorEq, if_false]
  rw [openRead_eq, o1]
  simp only [ok_bind, if_true, es]
  rw [if_pos (by omega)]
  simp only [Int.toNat_natCast, Int.natCast_zero, Bool.false_eq_true, if_false] at er ⊢
  rw [er]
  simp only [ok_bind, close_named o10 o9 o11]

example : ∃ s', readContents false [0x66#8] { exOs with grant := fun _ _ => some 1 } = .ok (some ([some 0x61#8, none, none], 3), s') :=
  C116_short_read_is_success (s := { exOs with grant := fun _ _ => some 1 }) ⟨exOs_wf.names, exOs_wf.fds⟩ [0x66#8] [0x61#8, 0x62#8, 0x63#8] 1 1 rfl (by decide) (by decide) rfl rfl

/-! ## C117: the lines of a file -/

theorem initialised_some (l : List Byte) : initialised (l.map some) = .ok l := by
  induction l with
  | nil => rfl
  | cons b t ih => simp [initialised, ih]

/-- C117.  For every file made of lines each ended by a newline, the first of them not empty: the strings returned are its lines in order, as in C32, and the text returned is as long
as the file.  Nothing stays open.  Partial: C32 is. -/
theorem C117_read_lines_partial {s : Os} (hw : Wf s) (hb : Benign s) (strip : Bool) (path : Name) (ls : List (List Byte)) (hls : ∀ l ∈ ls, Str.Line l) (h0 : ls.head? ≠ some [])
    (hc : contents s path = some (Str.unlines ls)) (hl : (Str.unlines ls).length < limit) :
    ∃ ptrs block s', readLines strip path s = .ok ((ptrs, block), s') ∧ ptrs.map (Str.cstringAt block) = (if strip then ls.filter (· ≠ []) else ls).map Str.chomp ∧
      block.length = (Str.unlines ls).length + 1 ∧ (∀ i, s'.getFd i = s.getFd i) ∧ s'.live = s.live := by
  obtain ⟨ptrs, block, e1, e2, e3, -⟩ := Str.C32_split_lines_partial strip ls [] hls h0
  generalize hbs : Str.unlines ls = bs at *
  obtain ⟨i, hi, hdi⟩ : ∃ i, s.names path = some (.file i) ∧ s.data i = bs := by
    unfold contents at hc
    cases e : s.names path with
    | none => simp [e] at hc
    | some x =>
      cases x with
      | folder => simp [e] at hc
      | file i => simp only [e, Option.some.injEq] at hc; exact ⟨i, rfl, hc⟩
  obtain ⟨g, hg, -⟩ := hb s.tick 1
  obtain ⟨f, s1, ino, o1, o2, o3, o4, o5, o6, o7, o8, -, -, o9, o10, o11, o12, o13, o14, o15, o16, o17⟩ :=
    C115_open hw .read false 0 (by decide) path g hg (by rw [hi]; simp) (by rw [hi]; simp)
  obtain rfl := o16 i hi
  have hd : s1.data ino = bs := by
    unfold contents at o2
    rw [o5, hi] at o2
    simpa [hdi] using o2
  have es := size_ok o6 (by show 0 < limit; decide) (by simp only [hd]; exact hl)
  simp only [hd] at es
  obtain ⟨g2, hg2, hgn⟩ := hb s1.tick bs.length
  rw [← o14] at hg2
  have h6 : s1.asked.getFd f.fd = _ := o6
  have er : read f (List.replicate (bs.length + 1) none) bs.length s1 =
      .ok ((true, bs.map some ++ [none]), s1.asked.setFd f.fd (some ⟨ino, bs.length, true, false, false⟩)) := by
    have ea := readAt_gen o6 (by simp) bs.length (bs.length + 1) 0 g2 hg2 (by omega)
    simp only [hd, Nat.min_eq_left hgn, List.drop_zero, List.take_length, Nat.add_sub_cancel_left, List.replicate_one] at ea
    have e : seek f ((0 + bs.length : Nat) : Int) s1.asked = _ := seekBy_ok h6 _ .begin (0 + bs.length) (by omega) (by simp)
    unfold read
    rw [tell_ok o6 (by show 0 < limit; decide)]
    dsimp only
    rw [tell_ok o6 (by show 0 < limit; decide)]
    dsimp only
    rw [ea]
    simp only [ok_bind]
    rw [addOff_ok _ _ (by omega)]
    simp only [ok_bind]
    rw [e]
    simp
  have hq := quiet_read er
  generalize s1.asked.setFd f.fd (some ⟨ino, bs.length, true, false, false⟩) = s2 at er hq
  refine ⟨ptrs, block, sysClose { s2 with live := s2.live - 1 } f.fd, ?_, e2, by simpa using e3, ?_, ?_⟩
  · unfold readLines
    rw [openRead_eq, o1]
    simp only [ok_bind, es, Int.toNat_natCast, er]
    rw [wr_ok (by simp)]
    have e5 : (bs.map some ++ [none]).set bs.length (some 0) = (bs ++ [0]).map some := by
      rw [List.set_append_right _ _ (by simp)]
      simp
    simp only [ok_bind, e5, initialised_some]
    rw [e1]
    simp only [ok_bind, close_named o10 o9 o11]
  · refine closed_table o11 o7 ?_ (fun i hi => (hq.others i hi).trans (o8 i hi)) _
    have := congrArg Option.isSome hq.self
    rw [o6] at this
    simpa using this
  · show s2.live - 1 = s.live
    rw [hq.live, o13]; omega

/-- "a\nb\n" in the file "f". -/
example : ∃ ptrs block s', readLines false [0x66#8] { exOs with data := fun _ => [0x61#8, 10#8, 0x62#8, 10#8] } = .ok ((ptrs, block), s') ∧
    ptrs.map (Str.cstringAt block) = [[0x61#8], [0x62#8]] := by
  obtain ⟨p, b, s', h1, h2, -⟩ := C117_read_lines_partial (s := { exOs with data := fun _ => [0x61#8, 10#8, 0x62#8, 10#8] }) ⟨exOs_wf.names, exOs_wf.fds⟩
    (fun _ n => ⟨n, rfl, Nat.le_refl _⟩) false [0x66#8] [[0x61#8], [0x62#8]]
    (by intro l hl; simp at hl; rcases hl with rfl | rfl <;> (intro c hc; simp at hc; subst hc; decide)) (by decide) rfl (by decide)
  exact ⟨p, b, s', h1, by rw [h2]; decide⟩

/-- C117, where it fails: a file that does not exist or cannot be opened gives no lines and an empty text, as an empty file does. -/
theorem C117_missing_file {s : Os} (strip : Bool) (path : Name) (h : s.names path = none ∨ s.grant s.tick 1 = none) :
    ∃ s', readLines strip path s = .ok (([], [0]), s') ∧ Unchanged s s' := by
  obtain ⟨f, s1, o1, o2, o3, o4⟩ := C115_open_fails (s := s) .read false 0 (by decide) path (h.imp (fun h => ⟨h, rfl⟩) .inr)
  have hf : ∀ t : Os, t.getFd f.fd = none := by intro t; unfold Os.getFd; rw [if_pos o2]
  have hs : ∀ t off w, seekBy t f.fd off w = (0, t) := by
    intro t off w
    unfold seekBy sysSeek
    rw [hf]
  have es : size f s1 = (0, s1) := by simp only [size, tell, seekToEnd, seek, hs]
  have er : read f (List.replicate 1 none) 0 s1 = .ok ((false, [none]), s1) := by
    unfold read
    simp only [tell, hs]
    have : readAt f (List.replicate 1 none) 0 0 s1 = .ok ((false, none, [none]), s1) := by
      unfold readAt sysPread
      rw [hf]
      rfl
    rw [this]
    simp only [ok_bind]
    rw [show (0 : Int) = ((0 : Nat) : Int) from rfl, addOff_ok 0 0 (by decide)]
    simp only [ok_bind, seek, hs]
  refine ⟨s1, ?_, o4⟩
  unfold readLines
  rw [openRead_eq, o1]
  simp only [ok_bind, es, Int.toNat_zero, Nat.zero_add, er]
  cases strip <;> simp [wr, initialised, Str.splitLines, Str.splitLoop, rd, close_failed o3 o2]

/-! ## What the system refuses -/

/-- C114.  A call the system refuses says so and leaves the contents as they are: a truncation, a write, a read (whose buffer stays as it was).  The cursor moves on over what has
not been read or written. -/
theorem C114_refused {s : Os} {f : File} {ino : Nat} {v : View} (h : At s f ino v) :
    (∀ n : Nat, s.grant s.tick 1 = Option.none → ∃ s', truncate f n s = (.truncationFailure, s') ∧ At s' f ino v) ∧
    (∀ bs : List Byte, s.grant s.tick bs.length = Option.none → v.pos + bs.length < limit →
      ∃ s', write f bs s = .ok (false, s') ∧ At s' f ino { v with pos := v.pos + bs.length }) ∧
    (∀ (n : Nat) (buf : List (Option Byte)), s.grant s.tick n = Option.none → v.pos + n < limit →
      ∃ s', read f buf n s = .ok ((false, buf), s') ∧ At s' f ino { v with pos := v.pos + n }) := by
  obtain ⟨hf, hd, hp⟩ := h
  have hf' : s.asked.getFd f.fd = some ⟨ino, v.pos, true, true, false⟩ := hf
  have mv : ∀ n : Nat, v.pos + n < limit → seek f ((v.pos + n : Nat) : Int) s.asked = (((v.pos + n : Nat) : Int), s.asked.setFd f.fd (some ⟨ino, v.pos + n, true, true, false⟩)) := by
    intro n c
    unfold seek
    exact seekBy_ok hf' _ .begin (v.pos + n) c (by simp)
  have at' : ∀ n : Nat, v.pos + n < limit → At (s.asked.setFd f.fd (some ⟨ino, v.pos + n, true, true, false⟩)) f ino { v with pos := v.pos + n } :=
    fun n c => ⟨getFd_setFd hf' _, hd, c⟩
  refine ⟨?_, ?_, ?_⟩
  · intro n hg
    refine ⟨s.asked, ?_, hf', hd, hp⟩
    unfold truncate sysTruncate
    simp only [hf, Os.ask, hg]
    rw [if_neg (by simp)]
    rfl
  · intro bs hg c
    refine ⟨_, ?_, at' _ c⟩
    unfold write
    rw [tell_ok hf hp]
    dsimp only
    rw [tell_ok hf hp]
    dsimp only
    have e : writeAt f bs (v.pos : Int) s = ((false, Option.none), s.asked) := by
      unfold writeAt
      rw [seekBy_ok hf 0 .current v.pos hp (by simp)]
      dsimp only
      rw [setFd_self hf]
      simp only [if_true]
      unfold sysWrite
      simp only [hf, Os.ask, hg]
      simp [Os.asked]
    rw [e]
    dsimp only
    rw [addOff_ok _ _ c]
    simp only [ok_bind]
    rw [mv _ c]
  · intro n buf hg c
    refine ⟨_, ?_, at' _ c⟩
    unfold read
    rw [tell_ok hf hp]
    dsimp only
    rw [tell_ok hf hp]
    dsimp only
    have e : readAt f buf n (v.pos : Int) s = .ok ((false, Option.none, buf), s.asked) := by
      unfold readAt sysPread
      simp only [hf, Os.ask, hg]
      rw [if_neg (by simp)]
      rfl
    rw [e]
    simp only [ok_bind]
    rw [addOff_ok _ _ c]
    simp only [ok_bind]
    rw [mv _ c]

/-- A system that refuses everything. -/
example : ∃ s', truncate exFile 1 { exOs with grant := fun _ _ => Option.none } = (.truncationFailure, s') :=
  ⟨_, rfl⟩

end Zpl.File
