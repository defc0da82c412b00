import Verif.Str.Fprintf
import Verif.Str.Copy
import Verif.Str.Num
import Verif.Mem.Align
import Verif.Sys.Path

/-!
# Tar archives (code/source/core/file_tar.c, POSIX files)

## Model -/

namespace Zpl.Tar

open Str Print

/-- A regular file: its bytes and the position of the descriptor. -/
structure File where
  bytes : List Byte
  pos : Nat
  deriving DecidableEq, Repr

/-- file.c:174-180 `pread`: fewer bytes at the end of the file, none behind it.  Simplification: reading from what is not a folder never fails. -/
def readAt (bytes : List Byte) (size off : Nat) : List Byte := (bytes.drop off).take size

/-- file.h:390-395 `zpl_file_write` (file.c:182-194): the bytes go to the position, which moves behind them; a gap before the position is filled with zeros.
Simplification: writing never fails. -/
def write (f : File) (data : List Byte) : File :=
  { bytes := f.bytes.take f.pos ++ List.replicate (f.pos - f.bytes.length) 0 ++ data ++ f.bytes.drop (f.pos + data.length), pos := f.pos + data.length }

/-- file.h:354-359 `zpl_file_seek`: `lseek` refuses negative positions. -/
def seek (f : File) (x : Int) : File := if x < 0 then f else { f with pos := x.toNat }

/-- file_tar.c:4-15: the header is a block of 512 bytes: name at 0, mode 100, owner 108, group 116, size 124, mtime 136, checksum 148, type 156, linkname 157,
padding 257.  file_tar.c:17-26 `zpl__tar_checksum`. -/
def checksum (hr : List Byte) : Nat := 256 + ((hr.take 148).map BitVec.toNat).sum + ((hr.drop 156).map BitVec.toNat).sum

/-- `zpl_snprintf(hr.field, maxLen, fmt, args)` for the field of `len` bytes at `off`; writing outside the field is a fault. -/
def setField (pf : FloatPrinter) (hr : List Byte) (off len maxLen : Nat) (fmt : List Byte) (args : List Arg) : Except Fault (List Byte) := do
  let (t, _) ← snprintf pf ((hr.drop off).take len) maxLen fmt args
  .ok (hr.take off ++ t ++ hr.drop (off + len))

/-- `"%s"`. -/
def fmtS : List Byte := [0x25#8, 0x73#8, 0]

/-- `"%o"`: takes an `int`. -/
def fmtO : List Byte := [0x25#8, 0x6f#8, 0]

/-- file_tar.c:41, 51-56.  The sizes, times and checksums are 64-bit arguments to a directive that takes an `int`: as on x86-64, their lower 32 bits are taken. -/
def header (pf : FloatPrinter) (path : List Byte) (size mtime : BitVec 64) : Except Fault (List Byte) := do
  let hr := List.replicate 512 0
  let hr ← setField pf hr 0 100 12 fmtS [.str (some path)]
  let hr ← setField pf hr 124 12 12 fmtO [.int (size.truncate 32)]
  let hr ← setField pf hr 100 8 8 fmtO [.int 0x1b4#32]
  let hr ← setField pf hr 136 12 12 fmtO [.int (mtime.truncate 32)]
  let hr ← wr hr 156 0x30#8
  setField pf hr 148 8 8 fmtO [.int ((BitVec.ofNat 64 (checksum hr)).truncate 32)]

/-- file_tar.c:68-80: the contents `src` of a file are copied to the archive in portions of 4096 bytes. -/
def copyIn (src : List Byte) : Nat → Nat → Int → File → Except Fault File
  | 0, _, _, _ => .error .diverge
  | fuel + 1, pos, remaining, archive =>
    let buf := readAt src 4096 pos
    if buf.length = 0 then .ok archive
    else
      let archive := write archive buf
      if remaining - buf.length > 0 then copyIn src fuel (pos + buf.length) (remaining - buf.length) archive else .ok archive

/-- file_tar.c:28-33 `zpl__tar_write_null`; `buf` is the buffer of `zpl_bprintf` with what it holds. -/
def writeNull (pf : FloatPrinter) (buf : List Byte) (archive : File) (cnt : Int) : Except Fault File := do
  let (out, _) ← snprintf pf buf Fprintf.maxLen [0x25#8, 0x2a#8, 0x72#8, 0] [.int (BitVec.ofInt 32 cnt), .int 0]
  if cnt.toNat ≤ out.length then .ok (write archive (out.take cnt.toNat)) else .error .oob

/-- file_tar.c:51-90: one file. -/
def packFile (pf : FloatPrinter) (buf : List Byte) (archive : File) (path src : List Byte) (mtime : BitVec 64) : Except Fault File := do
  let hr ← header pf path (BitVec.ofNat 64 src.length) mtime
  let archive := write archive hr
  let total ← Align.alignI64 src.length 512
  let archive ← copyIn src (src.length + 1) 0 src.length archive
  let padding := total - src.length
  if padding > 0 then writeNull pf buf archive padding else .ok archive

/-- What opening a file may give (file.c:201-221 has one error only). -/
inductive Opened where
  | notExists
  | failed
  | file (contents : List Byte) (mtime : BitVec 64)
  /-- a folder can be opened for reading too; `size` is where the system says its end is, and reading from it fails -/
  | folder (size : Int) (mtime : BitVec 64)
  deriving DecidableEq, Repr

/-- file_tar.c:35-98 `zpl_tar_pack`; `fs` is what opening a path gives; the result is 0 or minus an error: 4 file not found, 2 I/O error. -/
def pack (pf : FloatPrinter) (buf : List Byte) (fs : List Byte → Opened) : File → List (List Byte) → Except Fault (File × Int)
  | archive, [] => do .ok (← writeNull pf buf archive 1024, 0)
  | archive, path :: paths =>
    match fs path with
    | .notExists => .ok (archive, -4)
    | .failed => .ok (archive, -2)
    | .file src mtime => do
      let archive ← packFile pf buf archive path src mtime
      pack pf buf fs archive paths
    | .folder size mtime => do
      let hr ← header pf path (BitVec.ofInt 64 size) mtime
      let archive := write archive hr
      let _ ← Align.alignI64 size 512
      .ok (archive, -2)

/-- file_tar.h:38-44 `zpl_tar_record`; `path` is the memory from the pointer on. -/
structure Record where
  type : Byte
  path : List Byte
  offset : Nat
  length : Int
  error : Int
  deriving DecidableEq, Repr

/-- file_tar.c:127-136. -/
def record (hr : List Byte) (pos : Nat) : Except Fault Record := do
  let type ← rd hr 156
  let (length, _) ← Num.strToI64 (hr.drop 124) 8
  let (sum, _) ← Num.strToI64 (hr.drop 148) 8
  .ok { type := type, path := hr, offset := pos, length := length,
        error := if BitVec.ofInt 64 sum ≠ BitVec.ofNat 64 (checksum hr) then 3 else 0 }

/-- The callback: it may look at the archive and change what it keeps.  Simplification: it does not write to the archive (where it leaves the position does not
matter). -/
abbrev Proc (σ : Type) := List Byte → Record → σ → Except Fault (σ × Int)

/-- file_tar.c:117-148, the loop; `hr` is the header read before.  The fuel bounds the number of rounds. -/
def unpackLoop {σ : Type} (proc : Proc σ) : Nat → File → List Byte → σ → Except Fault (σ × Int)
  | 0, _, _, _ => .error .diverge
  | fuel + 1, f, hr, s => do
    let got := readAt f.bytes 512 f.pos
    let hr := got ++ hr.drop got.length
    let f := seek f (f.pos + 512)
    let c ← rd hr 148
    if c = 0 then .ok (s, 0)
    else do
      let rec_ ← record hr f.pos
      let (s, e) ← proc f.bytes rec_ s
      if e > 0 then .ok (s, -1)
      else do
        let off ← Align.alignI64 rec_.length 512
        let to ← Num.i64 (f.pos + off)
        unpackLoop proc fuel (seek f to) hr s

/-- file_tar.c:109-151 `zpl_tar_unpack`: what the callback keeps at the end, and 0 or minus an error. -/
def unpack {σ : Type} (proc : Proc σ) (fuel : Nat) (archive : File) (s : σ) : Except Fault (σ × Int) :=
  unpackLoop proc fuel archive (List.replicate 512 0) s

/-- The files and the directories asked for. -/
structure Disk where
  files : List Byte → Option (List Byte)
  dirs : List (List Byte)

/-- file_tar.c:205-221: the data of a record are copied to the new file in portions of 4096 bytes.  A negative length would be passed to `pread`: `ub`. -/
def copyOut (archive : List Byte) : Nat → Int → Nat → File → Except Fault File
  | 0, _, _, _ => .error .diverge
  | fuel + 1, remaining, pos, f =>
    if remaining < 0 then .error .ub
    else
      let buf := readAt archive (min 4096 remaining.toNat) pos
      if buf.length = 0 then .ok f
      else
        let f := write f buf
        if remaining - buf.length > 0 then copyOut archive fuel (remaining - buf.length) (pos + buf.length) f else .ok f

/-- file_tar.c:177-191: the path the record is written to. -/
def target (maxPath : Nat) (base path : List Byte) : Except Fault (List Byte) := do
  let baseLen ← strlen base
  let len ← strlen path
  if (baseLen : Int) + len - 2 < maxPath then do
    let tmp ← Copy.strcpy (List.replicate maxPath 0) base
    let c ← rd tmp 0
    let tmp ← (if c ≠ 0 then do
        let d ← rd tmp (baseLen - 1)
        if d ≠ Path.sep then Copy.strcat tmp [Path.sep, 0] else .ok tmp
      else .ok tmp)
    Copy.strcat tmp path
  else .error .assertion

/-- file_tar.c:194-201: the directories on the way. -/
def makeDirs (maxPath : Nat) (tmp : List Byte) (d : Disk) : Except Fault Disk := do
  match ← lastOcc Path.sep tmp with
  | none => .ok d
  | some i =>
    let cut ← wr tmp i 0
    match ← Path.mkdirRecursive maxPath cut with
    | none => .ok d
    | some ds => .ok { d with dirs := d.dirs ++ ds }

/-- file_tar.c:203-224: the file is made, or emptied, and filled.  An empty path, or one that ends in a separator, cannot be made; this goes unnoticed and the
uninitialised `zpl_file` is written to: `ub`.  Simplification: other paths never fail. -/
def fill (archive : List Byte) (r : Record) (tmp : List Byte) (d : Disk) : Except Fault Disk := do
  let n ← strlen tmp
  if n = 0 ∨ (tmp.take n).getLast? = some Path.sep then .error .ub
  else
  let f ← copyOut archive (r.length.toNat + 1) r.length r.offset ⟨[], 0⟩
  .ok { d with files := fun q => if q = tmp.take n then some f.bytes else d.files q }

/-- file_tar.c:167-225 `zpl_tar_default_unpack_file` with the directory `base`. -/
def unpackFile (maxPath : Nat) (base : List Byte) : Proc Disk := fun archive r d =>
  if r.error ≠ 0 then .ok (d, 0)
  else if r.type ≠ 0x30#8 then .ok (d, 0)
  else do
    let c ← strncmp false r.path [0x2e#8, 0x2e#8, 0] 2
    if c = 0 then .ok (d, 0)
    else do
      let tmp ← target maxPath base r.path
      let d ← makeDirs maxPath tmp d
      let d ← fill archive r tmp d
      .ok (d, 0)

/-! ## Specification -/

/-- A number in octal digits. -/
def oct (n : Nat) : List Byte := numeral false 8 n

/-- A text in a field, filled with zeros. -/
def field (k : Nat) (s : List Byte) : List Byte := s ++ List.replicate (k - s.length) 0

/-- The header of a file. -/
def headerOf (name size mtime sum : List Byte) : List Byte :=
  field 100 name ++ field 8 [0x36#8, 0x36#8, 0x34#8] ++ List.replicate 16 0 ++ field 12 size ++ field 12 mtime ++ field 8 sum ++ 0x30#8 :: List.replicate 355 0

/-- A file to be packed: its name (with the bytes behind it in memory), its contents and its time. -/
structure Entry where
  name : List Byte
  after : List Byte
  contents : List Byte
  mtime : BitVec 64
  deriving DecidableEq, Repr

def Entry.path (e : Entry) : List Byte := e.name ++ 0 :: e.after

/-- Names of at most 12 characters, less than 2 GiB, a time before 2038. -/
def Entry.Fits (e : Entry) : Prop := Text e.name ∧ e.name.length ≤ 12 ∧ e.contents.length < 2 ^ 31 ∧ e.mtime.toNat < 2 ^ 31

/-- A file to be packed: its name may be longer. -/
def Entry.Packable (e : Entry) : Prop := Text e.name ∧ e.contents.length < 2 ^ 31 ∧ e.mtime.toNat < 2 ^ 31

/-- What is kept of a file: the name, if it has at most 12 characters. -/
def Entry.stored (e : Entry) : Entry := { e with name := if e.name.length ≤ 12 then e.name else [] }

/-- A record tells of a packed file: its name, its length, and where in the archive its contents are. -/
def Describes (archive : List Byte) (e : Entry) (r : Record) : Prop :=
  r.type = 0x30#8 ∧ (∃ t, r.path = e.name ++ 0 :: t) ∧ r.length = e.contents.length ∧ r.error = 0 ∧
    (archive.drop r.offset).take e.contents.length = e.contents ∧ r.offset + e.contents.length ≤ archive.length

/-- The callback gets the records one after another, until it returns a positive number. -/
def deliver {σ : Type} (proc : Proc σ) (archive : List Byte) : List Record → σ → Except Fault (σ × Int)
  | [], s => .ok (s, 0)
  | r :: rs, s => do
    let (s, e) ← proc archive r s
    if e > 0 then .ok (s, -1) else deliver proc archive rs s

/-! ## Octal numbers -/

theorem digit_val : ∀ d : Fin 10, Num.digitVal 8 (digit false d.val) = some d.val ∧ digit false d.val ≠ 0 ∧ digit false d.val ≠ 0x2d#8 := by decide +kernel

theorem oct_text (n : Nat) : Text (oct n) := numeral_text false (by omega) (by omega) n

theorem oct_cons (n : Nat) : ∃ c t, oct n = c :: t ∧ c ≠ 0 ∧ c ≠ 0x2d#8 := by
  obtain ⟨d, t, h⟩ := digits_cons (b := 8) (by omega) n
  have hd := digits_mem (b := 8) (by omega) n d (by rw [h]; simp)
  have := digit_val ⟨d, by omega⟩
  exact ⟨_, t.map (digit false), by rw [oct, numeral, h]; rfl, this.2⟩

theorem leading_map (ds : List Nat) (h : ∀ d ∈ ds, d < 10) (t : List Byte) :
    Num.leadingDigits 8 (ds.map (digit false) ++ t) = ds ++ Num.leadingDigits 8 t := by
  induction ds with
  | nil => rfl
  | cons d ds ih =>
    have := (digit_val ⟨d, h d (by simp)⟩).1
    rw [List.map_cons, List.cons_append, Num.leadingDigits]
    simp only at this
    rw [this]
    simp only [List.cons_append, List.cons.injEq, true_and]
    exact ih (fun x hx => h x (by simp [hx]))

theorem oct_leading (n : Nat) : Num.leadingDigits 8 (oct n) = digits 8 n := by
  have := leading_map (digits 8 n) (fun d hd => by have := digits_mem (b := 8) (by omega) n d hd; omega) []
  simpa [Num.leadingDigits, oct, numeral] using this

theorem oct_value {n : Nat} (h : n < 2 ^ 63) (r : List Byte) : Num.strToI64 (oct n ++ 0 :: r) 8 = .ok ((n : Int), (oct n).length) := by
  have := Num.C25_i64_partial (oct_text n) r (base := 8) (by omega)
  obtain ⟨c, t, hc, h1, h2⟩ := oct_cons n
  have e1 : ¬ ((oct n).head? = some 0x2D#8) := by rw [hc]; simpa using h2
  have hl : (digits 8 n).length = (oct n).length := by simp [oct, numeral]
  simp only [if_neg e1, Num.after0x, show ¬ (8 = 16 ∧ [0x30#8, 0x78#8] <+: oct n) from fun h => absurd h.1 (by omega), if_false, oct_leading, digits_value (b := 8) (by omega), if_pos h, hl, Nat.sub_self, Nat.zero_add] at this
  exact this

theorem digits_length (k : Nat) : ∀ n, 1 ≤ k → n < 8 ^ k → (digits 8 n).length ≤ k := by
  induction k with
  | zero => intro n h; omega
  | succ k ih =>
    intro n _ hn
    by_cases h : n < 8
    · rw [digits_lt h]; simp
    · rw [digits_ge (by omega) (by omega)]
      rcases Nat.eq_zero_or_pos k with rfl | hk
      · simp at hn; omega
      · have : n / 8 < 8 ^ k := by rw [Nat.pow_succ] at hn; omega
        have := ih (n / 8) hk this
        simp; omega

theorem oct_length {n k : Nat} (hk : 1 ≤ k) (h : n < 8 ^ k) : (oct n).length ≤ k := by
  have := digits_length k n hk h
  simpa [oct, numeral] using this

/-! ## Fields -/

theorem field_length {k : Nat} {s : List Byte} (h : s.length ≤ k) : (field k s).length = k := by simp [field]; omega

theorem setField_of {pf : FloatPrinter} {a b c t : List Byte} {off len maxLen : Nat} (ha : a.length = off) (hb : b.length = len) {fmt : List Byte} {args : List Arg} {n : Int}
    (h : snprintf pf b maxLen fmt args = .ok (t, n)) : setField pf (a ++ b ++ c) off len maxLen fmt args = .ok (a ++ t ++ c) := by
  have e1 : ((a ++ b ++ c).drop off).take len = b := by rw [List.append_assoc, ← ha, List.drop_left, ← hb, List.take_left]
  have e2 : (a ++ b ++ c).take off = a := by rw [List.append_assoc, ← ha, List.take_left]
  have e3 : (a ++ b ++ c).drop (off + len) = c := by rw [← ha, ← hb, ← List.length_append, List.drop_left]
  rw [setField, e1, h, except_ok_bind]
  dsimp only
  rw [e2, e3]

theorem snprintf_o (pf : FloatPrinter) {v : BitVec 32} {n : Nat} (hv : v.toInt = n) {len maxLen : Nat} (h1 : (oct n).length < maxLen) (h2 : (oct n).length < len) :
    ∃ r, snprintf pf (List.replicate len 0) maxLen fmtO [.int v] = .ok (field len (oct n), r) := by
  have hn : n < 2 ^ 31 := by
    have := BitVec.toInt_lt (x := v); omega
  have hr : render { items := [([], { conv := .o })], last := [] } [.int v] = some (oct n) := by
    have h3 : ¬ ((n : Int) = -(2 ^ 63)) := by omega
    have h4 : signed 8 (n : Int) = oct n := by simp [signed, oct]
    simp only [render, renderItems, renderDirective, widthOf, precisionOf, body, intArg, Option.bind_some, Option.map_some, if_true, hv, if_neg h3, h4]
    simp only [layout, upTo, takeWhile_self (oct_text n)]
    simp
  obtain ⟨t, e, hl, ht, hd, -⟩ := C54_fits_partial pf { items := [([], { conv := .o })], last := [] } ⟨by simp [Literal, Directive.Valid], by simp [Literal]⟩ _ hr [] (List.replicate len 0) maxLen h1
    (oct n).length (Nat.le_refl _) (by simpa using h2) (by simp)
  have : t = field len (oct n) := by
    rw [← List.take_append_drop ((oct n).length + 1) t, ht, hd, field]
    obtain ⟨k, hk⟩ : ∃ k, len = (oct n).length + 1 + k := ⟨len - (oct n).length - 1, by omega⟩
    rw [List.drop_replicate, hk, show (oct n).length + 1 + k - (oct n).length = k + 1 by omega, List.replicate_succ, show (oct n).length + 1 + k - ((oct n).length + 1) = k by omega]
    simp
  rw [this] at e
  exact ⟨_, e⟩

theorem snprintf_s (pf : FloatPrinter) {s : List Byte} (hs : Text s) (hl : s.length ≤ 12) (rest : List Byte) :
    ∃ r, snprintf pf (List.replicate 100 0) 12 fmtS [.str (some (s ++ 0 :: rest))] = .ok (field 100 s, r) := by
  rcases Nat.lt_or_ge s.length 12 with h | h
  · have hr := Fprintf.render_s hs rest [] []
    rw [List.nil_append, List.append_nil] at hr
    obtain ⟨t, e, hl, ht, hd, -⟩ := C54_fits_partial pf { items := [([], { conv := .s })], last := [] } ⟨by simp [Literal, Directive.Valid], by simp [Literal]⟩ _ hr [] (List.replicate 100 0) 12 h
      s.length (Nat.le_refl _) (by simp; omega) (by simp)
    have : t = field 100 s := by
      rw [← List.take_append_drop (s.length + 1) t, ht, hd, field, List.drop_replicate, show 100 - s.length = (100 - (s.length + 1)) + 1 by omega, List.replicate_succ]
      simp
    rw [this] at e
    exact ⟨_, e⟩
  · have h12 : s.length = 12 := by omega
    have := C54_exact_text_overflows pf hs (by rintro rfl; simp at h12) rest [] (List.replicate 100 0) (by simp; omega)
    rw [h12] at this
    rw [show s ++ 0 :: (List.replicate 100 (0 : Byte)).drop (12 + 1) = field 100 s by rw [field, h12]; rfl] at this
    exact ⟨_, this⟩

theorem stored_fits {e : Entry} (h : e.Packable) : e.stored.Fits := by
  refine ⟨?_, ?_, h.2⟩
  · show Text (if _ then _ else _)
    split
    · exact h.1
    · exact text_nil
  · show (if _ then _ else _ : List Byte).length ≤ 12
    split
    · assumption
    · simp

theorem snprintf_stored (pf : FloatPrinter) {e : Entry} (h : e.Packable) :
    ∃ r, snprintf pf (List.replicate 100 0) 12 fmtS [.str (some e.path)] = .ok (field 100 e.stored.name, r) := by
  by_cases hl : e.name.length ≤ 12
  · obtain ⟨r, he⟩ := snprintf_s pf h.1 hl e.after
    refine ⟨r, ?_⟩
    rw [Entry.path, he, Entry.stored, if_pos hl]
  · have := C54_long_text_dropped pf h.1 e.after [] 0 (List.replicate 99 0) (maxLen := 12) (by omega) (by omega)
    refine ⟨1, ?_⟩
    rw [Entry.path, Entry.stored, if_neg hl]
    exact this

theorem checksum_of (name size mtime sum : List Byte) (h1 : name.length ≤ 100) (h2 : size.length ≤ 12) (h3 : mtime.length ≤ 12) (h4 : sum.length ≤ 8) :
    checksum (headerOf name size mtime sum) = checksum (headerOf name size mtime []) := by
  have key : ∀ sum : List Byte, sum.length ≤ 8 → (headerOf name size mtime sum).take 148 = field 100 name ++ field 8 [0x36#8, 0x36#8, 0x34#8] ++ List.replicate 16 0 ++ field 12 size ++ field 12 mtime ∧
      (headerOf name size mtime sum).drop 156 = 0x30#8 :: List.replicate 355 0 := by
    intro sum h4
    have l1 := field_length h1
    have l2 := field_length h2
    have l3 := field_length h3
    have l4 := field_length h4
    have l5 : (field 8 [0x36#8, 0x36#8, 0x34#8]).length = 8 := rfl
    generalize hA : field 100 name ++ field 8 [0x36#8, 0x36#8, 0x34#8] ++ List.replicate 16 0 ++ field 12 size ++ field 12 mtime = A
    have lA : A.length = 148 := by rw [← hA]; simp only [List.length_append, List.length_replicate, l1, l2, l3, l5]
    have e : headerOf name size mtime sum = A ++ (field 8 sum ++ 0x30#8 :: List.replicate 355 0) := by rw [headerOf, ← hA]; simp only [List.append_assoc]
    rw [e]
    constructor
    · rw [← lA, List.take_left]
    · rw [← List.append_assoc, show 156 = (A ++ field 8 sum).length by rw [List.length_append, lA, l4], List.drop_left]
  obtain ⟨a1, a2⟩ := key sum h4
  obtain ⟨b1, b2⟩ := key [] (by simp)
  rw [checksum, checksum, a1, a2, b1, b2]

theorem sum_bytes (l : List Byte) : (l.map BitVec.toNat).sum ≤ 255 * l.length := by
  induction l with
  | nil => simp
  | cons c l ih =>
    have := c.isLt
    simp; omega

theorem checksum_lt (hr : List Byte) (h : hr.length = 512) : checksum hr < 8 ^ 6 := by
  have h1 := sum_bytes (hr.take 148)
  have h2 := sum_bytes (hr.drop 156)
  rw [List.length_take, h] at h1
  rw [List.length_drop, h] at h2
  rw [checksum]
  omega

theorem headerOf_length (name size mtime sum : List Byte) (h1 : name.length ≤ 100) (h2 : size.length ≤ 12) (h3 : mtime.length ≤ 12) (h4 : sum.length ≤ 8) :
    (headerOf name size mtime sum).length = 512 := by
  simp only [headerOf, List.length_append, field_length h1, field_length h2, field_length h3, field_length h4, field_length (k := 8) (s := [0x36#8, 0x36#8, 0x34#8]) (by simp), List.length_replicate, List.length_cons]

/-- The checksum of the header of a file. -/
def sumOf (e : Entry) : Nat := checksum (headerOf e.name (oct e.contents.length) (oct e.mtime.toNat) [])

/-- The header of a file. -/
def headerFor (e : Entry) : List Byte := headerOf e.name (oct e.contents.length) (oct e.mtime.toNat) (oct (sumOf e))

theorem small_length {n : Nat} (h : n < 2 ^ 31) : (oct n).length ≤ 11 := oct_length (by omega) (by omega)

theorem sum_small {e : Entry} (h : e.Fits) : sumOf e < 8 ^ 6 :=
  checksum_lt _ (headerOf_length _ _ _ _ (by have := h.2.1; omega) (by have := small_length h.2.2.1; omega) (by have := small_length h.2.2.2; omega) (by simp))

theorem int32 {n : Nat} (h : n < 2 ^ 31) : ((BitVec.ofNat 64 n).truncate 32).toInt = n := by
  have : ((BitVec.ofNat 64 n).truncate 32).toNat = n := by simp; omega
  rw [BitVec.toInt_eq_toNat_of_lt (by omega), this]

theorem replicate_split (a b : Nat) : List.replicate (a + b) (0 : Byte) = List.replicate a 0 ++ List.replicate b 0 := List.replicate_append_replicate.symm

theorem header_ok (pf : FloatPrinter) {e : Entry} (h : e.Fits) {path : List Byte} (hpath : ∃ r, snprintf pf (List.replicate 100 0) 12 fmtS [.str (some path)] = .ok (field 100 e.name, r)) :
    header pf path (BitVec.ofNat 64 e.contents.length) e.mtime = .ok (headerFor e) := by
  obtain ⟨ht, hn, hc, hm⟩ := h
  have l2 := small_length hc
  have l3 := small_length hm
  obtain ⟨r1, e1⟩ := hpath
  obtain ⟨r2, e2⟩ := snprintf_o pf (int32 hc) (len := 12) (maxLen := 12) (by omega) (by omega)
  obtain ⟨r3, e3⟩ := snprintf_o pf (v := 0x1b4#32) (n := 0x1b4) rfl (len := 8) (maxLen := 8) (by have := oct_length (n := 0x1b4) (k := 3) (by omega) (by omega); omega)
    (by have := oct_length (n := 0x1b4) (k := 3) (by omega) (by omega); omega)
  have hm' : (e.mtime.truncate 32).toInt = e.mtime.toNat := by
    have := int32 hm
    rwa [BitVec.ofNat_toNat, BitVec.setWidth_eq] at this
  obtain ⟨r4, e4⟩ := snprintf_o pf hm' (len := 12) (maxLen := 12) (by omega) (by omega)
  have h6 : oct 0x1b4 = [0x36#8, 0x36#8, 0x34#8] := by
    simp [oct, numeral, digits_ge (b := 8) (n := 436), digits_ge (b := 8) (n := 54), digits_lt (b := 8) (n := 6), digit]
  have hsum := sum_small (e := e) ⟨ht, hn, hc, hm⟩
  have l6 := oct_length (n := sumOf e) (k := 6) (by omega) hsum
  obtain ⟨r5, e5⟩ := snprintf_o pf (int32 (n := sumOf e) (by omega)) (len := 8) (maxLen := 8) (by omega) (by omega)
  have l1 : (field 100 e.name).length = 100 := field_length (by omega)
  have l4 : (field 12 (oct e.contents.length)).length = 12 := field_length (by omega)
  have l5 : (field 12 (oct e.mtime.toNat)).length = 12 := field_length (by omega)
  have l7 : (field 8 (oct 0x1b4)).length = 8 := by rw [h6]; rfl
  rw [header, show List.replicate 512 (0 : Byte) = [] ++ List.replicate 100 0 ++ (List.replicate 24 0 ++ List.replicate 12 0 ++ List.replicate 376 0) by
    rw [← replicate_split, ← replicate_split, List.nil_append, ← replicate_split], setField_of (a := []) (off := 0) rfl (List.length_replicate) e1, except_ok_bind]
  rw [show [] ++ field 100 e.name ++ (List.replicate 24 0 ++ List.replicate 12 0 ++ List.replicate 376 0) = (field 100 e.name ++ List.replicate 24 0) ++ List.replicate 12 0 ++ List.replicate 376 0 by simp only [List.append_assoc, List.nil_append],
    setField_of (by simp only [List.length_append, List.length_replicate, l1]) List.length_replicate e2, except_ok_bind]
  rw [show (field 100 e.name ++ List.replicate 24 0) ++ field 12 (oct e.contents.length) ++ List.replicate 376 0 =
      field 100 e.name ++ List.replicate 8 0 ++ (List.replicate 16 0 ++ field 12 (oct e.contents.length) ++ List.replicate 376 0) by
      rw [show (24 : Nat) = 8 + 16 from rfl, replicate_split 8 16]; simp only [List.append_assoc],
    setField_of l1 List.length_replicate e3, except_ok_bind]
  rw [show field 100 e.name ++ field 8 (oct 436) ++ (List.replicate 16 0 ++ field 12 (oct e.contents.length) ++ List.replicate 376 0) =
      (field 100 e.name ++ field 8 (oct 436) ++ List.replicate 16 0 ++ field 12 (oct e.contents.length)) ++ List.replicate 12 0 ++ (List.replicate 8 0 ++ (List.replicate 1 0 ++ List.replicate 355 0)) by
      rw [← replicate_split 1, ← replicate_split 8, show (376 : Nat) = 12 + (8 + (1 + 355)) from rfl, replicate_split 12 _]; simp only [List.append_assoc],
    setField_of (by simp only [List.length_append, List.length_replicate, l1, l4, l7]) List.length_replicate e4, except_ok_bind]
  generalize hA : field 100 e.name ++ field 8 (oct 436) ++ List.replicate 16 0 ++ field 12 (oct e.contents.length) ++ field 12 (oct e.mtime.toNat) = A
  have lA : A.length = 148 := by rw [← hA]; simp only [List.length_append, List.length_replicate, l1, l4, l5, l7]
  have hw : wr (A ++ (List.replicate 8 0 ++ (List.replicate 1 0 ++ List.replicate 355 0))) 156 0x30#8 = .ok (A ++ List.replicate 8 0 ++ 0x30#8 :: List.replicate 355 0) := by
    rw [wr_ok (by simp only [List.length_append, List.length_replicate, lA]; omega), show (156 : Nat) = (A ++ List.replicate 8 0).length by simp only [List.length_append, List.length_replicate, lA], ← List.append_assoc, List.set_append_right _ _ (Nat.le_refl _), Nat.sub_self]
    rfl
  rw [hw, except_ok_bind]
  have hS : checksum (A ++ List.replicate 8 0 ++ 0x30#8 :: List.replicate 355 0) = sumOf e := by
    rw [sumOf, headerOf, ← hA, h6]
    rfl
  rw [hS, setField_of lA List.length_replicate e5, headerFor, headerOf, ← hA, h6]

/-! ## Writing the archive -/

/-- The position is inside the file or at its end. -/
def File.Ok (f : File) : Prop := f.pos ≤ f.bytes.length

theorem write_eq {f : File} (h : f.Ok) (data : List Byte) : write f data = ⟨f.bytes.take f.pos ++ data ++ f.bytes.drop (f.pos + data.length), f.pos + data.length⟩ := by
  have : f.pos - f.bytes.length = 0 := by have : f.pos ≤ f.bytes.length := h; omega
  simp [write, this]

theorem write_file {f : File} (h : f.Ok) (data : List Byte) : (write f data).Ok := by
  have : f.pos ≤ f.bytes.length := h
  rw [write_eq h, File.Ok]
  simp; omega

theorem write_nil {f : File} (h : f.Ok) : write f [] = f := by rw [write_eq h]; simp

theorem write_write {f : File} (h : f.Ok) (a b : List Byte) : write (write f a) b = write f (a ++ b) := by
  have hp : f.pos ≤ f.bytes.length := h
  rw [write_eq (write_file h a), write_eq h, write_eq h]
  have hl : (f.bytes.take f.pos ++ a).length = f.pos + a.length := by simp; omega
  simp only [List.length_append, File.mk.injEq]
  refine ⟨?_, by omega⟩
  have e1 : (f.bytes.take f.pos ++ a ++ f.bytes.drop (f.pos + a.length)).take (f.pos + a.length) = f.bytes.take f.pos ++ a := by rw [← hl, List.take_left]
  have e2 : (f.bytes.take f.pos ++ a ++ f.bytes.drop (f.pos + a.length)).drop (f.pos + a.length + b.length) = f.bytes.drop (f.pos + (a.length + b.length)) := by
    rw [← List.drop_drop, ← hl, List.drop_left, hl, List.drop_drop, Nat.add_assoc]
  rw [e1, e2]
  simp

theorem copyIn_ok (src : List Byte) : ∀ (fuel pos : Nat) (f : File), f.Ok → pos ≤ src.length → src.length - pos < fuel →
    copyIn src fuel pos ((src.length : Int) - pos) f = .ok (write f (src.drop pos)) := by
  intro fuel
  induction fuel with
  | zero => intro pos f _ _ h; omega
  | succ fuel ih =>
    intro pos f hf hp hfuel
    rw [copyIn]
    dsimp only
    have hb : (readAt src 4096 pos).length = min 4096 (src.length - pos) := by simp [readAt]
    split
    · rename_i h
      have : src.drop pos = [] := List.drop_eq_nil_of_le (by omega)
      rw [this, write_nil hf]
    · rename_i h
      have hcat : readAt src 4096 pos ++ src.drop (pos + (readAt src 4096 pos).length) = src.drop pos := by
        rw [← List.drop_drop, hb, readAt]
        rcases Nat.le_total 4096 (src.length - pos) with hh | hh
        · rw [Nat.min_eq_left hh, List.take_append_drop]
        · rw [Nat.min_eq_right hh, List.take_of_length_le (by simp; omega), List.drop_eq_nil_of_le (as := src.drop pos) (by simp), List.append_nil]
      split
      · rename_i h2
        have e := ih (pos + (readAt src 4096 pos).length) (write f (readAt src 4096 pos)) (write_file hf _) (by omega) (by omega)
        rw [show ((src.length : Int) - (pos + (readAt src 4096 pos).length : Nat)) = (src.length : Int) - pos - (readAt src 4096 pos).length by omega] at e
        rw [e, write_write hf, hcat]
      · rename_i h2
        have : src.drop (pos + (readAt src 4096 pos).length) = [] := List.drop_eq_nil_of_le (by omega)
        rw [this, List.append_nil] at hcat
        rw [hcat]

theorem writeNull_ok (pf : FloatPrinter) {buf : List Byte} (hb : buf.length = Fprintf.maxLen) (f : File) {n : Nat} (h0 : 0 < n) (hn : n + 1 < Fprintf.maxLen) :
    writeNull pf buf f n = .ok (write f (List.replicate n 0)) := by
  obtain ⟨o, e, h2⟩ := Fprintf.fprintf_r_any pf (o := ⟨buf, []⟩) hb h0 hn 0 []
  rw [Fprintf.fprintf] at e
  cases hp : snprintf pf buf Fprintf.maxLen [0x25#8, 0x2a#8, 0x72#8, 0] [.int (BitVec.ofInt 32 n), .int 0] with
  | error x => rw [hp] at e; cases e
  | ok p =>
    obtain ⟨out, len⟩ := p
    rw [hp, except_ok_bind] at e
    dsimp only at e
    split at e
    · cases e
    · rename_i hlen
      injection e with e
      subst e
      have h2' : out.take (len - 1).toNat = List.replicate n 0 := by simpa using h2
      have hl : (out.take (len - 1).toNat).length = n := by rw [h2']; simp
      have hle : n ≤ out.length := by rw [List.length_take] at hl; omega
      have h3 : out.take n = List.replicate n 0 := by
        have := congrArg (List.take n) h2'
        rw [List.take_take] at this
        rw [List.length_take] at hl
        rw [Nat.min_eq_left (by omega)] at this
        rw [this]; simp
      rw [writeNull, hp, except_ok_bind]
      dsimp only
      rw [Int.toNat_natCast, if_pos hle, h3]

/-- How many zeros fill the last block of 512 bytes. -/
def pad (n : Nat) : Nat := (512 - n % 512) % 512

theorem align_ok {n : Nat} (h : n < 2 ^ 62) : Align.alignI64 n 512 = .ok ((n + pad n : Nat) : Int) := by
  have h1 : ((n : Int).tmod 512) = ((n % 512 : Nat) : Int) := by
    rw [Int.tmod_eq_emod_of_nonneg (by omega)]; omega
  have h2 : ((512 : Int) - ((n % 512 : Nat) : Int)).tmod 512 = ((pad n : Nat) : Int) := by
    rw [Int.tmod_eq_emod_of_nonneg (by omega), pad]; omega
  have hp : pad n < 512 := by unfold pad; omega
  simp only [Align.alignI64, Align.remI64, Align.chk, h1]
  rw [if_neg (by omega), if_neg (by omega), except_ok_bind, if_pos (by omega), except_ok_bind, if_neg (by omega), if_neg (by omega), except_ok_bind, h2, if_pos (by omega)]
  congr 1

/-- What a file looks like in the archive. -/
def entryBytes (e : Entry) : List Byte := headerFor e ++ e.contents ++ List.replicate (pad e.contents.length) 0

theorem packFile_ok (pf : FloatPrinter) {buf : List Byte} (hb : buf.length = Fprintf.maxLen) {f : File} (hf : f.Ok) {e : Entry} (he : e.Packable) :
    packFile pf buf f e.path e.contents e.mtime = .ok (write f (entryBytes e.stored)) := by
  have hl : e.contents.length < 2 ^ 31 := he.2.1
  have hm : Fprintf.maxLen = 65536 := rfl
  have e1 := copyIn_ok e.contents (e.contents.length + 1) 0 (write f (headerFor e.stored)) (write_file hf _) (by omega) (by omega)
  have hh : header pf e.path (BitVec.ofNat 64 e.contents.length) e.mtime = .ok (headerFor e.stored) := header_ok pf (stored_fits he) (snprintf_stored pf he)
  have hc : e.stored.contents = e.contents := rfl
  rw [packFile, hh, except_ok_bind]
  dsimp only
  rw [align_ok (by omega), except_ok_bind]
  rw [show ((e.contents.length : Int) - (0 : Nat)) = e.contents.length by omega] at e1
  rw [e1, except_ok_bind, List.drop_zero, write_write hf]
  have hp : pad e.contents.length < 512 := by unfold pad; omega
  rw [show (((e.contents.length + pad e.contents.length : Nat) : Int) - e.contents.length) = (pad e.contents.length : Int) by omega]
  by_cases h0 : pad e.contents.length = 0
  · rw [if_neg (by omega), entryBytes, hc, h0]
    simp
  · rw [if_pos (by omega), writeNull_ok pf hb _ (by omega) (by omega), write_write hf, entryBytes, hc]

theorem pack_ok (pf : FloatPrinter) {buf : List Byte} (hb : buf.length = Fprintf.maxLen) (fs : List Byte → Opened) (es : List Entry) :
    ∀ {f : File}, f.Ok → (∀ e ∈ es, e.Packable ∧ fs e.path = .file e.contents e.mtime) →
      pack pf buf fs f (es.map Entry.path) = .ok (write f ((es.map Entry.stored).flatMap entryBytes ++ List.replicate 1024 0), 0) := by
  have hm : Fprintf.maxLen = 65536 := rfl
  induction es with
  | nil =>
    intro f hf _
    rw [List.map_nil, pack, show (1024 : Int) = ((1024 : Nat) : Int) from rfl, writeNull_ok pf hb f (by omega) (by omega), except_ok_bind]
    rfl
  | cons e es ih =>
    intro f hf h
    obtain ⟨he, hfs⟩ := h e (by simp)
    rw [List.map_cons, pack, hfs]
    dsimp only
    rw [packFile_ok pf hb hf he, except_ok_bind, ih (write_file hf _) (fun x hx => h x (by simp [hx])), write_write hf]
    simp only [List.map_cons, List.flatMap_cons, List.append_assoc]

/-! ## Reading the archive -/

theorem headerFor_length {e : Entry} (h : e.Fits) : (headerFor e).length = 512 :=
  headerOf_length _ _ _ _ (by have := h.2.1; omega) (by have := small_length h.2.2.1; omega) (by have := small_length h.2.2.2; omega)
    (by have := oct_length (n := sumOf e) (k := 6) (by omega) (sum_small h); omega)

theorem field_cons {k : Nat} {s : List Byte} (h : s.length < k) : field k s = s ++ 0 :: List.replicate (k - s.length - 1) 0 := by
  rw [field, show k - s.length = (k - s.length - 1) + 1 by omega, List.replicate_succ]
  simp

theorem record_ok {e : Entry} (h : e.Fits) (pos : Nat) :
    record (headerFor e) pos = .ok { type := 0x30#8, path := headerFor e, offset := pos, length := e.contents.length, error := 0 } := by
  have l2 := small_length h.2.2.1
  have l3 := small_length h.2.2.2
  have ls := sum_small h
  have l6 := oct_length (n := sumOf e) (k := 6) (by omega) ls
  have k1 : (field 100 e.name).length = 100 := field_length (by have := h.2.1; omega)
  have k2 : (field 12 (oct e.contents.length)).length = 12 := field_length (by omega)
  have k3 : (field 12 (oct e.mtime.toNat)).length = 12 := field_length (by omega)
  have k4 : (field 8 (oct (sumOf e))).length = 8 := field_length (by omega)
  have k5 : (field 8 [0x36#8, 0x36#8, 0x34#8]).length = 8 := rfl
  have hlen := headerFor_length h
  generalize hA : field 100 e.name ++ field 8 [0x36#8, 0x36#8, 0x34#8] ++ List.replicate 16 0 = A
  have lA : A.length = 124 := by rw [← hA]; simp only [List.length_append, List.length_replicate, k1, k5]
  have d1 : (headerFor e).drop 124 = field 12 (oct e.contents.length) ++ (field 12 (oct e.mtime.toNat) ++ field 8 (oct (sumOf e)) ++ 0x30#8 :: List.replicate 355 0) := by
    rw [headerFor, headerOf, hA, ← lA]
    simp only [List.append_assoc, List.drop_left]
  have d2 : (headerFor e).drop 148 = field 8 (oct (sumOf e)) ++ 0x30#8 :: List.replicate 355 0 := by
    have : (headerFor e).drop 148 = ((headerFor e).drop 124).drop 24 := by rw [List.drop_drop]
    rw [this, d1, show (24 : Nat) = (field 12 (oct e.contents.length) ++ field 12 (oct e.mtime.toNat)).length by rw [List.length_append, k2, k3]]
    rw [show field 12 (oct e.contents.length) ++ (field 12 (oct e.mtime.toNat) ++ field 8 (oct (sumOf e)) ++ 0x30#8 :: List.replicate 355 0) =
      field 12 (oct e.contents.length) ++ field 12 (oct e.mtime.toNat) ++ (field 8 (oct (sumOf e)) ++ 0x30#8 :: List.replicate 355 0) by simp only [List.append_assoc], List.drop_left]
  have d3 : (headerFor e).drop 156 = 0x30#8 :: List.replicate 355 0 := by
    have : (headerFor e).drop 156 = ((headerFor e).drop 148).drop 8 := by rw [List.drop_drop]
    rw [this, d2]
    exact List.drop_left' k4
  have t : rd (headerFor e) 156 = .ok 0x30#8 := by
    have : (headerFor e)[156]? = ((headerFor e).drop 156)[0]? := by rw [List.getElem?_drop]
    rw [rd, this, d3]
    rfl
  have s1 : Num.strToI64 ((headerFor e).drop 124) 8 = .ok ((e.contents.length : Int), (oct e.contents.length).length) := by
    rw [d1, field_cons (by omega), List.append_assoc, List.cons_append, oct_value (by have := h.2.2.1; omega)]
  have s2 : Num.strToI64 ((headerFor e).drop 148) 8 = .ok ((sumOf e : Int), (oct (sumOf e)).length) := by
    rw [d2, field_cons (by omega), List.append_assoc, List.cons_append, oct_value (by omega)]
  have hs : checksum (headerFor e) = sumOf e := by
    rw [headerFor, checksum_of _ _ _ _ (by have := h.2.1; omega) (by omega) (by omega) (by omega), sumOf]
  rw [record, t, except_ok_bind, s1, except_ok_bind]
  dsimp only
  rw [s2, except_ok_bind]
  dsimp only
  rw [hs, if_neg (by simp)]

theorem rd_sum {e : Entry} (h : e.Fits) : ∃ c, rd (headerFor e) 148 = .ok c ∧ c ≠ 0 := by
  have l2 := small_length h.2.2.1
  have l3 := small_length h.2.2.2
  have k1 : (field 100 e.name).length = 100 := field_length (by have := h.2.1; omega)
  have k2 : (field 12 (oct e.contents.length)).length = 12 := field_length (by omega)
  have k3 : (field 12 (oct e.mtime.toNat)).length = 12 := field_length (by omega)
  have k5 : (field 8 [0x36#8, 0x36#8, 0x34#8]).length = 8 := rfl
  obtain ⟨c, t, hc, h0, -⟩ := oct_cons (sumOf e)
  refine ⟨c, ?_, h0⟩
  generalize hA : field 100 e.name ++ field 8 [0x36#8, 0x36#8, 0x34#8] ++ List.replicate 16 0 ++ field 12 (oct e.contents.length) ++ field 12 (oct e.mtime.toNat) = A
  have lA : A.length = 148 := by rw [← hA]; simp only [List.length_append, List.length_replicate, k1, k2, k3, k5]
  rw [rd, headerFor, headerOf, hA, hc, field, List.append_assoc, List.getElem?_append_right (by omega), lA]
  rfl

/-- The records of an archive that begins at `pos`. -/
def recordsFrom : Nat → List Entry → List Record
  | _, [] => []
  | pos, e :: es => { type := 0x30#8, path := headerFor e, offset := pos + 512, length := e.contents.length, error := 0 } ::
      recordsFrom (pos + (entryBytes e).length) es

theorem entry_length {e : Entry} (h : e.Fits) : (entryBytes e).length = 512 + (e.contents.length + pad e.contents.length) := by
  rw [entryBytes, List.length_append, List.length_append, headerFor_length h, List.length_replicate, Nat.add_assoc]

theorem unpackLoop_ok {σ : Type} (proc : Proc σ) (bytes : List Byte) (hsz : bytes.length < 2 ^ 62) (es : List Entry) :
    ∀ (fuel pos : Nat) (hr rest : List Byte) (s : σ), (∀ e ∈ es, e.Fits) → hr.length = 512 → es.length < fuel →
      bytes.drop pos = es.flatMap entryBytes ++ List.replicate 1024 0 ++ rest →
      unpackLoop proc fuel ⟨bytes, pos⟩ hr s = deliver proc bytes (recordsFrom pos es) s := by
  induction es with
  | nil =>
    intro fuel pos hr rest s _ hl hf hd
    obtain ⟨fuel, rfl⟩ : ∃ m, fuel = m + 1 := ⟨fuel - 1, by simp at hf; omega⟩
    have hg : readAt bytes 512 pos = List.replicate 512 0 := by
      rw [readAt, hd, List.flatMap_nil, List.nil_append, show (1024 : Nat) = 512 + 512 from rfl, replicate_split, List.append_assoc,
        List.take_append_of_le_length (Nat.le_of_eq List.length_replicate.symm), List.take_of_length_le (Nat.le_of_eq List.length_replicate)]
    have hn : hr.drop 512 = [] := List.drop_eq_nil_of_le (by omega)
    have h0 : rd (List.replicate 512 (0 : Byte)) 148 = .ok 0 := by
      rw [rd, List.getElem?_replicate, if_pos (by omega)]
    rw [unpackLoop]
    dsimp only
    rw [hg, List.length_replicate, hn, List.append_nil, h0, except_ok_bind, if_pos rfl]
    rfl
  | cons e es ih =>
    intro fuel pos hr rest s he hl hf hd
    obtain ⟨fuel, rfl⟩ : ∃ m, fuel = m + 1 := ⟨fuel - 1, by simp at hf; omega⟩
    have hfit := he e (by simp)
    have lh := headerFor_length hfit
    have hd1 : bytes.drop pos = headerFor e ++ (e.contents ++ List.replicate (pad e.contents.length) 0 ++ (es.flatMap entryBytes ++ List.replicate 1024 0 ++ rest)) := by
      rw [hd, List.flatMap_cons, entryBytes]; simp only [List.append_assoc]
    have hg : readAt bytes 512 pos = headerFor e := by
      rw [readAt, hd1, ← lh, List.take_left]
    have hn : hr.drop 512 = [] := List.drop_eq_nil_of_le (by omega)
    obtain ⟨c, hc, hc0⟩ := rd_sum hfit
    have hs1 : seek ⟨bytes, pos⟩ ((pos : Int) + 512) = ⟨bytes, pos + 512⟩ := by
      rw [seek, if_neg (by omega)]; congr 1
    have hlen : pos + (entryBytes e).length + 1024 ≤ bytes.length := by
      have := congrArg List.length hd
      simp only [List.length_drop, List.length_append, List.flatMap_cons, List.length_replicate] at this
      omega
    have hel := entry_length hfit
    have hal := align_ok (n := e.contents.length) (by have := hfit.2.2.1; omega)
    rw [unpackLoop]
    dsimp only
    rw [hg, lh, hn, List.append_nil, hc, except_ok_bind, if_neg hc0, hs1]
    dsimp only
    rw [record_ok hfit, except_ok_bind, recordsFrom, deliver]
    cases hp : proc bytes { type := 0x30#8, path := headerFor e, offset := pos + 512, length := e.contents.length, error := 0 } s with
    | error x => rfl
    | ok p =>
      obtain ⟨s', x⟩ := p
      rw [except_ok_bind, except_ok_bind]
      dsimp only
      by_cases hx : x > 0
      · rw [if_pos hx, if_pos hx]
      · rw [if_neg hx, if_neg hx, hal, except_ok_bind, Num.i64, if_pos (by omega), except_ok_bind]
        have hs2 : seek ⟨bytes, pos + 512⟩ (((pos + 512 : Nat) : Int) + ((e.contents.length + pad e.contents.length : Nat) : Int)) = ⟨bytes, pos + (entryBytes e).length⟩ := by
          rw [seek, if_neg (by omega)]; congr 1; omega
        rw [hs2]
        refine ih fuel _ _ rest s' (fun x hx => he x (by simp [hx])) lh (by simp at hf; omega) ?_
        rw [← List.drop_drop, hd, List.flatMap_cons, List.append_assoc, List.append_assoc, List.drop_left, List.append_assoc]

theorem describes (bytes : List Byte) (es : List Entry) : ∀ (pos : Nat) (rest : List Byte), (∀ e ∈ es, e.Fits) →
    bytes.drop pos = es.flatMap entryBytes ++ rest → ∀ (i : Nat) (e : Entry) (r : Record), es[i]? = some e → (recordsFrom pos es)[i]? = some r → Describes bytes e r := by
  induction es with
  | nil => intro pos rest _ _ i e r h; simp at h
  | cons x es ih =>
    intro pos rest hfit hd i e r hi hr
    have hx := hfit x (by simp)
    cases i with
    | succ i =>
      rw [recordsFrom] at hr
      exact ih (pos + (entryBytes x).length) rest (fun y hy => hfit y (by simp [hy])) (by rw [← List.drop_drop, hd, List.flatMap_cons, List.append_assoc, List.drop_left]) i e r (by simpa using hi) (by simpa using hr)
    | zero =>
      simp only [List.getElem?_cons_zero, Option.some.injEq, recordsFrom] at hi hr
      subst hi hr
      have hd2 : bytes.drop (pos + 512) = x.contents ++ (List.replicate (pad x.contents.length) 0 ++ (es.flatMap entryBytes ++ rest)) := by
        rw [← List.drop_drop, hd, List.flatMap_cons, entryBytes, ← headerFor_length hx]
        simp only [List.append_assoc, List.drop_left]
      refine ⟨rfl, ?_, rfl, rfl, ?_, ?_⟩
      · rw [headerFor, headerOf, field_cons (by have := hx.2.1; omega)]
        simp only [List.append_assoc, List.cons_append]
        exact ⟨_, rfl⟩
      · show (bytes.drop (pos + 512)).take _ = _
        rw [hd2, List.take_left]
      · show pos + 512 + _ ≤ _
        have := congrArg List.length hd2
        simp only [List.length_drop, List.length_append] at this
        by_cases h0 : x.contents.length = 0
        · have h3 := congrArg List.length hd
          simp only [List.length_drop, List.length_append, List.flatMap_cons, entry_length hx] at h3
          omega
        · omega

theorem recordsFrom_length (es : List Entry) : ∀ pos, (recordsFrom pos es).length = es.length := by
  induction es with
  | nil => intro pos; rfl
  | cons e es ih => intro pos; simp [recordsFrom, ih]

/-! ## Theorems -/

/-- **C52, names of any length.** As `C52_round_trip_partial`, but a file whose name has more than 12 characters is packed with an empty name. -/
theorem C52_long_name_lost (pf : FloatPrinter) {buf : List Byte} (hb : buf.length = 65536) (fs : List Byte → Opened) (es : List Entry) {archive : File}
    (hpos : archive.pos ≤ archive.bytes.length) (hes : ∀ e ∈ es, e.Packable ∧ fs e.path = .file e.contents e.mtime) :
    ∃ archive', pack pf buf fs archive (es.map Entry.path) = .ok (archive', 0) ∧ archive'.bytes.take archive.pos = archive.bytes.take archive.pos ∧
      (archive'.bytes.length < 2 ^ 62 → ∃ recs : List Record, recs.length = es.length ∧
        (∀ (i : Nat) (e : Entry) (r : Record), es[i]? = some e → recs[i]? = some r → Describes archive'.bytes e.stored r) ∧
        ∀ {σ : Type} (proc : Proc σ) (s : σ) (fuel : Nat), es.length < fuel →
          unpack proc fuel { archive' with pos := archive.pos } s = deliver proc archive'.bytes recs s) := by
  have hp := pack_ok pf hb fs es hpos hes
  refine ⟨_, hp, ?_, ?_⟩
  · rw [write_eq hpos]
    dsimp only
    rw [List.append_assoc, List.take_append_of_le_length (by simp; omega), List.take_of_length_le (by simp; omega)]
  · rw [write_eq hpos]
    dsimp only
    intro hsz
    have hfit : ∀ e ∈ es.map Entry.stored, e.Fits := by
      intro e he
      obtain ⟨x, hx, rfl⟩ := List.mem_map.1 he
      exact stored_fits (hes x hx).1
    generalize hB : (es.map Entry.stored).flatMap entryBytes ++ List.replicate 1024 (0 : Byte) = B at hsz ⊢
    have hd : (archive.bytes.take archive.pos ++ B ++ archive.bytes.drop (archive.pos + B.length)).drop archive.pos = B ++ archive.bytes.drop (archive.pos + B.length) := by
      have hl : (archive.bytes.take archive.pos).length = archive.pos := by simp; omega
      rw [List.append_assoc, List.drop_append, hl, Nat.sub_self, List.drop_zero, List.drop_of_length_le (by omega), List.nil_append]
    refine ⟨recordsFrom archive.pos (es.map Entry.stored), by rw [recordsFrom_length, List.length_map], ?_, ?_⟩
    · intro i e r hi hr
      exact describes _ (es.map Entry.stored) archive.pos _ hfit (by rw [hd, ← hB, List.append_assoc]) i e.stored r (by rw [List.getElem?_map, hi]; rfl) hr
    · intro σ proc s fuel hf
      exact unpackLoop_ok proc _ hsz (es.map Entry.stored) fuel archive.pos _ _ s hfit List.length_replicate (by rwa [List.length_map]) (by rw [hB]; exact hd)

/-- **C52, round trip.** Packing any list of files with names of at most 12 characters succeeds, and touches nothing before the position of the archive; unpacking
from there calls the callback once per file, in order, with the name, length and place of the contents in the archive and no error, until it returns a
positive number, and for any callback; the result is 0, or -1 if it did. -/
theorem C52_round_trip_partial (pf : FloatPrinter) {buf : List Byte} (hb : buf.length = 65536) (fs : List Byte → Opened) (es : List Entry) {archive : File}
    (hpos : archive.pos ≤ archive.bytes.length) (hes : ∀ e ∈ es, e.Fits ∧ fs e.path = .file e.contents e.mtime) :
    ∃ archive', pack pf buf fs archive (es.map Entry.path) = .ok (archive', 0) ∧ archive'.bytes.take archive.pos = archive.bytes.take archive.pos ∧
      (archive'.bytes.length < 2 ^ 62 → ∃ recs : List Record, recs.length = es.length ∧
        (∀ (i : Nat) (e : Entry) (r : Record), es[i]? = some e → recs[i]? = some r → Describes archive'.bytes e r) ∧
        ∀ {σ : Type} (proc : Proc σ) (s : σ) (fuel : Nat), es.length < fuel →
          unpack proc fuel { archive' with pos := archive.pos } s = deliver proc archive'.bytes recs s) := by
  obtain ⟨a, h1, h2, h3⟩ := C52_long_name_lost pf hb fs es hpos (fun e he => ⟨⟨(hes e he).1.1, (hes e he).1.2.2⟩, (hes e he).2⟩)
  refine ⟨a, h1, h2, fun hsz => ?_⟩
  obtain ⟨recs, k1, k2, k3⟩ := h3 hsz
  refine ⟨recs, k1, fun i e r hi hr => ?_, k3⟩
  have := k2 i e r hi hr
  have he := (hes e (List.mem_of_getElem? hi)).1
  rwa [Entry.stored, if_pos he.2.1] at this

/-! ### Damaged headers -/

theorem sum_set : ∀ (l : List Byte) (i : Nat) (c d : Byte), l[i]? = some d → ((l.set i c).map BitVec.toNat).sum + d.toNat = (l.map BitVec.toNat).sum + c.toNat := by
  intro l
  induction l with
  | nil => intro i c d h; simp at h
  | cons x l ih =>
    intro i c d h
    cases i with
    | zero => simp at h; subst h; simp; omega
    | succ i =>
      have := ih i c d (by simpa using h)
      simp only [List.set_cons_succ, List.map_cons, List.sum_cons]
      omega

/-- A text up to the first zero. -/
theorem split_zero : ∀ (l : List Byte) (k : Nat), l[k]? = some 0 → ∃ t r, l = t ++ 0 :: r ∧ Text t ∧ t.length ≤ k := by
  intro l
  induction l with
  | nil => intro k h; simp at h
  | cons x l ih =>
    intro k h
    by_cases hx : x = 0
    · exact ⟨[], l, by simp [hx], text_nil, by simp⟩
    · cases k with
      | zero => simp at h; exact absurd h hx
      | succ k =>
        obtain ⟨t, r, e, ht, hl⟩ := ih k (by simpa using h)
        exact ⟨x :: t, r, by simp [e], (by intro y hy; rcases List.mem_cons.1 hy with rfl | hy; exact hx; exact ht y hy), by simp; omega⟩

/-- A number does not depend on what is behind the terminator. -/
theorem strToI64_rest {t : List Byte} (ht : Text t) (r r' : List Byte) : Num.strToI64 (t ++ 0 :: r) 8 = Num.strToI64 (t ++ 0 :: r') 8 := by
  rw [Num.C25_i64_partial ht r (by omega), Num.C25_i64_partial ht r' (by omega)]

theorem checksum_set {hr : List Byte} {i : Nat} (hi : i < 148 ∨ 156 ≤ i) {c d : Byte} (hd : hr[i]? = some d) : checksum (hr.set i c) + d.toNat = checksum hr + c.toNat := by
  rw [checksum, checksum]
  rcases hi with hi | hi
  · have h1 : (hr.set i c).drop 156 = hr.drop 156 := by rw [List.drop_set, if_pos (by omega)]
    have h2 := sum_set (hr.take 148) i c d (by rw [List.getElem?_take, if_pos hi, hd])
    rw [h1, List.take_set]
    omega
  · have h1 : (hr.set i c).take 148 = hr.take 148 := by rw [List.take_set, List.set_eq_of_length_le (by simp; omega)]
    have h2 := sum_set (hr.drop 156) (i - 156) c d (by rw [List.getElem?_drop, show 156 + (i - 156) = i by omega, hd])
    rw [h1, List.drop_set, if_neg (by omega)]
    omega

theorem error_iff {hr : List Byte} (hl : hr.length = 512) {pos : Nat} {r : Record} (h : record hr pos = .ok r) :
    ∃ sum n, Num.strToI64 (hr.drop 148) 8 = .ok (sum, n) ∧ (BitVec.ofInt 64 sum = BitVec.ofNat 64 (checksum hr) ∧ r.error = 0 ∨ BitVec.ofInt 64 sum ≠ BitVec.ofNat 64 (checksum hr) ∧ r.error = 3) := by
  rw [record, rd_ok (by omega), except_ok_bind] at h
  cases h1 : Num.strToI64 (hr.drop 124) 8 with
  | error x => rw [h1] at h; cases h
  | ok p =>
    obtain ⟨p1, p2⟩ := p
    rw [h1, except_ok_bind] at h
    dsimp only at h
    cases h2 : Num.strToI64 (hr.drop 148) 8 with
    | error x => rw [h2] at h; cases h
    | ok q =>
      obtain ⟨q1, q2⟩ := q
      rw [h2, except_ok_bind] at h
      dsimp only at h
      injection h with h
      subst h
      refine ⟨q1, q2, rfl, ?_⟩
      by_cases hs : BitVec.ofInt 64 q1 = BitVec.ofNat 64 (checksum hr)
      · exact .inl ⟨hs, if_neg (by simpa using hs)⟩
      · exact .inr ⟨hs, if_pos hs⟩

/-- **C52, a changed byte.** Of any header that is accepted and whose checksum ends inside its field, change any one byte outside this field: the record of the changed
header, if there is one, has the error "bad checksum". -/
theorem C52_changed_byte {hr : List Byte} (hl : hr.length = 512) (hz : ∃ k, 148 ≤ k ∧ k < 156 ∧ hr[k]? = some 0) {i : Nat} (hi : i < 148 ∨ 156 ≤ i) (hi' : i < 512) {c : Byte}
    (hc : hr[i]? ≠ some c) {pos : Nat} {r r' : Record} (h : record hr pos = .ok r) (h0 : r.error = 0) (h' : record (hr.set i c) pos = .ok r') : r'.error = 3 := by
  obtain ⟨k, hk1, hk2, hk⟩ := hz
  obtain ⟨t, rest, ht, htext, htl⟩ := split_zero (hr.drop 148) (k - 148) (by rw [List.getElem?_drop, show 148 + (k - 148) = k by omega, hk])
  have hsame : Num.strToI64 ((hr.set i c).drop 148) 8 = Num.strToI64 (hr.drop 148) 8 := by
    rw [List.drop_set]
    split
    · rfl
    · rename_i hlt
      rw [ht, List.set_append_right _ _ (by omega), show i - 148 - t.length = (i - 148 - t.length - 1) + 1 by omega, List.set_cons_succ]
      exact strToI64_rest htext _ _
  obtain ⟨sum, n, e1, e2⟩ := error_iff hl h
  obtain ⟨sum', n', e1', e2'⟩ := error_iff (by simpa using hl) h'
  rw [hsame, e1] at e1'
  injection e1' with e1'
  injection e1' with e3 e4
  subst e3
  obtain ⟨d, hd⟩ : ∃ d, hr[i]? = some d := ⟨hr[i]'(by omega), List.getElem?_eq_getElem _⟩
  have hs := checksum_set hi hd (c := c)
  have hcd : c.toNat ≠ d.toNat := fun he => hc (by rw [hd, BitVec.eq_of_toNat_eq he])
  have hlt := checksum_lt hr hl
  have hlt' := checksum_lt (hr.set i c) (by simpa using hl)
  rcases e2 with ⟨e2, -⟩ | ⟨-, e2⟩
  · rcases e2' with ⟨e2', -⟩ | ⟨-, e2'⟩
    · rw [e2] at e2'
      have := congrArg BitVec.toNat e2'
      simp only [BitVec.toNat_ofNat] at this
      omega
    · exact e2'
  · omega

theorem foldl_value (ds : List Nat) : ∀ a, ds.foldl (fun acc d => acc * 8 + d) a = a * 8 ^ ds.length + Num.value 8 ds := by
  induction ds with
  | nil => intro a; simp [Num.value]
  | cons d ds ih =>
    intro a
    have e : Num.value 8 (d :: ds) = d * 8 ^ ds.length + Num.value 8 ds := by
      rw [Num.value, List.foldl_cons, ih]; simp
    rw [List.foldl_cons, ih, e, List.length_cons, Nat.pow_succ, Nat.add_mul, Nat.mul_assoc, Nat.mul_comm 8]
    omega

theorem value_append (a b : List Nat) : Num.value 8 (a ++ b) = Num.value 8 a * 8 ^ b.length + Num.value 8 b := by
  rw [Num.value, List.foldl_append, foldl_value]; rfl

theorem value_cons (d : Nat) (b : List Nat) : Num.value 8 (d :: b) = d * 8 ^ b.length + Num.value 8 b := by
  have := value_append [d] b
  simpa [Num.value] using this

theorem value_lt (ds : List Nat) (h : ∀ d ∈ ds, d < 10) : Num.value 8 ds < 10 ^ ds.length := by
  induction ds with
  | nil => simp [Num.value]
  | cons d ds ih =>
    have h1 := ih (fun x hx => h x (by simp [hx]))
    have h2 := h d (by simp)
    have h3 : 8 ^ ds.length ≤ 10 ^ ds.length := Nat.pow_le_pow_left (by omega) _
    have h4 : d * 8 ^ ds.length ≤ 9 * 10 ^ ds.length := Nat.mul_le_mul (by omega) h3
    rw [value_cons, List.length_cons, Nat.pow_succ]
    omega

theorem digitVal_lt : ∀ c : Byte, ∀ x, Num.digitVal 8 c = some x → x < 10 ∧ c = digit false x := by
  intro c x h
  have : ∀ c : Byte, ∀ x ∈ Num.digitVal 8 c, x < 10 ∧ c = digit false x := by decide +kernel
  exact this c x h

theorem leading_stop (ds : List Nat) (h : ∀ d ∈ ds, d < 10) {c : Byte} (hc : Num.digitVal 8 c = none) (t : List Byte) : Num.leadingDigits 8 (ds.map (digit false) ++ c :: t) = ds := by
  rw [leading_map ds h, Num.leadingDigits, hc, List.append_nil]

theorem record_of {hr : List Byte} {t : Byte} {len sum : Int} {n m pos : Nat} (h1 : rd hr 156 = .ok t) (h2 : Num.strToI64 (hr.drop 124) 8 = .ok (len, n)) (h3 : Num.strToI64 (hr.drop 148) 8 = .ok (sum, m)) :
    record hr pos = .ok { type := t, path := hr, offset := pos, length := len, error := if BitVec.ofInt 64 sum ≠ BitVec.ofNat 64 (checksum hr) then 3 else 0 } := by
  rw [record, h1, except_ok_bind, h2, except_ok_bind]
  dsimp only
  rw [h3, except_ok_bind]

/-- What a changed digit of an octal number is read as. -/
theorem changed_digit {n : Nat} (hn : 0 < n) (hn6 : n < 8 ^ 6) {j : Nat} {c : Byte} (hj : j < (oct n).length) (hc : (oct n)[j]? ≠ some c) (hj0 : c ≠ 0 ∨ j ≠ 0) (r : List Byte) :
    ∃ v m, Num.strToI64 ((oct n).set j c ++ 0 :: r) 8 = .ok (v, m) ∧ v ≠ n ∧ -(2 ^ 40) < v ∧ v < 2 ^ 40 := by
  have hds : ∀ d ∈ digits 8 n, d < 10 := fun d hd => by have := digits_mem (b := 8) (by omega) n d hd; omega
  have hval := digits_value (b := 8) (by omega) n
  have hlen : (digits 8 n).length ≤ 6 := digits_length 6 n (by omega) hn6
  have hoct : oct n = (digits 8 n).map (digit false) := rfl
  rw [hoct, List.length_map] at hj
  obtain ⟨a, d, b, hab, rfl⟩ : ∃ a d b, digits 8 n = a ++ d :: b ∧ a.length = j :=
    ⟨(digits 8 n).take j, (digits 8 n)[j], (digits 8 n).drop (j + 1), by rw [List.getElem_cons_drop, List.take_append_drop], by rw [List.length_take]; omega⟩
  rw [hab] at hds hval hlen
  have hd : c ≠ digit false d := by
    intro h
    refine hc ?_
    rw [hoct, hab, List.map_append, List.map_cons, List.getElem?_append_right (by simp), List.length_map, Nat.sub_self, h]
    rfl
  have ha : ∀ x ∈ a, x < 10 := fun x hx => hds x (by simp [hx])
  have hb : ∀ x ∈ b, x < 10 := fun x hx => hds x (by simp [hx])
  have hset : (oct n).set a.length c = a.map (digit false) ++ c :: b.map (digit false) := by
    rw [hoct, hab, List.map_append, List.map_cons, List.set_append_right _ _ (by simp), List.length_map, Nat.sub_self]
    rfl
  have hpow : ∀ k, k ≤ 6 → (10 : Nat) ^ k ≤ 10 ^ 6 := fun k hk => Nat.pow_le_pow_right (by omega) hk
  rw [List.length_append, List.length_cons] at hlen
  have hsmall : ∀ l : List Nat, (∀ x ∈ l, x < 10) → l.length ≤ 6 → Num.value 8 l < 2 ^ 40 := by
    intro l h1 h2
    have := value_lt l h1
    have := hpow _ h2
    omega
  have htext : ∀ l : List Nat, (∀ x ∈ l, x < 10) → Text (l.map (digit false)) := by
    intro l hl x hx
    obtain ⟨y, hy, rfl⟩ := List.mem_map.1 hx
    exact (digit_val ⟨y, hl y hy⟩).2.1
  have hhead : ∀ (l : List Nat) (t : List Byte), (∀ x ∈ l, x < 10) → l ≠ [] → (l.map (digit false) ++ t).head? ≠ some 0x2d#8 := by
    intro l t hl hne
    cases l with
    | nil => exact absurd rfl hne
    | cons x l =>
      have := (digit_val ⟨x, hl x (by simp)⟩).2.2
      simpa using this
  have h8 : (8 : Nat) ^ b.length ≥ 1 := Nat.pow_pos (by omega)
  have hprefix : Num.value 8 a ≠ n := by
    intro he
    rw [value_append, he, List.length_cons, Nat.pow_succ] at hval
    have : n * 8 ≤ n * (8 ^ b.length * 8) := Nat.mul_le_mul_left _ (by omega)
    omega
  rw [hset]
  by_cases hc0 : c = 0
  · subst hc0
    have hane : a ≠ [] := by
      rintro rfl
      rcases hj0 with h | h
      · exact h rfl
      · exact h rfl
    have := Num.C25_i64_partial (htext a ha) (b.map (digit false) ++ 0 :: r) (base := 8) (by omega)
    have hh := hhead a [] ha hane
    rw [List.append_nil] at hh
    simp only [if_neg hh, Num.after0x, show ¬ (8 = 16 ∧ [0x30#8, 0x78#8] <+: a.map (digit false)) from fun h => absurd h.1 (by omega), if_false] at this
    have hl := leading_map a ha []
    rw [List.append_nil, Num.leadingDigits, List.append_nil] at hl
    have hs := hsmall a ha (by omega)
    rw [hl, if_pos (by omega)] at this
    rw [List.append_assoc, List.cons_append]
    exact ⟨_, _, this, by omega, by omega, by omega⟩
  · have ht : Text (a.map (digit false) ++ c :: b.map (digit false)) := by
      intro x hx
      rcases List.mem_append.1 hx with hx | hx
      · exact htext a ha x hx
      · rcases List.mem_cons.1 hx with rfl | hx
        · exact hc0
        · exact htext b hb x hx
    have := Num.C25_i64_partial ht r (base := 8) (by omega)
    by_cases hm : (a.map (digit false) ++ c :: b.map (digit false)).head? = some 0x2d#8
    · have hae : a = [] := by
        by_cases h : a = []
        · exact h
        · exact absurd hm (hhead a _ ha h)
      subst hae
      rw [List.map_nil, List.nil_append] at hm
      simp only [List.map_nil, List.nil_append, if_pos hm] at this
      simp only [Num.after0x, List.drop_succ_cons, List.drop_zero, show ∀ l, ¬ (8 = 16 ∧ [0x30#8, 0x78#8] <+: l) from fun _ h => absurd h.1 (by omega), if_false] at this
      have hl := leading_map b hb []
      rw [List.append_nil, Num.leadingDigits, List.append_nil] at hl
      have hs := hsmall b hb (by omega)
      rw [hl, if_pos (by omega)] at this
      exact ⟨_, _, this, by omega, by omega, by omega⟩
    · simp only [if_neg hm, Num.after0x, show ∀ l, ¬ (8 = 16 ∧ [0x30#8, 0x78#8] <+: l) from fun _ h => absurd h.1 (by omega), if_false] at this
      cases hdv : Num.digitVal 8 c with
      | none =>
        have hs := hsmall a ha (by omega)
        rw [leading_stop a ha hdv, if_pos (by omega)] at this
        exact ⟨_, _, this, by omega, by omega, by omega⟩
      | some x =>
        obtain ⟨hx, rfl⟩ := digitVal_lt c x hdv
        have hax : ∀ y ∈ a ++ x :: b, y < 10 := by
          intro y hy
          rcases List.mem_append.1 hy with hy | hy
          · exact ha y hy
          · rcases List.mem_cons.1 hy with rfl | hy
            · exact hx
            · exact hb y hy
        have hl := leading_map (a ++ x :: b) hax []
        rw [List.append_nil, Num.leadingDigits, List.append_nil, List.map_append, List.map_cons] at hl
        have hs := hsmall _ hax (by simp; omega)
        rw [hl, if_pos (by omega)] at this
        refine ⟨_, _, this, ?_, by omega, by omega⟩
        intro he
        have hxd : x ≠ d := fun h => hd (by rw [h])
        have he' : Num.value 8 (a ++ x :: b) = Num.value 8 (a ++ d :: b) := by omega
        rw [value_append, value_append, value_cons, value_cons, List.length_cons, List.length_cons] at he'
        have : x * 8 ^ b.length = d * 8 ^ b.length := by omega
        exact hxd (Nat.eq_of_mul_eq_mul_right (by omega) this)

theorem drop_sum {e : Entry} (h : e.Fits) : (headerFor e).drop 124 = field 12 (oct e.contents.length) ++ (field 12 (oct e.mtime.toNat) ++ field 8 (oct (sumOf e)) ++ 0x30#8 :: List.replicate 355 0) ∧
    (headerFor e).drop 148 = field 8 (oct (sumOf e)) ++ 0x30#8 :: List.replicate 355 0 ∧ (headerFor e).drop 156 = 0x30#8 :: List.replicate 355 0 := by
  have l2 := small_length h.2.2.1
  have l3 := small_length h.2.2.2
  have ls := sum_small h
  have l6 := oct_length (n := sumOf e) (k := 6) (by omega) ls
  have k1 : (field 100 e.name).length = 100 := field_length (by have := h.2.1; omega)
  have k2 : (field 12 (oct e.contents.length)).length = 12 := field_length (by omega)
  have k3 : (field 12 (oct e.mtime.toNat)).length = 12 := field_length (by omega)
  have k4 : (field 8 (oct (sumOf e))).length = 8 := field_length (by omega)
  have k5 : (field 8 [0x36#8, 0x36#8, 0x34#8]).length = 8 := rfl
  generalize hA : field 100 e.name ++ field 8 [0x36#8, 0x36#8, 0x34#8] ++ List.replicate 16 0 = A
  have lA : A.length = 124 := by rw [← hA]; simp only [List.length_append, List.length_replicate, k1, k5]
  have d1 : (headerFor e).drop 124 = field 12 (oct e.contents.length) ++ (field 12 (oct e.mtime.toNat) ++ field 8 (oct (sumOf e)) ++ 0x30#8 :: List.replicate 355 0) := by
    rw [headerFor, headerOf, hA, ← lA]
    simp only [List.append_assoc, List.drop_left]
  have d2 : (headerFor e).drop 148 = field 8 (oct (sumOf e)) ++ 0x30#8 :: List.replicate 355 0 := by
    have : (headerFor e).drop 148 = ((headerFor e).drop 124).drop 24 := by rw [List.drop_drop]
    rw [this, d1, show (24 : Nat) = (field 12 (oct e.contents.length) ++ field 12 (oct e.mtime.toNat)).length by rw [List.length_append, k2, k3]]
    rw [show field 12 (oct e.contents.length) ++ (field 12 (oct e.mtime.toNat) ++ field 8 (oct (sumOf e)) ++ 0x30#8 :: List.replicate 355 0) =
      field 12 (oct e.contents.length) ++ field 12 (oct e.mtime.toNat) ++ (field 8 (oct (sumOf e)) ++ 0x30#8 :: List.replicate 355 0) by simp only [List.append_assoc], List.drop_left]
  refine ⟨d1, d2, ?_⟩
  have : (headerFor e).drop 156 = ((headerFor e).drop 148).drop 8 := by rw [List.drop_drop]
  rw [this, d2]
  exact List.drop_left' k4

/-- **C52, a changed checksum.** Of the header of a packed file, change any one digit of the checksum (other than the first one to zero): the record has the error "bad
checksum".  (The checksum stands at the bytes 148 to 155; what is not a digit there is zero.) -/
theorem C52_changed_checksum (pf : FloatPrinter) {e : Entry} (h : e.Fits) {hr : List Byte} (hh : header pf e.path (BitVec.ofNat 64 e.contents.length) e.mtime = .ok hr) {i : Nat}
    (hi : 148 ≤ i) (hi' : i < 156) {c d : Byte} (hd : hr[i]? = some d) (hd0 : d ≠ 0) (hc : c ≠ d) (hc0 : c ≠ 0 ∨ i ≠ 148) (pos : Nat) :
    ∃ r, record (hr.set i c) pos = .ok r ∧ r.error = 3 := by
  obtain rfl : hr = headerFor e := by
    have := header_ok pf h (snprintf_s pf h.1 h.2.1 e.after)
    rw [Entry.path, this] at hh
    injection hh with hh
    exact hh.symm
  obtain ⟨d1, d2, d3⟩ := drop_sum h
  have l2 := small_length h.2.2.1
  have ls := sum_small h
  have l6 := oct_length (n := sumOf e) (k := 6) (by omega) ls
  have hpos : 0 < sumOf e := by rw [sumOf, checksum]; omega
  have hl := headerFor_length h
  have hsum : (headerFor e).drop 148 = oct (sumOf e) ++ 0 :: (List.replicate (8 - (oct (sumOf e)).length - 1) 0 ++ 0x30#8 :: List.replicate 355 0) := by
    rw [d2, field_cons (by omega), List.append_assoc, List.cons_append]
  have hget : ((headerFor e).drop 148)[i - 148]? = some d := by rw [List.getElem?_drop, show 148 + (i - 148) = i by omega, hd]
  have hj : i - 148 < (oct (sumOf e)).length := by
    rcases Nat.lt_or_ge (i - 148) (oct (sumOf e)).length with hj | hj
    · exact hj
    · rw [d2, List.getElem?_append_left (by rw [field_length (by omega)]; omega), field, List.getElem?_append_right hj, List.getElem?_replicate, if_pos (by omega)] at hget
      exact absurd (Option.some.inj hget).symm hd0
  have hold : (oct (sumOf e))[i - 148]? = some d := by
    rw [hsum, List.getElem?_append_left hj] at hget
    exact hget
  obtain ⟨v, m, hv, hne, hlo, hhi⟩ := changed_digit hpos ls hj (c := c) (by rw [hold]; intro hx; exact hc (Option.some.inj hx).symm) (by rcases hc0 with h | h; exact .inl h; exact .inr (by omega))
    (List.replicate (8 - (oct (sumOf e)).length - 1) 0 ++ 0x30#8 :: List.replicate 355 0)
  have s2 : Num.strToI64 (((headerFor e).set i c).drop 148) 8 = .ok (v, m) := by
    rw [List.drop_set, if_neg (by omega), hsum, List.set_append_left _ _ hj]
    exact hv
  have s1 : Num.strToI64 (((headerFor e).set i c).drop 124) 8 = .ok ((e.contents.length : Int), (oct e.contents.length).length) := by
    rw [List.drop_set, if_neg (by omega), d1, List.set_append_right _ _ (by rw [field_length (by omega)]; omega), field_cons (by omega), List.append_assoc, List.cons_append,
      oct_value (by have := h.2.2.1; omega)]
  have s0 : rd ((headerFor e).set i c) 156 = .ok 0x30#8 := by
    have : ((headerFor e).set i c)[156]? = ((headerFor e).drop 156)[0]? := by rw [List.getElem?_set_ne (by omega), List.getElem?_drop]
    rw [rd, this, d3, List.getElem?_cons_zero]
  refine ⟨_, record_of s0 s1 s2, ?_⟩
  have hcs : checksum ((headerFor e).set i c) = sumOf e := by
    have h1 : ((headerFor e).set i c).take 148 = (headerFor e).take 148 := by rw [List.take_set, List.set_eq_of_length_le (by simp; omega)]
    have h2 : ((headerFor e).set i c).drop 156 = (headerFor e).drop 156 := by rw [List.drop_set, if_pos (by omega)]
    rw [checksum, h1, h2]
    show checksum (headerFor e) = _
    rw [headerFor, checksum_of _ _ _ _ (by have := h.2.1; omega) (by omega) (by have := small_length h.2.2.2; omega) (by omega), sumOf]
  show (if _ then _ else _ : Int) = 3
  rw [if_pos]
  rw [hcs]
  intro he
  have := congrArg BitVec.toNat he
  simp only [BitVec.toNat_ofInt, BitVec.toNat_ofNat] at this
  omega

/-! ### What goes wrong -/

/-- Any header whose first checksum byte is zero ends the archive: what follows is dropped, and the result is 0. -/
theorem C52_zeroed_checksum_ends {σ : Type} (proc : Proc σ) (fuel : Nat) (f : File) (s : σ) (h : f.pos + 512 ≤ f.bytes.length) (h0 : f.bytes[f.pos + 148]? = some 0) :
    unpack proc (fuel + 1) f s = .ok (s, 0) := by
  have hl : (readAt f.bytes 512 f.pos).length = 512 := by simp [readAt]; omega
  have hr : rd (readAt f.bytes 512 f.pos) 148 = .ok 0 := by
    rw [rd, readAt, List.getElem?_take, if_pos (by omega), List.getElem?_drop, h0]
  rw [unpack, unpackLoop]
  dsimp only
  rw [hl, List.drop_of_length_le (Nat.le_of_eq List.length_replicate), List.append_nil, hr, except_ok_bind, if_pos rfl]

/-- A change behind the terminator of the checksum goes unnoticed (the checksum does not cover its own field). -/
theorem C52_behind_checksum_unnoticed {hr : List Byte} (hl : hr.length = 512) {k i : Nat} (hk : 148 ≤ k) (hki : k < i) (hi : i < 156) (hz : hr[k]? = some 0) (c : Byte) (pos : Nat) :
    record (hr.set i c) pos = (record hr pos).map (fun r => { r with path := hr.set i c }) := by
  have same : ∀ off, off ≤ 148 → Num.strToI64 ((hr.set i c).drop off) 8 = Num.strToI64 (hr.drop off) 8 := by
    intro off ho
    obtain ⟨t, rest, ht, htext, htl⟩ := split_zero (hr.drop off) (k - off) (by rw [List.getElem?_drop, show off + (k - off) = k by omega, hz])
    rw [List.drop_set, if_neg (by omega), ht, List.set_append_right _ _ (by omega), show i - off - t.length = (i - off - t.length - 1) + 1 by omega, List.set_cons_succ]
    exact strToI64_rest htext _ _
  have h0 : rd (hr.set i c) 156 = rd hr 156 := by rw [rd, rd, List.getElem?_set_ne (by omega)]
  have hcs : checksum (hr.set i c) = checksum hr := by
    have h1 : (hr.set i c).take 148 = hr.take 148 := by rw [List.take_set, List.set_eq_of_length_le (by simp; omega)]
    have h2 : (hr.set i c).drop 156 = hr.drop 156 := by rw [List.drop_set, if_pos (by omega)]
    rw [checksum, checksum, h1, h2]
  rw [record, record, h0, same 124 (by omega), same 148 (by omega), hcs]
  cases rd hr 156 with
  | error x => rfl
  | ok a =>
    cases Num.strToI64 (hr.drop 124) 8 with
    | error x => rfl
    | ok b =>
      cases Num.strToI64 (hr.drop 148) 8 with
      | error x => rfl
      | ok d => rfl

/-- The size is stored modulo 4 GiB. -/
theorem C52_size_modulo (pf : FloatPrinter) (path : List Byte) (n k : Nat) (mtime : BitVec 64) :
    header pf path (BitVec.ofNat 64 (n + k * 2 ^ 32)) mtime = header pf path (BitVec.ofNat 64 n) mtime := by
  have : (BitVec.ofNat 64 (n + k * 2 ^ 32)).truncate 32 = (BitVec.ofNat 64 n).truncate 32 := by
    apply BitVec.eq_of_toNat_eq
    simp
  rw [header, header, this]

/-- Behind the end of the archive the last header is used again. -/
theorem unpackLoop_end {e : Entry} (h : e.Fits) (bytes : List Byte) (N : Nat) : ∀ (k : Nat) (pos : Nat), bytes.length ≤ pos → 0 < k → k ≤ N →
    pos + k * (512 + (e.contents.length + pad e.contents.length)) < 2 ^ 63 →
    unpackLoop (fun _ _ (s : Nat) => .ok (s + 1, if s + 1 = N then 1 else 0)) k ⟨bytes, pos⟩ (headerFor e) (N - k) = .ok (N, -1) := by
  intro k
  induction k with
  | zero => intro pos _ h; omega
  | succ k ih =>
    intro pos hpos _ hk hb
    have hg : readAt bytes 512 pos = [] := by rw [readAt, List.drop_eq_nil_of_le hpos, List.take_nil]
    obtain ⟨c, hc, hc0⟩ := rd_sum h
    have hal := align_ok (n := e.contents.length) (by have := h.2.2.1; omega)
    have hs1 : seek ⟨bytes, pos⟩ ((pos : Int) + 512) = ⟨bytes, pos + 512⟩ := by
      rw [seek, if_neg (by omega)]; congr 1
    rw [Nat.add_mul, Nat.one_mul] at hb
    rw [unpackLoop]
    dsimp only
    rw [hg, List.length_nil, List.drop_zero, List.nil_append, hc, except_ok_bind, if_neg hc0, hs1]
    dsimp only
    rw [record_ok h, except_ok_bind, except_ok_bind]
    dsimp only
    by_cases h1 : k = 0
    · subst h1
      rw [if_pos (by omega)]
      congr 2; omega
    · have hne : ¬ (N - (k + 1) + 1 = N) := by omega
      rw [if_neg (by omega), hal, except_ok_bind, Num.i64, if_pos (by omega), except_ok_bind]
      have hs2 : seek ⟨bytes, pos + 512⟩ (((pos + 512 : Nat) : Int) + ((e.contents.length + pad e.contents.length : Nat) : Int)) = ⟨bytes, pos + 512 + (e.contents.length + pad e.contents.length)⟩ := by
        rw [seek, if_neg (by omega)]; congr 1
      rw [hs2, show N - (k + 1) + 1 = N - k by omega]
      exact ih _ (by omega) (by omega) (by omega) (by omega)

/-- An archive that lacks the blocks of zeros at the end: the callback gets the last record again and again, however often it lets the unpacking go on (here: as often
as it likes before it stops it). -/
theorem C52_unterminated_repeats {e : Entry} (h : e.Fits) {N : Nat} (hN : 2 ≤ N) (hsz : N * (512 + (e.contents.length + pad e.contents.length)) < 2 ^ 62) :
    unpack (fun _ _ (s : Nat) => .ok (s + 1, if s + 1 = N then 1 else 0)) N ⟨entryBytes e, 0⟩ 0 = .ok (N, -1) := by
  have hel := entry_length h
  obtain ⟨k, rfl⟩ : ∃ k, N = k + 1 := ⟨N - 1, by omega⟩
  have hg : readAt (entryBytes e) 512 0 = headerFor e := by
    rw [readAt, List.drop_zero, entryBytes, List.append_assoc, ← headerFor_length h, List.take_left]
  obtain ⟨c, hc, hc0⟩ := rd_sum h
  have hal := align_ok (n := e.contents.length) (by have := h.2.2.1; omega)
  have hs1 : seek ⟨entryBytes e, 0⟩ (((0 : Nat) : Int) + 512) = ⟨entryBytes e, 512⟩ := rfl
  rw [Nat.add_mul, Nat.one_mul] at hsz
  rw [unpack, unpackLoop]
  dsimp only
  rw [hg, headerFor_length h, List.drop_of_length_le (Nat.le_of_eq List.length_replicate), List.append_nil, hc, except_ok_bind, if_neg hc0, hs1]
  dsimp only
  rw [record_ok h, except_ok_bind, except_ok_bind]
  dsimp only
  rw [if_neg (by omega), hal, except_ok_bind, Num.i64, if_pos (by omega), except_ok_bind]
  have hs2 : seek ⟨entryBytes e, 512⟩ (((512 : Nat) : Int) + ((e.contents.length + pad e.contents.length : Nat) : Int)) = ⟨entryBytes e, 512 + (e.contents.length + pad e.contents.length)⟩ := by
    rw [seek, if_neg (by omega)]; congr 1
  have := unpackLoop_end h (entryBytes e) (k + 1) k (512 + (e.contents.length + pad e.contents.length)) (by omega) (by omega) (by omega) (by omega)
  rw [show k + 1 - k = 1 by omega] at this
  rw [hs2]
  exact this

/-- A header with the size -512 makes the unpacking read it for ever, whatever the callback does short of stopping it. -/
theorem C52_negative_size_diverges {σ : Type} (proc : Proc σ) (s : σ) (f : File) {r : Record} {c : Byte} (hl : f.pos + 512 ≤ f.bytes.length) (hb : f.bytes.length < 2 ^ 62)
    (hc : f.bytes[f.pos + 148]? = some c) (hc0 : c ≠ 0) (hr : record (readAt f.bytes 512 f.pos) (f.pos + 512) = .ok r) (hlen : r.length = -512)
    (hp : ∀ s, ∃ s' e, proc f.bytes r s = .ok (s', e) ∧ e ≤ 0) (fuel : Nat) : unpack proc fuel f s = .error .diverge := by
  have hlr : (readAt f.bytes 512 f.pos).length = 512 := by simp [readAt]; omega
  have hrd : rd (readAt f.bytes 512 f.pos) 148 = .ok c := by
    rw [rd, readAt, List.getElem?_take, if_pos (by omega), List.getElem?_drop, hc]
  have key : ∀ (fuel : Nat) (hr' : List Byte) (s : σ), hr'.length = 512 → unpackLoop proc fuel f hr' s = .error .diverge := by
    intro fuel
    induction fuel with
    | zero => intro hr' s _; rfl
    | succ fuel ih =>
      intro hr' s hl'
      have hs1 : seek f ((f.pos : Int) + 512) = ⟨f.bytes, f.pos + 512⟩ := by
        rw [seek, if_neg (by omega)]; congr 1
      obtain ⟨s', e, hpe, he⟩ := hp s
      rw [unpackLoop]
      dsimp only
      rw [hlr, List.drop_of_length_le (by omega), List.append_nil, hrd, except_ok_bind, if_neg hc0, hs1]
      dsimp only
      rw [hr, except_ok_bind, hpe, except_ok_bind]
      dsimp only
      rw [if_neg (by omega), hlen, show Align.alignI64 (-512) 512 = .ok (-512) from rfl, except_ok_bind, Num.i64, if_pos (by omega), except_ok_bind]
      have hs2 : seek ⟨f.bytes, f.pos + 512⟩ (((f.pos + 512 : Nat) : Int) + -512) = f := by
        rw [seek, if_neg (by omega)]
        cases f
        simp only [File.mk.injEq, true_and]
        omega
      rw [hs2]
      exact ih _ _ hlr
  exact key fuel _ s List.length_replicate

/-! ## Unpacking to a directory -/

/-- Where a file is unpacked to: a separator is put after the directory if it lacks one. -/
def joined (base name : List Byte) : List Byte := base ++ (if base = [] ∨ base.getLast? = some Path.sep then [] else [Path.sep]) ++ name

/-- Names beginning with `..` are skipped. -/
def skipped (e : Entry) : Bool := e.name.take 2 == [0x2e#8, 0x2e#8]

/-- What is at a path after files have been unpacked: the last file that goes there, or what was there before. -/
def contentsAt (base : List Byte) (es : List Entry) (old : Option (List Byte)) (q : List Byte) : Option (List Byte) :=
  match es.reverse.find? (fun e => joined base e.name == q) with
  | some e => some e.contents
  | none => old

theorem copyOut_ok (archive : List Byte) : ∀ (fuel n pos : Nat) (f : File), f.Ok → pos + n ≤ archive.length → n < fuel →
    copyOut archive fuel n pos f = .ok (write f ((archive.drop pos).take n)) := by
  intro fuel
  induction fuel with
  | zero => intro n pos f _ _ h; omega
  | succ fuel ih =>
    intro n pos f hf hp hn
    have hb : (readAt archive (min 4096 n) pos).length = min 4096 n := by simp [readAt]; omega
    rw [copyOut, if_neg (by omega), Int.toNat_natCast]
    dsimp only
    split
    · rename_i h
      obtain rfl : n = 0 := by omega
      rw [List.take_zero, write_nil hf]
    · rename_i h
      have hcat : readAt archive (min 4096 n) pos ++ (archive.drop (pos + min 4096 n)).take (n - min 4096 n) = (archive.drop pos).take n := by
        have e : n = min 4096 n + (n - min 4096 n) := by omega
        rw [readAt, ← List.drop_drop]
        conv => rhs; rw [e]
        rw [List.take_add]
      split
      · rename_i h2
        have e := ih (n - min 4096 n) (pos + min 4096 n) (write f (readAt archive (min 4096 n) pos)) (write_file hf _) (by omega) (by omega)
        rw [hb, show ((n : Int) - (min 4096 n : Nat)) = ((n - min 4096 n : Nat) : Int) by omega, e, write_write hf, hcat]
      · rename_i h2
        rw [show n - min 4096 n = 0 by omega, List.take_zero, List.append_nil] at hcat
        rw [hcat]

theorem zeros_cons {k : Nat} (h : 0 < k) : List.replicate k (0 : Byte) = 0 :: List.replicate (k - 1) 0 := by
  obtain ⟨m, rfl⟩ : ∃ m, k = m + 1 := ⟨k - 1, by omega⟩
  rfl

theorem text_append {a b : List Byte} (ha : Text a) (hb : Text b) : Text (a ++ b) := by
  intro c hc
  rcases List.mem_append.1 hc with h | h
  · exact ha c h
  · exact hb c h

theorem strcat_zeros {t s : List Byte} (ht : Text t) (hs : Text s) (rest : List Byte) {k : Nat} (h : s.length < k) :
    Copy.strcat (t ++ List.replicate k 0) (s ++ 0 :: rest) = .ok (t ++ s ++ List.replicate (k - s.length) 0) := by
  rw [zeros_cons (k := k) (by omega), Copy.strcat_walk ht, Copy.copyText_ok hs rest _ (by simp; omega), ← zeros_cons (by omega), List.drop_replicate]
  simp [Except.map]

theorem joined_text {base name : List Byte} (hb : Text base) (hn : Text name) : Text (joined base name) := by
  refine text_append (text_append hb ?_) hn
  split
  · exact text_nil
  · intro c hc; rw [List.mem_singleton] at hc; subst hc; decide

theorem target_ok {base name : List Byte} (hb : Text base) (hn : Text name) (rb rn : List Byte) {maxPath : Nat} (h : (joined base name).length < maxPath) :
    target maxPath (base ++ 0 :: rb) (name ++ 0 :: rn) = .ok (joined base name ++ List.replicate (maxPath - (joined base name).length) 0) := by
  have hjl : base.length + name.length ≤ (joined base name).length := by simp [joined]
  have hcpy : Copy.strcpy (List.replicate maxPath 0) (base ++ 0 :: rb) = .ok (base ++ List.replicate (maxPath - base.length) 0) := by
    rw [Copy.strcpy, Copy.copyText_ok hb rb _ (by simp; omega), List.drop_replicate]
  rw [target, strlen_ok hb, except_ok_bind, strlen_ok hn, except_ok_bind, if_pos (by omega), hcpy, except_ok_bind]
  by_cases hbe : base = []
  · subst hbe
    have : rd ([] ++ List.replicate (maxPath - ([] : List Byte).length) (0 : Byte)) 0 = .ok 0 := by
      rw [List.nil_append, zeros_cons (by simp; omega)]; rfl
    rw [this, except_ok_bind, if_neg (by simp), except_ok_bind, strcat_zeros text_nil hn rn (by simp at hjl ⊢; omega)]
    simp [joined]
  · obtain ⟨b, l, hbl⟩ : ∃ b l, base = b ++ [l] := ⟨base.dropLast, base.getLast hbe, (List.dropLast_concat_getLast hbe).symm⟩
    have hlen : base.length = b.length + 1 := by rw [hbl]; simp
    have hlast : base.getLast? = some l := by rw [hbl]; simp
    obtain ⟨c, t, hct⟩ : ∃ c t, base = c :: t := by
      cases base with
      | nil => exact absurd rfl hbe
      | cons c t => exact ⟨c, t, rfl⟩
    have hc0 : c ≠ 0 := hb c (by rw [hct]; simp)
    have h0 : rd (base ++ List.replicate (maxPath - base.length) 0) 0 = .ok c := by rw [hct]; rfl
    have h1 : rd (base ++ List.replicate (maxPath - base.length) 0) (base.length - 1) = .ok l := by
      rw [rd, List.getElem?_append_left (by omega), hlen, Nat.add_sub_cancel, hbl, List.getElem?_append_right (Nat.le_refl _), Nat.sub_self]
      rfl
    rw [h0, except_ok_bind, if_pos hc0, h1, except_ok_bind]
    by_cases hl : l = Path.sep
    · have hj : joined base name = base ++ name := by rw [joined, if_pos (.inr (by rw [hlast, hl])), List.append_nil]
      rw [hj, List.length_append] at h
      rw [if_neg (by simpa using hl), except_ok_bind, strcat_zeros hb hn rn (by omega), hj, List.length_append, Nat.sub_sub]
    · have hj : joined base name = base ++ [Path.sep] ++ name := by
        rw [joined, if_neg]
        rintro (h | h)
        · exact hbe h
        · rw [hlast] at h; exact hl (Option.some.inj h)
      have hs : Text [Path.sep] := by intro c hc; rw [List.mem_singleton] at hc; subst hc; decide
      have hjn : (joined base name).length = base.length + 1 + name.length := by rw [hj]; simp; omega
      have e1 : Copy.strcat (base ++ List.replicate (maxPath - base.length) 0) [Path.sep, 0] = .ok (base ++ [Path.sep] ++ List.replicate (maxPath - base.length - 1) 0) :=
        strcat_zeros hb hs [] (k := maxPath - base.length) (by simp; omega)
      rw [if_pos hl, e1, except_ok_bind, strcat_zeros (text_append hb hs) hn rn (by omega), hjn, hj, Nat.sub_sub, Nat.sub_sub]
      congr 3; omega

theorem makeDirs_ok {s : List Byte} (hs : Text s) {k maxPath : Nat} (hk : 0 < k) (hm : s.length + k = maxPath) (h2 : 2 ≤ maxPath) (d : Disk) :
    ∃ ds, makeDirs maxPath (s ++ List.replicate k 0) d = .ok { d with dirs := d.dirs ++ ds } ∧ ∀ i, 1 ≤ i → s[i]? = some Path.sep → s.take i ∈ ds := by
  rw [zeros_cons hk]
  rcases Path.lastOcc_cases hs (List.replicate (k - 1) 0) (c := Path.sep) (by decide) with ⟨hno, e⟩ | ⟨a, b, hab, hnb, e⟩
  · refine ⟨[], ?_, ?_⟩
    · rw [makeDirs, e, except_ok_bind, List.append_nil]
    · intro i _ hi
      exact absurd (List.mem_of_getElem? hi) hno
  · have ha : Text a := fun c hc => hs c (by rw [hab]; simp [hc])
    have hl : s.length = a.length + 1 + b.length := by rw [hab]; simp; omega
    have hw : wr (s ++ 0 :: List.replicate (k - 1) 0) a.length 0 = .ok (a ++ 0 :: (b ++ 0 :: List.replicate (k - 1) 0)) := by
      rw [wr_ok (by simp; omega), hab, List.append_assoc, List.set_append_right _ _ (Nat.le_refl _), Nat.sub_self]
      rfl
    have hmk := Path.C73_mkdir_recursive ha (b ++ 0 :: List.replicate (k - 1) 0) maxPath h2
    rw [if_pos (by omega)] at hmk
    refine ⟨_, by rw [makeDirs, e, except_ok_bind]; dsimp only; rw [hw, except_ok_bind, hmk, except_ok_bind], ?_⟩
    intro i h1 hi
    rcases Nat.lt_trichotomy i a.length with h | h | h
    · refine List.mem_append_left _ (List.mem_map.2 ⟨i, ?_, ?_⟩)
      · rw [hab, List.getElem?_append_left h] at hi
        rw [List.mem_filter]
        exact ⟨List.mem_range.2 h, by simpa using ⟨h1, hi⟩⟩
      · rw [hab, List.take_append_of_le_length (by omega)]
    · subst h
      refine List.mem_append_right _ ?_
      rw [hab, List.take_left]
      simp
    · rw [hab, List.getElem?_append_right (by omega), show i - a.length = (i - a.length - 1) + 1 by omega, List.getElem?_cons_succ] at hi
      exact absurd (List.mem_of_getElem? hi) hnb

theorem fill_ok {archive : List Byte} {e : Entry} {r : Record} (hd : Describes archive e r) {s : List Byte} (hs : Text s) (hne : s ≠ []) (hl : s.getLast? ≠ some Path.sep) {k : Nat} (hk : 0 < k) (d : Disk) :
    fill archive r (s ++ List.replicate k 0) d = .ok { d with files := fun q => if q = s then some e.contents else d.files q } := by
  obtain ⟨h1, h2, h3, h4, h5, h6⟩ := hd
  have hn : s.length ≠ 0 := fun h => hne (List.length_eq_zero_iff.1 h)
  rw [zeros_cons hk, fill, strlen_ok hs, except_ok_bind]
  rw [List.take_left, if_neg (by simp [hn, hl]), h3, Int.toNat_natCast, copyOut_ok archive (e.contents.length + 1) e.contents.length r.offset ⟨[], 0⟩ (Nat.le_refl _) h6 (by omega), except_ok_bind, h5]
  simp [write_eq (f := ⟨[], 0⟩) (Nat.le_refl _)]

theorem unpackFile_ok {archive : List Byte} {e : Entry} {r : Record} (hd : Describes archive e r) (ht : Text e.name) (hne : e.name ≠ []) (hl : e.name.getLast? ≠ some Path.sep)
    {base : List Byte} (hb : Text base) (rb : List Byte) {maxPath : Nat} (hm : 2 ≤ maxPath) (hj : (joined base e.name).length < maxPath) (d : Disk) :
    ∃ d', unpackFile maxPath (base ++ 0 :: rb) archive r d = .ok (d', 0) ∧
      (∀ q, d'.files q = if skipped e = false ∧ q = joined base e.name then some e.contents else d.files q) ∧ (∀ x ∈ d.dirs, x ∈ d'.dirs) ∧
      (skipped e = false → ∀ i, 1 ≤ i → (joined base e.name)[i]? = some Path.sep → (joined base e.name).take i ∈ d'.dirs) := by
  obtain ⟨h1, ⟨t, h2⟩, h3, h4, h5, h6⟩ := hd
  obtain ⟨x, hx, hx0⟩ := strncmp_ok false ht (t := [0x2e#8, 0x2e#8]) (by intro c hc; revert c; decide) t [] 2
  rw [show List.take 2 [0x2e#8, 0x2e#8] = [0x2e#8, 0x2e#8] from rfl] at hx0
  have hx' : strncmp false r.path [0x2e#8, 0x2e#8, 0] 2 = .ok x := by rw [h2]; exact hx
  rw [unpackFile, if_neg (by simp [h4]), if_neg (by simp [h1]), hx', except_ok_bind]
  by_cases hsk : skipped e = true
  · have : x = 0 := hx0.2 (by simpa [skipped] using hsk)
    rw [if_pos this]
    exact ⟨d, rfl, fun q => by rw [if_neg]; simp [hsk], fun x hx => hx, fun h => by rw [hsk] at h; cases h⟩
  · have hx1 : x ≠ 0 := fun h => hsk (by simpa [skipped] using hx0.1 h)
    have hsk' : skipped e = false := by simpa using hsk
    have hjt := joined_text hb ht
    have hjl : (joined base e.name).getLast? = e.name.getLast? := by rw [joined, List.getLast?_append]; cases h : e.name.getLast? with
      | none => exact absurd (List.getLast?_eq_none_iff.1 h) hne
      | some _ => rfl
    obtain ⟨ds, hds, hin⟩ := makeDirs_ok hjt (k := maxPath - (joined base e.name).length) (maxPath := maxPath) (by omega) (by omega) hm d
    have htg := target_ok hb ht rb t hj
    rw [← h2] at htg
    have hf := fill_ok (archive := archive) (e := e) (r := r) ⟨h1, ⟨t, h2⟩, h3, h4, h5, h6⟩ hjt (by intro h; rw [joined] at h; exact hne (List.append_eq_nil_iff.1 h).2) (by rw [hjl]; exact hl)
      (k := maxPath - (joined base e.name).length) (by omega) { d with dirs := d.dirs ++ ds }
    rw [if_neg hx1, htg, except_ok_bind, hds, except_ok_bind, hf, except_ok_bind]
    refine ⟨_, rfl, ?_, ?_, ?_⟩
    · intro q; simp [hsk']
    · intro y hy; simp [hy]
    · intro _ i hi hg
      have := hin i hi hg
      simp [this]

theorem deliver_ok {archive : List Byte} {base : List Byte} (hb : Text base) (rb : List Byte) {maxPath : Nat} (hm : 2 ≤ maxPath) (es : List Entry) :
    ∀ (recs : List Record) (d : Disk), recs.length = es.length → (∀ (i : Nat) (e : Entry) (r : Record), es[i]? = some e → recs[i]? = some r → Describes archive e r) →
      (∀ e ∈ es, Text e.name ∧ e.name ≠ [] ∧ e.name.getLast? ≠ some Path.sep ∧ (joined base e.name).length < maxPath) →
      ∃ d', deliver (unpackFile maxPath (base ++ 0 :: rb)) archive recs d = .ok (d', 0) ∧
        (∀ q, d'.files q = contentsAt base (es.filter (fun e => !skipped e)) (d.files q) q) ∧ (∀ x ∈ d.dirs, x ∈ d'.dirs) ∧
        (∀ e ∈ es, skipped e = false → ∀ i, 1 ≤ i → (joined base e.name)[i]? = some Path.sep → (joined base e.name).take i ∈ d'.dirs) := by
  induction es with
  | nil =>
    intro recs d hl _ _
    obtain rfl : recs = [] := List.length_eq_zero_iff.1 hl
    exact ⟨d, rfl, fun q => rfl, fun x hx => hx, fun e he => by simp at he⟩
  | cons e es ih =>
    intro recs d hl hd he
    cases recs with
    | nil => simp at hl
    | cons r recs =>
      obtain ⟨a1, a2, a3, a4⟩ := he e (by simp)
      obtain ⟨d1, e1, f1, g1, k1⟩ := unpackFile_ok (hd 0 e r rfl rfl) a1 a2 a3 hb rb hm a4 d
      obtain ⟨d2, e2, f2, g2, k2⟩ := ih recs d1 (by simpa using hl) (fun i e r h1 h2 => hd (i + 1) e r (by simpa using h1) (by simpa using h2)) (fun x hx => he x (by simp [hx]))
      refine ⟨d2, ?_, ?_, fun x hx => g2 x (g1 x hx), ?_⟩
      · rw [deliver, e1, except_ok_bind]
        exact e2
      · intro q
        rw [f2, f1]
        by_cases hsk : skipped e = true
        · rw [List.filter_cons_of_neg (by simp [hsk]), if_neg (by simp [hsk])]
        · rw [List.filter_cons_of_pos (by simpa using hsk), contentsAt, contentsAt, List.reverse_cons, List.find?_append]
          have hsk' : skipped e = false := by simpa using hsk
          cases ((es.filter (fun e => !skipped e)).reverse).find? (fun e => joined base e.name == q) with
          | some x => rfl
          | none =>
            by_cases hq : joined base e.name = q
            · simp [hsk', hq]
            · have : ¬ q = joined base e.name := fun h => hq h.symm
              simp [hq, this]
      · intro x hx hsk i hi hg
        rcases List.mem_cons.1 hx with rfl | hx
        · exact g2 _ (k1 hsk i hi hg)
        · exact k2 x hx hsk i hi hg

/-- **C81.** Unpacking a packed archive to a directory: each file is made there, in order, with its contents (a later one of the same name replaces an earlier one), every
other file stays as it was, and all directories on the way are made first; names beginning with `..` are skipped. -/
theorem C81_unpack_dir_partial (pf : FloatPrinter) {buf : List Byte} (hbuf : buf.length = 65536) (fs : List Byte → Opened) (es : List Entry) {archive : File}
    (hpos : archive.pos ≤ archive.bytes.length) (hes : ∀ e ∈ es, e.Fits ∧ fs e.path = .file e.contents e.mtime) {base : List Byte} (hb : Text base) (rb : List Byte) {maxPath : Nat} (hm : 2 ≤ maxPath)
    (hn : ∀ e ∈ es, e.name ≠ [] ∧ e.name.getLast? ≠ some Path.sep ∧ (joined base e.name).length < maxPath) (d : Disk) :
    ∃ archive', pack pf buf fs archive (es.map Entry.path) = .ok (archive', 0) ∧
      (archive'.bytes.length < 2 ^ 62 → ∀ fuel, es.length < fuel → ∃ d', unpack (unpackFile maxPath (base ++ 0 :: rb)) fuel { archive' with pos := archive.pos } d = .ok (d', 0) ∧
        (∀ q, d'.files q = contentsAt base (es.filter (fun e => !skipped e)) (d.files q) q) ∧
        (∀ e ∈ es, skipped e = false → ∀ i, 1 ≤ i → (joined base e.name)[i]? = some Path.sep → (joined base e.name).take i ∈ d'.dirs)) := by
  obtain ⟨a, h1, h2, h3⟩ := C52_round_trip_partial pf hbuf fs es hpos hes
  refine ⟨a, h1, fun hsz fuel hf => ?_⟩
  obtain ⟨recs, k1, k2, k3⟩ := h3 hsz
  obtain ⟨d', e1, e2, -, e4⟩ := deliver_ok hb rb hm es recs d k1 k2 (fun e he => ⟨(hes e he).1.1, hn e he⟩)
  exact ⟨d', by rw [k3 _ d fuel hf, e1], e2, e4⟩

/-! ### What goes wrong -/

/-- A record with an empty name (that of any file with a name of more than 12 characters) makes unpacking write through an uninitialised file. -/
theorem C81_empty_name_undefined {archive : List Byte} {r : Record} {t : List Byte} (h1 : r.type = 0x30#8) (h2 : r.path = 0 :: t) (h4 : r.error = 0)
    {base : List Byte} (hb : Text base) (rb : List Byte) {maxPath : Nat} (hm : 2 ≤ maxPath) (hj : base.length + 1 < maxPath) (d : Disk) :
    unpackFile maxPath (base ++ 0 :: rb) archive r d = .error .ub := by
  have hjl : (joined base []).length < maxPath := by
    rw [joined, List.append_nil, List.length_append]
    split <;> simp <;> omega
  have hjt := joined_text hb text_nil
  obtain ⟨ds, hds, -⟩ := makeDirs_ok hjt (k := maxPath - (joined base []).length) (maxPath := maxPath) (by omega) (by omega) hm d
  have htg := target_ok hb text_nil rb t hjl
  rw [List.nil_append, ← h2] at htg
  have hx : strncmp false r.path [0x2e#8, 0x2e#8, 0] 2 = .ok 1 := by rw [h2]; rfl
  rw [unpackFile, if_neg (by simp [h4]), if_neg (by simp [h1]), hx, except_ok_bind, if_neg (by decide), htg, except_ok_bind, hds, except_ok_bind, zeros_cons (by omega), fill, strlen_ok hjt, except_ok_bind, List.take_left, if_pos]
  · rfl
  · by_cases hbe : base = []
    · left; subst hbe; rfl
    · right
      rw [joined, List.append_nil]
      by_cases hl : base.getLast? = some Path.sep
      · rw [if_pos (.inr hl), List.append_nil, hl]
      · rw [if_neg (by simp [hbe, hl]), List.getLast?_append]; rfl

/-- The check of the length is off: a directory and a name that together have as many characters as the buffer, or one more, pass it, and the buffer is overrun. -/
theorem C81_path_overrun {base name : List Byte} (hb : Text base) (hbe : base ≠ []) (hl : base.getLast? ≠ some Path.sep) (hn : Text name) (rb rn : List Byte) {maxPath : Nat} (hlt : base.length + 1 < maxPath)
    (h : base.length + name.length = maxPath ∨ base.length + name.length = maxPath + 1) :
    target maxPath (base ++ 0 :: rb) (name ++ 0 :: rn) = .error .oob := by
  have hcpy : Copy.strcpy (List.replicate maxPath 0) (base ++ 0 :: rb) = .ok (base ++ List.replicate (maxPath - base.length) 0) := by
    rw [Copy.strcpy, Copy.copyText_ok hb rb _ (by simp; omega), List.drop_replicate]
  obtain ⟨b, l, hbl⟩ : ∃ b l, base = b ++ [l] := ⟨base.dropLast, base.getLast hbe, (List.dropLast_concat_getLast hbe).symm⟩
  have hlen : base.length = b.length + 1 := by rw [hbl]; simp
  have hlast : base.getLast? = some l := by rw [hbl]; simp
  obtain ⟨c, t, hct⟩ : ∃ c t, base = c :: t := by
    cases base with
    | nil => exact absurd rfl hbe
    | cons c t => exact ⟨c, t, rfl⟩
  have hc0 : c ≠ 0 := hb c (by rw [hct]; simp)
  have h0 : rd (base ++ List.replicate (maxPath - base.length) 0) 0 = .ok c := by rw [hct]; rfl
  have h1 : rd (base ++ List.replicate (maxPath - base.length) 0) (base.length - 1) = .ok l := by
    rw [rd, List.getElem?_append_left (by omega), hlen, Nat.add_sub_cancel, hbl, List.getElem?_append_right (Nat.le_refl _), Nat.sub_self]
    rfl
  have hs : Text [Path.sep] := by intro c hc; rw [List.mem_singleton] at hc; subst hc; decide
  have e1 : Copy.strcat (base ++ List.replicate (maxPath - base.length) 0) [Path.sep, 0] = .ok (base ++ [Path.sep] ++ List.replicate (maxPath - base.length - 1) 0) :=
    strcat_zeros hb hs [] (k := maxPath - base.length) (by simp; omega)
  have over : ∀ (s d : List Byte), Text s → d.length < s.length → Copy.copyText d (s ++ 0 :: rn) = .error .oob := by
    intro s
    induction s with
    | nil => intro d _ h; simp at h
    | cons x s ih =>
      intro d hs hd
      have hx := Text.cons.1 hs
      cases d with
      | nil =>
        rw [List.cons_append, Copy.copyText.eq_def]
        dsimp only
        rw [if_pos hx.1]
      | cons y d =>
        rw [List.cons_append, Copy.copyText.eq_def]
        dsimp only
        rw [if_pos hx.1, ih d hx.2 (by simpa using hd)]
        rfl
  have hl' : l ≠ Path.sep := fun h => hl (by rw [hlast, h])
  rw [target, strlen_ok hb, except_ok_bind, strlen_ok hn, except_ok_bind, if_pos (by omega), hcpy, except_ok_bind, h0, except_ok_bind, if_pos hc0, h1, except_ok_bind, if_pos hl', e1, except_ok_bind,
    zeros_cons (by omega), Copy.strcat_walk (text_append hb hs), over name _ hn (by simp; omega)]
  rfl

/-- The parts of a path between the separators. -/
def parts : List Byte → List (List Byte)
  | [] => [[]]
  | c :: s => if c = Path.sep then [] :: parts s else
    match parts s with
    | p :: ps => (c :: p) :: ps
    | [] => [[c]]

/-- One step on a path: `..` goes up, an empty part or `.` stays. -/
def step (at_ : List (List Byte)) (p : List Byte) : List (List Byte) :=
  if p = [0x2e#8, 0x2e#8] then at_.dropLast else if p = [] ∨ p = [0x2e#8] then at_ else at_ ++ [p]

/-- Where a path leads. -/
def leads (path : List Byte) : List (List Byte) := (parts path).foldl step []

theorem parts_ne : ∀ s, parts s ≠ [] := by
  intro s
  induction s with
  | nil => simp [parts]
  | cons c s ih =>
    rw [parts]
    split
    · simp
    · cases h : parts s with
      | nil => exact absurd h ih
      | cons p ps => simp

theorem parts_append (a b : List Byte) : parts (a ++ Path.sep :: b) = parts a ++ parts b := by
  induction a with
  | nil => simp [parts]
  | cons c a ih =>
    rw [List.cons_append, parts, ih]
    conv => rhs; rw [parts]
    split
    · rfl
    · cases h : parts a with
      | nil => exact absurd h (parts_ne a)
      | cons p ps => rfl

/-- Only names beginning with `..` are skipped: the file `a/../../x` of an archive is unpacked beside the directory, not in it. -/
theorem C81_escapes {base : List Byte} (hbe : base ≠ []) (hl : base.getLast? ≠ some Path.sep) (e : Entry) (hn : e.name = [0x61#8, 0x2f#8, 0x2e#8, 0x2e#8, 0x2f#8, 0x2e#8, 0x2e#8, 0x2f#8, 0x78#8]) :
    skipped e = false ∧ leads (joined base e.name) = (leads base).dropLast ++ [[0x78#8]] := by
  refine ⟨by rw [skipped, hn]; rfl, ?_⟩
  rw [joined, if_neg (by simp [hbe, hl]), List.append_assoc, List.singleton_append, leads, parts_append, List.foldl_append, hn]
  simp [parts, step, leads, Path.sep]

/-! ## The hypotheses are met -/

/-- The file `a/b` with three bytes, and the file `c` with none. -/
def sample : List Entry := [⟨[0x61#8, 0x2f#8, 0x62#8], [], [1#8, 2#8, 3#8], 1000#64⟩, ⟨[0x63#8], [0x7a#8], [], 5#64⟩]

theorem sample_fits : ∀ e ∈ sample, e.Fits := by
  intro e he
  simp only [sample, List.mem_cons, List.not_mem_nil, or_false] at he
  rcases he with rfl | rfl
  · exact ⟨by intro c; revert c; decide, by decide, by decide, by decide⟩
  · exact ⟨by intro c; revert c; decide, by decide, by decide, by decide⟩

/-- C52 and C81: an archive of two files, with a directory `/t`. -/
example : (∀ e ∈ sample, e.Fits ∧ (fun p => if p = sample[0].path then Opened.file sample[0].contents sample[0].mtime else .file sample[1].contents sample[1].mtime) e.path = .file e.contents e.mtime) ∧
    Text [0x2f#8, 0x74#8] ∧ (∀ e ∈ sample, e.name ≠ [] ∧ e.name.getLast? ≠ some Path.sep ∧ (joined [0x2f#8, 0x74#8] e.name).length < 4096) ∧ joined [0x2f#8, 0x74#8] [0x63#8] = [0x2f#8, 0x74#8, 0x2f#8, 0x63#8] := by
  refine ⟨fun e he => ⟨sample_fits e he, ?_⟩, by intro c; revert c; decide, by decide, by decide⟩
  revert e
  decide

/-- The headers of packed files are accepted, with a zero at the end of the checksum field and digits at its beginning. -/
example (pf : FloatPrinter) (e : Entry) (h : e.Fits) : ∃ hr r d, header pf e.path (BitVec.ofNat 64 e.contents.length) e.mtime = .ok hr ∧ hr.length = 512 ∧ record hr 512 = .ok r ∧ r.error = 0 ∧
    hr[155]? = some 0 ∧ hr[148]? = some d ∧ d ≠ 0 := by
  obtain ⟨c, hc, hc0⟩ := rd_sum h
  have hl := headerFor_length h
  have l6 := oct_length (n := sumOf e) (k := 6) (by omega) (sum_small h)
  refine ⟨headerFor e, _, c, header_ok pf h (snprintf_s pf h.1 h.2.1 e.after), hl, record_ok h 512, rfl, ?_, ?_, hc0⟩
  · have : (headerFor e)[155]? = ((headerFor e).drop 148)[7]? := by rw [List.getElem?_drop]
    rw [this, (drop_sum h).2.1, List.getElem?_append_left (by rw [field_length (by omega)]; omega), field, List.getElem?_append_right (by omega), List.getElem?_replicate, if_pos (by omega)]
  · rw [rd] at hc
    cases h1 : (headerFor e)[148]? with
    | none => rw [h1] at hc; cases hc
    | some x => rw [h1] at hc; injection hc with hc; rw [hc]

/-- The header of a file `x` with the size `-1000` and the right checksum. -/
def negative : List Byte := headerOf [0x78#8] [0x2d#8, 0x31#8, 0x30#8, 0x30#8, 0x30#8] [0x30#8] [0x31#8, 0x35#8, 0x34#8, 0x36#8]

example : negative.length = 512 ∧ negative[148]? = some 0x31#8 ∧ ∃ r, record (readAt negative 512 0) 512 = .ok r ∧ r.length = -512 ∧ r.error = 0 :=
  ⟨by decide +kernel, by decide +kernel, ⟨0x30#8, negative, 512, -512, 0⟩, by decide +kernel, rfl, rfl⟩

end Zpl.Tar
