import Verif.Sys.File
import Verif.Parse.WriteString

/-!
# Documents saved to files (zpl_file_create, zpl_json_write or zpl_csv_write_delimiter, zpl_file_close; zpl_file_read_contents, zpl_json_parse or zpl_csv_parse_delimiter)  -  C162

The writers are modelled in Json and Csv with an output to which every print call appends; here the output is a file of Sys/File, and the division of the text into
print calls is arbitrary.

## Model -/

namespace Zpl.SaveLoad

open Zpl.File Zpl.Print Zpl.Fprintf

/-- print.c:14-19: the writes of a sequence of print calls.  With `checked` the writer gives up when one reports a failure (json.c:25-28); the writer of CSV looks at none of
the results. -/
def prints (checked : Bool) (f : File) (s : Os) : List (List Byte) → Except Fault (Bool × Os)
  | [] => .ok (true, s)
  | c :: cs => do
    let (ok, s) ← write f c s
    if checked ∧ ok = false then .ok (false, s) else prints checked f s cs

/-- What a program does that saves a document: `zpl_file_create`, the writer (json.c:42-51, csv.c:162-213), `zpl_file_close`.  `none` when the file cannot be created,
otherwise what the writer answers. -/
def save (checked : Bool) (path : Name) (chunks : List (List Byte)) (s : Os) : Except Fault (Option Bool × Os) := do
  let ((e, f), s) ← create path s
  if e ≠ .none then .ok (none, s)
  else do
    let (ok, s) ← prints checked f s chunks
    let (_, s) ← close f s
    .ok (some ok, s)

/-- ... and one that loads it: `zpl_file_read_contents` with a zero behind the text; the block. -/
def load (path : Name) (s : Os) : Except Fault (Option (List (Option Byte)) × Os) := do
  let (r, s) ← readContents true path s
  .ok (r.map Prod.fst, s)

/-! ## Lemmas -/

theorem stored_end (d bs : List Byte) : stored d d.length bs = d ++ bs := by
  rw [← stored_eq]
  unfold overlay
  split
  · next h => rw [h]; simp
  · simp

theorem prints_ok (checked : Bool) {f : File} {ino : Nat} (chunks : List (List Byte)) : ∀ {s : Os} {bytes : List Byte}, Benign s → At s f ino ⟨bytes, bytes.length⟩ →
    bytes.length + chunks.flatten.length < limit →
    ∃ s', prints checked f s chunks = .ok (true, s') ∧ At s' f ino ⟨bytes ++ chunks.flatten, (bytes ++ chunks.flatten).length⟩ ∧ Only f.fd ino s s' := by
  induction chunks with
  | nil => intro s bytes _ h _; exact ⟨s, rfl, by simpa using h, Only.refl _ _ _⟩
  | cons c cs ih =>
    intro s bytes hb h hl
    simp only [List.flatten_cons, List.length_append] at hl
    have hm : history ⟨bytes, bytes.length⟩ [.write c] = some ([.wrote true], ⟨bytes ++ c, (bytes ++ c).length⟩) := by
      simp only [history, meaning]
      rw [if_pos (by omega)]
      simp [stored_end]
    obtain ⟨s1, e1, h1, o1⟩ := C114_history_partial [.write c] s hb h hm
    have hw : write f c s = .ok (true, s1) := by
      simp only [performAll, perform] at e1
      cases e : write f c s with
      | error x => rw [e] at e1; cases e1
      | ok y =>
        rw [e] at e1
        obtain ⟨a, b⟩ := y
        injection e1 with e1
        injection e1 with e2 e3
        injection e2 with e2
        injection e2 with e2
        rw [← e2, ← e3]
    have hb1 : Benign s1 := by intro t n; rw [o1.grant]; exact hb t n
    obtain ⟨s2, e2, h2, o2⟩ := ih hb1 h1 (by rw [List.length_append]; omega)
    refine ⟨s2, ?_, by simpa using h2, o1.trans o2⟩
    rw [prints, hw, ok_bind]
    simpa using e2

theorem create_eq (name : Name) (s : Os) : create name s = openMode (modeBits .write true ||| 0) name s := rfl

/-! ## C162 -/

/-- **C162, the file.**  On a system that does what it is asked to, however the text is divided among the print calls: afterwards the file holds just the text, whatever was there before,
the other files are as they were, no descriptor is left open and no memory is held. -/
theorem C162_save (checked : Bool) {s : Os} (hw : Wf s) (hb : Benign s) (path : Name) (hn : s.names path ≠ some .folder) (chunks : List (List Byte))
    (hl : chunks.flatten.length < limit) :
    ∃ s', save checked path chunks s = .ok (some true, s') ∧ contents s' path = some chunks.flatten ∧
      (∀ n, n ≠ path → ¬ SameFile s n path → contents s' n = contents s n) ∧ (∀ i, s'.getFd i = s.getFd i) ∧ s'.live = s.live ∧ Wf s' ∧ Benign s' := by
  obtain ⟨g, hg, -⟩ := hb s.tick 1
  obtain ⟨f, s1, ino, o1, o2, o3, o4, o5, o6, o7, o8, -, -, o9, o10, o11, o12, o13, o14, o15, o16, o17⟩ :=
    C115_open hw .write true 0 (by decide) path g hg hn nofun
  have hd : s1.data ino = [] := by
    unfold contents at o2
    rw [o5] at o2
    simpa using o2
  have hb1 : Benign s1 := by intro t n; rw [o14]; exact hb t n
  have hat : At s1 f ino ⟨[], ([] : List Byte).length⟩ := ⟨by rw [o6]; rfl, hd, by unfold limit; simp⟩
  obtain ⟨s2, e2, h2, q⟩ := prints_ok checked chunks hb1 hat (by simpa using hl)
  simp only [List.nil_append] at h2
  have hw2 : Wf s2 := by
    constructor
    · intro n i hi; rw [q.nextIno]; rw [q.names] at hi; exact o12.names n i hi
    · intro i o hi
      rw [q.nextIno]
      by_cases e : i = f.fd
      · subst e; rw [h2.1] at hi; cases hi; exact o12.names _ _ o5
      · rw [q.others i e] at hi; exact o12.fds i o hi
  refine ⟨sysClose { s2 with live := s2.live - 1 } f.fd, ?_, ?_, ?_, ?_, ?_, closed_wf hw2 h2.1 _, ?_⟩
  · unfold save
    rw [create_eq, o1]
    simp only [ok_bind, ne_eq, not_true_eq_false, if_false, e2, close_named o10 o9 o11]
  · show contents s2 path = some _
    unfold contents
    rw [q.names, o5]
    simp only [h2.2.1]
  · intro n h1 h3
    show contents s2 n = contents s n
    rw [← o3 n h1 h3]
    unfold contents
    rw [q.names]
    have hne := o17 n h1 h3
    rw [← o4 n h1] at hne
    cases e : s1.names n with
    | none => rfl
    | some x =>
      cases x with
      | folder => rfl
      | file j =>
        simp only
        rw [q.files j]
        intro h; apply hne; rw [e, h]
  · exact closed_table o11 o7 (by rw [h2.1]; rfl) (fun i hi => (q.others i hi).trans (o8 i hi)) _
  · show s2.live - 1 = s.live
    rw [q.live, o13]; omega
  · intro t n
    show ∃ g, s2.grant t n = some g ∧ n ≤ g
    rw [q.grant]; exact hb1 t n

/-- **C162, the file read again.** -/
theorem C162_load (checked : Bool) {s : Os} (hw : Wf s) (hb : Benign s) (path : Name) (hn : s.names path ≠ some .folder) (chunks : List (List Byte))
    (hl : chunks.flatten.length < limit) (hne : chunks.flatten ≠ []) :
    ∃ s1 s2, save checked path chunks s = .ok (some true, s1) ∧ load path s1 = .ok (some ((chunks.flatten ++ [0]).map some), s2) ∧
      (∀ n, contents s2 n = contents s1 n) ∧ (∀ i, s2.getFd i = s.getFd i) ∧ s2.live = s.live := by
  obtain ⟨s1, e1, h1, -, h3, h4, h5, h6⟩ := C162_save checked hw hb path hn chunks hl
  obtain ⟨s2, e2, k1, k2, k3⟩ := C116_read_contents h5 h6 true path _ h1 hne hl
  refine ⟨s1, s2, e1, ?_, k1, fun i => (k2 i).trans (h3 i), k3.trans h4⟩
  unfold load
  rw [e2, ok_bind]
  simp

theorem json_empty {ν : Type} (io : Json.NumIO ν) : ∃ e, Json.parse io [0] = .ok (.error e) := ⟨_, by rfl⟩

theorem csv_empty {ν : Type} (io : Json.NumIO ν) (d : Byte) (named : Bool) : Csv.parse io named d [0] = .ok (.unexpectedEnd, []) := by rfl

/-- **C162, JSON, partial.**  A document that is saved with `zpl_json_write` and loaded with `zpl_json_parse` is the same document.  Missing: the documents C49 does not cover. -/
theorem C162_json_partial {ν : Type} {io : Json.NumIO ν} {cmp : Bool} (pf : FloatPrinter) {st : Json.Style} {kind : Json.Kind ν} {kids : List (Json.Node ν)}
    (hd : (Json.Node.mk none st kind kids).Document io cmp) (hk : kind = .obj ∨ kind = .arr) {indent : Int}
    (hi : if cmp then indent = Json.compact else 0 ≤ indent ∧ indent + 4 * (Json.Node.mk none st kind kids).height < 65535) {buf : List Byte} (ho : (⟨buf, []⟩ : Out).Ok)
    {s : Os} (hw : Wf s) (hb : Benign s) (path : Name) (hn : s.names path ≠ some .folder) :
    ∃ o', Json.write io pf ⟨buf, []⟩ (.mk none st kind kids) indent = .ok o' ∧ ∀ chunks : List (List Byte), chunks.flatten = o'.out → o'.out.length < limit →
      ∃ s1 s2 block r, save true path chunks s = .ok (some true, s1) ∧ load path s1 = .ok (some (block.map some), s2) ∧
        Json.parse io block = .ok (.ok r) ∧ r.plain = (Json.Node.mk none st kind kids).plain := by
  obtain ⟨o', text, e, ht, hp⟩ := Json.C49_round_trip_partial pf hd hk hi ho
  refine ⟨o', e, fun chunks hc hl => ?_⟩
  have ht : o'.out = text := ht
  obtain ⟨r, er, hr⟩ := hp []
  have hne : text ≠ [] := by
    rintro rfl
    obtain ⟨x, hx⟩ := json_empty io
    rw [show ([] : List Byte) ++ 0 :: [] = [0] from rfl, hx] at er
    cases er
  obtain ⟨s1, s2, e1, e2, -⟩ := C162_load true hw hb path hn chunks (by rw [hc]; exact hl) (by rw [hc, ht]; exact hne)
  exact ⟨s1, s2, _, r, e1, e2, by rw [hc, ht]; exact er, hr⟩

/-- **C162, CSV, partial.**  The same for a table, `zpl_csv_write_delimiter` and `zpl_csv_parse_delimiter`.  Missing: the tables C50 does not cover. -/
theorem C162_csv_partial {ν : Type} {io : Json.NumIO ν} (pf : FloatPrinter) {delim : Byte} (hd0 : delim ≠ 0) (hdq : delim ≠ 0x22#8) (hdb : ¬ Token.Blank delim)
    {cols : List (Csv.Column ν)} {named : Bool} (hr : Csv.Rectangular named cols) (hok : ∀ c ∈ Csv.inOrder cols, c.Ok io delim) (he : Csv.EmptyLast (Csv.inOrder cols))
    {buf : List Byte} (ho : (⟨buf, []⟩ : Out).Ok) {s : Os} (hw : Wf s) (hb : Benign s) (path : Name) (hn : s.names path ≠ some .folder) :
    ∃ o', Csv.write io pf delim ⟨buf, []⟩ cols = .ok o' ∧ ∀ chunks : List (List Byte), chunks.flatten = o'.out → o'.out.length < limit →
      ∃ s1 s2 block, save false path chunks s = .ok (some true, s1) ∧ load path s1 = .ok (some (block.map some), s2) ∧
        Csv.parse io named delim block = .ok (.none, cols) := by
  obtain ⟨text, ⟨o', e, -, ht⟩, hp⟩ := Csv.C50_round_trip_partial pf hd0 hdq hdb hr hok he ho []
  refine ⟨o', e, fun chunks hc hl => ?_⟩
  have ht : o'.out = text := ht
  have hne : text ≠ [] := by
    rintro rfl
    rw [show ([] : List Byte) ++ 0 :: [] = [0] from rfl, csv_empty io] at hp
    cases hp
  obtain ⟨s1, s2, e1, e2, -⟩ := C162_load false hw hb path hn chunks (by rw [hc]; exact hl) (by rw [hc, ht]; exact hne)
  exact ⟨s1, s2, _, e1, e2, by rw [hc, ht]; exact hp⟩

/-- **C162, deviation: the disk is full.**  When the system takes only `g` bytes of the text, saving answers that all is well, and the file holds a part of the text only. -/
theorem C162_full_disk (checked : Bool) {s : Os} (hw : Wf s) (path : Name) (hn : s.names path ≠ some .folder) (text : List Byte) {g0 g : Nat}
    (hg0 : s.grant s.tick 1 = some g0) (hg : s.grant (s.tick + 1) text.length = some g) (hlt : g < text.length) (hl : text.length < limit) :
    ∃ s', save checked path [text] s = .ok (some true, s') ∧ contents s' path = some (text.take g) ∧ text.take g ≠ text := by
  obtain ⟨f, s1, ino, o1, o2, -, -, o5, o6, -, -, -, -, o9, o10, o11, -, -, o14, o15, -, -⟩ :=
    C115_open hw .write true 0 (by decide) path g0 hg0 hn nofun
  have hd : s1.data ino = [] := by
    unfold contents at o2
    rw [o5] at o2
    simpa using o2
  have hat : At s1 f ino ⟨[], 0⟩ := ⟨by rw [o6]; rfl, hd, by unfold limit; simp⟩
  obtain ⟨s2, e2, h2⟩ := C114_short_write hat text g (by rw [o14, o15]; exact hg) (by simpa using hl)
  have q := quiet_fileWrite e2
  refine ⟨sysClose { s2 with live := s2.live - 1 } f.fd, ?_, ?_, ?_⟩
  · unfold save
    rw [create_eq, o1]
    simp only [ok_bind, ne_eq, not_true_eq_false, if_false, prints, e2, close_named o10 o9 o11]
    simp
  · show contents s2 path = some _
    unfold contents
    rw [q.names, o5]
    simp only [h2.2.1]
    rw [show (0 : Nat) = ([] : List Byte).length from rfl, stored_end, List.nil_append]
  · intro h
    have := congrArg List.length h
    rw [List.length_take] at this
    omega

theorem refused_write {s : Os} (hw : Wf s) (path : Name) (hn : s.names path ≠ some .folder) (text : List Byte) {g0 : Nat}
    (hg0 : s.grant s.tick 1 = some g0) (hg : s.grant (s.tick + 1) text.length = none) (hl : text.length < limit) :
    ∃ f s1 s2 s3, create path s = .ok ((.none, f), s1) ∧ write f text s1 = .ok (false, s2) ∧ (∃ r, close f s2 = .ok (r, s3)) ∧ contents s3 path = some [] := by
  obtain ⟨f, s1, ino, o1, o2, -, -, o5, o6, -, -, -, -, o9, o10, o11, -, -, o14, o15, -, -⟩ :=
    C115_open hw .write true 0 (by decide) path g0 hg0 hn nofun
  have hd : s1.data ino = [] := by
    unfold contents at o2
    rw [o5] at o2
    simpa using o2
  have hat : At s1 f ino ⟨[], 0⟩ := ⟨by rw [o6]; rfl, hd, by unfold limit; simp⟩
  obtain ⟨s2, e2, h2⟩ := (C114_refused hat).2.1 text (by rw [o14, o15]; exact hg) (by simpa using hl)
  have q := quiet_fileWrite e2
  refine ⟨f, s1, s2, sysClose { s2 with live := s2.live - 1 } f.fd, by rw [create_eq, o1], e2, ⟨_, close_named o10 o9 o11 s2⟩, ?_⟩
  show contents s2 path = some _
  unfold contents
  rw [q.names, o5]
  simp only [h2.2.1]

/-- **C162, writing fails.**  When the system refuses to write the first piece, the writer of JSON gives up and says so. -/
theorem C162_error_reported {s : Os} (hw : Wf s) (path : Name) (hn : s.names path ≠ some .folder) (text : List Byte) (more : List (List Byte)) {g0 : Nat}
    (hg0 : s.grant s.tick 1 = some g0) (hg : s.grant (s.tick + 1) text.length = none) (hl : text.length < limit) :
    ∃ s', save true path (text :: more) s = .ok (some false, s') ∧ contents s' path = some [] := by
  obtain ⟨f, s1, s2, s3, e1, e2, ⟨r, e3⟩, e4⟩ := refused_write hw path hn text hg0 hg hl
  refine ⟨s3, ?_, e4⟩
  unfold save
  rw [e1]
  simp only [ok_bind, ne_eq, not_true_eq_false, if_false, prints, e2, true_and, if_true, e3]

/-- **C162, deviation: writing fails.**  The writer of CSV does not notice: it says that all is well, and the file is empty. -/
theorem C162_error_unnoticed {s : Os} (hw : Wf s) (path : Name) (hn : s.names path ≠ some .folder) (text : List Byte) {g0 : Nat}
    (hg0 : s.grant s.tick 1 = some g0) (hg : s.grant (s.tick + 1) text.length = none) (hl : text.length < limit) :
    ∃ s', save false path [text] s = .ok (some true, s') ∧ contents s' path = some [] := by
  obtain ⟨f, s1, s2, s3, e1, e2, ⟨r, e3⟩, e4⟩ := refused_write hw path hn text hg0 hg hl
  refine ⟨s3, ?_, e4⟩
  unfold save
  rw [e1]
  simp only [ok_bind, ne_eq, not_true_eq_false, if_false, prints, e2, Bool.false_eq_true, false_and, e3]

/-- **C162, the file cannot be created.**  It is a folder, or the system refuses: the program is told, and nothing has changed. -/
theorem C162_refused (checked : Bool) {s : Os} (path : Name) (chunks : List (List Byte)) (h : s.names path = some .folder ∨ s.grant s.tick 1 = none) :
    ∃ s', save checked path chunks s = .ok (none, s') ∧ Unchanged s s' := by
  obtain ⟨f, s', e, -, -, h4⟩ := C115_open_fails .write true 0 (by decide) path (s := s) (by
    rcases h with h | h
    · exact .inr (.inl ⟨h, .inr rfl⟩)
    · exact .inr (.inr h))
  refine ⟨s', ?_, h4⟩
  unfold save
  rw [create_eq, e]
  simp only [ok_bind]
  rw [if_pos (by decide)]

/-! ## The hypotheses are met -/

/-- `[]` is saved as "n" in two pieces. -/
example : ∃ s1 s2, save true [0x6e#8] [[0x5b#8], [0x5d#8]] exOs = .ok (some true, s1) ∧ load [0x6e#8] s1 = .ok (some [some 0x5b#8, some 0x5d#8, some 0], s2) := by
  obtain ⟨s1, s2, e1, e2, -⟩ := C162_load true exOs_wf exOs_benign [0x6e#8] (by decide) [[0x5b#8], [0x5d#8]] (by decide) (by decide)
  exact ⟨s1, s2, e1, e2⟩

/-- A disk with room for one byte more. -/
example : ∃ s', save true [0x6e#8] [[0x5b#8, 0x5d#8]] { exOs with grant := fun _ _ => some 1 } = .ok (some true, s') ∧ contents s' [0x6e#8] = some [0x5b#8] := by
  obtain ⟨s', e1, e2, -⟩ := C162_full_disk true (s := { exOs with grant := fun _ _ => some 1 }) ⟨exOs_wf.names, exOs_wf.fds⟩ [0x6e#8] (by decide) [0x5b#8, 0x5d#8] rfl rfl
    (by decide) (by decide)
  exact ⟨s', e1, e2⟩

/-- A system that lets files be opened and refuses to write two bytes. -/
example : (∃ s', save true [0x6e#8] [[0x5b#8, 0x5d#8], [0x0a#8]] { exOs with grant := fun _ n => if n = 2 then none else some n } = .ok (some false, s') ∧ contents s' [0x6e#8] = some []) ∧
    ∃ s', save false [0x6e#8] [[0x5b#8, 0x5d#8]] { exOs with grant := fun _ n => if n = 2 then none else some n } = .ok (some true, s') ∧ contents s' [0x6e#8] = some [] :=
  ⟨C162_error_reported (s := { exOs with grant := fun _ n => if n = 2 then none else some n }) (g0 := 1) ⟨exOs_wf.names, exOs_wf.fds⟩ [0x6e#8] (by decide) [0x5b#8, 0x5d#8] [[0x0a#8]] rfl rfl (by decide),
    C162_error_unnoticed (s := { exOs with grant := fun _ n => if n = 2 then none else some n }) (g0 := 1) ⟨exOs_wf.names, exOs_wf.fds⟩ [0x6e#8] (by decide) [0x5b#8, 0x5d#8] rfl rfl (by decide)⟩

end Zpl.SaveLoad
