import Verif.Sys.File

/-!
# Moving, copying and removing files, and noticing changes (code/source/core/file_misc.c:89-147, file.c:294-304, 400-424)  -  C118, C119

Over the system of `Verif.Sys.File`.  Simplification: what a system call has done is on the disk; write caches of the system are not modelled. -/

namespace Zpl.File

/-! ## System calls -/

/-- `link(2)`: a second name for a file; the new name must not exist. -/
def sysLink (s : Os) (old new : Name) : Bool × Os :=
  match s.ask 1 with
  | (none, s) => (false, s)
  | (some _, s) =>
    match s.names old, s.names new with
    | some (.file i), none => (true, { s with names := upd s.names new (some (.file i)) })
    | _, _ => (false, s)

/-- `unlink(2)`: takes the name of a file away. -/
def sysUnlink (s : Os) (name : Name) : Bool × Os :=
  match s.ask 1 with
  | (none, s) => (false, s)
  | (some _, s) =>
    match s.names name with
    | some (.file _) => (true, { s with names := upd s.names name none })
    | _ => (false, s)

/-- `remove(3)`: a file or a folder.  Whether the folder is empty is up to the system (`grant`). -/
def sysRemove (s : Os) (name : Name) : Bool × Os :=
  match s.ask 1 with
  | (none, s) => (false, s)
  | (some _, s) =>
    match s.names name with
    | some _ => (true, { s with names := upd s.names name none })
    | none => (false, s)

/-- `sendfile(2)` with a null offset: from the cursor of one descriptor to the cursor of the other, moving both; `none` for -1. -/
def sysSendfile (s : Os) (out inn : Int) (n : Nat) : Option Nat × Os :=
  match s.getFd out, s.getFd inn with
  | some o, some i =>
    if o.wr = false ∨ i.rd = false then (none, s)
    else match s.ask n with
      | (none, s) => (none, s)
      | (some g, s) =>
        let bs := ((s.data i.ino).drop i.pos).take (min n g)
        (some bs.length, ((s.store o.ino o.pos bs).setFd out (some { o with pos := o.pos + bs.length })).setFd inn (some { i with pos := i.pos + bs.length }))
  | _, _ => (none, s)

/-! ## Model -/

/-- file_misc.c:136-139 `zpl_fs_move`: the result and the states after each system call, the last one the state in which it returns. -/
def fsMoveTrace (old new : Name) (s : Os) : Bool × List Os :=
  match sysLink s old new with
  | (true, s1) => let (ok, s2) := sysUnlink s1 old; (ok, [s1, s2])
  | (false, s1) => (false, [s1])

/-- file_misc.c:136-139 `zpl_fs_move` -/
def fsMove (old new : Name) (s : Os) : Bool × Os :=
  match sysLink s old new with
  | (true, s1) => sysUnlink s1 old
  | (false, s1) => (false, s1)

/-- file_misc.c:141-147 `zpl_fs_remove` -/
def fsRemove (name : Name) (s : Os) : Bool × Os := sysRemove s name

/-- file_misc.c:105-134 `zpl_fs_copy` (Linux): `junk` is what `stat_existing.st_size` happens to hold when `fstat` fails. -/
def fsCopy (junk : Int) (old new : Name) (_failIfExists : Bool) (s : Os) : Except Fault (Bool × Os) := do
  let (efd, s) ← sysOpen s old ⟨true, false, false, false, false⟩
  let stSize : Int := match s.getFd efd with
    | some o => (s.data o.ino).length
    | none => junk
  let (nfd, s) ← sysOpen s new ⟨false, true, false, true, false⟩
  let (size, s) := sysSendfile s nfd efd stSize.toNat
  let s := sysClose s nfd
  let s := sysClose s efd
  .ok (decide ((match size with | some k => (k : Int) | none => -1) = stSize), s)

/-- file_misc.c:89-96 `zpl_fs_last_write_time`: `stat` returns 0 when it succeeds, so that the time is taken when it fails - from a structure that nothing has been written to
(`junk`). -/
def lastWriteTime (junk : Nat) (name : Name) (s : Os) : Nat :=
  let statFailed := (s.names name).isNone
  if statFailed then junk else 0

/-- file.c:294-304 `zpl_file_has_changed` (for a file with a name) -/
def hasChanged (junk : Nat) (f : File) (s : Os) : Bool × File :=
  if f.isTemp then (false, f)
  else
    let t := lastWriteTime junk (fileName f) s
    if f.lastWrite ≠ t then (true, { f with lastWrite := t }) else (false, f)

/-- file.c:400-424 `zpl_file_temp`: `tmpfile` makes a file without a name.  The `FILE` it returns is forgotten (its buffer is never given back; not modelled). -/
def fileTemp (s : Os) : (Err × File) × Os :=
  match s.ask 1 with
  | (none, s) => ((.invalid, File.zero), s)
  | (some _, s) =>
    let (fd, s) := Os.newFd { s with data := upd s.data s.nextIno [], nextIno := s.nextIno + 1 } ⟨s.nextIno, 0, true, true, false⟩
    ((.none, { File.zero with fd := fd, isTemp := true }), s)

/-! ## C118: moving, copying, removing

The specification is `contents` of `Verif.Sys.File`: what a name holds, if it is a file. -/

/-- C118.  Moving a file to a name that is not in use: the new name holds what the old one held, the old one is gone, and no other name has changed. -/
theorem C118_move {s : Os} (hb : Benign s) (old new : Name) (bs : List Byte) (ho : contents s old = some bs) (hn : s.names new = none) :
    ∃ s', fsMove old new s = (true, s') ∧ contents s' new = some bs ∧ s'.names old = none ∧ (∀ n, n ≠ old → n ≠ new → s'.names n = s.names n) ∧ s'.data = s.data := by
  obtain ⟨i, hi, hd⟩ : ∃ i, s.names old = some (.file i) ∧ s.data i = bs := by
    unfold contents at ho
    cases e : s.names old with
    | none => simp [e] at ho
    | some x =>
      cases x with
      | folder => simp [e] at ho
      | file i => simp only [e, Option.some.injEq] at ho; exact ⟨i, rfl, ho⟩
  have hne : old ≠ new := by rintro rfl; rw [hi] at hn; cases hn
  obtain ⟨g, hg, -⟩ := hb s.tick 1
  obtain ⟨g2, hg2, -⟩ := hb (s.tick + 1) 1
  have e1 : sysLink s old new = (true, { s.asked with names := upd s.names new (some (.file i)) }) := by
    unfold sysLink Os.ask
    simp only [hg, hi, hn]
    rfl
  have e2 : sysUnlink { s.asked with names := upd s.names new (some (.file i)) } old =
      (true, { s.asked.asked with names := upd (upd s.names new (some (.file i))) old none }) := by
    have : upd s.names new (some (.file i)) old = some (.file i) := by simp [upd, hne, hi]
    unfold sysUnlink Os.ask
    simp only [Os.asked, hg2, this]
  refine ⟨{ s.asked.asked with names := upd (upd s.names new (some (.file i))) old none }, ?_, ?_, ?_, ?_, rfl⟩
  · unfold fsMove
    rw [e1]
    exact e2
  · simp [contents, upd, hne.symm, hd, Os.asked]
  · simp [upd]
  · intro n h1 h2; simp [upd, h1, h2]

/-- C118.  At whatever point of a move the process is killed, and whatever the system refuses: the contents are under the old name or under the new one (or both); no other file or name
is touched; and the file that the new name may have denoted before is still what it denotes. -/
theorem C118_move_crash {s : Os} (old new : Name) (bs : List Byte) (ho : contents s old = some bs) :
    ∀ t ∈ s :: (fsMoveTrace old new s).2, (contents t old = some bs ∨ contents t new = some bs) ∧ (∀ n, n ≠ old → n ≠ new → contents t n = contents s n) ∧
      (s.names new ≠ none → old ≠ new → t.names new = s.names new) ∧ t.data = s.data := by
  obtain ⟨i, hi, hd⟩ : ∃ i, s.names old = some (.file i) ∧ s.data i = bs := by
    unfold contents at ho
    cases e : s.names old with
    | none => simp [e] at ho
    | some x =>
      cases x with
      | folder => simp [e] at ho
      | file i => simp only [e, Option.some.injEq] at ho; exact ⟨i, rfl, ho⟩
  have same : ∀ t : Os, t.names = s.names → t.data = s.data → (contents t old = some bs ∨ contents t new = some bs) ∧ (∀ n, n ≠ old → n ≠ new → contents t n = contents s n) ∧
      (s.names new ≠ none → old ≠ new → t.names new = s.names new) ∧ t.data = s.data := by
    intro t h1 h2
    refine ⟨.inl ?_, fun n _ _ => ?_, fun _ _ => by rw [h1], h2⟩
    · unfold contents; rw [h1, hi]; simp only [h2, hd]
    · unfold contents; rw [h1, h2]
  intro t ht
  rcases List.mem_cons.1 ht with rfl | ht
  · exact same t rfl rfl
  unfold fsMoveTrace sysLink Os.ask at ht
  cases hg : s.grant s.tick 1 with
  | none =>
    simp only [hg, List.mem_singleton] at ht
    subst ht; exact same _ rfl rfl
  | some g =>
    simp only [hg, hi] at ht
    cases hn : s.names new with
    | some x =>
      simp only [hn, List.mem_singleton] at ht
      subst ht
      obtain ⟨a, b, c, d⟩ := same { s with tick := s.tick + 1 } rfl rfl
      exact ⟨a, b, fun _ _ => hn, d⟩
    | none =>
      have hne : old ≠ new := by rintro rfl; rw [hi] at hn; cases hn
      simp only [hn] at ht
      have linked : ∀ t : Os, t.names = upd s.names new (some (.file i)) → t.data = s.data → (contents t old = some bs ∨ contents t new = some bs) ∧
          (∀ n, n ≠ old → n ≠ new → contents t n = contents s n) ∧ (none ≠ (none : Option Ent) → old ≠ new → t.names new = none) ∧ t.data = s.data := by
        intro t h1 h2
        refine ⟨.inl ?_, fun n a b => ?_, fun h => absurd rfl h, h2⟩
        · unfold contents; rw [h1]; simp [upd, hne, hi, h2, hd]
        · unfold contents; rw [h1, h2]; simp [upd, b]
      rcases List.mem_cons.1 ht with rfl | ht
      · exact linked _ rfl rfl
      · have ht := List.mem_singleton.1 ht
        subst ht
        have h1 : upd s.names new (some (.file i)) old = some (.file i) := by simp [upd, hne, hi]
        unfold sysUnlink Os.ask
        cases hg2 : s.grant (s.tick + 1) 1 with
        | none =>
          refine linked _ ?_ ?_ <;> simp only [hg2]
        | some g2 =>
          simp only [hg2, h1]
          refine ⟨.inr ?_, fun n a b => ?_, fun h => absurd rfl h, trivial⟩
          · simp [contents, upd, hne.symm, hd]
          · simp [contents, upd, a, b]

/-- The trace ends in the state and with the result of the call. -/
theorem fsMoveTrace_last (old new : Name) (s : Os) : (fsMoveTrace old new s).1 = (fsMove old new s).1 ∧ (fsMoveTrace old new s).2.getLast? = some (fsMove old new s).2 := by
  unfold fsMoveTrace fsMove
  generalize sysLink s old new = r
  obtain ⟨b, s1⟩ := r
  cases b <;> simp

/-- C118.  A move never replaces what is there: if the new name is in use the call fails and nothing changes. -/
theorem C118_move_keeps_target {s : Os} (old new : Name) (hn : s.names new ≠ none) :
    ∃ s', fsMove old new s = (false, s') ∧ s'.names = s.names ∧ s'.data = s.data := by
  have key : ∃ s', sysLink s old new = (false, s') ∧ s'.names = s.names ∧ s'.data = s.data := by
    unfold sysLink Os.ask
    cases hg : s.grant s.tick 1 with
    | none => exact ⟨_, rfl, rfl, rfl⟩
    | some g =>
      cases e2 : s.names new with
      | none => exact absurd e2 hn
      | some y =>
        cases e : s.names old with
        | none => exact ⟨{ s with tick := s.tick + 1 }, by simp only [e], rfl, rfl⟩
        | some x => cases x <;> exact ⟨{ s with tick := s.tick + 1 }, by simp only [e, e2], rfl, rfl⟩
  obtain ⟨s', e, h1, h2⟩ := key
  exact ⟨s', by unfold fsMove; rw [e], h1, h2⟩

/-- C118, where it fails: when the old name cannot be taken away, the call says that it failed although the new name is there. -/
theorem C118_failed_move_leaves_both {s : Os} (old new : Name) (bs : List Byte) (g : Nat) (ho : contents s old = some bs) (hn : s.names new = none) (hg : s.grant s.tick 1 = some g)
    (hg2 : s.grant (s.tick + 1) 1 = none) :
    ∃ s', fsMove old new s = (false, s') ∧ contents s' old = some bs ∧ contents s' new = some bs := by
  obtain ⟨i, hi, hd⟩ : ∃ i, s.names old = some (.file i) ∧ s.data i = bs := by
    unfold contents at ho
    cases e : s.names old with
    | none => simp [e] at ho
    | some x =>
      cases x with
      | folder => simp [e] at ho
      | file i => simp only [e, Option.some.injEq] at ho; exact ⟨i, rfl, ho⟩
  have hne : old ≠ new := by rintro rfl; rw [hi] at hn; cases hn
  refine ⟨{ s.asked.asked with names := upd s.names new (some (.file i)) }, ?_, ?_, ?_⟩
  · unfold fsMove sysLink Os.ask
    simp only [hg, hi, hn]
    unfold sysUnlink Os.ask
    simp only [hg2]
    rfl
  · simp [contents, upd, hne, hi, hd, Os.asked]
  · simp [contents, upd, hd, Os.asked]

/-- The hypotheses are met: "f" is moved to "n". -/
example : ∃ s', fsMove [0x66#8] [0x6e#8] exOs = (true, s') ∧ contents s' [0x6e#8] = some [0x61#8, 0x62#8, 0x63#8] ∧ s'.names [0x66#8] = none := by
  obtain ⟨s', h1, h2, h3, -⟩ := C118_move exOs_benign [0x66#8] [0x6e#8] [0x61#8, 0x62#8, 0x63#8] rfl rfl
  exact ⟨s', h1, h2, h3⟩

example : ∃ s', fsMove [0x66#8] [0x6e#8] { exOs with grant := fun t n => if t = 0 then some n else none } = (false, s') ∧ contents s' [0x66#8] = some [0x61#8, 0x62#8, 0x63#8] ∧
    contents s' [0x6e#8] = some [0x61#8, 0x62#8, 0x63#8] :=
  C118_failed_move_leaves_both (s := { exOs with grant := fun t n => if t = 0 then some n else none }) [0x66#8] [0x6e#8] _ 1 rfl rfl rfl rfl

/-- C118.  Removing takes the one name away: another name of the same file keeps its contents. -/
theorem C118_remove {s : Os} (hb : Benign s) (name : Name) (h : s.names name ≠ none) :
    ∃ s', fsRemove name s = (true, s') ∧ fsExists name s' = false ∧ ∀ n, n ≠ name → s'.names n = s.names n ∧ contents s' n = contents s n := by
  obtain ⟨g, hg, -⟩ := hb s.tick 1
  cases e : s.names name with
  | none => exact absurd e h
  | some x =>
    refine ⟨{ s.asked with names := upd s.names name none }, ?_, ?_, ?_⟩
    · unfold fsRemove sysRemove Os.ask
      simp only [hg, e]
      rfl
    · simp [fsExists, upd]
    · intro n hn; simp [contents, upd, hn, Os.asked]

/-! ### Copying -/

theorem openCopy {s : Os} (hw : Wf s) (hb : Benign s) (new : Name) (hn : s.names new ≠ some .folder) :
    ∃ fd s' ino, sysOpen s new ⟨false, true, false, true, false⟩ = .ok (fd, s') ∧ 0 ≤ fd ∧ s.getFd fd = none ∧ s'.getFd fd = some ⟨ino, 0, false, true, false⟩ ∧
      (∀ i, i ≠ fd → s'.getFd i = s.getFd i) ∧ s'.names new = some (.file ino) ∧ s'.data ino = (contents s new).getD [] ∧
      (∀ n, n ≠ new → s'.names n = s.names n) ∧ (∀ i, i ≠ ino → s'.data i = s.data i) ∧ s'.live = s.live ∧ s'.grant = s.grant ∧
      (∀ i, s.names new = some (.file i) → ino = i) ∧ (s.names new = none → ino = s.nextIno) := by
  obtain ⟨g, hg, -⟩ := hb s.tick 1
  obtain ⟨m1, m2, m3, m4, m5, m6, m7, m8, m9, m10, m11, m12⟩ := made_props hw new false hn
  have ho := sysOpen_ok (fl := ⟨false, true, false, true, false⟩) hg hn (fun _ => rfl)
  obtain ⟨n1, n2, n3, n4⟩ := newFd_spec (s.made new false).2 ⟨(s.made new false).1, 0, false, true, false⟩
  exact ⟨_, _, (s.made new false).1, ho, n1, (m5 _) ▸ n2, n3, fun i hi => (n4 i hi).trans (m5 i), m1, by simpa using m2, m3, m4, m8, m9, m11, m12⟩

theorem openOld {s : Os} (hw : Wf s) (hb : Benign s) (old : Name) (i : Nat) (hi : s.names old = some (.file i)) :
    ∃ fd s', sysOpen s old ⟨true, false, false, false, false⟩ = .ok (fd, s') ∧ 0 ≤ fd ∧ s.getFd fd = none ∧ s'.getFd fd = some ⟨i, 0, true, false, false⟩ ∧
      (∀ j, j ≠ fd → s'.getFd j = s.getFd j) ∧ s'.names = s.names ∧ s'.data = s.data ∧ s'.live = s.live ∧ s'.grant = s.grant ∧ s'.nextIno = s.nextIno := by
  obtain ⟨g, hg, -⟩ := hb s.tick 1
  have ho : sysOpen s old ⟨true, false, false, false, false⟩ = .ok (s.asked.newFd ⟨i, 0, true, false, false⟩) := by
    unfold sysOpen Os.ask
    simp only [hg, hi]
    rfl
  obtain ⟨n1, n2, n3, n4⟩ := newFd_spec s.asked ⟨i, 0, true, false, false⟩
  exact ⟨_, _, ho, n1, n2, n3, n4, rfl, rfl, rfl, rfl, rfl⟩

theorem getFd_close {s : Os} {fd : Int} {o : Open} (h : s.getFd fd = some o) (i : Int) : (sysClose s fd).getFd i = if i = fd then none else s.getFd i := by
  have h0 := (getFd_some h).1
  rw [sysClose_eq h0]
  split
  · rename_i e; subst e; exact getFd_setFd h _
  · rename_i e; exact getFd_setFd_other h _ e

/-- C118, partial.  Copying a file to a name that is not a folder, on a system that does what it is asked to: the copy begins with the contents of the original, the original and all
other files are as they were, and no descriptor is left open.  Missing: what the target held behind that stays (`C118_copy_leaves_tail`). -/
theorem C118_copy_partial {s : Os} (hw : Wf s) (hb : Benign s) (junk : Int) (fail : Bool) (old new : Name) (bs : List Byte) (ho : contents s old = some bs)
    (hn : s.names new ≠ some .folder) (hne : ¬ SameFile s old new) (hoo : old ≠ new) :
    ∃ s', fsCopy junk old new fail s = .ok (true, s') ∧ contents s' new = some (bs ++ ((contents s new).getD []).drop bs.length) ∧
      (∀ n, n ≠ new → ¬ SameFile s n new → contents s' n = contents s n) ∧ (∀ i, s'.getFd i = s.getFd i) := by
  obtain ⟨i, hi, hd⟩ : ∃ i, s.names old = some (.file i) ∧ s.data i = bs := by
    unfold contents at ho
    cases e : s.names old with
    | none => simp [e] at ho
    | some x =>
      cases x with
      | folder => simp [e] at ho
      | file i => simp only [e, Option.some.injEq] at ho; exact ⟨i, rfl, ho⟩
  obtain ⟨efd, s1, a1, a2, a3, a4, a5, a6, a7, a8, a9, a10⟩ := openOld hw hb old i hi
  have hw1 : Wf s1 := by
    constructor
    · intro n j h; rw [a6] at h; rw [a10]; exact hw.names n j h
    · intro fd o h
      rw [a10]
      by_cases e : fd = efd
      · subst e; rw [a4] at h; cases h; exact hw.names _ _ hi
      · rw [a5 fd e] at h; exact hw.fds fd o h
  have hb1 : Benign s1 := by intro t n; rw [a9]; exact hb t n
  obtain ⟨nfd, s2, ino, b1, b2, b3, b4, b5, b6, b7, b8, b9, b10, b11, b12, b13⟩ := openCopy hw1 hb1 new (by rw [a6]; exact hn)
  have hino : i ≠ ino := by
    rintro rfl
    cases e : s.names new with
    | none => have := b13 (by rw [a6]; exact e); have := hw.names _ _ hi; omega
    | some x =>
      cases x with
      | folder => exact hn e
      | file j => have := b12 j (by rw [a6]; exact e); subst this; exact hne ⟨i, hi, e⟩
  have hfd : efd ≠ nfd := by rintro rfl; rw [a4] at b3; cases b3
  have c4 : s2.getFd efd = some ⟨i, 0, true, false, false⟩ := by rw [b5 efd hfd]; exact a4
  have hd2 : s2.data i = bs := by rw [b9 i hino, a7, hd]
  obtain ⟨g, hg, hgn⟩ := hb s2.tick bs.length
  rw [← a9, ← b11] at hg
  have es : sysSendfile s2 nfd efd bs.length = (some bs.length, ((s2.asked.store ino 0 bs).setFd nfd (some ⟨ino, bs.length, false, true, false⟩)).setFd efd
      (some ⟨i, bs.length, true, false, false⟩)) := by
    unfold sysSendfile
    simp only [b4, c4, Os.ask, hg, hd2]
    rw [if_neg (by simp)]
    simp [Nat.min_eq_left hgn, Os.asked]
  have q1 : (s2.asked.store ino 0 bs).getFd nfd = some ⟨ino, 0, false, true, false⟩ := b4
  have q2 : (s2.asked.store ino 0 bs).getFd efd = some ⟨i, 0, true, false, false⟩ := c4
  have q3 := getFd_setFd q1 (some ⟨ino, bs.length, false, true, false⟩)
  have q4 : ((s2.asked.store ino 0 bs).setFd nfd (some ⟨ino, bs.length, false, true, false⟩)).getFd efd = some ⟨i, 0, true, false, false⟩ := by
    rw [getFd_setFd_other q1 _ hfd]; exact q2
  have q5 : (((s2.asked.store ino 0 bs).setFd nfd (some ⟨ino, bs.length, false, true, false⟩)).setFd efd (some ⟨i, bs.length, true, false, false⟩)).getFd nfd =
      some ⟨ino, bs.length, false, true, false⟩ := by rw [getFd_setFd_other q4 _ hfd.symm]; exact q3
  have q6 : (((s2.asked.store ino 0 bs).setFd nfd (some ⟨ino, bs.length, false, true, false⟩)).setFd efd (some ⟨i, bs.length, true, false, false⟩)).getFd efd =
      some ⟨i, bs.length, true, false, false⟩ := getFd_setFd q4 _
  have q7 : ∀ j, j ≠ nfd → j ≠ efd → (((s2.asked.store ino 0 bs).setFd nfd (some ⟨ino, bs.length, false, true, false⟩)).setFd efd
      (some ⟨i, bs.length, true, false, false⟩)).getFd j = s.getFd j := by
    intro j h1 h2
    rw [getFd_setFd_other q4 _ h2, getFd_setFd_other q1 _ h1]
    exact (b5 j h1).trans (a5 j h2)
  have hdat : (((s2.asked.store ino 0 bs).setFd nfd (some ⟨ino, bs.length, false, true, false⟩)).setFd efd (some ⟨i, bs.length, true, false, false⟩)).data =
      upd s2.data ino (overlay (s2.data ino) 0 bs) := rfl
  have hnam : (((s2.asked.store ino 0 bs).setFd nfd (some ⟨ino, bs.length, false, true, false⟩)).setFd efd (some ⟨i, bs.length, true, false, false⟩)).names = s2.names := rfl
  generalize ((s2.asked.store ino 0 bs).setFd nfd (some ⟨ino, bs.length, false, true, false⟩)).setFd efd (some ⟨i, bs.length, true, false, false⟩) = s3 at es q5 q6 q7 hdat hnam
  have q8 : (sysClose s3 nfd).getFd efd = some ⟨i, bs.length, true, false, false⟩ := by rw [getFd_close q5, if_neg hfd]; exact q6
  refine ⟨sysClose (sysClose s3 nfd) efd, ?_, ?_, ?_, ?_⟩
  · unfold fsCopy
    rw [a1]
    simp only [ok_bind, a4, a7, hd, Int.toNat_natCast]
    rw [b1]
    simp only [ok_bind, es]
    simp
  · show contents s3 new = _
    unfold contents
    rw [hnam, b6]
    simp only [hdat, upd, if_true, b7]
    have : contents s1 new = contents s new := by unfold contents; rw [a6, a7]
    rw [this]
    unfold overlay
    by_cases hbs : bs = []
    · simp [hbs, contents]
    · simp [hbs, contents]
  · intro n h1 h2
    show contents s3 n = contents s n
    unfold contents
    rw [hnam, b8 n h1, a6]
    cases e : s.names n with
    | none => rfl
    | some x =>
      cases x with
      | folder => rfl
      | file j =>
        simp only [hdat]
        have : j ≠ ino := by
          rintro rfl
          cases e2 : s.names new with
          | none => have := b13 (by rw [a6]; exact e2); have := hw.names _ _ e; omega
          | some y =>
            cases y with
            | folder => exact hn e2
            | file k => have := b12 k (by rw [a6]; exact e2); subst this; exact h2 ⟨j, e, e2⟩
        simp only [upd, this, if_false]
        rw [b9 j this, a7]
  · intro j
    rw [getFd_close q8, getFd_close q5]
    by_cases h1 : j = efd
    · rw [if_pos h1, h1, a3]
    · rw [if_neg h1]
      by_cases h2 : j = nfd
      · rw [if_pos h2, h2, ← a5 nfd hfd.symm, b3]
      · rw [if_neg h2]; exact q7 j h2 h1

/-- C118, where it fails: whatever `fail_if_exists` says, an existing target is written to, and when it was longer than the original its tail stays behind the copy - which the call
reports as a success. -/
theorem C118_copy_leaves_tail {s : Os} (hw : Wf s) (hb : Benign s) (junk : Int) (old new : Name) (bs tgt : List Byte) (ho : contents s old = some bs)
    (ht : contents s new = some tgt) (hlen : bs.length < tgt.length) (hne : ¬ SameFile s old new) :
    ∃ s', fsCopy junk old new true s = .ok (true, s') ∧ contents s' new = some (bs ++ tgt.drop bs.length) ∧ contents s' new ≠ some bs := by
  have hoo : old ≠ new := by rintro rfl; rw [ho] at ht; cases ht; omega
  have hn : s.names new ≠ some .folder := by intro e; simp [contents, e] at ht
  obtain ⟨s', h1, h2, -⟩ := C118_copy_partial hw hb junk true old new bs ho hn hne hoo
  rw [ht] at h2
  refine ⟨s', h1, h2, ?_⟩
  rw [h2]
  intro h
  have := congrArg (Option.map List.length) h
  simp at this
  omega

/-- C118, where it fails: copying a file that does not exist makes the target, empty. -/
theorem C118_copy_missing_creates {s : Os} (hw : Wf s) (hb : Benign s) (junk : Int) (fail : Bool) (old new : Name) (ho : s.names old = none) (hn : s.names new = none) :
    ∃ s', fsCopy junk old new fail s = .ok (decide ((-1 : Int) = junk), s') ∧ contents s' new = some [] := by
  obtain ⟨g, hg, -⟩ := hb s.tick 1
  have e1 : sysOpen s old ⟨true, false, false, false, false⟩ = .ok (-1, s.asked) := by
    unfold sysOpen Os.ask
    simp only [hg, ho]
    rfl
  have hneg : ∀ t : Os, t.getFd (-1) = none := by intro t; rfl
  obtain ⟨nfd, s2, ino, b1, b2, b3, b4, b5, b6, b7, -⟩ := openCopy (s := s.asked) ⟨hw.names, hw.fds⟩ hb new (by show s.names new ≠ _; rw [hn]; simp)
  have es : sysSendfile s2 nfd (-1) junk.toNat = (none, s2) := by
    unfold sysSendfile
    rw [b4, hneg]
  refine ⟨sysClose (sysClose s2 nfd) (-1), ?_, ?_⟩
  · unfold fsCopy
    rw [e1]
    simp only [ok_bind, hneg]
    rw [b1]
    simp only [ok_bind, es]
  · show contents s2 new = some []
    unfold contents
    rw [b6]
    have : contents s.asked new = none := by unfold contents; show (match s.names new with | some (.file i) => some (s.data i) | _ => none) = none; rw [hn]
    simp only [b7, this]
    rfl

/-- Two files, the target longer than the original: the hypotheses of the copying theorems are met. -/
def exTwo : Os := { exOs with names := fun n => if n = [1#8] then some (.file 0) else if n = [2#8] then some (.file 1) else none,
                              data := fun i => if i = 0 then [0x61#8] else [0x78#8, 0x79#8], nextIno := 2, fds := [] }

theorem exTwo_wf : Wf exTwo := by
  constructor
  · intro n i h
    have : (if n = [1#8] then some (Ent.file 0) else if n = [2#8] then some (.file 1) else none) = some (.file i) := h
    split at this
    · cases this; decide
    · split at this
      · cases this; decide
      · cases this
  · intro fd o h
    obtain ⟨-, h1⟩ := getFd_some h
    simp [exTwo] at h1

example : ∃ s', fsCopy 0 [1#8] [2#8] true exTwo = .ok (true, s') ∧ contents s' [2#8] = some [0x61#8, 0x79#8] ∧ contents s' [2#8] ≠ some [0x61#8] :=
  C118_copy_leaves_tail exTwo_wf exOs_benign 0 [1#8] [2#8] [0x61#8] [0x78#8, 0x79#8] rfl rfl (by decide) (by rintro ⟨i, h1, h2⟩; simp [exTwo] at h1 h2; omega)

/-! ## C119: noticing that a file has changed -/

/-- C119, partial.  No false alarm: if the file exists at every look, no look reports a change - so none does when nothing has changed.  Missing: that a change is reported
(`C119_change_never_reported`). -/
theorem C119_no_false_alarm_partial (junk : Nat) (f : File) (s : Os) (h0 : f.lastWrite = 0) (h : fsExists (fileName f) s = true) : hasChanged junk f s = (false, f) := by
  have hn : (s.names (fileName f)).isNone = false := by
    have : (s.names (fileName f)).isSome = true := h
    cases e : s.names (fileName f) <;> simp [e] at this ⊢
  unfold hasChanged lastWriteTime
  simp [hn, h0]

/-- C119, where it fails: a file that has been opened, looked at, then changed in whatever way (contents and time of the last change are different) but not removed: the next look
reports that it has not changed; and so does every further one. -/
theorem C119_change_never_reported {mode : BitVec 32} {name : Name} {s s1 : Os} {f : File} (ho : openMode mode name s = .ok ((.none, f), s1)) (looks : List (Nat × Os))
    (h : ∀ l ∈ looks, (l.2.names name).isSome = true) : ∀ l ∈ looks, hasChanged l.1 f l.2 = (false, f) := by
  intro l hl
  have hf : f.name = some name ∧ f.lastWrite = 0 := by
    unfold openMode at ho
    cases ef : openFlags mode with
    | none => simp [ef] at ho
    | some fl =>
      simp only [ef] at ho
      cases e : sysOpen s name fl with
      | error e' => simp [e] at ho
      | ok r =>
        obtain ⟨fd, t⟩ := r
        simp only [e, ok_bind] at ho
        split at ho
        · simp at ho
        · simp only [Except.ok.injEq, Prod.mk.injEq] at ho
          obtain ⟨⟨-, rfl⟩, -⟩ := ho
          exact ⟨rfl, rfl⟩
  exact C119_no_false_alarm_partial l.1 f l.2 hf.2 (by unfold fsExists fileName; rw [hf.1]; exact h l hl)

/-- The hypotheses are met: "f" is opened for writing, and its time of change is another one at the second look. -/
example : ∃ f s1, openMode modeRead [0x66#8] exOs = .ok ((.none, f), s1) ∧ hasChanged 5 f { exOs with mtime := fun _ => 9 } = (false, f) := by
  obtain ⟨f, s1, ino, h1, -⟩ := C115_open exOs_wf .read false 0 (by decide) [0x66#8] 1 rfl (by decide) (by decide)
  exact ⟨f, s1, h1, C119_change_never_reported h1 [(5, { exOs with mtime := fun _ => 9 })] (by simp [exOs]) (5, { exOs with mtime := fun _ => 9 }) (by simp)⟩

/-- C115.  A temporary file: an empty file, open for reading and writing, that has no name; everything of C114 holds of it; and closing it gives the descriptor back. -/
theorem C115_temp {s : Os} (hw : Wf s) (g : Nat) (hg : s.grant s.tick 1 = some g) :
    ∃ f s1, fileTemp s = ((.none, f), s1) ∧ At s1 f s.nextIno ⟨[], 0⟩ ∧ s1.names = s.names ∧ (∀ n, contents s1 n = contents s n) ∧ fileName f = [] ∧
      ∃ s2, close f s1 = .ok ((.none, f), s2) ∧ (∀ i, s2.getFd i = s.getFd i) ∧ s2.names = s.names := by
  obtain ⟨n1, n2, n3, n4⟩ := newFd_spec { s.asked with data := upd s.data s.nextIno [], nextIno := s.nextIno + 1 } ⟨s.nextIno, 0, true, true, false⟩
  have e : fileTemp s = ((.none, { File.zero with fd := (Os.newFd { s.asked with data := upd s.data s.nextIno [], nextIno := s.nextIno + 1 } ⟨s.nextIno, 0, true, true, false⟩).1, isTemp := true }),
      (Os.newFd { s.asked with data := upd s.data s.nextIno [], nextIno := s.nextIno + 1 } ⟨s.nextIno, 0, true, true, false⟩).2) := by
    unfold fileTemp Os.ask
    simp only [hg]
    rfl
  refine ⟨_, _, e, ⟨n3, by simp [Os.newFd, upd], by show 0 < limit; decide⟩, rfl, ?_, rfl, ?_⟩
  · intro n
    unfold contents
    show (match s.names n with | some (.file i) => some (upd s.data s.nextIno [] i) | _ => none) = _
    cases e : s.names n with
    | none => rfl
    | some x =>
      cases x with
      | folder => rfl
      | file i =>
        have := hw.names _ _ e
        simp only [upd]
        rw [if_neg (by omega)]
  · refine ⟨sysClose (Os.newFd { s.asked with data := upd s.data s.nextIno [], nextIno := s.nextIno + 1 } ⟨s.nextIno, 0, true, true, false⟩).2
      (Os.newFd { s.asked with data := upd s.data s.nextIno [], nextIno := s.nextIno + 1 } ⟨s.nextIno, 0, true, true, false⟩).1, ?_, ?_, ?_⟩
    · unfold close
      simp only [File.zero, ok_bind]
      exact if_neg (Int.not_lt.2 n1)
    · intro i
      rw [getFd_close n3]
      split
      · rename_i h; rw [h]; exact n2.symm
      · rename_i h; exact n4 i h
    · unfold sysClose; split <;> rfl

example : ∃ f s1, fileTemp exOs = ((.none, f), s1) ∧ At s1 f 1 ⟨[], 0⟩ := by
  obtain ⟨f, s1, h1, h2, -⟩ := C115_temp exOs_wf 1 rfl
  exact ⟨f, s1, h1, h2⟩

end Zpl.File
